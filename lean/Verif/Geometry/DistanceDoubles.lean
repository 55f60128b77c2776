import Verif.Geometry.LogDoubles
import Verif.Geometry.Rotate

/-!
`distance` and `midpoint` for all floats (`nion/utils/Geometry.py:289-296`), C148: rounding to 53 binary digits, gradual underflow and
overflow. Coordinates are finite floats.

`sq` is `math.sqrt`, the double nearest to the root. `pow(x, 2)` of a float raises `OverflowError` when the square is too large; sums and
differences that are too large are infinite without an exception.
-/

set_option linter.unusedSectionVars false

namespace Verif.Geometry

open Verif.Converter

/-! ### Floats with their exponents -/

/-- The nearest float that is not too small: 53 binary digits, but no digits below 2^-1074. -/
def flS (x : ℚ) : ℚ := if |x| < 2 ^ (-1022 : ℤ) then roundHalfEven (x / 2 ^ (-1074 : ℤ)) * 2 ^ (-1074 : ℤ) else fl x

/-- A float that is not NaN. -/
inductive Fl where
  | fin (q : ℚ)
  | inf (negative : Bool)
  deriving DecidableEq

/-- The result of a sum, difference or product of floats. -/
def rnd (x : ℚ) : Fl := if 2 ^ (1024 : ℤ) ≤ |flS x| then .inf (x < 0) else .fin (flS x)

/-- `pow(x, 2)`; none is `OverflowError`. -/
def powTwo : Fl → Option Fl
  | .inf _ => some (.inf false)
  | .fin d => if 2 ^ (1024 : ℤ) ≤ |flS (d * d)| then none else some (.fin (flS (d * d)))

/-- The sum of two squares. -/
def addF : Fl → Fl → Fl
  | .fin a, .fin b => rnd (a + b)
  | _, _ => .inf false

def sqrtF (sq : ℚ → ℚ) : Fl → Fl
  | .fin a => .fin (sq a)
  | .inf _ => .inf false

/-- Lines 289-291. -/
def distanceF (sq : ℚ → ℚ) (p q : Point ℚ) : Option Fl := do
  let y ← powTwo (rnd (q.y - p.y))
  let x ← powTwo (rnd (q.x - p.x))
  return sqrtF sq (addF y x)

/-- `0.5 * x`. -/
def halfF : Fl → Fl
  | .fin a => rnd (1 / 2 * a)
  | .inf n => .inf n

/-- Lines 294-296, one coordinate. -/
def midF (a b : ℚ) : Fl := halfF (rnd (a + b))

/-! ### Specification -/

/-- A finite float. -/
structure Flt (q : ℚ) : Prop where
  dbl : Dbl q
  /-- no digits below 2^-1074 -/
  grid : ∃ z : ℤ, q = z * 2 ^ (-1074 : ℤ)
  range : |q| < 2 ^ (1024 : ℤ)

def Point.Flt (p : Point ℚ) : Prop := Geometry.Flt p.y ∧ Geometry.Flt p.x

/-- `math.sqrt` -/
def SqrtOk (sq : ℚ → ℚ) : Prop := ∀ a : ℚ, Nearest (Real.sqrt a) (sq a)

/-! ### Proofs -/

theorem two_pos' (k : ℤ) : (0 : ℚ) < 2 ^ k := zpow_pos (by norm_num) k

theorem two_lt {a b : ℤ} (h : a < b) : (2 : ℚ) ^ a < 2 ^ b := zpow_lt_zpow_right₀ (by norm_num) h

theorem two_le {a b : ℤ} (h : a ≤ b) : (2 : ℚ) ^ a ≤ 2 ^ b := zpow_le_zpow_right₀ (by norm_num) h

theorem two_add (a b : ℤ) : (2 : ℚ) ^ (a + b) = 2 ^ a * 2 ^ b := zpow_add₀ (by norm_num) a b

theorem dbl_two (k : ℤ) : Dbl (2 ^ k) := ⟨1, k, by norm_num, by simp⟩

theorem flS_grid (x : ℚ) : ∃ z : ℤ, flS x = z * 2 ^ (-1074 : ℤ) := by
  rw [flS]
  split_ifs with h
  · exact ⟨_, rfl⟩
  · rw [not_lt] at h
    have hx : x ≠ 0 := by
      rintro rfl
      rw [abs_zero] at h
      exact absurd (two_pos' (-1022)) (not_lt.2 h)
    have hl : -1022 ≤ Int.log 2 |x| := by
      have := (log2_bounds hx).2
      have := (zpow_lt_zpow_iff_right₀ (by norm_num : (1 : ℚ) < 2)).1 (lt_of_le_of_lt h this)
      omega
    obtain ⟨n, hn⟩ := Int.eq_ofNat_of_zero_le (show 0 ≤ Int.log 2 |x| - 52 + 1074 by omega)
    rw [fl, if_neg hx, show Int.log 2 |x| - 52 = (n : ℤ) + -1074 by omega, two_add, ← mul_assoc]
    refine ⟨roundHalfEven (x / (2 ^ (n : ℤ) * 2 ^ (-1074 : ℤ))) * 2 ^ n, ?_⟩
    rw [Int.cast_mul, Int.cast_pow, Int.cast_ofNat, zpow_natCast]

theorem flS_dbl (x : ℚ) : Dbl (flS x) := by
  rw [flS]
  split_ifs with h
  · refine ⟨_, _, ?_, rfl⟩
    have h1 : |x / 2 ^ (-1074 : ℤ)| < 2 ^ 52 := by
      rw [abs_div, abs_of_pos (two_pos' _), div_lt_iff₀ (two_pos' _)]
      refine h.trans_eq ?_
      rw [← zpow_natCast (2 : ℚ) 52, ← two_add]
      norm_num only
    have h2 := roundHalfEven_near (x / 2 ^ (-1074 : ℤ))
    have h3 := abs_sub_abs_le_abs_sub ((roundHalfEven (x / 2 ^ (-1074 : ℤ)) : ℤ) : ℚ) (x / 2 ^ (-1074 : ℤ))
    have h4 : |((roundHalfEven (x / 2 ^ (-1074 : ℤ)) : ℤ) : ℚ)| ≤ 2 ^ 53 := by
      norm_num only at h1 ⊢
      linarith
    exact_mod_cast h4
  · exact fl_dbl x

theorem flS_nearest (x q : ℚ) (hd : Dbl q) (hg : ∃ z : ℤ, q = z * 2 ^ (-1074 : ℤ)) : |flS x - x| ≤ |q - x| := by
  rw [flS]
  split_ifs with h
  · obtain ⟨z, rfl⟩ := hg
    have e : ∀ m : ℤ, (m : ℚ) * 2 ^ (-1074 : ℤ) - x = ((m : ℚ) - x / 2 ^ (-1074 : ℤ)) * 2 ^ (-1074 : ℤ) := by
      intro m
      rw [sub_mul, div_mul_cancel₀ _ (two_pos' _).ne']
    rw [e, e, abs_mul, abs_mul]
    exact mul_le_mul_of_nonneg_right (round_nearest _ _) (abs_nonneg _)
  · exact fl_nearest x q hd

theorem flS_mono {x y : ℚ} (h : x ≤ y) : flS x ≤ flS y := by
  rcases h.eq_or_lt with rfl | h
  · exact le_refl _
  by_contra hlt
  rw [not_le] at hlt
  have h1 := flS_nearest x _ (flS_dbl y) (flS_grid y)
  have h2 := flS_nearest y _ (flS_dbl x) (flS_grid x)
  rcases abs_cases (flS x - x) with ⟨e1, c1⟩ | ⟨e1, c1⟩ <;> rcases abs_cases (flS y - x) with ⟨e2, c2⟩ | ⟨e2, c2⟩ <;>
    rcases abs_cases (flS y - y) with ⟨e3, c3⟩ | ⟨e3, c3⟩ <;> rcases abs_cases (flS x - y) with ⟨e4, c4⟩ | ⟨e4, c4⟩ <;> linarith

theorem flS_self {q : ℚ} (hd : Dbl q) (hg : ∃ z : ℤ, q = z * 2 ^ (-1074 : ℤ)) : flS q = q := by
  have := flS_nearest q q hd hg
  rw [sub_self, abs_zero, abs_nonpos_iff, sub_eq_zero] at this
  exact this

theorem flS_of_flt {q : ℚ} (h : Flt q) : flS q = q := flS_self h.dbl h.grid

theorem flS_two {k : ℤ} (h : -1074 ≤ k) : flS (2 ^ k) = 2 ^ k := by
  refine flS_self (dbl_two k) ?_
  obtain ⟨n, hn⟩ := Int.eq_ofNat_of_zero_le (show 0 ≤ k + 1074 by omega)
  refine ⟨2 ^ n, ?_⟩
  rw [Int.cast_pow, Int.cast_ofNat, ← zpow_natCast, ← two_add]
  congr 1
  omega

theorem flS_neg (x : ℚ) : flS (-x) = -flS x := by
  rw [flS, flS, abs_neg]
  split_ifs
  · rw [neg_div, round_neg, Int.cast_neg, neg_mul]
  · exact fl_neg x

theorem flS_zero : flS 0 = 0 := by
  have := flS_neg 0
  rw [neg_zero] at this
  linarith

theorem flS_abs (x : ℚ) : |flS x| = flS |x| := by
  rcases le_total 0 x with h | h
  · rw [abs_of_nonneg h, abs_of_nonneg]
    rw [← flS_zero]
    exact flS_mono h
  · rw [abs_of_nonpos h, flS_neg, abs_of_nonpos]
    rw [← flS_zero]
    exact flS_mono h

theorem flS_nonneg {x : ℚ} (h : 0 ≤ x) : 0 ≤ flS x := by
  rw [← flS_zero]
  exact flS_mono h

theorem powTwo_neg (x : ℚ) : powTwo (rnd (-x)) = powTwo (rnd x) := by
  simp only [rnd, flS_neg, abs_neg]
  split_ifs
  · rfl
  · simp only [powTwo, neg_mul_neg]

/-- C148: the distance does not depend on the order of the points, nor does whether it can be computed. -/
theorem C148_symmetric (sq : ℚ → ℚ) (p q : Point ℚ) : distanceF sq p q = distanceF sq q p := by
  rw [distanceF, distanceF, ← neg_sub p.y q.y, ← neg_sub p.x q.x, powTwo_neg, powTwo_neg]

/-- The largest double below a power of two. -/
theorem dbl_lt_two {d : ℚ} {e : ℤ} (h : Dbl d) (hlt : d < 2 ^ e) : d ≤ (2 ^ 53 - 1) * 2 ^ (e - 53) := by
  obtain ⟨z, k, hz, rfl⟩ := h
  have hu := two_pos' (e - 53)
  rcases le_or_gt (e - 53) k with hk | hk
  · obtain ⟨n, hn⟩ := Int.eq_ofNat_of_zero_le (sub_nonneg.2 hk)
    have e1 : (z : ℚ) * 2 ^ k = ((z * 2 ^ n : ℤ) : ℚ) * 2 ^ (e - 53) := by
      push_cast
      rw [mul_assoc, ← zpow_natCast (2 : ℚ) n, ← two_add]
      congr 2
      omega
    have e2 : (2 : ℚ) ^ e = ((2 ^ 53 : ℤ) : ℚ) * 2 ^ (e - 53) := by
      rw [Int.cast_pow, Int.cast_ofNat, ← zpow_natCast (2 : ℚ) 53, ← two_add]
      congr 1
      simp
    rw [e1, e2] at hlt
    have h1 := lt_of_mul_lt_mul_right hlt hu.le
    have h2 : z * 2 ^ n < 2 ^ 53 := by exact_mod_cast h1
    have h3 : ((z * 2 ^ n : ℤ) : ℚ) ≤ 2 ^ 53 - 1 := by
      have : z * 2 ^ n ≤ 2 ^ 53 - 1 := by omega
      exact_mod_cast this
    rw [e1]
    exact mul_le_mul_of_nonneg_right h3 hu.le
  · have hz' : (z : ℚ) ≤ 2 ^ 53 := by exact_mod_cast (le_abs_self z).trans hz
    calc (z : ℚ) * 2 ^ k ≤ 2 ^ 53 * 2 ^ (e - 54) :=
          mul_le_mul hz' (two_le (by omega)) (two_pos' k).le (by norm_num)
      _ = 2 ^ 52 * 2 ^ (e - 53) := by
          rw [show e - 53 = (e - 54) + 1 by ring, two_add]; ring
      _ ≤ (2 ^ 53 - 1) * 2 ^ (e - 53) := mul_le_mul_of_nonneg_right (by norm_num) hu.le

/-- A square is too large exactly if the number is at least 2^512. -/
theorem square_large {d : ℚ} (h : Dbl d) : 2 ^ (1024 : ℤ) ≤ |flS (d * d)| ↔ 2 ^ (512 : ℤ) ≤ |d| := by
  have hd : Dbl |d| := by
    rcases abs_choice d with e | e <;> rw [e]
    · exact h
    · obtain ⟨z, k, hz, rfl⟩ := h
      exact ⟨-z, k, by rwa [abs_neg], by push_cast; ring⟩
  rw [flS_abs, abs_mul]
  have h0 := abs_nonneg d
  generalize |d| = x at hd h0
  constructor
  · intro h1
    by_contra hlt
    rw [not_le] at hlt
    · have h2 := dbl_lt_two hd hlt
      have h3 : x * x ≤ (2 ^ 53 - 1) * 2 ^ (971 : ℤ) := by
        calc x * x ≤ ((2 ^ 53 - 1) * 2 ^ (512 - 53 : ℤ)) * ((2 ^ 53 - 1) * 2 ^ (512 - 53 : ℤ)) := mul_le_mul h2 h2 h0 (mul_nonneg (by norm_num) (two_pos' _).le)
          _ = ((2 ^ 53 - 1) * (2 ^ 53 - 1)) * 2 ^ (918 : ℤ) := by
            rw [show (918 : ℤ) = (512 - 53) + (512 - 53) by norm_num, two_add]; ring
          _ ≤ ((2 ^ 53 - 1) * 2 ^ 53) * 2 ^ (918 : ℤ) := mul_le_mul_of_nonneg_right (by norm_num) (two_pos' _).le
          _ = (2 ^ 53 - 1) * 2 ^ (971 : ℤ) := by
            rw [show (971 : ℤ) = 53 + 918 by norm_num, two_add, show (2 : ℚ) ^ (53 : ℤ) = 2 ^ 53 by norm_num]; ring
      have h4 := flS_mono h3
      have h5 : flS ((2 ^ 53 - 1) * 2 ^ (971 : ℤ)) = (2 ^ 53 - 1) * 2 ^ (971 : ℤ) := by
        refine flS_self ⟨2 ^ 53 - 1, 971, by norm_num, by rw [Int.cast_sub, Int.cast_pow, Int.cast_ofNat, Int.cast_one]⟩ ⟨(2 ^ 53 - 1) * 2 ^ 2045, ?_⟩
        rw [Int.cast_mul, Int.cast_sub, Int.cast_pow, Int.cast_pow, Int.cast_ofNat, Int.cast_one]
        rw [mul_assoc, ← zpow_natCast (2 : ℚ) 2045, ← two_add]
        rfl
      rw [h5] at h4
      have h6 : ((2 : ℚ) ^ 53 - 1) * 2 ^ (971 : ℤ) < 2 ^ (1024 : ℤ) := by
        rw [show (1024 : ℤ) = 53 + 971 by norm_num, two_add]
        exact mul_lt_mul_of_pos_right (by norm_num) (two_pos' _)
      exact absurd (h1.trans h4) (not_le.2 h6)
  · intro h1
    have h2 : (2 : ℚ) ^ (1024 : ℤ) ≤ x * x := by
      rw [show (1024 : ℤ) = 512 + 512 by norm_num, two_add]
      exact mul_le_mul h1 h1 (two_pos' _).le ((two_pos' _).le.trans h1)
    have := flS_mono h2
    rwa [flS_two (by norm_num)] at this

theorem powTwo_none (x : ℚ) : powTwo (rnd x) = none ↔ 2 ^ (512 : ℤ) ≤ |flS x| ∧ |flS x| < 2 ^ (1024 : ℤ) := by
  rw [rnd]
  split_ifs with h
  · simp only [powTwo, reduceCtorEq, false_iff, not_and, not_lt]
    exact fun _ => h
  · simp only [powTwo, square_large (flS_dbl x)]
    split_ifs with h1
    · exact ⟨fun _ => ⟨h1, not_le.1 h⟩, fun _ => rfl⟩
    · simp only [false_iff]
      exact fun h2 => h1 h2.1

/-- C148, exactly when `distance` raises `OverflowError`: if the difference of a coordinate, as a float, is finite and at least 2^512. -/
theorem C148_raises_iff_partial (sq : ℚ → ℚ) (p q : Point ℚ) :
    distanceF sq p q = none ↔
      (2 ^ (512 : ℤ) ≤ |flS (q.y - p.y)| ∧ |flS (q.y - p.y)| < 2 ^ (1024 : ℤ)) ∨
      (2 ^ (512 : ℤ) ≤ |flS (q.x - p.x)| ∧ |flS (q.x - p.x)| < 2 ^ (1024 : ℤ)) := by
  rw [← powTwo_none, ← powTwo_none, distanceF]
  cases h1 : powTwo (rnd (q.y - p.y)) <;> cases h2 : powTwo (rnd (q.x - p.x)) <;> simp

theorem round_zero_iff (y : ℚ) : roundHalfEven y = 0 ↔ |y| ≤ 1 / 2 := by
  constructor
  · intro h
    have := roundHalfEven_near y
    rwa [h, Int.cast_zero, zero_sub, abs_neg] at this
  · intro h
    have h1 := roundHalfEven_near y
    have h2 : |((roundHalfEven y : ℤ) : ℚ)| ≤ 1 := by
      have := abs_sub_abs_le_abs_sub ((roundHalfEven y : ℤ) : ℚ) y
      linarith
    have h3 : |roundHalfEven y| ≤ 1 := by exact_mod_cast h2
    rw [abs_le] at h h3
    have h4 := Int.floor_le y
    have h5 := Int.lt_floor_add_one y
    have f1 : -1 ≤ ⌊y⌋ := Int.le_floor.2 (by push_cast; linarith)
    have f2 : ⌊y⌋ ≤ 0 := Int.lt_add_one_iff.1 (Int.floor_lt.2 (by push_cast; linarith))
    have f3 : ⌊y⌋ = -1 ∨ ⌊y⌋ = 0 := by omega
    rw [roundHalfEven]
    rcases f3 with f | f
    · rw [f]; push_cast
      rw [f] at h5; push_cast at h5
      split_ifs with c1 c2
      · linarith
      · rfl
      · rfl
    · rw [f]; push_cast
      split_ifs with c1 c2
      · rfl
      · linarith
      · rfl

theorem flS_eq_zero (x : ℚ) : flS x = 0 ↔ |x| ≤ 2 ^ (-1075 : ℤ) := by
  have e : (2 : ℚ) ^ (-1075 : ℤ) = 1 / 2 * 2 ^ (-1074 : ℤ) := by
    rw [show (-1075 : ℤ) = -1 + -1074 by norm_num, two_add]
    congr 1
    norm_num
  rw [flS]
  split_ifs with h
  · rw [mul_eq_zero, or_iff_left (two_pos' _).ne', Int.cast_eq_zero, round_zero_iff, abs_div, abs_of_pos (two_pos' (-1074)),
      div_le_iff₀ (two_pos' _), e]
  · rw [not_lt] at h
    have h1 : (2 : ℚ) ^ (-1075 : ℤ) < |x| := (two_lt (by norm_num)).trans_le h
    refine ⟨fun h2 => ?_, fun h2 => absurd h2 (not_le.2 h1)⟩
    have h3 := fl_near x
    rw [h2, zero_sub, abs_neg] at h3
    have h4 : 0 < |x| := (two_pos' _).trans h1
    have h5 : |x| / 2 ^ 53 < |x| := div_lt_self h4 (by norm_num)
    exact absurd h3 (not_le.2 h5)

theorem sqrt_zero {sq : ℚ → ℚ} (h : SqrtOk sq) {a : ℚ} (ha : 0 ≤ a) : sq a = 0 ↔ a = 0 := by
  have h1 := LogTickerD.nearest_acc (h a)
  have h2 := Real.sqrt_nonneg (a : ℝ)
  constructor
  · intro h3
    rw [h3, Rat.cast_zero, zero_sub, abs_neg, abs_of_nonneg h2] at h1
    have h4 : Real.sqrt a = 0 := by
      norm_num only at h1
      linarith
    have := (Real.sqrt_eq_zero (by exact_mod_cast ha)).1 h4
    exact_mod_cast this
  · rintro rfl
    rw [Rat.cast_zero, Real.sqrt_zero, sub_zero, abs_zero, zero_div] at h1
    have := abs_nonpos_iff.1 h1
    exact_mod_cast this

/-- C148, exactly when the distance is zero: if the squares of both differences, as floats, are at most 2^-1075. -/
theorem C148_zero_iff_partial (sq : ℚ → ℚ) (hs : SqrtOk sq) (p q : Point ℚ) :
    distanceF sq p q = some (.fin 0) ↔
      flS (q.y - p.y) * flS (q.y - p.y) ≤ 2 ^ (-1075 : ℤ) ∧ flS (q.x - p.x) * flS (q.x - p.x) ≤ 2 ^ (-1075 : ℤ) := by
  have small : ∀ d : ℚ, d * d ≤ 2 ^ (-1075 : ℤ) → |d| < 2 ^ (512 : ℤ) := by
    intro d hd
    by_contra hc
    rw [not_lt] at hc
    have : (2 : ℚ) ^ (512 : ℤ) * 2 ^ (512 : ℤ) ≤ d * d := by
      rw [← abs_mul_abs_self d]
      exact mul_le_mul hc hc (two_pos' _).le (abs_nonneg _)
    rw [← two_add] at this
    exact absurd (this.trans hd) (not_le.2 (two_lt (by norm_num)))
  have sq0 : ∀ d : ℚ, flS (d * d) = 0 ↔ d * d ≤ 2 ^ (-1075 : ℤ) := by
    intro d
    rw [flS_eq_zero, abs_mul_self]
  have fin : ∀ x : ℚ, |flS x| < 2 ^ (512 : ℤ) → powTwo (rnd x) = some (.fin (flS (flS x * flS x))) := by
    intro x hx
    rw [rnd, if_neg (not_le.2 (hx.trans (two_lt (by norm_num)))), powTwo, if_neg]
    rw [square_large (flS_dbl x)]
    exact not_le.2 hx
  constructor
  · intro h
    have hn : distanceF sq p q ≠ none := by rw [h]; simp
    rw [Ne, C148_raises_iff_partial, not_or, not_and_or, not_and_or] at hn
    have inf : ∀ x : ℚ, 2 ^ (1024 : ℤ) ≤ |flS x| → powTwo (rnd x) = some (.inf false) := by
      intro x hx
      rw [rnd, if_pos hx, powTwo]
    rw [not_le, not_lt, not_le, not_lt] at hn
    rw [distanceF] at h
    rcases hn with ⟨h1 | h1, h2 | h2⟩
    · rw [fin _ h1, fin _ h2] at h
      simp only [Option.bind_eq_bind, Option.bind_some, Option.pure_def, Option.some.injEq, addF, rnd] at h
      split_ifs at h with hb
      · simp [sqrtF] at h
      · simp only [sqrtF, Fl.fin.injEq] at h
        have a0 := flS_nonneg (mul_self_nonneg (flS (q.y - p.y)))
        have b0 := flS_nonneg (mul_self_nonneg (flS (q.x - p.x)))
        rw [sqrt_zero hs (flS_nonneg (add_nonneg a0 b0)), flS_eq_zero, abs_of_nonneg (add_nonneg a0 b0), ← abs_of_nonneg (add_nonneg a0 b0),
          ← flS_eq_zero] at h
        have ha := flS_mono (le_add_of_nonneg_right (a := flS (flS (q.y - p.y) * flS (q.y - p.y))) b0)
        have hb := flS_mono (le_add_of_nonneg_left (a := flS (flS (q.x - p.x) * flS (q.x - p.x))) a0)
        rw [h, flS_self (flS_dbl _) (flS_grid _)] at ha hb
        exact ⟨(sq0 _).1 (le_antisymm ha a0), (sq0 _).1 (le_antisymm hb b0)⟩
    · rw [fin _ h1, inf _ h2] at h
      simp [addF, sqrtF] at h
    · rw [inf _ h1, fin _ h2] at h
      simp [addF, sqrtF] at h
    · rw [inf _ h1, inf _ h2] at h
      simp [addF, sqrtF] at h
  · rintro ⟨h1, h2⟩
    rw [distanceF, fin _ (small _ h1), fin _ (small _ h2), (sq0 _).2 h1, (sq0 _).2 h2]
    have : sq 0 = 0 := (sqrt_zero hs le_rfl).2 rfl
    simp only [Option.bind_eq_bind, Option.bind_some, Option.pure_def, addF, rnd, add_zero, flS_zero, abs_zero,
      if_neg (not_le.2 (two_pos' 1024)), sqrtF, this]

/-- C148: the distance of a point to itself is zero. -/
theorem C148_same (sq : ℚ → ℚ) (hs : SqrtOk sq) (p : Point ℚ) : distanceF sq p p = some (.fin 0) := by
  rw [C148_zero_iff_partial sq hs]
  simp only [sub_self, flS_zero, mul_zero]
  exact ⟨(two_pos' _).le, (two_pos' _).le⟩

/-- C148: if a coordinate differs by at least 2^-537, the distance is not zero. -/
theorem C148_apart_partial (sq : ℚ → ℚ) (hs : SqrtOk sq) (p q : Point ℚ)
    (h : 2 ^ (-537 : ℤ) ≤ |q.y - p.y| ∨ 2 ^ (-537 : ℤ) ≤ |q.x - p.x|) : distanceF sq p q ≠ some (.fin 0) := by
  rw [Ne, C148_zero_iff_partial sq hs]
  have key : ∀ x : ℚ, 2 ^ (-537 : ℤ) ≤ |x| → ¬ flS x * flS x ≤ 2 ^ (-1075 : ℤ) := by
    intro x hx hc
    have h1 := flS_mono hx
    rw [flS_two (by norm_num), ← flS_abs] at h1
    have h2 : (2 : ℚ) ^ (-537 : ℤ) * 2 ^ (-537 : ℤ) ≤ flS x * flS x := by
      rw [← abs_mul_abs_self (flS x)]
      exact mul_le_mul h1 h1 (two_pos' _).le (abs_nonneg _)
    rw [← two_add] at h2
    exact absurd (h2.trans hc) (not_le.2 (two_lt (by norm_num)))
  rintro ⟨h1, h2⟩
  rcases h with h | h
  · exact key _ h h1
  · exact key _ h h2

/-- A number of moderate size. -/
def Moderate (x : ℚ) : Prop := x = 0 ∨ 2 ^ (-500 : ℤ) ≤ |x| ∧ |x| ≤ 2 ^ (500 : ℤ)

theorem flS_normal {x : ℚ} (h : x = 0 ∨ 2 ^ (-1022 : ℤ) ≤ |x|) : flS x = fl x := by
  rcases h with rfl | h
  · rw [flS_zero, fl_zero]
  · rw [flS, if_neg (not_lt.2 h)]

/-- The square of a difference. -/
theorem square_near {x : ℚ} (h : Moderate x) : ∃ a : ℚ, powTwo (rnd x) = some (.fin a) ∧ 0 ≤ a ∧ |a - x * x| ≤ 4 / 2 ^ 53 * (x * x) ∧
    (a = 0 ∨ 2 ^ (-1001 : ℤ) ≤ a) ∧ a ≤ 2 ^ (1001 : ℤ) := by
  rcases h with rfl | ⟨h1, h2⟩
  · refine ⟨0, ?_, le_rfl, by norm_num, .inl rfl, (two_pos' _).le⟩
    rw [rnd, flS_zero, abs_zero, if_neg (not_le.2 (two_pos' _)), powTwo, mul_zero, flS_zero, abs_zero, if_neg (not_le.2 (two_pos' _))]
  · have hx : flS x = fl x := flS_normal (.inr ((two_le (by norm_num)).trans h1))
    have g1 := flS_mono h1
    have g2 := flS_mono h2
    rw [flS_two (by norm_num), ← flS_abs, hx] at g1 g2
    have p1 : (2 : ℚ) ^ (-1000 : ℤ) ≤ fl x * fl x := by
      rw [← abs_mul_abs_self (fl x), show (-1000 : ℤ) = -500 + -500 by norm_num, two_add]
      exact mul_le_mul g1 g1 (two_pos' _).le (abs_nonneg _)
    have p2 : fl x * fl x ≤ (2 : ℚ) ^ (1000 : ℤ) := by
      rw [← abs_mul_abs_self (fl x), show (1000 : ℤ) = 500 + 500 by norm_num, two_add]
      exact mul_le_mul g2 g2 (abs_nonneg _) (two_pos' _).le
    have hy : flS (fl x * fl x) = fl (fl x * fl x) :=
      flS_normal (.inr ((two_le (by norm_num)).trans (p1.trans (le_abs_self _))))
    have q1 := flS_mono p1
    have q2 := flS_mono p2
    rw [flS_two (by norm_num), hy] at q1 q2
    refine ⟨fl (fl x * fl x), ?_, (two_pos' _).le.trans q1, ?_, .inr ((two_le (by norm_num)).trans q1), q2.trans (two_le (by norm_num))⟩
    · rw [rnd, hx, if_neg (not_le.2 (g2.trans_lt (two_lt (by norm_num)))), powTwo, hy, if_neg]
      rw [abs_of_nonneg ((two_pos' _).le.trans q1)]
      exact not_le.2 (q2.trans_lt (two_lt (by norm_num)))
    · obtain ⟨d, hd, e⟩ := fl_rel x
      obtain ⟨d', hd', e'⟩ := fl_rel (fl x * fl x)
      rw [e', e]
      have : x * (1 + d) * (x * (1 + d)) * (1 + d') - x * x = (x * x) * ((1 + d) * (1 + d) * (1 + d') - 1) := by ring
      rw [this, abs_mul, abs_mul_self, mul_comm]
      refine mul_le_mul_of_nonneg_right ?_ (mul_self_nonneg x)
      have hdd : d * d ≤ 1 / 2 ^ 53 * (1 / 2 ^ 53) := by
        rw [← abs_mul_abs_self d]
        exact mul_le_mul hd hd (abs_nonneg _) (by norm_num)
      have h0 := mul_self_nonneg d
      have hu : |(1 + d) * (1 + d)| ≤ 5 / 4 := by
        rw [abs_mul_self]
        rw [abs_le] at hd
        norm_num only at hd hdd
        linarith
      have hud : |(1 + d) * (1 + d) * d'| ≤ 5 / 4 * (1 / 2 ^ 53) := by
        rw [abs_mul]
        exact mul_le_mul hu hd' (abs_nonneg _) (by norm_num)
      rw [abs_le] at hd hud ⊢
      norm_num only at hd hdd hud ⊢
      constructor <;> linarith

/-- C148, when both differences are zero or between 2^-500 and 2^500: the distance is a float within a few units of the last place of the
exact one. -/
theorem C148_near_partial (sq : ℚ → ℚ) (hs : SqrtOk sq) (p q : Point ℚ) (hy : Moderate (q.y - p.y)) (hx : Moderate (q.x - p.x)) :
    ∃ r : ℚ, distanceF sq p q = some (.fin r) ∧
      |(r : ℝ) - distance ⟨p.y, p.x⟩ ⟨q.y, q.x⟩| ≤ distance ⟨p.y, p.x⟩ ⟨q.y, q.x⟩ / 2 ^ 49 := by
  obtain ⟨a, ha, a0, an, al, au⟩ := square_near hy
  obtain ⟨b, hb, b0, bn, bl, bu⟩ := square_near hx
  have hab : flS (a + b) = fl (a + b) := by
    refine flS_normal ?_
    rw [abs_of_nonneg (add_nonneg a0 b0)]
    rcases al with al | al
    · rcases bl with bl | bl
      · exact .inl (by rw [al, bl, add_zero])
      · exact .inr ((two_le (by norm_num)).trans (bl.trans (le_add_of_nonneg_left a0)))
    · exact .inr ((two_le (by norm_num)).trans (al.trans (le_add_of_nonneg_right b0)))
  have hlt : flS (a + b) < 2 ^ (1024 : ℤ) := by
    have h1 : a + b ≤ 2 ^ (1002 : ℤ) := by
      rw [show (1002 : ℤ) = 1 + 1001 by norm_num, two_add, zpow_one, two_mul]
      exact add_le_add au bu
    have h2 := flS_mono h1
    rw [flS_two (by norm_num)] at h2
    exact h2.trans_lt (two_lt (by norm_num))
  refine ⟨sq (fl (a + b)), ?_, ?_⟩
  · rw [distanceF, ha, hb]
    simp only [Option.bind_eq_bind, Option.bind_some, Option.pure_def, addF, rnd]
    rw [abs_of_nonneg (flS_nonneg (add_nonneg a0 b0)), if_neg (not_le.2 hlt), sqrtF, hab]
  · have h1 := fl_near (a + b)
    rw [abs_of_nonneg (add_nonneg a0 b0)] at h1
    generalize hS : (q.y - p.y) * (q.y - p.y) + (q.x - p.x) * (q.x - p.x) = S
    have hS0 : 0 ≤ S := by rw [← hS]; exact add_nonneg (mul_self_nonneg _) (mul_self_nonneg _)
    have h2 : |fl (a + b) - S| ≤ 6 / 2 ^ 53 * S := by
      rw [abs_le] at h1 an bn ⊢
      norm_num only at h1 an bn hS0 ⊢
      constructor <;> linarith
    have h3 : |((fl (a + b) : ℚ) : ℝ) - (S : ℝ)| ≤ 6 / 2 ^ 53 * (S : ℝ) := by
      have := (Rat.cast_le (K := ℝ)).2 h2
      push_cast at this ⊢
      exact this
    have h4 := LogTickerD.nearest_acc (hs (fl (a + b)))
    rw [abs_of_nonneg (Real.sqrt_nonneg _)] at h4
    have hd : distance ⟨p.y, p.x⟩ ⟨q.y, q.x⟩ = Real.sqrt S := by
      rw [distance, ← hS, Rat.cast_add, Rat.cast_mul, Rat.cast_mul, Rat.cast_sub, Rat.cast_sub, pow_two, pow_two]
    have hS0' : (0 : ℝ) ≤ S := by exact_mod_cast hS0
    have hq : Real.sqrt S * Real.sqrt S = S := Real.mul_self_sqrt hS0'
    rw [hd]
    have hr := Real.sqrt_nonneg (S : ℝ)
    rw [abs_le] at h3
    have u1 : Real.sqrt ((fl (a + b) : ℚ) : ℝ) ≤ Real.sqrt S * (1 + 6 / 2 ^ 53) := by
      refine Real.sqrt_le_iff.2 ⟨by positivity, ?_⟩
      have : (Real.sqrt S * (1 + 6 / 2 ^ 53)) ^ 2 = S * (1 + 6 / 2 ^ 53) ^ 2 := by rw [mul_pow, pow_two (Real.sqrt S), hq]
      rw [this]
      norm_num only at h3 ⊢
      linarith
    have u2 : Real.sqrt S * (1 - 6 / 2 ^ 53) ≤ Real.sqrt ((fl (a + b) : ℚ) : ℝ) := by
      refine Real.le_sqrt_of_sq_le ?_
      have : (Real.sqrt S * (1 - 6 / 2 ^ 53)) ^ 2 = S * (1 - 6 / 2 ^ 53) ^ 2 := by rw [mul_pow, pow_two (Real.sqrt S), hq]
      rw [this]
      norm_num only at h3 ⊢
      linarith
    rw [abs_le] at h4 ⊢
    norm_num only at h4 u1 u2 ⊢
    constructor <;> linarith

/-! ### The middle -/

/-- C148: the middle of two floats smaller than 2^1023 is a float between them. -/
theorem C148_midpoint_partial (a b : ℚ) (ha : Flt a) (hb : Flt b) (h1 : |a| < 2 ^ (1023 : ℤ)) (h2 : |b| < 2 ^ (1023 : ℤ)) :
    ∃ m, midF a b = .fin m ∧ Flt m ∧ min a b ≤ m ∧ m ≤ max a b ∧ |m - (a + b) / 2| ≤ |a + b| / 2 ^ 52 + 2 ^ (-1074 : ℤ) := by
  have dbl2 : ∀ {c : ℚ}, Flt c → flS (2 * c) = 2 * c := by
    intro c hc
    refine flS_self (dbl_double hc.dbl) ?_
    obtain ⟨z, hz⟩ := hc.grid
    exact ⟨2 * z, by rw [hz, Int.cast_mul, Int.cast_ofNat, mul_assoc]⟩
  have fmin : Flt (min a b) := by rcases min_choice a b with h | h <;> rw [h] <;> assumption
  have fmax : Flt (max a b) := by rcases max_choice a b with h | h <;> rw [h] <;> assumption
  have l1 : 2 * min a b ≤ flS (a + b) := by
    rw [← dbl2 fmin]
    refine flS_mono ?_
    rw [two_mul]
    exact add_le_add (min_le_left a b) (min_le_right a b)
  have l2 : flS (a + b) ≤ 2 * max a b := by
    rw [← dbl2 fmax]
    refine flS_mono ?_
    rw [two_mul]
    exact add_le_add (le_max_left a b) (le_max_right a b)
  have bmin : |min a b| < 2 ^ (1023 : ℤ) := by rcases min_choice a b with h | h <;> rw [h] <;> assumption
  have bmax : |max a b| < 2 ^ (1023 : ℤ) := by rcases max_choice a b with h | h <;> rw [h] <;> assumption
  have e2 : (2 : ℚ) ^ (1024 : ℤ) = 2 * 2 ^ (1023 : ℤ) := by
    rw [show (1024 : ℤ) = 1 + 1023 by norm_num, two_add, zpow_one]
  have hlt : |flS (a + b)| < 2 ^ (1024 : ℤ) := by
    rw [e2, abs_lt]
    rw [abs_lt] at bmin bmax
    generalize (2 : ℚ) ^ (1023 : ℤ) = X at *
    constructor <;> linarith
  have m1 : min a b ≤ flS (1 / 2 * flS (a + b)) := by
    rw [← flS_of_flt fmin]
    exact flS_mono (by linarith)
  have m2 : flS (1 / 2 * flS (a + b)) ≤ max a b := by
    rw [← flS_of_flt fmax]
    exact flS_mono (by linarith)
  have hlt2 : |flS (1 / 2 * flS (a + b))| < 2 ^ (1023 : ℤ) := by
    rw [abs_lt]
    rw [abs_lt] at bmin bmax
    exact ⟨bmin.1.trans_le m1, m2.trans_lt bmax.2⟩
  have hlt3 := hlt2.trans (two_lt (by norm_num : (1023 : ℤ) < 1024))
  refine ⟨flS (1 / 2 * flS (a + b)), ?_, ⟨flS_dbl _, flS_grid _, hlt3⟩, m1, m2, ?_⟩
  · rw [midF, rnd, if_neg (not_le.2 hlt), halfF, rnd, if_neg (not_le.2 hlt3)]
  · -- the sum of two floats with digits down to 2^-1074 is rounded relative to its size, half of it may lose the last digit
    have near : ∀ x : ℚ, |flS x - x| ≤ |x| / 2 ^ 53 + 2 ^ (-1075 : ℤ) := by
      intro x
      rw [flS]
      split_ifs with h
      · have e : (roundHalfEven (x / 2 ^ (-1074 : ℤ)) : ℚ) * 2 ^ (-1074 : ℤ) - x =
            ((roundHalfEven (x / 2 ^ (-1074 : ℤ)) : ℚ) - x / 2 ^ (-1074 : ℤ)) * 2 ^ (-1074 : ℤ) := by
          rw [sub_mul, div_mul_cancel₀ _ (two_pos' _).ne']
        rw [e, abs_mul, abs_of_pos (two_pos' (-1074))]
        have h1 := mul_le_mul_of_nonneg_right (roundHalfEven_near (x / 2 ^ (-1074 : ℤ))) (two_pos' (-1074)).le
        have e1 : (2 : ℚ) ^ (-1075 : ℤ) = 1 / 2 * 2 ^ (-1074 : ℤ) := by
          rw [show (-1075 : ℤ) = -1 + -1074 by norm_num, two_add]
          congr 1
          norm_num
        rw [e1]
        exact h1.trans (le_add_of_nonneg_left (by positivity))
      · exact (fl_near x).trans (le_add_of_nonneg_right (two_pos' _).le)
    have hsum : |flS (a + b) - (a + b)| ≤ |a + b| / 2 ^ 53 := by
      by_cases hn : |a + b| < 2 ^ (-1022 : ℤ)
      · obtain ⟨z, hz⟩ := ha.grid
        obtain ⟨w, hw⟩ := hb.grid
        have hg : a + b = ((z + w : ℤ) : ℚ) * 2 ^ (-1074 : ℤ) := by rw [hz, hw, Int.cast_add, add_mul]
        have : flS (a + b) = a + b := by
          refine flS_self ⟨z + w, -1074, ?_, hg⟩ ⟨z + w, hg⟩
          rw [hg, abs_mul, abs_of_pos (two_pos' (-1074))] at hn
          have e3 : (2 : ℚ) ^ (-1022 : ℤ) = 2 ^ (52 : ℤ) * 2 ^ (-1074 : ℤ) := by rw [← two_add]; rfl
          rw [e3] at hn
          have h4 := lt_of_mul_lt_mul_right hn (two_pos' _).le
          have h5 : |z + w| < 2 ^ 52 := by exact_mod_cast h4
          omega
        rw [this, sub_self, abs_zero]
        positivity
      · rw [flS, if_neg hn]
        exact fl_near _
    have hhalf := near (1 / 2 * flS (a + b))
    have e4 : (2 : ℚ) ^ (-1074 : ℤ) = 2 * 2 ^ (-1075 : ℤ) := by
      rw [show (-1074 : ℤ) = 1 + -1075 by norm_num, two_add, zpow_one]
    have hp := two_pos' (-1075)
    have h6 := abs_sub_abs_le_abs_sub (flS (a + b)) (a + b)
    have h7 : |1 / 2 * flS (a + b)| = 1 / 2 * |flS (a + b)| := by rw [abs_mul]; norm_num
    rw [h7] at hhalf
    rw [e4]
    have h8 : |flS (1 / 2 * flS (a + b)) - (a + b) / 2| ≤ |flS (1 / 2 * flS (a + b)) - 1 / 2 * flS (a + b)| +
        1 / 2 * |flS (a + b) - (a + b)| := by
      have e5 : flS (1 / 2 * flS (a + b)) - (a + b) / 2 = (flS (1 / 2 * flS (a + b)) - 1 / 2 * flS (a + b)) +
        1 / 2 * (flS (a + b) - (a + b)) := by ring
      rw [e5]
      refine (abs_add_le _ _).trans (le_of_eq ?_)
      rw [abs_mul (1 / 2 : ℚ)]
      norm_num
    have h9 := abs_nonneg (a + b)
    generalize (2 : ℚ) ^ (-1075 : ℤ) = X at *
    norm_num only at hsum hhalf h8 ⊢
    linarith

/-- C148: the middle does not depend on the order. -/
theorem C148_midpoint_symmetric (a b : ℚ) : midF a b = midF b a := by rw [midF, midF, add_comm]

/-! ### Counterexamples -/

/-- C148, counterexample: the points 0 and 2^600 are floats; their distance raises `OverflowError`. -/
theorem C148_counterexample_raises (sq : ℚ → ℚ) : distanceF sq ⟨0, 0⟩ ⟨0, 2 ^ (600 : ℤ)⟩ = none := by
  rw [C148_raises_iff_partial]
  right
  rw [sub_zero, flS_two (by norm_num), abs_of_pos (two_pos' _)]
  exact ⟨two_le (by norm_num), two_lt (by norm_num)⟩

/-- C148, counterexample: 0 and 2^-600 are different, their distance is zero. -/
theorem C148_counterexample_zero (sq : ℚ → ℚ) (hs : SqrtOk sq) : distanceF sq ⟨0, 0⟩ ⟨0, 2 ^ (-600 : ℤ)⟩ = some (.fin 0) := by
  rw [C148_zero_iff_partial sq hs]
  rw [sub_zero, sub_zero, flS_two (by norm_num), flS_zero, mul_zero, ← two_add]
  exact ⟨(two_pos' _).le, two_le (by norm_num)⟩

/-- C148, counterexample: the middle of 2^1023 and itself is infinite. -/
theorem C148_counterexample_midpoint : midF (2 ^ (1023 : ℤ)) (2 ^ (1023 : ℤ)) = .inf false := by
  have h : (2 : ℚ) ^ (1023 : ℤ) + 2 ^ (1023 : ℤ) = 2 ^ (1024 : ℤ) := by
    rw [show (1024 : ℤ) = 1 + 1023 by norm_num, two_add, zpow_one, two_mul]
  rw [midF, h, rnd, flS_two (by norm_num), abs_of_pos (two_pos' _), if_pos le_rfl, halfF,
    decide_eq_false (not_lt.2 (two_pos' 1024).le)]

/-- The numbers of the counterexamples are floats. -/
example : Flt (2 ^ (600 : ℤ)) ∧ Flt (2 ^ (-600 : ℤ)) ∧ Flt (2 ^ (1023 : ℤ)) := by
  have key : ∀ k : ℤ, -1074 ≤ k → k < 1024 → Flt (2 ^ k) := by
    intro k h1 h2
    refine ⟨dbl_two k, ?_, by rw [abs_of_pos (two_pos' _)]; exact two_lt h2⟩
    have := flS_grid (2 ^ k)
    rwa [flS_two h1] at this
  exact ⟨key _ (by norm_num) (by norm_num), key _ (by norm_num) (by norm_num), key _ (by norm_num) (by norm_num)⟩

/-- There is a square root. -/
example : ∃ sq, SqrtOk sq := by
  choose f hf using fun a : ℚ => exists_nearest (Real.sqrt a)
  exact ⟨f, hf⟩

/-- the distance of (0, 0) and (3, 4) -/
example (sq : ℚ → ℚ) (hs : SqrtOk sq) : ∃ r : ℚ, distanceF sq ⟨0, 0⟩ ⟨3, 4⟩ = some (.fin r) ∧ |(r : ℝ) - 5| ≤ 5 / 2 ^ 49 := by
  have m : ∀ x : ℚ, 1 ≤ x → x ≤ 4 → Moderate x := by
    intro x h1 h4
    refine .inr ?_
    rw [abs_of_nonneg (by linarith)]
    exact ⟨(two_le (by norm_num : (-500 : ℤ) ≤ 0)).trans (by simpa using h1), h4.trans (le_trans (by norm_num : (4 : ℚ) ≤ 2 ^ (2 : ℤ)) (two_le (by norm_num)))⟩
  obtain ⟨r, h1, h2⟩ := C148_near_partial sq hs ⟨0, 0⟩ ⟨3, 4⟩ (m _ (by norm_num) (by norm_num)) (m _ (by norm_num) (by norm_num))
  refine ⟨r, h1, ?_⟩
  have h5 : distance ⟨((0 : ℚ) : ℝ), ((0 : ℚ) : ℝ)⟩ ⟨((3 : ℚ) : ℝ), ((4 : ℚ) : ℝ)⟩ = 5 := by
    rw [distance]
    norm_num
    rw [show (25 : ℝ) = 5 ^ 2 by norm_num, Real.sqrt_sq (by norm_num)]
  rwa [h5] at h2

end Verif.Geometry
