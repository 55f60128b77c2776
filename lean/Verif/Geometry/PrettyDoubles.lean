import Verif.Geometry.Doubles
import Verif.Geometry.Range
import Mathlib.Analysis.SpecialFunctions.Log.Base
import Mathlib.Analysis.SpecialFunctions.Log.Deriv
import Mathlib.Analysis.Complex.ExponentialBounds
import Mathlib.Algebra.Order.Round

/-!
C134: pretty numbers and ranges in double precision (`nion/utils/Geometry.py:20-119`).

`Pretty.lean` and `Range.lean` compute with exact numbers. Here each operation is followed by rounding to the nearest double (`fl`), and
`math.log10` is any function that gives the double nearest to the logarithm (`LogOk`); `math.pow(10.0, n)` is the double nearest to
10^n. The finite floats only; not modelled: overflow, subnormal numbers.
-/

set_option linter.unusedSectionVars false

namespace Verif.Geometry

open Verif.Converter (fl fl_near fl_zero roundHalfEven roundHalfEven_near fl_of_bounds)

/-! ### The model -/

/-- `f // 10` of a float which is not negative: `fmod` is exact; the difference and the quotient are rounded. -/
def floorDivTen (f : ℚ) : ℚ :=
  let d := fl (fl (10 * (⌊f / 10⌋ : ℚ)) / 10)
  if d - ⌊d⌋ > 1 / 2 then fl (⌊d⌋ + 1) else ⌊d⌋

/-- Lines 29-32. -/
def normaliseD (v f : ℚ) : ℚ × ℚ :=
  let n := fl (|v| / f)
  if n < 1 then (fl (n * 10), floorDivTen f) else (n, f)

/-- Lines 20-51; `lg x` is `math.floor(math.log10(x))`. -/
def makePrettyD (lg : ℚ → ℤ) (v : ℚ) (rounding : Bool) : ℚ × ℚ :=
  if ¬ v > 0 ∧ ¬ v < 0 then (0, 0)
  else
    let q := normaliseD v (fl ((10 : ℚ) ^ lg |v|))
    (copysign (fl (prettyNorm rounding q.1 * q.2)) v, q.2)

/-- Lines 109-110. -/
def arangeD (start stop step : ℚ) : List ℚ :=
  (List.range ⌈fl (fl (stop - start) / step)⌉.toNat).map fun (x : ℕ) => fl (start + fl (x * step))

/-- Lines 91-115. The floor and ceiling of a double are doubles. -/
def rangeForD (lg : ℚ → ℤ) (low high division factor10 : ℚ) : Option (PrettyRange ℚ) :=
  if division = 0 then some ⟨0, 0, [0], 0, 0, 0⟩
  else if division < 0 then none
  else
    let gmin := fl ((⌊fl (low / division)⌋ : ℚ) * division)
    let gmax := fl ((⌈fl (high / division)⌉ : ℚ) * division)
    some ⟨gmin, gmax, arangeD gmin (fl (gmax + fl (1 / 2 * division))) division, division, max (-lg division) 0, factor10⟩

/-- Lines 59-115. -/
def prettyRangeD (lg : ℚ → ℤ) (a b : ℚ) (ticks : ℤ) : Option (PrettyRange ℚ) :=
  let low := min a b
  let high := max a b
  if high = low then some ⟨low, low, [low], 0, 0, 0⟩
  else if ticks = 1 then none
  else
    let p := makePrettyD lg (fl ((makePrettyD lg (fl (high - low)) false).1 / fl ((ticks : ℚ) - 1))) true
    rangeForD lg low high p.1 p.2

/-! ### Specification -/

/-- The double is one to which no other double is nearer. -/
def Nearest (x : ℝ) (q : ℚ) : Prop := Dbl q ∧ ∀ d, Dbl d → |(q : ℝ) - x| ≤ |(d : ℝ) - x|

/-- `math.floor(math.log10(x))`, with a logarithm rounded to a nearest double. -/
def LogOk (lg : ℚ → ℤ) : Prop := ∀ x : ℚ, 0 < x → ∃ q : ℚ, Nearest (Real.logb 10 x) q ∧ lg x = ⌊q⌋

/-- Equal up to a relative error of a few units of the last binary digit. -/
def Rel (k : ℕ) (x y : ℚ) : Prop := 0 < y ∧ |x - y| ≤ k / 2 ^ 53 * y

/-- The exponents of ten are those of floats. -/
def InRange (v : ℚ) : Prop := (10 : ℚ) ^ (-400 : ℤ) ≤ |v| ∧ |v| < 10 ^ (400 : ℤ)

/-- Just under a power of ten which is at most 1, where the logarithm is rounded up. -/
def JustUnder (lg : ℚ → ℤ) (v : ℚ) : Prop := lg |v| ≤ 0 ∧ |v| < fl ((10 : ℚ) ^ lg |v|)

/-! ### Nearest doubles -/

theorem Nearest.le {x : ℝ} {q d : ℚ} (h : Nearest x q) (hd : Dbl d) (hx : (d : ℝ) ≤ x) : d ≤ q := by
  by_contra hlt
  rw [not_le] at hlt
  have h1 := h.2 d hd
  have h2 : (q : ℝ) < d := by exact_mod_cast hlt
  rw [abs_of_nonpos (by linarith), abs_of_nonpos (by linarith)] at h1
  linarith

theorem Nearest.ge {x : ℝ} {q d : ℚ} (h : Nearest x q) (hd : Dbl d) (hx : x ≤ (d : ℝ)) : q ≤ d := by
  by_contra hlt
  rw [not_le] at hlt
  have h1 := h.2 d hd
  have h2 : (d : ℝ) < q := by exact_mod_cast hlt
  rw [abs_of_nonneg (by linarith), abs_of_nonneg (by linarith)] at h1
  linarith

theorem dbl_int {z : ℤ} (h : |z| ≤ 2 ^ 53) : Dbl z := ⟨z, 0, h, by simp⟩

/-- Every number has a nearest double. -/
theorem exists_nearest (x : ℝ) : ∃ q, Nearest x q := by
  by_cases h : x = 0
  · exact ⟨0, dbl_zero, fun d _ => by simp [h]⟩
  have h1 := Int.zpow_log_le_self (b := 2) (by norm_num) (abs_pos.2 h)
  have h2 := Int.lt_zpow_succ_log_self (b := 2) (by norm_num) |x|
  push_cast at h1 h2
  set e := Int.log 2 |x| with he
  have hu : (0 : ℝ) < 2 ^ (e - 52) := zpow_pos (by norm_num) _
  have h3 : |x / 2 ^ (e - 52)| < 2 ^ 53 := by
    rw [abs_div, abs_of_pos hu, div_lt_iff₀ hu]
    refine h2.trans_eq ?_
    rw [show e + 1 = 53 + (e - 52) by ring, zpow_add₀ (by norm_num)]
    norm_num
  have key : ∀ n : ℤ, |((round (x / 2 ^ (e - 52)) : ℤ) : ℝ) * 2 ^ (e - 52) - x| ≤ |(n : ℝ) * 2 ^ (e - 52) - x| := by
    intro n
    have e' : ∀ m : ℤ, (m : ℝ) * 2 ^ (e - 52) - x = ((m : ℝ) - x / 2 ^ (e - 52)) * 2 ^ (e - 52) := by
      intro m
      rw [sub_mul, div_mul_cancel₀ _ hu.ne']
    rw [e', e', abs_mul, abs_mul]
    have := round_le (x / 2 ^ (e - 52)) n
    rw [abs_sub_comm, abs_sub_comm (x / 2 ^ (e - 52))] at this
    exact mul_le_mul_of_nonneg_right this (abs_nonneg _)
  refine ⟨(round (x / 2 ^ (e - 52)) : ℤ) * 2 ^ (e - 52), ⟨_, _, ?_, rfl⟩, ?_⟩
  · have h4 := round_le (x / 2 ^ (e - 52))
    rw [abs_lt] at h3
    have h5 := h4 (2 ^ 53)
    have h6 := h4 (-2 ^ 53)
    push_cast at h5 h6
    generalize x / 2 ^ (e - 52) = y at *
    have h7 : ((round y : ℤ) : ℝ) ≤ 2 ^ 53 := by
      rw [abs_sub_comm, abs_of_nonpos (a := y - _) (by linarith)] at h5
      linarith [(abs_le.1 h5).2]
    have h8 : -2 ^ 53 ≤ ((round y : ℤ) : ℝ) := by
      rw [abs_sub_comm, abs_of_nonneg (a := y - _) (by linarith)] at h6
      linarith [(abs_le.1 h6).1]
    rw [abs_le]
    exact ⟨by exact_mod_cast h8, by exact_mod_cast h7⟩
  · rintro d ⟨z, k, hz, rfl⟩
    push_cast
    rcases le_or_gt (e - 52) k with hk | hk
    · obtain ⟨n, hn⟩ := Int.eq_ofNat_of_zero_le (sub_nonneg.2 hk)
      have := key (z * 2 ^ n)
      push_cast at this
      rw [mul_assoc (z : ℝ), ← zpow_natCast (2 : ℝ) n, ← zpow_add₀ (by norm_num)] at this
      rwa [show (n : ℤ) + (e - 52) = k by omega] at this
    · have h3 : (2 : ℝ) ^ 52 * 2 ^ (e - 52) = 2 ^ e := by
        rw [← zpow_natCast (2 : ℝ) 52, ← zpow_add₀ (by norm_num)]
        congr 1
        push_cast
        ring
      have h4 : |(z : ℝ) * 2 ^ k| ≤ 2 ^ e := by
        rw [abs_mul, abs_of_pos (zpow_pos (by norm_num : (0 : ℝ) < 2) k)]
        have hz' : |(z : ℝ)| ≤ 2 ^ 53 := by exact_mod_cast hz
        calc |(z : ℝ)| * 2 ^ k ≤ 2 ^ 53 * 2 ^ k := mul_le_mul_of_nonneg_right hz' (zpow_pos (by norm_num) k).le
          _ = 2 ^ (k + 53) := by rw [zpow_add₀ (by norm_num)]; norm_num; ring
          _ ≤ 2 ^ e := zpow_le_zpow_right₀ (by norm_num) (by omega)
      have h5 : |x| - |(z : ℝ) * 2 ^ k| ≤ |(z : ℝ) * 2 ^ k - x| := by
        rw [abs_sub_comm]
        exact abs_sub_abs_le_abs_sub _ _
      norm_num at h3
      clear_value e
      rcases lt_or_gt_of_ne h with hn | hp
      · have h6 := key (-2 ^ 52)
        push_cast at h6
        rw [neg_mul, h3] at h6
        rw [abs_of_neg hn] at h1 h5
        rw [abs_of_nonneg (a := -2 ^ e - x) (by linarith)] at h6
        linarith
      · have h6 := key (2 ^ 52)
        push_cast at h6
        rw [h3] at h6
        rw [abs_of_pos hp] at h1 h5
        rw [abs_of_nonpos (a := 2 ^ e - x) (by linarith)] at h6
        linarith

/-- There is such a logarithm. -/
theorem exists_logOk : ∃ lg, LogOk lg := by
  choose f hf using fun x : ℚ => exists_nearest (Real.logb 10 x)
  exact ⟨fun x => ⌊f x⌋, fun x _ => ⟨f x, hf x, rfl⟩⟩

variable {lg : ℚ → ℤ}

theorem logb_bounds {x : ℚ} (hx : 0 < x) : ((Int.log 10 x : ℤ) : ℝ) ≤ Real.logb 10 x ∧ Real.logb 10 x < (Int.log 10 x + 1 : ℤ) := by
  have h1 := Int.zpow_log_le_self (b := 10) (by norm_num) hx
  have h2 := Int.lt_zpow_succ_log_self (b := 10) (by norm_num) x
  push_cast at h1 h2
  have hx' : (0 : ℝ) < x := by exact_mod_cast hx
  constructor
  · have h3 := (Rat.cast_le (K := ℝ)).2 h1
    push_cast at h3
    rwa [Real.le_logb_iff_rpow_le (by norm_num) hx', Real.rpow_intCast]
  · have h3 := (Rat.cast_lt (K := ℝ)).2 h2
    push_cast at h3
    rwa [Real.logb_lt_iff_lt_rpow (by norm_num) hx', Real.rpow_intCast]

theorem InRange.log {v : ℚ} (h : InRange v) : -400 ≤ Int.log 10 |v| ∧ Int.log 10 |v| < 400 := by
  have hp : 0 < |v| := lt_of_lt_of_le (zpow_pos (by norm_num) _) h.1
  constructor
  · rw [← Int.zpow_le_iff_le_log (by norm_num) hp]
    exact_mod_cast h.1
  · rw [← Int.lt_zpow_iff_log_lt (by norm_num) hp]
    exact_mod_cast h.2

/-- The exponent is right or one too large. -/
theorem LogOk.cases (h : LogOk lg) {v : ℚ} (hv : InRange v) : lg |v| = Int.log 10 |v| ∨ lg |v| = Int.log 10 |v| + 1 := by
  have hp : 0 < |v| := lt_of_lt_of_le (zpow_pos (by norm_num) _) hv.1
  obtain ⟨q, hq, he⟩ := h _ hp
  obtain ⟨h1, h2⟩ := logb_bounds hp
  obtain ⟨r1, r2⟩ := hv.log
  have h3 := hq.le (dbl_int (z := Int.log 10 |v|) (by rw [abs_le]; constructor <;> omega)) (by exact_mod_cast h1)
  have h4 := hq.ge (dbl_int (z := Int.log 10 |v| + 1) (by rw [abs_le]; constructor <;> omega)) (by exact_mod_cast h2.le)
  have h5 : Int.log 10 |v| ≤ lg |v| := by rw [he, Int.le_floor]; exact h3
  have h6 : lg |v| ≤ Int.log 10 |v| + 1 := by
    rw [he]
    have := Int.floor_le q
    exact_mod_cast this.trans h4
  omega

/-! ### Relative errors -/

theorem Rel.pos {k : ℕ} {x y : ℚ} (h : Rel k x y) (hk : k ≤ 1000) : 0 < x := by
  obtain ⟨h0, h⟩ := h
  have hk' : (k : ℚ) ≤ 1000 := by exact_mod_cast hk
  have h1 : (k : ℚ) / 2 ^ 53 ≤ 1000 / 2 ^ 53 := div_le_div_of_nonneg_right hk' (by norm_num)
  have h2 := mul_le_mul_of_nonneg_right h1 h0.le
  have := (abs_le.1 h).1
  norm_num at h2 this
  linarith

theorem Rel.refl {y : ℚ} (h : 0 < y) : Rel 0 y y := ⟨h, by simp⟩

theorem Rel.mono {j k : ℕ} {x y : ℚ} (h : Rel j x y) (hjk : j ≤ k) : Rel k x y := by
  refine ⟨h.1, h.2.trans (mul_le_mul_of_nonneg_right ?_ h.1.le)⟩
  exact div_le_div_of_nonneg_right (by exact_mod_cast hjk) (by norm_num)

theorem Rel.fl {x : ℚ} (h : 0 < x) : Rel 1 (Verif.Converter.fl x) x := by
  refine ⟨h, ?_⟩
  have := fl_near x
  rw [abs_of_pos h] at this
  rw [Nat.cast_one, div_mul_eq_mul_div, one_mul]
  exact this

/-- Errors add up. -/
theorem Rel.trans {j k : ℕ} {x y z : ℚ} (h : Rel j x y) (h' : Rel k y z) (hj : j ≤ 1000) (hk : k ≤ 1000) : Rel (j + k + 1) x z := by
  obtain ⟨hy, h1⟩ := h
  obtain ⟨hz, h2⟩ := h'
  refine ⟨hz, ?_⟩
  have hj' : (j : ℚ) ≤ 1000 := by exact_mod_cast hj
  have hk' : (k : ℚ) ≤ 1000 := by exact_mod_cast hk
  have hj0 : (0 : ℚ) ≤ j := by positivity
  have hk0 : (0 : ℚ) ≤ k := by positivity
  have h3 : y ≤ (1 + k / 2 ^ 53) * z := by linarith [(abs_le.1 h2).2]
  have h4 : (j : ℚ) / 2 ^ 53 * y ≤ j / 2 ^ 53 * ((1 + k / 2 ^ 53) * z) := mul_le_mul_of_nonneg_left h3 (by positivity)
  have h5 : (j : ℚ) * k ≤ 2 ^ 53 := by nlinarith
  have h6 : (j : ℚ) / 2 ^ 53 * ((1 + k / 2 ^ 53) * z) + k / 2 ^ 53 * z ≤ (j + k + 1) / 2 ^ 53 * z := by
    have : (j : ℚ) / 2 ^ 53 * ((1 + k / 2 ^ 53) * z) + k / 2 ^ 53 * z = ((j + k + j * k / 2 ^ 53) / 2 ^ 53) * z := by ring
    rw [this]
    refine mul_le_mul_of_nonneg_right (div_le_div_of_nonneg_right ?_ (by norm_num)) hz.le
    have : (j : ℚ) * k / 2 ^ 53 ≤ 1 := by rw [div_le_one (by norm_num)]; exact h5
    linarith
  calc |x - z| = |(x - y) + (y - z)| := by ring_nf
    _ ≤ |x - y| + |y - z| := abs_add_le _ _
    _ ≤ _ := by push_cast; linarith

theorem Rel.mul_right {k : ℕ} {x y c : ℚ} (h : Rel k x y) (hc : 0 < c) : Rel k (x * c) (y * c) := by
  refine ⟨mul_pos h.1 hc, ?_⟩
  rw [← sub_mul, abs_mul, abs_of_pos hc, ← mul_assoc]
  exact mul_le_mul_of_nonneg_right h.2 hc.le

theorem Rel.mul_left {k : ℕ} {x y c : ℚ} (h : Rel k x y) (hc : 0 < c) : Rel k (c * x) (c * y) := by
  rw [mul_comm c, mul_comm c]
  exact h.mul_right hc

theorem Rel.div_right {k : ℕ} {x y c : ℚ} (h : Rel k x y) (hc : 0 < c) : Rel k (x / c) (y / c) := by
  rw [div_eq_mul_inv, div_eq_mul_inv]
  exact h.mul_right (inv_pos.2 hc)

theorem Rel.symm {k : ℕ} {x y : ℚ} (h : Rel k x y) (hk : k ≤ 1000) : Rel (k + 1) y x := by
  refine ⟨h.pos hk, ?_⟩
  obtain ⟨h0, h1⟩ := h
  rw [abs_sub_comm]
  refine h1.trans ?_
  have hk' : (k : ℚ) ≤ 1000 := by exact_mod_cast hk
  have hk0 : (0 : ℚ) ≤ k := by positivity
  have h2 : y * (1 - k / 2 ^ 53) ≤ x := by linarith [(abs_le.1 h1).1]
  have h3 : (k : ℚ) * y ≤ (k + 1) * (y * (1 - k / 2 ^ 53)) := by
    have : (k : ℚ) * (k + 1) / 2 ^ 53 ≤ 1 := by
      rw [div_le_one (by norm_num)]
      nlinarith
    have h4 : ((k : ℚ) + 1) * (y * (1 - k / 2 ^ 53)) = (k + 1 - k * (k + 1) / 2 ^ 53) * y := by ring
    rw [h4]
    exact mul_le_mul_of_nonneg_right (by linarith) h0.le
  have h5 := mul_le_mul_of_nonneg_left h2 (show (0 : ℚ) ≤ k + 1 by positivity)
  push_cast
  rw [div_mul_eq_mul_div, div_mul_eq_mul_div]
  exact div_le_div_of_nonneg_right (h3.trans h5) (by norm_num)

/-- Integers next to a large number. -/
theorem Rel.of_one {x y : ℚ} (hy : 2 ^ 53 ≤ y) (h : |x - y| ≤ 1) : Rel 1 x y := by
  have h0 : 0 < y := lt_of_lt_of_le (by norm_num) hy
  refine ⟨h0, h.trans ?_⟩
  rw [Nat.cast_one, div_mul_eq_mul_div, one_mul, le_div_iff₀ (by norm_num)]
  linarith

/-! ### Powers of ten -/

theorem dbl_ten {n : ℕ} (hn : n ≤ 22) : Dbl (10 ^ n) := by
  refine ⟨5 ^ n, n, ?_, ?_⟩
  · rw [abs_of_nonneg (by positivity)]
    exact (pow_le_pow_right₀ (by norm_num) hn).trans (by norm_num)
  · rw [zpow_natCast]
    push_cast
    rw [← mul_pow]
    norm_num

theorem floorDivTen_small {n : ℕ} (hn : n ≤ 21) : floorDivTen (fl (10 ^ (n + 1))) = 10 ^ n := by
  have h1 : fl (10 ^ (n + 1)) = 10 ^ (n + 1) := fl_of_dbl (dbl_ten (by omega))
  have h2 : (10 : ℚ) ^ (n + 1) / 10 = ((10 ^ n : ℤ) : ℚ) := by push_cast; rw [pow_succ]; ring
  have h3 : (10 : ℚ) * ((10 ^ n : ℤ) : ℚ) = 10 ^ (n + 1) := by push_cast; rw [pow_succ]; ring
  have h4 : fl ((10 ^ n : ℤ) : ℚ) = ((10 ^ n : ℤ) : ℚ) := by push_cast; exact fl_of_dbl (dbl_ten (by omega))
  simp only [floorDivTen]
  rw [h1, h2, Int.floor_intCast, h3, h1, h2, h4, Int.floor_intCast, sub_self, if_neg (by norm_num)]
  push_cast
  rfl

theorem floorDivTen_zero {f : ℚ} (h0 : 0 ≤ f) (h1 : f < 10) : floorDivTen f = 0 := by
  have : ⌊f / 10⌋ = 0 := by
    rw [Int.floor_eq_iff]
    constructor
    · push_cast; positivity
    · push_cast; rw [div_lt_iff₀ (by norm_num)]; linarith
  simp [floorDivTen, this, fl_zero]

theorem floor_near_one (x : ℚ) : |(⌊x⌋ : ℚ) - x| ≤ 1 ∧ |(⌊x⌋ : ℚ) + 1 - x| ≤ 1 := by
  have h1 := Int.floor_le x
  have h2 := Int.lt_floor_add_one x
  constructor <;> rw [abs_le] <;> constructor <;> linarith

theorem floorDivTen_large {f : ℚ} (h : 10 ^ 20 ≤ f) : Rel 20 (floorDivTen f) (f / 10) := by
  have a1 : Rel 1 (⌊f / 10⌋ : ℚ) (f / 10) := Rel.of_one (by norm_num at h ⊢; linarith) (floor_near_one _).1
  have a2 := a1.pos (by norm_num)
  have a3 := (Rel.fl (mul_pos (by norm_num : (0 : ℚ) < 10) a2)).div_right (c := 10) (by norm_num)
  rw [mul_div_cancel_left₀ _ (by norm_num : (10 : ℚ) ≠ 0)] at a3
  have a4 := (Rel.fl (a3.pos (by norm_num))).trans (a3.trans a1 (by norm_num) (by norm_num)) (by norm_num) (by norm_num)
  have a5 : 2 ^ 53 + 2 ≤ fl (fl (10 * (⌊f / 10⌋ : ℚ)) / 10) := by
    have := (abs_le.1 a4.2).1
    norm_num at this h ⊢
    linarith
  simp only [floorDivTen]
  generalize fl (fl (10 * (⌊f / 10⌋ : ℚ)) / 10) = d at *
  obtain ⟨f1, f2⟩ := floor_near_one d
  split_ifs
  · have b := Rel.of_one (by linarith) f2
    exact ((Rel.fl (b.pos (by norm_num))).trans (b.trans a4 (by norm_num) (by norm_num)) (by norm_num) (by norm_num)).mono (by norm_num)
  · have b := Rel.of_one (by linarith) f1
    exact (b.trans a4 (by norm_num) (by norm_num)).mono (by norm_num)

/-- The factor after the correction. -/
theorem floorDivTen_pow {E : ℤ} (hE : 1 ≤ E) : Rel 22 (floorDivTen (fl ((10 : ℚ) ^ E))) (10 ^ (E - 1)) := by
  obtain ⟨n, rfl⟩ : ∃ n : ℕ, E = n + 1 := ⟨(E - 1).toNat, by omega⟩
  have e1 : (10 : ℚ) ^ ((n : ℤ) + 1) = 10 ^ (n + 1) := by exact_mod_cast zpow_natCast (10 : ℚ) (n + 1)
  have e2 : (10 : ℚ) ^ ((n : ℤ) + 1 - 1) = 10 ^ n := by rw [add_sub_cancel_right, zpow_natCast]
  rw [e1, e2]
  rcases le_or_gt n 21 with h | h
  · rw [floorDivTen_small h]
    exact (Rel.refl (by positivity)).mono (by norm_num)
  · have h1 : Rel 1 (fl ((10 : ℚ) ^ (n + 1))) (10 ^ (n + 1)) := Rel.fl (by positivity)
    have h2 : (10 : ℚ) ^ 23 ≤ 10 ^ (n + 1) := pow_le_pow_right₀ (by norm_num) (by omega)
    have h3 : (10 : ℚ) ^ 20 ≤ fl (10 ^ (n + 1)) := by
      have := (abs_le.1 h1.2).1
      generalize (10 : ℚ) ^ (n + 1) = t at *
      norm_num at this h2 ⊢
      linarith
    have h4 := (floorDivTen_large h3).trans (h1.div_right (c := 10) (by norm_num)) (by norm_num) (by norm_num)
    rw [pow_succ, mul_div_cancel_right₀ _ (by norm_num : (10 : ℚ) ≠ 0)] at h4
    rw [pow_succ]
    exact h4

/-! ### Quotients of doubles -/

/-- Comparing with 1 after dividing is comparing. -/
theorem fl_div_lt_one {x y : ℚ} (hx : Dbl x) (hy : Dbl y) (x0 : 0 < x) (y0 : 0 < y) : fl (x / y) < 1 ↔ x < y := by
  have one : Dbl 1 := ⟨1, 0, by norm_num, by norm_num⟩
  constructor
  · intro h
    by_contra hlt
    have := fl_mono ((one_le_div y0).2 (not_lt.1 hlt))
    rw [fl_of_dbl one] at this
    linarith
  · intro h
    by_contra hge
    rw [not_lt] at hge
    have hd : Dbl (1 - 1 / 2 ^ 53) := ⟨2 ^ 53 - 1, -53, by norm_num, by norm_num⟩
    have h1 := fl_nearest (x / y) _ hd
    have h2 : x / y < 1 := (div_lt_one y0).2 h
    have h3 : 1 - 1 / 2 ^ 54 ≤ x / y := by
      by_contra hlt
      rw [not_le] at hlt
      rw [abs_of_nonneg (a := fl (x / y) - x / y) (by linarith)] at h1
      rcases abs_cases (1 - 1 / 2 ^ 53 - x / y) with ⟨e, -⟩ | ⟨e, -⟩ <;> rw [e] at h1 <;> norm_num at h1 hlt <;> linarith
    rw [le_div_iff₀ y0] at h3
    -- but two doubles are further apart
    obtain ⟨z, k, hz, rfl⟩ := hy
    obtain ⟨w, m, hw, rfl⟩ := hx
    have aux : ∀ (a b : ℤ), a ≤ b → ∃ n : ℕ, (2 : ℚ) ^ b = 2 ^ n * 2 ^ a := by
      intro a b hab
      obtain ⟨n, hn⟩ := Int.eq_ofNat_of_zero_le (sub_nonneg.2 hab)
      refine ⟨n, ?_⟩
      rw [← zpow_natCast (2 : ℚ) n, ← zpow_add₀ (by norm_num)]
      congr 1
      omega
    have hk : (0 : ℚ) < 2 ^ k := zpow_pos (by norm_num) _
    have hm : (0 : ℚ) < 2 ^ m := zpow_pos (by norm_num) _
    have hz' : (z : ℚ) ≤ 2 ^ 53 := by exact_mod_cast (le_abs_self z).trans hz
    have hw' : (w : ℚ) ≤ 2 ^ 53 := by exact_mod_cast (le_abs_self w).trans hw
    rcases le_total k m with hkm | hkm
    · obtain ⟨n, hn⟩ := aux k m hkm
      have e : (z : ℚ) * 2 ^ k - w * 2 ^ m = ((z - w * 2 ^ n : ℤ) : ℚ) * 2 ^ k := by rw [hn]; push_cast; ring
      have h4 : 0 < ((z - w * 2 ^ n : ℤ) : ℚ) * 2 ^ k := by rw [← e]; linarith
      have h5 : 0 < z - w * 2 ^ n := by exact_mod_cast pos_of_mul_pos_left h4 hk.le
      have h6 : (1 : ℚ) ≤ ((z - w * 2 ^ n : ℤ) : ℚ) := by exact_mod_cast h5
      have h7 := mul_le_mul_of_nonneg_right h6 hk.le
      rw [← e] at h7
      have h8 := mul_le_mul_of_nonneg_right hz' hk.le
      generalize (z : ℚ) * 2 ^ k = Y at *
      norm_num at h3 h8
      linarith
    · obtain ⟨n, hn⟩ := aux m k hkm
      have e : (z : ℚ) * 2 ^ k - w * 2 ^ m = ((z * 2 ^ n - w : ℤ) : ℚ) * 2 ^ m := by rw [hn]; push_cast; ring
      have h4 : 0 < ((z * 2 ^ n - w : ℤ) : ℚ) * 2 ^ m := by rw [← e]; linarith
      have h5 : 0 < z * 2 ^ n - w := by exact_mod_cast pos_of_mul_pos_left h4 hm.le
      have h6 : (1 : ℚ) ≤ ((z * 2 ^ n - w : ℤ) : ℚ) := by exact_mod_cast h5
      have h7 := mul_le_mul_of_nonneg_right h6 hm.le
      rw [← e] at h7
      have h8 := mul_le_mul_of_nonneg_right hw' hm.le
      generalize (z : ℚ) * 2 ^ k = Y at *
      norm_num at h3 h8
      linarith

/-! ### C134: numbers -/

theorem fl_pos {x : ℚ} (h : 0 < x) : 0 < fl x := (Rel.fl h).pos (by norm_num)

theorem copysign_eq_zero {a v : ℚ} : copysign a v = 0 ↔ a = 0 := by
  rw [copysign]
  split_ifs <;> simp

theorem abs_copysign (a v : ℚ) : |copysign a v| = |a| := by
  rw [copysign]
  split_ifs <;> simp

theorem not_zero_cond {v : ℚ} (h : v ≠ 0) : ¬ (¬ v > 0 ∧ ¬ v < 0) := by
  rintro ⟨h1, h2⟩
  exact h (le_antisymm (not_lt.1 h1) (not_lt.1 h2))

theorem dbl_abs {v : ℚ} (h : Dbl v) : Dbl |v| := by
  obtain ⟨z, k, hz, rfl⟩ := h
  refine ⟨|z|, k, by rwa [abs_abs], ?_⟩
  rw [abs_mul, abs_of_pos (zpow_pos (by norm_num : (0 : ℚ) < 2) k)]
  push_cast
  rfl

theorem makePrettyD_eq {v : ℚ} (h : v ≠ 0) (r : Bool) :
    makePrettyD lg v r = (copysign (fl (prettyNorm r (normaliseD v (fl ((10 : ℚ) ^ lg |v|))).1 * (normaliseD v (fl ((10 : ℚ) ^ lg |v|))).2)) v,
      (normaliseD v (fl ((10 : ℚ) ^ lg |v|))).2) := by
  rw [makePrettyD, if_neg (not_zero_cond h)]

/-- C134: the result is zero for zero and for the numbers just under a power of ten which is at most 1 for which the logarithm is rounded
up to an integer. -/
theorem C134_zero_iff_partial (v : ℚ) (hv : Dbl v) (r : Bool) : (makePrettyD lg v r).1 = 0 ↔ v = 0 ∨ JustUnder lg v := by
  by_cases h : v = 0
  · subst h
    simp [makePrettyD]
  have h0 : 0 < |v| := abs_pos.2 h
  have hf : 0 < fl ((10 : ℚ) ^ lg |v|) := fl_pos (zpow_pos (by norm_num) _)
  have hlt := fl_div_lt_one (dbl_abs hv) (fl_dbl ((10 : ℚ) ^ lg |v|)) h0 hf
  have hn : ∀ x : ℚ, 0 < prettyNorm r x := fun x => lt_of_lt_of_le one_pos (mem_pos (prettyNorm_mem r x)).1
  have flz : ∀ x : ℚ, 0 ≤ x → (fl x = 0 ↔ x = 0) := by
    intro x hx
    refine ⟨fun hz => ?_, fun hz => by rw [hz, fl_zero]⟩
    by_contra hne
    exact (fl_pos (lt_of_le_of_ne hx (Ne.symm hne))).ne' hz
  rw [makePrettyD_eq h, copysign_eq_zero]
  simp only [h, false_or, JustUnder]
  rw [← hlt]
  simp only [normaliseD]
  by_cases hb : fl (|v| / fl ((10 : ℚ) ^ lg |v|)) < 1
  · simp only [hb, and_true, if_true]
    rcases le_or_gt (lg |v|) 0 with hE | hE
    · have h1 : (10 : ℚ) ^ lg |v| ≤ 1 := by
        simpa using zpow_le_zpow_right₀ (a := (10 : ℚ)) (by norm_num) hE
      have h2 : fl ((10 : ℚ) ^ lg |v|) < 10 := by
        have := (abs_le.1 (Rel.fl (zpow_pos (by norm_num : (0 : ℚ) < 10) (lg |v|))).2).2
        norm_num at this
        linarith
      rw [floorDivTen_zero hf.le h2, mul_zero, fl_zero]
      simp [hE]
    · have h2 := (floorDivTen_pow (show 1 ≤ lg |v| by omega)).pos (by norm_num)
      rw [flz _ (mul_pos (hn _) h2).le]
      constructor
      · intro hz; exact absurd hz (mul_pos (hn _) h2).ne'
      · intro hz; omega
  · simp only [hb, and_false, iff_false, if_false]
    rw [flz _ (mul_pos (hn _) hf).le]
    exact (mul_pos (hn _) hf).ne'

/-- The normalised number and the factor. -/
theorem normaliseD_spec (hlg : LogOk lg) {v : ℚ} (h : v ≠ 0) (hv : Dbl v) (hr : InRange v) (hg : ¬ JustUnder lg v) :
    let q := normaliseD v (fl ((10 : ℚ) ^ lg |v|))
    Rel 30 (q.1 * q.2) |v| ∧ (∃ k : ℤ, Rel 22 q.2 (10 ^ k) ∧ (q.2 = fl (10 ^ k) ∨ 22 ≤ k) ∧ |k| ≤ 500) ∧ 1 - 40 / 2 ^ 53 ≤ q.1 ∧ q.1 ≤ 10 * (1 + 40 / 2 ^ 53) := by
  have h0 : 0 < |v| := abs_pos.2 h
  have hp : (0 : ℚ) < 10 ^ lg |v| := zpow_pos (by norm_num) _
  have rf : Rel 1 (fl ((10 : ℚ) ^ lg |v|)) (10 ^ lg |v|) := Rel.fl hp
  have hf : 0 < fl ((10 : ℚ) ^ lg |v|) := fl_pos hp
  have hlt := fl_div_lt_one (dbl_abs hv) (fl_dbl ((10 : ℚ) ^ lg |v|)) h0 hf
  have rn : Rel 1 (fl (|v| / fl ((10 : ℚ) ^ lg |v|))) (|v| / fl ((10 : ℚ) ^ lg |v|)) := Rel.fl (div_pos h0 hf)
  have b1 := Int.zpow_log_le_self (b := 10) (by norm_num) h0
  have b2 := Int.lt_zpow_succ_log_self (b := 10) (by norm_num) |v|
  push_cast at b1 b2
  have hc := hlg.cases hr
  have hrl := hr.log
  -- the quotient is at most 10, nearly
  have up : fl (|v| / fl ((10 : ℚ) ^ lg |v|)) ≤ 10 * (1 + 40 / 2 ^ 53) := by
    have u1 : |v| ≤ 10 * 10 ^ lg |v| := by
      have : (10 : ℚ) ^ (Int.log 10 |v| + 1) ≤ 10 ^ (lg |v| + 1) := zpow_le_zpow_right₀ (by norm_num) (by omega)
      rw [zpow_add_one₀ (by norm_num) (lg |v|)] at this
      linarith
    have u2 := (rf.symm (by norm_num)).2
    have u3 := (abs_le.1 u2).2
    have u4 : |v| / fl ((10 : ℚ) ^ lg |v|) ≤ 10 * (1 + 2 / 2 ^ 53) := by
      rw [div_le_iff₀ hf]
      norm_num at u3 ⊢
      linarith
    have u5 := (abs_le.1 rn.2).2
    norm_num at u4 u5 ⊢
    linarith
  intro q
  by_cases hb : fl (|v| / fl ((10 : ℚ) ^ lg |v|)) < 1
  · have hq : q = (fl (fl (|v| / fl ((10 : ℚ) ^ lg |v|)) * 10), floorDivTen (fl ((10 : ℚ) ^ lg |v|))) := by
      simp only [q, normaliseD, if_pos hb]
    have hE : 1 ≤ lg |v| := by
      by_contra hE
      exact hg ⟨by omega, hlt.1 hb⟩
    have rt := floorDivTen_pow hE
    have rq := Rel.fl (mul_pos (rn.pos (by norm_num)) (by norm_num : (0 : ℚ) < 10))
    -- the number times the factor
    have s1 := rq.trans (rn.mul_right (c := 10) (by norm_num)) (by norm_num) (by norm_num)
    have e10 : (10 : ℚ) ^ (lg |v| - 1) = 10 ^ lg |v| / 10 := by rw [zpow_sub_one₀ (by norm_num)]; ring
    have s2 : Rel 25 (floorDivTen (fl ((10 : ℚ) ^ lg |v|))) (fl ((10 : ℚ) ^ lg |v|) / 10) := by
      rw [e10] at rt
      exact (rt.trans ((rf.symm (by norm_num)).div_right (c := 10) (by norm_num)) (by norm_num) (by norm_num)).mono (by norm_num)
    have s3 := s1.mul_right (s2.pos (by norm_num))
    have s4 := s2.mul_left (c := |v| / fl ((10 : ℚ) ^ lg |v|) * 10) (mul_pos (div_pos h0 hf) (by norm_num))
    have s5 : |v| / fl ((10 : ℚ) ^ lg |v|) * 10 * (fl ((10 : ℚ) ^ lg |v|) / 10) = |v| := by field_simp
    rw [s5] at s4
    rw [hq]
    refine ⟨(s3.trans s4 (by norm_num) (by norm_num)).mono (by norm_num), ⟨_, rt, ?_, by rw [abs_le]; constructor <;> omega⟩, ?_, ?_⟩
    · rcases le_or_gt 23 (lg |v|) with h23 | h23
      · right; omega
      · left
        change floorDivTen (fl ((10 : ℚ) ^ lg |v|)) = fl ((10 : ℚ) ^ (lg |v| - 1))
        obtain ⟨n, hn⟩ : ∃ n : ℕ, lg |v| = n + 1 := ⟨(lg |v| - 1).toNat, by omega⟩
        have e1 : (10 : ℚ) ^ ((n : ℤ) + 1) = 10 ^ (n + 1) := by exact_mod_cast zpow_natCast (10 : ℚ) (n + 1)
        rw [hn, e1, floorDivTen_small (by omega), add_sub_cancel_right, zpow_natCast, fl_of_dbl (dbl_ten (by omega))]
    · have l1 : (10 : ℚ) ^ (lg |v| - 1) ≤ |v| := (zpow_le_zpow_right₀ (by norm_num) (by omega)).trans b1
      rw [e10, div_le_iff₀ (by norm_num)] at l1
      have l2 := (abs_le.1 rf.2).2
      have l3 : 1 - 2 / 2 ^ 53 ≤ |v| / fl ((10 : ℚ) ^ lg |v|) * 10 := by
        rw [div_mul_eq_mul_div, le_div_iff₀ hf]
        norm_num at l2 ⊢
        linarith
      have l4 := (abs_le.1 s1.2).1
      norm_num at l3 l4 ⊢
      linarith
    · have := fl_mono (show fl (|v| / fl ((10 : ℚ) ^ lg |v|)) * 10 ≤ 10 by linarith)
      rw [fl_of_dbl (q := 10) (by simpa using dbl_ten (n := 1) (by norm_num))] at this
      norm_num at this ⊢
      linarith
  · have hq : q = (fl (|v| / fl ((10 : ℚ) ^ lg |v|)), fl ((10 : ℚ) ^ lg |v|)) := by
      simp only [q, normaliseD, if_neg hb]
    rw [hq]
    have s := rn.mul_right hf
    rw [div_mul_cancel₀ _ hf.ne'] at s
    refine ⟨s.mono (by norm_num), ⟨_, rf.mono (by norm_num), Or.inl rfl, by rw [abs_le]; constructor <;> omega⟩, ?_, up⟩
    have := not_lt.1 hb
    norm_num at this ⊢
    linarith

theorem prettyNorm_near {n : ℚ} (h1 : 1 - 40 / 2 ^ 53 ≤ n) (h2 : n ≤ 10 * (1 + 40 / 2 ^ 53)) :
    ((1 - 100 / 2 ^ 53) * n ≤ prettyNorm false n ∧ prettyNorm false n ≤ 5 / 2 * (1 + 100 / 2 ^ 53) * n) ∧
      (2 / 3 * (1 - 100 / 2 ^ 53) * n ≤ prettyNorm true n ∧ prettyNorm true n ≤ 5 / 3 * (1 + 100 / 2 ^ 53) * n) := by
  simp only [prettyNorm, Bool.false_eq_true, if_false, if_true]
  norm_num at h1 h2 ⊢
  refine ⟨?_, ?_⟩ <;> split_ifs <;> constructor <;> linarith

/-- C134: otherwise the result is 1, 2, 5 or 10 times a power of ten, up to rounding, with the sign of the number, and up to rounding
not below and at most 5/2 of the number (without rounding), or from 2/3 to 5/3 of the number (with rounding). -/
theorem C134_number_partial (hlg : LogOk lg) (v : ℚ) (h : v ≠ 0) (hv : Dbl v) (hr : InRange v) (hg : ¬ JustUnder lg v) (r : Bool) :
    let p := (makePrettyD lg v r).1
    (∃ a, IsPretty a ∧ Rel 30 |p| a) ∧ (0 < p ↔ 0 < v) ∧
      (r = false → (1 - 1 / 2 ^ 44) * |v| ≤ |p| ∧ |p| ≤ 5 / 2 * (1 + 1 / 2 ^ 44) * |v|) ∧
      (r = true → 2 / 3 * (1 - 1 / 2 ^ 44) * |v| ≤ |p| ∧ |p| ≤ 5 / 3 * (1 + 1 / 2 ^ 44) * |v|) := by
  obtain ⟨h1, ⟨k, h2, -⟩, h3, h4⟩ := normaliseD_spec hlg h hv hr hg
  have h0 : 0 < |v| := abs_pos.2 h
  intro p
  have hp : |p| = |fl (prettyNorm r (normaliseD v (fl ((10 : ℚ) ^ lg |v|))).1 * (normaliseD v (fl ((10 : ℚ) ^ lg |v|))).2)| := by
    rw [show p = _ from congrArg Prod.fst (makePrettyD_eq h r)]
    exact abs_copysign _ _
  have hp' : p = copysign (fl (prettyNorm r (normaliseD v (fl ((10 : ℚ) ^ lg |v|))).1 * (normaliseD v (fl ((10 : ℚ) ^ lg |v|))).2)) v :=
    congrArg Prod.fst (makePrettyD_eq h r)
  generalize (normaliseD v (fl ((10 : ℚ) ^ lg |v|))).1 = n at *
  generalize (normaliseD v (fl ((10 : ℚ) ^ lg |v|))).2 = f at *
  have hm := mem_pos (prettyNorm_mem r n)
  have hf := h2.pos (by norm_num)
  have hpos : 0 < prettyNorm r n * f := mul_pos (by linarith) hf
  have rp := Rel.fl hpos
  have fpos := rp.pos (by norm_num)
  rw [abs_of_pos fpos] at hp
  refine ⟨⟨prettyNorm r n * 10 ^ k, ⟨_, prettyNorm_mem r n, k, rfl⟩, ?_⟩, ?_, ?_, ?_⟩
  · rw [hp]
    exact (rp.trans (h2.mul_left (by linarith)) (by norm_num) (by norm_num)).mono (by norm_num)
  · rw [hp', copysign, abs_of_pos fpos]
    split_ifs with hv'
    · constructor <;> intro <;> linarith
    · exact ⟨fun _ => lt_of_le_of_ne (not_lt.1 hv') (Ne.symm h), fun _ => fpos⟩
  all_goals
    rintro rfl
    obtain ⟨⟨c1, c2⟩, c3, c4⟩ := prettyNorm_near h3 h4
    have e1 := (abs_le.1 rp.2).1
    have e2 := (abs_le.1 rp.2).2
    have e3 := (abs_le.1 h1.2).1
    have e4 := (abs_le.1 h1.2).2
    have d1 := mul_le_mul_of_nonneg_right c1 hf.le
    have d2 := mul_le_mul_of_nonneg_right c2 hf.le
    have d3 := mul_le_mul_of_nonneg_right c3 hf.le
    have d4 := mul_le_mul_of_nonneg_right c4 hf.le
    rw [mul_assoc] at d1 d2 d3 d4
    rw [hp]
    generalize n * f = x at *
    generalize hy : prettyNorm _ n * f = y at *
    norm_num at *
    constructor <;> linarith

/-- C134: numbers of at least 1 are not affected. -/
theorem C134_from_one (hlg : LogOk lg) (v : ℚ) (h : 1 ≤ |v|) : ¬ JustUnder lg v := by
  rintro ⟨h1, h2⟩
  have hp : 0 < |v| := by linarith
  obtain ⟨q, hq, he⟩ := hlg _ hp
  have h3 := hq.le dbl_zero (by
    push_cast
    exact Real.logb_nonneg (by norm_num) (by exact_mod_cast h))
  have h4 : 0 ≤ lg |v| := by rw [he]; exact Int.floor_nonneg.2 h3
  rw [show lg |v| = 0 by omega, zpow_zero, fl_of_dbl ⟨1, 0, by norm_num, by norm_num⟩] at h2
  linarith

/-! ### C134: ranges -/

theorem fl_abs {x B : ℚ} (h : |x| ≤ B) : |fl x - x| ≤ B / 2 ^ 53 :=
  (fl_near x).trans (div_le_div_of_nonneg_right h (by norm_num))

/-- The end of the range, from the floor or ceiling. -/
theorem end_near {x d : ℚ} (hd : 0 < d) (z : ℤ) (hz : |(z : ℚ) - fl (x / d)| ≤ 1) :
    |fl ((z : ℚ) * d) - z * d| ≤ (|x| + d) / 2 ^ 52 ∧ |fl (x / d) * d - x| ≤ |x| / 2 ^ 53 ∧ |(z : ℚ) * d| ≤ |x| + |x| / 2 ^ 53 + d := by
  have h1 := fl_near (x / d)
  rw [abs_div, abs_of_pos hd] at h1
  have h2 : |fl (x / d) * d - x| ≤ |x| / 2 ^ 53 := by
    have e : fl (x / d) * d - x = (fl (x / d) - x / d) * d := by rw [sub_mul, div_mul_cancel₀ _ hd.ne']
    rw [e, abs_mul, abs_of_pos hd]
    calc _ ≤ |x| / d / 2 ^ 53 * d := mul_le_mul_of_nonneg_right h1 hd.le
      _ = |x| / 2 ^ 53 := by field_simp
  have h3 : |(z : ℚ) * d - fl (x / d) * d| ≤ d := by
    rw [← sub_mul, abs_mul, abs_of_pos hd]
    linarith [mul_le_mul_of_nonneg_right hz hd.le]
  have h4 : |(z : ℚ) * d| ≤ |x| + |x| / 2 ^ 53 + d := by
    calc |(z : ℚ) * d| = |((z : ℚ) * d - fl (x / d) * d) + ((fl (x / d) * d - x) + x)| := by ring_nf
      _ ≤ |(z : ℚ) * d - fl (x / d) * d| + |(fl (x / d) * d - x) + x| := abs_add_le _ _
      _ ≤ |(z : ℚ) * d - fl (x / d) * d| + (|fl (x / d) * d - x| + |x|) := by linarith [abs_add_le (fl (x / d) * d - x) x]
      _ ≤ _ := by linarith
  refine ⟨(fl_abs h4).trans ?_, h2, h4⟩
  have := abs_nonneg x
  norm_num
  linarith

/-- What a pretty range of `low` to `high` should be, up to rounding: it covers the data, by less than a division more. -/
def CoversD (r : PrettyRange ℚ) (low high : ℚ) : Prop :=
  r.min ≤ low + (|low| + r.division) / 2 ^ 51 ∧ low < r.min + r.division + (|low| + r.division) / 2 ^ 51 ∧
    high ≤ r.max + (|high| + r.division) / 2 ^ 51 ∧ r.max < high + r.division + (|high| + r.division) / 2 ^ 51

theorem rangeForD_covers {low high d f : ℚ} (hd : 0 < d) :
    ∃ r, rangeForD lg low high d f = some r ∧ r.division = d ∧ CoversD r low high := by
  refine ⟨_, by rw [rangeForD, if_neg hd.ne', if_neg (not_lt.2 hd.le)], rfl, ?_⟩
  have f1 := Int.floor_le (fl (low / d))
  have f2 := Int.lt_floor_add_one (fl (low / d))
  have c1 := Int.le_ceil (fl (high / d))
  have c2 := Int.ceil_lt_add_one (fl (high / d))
  obtain ⟨a1, a2, a3⟩ := end_near (x := low) hd ⌊fl (low / d)⌋ (by rw [abs_le]; constructor <;> linarith)
  obtain ⟨b1, b2, b3⟩ := end_near (x := high) hd ⌈fl (high / d)⌉ (by rw [abs_le]; constructor <;> linarith)
  have g1 := mul_le_mul_of_nonneg_right f1 hd.le
  have g2 := mul_lt_mul_of_pos_right f2 hd
  have g3 := mul_le_mul_of_nonneg_right c1 hd.le
  have g4 := mul_lt_mul_of_pos_right c2 hd
  rw [add_mul, one_mul] at g2 g4
  rw [abs_le] at a1 a2 b1 b2
  have := abs_nonneg low
  have := abs_nonneg high
  simp only [CoversD]
  norm_num at a1 a2 b1 b2 ⊢
  refine ⟨?_, ?_, ?_, ?_⟩ <;> linarith

theorem getElem_arangeD (start stop step : ℚ) (k : ℕ) (h : k < (arangeD start stop step).length) :
    (arangeD start stop step)[k] = fl (start + fl (k * step)) := by
  simp [arangeD]

theorem length_arangeD (start stop step : ℚ) : (arangeD start stop step).length = ⌈fl (fl (stop - start) / step)⌉.toNat := by
  simp [arangeD]

/-- The ticks: the first is the minimum, the last one the maximum, and they are a division apart, up to 1/512 of the division. -/
def EvenD (r : PrettyRange ℚ) : Prop :=
  ∃ n : ℕ, r.ticks.length = n + 1 ∧ |r.min + n * r.division - r.max| ≤ r.division / 2 ^ 9 ∧
    ∀ (k : ℕ) (h : k < r.ticks.length), |r.ticks[k] - (r.min + k * r.division)| ≤ r.division / 2 ^ 9

theorem rangeForD_even {low high d f : ℚ} (hd : 0 < d) (dd : Dbl d) (hlh : low ≤ high) (hl : |low| ≤ 2 ^ 40 * d) (hh : |high| ≤ 2 ^ 40 * d)
    {r : PrettyRange ℚ} (hr : rangeForD lg low high d f = some r) :
    EvenD r ∧ r.ticks.length = (⌈fl (high / d)⌉ - ⌊fl (low / d)⌋).toNat + 1 := by
  rw [rangeForD, if_neg hd.ne', if_neg (not_lt.2 hd.le), Option.some.injEq] at hr
  subst hr
  have f1 := Int.floor_le (fl (low / d))
  have f2 := Int.lt_floor_add_one (fl (low / d))
  have c1 := Int.le_ceil (fl (high / d))
  have c2 := Int.ceil_lt_add_one (fl (high / d))
  obtain ⟨a1, -, a3⟩ := end_near (x := low) hd ⌊fl (low / d)⌋ (by rw [abs_le]; constructor <;> linarith)
  obtain ⟨b1, -, b3⟩ := end_near (x := high) hd ⌈fl (high / d)⌉ (by rw [abs_le]; constructor <;> linarith)
  have hN : ⌊fl (low / d)⌋ ≤ ⌈fl (high / d)⌉ := by
    have := fl_mono (div_le_div_of_nonneg_right hlh hd.le)
    exact_mod_cast f1.trans (this.trans c1)
  obtain ⟨N, hN⟩ := Int.eq_ofNat_of_zero_le (sub_nonneg.2 hN)
  have hNd : (⌈fl (high / d)⌉ : ℚ) * d = (⌊fl (low / d)⌋ : ℚ) * d + N * d := by
    have : (⌈fl (high / d)⌉ : ℚ) - ⌊fl (low / d)⌋ = N := by exact_mod_cast hN
    rw [← this]
    ring
  clear f1 f2 c1 c2
  set gmin := fl ((⌊fl (low / d)⌋ : ℚ) * d)
  set gmax := fl ((⌈fl (high / d)⌉ : ℚ) * d)
  generalize (⌊fl (low / d)⌋ : ℚ) * d = A at *
  generalize (⌈fl (high / d)⌉ : ℚ) * d = C at *
  have e1 : |gmin - A| ≤ d / 2 ^ 11 := by
    refine a1.trans ?_
    norm_num at hl ⊢
    linarith
  have e2 : |gmax - C| ≤ d / 2 ^ 11 := by
    refine b1.trans ?_
    norm_num at hh ⊢
    linarith
  have A1 : |A| ≤ 2 ^ 41 * d := by norm_num at hl a3 ⊢; linarith
  have C1 : |C| ≤ 2 ^ 41 * d := by norm_num at hh b3 ⊢; linarith
  rw [abs_le] at e1 e2 A1 C1
  have half : fl (1 / 2 * d) = 1 / 2 * d := by
    rw [mul_comm]
    exact fl_of_dbl (dbl_half dd)
  have e3 : |fl (gmax + fl (1 / 2 * d)) - (gmax + 1 / 2 * d)| ≤ d / 2 ^ 11 := by
    rw [half]
    have : |gmax + 1 / 2 * d| ≤ 2 ^ 42 * d := by
      rw [abs_le]
      norm_num at e2 C1 ⊢
      constructor <;> linarith
    refine (fl_abs this).trans ?_
    norm_num
    linarith
  set stop := fl (gmax + fl (1 / 2 * d))
  rw [abs_le] at e3
  have e4 : |fl (stop - gmin) - (stop - gmin)| ≤ d / 2 ^ 10 := by
    have : |stop - gmin| ≤ 2 ^ 43 * d := by
      rw [abs_le]
      norm_num at e1 e2 e3 A1 C1 ⊢
      constructor <;> linarith
    refine (fl_abs this).trans ?_
    norm_num
    linarith
  rw [abs_le] at e4
  have e5 : |fl (stop - gmin) / d - (N + 1 / 2)| ≤ 1 / 2 ^ 8 := by
    have : fl (stop - gmin) / d - (N + 1 / 2) = (fl (stop - gmin) - (N * d + 1 / 2 * d)) / d := by field_simp
    rw [this, abs_div, abs_of_pos hd, div_le_iff₀ hd, abs_le]
    norm_num at e1 e2 e3 e4 ⊢
    constructor <;> linarith
  have N0 : (N : ℚ) ≤ 2 ^ 42 := by
    have : (N : ℚ) * d ≤ 2 ^ 42 * d := by norm_num at A1 C1 ⊢; linarith
    exact le_of_mul_le_mul_right this hd
  have N1 : (0 : ℚ) ≤ N := by positivity
  rw [abs_le] at e5
  have e6 : |fl (fl (stop - gmin) / d) - fl (stop - gmin) / d| ≤ 1 / 2 ^ 10 := by
    have : |fl (stop - gmin) / d| ≤ 2 ^ 43 := by
      rw [abs_le]
      have N2 : (N : ℚ) ≤ 4398046511104 := N0.trans (by norm_num)
      norm_num at e5 ⊢
      constructor <;> linarith
    refine (fl_abs this).trans ?_
    norm_num
  rw [abs_le] at e6
  have hceil : ⌈fl (fl (stop - gmin) / d)⌉ = N + 1 := by
    rw [Int.ceil_eq_iff]
    push_cast
    norm_num at e5 e6 ⊢
    constructor <;> linarith
  have hlen : (arangeD gmin stop d).length = N + 1 := by
    rw [length_arangeD, hceil]
    omega
  refine ⟨⟨N, hlen, ?_, ?_⟩, by rw [hN]; exact hlen⟩
  · change |gmin + N * d - gmax| ≤ d / 2 ^ 9
    rw [abs_le]
    norm_num at e1 e2 ⊢
    constructor <;> linarith
  · intro k hk
    change |(arangeD gmin stop d)[k] - (gmin + k * d)| ≤ d / 2 ^ 9
    rw [getElem_arangeD]
    have hk' : k ≤ N := by
      have : k < (arangeD gmin stop d).length := hk
      omega
    have k0 : (0 : ℚ) ≤ k := by positivity
    have k1 : (k : ℚ) * d ≤ N * d := mul_le_mul_of_nonneg_right (by exact_mod_cast hk') hd.le
    have k2 : (N : ℚ) * d ≤ 2 ^ 42 * d := mul_le_mul_of_nonneg_right N0 hd.le
    have k3 : 0 ≤ (k : ℚ) * d := mul_nonneg k0 hd.le
    have k4 : |fl ((k : ℚ) * d) - k * d| ≤ d / 2 ^ 11 := by
      have : |(k : ℚ) * d| ≤ 2 ^ 42 * d := by rw [abs_of_nonneg k3]; linarith
      refine (fl_abs this).trans ?_
      norm_num
      linarith
    rw [abs_le] at k4
    have k5 : |fl (gmin + fl ((k : ℚ) * d)) - (gmin + fl ((k : ℚ) * d))| ≤ d / 2 ^ 10 := by
      have : |gmin + fl ((k : ℚ) * d)| ≤ 2 ^ 43 * d := by
        rw [abs_le]
        norm_num at e1 A1 k2 k4 ⊢
        constructor <;> linarith
      refine (fl_abs this).trans ?_
      norm_num
      linarith
    rw [abs_le] at k5 ⊢
    norm_num at k4 k5 ⊢
    constructor <;> linarith

theorem round_neg (x : ℚ) : roundHalfEven (-x) = -roundHalfEven x := by
  have h1 := Int.floor_le x
  have h2 := Int.lt_floor_add_one x
  rcases eq_or_lt_of_le h1 with h | h
  · rw [← h, show -((⌊x⌋ : ℤ) : ℚ) = ((-⌊x⌋ : ℤ) : ℚ) by push_cast; rfl, round_int, round_int]
  · have hf : ⌊-x⌋ = -⌊x⌋ - 1 := by
      rw [Int.floor_eq_iff]
      push_cast
      constructor <;> linarith
    simp only [roundHalfEven, hf]
    push_cast
    rcases lt_trichotomy (x - ⌊x⌋) (1 / 2) with c | c | c
    · rw [if_neg (by linarith), if_pos (by linarith), if_pos c]
      ring
    · have c1 : ¬ (-x - (-(⌊x⌋ : ℚ) - 1) < 1 / 2) := by linarith
      have c2 : ¬ (1 / 2 < -x - (-(⌊x⌋ : ℚ) - 1)) := by linarith
      rw [if_neg c1, if_neg c2, if_neg (not_lt.2 c.ge), if_neg (not_lt.2 c.le)]
      split_ifs <;> omega
    · rw [if_pos (by linarith), if_neg (by linarith), if_pos c]
      ring

theorem fl_neg (x : ℚ) : fl (-x) = -fl x := by
  rw [fl, fl]
  by_cases h : x = 0
  · simp [h]
  · rw [if_neg (neg_ne_zero.2 h), if_neg h, abs_neg, neg_div, round_neg]
    push_cast
    ring

/-- The tick at zero is exact. -/
theorem rangeForD_zero {low high d f : ℚ} (hd : 0 < d) {r : PrettyRange ℚ} (hr : rangeForD lg low high d f = some r)
    (hlen : r.ticks.length = (⌈fl (high / d)⌉ - ⌊fl (low / d)⌋).toNat + 1) (h1 : low ≤ 0) (h2 : 0 ≤ high) : 0 ∈ r.ticks := by
  rw [rangeForD, if_neg hd.ne', if_neg (not_lt.2 hd.le), Option.some.injEq] at hr
  subst hr
  have f1 : ⌊fl (low / d)⌋ ≤ 0 := by
    have := fl_mono (div_nonpos_of_nonpos_of_nonneg h1 hd.le)
    rw [fl_zero] at this
    have := (Int.floor_le (fl (low / d))).trans this
    exact_mod_cast this
  have f2 : 0 ≤ ⌈fl (high / d)⌉ := by
    have := fl_mono (div_nonneg h2 hd.le)
    rw [fl_zero] at this
    have := this.trans (Int.le_ceil (fl (high / d)))
    exact_mod_cast this
  refine List.mem_iff_getElem.2 ⟨(-⌊fl (low / d)⌋).toNat, by rw [hlen]; omega, ?_⟩
  rw [getElem_arangeD]
  have : (((-⌊fl (low / d)⌋).toNat : ℕ) : ℚ) = -(⌊fl (low / d)⌋ : ℚ) := by
    have : (((-⌊fl (low / d)⌋).toNat : ℕ) : ℤ) = -⌊fl (low / d)⌋ := by omega
    exact_mod_cast this
  rw [this, neg_mul, fl_neg, add_neg_cancel, fl_zero]

/-- C134: unless a number is just under a power of ten, the range covers the data and its ticks are evenly spaced, up to rounding; if the data
are on both sides of zero, there is a tick at exactly zero. -/
theorem C134_range_partial (hlg : LogOk lg) (a b : ℚ) (hab : a ≠ b) (ticks : ℤ) (ht : 2 ≤ ticks)
    (h1 : InRange (fl (max a b - min a b)) ∧ ¬ JustUnder lg (fl (max a b - min a b)))
    (h2 : let u := fl ((makePrettyD lg (fl (max a b - min a b)) false).1 / fl ((ticks : ℚ) - 1)); InRange u ∧ ¬ JustUnder lg u) :
    ∃ r, prettyRangeD lg a b ticks = some r ∧ 0 < r.division ∧ (∃ c, IsPretty c ∧ Rel 30 r.division c) ∧ CoversD r (min a b) (max a b) ∧
      (|a| ≤ 2 ^ 40 * r.division → |b| ≤ 2 ^ 40 * r.division → EvenD r ∧ (min a b ≤ 0 → 0 ≤ max a b → 0 ∈ r.ticks)) := by
  have hlt : min a b < max a b := by
    rw [min_lt_max]
    exact hab
  have w0 : 0 < fl (max a b - min a b) := fl_pos (by linarith)
  obtain ⟨-, p1, -⟩ := C134_number_partial hlg _ w0.ne' (fl_dbl _) h1.1 h1.2 false
  have t1 : (1 : ℚ) ≤ (ticks : ℚ) - 1 := by
    have : (2 : ℚ) ≤ ticks := by exact_mod_cast ht
    linarith
  have u0 : 0 < fl ((makePrettyD lg (fl (max a b - min a b)) false).1 / fl ((ticks : ℚ) - 1)) :=
    fl_pos (div_pos (p1.2 w0) (fl_pos (by linarith)))
  obtain ⟨pr, p2, -⟩ := C134_number_partial hlg _ u0.ne' (fl_dbl _) h2.1 h2.2 true
  have d0 := p2.2 u0
  rw [abs_of_pos d0] at pr
  have dd : Dbl (makePrettyD lg (fl ((makePrettyD lg (fl (max a b - min a b)) false).1 / fl ((ticks : ℚ) - 1))) true).1 := by
    rw [makePrettyD_eq u0.ne', copysign, if_neg (not_lt.2 u0.le)]
    exact dbl_abs (fl_dbl _)
  have hr : prettyRangeD lg a b ticks = rangeForD lg (min a b) (max a b)
      (makePrettyD lg (fl ((makePrettyD lg (fl (max a b - min a b)) false).1 / fl ((ticks : ℚ) - 1))) true).1
      (makePrettyD lg (fl ((makePrettyD lg (fl (max a b - min a b)) false).1 / fl ((ticks : ℚ) - 1))) true).2 := by
    rw [prettyRangeD]
    simp only [if_neg hlt.ne', if_neg (show ticks ≠ 1 by omega)]
  obtain ⟨r, e, hrd, hc⟩ := rangeForD_covers (lg := lg) (low := min a b) (high := max a b)
    (f := (makePrettyD lg (fl ((makePrettyD lg (fl (max a b - min a b)) false).1 / fl ((ticks : ℚ) - 1))) true).2) d0
  refine ⟨r, by rw [hr, e], by rw [hrd]; exact d0, by rw [hrd]; exact pr, hc, fun l1 l2 => ?_⟩
  rw [hrd] at l1 l2
  clear hr hc hrd h2 p2 pr u0
  generalize (makePrettyD lg _ true).2 = f at *
  generalize (makePrettyD lg _ true).1 = d at *
  have l3 : |min a b| ≤ 2 ^ 40 * d := by rcases min_choice a b with h | h <;> rw [h] <;> assumption
  have l4 : |max a b| ≤ 2 ^ 40 * d := by rcases max_choice a b with h | h <;> rw [h] <;> assumption
  obtain ⟨ev, hlen⟩ := rangeForD_even d0 dd hlt.le l3 l4 e
  exact ⟨ev, fun z1 z2 => rangeForD_zero d0 e hlen z1 z2⟩

/-! ### C134: counterexamples -/

theorem log_ten : (2.2 : ℝ) < Real.log 10 := by
  have h1 := Real.log_two_gt_d9
  have h2 := Real.one_sub_inv_le_log_of_pos (show (0 : ℝ) < 5 / 4 by norm_num)
  have h3 : Real.log 10 = 3 * Real.log 2 + Real.log (5 / 4) := by
    rw [show (10 : ℝ) = 2 ^ 3 * (5 / 4) by norm_num, Real.log_mul (by norm_num) (by norm_num), Real.log_pow]
    norm_num
  rw [h3]
  norm_num at h1 h2 ⊢
  linarith

/-- 0.3 - 0.2 in doubles. -/
theorem tenth_value : fl (fl (3 / 10) - fl (2 / 10)) = 900719925474099 / 2 ^ 53 := by decide +kernel

theorem lg_tenth (hlg : LogOk lg) : lg (900719925474099 / 2 ^ 53) = -1 := by
  obtain ⟨q, hq, he⟩ := hlg (900719925474099 / 2 ^ 53) (by norm_num)
  have m1 : Dbl (-1) := ⟨-1, 0, by norm_num, by norm_num⟩
  have hL : Real.logb 10 ((900719925474099 / 2 ^ 53 : ℚ) : ℝ) = -1 + Real.log (1 - 2 / 2 ^ 53) / Real.log 10 := by
    have : ((900719925474099 / 2 ^ 53 : ℚ) : ℝ) = (10 : ℝ)⁻¹ * (1 - 2 / 2 ^ 53) := by push_cast; norm_num
    rw [this, Real.logb, Real.log_mul (by norm_num) (by norm_num), Real.log_inv, add_div, neg_div, div_self (by linarith [log_ten])]
  have h10 := log_ten
  have n1 : Real.log (1 - 2 / 2 ^ 53) ≤ 0 := Real.log_nonpos (by norm_num) (by norm_num)
  have n2 := Real.one_sub_inv_le_log_of_pos (show (0 : ℝ) < 1 - 2 / 2 ^ 53 by norm_num)
  have n3 : -(1 / 2 ^ 53) < Real.log (1 - 2 / 2 ^ 53) / Real.log 10 := by
    rw [lt_div_iff₀ (by linarith)]
    norm_num at n2 h10 ⊢
    linarith
  have n4 : Real.log (1 - 2 / 2 ^ 53) / Real.log 10 ≤ 0 := div_nonpos_of_nonpos_of_nonneg n1 (by linarith)
  generalize Real.log (1 - 2 / 2 ^ 53) / Real.log 10 = t at *
  have q1 : q ≤ -1 := hq.ge m1 (by rw [hL]; push_cast; linarith)
  have q2 := hq.2 _ m1
  rw [hL] at q2
  have q3 : -1 - 1 / 2 ^ 52 < q := by
    have : (-1 - 1 / 2 ^ 52 : ℝ) < q := by
      rw [abs_of_nonneg (a := ((-1 : ℚ) : ℝ) - (-1 + t)) (by push_cast; linarith)] at q2
      have := (abs_le.1 q2).1
      push_cast at this
      norm_num at this n3 ⊢
      linarith
    exact (Rat.cast_lt (K := ℝ)).1 (by push_cast; exact this)
  have q4 : q = -1 := by
    by_contra hne
    have q5 : q < -1 := lt_of_le_of_ne q1 hne
    obtain ⟨z, k, hz, rfl⟩ := hq.1
    rcases le_or_gt (-52) k with hk | hk
    · obtain ⟨n, hn⟩ := Int.eq_ofNat_of_zero_le (show 0 ≤ k + 52 by omega)
      have e : (z : ℚ) * 2 ^ k = ((z * 2 ^ n : ℤ) : ℚ) / 2 ^ 52 := by
        rw [show k = n + -52 by omega, zpow_add₀ (by norm_num), zpow_natCast]
        push_cast
        norm_num
        ring
      rw [e] at q3 q5
      rw [div_lt_iff₀ (by norm_num)] at q5
      rw [lt_div_iff₀ (by norm_num)] at q3
      norm_num at q3 q5
      have i1 : z * 2 ^ n < -4503599627370496 := by exact_mod_cast q5
      have i2 : -4503599627370497 < z * 2 ^ n := by exact_mod_cast q3
      omega
    · have hz' : -2 ^ 53 ≤ (z : ℚ) := by exact_mod_cast (abs_le.1 hz).1
      have h1 : (2 : ℚ) ^ k ≤ 2 ^ (-53 : ℤ) := zpow_le_zpow_right₀ (by norm_num) (by omega)
      have h2 : (0 : ℚ) < 2 ^ k := zpow_pos (by norm_num) _
      have h3 := mul_le_mul_of_nonneg_right hz' h2.le
      norm_num at h1 h3
      linarith
  rw [he, q4]
  norm_num

/-- C134, counterexample: 0.3 - 0.2 is just under 0.1, and its pretty number is 0. -/
theorem C134_counterexample_number (hlg : LogOk lg) (r : Bool) : (makePrettyD lg (fl (fl (3 / 10) - fl (2 / 10))) r).1 = 0 := by
  rw [C134_zero_iff_partial _ (fl_dbl _), tenth_value]
  right
  rw [JustUnder, abs_of_pos (by norm_num), lg_tenth hlg]
  exact ⟨by norm_num, by decide +kernel⟩

/-- C134, counterexample: the pretty range of 0.2 to 0.3 is 0 to 0 with a single tick at 0. -/
theorem C134_counterexample_range (hlg : LogOk lg) (ticks : ℤ) (ht : 2 ≤ ticks) :
    prettyRangeD lg (fl (2 / 10)) (fl (3 / 10)) ticks = some ⟨0, 0, [0], 0, 0, 0⟩ := by
  have h1 : min (fl (2 / 10)) (fl (3 / 10)) = fl (2 / 10) := by decide +kernel
  have h2 : max (fl (2 / 10)) (fl (3 / 10)) = fl (3 / 10) := by decide +kernel
  have h3 : fl (3 / 10) ≠ fl (2 / 10) := by decide +kernel
  rw [prettyRangeD]
  simp only [h1, h2, if_neg h3, if_neg (show ticks ≠ 1 by omega), C134_counterexample_number hlg, zero_div, fl_zero]
  simp [makePrettyD, rangeForD]

/-- C134, counterexample: the minimum can be above the data, by rounding (1.7 with a division of 0.1). -/
theorem C134_counterexample_above :
    ∃ r, rangeForD lg (fl (17 / 10)) (fl (21 / 10)) (fl (1 / 10)) (fl (1 / 10)) = some r ∧ fl (17 / 10) < r.min := by
  have h1 : ¬ fl (1 / 10) = 0 := by decide +kernel
  have h2 : ¬ fl (1 / 10) < 0 := by decide +kernel
  have h3 : fl (17 / 10) < fl ((⌊fl (fl (17 / 10) / fl (1 / 10))⌋ : ℚ) * fl (1 / 10)) := by decide +kernel
  exact ⟨_, by rw [rangeForD, if_neg h1, if_neg h2], h3⟩

/-! ### C134: examples -/

theorem inRange_of {v : ℚ} (h1 : 1 / 1000 ≤ |v|) (h2 : |v| < 1000) : InRange v := by
  constructor
  · refine le_trans ?_ h1
    calc (10 : ℚ) ^ (-400 : ℤ) ≤ 10 ^ (-3 : ℤ) := zpow_le_zpow_right₀ (by norm_num) (by norm_num)
      _ = 1 / 1000 := by norm_num
  · refine lt_of_lt_of_le h2 ?_
    calc (1000 : ℚ) = 10 ^ (3 : ℤ) := by norm_num
      _ ≤ 10 ^ (400 : ℤ) := zpow_le_zpow_right₀ (by norm_num) (by norm_num)

example (hlg : LogOk lg) : (1 - 1 / 2 ^ 44) * 23 ≤ |(makePrettyD lg 23 false).1| := by
  have h := C134_number_partial hlg 23 (by norm_num) ⟨23, 0, by norm_num, by norm_num⟩ (inRange_of (by norm_num) (by norm_num))
    (C134_from_one hlg 23 (by norm_num)) false
  simpa using (h.2.2.1 rfl).1

/-- The range of 0 to 100 with 5 ticks is one of `C134_range_partial`. -/
example (hlg : LogOk lg) : ∃ r, prettyRangeD lg 0 100 5 = some r ∧ CoversD r 0 100 := by
  have e : fl (max 0 100 - min 0 100) = 100 := by decide +kernel
  have f : fl (((5 : ℤ) : ℚ) - 1) = 4 := by decide +kernel
  have i1 : InRange 100 := inRange_of (by norm_num) (by norm_num)
  have j1 : ¬ JustUnder lg 100 := C134_from_one hlg 100 (by norm_num)
  obtain ⟨-, h1, h2, -⟩ := C134_number_partial hlg 100 (by norm_num) ⟨100, 0, by norm_num, by norm_num⟩ i1 j1 false
  obtain ⟨h3, h4⟩ := h2 rfl
  rw [abs_of_pos (h1.2 (by norm_num))] at h3 h4
  have h5 := fl_near ((makePrettyD lg 100 false).1 / 4)
  rw [abs_div, abs_of_pos (h1.2 (by norm_num))] at h5
  have h6 := abs_le.1 h5
  obtain ⟨r, h, -, -, hc, -⟩ := C134_range_partial hlg 0 100 (by norm_num) 5 (by norm_num) (by rw [e]; exact ⟨i1, j1⟩) (by
    rw [e, f]
    generalize (makePrettyD lg 100 false).1 = p at *
    have : 1 ≤ fl (p / 4) ∧ fl (p / 4) < 1000 := by
      norm_num at h3 h4 h6
      constructor <;> linarith
    refine ⟨inRange_of ?_ ?_, C134_from_one hlg _ ?_⟩ <;> rw [abs_of_pos (by linarith)] <;> linarith)
  exact ⟨r, h, by simpa using hc⟩

end Verif.Geometry
