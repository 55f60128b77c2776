import Verif.Geometry.DistanceDoubles
import Verif.Geometry.LabelDoubles
import Verif.Geometry.LogInside

/-!
Pretty numbers and ranges for all finite floats (`nion/utils/Geometry.py:20-115`), C176: rounding to 53 binary digits, gradual underflow
and overflow. As in `PrettyDoubles.lean`, `lg x` is `math.floor(math.log10(x))` and `math.pow(10.0, n)` is the nearest float (zero when
too small). `none` stands for an exception: `ZeroDivisionError` of a division by zero, `OverflowError` and `ValueError` of `math.floor`
and `math.ceil` of something that is not finite, `ValueError` of the logarithm of a negative number.
-/

namespace Verif.Geometry

open Verif.Converter

/-! ### The model -/

/-- The number, if it is finite. -/
def Fl.finite : Fl → Option ℚ
  | .fin q => some q
  | .inf _ => none

/-- `math.copysign`. -/
def Fl.copysign : Fl → ℚ → Fl
  | .fin a, v => .fin (Geometry.copysign a v)
  | .inf _, v => .inf (v < 0)

/-- Lines 20-51. -/
def makePrettyF (lg : ℚ → ℤ) : Fl → Bool → Option (Fl × ℚ)
  | .inf _, _ => some (.fin 0, 0)
  | .fin v, rounding =>
    if ¬ v > 0 ∧ ¬ v < 0 then some (.fin 0, 0)
    else if flS ((10 : ℚ) ^ lg |v|) = 0 then none
    else
      let f := flS ((10 : ℚ) ^ lg |v|)
      let n := flS (|v| / f)
      let q := if n < 1 then (flS (n * 10), floorDivTen f) else (n, f)
      some ((rnd (prettyNorm rounding q.1 * q.2)).copysign v, q.2)

/-- What lines 59-115 return. -/
structure RangeF where
  min : ℚ
  max : ℚ
  ticks : List Fl
  division : ℚ
  precision : ℤ
  factor10 : ℚ

/-- Lines 109-110, one element: `start + x * step`. -/
def tickF (start step : ℚ) (x : ℕ) : Fl :=
  match rnd (x * step) with
  | .inf n => .inf n
  | .fin y => rnd (start + y)

/-- Lines 89-115. -/
def rangeForF (lg : ℚ → ℤ) (low high : ℚ) (division : Fl) (factor10 : ℚ) : Option RangeF :=
  match division with
  | .inf _ => none
  | .fin d =>
    if d = 0 then some ⟨0, 0, [.fin 0], 0, 0, 0⟩
    else if d < 0 then none
    else do
      let l ← (rnd (low / d)).finite
      let h ← (rnd (high / d)).finite
      let gmin ← (rnd (⌊l⌋ * d)).finite
      let gmax ← (rnd (⌈h⌉ * d)).finite
      let stop ← (rnd (gmax + flS (1 / 2 * d))).finite
      let width ← (rnd (stop - gmin)).finite
      let count ← (rnd (width / d)).finite
      return ⟨gmin, gmax, (List.range ⌈count⌉.toNat).map (tickF gmin d), d, Max.max (-lg d) 0, factor10⟩

/-- `value_range / (ticks - 1)`. -/
def Fl.divide : Fl → ℚ → Fl
  | .fin v, t => rnd (v / t)
  | .inf n, _ => .inf n

/-- Lines 59-115. -/
def prettyRangeF (lg : ℚ → ℤ) (a b : ℚ) (ticks : ℤ) : Option RangeF :=
  let low := Min.min a b
  let high := Max.max a b
  if high = low then some ⟨low, low, [.fin low], 0, 0, 0⟩
  else if ticks = 1 then none
  else do
    let v ← makePrettyF lg (rnd (high - low)) false
    let d ← makePrettyF lg (v.1.divide (fl ((ticks : ℚ) - 1))) true
    rangeForF lg low high d.1 d.2

variable {lg : ℚ → ℤ}

/-! ### Numbers -/

theorem LogOk.eq (h : LogOk lg) {x : ℚ} {e : ℤ} (he : |e| ≤ 1000) (h1 : (10 : ℚ) ^ e ≤ x) (h2 : x ≤ 51 / 10 * 10 ^ e) : lg x = e := by
  have hx : 0 < x := lt_of_lt_of_le (zpow_pos (by norm_num) _) h1
  obtain ⟨q, hq, e1⟩ := h x hx
  have a := hq.le (dbl_int (z := e) (he.trans (by norm_num))) (by exact_mod_cast le_logb h1)
  have hd : Dbl ((e : ℚ) + 3 / 4) := by
    refine ⟨4 * e + 3, -2, ?_, ?_⟩
    · rw [abs_le] at he ⊢
      constructor <;> omega
    · push_cast
      norm_num
      ring
  have b := hq.ge hd (by push_cast; exact logb_le hx h2)
  rw [e1, Int.floor_eq_iff]
  exact ⟨a, by linarith⟩

set_option exponentiation.threshold 2500 in
theorem ten_small : (10 : ℚ) ^ (-324 : ℤ) ≤ 2 ^ (-1075 : ℤ) ∧ (2 : ℚ) ^ (-1075 : ℤ) < 10 ^ (-323 : ℤ) ∧
    (10 : ℚ) ^ (-323 : ℤ) ≤ 3 * 2 ^ (-1074 : ℤ) := by
  refine ⟨?_, ?_, ?_⟩ <;> norm_num [zpow_neg]

set_option exponentiation.threshold 2500 in
theorem log2_lower : (643 : ℝ) / 2136 ≤ Real.logb 10 2 := by
  have h := LogTicker.le_logb_of_pow (x := 2) (n := 2136) (m := 643) (by norm_num) (by norm_num)
  exact_mod_cast h

/-- The exponent of the smallest floats. -/
theorem LogOk.smallest (h : LogOk lg) {x : ℚ} (h0 : 2 ^ (-1074 : ℤ) ≤ x) (h1 : x ≤ 2 ^ (-1073 : ℤ)) : lg x = -324 := by
  have hx : 0 < x := lt_of_lt_of_le (two_pos' _) h0
  obtain ⟨q, hq, e1⟩ := h x hx
  have hx' : (0 : ℝ) < x := by exact_mod_cast hx
  have a : (-324 : ℚ) ≤ q := by
    have hd : Dbl ((-324 : ℤ) : ℚ) := dbl_int (by norm_num)
    have := hq.le hd (le_logb (x := x) (e := -324) ?_)
    · exact_mod_cast this
    · exact (ten_small.1.trans (two_le (by norm_num))).trans h0
  have hd : Dbl (-(323 + 1 / 256) : ℚ) := ⟨-(323 * 256 + 1), -8, by norm_num, by norm_num⟩
  have b := hq.ge hd (by
    have h2 := (Rat.cast_le (K := ℝ)).2 h1
    rw [show (-1073 : ℤ) = -((1073 : ℕ) : ℤ) from rfl, zpow_neg, zpow_natCast] at h2
    rw [Rat.cast_inv, Rat.cast_pow] at h2
    have l := Real.logb_le_logb_of_le (b := 10) (by norm_num) hx' h2
    rw [Real.logb_inv, Real.logb_pow] at l
    refine l.trans ?_
    have := log2_lower
    push_cast
    linarith)
  rw [e1, Int.floor_eq_iff]
  push_cast
  exact ⟨a, by linarith⟩

theorem flt_zero_or {v : ℚ} (hv : Flt v) (h : v ≠ 0) : 2 ^ (-1074 : ℤ) ≤ |v| := by
  obtain ⟨z, e⟩ := hv.grid
  have hz : z ≠ 0 := by
    rintro rfl
    exact h (by rw [e]; simp)
  have : (1 : ℚ) ≤ |(z : ℚ)| := by exact_mod_cast Int.one_le_abs hz
  rw [e, abs_mul, abs_of_pos (two_pos' _)]
  have := mul_le_mul_of_nonneg_right this (two_pos' (-1074)).le
  rwa [one_mul] at this

/-- C176: `make_pretty` raises for the two smallest positive floats and the two largest negative ones, and for no other float. -/
theorem C176_number_raises_iff (h : LogOk lg) (v : ℚ) (hv : Flt v) (r : Bool) :
    makePrettyF lg (.fin v) r = none ↔ v ≠ 0 ∧ |v| ≤ 2 ^ (-1073 : ℤ) := by
  have key : makePrettyF lg (.fin v) r = none ↔ v ≠ 0 ∧ flS ((10 : ℚ) ^ lg |v|) = 0 := by
    rw [makePrettyF]
    by_cases h0 : v = 0
    · subst h0
      simp
    · have : ¬ (¬ v > 0 ∧ ¬ v < 0) := fun ⟨a, b⟩ => h0 (le_antisymm (not_lt.1 a) (not_lt.1 b))
      rw [if_neg this]
      by_cases h1 : flS ((10 : ℚ) ^ lg |v|) = 0
      · simp [h1, h0]
      · simp [h1]
  rw [key]
  refine and_congr_right fun h0 => ?_
  have hp : 0 < |v| := abs_pos.2 h0
  have hmin := flt_zero_or hv h0
  have hten : (0 : ℚ) < 10 ^ lg |v| := zpow_pos (by norm_num) _
  rw [flS_eq_zero, abs_of_pos hten]
  constructor
  · intro h1
    by_contra hlt
    rw [not_le] at hlt
    -- three units at least
    have h3 : 3 * 2 ^ (-1074 : ℤ) ≤ |v| := by
      obtain ⟨z, e⟩ := hv.grid
      rw [e, abs_mul, abs_of_pos (two_pos' _)] at hlt ⊢
      refine mul_le_mul_of_nonneg_right ?_ (two_pos' _).le
      rw [show (-1073 : ℤ) = 1 + -1074 by norm_num, two_add] at hlt
      have h4 := lt_of_mul_lt_mul_right hlt (two_pos' (-1074)).le
      have h5 : (2 : ℤ) < |z| := by
        rw [zpow_one] at h4
        exact_mod_cast h4
      exact_mod_cast (show (3 : ℤ) ≤ |z| by omega)
    have h4 : (10 : ℚ) ^ (-323 : ℤ) ≤ |v| := ten_small.2.2.trans h3
    obtain ⟨q, hq, e1⟩ := h |v| hp
    have a := hq.le (dbl_int (z := -323) (by norm_num)) (le_logb h4)
    have h5 : -323 ≤ lg |v| := by rw [e1, Int.le_floor]; exact a
    have h6 : (10 : ℚ) ^ (-323 : ℤ) ≤ 10 ^ lg |v| := zpow_le_zpow_right₀ (by norm_num) h5
    exact absurd (h6.trans h1) (not_le.2 ten_small.2.1)
  · intro h1
    rw [h.smallest hmin h1]
    exact ten_small.1

/-- C176: two floats next to each other at the smallest distances make `make_pretty_range2` raise, for every number of ticks. -/
theorem C176_close_raises (h : LogOk lg) (a b : ℚ) (ha : Flt a) (hb : Flt b) (hab : a ≠ b) (hd : |a - b| ≤ 2 ^ (-1073 : ℤ)) (ticks : ℤ) :
    prettyRangeF lg a b ticks = none := by
  have hne : ¬ max a b = min a b := by
    rcases lt_or_gt_of_ne hab with h | h
    · rw [max_eq_right h.le, min_eq_left h.le]; exact fun e => hab e.symm
    · rw [max_eq_left h.le, min_eq_right h.le]; exact hab
  have hm : max a b - min a b = |a - b| := by
    rcases le_total a b with h | h
    · rw [max_eq_right h, min_eq_left h, abs_of_nonpos (by linarith)]; ring
    · rw [max_eq_left h, min_eq_right h, abs_of_nonneg (by linarith)]
  have hg : ∃ z : ℤ, |a - b| = z * 2 ^ (-1074 : ℤ) := by
    obtain ⟨z, hz⟩ := ha.grid
    obtain ⟨w, hw⟩ := hb.grid
    refine ⟨|z - w|, ?_⟩
    rw [hz, hw, ← sub_mul, abs_mul, abs_of_pos (two_pos' _)]
    rw [Int.cast_abs, Int.cast_sub]
  have hdb : Dbl |a - b| := by
    obtain ⟨z, hz⟩ := hg
    refine ⟨z, _, ?_, hz⟩
    rw [hz, show (-1073 : ℤ) = 1 + -1074 by norm_num, two_add] at hd
    have h4 := le_of_mul_le_mul_right hd (two_pos' (-1074))
    rw [zpow_one] at h4
    have h5 : z ≤ 2 := by exact_mod_cast h4
    have h6 : 0 ≤ z := by
      have h0 := abs_nonneg (a - b)
      rw [hz] at h0
      exact_mod_cast nonneg_of_mul_nonneg_left h0 (two_pos' (-1074))
    rw [abs_of_nonneg h6]
    omega
  have hf : Flt |a - b| := ⟨hdb, hg, by rw [abs_abs]; exact hd.trans_lt (two_lt (by norm_num))⟩
  have hr : rnd |a - b| = .fin |a - b| := by
    rw [rnd, flS_of_flt hf, abs_abs, if_neg (not_le.2 (hd.trans_lt (two_lt (by norm_num))))]
  rw [prettyRangeF]
  simp only [hne, if_false]
  by_cases ht : ticks = 1
  · rw [if_pos ht]
  · rw [if_neg ht, hm, hr, (C176_number_raises_iff h _ hf false).2 ⟨(abs_pos.2 (sub_ne_zero.2 hab)).ne', by rwa [abs_abs]⟩]
    rfl

/-- C176, counterexample: the axis from 0 to the smallest positive float. -/
theorem C176_counterexample_small (h : LogOk lg) (ticks : ℤ) : prettyRangeF lg 0 (2 ^ (-1074 : ℤ)) ticks = none := by
  refine C176_close_raises h _ _ ⟨dbl_zero, ⟨0, by simp⟩, by rw [abs_zero]; exact two_pos' _⟩
    ⟨dbl_two _, ⟨1, by simp⟩, by rw [abs_of_pos (two_pos' _)]; exact two_lt (by norm_num)⟩ (two_pos' _).ne ?_ ticks
  rw [zero_sub, abs_neg, abs_of_pos (two_pos' _)]
  exact two_le (by norm_num)

/-- The number with the other sign. -/
def Fl.opposite : Fl → Fl
  | .fin a => .fin (-a)
  | .inf n => .inf (!n)

/-- C176: the pretty number of the opposite number is the opposite, also where it is infinite. -/
theorem C176_number_odd (lg : ℚ → ℤ) (v : ℚ) (r : Bool) :
    makePrettyF lg (.fin (-v)) r = (makePrettyF lg (.fin v) r).map fun p => (p.1.opposite, p.2) := by
  by_cases h0 : v = 0
  · subst h0
    simp [makePrettyF, Fl.opposite]
  · rw [makePrettyF, makePrettyF, abs_neg]
    have h1 : ¬ (¬ -v > 0 ∧ ¬ -v < 0) := fun ⟨a, b⟩ => h0 (by linarith [not_lt.1 a, not_lt.1 b])
    have h2 : ¬ (¬ v > 0 ∧ ¬ v < 0) := fun ⟨a, b⟩ => h0 (by linarith [not_lt.1 a, not_lt.1 b])
    rw [if_neg h1, if_neg h2]
    have hc : ∀ x : Fl, x.copysign (-v) = (x.copysign v).opposite := by
      intro x
      rcases lt_or_gt_of_ne h0 with h | h
      · cases x with
        | fin a => simp [Fl.copysign, Fl.opposite, copysign, h, not_lt.2 h.le]
        | inf n => simp [Fl.copysign, Fl.opposite, h, h.le]
      · cases x with
        | fin a => simp [Fl.copysign, Fl.opposite, copysign, h, not_lt.2 h.le]
        | inf n => simp [Fl.copysign, Fl.opposite, h, h.le]
    dsimp only
    split_ifs <;> simp [hc]

/-! ### Large numbers -/

theorem flS_large {x : ℚ} (h : 1 ≤ |x|) : flS x = fl x :=
  flS_normal (.inr (le_trans (by rw [← zpow_zero (2 : ℚ)]; exact two_le (by norm_num)) h))

theorem rnd_inf {x : ℚ} (h : 2 ^ (1024 : ℤ) ≤ x) : rnd x = .inf false := by
  have h1 := flS_mono h
  rw [flS_two (by norm_num)] at h1
  have hx : 0 < x := (two_pos' _).trans_le h
  rw [rnd, if_pos (h1.trans (le_abs_self _))]
  simp [hx.le]

set_option exponentiation.threshold 2500 in
theorem rnd_fin {x : ℚ} (h0 : 1 ≤ x) (h : x ≤ 2 ^ (1024 : ℤ) - 2 ^ (971 : ℤ)) : rnd x = .fin (fl x) := by
  have hd : Dbl (2 ^ (1024 : ℤ) - 2 ^ (971 : ℤ)) := by
    refine ⟨2 ^ 53 - 1, 971, by norm_num, ?_⟩
    rw [show (1024 : ℤ) = 53 + 971 by norm_num, two_add]
    push_cast
    norm_num
  have h1 := fl_mono h
  rw [fl_of_dbl hd] at h1
  have h2 : 0 ≤ fl x := by
    have := fl_mono (zero_le_one.trans h0)
    rwa [fl_zero] at this
  rw [rnd, flS_large (by rwa [abs_of_pos (by linarith)]), if_neg]
  rw [abs_of_nonneg h2, not_le]
  exact h1.trans_lt (sub_lt_self _ (two_pos' _))

/-- What is returned when the division is zero. -/
def nothing : RangeF := ⟨0, 0, [.fin 0], 0, 0, 0⟩

theorem rnd_zero : rnd 0 = .fin 0 := by
  rw [rnd, flS_zero, abs_zero, if_neg (not_le.2 (two_pos' _))]

theorem makePrettyF_zero (r : Bool) : makePrettyF lg (.fin 0) r = some (.fin 0, 0) := by
  rw [makePrettyF, if_pos (by simp)]

set_option exponentiation.threshold 2500 in
theorem ten_large : (2 : ℚ) ^ (1024 : ℤ) ≤ 9 / 5 * 10 ^ (308 : ℤ) ∧ 101 / 100 * (10 : ℚ) ^ (308 : ℤ) ≤ 2 ^ (1024 : ℤ) := by
  constructor <;> norm_num

/-- The first pretty number of a wide range is zero or infinite. -/
theorem wide_number (h : LogOk lg) {x : ℚ} (hx : 101 / 100 * 10 ^ (308 : ℤ) ≤ x) :
    makePrettyF lg (rnd x) false = some (.fin 0, 0) ∨ ∃ f, makePrettyF lg (rnd x) false = some (.inf false, f) := by
  have t0 : (1 : ℚ) ≤ 10 ^ (308 : ℤ) := one_le_zpow₀ (by norm_num) (by norm_num)
  have hb := ten_large.1
  obtain ⟨T, hT⟩ : ∃ T : ℚ, Unit → (10 : ℚ) ^ (308 : ℤ) = T := ⟨_, fun _ => rfl⟩
  obtain ⟨W, hW⟩ : ∃ W : ℚ, Unit → (2 : ℚ) ^ (1024 : ℤ) = W := ⟨_, fun _ => rfl⟩
  rw [hT ()] at hx t0 hb
  rw [hW ()] at hb
  rw [rnd, hW ()]
  by_cases hi : W ≤ |flS x|
  · rw [if_pos hi]
    exact .inl rfl
  rw [if_neg hi]
  right
  have hx1 : 1 ≤ x := by linarith
  have e : flS x = fl x := flS_large (by rwa [abs_of_pos (by linarith)])
  rw [e, not_le] at hi
  rw [e]
  have hD := fl_near x
  rw [abs_of_pos (a := x) (by linarith)] at hD
  have hD0 : 0 < fl x := fl_pos (by linarith)
  rw [abs_of_pos hD0] at hi
  have hD1 := (abs_le.1 hD).1
  have hD2 : 1009 / 1000 * T ≤ fl x := by
    norm_num only at hD1 hx ⊢
    linarith
  have hD3 : fl x ≤ 9 / 5 * T := hi.le.trans hb
  generalize fl x = D at *
  have hlg : lg |D| = 308 := by
    rw [abs_of_pos hD0]
    exact h.eq (by norm_num) (by rw [hT ()]; linarith) (by rw [hT ()]; linarith)
  have hf := fl_near T
  have ef : flS T = fl T := flS_large (by rwa [abs_of_pos (by linarith)])
  rw [abs_of_pos (a := T) (by linarith), abs_le] at hf
  rw [makePrettyF, if_neg (fun c : ¬ D > 0 ∧ ¬ D < 0 => c.1 hD0), hlg, hT (), ef]
  generalize fl T = f at *
  have f1 : 999 / 1000 * T ≤ f := by
    have := hf.1
    norm_num only at this ⊢
    linarith
  have f2 : f ≤ 1001 / 1000 * T := by
    have := hf.2
    norm_num only at this ⊢
    linarith
  have f0 : 0 < f := by linarith
  rw [if_neg f0.ne']
  have n1 : 1007 / 1000 ≤ |D| / f := by
    rw [abs_of_pos hD0, le_div_iff₀ f0]
    linarith
  have n2 : |D| / f ≤ 19 / 10 := by
    rw [abs_of_pos hD0, div_le_iff₀ f0]
    linarith
  have en : flS (|D| / f) = fl (|D| / f) := flS_large (by rw [abs_of_pos (by linarith)]; linarith)
  have hn := fl_near (|D| / f)
  rw [abs_of_pos (a := |D| / f) (by linarith), abs_le] at hn
  dsimp only
  rw [en]
  generalize fl (|D| / f) = n at *
  generalize |D| / f = n' at *
  have n3 : 1 < n := by
    have := hn.1
    norm_num only at this n1 ⊢
    linarith
  have n4 : n ≤ 2 := by
    have := hn.2
    norm_num only at this n2 ⊢
    linarith
  simp only [if_neg (not_lt.2 n3.le)]
  have hnorm : prettyNorm false n = 2 := by
    rw [prettyNorm]
    simp only [Bool.false_eq_true, if_false]
    rw [if_neg (not_le.2 n3), if_pos n4]
  rw [hnorm, rnd_inf (by rw [hW ()]; linarith)]
  refine ⟨f, ?_⟩
  simp [Fl.copysign, hD0.le]

/-- C176: a range wider than 1.01 · 10^308 gives nothing but a tick at zero, wherever the data are. -/
theorem C176_wide (h : LogOk lg) (a b : ℚ) (hd : 101 / 100 * 10 ^ (308 : ℤ) ≤ |a - b|) (ticks : ℤ) (ht : ticks ≠ 1) :
    prettyRangeF lg a b ticks = some nothing := by
  have t0 : (1 : ℚ) ≤ 10 ^ (308 : ℤ) := one_le_zpow₀ (by norm_num) (by norm_num)
  obtain ⟨T, hT⟩ : ∃ T : ℚ, Unit → (10 : ℚ) ^ (308 : ℤ) = T := ⟨_, fun _ => rfl⟩
  rw [hT ()] at t0
  have hm : max a b - min a b = |a - b| := by
    rcases le_total a b with h | h
    · rw [max_eq_right h, min_eq_left h, abs_of_nonpos (by linarith)]; ring
    · rw [max_eq_left h, min_eq_right h, abs_of_nonneg (by linarith)]
  have hne : ¬ max a b = min a b := fun e => by
    rw [e, sub_self] at hm
    rw [hT ()] at hd
    linarith
  rw [prettyRangeF]
  simp only [hne, if_false, if_neg ht, hm]
  rcases wide_number h hd with e | ⟨f, e⟩
  · rw [e]
    simp only [Option.bind_eq_bind, Option.bind_some, Fl.divide, zero_div]
    rw [rnd_zero, makePrettyF_zero]
    simp [rangeForF, nothing]
  · rw [e]
    simp only [Option.bind_eq_bind, Option.bind_some, Fl.divide, makePrettyF]
    simp [rangeForF, nothing]

/-- C176, counterexample: from 2^1023 downwards to -2^1023 the only tick is at zero, and the limits are zero. -/
theorem C176_counterexample_wide (h : LogOk lg) : prettyRangeF lg (-2 ^ (1023 : ℤ)) (2 ^ (1023 : ℤ)) 5 = some nothing := by
  refine C176_wide h _ _ ?_ 5 (by decide)
  have e : |(-2 ^ (1023 : ℤ) - 2 ^ (1023 : ℤ) : ℚ)| = 2 ^ (1024 : ℤ) := by
    rw [show (1024 : ℤ) = 1023 + 1 by norm_num, two_add, zpow_one, ← neg_add', abs_neg, ← mul_two]
    exact abs_of_pos (mul_pos (two_pos' _) (by norm_num))
  rw [e]
  exact ten_large.2

set_option exponentiation.threshold 2500 in
theorem ten_larger : 1797 / 100 * (10 : ℚ) ^ (307 : ℤ) ≤ 2 ^ (1024 : ℤ) ∧ (2 : ℚ) ^ (1024 : ℤ) ≤ 1798 / 100 * 10 ^ (307 : ℤ) ∧
    (2 : ℚ) ^ (971 : ℤ) ≤ 1 / 1000 * 10 ^ (307 : ℤ) := by
  refine ⟨?_, ?_, ?_⟩ <;> norm_num

/-- Rounding changes a positive number by less than a millionth. -/
theorem fl_million {x : ℚ} (h : 0 < x) : 999999 / 1000000 * x ≤ fl x ∧ fl x ≤ 1000001 / 1000000 * x := by
  have hn := fl_near x
  rw [abs_of_pos h, abs_le] at hn
  have h1 := hn.1
  have h2 := hn.2
  norm_num only at h1 h2 ⊢
  constructor <;> linarith

/-- A step of `make_pretty` for large numbers. -/
theorem large_number (h : LogOk lg) {D T : ℚ} (hT : Unit → (10 : ℚ) ^ (307 : ℤ) = T) (t0 : 1 ≤ T) (h1 : T ≤ D) (h2 : D ≤ 51 / 10 * T) (r : Bool) :
    ∃ n, 999997 / 1000000 * (D / T) ≤ n ∧ n ≤ 1000003 / 1000000 * (D / T) ∧
      (1 ≤ n → makePrettyF lg (.fin D) r = some ((rnd (prettyNorm r n * fl T)).copysign D, fl T)) := by
  have hD0 : 0 < D := by linarith
  have hlg : lg |D| = 307 := by
    rw [abs_of_pos hD0]
    exact h.eq (by norm_num) (by rw [hT ()]; exact h1) (by rw [hT ()]; exact h2)
  have ef : flS T = fl T := flS_large (by rwa [abs_of_pos (by linarith)])
  obtain ⟨f1, f2⟩ := fl_million (show 0 < T by linarith)
  rw [makePrettyF, if_neg (fun c : ¬ D > 0 ∧ ¬ D < 0 => c.1 hD0), hlg, hT (), ef]
  have hDT : D = D / T * T := by field_simp
  have x0 : 0 < D / T := div_pos hD0 (by linarith)
  have x1 : 1 ≤ D / T := by rwa [le_div_iff₀ (by linarith), one_mul]
  generalize fl T = f at *
  have f0 : 0 < f := by linarith
  rw [if_neg f0.ne', abs_of_pos hD0]
  have q1 : 9999989 / 10000000 * (D / T) ≤ D / f := by
    rw [le_div_iff₀ f0]
    nlinarith
  have q2 : D / f ≤ 10000011 / 10000000 * (D / T) := by
    rw [div_le_iff₀ f0]
    nlinarith
  have q0 : 0 < D / f := div_pos hD0 f0
  have q12 : 1 / 2 ≤ D / f := by linarith
  have en : flS (D / f) = fl (D / f) := flS_normal (.inr (by
    rw [abs_of_pos q0]
    refine le_trans ?_ q12
    rw [show (1 / 2 : ℚ) = 2 ^ (-1 : ℤ) by norm_num]
    exact two_le (by norm_num)))
  obtain ⟨n1, n2⟩ := fl_million q0
  refine ⟨fl (D / f), by linarith, by linarith, fun hn => ?_⟩
  dsimp only
  rw [en, if_neg (not_lt.2 hn)]

/-- C176, counterexample: from 3 · 2^1022 (about 1.35e308) to the largest float `make_pretty_range2` raises. -/
theorem C176_counterexample_large (h : LogOk lg) : prettyRangeF lg (3 / 4 * 2 ^ (1024 : ℤ)) (2 ^ (1024 : ℤ) - 2 ^ (971 : ℤ)) 5 = none := by
  obtain ⟨b1, b2, b3⟩ := ten_larger
  have t0 : (1 : ℚ) ≤ 10 ^ (307 : ℤ) := one_le_zpow₀ (by norm_num) (by norm_num)
  have hfin := @rnd_fin
  have hinf := @rnd_inf
  have e0 := two_pos' 971
  obtain ⟨T, hT⟩ : ∃ T : ℚ, Unit → (10 : ℚ) ^ (307 : ℤ) = T := ⟨_, fun _ => rfl⟩
  obtain ⟨W, hW⟩ : ∃ W : ℚ, Unit → (2 : ℚ) ^ (1024 : ℤ) = W := ⟨_, fun _ => rfl⟩
  obtain ⟨E, hE⟩ : ∃ E : ℚ, Unit → (2 : ℚ) ^ (971 : ℤ) = E := ⟨_, fun _ => rfl⟩
  rw [hT ()] at b1 b2 b3 t0
  rw [hW ()] at b1 b2
  rw [hE ()] at b3 e0
  simp only [hW (), hE ()] at hfin hinf ⊢
  have tp : 0 < T := by linarith
  have hle : 3 / 4 * W ≤ W - E := by linarith
  have hne : W - E ≠ 3 / 4 * W := by
    intro e
    linarith
  rw [prettyRangeF]
  simp only [min_eq_left hle, max_eq_right hle, hne, if_false, show ¬ ((5 : ℤ) = 1) by decide]
  -- the width
  rw [hfin (x := W - E - 3 / 4 * W) (by linarith) (by linarith)]
  obtain ⟨d1, d2⟩ := fl_million (show 0 < W - E - 3 / 4 * W by linarith)
  obtain ⟨f1, f2⟩ := fl_million tp
  obtain ⟨n, n1, n2, e⟩ := large_number h hT t0 (show T ≤ fl (W - E - 3 / 4 * W) by linarith) (by linarith) false
  have dT1 : 449 / 100 ≤ fl (W - E - 3 / 4 * W) / T := by rw [le_div_iff₀ tp]; linarith
  have dT2 : fl (W - E - 3 / 4 * W) / T ≤ 4496 / 1000 := by rw [div_le_iff₀ tp]; linarith
  have hv0 : 0 ≤ fl (W - E - 3 / 4 * W) := by linarith
  rw [e (by linarith)]
  have hn : prettyNorm false n = 5 := by
    rw [prettyNorm]
    simp only [Bool.false_eq_true, if_false]
    rw [if_neg (by linarith), if_neg (by linarith), if_pos (by linarith)]
  obtain ⟨p1, p2⟩ := fl_million (show 0 < 5 * fl T by linarith)
  rw [hn, hfin (x := 5 * fl T) (by linarith) (by linarith)]
  simp only [Option.bind_eq_bind, Option.bind_some, Fl.copysign, copysign, if_neg (not_lt.2 hv0), Fl.divide]
  rw [abs_of_nonneg (a := fl (5 * fl T)) (by linarith)]
  have e4 : fl (((5 : ℤ) : ℚ) - 1) = 4 := by
    rw [show ((5 : ℤ) : ℚ) - 1 = 4 by norm_num]
    exact fl_of_dbl ⟨1, 2, by norm_num, by norm_num⟩
  rw [e4]
  have tbig : 1000 ≤ T := by
    rw [← hT ()]
    exact le_trans (by norm_num) (zpow_le_zpow_right₀ (by norm_num) (show (3 : ℤ) ≤ 307 by norm_num))
  rw [hfin (x := fl (5 * fl T) / 4) (by linarith) (by linarith)]
  obtain ⟨u1, u2⟩ := fl_million (show 0 < fl (5 * fl T) / 4 by linarith)
  obtain ⟨m, m1, m2, e⟩ := large_number h hT t0 (show T ≤ fl (fl (5 * fl T) / 4) by linarith) (by linarith) true
  have uT1 : 124 / 100 ≤ fl (fl (5 * fl T) / 4) / T := by rw [le_div_iff₀ tp]; linarith
  have uT2 : fl (fl (5 * fl T) / 4) / T ≤ 126 / 100 := by rw [div_le_iff₀ tp]; linarith
  have hu0 : 0 ≤ fl (fl (5 * fl T) / 4) := by linarith
  rw [e (by linarith)]
  have hm : prettyNorm true m = 1 := by
    rw [prettyNorm]
    simp only [if_true]
    rw [if_pos (by linarith)]
  obtain ⟨g1, g2⟩ := fl_million (show 0 < 1 * fl T by linarith)
  rw [hm, hfin (x := 1 * fl T) (by linarith) (by linarith)]
  simp only [Option.bind_some, Fl.copysign, copysign, if_neg (not_lt.2 hu0)]
  rw [abs_of_nonneg (a := fl (1 * fl T)) (by linarith)]
  -- the limits
  generalize fl (1 * fl T) = g at *
  have g0 : 0 < g := by linarith
  rw [rangeForF]
  simp only [if_neg g0.ne', if_neg (not_lt.2 g0.le)]
  have q1 : 1796 / 100 ≤ (W - E) / g := by rw [le_div_iff₀ g0]; linarith
  have q2 : (W - E) / g ≤ 17985 / 1000 := by rw [div_le_iff₀ g0]; linarith
  obtain ⟨k1, k2⟩ := fl_million (show 0 < (W - E) / g by linarith)
  have hc : ⌈fl ((W - E) / g)⌉ = 18 := by
    rw [Int.ceil_eq_iff]
    push_cast
    constructor <;> linarith
  rw [hfin (x := (W - E) / g) (by linarith) (by linarith)]
  cases (rnd (3 / 4 * W / g)).finite with
  | none => rfl
  | some l =>
    simp only [Option.bind_eq_bind, Option.bind_some, Fl.finite, hc]
    rw [hinf (x := ((18 : ℤ) : ℚ) * g) (by push_cast; linarith)]
    cases rnd ((⌊l⌋ : ℚ) * g) <;> rfl

/-! ### Moderate numbers -/

/-- Zero, or neither very small nor very large. -/
def Mod (K : ℤ) (x : ℚ) : Prop := x = 0 ∨ 2 ^ (-K) ≤ |x| ∧ |x| ≤ 2 ^ K

theorem Mod.mono {K L : ℤ} {x : ℚ} (h : Mod K x) (hl : K ≤ L) : Mod L x :=
  h.imp_right fun ⟨a, b⟩ => ⟨(two_le (by omega)).trans a, b.trans (two_le hl)⟩

theorem fl_two (k : ℤ) : fl (2 ^ k) = 2 ^ k := fl_of_dbl (dbl_two k)

theorem fl_abs' (x : ℚ) : |fl x| = fl |x| := by
  rcases le_total 0 x with h | h
  · have := fl_mono h
    rw [fl_zero] at this
    rw [abs_of_nonneg h, abs_of_nonneg this]
  · have := fl_mono h
    rw [fl_zero] at this
    rw [abs_of_nonpos h, abs_of_nonpos this, fl_neg]

theorem Mod.fl {K : ℤ} {x : ℚ} (h : Mod K x) : Mod K (fl x) := by
  rcases h with rfl | ⟨a, b⟩
  · exact .inl fl_zero
  · have a' := fl_mono a
    have b' := fl_mono b
    rw [fl_two, ← fl_abs'] at a' b'
    exact .inr ⟨a', b'⟩

theorem Mod.flS {K : ℤ} {x : ℚ} (h : Mod K x) (hK : K ≤ 1022) : flS x = Converter.fl x :=
  flS_normal (h.imp_right fun a => (two_le (by omega)).trans a.1)

theorem Mod.rnd {K : ℤ} {x : ℚ} (h : Mod K x) (hK : K ≤ 1022) : rnd x = .fin (Converter.fl x) := by
  rw [Geometry.rnd, h.flS hK, if_neg]
  rcases h.fl with e | ⟨-, b⟩
  · rw [e, abs_zero, not_le]
    exact two_pos' _
  · exact not_le.2 (b.trans_lt (two_lt (by omega)))

theorem Mod.mul {K L : ℤ} {x y : ℚ} (hx : Mod K x) (hy : Mod L y) : Mod (K + L) (x * y) := by
  rcases hx with rfl | ⟨a, b⟩
  · exact .inl (zero_mul _)
  rcases hy with rfl | ⟨a', b'⟩
  · exact .inl (mul_zero _)
  refine .inr ?_
  rw [abs_mul, neg_add, two_add, two_add]
  exact ⟨mul_le_mul a a' (two_pos' _).le (abs_nonneg _), mul_le_mul b b' (abs_nonneg _) (two_pos' _).le⟩

theorem Mod.inv {K : ℤ} {x : ℚ} (hx : Mod K x) : Mod K x⁻¹ := by
  rcases hx with rfl | ⟨a, b⟩
  · exact .inl inv_zero
  have h0 : 0 < |x| := (two_pos' _).trans_le a
  refine .inr ?_
  rw [abs_inv, zpow_neg]
  refine ⟨inv_anti₀ h0 b, ?_⟩
  rw [zpow_neg] at a
  exact inv_le_of_inv_le₀ (two_pos' _) a

theorem Mod.div {K L : ℤ} {x y : ℚ} (hx : Mod K x) (hy : Mod L y) : Mod (K + L) (x / y) := by
  rw [div_eq_mul_inv]
  exact hx.mul hy.inv

theorem Mod.abs {K : ℤ} {x : ℚ} (hx : Mod K x) : Mod K |x| := by
  rcases hx with rfl | h
  · exact .inl abs_zero
  · exact .inr (by rwa [abs_abs])

theorem Mod.neg {K : ℤ} {x : ℚ} (hx : Mod K x) : Mod K (-x) := by
  rcases hx with rfl | h
  · exact .inl neg_zero
  · exact .inr (by rwa [abs_neg])

/-- Doubles of moderate size have no small digits. -/
theorem Mod.grid {K : ℤ} {x : ℚ} (h : Mod K x) (hd : Dbl x) : ∃ z : ℤ, x = z * 2 ^ (-K - 53) := by
  rcases h with rfl | ⟨a, -⟩
  · exact ⟨0, by simp⟩
  obtain ⟨z, k, hz, rfl⟩ := hd
  have hk : -K - 53 ≤ k := by
    by_contra hlt
    rw [not_le] at hlt
    rw [abs_mul, abs_of_pos (two_pos' k)] at a
    have hz' : |(z : ℚ)| ≤ 2 ^ (53 : ℤ) := by exact_mod_cast hz
    have h1 := mul_le_mul_of_nonneg_right hz' (two_pos' k).le
    rw [← two_add] at h1
    exact absurd (a.trans h1) (not_le.2 (two_lt (by omega)))
  obtain ⟨n, hn⟩ := Int.eq_ofNat_of_zero_le (sub_nonneg.2 hk)
  refine ⟨z * 2 ^ n, ?_⟩
  rw [show k = n + (-K - 53) by omega, two_add]
  push_cast
  rw [zpow_natCast]
  ring

theorem Mod.add {K : ℤ} {x y : ℚ} (hx : Mod K x) (hy : Mod K y) (dx : Dbl x) (dy : Dbl y) : Mod (K + 53) (x + y) := by
  by_cases h0 : x + y = 0
  · exact .inl h0
  obtain ⟨z, hz⟩ := hx.grid dx
  obtain ⟨w, hw⟩ := hy.grid dy
  have up : ∀ u : ℚ, Mod K u → |u| ≤ 2 ^ K := fun u hu => by
    rcases hu with rfl | h
    · rw [abs_zero]; exact (two_pos' _).le
    · exact h.2
  refine .inr ⟨?_, ?_⟩
  · have e : x + y = ((z + w : ℤ) : ℚ) * 2 ^ (-K - 53) := by rw [hz, hw]; push_cast; ring
    have hne : z + w ≠ 0 := by
      intro h
      rw [e, h] at h0
      simp at h0
    have h1 : (1 : ℚ) ≤ |((z + w : ℤ) : ℚ)| := by exact_mod_cast Int.one_le_abs hne
    rw [e, abs_mul, abs_of_pos (two_pos' _), show -(K + 53) = -K - 53 by ring]
    have := mul_le_mul_of_nonneg_right h1 (two_pos' (-K - 53)).le
    rwa [one_mul] at this
  · refine (abs_add_le _ _).trans ((add_le_add (up x hx) (up y hy)).trans ?_)
    rw [← two_mul, two_add, mul_comm]
    exact mul_le_mul_of_nonneg_left (by norm_num) (two_pos' _).le

theorem dbl_neg {x : ℚ} (h : Dbl x) : Dbl (-x) := by
  obtain ⟨z, k, hz, rfl⟩ := h
  exact ⟨-z, k, by rwa [abs_neg], by push_cast; ring⟩

theorem Mod.sub {K : ℤ} {x y : ℚ} (hx : Mod K x) (hy : Mod K y) (dx : Dbl x) (dy : Dbl y) : Mod (K + 53) (x - y) := by
  rw [sub_eq_add_neg]
  exact hx.add hy.neg dx (dbl_neg dy)

theorem Mod.le {K : ℤ} {x : ℚ} (h : Mod K x) : |x| ≤ 2 ^ K := by
  rcases h with rfl | h
  · rw [abs_zero]; exact (two_pos' _).le
  · exact h.2

theorem mod_int {K : ℤ} (hK : 0 ≤ K) {z : ℤ} (h : |(z : ℚ)| ≤ 2 ^ K) : Mod K z := by
  by_cases h0 : z = 0
  · exact .inl (by rw [h0, Int.cast_zero])
  · refine .inr ⟨?_, h⟩
    have h1 : (1 : ℚ) ≤ |(z : ℚ)| := by exact_mod_cast Int.one_le_abs h0
    refine le_trans ?_ h1
    rw [← zpow_zero (2 : ℚ)]
    exact two_le (by omega)

theorem two_succ {K : ℤ} (hK : 0 ≤ K) : (2 : ℚ) ^ K + 1 ≤ 2 ^ (K + 1) := by
  have h : (1 : ℚ) ≤ 2 ^ K := by
    rw [← zpow_zero (2 : ℚ)]
    exact two_le hK
  rw [two_add, zpow_one]
  linarith

theorem Mod.floor {K : ℤ} (hK : 0 ≤ K) {x : ℚ} (h : Mod K x) : Mod (K + 1) (⌊x⌋ : ℚ) := by
  refine mod_int (by omega) ?_
  have h1 := Int.floor_le x
  have h2 := Int.lt_floor_add_one x
  have h3 := abs_le.1 h.le
  have h4 := two_succ hK
  rw [abs_le]
  constructor <;> linarith [h3.1, h3.2]

theorem Mod.ceil {K : ℤ} (hK : 0 ≤ K) {x : ℚ} (h : Mod K x) : Mod (K + 1) (⌈x⌉ : ℚ) := by
  refine mod_int (by omega) ?_
  have h1 := Int.le_ceil x
  have h2 := Int.ceil_lt_add_one x
  have h3 := abs_le.1 h.le
  have h4 := two_succ hK
  rw [abs_le]
  constructor <;> linarith [h3.1, h3.2]

theorem mod_floorDivTen {K : ℤ} (hK : 0 ≤ K) {f : ℚ} (h0 : 0 ≤ f) (h : Mod K f) : Mod (K + 1) (floorDivTen f) := by
  have hf0 : 0 ≤ ⌊f / 10⌋ := Int.floor_nonneg.2 (by positivity)
  have hf0' : (0 : ℚ) ≤ (⌊f / 10⌋ : ℤ) := by exact_mod_cast hf0
  have hf1 : 10 * (⌊f / 10⌋ : ℚ) ≤ 2 ^ K := by
    have := Int.floor_le (f / 10)
    have h2 := h.le
    rw [abs_of_nonneg h0] at h2
    linarith
  have a1 := fl_mono hf1
  have a0 := fl_mono (show 0 ≤ 10 * (⌊f / 10⌋ : ℚ) by positivity)
  rw [fl_two] at a1
  rw [fl_zero] at a0
  have b1 := fl_mono (show fl (10 * (⌊f / 10⌋ : ℚ)) / 10 ≤ 2 ^ K by
    have := two_pos' K
    linarith)
  have b0 := fl_mono (show 0 ≤ fl (10 * (⌊f / 10⌋ : ℚ)) / 10 by positivity)
  rw [fl_two] at b1
  rw [fl_zero] at b0
  rw [floorDivTen]
  generalize fl (fl (10 * (⌊f / 10⌋ : ℚ)) / 10) = d at *
  have g0 : 0 ≤ ⌊d⌋ := Int.floor_nonneg.2 b0
  have g0' : (0 : ℚ) ≤ ⌊d⌋ := by exact_mod_cast g0
  have g1 : (⌊d⌋ : ℚ) ≤ 2 ^ K := (Int.floor_le d).trans b1
  have h2 := two_succ hK
  split
  · have : Mod (K + 1) (((⌊d⌋ + 1 : ℤ)) : ℚ) := mod_int (by omega) (by
      push_cast
      rw [abs_of_nonneg (by linarith)]
      linarith)
    push_cast at this
    exact this.fl
  · exact (mod_int hK (by rwa [abs_of_nonneg g0'])).mono (by omega)

/-! ### Agreement with the model without limits -/

theorem mod_ten {K : ℤ} {x : ℚ} (h0 : 0 < x) (h : Mod K x) (e : ℤ) (he : e = Int.log 10 x ∨ e = Int.log 10 x + 1) :
    Mod (K + 4) ((10 : ℚ) ^ e) := by
  have h1 := Int.zpow_log_le_self (b := 10) (by norm_num) h0
  have h2 := Int.lt_zpow_succ_log_self (b := 10) (by norm_num) x
  push_cast at h1 h2
  have hp : (0 : ℚ) < 10 ^ e := zpow_pos (by norm_num) _
  have hq : (0 : ℚ) < 10 ^ Int.log 10 x := zpow_pos (by norm_num) _
  have e1 : (10 : ℚ) ^ (Int.log 10 x + 1) = 10 ^ Int.log 10 x * 10 := zpow_add_one₀ (by norm_num) _
  rcases h with rfl | ⟨a, b⟩
  · exact absurd h0 (lt_irrefl _)
  rw [abs_of_pos h0] at a b
  refine .inr ?_
  rw [abs_of_pos hp, neg_add, two_add, two_add]
  have t4 : (2 : ℚ) ^ (-4 : ℤ) = 1 / 16 := by norm_num
  have t4' : (2 : ℚ) ^ (4 : ℤ) = 16 := by norm_num
  rw [t4, t4']
  rw [e1] at h2
  have hk := two_pos' (-K)
  rcases he with rfl | rfl
  · constructor <;> linarith
  · rw [e1]
    constructor <;> linarith

theorem mod_norm (r : Bool) (x : ℚ) : Mod 4 (prettyNorm r x) := by
  have h : prettyNorm r x ∈ ([1, 2, 5, 10] : List ℚ) := by
    rw [prettyNorm]
    split_ifs <;> simp
  refine .inr ?_
  simp only [List.mem_cons, List.not_mem_nil, or_false] at h
  rcases h with h | h | h | h <;> rw [h] <;> norm_num

theorem makePrettyF_agree (h : LogOk lg) {K : ℤ} (h0 : 0 ≤ K) (hK : K ≤ 400) {v : ℚ} (hv : Mod K v) (r : Bool) :
    makePrettyF lg (.fin v) r = some (.fin (makePrettyD lg v r).1, (makePrettyD lg v r).2) ∧ Mod (K + 9) (makePrettyD lg v r).1 ∧
      Dbl (makePrettyD lg v r).1 := by
  rw [makePrettyF, makePrettyD]
  by_cases hz : ¬ v > 0 ∧ ¬ v < 0
  · rw [if_pos hz, if_pos hz]
    exact ⟨rfl, .inl rfl, dbl_zero⟩
  rw [if_neg hz, if_neg hz]
  have hne : v ≠ 0 := fun e => hz (by rw [e]; exact ⟨lt_irrefl _, lt_irrefl _⟩)
  have hp : 0 < |v| := abs_pos.2 hne
  have hm := hv.abs
  have hr : InRange v := by
    rcases hv with e | ⟨a, b⟩
    · exact absurd e hne
    · constructor
      · refine le_trans ?_ a
        refine le_trans ?_ (two_le (a := -400) (by omega))
        rw [zpow_neg, zpow_neg]
        exact inv_anti₀ (two_pos' _) (zpow_le_zpow_left₀ (by norm_num) (by norm_num) (by norm_num))
      · refine lt_of_le_of_lt b (lt_of_le_of_lt (two_le hK) ?_)
        exact zpow_lt_zpow_left₀ (by norm_num) (by norm_num) (by norm_num)
  have hten := mod_ten hp hm _ (h.cases hr)
  have hf : Mod (K + 4) (fl ((10 : ℚ) ^ lg |v|)) := hten.fl
  have f0 : 0 < fl ((10 : ℚ) ^ lg |v|) := fl_pos (zpow_pos (by norm_num) _)
  have e1 : flS ((10 : ℚ) ^ lg |v|) = fl ((10 : ℚ) ^ lg |v|) := hten.flS (by omega)
  rw [e1, if_neg f0.ne']
  simp only [normaliseD]
  generalize fl ((10 : ℚ) ^ lg |v|) = f at *
  have hn : Mod (K + (K + 4)) (|v| / f) := hm.div hf
  rw [hn.flS (by omega)]
  have hn10 : Mod (K + (K + 4) + 4) (fl (|v| / f) * 10) := hn.fl.mul (.inr (by norm_num))
  have key : ∀ q : ℚ × ℚ, Mod (K + 5) q.2 → some ((rnd (prettyNorm r q.1 * q.2)).copysign v, q.2) =
      some (Fl.fin (copysign (fl (prettyNorm r q.1 * q.2)) v), q.2) ∧ Mod (K + 9) (copysign (fl (prettyNorm r q.1 * q.2)) v) ∧
        Dbl (copysign (fl (prettyNorm r q.1 * q.2)) v) := by
    intro q hq
    have hm := (mod_norm r q.1).mul hq
    have hm' : Mod (K + 9) (prettyNorm r q.1 * q.2) := hm.mono (by omega)
    refine ⟨by rw [hm'.rnd (by omega)]; rfl, ?_, ?_⟩
    · rw [copysign]
      split
      · exact hm'.fl.abs.neg
      · exact hm'.fl.abs
    · rw [copysign]
      split
      · exact dbl_neg (dbl_abs (fl_dbl _))
      · exact dbl_abs (fl_dbl _)
  by_cases hlt : fl (|v| / f) < 1
  · simp only [if_pos hlt]
    rw [hn10.flS (by omega)]
    exact key (fl (fl (|v| / f) * 10), floorDivTen f) ((mod_floorDivTen (by omega) f0.le hf).mono (by omega))
  · simp only [if_neg hlt]
    exact key (fl (|v| / f), f) (hf.mono (by omega))

/-- The result of the model without limits. -/
def PrettyRange.toF (r : PrettyRange ℚ) : RangeF := ⟨r.min, r.max, r.ticks.map .fin, r.division, r.precision, r.factor10⟩

theorem tickF_mod {K : ℤ} (hK : K ≤ 969) {start step : ℚ} {x : ℕ} (h1 : Mod K start) (h2 : Mod K ((x : ℚ) * step)) (hd : Dbl start) :
    tickF start step x = .fin (fl (start + fl (x * step))) := by
  have e1 := h2.rnd (by omega)
  have e2 := (h1.add h2.fl hd (fl_dbl _)).rnd (by omega)
  unfold tickF
  simp only [e1]
  exact e2

theorem rangeForF_agree {K L : ℤ} (hK0 : 0 ≤ K) (hL0 : 0 ≤ L) (hb : L + 4 * K ≤ 861) {low high d factor10 : ℚ}
    (hl : Mod L low) (hh : Mod L high)
    (hd : Mod K d) : rangeForF lg low high (.fin d) factor10 = (rangeForD lg low high d factor10).map PrettyRange.toF := by
  rw [rangeForF, rangeForD]
  by_cases h0 : d = 0
  · simp only [if_pos h0]
    rfl
  simp only [if_neg h0]
  by_cases hneg : d < 0
  · simp only [if_pos hneg]
    rfl
  simp only [if_neg hneg]
  have ml := hl.div hd
  have mh := hh.div hd
  rw [ml.rnd (by omega), mh.rnd (by omega)]
  have mgl : Mod (L + K + 1 + K) ((⌊fl (low / d)⌋ : ℚ) * d) := (ml.fl.floor (by omega)).mul hd
  have mgh : Mod (L + K + 1 + K) ((⌈fl (high / d)⌉ : ℚ) * d) := (mh.fl.ceil (by omega)).mul hd
  simp only [Fl.finite, Option.bind_eq_bind, Option.bind_some]
  rw [mgl.rnd (by omega), mgh.rnd (by omega)]
  simp only [Option.bind_some]
  have mhalf : Mod (1 + K) (1 / 2 * d) := Mod.mul (.inr (by norm_num)) hd
  rw [mhalf.flS (by omega)]
  have d1 := fl_dbl ((⌊fl (low / d)⌋ : ℚ) * d)
  have d2 := fl_dbl ((⌈fl (high / d)⌉ : ℚ) * d)
  have m1 := mgl.fl
  have m2 := mgh.fl
  generalize fl ((⌊fl (low / d)⌋ : ℚ) * d) = gmin at *
  generalize fl ((⌈fl (high / d)⌉ : ℚ) * d) = gmax at *
  have mstop := m2.add (mhalf.fl.mono (by omega)) d2 (fl_dbl _)
  rw [mstop.rnd (by omega)]
  simp only [Option.bind_some]
  have mwidth := mstop.fl.sub (m1.mono (by omega)) (fl_dbl _) d1
  rw [mwidth.rnd (by omega)]
  simp only [Option.bind_some]
  have mcount := mwidth.fl.div hd
  rw [mcount.rnd (by omega)]
  simp only [Option.bind_some]
  simp only [Option.pure_def, Option.map_some, PrettyRange.toF, arangeD, List.map_map]
  suffices key : (List.range ⌈fl (fl (fl (gmax + fl (1 / 2 * d)) - gmin) / d)⌉.toNat).map (tickF gmin d) =
      (List.range ⌈fl (fl (fl (gmax + fl (1 / 2 * d)) - gmin) / d)⌉.toNat).map (Fl.fin ∘ fun x : ℕ => fl (gmin + fl (x * d))) by rw [key]
  refine List.map_congr_left fun x hx => ?_
  rw [List.mem_range] at hx
  have mceil := mcount.fl.ceil (by omega)
  have hxm : Mod (L + K + 1 + K + 53 + 53 + K + 1) ((x : ℤ) : ℚ) := by
    refine mod_int (by omega) ((abs_le_abs_of_nonneg (by positivity) (Int.cast_le.2 ?_)).trans mceil.le)
    generalize ⌈fl (fl (fl (gmax + fl (1 / 2 * d)) - gmin) / d)⌉ = c at hx ⊢
    omega
  have mx := hxm.mul hd
  rw [Int.cast_natCast] at mx
  exact tickF_mod (by omega) (m1.mono (by omega)) mx d1

theorem makePrettyD_nonneg {v : ℚ} (h : 0 ≤ v) (r : Bool) : 0 ≤ (makePrettyD lg v r).1 := by
  rw [makePrettyD]
  split
  · exact le_refl _
  · simp only [copysign, if_neg (not_lt.2 h)]
    exact abs_nonneg _

/-- C176: for floats that are zero or between 2^-90 and 2^90 in size there is neither overflow nor underflow: the result is the one of
C134 and C135. -/
theorem C176_agree_partial (h : LogOk lg) (a b : ℚ) (ha : Dbl a) (hb : Dbl b) (ma : Mod 90 a) (mb : Mod 90 b) (ticks : ℤ) (ht : 2 ≤ ticks)
    (ht2 : ticks ≤ 2 ^ 20) : ∃ r, prettyRangeD lg a b ticks = some r ∧ prettyRangeF lg a b ticks = some r.toF := by
  rw [prettyRangeD, prettyRangeF]
  have dmin : Dbl (min a b) := dbl_min ha hb
  have dmax : Dbl (max a b) := dbl_max ha hb
  have mmin : Mod 90 (min a b) := by rcases min_choice a b with e | e <;> rw [e] <;> assumption
  have mmax : Mod 90 (max a b) := by rcases max_choice a b with e | e <;> rw [e] <;> assumption
  have hle : min a b ≤ max a b := min_le_max
  generalize min a b = low at *
  generalize max a b = high at *
  simp only
  by_cases he : high = low
  · simp only [if_pos he]
    exact ⟨_, rfl, rfl⟩
  simp only [if_neg he, if_neg (show ticks ≠ 1 by omega)]
  have mD := mmax.sub mmin dmax dmin
  rw [mD.rnd (by omega)]
  obtain ⟨e1, m1, -⟩ := makePrettyF_agree h (by omega) (by omega) mD.fl false
  rw [e1]
  have D0 : 0 ≤ fl (high - low) := by
    have := fl_mono (sub_nonneg.2 hle)
    rwa [fl_zero] at this
  have p0 := makePrettyD_nonneg (lg := lg) D0 false
  simp only [Option.bind_eq_bind, Option.bind_some, Fl.divide]
  have t1 : (1 : ℚ) ≤ (ticks : ℚ) - 1 := by
    have : (2 : ℚ) ≤ ticks := by exact_mod_cast ht
    linarith
  have mt : Mod 20 ((ticks : ℚ) - 1) := by
    have := mod_int (K := 20) (by omega) (z := ticks - 1) (by
      rw [abs_of_nonneg (by push_cast; linarith)]
      exact_mod_cast (show ticks - 1 ≤ 2 ^ 20 by omega))
    push_cast at this
    exact this
  have t0 : 0 < fl ((ticks : ℚ) - 1) := fl_pos (by linarith)
  have mq := m1.div mt.fl
  rw [mq.rnd (by omega)]
  have u0 : 0 ≤ fl ((makePrettyD lg (fl (high - low)) false).1 / fl ((ticks : ℚ) - 1)) := by
    have := fl_mono (div_nonneg p0 t0.le)
    rwa [fl_zero] at this
  obtain ⟨e2, m2, -⟩ := makePrettyF_agree h (by omega) (by omega) mq.fl true
  have q0 := makePrettyD_nonneg (lg := lg) u0 true
  rw [e2]
  simp only [Option.bind_some]
  rw [rangeForF_agree (by omega) (by omega) (by omega) mmin mmax m2]
  generalize makePrettyD lg (fl ((makePrettyD lg (fl (high - low)) false).1 / fl ((ticks : ℚ) - 1))) true = p at *
  rw [rangeForD]
  by_cases hp : p.1 = 0
  · rw [if_pos hp]
    exact ⟨_, rfl, rfl⟩
  · rw [if_neg hp, if_neg (not_lt.2 q0)]
    exact ⟨_, rfl, rfl⟩

/-- C176: for such floats nothing raises and everything is finite. -/
theorem C176_finite_partial (h : LogOk lg) (a b : ℚ) (ha : Dbl a) (hb : Dbl b) (ma : Mod 90 a) (mb : Mod 90 b) (ticks : ℤ) (ht : 2 ≤ ticks)
    (ht2 : ticks ≤ 2 ^ 20) : ∃ r, prettyRangeF lg a b ticks = some r ∧ ∀ t ∈ r.ticks, ∃ q, t = .fin q := by
  obtain ⟨r, -, e⟩ := C176_agree_partial h a b ha hb ma mb ticks ht ht2
  refine ⟨_, e, fun t hm => ?_⟩
  obtain ⟨q, -, rfl⟩ := List.mem_map.1 hm
  exact ⟨q, rfl⟩

/-- Nothing raises from -1000000 to 3. -/
example (h : LogOk lg) : ∃ r, prettyRangeF lg ((-1000000 : ℤ) : ℚ) ((3 : ℤ) : ℚ) 5 = some r ∧ ∀ t ∈ r.ticks, ∃ q, t = .fin q :=
  C176_finite_partial h _ _ (dbl_int (by norm_num)) (dbl_int (by norm_num)) (mod_int (by norm_num) (by norm_num))
    (mod_int (by norm_num) (by norm_num)) 5 (by norm_num) (by norm_num)

end Verif.Geometry
