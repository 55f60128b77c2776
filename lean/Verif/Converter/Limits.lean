import Verif.Geometry.MapDoubles
import Verif.Geometry.PrettyDoubles

/-!
Scaled integers with any limits (`nion/utils/Converter.py:77-91`) in double arithmetic, C175: each operation of `convert` and
`convert_back` is rounded to 53 binary digits. Simplified: no overflow and no underflow.
-/

namespace Verif.Converter
open Verif.Geometry

/-- `value_max - value_min`. -/
def Scale.rangeD (c : Scale ℚ) : ℚ := fl (c.max - c.min)

/-- Lines 84-86: `int(n * (value - value_min) / (value_max - value_min))`. -/
def Scale.convertD (c : Scale ℚ) (v : ℚ) : ℤ := trunc (fl (fl (c.n * fl (v - c.min)) / c.rangeD))

/-- Lines 88-90: `value_int * (value_max - value_min) / n + value_min`. -/
def Scale.convertBackD (c : Scale ℚ) (i : ℤ) : ℚ := fl (fl (fl (i * c.rangeD) / c.n) + c.min)

/-- The limits are floats, in order; the number of steps is not too large for a float. -/
structure Scale.OkD (c : Scale ℚ) : Prop where
  n : 0 < c.n
  few : c.n ≤ 2 ^ 50
  range : c.min < c.max
  min : Dbl c.min

variable {c : Scale ℚ}

theorem Scale.OkD.pos (h : c.OkD) : (0 : ℚ) < c.n := by exact_mod_cast h.n

theorem Scale.OkD.rangeD (h : c.OkD) : 0 < c.rangeD := fl_pos (sub_pos.2 h.range)

/-- Larger values get integers that are not smaller. -/
theorem C175_monotone (h : c.OkD) (v w : ℚ) (hvw : v ≤ w) : c.convertD v ≤ c.convertD w :=
  trunc_mono (fl_mono (div_le_div_of_nonneg_right (fl_mono (mul_le_mul_of_nonneg_left (fl_mono (by linarith)) h.pos.le)) h.rangeD.le))

/-- Larger integers get values that are not smaller. -/
theorem C175_back_monotone (h : c.OkD) (i j : ℤ) (hij : i ≤ j) : c.convertBackD i ≤ c.convertBackD j := by
  have hij' : (i : ℚ) ≤ j := by exact_mod_cast hij
  refine fl_mono (add_le_add_left (fl_mono (div_le_div_of_nonneg_right (fl_mono ?_) h.pos.le)) _)
  exact mul_le_mul_of_nonneg_right hij' h.rangeD.le

/-- The smallest value and 0 belong together. -/
theorem C175_min (h : c.OkD) : c.convertD c.min = 0 ∧ c.convertBackD 0 = c.min := by
  constructor
  · rw [Scale.convertD, sub_self, fl_zero, mul_zero, fl_zero, zero_div, fl_zero]
    exact_mod_cast trunc_intCast (K := ℚ) 0
  · rw [Scale.convertBackD, Int.cast_zero, zero_mul, fl_zero, zero_div, fl_zero, zero_add, fl_of_dbl h.min]

/-- What is rounded to an integer is near the value at the scale. -/
theorem quotient_near (c : Scale ℚ) (v : ℚ) : |fl (fl (c.n * fl (v - c.min)) / c.rangeD) - c.n * (v - c.min) / c.rangeD| ≤
    |c.n * (v - c.min) / c.rangeD| * (4 / 2 ^ 53) := by
  obtain ⟨d1, e1, h1⟩ := fl_rel (v - c.min)
  obtain ⟨d2, e2, h2⟩ := fl_rel (c.n * fl (v - c.min))
  obtain ⟨d3, e3, h3⟩ := fl_rel (fl (c.n * fl (v - c.min)) / c.rangeD)
  have hx : fl (fl (c.n * fl (v - c.min)) / c.rangeD) - c.n * (v - c.min) / c.rangeD =
      c.n * (v - c.min) / c.rangeD * ((1 + d1) * (1 + d2) * (1 + d3) - 1) := by
    rw [h3, h2, h1]
    ring
  rw [hx, abs_mul]
  refine mul_le_mul_of_nonneg_left ?_ (abs_nonneg _)
  rw [show (1 + d1) * (1 + d2) * (1 + d3) - 1 = d1 + d2 + d3 + (d1 * d2 + d1 * d3 + d2 * d3 + d1 * d2 * d3) by ring]
  have b : ∀ a b : ℚ, |a| ≤ 1 / 2 ^ 53 → |b| ≤ 1 / 2 ^ 53 → |a * b| ≤ 1 / 2 ^ 53 * (1 / 2 ^ 53) := fun a b ha hb => by
    rw [abs_mul]
    exact mul_le_mul ha hb (abs_nonneg _) (by norm_num)
  have b12 := b d1 d2 e1 e2
  have b13 := b d1 d3 e1 e3
  have b23 := b d2 d3 e2 e3
  have b123 := b (d1 * d2) d3 (b12.trans (by norm_num)) e3
  rw [abs_le] at *
  norm_num at *
  constructor <;> linarith

/-- The largest value gets the largest integer or the one before it. -/
theorem C175_max_partial (h : c.OkD) : c.convertD c.max = c.n ∨ c.convertD c.max = c.n - 1 := by
  have hD := h.rangeD
  have hn := h.pos
  have hn2 : (c.n : ℚ) ≤ 2 ^ 50 := by exact_mod_cast h.few
  have hd := fl_near (c.max - c.min)
  have key : |fl (fl (c.n * fl (c.max - c.min)) / c.rangeD) - c.n| < 1 := by
    change |fl (fl (c.n * c.rangeD) / c.rangeD) - c.n| < 1
    obtain ⟨d1, e1, h1⟩ := fl_rel (c.n * c.rangeD)
    obtain ⟨d2, e2, h2⟩ := fl_rel (fl (c.n * c.rangeD) / c.rangeD)
    have hx : fl (fl (c.n * c.rangeD) / c.rangeD) - c.n = c.n * ((1 + d1) * (1 + d2) - 1) := by
      rw [h2, h1]
      field_simp
    rw [hx, abs_mul, abs_of_pos hn]
    have hb : |(1 + d1) * (1 + d2) - 1| ≤ 3 / 2 ^ 53 := by
      rw [show (1 + d1) * (1 + d2) - 1 = d1 + d2 + d1 * d2 by ring]
      have : |d1 * d2| ≤ 1 / 2 ^ 53 * (1 / 2 ^ 53) := by
        rw [abs_mul]
        exact mul_le_mul e1 e2 (abs_nonneg _) (by norm_num)
      rw [abs_le] at *
      norm_num at *
      constructor <;> linarith
    calc (c.n : ℚ) * |(1 + d1) * (1 + d2) - 1| ≤ 2 ^ 50 * (3 / 2 ^ 53) := mul_le_mul hn2 hb (abs_nonneg _) (by norm_num)
      _ < 1 := by norm_num
  have hn0 := h.n
  rcases trunc_near key (by omega) with e | ⟨e1, e2⟩
  · exact .inl e
  · right
    change |c.convertD c.max| = _ at e1
    change 0 ≤ c.convertD c.max * c.n at e2
    have : 0 ≤ c.convertD c.max := nonneg_of_mul_nonneg_left e2 hn0
    rwa [abs_of_nonneg this, abs_of_pos hn0] at e1

/-- Values between the limits get integers between 0 and n. -/
theorem C175_range (h : c.OkD) (v : ℚ) (h1 : c.min ≤ v) (h2 : v ≤ c.max) : 0 ≤ c.convertD v ∧ c.convertD v ≤ c.n := by
  have a := C175_monotone h _ _ h1
  have b := C175_monotone h _ _ h2
  rw [(C175_min h).1] at a
  rcases C175_max_partial h with e | e <;> exact ⟨a, by omega⟩

/-- The largest integer is the one of a value between the limits if and only if it is the one of the largest value. -/
theorem C175_reached_iff (h : c.OkD) : (∃ v, c.min ≤ v ∧ v ≤ c.max ∧ c.convertD v = c.n) ↔ c.convertD c.max = c.n := by
  constructor
  · rintro ⟨v, -, h2, e⟩
    have := C175_monotone h _ _ h2
    rcases C175_max_partial h with e' | e' <;> omega
  · intro e
    exact ⟨c.max, h.range.le, le_refl _, e⟩

/-- If the number of steps times the range is not rounded down, the largest value gets the largest integer. -/
theorem C175_reached_partial (h : c.OkD) (hr : c.n * c.rangeD ≤ fl (c.n * c.rangeD)) : c.convertD c.max = c.n := by
  have hD := h.rangeD
  have h1 : (c.n : ℚ) ≤ fl (c.n * c.rangeD) / c.rangeD := (le_div_iff₀ hD).2 hr
  have h2 := fl_mono h1
  have h3 : fl (c.n : ℚ) = c.n := fl_of_dbl ⟨c.n, 0, by rw [abs_of_pos h.n]; exact h.few.trans (by norm_num), by simp⟩
  rw [h3] at h2
  have h4 := trunc_mono h2
  rw [trunc_intCast] at h4
  change c.n ≤ c.convertD c.max at h4
  rcases C175_max_partial h with e | e <;> omega

theorem dbl_shift {x : ℚ} (h : Dbl x) (k : ℤ) : Dbl (2 ^ k * x) := by
  obtain ⟨z, m, hz, rfl⟩ := h
  exact ⟨z, m + k, hz, by rw [zpow_add₀ (by norm_num)]; ring⟩

/-- If the number of steps is a power of two, the largest value gets the largest integer. -/
theorem C175_power_of_two (h : c.OkD) (k : ℕ) (hk : c.n = 2 ^ k) : c.convertD c.max = c.n := by
  refine C175_reached_partial h (ge_of_eq (fl_of_dbl ?_))
  have := dbl_shift (fl_dbl (c.max - c.min)) k
  rw [hk]
  push_cast
  exact_mod_cast this

/-- The value of an integer is near the one of exact arithmetic. -/
theorem backD_near (h : c.OkD) (i : ℤ) (h0 : 0 ≤ i) (h1 : i ≤ c.n) :
    |c.convertBackD i - (i * c.rangeD / c.n + c.min)| ≤ 11 / 2 ^ 53 * (|c.min| + |c.max|) := by
  have hD := h.rangeD
  have hn := h.pos
  have hM0 : 0 ≤ |c.min| + |c.max| := by positivity
  rcases h0.eq_or_lt with rfl | hi
  · rw [(C175_min h).2, Int.cast_zero, zero_mul, zero_div, zero_add, sub_self, abs_zero]
    positivity
  have hi' : (0 : ℚ) < i := by exact_mod_cast hi
  have hin : (i : ℚ) ≤ c.n := by exact_mod_cast h1
  have hy0 : 0 < i * c.rangeD := mul_pos hi' hD
  have r1 := (Rel.fl hy0).div_right hn
  have r2 := (Rel.fl (r1.pos (by norm_num))).trans r1 (by norm_num) (by norm_num)
  have hq := r2.2
  have hyD : i * c.rangeD / c.n ≤ c.rangeD := by
    rw [div_le_iff₀ hn, mul_comm]
    exact mul_le_mul_of_nonneg_left hin hD.le
  have hy : 0 < i * c.rangeD / c.n := div_pos hy0 hn
  have hDM : c.rangeD ≤ 2 * (|c.min| + |c.max|) := by
    have a := fl_near (c.max - c.min)
    rw [abs_of_pos (sub_pos.2 h.range)] at a
    have b := (abs_le.1 a).2
    have d1 := le_abs_self c.max
    have d2 := neg_abs_le c.min
    change fl _ ≤ _
    norm_num at b
    linarith
  have hb := fl_near (fl (fl (i * c.rangeD) / c.n) + c.min)
  change |c.convertBackD i - _| ≤ _ at hb
  generalize fl (fl (i * c.rangeD) / c.n) = q at *
  generalize i * c.rangeD / c.n = y at *
  generalize c.convertBackD i = b at *
  generalize c.rangeD = D at *
  have hqm : |q + c.min| ≤ 2 * y + |c.min| := by
    have := abs_add_le q c.min
    have h3 : |q| ≤ 2 * y := by
      rw [abs_le] at hq ⊢
      norm_num at hq
      constructor <;> linarith
    linarith
  have e : b - (y + c.min) = (b - (q + c.min)) + (q - y) := by ring
  rw [e]
  refine (abs_add_le _ _).trans ?_
  have hm := abs_nonneg c.max
  norm_num at hq hb ⊢
  linarith

/-- Back and forth: the integer or the one before it, if the limits are not too large for their distance. -/
theorem C175_round_trip_partial (h : c.OkD) (hf : c.n * (|c.min| + |c.max|) ≤ 2 ^ 48 * (c.max - c.min)) (i : ℤ) (h0 : 0 ≤ i)
    (h1 : i ≤ c.n) : c.convertD (c.convertBackD i) = i ∨ c.convertD (c.convertBackD i) = i - 1 := by
  rcases h0.eq_or_lt with rfl | hi
  · rw [(C175_min h).2, (C175_min h).1]
    exact .inl rfl
  have hD := h.rangeD
  have hn := h.pos
  have hin : (i : ℚ) ≤ c.n := by exact_mod_cast h1
  have hi' : (0 : ℚ) < i := by exact_mod_cast hi
  have hb := backD_near h i h0 h1
  have hq := quotient_near c (c.convertBackD i)
  have hr : c.max - c.min ≤ |c.min| + |c.max| := by
    have d1 := le_abs_self c.max
    have d2 := neg_abs_le c.min
    linarith
  have hpos := sub_pos.2 h.range
  have hn48 : (c.n : ℚ) ≤ 2 ^ 48 := by
    refine le_of_mul_le_mul_right ?_ hpos
    exact (mul_le_mul_of_nonneg_left hr hn.le).trans hf
  have hrD : c.max - c.min ≤ 2 * c.rangeD := by
    have a := fl_near (c.max - c.min)
    rw [abs_of_pos hpos] at a
    have b := (abs_le.1 a).1
    change _ ≤ 2 * fl _
    norm_num at b
    linarith
  have hX : |c.n * (c.convertBackD i - c.min) / c.rangeD - i| ≤ 11 / 16 := by
    have e : c.n * (c.convertBackD i - c.min) / c.rangeD - i =
        c.n * (c.convertBackD i - (i * c.rangeD / c.n + c.min)) / c.rangeD := by
      field_simp
      ring
    rw [e, abs_div, abs_mul, abs_of_pos hn, abs_of_pos hD, div_le_iff₀ hD]
    refine (mul_le_mul_of_nonneg_left hb hn.le).trans ?_
    have : c.n * (11 / 2 ^ 53 * (|c.min| + |c.max|)) = 11 / 2 ^ 53 * (c.n * (|c.min| + |c.max|)) := by ring
    rw [this]
    norm_num at hf ⊢
    linarith
  have key : |fl (fl (c.n * fl (c.convertBackD i - c.min)) / c.rangeD) - i| < 1 := by
    generalize c.n * (c.convertBackD i - c.min) / c.rangeD = X at *
    generalize fl (fl (c.n * fl (c.convertBackD i - c.min)) / c.rangeD) = r at *
    have hXa : |X| ≤ 2 ^ 48 + 1 := by
      rw [abs_le] at hX ⊢
      constructor <;> linarith [hX.1, hX.2]
    have : |r - X| ≤ 1 / 4 := by
      refine hq.trans ((mul_le_mul_of_nonneg_right hXa (by norm_num)).trans (by norm_num))
    rw [abs_le] at this hX
    rw [abs_lt]
    constructor <;> linarith [this.1, this.2, hX.1, hX.2]
  rcases trunc_near key (by omega) with e | ⟨e1, e2⟩
  · exact .inl e
  · right
    change |c.convertD (c.convertBackD i)| = _ at e1
    change 0 ≤ c.convertD (c.convertBackD i) * i at e2
    have : 0 ≤ c.convertD (c.convertBackD i) := nonneg_of_mul_nonneg_left e2 hi
    rwa [abs_of_nonneg this, abs_of_pos hi] at e1

/-- Forth and back: at most a step below a value between the limits, up to rounding. -/
theorem C175_step (h : c.OkD) (v : ℚ) (h1 : c.min ≤ v) (h2 : v ≤ c.max) :
    c.convertBackD (c.convertD v) ≤ v + (|c.min| + |c.max|) / 2 ^ 48 ∧
      v ≤ c.convertBackD (c.convertD v) + (c.max - c.min) / c.n + (|c.min| + |c.max|) / 2 ^ 48 := by
  have hD := h.rangeD
  have hn := h.pos
  obtain ⟨i0, i1⟩ := C175_range h v h1 h2
  have hb := backD_near h _ i0 i1
  have hq := quotient_near c v
  have hpos := sub_pos.2 h.range
  have hvm : 0 ≤ v - c.min := by linarith
  have hM : c.max - c.min ≤ |c.min| + |c.max| := by
    have d1 := le_abs_self c.max
    have d2 := neg_abs_le c.min
    linarith
  have hDr : c.rangeD ≤ (c.max - c.min) * (1 + 1 / 2 ^ 53) := by
    have a := fl_near (c.max - c.min)
    rw [abs_of_pos hpos] at a
    have b := (abs_le.1 a).2
    change fl _ ≤ _
    linarith
  have hX0 : 0 ≤ c.n * (v - c.min) / c.rangeD := by positivity
  rw [abs_of_nonneg hX0] at hq
  have hr0 : 0 ≤ fl (fl (c.n * fl (v - c.min)) / c.rangeD) := by
    rw [abs_le] at hq
    norm_num at hq
    linarith [hq.1]
  have hi : c.convertD v = ⌊fl (fl (c.n * fl (v - c.min)) / c.rangeD)⌋ := by rw [Scale.convertD, trunc, if_pos hr0]
  have f1 := Int.floor_le (fl (fl (c.n * fl (v - c.min)) / c.rangeD))
  have f2 := Int.lt_floor_add_one (fl (fl (c.n * fl (v - c.min)) / c.rangeD))
  rw [← hi] at f1 f2
  have hXv : c.n * (v - c.min) / c.rangeD * (c.rangeD / c.n) = v - c.min := by field_simp
  have hs : 0 < c.rangeD / c.n := div_pos hD hn
  have hs2 : c.rangeD / c.n ≤ (c.max - c.min) / c.n + (|c.min| + |c.max|) / 2 ^ 53 := by
    have n1 : (1 : ℚ) ≤ c.n := by exact_mod_cast h.n
    have : c.rangeD / c.n ≤ (c.max - c.min) * (1 + 1 / 2 ^ 53) / c.n := div_le_div_of_nonneg_right hDr hn.le
    have e : (c.max - c.min) * (1 + 1 / 2 ^ 53) / c.n = (c.max - c.min) / c.n + (c.max - c.min) / c.n / 2 ^ 53 := by ring
    have : (c.max - c.min) / c.n ≤ c.max - c.min := div_le_self hpos.le n1
    have : (c.max - c.min) / c.n / 2 ^ 53 ≤ (|c.min| + |c.max|) / 2 ^ 53 := div_le_div_of_nonneg_right (this.trans hM) (by norm_num)
    linarith
  rw [mul_div_assoc] at hb
  have g1 : (c.convertD v : ℚ) * (c.rangeD / c.n) ≤ (v - c.min) + (v - c.min) * (4 / 2 ^ 53) := by
    have := mul_le_mul_of_nonneg_right (f1.trans (sub_le_iff_le_add.1 (abs_le.1 hq).2)) hs.le
    refine this.trans_eq ?_
    rw [add_mul, hXv, mul_right_comm, hXv]
    ring
  have g2 : (v - c.min) - (v - c.min) * (4 / 2 ^ 53) ≤ (c.convertD v : ℚ) * (c.rangeD / c.n) + c.rangeD / c.n := by
    have := mul_le_mul_of_nonneg_right (f2.le.trans' (by linarith [(abs_le.1 hq).1] :
      c.n * (v - c.min) / c.rangeD - c.n * (v - c.min) / c.rangeD * (4 / 2 ^ 53) ≤ _)) hs.le
    rw [sub_mul, hXv, mul_right_comm, hXv, add_mul, one_mul] at this
    exact this
  rw [abs_le] at hb
  norm_num at hb g1 g2 hs2 ⊢
  constructor <;> linarith [hb.1, hb.2]

/-- The largest integer gets the largest value up to rounding. -/
theorem C175_top_partial (h : c.OkD) : |c.convertBackD c.n - c.max| ≤ (|c.min| + |c.max|) / 2 ^ 49 := by
  have hn := h.pos
  have hb := backD_near h c.n h.n.le (Int.le_refl _)
  have hpos := sub_pos.2 h.range
  have a := fl_near (c.max - c.min)
  rw [abs_of_pos hpos] at a
  change |c.rangeD - _| ≤ _ at a
  rw [mul_div_assoc, mul_div_cancel₀ _ hn.ne'] at hb
  have d1 := le_abs_self c.max
  have d2 := neg_abs_le c.min
  rw [abs_le] at *
  norm_num at hb a ⊢
  constructor <;> linarith [hb.1, hb.2, a.1, a.2]

/-- C100: if the number of steps is a power of two, the round trip with the limits 0 and 1 is exact. -/
theorem C100_power_of_two (k : ℕ) (i : ℤ) (hi : |i| ≤ 2 ^ 53) : convertD (2 ^ k) (Verif.Converter.convertBackD (2 ^ k) i) = i := by
  have hp : (0 : ℚ) < 2 ^ k := by positivity
  have h1 : Dbl ((i : ℚ) / 2 ^ k) := ⟨i, -k, hi, by rw [zpow_neg, zpow_natCast, div_eq_mul_inv]⟩
  have h2 : Dbl (i : ℚ) := ⟨i, 0, hi, by simp⟩
  rw [Verif.Converter.convertBackD, convertD]
  push_cast
  rw [fl_of_dbl h1, mul_div_cancel₀ _ hp.ne', fl_of_dbl h2, trunc_intCast]

/-! ### Counterexamples -/

/-- A hundred steps from 0 to 0.17. -/
def seventeen : Scale ℚ := ⟨100, 0, fl (17 / 100)⟩

/-- Ten steps from 0 to 0.11. -/
def eleven : Scale ℚ := ⟨10, 0, fl (11 / 100)⟩

/-- A hundred steps from 2⁵³ to the next float. -/
def faraway : Scale ℚ := ⟨100, 2 ^ 53, 2 ^ 53 + 2⟩

theorem fl_17 : fl (17 / 100) = 6124895493223875 / 2 ^ 55 := by
  rw [fl_of_bounds (-3) 6124895493223875 (by norm_num) (by norm_num) (by norm_num) (by norm_num)]
  norm_num

theorem fl_11 : fl (11 / 100) = 7926335344172073 / 2 ^ 56 := by
  rw [fl_of_bounds (-4) 7926335344172073 (by norm_num) (by norm_num) (by norm_num) (by norm_num)]
  norm_num

theorem seventeen_ok : seventeen.OkD := ⟨by decide, by decide, by rw [seventeen, fl_17]; norm_num, dbl_zero⟩

theorem eleven_ok : eleven.OkD := ⟨by decide, by decide, by rw [eleven, fl_11]; norm_num, dbl_zero⟩

theorem faraway_ok : faraway.OkD := ⟨by decide, by decide, by rw [faraway]; norm_num, ⟨1, 53, by norm_num, by rw [faraway]; norm_num⟩⟩

/-- C175, counterexample: with a hundred steps from 0 to 0.17 the largest value gets 99, and no value of the range gets 100. -/
theorem C175_counterexample_reached : seventeen.convertD (fl (17 / 100)) = 99 ∧
    ¬ ∃ v, seventeen.min ≤ v ∧ v ≤ seventeen.max ∧ seventeen.convertD v = 100 := by
  have e : seventeen.convertD (fl (17 / 100)) = 99 := by
    rw [Scale.convertD, Scale.rangeD]
    change trunc (fl (fl (((100 : ℤ) : ℚ) * fl (fl (17 / 100) - 0)) / fl (fl (17 / 100) - 0))) = 99
    rw [sub_zero, fl_of_dbl (fl_dbl _), fl_17]
    push_cast
    rw [fl_of_bounds (x := 100 * (6124895493223875 / 2 ^ 55)) 4 4785074604081152 (by norm_num) (by norm_num) (by norm_num) (by norm_num),
      fl_of_bounds 6 7036874417766399 (by norm_num) (by norm_num) (by norm_num) (by norm_num), trunc, if_pos (by norm_num),
      Int.floor_eq_iff]
    norm_num
  refine ⟨e, fun hv => ?_⟩
  have := (C175_reached_iff seventeen_ok).1 hv
  change seventeen.convertD (fl (17 / 100)) = 100 at this
  rw [e] at this
  exact absurd this (by decide)

/-- C175, counterexample: with ten steps from 0 to 0.11 the value of 10 is larger than the largest value. -/
theorem C175_counterexample_top : eleven.max < eleven.convertBackD 10 := by
  rw [Scale.convertBackD, Scale.rangeD]
  change fl (11 / 100) < fl (fl (fl (((10 : ℤ) : ℚ) * fl (fl (11 / 100) - 0)) / ((10 : ℤ) : ℚ)) + 0)
  rw [sub_zero, add_zero, fl_of_dbl (fl_dbl (11 / 100)), fl_of_dbl (fl_dbl (_ / _)), fl_11]
  push_cast
  rw [fl_of_bounds (x := 10 * (7926335344172073 / 2 ^ 56)) 0 4953959590107546 (by norm_num) (by norm_num) (by norm_num) (by norm_num),
    fl_of_bounds (-4) 7926335344172074 (by norm_num) (by norm_num) (by norm_num) (by norm_num)]
  norm_num

/-- C175, counterexample: far away from zero the round trip ends 25 steps away. -/
theorem C175_counterexample_far : faraway.convertD (faraway.convertBackD 25) = 0 := by
  have h2 : fl (2 : ℚ) = 2 := fl_of_dbl ⟨1, 1, by norm_num, by norm_num⟩
  have h50 : fl (50 : ℚ) = 50 := fl_of_dbl ⟨50, 0, by norm_num, by norm_num⟩
  have e : faraway.convertBackD 25 = 2 ^ 53 := by
    rw [Scale.convertBackD, Scale.rangeD]
    change fl (fl (fl (((25 : ℤ) : ℚ) * fl (2 ^ 53 + 2 - 2 ^ 53)) / ((100 : ℤ) : ℚ)) + 2 ^ 53) = 2 ^ 53
    rw [show (2 ^ 53 + 2 - 2 ^ 53 : ℚ) = 2 by norm_num, h2]
    push_cast
    rw [show (25 * 2 : ℚ) = 50 by norm_num, h50, show (50 / 100 : ℚ) = 1 / 2 by norm_num,
      fl_of_dbl (q := 1 / 2) ⟨1, -1, by norm_num, by norm_num⟩,
      fl_of_bounds 53 (2 ^ 52) (by norm_num) (by norm_num) (by norm_num) (by norm_num)]
    norm_num
  rw [e]
  exact (C175_min faraway_ok).1

/-- A hundred steps from 0 to 0.17: 50 comes back as 50 or 49, the smallest value gets 0. -/
example : seventeen.convertD seventeen.min = 0 ∧
    (seventeen.convertD (seventeen.convertBackD 50) = 50 ∨ seventeen.convertD (seventeen.convertBackD 50) = 49) := by
  refine ⟨(C175_min seventeen_ok).1, C175_round_trip_partial seventeen_ok ?_ 50 (by decide) (by decide)⟩
  change ((100 : ℤ) : ℚ) * (|0| + |fl (17 / 100)|) ≤ 2 ^ 48 * (fl (17 / 100) - 0)
  rw [fl_17, abs_zero, abs_of_pos (by norm_num)]
  norm_num

end Verif.Converter
