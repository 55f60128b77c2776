import Verif.Geometry.Rect
import Verif.Converter.Scaled

/-!
C111: arithmetic of integer sizes (`IntSize`, `nion/utils/Geometry.py:383-472`) and of points and sizes in general. `*` and `//` of
integer sizes compute with floats and convert back with `int`: a product is `float(h) * float(k)`, a quotient `h / n` is the double
next to the exact quotient (Python's division of integers). Doubles: rationals rounded to 53 binary digits as in
`Converter/Scaled.lean`; not modelled: overflow, infinite numbers.
-/

set_option linter.unusedSectionVars false

namespace Verif.Geometry

open Verif.Converter (trunc fl fl_near fl_zero roundHalfEven trunc_intCast)

/-- Lines 443-445, 827-829. -/
def Size.add {K : Type} [Ring K] (s t : Size K) : Size K := ⟨s.height + t.height, s.width + t.width⟩

/-- Lines 447-449, 831-833. -/
def Size.sub {K : Type} [Ring K] (s t : Size K) : Size K := ⟨s.height - t.height, s.width - t.width⟩

/-- Lines 437-438, 821-822. -/
def Size.neg {K : Type} [Ring K] (s : Size K) : Size K := ⟨-s.height, -s.width⟩

/-- Lines 451-457: the size of integers times a float `m` (as `float(multiplicand)` gives it). -/
def Size.mulI (s : Size ℤ) (m : ℚ) : Size ℤ := ⟨trunc (fl (fl s.height * m)), trunc (fl (fl s.width * m))⟩

/-- Lines 459-460. -/
def Size.floorDivI (s : Size ℤ) (n : ℤ) : Size ℤ := ⟨trunc (fl (s.height / n)), trunc (fl (s.width / n))⟩

/-- Lines 583-586, `int(x * 0.5)`. -/
def halfI (x : ℤ) : ℤ := trunc (fl (fl x * (1 / 2)))

/-! ### Rounding integers -/

theorem round_int (z : ℤ) : roundHalfEven z = z := by
  rw [roundHalfEven, if_pos (by simp)]
  simp

theorem fl_scaled {z : ℤ} {k : ℕ} (h : |z| ≤ 2 ^ 53) : fl ((z : ℚ) / 2 ^ k) = z / 2 ^ k := by
  by_cases h0 : z = 0
  · subst h0; simp [fl_zero]
  have hz : (0 : ℚ) < |(z : ℚ)| := abs_pos.2 (by exact_mod_cast h0)
  have hx0 : (z : ℚ) / 2 ^ k ≠ 0 := div_ne_zero (by exact_mod_cast h0) (by positivity)
  have hx : 0 < |(z : ℚ) / 2 ^ k| := abs_pos.2 hx0
  rw [fl, if_neg hx0]
  set e := Int.log 2 |(z : ℚ) / 2 ^ k| with he
  have hup : |(z : ℚ)| ≤ 2 ^ 53 := by exact_mod_cast h
  have hle : e ≤ 53 - k := by
    rw [he, ← Int.lt_add_one_iff, ← Int.lt_zpow_iff_log_lt (by norm_num) hx, abs_div, abs_of_pos (show (0 : ℚ) < 2 ^ k by positivity),
      div_lt_iff₀ (by positivity)]
    calc |(z : ℚ)| ≤ 2 ^ 53 := hup
      _ < 2 ^ 54 := by norm_num
      _ = ((2 : ℕ) : ℚ) ^ ((53 : ℤ) - k + 1) * 2 ^ k := by
        push_cast
        rw [← zpow_natCast (2 : ℚ) k, ← zpow_add₀ (by norm_num)]
        rw [show (53 : ℤ) - k + 1 + k = 54 by ring]
        norm_num
  -- the quotient is an integer
  have hint : ∃ m : ℤ, (z : ℚ) / 2 ^ k / 2 ^ (e - 52) = m := by
    rcases lt_or_eq_of_le hle with hlt | heq
    · obtain ⟨n, hn⟩ := Int.eq_ofNat_of_zero_le (show 0 ≤ 52 - k - e by omega)
      refine ⟨z * 2 ^ n, ?_⟩
      have : (2 : ℚ) ^ k * 2 ^ (e - 52) = (2 ^ n)⁻¹ := by
        rw [← zpow_natCast (2 : ℚ) k, ← zpow_natCast (2 : ℚ) n, ← zpow_add₀ (by norm_num), ← zpow_neg]
        congr 1
        omega
      rw [div_div, this]
      push_cast
      rw [div_inv_eq_mul]
    · -- the power of two
      have hge : (2 : ℚ) ^ 53 ≤ |(z : ℚ)| := by
        have := Int.zpow_log_le_self (b := 2) (by norm_num) hx
        rw [← he, heq, abs_div, abs_of_pos (show (0 : ℚ) < 2 ^ k by positivity), le_div_iff₀ (by positivity)] at this
        push_cast at this
        rw [← zpow_natCast (2 : ℚ) k, ← zpow_add₀ (by norm_num), show (53 : ℤ) - k + k = (53 : ℕ) by push_cast; ring,
          zpow_natCast] at this
        exact this
      have hzz : |z| = 2 ^ 53 := le_antisymm h (by exact_mod_cast hge)
      have hk : (2 : ℚ) ^ k * 2 ^ (e - 52) = 2 := by
        rw [heq, ← zpow_natCast (2 : ℚ) k, ← zpow_add₀ (by norm_num), show (k : ℤ) + (53 - k - 52) = 1 by ring]
        norm_num
      rw [div_div, hk]
      rcases abs_eq (by norm_num : (0 : ℤ) ≤ 2 ^ 53) |>.1 hzz with h1 | h1 <;> rw [h1]
      · exact ⟨2 ^ 52, by norm_num⟩
      · exact ⟨-2 ^ 52, by norm_num⟩
  obtain ⟨m, hm⟩ := hint
  rw [hm, round_int, ← hm]
  have : (2 : ℚ) ^ (e - 52) ≠ 0 := zpow_ne_zero _ (by norm_num)
  field_simp

/-- Integers up to 2^53 are doubles. -/
theorem fl_int {z : ℤ} (h : |z| ≤ 2 ^ 53) : fl (z : ℚ) = z := by
  have := fl_scaled (k := 0) h
  simpa using this

/-- A quotient of natural numbers below 2^53, rounded, is below the next integer and not below the last one. -/
theorem fl_div_nat {a b : ℕ} (ha : a < 2 ^ 53) (hb : 0 < b) (x : ℚ) (hx : x = a / b ∨ x = -(a / b)) :
    ((a / b : ℕ) : ℚ) ≤ |fl x| ∧ |fl x| < (a / b : ℕ) + 1 ∧ (0 ≤ x → 0 ≤ fl x) ∧ (x ≤ 0 → fl x ≤ 0) := by
  have hb' : (0 : ℚ) < b := by exact_mod_cast hb
  have hax : |x| = a / b := by
    have h0 : (0 : ℚ) ≤ a / b := by positivity
    rcases hx with rfl | rfl
    · exact abs_of_nonneg h0
    · rw [abs_neg]; exact abs_of_nonneg h0
  have herr := fl_near x
  have hsm : |x| / 2 ^ 53 < 1 / b := by
    rw [hax, div_div, div_lt_div_iff₀ (by positivity) hb']
    have : (a : ℚ) < 2 ^ 53 := by exact_mod_cast ha
    nlinarith
  have hle : |x| / 2 ^ 53 ≤ |x| := div_le_self (abs_nonneg x) (by norm_num)
  have hsign : (0 ≤ x → 0 ≤ fl x) ∧ (x ≤ 0 → fl x ≤ 0) := by
    rw [abs_le] at herr
    refine ⟨fun h => ?_, fun h => ?_⟩
    · rw [abs_of_nonneg h] at *
      linarith [herr.1]
    · rw [abs_of_nonpos h] at *
      linarith [herr.2]
  have hdm : (b : ℚ) * (a / b : ℕ) + (a % b : ℕ) = a := by exact_mod_cast Nat.div_add_mod a b
  have hlt : a % b < b := Nat.mod_lt a hb
  have hv : (a : ℚ) / b = (a / b : ℕ) + (a % b : ℕ) / b := by
    rw [eq_comm, ← hdm]
    field_simp
  have hup : ((a % b : ℕ) : ℚ) / b ≤ 1 - 1 / b := by
    rw [le_sub_iff_add_le, ← add_div, div_le_one hb']
    exact_mod_cast (show a % b + 1 ≤ b by omega)
  have hd : abs (|fl x| - |x|) ≤ |x| / 2 ^ 53 := (abs_abs_sub_abs_le _ _).trans herr
  rw [abs_le] at hd
  refine ⟨?_, ?_, hsign⟩
  · by_cases hr : a % b = 0
    · -- exact
      have hq : |((a / b : ℕ) : ℤ)| ≤ 2 ^ 53 := by
        rw [abs_of_nonneg (by positivity)]
        have : a / b ≤ a := Nat.div_le_self a b
        push_cast
        have h2 : (a : ℤ) / b ≤ a := by exact_mod_cast this
        have h3 : (a : ℤ) < 2 ^ 53 := by exact_mod_cast ha
        omega
      have he : (a : ℚ) / b = (((a / b : ℕ) : ℤ) : ℚ) := by
        rw [hv, hr, Int.cast_natCast]
        simp only [Nat.cast_zero, zero_div, add_zero]
      rcases hx with rfl | rfl
      · rw [he, fl_int hq]
        exact le_abs_self _
      · have := fl_int (z := -((a / b : ℕ) : ℤ)) (by rw [abs_neg]; exact hq)
        rw [he]
        rw [Int.cast_neg] at this
        rw [this, abs_neg]
        exact le_abs_self _
    · have hlow : 1 / (b : ℚ) ≤ ((a % b : ℕ) : ℚ) / b := by
        rw [div_le_div_iff_of_pos_right hb']
        exact_mod_cast Nat.one_le_iff_ne_zero.2 hr
      linarith [hd.1]
  · linarith [hd.2]

theorem trunc_of {y : ℚ} {q : ℕ} (h1 : (q : ℚ) ≤ |y|) (h2 : |y| < q + 1) :
    (0 ≤ y → trunc y = q) ∧ (y ≤ 0 → trunc y = -q) := by
  refine ⟨fun h => ?_, fun h => ?_⟩
  · rw [abs_of_nonneg h] at h1 h2
    rw [trunc, if_pos h, Int.floor_eq_iff]
    exact ⟨by exact_mod_cast h1, by exact_mod_cast h2⟩
  · rw [abs_of_nonpos h] at h1 h2
    rw [trunc]
    split
    · have : y = 0 := by linarith
      subst this
      have hq : (q : ℚ) ≤ 0 := by simpa using h1
      have hq0 : q = 0 := by
        have : q ≤ 0 := by exact_mod_cast hq
        omega
      simp [hq0]
    · rw [Int.ceil_eq_iff]
      push_cast
      exact ⟨by linarith, by linarith⟩

/-- A quotient of integers below 2^53, rounded and truncated, is the truncated quotient. -/
theorem trunc_fl_div {h n : ℤ} (hh : |h| < 2 ^ 53) (hn : n ≠ 0) : trunc (fl ((h : ℚ) / n)) = h.tdiv n := by
  have key : ∀ a b : ℕ, a < 2 ^ 53 → 0 < b → trunc (fl ((a : ℚ) / b)) = ((a : ℤ).tdiv b) ∧
      trunc (fl (-((a : ℚ) / b))) = -((a : ℤ).tdiv b) := by
    intro a b ha hb
    have h0 : (0 : ℚ) ≤ a / b := by positivity
    rw [Int.tdiv_eq_ediv_of_nonneg (by omega)]
    obtain ⟨h1, h2, h3, -⟩ := fl_div_nat ha hb _ (.inl rfl)
    obtain ⟨g1, g2, -, g3⟩ := fl_div_nat ha hb _ (.inr rfl)
    exact ⟨by rw [(trunc_of h1 h2).1 (h3 h0)]; simp, by rw [(trunc_of g1 g2).2 (g3 (by linarith))]; simp⟩
  obtain ⟨a, ha'⟩ := Int.eq_nat_or_neg h
  obtain ⟨b, hb'⟩ := Int.eq_nat_or_neg n
  have ha : a < 2 ^ 53 := by
    have : ((a : ℕ) : ℤ) < 2 ^ 53 := by
      rcases ha' with rfl | rfl
      · simpa using hh
      · simpa using hh
    exact_mod_cast this
  have hb : 0 < b := by
    rcases hb' with rfl | rfl <;> omega
  obtain ⟨k1, k2⟩ := key a b ha hb
  rcases ha' with rfl | rfl <;> rcases hb' with rfl | rfl
  · simpa using k1
  · rw [Int.tdiv_neg, ← k2, Int.cast_neg, div_neg]
    simp
  · rw [Int.neg_tdiv, ← k2, Int.cast_neg, neg_div]
    simp
  · rw [Int.neg_tdiv, Int.tdiv_neg, neg_neg, ← k1, Int.cast_neg, Int.cast_neg, neg_div_neg_eq]
    simp

/-! ### C111 -/

section

variable {K : Type} [CommRing K]

/-- C111: sizes add and subtract like vectors. -/
theorem C111_vector (s t u : Size K) (p q : Point K) :
    (s.add t).add u = s.add (t.add u) ∧ s.add t = t.add s ∧ (s.add t).sub t = s ∧ s.sub t = s.add t.neg ∧ s.neg.neg = s ∧
      s.add s.neg = ⟨0, 0⟩ ∧ (p.add q).sub q = p ∧ p.add q = q.add p := by
  refine ⟨?_, ?_, ?_, ?_, ?_, ?_, ?_, ?_⟩ <;> simp [Size.add, Size.sub, Size.neg, Point.add, Point.sub] <;> ring_nf <;> simp

end

/-- C111 (partial: sizes below 2^53 that are not negative, as the division truncates towards zero): `//` is floor division. -/
theorem C111_floordiv_partial (s : Size ℤ) (n : ℤ) (hn : 0 < n) (h1 : 0 ≤ s.height) (h2 : s.height < 2 ^ 53) (h3 : 0 ≤ s.width)
    (h4 : s.width < 2 ^ 53) : s.floorDivI n = ⟨s.height.fdiv n, s.width.fdiv n⟩ := by
  rw [Size.floorDivI, trunc_fl_div (by rw [abs_of_nonneg h1]; exact h2) (by omega),
    trunc_fl_div (by rw [abs_of_nonneg h3]; exact h4) (by omega), Int.tdiv_eq_ediv_of_nonneg h1, Int.tdiv_eq_ediv_of_nonneg h3,
    Int.fdiv_eq_ediv_of_nonneg _ hn.le, Int.fdiv_eq_ediv_of_nonneg _ hn.le]

/-- C111: what `//` gives for all sizes below 2^53 and all divisors: the quotient towards zero. -/
theorem C111_quotient (s : Size ℤ) (n : ℤ) (hn : n ≠ 0) (h1 : |s.height| < 2 ^ 53) (h2 : |s.width| < 2 ^ 53) :
    s.floorDivI n = ⟨s.height.tdiv n, s.width.tdiv n⟩ := by
  rw [Size.floorDivI, trunc_fl_div h1 hn, trunc_fl_div h2 hn]

theorem tdiv_eq_fdiv_iff (a : ℤ) {n : ℤ} (hn : n ≠ 0) : a.tdiv n = a.fdiv n ↔ 0 ≤ a * n ∨ n ∣ a := by
  rw [Int.tdiv_eq_fdiv]
  by_cases hd : n ∣ a
  · simp [hd]
  · have ha : a ≠ 0 := by rintro rfl; exact hd (dvd_zero n)
    simp only [hd, or_false]
    rcases lt_or_gt_of_ne ha with h | h <;> rcases lt_or_gt_of_ne hn with k | k
    · have : 0 ≤ a * n := (mul_pos_of_neg_of_neg h k).le
      simp [this, not_le.2 h, k, Int.sign_eq_neg_one_of_neg k]
    · have : ¬ 0 ≤ a * n := not_le.2 (mul_neg_of_neg_of_pos h k)
      simp [this, not_le.2 h, k.le, hn]
    · have : ¬ 0 ≤ a * n := not_le.2 (mul_neg_of_pos_of_neg h k)
      simp [this, h.le, not_le.2 k]
    · have : 0 ≤ a * n := (mul_pos h k).le
      simp [this, h.le, k.le]

/-- C111: below 2^53, `//` is floor division exactly for sides that have the sign of the divisor or are multiples of it. -/
theorem C111_floor_iff (s : Size ℤ) (n : ℤ) (hn : n ≠ 0) (h1 : |s.height| < 2 ^ 53) (h2 : |s.width| < 2 ^ 53) :
    s.floorDivI n = ⟨s.height.fdiv n, s.width.fdiv n⟩ ↔ (0 ≤ s.height * n ∨ n ∣ s.height) ∧ (0 ≤ s.width * n ∨ n ∣ s.width) := by
  rw [C111_quotient s n hn h1 h2, Size.mk.injEq, tdiv_eq_fdiv_iff _ hn, tdiv_eq_fdiv_iff _ hn]

/-- C111 (partial: products up to 2^53): a size times an integer is exact. -/
theorem C111_mul_partial (s : Size ℤ) (k : ℤ) (h1 : |s.height| ≤ 2 ^ 53) (h2 : |s.width| ≤ 2 ^ 53) (hk : |k| ≤ 2 ^ 53)
    (h3 : |s.height * k| ≤ 2 ^ 53) (h4 : |s.width * k| ≤ 2 ^ 53) : s.mulI (fl k) = ⟨s.height * k, s.width * k⟩ := by
  have e : ∀ a : ℤ, |a| ≤ 2 ^ 53 → |a * k| ≤ 2 ^ 53 → trunc (fl (fl a * fl k)) = a * k := by
    intro a ha hak
    rw [fl_int ha, fl_int hk, ← Int.cast_mul, fl_int hak, trunc_intCast]
  rw [Size.mulI, e _ h1 h3, e _ h2 h4]

/-- C111: halves, as used for centres of rectangles (`Geometry/Rect.lean` takes them exact), are exact up to 2^53. -/
theorem C111_half (x : ℤ) (h : |x| < 2 ^ 53) : halfI x = x.tdiv 2 := by
  rw [halfI, fl_int h.le, ← trunc_fl_div h (by norm_num)]
  congr 2
  push_cast
  ring

/-- C111: multiplying undoes dividing when the division is without remainder, for sizes below 2^53. -/
theorem C111_mul_div (s : Size ℤ) (k : ℤ) (hk : k ≠ 0) (hk' : |k| ≤ 2 ^ 53) (h1 : |s.height * k| < 2 ^ 53) (h2 : |s.width * k| < 2 ^ 53) :
    (s.mulI (fl k)).floorDivI k = s := by
  have e : ∀ a : ℤ, |a * k| < 2 ^ 53 → |a| ≤ 2 ^ 53 := by
    intro a ha
    have h1 : 1 ≤ |k| := Int.one_le_abs hk
    have h3 := abs_nonneg a
    rw [abs_mul] at ha
    nlinarith
  rw [C111_mul_partial s k (e _ h1) (e _ h2) hk' h1.le h2.le, C111_quotient _ _ hk h1 h2, Int.mul_tdiv_cancel _ hk,
    Int.mul_tdiv_cancel _ hk]

/-- C111, counterexample: a negative size is divided towards zero. -/
theorem C111_counterexample : (⟨-3, 7⟩ : Size ℤ).floorDivI 2 = ⟨-1, 3⟩ ∧ (-3 : ℤ).fdiv 2 = -2 := by
  rw [C111_quotient _ _ (by norm_num) (by norm_num) (by norm_num)]
  decide

/-- C111, counterexample: beyond 2^53 a size is not even itself divided by one, or times one. -/
theorem C111_counterexample_large : (⟨2 ^ 53 + 1, 0⟩ : Size ℤ).floorDivI 1 = ⟨2 ^ 53, 0⟩ ∧ (⟨2 ^ 53 + 1, 0⟩ : Size ℤ).mulI 1 = ⟨2 ^ 53, 0⟩ := by
  have hl : Int.log 2 (9007199254740993 : ℚ) = 53 := by
    apply le_antisymm
    · rw [← Int.lt_add_one_iff, ← Int.lt_zpow_iff_log_lt (by norm_num) (by norm_num)]
      norm_num
    · rw [← Int.zpow_le_iff_le_log (by norm_num) (by norm_num)]
      norm_num
  have hf : fl 9007199254740993 = 9007199254740992 := by
    rw [fl, if_neg (by norm_num), abs_of_pos (by norm_num), hl]
    have hfl : ⌊(9007199254740993 : ℚ) / 2 ^ ((53 : ℤ) - 52)⌋ = 4503599627370496 := by
      rw [Int.floor_eq_iff]; norm_num
    have hr : roundHalfEven ((9007199254740993 : ℚ) / 2 ^ ((53 : ℤ) - 52)) = 4503599627370496 := by
      rw [roundHalfEven, hfl]
      norm_num
    rw [hr]
    norm_num
  have ht : trunc (9007199254740992 : ℚ) = 9007199254740992 := by
    have := trunc_intCast (K := ℚ) 9007199254740992
    exact_mod_cast this
  have ht0 : trunc (0 : ℚ) = 0 := by
    have := trunc_intCast (K := ℚ) 0
    exact_mod_cast this
  have hf2 : fl 9007199254740992 = 9007199254740992 := by
    have := fl_int (z := 9007199254740992) (by norm_num)
    exact_mod_cast this
  constructor
  · simp only [Size.floorDivI]
    norm_num
    rw [hf, fl_zero, ht, ht0]
    simp
  · simp only [Size.mulI]
    norm_num
    rw [hf, fl_zero, hf2, fl_zero, ht, ht0]
    simp

/-- 480 by 640, a third of it and three times that -/
example : (⟨480, 640⟩ : Size ℤ).floorDivI 3 = ⟨160, 213⟩ ∧ (⟨160, 213⟩ : Size ℤ).mulI (fl (3 : ℤ)) = ⟨480, 639⟩ := by
  rw [C111_quotient _ _ (by norm_num) (by norm_num) (by norm_num),
    C111_mul_partial _ _ (by norm_num) (by norm_num) (by norm_num) (by norm_num) (by norm_num)]
  decide

end Verif.Geometry
