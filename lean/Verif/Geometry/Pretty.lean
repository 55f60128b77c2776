import Mathlib.Data.Int.Log
import Mathlib.Algebra.Order.Floor.Ring
import Mathlib.Data.Rat.Floor
import Mathlib.Tactic.NormNum
import Mathlib.Tactic.Linarith
import Mathlib.Tactic.Ring
import Mathlib.Tactic.FieldSimp
import Mathlib.Tactic.Positivity

/-!
Pretty numbers (`nion/utils/Geometry.py:20-56`), C67. Floats are exact: elements of an ordered field with a floor function (`ℚ`,
`ℝ`); `math.floor(math.log10(abs(val)))` is `Int.log 10 |val|`.
-/

set_option linter.unusedSectionVars false

namespace Verif.Geometry

variable {K : Type} [Field K] [LinearOrder K] [IsStrictOrderedRing K] [FloorRing K]

/-- A float. -/
inductive Num (K : Type) where
  | fin (v : K)
  | inf (negative : Bool)
  | nan

/-- Lines 33-50. -/
def prettyNorm (rounding : Bool) (x : K) : K :=
  if rounding then
    if x < 3 / 2 then 1 else if x < 3 then 2 else if x < 7 then 5 else 10
  else
    if x ≤ 1 then 1 else if x ≤ 2 then 2 else if x ≤ 5 then 5 else 10

/-- `math.copysign`. -/
def copysign (a v : K) : K := if v < 0 then -|a| else |a|

/-- Lines 29-32: the normalised value and the factor; the branch is for rounding errors of `log10`. -/
def normalise (v f : K) : K × K :=
  if |v| / f < 1 then (|v| / f * 10, (⌊f / 10⌋ : K)) else (|v| / f, f)

/-- Lines 20-51 for a finite value. -/
def makePretty (v : K) (rounding : Bool) : K × K :=
  if ¬ v > 0 ∧ ¬ v < 0 then (0, 0)
  else
    let q := normalise v ((10 : K) ^ Int.log 10 |v|)
    (copysign (prettyNorm rounding q.1 * q.2) v, q.2)

/-- Lines 20-51. -/
def makePrettyNum (v : Num K) (rounding : Bool) : K × K :=
  match v with
  | .fin v => makePretty v rounding
  | .inf _ | .nan => (0, 0)

/-! ### C67 -/

/-- 1, 2, 5 or 10 times a power of ten. -/
def IsPretty (a : K) : Prop := ∃ m ∈ ([1, 2, 5, 10] : List K), ∃ k : ℤ, a = m * 10 ^ k

theorem ten_pos (e : ℤ) : (0 : K) < 10 ^ e := zpow_pos (by norm_num) e

theorem log_bounds {v : K} (h : v ≠ 0) :
    1 ≤ |v| / 10 ^ Int.log 10 |v| ∧ |v| / 10 ^ Int.log 10 |v| < 10 := by
  have h1 := Int.zpow_log_le_self (R := K) (b := 10) (by norm_num) (abs_pos.2 h)
  have h2 := Int.lt_zpow_succ_log_self (R := K) (b := 10) (by norm_num) |v|
  rw [zpow_add_one₀ (by norm_num)] at h2
  simp only [Nat.cast_ofNat] at h1 h2
  constructor
  · rwa [le_div_iff₀ (ten_pos _), one_mul]
  · rw [div_lt_iff₀ (ten_pos _)]
    linarith

/-- The branch for rounding errors is not taken. -/
theorem normalise_eq {v : K} (h : v ≠ 0) :
    normalise v ((10 : K) ^ Int.log 10 |v|) = (|v| / 10 ^ Int.log 10 |v|, 10 ^ Int.log 10 |v|) := by
  rw [normalise, if_neg (not_lt.2 (log_bounds h).1)]

theorem prettyNorm_mem (r : Bool) (x : K) : prettyNorm r x ∈ ([1, 2, 5, 10] : List K) := by
  unfold prettyNorm
  split_ifs <;> simp

theorem mem_pos {m : K} (h : m ∈ ([1, 2, 5, 10] : List K)) : 1 ≤ m ∧ m ≤ 10 := by
  simp only [List.mem_cons, List.not_mem_nil, or_false] at h
  rcases h with rfl | rfl | rfl | rfl <;> norm_num

theorem makePretty_eq {v : K} (h : v ≠ 0) (r : Bool) :
    makePretty v r = (if v < 0 then -(prettyNorm r (|v| / 10 ^ Int.log 10 |v|) * 10 ^ Int.log 10 |v|)
      else prettyNorm r (|v| / 10 ^ Int.log 10 |v|) * 10 ^ Int.log 10 |v|, 10 ^ Int.log 10 |v|) := by
  have hz : ¬ (¬ v > 0 ∧ ¬ v < 0) := by
    rintro ⟨h1, h2⟩
    exact h (le_antisymm (not_lt.1 h1) (not_lt.1 h2))
  have hp := mem_pos (prettyNorm_mem r (|v| / 10 ^ Int.log 10 |v|))
  rw [makePretty, if_neg hz]
  simp only [normalise_eq h, copysign]
  rw [abs_of_pos (mul_pos (by linarith) (ten_pos _))]

/-- C67: the result is plus or minus 1, 2, 5 or 10 times a power of ten, with the sign of the value. -/
theorem C67_form (v : K) (h : v ≠ 0) (r : Bool) :
    IsPretty |(makePretty v r).1| ∧ (0 < (makePretty v r).1 ↔ 0 < v) ∧ (makePretty v r).1 ≠ 0 := by
  rw [makePretty_eq h]
  have hp := mem_pos (prettyNorm_mem r (|v| / 10 ^ Int.log 10 |v|))
  have hpos : 0 < prettyNorm r (|v| / 10 ^ Int.log 10 |v|) * 10 ^ Int.log 10 |v| := mul_pos (by linarith) (ten_pos _)
  have hpr : IsPretty (prettyNorm r (|v| / 10 ^ Int.log 10 |v|) * 10 ^ Int.log 10 |v|) := ⟨_, prettyNorm_mem _ _, _, rfl⟩
  simp only
  split_ifs with hv
  · rw [abs_neg, abs_of_pos hpos]
    refine ⟨hpr, ?_, by linarith⟩
    constructor
    · intro; linarith
    · intro; linarith
  · rw [abs_of_pos hpos]
    exact ⟨hpr, ⟨fun _ => lt_of_le_of_ne (not_lt.1 hv) (Ne.symm h), fun _ => hpos⟩, hpos.ne'⟩

theorem abs_makePretty {v : K} (h : v ≠ 0) (r : Bool) :
    |(makePretty v r).1| = prettyNorm r (|v| / 10 ^ Int.log 10 |v|) * 10 ^ Int.log 10 |v| := by
  rw [makePretty_eq h]
  have hp := mem_pos (prettyNorm_mem r (|v| / 10 ^ Int.log 10 |v|))
  have hpos : 0 < prettyNorm r (|v| / 10 ^ Int.log 10 |v|) * 10 ^ Int.log 10 |v| := mul_pos (by linarith) (ten_pos _)
  simp only
  split_ifs
  · rw [abs_neg, abs_of_pos hpos]
  · rw [abs_of_pos hpos]

theorem zpow_ge_ten {j : ℤ} (h : 1 ≤ j) : (10 : K) ≤ 10 ^ j := by
  simpa using zpow_le_zpow_right₀ (a := (10 : K)) (by norm_num) h

theorem zpow_le_tenth {j : ℤ} (h : j ≤ -1) : (10 : K) ^ j ≤ 1 / 10 := by
  simpa [zpow_neg_one] using zpow_le_zpow_right₀ (a := (10 : K)) (by norm_num) h

theorem norm_least {x : K} (h1 : 1 ≤ x) {m : K} (hm : m ∈ ([1, 2, 5, 10] : List K)) (j : ℤ)
    (h : x ≤ m * 10 ^ j) : prettyNorm false x ≤ m * 10 ^ j := by
  have hn := mem_pos (prettyNorm_mem false x)
  have hm' := mem_pos hm
  rcases lt_trichotomy j 0 with hj | hj | hj
  · have h10 := zpow_le_tenth (K := K) (j := j) (by omega)
    have hx : m * 10 ^ j ≤ 1 := by
      have := mul_le_mul hm'.2 h10 (ten_pos j).le (by norm_num)
      linarith
    have hx1 : x = 1 := le_antisymm (h.trans hx) h1
    have : prettyNorm false x = 1 := by
      rw [prettyNorm, if_neg (by simp), if_pos hx1.le]
    rw [this]
    linarith
  · subst hj
    simp only [zpow_zero, mul_one] at h ⊢
    simp only [List.mem_cons, List.not_mem_nil, or_false] at hm
    simp only [prettyNorm, Bool.false_eq_true, if_false]
    rcases hm with rfl | rfl | rfl | rfl <;> split_ifs <;> linarith
  · have h10 := zpow_ge_ten (K := K) (j := j) (by omega)
    have : 1 * 10 ≤ m * 10 ^ j := mul_le_mul hm'.1 h10 (by norm_num) (by linarith)
    linarith

/-- C67: without rounding, the result is the smallest pretty number not below the value (in absolute value). -/
theorem C67_least (v : K) (h : v ≠ 0) :
    |v| ≤ |(makePretty v false).1| ∧ ∀ a, IsPretty a → |v| ≤ a → |(makePretty v false).1| ≤ a := by
  rw [abs_makePretty h]
  have hb := log_bounds h
  have ht := ten_pos (K := K) (Int.log 10 |v|)
  refine ⟨?_, ?_⟩
  · rw [← div_le_iff₀ ht]
    simp only [prettyNorm, Bool.false_eq_true, if_false]
    split_ifs <;> linarith
  · rintro _ ⟨m, hm, k, rfl⟩ ha
    have hk : m * 10 ^ k = m * 10 ^ (k - Int.log 10 |v|) * 10 ^ Int.log 10 |v| := by
      rw [mul_assoc, ← zpow_add₀ (by norm_num), sub_add_cancel]
    rw [hk] at ha ⊢
    rw [← div_le_iff₀ ht] at ha
    exact mul_le_mul_of_nonneg_right (norm_least hb.1 hm _ ha) ht.le

/-- C67: with rounding, the result is more than 2/3 and at most 5/3 of the value. -/
theorem C67_round (v : K) (h : v ≠ 0) :
    2 / 3 * |v| < |(makePretty v true).1| ∧ |(makePretty v true).1| ≤ 5 / 3 * |v| := by
  rw [abs_makePretty h]
  have hb := log_bounds h
  have ht := ten_pos (K := K) (Int.log 10 |v|)
  have hv : |v| = |v| / 10 ^ Int.log 10 |v| * 10 ^ Int.log 10 |v| := by field_simp
  generalize |v| / 10 ^ Int.log 10 |v| = x at *
  have hn : 2 / 3 * x < prettyNorm true x ∧ prettyNorm true x ≤ 5 / 3 * x := by
    simp only [prettyNorm, if_true]
    split_ifs <;> constructor <;> linarith
  generalize (10 : K) ^ Int.log 10 |v| = t at *
  rw [hv]
  exact ⟨by nlinarith, by nlinarith⟩

/-- C67: the factor is the power of ten at or below the value. -/
theorem C67_factor (v : K) (h : v ≠ 0) (r : Bool) :
    ∃ k : ℤ, (makePretty v r).2 = 10 ^ k ∧ 10 ^ k ≤ |v| ∧ |v| < 10 ^ (k + 1) := by
  refine ⟨Int.log 10 |v|, by rw [makePretty_eq h], ?_, ?_⟩
  · simpa using Int.zpow_log_le_self (R := K) (b := 10) (by norm_num) (abs_pos.2 h)
  · simpa using Int.lt_zpow_succ_log_self (R := K) (b := 10) (by norm_num) |v|

/-- C67: the function is odd. -/
theorem C67_odd (v : K) (r : Bool) :
    (makePretty (-v) r).1 = -(makePretty v r).1 ∧ (makePretty (-v) r).2 = (makePretty v r).2 := by
  by_cases h : v = 0
  · subst h
    simp [makePretty]
  · rw [makePretty_eq h, makePretty_eq (neg_ne_zero.2 h), abs_neg]
    refine ⟨?_, rfl⟩
    simp only
    rcases lt_or_gt_of_ne h with hv | hv
    · rw [if_neg (by linarith), if_pos hv, neg_neg]
    · rw [if_pos (by linarith), if_neg (by linarith)]

/-- C67: zero, infinities and not-a-number give zero. -/
theorem C67_zero (r b : Bool) : makePrettyNum (.fin (0 : K)) r = (0, 0) ∧ makePrettyNum (.inf b : Num K) r = (0, 0) ∧
    makePrettyNum (.nan : Num K) r = (0, 0) := by
  simp [makePrettyNum, makePretty]

theorem log_23 : Int.log 10 |(23 : ℚ)| = 1 := by
  rw [Int.log_of_one_le_right _ (by norm_num), show |(23 : ℚ)| = ((23 : ℕ) : ℚ) by norm_num, Nat.floor_natCast]
  rfl

/-- 23 becomes 50 without and 20 with rounding. -/
example : makePretty (23 : ℚ) false = (50, 10) ∧ makePretty (23 : ℚ) true = (20, 10) ∧ makePretty (-23 : ℚ) true = (-20, 10) := by
  have h : ∀ b, makePretty (23 : ℚ) b = (prettyNorm b (23 / 10) * 10, 10) := by
    intro b
    rw [makePretty_eq (by norm_num), log_23]
    norm_num
  refine ⟨?_, ?_, ?_⟩
  · rw [h]; norm_num [prettyNorm]
  · rw [h]; norm_num [prettyNorm]
  · have := C67_odd (23 : ℚ) true
    rw [h] at this
    ext
    · rw [this.1]; norm_num [prettyNorm]
    · rw [this.2]

end Verif.Geometry
