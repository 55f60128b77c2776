import Verif.Geometry.PrettyDoubles
import Verif.Geometry.Labels

/-!
C135: the labels of `LinearTicker` (`nion/utils/Geometry.py:173-190`) in double precision.

The ticks are those of `PrettyDoubles.lean`. `log x` is `math.log10(x)`, a double nearest to the logarithm. A float is formatted with its
exact value, rounded half to even at the last digit.
-/

set_option linter.unusedSectionVars false

namespace Verif.Geometry

open Verif.Converter (fl fl_near fl_zero roundHalfEven roundHalfEven_near)

/-! ### The model -/

/-- `math.floor(math.log10(x))`. -/
def floorLog (log : ℚ → ℚ) (x : ℚ) : ℤ := ⌊log x⌋

/-- `int(math.log10(x))`. -/
def truncLogD (log : ℚ → ℚ) (x : ℚ) : ℤ := if 0 ≤ log x then ⌊log x⌋ else ⌈log x⌉

/-- `"{0:0.pf}"`. -/
def formatFD (p : ℤ) (v : ℚ) : Label := ⟨decide (v < 0), roundHalfEven (|v| * 10 ^ p), p, none⟩

/-- `"{0:0.pe}"`. -/
def formatED (p : ℤ) (v : ℚ) : Label :=
  let e := if v = 0 then 0 else Int.log 10 |v|
  let m := roundHalfEven (|v| * 10 ^ (p - e))
  if (10 : ℚ) ^ (p + 1) ≤ m then ⟨decide (v < 0), roundHalfEven ((10 : ℚ) ^ p), p, some (e + 1)⟩ else ⟨decide (v < 0), m, p, some e⟩

/-- Lines 180-187. -/
def niceLabelD (log : ℚ → ℚ) (value : ℚ) (precision : ℤ) (factor10 : ℚ) : Label :=
  let f10 := if factor10 > 0 then truncLogD log factor10 else 0
  if |f10| > 5 then
    let f10x := if value > 0 then truncLogD log value else f10
    formatED (max 0 (f10x - f10)) value
  else formatFD precision value

/-- Lines 175-178, 189-190. -/
def linearLabelsD (log : ℚ → ℚ) (r : PrettyRange ℚ) : List Label :=
  r.ticks.map fun (v : ℚ) => niceLabelD log v r.precision r.factor10

/-! ### Specification -/

/-- A logarithm rounded to a nearest double. -/
def LogNear (log : ℚ → ℚ) : Prop := ∀ x : ℚ, 0 < x → Nearest (Real.logb 10 x) (log x)

/-- There is such a logarithm. -/
theorem exists_logNear : ∃ log, LogNear log := by
  choose f hf using fun x : ℚ => exists_nearest (Real.logb 10 x)
  exact ⟨f, fun x _ => hf x⟩

variable {log : ℚ → ℚ}

theorem LogNear.ok (h : LogNear log) : LogOk (floorLog log) := fun x hx => ⟨log x, h x hx, rfl⟩

/-! ### Exponents -/

theorem dbl_quarter {z : ℤ} (h : |z| ≤ 2 ^ 53) : Dbl (z / 4) := ⟨z, -2, h, by norm_num; ring⟩

theorem logb_le {x : ℚ} {e : ℤ} (hx : 0 < x) (h : x ≤ 51 / 10 * 10 ^ e) : Real.logb 10 x ≤ e + 3 / 4 := by
  have hx' : (0 : ℝ) < x := by exact_mod_cast hx
  have h1 : (x : ℝ) ≤ 51 / 10 * 10 ^ e := by
    have := (Rat.cast_le (K := ℝ)).2 h
    push_cast at this
    exact this
  have h2 : Real.logb 10 x ≤ Real.logb 10 (51 / 10 * 10 ^ e) := Real.logb_le_logb_of_le (by norm_num) hx' h1
  have h3 : Real.logb 10 ((51 / 10 : ℝ) * 10 ^ e) = Real.logb 10 (51 / 10) + e := by
    rw [Real.logb_mul (by norm_num) (zpow_pos (by norm_num) e).ne', ← Real.rpow_intCast, Real.logb_rpow (by norm_num) (by norm_num)]
  have h4 : Real.logb 10 (51 / 10 : ℝ) ≤ 3 / 4 := by
    have h5 : Real.log ((51 / 10 : ℝ) ^ 4) ≤ Real.log (10 ^ 3) := Real.log_le_log (by norm_num) (by norm_num)
    rw [Real.log_pow, Real.log_pow] at h5
    have h6 : 0 < Real.log 10 := Real.log_pos (by norm_num)
    rw [Real.logb, div_le_iff₀ h6]
    push_cast at h5
    linarith
  linarith

theorem le_logb {x : ℚ} {e : ℤ} (h : (10 : ℚ) ^ e ≤ x) : (e : ℝ) ≤ Real.logb 10 x := by
  have hp : (0 : ℚ) < 10 ^ e := zpow_pos (by norm_num) e
  have hx' : (0 : ℝ) < x := by exact_mod_cast hp.trans_le h
  have h1 := (Rat.cast_le (K := ℝ)).2 h
  push_cast at h1
  rwa [Real.le_logb_iff_rpow_le (by norm_num) hx', Real.rpow_intCast]

theorem LogNear.le (h : LogNear log) {x : ℚ} {e : ℤ} (he : |e| ≤ 1000) (hx : 0 < x) (hxe : x ≤ 51 / 10 * 10 ^ e) : log x ≤ e + 3 / 4 := by
  have := (h x hx).ge (d := ((4 * e + 3 : ℤ) : ℚ) / 4) (dbl_quarter (by
    rw [abs_le] at he ⊢
    constructor <;> norm_num <;> omega)) (by
    have := logb_le hx hxe
    push_cast
    linarith)
  push_cast at this
  linarith

theorem LogNear.ge (h : LogNear log) {x : ℚ} {e : ℤ} (he : |e| ≤ 1000) (hxe : (10 : ℚ) ^ e ≤ x) : (e : ℚ) ≤ log x := by
  have hp : (0 : ℚ) < 10 ^ e := zpow_pos (by norm_num) e
  refine (h x (hp.trans_le hxe)).le (dbl_int (by rw [abs_le] at he ⊢; constructor <;> norm_num <;> omega)) ?_
  have := le_logb hxe
  exact_mod_cast this

/-- The factor of the labels without exponent. -/
theorem truncLogD_small (h : LogNear log) {f : ℚ} (h1 : 1 / 200000 ≤ f) (h2 : f ≤ 200000) : ¬ |truncLogD log f| > 5 := by
  have u1 := h.le (x := f) (e := 5) (by norm_num) (by linarith) (by norm_num; linarith)
  have l1 : (-6 : ℚ) < log f := by
    have hf : 0 < f := by linarith
    have h3 := logb_le (x := f⁻¹) (e := 5) (inv_pos.2 hf) (by
      rw [inv_le_comm₀ hf (by norm_num)]
      norm_num at h1 ⊢
      linarith)
    have h4 := (h f hf).le (d := ((-23 : ℤ) : ℚ) / 4) (dbl_quarter (by norm_num)) (by
      push_cast at h3 ⊢
      rw [Real.logb_inv] at h3
      linarith)
    push_cast at h4
    linarith
  rw [gt_iff_lt, not_lt, abs_le, truncLogD]
  push_cast at u1
  split_ifs with h0
  · have : (⌊log f⌋ : ℤ) < 6 := by rw [Int.floor_lt]; push_cast; linarith
    have : 0 ≤ ⌊log f⌋ := Int.floor_nonneg.2 h0
    constructor <;> omega
  · have : -6 < ⌈log f⌉ := by rw [Int.lt_ceil]; push_cast; linarith
    have : ⌈log f⌉ ≤ 0 := by rw [Int.ceil_le]; push_cast; linarith
    constructor <;> omega

/-- The factor and the number belong together. -/
theorem makePrettyD_factor {lg : ℚ → ℤ} (hlg : LogOk lg) {v : ℚ} (h : 0 < v) (hv : Dbl v) (hr : InRange v) (hg : ¬ JustUnder lg v)
    (r : Bool) : ∃ m ∈ ([1, 2, 5, 10] : List ℚ), ∃ k : ℤ, Rel 30 (makePrettyD lg v r).1 (m * 10 ^ k) ∧ Rel 22 (makePrettyD lg v r).2 (10 ^ k) ∧
      ((makePrettyD lg v r).2 = fl (10 ^ k) ∨ 22 ≤ k) ∧ |k| ≤ 500 := by
  obtain ⟨-, ⟨k, h2, h3⟩, -, -⟩ := normaliseD_spec hlg h.ne' hv hr hg
  rw [makePrettyD_eq h.ne']
  simp only [copysign, if_neg (not_lt.2 h.le)]
  generalize (normaliseD v (fl ((10 : ℚ) ^ lg |v|))).1 = n at *
  generalize (normaliseD v (fl ((10 : ℚ) ^ lg |v|))).2 = f at *
  have hm := mem_pos (prettyNorm_mem r n)
  have hf := h2.pos (by norm_num)
  have rp := Rel.fl (show 0 < prettyNorm r n * f from mul_pos (by linarith) hf)
  refine ⟨_, prettyNorm_mem r n, k, ?_, h2, h3⟩
  rw [abs_of_pos (rp.pos (by norm_num))]
  exact (rp.trans (h2.mul_left (by linarith)) (by norm_num) (by norm_num)).mono (by norm_num)

theorem exponent_bounds {f : ℚ} {k : ℤ} (hf : Rel 22 f (10 ^ k)) (f1 : 1 / 200000 ≤ f) (f2 : f ≤ 200000) : -6 ≤ k ∧ k ≤ 5 := by
  have r := abs_le.1 hf.2
  constructor
  · by_contra hk
    have : (10 : ℚ) ^ k ≤ 10 ^ (-7 : ℤ) := zpow_le_zpow_right₀ (by norm_num) (by omega)
    norm_num at this r
    linarith
  · by_contra hk
    have : (10 : ℚ) ^ (6 : ℤ) ≤ 10 ^ k := zpow_le_zpow_right₀ (by norm_num) (by omega)
    norm_num at this r
    linarith

/-- Doubles next to an integer. -/
theorem dbl_far {q : ℚ} (hq : Dbl q) {k : ℤ} {t : ℕ} (ht : t ≤ 52) (hlow : (2 : ℚ) ^ t < |q|) (hne : q ≠ k) : 2 ^ t / 2 ^ 52 ≤ |q - k| := by
  obtain ⟨z, s, hz, rfl⟩ := hq
  have hs : (t : ℤ) - 52 ≤ s := by
    by_contra hs
    have h1 : (2 : ℚ) ^ s ≤ 2 ^ ((t : ℤ) - 53) := zpow_le_zpow_right₀ (by norm_num) (by omega)
    rw [abs_mul, abs_of_pos (zpow_pos (by norm_num : (0 : ℚ) < 2) s)] at hlow
    have hz' : |(z : ℚ)| ≤ 2 ^ 53 := by exact_mod_cast hz
    have h2 : |(z : ℚ)| * 2 ^ s ≤ 2 ^ 53 * 2 ^ ((t : ℤ) - 53) := mul_le_mul hz' h1 (zpow_pos (by norm_num) s).le (by norm_num)
    rw [zpow_sub₀ (by norm_num), zpow_natCast] at h2
    norm_num at h2
    linarith
  obtain ⟨n, hn⟩ := Int.eq_ofNat_of_zero_le (show 0 ≤ s - (t - 52) by omega)
  have hu : (0 : ℚ) < 2 ^ ((t : ℤ) - 52) := zpow_pos (by norm_num) _
  have e1 : (2 : ℚ) ^ s = 2 ^ n * 2 ^ ((t : ℤ) - 52) := by
    rw [← zpow_natCast (2 : ℚ) n, ← zpow_add₀ (by norm_num)]
    congr 1
    omega
  have e2 : (2 : ℚ) ^ t / 2 ^ 52 = 2 ^ ((t : ℤ) - 52) := by
    rw [zpow_sub₀ (by norm_num), zpow_natCast]
    norm_num
  have e3 : (k : ℚ) = ((k * 2 ^ (52 - t) : ℤ) : ℚ) * 2 ^ ((t : ℤ) - 52) := by
    push_cast
    rw [mul_assoc, ← zpow_natCast (2 : ℚ) (52 - t), ← zpow_add₀ (by norm_num), show ((52 - t : ℕ) : ℤ) + ((t : ℤ) - 52) = 0 by omega]
    simp
  have e4 : (z : ℚ) * 2 ^ s - k = ((z * 2 ^ n - k * 2 ^ (52 - t) : ℤ) : ℚ) * 2 ^ ((t : ℤ) - 52) := by
    rw [e1]
    conv_lhs => rw [e3]
    push_cast
    ring
  have h0 : z * 2 ^ n - k * 2 ^ (52 - t) ≠ 0 := by
    intro h0
    rw [h0, Int.cast_zero, zero_mul, sub_eq_zero] at e4
    exact hne e4
  rw [e4, abs_mul, abs_of_pos hu, e2]
  have : (1 : ℚ) ≤ |((z * 2 ^ n - k * 2 ^ (52 - t) : ℤ) : ℚ)| := by exact_mod_cast Int.one_le_abs h0
  nlinarith

/-- The logarithm of a number next to a power of ten. -/
theorem logb_near {K : ℕ} {f : ℚ} {k : ℤ} (h : Rel K f (10 ^ k)) (hK : K ≤ 1000) : |Real.logb 10 f - k| ≤ K / 2 ^ 54 := by
  have hf : (0 : ℝ) < f := by exact_mod_cast h.pos hK
  have hp : (0 : ℝ) < 10 ^ k := zpow_pos (by norm_num) k
  have h10 := log_ten
  have hK' : (K : ℝ) ≤ 1000 := by exact_mod_cast hK
  have hK0 : (0 : ℝ) ≤ K := by positivity
  have e : Real.logb 10 f - k = Real.log (f / 10 ^ k) / Real.log 10 := by
    rw [Real.log_div hf.ne' hp.ne', Real.log_zpow, Real.logb]
    field_simp
  have hr : |(f : ℝ) / 10 ^ k - 1| ≤ K / 2 ^ 53 := by
    have h1 := (Rat.cast_le (K := ℝ)).2 h.2
    push_cast at h1
    have : (f : ℝ) / 10 ^ k - 1 = (f - 10 ^ k) / 10 ^ k := by field_simp
    rw [this, abs_div, abs_of_pos hp, div_le_iff₀ hp]
    norm_num at h1 ⊢
    exact h1
  rw [e]
  have hy : (0 : ℝ) < f / 10 ^ k := div_pos hf hp
  generalize (f : ℝ) / 10 ^ k = y at *
  have u := Real.log_le_sub_one_of_pos hy
  have l := Real.one_sub_inv_le_log_of_pos hy
  rw [abs_le] at hr
  have yb : 1 / 2 ≤ y := by
    have : (K : ℝ) / 2 ^ 53 ≤ 1000 / 2 ^ 53 := div_le_div_of_nonneg_right hK' (by norm_num)
    norm_num at this hr ⊢
    linarith
  have yb' : 1 - 1 / 2 ^ 40 ≤ y := by
    have : (K : ℝ) / 2 ^ 53 ≤ 1000 / 2 ^ 53 := div_le_div_of_nonneg_right hK' (by norm_num)
    norm_num at this hr ⊢
    linarith
  have l2 : -(K / 2 ^ 53) * (11 / 10) ≤ Real.log y := by
    refine le_trans ?_ l
    have : 1 - y⁻¹ = (y - 1) / y := by field_simp
    rw [this, le_div_iff₀ hy]
    have k1 : (0 : ℝ) ≤ K / 2 ^ 53 := by positivity
    have : (1 : ℝ) ≤ 11 / 10 * y := by norm_num at yb' ⊢; linarith
    nlinarith [hr.1]
  rw [abs_le]
  have hl : 0 < Real.log 10 := by linarith
  rw [le_div_iff₀ hl, div_le_iff₀ hl]
  have k1 : (0 : ℝ) ≤ K / 2 ^ 54 := by positivity
  have k2 : (K : ℝ) / 2 ^ 53 = 2 * (K / 2 ^ 54) := by norm_num; ring
  rw [k2] at l2 hr
  constructor <;> nlinarith [hr.2]

/-- The rounded logarithm of a number next to a power of ten is the exponent. -/
theorem LogNear.eq (h : LogNear log) {K t : ℕ} {f : ℚ} {k : ℤ} (hf : Rel K f (10 ^ k)) (hk : |k| ≤ 1000) (ht : t ≤ 9)
    (hlow : 2 ^ t + 1 ≤ |k|) (hK : K ≤ 1000) (hKt : K < 2 * 2 ^ t) : log f = k := by
  have hn := h f (hf.pos hK)
  have h1 := logb_near hf hK
  have h2 := hn.2 k (dbl_int (by rw [abs_le] at hk ⊢; constructor <;> norm_num <;> omega))
  have h3 : |((log f - k : ℚ) : ℝ)| ≤ K / 2 ^ 53 := by
    push_cast at h2 ⊢
    have : (log f : ℝ) - k = (log f - Real.logb 10 f) + (Real.logb 10 f - k) := by ring
    rw [this]
    refine (abs_add_le _ _).trans ?_
    rw [abs_sub_comm (k : ℝ)] at h2
    norm_num at h1 ⊢
    linarith
  have h4 : |log f - k| ≤ K / 2 ^ 53 := by
    refine (Rat.cast_le (K := ℝ)).1 ?_
    push_cast at h3 ⊢
    exact h3
  have K1 : (K : ℚ) < 2 * 2 ^ t := by exact_mod_cast hKt
  have K2 : (K : ℚ) ≤ 1000 := by exact_mod_cast hK
  by_contra hne
  have h5 := dbl_far hn.1 (t := t) (by omega) (by
    have : (2 ^ t + 1 : ℚ) ≤ |(k : ℚ)| := by exact_mod_cast hlow
    have h6 := abs_sub_abs_le_abs_sub (k : ℚ) (log f)
    rw [abs_sub_comm] at h6
    norm_num at h4
    linarith) hne
  norm_num at h4 h5
  linarith

/-- The exponent of the factor. -/
theorem truncLogD_factor (h : LogNear log) {f : ℚ} {k : ℤ} (hf : Rel 22 f (10 ^ k)) (h1 : f = fl (10 ^ k) ∨ 22 ≤ k) (h2 : |k| ≤ 500)
    (hk : 6 ≤ |k|) : truncLogD log f = k := by
  have key : log f = k := by
    rcases h1 with h1 | h1
    · exact h.eq (K := 1) (t := 2) (by rw [h1]; exact Rel.fl (zpow_pos (by norm_num) _)) (by omega) (by norm_num) (by norm_num; omega) (by norm_num) (by norm_num)
    · exact h.eq (K := 22) (t := 4) hf (by omega) (by norm_num) (by rw [abs_of_nonneg (by omega)]; norm_num; omega) (by norm_num) (by norm_num)
  rw [truncLogD, key]
  simp

/-- The digits after the point are enough for the multiples of the division. -/
theorem precision_spec (h : LogNear log) {d m : ℚ} {k : ℤ} (hm : m ∈ ([1, 2, 5, 10] : List ℚ)) (hd : Rel 30 d (m * 10 ^ k))
    (kb : -6 ≤ k ∧ k ≤ 5) :
    ∃ Z : ℤ, m * 10 ^ k * 10 ^ max (-floorLog log d) 0 = Z ∧ 1 ≤ Z ∧ Z ≤ 5000000 := by
  -- ten is one with a larger exponent
  obtain ⟨m', k', hm', hk', e⟩ : ∃ m' k', m' ∈ ([1, 2, 5] : List ℤ) ∧ (-6 ≤ k' ∧ k' ≤ 6) ∧ m * 10 ^ k = (m' : ℚ) * 10 ^ (k' : ℤ) := by
    simp only [List.mem_cons, List.not_mem_nil, or_false] at hm
    rcases hm with rfl | rfl | rfl | rfl
    · exact ⟨1, k, by simp, by omega, by push_cast; rfl⟩
    · exact ⟨2, k, by simp, by omega, by push_cast; rfl⟩
    · exact ⟨5, k, by simp, by omega, by push_cast; rfl⟩
    · exact ⟨1, k + 1, by simp, by omega, by push_cast; rw [zpow_add_one₀ (by norm_num)]; ring⟩
  rw [e] at hd ⊢
  have hm1 : 1 ≤ m' ∧ m' ≤ 5 := by
    simp only [List.mem_cons, List.not_mem_nil, or_false] at hm'
    rcases hm' with rfl | rfl | rfl <;> norm_num
  have hm2 : (1 : ℚ) ≤ m' ∧ (m' : ℚ) ≤ 5 := ⟨by exact_mod_cast hm1.1, by exact_mod_cast hm1.2⟩
  have ht : (0 : ℚ) < 10 ^ k' := zpow_pos (by norm_num) _
  have r := abs_le.1 hd.2
  have p1 : (m' : ℚ) * 10 ^ k' ≤ 5 * 10 ^ k' := mul_le_mul_of_nonneg_right hm2.2 ht.le
  have p2 : 1 * (10 : ℚ) ^ k' ≤ m' * 10 ^ k' := mul_le_mul_of_nonneg_right hm2.1 ht.le
  have u : log d ≤ k' + 3 / 4 := h.le (by rw [abs_le]; constructor <;> omega) (hd.pos (by norm_num)) (by
    generalize (m' : ℚ) * 10 ^ k' = c at *
    norm_num at r ⊢
    linarith)
  have l : ((k' - 1 : ℤ) : ℚ) ≤ log d := h.ge (by rw [abs_le]; constructor <;> omega) (by
    rw [zpow_sub_one₀ (by norm_num)]
    generalize (m' : ℚ) * 10 ^ k' = c at *
    norm_num at r ⊢
    linarith)
  have lg1 : k' - 1 ≤ floorLog log d := Int.le_floor.2 l
  have lg2 : floorLog log d ≤ k' := by
    have : ⌊log d⌋ < k' + 1 := by rw [Int.floor_lt]; push_cast; linarith
    rw [floorLog]
    omega
  generalize floorLog log d = g at *
  obtain ⟨n, hn⟩ := Int.eq_ofNat_of_zero_le (show 0 ≤ k' + max (-g) 0 by omega)
  have hn6 : n ≤ 6 := by omega
  refine ⟨m' * 10 ^ n, ?_, ?_, ?_⟩
  · rw [mul_assoc, ← zpow_add₀ (by norm_num), hn]
    push_cast
    rw [zpow_natCast]
  · have : (1 : ℤ) ≤ 10 ^ n := one_le_pow₀ (by norm_num)
    nlinarith
  · have : (10 : ℤ) ^ n ≤ 10 ^ 6 := pow_le_pow_right₀ (by norm_num) hn6
    norm_num at this
    nlinarith

/-! ### Ticks -/

/-- The ticks are multiples of the division, up to rounding; zero is exact. -/
theorem rangeForD_ticks {lg : ℚ → ℤ} {low high d f : ℚ} (hd : 0 < d) (dd : Dbl d) (hlh : low ≤ high) (hl : |low| ≤ 2 ^ 20 * d)
    (hh : |high| ≤ 2 ^ 20 * d) {r : PrettyRange ℚ} (hr : rangeForD lg low high d f = some r) :
    ∃ n : ℤ, (0 ≤ low → 0 ≤ n) ∧ ∀ (k : ℕ) (hk : k < r.ticks.length), |r.ticks[k] - ((n + k : ℤ) : ℚ) * d| ≤ d / 2 ^ 28 ∧ |((n + k : ℤ) : ℚ)| ≤ 2 ^ 23 ∧
      (n + k = 0 → r.ticks[k] = 0) := by
  obtain ⟨-, hlen⟩ := rangeForD_even hd dd hlh (hl.trans (mul_le_mul_of_nonneg_right (by norm_num) hd.le))
    (hh.trans (mul_le_mul_of_nonneg_right (by norm_num) hd.le)) hr
  rw [rangeForD, if_neg hd.ne', if_neg (not_lt.2 hd.le), Option.some.injEq] at hr
  subst hr
  have f1 := Int.floor_le (fl (low / d))
  have f2 := Int.lt_floor_add_one (fl (low / d))
  have c1 := Int.le_ceil (fl (high / d))
  have c2 := Int.ceil_lt_add_one (fl (high / d))
  obtain ⟨a1, -, a3⟩ := end_near (x := low) hd ⌊fl (low / d)⌋ (by rw [abs_le]; constructor <;> linarith)
  obtain ⟨-, -, b3⟩ := end_near (x := high) hd ⌈fl (high / d)⌉ (by rw [abs_le]; constructor <;> linarith)
  have hN : ⌊fl (low / d)⌋ ≤ ⌈fl (high / d)⌉ := by
    have := fl_mono (div_le_div_of_nonneg_right hlh hd.le)
    exact_mod_cast f1.trans (this.trans c1)
  clear f1 f2 c1 c2
  refine ⟨⌊fl (low / d)⌋, fun h0 => ?_, fun k hk => ?_⟩
  · have := fl_mono (div_nonneg h0 hd.le)
    rw [fl_zero] at this
    exact Int.floor_nonneg.2 this
  rw [getElem_arangeD]
  have hk' : (k : ℤ) ≤ ⌈fl (high / d)⌉ - ⌊fl (low / d)⌋ := by
    rw [hlen] at hk
    omega
  have hkd : (k : ℚ) * d ≤ (⌈fl (high / d)⌉ : ℚ) * d - (⌊fl (low / d)⌋ : ℚ) * d := by
    rw [← sub_mul]
    exact mul_le_mul_of_nonneg_right (by exact_mod_cast hk') hd.le
  have hz : ⌊fl (low / d)⌋ + (k : ℤ) = 0 → fl (fl ((⌊fl (low / d)⌋ : ℚ) * d) + fl ((k : ℚ) * d)) = 0 := by
    intro h0
    have : (k : ℚ) = -(⌊fl (low / d)⌋ : ℚ) := by
      have : (k : ℤ) = -⌊fl (low / d)⌋ := by omega
      exact_mod_cast this
    rw [this, neg_mul, fl_neg, add_neg_cancel, fl_zero]
  refine (and_assoc.1 ⟨?_, hz⟩)
  push_cast
  have k0 : 0 ≤ (k : ℚ) * d := by positivity
  have hb : |((⌊fl (low / d)⌋ : ℚ) + k) * d| ≤ 2 ^ 23 * d := by
    rw [add_mul]
    generalize (⌊fl (low / d)⌋ : ℚ) * d = A at *
    generalize (⌈fl (high / d)⌉ : ℚ) * d = C at *
    rw [abs_le] at a3 b3 ⊢
    norm_num at a3 b3 hl hh ⊢
    constructor <;> linarith
  refine ⟨?_, ?_⟩
  · rw [add_mul]
    have e1 : |fl ((⌊fl (low / d)⌋ : ℚ) * d) - (⌊fl (low / d)⌋ : ℚ) * d| ≤ d / 2 ^ 31 := by
      refine a1.trans ?_
      norm_num at hl ⊢
      linarith
    generalize fl ((⌊fl (low / d)⌋ : ℚ) * d) = gmin at *
    generalize (⌊fl (low / d)⌋ : ℚ) * d = A at *
    generalize (⌈fl (high / d)⌉ : ℚ) * d = C at *
    have A1 : |A| ≤ 2 ^ 21 * d := by norm_num at hl a3 ⊢; linarith
    have C1 : |C| ≤ 2 ^ 21 * d := by norm_num at hh b3 ⊢; linarith
    rw [abs_le] at e1 A1 C1
    have k1 : |(k : ℚ) * d| ≤ 2 ^ 22 * d := by
      rw [abs_of_nonneg k0]
      norm_num at A1 C1 ⊢
      linarith
    have k4 := abs_le.1 (fl_abs k1)
    rw [abs_of_nonneg k0] at k1
    have k5 : |fl (gmin + fl ((k : ℚ) * d)) - (gmin + fl ((k : ℚ) * d))| ≤ 2 ^ 24 * d / 2 ^ 53 := by
      refine fl_abs ?_
      rw [abs_le]
      norm_num at e1 A1 k1 k4 ⊢
      constructor <;> linarith
    rw [abs_le] at k5 ⊢
    norm_num at e1 k4 k5 ⊢
    constructor <;> linarith
  · rw [abs_mul, abs_of_pos hd] at hb
    exact le_of_mul_le_mul_right hb hd

theorem round_of_near {x : ℚ} {z : ℤ} (h : |x - z| < 1 / 2) : roundHalfEven x = z := by
  have h1 := abs_le.1 (roundHalfEven_near x)
  have h2 := abs_lt.1 h
  have h3 : ((roundHalfEven x - z : ℤ) : ℚ) < 1 := by push_cast; linarith
  have h4 : (-1 : ℚ) < ((roundHalfEven x - z : ℤ) : ℚ) := by push_cast; linarith
  have h5 : roundHalfEven x - z < 1 := by exact_mod_cast h3
  have h6 : -1 < roundHalfEven x - z := by exact_mod_cast h4
  omega

/-- A number next to a multiple of `c` is formatted as the multiple. -/
theorem formatFD_near {p : ℤ} {v c : ℚ} {j Z : ℤ} (hc : 0 < c) (hZ : c * 10 ^ p = Z) (h1 : 1 ≤ Z) (h2 : Z ≤ 5000000)
    (hv : |v - j * c| ≤ c / 2 ^ 24) (h0 : j = 0 → v = 0) :
    (formatFD p v).read = (j : ℚ) * c ∧ ((formatFD p v).digits = 0 → (formatFD p v).negative = false) ∧
      (formatFD p v).places = p ∧ (formatFD p v).exponent = none := by
  have hp : (0 : ℚ) < 10 ^ p := zpow_pos (by norm_num) _
  have hc' : c = Z / 10 ^ p := by rw [← hZ]; field_simp
  have hZ1 : (1 : ℚ) ≤ Z := by exact_mod_cast h1
  have hZ2 : (Z : ℚ) ≤ 5000000 := by exact_mod_cast h2
  have near : |v * 10 ^ p - ((j * Z : ℤ) : ℚ)| < 1 / 2 := by
    have : v * 10 ^ p - ((j * Z : ℤ) : ℚ) = (v - j * c) * 10 ^ p := by
      push_cast
      rw [← hZ]
      ring
    rw [this, abs_mul, abs_of_pos hp]
    have := mul_le_mul_of_nonneg_right hv hp.le
    rw [div_mul_eq_mul_div, hZ] at this
    norm_num at this ⊢
    linarith
  have vb := abs_le.1 hv
  simp only [formatFD, Label.read, Option.getD_none, zero_sub, zpow_neg, and_true]
  rcases lt_trichotomy j 0 with hj | hj | hj
  · have hj' : (j : ℚ) ≤ -1 := by exact_mod_cast (by omega : j ≤ -1)
    have hneg : v < 0 := by
      have := mul_le_mul_of_nonneg_right hj' hc.le
      norm_num at vb
      linarith
    have hr : roundHalfEven (|v| * 10 ^ p) = -(j * Z) := by
      refine round_of_near ?_
      rw [abs_of_neg hneg]
      push_cast
      push_cast at near
      rw [show -v * 10 ^ p - -((j : ℚ) * Z) = -(v * 10 ^ p - j * Z) by ring, abs_neg]
      exact near
    rw [hr]
    simp only [hneg, decide_true, if_true]
    refine ⟨?_, fun h => ?_⟩
    · push_cast
      rw [hc']
      ring
    · have : 0 < -(j * Z) := by nlinarith
      omega
  · subst hj
    rw [h0 rfl]
    have : roundHalfEven (|(0 : ℚ)| * 10 ^ p) = 0 := round_of_near (by simp)
    rw [this]
    simp
  · have hj' : (1 : ℚ) ≤ j := by exact_mod_cast hj
    have hpos : 0 < v := by
      have := mul_le_mul_of_nonneg_right hj' hc.le
      norm_num at vb
      linarith
    have hr : roundHalfEven (|v| * 10 ^ p) = j * Z := by
      refine round_of_near ?_
      rw [abs_of_pos hpos]
      exact near
    rw [hr]
    simp only [not_lt.2 hpos.le, decide_false, Bool.false_eq_true, if_false, implies_true, and_true]
    push_cast
    rw [hc']
    ring

/-- The same with an exponent. -/
theorem formatED_near {p k : ℤ} {v : ℚ} {j m : ℤ} (m1 : 1 ≤ m) (m2 : m ≤ 10) (hj : 1 ≤ j) (hv : |v - j * (m * 10 ^ k)| ≤ m * 10 ^ k / 2 ^ 24)
    (p0 : 0 ≤ p) (p1 : Int.log 10 v ≤ k + p) (p2 : k + p ≤ Int.log 10 v + 2) :
    (formatED p v).read = (j : ℚ) * (m * 10 ^ k) ∧ (formatED p v).negative = false := by
  have hk : (0 : ℚ) < 10 ^ k := zpow_pos (by norm_num) _
  have hm1 : (1 : ℚ) ≤ m := by exact_mod_cast m1
  have hm2 : (m : ℚ) ≤ 10 := by exact_mod_cast m2
  have hj' : (1 : ℚ) ≤ j := by exact_mod_cast hj
  have hc : (0 : ℚ) < m * 10 ^ k := mul_pos (by linarith) hk
  have vb := abs_le.1 hv
  have hpos : 0 < v := by
    have := mul_le_mul_of_nonneg_right hj' hc.le
    norm_num at vb
    linarith
  have hb := Int.lt_zpow_succ_log_self (b := 10) (by norm_num) v
  push_cast at hb
  rw [formatED]
  simp only [hpos.ne', if_false, abs_of_pos hpos]
  generalize Int.log 10 v = e at *
  have hq : (0 : ℚ) < 10 ^ (p - e) := zpow_pos (by norm_num) _
  obtain ⟨n, hn⟩ := Int.eq_ofNat_of_zero_le (show 0 ≤ k + (p - e) by omega)
  have hn2 : n ≤ 2 := by omega
  have hcq : (m : ℚ) * 10 ^ k * 10 ^ (p - e) = ((m * 10 ^ n : ℤ) : ℚ) := by
    rw [mul_assoc, ← zpow_add₀ (by norm_num), hn]
    push_cast
    rw [zpow_natCast]
  have hZ : m * 10 ^ n ≤ 1000 := by
    have : (10 : ℤ) ^ n ≤ 10 ^ 2 := pow_le_pow_right₀ (by norm_num) hn2
    norm_num at this
    have : (0 : ℤ) < 10 ^ n := by positivity
    nlinarith
  have hZ' : ((m * 10 ^ n : ℤ) : ℚ) ≤ 1000 := by exact_mod_cast hZ
  have near : |v * 10 ^ (p - e) - ((j * (m * 10 ^ n) : ℤ) : ℚ)| < 1 / 2 := by
    have : v * 10 ^ (p - e) - ((j * (m * 10 ^ n) : ℤ) : ℚ) = (v - j * (m * 10 ^ k)) * 10 ^ (p - e) := by
      rw [Int.cast_mul, ← hcq]
      ring
    rw [this, abs_mul, abs_of_pos hq]
    have := mul_le_mul_of_nonneg_right hv hq.le
    rw [div_mul_eq_mul_div, hcq] at this
    generalize ((m * 10 ^ n : ℤ) : ℚ) = Z at *
    norm_num at this ⊢
    linarith
  rw [round_of_near near]
  have back : ((j * (m * 10 ^ n) : ℤ) : ℚ) * 10 ^ (e - p) = (j : ℚ) * (m * 10 ^ k) := by
    rw [Int.cast_mul, ← hcq, mul_assoc (j : ℚ), mul_assoc ((m : ℚ) * 10 ^ k), ← zpow_add₀ (by norm_num)]
    simp
  split_ifs with hbig
  · -- digits that make a power of ten
    have lt : v * 10 ^ (p - e) < 10 ^ (p + 1) := by
      have := mul_lt_mul_of_pos_right hb hq
      rw [← zpow_add₀ (by norm_num)] at this
      rwa [show e + 1 + (p - e) = p + 1 by ring] at this
    obtain ⟨N, hN⟩ := Int.eq_ofNat_of_zero_le p0
    have e1 : (10 : ℚ) ^ (p + 1) = ((10 ^ (N + 1) : ℤ) : ℚ) := by
      rw [hN]
      push_cast
      exact_mod_cast zpow_natCast (10 : ℚ) (N + 1)
    have e2 : (10 : ℚ) ^ p = ((10 ^ N : ℤ) : ℚ) := by
      rw [hN]
      push_cast
      exact_mod_cast zpow_natCast (10 : ℚ) N
    have ej : j * (m * 10 ^ n) = 10 ^ (N + 1) := by
      rw [e1] at hbig lt
      have h1 : 10 ^ (N + 1) ≤ j * (m * 10 ^ n) := by exact_mod_cast hbig
      have h2 : ((j * (m * 10 ^ n) : ℤ) : ℚ) < ((10 ^ (N + 1) + 1 : ℤ) : ℚ) := by
        have := (abs_lt.1 near).1
        push_cast at this lt ⊢
        linarith
      have h3 : j * (m * 10 ^ n) < 10 ^ (N + 1) + 1 := by exact_mod_cast h2
      omega
    rw [ej, ← e1, ← zpow_add₀ (by norm_num)] at back
    refine ⟨?_, by simp [hpos.le]⟩
    rw [e2, round_of_near (z := 10 ^ N) (by simp), Label.read]
    simp only [not_lt.2 hpos.le, decide_false, Bool.false_eq_true, if_false, Option.getD_some, one_mul]
    rw [← e2, ← zpow_add₀ (by norm_num), ← back]
    congr 1
    ring
  · refine ⟨?_, by simp [hpos.le]⟩
    rw [Label.read]
    simp only [not_lt.2 hpos.le, decide_false, Bool.false_eq_true, if_false, Option.getD_some, one_mul]
    exact back

theorem formatED_zero {p : ℤ} : (formatED p 0).read = (0 : ℚ) ∧ (formatED p 0).negative = false := by
  have h1 : roundHalfEven 0 = 0 := round_of_near (by simp)
  have : ¬ (10 : ℚ) ^ (p + 1) ≤ 0 := not_le.2 (ten_pos _)
  simp [formatED, Label.read, h1, this]

theorem le_truncLogD (h : LogNear log) {v : ℚ} (hv : 0 < v) (hr : |Int.log 10 v| ≤ 900) :
    Int.log 10 v ≤ truncLogD log v ∧ truncLogD log v ≤ Int.log 10 v + 1 := by
  have b1 := Int.zpow_log_le_self (b := 10) (by norm_num) hv
  push_cast at b1
  have l := h.ge (by omega) b1
  have u : log v ≤ Int.log 10 v + 1 := by
    have := (h v hv).ge (dbl_int (z := Int.log 10 v + 1) (by rw [abs_le] at hr ⊢; constructor <;> norm_num <;> omega)) (by
      exact_mod_cast (logb_bounds hv).2.le)
    push_cast at this
    exact this
  rw [truncLogD]
  split_ifs with h0
  · refine ⟨Int.le_floor.2 l, ?_⟩
    have : (⌊log v⌋ : ℚ) ≤ ((Int.log 10 v + 1 : ℤ) : ℚ) := by push_cast; exact (Int.floor_le _).trans u
    exact_mod_cast this
  · refine ⟨?_, Int.ceil_le.2 (by push_cast; exact u)⟩
    have : ((Int.log 10 v : ℤ) : ℚ) ≤ (⌈log v⌉ : ℚ) := l.trans (Int.le_ceil _)
    exact_mod_cast this

/-! ### C135 -/

/-- C135: unless a number is just under a power of ten, with data at most 2^20 divisions away from zero, and either a factor from 1/200000 to
200000 or no negative data, the labels of a linear ticker say consecutive multiples of exactly 1, 2, 5 or 10 times a power of ten, each tick
is next to what its label says, labels are different, and there is no `-0`. -/
theorem C135_labels_partial (hlog : LogNear log) (a b : ℚ) (hab : a ≠ b) (ticks : ℤ) (ht : 2 ≤ ticks)
    (h1 : InRange (fl (max a b - min a b)) ∧ ¬ JustUnder (floorLog log) (fl (max a b - min a b)))
    (h2 : let u := fl ((makePrettyD (floorLog log) (fl (max a b - min a b)) false).1 / fl ((ticks : ℚ) - 1)); InRange u ∧ ¬ JustUnder (floorLog log) u) :
    ∃ r, prettyRangeD (floorLog log) a b ticks = some r ∧
      ((1 / 200000 ≤ r.factor10 ∧ r.factor10 ≤ 200000) ∨ 0 ≤ min a b → |a| ≤ 2 ^ 20 * r.division → |b| ≤ 2 ^ 20 * r.division →
        ∃ (c : ℚ) (n : ℤ), IsPretty c ∧
          (linearLabelsD log r).map (fun l : Label => (l.read : ℚ)) = (List.range r.ticks.length).map (fun i : ℕ => ((n + i : ℤ) : ℚ) * c) ∧
          (∀ (i : ℕ) (h : i < r.ticks.length), |r.ticks[i] - ((n + i : ℤ) : ℚ) * c| ≤ c / 2 ^ 24) ∧
          (linearLabelsD log r).Nodup ∧ ∀ l ∈ linearLabelsD log r, l.digits = 0 → l.negative = false) := by
  have hlg := hlog.ok
  have hlt : min a b < max a b := by
    rw [min_lt_max]
    exact hab
  have w0 : 0 < fl (max a b - min a b) := fl_pos (by linarith)
  obtain ⟨-, p1, -⟩ := C134_number_partial hlg _ w0.ne' (fl_dbl _) h1.1 h1.2 false
  have t1 : (1 : ℚ) ≤ (ticks : ℚ) - 1 := by
    have : (2 : ℚ) ≤ ticks := by exact_mod_cast ht
    linarith
  have u0 : 0 < fl ((makePrettyD (floorLog log) (fl (max a b - min a b)) false).1 / fl ((ticks : ℚ) - 1)) :=
    fl_pos (div_pos (p1.2 w0) (fl_pos (by linarith)))
  obtain ⟨m, hm, k, rd, rf, rf', hk⟩ := makePrettyD_factor hlg u0 (fl_dbl _) h2.1 h2.2 true
  have d0 := rd.pos (by norm_num)
  have dd : Dbl (makePrettyD (floorLog log) (fl ((makePrettyD (floorLog log) (fl (max a b - min a b)) false).1 / fl ((ticks : ℚ) - 1))) true).1 := by
    rw [makePrettyD_eq u0.ne', copysign, if_neg (not_lt.2 u0.le)]
    exact dbl_abs (fl_dbl _)
  have hr : prettyRangeD (floorLog log) a b ticks = rangeForD (floorLog log) (min a b) (max a b)
      (makePrettyD (floorLog log) (fl ((makePrettyD (floorLog log) (fl (max a b - min a b)) false).1 / fl ((ticks : ℚ) - 1))) true).1
      (makePrettyD (floorLog log) (fl ((makePrettyD (floorLog log) (fl (max a b - min a b)) false).1 / fl ((ticks : ℚ) - 1))) true).2 := by
    rw [prettyRangeD]
    simp only [if_neg hlt.ne', if_neg (show ticks ≠ 1 by omega)]
  clear h2 u0 p1
  generalize (makePrettyD (floorLog log) _ true).2 = f at *
  generalize (makePrettyD (floorLog log) _ true).1 = d at *
  obtain ⟨r, e, hrd, -⟩ := rangeForD_covers (lg := floorLog log) (low := min a b) (high := max a b) (f := f) d0
  have hrf : r.factor10 = f ∧ r.precision = max (-floorLog log d) 0 := by
    rw [rangeForD, if_neg d0.ne', if_neg (not_lt.2 d0.le), Option.some.injEq] at e
    subst e
    exact ⟨rfl, rfl⟩
  refine ⟨r, by rw [hr, e], fun hcase l1 l2 => ?_⟩
  rw [hrd] at l1 l2
  rw [hrf.1] at hcase
  have l3 : |min a b| ≤ 2 ^ 20 * d := by rcases min_choice a b with h | h <;> rw [h] <;> assumption
  have l4 : |max a b| ≤ 2 ^ 20 * d := by rcases max_choice a b with h | h <;> rw [h] <;> assumption
  obtain ⟨n, n0, hn⟩ := rangeForD_ticks d0 dd hlt.le l3 l4 e
  have hc := rd.1
  have near : ∀ (i : ℕ) (h : i < r.ticks.length), |r.ticks[i] - ((n + i : ℤ) : ℚ) * (m * 10 ^ k)| ≤ m * 10 ^ k / 2 ^ 24 := by
    intro i hi
    obtain ⟨e1, e2, -⟩ := hn i hi
    have e3 := rd.2
    generalize ((n + i : ℤ) : ℚ) = j at *
    generalize m * 10 ^ k = c at *
    have e4 : |j * (d - c)| ≤ 2 ^ 23 * (((30 : ℕ) : ℚ) / 2 ^ 53 * c) := by
      rw [abs_mul]
      exact mul_le_mul e2 e3 (abs_nonneg _) (by norm_num)
    have e5 : r.ticks[i] - j * c = (r.ticks[i] - j * d) + j * (d - c) := by ring
    rw [e5]
    refine (abs_add_le _ _).trans ?_
    have e6 := (abs_le.1 e3).2
    norm_num at e1 e4 e6 ⊢
    linarith
  have f0 : f > 0 := rf.pos (by norm_num)
  have fmt : ∀ (i : ℕ) (h : i < r.ticks.length),
      (niceLabelD log r.ticks[i] r.precision r.factor10).read = ((n + i : ℤ) : ℚ) * (m * 10 ^ k) ∧
        ((niceLabelD log r.ticks[i] r.precision r.factor10).digits = 0 → (niceLabelD log r.ticks[i] r.precision r.factor10).negative = false) := by
    intro i hi
    rw [niceLabelD, hrf.1]
    simp only [if_pos f0]
    by_cases h5 : |truncLogD log f| > 5
    · rw [if_pos h5]
      have hpos : 0 ≤ min a b := by
        rcases hcase with hcase | hcase
        · exact absurd h5 (truncLogD_small hlog hcase.1 hcase.2)
        · exact hcase
      have hk6 : 6 ≤ |k| := by
        by_contra hlt6
        have kb : -5 ≤ k ∧ k ≤ 5 := by rw [← abs_le]; omega
        have z1 : (10 : ℚ) ^ (-5 : ℤ) ≤ 10 ^ k := zpow_le_zpow_right₀ (by norm_num) kb.1
        have z2 : (10 : ℚ) ^ k ≤ 10 ^ (5 : ℤ) := zpow_le_zpow_right₀ (by norm_num) kb.2
        have z3 := abs_le.1 rf.2
        refine truncLogD_small hlog ?_ ?_ h5 <;> norm_num at z1 z2 z3 ⊢ <;> linarith
      rw [truncLogD_factor hlog rf rf' hk hk6] at h5 ⊢
      have hj0 : 0 ≤ n + (i : ℤ) := by have := n0 hpos; omega
      rcases hj0.eq_or_lt with hj | hj
      · rw [(hn i hi).2.2 hj.symm, ← hj]
        simp [formatED_zero]
      · obtain ⟨mi, rfl, mi1, mi2⟩ : ∃ mi : ℤ, m = mi ∧ 1 ≤ mi ∧ mi ≤ 10 := by
          simp only [List.mem_cons, List.not_mem_nil, or_false] at hm
          rcases hm with rfl | rfl | rfl | rfl
          exacts [⟨1, by norm_num, by norm_num, by norm_num⟩, ⟨2, by norm_num, by norm_num, by norm_num⟩,
            ⟨5, by norm_num, by norm_num, by norm_num⟩, ⟨10, by norm_num, by norm_num, by norm_num⟩]
        have hnear := near i hi
        have hbound := (abs_le.1 (hn i hi).2.1).2
        generalize r.ticks[i] = v at *
        generalize n + (i : ℤ) = j at *
        have hp : (0 : ℚ) < 10 ^ k := zpow_pos (by norm_num) _
        have c1 : 1 * (10 : ℚ) ^ k ≤ mi * 10 ^ k := mul_le_mul_of_nonneg_right (by exact_mod_cast mi1) hp.le
        have c2 : (mi : ℚ) * 10 ^ k ≤ 10 * 10 ^ k := mul_le_mul_of_nonneg_right (by exact_mod_cast mi2) hp.le
        have j1 : 1 * ((mi : ℚ) * 10 ^ k) ≤ j * (mi * 10 ^ k) := mul_le_mul_of_nonneg_right (by exact_mod_cast hj) hc.le
        have j2 : (j : ℚ) * (mi * 10 ^ k) ≤ 2 ^ 23 * (mi * 10 ^ k) := mul_le_mul_of_nonneg_right hbound hc.le
        have vb := abs_le.1 hnear
        have v1 : (10 : ℚ) ^ (k - 1) ≤ v := by
          rw [zpow_sub_one₀ (by norm_num)]
          norm_num at vb ⊢
          linarith
        have v2 : v < 10 ^ (k + 10) := by
          rw [zpow_add₀ (by norm_num)]
          norm_num at vb j2 ⊢
          linarith
        have hv : 0 < v := (zpow_pos (by norm_num) _).trans_le v1
        have lo : k - 1 ≤ Int.log 10 v := by
          rw [← Int.zpow_le_iff_le_log (by norm_num) hv]
          exact_mod_cast v1
        have hi' : Int.log 10 v < k + 10 := by
          rw [← Int.lt_zpow_iff_log_lt (by norm_num) hv]
          exact_mod_cast v2
        have hk' := abs_le.1 hk
        obtain ⟨q1, q2⟩ := le_truncLogD hlog hv (by rw [abs_le]; constructor <;> omega)
        rw [if_pos hv]
        have := formatED_near (p := max 0 (truncLogD log v - k)) mi1 mi2 (show 1 ≤ j by omega) hnear (by omega) (by omega) (by omega)
        exact ⟨this.1, fun _ => this.2⟩
    · rw [if_neg h5]
      have kb : -6 ≤ k ∧ k ≤ 5 := by
        by_contra hkb
        have hk6 : 6 ≤ |k| := by
          rcases abs_cases k with ⟨h, h'⟩ | ⟨h, h'⟩ <;> omega
        rw [truncLogD_factor hlog rf rf' hk hk6] at h5
        omega
      obtain ⟨Z, hZ, Z1, Z2⟩ := precision_spec hlog hm rd kb
      have := formatFD_near (p := r.precision) (j := n + i) hc (by rw [hrf.2]; exact hZ) Z1 Z2 (near i hi) (hn i hi).2.2
      exact ⟨this.1, this.2.1⟩
  have hmap : (linearLabelsD log r).map (fun l : Label => (l.read : ℚ)) =
      (List.range r.ticks.length).map (fun i : ℕ => ((n + i : ℤ) : ℚ) * (m * 10 ^ k)) := by
    refine List.ext_getElem (by simp [linearLabelsD]) fun i i1 i2 => ?_
    simp only [linearLabelsD, List.getElem_map, List.getElem_range]
    have hi : i < r.ticks.length := by simpa [linearLabelsD] using i1
    exact (fmt i hi).1
  refine ⟨m * 10 ^ k, n, ⟨m, hm, k, rfl⟩, hmap, near, List.Nodup.of_map (fun l : Label => (l.read : ℚ)) ?_, ?_⟩
  · rw [hmap]
    refine List.nodup_range.map fun x y hxy => ?_
    have := mul_right_cancel₀ hc.ne' hxy
    have : n + (x : ℤ) = n + (y : ℤ) := by exact_mod_cast this
    omega
  · intro l hl
    rw [linearLabelsD, List.mem_map] at hl
    obtain ⟨v, hv, rfl⟩ := hl
    obtain ⟨i, hi, rfl⟩ := List.mem_iff_getElem.1 hv
    exact (fmt i hi).2

/-- C135, counterexample: the only label of a linear ticker from 0.2 to 0.3 is 0. -/
theorem C135_counterexample (hlog : LogNear log) (ticks : ℤ) (ht : 2 ≤ ticks) :
    ∃ r, prettyRangeD (floorLog log) (fl (2 / 10)) (fl (3 / 10)) ticks = some r ∧ linearLabelsD log r = [⟨false, 0, 0, none⟩] := by
  refine ⟨_, C134_counterexample_range hlog.ok ticks ht, ?_⟩
  have : roundHalfEven 0 = 0 := round_of_near (by simp)
  simp [linearLabelsD, niceLabelD, formatFD, this]

theorem floorLog_eq (h : LogNear log) {x : ℚ} {e : ℤ} (he : |e| ≤ 1000) (h1 : (10 : ℚ) ^ e ≤ x) (h2 : x ≤ 51 / 10 * 10 ^ e) :
    floorLog log x = e := by
  have l := h.ge he h1
  have u := h.le he ((zpow_pos (by norm_num) e).trans_le h1) h2
  rw [floorLog, Int.floor_eq_iff]
  exact ⟨l, by linarith⟩

/-- The ticker from -1 to 1: the ticks, and the labels -1.0, -0.5, 0.0, 0.5, 1.0. -/
example (hlog : LogNear log) : ∃ r, prettyRangeD (floorLog log) (-1) 1 5 = some r ∧ r.ticks = [-1, -1 / 2, 0, 1 / 2, 1] ∧
    linearLabelsD log r = [⟨true, 10, 1, none⟩, ⟨true, 5, 1, none⟩, ⟨false, 0, 1, none⟩, ⟨false, 5, 1, none⟩, ⟨false, 10, 1, none⟩] := by
  have g1 : floorLog log 2 = 0 := floorLog_eq hlog (by norm_num) (by norm_num) (by norm_num)
  have g2 : floorLog log (1 / 2) = -1 := floorLog_eq hlog (by norm_num) (by norm_num) (by norm_num)
  have a1 : makePrettyD (floorLog log) 2 false = (2, 1) := by
    rw [makePrettyD_eq (by norm_num), abs_of_pos (by norm_num), g1]
    decide +kernel
  have a2 : makePrettyD (floorLog log) (1 / 2) true = (1 / 2, fl (1 / 10)) := by
    rw [makePrettyD_eq (by norm_num), abs_of_pos (by norm_num), g2]
    decide +kernel
  have e1 : fl (max (-1) 1 - min (-1) 1) = 2 := by decide +kernel
  have e2 : fl (2 / fl (((5 : ℤ) : ℚ) - 1)) = 1 / 2 := by decide +kernel
  have e3 : ∀ p : ℤ, rangeForD (fun _ => p) (-1) 1 (1 / 2) (fl (1 / 10)) =
      some ⟨-1, 1, [-1, -1 / 2, 0, 1 / 2, 1], 1 / 2, max (-p) 0, fl (1 / 10)⟩ := by
    intro p
    have z1 : ¬ (1 / 2 : ℚ) = 0 := by norm_num
    have z2 : ¬ (1 / 2 : ℚ) < 0 := by norm_num
    rw [rangeForD, if_neg z1, if_neg z2]
    simp only [Option.some.injEq, PrettyRange.mk.injEq, and_true]
    decide +kernel
  have e4 : rangeForD (floorLog log) (-1) 1 (1 / 2) (fl (1 / 10)) = rangeForD (fun _ => floorLog log (1 / 2)) (-1) 1 (1 / 2) (fl (1 / 10)) := rfl
  have hr : prettyRangeD (floorLog log) (-1) 1 5 = some ⟨-1, 1, [-1, -1 / 2, 0, 1 / 2, 1], 1 / 2, 1, fl (1 / 10)⟩ := by
    rw [prettyRangeD]
    simp only [e1, a1, e2, a2]
    rw [if_neg (by norm_num), if_neg (by norm_num), show min (-1 : ℚ) 1 = -1 by norm_num, show max (-1 : ℚ) 1 = 1 by norm_num, e4, e3, g2]
    norm_num
  refine ⟨_, hr, rfl, ?_⟩
  have f0 : fl (1 / 10) > 0 := fl_pos (by norm_num)
  have f1 : 1 / 200000 ≤ fl (1 / 10) ∧ fl (1 / 10) ≤ 200000 := by decide +kernel
  have lab : ∀ v, niceLabelD log v 1 (fl (1 / 10)) = formatFD 1 v := by
    intro v
    rw [niceLabelD]
    simp only [if_pos f0, if_neg (truncLogD_small hlog f1.1 f1.2)]
  simp only [linearLabelsD, List.map_cons, List.map_nil, lab]
  decide +kernel

/-- C135, counterexample: as in C89, negative ticks with a large factor have one label. -/
theorem C135_counterexample_negative (hlog : LogNear log) :
    ∃ r, prettyRangeD (floorLog log) (-120000000) (-100000000) 5 = some r ∧
      r.ticks = [-120000000, -115000000, -110000000, -105000000, -100000000] ∧ linearLabelsD log r = List.replicate 5 ⟨true, 1, 0, some 8⟩ := by
  have g1 : floorLog log 20000000 = 7 := floorLog_eq hlog (by norm_num) (by norm_num) (by norm_num)
  have g2 : floorLog log 5000000 = 6 := floorLog_eq hlog (by norm_num) (by norm_num) (by norm_num)
  have a1 : makePrettyD (floorLog log) 20000000 false = (20000000, 10000000) := by
    rw [makePrettyD_eq (by norm_num), abs_of_pos (by norm_num), g1]
    decide +kernel
  have a2 : makePrettyD (floorLog log) 5000000 true = (5000000, 1000000) := by
    rw [makePrettyD_eq (by norm_num), abs_of_pos (by norm_num), g2]
    decide +kernel
  have e1 : fl (max (-120000000) (-100000000) - min (-120000000) (-100000000)) = 20000000 := by decide +kernel
  have e2 : fl (20000000 / fl (((5 : ℤ) : ℚ) - 1)) = 5000000 := by decide +kernel
  have e3 : ∀ p : ℤ, rangeForD (fun _ => p) (-120000000) (-100000000) 5000000 1000000 =
      some ⟨-120000000, -100000000, [-120000000, -115000000, -110000000, -105000000, -100000000], 5000000, max (-p) 0, 1000000⟩ := by
    intro p
    have z1 : ¬ (5000000 : ℚ) = 0 := by norm_num
    have z2 : ¬ (5000000 : ℚ) < 0 := by norm_num
    rw [rangeForD, if_neg z1, if_neg z2]
    simp only [Option.some.injEq, PrettyRange.mk.injEq, and_true]
    decide +kernel
  have e4 : rangeForD (floorLog log) (-120000000) (-100000000) 5000000 1000000 =
      rangeForD (fun _ => floorLog log 5000000) (-120000000) (-100000000) 5000000 1000000 := rfl
  have hr : prettyRangeD (floorLog log) (-120000000) (-100000000) 5 =
      some ⟨-120000000, -100000000, [-120000000, -115000000, -110000000, -105000000, -100000000], 5000000, 0, 1000000⟩ := by
    rw [prettyRangeD]
    simp only [e1, a1, e2, a2]
    rw [if_neg (by norm_num), if_neg (by norm_num), show min (-120000000 : ℚ) (-100000000) = -120000000 by norm_num,
      show max (-120000000 : ℚ) (-100000000) = -100000000 by norm_num, e4, e3, g2]
    norm_num
  have e6 : (10 : ℚ) ^ (6 : ℤ) = 1000000 := by norm_num
  have g3 : truncLogD log 1000000 = 6 := by
    refine truncLogD_factor hlog (k := 6) ?_ (Or.inl ?_) (by norm_num) (by norm_num)
    · rw [e6]
      exact (Rel.refl (by norm_num)).mono (by norm_num)
    · rw [e6]
      decide +kernel
  refine ⟨_, hr, rfl, ?_⟩
  have lab : ∀ v : ℚ, v < 0 → niceLabelD log v 0 1000000 = formatED 0 v := by
    intro v hv
    have h0 : (1000000 : ℚ) > 0 := by norm_num
    rw [niceLabelD]
    simp only [if_pos h0, g3, if_neg (not_lt.2 hv.le)]
    norm_num
  simp only [linearLabelsD, List.map_cons, List.map_nil]
  rw [lab _ (by norm_num), lab _ (by norm_num), lab _ (by norm_num), lab _ (by norm_num), lab _ (by norm_num)]
  decide +kernel

end Verif.Geometry
