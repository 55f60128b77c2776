import Verif.Geometry.Range

/-!
The labels of `LinearTicker` (`nion/utils/Geometry.py:173-190`), C89, in exact arithmetic.
-/

set_option linter.unusedSectionVars false

namespace Verif.Geometry

variable {K : Type} [Field K] [LinearOrder K] [IsStrictOrderedRing K] [FloorRing K]

/-- A formatted number: the sign, the digits as the number they make without the point, the digits after the point and the exponent
of an `e` format. Two of these are equal if the strings are. -/
structure Label where
  negative : Bool
  digits : ℤ
  places : ℤ
  exponent : Option ℤ
  deriving DecidableEq

/-- `"{0:0.pf}"`. -/
def formatF (p : ℤ) (v : K) : Label := ⟨decide (v < 0), round (|v| * 10 ^ p), p, none⟩

/-- `"{0:0.pe}"`: digits that round up to a power of ten move the exponent. -/
def formatE (p : ℤ) (v : K) : Label :=
  let e := if v = 0 then 0 else Int.log 10 |v|
  let m := round (|v| * 10 ^ (p - e))
  if (10 : K) ^ (p + 1) ≤ m then ⟨decide (v < 0), round ((10 : K) ^ p), p, some (e + 1)⟩ else ⟨decide (v < 0), m, p, some e⟩

/-- `int(math.log10(x))` for positive `x`: towards zero. -/
def truncLog (x : K) : ℤ := if 1 ≤ x then Int.log 10 x else Int.clog 10 x

/-- Lines 180-187. -/
def niceLabel (value : K) (precision : ℤ) (factor10 : K) : Label :=
  let f10 := if factor10 > 0 then truncLog factor10 else 0
  if |f10| > 5 then
    let f10x := if value > 0 then truncLog value else f10
    formatE (max 0 (f10x - f10)) value
  else formatF precision value

/-- Lines 175-178, 189-190: the labels of the ticks. -/
def linearLabels (r : PrettyRange K) : List Label := r.ticks.map fun v => niceLabel v r.precision r.factor10

/-- The number a label says. -/
def Label.read (l : Label) : K :=
  (if l.negative then -1 else 1) * (l.digits : K) * 10 ^ (l.exponent.getD 0 - l.places)

theorem read_formatF {p : ℤ} {v : K} {z : ℤ} (h : v * 10 ^ p = z) : (formatF p v).read = v := by
  have := readLabel_fixedLabel h
  rw [readLabel, fixedLabel] at this
  rw [Label.read, formatF]
  simp only [Option.getD_none, zero_sub, zpow_neg] at this ⊢
  rw [← div_eq_mul_inv]
  exact this

theorem truncLog_zpow (k : ℤ) : truncLog ((10 : K) ^ k) = k := by
  have h1 := Int.log_zpow (R := K) (b := 10) (by norm_num) k
  have h2 := Int.clog_zpow (R := K) (b := 10) (by norm_num) k
  simp only [Nat.cast_ofNat] at h1 h2
  rw [truncLog]
  split <;> assumption

theorem log_le_truncLog {v : K} (h : 0 < v) : Int.log 10 v ≤ truncLog v := by
  rw [truncLog]
  split
  · exact le_rfl
  · have h1 := Int.zpow_log_le_self (b := 10) (by norm_num) h
    have h2 := Int.self_le_zpow_clog (b := 10) (by norm_num) v
    simp only [Nat.cast_ofNat] at h1 h2
    exact (zpow_le_zpow_iff_right₀ (by norm_num : (1 : K) < 10)).1 (h1.trans h2)

/-- A positive multiple of a power of ten is exact in `e` format with at least as many digits as powers of ten between them. -/
theorem read_formatE {v : K} {k p : ℤ} {z : ℤ} (hv : 0 < v) (hz : v = z * 10 ^ k) (hp : Int.log 10 v - k ≤ p) :
    (formatE p v).read = v := by
  have hb := log_bounds hv.ne'
  rw [abs_of_pos hv] at hb
  rw [formatE]
  simp only [hv.ne', if_false, abs_of_pos hv]
  obtain ⟨n, hn⟩ := Int.eq_ofNat_of_zero_le (show 0 ≤ k + (p - Int.log 10 v) by omega)
  have hm : v * 10 ^ (p - Int.log 10 v) = ((z * 10 ^ n : ℤ) : K) := by
    conv_lhs => rw [hz]
    rw [mul_assoc, ← hz, ← zpow_add₀ (by norm_num), hn]
    push_cast
    norm_num
  have hlt : v * 10 ^ (p - Int.log 10 v) < 10 ^ (p + 1) := by
    have ht := ten_pos (K := K) p
    have : v * 10 ^ (p - Int.log 10 v) = v / 10 ^ Int.log 10 v * 10 ^ p := by
      rw [zpow_sub₀ (by norm_num)]; field_simp
    rw [this, zpow_add_one₀ (by norm_num)]
    nlinarith [hb.2]
  rw [hm, round_intCast, if_neg (not_le.2 (by rw [← hm]; exact hlt)), Label.read]
  simp only [not_lt.2 hv.le, decide_false, Bool.false_eq_true, if_false, Option.getD_some, one_mul]
  rw [← hm, mul_assoc, ← zpow_add₀ (by norm_num)]
  simp

theorem read_formatE_zero (p : ℤ) : (formatE p (0 : K)).read = (0 : K) := by
  have : ¬ (10 : K) ^ (p + 1) ≤ 0 := not_le.2 (ten_pos _)
  simp [formatE, this, Label.read]

/-! ### C89 -/

theorem factor_log (v : K) (h : v ≠ 0) (b : Bool) : ∃ k : ℤ, (makePretty v b).2 = 10 ^ k ∧
    ∃ z : ℤ, |(makePretty v b).1| = z * 10 ^ k := by
  refine ⟨Int.log 10 |v|, by rw [makePretty_eq h], ?_⟩
  rw [abs_makePretty h]
  simp only [prettyNorm]
  split_ifs
  all_goals first
    | (refine ⟨1, ?_⟩; norm_num; done)
    | (refine ⟨2, ?_⟩; norm_num; done)
    | (refine ⟨5, ?_⟩; norm_num; done)
    | (refine ⟨10, ?_⟩; norm_num; done)

/-- C89 (partial: ticks that are not negative, or a division factor between 1e-5 and 1e5): the label of every tick of a linear ticker
says the tick itself, so different ticks have different labels. -/
theorem C89_labels_partial (a b : K) (hab : a ≠ b) (ticks : ℤ) (ht : 2 ≤ ticks) :
    ∃ r, prettyRange a b ticks = some r ∧
      ((∀ v ∈ r.ticks, 0 ≤ v) ∨ (10 : K) ^ (-5 : ℤ) ≤ r.factor10 ∧ r.factor10 ≤ 10 ^ (5 : ℤ) →
        (linearLabels r).map (fun l : Label => (l.read : K)) = r.ticks ∧ (linearLabels r).Nodup) := by
  have hd := division_pos hab ht
  obtain ⟨r, h1, h2, h3, h4, h5⟩ := rangeFor_covers (low := min a b) (high := max a b)
    (f := (makePretty ((makePretty (max a b - min a b) false).1 / ((ticks : K) - 1)) true).2) min_le_max hd.2
  obtain ⟨r', hr', -, hex, -, hnd⟩ := C69_labels a b hab ticks ht
  have hrr : r' = r := by
    rw [prettyRange_eq hab ht, h1, Option.some.injEq] at hr'
    exact hr'.symm
  subst hrr
  obtain ⟨k, hk, z, hz⟩ := factor_log _ hd.1.ne' true
  rw [abs_of_pos hd.2, ← h3] at hz
  rw [← h5] at hk
  refine ⟨r', hr', fun hpos => ?_⟩
  have hread : ∀ v ∈ r'.ticks, ((niceLabel v r'.precision r'.factor10).read : K) = v := by
    intro v hv
    rw [niceLabel, hk, if_pos (ten_pos k), truncLog_zpow]
    simp only
    split_ifs with hf hvp
    · obtain ⟨j, hj⟩ := ticks_mul h2 hv
      refine read_formatE (k := k) (z := j * z) hvp (by rw [hj, hz]; push_cast; ring) ?_
      have := log_le_truncLog hvp
      omega
    · rcases hpos with hpos | ⟨hp1, hp2⟩
      · have : v = 0 := le_antisymm (not_lt.1 hvp) (hpos v hv)
        subst this
        exact read_formatE_zero _
      · exfalso
        rw [hk] at hp1 hp2
        have e1 := (zpow_le_zpow_iff_right₀ (by norm_num : (1 : K) < 10)).1 hp1
        have e2 := (zpow_le_zpow_iff_right₀ (by norm_num : (1 : K) < 10)).1 hp2
        have : |k| ≤ 5 := abs_le.2 ⟨by omega, e2⟩
        omega
    · obtain ⟨w, hw⟩ := hex v hv
      exact read_formatF hw
  have hmap : (linearLabels r').map (fun l : Label => (l.read : K)) = r'.ticks := by
    rw [linearLabels, List.map_map]
    conv_rhs => rw [← List.map_id r'.ticks]
    exact List.map_congr_left hread
  refine ⟨hmap, List.Nodup.of_map (fun l : Label => (l.read : K)) ?_⟩
  rw [hmap]
  exact List.Nodup.of_map _ hnd

/-- C89, counterexample: the ticks of -120 to -100 millions, five million apart, all have the label -1e+08. -/
theorem C89_counterexample : ∃ r : PrettyRange ℚ, prettyRange (-120000000 : ℚ) (-100000000) 5 = some r ∧
    r.ticks = [-120000000, -115000000, -110000000, -105000000, -100000000] ∧
    linearLabels r = List.replicate 5 ⟨true, 1, 0, some 8⟩ := by
  have hmin : min (-120000000 : ℚ) (-100000000) = -120000000 := by norm_num
  have hmax : max (-120000000 : ℚ) (-100000000) = -100000000 := by norm_num
  have h1 : makePretty ((-100000000 : ℚ) - (-120000000)) false = (20000000, 10000000) := by
    rw [makePretty_of_bounds 7 (by norm_num) (by norm_num)]
    norm_num [prettyNorm]
  have h2 : makePretty ((20000000 : ℚ) / ((5 : ℤ) - 1)) true = (5000000, 1000000) := by
    rw [makePretty_of_bounds 6 (by norm_num) (by norm_num)]
    norm_num [prettyNorm]
  have h3 : Int.log 10 (5000000 : ℚ) = 6 := log_of_bounds 6 (by norm_num) (by norm_num)
  have hf : ⌊(-120000000 : ℚ) / 5000000⌋ = -24 := by norm_num
  have hc : ⌈(-100000000 : ℚ) / 5000000⌉ = -20 := by norm_num
  have ha := arange_eq (-120000000 : ℚ) 4 (d := 5000000) (by norm_num)
  norm_num at ha
  refine ⟨⟨-120000000, -100000000, [-120000000, -115000000, -110000000, -105000000, -100000000], 5000000, 0, 1000000⟩,
    ?_, rfl, ?_⟩
  · simp only [prettyRange, hmin, hmax]
    rw [if_neg (by norm_num), if_neg (by norm_num), h1]
    simp only
    rw [h2]
    simp only [rangeFor, hf, hc, h3]
    norm_num
    rw [ha]
    norm_num [List.range_succ]
  · have ht : truncLog (1000000 : ℚ) = 6 := by
      have := truncLog_zpow (K := ℚ) 6
      norm_num at this
      exact this
    have hl : ∀ v : ℚ, 100000000 ≤ v → v < 150000000 → niceLabel (-v) 0 1000000 = ⟨true, 1, 0, some 8⟩ := by
      intro v hv1 hv2
      have hneg : -v < 0 := by linarith
      have hlog : Int.log 10 v = 8 := log_of_bounds 8 (by norm_num; exact hv1) (by norm_num; linarith)
      have hr : round (v * 10 ^ ((0 : ℤ) - 8)) = 1 := by
        rw [round_eq, Int.floor_eq_iff]
        norm_num
        constructor <;> linarith
      simp only [niceLabel, ht, hneg.not_gt, gt_iff_lt, if_false, sub_self, max_self]
      rw [if_pos (by norm_num [ht]), formatE]
      simp only [hneg.ne, if_false, abs_neg, abs_of_pos (show 0 < v by linarith), hlog, hr, hneg, decide_true]
      norm_num
    simp only [linearLabels, List.map_cons, List.map_nil, List.replicate]
    rw [hl 120000000 (by norm_num) (by norm_num), hl 115000000 (by norm_num) (by norm_num),
      hl 110000000 (by norm_num) (by norm_num), hl 105000000 (by norm_num) (by norm_num),
      hl 100000000 (by norm_num) (by norm_num)]

/-- 1150 millions with a factor of ten millions: three digits. -/
example : niceLabel (1150000000 : ℚ) 0 10000000 = ⟨false, 115, 2, some 9⟩ := by
  have h1 : truncLog (10000000 : ℚ) = 7 := by
    have := truncLog_zpow (K := ℚ) 7
    norm_num at this
    exact this
  have h2 : Int.log 10 (1150000000 : ℚ) = 9 := log_of_bounds 9 (by norm_num) (by norm_num)
  have h3 : truncLog (1150000000 : ℚ) = 9 := by rw [truncLog, if_pos (by norm_num), h2]
  have h4 : round ((1150000000 : ℚ) * 10 ^ ((2 : ℤ) - 9)) = 115 := by
    have : (1150000000 : ℚ) * 10 ^ ((2 : ℤ) - 9) = ((115 : ℤ) : ℚ) := by norm_num
    rw [this, round_intCast]
  simp only [niceLabel, gt_iff_lt]
  rw [if_pos (by norm_num [h1]), if_pos (by norm_num), if_pos (by norm_num), h1, h3, formatE]
  simp only [abs_of_pos (show (0 : ℚ) < 1150000000 by norm_num), h2]
  rw [if_neg (show ¬ (1150000000 : ℚ) = 0 by norm_num)]
  simp only [show max 0 ((9 : ℤ) - 7) = 2 by norm_num, h4]
  norm_num

end Verif.Geometry
