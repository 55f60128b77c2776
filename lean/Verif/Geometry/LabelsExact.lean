import Verif.Geometry.Labels

/-! C89, exactly which labels say their tick (`nion/utils/Geometry.py:173-190`), in exact arithmetic. -/

set_option linter.unusedSectionVars false

namespace Verif.Geometry

variable {K : Type} [Field K] [LinearOrder K] [IsStrictOrderedRing K] [FloorRing K]

/-- A negative number without digits after the point is exact in `e` format if and only if it has a single digit. -/
theorem read_formatE_neg {v : K} (hv : v < 0) :
    (formatE 0 v).read = v ↔ ∃ d e : ℤ, 1 ≤ d ∧ d ≤ 9 ∧ v = -(d * 10 ^ e) := by
  have ha : |v| = -v := abs_of_neg hv
  have hp : 0 < |v| := abs_pos.2 hv.ne
  have ht : ∀ k : ℤ, (0 : K) < 10 ^ k := ten_pos
  have hb1 : (10 : K) ^ Int.log 10 |v| ≤ |v| := by
    have := Int.zpow_log_le_self (b := 10) (by norm_num) hp
    simpa using this
  have hb2 : |v| < (10 : K) ^ (Int.log 10 |v| + 1) := by
    have := Int.lt_zpow_succ_log_self (b := 10) (by norm_num) |v|
    simpa using this
  rw [formatE]
  simp only [hv.ne, if_false, zero_sub, zero_add, zpow_one]
  generalize Int.log 10 |v| = L at hb1 hb2
  constructor
  · intro h
    split_ifs at h with hm
    · refine ⟨1, L + 1, le_rfl, by norm_num, ?_⟩
      rw [← h, Label.read]
      simp [hv]
    · rw [Label.read] at h
      simp only [hv, decide_true, if_true, Option.getD_some, sub_zero] at h
      refine ⟨round (|v| * 10 ^ (-L)), L, ?_, ?_, ?_⟩
      · by_contra hc
        have : (round (|v| * 10 ^ (-L)) : K) ≤ 0 := by exact_mod_cast (by omega : round (|v| * 10 ^ (-L)) ≤ 0)
        nlinarith [ht L, mul_nonneg_of_nonpos_of_nonpos this (neg_nonpos.2 (ht L).le)]
      · have : (round (|v| * 10 ^ (-L)) : K) < 10 := not_le.1 hm
        have : round (|v| * 10 ^ (-L)) < 10 := by exact_mod_cast this
        omega
      · exact h.symm.trans (by ring)
  · rintro ⟨d, e, hd1, hd9, hve⟩
    have hd1' : (1 : K) ≤ d := by exact_mod_cast hd1
    have hd9' : (d : K) ≤ 9 := by exact_mod_cast hd9
    have hav : |v| = d * 10 ^ e := by rw [ha, hve, neg_neg]
    have hL : L = e := by
      have h1 : (10 : K) ^ e < 10 ^ (L + 1) := by
        refine lt_of_le_of_lt ?_ hb2
        rw [hav]; nlinarith [ht e]
      have h2 : (10 : K) ^ L < 10 ^ (e + 1) := by
        refine lt_of_le_of_lt hb1 ?_
        rw [hav, zpow_add_one₀ (by norm_num)]; nlinarith [ht e]
      have := (zpow_lt_zpow_iff_right₀ (by norm_num : (1 : K) < 10)).1 h1
      have := (zpow_lt_zpow_iff_right₀ (by norm_num : (1 : K) < 10)).1 h2
      omega
    subst hL
    have hm : |v| * 10 ^ (-L) = ((d : ℤ) : K) := by
      rw [hav, mul_assoc, ← zpow_add₀ (by norm_num)]; simp
    rw [hm, round_intCast, if_neg (by intro h; linarith), Label.read]
    simp only [hv, decide_true, if_true, Option.getD_some, sub_zero]
    rw [hve]; ring

/-- C89, exactly: the label of a tick says the tick if and only if the tick is not negative, or the division factor is between 1e-5 and
1e5, or the tick has a single digit. -/
theorem C89_iff_partial (a b : K) (hab : a ≠ b) (ticks : ℤ) (ht : 2 ≤ ticks) :
    ∃ r, prettyRange a b ticks = some r ∧ ∀ v ∈ r.ticks,
      ((niceLabel v r.precision r.factor10).read = v ↔
        0 ≤ v ∨ ((10 : K) ^ (-5 : ℤ) ≤ r.factor10 ∧ r.factor10 ≤ 10 ^ (5 : ℤ)) ∨
          ∃ d e : ℤ, 1 ≤ d ∧ d ≤ 9 ∧ v = -(d * 10 ^ e)) := by
  have hd := division_pos hab ht
  obtain ⟨r, h1, h2, h3, h4, h5⟩ := rangeFor_covers (low := min a b) (high := max a b)
    (f := (makePretty ((makePretty (max a b - min a b) false).1 / ((ticks : K) - 1)) true).2) min_le_max hd.2
  obtain ⟨r', hr', -, hex, -, hnd⟩ := C69_labels a b hab ticks ht
  have hrr : r' = r := by
    rw [prettyRange_eq hab ht, h1, Option.some.injEq] at hr'
    exact hr'.symm
  subst hrr
  obtain ⟨k, hk, z, hz⟩ := factor_log _ hd.1.ne' true
  rw [abs_of_pos hd.2, ← h3] at hz
  rw [← h5] at hk
  have hr10 : ((10 : K) ^ (-5 : ℤ) ≤ r'.factor10 ∧ r'.factor10 ≤ 10 ^ (5 : ℤ)) ↔ |k| ≤ 5 := by
    rw [hk, zpow_le_zpow_iff_right₀ (by norm_num : (1 : K) < 10), zpow_le_zpow_iff_right₀ (by norm_num : (1 : K) < 10), abs_le]
  refine ⟨r', hr', fun v hv => ?_⟩
  rw [hr10, niceLabel, hk, if_pos (ten_pos k), truncLog_zpow]
  simp only
  split_ifs with hf hvp
  · refine ⟨fun _ => .inl hvp.le, fun _ => ?_⟩
    obtain ⟨j, hj⟩ := ticks_mul h2 hv
    refine read_formatE (k := k) (z := j * z) hvp (by rw [hj, hz]; push_cast; ring) ?_
    have := log_le_truncLog hvp
    omega
  · rw [sub_self, max_self]
    rcases (not_lt.1 hvp).eq_or_lt with h0 | h0
    · subst h0
      exact ⟨fun _ => .inl le_rfl, fun _ => read_formatE_zero 0⟩
    · rw [read_formatE_neg h0]
      refine ⟨fun h => .inr (.inr h), ?_⟩
      rintro (h | h | h)
      · exact absurd h (not_le.2 h0)
      · omega
      · exact h
  · refine ⟨fun _ => .inr (.inl (not_lt.1 hf)), fun _ => ?_⟩
    obtain ⟨w, hw⟩ := hex v hv
    exact read_formatF hw

/-- the label of -100 millions is exact, that of -105 millions is not -/
example : ((formatE 0 (-100000000 : ℚ)).read : ℚ) = -100000000 ∧ ¬ ((formatE 0 (-105000000 : ℚ)).read : ℚ) = -105000000 := by
  constructor
  · exact (read_formatE_neg (by norm_num)).2 ⟨1, 8, by norm_num, by norm_num, by norm_num⟩
  · have hl : Int.log 10 |(-105000000 : ℚ)| = 8 := log_of_bounds 8 (by norm_num) (by norm_num)
    have hr : round (21 / 20 : ℚ) = 1 := by rw [round_eq]; norm_num
    have hm : |(-105000000 : ℚ)| * 10 ^ ((0 : ℤ) - 8) = 21 / 20 := by
      rw [abs_of_neg (by norm_num)]; norm_num
    rw [formatE, if_neg (by norm_num : (-105000000 : ℚ) ≠ 0), hl, hm, hr]
    norm_num [Label.read]

end Verif.Geometry
