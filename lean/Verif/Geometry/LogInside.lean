import Verif.Geometry.TickCount

/-!
C149: whether a logarithmic axis has a tick between its limits (`nion/utils/Geometry.py:193-261`), on the model of `LogTicker.lean`.
-/

namespace Verif.Geometry.LogTicker

open Real

variable {q : Req}

/-- A tick can be seen between the limits. -/
def Req.Seen (q : Req) : Prop := ∃ v ∈ q.values, q.low ≤ v ∧ v ≤ q.high

theorem range_eq (hlh : q.low < q.high) : q.range = q.high - q.low := abs_of_pos (by linarith)

/-- Decades that are at most as far apart as the limits. -/
theorem seen_of_spacing (h : q.Ok) (hs : q.division * q.factor ≤ q.high - q.low) : q.Seen := by
  have hf := factor_pos h
  have hd := division_pos (q := q)
  have hd0 : (0 : ℝ) < q.division := by exact_mod_cast lt_of_lt_of_le one_pos hd
  have hlow : (q.min0 : ℝ) ≤ q.low / q.factor := Int.floor_le _
  set x : ℝ := (q.low / q.factor - q.min0) / q.division with hx
  have hx0 : 0 ≤ x := div_nonneg (by linarith) hd0.le
  set k : ℕ := ⌈x⌉₊ with hk
  have hkx : x ≤ k := Nat.le_ceil x
  have hkx' : (k : ℝ) < x + 1 := Nat.ceil_lt_add_one hx0
  have hxd : x * q.division = q.low / q.factor - q.min0 := by rw [hx]; field_simp
  have h1 : q.low / q.factor ≤ q.min0 + k * q.division := by
    have := mul_le_mul_of_nonneg_right hkx hd0.le
    linarith
  have h2 : (q.min0 : ℝ) + k * q.division < q.low / q.factor + q.division := by
    have := mul_lt_mul_of_pos_right hkx' hd0
    linarith
  have hhigh : q.low / q.factor + q.division ≤ q.high / q.factor := by
    rw [le_div_iff₀ hf, add_mul, div_mul_cancel₀ _ hf.ne']
    linarith
  have hmax : q.high / q.factor ≤ q.max0 := by
    refine (Int.le_ceil _).trans ?_
    exact_mod_cast le_max_left _ _
  have hmem : q.min0 + (k : ℤ) * q.division ∈ q.decades := by
    rw [Req.decades, arangeI, List.mem_map]
    refine ⟨k, ?_, rfl⟩
    rw [List.mem_range, Int.lt_toNat, Int.lt_ceil, lt_div_iff₀ hd0]
    push_cast
    linarith
  refine ⟨_, decade_mem hmem h, ?_, ?_⟩
  · rw [← div_le_iff₀ hf]
    push_cast
    exact h1
  · rw [← le_div_iff₀ hf]
    push_cast
    linarith

theorem division_cases (h : q.Ok) : q.division = 1 ∨ 2 ≤ q.division ∧ q.division * q.ticks ≤ q.numdec + 1 := by
  have ht := h.ticks
  have hd := division_pos (q := q)
  by_cases h1 : q.division = 1
  · exact .inl h1
  right
  refine ⟨by omega, ?_⟩
  have h2 : q.division = (q.numdec + 1).fdiv q.ticks := by
    rw [Req.division] at h1 ⊢
    omega
  rw [h2, Int.fdiv_eq_ediv_of_nonneg _ (by omega)]
  exact Int.ediv_mul_le _ (by omega)

theorem factor_le (h : q.Ok) (hf : q.factor ≠ 1) : q.factor ≤ q.range ∧ 0 < q.range := by
  unfold Req.factor at hf ⊢
  split_ifs at hf ⊢ with hc
  · have hb := base_gt h
    refine ⟨?_, hc.2⟩
    have h1 := Int.floor_le (Real.logb q.base q.range)
    calc (q.base : ℝ) ^ ⌊Real.logb q.base q.range⌋ = (q.base : ℝ) ^ ((⌊Real.logb q.base q.range⌋ : ℤ) : ℝ) := (Real.rpow_intCast _ _).symm
      _ ≤ (q.base : ℝ) ^ Real.logb q.base q.range := Real.rpow_le_rpow_of_exponent_le hb.le h1
      _ = q.range := Real.rpow_logb (by linarith) hb.ne' hc.2
  · exact absurd rfl hf

/-- C149, where it holds: three ticks or more are asked for, and the limits are a decade apart or more, or near enough for ticks at
fractions of a decade. -/
theorem C149_seen_partial (h : q.Ok) (ht : 3 ≤ q.ticks) (hlh : q.low < q.high)
    (hr : 1 ≤ q.high - q.low ∨ q.high - q.low < ((q.ticks : ℝ) - 2) / q.base) : q.Seen := by
  have hrange := range_eq hlh
  have htr : (3 : ℝ) ≤ q.ticks := by exact_mod_cast ht
  by_cases hf : q.factor = 1
  · have h1 : 1 ≤ q.range := by
      rcases hr with hr | hr
      · rw [hrange]; exact hr
      · by_contra hlt
        have hb := base_gt h
        have hpos : 0 < q.range := by rw [hrange]; linarith
        rw [Req.factor, if_pos ⟨by rw [hrange]; exact hr, hpos⟩] at hf
        have hneg : ⌊Real.logb q.base q.range⌋ < 0 := by
          rw [Int.floor_lt]
          simpa using Real.logb_neg hb hpos (not_le.1 hlt)
        have := zpow_lt_one_of_neg₀ hb hneg
        linarith
    refine seen_of_spacing h ?_
    rw [hf, mul_one, ← hrange]
    rcases division_cases h with hd | ⟨hd, hdt⟩
    · rw [hd]
      push_cast
      exact h1
    · have hn : (q.numdec : ℝ) ≤ 3 / 2 * q.range := by
        rw [Req.numdec, if_pos hf]
        have := shrink_min (abs_nonneg (q.high - q.low)) (q.max0 - q.min0).toNat
        have h2 : ((shrink q.range (q.max0 - q.min0).toNat : ℕ) : ℤ) ≤ ⌊3 / 2 * q.range⌋ := by
          rw [Req.range, this]
          exact min_le_right _ _
        have h3 := Int.floor_le (3 / 2 * q.range)
        refine le_trans ?_ h3
        exact_mod_cast h2
      have h3 : (q.division : ℝ) * q.ticks ≤ q.numdec + 1 := by exact_mod_cast hdt
      have h4 : (2 : ℝ) ≤ q.division := by exact_mod_cast hd
      nlinarith
  · refine seen_of_spacing h ?_
    obtain ⟨h1, hpos⟩ := factor_le h hf
    have hf0 := factor_pos h
    rw [← hrange]
    rcases division_cases h with hd | ⟨hd, hdt⟩
    · rw [hd]
      push_cast
      linarith
    · have hw := width_lt h
      have hn : q.numdec = q.max0 - q.min0 := by rw [Req.numdec, if_neg hf]
      rw [← hn] at hw
      have h3 : (q.division : ℝ) * q.ticks ≤ q.numdec + 1 := by exact_mod_cast hdt
      have h4 : (2 : ℝ) ≤ q.division := by exact_mod_cast hd
      rw [← le_div_iff₀ hf0]
      nlinarith

/-! ### The default: five ticks, base ten -/

theorem logb10_pow {x : ℝ} (n : ℕ) : Real.logb 10 (x ^ n) = n * Real.logb 10 x := Real.logb_pow 10 x n

theorem logb10_ten (n : ℕ) : Real.logb 10 ((10 : ℝ) ^ n) = n := by
  rw [logb10_pow, Real.logb_self_eq_one (by norm_num), mul_one]

theorem logb_le_of_pow {x : ℝ} (hx : 0 < x) {n m : ℕ} (hn : 0 < n) (h : x ^ n ≤ 10 ^ m) : Real.logb 10 x ≤ m / n := by
  have h1 := Real.logb_le_logb_of_le (b := 10) (by norm_num) (by positivity) h
  rw [logb10_pow, logb10_ten] at h1
  rw [le_div_iff₀ (by exact_mod_cast hn)]
  linarith

theorem le_logb_of_pow {x : ℝ} {n m : ℕ} (hn : 0 < n) (h : 10 ^ m ≤ x ^ n) : (m : ℝ) / n ≤ Real.logb 10 x := by
  have h1 := Real.logb_le_logb_of_le (b := 10) (by norm_num) (by positivity) h
  rw [logb10_ten, logb10_pow] at h1
  rw [div_le_iff₀ (by exact_mod_cast hn)]
  linarith

theorem log_values : 3 / 10 ≤ Real.logb 10 2 ∧ Real.logb 10 2 ≤ 1 / 3 ∧ Real.logb 10 3 - Real.logb 10 2 ≤ 3 / 10 ∧
    Real.logb 10 4 - Real.logb 10 3 ≤ 3 / 10 ∧ Real.logb 10 6 - Real.logb 10 4 ≤ 3 / 10 ∧ Real.logb 10 8 - Real.logb 10 6 ≤ 3 / 10 ∧
    1 - Real.logb 10 8 ≤ 3 / 10 ∧ Real.logb 10 4 = 2 * Real.logb 10 2 ∧ Real.logb 10 8 = 3 * Real.logb 10 2 := by
  have h2 := le_logb_of_pow (x := 2) (n := 10) (m := 3) (by norm_num) (by norm_num)
  have h2' := logb_le_of_pow (x := 2) (n := 3) (m := 1) (by norm_num) (by norm_num) (by norm_num)
  have hd : ∀ x y : ℝ, 0 < x → 0 < y → (y / x) ^ 10 ≤ 10 ^ 3 → Real.logb 10 y - Real.logb 10 x ≤ 3 / 10 := by
    intro x y hx hy hxy
    rw [← Real.logb_div hy.ne' hx.ne']
    exact_mod_cast logb_le_of_pow (n := 10) (m := 3) (by positivity) (by norm_num) hxy
  have h8 : Real.logb 10 8 = 3 * Real.logb 10 2 := by
    rw [show (8 : ℝ) = 2 ^ 3 by norm_num, logb10_pow]
    norm_num
  have h4 : Real.logb 10 4 = 2 * Real.logb 10 2 := by
    rw [show (4 : ℝ) = 2 ^ 2 by norm_num, logb10_pow]
    norm_num
  push_cast at h2 h2'
  refine ⟨h2, h2', hd 2 3 (by norm_num) (by norm_num) (by norm_num), hd 3 4 (by norm_num) (by norm_num) (by norm_num),
    hd 4 6 (by norm_num) (by norm_num) (by norm_num), hd 6 8 (by norm_num) (by norm_num) (by norm_num), ?_, h4, h8⟩
  rw [h8]
  linarith

theorem arangeI_mem {a b s : ℤ} (hs : 0 < s) (k : ℕ) (h : a + k * s < b) : a + k * s ∈ arangeI a b s := by
  have hs' : (0 : ℝ) < s := by exact_mod_cast hs
  rw [arangeI, List.mem_map]
  refine ⟨k, ?_, rfl⟩
  rw [List.mem_range, Int.lt_toNat, Int.lt_ceil, lt_div_iff₀ hs']
  have : ((a + k * s : ℤ) : ℝ) < b := by exact_mod_cast h
  push_cast at this ⊢
  linarith

/-- Limits between which there is no tick: between a decade and its double. -/
theorem not_seen (h : q.Ok) (hb : q.base = 10) (hf : q.factor = 1) (hlh : q.low < q.high) (h0 : 0 < Int.fract q.low)
    (h1 : Int.fract q.low + (q.high - q.low) < Real.logb 10 2) : ¬ q.Seen := by
  rintro ⟨v, hv, hvl, hvh⟩
  have hL2 := log_values.2.1
  have hfl : (⌊q.low⌋ : ℝ) = q.low - Int.fract q.low := by rw [Int.fract]; ring
  rw [ticks_eq h, List.mem_flatMap] at hv
  obtain ⟨d, hd, hv⟩ := hv
  have hbr : (q.base : ℝ) = 10 := by rw [hb]; norm_num
  have key : ∀ t : ℝ, (t = 0 ∨ Real.logb 10 2 ≤ t ∧ t < 1) → v = t + d → False := by
    intro t ht hvt
    rcases lt_trichotomy d ⌊q.low⌋ with hlt | heq | hgt
    · have : (d : ℝ) + 1 ≤ ⌊q.low⌋ := by exact_mod_cast hlt
      rcases ht with rfl | ⟨_, ht⟩ <;> linarith
    · rw [heq] at hvt
      rcases ht with rfl | ⟨ht, _⟩ <;> linarith
    · have : (⌊q.low⌋ : ℝ) + 1 ≤ d := by exact_mod_cast hgt
      have := Real.logb_nonneg (b := 10) (x := 2) (by norm_num) (by norm_num)
      rcases ht with rfl | ⟨ht, _⟩ <;> linarith
  rcases List.mem_cons.1 hv with rfl | hv
  · exact key 0 (.inl rfl) (by rw [hf]; ring)
  · obtain ⟨s, hs, rfl⟩ := List.mem_map.1 hv
    refine key (Real.logb q.base s) (.inr ⟨?_, (logb_sub_bounds h hs).2⟩) (by rw [hf]; ring)
    rw [hbr]
    have h2 : (2 : ℝ) ≤ s := by exact_mod_cast (mem_subs h hs).2.1
    exact Real.logb_le_logb_of_le (by norm_num) (by norm_num) h2

/-- C149, exactly, for the default of five ticks and base ten: a tick lies between the limits `low < high` unless they are at least
0.3 apart, `low` is above a power of ten and `high` below twice that power. -/
theorem C149_iff_partial (ht : q.ticks = 5) (hb : q.base = 10) (hlh : q.low < q.high) :
    q.Seen ↔ ¬ (3 / 10 ≤ q.high - q.low ∧ 0 < Int.fract q.low ∧ Int.fract q.low + (q.high - q.low) < Real.logb 10 2) := by
  have h : q.Ok := ⟨by omega, by omega⟩
  have hrange := range_eq hlh
  have htr : (q.ticks : ℝ) = 5 := by rw [ht]; norm_num
  have hbr : (q.base : ℝ) = 10 := by rw [hb]; norm_num
  obtain ⟨a2, a2', a3, a4, a6, a8, a10, e4, e8⟩ := log_values
  by_cases hr : q.high - q.low < 3 / 10
  · refine iff_of_true (C149_seen_partial h (by omega) hlh (.inr ?_)) fun hc => ?_
    · rw [htr, hbr]; linarith
    · linarith [hc.1]
  by_cases hr1 : 1 ≤ q.high - q.low
  · refine iff_of_true (C149_seen_partial h (by omega) hlh (.inl hr1)) fun hc => ?_
    linarith [hc.2.1, hc.2.2]
  push Not at hr hr1
  have hf : q.factor = 1 := factor_one (by rw [htr, hbr, hrange]; linarith)
  constructor
  · rintro hseen ⟨-, h0, h1⟩
    exact not_seen h hb hf hlh h0 h1 hseen
  · intro hc
    -- the decades at and after the lower limit are ticks, with the multiples
    have hdiv : q.division = 1 := by
      rcases division_cases h with hd | ⟨hd, hdt⟩
      · exact hd
      · exfalso
        have hw := width_lt h
        rw [hf, div_one, hrange] at hw
        have h1 := (numdec_bounds h).2.1
        have h2 : q.max0 - q.min0 < 3 := by
          have : ((q.max0 - q.min0 : ℤ) : ℝ) < 3 := by linarith
          exact_mod_cast this
        rw [ht] at hdt
        omega
    have hN : q.min0 + 1 ≤ q.max0 := le_max_right _ _
    have hm : q.min0 = ⌊q.low⌋ := min0_one hf
    have hd0 : ⌊q.low⌋ ∈ q.decades := by
      have := arangeI_mem (a := q.min0) (b := q.max0 + q.division) (s := q.division) (by omega) 0 (by simp; omega)
      rw [Req.decades, ← hm]
      simpa using this
    have hd1 : ⌊q.low⌋ + 1 ∈ q.decades := by
      have := arangeI_mem (a := q.min0) (b := q.max0 + q.division) (s := q.division) (by omega) 1 (by push_cast; omega)
      rw [Req.decades, ← hm]
      simpa [hdiv] using this
    have hfl : (⌊q.low⌋ : ℝ) = q.low - Int.fract q.low := by rw [Int.fract]; ring
    have hfr0 := Int.fract_nonneg q.low
    have hfr1 := Int.fract_lt_one q.low
    have seen : ∀ t : ℝ, t + ⌊q.low⌋ ∈ q.values → Int.fract q.low ≤ t → t ≤ Int.fract q.low + (q.high - q.low) → q.Seen := by
      intro t hv h1 h2
      exact ⟨_, hv, by rw [hfl]; linarith, by rw [hfl]; linarith⟩
    have hv0 : (0 : ℝ) + ⌊q.low⌋ ∈ q.values := by
      have := decade_mem hd0 h
      rwa [hf, mul_one, ← zero_add ((⌊q.low⌋ : ℤ) : ℝ)] at this
    have hv1 : (1 : ℝ) + ⌊q.low⌋ ∈ q.values := by
      have := decade_mem hd1 h
      rw [hf, mul_one] at this
      push_cast at this
      rwa [add_comm]
    have hvs : ∀ s : ℤ, s ∈ q.subs → Real.logb 10 s + ⌊q.low⌋ ∈ q.values := by
      intro s hs
      rw [ticks_eq h, List.mem_flatMap]
      refine ⟨_, hd0, List.mem_cons_of_mem _ (List.mem_map.2 ⟨s, hs, ?_⟩)⟩
      rw [hf, mul_one, hbr]
    have hns : q.numSubs = 5 / (q.high - q.low) := by
      rw [Req.numSubs, if_pos (by rw [hrange]; linarith), htr, hrange, hdiv]
      norm_num
    have hn5 : 5 < q.numSubs := by rw [hns, lt_div_iff₀ (by linarith)]; linarith
    by_cases hall : q.numSubs ≥ q.base - 2
    · -- all multiples
      have hsub : q.subs = arangeI 2 10 1 := by
        rw [Req.subs, if_neg (not_not.2 hf), if_pos hall, hb]
      have hm : ∀ k : ℕ, (k : ℤ) < 8 → ((2 : ℤ) + k) ∈ q.subs := by
        intro k hk
        rw [hsub]
        have := arangeI_mem (a := 2) (b := 10) (s := 1) one_pos k (by omega)
        simpa using this
      have w2 := hvs 2 (by simpa using hm 0 (by norm_num))
      have w3 := hvs 3 (by simpa using hm 1 (by norm_num))
      have w4 := hvs 4 (by simpa using hm 2 (by norm_num))
      have w6 := hvs 6 (by simpa using hm 4 (by norm_num))
      have w8 := hvs 8 (by simpa using hm 6 (by norm_num))
      push_cast at w2 w3 w4 w6 w8
      by_cases c0 : Int.fract q.low = 0
      · exact seen 0 hv0 (by rw [c0]) (by linarith)
      have c0 : 0 < Int.fract q.low := lt_of_le_of_ne hfr0 (Ne.symm c0)
      by_cases c2 : Int.fract q.low ≤ Real.logb 10 2
      · refine seen _ w2 c2 ?_
        by_contra hlt
        exact hc ⟨hr, c0, not_le.1 hlt⟩
      by_cases c3 : Int.fract q.low ≤ Real.logb 10 3
      · exact seen _ w3 c3 (by linarith)
      by_cases c4 : Int.fract q.low ≤ Real.logb 10 4
      · exact seen _ w4 c4 (by linarith)
      by_cases c6 : Int.fract q.low ≤ Real.logb 10 6
      · exact seen _ w6 c6 (by linarith)
      by_cases c8 : Int.fract q.low ≤ Real.logb 10 8
      · exact seen _ w8 c8 (by linarith)
      · exact seen 1 hv1 hfr1.le (by linarith)
    · -- the even multiples
      have hsub : q.subs = arangeI 2 10 2 := by
        rw [Req.subs, if_neg (not_not.2 hf), if_neg hall, if_pos (by rw [hbr]; linarith), hb]
      have hm : ∀ k : ℕ, (k : ℤ) < 4 → ((2 : ℤ) + k * 2) ∈ q.subs := by
        intro k hk
        rw [hsub]
        exact arangeI_mem (a := 2) (b := 10) (s := 2) two_pos k (by omega)
      have hbig : 5 / 8 < q.high - q.low := by
        rw [hbr, hns, ge_iff_le, le_div_iff₀ (by linarith)] at hall
        linarith
      have w2 := hvs 2 (by simpa using hm 0 (by norm_num))
      have w4 := hvs 4 (by simpa using hm 1 (by norm_num))
      have w8 := hvs 8 (by simpa using hm 3 (by norm_num))
      push_cast at w2 w4 w8
      by_cases c2 : Int.fract q.low ≤ Real.logb 10 2
      · exact seen _ w2 c2 (by linarith)
      by_cases c4 : Int.fract q.low ≤ Real.logb 10 4
      · exact seen _ w4 c4 (by linarith)
      by_cases c8 : Int.fract q.low ≤ Real.logb 10 8
      · exact seen _ w8 c8 (by linarith)
      · exact seen 1 hv1 hfr1.le (by linarith)

/-- The limits 2.31 and 2.61, still with a tick. -/
example : (⟨231 / 100, 261 / 100, 5, 10⟩ : Req).Seen := by
  rw [C149_iff_partial rfl rfl (by norm_num)]
  rintro ⟨-, -, h⟩
  have hfr : Int.fract (231 / 100 : ℝ) = 31 / 100 := by
    rw [Int.fract_eq_iff]
    refine ⟨by norm_num, by norm_num, 2, by norm_num⟩
  simp only [hfr] at h
  have := log_values.2.1
  norm_num at h
  linarith

theorem log2_gt : (30095 : ℝ) / 100000 < Real.logb 10 2 := by
  have h2 := le_logb_of_pow (x := 2) (n := 196) (m := 59) (by norm_num) (by norm_num)
  push_cast at h2
  refine lt_of_lt_of_le ?_ h2
  norm_num

/-- C149, negative: an axis from 0.0005 to 0.3009 has no tick between its limits. -/
theorem C149_counterexample : ¬ (⟨5 / 10000, 3009 / 10000, 5, 10⟩ : Req).Seen := by
  rw [C149_iff_partial rfl rfl (by norm_num), not_not]
  have hfr : Int.fract (5 / 10000 : ℝ) = 5 / 10000 := Int.fract_eq_self.2 ⟨by norm_num, by norm_num⟩
  simp only [hfr]
  refine ⟨by norm_num, by norm_num, ?_⟩
  have := log2_gt
  norm_num at this ⊢
  linarith

end Verif.Geometry.LogTicker
