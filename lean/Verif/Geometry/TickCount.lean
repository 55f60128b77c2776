import Verif.Geometry.LogTicker

/-!
C125: the number of ticks of the logarithmic ticker, in relation to the number asked for; the decades which are ticks.
-/

namespace Verif.Geometry.LogTicker

open Real

variable {q : Req}

/-- The number of decades. -/
theorem decades_bounds : 2 ≤ q.decades.length ∧ ((q.decades.length : ℤ) - 2) * q.division < q.max0 - q.min0 ∧
    q.max0 - q.min0 ≤ ((q.decades.length : ℤ) - 1) * q.division := by
  have hd := division_pos (q := q)
  have hN : q.min0 + 1 ≤ q.max0 := le_max_right _ _
  have hc := count_pos (q := q)
  obtain ⟨n, hn⟩ := Int.eq_ofNat_of_zero_le hc.le
  have hlen : q.decades.length = n := by
    rw [Req.decades, arangeI, List.length_map, List.length_range, hn]
    rfl
  rw [hlen]
  have hd0 : (0 : ℝ) < q.division := by exact_mod_cast lt_of_lt_of_le one_pos hd
  obtain ⟨h1, h2⟩ := Int.ceil_eq_iff.1 hn
  rw [lt_div_iff₀ hd0] at h1
  rw [div_le_iff₀ hd0] at h2
  have h1' : ((n : ℤ) - 1) * q.division < q.max0 + q.division - q.min0 := by exact_mod_cast h1
  have h2' : q.max0 + q.division - q.min0 ≤ (n : ℤ) * q.division := by exact_mod_cast h2
  refine ⟨?_, by linarith, by linarith⟩
  by_contra hlt
  have : (n : ℤ) ≤ 1 := by omega
  nlinarith

theorem width_lt (h : q.Ok) : ((q.max0 - q.min0 : ℤ) : ℝ) < q.range / q.factor + 2 := by
  have hf := factor_pos h
  have hr : 0 ≤ q.range := abs_nonneg _
  have h1 : (q.high - q.low) / q.factor ≤ q.range / q.factor := div_le_div_of_nonneg_right (le_abs_self _) hf.le
  rcases max_choice ⌈q.high / q.factor⌉ (q.min0 + 1) with hm | hm
  · rw [Req.max0, hm, Req.min0]
    push_cast
    have h2 := Int.ceil_lt_add_one (q.high / q.factor)
    have h3 := Int.lt_floor_add_one (q.low / q.factor)
    rw [sub_div] at h1
    linarith
  · rw [Req.max0, hm]
    have : 0 ≤ q.range / q.factor := div_nonneg hr hf.le
    push_cast
    linarith

theorem shrink_lt {r : ℝ} {n : ℕ} (h : shrink r n < n) : 3 / 2 * r < shrink r n + 1 := by
  induction n with
  | zero => simp [shrink] at h
  | succ n ih =>
    rw [shrink] at h ⊢
    split
    · rename_i hc
      rcases (shrink_le r n).lt_or_eq with hlt | heq
      · exact ih hlt
      · rw [heq]
        exact_mod_cast hc
    · rename_i hc
      rw [if_neg hc] at h
      omega

theorem numdec_bounds (h : q.Ok) : 0 ≤ q.numdec ∧ q.numdec ≤ q.max0 - q.min0 ∧ q.max0 - q.min0 ≤ q.numdec + 2 := by
  have hN : q.min0 + 1 ≤ q.max0 := le_max_right _ _
  rw [Req.numdec]
  split_ifs with hf
  · obtain ⟨n, hn⟩ := Int.eq_ofNat_of_zero_le (show 0 ≤ q.max0 - q.min0 by omega)
    have hw := width_lt h
    rw [hn, hf, div_one] at hw
    rw [hn, Int.toNat_natCast]
    have hle := shrink_le q.range n
    refine ⟨by positivity, by exact_mod_cast hle, ?_⟩
    rcases hle.lt_or_eq with hlt | heq
    · have h1 := shrink_lt hlt
      have h0 : (0 : ℝ) ≤ q.range := abs_nonneg _
      have h2 : (n : ℝ) < shrink q.range n + 3 := by
        have h3 : ((n : ℤ) : ℝ) = (n : ℝ) := by norm_cast
        rw [h3] at hw
        linarith
      have h3 : n < shrink q.range n + 3 := by exact_mod_cast h2
      omega
    · omega
  · omega

theorem numdec_lt (h : q.Ok) : q.numdec + 1 < q.ticks * (q.division + 1) := by
  have ht := h.ticks
  have h1 : (q.numdec + 1).fdiv q.ticks ≤ q.division := le_max_left _ _
  rw [Int.fdiv_eq_ediv_of_nonneg _ (by omega)] at h1
  have h2 := Int.lt_ediv_add_one_mul_self (q.numdec + 1) (show 0 < q.ticks by omega)
  nlinarith

theorem decades_le (h : q.Ok) : (q.decades.length : ℤ) ≤ 2 * q.ticks + 1 := by
  obtain ⟨-, h1, -⟩ := decades_bounds (q := q)
  obtain ⟨-, -, h2⟩ := numdec_bounds h
  have h3 := numdec_lt h
  have hd := division_pos (q := q)
  have ht := h.ticks
  by_contra hc
  have h4 : 2 * q.ticks ≤ (q.decades.length : ℤ) - 2 := by omega
  have h5 : 2 * q.ticks * q.division ≤ ((q.decades.length : ℤ) - 2) * q.division :=
    mul_le_mul_of_nonneg_right h4 (by omega)
  nlinarith

theorem values_length : q.values.length = q.decades.length * (1 + q.subs.length) := by
  rw [Req.values, List.length_map, values_eq, List.length_flatMap]
  have : (fun d => (q.group d).length) = fun _ => 1 + q.subs.length := by
    funext d
    rw [Req.group, List.length_cons, List.length_map, add_comm]
  rw [this]
  simp

theorem minor_count : q.minor.length = q.decades.length * q.subs.length := by
  have : ∀ (ds : List ℤ) (acc : List ℝ × List ℕ), (ds.foldl q.addDecade acc).2.length = acc.2.length + ds.length * q.subs.length := by
    intro ds
    induction ds with
    | nil => simp
    | cons d ds ih =>
      intro acc
      rw [List.foldl_cons, ih, addDecade_eq]
      simp
      ring
  rw [Req.minor, Req.loop, this]
  simp

/-- C125: besides the minor ticks there are at least two and at most twice as many ticks as asked for, plus one. -/
theorem C125_decades (h : q.Ok) : q.minor.length + 2 ≤ q.values.length ∧
    ((q.values.length : ℤ) - q.minor.length) ≤ 2 * q.ticks + 1 := by
  have h1 := decades_le h
  obtain ⟨h2, -, -⟩ := decades_bounds (q := q)
  rw [values_length, minor_count, mul_add, mul_one]
  constructor
  · omega
  · push_cast
    linarith

theorem length_arangeI {a b s : ℤ} (hs : 0 < s) (hab : a ≤ b) : (((arangeI a b s).length : ℤ) - 1) * s < b - a := by
  rw [arangeI, List.length_map, List.length_range]
  have hs' : (0 : ℝ) < s := by exact_mod_cast hs
  have h1 := Int.ceil_lt_add_one (((b - a : ℤ) : ℝ) / s)
  rw [← sub_lt_iff_lt_add, lt_div_iff₀ hs'] at h1
  have h2 : (0 : ℝ) ≤ ((b - a : ℤ) : ℝ) / s := div_nonneg (by exact_mod_cast (by omega : 0 ≤ b - a)) hs'.le
  have h3 : 0 ≤ ⌈((b - a : ℤ) : ℝ) / s⌉ := Int.ceil_nonneg h2
  rw [Int.toNat_of_nonneg h3]
  exact_mod_cast h1

/-- With minor ticks, the number of decades is at most the range in units of the division, plus four. -/
theorem decades_lt (h : q.Ok) (hf : q.factor = 1) : (q.decades.length : ℝ) < q.range / q.division + 4 := by
  obtain ⟨-, h1, -⟩ := decades_bounds (q := q)
  have hw := width_lt h
  rw [hf, div_one] at hw
  have hd : (1 : ℝ) ≤ q.division := by exact_mod_cast division_pos
  have h2 : ((q.decades.length : ℝ) - 2) * q.division < q.range + 2 := by
    have : (((q.decades.length : ℤ) - 2) * q.division : ℤ) < ((q.max0 - q.min0 : ℤ) : ℝ) := by exact_mod_cast h1
    push_cast at this hw
    linarith
  rw [← lt_div_iff₀ (by linarith), add_div] at h2
  have h3 : 2 / (q.division : ℝ) ≤ 2 := div_le_self (by norm_num) hd
  linarith

theorem numSubs_le {c : ℝ} (hc : 0 < c) (hn : q.numSubs ≥ c) : c * (q.range / q.division) ≤ q.ticks := by
  rw [Req.numSubs] at hn
  split_ifs at hn with hr
  · have hd : (0 : ℝ) < q.division := by exact_mod_cast lt_of_lt_of_le one_pos division_pos
    rwa [ge_iff_le, le_div_iff₀ (div_pos hr hd)] at hn
  · linarith

/-- C125: there are at most four times as many ticks as asked for, plus four times the base. -/
theorem C125_total (h : q.Ok) : (q.values.length : ℤ) ≤ 4 * q.ticks + 4 * q.base := by
  have hL := decades_le h
  have hb := h.base
  have ht := h.ticks
  rw [values_length]
  push_cast
  rw [mul_add, mul_one]
  have hLr : (q.decades.length : ℝ) ≤ 2 * q.ticks + 1 := by exact_mod_cast hL
  have htr : (1 : ℝ) ≤ q.ticks := by exact_mod_cast ht
  rw [Req.subs]
  split_ifs with hf h2 h3 h4
  · simp only [List.length_nil, Nat.cast_zero]
    linarith
  · have hf := not_not.1 hf
    have hk := length_arangeI (a := 2) (b := q.base) one_pos hb
    have hk' : ((arangeI 2 q.base 1).length : ℝ) ≤ q.base - 2 := by
      have : ((arangeI 2 q.base 1).length : ℤ) ≤ q.base - 2 := by omega
      exact_mod_cast this
    have hLX := decades_lt h hf
    rcases hb.eq_or_lt with hb2 | hb3
    · have h0 : (arangeI 2 q.base 1).length = 0 := by omega
      rw [h0]
      push_cast
      linarith
    · have hc : (0 : ℝ) < q.base - 2 := by
        have : (2 : ℝ) < q.base := by exact_mod_cast hb3
        linarith
      have h5 := numSubs_le hc h2
      have h6 : (q.decades.length : ℝ) * (arangeI 2 q.base 1).length ≤ q.decades.length * (q.base - 2) :=
        mul_le_mul_of_nonneg_left hk' (by positivity)
      have h7 : (q.decades.length : ℝ) * (q.base - 2) ≤ (q.range / q.division + 4) * (q.base - 2) :=
        mul_le_mul_of_nonneg_right hLX.le hc.le
      have h8 : (q.decades.length : ℝ) + q.decades.length * (arangeI 2 q.base 1).length ≤ 4 * q.ticks + 4 * q.base := by
        linarith
      exact_mod_cast h8
  · have hf := not_not.1 hf
    have hk := length_arangeI (a := 2) (b := q.base) two_pos hb
    have hLX := decades_lt h hf
    have hb3 : 3 ≤ q.base := by
      by_contra hlt
      have hb2 : q.base = 2 := by omega
      rw [hb2] at h2
      exact h2 (by simpa using numSubs_nonneg h)
    rcases hb3.eq_or_lt with hb3 | hb4
    · have h0 : (arangeI 2 q.base 2).length ≤ 1 := by omega
      have h1 : (q.decades.length : ℤ) * ((arangeI 2 q.base 2).length : ℤ) ≤ q.decades.length * 1 :=
        mul_le_mul_of_nonneg_left (by exact_mod_cast h0) (by positivity)
      linarith
    · have hbr : (4 : ℝ) ≤ q.base := by exact_mod_cast hb4
      have hk' : ((arangeI 2 q.base 2).length : ℝ) ≤ 3 / 4 * (q.base - 2) := by
        have : 2 * ((arangeI 2 q.base 2).length : ℤ) ≤ q.base - 1 := by omega
        have : 2 * ((arangeI 2 q.base 2).length : ℝ) ≤ q.base - 1 := by exact_mod_cast this
        linarith
      have h5 := numSubs_le (c := (q.base - 2) * (1 / 2)) (by linarith) h3
      have h6 : (q.decades.length : ℝ) * (arangeI 2 q.base 2).length ≤ q.decades.length * (3 / 4 * (q.base - 2)) :=
        mul_le_mul_of_nonneg_left hk' (by positivity)
      have h7 : (q.decades.length : ℝ) * (3 / 4 * (q.base - 2)) ≤ (q.range / q.division + 4) * (3 / 4 * (q.base - 2)) :=
        mul_le_mul_of_nonneg_right hLX.le (by linarith)
      have h8 : (q.decades.length : ℝ) + q.decades.length * (arangeI 2 q.base 2).length ≤ 4 * q.ticks + 4 * q.base := by
        linarith
      exact_mod_cast h8
  · simp only [List.length_singleton, Nat.cast_one]
    linarith
  · simp only [List.length_nil, Nat.cast_zero]
    linarith

/-- C125: if twice the number of ticks asked for exceeds the range (in units: one decade, or the fraction of it the ticker uses for
small ranges) by three, each unit between the limits is a tick. -/
theorem C125_every (h : q.Ok) (hr : q.range / q.factor + 3 ≤ 2 * q.ticks) (z : ℤ) (hl : q.low ≤ z * q.factor)
    (hh : z * q.factor ≤ q.high) : (z : ℝ) * q.factor ∈ q.values := by
  have hf := factor_pos h
  have hw := width_lt h
  have hN : q.max0 - q.min0 + 1 < 2 * q.ticks := by
    have : ((q.max0 - q.min0 + 1 : ℤ) : ℝ) < 2 * q.ticks := by
      push_cast at hw ⊢
      linarith
    exact_mod_cast this
  obtain ⟨h1, h2, -⟩ := numdec_bounds h
  have ht := h.ticks
  have hdiv : q.division = 1 := by
    rw [Req.division, Int.fdiv_eq_ediv_of_nonneg _ (by omega)]
    have : (q.numdec + 1) / q.ticks < 2 := Int.ediv_lt_of_lt_mul (by omega) (by omega)
    omega
  have hz1 : q.min0 ≤ z := by
    have h3 : q.low / q.factor ≤ z := by rwa [div_le_iff₀ hf]
    have h4 := (Int.floor_le (q.low / q.factor)).trans h3
    exact_mod_cast h4
  have hz2 : z ≤ q.max0 := by
    have h3 : (z : ℝ) ≤ q.high / q.factor := by rwa [le_div_iff₀ hf]
    have h4 := h3.trans (Int.le_ceil (q.high / q.factor))
    have h5 : z ≤ ⌈q.high / q.factor⌉ := by exact_mod_cast h4
    exact h5.trans (le_max_left _ _)
  refine decade_mem ?_ h
  rw [Req.decades, hdiv, arangeI, List.mem_map]
  refine ⟨(z - q.min0).toNat, ?_, by omega⟩
  rw [List.mem_range, Int.cast_one, div_one, Int.ceil_intCast]
  omega

/-- five ticks for limits 0 and 4: each decade is a tick -/
example (z : ℤ) (h0 : 0 ≤ z) (h4 : z ≤ 4) : (z : ℝ) ∈ (⟨0, 4, 5, 10⟩ : Req).values := by
  have hr : (⟨0, 4, 5, 10⟩ : Req).range = 4 := by norm_num [Req.range]
  have hf : (⟨0, 4, 5, 10⟩ : Req).factor = 1 := factor_one (by rw [hr]; norm_num)
  have := C125_every (q := ⟨0, 4, 5, 10⟩) ⟨by norm_num, by norm_num⟩ (by rw [hr, hf]; norm_num) z
    (by rw [hf, mul_one]; show (0 : ℝ) ≤ z; exact_mod_cast h0) (by rw [hf, mul_one]; show (z : ℝ) ≤ 4; exact_mod_cast h4)
  rwa [hf, mul_one] at this

end Verif.Geometry.LogTicker
