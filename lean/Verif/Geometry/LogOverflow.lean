import Verif.Geometry.LogTicker

/-!
C138: `LogTicker` at the ends of the range of floats (`nion/utils/Geometry.py:240-249`). The limits of a log ticker are exponents. For each
decade, `math.pow` raises `OverflowError` if the power is too large for a float and gives zero if it is too small, of which `math.log`
raises `ValueError`; a multiple of a power that is too large is the float infinity, whose logarithm is infinity.

Powers, products and logarithms are otherwise exact, as in `LogTicker.lean`. A real number is too large if it is at least `2 ^ 1024`, and
too small if it is at most `2 ^ -1075`; for the decades of base 10 (no power of ten is near these numbers) rounding makes no difference.
-/

set_option linter.unusedSectionVars false

open scoped Classical

namespace Verif.Geometry.LogTicker

/-- `math.pow(base, x)`; `none` is an `OverflowError`. -/
noncomputable def powF (b : ℤ) (x : ℝ) : Option ℝ :=
  if (2 : ℝ) ^ 1024 ≤ (b : ℝ) ^ x then none else if (b : ℝ) ^ x ≤ ((2 : ℝ) ^ 1075)⁻¹ then some 0 else some ((b : ℝ) ^ x)

/-- `sub * decade`; `⊤` is infinity. -/
noncomputable def mulF (s : ℤ) (v : ℝ) : WithTop ℝ := if (2 : ℝ) ^ 1024 ≤ s * v then ⊤ else ((s * v : ℝ) : WithTop ℝ)

/-- `math.log(value, base)` for what is not negative; `none` is a `ValueError`. -/
noncomputable def logF (b : ℤ) : WithTop ℝ → Option (WithTop ℝ)
  | none => some ⊤
  | some v => if v = 0 then none else some ((Real.logb b v : ℝ) : WithTop ℝ)

theorem logF_coe (b : ℤ) (v : ℝ) : logF b (v : WithTop ℝ) = if v = 0 then none else some ((Real.logb b v : ℝ) : WithTop ℝ) := rfl

theorem logF_top (b : ℤ) : logF b ⊤ = some ⊤ := rfl

/-- Lines 242-246: the values of a decade. -/
noncomputable def Req.groupF (q : Req) (d : ℤ) : Option (List (WithTop ℝ)) :=
  (powF q.base (d * q.factor)).map fun v : ℝ => (v : WithTop ℝ) :: q.subs.map fun s : ℤ => mulF s v

/-- The results of all, or `none` if there is one that raises. -/
noncomputable def allSome {α β : Type*} (f : α → Option β) : List α → Option (List β)
  | [] => some []
  | a :: l => (f a).bind fun b => (allSome f l).map fun bs => b :: bs

/-- Lines 240-249: the tick positions; `none` is an exception. -/
noncomputable def Req.valuesF (q : Req) : Option (List (WithTop ℝ)) :=
  (allSome q.groupF q.decades).bind fun vs => allSome (logF q.base) vs.flatten

/-! ### Proofs -/

section
variable {α β : Type*}

theorem allSome_some {f : α → Option β} {g : α → β} {l : List α} (h : ∀ a ∈ l, f a = some (g a)) : allSome f l = some (l.map g) := by
  induction l with
  | nil => rfl
  | cons a l ih =>
    rw [allSome, h a (by simp), ih fun x hx => h x (List.mem_cons_of_mem _ hx)]
    rfl

theorem allSome_none {f : α → Option β} {l : List α} {a : α} (ha : a ∈ l) (h : f a = none) : allSome f l = none := by
  induction l with
  | nil => cases ha
  | cons b l ih =>
    rw [allSome]
    rcases List.mem_cons.1 ha with rfl | ha
    · rw [h]; rfl
    · rw [ih ha]
      cases f b <;> rfl

theorem allSome_mem {f : α → Option β} : ∀ {l : List α} {bs : List β}, allSome f l = some bs → ∀ a ∈ l, ∃ b ∈ bs, f a = some b
  | [], _, _, a, ha => by cases ha
  | x :: l, bs, h, a, ha => by
    rw [allSome, Option.bind_eq_some_iff] at h
    obtain ⟨b, hb, h⟩ := h
    rw [Option.map_eq_some_iff] at h
    obtain ⟨cs, hcs, rfl⟩ := h
    rcases List.mem_cons.1 ha with rfl | ha
    · exact ⟨b, by simp, hb⟩
    · obtain ⟨c, hc, e⟩ := allSome_mem hcs a ha
      exact ⟨c, List.mem_cons_of_mem _ hc, e⟩

end

theorem pow_bounds : (10 : ℝ) ^ 308 < 2 ^ 1024 ∧ (2 : ℝ) ^ 1024 < 2 * 10 ^ 308 ∧ (2 : ℝ) ^ 1024 ≤ 10 ^ 309 ∧
    (10 : ℝ) ^ 323 < 2 ^ 1075 ∧ (2 : ℝ) ^ 1075 ≤ 10 ^ 324 := by
  have h : (10 : ℕ) ^ 308 < 2 ^ 1024 ∧ (2 : ℕ) ^ 1024 < 2 * 10 ^ 308 ∧ (2 : ℕ) ^ 1024 ≤ 10 ^ 309 ∧
      (10 : ℕ) ^ 323 < 2 ^ 1075 ∧ (2 : ℕ) ^ 1075 ≤ 10 ^ 324 := by decide +kernel
  obtain ⟨h1, h2, h3, h4, h5⟩ := h
  exact ⟨by exact_mod_cast h1, by exact_mod_cast h2, by exact_mod_cast h3, by exact_mod_cast h4, by exact_mod_cast h5⟩

/-- Powers of ten with exponents from -323 to 308 are neither too large nor too small. -/
theorem powF_ok {x : ℝ} (h1 : -323 ≤ x) (h2 : x ≤ 308) : powF 10 x = some (10 ^ x) ∧ (10 : ℝ) ^ x ≠ 0 := by
  obtain ⟨b1, -, -, b4, -⟩ := pow_bounds
  have u : (10 : ℝ) ^ x ≤ 10 ^ 308 := by
    rw [← Real.rpow_natCast 10 308]
    exact Real.rpow_le_rpow_of_exponent_le (by norm_num) (by simpa using h2)
  have l : ((10 : ℝ) ^ 323)⁻¹ ≤ 10 ^ x := by
    rw [← Real.rpow_natCast 10 323, ← Real.rpow_neg (by norm_num)]
    exact Real.rpow_le_rpow_of_exponent_le (by norm_num) (by simpa using h1)
  have l' : ((2 : ℝ) ^ 1075)⁻¹ < ((10 : ℝ) ^ 323)⁻¹ := inv_strictAnti₀ (by positivity) b4
  have c1 : ¬ (2 : ℝ) ^ 1024 ≤ ((10 : ℤ) : ℝ) ^ x := by
    push_cast
    exact not_le.2 (lt_of_le_of_lt u b1)
  have c2 : ¬ ((10 : ℤ) : ℝ) ^ x ≤ ((2 : ℝ) ^ 1075)⁻¹ := by
    push_cast
    exact not_le.2 (lt_of_lt_of_le l' l)
  refine ⟨?_, (Real.rpow_pos_of_pos (by norm_num) x).ne'⟩
  rw [powF, if_neg c1, if_neg c2]
  norm_num

/-- C138: if the decades are between -323 and 308, and at most 307 where there are minor ticks, the ticker does not raise and its ticks
are those of exact arithmetic, all finite. -/
theorem C138_finite_partial {q : Req} (h : q.Ok) (hb : q.base = 10)
    (hd : ∀ d ∈ q.decades, -323 ≤ (d : ℝ) * q.factor ∧ (d : ℝ) * q.factor ≤ 308)
    (hs : q.subs ≠ [] → ∀ d ∈ q.decades, d ≤ 307) :
    q.valuesF = some (q.values.map fun v : ℝ => (v : WithTop ℝ)) := by
  have hg : ∀ d ∈ q.decades, q.groupF d = some ((q.group d).map fun v : ℝ => (v : WithTop ℝ)) := by
    intro d hd'
    obtain ⟨h1, h2⟩ := hd d hd'
    rw [Req.groupF, hb, (powF_ok h1 h2).1]
    simp only [Option.map_some, Req.group, hb, List.map_cons, List.map_map, Int.cast_ofNat]
    congr 2
    refine List.map_congr_left fun s hs' => ?_
    obtain ⟨hf, -, hs10⟩ := mem_subs h hs'
    have h307 := hs (List.ne_nil_of_mem hs') d hd'
    rw [Function.comp_apply, mulF, if_neg]
    rw [hf, mul_one] at *
    rw [not_le]
    have hs9 : (s : ℝ) ≤ 9 := by
      rw [hb] at hs10
      exact_mod_cast (show s ≤ 9 by omega)
    have u : (10 : ℝ) ^ (d : ℝ) ≤ 10 ^ 307 := by
      rw [← Real.rpow_natCast 10 307]
      exact Real.rpow_le_rpow_of_exponent_le (by norm_num) (by exact_mod_cast h307)
    have p : (0 : ℝ) ≤ 10 ^ (d : ℝ) := (Real.rpow_pos_of_pos (by norm_num) _).le
    calc (s : ℝ) * 10 ^ (d : ℝ) ≤ 9 * 10 ^ 307 := mul_le_mul hs9 u p (by norm_num)
      _ < 2 ^ 1024 := by
        have : 9 * (10 : ℕ) ^ 307 < 2 ^ 1024 := by decide +kernel
        exact_mod_cast this
  have hpos : ∀ v ∈ q.loop.1, v ≠ 0 := by
    intro v hv
    rw [values_eq, List.mem_flatMap] at hv
    obtain ⟨d, -, hv⟩ := hv
    have p : (0 : ℝ) < (q.base : ℝ) ^ ((d : ℝ) * q.factor) := Real.rpow_pos_of_pos (by linarith [base_gt h]) _
    rcases List.mem_cons.1 hv with rfl | hv
    · exact p.ne'
    · obtain ⟨s, hs', rfl⟩ := List.mem_map.1 hv
      have := (mem_subs h hs').2.1
      have : (0 : ℝ) < s := by exact_mod_cast (show (0 : ℤ) < s by omega)
      positivity
  rw [Req.valuesF, allSome_some hg, Option.bind_some]
  have hfl : (q.decades.map fun d => (q.group d).map fun v : ℝ => (v : WithTop ℝ)).flatten =
      q.loop.1.map fun v : ℝ => (v : WithTop ℝ) := by
    rw [values_eq, List.map_flatMap, List.flatMap_def]
  rw [hfl, allSome_some (g := fun v : WithTop ℝ => v.map (Real.logb q.base)), Req.values, List.map_map, List.map_map]
  · rfl
  · intro v hv
    obtain ⟨w, hw, rfl⟩ := List.mem_map.1 hv
    rw [logF_coe, if_neg (hpos w hw)]
    rfl

theorem rpow_int (d : ℤ) : (10 : ℝ) ^ (d : ℝ) = 10 ^ d := Real.rpow_intCast 10 d

theorem powF_large {d : ℤ} (h : 309 ≤ d) : powF 10 d = none := by
  rw [powF, if_pos]
  push_cast
  have : ((10 : ℝ) ^ 309) ≤ 10 ^ (d : ℝ) := by
    rw [← Real.rpow_natCast 10 309]
    exact Real.rpow_le_rpow_of_exponent_le (by norm_num) (by exact_mod_cast h)
  exact pow_bounds.2.2.1.trans this

theorem powF_small {d : ℤ} (h : d ≤ -324) : powF 10 d = some 0 := by
  have u : (10 : ℝ) ^ (d : ℝ) ≤ ((10 : ℝ) ^ 324)⁻¹ := by
    rw [← Real.rpow_natCast 10 324, ← Real.rpow_neg (by norm_num)]
    exact Real.rpow_le_rpow_of_exponent_le (by norm_num) (by exact_mod_cast h)
  have u' : ((10 : ℝ) ^ 324)⁻¹ ≤ ((2 : ℝ) ^ 1075)⁻¹ := inv_anti₀ (by positivity) pow_bounds.2.2.2.2
  have u'' : ((2 : ℝ) ^ 1075)⁻¹ < 2 ^ 1024 := by
    refine lt_of_lt_of_le (inv_lt_one_of_one_lt₀ (one_lt_pow₀ (by norm_num) (by norm_num))) (one_le_pow₀ (by norm_num))
  rw [powF, if_neg, if_pos]
  · push_cast
    exact u.trans u'
  · push_cast
    exact not_le.2 (lt_of_le_of_lt (u.trans u') u'')

/-- C138, exactly, for base 10 and decades one apart or more: the ticker gives finite ticks just if all its decades are from -323 to 308,
and to 307 if there are minor ticks. -/
theorem C138_iff_partial {q : Req} (h : q.Ok) (hb : q.base = 10) (hf : q.factor = 1) :
    (∃ ts, q.valuesF = some ts ∧ ⊤ ∉ ts) ↔ (∀ d ∈ q.decades, -323 ≤ d ∧ d ≤ 308) ∧ (q.subs ≠ [] → ∀ d ∈ q.decades, d ≤ 307) := by
  constructor
  · rintro ⟨ts, e, ht⟩
    rw [Req.valuesF, Option.bind_eq_some_iff] at e
    obtain ⟨vs, hvs, e⟩ := e
    have key : ∀ d ∈ q.decades, -323 ≤ d ∧ d ≤ 308 ∧ (q.subs ≠ [] → d ≤ 307) := by
      intro d hd
      obtain ⟨l, hl, hg⟩ := allSome_mem hvs d hd
      rw [Req.groupF, hb, hf, mul_one, Option.map_eq_some_iff] at hg
      obtain ⟨v, hv, rfl⟩ := hg
      have h308 : d ≤ 308 := by
        by_contra hc
        rw [powF_large (by omega)] at hv
        cases hv
      have h323 : -323 ≤ d := by
        by_contra hc
        rw [powF_small (by omega)] at hv
        injection hv with hv
        subst hv
        obtain ⟨b, -, hb'⟩ := allSome_mem e ((0 : ℝ) : WithTop ℝ) (List.mem_flatten.2 ⟨_, hl, by simp⟩)
        rw [logF_coe, if_pos rfl] at hb'
        cases hb'
      refine ⟨h323, h308, fun hne => ?_⟩
      by_contra hc
      have hd308 : d = 308 := by omega
      subst hd308
      obtain ⟨s, hs⟩ := List.exists_mem_of_ne_nil _ hne
      have hv' := (powF_ok (x := ((308 : ℤ) : ℝ)) (by norm_num) (by norm_num)).1
      rw [hv'] at hv
      injection hv with hv
      have htop : mulF s v = ⊤ := by
        rw [mulF, if_pos]
        have hs2 : (2 : ℝ) ≤ s := by exact_mod_cast (mem_subs h hs).2.1
        rw [← hv, rpow_int]
        have : (10 : ℝ) ^ (308 : ℤ) = 10 ^ 308 := zpow_natCast 10 308
        rw [this]
        exact pow_bounds.2.1.le.trans (mul_le_mul_of_nonneg_right hs2 (by positivity))
      obtain ⟨b, hbm, hb'⟩ := allSome_mem e ⊤ (List.mem_flatten.2 ⟨_, hl, by
        rw [← htop]
        exact List.mem_cons_of_mem _ (List.mem_map_of_mem hs)⟩)
      rw [logF_top] at hb'
      injection hb' with hb'
      exact ht (hb' ▸ hbm)
    exact ⟨fun d hd => ⟨(key d hd).1, (key d hd).2.1⟩, fun hne d hd => (key d hd).2.2 hne⟩
  · rintro ⟨h1, h2⟩
    refine ⟨_, C138_finite_partial h hb ?_ h2, by simp⟩
    intro d hd
    rw [hf, mul_one]
    exact ⟨by exact_mod_cast (h1 d hd).1, by exact_mod_cast (h1 d hd).2⟩

theorem allSome_isSome {α β : Type*} {f : α → Option β} {l : List α} (h : ∀ a ∈ l, ∃ b, f a = some b) :
    ∃ bs, allSome f l = some bs ∧ ∀ b ∈ bs, ∃ a ∈ l, f a = some b := by
  induction l with
  | nil => exact ⟨[], rfl, by simp⟩
  | cons a l ih =>
    obtain ⟨b, hb⟩ := h a (by simp)
    obtain ⟨bs, hbs, hm⟩ := ih fun x hx => h x (List.mem_cons_of_mem _ hx)
    refine ⟨b :: bs, by rw [allSome, hb, hbs]; rfl, ?_⟩
    intro c hc
    rcases List.mem_cons.1 hc with rfl | hc
    · exact ⟨a, by simp, hb⟩
    · obtain ⟨x, hx, e⟩ := hm c hc
      exact ⟨x, List.mem_cons_of_mem _ hx, e⟩

/-- C138, exactly, for base 10 and decades one apart or more: the ticker raises just if one of its decades is below -323 or above 308. -/
theorem C138_raises_iff_partial {q : Req} (h : q.Ok) (hb : q.base = 10) (hf : q.factor = 1) :
    q.valuesF = none ↔ ∃ d ∈ q.decades, d < -323 ∨ 308 < d := by
  constructor
  · intro e
    by_contra hc
    push Not at hc
    have hg : ∀ d ∈ q.decades, ∃ l, q.groupF d = some l := by
      intro d hd
      obtain ⟨h1, h2⟩ := hc d hd
      rw [Req.groupF, hb, hf, mul_one, (powF_ok (by exact_mod_cast h1) (by exact_mod_cast h2)).1]
      exact ⟨_, rfl⟩
    obtain ⟨vs, hvs, hm⟩ := allSome_isSome hg
    have hl : ∀ v ∈ vs.flatten, ∃ t, logF q.base v = some t := by
      intro v hv
      obtain ⟨l, hl, hv⟩ := List.mem_flatten.1 hv
      obtain ⟨d, hd, e⟩ := hm l hl
      obtain ⟨h1, h2⟩ := hc d hd
      have hp := powF_ok (x := (d : ℝ)) (by exact_mod_cast h1) (by exact_mod_cast h2)
      rw [Req.groupF, hb, hf, mul_one, hp.1] at e
      injection e with e
      subst e
      rcases List.mem_cons.1 hv with rfl | hv
      · exact ⟨_, by rw [logF_coe, if_neg hp.2]⟩
      · obtain ⟨s, hs, rfl⟩ := List.mem_map.1 hv
        rw [mulF]
        split_ifs
        · exact ⟨_, logF_top _⟩
        · have hs2 := (mem_subs h hs).2.1
          have hs0 : (s : ℝ) ≠ 0 := by exact_mod_cast (show s ≠ 0 by omega)
          exact ⟨_, by rw [logF_coe, if_neg (mul_ne_zero hs0 hp.2)]⟩
    obtain ⟨ts, hts, -⟩ := allSome_isSome hl
    rw [Req.valuesF, hvs, Option.bind_some, hts] at e
    cases e
  · rintro ⟨d, hd, hlt⟩
    by_contra hc
    obtain ⟨ts, e⟩ := Option.ne_none_iff_exists'.1 hc
    rw [Req.valuesF, Option.bind_eq_some_iff] at e
    obtain ⟨vs, hvs, e⟩ := e
    obtain ⟨l, hl, hg⟩ := allSome_mem hvs d hd
    rw [Req.groupF, hb, hf, mul_one, Option.map_eq_some_iff] at hg
    obtain ⟨v, hv, rfl⟩ := hg
    rcases hlt with hlt | hlt
    · rw [powF_small (by omega)] at hv
      injection hv with hv
      subst hv
      obtain ⟨b, -, hb'⟩ := allSome_mem e ((0 : ℝ) : WithTop ℝ) (List.mem_flatten.2 ⟨_, hl, by simp⟩)
      rw [logF_coe, if_pos rfl] at hb'
      cases hb'
    · rw [powF_large (by omega)] at hv
      cases hv

/-- C138, for limits in order, base 10: if the lower limit is at least -323 and the upper limit, or the decade above the lower one, plus the
step of the decades is at most 308, the ticks are finite and those of exact arithmetic. -/
theorem C138_limits_partial {q : Req} (h : q.Ok) (hb : q.base = 10) (hf : q.factor = 1) (hl : -323 ≤ q.low)
    (hh : max ⌈q.high⌉ (⌊q.low⌋ + 1) + q.division ≤ 308) :
    q.valuesF = some (q.values.map fun v : ℝ => (v : WithTop ℝ)) := by
  have hd : ∀ d ∈ q.decades, -323 ≤ d ∧ d ≤ 307 := by
    intro d hd
    obtain ⟨h1, h2⟩ := mem_arangeI (lt_of_lt_of_le one_pos division_pos) hd
    rw [min0_one hf] at h1
    rw [max0_one hf] at h2
    have : -323 ≤ ⌊q.low⌋ := Int.le_floor.2 (by exact_mod_cast hl)
    omega
  refine C138_finite_partial h hb ?_ fun _ d hd' => (hd d hd').2
  intro d hd'
  rw [hf, mul_one]
  obtain ⟨h1, h2⟩ := hd d hd'
  exact ⟨by exact_mod_cast h1, by exact_mod_cast (show d ≤ 308 by omega)⟩

theorem mem_decades {q : Req} (k : ℕ) (h : k * q.division < q.max0 + q.division - q.min0) : q.min0 + k * q.division ∈ q.decades := by
  rw [Req.decades, arangeI, List.mem_map]
  refine ⟨k, ?_, rfl⟩
  rw [List.mem_range, Int.lt_toNat, Int.lt_ceil, lt_div_iff₀ (by exact_mod_cast lt_of_lt_of_le one_pos division_pos)]
  exact_mod_cast h

/-- C138 is false: data from 1 to 1e306 (five ticks). The decades are 61 apart, the last one is 366, and the ticker raises. -/
theorem C138_counterexample_raises : (⟨0, 306, 5, 10⟩ : Req).valuesF = none := by
  set q : Req := ⟨0, 306, 5, 10⟩ with hq
  have hr : q.range = 306 := by rw [Req.range, hq]; norm_num [abs_of_pos]
  have hf : q.factor = 1 := factor_one (by rw [hr, hq]; norm_num)
  have h0 : q.min0 = 0 := by rw [min0_one hf]; simp [hq]
  have h1 : q.max0 = 306 := by
    rw [max0_one hf]
    simp [hq]
  have hn : q.numdec = 306 := by
    rw [Req.numdec, if_pos hf, h0, h1, hr, show ((306 : ℤ) - 0).toNat = 306 from rfl, shrink_eq (by norm_num)]
    rfl
  have hd : q.division = 61 := by rw [Req.division, hn, hq]; decide
  have hm := mem_decades (q := q) 6 (by rw [h0, h1, hd]; norm_num)
  rw [h0, hd] at hm
  exact (C138_raises_iff_partial ⟨by norm_num [hq], by norm_num [hq]⟩ rfl hf).2 ⟨_, hm, .inr (by norm_num)⟩

/-- C138 is false: for the limits 306 and 307.5 there is a tick at infinity (five times 1e308). -/
theorem C138_counterexample_infinite : ∃ ts, (⟨306, 615 / 2, 5, 10⟩ : Req).valuesF = some ts ∧ ⊤ ∈ ts := by
  set q : Req := ⟨306, 615 / 2, 5, 10⟩ with hq
  have hok : q.Ok := ⟨by norm_num [hq], by norm_num [hq]⟩
  have hr : q.range = 3 / 2 := by rw [Req.range, hq]; norm_num [abs_of_pos]
  have hf : q.factor = 1 := factor_one (by rw [hr, hq]; norm_num)
  have hh : ⌈(615 / 2 : ℝ)⌉ = 308 := by rw [Int.ceil_eq_iff]; norm_num
  have h0 : q.min0 = 306 := by rw [min0_one hf]; simp [hq]
  have h1 : q.max0 = 308 := by
    rw [max0_one hf]
    simp [hq, hh]
  have hn : q.numdec = 2 := by
    rw [Req.numdec, if_pos hf, h0, h1, hr, show ((308 : ℤ) - 306).toNat = 2 from rfl, shrink_eq (by norm_num)]
    rfl
  have hd : q.division = 1 := by rw [Req.division, hn, hq]; decide
  have hs : q.subs ≠ [] := by
    have : q.numSubs = 10 / 3 := by
      rw [Req.numSubs, hr, hd, if_pos (by norm_num)]
      norm_num [hq]
    rw [Req.subs, this, if_neg (not_not.2 hf)]
    norm_num [hq]
  have hdec : ∀ d ∈ q.decades, 306 ≤ d ∧ d < 309 := by
    intro d hd'
    have := mem_arangeI (lt_of_lt_of_le one_pos division_pos) hd'
    rw [h0, h1, hd] at this
    exact this
  have hm := mem_decades (q := q) 2 (by rw [h0, h1, hd]; norm_num)
  rw [h0, hd] at hm
  have hne : q.valuesF ≠ none := by
    rw [Ne, C138_raises_iff_partial hok rfl hf]
    rintro ⟨d, hd', hlt⟩
    have := hdec d hd'
    omega
  obtain ⟨ts, e⟩ := Option.ne_none_iff_exists'.1 hne
  refine ⟨ts, e, ?_⟩
  by_contra hc
  have := ((C138_iff_partial hok rfl hf).1 ⟨ts, e, hc⟩).2 hs _ hm
  norm_num at this

/-- C138 is false: the smallest floats, with the lower limit -323.5, raise. -/
theorem C138_counterexample_small : (⟨-(647 / 2), -300, 5, 10⟩ : Req).valuesF = none := by
  set q : Req := ⟨-(647 / 2), -300, 5, 10⟩ with hq
  have hr : q.range = 47 / 2 := by rw [Req.range, hq]; norm_num [abs_of_pos]
  have hf : q.factor = 1 := factor_one (by rw [hr, hq]; norm_num)
  have hl : ⌊(-(647 / 2) : ℝ)⌋ = -324 := by rw [Int.floor_eq_iff]; norm_num
  have h0 : q.min0 = -324 := by rw [min0_one hf]; exact hl
  have hc : q.min0 + 1 ≤ q.max0 := le_max_right _ _
  have hm := mem_decades (q := q) 0 (by
    have := division_pos (q := q)
    push_cast
    omega)
  rw [h0] at hm
  exact (C138_raises_iff_partial ⟨by norm_num [hq], by norm_num [hq]⟩ rfl hf).2 ⟨_, hm, .inl (by norm_num)⟩

/-- The limits 0 and 200: the ticks are finite. -/
example : (⟨0, 200, 5, 10⟩ : Req).valuesF = some ((⟨0, 200, 5, 10⟩ : Req).values.map fun v : ℝ => (v : WithTop ℝ)) := by
  set q : Req := ⟨0, 200, 5, 10⟩ with hq
  have hr : q.range = 200 := by rw [Req.range, hq]; norm_num [abs_of_pos]
  have hf : q.factor = 1 := factor_one (by rw [hr, hq]; norm_num)
  have h0 : q.min0 = 0 := by rw [min0_one hf]; simp [hq]
  have h1 : q.max0 = 200 := by
    rw [max0_one hf]
    simp [hq]
  have hn : q.numdec = 200 := by
    rw [Req.numdec, if_pos hf, h0, h1, hr, show ((200 : ℤ) - 0).toNat = 200 from rfl, shrink_eq (by norm_num)]
    rfl
  have hd : q.division = 40 := by rw [Req.division, hn, hq]; decide
  refine C138_limits_partial ⟨by norm_num [hq], by norm_num [hq]⟩ rfl hf (by norm_num [hq]) ?_
  rw [hd]
  simp [hq]

end Verif.Geometry.LogTicker
