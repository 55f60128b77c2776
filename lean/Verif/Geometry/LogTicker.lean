import Verif.Geometry.Labels
import Mathlib.Analysis.SpecialFunctions.Log.Base
import Mathlib.Analysis.SpecialFunctions.Pow.Real
import Mathlib.Analysis.Complex.ExponentialBounds

/-!
`LogTicker` (`nion/utils/Geometry.py:193-261`), C71, C97, C98, over the real numbers: logarithms and powers are exact. The limits are
finite, the base is at least 2 and at least one tick is asked for (in the theorems; fewer raise or give nonsense).
-/

set_option linter.unusedSectionVars false

open scoped Classical

namespace Verif.Geometry.LogTicker

/-- What is asked for (lines 195-197). -/
structure Req where
  low : ℝ
  high : ℝ
  ticks : ℤ
  base : ℤ

/-- Line 207. -/
noncomputable def Req.range (q : Req) : ℝ := |q.high - q.low|

/-- Line 208. -/
noncomputable def Req.factor (q : Req) : ℝ :=
  if ((q.ticks : ℝ) - 2) / q.base > q.range ∧ q.range > 0 then (q.base : ℝ) ^ ⌊Real.logb q.base q.range⌋ else 1

/-- Line 209. -/
noncomputable def Req.min0 (q : Req) : ℤ := ⌊q.low / q.factor⌋

/-- Line 210. -/
noncomputable def Req.max0 (q : Req) : ℤ := max ⌈q.high / q.factor⌉ (q.min0 + 1)

/-- Line 211. -/
noncomputable def Req.precision (q : Req) : ℤ := round |Real.logb q.base q.factor|

/-- Lines 215-216, for a factor of one. -/
noncomputable def shrink (range : ℝ) : ℕ → ℕ
  | 0 => 0
  | n + 1 => if ((n + 1 : ℕ) : ℝ) > 3 / 2 * range then shrink range n else n + 1

/-- Lines 213-216. -/
noncomputable def Req.numdec (q : Req) : ℤ :=
  if q.factor = 1 then (shrink q.range (q.max0 - q.min0).toNat : ℕ) else q.max0 - q.min0

/-- Line 218. -/
noncomputable def Req.division (q : Req) : ℤ := max ((q.numdec + 1).fdiv q.ticks) 1

/-- Lines 204-205, for integers. -/
noncomputable def arangeI (start stop step : ℤ) : List ℤ :=
  (List.range ⌈((stop - start : ℤ) : ℝ) / step⌉.toNat).map fun (x : ℕ) => start + x * step

/-- Line 219. -/
noncomputable def Req.decades (q : Req) : List ℤ := arangeI q.min0 (q.max0 + q.division) q.division

/-- Line 221. -/
noncomputable def Req.max1 (q : Req) : ℤ := if q.factor = 1 then q.min0 + q.numdec else q.max0

/-- Line 223. -/
noncomputable def Req.numSubs (q : Req) : ℝ := if q.range > 0 then q.ticks / (q.range / q.division) else 0

/-- `round(base * 0.5)`: halves to the even number. -/
def roundHalf (b : ℤ) : ℤ := if b % 2 = 0 then b / 2 else if (b / 2) % 2 = 0 then b / 2 else b / 2 + 1

/-- Lines 225-234. -/
noncomputable def Req.subs (q : Req) : List ℤ :=
  if q.factor ≠ 1 then []
  else if q.numSubs ≥ q.base - 2 then arangeI 2 q.base 1
  else if q.numSubs ≥ (q.base - 2) * (1 / 2) then arangeI 2 q.base 2
  else if q.numSubs ≥ (q.base - 2) * (1 / 4) then [roundHalf q.base]
  else []

/-- Lines 236-238. -/
noncomputable def Req.max2 (q : Req) : ℝ :=
  if q.subs ≠ [] ∧ q.high ≥ q.max1 then
    (⌊q.high⌋ : ℝ) + Real.logb q.base ((⌊(q.base : ℝ) ^ (q.high - ⌊q.high⌋)⌋ : ℝ) + 1)
  else q.max1

/-- Lines 244-246: the values and indices of a decade. -/
noncomputable def addSub (decade : ℝ) (acc : List ℝ × List ℕ) (sub : ℤ) : List ℝ × List ℕ :=
  let values := acc.1 ++ [sub * decade]
  (values, acc.2 ++ [values.length - 1])

/-- Lines 241-246. -/
noncomputable def Req.addDecade (q : Req) (acc : List ℝ × List ℕ) (start : ℤ) : List ℝ × List ℕ :=
  let decade := (q.base : ℝ) ^ (start * q.factor)
  q.subs.foldl (addSub decade) (acc.1 ++ [decade], acc.2)

/-- Lines 240-246. -/
noncomputable def Req.loop (q : Req) : List ℝ × List ℕ := q.decades.foldl q.addDecade ([], [])

/-- Line 249. -/
noncomputable def Req.values (q : Req) : List ℝ := q.loop.1.map (Real.logb q.base)

/-- Lines 248, 256-257. -/
noncomputable def Req.labels (q : Req) : List Label := q.loop.1.map (formatE q.precision)

/-- The indices of the minor ticks. -/
noncomputable def Req.minor (q : Req) : List ℕ := q.loop.2

/-- Line 252. -/
noncomputable def Req.maximum (q : Req) : ℝ := q.max2 * q.factor

/-- Line 254. -/
noncomputable def Req.minimum (q : Req) : ℝ := q.low - (q.maximum - q.low) * (1 / 100)

/-! ### The loop -/

variable {q : Req}

theorem foldl_addSub (decade : ℝ) (subs : List ℤ) (acc : List ℝ × List ℕ) :
    subs.foldl (addSub decade) acc =
      (acc.1 ++ subs.map (fun s : ℤ => (s : ℝ) * decade), acc.2 ++ List.range' acc.1.length subs.length) := by
  induction subs generalizing acc with
  | nil => simp
  | cons s subs ih =>
    rw [List.foldl_cons, ih]
    simp [addSub, List.range'_succ]

/-- The values of a decade. -/
noncomputable def Req.group (q : Req) (d : ℤ) : List ℝ :=
  (q.base : ℝ) ^ (d * q.factor) :: q.subs.map fun s : ℤ => (s : ℝ) * (q.base : ℝ) ^ (d * q.factor)

theorem addDecade_eq (acc : List ℝ × List ℕ) (d : ℤ) :
    q.addDecade acc d = (acc.1 ++ q.group d, acc.2 ++ List.range' (acc.1.length + 1) q.subs.length) := by
  rw [Req.addDecade, foldl_addSub]
  simp [Req.group]

theorem loop_values (ds : List ℤ) (acc : List ℝ × List ℕ) : (ds.foldl q.addDecade acc).1 = acc.1 ++ ds.flatMap q.group := by
  induction ds generalizing acc with
  | nil => simp
  | cons d ds ih => rw [List.foldl_cons, ih, addDecade_eq]; simp

theorem values_eq : q.loop.1 = q.decades.flatMap q.group := by
  rw [Req.loop, loop_values]
  simp

/-- A request the theorems speak about. -/
structure Req.Ok (q : Req) : Prop where
  base : 2 ≤ q.base
  ticks : 1 ≤ q.ticks

theorem base_gt (h : q.Ok) : (1 : ℝ) < q.base := by
  have : (2 : ℝ) ≤ q.base := by exact_mod_cast h.base
  linarith

theorem factor_pos (h : q.Ok) : 0 < q.factor := by
  rw [Req.factor]
  split
  · exact zpow_pos (by linarith [base_gt h]) _
  · exact one_pos

theorem division_pos : 1 ≤ q.division := le_max_right _ _

theorem mem_arangeI {a b s x : ℤ} (hs : 0 < s) (h : x ∈ arangeI a b s) : a ≤ x ∧ x < b := by
  rw [arangeI, List.mem_map] at h
  obtain ⟨k, hk, rfl⟩ := h
  rw [List.mem_range, Int.lt_toNat, Int.lt_ceil, lt_div_iff₀ (by exact_mod_cast hs)] at hk
  have hk' : (k : ℤ) * s < b - a := by exact_mod_cast hk
  constructor
  · nlinarith
  · linarith

theorem pairwise_arangeI {a b s : ℤ} (hs : 0 < s) : (arangeI a b s).Pairwise (· < ·) := by
  rw [arangeI, List.pairwise_map]
  refine List.pairwise_lt_range.imp fun {i j} hij => ?_
  have : (i : ℤ) < j := by exact_mod_cast hij
  nlinarith

theorem roundHalf_mem {b : ℤ} (h : 3 ≤ b) : 1 < roundHalf b ∧ roundHalf b < b := by
  rw [roundHalf]
  split_ifs <;> omega

theorem numSubs_nonneg (h : q.Ok) : 0 ≤ q.numSubs := by
  rw [Req.numSubs]
  split
  · have h1 : (0 : ℝ) ≤ q.ticks := by exact_mod_cast le_trans zero_le_one h.ticks
    have h2 : (0 : ℝ) ≤ q.division := by exact_mod_cast le_trans zero_le_one division_pos
    positivity
  · exact le_rfl

/-- The multiples between decades are between one and the base, and only there without a factor. -/
theorem mem_subs (h : q.Ok) {s : ℤ} (hs : s ∈ q.subs) : q.factor = 1 ∧ 1 < s ∧ s < q.base := by
  rw [Req.subs] at hs
  split_ifs at hs with h1 h2 h3 h4
  · simp at hs
  · have := mem_arangeI (by norm_num) hs
    exact ⟨not_not.1 h1, by omega, this.2⟩
  · have := mem_arangeI (by norm_num) hs
    exact ⟨not_not.1 h1, by omega, this.2⟩
  · rw [List.mem_singleton] at hs
    subst hs
    have h3 : 3 ≤ q.base := by
      by_contra hc
      have : q.base = 2 := by have := h.base; omega
      rw [this] at h2
      exact h2 (by simpa using numSubs_nonneg h)
    exact ⟨not_not.1 h1, roundHalf_mem h3⟩
  · simp at hs

theorem subs_sorted : q.subs.Pairwise (· < ·) := by
  rw [Req.subs]
  split_ifs
  · exact .nil
  · exact pairwise_arangeI (by norm_num)
  · exact pairwise_arangeI (by norm_num)
  · simp
  · exact .nil

theorem logb_decade (h : q.Ok) (d : ℤ) : Real.logb q.base ((q.base : ℝ) ^ (d * q.factor)) = d * q.factor :=
  Real.logb_rpow (by linarith [base_gt h]) (base_gt h).ne'

theorem logb_sub (h : q.Ok) (d : ℤ) {s : ℤ} (hs : s ∈ q.subs) :
    Real.logb q.base (s * (q.base : ℝ) ^ (d * q.factor)) = Real.logb q.base s + d * q.factor := by
  have h1 := mem_subs h hs
  have h2 : (0 : ℝ) < s := by exact_mod_cast (show (0 : ℤ) < s by omega)
  rw [Real.logb_mul h2.ne' (Real.rpow_pos_of_pos (by linarith [base_gt h]) _).ne', logb_decade h]

theorem logb_sub_bounds (h : q.Ok) {s : ℤ} (hs : s ∈ q.subs) : 0 < Real.logb q.base s ∧ Real.logb q.base s < 1 := by
  obtain ⟨-, h1, h2⟩ := mem_subs h hs
  have h1' : (1 : ℝ) < s := by exact_mod_cast h1
  have h2' : (s : ℝ) < q.base := by exact_mod_cast h2
  refine ⟨Real.logb_pos (base_gt h) h1', ?_⟩
  rw [Real.logb_lt_iff_lt_rpow (base_gt h) (by linarith), Real.rpow_one]
  exact h2'

/-- The ticks: each decade, followed by its multiples. -/
theorem ticks_eq (h : q.Ok) : q.values =
    q.decades.flatMap fun d : ℤ => (d : ℝ) * q.factor :: q.subs.map fun s : ℤ => Real.logb q.base s + d * q.factor := by
  rw [Req.values, values_eq, List.map_flatMap]
  congr 1
  funext d
  rw [Req.group, List.map_cons, logb_decade h, List.map_map]
  congr 1
  refine List.map_congr_left fun s hs => ?_
  simp only [Function.comp_apply]
  exact logb_sub h d hs

/-! ### C71 -/

/-- C71: the ticks are strictly increasing. -/
theorem C71_increasing (h : q.Ok) : q.values.Pairwise (· < ·) := by
  rw [ticks_eq h, List.pairwise_flatMap]
  constructor
  · intro d _
    rw [List.pairwise_cons, List.pairwise_map]
    constructor
    · intro x hx
      obtain ⟨s, hs, rfl⟩ := List.mem_map.1 hx
      linarith [(logb_sub_bounds h hs).1]
    · refine List.Pairwise.imp_of_mem (fun {s t} hs ht hst => ?_) subs_sorted
      have h1 : (0 : ℝ) < s := by
        have := (mem_subs h hs).2.1
        exact_mod_cast (show (0 : ℤ) < s by omega)
      have := Real.logb_lt_logb (base_gt h) h1 (show (s : ℝ) < t by exact_mod_cast hst)
      linarith
  · refine (pairwise_arangeI (lt_of_lt_of_le one_pos division_pos)).imp fun {d e} hde x hx y hy => ?_
    have hf := factor_pos h
    have hde' : (d : ℝ) + 1 ≤ e := by exact_mod_cast hde
    have hx' : x < (d + 1) * q.factor := by
      rcases List.mem_cons.1 hx with rfl | hx
      · nlinarith
      · obtain ⟨s, hs, rfl⟩ := List.mem_map.1 hx
        have := (logb_sub_bounds h hs).2
        rw [(mem_subs h hs).1]
        linarith
    have hy' : e * q.factor ≤ y := by
      rcases List.mem_cons.1 hy with rfl | hy
      · exact le_rfl
      · obtain ⟨s, hs, rfl⟩ := List.mem_map.1 hy
        linarith [(logb_sub_bounds h hs).1]
    nlinarith

/-- C71: the label of each tick is that of the value whose logarithm the tick is. -/
theorem C71_labels (h : q.Ok) : q.labels = q.values.map fun v => formatE q.precision ((q.base : ℝ) ^ v) := by
  rw [Req.labels, Req.values, List.map_map]
  refine List.map_congr_left fun v hv => ?_
  simp only [Function.comp_apply]
  rw [Real.rpow_logb (by linarith [base_gt h]) (base_gt h).ne']
  rw [values_eq, List.mem_flatMap] at hv
  obtain ⟨d, -, hv⟩ := hv
  have hp : (0 : ℝ) < (q.base : ℝ) ^ (d * q.factor) := Real.rpow_pos_of_pos (by linarith [base_gt h]) _
  rcases List.mem_cons.1 hv with rfl | hv
  · exact hp
  · obtain ⟨s, hs, rfl⟩ := List.mem_map.1 hv
    have := (mem_subs h hs).2.1
    exact mul_pos (by exact_mod_cast (show (0 : ℤ) < s by omega)) hp

/-- What the claim says of the minor indices. -/
structure MinorOf (b f : ℝ) (values : List ℝ) (minor : List ℕ) : Prop where
  sorted : minor.Pairwise (· < ·)
  mem : ∀ i, i ∈ minor ↔ ∃ v, values[i]? = some v ∧ ¬ ∃ z : ℤ, Real.logb b v = z * f

theorem minor_step (h : q.Ok) (acc : List ℝ × List ℕ) (d : ℤ) (ha : MinorOf q.base q.factor acc.1 acc.2) :
    MinorOf q.base q.factor (q.addDecade acc d).1 (q.addDecade acc d).2 := by
  have hlt : ∀ i ∈ acc.2, i < acc.1.length := by
    intro i hi
    obtain ⟨v, hv, -⟩ := (ha.mem i).1 hi
    exact (List.getElem?_eq_some_iff.1 hv).1
  rw [addDecade_eq]
  constructor
  · rw [List.pairwise_append]
    refine ⟨ha.sorted, List.pairwise_lt_range', fun i hi j hj => ?_⟩
    have := hlt i hi
    rw [List.mem_range'_1] at hj
    omega
  · intro i
    rw [List.mem_append, List.mem_range'_1]
    by_cases h1 : i < acc.1.length
    · rw [List.getElem?_append_left h1, ← ha.mem i]
      constructor
      · rintro (hi | hi)
        · exact hi
        · omega
      · exact .inl
    · rw [List.getElem?_append_right (by omega), Req.group]
      have hn : i ∉ acc.2 := fun hi => h1 (hlt i hi)
      rcases Nat.eq_or_lt_of_le (not_lt.1 h1) with h2 | h2
      · rw [← h2]
        simp only [Nat.sub_self, List.getElem?_cons_zero, Option.some.injEq, exists_eq_left']
        constructor
        · rintro (hi | hi)
          · exact absurd (h2 ▸ hi) hn
          · omega
        · intro hz
          exact absurd ⟨d, logb_decade h d⟩ hz
      · obtain ⟨j, rfl⟩ : ∃ j, i = acc.1.length + 1 + j := ⟨i - acc.1.length - 1, by omega⟩
        have : acc.1.length + 1 + j - acc.1.length = j + 1 := by omega
        rw [this, List.getElem?_cons_succ, List.getElem?_map]
        constructor
        · rintro (hi | hi)
          · exact absurd hi hn
          · have hj : j < q.subs.length := by omega
            refine ⟨_, by rw [List.getElem?_eq_getElem hj]; rfl, ?_⟩
            have hs := List.getElem_mem hj
            rw [logb_sub h d hs]
            rintro ⟨z, hz⟩
            have hb := logb_sub_bounds h hs
            rw [(mem_subs h hs).1] at hz
            have e1 : ((z - d : ℤ) : ℝ) < 1 := by push_cast; linarith
            have e2 : (0 : ℝ) < ((z - d : ℤ) : ℝ) := by push_cast; linarith
            have e1' : z - d < 1 := by exact_mod_cast e1
            have e2' : 0 < z - d := by exact_mod_cast e2
            omega
        · rintro ⟨v, hv, -⟩
          rw [Option.map_eq_some_iff] at hv
          obtain ⟨s, hs, -⟩ := hv
          have := (List.getElem?_eq_some_iff.1 hs).1
          exact .inr (by omega)

theorem minor_loop (h : q.Ok) : MinorOf q.base q.factor q.loop.1 q.loop.2 := by
  rw [Req.loop]
  suffices ∀ (ds : List ℤ) (acc : List ℝ × List ℕ), MinorOf q.base q.factor acc.1 acc.2 →
      MinorOf q.base q.factor (ds.foldl q.addDecade acc).1 (ds.foldl q.addDecade acc).2 from
    this _ _ ⟨.nil, by simp⟩
  intro ds
  induction ds with
  | nil => exact fun _ h => h
  | cons d ds ih => exact fun acc ha => ih _ (minor_step h acc d ha)

/-- C71: the minor indices are those of the ticks which are not decades (multiples of the factor, which is one unless the range is
small), each once, in order. -/
theorem C71_minor (h : q.Ok) : q.minor.Pairwise (· < ·) ∧
    ∀ i, i ∈ q.minor ↔ ∃ v, q.values[i]? = some v ∧ ¬ ∃ z : ℤ, v = z * q.factor := by
  have hm := minor_loop h
  refine ⟨hm.sorted, fun i => ?_⟩
  rw [Req.minor, hm.mem i, Req.values, List.getElem?_map]
  constructor
  · rintro ⟨v, hv, hz⟩
    exact ⟨_, by rw [hv]; rfl, hz⟩
  · rintro ⟨v, hv, hz⟩
    obtain ⟨w, hw, rfl⟩ := Option.map_eq_some_iff.1 hv
    exact ⟨w, hw, hz⟩

theorem decade_mem {d : ℤ} (hd : d ∈ q.decades) (h : q.Ok) : (d : ℝ) * q.factor ∈ q.values := by
  rw [ticks_eq h, List.mem_flatMap]
  exact ⟨d, hd, List.mem_cons_self⟩

theorem count_pos : 0 < ⌈((q.max0 + q.division - q.min0 : ℤ) : ℝ) / q.division⌉ := by
  rw [Int.ceil_pos]
  have h1 := division_pos (q := q)
  have h2 : q.min0 + 1 ≤ q.max0 := le_max_right _ _
  refine div_pos ?_ (by exact_mod_cast lt_of_lt_of_le one_pos h1)
  exact_mod_cast (show 0 < q.max0 + q.division - q.min0 by omega)

/-- The lowest decade is a tick, and there are ticks at or above each limit. -/
theorem C71_ends (h : q.Ok) :
    ∃ a b, a ∈ q.values ∧ b ∈ q.values ∧ a = ⌊q.low / q.factor⌋ * q.factor ∧ max q.low q.high ≤ b := by
  have hf := factor_pos h
  have hc := count_pos (q := q)
  obtain ⟨n, hn⟩ := Int.eq_ofNat_of_zero_le hc.le
  have hn0 : 0 < n := by omega
  have hd : ∀ k < n, q.min0 + (k : ℤ) * q.division ∈ q.decades := by
    intro k hk
    rw [Req.decades, arangeI, List.mem_map]
    exact ⟨k, by rw [List.mem_range, hn]; exact hk, rfl⟩
  refine ⟨_, _, decade_mem (hd 0 hn0) h, decade_mem (hd (n - 1) (by omega)) h, ?_, ?_⟩
  · simp [Req.min0]
  · have h1 : (q.max0 : ℝ) ≤ ((q.min0 + ((n - 1 : ℕ) : ℤ) * q.division : ℤ) : ℝ) := by
      have hle := Int.le_ceil (((q.max0 + q.division - q.min0 : ℤ) : ℝ) / q.division)
      rw [hn, div_le_iff₀ (by exact_mod_cast lt_of_lt_of_le one_pos division_pos)] at hle
      have hle' : q.max0 + q.division - q.min0 ≤ (n : ℤ) * q.division := by exact_mod_cast hle
      have : q.max0 ≤ q.min0 + ((n - 1 : ℕ) : ℤ) * q.division := by
        push_cast [Nat.cast_sub (show 1 ≤ n from hn0)]
        linarith
      exact_mod_cast this
    have h2 : q.high ≤ q.max0 * q.factor := by
      have h3 := Int.le_ceil (q.high / q.factor)
      rw [div_le_iff₀ hf] at h3
      refine h3.trans (mul_le_mul_of_nonneg_right ?_ hf.le)
      exact_mod_cast le_max_left _ _
    have h3 : q.low ≤ q.max0 * q.factor := by
      have h4 := (Int.lt_floor_add_one (q.low / q.factor)).le
      rw [div_le_iff₀ hf] at h4
      refine h4.trans (mul_le_mul_of_nonneg_right ?_ hf.le)
      have : q.min0 + 1 ≤ q.max0 := le_max_right _ _
      have h5 : ((q.min0 + 1 : ℤ) : ℝ) ≤ q.max0 := by exact_mod_cast this
      simpa [Req.min0] using h5
    exact (max_le h3 h2).trans (mul_le_mul_of_nonneg_right h1 hf.le)

/-- C71 (partial: limits in order): there are ticks at or below and at or above both limits. -/
theorem C71_covers_partial (h : q.Ok) (hlh : q.low ≤ q.high) :
    ∃ a b, a ∈ q.values ∧ b ∈ q.values ∧ a ≤ min q.low q.high ∧ max q.low q.high ≤ b := by
  obtain ⟨a, b, ha, hb, h1, h2⟩ := C71_ends h
  refine ⟨a, b, ha, hb, ?_, h2⟩
  rw [min_eq_left hlh, h1, ← le_div_iff₀ (factor_pos h)]
  exact Int.floor_le _

theorem factor_one (h : ((q.ticks : ℝ) - 2) / q.base ≤ q.range) : q.factor = 1 := by
  rw [Req.factor, if_neg]
  rintro ⟨h', -⟩
  exact absurd h' (not_lt.2 h)

theorem min0_one (h : q.factor = 1) : q.min0 = ⌊q.low⌋ := by rw [Req.min0, h, div_one]

theorem max0_one (h : q.factor = 1) : q.max0 = max ⌈q.high⌉ (⌊q.low⌋ + 1) := by rw [Req.max0, h, div_one, min0_one h]

theorem min_le_tick (h : q.Ok) {v : ℝ} (hv : v ∈ q.values) : q.min0 * q.factor ≤ v := by
  rw [ticks_eq h, List.mem_flatMap] at hv
  obtain ⟨d, hd, hv⟩ := hv
  have h1 := (mem_arangeI (lt_of_lt_of_le one_pos division_pos) hd).1
  have h2 : (q.min0 : ℝ) * q.factor ≤ d * q.factor :=
    mul_le_mul_of_nonneg_right (by exact_mod_cast h1) (factor_pos h).le
  rcases List.mem_cons.1 hv with rfl | hv
  · exact h2
  · obtain ⟨s, hs, rfl⟩ := List.mem_map.1 hv
    linarith [(logb_sub_bounds h hs).1]

/-- C71, exactly: the ticks cover the limits just if they are in order or the lowest tick is at or below the upper limit. -/
theorem C71_covers_iff_partial (h : q.Ok) :
    (∃ a b, a ∈ q.values ∧ b ∈ q.values ∧ a ≤ min q.low q.high ∧ max q.low q.high ≤ b) ↔
      q.low ≤ q.high ∨ ⌊q.low / q.factor⌋ * q.factor ≤ q.high := by
  constructor
  · rintro ⟨a, b, ha, -, h1, -⟩
    exact .inr ((min_le_tick h ha).trans (h1.trans (min_le_right _ _)))
  · rintro (hlh | hle)
    · exact C71_covers_partial h hlh
    · rcases le_total q.low q.high with hlh | hlh
      · exact C71_covers_partial h hlh
      · rw [min_eq_right hlh, max_eq_left hlh]
        obtain ⟨a, b, ha, hb, h1, h2⟩ := C71_ends h
        exact ⟨a, b, ha, hb, h1.le.trans hle, (le_max_left _ _).trans h2⟩

/-- C71, counterexample: all ticks from 5 to 0 are at or above 5. -/
theorem C71_counterexample : ∀ v ∈ (⟨5, 0, 5, 10⟩ : Req).values, 5 ≤ v := by
  intro v hv
  have hf : (⟨5, 0, 5, 10⟩ : Req).factor = 1 := factor_one (by norm_num [Req.range])
  have := min_le_tick ⟨by norm_num, by norm_num⟩ hv
  rw [min0_one hf, hf] at this
  simpa using this

/-! ### C97: the limits for display -/

theorem shrink_le (r : ℝ) (n : ℕ) : shrink r n ≤ n := by
  induction n with
  | zero => exact le_rfl
  | succ n ih =>
    rw [shrink]
    split
    · omega
    · exact le_rfl

theorem shrink_eq {r : ℝ} {n : ℕ} (h : (n : ℝ) ≤ 3 / 2 * r) : shrink r n = n := by
  cases n with
  | zero => rfl
  | succ n => rw [shrink, if_neg (not_lt.2 h)]

theorem high_le_max0 (h : q.Ok) : q.high ≤ q.max0 * q.factor := by
  have h3 := Int.le_ceil (q.high / q.factor)
  rw [div_le_iff₀ (factor_pos h)] at h3
  refine h3.trans (mul_le_mul_of_nonneg_right ?_ (factor_pos h).le)
  exact_mod_cast le_max_left _ _

/-- C97 (partial: there are minor ticks, or a factor, or the decades are at most 3/2 of the range): the minimum and maximum enclose the
limits. -/
theorem C97_limits_partial (h : q.Ok) (hlh : q.low ≤ q.high)
    (hp : q.minor ≠ [] ∨ q.factor ≠ 1 ∨ ((q.max0 - q.min0 : ℤ) : ℝ) ≤ 3 / 2 * q.range) :
    q.minimum ≤ q.low ∧ q.high ≤ q.maximum := by
  have hmax : q.high ≤ q.maximum := by
    rw [Req.maximum, Req.max2]
    split_ifs with hc
    · obtain ⟨s, hs⟩ := List.exists_mem_of_ne_nil _ hc.1
      rw [(mem_subs h hs).1, mul_one]
      have hb := base_gt h
      have hpos : (0 : ℝ) < (q.base : ℝ) ^ (q.high - ⌊q.high⌋) := Real.rpow_pos_of_pos (by linarith) _
      have h1 := Int.lt_floor_add_one ((q.base : ℝ) ^ (q.high - ⌊q.high⌋))
      have h2 := Real.logb_le_logb_of_le hb hpos h1.le
      rw [Real.logb_rpow (by linarith) hb.ne'] at h2
      linarith
    · rcases hp with hp | hp | hp
      · have hs : q.subs ≠ [] := by
          rintro hs
          apply hp
          rw [Req.minor, Req.loop]
          have : ∀ (ds : List ℤ) (acc : List ℝ × List ℕ), (ds.foldl q.addDecade acc).2 = acc.2 := by
            intro ds
            induction ds with
            | nil => exact fun _ => rfl
            | cons d ds ih => intro acc; rw [List.foldl_cons, ih, addDecade_eq, hs]; simp
          rw [this]
        obtain ⟨s, hs'⟩ := List.exists_mem_of_ne_nil _ hs
        rw [(mem_subs h hs').1, mul_one]
        by_contra hlt
        exact hc ⟨hs, (not_le.1 hlt).le⟩
      · rw [Req.max1, if_neg hp]
        exact high_le_max0 h
      · have : q.max1 = q.max0 := by
          have h2 : q.min0 + 1 ≤ q.max0 := le_max_right _ _
          obtain ⟨n, hn⟩ := Int.eq_ofNat_of_zero_le (show 0 ≤ q.max0 - q.min0 by omega)
          rw [Req.max1, Req.numdec]
          split
          · rw [hn] at hp ⊢
            rw [Int.toNat_natCast, shrink_eq (by exact_mod_cast hp)]
            omega
          · rfl
        rw [this]
        exact high_le_max0 h
  refine ⟨?_, hmax⟩
  rw [Req.minimum]
  linarith

theorem minor_length (ds : List ℤ) (acc : List ℝ × List ℕ) :
    (ds.foldl q.addDecade acc).2.length = acc.2.length + ds.length * q.subs.length := by
  induction ds generalizing acc with
  | nil => simp
  | cons d ds ih => rw [List.foldl_cons, ih, addDecade_eq]; simp; ring

/-- There are minor ticks exactly if there are multiples between decades. -/
theorem minor_nil : q.minor = [] ↔ q.subs = [] := by
  have hlen : q.minor.length = q.decades.length * q.subs.length := by
    rw [Req.minor, Req.loop, minor_length]; simp
  have hd : 0 < q.decades.length := by
    have h1 : q.min0 + 1 ≤ q.max0 := le_max_right _ _
    have h2 := division_pos (q := q)
    rw [Req.decades, arangeI, List.length_map, List.length_range, Int.lt_toNat, Int.lt_ceil]
    have h3 : (0 : ℝ) < q.division := by exact_mod_cast h2
    have h4 : (0 : ℝ) < ((q.max0 + q.division - q.min0 : ℤ) : ℝ) := by exact_mod_cast (by omega : 0 < q.max0 + q.division - q.min0)
    simpa using div_pos h4 h3
  constructor
  · intro h
    rw [h] at hlen
    have : q.subs.length = 0 := by
      rcases Nat.mul_eq_zero.1 hlen.symm with h0 | h0
      · omega
      · exact h0
    exact List.length_eq_zero_iff.1 this
  · intro h
    rw [h] at hlen
    exact List.length_eq_zero_iff.1 (by simpa using hlen)

theorem shrink_min {r : ℝ} (hr : 0 ≤ r) (n : ℕ) : ((shrink r n : ℕ) : ℤ) = min (n : ℤ) ⌊3 / 2 * r⌋ := by
  have h0 : 0 ≤ ⌊3 / 2 * r⌋ := Int.floor_nonneg.2 (by positivity)
  induction n with
  | zero => rw [shrink]; simp [h0]
  | succ n ih =>
    rw [shrink]
    split
    · rename_i hlt
      have : ⌊3 / 2 * r⌋ < ((n + 1 : ℕ) : ℤ) := Int.floor_lt.2 (by exact_mod_cast hlt)
      rw [ih]
      push_cast at this ⊢
      omega
    · rename_i hge
      have : ((n + 1 : ℕ) : ℤ) ≤ ⌊3 / 2 * r⌋ := Int.le_floor.2 (by exact_mod_cast not_lt.1 hge)
      omega

/-- C97, exactly: the minimum and maximum enclose the limits if and only if there are minor ticks, or a factor, or the upper limit is at
most the floor of the lower one plus the floor of 3/2 of the range. (Partial: the other limits are not enclosed.) -/
theorem C97_iff_partial (h : q.Ok) (hlh : q.low ≤ q.high) :
    (q.minimum ≤ q.low ∧ q.high ≤ q.maximum) ↔
      (q.minor ≠ [] ∨ q.factor ≠ 1 ∨ q.high ≤ ⌊q.low⌋ + ⌊3 / 2 * (q.high - q.low)⌋) := by
  have hr : q.range = q.high - q.low := by rw [Req.range, abs_of_nonneg (by linarith)]
  have hmin : q.minimum ≤ q.low ↔ q.low ≤ q.maximum := by rw [Req.minimum]; constructor <;> intro h <;> linarith
  by_cases hm : q.minor = []
  · by_cases hf : q.factor = 1
    · have hs := minor_nil.1 hm
      have h2 : q.min0 + 1 ≤ q.max0 := le_max_right _ _
      have hmax : q.maximum = ((min q.max0 (q.min0 + ⌊3 / 2 * q.range⌋) : ℤ) : ℝ) := by
        rw [Req.maximum, Req.max2, if_neg (by simp [hs]), hf, mul_one, Req.max1, if_pos hf, Req.numdec, if_pos hf,
          shrink_min (by rw [hr]; linarith), Int.toNat_of_nonneg (by omega)]
        congr 1
        omega
      have h3 := high_le_max0 h
      rw [hf, mul_one] at h3
      have hiff : q.high ≤ q.maximum ↔ q.high ≤ ⌊q.low⌋ + ⌊3 / 2 * (q.high - q.low)⌋ := by
        rw [hmax, Int.cast_min, le_min_iff, min0_one hf, hr]
        push_cast
        exact ⟨fun h => h.2, fun h => ⟨h3, h⟩⟩
      rw [hmin, ← hiff]
      constructor
      · exact fun h => .inr (.inr h.2)
      · rintro (h' | h' | h')
        · exact absurd hm h'
        · exact absurd hf h'
        · exact ⟨le_trans hlh h', h'⟩
    · exact ⟨fun _ => .inr (.inl hf), fun _ => C97_limits_partial h hlh (.inr (.inl hf))⟩
  · exact ⟨fun _ => .inl hm, fun _ => C97_limits_partial h hlh (.inl hm)⟩

/-- the limits of `C97_counterexample` in the formula: 4.02 is above 0 + 4 -/
example : ¬ ((402 / 100 : ℝ) ≤ ⌊(97 / 100 : ℝ)⌋ + ⌊(3 / 2 * (402 / 100 - 97 / 100) : ℝ)⌋) := by
  have h1 : ⌊(97 / 100 : ℝ)⌋ = 0 := by rw [Int.floor_eq_iff]; norm_num
  have h2 : ⌊(3 / 2 * (402 / 100 - 97 / 100) : ℝ)⌋ = 4 := by rw [Int.floor_eq_iff]; norm_num
  rw [h1, h2]
  norm_num

/-- C97, counterexample: the maximum for limits 0.97 and 4.02 is 4. -/
theorem C97_counterexample : (⟨97 / 100, 402 / 100, 5, 10⟩ : Req).maximum < 402 / 100 := by
  set q : Req := ⟨97 / 100, 402 / 100, 5, 10⟩ with hq
  have hr : q.range = 305 / 100 := by rw [Req.range, hq]; norm_num [abs_of_pos]
  have hf : q.factor = 1 := factor_one (by rw [hr, hq]; norm_num)
  have hl : ⌊(97 / 100 : ℝ)⌋ = 0 := by rw [Int.floor_eq_iff]; norm_num
  have hh : ⌈(402 / 100 : ℝ)⌉ = 5 := by rw [Int.ceil_eq_iff]; norm_num
  have h0 : q.min0 = 0 := by rw [min0_one hf]; exact hl
  have h1 : q.max0 = 5 := by
    rw [max0_one hf]
    simp only [hq, hl, hh]
    norm_num
  have hn : q.numdec = 4 := by
    rw [Req.numdec, if_pos hf, h0, h1, hr, show ((5 : ℤ) - 0).toNat = 5 from rfl]
    norm_num [shrink]
  have hd : q.division = 1 := by rw [Req.division, hn, hq]; decide
  have hs : q.subs = [] := by
    have : q.numSubs = 5 / (305 / 100) := by
      rw [Req.numSubs, hr, hd, if_pos (by norm_num)]
      norm_num [hq]
    rw [Req.subs, this, if_neg (not_not.2 hf)]
    norm_num [hq]
  rw [Req.maximum, Req.max2, hf, if_neg (by simp [hs]), Req.max1, if_pos hf, h0, hn]
  norm_num

/-- C97, counterexample: for equal limits 1.5 the maximum is 1 and the minimum is above the limits. -/
theorem C97_counterexample_equal :
    (⟨3 / 2, 3 / 2, 5, 10⟩ : Req).maximum = 1 ∧ 3 / 2 < (⟨3 / 2, 3 / 2, 5, 10⟩ : Req).minimum := by
  set q : Req := ⟨3 / 2, 3 / 2, 5, 10⟩ with hq
  have hr : q.range = 0 := by rw [Req.range, hq]; norm_num
  have hf : q.factor = 1 := by rw [Req.factor, hr, if_neg (by norm_num)]
  have hl : ⌊(3 / 2 : ℝ)⌋ = 1 := by rw [Int.floor_eq_iff]; norm_num
  have hh : ⌈(3 / 2 : ℝ)⌉ = 2 := by rw [Int.ceil_eq_iff]; norm_num
  have h0 : q.min0 = 1 := by rw [min0_one hf]; exact hl
  have h1 : q.max0 = 2 := by
    rw [max0_one hf]
    simp only [hq, hl, hh]
    norm_num
  have hn : q.numdec = 0 := by
    rw [Req.numdec, if_pos hf, h0, h1, hr]
    norm_num [shrink]
  have hs : q.subs = [] := by
    have : q.numSubs = 0 := by rw [Req.numSubs, hr, if_neg (by norm_num)]
    rw [Req.subs, this, if_neg (not_not.2 hf)]
    norm_num [hq]
  have hm : q.maximum = 1 := by
    rw [Req.maximum, Req.max2, hf, if_neg (by simp [hs]), Req.max1, if_pos hf, h0, hn]
    norm_num
  refine ⟨hm, ?_⟩
  rw [Req.minimum, hm, hq]
  norm_num

/-! ### C98: labels -/

/-- A label is within half of the last digit. -/
theorem read_formatE_near {p : ℤ} (hp : 0 ≤ p) {x : ℝ} (hx : 0 < x) :
    |(formatE p x).read - x| ≤ x * (10 : ℝ) ^ (-p) / 2 := by
  have hb := log_bounds hx.ne'
  rw [abs_of_pos hx] at hb
  set e := Int.log 10 x with he
  have hte := ten_pos (K := ℝ) e
  have hlt : x * 10 ^ (p - e) < 10 ^ (p + 1) := by
    have ht := ten_pos (K := ℝ) p
    have : x * 10 ^ (p - e) = x / 10 ^ e * 10 ^ p := by rw [zpow_sub₀ (by norm_num)]; field_simp
    rw [this, zpow_add_one₀ (by norm_num)]
    nlinarith [hb.2]
  obtain ⟨n, rfl⟩ := Int.eq_ofNat_of_zero_le hp
  have hread : (formatE (n : ℤ) x).read = (round (x * 10 ^ ((n : ℤ) - e)) : ℝ) * 10 ^ (e - n) := by
    rw [formatE]
    simp only [hx.ne', if_false, abs_of_pos hx, ← he]
    split_ifs with hc
    · have hle : round (x * 10 ^ ((n : ℤ) - e)) ≤ 10 ^ (n + 1) := by
        rw [round_eq]
        have : ⌊x * 10 ^ ((n : ℤ) - e) + 1 / 2⌋ < 10 ^ (n + 1) + 1 := by
          rw [Int.floor_lt]
          push_cast
          have : (10 : ℝ) ^ ((n : ℤ) + 1) = 10 ^ (n + 1) := by exact_mod_cast zpow_natCast (10 : ℝ) (n + 1)
          rw [this] at hlt
          linarith
        omega
      have hge : (10 : ℤ) ^ (n + 1) ≤ round (x * 10 ^ ((n : ℤ) - e)) := by
        have : (10 : ℝ) ^ ((n : ℤ) + 1) = ((10 ^ (n + 1) : ℤ) : ℝ) := by
          push_cast
          exact_mod_cast zpow_natCast (10 : ℝ) (n + 1)
        rw [this] at hc
        exact_mod_cast hc
      rw [le_antisymm hle hge]
      have h10 : round ((10 : ℝ) ^ (n : ℤ)) = 10 ^ n := by
        have : (10 : ℝ) ^ (n : ℤ) = ((10 ^ n : ℤ) : ℝ) := by push_cast; exact zpow_natCast _ _
        rw [this, round_intCast]
      rw [Label.read, h10]
      simp only [not_lt.2 hx.le, decide_false, Bool.false_eq_true, if_false, Option.getD_some, one_mul]
      push_cast
      rw [show e + 1 - (n : ℤ) = (e - n) + 1 by ring, zpow_add_one₀ (by norm_num), pow_succ]
      ring
    · rw [Label.read]
      simp only [not_lt.2 hx.le, decide_false, Bool.false_eq_true, if_false, Option.getD_some, one_mul]
  have hx' : x = x * 10 ^ ((n : ℤ) - e) * 10 ^ (e - n) := by
    rw [mul_assoc, ← zpow_add₀ (by norm_num)]
    simp
  have hte' := ten_pos (K := ℝ) (e - n)
  have hround := abs_sub_round (x * 10 ^ ((n : ℤ) - e))
  rw [abs_sub_comm] at hround
  calc |(formatE (n : ℤ) x).read - x|
      = |((round (x * 10 ^ ((n : ℤ) - e)) : ℝ) - x * 10 ^ ((n : ℤ) - e)) * 10 ^ (e - n)| := by
        rw [hread, sub_mul, ← hx']
    _ = |(round (x * 10 ^ ((n : ℤ) - e)) : ℝ) - x * 10 ^ ((n : ℤ) - e)| * 10 ^ (e - n) := by
        rw [abs_mul, abs_of_pos hte']
    _ ≤ 1 / 2 * 10 ^ (e - n) := mul_le_mul_of_nonneg_right hround hte'.le
    _ ≤ x * (10 : ℝ) ^ (-(n : ℤ)) / 2 := by
        rw [sub_eq_add_neg, zpow_add₀ (by norm_num)]
        have h1 : (10 : ℝ) ^ e ≤ x := by
          have := hb.1
          rwa [le_div_iff₀ hte, one_mul] at this
        have := mul_le_mul_of_nonneg_right h1 (ten_pos (K := ℝ) (-(n : ℤ))).le
        linarith

theorem log_ten : 2 < Real.log 10 := by
  rw [Real.lt_log_iff_exp_lt (by norm_num)]
  have h1 := Real.exp_one_lt_d9
  have h2 : Real.exp 2 = Real.exp 1 * Real.exp 1 := by rw [← Real.exp_add]; norm_num
  have h3 := Real.exp_pos 1
  rw [h2]
  nlinarith

/-- Values apart by the factor of a tick step have different labels. -/
theorem label_ne {p : ℤ} (hp : 1 ≤ p) {x y : ℝ} (hx : 0 < x) (hy : x * (10 : ℝ) ^ ((10 : ℝ) ^ (-p)) ≤ y) :
    formatE p x ≠ formatE p y := by
  intro heq
  have hε := ten_pos (K := ℝ) (-p)
  have hε1 : (10 : ℝ) ^ (-p) < 1 := zpow_lt_one_of_neg₀ (by norm_num) (by omega)
  set ε := (10 : ℝ) ^ (-p)
  have h10 : 1 + 2 * ε ≤ (10 : ℝ) ^ ε := by
    rw [Real.rpow_def_of_pos (by norm_num)]
    have h1 := Real.add_one_le_exp (Real.log 10 * ε)
    nlinarith [log_ten]
  have hy' : x * (1 + 2 * ε) ≤ y := (mul_le_mul_of_nonneg_left h10 hx.le).trans hy
  have hy0 : 0 < y := lt_of_lt_of_le (by positivity) hy'
  have n1 := abs_le.1 (read_formatE_near (show 0 ≤ p by omega) hx)
  have n2 := abs_le.1 (read_formatE_near (show 0 ≤ p by omega) hy0)
  rw [heq] at n1
  have h3 : y - x ≤ (x + y) * ε / 2 := by
    have e1 : (formatE p y).read - x ≤ x * ε / 2 := n1.2
    have e2 : -(y * ε / 2) ≤ (formatE p y).read - y := n2.1
    linarith
  have h4 : x * (1 + 2 * ε) * (1 - ε / 2) ≤ y * (1 - ε / 2) := mul_le_mul_of_nonneg_right hy' (by linarith)
  have h5 : x * (ε - ε * ε) ≤ 0 := by nlinarith
  have h6 : 0 < ε - ε * ε := by nlinarith
  nlinarith [mul_pos hx h6]

theorem loop_pos (h : q.Ok) {v : ℝ} (hv : v ∈ q.loop.1) : 0 < v := by
  rw [values_eq, List.mem_flatMap] at hv
  obtain ⟨d, -, hv⟩ := hv
  have hp : (0 : ℝ) < (q.base : ℝ) ^ (d * q.factor) := Real.rpow_pos_of_pos (by linarith [base_gt h]) _
  rcases List.mem_cons.1 hv with rfl | hv
  · exact hp
  · obtain ⟨s, hs, rfl⟩ := List.mem_map.1 hv
    have := (mem_subs h hs).2.1
    exact mul_pos (by exact_mod_cast (show (0 : ℤ) < s by omega)) hp

/-- C98 (partial: base ten): different ticks have different labels. -/
theorem C98_labels_partial (h : q.Ok) (hb : q.base = 10) : q.labels.Nodup := by
  have hbr : (q.base : ℝ) = 10 := by rw [hb]; norm_num
  by_cases hf : q.factor = 1
  · have hp : q.precision = 0 := by rw [Req.precision, hf]; simp
    have hnd : q.loop.1.Nodup := List.Nodup.of_map _ ((C71_increasing h).imp fun {a b} hab => ne_of_lt hab)
    rw [Req.labels, hp]
    refine List.Nodup.map_on (fun v hv w hw hvw => ?_) hnd
    have hread : ∀ v ∈ q.loop.1, (formatE 0 v).read = v := by
      intro v hv
      have hv0 := loop_pos h hv
      rw [values_eq, List.mem_flatMap] at hv
      obtain ⟨d, -, hv⟩ := hv
      obtain ⟨s, hs1, hs2, rfl⟩ : ∃ s : ℤ, 1 ≤ s ∧ s < 10 ∧ v = s * (10 : ℝ) ^ d := by
        rw [Req.group, hf, mul_one, hbr, Real.rpow_intCast] at hv
        rcases List.mem_cons.1 hv with rfl | hv
        · exact ⟨1, by norm_num, by norm_num, by norm_num⟩
        · obtain ⟨s, hs, rfl⟩ := List.mem_map.1 hv
          have := mem_subs h hs
          exact ⟨s, by omega, by omega, rfl⟩
      have ht := ten_pos (K := ℝ) d
      have hs1' : (1 : ℝ) ≤ s := by exact_mod_cast hs1
      have hs2' : (s : ℝ) < 10 := by exact_mod_cast hs2
      refine read_formatE hv0 rfl ?_
      rw [log_of_bounds d (by nlinarith) (by rw [zpow_add_one₀ (by norm_num)]; nlinarith)]
      omega
    rw [← hread v hv, hvw, hread w hw]
  · have hsub : q.subs = [] := by rw [Req.subs, if_pos hf]
    obtain ⟨k, hk⟩ : ∃ k : ℤ, q.factor = (10 : ℝ) ^ k := by
      rw [Req.factor] at hf ⊢
      split_ifs at hf ⊢ with hc
      · exact ⟨_, by rw [hbr]⟩
      · exact absurd rfl hf
    have hp : q.precision = |k| := by
      rw [Req.precision, hk, hbr, ← Real.rpow_intCast, Real.logb_rpow (by norm_num) (by norm_num), ← Int.cast_abs, round_intCast]
    have hk0 : k ≠ 0 := by rintro rfl; exact hf (by rw [hk]; norm_num)
    have hfp : (10 : ℝ) ^ (-q.precision) ≤ q.factor := by
      rw [hp, hk, zpow_le_zpow_iff_right₀ (by norm_num)]
      exact neg_abs_le k
    rw [Req.labels, values_eq]
    have hg : q.decades.flatMap q.group = q.decades.map fun d : ℤ => (10 : ℝ) ^ ((d : ℝ) * q.factor) := by
      rw [List.map_eq_flatMap]
      congr 1
      funext d
      rw [Req.group, hsub, hbr]
      rfl
    rw [hg, List.map_map, List.Nodup, List.pairwise_map]
    refine (pairwise_arangeI (lt_of_lt_of_le one_pos division_pos)).imp fun {d e} hde => ?_
    refine label_ne (by rw [hp]; exact Int.one_le_abs hk0) (Real.rpow_pos_of_pos (by norm_num) _) ?_
    rw [← Real.rpow_add (by norm_num), Real.rpow_le_rpow_left_iff (by norm_num)]
    have hde' : (d : ℝ) + 1 ≤ e := by exact_mod_cast hde
    have := factor_pos h
    nlinarith

theorem arangeI_eq {a b s : ℤ} {n : ℕ} (hs : 0 < s) (h1 : (n - 1) * s < b - a) (h2 : b - a ≤ n * s) :
    arangeI a b s = (List.range n).map fun (x : ℕ) => a + x * s := by
  have hs' : (0 : ℝ) < s := by exact_mod_cast hs
  have : ⌈((b - a : ℤ) : ℝ) / s⌉ = n := by
    rw [Int.ceil_eq_iff, lt_div_iff₀ hs', div_le_iff₀ hs']
    exact ⟨by exact_mod_cast h1, by exact_mod_cast h2⟩
  rw [arangeI, this, Int.toNat_natCast]

/-- A decade of base ten in five ticks: 1, 2, 4, 6, 8, 10, 20, … -/
example : (⟨0, 1, 5, 10⟩ : Req).decades = [0, 1] ∧ (⟨0, 1, 5, 10⟩ : Req).subs = [2, 4, 6, 8] ∧
    (⟨0, 1, 5, 10⟩ : Req).minor = [1, 2, 3, 4, 6, 7, 8, 9] := by
  set q : Req := ⟨0, 1, 5, 10⟩ with hq
  have hr : q.range = 1 := by rw [Req.range, hq]; norm_num
  have hf : q.factor = 1 := factor_one (by rw [hr, hq]; norm_num)
  have h0 : q.min0 = 0 := by rw [min0_one hf]; simp [hq]
  have h1 : q.max0 = 1 := by rw [max0_one hf]; simp [hq]
  have hn : q.numdec = 1 := by
    rw [Req.numdec, if_pos hf, h0, h1, hr, show ((1 : ℤ) - 0).toNat = 1 from rfl]
    norm_num [shrink]
  have hd : q.division = 1 := by rw [Req.division, hn, hq]; decide
  have hds : q.decades = [0, 1] := by
    rw [Req.decades, h0, h1, hd, arangeI_eq (n := 2) (by norm_num) (by norm_num) (by norm_num)]
    rfl
  have hs : q.subs = [2, 4, 6, 8] := by
    have : q.numSubs = 5 := by
      rw [Req.numSubs, hr, hd, if_pos (by norm_num)]
      norm_num [hq]
    rw [Req.subs, this, if_neg (not_not.2 hf), hq]
    norm_num
    rw [arangeI_eq (n := 4) (by norm_num) (by norm_num) (by norm_num)]
    rfl
  refine ⟨hds, hs, ?_⟩
  rw [Req.minor, Req.loop, hds]
  simp [addDecade_eq, hs, Req.group, List.range']

/-- C98, counterexample: in base 16 the ticks for 10 and 11 both have the label 1e+01. -/
theorem C98_counterexample : ¬ (⟨0, 1, 17, 16⟩ : Req).labels.Nodup := by
  set q : Req := ⟨0, 1, 17, 16⟩ with hq
  have hr : q.range = 1 := by rw [Req.range, hq]; norm_num
  have hf : q.factor = 1 := factor_one (by rw [hr, hq]; norm_num)
  have h0 : q.min0 = 0 := by rw [min0_one hf]; simp [hq]
  have h1 : q.max0 = 1 := by rw [max0_one hf]; simp [hq]
  have hn : q.numdec = 1 := by
    rw [Req.numdec, if_pos hf, h0, h1, hr, show ((1 : ℤ) - 0).toNat = 1 from rfl]
    norm_num [shrink]
  have hd : q.division = 1 := by rw [Req.division, hn, hq]; decide
  have hds : q.decades = [0, 1] := by
    rw [Req.decades, h0, h1, hd, arangeI_eq (n := 2) (by norm_num) (by norm_num) (by norm_num)]
    rfl
  have hs : q.subs = [2, 3, 4, 5, 6, 7, 8, 9, 10, 11, 12, 13, 14, 15] := by
    have : q.numSubs = 17 := by
      rw [Req.numSubs, hr, hd, if_pos (by norm_num)]
      norm_num [hq]
    rw [Req.subs, this, if_neg (not_not.2 hf), hq]
    norm_num
    rw [arangeI_eq (n := 14) (by norm_num) (by norm_num) (by norm_num)]
    rfl
  have hp : q.precision = 0 := by rw [Req.precision, hf]; simp
  have hl : ∀ v : ℝ, 10 ≤ v → v < 12 → formatE 0 v = ⟨false, 1, 0, some 1⟩ := by
    intro v h1 h2
    have hpos : 0 < v := by linarith
    have hlog : Int.log 10 v = 1 := log_of_bounds 1 (by norm_num; exact h1) (by norm_num; linarith)
    have hr : round (v * 10 ^ ((0 : ℤ) - 1)) = 1 := by
      rw [round_eq, Int.floor_eq_iff]
      norm_num
      constructor <;> linarith
    rw [formatE]
    simp only [hpos.ne', if_false, abs_of_pos hpos, hlog, hr]
    norm_num [hpos.le]
  intro hnd
  have e1 : q.labels[9]? = some ⟨false, 1, 0, some 1⟩ := by
    rw [Req.labels, hp, values_eq, hds]
    simp [Req.group, hs]
    exact hl _ (by norm_num) (by norm_num)
  have e2 : q.labels[10]? = some ⟨false, 1, 0, some 1⟩ := by
    rw [Req.labels, hp, values_eq, hds]
    simp [Req.group, hs]
    exact hl _ (by norm_num) (by norm_num)
  have l1 := (List.getElem?_eq_some_iff.1 e1).1
  have l2 := (List.getElem?_eq_some_iff.1 e2).1
  have := (List.nodup_iff_injective_getElem.1 hnd) (a₁ := ⟨9, l1⟩) (a₂ := ⟨10, l2⟩)
    (by simp only [(List.getElem?_eq_some_iff.1 e1).2, (List.getElem?_eq_some_iff.1 e2).2])
  simp at this

end Verif.Geometry.LogTicker
