import Verif.Geometry.Pretty

/-!
Pretty ranges and the labels of `LinearTicker` (`nion/utils/Geometry.py:59-119, 173-190`), C68, C69, C89, C90, in exact arithmetic as
in `Pretty.lean`. Not modelled: `logarithmic=True`, which changes only the last result. A result `none` is a raised exception
(division by zero for `ticks` 1, logarithm of a negative number for less).
-/

set_option linter.unusedSectionVars false

namespace Verif.Geometry

variable {K : Type} [Field K] [LinearOrder K] [IsStrictOrderedRing K] [FloorRing K]

structure PrettyRange (K : Type) where
  min : K
  max : K
  ticks : List K
  division : K
  precision : ℤ
  factor10 : K

/-- Lines 109-110. -/
def arange (start stop step : K) : List K := (List.range ⌈(stop - start) / step⌉.toNat).map fun (x : ℕ) => start + x * step

/-- Lines 91-115, from the division on. -/
def rangeFor (low high division factor10 : K) : Option (PrettyRange K) :=
  if division = 0 then some ⟨0, 0, [0], 0, 0, 0⟩
  else if division < 0 then none
  else
    let gmin := (⌊low / division⌋ : K) * division
    let gmax := (⌈high / division⌉ : K) * division
    some ⟨gmin, gmax, arange gmin (gmax + 1 / 2 * division) division, division, max (-Int.log 10 division) 0, factor10⟩

/-- Lines 59-115. -/
def prettyRange (a b : K) (ticks : ℤ) : Option (PrettyRange K) :=
  let low := min a b
  let high := max a b
  if high = low then some ⟨low, low, [low], 0, 0, 0⟩
  else if ticks = 1 then none
  else
    let p := makePretty ((makePretty (high - low) false).1 / ((ticks : K) - 1)) true
    rangeFor low high p.1 p.2

/-! ### C68 -/

theorem floor_mul_le (v : K) {d : K} (hd : 0 < d) : (⌊v / d⌋ : K) * d ≤ v ∧ v - (⌊v / d⌋ : K) * d < d := by
  have h1 := Int.floor_le (v / d)
  have h2 := Int.lt_floor_add_one (v / d)
  rw [le_div_iff₀ hd] at h1
  rw [div_lt_iff₀ hd] at h2
  exact ⟨h1, by linarith⟩

theorem le_ceil_mul (v : K) {d : K} (hd : 0 < d) : v ≤ (⌈v / d⌉ : K) * d ∧ (⌈v / d⌉ : K) * d - v < d := by
  have h1 := Int.le_ceil (v / d)
  have h2 := Int.ceil_lt_add_one (v / d)
  rw [div_le_iff₀ hd] at h1
  refine ⟨h1, ?_⟩
  have : (⌈v / d⌉ : K) * d < (v / d + 1) * d := mul_lt_mul_of_pos_right h2 hd
  rw [add_mul, div_mul_cancel₀ _ hd.ne'] at this
  linarith

/-- The ticks from a multiple of the division to another. -/
theorem arange_eq (x : K) (n : ℕ) {d : K} (hd : 0 < d) :
    arange x (x + n * d + 1 / 2 * d) d = (List.range (n + 1)).map fun (i : ℕ) => x + i * d := by
  have h : ⌈(x + n * d + 1 / 2 * d - x) / d⌉ = (n : ℤ) + 1 := by
    have he : (x + n * d + 1 / 2 * d - x) / d = n + 1 / 2 := by field_simp; ring
    rw [he, Int.ceil_eq_iff]
    push_cast
    constructor <;> linarith
  rw [arange, h]
  congr 1

/-- What the claim says of a range. -/
structure Covers (low high : K) (r : PrettyRange K) : Prop where
  min_le : r.min ≤ low
  le_max : high ≤ r.max
  pos : 0 < r.division
  min_mul : ∃ k : ℤ, r.min = k * r.division
  max_mul : ∃ k : ℤ, r.max = k * r.division
  min_near : low - r.min < r.division
  max_near : r.max - high < r.division
  /-- from the minimum to the maximum, evenly spaced -/
  ticks : ∃ n : ℕ, r.ticks.length = n + 1 ∧ (∀ (i : ℕ), i ≤ n → r.ticks[i]? = some (r.min + i * r.division)) ∧
    r.max = r.min + n * r.division

theorem rangeFor_covers {low high d f : K} (hlh : low ≤ high) (hd : 0 < d) :
    ∃ r, rangeFor low high d f = some r ∧ Covers low high r ∧ r.division = d ∧ r.precision = max (-Int.log 10 d) 0 ∧
      r.factor10 = f := by
  have h1 := floor_mul_le low hd
  have h2 := le_ceil_mul high hd
  have hfc : ⌊low / d⌋ ≤ ⌈high / d⌉ := by
    have : (⌊low / d⌋ : K) ≤ ⌈high / d⌉ :=
      (Int.floor_le _).trans ((div_le_div_of_nonneg_right hlh hd.le).trans (Int.le_ceil _))
    exact_mod_cast this
  obtain ⟨n, hn⟩ := Int.eq_ofNat_of_zero_le (sub_nonneg.2 hfc)
  have hmax : (⌈high / d⌉ : K) * d = (⌊low / d⌋ : K) * d + n * d := by
    have : (⌈high / d⌉ : K) = ⌊low / d⌋ + n := by
      have : ⌈high / d⌉ = ⌊low / d⌋ + n := by omega
      rw [this]
      push_cast
      rfl
    rw [this]
    ring
  rw [rangeFor, if_neg hd.ne', if_neg (not_lt.2 hd.le)]
  refine ⟨_, rfl, ⟨h1.1, h2.1, hd, ⟨_, rfl⟩, ⟨_, rfl⟩, h1.2, h2.2, n, ?_, ?_, hmax⟩, rfl, rfl, rfl⟩
  · simp only
    rw [hmax, arange_eq _ _ hd]
    simp
  · intro i hi
    simp only
    rw [hmax, arange_eq _ _ hd, List.getElem?_map, List.getElem?_range (by omega)]
    rfl

theorem division_pos {a b : K} (hab : a ≠ b) {ticks : ℤ} (ht : 2 ≤ ticks) :
    0 < (makePretty (max a b - min a b) false).1 / ((ticks : K) - 1) ∧
      0 < (makePretty ((makePretty (max a b - min a b) false).1 / ((ticks : K) - 1)) true).1 := by
  have hd : 0 < max a b - min a b := by
    rcases lt_or_gt_of_ne hab with h | h
    · rw [max_eq_right h.le, min_eq_left h.le]; linarith
    · rw [max_eq_left h.le, min_eq_right h.le]; linarith
  have h1 := (C67_form _ hd.ne' false).2.1.2 hd
  have ht' : (0 : K) < (ticks : K) - 1 := by
    have : (2 : K) ≤ ticks := by exact_mod_cast ht
    linarith
  have h2 := div_pos h1 ht'
  exact ⟨h2, (C67_form _ h2.ne' true).2.1.2 h2⟩

theorem prettyRange_eq {a b : K} (hab : a ≠ b) {ticks : ℤ} (ht : 2 ≤ ticks) :
    prettyRange a b ticks = rangeFor (min a b) (max a b)
      (makePretty ((makePretty (max a b - min a b) false).1 / ((ticks : K) - 1)) true).1
      (makePretty ((makePretty (max a b - min a b) false).1 / ((ticks : K) - 1)) true).2 := by
  rw [prettyRange, if_neg, if_neg (by omega)]
  intro h
  rcases lt_or_gt_of_ne hab with h' | h'
  · rw [max_eq_right h'.le, min_eq_left h'.le] at h; exact hab h.symm
  · rw [max_eq_left h'.le, min_eq_right h'.le] at h; exact hab h

/-- C68: for different values and at least two ticks, the range covers the values, its ends are multiples of the division and less
than a division away, and the ticks go from the minimum to the maximum in steps of the division. -/
theorem C68_covers (a b : K) (hab : a ≠ b) (ticks : ℤ) (ht : 2 ≤ ticks) :
    ∃ r, prettyRange a b ticks = some r ∧ Covers (min a b) (max a b) r ∧ IsPretty r.division := by
  have hd := division_pos hab ht
  obtain ⟨r, h1, h2, h3, -⟩ := rangeFor_covers (low := min a b) (high := max a b)
    (f := (makePretty ((makePretty (max a b - min a b) false).1 / ((ticks : K) - 1)) true).2) min_le_max hd.2
  refine ⟨r, by rw [prettyRange_eq hab ht, h1], h2, ?_⟩
  have := (C67_form _ hd.1.ne' true).1
  rwa [abs_of_pos hd.2, ← h3] at this

/-- C68: equal values give the one tick. -/
theorem C68_equal (a : K) (ticks : ℤ) : prettyRange a a ticks = some ⟨a, a, [a], 0, 0, 0⟩ := by
  simp [prettyRange]

/-- C68: the order of the values does not matter. -/
theorem C68_symm (a b : K) (ticks : ℤ) : prettyRange a b ticks = prettyRange b a ticks := by
  simp only [prettyRange, max_comm a b, min_comm a b]

/-! ### C90: about as many ticks as asked for -/

theorem norm_le (x : K) (h : 1 ≤ x) : prettyNorm false x ≤ 5 / 2 * x := by
  simp only [prettyNorm, Bool.false_eq_true, if_false]
  split_ifs <;> linarith

theorem pretty_le (v : K) (h : v ≠ 0) : |(makePretty v false).1| ≤ 5 / 2 * |v| := by
  rw [abs_makePretty h]
  have ht := ten_pos (K := K) (Int.log 10 |v|)
  have hv : |v| = |v| / 10 ^ Int.log 10 |v| * 10 ^ Int.log 10 |v| := by field_simp
  have := mul_le_mul_of_nonneg_right (norm_le _ (log_bounds h).1) ht.le
  calc _ ≤ _ := this
    _ = 5 / 2 * |v| := by rw [mul_assoc, ← hv]

/-- C90: of `t` ticks asked for, there are at least 6/25 (t - 1) + 1 and less than 3/2 (t - 1) + 3. -/
theorem C90_count (a b : K) (hab : a ≠ b) (ticks : ℤ) (ht : 2 ≤ ticks) :
    ∃ r, prettyRange a b ticks = some r ∧ 6 / 25 * ((ticks : K) - 1) + 1 ≤ (r.ticks.length : K) ∧
      (r.ticks.length : K) < 3 / 2 * ((ticks : K) - 1) + 3 := by
  have hd := division_pos hab ht
  obtain ⟨r, h1, h2, h3, -⟩ := rangeFor_covers (low := min a b) (high := max a b)
    (f := (makePretty ((makePretty (max a b - min a b) false).1 / ((ticks : K) - 1)) true).2) min_le_max hd.2
  refine ⟨r, by rw [prettyRange_eq hab ht, h1], ?_⟩
  obtain ⟨n, hn1, -, hn2⟩ := h2.ticks
  rw [hn1]
  push_cast
  have hw : 0 < max a b - min a b := by
    rcases lt_or_gt_of_ne hab with h | h
    · rw [max_eq_right h.le, min_eq_left h.le]; linarith
    · rw [max_eq_left h.le, min_eq_right h.le]; linarith
  have ht' : (0 : K) < (ticks : K) - 1 := by
    have : (2 : K) ≤ ticks := by exact_mod_cast ht
    linarith
  have hVpos := (C67_form _ hw.ne' false).2.1.2 hw
  have hV1 := (C67_least _ hw.ne').1
  have hV2 := pretty_le _ hw.ne'
  rw [abs_of_pos hw, abs_of_pos hVpos] at hV1 hV2
  have hD := C67_round _ hd.1.ne'
  rw [abs_of_pos hd.1, abs_of_pos hd.2, ← h3] at hD
  generalize (makePretty (max a b - min a b) false).1 = V at *
  have hVq : V = V / ((ticks : K) - 1) * ((ticks : K) - 1) := by field_simp
  generalize V / ((ticks : K) - 1) = q at *
  generalize (ticks : K) - 1 = t at *
  have hmin := h2.min_near
  have hmax := h2.max_near
  have hm1 := h2.min_le
  have hm2 := h2.le_max
  have hdp := h2.pos
  generalize r.division = d at *
  constructor
  · have hnd : max a b - min a b ≤ n * d := by linarith
    by_contra hc
    have hc' : (n : K) < 6 / 25 * t := by linarith
    have : (n : K) * d < 6 / 25 * t * d := mul_lt_mul_of_pos_right hc' hdp
    nlinarith
  · have hnd : n * d < max a b - min a b + 2 * d := by linarith
    by_contra hc
    have hc' : 3 / 2 * t + 2 ≤ (n : K) := by linarith
    have : (3 / 2 * t + 2) * d ≤ n * d := mul_le_mul_of_nonneg_right hc' hdp.le
    nlinarith

/-! ### C69 -/

/-- A pretty number is an integer times the power of ten at or below it. -/
theorem pretty_log {d : K} (h : IsPretty d) : ∃ z : ℤ, d = z * 10 ^ Int.log 10 d := by
  obtain ⟨m, hm, k, rfl⟩ := h
  have hlog : ∀ (m : K), 1 ≤ m → m < 10 → Int.log 10 (m * 10 ^ k) = k := by
    intro m h1 h2
    have ht := ten_pos (K := K) k
    have hpos : 0 < m * 10 ^ k := mul_pos (by linarith) ht
    apply le_antisymm
    · rw [← Int.lt_add_one_iff, ← Int.lt_zpow_iff_log_lt (by norm_num) hpos]
      rw [zpow_add_one₀ (by norm_num)]
      simp only [Nat.cast_ofNat]
      nlinarith
    · rw [← Int.zpow_le_iff_le_log (by norm_num) hpos]
      simp only [Nat.cast_ofNat]
      nlinarith
  simp only [List.mem_cons, List.not_mem_nil, or_false] at hm
  rcases hm with rfl | rfl | rfl | rfl
  · exact ⟨1, by rw [hlog 1 (by norm_num) (by norm_num)]; norm_num⟩
  · exact ⟨2, by rw [hlog 2 (by norm_num) (by norm_num)]; norm_num⟩
  · exact ⟨5, by rw [hlog 5 (by norm_num) (by norm_num)]; norm_num⟩
  · refine ⟨1, ?_⟩
    have : (10 : K) * 10 ^ k = 1 * 10 ^ (k + 1) := by rw [zpow_add_one₀ (by norm_num)]; ring
    have hl : Int.log 10 ((10 : K) ^ (k + 1)) = k + 1 := by
      have := Int.log_zpow (R := K) (b := 10) (by norm_num) (k + 1)
      simpa using this
    rw [this, one_mul, hl]
    norm_num

/-- The label `"{0:0.pf}"`: the sign and the digits, as the number they make without the point. -/
def fixedLabel (p : ℤ) (v : K) : Bool × ℤ := (decide (v < 0), round (|v| * 10 ^ p))

/-- The number a label says. -/
def readLabel (p : ℤ) (l : Bool × ℤ) : K := (if l.1 then -1 else 1) * (l.2 : K) / 10 ^ p

theorem readLabel_fixedLabel {p : ℤ} {v : K} {z : ℤ} (h : v * 10 ^ p = z) : readLabel p (fixedLabel p v) = v := by
  have ht := ten_pos (K := K) p
  have habs : |v| * 10 ^ p = ((|z| : ℤ) : K) := by
    rw [← abs_of_pos ht, ← abs_mul, h, Int.cast_abs]
  rw [readLabel, fixedLabel, habs, round_intCast, ← habs]
  simp only [decide_eq_true_eq]
  split_ifs with hv
  · rw [abs_of_neg hv]; field_simp
  · rw [abs_of_nonneg (not_lt.1 hv)]; field_simp

theorem ticks_mul {low high : K} {r : PrettyRange K} (h : Covers low high r) {v : K} (hv : v ∈ r.ticks) :
    ∃ k : ℤ, v = k * r.division := by
  obtain ⟨n, h1, h2, -⟩ := h.ticks
  obtain ⟨i, hi, rfl⟩ := List.mem_iff_getElem.1 hv
  have := h2 i (by omega)
  rw [List.getElem?_eq_getElem hi] at this
  obtain ⟨k, hk⟩ := h.min_mul
  refine ⟨k + i, ?_⟩
  rw [Option.some.injEq] at this
  rw [this, hk]
  push_cast
  ring

/-- C69: with the returned precision every tick is an exact decimal: its label says the tick itself, so different ticks have
different labels. -/
theorem C69_labels (a b : K) (hab : a ≠ b) (ticks : ℤ) (ht : 2 ≤ ticks) :
    ∃ r, prettyRange a b ticks = some r ∧ 0 ≤ r.precision ∧ (∀ v ∈ r.ticks, ∃ z : ℤ, v * 10 ^ r.precision = z) ∧
      (∀ v ∈ r.ticks, readLabel r.precision (fixedLabel r.precision v) = v) ∧
      (r.ticks.map (fixedLabel r.precision)).Nodup := by
  have hd := division_pos hab ht
  obtain ⟨r, h1, h2, h3, h4, -⟩ := rangeFor_covers (low := min a b) (high := max a b)
    (f := (makePretty ((makePretty (max a b - min a b) false).1 / ((ticks : K) - 1)) true).2) min_le_max hd.2
  have hp : IsPretty r.division := by
    have := (C67_form _ hd.1.ne' true).1
    rwa [abs_of_pos hd.2, ← h3] at this
  rw [← h3] at h4
  have hex : ∀ v ∈ r.ticks, ∃ z : ℤ, v * 10 ^ r.precision = z := by
    intro v hv
    obtain ⟨k, rfl⟩ := ticks_mul h2 hv
    obtain ⟨z, hz⟩ := pretty_log hp
    obtain ⟨e, he⟩ := Int.eq_ofNat_of_zero_le (show 0 ≤ Int.log 10 r.division + r.precision by rw [h4]; omega)
    refine ⟨k * z * 10 ^ e, ?_⟩
    have : r.division * 10 ^ r.precision = z * 10 ^ e := by
      conv_lhs => rw [hz]
      rw [mul_assoc, ← zpow_add₀ (by norm_num), he]
      norm_num
    rw [mul_assoc, this]
    push_cast
    ring
  have hread : ∀ v ∈ r.ticks, readLabel r.precision (fixedLabel r.precision v) = v := by
    intro v hv
    obtain ⟨z, hz⟩ := hex v hv
    exact readLabel_fixedLabel hz
  refine ⟨r, by rw [prettyRange_eq hab ht, h1], by rw [h4]; exact le_max_right _ _, hex, hread, ?_⟩
  obtain ⟨n, hn1, hn2, -⟩ := h2.ticks
  have hnd : r.ticks.Nodup := by
    rw [List.nodup_iff_injective_getElem]
    rintro ⟨i, hi⟩ ⟨j, hj⟩ hij
    have e1 := hn2 i (by omega)
    have e2 := hn2 j (by omega)
    rw [List.getElem?_eq_getElem hi, Option.some.injEq] at e1
    rw [List.getElem?_eq_getElem hj, Option.some.injEq] at e2
    simp only at hij
    rw [e1, e2] at hij
    have : (i : K) * r.division = j * r.division := by linarith
    have := mul_right_cancel₀ h2.pos.ne' this
    exact Fin.ext (by exact_mod_cast this)
  refine List.Nodup.map_on (fun v hv w hw hvw => ?_) hnd
  rw [← hread v hv, hvw, hread w hw]

/-! ### A concrete range -/

/-- The exponent of a number between two powers of ten. -/
theorem log_of_bounds {v : K} (e : ℤ) (h1 : 10 ^ e ≤ v) (h2 : v < 10 ^ (e + 1)) : Int.log 10 v = e := by
  have hpos : 0 < v := lt_of_lt_of_le (ten_pos e) h1
  apply le_antisymm
  · rw [← Int.lt_add_one_iff, ← Int.lt_zpow_iff_log_lt (by norm_num) hpos]
    simpa using h2
  · rw [← Int.zpow_le_iff_le_log (by norm_num) hpos]
    simpa using h1

theorem makePretty_of_bounds {v : K} (e : ℤ) (h1 : 10 ^ e ≤ v) (h2 : v < 10 ^ (e + 1)) (r : Bool) :
    makePretty v r = (prettyNorm r (v / 10 ^ e) * 10 ^ e, 10 ^ e) := by
  have hpos : 0 < v := lt_of_lt_of_le (ten_pos e) h1
  have hlog := log_of_bounds e h1 h2
  have hq : ¬ v / 10 ^ e < 1 := by rw [not_lt, le_div_iff₀ (ten_pos e)]; simpa using h1
  have hn : 0 ≤ prettyNorm r (v / 10 ^ e) * 10 ^ e := by
    refine mul_nonneg ?_ (ten_pos e).le
    simp only [prettyNorm]
    split_ifs <;> norm_num
  simp only [makePretty, normalise, copysign, abs_of_pos hpos, hlog, if_neg hq, hpos, not_true, false_and, if_false,
    not_lt.2 hpos.le, abs_of_nonneg hn]

/-- -3/100 to 71/100: from -0.2 to 0.8 in steps of 0.2, one digit after the point. -/
example : prettyRange (71 / 100 : ℚ) (-3 / 100) 5 = some ⟨-1 / 5, 4 / 5, [-1 / 5, 0, 1 / 5, 2 / 5, 3 / 5, 4 / 5], 1 / 5, 1, 1 / 10⟩ := by
  have h1 : makePretty ((71 / 100 : ℚ) - (-3 / 100)) false = (1, 1 / 10) := by
    rw [makePretty_of_bounds (-1) (by norm_num) (by norm_num)]
    norm_num [prettyNorm]
  have h2 : makePretty ((1 : ℚ) / ((5 : ℤ) - 1)) true = (1 / 5, 1 / 10) := by
    rw [makePretty_of_bounds (-1) (by norm_num) (by norm_num)]
    norm_num [prettyNorm]
  have h3 : Int.log 10 (1 / 5 : ℚ) = -1 := log_of_bounds (-1) (by norm_num) (by norm_num)
  have hmin : min (71 / 100 : ℚ) (-3 / 100) = -3 / 100 := by norm_num
  have hmax : max (71 / 100 : ℚ) (-3 / 100) = 71 / 100 := by norm_num
  have hf : ⌊(-3 / 100 : ℚ) / (1 / 5)⌋ = -1 := by norm_num
  have hc : ⌈(71 / 100 : ℚ) / (1 / 5)⌉ = 4 := by norm_num
  have ha := arange_eq (-1 / 5 : ℚ) 5 (d := 1 / 5) (by norm_num)
  norm_num at ha
  simp only [prettyRange, hmin, hmax]
  rw [if_neg (by norm_num), if_neg (by norm_num), h1]
  simp only
  rw [h2]
  simp only [rangeFor, hf, hc, h3]
  norm_num
  rw [ha]
  norm_num [List.range_succ]

end Verif.Geometry
