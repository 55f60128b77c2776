import Verif.Converter.Fuzzy

/-!
C151, C152: the options `pass_none` and `fuzzy` of `FloatToStringConverter` and `PhysicalValueToStringConverter`
(`nion/utils/Converter.py:35-73, 107-128`). `float` is modelled with white space, underscores, `inf` and `nan`; values are exact.
-/

namespace Verif.Converter

/-- What `float` gives. -/
inductive PyFloat where
  | fin (q : ℚ)
  | inf (neg : Bool)
  | nan
  deriving DecidableEq

/-- Underscores stand between digits. -/
def placed : Char → List Char → Bool
  | prev, [] => prev ≠ '_'
  | prev, c :: s => (if c = '_' then isDigit prev else (prev ≠ '_' || isDigit c)) && placed c s

/-- The text after `strip`, without underscores. -/
def ungroup (s : List Char) : Option (List Char) :=
  if '_' ∈ s then if placed '\x00' s then some (s.filter (· ≠ '_')) else none else some s

def lower (s : List Char) : List Char := s.map Char.toLower

/-- `float(s)`; `none` is a `ValueError`. -/
def pyFloat (s : List Char) : Option PyFloat :=
  (ungroup (strip s)).bind fun t =>
    let u := lower (scanSign t).2
    if u = "inf".toList ∨ u = "infinity".toList then some (.inf ((scanSign t).1 = some '-'))
    else if u = "nan".toList then some .nan
    else (floatOf t).map .fin

/-- Lines 70-73. -/
def strictBack (L : Loc) (s : List Char) : Option PyFloat :=
  pyFloat (delocalize L (if L.dp ≠ '.' then replace '.' L.dp s else s))

/-- `FloatToStringConverter(pass_none=…, fuzzy=False).convert_back`, and with `fuzzy=True`. -/
inductive BackResult where
  | none
  | value (x : PyFloat)
  | raises
  deriving DecidableEq

def floatBack (L : Loc) (passNone fuzzy : Bool) : Option (List Char) → BackResult
  | Option.none => if passNone then .none else .raises
  | some s =>
    if passNone ∧ s.length = 0 then .none
    else
      match (if fuzzy then (fuzzyBack L s).map .fin else strictBack L s) with
      | some x => .value x
      | Option.none => .raises

/-- Lines 126-128 with a text or `None`: the options of the converter are not passed on. `inf / multiplier` cannot occur. -/
def physicalConvertBack (L : Loc) (_passNone _fuzzy : Bool) (multiplier : ℚ) (s : Option (List Char)) : BackResult :=
  match floatBack L false true s with
  | .value (.fin q) => if multiplier = 0 then .raises else .value (.fin (q / multiplier))
  | .value x => .value x
  | r => r

/-- C151, for `FloatToStringConverter`: with `pass_none`, `None` and the empty string come back as `None`, whatever the other option. -/
theorem C151_float (L : Loc) (fuzzy : Bool) : floatBack L true fuzzy none = .none ∧ floatBack L true fuzzy (some []) = .none := ⟨rfl, rfl⟩

/-- C151: other strings never come back as `None`. -/
theorem C151_float_only (L : Loc) (passNone fuzzy : Bool) (s : List Char) (hs : s ≠ []) : floatBack L passNone fuzzy (some s) ≠ .none := by
  have : ¬ (passNone = true ∧ s.length = 0) := fun h => hs (List.length_eq_zero_iff.1 h.2)
  simp only [floatBack, if_neg this]
  split <;> simp

/-- C151 (partial: strings that are not empty): the options do not matter for `PhysicalValueToStringConverter`, so that `pass_none` has
the effect it should have only where it should have none. -/
theorem C151_physical_partial (L : Loc) (fuzzy : Bool) (multiplier : ℚ) (s : List Char) (hs : s ≠ []) :
    physicalConvertBack L true fuzzy multiplier (some s) = physicalConvertBack L false fuzzy multiplier (some s) ∧
      physicalConvertBack L true fuzzy multiplier (some s) ≠ .none := by
  refine ⟨rfl, ?_⟩
  have := C151_float_only L false true s hs
  unfold physicalConvertBack
  split
  · split_ifs <;> simp
  · simp
  · assumption

/-- C151, negative: `PhysicalValueToStringConverter(pass_none=True)` raises for `None` and gives 0 for the empty string, in every locale and
for every multiplier but zero. -/
theorem C151_counterexample (L : Loc) (fuzzy : Bool) (multiplier : ℚ) (hm : multiplier ≠ 0) :
    physicalConvertBack L true fuzzy multiplier none = .raises ∧
      physicalConvertBack L true fuzzy multiplier (some []) = .value (.fin 0) := by
  refine ⟨rfl, ?_⟩
  simp [physicalConvertBack, floatBack, fuzzyBack, strip, scan, scanSign, ahead, hm]

/-! ### C152 -/

theorem g_space {L : Loc} (hp : isPoint L.dp = true) (c : Char) :
    isSpace (if c = '.' ∨ c = L.dp then '.' else c) = isSpace c := by
  by_cases hc : c = '.' ∨ c = L.dp
  · rw [if_pos hc]
    have : c = '.' ∨ c = ',' := by
      rcases hc with rfl | rfl
      · exact .inl rfl
      · simpa [isPoint] using hp
    rcases this with rfl | rfl <;> decide
  · rw [if_neg hc]

theorem strip_map (g : Char → Char) (hg : ∀ c, isSpace (g c) = isSpace c) (s : List Char) : strip (s.map g) = (strip s).map g := by
  have hd : ∀ l : List Char, (l.map g).dropWhile isSpace = (l.dropWhile isSpace).map g := by
    intro l
    induction l with
    | nil => rfl
    | cons c l ih =>
      by_cases hc : isSpace c = true
      · rw [List.map_cons, List.dropWhile_cons_of_pos (by rw [hg]; exact hc), List.dropWhile_cons_of_pos hc, ih]
      · rw [List.map_cons, List.dropWhile_cons_of_neg (by rw [hg]; exact hc), List.dropWhile_cons_of_neg hc, List.map_cons]
  rw [strip, strip, hd, ← List.map_reverse, hd, ← List.map_reverse]

/-- The text given to `float` has points for decimal points, nothing else is different. -/
theorem delocalized (L : Loc) (hL : L.Ok) (s : List Char) (hts : ∀ t, L.ts = some t → t ≠ '.' → t ∉ s) :
    delocalize L (if L.dp ≠ '.' then replace '.' L.dp s else s) = s.map fun c => if c = '.' ∨ c = L.dp then '.' else c := by
  have key : ∀ s' : List Char, (∀ t, L.ts = some t → t ∉ s') → delocalize L s' = replace L.dp '.' s' := by
    intro s' h
    rw [delocalize]
    rcases ht : L.ts with _ | t
    · rfl
    · have : s'.filter (fun x => decide (x ≠ t)) = s' := by
        rw [List.filter_eq_self]
        intro c hc
        simp only [decide_eq_true_eq]
        rintro rfl
        exact h c ht hc
      simp only [this]
  by_cases hd : L.dp = '.'
  · rw [if_neg (by simpa using hd), key]
    · simp [replace, hd]
    · intro t ht
      refine hts t ht ?_
      have := (hL.ts t ht).1
      rwa [hd] at this
  · rw [if_pos hd, key]
    · simp only [replace, List.map_map]
      refine List.map_congr_left fun c _ => ?_
      by_cases hc : c = '.'
      · simp [hc]
      · simp [hc]
    · intro t ht hm
      simp only [replace, List.mem_map] at hm
      obtain ⟨c, hc, he⟩ := hm
      split_ifs at he with h1
      · exact (hL.ts t ht).1 he.symm
      · subst he
        exact hts c ht h1 hc

/-- A text that becomes a number when decimal points are written as points. -/
theorem unmap_text {L : Loc} (hp : isPoint L.dp = true) {u : List Char} {n : Num} (h : n.Wf (· = '.'))
    (hu : (u.map fun c => if c = '.' ∨ c = L.dp then '.' else c) = n.text) :
    ∃ n' : Num, u = n'.text ∧ n'.Wf isPoint ∧ n'.PointOk L ∧ n'.value = n.value := by
  set g : Char → Char := fun c => if c = '.' ∨ c = L.dp then '.' else c with hg
  have plain : ∀ x y, g x = y → Plain y → x = y := by
    intro x y hxy hy
    simp only [hg] at hxy
    split_ifs at hxy with hc
    · subst hxy
      exact absurd rfl (plain_ne hy).1
    · exact hxy
  have plains : ∀ l m : List Char, l.map g = m → (∀ y ∈ m, Plain y) → l = m := by
    intro l
    induction l with
    | nil => intro m hm _; simpa using hm
    | cons x l ih =>
      intro m hm hpl
      rcases m with _ | ⟨y, m⟩
      · cases hm
      · simp only [List.map_cons, List.cons.injEq] at hm
        rw [plain x y hm.1 (hpl y (by simp)), ih m hm.2 (fun z hz => hpl z (by simp [hz]))]
  have dot : ∀ c, g c = '.' → isPoint c = true ∧ (c = '.' ∨ c = L.dp) := by
    intro c hc
    simp only [hg] at hc
    split_ifs at hc with h1
    · refine ⟨?_, h1⟩
      rcases h1 with rfl | rfl
      · decide
      · exact hp
    · exact ⟨by rw [hc]; decide, .inl hc⟩
  rw [Num.text] at hu
  obtain ⟨u1, u', rfl, h1, hu'⟩ := List.map_eq_append_iff.1 hu
  obtain ⟨u2, u'', rfl, h2, hu''⟩ := List.map_eq_append_iff.1 hu'
  obtain ⟨u3, u4, rfl, h3, h4⟩ := List.map_eq_append_iff.1 hu''
  have e1 := plains u1 _ h1 fun y hy => .inr (.inl (h.sign y (by simpa using hy)))
  have e2 := plains u2 _ h2 fun y hy => .inl (h.int y hy)
  have e4 : u4 = expText n.exp := by
    refine plains u4 _ h4 fun y hy => ?_
    rcases he : n.exp with _ | ⟨c, s, d⟩
    · simp [he, expText] at hy
    · obtain ⟨a1, a2, a3, a4⟩ := h.exp c s d he
      simp only [he, expText, List.mem_cons, List.mem_append, Option.mem_toList] at hy
      rcases hy with rfl | hy | hy
      · exact .inr (.inr a1)
      · exact .inr (.inl (a2 y hy))
      · exact .inl (a4 y hy)
  rcases hf : n.frac with _ | ⟨c, f⟩
  · rw [hf] at h3
    have e3 : u3 = [] := by simpa [fracText] using h3
    refine ⟨n, by rw [Num.text, e1, e2, e3, e4, hf]; rfl, ⟨h.sign, h.int, ?_, h.exp, h.digit⟩, ?_, rfl⟩
    · intro c f hc
      rw [hf] at hc
      cases hc
    · intro c f hc
      rw [hf] at hc
      cases hc
  · rw [hf] at h3
    have hfr := h.frac c f hf
    rcases u3 with _ | ⟨d, u3⟩
    · cases h3
    · simp only [fracText, List.map_cons, List.cons.injEq] at h3
      have e3 := plains u3 f h3.2 fun y hy => .inl (hfr.2 y hy)
      have hd := dot d (by rw [h3.1]; simpa using hfr.1)
      refine ⟨{ n with frac := some (d, f) }, ?_, ⟨h.sign, h.int, ?_, h.exp, ?_⟩, ?_, ?_⟩
      · simp only [Num.text, e1, e2, e3, e4, fracText]
      · rintro c' f' ⟨⟩
        exact ⟨hd.1, hfr.2⟩
      · rcases h.digit with hi | ⟨c', f', hc', hne⟩
        · exact .inl hi
        · rw [hf] at hc'
          cases hc'
          exact .inr ⟨d, f, rfl, hne⟩
      · rintro c' f' ⟨⟩
        exact hd.2
      · simp only [Num.value, hf, Option.map_some]

theorem floatOf_fin {t : List Char} {q : ℚ} (h : floatOf t = some q) : ∃ n : Num, t = n.text ∧ n.Wf (· = '.') ∧ n.value = q := by
  unfold floatOf at h
  split at h
  · rename_i n hn
    obtain ⟨h1, h2⟩ := scan_sound hn
    refine ⟨n, by simpa using h1, ?_, by simpa using h⟩
    simpa using h2
  · cases h

/-- C152 (partial: without underscores and thousands separators, where the decimal point of the locale is `.` or `,`): a number that is
accepted with `fuzzy=False` is read as the same number with `fuzzy=True`. -/
theorem C152_agree_partial (L : Loc) (hL : L.Ok) (hp : isPoint L.dp = true) (s : List Char) (q : ℚ) (hu : '_' ∉ s)
    (hts : ∀ t, L.ts = some t → t ≠ '.' → t ∉ s) (h : strictBack L s = some (.fin q)) : fuzzyBack L s = some q := by
  rw [strictBack, delocalized L hL s hts, pyFloat, strip_map _ (g_space hp)] at h
  have hnu : ∀ l : List Char, (∀ c ∈ l, c ∈ s) → '_' ∉ l.map fun c => if c = '.' ∨ c = L.dp then '.' else c := by
    intro l hl hm
    obtain ⟨c, hc, he⟩ := List.mem_map.1 hm
    split_ifs at he with h1
    · exact absurd he (by decide)
    · subst he
      exact hu (hl _ hc)
  have hsub : ∀ c ∈ strip s, c ∈ s := by
    intro c hc
    rw [strip, List.mem_reverse] at hc
    exact (List.dropWhile_suffix _).subset (List.mem_reverse.1 ((List.dropWhile_suffix _).subset hc))
  rw [ungroup, if_neg (hnu _ hsub), Option.bind_some] at h
  simp only at h
  split_ifs at h with h1 h2
  · cases h
  · cases h
  · obtain ⟨q', hq', he⟩ := Option.map_eq_some_iff.1 h
    cases he
    obtain ⟨n, hn, hw, hv⟩ := floatOf_fin hq'
    obtain ⟨n', hn', hw', hpo, hv'⟩ := unmap_text hp hw hn
    rw [fuzzyBack, hn']
    have hst := scan_text (pt := isPoint) (fun _ h => h) hw' (r := []) (fun c t hc => by cases hc)
    rw [List.append_nil] at hst
    rw [hst, ← hv, ← hv']
    exact atof_text hL hw' hpo

/-- C152, negative: underscores are accepted by both and read differently. -/
theorem C152_counterexample : strictBack locC "1_000".toList = some (.fin 1000) ∧ fuzzyBack locC "1_000".toList = some 1 := by
  decide +kernel

/-- C152, negative: a number with two thousands separators, in the locale `en_US`. -/
theorem C152_counterexample_thousands : strictBack locEn "1,000,000".toList = some (.fin 1000000) ∧
    fuzzyBack locEn "1,000,000".toList = some 1000 := by
  decide +kernel

/-- C152, negative: infinity. -/
theorem C152_counterexample_infinity : strictBack locC "-Infinity".toList = some (.inf true) ∧ fuzzyBack locC "-Infinity".toList = some 0 := by
  decide +kernel

/-- `" -1.25e3\n"` and, in German, `"2,5"`. -/
example : strictBack locC " -1.25e3\n".toList = some (.fin (-1250)) ∧ strictBack locDe "2,5".toList = some (.fin (5 / 2)) ∧
    strictBack locC "5 nm".toList = none ∧ strictBack locC "1__0".toList = none := by
  decide +kernel

end Verif.Converter
