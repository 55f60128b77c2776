import Verif.Structured.BuildAny

/-!
C207: keeping the values of a structured model with `to_dict_value` (`nion/utils/StructuredModel.py:102-105`, `RecordModel` 182-190, `ArrayModel`
284-288) and bringing them back with `from_dict_value` (99-100, 177-180, 275-282) after the model has changed. Values are of any kind, as in C200,
and field names of a record are distinct. What the model has become meanwhile is any model.
-/

namespace Verif.Structured.AnyValue

mutual
/-- `to_dict_value`; `none` if it raises: a plain item has no such method (287). -/
def M.toDict : M → Option Val
  | .field v => some v
  | .plain _ => none
  | .broken => none
  | .record fs => fs.toDict.map .dict
  | .array _ is => is.toDict.map .list
/-- Lines 185-189. -/
def Fields.toDict : Fields → Option (List (List Char × Val))
  | .nil => some []
  | .cons k m r =>
    match m.toDict, r.toDict with
    | some .none, some d => some d
    | some v, some d => some ((k, v) :: d)
    | _, _ => none
/-- Lines 286-287. -/
def Items.toDict : Items → Option (List Val)
  | .nil => some []
  | .cons m r =>
    match m.toDict, r.toDict with
    | some v, some vs => some (v :: vs)
    | _, _ => none
end

/-! ### Specification -/

mutual
/-- No record has two fields of one name. -/
inductive Distinct : M → Prop where
  | field (v : Val) : Distinct (.field v)
  | plain (v : Val) : Distinct (.plain v)
  | broken : Distinct .broken
  | record (fs : Fields) (hn : (fs.toList.map (·.1)).Nodup) (h : DistinctF fs) : Distinct (.record fs)
  | array (new : M) (is : Items) (hn : Distinct new) (h : DistinctI is) : Distinct (.array new is)
inductive DistinctF : Fields → Prop where
  | nil : DistinctF .nil
  | cons (k : List Char) (m : M) (r : Fields) (h : Distinct m) (hr : DistinctF r) : DistinctF (.cons k m r)
inductive DistinctI : Items → Prop where
  | nil : DistinctI .nil
  | cons (m : M) (r : Items) (h : Distinct m) (hr : DistinctI r) : DistinctI (.cons m r)
end

mutual
/-- No record of a schema has two fields of one name. -/
inductive SDistinct : Sch → Prop where
  | scalar : SDistinct .scalar
  | float : SDistinct .float
  | record (fs : SFields) (hn : (fs.toList.map (·.1)).Nodup) (h : SDistinctF fs) : SDistinct (.record fs)
  | array (item : Sch) (h : SDistinct item) : SDistinct (.array item)
inductive SDistinctF : SFields → Prop where
  | nil : SDistinctF .nil
  | cons (k : List Char) (s : Sch) (df : Val) (r : SFields) (h : SDistinct s) (hr : SDistinctF r) : SDistinctF (.cons k s df r)
end

mutual
/-- `Returns m m'`: the model `m'` can go back to `m`. It has the same fields; a field of a record that was `None` still is; items that are
missing can go back from what the array makes. -/
inductive Returns : M → M → Prop where
  | field (u v : Val) : Returns (.field u) (.field v)
  | record (fs fs' : Fields) (h : ReturnsF fs fs') : Returns (.record fs) (.record fs')
  | array (new : M) (is is' : Items) (h : ReturnsI new is is') : Returns (.array new is) (.array new is')
inductive ReturnsF : Fields → Fields → Prop where
  | nil : ReturnsF .nil .nil
  | cons (k : List Char) (m m' : M) (r r' : Fields) (h : Returns m m') (hn : m = .field .none → m' = .field .none) (hr : ReturnsF r r') :
      ReturnsF (.cons k m r) (.cons k m' r')
inductive ReturnsI : M → Items → Items → Prop where
  | nil (new : M) (is' : Items) : ReturnsI new .nil is'
  | missing (new m : M) (r : Items) (h : Returns m new) (hr : ReturnsI new r .nil) : ReturnsI new (.cons m r) .nil
  | cons (new m m' : M) (r r' : Items) (h : Returns m m') (hr : ReturnsI new r r') : ReturnsI new (.cons m r) (.cons m' r')
end

/-! ### Proofs -/

theorem toDict_none (m : M) (h : m.toDict = some .none) : m = .field .none := by
  cases m with
  | field v => cases h; rfl
  | plain => cases h
  | broken => cases h
  | record fs => rw [M.toDict] at h; cases hf : fs.toDict <;> simp [hf] at h
  | array new is => rw [M.toDict] at h; cases hf : is.toDict <;> simp [hf] at h

/-- The dict of a record has the values of the fields that are not `None`. -/
theorem toDict_lookup : (fs : Fields) → (d : List (List Char × Val)) → fs.toDict = some d → (fs.toList.map (·.1)).Nodup →
    (∀ k, k ∉ fs.toList.map (·.1) → d.lookup k = none) ∧
      ∀ k m, (k, m) ∈ fs.toList → ∃ w, m.toDict = some w ∧ ((m = .field .none ∧ d.lookup k = none) ∨ m ≠ .field .none ∧ d.lookup k = some w)
  | .nil, d, hd, _ => by cases hd; simp [Fields.toList]
  | .cons k m r, d, hd, hn => by
    have ih := fun e => toDict_lookup r e
    rw [Fields.toList, List.map_cons, List.nodup_cons] at hn
    rw [Fields.toDict] at hd
    simp only [Fields.toList, List.map_cons, List.mem_cons, not_or]
    cases hm : m.toDict with
    | none => simp [hm] at hd
    | some v =>
      cases hr : r.toDict with
      | none => cases v <;> simp [hm, hr] at hd
      | some e =>
        obtain ⟨h1, h2⟩ := ih e hr hn.2
        by_cases hv : v = .none
        · subst hv
          simp only [hm, hr, Option.some.injEq] at hd
          subst hd
          refine ⟨fun k' hk => h1 k' hk.2, fun k' m' h => ?_⟩
          rcases h with h | h
          · cases h; exact ⟨_, hm, .inl ⟨toDict_none m hm, h1 k hn.1⟩⟩
          · exact h2 k' m' h
        · have hd : d = (k, v) :: e := by
            rw [hm, hr] at hd
            cases v <;> first | exact absurd rfl hv | (cases hd; rfl)
          subst hd
          refine ⟨fun k' hk => ?_, fun k' m' h => ?_⟩
          · rw [List.lookup_cons, beq_eq_false_iff_ne.2 hk.1]; exact h1 k' hk.2
          · rcases h with h | h
            · cases h
              exact ⟨v, hm, .inr ⟨fun e => hv (by rw [e] at hm; cases hm; rfl), by simp⟩⟩
            · obtain ⟨w, hw, hl⟩ := h2 k' m' h
              have hne : k' ≠ k := fun e => hn.1 (List.mem_map.2 ⟨(k', m'), h, e⟩)
              refine ⟨w, hw, ?_⟩
              rw [List.lookup_cons, beq_eq_false_iff_ne.2 hne]
              exact hl

theorem returns_length : (is is' : Items) → (vs : List Val) → is.toDict = some vs → ReturnsI .broken is is' → vs.length ≤ is'.toList.length
  | .nil, _, _, hs, _ => by cases hs; simp
  | .cons m r, is', vs, hs, h => by
    rw [Items.toDict] at hs
    cases hm : m.toDict with
    | none => simp [hm] at hs
    | some v =>
      cases hr : r.toDict with
      | none => simp [hm, hr] at hs
      | some e =>
        simp only [hm, hr, Option.some.injEq] at hs
        subst hs
        cases h with
        | missing _ _ _ h => cases h
        | cons _ _ _ _ r' _ h => simpa [Items.toList] using returns_length r r' e hr h

mutual
theorem restored : (m : M) → Distinct m → (v : Val) → m.toDict = some v → (m' : M) → (m'.read v = (m, false) ↔ Returns m m')
  | .field u, _, v, hv, m' => by
    cases hv
    cases m' with
    | field w => simp only [M.read, true_iff]; exact .field _ _
    | plain w => simp only [M.read, Prod.mk.injEq, reduceCtorEq, false_and, false_iff]; intro h; cases h
    | broken => simp only [M.read, Prod.mk.injEq, reduceCtorEq, false_and, false_iff]; intro h; cases h
    | record fs =>
      refine ⟨fun h => ?_, fun h => by cases h⟩
      have := congrArg Prod.fst h
      cases u <;> simp [M.read] at this
    | array new is =>
      refine ⟨fun h => ?_, fun h => by cases h⟩
      have := congrArg Prod.fst h
      rw [M.read] at this
      split at this
      · cases this
      · split at this <;> cases this
  | .plain _, _, _, hv, _ => nomatch hv
  | .broken, _, _, hv, _ => nomatch hv
  | .record fs, hd, v, hv, m' => by
    rw [M.toDict, Option.map_eq_some_iff] at hv
    obtain ⟨d, hf, rfl⟩ := hv
    obtain ⟨hn, hdf⟩ : (fs.toList.map (·.1)).Nodup ∧ DistinctF fs := by cases hd; exact ⟨by assumption, by assumption⟩
    have hl := (toDict_lookup fs d hf hn).2
    cases m' with
    | field w => simp only [M.read, Prod.mk.injEq, reduceCtorEq, false_and, false_iff]; intro h; cases h
    | plain w => simp only [M.read, Prod.mk.injEq, reduceCtorEq, false_and, false_iff]; intro h; cases h
    | broken => simp only [M.read, Prod.mk.injEq, reduceCtorEq, false_and, false_iff]; intro h; cases h
    | record fs' =>
      have key := restoredF fs hdf d hl fs'
      simp only [M.read, Prod.mk.injEq, M.record.injEq]
      refine ⟨fun h => .record fs fs' (key.1 (Prod.ext h.1 h.2)), fun h => ?_⟩
      have := key.2 (by cases h; assumption)
      exact ⟨congrArg Prod.fst this, congrArg Prod.snd this⟩
    | array new is =>
      refine ⟨fun h => ?_, fun h => by cases h⟩
      have := congrArg Prod.fst h
      rw [M.read] at this
      split at this
      · cases this
      · split at this <;> cases this
  | .array new is, hd, v, hv, m' => by
    rw [M.toDict, Option.map_eq_some_iff] at hv
    obtain ⟨vs, hf, rfl⟩ := hv
    have hdi : DistinctI is := by cases hd; assumption
    cases m' with
    | field w => simp only [M.read, Prod.mk.injEq, reduceCtorEq, false_and, false_iff]; intro h; cases h
    | plain w => simp only [M.read, Prod.mk.injEq, reduceCtorEq, false_and, false_iff]; intro h; cases h
    | broken => simp only [M.read, Prod.mk.injEq, reduceCtorEq, false_and, false_iff]; intro h; cases h
    | record fs' =>
      refine ⟨fun h => ?_, fun h => by cases h⟩
      have := congrArg Prod.fst h
      simp [M.read] at this
    | array new' is' =>
      have key := restoredI is hdi vs hf new' is'
      simp only [M.read, Val.elems]
      by_cases hb : new'.isBroken && decide (is'.toList.length < vs.length)
      · rw [if_pos hb]
        rw [Bool.and_eq_true, isBroken_iff, decide_eq_true_eq] at hb
        simp only [Prod.mk.injEq, Bool.true_eq_false, and_false, false_iff]
        intro h
        cases h with
        | array _ _ _ h =>
          rw [hb.1] at h
          have := returns_length is is' vs hf h
          omega
      · rw [if_neg hb]
        simp only [Prod.mk.injEq, M.array.injEq]
        constructor
        · rintro ⟨⟨rfl, h1⟩, h2⟩
          exact .array new' is is' (key.1 (Prod.ext h1 h2))
        · intro h
          cases h with
          | array _ _ _ h =>
            have := key.2 h
            exact ⟨⟨rfl, congrArg Prod.fst this⟩, congrArg Prod.snd this⟩
theorem restoredF : (fs : Fields) → DistinctF fs → (d : List (List Char × Val)) →
    (∀ k m, (k, m) ∈ fs.toList → ∃ w, m.toDict = some w ∧ ((m = .field .none ∧ d.lookup k = none) ∨ m ≠ .field .none ∧ d.lookup k = some w)) →
    (fs' : Fields) → (fs'.read d = (fs, false) ↔ ReturnsF fs fs')
  | .nil, _, d, _, fs' => by
    cases fs' with
    | nil => simp only [Fields.read, true_iff]; exact .nil
    | cons k m r =>
      refine ⟨fun h => ?_, fun h => by cases h⟩
      have := congrArg Prod.fst h
      rw [Fields.read] at this
      split at this
      · cases this
      · split at this <;> cases this
  | .cons k m r, hd, d, hl, fs' => by
    obtain ⟨hdm, hdr⟩ : Distinct m ∧ DistinctF r := by cases hd; exact ⟨by assumption, by assumption⟩
    cases fs' with
    | nil =>
      refine ⟨fun h => ?_, fun h => by cases h⟩
      have := congrArg Prod.fst h
      simp [Fields.read] at this
    | cons k' m' r' =>
      have ihr := restoredF r hdr d (fun k' m' h => hl k' m' (List.mem_cons_of_mem _ h)) r'
      obtain ⟨w, hw, hk⟩ := hl k m List.mem_cons_self
      have ihm := restored m hdm w hw m'
      by_cases he : k' = k
      · subst he
        rw [Fields.read]
        rcases hk with ⟨rfl, hk⟩ | ⟨hne, hk⟩
        · rw [hk]
          simp only [Prod.mk.injEq, Fields.cons.injEq, true_and]
          constructor
          · rintro ⟨⟨rfl, h1⟩, h2⟩
            exact .cons _ _ _ _ _ (.field _ _) (fun _ => rfl) (ihr.1 (Prod.ext h1 h2))
          · intro h
            cases h with
            | cons _ _ _ _ _ h hn hr =>
              have := ihr.2 hr
              exact ⟨⟨hn rfl, congrArg Prod.fst this⟩, congrArg Prod.snd this⟩
        · rw [hk]
          simp only
          constructor
          · intro h
            split at h
            · cases h
            · next h2 =>
              simp only [Prod.mk.injEq, Fields.cons.injEq, true_and] at h
              exact .cons _ _ _ _ _ (ihm.1 (Prod.ext h.1.1 (by simpa using h2))) (fun e => absurd e hne) (ihr.1 (Prod.ext h.1.2 h.2))
          · intro h
            cases h with
            | cons _ _ _ _ _ h hn hr =>
              have h1 := ihm.2 h
              have h2 := ihr.2 hr
              rw [if_neg (by rw [h1]; simp), h1, h2]
      · refine ⟨fun h => ?_, fun h => by cases h; exact absurd rfl he⟩
        have := congrArg Prod.fst h
        rw [Fields.read] at this
        split at this
        · exact absurd (Fields.cons.inj this).1 he
        · split at this <;> exact absurd (Fields.cons.inj this).1 he
theorem restoredI : (is : Items) → DistinctI is → (vs : List Val) → is.toDict = some vs → (new : M) → (is' : Items) →
    (is'.read (fun w => new.read w) new vs = (is, false) ↔ ReturnsI new is is')
  | .nil, _, vs, hs, new, is' => by
    cases hs
    refine ⟨fun _ => .nil new is', fun _ => ?_⟩
    cases is' <;> rfl
  | .cons m r, hd, vs, hs, new, is' => by
    obtain ⟨hdm, hdr⟩ : Distinct m ∧ DistinctI r := by cases hd; exact ⟨by assumption, by assumption⟩
    rw [Items.toDict] at hs
    cases hm : m.toDict with
    | none => simp [hm] at hs
    | some v =>
      cases hr : r.toDict with
      | none => simp [hm, hr] at hs
      | some e =>
        simp only [hm, hr, Option.some.injEq] at hs
        subst hs
        cases is' with
        | nil =>
          have ihm := restored m hdm v hm new
          have ihr := restoredI r hdr e hr new .nil
          have e0 : Items.read (fun w => new.read w) new .nil e = readNew (fun w => new.read w) new e := by rw [Items.read]
          rw [e0] at ihr
          rw [Items.read, readNew]
          constructor
          · intro h
            split at h
            · cases h
            · next h2 =>
              simp only [Prod.mk.injEq, Items.cons.injEq] at h
              exact .missing new m r (ihm.1 (Prod.ext h.1.1 (by simpa using h2))) (ihr.1 (Prod.ext h.1.2 h.2))
          · intro h
            cases h with
            | missing _ _ _ h hr =>
              have h1 := ihm.2 h
              have h2 := ihr.2 hr
              simp only [h1, h2, Bool.false_eq_true, if_false]
        | cons m' r' =>
          have ihm := restored m hdm v hm m'
          have ihr := restoredI r hdr e hr new r'
          rw [Items.read]
          constructor
          · intro h
            split at h
            · cases h
            · next h2 =>
              simp only [Prod.mk.injEq, Items.cons.injEq] at h
              exact .cons new m m' r r' (ihm.1 (Prod.ext h.1.1 (by simpa using h2))) (ihr.1 (Prod.ext h.1.2 h.2))
          · intro h
            cases h with
            | cons _ _ _ _ _ h hr =>
              have h1 := ihm.2 h
              have h2 := ihr.2 hr
              rw [if_neg (by rw [h1]; simp), h1, h2]
end

/-- C207, partial: reading the values a model had into what it has become brings it back exactly if fields that were `None` are not set, neither
in the model nor in items the array makes. Otherwise it does not: see `C207_counterexample`. -/
theorem C207_restored_iff_partial (m m' : M) (v : Val) (hd : Distinct m) (hv : m.toDict = some v) : m'.read v = (m, false) ↔ Returns m m' :=
  restored m hd v hv m'

mutual
theorem returns_self : (m : M) → (v : Val) → m.toDict = some v → Returns m m
  | .field _, _, _ => .field _ _
  | .plain _, _, h => nomatch h
  | .broken, _, h => nomatch h
  | .record fs, _, h => by
    rw [M.toDict, Option.map_eq_some_iff] at h
    obtain ⟨d, h, _⟩ := h
    exact .record fs fs (returnsF_self fs d h)
  | .array new is, _, h => by
    rw [M.toDict, Option.map_eq_some_iff] at h
    obtain ⟨d, h, _⟩ := h
    exact .array new is is (returnsI_self is d h new)
theorem returnsF_self : (fs : Fields) → (d : List (List Char × Val)) → fs.toDict = some d → ReturnsF fs fs
  | .nil, _, _ => .nil
  | .cons k m r, d, h => by
    rw [Fields.toDict] at h
    cases hm : m.toDict with
    | none => simp [hm] at h
    | some v =>
      cases hr : r.toDict with
      | none => cases v <;> simp [hm, hr] at h
      | some e => exact .cons k m m r r (returns_self m v hm) id (returnsF_self r e hr)
theorem returnsI_self : (is : Items) → (vs : List Val) → is.toDict = some vs → (new : M) → ReturnsI new is is
  | .nil, _, _, new => .nil new .nil
  | .cons m r, vs, h, new => by
    rw [Items.toDict] at h
    cases hm : m.toDict with
    | none => simp [hm] at h
    | some v =>
      cases hr : r.toDict with
      | none => simp [hm, hr] at h
      | some e => exact .cons new m m r r (returns_self m v hm) (returnsI_self r e hr new)
end

/-- C207: reading its own values into a model raises nothing and changes nothing. -/
theorem C207_self (m : M) (v : Val) (hd : Distinct m) (hv : m.toDict = some v) : m.read v = (m, false) :=
  (restored m hd v hv m).2 (returns_self m v hv)

theorem makeItems_distinct (f : Val → Option M) (hf : ∀ w m, f w = some m → Distinct m) (vs : List Val) (is : Items)
    (h : makeItems f vs = some is) : DistinctI is := by
  induction vs generalizing is with
  | nil => cases h; exact .nil
  | cons w r ih =>
    rw [makeItems] at h
    split at h
    · next h1 h2 => cases h; exact .cons _ _ (hf _ _ h1) (ih _ h2)
    · cases h

theorem makeArray_distinct (f : Val → Option M) (hf : ∀ w m, f w = some m → Distinct m) (v : Val) (m : M)
    (h : makeArray f v = some m) : Distinct m := by
  have hn : Distinct ((f .none).getD .broken) := by
    cases e : f .none with
    | none => exact .broken
    | some m => exact hf _ _ e
  cases v with
  | none => cases h; exact .array _ _ hn .nil
  | num n => cases h
  | _ =>
    simp only [makeArray, Val.elems, Option.map_eq_some_iff] at h
    obtain ⟨is, hi, rfl⟩ := h
    exact .array _ _ hn (makeItems_distinct f hf _ is hi)

theorem sfields_names : (fs : SFields) → (e : Option (List (List Char × Val))) → (ms : Fields) → fs.build e = some ms →
    ms.toList.map (·.1) = fs.toList.map (·.1)
  | .nil, _, _, h => by cases h; rfl
  | .cons _ _ _ _, none, _, h => nomatch h
  | .cons k s df r, some e, ms, h => by
    rw [SFields.build] at h
    split at h
    · next h1 h2 =>
      cases h
      simp only [Fields.toList, SFields.toList, List.map_cons, sfields_names r (some e) _ h2]
    · cases h

mutual
theorem build_distinct : (s : Sch) → SDistinct s → (d v : Val) → (m : M) → s.build d v = some m → Distinct m
  | .scalar, _, d, v, m, h => by cases h; exact .field _
  | .float, _, d, v, m, h => nomatch h
  | .record fs, hs, d, v, m, h => by
    cases hs with
    | record _ hn hs =>
      rw [Sch.build, Option.bind_eq_some_iff] at h
      obtain ⟨e, _, h⟩ := h
      rw [Option.map_eq_some_iff] at h
      obtain ⟨ms, hm, rfl⟩ := h
      exact .record ms (by rw [sfields_names fs _ ms hm]; exact hn) (sfields_distinct fs hs _ ms hm)
  | .array item, hs, d, v, m, h => by
    have hi : SDistinct item := by cases hs; assumption
    rw [Sch.build] at h
    exact makeArray_distinct _ (fun w m hw => value_distinct item hi w m hw) _ m h
theorem value_distinct : (s : Sch) → SDistinct s → (v : Val) → (m : M) → s.buildValue v = some m → Distinct m
  | .scalar, _, v, m, h => by cases h; exact .plain _
  | .float, _, v, m, h => nomatch h
  | .record fs, hs, v, m, h => by
    cases hs with
    | record _ hn hs =>
      rw [Sch.buildValue, Option.map_eq_some_iff] at h
      obtain ⟨ms, hm, rfl⟩ := h
      exact .record ms (by rw [sfields_names fs _ ms hm]; exact hn) (sfields_distinct fs hs _ ms hm)
  | .array item, hs, v, m, h => by
    have hi : SDistinct item := by cases hs; assumption
    rw [Sch.buildValue] at h
    exact makeArray_distinct _ (fun w m hw => value_distinct item hi w m hw) _ m h
theorem sfields_distinct : (fs : SFields) → SDistinctF fs → (e : Option (List (List Char × Val))) → (ms : Fields) → fs.build e = some ms →
    DistinctF ms
  | .nil, _, _, _, h => by cases h; exact .nil
  | .cons _ _ _ _, _, none, _, h => nomatch h
  | .cons k s df r, hs, some e, ms, h => by
    obtain ⟨h1, h2⟩ : SDistinct s ∧ SDistinctF r := by cases hs; exact ⟨by assumption, by assumption⟩
    rw [SFields.build] at h
    split at h
    · next hb hr => cases h; exact .cons _ _ _ (build_distinct s h1 _ _ _ hb) (sfields_distinct r h2 _ _ hr)
    · cases h
end

theorem fresh_distinct (new : M) (hn : Distinct new) (n : ℕ) : DistinctI (fresh new n) := by
  induction n with
  | zero => exact .nil
  | succ n ih => exact .cons _ _ hn ih

theorem fit_distinct (new : M) (hn : Distinct new) : (is : Items) → DistinctI is → (n : ℕ) → DistinctI (is.fit new n)
  | .nil, _, n => by rw [Items.fit]; exact fresh_distinct new hn n
  | .cons _ _, _, 0 => .nil
  | .cons m r, h, n + 1 => by
    cases h with
    | cons _ _ h hr => exact .cons _ _ h (fit_distinct new hn r hr n)

theorem readNew_distinct (f : Val → M × Bool) (new : M) (hn : Distinct new) (hf : ∀ w, Distinct (f w).1) (vs : List Val) :
    DistinctI (readNew f new vs).1 := by
  induction vs with
  | nil => exact .nil
  | cons v vs ih =>
    rw [readNew]
    split
    · exact .cons _ _ (hf v) (fresh_distinct new hn _)
    · exact .cons _ _ (hf v) ih

theorem read_names : (fs : Fields) → (d : List (List Char × Val)) → (fs.read d).1.toList.map (·.1) = fs.toList.map (·.1)
  | .nil, _ => rfl
  | .cons k m r, d => by
    rw [Fields.read]
    split
    · simp only [Fields.toList, List.map_cons, read_names r d]
    · split
      · simp only [Fields.toList, List.map_cons]
      · simp only [Fields.toList, List.map_cons, read_names r d]

mutual
theorem read_distinct : (m : M) → Distinct m → (v : Val) → Distinct (m.read v).1
  | .field u, _, v => by rw [M.read]; exact .field v
  | .plain _, h, v => by rw [M.read]; exact h
  | .broken, h, v => by rw [M.read]; exact h
  | .record fs, h, v => by
    cases v with
    | dict d =>
      cases h with
      | record _ hn h =>
        simp only [M.read]
        exact .record _ (by rw [read_names]; exact hn) (readF_distinct fs h d)
    | _ => simp only [M.read]; exact h
  | .array new is, h, v => by
    obtain ⟨hn, hi⟩ : Distinct new ∧ DistinctI is := by cases h; exact ⟨by assumption, by assumption⟩
    rw [M.read]
    split
    · exact h
    · split
      · exact h
      · exact .array _ _ hn (readI_distinct is hi (fun w => new.read w) (fun w => read_distinct new hn w) new hn _)
theorem readF_distinct : (fs : Fields) → DistinctF fs → (d : List (List Char × Val)) → DistinctF (fs.read d).1
  | .nil, h, _ => h
  | .cons k m r, h, d => by
    obtain ⟨hm, hr⟩ : Distinct m ∧ DistinctF r := by cases h; exact ⟨by assumption, by assumption⟩
    rw [Fields.read]
    split
    · exact .cons _ _ _ hm (readF_distinct r hr d)
    · split
      · exact .cons _ _ _ (read_distinct m hm _) hr
      · exact .cons _ _ _ (read_distinct m hm _) (readF_distinct r hr d)
theorem readI_distinct : (is : Items) → DistinctI is → (f : Val → M × Bool) → (∀ w, Distinct (f w).1) → (new : M) → Distinct new →
    (vs : List Val) → DistinctI (is.read f new vs).1
  | .nil, _, f, hf, new, hn, vs => by rw [Items.read]; exact readNew_distinct f new hn hf vs
  | .cons _ _, _, _, _, _, _, [] => by rw [Items.read]; exact .nil
  | .cons m r, h, f, hf, new, hn, v :: vs => by
    obtain ⟨hm, hr⟩ : Distinct m ∧ DistinctI r := by cases h; exact ⟨by assumption, by assumption⟩
    rw [Items.read]
    split
    · exact .cons _ _ (read_distinct m hm v) (fit_distinct new hn r hr _)
    · exact .cons _ _ (read_distinct m hm v) (readI_distinct r hr f hf new hn vs)
end

/-- C207: after any number of values have been read into a model that was built from a schema with distinct field names, whether or not reading
raised, its values read back change nothing; and they bring back whatever it becomes exactly as far as `Returns` says. -/
theorem C207_reached_partial (s : Sch) (hs : SDistinct s) (d w : Val) (m : M) (hb : s.build d w = some m) (reads : List Val) (v : Val)
    (hv : (reads.foldl (fun m v => (m.read v).1) m).toDict = some v) :
    (reads.foldl (fun m v => (m.read v).1) m).read v = (reads.foldl (fun m v => (m.read v).1) m, false) ∧
      ∀ m', m'.read v = (reads.foldl (fun m v => (m.read v).1) m, false) ↔ Returns (reads.foldl (fun m v => (m.read v).1) m) m' := by
  have h : ∀ (reads : List Val) (m : M), Distinct m → Distinct (reads.foldl (fun m v => (m.read v).1) m) := by
    intro reads
    induction reads with
    | nil => exact fun m h => h
    | cons u reads ih => exact fun m h => ih _ (read_distinct m h u)
  have hm := h reads m (build_distinct s hs d w m hb)
  exact ⟨C207_self _ v hm hv, restored _ hm v hv⟩

/-- No arrays of scalars with items. -/
inductive NoPlain : M → Prop where
  | field (v : Val) : NoPlain (.field v)
  | record (fs : Fields) (h : ∀ k m, (k, m) ∈ fs.toList → NoPlain m) : NoPlain (.record fs)
  | array (new : M) (is : Items) (h : ∀ m ∈ is.toList, NoPlain m) : NoPlain (.array new is)

mutual
theorem toDict_ok : (m : M) → ((∃ v, m.toDict = some v) ↔ NoPlain m)
  | .field v => ⟨fun _ => .field v, fun _ => ⟨v, rfl⟩⟩
  | .plain v => ⟨fun ⟨_, h⟩ => (nomatch h), fun h => (nomatch h)⟩
  | .broken => ⟨fun ⟨_, h⟩ => (nomatch h), fun h => (nomatch h)⟩
  | .record fs => by
    have := toDictF_ok fs
    simp only [M.toDict, Option.map_eq_some_iff]
    constructor
    · rintro ⟨_, d, h, _⟩; exact .record fs (this.1 ⟨d, h⟩)
    · intro h
      cases h with
      | record _ h => obtain ⟨d, h⟩ := this.2 h; exact ⟨_, d, h, rfl⟩
  | .array new is => by
    have := toDictI_ok is
    simp only [M.toDict, Option.map_eq_some_iff]
    constructor
    · rintro ⟨_, d, h, _⟩; exact .array new is (this.1 ⟨d, h⟩)
    · intro h
      cases h with
      | array _ _ h => obtain ⟨d, h⟩ := this.2 h; exact ⟨_, d, h, rfl⟩
theorem toDictF_ok : (fs : Fields) → ((∃ d, fs.toDict = some d) ↔ ∀ k m, (k, m) ∈ fs.toList → NoPlain m)
  | .nil => by simp [Fields.toDict, Fields.toList]
  | .cons k m r => by
    have h1 := toDict_ok m
    have h2 := toDictF_ok r
    have e : (∃ d, (Fields.cons k m r).toDict = some d) ↔ (∃ v, m.toDict = some v) ∧ ∃ d, r.toDict = some d := by
      rw [Fields.toDict]
      cases m.toDict with
      | none => simp
      | some v => cases r.toDict <;> cases v <;> simp
    rw [e, h1, h2]
    constructor
    · rintro ⟨ha, hr⟩ k' m' h
      rcases List.mem_cons.1 h with h | h
      · cases h; exact ha
      · exact hr k' m' h
    · exact fun h => ⟨h k m List.mem_cons_self, fun k' m' h' => h k' m' (List.mem_cons_of_mem _ h')⟩
theorem toDictI_ok : (is : Items) → ((∃ d, is.toDict = some d) ↔ ∀ m ∈ is.toList, NoPlain m)
  | .nil => by simp [Items.toDict, Items.toList]
  | .cons m r => by
    have h1 := toDict_ok m
    have h2 := toDictI_ok r
    have e : (∃ d, (Items.cons m r).toDict = some d) ↔ (∃ v, m.toDict = some v) ∧ ∃ d, r.toDict = some d := by
      rw [Items.toDict]
      cases m.toDict <;> cases r.toDict <;> simp
    rw [e, h1, h2, Items.toList, List.forall_mem_cons]
end

/-- C207: the values of a model can be had exactly if no array of scalars in it has items. -/
theorem C207_values_iff (m : M) : m.toDict = none ↔ ¬ NoPlain m := by
  rw [← toDict_ok m]
  cases m.toDict <;> simp

/-! ### Cases -/

/-- A record with a field `a` and an array `l` of records with a field `a`. -/
def rsNew : M := .record (.cons ['a'] (.field .none) .nil)

def rsModel (a : Val) (l : Items) : M := .record (.cons ['a'] (.field a) (.cons ['l'] (.array rsNew l) .nil))

def rsItem (n : ℕ) : M := .record (.cons ['a'] (.field (.num n)) .nil)

/-- Assigned, with an item removed and another changed, and brought back. -/
example : (rsModel (.num 1) (.cons (rsItem 2) (.cons (rsItem 3) .nil))).toDict =
      some (.dict [(['a'], .num 1), (['l'], .list [.dict [(['a'], .num 2)], .dict [(['a'], .num 3)]])]) ∧
    (rsModel (.num 7) (.cons (rsItem 9) .nil)).read (.dict [(['a'], .num 1), (['l'], .list [.dict [(['a'], .num 2)], .dict [(['a'], .num 3)]])]) =
      (rsModel (.num 1) (.cons (rsItem 2) (.cons (rsItem 3) .nil)), false) := ⟨rfl, rfl⟩

/-- A model that was built and into which a number could not be read. -/
example : ((Sch.record (.cons ['l'] (.array exRec) .none .nil)).build .none (.dict [(['l'], .list [.dict [(['a'], .num 4)]])])).map
      (fun m => ((m.read (.num 3)).2, (m.read (.num 3)).1.toDict)) =
    some (true, some (.dict [(['l'], .list [.dict [(['a'], .num 4)]])])) := rfl

/-- C207: a field that was `None` and has been set stays set, also in an item that has come to its place. -/
theorem C207_counterexample : ∃ (m m' : M) (v : Val), Distinct m ∧ m.toDict = some v ∧
    m'.read v = (rsModel (.num 7) (.cons (rsItem 9) .nil), false) ∧ m = rsModel .none (.cons rsNew .nil) ∧
    m' = rsModel (.num 7) (.cons (rsItem 9) (.cons (rsItem 8) .nil)) :=
  ⟨rsModel .none (.cons rsNew .nil), rsModel (.num 7) (.cons (rsItem 9) (.cons (rsItem 8) .nil)), .dict [(['l'], .list [.dict []])],
    .record _ (by simp [Fields.toList])
      (.cons _ _ _ (.field _) (.cons _ _ _ (.array _ _
        (.record _ (by simp [Fields.toList]) (.cons _ _ _ (.field _) .nil))
        (.cons _ _ (.record _ (by simp [Fields.toList]) (.cons _ _ _ (.field _) .nil)) .nil)) .nil)),
    rfl, rfl, rfl, rfl⟩

/-- C207: the values of an array of scalars with an item cannot be had. -/
theorem C207_counterexample_scalar : ∃ m, (Sch.array .scalar).build .none (.list [.num 1]) = some m ∧ m.toDict = none := ⟨_, rfl, rfl⟩

end Verif.Structured.AnyValue
