import Verif.Structured.CopyFrom

/-!
C50 and C51, exactly: the values and schemas for which building and copying keep the values.
-/

namespace Verif.Structured

open Verif.Py

mutual
/-- The names of the fields of a record are distinct. -/
def Distinct : Schema → Prop
  | .scalar => True
  | .double => True
  | .record fs => fs.names.Nodup ∧ DistinctFields fs
  | .array s => Distinct s
def DistinctFields : Fields → Prop
  | .nil => True
  | .cons _ _ s rest => Distinct s ∧ DistinctFields rest
end

theorem orElse_comm {d v : Val} (h : d.orElse v = v.orElse d) : d = .none ∨ v = .none ∨ d = v := by
  cases d <;> cases v <;> simp_all [Val.orElse, Val.isNone]

theorem asDict_inv {d : Val} {e : List (String × Val)} (h : asDict d = .ok e) : (d = .none ∨ ∃ a, d = .dict a) ∧ e = d.entries := by
  cases d <;> simp_all [asDict, Val.entries]

theorem asList_inv {d : Val} {e : List Val} (h : asList d = .ok e) : (d = .none ∨ ∃ a, d = .list a) ∧ e = d.elems := by
  cases d <;> simp_all [asList, Val.elems]

/-- `None` and a missing entry are the same: two dicts made by `entry` agree just if their parts do. -/
theorem entry_inj {n : String} {v w : Val} {r r' : List (String × Val)} (h1 : r.lookup n = none) (h2 : r'.lookup n = none)
    (h : entry n v r = entry n w r') : v = w ∧ r = r' := by
  unfold entry at h
  split at h <;> split at h
  · rename_i hv hw
    refine ⟨?_, h⟩
    cases v <;> cases w <;> simp_all [Val.isNone]
  · subst h; simp [List.lookup] at h1
  · rename_i hw; rw [← h] at h2; simp [List.lookup] at h2
  · simpa using h

theorem lookup_expectFields (n : String) : ∀ (fs : Fields) (e : List (String × Val)), n ∉ fs.names →
    (expectFields fs e).lookup n = none
  | .nil, e, _ => rfl
  | .cons k d s rest, e, hn => by
    simp only [Fields.names, List.mem_cons, not_or] at hn
    have ih := lookup_expectFields n rest e hn.2
    rw [expectFields, entry]
    split
    · exact ih
    · rw [List.lookup_cons, show (n == k) = false by simpa using hn.1]; exact ih

theorem toDictFields_cons {n : String} {d : Val} {s : Schema} {rest : Fields} {m : M} {ms : List M} {e : List (String × Val)}
    (h : toDictFields (.cons n d s rest) (m :: ms) = .ok e) :
    ∃ v r, toDict s m = .ok v ∧ toDictFields rest ms = .ok r ∧ e = entry n v r := by
  rw [toDictFields] at h
  rcases hv : toDict s m with x | v
  · rw [hv] at h; cases h
  rcases hr : toDictFields rest ms with x | r
  · rw [hv, hr] at h; cases h
  rw [hv, hr] at h
  simp only [Except.bind, Except.map, Except.ok.injEq] at h
  exact ⟨v, r, rfl, rfl, h.symm⟩

theorem buildFields_cons {n : String} {d : Val} {s : Schema} {rest : Fields} {ms : List M} {e : List (String × Val)}
    (h : buildFields (.cons n d s rest) e = .ok ms) :
    ∃ m ms', build s false d (getVal e n) = .ok m ∧ buildFields rest e = .ok ms' ∧ ms = m :: ms' := by
  rw [buildFields] at h
  rcases h1 : build s false d (getVal e n) with x | m
  · rw [h1] at h; cases h
  rcases h2 : buildFields rest e with x | ms'
  · rw [h1, h2] at h; cases h
  rw [h1, h2] at h
  simp only [Except.bind, Except.map, Except.ok.injEq] at h
  exact ⟨m, ms', rfl, rfl, h.symm⟩

theorem build_record {fs : Fields} {b : Bool} {d v : Val} {m : M} (h : build (.record fs) b d v = .ok m) :
    (d = .none ∨ ∃ a, d = .dict a) ∧ (v = .none ∨ ∃ a, v = .dict a) ∧
      ∃ ms, buildFields fs (v.entries ++ d.entries) = .ok ms ∧ m = .record ms := by
  rw [build] at h
  rcases h1 : asDict d with x | a
  · rw [h1] at h; cases h
  rcases h2 : asDict v with x | e
  · rw [h1, h2] at h; cases h
  obtain ⟨ha, rfl⟩ := asDict_inv h1
  obtain ⟨hv, rfl⟩ := asDict_inv h2
  rcases h3 : buildFields fs (v.entries ++ d.entries) with x | ms
  · rw [h1, h2] at h; simp only [Except.bind, h3, Except.map] at h; cases h
  rw [h1, h2] at h
  simp only [Except.bind, h3, Except.map, Except.ok.injEq] at h
  exact ⟨ha, hv, ms, rfl, h.symm⟩

theorem build_array {s : Schema} {b : Bool} {d v : Val} {m : M} (h : build (.array s) b d v = .ok m) :
    (v.orElse d = .none ∨ ∃ l, v.orElse d = .list l) ∧
      ∃ ms, (v.orElse d).elems.mapM (fun x => build s true .none x) = .ok ms ∧ m = arrayOf ms := by
  rw [build] at h
  rcases h1 : asList (v.orElse d) with x | l
  · rw [h1] at h; cases h
  rw [h1] at h
  obtain ⟨hl, rfl⟩ := asList_inv h1
  rcases h2 : (v.orElse d).elems.mapM (fun x => build s true .none x) with x | ms
  · simp only [Except.bind, h2, Except.map] at h; cases h
  simp only [Except.bind, h2, Except.map, Except.ok.injEq] at h
  exact ⟨hl, ms, rfl, h.symm⟩

theorem toDict_arrayOf_inv {s : Schema} {ms : List M} {v : Val} (h : toDict (.array s) (arrayOf ms) = .ok v) :
    ∃ vs, ms.mapM (fun m => toDict s m) = .ok vs ∧ v = .list vs := by
  rw [toDict_arrayOf] at h
  rcases h1 : ms.mapM (fun m => toDict s m) with x | vs
  · rw [h1] at h; cases h
  rw [h1] at h
  simp only [Except.map, Except.ok.injEq] at h
  exact ⟨vs, rfl, h.symm⟩

theorem build_plain {x : Val} {m : M} (h : build .scalar true .none x = .ok m) : toDict .scalar m = .error .attributeError := by
  simp only [build, if_true, Except.ok.injEq] at h
  subst h
  rfl

mutual
theorem fits_of_build : (s : Schema) → Distinct s → ∀ (b : Bool) (d v : Val) (m : M), build s b d v = .ok m →
    toDict s m = .ok (expect s d v) → Fits s d v
  | .scalar, _, b, d, v, m, h1, h2 => by
    cases b
    · simp only [build, Bool.false_eq_true, if_false, Except.ok.injEq] at h1
      subst h1
      simp only [toDict, expect, Except.ok.injEq] at h2
      rw [Fits]
      exact orElse_comm h2
    · simp only [build, if_true, Except.ok.injEq] at h1
      subst h1
      simp [toDict] at h2
  | .double, _, b, d, v, m, h1, h2 => by simp [build] at h1
  | .record fs, hs, b, d, v, m, h1, h2 => by
    rw [Distinct] at hs
    obtain ⟨hd, hv, ms, h3, rfl⟩ := build_record h1
    rw [Fits]
    refine ⟨hd, hv, fits_of_buildFields fs hs.1 hs.2 _ ms h3 ?_⟩
    rw [toDict, expect] at h2
    rcases h4 : toDictFields fs ms with x | e
    · rw [h4] at h2; cases h2
    rw [h4] at h2
    simpa [Except.map] using h2
  | .array s, hs, b, d, v, m, h1, h2 => by
    rw [Distinct] at hs
    obtain ⟨hl, ms, h3, rfl⟩ := build_array h1
    obtain ⟨vs, h4, h5⟩ := toDict_arrayOf_inv h2
    rw [Fits]
    rcases hl with hl | hl
    · exact .inl hl
    refine .inr ⟨hl, fun x hx => ?_⟩
    rw [expect, Val.list.injEq] at h5
    subst h5
    obtain ⟨i, hi⟩ := List.getElem?_of_mem hx
    obtain ⟨m, hm, hb⟩ := mapM_get h3 hi
    obtain ⟨w, hw, ht⟩ := mapM_get h4 hm
    rw [List.getElem?_map, hi] at hw
    simp only [Option.map_some, Option.some.injEq] at hw
    subst hw
    refine ⟨?_, fits_of_build s hs true .none x m hb ht⟩
    rintro rfl
    rw [build_plain hb] at ht
    cases ht
theorem fits_of_buildFields : (fs : Fields) → fs.names.Nodup → DistinctFields fs → ∀ (e : List (String × Val)) (ms : List M),
    buildFields fs e = .ok ms → toDictFields fs ms = .ok (expectFields fs e) → FitsFields fs e
  | .nil, _, _, e, ms, _, _ => by rw [FitsFields]; trivial
  | .cons n d s rest, hnd, hs, e, ms, h1, h2 => by
    rw [Fields.names, List.nodup_cons] at hnd
    rw [DistinctFields] at hs
    obtain ⟨m, ms, h3, h4, rfl⟩ := buildFields_cons h1
    obtain ⟨v, r, h5, h6, h7⟩ := toDictFields_cons h2
    rw [expectFields] at h7
    obtain ⟨h8, h9⟩ := entry_inj (lookup_expectFields n rest e hnd.1) (lookup_toDictFields n rest ms r hnd.1 h6) h7
    subst h8 h9
    rw [FitsFields]
    exact ⟨fits_of_build s hs.1 false d _ m h3 h5, fits_of_buildFields rest hnd.2 hs.2 e ms h4 h6⟩
end

/-- C50, exactly: `build_model` gives a model with the given value (and defaults for what is missing) if and only if the value has
the kind of the schema, no supplied value of a scalar field differs from the default of the field, no array has plain values and
there is no `double`. (Partial: other values are lost or raise.) -/
theorem C50_iff_partial (s : Schema) (hs : Distinct s) (d v : Val) :
    (∃ m, build s false d v = .ok m ∧ toDict s m = .ok (expect s d v)) ↔ Fits s d v :=
  ⟨fun ⟨m, h1, h2⟩ => fits_of_build s hs false d v m h1 h2, C50_build_partial s d v⟩

example : ¬ Fits sDefault .none (.dict [("x", .atom 5)]) ∧ Fits sDefault .none (.dict [("x", .atom 3), ("y", .atom 5)]) ∧
    Fits (.array .scalar) .none (.list []) ∧ ¬ Fits (.array .scalar) .none (.list [.atom 1]) := by
  simp [Fits, FitsFields, sDefault, Val.entries, Val.elems, getVal, List.lookup, Val.orElse, Val.isNone]

/-! ### C51 -/

mutual
/-- No array of the model has plain values. -/
def Plainless : Schema → M → Prop
  | .scalar, _ => True
  | .double, _ => True
  | .record fs, m => ∀ ms, m = .record ms → PlainlessFields fs ms
  | .array s, m => ∀ items tr nx, m = .array items tr nx → ∀ p ∈ items, s ≠ .scalar ∧ Plainless s p.2
def PlainlessFields : Fields → List M → Prop
  | .nil, _ => True
  | .cons _ _ s rest, ms => ∀ m ms', ms = m :: ms' → Plainless s m ∧ PlainlessFields rest ms'
end

mutual
/-- A value that survives copying, with the default `d` for the value itself: a scalar field with a default has just this value, and
what the default of a record has for one of its scalar fields is not missing (`None`). -/
def Stable : Schema → Val → Val → Prop
  | .scalar, d, v => d = .none ∨ v = d
  | .double, _, _ => True
  | .record fs, d, v => (d = .none ∨ ∃ a, d = .dict a) ∧ StableFields fs d.entries v.entries
  | .array s, _, v => ∀ x ∈ v.elems, Stable s .none x
def StableFields : Fields → List (String × Val) → List (String × Val) → Prop
  | .nil, _, _ => True
  | .cons n d s rest, a, e => (Stable s d (getVal e n) ∧ (getVal e n = .none → getVal a n = .none)) ∧ StableFields rest a e
end

mutual
theorem toDict_iff : (s : Schema) → ∀ (b : Bool) (m : M), WT s b m → ((∃ v, toDict s m = .ok v) ↔ (b = false ∨ s ≠ .scalar) ∧ Plainless s m)
  | .scalar, b, m, hw => by
    rw [WT] at hw
    cases b
    · obtain ⟨v, rfl⟩ := hw
      simp [toDict, Plainless]
    · obtain ⟨v, rfl⟩ := hw
      simp [toDict]
  | .double, b, m, hw => by simp [WT] at hw
  | .record fs, b, m, hw => by
    rw [WT] at hw
    obtain ⟨ms, rfl, hw⟩ := hw
    have ih := toDict_iffFields fs ms hw
    simp only [Plainless, ne_eq, reduceCtorEq, not_false_eq_true, or_true, true_and, M.record.injEq, forall_eq']
    rw [← ih]
    constructor
    · rintro ⟨v, hv⟩
      rw [toDict] at hv
      rcases h : toDictFields fs ms with x | e
      · rw [h] at hv; cases hv
      · exact ⟨e, rfl⟩
    · rintro ⟨e, he⟩
      exact ⟨.dict e, by rw [toDict, he]; rfl⟩
  | .array s, b, m, hw => by
    rw [WT] at hw
    obtain ⟨items, tr, nx, rfl, hw⟩ := hw
    have ih : ∀ p ∈ items, _ := fun p hp => toDict_iff s true p.2 (hw p hp)
    simp only [Bool.true_eq_false, false_or] at ih
    simp only [ne_eq, reduceCtorEq, not_false_eq_true, or_true, true_and]
    rw [Plainless]
    constructor
    · rintro ⟨v, hv⟩ items' tr' nx' h p hp
      cases h
      rw [← ih p hp]
      rw [toDict_array] at hv
      rcases h1 : (items.map Prod.snd).mapM (fun m => toDict s m) with x | vs
      · rw [h1] at hv; cases hv
      obtain ⟨i, hi⟩ := List.getElem?_of_mem (List.mem_map_of_mem (f := Prod.snd) hp)
      obtain ⟨y, _, hy⟩ := mapM_get h1 hi
      exact ⟨y, hy⟩
    · intro h
      obtain ⟨vs, h1, -⟩ := mapM_ex (f := fun m => toDict s m) (items.map Prod.snd) (fun _ _ => True) (fun m hm => by
        obtain ⟨p, hp, rfl⟩ := List.mem_map.1 hm
        obtain ⟨v, hv⟩ := (ih p hp).2 (h _ _ _ rfl p hp)
        exact ⟨v, hv, trivial⟩)
      exact ⟨.list vs, by rw [toDict_array, h1]; rfl⟩
theorem toDict_iffFields : (fs : Fields) → ∀ (ms : List M), WTFields fs ms → ((∃ e, toDictFields fs ms = .ok e) ↔ PlainlessFields fs ms)
  | .nil, ms, hw => by
    rw [WTFields] at hw
    subst hw
    simp [toDictFields, PlainlessFields]
  | .cons n d s rest, ms, hw => by
    rw [WTFields] at hw
    obtain ⟨m, ms, rfl, hw1, hw2⟩ := hw
    have h1 := toDict_iff s false m hw1
    have h2 := toDict_iffFields rest ms hw2
    simp only [true_or, true_and] at h1
    simp only [PlainlessFields, List.cons.injEq, and_imp]
    constructor
    · rintro ⟨e, he⟩ m' ms' rfl rfl
      obtain ⟨v, r, hv, hr, -⟩ := toDictFields_cons he
      exact ⟨h1.1 ⟨v, hv⟩, h2.1 ⟨r, hr⟩⟩
    · intro h
      obtain ⟨h3, h4⟩ := h m ms rfl rfl
      obtain ⟨v, hv⟩ := h1.2 h3
      obtain ⟨r, hr⟩ := h2.2 h4
      exact ⟨_, by simp only [toDictFields, hv, hr, Except.bind, Except.map]; rfl⟩
end

theorem isNone_iff {v : Val} : v.isNone = true ↔ v = .none := by cases v <;> simp [Val.isNone]

theorem entry_lookup {n : String} {v : Val} {r : List (String × Val)} (h : r.lookup n = none) :
    (entry n v r).lookup n = if v.isNone then none else some v := by
  unfold entry
  split
  · exact h
  · simp [List.lookup]

theorem entry_lookup_ne {n k : String} (v : Val) (r : List (String × Val)) (h : k ≠ n) : (entry n v r).lookup k = r.lookup k := by
  unfold entry
  split
  · rfl
  · rw [List.lookup_cons, show (k == n) = false by simpa using h]

theorem lookup_append' (a b : List (String × Val)) (n : String) : (a ++ b).lookup n = (a.lookup n).or (b.lookup n) := by
  induction a with
  | nil => simp
  | cons p a ih =>
    obtain ⟨k, w⟩ := p
    rw [List.cons_append, List.lookup_cons, List.lookup_cons]
    split
    · simp
    · exact ih

/-- the value of a record or array is not `None` -/
theorem scalar_of_none {s : Schema} {b : Bool} {m : M} (hw : WT s b m) (h : toDict s m = .ok .none) : s = .scalar := by
  cases s with
  | scalar => rfl
  | double => simp [WT] at hw
  | record fs =>
    rw [WT] at hw
    obtain ⟨ms, rfl, -⟩ := hw
    rw [toDict] at h
    rcases h1 : toDictFields fs ms with x | e
    · rw [h1] at h; cases h
    · rw [h1] at h; cases h
  | array s =>
    rw [WT] at hw
    obtain ⟨items, tr, nx, rfl, -⟩ := hw
    rw [toDict_array] at h
    rcases h1 : (items.map Prod.snd).mapM (fun m => toDict s m) with x | e
    · rw [h1] at h; cases h
    · rw [h1] at h; cases h

mutual
theorem stable_iff : (s : Schema) → Distinct s → ∀ (b : Bool) (m : M) (d v : Val), WT s b m → toDict s m = .ok v →
    ((∃ m', build s b d v = .ok m' ∧ toDict s m' = .ok v) ↔ Stable s d v)
  | .scalar, _, b, m, d, v, hw, hv => by
    rw [WT] at hw
    cases b
    · simp only [build, Bool.false_eq_true, if_false, Except.ok.injEq, exists_eq_left', toDict, Stable]
      cases d <;> simp [Val.orElse, Val.isNone, eq_comm]
    · obtain ⟨w, rfl⟩ := hw
      simp [toDict] at hv
  | .double, _, b, m, d, v, hw, hv => by simp [WT] at hw
  | .record fs, hs, b, m, d, v, hw, hv => by
    rw [WT] at hw
    rw [Distinct] at hs
    obtain ⟨ms, rfl, hw⟩ := hw
    rw [toDict] at hv
    rcases h : toDictFields fs ms with x | e
    · rw [h] at hv; cases hv
    rw [h] at hv
    simp only [Except.map, Except.ok.injEq] at hv
    subst hv
    have ih := stable_iffFields fs hs.1 hs.2 ms e hw h d.entries e (fun _ _ => rfl)
    rw [Stable, Val.entries, ← ih]
    constructor
    · rintro ⟨m', h1, h2⟩
      obtain ⟨hd, -, ms', h3, rfl⟩ := build_record h1
      refine ⟨hd, ms', h3, ?_⟩
      rw [toDict] at h2
      rcases h4 : toDictFields fs ms' with x | e'
      · rw [h4] at h2; cases h2
      · rw [h4] at h2
        simpa [Except.map] using h2
    · rintro ⟨hd, ms', h1, h2⟩
      refine ⟨.record ms', ?_, by rw [toDict, h2]; rfl⟩
      simp only [build, asDict_ok hd, asDict_ok (d := .dict e) (.inr ⟨e, rfl⟩), Val.entries, Except.bind]
      simp only [Val.entries] at h1
      rw [h1]
      rfl
  | .array s, hs, b, m, d, v, hw, hv => by
    rw [WT] at hw
    rw [Distinct] at hs
    obtain ⟨items, tr, nx, rfl, hw⟩ := hw
    rw [toDict_array] at hv
    rcases h : (items.map Prod.snd).mapM (fun m => toDict s m) with x | vs
    · rw [h] at hv; cases hv
    rw [h] at hv
    simp only [Except.map, Except.ok.injEq] at hv
    subst hv
    have hlen := mapM_length h
    have hor : (Val.list vs).orElse d = .list vs := rfl
    have ih : ∀ x ∈ vs, ((∃ m', build s true .none x = .ok m' ∧ toDict s m' = .ok x) ↔ Stable s .none x) := by
      intro x hx
      obtain ⟨i, hi⟩ := List.getElem?_of_mem hx
      have hlt : i < (items.map Prod.snd).length := by
        have := (List.getElem?_eq_some_iff.1 hi).1
        omega
      have hm := List.getElem?_eq_getElem hlt
      obtain ⟨y, hy, ht⟩ := mapM_get h hm
      rw [hi] at hy
      cases hy
      obtain ⟨p, hp, hpe⟩ := List.mem_map.1 (List.mem_of_getElem? hm)
      rw [← hpe] at ht
      exact stable_iff s hs true p.2 .none x (hw p hp) ht
    rw [Stable, Val.elems]
    constructor
    · rintro ⟨m', h1, h2⟩ x hx
      obtain ⟨-, ms, h3, rfl⟩ := build_array h1
      obtain ⟨ws, h4, h5⟩ := toDict_arrayOf_inv h2
      cases h5
      rw [hor, Val.elems] at h3
      rw [← ih x hx]
      obtain ⟨i, hi⟩ := List.getElem?_of_mem hx
      obtain ⟨m, hm, hb⟩ := mapM_get h3 hi
      obtain ⟨w, hw, ht⟩ := mapM_get h4 hm
      rw [hi] at hw
      cases hw
      exact ⟨m, hb, ht⟩
    · intro hst
      obtain ⟨ms', h1, h2⟩ := mapM_ex (f := fun x => build s true .none x) vs (fun v m' => toDict s m' = .ok v)
        (fun x hx => (ih x hx).2 (hst x hx))
      refine ⟨arrayOf ms', ?_, ?_⟩
      · simp only [build, hor, asList, Except.bind, h1, Except.map]
      · rw [toDict_arrayOf, mapM_of_forall₂ (h2.flip)]; rfl
theorem stable_iffFields : (fs : Fields) → fs.names.Nodup → DistinctFields fs → ∀ (ms : List M) (e : List (String × Val)),
    WTFields fs ms → toDictFields fs ms = .ok e → ∀ (a e' : List (String × Val)), (∀ n ∈ fs.names, e'.lookup n = e.lookup n) →
    ((∃ ms', buildFields fs (e' ++ a) = .ok ms' ∧ toDictFields fs ms' = .ok e) ↔ StableFields fs a e')
  | .nil, _, _, ms, e, hw, he, a, e', he' => by
    rw [WTFields] at hw
    subst hw
    simp only [toDictFields, Except.ok.injEq] at he
    subst he
    simp [buildFields, toDictFields, StableFields]
  | .cons n d s rest, hnd, hs, ms, e, hw, he, a, e', he' => by
    rw [WTFields] at hw
    rw [DistinctFields] at hs
    rw [Fields.names, List.nodup_cons] at hnd
    obtain ⟨m, ms, rfl, hw1, hw2⟩ := hw
    obtain ⟨v, r, h1, h2, rfl⟩ := toDictFields_cons he
    have hnone : r.lookup n = none := lookup_toDictFields n rest ms r hnd.1 h2
    have hr : ∀ k ∈ rest.names, e'.lookup k = r.lookup k := fun k hk => by
      rw [he' k (by simp [Fields.names, hk]), entry_lookup_ne v r (by rintro rfl; exact hnd.1 hk)]
    have hn : e'.lookup n = if v.isNone then none else some v := by
      rw [he' n (by simp [Fields.names]), entry_lookup hnone]
    have hget : getVal e' n = v := by
      rw [getVal, hn]
      split
      · rename_i h; rw [isNone_iff.1 h]; rfl
      · rfl
    have ih := stable_iffFields rest hnd.2 hs.2 ms r hw2 h2 a e' hr
    have hfield : (∃ m', build s false d (getVal (e' ++ a) n) = .ok m' ∧ toDict s m' = .ok v) ↔
        (Stable s d v ∧ (v = .none → getVal a n = .none)) := by
      by_cases hv : v = .none
      · subst hv
        obtain rfl := scalar_of_none hw1 h1
        have : getVal (e' ++ a) n = getVal a n := by
          rw [getVal, lookup_append', hn, if_pos (isNone_iff.2 rfl), getVal]
          simp
        rw [this]
        simp only [build, Bool.false_eq_true, if_false, Except.ok.injEq, exists_eq_left', toDict, Stable, forall_const]
        cases d <;> simp [Val.orElse, Val.isNone]
      · have : getVal (e' ++ a) n = v := by
          rw [getVal, lookup_append', hn, if_neg (by rwa [isNone_iff])]
          rfl
        rw [this, stable_iff s hs.1 false m d v hw1 h1]
        exact ⟨fun h => ⟨h, fun h => absurd h hv⟩, fun h => h.1⟩
    rw [StableFields, hget, ← hfield, ← ih]
    constructor
    · rintro ⟨ms', h3, h4⟩
      obtain ⟨m', ms', h5, h6, rfl⟩ := buildFields_cons h3
      obtain ⟨w, r', h7, h8, h9⟩ := toDictFields_cons h4
      obtain ⟨rfl, rfl⟩ := entry_inj hnone (lookup_toDictFields n rest ms' r' hnd.1 h8) h9
      exact ⟨⟨m', h5, h7⟩, ms', h6, h8⟩
    · rintro ⟨⟨m', h5, h7⟩, ms', h6, h8⟩
      exact ⟨m' :: ms', by simp only [buildFields, h5, h6, Except.bind, Except.map],
        by simp only [toDictFields, h7, h8, Except.bind, Except.map, entry]⟩
end

/-- C51, exactly: the deep copy of a model exists and has the same `to_dict_value` if and only if no array of the model has plain
values, each scalar field with a default has this value, and no scalar field for which the default of its record has a value is
`None`. (Partial: other models are not copied.) -/
theorem C51_iff_partial (s : Schema) (hs : Distinct s) (m : M) (hw : WT s false m) :
    (∃ v m', toDict s m = .ok v ∧ deepCopy s m = .ok m' ∧ toDict s m' = .ok v) ↔
      Plainless s m ∧ ∀ v, toDict s m = .ok v → Stable s .none v := by
  have h := toDict_iff s false m hw
  simp only [true_or, true_and] at h
  constructor
  · rintro ⟨v, m', h1, h2, h3⟩
    refine ⟨h.1 ⟨v, h1⟩, fun w hw' => ?_⟩
    rw [h1] at hw'
    cases hw'
    rw [deepCopy, h1] at h2
    exact (stable_iff s hs false m .none v hw h1).1 ⟨m', h2, h3⟩
  · rintro ⟨h1, h2⟩
    obtain ⟨v, hv⟩ := h.2 h1
    obtain ⟨m', h3, h4⟩ := (stable_iff s hs false m .none v hw hv).2 (h2 v hv)
    exact ⟨v, m', hv, by rw [deepCopy, hv]; exact h3, h4⟩

/-- a model of `sDefault` with the default, one without -/
example : Distinct sDefault ∧ WT sDefault false (.record [.field (.atom 3), .field (.atom 9)]) ∧
    Stable sDefault .none (.dict [("x", .atom 3), ("y", .atom 9)]) ∧ ¬ Stable sDefault .none (.dict [("x", .atom 5)]) := by
  refine ⟨by simp [Distinct, DistinctFields, sDefault, Fields.names], by simp [WT, WTFields, sDefault], ?_, ?_⟩ <;>
    simp [Stable, StableFields, sDefault, Val.entries, getVal, List.lookup]

end Verif.Structured
