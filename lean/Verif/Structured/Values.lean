import Verif.Structured.Model
import Mathlib.Data.List.Forall2
import Mathlib.Tactic.Common

/-!
Values kept by structured models: C50 (building), C51 (deep copy), C53 (`copy_from`), C54 (all field types).
-/

namespace Verif.Structured

open Verif.Py

/-! ### Specification -/

/-- Entries of a dict for the values of the fields; `None` is left out. -/
def entry (n : String) (v : Val) (r : List (String × Val)) : List (String × Val) := if v.isNone then r else (n, v) :: r

def Val.entries : Val → List (String × Val)
  | .dict d => d
  | _ => []

def Val.elems : Val → List Val
  | .list l => l
  | _ => []

mutual
/-- The value a model of the schema has to have for the default `d` and the given value `v`: `v` wins over `d`. -/
def expect : Schema → Val → Val → Val
  | .scalar, d, v | .double, d, v => v.orElse d
  | .record fs, d, v => .dict (expectFields fs (v.entries ++ d.entries))
  | .array s, d, v => .list ((v.orElse d).elems.map fun x => expect s .none x)
def expectFields : Fields → List (String × Val) → List (String × Val)
  | .nil, _ => []
  | .cons n d s rest, e => entry n (expect s d (getVal e n)) (expectFields rest e)
end

mutual
/-- The default of a scalar is not in conflict with the given value; values have the kind of the schema; items of arrays are
records or arrays (an array of plain values is empty); no `double`. -/
def Fits : Schema → Val → Val → Prop
  | .scalar, d, v => d = .none ∨ v = .none ∨ d = v
  | .double, _, _ => False
  | .record fs, d, v => (d = .none ∨ ∃ a, d = .dict a) ∧ (v = .none ∨ ∃ b, v = .dict b) ∧ FitsFields fs (v.entries ++ d.entries)
  | .array s, d, v =>
    v.orElse d = .none ∨ (∃ l, v.orElse d = .list l) ∧ ∀ x ∈ (v.orElse d).elems, s ≠ .scalar ∧ Fits s .none x
def FitsFields : Fields → List (String × Val) → Prop
  | .nil, _ => True
  | .cons n d s rest, e => Fits s d (getVal e n) ∧ FitsFields rest e
end

/-! ### C50, C54 -/

theorem asDict_ok {d : Val} (h : d = .none ∨ ∃ a, d = .dict a) : asDict d = .ok d.entries := by
  rcases h with rfl | ⟨a, rfl⟩ <;> rfl

theorem mapM_ok {α β : Type} {f : α → Except Exc β} {g : α → β} (l : List α) (h : ∀ x ∈ l, f x = .ok (g x)) :
    l.mapM f = .ok (l.map g) := by
  induction l with
  | nil => rfl
  | cons a l ih =>
    rw [List.mapM_cons, h a (by simp), ih fun x hx => h x (by simp [hx])]
    rfl

/-- `mapM` succeeds if it does so for each element; the results are related to the arguments. -/
theorem mapM_ex {α β : Type} {f : α → Except Exc β} (l : List α) (R : α → β → Prop) (h : ∀ x ∈ l, ∃ y, f x = .ok y ∧ R x y) :
    ∃ ys, l.mapM f = .ok ys ∧ List.Forall₂ R l ys := by
  induction l with
  | nil => exact ⟨[], rfl, .nil⟩
  | cons a l ih =>
    obtain ⟨y, hy, hr⟩ := h a (by simp)
    obtain ⟨ys, hys, hrs⟩ := ih fun x hx => h x (by simp [hx])
    refine ⟨y :: ys, ?_, .cons hr hrs⟩
    rw [List.mapM_cons, hy, hys]; rfl

theorem mapM_of_forall₂ {α β : Type} {f : α → Except Exc β} {l : List α} {ys : List β}
    (h : List.Forall₂ (fun x y => f x = .ok y) l ys) : l.mapM f = .ok ys := by
  induction h with
  | nil => rfl
  | cons h _ ih => rw [List.mapM_cons, h, ih]; rfl

theorem forall₂_of_mapM {α β : Type} {f : α → Except Exc β} {l : List α} {ys : List β}
    (h : l.mapM f = .ok ys) : List.Forall₂ (fun x y => f x = .ok y) l ys := by
  induction l generalizing ys with
  | nil => cases h; exact .nil
  | cons a l ih =>
    rw [List.mapM_cons] at h
    rcases hx : f a with e | y
    · rw [hx] at h; cases h
    rcases hxs : l.mapM f with e | zs
    · rw [hx, hxs] at h; cases h
    rw [hx, hxs] at h
    cases h
    exact .cons hx (ih hxs)

theorem forall₂_right {α β : Type} {P : β → Prop} {l : List α} {ys : List β} (h : List.Forall₂ (fun _ y => P y) l ys) :
    ∀ y ∈ ys, P y := by
  induction h with
  | nil => simp
  | cons h _ ih =>
    intro v hv
    rcases List.mem_cons.1 hv with rfl | hv
    exacts [h, ih v hv]

theorem map_snd_zip_range (ms : List M) : ((List.range ms.length).zip ms).map Prod.snd = ms :=
  List.map_snd_zip (by simp)

theorem toDict_array (s : Schema) (items : List (Nat × M)) (tr : List Nat) (nx : Nat) :
    toDict (.array s) (.array items tr nx) = ((items.map Prod.snd).mapM fun m => toDict s m).map .list := by
  rw [toDict, List.mapM_map]
  rfl

theorem toDict_arrayOf (s : Schema) (ms : List M) : toDict (.array s) (arrayOf ms) = (ms.mapM fun m => toDict s m).map .list := by
  rw [arrayOf, toDict_array, map_snd_zip_range]

theorem fit_scalar {d v : Val} (h : d = .none ∨ v = .none ∨ d = v) : d.orElse v = v.orElse d := by
  rcases h with rfl | rfl | rfl
  · cases v <;> rfl
  · cases d <;> rfl
  · rfl

mutual
theorem build_expect : (s : Schema) → (d v : Val) → Fits s d v → ∀ b : Bool, b = false ∨ s ≠ .scalar →
    ∃ m, build s b d v = .ok m ∧ toDict s m = .ok (expect s d v)
  | .scalar, d, v, h, b, hb => by
    have : b = false := by rcases hb with h | h; exacts [h, absurd rfl h]
    subst this
    refine ⟨.field (d.orElse v), rfl, ?_⟩
    rw [Fits] at h
    simp only [toDict, expect, fit_scalar h]
  | .double, d, v, h, b, hb => by simp [Fits] at h
  | .record fs, d, v, h, b, hb => by
    rw [Fits] at h
    obtain ⟨hd, hv, hf⟩ := h
    obtain ⟨ms, h1, h2⟩ := build_expectFields fs _ hf
    refine ⟨.record ms, ?_, ?_⟩
    · simp only [build, asDict_ok hd, asDict_ok hv, Except.bind, h1, Except.map]
    · simp only [toDict, h2, Except.map, expect]
  | .array s, d, v, h, b, hb => by
    rw [Fits] at h
    rcases h with h | ⟨⟨l, hl⟩, hf⟩
    · refine ⟨arrayOf [], ?_, ?_⟩
      · simp [build, h, asList, Except.bind, Except.map, pure, Except.pure]
      · rw [toDict_arrayOf]
        simp [Except.map, expect, h, Val.elems, pure, Except.pure]
    · rw [hl] at hf
      obtain ⟨ms, h1, h2⟩ := mapM_ex (f := fun x => build s true .none x) l (fun x m => toDict s m = .ok (expect s .none x))
        (fun x hx => build_expect s .none x (hf x hx).2 true (.inr (hf x hx).1))
      refine ⟨arrayOf ms, ?_, ?_⟩
      · simp only [build, hl, asList, Except.bind, h1, Except.map]
      · rw [toDict_arrayOf, mapM_of_forall₂ (ys := l.map fun x => expect s .none x)]
        · simp only [Except.map, expect, hl, Val.elems]
        · rw [List.forall₂_map_right_iff]
          exact h2.flip
theorem build_expectFields : (fs : Fields) → (e : List (String × Val)) → FitsFields fs e →
    ∃ ms, buildFields fs e = .ok ms ∧ toDictFields fs ms = .ok (expectFields fs e)
  | .nil, e, h => ⟨[], rfl, rfl⟩
  | .cons n d s rest, e, h => by
    rw [FitsFields] at h
    obtain ⟨m, h1, h2⟩ := build_expect s d _ h.1 false (.inl rfl)
    obtain ⟨ms, h3, h4⟩ := build_expectFields rest e h.2
    refine ⟨m :: ms, ?_, ?_⟩
    · simp only [buildFields, h1, h3, Except.bind, Except.map]
    · simp only [toDictFields, h2, h4, Except.bind, Except.map, expectFields, entry]
end

/-- C50: for values of the kind of the schema which nowhere meet a different default of a scalar field, `build_model` gives a
model whose `to_dict_value` is the given value restricted to the fields of the schema, with defaults for missing fields.
Missing: a field default overrides the supplied value (`C50_counterexample`), and arrays of plain values have no
`to_dict_value` (`C51_counterexample_plain`). -/
theorem C50_build_partial (s : Schema) (d v : Val) (h : Fits s d v) :
    ∃ m, build s false d v = .ok m ∧ toDict s m = .ok (expect s d v) :=
  build_expect s d v h false (.inl rfl)

/-- a record with an int field of default 3 -/
def sDefault : Schema := .record (.cons "x" (.atom 3) .scalar (.cons "y" .none .scalar .nil))

/-- C50, negative: the default overrides the value: building with `x = 5` gives `x = 3`. -/
theorem C50_counterexample :
    ∃ m, build sDefault false .none (.dict [("x", .atom 5)]) = .ok m ∧
      toDict sDefault m = .ok (.dict [("x", .atom 3)]) ∧
      expect sDefault .none (.dict [("x", .atom 5)]) = .dict [("x", .atom 5)] :=
  ⟨_, rfl, rfl, rfl⟩

/-- A nested schema: a record with a scalar, a record with a default for the inner scalar, and an array of records. -/
def sNested : Schema :=
  .record (.cons "a" .none .scalar
    (.cons "r" (.dict [("y", .atom 7)]) (.record (.cons "y" .none .scalar (.cons "z" .none .scalar .nil)))
      (.cons "l" .none (.array (.record (.cons "q" .none .scalar .nil))) .nil)))

example : Fits sNested .none (.dict [("a", .atom 1), ("r", .dict [("z", .atom 2)]), ("l", .list [.dict [("q", .atom 4)], .dict []])]) := by
  simp [Fits, FitsFields, sNested, Val.entries, Val.elems, getVal, List.lookup, Val.orElse, Val.isNone]

example : expect sNested .none (.dict [("a", .atom 1), ("r", .dict [("z", .atom 2)]), ("l", .list [.dict [("q", .atom 4)], .dict []])]) =
    .dict [("a", .atom 1), ("r", .dict [("y", .atom 7), ("z", .atom 2)]), ("l", .list [.dict [("q", .atom 4)], .dict []])] := rfl

mutual
/-- No `double` anywhere. -/
def NoDouble : Schema → Prop
  | .scalar => True
  | .double => False
  | .record fs => NoDoubleFields fs
  | .array s => NoDouble s
def NoDoubleFields : Fields → Prop
  | .nil => True
  | .cons _ _ s rest => NoDouble s ∧ NoDoubleFields rest
end

mutual
/-- The value is `None` or has the kind of the schema. -/
def Kind : Schema → Val → Prop
  | .scalar, _ => True
  | .double, _ => True
  | .record fs, v => v = .none ∨ ∃ b, v = .dict b ∧ KindFields fs b
  | .array s, v => v = .none ∨ ∃ l, v = .list l ∧ ∀ x ∈ l, Kind s x
/-- All values given for a field have its kind. -/
def KindFields : Fields → List (String × Val) → Prop
  | .nil, _ => True
  | .cons n _ s rest, b => (∀ v, (n, v) ∈ b → Kind s v) ∧ KindFields rest b
end

mutual
/-- Defaults in the schema have the kind of their field. -/
def DefaultsOk : Schema → Prop
  | .scalar => True
  | .double => True
  | .record fs => DefaultsOkFields fs
  | .array s => DefaultsOk s
def DefaultsOkFields : Fields → Prop
  | .nil => True
  | .cons _ d s rest => Kind s d ∧ DefaultsOk s ∧ DefaultsOkFields rest
end

theorem KindFields.append {fs : Fields} {a b : List (String × Val)} (ha : KindFields fs a) (hb : KindFields fs b) :
    KindFields fs (a ++ b) := by
  induction fs using Fields.rec (motive_1 := fun _ => True) with
  | nil => trivial
  | cons n d s rest _ ih =>
    rw [KindFields] at *
    refine ⟨fun v hv => ?_, ih ha.2 hb.2⟩
    rcases List.mem_append.1 hv with h | h
    exacts [ha.1 v h, hb.1 v h]
  | _ => trivial

theorem KindFields.nil (fs : Fields) : KindFields fs [] := by
  induction fs using Fields.rec (motive_1 := fun _ => True) with
  | nil => trivial
  | cons n d s rest _ ih => rw [KindFields]; exact ⟨fun v hv => by simp at hv, ih⟩
  | _ => trivial

theorem kind_none (s : Schema) : Kind s .none := by
  cases s <;> simp [Kind]

theorem mem_of_lookup {b : List (String × Val)} {n : String} {v : Val} (h : b.lookup n = some v) : (n, v) ∈ b := by
  induction b with
  | nil => simp at h
  | cons p b ih =>
    obtain ⟨k, w⟩ := p
    by_cases hk : n = k
    · subst hk
      simp [List.lookup] at h
      simp [h]
    · rw [List.lookup_cons, show (n == k) = false by simpa using hk] at h
      exact List.mem_cons_of_mem _ (ih h)

theorem kind_getVal {s : Schema} {n : String} {b : List (String × Val)} (h : ∀ v, (n, v) ∈ b → Kind s v) :
    Kind s (getVal b n) := by
  unfold getVal
  cases hl : b.lookup n with
  | none => exact kind_none s
  | some v => exact h v (mem_of_lookup hl)

theorem kind_entries {fs : Fields} {v : Val} (h : Kind (.record fs) v) : KindFields fs v.entries := by
  rw [Kind] at h
  rcases h with rfl | ⟨b, rfl, h⟩
  exacts [KindFields.nil fs, h]

theorem kind_orElse {s : Schema} {d v : Val} (hd : Kind s d) (hv : Kind s v) : Kind s (v.orElse d) := by
  unfold Val.orElse
  split <;> assumption

mutual
theorem build_ok : (s : Schema) → NoDouble s → DefaultsOk s → ∀ (b : Bool) (d v : Val), Kind s d → Kind s v →
    ∃ m, build s b d v = .ok m
  | .scalar, _, _, b, d, v, _, _ => ⟨_, rfl⟩
  | .double, h, _, b, d, v, _, _ => by simp [NoDouble] at h
  | .record fs, h, hk, b, d, v, hd, hv => by
    rw [NoDouble] at h
    rw [DefaultsOk] at hk
    obtain ⟨ms, hms⟩ := buildFields_ok fs h hk _ ((kind_entries hv).append (kind_entries hd))
    rw [Kind] at hd hv
    have h1 : asDict d = .ok d.entries := asDict_ok (hd.imp_right fun ⟨a, ha, _⟩ => ⟨a, ha⟩)
    have h2 : asDict v = .ok v.entries := asDict_ok (hv.imp_right fun ⟨a, ha, _⟩ => ⟨a, ha⟩)
    exact ⟨.record ms, by simp only [build, h1, h2, Except.bind, hms, Except.map]⟩
  | .array s, h, hk, b, d, v, hd, hv => by
    rw [NoDouble] at h
    rw [DefaultsOk] at hk
    have hx := kind_orElse hd hv
    rw [Kind] at hx
    rcases hx with hx | ⟨l, hx, hl⟩
    · exact ⟨arrayOf [], by simp [build, hx, asList, Except.bind, Except.map, pure, Except.pure]⟩
    · obtain ⟨ms, hms, _⟩ := mapM_ex (f := fun x => build s true .none x) l (fun _ _ => True)
        (fun x hx => (build_ok s h hk true .none x (kind_none s) (hl x hx)).imp fun m hm => ⟨hm, trivial⟩)
      exact ⟨arrayOf ms, by simp only [build, hx, asList, Except.bind, hms, Except.map]⟩
theorem buildFields_ok : (fs : Fields) → NoDoubleFields fs → DefaultsOkFields fs → ∀ e, KindFields fs e →
    ∃ ms, buildFields fs e = .ok ms
  | .nil, _, _, _, _ => ⟨_, rfl⟩
  | .cons n d s rest, h, hk, e, he => by
    rw [NoDoubleFields] at h
    rw [DefaultsOkFields] at hk
    rw [KindFields] at he
    obtain ⟨m, hm⟩ := build_ok s h.1 hk.2.1 false d _ hk.1 (kind_getVal he.1)
    obtain ⟨ms, hms⟩ := buildFields_ok rest h.2 hk.2.2 e he.2
    exact ⟨m :: ms, by simp only [buildFields, hm, hms, Except.bind, Except.map]⟩
end

/-- C54: `build_model` succeeds for every schema whose defaults have the kind of their fields and in which `define_float`
(`FLOAT`) does not occur, for every default and value of the kind of the schema. Missing: `C54_counterexample`. -/
theorem C54_build_ok_partial (s : Schema) (h : NoDouble s) (hd : DefaultsOk s) (d v : Val) (h1 : Kind s d) (h2 : Kind s v) :
    ∃ m, build s false d v = .ok m :=
  build_ok s h hd false d v h1 h2

/-- C54, negative: a schema with a float field cannot be built, whatever its values: `build_model` raises. -/
theorem C54_counterexample (d v : Val) :
    build .double false d v = .error .attributeError ∧
      build (.record (.cons "x" .none .double .nil)) false .none .none = .error .attributeError :=
  ⟨rfl, rfl⟩

example : NoDouble sNested ∧ DefaultsOk sNested := by
  simp [NoDouble, NoDoubleFields, DefaultsOk, DefaultsOkFields, sNested, Kind, KindFields]

/-! ### C51 -/

mutual
/-- The model has the shape of the schema (as built, lines 64-87). `b`: it is an item of an array. -/
def WT : Schema → Bool → M → Prop
  | .scalar, b, m => if b then ∃ v, m = .plain v else ∃ v, m = .field v
  | .double, _, _ => False
  | .record fs, _, m => ∃ ms, m = .record ms ∧ WTFields fs ms
  | .array s, _, m => ∃ items tr nx, m = .array items tr nx ∧ ∀ p ∈ items, WT s true p.2
def WTFields : Fields → List M → Prop
  | .nil, ms => ms = []
  | .cons _ _ s rest, ms => ∃ m ms', ms = m :: ms' ∧ WT s false m ∧ WTFields rest ms'
end

mutual
/-- Items of arrays are records or arrays, field names of a record are distinct. -/
def Deep : Schema → Prop
  | .scalar => True
  | .double => True
  | .record fs => fs.names.Nodup ∧ DeepFields fs
  | .array s => s ≠ .scalar ∧ Deep s
def DeepFields : Fields → Prop
  | .nil => True
  | .cons _ _ s rest => Deep s ∧ DeepFields rest
end

mutual
/-- Scalar and record fields have no default. -/
def NoDefaults : Schema → Prop
  | .scalar => True
  | .double => True
  | .record fs => NoDefaultsFields fs
  | .array s => NoDefaults s
def NoDefaultsFields : Fields → Prop
  | .nil => True
  | .cons _ d s rest => (d = .none ∨ ∃ i, s = .array i) ∧ NoDefaults s ∧ NoDefaultsFields rest
end

theorem lookup_toDictFields (n : String) : ∀ (fs : Fields) (ms : List M) (e : List (String × Val)), n ∉ fs.names →
    toDictFields fs ms = .ok e → e.lookup n = none
  | .nil, ms, e, _, h => by cases ms <;> (simp [toDictFields] at h; subst h; rfl)
  | .cons k d s rest, [], e, _, h => by simp [toDictFields] at h; subst h; rfl
  | .cons k d s rest, m :: ms, e, hn, h => by
    simp only [Fields.names, List.mem_cons, not_or] at hn
    rw [toDictFields] at h
    rcases hv : toDict s m with x | v
    · rw [hv] at h; cases h
    rcases hr : toDictFields rest ms with x | r
    · rw [hv, hr] at h; cases h
    rw [hv, hr] at h
    simp only [Except.bind, Except.map, Except.ok.injEq] at h
    have ih := lookup_toDictFields n rest ms r hn.2 hr
    subst h
    split
    · exact ih
    · rw [List.lookup_cons, show (n == k) = false by simpa using hn.1]; exact ih

mutual
/-- `to_dict_value` of a model with the shape of the schema is defined, and a model built from it has the same. -/
theorem copy_ok : (s : Schema) → Deep s → NoDefaults s → ∀ (b : Bool) (m : M), WT s b m → (b = false ∨ s ≠ .scalar) →
    ∃ v, toDict s m = .ok v ∧ ∀ (b' : Bool) (d : Val), (b' = false ∨ s ≠ .scalar) → (d = .none ∨ ∃ i, s = .array i) →
      ∃ m', build s b' d v = .ok m' ∧ toDict s m' = .ok v
  | .scalar, _, _, b, m, hw, hb => by
    have : b = false := by rcases hb with h | h; exacts [h, absurd rfl h]
    subst this
    rw [WT] at hw
    obtain ⟨v, rfl⟩ := hw
    refine ⟨v, rfl, fun b' d hb' hd => ?_⟩
    have : b' = false := by rcases hb' with h | h; exacts [h, absurd rfl h]
    subst this
    have : d = .none := by rcases hd with h | ⟨i, h⟩; exacts [h, by cases h]
    subst this
    exact ⟨_, rfl, rfl⟩
  | .double, _, _, b, m, hw, _ => by simp [WT] at hw
  | .record fs, hs, hn, b, m, hw, _ => by
    rw [WT] at hw
    rw [Deep] at hs
    rw [NoDefaults] at hn
    obtain ⟨ms, rfl, hw⟩ := hw
    obtain ⟨e, he, hbld⟩ := copy_okFields fs hs.1 hs.2 hn ms hw
    refine ⟨.dict e, by simp only [toDict, he, Except.map], fun b' d _ hd => ?_⟩
    have : d = .none := by rcases hd with h | ⟨i, h⟩; exacts [h, by cases h]
    subst this
    obtain ⟨ms', h1, h2⟩ := hbld e (fun n _ => rfl)
    exact ⟨.record ms', by simp only [build, asDict, Except.bind, List.append_nil, h1, Except.map],
      by simp only [toDict, h2, Except.map]⟩
  | .array s, hs, hn, b, m, hw, _ => by
    rw [WT] at hw
    rw [Deep] at hs
    rw [NoDefaults] at hn
    obtain ⟨items, tr, nx, rfl, hw⟩ := hw
    obtain ⟨vs, hvs, hr⟩ := mapM_ex (f := fun m => toDict s m) (items.map Prod.snd)
      (fun _ v => ∃ m', build s true .none v = .ok m' ∧ toDict s m' = .ok v)
      (fun m hm => by
        obtain ⟨p, hp, rfl⟩ := List.mem_map.1 hm
        obtain ⟨v, h1, h2⟩ := copy_ok s hs.2 hn true p.2 (hw p hp) (.inr hs.1)
        exact ⟨v, h1, h2 true .none (.inr hs.1) (.inl rfl)⟩)
    refine ⟨.list vs, by rw [toDict_array, hvs]; rfl, fun b' d _ _ => ?_⟩
    have hr' : ∀ v ∈ vs, ∃ m', build s true .none v = .ok m' ∧ toDict s m' = .ok v := by
      exact forall₂_right hr
    obtain ⟨ms', h1, h2⟩ := mapM_ex (f := fun x => build s true .none x) vs (fun v m' => toDict s m' = .ok v) hr'
    refine ⟨arrayOf ms', ?_, ?_⟩
    · simp only [build, Val.orElse, Val.isNone, asList, Bool.false_eq_true, if_false, Except.bind, h1, Except.map]
    · rw [toDict_arrayOf, mapM_of_forall₂ (h2.flip)]; rfl
theorem copy_okFields : (fs : Fields) → fs.names.Nodup → DeepFields fs → NoDefaultsFields fs → ∀ ms, WTFields fs ms →
    ∃ e, toDictFields fs ms = .ok e ∧ ∀ e' : List (String × Val), (∀ n ∈ fs.names, e'.lookup n = e.lookup n) →
      ∃ ms', buildFields fs e' = .ok ms' ∧ toDictFields fs ms' = .ok e
  | .nil, _, _, _, ms, _ => ⟨[], by simp [toDictFields], fun e' _ => ⟨[], rfl, rfl⟩⟩
  | .cons n d s rest, hnd, hs, hn, ms, hw => by
    rw [WTFields] at hw
    rw [DeepFields] at hs
    rw [NoDefaultsFields] at hn
    rw [Fields.names, List.nodup_cons] at hnd
    obtain ⟨m, ms, rfl, hw1, hw2⟩ := hw
    obtain ⟨v, h1, h2⟩ := copy_ok s hs.1 hn.2.1 false m hw1 (.inl rfl)
    obtain ⟨r, h3, h4⟩ := copy_okFields rest hnd.2 hs.2 hn.2.2 ms hw2
    obtain ⟨m', h5, h6⟩ := h2 false d (.inl rfl) hn.1
    refine ⟨if v.isNone then r else (n, v) :: r, by simp only [toDictFields, h1, h3, Except.bind, Except.map], fun e' he' => ?_⟩
    have hnone : r.lookup n = none := lookup_toDictFields n rest ms r hnd.1 h3
    obtain ⟨ms', h7, h8⟩ := h4 e' fun k hk => by
      rw [he' k (by simp [Fields.names, hk])]
      split
      · rfl
      · rw [List.lookup_cons, show (k == n) = false by simpa using fun (h : k = n) => hnd.1 (h ▸ hk)]
    have hget : getVal e' n = v := by
      rw [getVal, he' n (by simp [Fields.names])]
      split
      · rename_i hv
        rw [hnone]
        cases v <;> simp_all [Val.isNone]
      · simp [List.lookup]
    refine ⟨m' :: ms', ?_, ?_⟩
    · simp only [buildFields, hget, h5, h7, Except.bind, Except.map]
    · simp only [toDictFields, h6, h8, Except.bind, Except.map]
end

/-- C51: a deep copy of a model whose schema has no defaults for scalar and record fields and no arrays of plain values has the
same `to_dict_value` as the original. Missing: see the counterexamples. -/
theorem C51_deepcopy_partial (s : Schema) (hs : Deep s) (hn : NoDefaults s) (m : M) (hw : WT s false m) :
    ∃ v m', toDict s m = .ok v ∧ deepCopy s m = .ok m' ∧ toDict s m' = .ok v := by
  obtain ⟨v, h1, h2⟩ := copy_ok s hs hn false m hw (.inl rfl)
  obtain ⟨m', h3, h4⟩ := h2 false .none (.inl rfl) (.inl rfl)
  exact ⟨v, m', h1, by simp only [deepCopy, h1, Except.bind, h3], h4⟩

/-- C51, negative: a field with a default loses its value in the copy. -/
theorem C51_counterexample :
    ∃ m', deepCopy sDefault (.record [.field (.atom 5), .field .none]) = .ok m' ∧
      toDict sDefault (.record [.field (.atom 5), .field .none]) = .ok (.dict [("x", .atom 5)]) ∧
      toDict sDefault m' = .ok (.dict [("x", .atom 3)]) :=
  ⟨_, rfl, rfl, rfl⟩

/-- C51, negative: a field with a default set to `None` gets its default back in the copy. -/
theorem C51_counterexample_none :
    ∃ m', deepCopy sDefault (.record [.field .none, .field .none]) = .ok m' ∧
      toDict sDefault (.record [.field .none, .field .none]) = .ok (.dict []) ∧
      toDict sDefault m' = .ok (.dict [("x", .atom 3)]) :=
  ⟨_, rfl, rfl, rfl⟩

/-- C51, negative: an array of plain values (here built from `[1]`) has no `to_dict_value` and cannot be copied. -/
theorem C51_counterexample_plain :
    ∃ m, build (.array .scalar) false .none (.list [.atom 1]) = .ok m ∧
      toDict (.array .scalar) m = .error .attributeError ∧ deepCopy (.array .scalar) m = .error .attributeError :=
  ⟨_, rfl, rfl, rfl⟩

/-- `sNested` without defaults -/
def sClean : Schema :=
  .record (.cons "a" .none .scalar
    (.cons "r" .none (.record (.cons "y" .none .scalar (.cons "z" .none .scalar .nil)))
      (.cons "l" .none (.array (.record (.cons "q" .none .scalar .nil))) .nil)))

def mClean : M := .record [.field (.atom 1), .record [.field .none, .field (.atom 2)],
  .array [(0, .record [.field (.atom 4)]), (1, .record [.field .none])] [0, 1] 2]

example : Deep sClean ∧ NoDefaults sClean ∧ WT sClean false mClean := by
  refine ⟨by simp [Deep, DeepFields, sClean, Fields.names], by simp [NoDefaults, NoDefaultsFields, sClean], ?_⟩
  simp [WT, WTFields, sClean, mClean]
  rintro a b (⟨_, rfl⟩ | ⟨_, rfl⟩) <;> exact ⟨_, rfl⟩

example : toDict sClean mClean = .ok (.dict [("a", .atom 1), ("r", .dict [("z", .atom 2)]),
    ("l", .list [.dict [("q", .atom 4)], .dict []])]) := rfl

end Verif.Structured
