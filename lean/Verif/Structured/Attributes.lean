import Verif.Py.Basic
import Mathlib.Data.List.Basic

/-!
Reading and assigning the fields of a record as attributes: `RecordModel.__getattr__`, `__setattr__`, `close`, `to_dict_value`
(`nion/utils/StructuredModel.py:111-208`), property C103.

Python looks an attribute up in this order: properties of the class (only `field_value`, 206-208), the attributes of the object, other
attributes of the class (methods), `__getattr__`. The names of the first three are `own`; the model does not say which object is found
there. `other` are attributes assigned by clients which are not fields. A field is a `FieldPropertyModel` (scalar) or a record or array
model, of which only the identity matters here. The comparison of values is equality.
-/

set_option linter.unusedSectionVars false

namespace Verif.Structured.Attributes

open Verif.Py

variable {V : Type} [DecidableEq V]

inductive Field (V : Type) where
  | scalar (v : Option V)
  | nested (id : ℕ)
  deriving DecidableEq

/-- What a client gets from an attribute. -/
inductive Obj (V : Type) where
  | value (v : Option V)
  /-- the record itself or the sequence made for an array -/
  | nested (id : ℕ)
  /-- the model of a field -/
  | model (field : String)
  /-- an attribute of the object or its class -/
  | own (name : String)
  deriving DecidableEq

/-- The attributes of every record (115-132, 162-208, Observable.py:19-27) without the names with underscores in front. -/
def ownObject : List String :=
  ["schema", "field_value_changed_event", "array_item_inserted_event", "array_item_removed_event", "model_changed_event",
   "property_changed_event", "item_set_event", "item_cleared_event", "item_inserted_event", "item_removed_event", "item_added_event",
   "item_discarded_event", "item_content_changed_event"]

def ownClass : List String :=
  ["close", "copy_from", "from_dict_value", "to_dict_value", "notify_property_changed", "notify_set_item", "notify_clear_item",
   "notify_insert_item", "notify_remove_item", "notify_add_item", "notify_discard_item", "notify_item_content_changed"]

structure Rec (V : Type) where
  /-- `__field_models`, in the order of the schema. -/
  fields : List (String × Field V)
  /-- Attributes set in the object by clients. -/
  attrs : List (String × Obj V)
  /-- Whether the record listens to its fields. -/
  listening : Bool
  /-- `property_changed_event`. -/
  changed : List String

/-- A new record. -/
def Rec.init (fields : List (String × Field V)) : Rec V := ⟨fields, [], true, []⟩

def Field.obj : Field V → Obj V
  | .scalar v => .value v
  | .nested id => .nested id

/-- `name.endswith("_model")` and `name[:-6]`. -/
def modelOf (name : String) : Option String :=
  if "_model".toList <:+ name.toList then some (String.ofList (name.toList.take (name.length - 6))) else none

/-- 193-198 `__getattr__`. -/
def getField (r : Rec V) (name : String) : Except Exc (Obj V) :=
  match r.fields.lookup name with
  | some f => .ok f.obj
  | none =>
    match modelOf name with
    | some n => if (r.fields.lookup n).isSome then .ok (.model n) else .error .attributeError
    | none => .error .attributeError

/-- `record.name`. -/
def get (r : Rec V) (name : String) : Except Exc (Obj V) :=
  if name = "field_value" then .ok (.own name)
  else
    match r.attrs.lookup name with
    | some o => .ok o
    | none => if name ∈ ownObject ∨ name ∈ ownClass then .ok (.own name) else getField r name

def setField (name : String) (v : Option V) : List (String × Field V) → List (String × Field V)
  | [] => []
  | (n, f) :: fs => if n = name then (n, .scalar v) :: fs else (n, f) :: setField name v fs

/-- 141-143: the record fires `property_changed_event` with the name of the field. -/
def Rec.fires (r : Rec V) (name : String) : List String := if r.listening then [name] else []

/-- 200-204 `record.name = value`; `object.__setattr__` raises for the property, which has no setter. -/
def set (r : Rec V) (name : String) (v : Option V) : Rec V × Option Exc :=
  match r.fields.lookup name with
  | some (.scalar old) =>
    if old = v then (r, none)
    else ({ r with fields := setField name v r.fields, changed := r.changed ++ r.fires name }, none)
  | _ =>
    if name = "field_value" then (r, some .attributeError)
    else ({ r with attrs := (name, .value v) :: r.attrs }, none)

/-- 162-171 `close`: the listeners are deleted; a second time the first key is missing. -/
def close (r : Rec V) : Rec V × Option Exc :=
  if r.listening ∨ r.fields = [] then ({ r with listening := false }, none) else (r, some .keyError)

/-- 182-190 `to_dict_value`, the scalar fields. -/
def dict (r : Rec V) : List (String × V) :=
  r.fields.filterMap fun p => match p.2 with | .scalar (some v) => some (p.1, v) | _ => none

inductive Op (V : Type) where
  | set (name : String) (v : Option V)
  | close

def step (r : Rec V) : Op V → Rec V × Option Exc
  | .set n v => set r n v
  | .close => close r

def run (r : Rec V) (ops : List (Op V)) : Rec V := ops.foldl (fun r op => (step r op).1) r

/-! ### C103 -/

/-- Specification: the value assigned last to a name. -/
def lastValue (name : String) (v : Option V) (ops : List (Op V)) : Option V :=
  ops.foldl (fun w op => match op with | .set n x => if n = name then x else w | .close => w) v

/-- Specification: the changes of a name. -/
def changes (name : String) (v : Option V) : List (Op V) → ℕ
  | [] => 0
  | .set n x :: ops => if n = name then (if x = v then 0 else 1) + changes name x ops else changes name v ops
  | .close :: _ => 0

theorem lookup_setField (name n : String) (v : Option V) (fs : List (String × Field V)) :
    (setField name v fs).lookup n = if n = name then (fs.lookup n).map fun _ => .scalar v else fs.lookup n := by
  induction fs with
  | nil => simp [setField]
  | cons p fs ih =>
    obtain ⟨k, f⟩ := p
    rw [setField]
    by_cases h : k = name
    · rw [if_pos h]
      subst h
      by_cases h2 : n = k
      · subst h2
        simp
      · have : (n == k) = false := by simpa using h2
        simp [List.lookup_cons, this, h2]
    · rw [if_neg h]
      by_cases h2 : n = k
      · subst h2
        simp [h]
      · have : (n == k) = false := by simpa using h2
        simp only [List.lookup_cons, this, ih]

/-- A scalar field stays one, with the value assigned last; it is never among the attributes. -/
theorem run_scalar (ops : List (Op V)) (r : Rec V) (name : String) (v : Option V) (h : r.fields.lookup name = some (.scalar v))
    (ha : r.attrs.lookup name = none) :
    (run r ops).fields.lookup name = some (.scalar (lastValue name v ops)) ∧ (run r ops).attrs.lookup name = none := by
  induction ops generalizing r v with
  | nil => exact ⟨h, ha⟩
  | cons op ops ih =>
    have hs : (step r op).1.fields.lookup name = some (.scalar (match op with | .set n x => if n = name then x else v | .close => v)) ∧
        (step r op).1.attrs.lookup name = none := by
      cases op with
      | close =>
        simp only [step, close]
        split_ifs <;> exact ⟨h, ha⟩
      | set n x =>
        simp only [step, set]
        by_cases hn : n = name
        · subst hn
          simp only [h, if_true]
          split_ifs with hx
          · exact ⟨hx ▸ h, ha⟩
          · refine ⟨?_, ha⟩
            simp only
            rw [lookup_setField, if_pos rfl, h]
            rfl
        · simp only [if_neg hn]
          have hne : name ≠ n := fun e => hn e.symm
          split
          · next old ho =>
            split_ifs
            · exact ⟨h, ha⟩
            · refine ⟨?_, ha⟩
              simp only
              rw [lookup_setField, if_neg hne, h]
          · split_ifs
            · exact ⟨h, ha⟩
            · refine ⟨h, ?_⟩
              have : (name == n) = false := by simpa using hne
              simp only [List.lookup_cons, this, ha]
    exact ih (step r op).1 _ hs.1 hs.2

/-- C103 (partial: scalar fields whose names are not attributes of every record): after any history, the attribute is the value assigned
last. -/
theorem C103_read_partial (fields : List (String × Field V)) (ops : List (Op V)) (name : String) (v : Option V)
    (h : fields.lookup name = some (.scalar v)) (h1 : name ∉ ownObject) (h2 : name ∉ ownClass) (h3 : name ≠ "field_value") :
    get (run (.init fields) ops) name = .ok (.value (lastValue name v ops)) := by
  obtain ⟨g1, g2⟩ := run_scalar ops (.init fields) name v h rfl
  rw [get, if_neg h3, g2]
  simp only [h1, h2, or_self, if_false, getField, g1, Field.obj]

theorem mem_dict {fs : List (String × Field V)} (hd : (fs.map Prod.fst).Nodup) (name : String) (f : Field V) :
    fs.lookup name = some f ↔ (name, f) ∈ fs := by
  induction fs with
  | nil => simp
  | cons p fs ih =>
    obtain ⟨k, g⟩ := p
    rw [List.map_cons, List.nodup_cons] at hd
    rw [List.lookup_cons, List.mem_cons, Prod.mk.injEq]
    by_cases hk : name = k
    · subst hk
      simp only [BEq.rfl, Option.some.injEq, true_and]
      constructor
      · exact fun h => .inl h.symm
      · rintro (h | h)
        · exact h.symm
        · exact absurd (List.mem_map_of_mem h) hd.1
    · have : (name == k) = false := by simpa using hk
      simp only [this, hk, false_and, false_or]
      exact ih hd.2

theorem run_names (ops : List (Op V)) (r : Rec V) : (run r ops).fields.map Prod.fst = r.fields.map Prod.fst := by
  have key : ∀ (n : String) (x : Option V) (fs : List (String × Field V)), (setField n x fs).map Prod.fst = fs.map Prod.fst := by
    intro n x fs
    induction fs with
    | nil => rfl
    | cons p fs ih =>
      obtain ⟨k, f⟩ := p
      rw [setField]
      split_ifs <;> simp [ih]
  induction ops generalizing r with
  | nil => rfl
  | cons op ops ih =>
    refine (ih (step r op).1).trans ?_
    cases op with
    | close =>
      simp only [step, close]
      split_ifs <;> rfl
    | set n x =>
      simp only [step, set]
      split
      · split_ifs
        · rfl
        · exact key _ _ _
      · split_ifs <;> rfl

/-- C103: the dict of a record has the value assigned last to a scalar field, whatever its name, and has no entry if that is `None`. -/
theorem C103_dict (fields : List (String × Field V)) (hd : (fields.map Prod.fst).Nodup) (ops : List (Op V)) (name : String) (v : Option V)
    (h : fields.lookup name = some (.scalar v)) (w : V) : (name, w) ∈ dict (run (.init fields) ops) ↔ lastValue name v ops = some w := by
  obtain ⟨g1, -⟩ := run_scalar ops (.init fields) name v h rfl
  have hd' : ((run (.init fields) ops).fields.map Prod.fst).Nodup := by rw [run_names]; exact hd
  rw [dict, List.mem_filterMap]
  constructor
  · rintro ⟨⟨n, f⟩, hm, he⟩
    cases f with
    | nested id => cases he
    | scalar x =>
      cases x with
      | none => cases he
      | some x =>
        simp only [Option.some.injEq, Prod.mk.injEq] at he
        obtain ⟨rfl, rfl⟩ := he
        rw [← mem_dict hd', g1] at hm
        simpa using hm
  · intro hl
    refine ⟨(name, .scalar (some w)), ?_, rfl⟩
    rw [← mem_dict hd', g1, hl]

/-- C103: the record notifies each change of a scalar field under its name, and nothing else under it, until it is closed. -/
theorem C103_notify (fields : List (String × Field V)) (ops : List (Op V)) (name : String) (v : Option V)
    (h : fields.lookup name = some (.scalar v)) : (run (.init fields) ops).changed.count name = changes name v ops := by
  have closed : ∀ (ops : List (Op V)) (r : Rec V), r.listening = false → (run r ops).changed = r.changed := by
    intro ops
    induction ops with
    | nil => exact fun _ _ => rfl
    | cons op ops ih =>
      intro r hr
      have : (step r op).1.listening = false ∧ (step r op).1.changed = r.changed := by
        cases op with
        | close =>
          simp only [step, close]
          split_ifs <;> exact ⟨by simp [hr], rfl⟩
        | set n x =>
          simp only [step, set]
          split
          · split_ifs
            · exact ⟨hr, rfl⟩
            · exact ⟨hr, by simp [hr, Rec.fires]⟩
          · split_ifs <;> exact ⟨hr, rfl⟩
      exact (ih (step r op).1 this.1).trans this.2
  suffices key : ∀ (ops : List (Op V)) (r : Rec V) (v : Option V), r.listening = true → r.fields.lookup name = some (.scalar v) →
      r.attrs.lookup name = none → (run r ops).changed.count name = r.changed.count name + changes name v ops by
    have := key ops (.init fields) v rfl h rfl
    simpa [Rec.init] using this
  intro ops
  induction ops with
  | nil => exact fun _ _ _ _ _ => rfl
  | cons op ops ih =>
    intro r v hl hf ha
    cases op with
    | close =>
      have e : (step r .close).1 = { r with listening := false } := by simp [step, close, hl]
      change (run (step r .close).1 ops).changed.count name = _
      rw [closed ops _ (by rw [e]), e]
      rfl
    | set n x =>
      obtain ⟨g1, g2⟩ := run_scalar [.set n x] r name v hf ha
      have g1' : (step r (.set n x)).1.fields.lookup name = some (.scalar (if n = name then x else v)) := g1
      have g3 : (step r (.set n x)).1.listening = true := by
        simp only [step, set]
        split
        · split_ifs <;> exact hl
        · split_ifs <;> exact hl
      have := ih (step r (.set n x)).1 _ g3 g1' g2
      change (run (step r (.set n x)).1 ops).changed.count name = _
      rw [this]
      by_cases hn : n = name
      · subst hn
        simp only [changes, if_true]
        have : (step r (.set n x)).1.changed.count n = r.changed.count n + if x = v then 0 else 1 := by
          simp only [step, set, hf]
          by_cases hx : v = x
          · simp [hx]
          · have : x ≠ v := fun e => hx e.symm
            simp [hx, this, hl, List.count_append, Rec.fires]
        rw [this]
        omega
      · simp only [changes, if_neg hn]
        have : (step r (.set n x)).1.changed.count name = r.changed.count name := by
          simp only [step, set]
          split
          · split_ifs
            · rfl
            · simp [hl, List.count_append, hn, Rec.fires]
          · split_ifs <;> rfl
        rw [this]

/-- C103: the model of a field is the attribute with `_model` after its name, unless that is the name of a field or taken. -/
theorem C103_model (fields : List (String × Field V)) (name : String) (f : Field V) (h : fields.lookup name = some f)
    (hm : fields.lookup (name ++ "_model") = none) : get (.init fields) (name ++ "_model") = .ok (.model name) := by
  have hmod : modelOf (name ++ "_model") = some name := by
    have e : (name ++ "_model").toList = name.toList ++ "_model".toList := String.toList_append
    rw [modelOf, if_pos (by rw [e]; exact List.suffix_append _ _), e]
    have hl : (name ++ "_model").length - 6 = name.toList.length := by
      rw [← String.length_toList, e, List.length_append]
      rfl
    rw [hl, List.take_left]
    simp
  have hown : ∀ o ∈ "field_value" :: (ownObject ++ ownClass), modelOf o = none := by decide
  have hno : name ++ "_model" ∉ "field_value" :: (ownObject ++ ownClass) := by
    intro hmem
    rw [hown _ hmem] at hmod
    cases hmod
  rw [List.mem_cons, List.mem_append, not_or] at hno
  rw [get, if_neg hno.1]
  simp only [Rec.init, List.lookup_nil, if_neg hno.2, getField, hm, hmod, h, Option.isSome_some, if_true]

/-- C103, counterexample: an assignment to an array or record field is not refused, changes neither the model nor its dict, is not
notified, and is what is read afterwards. -/
theorem C103_counterexample (fields : List (String × Field V)) (ops : List (Op V)) (name : String) (id : ℕ) (w : Option V)
    (h : fields.lookup name = some (.nested id)) (h3 : name ≠ "field_value") :
    let r := run (.init fields) ops
    (set r name w).2 = none ∧ (set r name w).1.fields = r.fields ∧ (set r name w).1.changed = r.changed ∧
      get (set r name w).1 name = .ok (.value w) := by
  intro r
  have hn : r.fields.lookup name = some (.nested id) := by
    have key : ∀ (ops : List (Op V)) (r : Rec V), r.fields.lookup name = some (.nested id) →
        (run r ops).fields.lookup name = some (.nested id) := by
      intro ops
      induction ops with
      | nil => exact fun _ h => h
      | cons op ops ih =>
        intro r h
        apply ih (step r op).1
        cases op with
        | close =>
          simp only [step, close]
          split_ifs <;> exact h
        | set n x =>
          simp only [step, set]
          split
          · next old ho =>
            split_ifs
            · exact h
            · simp only
              rw [lookup_setField, if_neg, h]
              rintro rfl
              rw [h] at ho
              cases ho
          · split_ifs <;> exact h
    exact key ops _ h
  have e : set r name w = ({ r with attrs := (name, .value w) :: r.attrs }, none) := by simp only [set, hn, if_neg h3]
  rw [e]
  refine ⟨rfl, rfl, rfl, ?_⟩
  simp [get, h3]

/-- C103, counterexample: a field with the name of an attribute of records can be assigned, the dict shows it, but reading gives the other
attribute. -/
theorem C103_counterexample_name : let r : Rec ℕ := .init [("schema", .scalar none)]
    dict (set r "schema" (some 5)).1 = [("schema", 5)] ∧ get (set r "schema" (some 5)).1 "schema" = .ok (.own "schema") := by
  decide

def sample : Rec ℕ := run (.init [("a", .scalar none), ("b", .scalar (some 1)), ("c", .nested 0)])
  [.set "a" (some 3), .set "b" (some 1), .set "x" (some 9), .close, .set "a" (some 4)]

example : get sample "a" = .ok (.value (some 4)) ∧ sample.changed = ["a"] ∧ get sample "x" = .ok (.value (some 9)) ∧
    get sample "c_model" = .ok (.model "c") ∧ get sample "d" = .error .attributeError ∧ dict sample = [("a", 4), ("b", 1)] ∧
    (close sample).2 = some .keyError := by
  decide

end Verif.Structured.Attributes
