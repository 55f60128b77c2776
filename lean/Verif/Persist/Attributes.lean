import Verif.Py.Basic
import Mathlib.Logic.Function.Basic
import Mathlib.Tactic.Common

/-!
C121: properties, items and relationships of a persistent object as attributes. Model of `PersistentObject.__getattr__` and `__setattr__`
(`nion/utils/Persistence.py:633-661`) on top of Python's own attributes: `object.__getattribute__` looks for a Python property of the
class, then for an attribute of the instance, then for any other attribute of the class, and `__getattr__` is called only if there is
none of these. Not modelled here: storage, contexts, modification counts, `changed` functions (`Storage`, `Context`, `Modified`), the
setter of `persistent_object_context`, copies of mutable values.
-/

namespace Verif.Persist.Attributes

open Verif.Py

/-- What an attribute can be. -/
inductive Val (V : Type) where
  | none
  | one (v : V)
  | many (l : List V)
  deriving DecidableEq

/-- Attributes of the class: a Python property without setter (`type`, `modified`, ...) or anything else (methods). -/
inductive ClsAttr (V : Type) where
  | property (v : Val V)
  | other (v : Val V)

/-- Lines 21-44, without the parts that are not modelled. -/
structure PProp (V : Type) where
  value : Val V
  readOnly : Bool
  hidden : Bool
  validate : Val V → Val V

/-- Lines 111-119. -/
structure PItem (V : Type) where
  value : Val V
  hidden : Bool

/-- Python dicts as functions. -/
structure St (V : Type) where
  cls : String → Option (ClsAttr V)
  attrs : String → Option (Val V)
  props : String → Option (PProp V)
  items : String → Option (PItem V)
  rels : String → Option (List V)

variable {V : Type} [DecidableEq V]

/-- Lines 633-642. -/
def St.getattrFallback (s : St V) (n : String) : Except Exc (Val V) :=
  match s.props n with
  | some p => if p.hidden then tryItem else .ok p.value
  | none => tryItem
where
  tryItem : Except Exc (Val V) :=
    match s.items n with
    | some i => if i.hidden then tryRel else .ok i.value
    | none => tryRel
  tryRel : Except Exc (Val V) :=
    match s.rels n with
    | some l => .ok (.many l)
    | none => .error .attributeError

/-- `obj.n` -/
def St.read (s : St V) (n : String) : Except Exc (Val V) :=
  match s.cls n, s.attrs n with
  | some (.property v), _ => .ok v
  | _, some v => .ok v
  | some (.other v), none => .ok v
  | none, none => s.getattrFallback n

/-- `object.__setattr__` -/
def St.rawSet (s : St V) (n : String) (v : Val V) : St V × Option Exc :=
  match s.cls n with
  | some (.property _) => (s, some .attributeError)
  | _ => ({ s with attrs := Function.update s.attrs n (some v) }, none)

/-- `set_value`, lines 46-53, in lines 654-656, 616-621. -/
def St.setProp (s : St V) (n : String) (p : PProp V) (v : Val V) : St V :=
  { s with props := Function.update s.props n (some { p with value := p.validate v }) }

/-- Lines 644-661. -/
def St.assign (s : St V) (n : String) (v : Val V) : St V × Option Exc :=
  if n.startsWith "_PersistentObject__" then s.rawSet n v
  else
    match s.props n with
    | some p =>
      if p.hidden then s.rawSet n v
      else if p.readOnly then (s, some .attributeError)
      else (s.setProp n p v, none)
    | none => s.rawSet n v

/-- Calls on the object. -/
inductive Op (V : Type) where
  /-- `obj.n = v` -/
  | assign (n : String) (v : Val V)
  /-- `_set_persistent_property_value`, lines 616-621 -/
  | setValue (n : String) (v : Val V)
  /-- lines 679-692 -/
  | setItem (n : String) (v : Option V)
  /-- lines 703-715 -/
  | insert (n : String) (i : Int) (v : V)
  /-- lines 720-731 -/
  | remove (n : String) (v : V)
  /-- lines 442-447 -/
  | defineProperty (n : String) (p : PProp V)
  /-- lines 449-450 -/
  | defineItem (n : String) (hidden : Bool)
  /-- lines 452-453 -/
  | defineRelationship (n : String)
  /-- lines 455-462 -/
  | undefineProperties
  | undefineItems
  | undefineRelationships

def ofOption : Option V → Val V
  | none => .none
  | some v => .one v

def St.step (s : St V) : Op V → St V × Option Exc
  | .assign n v => s.assign n v
  | .setValue n v =>
    match s.props n with
    | some p => (s.setProp n p v, none)
    | none => (s, some .keyError)
  | .setItem n v =>
    match s.items n with
    | some i => ({ s with items := Function.update s.items n (some { i with value := ofOption v }) }, none)
    | none => (s, some .keyError)
  | .insert n i v =>
    match s.rels n with
    | some l => ({ s with rels := Function.update s.rels n (some (Py.insert l i v)) }, none)
    | none => (s, some .keyError)
  | .remove n v =>
    match s.rels n with
    | some l => if v ∈ l then ({ s with rels := Function.update s.rels n (some (l.erase v)) }, none) else (s, some .valueError)
    | none => (s, some .keyError)
  | .defineProperty n p => ({ s with props := Function.update s.props n (some p) }, none)
  | .defineItem n hidden => ({ s with items := Function.update s.items n (some ⟨.none, hidden⟩) }, none)
  | .defineRelationship n => ({ s with rels := Function.update s.rels n (some []) }, none)
  | .undefineProperties => ({ s with props := fun _ => none }, none)
  | .undefineItems => ({ s with items := fun _ => none }, none)
  | .undefineRelationships => ({ s with rels := fun _ => none }, none)

/-- Calls that raise do not keep the others from being made. -/
def St.run (s : St V) (ops : List (Op V)) : St V := ops.foldl (fun s op => (s.step op).1) s

/-! ### Specification -/

/-- The name is not used by Python: no attribute of the class or of the instance, and not one of the object's own private names. -/
def St.Free (s : St V) (n : String) : Prop := s.cls n = none ∧ s.attrs n = none ∧ n.startsWith "_PersistentObject__" = false

/-- The call makes or removes the definition of the property. -/
def Op.redefines (n : String) : Op V → Prop
  | .defineProperty m _ => m = n
  | .undefineProperties => True
  | _ => False

def Op.redefinesItem (n : String) : Op V → Prop
  | .defineItem m _ => m = n
  | .undefineItems => True
  | .defineProperty m _ => m = n
  | .assign m _ => m = n
  | _ => False

def Op.redefinesRel (n : String) : Op V → Prop
  | .defineRelationship m => m = n
  | .undefineRelationships => True
  | .defineItem m _ => m = n
  | .defineProperty m _ => m = n
  | .assign m _ => m = n
  | _ => False

/-- The value a property has: the last one assigned, after validation. Assignments by `obj.n = v` do not count for a read-only
property. -/
def lastValue (n : String) (ro : Bool) (validate : Val V → Val V) (v0 : Val V) : List (Op V) → Val V
  | [] => v0
  | .assign m v :: ops => lastValue n ro validate (if m = n ∧ ro = false then validate v else v0) ops
  | .setValue m v :: ops => lastValue n ro validate (if m = n then validate v else v0) ops
  | _ :: ops => lastValue n ro validate v0 ops

/-- The item set last. -/
def lastItem (n : String) (v0 : Val V) : List (Op V) → Val V
  | [] => v0
  | .setItem m v :: ops => lastItem n (if m = n then ofOption v else v0) ops
  | _ :: ops => lastItem n v0 ops

/-- The list of related objects. -/
def related (n : String) (l : List V) : List (Op V) → List V
  | [] => l
  | .insert m i v :: ops => related n (if m = n then Py.insert l i v else l) ops
  | .remove m v :: ops => related n (if m = n then l.erase v else l) ops
  | _ :: ops => related n l ops

/-! ### Proof -/

omit [DecidableEq V] in
theorem update_ne {β : Type} {f : String → β} {m n : String} {b : β} (h : ¬ m = n) : Function.update f m b n = f n :=
  Function.update_of_ne (fun e => h e.symm) _ _

/-- What the parts of the state looked up under `n` become. -/
theorem St.step_prop (s : St V) (n : String) (p : PProp V) (op : Op V) (hf : s.Free n) (hp : s.props n = some p) (hh : p.hidden = false)
    (hop : ¬ op.redefines n) :
    (s.step op).1.Free n ∧ (s.step op).1.props n = some { p with value := lastValue n p.readOnly p.validate p.value [op] } := by
  obtain ⟨h1, h2, h3⟩ := hf
  cases op with
  | assign m v =>
    by_cases e : m = n
    · subst e
      simp only [St.step, St.assign, h3, hp, hh, lastValue]
      obtain ⟨a, ro, hid, f⟩ := p
      cases ro <;> simp_all [St.setProp, St.Free]
    · have hraw : ∀ v, (s.rawSet m v).1.Free n ∧ (s.rawSet m v).1.props n = some p := by
        intro v
        unfold St.rawSet
        split <;> simp [St.Free, h1, h2, h3, hp, update_ne e]
      have hval : lastValue n p.readOnly p.validate p.value [Op.assign m v] = p.value := by simp [lastValue, e]
      rw [hval]
      simp only [St.step, St.assign]
      split
      · exact hraw v
      · split
        · split
          · exact hraw v
          · split
            · exact ⟨⟨h1, h2, h3⟩, hp⟩
            · exact ⟨⟨h1, h2, h3⟩, by simp [St.setProp, update_ne e, hp]⟩
        · exact hraw v
  | setValue m v =>
    by_cases e : m = n
    · subst e
      simp [St.step, hp, St.setProp, St.Free, h1, h2, h3, lastValue]
    · simp only [St.step, lastValue, if_neg e]
      split
      · exact ⟨⟨h1, h2, h3⟩, by simp [St.setProp, update_ne e, hp]⟩
      · exact ⟨⟨h1, h2, h3⟩, hp⟩
  | setItem m v => simp only [St.step, lastValue]; split <;> exact ⟨⟨h1, h2, h3⟩, hp⟩
  | insert m i v => simp only [St.step, lastValue]; split <;> exact ⟨⟨h1, h2, h3⟩, hp⟩
  | remove m v =>
    simp only [St.step, lastValue]
    split
    · split <;> exact ⟨⟨h1, h2, h3⟩, hp⟩
    · exact ⟨⟨h1, h2, h3⟩, hp⟩
  | defineProperty m q => exact ⟨⟨h1, h2, h3⟩, by simp [St.step, update_ne (show ¬ m = n from hop), lastValue, hp]⟩
  | defineItem m h => exact ⟨⟨h1, h2, h3⟩, hp⟩
  | defineRelationship m => exact ⟨⟨h1, h2, h3⟩, hp⟩
  | undefineProperties => exact absurd trivial hop
  | undefineItems => exact ⟨⟨h1, h2, h3⟩, hp⟩
  | undefineRelationships => exact ⟨⟨h1, h2, h3⟩, hp⟩

omit [DecidableEq V] in
theorem lastValue_cons (n : String) (ro : Bool) (f : Val V → Val V) (v0 : Val V) (op : Op V) (ops : List (Op V)) :
    lastValue n ro f v0 (op :: ops) = lastValue n ro f (lastValue n ro f v0 [op]) ops := by
  cases op <;> rfl

omit [DecidableEq V] in
theorem St.read_free {s : St V} {n : String} (h : s.Free n) : s.read n = s.getattrFallback n := by simp [St.read, h.1, h.2.1]

/-- C121: a property that is not hidden, with a name not used otherwise, reads as the value assigned last (validated), whatever else is
done to the object short of defining the property anew; assignments to read-only properties do not count. -/
theorem C121_property (s : St V) (n : String) (p : PProp V) (ops : List (Op V)) (hf : s.Free n) (hp : s.props n = some p)
    (hh : p.hidden = false) (hops : ∀ op ∈ ops, ¬ op.redefines n) :
    (s.run ops).read n = .ok (lastValue n p.readOnly p.validate p.value ops) := by
  induction ops generalizing s p with
  | nil => simp [St.run, lastValue, St.read_free hf, St.getattrFallback, hp, hh]
  | cons op ops ih =>
    have h := s.step_prop n p op hf hp hh (hops op (by simp))
    rw [lastValue_cons]
    exact ih (s.step op).1 _ h.1 h.2 hh (fun q hq => hops q (by simp [hq]))

/-- C121: assignment to a read-only property raises `AttributeError` and changes nothing. -/
theorem C121_read_only (s : St V) (n : String) (p : PProp V) (v : Val V) (hn : n.startsWith "_PersistentObject__" = false)
    (hp : s.props n = some p) (hh : p.hidden = false) (hr : p.readOnly = true) : s.step (.assign n v) = (s, some .attributeError) := by
  simp [St.step, St.assign, hn, hp, hh, hr]

omit [DecidableEq V] in
theorem St.assign_ne (s : St V) {m n : String} (v : Val V) (e : ¬ m = n) :
    (s.assign m v).1.cls = s.cls ∧ (s.assign m v).1.attrs n = s.attrs n ∧ (s.assign m v).1.props n = s.props n ∧
      (s.assign m v).1.items = s.items ∧ (s.assign m v).1.rels = s.rels := by
  have hraw : (s.rawSet m v).1.cls = s.cls ∧ (s.rawSet m v).1.attrs n = s.attrs n ∧ (s.rawSet m v).1.props n = s.props n ∧
      (s.rawSet m v).1.items = s.items ∧ (s.rawSet m v).1.rels = s.rels := by
    unfold St.rawSet
    split <;> simp [update_ne e]
  unfold St.assign
  split
  · exact hraw
  · split
    · split
      · exact hraw
      · split <;> simp [St.setProp, update_ne e]
    · exact hraw

/-- C121: an item that is not hidden reads as the item set last, as long as nobody assigns to its name. (Partial: after an assignment it is
false, `C121_shadow`.) -/
theorem C121_item_partial (s : St V) (n : String) (i : PItem V) (ops : List (Op V)) (hf : s.Free n) (hp : s.props n = none)
    (hi : s.items n = some i) (hh : i.hidden = false) (hops : ∀ op ∈ ops, ¬ op.redefinesItem n) :
    (s.run ops).read n = .ok (lastItem n i.value ops) := by
  have key : ∀ (op : Op V) (s : St V) (i : PItem V), s.Free n → s.props n = none → s.items n = some i → ¬ op.redefinesItem n →
      (s.step op).1.Free n ∧ (s.step op).1.props n = none ∧ (s.step op).1.items n = some { i with value := lastItem n i.value [op] } := by
    intro op s i hf hp hi hop
    obtain ⟨h1, h2, h3⟩ := hf
    cases op with
    | assign m v =>
      obtain ⟨e1, e2, e3, e4, _⟩ := s.assign_ne v (show ¬ m = n from hop)
      exact ⟨⟨by rw [St.step, e1]; exact h1, by rw [St.step, e2]; exact h2, h3⟩, by rw [St.step, e3]; exact hp, by rw [St.step, e4]; exact hi⟩
    | setValue m v =>
      simp only [St.step, lastItem]
      split
      · rename_i p hm
        have e : ¬ m = n := by rintro rfl; rw [hp] at hm; cases hm
        exact ⟨⟨h1, h2, h3⟩, by simp [St.setProp, update_ne e, hp], hi⟩
      · exact ⟨⟨h1, h2, h3⟩, hp, hi⟩
    | setItem m v =>
      by_cases e : m = n
      · subst e; simp [St.step, hi, St.Free, h1, h2, h3, hp, lastItem]
      · simp only [St.step, lastItem, if_neg e]
        split
        · exact ⟨⟨h1, h2, h3⟩, hp, by simp [update_ne e, hi]⟩
        · exact ⟨⟨h1, h2, h3⟩, hp, hi⟩
    | insert m j v => simp only [St.step, lastItem]; split <;> exact ⟨⟨h1, h2, h3⟩, hp, hi⟩
    | remove m v =>
      simp only [St.step, lastItem]
      split
      · split <;> exact ⟨⟨h1, h2, h3⟩, hp, hi⟩
      · exact ⟨⟨h1, h2, h3⟩, hp, hi⟩
    | defineProperty m q => exact ⟨⟨h1, h2, h3⟩, by simp [St.step, update_ne (show ¬ m = n from hop), hp], hi⟩
    | defineItem m h => exact ⟨⟨h1, h2, h3⟩, hp, by simp [St.step, update_ne (show ¬ m = n from hop), hi, lastItem]⟩
    | defineRelationship m => exact ⟨⟨h1, h2, h3⟩, hp, hi⟩
    | undefineProperties => exact ⟨⟨h1, h2, h3⟩, rfl, hi⟩
    | undefineItems => exact absurd trivial hop
    | undefineRelationships => exact ⟨⟨h1, h2, h3⟩, hp, hi⟩
  induction ops generalizing s i with
  | nil => simp [St.run, lastItem, St.read_free hf, St.getattrFallback, St.getattrFallback.tryItem, hp, hi, hh]
  | cons op ops ih =>
    obtain ⟨a, b, c⟩ := key op s i hf hp hi (hops op (by simp))
    have h := ih (s.step op).1 _ a b c hh (fun q hq => hops q (by simp [hq]))
    have hl : lastItem n i.value (op :: ops) = lastItem n (lastItem n i.value [op]) ops := by cases op <;> rfl
    rw [hl]
    exact h

/-- C121: a relationship reads as the list of the objects inserted and not removed, as long as nobody assigns to its name. (Partial: after an
assignment it is false, `C121_shadow`.) -/
theorem C121_relationship_partial (s : St V) (n : String) (l : List V) (ops : List (Op V)) (hf : s.Free n) (hp : s.props n = none)
    (hi : s.items n = none) (hr : s.rels n = some l) (hops : ∀ op ∈ ops, ¬ op.redefinesRel n) :
    (s.run ops).read n = .ok (.many (related n l ops)) := by
  have key : ∀ (op : Op V) (s : St V) (l : List V), s.Free n → s.props n = none → s.items n = none → s.rels n = some l →
      ¬ op.redefinesRel n →
      (s.step op).1.Free n ∧ (s.step op).1.props n = none ∧ (s.step op).1.items n = none ∧ (s.step op).1.rels n = some (related n l [op]) := by
    intro op s l hf hp hi hr hop
    obtain ⟨h1, h2, h3⟩ := hf
    cases op with
    | assign m v =>
      obtain ⟨e1, e2, e3, e4, e5⟩ := s.assign_ne v (show ¬ m = n from hop)
      exact ⟨⟨by rw [St.step, e1]; exact h1, by rw [St.step, e2]; exact h2, h3⟩, by rw [St.step, e3]; exact hp, by rw [St.step, e4]; exact hi,
        by rw [St.step, e5]; exact hr⟩
    | setValue m v =>
      simp only [St.step, related]
      split
      · rename_i p hm
        have e : ¬ m = n := by rintro rfl; rw [hp] at hm; cases hm
        exact ⟨⟨h1, h2, h3⟩, by simp [St.setProp, update_ne e, hp], hi, hr⟩
      · exact ⟨⟨h1, h2, h3⟩, hp, hi, hr⟩
    | setItem m v =>
      simp only [St.step, related]
      split
      · rename_i p hm
        have e : ¬ m = n := by rintro rfl; rw [hi] at hm; cases hm
        exact ⟨⟨h1, h2, h3⟩, hp, by simp [update_ne e, hi], hr⟩
      · exact ⟨⟨h1, h2, h3⟩, hp, hi, hr⟩
    | insert m j v =>
      by_cases e : m = n
      · subst e; simp [St.step, hr, hi, St.Free, h1, h2, h3, hp, related]
      · simp only [St.step, related, if_neg e]
        split
        · exact ⟨⟨h1, h2, h3⟩, hp, hi, by simp [update_ne e, hr]⟩
        · exact ⟨⟨h1, h2, h3⟩, hp, hi, hr⟩
    | remove m v =>
      by_cases e : m = n
      · subst e
        simp only [St.step, related, hr, if_true]
        split
        · exact ⟨⟨h1, h2, h3⟩, hp, hi, by simp⟩
        · rename_i hv
          exact ⟨⟨h1, h2, h3⟩, hp, hi, by rw [List.erase_of_not_mem hv]; exact hr⟩
      · simp only [St.step, related, if_neg e]
        split
        · split
          · exact ⟨⟨h1, h2, h3⟩, hp, hi, by simp [update_ne e, hr]⟩
          · exact ⟨⟨h1, h2, h3⟩, hp, hi, hr⟩
        · exact ⟨⟨h1, h2, h3⟩, hp, hi, hr⟩
    | defineProperty m q => exact ⟨⟨h1, h2, h3⟩, by simp [St.step, update_ne (show ¬ m = n from hop), hp], hi, hr⟩
    | defineItem m h => exact ⟨⟨h1, h2, h3⟩, hp, by simp [St.step, update_ne (show ¬ m = n from hop), hi], hr⟩
    | defineRelationship m => exact ⟨⟨h1, h2, h3⟩, hp, hi, by simp [St.step, update_ne (show ¬ m = n from hop), hr, related]⟩
    | undefineProperties => exact ⟨⟨h1, h2, h3⟩, rfl, hi, hr⟩
    | undefineItems => exact ⟨⟨h1, h2, h3⟩, hp, rfl, hr⟩
    | undefineRelationships => exact absurd trivial hop
  induction ops generalizing s l with
  | nil =>
    simp [St.run, related, St.read_free hf, St.getattrFallback, St.getattrFallback.tryItem, St.getattrFallback.tryRel, hp, hi, hr]
  | cons op ops ih =>
    obtain ⟨a, b, c, d⟩ := key op s l hf hp hi hr (hops op (by simp))
    have h := ih (s.step op).1 _ a b c d (fun q hq => hops q (by simp [hq]))
    have hl : related n l (op :: ops) = related n (related n l [op]) ops := by cases op <;> rfl
    rw [hl]
    exact h

/-- C121: assignment to the name of an item or a relationship, or of a hidden property, does not raise, does not change the item, the list
or the property, and from then on hides it: whatever is done with `set_item`, `insert_item`, `remove_item` and so on, `obj.n` stays what
was assigned until the next assignment. -/
theorem C121_shadow (s : St V) (n : String) (v : Val V) (ops : List (Op V)) (hc : s.cls n = none)
    (hp : ∀ p, s.props n = some p → p.hidden = true) (hops : ∀ op ∈ ops, (∀ w, op ≠ .assign n w)) :
    let t := (s.step (.assign n v)).1
    (s.step (.assign n v)).2 = none ∧ t.props = s.props ∧ t.items = s.items ∧ t.rels = s.rels ∧ (t.run ops).read n = .ok v := by
  have h0 : s.step (.assign n v) = ({ s with attrs := Function.update s.attrs n (some v) }, none) := by
    have hraw : s.rawSet n v = ({ s with attrs := Function.update s.attrs n (some v) }, none) := by simp [St.rawSet, hc]
    simp only [St.step, St.assign]
    split
    · exact hraw
    · split
      · rename_i p h; rw [if_pos (hp p h)]; exact hraw
      · exact hraw
  have hrun : ∀ (ops : List (Op V)) (t : St V), t.cls n = none → t.attrs n = some v → (∀ op ∈ ops, (∀ w, op ≠ .assign n w)) →
      (t.run ops).read n = .ok v := by
    intro ops
    induction ops with
    | nil => intro t a b _; simp [St.run, St.read, a, b]
    | cons op ops ih =>
      intro t a b h
      have hk : (t.step op).1.cls n = none ∧ (t.step op).1.attrs n = some v := by
        cases op with
        | assign m w =>
          have e : ¬ m = n := by rintro rfl; exact h _ (by simp) w rfl
          obtain ⟨e1, e2, _⟩ := t.assign_ne w e
          exact ⟨by rw [St.step, e1]; exact a, by rw [St.step, e2]; exact b⟩
        | remove m w => simp only [St.step]; split <;> (try split) <;> exact ⟨a, b⟩
        | setValue m w => simp only [St.step]; split <;> exact ⟨a, b⟩
        | setItem m w => simp only [St.step]; split <;> exact ⟨a, b⟩
        | insert m j w => simp only [St.step]; split <;> exact ⟨a, b⟩
        | _ => exact ⟨a, b⟩
      exact ih _ hk.1 hk.2 (fun q hq => h q (by simp [hq]))
  intro t
  have ht : t = { s with attrs := Function.update s.attrs n (some v) } := by simp only [t]; rw [h0]
  refine ⟨by rw [h0], by rw [ht], by rw [ht], by rw [ht], hrun ops t ?_ ?_ hops⟩
  · rw [ht]; exact hc
  · rw [ht]; simp

/-- C121: a property with the name of an attribute of the class or of the instance can be assigned (its value is the one written to dicts)
but `obj.n` shows the other attribute. -/
theorem C121_taken (s : St V) (n : String) (p : PProp V) (v : Val V) (hn : n.startsWith "_PersistentObject__" = false)
    (hp : s.props n = some p) (hh : p.hidden = false) (hr : p.readOnly = false) (ht : s.cls n ≠ none ∨ s.attrs n ≠ none) :
    ((s.step (.assign n v)).1.props n).map PProp.value = some (p.validate v) ∧ (s.step (.assign n v)).1.read n = s.read n := by
  have h0 : s.step (.assign n v) = (s.setProp n p v, none) := by simp [St.step, St.assign, hn, hp, hh, hr]
  rw [h0]
  constructor
  · simp [St.setProp]
  · simp only [St.read, St.setProp]
    rcases hcl : s.cls n with _ | _ | _ <;> rcases hat : s.attrs n with _ | _ <;> simp_all

/-- The call defines the name again, or assigns it. -/
def Op.redefinesAny (n : String) : Op V → Prop
  | .defineProperty m _ => m = n
  | .defineItem m _ => m = n
  | .defineRelationship m => m = n
  | .assign m _ => m = n
  | _ => False

/-- C121: a hidden property cannot be read as an attribute, whatever its value is set to. -/
theorem C121_hidden (s : St V) (n : String) (ops : List (Op V)) (hf : s.Free n) (hp : ∀ p, s.props n = some p → p.hidden = true)
    (hi : ∀ i, s.items n = some i → i.hidden = true) (hr : s.rels n = none) (hops : ∀ op ∈ ops, ¬ op.redefinesAny n) :
    (s.run ops).read n = .error .attributeError := by
  induction ops generalizing s with
  | nil =>
    simp only [St.run, List.foldl_nil, St.read_free hf, St.getattrFallback, St.getattrFallback.tryItem, St.getattrFallback.tryRel, hr]
    rcases h1 : s.props n with _ | p <;> rcases h2 : s.items n with _ | i
    · rfl
    · simp [hi i h2]
    · simp [hp p h1]
    · simp [hi i h2, hp p h1]
  | cons op ops ih =>
    have hop := hops op (by simp)
    have key : (s.step op).1.Free n ∧ (∀ p, (s.step op).1.props n = some p → p.hidden = true) ∧
        (∀ i, (s.step op).1.items n = some i → i.hidden = true) ∧ (s.step op).1.rels n = none := by
      cases op with
      | assign m w =>
        obtain ⟨e1, e2, e3, e4, e5⟩ := s.assign_ne w (n := n) (m := m) hop
        simp only [St.step, St.Free, e1, e2, e3, e4, e5]
        exact ⟨hf, hp, hi, hr⟩
      | setValue m w =>
        simp only [St.step]
        split
        · rename_i q hq
          refine ⟨hf, ?_, hi, hr⟩
          intro p' h'
          simp only [St.setProp] at h'
          by_cases e : m = n
          · subst e
            simp only [Function.update_self, Option.some.injEq] at h'
            subst h'
            exact hp q hq
          · rw [update_ne e] at h'; exact hp _ h'
        · exact ⟨hf, hp, hi, hr⟩
      | setItem m w =>
        simp only [St.step]
        split
        · rename_i q hq
          refine ⟨hf, hp, ?_, hr⟩
          intro p' h'
          dsimp only at h'
          by_cases e : m = n
          · subst e
            simp only [Function.update_self, Option.some.injEq] at h'
            subst h'
            exact hi q hq
          · rw [update_ne e] at h'; exact hi _ h'
        · exact ⟨hf, hp, hi, hr⟩
      | insert m j w =>
        simp only [St.step]
        split
        · rename_i q hq
          refine ⟨hf, hp, hi, ?_⟩
          by_cases e : m = n
          · subst e; simp [hr] at hq
          · dsimp only; rw [update_ne e]; exact hr
        · exact ⟨hf, hp, hi, hr⟩
      | remove m w =>
        simp only [St.step]
        split
        · rename_i q hq
          have e : ¬ m = n := by rintro rfl; simp [hr] at hq
          split
          · exact ⟨hf, hp, hi, by dsimp only; rw [update_ne e]; exact hr⟩
          · exact ⟨hf, hp, hi, hr⟩
        · exact ⟨hf, hp, hi, hr⟩
      | defineProperty m q => exact ⟨hf, by simp only [St.step]; rw [update_ne hop]; exact hp, hi, hr⟩
      | defineItem m q => exact ⟨hf, hp, by simp only [St.step]; rw [update_ne hop]; exact hi, hr⟩
      | defineRelationship m => exact ⟨hf, hp, hi, by simp only [St.step]; rw [update_ne hop]; exact hr⟩
      | undefineProperties => exact ⟨hf, by simp [St.step], hi, hr⟩
      | undefineItems => exact ⟨hf, hp, by simp [St.step], hr⟩
      | undefineRelationships => exact ⟨hf, hp, hi, by simp [St.step]⟩
    exact ih _ key.1 key.2.1 key.2.2.1 key.2.2.2 (fun q hq => hops q (by simp [hq]))

/-- C121: a name that is a Python property of the class always shows that, whatever is defined, assigned, set or found in the
instance's attributes. -/
theorem C121_class (s : St V) (n : String) (v : Val V) (ops : List (Op V)) (hc : s.cls n = some (.property v)) :
    (s.run ops).read n = .ok v := by
  have hk : ∀ (ops : List (Op V)) (t : St V), (t.run ops).cls = t.cls := by
    intro ops
    induction ops with
    | nil => intro t; rfl
    | cons op ops ih =>
      intro t
      have : (t.step op).1.cls = t.cls := by
        cases op <;> simp only [St.step, St.assign, St.rawSet, St.setProp] <;> repeat' (first | rfl | split)
      rw [← this]
      exact ih _
  simp [St.read, hk, hc]

/-! ### Cases -/

/-- An object with a property `x`, an item `child`, a relationship `parts`, of a class with the Python property `type`. -/
def demo : St Nat :=
  { cls := fun n => if n = "type" then some (.property (.one 99)) else none
    attrs := fun _ => none
    props := fun n => if n = "x" then some ⟨.one 1, false, false, fun v => match v with | .one k => .one (min k 10) | v => v⟩ else
      if n = "type" then some ⟨.one 5, false, false, id⟩ else none
    items := fun n => if n = "child" then some ⟨.one 7, false⟩ else none
    rels := fun n => if n = "parts" then some [1, 2] else none }

/-- A hidden item that is set is not an attribute; the class's property shows even if the instance has an attribute of the name. -/
example : ({ demo with items := fun n => if n = "secret" then some ⟨.none, true⟩ else none }.run [.setItem "secret" (some 3)]).read "secret" =
      .error .attributeError ∧
    ({ demo with attrs := fun _ => some (.one 1) }.run [.assign "type" (.one 6)]).read "type" = .ok (.one 99) := by
  constructor <;> decide

/-- C121 is false after assignments to names of items and relationships. After `obj.parts = [9]` the list of related
objects is as before, and inserting does not show; after `obj.child = 8` the item is as before; a property called `type` keeps showing
the type. -/
theorem C121_counterexample :
    let s := demo.run [.assign "parts" (.many [9]), .insert "parts" 2 3, .assign "child" (.one 8), .setItem "child" (some 4), .assign "type" (.one 6)]
    s.read "parts" = .ok (.many [9]) ∧ s.rels "parts" = some [1, 2, 3] ∧ s.read "child" = .ok (.one 8) ∧
      (s.items "child").map PItem.value = some (.one 4) ∧ s.read "type" = .ok (.one 99) ∧
      (s.props "type").map PProp.value = some (.one 6) := by
  refine ⟨?_, ?_, ?_, ?_, ?_, ?_⟩ <;> decide

/-- values are validated, other calls do not matter -/
example : (demo.run [.assign "x" (.one 20), .assign "parts" (.many []), .undefineItems]).read "x" = .ok (.one 10) := by decide

/-- items and lists as long as nobody assigns -/
example : (demo.run [.setItem "child" none, .insert "parts" (-1) 5, .remove "parts" 1]).read "parts" = .ok (.many [5, 2]) := by decide

end Verif.Persist.Attributes
