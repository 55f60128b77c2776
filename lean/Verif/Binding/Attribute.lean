import Mathlib.Logic.Function.Basic
import Verif.Py.Basic

/-!
Model of `PropertyAttributeBinding` (`nion/utils/Binding.py`, lines 257-310), property C86.

The property of the source holds a reference to an object or `None`; objects are numbered, `attr r` is the bound attribute of
object `r` (none if it has no such attribute). Converters are total functions. `diff` says when the source's setter stores
and notifies, given the old and the new reference. With an `update_attribute_fn` the binding puts a new object with the
changed attribute into the property; without, it changes the object in place. An `update_attribute_fn` may also make an object from `None`.
Not modelled: other attributes, exceptions in
converters.
-/

namespace Verif.Binding.Attribute

open Verif.Py

variable {E T : Type}

structure Config (E T : Type) where
  convert : Option E → Option T
  back : Option T → Option E
  fallback : Option T
  /-- `update_attribute_fn` is given and makes a new object -/
  copies : Bool
  /-- `update_attribute_fn` makes an object also from `None` (otherwise it raises `AttributeError` then) -/
  makes : Bool
  diff : Option Nat → Option Nat → Bool

structure State (E T : Type) where
  prop : Option Nat
  attr : Nat → Option (Option E)
  /-- first unused object number -/
  next : Nat
  calls : List (Option T)
  attached : Bool
  closed : Bool

def State.direct (s : State E T) (t : Option T) : State E T := if s.attached then { s with calls := s.calls ++ [t] } else s

/-- The attribute of the object in the property, none if there is no object or no attribute. -/
def State.current (s : State E T) : Option (Option E) := s.prop.bind s.attr

/-- Binding.py:281-288. -/
def State.propertyChanged (c : Config E T) (s : State E T) : State E T :=
  if s.closed then s
  else
    match s.current with
    | some x => s.direct (c.convert x)
    | none => s.direct c.fallback

/-- `setattr(source, property_name, r)`. -/
def State.setProp (c : Config E T) (s : State E T) (r : Option Nat) : State E T :=
  if c.diff s.prop r then State.propertyChanged c { s with prop := r } else s

/-- Binding.py:292-298 through `update_source`; `setattr` on `None` raises `AttributeError`. -/
def State.updateSource (c : Config E T) (s : State E T) (t : Option T) : State E T × Option Exc :=
  if s.closed then (s, none)
  else
    match s.prop with
    | none =>
      if c.copies ∧ c.makes then
        (State.setProp c { s with attr := Function.update s.attr s.next (some (c.back t)), next := s.next + 1 } (some s.next), none)
      else (s, some .attributeError)
    | some r =>
      if c.copies then
        (State.setProp c { s with attr := Function.update s.attr s.next (some (c.back t)), next := s.next + 1 } (some s.next), none)
      else (State.setProp c { s with attr := Function.update s.attr r (some (c.back t)) } (some r), none)

/-- Binding.py:145-159 with 300-302. -/
def State.targetValue (c : Config E T) (s : State E T) : Option T :=
  if s.closed then c.fallback
  else
    match s.current.join with
    | some x => c.convert (some x)
    | none => c.fallback

/-- C86: after `update_source(t)` on an open binding whose property holds an object, the attribute is the back converted value,
`get_target_value` is its conversion (or the fallback for `None`), and the target was told — provided the source notifies
assignments of the object it gets. Other objects are as before. -/
theorem C86_update_partial (c : Config E T) (s : State E T) (r : Nat) (hr : s.prop = some r) (hcl : s.closed = false)
    (hatt : s.attached = true) (hfresh : ∀ r', s.prop = some r' → r' < s.next)
    (hdiff : c.diff (some r) (some (if c.copies then s.next else r)) = true) (t : Option T) :
    let s' := (s.updateSource c t).1
    s'.current = some (c.back t) ∧ s'.calls = s.calls ++ [c.convert (c.back t)] ∧
    s'.targetValue c = (match c.back t with
      | some x => c.convert (some x)
      | none => c.fallback) ∧
    ∀ r', r' ≠ r → r' ≠ s.next → s'.attr r' = s.attr r' := by
  have hlt := hfresh r hr
  cases hcp : c.copies with
  | true =>
    simp only [hcp, if_true] at hdiff
    simp only [State.updateSource, hcl, Bool.false_eq_true, if_false, hr, hcp, if_true, State.setProp, hdiff,
      State.propertyChanged, State.current, Option.bind_some, Function.update_self, State.direct, hatt, State.targetValue]
    refine ⟨trivial, trivial, ?_, fun r' h1 h2 => Function.update_of_ne h2 _ _⟩
    cases c.back t <;> rfl
  | false =>
    simp only [hcp, Bool.false_eq_true, if_false] at hdiff
    simp only [State.updateSource, hcl, Bool.false_eq_true, if_false, hr, hcp, State.setProp, hdiff, if_true,
      State.propertyChanged, State.current, Option.bind_some, Function.update_self, State.direct, hatt, State.targetValue]
    refine ⟨trivial, trivial, ?_, fun r' h1 h2 => Function.update_of_ne h1 _ _⟩
    cases c.back t <;> rfl

/-- The object `update_source` puts into the property, none if it raises. -/
def written (c : Config E T) (s : State E T) : Option Nat :=
  if c.copies ∧ (s.prop ≠ none ∨ c.makes) then some s.next else if c.copies then none else s.prop

/-- C86, exactly: `update_source(t)` on an open binding raises `AttributeError` and changes nothing if there is no object to
write to and none is made. Otherwise the target is told just if the source notifies the assignment of the object; then it is
told the conversion, and without `update_attribute_fn` the attribute is changed in any case. -/
theorem C86_exact_partial (c : Config E T) (s : State E T) (hcl : s.closed = false) (hatt : s.attached = true) (t : Option T) :
    (written c s = none → s.updateSource c t = (s, some .attributeError)) ∧
    ∀ r, written c s = some r → (s.updateSource c t).2 = none ∧ (s.updateSource c t).1.attr r = some (c.back t) ∧
      (c.diff s.prop (some r) = true → (s.updateSource c t).1.prop = some r ∧
        (s.updateSource c t).1.calls = s.calls ++ [c.convert (c.back t)]) ∧
      (c.diff s.prop (some r) = false → (s.updateSource c t).1.prop = s.prop ∧ (s.updateSource c t).1.calls = s.calls) ∧
      ∀ r', r' ≠ r → (s.updateSource c t).1.attr r' = s.attr r' := by
  obtain ⟨p, at', nx, cs, att, cl⟩ := s
  simp only at hcl hatt
  subst hcl hatt
  have key : ∀ (u : State E T) (r : Nat) (n : Nat), u = ⟨p, Function.update at' r (some (c.back t)), n, cs, true, false⟩ →
      (u.setProp c (some r)).attr r = some (c.back t) ∧
      (c.diff p (some r) = true → (u.setProp c (some r)).prop = some r ∧
        (u.setProp c (some r)).calls = cs ++ [c.convert (c.back t)]) ∧
      (c.diff p (some r) = false → (u.setProp c (some r)).prop = p ∧ (u.setProp c (some r)).calls = cs) ∧
      ∀ r', r' ≠ r → (u.setProp c (some r)).attr r' = at' r' := by
    rintro u r n rfl
    cases hd : c.diff p (some r) with
    | true =>
      simp only [State.setProp, hd, if_true, State.propertyChanged, Bool.false_eq_true, if_false, State.current,
        Option.bind_some, Function.update_self, State.direct, if_true]
      exact ⟨trivial, fun _ => ⟨trivial, trivial⟩, by simp, fun r' h => Function.update_of_ne h _ _⟩
    | false =>
      simp only [State.setProp, hd, Bool.false_eq_true, if_false, Function.update_self]
      exact ⟨trivial, by simp, fun _ => ⟨trivial, trivial⟩, fun r' h => Function.update_of_ne h _ _⟩
  cases hcp : c.copies with
  | true =>
    cases p with
    | none =>
      cases hm : c.makes with
      | true =>
        refine ⟨by simp [written, hcp, hm], fun r hr => ?_⟩
        simp only [written, hcp, hm, or_true, and_self, if_true, Option.some.injEq] at hr
        subst hr
        simp only [State.updateSource, Bool.false_eq_true, if_false, hcp, hm, and_self, if_true]
        exact ⟨trivial, key _ _ _ rfl⟩
      | false =>
        refine ⟨fun _ => by simp [State.updateSource, hcp, hm], fun r hr => ?_⟩
        simp [written, hcp, hm] at hr
    | some q =>
      refine ⟨by simp [written, hcp], fun r hr => ?_⟩
      simp only [written, hcp, ne_eq, reduceCtorEq, not_false_eq_true, true_or, and_self, if_true, Option.some.injEq] at hr
      subst hr
      simp only [State.updateSource, Bool.false_eq_true, if_false, hcp, if_true]
      exact ⟨trivial, key _ _ _ rfl⟩
  | false =>
    cases p with
    | none =>
      refine ⟨fun _ => by simp [State.updateSource, hcp], fun r hr => ?_⟩
      simp [written, hcp] at hr
    | some q =>
      refine ⟨by simp [written, hcp], fun r hr => ?_⟩
      simp only [written, hcp, Bool.false_eq_true, false_and, if_false, Option.some.injEq] at hr
      subst hr
      simp only [State.updateSource, Bool.false_eq_true, if_false, hcp]
      exact ⟨trivial, key _ _ nx rfl⟩

/-- C86: with an `update_attribute_fn` no object that was there is changed by any number of `update_source`, so that an object
taken from the property earlier keeps its attribute. -/
theorem C86_copies (c : Config E T) (hc : c.copies = true) (s : State E T) (ts : List (Option T)) (r : Nat) (hr : r < s.next) :
    (ts.foldl (fun (u : State E T) (t : Option T) => (u.updateSource c t).1) s).attr r = s.attr r := by
  suffices h : ∀ (ts : List (Option T)) (u : State E T), s.next ≤ u.next → u.attr r = s.attr r →
      (ts.foldl (fun (u : State E T) (t : Option T) => (u.updateSource c t).1) u).attr r = s.attr r from h ts s le_rfl rfl
  have key : ∀ (u : State E T) (p : Option Nat), (State.setProp c u p).attr = u.attr ∧ (State.setProp c u p).next = u.next := by
    intro u p
    simp only [State.setProp, State.propertyChanged, State.direct]
    repeat' split
    all_goals simp
  intro ts
  induction ts with
  | nil => exact fun u _ h => h
  | cons t ts ih =>
    intro u h1 h2
    refine ih _ ?_ ?_
    · simp only [State.updateSource]
      repeat' split
      all_goals simp only [key]
      all_goals first | exact h1 | exact h1.trans (Nat.le_succ _)
    · simp only [State.updateSource]
      repeat' split
      all_goals simp only [key]
      all_goals first | exact h2 | (rw [Function.update_of_ne (by omega)]; exact h2)

/-- C86: nor is one changed that such an `update_source` has put into the property meanwhile: each makes a new object. -/
theorem C86_copies_since (c : Config E T) (hc : c.copies = true) (s : State E T) (hs : ∀ r, s.prop = some r → r < s.next) (ts us : List (Option T))
    (r : Nat) (hr : (ts.foldl (fun (u : State E T) (t : Option T) => (u.updateSource c t).1) s).prop = some r) :
    ((ts ++ us).foldl (fun (u : State E T) (t : Option T) => (u.updateSource c t).1) s).attr r =
      (ts.foldl (fun (u : State E T) (t : Option T) => (u.updateSource c t).1) s).attr r := by
  rw [List.foldl_append]
  refine C86_copies c hc _ us r ?_
  have key : ∀ (u : State E T) (p : Option Nat), (∀ r, u.prop = some r → r < u.next) → (∀ r, p = some r → r < u.next) →
      ∀ r, (State.setProp c u p).prop = some r → r < (State.setProp c u p).next := by
    intro u p hu hp r
    simp only [State.setProp, State.propertyChanged, State.direct]
    repeat' split
    all_goals first | exact hu r | exact hp r
  have main : ∀ (ts : List (Option T)) (u : State E T), (∀ r, u.prop = some r → r < u.next) →
      ∀ r, (ts.foldl (fun (u : State E T) (t : Option T) => (u.updateSource c t).1) u).prop = some r →
        r < (ts.foldl (fun (u : State E T) (t : Option T) => (u.updateSource c t).1) u).next := by
    intro ts
    induction ts with
    | nil => exact fun u hu => hu
    | cons t ts ih =>
      intro u hu
      refine ih _ fun q => ?_
      have new : ∀ q, some u.next = some q → q < u.next + 1 := fun q hq => by cases hq; exact Nat.lt_succ_self _
      have old : ∀ q, u.prop = some q → q < u.next + 1 := fun q hq => (hu q hq).trans (Nat.lt_succ_self _)
      simp only [State.updateSource, hc, if_true, true_and]
      repeat' split
      all_goals first | exact hu q | exact key _ _ old new q
  exact main ts s hs r hr

/-- Two updates through copies; the first object still has 5. -/
example :
    let s := [some 7, some 8].foldl (fun (u : State Nat Nat) (t : Option Nat) => (u.updateSource ⟨id, id, none, true, false, fun a b => a != b⟩ t).1)
      ⟨some 0, fun _ => some (some 5), 1, [], true, false⟩
    s.current = some (some 8) ∧ s.attr 0 = some (some 5) := by decide

/-- A binding without converters and without `update_attribute_fn` to a `PropertyModel`, which compares the references. -/
def modelDemo : Config Nat Nat := ⟨id, id, none, false, false, fun a b => a != b⟩

/-- C86 is false of the code for such a binding: the attribute changes in place, the property model sees the same object, and
nobody is told; not the target and not any other listener of the property. -/
theorem C86_counterexample :
    let s := (State.updateSource modelDemo ⟨some 0, fun _ => some (some 5), 1, [], true, false⟩ (some 7)).1
    s.current = some (some 7) ∧ s.calls = [] := by decide

/-- With an observable that notifies every assignment the target is told. -/
example :
    let s := (State.updateSource ⟨id, id, none, false, false, fun _ _ => true⟩ ⟨some 0, fun _ => some (some 5), 1, [], true, false⟩
      (some 7)).1
    s.current = some (some 7) ∧ s.calls = [some 7] := by decide

/-- An update function that makes an object from `None`. -/
example :
    let s := (State.updateSource (E := Nat) (T := Nat) ⟨id, id, none, true, true, fun a b => a != b⟩
      ⟨none, fun _ => none, 3, [], true, false⟩ (some 7)).1
    s.prop = some 3 ∧ s.current = some (some 7) ∧ s.calls = [some 7] := by decide

end Verif.Binding.Attribute
