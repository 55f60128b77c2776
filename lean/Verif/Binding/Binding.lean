import Mathlib.Data.List.Induction
import Mathlib.Logic.Function.Basic
import Verif.Py.Basic

/-!
Model of `Binding`, `PropertyBinding`, `PropertyAttributeBinding` and `TuplePropertyBinding` (`nion/utils/Binding.py`),
properties C46, C47, C85.

Python values are `Option S`, `None` being `none`. Converter and validator are arbitrary functions that may raise; no
converter or validator is the function that returns its argument. `diff old new` says when the setter of the source object
stores and notifies (always, for a plain observable; when the values differ, for a `PropertyModel`). An exception raised
inside the property changed event is swallowed by `Event.fire` (Event.py:113-114). Not modelled: target setters that change
the source, negative tuple indexes (see `TupleIndex.lean`), threads.
-/

namespace Verif.Binding

open Verif.Py

variable {S E T : Type}

/-- How a kind of binding looks into the property. -/
structure Access (S E : Type) where
  /-- `property_changed`: the value handed to `update_target`, or none to show the fallback -/
  present : Option S → Option (Option E)
  /-- `source_getter` -/
  getter : Option S → Option E
  /-- `source_setter`: the value assigned to the property -/
  setter : Option S → Option E → Option S

/-- `PropertyBinding` (Binding.py:241-249). -/
def propertyAccess (S : Type) : Access S S where
  present v := v.map some
  getter v := v
  setter _ v := v

/-- Binding.py:351-352. -/
def padTo (i : Nat) (l : List (Option E)) : List (Option E) := l ++ List.replicate (i + 1 - l.length) none

/-- `TuplePropertyBinding` (Binding.py:337-358), index `i`. -/
def tupleAccess (E : Type) (i : Nat) : Access (List (Option E)) E where
  present v := match v with
    | some l => l[i]?
    | none => none
  getter v := match v with
    | some l => if i < l.length then (l[i]?).join else none
    | none => none
  setter v x := some ((padTo i (v.getD [])).set i x)

/-- A binding: converter, validator, fallback (Binding.py:42-51), property name and access. -/
structure Config (S E T : Type) where
  convert : Option E → Except Exc (Option T)
  back : Option T → Except Exc (Option E)
  validate : Option E → Except Exc (Option E)
  fallback : Option T
  name : String
  access : Access S E
  diff : Option S → Option S → Bool

/-- The properties of the source object, the calls of `target_setter`, whether one is set, whether the binding is closed. -/
structure BS (S T : Type) where
  props : String → Option S
  calls : List (Option T)
  attached : Bool
  closed : Bool

/-- Binding.py:129-142. -/
def BS.direct (s : BS S T) (t : Option T) : BS S T := if s.attached then { s with calls := s.calls ++ [t] } else s

/-- Binding.py:238-245, 281-288, 337-344 `property_changed`; the closed listener does nothing. -/
def BS.propertyChanged (c : Config S E T) (s : BS S T) (key : String) : BS S T :=
  if s.closed then s
  else if key = c.name then
    match c.access.present (s.props c.name) with
    | some x =>
      match c.convert x with
      | .ok t => s.direct t
      | .error _ => s
    | none => s.direct c.fallback
  else s

/-- The source object's property is set: `setattr(source, key, v)`. -/
def BS.setProp (c : Config S E T) (s : BS S T) (key : String) (v : Option S) : BS S T :=
  if c.diff (s.props key) v then BS.propertyChanged c { s with props := Function.update s.props key v } key else s

/-- Binding.py:99-111 `update_source`. -/
def BS.updateSource (c : Config S E T) (s : BS S T) (t : Option T) : BS S T × Option Exc :=
  if s.closed then (s, none)
  else
    match (c.back t).bind c.validate with
    | .ok x => (s.setProp c c.name (c.access.setter (s.props c.name) x), none)
    | .error e => (s, some e)

/-- Binding.py:145-159 `get_target_value`. -/
def BS.targetValue (c : Config S E T) (s : BS S T) : Except Exc (Option T) :=
  if s.closed then .ok c.fallback
  else
    match c.access.getter (s.props c.name) with
    | some x => c.convert (some x)
    | none => .ok c.fallback

inductive Act (S T : Type) where
  | set (key : String) (v : Option S)
  | update (t : Option T)
  /-- `target_setter` is assigned -/
  | attach (b : Bool)
  | close

/-- `close` also resets `target_setter` (Binding.py:54-64, 251-254). -/
def BS.step (c : Config S E T) (s : BS S T) : Act S T → BS S T
  | .set key v => s.setProp c key v
  | .update t => (s.updateSource c t).1
  | .attach b => { s with attached := b }
  | .close => { s with closed := true, attached := false }

def BS.run (c : Config S E T) (s : BS S T) (as : List (Act S T)) : BS S T := as.foldl (BS.step c) s

/-! ### Specification of a property binding -/

/-- What the target shows for a property value: the converted value, the fallback for `None`. -/
def shown (c : Config S S T) : Option S → Except Exc (Option T)
  | none => .ok c.fallback
  | some x => c.convert (some x)

def okList {α : Type} : Except Exc α → List α
  | .ok a => [a]
  | .error _ => []

/-- The calls of `target_setter` a history must give, starting with property value `p`: one for each assignment to the
property that the source notifies, directly or by `update_source`, while the binding is open and a setter is there. -/
def expected (c : Config S S T) (p : Option S) (attached : Bool) : List (Act S T) → List (Option T)
  | [] => []
  | .set key v :: as =>
    if key = c.name ∧ c.diff p v = true then (if attached then okList (shown c v) else []) ++ expected c v attached as
    else expected c p attached as
  | .update t :: as =>
    match (c.back t).bind c.validate with
    | .ok v =>
      if c.diff p v = true then (if attached then okList (shown c v) else []) ++ expected c v attached as
      else expected c p attached as
    | .error _ => expected c p attached as
  | .attach b :: as => expected c p b as
  | .close :: _ => []

theorem changed_property (c : Config S S T) (hacc : c.access = propertyAccess S) (s : BS S T) (hcl : s.closed = false) :
    BS.propertyChanged c s c.name = { s with calls := s.calls ++ if s.attached then okList (shown c (s.props c.name)) else [] } := by
  simp only [BS.propertyChanged, hcl, Bool.false_eq_true, if_false, if_true, hacc, propertyAccess]
  cases hp : s.props c.name with
  | none => cases ha : s.attached <;> simp [BS.direct, ha, shown, okList] <;> (cases s; simp_all)
  | some x =>
    simp only [Option.map_some, shown]
    cases hx : c.convert (some x) with
    | ok t => cases ha : s.attached <;> simp [BS.direct, ha, okList] <;> (cases s; simp_all)
    | error e => cases ha : s.attached <;> simp [okList] <;> (cases s; simp_all)

theorem setProp_property (c : Config S S T) (hacc : c.access = propertyAccess S) (s : BS S T) (hcl : s.closed = false)
    (v : Option S) (hd : c.diff (s.props c.name) v = true) :
    s.setProp c c.name v = { s with
      props := Function.update s.props c.name v
      calls := s.calls ++ if s.attached then okList (shown c v) else [] } := by
  have := changed_property c hacc { s with props := Function.update s.props c.name v } hcl
  simp only [Function.update_self] at this
  rw [BS.setProp, if_pos hd, this]

theorem setProp_closed (c : Config S E T) (s : BS S T) (hcl : s.closed = true) (key : String) (v : Option S) :
    (s.setProp c key v).calls = s.calls ∧ (s.setProp c key v).closed = true := by
  unfold BS.setProp
  split
  · simp [BS.propertyChanged, hcl]
  · exact ⟨rfl, hcl⟩

/-- C46, every history: exactly the calls of `target_setter` that the specification names. -/
theorem C46_calls (c : Config S S T) (hacc : c.access = propertyAccess S) (s : BS S T) (hcl : s.closed = false)
    (as : List (Act S T)) :
    (BS.run c s as).calls = s.calls ++ expected c (s.props c.name) s.attached as := by
  induction as generalizing s with
  | nil => simp [BS.run, expected]
  | cons a as ih =>
    have hr : BS.run c s (a :: as) = BS.run c (s.step c a) as := rfl
    rw [hr]
    have hset : ∀ v, c.diff (s.props c.name) v = true →
        (BS.run c (s.setProp c c.name v) as).calls =
          s.calls ++ ((if s.attached then okList (shown c v) else []) ++ expected c v s.attached as) := by
      intro v hd
      rw [setProp_property c hacc s hcl v hd]
      have := ih { s with
        props := Function.update s.props c.name v
        calls := s.calls ++ if s.attached then okList (shown c v) else [] } hcl
      simpa using this
    cases a with
    | set key v =>
      simp only [BS.step, expected]
      by_cases hk : key = c.name
      · subst hk
        by_cases hd : c.diff (s.props c.name) v = true
        · rw [if_pos ⟨rfl, hd⟩, hset v hd]
        · rw [if_neg (by simp [hd]), BS.setProp, if_neg hd]; exact ih s hcl
      · rw [if_neg (by simp [hk])]
        have : ∃ p', s.setProp c key v = { s with props := p' } ∧ p' c.name = s.props c.name := by
          unfold BS.setProp
          split
          · refine ⟨Function.update s.props key v, ?_, by simp [Function.update_of_ne (Ne.symm hk)]⟩
            simp [BS.propertyChanged, hcl, hk]
          · exact ⟨s.props, rfl, rfl⟩
        obtain ⟨p', h1, h2⟩ := this
        rw [h1]
        have := ih { s with props := p' } hcl
        simpa only [h2] using this
    | update t =>
      simp only [BS.step, expected, BS.updateSource, hcl, Bool.false_eq_true, if_false]
      cases hb : (c.back t).bind c.validate with
      | error e => exact ih s hcl
      | ok x =>
        simp only [hacc, propertyAccess]
        by_cases hd : c.diff (s.props c.name) x = true
        · rw [if_pos hd, hset x hd]
        · rw [if_neg hd, BS.setProp, if_neg hd]; exact ih s hcl
    | attach b => exact ih { s with attached := b } hcl
    | close =>
      simp only [BS.step, expected, List.append_nil]
      have : ∀ s' : BS S T, s'.closed = true → (BS.run c s' as).calls = s'.calls := by
        clear ih hr hset
        induction as with
        | nil => intro s' _; rfl
        | cons a as ih =>
          intro s' hc'
          have hr : BS.run c s' (a :: as) = BS.run c (s'.step c a) as := rfl
          rw [hr]
          cases a with
          | set key v =>
            have := setProp_closed c s' hc' key v
            exact (ih _ this.2).trans this.1
          | update t => simp only [BS.step, BS.updateSource, hc', if_true]; exact ih s' hc'
          | attach b => exact ih { s' with attached := b } hc'
          | close => exact ih { s' with closed := true, attached := false } rfl
      exact this _ rfl

/-- C46: `update_source` of an open binding to an observable that stores what it is given makes the property the validated,
back converted value, and leaves the other properties; if converter or validator raises, the exception comes out and nothing
changes. After `close` it does nothing. -/
theorem C46_update_source (c : Config S S T) (hacc : c.access = propertyAccess S) (s : BS S T) (t : Option T) :
    (s.closed = false → (∀ b v, c.back t = .ok b → c.validate b = .ok v → c.diff (s.props c.name) v = true →
      (s.updateSource c t).1.props = Function.update s.props c.name v ∧ (s.updateSource c t).2 = none) ∧
      (∀ e, (c.back t = .error e ∨ ∃ b, c.back t = .ok b ∧ c.validate b = .error e) → s.updateSource c t = (s, some e))) ∧
    (s.closed = true → s.updateSource c t = (s, none)) := by
  refine ⟨fun hcl => ⟨fun b v hb hv hd => ?_, fun e he => ?_⟩, fun hcl => by simp [BS.updateSource, hcl]⟩
  · have : (c.back t).bind c.validate = .ok v := by rw [hb]; exact hv
    simp only [BS.updateSource, hcl, Bool.false_eq_true, if_false, this, hacc, propertyAccess]
    rw [setProp_property c hacc s hcl v hd]
    exact ⟨rfl, trivial⟩
  · have : (c.back t).bind c.validate = .error e := by
      rcases he with he | ⟨b, hb, he⟩
      · rw [he]; rfl
      · rw [hb]; exact he
    simp [BS.updateSource, hcl, this]

/-- C46: `get_target_value` is what the target shows for the property; the fallback after `close`. -/
theorem C46_target_value (c : Config S S T) (hacc : c.access = propertyAccess S) (s : BS S T) :
    (s.closed = false → s.targetValue c = shown c (s.props c.name)) ∧ (s.closed = true → s.targetValue c = .ok c.fallback) := by
  constructor
  · intro h
    simp only [BS.targetValue, h, Bool.false_eq_true, if_false, hacc, propertyAccess]
    cases s.props c.name <;> rfl
  · intro h; simp [BS.targetValue, h]

/-- A target: it holds what it was given last. -/
def target (init : Option T) (calls : List (Option T)) : Option T := calls.getLastD init

/-- C46, every history without `close` and with the target attached, converters that do not raise: a target initialised with
`get_target_value` shows it ever after. -/
theorem C46_in_sync (c : Config S S T) (hacc : c.access = propertyAccess S) (hconv : ∀ x, ∃ t, c.convert x = .ok t)
    (s : BS S T) (hcl : s.closed = false) (hatt : s.attached = true) (hcalls : s.calls = []) (init : Option T)
    (hinit : s.targetValue c = .ok init) (as : List (Act S T)) (has : ∀ a ∈ as, (∃ k v, a = .set k v) ∨ ∃ t, a = .update t) :
    (BS.run c s as).targetValue c = .ok (target init (BS.run c s as).calls) := by
  have key : (BS.run c s as).closed = false ∧ (BS.run c s as).attached = true ∧
      shown c ((BS.run c s as).props c.name) = .ok (target init (BS.run c s as).calls) := by
    induction as using List.reverseRecOn with
    | nil =>
      refine ⟨hcl, hatt, ?_⟩
      rw [← (C46_target_value c hacc (BS.run c s [])).1 hcl]
      have : (BS.run c s []) = s := rfl
      rw [this, hinit, hcalls]; rfl
    | append_singleton as a ih =>
      obtain ⟨h1, h2, h3⟩ := ih fun x hx => has x (by simp [hx])
      have hr : BS.run c s (as ++ [a]) = (BS.run c s as).step c a := by simp [BS.run]
      rw [hr]
      generalize BS.run c s as = u at h1 h2 h3
      have hset : ∀ key v, (u.setProp c key v).closed = false ∧ (u.setProp c key v).attached = true ∧
          shown c ((u.setProp c key v).props c.name) = .ok (target init (u.setProp c key v).calls) := by
        intro key v
        by_cases hd : c.diff (u.props key) v = true
        · by_cases hk : key = c.name
          · subst hk
            rw [setProp_property c hacc u h1 v hd]
            refine ⟨h1, h2, ?_⟩
            have : ∃ t, shown c v = .ok t := by
              cases v with
              | none => exact ⟨_, rfl⟩
              | some x => exact hconv _
            obtain ⟨t, ht⟩ := this
            simp [h2, ht, okList, target]
          · have : u.setProp c key v = { u with props := Function.update u.props key v } := by
              simp [BS.setProp, hd, BS.propertyChanged, h1, hk]
            rw [this]
            refine ⟨h1, h2, ?_⟩
            simp only [Function.update_of_ne (Ne.symm hk)]; exact h3
        · rw [BS.setProp, if_neg hd]; exact ⟨h1, h2, h3⟩
      rcases has a (by simp) with ⟨k, v, rfl⟩ | ⟨t, rfl⟩
      · exact hset k v
      · simp only [BS.step, BS.updateSource, h1, Bool.false_eq_true, if_false]
        split
        · exact hset _ _
        · exact ⟨h1, h2, h3⟩
  rw [(C46_target_value c hacc _).1 key.1, key.2.2]

/-- A binding that shows a number as its double and reads back the half, never more than 5; source `x` is 1. -/
def demoConfig : Config Nat Nat Nat where
  convert x := .ok (x.map (2 * ·))
  back t := match t with | some t => if t % 2 = 0 then .ok (some (t / 2)) else .error .valueError | none => .ok none
  validate x := .ok (x.map (min · 5))
  fallback := some 99
  name := "x"
  access := propertyAccess Nat
  diff a b := a != b

example :
    (BS.run demoConfig ⟨fun _ => some 1, [], true, false⟩ [.set "x" (some 3), .set "y" (some 4), .update (some 7),
      .update (some 40), .set "x" none, .close, .set "x" (some 2), .update (some 2)]).calls = [some 6, some 10, some 99] := by
  decide

example : (BS.run demoConfig ⟨fun _ => some 1, [], true, false⟩ [.update (some 40)]).props "x" = some 5 := by decide

/-! ### Tuple bindings -/

/-- The element of a tuple or `None` (also for a missing tuple or element). -/
def elem (v : Option (List (Option E))) (j : Nat) : Option E := match v with
  | some l => l.getD j none
  | none => none

theorem getD_padTo (i j : Nat) (l : List (Option E)) : (padTo i l).getD j none = l.getD j none := by
  unfold padTo
  simp only [List.getD_eq_getElem?_getD, List.getElem?_append]
  split
  · rfl
  · rw [List.getElem?_eq_none (by omega : l.length ≤ j)]
    rw [List.getElem?_replicate]
    split <;> rfl

theorem length_padTo (i : Nat) (l : List (Option E)) : (padTo i l).length = max l.length (i + 1) := by
  simp [padTo]; omega

/-- C47: after the setter element `i` is the new value, all others are as before, the tuple is padded just enough. -/
theorem C47_set_get (i : Nat) (v : Option (List (Option E))) (x : Option E) :
    (tupleAccess E i).getter ((tupleAccess E i).setter v x) = x ∧
    (∀ j, j ≠ i → elem ((tupleAccess E i).setter v x) j = elem v j) ∧
    (∃ l, (tupleAccess E i).setter v x = some l ∧ l.length = max (v.getD []).length (i + 1)) := by
  have hlen := length_padTo i (v.getD [])
  refine ⟨?_, fun j hj => ?_, _, rfl, by simp [hlen]⟩
  · simp only [tupleAccess, List.length_set]
    rw [if_pos (by omega), List.getElem?_set_self (by omega)]; rfl
  · simp only [tupleAccess, elem, List.getD_eq_getElem?_getD]
    rw [List.getElem?_set_ne (Ne.symm hj)]
    rw [← List.getD_eq_getElem?_getD, getD_padTo]
    cases v with
    | none => simp
    | some l => simp [List.getD_eq_getElem?_getD]

theorem ext_elem {l m : List (Option E)} (hl : l.length = m.length) (h : ∀ j, l.getD j none = m.getD j none) : l = m := by
  apply List.ext_getElem hl
  intro j h1 h2
  have := h j
  simpa [List.getD_eq_getElem?_getD, h1, h2] using this

theorem setter_elem (i j : Nat) (v : Option (List (Option E))) (x : Option E) :
    elem ((tupleAccess E i).setter v x) j = if j = i then x else elem v j := by
  obtain ⟨h1, h2, l, h3, h4⟩ := C47_set_get i v x
  by_cases h : j = i
  · subst h
    rw [if_pos rfl]
    rw [h3] at h1 ⊢
    simp only [tupleAccess] at h1
    rw [if_pos (by omega)] at h1
    rw [← h1]
    simp only [elem, List.getD_eq_getElem?_getD]
    cases l[j]? <;> rfl
  · rw [if_neg h, h2 j h]

/-- C47: a later write to the same element overrides, writes to different elements commute (in range or not). -/
theorem C47_set_set (i j : Nat) (v : Option (List (Option E))) (x y : Option E) :
    (tupleAccess E i).setter ((tupleAccess E i).setter v x) y = (tupleAccess E i).setter v y ∧
    (i ≠ j → (tupleAccess E i).setter ((tupleAccess E j).setter v y) x =
      (tupleAccess E j).setter ((tupleAccess E i).setter v x) y) := by
  have hext : ∀ a b : Option (List (Option E)), (∃ l m, a = some l ∧ b = some m ∧ l.length = m.length) →
      (∀ k, elem a k = elem b k) → a = b := by
    rintro a b ⟨l, m, rfl, rfl, hl⟩ h
    rw [ext_elem hl h]
  constructor
  · obtain ⟨_, _, l, h3, h4⟩ := C47_set_get i v x
    obtain ⟨_, _, l', h3', h4'⟩ := C47_set_get i v y
    obtain ⟨_, _, l'', h3'', h4''⟩ := C47_set_get i ((tupleAccess E i).setter v x) y
    rw [h3] at h4''
    refine hext _ _ ⟨l'', l', h3'', h3', ?_⟩ fun k => ?_
    · simp only [Option.getD_some] at h4''; omega
    · simp only [setter_elem]; split <;> rfl
  · intro hij
    obtain ⟨_, _, l, h3, h4⟩ := C47_set_get i v x
    obtain ⟨_, _, l', h3', h4'⟩ := C47_set_get j v y
    obtain ⟨_, _, m, h5, h6⟩ := C47_set_get i ((tupleAccess E j).setter v y) x
    obtain ⟨_, _, m', h5', h6'⟩ := C47_set_get j ((tupleAccess E i).setter v x) y
    rw [h3'] at h6; rw [h3] at h6'
    simp only [Option.getD_some] at h6 h6'
    refine hext _ _ ⟨m, m', h5, h5', by omega⟩ fun k => ?_
    simp only [setter_elem]
    split_ifs <;> first | rfl | omega

/-- C47, the whole binding: after `update_source(t)` on an open tuple binding the element is the back converted value and
`get_target_value` is its conversion (the fallback if it is `None`). -/
theorem C47_update_source (c : Config (List (Option E)) E T) (i : Nat) (hacc : c.access = tupleAccess E i)
    (hdiff : ∀ a b, c.diff a b = false → a = b) (s : BS (List (Option E)) T) (hcl : s.closed = false) (t : Option T)
    (x : Option E) (hb : (c.back t).bind c.validate = .ok x) :
    let s' := (s.updateSource c t).1
    s'.props = Function.update s.props c.name ((tupleAccess E i).setter (s.props c.name) x) ∧
    s'.targetValue c = match x with
      | some x => c.convert (some x)
      | none => .ok c.fallback := by
  intro s'
  have hs' : s' = s.setProp c c.name ((tupleAccess E i).setter (s.props c.name) x) := by
    show (s.updateSource c t).1 = _
    simp only [BS.updateSource, hcl, Bool.false_eq_true, if_false, hb, hacc]
  have hch : ∀ u : BS (List (Option E)) T, (BS.propertyChanged c u c.name).props = u.props ∧
      (BS.propertyChanged c u c.name).closed = u.closed := by
    intro u
    have hd : ∀ t, (u.direct t).props = u.props ∧ (u.direct t).closed = u.closed := by
      intro t; unfold BS.direct; split <;> exact ⟨rfl, rfl⟩
    unfold BS.propertyChanged
    split
    · exact ⟨rfl, rfl⟩
    · rw [if_pos rfl]
      split
      · split
        · exact hd _
        · exact ⟨rfl, rfl⟩
      · exact hd _
  have hp : s'.props = Function.update s.props c.name ((tupleAccess E i).setter (s.props c.name) x) ∧ s'.closed = false := by
    rw [hs', BS.setProp]
    split
    · exact ⟨(hch _).1, by rw [(hch _).2]; exact hcl⟩
    · rename_i hd
      have := hdiff _ _ (by simpa using hd)
      exact ⟨by rw [← this]; simp, hcl⟩
  refine ⟨hp.1, ?_⟩
  simp only [BS.targetValue, hp.2, Bool.false_eq_true, if_false, hp.1, Function.update_self, hacc, (C47_set_get i _ x).1]
  cases x <;> rfl

/-- Element 3 of the tuple (1, 2). -/
example : (tupleAccess Nat 3).setter (some [some 1, some 2]) (some 9) = some [some 1, some 2, none, some 9] := by decide

/-! ### C85: what is shown on a change and what `get_target_value` returns -/

/-- C85 holds for property bindings: what the target gets when the property changes is what `get_target_value` returns. -/
theorem C85_property (c : Config S S T) (hacc : c.access = propertyAccess S) (s : BS S T) (hcl : s.closed = false)
    (hatt : s.attached = true) :
    (BS.propertyChanged c s c.name).calls = s.calls ++ okList (s.targetValue c) := by
  rw [changed_property c hacc s hcl, (C46_target_value c hacc s).1 hcl, hatt]; rfl

/-- C85 for tuple bindings, when the element is missing or not `None`. -/
theorem C85_tuple_partial (c : Config (List (Option E)) E T) (i : Nat) (hacc : c.access = tupleAccess E i)
    (s : BS (List (Option E)) T) (hcl : s.closed = false) (hatt : s.attached = true)
    (hne : ∀ l, s.props c.name = some l → l[i]? ≠ some none) :
    (BS.propertyChanged c s c.name).calls = s.calls ++ okList (s.targetValue c) := by
  simp only [BS.propertyChanged, hcl, Bool.false_eq_true, if_false, if_true, hacc, BS.targetValue, tupleAccess]
  cases hp : s.props c.name with
  | none => simp [BS.direct, hatt, okList]
  | some l =>
    by_cases hi : i < l.length
    · simp only [hi, if_true, List.getElem?_eq_getElem]
      have := hne l hp
      rw [List.getElem?_eq_getElem hi] at this
      cases hx : l[i] with
      | none => simp [hx] at this
      | some x =>
        simp only [Option.join_some]
        cases c.convert (some x) <;> simp [BS.direct, hatt, okList]
    · simp [hi, BS.direct, hatt, okList]

/-- A binding of element 0 without converter, fallback 99. -/
def tupleDemo : Config (List (Option Nat)) Nat Nat where
  convert x := .ok x
  back t := .ok t
  validate x := .ok x
  fallback := some 99
  name := "t"
  access := tupleAccess Nat 0
  diff a b := a != b

/-- C85 is false of the code for tuple bindings: an element that is `None` (such as one made by padding) is handed to the
target as `None`, while `get_target_value` returns the fallback. -/
theorem C85_counterexample :
    let s := BS.run tupleDemo ⟨fun _ => some [some 1], [], true, false⟩ [.set "t" (some [none, some 2])]
    s.calls = [none] ∧ okList (s.targetValue tupleDemo) = [some 99] := by decide

end Verif.Binding
