import Verif.Binding.Binding

/-!
Model of `TuplePropertyBinding` (`nion/utils/Binding.py`, lines 313-364) for every index, also a negative one; property C124
and the exact form of C85.

Subscripts follow Python: a negative index counts from the end, an index outside raises `IndexError`. An exception raised
while the source's property changed event fires is swallowed by the event (Event.py:113-114), one raised by `update_source`
or `get_target_value` reaches the caller. `Verif/Binding/Binding.lean` has the same class for natural indexes;
`C124_natural` says the two models are the same there. Not modelled: other properties of the source (see C46), target setters
that change the source, threads.
-/

namespace Verif.Binding.TupleIndex

open Verif.Py

variable {E T : Type}

abbrev Tup (E : Type) := Option (List (Option E))

structure Config (E T : Type) where
  convert : Option E → Except Exc (Option T)
  back : Option T → Except Exc (Option E)
  fallback : Option T
  index : Int
  diff : Tup E → Tup E → Bool

structure State (E T : Type) where
  prop : Tup E
  calls : List (Option T)
  attached : Bool
  closed : Bool

/-- `l[i]`, or `IndexError`. -/
def subscript (l : List (Option E)) (i : Int) : Except Exc (Option E) :=
  match get? l i with
  | some x => .ok x
  | none => .error .indexError

/-- Binding.py:341-344: the value for `update_target`, or none to show the fallback. -/
def present (i : Int) : Tup E → Except Exc (Option (Option E))
  | some l => if i < l.length then (subscript l i).map some else .ok none
  | none => .ok none

/-- Binding.py:356-358 `source_getter`. -/
def getter (i : Int) : Tup E → Except Exc (Option E)
  | some l => if i < l.length then subscript l i else .ok none
  | none => .ok none

/-- Binding.py:351-352: the loop adds `None` while the length is at most `i`. -/
def pad (i : Int) (l : List (Option E)) : List (Option E) := l ++ List.replicate (i + 1 - l.length).toNat none

/-- Binding.py:348-354 up to the assignment of the property. -/
def setter (i : Int) (v : Tup E) (x : Option E) : Except Exc (Tup E) :=
  let l := pad i (v.getD [])
  match index? l.length i with
  | some k => .ok (some (l.set k x))
  | none => .error .indexError

def State.direct (s : State E T) (t : Option T) : State E T := if s.attached then { s with calls := s.calls ++ [t] } else s

/-- Binding.py:337-344. -/
def State.propertyChanged (c : Config E T) (s : State E T) : State E T :=
  if s.closed then s
  else
    match present c.index s.prop with
    | .ok (some x) =>
      match c.convert x with
      | .ok t => s.direct t
      | .error _ => s
    | .ok none => s.direct c.fallback
    | .error _ => s

/-- `setattr(source, property_name, v)`. -/
def State.setProp (c : Config E T) (s : State E T) (v : Tup E) : State E T :=
  if c.diff s.prop v then State.propertyChanged c { s with prop := v } else s

/-- Binding.py:99-111; a tuple binding has no validator. -/
def State.updateSource (c : Config E T) (s : State E T) (t : Option T) : State E T × Option Exc :=
  if s.closed then (s, none)
  else
    match c.back t with
    | .error e => (s, some e)
    | .ok x =>
      match setter c.index s.prop x with
      | .error e => (s, some e)
      | .ok v => (s.setProp c v, none)

/-- Binding.py:145-159. -/
def State.targetValue (c : Config E T) (s : State E T) : Except Exc (Option T) :=
  if s.closed then .ok c.fallback
  else
    match getter c.index s.prop with
    | .ok (some x) => c.convert (some x)
    | .ok none => .ok c.fallback
    | .error e => .error e

/-! ### Specification -/

/-- The length of the tuple in the property; `None` counts as the empty tuple. -/
def len (v : Tup E) : Nat := (v.getD []).length

/-- Element `k` of the tuple in the property, none if there is no such element. -/
def at? (v : Tup E) (k : Nat) : Option (Option E) := (v.getD [])[k]?

/-- The position a binding to index `i` addresses: counted from the end if negative; none if that is before the start. -/
def slot (i : Int) (n : Nat) : Option Nat :=
  if 0 ≤ i then some i.toNat else if 0 ≤ n + i then some (n + i).toNat else none

/-! ### Proofs -/

theorem index?_slot (i : Int) (n : Nat) : index? n i = (slot i n).filter (· < n) := by
  unfold index? slot
  by_cases h1 : 0 ≤ i
  · rw [if_pos h1, Option.filter_some]
    by_cases h2 : i < n
    · rw [if_pos ⟨h1, h2⟩, if_pos (by simp; omega)]
    · rw [if_neg (by omega), if_neg (by omega), if_neg (by simp; omega)]
  · rw [if_neg h1, if_neg (by omega)]
    by_cases h2 : 0 ≤ n + i
    · rw [if_pos (by omega), if_pos h2, Option.filter_some, if_pos (by simp; omega), Int.add_comm]
    · rw [if_neg (by omega), if_neg h2]; rfl

theorem length_pad (i : Int) (l : List (Option E)) : (pad i l).length = max l.length (i + 1).toNat := by
  simp only [pad, List.length_append, List.length_replicate]; omega

/-- A negative index pads nothing. -/
theorem pad_neg {i : Int} (h : i < 0) (l : List (Option E)) : pad i l = l := by
  have : (i + 1 - l.length).toNat = 0 := by omega
  simp [pad, this]

theorem setter_eq (i : Int) (v : Tup E) (x : Option E) :
    setter i v x = match slot i (len v) with
      | some k => .ok (some ((pad i (v.getD [])).set k x))
      | none => .error .indexError := by
  have hl := length_pad i (v.getD [])
  have hlen : len v = (v.getD []).length := rfl
  unfold setter
  simp only [index?_slot, hlen]
  by_cases hi : 0 ≤ i
  · have h1 : ∀ n, slot i n = some i.toNat := fun n => if_pos hi
    simp only [h1]
    rw [Option.filter_some, if_pos (by simp; omega)]
  · have h1 : (pad i (v.getD [])).length = (v.getD []).length := by rw [pad_neg (by omega)]
    rw [h1]
    cases hs : slot i (v.getD []).length with
    | none => rfl
    | some k =>
      have : k < (v.getD []).length := by
        unfold slot at hs; rw [if_neg hi] at hs; split_ifs at hs; simp at hs; omega
      rw [Option.filter_some, if_pos (by simpa using this)]

theorem subscript_eq (l : List (Option E)) (i : Int) (h : i < l.length) :
    subscript l i = match slot i l.length with
      | some k => .ok ((l[k]?).join)
      | none => .error .indexError := by
  unfold subscript get?
  rw [index?_slot]
  cases hs : slot i l.length with
  | none => rfl
  | some k =>
    have hk : k < l.length := by
      unfold slot at hs; split_ifs at hs <;> simp at hs <;> omega
    rw [Option.filter_some, if_pos (by simpa using hk)]
    simp [List.getElem?_eq_getElem hk]

theorem getter_eq (i : Int) (v : Tup E) :
    getter i v = match v, slot i (len v) with
      | none, _ => .ok none
      | some l, some k => .ok ((l[k]?).join)
      | some _, none => .error .indexError := by
  cases v with
  | none => rfl
  | some l =>
    simp only [getter]
    by_cases h : i < l.length
    · rw [if_pos h, subscript_eq l i h]
      have : len (some l) = l.length := rfl
      rw [this]
      cases slot i l.length <;> rfl
    · rw [if_neg h]
      have : slot i (len (some l)) = some i.toNat := if_pos (by omega)
      simp only [this]
      rw [List.getElem?_eq_none (by omega)]; rfl

theorem present_eq (i : Int) (v : Tup E) :
    present i v = match v, slot i (len v) with
      | none, _ => .ok none
      | some l, some k => .ok l[k]?
      | some _, none => .error .indexError := by
  cases v with
  | none => rfl
  | some l =>
    simp only [present]
    by_cases h : i < l.length
    · rw [if_pos h, subscript_eq l i h]
      have : len (some l) = l.length := rfl
      rw [this]
      cases hs : slot i l.length with
      | none => rfl
      | some k =>
        have hk : k < l.length := by
          unfold slot at hs; split_ifs at hs <;> simp at hs <;> omega
        simp [Except.map, List.getElem?_eq_getElem hk]
    · rw [if_neg h]
      have : slot i (len (some l)) = some i.toNat := if_pos (by omega)
      simp only [this]
      rw [List.getElem?_eq_none (by omega)]

theorem propertyChanged_prop (c : Config E T) (s : State E T) :
    (State.propertyChanged c s).prop = s.prop ∧ (State.propertyChanged c s).closed = s.closed := by
  have hd : ∀ t, (s.direct t).prop = s.prop ∧ (s.direct t).closed = s.closed := by
    intro t; unfold State.direct; split <;> exact ⟨rfl, rfl⟩
  unfold State.propertyChanged
  split
  · exact ⟨rfl, rfl⟩
  · split
    · split
      · exact hd _
      · exact ⟨rfl, rfl⟩
    · exact hd _
    · exact ⟨rfl, rfl⟩

/-- C124: `update_source` on an open binding to index `i`, whatever its sign: if the tuple has a position `k` for it, element
`k` becomes the back converted value, all others are kept, and the tuple is no longer than it must be (a negative index never
makes it longer). Otherwise — a negative index beyond the start — it raises `IndexError` and changes nothing. -/
theorem C124_write (c : Config E T) (hdiff : ∀ a b, c.diff a b = false → a = b) (s : State E T) (hcl : s.closed = false)
    (t : Option T) (x : Option E) (hb : c.back t = .ok x) :
    (∀ k, slot c.index (len s.prop) = some k →
      (s.updateSource c t).2 = none ∧ at? (s.updateSource c t).1.prop k = some x ∧
      len (s.updateSource c t).1.prop = max (len s.prop) (k + 1) ∧
      ∀ j, j ≠ k → j < max (len s.prop) (k + 1) → at? (s.updateSource c t).1.prop j = some ((at? s.prop j).join)) ∧
    (slot c.index (len s.prop) = none → s.updateSource c t = (s, some .indexError)) := by
  constructor
  · intro k hk
    have hset : setter c.index s.prop x = .ok (some ((pad c.index (s.prop.getD [])).set k x)) := by
      rw [setter_eq, hk]
    have hprop : (s.updateSource c t).1.prop = some ((pad c.index (s.prop.getD [])).set k x) ∧
        (s.updateSource c t).2 = none := by
      simp only [State.updateSource, hcl, Bool.false_eq_true, if_false, hb, hset, State.setProp]
      split
      · exact ⟨(propertyChanged_prop c _).1, trivial⟩
      · rename_i hd
        exact ⟨hdiff _ _ (by simpa using hd), trivial⟩
    have hkl : (pad c.index (s.prop.getD [])).length = max (len s.prop) (k + 1) := by
      rw [length_pad]
      unfold slot at hk
      unfold len at hk ⊢
      split_ifs at hk <;> simp at hk <;> omega
    refine ⟨hprop.2, ?_, ?_, fun j hj hlt => ?_⟩
    · rw [hprop.1]; simp only [at?, Option.getD_some]; rw [List.getElem?_set_self (by omega)]
    · rw [hprop.1]; simp only [len, Option.getD_some, List.length_set] at hkl ⊢; exact hkl
    · rw [hprop.1]; simp only [at?, Option.getD_some]; rw [List.getElem?_set_ne (Ne.symm hj)]
      rw [← hkl] at hlt
      unfold pad at hlt ⊢
      rw [List.getElem?_append]
      split
      · rename_i h; rw [List.getElem?_eq_getElem h]; rfl
      · rename_i h
        rw [List.getElem?_eq_none (l := s.prop.getD []) (by omega), List.getElem?_replicate, if_pos]
        · rfl
        · simp only [List.length_append, List.length_replicate] at hlt; omega
  · intro h
    have hset : setter c.index s.prop x = .error .indexError := by rw [setter_eq, h]
    simp only [State.updateSource, hcl, Bool.false_eq_true, if_false, hb, hset]

/-- C124: `get_target_value` of an open binding: the conversion of the element at the position of the index, the fallback if
there is no tuple, or no such element, or it is `None`; but `IndexError` if a negative index is beyond the start. -/
theorem C124_read (c : Config E T) (s : State E T) (hcl : s.closed = false) :
    (s.prop = none → s.targetValue c = .ok c.fallback) ∧
    (∀ k, slot c.index (len s.prop) = some k → (at? s.prop k).join = none → s.targetValue c = .ok c.fallback) ∧
    (∀ k x, slot c.index (len s.prop) = some k → at? s.prop k = some (some x) → s.targetValue c = c.convert (some x)) ∧
    (s.prop ≠ none → slot c.index (len s.prop) = none → s.targetValue c = .error .indexError) := by
  have ht : s.targetValue c = match getter c.index s.prop with
      | .ok (some x) => c.convert (some x)
      | .ok none => .ok c.fallback
      | .error e => .error e := by
    simp [State.targetValue, hcl]
  rw [ht, getter_eq]
  cases hp : s.prop with
  | none =>
    refine ⟨fun _ => rfl, fun _ _ _ => rfl, fun k x _ h => ?_, fun h => absurd rfl h⟩
    simp [at?] at h
  | some l =>
    refine ⟨fun h => by simp at h, fun k hk h => ?_, fun k x hk h => ?_, fun _ h => ?_⟩
    · simp only [at?, Option.getD_some] at h
      simp only [hk, h]
    · simp only [at?, Option.getD_some] at h
      simp only [hk, h, Option.join_some]
    · simp only [h]

/-- What a target is told when the property changes. -/
def told (c : Config E T) (s : State E T) : List (Option T) :=
  (State.propertyChanged c { s with calls := [] }).calls

/-- C124 and C85, exactly: a change of the property tells an attached target what `get_target_value` then returns just if the
index has a position in the tuple and the element there, if `None`, converts to the fallback. Otherwise the target is told
nothing or something else. -/
theorem C124_told_iff_partial (c : Config E T) (s : State E T) (hcl : s.closed = false) (hatt : s.attached = true)
    (hconv : ∀ x, ∃ t, c.convert x = .ok t) :
    (∃ t, told c s = [t] ∧ s.targetValue c = .ok t) ↔
      (s.prop ≠ none → ∃ k, slot c.index (len s.prop) = some k ∧
        (at? s.prop k = some none → c.convert none = .ok c.fallback)) := by
  have ht : s.targetValue c = match getter c.index s.prop with
      | .ok (some x) => c.convert (some x)
      | .ok none => .ok c.fallback
      | .error e => .error e := by
    simp [State.targetValue, hcl]
  have htold : told c s = match present c.index s.prop with
      | .ok (some x) => okList (c.convert x)
      | .ok none => [c.fallback]
      | .error _ => [] := by
    simp only [told, State.propertyChanged, hcl, Bool.false_eq_true, if_false]
    cases present c.index s.prop with
    | error e => rfl
    | ok y =>
      cases y with
      | none => simp [State.direct, hatt]
      | some x => cases hx : c.convert x <;> simp [State.direct, hatt, okList, hx]
  rw [ht, htold, getter_eq, present_eq]
  cases hp : s.prop with
  | none => simp
  | some l =>
    simp only [ne_eq, reduceCtorEq, not_false_eq_true, true_implies]
    cases hs : slot c.index (len (some l)) with
    | none => simp
    | some k =>
      simp only [Option.some.injEq, exists_eq_left', at?, Option.getD_some]
      cases hx : l[k]? with
      | none => simp
      | some y =>
        cases y with
        | some x => obtain ⟨t, h⟩ := hconv (some x); simp [h, okList]
        | none =>
          obtain ⟨t, h⟩ := hconv none
          simp [h, okList, eq_comm]

/-- C124 is false of the code when the tuple is too short: a binding to element -2 with fallback 99 showed 2; the tuple
becomes (1,), and the target still shows 2 while `get_target_value` raises. A binding to element 2 shows the fallback. -/
theorem C124_counterexample :
    let c : Config Nat Nat := ⟨.ok, .ok, some 99, -2, fun a b => a != b⟩
    let s0 : State Nat Nat := ⟨none, [], true, false⟩
    let s := (s0.setProp c (some [some 1, some 2, some 3])).setProp c (some [some 1])
    s.calls = [some 2] ∧ (s.targetValue c matches .error .indexError) ∧
    (((s0.setProp { c with index := 2 } (some [some 1, some 2, some 3])).setProp { c with index := 2 } (some [some 1])).calls =
      [some 3, some 99]) := by decide

/-- For natural indexes this model and `tupleAccess` are the same. -/
theorem C124_natural (i : Nat) (v : Tup E) (x : Option E) :
    setter (i : Int) v x = .ok ((tupleAccess E i).setter v x) ∧ getter (i : Int) v = .ok ((tupleAccess E i).getter v) ∧
    present (i : Int) v = .ok ((tupleAccess E i).present v) := by
  have hs : ∀ n, slot (i : Int) n = some i := fun n => by simp [slot]
  refine ⟨?_, ?_, ?_⟩
  · rw [setter_eq, hs]
    simp only [tupleAccess, pad, padTo]
    have : ((i : Int) + 1 - ((v.getD []).length : Int)).toNat = i + 1 - (v.getD []).length := by omega
    rw [this]
  · rw [getter_eq, hs]
    cases v with
    | none => rfl
    | some l =>
      simp only [tupleAccess]
      by_cases h : i < l.length
      · rw [if_pos h]
      · rw [if_neg h, List.getElem?_eq_none (by omega)]; rfl
  · rw [present_eq, hs]
    cases v <;> rfl

/-- Writing element -1 of (1, 2, 3). -/
example :
    let c : Config Nat Nat := ⟨.ok, .ok, some 99, -1, fun a b => a != b⟩
    let s := (State.updateSource c ⟨some [some 1, some 2, some 3], [], true, false⟩ (some 7)).1
    s.prop = some [some 1, some 2, some 7] ∧ s.calls = [some 7] := by decide

end Verif.Binding.TupleIndex
