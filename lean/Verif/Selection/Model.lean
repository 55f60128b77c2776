import Verif.Py.Basic
import Mathlib.Data.Finset.Basic
import Mathlib.Data.Finset.Card
import Mathlib.Data.Finset.Image
import Mathlib.Data.List.Sort

/-!
Model of `nion/utils/Selection.py` (`IndexedSelection`), method by method.

Every method returns the new selection, the number of times `changed_event` was fired and the exception raised, if any.
In every method `fire` is the last statement, so listeners see the new state and nothing follows the fire.
Not modelled: the `assert isinstance(index, numbers.Integral)` type checks (indexes are integers here). Assigning
`selection_style` after construction is in `Restyle`, listeners that call the selection in `Reentrant`.
-/

namespace Verif.Selection

open Verif.Py

/-- Selection.py:18-22 `Style`. -/
inductive Style where
  | none | single | singleOrNone | multiple
  deriving DecidableEq, Repr

/-- Selection.py:26-31, the fields of `IndexedSelection`. -/
structure Sel where
  indexes : Finset ℤ
  anchor : Option ℤ
  style : Style
  deriving DecidableEq

/-- The order in which Python iterates over a `set` of integers is unspecified; it is a parameter of the model. -/
structure SetOrder where
  list : Finset ℤ → List ℤ
  nodup : ∀ s, (list s).Nodup
  mem : ∀ s x, x ∈ list s ↔ x ∈ s

/-- What a call does: the new state, the number of `changed_event` fires and the exception raised. -/
structure Out where
  sel : Sel
  fires : Nat
  err : Option Exc

/-- Selection.py:26-31 `__init__`. -/
def init (style : Style) : Sel := ⟨∅, .none, style⟩

/-- `if old_index != self.__indexes: self.__changed_event.fire()` (e.g. Selection.py:85-86). -/
def finish (old : Finset ℤ) (s : Sel) : Out :=
  ⟨s, if old ≠ s.indexes then 1 else 0, .none⟩

/-- Selection.py:77-86 `clear`. -/
def clear (s : Sel) : Out :=
  let old := s.indexes
  if s.style = .single then
    finish old { s with indexes := insert 0 s.indexes, anchor := some 0 }
  else
    finish old { s with indexes := ∅, anchor := .none }

/-- Selection.py:88-91 `__update_anchor_index`. -/
def updateAnchor (ord : SetOrder) (s : Sel) : Sel :=
  { s with
    anchor := (ord.list s.indexes).foldl
      (fun a i => match a with
        | .none => some i
        | some a => if i < a then some i else some a) s.anchor }

/-- Selection.py:138-148 `set`. -/
def set (s : Sel) (i : ℤ) : Out :=
  if s.style = .multiple ∨ s.style = .single ∨ s.style = .singleOrNone then
    finish s.indexes { s with indexes := {i}, anchor := some i }
  else clear s

/-- Selection.py:93-105 `add`. -/
def add (s : Sel) (i : ℤ) : Out :=
  if s.style = .single ∨ s.style = .singleOrNone then set s i
  else if s.style = .multiple then
    let old := s.indexes
    let s1 : Sel := { s with indexes := insert i s.indexes }
    let s2 : Sel := if old.card = 0 then { s1 with anchor := some i } else s1
    finish old s2
  else clear s

/-- Selection.py:107-119 `remove`. `set.remove` raises `KeyError` for an absent element. -/
def remove (ord : SetOrder) (s : Sel) (i : ℤ) : Out :=
  if s.style = .multiple ∨ s.style = .singleOrNone then
    if i ∈ s.indexes then
      let old := s.indexes
      let s1 : Sel := { s with indexes := s.indexes.erase i }
      let inSet : Bool := match s1.anchor with
        | .none => false
        | some a => decide (a ∈ s1.indexes)
      let s2 := if inSet then s1 else updateAnchor ord s1
      finish old s2
    else ⟨s, 0, some .keyError⟩
  else if s.style = .single then ⟨s, 0, .none⟩
  else clear s

/-- Selection.py:121-123 `add_range`; the range is the list of integers it yields. -/
def addRange (s : Sel) (r : List ℤ) : Out :=
  r.foldl (fun o i => let o' := add o.sel i; ⟨o'.sel, o.fires + o'.fires, o'.err⟩) ⟨s, 0, .none⟩

/-- Selection.py:125-136 `set_multiple`. -/
def setMultiple (ord : SetOrder) (s : Sel) (is : Finset ℤ) : Out :=
  if s.style = .multiple then
    finish s.indexes { s with indexes := is, anchor := (ord.list is).head? }
  else if (s.style = .single ∨ s.style = .singleOrNone) ∧ is.card = 1 then
    match ord.list is with
    | i :: _ => set s i
    | [] => ⟨s, 0, some .indexError⟩
  else clear s

/-- Selection.py:150-155 `toggle`. -/
def toggle (ord : SetOrder) (s : Sel) (i : ℤ) : Out :=
  if i ∈ s.indexes then remove ord s i else add s i

/-- `for new_index in range(lo, hi): self.__indexes.add(new_index)` (Selection.py:163-167). -/
def addAll (is : Finset ℤ) (r : List ℤ) : Finset ℤ := r.foldl (fun acc i => insert i acc) is

/-- Selection.py:157-176 `extend`. -/
def extend (s : Sel) (i : ℤ) : Out :=
  if s.style = .multiple then
    match s.anchor with
    | some a =>
      if i > a then finish s.indexes { s with indexes := addAll s.indexes (range a (i + 1)) }
      else if i < a then finish s.indexes { s with indexes := addAll s.indexes (range i (a + 1)) }
      else finish s.indexes s
    | .none => finish s.indexes { s with anchor := some i, indexes := insert i s.indexes }
  else if s.style = .single ∨ s.style = .singleOrNone then set s i
  else clear s

/-- Selection.py:178-189 `insert_index`. -/
def insertIndex (ord : SetOrder) (s : Sel) (k : ℤ) : Out :=
  let new := (ord.list s.indexes).foldl
    (fun (acc : Finset ℤ) i => if i < k then insert i acc else insert (i + 1) acc) ∅
  let anchor := match s.anchor with
    | .none => Option.none
    | some a => if k ≤ a then some (a + 1) else some a
  ⟨{ s with anchor := anchor, indexes := if s.indexes ≠ new then new else s.indexes }, 0, .none⟩

/-- Selection.py:191-205 `remove_index`. `__update_anchor_index` runs before `__indexes` is replaced. -/
def removeIndex (ord : SetOrder) (s : Sel) (k : ℤ) : Out :=
  let new := (ord.list s.indexes).foldl
    (fun (acc : Finset ℤ) i =>
      if i ≠ k then (if i > k then insert (i - 1) acc else insert i acc) else acc) ∅
  let s1 : Sel := match s.anchor with
    | .none => s
    | some a =>
      if k = a then updateAnchor ord s
      else if k < a then { s with anchor := some (a - 1) }
      else s
  ⟨{ s1 with indexes := if s1.indexes ≠ new then new else s1.indexes }, 0, .none⟩

/-- Selection.py:54-56 `anchor_index` setter. -/
def setAnchor (s : Sel) (a : Option ℤ) : Out := ⟨{ s with anchor := a }, 0, .none⟩

/-- Selection.py:43-48 `current_index`. -/
def currentIndex (ord : SetOrder) (s : Sel) : Option ℤ :=
  if s.indexes.card = 1 then (ord.list s.indexes).head? else .none

/-- Selection.py:58-60 `has_selection`. -/
def hasSelection (s : Sel) : Bool := decide (s.indexes.card > 0)

/-- Selection.py:62-63 `contains`. -/
def contains (s : Sel) (i : ℤ) : Bool := decide (i ∈ s.indexes)

/-- Selection.py:69-75 `ordered_indexes`. -/
def orderedIndexes (ord : SetOrder) (s : Sel) : List ℤ :=
  let l := (ord.list s.indexes).insertionSort (· ≤ ·)
  match s.anchor with
  | .none => l
  | some a => if s.indexes.card > 0 ∧ a ∈ s.indexes then a :: l.erase a else l

/-- Selection.py:33-34 `__eq__` between two selections. -/
def eq (s t : Sel) : Bool := decide (s.indexes = t.indexes ∧ s.anchor = t.anchor)

/-- Selection.py:36-37 `__ne__` between two selections. -/
def ne (s t : Sel) : Bool := decide (s.indexes ≠ t.indexes ∨ s.anchor ≠ t.anchor)

/-- The calls a client can make on a selection. -/
inductive Op where
  | clear | add (i : ℤ) | remove (i : ℤ) | addRange (r : List ℤ) | setMultiple (is : Finset ℤ) | set (i : ℤ)
  | toggle (i : ℤ) | extend (i : ℤ) | insertIndex (k : ℤ) | removeIndex (k : ℤ) | setAnchor (a : Option ℤ)

/-- One call (dispatch only). -/
def step (ord : SetOrder) (s : Sel) : Op → Out
  | .clear => Selection.clear s
  | .add i => Selection.add s i
  | .remove i => Selection.remove ord s i
  | .addRange r => Selection.addRange s r
  | .setMultiple is => Selection.setMultiple ord s is
  | .set i => Selection.set s i
  | .toggle i => Selection.toggle ord s i
  | .extend i => Selection.extend s i
  | .insertIndex k => Selection.insertIndex ord s k
  | .removeIndex k => Selection.removeIndex ord s k
  | .setAnchor a => Selection.setAnchor s a

/-- A history of calls, each with the iteration order Python happens to use during that call; a call that raises leaves
whatever state it left and the client goes on. -/
def run (s : Sel) (ops : List (SetOrder × Op)) : Sel := ops.foldl (fun s c => (step c.1 s c.2).sel) s

end Verif.Selection
