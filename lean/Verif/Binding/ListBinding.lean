import Mathlib.Logic.Function.Basic
import Verif.ListModel.Basic

/-!
Model of `ListBinding` (`nion/utils/Binding.py`, lines 162-210), property C48.

The source is an observable object with a list under each key; every list behaves as a `ListModel` (`Verif.ListModel.Basic`).
The target applies `inserter` and `remover` calls to a copy with the Python list operations. Not modelled: inserters that
change the source.
-/

namespace Verif.Binding.ListBinding

open Verif.Py Verif.ListModel

variable {α : Type}

/-- A call of `inserter` or `remover`. -/
inductive Call (α : Type) where
  | inserter (item : α) (before : Int)
  | remover (index : Int)
  deriving DecidableEq, Repr

structure State (α : Type) where
  lists : String → LM α
  calls : List (Call α)
  closed : Bool

/-- Binding.py:188-195: the listeners get key and notification. -/
def handle (key : String) (k : String) : Notif α → List (Call α)
  | .inserted v i => if k = key then [.inserter v i] else []
  | .removed _ i => if k = key then [.remover i] else []

inductive Act (α : Type) where
  /-- A call on the list under the key. -/
  | op (key : String) (o : Op α)
  | close

/-- The notifications made by a call. -/
def newNotes (l : LM α) (o : Op α) : List (Notif α) := (ListModel.step l o).1.log.drop l.log.length

def State.step (key : String) (s : State α) : Act α → State α
  | .op k o =>
    { s with
      lists := Function.update s.lists k (ListModel.step (s.lists k) o).1
      calls := s.calls ++ if s.closed then [] else (newNotes (s.lists k) o).flatMap (handle key k) }
  | .close => { s with closed := true }

def State.run (key : String) (s : State α) (as : List (Act α)) : State α := as.foldl (State.step key) s

/-- The target: a copy of the list that follows the calls; a removal of a missing index raises and changes nothing. -/
def apply (l : List α) : Call α → List α
  | .inserter v i => Py.insert l i v
  | .remover i => (Py.del? l i).getD l

def copy (l : List α) (calls : List (Call α)) : List α := calls.foldl apply l

theorem copy_replays {a b : List α} {ns : List (Notif α)} (h : Replays a ns b) (key : String) :
    copy a (ns.flatMap (handle key key)) = b := by
  induction h with
  | nil l => rfl
  | ins _ ih => simpa [handle, copy, apply] using ih
  | rem _ hd _ ih => simpa [handle, copy, apply, hd] using ih

theorem other_key {key k : String} (h : k ≠ key) (ns : List (Notif α)) : ns.flatMap (handle key k) = [] := by
  induction ns with
  | nil => rfl
  | cons n ns ih => cases n <;> simpa [handle, h] using ih

theorem newNotes_replays (l : LM α) (o : Op α) : Replays l.items (newNotes l o) (ListModel.step l o).1.items := by
  obtain ⟨ns, h1, h2⟩ := step_replays l o
  have : newNotes l o = ns := by simp [newNotes, h1]
  rw [this]; exact h2

/-- C48, every history without `close`: a copy that follows the calls of `inserter` and `remover` is equal to the list. -/
theorem C48_mirror (key : String) (s : State α) (hcl : s.closed = false) (as : List (Act α)) (has : ∀ a ∈ as, ∃ k o, a = .op k o)
    (l : List α) (hl : copy l s.calls = (s.lists key).items) :
    copy l (s.run key as).calls = ((s.run key as).lists key).items := by
  induction as generalizing s with
  | nil => exact hl
  | cons a as ih =>
    obtain ⟨k, o, rfl⟩ := has a (by simp)
    refine ih (s.step key (.op k o)) hcl (fun a ha => has a (by simp [ha])) ?_
    simp only [State.step, hcl, Bool.false_eq_true, if_false]
    by_cases hk : k = key
    · subst hk
      rw [copy, List.foldl_append, ← copy, ← copy, hl, copy_replays (newNotes_replays _ _)]
      simp
    · rw [other_key hk, List.append_nil, hl, Function.update_of_ne (Ne.symm hk)]

/-- C48: after `close` nothing is called, whatever happens to the source. -/
theorem C48_closed (key : String) (s : State α) (hcl : s.closed = true) (as : List (Act α)) :
    (s.run key as).calls = s.calls := by
  induction as generalizing s with
  | nil => rfl
  | cons a as ih =>
    have hr : s.run key (a :: as) = (s.step key a).run key as := rfl
    rw [hr]
    cases a with
    | op k o => exact (ih (s.step key (.op k o)) hcl).trans (by simp [State.step, hcl])
    | close => exact ih { s with closed := true } rfl

/-- C48: changes of the lists under other keys call nothing. -/
theorem C48_other_keys (key : String) (s : State α) (as : List (Act α)) (has : ∀ k o, .op k o ∈ as → k ≠ key) :
    (s.run key as).calls = s.calls := by
  induction as generalizing s with
  | nil => rfl
  | cons a as ih =>
    have hr : s.run key (a :: as) = (s.step key a).run key as := rfl
    rw [hr, ih _ fun k o h => has k o (by simp [h])]
    cases a with
    | op k o => cases hcl : s.closed <;> simp [State.step, hcl, other_key (has k o (by simp))]
    | close => rfl

/-- Two lists; the copy of list "a" follows insertions (also with a negative index), removals and `clear_items`. -/
def demo : State Nat := State.run "a" ⟨fun _ => ⟨[1, 2, 3], []⟩, [], false⟩
  [.op "a" (.insert (-1) 7), .op "b" (.append 9), .op "a" (.remove 0), .op "a" (.remove 8), .op "a" (.append 4)]

example : demo.calls = [.inserter 7 (-1), .remover 0, .inserter 4 3] ∧ copy [1, 2, 3] demo.calls = [2, 7, 3, 4] := by decide

end Verif.Binding.ListBinding
