import Verif.ListModel.Basic
import Mathlib.Data.List.Basic
import Mathlib.Data.List.Perm.Basic
import Mathlib.Data.List.InsertIdx
import Mathlib.Tactic.Common

/-!
C158: a `MappedListModel` (`nion/utils/ListModel.py:643-790`) on a `ListModel` (lines 35-42) that several threads change.

A call of `insert_item` or `remove_item` has two steps: the list is changed (`list.insert`, or the subscript and `del`, taken as one step), then the observers are told. The mapped list handles a notification under its lock, so in one step. In between other threads may take
any number of steps. A schedule is a list of such steps; `pending` are the calls that have changed the list and not yet told of it.
-/

namespace Verif.ListModel.MappedThreads

open Verif.Py

variable {α β : Type}

/-- What a call tells. -/
inductive Note (α : Type) where
  | inserted (v : α) (i : ℤ)
  | removed (i : ℤ)
  deriving DecidableEq

structure St (α β : Type) where
  src : List α
  mapped : List β
  pending : List (Note α)

inductive Act (α : Type) where
  /-- the first step of `insert_item(i, v)` -/
  | insert (i : ℤ) (v : α)
  /-- the first step of `remove_item(i)` -/
  | remove (i : ℤ)
  /-- the second step of one of the calls under way -/
  | notify (j : ℕ)

/-- Lines 766-790; a removal of what is not there raises in the listener, which nobody sees. -/
def Note.apply (f : α → β) : Note α → List β → List β
  | .inserted v i, l => Py.insert l i (f v)
  | .removed i, l => (Py.del? l i).getD l

def step (f : α → β) (s : St α β) : Act α → St α β
  | .insert i v => ⟨Py.insert s.src i v, s.mapped, s.pending ++ [.inserted v i]⟩
  | .remove i =>
    match Py.del? s.src i with
    | some l => ⟨l, s.mapped, s.pending ++ [.removed i]⟩
    | none => s
  | .notify j =>
    match s.pending[j]? with
    | some n => ⟨s.src, n.apply f s.mapped, s.pending.eraseIdx j⟩
    | none => s

def run (f : α → β) (s : St α β) (as : List (Act α)) : St α β := as.foldl (step f) s

/-- The source has items, the mapped list their values, no call is under way. -/
def start (f : α → β) (l : List α) : St α β := ⟨l, l.map f, []⟩

/-! ### Specification -/

/-- The mapped list has the values of the items, in order. -/
def Mirrors (f : α → β) (s : St α β) : Prop := s.mapped = s.src.map f

/-- Calls tell in the order in which they changed the list, as they do if clients hold a lock during a call. -/
def InOrder : List (Act α) → Prop := fun as => ∀ a ∈ as, ∀ j, a = .notify j → j = 0

def OnlyInsertions : List (Act α) → Prop := fun as => ∀ a ∈ as, ∀ i, a ≠ .remove i

/-! ### Proofs -/

theorem map_insert (f : α → β) (l : List α) (i : ℤ) (v : α) : (Py.insert l i v).map f = Py.insert (l.map f) i (f v) := by
  simp only [Py.insert, List.map_insertIdx, List.length_map]

theorem map_del (f : α → β) (l : List α) (i : ℤ) : (Py.del? l i).map (List.map f) = Py.del? (l.map f) i := by
  simp only [Py.del?, List.length_map]
  rcases Py.index? l.length i with _ | k
  · rfl
  · simp [List.eraseIdx_map]

/-- The mapped list after all calls under way have told, in order. -/
def settle (f : α → β) (s : St α β) : List β := s.pending.foldl (fun l n => n.apply f l) s.mapped

theorem settle_step (f : α → β) (s : St α β) (a : Act α) (ha : ∀ j, a = .notify j → j = 0) (h : settle f s = s.src.map f) :
    settle f (step f s a) = (step f s a).src.map f := by
  rcases a with ⟨i, v⟩ | i | j
  · simp only [step, settle, List.foldl_append, List.foldl_cons, List.foldl_nil] at h ⊢
    rw [h, Note.apply, map_insert]
  · simp only [step]
    rcases hd : Py.del? s.src i with _ | l
    · exact h
    · simp only [settle, List.foldl_append, List.foldl_cons, List.foldl_nil] at h ⊢
      rw [h, Note.apply, ← map_del, hd]
      rfl
  · obtain rfl := ha j rfl
    simp only [step]
    rcases hp : s.pending with _ | ⟨n, ns⟩
    · simpa using h
    · simp only [List.getElem?_cons_zero, List.eraseIdx_cons_zero, settle] at h ⊢
      rw [hp] at h
      exact h

/-- C158 (partial: calls tell in the order in which they changed the list): whenever no call is under way, the mapped list is right. -/
theorem C158_in_order_partial (f : α → β) (l : List α) (as : List (Act α)) (ho : InOrder as) (hq : (run f (start f l) as).pending = []) :
    Mirrors f (run f (start f l) as) := by
  have key : ∀ s : St α β, settle f s = s.src.map f → InOrder as → settle f (run f s as) = (run f s as).src.map f := by
    clear ho hq
    induction as with
    | nil => exact fun s h _ => h
    | cons a as ih =>
      intro s h ho
      exact ih _ (settle_step f s a (fun j => ho a (by simp) j) h) fun b hb => ho b (by simp [hb])
  have := key (start f l) rfl ho
  rw [settle, hq] at this
  exact this

/-- The values of insertions. -/
def Note.values (f : α → β) : Note α → List β
  | .inserted v _ => [f v]
  | .removed _ => []

theorem insert_perm {γ : Type} (l : List γ) (i : ℤ) (x : γ) : (Py.insert l i x).Perm (x :: l) :=
  List.perm_insertIdx _ _ (Py.insertPos_le _ _)

theorem perm_step (f : α → β) (s : St α β) (a : Act α) (ha : ∀ i, a ≠ .remove i) (hp : ∀ n ∈ s.pending, ∃ v i, n = .inserted v i)
    (h : (s.mapped ++ s.pending.flatMap (Note.values f)).Perm (s.src.map f)) :
    ((step f s a).mapped ++ (step f s a).pending.flatMap (Note.values f)).Perm ((step f s a).src.map f) ∧
      ∀ n ∈ (step f s a).pending, ∃ v i, n = .inserted v i := by
  rcases a with ⟨i, v⟩ | i | j
  · constructor
    · simp only [step, List.flatMap_append, List.flatMap_cons, List.flatMap_nil, Note.values, List.append_nil]
      refine List.Perm.trans ?_ ((insert_perm s.src i v).map f).symm
      rw [List.map_cons, ← List.append_assoc]
      exact (List.perm_append_singleton _ _).trans (h.cons _)
    · intro n hn
      simp only [step, List.mem_append, List.mem_singleton] at hn
      rcases hn with hn | rfl
      · exact hp n hn
      · exact ⟨v, i, rfl⟩
  · exact absurd rfl (ha i)
  · simp only [step]
    rcases hj : s.pending[j]? with _ | n
    · exact ⟨h, hp⟩
    · obtain ⟨v, i, rfl⟩ := hp n (List.mem_of_getElem? hj)
      refine ⟨?_, fun m hm => hp m (List.mem_of_mem_eraseIdx hm)⟩
      simp only [Note.apply]
      refine List.Perm.trans ?_ h
      obtain ⟨hlt, he⟩ := List.getElem?_eq_some_iff.1 hj
      have h1 : s.pending.Perm (.inserted v i :: s.pending.eraseIdx j) := by
        rw [← he]
        exact (List.getElem_cons_eraseIdx_perm hlt).symm
      have h2 := h1.flatMap_right (Note.values f)
      refine List.Perm.trans ?_ (h2.symm.append_left s.mapped)
      simp only [List.flatMap_cons, Note.values, List.singleton_append]
      refine ((insert_perm s.mapped i (f v)).append_right _).trans ?_
      rw [List.cons_append]
      exact List.perm_middle.symm

/-- C158 (partial: no removals): in every schedule, whenever no call is under way, the mapped list has the values of all items, though the order
may be another. -/
theorem C158_insertions_partial (f : α → β) (l : List α) (as : List (Act α)) (ho : OnlyInsertions as)
    (hq : (run f (start f l) as).pending = []) : (run f (start f l) as).mapped.Perm ((run f (start f l) as).src.map f) := by
  have key : ∀ s : St α β, (s.mapped ++ s.pending.flatMap (Note.values f)).Perm (s.src.map f) →
      (∀ n ∈ s.pending, ∃ v i, n = .inserted v i) → OnlyInsertions as →
      ((run f s as).mapped ++ (run f s as).pending.flatMap (Note.values f)).Perm ((run f s as).src.map f) := by
    clear ho hq
    induction as with
    | nil => exact fun s h _ _ => h
    | cons a as ih =>
      intro s h hp ho
      obtain ⟨h1, h2⟩ := perm_step f s a (ho a (by simp)) hp h
      exact ih _ h1 h2 fun b hb => ho b (by simp [hb])
  have := key (start f l) (by simp [start]) (by simp [start]) ho
  rw [hq] at this
  simpa using this

/-- The step that begins a call. -/
inductive Call (α : Type) where
  | insert (i : ℤ) (v : α)
  | remove (i : ℤ)

def Call.act : Call α → Act α
  | .insert i v => .insert i v
  | .remove i => .remove i

def Call.note : Call α → Note α
  | .insert i v => .inserted v i
  | .remove i => .removed i

/-- What a call does to a list. -/
def Call.effect (l : List α) : Call α → Option (List α)
  | .insert i v => some (Py.insert l i v)
  | .remove i => Py.del? l i

/-- The call with the value of its item. -/
def Call.map (f : α → β) : Call α → Call β
  | .insert i v => .insert i (f v)
  | .remove i => .remove i

/-- The list after a call, which is as it was if the call raises. -/
def Call.after (l : List α) (c : Call α) : List α := (c.effect l).getD l

theorem apply_note (f : α → β) (c : Call α) (l : List β) : c.note.apply f l = (c.map f).after l := by
  rcases c with ⟨i, v⟩ | i <;> rfl

theorem step_act (f : α → β) (s : St α β) (c : Call α) (l : List α) (h : c.effect s.src = some l) :
    step f s c.act = ⟨l, s.mapped, s.pending ++ [c.note]⟩ ∧ c.note.apply f (s.src.map f) = l.map f := by
  rcases c with ⟨i, v⟩ | i
  · cases h
    exact ⟨rfl, (map_insert f s.src i v).symm⟩
  · simp only [Call.effect] at h
    simp only [Call.act, step, h, Call.note, Note.apply, ← map_del]
    exact ⟨trivial, rfl⟩

/-- C158, exactly, for two calls that overlap: if the second to change the list is the first to tell, the mapped list is right in the end if and
only if the calls give the same list in the other order (where one that raises does nothing). -/
theorem C158_overlap_iff_partial (f : α → β) (l l1 l2 : List α) (c d : Call α) (h1 : c.effect l = some l1) (h2 : d.effect l1 = some l2) :
    Mirrors f (run f (start f l) [c.act, d.act, .notify 1, .notify 0]) ↔ (c.map f).after ((d.map f).after (l.map f)) = l2.map f := by
  have e1 := step_act f (start f l) c l1 h1
  have e2 := step_act f ⟨l1, l.map f, [c.note]⟩ d l2 h2
  simp only [run, List.foldl_cons, List.foldl_nil]
  rw [e1.1]
  simp only [start, List.nil_append]
  rw [e2.1]
  simp only [step, List.cons_append, List.nil_append, List.getElem?_cons_succ, List.getElem?_cons_zero, List.eraseIdx_cons_succ,
    List.eraseIdx_cons_zero, Mirrors, apply_note]

/-- C158, negative: two threads insert at the front; the items have their values in the wrong order. -/
theorem C158_counterexample : let s := run (fun n : ℕ => n) (start (fun n => n) []) [.insert 0 1, .insert 0 2, .notify 1, .notify 0]
    s.src = [2, 1] ∧ s.mapped = [1, 2] ∧ s.pending = [] := by decide +kernel

/-- C158, negative: one thread inserts, another removes; the mapped list keeps the value of an item that is gone, and another has lost its
own. -/
theorem C158_counterexample_phantom : let s := run (fun n : ℕ => n) (start (fun n => n) [7]) [.insert 0 1, .remove 0, .notify 1, .notify 0]
    s.src = [7] ∧ s.mapped = [1] ∧ s.pending = [] := by decide +kernel

/-- Three calls that overlap and tell in order. -/
example : InOrder (α := ℕ) [.insert 0 1, .insert 1 2, .notify 0, .remove 0, .notify 0, .notify 0] ∧
    (run (· * 2) (start (· * 2) []) [.insert 0 1, .insert 1 2, .notify 0, .remove 0, .notify 0, .notify 0]).mapped = [4] := by
  refine ⟨?_, by decide +kernel⟩
  intro a ha j hj
  subst hj
  simpa using ha

end Verif.ListModel.MappedThreads
