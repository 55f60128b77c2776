import Verif.Py.Basic

/-!
Model of `ListModel` (`nion/utils/ListModel.py:21-54`) and the notion of replaying list notifications.

Not modelled: listeners that change the list from inside a notification, the `key` under which the list is known
(a constant of the object), `close`, attribute lookup.
-/

namespace Verif.ListModel

open Verif.Py

/-- `Observable.notify_insert_item` / `notify_remove_item` (Observable.py:38-42): what observers are told. -/
inductive Notif (α : Type*) where
  | inserted (v : α) (before : Int)
  | removed (v : α) (index : Int)
  deriving DecidableEq, Repr

/-- Specification: an observer holding a copy of the list applies each notification with the same Python list operation;
a removal must name the item that is at the index. `Replays l ns l'`: starting from `l`, the notifications `ns` give
`l'`. -/
inductive Replays {α : Type*} : List α → List (Notif α) → List α → Prop where
  | nil (l) : Replays l [] l
  | ins {l v i ns l'} : Replays (Py.insert l i v) ns l' → Replays l (.inserted v i :: ns) l'
  | rem {l v i l1 ns l'} : Py.get? l i = some v → Py.del? l i = some l1 → Replays l1 ns l' →
      Replays l (.removed v i :: ns) l'

/-- The same, but the item named by a removal is ignored (only its index counts). -/
inductive ReplaysIdx {α : Type*} : List α → List (Notif α) → List α → Prop where
  | nil (l) : ReplaysIdx l [] l
  | ins {l v i ns l'} : ReplaysIdx (Py.insert l i v) ns l' → ReplaysIdx l (.inserted v i :: ns) l'
  | rem {l v i l1 ns l'} : Py.del? l i = some l1 → ReplaysIdx l1 ns l' → ReplaysIdx l (.removed v i :: ns) l'

theorem Replays.append {α : Type*} {a b c : List α} {ms ns : List (Notif α)} (h1 : Replays a ms b)
    (h2 : Replays b ns c) : Replays a (ms ++ ns) c := by
  induction h1 with
  | nil => exact h2
  | ins _ ih => exact .ins (ih h2)
  | rem hg hd _ ih => exact .rem hg hd (ih h2)

theorem ReplaysIdx.append {α : Type*} {a b c : List α} {ms ns : List (Notif α)} (h1 : ReplaysIdx a ms b)
    (h2 : ReplaysIdx b ns c) : ReplaysIdx a (ms ++ ns) c := by
  induction h1 with
  | nil => exact h2
  | ins _ ih => exact .ins (ih h2)
  | rem hd _ ih => exact .rem hd (ih h2)

theorem Replays.idx {α : Type*} {a b : List α} {ns : List (Notif α)} (h : Replays a ns b) : ReplaysIdx a ns b := by
  induction h with
  | nil l => exact .nil l
  | ins _ ih => exact .ins ih
  | rem _ hd _ ih => exact .rem hd ih

/-- Replaying is deterministic: the notifications determine the final list. -/
theorem ReplaysIdx.det {α : Type*} {a b c : List α} {ns : List (Notif α)} (h1 : ReplaysIdx a ns b)
    (h2 : ReplaysIdx a ns c) : b = c := by
  induction h1 with
  | nil => cases h2; rfl
  | ins _ ih => cases h2 with | ins h => exact ih h
  | rem hd _ ih =>
    cases h2 with
    | rem hd' h => rw [hd] at hd'; cases hd'; exact ih h

/-- The items of a `ListModel` and everything it has notified. -/
structure LM (α : Type*) where
  items : List α
  log : List (Notif α)

/-- The calls on a `ListModel`. -/
inductive Op (α : Type*) where
  | insert (i : Int) (v : α)
  | remove (i : Int)
  | append (v : α)
  | clear

/-- ListModel.py:35-37 `insert_item`. -/
def insertItem {α} (s : LM α) (i : Int) (v : α) : LM α :=
  { items := Py.insert s.items i v, log := s.log ++ [.inserted v i] }

/-- ListModel.py:39-42 `remove_item`; `items[index]` raises `IndexError` before anything changes. -/
def removeItem {α} (s : LM α) (i : Int) : LM α × Option Exc :=
  match Py.get? s.items i, Py.del? s.items i with
  | some v, some l => ({ items := l, log := s.log ++ [.removed v i] }, none)
  | _, _ => (s, some .indexError)

/-- ListModel.py:44-45 `append_item`. -/
def appendItem {α} (s : LM α) (v : α) : LM α := insertItem s s.items.length v

/-- ListModel.py:31-33 `clear_items`: the `while` loop, `n` bounding the number of iterations. -/
def clearLoop {α} : Nat → LM α → LM α
  | 0, s => s
  | n + 1, s => if s.items = [] then s else clearLoop n (removeItem s (s.items.length - 1 : Int)).1

/-- ListModel.py:31-33 `clear_items`. -/
def clearItems {α} (s : LM α) : LM α := clearLoop s.items.length s

def step {α} (s : LM α) : Op α → LM α × Option Exc
  | .insert i v => (insertItem s i v, none)
  | .remove i => removeItem s i
  | .append v => (appendItem s v, none)
  | .clear => (clearItems s, none)

/-- A history of calls. -/
def run {α} (s : LM α) (ops : List (Op α)) : LM α := ops.foldl (fun s op => (step s op).1) s

/-- What `remove_item` does. -/
theorem removeItem_cases {α} (s : LM α) (i : Int) :
    (∃ v l, Py.get? s.items i = some v ∧ Py.del? s.items i = some l ∧
      removeItem s i = ({ items := l, log := s.log ++ [.removed v i] }, none)) ∨
    (Py.index? s.items.length i = none ∧ removeItem s i = (s, some .indexError)) := by
  unfold removeItem
  cases hi : Py.index? s.items.length i with
  | none => right; simp [Py.get?, Py.del?, hi]
  | some k =>
    left
    have hk := Py.index?_lt hi
    exact ⟨s.items[k], s.items.eraseIdx k, by simp [Py.get?, hi, hk], by simp [Py.del?, hi],
      by simp [Py.get?, Py.del?, hi, hk]⟩

theorem removeItem_last {α} (s : LM α) (h : s.items ≠ []) :
    (removeItem s (s.items.length - 1 : Int)).1 =
      { items := s.items.dropLast, log := s.log ++ [.removed (s.items.getLast h) (s.items.length - 1 : Int)] } := by
  have hl : 0 < s.items.length := List.length_pos_iff.2 h
  have e : (s.items.length - 1 : Int) = ((s.items.length - 1 : Nat) : Int) := by omega
  unfold removeItem
  rw [e, Py.get?_nat (by omega), Py.del?_nat (by omega)]
  simp [List.getLast_eq_getElem, List.eraseIdx_eq_dropLast (Nat.sub_add_cancel hl)]

theorem clearLoop_spec {α} (n : Nat) (s : LM α) (h : s.items.length ≤ n) :
    (clearLoop n s).items = [] ∧ ∃ ns, (clearLoop n s).log = s.log ++ ns ∧ Replays s.items ns [] ∧
      ns.length = s.items.length := by
  induction n generalizing s with
  | zero =>
    have h0 : s.items = [] := List.length_eq_zero_iff.1 (by omega)
    exact ⟨h0, [], by simp [clearLoop], by rw [h0]; exact .nil [], by simp [h0]⟩
  | succ n ih =>
    unfold clearLoop
    by_cases h0 : s.items = []
    · rw [if_pos h0]
      exact ⟨h0, [], by simp, by rw [h0]; exact .nil [], by simp [h0]⟩
    · rw [if_neg h0, removeItem_last s h0]
      have hl : 0 < s.items.length := List.length_pos_iff.2 h0
      obtain ⟨h1, ns, h2, h3, h4⟩ := ih ⟨s.items.dropLast,
          s.log ++ [.removed (s.items.getLast h0) (s.items.length - 1 : Int)]⟩ (by simp; omega)
      refine ⟨h1, .removed (s.items.getLast h0) (s.items.length - 1 : Int) :: ns, by simp [h2], ?_, ?_⟩
      · have e : (s.items.length - 1 : Int) = ((s.items.length - 1 : Nat) : Int) := by omega
        refine .rem ?_ ?_ h3
        · rw [e, Py.get?_nat (by omega)]; simp [List.getLast_eq_getElem]
        · rw [e, Py.del?_nat (by omega)]; simp [List.eraseIdx_eq_dropLast (Nat.sub_add_cancel hl)]
      · simp [h4]; omega

theorem step_replays {α} (s : LM α) (op : Op α) :
    ∃ ns, (step s op).1.log = s.log ++ ns ∧ Replays s.items ns (step s op).1.items := by
  cases op with
  | insert i v => exact ⟨[.inserted v i], rfl, .ins (.nil _)⟩
  | append v => exact ⟨[.inserted v s.items.length], rfl, .ins (.nil _)⟩
  | remove i =>
    rcases removeItem_cases s i with ⟨v, l, h1, h2, h3⟩ | ⟨h1, h2⟩
    · refine ⟨[.removed v i], by simp [step, h3], ?_⟩
      simp only [step, h3]
      exact .rem h1 h2 (.nil _)
    · exact ⟨[], by simp [step, h2], by simp only [step, h2]; exact .nil _⟩
  | clear =>
    obtain ⟨h1, ns, h2, h3, _⟩ := clearLoop_spec s.items.length s (le_refl _)
    exact ⟨ns, h2, by simp only [step, clearItems, h1]; exact h3⟩

/-- C14: for every history of calls with any indexes, an observer's copy replays to the list model's items. -/
theorem C14_replay {α} (s : LM α) (ops : List (Op α)) :
    ∃ ns, (run s ops).log = s.log ++ ns ∧ Replays s.items ns (run s ops).items := by
  induction ops generalizing s with
  | nil => exact ⟨[], by simp [run], .nil _⟩
  | cons op ops ih =>
    obtain ⟨ns1, h1, h2⟩ := step_replays s op
    obtain ⟨ns2, h3, h4⟩ := ih (step s op).1
    refine ⟨ns1 ++ ns2, ?_, h2.append h4⟩
    simp only [run, List.foldl_cons] at h3 ⊢
    rw [h3, h1, List.append_assoc]

/-- C14: what each call does to the items, and which calls fail: exactly `remove_item` with an index outside
`-len … len-1`; a failing call changes and notifies nothing; a successful one notifies the change it made. -/
theorem C14_effects {α} (s : LM α) :
    (∀ i v, (step s (.insert i v)).1.items = Py.insert s.items i v ∧ (step s (.insert i v)).2 = none ∧
      (step s (.insert i v)).1.log = s.log ++ [.inserted v i]) ∧
    (∀ v, (step s (.append v)).1.items = s.items ++ [v] ∧ (step s (.append v)).2 = none) ∧
    (∀ i, (step s (.remove i)).2 = none ↔ -(s.items.length : Int) ≤ i ∧ i < s.items.length) ∧
    (∀ i, (step s (.remove i)).2 ≠ none → (step s (.remove i)).1 = s) ∧
    (∀ (k : Nat) (hk : k < s.items.length), (step s (.remove k)).1.items = s.items.eraseIdx k ∧
      (step s (.remove k)).1.log = s.log ++ [.removed s.items[k] k]) ∧
    ((step s .clear).1.items = [] ∧ (step s .clear).2 = none) := by
  refine ⟨fun i v => ⟨rfl, rfl, rfl⟩, fun v => ⟨?_, rfl⟩, ?_, ?_, ?_, ⟨?_, rfl⟩⟩
  · simp [step, appendItem, insertItem, Py.insert_length]
  · intro i
    rcases removeItem_cases s i with ⟨v, l, h1, h2, h3⟩ | ⟨h1, h2⟩
    · have : ∃ k, Py.index? s.items.length i = some k := by
        cases hi : Py.index? s.items.length i with
        | none => simp [Py.get?, hi] at h1
        | some k => exact ⟨k, rfl⟩
      obtain ⟨k, hk⟩ := this
      simp only [step, h3]
      unfold Py.index? at hk
      split_ifs at hk <;> simp <;> omega
    · simp only [step, h2]
      unfold Py.index? at h1
      split_ifs at h1
      simp; omega
  · intro i h
    rcases removeItem_cases s i with ⟨v, l, h1, h2, h3⟩ | ⟨h1, h2⟩
    · simp [step, h3] at h
    · simp [step, h2]
  · intro k hk
    simp [step, removeItem, Py.get?_nat hk, Py.del?_nat hk]
  · exact (clearLoop_spec s.items.length s (le_refl _)).1

/-- a history with a negative index, a failing removal and a clear -/
example : (run ⟨[1, 2, 3], []⟩ [.insert (-1) 9, .remove 17, .remove (-4), .append 5]).items = [2, 9, 3, 5] ∧
    (run ⟨[1, 2, 3], []⟩ [.insert (-1) 9, .remove 17, .remove (-4), .append 5]).log =
      [.inserted 9 (-1), .removed 1 (-4), .inserted 5 3] := by decide

end Verif.ListModel
