import Verif.ListModel.Basic
import Mathlib.Data.List.Basic
import Mathlib.Tactic.Common

/-!
C156: what a record tells of its arrays. Model of a `RecordModel` with array fields (`nion/utils/StructuredModel.py:132-148`), of
`ArrayModel.notify_insert_item`, `notify_remove_item` (lines 294-309) and `from_dict_value` (lines 270-277), which works on the list of
items itself. Items are models; the contents of items, other fields and `model_changed_event` (C52) are left out.
-/

namespace Verif.Structured.ArrayEvents

open Verif.Py Verif.ListModel

variable {α : Type}

/-- An array: its items, the length of the list of listeners it keeps (line 251), what it has told through its own events. -/
structure Arr (α : Type) where
  items : List α
  listeners : ℕ
  told : List (Notif α)

/-- A record: its arrays, by field name, and what it has told, with the field name. -/
structure Rec (α : Type) where
  arrs : String → Arr α
  log : List (String × Notif α)

inductive Op (α : Type) where
  /-- `record.field.insert(i, v)` -/
  | insert (n : String) (i : ℤ) (v : α)
  /-- `del record.field[i]` -/
  | remove (n : String) (i : ℤ)
  /-- `record.field_model.from_dict_value(values)`, also as part of `copy_from`: `vs` are the items that would be made for the values. -/
  | load (n : String) (vs : List α)

def Rec.put (r : Rec α) (n : String) (a : Arr α) : Rec α := { r with arrs := fun m => if m = n then a else r.arrs m }

/-- `ListModel.insert_item`, then lines 294-301; the record passes it on (lines 138-140). -/
def insert (r : Rec α) (n : String) (i : ℤ) (v : α) : Rec α :=
  let a := r.arrs n
  let r' := r.put n ⟨Py.insert a.items i v, a.listeners + 1, a.told ++ [.inserted v i]⟩
  { r' with log := r'.log ++ [(n, .inserted v i)] }

/-- `ListModel.remove_item`, then lines 303-309: line 305 raises if there is no listener at the index, which is after the removal and before the
event of line 308, which the record passes on (lines 142-144). -/
def remove (r : Rec α) (n : String) (i : ℤ) : Rec α × Option Exc :=
  let a := r.arrs n
  match Py.get? a.items i, Py.del? a.items i with
  | some v, some items =>
    match Py.index? a.listeners i with
    | none => (r.put n ⟨items, a.listeners, a.told ++ [.removed v i]⟩, some .indexError)
    | some _ =>
      let r' := r.put n ⟨items, a.listeners - 1, a.told ++ [.removed v i]⟩
      ({ r' with log := r'.log ++ [(n, .removed v i)] }, none)
  | _, _ => (r, some .indexError)

/-- Lines 270-277: items that are there keep their place and take the values; others are appended or deleted without notification. -/
def load (r : Rec α) (n : String) (vs : List α) : Rec α :=
  let a := r.arrs n
  r.put n { a with items := a.items.take vs.length ++ vs.drop a.items.length }

def step (r : Rec α) : Op α → Rec α × Option Exc
  | .insert n i v => (insert r n i v, none)
  | .remove n i => remove r n i
  | .load n vs => (load r n vs, none)

def run (r : Rec α) (ops : List (Op α)) : Rec α := ops.foldl (fun r op => (step r op).1) r

/-- A record as it is built (lines 240-256). -/
def build (items : String → List α) : Rec α := ⟨fun n => ⟨items n, (items n).length, []⟩, []⟩

/-! ### Specification -/

/-- What an observer of the record is told of one field. -/
def Rec.about (r : Rec α) (n : String) : List (Notif α) := r.log.filterMap fun p => if p.1 = n then some p.2 else none

/-- The length of the array stays. -/
def Op.SameLength (r : Rec α) : Op α → Prop
  | .load n vs => vs.length = (r.arrs n).items.length
  | _ => True

/-- All calls of a history keep the length when they load. -/
def Steady : Rec α → List (Op α) → Prop
  | _, [] => True
  | r, op :: ops => op.SameLength r ∧ Steady (step r op).1 ops

/-! ### Proofs -/

theorem about_snoc (r : Rec α) (l : List (String × Notif α)) (n m : String) (x : Notif α) (hl : r.log = l ++ [(m, x)]) :
    r.about n = (l.filterMap fun p => if p.1 = n then some p.2 else none) ++ if m = n then [x] else [] := by
  rw [Rec.about, hl, List.filterMap_append]
  split_ifs with h <;> simp [h]

theorem get_del (l : List α) (i : ℤ) : (Py.get? l i = none ∧ Py.del? l i = none ∧ Py.index? l.length i = none) ∨
    ∃ v l', Py.get? l i = some v ∧ Py.del? l i = some l' ∧ ∃ k, Py.index? l.length i = some k := by
  rcases h : Py.index? l.length i with _ | k
  · left
    simp [Py.get?, Py.del?, h]
  · right
    have hk := Py.index?_lt h
    refine ⟨l[k], l.eraseIdx k, by simp [Py.get?, h, hk], by simp [Py.del?, h], k, rfl⟩

theorem del_length {l l' : List α} {i : ℤ} (h : Py.del? l i = some l') : l'.length = l.length - 1 ∧ 0 < l.length := by
  rw [Py.del?] at h
  obtain ⟨k, hk, rfl⟩ := Option.map_eq_some_iff.1 h
  have := Py.index?_lt hk
  rw [List.length_eraseIdx_of_lt this]
  omega

theorem put_self (r : Rec α) (n : String) (a : Arr α) : (r.put n a).arrs n = a := by simp [Rec.put]
theorem put_other (r : Rec α) (n m : String) (a : Arr α) (h : m ≠ n) : (r.put n a).arrs m = r.arrs m := by simp [Rec.put, h]

/-- What holds in all histories. -/
def Inv (items : String → List α) (r : Rec α) : Prop :=
  ∀ n, ∃ mirror, ReplaysIdx (items n) (r.about n) mirror ∧ mirror.length = (r.arrs n).listeners

theorem inv_step (items : String → List α) (r : Rec α) (op : Op α) (h : Inv items r) : Inv items (step r op).1 := by
  intro m
  obtain ⟨mirror, h1, h2⟩ := h m
  rcases op with ⟨n, i, v⟩ | ⟨n, i⟩ | ⟨n, vs⟩
  · simp only [step]
    by_cases hm : m = n
    · subst hm
      refine ⟨Py.insert mirror i v, ?_, ?_⟩
      · rw [about_snoc (insert r m i v) r.log m m (.inserted v i) rfl, if_pos rfl]
        exact h1.append (.ins (.nil _))
      · rw [Py.length_insert, h2]
        simp [insert, Rec.put]
    · refine ⟨mirror, ?_, ?_⟩
      · rw [about_snoc (insert r n i v) r.log m n (.inserted v i) rfl, if_neg (Ne.symm hm), List.append_nil]
        exact h1
      · simpa [insert, Rec.put, hm] using h2
  · simp only [step, remove]
    rcases get_del (r.arrs n).items i with ⟨e1, e2, -⟩ | ⟨v, l, e1, e2, k, e3⟩
    · simp only [e1, e2]
      exact ⟨mirror, h1, h2⟩
    · simp only [e1, e2]
      rcases hl : Py.index? (r.arrs n).listeners i with _ | j
      · simp only
        refine ⟨mirror, h1, ?_⟩
        by_cases hm : m = n
        · subst hm
          rw [put_self]
          exact h2
        · rw [put_other _ _ _ _ hm]
          exact h2
      · simp only
        by_cases hm : m = n
        · subst hm
          rcases get_del mirror i with ⟨-, -, e⟩ | ⟨w, l', e4, e5, -⟩
          · rw [h2, hl] at e
            cases e
          · refine ⟨l', ?_, ?_⟩
            · rw [about_snoc _ r.log m m (.removed v i) rfl, if_pos rfl]
              exact h1.append (.rem e5 (.nil _))
            · rw [(del_length e5).1, h2]
              simp [Rec.put]
        · refine ⟨mirror, ?_, ?_⟩
          · rw [about_snoc _ r.log m n (.removed v i) rfl, if_neg (Ne.symm hm), List.append_nil]
            exact h1
          · simpa [Rec.put, hm] using h2
  · simp only [step, load]
    refine ⟨mirror, h1, ?_⟩
    by_cases hm : m = n
    · subst hm
      rw [put_self]
      exact h2
    · rw [put_other _ _ _ _ hm]
      exact h2

theorem inv_build (items : String → List α) : Inv items (build items) := fun n => ⟨items n, .nil _, rfl⟩

theorem inv_run (items : String → List α) (ops : List (Op α)) : Inv items (run (build items) ops) := by
  have : ∀ (r : Rec α), Inv items r → Inv items (run r ops) := by
    induction ops with
    | nil => exact fun r h => h
    | cons op ops ih => exact fun r h => ih _ (inv_step items r op h)
  exact this _ (inv_build items)

/-- The observer of the record and the observer of the array have the items. -/
def Mirrored (items : String → List α) (r : Rec α) : Prop :=
  ∀ n, Replays (items n) (r.about n) (r.arrs n).items ∧ Replays (items n) (r.arrs n).told (r.arrs n).items ∧
    (r.arrs n).listeners = (r.arrs n).items.length

theorem mirrored_step (items : String → List α) (r : Rec α) (op : Op α) (h : Mirrored items r) (hs : op.SameLength r) :
    Mirrored items (step r op).1 ∧ ((step r op).2 ≠ none → (step r op).1 = r) := by
  rcases op with ⟨n, i, v⟩ | ⟨n, i⟩ | ⟨n, vs⟩
  · refine ⟨fun m => ?_, fun he => absurd rfl he⟩
    obtain ⟨h1, h2, h3⟩ := h m
    simp only [step]
    rw [about_snoc (insert r n i v) r.log m n (.inserted v i) rfl]
    by_cases hm : m = n
    · subst hm
      rw [if_pos rfl]
      simp only [insert, put_self]
      exact ⟨h1.append (.ins (.nil _)), h2.append (.ins (.nil _)), by rw [Py.length_insert, h3]⟩
    · rw [if_neg (Ne.symm hm), List.append_nil]
      simp only [insert, put_other _ _ _ _ hm]
      exact ⟨h1, h2, h3⟩
  · simp only [step, remove]
    rcases get_del (r.arrs n).items i with ⟨e1, e2, -⟩ | ⟨v, l, e1, e2, k, e3⟩
    · simp only [e1, e2]
      exact ⟨h, fun _ => trivial⟩
    · simp only [e1, e2, (h n).2.2, e3]
      refine ⟨fun m => ?_, fun he => absurd rfl he⟩
      obtain ⟨h1, h2, h3⟩ := h m
      rw [about_snoc _ r.log m n (.removed v i) rfl]
      by_cases hm : m = n
      · subst hm
        rw [if_pos rfl]
        simp only [put_self]
        exact ⟨h1.append (.rem e1 e2 (.nil _)), h2.append (.rem e1 e2 (.nil _)), (del_length e2).1.symm⟩
      · rw [if_neg (Ne.symm hm), List.append_nil]
        simp only [put_other _ _ _ _ hm]
        exact ⟨h1, h2, h3⟩
  · have hl : (r.arrs n).items.take vs.length ++ vs.drop (r.arrs n).items.length = (r.arrs n).items := by
      have : vs.length = (r.arrs n).items.length := hs
      rw [this, List.take_length, List.drop_eq_nil_of_le (by omega), List.append_nil]
    have : load r n vs = r := by
      simp only [load, hl, Rec.put]
      congr 1
      funext m
      split_ifs with hm
      · rw [hm]
      · rfl
    simp only [step, this]
    exact ⟨h, fun he => absurd rfl he⟩

theorem mirrored_run (items : String → List α) (ops : List (Op α)) (r : Rec α) (h : Mirrored items r) (hs : Steady r ops) :
    Mirrored items (run r ops) := by
  induction ops generalizing r with
  | nil => exact h
  | cons op ops ih => exact ih _ (mirrored_step items r op h hs.1).1 hs.2

theorem mirrored_build (items : String → List α) : Mirrored items (build items) := fun _ => ⟨.nil _, .nil _, rfl⟩

/-- C156 (partial: no values of another length are loaded into an array): in every history, a list kept from what the record tells of a field
is the array of that field, a list kept from what the array tells is it too, and a call that raises changes nothing. -/
theorem C156_mirror_partial (items : String → List α) (ops : List (Op α)) (hs : Steady (build items) ops) (n : String) :
    let r := run (build items) ops
    Replays (items n) (r.about n) (r.arrs n).items ∧ Replays (items n) (r.arrs n).told (r.arrs n).items ∧
      ∀ m i, (remove r m i).2 ≠ none → (remove r m i).1 = r := by
  have h := mirrored_run items ops _ (mirrored_build items) hs
  refine ⟨(h n).1, (h n).2.1, fun m i => ?_⟩
  exact (mirrored_step items _ (.remove m i) h trivial).2

/-- C156, exactly: the next call keeps this up if and only if it does not load values of another length. -/
theorem C156_step_iff_partial (items : String → List α) (ops : List (Op α)) (hs : Steady (build items) ops) (op : Op α) :
    let r := (step (run (build items) ops) op).1
    (∀ n, ReplaysIdx (items n) (r.about n) (r.arrs n).items) ↔ op.SameLength (run (build items) ops) := by
  have h := mirrored_run items ops _ (mirrored_build items) hs
  set r0 := run (build items) ops
  constructor
  · intro hr
    rcases op with ⟨n, i, v⟩ | ⟨n, i⟩ | ⟨n, vs⟩
    · trivial
    · trivial
    · have h1 := hr n
      simp only [step, load, put_self] at h1
      have h2 := h1.det (h n).1.idx
      have h3 := congrArg List.length h2
      rw [List.length_append, List.length_take, List.length_drop] at h3
      simp only [Op.SameLength]
      omega
  · intro hs n
    exact ((mirrored_step items r0 op h hs).1 n).1.idx

/-- C156, every history: what the record tells can always be replayed by index; a removal that is carried out raises exactly if the list so
kept is too short for it, and then the record does not tell of it (the array does). -/
theorem C156_raises_iff (items : String → List α) (ops : List (Op α)) (n : String) (i : ℤ) :
    let r := run (build items) ops
    ∃ mirror, ReplaysIdx (items n) (r.about n) mirror ∧
      (((remove r n i).2 = some .indexError ∧ ((remove r n i).1.arrs n).items ≠ (r.arrs n).items) ↔
        (∃ v, Py.get? (r.arrs n).items i = some v) ∧ Py.get? mirror i = none) := by
  obtain ⟨mirror, h1, h2⟩ := inv_run items ops n
  refine ⟨mirror, h1, ?_⟩
  set r := run (build items) ops
  simp only [remove]
  rcases get_del (r.arrs n).items i with ⟨e1, e2, -⟩ | ⟨v, l, e1, e2, k, e3⟩
  · simp only [e1, e2]
    simp
  · have hne : l ≠ (r.arrs n).items := by
      intro he
      have := del_length e2
      rw [he] at this
      omega
    simp only [e1, e2]
    have hmir : Py.get? mirror i = none ↔ Py.index? (r.arrs n).listeners i = none := by
      rw [← h2]
      rcases get_del mirror i with ⟨e, -, e'⟩ | ⟨w, l', e, -, k, e'⟩
      · simp [e, e']
      · simp [e, e']
    rcases hl : Py.index? (r.arrs n).listeners i with _ | j
    · simp [put_self, hne, hmir, hl]
    · simp [hmir, hl]

/-! ### Concrete cases -/

/-- C156, negative: loading two values into an empty array tells nobody; deleting one of them then raises although it is deleted. -/
theorem C156_counterexample : let r := run (build fun _ => ([] : List ℕ)) [.load "a" [7, 8]]
    (r.arrs "a").items = [7, 8] ∧ r.log = [] ∧ (r.arrs "a").told = [] ∧
      (remove r "a" 0).2 = some .indexError ∧ ((remove r "a" 0).1.arrs "a").items = [8] ∧ (remove r "a" 0).1.log = [] := by
  decide +kernel

/-- Two arrays of a record. -/
example : (run (build fun _ => [1, 2]) [.insert "a" 1 5, .remove "b" (-1), .load "a" [3, 3, 3], .remove "a" 0]).about "a" =
    [.inserted 5 1, .removed 1 0] ∧
    ((run (build fun _ => [1, 2]) [.insert "a" 1 5, .remove "b" (-1), .load "a" [3, 3, 3], .remove "a" 0]).arrs "a").items = [5, 2] := by
  decide +kernel

example : Steady (build fun _ => [1, 2]) [.insert "a" 1 5, .remove "b" (-1), .load "a" [3, 3, 3], .remove "a" 0] := by
  refine ⟨trivial, trivial, ?_, trivial, trivial⟩
  change 3 = _
  decide +kernel

end Verif.Structured.ArrayEvents
