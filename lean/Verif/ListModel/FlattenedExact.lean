import Verif.ListModel.Flattened

/-!
C17, exactly which child indexes a `FlattenedListModel` handles rightly (`nion/utils/ListModel.py:890-916`). The model adds the index that the
master item reports to the number of children before, and uses the sum as index of its own list.
-/

namespace Verif.ListModel

open Verif.Py Verif.Selection

section
set_option linter.unusedSectionVars false

variable {M C : Type*} [DecidableEq M] (ord : SetOrder)

/-- With `a` children of master items before, `n` children and `b` children of master items after it, inserting a child with index `i` is
handled rightly. -/
def InsertOk (a n b : Nat) (i : Int) : Prop :=
  (0 ≤ i ∧ i ≤ n) ∨ (n < i ∧ b = 0) ∨ (i < 0 ∧ a = 0 ∧ (b = 0 ∨ n + b + i ≤ 0)) ∨ (0 < a ∧ 0 < n + b ∧ i = -(a + n + b))

/-- The same for removing a child. -/
def RemoveOk (a b : Nat) (i : Int) : Prop := 0 ≤ i ∨ a + b = 0

theorem insertPos_iff (a n b : Nat) (i : Int) : insertPos (a + n + b) (a + i) = a + insertPos n i ↔ InsertOk a n b i := by
  unfold insertPos InsertOk
  split_ifs <;> omega

theorem insertIdx_fresh {α : Type*} (l : List α) (x : α) (hx : x ∉ l) (i j : Nat) (hi : i ≤ l.length) (hj : j ≤ l.length) :
    l.insertIdx i x = l.insertIdx j x ↔ i = j := by
  refine ⟨fun h => ?_, fun h => by rw [h]⟩
  induction l generalizing i j with
  | nil => simp only [List.length_nil, Nat.le_zero] at hi hj; omega
  | cons y l ih =>
    simp only [List.mem_cons, not_or] at hx
    cases i with
    | zero =>
      cases j with
      | zero => rfl
      | succ j =>
        simp only [List.insertIdx_zero, List.insertIdx_succ_cons, List.cons.injEq] at h
        exact absurd h.1 hx.1
    | succ i =>
      cases j with
      | zero =>
        simp only [List.insertIdx_zero, List.insertIdx_succ_cons, List.cons.injEq] at h
        exact absurd h.1.symm hx.1
      | succ j =>
        simp only [List.insertIdx_succ_cons, List.cons.injEq, true_and] at h
        simp only [List.length_cons] at hi hj
        rw [ih hx.2 i j (by omega) (by omega) h]

/-- C17, exactly: a master item inserts the new child `c` with any index, counted from the front, from the back, or too large. Afterwards the
items are the concatenation of the children if and only if the index is in range, or one of a few coincidences. `a`, `b`: the numbers of
children of the master items before and after. -/
theorem C17_insert_iff_partial {s : FM M C} (h : FCore s) {m : M} (hm : m ∈ s.master) (c : C) (hc : c ∉ s.items) (i : Int) :
    ∃ pre post, s.master = pre ++ m :: post ∧
      ((s.childInserted ord m c i).items = s.master.flatMap (s.childInserted ord m c i).children ↔
        InsertOk (pre.flatMap s.children).length (s.children m).length (post.flatMap s.children).length i) := by
  obtain ⟨pre, post, e1, h1, h2, e2, e3⟩ := h.split hm
  refine ⟨pre, post, e1, ?_⟩
  have hflat : (pre ++ m :: post).flatMap (Function.update s.children m (Py.insert (s.children m) i c)) =
      pre.flatMap s.children ++ Py.insert (s.children m) i c ++ post.flatMap s.children := by
    rw [List.flatMap_append, List.flatMap_cons, flatMap_update h1, flatMap_update h2]; simp
  have hlen : s.items.length = (pre.flatMap s.children).length + (s.children m).length + (post.flatMap s.children).length := by
    rw [e2, List.length_append, List.length_append]
  have hk : insertPos (s.children m).length i ≤ (s.children m).length := insertPos_le _ _
  simp only [FM.childInserted]
  rw [e3, e1, hflat]
  unfold Py.insert
  rw [← insertIdx_middle _ _ _ _ hk, ← e2, insertIdx_fresh s.items c hc _ _ (insertPos_le _ _) (by rw [hlen]; omega), hlen, insertPos_iff]

theorem eraseIdx_fresh {α : Type*} (l : List α) (hl : l.Nodup) (i j : Nat) (hi : i < l.length) (hj : j < l.length) :
    l.eraseIdx i = l.eraseIdx j ↔ i = j := by
  refine ⟨fun h => ?_, fun h => by rw [h]⟩
  induction l generalizing i j with
  | nil => simp at hi
  | cons y l ih =>
    have hy := List.nodup_cons.1 hl
    cases i with
    | zero =>
      cases j with
      | zero => rfl
      | succ j =>
        simp only [List.eraseIdx_zero, List.tail_cons, List.eraseIdx_cons_succ] at h
        exact absurd (by rw [h]; exact List.mem_cons_self) hy.1
    | succ i =>
      cases j with
      | zero =>
        simp only [List.eraseIdx_zero, List.tail_cons, List.eraseIdx_cons_succ] at h
        exact absurd (by rw [← h]; exact List.mem_cons_self) hy.1
      | succ j =>
        simp only [List.eraseIdx_cons_succ, List.cons.injEq, true_and] at h
        simp only [List.length_cons] at hi hj
        rw [ih hy.2 i j (by omega) (by omega) h]

/-- C17, exactly, for removals of a child with any valid index when no child occurs twice: right if and only if the index is counted from the
front or there are no other children. -/
theorem C17_remove_iff_partial {s : FM M C} (h : FCore s) {m : M} (hm : m ∈ s.master) (hnd : s.items.Nodup) (c : C) (i : Int)
    (hi : -((s.children m).length : Int) ≤ i ∧ i < (s.children m).length) :
    ∃ pre post, s.master = pre ++ m :: post ∧
      ((s.childRemoved ord m c i).items = s.master.flatMap (s.childRemoved ord m c i).children ↔
        RemoveOk (pre.flatMap s.children).length (post.flatMap s.children).length i) := by
  obtain ⟨pre, post, e1, h1, h2, e2, e3⟩ := h.split hm
  refine ⟨pre, post, e1, ?_⟩
  set a := (pre.flatMap s.children).length with ha
  set n := (s.children m).length with hn
  set b := (post.flatMap s.children).length with hb
  have hlen : s.items.length = a + n + b := by rw [e2, List.length_append, List.length_append]
  obtain ⟨k, hk, hkn, hki⟩ : ∃ k, index? n i = some k ∧ k < n ∧ ((0 ≤ i ∧ (k : Int) = i) ∨ (i < 0 ∧ (k : Int) = i + n)) := by
    unfold index?
    split_ifs with c1 c2
    · exact ⟨_, rfl, by omega, by omega⟩
    · exact ⟨_, rfl, by omega, by omega⟩
    · omega
  obtain ⟨j, hj, hjn, hji⟩ : ∃ j, index? (a + n + b) (a + i) = some j ∧ j < a + n + b ∧
      ((0 ≤ a + i ∧ (j : Int) = a + i) ∨ (a + i < 0 ∧ (j : Int) = a + i + (a + n + b))) := by
    unfold index?
    split_ifs with c1 c2
    · exact ⟨_, rfl, by omega, by omega⟩
    · exact ⟨_, rfl, by push_cast at *; omega, by push_cast at *; omega⟩
    · push_cast at *; omega
  have hflat : (pre ++ m :: post).flatMap (Function.update s.children m ((s.children m).eraseIdx k)) =
      pre.flatMap s.children ++ (s.children m).eraseIdx k ++ post.flatMap s.children := by
    rw [List.flatMap_append, List.flatMap_cons, flatMap_update h1, flatMap_update h2]; simp
  have d1 : Py.del? (s.children m) i = some ((s.children m).eraseIdx k) := by unfold Py.del?; rw [← hn, hk]; rfl
  have d2 : Py.del? s.items (a + i) = some (s.items.eraseIdx j) := by unfold Py.del?; rw [hlen, hj]; rfl
  simp only [FM.childRemoved]
  rw [e3, d1]
  simp only
  rw [d2]
  simp only
  rw [e1, hflat, ← eraseIdx_middle _ _ _ _ hkn, ← e2, eraseIdx_fresh s.items hnd _ _ (by omega) (by rw [hlen]; omega)]
  unfold RemoveOk
  omega

end

/-- index -1 in the first list of two: wrong; in the only list: right -/
example : ¬ InsertOk 0 2 1 (-1) ∧ InsertOk 0 2 0 (-1) ∧ ¬ InsertOk 2 1 0 (-1) ∧ InsertOk 2 1 0 7 := by
  unfold InsertOk; omega

example : FCore (⟨fun m => if m = 0 then [1, 2] else [3], some [0, 1], [0, 1], fun m => if m = 0 then [1, 2] else [3], fun _ => true, [1, 2, 3], [],
    [.inserted 1 0, .inserted 2 1, .inserted 3 2]⟩ : FM Nat Nat) :=
  ⟨by decide, by decide, .ins (.ins (.ins (.nil _)))⟩

end Verif.ListModel
