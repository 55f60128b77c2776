import Verif.Py.Basic
import Mathlib.Data.List.Basic
import Mathlib.Data.List.Nodup
import Mathlib.Data.List.InsertIdx
import Mathlib.Tactic.Common

/-!
C157: mapping functions that raise. Model of a `MappedListModel` (`nion/utils/ListModel.py:765-790`) on a `ListModel` (lines 35-42), with
`map_fn` that may raise; the exception is swallowed by `Event.fire` (`Event.py:103-114`). Indexes are natural numbers. Selections and
notifications of the mapped list are left out (they come after the functions are called).
-/

namespace Verif.ListModel.MapRaises

variable {α β : Type}

/-- The source and the mapped list. -/
structure St (α β : Type) where
  src : List α
  mapped : List β

inductive Op (α : Type) where
  | insert (k : ℕ) (v : α)
  | remove (k : ℕ)

/-- `list.insert(k, v)`. -/
def ins {γ : Type} (l : List γ) (k : ℕ) (v : γ) : List γ := l.insertIdx (min k l.length) v

/-- Lines 766-774 and 777-788. `f` is `map_fn` (`none`: it raises), `unmap` tells whether `unmap_fn` returns. -/
def step (f : α → Option β) (unmap : β → Bool) (s : St α β) : Op α → St α β
  | .insert k v => ⟨ins s.src k v, match f v with
    | none => s.mapped
    | some w => ins s.mapped k w⟩
  | .remove k =>
    if k < s.src.length then ⟨s.src.eraseIdx k, match s.mapped[k]? with
      | none => s.mapped
      | some w => if unmap w then s.mapped.eraseIdx k else s.mapped⟩
    else s

def run (f : α → Option β) (unmap : β → Bool) (s : St α β) (ops : List (Op α)) : St α β := ops.foldl (step f unmap) s

/-! ### Specification -/

/-- The mapped list has the values of the items that have one, in order. -/
def Mirrors (f : α → Option β) (s : St α β) : Prop := s.mapped = s.src.filterMap f

/-! ### Proofs -/

theorem insertIdx_split {γ : Type} (l : List γ) (k : ℕ) (h : k ≤ l.length) (x : γ) : l.insertIdx k x = l.take k ++ x :: l.drop k := by
  induction k generalizing l with
  | zero => simp
  | succ k ih =>
    cases l with
    | nil => simp at h
    | cons a l =>
      simp only [List.length_cons, Nat.add_le_add_iff_right] at h
      simp [List.insertIdx_succ_cons, ih l h]

theorem ins_eq {γ : Type} (l : List γ) (k : ℕ) (v : γ) : ins l k v = l.take k ++ v :: l.drop k := by
  rw [ins, insertIdx_split _ _ (by omega)]
  rcases le_total k l.length with h | h
  · rw [min_eq_left h]
  · rw [min_eq_right h, List.take_length, List.drop_length, List.take_of_length_le h, List.drop_eq_nil_of_le h]

theorem insertIdx_inj {l : List β} {w : β} (hw : w ∉ l) {p q : ℕ} (hp : p ≤ l.length) (hq : q ≤ l.length) :
    l.insertIdx p w = l.insertIdx q w ↔ p = q := by
  have key : ∀ {p q : ℕ}, p ≤ l.length → p < q → l.insertIdx p w ≠ l.insertIdx q w := by
    intro p q hp hpq he
    have h1 := congrArg (·[p]?) he
    simp only [List.getElem?_insertIdx_self, List.getElem?_insertIdx_of_lt hpq] at h1
    rw [if_pos hp] at h1
    exact hw (List.mem_of_getElem? h1.symm)
  constructor
  · intro he
    rcases lt_trichotomy p q with h | h | h
    · exact absurd he (key hp h)
    · exact h
    · exact absurd he.symm (key hq h)
  · rintro rfl
    rfl

theorem eraseIdx_inj {l : List β} (hl : l.Nodup) {p q : ℕ} (hp : p < l.length) (hq : q < l.length) :
    l.eraseIdx p = l.eraseIdx q ↔ p = q := by
  constructor
  · intro he
    by_contra hne
    have h1 : l[p] ∈ l.eraseIdx q := by
      rw [List.mem_eraseIdx_iff_getElem]
      exact ⟨p, hp, hne, rfl⟩
    rw [← he, List.mem_eraseIdx_iff_getElem] at h1
    obtain ⟨j, hj, hjp, hje⟩ := h1
    exact hjp ((List.Nodup.getElem_inj_iff hl).1 hje)
  · rintro rfl
    rfl

theorem length_filterMap_eq (f : α → Option β) (l : List α) : (l.filterMap f).length = l.length ↔ ∀ x ∈ l, f x ≠ none := by
  induction l with
  | nil => simp
  | cons a l ih =>
    rcases h : f a with _ | b
    · have := List.length_filterMap_le f l
      simp only [List.filterMap_cons, h, List.length_cons, List.mem_cons, forall_eq_or_imp, ne_eq, not_true_eq_false, false_and, iff_false]
      omega
    · simp only [List.filterMap_cons, h, List.length_cons, List.mem_cons, forall_eq_or_imp, ne_eq, Nat.add_right_cancel_iff, ih]
      simp

theorem filterMap_ins (f : α → Option β) (l : List α) (k : ℕ) (v : α) :
    (ins l k v).filterMap f = (l.take k).filterMap f ++ ((f v).toList ++ (l.drop k).filterMap f) := by
  rw [ins_eq, List.filterMap_append, List.filterMap_cons]
  rcases f v with _ | w <;> rfl

theorem split_filterMap (f : α → Option β) (l : List α) (k : ℕ) :
    l.filterMap f = (l.take k).filterMap f ++ (l.drop k).filterMap f := by
  rw [← List.filterMap_append, List.take_append_drop]

/-- C157, insertion, exactly (partial: the property asks for it without the condition): after an insertion of an item for which the function
does not raise, the mapped list is right if and only if the function raises for no item before it, or for all items after it. -/
theorem C157_insert_iff_partial (f : α → Option β) (unmap : β → Bool) (s : St α β) (h : Mirrors f s) (k : ℕ) (v : α) (w : β)
    (hv : f v = some w) (hw : w ∉ s.mapped) :
    Mirrors f (step f unmap s (.insert k v)) ↔ (∀ x ∈ s.src.take k, f x ≠ none) ∨ ∀ x ∈ s.src.drop k, f x = none := by
  have hm : s.mapped = s.src.filterMap f := h
  have hs := split_filterMap f s.src k
  set A := (s.src.take k).filterMap f with hA
  set B := (s.src.drop k).filterMap f with hB
  have hAk : A.length ≤ (s.src.take k).length := List.length_filterMap_le f _
  have hAfull := length_filterMap_eq f (s.src.take k)
  rw [← hA] at hAfull
  have hBnil : B = [] ↔ ∀ x ∈ s.src.drop k, f x = none := by rw [hB, List.filterMap_eq_nil_iff]
  simp only [Mirrors, step, hv, filterMap_ins, Option.toList_some, ← hA, ← hB]
  have hr : A ++ ([w] ++ B) = s.mapped.insertIdx A.length w := by
    rw [hm, hs, insertIdx_split _ _ (by simp)]
    simp
  rw [hr, ins, insertIdx_inj hw (by omega) (by rw [hm, hs]; simp), ← hAfull, ← hBnil]
  have hlen : s.mapped.length = A.length + B.length := by rw [hm, hs, List.length_append]
  rw [← List.length_eq_zero_iff]
  have hBd : B.length ≤ (s.src.drop k).length := List.length_filterMap_le f _
  rw [List.length_drop] at hBd
  have htk : (s.src.take k).length = min k s.src.length := List.length_take
  omega

/-- C157, insertion of an item for which the function raises: the others stay. -/
theorem C157_insert_raises (f : α → Option β) (unmap : β → Bool) (s : St α β) (h : Mirrors f s) (k : ℕ) (v : α) (hv : f v = none) :
    Mirrors f (step f unmap s (.insert k v)) := by
  simp only [Mirrors, step, hv, filterMap_ins, Option.toList_none, List.nil_append, ← split_filterMap]
  exact h

theorem filterMap_erase (f : α → Option β) (l : List α) (k : ℕ) :
    (l.eraseIdx k).filterMap f = (l.take k).filterMap f ++ (l.drop (k + 1)).filterMap f := by
  rw [List.eraseIdx_eq_take_drop_succ, List.filterMap_append]

/-- C157, removal of an item that has a value, exactly: right if and only if the function raises for no item before it (values of items being
distinct). -/
theorem C157_remove_iff_partial (f : α → Option β) (unmap : β → Bool) (hu : ∀ w, unmap w = true) (s : St α β) (h : Mirrors f s)
    (hn : s.mapped.Nodup) (k : ℕ) (v : α) (hk : s.src[k]? = some v) (hv : f v ≠ none) :
    Mirrors f (step f unmap s (.remove k)) ↔ ∀ x ∈ s.src.take k, f x ≠ none := by
  obtain ⟨w, hw⟩ := Option.ne_none_iff_exists'.1 hv
  obtain ⟨hlt, hkv⟩ := List.getElem?_eq_some_iff.1 hk
  have hm : s.mapped = s.src.filterMap f := h
  have hs := split_filterMap f s.src k
  have hd : s.src.drop k = v :: s.src.drop (k + 1) := by rw [List.drop_eq_getElem_cons hlt, hkv]
  rw [hd, List.filterMap_cons, hw] at hs
  simp only at hs
  set A := (s.src.take k).filterMap f with hA
  set B := (s.src.drop (k + 1)).filterMap f with hB
  have hAk : A.length ≤ (s.src.take k).length := List.length_filterMap_le f _
  rw [← length_filterMap_eq f (s.src.take k), ← hA]
  rw [List.length_take] at hAk ⊢
  have hr : A ++ B = s.mapped.eraseIdx A.length := by
    rw [hm, hs, List.eraseIdx_append_of_length_le (le_refl _)]
    simp
  have hlen : s.mapped.length = A.length + (B.length + 1) := by rw [hm, hs, List.length_append, List.length_cons]
  simp only [Mirrors, step, if_pos hlt, filterMap_erase, ← hA, ← hB]
  rw [hr]
  rcases lt_or_ge k s.mapped.length with hk1 | hk1
  · rw [List.getElem?_eq_getElem hk1]
    simp only [hu, if_true]
    rw [eraseIdx_inj hn hk1 (by omega)]
    omega
  · rw [List.getElem?_eq_none hk1]
    simp only
    constructor
    · intro he
      have := congrArg List.length he
      rw [List.length_eraseIdx_of_lt (by omega)] at this
      omega
    · intro; omega

/-- C157, removal of an item for which the function raised, exactly: right if and only if its index is beyond the end of the mapped list;
otherwise the value of another item is removed. -/
theorem C157_remove_raised_iff_partial (f : α → Option β) (unmap : β → Bool) (hu : ∀ w, unmap w = true) (s : St α β) (h : Mirrors f s)
    (k : ℕ) (v : α) (hk : s.src[k]? = some v) (hv : f v = none) :
    (Mirrors f (step f unmap s (.remove k)) ↔ s.mapped.length ≤ k) ∧
      (k < s.mapped.length → (step f unmap s (.remove k)).mapped = s.mapped.eraseIdx k) := by
  obtain ⟨hlt, hkv⟩ := List.getElem?_eq_some_iff.1 hk
  have hm : s.mapped = s.src.filterMap f := h
  have hs := split_filterMap f s.src k
  have hd : s.src.drop k = v :: s.src.drop (k + 1) := by rw [List.drop_eq_getElem_cons hlt, hkv]
  rw [hd, List.filterMap_cons, hv] at hs
  simp only at hs
  simp only [Mirrors, step, if_pos hlt, filterMap_erase, ← hs, ← hm]
  rcases lt_or_ge k s.mapped.length with hk1 | hk1
  · rw [List.getElem?_eq_getElem hk1]
    simp only [hu, if_true, hk1, true_imp_iff, and_true]
    constructor
    · intro he
      have := congrArg List.length he
      rw [List.length_eraseIdx_of_lt hk1] at this
      omega
    · intro; omega
  · rw [List.getElem?_eq_none hk1]
    simp only [hk1, true_and]
    intro; omega

/-- C157: without exceptions the mapped list is right in every history. -/
theorem C157_total (f : α → Option β) (unmap : β → Bool) (hf : ∀ v, f v ≠ none) (hu : ∀ w, unmap w = true) (s : St α β) (h : Mirrors f s)
    (ops : List (Op α)) : Mirrors f (run f unmap s ops) := by
  induction ops generalizing s with
  | nil => exact h
  | cons op ops ih =>
    refine ih _ ?_
    have hm : s.mapped = s.src.filterMap f := h
    have hl : s.mapped.length = s.src.length := by rw [hm]; exact (length_filterMap_eq f _).2 fun x _ => hf x
    rcases op with ⟨k, v⟩ | k
    · obtain ⟨w, hw⟩ := Option.ne_none_iff_exists'.1 (hf v)
      simp only [Mirrors, step, hw, filterMap_ins, Option.toList_some]
      have hA : ((s.src.take k).filterMap f).length = (s.src.take k).length := (length_filterMap_eq f _).2 fun x _ => hf x
      rw [ins_eq, hm, split_filterMap f s.src k]
      rcases le_total k s.src.length with hk | hk
      · have hA' : ((s.src.take k).filterMap f).length = k := by rw [hA, List.length_take]; omega
        rw [List.take_left' hA', List.drop_left' hA']
        rfl
      · rw [List.drop_eq_nil_of_le hk]
        simp only [List.filterMap_nil, List.append_nil]
        rw [List.length_take] at hA
        rw [List.take_of_length_le (by omega), List.drop_eq_nil_of_le (by omega)]
    · simp only [Mirrors, step]
      split_ifs with hk
      · simp only [filterMap_erase]
        rw [List.getElem?_eq_getElem (by omega)]
        simp only [hu, if_true]
        have hA : ((s.src.take k).filterMap f).length = k := by
          rw [(length_filterMap_eq f _).2 fun x _ => hf x, List.length_take]
          omega
        obtain ⟨w, hw⟩ := Option.ne_none_iff_exists'.1 (hf s.src[k])
        rw [hm, split_filterMap f s.src k, List.eraseIdx_append_of_length_le (by omega), hA, List.drop_eq_getElem_cons hk,
          List.filterMap_cons, hw]
        simp
      · exact h

/-! ### Concrete cases -/

def half (n : ℕ) : Option ℕ := if n % 2 = 0 then some (n / 2) else none

/-- C157, negative: 3 is appended, for which the function raises, then 8, then 3 is removed: the mapped list loses the value of 8; what is
inserted after 3 is in the wrong place. -/
theorem C157_counterexample :
    (run half (fun _ => true) ⟨[], []⟩ [.insert 0 3, .insert 1 8, .remove 0]).src = [8] ∧
      (run half (fun _ => true) ⟨[], []⟩ [.insert 0 3, .insert 1 8, .remove 0]).mapped = [] ∧
      (run half (fun _ => true) ⟨[], []⟩ [.insert 0 3, .insert 1 8, .insert 1 6]).src = [3, 6, 8] ∧
      (run half (fun _ => true) ⟨[], []⟩ [.insert 0 3, .insert 1 8, .insert 1 6]).mapped = [4, 3] := by decide

/-- C157, negative: if `unmap_fn` raises, the value of a removed item stays. -/
theorem C157_counterexample_unmap :
    (run half (fun w => w ≠ 4) ⟨[8], [4]⟩ [.remove 0]).src = [] ∧ (run half (fun w => w ≠ 4) ⟨[8], [4]⟩ [.remove 0]).mapped = [4] := by decide

example : Mirrors half ⟨[2, 4, 3], [1, 2]⟩ ∧ Mirrors half (step half (fun _ => true) ⟨[2, 4, 3], [1, 2]⟩ (.insert 1 8)) := by
  constructor <;> rfl

end Verif.ListModel.MapRaises
