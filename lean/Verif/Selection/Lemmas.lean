import Verif.Selection.Model
import Mathlib.Tactic.Linarith

/-! Helper lemmas for the selection model. -/

namespace Verif.Selection

open Verif.Py

@[simp] theorem finish_sel (old : Finset ℤ) (s : Sel) : (finish old s).sel = s := rfl
@[simp] theorem finish_fires (old : Finset ℤ) (s : Sel) :
    (finish old s).fires = if s.indexes = old then 0 else 1 := by
  unfold finish; by_cases h : s.indexes = old
  · simp [h]
  · simp [h, Ne.symm h]
@[simp] theorem finish_err (old : Finset ℤ) (s : Sel) : (finish old s).err = none := rfl

@[simp] theorem updateAnchor_indexes (ord : SetOrder) (s : Sel) : (updateAnchor ord s).indexes = s.indexes := rfl
@[simp] theorem updateAnchor_style (ord : SetOrder) (s : Sel) : (updateAnchor ord s).style = s.style := rfl

/-- the step of `__update_anchor_index` -/
def minStep (a : Option ℤ) (i : ℤ) : Option ℤ :=
  match a with
  | .none => some i
  | some a => if i < a then some i else some a

theorem updateAnchor_anchor (ord : SetOrder) (s : Sel) :
    (updateAnchor ord s).anchor = (ord.list s.indexes).foldl minStep s.anchor := rfl

theorem foldl_minStep_some (l : List ℤ) (a : ℤ) :
    ∃ m, l.foldl minStep (some a) = some m ∧ (m = a ∨ m ∈ l) ∧ m ≤ a ∧ ∀ x ∈ l, m ≤ x := by
  induction l generalizing a with
  | nil => exact ⟨a, rfl, Or.inl rfl, le_refl _, by simp⟩
  | cons y l ih =>
    simp only [List.foldl_cons, minStep]
    split
    · rename_i hlt
      obtain ⟨m, h1, h2, h3, h4⟩ := ih y
      refine ⟨m, h1, ?_, by omega, ?_⟩
      · rcases h2 with h2 | h2 <;> simp [h2]
      · intro x hx; rcases List.mem_cons.1 hx with rfl | hx
        · exact h3
        · exact h4 x hx
    · rename_i hlt
      obtain ⟨m, h1, h2, h3, h4⟩ := ih a
      refine ⟨m, h1, ?_, h3, ?_⟩
      · rcases h2 with h2 | h2 <;> simp [h2]
      · intro x hx; rcases List.mem_cons.1 hx with rfl | hx
        · omega
        · exact h4 x hx

theorem foldl_minStep_none (l : List ℤ) :
    (l = [] ∧ l.foldl minStep none = none) ∨
    ∃ m, l.foldl minStep none = some m ∧ m ∈ l ∧ ∀ x ∈ l, m ≤ x := by
  cases l with
  | nil => exact Or.inl ⟨rfl, rfl⟩
  | cons y l =>
    right
    obtain ⟨m, h1, h2, h3, h4⟩ := foldl_minStep_some l y
    refine ⟨m, h1, ?_, ?_⟩
    · rcases h2 with h2 | h2 <;> simp [h2]
    · intro x hx; rcases List.mem_cons.1 hx with rfl | hx
      · exact h3
      · exact h4 x hx

theorem mem_addAll {is : Finset ℤ} {r : List ℤ} {x : ℤ} : x ∈ addAll is r ↔ x ∈ is ∨ x ∈ r := by
  unfold addAll
  induction r generalizing is with
  | nil => simp
  | cons y r ih => simp only [List.foldl_cons, ih, Finset.mem_insert, List.mem_cons]; tauto

/-- where an index goes when an item is inserted at `k` -/
def shiftUp (k i : ℤ) : ℤ := if i < k then i else i + 1
/-- where an index goes when the item at `k` is removed -/
def shiftDown (k i : ℤ) : ℤ := if i > k then i - 1 else i

theorem mem_foldl_insertIndex (k : ℤ) (l : List ℤ) (acc : Finset ℤ) (x : ℤ) :
    x ∈ l.foldl (fun (acc : Finset ℤ) i => if i < k then insert i acc else insert (i + 1) acc) acc ↔
      x ∈ acc ∨ ∃ i ∈ l, shiftUp k i = x := by
  induction l generalizing acc with
  | nil => simp
  | cons y l ih =>
    simp only [List.foldl_cons, ih, List.mem_cons, shiftUp]
    constructor
    · rintro (h | ⟨i, hi, h⟩)
      · split at h
        · rcases Finset.mem_insert.1 h with h | h
          · exact Or.inr ⟨y, Or.inl rfl, by simp [*]⟩
          · exact Or.inl h
        · rcases Finset.mem_insert.1 h with h | h
          · exact Or.inr ⟨y, Or.inl rfl, by simp [*]⟩
          · exact Or.inl h
      · exact Or.inr ⟨i, Or.inr hi, h⟩
    · rintro (h | ⟨i, rfl | hi, h⟩)
      · left; split <;> simp [h]
      · left; split at h
        · rw [if_pos ‹_›, h]; simp
        · rw [if_neg ‹_›, h]; simp
      · exact Or.inr ⟨i, hi, h⟩

theorem mem_foldl_removeIndex (k : ℤ) (l : List ℤ) (acc : Finset ℤ) (x : ℤ) :
    x ∈ l.foldl (fun (acc : Finset ℤ) i =>
      if i ≠ k then (if i > k then insert (i - 1) acc else insert i acc) else acc) acc ↔
      x ∈ acc ∨ ∃ i ∈ l, i ≠ k ∧ shiftDown k i = x := by
  induction l generalizing acc with
  | nil => simp
  | cons y l ih =>
    rw [List.foldl_cons, ih]
    constructor
    · rintro (h | ⟨i, hi, h⟩)
      · by_cases hy : y = k
        · simp [hy] at h; exact Or.inl h
        · rw [if_pos hy] at h
          split at h
          · rcases Finset.mem_insert.1 h with h | h
            · exact Or.inr ⟨y, by simp, hy, by simp [shiftDown, *]⟩
            · exact Or.inl h
          · rcases Finset.mem_insert.1 h with h | h
            · exact Or.inr ⟨y, by simp, hy, by simp [shiftDown, *]⟩
            · exact Or.inl h
      · exact Or.inr ⟨i, by simp [hi], h⟩
    · rintro (h | ⟨i, hi, hne, h⟩)
      · left; split
        · split <;> simp [h]
        · exact h
      · rcases List.mem_cons.1 hi with rfl | hi
        · left; rw [if_pos hne]; unfold shiftDown at h
          split at h
          · rw [if_pos ‹_›, h]; simp
          · rw [if_neg ‹_›, h]; simp
        · exact Or.inr ⟨i, hi, hne, h⟩

theorem ite_ne_eq (a b : Finset ℤ) : (if a ≠ b then b else a) = b := by
  split
  · rfl
  · rename_i h; exact not_not.1 h

theorem insertIndex_indexes (ord : SetOrder) (s : Sel) (k : ℤ) :
    (insertIndex ord s k).sel.indexes = s.indexes.image (shiftUp k) := by
  have : (ord.list s.indexes).foldl
      (fun (acc : Finset ℤ) i => if i < k then insert i acc else insert (i + 1) acc) ∅
      = s.indexes.image (shiftUp k) := by
    ext x
    rw [mem_foldl_insertIndex]
    simp [ord.mem]
  unfold insertIndex
  simp only [this, ite_ne_eq]

theorem removeIndex_indexes (ord : SetOrder) (s : Sel) (k : ℤ) :
    (removeIndex ord s k).sel.indexes = (s.indexes.erase k).image (shiftDown k) := by
  have : (ord.list s.indexes).foldl
      (fun (acc : Finset ℤ) i =>
        if i ≠ k then (if i > k then insert (i - 1) acc else insert i acc) else acc) ∅
      = (s.indexes.erase k).image (shiftDown k) := by
    ext x
    rw [mem_foldl_removeIndex]
    simp only [Finset.notMem_empty, false_or, Finset.mem_image, Finset.mem_erase, ord.mem]
    constructor
    · rintro ⟨i, h1, h2, h3⟩; exact ⟨i, ⟨h2, h1⟩, h3⟩
    · rintro ⟨i, ⟨h2, h1⟩, h3⟩; exact ⟨i, h1, h2, h3⟩
  unfold removeIndex
  simp only [this, ite_ne_eq]

theorem list_of_card_one (ord : SetOrder) {is : Finset ℤ} (h : is.card = 1) :
    ∃ i, ord.list is = [i] ∧ is = {i} := by
  obtain ⟨i, rfl⟩ := Finset.card_eq_one.1 h
  refine ⟨i, ?_, rfl⟩
  have hm := ord.mem {i}
  have hn := ord.nodup {i}
  match hl : ord.list {i} with
  | [] => have := (hm i).2 (by simp); rw [hl] at this; simp at this
  | [j] => have := (hm j).1 (by rw [hl]; simp); simp at this; rw [this]
  | a :: b :: t =>
    have ha := (hm a).1 (by rw [hl]; simp)
    have hb := (hm b).1 (by rw [hl]; simp)
    simp at ha hb
    rw [hl] at hn; simp [ha, hb] at hn

theorem list_eq_nil (ord : SetOrder) {is : Finset ℤ} : ord.list is = [] ↔ is = ∅ := by
  constructor
  · intro h; ext x; rw [← ord.mem, h]; simp
  · rintro rfl; apply List.eq_nil_iff_forall_not_mem.2; intro x hx; rw [ord.mem] at hx; simp at hx

/-- every method keeps the style -/
theorem clear_style (s : Sel) : (clear s).sel.style = s.style := by unfold clear; split <;> rfl
theorem set_style (s : Sel) (i : ℤ) : (set s i).sel.style = s.style := by
  unfold set; split
  · rfl
  · exact clear_style s
theorem add_style (s : Sel) (i : ℤ) : (add s i).sel.style = s.style := by
  unfold add; split
  · exact set_style s i
  · split
    · simp only [finish_sel]; split <;> rfl
    · exact clear_style s
theorem remove_style (ord : SetOrder) (s : Sel) (i : ℤ) : (remove ord s i).sel.style = s.style := by
  unfold remove; split
  · split
    · simp only [finish_sel]; split <;> rfl
    · rfl
  · split
    · rfl
    · exact clear_style s

/-- `addRange` one element at a time -/
theorem addRange_foldl (r : List ℤ) (o : Out) :
    (r.foldl (fun o i => let o' := add o.sel i; (⟨o'.sel, o.fires + o'.fires, o'.err⟩ : Out)) o).sel =
      r.foldl (fun s i => (add s i).sel) o.sel := by
  induction r generalizing o with
  | nil => rfl
  | cons y r ih => simp only [List.foldl_cons]; rw [ih]

theorem addRange_sel (s : Sel) (r : List ℤ) : (addRange s r).sel = r.foldl (fun s i => (add s i).sel) s := by
  unfold addRange; rw [addRange_foldl]

theorem step_style (ord : SetOrder) (s : Sel) (op : Op) : (step ord s op).sel.style = s.style := by
  cases op with
  | clear => exact clear_style s
  | add i => exact add_style s i
  | remove i => exact remove_style ord s i
  | addRange r =>
    simp only [step, addRange_sel]
    induction r generalizing s with
    | nil => rfl
    | cons y r ih => simp only [List.foldl_cons]; rw [ih, add_style]
  | setMultiple is =>
    simp only [step]; unfold setMultiple; split
    · rfl
    · split
      · split
        · exact set_style s _
        · rfl
      · exact clear_style s
  | set i => exact set_style s i
  | toggle i =>
    simp only [step]; unfold toggle; split
    · exact remove_style ord s i
    · exact add_style s i
  | extend i =>
    simp only [step]; unfold extend; split
    · split
      · split
        · rfl
        · split <;> rfl
      · rfl
    · split
      · exact set_style s _
      · exact clear_style s
  | insertIndex k => rfl
  | removeIndex k =>
    simp only [step]; unfold removeIndex
    cases h : s.anchor with
    | none => simp
    | some a => simp only; split
                · rfl
                · split <;> rfl
  | setAnchor a => rfl

end Verif.Selection
