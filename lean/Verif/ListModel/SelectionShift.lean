import Verif.ListModel.FilteredProps
import Verif.ListModel.Flattened

/-!
C16, C18 and C25, exactly: list models tell their selections an index that is not always the place where their own list changes (the index in
the source, `nion/utils/ListModel.py:626-627` and 639-640, within the master item, 897-898, or a negative index, 776-777 and 789-790). The theorems here say for which selections
this does no harm.
-/

namespace Verif.ListModel

open Verif.Selection Verif.Py

/-! ### Selected items -/

theorem mem_pickFrom {α} {is : Finset ℤ} {xs : List α} {o : ℤ} {x : α} :
    x ∈ pickFrom is o xs ↔ ∃ i : Nat, xs[i]? = some x ∧ o + i ∈ is := by
  induction xs generalizing o with
  | nil => simp [pickFrom]
  | cons y xs ih =>
    have hcons : x ∈ pickFrom is o (y :: xs) ↔ (o ∈ is ∧ x = y) ∨ x ∈ pickFrom is (o + 1) xs := by
      rw [show pickFrom is o (y :: xs) = if o ∈ is then y :: pickFrom is (o + 1) xs else pickFrom is (o + 1) xs from rfl]
      split <;> rename_i h <;> simp [h]
    rw [hcons, ih]
    constructor
    · rintro (⟨h1, rfl⟩ | ⟨i, h1, h2⟩)
      · exact ⟨0, rfl, by simpa using h1⟩
      · exact ⟨i + 1, h1, by push_cast; rwa [add_comm (i : ℤ) 1, ← add_assoc]⟩
    · rintro ⟨i, h1, h2⟩
      cases i with
      | zero => left; exact ⟨by simpa using h2, by simpa using h1.symm⟩
      | succ i => right; exact ⟨i, h1, by push_cast at h2; rwa [add_comm (i : ℤ) 1, ← add_assoc] at h2⟩

/-- In a list without repetitions the selected items determine the selected places. -/
theorem selected_ext {α} {A B : Finset ℤ} {xs : List α} (hn : xs.Nodup) :
    selectedItems A xs = selectedItems B xs ↔ ∀ i : Nat, i < xs.length → ((i : ℤ) ∈ A ↔ (i : ℤ) ∈ B) := by
  constructor
  · intro h i hi
    have key : ∀ S : Finset ℤ, (i : ℤ) ∈ S ↔ xs[i] ∈ selectedItems S xs := by
      intro S
      unfold selectedItems
      rw [mem_pickFrom]
      constructor
      · intro hS; exact ⟨i, List.getElem?_eq_getElem hi, by simpa using hS⟩
      · rintro ⟨j, hj, hS⟩
        obtain ⟨hj1, hj2⟩ := List.getElem?_eq_some_iff.1 hj
        have : j = i := (hn.getElem_inj_iff).1 hj2
        subst this
        simpa using hS
    rw [key A, key B, h]
  · intro h
    unfold selectedItems
    have := pickFrom_congr (is := A) (js := B) 0 xs 0 (fun i h1 h2 => by
      have := h i.toNat (by omega)
      rw [Int.toNat_of_nonneg h1] at this
      simpa using this)
    simpa using this

/-- The selected places are places of the list. -/
def InRange {α} (is : Finset ℤ) (xs : List α) : Prop := ∀ i ∈ is, 0 ≤ i ∧ i < xs.length

/-- An item is inserted at `p`, the selection is told `b`: it selects the same items exactly if no selected place is between. -/
theorem shift_insert {α} (ord : SetOrder) (s : Sel) (xs : List α) (p b : Nat) (v : α) (hp : p ≤ xs.length)
    (hn : (xs.insertIdx p v).Nodup) (hr : InRange s.indexes xs) :
    selectedItems (insertIndex ord s b).sel.indexes (xs.insertIdx p v) = selectedItems s.indexes xs ↔
      ∀ i ∈ s.indexes, ¬ (((min b p : Nat) : ℤ) ≤ i ∧ i < ((max b p : Nat) : ℤ)) := by
  rw [← (C05_insert_index ord s xs p hp v).1, selected_ext hn, insertIndex_indexes, insertIndex_indexes]
  have hlen : (xs.insertIdx p v).length = xs.length + 1 := List.length_insertIdx_of_le_length hp v
  rw [hlen]
  simp only [mem_image_shiftUp]
  constructor
  · intro h
    -- the first selected place between, if the selection was told a place before
    by_cases hbp : b ≤ p
    · rw [Nat.min_eq_left hbp, Nat.max_eq_right hbp]
      intro i hi hb
      have key : ∀ n : Nat, b + n < p → ((b + n : Nat) : ℤ) ∉ s.indexes := by
        intro n
        induction n with
        | zero =>
          intro hn' hm
          rcases (h (b + 0) (by omega)).2 (.inl ⟨by omega, hm⟩) with ⟨h1, _⟩ | ⟨h1, _⟩ <;> omega
        | succ n ih =>
          intro hn' hm
          rcases (h (b + (n + 1)) (by omega)).2 (.inl ⟨by omega, hm⟩) with ⟨h1, _⟩ | ⟨h1, h2⟩
          · omega
          · exact ih (by omega) (by
              have : ((b + (n + 1) : Nat) : ℤ) - 1 = ((b + n : Nat) : ℤ) := by omega
              rwa [this] at h2)
      have h0 := (hr i hi).1
      refine key (i.toNat - b) (by omega) ?_
      have : ((b + (i.toNat - b) : Nat) : ℤ) = i := by omega
      rwa [this]
    · have hpb : p ≤ b := by omega
      rw [Nat.min_eq_right hpb, Nat.max_eq_left hpb]
      intro i hi hb
      have key : ∀ n : Nat, ∀ j : Nat, j + n = b → p ≤ j → j < b → j < xs.length → ((j : Nat) : ℤ) ∉ s.indexes := by
        intro n
        induction n with
        | zero => intro j h1 _ h2; omega
        | succ n ih =>
          intro j h1 h2 h3 h4 hm
          rcases (h (j + 1) (by omega)).2 (.inr ⟨by omega, by simpa using hm⟩) with ⟨h5, h6⟩ | ⟨h5, h6⟩
          · have hjr := (hr _ h6).2
            exact ih (j + 1) (by omega) (by omega) (by omega) (by omega) h6
          · omega
      have h0 := hr i hi
      refine key (b - i.toNat) i.toNat (by omega) (by omega) (by omega) (by omega) ?_
      rwa [Int.toNat_of_nonneg h0.1]
  · intro h i hi
    constructor
    · rintro (⟨h1, h2⟩ | ⟨h1, h2⟩)
      · have := h _ h2
        left; exact ⟨by omega, h2⟩
      · have := h _ h2
        right; exact ⟨by omega, h2⟩
    · rintro (⟨h1, h2⟩ | ⟨h1, h2⟩)
      · have := h _ h2
        left; exact ⟨by omega, h2⟩
      · have := h _ h2
        right; exact ⟨by omega, h2⟩

/-- The list is not changed, the selection is told an insertion at `b`. -/
theorem shift_insert_none {α} (ord : SetOrder) (s : Sel) (xs : List α) (b : Nat) (hn : xs.Nodup) (hr : InRange s.indexes xs) :
    selectedItems (insertIndex ord s b).sel.indexes xs = selectedItems s.indexes xs ↔ ∀ i ∈ s.indexes, i < b := by
  rw [selected_ext hn, insertIndex_indexes]
  simp only [mem_image_shiftUp]
  constructor
  · intro h i hi
    by_contra hb
    have key : ∀ n : Nat, b + n < xs.length → ((b + n : Nat) : ℤ) ∉ s.indexes := by
      intro n
      induction n with
      | zero =>
        intro hn' hm
        rcases (h (b + 0) (by omega)).2 hm with ⟨h1, _⟩ | ⟨h1, _⟩ <;> omega
      | succ n ih =>
        intro hn' hm
        rcases (h (b + (n + 1)) (by omega)).2 hm with ⟨h1, _⟩ | ⟨h1, h2⟩
        · omega
        · exact ih (by omega) (by
            have : ((b + (n + 1) : Nat) : ℤ) - 1 = ((b + n : Nat) : ℤ) := by omega
            rwa [this] at h2)
    have h0 := hr i hi
    refine key (i.toNat - b) (by omega) ?_
    have : ((b + (i.toNat - b) : Nat) : ℤ) = i := by omega
    rwa [this]
  · intro h i hi
    constructor
    · rintro (⟨_, h2⟩ | ⟨h1, h2⟩)
      · exact h2
      · have := h _ h2; omega
    · intro h2
      left; exact ⟨h _ h2, h2⟩

/-- The item at `p` is removed, the selection is told `b`: it selects the same remaining items exactly if of the places from one to the
other all or none are selected. -/
theorem shift_remove {α} (ord : SetOrder) (s : Sel) (xs : List α) (p b : Nat) (hp : p < xs.length) (hn : xs.Nodup) :
    selectedItems (removeIndex ord s b).sel.indexes (xs.eraseIdx p) = selectedItems (s.indexes \ {(p : ℤ)}) xs ↔
      ∀ j : Nat, min b p ≤ j → j < max b p → j + 1 < xs.length → ((j : ℤ) ∈ s.indexes ↔ ((j + 1 : Nat) : ℤ) ∈ s.indexes) := by
  rw [← (C05_remove_index ord s xs p hp).1, selected_ext (hn.sublist (List.eraseIdx_sublist _ _))]
  have h1 : ∀ i : ℤ, i ∈ (removeIndex ord s b).sel.indexes ↔ (if i < b then i else i + 1) ∈ s.indexes := fun i => by
    rw [removeIndex_indexes, mem_image_shiftDown]
    split <;> rename_i h <;> constructor
    · rintro (⟨_, h⟩ | ⟨h, _⟩)
      · exact h
      · omega
    · intro h'; left; exact ⟨h, h'⟩
    · rintro (⟨h', _⟩ | ⟨_, h⟩)
      · omega
      · exact h
    · intro h'; right; exact ⟨by omega, h'⟩
  have h2 := (C05_remove_index ord s xs p hp).2.1
  have hlen : (xs.eraseIdx p).length = xs.length - 1 := List.length_eraseIdx_of_lt hp
  rw [hlen]
  simp only [h1, h2]
  constructor
  · intro h j hj1 hj2 hj3
    have := h j (by omega)
    by_cases hbp : b ≤ p
    · rw [Nat.min_eq_left hbp] at hj1
      rw [Nat.max_eq_right hbp] at hj2
      rw [if_neg (by omega), if_pos (by omega)] at this
      exact_mod_cast this.symm
    · rw [Nat.min_eq_right (by omega)] at hj1
      rw [Nat.max_eq_left (by omega)] at hj2
      rw [if_pos (by omega), if_neg (by omega)] at this
      exact_mod_cast this
  · intro h j hj
    by_cases h3 : min b p ≤ j ∧ j < max b p
    · have := h j h3.1 h3.2 (by omega)
      by_cases hbp : b ≤ p
      · rw [Nat.min_eq_left hbp, Nat.max_eq_right hbp] at h3
        rw [if_neg (by omega), if_pos (by omega)]
        exact_mod_cast this.symm
      · rw [Nat.min_eq_right (by omega), Nat.max_eq_left (by omega)] at h3
        rw [if_pos (by omega), if_neg (by omega)]
        exact_mod_cast this
    · by_cases h4 : j < min b p
      · rw [if_pos (by omega), if_pos (by omega)]
      · rw [if_neg (by omega), if_neg (by omega)]

/-- The list is not changed, the selection is told a removal at `b`. -/
theorem shift_remove_none {α} (ord : SetOrder) (s : Sel) (xs : List α) (b : Nat) (hn : xs.Nodup) (hr : InRange s.indexes xs) :
    selectedItems (removeIndex ord s b).sel.indexes xs = selectedItems s.indexes xs ↔ ∀ i ∈ s.indexes, i < b := by
  rw [selected_ext hn, removeIndex_indexes]
  simp only [mem_image_shiftDown]
  constructor
  · intro h i hi
    by_contra hb
    have key : ∀ n : Nat, ∀ j : Nat, j + n = xs.length → b ≤ j → ((j : Nat) : ℤ) ∉ s.indexes := by
      intro n
      induction n with
      | zero =>
        intro j h1 _ hm
        have := (hr _ hm).2
        omega
      | succ n ih =>
        intro j h1 h2 hm
        rcases (h j (by omega)).2 hm with ⟨h3, _⟩ | ⟨_, h4⟩
        · omega
        · exact ih (j + 1) (by omega) (by omega) (by exact_mod_cast h4)
    have h0 := hr i hi
    refine key (xs.length - i.toNat) i.toNat (by omega) (by omega) ?_
    rwa [Int.toNat_of_nonneg h0.1]
  · intro h i hi
    constructor
    · rintro (⟨_, h2⟩ | ⟨h1, h2⟩)
      · exact h2
      · have := h _ h2; omega
    · intro h2
      left; exact ⟨h _ h2, h2⟩

/-! ### C25 -/

section
variable {α C K : Type*} [DecidableEq α] [LinearOrder K]

omit [DecidableEq α] in
theorem nodup_insertIdx {l : List α} (hn : l.Nodup) {x : α} (hx : x ∉ l) {p : Nat} (hp : p ≤ l.length) : (l.insertIdx p x).Nodup := by
  have := (List.perm_insertIdx x l hp).nodup_iff
  rw [this]
  exact List.nodup_cons.2 ⟨hx, hn⟩

theorem insertedMaster_items {s : FL α C K} {x : α} (hl : s.level = 0) (hn : s.items.Nodup) (hx : x ∉ s.items) (ha : s.acc x = true) :
    (s.insertedMaster x).items = s.items.insertIdx ((s.insertedMaster x).items.idxOf x) x ∧
      (s.insertedMaster x).items.idxOf x ≤ s.items.length := by
  unfold FL.insertedMaster
  rw [if_neg (by omega), if_pos ha]
  have key : ∀ pos : Int, (Py.insert s.items pos x).idxOf x = insertPos s.items.length pos := by
    intro pos
    have hle := insertPos_le s.items.length pos
    unfold Py.insert
    generalize insertPos s.items.length pos = p at hle
    have hlt : p < (s.items.insertIdx p x).length := by
      rw [List.length_insertIdx_of_le_length hle]; omega
    have := (nodup_insertIdx hn hx hle).idxOf_getElem p hlt
    rwa [List.getElem_insertIdx_self] at this
  have h2 : (s.insertItem s.cmp x).items.idxOf x = insertPos s.items.length ((match s.cmp with
      | some c => findSorted c x s.items
      | none => findUnsorted s.acc x s.master : Nat) : Int) := key _
  exact ⟨by rw [h2]; rfl, by rw [h2]; exact insertPos_le _ _⟩

/-- C25, exactly: in a state reached by an admissible history with no change block open, sorted or not, an item that the source does not
have is inserted into the source at `k`. If the filter accepts it, a selection goes on to select the same items if and only if none of
its places is between `k` and the place where the item appears in the filtered list; if the filter rejects it, if and only if all its
places are before `k`. -/
theorem C25_insert_iff (sord : SetOrder) (ord : IterOrder α) (content : α → C) (sels : List Sel)
    (ops : List (IterOrder α × LOp α C K)) (ha : (FL.init content sels).AdmAll false sord ops) (l : List α) (v : α) (k : Nat) :
    let s := (FL.init content sels).run sord ops
    let t := s.step sord ord (.srcInsert v k)
    s.level = 0 → s.source = some l → k ≤ l.length → v ∉ l →
      List.Forall₂ (fun x y : Sel => InRange x.indexes s.items →
        (s.filter (s.content v) = true → (selectedItems y.indexes t.items = selectedItems x.indexes s.items ↔
          ∀ i ∈ x.indexes, ¬ (((min k (t.items.idxOf v) : Nat) : ℤ) ≤ i ∧ i < ((max k (t.items.idxOf v) : Nat) : ℤ)))) ∧
        (s.filter (s.content v) = false → (selectedItems y.indexes t.items = selectedItems x.indexes s.items ↔
          ∀ i ∈ x.indexes, i < k))) s.sels t.sels := by
  intro s t hl hs hk hv
  have h : LInv false s := (LInv.init false content sels).run sord ops ha
  have hml : s.master = l := by rw [h.src, hs]; rfl
  have hvi : v ∉ s.items := fun hm => hv (by
    have := (CorrectFor.perm (h.good hl)).mem_iff.1 hm
    rw [hml] at this
    exact (List.mem_filter.1 this).1)
  set u : FL α C K := { s with source := some (Py.insert l k v), master := Py.insert s.master k v } with hu
  have et : t = { u.insertedMaster v with sels := (u.insertedMaster v).sels.map fun y => (insertIndex sord y k).sel } := by
    change s.step sord ord _ = _
    simp only [FL.step, hs, FL.itemInserted]
    rw [if_neg (by rw [hml]; exact hv)]
  have hsel : t.sels = s.sels.map fun y => (insertIndex sord y k).sel := by
    rw [et]
    simp only [FL.insertedMaster, FL.insertItem]
    split_ifs <;> rfl
  have hti : t.items = (u.insertedMaster v).items := by rw [et]
  rw [hsel, List.forall₂_map_right_iff, List.forall₂_same]
  intro x _ hr
  constructor
  · intro hacc
    obtain ⟨h1, h2⟩ := insertedMaster_items (s := u) hl h.nodupItems hvi hacc
    rw [← hti] at h1 h2
    have hx := shift_insert sord x s.items (t.items.idxOf v) k v h2 (nodup_insertIdx h.nodupItems hvi h2) hr
    rw [show s.items.insertIdx (t.items.idxOf v) v = t.items from h1.symm] at hx
    exact hx
  · intro hacc
    have h1 : t.items = s.items := by
      rw [hti]
      unfold FL.insertedMaster
      rw [if_neg (by change ¬ s.level > 0; omega), if_neg (by change ¬ s.filter (s.content v) = true; simp [hacc])]
    rw [h1]
    exact shift_insert_none sord x s.items k h.nodupItems hr

/-- C25, exactly: the item at `k` of the source is removed from it. If it is listed, a selection goes on to select the same other items
if and only if of the places from `k` to that of the item in the filtered list all or none were selected; if it is not listed, if and
only if all selected places are before `k`. -/
theorem C25_remove_iff (sord : SetOrder) (ord : IterOrder α) (content : α → C) (sels : List Sel)
    (ops : List (IterOrder α × LOp α C K)) (ha : (FL.init content sels).AdmAll false sord ops) (l : List α) (k : Nat) (hk : k < l.length) :
    let s := (FL.init content sels).run sord ops
    let t := s.step sord ord (.srcRemove k)
    s.level = 0 → s.source = some l →
      List.Forall₂ (fun x y : Sel => InRange x.indexes s.items →
        (l[k] ∈ s.items →
          (selectedItems y.indexes t.items = selectedItems (x.indexes \ {(s.items.idxOf l[k] : ℤ)}) s.items ↔
            ∀ j : Nat, min k (s.items.idxOf l[k]) ≤ j → j < max k (s.items.idxOf l[k]) → j + 1 < s.items.length →
              ((j : ℤ) ∈ x.indexes ↔ ((j + 1 : Nat) : ℤ) ∈ x.indexes))) ∧
        (l[k] ∉ s.items → (selectedItems y.indexes t.items = selectedItems x.indexes s.items ↔ ∀ i ∈ x.indexes, i < k))) s.sels t.sels := by
  intro s t hl hs
  have h : LInv false s := (LInv.init false content sels).run sord ops ha
  have hml : s.master = l := by rw [h.src, hs]; rfl
  set u : FL α C K := { s with source := some (l.eraseIdx k), master := l.eraseIdx k } with hu
  have et : t = { u.removedMaster l[k] with sels := (u.removedMaster l[k]).sels.map fun y => (removeIndex sord y k).sel } := by
    change s.step sord ord _ = _
    simp only [FL.step, hs, Py.get?_nat hk, Py.del?_nat hk, FL.itemRemoved]
    rw [hml, Py.del?_nat hk]
  have hsel : t.sels = s.sels.map fun y => (removeIndex sord y k).sel := by
    rw [et]
    simp only [FL.removedMaster, FL.removeItem]
    split_ifs <;> rfl
  have hti : t.items = (u.removedMaster l[k]).items := by rw [et]
  rw [hsel, List.forall₂_map_right_iff, List.forall₂_same]
  intro x _ hr
  constructor
  · intro hm
    have h1 : t.items = s.items.eraseIdx (s.items.idxOf l[k]) := by
      rw [hti]
      unfold FL.removedMaster
      rw [if_neg (by change ¬ s.level > 0; omega), if_pos (show l[k] ∈ u.items from hm)]
      rfl
    rw [h1]
    exact shift_remove sord x s.items _ k (List.idxOf_lt_length_of_mem hm) h.nodupItems
  · intro hm
    have h1 : t.items = s.items := by
      rw [hti]
      unfold FL.removedMaster
      rw [if_neg (by change ¬ s.level > 0; omega), if_neg (show l[k] ∉ u.items from hm)]
    rw [h1]
    exact shift_remove_none sord x s.items k h.nodupItems hr

end

/-- Sorted in reverse: the source is `[1, 2, 3]`, the list `[3, 2, 1]`. 4 is inserted at 3 of the source and appears at 0: the selection
of 3 (place 0) is lost. Inserted at 0 of the source it would be kept. -/
example :
    let s : FL Nat Nat Nat := (FL.init id [⟨{}, none, .multiple⟩]).run ascending
      [(idOrder, .setKey (some id)), (idOrder, .setReverse true), (idOrder, .setContainer (some [1, 2, 3])), (idOrder, .select 0 (.set 0))]
    s.items = [3, 2, 1] ∧ (s.sels.map fun x => selectedItems x.indexes s.items) = [[3]] ∧
    ((s.step ascending idOrder (.srcInsert 4 3)).sels.map fun x =>
      selectedItems x.indexes (s.step ascending idOrder (.srcInsert 4 3)).items) = [[4]] ∧
    ((s.step ascending idOrder (.srcInsert 4 0)).sels.map fun x =>
      selectedItems x.indexes (s.step ascending idOrder (.srcInsert 4 0)).items) = [[3]] := by decide

/-! ### C18 -/

/-- C18, exactly: in a state reached by an admissible history, a child is inserted at `k` into a master item before which the list has
`n` children. A selection goes on to select the same items if and only if none of its places is between `k` and `n + k`. -/
theorem C18_insert_iff {M C : Type*} [DecidableEq M] (ord : SetOrder) (kids : M → List C) (sels : List Sel) (ops : List (FOp M C))
    (ha : (FM.init kids sels).AdmAll ord ops) (m : M) (c : C) (k : Nat) (pre post : List M) :
    let s := (FM.init kids sels).run ord ops
    let t := s.step ord (.childInsert m c k)
    s.source = some (pre ++ m :: post) → k ≤ (s.kids m).length → t.items.Nodup →
      List.Forall₂ (fun x y : Sel => InRange x.indexes s.items →
        (selectedItems y.indexes t.items = selectedItems x.indexes s.items ↔
          ∀ i ∈ x.indexes, ¬ ((k : ℤ) ≤ i ∧ i < (pre.flatMap s.kids).length + k))) s.sels t.sels := by
  have h := (FInv.init kids sels).run ord ops ha
  intro s t hs hk hn
  change FInv (s.source.getD []) s at h
  have hmaster : s.master = pre ++ m :: post := by rw [h.src, hs]; rfl
  have hall : ∀ x ∈ s.master, s.children x = s.kids x := fun x hx => by rw [h.link, if_pos hx]
  have hm : m ∈ s.master := by rw [hmaster]; simp
  have hnd := h.core.nodup
  rw [hmaster, List.nodup_append] at hnd
  have h1 : m ∉ pre := fun hp => hnd.2.2 m hp m (by simp) rfl
  have e1 : pre.flatMap s.children = pre.flatMap s.kids :=
    List.flatMap_congr fun x hx => hall x (by rw [hmaster]; simp [hx])
  have e2 : post.flatMap s.children = post.flatMap s.kids :=
    List.flatMap_congr fun x hx => hall x (by rw [hmaster]; simp [hx])
  have hl := (h.listen m).2 hm
  have hoff : offset s.children m s.master = (pre.flatMap s.kids).length := by rw [hmaster, offset_eq _ _ _ _ h1, e1]
  have hitems : s.items = pre.flatMap s.kids ++ s.kids m ++ post.flatMap s.kids := by
    rw [h.core.items, hmaster, List.flatMap_append, List.flatMap_cons, e1, e2, hall m hm, List.append_assoc]
  have hle : (pre.flatMap s.kids).length + k ≤ s.items.length := by rw [hitems]; simp; omega
  have hti : t.items = s.items.insertIdx ((pre.flatMap s.kids).length + k) c ∧
      t.sels = s.sels.map fun y => (insertIndex ord y k).sel := by
    change (s.step ord (.childInsert m c k)).items = _ ∧ (s.step ord (.childInsert m c k)).sels = _
    simp only [FM.step, hl, if_true, FM.childInserted]
    rw [hoff, ← Nat.cast_add, Py.insert_nat hle]
    exact ⟨rfl, trivial⟩
  rw [hti.1] at hn ⊢
  rw [hti.2, List.forall₂_map_right_iff, List.forall₂_same]
  intro x _ hr
  have := shift_insert ord x s.items _ k c hle hn hr
  rw [Nat.min_eq_left (by omega), Nat.max_eq_right (by omega)] at this
  simpa using this

/-! ### C16 -/

theorem insertIndex_neg (ord : SetOrder) (s : Sel) (hr : ∀ a ∈ s.indexes, 0 ≤ a) (i : ℤ) :
    (insertIndex ord s i).sel.indexes = (insertIndex ord s (i.toNat : ℤ)).sel.indexes := by
  rw [insertIndex_indexes, insertIndex_indexes]
  apply Finset.image_congr
  intro a ha
  have := hr a ha
  simp only [shiftUp]
  by_cases h : a < i
  · rw [if_pos h, if_pos (by omega)]
  · rw [if_neg h, if_neg (by omega)]

/-- C16, exactly, for any index that Python accepts: an item that the list does not have is inserted. A selection goes on to select the
same items if and only if none of its places is between the index the container gave (0 if negative) and the place of the item. -/
theorem C16_insert_iff {α β : Type*} (f : Nat → α → β) (hasUnmap : Bool) (ord : SetOrder) (s : MM α β) (l : List α) (v : α) (i : ℤ)
    (hs : s.source = some l) (hlen : l.length = s.items.length) (hn : s.items.Nodup) (hv : f s.calls v ∉ s.items) :
    let t := s.step f hasUnmap ord (.srcInsert v i)
    List.Forall₂ (fun x y : Sel => InRange x.indexes s.items →
      (selectedItems y.indexes t.items = selectedItems x.indexes s.items ↔
        ∀ a ∈ x.indexes, ¬ (((min i.toNat (Py.insertPos l.length i) : Nat) : ℤ) ≤ a ∧
          a < ((max i.toNat (Py.insertPos l.length i) : Nat) : ℤ)))) s.sels t.sels := by
  have hp := Py.insertPos_le s.items.length i
  simp only [MM.step, hs, MM.masterInserted, Py.insert]
  rw [List.forall₂_map_right_iff, List.forall₂_same, hlen]
  intro x _ hr
  rw [insertIndex_neg ord x (fun a ha => (hr a ha).1) i]
  have hn' : (s.items.insertIdx (Py.insertPos s.items.length i) (f s.calls v)).Nodup := by
    rw [(List.perm_insertIdx _ s.items hp).nodup_iff]
    exact List.nodup_cons.2 ⟨hv, hn⟩
  exact shift_insert ord x s.items _ i.toNat _ hp hn' hr

/-- C16, exactly: the item at a valid index `i`, counted from the back if negative, is removed; `p` is its place. A selection goes on to
select the same other items if and only if `i` is counted from the front, or up to the place `p` all places are selected or none. -/
theorem C16_remove_iff {α β : Type*} (f : Nat → α → β) (hasUnmap : Bool) (ord : SetOrder) (s : MM α β) (l : List α) (i : ℤ) (p : Nat)
    (hs : s.source = some l) (hlen : l.length = s.items.length) (hn : s.items.Nodup) (hi : Py.index? l.length i = some p) :
    let t := s.step f hasUnmap ord (.srcRemove i)
    List.Forall₂ (fun x y : Sel =>
      (selectedItems y.indexes t.items = selectedItems (x.indexes \ {(p : ℤ)}) s.items ↔
        0 ≤ i ∨ ∀ j : Nat, j < p → ((j : ℤ) ∈ x.indexes ↔ ((j + 1 : Nat) : ℤ) ∈ x.indexes))) s.sels t.sels := by
  have hp : p < s.items.length := hlen ▸ Py.index?_lt hi
  have hi' : Py.index? s.items.length i = some p := hlen ▸ hi
  have hpi : 0 ≤ i → i = p := by
    intro h0
    obtain ⟨k, rfl⟩ := Int.eq_ofNat_of_zero_le h0
    have hk : k < l.length := by
      by_contra hk
      rw [Py.index?_nat_none (by omega)] at hi
      cases hi
    have := Py.index?_nat hk
    rw [this] at hi
    exact_mod_cast Option.some.inj hi
  have e1 : Py.del? l i = some (l.eraseIdx p) := by simp [Py.del?, hi]
  have e2 : Py.del? s.items i = some (s.items.eraseIdx p) := by simp [Py.del?, hi']
  have e3 : Py.get? s.items i = some s.items[p] := by simp [Py.get?, hi', hp]
  simp only [MM.step, hs, e1, MM.masterRemoved, e2, e3]
  rw [List.forall₂_map_right_iff, List.forall₂_same]
  intro x _
  by_cases h0 : 0 ≤ i
  · rw [hpi h0]
    have := shift_remove ord x s.items p p hp hn
    rw [this]
    simp only [Nat.cast_nonneg, true_or, iff_true]
    intro j h1 h2; omega
  · have hz : selectedItems (removeIndex ord x i).sel.indexes (s.items.eraseIdx p) =
        selectedItems (removeIndex ord x ((0 : Nat) : ℤ)).sel.indexes (s.items.eraseIdx p) := by
      rw [selected_ext (hn.sublist (List.eraseIdx_sublist _ _))]
      intro j _
      rw [removeIndex_indexes, removeIndex_indexes, mem_image_shiftDown, mem_image_shiftDown]
      constructor
      · rintro (⟨h, _⟩ | ⟨_, h⟩)
        · omega
        · exact .inr ⟨by omega, h⟩
      · rintro (⟨h, _⟩ | ⟨_, h⟩)
        · omega
        · exact .inr ⟨by omega, h⟩
    rw [hz, shift_remove ord x s.items p 0 hp hn]
    simp only [h0, false_or, Nat.zero_min, Nat.zero_le, true_imp_iff, Nat.zero_max]
    constructor
    · intro h j hj; exact h j hj (by omega)
    · intro h j hj _; exact h j hj

/-- Items 10, 20, 30 with 10 selected: removing the last item as number -1 loses the selection, as number 2 does not. -/
example :
    let s : MM Nat Nat := ⟨some [1, 2, 3], [10, 20, 30], 0, [⟨{0}, some 0, .multiple⟩], 3, []⟩
    ((s.step (fun _ a => 10 * a) true ascending (.srcRemove (-1))).sels.map fun x =>
      selectedItems x.indexes [10, 20]) = [[]] ∧
    ((s.step (fun _ a => 10 * a) true ascending (.srcRemove 2)).sels.map fun x => selectedItems x.indexes [10, 20]) = [[10]] := by decide

end Verif.ListModel
