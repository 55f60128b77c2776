import Verif.ListModel.Filtered

/-! Lemmas about `FilteredListModel`: binary search, insertion, the update loops. -/

namespace Verif.ListModel

open Verif.Py Verif.Selection

section
variable {α C K : Type*} [DecidableEq α] [LinearOrder K]

/-- Specification: an observer with a copy of the list applies each notification by index; the copy must equal the list
the model has when it sends the notification. With `strict`, a removal must name the item at the index. -/
inductive ReplaysAt (strict : Bool) : List α → List (Notif α × List α) → List α → Prop where
  | nil (l) : ReplaysAt strict l [] l
  | ins {l v i ns l'} : ReplaysAt strict (Py.insert l i v) ns l' →
      ReplaysAt strict l ((.inserted v i, Py.insert l i v) :: ns) l'
  | rem {l v i l1 ns l'} : (strict = true → Py.get? l i = some v) → Py.del? l i = some l1 →
      ReplaysAt strict l1 ns l' → ReplaysAt strict l ((.removed v i, l1) :: ns) l'

omit [DecidableEq α] in
theorem ReplaysAt.append {b : Bool} {x y z : List α} {ms ns : List (Notif α × List α)} (h1 : ReplaysAt b x ms y)
    (h2 : ReplaysAt b y ns z) : ReplaysAt b x (ms ++ ns) z := by
  induction h1 with
  | nil => exact h2
  | ins _ ih => exact .ins (ih h2)
  | rem hg hd _ ih => exact .rem hg hd (ih h2)

omit [DecidableEq α] in
theorem ReplaysAt.weaken {b : Bool} {x y : List α} {ms : List (Notif α × List α)} (h : ReplaysAt true x ms y) :
    ReplaysAt b x ms y := by
  induction h with
  | nil => exact .nil _
  | ins _ ih => exact .ins ih
  | rem hg hd _ ih => exact .rem (fun _ => hg rfl) hd ih

/-! ### Binary search -/

theorem takeWhile_length_le (p : α → Bool) (l : List α) : (l.takeWhile p).length ≤ l.length :=
  (List.takeWhile_sublist p).length_le

/-- On a list where `p` is never true after being false, positions before the first `false` satisfy `p`, others do not. -/
theorem mono_getElem {p : α → Bool} {l : List α} (h : l.Pairwise fun a b => p b = true → p a = true) (k : Nat)
    (hk : k < l.length) : p l[k] = true ↔ k < (l.takeWhile p).length := by
  induction l generalizing k with
  | nil => simp at hk
  | cons x l ih =>
    rw [List.pairwise_cons] at h
    by_cases hx : p x = true
    · rw [List.takeWhile_cons_of_pos hx]
      cases k with
      | zero => simp [hx]
      | succ k => simpa using ih h.2 k (by simpa using hk)
    · rw [List.takeWhile_cons_of_neg hx]
      cases k with
      | zero => simp [hx]
      | succ k =>
        simp only [List.getElem_cons_succ, List.length_nil, Nat.not_lt_zero, iff_false]
        intro hh
        exact hx (h.1 _ (List.getElem_mem _) hh)

theorem bsearch_eq {p : α → Bool} {l : List α} (h : l.Pairwise fun a b => p b = true → p a = true) (fuel low high : Nat)
    (h1 : low ≤ (l.takeWhile p).length) (h2 : (l.takeWhile p).length ≤ high) (h3 : high ≤ l.length)
    (h4 : high - low ≤ fuel) : bsearch p l fuel low high = (l.takeWhile p).length := by
  induction fuel generalizing low high with
  | zero => simp only [bsearch]; omega
  | succ fuel ih =>
    unfold bsearch
    by_cases hlt : low < high
    · rw [if_pos hlt]
      have hm : (low + high) / 2 < l.length := by omega
      rw [List.getElem?_eq_getElem hm]
      simp only
      have key := mono_getElem h _ hm
      by_cases hp : p l[(low + high) / 2] = true
      · rw [if_pos hp]
        exact ih _ _ (by have := key.1 hp; omega) h2 h3 (by omega)
      · rw [if_neg hp]
        exact ih _ _ h1 (not_lt.1 fun hh => hp (key.2 hh)) (by omega) (by omega)
    · rw [if_neg hlt]; omega

theorem findSorted_eq {cmp : α → α → Bool} {x : α} {l : List α}
    (h : l.Pairwise fun a b => cmp b x = true → cmp a x = true) :
    findSorted cmp x l = (l.takeWhile fun y => cmp y x).length :=
  bsearch_eq h _ _ _ (Nat.zero_le _) (takeWhile_length_le _ _) (le_refl _) (by omega)

/-- The result of the search is a legal insertion position in any case. -/
theorem bsearch_le (p : α → Bool) (l : List α) (fuel low high : Nat) (h : low ≤ high) :
    bsearch p l fuel low high ≤ high := by
  induction fuel generalizing low high with
  | zero => exact h
  | succ fuel ih =>
    unfold bsearch
    by_cases hlt : low < high
    · rw [if_pos hlt]
      cases l[(low + high) / 2]? with
      | none => exact h
      | some y =>
        simp only
        by_cases hp : p y = true
        · rw [if_pos hp]; exact ih _ _ (by omega)
        · rw [if_neg hp]; exact (ih low _ (by omega)).trans (by omega)
    · rw [if_neg hlt]; exact h

theorem findSorted_le (cmp : α → α → Bool) (x : α) (l : List α) : findSorted cmp x l ≤ l.length :=
  bsearch_le _ _ _ _ _ (Nat.zero_le _)

theorem insertIdx_takeWhile (p : α → Bool) (l : List α) (x : α) :
    l.insertIdx (l.takeWhile p).length x = l.takeWhile p ++ x :: l.dropWhile p := by
  induction l with
  | nil => rfl
  | cons y l ih =>
    by_cases hy : p y = true
    · rw [List.takeWhile_cons_of_pos hy, List.dropWhile_cons_of_pos hy]
      simp [ih]
    · rw [List.takeWhile_cons_of_neg hy, List.dropWhile_cons_of_neg hy]
      simp

/-- A total preorder together with its strict comparison function. -/
structure IsCmp (cmp : α → α → Bool) (le : α → α → Prop) : Prop where
  total : ∀ a b, le a b ∨ le b a
  trans : ∀ a b c, le a b → le b c → le a c
  cmp : ∀ a b, cmp a b = true ↔ ¬ le b a

theorem IsCmp.le_of_cmp {cmp : α → α → Bool} {le : α → α → Prop} (h : IsCmp cmp le) {a b : α} (hc : cmp a b = true) :
    le a b := (h.total a b).resolve_right ((h.cmp a b).1 hc)

theorem IsCmp.le_of_not_cmp {cmp : α → α → Bool} {le : α → α → Prop} (h : IsCmp cmp le) {a b : α}
    (hc : ¬ cmp a b = true) : le b a := by
  by_contra hn; exact hc ((h.cmp a b).2 hn)

theorem IsCmp.mono {cmp : α → α → Bool} {le : α → α → Prop} (h : IsCmp cmp le) {l : List α} (hs : l.Pairwise le) (x : α) :
    l.Pairwise fun a b => cmp b x = true → cmp a x = true := by
  refine hs.imp fun {a b} hab hc => ?_
  rw [h.cmp] at hc ⊢
  exact fun hxa => hc (h.trans x a b hxa hab)

/-- Insertion with the binary search: everything strictly smaller before, everything else after. -/
theorem insert_findSorted {cmp : α → α → Bool} {le : α → α → Prop} (h : IsCmp cmp le) {l : List α} (hs : l.Pairwise le)
    (x : α) : Py.insert l (findSorted cmp x l : Nat) x =
      (l.takeWhile fun y => cmp y x) ++ x :: (l.dropWhile fun y => cmp y x) := by
  rw [Py.insert_nat (findSorted_le _ _ _), findSorted_eq (h.mono hs x), insertIdx_takeWhile]

theorem dropWhile_not_cmp {cmp : α → α → Bool} {le : α → α → Prop} (h : IsCmp cmp le) {l : List α} (hs : l.Pairwise le)
    (x y : α) (hy : y ∈ l.dropWhile fun y => cmp y x) : ¬ cmp y x = true := by
  have hm := h.mono hs x
  induction l with
  | nil => simp at hy
  | cons z l ih =>
    rw [List.pairwise_cons] at hm
    by_cases hz : cmp z x = true
    · rw [List.dropWhile_cons_of_pos (p := fun y => cmp y x) hz] at hy
      exact ih (List.pairwise_cons.1 hs).2 hy hm.2
    · rw [List.dropWhile_cons_of_neg (p := fun y => cmp y x) hz] at hy
      rcases List.mem_cons.1 hy with rfl | hy
      · exact hz
      · exact fun hh => hz (hm.1 y hy hh)

theorem takeWhile_cmp {p : α → Bool} {l : List α} {y : α} (hy : y ∈ l.takeWhile p) : p y = true := by
  induction l with
  | nil => simp at hy
  | cons z l ih =>
    by_cases hz : p z = true
    · rw [List.takeWhile_cons_of_pos hz] at hy
      rcases List.mem_cons.1 hy with rfl | hy
      · exact hz
      · exact ih hy
    · rw [List.takeWhile_cons_of_neg hz] at hy; simp at hy

theorem sorted_insert {cmp : α → α → Bool} {le : α → α → Prop} (h : IsCmp cmp le) {l : List α} (hs : l.Pairwise le)
    (x : α) : (Py.insert l (findSorted cmp x l : Nat) x).Pairwise le := by
  rw [insert_findSorted h hs]
  have e := List.takeWhile_append_dropWhile (p := fun y => cmp y x) (l := l)
  have hs' := hs
  rw [← e, List.pairwise_append] at hs'
  obtain ⟨h1, h2, h3⟩ := hs'
  rw [List.pairwise_append]
  refine ⟨h1, List.pairwise_cons.2 ⟨?_, h2⟩, ?_⟩
  · intro y hy
    exact h.le_of_not_cmp (dropWhile_not_cmp h hs x y hy)
  · intro a ha b hb
    have ha' : le a x := h.le_of_cmp (takeWhile_cmp (p := fun y => cmp y x) ha)
    rcases List.mem_cons.1 hb with rfl | hb
    · exact ha'
    · exact h3 a ha b hb

theorem perm_pyInsert (l : List α) (i : Int) (x : α) : (Py.insert l i x).Perm (x :: l) :=
  List.perm_insertIdx x l (Py.insertPos_le _ _)

/-! ### The comparison by key -/

/-- The order a key and a direction define. -/
def leKey {κ : Type*} [LinearOrder κ] (rev : Bool) (key : α → κ) (a b : α) : Prop :=
  if rev then key b ≤ key a else key a ≤ key b

instance {κ : Type*} [LinearOrder κ] (rev : Bool) (key : α → κ) : DecidableRel (leKey rev key) := fun a b => by
  unfold leKey; infer_instance

theorem isCmp_key {κ : Type*} [LinearOrder κ] (rev : Bool) (key : α → κ) : IsCmp (cmpKey rev key) (leKey rev key) := by
  cases rev
  · refine ⟨fun a b => ?_, fun a b c h1 h2 => ?_, fun a b => ?_⟩
    · simpa [leKey] using le_total (key a) (key b)
    · simp only [leKey, Bool.false_eq_true, if_false] at *; exact h1.trans h2
    · simp [cmpKey, leKey]
  · refine ⟨fun a b => ?_, fun a b c h1 h2 => ?_, fun a b => ?_⟩
    · simpa [leKey] using le_total (key b) (key a)
    · simp only [leKey, if_true] at *; exact h2.trans h1
    · simp [cmpKey, leKey]

/-! ### Position in the unsorted list -/

theorem findUnsorted_eq (acc : α → Bool) (x : α) (pre post : List α) (h : x ∉ pre) :
    findUnsorted acc x (pre ++ x :: post) = (pre.filter acc).length := by
  induction pre with
  | nil => simp [findUnsorted]
  | cons y pre ih =>
    simp only [List.mem_cons, not_or] at h
    simp only [List.cons_append, findUnsorted, if_neg (Ne.symm h.1), ih h.2]
    by_cases hy : acc y = true
    · simp [hy]; omega
    · simp [hy]

theorem findUnsorted_insert (acc : α → Bool) (x : α) (pre post : List α) (h : x ∉ pre) (hx : acc x = true) :
    Py.insert ((pre ++ post).filter acc) (findUnsorted acc x (pre ++ x :: post) : Nat) x =
      (pre ++ x :: post).filter acc := by
  rw [findUnsorted_eq acc x pre post h, List.filter_append]
  have := insertIdx_middle (pre.filter acc) [] (post.filter acc) 0 (le_refl _) x
  simp only [List.append_nil, Nat.add_zero, List.insertIdx_zero] at this
  rw [Py.insert_nat (by simp), this]
  simp [List.filter_append, hx]

/-! ### Removing -/

theorem filter_erase_eq {l : List α} (h : l.Nodup) (x : α) (acc : α → Bool) :
    (l.erase x).filter acc = (l.filter acc).erase x := by
  rw [h.erase_eq_filter, (h.filter acc).erase_eq_filter, List.filter_filter, List.filter_filter]
  congr 1; funext y; rw [Bool.and_comm]

theorem eraseIdx_idxOf (l : List α) (x : α) : l.eraseIdx (l.idxOf x) = l.erase x := by
  rw [List.erase_eq_eraseIdx_of_idxOf rfl]

/-! ### Logs -/

/-- The insert and remove notifications in a log, with the items at that moment. -/
def notes : List (FEv α) → List (Notif α × List α)
  | [] => []
  | .note n l :: es => (n, l) :: notes es
  | _ :: es => notes es

omit [DecidableEq α] in
@[simp] theorem notes_append (a b : List (FEv α)) : notes (a ++ b) = notes a ++ notes b := by
  induction a with
  | nil => rfl
  | cons x a ih => cases x <;> simp [notes, ih]

/-- Follow a log: the depth of open begin events, `none` if an end event has no begin event or an insert or remove
notification is sent while no begin event is open. -/
def scan : Nat → List (FEv α) → Option Nat
  | d, [] => some d
  | d, .beginChanges :: l => scan (d + 1) l
  | d + 1, .endChanges :: l => scan d l
  | 0, .endChanges :: _ => none
  | d + 1, .note _ _ :: l => scan (d + 1) l
  | 0, .note _ _ :: _ => none
  | d, .reset :: l => scan d l

omit [DecidableEq α] in
theorem scan_append (d : Nat) (a b : List (FEv α)) : scan d (a ++ b) = (scan d a).bind fun e => scan e b := by
  induction a generalizing d with
  | nil => rfl
  | cons x a ih => cases x <;> cases d <;> simp [scan, ih]

/-- What the removal loop of the incremental update does: it leaves the items that are not to be removed. -/
theorem removeLoop_eq (rm : α → Bool) (xs kept : List α) (i r : Nat) (s : FL α C K) (hs : s.items = kept ++ xs)
    (hi : i = kept.length + r) :
    ∃ ns, FL.removeLoop rm xs i r s = { s with items := kept ++ xs.filter (fun x => !rm x), log := s.log ++ ns } ∧
      ReplaysAt true s.items (notes ns) (kept ++ xs.filter (fun x => !rm x)) ∧
      (∀ d, scan (d + 1) ns = some (d + 1)) := by
  induction xs generalizing kept i r s with
  | nil =>
    simp only [FL.removeLoop, List.filter_nil, List.append_nil] at *
    refine ⟨[], ?_, by rw [hs]; exact .nil _, fun d => rfl⟩
    rw [← hs]; simp
  | cons x xs ih =>
    unfold FL.removeLoop
    by_cases hx : rm x = true
    · rw [if_pos hx]
      have hpos : i - r = kept.length := by omega
      have hlt : kept.length < s.items.length := by rw [hs]; simp
      have he : s.items.eraseIdx kept.length = kept ++ xs := by
        rw [hs, List.eraseIdx_append_of_length_le (le_refl _)]; simp
      have hv : s.items[kept.length] = x := by simp [hs]
      obtain ⟨ns, h1, h2, h3⟩ := ih kept (i + 1) (r + 1) (s.delAt (i - r) x)
        (by simp only [FL.delAt]; rw [hpos, he]) (by omega)
      have hf : (x :: xs).filter (fun y => !rm y) = xs.filter (fun y => !rm y) := by simp [hx]
      rw [hf]
      refine ⟨.note (.removed x kept.length) (s.items.eraseIdx kept.length) :: ns, ?_, ?_, ?_⟩
      · rw [h1]; simp [FL.delAt, hpos]
      · refine .rem (fun _ => ?_) (Py.del?_nat hlt) ?_
        · rw [Py.get?_nat hlt, hv]
        · simpa [FL.delAt, hpos] using h2
      · intro d; simpa [scan] using h3 d
    · rw [if_neg hx]
      have hf : kept ++ (x :: xs).filter (fun y => !rm y) = (kept ++ [x]) ++ xs.filter (fun y => !rm y) := by simp [hx]
      rw [hf]
      exact ih (kept ++ [x]) (i + 1) r s (by simp [hs]) (by simp; omega)

/-- The items named by the removals among the notifications. -/
def removedNames : List (Notif α × List α) → List α
  | [] => []
  | (.removed v _, _) :: l => v :: removedNames l
  | (.inserted _ _, _) :: l => removedNames l

theorem popLoop_eq (xs : List α) (s : FL α C K) (h : xs.length = s.items.length) :
    ∃ ns, FL.popLoop xs s = { s with items := [], log := s.log ++ ns } ∧
      ReplaysAt false s.items (notes ns) [] ∧ (∀ d, scan (d + 1) ns = some (d + 1)) ∧ removedNames (notes ns) = xs := by
  induction xs generalizing s with
  | nil =>
    have h0 : s.items = [] := List.length_eq_zero_iff.1 (by simpa using h.symm)
    refine ⟨[], ?_, by rw [h0]; exact .nil _, fun d => rfl, rfl⟩
    simp only [FL.popLoop, List.append_nil]
    rw [← h0]
  | cons x xs ih =>
    simp only [List.length_cons] at h
    set t : FL α C K :=
      { s with
        items := s.items.dropLast
        log := s.log ++ [.note (.removed x (s.items.dropLast.length : Nat)) s.items.dropLast] } with ht
    obtain ⟨ns, h1, h2, h3, h4⟩ := ih t (by simp [ht]; omega)
    refine ⟨.note (.removed x (s.items.dropLast.length : Nat)) s.items.dropLast :: ns, ?_, ?_, ?_, ?_⟩
    · simp only [FL.popLoop]
      rw [← ht, h1]
      simp [ht]
    · refine .rem (fun h => by cases h) ?_ h2
      rw [Py.del?_nat (by simp; omega), List.length_dropLast, List.eraseIdx_length_sub_one]
    · intro d; simpa [scan] using h3 d
    · simp [notes, removedNames, h4]

theorem appendLoop_eq (xs : List α) (s : FL α C K) :
    ∃ ns, FL.appendLoop xs s = { s with items := s.items ++ xs, log := s.log ++ ns } ∧
      ReplaysAt true s.items (notes ns) (s.items ++ xs) ∧ (∀ d, scan (d + 1) ns = some (d + 1)) ∧
      removedNames (notes ns) = [] := by
  induction xs generalizing s with
  | nil => exact ⟨[], by simp [FL.appendLoop], by simpa [notes] using .nil _, fun d => rfl, rfl⟩
  | cons x xs ih =>
    set t : FL α C K :=
      { s with items := s.items ++ [x], log := s.log ++ [.note (.inserted x s.items.length) (s.items ++ [x])] } with ht
    obtain ⟨ns, h1, h2, h3, h4⟩ := ih t
    refine ⟨.note (.inserted x s.items.length) (s.items ++ [x]) :: ns, ?_, ?_, ?_, ?_⟩
    · simp only [FL.appendLoop]
      rw [← ht, h1]
      simp [ht]
    · have : ReplaysAt true (Py.insert s.items s.items.length x) (notes ns) (s.items ++ (x :: xs)) := by
        rw [Py.insert_length]; simpa [ht] using h2
      have h := ReplaysAt.ins this
      rw [Py.insert_length] at h
      exact h
    · intro d; simpa [scan] using h3 d
    · simp [notes, removedNames, h4]

/-- `foldl` of `insertItem` with a comparison: the notifications replay, begin/end are balanced around each of them, and
from a sorted list it makes a sorted list with the items added. -/
theorem insertFold (cmp : α → α → Bool) (xs : List α) (s : FL α C K) :
    ∃ l ns, xs.foldl (fun s x => s.insertItem (some cmp) x) s = { s with items := l, log := s.log ++ ns } ∧
      ReplaysAt true s.items (notes ns) l ∧ (∀ d, scan d ns = some d) ∧ l.Perm (xs ++ s.items) ∧
      (∀ le, IsCmp cmp le → s.items.Pairwise le → l.Pairwise le) := by
  induction xs generalizing s with
  | nil => exact ⟨s.items, [], by simp, .nil _, fun d => rfl, by simp, fun _ _ h => h⟩
  | cons x xs ih =>
    obtain ⟨l, ns, h1, h2, h3, h4, h5⟩ := ih (s.insertItem (some cmp) x)
    refine ⟨l, [.beginChanges, .note (.inserted x (findSorted cmp x s.items))
      (Py.insert s.items (findSorted cmp x s.items) x), .endChanges] ++ ns, ?_, ?_, ?_, ?_, ?_⟩
    · rw [List.foldl_cons, h1]
      simp [FL.insertItem]
    · simp only [notes_append, notes, List.cons_append, List.nil_append]
      exact .ins h2
    · intro d
      rw [scan_append]
      simp [scan, h3]
    · refine h4.trans ?_
      simp only [FL.insertItem, List.cons_append]
      exact ((perm_pyInsert _ _ _).append_left xs).trans List.perm_middle
    · intro le hc hs
      exact h5 le hc (sorted_insert hc hs x)

end

end Verif.ListModel
