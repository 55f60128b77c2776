import Verif.ListModel.FilteredLog

/-! Properties C19, C20, C21, C24 and C25 of `FilteredListModel`: which items it has, and in which order. -/

namespace Verif.ListModel

open Verif.Py Verif.Selection

section
variable {α C K : Type*} [DecidableEq α] [LinearOrder K]

/-- C19: inserting with the model's insertion point into a list sorted by a key (ascending or descending) gives a sorted
list with the item added; the items before it are exactly those that must come strictly earlier, so it is placed
before every item with an equal key. -/
theorem C19_insertion_point {κ : Type*} [LinearOrder κ] (rev : Bool) (key : α → κ) (l : List α) (x : α)
    (hs : l.Pairwise fun a b => if rev then key b ≤ key a else key a ≤ key b) :
    ∃ pre post, l = pre ++ post ∧ Py.insert l (findSorted (cmpKey rev key) x l : Nat) x = pre ++ x :: post ∧
      (pre ++ x :: post).Pairwise (fun a b => if rev then key b ≤ key a else key a ≤ key b) ∧
      (∀ y ∈ pre, if rev then key x < key y else key y < key x) ∧
      (∀ y ∈ post, if rev then key y ≤ key x else key x ≤ key y) := by
  have hs' : l.Pairwise (leKey rev key) := hs
  have hc := isCmp_key (α := α) rev key
  refine ⟨l.takeWhile fun y => cmpKey rev key y x, l.dropWhile fun y => cmpKey rev key y x,
    (List.takeWhile_append_dropWhile).symm, insert_findSorted hc hs' x, ?_, ?_, ?_⟩
  · have := sorted_insert hc hs' x
    rwa [insert_findSorted hc hs' x] at this
  · intro y hy
    have := takeWhile_cmp (p := fun y => cmpKey rev key y x) hy
    cases rev <;> simpa [cmpKey] using this
  · intro y hy
    have := dropWhile_not_cmp hc hs' x y hy
    cases rev <;> simpa [cmpKey] using this

/-! ### Correctness of the items -/

/-- Specification: `items` is what a filtered list of the list `src` must be. Without sort key the order is only
demanded if `ordered`. -/
def CorrectFor (ordered : Bool) (src : List α) (acc : α → Bool) (key : Option (α → K)) (rev : Bool) (items : List α) :
    Prop :=
  match key with
  | none => items.Perm (src.filter acc) ∧ (ordered = true → items = src.filter acc)
  | some k => items.Perm (src.filter acc) ∧ items.Pairwise fun a b => if rev then k b ≤ k a else k a ≤ k b

/-- The sort key as a function of items, with their present content. -/
def FL.ikey (s : FL α C K) : Option (α → K) := s.key.map fun k x => k (s.content x)

/-- The items are correct for the list of items the model has received. -/
def FL.Good (od : Bool) (s : FL α C K) : Prop := CorrectFor od s.master s.acc s.ikey s.reverse s.items

/-- What is kept about the items inside a change block as long as no reset has happened. -/
def FL.Window (od : Bool) (s : FL α C K) : Prop :=
  match s.ikey with
  | none => od = true → (s.items.filter fun x => x ∈ s.master).Sublist s.master
  | some k => s.items.Pairwise (leKey s.reverse k)

structure FInv0 (od : Bool) (s : FL α C K) : Prop where
  nodup : s.master.Nodup
  nodupItems : s.items.Nodup
  level : 0 ≤ s.level
  good : s.level = 0 → s.Good od
  window : 0 < s.level → s.sorted = true → s.Window od

theorem FL.Good.mem {od : Bool} {s : FL α C K} (h : s.Good od) (x : α) : x ∈ s.items ↔ x ∈ s.master ∧ s.acc x = true := by
  unfold FL.Good CorrectFor at h
  cases hk : s.ikey with
  | none => rw [hk] at h; simp only at h; rw [h.1.mem_iff]; simp
  | some k => rw [hk] at h; simp only at h; rw [h.1.mem_iff]; simp

theorem cmp_eq (s : FL α C K) : s.cmp = s.ikey.map (cmpKey s.reverse) := by
  unfold FL.cmp FL.ikey; cases s.key <;> rfl

theorem build_spec (od : Bool) (s : FL α C K) : CorrectFor od s.master s.acc s.ikey s.reverse s.build := by
  unfold CorrectFor FL.ikey FL.build
  cases s.key with
  | none => exact ⟨.refl _, fun _ => rfl⟩
  | some k =>
    simp only [Option.map_some]
    cases hr : s.reverse with
    | false =>
      simp only [Bool.false_eq_true, if_false]
      refine ⟨(List.perm_insertionSort _ _).filter _, ?_⟩
      have : Std.Total (fun a b : α => k (s.content a) ≤ k (s.content b)) := ⟨fun a b => le_total _ _⟩
      have : IsTrans α (fun a b : α => k (s.content a) ≤ k (s.content b)) := ⟨fun a b c => le_trans⟩
      exact (List.pairwise_insertionSort _ _).filter _
    | true =>
      simp only [if_true]
      refine ⟨(List.perm_insertionSort _ _).filter _, ?_⟩
      have : Std.Total (fun a b : α => k (s.content b) ≤ k (s.content a)) := ⟨fun a b => le_total _ _⟩
      have : IsTrans α (fun a b : α => k (s.content b) ≤ k (s.content a)) := ⟨fun a b c h1 h2 => le_trans h2 h1⟩
      exact (List.pairwise_insertionSort _ _).filter _

theorem CorrectFor.perm {od : Bool} {src : List α} {acc : α → Bool} {key : Option (α → K)} {rev : Bool} {items : List α}
    (h : CorrectFor od src acc key rev items) : items.Perm (src.filter acc) := by
  unfold CorrectFor at h
  cases key with
  | none => exact h.1
  | some k => exact h.1

theorem pairwise_idxOf {l : List α} (h : l.Nodup) : l.Pairwise (leKey false fun x => l.idxOf x) := by
  rw [List.pairwise_iff_getElem]
  intro i j hi hj hij
  simp only [leKey, Bool.false_eq_true, if_false]
  rw [h.idxOf_getElem i hi, h.idxOf_getElem j hj]; omega

/-- After an update the items are correct. -/
theorem updateItems_good (od : Bool) (ord : IterOrder α) (s : FL α C K) (hn : s.master.Nodup) (hi : s.items.Nodup)
    (hl : s.level = 0) (hw : s.sorted = true → s.Window od ∧ (od = true → s.key = none → s.reverse = false)) :
    (s.updateItems ord).Good od ∧ (s.updateItems ord).items.Nodup ∧ (s.updateItems ord).master = s.master ∧
    (s.updateItems ord).level = 0 ∧ (s.updateItems ord).source = s.source := by
  have hb := build_spec od s
  have hbn : s.build.Nodup := hb.perm.nodup_iff.2 (hn.filter _)
  obtain ⟨l, ns, h1, _, _, h4, h5⟩ := updateItems_log ord s (by omega)
  have hgood : CorrectFor od s.master s.acc s.ikey s.reverse l := by
    cases hso : s.sorted with
    | false => rw [(h4 hso).1]; exact hb
    | true =>
      obtain ⟨hp, hsort⟩ := h5 hso
      obtain ⟨hwin, hrev⟩ := hw hso
      have hperm : l.Perm s.build := by
        refine hp.trans (((ord.perm _).append_right _).trans ?_)
        rw [List.perm_ext_iff_of_nodup _ hbn]
        · intro x; simp; tauto
        · rw [List.nodup_append]
          refine ⟨hbn.filter _, hi.filter _, fun a ha b hb' => ?_⟩
          rintro rfl
          simp at ha hb'; exact ha.2 hb'.1
      rw [cmp_eq] at hsort
      unfold FL.Window at hwin
      cases hk : s.ikey with
      | some k =>
        rw [hk] at hwin hsort
        simp only [Option.map_some, Option.getD_some] at hwin hsort
        exact ⟨hperm.trans hb.perm, hsort _ (isCmp_key s.reverse k) (hwin.filter _)⟩
      | none =>
        rw [hk] at hwin hsort
        simp only [Option.map_none, Option.getD_none] at hwin hsort
        have hkey : s.key = none := by
          unfold FL.ikey at hk; cases hk' : s.key with
          | none => rfl
          | some k => rw [hk'] at hk; simp at hk
        have hbuild : s.build = s.master.filter s.acc := by
          have := build_spec true s; rw [hk] at this; exact this.2 rfl
        refine ⟨hbuild ▸ hperm, fun hod => ?_⟩
        have hrev := hrev hod hkey
        have hwin := hwin hod
        rw [hrev] at hsort
        have hsub : (s.items.filter fun x => x ∈ s.build).Sublist s.build := by
          have : (s.items.filter fun x => x ∈ s.build) = (s.items.filter fun x => x ∈ s.master).filter s.acc := by
            rw [List.filter_filter, hbuild]
            apply List.filter_congr
            intro x _
            simp [Bool.and_comm]
          rw [this, hbuild]
          exact hwin.filter _
        have hs2 := hsort _ (isCmp_key false fun x => s.build.idxOf x) ((pairwise_idxOf hbn).sublist hsub)
        have : l = s.build := by
          refine List.Perm.eq_of_pairwise ?_ hs2 (pairwise_idxOf hbn) hperm
          intro a b ha hb' h1 h2
          simp only [leKey, Bool.false_eq_true, if_false] at h1 h2
          exact (List.idxOf_inj (hperm.mem_iff.1 ha)).1 (le_antisymm h1 h2)
        rw [this, hbuild]
  rw [h1]
  exact ⟨hgood, hgood.perm.nodup_iff.2 (hn.filter _), rfl, hl, rfl⟩

/-- Everything but the received items, the items, the selections and the log is the same. -/
structure SameF (s t : FL α C K) : Prop where
  source : t.source = s.source
  content : t.content = s.content
  filter : t.filter = s.filter
  key : t.key = s.key
  reverse : t.reverse = s.reverse
  level : t.level = s.level
  sorted : t.sorted = s.sorted

theorem SameF.refl (s : FL α C K) : SameF s s := ⟨rfl, rfl, rfl, rfl, rfl, rfl, rfl⟩

theorem SameF.trans {s t u : FL α C K} (a : SameF s t) (b : SameF t u) : SameF s u :=
  ⟨b.1.trans a.1, b.2.trans a.2, b.3.trans a.3, b.4.trans a.4, b.5.trans a.5, b.6.trans a.6, b.7.trans a.7⟩

theorem SameF.acc {s t : FL α C K} (a : SameF s t) : t.acc = s.acc := by
  unfold FL.acc; rw [a.filter, a.content]

theorem SameF.ikey {s t : FL α C K} (a : SameF s t) : t.ikey = s.ikey := by
  unfold FL.ikey; rw [a.key, a.content]

theorem ikey_none {s : FL α C K} : s.ikey = none ↔ s.key = none := by
  unfold FL.ikey; simp

theorem insertIdx_take_drop' (l : List α) (k : Nat) (h : k ≤ l.length) (x : α) :
    l.insertIdx k x = l.take k ++ x :: l.drop k := by
  induction l generalizing k with
  | nil => have : k = 0 := by simpa using h
           subst this; rfl
  | cons y l ih =>
    cases k with
    | zero => rfl
    | succ k => simp [ih k (by simpa using h)]

theorem pyInsert_split (l : List α) (i : Int) (x : α) :
    ∃ pre post, l = pre ++ post ∧ Py.insert l i x = pre ++ x :: post :=
  ⟨l.take (Py.insertPos l.length i), l.drop (Py.insertPos l.length i), (List.take_append_drop _ _).symm, by
    unfold Py.insert; exact insertIdx_take_drop' _ _ (Py.insertPos_le _ _) x⟩

theorem nodup_pyInsert' {l : List α} (h : l.Nodup) (i : Int) {x : α} (hx : x ∉ l) : (Py.insert l i x).Nodup :=
  (perm_pyInsert l i x).nodup_iff.2 (List.nodup_cons.2 ⟨hx, h⟩)

/-- The items after inserting `x`, if it is accepted, outside change blocks. -/
theorem good_insert {od : Bool} {s : FL α C K} (h : s.Good od) (hn : s.master.Nodup) {x : α} (hx : x ∉ s.master) (i : Int)
    (ha : s.acc x = true) :
    CorrectFor od (Py.insert s.master i x) s.acc s.ikey s.reverse
      (Py.insert s.items ((match s.cmp with
        | some c => findSorted c x s.items
        | none => findUnsorted s.acc x (Py.insert s.master i x) : Nat)) x) := by
  unfold FL.Good CorrectFor at h
  rw [cmp_eq]
  cases hk : s.ikey with
  | none =>
    rw [hk] at h
    simp only [Option.map_none] at h ⊢
    refine ⟨?_, fun hod => ?_⟩
    · refine (perm_pyInsert _ _ _).trans ((h.1.cons x).trans ?_)
      have := ((perm_pyInsert s.master i x).filter s.acc).symm
      rwa [List.filter_cons_of_pos ha] at this
    obtain ⟨pre, post, e1, e2⟩ := pyInsert_split s.master i x
    rw [e2, h.2 hod, e1]
    exact findUnsorted_insert _ _ _ _ (fun hp => hx (by rw [e1]; simp [hp])) ha
  | some k =>
    rw [hk] at h
    simp only [Option.map_some] at h ⊢
    refine ⟨?_, sorted_insert (isCmp_key s.reverse k) h.2 x⟩
    refine (perm_pyInsert _ _ _).trans ((h.1.cons x).trans ?_)
    have := ((perm_pyInsert s.master i x).filter s.acc).symm
    rwa [List.filter_cons_of_pos ha] at this

theorem inv_itemInserted (sord : SetOrder) {od : Bool} {s : FL α C K} (h : FInv0 od s) {x : α} (i : Int) (hx : x ∉ s.master)
    (hw : od = true → 0 < s.level → s.sorted = true → s.key = none → x ∉ s.items) :
    FInv0 od (s.itemInserted sord x i) ∧ (s.itemInserted sord x i).master = Py.insert s.master i x ∧
      SameF s (s.itemInserted sord x i) := by
  unfold FL.itemInserted
  rw [if_neg hx]
  have hn' := nodup_pyInsert' h.nodup i hx
  by_cases hl : s.level > 0
  · have e : FL.insertedMaster { s with master := Py.insert s.master i x } x =
        { s with master := Py.insert s.master i x } := by unfold FL.insertedMaster; rw [if_pos hl]
    rw [e]
    refine ⟨⟨hn', h.nodupItems, h.level, fun h0 => absurd h0 (by simp only; omega), fun _ hs => ?_⟩, rfl, ⟨rfl, rfl, rfl, rfl, rfl, rfl, rfl⟩⟩
    have hwin := h.window hl hs
    unfold FL.Window at hwin ⊢
    have hk' : FL.ikey { s with master := Py.insert s.master i x } = s.ikey := rfl
    show match s.ikey with | none => _ | some k => _
    cases hk : s.ikey with
    | some k => rw [hk] at hwin; exact hwin
    | none =>
      rw [hk] at hwin
      simp only at hwin ⊢
      intro hod
      have hwin := hwin hod
      have hxi := hw hod hl hs (ikey_none.1 hk)
      have : (s.items.filter fun y => y ∈ Py.insert s.master i x) = s.items.filter fun y => y ∈ s.master := by
        apply List.filter_congr
        intro y hy
        have : y ≠ x := fun e => hxi (e ▸ hy)
        simp [(perm_pyInsert s.master i x).mem_iff, this]
      rw [this]
      refine hwin.trans ?_
      obtain ⟨pre, post, e1, e2⟩ := pyInsert_split s.master i x
      rw [e2]
      nth_rw 1 [e1]
      exact List.Sublist.append_left (List.sublist_cons_self _ _) _
  · have hl0 : s.level = 0 := by have := h.level; omega
    have hg := h.good hl0
    have hxi : x ∉ s.items := fun hh => hx ((hg.mem x).1 hh).1
    by_cases ha : s.acc x = true
    · have e : FL.insertedMaster { s with master := Py.insert s.master i x } x =
          FL.insertItem { s with master := Py.insert s.master i x } s.cmp x := by
        unfold FL.insertedMaster; rw [if_neg hl]; exact if_pos ha
      rw [e]
      refine ⟨⟨hn', nodup_pyInsert' h.nodupItems _ hxi, h.level, fun _ => good_insert hg h.nodup hx i ha,
        fun h0 => absurd h0 (by simp only [FL.insertItem]; omega)⟩, rfl, ⟨rfl, rfl, rfl, rfl, rfl, rfl, rfl⟩⟩
    · have e : FL.insertedMaster { s with master := Py.insert s.master i x } x =
          { s with master := Py.insert s.master i x } := by
        unfold FL.insertedMaster; rw [if_neg hl]; exact if_neg ha
      rw [e]
      refine ⟨⟨hn', h.nodupItems, h.level, fun _ => ?_, fun h0 => absurd h0 (by simp only; omega)⟩, rfl,
        ⟨rfl, rfl, rfl, rfl, rfl, rfl, rfl⟩⟩
      show CorrectFor od (Py.insert s.master i x) s.acc s.ikey s.reverse s.items
      unfold FL.Good CorrectFor at hg
      unfold CorrectFor
      have hf : (Py.insert s.master i x).filter s.acc = s.master.filter s.acc := by
        obtain ⟨pre, post, e1, e2⟩ := pyInsert_split s.master i x
        rw [e2, e1]; simp [List.filter_append, ha]
      cases hk : s.ikey with
      | none => rw [hk] at hg; simp only at hg ⊢; rw [hf]; exact hg
      | some k => rw [hk] at hg; simp only at hg ⊢; rw [hf]; exact hg

theorem CorrectFor.erase {od : Bool} {src : List α} {acc : α → Bool} {key : Option (α → K)} {rev : Bool} {items : List α}
    (h : CorrectFor od src acc key rev items) (hn : src.Nodup) (x : α) :
    CorrectFor od (src.erase x) acc key rev (items.erase x) := by
  unfold CorrectFor at *
  rw [filter_erase_eq hn]
  cases key with
  | none => simp only at *; exact ⟨h.1.erase x, fun hod => by rw [h.2 hod]⟩
  | some k => exact ⟨h.1.erase x, h.2.sublist List.erase_sublist⟩

theorem inv_itemRemoved (sord : SetOrder) {od : Bool} {s : FL α C K} (h : FInv0 od s) {i : Int} {k : Nat} (hk : k < s.master.length)
    (hi : Py.index? s.master.length i = some k) :
    FInv0 od (s.itemRemoved sord s.master[k] i) ∧ (s.itemRemoved sord s.master[k] i).master = s.master.eraseIdx k ∧
      SameF s (s.itemRemoved sord s.master[k] i) := by
  have hd : Py.del? s.master i = some (s.master.eraseIdx k) := by unfold Py.del?; rw [hi]; rfl
  have he : s.master.eraseIdx k = s.master.erase s.master[k] := by
    rw [List.erase_eq_eraseIdx_of_idxOf (h.nodup.idxOf_getElem k hk)]
  unfold FL.itemRemoved
  rw [hd]
  simp only
  have hn' : (s.master.eraseIdx k).Nodup := h.nodup.sublist (List.eraseIdx_sublist _ _)
  generalize hv : s.master[k] = v at he ⊢
  by_cases hl : s.level > 0
  · have e : FL.removedMaster { s with master := s.master.eraseIdx k } v = { s with master := s.master.eraseIdx k } := by
      unfold FL.removedMaster; rw [if_pos hl]
    rw [e]
    refine ⟨⟨hn', h.nodupItems, h.level, fun h0 => absurd h0 (by simp only; omega), fun _ hs => ?_⟩, rfl, ⟨rfl, rfl, rfl, rfl, rfl, rfl, rfl⟩⟩
    have hwin := h.window hl hs
    unfold FL.Window at hwin ⊢
    show match s.ikey with | none => _ | some k => _
    cases hk : s.ikey with
    | some k => rw [hk] at hwin; exact hwin
    | none =>
      rw [hk] at hwin
      simp only at hwin ⊢
      intro hod
      have hwin := hwin hod
      rw [he, h.nodup.erase_eq_filter]
      have : (s.items.filter fun y => y ∈ s.master.filter (· != v)) =
          (s.items.filter fun y => y ∈ s.master).filter (· != v) := by
        rw [List.filter_filter]
        apply List.filter_congr
        intro y _
        rw [Bool.eq_iff_iff]; simp [and_comm]
      rw [this]
      exact hwin.filter _
  · have hl0 : s.level = 0 := by have := h.level; omega
    have hg := h.good hl0
    have hg' : CorrectFor od (s.master.eraseIdx k) s.acc s.ikey s.reverse (s.items.erase v) := by
      rw [he]; exact CorrectFor.erase hg h.nodup v
    by_cases hm : v ∈ s.items
    · have e : FL.removedMaster { s with master := s.master.eraseIdx k } v =
          FL.removeItem { s with master := s.master.eraseIdx k } v := by
        unfold FL.removedMaster; rw [if_neg hl]; exact if_pos hm
      rw [e]
      refine ⟨⟨hn', ?_, h.level, fun _ => ?_, fun h0 => absurd h0 (by simp only [FL.removeItem]; omega)⟩, rfl,
        ⟨rfl, rfl, rfl, rfl, rfl, rfl, rfl⟩⟩
      · simp only [FL.removeItem]; exact h.nodupItems.sublist (List.eraseIdx_sublist _ _)
      · show CorrectFor od (s.master.eraseIdx k) s.acc s.ikey s.reverse (s.items.eraseIdx (s.items.idxOf v))
        rw [eraseIdx_idxOf]; exact hg'
    · have e : FL.removedMaster { s with master := s.master.eraseIdx k } v = { s with master := s.master.eraseIdx k } := by
        unfold FL.removedMaster; rw [if_neg hl]; exact if_neg hm
      rw [e]
      refine ⟨⟨hn', h.nodupItems, h.level, fun _ => ?_, fun h0 => absurd h0 (by simp only; omega)⟩, rfl,
        ⟨rfl, rfl, rfl, rfl, rfl, rfl, rfl⟩⟩
      show CorrectFor od (s.master.eraseIdx k) s.acc s.ikey s.reverse s.items
      rwa [List.erase_of_not_mem hm] at hg'

theorem inv_removeAll (sord : SetOrder) {od : Bool} (xs : List α) (s : FL α C K) (h : FInv0 od s) (hm : s.master = xs.reverse) :
    FInv0 od (FL.removeAll sord xs s) ∧ (FL.removeAll sord xs s).master = [] ∧ SameF s (FL.removeAll sord xs s) := by
  induction xs generalizing s with
  | nil => exact ⟨h, by simpa [FL.removeAll] using hm, .refl _⟩
  | cons x xs ih =>
    have hlen : s.master.length = xs.length + 1 := by rw [hm]; simp
    have hk : xs.length < s.master.length := by omega
    have hx : s.master[xs.length] = x := by simp [hm]
    have hi : Py.index? s.master.length (s.master.length - 1 : Int) = some xs.length := by
      have : (s.master.length - 1 : Int) = (xs.length : Nat) := by omega
      rw [this]; exact Py.index?_nat hk
    obtain ⟨h1, h2, h3⟩ := inv_itemRemoved sord h hk hi
    rw [hx] at h1 h2 h3
    have he : s.master.eraseIdx xs.length = xs.reverse := by
      rw [hm, List.reverse_cons, List.eraseIdx_append_of_length_le (by simp)]; simp
    obtain ⟨g1, g2, g3⟩ := ih _ h1 (h2.trans he)
    exact ⟨g1, g2, h3.trans g3⟩

theorem inv_insertAll (sord : SetOrder) {od : Bool} (xs : List α) (s : FL α C K) (h : FInv0 od s) (hs : s.sorted = false)
    (hn : (s.master ++ xs).Nodup) :
    FInv0 od (FL.insertAll sord xs s.master.length s) ∧ (FL.insertAll sord xs s.master.length s).master = s.master ++ xs ∧
      SameF s (FL.insertAll sord xs s.master.length s) := by
  induction xs generalizing s with
  | nil => exact ⟨h, by simp [FL.insertAll], .refl _⟩
  | cons x xs ih =>
    have hx : x ∉ s.master := fun hx => (List.nodup_append.1 hn).2.2 x hx x (by simp) rfl
    obtain ⟨h1, h2, h3⟩ := inv_itemInserted sord h (s.master.length : Int) hx (fun _ _ hh => by rw [hs] at hh; cases hh)
    rw [Py.insert_length] at h2
    obtain ⟨g1, g2, g3⟩ := ih _ h1 (h3.sorted.trans hs) (by rw [h2]; simpa using hn)
    have hl : (s.itemInserted sord x (s.master.length : Int)).master.length = s.master.length + 1 := by rw [h2]; simp
    rw [hl] at g1 g2 g3
    simp only [FL.insertAll, if_neg hx]
    refine ⟨g1, ?_, h3.trans g3⟩
    rw [g2, h2]; simp

/-! ### Content changes -/

/-- The world after item `v` got the content `c`. -/
def FL.withContent (s : FL α C K) (v : α) (c : C) : FL α C K := { s with content := Function.update s.content v c }

theorem withContent_acc (s : FL α C K) (v : α) (c : C) {x : α} (h : x ≠ v) : (s.withContent v c).acc x = s.acc x := by
  simp [FL.withContent, FL.acc, Function.update_of_ne h]

theorem withContent_acc_self (s : FL α C K) (v : α) (c : C) : (s.withContent v c).acc v = s.filter c := by
  simp [FL.withContent, FL.acc]

theorem withContent_ikey (s : FL α C K) (v : α) (c : C) : (s.withContent v c).ikey =
    s.key.map fun k x => k (Function.update s.content v c x) := rfl

theorem filter_congr_erase {l : List α} (h : l.Nodup) {v : α} {p q : α → Bool} (hpq : ∀ x, x ≠ v → p x = q x) :
    (l.erase v).filter p = (l.erase v).filter q := by
  apply List.filter_congr
  intro x hx
  exact hpq x fun e => h.not_mem_erase (e ▸ hx)

/-- Without the changed item the items are correct under the new content. -/
theorem erase_correct {od : Bool} {s : FL α C K} (hg : s.Good od) (hn : s.master.Nodup) (hi : s.items.Nodup) (v : α) (c : C) :
    CorrectFor od (s.master.erase v) (s.withContent v c).acc (s.withContent v c).ikey s.reverse (s.items.erase v) := by
  have h := CorrectFor.erase hg hn v
  unfold CorrectFor at *
  rw [withContent_ikey]
  unfold FL.ikey at h
  cases hk : s.key with
  | none =>
    rw [hk] at h
    simp only [Option.map_none] at h ⊢
    rw [← filter_congr_erase hn fun x hx => (withContent_acc s v c hx).symm]; exact h
  | some k =>
    rw [hk] at h
    simp only [Option.map_some] at h ⊢
    refine ⟨by rw [← filter_congr_erase hn fun x hx => (withContent_acc s v c hx).symm]; exact h.1, ?_⟩
    refine h.2.imp_of_mem fun {a b} ha hb hab => ?_
    have ha' : a ≠ v := by rintro rfl; exact hi.not_mem_erase ha
    have hb' : b ≠ v := by rintro rfl; exact hi.not_mem_erase hb
    rw [Function.update_of_ne ha', Function.update_of_ne hb']
    exact hab

theorem CorrectFor.of_reject {od : Bool} {src : List α} {acc : α → Bool} {key : Option (α → K)} {rev : Bool} {items : List α} {v : α}
    (h : CorrectFor od (src.erase v) acc key rev items) (hn : src.Nodup) (hv : acc v = false) :
    CorrectFor od src acc key rev items := by
  have : (src.erase v).filter acc = src.filter acc := by
    rw [filter_erase_eq hn, List.erase_of_not_mem (by simp [hv])]
  unfold CorrectFor at *
  rwa [this] at h

/-- Adding an accepted item of the source to a correct list of the others. -/
theorem CorrectFor.add {od : Bool} {src : List α} {acc : α → Bool} {k : α → K} {rev : Bool} {items : List α} {v : α}
    (h : CorrectFor od (src.erase v) acc (some k) rev items) (hm : v ∈ src) (hv : acc v = true) :
    CorrectFor od src acc (some k) rev (Py.insert items (findSorted (cmpKey rev k) v items : Nat) v) := by
  refine ⟨?_, sorted_insert (isCmp_key rev k) h.2 v⟩
  refine (perm_pyInsert _ _ _).trans ((h.1.cons v).trans ?_)
  have := (List.perm_cons_erase hm).symm.filter acc
  rwa [List.filter_cons_of_pos hv] at this

/-- The condition under which the model's re-sorting works: the new key does not pass an item that follows. It holds if
there is no sort key, the new content is rejected, or the item was not in the list. -/
def Settles (s : FL α C K) (v : α) (c : C) : Prop :=
  ∀ k, s.key = some k → s.filter c = true → ∀ pre post, s.items = pre ++ v :: post → ∀ y ∈ post,
    if s.reverse then k (s.content y) ≤ k c else k c ≤ k (s.content y)

theorem Settles.of_all {s : FL α C K} {v : α} {c : C} (k : C → K) (hk : s.key = some k)
    (h : s.filter c = true → ∀ y ∈ s.items, if s.reverse then k (s.content y) ≤ k c else k c ≤ k (s.content y)) :
    Settles s v c := by
  intro k' hk' hf pre post e y hy
  obtain rfl : k = k' := by rw [hk] at hk'; exact Option.some.inj hk'
  exact h hf y (by rw [e]; simp [hy])

theorem sameF_removedMaster (s : FL α C K) (x : α) : SameF s (s.removedMaster x) ∧ (s.removedMaster x).master = s.master := by
  unfold FL.removedMaster FL.removeItem
  split_ifs <;> exact ⟨⟨rfl, rfl, rfl, rfl, rfl, rfl, rfl⟩, rfl⟩

theorem sameF_insertedMaster (s : FL α C K) (x : α) :
    SameF s (s.insertedMaster x) ∧ (s.insertedMaster x).master = s.master := by
  unfold FL.insertedMaster FL.insertItem
  split_ifs <;> exact ⟨⟨rfl, rfl, rfl, rfl, rfl, rfl, rfl⟩, rfl⟩

theorem sameF_updatedMaster (s : FL α C K) (x : α) :
    SameF s (s.updatedMaster x) ∧ (s.updatedMaster x).master = s.master := by
  have h2 : SameF s ((s.removedMaster x).insertedMaster x) ∧ ((s.removedMaster x).insertedMaster x).master = s.master :=
    ⟨(sameF_removedMaster s x).1.trans (sameF_insertedMaster _ x).1,
      (sameF_insertedMaster _ x).2.trans (sameF_removedMaster s x).2⟩
  have h0 : SameF s s ∧ s.master = s.master := ⟨.refl _, rfl⟩
  unfold FL.updatedMaster
  split
  · exact h0
  · split
    · cases s.cmp with
      | none => simp only; split
                · exact h0
                · exact sameF_insertedMaster s x
      | some c =>
        simp only
        split
        · split
          · exact h2
          · split
            · exact h2
            · exact h0
        · exact sameF_insertedMaster s x
    · split
      · exact sameF_removedMaster s x
      · exact h0

/-- Removal and insertion by key, outside change blocks. -/
theorem removed_inserted {t : FL α C K} (hl : ¬ t.level > 0) {v : α} {k : α → K} (hk : t.ikey = some k)
    (ha : t.acc v = true) : ((t.removedMaster v).insertedMaster v).items =
      Py.insert (t.items.erase v) (findSorted (cmpKey t.reverse k) v (t.items.erase v) : Nat) v := by
  have h1 : (t.removedMaster v).items = t.items.erase v := by
    unfold FL.removedMaster
    rw [if_neg hl]
    split
    · simp [FL.removeItem, eraseIdx_idxOf]
    · rename_i h; rw [List.erase_of_not_mem h]
  have hs := (sameF_removedMaster t v).1
  unfold FL.insertedMaster
  rw [if_neg (by rw [hs.level]; exact hl), if_pos (by rw [hs.acc]; exact ha)]
  unfold FL.insertItem
  rw [cmp_eq, hs.ikey, hk, hs.reverse, h1]
  rfl

theorem split_at {items : List α} {v : α} (hv : v ∈ items) :
    ∃ pre post, items = pre ++ v :: post ∧ v ∉ pre ∧ items.idxOf v = pre.length ∧ items.erase v = pre ++ post := by
  obtain ⟨pre, post, h1, h2⟩ := List.eq_append_cons_of_mem hv
  refine ⟨pre, post, h1, h2, ?_, ?_⟩
  · rw [h1, List.idxOf_append_of_notMem h2]; simp
  · rw [h1, List.erase_append_right _ h2]; simp

/-- What a content change outside a change block leads to: the correct list, or the list as it was. -/
theorem changed_or_unmoved {od : Bool} {s : FL α C K} (hg : s.Good od) (hn : s.master.Nodup) (hi : s.items.Nodup) (hl : s.level = 0)
    (v : α) (hm : v ∈ s.master) (c : C) :
    let t := (s.withContent v c).updatedMaster v
    t.Good od ∨ (t.items = s.items ∧ t.log = s.log ∧ ¬ Settles s v c) := by
  set w := s.withContent v c with hw
  have hwl : ¬ w.level > 0 := by simp [hw, FL.withContent, hl]
  have hs := sameF_updatedMaster w v
  have he := erase_correct hg hn hi v c
  rw [← hw] at he
  have goal : ∀ l, (w.updatedMaster v).items = l → CorrectFor od s.master w.acc w.ikey s.reverse l →
      (w.updatedMaster v).Good od := by
    intro l h1 h2
    unfold FL.Good
    rw [hs.2, hs.1.acc, hs.1.ikey, hs.1.reverse, h1]
    exact h2
  intro t
  have hvi : v ∈ s.items ↔ s.acc v = true := by rw [hg.mem v]; simp [hm]
  by_cases ha : w.acc v = true
  · cases hk : w.ikey with
    | none =>
      left
      have hk0 : s.ikey = none := by
        rw [hw, withContent_ikey] at hk; unfold FL.ikey; simpa using hk
      have hgl : od = true → s.items = s.master.filter s.acc := by
        have := hg; unfold FL.Good CorrectFor at this; rw [hk0] at this; exact this.2
      by_cases hvm : v ∈ s.items
      · refine goal s.items ?_ ?_
        · unfold FL.updatedMaster
          rw [if_neg hwl, if_pos ha, cmp_eq, hk]
          simp only [Option.map_none]
          rw [if_pos (by exact hvm)]; rfl
        · rw [hk]
          have hf : s.master.filter s.acc = s.master.filter w.acc := by
            apply List.filter_congr
            intro x _
            by_cases hx : x = v
            · rw [hx, ha, hvi.1 hvm]
            · rw [hw, withContent_acc s v c hx]
          exact ⟨hf ▸ CorrectFor.perm hg, fun hod => hf ▸ hgl hod⟩
      · obtain ⟨pre, post, e1, e2, _, e4⟩ := split_at hm
        refine goal (Py.insert s.items (findUnsorted w.acc v s.master : Nat) v) ?_ ?_
        · unfold FL.updatedMaster
          rw [if_neg hwl, if_pos ha, cmp_eq, hk]
          simp only [Option.map_none]
          rw [if_neg (by exact hvm)]
          unfold FL.insertedMaster
          rw [if_neg hwl, if_pos ha, cmp_eq, hk]; rfl
        · rw [hk]
          rw [hk] at he
          refine ⟨?_, fun hod => ?_⟩
          · have he' := he.1
            rw [List.erase_of_not_mem hvm] at he'
            refine (perm_pyInsert _ _ _).trans ((he'.cons v).trans ?_)
            have := (List.perm_cons_erase hm).symm.filter w.acc
            rwa [List.filter_cons_of_pos ha] at this
          · have he' : s.items.erase v = (s.master.erase v).filter w.acc := he.2 hod
            rw [List.erase_of_not_mem hvm, e4] at he'
            rw [he', e1]
            exact findUnsorted_insert _ _ _ _ e2 ha
    | some k =>
      have hcmp : w.cmp = some (cmpKey s.reverse k) := by rw [cmp_eq, hk]; rfl
      rw [hk] at he
      have hadd := CorrectFor.add he hm ha
      by_cases hvm : v ∈ s.items
      · by_cases hb : findSorted (cmpKey s.reverse k) v s.items = s.items.idxOf v
        · have e : t = w := by
            show w.updatedMaster v = w
            unfold FL.updatedMaster
            rw [if_neg hwl, if_pos ha, hcmp]
            simp only
            rw [if_pos (by exact hvm), if_neg (by rw [show w.items = s.items from rfl, hb]; omega),
              if_neg (by rw [show w.items = s.items from rfl, hb]; omega)]
          by_cases hset : Settles s v c
          · left
            refine goal s.items (by show t.items = _; rw [e]; rfl) ?_
            obtain ⟨pre, post, e1, e2, e3, e4⟩ := split_at hvm
            rw [e4] at he
            have hc := isCmp_key (α := α) s.reverse k
            -- the changed item does not pass the ones behind it
            have hpost : ∀ y ∈ post, leKey s.reverse k v y := by
              intro y hy
              rw [hw, withContent_ikey] at hk
              obtain ⟨k0, hk0, hkk⟩ := Option.map_eq_some_iff.1 hk
              have hyv : y ≠ v := by
                rintro rfl
                rw [e1, List.nodup_append] at hi
                exact (List.nodup_cons.1 hi.2.1).1 hy
              have := hset k0 hk0 (by rw [← withContent_acc_self s v c]; exact ha) pre post e1 y hy
              rw [← hkk]
              simpa [leKey, Function.update_of_ne hyv] using this
            have hpp := List.pairwise_append.1 he.2
            have hvv : ¬ cmpKey s.reverse k v v = true := by
              rw [hc.cmp]; push Not; rcases hc.total v v with h | h <;> exact h
            have hmono : s.items.Pairwise fun a b => cmpKey s.reverse k b v = true → cmpKey s.reverse k a v = true := by
              rw [e1, List.pairwise_append]
              have hm0 := List.pairwise_append.1 (hc.mono he.2 v)
              refine ⟨hm0.1, List.pairwise_cons.2 ⟨fun b hb hh => absurd (hpost b hb) ((hc.cmp b v).1 hh), hm0.2.1⟩, ?_⟩
              intro a ha b hb
              rcases List.mem_cons.1 hb with rfl | hb
              · exact fun hh => absurd hh hvv
              · exact hm0.2.2 a ha b hb
            rw [findSorted_eq hmono, e3] at hb
            have hpre : ∀ y ∈ pre, leKey s.reverse k y v := by
              intro y hy
              obtain ⟨j, hj, rfl⟩ := List.getElem_of_mem hy
              have hj' : j < s.items.length := by rw [e1]; simp; omega
              have := (mono_getElem hmono j hj').2 (by rw [hb]; exact hj)
              have hy' : s.items[j] = pre[j] := by simp [e1, hj]
              rw [hy'] at this
              exact hc.le_of_cmp this
            rw [hk]
            refine ⟨?_, ?_⟩
            · have p1 : s.items.Perm (v :: (pre ++ post)) := by rw [e1]; exact List.perm_middle
              refine p1.trans ((he.1.cons v).trans ?_)
              have := (List.perm_cons_erase hm).symm.filter w.acc
              rwa [List.filter_cons_of_pos ha] at this
            · show s.items.Pairwise (leKey s.reverse k)
              rw [e1, List.pairwise_append]
              refine ⟨hpp.1, List.pairwise_cons.2 ⟨hpost, hpp.2.1⟩, ?_⟩
              intro a ham b hb'
              rcases List.mem_cons.1 hb' with rfl | hb'
              · exact hpre a ham
              · exact hpp.2.2 a ham b hb'
          · right
            rw [e]; exact ⟨rfl, rfl, hset⟩
        · left
          refine goal _ ?_ (hk ▸ hadd)
          have e : w.updatedMaster v = (w.removedMaster v).insertedMaster v := by
            unfold FL.updatedMaster
            rw [if_neg hwl, if_pos ha, hcmp]
            simp only
            rw [if_pos (by exact hvm)]
            have : findSorted (cmpKey s.reverse k) v w.items ≠ w.items.idxOf v := hb
            rcases Nat.lt_or_gt_of_ne this with h | h
            · rw [if_pos h]
            · rw [if_neg (by omega), if_pos h]
          rw [e, removed_inserted hwl hk ha]; rfl
      · left
        refine goal _ ?_ (hk ▸ hadd)
        have e : w.updatedMaster v = w.insertedMaster v := by
          unfold FL.updatedMaster
          rw [if_neg hwl, if_pos ha, hcmp]
          simp only
          rw [if_neg (by exact hvm)]
        rw [e, List.erase_of_not_mem hvm]
        unfold FL.insertedMaster FL.insertItem
        rw [if_neg hwl, if_pos ha, hcmp]; rfl
  · left
    have hr : w.acc v = false := by simpa using ha
    refine goal (s.items.erase v) ?_ (he.of_reject hn hr)
    unfold FL.updatedMaster
    rw [if_neg hwl, if_neg ha]
    by_cases hvm : v ∈ s.items
    · rw [if_pos (by exact hvm)]
      unfold FL.removedMaster
      rw [if_neg hwl, if_pos (by exact hvm)]
      simp only [FL.removeItem, eraseIdx_idxOf]; rfl
    · rw [if_neg (by exact hvm), List.erase_of_not_mem hvm]; rfl

/-! ### Histories -/

/-- The events for which the model keeps its items correct. Excluded: inserting an item the source has already;
inside a change block without sort key, inserting an item that is still in the list (moving it); ending a block without
begin; ending a block with `sort_reverse` but no sort key; content changes that change the key of a listed item, inside
a block, or so that it should pass an item that follows. After a reset or a change of filter or sorting inside the block
the block restrictions do not apply. -/
def FL.Adm (od : Bool) (s : FL α C K) : LOp α C K → Prop
  | .srcInsert v _ => v ∉ s.source.getD [] ∧
    (od = true → 0 < s.level → s.sorted = true → s.key = none → v ∉ s.items)
  | .setContainer c => (c.getD []).Nodup
  | .changeContent v c =>
    (s.level = 0 → Settles s v c) ∧
    (0 < s.level → s.sorted = true → ∀ k, s.key = some k → v ∈ s.items → k c = k (s.content v))
  | .endChange => 0 < s.level ∧ (od = true → s.sorted = true → s.key = none → s.reverse = false)
  | _ => True

/-- Every event of the history is admissible when it happens. -/
def FL.AdmAll (od : Bool) (sord : SetOrder) (s : FL α C K) : List (IterOrder α × LOp α C K) → Prop
  | [] => True
  | o :: ops => s.Adm od o.2 ∧ FL.AdmAll od sord (s.step sord o.1 o.2) ops

structure LInv (od : Bool) (s : FL α C K) : Prop extends FInv0 od s where
  src : s.master = s.source.getD []

theorem LInv.init (od : Bool) (content : α → C) (sels : List Sel) : LInv od (FL.init content sels : FL α C K) :=
  ⟨⟨List.nodup_nil, List.nodup_nil, le_refl _, fun _ => ⟨.refl _, fun _ => rfl⟩, fun h => by simp [FL.init] at h⟩, rfl⟩

theorem FL.Good.window {od : Bool} {s : FL α C K} (h : s.Good od) : s.Window od := by
  unfold FL.Good CorrectFor at h
  unfold FL.Window
  cases hk : s.ikey with
  | none =>
    rw [hk] at h
    simp only at h ⊢
    intro hod
    rw [h.2 hod]
    exact List.filter_sublist.trans List.filter_sublist
  | some k => rw [hk] at h; exact h.2

/-- A change of filter or sorting. -/
theorem inv_setter {od : Bool} (ord : IterOrder α) {s t : FL α C K} (h : LInv od s) (h1 : t.master = s.master) (h2 : t.items = s.items)
    (h3 : t.level = s.level) (h4 : t.source = s.source) (h5 : t.sorted = false) : LInv od (t.updateItems ord) := by
  by_cases hl : s.level = 0
  · obtain ⟨g1, g2, g3, g4, g5⟩ := updateItems_good od ord t (h1 ▸ h.nodup) (h2 ▸ h.nodupItems) (h3.trans hl)
      (fun hh => by rw [h5] at hh; cases hh)
    exact ⟨⟨by rw [g3, h1]; exact h.nodup, g2, by omega, fun _ => g1, fun hh => by omega⟩,
      by rw [g3, g5, h1, h4]; exact h.src⟩
  · have hlv := h.level
    have e : t.updateItems ord = t := by unfold FL.updateItems; rw [if_pos (by omega)]
    rw [e]
    exact ⟨⟨h1 ▸ h.nodup, h2 ▸ h.nodupItems, by omega, fun hh => absurd hh (by omega),
      fun _ hh => by rw [h5] at hh; cases hh⟩, by rw [h1, h4]; exact h.src⟩

theorem LInv.step (sord : SetOrder) (ord : IterOrder α) {od : Bool} {s : FL α C K} (h : LInv od s) (o : LOp α C K) (ha : s.Adm od o) :
    LInv od (s.step sord ord o) := by
  have copy : ∀ t : FL α C K, t.master = s.master → t.items = s.items → SameF s t → LInv od t := by
    intro t h1 h2 h3
    refine ⟨⟨h1 ▸ h.nodup, h2 ▸ h.nodupItems, h3.level ▸ h.level, fun hl => ?_, fun hl hs => ?_⟩, ?_⟩
    · unfold FL.Good; rw [h1, h2, h3.acc, h3.ikey, h3.reverse]; exact h.good (h3.level ▸ hl)
    · unfold FL.Window; rw [h1, h2, h3.ikey, h3.reverse]; exact h.window (h3.level ▸ hl) (h3.sorted ▸ hs)
    · rw [h1, h3.source]; exact h.src
  cases o with
  | srcInsert v i =>
    obtain ⟨ha1, ha2⟩ := ha
    cases hs : s.source with
    | none => simp only [FL.step, hs]; exact h
    | some l =>
      have hml : s.master = l := by rw [h.src, hs]; rfl
      simp only [FL.step, hs]
      have h0 : FInv0 od { s with source := some (Py.insert l i v) } :=
        ⟨h.nodup, h.nodupItems, h.level, fun hl => h.good hl, fun hl hh => h.window hl hh⟩
      obtain ⟨g1, g2, g3⟩ := inv_itemInserted sord h0 (x := v) i (by rw [h.src]; exact ha1) ha2
      exact ⟨g1, by rw [g2, g3.source]; simp [hml]⟩
  | srcRemove i =>
    cases hs : s.source with
    | none => simp only [FL.step, hs]; exact h
    | some l =>
      have hml : s.master = l := by rw [h.src, hs]; rfl
      rcases del?_cases l i with ⟨k, hk, h1, h2, h3⟩ | ⟨h1, h2, h3⟩
      · simp only [FL.step, hs, h2, h3]
        have h0 : FInv0 od { s with source := some (l.eraseIdx k) } :=
          ⟨h.nodup, h.nodupItems, h.level, fun hl => h.good hl, fun hl hh => h.window hl hh⟩
        obtain ⟨g1, g2, g3⟩ := inv_itemRemoved sord h0 (i := i) (k := k) (by simpa [hml] using hk)
          (by simpa [hml] using h1)
        simp only [hml] at g1 g2 g3 ⊢
        exact ⟨g1, by rw [g2, g3.source]; rfl⟩
      · simp only [FL.step, hs, h2]; exact h
  | setContainer c =>
    simp only [FL.step, FL.setContainer]
    obtain ⟨g1, g2, g3⟩ := inv_removeAll sord (s.source.getD []).reverse s h.toFInv0 (by simp [h.src])
    set u := FL.removeAll sord (s.source.getD []).reverse s with hu
    set t : FL α C K := { u with source := c, sorted := false }.emit .reset with ht
    have ht0 : FInv0 od t :=
      ⟨g1.nodup, g1.nodupItems, g1.level, fun hl => g1.good hl, fun hl hh => by simp [ht, FL.emit] at hh⟩
    have htm : t.master = [] := g2
    obtain ⟨k1, k2, k3⟩ := inv_insertAll sord (c.getD []) t ht0 rfl (by rw [htm]; exact ha)
    rw [htm] at k1 k2 k3
    exact ⟨k1, by rw [show (0 : Nat) = ([] : List α).length from rfl, k2, k3.source]; simp [ht, FL.emit]⟩
  | srcBegin => exact copy _ rfl rfl ⟨rfl, rfl, rfl, rfl, rfl, rfl, rfl⟩
  | srcEnd => exact copy _ rfl rfl ⟨rfl, rfl, rfl, rfl, rfl, rfl, rfl⟩
  | srcReset =>
    exact ⟨⟨h.nodup, h.nodupItems, h.level, fun hl => h.good hl, fun hl hh => by simp [FL.step, FL.emit] at hh⟩, h.src⟩
  | changeContent v c =>
    obtain ⟨ha1, ha2⟩ := ha
    show LInv od (if v ∈ s.master then (s.withContent v c).updatedMaster v else s.withContent v c)
    by_cases hl : s.level = 0
    · by_cases hm : v ∈ s.master
      · rw [if_pos hm]
        have hs := sameF_updatedMaster (s.withContent v c) v
        have hg : ((s.withContent v c).updatedMaster v).Good od := by
          rcases changed_or_unmoved (h.good hl) h.nodup h.nodupItems hl v hm c with hg | hg
          · exact hg
          · exact absurd (ha1 hl) hg.2.2
        refine ⟨⟨by rw [hs.2]; exact h.nodup, ?_, by rw [hs.1.level]; exact h.level, fun _ => hg, fun hh => ?_⟩,
          by rw [hs.2, hs.1.source]; exact h.src⟩
        · refine (CorrectFor.perm hg).nodup_iff.2 (List.Nodup.filter _ ?_)
          rw [hs.2]; exact h.nodup
        · rw [hs.1.level] at hh; exact absurd hh (by simp [FL.withContent, hl])
      · rw [if_neg hm]
        have hvi : v ∉ s.items := fun hv => hm (((h.good hl).mem v).1 hv).1
        refine ⟨⟨h.nodup, h.nodupItems, h.level, fun _ => ?_, fun hh => absurd hh (by simp [FL.withContent, hl])⟩, h.src⟩
        have := erase_correct (h.good hl) h.nodup h.nodupItems v c
        rwa [List.erase_of_not_mem hm, List.erase_of_not_mem hvi] at this
    · have hlp : s.level > 0 := by have := h.level; omega
      have e : (if v ∈ s.master then (s.withContent v c).updatedMaster v else s.withContent v c) = s.withContent v c := by
        split
        · unfold FL.updatedMaster; rw [if_pos (by exact hlp)]
        · rfl
      rw [e]
      refine ⟨⟨h.nodup, h.nodupItems, h.level, fun hh => absurd hh (by exact hl), fun _ hs => ?_⟩, h.src⟩
      have hwin := h.window hlp hs
      unfold FL.Window at hwin ⊢
      rw [withContent_ikey]
      unfold FL.ikey at hwin
      cases hk : s.key with
      | none => rw [hk] at hwin; exact hwin
      | some k =>
        rw [hk] at hwin
        simp only [Option.map_some] at hwin ⊢
        show s.items.Pairwise _
        have hsame : ∀ a ∈ s.items, k (Function.update s.content v c a) = k (s.content a) := by
          intro a ha
          by_cases hav : a = v
          · subst hav; rw [Function.update_self]; exact ha2 hlp hs k hk ha
          · rw [Function.update_of_ne hav]
        refine hwin.imp_of_mem fun {a b} ha hb hab => ?_
        simp only [leKey] at hab ⊢
        rw [hsame a ha, hsame b hb]
        exact hab
  | setFilter p => exact inv_setter ord h rfl rfl rfl rfl rfl
  | setKey k => exact inv_setter ord h rfl rfl rfl rfl rfl
  | setReverse b => exact inv_setter ord h rfl rfl rfl rfl rfl
  | beginChange =>
    have hl := h.level
    refine ⟨⟨h.nodup, h.nodupItems, ?_, fun hh => ?_, fun _ hs => ?_⟩, h.src⟩
    · simp only [FL.step]; omega
    · simp only [FL.step] at hh; omega
    · by_cases h0 : s.level = 0
      · exact (h.good h0).window
      · exact h.window (by omega) hs
  | endChange =>
    obtain ⟨hl, hr⟩ := ha
    simp only [FL.step]
    split
    · rename_i h0
      obtain ⟨g1, g2, g3, g4, g5⟩ := updateItems_good od ord { s with level := s.level - 1 } h.nodup h.nodupItems h0
        (fun hs => ⟨h.window hl hs, fun hod => hr hod hs⟩)
      exact ⟨⟨by rw [g3]; exact h.nodup, g2, by omega, fun _ => g1, fun hh => by omega⟩,
        by rw [g3, g5]; exact h.src⟩
    · rename_i h0
      exact ⟨⟨h.nodup, h.nodupItems, by simp only; omega, fun hh => absurd hh h0, fun _ hs => h.window hl hs⟩, h.src⟩
  | select k o => exact copy _ rfl rfl ⟨rfl, rfl, rfl, rfl, rfl, rfl, rfl⟩

theorem LInv.run (sord : SetOrder) (ops : List (IterOrder α × LOp α C K)) {od : Bool} {s : FL α C K} (h : LInv od s)
    (ha : s.AdmAll od sord ops) : LInv od (s.run sord ops) := by
  induction ops generalizing s with
  | nil => exact h
  | cons o ops ih => rw [FL.run_cons]; exact ih (h.step sord o.1 o.2 ha.1) ha.2

/-- C20, the part that holds: after an admissible history, whenever no change block is open and there is no sort key, the
items are exactly the source items accepted by the filter, in source order.
(Missing: histories that are not admissible, for which it is false; see the counterexamples.) -/
theorem C20_unsorted_partial (sord : SetOrder) (content : α → C) (sels : List Sel) (ops : List (IterOrder α × LOp α C K))
    (ha : (FL.init content sels).AdmAll true sord ops) :
    let s := (FL.init content sels).run sord ops
    s.level = 0 → s.key = none → s.items = (s.source.getD []).filter fun x => s.filter (s.content x) := by
  intro s hl hk
  have h : LInv true s := (LInv.init true content sels).run sord ops ha
  have hg := h.good hl
  unfold FL.Good CorrectFor at hg
  rw [ikey_none.2 hk, h.src] at hg
  exact hg.2 rfl

/-- C21: after every history (`AdmAll false`) in which no item is inserted that the source has already, every `end_change`
has its `begin_change` and the keys of listed items change at most as in C24, whenever no change block is open: the items
are a permutation of the source items accepted by the filter, and if there is a sort key they are sorted by it in the
chosen direction. Keys, directions, filters and the container may change at any time, in blocks or not. -/
theorem C21_sorted_complete (sord : SetOrder) (content : α → C) (sels : List Sel) (ops : List (IterOrder α × LOp α C K))
    (ha : (FL.init content sels).AdmAll false sord ops) :
    let s := (FL.init content sels).run sord ops
    s.level = 0 →
      s.items.Perm ((s.source.getD []).filter fun x => s.filter (s.content x)) ∧
      ∀ k, s.key = some k → s.items.Pairwise fun a b =>
        if s.reverse then k (s.content b) ≤ k (s.content a) else k (s.content a) ≤ k (s.content b) := by
  intro s hl
  have h : LInv false s := (LInv.init false content sels).run sord ops ha
  have hg := h.good hl
  refine ⟨?_, fun k hk => ?_⟩
  · have := CorrectFor.perm hg
    rwa [h.src] at this
  · unfold FL.Good CorrectFor FL.ikey at hg
    rw [hk] at hg
    exact hg.2

/-- C24, the part that holds: in a state reached by an admissible history with no change block open, when an item of the
source announces new content and, if it is listed, its new key does not pass an item that follows, the list is again
filtered and sorted by the new contents.
(Missing: keys that pass an item that follows, for which it is false.) -/
theorem C24_item_change_partial (sord : SetOrder) (ord : IterOrder α) (content : α → C) (sels : List Sel)
    (ops : List (IterOrder α × LOp α C K)) (ha : (FL.init content sels).AdmAll false sord ops) (v : α) (c : C) :
    let s := (FL.init content sels).run sord ops
    let t := s.step sord ord (.changeContent v c)
    s.level = 0 → Settles s v c →
      t.content v = c ∧ (∀ x, x ≠ v → t.content x = s.content x) ∧ t.source = s.source ∧
      t.items.Perm ((s.source.getD []).filter fun x => s.filter (t.content x)) ∧
      ∀ k, s.key = some k → t.items.Pairwise fun a b =>
        if s.reverse then k (t.content b) ≤ k (t.content a) else k (t.content a) ≤ k (t.content b) := by
  intro s t hl hset
  have h : LInv false s := (LInv.init false content sels).run sord ops ha
  have ht : LInv false t := h.step sord ord _ ⟨fun _ => hset, fun hh => absurd hh (by omega)⟩
  have hs : SameF (s.withContent v c) t := by
    show SameF _ (if v ∈ s.master then (s.withContent v c).updatedMaster v else s.withContent v c)
    split
    · exact (sameF_updatedMaster _ v).1
    · exact .refl _
  have hg := ht.good (by rw [hs.level]; exact hl)
  have hsrc : t.source = s.source := hs.source
  refine ⟨by rw [hs.content]; simp [FL.withContent], fun x hx => by
    rw [hs.content]; simp [FL.withContent, Function.update_of_ne hx], hsrc, ?_, fun k hk => ?_⟩
  · have := CorrectFor.perm hg
    rw [ht.src, hsrc] at this
    have hf : t.acc = fun x => s.filter (t.content x) := by
      funext x; unfold FL.acc; rw [show t.filter = s.filter from hs.filter]
    rwa [hf] at this
  · have hk' : t.key = some k := by rw [hs.key]; exact hk
    have hr : t.reverse = s.reverse := hs.reverse
    unfold FL.Good CorrectFor FL.ikey at hg
    rw [hk'] at hg
    rw [← hr]
    exact hg.2

/-- C24: when the condition is not met, the list is either correct or exactly as it was, with nothing announced. -/
theorem C24_otherwise_unmoved_partial (sord : SetOrder) (ord : IterOrder α) (content : α → C) (sels : List Sel)
    (ops : List (IterOrder α × LOp α C K)) (ha : (FL.init content sels).AdmAll false sord ops) (v : α) (c : C) :
    let s := (FL.init content sels).run sord ops
    let t := s.step sord ord (.changeContent v c)
    s.level = 0 → v ∈ s.source.getD [] →
      (t.items.Perm ((s.source.getD []).filter fun x => s.filter (t.content x)) ∧
        ∀ k, s.key = some k → t.items.Pairwise fun a b =>
          if s.reverse then k (t.content b) ≤ k (t.content a) else k (t.content a) ≤ k (t.content b)) ∨
      (t.items = s.items ∧ t.log = s.log) := by
  intro s t hl hv
  have h : LInv false s := (LInv.init false content sels).run sord ops ha
  have hm : v ∈ s.master := by rw [h.src]; exact hv
  have e : t = (s.withContent v c).updatedMaster v := if_pos hm
  have hs := sameF_updatedMaster (s.withContent v c) v
  rw [← e] at hs
  rcases changed_or_unmoved (h.good hl) h.nodup h.nodupItems hl v hm c with hg | hg
  · left
    rw [← e] at hg
    refine ⟨?_, fun k hk => ?_⟩
    · have := CorrectFor.perm hg
      rw [hs.2, show (s.withContent v c).master = s.source.getD [] from h.src] at this
      have hf : t.acc = fun x => s.filter (t.content x) := by
        funext x; unfold FL.acc; rw [show t.filter = s.filter from hs.1.filter]
      rwa [hf] at this
    · have hk' : t.key = some k := by rw [hs.1.key]; exact hk
      have hr : t.reverse = s.reverse := hs.1.reverse
      unfold FL.Good CorrectFor FL.ikey at hg
      rw [hk'] at hg
      rw [← hr]
      exact hg.2
  · right
    rw [← e] at hg
    exact ⟨hg.1, hg.2.1⟩

/-- C25, the part that holds: in a state reached by an admissible history, with no change block open, no sort key and
every item accepted by the filter, selections keep selecting the same items through insertions (of accepted items) and
removals with indexes counted from the front.
(Missing: lists that are sorted or from which the filter removes something, for which it is false.) -/
theorem C25_selections_partial (sord : SetOrder) (ord : IterOrder α) (content : α → C) (sels : List Sel)
    (ops : List (IterOrder α × LOp α C K)) (ha : (FL.init content sels).AdmAll true sord ops) (l : List α) :
    let s := (FL.init content sels).run sord ops
    s.level = 0 → s.key = none → s.source = some l → (∀ x ∈ l, s.filter (s.content x) = true) →
    (∀ (v : α) (k : Nat), k ≤ l.length → v ∉ l → s.filter (s.content v) = true →
      let t := s.step sord ord (.srcInsert v k)
      List.Forall₂ (fun x y : Sel => selectedItems y.indexes t.items = selectedItems x.indexes s.items ∧
        (k : ℤ) ∉ y.indexes ∧ y.anchor = x.anchor.map (fun (a : ℤ) => if a < k then a else a + 1)) s.sels t.sels) ∧
    (∀ k : Nat, k < l.length →
      let t := s.step sord ord (.srcRemove k)
      List.Forall₂ (fun x y : Sel => selectedItems y.indexes t.items = selectedItems (x.indexes \ {(k : ℤ)}) s.items ∧
        (∀ a, x.anchor = some a → a ≠ k → y.anchor = some (if a < k then a else a - 1))) s.sels t.sels) := by
  intro s hl hk hs hacc
  have h : LInv true s := (LInv.init true content sels).run sord ops ha
  have goodItems : ∀ u : FL α C K, LInv true u → u.level = 0 → u.key = none → (∀ x ∈ u.master, u.acc x = true) →
      u.items = u.master := by
    intro u hu h1 h2 h3
    have hg := hu.good h1
    unfold FL.Good CorrectFor at hg
    rw [ikey_none.2 h2] at hg
    rw [hg.2 rfl, List.filter_eq_self.2 h3]
  have hml : s.master = l := by rw [h.src, hs]; rfl
  have hi : s.items = l := by rw [goodItems s h hl hk (by rw [hml]; exact hacc), hml]
  have hnl : ¬ s.level > 0 := by omega
  constructor
  · intro v k hkl hv hav
    intro t
    have ht : LInv true t := h.step sord ord _ ⟨by rw [hs]; exact hv, fun _ hh => absurd hh (by omega)⟩
    have ht0 := inv_itemInserted sord (s := { s with source := some (Py.insert l k v) }) (od := true)
      ⟨h.nodup, h.nodupItems, h.level, fun hl => h.good hl, fun hl hh => h.window hl hh⟩ (x := v) (k : Int)
      (by show v ∉ s.master; rw [hml]; exact hv) (fun _ hh => absurd hh (by simp only; omega))
    have et : t = FL.itemInserted sord { s with source := some (Py.insert l k v) } v k := by
      show s.step sord ord _ = _
      simp only [FL.step, hs]
    have hsf : SameF _ t := et ▸ ht0.2.2
    have htm : t.master = l.insertIdx k v := by
      rw [et, ht0.2.1]; show Py.insert s.master k v = _; rw [hml, Py.insert_nat hkl]
    have hti : t.items = l.insertIdx k v := by
      rw [goodItems t ht (by rw [hsf.level]; exact hl) (by rw [hsf.key]; exact hk), htm]
      intro x hx
      rw [htm, List.mem_insertIdx hkl] at hx
      rw [hsf.acc]
      rcases hx with rfl | hx
      · exact hav
      · exact hacc x hx
    have hsel : t.sels = s.sels.map fun y => (insertIndex sord y k).sel := by
      rw [et]
      unfold FL.itemInserted
      rw [if_neg (by show v ∉ s.master; rw [hml]; exact hv)]
      simp only [FL.insertedMaster, FL.insertItem]
      split_ifs <;> rfl
    rw [hsel, hti, hi, List.forall₂_map_right_iff, List.forall₂_same]
    intro x _
    have := C05_insert_index sord x l k hkl v
    exact ⟨this.1, this.2.1, this.2.2.2⟩
  · intro k hkl t
    have ht : LInv true t := h.step sord ord _ trivial
    have hkm : k < s.master.length := by rw [hml]; exact hkl
    have ht0 := inv_itemRemoved sord (s := { s with source := some (l.eraseIdx k) }) (od := true) (i := k) (k := k)
      ⟨h.nodup, h.nodupItems, h.level, fun hl => h.good hl, fun hl hh => h.window hl hh⟩ hkm (Py.index?_nat hkm)
    have hv : s.master[k] = l[k] := by simp [hml]
    have et : t = FL.itemRemoved sord { s with source := some (l.eraseIdx k) } s.master[k] k := by
      show s.step sord ord _ = _
      simp only [FL.step, hs, Py.get?_nat hkl, Py.del?_nat hkl, hv]
    have hsf : SameF _ t := et ▸ ht0.2.2
    have htm : t.master = l.eraseIdx k := by
      rw [et]
      have := ht0.2.1
      simp only [hml] at this ⊢
      exact this
    have hti : t.items = l.eraseIdx k := by
      rw [goodItems t ht (by rw [hsf.level]; exact hl) (by rw [hsf.key]; exact hk), htm]
      intro x hx
      rw [htm] at hx
      rw [hsf.acc]
      exact hacc x ((List.eraseIdx_sublist l k).mem hx)
    have hsel : t.sels = s.sels.map fun y => (removeIndex sord y k).sel := by
      rw [et]
      unfold FL.itemRemoved
      rw [Py.del?_nat hkm]
      simp only [FL.removedMaster, FL.removeItem]
      split_ifs <;> rfl
    rw [hsel, hti, hi, List.forall₂_map_right_iff, List.forall₂_same]
    intro x _
    have := C05_remove_index sord x l k hkl
    exact ⟨this.1, this.2.2⟩

end

/-! ### Counterexamples and cases -/

/-- C20 is false if an item moves inside a change block: the source becomes `[2, 1]`, the list stays `[1, 2]`. -/
theorem C20_move_counterexample :
    let s : FL Nat Nat Nat := (FL.init id []).run ascending
      [(idOrder, .beginChange), (idOrder, .setContainer (some [1, 2])), (idOrder, .endChange),
       (idOrder, .beginChange), (idOrder, .srcRemove 0), (idOrder, .srcInsert 1 1), (idOrder, .endChange)]
    s.level = 0 ∧ s.key.isNone ∧ s.source = some [2, 1] ∧ s.items = [1, 2] := by decide

/-- C20 is false with `sort_reverse` and no sort key: items added in a block arrive in the reverse order. -/
theorem C20_reverse_counterexample :
    let s : FL Nat Nat Nat := (FL.init id []).run ascending
      [(idOrder, .setReverse true), (idOrder, .beginChange), (idOrder, .srcInsert 9 0), (idOrder, .endChange),
       (idOrder, .setContainer (some [])), (idOrder, .setReverse true),
       (idOrder, .beginChange), (idOrder, .srcInsert 1 0), (idOrder, .srcInsert 2 1), (idOrder, .endChange)]
    s.level = 0 ∧ s.key.isNone ∧ s.source = some [1, 2] ∧ s.items = [2, 1] := by decide

/-- C24 is false: the middle item of `[1, 2, 3]` gets the key 10 and stays where it is. -/
theorem C24_item_change_counterexample :
    let s : FL Nat Nat Nat := (FL.init id []).run ascending
      [(idOrder, .setContainer (some [1, 2, 3])), (idOrder, .setKey (some id)), (idOrder, .changeContent 2 10)]
    s.level = 0 ∧ s.items = [1, 2, 3] ∧ s.items.map s.content = [1, 10, 3] := by decide

/-- C25 is false: with the filter `> 1` on the source `[1, 2, 3]` the item 2 is selected; inserting the rejected item 0
moves the selection to item 3. -/
theorem C25_selections_counterexample :
    let s : FL Nat Nat Nat := (FL.init id [⟨∅, none, .multiple⟩]).run ascending
      [(idOrder, .setContainer (some [1, 2, 3])), (idOrder, .setFilter (· > 1)), (idOrder, .select 0 (.set 0))]
    let t := s.step ascending idOrder (.srcInsert 0 0)
    s.items = [2, 3] ∧ t.items = [2, 3] ∧ (s.sels.map fun x => selectedItems x.indexes s.items) = [[2]] ∧
    (t.sels.map fun x => selectedItems x.indexes t.items) = [[3]] := by decide

/-- a descending list with equal keys: the new item goes before the item with the same key -/
example : Py.insert [(9, 'a'), (5, 'b'), (5, 'c'), (1, 'd')]
    (findSorted (cmpKey true fun x : Nat × Char => x.1) (5, 'n') [(9, 'a'), (5, 'b'), (5, 'c'), (1, 'd')] : Nat) (5, 'n') =
    [(9, 'a'), (5, 'n'), (5, 'b'), (5, 'c'), (1, 'd')] := by decide

/-- an admissible history with nested blocks, source changes, filter and sorting changes, content changes -/
example :
    let ops : List (IterOrder Nat × LOp Nat Nat Nat) :=
      [(idOrder, .setContainer (some [1, 2, 3])), (idOrder, .setKey (some id)), (idOrder, .setReverse true),
       (idOrder, .beginChange), (idOrder, .srcInsert 5 0), (idOrder, .beginChange), (idOrder, .srcRemove 1),
       (idOrder, .endChange), (idOrder, .endChange), (idOrder, .setFilter (· < 9)), (idOrder, .srcInsert 4 (-1)),
       (idOrder, .changeContent 5 9), (idOrder, .changeContent 4 7)]
    (FL.init id []).AdmAll true ascending ops ∧ ((FL.init id []).run ascending ops).items = [4, 3, 2] := by
  refine ⟨?_, by decide⟩
  simp only [FL.AdmAll, FL.Adm, and_true, true_and]
  refine ⟨by decide, by decide, by decide, by decide, by decide, ⟨fun _ => ?_, ?_⟩, ⟨fun _ => ?_, ?_⟩⟩
  · exact Settles.of_all id rfl (by decide)
  · exact fun hh => absurd hh (by decide)
  · exact Settles.of_all id rfl (by decide)
  · exact fun hh => absurd hh (by decide)

end Verif.ListModel
