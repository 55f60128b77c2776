import Verif.ListModel.FilteredProps

/-!
Property C112: list models whose container is another list model.

A filtered list model is an observable list itself, so it can be the container of another filtered list model
(`nion/utils/ListModel.py:556-600` listens to the events that 396-413, 525-544 fire), that one of a third, and so on, with
a mapped list model (`ListModel.py:724-790`) at the end. Each event of a model is delivered to the model above before the
code that fired it goes on. The difficulty is the full replacement (536-539): it removes the last item while naming the
first, so the model above is wrong until all removals are delivered.

The models are those of `Filtered.lean` and `Mapped.lean`, with their idealisations (single thread, no listener that
changes a model). The contents of the items do not change here.
-/

set_option linter.unusedSectionVars false

namespace Verif.ListModel

open Verif.Py Verif.Selection

section
variable {α C K : Type*} [DecidableEq α] [LinearOrder K]

/-! ### The model -/

/-- A model receives one event of its container: an item notification (ListModel.py:611-640; `l` is the container's list at
that moment), a begin or end event (584-590) or a reset event (595-597). -/
def FL.feed (sord : SetOrder) (d : FL α C K) : FEv α → FL α C K
  | .note (.inserted x i) l => { d with source := some l }.itemInserted sord x i
  | .note (.removed x i) l => { d with source := some l }.itemRemoved sord x i
  | .beginChanges => d.emit .beginChanges
  | .endChanges => d.emit .endChanges
  | .reset => { d with sorted := false }.emit .reset

def FL.feedAll (sord : SetOrder) (d : FL α C K) (es : List (FEv α)) : FL α C K := es.foldl (fun d e => d.feed sord e) d

/-- The models above receive the events `es` of the model below them, each passing on what it fires itself. -/
def cascade (sord : SetOrder) : List (FEv α) → List (FL α C K) → List (FL α C K)
  | _, [] => []
  | es, d :: ds => d.feedAll sord es :: cascade sord ((d.feedAll sord es).log.drop d.log.length) ds

/-- What can happen to a chain: an event at the model number `k`, or a new model with the last one as container. -/
inductive KOp (α C K : Type*) where
  | at (k : Nat) (ord : IterOrder α) (o : LOp α C K)
  | extend (sels : List Sel)

/-- An event at the model number `k`; what it fires goes to the models above. -/
def chainAt (sord : SetOrder) (ord : IterOrder α) (o : LOp α C K) : Nat → List (FL α C K) → List (FL α C K)
  | _, [] => []
  | 0, s :: ds => s.step sord ord o :: cascade sord ((s.step sord ord o).log.drop s.log.length) ds
  | k + 1, s :: ds => s :: chainAt sord ord o k ds

/-- ListModel.py:243-268 with the last model as container. -/
def chainExtend (sord : SetOrder) (content : α → C) (sels : List Sel) : List (FL α C K) → List (FL α C K)
  | [] => []
  | [s] => [s, (FL.init content sels).setContainer sord (some s.items)]
  | s :: t :: ds => s :: chainExtend sord content sels (t :: ds)

def chainStep (sord : SetOrder) (content : α → C) (ms : List (FL α C K)) : KOp α C K → List (FL α C K)
  | .at k ord o => chainAt sord ord o k ms
  | .extend sels => chainExtend sord content sels ms

/-- A history of a chain that begins with one model without container. -/
def chainRun (sord : SetOrder) (content : α → C) (sels : List Sel) (ops : List (KOp α C K)) : List (FL α C K) :=
  ops.foldl (chainStep sord content) [FL.init content sels]

/-! ### What a model's events look like -/

def FEv.Quiet : FEv α → Prop
  | .note _ _ => False
  | _ => True

/-- The removals of a full replacement of the list `l` by the names `xs`. -/
def popEvents : List α → List α → List (FEv α)
  | [], _ => []
  | x :: xs, l => .note (.removed x (l.dropLast.length : Nat)) l.dropLast :: popEvents xs l.dropLast

/-- The events of a model whose items go from one list to another: insertions of new items, removals that name the item
removed, removals of everything with the names in the order of the list. -/
inductive Fed : List α → List (FEv α) → List α → Prop
  | nil (l) : Fed l [] l
  | quiet {l e es l'} : FEv.Quiet e → Fed l es l' → Fed l (e :: es) l'
  | ins {l x i es l'} : x ∉ l → Fed (Py.insert l i x) es l' → Fed l (.note (.inserted x i) (Py.insert l i x) :: es) l'
  | rem {l x i l1 es l'} : Py.get? l i = some x → Py.del? l i = some l1 → Fed l1 es l' →
      Fed l (.note (.removed x i) l1 :: es) l'
  | pops {l es l'} : Fed [] es l' → Fed l (popEvents l l ++ es) l'

omit [DecidableEq α] in
theorem Fed.append {a b c : List α} {es fs : List (FEv α)} (h : Fed a es b) (h' : Fed b fs c) : Fed a (es ++ fs) c := by
  induction h with
  | nil => exact h'
  | quiet q _ ih => exact .quiet q (ih h')
  | ins hx _ ih => exact .ins hx (ih h')
  | rem h1 h2 _ ih => exact .rem h1 h2 (ih h')
  | pops _ ih => rw [List.append_assoc]; exact .pops (ih h')

/-- The events added to the log between two states. -/
def Emits (s t : FL α C K) : Prop := ∃ es, t.log = s.log ++ es ∧ Fed s.items es t.items

theorem Emits.of_eq {s t : FL α C K} (h1 : t.log = s.log) (h2 : t.items = s.items) : Emits s t :=
  ⟨[], by simp [h1], by rw [h2]; exact .nil _⟩

theorem Emits.trans {s t u : FL α C K} (h : Emits s t) (h' : Emits t u) : Emits s u := by
  obtain ⟨es, h1, h2⟩ := h
  obtain ⟨fs, h3, h4⟩ := h'
  exact ⟨es ++ fs, by rw [h3, h1, List.append_assoc], h2.append h4⟩

theorem Emits.quiet {s t : FL α C K} {e : FEv α} (q : e.Quiet) (h1 : t.log = s.log ++ [e]) (h2 : t.items = s.items) :
    Emits s t := ⟨[e], h1, by rw [h2]; exact .quiet q (.nil _)⟩

theorem emits_insertItem (s : FL α C K) (cmp : Option (α → α → Bool)) (x : α) (hx : x ∉ s.items) :
    Emits s (s.insertItem cmp x) :=
  ⟨_, rfl, .quiet trivial (.ins hx (.quiet trivial (.nil _)))⟩

theorem emits_removeItem (s : FL α C K) (x : α) (hx : x ∈ s.items) : Emits s (s.removeItem x) := by
  have hlt := List.idxOf_lt_length_of_mem hx
  refine ⟨_, rfl, .quiet trivial (.rem ?_ (Py.del?_nat hlt) (.quiet trivial (.nil _)))⟩
  rw [Py.get?_nat hlt, List.getElem_idxOf]

theorem emits_insertedMaster (s : FL α C K) (x : α) (hx : s.level = 0 → x ∉ s.items) (hl : 0 ≤ s.level) :
    Emits s (s.insertedMaster x) := by
  unfold FL.insertedMaster
  split_ifs with h1 h2
  · exact .of_eq rfl rfl
  · exact emits_insertItem s _ x (hx (by omega))
  · exact .of_eq rfl rfl

theorem emits_removedMaster (s : FL α C K) (x : α) : Emits s (s.removedMaster x) := by
  unfold FL.removedMaster
  split_ifs with h1 h2
  · exact .of_eq rfl rfl
  · exact emits_removeItem s x h2
  · exact .of_eq rfl rfl

theorem emits_itemInserted (sord : SetOrder) {od : Bool} {s : FL α C K} (h : FInv0 od s) (x : α) (i : Int) :
    Emits s (s.itemInserted sord x i) := by
  unfold FL.itemInserted
  split
  · exact .of_eq rfl rfl
  · rename_i hx
    have h1 : Emits s { s with master := Py.insert s.master i x } := .of_eq rfl rfl
    have h2 := emits_insertedMaster { s with master := Py.insert s.master i x } x
      (fun hl hxi => hx (((h.good hl).mem x).1 hxi).1) h.level
    exact h1.trans (h2.trans (.of_eq rfl rfl))

theorem emits_itemRemoved (sord : SetOrder) (s : FL α C K) (x : α) (i : Int) : Emits s (s.itemRemoved sord x i) := by
  unfold FL.itemRemoved
  cases Py.del? s.master i with
  | none => exact .of_eq rfl rfl
  | some l =>
    have h1 : Emits s { s with master := l } := .of_eq rfl rfl
    exact h1.trans ((emits_removedMaster _ x).trans (.of_eq rfl rfl))

theorem emits_removeAll (sord : SetOrder) (xs : List α) (s : FL α C K) : Emits s (FL.removeAll sord xs s) := by
  induction xs generalizing s with
  | nil => exact .of_eq rfl rfl
  | cons x xs ih => exact (emits_itemRemoved sord s x _).trans (ih _)

theorem emits_insertAll (sord : SetOrder) {od : Bool} (xs : List α) (s : FL α C K) (h : FInv0 od s) (hs : s.sorted = false)
    (hn : (s.master ++ xs).Nodup) : Emits s (FL.insertAll sord xs s.master.length s) := by
  induction xs generalizing s with
  | nil => exact .of_eq rfl rfl
  | cons x xs ih =>
    have hx : x ∉ s.master := fun hx => (List.nodup_append.1 hn).2.2 x hx x (by simp) rfl
    obtain ⟨h1, h2, h3⟩ := inv_itemInserted sord h (s.master.length : Int) hx (fun _ _ hh => by rw [hs] at hh; cases hh)
    rw [Py.insert_length] at h2
    have g := ih _ h1 (h3.sorted.trans hs) (by rw [h2]; simpa using hn)
    rw [show (s.itemInserted sord x (s.master.length : Int)).master.length = s.master.length + 1 by rw [h2]; simp] at g
    simp only [FL.insertAll, if_neg hx]
    exact (emits_itemInserted sord h x _).trans g

theorem emits_removeLoop (rm : α → Bool) (xs kept : List α) (i r : Nat) (s : FL α C K) (hs : s.items = kept ++ xs)
    (hi : i = kept.length + r) : Emits s (FL.removeLoop rm xs i r s) := by
  induction xs generalizing kept i r s with
  | nil => exact .of_eq rfl rfl
  | cons x xs ih =>
    unfold FL.removeLoop
    split
    · have hpos : i - r = kept.length := by omega
      have hlt : kept.length < s.items.length := by rw [hs]; simp
      have he : s.items.eraseIdx kept.length = kept ++ xs := by
        rw [hs, List.eraseIdx_append_of_length_le (le_refl _)]; simp
      have hv : s.items[kept.length] = x := by simp [hs]
      have e1 : Emits s (s.delAt (i - r) x) := by
        refine ⟨_, rfl, ?_⟩
        rw [hpos]
        exact .rem (by rw [Py.get?_nat hlt, hv]) (Py.del?_nat hlt) (.nil _)
      exact e1.trans (ih kept (i + 1) (r + 1) _ (by simp only [FL.delAt]; rw [hpos, he]) (by omega))
    · exact ih (kept ++ [x]) (i + 1) r s (by simp [hs]) (by simp; omega)

theorem popLoop_events (xs : List α) (s : FL α C K) (h : xs.length = s.items.length) :
    FL.popLoop xs s = { s with items := [], log := s.log ++ popEvents xs s.items } := by
  induction xs generalizing s with
  | nil =>
    have h0 : s.items = [] := List.length_eq_zero_iff.1 (by simpa using h.symm)
    simp only [FL.popLoop, popEvents, List.append_nil]
    rw [← h0]
  | cons x xs ih =>
    simp only [List.length_cons] at h
    simp only [FL.popLoop]
    rw [ih _ (by simp; omega)]
    simp [popEvents]

theorem emits_popLoop (s : FL α C K) : Emits s (FL.popLoop s.items s) := by
  rw [popLoop_events _ _ rfl]
  exact ⟨popEvents s.items s.items, rfl, by simpa using Fed.pops (.nil [])⟩

theorem emits_appendLoop (xs : List α) (s : FL α C K) (h : (s.items ++ xs).Nodup) : Emits s (FL.appendLoop xs s) := by
  induction xs generalizing s with
  | nil => exact .of_eq rfl rfl
  | cons x xs ih =>
    have hx : x ∉ s.items := fun hx => (List.nodup_append.1 h).2.2 x hx x (by simp) rfl
    have e1 : Emits s { s with
        items := s.items ++ [x], log := s.log ++ [.note (.inserted x s.items.length) (s.items ++ [x])] } := by
      refine ⟨_, rfl, ?_⟩
      have := Fed.ins (i := (s.items.length : Int)) hx (.nil _)
      rwa [Py.insert_length] at this
    exact e1.trans (ih _ (by simpa using h))

theorem emits_insertFold (cmp : α → α → Bool) (xs : List α) (s : FL α C K) (h : xs.Nodup)
    (hd : ∀ x ∈ xs, x ∉ s.items) : Emits s (xs.foldl (fun s x => s.insertItem (some cmp) x) s) := by
  induction xs generalizing s with
  | nil => exact .of_eq rfl rfl
  | cons x xs ih =>
    rw [List.nodup_cons] at h
    refine (emits_insertItem s (some cmp) x (hd x (by simp))).trans (ih _ h.2 fun y hy hm => ?_)
    have := (perm_pyInsert s.items (findSorted cmp x s.items) x).mem_iff.1 hm
    rcases List.mem_cons.1 this with rfl | hm
    · exact h.1 hy
    · exact hd y (by simp [hy]) hm

theorem emits_updateItems (ord : IterOrder α) (s : FL α C K) (hn : s.master.Nodup) : Emits s (s.updateItems ord) := by
  have hbn : s.build.Nodup := (build_spec true s).perm.nodup_iff.2 (hn.filter _)
  unfold FL.updateItems
  split
  · exact .of_eq rfl rfl
  · have e0 : Emits s (s.emit .beginChanges) := .quiet (e := .beginChanges) trivial rfl rfl
    have e3 : ∀ t : FL α C K, Emits t ({ t with sorted := true }.emit .endChanges) := fun t =>
      .quiet (e := .endChanges) trivial rfl rfl
    refine e0.trans (Emits.trans ?_ (e3 _))
    split
    · have h1 := emits_removeLoop (fun x => decide (x ∉ s.build)) s.items [] 0 0 (s.emit .beginChanges) rfl rfl
      refine h1.trans (emits_insertFold _ _ _ ?_ ?_)
      · exact (ord.perm _).nodup_iff.2 (hbn.filter _)
      · obtain ⟨es, h1, _⟩ := removeLoop_eq (fun x => decide (x ∉ s.build)) s.items [] 0 0 (s.emit .beginChanges) rfl rfl
        rw [h1]
        intro x hx hm
        have := (ord.perm _).mem_iff.1 hx
        simp at this hm
        exact this.2 hm.1
    · have h1 : Emits (s.emit .beginChanges) (FL.popLoop s.items (s.emit .beginChanges)) := emits_popLoop _
      refine h1.trans (emits_appendLoop _ _ ?_)
      rw [popLoop_events s.items (s.emit .beginChanges) rfl]
      simpa using hbn

theorem emits_step (sord : SetOrder) (ord : IterOrder α) {od : Bool} {s : FL α C K} (h : LInv od s) (o : LOp α C K)
    (ha : s.Adm od o) (hc : ∀ v c, o ≠ .changeContent v c) : Emits s (s.step sord ord o) := by
  have setter : ∀ t : FL α C K, t.master = s.master → t.items = s.items → t.log = s.log ++ [.reset] →
      Emits s (t.updateItems ord) := fun t h1 h2 h3 =>
    (Emits.quiet (e := .reset) trivial h3 h2).trans (emits_updateItems ord t (h1 ▸ h.nodup))
  cases o with
  | srcInsert v i =>
    cases hs : s.source with
    | none => simp only [FL.step, hs]; exact .of_eq rfl rfl
    | some l =>
      simp only [FL.step, hs]
      have h0 : FInv0 od { s with source := some (Py.insert l i v) } :=
        ⟨h.nodup, h.nodupItems, h.level, fun hl => h.good hl, fun hl hh => h.window hl hh⟩
      have e0 : Emits s { s with source := some (Py.insert l i v) } := .of_eq rfl rfl
      exact e0.trans (emits_itemInserted sord h0 v i)
  | srcRemove i =>
    cases hs : s.source with
    | none => simp only [FL.step, hs]; exact .of_eq rfl rfl
    | some l =>
      simp only [FL.step, hs]
      split
      · rename_i v l' _ _
        have e0 : Emits s { s with source := some l' } := .of_eq rfl rfl
        exact e0.trans (emits_itemRemoved sord _ v i)
      · exact .of_eq rfl rfl
  | setContainer c =>
    simp only [FL.step, FL.setContainer]
    obtain ⟨g1, g2, g3⟩ := inv_removeAll sord (s.source.getD []).reverse s h.toFInv0 (by simp [h.src])
    have e1 := emits_removeAll sord (s.source.getD []).reverse s
    set u := FL.removeAll sord (s.source.getD []).reverse s with hu
    set t : FL α C K := { u with source := c, sorted := false }.emit .reset with ht
    have e2 : Emits u t := .quiet (e := .reset) trivial rfl rfl
    have ht0 : FInv0 od t :=
      ⟨g1.nodup, g1.nodupItems, g1.level, fun hl => g1.good hl, fun hl hh => by simp [ht, FL.emit] at hh⟩
    have htm : t.master = [] := g2
    have e3 := emits_insertAll sord (c.getD []) t ht0 rfl (by rw [htm]; exact ha)
    rw [htm] at e3
    exact e1.trans (e2.trans e3)
  | srcBegin => exact .quiet (e := .beginChanges) trivial rfl rfl
  | srcEnd => exact .quiet (e := .endChanges) trivial rfl rfl
  | srcReset => exact .quiet (e := .reset) trivial rfl rfl
  | changeContent v c => exact absurd rfl (hc v c)
  | setFilter p => exact setter _ rfl rfl rfl
  | setKey k => exact setter _ rfl rfl rfl
  | setReverse b => exact setter _ rfl rfl rfl
  | beginChange => exact .of_eq rfl rfl
  | endChange =>
    simp only [FL.step]
    have e0 : Emits s { s with level := s.level - 1 } := .of_eq rfl rfl
    split
    · exact e0.trans (emits_updateItems ord _ h.nodup)
    · exact e0
  | select k o => exact .of_eq rfl rfl

/-! ### What the model above makes of them -/

theorem FL.feedAll_append (sord : SetOrder) (d : FL α C K) (a b : List (FEv α)) :
    d.feedAll sord (a ++ b) = (d.feedAll sord a).feedAll sord b := by
  unfold FL.feedAll; rw [List.foldl_append]

/-- One wrongly named removal: the last item leaves the received list, the named one leaves the items. -/
theorem feed_pop (sord : SetOrder) (d : FL α C K) (x : α) (l : List α) (hm : d.master = l) (hne : l ≠ [])
    (hn : d.items.Nodup) :
    let t := d.feed sord (.note (.removed x (l.dropLast.length : Nat)) l.dropLast)
    t.master = l.dropLast ∧ t.source = some l.dropLast ∧ SameF { d with source := some l.dropLast } t ∧
      t.items = (if d.level > 0 then d.items else d.items.filter (· ≠ x)) ∧ Emits d t := by
  intro t
  have hpos : l.length ≠ 0 := fun h0 => hne (List.length_eq_zero_iff.1 h0)
  have hd : Py.del? d.master (l.dropLast.length : Nat) = some l.dropLast := by
    rw [hm, Py.del?_nat (by simp; omega), List.length_dropLast, List.eraseIdx_length_sub_one]
  have em : Emits d t := by
    have e0 : Emits d { d with source := some l.dropLast } := .of_eq rfl rfl
    exact e0.trans (emits_itemRemoved sord _ x _)
  have ht : t = (let u := { d with source := some l.dropLast, master := l.dropLast }.removedMaster x
      { u with sels := u.sels.map fun y => (removeIndex sord y (l.dropLast.length : Nat)).sel }) := by
    show FL.itemRemoved sord { d with source := some l.dropLast } x _ = _
    unfold FL.itemRemoved
    simp only [hd]
  have hs := sameF_removedMaster { d with source := some l.dropLast, master := l.dropLast } x
  refine ⟨by rw [ht]; exact hs.2, by rw [ht]; exact hs.1.source, ?_, ?_, em⟩
  · rw [ht]; exact ⟨hs.1.source, hs.1.content, hs.1.filter, hs.1.key, hs.1.reverse, hs.1.level, hs.1.sorted⟩
  · rw [ht]
    unfold FL.removedMaster
    simp only
    split
    · rename_i hl; simp
    · rename_i hl
      split
      · simp only [FL.removeItem, eraseIdx_idxOf]
        rw [hn.erase_eq_filter]
        apply List.filter_congr
        intro y _
        rw [Bool.eq_iff_iff]; simp
      · rename_i hx
        symm
        rw [List.filter_eq_self]
        intro y hy
        simp only [decide_eq_true_eq]
        rintro rfl
        exact hx hy

/-- All removals of a full replacement. -/
theorem feed_pops (sord : SetOrder) (xs : List α) (l : List α) (d : FL α C K) (hl : xs.length = l.length)
    (hm : d.master = l) (hs : d.source = some l) (hn : d.items.Nodup) :
    let t := d.feedAll sord (popEvents xs l)
    t.master = [] ∧ t.source = some [] ∧ SameF { d with source := some [] } t ∧
      t.items = (if d.level > 0 then d.items else d.items.filter (· ∉ xs)) ∧ Emits d t := by
  induction xs generalizing l d with
  | nil =>
    have h0 : l = [] := List.length_eq_zero_iff.1 (by simpa using hl.symm)
    subst h0
    refine ⟨hm, hs, ⟨hs, rfl, rfl, rfl, rfl, rfl, rfl⟩, ?_, .of_eq rfl rfl⟩
    show d.items = _
    simp
  | cons x xs ih =>
    simp only [List.length_cons] at hl
    have hne : l ≠ [] := by rintro rfl; simp at hl
    obtain ⟨h1, h2, h3, h4, h5⟩ := feed_pop sord d x l hm hne hn
    set u := d.feed sord (.note (.removed x (l.dropLast.length : Nat)) l.dropLast) with hu
    have hnu : u.items.Nodup := by rw [h4]; split; exacts [hn, hn.filter _]
    obtain ⟨g1, g2, g3, g4, g5⟩ := ih l.dropLast u (by simp; omega) h1 h2 hnu
    intro t
    have ht : t = u.feedAll sord (popEvents xs l.dropLast) := rfl
    rw [ht]
    refine ⟨g1, g2, ⟨g3.source, g3.content.trans h3.content, g3.filter.trans h3.filter, g3.key.trans h3.key,
      g3.reverse.trans h3.reverse, g3.level.trans h3.level, g3.sorted.trans h3.sorted⟩, ?_, h5.trans g5⟩
    rw [g4, h4, show u.level = d.level from h3.level]
    split
    · rfl
    · rw [List.filter_filter]
      apply List.filter_congr
      intro y _
      simp only [List.mem_cons, ne_eq, decide_not, not_or, Bool.decide_and]
      rw [Bool.and_comm]

/-- A model that receives the events of its container stays correct, follows the container's list, and fires events of
the same kind. -/
theorem fed_down (sord : SetOrder) {od : Bool} {l l' : List α} {es : List (FEv α)} (h : Fed l es l') (d : FL α C K)
    (hi : LInv od d) (hl : od = true → d.level = 0) (hs : d.source = some l) :
    LInv od (d.feedAll sord es) ∧ (d.feedAll sord es).source = some l' ∧ (d.feedAll sord es).level = d.level ∧
      (d.feedAll sord es).content = d.content ∧ Emits d (d.feedAll sord es) := by
  have one : ∀ (o : LOp α C K) (e : FEv α), d.feed sord e = d.step sord ⟨id, fun l => .refl l⟩ o → d.Adm od o →
      (∀ v c, o ≠ .changeContent v c) → LInv od (d.feed sord e) ∧ Emits d (d.feed sord e) := fun o e h1 h2 h3 => by
    rw [h1]; exact ⟨hi.step sord _ o h2, emits_step sord _ hi o h2 h3⟩
  induction h generalizing d with
  | nil => exact ⟨hi, hs, rfl, rfl, .of_eq rfl rfl⟩
  | @quiet l e es l' q _ ih =>
    have hq : LInv od (d.feed sord e) ∧ Emits d (d.feed sord e) ∧ (d.feed sord e).source = d.source ∧
        (d.feed sord e).level = d.level ∧ (d.feed sord e).content = d.content := by
      cases e with
      | note n l => exact q.elim
      | beginChanges => exact ⟨(one .srcBegin _ rfl trivial (by simp)).1, (one .srcBegin _ rfl trivial (by simp)).2, rfl, rfl, rfl⟩
      | endChanges => exact ⟨(one .srcEnd _ rfl trivial (by simp)).1, (one .srcEnd _ rfl trivial (by simp)).2, rfl, rfl, rfl⟩
      | reset => exact ⟨(one .srcReset _ rfl trivial (by simp)).1, (one .srcReset _ rfl trivial (by simp)).2, rfl, rfl, rfl⟩
    obtain ⟨q1, q2, q3, q4, q5⟩ := hq
    obtain ⟨g1, g2, g3, g4, g5⟩ := ih (d.feed sord e) q1 (fun ho => q4.trans (hl ho)) (q3.trans hs)
      (fun o e' h1 h2 h3 => by rw [h1]; exact ⟨q1.step sord _ o h2, emits_step sord _ q1 o h2 h3⟩)
    exact ⟨g1, g2, g3.trans q4, g4.trans q5, q2.trans g5⟩
  | @ins l x i es l' hx _ ih =>
    have ha : d.Adm od (.srcInsert x i) := ⟨by rw [hs]; exact hx, fun ho h0 => absurd (hl ho) (by omega)⟩
    have he : d.feed sord (.note (.inserted x i) (Py.insert l i x)) = d.step sord ⟨id, fun l => .refl l⟩ (.srcInsert x i) := by
      simp only [FL.step, hs]; rfl
    obtain ⟨q1, q2⟩ := one _ _ he ha (by simp)
    have h0 : FInv0 od { d with source := some (Py.insert l i x) } :=
      ⟨hi.nodup, hi.nodupItems, hi.level, fun hl => hi.good hl, fun hl hh => hi.window hl hh⟩
    have hm : d.master = l := by rw [hi.src, hs]; rfl
    obtain ⟨_, _, k3⟩ := inv_itemInserted sord h0 (x := x) i (by rw [show FL.master { d with source := some (Py.insert l i x) } = l from hm]; exact hx)
      (fun ho h0 => absurd (hl ho) (by simp only at h0; omega))
    obtain ⟨g1, g2, g3, g4, g5⟩ := ih (d.feed sord (.note (.inserted x i) (Py.insert l i x))) q1
      (fun ho => k3.level.trans (hl ho)) k3.source
      (fun o e' h1 h2 h3 => by rw [h1]; exact ⟨q1.step sord _ o h2, emits_step sord _ q1 o h2 h3⟩)
    exact ⟨g1, g2, g3.trans k3.level, g4.trans k3.content, q2.trans g5⟩
  | @rem l x i l1 es l' hx hd _ ih =>
    have ha : d.Adm od (.srcRemove i) := trivial
    have he : d.feed sord (.note (.removed x i) l1) = d.step sord ⟨id, fun l => .refl l⟩ (.srcRemove i) := by
      simp only [FL.step, hs, hx, hd]; rfl
    obtain ⟨q1, q2⟩ := one _ _ he ha (by simp)
    have k3 : SameF { d with source := some l1 } (d.feed sord (.note (.removed x i) l1)) := by
      show SameF _ (FL.itemRemoved sord { d with source := some l1 } x i)
      unfold FL.itemRemoved
      split
      · rename_i m _
        have := (sameF_removedMaster { d with source := some l1, master := m } x).1
        exact ⟨this.source, this.content, this.filter, this.key, this.reverse, this.level, this.sorted⟩
      · exact .refl _
    obtain ⟨g1, g2, g3, g4, g5⟩ := ih (d.feed sord (.note (.removed x i) l1)) q1 (fun ho => k3.level.trans (hl ho)) k3.source
      (fun o e' h1 h2 h3 => by rw [h1]; exact ⟨q1.step sord _ o h2, emits_step sord _ q1 o h2 h3⟩)
    exact ⟨g1, g2, g3.trans k3.level, g4.trans k3.content, q2.trans g5⟩
  | @pops l es l' _ ih =>
    have hm : d.master = l := by rw [hi.src, hs]; rfl
    obtain ⟨p1, p2, p3, p4, p5⟩ := feed_pops sord l l d rfl hm hs hi.nodupItems
    rw [FL.feedAll_append]
    set t := d.feedAll sord (popEvents l l) with ht
    have hti : LInv od t := by
      refine ⟨⟨by rw [p1]; exact List.nodup_nil, ?_, by rw [p3.level]; exact hi.level, fun h0 => ?_, fun h0 hso => ?_⟩,
        by rw [p1, p2]; rfl⟩
      · rw [p4]; split; exacts [hi.nodupItems, hi.nodupItems.filter _]
      · have hd0 : d.level = 0 := p3.level ▸ h0
        have : t.items = [] := by
          rw [p4, if_neg (by omega), List.filter_eq_nil_iff]
          intro y hy
          have := (((hi.good hd0).mem y).1 hy).1
          rw [hm] at this
          simpa using this
        unfold FL.Good CorrectFor
        rw [this, p1]
        cases t.ikey with
        | none => exact ⟨.refl _, fun _ => rfl⟩
        | some k => exact ⟨.refl _, List.Pairwise.nil⟩
      · have hd0 : 0 < d.level := p3.level ▸ h0
        have hw := hi.window hd0 (p3.sorted ▸ hso)
        unfold FL.Window at hw ⊢
        rw [p1, p4, if_pos (by omega), p3.ikey, p3.reverse]
        rw [show FL.ikey { d with source := some [] } = d.ikey from rfl]
        cases hk : d.ikey with
        | none => intro _; simp
        | some k => rw [hk] at hw; exact hw
    obtain ⟨g1, g2, g3, g4, g5⟩ := ih t hti (fun ho => p3.level.trans (hl ho)) p2
      (fun o e' h1 h2 h3 => by rw [h1]; exact ⟨hti.step sord _ o h2, emits_step sord _ hti o h2 h3⟩)
    exact ⟨g1, g2, g3.trans p3.level, g4.trans p3.content, p5.trans g5⟩

/-! ### Chains -/

/-- The events that do not change the content of an item. -/
def LOp.Still : LOp α C K → Prop
  | .changeContent _ _ => False
  | _ => True

/-- The events at a model other than the first that do not come from its container. If the order of unsorted models is to
be kept (`od`), no change blocks. -/
def LOp.Own (od : Bool) : LOp α C K → Prop
  | .setFilter _ => True
  | .setKey _ => True
  | .setReverse _ => True
  | .select _ _ => True
  | .beginChange => od = false
  | .endChange => True
  | _ => False

/-- The events of a chain for which it keeps its items correct; at the first model those of C20 and C21. -/
def chainAdm (od : Bool) (ms : List (FL α C K)) : KOp α C K → Prop
  | .at k _ o => ∀ s, ms[k]? = some s → s.Adm od o ∧ (if k = 0 then o.Still else o.Own od)
  | .extend _ => True

/-- Every event of the history is admissible when it happens. -/
def chainAdmAll (od : Bool) (sord : SetOrder) (content : α → C) (ms : List (FL α C K)) : List (KOp α C K) → Prop
  | [] => True
  | o :: ops => chainAdm od ms o ∧ chainAdmAll od sord content (chainStep sord content ms o) ops

/-- Every model is as it must be for the items of the one below. -/
def Linked (od : Bool) (content : α → C) : Option (List α) → List (FL α C K) → Prop
  | _, [] => True
  | src, d :: ds => LInv od d ∧ d.content = content ∧
      (∀ l, src = some l → d.source = some l ∧ (od = true → d.level = 0)) ∧ Linked od content (some d.items) ds

theorem drop_log {s t : FL α C K} {es : List (FEv α)} (h : t.log = s.log ++ es) : t.log.drop s.log.length = es := by
  rw [h]; simp

theorem cascade_linked (sord : SetOrder) {od : Bool} {content : α → C} {l l' : List α} {es : List (FEv α)}
    (h : Fed l es l') (ds : List (FL α C K)) (hd : Linked od content (some l) ds) :
    Linked od content (some l') (cascade sord es ds) ∧ List.Forall₂ Emits ds (cascade sord es ds) := by
  induction ds generalizing l l' es with
  | nil => exact ⟨trivial, .nil⟩
  | cons d ds ih =>
    obtain ⟨h1, h2, h3, h4⟩ := hd
    obtain ⟨h3a, h3b⟩ := h3 l rfl
    obtain ⟨g1, g2, g3, g4, g5⟩ := fed_down sord h d h1 h3b h3a
    obtain ⟨fs, e1, e2⟩ := g5
    simp only [cascade]
    rw [drop_log e1]
    obtain ⟨k1, k2⟩ := ih e2 h4
    refine ⟨⟨g1, g4.trans h2, fun l'' hl => ?_, k1⟩, .cons ⟨fs, e1, e2⟩ k2⟩
    obtain rfl : l' = l'' := Option.some.inj hl
    exact ⟨g2, fun ho => g3.trans (h3b ho)⟩

theorem updateItems_same (ord : IterOrder α) (s : FL α C K) :
    (s.updateItems ord).source = s.source ∧ (s.updateItems ord).content = s.content ∧
      (s.updateItems ord).level = s.level := by
  by_cases hl : s.level > 0
  · have e : s.updateItems ord = s := by unfold FL.updateItems; rw [if_pos hl]
    rw [e]; exact ⟨rfl, rfl, rfl⟩
  · obtain ⟨l, ns, h1, _⟩ := updateItems_log ord s hl
    rw [h1]; exact ⟨rfl, rfl, rfl⟩

theorem own_step (sord : SetOrder) (ord : IterOrder α) {od : Bool} (d : FL α C K) (o : LOp α C K) (ho : o.Own od)
    (ha : d.Adm od o) (hl : od = true → d.level = 0) :
    (d.step sord ord o).source = d.source ∧ (od = true → (d.step sord ord o).level = 0) := by
  cases o with
  | setFilter p =>
    obtain ⟨h1, _, h3⟩ := updateItems_same ord ({ d with filter := p, sorted := false }.emit .reset)
    exact ⟨h1, fun h => h3.trans (hl h)⟩
  | setKey p =>
    obtain ⟨h1, _, h3⟩ := updateItems_same ord ({ d with key := p, sorted := false }.emit .reset)
    exact ⟨h1, fun h => h3.trans (hl h)⟩
  | setReverse p =>
    obtain ⟨h1, _, h3⟩ := updateItems_same ord ({ d with reverse := p, sorted := false }.emit .reset)
    exact ⟨h1, fun h => h3.trans (hl h)⟩
  | select k o => exact ⟨rfl, hl⟩
  | beginChange =>
    refine ⟨rfl, fun h => ?_⟩
    have : od = false := ho
    rw [h] at this; cases this
  | endChange =>
    refine ⟨?_, fun h => ?_⟩
    · simp only [FL.step]
      split
      · exact (updateItems_same ord _).1
      · rfl
    · have h0 := hl h
      have : 0 < d.level := ha.1
      omega
  | _ => exact ho.elim

theorem itemRemoved_content (sord : SetOrder) (s : FL α C K) (x : α) (i : Int) :
    (s.itemRemoved sord x i).content = s.content := by
  unfold FL.itemRemoved
  split
  · exact (sameF_removedMaster _ x).1.content
  · rfl

theorem itemInserted_content (sord : SetOrder) (s : FL α C K) (x : α) (i : Int) :
    (s.itemInserted sord x i).content = s.content := by
  unfold FL.itemInserted
  split
  · rfl
  · exact (sameF_insertedMaster { s with master := Py.insert s.master i x } x).1.content

theorem removeAll_content (sord : SetOrder) (xs : List α) (s : FL α C K) :
    (FL.removeAll sord xs s).content = s.content := by
  induction xs generalizing s with
  | nil => rfl
  | cons x xs ih => exact (ih _).trans (itemRemoved_content _ _ _ _)

theorem insertAll_content (sord : SetOrder) (xs : List α) (i : Nat) (s : FL α C K) :
    (FL.insertAll sord xs i s).content = s.content := by
  induction xs generalizing s i with
  | nil => rfl
  | cons x xs ih =>
    simp only [FL.insertAll]
    split
    · rfl
    · exact (ih _ _).trans (itemInserted_content _ _ _ _)

theorem still_content (sord : SetOrder) (ord : IterOrder α) (s : FL α C K) (o : LOp α C K) (ho : o.Still) :
    (s.step sord ord o).content = s.content := by
  cases o with
  | changeContent v c => exact ho.elim
  | srcInsert v i =>
    simp only [FL.step]
    split
    · exact itemInserted_content _ _ _ _
    · rfl
  | srcRemove i =>
    simp only [FL.step]
    split
    · split
      · exact itemRemoved_content _ _ _ _
      · rfl
    · rfl
  | setContainer c =>
    simp only [FL.step, FL.setContainer]
    exact (insertAll_content _ _ _ _).trans (removeAll_content _ _ _)
  | setFilter p => exact (updateItems_same ord _).2.1
  | setKey p => exact (updateItems_same ord _).2.1
  | setReverse p => exact (updateItems_same ord _).2.1
  | endChange =>
    simp only [FL.step]
    split
    · exact (updateItems_same ord _).2.1
    · rfl
  | srcBegin => rfl
  | srcEnd => rfl
  | srcReset => rfl
  | beginChange => rfl
  | select k o => rfl

theorem LOp.Own.still {od : Bool} {o : LOp α C K} (h : o.Own od) : o.Still := by
  cases o <;> trivial

theorem LOp.Still.ne {o : LOp α C K} (h : o.Still) (v : α) (c : C) : o ≠ .changeContent v c := by
  rintro rfl; exact h

theorem forall₂_emits_refl (ms : List (FL α C K)) : List.Forall₂ Emits ms ms := by
  induction ms with
  | nil => exact .nil
  | cons m ms ih => exact .cons (.of_eq rfl rfl) ih

theorem chainAt_linked (sord : SetOrder) (ord : IterOrder α) {od : Bool} {content : α → C} (o : LOp α C K) (k : Nat)
    (src : Option (List α)) (ms : List (FL α C K)) (h : Linked od content src ms)
    (ha : ∀ s, ms[k]? = some s → s.Adm od o ∧ o.Still ∧ ((src.isSome ∨ k ≠ 0) → o.Own od)) :
    Linked od content src (chainAt sord ord o k ms) ∧ List.Forall₂ Emits ms (chainAt sord ord o k ms) := by
  induction ms generalizing k src with
  | nil => cases k <;> exact ⟨trivial, .nil⟩
  | cons d ds ih =>
    obtain ⟨h1, h2, h3, h4⟩ := h
    cases k with
    | zero =>
      obtain ⟨a1, a2, a3⟩ := ha d rfl
      have hem := emits_step sord ord h1 o a1 a2.ne
      obtain ⟨es, e1, e2⟩ := hem
      simp only [chainAt]
      rw [drop_log e1]
      obtain ⟨k1, k2⟩ := cascade_linked sord e2 ds h4
      refine ⟨⟨h1.step sord ord o a1, (still_content sord ord d o a2).trans h2, fun l hl => ?_, k1⟩, .cons ⟨es, e1, e2⟩ k2⟩
      obtain ⟨b1, b2⟩ := h3 l hl
      obtain ⟨c1, c2⟩ := own_step sord ord d o (a3 (.inl (by rw [hl]; rfl))) a1 b2
      exact ⟨c1.trans b1, c2⟩
    | succ k =>
      obtain ⟨k1, k2⟩ := ih k (some d.items) h4 fun s hs => by
        obtain ⟨a1, a2, a3⟩ := ha s (by simpa using hs)
        exact ⟨a1, a2, fun _ => a3 (.inr (by omega))⟩
      exact ⟨⟨h1, h2, h3, k1⟩, .cons (.of_eq rfl rfl) k2⟩

theorem Linked.nodup_last {od : Bool} {content : α → C} {src : Option (List α)} {s : FL α C K}
    (h : Linked od content src [s]) : s.items.Nodup := h.1.nodupItems

theorem chainExtend_linked (sord : SetOrder) {od : Bool} {content : α → C} (sels : List Sel) (src : Option (List α))
    (ms : List (FL α C K)) (h : Linked od content src ms) :
    Linked od content src (chainExtend sord content sels ms) ∧
      ∀ (k : Nat) u, ms[k]? = some u → (chainExtend sord content sels ms)[k]? = some u := by
  induction ms generalizing src with
  | nil => exact ⟨trivial, by simp⟩
  | cons s ds ih =>
    obtain ⟨h1, h2, h3, h4⟩ := h
    cases ds with
    | nil =>
      refine ⟨⟨h1, h2, h3, ?_⟩, ?_⟩
      · have hi : LInv od ((FL.init content sels : FL α C K).setContainer sord (some s.items)) :=
          (LInv.init od content sels).step sord ⟨id, fun l => .refl l⟩ (.setContainer (some s.items)) h1.nodupItems
        have hI := LInv.init (K := K) od content sels
        obtain ⟨g1, g2, g3⟩ := inv_removeAll sord [] (FL.init content sels : FL α C K) hI.toFInv0 rfl
        set t : FL α C K := { FL.init content sels with source := some s.items, sorted := false }.emit .reset with ht
        have ht0 : FInv0 od t := ⟨List.nodup_nil, List.nodup_nil, le_refl _, fun _ => ⟨.refl _, fun _ => rfl⟩,
          fun hh => by simp [ht, FL.emit, FL.init] at hh⟩
        obtain ⟨k1, k2, k3⟩ := inv_insertAll sord s.items t ht0 rfl (by simpa [ht, FL.emit, FL.init] using h1.nodupItems)
        have e : (FL.init content sels : FL α C K).setContainer sord (some s.items) =
            FL.insertAll sord s.items t.master.length t := rfl
        refine ⟨hi, ?_, fun l hl => ?_, trivial⟩
        · rw [e, k3.content]; rfl
        · obtain rfl : s.items = l := Option.some.inj hl
          exact ⟨by rw [e, k3.source]; rfl, fun _ => by rw [e, k3.level]; rfl⟩
      · intro k u hu
        cases k with
        | zero => simpa [chainExtend] using hu
        | succ k => simp at hu
    | cons t ds =>
      obtain ⟨k1, k2⟩ := ih (some s.items) h4
      refine ⟨⟨h1, h2, h3, k1⟩, fun k u hu => ?_⟩
      cases k with
      | zero => simpa [chainExtend] using hu
      | succ k => simpa [chainExtend] using k2 k u (by simpa using hu)

theorem chainStep_linked (sord : SetOrder) {od : Bool} {content : α → C} (ms : List (FL α C K)) (o : KOp α C K)
    (h : Linked od content none ms) (ha : chainAdm od ms o) :
    Linked od content none (chainStep sord content ms o) ∧
      ∀ (k : Nat) u, ms[k]? = some u → ∃ u', (chainStep sord content ms o)[k]? = some u' ∧ Emits u u' := by
  cases o with
  | extend sels =>
    obtain ⟨h1, h2⟩ := chainExtend_linked sord sels none ms h
    exact ⟨h1, fun k u hu => ⟨u, h2 k u hu, .of_eq rfl rfl⟩⟩
  | «at» j ord o =>
    obtain ⟨h1, h2⟩ := chainAt_linked sord ord o j none ms h fun s hs => by
      obtain ⟨a1, a2⟩ := ha s hs
      by_cases hj : j = 0
      · rw [if_pos hj] at a2; exact ⟨a1, a2, fun hh => by simp [hj] at hh⟩
      · rw [if_neg hj] at a2; exact ⟨a1, a2.still, fun _ => a2⟩
    refine ⟨h1, fun k u hu => ?_⟩
    rw [List.forall₂_iff_get] at h2
    obtain ⟨hlen, hget⟩ := h2
    obtain ⟨hk, rfl⟩ := List.getElem?_eq_some_iff.1 hu
    have hk' : k < (chainAt sord ord o j ms).length := hlen ▸ hk
    exact ⟨_, List.getElem?_eq_getElem hk', hget k hk hk'⟩

theorem chain_linked (sord : SetOrder) {od : Bool} {content : α → C} (ops : List (KOp α C K)) (ms : List (FL α C K))
    (h : Linked od content none ms) (ha : chainAdmAll od sord content ms ops) :
    Linked od content none (ops.foldl (chainStep sord content) ms) ∧
      ∀ (k : Nat) u, ms[k]? = some u → ∃ u', (ops.foldl (chainStep sord content) ms)[k]? = some u' ∧ Emits u u' := by
  induction ops generalizing ms with
  | nil => exact ⟨h, fun k u hu => ⟨u, hu, .of_eq rfl rfl⟩⟩
  | cons o ops ih =>
    obtain ⟨h1, h2⟩ := chainStep_linked sord ms o h ha.1
    obtain ⟨g1, g2⟩ := ih _ h1 ha.2
    refine ⟨g1, fun k u hu => ?_⟩
    obtain ⟨v, hv, e1⟩ := h2 k u hu
    obtain ⟨w, hw, e2⟩ := g2 k v hv
    exact ⟨w, hw, e1.trans e2⟩

theorem Linked.init (od : Bool) (content : α → C) (sels : List Sel) :
    Linked od content none [(FL.init content sels : FL α C K)] :=
  ⟨.init od content sels, rfl, (fun _ h => by cases h), trivial⟩

theorem Linked.pair {od : Bool} {content : α → C} {src : Option (List α)} {ms : List (FL α C K)}
    (h : Linked od content src ms) (k : Nat) (u d : FL α C K) (hu : ms[k]? = some u) (hd : ms[k + 1]? = some d) :
    LInv od d ∧ d.content = content ∧ d.source = some u.items := by
  induction ms generalizing src k with
  | nil => simp at hu
  | cons m ms ih =>
    obtain ⟨h1, h2, h3, h4⟩ := h
    cases k with
    | zero =>
      obtain rfl : m = u := by simpa using hu
      cases ms with
      | nil => simp at hd
      | cons e ms =>
        obtain rfl : e = d := by simpa using hd
        exact ⟨h4.1, h4.2.1, (h4.2.2.1 _ rfl).1⟩
    | succ k => exact ih h4 k (by simpa using hu) (by simpa using hd)

/-- C112: in a chain of filtered list models of any length, each the container of the next, after every history of source
changes, filter and sort changes at any model, change blocks and models added at the end: a model with no change block
open has exactly the items of the model below that its filter accepts, sorted by its key if it has one, and without a key
in the order of the model below if change blocks are only opened at the first model (`od`). -/
theorem C112_chain (sord : SetOrder) (od : Bool) (content : α → C) (sels : List Sel) (ops : List (KOp α C K))
    (ha : chainAdmAll od sord content [FL.init content sels] ops) (k : Nat) (u d : FL α C K)
    (hu : (chainRun sord content sels ops)[k]? = some u) (hd : (chainRun sord content sels ops)[k + 1]? = some d)
    (hl : d.level = 0) :
    d.items.Perm (u.items.filter fun x => d.filter (content x)) ∧
    (∀ key, d.key = some key → d.items.Pairwise fun a b =>
      if d.reverse then key (content b) ≤ key (content a) else key (content a) ≤ key (content b)) ∧
    (od = true → d.key = none → d.items = u.items.filter fun x => d.filter (content x)) := by
  obtain ⟨h1, h2, h3⟩ := (chain_linked sord ops _ (.init od content sels) ha).1.pair k u d hu hd
  have hg := h1.good hl
  have hp := CorrectFor.perm hg
  unfold FL.Good CorrectFor FL.ikey at hg
  rw [h1.src, h3] at hg hp
  rw [show d.acc = fun x => d.filter (content x) by funext x; unfold FL.acc; rw [h2]] at hg hp
  rw [h2] at hg
  refine ⟨hp, fun key hk => ?_, fun ho hk => ?_⟩
  · rw [hk] at hg; exact hg.2
  · rw [hk] at hg; exact hg.2 ho

theorem Linked.all {od : Bool} {content : α → C} {src : Option (List α)} {ms : List (FL α C K)} {m : FL α C K}
    (h : Linked od content src (m :: ms)) (hl : ∀ d ∈ m :: ms, d.level = 0) (d : FL α C K)
    (hd : (m :: ms).getLast? = some d) :
    d.items.Perm ((m.source.getD []).filter fun x => (m :: ms).all fun e => e.filter (content x)) ∧
    (od = true → (∀ d ∈ m :: ms, d.key = none) →
      d.items = (m.source.getD []).filter fun x => (m :: ms).all fun e => e.filter (content x)) := by
  induction ms generalizing m src with
  | nil =>
    obtain rfl : m = d := by simpa using hd
    obtain ⟨h1, h2, _, _⟩ := h
    have hg := h1.good (hl m (by simp))
    have hp := CorrectFor.perm hg
    have hacc : m.acc = fun x => [m].all fun e => e.filter (content x) := by
      funext x; unfold FL.acc; rw [h2]; simp
    rw [h1.src, hacc] at hp
    refine ⟨hp, fun ho hk => ?_⟩
    unfold FL.Good CorrectFor FL.ikey at hg
    rw [hk m (by simp), h1.src, hacc] at hg
    exact hg.2 ho
  | cons e ms ih =>
    obtain ⟨h1, h2, h3, h4⟩ := h
    obtain ⟨g1, g2⟩ := ih h4 (fun d hd => hl d (by simp [List.mem_cons.1 hd])) (by simpa using hd)
    have hsrc : e.source = some m.items := (h4.2.2.1 _ rfl).1
    rw [hsrc] at g1 g2
    simp only [Option.getD_some] at g1 g2
    have hg := h1.good (hl m (by simp))
    have hp := CorrectFor.perm hg
    have hacc : m.acc = fun x => m.filter (content x) := by funext x; unfold FL.acc; rw [h2]
    have hall : ∀ l : List α, (l.filter m.acc).filter (fun x => (e :: ms).all fun e => e.filter (content x)) =
        l.filter fun x => (m :: e :: ms).all fun e => e.filter (content x) := by
      intro l
      rw [List.filter_filter, hacc]
      apply List.filter_congr
      intro x _
      rw [List.all_cons (a := m), Bool.and_comm]
    refine ⟨?_, fun ho hk => ?_⟩
    · refine g1.trans ?_
      have := hp.filter (fun x => (e :: ms).all fun e => e.filter (content x))
      rwa [hall, h1.src] at this
    · rw [g2 ho fun d hd => hk d (by simp [List.mem_cons.1 hd])]
      unfold FL.Good CorrectFor FL.ikey at hg
      rw [hk m (by simp), h1.src] at hg
      rw [hg.2 ho, hall]

/-- C112: with no change block open, the last model has exactly the source items that all filters accept; in the order of
the source if no model has a sort key and change blocks are only opened at the first model. -/
theorem C112_all (sord : SetOrder) (od : Bool) (content : α → C) (sels : List Sel) (ops : List (KOp α C K))
    (ha : chainAdmAll od sord content [FL.init content sels] ops) (u d : FL α C K)
    (hu : (chainRun sord content sels ops).head? = some u) (hd : (chainRun sord content sels ops).getLast? = some d)
    (hl : ∀ m ∈ chainRun sord content sels ops, m.level = 0) :
    d.items.Perm ((u.source.getD []).filter fun x => (chainRun sord content sels ops).all fun m => m.filter (content x)) ∧
    (od = true → (∀ m ∈ chainRun sord content sels ops, m.key = none) →
      d.items = (u.source.getD []).filter fun x => (chainRun sord content sels ops).all fun m => m.filter (content x)) := by
  have h := (chain_linked sord ops _ (.init od content sels) ha).1
  change Linked od content none (chainRun sord content sels ops) at h
  revert h hd hl
  generalize chainRun sord content sels ops = ms at hu ⊢
  intro hd hl h
  cases ms with
  | nil => simp at hu
  | cons m ms =>
    obtain rfl : m = u := by simpa using hu
    exact h.all hl d hd

/-! ### A mapped list model at the end -/

variable {β : Type*} (f : Nat → α → β) (hasUnmap : Bool)

/-- A mapped list model receives one event of its container: an item notification (ListModel.py:769-790) or a begin or end
event (747-753); it does not listen to resets. -/
def MM.feed (sord : SetOrder) (s : MM α β) : FEv α → MM α β
  | .note (.inserted x i) l => { s with source := some l }.masterInserted f sord x i
  | .note (.removed _ i) l => { s with source := some l }.masterRemoved hasUnmap sord i
  | .beginChanges => s.beginChange
  | .endChanges => s.endChange
  | .reset => s

def MM.feedAll (sord : SetOrder) (s : MM α β) (es : List (FEv α)) : MM α β :=
  es.foldl (fun s e => s.feed f hasUnmap sord e) s

theorem mm_pops (sord : SetOrder) (xs l : List α) (s : MM α β) (hl : xs.length = l.length) (hs : s.source = some l)
    (h : MInv f hasUnmap l s) :
    MInv f hasUnmap [] (s.feedAll f hasUnmap sord (popEvents xs l)) ∧
      (s.feedAll f hasUnmap sord (popEvents xs l)).source = some [] := by
  induction xs generalizing l s with
  | nil =>
    have h0 : l = [] := List.length_eq_zero_iff.1 (by simpa using hl.symm)
    subst h0
    exact ⟨h, hs⟩
  | cons x xs ih =>
    simp only [List.length_cons] at hl
    have hd : Py.del? l (l.dropLast.length : Nat) = some l.dropLast := by
      rw [Py.del?_nat (by simp; omega), List.length_dropLast, List.eraseIdx_length_sub_one]
    refine ih l.dropLast _ (by simp; omega) ?_ ?_
    · exact MM.masterRemoved_source hasUnmap sord _ _
    · exact (h.congr f hasUnmap (t := { s with source := some l.dropLast }) rfl rfl rfl).removed f hasUnmap sord _ _ hd

theorem mm_fed (sord : SetOrder) {l l' : List α} {es : List (FEv α)} (h : Fed l es l') (s : MM α β)
    (hs : s.source = some l) (hi : MInv f hasUnmap l s) :
    MInv f hasUnmap l' (s.feedAll f hasUnmap sord es) ∧ (s.feedAll f hasUnmap sord es).source = some l' := by
  induction h generalizing s with
  | nil => exact ⟨hi, hs⟩
  | @quiet l e es l' q _ ih =>
    have hg : MInv f hasUnmap (s.source.getD []) s := by rw [hs]; exact hi
    refine ih (s.feed f hasUnmap sord e) ?_ ?_
    · cases e with
      | note n l => exact q.elim
      | beginChanges => exact hs
      | endChanges => exact hs
      | reset => exact hs
    · cases e with
      | note n l => exact q.elim
      | beginChanges => 
        have hh := hg.step f hasUnmap sord .beginChange
        rw [show (s.step f hasUnmap sord .beginChange).source = some l from hs] at hh
        exact hh
      | endChanges => 
        have hh := hg.step f hasUnmap sord .endChange
        rw [show (s.step f hasUnmap sord .endChange).source = some l from hs] at hh
        exact hh
      | reset => exact hi
  | @ins l x i es l' hx _ ih =>
    refine ih _ rfl ?_
    exact (hi.congr f hasUnmap (t := { s with source := some (Py.insert l i x) }) rfl rfl rfl).inserted f hasUnmap sord x i
  | @rem l x i l1 es l' hx hd _ ih =>
    refine ih _ (MM.masterRemoved_source hasUnmap sord _ _) ?_
    exact (hi.congr f hasUnmap (t := { s with source := some l1 }) rfl rfl rfl).removed f hasUnmap sord i l1 hd
  | @pops l es l' _ ih =>
    obtain ⟨h1, h2⟩ := mm_pops f hasUnmap sord l l s rfl hs hi
    have e : s.feedAll f hasUnmap sord (popEvents l l ++ es) =
        (s.feedAll f hasUnmap sord (popEvents l l)).feedAll f hasUnmap sord es := by
      unfold MM.feedAll; rw [List.foldl_append]
    rw [e]
    exact ih _ h2 h1

/-- C112: a mapped list model attached to any model of a chain, at any moment: after any further history of the chain it
has one item for each item of that model, in the same order, each the result of the map function for it; observers can
replay its notifications; and with an unmap function each value made is listed or was unmapped, once. -/
theorem C112_mapped (sord : SetOrder) (od : Bool) (content : α → C) (sels msels : List Sel) (ops ops' : List (KOp α C K))
    (ha : chainAdmAll od sord content [FL.init content sels] ops)
    (ha' : chainAdmAll od sord content (chainRun sord content sels ops) ops') (k : Nat) (u : FL α C K)
    (hu : (chainRun sord content sels ops)[k]? = some u) :
    ∃ u' es, (chainRun sord content sels (ops ++ ops'))[k]? = some u' ∧ u'.log = u.log ++ es ∧
      let s := ((MM.init msels).setContainer f hasUnmap sord (some u.items)).feedAll f hasUnmap sord es
      List.Forall₂ (fun a b => ∃ n, b = f n a) u'.items s.items ∧ Replays [] (notesOf s.log) s.items ∧
      (hasUnmap = true → (createdOf s.log).Perm (s.items ++ unmappedOf s.log)) := by
  have h := (chain_linked sord ops _ (.init od content sels) ha).1
  obtain ⟨u', hu', es, e1, e2⟩ := (chain_linked sord ops' _ h ha').2 k u hu
  refine ⟨u', es, ?_, e1, ?_⟩
  · unfold chainRun; rw [List.foldl_append]; exact hu'
  · intro s
    have hi := (MInv.init (α := α) f hasUnmap msels).setContainer f hasUnmap sord (some u.items)
    obtain ⟨g, _⟩ := mm_fed f hasUnmap sord e2 _ (MM.setContainer_source f hasUnmap sord _ _) hi
    exact ⟨List.Forall₂.imp (fun _ _ ⟨n, _, e⟩ => ⟨n, e⟩) g.mirror, g.replay, g.unmap⟩

end

/-! ### A concrete chain -/

/-- Numbers filtered by size, then by being even and sorted downwards; both filters change on the way. -/
def chainExOps : List (KOp Nat Nat Nat) :=
  let i := idOrder
  [.at 0 i (.setContainer (some [5, 2, 8, 3, 6])), .extend [], .at 1 i (.setFilter fun n => n % 2 == 0),
    .at 0 i (.setFilter fun n => n < 8), .at 1 i (.setKey (some id)), .at 1 i (.setReverse true), .at 0 i (.srcInsert 4 0),
    .extend [], .at 0 i (.setKey (some id)), .at 2 i (.setFilter fun n => n > 2)]

example : (chainRun ascending id [] chainExOps).map (fun m => m.items) = [[2, 3, 4, 5, 6], [6, 4, 2], [6, 4]] := by
  decide +kernel

/-- The history is admissible, also with the order kept. -/
example : chainAdmAll true ascending id [FL.init id []] chainExOps := by
  simp only [chainExOps, chainAdmAll, chainAdm, FL.Adm, LOp.Still, LOp.Own]
  refine ⟨fun s _ => ⟨by decide, trivial⟩, trivial, ?_⟩
  refine ⟨fun s _ => ⟨trivial, trivial⟩, fun s _ => ⟨trivial, trivial⟩, fun s _ => ⟨trivial, trivial⟩,
    fun s _ => ⟨trivial, trivial⟩, fun s hs => ⟨⟨?_, ?_⟩, trivial⟩, trivial, fun s _ => ⟨trivial, trivial⟩,
    fun s _ => ⟨trivial, trivial⟩, trivial⟩
  · revert s; decide +kernel
  · intro _; revert s; decide +kernel

/-- While the lower model is replacing its items, the upper one has lost the item named, not the one removed. -/
example :
    let u : FL Nat Nat Nat := (FL.init id []).setContainer ascending (some [1, 2, 3])
    let d : FL Nat Nat Nat := (FL.init id []).setContainer ascending (some u.items)
    let e := (popEvents u.items u.items).take 1
    (d.feedAll ascending e).source = some [1, 2] ∧ (d.feedAll ascending e).items = [2, 3] ∧
      (d.feedAll ascending (popEvents u.items u.items)).items = [] := by decide +kernel

/-- A mapped list model over a filtered one whose filter changes. -/
example :
    let u : FL Nat Nat Nat := (FL.init id []).setContainer ascending (some [5, 2, 8])
    let u' := u.step ascending idOrder (.setFilter fun n => n > 3)
    let s := ((MM.init []).setContainer (fun _ n => n * 10) true ascending (some u.items)).feedAll (fun _ n => n * 10) true
      ascending (u'.log.drop u.log.length)
    u'.items = [5, 8] ∧ s.items = [50, 80] := by decide +kernel

end Verif.ListModel
