import Verif.ListModel.FilteredProps
import Mathlib.Order.WithBot

/-!
C177: a `FilteredListModel` (`nion/utils/ListModel.py:232-640`) whose sort keys are compared by any function, such as floats among which
there are some that are not a number. State, events and everything that compares no keys are those of `Filtered.lean`; the linear order of
the key type there is not used here. `lt a b` is `a < b`, which is also what `operator.gt(b, a)` gives; `srt key reverse l` is
`l.sort(key=key, reverse=reverse)`, of which is only assumed that it permutes the list.
-/

set_option linter.unusedSectionVars false

namespace Verif.ListModel

open Verif.Py Verif.Selection

section
variable {α C Q : Type*} [DecidableEq α] [LinearOrder Q]

/-- How keys are compared and lists sorted. -/
structure Keys (α Q : Type*) where
  lt : Q → Q → Bool
  srt : (α → Q) → Bool → List α → List α
  perm : ∀ key rev l, (srt key rev l).Perm l

/-- `sort_operator(sort_key(y), sort_key(x))` with the operator chosen at ListModel.py:399 and 442. -/
def Keys.cmpOf (q : Keys α Q) (rev : Bool) (key : α → Q) (y x : α) : Bool := if rev then q.lt (key x) (key y) else q.lt (key y) (key x)

/-- The comparison of the model's sort key, `none` without sort key. -/
def FL.cmpA (q : Keys α Q) (s : FL α C Q) : Option (α → α → Bool) := s.key.map fun k => q.cmpOf s.reverse fun x => k (s.content x)

/-- ListModel.py:385-394 `__inserted_master_item`. -/
def FL.insertedMasterA (q : Keys α Q) (s : FL α C Q) (x : α) : FL α C Q :=
  if s.level > 0 then s else if s.acc x then s.insertItem (s.cmpA q) x else s

/-- ListModel.py:428-466 `__updated_master_item`. -/
def FL.updatedMasterA (q : Keys α Q) (s : FL α C Q) (x : α) : FL α C Q :=
  if s.level > 0 then s
  else if s.acc x then
    match s.cmpA q with
    | some c =>
      let before := findSorted c x s.items
      if x ∈ s.items then
        let index := s.items.idxOf x
        if before < index then (s.removedMaster x).insertedMasterA q x
        else if before > index then (s.removedMaster x).insertedMasterA q x
        else s
      else s.insertedMasterA q x
    | none => if x ∈ s.items then s else s.insertedMasterA q x
  else if x ∈ s.items then s.removedMaster x
  else s

/-- ListModel.py:469-490 `__build_items`: the received items are sorted, those that are not accepted too. -/
def FL.buildA (q : Keys α Q) (s : FL α C Q) : List α :=
  (match s.key with
    | some k => q.srt (fun x => k (s.content x)) s.reverse s.master
    | none => s.master).filter s.acc

/-- ListModel.py:493-546 `__update_items`. -/
def FL.updateItemsA (q : Keys α Q) (ord : IterOrder α) (s : FL α C Q) : FL α C Q :=
  if s.level > 0 then s
  else
    let old := s.items
    let new := s.buildA q
    let s1 := s.emit .beginChanges
    let s2 :=
      if s.sorted then
        let cmp := (s.cmpA q).getD (cmpKey s.reverse fun x => new.idxOf x)
        let s2 := FL.removeLoop (fun x => decide (x ∉ new)) old 0 0 s1
        (ord.f (new.filter fun x => x ∉ old)).foldl (fun s x => s.insertItem (some cmp) x) s2
      else FL.appendLoop new (FL.popLoop old s1)
    { s2 with sorted := true }.emit .endChanges

/-- ListModel.py:611-627 `__item_inserted`. -/
def FL.itemInsertedA (q : Keys α Q) (sord : SetOrder) (s : FL α C Q) (x : α) (i : Int) : FL α C Q :=
  if x ∈ s.master then s
  else
    let s := { s with master := Py.insert s.master i x }.insertedMasterA q x
    { s with sels := s.sels.map fun y => (insertIndex sord y i).sel }

/-- ListModel.py:599-600. -/
def FL.insertAllA (q : Keys α Q) (sord : SetOrder) : List α → Nat → FL α C Q → FL α C Q
  | [], _, s => s
  | x :: xs, i, s => if x ∈ s.master then s else FL.insertAllA q sord xs (i + 1) (s.itemInsertedA q sord x i)

/-- ListModel.py:556-600 `container` setter. -/
def FL.setContainerA (q : Keys α Q) (sord : SetOrder) (s : FL α C Q) (c : Option (List α)) : FL α C Q :=
  let s := FL.removeAll sord (s.source.getD []).reverse s
  FL.insertAllA q sord (c.getD []) 0 ({ s with source := c, sorted := false }.emit .reset)

/-- One event. -/
def FL.stepA (q : Keys α Q) (sord : SetOrder) (ord : IterOrder α) (s : FL α C Q) : LOp α C Q → FL α C Q
  | .srcInsert v i =>
    match s.source with
    | some l => { s with source := some (Py.insert l i v) }.itemInsertedA q sord v i
    | none => s
  | .setContainer c => s.setContainerA q sord c
  | .changeContent v c =>
    let t := { s with content := Function.update s.content v c }
    if v ∈ s.master then t.updatedMasterA q v else t
  | .setFilter p => ({ s with filter := p, sorted := false }.emit .reset).updateItemsA q ord
  | .setKey k => ({ s with key := k, sorted := false }.emit .reset).updateItemsA q ord
  | .setReverse b => ({ s with reverse := b, sorted := false }.emit .reset).updateItemsA q ord
  | .endChange =>
    let t := { s with level := s.level - 1 }
    if s.level - 1 = 0 then t.updateItemsA q ord else t
  | o => s.step sord ord o

/-- A history; each event comes with the set iteration order it meets. -/
def FL.runA (q : Keys α Q) (sord : SetOrder) (s : FL α C Q) (ops : List (IterOrder α × LOp α C Q)) : FL α C Q :=
  ops.foldl (fun s o => s.stepA q sord o.1 o.2) s

variable {q : Keys α Q}

/-! ### What observers are told -/

theorem eff_insertedMasterA (s : FL α C Q) (x : α) : Eff true s (s.insertedMasterA q x) := by
  unfold FL.insertedMasterA
  split
  · exact .refl _ s
  · split
    · exact eff_insertItem s _ x
    · exact .refl _ s

theorem eff_updatedMasterA (s : FL α C Q) (x : α) : Eff true s (s.updatedMasterA q x) := by
  unfold FL.updatedMasterA
  split
  · exact .refl _ s
  · cases s.cmpA q <;> simp only <;> repeat' split
    all_goals first
      | exact .refl _ s
      | exact eff_insertedMasterA s x
      | exact eff_removedMaster s x
      | exact (eff_removedMaster s x).trans (eff_insertedMasterA _ x)

theorem updateItemsA_log (ord : IterOrder α) (s : FL α C Q) (hl : ¬ s.level > 0) :
    ∃ l ns, s.updateItemsA q ord = { s with items := l, sorted := true, log := s.log ++ .beginChanges :: ns ++ [.endChanges] } ∧
      ReplaysAt s.sorted s.items (notes ns) l ∧ (∀ d, scan (d + 1) ns = some (d + 1)) ∧
      (s.sorted = false → l = s.buildA q) ∧
      (s.sorted = true → l.Perm (ord.f ((s.buildA q).filter fun x => x ∉ s.items) ++ s.items.filter fun x => x ∈ s.buildA q)) := by
  unfold FL.updateItemsA
  rw [if_neg hl]
  cases hso : s.sorted with
  | true =>
    simp only [if_true]
    obtain ⟨ns1, h1, h2, h3⟩ := removeLoop_eq (fun x => decide (x ∉ s.buildA q)) s.items [] 0 0 (s.emit .beginChanges) rfl rfl
    rw [h1]
    have hkeep : [] ++ s.items.filter (fun x => !decide (x ∉ s.buildA q)) = s.items.filter fun x => x ∈ s.buildA q := by
      simp
    obtain ⟨l, ns2, g1, g2, g3, g4, -⟩ := insertFold
      ((s.cmpA q).getD (cmpKey s.reverse fun x => (s.buildA q).idxOf x))
      (ord.f ((s.buildA q).filter fun x => x ∉ s.items))
      { s.emit .beginChanges with
        items := [] ++ s.items.filter (fun x => !decide (x ∉ s.buildA q))
        log := (s.emit .beginChanges).log ++ ns1 }
    rw [hkeep] at g4
    refine ⟨l, ns1 ++ ns2, ?_, ?_, ?_, (fun h => by cases h), fun _ => g4⟩
    · dsimp only at g1 ⊢; rw [g1]; simp [FL.emit]
    · rw [notes_append]; exact h2.append g2
    · intro d; rw [scan_append, h3]; exact g3 _
  | false =>
    simp only [Bool.false_eq_true, if_false]
    obtain ⟨ns1, h1, h2, h3, -⟩ := popLoop_eq s.items (s.emit .beginChanges) rfl
    rw [h1]
    obtain ⟨ns2, g1, g2, g3, -⟩ := appendLoop_eq (s.buildA q)
      { s.emit .beginChanges with items := [], log := (s.emit .beginChanges).log ++ ns1 }
    rw [g1]
    refine ⟨s.buildA q, ns1 ++ ns2, ?_, ?_, ?_, (fun _ => rfl), fun h => by cases h⟩
    · simp [FL.emit]
    · rw [notes_append]; exact h2.append (by simpa using g2.weaken)
    · intro d; rw [scan_append, h3]; exact g3 _

theorem eff_updateItemsA (ord : IterOrder α) (s : FL α C Q) : Eff s.sorted s (s.updateItemsA q ord) := by
  by_cases hl : s.level > 0
  · unfold FL.updateItemsA; rw [if_pos hl]; exact .refl _ s
  · obtain ⟨l, ns, h1, h2, h3, _⟩ := updateItemsA_log (q := q) ord s hl
    rw [h1]
    refine ⟨.beginChanges :: ns ++ [.endChanges], by simp, ?_, fun d => ?_⟩
    · simpa [notes] using h2
    · simp [scan, scan_append, h3]

theorem eff_itemInsertedA (sord : SetOrder) (s : FL α C Q) (x : α) (i : Int) : Eff true s (s.itemInsertedA q sord x i) := by
  unfold FL.itemInsertedA
  split
  · exact .refl _ s
  · exact (Eff.of_eq (t := { s with master := Py.insert s.master i x }) rfl rfl).trans
      ((eff_insertedMasterA _ x).trans (.of_eq rfl rfl))

theorem eff_insertAllA (sord : SetOrder) (xs : List α) (i : Nat) (s : FL α C Q) : Eff true s (FL.insertAllA q sord xs i s) := by
  induction xs generalizing s i with
  | nil => exact .refl _ s
  | cons x xs ih =>
    simp only [FL.insertAllA]
    split
    · exact .refl _ s
    · exact (eff_itemInsertedA sord s x _).trans (ih _ _)

theorem eff_stepA (sord : SetOrder) (ord : IterOrder α) (s : FL α C Q) (o : LOp α C Q) (ho : ¬ o.IsSrcBlock) :
    Eff false s (s.stepA q sord ord o) := by
  cases o with
  | srcInsert v i =>
    cases hs : s.source with
    | none => simp only [FL.stepA, hs]; exact .refl _ s
    | some l =>
      simp only [FL.stepA, hs]
      exact ((Eff.of_eq (t := { s with source := some (Py.insert l i v) }) rfl rfl).trans (eff_itemInsertedA sord _ v i)).weaken
  | setContainer c =>
    simp only [FL.stepA, FL.setContainerA]
    refine Eff.weaken ((eff_removeAll sord (s.source.getD []).reverse s).trans (Eff.trans ?_ (eff_insertAllA sord _ _ _)))
    exact eff_reset rfl rfl
  | changeContent v c =>
    simp only [FL.stepA]
    split
    · exact ((Eff.of_eq (t := { s with content := Function.update s.content v c }) rfl rfl).trans (eff_updatedMasterA _ v)).weaken
    · exact .of_eq rfl rfl
  | setFilter p =>
    exact (eff_reset (s := s) (t := { s with filter := p, sorted := false }.emit .reset) rfl rfl).trans (eff_updateItemsA ord _)
  | setKey k =>
    exact (eff_reset (s := s) (t := { s with key := k, sorted := false }.emit .reset) rfl rfl).trans (eff_updateItemsA ord _)
  | setReverse b =>
    exact (eff_reset (s := s) (t := { s with reverse := b, sorted := false }.emit .reset) rfl rfl).trans (eff_updateItemsA ord _)
  | endChange =>
    simp only [FL.stepA]
    split
    · have h := (Eff.of_eq (b := s.sorted) (s := s) (t := { s with level := s.level - 1 }) rfl rfl).trans
        (eff_updateItemsA (q := q) ord _)
      cases hs : s.sorted with
      | true => rw [hs] at h; exact h.weaken
      | false => rw [hs] at h; exact h
    · exact .of_eq rfl rfl
  | srcRemove i => exact (eff_step sord ord s _ ho).1
  | srcBegin => exact absurd trivial ho
  | srcEnd => exact absurd trivial ho
  | srcReset => exact (eff_step sord ord s _ ho).1
  | beginChange => exact (eff_step sord ord s _ ho).1
  | select k o => exact (eff_step sord ord s _ ho).1

theorem FL.runA_cons (sord : SetOrder) (s : FL α C Q) (o : IterOrder α × LOp α C Q) (ops : List (IterOrder α × LOp α C Q)) :
    s.runA q sord (o :: ops) = (s.stepA q sord o.1 o.2).runA q sord ops := rfl

/-- C177: whatever the comparison of keys says, an observer that applies the notifications by index has the model's items at every
notification and after every event, and the notifications are between begin and end events. -/
theorem C177_replayable (q : Keys α Q) (sord : SetOrder) (content : α → C) (sels : List Sel) (ops : List (IterOrder α × LOp α C Q)) :
    let s := (FL.init content sels).runA q sord ops
    ReplaysAt false [] (notes s.log) s.items ∧ (∀ d, srcDepth 0 ops = some d → scan 0 s.log = some d) := by
  suffices h : ∀ (s : FL α C Q) (d0 : Nat), ReplaysAt false [] (notes s.log) s.items →
      ReplaysAt false [] (notes (s.runA q sord ops).log) (s.runA q sord ops).items ∧
      (scan 0 s.log = some d0 → ∀ d, srcDepth d0 ops = some d → scan 0 (s.runA q sord ops).log = some d) by
    have := h (FL.init content sels) 0 (.nil _)
    exact ⟨this.1, this.2 rfl⟩
  induction ops with
  | nil => exact fun s d0 h => ⟨h, fun h1 d h2 => by simp [srcDepth] at h2; subst h2; exact h1⟩
  | cons o ops ih =>
    intro s d0 h
    rw [FL.runA_cons]
    obtain ⟨iord, o⟩ := o
    by_cases ho : o.IsSrcBlock
    · cases o with
      | srcBegin =>
        have h' : ReplaysAt false [] (notes (s.emit .beginChanges).log) (s.emit .beginChanges).items := by
          simpa [FL.emit, notes] using h
        refine ⟨(ih (s.emit .beginChanges) 0 h').1, fun h1 d h2 => ?_⟩
        exact (ih (s.emit .beginChanges) (d0 + 1) h').2 (by simp [FL.emit, scan_append, h1, scan]) d
          (by simpa [srcDepth] using h2)
      | srcEnd =>
        have h' : ReplaysAt false [] (notes (s.emit .endChanges).log) (s.emit .endChanges).items := by
          simpa [FL.emit, notes] using h
        refine ⟨(ih (s.emit .endChanges) 0 h').1, fun h1 d h2 => ?_⟩
        cases d0 with
        | zero => simp [srcDepth] at h2
        | succ d0 =>
          exact (ih (s.emit .endChanges) d0 h').2 (by simp [FL.emit, scan_append, h1, scan]) d
            (by simpa [srcDepth] using h2)
      | _ => exact absurd ho (fun hh => hh)
    · obtain ⟨ns, h1, h2, h3⟩ := eff_stepA (q := q) sord iord s o ho
      have h' : ReplaysAt false [] (notes (s.stepA q sord iord o).log) (s.stepA q sord iord o).items := by
        rw [h1, notes_append]; exact h.append h2
      have hd : srcDepth d0 ((iord, o) :: ops) = srcDepth d0 ops := by
        cases o <;> first | rfl | exact absurd trivial ho
      refine ⟨(ih _ d0 h').1, fun g1 d g2 => ?_⟩
      rw [hd] at g2
      exact (ih _ d0 h').2 (by rw [h1, scan_append, g1]; exact h3 _) d g2

/-! ### Which items -/

structure AInv (s : FL α C Q) : Prop where
  nodup : s.master.Nodup
  nodupItems : s.items.Nodup
  level : 0 ≤ s.level
  items : s.level = 0 → s.items.Perm (s.master.filter s.acc)

/-- The items are not inserted into the source again while they are there; change blocks are begun before they are ended. -/
def FL.AdmA (s : FL α C Q) : LOp α C Q → Prop
  | .srcInsert v _ => v ∉ s.source.getD []
  | .setContainer c => (c.getD []).Nodup
  | .endChange => 0 < s.level
  | _ => True

def FL.AdmAllA (q : Keys α Q) (sord : SetOrder) (s : FL α C Q) : List (IterOrder α × LOp α C Q) → Prop
  | [] => True
  | o :: ops => s.AdmA o.2 ∧ FL.AdmAllA q sord (s.stepA q sord o.1 o.2) ops

theorem buildA_perm (s : FL α C Q) : (s.buildA q).Perm (s.master.filter s.acc) := by
  unfold FL.buildA
  cases s.key with
  | none => exact .refl _
  | some k => exact (q.perm _ _ _).filter _

theorem AInv.update {s : FL α C Q} (ord : IterOrder α) (hn : s.master.Nodup) (hi : s.items.Nodup) (hl : s.level = 0) :
    AInv (s.updateItemsA q ord) ∧ (s.updateItemsA q ord).master = s.master ∧ (s.updateItemsA q ord).source = s.source := by
  have hb := buildA_perm (q := q) s
  have hbn : (s.buildA q).Nodup := hb.nodup_iff.2 (hn.filter _)
  obtain ⟨l, ns, h1, -, -, h4, h5⟩ := updateItemsA_log (q := q) ord s (by omega)
  have hperm : l.Perm (s.buildA q) := by
    cases hso : s.sorted with
    | false => rw [h4 hso]
    | true =>
      refine (h5 hso).trans (((ord.perm _).append_right _).trans ?_)
      rw [List.perm_ext_iff_of_nodup _ hbn]
      · intro x; simp; tauto
      · rw [List.nodup_append]
        refine ⟨hbn.filter _, hi.filter _, fun a ha b hb' => ?_⟩
        rintro rfl
        simp at ha hb'; exact ha.2 hb'.1
  rw [h1]
  exact ⟨⟨hn, hperm.nodup_iff.2 hbn, by simp only; omega, fun _ => hperm.trans hb⟩, rfl, rfl⟩

theorem insertedMasterA_same (s : FL α C Q) (x : α) : SameF s (s.insertedMasterA q x) ∧ (s.insertedMasterA q x).master = s.master := by
  unfold FL.insertedMasterA
  split_ifs <;> exact ⟨⟨rfl, rfl, rfl, rfl, rfl, rfl, rfl⟩, rfl⟩

theorem insertedMasterA_items (s : FL α C Q) (x : α) (hl : s.level = 0) :
    (s.insertedMasterA q x).items.Perm (if s.acc x then x :: s.items else s.items) := by
  unfold FL.insertedMasterA
  rw [if_neg (by omega)]
  split
  · exact perm_pyInsert _ _ _
  · exact .refl _

theorem removedMaster_items (s : FL α C Q) (x : α) (hl : s.level = 0) : (s.removedMaster x).items = s.items.erase x := by
  unfold FL.removedMaster
  rw [if_neg (by omega)]
  split
  · exact eraseIdx_idxOf _ _
  · exact (List.erase_of_not_mem (by assumption)).symm

theorem AInv.itemInserted {s : FL α C Q} (h : AInv s) (sord : SetOrder) {x : α} (hx : x ∉ s.master) (i : Int) :
    AInv (s.itemInsertedA q sord x i) ∧ (s.itemInsertedA q sord x i).master = Py.insert s.master i x ∧
      SameF s (s.itemInsertedA q sord x i) := by
  unfold FL.itemInsertedA
  rw [if_neg hx]
  obtain ⟨e1, e2⟩ := insertedMasterA_same (q := q) { s with master := Py.insert s.master i x } x
  have hn := nodup_pyInsert' h.nodup i hx
  have hitems : s.level = 0 → ((FL.insertedMasterA q { s with master := Py.insert s.master i x } x).items).Perm
      ((Py.insert s.master i x).filter s.acc) := by
    intro hl
    refine (insertedMasterA_items (q := q) { s with master := Py.insert s.master i x } x hl).trans ?_
    refine List.Perm.trans ?_ ((perm_pyInsert s.master i x).filter s.acc).symm
    by_cases ha : s.acc x = true
    · rw [if_pos (show FL.acc { s with master := Py.insert s.master i x } x = true from ha), List.filter_cons_of_pos ha]
      exact (h.items hl).cons x
    · rw [if_neg (show ¬ FL.acc { s with master := Py.insert s.master i x } x = true from ha), List.filter_cons_of_neg ha]
      exact h.items hl
  refine ⟨⟨?_, ?_, ?_, fun hl => ?_⟩, e2, ⟨e1.1, e1.2, e1.3, e1.4, e1.5, e1.6, e1.7⟩⟩
  · simp only [e2]; exact hn
  · by_cases hl : s.level = 0
    · exact (hitems hl).nodup_iff.2 (hn.filter _)
    · have : FL.insertedMasterA q { s with master := Py.insert s.master i x } x = { s with master := Py.insert s.master i x } := by
        unfold FL.insertedMasterA
        rw [if_pos (show s.level > 0 by have := h.level; omega)]
      rw [this]
      exact h.nodupItems
  · simp only [e1.level]; exact h.level
  · have hl' : s.level = 0 := by rw [← hl]; exact e1.level.symm
    have ha : (FL.insertedMasterA q { s with master := Py.insert s.master i x } x).acc = s.acc := e1.acc
    show List.Perm _ (List.filter (FL.acc _) _)
    rw [show FL.acc { (FL.insertedMasterA q { s with master := Py.insert s.master i x } x) with
      sels := (FL.insertedMasterA q { s with master := Py.insert s.master i x } x).sels.map fun y => (insertIndex sord y i).sel } = s.acc from ha]
    simp only [e2]
    exact hitems hl'

theorem AInv.toF {s : FL α C Q} (h : AInv s) (hk : s.key = none) (hs : s.sorted = false) : FInv0 false s := by
  refine ⟨h.nodup, h.nodupItems, h.level, fun hl => ?_, fun _ hh => by rw [hs] at hh; cases hh⟩
  unfold FL.Good CorrectFor
  rw [ikey_none.2 hk]
  exact ⟨h.items hl, fun hh => by cases hh⟩

/-- What has nothing to do with keys. -/
theorem AInv.itemRemoved {s : FL α C Q} (h : AInv s) (sord : SetOrder) {i : Int} {k : Nat} (hk : k < s.master.length)
    (hi : Py.index? s.master.length i = some k) :
    AInv (s.itemRemoved sord s.master[k] i) ∧ (s.itemRemoved sord s.master[k] i).master = s.master.eraseIdx k ∧
      SameF s (s.itemRemoved sord s.master[k] i) := by
  -- removal does not look at the key: take it away
  let t : FL α C Q := { s with key := none, sorted := false }
  have ht : FInv0 false t := AInv.toF ⟨h.nodup, h.nodupItems, h.level, h.items⟩ rfl rfl
  obtain ⟨g1, g2, g3⟩ := inv_itemRemoved sord ht (i := i) (k := k) hk hi
  have e : t.itemRemoved sord s.master[k] i = { s.itemRemoved sord s.master[k] i with key := none, sorted := false } := by
    unfold FL.itemRemoved FL.removedMaster FL.removeItem
    show (match Py.del? s.master i with | some l => _ | none => _) = _
    cases Py.del? s.master i with
    | none => rfl
    | some l =>
      simp only [t]
      split_ifs <;> rfl
  rw [e] at g1 g2 g3
  have hsame : SameF s (s.itemRemoved sord s.master[k] i) := by
    unfold FL.itemRemoved FL.removedMaster FL.removeItem
    cases Py.del? s.master i with
    | none => exact .refl _
    | some l =>
      simp only
      split_ifs <;> exact ⟨rfl, rfl, rfl, rfl, rfl, rfl, rfl⟩
  refine ⟨⟨g1.nodup, g1.nodupItems, g1.level, fun hl => ?_⟩, g2, hsame⟩
  have := g1.good hl
  unfold FL.Good CorrectFor at this
  rw [ikey_none.2 rfl] at this
  exact this.1

theorem AInv.removeAll (sord : SetOrder) (xs : List α) (s : FL α C Q) (h : AInv s) (hm : s.master = xs.reverse) :
    AInv (FL.removeAll sord xs s) ∧ (FL.removeAll sord xs s).master = [] ∧ SameF s (FL.removeAll sord xs s) := by
  induction xs generalizing s with
  | nil => exact ⟨h, by simpa [FL.removeAll] using hm, .refl _⟩
  | cons x xs ih =>
    have hlen : s.master.length = xs.length + 1 := by rw [hm]; simp
    have hk : xs.length < s.master.length := by omega
    have hx : s.master[xs.length] = x := by simp [hm]
    have hi : Py.index? s.master.length (s.master.length - 1 : Int) = some xs.length := by
      have : (s.master.length - 1 : Int) = (xs.length : Nat) := by omega
      rw [this]; exact Py.index?_nat hk
    obtain ⟨h1, h2, h3⟩ := h.itemRemoved sord hk hi
    rw [hx] at h1 h2 h3
    have he : s.master.eraseIdx xs.length = xs.reverse := by
      rw [hm, List.reverse_cons, List.eraseIdx_append_of_length_le (by simp)]; simp
    obtain ⟨g1, g2, g3⟩ := ih _ h1 (h2.trans he)
    exact ⟨g1, g2, h3.trans g3⟩

theorem AInv.insertAll (sord : SetOrder) (xs : List α) (s : FL α C Q) (h : AInv s) (hn : (s.master ++ xs).Nodup) :
    AInv (FL.insertAllA q sord xs s.master.length s) ∧ (FL.insertAllA q sord xs s.master.length s).master = s.master ++ xs ∧
      SameF s (FL.insertAllA q sord xs s.master.length s) := by
  induction xs generalizing s with
  | nil => exact ⟨h, by simp [FL.insertAllA], .refl _⟩
  | cons x xs ih =>
    have hx : x ∉ s.master := fun hx => (List.nodup_append.1 hn).2.2 x hx x (by simp) rfl
    obtain ⟨h1, h2, h3⟩ := h.itemInserted (q := q) sord hx (s.master.length : Int)
    rw [Py.insert_length] at h2
    obtain ⟨g1, g2, g3⟩ := ih _ h1 (by rw [h2]; simpa using hn)
    have hl : (s.itemInsertedA q sord x (s.master.length : Int)).master.length = s.master.length + 1 := by rw [h2]; simp
    rw [hl] at g1 g2 g3
    simp only [FL.insertAllA, if_neg hx]
    refine ⟨g1, ?_, h3.trans g3⟩
    rw [g2, h2]; simp

theorem updatedMasterA_same (s : FL α C Q) (x : α) : SameF s (s.updatedMasterA q x) ∧ (s.updatedMasterA q x).master = s.master := by
  have key : ∀ t : FL α C Q, SameF s t → t.master = s.master → SameF s (t.insertedMasterA q x) ∧ (t.insertedMasterA q x).master = s.master :=
    fun t h1 h2 => ⟨h1.trans (insertedMasterA_same t x).1, (insertedMasterA_same t x).2.trans h2⟩
  have r := sameF_removedMaster s x
  unfold FL.updatedMasterA
  split
  · exact ⟨.refl _, rfl⟩
  · cases s.cmpA q <;> simp only <;> repeat' split
    all_goals first
      | exact ⟨.refl _, rfl⟩
      | exact r
      | exact key _ (.refl _) rfl
      | exact key _ r.1 r.2

theorem updatedMasterA_items (s : FL α C Q) (x : α) (hl : s.level = 0) :
    (s.updatedMasterA q x).items.Perm (if s.acc x then (if x ∈ s.items then s.items else x :: s.items) else s.items.erase x) := by
  have hr := sameF_removedMaster s x
  have ins : s.acc x = true → (s.insertedMasterA q x).items.Perm (x :: s.items) := by
    intro ha
    have := insertedMasterA_items (q := q) s x hl
    rwa [if_pos ha] at this
  have both : s.acc x = true → x ∈ s.items → ((s.removedMaster x).insertedMasterA q x).items.Perm s.items := by
    intro ha hx
    have := insertedMasterA_items (q := q) (s.removedMaster x) x (hr.1.level.trans hl)
    rw [hr.1.acc, if_pos ha, removedMaster_items s x hl] at this
    exact this.trans (List.perm_cons_erase hx).symm
  unfold FL.updatedMasterA
  rw [if_neg (by omega)]
  by_cases ha : s.acc x = true
  · simp only [ha, if_true]
    by_cases hx : x ∈ s.items
    · simp only [hx, if_true]
      cases s.cmpA q with
      | none => exact .refl _
      | some c =>
        simp only
        split_ifs
        · exact both ha hx
        · exact both ha hx
        · exact .refl _
    · simp only [hx, if_false]
      cases s.cmpA q with
      | none => exact ins ha
      | some c => exact ins ha
  · rw [if_neg ha, if_neg ha]
    split_ifs with hx
    · rw [removedMaster_items s x hl]
    · rw [List.erase_of_not_mem hx]

theorem AInv.step (sord : SetOrder) (ord : IterOrder α) {s : FL α C Q} (h : AInv s) (hsrc : s.master = s.source.getD []) (o : LOp α C Q)
    (ha : s.AdmA o) : AInv (s.stepA q sord ord o) ∧ (s.stepA q sord ord o).master = (s.stepA q sord ord o).source.getD [] := by
  have setter : ∀ t : FL α C Q, t.master = s.master → t.items = s.items → t.source = s.source → t.level = s.level →
      AInv (t.updateItemsA q ord) ∧ (t.updateItemsA q ord).master = (t.updateItemsA q ord).source.getD [] ∨ 0 < s.level := by
    intro t h1 h2 h3 h4
    by_cases hl : s.level = 0
    · left
      obtain ⟨g1, g2, g3⟩ := AInv.update (q := q) ord (s := t) (h1 ▸ h.nodup) (h2 ▸ h.nodupItems) (h4.trans hl)
      exact ⟨g1, by rw [g2, g3, h1, h3, hsrc]⟩
    · right
      have := h.level
      omega
  have blocked : ∀ t : FL α C Q, t.master = s.master → t.items = s.items → t.source = s.source → t.level = s.level → 0 < s.level →
      AInv (t.updateItemsA q ord) ∧ (t.updateItemsA q ord).master = (t.updateItemsA q ord).source.getD [] := by
    intro t h1 h2 h3 h4 hl
    have e : t.updateItemsA q ord = t := by
      unfold FL.updateItemsA
      rw [if_pos (by omega)]
    rw [e]
    exact ⟨⟨h1 ▸ h.nodup, h2 ▸ h.nodupItems, by omega, fun hh => by omega⟩, by rw [h1, h3, hsrc]⟩
  cases o with
  | srcInsert v i =>
    cases hs : s.source with
    | none => simp only [FL.stepA, hs]; exact ⟨h, by rw [hsrc, hs]⟩
    | some l =>
      have hml : s.master = l := by rw [hsrc, hs]; rfl
      simp only [FL.stepA, hs]
      have h0 : AInv ({ s with source := some (Py.insert l i v) } : FL α C Q) := ⟨h.nodup, h.nodupItems, h.level, h.items⟩
      obtain ⟨g1, g2, g3⟩ := h0.itemInserted (q := q) sord (x := v) (by rw [show FL.master _ = s.master from rfl, hsrc]; exact ha) i
      exact ⟨g1, by rw [g2, g3.source]; simp [hml]⟩
  | srcRemove i =>
    show AInv (s.step sord ord (.srcRemove i)) ∧ (s.step sord ord (.srcRemove i)).master = _
    cases hs : s.source with
    | none => simp only [FL.stepA, FL.step, hs]; exact ⟨h, by rw [hsrc, hs]⟩
    | some l =>
      have hml : s.master = l := by rw [hsrc, hs]; rfl
      rcases del?_cases l i with ⟨k, hk, h1, h2, h3⟩ | ⟨h1, h2, h3⟩
      · simp only [FL.stepA, FL.step, hs, h2, h3]
        have h0 : AInv ({ s with source := some (l.eraseIdx k) } : FL α C Q) := ⟨h.nodup, h.nodupItems, h.level, h.items⟩
        obtain ⟨g1, g2, g3⟩ := h0.itemRemoved sord (i := i) (k := k) (by simpa [hml] using hk) (by simpa [hml] using h1)
        simp only [hml] at g1 g2 g3 ⊢
        exact ⟨g1, by rw [g2, g3.source]; rfl⟩
      · simp only [FL.stepA, FL.step, hs, h2]; exact ⟨h, by rw [hsrc, hs]⟩
  | setContainer c =>
    simp only [FL.stepA, FL.setContainerA]
    obtain ⟨g1, g2, g3⟩ := AInv.removeAll sord (s.source.getD []).reverse s h (by simp [hsrc])
    set u := FL.removeAll sord (s.source.getD []).reverse s with hu
    set t : FL α C Q := { u with source := c, sorted := false }.emit .reset with ht
    have ht0 : AInv t := ⟨g1.nodup, g1.nodupItems, g1.level, g1.items⟩
    have htm : t.master = [] := g2
    obtain ⟨k1, k2, k3⟩ := AInv.insertAll (q := q) sord (c.getD []) t ht0 (by rw [htm]; exact ha)
    rw [htm] at k1 k2 k3
    exact ⟨k1, by rw [show (0 : Nat) = ([] : List α).length from rfl, k2, k3.source]; simp [ht, FL.emit]⟩
  | srcBegin => exact ⟨⟨h.nodup, h.nodupItems, h.level, h.items⟩, hsrc⟩
  | srcEnd => exact ⟨⟨h.nodup, h.nodupItems, h.level, h.items⟩, hsrc⟩
  | srcReset => exact ⟨⟨h.nodup, h.nodupItems, h.level, h.items⟩, hsrc⟩
  | changeContent v c =>
    simp only [FL.stepA]
    by_cases hm : v ∈ s.master
    · rw [if_pos hm]
      obtain ⟨e1, e2⟩ := updatedMasterA_same (q := q) { s with content := Function.update s.content v c } v
      refine ⟨?_, by rw [e2, e1.source]; exact hsrc⟩
      have hacc : ∀ x, x ≠ v → FL.acc { s with content := Function.update s.content v c } x = s.acc x := by
        intro x hx
        simp [FL.acc, Function.update_of_ne hx]
      by_cases hl : s.level = 0
      · have hp := updatedMasterA_items (q := q) { s with content := Function.update s.content v c } v hl
        have hperm : ((FL.updatedMasterA q { s with content := Function.update s.content v c } v).items).Perm
            (s.master.filter (FL.acc { s with content := Function.update s.content v c })) := by
          refine hp.trans ?_
          have hit := h.items hl
          have hit' : ∀ x, x ∈ s.items ↔ x ∈ s.master ∧ s.acc x = true := fun x => by rw [hit.mem_iff, List.mem_filter]
          have hdup : (if FL.acc { s with content := Function.update s.content v c } v then
              (if v ∈ s.items then s.items else v :: s.items) else s.items.erase v).Nodup := by
            split_ifs with a b
            · exact h.nodupItems
            · exact List.nodup_cons.2 ⟨b, h.nodupItems⟩
            · exact h.nodupItems.erase v
          rw [List.perm_ext_iff_of_nodup hdup (h.nodup.filter _)]
          intro x
          rw [List.mem_filter]
          by_cases hx : x = v
          · subst hx
            split_ifs with a b
            · simp [a, b, hm]
            · simp [a, hm]
            · simp [a, h.nodupItems.mem_erase_iff]
          · rw [hacc x hx, ← hit' x]
            split_ifs with a b
            · exact Iff.rfl
            · simp [hx]
            · simp [h.nodupItems.mem_erase_iff, hx]
        refine ⟨by rw [e2]; exact h.nodup, hperm.nodup_iff.2 (h.nodup.filter _), by rw [e1.level]; exact h.level, fun _ => ?_⟩
        rw [e2, e1.acc]
        exact hperm
      · have hlp : 0 < s.level := by have := h.level; omega
        have e : FL.updatedMasterA q { s with content := Function.update s.content v c } v =
            { s with content := Function.update s.content v c } := by
          unfold FL.updatedMasterA
          rw [if_pos (by exact hlp)]
        rw [e]
        exact ⟨h.nodup, h.nodupItems, h.level, fun hh => absurd hh hl⟩
    · rw [if_neg hm]
      refine ⟨⟨h.nodup, h.nodupItems, h.level, fun hl => (h.items hl).trans ?_⟩, hsrc⟩
      refine List.Perm.of_eq (List.filter_congr fun x hx => ?_)
      simp [FL.acc, Function.update_of_ne (show x ≠ v by rintro rfl; exact hm hx)]
  | setFilter p =>
    have := setter ({ s with filter := p, sorted := false }.emit .reset) rfl rfl rfl rfl
    rcases this with g | hl
    · exact g
    · exact blocked _ rfl rfl rfl rfl hl
  | setKey k =>
    have := setter ({ s with key := k, sorted := false }.emit .reset) rfl rfl rfl rfl
    rcases this with g | hl
    · exact g
    · exact blocked _ rfl rfl rfl rfl hl
  | setReverse b =>
    have := setter ({ s with reverse := b, sorted := false }.emit .reset) rfl rfl rfl rfl
    rcases this with g | hl
    · exact g
    · exact blocked _ rfl rfl rfl rfl hl
  | beginChange =>
    refine ⟨⟨h.nodup, h.nodupItems, ?_, fun hh => ?_⟩, hsrc⟩
    · have := h.level
      simp only [FL.stepA, FL.step]; omega
    · have := h.level
      simp only [FL.stepA, FL.step] at hh; omega
  | endChange =>
    have ha : 0 < s.level := ha
    simp only [FL.stepA]
    split
    · rename_i h0
      obtain ⟨g1, g2, g3⟩ := AInv.update (q := q) ord (s := { s with level := s.level - 1 }) h.nodup h.nodupItems h0
      exact ⟨g1, by rw [g2, g3]; exact hsrc⟩
    · rename_i h0
      exact ⟨⟨h.nodup, h.nodupItems, by simp only; omega, fun hh => absurd hh h0⟩, hsrc⟩
  | select k o => exact ⟨⟨h.nodup, h.nodupItems, h.level, h.items⟩, hsrc⟩

/-- C177: whatever the comparison of keys says, the model has exactly the source items the filter accepts, once each, whenever no change
block is open. -/
theorem C177_complete (q : Keys α Q) (sord : SetOrder) (content : α → C) (sels : List Sel) (ops : List (IterOrder α × LOp α C Q))
    (ha : (FL.init content sels).AdmAllA q sord ops) :
    let s := (FL.init content sels).runA q sord ops
    s.items.Nodup ∧ (s.level = 0 → s.items.Perm ((s.source.getD []).filter s.acc)) := by
  suffices h : ∀ s : FL α C Q, AInv s → s.master = s.source.getD [] → s.AdmAllA q sord ops →
      AInv (s.runA q sord ops) ∧ (s.runA q sord ops).master = (s.runA q sord ops).source.getD [] by
    obtain ⟨g1, g2⟩ := h (FL.init content sels) ⟨List.nodup_nil, List.nodup_nil, le_refl _, fun _ => .refl _⟩ rfl ha
    exact ⟨g1.nodupItems, fun hl => by rw [← g2]; exact g1.items hl⟩
  clear ha
  induction ops with
  | nil => exact fun s h1 h2 _ => ⟨h1, h2⟩
  | cons o ops ih =>
    intro s h1 h2 h3
    obtain ⟨g1, g2⟩ := AInv.step (q := q) sord o.1 h1 h2 o.2 h3.1
    exact ih _ g1 g2 h3.2

/-! ### Keys that can be compared -/

/-- Among the keys with `P` the comparison is the linear order and lists are sorted stably. -/
structure Keys.Agree (q : Keys α Q) (P : Q → Prop) : Prop where
  lt : ∀ a b, P a → P b → q.lt a b = decide (a < b)
  srt : ∀ (key : α → Q) (rev : Bool) (l : List α), (∀ x ∈ l, P (key x)) →
    q.srt key rev l = if rev then l.insertionSort fun a b => key b ≤ key a else l.insertionSort fun a b => key a ≤ key b

/-- The keys of these items have `P`. -/
def FL.NumOn (P : Q → Prop) (s : FL α C Q) (l : List α) : Prop := ∀ k, s.key = some k → ∀ x ∈ l, P (k (s.content x))

theorem bsearch_congr {p p' : α → Bool} {l : List α} (h : ∀ y ∈ l, p y = p' y) (n lo hi : Nat) :
    bsearch p l n lo hi = bsearch p' l n lo hi := by
  induction n generalizing lo hi with
  | zero => rfl
  | succ n ih =>
    simp only [bsearch]
    split_ifs with hlt
    · cases hg : l[(lo + hi) / 2]? with
      | none => rfl
      | some y =>
        simp only
        rw [h y (List.mem_of_getElem? hg), ih, ih]
    · rfl

theorem findSorted_congr {c c' : α → α → Bool} {x : α} {l : List α} (h : ∀ y ∈ l, c y x = c' y x) : findSorted c x l = findSorted c' x l :=
  bsearch_congr h _ _ _

theorem cmpOf_agree {P : Q → Prop} (hq : q.Agree P) (rev : Bool) (key : α → Q) {x y : α} (hx : P (key x)) (hy : P (key y)) :
    q.cmpOf rev key y x = cmpKey rev key y x := by
  unfold Keys.cmpOf cmpKey
  split_ifs
  · exact hq.lt _ _ hx hy
  · exact hq.lt _ _ hy hx

theorem insertItem_congr {c c' : α → α → Bool} {x : α} {s : FL α C Q} (h : ∀ y ∈ s.items, c y x = c' y x) :
    s.insertItem (some c) x = s.insertItem (some c') x := by
  simp only [FL.insertItem, findSorted_congr h]

theorem insertedMasterA_agree {P : Q → Prop} (hq : q.Agree P) (s : FL α C Q) (x : α) (h : ¬ s.level > 0 → s.NumOn P (x :: s.items)) :
    s.insertedMasterA q x = s.insertedMaster x := by
  unfold FL.insertedMasterA FL.insertedMaster
  split_ifs with h1 h2
  · rfl
  · cases hk : s.key with
    | none => simp [FL.cmpA, FL.cmp, hk]
    | some k =>
      have hh := h h1 k hk
      simp only [FL.cmpA, FL.cmp, hk, Option.map_some]
      exact insertItem_congr fun y hy => cmpOf_agree hq _ _ (hh x (by simp)) (hh y (by simp [hy]))
  · rfl

theorem updatedMasterA_agree {P : Q → Prop} (hq : q.Agree P) (s : FL α C Q) (x : α) (h : ¬ s.level > 0 → s.NumOn P (x :: s.items)) :
    s.updatedMasterA q x = s.updatedMaster x := by
  unfold FL.updatedMasterA FL.updatedMaster
  split
  · rfl
  · rename_i hl
    have h0 := h hl
    have hr := sameF_removedMaster s x
    have e1 : s.insertedMasterA q x = s.insertedMaster x := insertedMasterA_agree hq s x h
    have e2 : (s.removedMaster x).insertedMasterA q x = (s.removedMaster x).insertedMaster x := by
      refine insertedMasterA_agree hq _ x fun _ k hk y hy => ?_
      rw [hr.1.key] at hk
      rw [hr.1.content]
      refine h0 k hk y ?_
      rcases List.mem_cons.1 hy with rfl | hy
      · simp
      · refine List.mem_cons_of_mem _ ?_
        unfold FL.removedMaster FL.removeItem at hy
        split_ifs at hy
        · exact List.mem_of_mem_eraseIdx hy
        · exact hy
    rw [e1, e2]
    cases hk : s.key with
    | none => simp [FL.cmpA, FL.cmp, hk]
    | some k =>
      have hh := h0 k hk
      simp only [FL.cmpA, FL.cmp, hk, Option.map_some]
      rw [findSorted_congr fun y hy => cmpOf_agree hq _ _ (hh x (by simp)) (hh y (by simp [hy]))]

theorem buildA_agree {P : Q → Prop} (hq : q.Agree P) (s : FL α C Q) (h : s.NumOn P s.master) : s.buildA q = s.build := by
  unfold FL.buildA FL.build
  cases hk : s.key with
  | none => rfl
  | some k =>
    simp only
    rw [hq.srt _ _ _ (h k hk)]

theorem foldInsert_congr {c c' : α → α → Bool} (xs : List α) (s : FL α C Q)
    (h : ∀ x ∈ xs, ∀ y, y ∈ xs ∨ y ∈ s.items → c y x = c' y x) :
    xs.foldl (fun (s : FL α C Q) x => s.insertItem (some c) x) s = xs.foldl (fun (s : FL α C Q) x => s.insertItem (some c') x) s := by
  induction xs generalizing s with
  | nil => rfl
  | cons x xs ih =>
    rw [List.foldl_cons, List.foldl_cons, insertItem_congr fun y hy => h x (by simp) y (Or.inr hy)]
    refine ih _ fun z hz y hy => h z (by simp [hz]) y ?_
    rcases hy with hy | hy
    · exact Or.inl (by simp [hy])
    · rcases List.mem_cons.1 ((perm_pyInsert s.items _ x).mem_iff.1 hy) with rfl | hy
      · exact Or.inl (by simp)
      · exact Or.inr hy

theorem updateItemsA_agree {P : Q → Prop} (hq : q.Agree P) (ord : IterOrder α) (s : FL α C Q) (h : s.NumOn P s.master) :
    s.updateItemsA q ord = s.updateItems ord := by
  unfold FL.updateItemsA FL.updateItems
  rw [buildA_agree hq s h]
  split
  · rfl
  · dsimp only
    split
    · obtain ⟨ns1, h1, -, -⟩ := removeLoop_eq (fun x => decide (x ∉ s.build)) s.items [] 0 0 (s.emit .beginChanges) rfl rfl
      rw [h1]
      cases hk : s.key with
      | none => simp [FL.cmpA, FL.cmp, hk]
      | some k =>
        have hb : ∀ x ∈ s.build, P (k (s.content x)) := by
          intro x hx
          rw [← buildA_agree hq s h] at hx
          exact h k hk x (List.mem_filter.1 ((buildA_perm (q := q) s).mem_iff.1 hx)).1
        simp only [FL.cmpA, FL.cmp, hk, Option.map_some, Option.getD_some]
        rw [foldInsert_congr (c' := cmpKey s.reverse fun x => k (s.content x))]
        intro x hx y hy
        have hx' : x ∈ s.build := (List.mem_filter.1 ((ord.perm _).mem_iff.1 hx)).1
        have hy' : y ∈ s.build := by
          rcases hy with hy | hy
          · exact (List.mem_filter.1 ((ord.perm _).mem_iff.1 hy)).1
          · simpa using (List.mem_filter.1 hy).2
        exact cmpOf_agree hq _ _ (hb x hx') (hb y hy')
    · rfl

theorem itemInsertedA_agree {P : Q → Prop} (hq : q.Agree P) (sord : SetOrder) (s : FL α C Q) (x : α) (i : Int)
    (h : ¬ s.level > 0 → s.NumOn P (x :: s.items)) : s.itemInsertedA q sord x i = s.itemInserted sord x i := by
  unfold FL.itemInsertedA FL.itemInserted
  rw [insertedMasterA_agree hq { s with master := Py.insert s.master i x } x h]

theorem insertAllA_agree {P : Q → Prop} (hq : q.Agree P) (sord : SetOrder) (xs : List α) (s : FL α C Q) (h : AInv s)
    (hn : (s.master ++ xs).Nodup) (hk : s.NumOn P (s.master ++ xs)) :
    FL.insertAllA q sord xs s.master.length s = FL.insertAll sord xs s.master.length s := by
  induction xs generalizing s with
  | nil => rfl
  | cons x xs ih =>
    have hx : x ∉ s.master := fun hx => (List.nodup_append.1 hn).2.2 x hx x (by simp) rfl
    obtain ⟨h1, h2, h3⟩ := h.itemInserted (q := q) sord hx (s.master.length : Int)
    rw [Py.insert_length] at h2
    have hl : (s.itemInsertedA q sord x (s.master.length : Int)).master.length = s.master.length + 1 := by rw [h2]; simp
    have e := itemInsertedA_agree hq sord s x (s.master.length : Int) (by
      intro hl k hk' y hy
      have hl : s.level = 0 := by have := h.level; omega
      rcases List.mem_cons.1 hy with rfl | hy
      · exact hk k hk' y (by simp)
      · exact hk k hk' y (List.mem_append_left _ (List.mem_filter.1 ((h.items hl).mem_iff.1 hy)).1))
    have := ih _ h1 (by rw [h2]; simpa using hn) (by
      intro k hk' y hy
      rw [h3.key] at hk'
      rw [h3.content]
      rw [h2] at hy
      exact hk k hk' y (by simpa using hy))
    rw [hl] at this
    simp only [FL.insertAllA, FL.insertAll, if_neg hx]
    rw [this, e]

/-- After every event the keys of the items of the source have `P`. -/
def FL.NumAll (P : Q → Prop) (q : Keys α Q) (sord : SetOrder) (s : FL α C Q) : List (IterOrder α × LOp α C Q) → Prop
  | [] => True
  | o :: ops => (s.stepA q sord o.1 o.2).NumOn P ((s.stepA q sord o.1 o.2).source.getD []) ∧ FL.NumAll P q sord (s.stepA q sord o.1 o.2) ops

theorem updateItemsA_same (ord : IterOrder α) (s : FL α C Q) :
    (s.updateItemsA q ord).key = s.key ∧ (s.updateItemsA q ord).content = s.content ∧ (s.updateItemsA q ord).source = s.source := by
  by_cases hl : s.level > 0
  · unfold FL.updateItemsA; rw [if_pos hl]; exact ⟨rfl, rfl, rfl⟩
  · obtain ⟨l, ns, h1, -⟩ := updateItemsA_log (q := q) ord s hl
    rw [h1]
    exact ⟨rfl, rfl, rfl⟩

theorem stepA_agree {P : Q → Prop} (hq : q.Agree P) (sord : SetOrder) (ord : IterOrder α) {s : FL α C Q} (h : AInv s)
    (hsrc : s.master = s.source.getD []) (o : LOp α C Q) (ha : s.AdmA o)
    (hn : (s.stepA q sord ord o).NumOn P ((s.stepA q sord ord o).source.getD [])) : s.stepA q sord ord o = s.step sord ord o := by
  have setter : ∀ t : FL α C Q, t.master = s.master → t.source = s.source →
      (t.updateItemsA q ord).NumOn P ((t.updateItemsA q ord).source.getD []) → t.updateItemsA q ord = t.updateItems ord := by
    intro t h1 h2 h3
    refine updateItemsA_agree hq ord t fun k hk x hx => ?_
    obtain ⟨e1, e2, e3⟩ := updateItemsA_same (q := q) ord t
    have := h3 k (e1.trans hk) x (by rw [e3, h2, ← hsrc, ← h1]; exact hx)
    rwa [e2] at this
  have sub : ¬ s.level > 0 → ∀ x ∈ s.items, x ∈ s.source.getD [] := by
    intro hl x hx
    rw [← hsrc]
    exact (List.mem_filter.1 ((h.items (by have := h.level; omega)).mem_iff.1 hx)).1
  cases o with
  | srcInsert v i =>
    cases hs : s.source with
    | none => simp only [FL.stepA, FL.step, hs]
    | some l =>
      have hml : s.master = l := by rw [hsrc, hs]; rfl
      have h0 : AInv ({ s with source := some (Py.insert l i v) } : FL α C Q) := ⟨h.nodup, h.nodupItems, h.level, h.items⟩
      obtain ⟨g1, g2, g3⟩ := h0.itemInserted (q := q) sord (x := v) (by rw [show FL.master _ = s.master from rfl, hsrc]; exact ha) i
      simp only [FL.stepA, FL.step, hs] at hn ⊢
      refine itemInsertedA_agree hq sord _ v i fun hl k hk x hx => ?_
      have := hn k (g3.key.trans hk) x (by
        rw [g3.source]
        simp only [Option.getD_some]
        rw [(perm_pyInsert l i v).mem_iff]
        rcases List.mem_cons.1 hx with rfl | hx
        · simp
        · have := sub hl x hx
          rw [hs] at this
          exact List.mem_cons_of_mem _ this)
      rwa [g3.content] at this
  | setContainer c =>
    simp only [FL.stepA, FL.step, FL.setContainerA, FL.setContainer] at hn ⊢
    obtain ⟨g1, g2, g3⟩ := AInv.removeAll sord (s.source.getD []).reverse s h (by simp [hsrc])
    set u := FL.removeAll sord (s.source.getD []).reverse s with hu
    set t : FL α C Q := { u with source := c, sorted := false }.emit .reset with ht
    have ht0 : AInv t := ⟨g1.nodup, g1.nodupItems, g1.level, g1.items⟩
    have htm : t.master = [] := g2
    obtain ⟨k1, k2, k3⟩ := AInv.insertAll (q := q) sord (c.getD []) t ht0 (by rw [htm]; exact ha)
    have e := insertAllA_agree hq sord (c.getD []) t ht0 (by rw [htm]; exact ha) (by
      intro k hk x hx
      rw [htm] at k3 hx
      have := hn k (k3.key.trans hk) x (by rw [show (0 : Nat) = ([] : List α).length from rfl, k3.source]; exact hx)
      rwa [show (0 : Nat) = ([] : List α).length from rfl, k3.content] at this)
    rw [htm] at e
    exact e
  | changeContent v c =>
    simp only [FL.stepA, FL.step] at hn ⊢
    split_ifs with hm
    · rw [if_pos hm] at hn
      obtain ⟨e1, e2⟩ := updatedMasterA_same (q := q) { s with content := Function.update s.content v c } v
      refine updatedMasterA_agree hq _ v fun hl k hk x hx => ?_
      have := hn k (e1.key.trans hk) x (by
        rw [e1.source]
        rcases List.mem_cons.1 hx with rfl | hx
        · rw [← show _ = s.source.getD [] from hsrc]; exact hm
        · exact sub hl x hx)
      rwa [e1.content] at this
    · rfl
  | setFilter p => exact setter _ rfl rfl hn
  | setKey k => exact setter _ rfl rfl hn
  | setReverse b => exact setter _ rfl rfl hn
  | endChange =>
    simp only [FL.stepA, FL.step] at hn ⊢
    split_ifs with h0
    · rw [if_pos h0] at hn
      exact setter { s with level := s.level - 1 } rfl rfl hn
    · rfl
  | srcRemove i => rfl
  | srcBegin => rfl
  | srcEnd => rfl
  | srcReset => rfl
  | beginChange => rfl
  | select k o => rfl

/-- C177: as long as the keys of the items of the source can be compared, the model does what it does for keys with a linear order: C20 to
C26 hold of it. -/
theorem C177_ordered_partial {P : Q → Prop} (q : Keys α Q) (hq : q.Agree P) (sord : SetOrder) (content : α → C) (sels : List Sel)
    (ops : List (IterOrder α × LOp α C Q)) (ha : (FL.init content sels).AdmAllA q sord ops)
    (hn : (FL.init content sels).NumAll P q sord ops) :
    (FL.init content sels).runA q sord ops = (FL.init content sels).run sord ops := by
  suffices h : ∀ s : FL α C Q, AInv s → s.master = s.source.getD [] → s.AdmAllA q sord ops → s.NumAll P q sord ops →
      s.runA q sord ops = s.run sord ops from
    h _ ⟨List.nodup_nil, List.nodup_nil, le_refl _, fun _ => .refl _⟩ rfl ha hn
  clear ha hn
  induction ops with
  | nil => exact fun s _ _ _ _ => rfl
  | cons o ops ih =>
    intro s h1 h2 h3 h4
    obtain ⟨g1, g2⟩ := AInv.step (q := q) sord o.1 h1 h2 o.2 h3.1
    have e := stepA_agree hq sord o.1 h1 h2 o.2 h3.1 h4.1
    have := ih _ g1 g2 h3.2 h4.2
    rw [FL.runA_cons, this, e]
    rfl

/-! ### Keys that cannot be compared -/

theorem bsearch_false {p : α → Bool} {l : List α} (h : ∀ y ∈ l, p y = false) (n lo hi : Nat) (hn : hi - lo ≤ n) (hl : hi ≤ l.length) :
    bsearch p l n lo hi = lo := by
  induction n generalizing hi with
  | zero => rfl
  | succ n ih =>
    simp only [bsearch]
    split_ifs with hlt
    · have hm : (lo + hi) / 2 < l.length := by omega
      rw [List.getElem?_eq_getElem hm]
      simp only [h _ (List.getElem_mem hm), Bool.false_eq_true, if_false]
      exact ih _ (by omega) (by omega)
    · rfl

theorem findSorted_false {c : α → α → Bool} {x : α} {l : List α} (h : ∀ y ∈ l, c y x = false) : findSorted c x l = 0 :=
  bsearch_false h _ _ _ (by omega) le_rfl

theorem insertedMasterA_front {s : FL α C Q} {x : α} {k : C → Q} (hl : s.level = 0) (ha : s.acc x = true) (hk : s.key = some k)
    (hx : ∀ a, q.lt a (k (s.content x)) = false ∧ q.lt (k (s.content x)) a = false) : (s.insertedMasterA q x).items = x :: s.items := by
  unfold FL.insertedMasterA
  rw [if_neg (by omega), if_pos ha]
  have hc : s.cmpA q = some (q.cmpOf s.reverse fun x => k (s.content x)) := by simp [FL.cmpA, hk]
  have hf : findSorted (q.cmpOf s.reverse fun x => k (s.content x)) x s.items = 0 := by
    refine findSorted_false fun y _ => ?_
    unfold Keys.cmpOf
    split_ifs
    · exact (hx _).2
    · exact (hx _).1
  simp only [FL.insertItem, hc, hf]
  simp [Py.insert, Py.insertPos]

/-- C177: an accepted item whose key can be compared with no other comes first when it is inserted into the source, wherever it is
inserted there, in either direction. -/
theorem C177_incomparable_first (q : Keys α Q) (sord : SetOrder) (ord : IterOrder α) (s : FL α C Q) (v : α) (i : Int) {l : List α}
    {k : C → Q} (hs : s.source = some l) (hl : s.level = 0) (hm : v ∉ s.master) (ha : s.acc v = true) (hk : s.key = some k)
    (hx : ∀ a, q.lt a (k (s.content v)) = false ∧ q.lt (k (s.content v)) a = false) :
    (s.stepA q sord ord (.srcInsert v i)).items = v :: s.items := by
  simp only [FL.stepA, hs]
  unfold FL.itemInsertedA
  rw [if_neg hm]
  exact insertedMasterA_front (s := { s with source := some (Py.insert l i v), master := Py.insert s.master i v }) hl ha hk hx

/-- C177: and when its key becomes one that can be compared with no other. -/
theorem C177_incomparable_moves (q : Keys α Q) (sord : SetOrder) (ord : IterOrder α) (s : FL α C Q) (v : α) (c : C) {k : C → Q}
    (hl : s.level = 0) (hm : v ∈ s.master) (ha : s.filter c = true) (hk : s.key = some k)
    (hx : ∀ a, q.lt a (k c) = false ∧ q.lt (k c) a = false) :
    (s.stepA q sord ord (.changeContent v c)).items = v :: s.items.erase v := by
  simp only [FL.stepA]
  rw [if_pos hm]
  set t : FL α C Q := { s with content := Function.update s.content v c } with ht
  have htl : t.level = 0 := hl
  have hta : t.acc v = true := by simp [FL.acc, ht, ha]
  have htk : t.key = some k := hk
  have hv : k (t.content v) = k c := by simp [ht]
  have hc : t.cmpA q = some (q.cmpOf t.reverse fun x => k (t.content x)) := by simp [FL.cmpA, htk]
  have hf : findSorted (q.cmpOf t.reverse fun x => k (t.content x)) v t.items = 0 := by
    refine findSorted_false fun y _ => ?_
    unfold Keys.cmpOf
    dsimp only
    rw [hv]
    split_ifs
    · exact (hx _).2
    · exact (hx _).1
  have hr := sameF_removedMaster t v
  unfold FL.updatedMasterA
  rw [if_neg (by omega), if_pos hta, hc]
  simp only [hf]
  by_cases hi : v ∈ t.items
  · rw [if_pos hi]
    by_cases h0 : 0 < t.items.idxOf v
    · rw [if_pos h0]
      rw [insertedMasterA_front (k := k) (hr.1.level.trans htl) (by rw [hr.1.acc]; exact hta) (hr.1.key.trans htk)
        (by rw [hr.1.content, hv]; exact hx), removedMaster_items t v htl]
    · rw [if_neg h0, if_neg (by omega)]
      show s.items = v :: s.items.erase v
      have h0 : s.items.idxOf v = 0 := by
        have : t.items.idxOf v = 0 := by omega
        exact this
      have hi : v ∈ s.items := hi
      cases hs : s.items with
      | nil => rw [hs] at hi; simp at hi
      | cons y ys =>
        rw [hs] at h0
        by_cases e : y = v
        · subst e; simp
        · rw [List.idxOf_cons_ne _ e] at h0; omega
  · rw [if_neg hi, insertedMasterA_front htl hta htk (by rw [hv]; exact hx)]
    rw [List.erase_of_not_mem (show v ∉ s.items from hi)]

end

/-! ### Floats -/

section
variable {α K : Type*} [LinearOrder K]

/-- `a < b` of floats, `⊥` being the float that is not a number. -/
def fltLt (a b : WithBot K) : Bool := decide (a ≠ ⊥) && decide (b ≠ ⊥) && decide (a < b)

/-- No key is less than the one before it. `list.sort` finds this out first and leaves such a list as it is. -/
def Rising (lt : WithBot K → WithBot K → Bool) (key : α → WithBot K) (l : List α) : Prop := l.IsChain fun a b => lt (key b) (key a) = false

/-- A sort that does so. -/
def fltSort (key : α → WithBot K) (rev : Bool) (l : List α) : List α :=
  if rev then l.insertionSort fun a b => key b ≤ key a
  else if l.IsChain fun a b => fltLt (key b) (key a) = false then l
  else l.insertionSort fun a b => key a ≤ key b

def fltKeys : Keys α (WithBot K) where
  lt := fltLt
  srt := fltSort
  perm key rev l := by
    unfold fltSort
    split_ifs
    · exact List.perm_insertionSort _ _
    · exact .refl _
    · exact List.perm_insertionSort _ _

theorem rising_sorted {key : α → WithBot K} {l : List α} (hl : ∀ x ∈ l, key x ≠ ⊥) (h : Rising fltLt key l) :
    l.Pairwise fun a b => key a ≤ key b := by
  have h' : l.IsChain fun a b => key a ≤ key b := by
    induction l with
    | nil => exact .nil
    | cons a l ih =>
      cases l with
      | nil => exact .singleton _
      | cons b l =>
        unfold Rising at h
        rw [List.isChain_cons_cons] at h ⊢
        refine ⟨?_, ih (fun x hx => hl x (by simp [hx])) h.2⟩
        have := h.1
        simpa [fltLt, hl a (by simp), hl b (by simp)] using this
  have : IsTrans α fun a b => key a ≤ key b := ⟨fun _ _ _ h1 h2 => le_trans h1 h2⟩
  exact List.isChain_iff_pairwise.1 h'

theorem fltKeys_agree : (fltKeys : Keys α (WithBot K)).Agree (· ≠ ⊥) := by
  refine ⟨fun a b ha hb => by simp [fltKeys, fltLt, ha, hb], fun key rev l h => ?_⟩
  show fltSort key rev l = _
  unfold fltSort
  split_ifs with h1 h2
  · rfl
  · exact (List.Pairwise.insertionSort_eq (rising_sorted h h2)).symm
  · rfl

theorem fltLt_bot (a : WithBot K) : fltLt a ⊥ = false ∧ fltLt ⊥ a = false := by simp [fltLt]

/-- C177: a float that is not a number comes first. -/
theorem C177_nan_first {C : Type*} [DecidableEq α] (q : Keys α (WithBot K)) (hq : q.lt = fltLt) (sord : SetOrder) (ord : IterOrder α)
    (s : FL α C (WithBot K)) (v : α) (i : Int) {l : List α} {k : C → WithBot K} (hs : s.source = some l) (hl : s.level = 0)
    (hm : v ∉ s.master) (ha : s.acc v = true) (hk : s.key = some k) (hx : k (s.content v) = ⊥) :
    (s.stepA q sord ord (.srcInsert v i)).items = v :: s.items :=
  C177_incomparable_first q sord ord s v i hs hl hm ha hk (by rw [hx, hq]; exact fltLt_bot)

end

/-! ### Examples -/

/-- Sorted by the number in the item itself, `⊥` where there is none. -/
def exInit (f : ℕ → WithBot ℕ) : FL ℕ (WithBot ℕ) (WithBot ℕ) := FL.init f []

/-- The items are in the order of their keys as far as these can be compared. -/
def FL.InOrder (s : FL ℕ (WithBot ℕ) (WithBot ℕ)) : Prop := s.items.Pairwise fun a b => fltLt (s.content b) (s.content a) = false

/-- Items 0, 1, 2, 3 with the keys 2, not a number, 1, 3. -/
def exContent (n : ℕ) : WithBot ℕ := if n = 0 then 2 else if n = 1 then ⊥ else if n = 2 then 1 else 3

/-- The key is set while there is no item; the items are inserted after it, and then some removed. -/
def exOps (r : List (LOp ℕ (WithBot ℕ) (WithBot ℕ))) : List (LOp ℕ (WithBot ℕ) (WithBot ℕ)) :=
  [.setContainer (some []), .setKey (some id), .srcInsert 0 0, .srcInsert 1 0, .srcInsert 2 0, .srcInsert 3 0] ++ r

/-- As it comes. -/
def asIs : IterOrder ℕ := ⟨id, fun _ => .refl _⟩

theorem srcInsert_lt {q : Keys ℕ (WithBot ℕ)} (hq : q.lt = fltLt) (s : FL ℕ (WithBot ℕ) (WithBot ℕ)) (v : ℕ) (i : Int) :
    s.stepA q ascending asIs (.srcInsert v i) = s.stepA fltKeys ascending asIs (.srcInsert v i) := by
  obtain ⟨lt, srt, perm⟩ := q
  simp only at hq
  subst hq
  rfl

/-- C177: one key that is not a number is enough for numbers to be out of order, and they stay so when the item with that key is removed.
However lists are sorted: here none with two items is. -/
theorem C177_counterexample (q : Keys ℕ (WithBot ℕ)) (hq : q.lt = fltLt) :
    let s := (exInit exContent).runA q ascending ((exOps []).map fun o => (asIs, o))
    let t := (exInit exContent).runA q ascending ((exOps [.srcRemove 2]).map fun o => (asIs, o))
    s.items = [2, 3, 1, 0] ∧ ¬ s.InOrder ∧ t.source = some [3, 2, 0] ∧ t.items = [2, 3, 0] ∧ ¬ t.InOrder := by
  have h0 : ∀ q : Keys ℕ (WithBot ℕ), (exInit exContent).runA q ascending (([.setContainer (some []), .setKey (some id)]).map fun o => (asIs, o)) =
      { exInit exContent with source := some [], key := some id, sorted := true, log := [.reset, .reset, .beginChanges, .endChanges] } := by
    intro q
    have e : ∀ key rev, q.srt key rev [] = [] := fun key rev => (q.perm key rev []).eq_nil
    simp [FL.runA, FL.stepA, FL.setContainerA, FL.removeAll, FL.insertAllA, exInit, FL.init, FL.emit, FL.updateItemsA, FL.buildA, e, FL.popLoop,
      FL.appendLoop]
  have h1 : ∀ r, (r = [] ∨ r = [.srcRemove 2]) → (exInit exContent).runA q ascending ((exOps r).map fun o => (asIs, o)) =
      (exInit exContent).runA fltKeys ascending ((exOps r).map fun o => (asIs, o)) := by
    intro r hr
    have e : exOps r = [.setContainer (some []), .setKey (some id)] ++ ([.srcInsert 0 0, .srcInsert 1 0, .srcInsert 2 0, .srcInsert 3 0] ++ r) := rfl
    have a : ∀ (q : Keys ℕ (WithBot ℕ)) (l l' : List (LOp ℕ (WithBot ℕ) (WithBot ℕ))), (exInit exContent).runA q ascending ((l ++ l').map fun o => (asIs, o)) =
        ((exInit exContent).runA q ascending (l.map fun o => (asIs, o))).runA q ascending (l'.map fun o => (asIs, o)) := by
      intro q l l'
      simp [FL.runA]
    rw [e, a, a, h0, h0]
    rcases hr with rfl | rfl
    · simp only [FL.runA, List.map_cons, List.map_nil, List.append_nil, List.foldl_cons, List.foldl_nil, srcInsert_lt hq]
    · simp only [FL.runA, List.map_cons, List.map_nil, List.cons_append, List.nil_append, List.foldl_cons, List.foldl_nil,
        srcInsert_lt hq]
      rfl
  rw [h1 _ (Or.inl rfl), h1 _ (Or.inr rfl)]
  unfold FL.InOrder
  decide

/-- Items 0, 1, 2 with the keys 3, not a number, 1. -/
def exContent2 (n : ℕ) : WithBot ℕ := if n = 0 then 3 else if n = 1 then ⊥ else 1

/-- The items that have a number are wanted, sorted by it. -/
def exOps2 : List (LOp ℕ (WithBot ℕ) (WithBot ℕ)) :=
  [.setFilter fun c => decide (c ≠ ⊥), .setContainer (some [0, 1, 2]), .setKey (some id)]

/-- C177: also a key of an item that the filter does not accept can put the others out of order: all are sorted before they are filtered. -/
theorem C177_counterexample_filtered (q : Keys ℕ (WithBot ℕ)) (hq : q.lt = fltLt)
    (hr : ∀ key l, Rising q.lt key l → q.srt key false l = l) :
    let s := (exInit exContent2).runA q ascending (exOps2.map fun o => (asIs, o))
    s.items = [0, 2] ∧ ¬ s.InOrder := by
  have e : q.srt exContent2 false [0, 1, 2] = [0, 1, 2] := hr _ _ (by rw [hq]; unfold Rising; decide)
  have key : ∀ u : FL ℕ (WithBot ℕ) (WithBot ℕ), u.master = [0, 1, 2] → u.content = exContent2 → u.reverse = false → u.level = 0 →
      u.filter = (fun c => decide (c ≠ ⊥)) → let s := u.stepA q ascending asIs (.setKey (some id))
      s.items = [0, 2] ∧ s.content = exContent2 := by
    intro u u1 u2 u3 u4 u5
    obtain ⟨l, ns, h1, -, -, h4, -⟩ := updateItemsA_log (q := q) asIs ({ u with key := some id, sorted := false }.emit .reset)
      (by show ¬ u.level > 0; omega)
    have hb : FL.buildA q ({ u with key := some id, sorted := false }.emit .reset) = [0, 2] := by
      show ((q.srt (fun x => id (u.content x)) u.reverse u.master).filter fun x => u.filter (u.content x)) = _
      simp only [u1, u2, u3, u5, id]
      rw [e]
      decide
    show (FL.updateItemsA q asIs _).items = _ ∧ (FL.updateItemsA q asIs _).content = _
    rw [h1]
    exact ⟨(h4 rfl).trans hb, u2⟩
  have hu : ∃ u : FL ℕ (WithBot ℕ) (WithBot ℕ), u.master = [0, 1, 2] ∧ u.content = exContent2 ∧ u.reverse = false ∧ u.level = 0 ∧
      u.filter = (fun c => decide (c ≠ ⊥)) ∧ (exInit exContent2).runA q ascending (exOps2.map fun o => (asIs, o)) =
        u.stepA q ascending asIs (.setKey (some id)) := by
    refine ⟨((exInit exContent2).stepA q ascending asIs (.setFilter fun c => decide (c ≠ ⊥))).stepA q ascending asIs
      (.setContainer (some [0, 1, 2])), ?_, ?_, ?_, ?_, ?_, by
        simp only [FL.runA, exOps2, List.map_cons, List.map_nil, List.foldl_cons, List.foldl_nil]⟩ <;>
    simp [FL.stepA, FL.setContainerA, FL.removeAll, FL.insertAllA, exInit, FL.init, FL.emit, FL.updateItemsA, FL.buildA, FL.popLoop,
      FL.appendLoop, FL.itemInsertedA, FL.insertedMasterA, FL.acc, FL.insertItem, FL.cmpA, Py.insert, Py.insertPos, exContent2]
  obtain ⟨u, u1, u2, u3, u4, u5, h⟩ := hu
  obtain ⟨hs, hc⟩ := key u u1 u2 u3 u4 u5
  intro s
  rw [← h] at hs hc
  refine ⟨hs, ?_⟩
  unfold FL.InOrder
  rw [show s.items = _ from hs, show s.content = _ from hc]
  decide

/-- There is such a comparison and sort, which sorts numbers as it should. -/
example : (fltKeys : Keys ℕ (WithBot ℕ)).lt = fltLt ∧ (∀ key (l : List ℕ), Rising fltLt key l → (fltKeys : Keys ℕ (WithBot ℕ)).srt key false l = l) ∧
    (fltKeys : Keys ℕ (WithBot ℕ)).Agree (· ≠ ⊥) := by
  refine ⟨rfl, fun key l h => ?_, fltKeys_agree⟩
  show fltSort key false l = l
  unfold fltSort
  rw [if_neg (by simp)]
  exact if_pos h

/-- All items are there, in the history of the counterexample. -/
example : (exInit exContent).AdmAllA fltKeys ascending ((exOps [.srcRemove 2]).map fun o => (asIs, o)) ∧
    ((exInit exContent).runA fltKeys ascending ((exOps [.srcRemove 2]).map fun o => (asIs, o))).items.Perm [3, 2, 0] := by
  refine ⟨?_, ?_⟩
  · simp only [exOps, List.map_cons, List.map_nil, List.cons_append, List.nil_append, FL.AdmAllA, FL.AdmA]
    refine ⟨by decide, trivial, by decide, by decide, by decide, by decide, trivial, trivial⟩
  · decide

/-- Numbers in order: item 1 has a key, and the model does what it does for numbers. -/
example : ((exInit fun n => ((10 - n : ℕ) : WithBot ℕ)).runA fltKeys ascending ((exOps []).map fun o => (asIs, o))).items = [3, 2, 1, 0] := by
  decide

end Verif.ListModel
