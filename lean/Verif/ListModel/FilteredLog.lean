import Verif.ListModel.FilteredLemmas

/-! Properties C22, C23 and C26 of `FilteredListModel`: what its observers are told, in every history. -/

namespace Verif.ListModel

open Verif.Py Verif.Selection

section
variable {α C K : Type*} [DecidableEq α] [LinearOrder K]

/-- Going from `s` to `t`, the notifications sent replay, and every one of them is between a begin and an end event. -/
def Eff (strict : Bool) (s t : FL α C K) : Prop :=
  ∃ ns, t.log = s.log ++ ns ∧ ReplaysAt strict s.items (notes ns) t.items ∧ ∀ d, scan d ns = some d

theorem Eff.of_eq {b : Bool} {s t : FL α C K} (h1 : t.log = s.log) (h2 : t.items = s.items) : Eff b s t :=
  ⟨[], by simp [h1], by rw [h2]; exact .nil _, fun _ => rfl⟩

theorem Eff.refl (b : Bool) (s : FL α C K) : Eff b s s := .of_eq rfl rfl

theorem Eff.trans {b : Bool} {s t u : FL α C K} (h1 : Eff b s t) (h2 : Eff b t u) : Eff b s u := by
  obtain ⟨m, a1, a2, a3⟩ := h1
  obtain ⟨n, b1, b2, b3⟩ := h2
  refine ⟨m ++ n, by rw [b1, a1, List.append_assoc], by rw [notes_append]; exact a2.append b2, fun d => ?_⟩
  rw [scan_append, a3]; exact b3 d

theorem Eff.weaken {b : Bool} {s t : FL α C K} (h : Eff true s t) : Eff b s t := by
  obtain ⟨m, a1, a2, a3⟩ := h
  exact ⟨m, a1, a2.weaken, a3⟩

theorem eff_insertItem (s : FL α C K) (cmp : Option (α → α → Bool)) (x : α) : Eff true s (s.insertItem cmp x) := by
  unfold FL.insertItem
  refine ⟨_, rfl, ?_, fun d => rfl⟩
  exact .ins (.nil _)

theorem eff_removeItem (s : FL α C K) (x : α) (hx : x ∈ s.items) : Eff true s (s.removeItem x) := by
  unfold FL.removeItem
  have hlt := List.idxOf_lt_length_of_mem hx
  refine ⟨_, rfl, .rem (fun _ => ?_) (Py.del?_nat hlt) (.nil _), fun d => rfl⟩
  rw [Py.get?_nat hlt, List.getElem_idxOf]

theorem eff_insertedMaster (s : FL α C K) (x : α) : Eff true s (s.insertedMaster x) := by
  unfold FL.insertedMaster
  split
  · exact .refl _ s
  · split
    · exact eff_insertItem s _ x
    · exact .refl _ s

theorem eff_removedMaster (s : FL α C K) (x : α) : Eff true s (s.removedMaster x) := by
  unfold FL.removedMaster
  split
  · exact .refl _ s
  · split
    · exact eff_removeItem s x (by assumption)
    · exact .refl _ s

theorem eff_updatedMaster (s : FL α C K) (x : α) : Eff true s (s.updatedMaster x) := by
  unfold FL.updatedMaster
  split
  · exact .refl _ s
  · cases s.cmp <;> simp only <;> repeat' split
    all_goals first
      | exact .refl _ s
      | exact eff_insertedMaster s x
      | exact eff_removedMaster s x
      | exact (eff_removedMaster s x).trans (eff_insertedMaster _ x)

/-- The whole update between its begin and end event; strict unless everything is replaced. -/
theorem updateItems_log (ord : IterOrder α) (s : FL α C K) (hl : ¬ s.level > 0) :
    ∃ l ns, s.updateItems ord = { s with items := l, sorted := true, log := s.log ++ .beginChanges :: ns ++ [.endChanges] } ∧
      ReplaysAt s.sorted s.items (notes ns) l ∧ (∀ d, scan (d + 1) ns = some (d + 1)) ∧
      (s.sorted = false → l = s.build ∧ removedNames (notes ns) = s.items) ∧
      (s.sorted = true →
        l.Perm (ord.f (s.build.filter fun x => x ∉ s.items) ++ s.items.filter fun x => x ∈ s.build) ∧
        ∀ le, IsCmp (s.cmp.getD (cmpKey s.reverse fun x => s.build.idxOf x)) le →
          (s.items.filter fun x => x ∈ s.build).Pairwise le → l.Pairwise le) := by
  unfold FL.updateItems
  rw [if_neg hl]
  cases hso : s.sorted with
  | true =>
    simp only [if_true]
    obtain ⟨ns1, h1, h2, h3⟩ := removeLoop_eq (fun x => decide (x ∉ s.build)) s.items [] 0 0 (s.emit .beginChanges)
      rfl rfl
    rw [h1]
    have hkeep : [] ++ s.items.filter (fun x => !decide (x ∉ s.build)) = s.items.filter fun x => x ∈ s.build := by
      simp
    obtain ⟨l, ns2, g1, g2, g3, g4, g5⟩ := insertFold
      (s.cmp.getD (cmpKey s.reverse fun x => s.build.idxOf x))
      (ord.f (s.build.filter fun x => x ∉ s.items))
      { s.emit .beginChanges with
        items := [] ++ s.items.filter (fun x => !decide (x ∉ s.build))
        log := (s.emit .beginChanges).log ++ ns1 }
    rw [hkeep] at g4 g5
    refine ⟨l, ns1 ++ ns2, ?_, ?_, ?_, (fun h => by cases h), fun _ => ⟨g4, g5⟩⟩
    · dsimp only at g1 ⊢; rw [g1]; simp [FL.emit]
    · rw [notes_append]; exact h2.append g2
    · intro d; rw [scan_append, h3]; exact g3 _
  | false =>
    simp only [Bool.false_eq_true, if_false]
    obtain ⟨ns1, h1, h2, h3, h4⟩ := popLoop_eq s.items (s.emit .beginChanges) rfl
    rw [h1]
    obtain ⟨ns2, g1, g2, g3, g4⟩ := appendLoop_eq s.build
      { s.emit .beginChanges with items := [], log := (s.emit .beginChanges).log ++ ns1 }
    rw [g1]
    refine ⟨s.build, ns1 ++ ns2, ?_, ?_, ?_, (fun _ => ⟨rfl, ?_⟩), fun h => by cases h⟩
    · simp [FL.emit]
    · rw [notes_append]; exact h2.append (by simpa using g2.weaken)
    · intro d; rw [scan_append, h3]; exact g3 _
    · have hr : ∀ a b : List (Notif α × List α), removedNames (a ++ b) = removedNames a ++ removedNames b := by
        intro a b
        induction a with
        | nil => rfl
        | cons x a ih => obtain ⟨n, l⟩ := x; cases n <;> simp [removedNames, ih]
      rw [notes_append, hr, h4, g4, List.append_nil]

theorem eff_updateItems (ord : IterOrder α) (s : FL α C K) : Eff s.sorted s (s.updateItems ord) := by
  by_cases hl : s.level > 0
  · unfold FL.updateItems; rw [if_pos hl]; exact .refl _ s
  · obtain ⟨l, ns, h1, h2, h3, _⟩ := updateItems_log ord s hl
    rw [h1]
    refine ⟨.beginChanges :: ns ++ [.endChanges], by simp, ?_, fun d => ?_⟩
    · simpa [notes] using h2
    · simp [scan, scan_append, h3]

theorem eff_itemInserted (sord : SetOrder) (s : FL α C K) (x : α) (i : Int) : Eff true s (s.itemInserted sord x i) := by
  unfold FL.itemInserted
  split
  · exact .refl _ s
  · exact (Eff.of_eq (t := { s with master := Py.insert s.master i x }) rfl rfl).trans
      ((eff_insertedMaster _ x).trans (.of_eq rfl rfl))

theorem eff_itemRemoved (sord : SetOrder) (s : FL α C K) (x : α) (i : Int) : Eff true s (s.itemRemoved sord x i) := by
  unfold FL.itemRemoved
  cases Py.del? s.master i with
  | none => exact .refl _ s
  | some l => exact (Eff.of_eq (t := { s with master := l }) rfl rfl).trans ((eff_removedMaster _ x).trans (.of_eq rfl rfl))

theorem eff_removeAll (sord : SetOrder) (xs : List α) (s : FL α C K) : Eff true s (FL.removeAll sord xs s) := by
  induction xs generalizing s with
  | nil => exact .refl _ s
  | cons x xs ih => exact (eff_itemRemoved sord s x _).trans (ih _)

theorem eff_insertAll (sord : SetOrder) (xs : List α) (i : Nat) (s : FL α C K) : Eff true s (FL.insertAll sord xs i s) := by
  induction xs generalizing s i with
  | nil => exact .refl _ s
  | cons x xs ih =>
    simp only [FL.insertAll]
    split
    · exact .refl _ s
    · exact (eff_itemInserted sord s x _).trans (ih _ _)

theorem eff_reset {b : Bool} {s t : FL α C K} (h1 : t.log = s.log ++ [.reset]) (h2 : t.items = s.items) : Eff b s t :=
  ⟨[.reset], h1, by rw [h2]; exact .nil _, fun d => rfl⟩

/-- The container's own begin and end events, which are passed on. -/
def LOp.IsSrcBlock : LOp α C K → Prop
  | .srcBegin => True
  | .srcEnd => True
  | _ => False

/-- The events in which everything is removed and inserted again: filter and sorting changes, and the end of a change
block after a reset. -/
def FullReplacement (s : FL α C K) : LOp α C K → Prop
  | .setFilter _ => True
  | .setKey _ => True
  | .setReverse _ => True
  | .endChange => s.sorted = false
  | _ => False

theorem eff_step (sord : SetOrder) (ord : IterOrder α) (s : FL α C K) (o : LOp α C K) (ho : ¬ o.IsSrcBlock) :
    Eff false s (s.step sord ord o) ∧ (¬ FullReplacement s o → Eff true s (s.step sord ord o)) := by
  have strict : ∀ t : FL α C K, Eff true s t → Eff false s t ∧ (¬ FullReplacement s o → Eff true s t) :=
    fun t h => ⟨h.weaken, fun _ => h⟩
  cases o with
  | srcInsert v i =>
    apply strict
    cases hs : s.source with
    | none => simp only [FL.step, hs]; exact .refl _ s
    | some l =>
      simp only [FL.step, hs]
      exact (Eff.of_eq (t := { s with source := some (Py.insert l i v) }) rfl rfl).trans (eff_itemInserted sord _ v i)
  | srcRemove i =>
    apply strict
    cases hs : s.source with
    | none => simp only [FL.step, hs]; exact .refl _ s
    | some l =>
      rcases del?_cases l i with ⟨k, hk, h1, h2, h3⟩ | ⟨h1, h2, h3⟩
      · simp only [FL.step, hs, h2, h3]
        exact (Eff.of_eq (t := { s with source := some (l.eraseIdx k) }) rfl rfl).trans (eff_itemRemoved sord _ _ i)
      · simp only [FL.step, hs, h2, h3]; exact .refl _ s
  | setContainer c =>
    apply strict
    simp only [FL.step, FL.setContainer]
    refine (eff_removeAll sord (s.source.getD []).reverse s).trans (Eff.trans ?_ (eff_insertAll sord _ _ _))
    exact eff_reset rfl rfl
  | srcBegin => exact absurd trivial ho
  | srcEnd => exact absurd trivial ho
  | srcReset => exact strict _ (eff_reset rfl rfl)
  | changeContent v c =>
    apply strict
    simp only [FL.step]
    split
    · exact (Eff.of_eq (t := { s with content := Function.update s.content v c }) rfl rfl).trans (eff_updatedMaster _ v)
    · exact .of_eq rfl rfl
  | setFilter p =>
    refine ⟨?_, fun h => absurd trivial h⟩
    exact (eff_reset (s := s) (t := { s with filter := p, sorted := false }.emit .reset) rfl rfl).trans (eff_updateItems ord _)
  | setKey k =>
    refine ⟨?_, fun h => absurd trivial h⟩
    exact (eff_reset (s := s) (t := { s with key := k, sorted := false }.emit .reset) rfl rfl).trans (eff_updateItems ord _)
  | setReverse b =>
    refine ⟨?_, fun h => absurd trivial h⟩
    exact (eff_reset (s := s) (t := { s with reverse := b, sorted := false }.emit .reset) rfl rfl).trans (eff_updateItems ord _)
  | beginChange => exact strict _ (.of_eq rfl rfl)
  | endChange =>
    simp only [FL.step]
    split
    · have h := (Eff.of_eq (b := s.sorted) (s := s) (t := { s with level := s.level - 1 }) rfl rfl).trans
        (eff_updateItems ord _)
      cases hs : s.sorted with
      | true => rw [hs] at h; exact ⟨h.weaken, fun _ => h⟩
      | false => rw [hs] at h; exact ⟨h, fun hf => absurd hs hf⟩
    · exact strict _ (.of_eq rfl rfl)
  | select k o => exact strict _ (.of_eq rfl rfl)

/-- The container's own begin and end events are balanced and a container is not replaced in between: the number of its
open begin events after the history. -/
def srcDepth : Nat → List (IterOrder α × LOp α C K) → Option Nat
  | d, [] => some d
  | d, (_, .srcBegin) :: ops => srcDepth (d + 1) ops
  | d + 1, (_, .srcEnd) :: ops => srcDepth d ops
  | 0, (_, .srcEnd) :: _ => none
  | d, _ :: ops => srcDepth d ops

theorem FL.run_cons (sord : SetOrder) (s : FL α C K) (o : IterOrder α × LOp α C K) (ops : List (IterOrder α × LOp α C K)) :
    s.run sord (o :: ops) = (s.step sord o.1 o.2).run sord ops := rfl

/-- C22: in every history, including the full replacement and the incremental path, an observer that applies the insert
and remove notifications by index has the model's items at every notification and after every event; and begin and end
events are balanced with every notification inside them, provided the container's own are balanced. -/
theorem C22_replayable (sord : SetOrder) (content : α → C) (sels : List Sel) (ops : List (IterOrder α × LOp α C K)) :
    let s := (FL.init content sels).run sord ops
    ReplaysAt false [] (notes s.log) s.items ∧
    (∀ d, srcDepth 0 ops = some d → scan 0 s.log = some d) := by
  suffices h : ∀ (s : FL α C K) (d0 : Nat), ReplaysAt false [] (notes s.log) s.items →
      ReplaysAt false [] (notes (s.run sord ops).log) (s.run sord ops).items ∧
      (scan 0 s.log = some d0 → ∀ d, srcDepth d0 ops = some d → scan 0 (s.run sord ops).log = some d) by
    have := h (FL.init content sels) 0 (.nil _)
    exact ⟨this.1, this.2 rfl⟩
  induction ops with
  | nil => exact fun s d0 h => ⟨h, fun h1 d h2 => by simp [srcDepth] at h2; subst h2; exact h1⟩
  | cons o ops ih =>
    intro s d0 h
    rw [FL.run_cons]
    obtain ⟨iord, o⟩ := o
    by_cases ho : o.IsSrcBlock
    · cases o with
      | srcBegin =>
        have h' : ReplaysAt false [] (notes (s.emit .beginChanges).log) (s.emit .beginChanges).items := by
          simpa [FL.emit, notes] using h
        refine ⟨(ih (s.emit .beginChanges) 0 h').1, fun h1 d h2 => ?_⟩
        exact (ih (s.emit .beginChanges) (d0 + 1) h').2 (by simp [FL.emit, scan_append, h1, scan]) d
          (by simpa [srcDepth] using h2)
      | srcEnd =>
        have h' : ReplaysAt false [] (notes (s.emit .endChanges).log) (s.emit .endChanges).items := by
          simpa [FL.emit, notes] using h
        refine ⟨(ih (s.emit .endChanges) 0 h').1, fun h1 d h2 => ?_⟩
        cases d0 with
        | zero => simp [srcDepth] at h2
        | succ d0 =>
          exact (ih (s.emit .endChanges) d0 h').2 (by simp [FL.emit, scan_append, h1, scan]) d
            (by simpa [srcDepth] using h2)
      | _ => exact absurd ho (fun hh => hh)
    · obtain ⟨ns, h1, h2, h3⟩ := (eff_step sord iord s o ho).1
      have h' : ReplaysAt false [] (notes (s.step sord iord o).log) (s.step sord iord o).items := by
        rw [h1, notes_append]; exact h.append h2
      have hd : srcDepth d0 ((iord, o) :: ops) = srcDepth d0 ops := by
        cases o <;> first | rfl | exact absurd trivial ho
      refine ⟨(ih _ d0 h').1, fun g1 d g2 => ?_⟩
      rw [hd] at g2
      exact (ih _ d0 h').2 (by rw [h1, scan_append, g1]; exact h3 _) d g2

/-- C22: the notifications of one update (a change of filter or sorting outside a change block, or the end of the outermost
block) are enclosed in one begin/end pair. -/
theorem C22_one_pair (sord : SetOrder) (ord : IterOrder α) (s : FL α C K) :
    (s.level ≤ 0 → ∀ o, ((∃ p, o = LOp.setFilter p) ∨ (∃ k, o = LOp.setKey k) ∨ (∃ b, o = LOp.setReverse b)) →
      ∃ ns, (s.step sord ord o).log = s.log ++ .reset :: .beginChanges :: ns ++ [.endChanges] ∧
        ∀ d, scan (d + 1) ns = some (d + 1)) ∧
    (s.level = 1 → ∃ ns, (s.step sord ord .endChange).log = s.log ++ .beginChanges :: ns ++ [.endChanges] ∧
        ∀ d, scan (d + 1) ns = some (d + 1)) := by
  constructor
  · intro hl o ho
    have key : ∀ t : FL α C K, t.level = s.level → t.log = s.log ++ [.reset] →
        ∃ ns, (t.updateItems ord).log = s.log ++ .reset :: .beginChanges :: ns ++ [.endChanges] ∧
          ∀ d, scan (d + 1) ns = some (d + 1) := by
      intro t h1 h2
      obtain ⟨l, ns, g1, _, g3, _⟩ := updateItems_log ord t (by rw [h1]; omega)
      exact ⟨ns, by rw [g1]; simp [h2], g3⟩
    rcases ho with ⟨p, rfl⟩ | ⟨k, rfl⟩ | ⟨b, rfl⟩
    · exact key _ rfl rfl
    · exact key _ rfl rfl
    · exact key _ rfl rfl
  · intro hl
    have h0 : s.level - 1 = 0 := by omega
    obtain ⟨l, ns, g1, _, g3, _⟩ := updateItems_log ord { s with level := s.level - 1 } (by simp; omega)
    exact ⟨ns, by simp only [FL.step, if_pos h0]; rw [g1], g3⟩

/-! ### C23 -/

theorem notes_eq_of_level (s t : FL α C K) (h : t.log = s.log) : notes t.log = notes s.log := by rw [h]

theorem block_itemInserted (sord : SetOrder) (s : FL α C K) (x : α) (i : Int) (hl : 0 < s.level) :
    (s.itemInserted sord x i).items = s.items ∧ (s.itemInserted sord x i).log = s.log ∧
    (s.itemInserted sord x i).level = s.level := by
  unfold FL.itemInserted
  split
  · exact ⟨rfl, rfl, rfl⟩
  · simp [FL.insertedMaster, hl]

theorem block_itemRemoved (sord : SetOrder) (s : FL α C K) (x : α) (i : Int) (hl : 0 < s.level) :
    (s.itemRemoved sord x i).items = s.items ∧ (s.itemRemoved sord x i).log = s.log ∧
    (s.itemRemoved sord x i).level = s.level := by
  unfold FL.itemRemoved
  cases Py.del? s.master i with
  | none => exact ⟨rfl, rfl, rfl⟩
  | some l => simp [FL.removedMaster, hl]

theorem block_removeAll (sord : SetOrder) (xs : List α) (s : FL α C K) (hl : 0 < s.level) :
    (FL.removeAll sord xs s).items = s.items ∧ (FL.removeAll sord xs s).log = s.log ∧
    (FL.removeAll sord xs s).level = s.level := by
  induction xs generalizing s with
  | nil => exact ⟨rfl, rfl, rfl⟩
  | cons x xs ih =>
    obtain ⟨h1, h2, h3⟩ := block_itemRemoved sord s x (s.master.length - 1 : Int) hl
    obtain ⟨g1, g2, g3⟩ := ih (s.itemRemoved sord x (s.master.length - 1 : Int)) (by rw [h3]; exact hl)
    exact ⟨g1.trans h1, g2.trans h2, g3.trans h3⟩

theorem block_insertAll (sord : SetOrder) (xs : List α) (i : Nat) (s : FL α C K) (hl : 0 < s.level) :
    (FL.insertAll sord xs i s).items = s.items ∧ (FL.insertAll sord xs i s).log = s.log ∧
    (FL.insertAll sord xs i s).level = s.level := by
  induction xs generalizing s i with
  | nil => exact ⟨rfl, rfl, rfl⟩
  | cons x xs ih =>
    obtain ⟨h1, h2, h3⟩ := block_itemInserted sord s x i hl
    obtain ⟨g1, g2, g3⟩ := ih (i + 1) (s.itemInserted sord x i) (by rw [h3]; exact hl)
    simp only [FL.insertAll]
    split
    · exact ⟨rfl, rfl, rfl⟩
    · exact ⟨g1.trans h1, g2.trans h2, g3.trans h3⟩

/-- How an event changes the number of open change blocks. -/
def levelAfter (n : Int) : LOp α C K → Int
  | .beginChange => n + 1
  | .endChange => n - 1
  | _ => n

theorem block_step (sord : SetOrder) (ord : IterOrder α) (s : FL α C K) (o : LOp α C K) (hl : 0 < s.level)
    (ho : 0 < levelAfter s.level o) :
    (s.step sord ord o).items = s.items ∧ notes (s.step sord ord o).log = notes s.log ∧
    (s.step sord ord o).level = levelAfter s.level o := by
  cases o with
  | srcInsert v i =>
    cases hs : s.source with
    | none => simp [FL.step, hs, levelAfter]
    | some l =>
      obtain ⟨h1, h2, h3⟩ := block_itemInserted sord { s with source := some (Py.insert l i v) } v i hl
      simp only [FL.step, hs]; exact ⟨h1, by rw [h2], h3⟩
  | srcRemove i =>
    cases hs : s.source with
    | none => simp [FL.step, hs, levelAfter]
    | some l =>
      rcases del?_cases l i with ⟨k, hk, h1, h2, h3⟩ | ⟨h1, h2, h3⟩
      · obtain ⟨h4, h5, h6⟩ := block_itemRemoved sord { s with source := some (l.eraseIdx k) } l[k] i hl
        simp only [FL.step, hs, h2, h3]
        exact ⟨h4, by rw [h5], h6⟩
      · simp [FL.step, hs, h2, levelAfter]
  | setContainer c =>
    obtain ⟨h1, h2, h3⟩ := block_removeAll sord (s.source.getD []).reverse s hl
    obtain ⟨g1, g2, g3⟩ := block_insertAll sord (c.getD []) 0
      ({ FL.removeAll sord (s.source.getD []).reverse s with source := c, sorted := false }.emit .reset)
      (by simp only [FL.emit]; rw [h3]; exact hl)
    simp only [FL.step, FL.setContainer]
    rw [g1, g2, g3]
    simp [FL.emit, h1, h2, h3, notes, levelAfter]
  | srcBegin => simp [FL.step, FL.emit, notes, levelAfter]
  | srcEnd => simp [FL.step, FL.emit, notes, levelAfter]
  | srcReset => simp [FL.step, FL.emit, notes, levelAfter]
  | changeContent v c =>
    simp only [FL.step]
    split <;> simp [FL.updatedMaster, hl, levelAfter]
  | setFilter p => simp [FL.step, FL.emit, FL.updateItems, hl, notes, levelAfter]
  | setKey k => simp [FL.step, FL.emit, FL.updateItems, hl, notes, levelAfter]
  | setReverse b => simp [FL.step, FL.emit, FL.updateItems, hl, notes, levelAfter]
  | beginChange => exact ⟨rfl, rfl, rfl⟩
  | endChange =>
    simp only [levelAfter] at ho
    simp only [FL.step]
    rw [if_neg (by omega)]
    exact ⟨rfl, rfl, rfl⟩
  | select k o => exact ⟨rfl, rfl, rfl⟩

/-- Some change block stays open through the history. -/
def StaysOpen : Int → List (IterOrder α × LOp α C K) → Prop
  | _, [] => True
  | n, o :: ops => 0 < levelAfter n o.2 ∧ StaysOpen (levelAfter n o.2) ops

/-- C23: while a change block is open, whatever happens, no insert or remove notification is sent and the items do not
change. -/
theorem C23_batched (sord : SetOrder) (ops : List (IterOrder α × LOp α C K)) (s : FL α C K) (hl : 0 < s.level)
    (ho : StaysOpen s.level ops) :
    (s.run sord ops).items = s.items ∧ notes (s.run sord ops).log = notes s.log := by
  induction ops generalizing s with
  | nil => exact ⟨rfl, rfl⟩
  | cons o ops ih =>
    obtain ⟨h1, h2, h3⟩ := block_step sord o.1 s o.2 hl ho.1
    obtain ⟨g1, g2⟩ := ih (s.step sord o.1 o.2) (by rw [h3]; exact ho.1) (by rw [h3]; exact ho.2)
    rw [FL.run_cons]
    exact ⟨g1.trans h1, g2.trans h2⟩

/-! ### C26 -/

/-- C26: every remove notification names the item at its index, in every event that is not a full replacement; a full
replacement names each old item exactly once, in order, but with the indexes counting down from the end.
(Missing: full replacements, where the named item is not the one at the index.) -/
theorem C26_names_partial (sord : SetOrder) (ord : IterOrder α) (s : FL α C K) (o : LOp α C K) (ho : ¬ o.IsSrcBlock) :
    (¬ FullReplacement s o →
      ∃ ns, (s.step sord ord o).log = s.log ++ ns ∧ ReplaysAt true s.items (notes ns) (s.step sord ord o).items) ∧
    (s.level ≤ 0 → ((∃ p, o = LOp.setFilter p) ∨ (∃ k, o = LOp.setKey k) ∨ (∃ b, o = LOp.setReverse b)) →
      ∃ ns, (s.step sord ord o).log = s.log ++ ns ∧ removedNames (notes ns) = s.items) := by
  constructor
  · intro hf
    obtain ⟨ns, h1, h2, _⟩ := (eff_step sord ord s o ho).2 hf
    exact ⟨ns, h1, h2⟩
  · intro hl hp
    have hr : ∀ a b : List (Notif α × List α), removedNames (a ++ b) = removedNames a ++ removedNames b := by
      intro a b
      induction a with
      | nil => rfl
      | cons x a ih => obtain ⟨n, l⟩ := x; cases n <;> simp [removedNames, ih]
    have key : ∀ t : FL α C K, t.level = s.level → t.log = s.log ++ [.reset] → t.sorted = false → t.items = s.items →
        ∃ ns, (t.updateItems ord).log = s.log ++ ns ∧ removedNames (notes ns) = s.items := by
      intro t h1 h2 h3 h4
      obtain ⟨l, ns, g1, _, _, g4, _⟩ := updateItems_log ord t (by rw [h1]; omega)
      refine ⟨.reset :: .beginChanges :: ns ++ [.endChanges], by rw [g1]; simp [h2], ?_⟩
      have : notes (FEv.reset :: .beginChanges :: ns ++ [.endChanges]) = notes ns := by simp [notes]
      rw [this, (g4 h3).2, h4]
    rcases hp with ⟨p, rfl⟩ | ⟨k, rfl⟩ | ⟨b, rfl⟩
    · exact key _ rfl rfl rfl rfl
    · exact key _ rfl rfl rfl rfl
    · exact key _ rfl rfl rfl rfl

/-- Any iteration order of sets, here the identity. -/
def idOrder : IterOrder α := ⟨id, fun _ => .refl _⟩

end

/-- C26 is false for a full replacement: setting the filter on the list `[1, 2]` reports the removal of item 1 at index
1, where item 2 was. -/
theorem C26_names_counterexample :
    ∃ (s : FL Nat Nat Nat) (p : Nat → Bool), s.items = [1, 2] ∧
      notes (s.step ascending idOrder (.setFilter p)).log =
        [(.removed 1 1, [1]), (.removed 2 0, []), (.inserted 1 0, [1]), (.inserted 2 1, [1, 2])] :=
  ⟨⟨some [1, 2], id, [1, 2], [1, 2], true, fun _ => true, none, false, 0, [], []⟩, fun _ => true, by decide⟩

/-- both paths in one history: an incremental update at the end of a block (items 5 and 6 added, 1 removed), then a full
replacement by a filter -/
example :
    let s : FL Nat Nat Nat := (FL.init id []).run ascending
      [(idOrder, .setContainer (some [1, 3])), (idOrder, .beginChange), (idOrder, .endChange), (idOrder, .beginChange),
       (idOrder, .srcInsert 5 1), (idOrder, .srcRemove 0), (idOrder, .srcInsert 6 0), (idOrder, .endChange)]
    s.items = [6, 5, 3] ∧ (s.step ascending idOrder (.setFilter (· > 4))).items = [6, 5] := by decide

/-- a block that stays open -/
example : StaysOpen (α := Nat) (C := Nat) (K := Nat) 1
    [(idOrder, .srcInsert 5 1), (idOrder, .beginChange), (idOrder, .endChange), (idOrder, .setReverse true)] := by
  simp [StaysOpen, levelAfter]

end Verif.ListModel
