import Verif.ListModel.FilteredProps

/-!
Filters that raise (`nion/utils/ListModel.py:232-640`, `nion/utils/Event.py:78-89`).

`Filtered.lean` leaves out filters whose `matches` raises. Here the filter raises for some contents: `bad c` says that `matches` raises
for an item with the content `c`. Every place that calls `matches` (lines 380, 393, 440 and 487) stops there; what was done before stays.
An exception ends in `Event.fire` if the container or an item caused the call, and goes to the caller if a setter or `end_change` did.
Either way `true` is the second component of the result. Sort keys do not raise here.
-/

namespace Verif.ListModel.Raising

open Verif.Py Verif.Selection

/-- A filtered list model and the contents for which its filter raises. -/
structure RL (α C K : Type*) where
  fl : FL α C K
  bad : C → Bool

/-- What can happen: `filter p b` sets a filter that raises for the contents `b` and answers `p` otherwise. -/
inductive ROp (α C K : Type*) where
  | filter (p : C → Bool) (b : C → Bool)
  | op (o : LOp α C K)

section
variable {α C K : Type*} [DecidableEq α] [LinearOrder K]

/-- `matches` raises for the item. -/
def RL.raises (s : RL α C K) (x : α) : Bool := s.bad (s.fl.content x)

/-- ListModel.py:375-382: without a sort key the items before `x` in the source are matched too. -/
def RL.searchRaises (s : RL α C K) (x : α) : Bool :=
  s.fl.key.isNone && (s.fl.master.takeWhile fun y => decide (y ≠ x)).any s.raises

/-- ListModel.py:385-406. -/
def RL.insertedMaster (s : RL α C K) (x : α) : RL α C K × Bool :=
  if s.fl.level > 0 then (s, false)
  else if s.raises x then (s, true)
  else if s.fl.acc x && s.searchRaises x then (s, true)
  else ({ s with fl := s.fl.insertedMaster x }, false)

/-- ListModel.py:428-466; the second call of `matches` for the same item gives what the first one gave. -/
def RL.updatedMaster (s : RL α C K) (x : α) : RL α C K × Bool :=
  if s.fl.level > 0 then (s, false)
  else if s.raises x then (s, true)
  else if s.fl.acc x && decide (x ∉ s.fl.items) && s.searchRaises x then (s, true)
  else ({ s with fl := s.fl.updatedMaster x }, false)

/-- ListModel.py:493-546; `__build_items` is called before anything is changed or sent. -/
def RL.updateItems (ord : IterOrder α) (s : RL α C K) : RL α C K × Bool :=
  if s.fl.level > 0 then (s, false)
  else if s.fl.master.any s.raises then (s, true)
  else ({ s with fl := s.fl.updateItems ord }, false)

/-- ListModel.py:611-627: the copy of the source changes first, the selections last. -/
def RL.itemInserted (sord : SetOrder) (s : RL α C K) (x : α) (i : Int) : RL α C K × Bool :=
  if x ∈ s.fl.master then (s, true)
  else
    let r := RL.insertedMaster { s with fl := { s.fl with master := Py.insert s.fl.master i x } } x
    if r.2 then r
    else ({ r.1 with fl := { r.1.fl with sels := r.1.fl.sels.map fun y => (insertIndex sord y i).sel } }, false)

/-- ListModel.py:599-600: the loop ends with the first exception. -/
def RL.insertAll (sord : SetOrder) : List α → Nat → RL α C K → RL α C K × Bool
  | [], _, s => (s, false)
  | x :: xs, i, s =>
    let r := s.itemInserted sord x i
    if r.2 then r else RL.insertAll sord xs (i + 1) r.1

/-- One event. -/
def RL.step (sord : SetOrder) (ord : IterOrder α) (s : RL α C K) : ROp α C K → RL α C K × Bool
  | .filter p b => RL.updateItems ord ⟨{ s.fl with filter := p, sorted := false }.emit .reset, b⟩
  | .op (.setFilter p) => RL.updateItems ord ⟨{ s.fl with filter := p, sorted := false }.emit .reset, fun _ => false⟩
  | .op (.setKey k) => RL.updateItems ord { s with fl := { s.fl with key := k, sorted := false }.emit .reset }
  | .op (.setReverse b) => RL.updateItems ord { s with fl := { s.fl with reverse := b, sorted := false }.emit .reset }
  | .op .endChange =>
    let t : RL α C K := { s with fl := { s.fl with level := s.fl.level - 1 } }
    if s.fl.level - 1 = 0 then t.updateItems ord else (t, false)
  | .op (.srcInsert v i) =>
    match s.fl.source with
    | some l => RL.itemInserted sord { s with fl := { s.fl with source := some (Py.insert l i v) } } v i
    | none => (s, false)
  | .op (.changeContent v c) =>
    let t : RL α C K := { s with fl := { s.fl with content := Function.update s.fl.content v c } }
    if v ∈ s.fl.master then t.updatedMaster v else (t, false)
  | .op (.setContainer c) =>
    let f := FL.removeAll sord (s.fl.source.getD []).reverse s.fl
    RL.insertAll sord (c.getD []) 0 { s with fl := { f with source := c, sorted := false }.emit .reset }
  | .op o => ({ s with fl := s.fl.step sord ord o }, false)

/-- A history; the exceptions are dropped. -/
def RL.run (sord : SetOrder) (s : RL α C K) (ops : List (IterOrder α × ROp α C K)) : RL α C K :=
  ops.foldl (fun s o => (s.step sord o.1 o.2).1) s

/-- ListModel.py:243-268: a new model accepts everything. -/
def RL.init (content : α → C) (sels : List Sel) : RL α C K := ⟨FL.init content sels, fun _ => false⟩

/-- The event with a filter that does not raise. -/
def ROp.plain : ROp α C K → LOp α C K
  | .filter p _ => .setFilter p
  | .op o => o

/-! ### An event that does not raise is the event of `Filtered.lean` -/

theorem inserted_ok {s : RL α C K} {x : α} (h : (s.insertedMaster x).2 = false) :
    s.insertedMaster x = ({ s with fl := s.fl.insertedMaster x }, false) := by
  unfold RL.insertedMaster at h ⊢
  split at h
  · rename_i hl; rw [if_pos hl]; simp [FL.insertedMaster, hl]
  · rename_i hl
    rw [if_neg hl]
    split at h
    · cases h
    · rename_i h1
      rw [if_neg h1]
      split at h
      · cases h
      · rename_i h2; rw [if_neg h2]

theorem inserted_raised {s : RL α C K} {x : α} (h : (s.insertedMaster x).2 = true) : s.insertedMaster x = (s, true) := by
  unfold RL.insertedMaster at h ⊢
  split_ifs at h ⊢ <;> rfl

theorem updated_ok {s : RL α C K} {x : α} (h : (s.updatedMaster x).2 = false) :
    s.updatedMaster x = ({ s with fl := s.fl.updatedMaster x }, false) := by
  unfold RL.updatedMaster at h ⊢
  split at h
  · rename_i hl; rw [if_pos hl]; simp [FL.updatedMaster, hl]
  · rename_i hl
    rw [if_neg hl]
    split at h
    · cases h
    · rename_i h1
      rw [if_neg h1]
      split at h
      · cases h
      · rename_i h2; rw [if_neg h2]

theorem updated_raised {s : RL α C K} {x : α} (h : (s.updatedMaster x).2 = true) : s.updatedMaster x = (s, true) := by
  unfold RL.updatedMaster at h ⊢
  split_ifs at h ⊢ <;> rfl

theorem update_ok {ord : IterOrder α} {s : RL α C K} (h : (s.updateItems ord).2 = false) :
    s.updateItems ord = ({ s with fl := s.fl.updateItems ord }, false) := by
  unfold RL.updateItems at h ⊢
  split at h
  · rename_i hl; rw [if_pos hl]; simp [FL.updateItems, hl]
  · rename_i hl
    rw [if_neg hl]
    split at h
    · cases h
    · rename_i h1; rw [if_neg h1]

theorem update_raised {ord : IterOrder α} {s : RL α C K} (h : (s.updateItems ord).2 = true) :
    s.updateItems ord = (s, true) := by
  unfold RL.updateItems at h ⊢
  split_ifs at h ⊢ <;> rfl

theorem itemInserted_ok {sord : SetOrder} {s : RL α C K} {x : α} {i : Int} (h : (s.itemInserted sord x i).2 = false) :
    s.itemInserted sord x i = ({ s with fl := s.fl.itemInserted sord x i }, false) ∧ x ∉ s.fl.master := by
  unfold RL.itemInserted at h ⊢
  by_cases hx : x ∈ s.fl.master
  · rw [if_pos hx] at h; cases h
  · rw [if_neg hx] at h ⊢
    refine ⟨?_, hx⟩
    simp only at h ⊢
    split at h
    · rename_i h1; rw [h1] at h; cases h
    · rename_i h1
      rw [if_neg h1, inserted_ok (by simpa using h1)]
      simp [FL.itemInserted, hx]

theorem itemInserted_raised {sord : SetOrder} {s : RL α C K} {x : α} {i : Int} (h : (s.itemInserted sord x i).2 = true)
    (hx : x ∉ s.fl.master) :
    s.itemInserted sord x i = ({ s with fl := { s.fl with master := Py.insert s.fl.master i x } }, true) := by
  unfold RL.itemInserted at h ⊢
  rw [if_neg hx] at h ⊢
  simp only at h ⊢
  split at h
  · rename_i h1; rw [if_pos h1, inserted_raised h1]
  · cases h

theorem insertAll_ok {sord : SetOrder} {xs : List α} {i : Nat} {s : RL α C K} (h : (RL.insertAll sord xs i s).2 = false) :
    RL.insertAll sord xs i s = ({ s with fl := FL.insertAll sord xs i s.fl }, false) := by
  induction xs generalizing s i with
  | nil => rfl
  | cons x xs ih =>
    simp only [RL.insertAll] at h ⊢
    split at h
    · rename_i h1; rw [h1] at h; cases h
    · rename_i h1
      obtain ⟨e, hx⟩ := itemInserted_ok (by simpa using h1)
      rw [if_neg h1]
      rw [e] at h ⊢
      rw [ih h]
      simp [FL.insertAll, hx]

/-- An event in which the filter does not raise does what the event does in `Filtered.lean`. -/
theorem step_ok {sord : SetOrder} {ord : IterOrder α} {s : RL α C K} {o : ROp α C K} (h : (s.step sord ord o).2 = false) :
    (s.step sord ord o).1.fl = s.fl.step sord ord o.plain := by
  cases o with
  | filter p b => simp only [RL.step] at h ⊢; rw [update_ok h]; rfl
  | op o =>
    cases o with
    | setFilter p => simp only [RL.step] at h ⊢; rw [update_ok h]; rfl
    | setKey k => simp only [RL.step] at h ⊢; rw [update_ok h]; rfl
    | setReverse b => simp only [RL.step] at h ⊢; rw [update_ok h]; rfl
    | endChange =>
      simp only [RL.step, ROp.plain, FL.step] at h ⊢
      split at h
      · rename_i h0; rw [if_pos h0, if_pos h0, update_ok h]
      · rename_i h0; rw [if_neg h0, if_neg h0]
    | srcInsert v i =>
      simp only [RL.step, ROp.plain, FL.step] at h ⊢
      cases hs : s.fl.source with
      | none => rfl
      | some l =>
        rw [hs] at h
        simp only at h ⊢
        rw [(itemInserted_ok h).1]
    | changeContent v c =>
      simp only [RL.step, ROp.plain, FL.step] at h ⊢
      split at h
      · rename_i h0; rw [if_pos h0, if_pos h0, updated_ok h]
      · rename_i h0; rw [if_neg h0, if_neg h0]
    | setContainer c =>
      simp only [RL.step, ROp.plain, FL.step, FL.setContainer] at h ⊢
      rw [insertAll_ok h]
    | srcRemove i => rfl
    | srcBegin => rfl
    | srcEnd => rfl
    | srcReset => rfl
    | beginChange => rfl
    | select k o => rfl

/-! ### What observers are told -/

theorem eff_insertAllR (sord : SetOrder) (xs : List α) (i : Nat) (s : RL α C K) :
    Eff true s.fl (RL.insertAll sord xs i s).1.fl := by
  induction xs generalizing s i with
  | nil => exact .refl _ _
  | cons x xs ih =>
    simp only [RL.insertAll]
    cases h : (s.itemInserted sord x i).2 with
    | true =>
      simp only [if_true]
      by_cases hx : x ∈ s.fl.master
      · simp only [RL.itemInserted, hx, if_true]; exact .refl _ _
      · rw [itemInserted_raised h hx]; exact .of_eq rfl rfl
    | false =>
      simp only [Bool.false_eq_true, if_false]
      refine Eff.trans ?_ (ih _ _)
      rw [(itemInserted_ok h).1]
      exact eff_itemInserted sord _ _ _

/-- The container's own begin and end of changes. -/
def ROp.IsSrcBlock (o : ROp α C K) : Prop := o.plain.IsSrcBlock

theorem eff_stepR (sord : SetOrder) (ord : IterOrder α) (s : RL α C K) (o : ROp α C K) (ho : ¬ o.IsSrcBlock) :
    Eff false s.fl (s.step sord ord o).1.fl := by
  by_cases hc : ∃ c, o = .op (.setContainer c)
  · obtain ⟨c, rfl⟩ := hc
    simp only [RL.step]
    refine Eff.weaken ((eff_removeAll sord (s.fl.source.getD []).reverse s.fl).trans (Eff.trans ?_ (eff_insertAllR sord _ _ _)))
    exact eff_reset rfl rfl
  · cases h : (s.step sord ord o).2 with
    | false => rw [step_ok h]; exact (eff_step sord ord s.fl o.plain ho).1
    | true =>
      cases o with
      | filter p b => simp only [RL.step] at h ⊢; rw [update_raised h]; exact eff_reset rfl rfl
      | op o =>
        cases o with
        | setFilter p => simp only [RL.step] at h ⊢; rw [update_raised h]; exact eff_reset rfl rfl
        | setKey k => simp only [RL.step] at h ⊢; rw [update_raised h]; exact eff_reset rfl rfl
        | setReverse b => simp only [RL.step] at h ⊢; rw [update_raised h]; exact eff_reset rfl rfl
        | endChange =>
          simp only [RL.step] at h ⊢
          split at h
          · rename_i h0; rw [if_pos h0, update_raised h]; exact .of_eq rfl rfl
          · cases h
        | srcInsert v i =>
          simp only [RL.step] at h ⊢
          cases hs : s.fl.source with
          | none => rw [hs] at h; cases h
          | some l =>
            rw [hs] at h
            simp only at h ⊢
            by_cases hx : v ∈ s.fl.master
            · simp only [RL.itemInserted, hx, if_true]; exact .of_eq rfl rfl
            · rw [itemInserted_raised h hx]; exact .of_eq rfl rfl
        | changeContent v c =>
          simp only [RL.step] at h ⊢
          split at h
          · rename_i h0; rw [if_pos h0, updated_raised h]; exact .of_eq rfl rfl
          · cases h
        | setContainer c => exact absurd ⟨c, rfl⟩ hc
        | _ => cases h

/-- C126: whatever the filters raise, an observer that applies the insert and remove notifications by index has the model's items at every
notification and after every event. -/
theorem C126_observed (sord : SetOrder) (content : α → C) (sels : List Sel) (ops : List (IterOrder α × ROp α C K)) :
    let s := (RL.init content sels).run sord ops
    ReplaysAt false [] (notes s.fl.log) s.fl.items := by
  suffices h : ∀ s : RL α C K, ReplaysAt false [] (notes s.fl.log) s.fl.items →
      ReplaysAt false [] (notes (s.run sord ops).fl.log) (s.run sord ops).fl.items from h _ (.nil _)
  induction ops with
  | nil => exact fun s h => h
  | cons o ops ih =>
    intro s h
    refine ih _ ?_
    obtain ⟨iord, o⟩ := o
    by_cases ho : o.IsSrcBlock
    · cases o with
      | filter p b => exact absurd ho (fun hh => hh)
      | op o =>
        cases o with
        | srcBegin => simpa [RL.step, FL.step, FL.emit, notes] using h
        | srcEnd => simpa [RL.step, FL.step, FL.emit, notes] using h
        | _ => exact absurd ho (fun hh => hh)
    · obtain ⟨ns, h1, h2, _⟩ := eff_stepR sord iord s o ho
      simp only at h1 h2 ⊢
      rw [h1, notes_append]
      exact h.append h2

/-- C126: begin and end of changes stay balanced, with every notification between them, whatever an event raises. -/
theorem C126_balanced (sord : SetOrder) (ord : IterOrder α) (s : RL α C K) (o : ROp α C K) (ho : ¬ o.IsSrcBlock) :
    ∃ ns, (s.step sord ord o).1.fl.log = s.fl.log ++ ns ∧ ∀ d, scan d ns = some d := by
  obtain ⟨ns, h1, _, h3⟩ := eff_stepR sord ord s o ho
  exact ⟨ns, h1, h3⟩

/-- C126: an event in which the filter raises, other than the assignment of a container, changes no item and no selection and sends no
notification; only `reset` may be sent. -/
theorem C126_unchanged (sord : SetOrder) (ord : IterOrder α) (s : RL α C K) (o : ROp α C K)
    (ho : ∀ c, o ≠ .op (.setContainer c)) (h : (s.step sord ord o).2 = true) :
    (s.step sord ord o).1.fl.items = s.fl.items ∧ (s.step sord ord o).1.fl.sels = s.fl.sels ∧
    ((s.step sord ord o).1.fl.log = s.fl.log ∨ (s.step sord ord o).1.fl.log = s.fl.log ++ [.reset]) := by
  cases o with
  | filter p b => simp only [RL.step] at h ⊢; rw [update_raised h]; exact ⟨rfl, rfl, .inr rfl⟩
  | op o =>
    cases o with
    | setFilter p => simp only [RL.step] at h ⊢; rw [update_raised h]; exact ⟨rfl, rfl, .inr rfl⟩
    | setKey k => simp only [RL.step] at h ⊢; rw [update_raised h]; exact ⟨rfl, rfl, .inr rfl⟩
    | setReverse b => simp only [RL.step] at h ⊢; rw [update_raised h]; exact ⟨rfl, rfl, .inr rfl⟩
    | endChange =>
      simp only [RL.step] at h ⊢
      split at h
      · rename_i h0; rw [if_pos h0, update_raised h]; exact ⟨rfl, rfl, .inl rfl⟩
      · cases h
    | srcInsert v i =>
      simp only [RL.step] at h ⊢
      cases hs : s.fl.source with
      | none => rw [hs] at h; cases h
      | some l =>
        rw [hs] at h
        simp only at h ⊢
        by_cases hx : v ∈ s.fl.master
        · simp only [RL.itemInserted, hx, if_true]; simp
        · rw [itemInserted_raised h hx]; exact ⟨rfl, rfl, .inl rfl⟩
    | changeContent v c =>
      simp only [RL.step] at h ⊢
      split at h
      · rename_i h0; rw [if_pos h0, updated_raised h]; exact ⟨rfl, rfl, .inl rfl⟩
      · cases h
    | setContainer c => exact absurd rfl (ho c)
    | _ => cases h

/-! ### Recovery -/

/-- The events of a history from the state `s`: no item comes into the container twice, and no assignment of a container raises. -/
def RL.Calm (sord : SetOrder) : RL α C K → List (IterOrder α × ROp α C K) → Prop
  | _, [] => True
  | s, o :: ops =>
    (match o.2 with
      | .op (.srcInsert v _) => ∀ l, s.fl.source = some l → v ∉ l
      | .op (.setContainer c) => (c.getD []).Nodup ∧ (s.step sord o.1 o.2).2 = false
      | _ => True) ∧ RL.Calm sord (s.step sord o.1 o.2).1 ops

theorem update_master (ord : IterOrder α) (s : RL α C K) :
    (s.updateItems ord).1.fl.master = s.fl.master ∧ (s.updateItems ord).1.fl.source = s.fl.source := by
  unfold RL.updateItems
  split
  · exact ⟨rfl, rfl⟩
  · rename_i hl
    split
    · exact ⟨rfl, rfl⟩
    · obtain ⟨l, ns, h1, _⟩ := updateItems_log ord s.fl hl
      simp only [h1, and_self]

theorem removeAll_master (sord : SetOrder) (xs : List α) (s : FL α C K) (h : s.master = xs.reverse) :
    (FL.removeAll sord xs s).master = [] := by
  induction xs generalizing s with
  | nil => simpa [FL.removeAll] using h
  | cons x xs ih =>
    simp only [FL.removeAll]
    refine ih _ ?_
    have hlen : s.master.length = xs.length + 1 := by rw [h]; simp
    have e : (s.master.length - 1 : Int) = ((xs.length : Nat) : Int) := by omega
    unfold FL.itemRemoved
    rw [e, Py.del?_nat (by omega)]
    simp only
    rw [(sameF_removedMaster _ _).2]
    simp only [h, List.reverse_cons]
    rw [List.eraseIdx_append_of_length_le (by simp)]
    simp

theorem insertAll_master (sord : SetOrder) (xs : List α) (s : FL α C K) (hn : (s.master ++ xs).Nodup) :
    (FL.insertAll sord xs s.master.length s).master = s.master ++ xs ∧
    (FL.insertAll sord xs s.master.length s).source = s.source := by
  induction xs generalizing s with
  | nil => simp [FL.insertAll]
  | cons x xs ih =>
    have hx : x ∉ s.master := fun hx => (List.nodup_append.1 hn).2.2 x hx x (by simp) rfl
    have hm : (s.itemInserted sord x s.master.length).master = s.master ++ [x] ∧
        (s.itemInserted sord x s.master.length).source = s.source := by
      unfold FL.itemInserted
      rw [if_neg hx]
      simp only
      rw [(sameF_insertedMaster _ _).2, (sameF_insertedMaster _ _).1.source]
      simp [Py.insert_length]
    obtain ⟨g1, g2⟩ := ih (s.itemInserted sord x s.master.length) (by rw [hm.1]; simpa using hn)
    have hl : (s.itemInserted sord x s.master.length).master.length = s.master.length + 1 := by rw [hm.1]; simp
    rw [hl] at g1 g2
    simp only [FL.insertAll, if_neg hx]
    exact ⟨by rw [g1, hm.1]; simp, by rw [g2, hm.2]⟩

/-- The model's copy of the source is the source. -/
def RL.Synced (s : RL α C K) : Prop := s.fl.master = s.fl.source.getD []

theorem synced_step (sord : SetOrder) (ord : IterOrder α) (s : RL α C K) (o : ROp α C K) (h : s.Synced)
    (ha : RL.Calm sord s [(ord, o)]) : (s.step sord ord o).1.Synced := by
  unfold RL.Synced at h ⊢
  have ha := ha.1
  cases o with
  | filter p b => simp only [RL.step]; rw [(update_master _ _).1, (update_master _ _).2]; exact h
  | op o =>
    cases o with
    | setFilter p => simp only [RL.step]; rw [(update_master _ _).1, (update_master _ _).2]; exact h
    | setKey k => simp only [RL.step]; rw [(update_master _ _).1, (update_master _ _).2]; exact h
    | setReverse b => simp only [RL.step]; rw [(update_master _ _).1, (update_master _ _).2]; exact h
    | endChange =>
      simp only [RL.step]
      split
      · rw [(update_master _ _).1, (update_master _ _).2]; exact h
      · exact h
    | srcInsert v i =>
      simp only [RL.step]
      cases hs : s.fl.source with
      | none => simp only; rw [hs] at h; rw [hs]; exact h
      | some l =>
        have hv := ha l hs
        rw [hs] at h
        simp only [Option.getD_some] at h ⊢
        have hx : v ∉ s.fl.master := by rw [h]; exact hv
        cases hr : (RL.itemInserted sord { s with fl := { s.fl with source := some (Py.insert l i v) } } v i).2 with
        | true => rw [itemInserted_raised hr hx]; simp [h]
        | false =>
          rw [(itemInserted_ok hr).1]
          simp only [FL.itemInserted, hx, if_false]
          rw [(sameF_insertedMaster _ _).2, (sameF_insertedMaster _ _).1.source]
          simp [h]
    | srcRemove i =>
      simp only [RL.step, FL.step]
      cases hs : s.fl.source with
      | none => simp only; rw [hs] at h; rw [hs]; exact h
      | some l =>
        rw [hs] at h
        simp only [Option.getD_some] at h
        rcases del?_cases l i with ⟨k, hk, h1, h2, h3⟩ | ⟨h1, h2, h3⟩
        · simp only [h2, h3, FL.itemRemoved, h]
          rw [(sameF_removedMaster _ _).2, (sameF_removedMaster _ _).1.source]
          rfl
        · simp only [h2, h3]; rw [hs]; exact h
    | changeContent v c =>
      simp only [RL.step]
      split
      · cases hr : (RL.updatedMaster { s with fl := { s.fl with content := Function.update s.fl.content v c } } v).2 with
        | true => rw [updated_raised hr]; exact h
        | false =>
          rw [updated_ok hr]
          simp only
          rw [(sameF_updatedMaster _ _).2, (sameF_updatedMaster _ _).1.source]
          exact h
      · exact h
    | setContainer c =>
      obtain ⟨hn, hr⟩ := ha
      rw [step_ok hr]
      simp only [ROp.plain, FL.step, FL.setContainer]
      have hm := removeAll_master sord (s.fl.source.getD []).reverse s.fl (by rw [h]; simp)
      set t : FL α C K := { FL.removeAll sord (s.fl.source.getD []).reverse s.fl with source := c, sorted := false }.emit .reset with ht
      have htm : t.master = [] := hm
      obtain ⟨g1, g2⟩ := insertAll_master sord (c.getD []) t (by rw [htm]; simpa using hn)
      rw [htm] at g1 g2
      simp only [List.length_nil, List.nil_append] at g1 g2
      rw [g1, g2]
      rfl
    | _ => exact h

theorem synced_run (sord : SetOrder) (ops : List (IterOrder α × ROp α C K)) (s : RL α C K) (h : s.Synced)
    (ha : RL.Calm sord s ops) : (s.run sord ops).Synced := by
  induction ops generalizing s with
  | nil => exact h
  | cons o ops ih => exact ih _ (synced_step sord o.1 s o.2 h ⟨ha.1, trivial⟩) ha.2

theorem update_recovers (ord : IterOrder α) (s : RL α C K) (hl : s.fl.level ≤ 0) (hs : s.fl.sorted = false)
    (hb : ∀ x ∈ s.fl.master, s.bad (s.fl.content x) = false) :
    (s.updateItems ord).2 = false ∧ (s.updateItems ord).1.fl.items = s.fl.build := by
  have hl' : ¬ s.fl.level > 0 := by omega
  have hb' : ¬ s.fl.master.any s.raises = true := by
    simp only [List.any_eq_true, not_exists, not_and, Bool.not_eq_true]
    exact hb
  have e : s.updateItems ord = ({ s with fl := s.fl.updateItems ord }, false) := by
    unfold RL.updateItems; rw [if_neg hl', if_neg hb']
  rw [e]
  obtain ⟨l, ns, h1, _, _, h4, _⟩ := updateItems_log ord s.fl hl'
  simp only [h1, true_and]
  exact (h4 hs).1

/-- The items of a source that the filter `p` accepts, in the order the sort key asks for. -/
def Shows (src : List α) (content : α → C) (p : C → Bool) (key : Option (C → K)) (rev : Bool) (items : List α) : Prop :=
  items.Perm (src.filter fun x => p (content x)) ∧
  (key = none → items = src.filter fun x => p (content x)) ∧
  ∀ k, key = some k → items.Pairwise fun a b => if rev then k (content b) ≤ k (content a) else k (content a) ≤ k (content b)

omit [DecidableEq α] in
theorem build_shows (s : FL α C K) : Shows s.master s.content s.filter s.key s.reverse s.build := by
  unfold FL.build FL.acc
  refine ⟨?_, ?_, ?_⟩
  · cases s.key with
    | none => exact .refl _
    | some k =>
      simp only
      split
      · exact (List.perm_insertionSort _ _).filter _
      · exact (List.perm_insertionSort _ _).filter _
  · intro hk; rw [hk]
  · intro k hk
    rw [hk]
    simp only
    cases s.reverse with
    | true =>
      simp only [if_true]
      have : IsTrans α fun a b => k (s.content b) ≤ k (s.content a) := ⟨fun a b c h1 h2 => le_trans h2 h1⟩
      have : Std.Total fun a b : α => k (s.content b) ≤ k (s.content a) := ⟨fun a b => le_total _ _⟩
      exact List.Pairwise.filter _ (List.pairwise_insertionSort _ _)
    | false =>
      simp only [Bool.false_eq_true, if_false]
      have : IsTrans α fun a b => k (s.content a) ≤ k (s.content b) := ⟨fun a b c h1 h2 => le_trans h1 h2⟩
      have : Std.Total fun a b : α => k (s.content a) ≤ k (s.content b) := ⟨fun a b => le_total _ _⟩
      exact List.Pairwise.filter _ (List.pairwise_insertionSort _ _)

/-- C126, the part that holds: whatever filters raised before, outside change blocks a new filter that raises for no item of the source
makes the list right: it is accepted, and the items are the source items it accepts, sorted if there is a sort key. (Missing: histories in
which assigning a container raised, or in which the container got an item twice.) -/
theorem C126_recovers_partial (sord : SetOrder) (ord : IterOrder α) (content : α → C) (sels : List Sel)
    (ops : List (IterOrder α × ROp α C K)) (ha : RL.Calm sord (RL.init content sels) ops) (p : C → Bool) (b : C → Bool) :
    let s := (RL.init content sels).run sord ops
    let r := s.step sord ord (.filter p b)
    let src := s.fl.source.getD []
    s.fl.level ≤ 0 → (∀ x ∈ src, b (s.fl.content x) = false) →
    r.2 = false ∧ Shows src s.fl.content p s.fl.key s.fl.reverse r.1.fl.items := by
  intro s r src hl hb
  have hsy : s.Synced := synced_run sord ops _ rfl ha
  set t : RL α C K := ⟨{ s.fl with filter := p, sorted := false }.emit .reset, b⟩ with ht
  have htm : t.fl.master = src := hsy
  obtain ⟨h1, h2⟩ := update_recovers ord t hl rfl (by rw [htm]; exact hb)
  refine ⟨h1, ?_⟩
  show Shows _ _ _ _ _ (t.updateItems ord).1.fl.items
  rw [h2]
  have := build_shows t.fl
  rw [htm] at this
  exact this

/-- C126: the model's own copy of the source never goes out of step, whatever filters raise. -/
theorem C126_source_partial (sord : SetOrder) (content : α → C) (sels : List Sel) (ops : List (IterOrder α × ROp α C K))
    (ha : RL.Calm sord (RL.init content sels) ops) :
    let s := (RL.init content sels).run sord ops
    s.fl.master = s.fl.source.getD [] := synced_run sord ops _ rfl ha

end

/-! ### Counterexamples and cases -/

/-- raises for 13, accepts the even numbers -/
def even13 : ROp Nat Nat Nat := .filter (fun n => n % 2 = 0) (fun n => n == 13)

/-- C126 is false: 13 is inserted at the front, the filter raises, and the selection is not told; the selected item is 2 afterwards,
not 4. -/
theorem C126_counterexample_selection :
    let i : IterOrder Nat := idOrder
    let s : RL Nat Nat Nat := (RL.init id [⟨∅, none, .multiple⟩]).run ascending
      [(i, .op (.setContainer (some [2, 4, 6]))), (i, even13), (i, .op (.select 0 (.set 1)))]
    let r := s.step ascending i (.op (.srcInsert 13 0))
    let t := (r.1.step ascending i (.filter (fun _ => true) fun _ => false)).1
    r.2 = true ∧ (s.fl.sels.map fun x => selectedItems x.indexes s.fl.items) = [[4]] ∧
    t.fl.items = [13, 2, 4, 6] ∧ (t.fl.sels.map fun x => selectedItems x.indexes t.fl.items) = [[2]] := by decide

/-- C126 is false: assigning a container whose second item makes the filter raise leaves out the items after it; a new filter does not
bring them back, and the container later removing 6 is not understood. -/
theorem C126_counterexample_container :
    let i : IterOrder Nat := idOrder
    let s : RL Nat Nat Nat := (RL.init id []).run ascending [(i, even13)]
    let r := s.step ascending i (.op (.setContainer (some [2, 13, 4, 6])))
    let t := (r.1.step ascending i (.filter (fun _ => true) fun _ => false)).1
    r.2 = true ∧ t.fl.source = some [2, 13, 4, 6] ∧ t.fl.items = [2, 13] := by decide

/-- C126 is false: `end_change` raises because of 13, and 2, which was removed from the source in the block, stays in the list. -/
theorem C126_counterexample_removed :
    let i : IterOrder Nat := idOrder
    let s : RL Nat Nat Nat := (RL.init id []).run ascending
      [(i, .op (.setContainer (some [2, 4]))), (i, even13), (i, .op .beginChange), (i, .op (.srcRemove 0)),
        (i, .op (.srcInsert 13 0)), (i, .op .endChange)]
    s.fl.level = 0 ∧ s.fl.source = some [13, 4] ∧ s.fl.items = [2, 4] := by decide

/-- C126 is false: the content of 13 makes the filter raise, so 4 behind it is not shown; after 13 is gone 8 and 6 are inserted and 6,
which is before 8 in the source, comes after it. -/
theorem C126_counterexample_order :
    let i : IterOrder Nat := idOrder
    let s : RL Nat Nat Nat := (RL.init id []).run ascending
      [(i, .op (.setContainer (some []))), (i, even13), (i, .op (.srcInsert 13 0)), (i, .op (.srcInsert 4 1)),
        (i, .op (.srcRemove 0)), (i, .op (.srcInsert 8 1)), (i, .op (.srcInsert 6 1))]
    s.fl.source = some [4, 6, 8] ∧ s.fl.items = [8, 6] := by decide

/-- an item for which the filter raises is not shown, the others are; when it goes and comes back with another filter all is well -/
example :
    let i : IterOrder Nat := idOrder
    let s : RL Nat Nat Nat := (RL.init id []).run ascending
      [(i, .op (.setContainer (some [2, 4]))), (i, .op (.setKey (some id))), (i, even13), (i, .op (.srcInsert 13 1)),
        (i, .op (.srcInsert 3 0)), (i, .op (.srcInsert 8 0))]
    s.fl.items = [2, 4, 8] ∧ s.fl.source = some [8, 3, 2, 13, 4] ∧
    (s.step ascending i (.filter (fun n => n > 2) fun n => n == 99)).1.fl.items = [3, 4, 8, 13] := by decide

end Verif.ListModel.Raising
