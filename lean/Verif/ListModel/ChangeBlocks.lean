import Verif.ListModel.Mapped

/-!
Property C123: change blocks of a container and replacing the container.

A mapped list model fires begin and end events for its own change blocks (`nion/utils/ListModel.py:671-682`) and, when its
container fires such events, opens and closes a block itself (744-756). The container setter (724-758) does not look at whether the
old or the new container is in the middle of a block.

The containers are mapped list models too (any number, `conts j`), with containers of their own, and are used while they are or are not
the container of the model. Each event of a container is delivered to the model; the model does not look at the container during
that, so delivering the events of a call one after the other at its end is the same. The models are those of `Mapped.lean`.
-/

namespace Verif.ListModel

open Verif.Py Verif.Selection

/-! ### The model -/

/-- What the model is told when its container does something. -/
def MEv.toOps {α : Type*} : MEv α → List (MOp α)
  | .note (.inserted v i) => [.srcInsert v i]
  | .note (.removed _ i) => [.srcRemove i]
  | .beginChanges => [.beginChange]
  | .endChanges => [.endChange]
  | .mapped _ => []
  | .unmapped _ => []

/-- Mapped list models, one of which may be the container of the model. -/
structure CW (α β : Type*) where
  conts : ℕ → MM α α
  model : MM α β
  cur : Option ℕ

def CW.init {α β : Type*} (sels : List Sel) : CW α β := ⟨fun _ => MM.init [], MM.init sels, none⟩

/-- Something happens to the container `j`; the model gets another container or none; the model's own change calls and selections. -/
inductive COp (α : Type*) where
  | at (j : ℕ) (o : MOp α)
  | swap (c : Option ℕ)
  | begin
  | end
  | select (k : ℕ) (o : Selection.Op)

section
variable {α β : Type*} (g : ℕ → ℕ → α → α) (f : ℕ → α → β) (hu : Bool) (ord : SetOrder)

/-- ListModel.py:741-756: the events of the container reach the model while it is the container. -/
def CW.step (w : CW α β) : COp α → CW α β
  | .at j o =>
    let c := w.conts j
    let c' := c.step (g j) hu ord o
    { w with
      conts := Function.update w.conts j c'
      model := if w.cur = some j then w.model.run f hu ord ((c'.log.drop c.log.length).flatMap MEv.toOps) else w.model }
  | .swap c => { w with model := w.model.step f hu ord (.setContainer (c.map fun j => (w.conts j).items)), cur := c }
  | .begin => { w with model := w.model.step f hu ord .beginChange }
  | .end => { w with model := w.model.step f hu ord .endChange }
  | .select k o => { w with model := w.model.step f hu ord (.select k o) }

def CW.run (w : CW α β) (ops : List (COp α)) : CW α β := ops.foldl (fun w o => w.step g f hu ord o) w

/-! ### Specification -/

/-- Whether a change block of the container is open, going by the events it has fired: 1 or 0. -/
def CW.block (w : CW α β) : Option ℕ → ℤ
  | none => 0
  | some j => openOf (w.conts j).log

/-- The number of change blocks of its own that the user of the model has open. -/
def owns : List (COp α) → ℤ
  | [] => 0
  | .begin :: ops => 1 + owns ops
  | .end :: ops => -1 + owns ops
  | _ :: ops => owns ops

/-- The blocks of which the model saw only the end (-1) or the beginning (+1), because the container was replaced in between. -/
def CW.drift (w : CW α β) : List (COp α) → ℤ
  | [] => 0
  | .swap c :: ops => (w.block w.cur - w.block c) + (w.step g f hu ord (.swap c)).drift ops
  | o :: ops => (w.step g f hu ord o).drift ops

/-- The container is only replaced while no change block of the old or the new one is open. -/
def CW.Quiet (w : CW α β) : List (COp α) → Prop
  | [] => True
  | .swap c :: ops => w.block w.cur = 0 ∧ w.block c = 0 ∧ (w.step g f hu ord (.swap c)).Quiet ops
  | o :: ops => (w.step g f hu ord o).Quiet ops

/-! ### Proof -/

/-- The effect of a call: events are added to the log, and replaying them gives the new items. -/
def Tells (s t : MM α β) : Prop := ∃ es, t.log = s.log ++ es ∧ Replays s.items (notesOf es) t.items

theorem Tells.refl (s : MM α β) : Tells s s := ⟨[], by simp, .nil _⟩

theorem Tells.trans {s t u : MM α β} (h : Tells s t) (h' : Tells t u) : Tells s u := by
  obtain ⟨a, h1, h2⟩ := h
  obtain ⟨b, h3, h4⟩ := h'
  exact ⟨a ++ b, by rw [h3, h1, List.append_assoc], by rw [notesOf_append]; exact h2.append h4⟩

theorem tells_inserted (s : MM α β) (v : α) (i : ℤ) : Tells s (s.masterInserted f ord v i) :=
  ⟨_, rfl, .ins (.nil _)⟩

theorem tells_removed (s : MM α β) (i : ℤ) : Tells s (s.masterRemoved hu ord i) := by
  unfold MM.masterRemoved
  split
  · rename_i b l h1 h2
    refine ⟨(if hu then [.unmapped b] else []) ++ [.note (.removed b i)], by simp, ?_⟩
    have : notesOf ((if hu then [MEv.unmapped b] else []) ++ [.note (.removed b i)]) = [.removed b i] := by
      cases hu <;> rfl
    rw [this]
    exact .rem h1 h2 (.nil _)
  · exact .refl s

theorem tells_insertAll (vs : List α) (s : MM α β) (i : ℕ) : Tells s (s.insertAll f ord vs i) := by
  induction vs generalizing s i with
  | nil => exact .refl s
  | cons v vs ih => exact (tells_inserted f ord s v i).trans (ih _ _)

theorem tells_removeAll (vs : List α) (s : MM α β) : Tells s (s.removeAll hu ord vs) := by
  induction vs generalizing s with
  | nil => exact .refl s
  | cons v vs ih => exact (tells_removed hu ord s _).trans (ih _)

theorem Tells.source {s t : MM α β} (h : Tells s t) (o : Option (List α)) : Tells { s with source := o } t := h

theorem tells_step (s : MM α β) (o : MOp α) : Tells s (s.step f hu ord o) := by
  cases o with
  | srcInsert v i =>
    unfold MM.step
    cases s.source with
    | none => exact .refl s
    | some l => exact tells_inserted f ord { s with source := some (Py.insert l i v) } v i
  | srcRemove i =>
    unfold MM.step
    cases s.source with
    | none => exact .refl s
    | some l =>
      dsimp only
      cases Py.del? l i with
      | none => exact .refl s
      | some l' => exact tells_removed hu ord { s with source := some l' } i
  | setContainer c =>
    exact (tells_removeAll hu ord (s.source.getD []).reverse s).trans (tells_insertAll f ord (c.getD [])
      { s.removeAll hu ord (s.source.getD []).reverse with source := c } 0)
  | beginChange =>
    by_cases h : s.level = 0
    · exact ⟨[.beginChanges], by simp [MM.step, MM.beginChange, h], .nil _⟩
    · exact ⟨[], by simp [MM.step, MM.beginChange, h], .nil _⟩
  | endChange =>
    by_cases h : s.level - 1 = 0
    · exact ⟨[.endChanges], by simp [MM.step, MM.endChange, h], .nil _⟩
    · exact ⟨[], by simp [MM.step, MM.endChange, h], .nil _⟩
  | select k o => exact ⟨[], by simp [MM.step], .nil _⟩

/-- The model follows the items of its container. -/
theorem run_source (es : List (MEv α)) (s : MM α β) (l l' : List α) (hs : s.source = some l) (h : Replays l (notesOf es) l') :
    (s.run f hu ord (es.flatMap MEv.toOps)).source = some l' := by
  induction es generalizing s l with
  | nil => cases h; exact hs
  | cons e es ih =>
    cases e with
    | mapped b => exact ih s l hs h
    | unmapped b => exact ih s l hs h
    | beginChanges => exact ih (s.step f hu ord .beginChange) l hs h
    | endChanges => exact ih (s.step f hu ord .endChange) l hs h
    | note n =>
      cases n with
      | inserted v i =>
        cases h with
        | ins h =>
          refine ih (s.step f hu ord (.srcInsert v i)) _ ?_ h
          simp only [MM.step, hs, MM.masterInserted]
      | removed v i =>
        cases h with
        | rem h1 h2 h =>
          refine ih (s.step f hu ord (.srcRemove i)) _ ?_ h
          simp only [MM.step, hs, h2, MM.masterRemoved_source]

theorem step_level (s : MM α β) (o : MOp α) : (s.step f hu ord o).level =
    s.level + (match o with | .beginChange => 1 | .endChange => -1 | _ => 0) := by
  cases o with
  | srcInsert v i => cases hs : s.source <;> simp [MM.step, hs, MM.masterInserted]
  | srcRemove i =>
    cases hs : s.source with
    | none => simp [MM.step, hs]
    | some l =>
      cases hd : Py.del? l i with
      | none => simp [MM.step, hs, hd]
      | some l' => simp only [MM.step, hs, hd, MM.masterRemoved_open]; simp
  | setContainer c =>
    simp only [MM.step, MM.setContainer, (MM.insertAll_open f ord _ _ _).1, (MM.removeAll_open hu ord _ _).1]
    simp
  | beginChange => simp [MM.step, MM.beginChange]
  | endChange => simp [MM.step, MM.endChange]; rfl
  | select k o => simp [MM.step]

/-- A begin event is open exactly if the level is positive, whatever the calls. -/
theorem step_open (s : MM α β) (o : MOp α) (h : openOf s.log = if 0 < s.level then 1 else 0) :
    openOf (s.step f hu ord o).log = if 0 < (s.step f hu ord o).level then 1 else 0 := by
  rw [step_level]
  cases o with
  | srcInsert v i => cases hs : s.source <;> simp [MM.step, hs, MM.masterInserted, openOf, h]
  | srcRemove i =>
    cases hs : s.source with
    | none => simp [MM.step, hs, h]
    | some l =>
      cases hd : Py.del? l i with
      | none => simp [MM.step, hs, hd, h]
      | some l' => simp only [MM.step, hs, hd, MM.masterRemoved_open]; simpa using h
  | setContainer c =>
    simp only [MM.step, MM.setContainer, (MM.insertAll_open f ord _ _ _).2, (MM.removeAll_open hu ord _ _).2]
    simpa using h
  | beginChange =>
    simp only [MM.step, MM.beginChange]
    by_cases hl : s.level = 0
    · simp [hl, openOf, h]
    · rw [if_neg hl, h]; split_ifs <;> omega
  | endChange =>
    simp only [MM.step, MM.endChange]
    by_cases hl : s.level - 1 = 0
    · have : s.level = 1 := by omega
      simp [this, openOf, h]
    · rw [if_neg hl, h]; split_ifs <;> omega
  | select k o => simpa [MM.step] using h

theorem run_open (ops : List (MOp α)) (s : MM α β) (h : openOf s.log = if 0 < s.level then 1 else 0) :
    openOf (s.run f hu ord ops).log = if 0 < (s.run f hu ord ops).level then 1 else 0 := by
  induction ops generalizing s with
  | nil => exact h
  | cons o ops ih => exact ih _ (step_open f hu ord s o h)

theorem run_level (es : List (MEv α)) (s : MM α β) :
    (s.run f hu ord (es.flatMap MEv.toOps)).level = s.level + openOf es := by
  induction es generalizing s with
  | nil => simp [MM.run, openOf]
  | cons e es ih =>
    have key : ∀ o : MOp α, (s.run f hu ord (o :: es.flatMap MEv.toOps)).level = (s.step f hu ord o).level + openOf es :=
      fun o => ih (s.step f hu ord o)
    cases e with
    | mapped b => simpa [MEv.toOps, openOf] using ih s
    | unmapped b => simpa [MEv.toOps, openOf] using ih s
    | beginChanges => exact (key _).trans (by rw [step_level]; simp only [openOf]; omega)
    | endChanges => exact (key _).trans (by rw [step_level]; simp only [openOf]; omega)
    | note n =>
      cases n with
      | inserted v i => exact (key _).trans (by rw [step_level]; simp [openOf])
      | removed v i => exact (key _).trans (by rw [step_level]; simp [openOf])

/-- The invariant: events are open exactly while levels are positive, the model's source is its container's list. -/
structure CW.Inv (w : CW α β) : Prop where
  conts : ∀ j, openOf (w.conts j).log = if 0 < (w.conts j).level then 1 else 0
  model : openOf w.model.log = if 0 < w.model.level then 1 else 0
  source : w.model.source = w.cur.map fun j => (w.conts j).items
  mirror : MInv f hu (w.model.source.getD []) w.model

theorem CW.Inv.step {w : CW α β} (h : w.Inv f hu) (o : COp α) : (w.step g f hu ord o).Inv f hu := by
  cases o with
  | «at» j o =>
    obtain ⟨es, h1, h2⟩ := tells_step (g j) hu ord (w.conts j) o
    refine ⟨fun k => ?_, ?_, ?_, ?_⟩
    · by_cases hk : k = j
      · subst hk; simpa [CW.step] using step_open (g k) hu ord (w.conts k) o (h.conts k)
      · simpa [CW.step, hk] using h.conts k
    · dsimp only [CW.step]
      split
      · exact run_open f hu ord _ _ h.model
      · exact h.model
    · dsimp only [CW.step]
      rw [h1, List.drop_left]
      by_cases hc : w.cur = some j
      · rw [if_pos hc, hc]
        have hs := h.source
        rw [hc] at hs
        rw [run_source f hu ord es w.model _ _ hs h2]
        simp
      · rw [if_neg hc, h.source]
        cases hw : w.cur with
        | none => rfl
        | some k =>
          have : k ≠ j := fun e => hc (by rw [hw, e])
          simp [this]
    · dsimp only [CW.step]
      split
      · exact MInv.run f hu ord _ h.mirror
      · exact h.mirror
  | swap c =>
    refine ⟨h.conts, step_open f hu ord _ _ h.model, ?_, MInv.step f hu ord h.mirror _⟩
    simp only [CW.step, MM.step, MM.setContainer_source]
  | begin => exact ⟨h.conts, step_open f hu ord _ _ h.model, h.source, MInv.step f hu ord h.mirror _⟩
  | «end» => exact ⟨h.conts, step_open f hu ord _ _ h.model, h.source, MInv.step f hu ord h.mirror _⟩
  | select k o => exact ⟨h.conts, step_open f hu ord _ _ h.model, h.source, MInv.step f hu ord h.mirror _⟩

theorem CW.Inv.run {w : CW α β} (h : w.Inv f hu) (ops : List (COp α)) : (w.run g f hu ord ops).Inv f hu := by
  induction ops generalizing w with
  | nil => exact h
  | cons o ops ih => exact ih (h.step g f hu ord o)

theorem CW.Inv.init (sels : List Sel) : (CW.init (α := α) (β := β) sels).Inv f hu :=
  ⟨fun _ => by simp [CW.init, MM.init, openOf], by simp [CW.init, MM.init, openOf], rfl, MInv.init f hu sels⟩

theorem CW.step_level (w : CW α β) (o : COp α) : (w.step g f hu ord o).model.level =
    w.model.level + (match o with
      | .at _ _ => (w.step g f hu ord o).block (w.step g f hu ord o).cur - w.block w.cur
      | .begin => 1
      | .end => -1
      | _ => 0) := by
  cases o with
  | «at» j o =>
    obtain ⟨es, h1, -⟩ := tells_step (g j) hu ord (w.conts j) o
    dsimp only [CW.step]
    rw [h1, List.drop_left]
    by_cases hc : w.cur = some j
    · rw [if_pos hc, hc, run_level]
      simp [CW.block, h1]
    · rw [if_neg hc]
      cases hw : w.cur with
      | none => simp [CW.block]
      | some k =>
        have : k ≠ j := fun e => hc (by rw [hw, e])
        simp [CW.block, this]
  | swap c => simp only [CW.step]; rw [ListModel.step_level]
  | begin => simp only [CW.step]; rw [ListModel.step_level]
  | «end» => simp only [CW.step]; rw [ListModel.step_level]
  | select k o => simp only [CW.step]; rw [ListModel.step_level]

theorem CW.run_level (ops : List (COp α)) (w : CW α β) : (w.run g f hu ord ops).model.level =
    w.model.level - w.block w.cur + owns ops + (w.run g f hu ord ops).block (w.run g f hu ord ops).cur + w.drift g f hu ord ops := by
  induction ops generalizing w with
  | nil => simp [CW.run, owns, CW.drift]
  | cons o ops ih =>
    have e : w.run g f hu ord (o :: ops) = (w.step g f hu ord o).run g f hu ord ops := rfl
    have hl := w.step_level g f hu ord o
    rw [e, ih]
    cases o with
    | «at» j o => simp only [owns, CW.drift]; simp only at hl; omega
    | swap c =>
      have : (w.step g f hu ord (.swap c)).block (w.step g f hu ord (.swap c)).cur = w.block c := rfl
      simp only [owns, CW.drift, this]; simp only at hl; omega
    | begin =>
      have : (w.step g f hu ord .begin).block (w.step g f hu ord .begin).cur = w.block w.cur := rfl
      simp only [owns, CW.drift, this]; simp only at hl; omega
    | «end» =>
      have : (w.step g f hu ord .end).block (w.step g f hu ord .end).cur = w.block w.cur := rfl
      simp only [owns, CW.drift, this]; simp only at hl; omega
    | select k o =>
      have : (w.step g f hu ord (.select k o)).block (w.step g f hu ord (.select k o)).cur = w.block w.cur := rfl
      simp only [owns, CW.drift, this]; simp only at hl; omega

theorem CW.drift_quiet (ops : List (COp α)) (w : CW α β) (h : w.Quiet g f hu ord ops) : w.drift g f hu ord ops = 0 := by
  induction ops generalizing w with
  | nil => rfl
  | cons o ops ih =>
    cases o with
    | swap c => simp only [CW.drift, h.1, h.2.1, ih _ h.2.2]; rfl
    | «at» j o => exact ih _ h
    | begin => exact ih _ h
    | «end» => exact ih _ h
    | select k o => exact ih _ h

/-- C123, the items: after any history, also with containers replaced in the middle of change blocks, the model's items are, one by
one, results of the map function for the items of its present container, and replaying the notifications gives them. -/
theorem C123_items (sels : List Sel) (ops : List (COp α)) :
    let w := (CW.init (β := β) sels).run g f hu ord ops
    List.Forall₂ (fun a b => ∃ n, b = f n a) ((w.cur.map fun j => (w.conts j).items).getD []) w.model.items ∧
    Replays [] (notesOf w.model.log) w.model.items := by
  have h := (CW.Inv.init f hu (α := α) sels).run g f hu ord ops
  refine ⟨?_, h.mirror.replay⟩
  rw [← h.source]
  exact List.Forall₂.imp (fun _ _ ⟨n, _, e⟩ => ⟨n, e⟩) h.mirror.mirror

/-- C123, exactly: after any history a begin event of the model is open, and then one, just if the blocks of its own, the block of the
present container and the blocks of which it saw only one end add up to more than zero. -/
theorem C123_exact_partial (sels : List Sel) (ops : List (COp α)) :
    let w := (CW.init (β := β) sels).run g f hu ord ops
    openOf w.model.log = if 0 < owns ops + w.block w.cur + (CW.init (β := β) sels).drift g f hu ord ops then 1 else 0 := by
  have h := (CW.Inv.init f hu (α := α) sels).run g f hu ord ops
  have e := (CW.init (α := α) (β := β) sels).run_level g f hu ord ops
  simp only
  rw [h.model, e, show (CW.init (α := α) (β := β) sels).model.level - (CW.init (α := α) (β := β) sels).block (CW.init (α := α) (β := β) sels).cur = 0
    from rfl, zero_add]

/-- C123 when containers are replaced only while no change block of either is open: a begin event of the model is open just while a
block of its own or of its present container is. (Missing: replacing a container in the middle of a block, for which it is false.) -/
theorem C123_quiet_partial (sels : List Sel) (ops : List (COp α)) (hq : (CW.init (β := β) sels).Quiet g f hu ord ops)
    (hb : 0 ≤ owns ops) :
    let w := (CW.init (β := β) sels).run g f hu ord ops
    (openOf w.model.log = 1 ↔ 0 < owns ops ∨ w.block w.cur = 1) ∧ (openOf w.model.log = 0 ∨ openOf w.model.log = 1) := by
  have h := (CW.Inv.init f hu (α := α) sels).run g f hu ord ops
  have e := C123_exact_partial g f hu ord (β := β) sels ops
  rw [CW.drift_quiet g f hu ord ops _ hq] at e
  simp only at e ⊢
  have hbl : ((CW.init (β := β) sels).run g f hu ord ops).block ((CW.init (β := β) sels).run g f hu ord ops).cur = 0 ∨
      ((CW.init (β := β) sels).run g f hu ord ops).block ((CW.init (β := β) sels).run g f hu ord ops).cur = 1 := by
    cases hc : ((CW.init (β := β) sels).run g f hu ord ops).cur with
    | none => exact .inl rfl
    | some j =>
      simp only [CW.block, h.conts j]
      split_ifs <;> simp
  rw [e]
  rcases hbl with hbl | hbl <;> rw [hbl] <;> split_ifs <;> simp <;> omega

theorem CW.drift_append (a b : List (COp α)) (w : CW α β) :
    w.drift g f hu ord (a ++ b) = w.drift g f hu ord a + (w.run g f hu ord a).drift g f hu ord b := by
  induction a generalizing w with
  | nil => simp [CW.drift, CW.run]
  | cons o a ih =>
    have e : w.run g f hu ord (o :: a) = (w.step g f hu ord o).run g f hu ord a := rfl
    rw [e]
    cases o <;> simp only [List.cons_append, CW.drift, ih]
    omega

theorem owns_append (a b : List (COp α)) : owns (a ++ b) = owns a + owns b := by
  induction a with
  | nil => simp [owns]
  | cons o a ih => cases o <;> simp only [List.cons_append, owns, ih] <;> omega

/-- C123, for good: once a block was seen by only one of its ends, with no block of its own open, nothing that happens to the containers
makes the model fire a change event, until a container is replaced or a block of its own is opened. -/
theorem C123_stuck_partial (sels : List Sel) (ops : List (COp α)) (h0 : owns ops = 0)
    (hd : (CW.init (β := β) sels).drift g f hu ord ops ≠ 0) (later : List (ℕ × MOp α)) :
    openOf ((CW.init (β := β) sels).run g f hu ord (ops ++ later.map fun p => .at p.1 p.2)).model.log =
      openOf ((CW.init (β := β) sels).run g f hu ord ops).model.log := by
  have hbl : ∀ os : List (COp α), ((CW.init (β := β) sels).run g f hu ord os).block ((CW.init (β := β) sels).run g f hu ord os).cur = 0 ∨
      ((CW.init (β := β) sels).run g f hu ord os).block ((CW.init (β := β) sels).run g f hu ord os).cur = 1 := by
    intro os
    have h := (CW.Inv.init f hu (α := α) sels).run g f hu ord os
    cases hc : ((CW.init (β := β) sels).run g f hu ord os).cur with
    | none => exact .inl rfl
    | some j =>
      simp only [CW.block, h.conts j]
      split_ifs <;> simp
  have dl : ∀ (l : List (ℕ × MOp α)) (w : CW α β), w.drift g f hu ord (l.map fun p => .at p.1 p.2) = 0 := by
    intro l
    induction l with
    | nil => intro w; rfl
    | cons p l ih => intro w; exact ih _
  have ol : ∀ l : List (ℕ × MOp α), owns (l.map fun p => COp.at p.1 p.2) = 0 := by
    intro l
    induction l with
    | nil => rfl
    | cons p l ih => exact ih
  have e1 := C123_exact_partial g f hu ord (β := β) sels ops
  have e2 := C123_exact_partial g f hu ord (β := β) sels (ops ++ later.map fun p => .at p.1 p.2)
  simp only at e1 e2
  rw [CW.drift_append, dl, owns_append, ol] at e2
  rw [e1, e2, h0]
  rcases hbl ops with b1 | b1 <;> rcases hbl (ops ++ later.map fun p => .at p.1 p.2) with b2 | b2 <;> rw [b1, b2] <;>
    split_ifs <;> omega

end

/-- C123 is false: the container is set while it is in a change block; after that block the model fires no events for the blocks of
its container. And the other way round: it is taken away during a block; the model's begin event stays open, and its own
blocks fire nothing. -/
theorem C123_counterexample :
    (∃ ops : List (COp ℕ), let w := (CW.init (β := ℕ) []).run (fun _ _ a => a) (fun _ a => a) true ascending ops
      owns ops = 0 ∧ w.cur = some 0 ∧ w.block (some 0) = 1 ∧ openOf w.model.log = 0) ∧
    (∃ ops : List (COp ℕ), let w := (CW.init (β := ℕ) []).run (fun _ _ a => a) (fun _ a => a) true ascending ops
      owns ops = 0 ∧ w.cur = none ∧ openOf w.model.log = 1) :=
  ⟨⟨[.at 0 .beginChange, .swap (some 0), .at 0 .endChange, .at 0 .beginChange], by decide⟩,
   ⟨[.swap (some 0), .at 0 .beginChange, .swap none, .begin, .end], by decide⟩⟩

/-- containers replaced between blocks, items inserted during blocks, blocks of both kinds nested -/
example :
    let ops : List (COp ℕ) := [.at 0 (.setContainer (some [5, 6])), .swap (some 0), .at 0 .beginChange, .at 0 (.srcInsert 7 1), .begin,
      .at 0 .endChange, .end, .swap (some 1), .at 1 (.setContainer (some [9])), .at 0 (.srcRemove 0), .at 1 .beginChange]
    let w := (CW.init (β := ℕ) []).run (fun _ _ a => a) (fun _ a => 10 * a) true ascending ops
    w.model.items = [90] ∧ (w.conts 0).items = [7, 6] ∧ openOf w.model.log = 1 ∧
      (CW.init (β := ℕ) []).Quiet (fun _ _ a => a) (fun _ a => 10 * a) true ascending ops := by
  refine ⟨by decide, by decide, by decide, ?_⟩
  simp only [CW.Quiet, and_true]
  decide

end Verif.ListModel
