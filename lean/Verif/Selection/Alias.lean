import Verif.Selection.Props
import Mathlib.Logic.Function.Basic

/-!
C146: `indexes` returns the set object that the selection itself uses (`nion/utils/Selection.py:64-65`). Some calls change this object in place,
others replace it by a new one. The model has a heap of sets; what the calls do to the contents is `step` of `Verif.Selection.Model`.
-/

namespace Verif.Selection

/-- What a call does to the set object. -/
inductive Mode where
  | keep | inPlace | fresh
  deriving DecidableEq

/-- Selection.py:79-83. -/
def clearMode (s : Sel) : Mode := if s.style = .single then .inPlace else .fresh

/-- Selection.py:140-146. -/
def setMode (s : Sel) : Mode := if s.style = .multiple ∨ s.style = .single ∨ s.style = .singleOrNone then .fresh else clearMode s

/-- Selection.py:95-105. -/
def addMode (s : Sel) : Mode :=
  if s.style = .single ∨ s.style = .singleOrNone then setMode s else if s.style = .multiple then .inPlace else clearMode s

/-- Selection.py:109-119. -/
def removeMode (s : Sel) : Mode :=
  if s.style = .multiple ∨ s.style = .singleOrNone then .inPlace else if s.style = .single then .keep else clearMode s

/-- Selection.py:77-207: whether the call works on the set object, replaces it or leaves it alone. -/
def mode (ord : SetOrder) (s : Sel) : Op → Mode
  | .clear => clearMode s
  | .set _ => setMode s
  | .add _ => addMode s
  | .remove _ => removeMode s
  | .addRange r => if r = [] then .keep else addMode s
  | .setMultiple is =>
    if s.style = .multiple then .fresh
    else if (s.style = .single ∨ s.style = .singleOrNone) ∧ is.card = 1 then setMode s else clearMode s
  | .toggle i => if i ∈ s.indexes then removeMode s else addMode s
  | .extend _ => if s.style = .multiple then .inPlace else if s.style = .single ∨ s.style = .singleOrNone then setMode s else clearMode s
  | .insertIndex k => if (insertIndex ord s k).sel.indexes ≠ s.indexes then .fresh else .keep
  | .removeIndex k => if (removeIndex ord s k).sel.indexes ≠ s.indexes then .fresh else .keep
  | .setAnchor _ => .keep

/-- A selection and all set objects, those of its clients too. -/
structure Heap where
  sets : ℕ → Finset ℤ
  next : ℕ
  ref : ℕ
  anchor : Option ℤ
  style : Style

/-- What the selection looks like from outside. -/
def Heap.sel (h : Heap) : Sel := ⟨h.sets h.ref, h.anchor, h.style⟩

/-- Reading `indexes` (Selection.py:63-65) gives the object. -/
def Heap.read (h : Heap) : ℕ := h.ref

def Heap.init (style : Style) : Heap := ⟨fun _ => ∅, 1, 0, .none, style⟩

def Heap.call (h : Heap) (ord : SetOrder) (op : Op) : Heap :=
  let s := (step ord h.sel op).sel
  match mode ord h.sel op with
  | .keep => { h with anchor := s.anchor }
  | .inPlace => { h with sets := Function.update h.sets h.ref s.indexes, anchor := s.anchor }
  | .fresh => { h with sets := Function.update h.sets h.next s.indexes, next := h.next + 1, ref := h.next, anchor := s.anchor }

inductive HAct where
  | call (ord : SetOrder) (op : Op)
  /-- `set_multiple` with the set object `r` -/
  | setMultiple (ord : SetOrder) (r : ℕ)
  /-- a client makes a set -/
  | make (is : Finset ℤ)
  /-- a client changes a set it has -/
  | mutate (r : ℕ) (is : Finset ℤ)

def Heap.act (h : Heap) : HAct → Heap
  | .call ord op => h.call ord op
  | .setMultiple ord r => h.call ord (.setMultiple (h.sets r))
  | .make is => { h with sets := Function.update h.sets h.next is, next := h.next + 1 }
  | .mutate r is => { h with sets := Function.update h.sets r is }

def Heap.run (h : Heap) (as : List HAct) : Heap := as.foldl Heap.act h

def Heap.calls (h : Heap) (ops : List (SetOrder × Op)) : Heap := ops.foldl (fun h c => h.call c.1 c.2) h

/-! ### Proofs -/

theorem addRange_nil (s : Sel) : (addRange s []).sel = s := rfl

/-- A call that leaves the object alone leaves its contents alone. -/
theorem keep_same (ord : SetOrder) (s : Sel) (op : Op) (h : mode ord s op = .keep) : (step ord s op).sel.indexes = s.indexes := by
  have hc : clearMode s ≠ .keep := by rw [clearMode]; split_ifs <;> simp
  have hs : setMode s ≠ .keep := by rw [setMode]; split_ifs <;> simp [hc]
  have ha : addMode s ≠ .keep := by rw [addMode]; split_ifs <;> simp [hc, hs]
  have hr : removeMode s = .keep → s.style = .single := by
    rw [removeMode]
    split_ifs with h1 h2
    · simp
    · simp [h2]
    · exact fun h => absurd h hc
  have hrem : ∀ i, s.style = .single → (remove ord s i).sel.indexes = s.indexes := by
    intro i h1
    rw [remove, if_neg (by simp [h1]), if_pos h1]
  cases op with
  | clear => exact absurd h hc
  | set i => exact absurd h hs
  | add i => exact absurd h ha
  | remove i => exact hrem i (hr h)
  | addRange r =>
    simp only [mode] at h
    split_ifs at h with h1
    · subst h1; rfl
    · exact absurd h ha
  | setMultiple is =>
    simp only [mode] at h
    split_ifs at h
    · exact absurd h hs
    · exact absurd h hc
  | toggle i =>
    simp only [mode] at h
    split_ifs at h with h1
    · simp only [step, toggle, if_pos h1]
      exact hrem i (hr h)
    · exact absurd h ha
  | extend i =>
    simp only [mode] at h
    split_ifs at h
    · exact absurd h hs
    · exact absurd h hc
  | insertIndex k =>
    simp only [mode] at h
    split_ifs at h with h1
    exact not_not.1 h1
  | removeIndex k =>
    simp only [mode] at h
    split_ifs at h with h1
    exact not_not.1 h1
  | setAnchor a => rfl

/-- C146: with the heap a call does to the selection what it does without. -/
theorem C146_refines (h : Heap) (ord : SetOrder) (op : Op) : (h.call ord op).sel = (step ord h.sel op).sel := by
  have hstyle : (step ord h.sel op).sel.style = h.style := step_style ord h.sel op
  have hext : ∀ a b : Sel, a.indexes = b.indexes → a.anchor = b.anchor → a.style = b.style → a = b := by
    rintro ⟨_, _, _⟩ ⟨_, _, _⟩ rfl rfl rfl; rfl
  rw [Heap.call]
  cases hm : mode ord h.sel op with
  | keep => exact hext _ _ (keep_same ord h.sel op hm).symm rfl hstyle.symm
  | inPlace => exact hext _ _ (by simp [Heap.sel]) rfl hstyle.symm
  | fresh => exact hext _ _ (by simp [Heap.sel]) rfl hstyle.symm

/-- The contents that a set read now has after the calls: it follows the selection until a call replaces the object. -/
def kept (s : Sel) : List (SetOrder × Op) → Finset ℤ
  | [] => s.indexes
  | (ord, op) :: ops => if mode ord s op = .fresh then s.indexes else kept (step ord s op).sel ops

theorem call_other (h : Heap) (ord : SetOrder) (op : Op) (r : ℕ) (hr : r < h.next) (hne : r ≠ h.ref) :
    (h.call ord op).sets r = h.sets r ∧ r < (h.call ord op).next ∧ r ≠ (h.call ord op).ref := by
  rw [Heap.call]
  cases mode ord h.sel op with
  | keep => exact ⟨rfl, hr, hne⟩
  | inPlace => exact ⟨Function.update_of_ne hne _ _, hr, hne⟩
  | fresh => exact ⟨Function.update_of_ne (by omega) _ _, by simp only; omega, by simp only; omega⟩

/-- C146: a set that the selection does not use (any more), such as the argument of `set_multiple` or a set read before a call that replaced
it, is never changed by the selection, and changing it does not change the selection. -/
theorem C146_others (h : Heap) (r : ℕ) (hr : r < h.next) (hne : r ≠ h.ref) (as : List HAct) :
    ((∀ is, HAct.mutate r is ∉ as) → (h.run as).sets r = h.sets r) ∧ (∀ is, ((h.run as).act (.mutate r is)).sel = (h.run as).sel) := by
  suffices H : ∀ (as : List HAct) (h : Heap), r < h.next → r ≠ h.ref →
      ((∀ is, HAct.mutate r is ∉ as) → (h.run as).sets r = h.sets r) ∧ r ≠ (h.run as).ref by
    refine ⟨(H as h hr hne).1, fun is => ?_⟩
    have := (H as h hr hne).2
    simp only [Heap.act, Heap.sel]
    rw [Function.update_of_ne this.symm]
  intro as
  induction as with
  | nil => exact fun h _ hne => ⟨fun _ => rfl, hne⟩
  | cons a as ih =>
    intro h hr hne
    have step : r < (h.act a).next ∧ r ≠ (h.act a).ref ∧ ((∀ is, a ≠ .mutate r is) → (h.act a).sets r = h.sets r) := by
      cases a with
      | call ord op => exact ⟨(call_other h ord op r hr hne).2.1, (call_other h ord op r hr hne).2.2, fun _ => (call_other h ord op r hr hne).1⟩
      | setMultiple ord q =>
        have := call_other h ord (.setMultiple (h.sets q)) r hr hne
        exact ⟨this.2.1, this.2.2, fun _ => this.1⟩
      | make is => exact ⟨by simp only [Heap.act]; omega, hne, fun _ => Function.update_of_ne (by omega) _ _⟩
      | mutate q is =>
        refine ⟨hr, hne, fun h' => ?_⟩
        have : r ≠ q := fun e => h' is (by rw [e])
        exact Function.update_of_ne this _ _
    obtain ⟨i1, i2⟩ := ih (h.act a) step.1 step.2.1
    refine ⟨fun hm => ?_, i2⟩
    have := i1 fun is hmem => hm is (List.mem_cons_of_mem _ hmem)
    exact this.trans (step.2.2 fun is e => hm is (by rw [e]; exact List.mem_cons_self))

/-- C146: exactly what a set read from `indexes` contains after any calls. -/
theorem C146_read (h : Heap) (hr : h.ref < h.next) (ops : List (SetOrder × Op)) : (h.calls ops).sets h.read = kept h.sel ops := by
  have frozen : ∀ (ops : List (SetOrder × Op)) (h : Heap) (r : ℕ), r < h.next → r ≠ h.ref → (h.calls ops).sets r = h.sets r := by
    intro ops
    induction ops with
    | nil => exact fun h r _ _ => rfl
    | cons c ops ih =>
      intro h r h1 h2
      obtain ⟨e1, e2, e3⟩ := call_other h c.1 c.2 r h1 h2
      exact (ih _ r e2 e3).trans e1
  suffices H : ∀ (ops : List (SetOrder × Op)) (h : Heap), h.ref < h.next → (h.calls ops).sets h.ref = kept h.sel ops from H ops h hr
  intro ops
  induction ops with
  | nil => exact fun h _ => rfl
  | cons c ops ih =>
    obtain ⟨ord, op⟩ := c
    intro h hr
    have hc : h.calls ((ord, op) :: ops) = (h.call ord op).calls ops := rfl
    rw [hc, kept]
    by_cases hm : mode ord h.sel op = .fresh
    · rw [if_pos hm]
      have e : h.call ord op = { h with
          sets := Function.update h.sets h.next (step ord h.sel op).sel.indexes
          next := h.next + 1
          ref := h.next
          anchor := (step ord h.sel op).sel.anchor } := by rw [Heap.call]; simp only [hm]
      rw [frozen ops (h.call ord op) h.ref (by rw [e]; simp only; omega) (by rw [e]; simp only; omega), e]
      exact Function.update_of_ne (by omega) _ _
    · rw [if_neg hm, ← C146_refines]
      have e : (h.call ord op).ref = h.ref ∧ (h.call ord op).next = h.next := by
        rw [Heap.call]
        cases hm' : mode ord h.sel op with
        | keep => exact ⟨rfl, rfl⟩
        | inPlace => exact ⟨rfl, rfl⟩
        | fresh => exact absurd hm' hm
      rw [← ih (h.call ord op) (by omega), e.1]

/-- Calls that never work on the object. -/
def Op.Replaces (style : Style) : Op → Prop
  | .set _ | .insertIndex _ | .removeIndex _ | .setAnchor _ => True
  | .clear => style ≠ .single
  | .setMultiple is => style = .single → is.card = 1
  | .add _ | .extend _ => style ≠ .multiple
  | .addRange r => r = [] ∨ style ≠ .multiple
  | .remove _ | .toggle _ => style = .single ∨ style = .none

/-- C146, partial: what is missing is the calls that work on the object, among them `add`, `remove`, `toggle`, `extend` in style multiple and
`clear` in style single. With the others a set read keeps the indexes that were selected when it was read. -/
theorem C146_snapshot_partial (h : Heap) (hr : h.ref < h.next) (ops : List (SetOrder × Op)) (hops : ∀ c ∈ ops, c.2.Replaces h.style) :
    (h.calls ops).sets h.read = h.sel.indexes := by
  rw [C146_read h hr]
  suffices H : ∀ (ops : List (SetOrder × Op)) (s : Sel), (∀ c ∈ ops, c.2.Replaces s.style) → kept s ops = s.indexes from H ops h.sel hops
  intro ops
  induction ops with
  | nil => exact fun s _ => rfl
  | cons c ops ih =>
    obtain ⟨ord, op⟩ := c
    intro s hs
    rw [kept]
    by_cases hm : mode ord s op = .fresh
    · rw [if_pos hm]
    · rw [if_neg hm]
      have h1 := hs (ord, op) List.mem_cons_self
      have hk : mode ord s op = .keep := by
        have : mode ord s op ≠ .inPlace := by
          have hc : s.style ≠ .single → clearMode s = .fresh := by intro h; rw [clearMode, if_neg h]
          have hset : setMode s = .fresh := by
            rw [setMode]
            split_ifs with h'
            · rfl
            · exact hc (fun e => h' (.inr (.inl e)))
          have hadd : s.style ≠ .multiple → addMode s = .fresh := by
            intro h
            rw [addMode]
            split_ifs with h'
            · exact hset
            · exact hc (fun e => h' (.inl e))
          have hrem : s.style = .single ∨ s.style = .none → removeMode s ≠ .inPlace := by
            intro h
            rw [removeMode]
            rcases h with h | h
            · simp [h]
            · simp [h, clearMode]
          cases op with
          | clear => simp only [mode]; rw [hc h1]; simp
          | set i => simp only [mode]; rw [hset]; simp
          | add i => simp only [mode]; rw [hadd h1]; simp
          | remove i => simp only [mode]; exact hrem h1
          | addRange r =>
            simp only [mode]
            rcases h1 with h1 | h1
            · rw [if_pos h1]; simp
            · rw [hadd h1]
              split_ifs <;> simp
          | setMultiple is =>
            simp only [mode]
            split_ifs with h2 h3
            · simp
            · rw [hset]; simp
            · have : s.style ≠ .single := fun e => h3 ⟨.inl e, h1 e⟩
              rw [hc this]; simp
          | toggle i =>
            simp only [mode]
            have : s.style ≠ .multiple := by rcases h1 with h1 | h1 <;> simp [h1]
            rw [hadd this]
            split_ifs
            · exact hrem h1
            · simp
          | extend i =>
            simp only [mode]
            rw [if_neg h1, hset]
            split_ifs with h2
            · simp
            · rw [hc (fun e => h2 (.inl e))]; simp
          | insertIndex k => simp only [mode]; split_ifs <;> simp
          | removeIndex k => simp only [mode]; split_ifs <;> simp
          | setAnchor a => simp [mode]
        cases h' : mode ord s op with
        | keep => rfl
        | inPlace => exact absurd h' this
        | fresh => exact absurd h' hm
      rw [ih _ (by rw [step_style]; exact fun c hc => hs c (List.mem_cons_of_mem _ hc))]
      exact keep_same ord s op hk

theorem call_init_set (st : Style) (ord : SetOrder) (i : ℤ) (h : st = .multiple ∨ st = .singleOrNone) :
    ((Heap.init st).calls [(ord, .set i)]).sel = ⟨{i}, some i, st⟩ := by
  show ((Heap.init st).call ord (.set i)).sel = _
  rw [C146_refines]
  rcases h with rfl | rfl <;> rfl

theorem init_valid (st : Style) (pre : List (SetOrder × Op)) : ((Heap.init st).calls pre).ref < ((Heap.init st).calls pre).next := by
  suffices H : ∀ (pre : List (SetOrder × Op)) (h : Heap), h.ref < h.next → (h.calls pre).ref < (h.calls pre).next from H pre _ (by decide : (0 : ℕ) < 1)
  intro pre
  induction pre with
  | nil => exact fun h hr => hr
  | cons c pre ih =>
    intro h hr
    refine ih (h.call c.1 c.2) ?_
    rw [Heap.call]
    cases mode c.1 h.sel c.2 with
    | keep => exact hr
    | inPlace => exact hr
    | fresh => exact Nat.lt_succ_self _

theorem calls_style (h : Heap) (pre : List (SetOrder × Op)) : (h.calls pre).style = h.style := by
  induction pre generalizing h with
  | nil => rfl
  | cons c pre ih =>
    refine (ih (h.call c.1 c.2)).trans ?_
    rw [Heap.call]
    cases mode c.1 h.sel c.2 <;> rfl

/-- C146, exactly which calls: those of `Replaces` and no others leave a set read before alone, whatever was called before. -/
theorem C146_snapshot_iff (st : Style) (ord : SetOrder) (op : Op) :
    (∀ pre : List (SetOrder × Op), (((Heap.init st).calls pre).call ord op).sets ((Heap.init st).calls pre).read = ((Heap.init st).calls pre).sel.indexes) ↔
      op.Replaces st := by
  have one : ∀ h : Heap, h.ref < h.next → mode ord h.sel op ≠ .fresh → (h.call ord op).sets h.read = (step ord h.sel op).sel.indexes := by
    intro h hr hm
    have := C146_read h hr [(ord, op)]
    rw [kept, if_neg hm] at this
    exact this
  constructor
  · intro H
    have bad : ∀ (pre : List (SetOrder × Op)) (s : Sel), ((Heap.init st).calls pre).sel = s → mode ord s op ≠ .fresh →
        (step ord s op).sel.indexes = s.indexes := by
      intro pre s hs hm
      have h1 := one _ (init_valid st pre) (by rw [hs]; exact hm)
      rw [H pre, hs] at h1
      exact h1.symm
    have b0 := bad [] (init st) rfl
    have b1 := fun (i : ℤ) (h : st = .multiple ∨ st = .singleOrNone) => bad [(ord, .set i)] _ (call_init_set st ord i h)
    cases op with
    | clear =>
      rintro rfl
      exact absurd (b0 (by simp [mode, clearMode, init])) (by show ¬ (clear (init .single)).sel.indexes = ∅; decide)
    | set i => trivial
    | add i =>
      rintro rfl
      have := b0 (by simp [mode, addMode, init])
      simp [step, add, init, finish] at this
    | remove i =>
      cases st with
      | multiple =>
        have := b1 i (.inl rfl) (by simp [mode, removeMode])
        simp [step, remove, finish] at this
      | singleOrNone =>
        have := b1 i (.inr rfl) (by simp [mode, removeMode])
        simp [step, remove, finish] at this
      | single => exact .inl rfl
      | none => exact .inr rfl
    | addRange r =>
      by_cases hr : r = []
      · exact .inl hr
      · refine .inr ?_
        rintro rfl
        have := b0 (by simp [mode, hr, addMode, init])
        obtain ⟨r', i, rfl⟩ := List.eq_nil_or_concat' r |>.resolve_left hr
        have hst : (addRange (init .multiple) r').sel.style = .multiple := step_style ord (init .multiple) (.addRange r')
        rw [step, (addRange_append _ _ _).1, add, if_neg (by simp [hst]), if_pos hst] at this
        simp only [finish] at this
        split_ifs at this <;> simp [init] at this
    | setMultiple is =>
      rintro rfl
      by_contra hc
      have := b0 (by simp [mode, hc, clearMode, init])
      simp [step, setMultiple, hc, clear, init, finish] at this
    | toggle i =>
      cases st with
      | multiple =>
        have := b0 (by simp [mode, addMode, init])
        simp [step, toggle, add, init, finish] at this
      | singleOrNone =>
        have := b1 i (.inr rfl) (by simp [mode, removeMode])
        simp [step, toggle, remove, finish] at this
      | single => exact .inl rfl
      | none => exact .inr rfl
    | extend i =>
      rintro rfl
      have := b0 (by simp [mode, init])
      simp [step, extend, init, finish] at this
    | insertIndex k => trivial
    | removeIndex k => trivial
    | setAnchor a => trivial
  · intro hop pre
    have := C146_snapshot_partial ((Heap.init st).calls pre) (init_valid st pre) [(ord, op)] (by
      rw [calls_style]
      simp only [List.mem_singleton, forall_eq]
      exact hop)
    exact this

/-- C146 does not hold: a set read from a selection of {1} contains 2 after `add(2)`, while after `set(2)` it is still {1}; and a client that
removes 1 from the set it read deselects 1, without event. -/
theorem C146_counterexample (ord : SetOrder) :
    let h := (Heap.init .multiple).call ord (.set 1)
    h.sel.indexes = {1} ∧ (h.call ord (.add 2)).sets h.read = {1, 2} ∧ (h.call ord (.set 2)).sets h.read = {1} ∧
    (h.act (.mutate h.read ∅)).sel.indexes = ∅ := by
  have e : ((Heap.init .multiple).call ord (.set 1)) = ⟨Function.update (fun _ => ∅) 1 {1}, 2, 1, some 1, .multiple⟩ := rfl
  simp only [e]
  refine ⟨by decide, ?_, ?_, by decide⟩
  · rw [show ∀ g : Heap, (g.call ord (.add 2)) = g.calls [(ord, .add 2)] from fun _ => rfl, C146_read _ (by decide)]
    show ({2, 1} : Finset ℤ) = {1, 2}
    decide
  · rw [show ∀ g : Heap, (g.call ord (.set 2)) = g.calls [(ord, .set 2)] from fun _ => rfl, C146_read _ (by decide)]
    rfl

example (ord : SetOrder) : kept ⟨{1}, some 1, .multiple⟩ [(ord, .add 2), (ord, .set 7), (ord, .add 9)] = {1, 2} := by
  show ({2, 1} : Finset ℤ) = {1, 2}
  decide

end Verif.Selection
