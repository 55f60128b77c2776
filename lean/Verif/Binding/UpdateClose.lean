import Mathlib.Logic.Function.Basic
import Mathlib.Data.Nat.Notation

/-!
C204: `update_source` of a `PropertyAttributeBinding` or `TuplePropertyBinding` that another thread closes (`nion/utils/Binding.py:98-111`,
292-298, 348-354, 55-65). Their setters read `self.source` twice: to get the value of the property, and to assign it when the attribute of
the object has been set or the tuple with the new element has been made. Lines 297 and 295 (an object is changed, or a function makes another
one) and 350-353 (a tuple is made) are a function `prep` here; it may change objects, and it may raise.

One step is one access to a variable that threads share. `close` has six: the listener is closed, then `__source`, `source_getter`,
`source_setter`, `target_setter` are set to `None` and `_closed` to `True` (lines 60-64). `close` is called once. `get_target_value` and
changes of the source are as in `CloseThreads`, without the assertion.
-/

namespace Verif.Binding.UpdateClose

set_option linter.unusedSectionVars false

variable {T W P H : Type} [DecidableEq T]

/-- How a call ends: nothing was done, the setter or the source was `None`, `prep` raised, `prep` made the second value from the first but the
source was `None` then, or the second value was assigned. Only the first and the last do not raise. -/
inductive Out (P : Type) where
  | nothing
  | gone
  | refused
  | half (p p' : P)
  | set (p p' : P)
  deriving DecidableEq

/-- Where a thread is. -/
inductive Pc (W P : Type) where
  | idle
  /-- before the test of line 109 -/
  | test (w : W)
  /-- before the setter is read in line 111 -/
  | setter (w : W)
  /-- in the setter, before `self.source` is read in lines 293, 349 -/
  | source (w : W)
  /-- before the property is read -/
  | value (w : W)
  /-- before `prep` -/
  | change (w : W) (p : P)
  /-- before `self.source` is read in lines 298, 354 -/
  | again (w : W) (p p' : P)
  /-- before the property is assigned -/
  | put (w : W) (p p' : P)

/-- A call that has ended: thread, value of the target, how many steps `close` had done when it began and when it ended, the property and the
objects at the beginning and after each change, how it ended. -/
structure Ended (T W P H : Type) where
  thread : T
  val : W
  before : ℕ
  after : ℕ
  seen : List (P × H)
  out : Out P

/-- What happened: a call ended, others assigned the property, others changed objects, or `prep` of a thread did. -/
inductive Entry (T W P H : Type) where
  | ended (e : Ended T W P H)
  | assigned (p : P)
  | mutated (h : H)
  | changed (t : T) (h : H)

/-- The property, the objects, how many steps `close` has done, where the threads are, how many steps `close` had done when their calls began,
what they could see since then; what happened, in order. -/
structure St (T W P H : Type) where
  prop : P
  heap : H
  closing : ℕ
  pc : T → Pc W P
  began : T → ℕ
  seen : T → List (P × H)
  log : List (Entry T W P H)

inductive Act (T W P H : Type) where
  /-- a thread that is idle calls `update_source` -/
  | call (t : T) (w : W)
  | step (t : T)
  /-- `close` does its next step -/
  | close
  /-- the property is assigned by others -/
  | assign (p : P)
  /-- objects are changed by others -/
  | mutate (h : H)

def St.goto (s : St T W P H) (t : T) (p : Pc W P) : St T W P H := { s with pc := Function.update s.pc t p }

def St.finish (s : St T W P H) (t : T) (w : W) (o : Out P) : St T W P H :=
  { s.goto t .idle with log := s.log ++ [.ended ⟨t, w, s.began t, s.closing, s.seen t, o⟩] }

def St.put (s : St T W P H) (p : P) (h : H) : St T W P H := { s with prop := p, heap := h, seen := fun t => s.seen t ++ [(p, h)] }

/-- One step of a thread. -/
def St.next (prep : W → P → H → Option (P × H)) (s : St T W P H) (t : T) : St T W P H :=
  match s.pc t with
  | .idle => s
  | .test w => if s.closing < 4 then s.goto t (.setter w) else s.finish t w .nothing
  | .setter w => if s.closing < 4 then s.goto t (.source w) else s.finish t w .gone
  | .source w => if s.closing < 2 then s.goto t (.value w) else s.finish t w .gone
  | .value w => s.goto t (.change w s.prop)
  | .change w p =>
    match prep w p s.heap with
    | none => s.finish t w .refused
    | some (p', h) => { (s.put s.prop h).goto t (.again w p p') with log := s.log ++ [.changed t h] }
  | .again w p p' => if s.closing < 2 then s.goto t (.put w p p') else s.finish t w (.half p p')
  | .put w p p' => (s.put p' s.heap).finish t w (.set p p')

def St.act (prep : W → P → H → Option (P × H)) (s : St T W P H) : Act T W P H → St T W P H
  | .call t w =>
    match s.pc t with
    | .idle =>
      { s.goto t (.test w) with
        began := Function.update s.began t s.closing
        seen := Function.update s.seen t [(s.prop, s.heap)] }
    | _ => s
  | .step t => s.next prep t
  | .close => if s.closing < 6 then { s with closing := s.closing + 1 } else s
  | .assign p => { s.put p s.heap with log := s.log ++ [.assigned p] }
  | .mutate h => { s.put s.prop h with log := s.log ++ [.mutated h] }

def St.run (prep : W → P → H → Option (P × H)) (s : St T W P H) (as : List (Act T W P H)) : St T W P H := as.foldl (St.act prep) s

def St.init (p : P) (h : H) : St T W P H := ⟨p, h, 0, fun _ => .idle, fun _ => 0, fun _ => [], []⟩

/-! ### Specification -/

/-- During the call, `prep` took a value that the property had and the objects as they were, and made another value and changed the objects. -/
def Did (prep : W → P → H → Option (P × H)) (w : W) (p p' : P) (seen : List (P × H)) : Prop :=
  ∃ s1 y z s2, seen = s1 ++ y :: z :: s2 ∧ (∃ x ∈ s1 ++ [y], x.1 = p) ∧ prep w p y.2 = some (p', z.2) ∧ z.1 = y.1

/-- What a call may do: nothing if `close` has begun; raise if `close` has begun and had not ended before; raise if `prep` does; otherwise
assign what `prep` made of a value of the property. -/
def Proper (prep : W → P → H → Option (P × H)) (e : Ended T W P H) : Prop :=
  match e.out with
  | .nothing => 4 ≤ e.after
  | .gone => e.before < 4 ∧ 2 ≤ e.after
  | .refused => ∃ x ∈ e.seen, ∃ y ∈ e.seen, prep e.val x.1 y.2 = none
  | .half p p' => e.before < 2 ∧ 2 ≤ e.after ∧ Did prep e.val p p' e.seen
  | .set p p' => e.before < 2 ∧ Did prep e.val p p' e.seen ∧ ∃ l h, e.seen = l ++ [(p', h)]

/-- What was assigned to the property last. -/
def lastAssigned (p : P) : List (Entry T W P H) → P
  | [] => p
  | .ended e :: l =>
    match e.out with
    | .set _ p' => lastAssigned p' l
    | _ => lastAssigned p l
  | .assigned p' :: l => lastAssigned p' l
  | .mutated _ :: l => lastAssigned p l
  | .changed _ _ :: l => lastAssigned p l

/-- What others made of the objects last. -/
def lastMutated (h : H) : List (Entry T W P H) → H
  | [] => h
  | .mutated h' :: l => lastMutated h' l
  | _ :: l => lastMutated h l

/-- What the objects are after what happened. -/
def lastHeap (h : H) : List (Entry T W P H) → H
  | [] => h
  | .mutated h' :: l => lastHeap h' l
  | .changed _ h' :: l => lastHeap h' l
  | _ :: l => lastHeap h l

/-- How often `prep` of thread `t` has changed objects. -/
def changes (t : T) : List (Entry T W P H) → ℕ
  | [] => 0
  | .changed u _ :: l => changes t l + if u = t then 1 else 0
  | _ :: l => changes t l

/-- How many of its calls assigned the property, or found then that the source was gone. -/
def done (t : T) : List (Entry T W P H) → ℕ
  | [] => 0
  | .ended e :: l =>
    match e.out with
    | .set _ _ => done t l + if e.thread = t then 1 else 0
    | .half _ _ => done t l + if e.thread = t then 1 else 0
    | _ => done t l
  | _ :: l => done t l

/-- The thread has changed objects and has not ended its call. -/
def Pc.between : Pc W P → ℕ
  | .again _ _ _ => 1
  | .put _ _ _ => 1
  | _ => 0

/-! ### Proof -/

theorem lastAssigned_append (p : P) (l m : List (Entry T W P H)) : lastAssigned p (l ++ m) = lastAssigned (lastAssigned p l) m := by
  induction l generalizing p with
  | nil => rfl
  | cons e l ih =>
    cases e with
    | ended e =>
      simp only [List.cons_append, lastAssigned]
      cases e.out <;> exact ih _
    | assigned q => exact ih _
    | mutated h => exact ih _
    | changed u h => exact ih _

theorem lastMutated_append (h : H) (l m : List (Entry T W P H)) : lastMutated h (l ++ m) = lastMutated (lastMutated h l) m := by
  induction l generalizing h with
  | nil => rfl
  | cons e l ih => cases e <;> exact ih _

theorem lastHeap_append (h : H) (l m : List (Entry T W P H)) : lastHeap h (l ++ m) = lastHeap (lastHeap h l) m := by
  induction l generalizing h with
  | nil => rfl
  | cons e l ih => cases e <;> exact ih _

theorem changes_append (t : T) (l m : List (Entry T W P H)) : changes t (l ++ m) = changes t l + changes t m := by
  induction l with
  | nil => simp [changes]
  | cons e l ih => cases e <;> simp only [List.cons_append, changes, ih] <;> omega

theorem done_append (t : T) (l m : List (Entry T W P H)) : done t (l ++ m) = done t l + done t m := by
  induction l with
  | nil => simp [done]
  | cons e l ih =>
    cases e with
    | ended e => simp only [List.cons_append, done, ih]; cases e.out <;> simp only <;> omega
    | _ => simp only [List.cons_append, done, ih]

theorem Did.mono {prep : W → P → H → Option (P × H)} {w : W} {p p' : P} {l : List (P × H)} (h : Did prep w p p' l) (x : P × H) :
    Did prep w p p' (l ++ [x]) := by
  obtain ⟨s1, y, z, s2, h1, h2⟩ := h
  exact ⟨s1, y, z, s2 ++ [x], by simp [h1], h2⟩

/-- What is known of a thread. -/
def Fine (prep : W → P → H → Option (P × H)) (seen : List (P × H)) (began : ℕ) : Pc W P → Prop
  | .idle => True
  | .test _ => True
  | .setter _ => began < 4
  | .source _ => began < 4
  | .value _ => began < 2
  | .change _ p => began < 2 ∧ ∃ x ∈ seen, x.1 = p
  | .again w p p' => began < 2 ∧ Did prep w p p' seen
  | .put w p p' => began < 2 ∧ Did prep w p p' seen

theorem Fine.mono {prep : W → P → H → Option (P × H)} {l : List (P × H)} {n : ℕ} {c : Pc W P} (h : Fine prep l n c) (x : P × H) :
    Fine prep (l ++ [x]) n c := by
  cases c with
  | idle => trivial
  | test => trivial
  | setter => exact h
  | source => exact h
  | value => exact h
  | change w p => obtain ⟨h1, y, hy, h2⟩ := h; exact ⟨h1, y, List.mem_append_left _ hy, h2⟩
  | again w p p' => exact ⟨h.1, h.2.mono x⟩
  | put w p p' => exact ⟨h.1, h.2.mono x⟩

structure Inv (prep : W → P → H → Option (P × H)) (p : P) (s : St T W P H) : Prop where
  proper : ∀ e, .ended e ∈ s.log → Proper prep e
  last : s.prop = lastAssigned p s.log
  began : ∀ t, s.began t ≤ s.closing
  fine : ∀ t, Fine prep (s.seen t) (s.began t) (s.pc t)
  seen : ∀ t, (∃ l, s.seen t = l ++ [(s.prop, s.heap)]) ∨ ∃ c, s.pc t = c ∧ c = .idle

theorem goto_inv {prep : W → P → H → Option (P × H)} {p : P} {s : St T W P H} (h : Inv prep p s) (t : T) (c : Pc W P)
    (hs : ∃ l, s.seen t = l ++ [(s.prop, s.heap)]) (hc : Fine prep (s.seen t) (s.began t) c) : Inv prep p (s.goto t c) := by
  refine ⟨h.proper, h.last, h.began, fun u => ?_, fun u => ?_⟩
  · by_cases hu : u = t
    · subst hu
      show Fine prep (s.seen u) (s.began u) (Function.update s.pc u c u)
      rw [Function.update_self]; exact hc
    · show Fine prep (s.seen u) (s.began u) (Function.update s.pc t c u)
      rw [Function.update_of_ne hu]; exact h.fine u
  · by_cases hu : u = t
    · subst hu; exact Or.inl hs
    · refine (h.seen u).imp id fun ⟨d, h1, h2⟩ => ⟨d, ?_, h2⟩
      show Function.update s.pc t c u = d
      rw [Function.update_of_ne hu]; exact h1

theorem finish_inv {prep : W → P → H → Option (P × H)} {p : P} {s : St T W P H} (h : Inv prep p s) (t : T) (w : W) (o : Out P)
    (ho : Proper prep (⟨t, w, s.began t, s.closing, s.seen t, o⟩ : Ended T W P H)) (hn : ∀ q q', o ≠ .set q q') :
    Inv prep p (s.finish t w o) := by
  refine ⟨fun e he => ?_, ?_, h.began, fun u => ?_, fun u => ?_⟩
  · rcases List.mem_append.mp he with he | he
    · exact h.proper e he
    · simp only [List.mem_singleton, Entry.ended.injEq] at he; subst he; exact ho
  · show s.prop = lastAssigned p (s.log ++ _)
    rw [lastAssigned_append, ← h.last]
    cases o with
    | set q q' => exact absurd rfl (hn q q')
    | _ => rfl
  · by_cases hu : u = t
    · subst hu
      show Fine prep (s.seen u) (s.began u) (Function.update s.pc u .idle u)
      rw [Function.update_self]; trivial
    · show Fine prep (s.seen u) (s.began u) (Function.update s.pc t .idle u)
      rw [Function.update_of_ne hu]; exact h.fine u
  · by_cases hu : u = t
    · subst hu
      right
      refine ⟨.idle, ?_, rfl⟩
      show Function.update s.pc u .idle u = _
      rw [Function.update_self]
    · refine (h.seen u).imp id fun ⟨d, h1, h2⟩ => ⟨d, ?_, h2⟩
      show Function.update s.pc t .idle u = d
      rw [Function.update_of_ne hu]; exact h1

theorem act_inv (prep : W → P → H → Option (P × H)) (p : P) (s : St T W P H) (a : Act T W P H) (h : Inv prep p s) :
    Inv prep p (s.act prep a) := by
  cases a with
  | close =>
    simp only [St.act]
    split
    · exact ⟨h.proper, h.last, fun t => Nat.le_succ_of_le (h.began t), h.fine, h.seen⟩
    · exact h
  | assign q =>
    refine ⟨fun e he => ?_, ?_, h.began, fun t => (h.fine t).mono _, fun t => Or.inl ⟨s.seen t, rfl⟩⟩
    · rcases List.mem_append.mp he with he | he
      · exact h.proper e he
      · simp at he
    · show q = lastAssigned p (s.log ++ [.assigned q])
      rw [lastAssigned_append]; rfl
  | mutate g =>
    refine ⟨fun e he => ?_, ?_, h.began, fun t => (h.fine t).mono _, fun t => Or.inl ⟨s.seen t, rfl⟩⟩
    · rcases List.mem_append.mp he with he | he
      · exact h.proper e he
      · simp at he
    · show s.prop = lastAssigned p (s.log ++ [.mutated g])
      rw [lastAssigned_append]; exact h.last
  | call t w =>
    simp only [St.act]
    split
    · refine ⟨h.proper, h.last, fun u => ?_, fun u => ?_, fun u => ?_⟩
      · by_cases hu : u = t
        · subst hu
          show Function.update s.began u s.closing u ≤ s.closing
          rw [Function.update_self]; exact Nat.le_refl _
        · show Function.update s.began t s.closing u ≤ s.closing
          rw [Function.update_of_ne hu]; exact h.began u
      · by_cases hu : u = t
        · subst hu
          show Fine prep _ _ (Function.update s.pc u (.test w) u)
          rw [Function.update_self]; trivial
        · show Fine prep (Function.update s.seen t [(s.prop, s.heap)] u) (Function.update s.began t s.closing u)
            (Function.update s.pc t (.test w) u)
          rw [Function.update_of_ne hu, Function.update_of_ne hu, Function.update_of_ne hu]; exact h.fine u
      · by_cases hu : u = t
        · subst hu
          left
          refine ⟨[], ?_⟩
          show Function.update s.seen u [(s.prop, s.heap)] u = _
          rw [Function.update_self]; rfl
        · show (∃ l, Function.update s.seen t [(s.prop, s.heap)] u = l ++ [(s.prop, s.heap)]) ∨
            ∃ c, Function.update s.pc t (.test w) u = c ∧ c = .idle
          rw [Function.update_of_ne hu, Function.update_of_ne hu]; exact h.seen u
    · exact h
  | step t =>
    simp only [St.act, St.next]
    have hf := h.fine t
    have hb := h.began t
    have hs : s.pc t ≠ .idle → ∃ l, s.seen t = l ++ [(s.prop, s.heap)] := fun hi =>
      (h.seen t).elim id fun ⟨c, h1, h2⟩ => absurd (h1.trans h2) hi
    cases hp : s.pc t with
    | idle => exact h
    | test w =>
      have hs := hs (by simp [hp])
      dsimp only
      split
      · exact goto_inv h t _ hs (by show _ < 4; omega)
      · exact finish_inv h t w _ (by show 4 ≤ s.closing; omega) (by simp)
    | setter w =>
      have hs := hs (by simp [hp])
      rw [hp] at hf
      dsimp only
      split
      · exact goto_inv h t _ hs hf
      · exact finish_inv h t w _ ⟨hf, by show 2 ≤ s.closing; omega⟩ (by simp)
    | source w =>
      have hs := hs (by simp [hp])
      rw [hp] at hf
      dsimp only
      split
      · exact goto_inv h t _ hs (by show _ < 2; omega)
      · exact finish_inv h t w _ ⟨hf, by show 2 ≤ s.closing; omega⟩ (by simp)
    | value w =>
      have hs := hs (by simp [hp])
      rw [hp] at hf
      dsimp only
      refine goto_inv h t _ hs ⟨hf, (s.prop, s.heap), ?_, rfl⟩
      obtain ⟨l, hl⟩ := hs
      rw [hl]; simp
    | change w q =>
      have hs := hs (by simp [hp])
      rw [hp] at hf
      obtain ⟨hf1, x, hx, hxq⟩ := hf
      obtain ⟨l, hl⟩ := hs
      dsimp only
      cases hr : prep w q s.heap with
      | none =>
        refine finish_inv h t w _ ⟨x, hx, (s.prop, s.heap), ?_, ?_⟩ (by simp)
        · show _ ∈ s.seen t
          rw [hl]; simp
        · rw [hxq]; exact hr
      | some r =>
        obtain ⟨q', g⟩ := r
        dsimp only
        have hi : Inv prep p { s.put s.prop g with log := s.log ++ [.changed t g] } := by
          refine ⟨fun e he => ?_, ?_, h.began, fun u => (h.fine u).mono _, fun u => Or.inl ⟨s.seen u, rfl⟩⟩
          · rcases List.mem_append.mp he with he | he
            · exact h.proper e he
            · simp at he
          · show s.prop = lastAssigned p (s.log ++ [.changed t g])
            rw [lastAssigned_append]; exact h.last
        refine goto_inv hi t _ ⟨s.seen t, rfl⟩ ⟨hf1, l, (s.prop, s.heap), (s.prop, g), [], ?_, ⟨x, ?_, hxq⟩, hr, rfl⟩
        · show s.seen t ++ [_] = _
          rw [hl]; simp
        · rw [← hl]; exact hx
    | again w q q' =>
      have hs := hs (by simp [hp])
      rw [hp] at hf
      dsimp only
      split
      · exact goto_inv h t _ hs hf
      · exact finish_inv h t w _ ⟨hf.1, by show 2 ≤ s.closing; omega, hf.2⟩ (by simp)
    | put w q q' =>
      rw [hp] at hf
      dsimp only
      refine ⟨fun e he => ?_, ?_, h.began, fun u => ?_, fun u => Or.inl ⟨s.seen u, rfl⟩⟩
      · rcases List.mem_append.mp he with he | he
        · exact h.proper e he
        · simp only [List.mem_singleton, Entry.ended.injEq] at he
          subst he
          exact ⟨hf.1, hf.2.mono _, s.seen t, s.heap, rfl⟩
      · show q' = lastAssigned p (s.log ++ _)
        rw [lastAssigned_append]; rfl
      · by_cases hu : u = t
        · subst hu
          show Fine prep _ _ (Function.update s.pc u .idle u)
          rw [Function.update_self]; trivial
        · show Fine prep (s.seen u ++ _) (s.began u) (Function.update s.pc t .idle u)
          rw [Function.update_of_ne hu]; exact (h.fine u).mono _

theorem run_inv (prep : W → P → H → Option (P × H)) (p : P) (h : H) (as : List (Act T W P H)) :
    Inv prep p ((St.init p h : St T W P H).run prep as) := by
  suffices hh : ∀ s : St T W P H, Inv prep p s → Inv prep p (s.run prep as) from
    hh _ ⟨by simp [St.init], rfl, fun _ => Nat.le_refl _, fun _ => trivial, fun _ => Or.inr ⟨_, rfl, rfl⟩⟩
  induction as with
  | nil => exact fun s h => h
  | cons a as ih => exact fun s h => ih _ (act_inv prep p s a h)

/-- C204 (partial: calls raise if they overlap with `close`): every call that has ended did what it should, and the property is what was
assigned last. -/
theorem C204_calls_partial (prep : W → P → H → Option (P × H)) (p : P) (h : H) (as : List (Act T W P H)) :
    (∀ e, .ended e ∈ ((St.init p h : St T W P H).run prep as).log → Proper prep e) ∧
      ((St.init p h : St T W P H).run prep as).prop = lastAssigned p ((St.init p h : St T W P H).run prep as).log :=
  ⟨(run_inv prep p h as).proper, (run_inv prep p h as).last⟩

/-- C204, for tuples and for attributes with a function that makes another object: no call changes an object, so that a call that raises has
done nothing. -/
theorem C204_objects (prep : W → P → H → Option (P × H)) (hp : ∀ w p h p' h', prep w p h = some (p', h') → h' = h) (p : P) (h : H)
    (as : List (Act T W P H)) :
    ((St.init p h : St T W P H).run prep as).heap = lastMutated h ((St.init p h : St T W P H).run prep as).log := by
  suffices hh : ∀ s : St T W P H, s.heap = lastMutated h s.log → (s.run prep as).heap = lastMutated h (s.run prep as).log from hh _ rfl
  induction as with
  | nil => exact fun s h => h
  | cons a as ih =>
    intro s hs
    refine ih _ ?_
    have hfin : ∀ (s' : St T W P H) t w o, s'.heap = lastMutated h s'.log → (s'.finish t w o).heap = lastMutated h (s'.finish t w o).log := by
      intro s' t w o h1
      show s'.heap = lastMutated h (s'.log ++ _)
      rw [lastMutated_append]; exact h1
    cases a with
    | close => simp only [St.act]; split <;> exact hs
    | assign q =>
      show s.heap = lastMutated h (s.log ++ _)
      rw [lastMutated_append]; exact hs
    | mutate g =>
      show g = lastMutated h (s.log ++ [.mutated g])
      rw [lastMutated_append]; rfl
    | call t w => simp only [St.act]; split <;> exact hs
    | step t =>
      simp only [St.act, St.next]
      cases hc : s.pc t with
      | idle => exact hs
      | test w => dsimp only; split; exacts [hs, hfin _ _ _ _ hs]
      | setter w => dsimp only; split; exacts [hs, hfin _ _ _ _ hs]
      | source w => dsimp only; split; exacts [hs, hfin _ _ _ _ hs]
      | value w => exact hs
      | change w q =>
        dsimp only
        cases hr : prep w q s.heap with
        | none => exact hfin _ _ _ _ hs
        | some r =>
          obtain ⟨q', g⟩ := r
          show g = lastMutated h (s.log ++ [.changed t g])
          rw [lastMutated_append, hp _ _ _ _ _ hr]; exact hs
      | again w q q' => dsimp only; split; exacts [hs, hfin _ _ _ _ hs]
      | put w q q' => exact hfin (s.put q' s.heap) _ _ _ hs

/-- C204: objects are changed by others and by `prep` only, by `prep` once in each call that assigns the property or finds that the source is
gone after `prep`, and in no other call. -/
theorem C204_changes (prep : W → P → H → Option (P × H)) (p : P) (h : H) (as : List (Act T W P H)) :
    let s := (St.init p h : St T W P H).run prep as
    s.heap = lastHeap h s.log ∧ ∀ t, changes t s.log = done t s.log + (s.pc t).between := by
  suffices hh : ∀ s : St T W P H, (s.heap = lastHeap h s.log ∧ ∀ t, changes t s.log = done t s.log + (s.pc t).between) →
      ((s.run prep as).heap = lastHeap h (s.run prep as).log ∧
        ∀ t, changes t (s.run prep as).log = done t (s.run prep as).log + ((s.run prep as).pc t).between) from
    hh _ ⟨rfl, fun _ => rfl⟩
  induction as with
  | nil => exact fun s h => h
  | cons a as ih =>
    rintro s ⟨h1, h2⟩
    refine ih _ ?_
    have hgo : ∀ t c, (s.pc t).between = c.between →
        ((s.goto t c).heap = lastHeap h (s.goto t c).log ∧
          ∀ u, changes u (s.goto t c).log = done u (s.goto t c).log + ((s.goto t c).pc u).between) := by
      intro t c hc
      refine ⟨h1, fun u => ?_⟩
      show changes u s.log = done u s.log + (Function.update s.pc t c u).between
      by_cases hu : u = t
      · subst hu; rw [Function.update_self, ← hc]; exact h2 u
      · rw [Function.update_of_ne hu]; exact h2 u
    have hfin : ∀ (s' : St T W P H) t w o, s'.heap = s.heap → s'.log = s.log → s'.pc = s.pc →
        (done t ([.ended ⟨t, w, s'.began t, s'.closing, s'.seen t, o⟩] : List (Entry T W P H)) = (s.pc t).between) →
        (∀ u, u ≠ t → done u ([.ended ⟨t, w, s'.began t, s'.closing, s'.seen t, o⟩] : List (Entry T W P H)) = 0) →
        ((s'.finish t w o).heap = lastHeap h (s'.finish t w o).log ∧
          ∀ u, changes u (s'.finish t w o).log = done u (s'.finish t w o).log + ((s'.finish t w o).pc u).between) := by
      intro s' t w o e1 e2 e3 ho hn
      refine ⟨?_, fun u => ?_⟩
      · show s'.heap = lastHeap h (s'.log ++ _)
        rw [lastHeap_append, e1, e2]; exact h1
      · show changes u (s'.log ++ _) = done u (s'.log ++ _) + (Function.update s'.pc t .idle u).between
        rw [changes_append, done_append, e2, e3]
        have h0 : changes u ([.ended ⟨t, w, s'.began t, s'.closing, s'.seen t, o⟩] : List (Entry T W P H)) = 0 := rfl
        rw [h0]
        by_cases hu : u = t
        · subst hu; rw [Function.update_self, ho, h2 u]; rfl
        · rw [Function.update_of_ne hu, hn u hu, h2 u]; rfl
    cases a with
    | close => simp only [St.act]; split <;> exact ⟨h1, h2⟩
    | assign q =>
      refine ⟨?_, fun u => ?_⟩
      · show s.heap = lastHeap h (s.log ++ _)
        rw [lastHeap_append]; exact h1
      · show changes u (s.log ++ _) = done u (s.log ++ _) + (s.pc u).between
        rw [changes_append, done_append]; exact h2 u
    | mutate g =>
      refine ⟨?_, fun u => ?_⟩
      · show g = lastHeap h (s.log ++ [.mutated g])
        rw [lastHeap_append]; rfl
      · show changes u (s.log ++ _) = done u (s.log ++ _) + (s.pc u).between
        rw [changes_append, done_append]; exact h2 u
    | call t w =>
      simp only [St.act]
      cases hc : s.pc t with
      | idle => exact hgo t _ (by rw [hc]; rfl)
      | _ => exact ⟨h1, h2⟩
    | step t =>
      simp only [St.act, St.next]
      cases hc : s.pc t with
      | idle => exact ⟨h1, h2⟩
      | test w =>
        dsimp only; split
        · exact hgo t _ (by rw [hc]; rfl)
        · exact hfin s t w _ rfl rfl rfl (by rw [hc]; rfl) fun _ _ => rfl
      | setter w =>
        dsimp only; split
        · exact hgo t _ (by rw [hc]; rfl)
        · exact hfin s t w _ rfl rfl rfl (by rw [hc]; rfl) fun _ _ => rfl
      | source w =>
        dsimp only; split
        · exact hgo t _ (by rw [hc]; rfl)
        · exact hfin s t w _ rfl rfl rfl (by rw [hc]; rfl) fun _ _ => rfl
      | value w => exact hgo t _ (by rw [hc]; rfl)
      | change w q =>
        dsimp only
        cases hr : prep w q s.heap with
        | none => exact hfin s t w _ rfl rfl rfl (by rw [hc]; rfl) fun _ _ => rfl
        | some r =>
          obtain ⟨q', g⟩ := r
          refine ⟨?_, fun u => ?_⟩
          · show g = lastHeap h (s.log ++ [.changed t g])
            rw [lastHeap_append]; rfl
          · show changes u (s.log ++ [.changed t g]) = done u (s.log ++ [.changed t g]) + (Function.update s.pc t (.again w q q') u).between
            rw [changes_append, done_append]
            by_cases hu : u = t
            · subst hu
              have := h2 u
              rw [hc] at this
              rw [Function.update_self, this]
              simp [changes, done, Pc.between]
            · rw [Function.update_of_ne hu, h2 u]
              simp [changes, done, Ne.symm hu]
      | again w q q' =>
        dsimp only; split
        · exact hgo t _ (by rw [hc]; rfl)
        · exact hfin s t w _ rfl rfl rfl (by rw [hc]; simp [done, Pc.between]) fun u hu => by simp [done, Ne.symm hu]
      | put w q q' =>
        exact hfin (s.put q' s.heap) t w _ rfl rfl rfl (by rw [hc]; simp [done, Pc.between]) fun u hu => by simp [done, Ne.symm hu]

/-! ### Cases -/

/-- Line 297: the attribute of the object is set. -/
def inPlace (w : ℕ) (p : Option ℕ) (h : List ℕ) : Option (Option ℕ × List ℕ) := p.map fun o => (some o, h.set o w)

/-- Lines 350-353 for the second element of a tuple; `None` in a tuple is 0. -/
def second (w : ℕ) (p : List ℕ) (h : Unit) : Option (List ℕ × Unit) := some ((p ++ List.replicate (2 - p.length) 0).set 1 w, h)

/-- The property holds object 1 of two. The calls with their ends, the property and the attributes of the objects. -/
def exRun (as : List (Act (Fin 2) ℕ (Option ℕ) (List ℕ))) : List (ℕ × ℕ × ℕ × Out (Option ℕ)) × Option ℕ × List ℕ :=
  let s := (St.init (some 1) [7, 8] : St (Fin 2) ℕ (Option ℕ) (List ℕ)).run inPlace as
  (s.log.filterMap fun | .ended e => some (e.val, e.before, e.after, e.out) | _ => none, s.prop, s.heap)

def exRun2 (as : List (Act (Fin 2) ℕ (List ℕ) Unit)) : List (ℕ × ℕ × ℕ × Out (List ℕ)) × List ℕ :=
  let s := (St.init [5] () : St (Fin 2) ℕ (List ℕ) Unit).run second as
  (s.log.filterMap fun | .ended e => some (e.val, e.before, e.after, e.out) | _ => none, s.prop)

/-- A call before `close`, one while the property is `None`, one after. -/
example : exRun ([.call 0 3] ++ List.replicate 7 (.step 0) ++ [.assign none, .call 1 4] ++ List.replicate 5 (.step 1) ++
    List.replicate 6 .close ++ [.call 0 5, .step 0]) =
    ([(3, 0, 0, .set (some 1) (some 1)), (4, 0, 0, .refused), (5, 6, 6, .nothing)], none, [7, 3]) := by decide +kernel

example : exRun2 ([.call 0 3] ++ List.replicate 7 (.step 0)) =
    ([(3, 0, 0, .set [5] [5, 3])], [5, 3]) := by decide +kernel

/-- C204 is false: the attribute is set, but the source is gone then: the call raises, the property is not assigned, so that nobody is told. -/
theorem C204_counterexample_half :
    exRun ([.call 0 3] ++ List.replicate 5 (.step 0) ++ [.close, .close, .step 0]) =
      ([(3, 0, 2, .half (some 1) (some 1))], some 1, [7, 3]) := by decide +kernel

/-- C204 is false: a call raises because the source is gone, or the setter. -/
theorem C204_counterexample_gone :
    exRun [.call 0 3, .step 0, .step 0, .close, .close, .step 0] = ([(3, 0, 2, .gone)], some 1, [7, 8]) ∧
      exRun [.call 0 3, .step 0, .close, .close, .close, .close, .step 0] = ([(3, 0, 4, .gone)], some 1, [7, 8]) ∧
      exRun2 ([.call 0 3] ++ List.replicate 5 (.step 0) ++ [.close, .close, .step 0]) =
        ([(3, 0, 2, .half [5] [5, 3])], [5]) :=
  ⟨by decide +kernel, by decide +kernel, by decide +kernel⟩

end Verif.Binding.UpdateClose
