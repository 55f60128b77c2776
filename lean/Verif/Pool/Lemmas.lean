import Mathlib.Algebra.BigOperators.Group.Finset.Piecewise
import Mathlib.Algebra.Order.BigOperators.Group.Finset
import Mathlib.Data.List.Induction
import Verif.Pool.Model

/-!
Invariants of the thread pool machine.
-/

set_option linter.unusedSimpArgs false

namespace Verif.Pool

open Verif.Py

section
variable {Tid : Type*} [DecidableEq Tid] [Fintype Tid]

/-- The steps as a relation, one constructor per case of `step`, for case analysis in proofs. -/
inductive Step (s : State Tid) (tid : Tid) (c : Call Tid) : State Tid → Prop
  | refused (hc : s.closed = true) : Step s tid c (s.emit .refused)
  | queued (hc : s.closed = false) : Step s tid c { s with
      tasks := s.tasks ++ [s.next], live := Function.update s.live s.next true, queue := s.queue ++ [some s.next],
      unfinished := s.unfinished + 1, next := s.next + 1, log := s.log ++ [.queued s.next] }
  | close (hclose : c = .close) (hcall : s.stk tid = [] ∨ ∃ t st, s.stk tid = .running t :: st) :
      Step s tid c (({ s with closed := true }.setStack tid (.cancel s.tasks :: s.stk tid)).emit .closeCalled)
  | push (hcall : s.stk tid = [] ∨ ∃ t st, s.stk tid = .running t :: st) (f : Frame)
      (hf : (∃ k, f = .check k) ∨ ∃ n, f = .start n)
      (hc : ((c = .runOne ∨ c = .runAll) ∧ ∃ k, f = .check k) ∨ ∃ n, c = .start n ∧ f = .start n) :
      Step s tid c (s.setStack tid (f :: s.stk tid))
  | ret (t st) (h : s.stk tid = .running t :: st) : Step s tid c (s.setStack tid (.fin t :: st))
  | pop (f st) (h : s.stk tid = f :: st) (hf : (∃ k, f = .check k) ∨ f = .start 0)
      (hq : f = .start 0 ∨ s.queue = []) : Step s tid c (s.setStack tid st)
  | repl (f g st) (h : s.stk tid = f :: st)
      (hf : (∃ k, f = .check k ∧ g = .get k) ∨ (∃ k i, f = .got k i ∧ g = .done k i ∧ (i = none ∨ s.closed = true))) :
      Step s tid c (s.setStack tid (g :: st))
  | get (k st item q) (h : s.stk tid = .get k :: st) (hq : s.queue = item :: q) :
      Step s tid c ({ s with queue := q }.setStack tid (.got k item :: st))
  | gotExec (k t st) (h : s.stk tid = .got k (some t) :: st) (hc : s.closed = false) :
      Step s tid c (s.setStack tid (.exec t :: .done k (some t) :: st))
  | execRun (t st) (h : s.stk tid = .exec t :: st) (hl : LockFree s tid t) (hlive : s.live t = true) :
      Step s tid c ((s.setStack tid (.running t :: st)).emit (.started t))
  | execSkip (t st) (h : s.stk tid = .exec t :: st) (hlive : s.live t = false) : Step s tid c (s.setStack tid st)
  | finOk (t st) (h : s.stk tid = .fin t :: st) (ht : t ∈ s.tasks) :
      Step s tid c (({ s with live := Function.update s.live t false, tasks := s.tasks.erase t }.setStack tid st).emit
        (.finished t))
  | finErr (t st) (h : s.stk tid = .fin t :: st) (ht : t ∉ s.tasks) :
      Step s tid c ((({ s with live := Function.update s.live t false }.setStack tid (unwind st)).emit (.finished t)).emit
        (.raised .valueError))
  | doneErr (k item st) (h : s.stk tid = .done k item :: st) (hu : s.unfinished = 0) :
      Step s tid c ((s.setStack tid (unwind st)).emit (.raised .valueError))
  | done (k item st st') (h : s.stk tid = .done k item :: st)
      (hst : st' = st ∨ st' = .get .worker :: st ∨ st' = .check .all :: st) (hd : st' = afterDone k item st)
      (hu : s.unfinished ≠ 0) :
      Step s tid c ({ s with unfinished := s.unfinished - 1 }.setStack tid st')
  | cancelNil (st) (h : s.stk tid = .cancel [] :: st) : Step s tid c (s.setStack tid (.put 0 :: st))
  | cancelLive (t ts st) (h : s.stk tid = .cancel (t :: ts) :: st) (hl : LockFree s tid t) (hlive : s.live t = true)
      (ht : t ∈ s.tasks) :
      Step s tid c (({ s with live := Function.update s.live t false, tasks := s.tasks.erase t }.setStack tid
            (.cancel ts :: st)).emit (.cancelled t))
  | cancelErr (t ts st) (h : s.stk tid = .cancel (t :: ts) :: st) (hlive : s.live t = true) (ht : t ∉ s.tasks) :
      Step s tid c ((({ s with live := Function.update s.live t false }.setStack tid (unwind st)).emit (.cancelled t)).emit
        (.raised .valueError))
  | cancelDead (t ts st) (h : s.stk tid = .cancel (t :: ts) :: st) (hlive : s.live t = false) :
      Step s tid c (s.setStack tid (.cancel ts :: st))
  | put (i st) (h : s.stk tid = .put i :: st) (hi : i < s.nThreads) :
      Step s tid c ({ s with queue := s.queue ++ [none], unfinished := s.unfinished + 1 }.setStack tid (.put (i + 1) :: st))
  | putEnd (i st) (h : s.stk tid = .put i :: st) (hi : ¬ i < s.nThreads) : Step s tid c (s.setStack tid (.join :: st))
  | join (st) (h : s.stk tid = .join :: st) (hj : s.nThreads = 0 ∨ s.unfinished = 0) :
      Step s tid c ((s.setStack tid st).emit .closeReturned)
  | spawn (w n st) (h : s.stk tid = .start (n + 1) :: st) (hw : w ≠ tid) (hw' : s.stk w = []) :
      Step s tid c ((s.setStack w [.get .worker]).setStack tid (.append n :: st))
  | append (n st) (h : s.stk tid = .append n :: st) :
      Step s tid c ({ s with nThreads := s.nThreads + 1 }.setStack tid (.start n :: st))

theorem call_step {s s' : State Tid} {tid : Tid} {c : Call Tid} {st : List Frame} (hst : s.stk tid = st)
    (hcall : s.stk tid = [] ∨ ∃ t st, s.stk tid = .running t :: st) (h : call s tid st c = some s') : Step s tid c s' := by
  subst hst
  cases c with
  | queueFn =>
    simp only [call] at h
    split at h
    · cases h; exact .refused (by assumption)
    · cases h; exact .queued (by simpa using ‹¬ s.closed = true›)
  | close => cases h; exact .close rfl hcall
  | runOne => cases h; exact .push hcall _ (.inl ⟨_, rfl⟩) (.inl ⟨.inl rfl, _, rfl⟩)
  | runAll => cases h; exact .push hcall _ (.inl ⟨_, rfl⟩) (.inl ⟨.inr rfl, _, rfl⟩)
  | start n => cases h; exact .push hcall _ (.inr ⟨_, rfl⟩) (.inr ⟨_, rfl, rfl⟩)
  | spawn w => cases h
  | ret => cases h

theorem step_step {s s' : State Tid} {tid : Tid} {c : Call Tid} (h : step s tid c = some s') : Step s tid c s' := by
  unfold step at h
  split at h
  · rename_i hs; exact call_step hs (.inl hs) h
  · rename_i t st hs
    split at h
    · cases h; exact .ret _ _ hs
    · exact call_step hs (.inr ⟨_, _, hs⟩) h
  · rename_i k st hs
    split at h
    · cases h; exact .pop _ _ hs (.inl ⟨_, rfl⟩) (.inr (by assumption))
    · cases h; exact .repl _ _ _ hs (.inl ⟨_, rfl, rfl⟩)
  · rename_i k st hs
    split at h
    · cases h
    · cases h; exact .get _ _ _ _ hs (by assumption)
  · rename_i k st hs
    cases h; exact .repl _ _ _ hs (.inr ⟨_, _, rfl, rfl, .inl rfl⟩)
  · rename_i k t st hs
    split at h
    · cases h; exact .repl _ _ _ hs (.inr ⟨_, _, rfl, rfl, .inr (by assumption)⟩)
    · cases h; exact .gotExec _ _ _ hs (by simpa using ‹¬ s.closed = true›)
  · rename_i t st hs
    split at h
    · split at h
      · cases h; exact .execRun _ _ hs (by assumption) (by assumption)
      · cases h; exact .execSkip _ _ hs (by simpa using ‹¬ s.live t = true›)
    · cases h
  · rename_i t st hs
    split at h
    · cases h; exact .finOk _ _ hs (by assumption)
    · cases h; exact .finErr _ _ hs (by assumption)
  · rename_i k item st hs
    split at h
    · cases h; exact .doneErr _ _ _ hs (by assumption)
    · cases h
      refine .done _ _ _ _ hs ?_ rfl (by assumption)
      unfold afterDone
      split
      · exact .inr (.inl rfl)
      · exact .inr (.inr rfl)
      · exact .inl rfl
  · rename_i st hs; cases h; exact .cancelNil _ hs
  · rename_i t ts st hs
    split at h
    · split at h
      · split at h
        · cases h; exact .cancelLive _ _ _ hs (by assumption) (by assumption) (by assumption)
        · cases h; exact .cancelErr _ _ _ hs (by assumption) (by assumption)
      · cases h; exact .cancelDead _ _ _ hs (by simpa using ‹¬ s.live t = true›)
    · cases h
  · rename_i i st hs
    split at h
    · cases h; exact .put _ _ hs (by assumption)
    · cases h; exact .putEnd _ _ hs (by assumption)
  · rename_i st hs
    split at h
    · cases h; exact .join _ hs (by assumption)
    · cases h
  · rename_i st hs; cases h; exact .pop _ _ hs (.inr rfl) (.inl rfl)
  · rename_i n st hs
    split at h
    · split at h
      · rename_i hw; cases h; exact .spawn _ _ _ hs hw.1 hw.2
      · cases h
    · cases h
  · rename_i n st hs; cases h; exact .append _ _ hs

/-! ### Tokens: a task is in the queue, or taken by one consumer, or started -/

def tok (t : Nat) : Frame → Nat
  | .got _ (some t') => if t' = t then 1 else 0
  | .exec t' => if t' = t then 1 else 0
  | _ => 0

def tokS (t : Nat) (st : List Frame) : Nat := (st.map (tok t)).sum

@[simp] theorem tokS_nil (t : Nat) : tokS t [] = 0 := rfl
@[simp] theorem tokS_cons (t : Nat) (f : Frame) (st : List Frame) : tokS t (f :: st) = tok t f + tokS t st := by
  simp [tokS]

theorem tokS_unwind (t : Nat) (st : List Frame) : tokS t (unwind st) ≤ tokS t st := by
  induction st with
  | nil => simp [unwind]
  | cons f st ih => cases f <;> simp [unwind, tok] <;> omega

def total (s : State Tid) (t : Nat) : Nat :=
  s.queue.count (some t) + (∑ w, tokS t (s.stk w)) + s.log.count (.started t)

theorem sum_update (g : List Frame → Nat) (stk : Tid → List Frame) (tid : Tid) (st : List Frame) :
    (∑ w, g (Function.update stk tid st w)) + g (stk tid) = (∑ w, g (stk w)) + g st := by
  have h1 : (∑ w, g (Function.update stk tid st w)) = g st + ∑ w ∈ Finset.univ.erase tid, g (stk w) := by
    rw [← Finset.add_sum_erase _ _ (Finset.mem_univ tid)]
    simp only [Function.update_self]
    congr 1
    apply Finset.sum_congr rfl
    intro w hw
    rw [Function.update_of_ne (Finset.ne_of_mem_erase hw)]
  have h2 := Finset.add_sum_erase Finset.univ (fun w => g (stk w)) (Finset.mem_univ tid)
  omega

theorem total_step {s s' : State Tid} {tid : Tid} {c : Call Tid} (h : Step s tid c s') (t : Nat) :
    total s' t ≤ total s t + (if t = s.next ∧ s'.next = s.next + 1 then 1 else 0) := by
  have key := fun stk st => sum_update (tokS t) stk tid st
  cases h with
  | refused hc => simp [total, State.emit, List.count_append]
  | queued hc =>
    simp only [total, List.count_append, List.count_cons, List.count_nil]
    by_cases h : t = s.next
    · subst h; simp; omega
    · have : ¬ s.next = t := fun e => h e.symm
      simp [h, this]
  | close hclose hcall =>
    have := key s.stk (.cancel s.tasks :: s.stk tid)
    simp [total, State.setStack, State.emit, tok, List.count_append] at this ⊢; omega
  | push hcall f hf =>
    have := key s.stk (f :: s.stk tid)
    rcases hf with ⟨k, rfl⟩ | ⟨n, rfl⟩ <;> simp [total, State.setStack, tok] at this ⊢ <;> omega
  | ret t' st h =>
    have := key s.stk (.fin t' :: st)
    rw [h] at this
    simp [total, State.setStack, tok] at this ⊢; omega
  | pop f st h hf =>
    have := key s.stk st
    rw [h] at this
    rcases hf with ⟨k, rfl⟩ | rfl <;> simp [total, State.setStack, tok] at this ⊢ <;> omega
  | repl f g st h hf =>
    have := key s.stk (g :: st)
    rw [h] at this
    rcases hf with ⟨k, rfl, rfl⟩ | ⟨k, i, rfl, rfl, _⟩
    · simp [total, State.setStack, tok] at this ⊢; omega
    · simp only [total, State.setStack, tokS_cons, tok] at this ⊢; omega
  | get k st item q h hq =>
    have := key s.stk (.got k item :: st)
    rw [h] at this
    cases item with
    | none => simp [total, State.setStack, tok, hq] at this ⊢; omega
    | some t' =>
      simp only [total, State.setStack, tokS_cons, tok, hq, List.count_cons] at this ⊢
      by_cases e : t' = t
      · subst e; simp at this ⊢; omega
      · simp [e] at this ⊢; omega
  | gotExec k t' st h hc =>
    have := key s.stk (.exec t' :: .done k (some t') :: st)
    rw [h] at this
    simp [total, State.setStack, tok] at this ⊢; omega
  | execRun t' st h hl hlive =>
    have := key s.stk (.running t' :: st)
    rw [h] at this
    by_cases e : t' = t
    · subst e; simp [total, State.setStack, State.emit, tok] at this ⊢; omega
    · simp [total, State.setStack, State.emit, tok, e, List.count_append, List.count_cons] at this ⊢; omega
  | execSkip t' st h hlive =>
    have := key s.stk st
    rw [h] at this
    simp [total, State.setStack, tok] at this ⊢; omega
  | finOk t' st h ht =>
    have := key s.stk st
    rw [h] at this
    simp [total, State.setStack, State.emit, tok, List.count_append, List.count_cons] at this ⊢; omega
  | finErr t' st h ht =>
    have := key s.stk (unwind st)
    rw [h] at this
    have hu := tokS_unwind t st
    simp [total, State.setStack, State.emit, tok, List.count_append, List.count_cons] at this ⊢; omega
  | doneErr k item st h hz =>
    have := key s.stk (unwind st)
    rw [h] at this
    have hu := tokS_unwind t st
    simp [total, State.setStack, State.emit, tok, List.count_append, List.count_cons] at this ⊢; omega
  | done k item st st' h hst =>
    have := key s.stk st'
    rw [h] at this
    rcases hst with rfl | rfl | rfl <;> simp [total, State.setStack, tok] at this ⊢ <;> omega
  | cancelNil st h =>
    have := key s.stk (.put 0 :: st)
    rw [h] at this
    simp [total, State.setStack, tok] at this ⊢; omega
  | cancelLive t' ts st h hl hlive ht =>
    have := key s.stk (.cancel ts :: st)
    rw [h] at this
    simp [total, State.setStack, State.emit, tok, List.count_append, List.count_cons] at this ⊢; omega
  | cancelErr t' ts st h hlive ht =>
    have := key s.stk (unwind st)
    rw [h] at this
    have hu := tokS_unwind t st
    simp [total, State.setStack, State.emit, tok, List.count_append, List.count_cons] at this ⊢; omega
  | cancelDead t' ts st h hlive =>
    have := key s.stk (.cancel ts :: st)
    rw [h] at this
    simp [total, State.setStack, tok] at this ⊢; omega
  | put i st h =>
    have := key s.stk (.put (i + 1) :: st)
    rw [h] at this
    simp [total, State.setStack, tok] at this ⊢; omega
  | putEnd i st h =>
    have := key s.stk (.join :: st)
    rw [h] at this
    simp [total, State.setStack, tok] at this ⊢; omega
  | join st h =>
    have := key s.stk st
    rw [h] at this
    simp [total, State.setStack, State.emit, tok, List.count_append, List.count_cons] at this ⊢; omega
  | spawn w n st h hw hw' =>
    have h1 := sum_update (tokS t) s.stk w [.get .worker]
    have := key (Function.update s.stk w [.get .worker]) (.append n :: st)
    rw [Function.update_of_ne hw.symm, h] at this
    rw [hw'] at h1
    simp [total, State.setStack, tok] at this h1 ⊢; omega
  | append n st h =>
    have := key s.stk (.start n :: st)
    rw [h] at this
    simp [total, State.setStack, tok] at this ⊢; omega

/-! ### Holders of task locks -/

def hold (t : Nat) : Frame → Nat
  | .running t' => if t' = t then 1 else 0
  | .fin t' => if t' = t then 1 else 0
  | _ => 0

def holdS (t : Nat) (st : List Frame) : Nat := (st.map (hold t)).sum

@[simp] theorem holdS_nil (t : Nat) : holdS t [] = 0 := rfl
@[simp] theorem holdS_cons (t : Nat) (f : Frame) (st : List Frame) : holdS t (f :: st) = hold t f + holdS t st := by
  simp [holdS]

theorem holdS_unwind (t : Nat) (st : List Frame) : holdS t (unwind st) ≤ holdS t st := by
  induction st with
  | nil => simp [unwind]
  | cons f st ih => cases f <;> simp [unwind, hold] <;> omega

theorem holds_iff (t : Nat) (st : List Frame) : Holds st t ↔ 0 < holdS t st := by
  induction st with
  | nil => simp [Holds]
  | cons f st ih =>
    simp only [Holds, List.mem_cons, holdS_cons] at ih ⊢
    cases f <;> simp only [hold, reduceCtorEq, false_or, Frame.running.injEq, Frame.fin.injEq] at ih ⊢ <;>
      first | (rw [ih]; omega) | skip
    · rename_i t'
      by_cases e : t' = t
      · subst e; simp
      · rw [if_neg e]
        have : ¬ t = t' := fun h => e h.symm
        simp only [this, false_or, ih, Nat.zero_add]
    · rename_i t'
      by_cases e : t' = t
      · subst e; simp
      · rw [if_neg e]
        have : ¬ t = t' := fun h => e h.symm
        simp only [this, false_or, ih, Nat.zero_add]

def holdSum (s : State Tid) (t : Nat) : Nat := (∑ w, holdS t (s.stk w)) + s.log.count (.finished t)

/-- Every lock holder of a task has started it and not finished yet. -/
theorem holdSum_step {s s' : State Tid} {tid : Tid} {c : Call Tid} (h : Step s tid c s') (t : Nat)
    (hi : holdSum s t ≤ s.log.count (.started t)) : holdSum s' t ≤ s'.log.count (.started t) := by
  have key := fun stk st => sum_update (holdS t) stk tid st
  cases h with
  | refused hc => simpa [holdSum, State.emit, List.count_append] using hi
  | queued hc => simpa [holdSum, List.count_append] using hi
  | close hclose hcall =>
    have := key s.stk (.cancel s.tasks :: s.stk tid)
    simp [holdSum, State.setStack, State.emit, hold, List.count_append] at this hi ⊢; omega
  | push hcall f hf =>
    have := key s.stk (f :: s.stk tid)
    rcases hf with ⟨k, rfl⟩ | ⟨n, rfl⟩ <;> simp [holdSum, State.setStack, hold] at this hi ⊢ <;> omega
  | ret t' st h =>
    have := key s.stk (.fin t' :: st)
    rw [h] at this
    simp [holdSum, State.setStack, hold] at this hi ⊢; omega
  | pop f st h hf =>
    have := key s.stk st
    rw [h] at this
    rcases hf with ⟨k, rfl⟩ | rfl <;> simp [holdSum, State.setStack, hold] at this hi ⊢ <;> omega
  | repl f g st h hf =>
    have := key s.stk (g :: st)
    rw [h] at this
    rcases hf with ⟨k, rfl, rfl⟩ | ⟨k, i, rfl, rfl, _⟩ <;> simp [holdSum, State.setStack, hold] at this hi ⊢ <;> omega
  | get k st item q h hq =>
    have := key s.stk (.got k item :: st)
    rw [h] at this
    simp [holdSum, State.setStack, hold] at this hi ⊢; omega
  | gotExec k t' st h hc =>
    have := key s.stk (.exec t' :: .done k (some t') :: st)
    rw [h] at this
    simp [holdSum, State.setStack, hold] at this hi ⊢; omega
  | execRun t' st h hl hlive =>
    have := key s.stk (.running t' :: st)
    rw [h] at this
    by_cases e : t' = t
    · subst e; simp [holdSum, State.setStack, State.emit, hold] at this hi ⊢; omega
    · simp [holdSum, State.setStack, State.emit, hold, e, List.count_append, List.count_cons] at this hi ⊢; omega
  | execSkip t' st h hlive =>
    have := key s.stk st
    rw [h] at this
    simp [holdSum, State.setStack, hold] at this hi ⊢; omega
  | finOk t' st h ht =>
    have := key s.stk st
    rw [h] at this
    by_cases e : t' = t
    · subst e; simp [holdSum, State.setStack, State.emit, hold, List.count_append] at this hi ⊢; omega
    · simp [holdSum, State.setStack, State.emit, hold, e, List.count_append, List.count_cons] at this hi ⊢; omega
  | finErr t' st h ht =>
    have := key s.stk (unwind st)
    rw [h] at this
    have hu := holdS_unwind t st
    by_cases e : t' = t
    · subst e; simp [holdSum, State.setStack, State.emit, hold, List.count_append] at this hi ⊢; omega
    · simp [holdSum, State.setStack, State.emit, hold, e, List.count_append, List.count_cons] at this hi ⊢; omega
  | doneErr k item st h hz =>
    have := key s.stk (unwind st)
    rw [h] at this
    have hu := holdS_unwind t st
    simp [holdSum, State.setStack, State.emit, hold, List.count_append, List.count_cons] at this hi ⊢; omega
  | done k item st st' h hst =>
    have := key s.stk st'
    rw [h] at this
    rcases hst with rfl | rfl | rfl <;> simp [holdSum, State.setStack, hold] at this hi ⊢ <;> omega
  | cancelNil st h =>
    have := key s.stk (.put 0 :: st)
    rw [h] at this
    simp [holdSum, State.setStack, hold] at this hi ⊢; omega
  | cancelLive t' ts st h hl hlive ht =>
    have := key s.stk (.cancel ts :: st)
    rw [h] at this
    simp [holdSum, State.setStack, State.emit, hold, List.count_append, List.count_cons] at this hi ⊢; omega
  | cancelErr t' ts st h hlive ht =>
    have := key s.stk (unwind st)
    rw [h] at this
    have hu := holdS_unwind t st
    simp [holdSum, State.setStack, State.emit, hold, List.count_append, List.count_cons] at this hi ⊢; omega
  | cancelDead t' ts st h hlive =>
    have := key s.stk (.cancel ts :: st)
    rw [h] at this
    simp [holdSum, State.setStack, hold] at this hi ⊢; omega
  | put i st h =>
    have := key s.stk (.put (i + 1) :: st)
    rw [h] at this
    simp [holdSum, State.setStack, hold] at this hi ⊢; omega
  | putEnd i st h =>
    have := key s.stk (.join :: st)
    rw [h] at this
    simp [holdSum, State.setStack, hold] at this hi ⊢; omega
  | join st h =>
    have := key s.stk st
    rw [h] at this
    simp [holdSum, State.setStack, State.emit, hold, List.count_append, List.count_cons] at this hi ⊢; omega
  | spawn w n st h hw hw' =>
    have h1 := sum_update (holdS t) s.stk w [.get .worker]
    have := key (Function.update s.stk w [.get .worker]) (.append n :: st)
    rw [Function.update_of_ne hw.symm, h] at this
    rw [hw'] at h1
    simp [holdSum, State.setStack, hold] at this h1 hi ⊢; omega
  | append n st h =>
    have := key s.stk (.start n :: st)
    rw [h] at this
    simp [holdSum, State.setStack, hold] at this hi ⊢; omega

/-- The holder of a task lock is unique, as is the frame, once a task is started at most once. -/
theorem holder_unique {s : State Tid} {t : Nat} (h : holdSum s t ≤ 1) {w : Tid} (hw : Holds (s.stk w) t) :
    holdS t (s.stk w) = 1 ∧ (∀ v, Holds (s.stk v) t → v = w) ∧ s.log.count (.finished t) = 0 := by
  rw [holds_iff] at hw
  have h1 := Finset.add_sum_erase Finset.univ (fun v => holdS t (s.stk v)) (Finset.mem_univ w)
  simp only [holdSum] at h
  refine ⟨by omega, fun v hv => ?_, by omega⟩
  by_contra hne
  rw [holds_iff] at hv
  have h2 := Finset.single_le_sum (f := fun v => holdS t (s.stk v)) (s := Finset.univ.erase w) (fun _ _ => Nat.zero_le _)
    (Finset.mem_erase.2 ⟨hne, Finset.mem_univ v⟩)
  omega

/-! ### The queue's counter -/

def pnd : Frame → Nat
  | .got _ _ => 1
  | .done _ _ => 1
  | _ => 0

def pndS (st : List Frame) : Nat := (st.map pnd).sum

@[simp] theorem pndS_nil : pndS [] = 0 := rfl
@[simp] theorem pndS_cons (f : Frame) (st : List Frame) : pndS (f :: st) = pnd f + pndS st := by simp [pndS]

theorem pndS_unwind (st : List Frame) : pndS (unwind st) ≤ pndS st := by
  induction st with
  | nil => simp [unwind]
  | cons f st ih => cases f <;> simp [unwind, pnd] <;> omega

/-- Items in the queue or taken out of it, for which `task_done` was not called yet. -/
def owed (s : State Tid) : Nat := s.queue.length + ∑ w, pndS (s.stk w)

theorem owed_step {s s' : State Tid} {tid : Tid} {c : Call Tid} (h : Step s tid c s') (hi : owed s ≤ s.unfinished) :
    owed s' ≤ s'.unfinished := by
  have key := fun stk st => sum_update pndS stk tid st
  cases h with
  | refused hc => simpa [owed, State.emit] using hi
  | queued hc => simp [owed] at hi ⊢; omega
  | close hclose hcall =>
    have := key s.stk (.cancel s.tasks :: s.stk tid)
    simp [owed, State.setStack, State.emit, pnd] at this hi ⊢; omega
  | push hcall f hf =>
    have := key s.stk (f :: s.stk tid)
    rcases hf with ⟨k, rfl⟩ | ⟨n, rfl⟩ <;> simp [owed, State.setStack, pnd] at this hi ⊢ <;> omega
  | ret t' st h =>
    have := key s.stk (.fin t' :: st)
    rw [h] at this
    simp [owed, State.setStack, pnd] at this hi ⊢; omega
  | pop f st h hf =>
    have := key s.stk st
    rw [h] at this
    rcases hf with ⟨k, rfl⟩ | rfl <;> simp [owed, State.setStack, pnd] at this hi ⊢ <;> omega
  | repl f g st h hf =>
    have := key s.stk (g :: st)
    rw [h] at this
    rcases hf with ⟨k, rfl, rfl⟩ | ⟨k, i, rfl, rfl, _⟩ <;> simp [owed, State.setStack, pnd] at this hi ⊢ <;> omega
  | get k st item q h hq =>
    have := key s.stk (.got k item :: st)
    rw [h] at this
    simp [owed, State.setStack, pnd, hq] at this hi ⊢; omega
  | gotExec k t' st h hc =>
    have := key s.stk (.exec t' :: .done k (some t') :: st)
    rw [h] at this
    simp [owed, State.setStack, pnd] at this hi ⊢; omega
  | execRun t' st h hl hlive =>
    have := key s.stk (.running t' :: st)
    rw [h] at this
    simp [owed, State.setStack, State.emit, pnd] at this hi ⊢; omega
  | execSkip t' st h hlive =>
    have := key s.stk st
    rw [h] at this
    simp [owed, State.setStack, pnd] at this hi ⊢; omega
  | finOk t' st h ht =>
    have := key s.stk st
    rw [h] at this
    simp [owed, State.setStack, State.emit, pnd] at this hi ⊢; omega
  | finErr t' st h ht =>
    have := key s.stk (unwind st)
    rw [h] at this
    have hu := pndS_unwind st
    simp [owed, State.setStack, State.emit, pnd] at this hi ⊢; omega
  | doneErr k item st h hz =>
    have := key s.stk (unwind st)
    rw [h] at this
    have hu := pndS_unwind st
    simp [owed, State.setStack, State.emit, pnd] at this hi ⊢; omega
  | done k item st st' h hst =>
    have := key s.stk st'
    rw [h] at this
    rcases hst with rfl | rfl | rfl <;> simp [owed, State.setStack, pnd] at this hi ⊢ <;> omega
  | cancelNil st h =>
    have := key s.stk (.put 0 :: st)
    rw [h] at this
    simp [owed, State.setStack, pnd] at this hi ⊢; omega
  | cancelLive t' ts st h hl hlive ht =>
    have := key s.stk (.cancel ts :: st)
    rw [h] at this
    simp [owed, State.setStack, State.emit, pnd] at this hi ⊢; omega
  | cancelErr t' ts st h hlive ht =>
    have := key s.stk (unwind st)
    rw [h] at this
    have hu := pndS_unwind st
    simp [owed, State.setStack, State.emit, pnd] at this hi ⊢; omega
  | cancelDead t' ts st h hlive =>
    have := key s.stk (.cancel ts :: st)
    rw [h] at this
    simp [owed, State.setStack, pnd] at this hi ⊢; omega
  | put i st h =>
    have := key s.stk (.put (i + 1) :: st)
    rw [h] at this
    simp [owed, State.setStack, pnd] at this hi ⊢; omega
  | putEnd i st h =>
    have := key s.stk (.join :: st)
    rw [h] at this
    simp [owed, State.setStack, pnd] at this hi ⊢; omega
  | join st h =>
    have := key s.stk st
    rw [h] at this
    simp [owed, State.setStack, State.emit, pnd] at this hi ⊢; omega
  | spawn w n st h hw hw' =>
    have h1 := sum_update pndS s.stk w [.get .worker]
    have := key (Function.update s.stk w [.get .worker]) (.append n :: st)
    rw [Function.update_of_ne hw.symm, h] at this
    rw [hw'] at h1
    simp [owed, State.setStack, pnd] at this h1 hi ⊢; omega
  | append n st h =>
    have := key s.stk (.start n :: st)
    rw [h] at this
    simp [owed, State.setStack, pnd] at this hi ⊢; omega

omit [DecidableEq Tid] in
/-- A thread about to call `task_done` finds the counter above zero. -/
theorem owed_pos {s : State Tid} (h : owed s ≤ s.unfinished) {tid : Tid} {k item st} (hs : s.stk tid = .done k item :: st) :
    0 < s.unfinished := by
  have h2 := Finset.single_le_sum (f := fun v => pndS (s.stk v)) (s := Finset.univ) (fun _ _ => Nat.zero_le _)
    (Finset.mem_univ tid)
  simp only [hs, pndS_cons, pnd] at h2
  simp only [owed] at h
  omega

end

end Verif.Pool
