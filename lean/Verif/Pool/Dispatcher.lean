import Mathlib.Logic.Function.Basic
import Mathlib.Data.List.Induction
import Verif.Py.Basic

/-!
Model of `ThreadDispatcher` (`nion/utils/ThreadPool.py`, lines 19-85) as a machine of atomic steps, and properties C37, C38.

The actors are the dispatcher's thread and any number of clients. Every operation on a `threading.Event` is one step; a
`wait` that blocks is woken by `set` even if the flag is cleared before it runs again. Time is not modelled: whether the
minimum interval has elapsed and whether a timed wait ends by timeout is chosen by the schedule, so the theorems hold for
every minimum interval. The thread lock is explicit for clients; the dispatcher's thread takes it for the single step of
line 61.
-/

namespace Verif.Dispatcher

/-- What the dispatcher's thread does next. -/
inductive WPC where
  /-- `start` not called -/
  | new
  /-- 59: `self.__thread_event.wait()` -/
  | wait
  /-- 60-61: clear the event under the lock -/
  | clear
  /-- 62: `if self.__thread_break` -/
  | check
  /-- 65-67: the test of the inner loop; the flag is `thread_event_set` -/
  | inner (flag : Bool)
  /-- 68: timed wait -/
  | timed (flag : Bool)
  /-- 70: `self.__thread_event.clear()` -/
  | clear2 (flag : Bool)
  /-- 73-74 -/
  | reset (flag : Bool)
  /-- 75-76 -/
  | check2
  /-- 78: about to call the function -/
  | call
  /-- inside the function -/
  | running
  /-- 79: `self.__triggered_event.set()` -/
  | notify
  /-- 85 -/
  | time
  | ended
  deriving DecidableEq, Repr

/-- What a client does next. -/
inductive CPC where
  | idle
  /-- 50: `with self.__thread_lock` in `trigger(wait=True)` -/
  | lock
  /-- 51: `self.__triggered_event.clear()` -/
  | clear
  /-- 52: `self.__thread_event.set()` -/
  | set
  /-- leaving the `with` block -/
  | unlock
  /-- 53: `self.__triggered_event.wait()` -/
  | wait
  /-- blocked in that wait -/
  | blocked
  /-- woken by `set` -/
  | woken
  /-- 41: `with self.__thread_lock` in `close` -/
  | closeLock
  /-- 42 -/
  | closeBreak
  /-- 43 -/
  | closeSet
  | closeUnlock
  /-- 44: `self.__thread.join()` -/
  | join
  deriving DecidableEq, Repr

inductive Ev (Tid : Type*) where
  /-- the event was set by a trigger -/
  | trigger
  /-- `trigger(wait=True)` called -/
  | called (i : Tid)
  /-- `trigger(wait=True)` returned -/
  | returned (i : Tid)
  | start
  | finish
  /-- the end of the run is announced, line 79 -/
  | announce
  | fail
  | closed (i : Tid)
  deriving DecidableEq, Repr

structure State (Tid : Type*) where
  event : Bool
  triggered : Bool
  brk : Bool
  lock : Option Tid
  worker : WPC
  client : Tid → CPC
  log : List (Ev Tid)

/-- Choices of the schedule. -/
inductive Act (Tid : Type*) where
  /-- the dispatcher's thread; `late`: the interval has elapsed -/
  | worker (late : Bool)
  /-- the function ends by raising -/
  | fnRaise
  /-- the function triggers the dispatcher itself, without waiting -/
  | fnTrigger
  | start
  | trigger (i : Tid)
  | triggerWait (i : Tid)
  | close (i : Tid)
  /-- the client goes on with its call -/
  | go (i : Tid)
  deriving DecidableEq, Repr

section
variable {Tid : Type*} [DecidableEq Tid]

def State.init : State Tid := ⟨false, false, false, none, .new, fun _ => .idle, []⟩

def State.emit (s : State Tid) (e : Ev Tid) : State Tid := { s with log := s.log ++ [e] }

def State.setC (s : State Tid) (i : Tid) (p : CPC) : State Tid := { s with client := Function.update s.client i p }

/-- `self.__triggered_event.set()`: everybody blocked in its `wait` is woken. -/
def State.setTriggered (s : State Tid) : State Tid :=
  { s with triggered := true, client := fun i => if s.client i = .blocked then .woken else s.client i }

/-- A step of the dispatcher's thread (57-85); `none` when blocked. -/
def State.workerStep (s : State Tid) (late : Bool) : Option (State Tid) :=
  match s.worker with
  | .new => none
  | .wait => if s.event then some { s with worker := .clear } else none
  | .clear => if s.lock = none then some { s with event := false, worker := .check } else none
  | .check => some { s with worker := if s.brk then .ended else .inner false }
  | .inner flag =>
    some { s with worker := if s.brk then .reset flag else if late then .reset flag else .timed flag }
  | .timed flag => some { s with worker := .clear2 (s.event || flag) }
  | .clear2 flag => some { s with event := false, worker := .inner flag }
  | .reset flag => some { s with event := s.event || flag, worker := .check2 }
  | .check2 => some { s with worker := if s.brk then .ended else .call }
  | .call => some ({ s with worker := .running }.emit .start)
  | .running => some ({ s with worker := .notify }.emit .finish)
  | .notify => some ({ s.setTriggered with worker := .time }.emit .announce)
  | .time => some { s with worker := .wait }
  | .ended => none

/-- A client goes on with its call of `trigger(wait=True)` (49-53) or `close` (40-46). -/
def State.clientStep (s : State Tid) (i : Tid) : Option (State Tid) :=
  match s.client i with
  | .idle => none
  | .lock => if s.lock = none then some ({ s with lock := some i }.setC i .clear) else none
  | .clear => some ({ s with triggered := false }.setC i .set)
  | .set => some (({ s with event := true }.setC i .unlock).emit .trigger)
  | .unlock => some ({ s with lock := none }.setC i .wait)
  | .wait => if s.triggered then some ((s.setC i .idle).emit (.returned i)) else some (s.setC i .blocked)
  | .blocked => none
  | .woken => some ((s.setC i .idle).emit (.returned i))
  | .closeLock => if s.lock = none then some ({ s with lock := some i }.setC i .closeBreak) else none
  | .closeBreak => some ({ s with brk := true }.setC i .closeSet)
  | .closeSet => some ({ s with event := true }.setC i .closeUnlock)
  | .closeUnlock => some ({ s with lock := none }.setC i .join)
  | .join => if s.worker = .ended then some ((s.setC i .idle).emit (.closed i)) else none

def State.step (s : State Tid) : Act Tid → Option (State Tid)
  | .worker late => s.workerStep late
  | .fnRaise => if s.worker = .running then some ({ s with worker := .time }.emit .fail) else none
  | .fnTrigger => if s.worker = .running then some ({ s with event := true }.emit .trigger) else none
  | .start => if s.worker = .new then some { s with worker := .wait } else none
  | .trigger i => if s.client i = .idle then some ({ s with event := true }.emit .trigger) else none  -- 55
  | .triggerWait i => if s.client i = .idle then some ((s.setC i .lock).emit (.called i)) else none
  | .close i => if s.client i = .idle then some (s.setC i .closeLock) else none
  | .go i => s.clientStep i

/-- A schedule; an actor that is blocked does not move. -/
def State.run (s : State Tid) (sch : List (Act Tid)) : State Tid := sch.foldl (fun s a => (s.step a).getD s) s

/-! ### Specification -/

/-- The function has been started after the last trigger. -/
def Served : List (Ev Tid) → Prop := fun log => ∀ l₁ l₂, log = l₁ ++ .trigger :: l₂ → .start ∈ l₂

/-- A run of the function is in progress or not announced yet. -/
def inRun (log : List (Ev Tid)) : Bool :=
  log.foldl (fun b e => match e with
    | .start => true
    | .announce => false
    | .fail => false
    | _ => b) false

/-! ### C37 -/

/-- Points at which the dispatcher's thread is bound to call the function (or to end). -/
def Pending : WPC → Prop
  | .clear | .check | .inner _ | .timed _ | .clear2 _ | .reset _ | .check2 | .call | .ended => True
  | _ => False

theorem served_append {log : List (Ev Tid)} (h : Served log) {e : Ev Tid} (he : e ≠ .trigger) : Served (log ++ [e]) := by
  intro l₁ l₂ heq
  rcases List.eq_nil_or_concat l₂ with rfl | ⟨l₂', x, rfl⟩
  · have := (List.append_inj' heq rfl).2
    simp at this; exact absurd this he
  · rw [List.concat_eq_append, ← List.cons_append, ← List.append_assoc] at heq
    have := h l₁ l₂' (List.append_inj' heq rfl).1
    rw [List.concat_eq_append]; simp [this]

theorem served_start (log : List (Ev Tid)) : Served (log ++ [.start]) := by
  intro l₁ l₂ heq
  rcases List.eq_nil_or_concat l₂ with rfl | ⟨l₂', x, rfl⟩
  · have := (List.append_inj' heq rfl).2
    simp at this
  · rw [List.concat_eq_append, ← List.cons_append, ← List.append_assoc] at heq
    have := (List.append_inj' heq rfl).2
    simp at this
    simp [← this]

/-- A trigger that is not served yet has left the event set or the thread about to call the function; the dispatcher ends
only when it is being closed. -/
def Inv (s : State Tid) : Prop :=
  (Served s.log ∨ s.event = true ∨ Pending s.worker) ∧ (s.worker = .ended → s.brk = true)

theorem inv_emit {s : State Tid} (h : Inv s) {e : Ev Tid} (he : e ≠ .trigger) : Inv (s.emit e) := by
  refine ⟨?_, h.2⟩
  rcases h.1 with h | h | h
  · exact .inl (served_append h he)
  · exact .inr (.inl h)
  · exact .inr (.inr h)

theorem inv_worker {s t : State Tid} {late : Bool} (h : Inv s) (ht : s.workerStep late = some t) : Inv t := by
  obtain ⟨h1, h2⟩ := h
  unfold State.workerStep at ht
  split at ht
  all_goals rename_i hw
  all_goals simp only [hw, Pending] at h1
  · cases ht
  · split at ht
    · cases ht; exact ⟨.inr (.inr trivial), by simp⟩
    · cases ht
  · split at ht
    · cases ht; exact ⟨.inr (.inr trivial), by simp⟩
    · cases ht
  · cases ht
    by_cases hb : s.brk = true
    · exact ⟨.inr (.inr (by simp [hb, Pending])), by simp [hb]⟩
    · exact ⟨.inr (.inr (by simp [hb, Pending])), by simp [hb]⟩
  · cases ht
    refine ⟨.inr (.inr ?_), ?_⟩
    · simp only; split
      · trivial
      · split <;> trivial
    · simp only; split
      · simp
      · split <;> simp
  · cases ht; exact ⟨.inr (.inr trivial), by simp⟩
  · cases ht; exact ⟨.inr (.inr trivial), by simp⟩
  · cases ht; exact ⟨.inr (.inr trivial), by simp⟩
  · cases ht
    by_cases hb : s.brk = true
    · exact ⟨.inr (.inr (by simp [hb, Pending])), by simp [hb]⟩
    · exact ⟨.inr (.inr (by simp [hb, Pending])), by simp [hb]⟩
  · cases ht; exact ⟨.inl (served_start _), by simp [State.emit]⟩
  · cases ht
    refine inv_emit ⟨?_, by simp⟩ (by simp)
    rcases h1 with h1 | h1 | h1
    · exact .inl h1
    · exact .inr (.inl h1)
    · exact h1.elim
  · cases ht
    refine inv_emit ⟨?_, by simp⟩ (by simp)
    rcases h1 with h1 | h1 | h1
    · exact .inl h1
    · exact .inr (.inl h1)
    · exact h1.elim
  · cases ht
    refine ⟨?_, by simp⟩
    rcases h1 with h1 | h1 | h1
    · exact .inl h1
    · exact .inr (.inl h1)
    · exact h1.elim
  · cases ht

theorem inv_client {s t : State Tid} {i : Tid} (h : Inv s) (ht : s.clientStep i = some t) : Inv t := by
  unfold State.clientStep at ht
  split at ht
  · cases ht
  · split at ht
    · cases ht; exact h
    · cases ht
  · cases ht; exact h
  · cases ht; exact ⟨.inr (.inl rfl), h.2⟩
  · cases ht; exact h
  · split at ht
    · cases ht; exact inv_emit (s := s.setC i .idle) h (by simp)
    · cases ht; exact h
  · cases ht
  · cases ht; exact inv_emit (s := s.setC i .idle) h (by simp)
  · split at ht
    · cases ht; exact h
    · cases ht
  · cases ht; exact ⟨h.1, fun _ => rfl⟩
  · cases ht; exact ⟨.inr (.inl rfl), h.2⟩
  · cases ht; exact h
  · split at ht
    · cases ht; exact inv_emit (s := s.setC i .idle) h (by simp)
    · cases ht

theorem inv_step {s t : State Tid} {a : Act Tid} (h : Inv s) (ht : s.step a = some t) : Inv t := by
  cases a with
  | worker late => exact inv_worker h ht
  | fnRaise =>
    simp only [State.step] at ht
    split at ht
    · rename_i hw
      cases ht
      refine inv_emit ⟨?_, by simp⟩ (by simp)
      rcases h.1 with h1 | h1 | h1
      · exact .inl h1
      · exact .inr (.inl h1)
      · rw [hw] at h1; exact h1.elim
    · cases ht
  | fnTrigger =>
    simp only [State.step] at ht
    split at ht
    · cases ht; exact ⟨.inr (.inl rfl), h.2⟩
    · cases ht
  | start =>
    simp only [State.step] at ht
    split at ht
    · rename_i hw
      cases ht
      refine ⟨?_, by simp⟩
      rcases h.1 with h1 | h1 | h1
      · exact .inl h1
      · exact .inr (.inl h1)
      · rw [hw] at h1; exact h1.elim
    · cases ht
  | trigger i =>
    simp only [State.step] at ht
    split at ht
    · cases ht; exact ⟨.inr (.inl rfl), h.2⟩
    · cases ht
  | triggerWait i =>
    simp only [State.step] at ht
    split at ht
    · cases ht; exact inv_emit (s := s.setC i .lock) h (by simp)
    · cases ht
  | close i =>
    simp only [State.step] at ht
    split at ht
    · cases ht; exact h
    · cases ht
  | go i => exact inv_client h ht

theorem inv_run (sch : List (Act Tid)) {s : State Tid} (h : Inv s) : Inv (s.run sch) := by
  induction sch generalizing s with
  | nil => exact h
  | cons a sch ih =>
    apply ih
    cases hs : s.step a with
    | none => simpa [hs] using h
    | some t => simpa [hs] using inv_step h hs

theorem inv_init : Inv (State.init : State Tid) :=
  ⟨.inl (fun l₁ l₂ h => by simp [State.init] at h), by simp [State.init]⟩

/-- C37: in every schedule, when the thread of a dispatcher that nobody closes is idle (blocked waiting for the event), or
inside the function or behind it with no event set, then the function was started after every trigger so far. -/
theorem C37_never_idle (sch : List (Act Tid)) :
    let s : State Tid := State.init.run sch
    s.event = false → s.worker ∈ [.new, .wait, .running, .notify, .time] → Served s.log := by
  intro s he hw
  have h : Inv s := inv_run sch inv_init
  rcases h.1 with h1 | h1 | h1
  · exact h1
  · rw [he] at h1; cases h1
  · simp only [List.mem_cons, List.not_mem_nil, or_false] at hw
    rcases hw with hw | hw | hw | hw | hw <;> rw [hw] at h1 <;> exact h1.elim

/-- Runs of the dispatcher's thread alone, when the interval has elapsed. -/
def State.alone (s : State Tid) (n : Nat) : State Tid := s.run (List.replicate n (.worker true))

theorem alone_succ (s : State Tid) (n : Nat) : s.alone (n + 1) = ((s.workerStep true).getD s).alone n := by
  simp [State.alone, State.run, List.replicate_succ, State.step]

theorem workerStep_served {s t : State Tid} (h : Served s.log) (ht : s.workerStep true = some t) : Served t.log := by
  unfold State.workerStep at ht
  split at ht
  all_goals first
    | (cases ht; done)
    | (cases ht; exact h)
    | (cases ht; exact served_append h (by simp))
    | (split at ht <;> first | (cases ht; exact h) | (cases ht; done))

theorem alone_served (n : Nat) {s : State Tid} (h : Served s.log) : Served (s.alone n).log := by
  induction n generalizing s with
  | zero => exact h
  | succ n ih =>
    rw [alone_succ]
    cases hs : s.workerStep true with
    | none => exact ih h
    | some t => exact ih (workerStep_served h hs)

/-- Steps from each point until the function is called, when nobody interferes. -/
def rank : WPC → Nat
  | .call => 1
  | .check2 => 2
  | .reset _ => 3
  | .inner _ => 4
  | .clear2 _ => 5
  | .timed _ => 6
  | .check => 5
  | .clear => 6
  | .wait => 7
  | .time => 8
  | .notify => 9
  | .running => 10
  | _ => 0

theorem alone_serves (n : Nat) (s : State Tid) : Inv s → s.worker ≠ .new → s.brk = false → s.lock = none → rank s.worker ≤ n →
    Served (s.alone n).log := by
  induction n generalizing s with
  | zero =>
    intro h hn hb hl hr
    obtain ⟨h1, h2⟩ := h
    cases hw : s.worker <;> simp only [hw, rank] at hr hn <;> try omega
    · exact absurd rfl hn
    · rw [h2 hw] at hb; cases hb
  | succ n ih =>
    intro h hn hb hl hr
    rw [alone_succ]
    cases hw : s.worker with
    | new => exact absurd hw hn
    | ended => rw [h.2 hw] at hb; cases hb
    | wait =>
      by_cases he : s.event = true
      · have hs : s.workerStep true = some { s with worker := .clear } := by simp [State.workerStep, hw, he]
        rw [hs]
        exact ih _ (inv_worker h hs) (by simp) hb hl (by simp [hw, rank] at hr ⊢; omega)
      · have hsv : Served s.log := by
          rcases h.1 with h1 | h1 | h1
          · exact h1
          · exact absurd h1 he
          · rw [hw] at h1; exact h1.elim
        have hs : s.workerStep true = none := by simp [State.workerStep, hw, he]
        rw [hs]
        exact alone_served n hsv
    | call =>
      have hs : s.workerStep true = some ({ s with worker := .running }.emit .start) := by simp [State.workerStep, hw]
      rw [hs]
      exact alone_served n (served_start _)
    | clear =>
      have hs : s.workerStep true = some { s with event := false, worker := .check } := by simp [State.workerStep, hw, hl]
      rw [hs]
      exact ih _ (inv_worker h hs) (by simp) hb hl (by simp [hw, rank] at hr ⊢; omega)
    | check =>
      have hs : s.workerStep true = some { s with worker := .inner false } := by simp [State.workerStep, hw, hb]
      rw [hs]
      exact ih _ (inv_worker h hs) (by simp) hb hl (by simp [hw, rank] at hr ⊢; omega)
    | inner flag =>
      have hs : s.workerStep true = some { s with worker := .reset flag } := by simp [State.workerStep, hw, hb]
      rw [hs]
      exact ih _ (inv_worker h hs) (by simp [State.emit]) hb hl (by simp [hw, rank, State.emit] at hr ⊢; omega)
    | timed flag =>
      have hs : s.workerStep true = some { s with worker := .clear2 (s.event || flag) } := by simp [State.workerStep, hw]
      rw [hs]
      exact ih _ (inv_worker h hs) (by simp) hb hl (by simp [hw, rank] at hr ⊢; omega)
    | clear2 flag =>
      have hs : s.workerStep true = some { s with event := false, worker := .inner flag } := by simp [State.workerStep, hw]
      rw [hs]
      exact ih _ (inv_worker h hs) (by simp) hb hl (by simp [hw, rank] at hr ⊢; omega)
    | reset flag =>
      have hs : s.workerStep true = some { s with event := s.event || flag, worker := .check2 } := by
        simp [State.workerStep, hw]
      rw [hs]
      exact ih _ (inv_worker h hs) (by simp) hb hl (by simp [hw, rank] at hr ⊢; omega)
    | check2 =>
      have hs : s.workerStep true = some { s with worker := .call } := by simp [State.workerStep, hw, hb]
      rw [hs]
      exact ih _ (inv_worker h hs) (by simp) hb hl (by simp [hw, rank] at hr ⊢; omega)
    | running =>
      have hs : s.workerStep true = some ({ s with worker := .notify }.emit .finish) := by simp [State.workerStep, hw]
      rw [hs]
      exact ih _ (inv_worker h hs) (by simp [State.emit]) hb hl (by simp [hw, rank, State.emit] at hr ⊢; omega)
    | notify =>
      have hs : s.workerStep true = some ({ s.setTriggered with worker := .time }.emit .announce) := by simp [State.workerStep, hw]
      rw [hs]
      exact ih _ (inv_worker h hs) (by simp [State.emit]) hb hl (by simp [hw, rank, State.emit] at hr ⊢; omega)
    | time =>
      have hs : s.workerStep true = some { s with worker := .wait } := by simp [State.workerStep, hw]
      rw [hs]
      exact ih _ (inv_worker h hs) (by simp) hb hl (by simp [hw, rank] at hr ⊢; omega)

/-- C37: progress. In every reachable state of a started dispatcher that nobody closes, whose lock is free, the thread on its
own starts the function after every trigger so far, within ten steps from any point once the minimum interval has elapsed
and the running function (if any) returns. -/
theorem C37_progress (sch : List (Act Tid)) (hn : (State.init.run sch : State Tid).worker ≠ .new)
    (hb : (State.init.run sch : State Tid).brk = false) (hl : (State.init.run sch : State Tid).lock = none) :
    Served ((State.init.run sch : State Tid).alone 10).log := by
  refine alone_serves 10 _ (inv_run sch inv_init) hn hb hl ?_
  generalize (State.init.run sch : State Tid).worker = w
  cases w <;> simp [rank]

/-- A trigger during the timed wait and one between its timeout and the clearing of the event (line 70) are both served. -/
example : let s : State (Fin 1) := State.init.run [.start, .trigger 0, .worker true, .worker true, .worker true, .worker false,
      .worker false, .trigger 0, .worker false, .worker true, .worker true, .worker true, .worker true]
    s.log = [.trigger, .trigger, .start] ∧ s.event = false ∧ s.worker = .running := by decide

/-! ### C38 -/

/-- Inside `trigger(wait=True)`. -/
def Inside : CPC → Prop
  | .lock | .clear | .set | .unlock | .wait | .blocked | .woken => True
  | _ => False

/-- Inside `trigger(wait=True)`, behind the clearing of the event. -/
def Cleared : CPC → Prop
  | .set | .unlock | .wait | .blocked | .woken => True
  | _ => False

theorem Cleared.inside {p : CPC} (h : Cleared p) : Inside p := by cases p <;> first | exact h | trivial

/-- The events since the client's last call of `trigger(wait=True)` satisfy `P`. -/
def Since (i : Tid) (P : List (Ev Tid) → List (Ev Tid) → Prop) (log : List (Ev Tid)) : Prop :=
  ∃ l₁ l₂, log = l₁ ++ .called i :: l₂ ∧ .called i ∉ l₂ ∧ P l₁ l₂

/-- the announcement of a run -/
def Announced (_ l₂ : List (Ev Tid)) : Prop := .announce ∈ l₂

theorem since_append {i : Tid} {log : List (Ev Tid)} (h : Since i Announced log) {e : Ev Tid} (he : e ≠ .called i) :
    Since i Announced (log ++ [e]) := by
  obtain ⟨l₁, l₂, rfl, h2, h3⟩ := h
  exact ⟨l₁, l₂ ++ [e], by simp, by simp [h2, Ne.symm he], by simp [Announced] at h3 ⊢; simp [h3]⟩

theorem since_announce {i : Tid} {log : List (Ev Tid)} (h : .called i ∈ log) : Since i Announced (log ++ [.announce]) := by
  have : ∃ l₁ l₂, log = l₁ ++ .called i :: l₂ ∧ .called i ∉ l₂ := by
    induction log using List.reverseRecOn with
    | nil => simp at h
    | append_singleton l e ih =>
      by_cases he : e = .called i
      · exact ⟨l, [], by simp [he], by simp⟩
      · have h' : .called i ∈ l := by
          rcases List.mem_append.1 h with h | h
          · exact h
          · exact absurd (List.mem_singleton.1 h).symm he
        obtain ⟨l₁, l₂, rfl, h2⟩ := ih h'
        exact ⟨l₁, l₂ ++ [e], by simp, by simp [h2, Ne.symm he]⟩
  obtain ⟨l₁, l₂, rfl, h2⟩ := this
  exact ⟨l₁, l₂ ++ [.announce], by simp, by simp [h2], by simp [Announced]⟩

/-- Splitting a log with one more event. -/
theorem split_append {P : List (Ev Tid) → Ev Tid → Prop} {log : List (Ev Tid)} {e : Ev Tid}
    (h : ∀ l₁ x l₂, log = l₁ ++ x :: l₂ → P l₁ x) (he : P log e) : ∀ l₁ x l₂, log ++ [e] = l₁ ++ x :: l₂ → P l₁ x := by
  intro l₁ x l₂ heq
  rcases List.eq_nil_or_concat l₂ with rfl | ⟨l₂', y, rfl⟩
  · obtain ⟨rfl, h2⟩ := List.append_inj' heq rfl
    cases h2; exact he
  · rw [List.concat_eq_append, ← List.cons_append, ← List.append_assoc] at heq
    exact h l₁ x l₂' (List.append_inj' heq rfl).1

/-- Specification: a waiting trigger returns only after an announcement since its call; a run ends only after its start,
and is announced after its end. -/
def Ok38 (l : List (Ev Tid)) : Ev Tid → Prop
  | .returned i => Since i Announced l
  | .finish => inRun l = true
  | .announce => inRun l = true ∧ l.reverse.find? (fun e => e = .start ∨ e = .finish) = some .finish
  | _ => True

structure Inv38 (s : State Tid) : Prop where
  cleared : ∀ i, Cleared (s.client i) → s.triggered = true → Since i Announced s.log
  woken : ∀ i, s.client i = .woken → Since i Announced s.log
  called : ∀ i, Inside (s.client i) → .called i ∈ s.log
  running : inRun s.log = true ↔ (s.worker = .running ∨ s.worker = .notify)
  finished : s.worker = .notify → s.log.reverse.find? (fun e => e = .start ∨ e = .finish) = some .finish
  log : ∀ l₁ e l₂, s.log = l₁ ++ e :: l₂ → Ok38 l₁ e

/-- A step that logs nothing, wakes nobody, and changes the thread outside of runs. -/
theorem inv38_quiet {s t : State Tid} (h : Inv38 s) (hlog : t.log = s.log) (htr : t.triggered = true → s.triggered = true)
    (hw : t.worker = s.worker ∨ (s.worker ≠ .running ∧ s.worker ≠ .notify ∧ t.worker ≠ .running ∧ t.worker ≠ .notify))
    (hc : ∀ i, (Cleared (t.client i) → t.triggered = true → Cleared (s.client i)) ∧ (t.client i = .woken → s.client i = .woken) ∧
      (Inside (t.client i) → Inside (s.client i))) : Inv38 t := by
  refine ⟨?_, ?_, ?_, ?_, ?_, ?_⟩
  · intro i h1 h2; rw [hlog]; exact h.cleared i ((hc i).1 h1 h2) (htr h2)
  · intro i h1; rw [hlog]; exact h.woken i ((hc i).2.1 h1)
  · intro i h1; rw [hlog]; exact h.called i ((hc i).2.2 h1)
  · rw [hlog, h.running]
    rcases hw with hw | hw
    · rw [hw]
    · simp [hw.1, hw.2.1, hw.2.2.1, hw.2.2.2]
  · rw [hlog]
    rcases hw with hw | hw
    · rw [hw]; exact h.finished
    · intro hx; exact absurd hx hw.2.2.2
  · rw [hlog]; exact h.log

/-- Logging an event that is neither a call nor part of a run. -/
theorem inv38_emit {s : State Tid} (h : Inv38 s) {e : Ev Tid} (h1 : ∀ i, e ≠ .called i) (h2 : e ≠ .start) (h3 : e ≠ .announce)
    (h4 : e ≠ .fail) (h5 : e ≠ .finish) (hok : Ok38 s.log e) : Inv38 (s.emit e) := by
  refine ⟨?_, ?_, ?_, ?_, ?_, ?_⟩
  · intro i a b; exact since_append (h.cleared i a b) (h1 i)
  · intro i a; exact since_append (h.woken i a) (h1 i)
  · intro i a; simp [State.emit, h.called i a]
  · have : inRun (s.log ++ [e]) = inRun s.log := by
      cases e <;> simp [inRun] <;> first | exact absurd rfl h2 | exact absurd rfl h3 | exact absurd rfl h4
    simp only [State.emit, this]
    exact h.running
  · intro a
    have := h.finished a
    simp only [State.emit, List.reverse_append, List.reverse_singleton, List.singleton_append, List.find?_cons]
    simp [h2, h5]
    simpa using this
  · exact split_append h.log hok

theorem cleared_update {s : State Tid} {i : Tid} {p : CPC} (hp : ¬ Cleared p) (j : Tid)
    (h : Cleared (Function.update s.client i p j)) : Cleared (s.client j) := by
  by_cases e : j = i
  · subst e; rw [Function.update_self] at h; exact absurd h hp
  · rwa [Function.update_of_ne e] at h

theorem inv38_worker {s t : State Tid} {late : Bool} (h : Inv38 s) (ht : s.workerStep late = some t) : Inv38 t := by
  have same : ∀ i, (Cleared (s.client i) → s.triggered = true → Cleared (s.client i)) ∧
      (s.client i = .woken → s.client i = .woken) ∧ (Inside (s.client i) → Inside (s.client i)) :=
    fun i => ⟨fun h _ => h, fun h => h, fun h => h⟩
  unfold State.workerStep at ht
  split at ht
  all_goals rename_i hw
  · cases ht
  · split at ht
    · cases ht; exact inv38_quiet h rfl (fun x => x) (.inr (by simp [hw])) same
    · cases ht
  · split at ht
    · cases ht; exact inv38_quiet h rfl (fun x => x) (.inr (by simp [hw])) same
    · cases ht
  · cases ht
    refine inv38_quiet h rfl (fun x => x) (.inr ?_) same
    by_cases hb : s.brk = true <;> simp [hw, hb]
  · cases ht
    refine inv38_quiet h rfl (fun x => x) (.inr ?_) same
    by_cases hb : s.brk = true <;> cases late <;> simp [hw, hb]
  · cases ht; exact inv38_quiet h rfl (fun x => x) (.inr (by simp [hw])) same
  · cases ht; exact inv38_quiet h rfl (fun x => x) (.inr (by simp [hw])) same
  · cases ht; exact inv38_quiet h rfl (fun x => x) (.inr (by simp [hw])) same
  · cases ht
    refine inv38_quiet h rfl (fun x => x) (.inr ?_) same
    by_cases hb : s.brk = true <;> simp [hw, hb]
  · cases ht
    refine ⟨?_, ?_, ?_, ?_, ?_, ?_⟩
    · intro i a b; exact since_append (h.cleared i a b) (by simp)
    · intro i a; exact since_append (h.woken i a) (by simp)
    · intro i a; simp [State.emit, h.called i a]
    · simp [State.emit, inRun]
    · simp [State.emit]
    · exact split_append h.log trivial
  · cases ht
    have hr : inRun s.log = true := h.running.2 (.inl hw)
    refine ⟨?_, ?_, ?_, ?_, ?_, ?_⟩
    · intro i a b; exact since_append (h.cleared i a b) (by simp)
    · intro i a; exact since_append (h.woken i a) (by simp)
    · intro i a; simp [State.emit, h.called i a]
    · have : inRun (s.log ++ [.finish]) = inRun s.log := by simp [inRun]
      simp [State.emit, this, hr]
    · simp [State.emit]
    · exact split_append h.log hr
  · cases ht
    have hr : inRun s.log = true := h.running.2 (.inr hw)
    have hcl : ∀ i, s.setTriggered.client i ≠ .woken → s.setTriggered.client i = s.client i := by
      intro i hi
      simp only [State.setTriggered] at hi ⊢
      split
      · rename_i hb; simp [hb] at hi
      · rfl
    have hin : ∀ i, Inside (s.setTriggered.client i) → Inside (s.client i) := by
      intro i hi
      simp only [State.setTriggered] at hi
      split at hi
      · rename_i hb; rw [hb]; trivial
      · exact hi
    refine ⟨?_, ?_, ?_, ?_, ?_, ?_⟩
    · intro i a _; exact since_announce (h.called i (hin i a.inside))
    · intro i a; exact since_announce (h.called i (hin i (by rw [show s.setTriggered.client i = .woken from a]; trivial)))
    · intro i a; simp [State.emit, State.setTriggered, h.called i (hin i a)]
    · simp [State.emit, State.setTriggered, inRun]
    · simp [State.emit]
    · exact split_append h.log ⟨hr, h.finished hw⟩
  · cases ht; exact inv38_quiet h rfl (fun x => x) (.inr (by simp [hw])) same
  · cases ht

theorem inv38_setC {s t : State Tid} {i : Tid} {p : CPC} (h : Inv38 s) (hlog : t.log = s.log)
    (htr : t.triggered = true → s.triggered = true) (hw : t.worker = s.worker)
    (hcl : t.client = Function.update s.client i p)
    (h1 : Cleared p → t.triggered = true → Cleared (s.client i)) (h2 : p = .woken → s.client i = .woken)
    (h3 : Inside p → Inside (s.client i)) : Inv38 t := by
  refine inv38_quiet h hlog htr (.inl hw) (fun j => ?_)
  rw [hcl]
  by_cases e : j = i
  · subst e; rw [Function.update_self]; exact ⟨h1, h2, h3⟩
  · rw [Function.update_of_ne e]; exact ⟨fun h _ => h, fun h => h, fun h => h⟩

theorem inv38_client {s t : State Tid} {i : Tid} (h : Inv38 s) (ht : s.clientStep i = some t) : Inv38 t := by
  unfold State.clientStep at ht
  split at ht
  all_goals rename_i hw
  · cases ht
  · split at ht
    · cases ht; exact inv38_setC h rfl (fun x => x) rfl rfl (by simp [Cleared]) (by simp) (by simp [Inside, hw])
    · cases ht
  · cases ht; exact inv38_setC h rfl (by simp [State.setC]) rfl rfl (by simp [State.setC]) (by simp) (by simp [Inside, hw])
  · cases ht
    refine inv38_emit (e := .trigger) (inv38_setC h (t := { s with event := true }.setC i .unlock) rfl (fun x => x) rfl rfl
      (by simp [Cleared, hw]) (by simp) (by simp [Inside, hw])) (by simp) (by simp) (by simp) (by simp) (by simp) trivial
  · cases ht
    exact inv38_setC h rfl (fun x => x) rfl rfl (by simp [Cleared, hw]) (by simp) (by simp [Inside, hw])
  · split at ht
    · rename_i htr
      cases ht
      refine inv38_emit (inv38_setC h (t := s.setC i .idle) rfl (fun x => x) rfl rfl (by simp [Cleared]) (by simp)
        (by simp [Inside])) (by simp) (by simp) (by simp) (by simp) (by simp) ?_
      exact h.cleared i (by rw [hw]; trivial) htr
    · cases ht
      exact inv38_setC h rfl (fun x => x) rfl rfl (by simp [Cleared, hw]) (by simp) (by simp [Inside, hw])
  · cases ht
  · cases ht
    refine inv38_emit (inv38_setC h (t := s.setC i .idle) rfl (fun x => x) rfl rfl (by simp [Cleared]) (by simp)
      (by simp [Inside])) (by simp) (by simp) (by simp) (by simp) (by simp) ?_
    exact h.woken i hw
  · split at ht
    · cases ht; exact inv38_setC h rfl (fun x => x) rfl rfl (by simp [Cleared]) (by simp) (by simp [Inside])
    · cases ht
  · cases ht; exact inv38_setC h rfl (fun x => x) rfl rfl (by simp [Cleared]) (by simp) (by simp [Inside])
  · cases ht; exact inv38_setC h rfl (fun x => x) rfl rfl (by simp [Cleared]) (by simp) (by simp [Inside])
  · cases ht; exact inv38_setC h rfl (fun x => x) rfl rfl (by simp [Cleared]) (by simp) (by simp [Inside])
  · split at ht
    · cases ht
      exact inv38_emit (inv38_setC h (t := s.setC i .idle) rfl (fun x => x) rfl rfl (by simp [Cleared]) (by simp)
        (by simp [Inside])) (by simp) (by simp) (by simp) (by simp) (by simp) trivial
    · cases ht

theorem inv38_step {s t : State Tid} {a : Act Tid} (h : Inv38 s) (ht : s.step a = some t) : Inv38 t := by
  have same : ∀ i, (Cleared (s.client i) → s.triggered = true → Cleared (s.client i)) ∧
      (s.client i = .woken → s.client i = .woken) ∧ (Inside (s.client i) → Inside (s.client i)) :=
    fun i => ⟨fun h _ => h, fun h => h, fun h => h⟩
  cases a with
  | worker late => exact inv38_worker h ht
  | fnRaise =>
    simp only [State.step] at ht
    split at ht
    · cases ht
      refine ⟨?_, ?_, ?_, ?_, ?_, ?_⟩
      · intro i a b; exact since_append (h.cleared i a b) (by simp)
      · intro i a; exact since_append (h.woken i a) (by simp)
      · intro i a; simp [State.emit, h.called i a]
      · simp [State.emit, inRun]
      · simp [State.emit]
      · exact split_append h.log trivial
    · cases ht
  | fnTrigger =>
    simp only [State.step] at ht
    split at ht
    · cases ht
      exact inv38_emit (inv38_quiet h (t := { s with event := true }) rfl (fun x => x) (.inl rfl) same) (by simp) (by simp)
        (by simp) (by simp) (by simp) trivial
    · cases ht
  | start =>
    simp only [State.step] at ht
    split at ht
    · rename_i hw
      cases ht
      exact inv38_quiet h rfl (fun x => x) (.inr (by simp [hw])) same
    · cases ht
  | trigger i =>
    simp only [State.step] at ht
    split at ht
    · cases ht
      exact inv38_emit (inv38_quiet h (t := { s with event := true }) rfl (fun x => x) (.inl rfl) same) (by simp) (by simp)
        (by simp) (by simp) (by simp) trivial
    · cases ht
  | triggerWait i =>
    simp only [State.step] at ht
    split at ht
    · rename_i hi
      cases ht
      have hcl : ∀ j, Cleared (Function.update s.client i .lock j) → j ≠ i ∧ Cleared (s.client j) := by
        intro j hj
        by_cases e : j = i
        · subst e; rw [Function.update_self] at hj; exact hj.elim
        · rw [Function.update_of_ne e] at hj; exact ⟨e, hj⟩
      refine ⟨?_, ?_, ?_, ?_, ?_, ?_⟩
      · intro j a b
        obtain ⟨h1, h2⟩ := hcl j a
        exact since_append (h.cleared j h2 b) (by simp [Ne.symm h1])
      · intro j a
        obtain ⟨h1, h2⟩ := hcl j (by
          rw [show Function.update s.client i .lock j = .woken from a]; trivial)
        have : s.client j = .woken := by
          have := a
          simp only [State.emit, State.setC, Function.update_of_ne h1] at this
          exact this
        exact since_append (h.woken j this) (by simp [Ne.symm h1])
      · intro j a
        by_cases e : j = i
        · subst e; simp [State.emit]
        · simp only [State.emit, State.setC, Function.update_of_ne e] at a
          simp [State.emit, State.setC, h.called j a]
      · have : inRun (s.log ++ [.called i]) = inRun s.log := by simp [inRun]
        simp only [State.emit, State.setC, this]; exact h.running
      · intro a
        have := h.finished a
        simp only [State.emit, State.setC, List.reverse_append, List.reverse_singleton, List.singleton_append, List.find?_cons]
        simpa using this
      · exact split_append h.log trivial
    · cases ht
  | close i =>
    simp only [State.step] at ht
    split at ht
    · cases ht
      exact inv38_setC h rfl (fun x => x) rfl rfl (by simp [Cleared]) (by simp) (by simp [Inside])
    · cases ht
  | go i => exact inv38_client h ht

theorem inv38_run (sch : List (Act Tid)) {s : State Tid} (h : Inv38 s) : Inv38 (s.run sch) := by
  induction sch generalizing s with
  | nil => exact h
  | cons a sch ih =>
    apply ih
    cases hs : s.step a with
    | none => simpa [hs] using h
    | some t => simpa [hs] using inv38_step h hs

theorem inv38_init : Inv38 (State.init : State Tid) := by
  refine ⟨?_, ?_, ?_, ?_, ?_, ?_⟩ <;> simp [State.init, Cleared, Inside, inRun]

theorem inRun_start {l₁ l₂ : List (Ev Tid)} (h1 : inRun l₁ = false) (h2 : inRun (l₁ ++ l₂) = true) : .start ∈ l₂ := by
  induction l₂ using List.reverseRecOn with
  | nil => simp [h1] at h2
  | append_singleton l e ih =>
    by_cases he : e = .start
    · simp [he]
    · have : inRun (l₁ ++ l) = true := by
        rw [← List.append_assoc] at h2
        cases e <;> simp [inRun] at h2 ⊢ <;> first | exact absurd rfl he | exact h2
      simp [ih this]

theorem find_finish {l₁ l₂ : List (Ev Tid)}
    (h : (l₁ ++ l₂).reverse.find? (fun e => e = .start ∨ e = .finish) = some .finish) (hs : .start ∈ l₂) : .finish ∈ l₂ := by
  rw [List.reverse_append, List.find?_append] at h
  cases hf : l₂.reverse.find? (fun e => e = .start ∨ e = .finish) with
  | none =>
    rw [List.find?_eq_none] at hf
    exact absurd (by simp) (hf .start (by simpa using hs))
  | some x =>
    rw [hf] at h
    simp at h
    subst h
    have := List.mem_of_find?_eq_some hf
    simpa using this

/-- C38: in every schedule, when a waiting trigger returns, the end of a run was announced since its call; and if no run was
in progress (or over but not announced yet) when it was called, then the function was started since the call and that run
has ended. -/
theorem C38_waiting_partial (sch : List (Act Tid)) (i : Tid) :
    let log := (State.init.run sch : State Tid).log
    ∀ l l', log = l ++ .returned i :: l' → ∃ l₁ l₂, l = l₁ ++ .called i :: l₂ ∧ .called i ∉ l₂ ∧ .announce ∈ l₂ ∧
      (inRun l₁ = false → .start ∈ l₂ ∧ .finish ∈ l₂) := by
  intro log l l' heq
  have h : Inv38 (State.init.run sch : State Tid) := inv38_run sch inv38_init
  obtain ⟨l₁, l₂, rfl, h2, h3⟩ := h.log l _ l' heq
  refine ⟨l₁, l₂, rfl, h2, h3, fun hr => ?_⟩
  obtain ⟨m₁, m₂, rfl⟩ := List.append_of_mem (show Ev.announce ∈ l₂ from h3)
  obtain ⟨k1, k2⟩ := h.log (l₁ ++ .called i :: m₁) .announce (m₂ ++ .returned i :: l') (by
    rw [show (State.init.run sch : State Tid).log = log from rfl, heq]; simp)
  rw [show l₁ ++ Ev.called i :: m₁ = (l₁ ++ [.called i]) ++ m₁ by simp] at k1 k2
  have hs : .start ∈ m₁ := inRun_start (by simpa [inRun] using hr) k1
  exact ⟨by simp [hs], by simp [find_finish k2 hs]⟩

/-- C38 is false of the code: the run in progress when the trigger is called (started before) lets it return. -/
theorem C38_counterexample :
    (State.init.run [.start, .trigger 0, .worker true, .worker true, .worker true, .worker true, .worker true, .worker true,
      .worker true, .triggerWait 0, .go 0, .go 0, .go 0, .go 0, .go 0, .worker true, .worker true, .go 0] : State (Fin 1)).log =
      [.trigger, .start, .called 0, .trigger, .finish, .announce, .returned 0] := by decide

/-! ### C80: a waiting trigger is woken -/

/-- The dispatcher owes the waiting clients a run. -/
def Busy : WPC → Prop
  | .new | .wait | .time => False
  | _ => True

structure Inv80 (s : State Tid) : Prop where
  blocked : ∀ i, s.client i = .blocked → s.event = true ∨ Busy s.worker ∨ ∃ j, s.client j = .set
  waiting : ∀ i, s.client i = .wait ∨ s.client i = .unlock →
    s.triggered = true ∨ s.event = true ∨ Busy s.worker ∨ ∃ j, s.client j = .set
  lock : ∀ i, s.client i = .clear ∨ s.client i = .set ∨ s.client i = .unlock ∨ s.client i = .closeBreak ∨
    s.client i = .closeSet ∨ s.client i = .closeUnlock → s.lock = some i
  ended : s.worker = .ended → s.brk = true

theorem inv80_busy {s t : State Tid} (h : Inv80 s) (hc : t.client = s.client) (hl : t.lock = s.lock) (hb : Busy t.worker)
    (he : t.worker = .ended → t.brk = true) : Inv80 t :=
  ⟨fun _ _ => .inr (.inl hb), fun _ _ => .inr (.inr (.inl hb)), by rw [hc, hl]; exact h.lock, he⟩

theorem inv80_worker {s t : State Tid} {late : Bool} (h : Inv80 s) (ht : s.workerStep late = some t) : Inv80 t := by
  unfold State.workerStep at ht
  split at ht
  all_goals rename_i hw
  · cases ht
  · split at ht
    · cases ht; exact inv80_busy h rfl rfl trivial (by simp)
    · cases ht
  · split at ht
    · cases ht; exact inv80_busy h rfl rfl trivial (by simp)
    · cases ht
  · cases ht
    refine inv80_busy h rfl rfl ?_ ?_
    · simp only; split <;> trivial
    · simp only; split <;> simp_all
  · cases ht
    refine inv80_busy h rfl rfl ?_ ?_
    · simp only; split
      · trivial
      · split <;> trivial
    · simp only; split
      · simp
      · split <;> simp
  · cases ht; exact inv80_busy h rfl rfl trivial (by simp)
  · cases ht; exact inv80_busy h rfl rfl trivial (by simp)
  · cases ht; exact inv80_busy h rfl rfl trivial (by simp)
  · cases ht
    refine inv80_busy h rfl rfl ?_ ?_
    · simp only; split <;> trivial
    · simp only; split <;> simp_all
  · cases ht; exact inv80_busy h rfl rfl trivial (by simp [State.emit])
  · cases ht; exact inv80_busy h rfl rfl trivial (by simp [State.emit])
  · cases ht
    refine ⟨?_, ?_, ?_, by simp [State.emit]⟩
    · intro i hi
      simp only [State.emit, State.setTriggered] at hi
      split at hi
      · cases hi
      · exact absurd hi (by assumption)
    · intro i hi; exact .inl rfl
    · intro i hi
      refine h.lock i ?_
      simp only [State.emit, State.setTriggered] at hi
      split at hi
      · simp at hi
      · exact hi
  · cases ht
    refine ⟨?_, ?_, h.lock, by simp⟩
    · intro i hi
      rcases h.blocked i hi with h1 | h1 | h1
      · exact .inl h1
      · rw [hw] at h1; exact h1.elim
      · exact .inr (.inr h1)
    · intro i hi
      rcases h.waiting i hi with h1 | h1 | h1 | h1
      · exact .inl h1
      · exact .inr (.inl h1)
      · rw [hw] at h1; exact h1.elim
      · exact .inr (.inr (.inr h1))
  · cases ht

/-- A client's own step: its point, the lock, and what the others see. -/
theorem inv80_setC {s t : State Tid} {i : Tid} {p : CPC} (h : Inv80 s) (hcl : t.client = Function.update s.client i p)
    (hw : t.worker = s.worker) (hbrk : s.brk = true → t.brk = true) (he : s.event = true → t.event = true)
    (htr : s.triggered = true → t.triggered = true ∨ p = .set)
    (hset : s.client i = .set → t.event = true)
    (hp : p = .blocked ∨ p = .wait ∨ p = .unlock → (p = .wait ∧ s.client i = .unlock) ∨ t.event = true ∨
      (p = .blocked ∧ s.client i = .wait ∧ s.triggered = false))
    (hlock : ∀ j, j ≠ i → s.lock = some j → t.lock = some j)
    (hlp : p = .clear ∨ p = .set ∨ p = .unlock ∨ p = .closeBreak ∨ p = .closeSet ∨ p = .closeUnlock → t.lock = some i) :
    Inv80 t := by
  have lift : (s.event = true ∨ Busy s.worker ∨ ∃ j, s.client j = .set) →
      t.event = true ∨ Busy t.worker ∨ ∃ j, t.client j = .set := by
    rintro (h1 | h1 | ⟨j, h1⟩)
    · exact .inl (he h1)
    · rw [hw]; exact .inr (.inl h1)
    · by_cases e : j = i
      · subst e; exact .inl (hset h1)
      · exact .inr (.inr ⟨j, by rw [hcl, Function.update_of_ne e]; exact h1⟩)
  have lift2 : (s.triggered = true ∨ s.event = true ∨ Busy s.worker ∨ ∃ j, s.client j = .set) →
      t.triggered = true ∨ t.event = true ∨ Busy t.worker ∨ ∃ j, t.client j = .set := by
    rintro (h1 | h1)
    · rcases htr h1 with h2 | h2
      · exact .inl h2
      · exact .inr (.inr (.inr ⟨i, by rw [hcl, Function.update_self, h2]⟩))
    · exact .inr (lift h1)
  refine ⟨?_, ?_, ?_, by rw [hw]; exact fun x => hbrk (h.ended x)⟩
  · intro j hj
    by_cases e : j = i
    · subst e
      rw [hcl, Function.update_self] at hj
      rcases hp (.inl hj) with ⟨h1, _⟩ | h1 | ⟨_, h1, h2⟩
      · rw [hj] at h1; cases h1
      · exact .inl h1
      · rcases h.waiting j (.inl h1) with h3 | h3
        · rw [h2] at h3; cases h3
        · exact lift h3
    · rw [hcl, Function.update_of_ne e] at hj
      exact lift (h.blocked j hj)
  · intro j hj
    by_cases e : j = i
    · subst e
      rw [hcl, Function.update_self] at hj
      rcases hp (.inr hj) with ⟨_, h1⟩ | h1 | ⟨h1, _⟩
      · exact lift2 (h.waiting j (.inr h1))
      · exact .inr (.inl h1)
      · rw [h1] at hj; simp at hj
    · rw [hcl, Function.update_of_ne e] at hj
      exact lift2 (h.waiting j hj)
  · intro j hj
    by_cases e : j = i
    · subst e
      rw [hcl, Function.update_self] at hj
      exact hlp hj
    · rw [hcl, Function.update_of_ne e] at hj
      exact hlock j e (h.lock j hj)

theorem inv80_emit {s : State Tid} (h : Inv80 s) (e : Ev Tid) : Inv80 (s.emit e) := ⟨h.blocked, h.waiting, h.lock, h.ended⟩

theorem inv80_client {s t : State Tid} {i : Tid} (h : Inv80 s) (ht : s.clientStep i = some t) : Inv80 t := by
  have hfree : ∀ j, j ≠ i → s.lock = some i → s.lock = some j → False := by
    intro j e h1 h2; rw [h1] at h2; cases h2; exact e rfl
  unfold State.clientStep at ht
  split at ht
  all_goals rename_i hw
  · cases ht
  · split at ht
    · rename_i hl
      cases ht
      refine inv80_setC h rfl rfl (fun x => x) (fun x => x) .inl (by simp [hw]) (by simp) ?_ (by simp [State.setC])
      intro j _ hj; rw [hl] at hj; cases hj
    · cases ht
  · cases ht
    have hl := h.lock i (.inl hw)
    refine inv80_setC h rfl rfl (fun x => x) (fun x => x) (fun _ => .inr rfl) (by simp [hw]) (by simp) (fun _ _ x => x) (fun _ => hl)
  · cases ht
    have hl := h.lock i (.inr (.inl hw))
    exact inv80_emit (inv80_setC h (t := { s with event := true }.setC i .unlock) rfl rfl (fun x => x) (fun _ => rfl) .inl
      (fun _ => rfl) (fun _ => .inr (.inl rfl)) (fun _ _ x => x) (fun _ => hl)) _
  · cases ht
    have hl := h.lock i (.inr (.inr (.inl hw)))
    exact inv80_setC h rfl rfl (fun x => x) (fun x => x) .inl (by simp [hw]) (fun _ => .inl ⟨rfl, hw⟩)
      (fun j e hj => (hfree j e hl hj).elim) (by simp)
  · split at ht
    · cases ht
      exact inv80_emit (inv80_setC h (t := s.setC i .idle) rfl rfl (fun x => x) (fun x => x) .inl (by simp [hw]) (by simp)
        (fun _ _ x => x) (by simp)) _
    · rename_i htr
      cases ht
      exact inv80_setC h rfl rfl (fun x => x) (fun x => x) .inl (by simp [hw])
        (fun _ => .inr (.inr ⟨rfl, hw, by simpa using htr⟩)) (fun _ _ x => x) (by simp)
  · cases ht
  · cases ht
    exact inv80_emit (inv80_setC h (t := s.setC i .idle) rfl rfl (fun x => x) (fun x => x) .inl (by simp [hw]) (by simp)
        (fun _ _ x => x) (by simp)) _
  · split at ht
    · rename_i hl
      cases ht
      refine inv80_setC h rfl rfl (fun x => x) (fun x => x) .inl (by simp [hw]) (by simp) ?_ (by simp [State.setC])
      intro j _ hj; rw [hl] at hj; cases hj
    · cases ht
  · cases ht
    have hl := h.lock i (by simp [hw])
    exact inv80_setC h rfl rfl (fun _ => rfl) (fun x => x) .inl (by simp [hw]) (by simp) (fun _ _ x => x) (fun _ => hl)
  · cases ht
    have hl := h.lock i (by simp [hw])
    exact inv80_setC h rfl rfl (fun x => x) (fun _ => rfl) .inl (by simp [hw]) (by simp) (fun _ _ x => x) (fun _ => hl)
  · cases ht
    have hl := h.lock i (by simp [hw])
    exact inv80_setC h rfl rfl (fun x => x) (fun x => x) .inl (by simp [hw]) (by simp) (fun j e hj => (hfree j e hl hj).elim)
      (by simp)
  · split at ht
    · cases ht
      exact inv80_emit (inv80_setC h (t := s.setC i .idle) rfl rfl (fun x => x) (fun x => x) .inl (by simp [hw]) (by simp)
        (fun _ _ x => x) (by simp)) _
    · cases ht

theorem inv80_event {s : State Tid} (h : Inv80 s) : Inv80 ({ s with event := true } : State Tid) :=
  ⟨fun _ _ => .inl rfl, fun _ _ => .inr (.inl rfl), h.lock, h.ended⟩

theorem inv80_step {s t : State Tid} {a : Act Tid} (h : Inv80 s) (ha : a ≠ .fnRaise) (ht : s.step a = some t) : Inv80 t := by
  cases a with
  | worker late => exact inv80_worker h ht
  | fnRaise => exact absurd rfl ha
  | fnTrigger =>
    simp only [State.step] at ht
    split at ht
    · cases ht; exact inv80_emit (inv80_event h) _
    · cases ht
  | start =>
    simp only [State.step] at ht
    split at ht
    · rename_i hw
      cases ht
      refine ⟨?_, ?_, h.lock, by simp⟩
      · intro i hi
        rcases h.blocked i hi with h1 | h1 | h1
        · exact .inl h1
        · rw [hw] at h1; exact h1.elim
        · exact .inr (.inr h1)
      · intro i hi
        rcases h.waiting i hi with h1 | h1 | h1 | h1
        · exact .inl h1
        · exact .inr (.inl h1)
        · rw [hw] at h1; exact h1.elim
        · exact .inr (.inr (.inr h1))
    · cases ht
  | trigger i =>
    simp only [State.step] at ht
    split at ht
    · cases ht; exact inv80_emit (inv80_event h) _
    · cases ht
  | triggerWait i =>
    simp only [State.step] at ht
    split at ht
    · rename_i hi
      cases ht
      exact inv80_emit (inv80_setC h (t := s.setC i .lock) rfl rfl (fun x => x) (fun x => x) .inl (by simp [hi]) (by simp)
        (fun _ _ x => x) (by simp)) _
    · cases ht
  | close i =>
    simp only [State.step] at ht
    split at ht
    · rename_i hi
      cases ht
      exact inv80_setC h rfl rfl (fun x => x) (fun x => x) .inl (by simp [hi]) (by simp) (fun _ _ x => x) (by simp)
    · cases ht
  | go i => exact inv80_client h ht

theorem inv80_run (sch : List (Act Tid)) (hs : .fnRaise ∉ sch) {s : State Tid} (h : Inv80 s) : Inv80 (s.run sch) := by
  induction sch generalizing s with
  | nil => exact h
  | cons a sch ih =>
    simp only [List.mem_cons, not_or] at hs
    apply ih hs.2
    cases ht : s.step a with
    | none => simpa [ht] using h
    | some t => simpa [ht] using inv80_step h (Ne.symm hs.1) ht

theorem inv80_init : Inv80 (State.init : State Tid) := by
  refine ⟨?_, ?_, ?_, ?_⟩ <;> simp [State.init]

/-- Steps until the end of the next run is announced. -/
def rank80 : WPC → Nat
  | .notify => 1
  | .running => 2
  | .call => 3
  | .check2 => 4
  | .reset _ => 5
  | .inner _ => 6
  | .clear2 _ => 7
  | .timed _ => 8
  | .check => 7
  | .clear => 8
  | .wait => 9
  | .time => 10
  | _ => 0

theorem woken_alone (n : Nat) {s : State Tid} {i : Tid} (h : s.client i = .woken) : (s.alone n).client i = .woken := by
  induction n generalizing s with
  | zero => exact h
  | succ n ih =>
    rw [alone_succ]
    apply ih
    unfold State.workerStep
    split
    all_goals first
      | exact h
      | (split <;> exact h)
      | (simp [State.emit, State.setTriggered, h])

/-- C80, if the function never raises: in every reachable state of a started dispatcher that nobody closes, whose lock is
free, every blocked waiting trigger is woken after at most ten steps of the dispatcher's thread on its own. -/
theorem C80_woken_partial (sch : List (Act Tid)) (hs : .fnRaise ∉ sch) (i : Tid) (s : State Tid) (hrun : s = State.init.run sch)
    (hi : s.client i = .blocked) (hn : s.worker ≠ .new) (hb : s.brk = false) (hl : s.lock = none) :
    (s.alone 10).client i = .woken := by
  suffices key : ∀ (n : Nat) (s : State Tid), Inv80 s → s.client i = .blocked → s.worker ≠ .new → s.brk = false → s.lock = none →
      rank80 s.worker ≤ n → (s.alone n).client i = .woken by
    refine key 10 s (hrun ▸ inv80_run sch hs inv80_init) hi hn hb hl ?_
    generalize s.worker = w
    cases w <;> simp [rank80]
  intro n
  induction n with
  | zero =>
    intro s h hi hn hb hl hr
    cases hw : s.worker <;> simp only [hw, rank80] at hr hn <;> try omega
    · exact absurd rfl hn
    · rw [h.ended hw] at hb; cases hb
  | succ n ih =>
    intro s h hi hn hb hl hr
    rw [alone_succ]
    cases hw : s.worker with
    | new => exact absurd hw hn
    | ended => rw [h.ended hw] at hb; cases hb
    | wait =>
      have he : s.event = true := by
        rcases h.blocked i hi with h1 | h1 | ⟨j, h1⟩
        · exact h1
        · rw [hw] at h1; exact h1.elim
        · have := h.lock j (.inr (.inl h1)); rw [hl] at this; cases this
      have hs : s.workerStep true = some { s with worker := .clear } := by simp [State.workerStep, hw, he]
      rw [hs]
      exact ih _ (inv80_worker h hs) hi (by simp) hb hl (by simp [hw, rank80] at hr ⊢; omega)
    | call =>
      have hs : s.workerStep true = some ({ s with worker := .running }.emit .start) := by simp [State.workerStep, hw]
      rw [hs]
      exact ih _ (inv80_worker h hs) hi (by simp [State.emit]) hb hl (by simp [hw, rank80, State.emit] at hr ⊢; omega)
    | clear =>
      have hs : s.workerStep true = some { s with event := false, worker := .check } := by simp [State.workerStep, hw, hl]
      rw [hs]
      exact ih _ (inv80_worker h hs) hi (by simp) hb hl (by simp [hw, rank80] at hr ⊢; omega)
    | check =>
      have hs : s.workerStep true = some { s with worker := .inner false } := by simp [State.workerStep, hw, hb]
      rw [hs]
      exact ih _ (inv80_worker h hs) hi (by simp) hb hl (by simp [hw, rank80] at hr ⊢; omega)
    | inner flag =>
      have hs : s.workerStep true = some { s with worker := .reset flag } := by simp [State.workerStep, hw, hb]
      rw [hs]
      exact ih _ (inv80_worker h hs) hi (by simp) hb hl (by simp [hw, rank80] at hr ⊢; omega)
    | timed flag =>
      have hs : s.workerStep true = some { s with worker := .clear2 (s.event || flag) } := by simp [State.workerStep, hw]
      rw [hs]
      exact ih _ (inv80_worker h hs) hi (by simp) hb hl (by simp [hw, rank80] at hr ⊢; omega)
    | clear2 flag =>
      have hs : s.workerStep true = some { s with event := false, worker := .inner flag } := by simp [State.workerStep, hw]
      rw [hs]
      exact ih _ (inv80_worker h hs) hi (by simp) hb hl (by simp [hw, rank80] at hr ⊢; omega)
    | reset flag =>
      have hs : s.workerStep true = some { s with event := s.event || flag, worker := .check2 } := by
        simp [State.workerStep, hw]
      rw [hs]
      exact ih _ (inv80_worker h hs) hi (by simp) hb hl (by simp [hw, rank80] at hr ⊢; omega)
    | check2 =>
      have hs : s.workerStep true = some { s with worker := .call } := by simp [State.workerStep, hw, hb]
      rw [hs]
      exact ih _ (inv80_worker h hs) hi (by simp) hb hl (by simp [hw, rank80] at hr ⊢; omega)
    | running =>
      have hs : s.workerStep true = some ({ s with worker := .notify }.emit .finish) := by simp [State.workerStep, hw]
      rw [hs]
      exact ih _ (inv80_worker h hs) hi (by simp [State.emit]) hb hl (by simp [hw, rank80, State.emit] at hr ⊢; omega)
    | notify =>
      have hs : s.workerStep true = some ({ s.setTriggered with worker := .time }.emit .announce) := by
        simp [State.workerStep, hw]
      rw [hs]
      exact woken_alone n (by simp [State.emit, State.setTriggered, hi])
    | time =>
      have hs : s.workerStep true = some { s with worker := .wait } := by simp [State.workerStep, hw]
      rw [hs]
      exact ih _ (inv80_worker h hs) hi (by simp) hb hl (by simp [hw, rank80] at hr ⊢; omega)

/-- A waiting trigger on an idle dispatcher blocks, is woken by the run it caused, and returns. -/
example : let s : State (Fin 1) := State.init.run [.start, .triggerWait 0, .go 0, .go 0, .go 0, .go 0, .go 0]
    s.client 0 = .blocked ∧ (s.alone 10).client 0 = .woken ∧
    ((s.alone 10).run [.go 0]).log = [.called 0, .trigger, .start, .finish, .announce, .returned 0] := by decide

/-- C80 is false of the code: a function that raises, and closing the dispatcher, leave the client blocked for ever with the
dispatcher idle or ended. -/
theorem C80_counterexample :
    (let s : State (Fin 1) := State.init.run [.start, .triggerWait 0, .go 0, .go 0, .go 0, .go 0, .go 0, .worker true,
      .worker true, .worker true, .worker true, .worker true, .worker true, .worker true, .fnRaise, .worker true]
    s.client 0 = .blocked ∧ (∀ late, (s.workerStep late).isNone) ∧ ∀ i, (s.clientStep i).isNone) ∧
    (let s : State (Fin 2) := State.init.run [.start, .triggerWait 0, .go 0, .go 0, .go 0, .go 0, .go 0, .close 1, .go 1, .go 1,
      .go 1, .go 1, .worker true, .worker true, .worker true, .go 1]
    s.client 0 = .blocked ∧ s.log = [.called 0, .trigger, .closed 1] ∧ s.worker = .ended ∧ ∀ i, (s.clientStep i).isNone) := by
  decide

end

end Verif.Dispatcher
