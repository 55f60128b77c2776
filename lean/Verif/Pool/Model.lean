import Mathlib.Logic.Function.Basic
import Mathlib.Data.Fintype.Basic
import Mathlib.Algebra.BigOperators.Group.Finset.Basic
import Verif.Py.Basic

/-!
Model of `ThreadPoolTask` and `ThreadPool` (`nion/utils/ThreadPool.py`) as a machine whose threads take atomic steps.

A thread has a stack of frames, the top one says what it does next. A queued function may itself call `queue_fn`,
`run_one`, `run_all`, `start` and `close` before it returns or raises. Which thread moves next and what a client (or a
running function) does is given by the schedule; every interleaving is a schedule. `queue.Queue` operations are atomic.

Simplifications. The sections under the pool lock (lines 135-137, 153-160, 156-157) are one step each: they do not block
and everything else that touches `closed` or the task list is under the same lock, except the read of `closed` in lines 165,
174 and 183, which is its own step. `cancel` (lines 102-106) is one step, which is possible only if no other thread is inside
`with self.__lock` of the task; lines 120-121 of `execute` are one step: the function field is only read under the task
lock. The task lock is held exactly by the threads with a `running` or `fin` frame for the task. Functions count as true
(line 112: `if self.__fn`).
-/

namespace Verif.Pool

open Verif.Py

/-- Who consumes the queue: `__run` (162-169), `run_one` (180-185), `run_all` (171-178). -/
inductive Kind where
  | worker
  | one
  | all
  deriving DecidableEq, Repr

/-- What a thread is about to do. -/
inductive Frame where
  /-- `while not self.__queue.empty()` / `if not self.__queue.empty()` -/
  | check (k : Kind)
  /-- `task = self.__queue.get()` -/
  | get (k : Kind)
  /-- `if task and not self.__closed` -/
  | got (k : Kind) (item : Option Nat)
  /-- `self.__queue.task_done()` and the rest of the loop -/
  | done (k : Kind) (item : Option Nat)
  /-- entering `with self.__lock` in `execute` -/
  | exec (t : Nat)
  /-- inside `self.__fn()` -/
  | running (t : Nat)
  /-- `self.__fn = None; self.__finished_fn(self)` -/
  | fin (t : Nat)
  /-- `for task in tasks: task.cancel()`, the tasks still to cancel -/
  | cancel (ts : List Nat)
  /-- `for _ in self.__threads: self.__queue.put(None)`, the number of threads passed -/
  | put (i : Nat)
  /-- `if len(self.__threads) > 0: self.__queue.join()` -/
  | join
  /-- `for _ in range(thread_count)`: threads still to start -/
  | start (n : Nat)
  /-- `self.__threads.append(thread)`, then so many threads to start -/
  | append (n : Nat)
  deriving DecidableEq, Repr

/-- Observable events. -/
inductive Ev where
  | queued (t : Nat)
  | refused
  | started (t : Nat)
  | finished (t : Nat)
  | cancelled (t : Nat)
  | closeCalled
  | closeReturned
  | raised (e : Exc)
  deriving DecidableEq, Repr

/-- The pool (127-132), its tasks (`live t`: the function of task `t` is not `None`), and the stacks of all threads. -/
structure State (Tid : Type*) where
  closed : Bool
  queue : List (Option Nat)
  unfinished : Nat
  nThreads : Nat
  tasks : List Nat
  live : Nat → Bool
  next : Nat
  stk : Tid → List Frame
  log : List Ev

/-- What a client thread or a running function does next; `ret` ends the running function (returning or raising: the
exception is swallowed, lines 113-119). -/
inductive Call (Tid : Type*) where
  | queueFn
  | close
  | runOne
  | runAll
  | start (n : Nat)
  | spawn (w : Tid)
  | ret
  deriving DecidableEq

section
variable {Tid : Type*} [DecidableEq Tid]

def State.init : State Tid := ⟨false, [], 0, 0, [], fun _ => false, 0, fun _ => [], []⟩

def State.setStack (s : State Tid) (tid : Tid) (st : List Frame) : State Tid :=
  { s with stk := Function.update s.stk tid st }

def State.emit (s : State Tid) (e : Ev) : State Tid := { s with log := s.log ++ [e] }

/-- The thread is inside `with self.__lock` of the task. -/
def Holds (st : List Frame) (t : Nat) : Prop := .running t ∈ st ∨ .fin t ∈ st

instance (st : List Frame) (t : Nat) : Decidable (Holds st t) := by unfold Holds; infer_instance

/-- The task's re-entrant lock can be taken by the thread. -/
def LockFree (s : State Tid) (tid : Tid) (t : Nat) : Prop := ∀ w, w ≠ tid → ¬ Holds (s.stk w) t

instance [Fintype Tid] (s : State Tid) (tid : Tid) (t : Nat) : Decidable (LockFree s tid t) := by
  unfold LockFree; infer_instance

/-- An exception leaves all frames up to the innermost running function, whose `execute` catches it (115). -/
def unwind : List Frame → List Frame
  | [] => []
  | .running t :: st => .fin t :: st
  | _ :: st => unwind st

/-- Calls of a client or of a running function; `st` is its stack. -/
def call (s : State Tid) (tid : Tid) (st : List Frame) : Call Tid → Option (State Tid)
  | .queueFn =>  -- 152-160
    if s.closed then some (s.emit .refused)
    else some { s with tasks := s.tasks ++ [s.next], live := Function.update s.live s.next true,
                       queue := s.queue ++ [some s.next], unfinished := s.unfinished + 1, next := s.next + 1,
                       log := s.log ++ [.queued s.next] }
  | .close =>  -- 135-137
    some (({ s with closed := true }.setStack tid (.cancel s.tasks :: st)).emit .closeCalled)
  | .runOne => some (s.setStack tid (.check .one :: st))
  | .runAll => some (s.setStack tid (.check .all :: st))
  | .start n => some (s.setStack tid (.start n :: st))
  | .spawn _ => none
  | .ret => none

/-- After `task_done`: `__run` (168-169, 163) and `run_all` (177-178, 172) go on unless they took the end marker. -/
def afterDone (k : Kind) (item : Option Nat) (st : List Frame) : List Frame :=
  match k, item with
  | .worker, some _ => .get .worker :: st
  | .all, some _ => .check .all :: st
  | _, _ => st

/-- One atomic step of a thread; `none` when it is blocked. -/
def step [Fintype Tid] (s : State Tid) (tid : Tid) (c : Call Tid) : Option (State Tid) :=
  match s.stk tid with
  | [] => call s tid [] c
  | .running t :: st =>
    if c = .ret then some (s.setStack tid (.fin t :: st)) else call s tid (.running t :: st) c
  | .check k :: st => if s.queue = [] then some (s.setStack tid st) else some (s.setStack tid (.get k :: st))
  | .get k :: st =>
    match s.queue with
    | [] => none
    | item :: q => some ({ s with queue := q }.setStack tid (.got k item :: st))
  | .got k none :: st => some (s.setStack tid (.done k none :: st))
  | .got k (some t) :: st =>
    if s.closed then some (s.setStack tid (.done k (some t) :: st))
    else some (s.setStack tid (.exec t :: .done k (some t) :: st))
  | .exec t :: st =>
    if LockFree s tid t then
      if s.live t then some ((s.setStack tid (.running t :: st)).emit (.started t))
      else some (s.setStack tid st)
    else none
  | .fin t :: st =>
    if t ∈ s.tasks then
      some (({ s with live := Function.update s.live t false, tasks := s.tasks.erase t }.setStack tid st).emit (.finished t))
    else
      some ((({ s with live := Function.update s.live t false }.setStack tid (unwind st)).emit (.finished t)).emit
        (.raised .valueError))
  | .done k item :: st =>
    if s.unfinished = 0 then some ((s.setStack tid (unwind st)).emit (.raised .valueError))
    else
      some ({ s with unfinished := s.unfinished - 1 }.setStack tid
        (afterDone k item st))
  | .cancel [] :: st => some (s.setStack tid (.put 0 :: st))
  | .cancel (t :: ts) :: st =>
    if LockFree s tid t then
      if s.live t then
        if t ∈ s.tasks then
          some (({ s with live := Function.update s.live t false, tasks := s.tasks.erase t }.setStack tid
            (.cancel ts :: st)).emit (.cancelled t))
        else
          some ((({ s with live := Function.update s.live t false }.setStack tid (unwind st)).emit (.cancelled t)).emit
            (.raised .valueError))
      else some (s.setStack tid (.cancel ts :: st))
    else none
  | .put i :: st =>
    if i < s.nThreads then
      some ({ s with queue := s.queue ++ [none], unfinished := s.unfinished + 1 }.setStack tid (.put (i + 1) :: st))
    else some (s.setStack tid (.join :: st))
  | .join :: st =>
    if s.nThreads = 0 ∨ s.unfinished = 0 then some ((s.setStack tid st).emit .closeReturned) else none
  | .start 0 :: st => some (s.setStack tid st)
  | .start (n + 1) :: st =>
    match c with
    | .spawn w =>
      if w ≠ tid ∧ s.stk w = [] then
        some ((s.setStack w [.get .worker]).setStack tid (.append n :: st))
      else none
    | _ => none
  | .append n :: st => some ({ s with nThreads := s.nThreads + 1 }.setStack tid (.start n :: st))

/-- A schedule; a thread that is blocked does not move. -/
def run [Fintype Tid] (s : State Tid) (sch : List (Tid × Call Tid)) : State Tid :=
  sch.foldl (fun s p => (step s p.1 p.2).getD s) s

end

end Verif.Pool
