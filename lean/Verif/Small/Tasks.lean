import Mathlib.Data.List.Induction
import Mathlib.Data.List.Perm.Basic
import Verif.Py.Dict

/-!
Model of `TaskQueue` and `TaskSet` (`nion/utils/Process.py`) and properties C33, C34.

A task is an identifier; its behaviour is given by the calls it makes on the queue (or set) it is run from and the
exception it may end with. Tasks that call `perform_tasks` themselves and several threads are in
`QueueThreads.lean`.
-/

namespace Verif.Tasks

open Verif.Py

/-! ### TaskQueue -/

section queue
variable {T : Type*}

/-- What a task does to the queue it is run from. -/
inductive QAct (T : Type*) where
  | put (t : T)
  | clear
  deriving DecidableEq

/-- `queue.Queue`: contents and the counter of unfinished tasks; `ran` records which tasks were started. -/
structure TQ (T : Type*) where
  queue : List T
  unfinished : Nat
  ran : List T
  deriving DecidableEq

def TQ.init : TQ T := ⟨[], 0, []⟩

/-- `queue.Queue.put` -/
def TQ.put (q : TQ T) (t : T) : TQ T := { q with queue := q.queue ++ [t], unfinished := q.unfinished + 1 }

/-- `queue.Queue.task_done` -/
def TQ.taskDone (q : TQ T) : TQ T × Option Exc :=
  if q.unfinished = 0 then (q, some .valueError) else ({ q with unfinished := q.unfinished - 1 }, none)

/-- the loop of Process.py:36-43, `n` is `qsize` -/
def TQ.clearLoop : Nat → TQ T → TQ T × Option Exc
  | 0, q => (q, none)
  | n + 1, q =>
    match q.queue with
    | [] => (q, none)
    | _ :: ts =>
      match TQ.taskDone { q with queue := ts } with
      | (q1, some e) => (q1, some e)
      | (q1, none) => TQ.clearLoop n q1

/-- Process.py:33-43. -/
def TQ.clearTasks (q : TQ T) : TQ T × Option Exc := TQ.clearLoop q.queue.length q

/-- The calls a task makes, up to the first exception. -/
def TQ.acts : List (QAct T) → TQ T → TQ T × Option Exc
  | [], q => (q, none)
  | .put t :: as, q => TQ.acts as (q.put t)
  | .clear :: as, q =>
    match q.clearTasks with
    | (q1, some e) => (q1, some e)
    | (q1, none) => TQ.acts as q1

/-- the loop of Process.py:23-31, `n` is `qsize` -/
def TQ.performLoop (beh : T → List (QAct T) × Option Exc) : Nat → TQ T → TQ T × Option Exc
  | 0, q => (q, none)
  | n + 1, q =>
    match q.queue with
    | [] => (q, none)
    | t :: ts =>
      match TQ.acts (beh t).1 { q with queue := ts, ran := q.ran ++ [t] } with
      | (q1, some e) => (q1, some e)
      | (q1, none) =>
        match (beh t).2 with
        | some e => (q1, some e)
        | none =>
          match q1.taskDone with
          | (q2, some e) => (q2, some e)
          | (q2, none) => TQ.performLoop beh n q2

/-- Process.py:20-31. -/
def TQ.performTasks (beh : T → List (QAct T) × Option Exc) (q : TQ T) : TQ T × Option Exc :=
  TQ.performLoop beh q.queue.length q

/-! Specification: the tasks a task queues. -/
def puts (beh : T → List (QAct T) × Option Exc) (t : T) : List T :=
  (beh t).1.filterMap fun | .put x => some x | .clear => none

/-- the task only queues tasks -/
def Quiet (beh : T → List (QAct T) × Option Exc) (t : T) : Prop := QAct.clear ∉ (beh t).1

/-- the queue's own counter is at least its length -/
def TQ.Sane (q : TQ T) : Prop := q.queue.length ≤ q.unfinished

theorem clearLoop_eq (n : Nat) (q : TQ T) (h : q.Sane) (hn : n = q.queue.length) :
    TQ.clearLoop n q = (⟨[], q.unfinished - q.queue.length, q.ran⟩, none) := by
  induction n generalizing q with
  | zero =>
    obtain ⟨qu, u, r⟩ := q
    have : qu = [] := List.eq_nil_of_length_eq_zero hn.symm
    subst this; simp [TQ.clearLoop]
  | succ n ih =>
    obtain ⟨qu, u, r⟩ := q
    cases qu with
    | nil => simp at hn
    | cons t ts =>
      simp only [TQ.Sane, List.length_cons] at h
      simp only [List.length_cons] at hn
      simp only [TQ.clearLoop, TQ.taskDone, if_neg (show ¬ u = 0 by omega)]
      rw [ih _ (by simp only [TQ.Sane]; omega) (by simp only; omega)]
      simp only [List.length_cons]
      congr 2; omega

theorem clearTasks_eq (q : TQ T) (h : q.Sane) :
    q.clearTasks = (⟨[], q.unfinished - q.queue.length, q.ran⟩, none) := clearLoop_eq _ q h rfl

theorem acts_put (as : List (QAct T)) (q : TQ T) (h : QAct.clear ∉ as) :
    TQ.acts as q = (⟨q.queue ++ as.filterMap (fun | .put x => some x | .clear => none),
      q.unfinished + (as.filterMap (fun | .put x => some x | .clear => none)).length, q.ran⟩, none) := by
  induction as generalizing q with
  | nil => simp [TQ.acts]
  | cons a as ih =>
    cases a with
    | clear => simp at h
    | put t =>
      simp only [List.mem_cons, not_or] at h
      simp only [TQ.acts, ih _ h.2, TQ.put, List.filterMap_cons]
      simp; omega

/-- Sanity is kept by whatever a task does, nothing in the queue itself raises, and nothing is run. -/
theorem acts_sane (as : List (QAct T)) (q : TQ T) (k : Nat) (h : q.queue.length + k ≤ q.unfinished) :
    (TQ.acts as q).2 = none ∧ (TQ.acts as q).1.queue.length + k ≤ (TQ.acts as q).1.unfinished ∧
      (TQ.acts as q).1.ran = q.ran := by
  induction as generalizing q with
  | nil => exact ⟨rfl, h, rfl⟩
  | cons a as ih =>
    cases a with
    | put t => exact ih (q.put t) (by simp [TQ.put]; omega)
    | clear =>
      simp only [TQ.acts, clearTasks_eq q (by unfold TQ.Sane; omega)]
      exact ih _ (by simp; omega)

/-- One round of the loop. -/
theorem performLoop_succ (beh : T → List (QAct T) × Option Exc) (n : Nat) (t : T) (ts : List T) (u : Nat) (r : List T)
    (hq : Quiet beh t) (hu : ts.length < u) :
    TQ.performLoop beh (n + 1) ⟨t :: ts, u, r⟩ =
      match (beh t).2 with
      | some e => (⟨ts ++ puts beh t, u + (puts beh t).length, r ++ [t]⟩, some e)
      | none => TQ.performLoop beh n ⟨ts ++ puts beh t, u + (puts beh t).length - 1, r ++ [t]⟩ := by
  simp only [TQ.performLoop, acts_put _ _ hq, puts]
  cases (beh t).2 with
  | some e => rfl
  | none =>
    simp only [TQ.taskDone]
    rw [if_neg (by omega)]

theorem performLoop_ok (beh : T → List (QAct T) × Option Exc) (pre rest : List T) (m u : Nat) (r : List T)
    (hq : ∀ t ∈ pre, Quiet beh t ∧ (beh t).2 = none) (hu : pre.length + rest.length ≤ u) :
    TQ.performLoop beh (pre.length + m) ⟨pre ++ rest, u, r⟩ =
      TQ.performLoop beh m ⟨rest ++ pre.flatMap (puts beh), u + (pre.flatMap (puts beh)).length - pre.length, r ++ pre⟩ := by
  induction pre generalizing rest u r with
  | nil => simp
  | cons t pre ih =>
    have ht := hq t (by simp)
    simp only [List.length_cons] at hu
    rw [show (t :: pre).length + m = (pre.length + m) + 1 by simp; omega, List.cons_append,
      performLoop_succ beh _ t _ u r ht.1 (by simp; omega), ht.2]
    simp only
    rw [List.append_assoc, ih (rest ++ puts beh t) _ _ (fun t' h' => hq t' (by simp [h'])) (by simp; omega)]
    simp only [List.flatMap_cons, List.append_assoc, List.length_append, List.length_cons, List.singleton_append]
    congr 2; omega

/-- C33 (tasks that do not clear the queue): performing runs the tasks that were in the queue, in order, each once. If none
raises, exactly the tasks queued meanwhile are left. If one raises, the exception comes out, the batch stops there, and the
tasks behind it are left in front of those queued meanwhile. The counter used by `join` counts every queued task that has
not finished, including the raising one. -/
theorem C33_perform_partial (beh : T → List (QAct T) × Option Exc) (q : TQ T) (hs : q.Sane)
    (hq : ∀ t ∈ q.queue, Quiet beh t) :
    ((∀ t ∈ q.queue, (beh t).2 = none) → q.performTasks beh =
      (⟨q.queue.flatMap (puts beh), q.unfinished + (q.queue.flatMap (puts beh)).length - q.queue.length, q.ran ++ q.queue⟩,
        none)) ∧
    (∀ pre t post e, q.queue = pre ++ t :: post → (∀ x ∈ pre, (beh x).2 = none) → (beh t).2 = some e → q.performTasks beh =
      (⟨post ++ (pre ++ [t]).flatMap (puts beh), q.unfinished + ((pre ++ [t]).flatMap (puts beh)).length - pre.length,
        q.ran ++ pre ++ [t]⟩, some e)) := by
  obtain ⟨qu, u, r⟩ := q
  simp only [TQ.Sane] at hs
  refine ⟨fun h => ?_, fun pre t post e hd hpre ht => ?_⟩
  · have := performLoop_ok beh qu [] 0 u r (fun t ht => ⟨hq t ht, h t ht⟩) (by simpa using hs)
    simp only [List.append_nil, Nat.add_zero, List.nil_append] at this
    simp only [TQ.performTasks, this]
    rfl
  · simp only at hd hq
    subst hd
    simp only [List.length_append, List.length_cons] at hs
    have := performLoop_ok beh pre (t :: post) (post.length + 1) u r
      (fun x hx => ⟨hq x (by simp [hx]), hpre x hx⟩) (by simp; omega)
    simp only [TQ.performTasks]
    rw [show (pre ++ t :: post).length = pre.length + (post.length + 1) by simp, this, List.cons_append,
      performLoop_succ beh _ t _ _ _ (hq t (by simp)) (by simp; omega), ht]
    simp only [List.flatMap_append, List.flatMap_cons, List.flatMap_nil, List.append_nil, List.append_assoc,
      List.length_append]
    congr 2; omega

/-- C33: clearing discards everything without running anything and without raising. -/
theorem C33_clear (q : TQ T) (h : q.Sane) :
    q.clearTasks = (⟨[], q.unfinished - q.queue.length, q.ran⟩, none) := clearTasks_eq q h

theorem performLoop_sane (beh : T → List (QAct T) × Option Exc) (n : Nat) (q : TQ T) (h : q.Sane) :
    (TQ.performLoop beh n q).1.Sane ∧ (∃ l, (TQ.performLoop beh n q).1.ran = q.ran ++ l ∧ l.length ≤ n) ∧
    (∀ e, (TQ.performLoop beh n q).2 = some e → ∃ t, (beh t).2 = some e) := by
  induction n generalizing q with
  | zero => exact ⟨h, ⟨[], by simp [TQ.performLoop]⟩, by simp [TQ.performLoop]⟩
  | succ n ih =>
    obtain ⟨qu, u, r⟩ := q
    cases qu with
    | nil => exact ⟨h, ⟨[], by simp [TQ.performLoop]⟩, by simp [TQ.performLoop]⟩
    | cons t ts =>
      have ha := acts_sane (beh t).1 ⟨ts, u, r ++ [t]⟩ 1 (by simpa [TQ.Sane] using h)
      unfold TQ.performLoop
      simp only
      generalize TQ.acts (beh t).1 ⟨ts, u, r ++ [t]⟩ = p at ha
      obtain ⟨q1, e1⟩ := p
      obtain ⟨ha1, ha2, ha3⟩ := ha
      simp only at ha1 ha2 ha3
      subst ha1
      simp only
      cases hb : (beh t).2 with
      | some e =>
        refine ⟨by simp only [TQ.Sane]; omega, ⟨[t], by simp [ha3], by simp⟩, ?_⟩
        rintro e' he'; cases he'; exact ⟨t, hb⟩
      | none =>
        simp only [TQ.taskDone]
        rw [if_neg (by omega)]
        simp only
        obtain ⟨i1, ⟨l, i2, i3⟩, i4⟩ := ih { q1 with unfinished := q1.unfinished - 1 } (by simp only [TQ.Sane]; omega)
        refine ⟨i1, ⟨t :: l, ?_, by simp; omega⟩, i4⟩
        rw [i2]; simp [ha3]

/-- Clients' calls. -/
inductive QOp (T : Type*) where
  | put (t : T)
  | perform
  | clear

def TQ.step (beh : T → List (QAct T) × Option Exc) (q : TQ T) : QOp T → TQ T × Option Exc
  | .put t => (q.put t, none)
  | .perform => q.performTasks beh
  | .clear => q.clearTasks

def TQ.run (beh : T → List (QAct T) × Option Exc) (q : TQ T) (os : List (QOp T)) : TQ T :=
  os.foldl (fun q o => (q.step beh o).1) q

theorem sane_run (beh : T → List (QAct T) × Option Exc) (os : List (QOp T)) (q : TQ T) (h : q.Sane) : (q.run beh os).Sane := by
  induction os generalizing q with
  | nil => exact h
  | cons o os ih =>
    apply ih
    cases o with
    | put t => simp only [TQ.Sane, TQ.step, TQ.put, List.length_append, List.length_singleton] at *; omega
    | perform => exact (performLoop_sane beh _ q h).1
    | clear => simp [TQ.Sane, TQ.step, clearTasks_eq q h]

/-- C33: whatever the tasks do, after every history of calls a call of `perform_tasks` runs at most as many tasks as were
queued, raises only what a task raises, and `clear_tasks` empties the queue without raising or running anything. -/
theorem C33_bounded (beh : T → List (QAct T) × Option Exc) (os : List (QOp T)) :
    let q : TQ T := TQ.init.run beh os
    q.Sane ∧ (∃ l, (q.performTasks beh).1.ran = q.ran ++ l ∧ l.length ≤ q.queue.length) ∧
    (∀ e, (q.performTasks beh).2 = some e → ∃ t, (beh t).2 = some e) ∧
    q.clearTasks.1.queue = [] ∧ q.clearTasks.1.ran = q.ran ∧ q.clearTasks.2 = none := by
  intro q
  have h : q.Sane := sane_run beh os _ (by simp [TQ.Sane, TQ.init])
  obtain ⟨_, h2, h3⟩ := performLoop_sane beh q.queue.length q h
  rw [clearTasks_eq q h]
  exact ⟨h, h2, h3, rfl, rfl, rfl⟩

/-- task 0 queues 10 and 11, task 1 raises, task 2 is left -/
example : TQ.performTasks (fun t : Nat => if t = 0 then ([.put 10, .put 11], none) else if t = 1 then ([.put 12], some (.user 7))
      else ([], none)) ⟨[0, 1, 2], 3, []⟩ = (⟨[2, 10, 11, 12], 5, [0, 1]⟩, some (.user 7)) := by decide

/-- C33 is false of the code for a task that clears the queue: the batch is bounded by a number, not by the tasks, so a task
queued meanwhile (10) is run in the same batch. -/
theorem C33_counterexample :
    TQ.performTasks (fun t : Nat => if t = 0 then ([.clear, .put 10], none) else ([], none)) ⟨[0, 1], 2, []⟩ =
      (⟨[], 0, [0, 10]⟩, none) := by decide

/-- Specification: what a task queues after it clears the queue for the last time. -/
def afterClear : List (QAct T) → Option (List T)
  | [] => none
  | .put _ :: as => afterClear as
  | .clear :: as => match afterClear as with
    | some l => some l
    | none => some (as.filterMap fun | .put x => some x | .clear => none)

theorem afterClear_none {as : List (QAct T)} : afterClear as = none ↔ QAct.clear ∉ as := by
  induction as with
  | nil => simp [afterClear]
  | cons a as ih =>
    cases a with
    | put x => simp [afterClear, ih]
    | clear =>
      simp only [afterClear, List.mem_cons, true_or, not_true, iff_false]
      cases afterClear as <;> simp

theorem acts_afterClear (as : List (QAct T)) (q : TQ T) (k : Nat) (h : q.queue.length + k ≤ q.unfinished) {l : List T}
    (ha : afterClear as = some l) : (TQ.acts as q).1.queue = l := by
  induction as generalizing q l with
  | nil => cases ha
  | cons a as ih =>
    cases a with
    | put x => exact ih (q.put x) (by simp [TQ.put]; omega) ha
    | clear =>
      simp only [TQ.acts, clearTasks_eq q (by unfold TQ.Sane; omega)]
      simp only [afterClear] at ha
      rcases hc : afterClear as with _ | l'
      · rw [hc] at ha
        simp only [Option.some.injEq] at ha
        rw [acts_put as _ (afterClear_none.1 hc)]
        simpa using ha
      · rw [hc] at ha
        cases ha
        exact ih _ (by simp; omega) hc

/-- C33, exactly when a task clears the queue: the tasks before it neither clear the queue nor raise, it clears it, does not raise,
and queues the tasks `l` afterwards. The batch ends there, with just `l` left in the queue, if and only if `l` is empty or the task
was the last one of the batch; otherwise the first task of `l` is run next, in the same batch. -/
theorem C33_clearing_iff_partial (beh : T → List (QAct T) × Option Exc) (q : TQ T) (hs : q.Sane) (pre post : List T) (t : T)
    (hd : q.queue = pre ++ t :: post) (hpre : ∀ x ∈ pre, Quiet beh x ∧ (beh x).2 = none) (ht : (beh t).2 = none) (l : List T)
    (hl : afterClear (beh t).1 = some l) :
    ((l = [] ∨ post = []) → (q.performTasks beh).1.ran = q.ran ++ pre ++ [t] ∧ (q.performTasks beh).1.queue = l ∧
      (q.performTasks beh).2 = none) ∧
    (∀ x l', l = x :: l' → post ≠ [] → ∃ r, (q.performTasks beh).1.ran = q.ran ++ pre ++ [t, x] ++ r) := by
  obtain ⟨qu, u, r⟩ := q
  simp only [TQ.Sane] at hs hd
  subst hd
  simp only [List.length_append, List.length_cons] at hs
  have hloop := performLoop_ok beh pre (t :: post) (post.length + 1) u r hpre (by simp; omega)
  have ha := acts_sane (beh t).1 ⟨post ++ pre.flatMap (puts beh), u + (pre.flatMap (puts beh)).length - pre.length, r ++ pre ++ [t]⟩ 1
    (by simp; omega)
  have hq := acts_afterClear (beh t).1
    ⟨post ++ pre.flatMap (puts beh), u + (pre.flatMap (puts beh)).length - pre.length, r ++ pre ++ [t]⟩ 1 (by simp; omega) hl
  have hstep : ∃ u', TQ.performTasks beh ⟨pre ++ t :: post, u, r⟩ = TQ.performLoop beh post.length ⟨l, u', r ++ pre ++ [t]⟩ ∧
      l.length ≤ u' := by
    simp only [TQ.performTasks]
    rw [show (pre ++ t :: post).length = pre.length + (post.length + 1) by simp, hloop, List.cons_append]
    simp only [TQ.performLoop]
    generalize TQ.acts (beh t).1 _ = p at ha hq ⊢
    obtain ⟨⟨q1, u1, r1⟩, e1⟩ := p
    obtain ⟨ha1, ha2, ha3⟩ := ha
    simp only at ha1 ha2 ha3 hq
    subst ha1 hq ha3
    simp only [ht, TQ.taskDone]
    rw [if_neg (by omega)]
    exact ⟨_, rfl, by omega⟩
  obtain ⟨u', hstep, hu'⟩ := hstep
  refine ⟨fun h => ?_, fun x l' hx hp => ?_⟩
  · rw [hstep]
    rcases h with rfl | rfl
    · cases post <;> simp [TQ.performLoop]
    · simp [TQ.performLoop]
  · subst hx
    obtain ⟨y, ys, rfl⟩ := List.exists_cons_of_ne_nil hp
    rw [hstep]
    simp only [List.length_cons, TQ.performLoop]
    simp only [List.length_cons] at hu'
    have hx := acts_sane (beh x).1 ⟨l', u', r ++ pre ++ [t] ++ [x]⟩ 1 (by simp; omega)
    generalize TQ.acts (beh x).1 _ = p at hx ⊢
    obtain ⟨q2, e2⟩ := p
    obtain ⟨hx1, hx2, hx3⟩ := hx
    simp only at hx1 hx2 hx3
    subst hx1
    simp only
    cases (beh x).2 with
    | some e => exact ⟨[], by simp [hx3]⟩
    | none =>
      simp only [TQ.taskDone]
      rw [if_neg (by omega)]
      obtain ⟨-, ⟨l2, h2, -⟩, -⟩ := performLoop_sane beh ys.length { q2 with unfinished := q2.unfinished - 1 }
        (by simp only [TQ.Sane]; omega)
      exact ⟨l2, by rw [h2]; simp [hx3]⟩

/-- Task 0 clears the queue and queues 10; as the last task of the batch it leaves 10 for the next one. -/
example : TQ.performTasks (fun t : Nat => if t = 0 then ([.put 9, .clear, .put 10], none) else ([], none)) ⟨[1, 0], 2, []⟩ =
    (⟨[10], 1, [1, 0]⟩, none) := by decide

end queue

/-! ### TaskSet -/

section set
variable {K T : Type*} [DecidableEq K]

/-- What a task does to the set it is run from. -/
inductive SAct (K T : Type*) where
  | add (k : K) (t : T)
  | clear (k : K)
  deriving DecidableEq

/-- Process.py:50-52; `ran` records which tasks were started, with their keys. -/
structure TS (K T : Type*) where
  dict : List (K × T)
  ran : List (K × T)
  deriving DecidableEq

/-- Process.py:53-59 -/
def TS.act (s : TS K T) : SAct K T → TS K T
  | .add k t => { s with dict := dset s.dict k t }
  | .clear k => { s with dict := ddel s.dict k }

/-- the loop of Process.py:64-65 -/
def TS.loop (beh : T → List (SAct K T) × Option Exc) : List (K × T) → TS K T → TS K T × Option Exc
  | [], s => (s, none)
  | (k, t) :: l, s =>
    let s1 := (beh t).1.foldl TS.act { s with ran := s.ran ++ [(k, t)] }
    match (beh t).2 with
    | some e => (s1, some e)
    | none => TS.loop beh l s1

/-- Process.py:60-65 -/
def TS.performTasks (beh : T → List (SAct K T) × Option Exc) (s : TS K T) : TS K T × Option Exc :=
  TS.loop beh s.dict { s with dict := [] }

inductive SOp (K T : Type*) where
  | act (a : SAct K T)
  | perform

def TS.step (beh : T → List (SAct K T) × Option Exc) (s : TS K T) : SOp K T → TS K T × Option Exc
  | .act a => (s.act a, none)
  | .perform => s.performTasks beh

def TS.run (beh : T → List (SAct K T) × Option Exc) (s : TS K T) (os : List (SOp K T)) : TS K T :=
  os.foldl (fun s o => (s.step beh o).1) s

/-! ### Specification of the set: a map from keys to the latest task, without order -/

/-- The pending tasks after adding or clearing. -/
def pend (f : K → Option T) : SAct K T → K → Option T
  | .add k t => fun x => if k = x then some t else f x
  | .clear k => fun x => if k = x then none else f x

/-- Specification of a history: `Hist os f ran` says that after the calls `os` the pending tasks are `f` and the tasks run
so far are `ran`. Performing runs every pending task exactly once, in some order, and what those tasks add is pending
afterwards, and nothing else. -/
inductive Hist (beh : T → List (SAct K T) × Option Exc) : List (SOp K T) → (K → Option T) → List (K × T) → Prop
  | nil : Hist beh [] (fun _ => none) []
  | act {os f ran} (a : SAct K T) : Hist beh os f ran → Hist beh (os ++ [.act a]) (pend f a) ran
  | perform {os f ran} (l : List (K × T)) : Hist beh os f ran → (l.map Prod.fst).Nodup → (∀ k t, (k, t) ∈ l ↔ f k = some t) →
      Hist beh (os ++ [.perform]) ((l.flatMap fun p => (beh p.2).1).foldl pend (fun _ => none)) (ran ++ l)

theorem act_dget (s : TS K T) (hn : (dkeys s.dict).Nodup) (a : SAct K T) :
    dget (s.act a).dict = pend (dget s.dict) a ∧ (dkeys (s.act a).dict).Nodup ∧ (s.act a).ran = s.ran := by
  cases a with
  | add k t => exact ⟨funext fun x => dget_dset _ _ _ _, nodup_dset hn _ _, rfl⟩
  | clear k => exact ⟨funext fun x => dget_ddel hn _ _, nodup_ddel hn _, rfl⟩

theorem acts_dget (as : List (SAct K T)) (s : TS K T) (hn : (dkeys s.dict).Nodup) :
    dget (as.foldl TS.act s).dict = as.foldl pend (dget s.dict) ∧ (dkeys (as.foldl TS.act s).dict).Nodup ∧
      (as.foldl TS.act s).ran = s.ran := by
  induction as generalizing s with
  | nil => exact ⟨rfl, hn, rfl⟩
  | cons a as ih =>
    obtain ⟨h1, h2, h3⟩ := act_dget s hn a
    obtain ⟨i1, i2, i3⟩ := ih (s.act a) h2
    exact ⟨by simp only [List.foldl_cons, i1, h1], i2, i3.trans h3⟩

theorem loop_ok (beh : T → List (SAct K T) × Option Exc) (l : List (K × T)) (s : TS K T) (hn : (dkeys s.dict).Nodup)
    (h : ∀ p ∈ l, (beh p.2).2 = none) :
    (TS.loop beh l s).2 = none ∧ (TS.loop beh l s).1.ran = s.ran ++ l ∧ (dkeys (TS.loop beh l s).1.dict).Nodup ∧
    dget (TS.loop beh l s).1.dict = (l.flatMap fun p => (beh p.2).1).foldl pend (dget s.dict) := by
  induction l generalizing s with
  | nil => exact ⟨rfl, by simp [TS.loop], hn, rfl⟩
  | cons p l ih =>
    obtain ⟨k, t⟩ := p
    have ht : (beh t).2 = none := h (k, t) (by simp)
    obtain ⟨a1, a2, a3⟩ := acts_dget (beh t).1 { s with ran := s.ran ++ [(k, t)] } hn
    obtain ⟨i1, i2, i3, i4⟩ := ih _ a2 (fun p hp => h p (by simp [hp]))
    simp only [TS.loop, ht]
    refine ⟨i1, by rw [i2, a3]; simp, i3, ?_⟩
    rw [i4, a1]
    simp [List.foldl_append]

/-- C34 (tasks that do not raise): after every history of calls the pending tasks and the tasks run are those of the
specification, and no call raises. -/
theorem C34_taskset_partial (beh : T → List (SAct K T) × Option Exc) (h : ∀ t, (beh t).2 = none) (os : List (SOp K T)) :
    let s := TS.run beh ⟨[], []⟩ os
    Hist beh os (dget s.dict) s.ran ∧ ∀ o, (s.step beh o).2 = none := by
  suffices hh : Hist beh os (dget (TS.run beh ⟨[], []⟩ os).dict) (TS.run beh ⟨[], []⟩ os).ran ∧
      (dkeys (TS.run beh ⟨[], []⟩ os).dict).Nodup by
    refine ⟨hh.1, fun o => ?_⟩
    cases o with
    | act a => rfl
    | perform => exact (loop_ok beh _ _ (by simp [dkeys]) (fun p _ => h p.2)).1
  induction os using List.reverseRecOn with
  | nil => exact ⟨Hist.nil, by simp [TS.run, dkeys]⟩
  | append_singleton os o ih =>
    have hr : TS.run beh ⟨[], []⟩ (os ++ [o]) = ((TS.run beh ⟨[], []⟩ os).step beh o).1 := by simp [TS.run]
    rw [hr]
    generalize TS.run beh ⟨[], []⟩ os = s at ih
    obtain ⟨ih1, ih2⟩ := ih
    cases o with
    | act a =>
      obtain ⟨a1, a2, a3⟩ := act_dget s ih2 a
      simp only [TS.step]
      rw [a1, a3]
      exact ⟨Hist.act a ih1, a2⟩
    | perform =>
      obtain ⟨_, l2, l3, l4⟩ := loop_ok beh s.dict { s with dict := [] } (by simp [dkeys]) (fun p _ => h p.2)
      simp only [TS.step, TS.performTasks]
      rw [l4, l2]
      exact ⟨Hist.perform s.dict ih1 ih2 (fun k t => mem_iff_dget ih2), l3⟩

/-- C34 with a raising task: exactly the tasks up to and including the first raising one (in insertion order of their keys)
are run, the exception comes out; the others are neither run nor kept: only what the run tasks added is pending. -/
theorem C34_raising_partial (beh : T → List (SAct K T) × Option Exc) (s : TS K T) (pre : List (K × T)) (k : K) (t : T)
    (post : List (K × T)) (e : Exc) (hd : s.dict = pre ++ (k, t) :: post) (hpre : ∀ p ∈ pre, (beh p.2).2 = none)
    (ht : (beh t).2 = some e) :
    (s.performTasks beh).2 = some e ∧ (s.performTasks beh).1.ran = s.ran ++ pre ++ [(k, t)] ∧
    dget (s.performTasks beh).1.dict = ((pre ++ [(k, t)]).flatMap fun p => (beh p.2).1).foldl pend (fun _ => none) := by
  have key : ∀ (l : List (K × T)) (q : TS K T), (dkeys q.dict).Nodup → (∀ p ∈ l, (beh p.2).2 = none) →
      (TS.loop beh (l ++ (k, t) :: post) q) = (((beh t).1.foldl TS.act { (TS.loop beh l q).1 with
        ran := (TS.loop beh l q).1.ran ++ [(k, t)] }), some e) := by
    intro l
    induction l with
    | nil => intro q _ _; simp [TS.loop, ht]
    | cons p l ih =>
      intro q hq hl
      obtain ⟨k', t'⟩ := p
      have ht' : (beh t').2 = none := hl (k', t') (by simp)
      simp only [List.cons_append, TS.loop, ht']
      exact ih _ (acts_dget (beh t').1 { q with ran := q.ran ++ [(k', t')] } hq).2.1 (fun p hp => hl p (by simp [hp]))
  have h0 : (dkeys ({ s with dict := [] } : TS K T).dict).Nodup := by simp [dkeys]
  obtain ⟨_, l2, l3, l4⟩ := loop_ok beh pre { s with dict := [] } h0 hpre
  simp only [TS.performTasks, hd, key pre { s with dict := [] } h0 hpre]
  obtain ⟨a1, _, a3⟩ := acts_dget (beh t).1 { (TS.loop beh pre { s with dict := [] }).1 with
        ran := (TS.loop beh pre { s with dict := [] }).1.ran ++ [(k, t)] } l3
  refine ⟨trivial, by rw [a3]; simp only [l2], ?_⟩
  rw [a1]
  simp only [l4, List.flatMap_append, List.flatMap_cons, List.flatMap_nil, List.append_nil, List.foldl_append]
  rfl

/-- C34, exactly when: everything pending is run if and only if none but possibly the last task raises. -/
theorem C34_all_run_iff (beh : T → List (SAct K T) × Option Exc) (s : TS K T) :
    (s.performTasks beh).1.ran = s.ran ++ s.dict ↔ ∀ p ∈ s.dict.dropLast, (beh p.2).2 = none := by
  by_cases h : ∀ p ∈ s.dict, (beh p.2).2 = none
  · exact ⟨fun _ p hp => h p (List.dropLast_subset _ hp), fun _ => (loop_ok beh s.dict { s with dict := [] } (by simp [dkeys]) h).2.1⟩
  · have key : ∀ l : List (K × T), (¬ ∀ p ∈ l, (beh p.2).2 = none) → ∃ pre k t post e, l = pre ++ (k, t) :: post ∧
        (∀ p ∈ pre, (beh p.2).2 = none) ∧ (beh t).2 = some e := by
      intro l
      induction l with
      | nil => exact fun h => absurd (fun p hp => absurd hp List.not_mem_nil) h
      | cons p l ih =>
        obtain ⟨k, t⟩ := p
        intro h
        cases ht : (beh t).2 with
        | some e => exact ⟨[], k, t, l, e, rfl, fun p hp => absurd hp List.not_mem_nil, ht⟩
        | none =>
          obtain ⟨pre, k', t', post, e, rfl, h1, h2⟩ := ih fun hl => h (List.forall_mem_cons.2 ⟨ht, hl⟩)
          exact ⟨(k, t) :: pre, k', t', post, e, rfl, List.forall_mem_cons.2 ⟨ht, h1⟩, h2⟩
    obtain ⟨pre, k, t, post, e, hd, h1, h2⟩ := key _ h
    obtain ⟨-, hr, -⟩ := C34_raising_partial beh s pre k t post e hd h1 h2
    rw [hr, hd, List.append_assoc, List.append_right_inj]
    constructor
    · intro he
      have : post = [] := by
        have := congrArg List.length he
        simp only [List.length_append, List.length_cons, List.length_nil] at this
        exact List.length_eq_zero_iff.1 (by omega)
      subst this
      simpa using h1
    · intro hl
      cases post with
      | nil => rfl
      | cons q post =>
        have := hl (k, t) (by
          rw [List.dropLast_append_of_ne_nil (by simp), List.dropLast_cons_of_ne_nil (by simp)]
          simp)
        rw [h2] at this
        cases this

/-- the task of key 1 was replaced, that of key 3 cleared; the task 20 adds itself again -/
example : TS.run (fun t : Nat => if t = 20 then ([SAct.add 1 20], none) else ([], none)) ⟨[], []⟩
    [.act (.add 1 10), .act (.add 2 30), .act (.add 3 40), .act (.add 1 20), .act (.clear 3), .perform] =
    ⟨[(1, 20)], [(1, 20), (2, 30)]⟩ := by decide

/-- C34 is false of the code when a task raises: the task of key 2 is neither run nor kept. -/
theorem C34_counterexample :
    let beh : Nat → List (SAct Nat Nat) × Option Exc := fun t => ([], if t = 10 then some (.user 0) else none)
    TS.run beh ⟨[], []⟩ [.act (.add 1 10), .act (.add 2 20), .perform] = ⟨[], [(1, 10)]⟩ := by decide

end set

end Verif.Tasks
