import Verif.Py.Basic
import Mathlib.Algebra.BigOperators.Group.Finset.Basic
import Mathlib.Algebra.BigOperators.Group.Finset.Piecewise
import Mathlib.Algebra.Order.Group.Multiset
import Mathlib.Data.Multiset.Basic
import Mathlib.Data.List.Range
import Mathlib.Tactic.Abel
import Mathlib.Tactic.Common

set_option linter.unusedSectionVars false

/-!
C107: a `TaskQueue` (`nion/utils/Process.py:18-43`) used by several threads. The methods of `queue.Queue` (`put`, `qsize`, `empty`,
`get(False)`, `task_done`) each hold the queue's lock and are atomic; between them other threads may run. A thread has a stack of calls
of `perform_tasks` and `clear_tasks`, since a task may call them; any thread, also inside a task, may put a task. Tasks are numbered in
the order in which they are put. Whether a task returns or raises is chosen by the schedule; an exception leaves `perform_tasks` and
reaches the task that called it, if any, which may handle it or raise in turn. Not modelled: a maximum size of the queue, `join` itself
(it waits for `unfinished` to be zero).
-/

namespace Verif.Small.QueueThreads

open Verif.Py

/-- Where a call of `perform_tasks` (or `clear_tasks`) is. -/
inductive PC where
  /-- before the test of the loop, lines 23 and 36 -/
  | test
  /-- before `get`, lines 25 and 38 -/
  | get
  /-- in `task()`, line 29 -/
  | run (x : ℕ)
  /-- before `task_done`, lines 30 and 42 -/
  | done (x : ℕ)
  deriving DecidableEq

/-- A call: `left` is `qsize`. The last three are for the specification: how many tasks had been put, how many were in the queue when it
was called, how many it has taken. -/
structure Frame where
  clear : Bool
  pc : PC
  left : ℕ
  put : ℕ
  size : ℕ
  took : ℕ
  deriving DecidableEq

/-- The queue, the unfinished count and the stacks of calls, innermost first; and, for the specification, the tasks taken from the
queue, called, completed, cleared and those which raised. -/
structure St (T : Type) where
  queue : List ℕ
  puts : ℕ
  unfinished : ℕ
  calls : T → List Frame
  gets : List ℕ
  runs : List ℕ
  completed : List ℕ
  cleared : List ℕ
  raised : List ℕ

variable {T : Type} [DecidableEq T]

def St.init : St T := ⟨[], 0, 0, fun _ => [], [], [], [], [], []⟩

inductive Act (T : Type) where
  /-- `put(task)` by any thread -/
  | put
  /-- `perform_tasks` or `clear_tasks` is called -/
  | call (t : T) (clear : Bool)
  /-- the innermost call goes on; a task which is running returns -/
  | go (t : T)
  /-- the task which is running raises -/
  | throw (t : T)

def St.set (s : St T) (t : T) (fs : List Frame) : St T := { s with calls := Function.update s.calls t fs }

/-- A thread may call if it does nothing with the queue or is in a task. -/
def mayCall : List Frame → Bool
  | [] => true
  | f :: _ => match f.pc with
    | .run _ => true
    | _ => false

/-- One step of the innermost call. -/
def goFrame (s : St T) (t : T) (f : Frame) (fs : List Frame) : St T :=
  match f.pc with
  | .test => if s.queue ≠ [] ∧ 0 < f.left then s.set t ({ f with pc := .get } :: fs) else s.set t fs
  | .get =>
    match s.queue with
    | [] => s.set t ({ f with pc := .test, left := f.left - 1 } :: fs)
    | x :: q =>
      if f.clear then { s.set t ({ f with pc := .done x, took := f.took + 1 } :: fs) with queue := q, gets := s.gets ++ [x] }
      else { s.set t ({ f with pc := .run x, took := f.took + 1 } :: fs) with
        queue := q, gets := s.gets ++ [x], runs := s.runs ++ [x] }
  | .run x => s.set t ({ f with pc := .done x } :: fs)
  | .done x =>
    if f.clear then { s.set t ({ f with pc := .test, left := f.left - 1 } :: fs) with
      unfinished := s.unfinished - 1, cleared := s.cleared ++ [x] }
    else { s.set t ({ f with pc := .test, left := f.left - 1 } :: fs) with
      unfinished := s.unfinished - 1, completed := s.completed ++ [x] }

/-- What a schedule can do; `none` if it cannot. -/
def step (s : St T) : Act T → Option (St T)
  | .put => some { s with queue := s.queue ++ [s.puts], puts := s.puts + 1, unfinished := s.unfinished + 1 }
  | .call t c =>
    if mayCall (s.calls t) then some (s.set t (⟨c, .test, s.queue.length, s.puts, s.queue.length, 0⟩ :: s.calls t)) else none
  | .go t =>
    match s.calls t with
    | [] => none
    | f :: fs => some (goFrame s t f fs)
  | .throw t =>
    match s.calls t with
    | [] => none
    | f :: fs =>
      match f.pc with
      | .run x => some { s.set t fs with raised := s.raised ++ [x] }
      | _ => none

inductive Reach : St T → Prop where
  | init : Reach St.init
  | step {s s' : St T} (a : Act T) (hr : Reach s) (h : step s a = some s') : Reach s'

/-! ### Invariant -/

/-- The task a call (of `perform_tasks`, or of `clear_tasks` if `c`) has taken and not yet finished. -/
def Frame.held (c : Bool) (f : Frame) : Multiset ℕ :=
  if f.clear = c then
    match f.pc with
    | .run x => {x}
    | .done x => {x}
    | _ => 0
  else 0

def heldBy (c : Bool) : List Frame → Multiset ℕ
  | [] => 0
  | f :: fs => f.held c + heldBy c fs

/-- How many more tasks the call may take. -/
def Frame.more (f : Frame) : ℕ :=
  match f.pc with
  | .test => f.left
  | .get => f.left
  | _ => f.left - 1

structure FrameInv (s : St T) (f : Frame) : Prop where
  put_le : f.put ≤ s.puts
  run_perform : ∀ x, f.pc = .run x → f.clear = false
  /-- what is left and what has been taken (by anyone) reach as far as what had been put -/
  reach : f.put ≤ s.gets.length + f.more
  pos : f.pc = .test ∨ 0 < f.left
  bound : f.took + f.more ≤ f.size

variable [Fintype T]

structure Inv (s : St T) : Prop where
  fifo : s.gets ++ s.queue = List.range s.puts
  gets : (s.gets : Multiset ℕ) = s.runs + s.cleared + ∑ t, heldBy true (s.calls t)
  runs : (s.runs : Multiset ℕ) = s.completed + s.raised + ∑ t, heldBy false (s.calls t)
  unfin : s.unfinished + s.completed.length + s.cleared.length = s.puts
  frames : ∀ t, ∀ f ∈ s.calls t, FrameInv s f

theorem sum_set (s : St T) (c : Bool) (t : T) (fs : List Frame) :
    (∑ u, heldBy c ((s.set t fs).calls u)) + heldBy c (s.calls t) = (∑ u, heldBy c (s.calls u)) + heldBy c fs := by
  have h1 : ∀ u, heldBy c ((s.set t fs).calls u) = Function.update (fun u => heldBy c (s.calls u)) t (heldBy c fs) u := by
    intro u
    simp only [St.set, Function.update_apply]
    split <;> rfl
  rw [Finset.sum_congr rfl fun u _ => h1 u, Finset.sum_update_of_mem (Finset.mem_univ t),
    ← Finset.add_sum_erase Finset.univ (fun u => heldBy c (s.calls u)) (Finset.mem_univ t), Finset.sdiff_singleton_eq_erase]
  abel

theorem sum_repl {s : St T} {t : T} {f : Frame} {fs : List Frame} (hfs : s.calls t = f :: fs) (c : Bool) (g : Frame) :
    (∑ u, heldBy c ((s.set t (g :: fs)).calls u)) + f.held c = (∑ u, heldBy c (s.calls u)) + g.held c := by
  have := sum_set s c t (g :: fs)
  rw [hfs, heldBy, heldBy, ← add_assoc, ← add_assoc] at this
  exact add_right_cancel this

theorem sum_pop {s : St T} {t : T} {f : Frame} {fs : List Frame} (hfs : s.calls t = f :: fs) (c : Bool) :
    (∑ u, heldBy c ((s.set t fs).calls u)) + f.held c = ∑ u, heldBy c (s.calls u) := by
  have := sum_set s c t fs
  rw [hfs, heldBy, ← add_assoc] at this
  exact add_right_cancel this

theorem inv_init : Inv (St.init : St T) :=
  ⟨rfl, by simp [St.init, heldBy], by simp [St.init, heldBy], rfl, by simp [St.init]⟩

/-- Calls that were there before are as they were while more is taken and put. -/
theorem FrameInv.mono {s s' : St T} {f : Frame} (h : FrameInv s f) (h1 : s.puts ≤ s'.puts) (h2 : s.gets.length ≤ s'.gets.length) :
    FrameInv s' f :=
  ⟨h.put_le.trans h1, h.run_perform, h.reach.trans (by omega), h.pos, h.bound⟩

theorem frames_set {s : St T} (h : Inv s) {s' : St T} {t : T} {fs : List Frame} (hc : s'.calls = Function.update s.calls t fs)
    (h1 : s.puts ≤ s'.puts) (h2 : s.gets.length ≤ s'.gets.length) (hf : ∀ f ∈ fs, FrameInv s' f ∨ f ∈ s.calls t) :
    ∀ u, ∀ f ∈ s'.calls u, FrameInv s' f := by
  intro u f hfu
  rw [hc, Function.update_apply] at hfu
  split at hfu
  · rcases hf f hfu with h' | h'
    · exact h'
    · exact (h.frames t f h').mono h1 h2
  · exact (h.frames u f hfu).mono h1 h2

theorem len_gets {s : St T} (h : Inv s) : s.gets.length + s.queue.length = s.puts := by
  have := congrArg List.length h.fifo
  simpa using this

theorem inv_step {s s' : St T} (h : Inv s) (a : Act T) (hs : step s a = some s') : Inv s' := by
  have hlen := len_gets h
  cases a with
  | put =>
    simp only [step, Option.some.injEq] at hs
    subst hs
    refine ⟨?_, h.gets, h.runs, ?_, fun t f hf => (h.frames t f hf).mono (by simp) (le_refl _)⟩
    · simp only
      rw [← List.append_assoc, h.fifo, List.range_succ]
    · have := h.unfin
      simp only
      omega
  | call t c =>
    simp only [step] at hs
    split at hs
    · simp only [Option.some.injEq] at hs
      subst hs
      refine ⟨h.fifo, ?_, ?_, h.unfin, ?_⟩
      · have := sum_set s true t (⟨c, .test, s.queue.length, s.puts, s.queue.length, 0⟩ :: s.calls t)
        have h0 : heldBy true (⟨c, .test, s.queue.length, s.puts, s.queue.length, 0⟩ :: s.calls t) = heldBy true (s.calls t) := by
          simp [heldBy, Frame.held]
        rw [h0] at this
        rw [add_right_cancel this]
        exact h.gets
      · have := sum_set s false t (⟨c, .test, s.queue.length, s.puts, s.queue.length, 0⟩ :: s.calls t)
        have h0 : heldBy false (⟨c, .test, s.queue.length, s.puts, s.queue.length, 0⟩ :: s.calls t) = heldBy false (s.calls t) := by
          simp [heldBy, Frame.held]
        rw [h0] at this
        rw [add_right_cancel this]
        exact h.runs
      · refine frames_set h (t := t) rfl (le_refl _) (le_refl _) fun f hf => ?_
        rcases List.mem_cons.1 hf with rfl | hf
        · exact .inl ⟨le_refl _, by simp, by simp [Frame.more, St.set]; omega, .inl rfl, by simp [Frame.more]⟩
        · exact .inr hf
    · cases hs
  | go t =>
    simp only [step] at hs
    split at hs
    · cases hs
    · rename_i f fs hfs
      simp only [Option.some.injEq] at hs
      subst hs
      have hf := h.frames t f (by simp [hfs])
      have hp := fun c => sum_pop hfs c
      have hr := fun (c : Bool) (g : Frame) => sum_repl hfs c g
      cases hpc : f.pc with
      | test =>
        have h0 : ∀ c, f.held c = 0 := fun c => by simp [Frame.held, hpc]
        simp only [goFrame, hpc]
        split
        · rename_i hq
          have h1 : ∀ c, Frame.held c { f with pc := .get } = 0 := fun c => by simp [Frame.held]
          have hr' := fun c => hr c { f with pc := .get }
          simp only [h0, h1, add_zero] at hr'
          refine ⟨h.fifo, ?_, ?_, h.unfin, frames_set h (t := t) rfl (le_refl _) (le_refl _) fun g hg => ?_⟩
          · rw [hr' true]; exact h.gets
          · rw [hr' false]; exact h.runs
          · rcases List.mem_cons.1 hg with rfl | hg
            · have hre := hf.reach
              have hbo := hf.bound
              simp only [Frame.more, hpc] at hre hbo
              exact .inl ⟨hf.put_le, by simp, hre, .inr hq.2, hbo⟩
            · exact .inr (by simp [hfs, hg])
        · simp only [h0, add_zero] at hp
          refine ⟨h.fifo, ?_, ?_, h.unfin, frames_set h (t := t) rfl (le_refl _) (le_refl _) fun g hg => .inr (by simp [hfs, hg])⟩
          · rw [hp true]; exact h.gets
          · rw [hp false]; exact h.runs
      | get =>
        have h0 : ∀ c, f.held c = 0 := fun c => by simp [Frame.held, hpc]
        have hre := hf.reach
        have hbo := hf.bound
        have hpos : 0 < f.left := by simpa [hpc] using hf.pos
        simp only [Frame.more, hpc] at hre hbo
        simp only [goFrame, hpc]
        split
        · rename_i hq
          have h1 : ∀ c, Frame.held c { f with pc := .test, left := f.left - 1 } = 0 := fun c => by simp [Frame.held]
          have hr' := fun c => hr c { f with pc := .test, left := f.left - 1 }
          simp only [h0, h1, add_zero] at hr'
          refine ⟨h.fifo, ?_, ?_, h.unfin, frames_set h (t := t) rfl (le_refl _) (le_refl _) fun g hg => ?_⟩
          · rw [hr' true]; exact h.gets
          · rw [hr' false]; exact h.runs
          · rcases List.mem_cons.1 hg with rfl | hg
            · have hput := hf.put_le
              rw [hq] at hlen
              simp only [List.length_nil] at hlen
              refine .inl ⟨hf.put_le, by simp, ?_, .inl rfl, ?_⟩
              · simp only [Frame.more, St.set]; omega
              · simp only [Frame.more]; omega
            · exact .inr (by simp [hfs, hg])
        · rename_i x q hq
          have hfifo : (s.gets ++ [x]) ++ q = List.range s.puts := by rw [← h.fifo, hq]; simp
          split
          · rename_i hcl
            have hr' := fun c => hr c { f with pc := .done x, took := f.took + 1 }
            simp only [h0, add_zero] at hr'
            have h1 : Frame.held true { f with pc := .done x, took := f.took + 1 } = {x} := by simp [Frame.held, hcl]
            have h2 : Frame.held false { f with pc := .done x, took := f.took + 1 } = 0 := by simp [Frame.held, hcl]
            refine ⟨hfifo, ?_, ?_, h.unfin, frames_set h (t := t) rfl (le_refl _) (by simp) fun g hg => ?_⟩
            · change ((s.gets ++ [x] : List ℕ) : Multiset ℕ) = s.runs + s.cleared + ∑ u, heldBy true ((s.set t _).calls u)
              rw [hr' true, h1, ← Multiset.coe_add, h.gets, Multiset.coe_singleton]
              abel
            · change (s.runs : Multiset ℕ) = s.completed + s.raised + ∑ u, heldBy false ((s.set t _).calls u)
              rw [hr' false, h2, h.runs, add_zero]
            · rcases List.mem_cons.1 hg with rfl | hg
              · refine .inl ⟨hf.put_le, by simp, ?_, .inr hpos, ?_⟩
                · simp only [Frame.more, List.length_append, List.length_singleton]; omega
                · simp only [Frame.more]; omega
              · exact .inr (by simp [hfs, hg])
          · rename_i hcl
            have hr' := fun c => hr c { f with pc := .run x, took := f.took + 1 }
            simp only [h0, add_zero] at hr'
            have h1 : Frame.held true { f with pc := .run x, took := f.took + 1 } = 0 := by simp [Frame.held, hcl]
            have h2 : Frame.held false { f with pc := .run x, took := f.took + 1 } = {x} := by simp [Frame.held, hcl]
            refine ⟨hfifo, ?_, ?_, h.unfin, frames_set h (t := t) rfl (le_refl _) (by simp) fun g hg => ?_⟩
            · change ((s.gets ++ [x] : List ℕ) : Multiset ℕ) = (s.runs ++ [x] : List ℕ) + s.cleared +
                ∑ u, heldBy true ((s.set t _).calls u)
              rw [hr' true, h1, ← Multiset.coe_add, h.gets, ← Multiset.coe_add, Multiset.coe_singleton]
              abel
            · change ((s.runs ++ [x] : List ℕ) : Multiset ℕ) = s.completed + s.raised + ∑ u, heldBy false ((s.set t _).calls u)
              rw [hr' false, h2, ← Multiset.coe_add, h.runs, Multiset.coe_singleton]
              abel
            · rcases List.mem_cons.1 hg with rfl | hg
              · refine .inl ⟨hf.put_le, fun _ _ => by simpa using hcl, ?_, .inr hpos, ?_⟩
                · simp only [Frame.more, List.length_append, List.length_singleton]; omega
                · simp only [Frame.more]; omega
              · exact .inr (by simp [hfs, hg])
      | run x =>
        have hre := hf.reach
        have hbo := hf.bound
        have hpos : 0 < f.left := by simpa [hpc] using hf.pos
        simp only [Frame.more, hpc] at hre hbo
        simp only [goFrame, hpc]
        have h1 : ∀ c, Frame.held c { f with pc := .done x } = f.held c := fun c => by simp [Frame.held, hpc]
        have hr' := fun c => hr c { f with pc := .done x }
        simp only [h1] at hr'
        refine ⟨h.fifo, ?_, ?_, h.unfin, frames_set h (t := t) rfl (le_refl _) (le_refl _) fun g hg => ?_⟩
        · rw [add_right_cancel (hr' true)]; exact h.gets
        · rw [add_right_cancel (hr' false)]; exact h.runs
        · rcases List.mem_cons.1 hg with rfl | hg
          · exact .inl ⟨hf.put_le, by simp, by simpa [Frame.more, St.set] using hre, .inr hpos, by simpa [Frame.more] using hbo⟩
          · exact .inr (by simp [hfs, hg])
      | done x =>
        have hre := hf.reach
        have hbo := hf.bound
        simp only [Frame.more, hpc] at hre hbo
        have h1 : ∀ c, Frame.held c { f with pc := .test, left := f.left - 1 } = 0 := fun c => by simp [Frame.held]
        have hr' := fun c => hr c { f with pc := .test, left := f.left - 1 }
        simp only [h1, add_zero] at hr'
        have hu := h.unfin
        have hc1 := congrArg Multiset.card h.gets
        have hc2 := congrArg Multiset.card h.runs
        simp only [Multiset.card_add, Multiset.coe_card] at hc1 hc2
        simp only [goFrame, hpc]
        split
        · rename_i hcl
          have h2 : f.held true = {x} := by simp [Frame.held, hcl, hpc]
          have h3 : f.held false = 0 := by simp [Frame.held, hcl]
          have e := hr' true
          have e' := hr' false
          rw [h2] at e
          rw [h3, add_zero] at e'
          refine ⟨h.fifo, ?_, ?_, ?_, frames_set h (t := t) rfl (le_refl _) (le_refl _) fun g hg => ?_⟩
          · change (s.gets : Multiset ℕ) = s.runs + (s.cleared ++ [x] : List ℕ) + ∑ u, heldBy true ((s.set t _).calls u)
            rw [h.gets, ← e, ← Multiset.coe_add, Multiset.coe_singleton]
            abel
          · change (s.runs : Multiset ℕ) = s.completed + s.raised + ∑ u, heldBy false ((s.set t _).calls u)
            rw [e', h.runs]
          · have := congrArg Multiset.card e
            simp only [Multiset.card_add, Multiset.card_singleton] at this
            change s.unfinished - 1 + s.completed.length + (s.cleared ++ [x]).length = s.puts
            simp only [List.length_append, List.length_singleton]
            omega
          · rcases List.mem_cons.1 hg with rfl | hg
            · exact .inl ⟨hf.put_le, by simp, by simpa [Frame.more, St.set] using hre, .inl rfl, by simpa [Frame.more] using hbo⟩
            · exact .inr (by simp [hfs, hg])
        · rename_i hcl
          have h2 : f.held false = {x} := by simp [Frame.held, hcl, hpc]
          have h3 : f.held true = 0 := by simp [Frame.held, hcl]
          have e := hr' false
          have e' := hr' true
          rw [h2] at e
          rw [h3, add_zero] at e'
          refine ⟨h.fifo, ?_, ?_, ?_, frames_set h (t := t) rfl (le_refl _) (le_refl _) fun g hg => ?_⟩
          · change (s.gets : Multiset ℕ) = s.runs + s.cleared + ∑ u, heldBy true ((s.set t _).calls u)
            rw [e', h.gets]
          · change (s.runs : Multiset ℕ) = (s.completed ++ [x] : List ℕ) + s.raised + ∑ u, heldBy false ((s.set t _).calls u)
            rw [h.runs, ← e, ← Multiset.coe_add, Multiset.coe_singleton]
            abel
          · have := congrArg Multiset.card e
            simp only [Multiset.card_add, Multiset.card_singleton] at this
            change s.unfinished - 1 + (s.completed ++ [x]).length + s.cleared.length = s.puts
            simp only [List.length_append, List.length_singleton]
            omega
          · rcases List.mem_cons.1 hg with rfl | hg
            · exact .inl ⟨hf.put_le, by simp, by simpa [Frame.more, St.set] using hre, .inl rfl, by simpa [Frame.more] using hbo⟩
            · exact .inr (by simp [hfs, hg])
  | throw t =>
    simp only [step] at hs
    split at hs
    · cases hs
    · rename_i f fs hfs
      split at hs
      · rename_i x hx
        simp only [Option.some.injEq] at hs
        subst hs
        have hcl := (h.frames t f (by simp [hfs])).run_perform x hx
        have h2 : f.held false = {x} := by simp [Frame.held, hcl, hx]
        have h3 : f.held true = 0 := by simp [Frame.held, hcl]
        have e := sum_pop hfs false
        have e' := sum_pop hfs true
        rw [h2] at e
        rw [h3, add_zero] at e'
        refine ⟨h.fifo, ?_, ?_, h.unfin, frames_set h (t := t) rfl (le_refl _) (le_refl _) fun g hg => .inr (by simp [hfs, hg])⟩
        · change (s.gets : Multiset ℕ) = s.runs + s.cleared + ∑ u, heldBy true ((s.set t _).calls u)
          rw [e', h.gets]
        · change (s.runs : Multiset ℕ) = s.completed + (s.raised ++ [x] : List ℕ) + ∑ u, heldBy false ((s.set t _).calls u)
          rw [h.runs, ← e, ← Multiset.coe_add, Multiset.coe_singleton]
          abel
      · cases hs

theorem Reach.inv {s : St T} (hr : Reach s) : Inv s := by
  induction hr with
  | init => exact inv_init
  | step a _ h ih => exact inv_step ih a h

theorem heldBy_quiet (c : Bool) : ∀ l : List Frame, (∀ f ∈ l, f.pc = .test ∨ f.pc = .get) → heldBy c l = 0
  | [], _ => rfl
  | f :: l, hl => by
    rw [heldBy, heldBy_quiet c l fun g hg => hl g (by simp [hg])]
    rcases hl f (by simp) with h' | h' <;> simp [Frame.held, h']

/-! ### C107 -/

/-- C107: tasks are taken from the queue in the order they were put; what has been taken and what is in the queue is what was put. -/
theorem C107_order (s : St T) (hr : Reach s) : s.gets ++ s.queue = List.range s.puts := hr.inv.fifo

/-- C107: no task is called twice, none is called that was cleared, and none that was not put. -/
theorem C107_once (s : St T) (hr : Reach s) :
    s.runs.Nodup ∧ s.cleared.Nodup ∧ (∀ x ∈ s.runs, x ∉ s.cleared ∧ x < s.puts) ∧ s.completed.Nodup ∧ s.raised.Nodup ∧
      (∀ x ∈ s.completed, x ∈ s.runs ∧ x ∉ s.raised) ∧ ∀ x ∈ s.raised, x ∈ s.runs := by
  have hi := hr.inv
  have hg : s.gets.Nodup := (List.nodup_append.1 (hi.fifo ▸ List.nodup_range)).1
  have hg' : (s.gets : Multiset ℕ).Nodup := by simpa using hg
  rw [hi.gets, Multiset.nodup_add, Multiset.nodup_add] at hg'
  obtain ⟨⟨h1, h2, h3⟩, -, -⟩ := hg'
  have h1' := h1
  rw [hi.runs, Multiset.nodup_add, Multiset.nodup_add] at h1'
  obtain ⟨⟨h4, h5, h6⟩, -, -⟩ := h1'
  have hc : ∀ x, x ∈ s.completed ∨ x ∈ s.raised → x ∈ s.runs := by
    intro x hx
    rw [← Multiset.mem_coe, hi.runs]
    simp only [Multiset.mem_add, Multiset.mem_coe]
    exact .inl hx
  refine ⟨by simpa using h1, by simpa using h2, fun x hx => ⟨fun h' => ?_, ?_⟩, by simpa using h4, by simpa using h5,
    fun x hx => ⟨hc x (.inl hx), fun h' => ?_⟩, fun x hx => hc x (.inr hx)⟩
  · exact Multiset.disjoint_left.1 h3 (by simpa using hx) (by simpa using h')
  · have : x ∈ s.gets := by
      rw [← Multiset.mem_coe, hi.gets]
      simp [hx]
    have : x ∈ s.gets ++ s.queue := by simp [this]
    rw [hi.fifo] at this
    simpa using this
  · exact Multiset.disjoint_left.1 h6 (by simpa using hx) (by simpa using h')

/-- C107: when `perform_tasks` or `clear_tasks` returns, every task put before it was called has been taken from the queue (by it or
another thread), and it has taken no more tasks than were in the queue when it was called. -/
theorem C107_returns (s s' : St T) (hr : Reach s) (t : T) (f : Frame) (fs : List Frame) (hf : s.calls t = f :: fs)
    (hs : step s (.go t) = some s') (hret : s'.calls t = fs) : (∀ x < f.put, x ∈ s.gets) ∧ f.took ≤ f.size := by
  have hi := hr.inv
  have hfi := hi.frames t f (by simp [hf])
  refine ⟨?_, le_trans (Nat.le_add_right _ _) hfi.bound⟩
  have hle : f.put ≤ s.gets.length := by
    have hlen := len_gets hi
    have hne : ∀ g : Frame, g :: fs ≠ fs := fun g h => by simpa using congrArg List.length h
    simp only [step, hf, Option.some.injEq] at hs
    subst hs
    have hre := hfi.reach
    have hput := hfi.put_le
    cases hpc : f.pc with
    | test =>
      simp only [Frame.more, hpc] at hre
      simp only [goFrame, hpc] at hret
      split at hret
      · simp [St.set] at hret
      · rename_i hq
        by_cases h0 : s.queue = []
        · simp [h0] at hlen; omega
        · have : f.left = 0 := by
            by_contra h'
            exact hq ⟨h0, by omega⟩
          omega
    | get =>
      simp only [goFrame, hpc] at hret
      split at hret
      · simp [St.set] at hret
      · split at hret <;> simp [St.set] at hret
    | run x => simp [goFrame, hpc, St.set] at hret
    | done x =>
      simp only [goFrame, hpc] at hret
      split at hret <;> simp [St.set] at hret
  intro x hx
  have : x ∈ s.gets ++ s.queue := by
    rw [hi.fifo]
    have := hfi.put_le
    simp
    omega
  have hget : s.gets = List.range s.gets.length := by
    have := congrArg (List.take s.gets.length) hi.fifo
    rw [List.take_left, List.take_range] at this
    have hlen := len_gets hi
    rwa [min_eq_left (by omega)] at this
  rw [hget]
  simp
  omega

/-- C107: while no thread is in a call (or only between tasks), every task taken from the queue has completed, raised or been
cleared. -/
theorem C107_quiet (s : St T) (hr : Reach s) (hq : ∀ t, ∀ f ∈ s.calls t, f.pc = .test ∨ f.pc = .get) (x : ℕ) :
    x ∈ s.gets ↔ x ∈ s.completed ∨ x ∈ s.raised ∨ x ∈ s.cleared := by
  have hi := hr.inv
  have h0 : ∀ c t, heldBy c (s.calls t) = 0 := fun c t => heldBy_quiet c _ (hq t)
  have h1 := hi.gets
  have h2 := hi.runs
  simp only [h0, Finset.sum_const_zero, add_zero] at h1 h2
  rw [← Multiset.mem_coe, h1, h2]
  simp only [Multiset.mem_add, Multiset.mem_coe]
  tauto

/-- C107: what `join` waits for: the tasks put and neither completed nor cleared; hence zero in a quiet state with an empty queue exactly if
no task has raised. -/
theorem C107_join (s : St T) (hr : Reach s) (hq : ∀ t, ∀ f ∈ s.calls t, f.pc = .test ∨ f.pc = .get) :
    s.unfinished = s.queue.length + s.raised.length := by
  have hi := hr.inv
  have h0 : ∀ c t, heldBy c (s.calls t) = 0 := fun c t => heldBy_quiet c _ (hq t)
  have h1 := congrArg Multiset.card hi.gets
  have h2 := congrArg Multiset.card hi.runs
  simp only [h0, Finset.sum_const_zero, add_zero, Multiset.card_add, Multiset.coe_card] at h1 h2
  have := len_gets hi
  have := hi.unfin
  omega

/-- C107: a task that raises is never counted as done: from then on, whatever is done, `join` does not return. -/
theorem C107_raised (s : St T) (hr : Reach s) : s.queue.length + s.raised.length ≤ s.unfinished := by
  have hi := hr.inv
  have h1 := congrArg Multiset.card hi.gets
  have h2 := congrArg Multiset.card hi.runs
  simp only [Multiset.card_add, Multiset.coe_card] at h1 h2
  have := len_gets hi
  have := hi.unfin
  omega

/-! ### Cases -/

def run : List (Act T) → St T → Option (St T)
  | [], s => some s
  | a :: as, s => (step s a).bind (run as)

theorem reach_run {as : List (Act T)} {s s' : St T} (hs : Reach s) (h : run as s = some s') : Reach s' := by
  induction as generalizing s with
  | nil => cases h; exact hs
  | cons a as ih =>
    rw [run] at h
    cases h1 : step s a with
    | none => rw [h1] at h; cases h
    | some s1 => rw [h1] at h; exact ih (.step a hs h1) h

/-- Two threads share three tasks; a fourth, put meanwhile, is still there. -/
example : ∃ s : St Bool, run [.put, .put, .put, .call true false, .go true, .go true, .call false false, .put, .go false, .go false,
    .go false, .go true, .go false, .go true, .go true, .go true, .go true, .go true, .go false, .go true] St.init = some s ∧
    s.runs = [0, 1, 2] ∧ s.queue = [3] ∧ s.completed = [1, 0, 2] ∧ s.unfinished = 1 :=
  ⟨_, rfl, by decide⟩

/-- C107, negative: one thread is in a task when another calls `perform_tasks`, which returns although a task put before has not
completed. -/
theorem C107_counterexample : ∃ s s' : St Bool, Reach s ∧ s.puts = 1 ∧ s.completed = [] ∧ s.runs = [0] ∧ s.calls false = [] ∧
    run [.call false false, .go false] s = some s' ∧ s'.calls false = [] ∧ s'.completed = [] :=
  ⟨_, _, reach_run (as := [.put, .call true false, .go true, .go true]) .init rfl, by decide, by decide, by decide, by decide, rfl,
    by decide, by decide⟩

/-- C107, negative: a task raises; the next one is left in the queue, and after it has been performed nothing is left, but `join`
waits for ever (`C107_raised`). -/
theorem C107_counterexample_raise : ∃ s s' : St Bool, Reach s ∧ s.calls true = [] ∧ s.queue = [1] ∧
    run [.call true false, .go true, .go true, .go true, .go true, .go true] s = some s' ∧ s'.calls true = [] ∧ s'.queue = [] ∧
    s'.unfinished = 1 :=
  ⟨_, _, reach_run (as := [.put, .put, .call true false, .go true, .go true, .throw true]) .init rfl, by decide, by decide, rfl,
    by decide, by decide, by decide⟩

end Verif.Small.QueueThreads
