import Mathlib.Data.List.Basic
import Mathlib.Data.List.Count
import Mathlib.Data.Nat.Find
import Mathlib.Order.WellFounded

/-!
C117: closing an event loop, `close_event_loop` (`nion/utils/Process.py:68-91`).

A job is a task or a plain callback of the loop. Its program is given by a function `next`: from a state, the job runs until it returns
to the loop, which may create jobs, and then it has finished (returned, raised or was cancelled), or runs on at the next turn (`pause`),
or waits for something outside the loop, such as a function in an executor (`wait`). The loop is the one of `asyncio`: a turn first takes
up the jobs whose waiting has ended (chosen by the environment), then runs everything that is ready in order; what becomes ready
meanwhile has to wait for the next turn. A job that waits for another one is a job that pauses until the other has finished. Not
modelled: jobs that stop the loop themselves, `BaseException`; shutting down the executor (line 89-90) comes after everything here.
-/

namespace Verif.Small.EventLoop

/-- How a job returns to the loop. -/
inductive Cont (σ : Type*) where
  | finish
  | pause (p : σ)
  | wait (p : σ)

inductive Phase (σ : Type*) where
  | ready (p : σ)
  | waiting (p : σ)
  | finished
  deriving DecidableEq

structure Job (σ : Type*) where
  phase : Phase σ
  task : Bool
  deriving DecidableEq

/-- What the loop can call: a job, the callback of `gather` for one of its tasks, and the callback of `run_until_complete`. -/
inductive Handle where
  | job (i : Nat)
  | child
  | stop
  deriving DecidableEq

structure St (σ : Type*) where
  jobs : List (Job σ)
  ready : List Handle
  /-- the tasks `gather` waits for -/
  gathered : List Nat
  /-- how many of them have been reported -/
  count : Nat
  stopping : Bool
  /-- which piece of which job was run -/
  log : List (Nat × σ)
  deriving DecidableEq

section
variable {σ : Type*}

def Phase.isFinished : Phase σ → Bool
  | .finished => true
  | _ => false

def setPhase (js : List (Job σ)) (i : Nat) (ph : Phase σ) : List (Job σ) := js.modify i fun j => { j with phase := ph }

/-- The jobs and handles of new jobs. -/
def St.add (s : St σ) (kids : List (Bool × σ)) : St σ :=
  { s with
    jobs := s.jobs ++ kids.map fun k => ⟨.ready k.2, k.1⟩
    ready := s.ready ++ (List.range kids.length).map fun n => .job (s.jobs.length + n) }

variable (next : σ → List (Bool × σ) × Cont σ)

/-- The job returns to the loop. -/
def St.leave (s : St σ) (i : Nat) : Cont σ → St σ
  | .finish => { s with jobs := setPhase s.jobs i .finished, ready := s.ready ++ if i ∈ s.gathered then [.child] else [] }
  | .pause q => { s with jobs := setPhase s.jobs i (.ready q), ready := s.ready ++ [.job i] }
  | .wait q => { s with jobs := setPhase s.jobs i (.waiting q) }

def St.runJob (s : St σ) (i : Nat) : St σ :=
  match s.jobs[i]?.map Job.phase with
  | some (.ready p) => ({ s.add (next p).1 with log := s.log ++ [(i, p)] } : St σ).leave i (next p).2
  | _ => s

def St.exec (s : St σ) : Handle → St σ
  | .job i => s.runJob next i
  | .child => { s with
      count := s.count + 1
      ready := s.ready ++ if s.count + 1 = s.gathered.length then [.stop] else [] }
  | .stop => { s with stopping := true }

/-- The jobs that wait and are woken. -/
def woken (w : Nat → Bool) (js : List (Job σ)) : List Nat :=
  (List.range js.length).filter fun i => w i && match js[i]?.map Job.phase with
    | some (.waiting _) => true
    | _ => false

def wakeJob (w : Bool) (j : Job σ) : Job σ :=
  match w, j.phase with
  | true, .waiting p => { j with phase := .ready p }
  | _, _ => j

def St.wake (w : Nat → Bool) (s : St σ) : St σ :=
  { s with
    jobs := s.jobs.mapIdx fun i j => wakeJob (w i) j
    ready := s.ready ++ (woken w s.jobs).map .job }

/-- One turn of the loop. -/
def St.turn (w : Nat → Bool) (s : St σ) : St σ :=
  let s := s.wake w
  s.ready.foldl (St.exec next) { s with ready := [] }

/-- Turns, with what the environment wakes at each. -/
def St.turns (w : Nat → Nat → Bool) (s : St σ) : Nat → St σ
  | 0 => s
  | n + 1 => (St.turns w s n).turn next (w n)

/-- `all_tasks`: the tasks that have not finished. -/
def allTasks (js : List (Job σ)) : List Nat :=
  (List.range js.length).filter fun i => match js[i]? with
    | some j => j.task && !j.phase.isFinished
    | none => false

/-- Lines 76-83; a future that is done already calls back at once. -/
def St.gather (s : St σ) : St σ :=
  { s with
    gathered := allTasks s.jobs
    ready := s.ready ++ if allTasks s.jobs = [] then [.stop] else [] }

/-- Lines 70-76: one turn, then the tasks are gathered. -/
def St.begun (w : Nat → Bool) (s : St σ) : St σ := (s.turn next w).gather

/-- Lines 68-91: the loop goes on (84) until it is stopped at the end of a turn. -/
def St.Closes (w0 : Nat → Bool) (w : Nat → Nat → Bool) (s s' : St σ) : Prop :=
  ∃ n, s' = (s.begun next w0).turns next w (n + 1) ∧ s'.stopping = true ∧
    ∀ m ≤ n, ((s.begun next w0).turns next w m).stopping = false

/-- A loop that is not running and on which nothing waits for tasks; what is not waiting or finished is scheduled. -/
structure Valid (s : St σ) : Prop where
  ready : ∀ i p, s.jobs[i]?.map Job.phase = some (.ready p) → Handle.job i ∈ s.ready
  plain : ∀ h ∈ s.ready, ∃ i, h = .job i
  gathered : s.gathered = []
  count : s.count = 0
  stopping : s.stopping = false
  /-- the log is of what the call does -/
  log : s.log = []

/-! ### Jobs -/

def ph (s : St σ) (i : Nat) : Option (Phase σ) := s.jobs[i]?.map Job.phase

def fin (s : St σ) (i : Nat) : Bool := match ph s i with
  | some .finished => true
  | _ => false

theorem ph_add {s : St σ} {i : Nat} {x : Phase σ} (kids : List (Bool × σ)) (h : ph s i = some x) : ph (s.add kids) i = some x := by
  unfold ph at h ⊢
  obtain ⟨j, hj, rfl⟩ := Option.map_eq_some_iff.1 h
  have := List.getElem?_eq_some_iff.1 hj
  obtain ⟨hlt, he⟩ := this
  simp [St.add, List.getElem?_append_left hlt, hj]

theorem ph_add_new {s : St σ} {i : Nat} {x : Phase σ} {kids : List (Bool × σ)} (h : ph (s.add kids) i = some x) :
    ph s i = some x ∨ Handle.job i ∈ (s.add kids).ready := by
  by_cases hlt : i < s.jobs.length
  · left
    unfold ph at h ⊢
    simpa [St.add, List.getElem?_append_left hlt] using h
  · right
    unfold ph St.add at h
    rw [List.getElem?_append_right (by omega)] at h
    obtain ⟨j, hj, _⟩ := Option.map_eq_some_iff.1 h
    have hl : i - s.jobs.length < kids.length := by
      have := (List.getElem?_eq_some_iff.1 hj).1
      simpa using this
    unfold St.add
    apply List.mem_append_right
    exact List.mem_map.2 ⟨i - s.jobs.length, List.mem_range.2 hl, by congr 1; omega⟩

theorem ph_set (js : List (Job σ)) (i j : Nat) (x : Phase σ) :
    (setPhase js i x)[j]?.map Job.phase = if i = j then js[j]?.map (fun _ => x) else js[j]?.map Job.phase := by
  unfold setPhase
  rw [List.getElem?_modify]
  split <;> simp [Function.comp_def]

/-- The phase of a job after it returned to the loop. -/
def Cont.phase : Cont σ → Phase σ
  | .finish => .finished
  | .pause p => .ready p
  | .wait p => .waiting p

theorem ph_leave (s : St σ) (i j : Nat) (c : Cont σ) :
    ph (s.leave i c) j = if i = j then (ph s j).map (fun _ => c.phase) else ph s j := by
  have := ph_set s.jobs i j c.phase
  cases c <;> (unfold ph St.leave; simp only [Cont.phase] at this ⊢; rw [this]; split <;> simp [Function.comp_def])

theorem ph_runJob_other {s : St σ} {i j : Nat} (hne : i ≠ j) {x : Phase σ} (h : ph s j = some x) : ph (s.runJob next i) j = some x := by
  unfold St.runJob
  split
  · rw [ph_leave, if_neg hne]
    exact ph_add (s := s) _ h
  · exact h

theorem ph_runJob_self {s : St σ} {i : Nat} {p : σ} (h : ph s i = some (.ready p)) :
    ph (s.runJob next i) i = some (next p).2.phase ∧ (i, p) ∈ (s.runJob next i).log := by
  unfold St.runJob
  have h' := h
  unfold ph at h'
  rw [h']
  simp only
  constructor
  · rw [ph_leave, if_pos rfl]
    have : ph ({ s.add (next p).1 with log := s.log ++ [(i, p)] } : St σ) i = some (.ready p) := ph_add (s := s) _ h
    rw [this]; rfl
  · cases (next p).2 <;> simp [St.leave]

theorem runJob_not_ready {s : St σ} {i : Nat} (h : ∀ p, ph s i ≠ some (.ready p)) : s.runJob next i = s := by
  unfold St.runJob
  split
  · rename_i p hp
    exact absurd hp (h p)
  · rfl

theorem ph_exec_fin {s : St σ} {h : Handle} {j : Nat} (hf : ph s j = some .finished) : ph (s.exec next h) j = some .finished := by
  cases h with
  | job i =>
    by_cases hij : i = j
    · subst hij
      change ph (s.runJob next i) i = _
      rw [runJob_not_ready next (by rw [hf]; simp)]
      exact hf
    · exact ph_runJob_other next hij hf
  | child => exact hf
  | stop => exact hf

/-! ### Turns -/

/-- Every job that is not waiting or finished is scheduled; `todo` is what the turn has still to run. -/
def Scheduled (todo : List Handle) (s : St σ) : Prop := ∀ i p, ph s i = some (.ready p) → Handle.job i ∈ todo ++ s.ready

theorem Scheduled.exec {h : Handle} {todo : List Handle} {s : St σ} (hs : Scheduled (h :: todo) s) :
    Scheduled todo (s.exec next h) := by
  intro j q hq
  cases h with
  | child =>
    have := hs j q hq
    simp only [List.cons_append, List.mem_cons, reduceCtorEq, false_or, List.mem_append] at this
    rcases this with h | h
    · exact List.mem_append_left _ h
    · exact List.mem_append_right _ (List.mem_append_left _ h)
  | stop =>
    rcases List.mem_cons.1 (hs j q hq) with e | e
    · cases e
    · exact e
  | job i =>
    change ph (s.runJob next i) j = _ at hq
    change _ ∈ todo ++ (s.runJob next i).ready
    cases hi : ph s i with
    | none =>
      rw [runJob_not_ready next (by simp [hi])] at hq ⊢
      have := hs j q hq
      rcases List.mem_cons.1 this with e | e
      · cases e; rw [hi] at hq; cases hq
      · exact e
    | some x =>
      cases x with
      | finished =>
        rw [runJob_not_ready next (by simp [hi])] at hq ⊢
        rcases List.mem_cons.1 (hs j q hq) with e | e
        · cases e; rw [hi] at hq; cases hq
        · exact e
      | waiting _ =>
        rw [runJob_not_ready next (by simp [hi])] at hq ⊢
        rcases List.mem_cons.1 (hs j q hq) with e | e
        · cases e; rw [hi] at hq; cases hq
        · exact e
      | ready p =>
        have hi' := hi
        unfold ph at hi'
        unfold St.runJob at hq ⊢
        rw [hi'] at hq ⊢
        simp only at hq ⊢
        by_cases hij : i = j
        · subst hij
          rw [ph_leave, if_pos rfl] at hq
          have h0 : ph ({ s.add (next p).1 with log := s.log ++ [(i, p)] } : St σ) i = some (.ready p) := ph_add (s := s) _ hi
          rw [h0] at hq
          cases hc : (next p).2 with
          | finish => rw [hc] at hq; cases hq
          | wait _ => rw [hc] at hq; cases hq
          | pause r => simp [St.leave]
        · rw [ph_leave, if_neg hij] at hq
          have hmem : Handle.job j ∈ todo ++ (s.add (next p).1).ready := by
            rcases ph_add_new (s := s) hq with h | h
            · rcases List.mem_cons.1 (hs j q h) with e | e
              · cases e; exact absurd rfl hij
              · rcases List.mem_append.1 e with e | e
                · exact List.mem_append_left _ e
                · exact List.mem_append_right _ (List.mem_append_left _ e)
            · exact List.mem_append_right _ h
          rcases List.mem_append.1 hmem with e | e
          · exact List.mem_append_left _ e
          · apply List.mem_append_right
            cases (next p).2
            · exact List.mem_append_left _ e
            · exact List.mem_append_left _ e
            · exact e

theorem ph_wake (w : Nat → Bool) (s : St σ) (i : Nat) :
    ph (s.wake w) i = (ph s i).map fun x => match w i, x with
      | true, .waiting p => .ready p
      | _, x => x := by
  unfold ph St.wake
  simp only [List.getElem?_mapIdx, Option.map_map]
  congr 1
  funext j
  obtain ⟨x, b⟩ := j
  cases hw : w i <;> cases x <;> simp [wakeJob]

theorem Scheduled.wake {w : Nat → Bool} {s : St σ} (hs : Scheduled [] s) : Scheduled [] (s.wake w) := by
  intro i q hq
  rw [ph_wake] at hq
  obtain ⟨x, hx, he⟩ := Option.map_eq_some_iff.1 hq
  simp only [List.nil_append, St.wake, List.mem_append]
  cases x with
  | finished => cases hw : w i <;> simp [hw] at he
  | ready p =>
    left
    exact hs i p hx
  | waiting p =>
    cases hw : w i with
    | false => simp [hw] at he
    | true =>
      right
      refine List.mem_map.2 ⟨i, ?_, rfl⟩
      have hx' := hx
      unfold ph at hx'
      refine List.mem_filter.2 ⟨List.mem_range.2 ?_, ?_⟩
      · obtain ⟨j, hj, _⟩ := Option.map_eq_some_iff.1 hx'
        exact (List.getElem?_eq_some_iff.1 hj).1
      · rw [hw, hx']; rfl

/-- What holds after each handle holds after a turn. -/
theorem fold_inv {P : List Handle → St σ → Prop} (hP : ∀ h todo s, P (h :: todo) s → P todo (s.exec next h))
    (todo : List Handle) (s : St σ) (h : P todo s) : P [] (todo.foldl (St.exec next) s) := by
  induction todo generalizing s with
  | nil => exact h
  | cons x todo ih => exact ih _ (hP x todo s h)

theorem Scheduled.turn {w : Nat → Bool} {s : St σ} (hs : Scheduled [] s) : Scheduled [] (s.turn next w) := by
  unfold St.turn
  apply fold_inv next (P := Scheduled) (fun h todo s h1 => Scheduled.exec next h1)
  intro i p hp
  simpa using (hs.wake (w := w)) i p hp

/-! ### The count of `gather` -/

structure Counted (todo : List Handle) (s : St σ) : Prop where
  nodup : s.gathered.Nodup
  count : s.count + (todo ++ s.ready).count .child = s.gathered.countP (fin s)
  stop : (Handle.stop ∈ todo ++ s.ready ∨ s.stopping = true) ↔ s.count = s.gathered.length

theorem countP_set (g : List Nat) (hg : g.Nodup) (f f' : Nat → Bool) (i : Nat) (hi : f i = false) (hi' : f' i = true)
    (ho : ∀ j, j ≠ i → j ∈ g → f' j = f j) : g.countP f' = g.countP f + if i ∈ g then 1 else 0 := by
  induction g with
  | nil => simp
  | cons a g ih =>
    obtain ⟨h1, h2⟩ := List.nodup_cons.1 hg
    have ih' := ih h2 (fun j hj hm => ho j hj (List.mem_cons_of_mem _ hm))
    rw [List.countP_cons, List.countP_cons, ih']
    by_cases ha : a = i
    · subst ha
      simp [hi, hi', h1]
    · have := ho a ha (by simp)
      rw [this]
      have : (i ∈ a :: g) ↔ i ∈ g := by simp [Ne.symm ha]
      simp only [this]
      omega

theorem fin_iff {s : St σ} {i : Nat} : fin s i = true ↔ ph s i = some .finished := by
  unfold fin
  split
  · rename_i h; simp [h]
  · rename_i h; simp only [Bool.false_eq_true, false_iff]; exact h

theorem fin_add (s : St σ) (kids : List (Bool × σ)) (i : Nat) : fin (s.add kids) i = fin s i := by
  rw [Bool.eq_iff_iff, fin_iff, fin_iff]
  refine ⟨fun h => ?_, ph_add kids⟩
  by_cases hlt : i < s.jobs.length
  · unfold ph at h ⊢
    simpa [St.add, List.getElem?_append_left hlt] using h
  · unfold ph St.add at h
    rw [List.getElem?_append_right (by omega)] at h
    obtain ⟨j, hj, he⟩ := Option.map_eq_some_iff.1 h
    have hm := List.mem_of_getElem? hj
    obtain ⟨k, _, rfl⟩ := List.mem_map.1 hm
    cases he

theorem fin_leave {s : St σ} {i j : Nat} {c : Cont σ} (hi : (ph s i).isSome) :
    fin (s.leave i c) j = if i = j then (match c with | .finish => true | _ => false) else fin s j := by
  rw [Bool.eq_iff_iff, fin_iff, ph_leave]
  by_cases hij : i = j
  · subst hij
    obtain ⟨x, hx⟩ := Option.isSome_iff_exists.1 hi
    cases c <;> simp [hx, Cont.phase]
  · rw [if_neg hij, if_neg hij, fin_iff]

theorem Counted.exec {h : Handle} {todo : List Handle} {s : St σ} (hc : Counted (h :: todo) s) : Counted todo (s.exec next h) := by
  obtain ⟨h1, h2, h3⟩ := hc
  have hle : s.gathered.countP (fin s) ≤ s.gathered.length := List.countP_le_length
  cases h with
  | child =>
    have hcc : (Handle.child :: todo ++ s.ready).count Handle.child = (todo ++ s.ready).count Handle.child + 1 := by
      simp
    have hne : s.count ≠ s.gathered.length := by omega
    have hns : ¬ (Handle.stop ∈ Handle.child :: todo ++ s.ready ∨ s.stopping = true) := fun h => hne (h3.1 h)
    have hf : ∀ i, fin (s.exec next .child) i = fin s i := fun _ => rfl
    refine ⟨h1, ?_, ?_⟩
    · rw [show fin (s.exec next .child) = fin s from rfl]
      change s.count + 1 + (todo ++ (s.ready ++ if s.count + 1 = s.gathered.length then [Handle.stop] else [])).count .child =
        s.gathered.countP (fin s)
      rw [← h2, hcc]
      split <;> simp [List.count_append] <;> omega
    · change (Handle.stop ∈ todo ++ (s.ready ++ if s.count + 1 = s.gathered.length then [Handle.stop] else []) ∨ s.stopping = true) ↔
        s.count + 1 = s.gathered.length
      constructor
      · intro h
        by_contra hn
        rw [if_neg hn] at h
        apply hns
        rcases h with h | h
        · left; simpa using h
        · right; exact h
      · intro h
        left
        rw [if_pos h]
        simp
  | stop =>
    refine ⟨h1, ?_, ?_⟩
    · change s.count + (todo ++ s.ready).count .child = s.gathered.countP (fin s)
      rw [← h2]
      simp
    · change (Handle.stop ∈ todo ++ s.ready ∨ true = true) ↔ s.count = s.gathered.length
      exact ⟨fun _ => h3.1 (.inl (by simp)), fun _ => .inr rfl⟩
  | job i =>
    change Counted todo (s.runJob next i)
    have h2' : s.count + (todo ++ s.ready).count .child = s.gathered.countP (fin s) := by rw [← h2]; simp
    have h3' : (Handle.stop ∈ todo ++ s.ready ∨ s.stopping = true) ↔ s.count = s.gathered.length := by rw [← h3]; simp
    by_cases hr : ∃ p, ph s i = some (.ready p)
    · obtain ⟨p, hp⟩ := hr
      have hp' := hp
      unfold ph at hp'
      unfold St.runJob
      rw [hp']
      simp only
      have hadd : Counted todo ({ s.add (next p).1 with log := s.log ++ [(i, p)] } : St σ) := by
        refine ⟨h1, ?_, ?_⟩
        · have hf : fin ({ s.add (next p).1 with log := s.log ++ [(i, p)] } : St σ) = fin s := funext fun j => fin_add s _ j
          rw [hf]
          change s.count + (todo ++ (s.ready ++ (List.range (next p).1.length).map fun n => Handle.job (s.jobs.length + n))).count .child =
            s.gathered.countP (fin s)
          rw [← h2', ← List.append_assoc, List.count_append (l₁ := todo ++ s.ready)]
          have : ((List.range (next p).1.length).map fun n => Handle.job (s.jobs.length + n)).count .child = 0 := by
            rw [List.count_eq_zero]; simp
          omega
        · change (Handle.stop ∈ todo ++ (s.ready ++ (List.range (next p).1.length).map fun n => Handle.job (s.jobs.length + n)) ∨
            s.stopping = true) ↔ s.count = s.gathered.length
          rw [← h3']
          simp
      have hph : ph ({ s.add (next p).1 with log := s.log ++ [(i, p)] } : St σ) i = some (.ready p) := ph_add (s := s) _ hp
      generalize ({ s.add (next p).1 with log := s.log ++ [(i, p)] } : St σ) = s2 at hadd hph
      obtain ⟨k1, k2, k3⟩ := hadd
      have hnf : fin s2 i = false := by
        rw [Bool.eq_false_iff, ne_eq, fin_iff, hph]; simp
      have hsome : (ph s2 i).isSome := by simp [hph]
      cases (next p).2 with
      | finish =>
        refine ⟨k1, ?_, ?_⟩
        · have := countP_set s2.gathered k1 (fin s2) (fin (s2.leave i .finish)) i hnf (by rw [fin_leave hsome]; simp)
            (fun j hj _ => by rw [fin_leave hsome, if_neg (Ne.symm hj)])
          change s2.count + (todo ++ (s2.ready ++ if i ∈ s2.gathered then [Handle.child] else [])).count .child =
            s2.gathered.countP (fin (s2.leave i .finish))
          rw [this, ← k2]
          split <;> simp [List.count_append, Nat.add_assoc]
        · change (Handle.stop ∈ todo ++ (s2.ready ++ if i ∈ s2.gathered then [Handle.child] else []) ∨ s2.stopping = true) ↔
            s2.count = s2.gathered.length
          rw [← k3]
          split <;> simp
      | pause q =>
        have hf : fin (s2.leave i (.pause q)) = fin s2 := funext fun j => by
          rw [fin_leave hsome]; split
          · rename_i h; rw [← h, hnf]
          · rfl
        refine ⟨k1, ?_, ?_⟩
        · rw [hf]
          change s2.count + (todo ++ (s2.ready ++ [Handle.job i])).count .child = s2.gathered.countP (fin s2)
          rw [← k2]
          simp [List.count_append]
        · change (Handle.stop ∈ todo ++ (s2.ready ++ [Handle.job i]) ∨ s2.stopping = true) ↔ s2.count = s2.gathered.length
          rw [← k3]
          simp
      | wait q =>
        have hf : fin (s2.leave i (.wait q)) = fin s2 := funext fun j => by
          rw [fin_leave hsome]; split
          · rename_i h; rw [← h, hnf]
          · rfl
        refine ⟨k1, ?_, k3⟩
        rw [hf]
        exact k2
    · rw [runJob_not_ready next (fun p hp => hr ⟨p, hp⟩)]
      exact ⟨h1, h2', h3'⟩

theorem Counted.wake {w : Nat → Bool} {s : St σ} (hc : Counted [] s) : Counted [] (s.wake w) := by
  have hf : fin (s.wake w) = fin s := funext fun i => by
    rw [Bool.eq_iff_iff, fin_iff, fin_iff, ph_wake]
    cases h : ph s i with
    | none => simp
    | some x => cases hw : w i <;> cases x <;> simp
  refine ⟨hc.nodup, ?_, ?_⟩
  · rw [hf]
    change s.count + (s.ready ++ (woken w s.jobs).map Handle.job).count .child = s.gathered.countP (fin s)
    rw [← hc.count, List.count_append]
    have : ((woken w s.jobs).map Handle.job).count .child = 0 := by
      rw [List.count_eq_zero]; simp
    simp [this]
  · change (Handle.stop ∈ s.ready ++ (woken w s.jobs).map Handle.job ∨ s.stopping = true) ↔ s.count = s.gathered.length
    rw [← hc.stop]
    simp

theorem Counted.turn {w : Nat → Bool} {s : St σ} (hc : Counted [] s) : Counted [] (s.turn next w) := by
  unfold St.turn
  apply fold_inv next (P := Counted) (fun h todo s h1 => Counted.exec next h1)
  have := hc.wake (w := w)
  exact ⟨this.nodup, by rw [List.append_nil]; exact this.count, by have h := this.stop; simpa using h⟩

theorem counted_turns (w : Nat → Nat → Bool) {s : St σ} (hc : Counted [] s) (n : Nat) : Counted [] (s.turns next w n) := by
  induction n with
  | zero => exact hc
  | succ n ih => exact ih.turn next

theorem scheduled_turns (w : Nat → Nat → Bool) {s : St σ} (hc : Scheduled [] s) (n : Nat) : Scheduled [] (s.turns next w n) := by
  induction n with
  | zero => exact hc
  | succ n ih => exact ih.turn next

/-- Before the tasks are gathered. -/
structure Plain (todo : List Handle) (s : St σ) : Prop where
  plain : ∀ h ∈ todo ++ s.ready, ∃ i, h = .job i
  gathered : s.gathered = []
  count : s.count = 0
  stopping : s.stopping = false

theorem Plain.exec {h : Handle} {todo : List Handle} {s : St σ} (hc : Plain (h :: todo) s) : Plain todo (s.exec next h) := by
  obtain ⟨h1, h2, h3, h4⟩ := hc
  have h1' : ∀ h ∈ todo ++ s.ready, ∃ i, h = .job i := fun x hx => h1 x (List.mem_cons_of_mem _ hx)
  obtain ⟨i, rfl⟩ := h1 h (by simp)
  change Plain todo (s.runJob next i)
  unfold St.runJob
  split
  · rename_i p _
    have h5 : Plain todo ({ s.add (next p).1 with log := s.log ++ [(i, p)] } : St σ) := by
      refine ⟨fun h hh => ?_, h2, h3, h4⟩
      change h ∈ todo ++ (s.ready ++ (List.range (next p).1.length).map fun n => Handle.job (s.jobs.length + n)) at hh
      rw [← List.append_assoc] at hh
      rcases List.mem_append.1 hh with hh | hh
      · exact h1' h hh
      · obtain ⟨n, _, rfl⟩ := List.mem_map.1 hh
        exact ⟨_, rfl⟩
    generalize ({ s.add (next p).1 with log := s.log ++ [(i, p)] } : St σ) = s2 at h5
    obtain ⟨k1, k2, k3, k4⟩ := h5
    cases (next p).2 with
    | finish =>
      refine ⟨fun h hh => ?_, k2, k3, k4⟩
      change h ∈ todo ++ (s2.ready ++ if i ∈ s2.gathered then [Handle.child] else []) at hh
      rw [k2] at hh
      exact k1 h (by simpa using hh)
    | pause q =>
      refine ⟨fun h hh => ?_, k2, k3, k4⟩
      change h ∈ todo ++ (s2.ready ++ [Handle.job i]) at hh
      rw [← List.append_assoc] at hh
      rcases List.mem_append.1 hh with hh | hh
      · exact k1 h hh
      · exact ⟨i, by simpa using hh⟩
    | wait q => exact ⟨k1, k2, k3, k4⟩
  · exact ⟨h1', h2, h3, h4⟩

theorem Plain.turn {w : Nat → Bool} {s : St σ} (hc : Plain [] s) : Plain [] (s.turn next w) := by
  unfold St.turn
  apply fold_inv next (P := Plain) (fun h todo s h1 => Plain.exec next h1)
  refine ⟨fun h hh => ?_, hc.gathered, hc.count, hc.stopping⟩
  rw [List.append_nil] at hh
  rcases List.mem_append.1 hh with hh | hh
  · exact hc.plain h hh
  · obtain ⟨n, _, rfl⟩ := List.mem_map.1 hh
    exact ⟨_, rfl⟩

theorem mem_allTasks {js : List (Job σ)} {i : Nat} :
    i ∈ allTasks js ↔ ∃ j, js[i]? = some j ∧ j.task = true ∧ j.phase.isFinished = false := by
  unfold allTasks
  rw [List.mem_filter, List.mem_range]
  constructor
  · rintro ⟨_, h⟩
    cases hj : js[i]? with
    | none => rw [hj] at h; cases h
    | some j =>
      rw [hj] at h
      simp only [Bool.and_eq_true, Bool.not_eq_true'] at h
      exact ⟨j, rfl, h.1, h.2⟩
  · rintro ⟨j, hj, h1, h2⟩
    refine ⟨(List.getElem?_eq_some_iff.1 hj).1, ?_⟩
    rw [hj]
    simp [h1, h2]

theorem counted_gather {s : St σ} (hc : Plain [] s) : Counted [] s.gather := by
  obtain ⟨h1, h2, h3, h4⟩ := hc
  have hch : s.ready.count .child = 0 := by
    rw [List.count_eq_zero]
    intro h
    obtain ⟨i, hi⟩ := h1 _ h
    cases hi
  have hst : Handle.stop ∉ s.ready := by
    intro h
    obtain ⟨i, hi⟩ := h1 _ h
    cases hi
  refine ⟨List.nodup_range.filter _, ?_, ?_⟩
  · have hf : s.gather.gathered.countP (fin s.gather) = 0 := by
      rw [List.countP_eq_zero]
      intro i hi
      obtain ⟨j, hj, _, h5⟩ := mem_allTasks.1 hi
      rw [fin_iff]
      intro h
      have h6 : s.jobs[i]?.map Job.phase = some .finished := h
      rw [hj] at h6
      simp only [Option.map_some, Option.some.injEq] at h6
      rw [h6] at h5
      cases h5
    rw [hf]
    change s.count + (s.ready ++ if allTasks s.jobs = [] then [Handle.stop] else []).count .child = 0
    rw [List.count_append, h3, hch]
    split <;> simp
  · change (Handle.stop ∈ s.ready ++ (if allTasks s.jobs = [] then [Handle.stop] else []) ∨ s.stopping = true) ↔
      s.count = (allTasks s.jobs).length
    rw [h4, h3]
    by_cases hn : allTasks s.jobs = []
    · simp [hn]
    · rw [if_neg hn]
      simp only [List.append_nil, hst, Bool.false_eq_true, or_self, false_iff]
      intro h
      exact hn (List.length_eq_zero_iff.1 h.symm)

theorem Valid.begun {s : St σ} (hv : Valid s) (w : Nat → Bool) :
    Counted [] (s.begun next w) ∧ Scheduled [] (s.begun next w) := by
  constructor
  · exact counted_gather (Plain.turn next ⟨hv.plain, hv.gathered, hv.count, hv.stopping⟩)
  · have h1 : Scheduled [] (s.turn next w) := Scheduled.turn next fun i p h => hv.ready i p h
    intro i p h
    exact List.mem_append_right [] (List.mem_append_left _ (h1 i p h))

theorem leave_gathered (s : St σ) (i : Nat) (c : Cont σ) : (s.leave i c).gathered = s.gathered := by cases c <;> rfl

theorem exec_gathered (s : St σ) (h : Handle) : (s.exec next h).gathered = s.gathered := by
  cases h with
  | job i =>
    change (s.runJob next i).gathered = _
    unfold St.runJob
    split
    · exact leave_gathered _ _ _
    · rfl
  | child => rfl
  | stop => rfl

theorem turn_gathered (w : Nat → Bool) (s : St σ) : (s.turn next w).gathered = s.gathered := by
  unfold St.turn
  exact fold_inv next (P := fun _ s' => s'.gathered = s.gathered) (fun h _ s' h1 => (exec_gathered next s' h).trans h1) _ _ rfl

theorem turns_gathered (w : Nat → Nat → Bool) (s : St σ) (n : Nat) : (s.turns next w n).gathered = s.gathered := by
  induction n with
  | zero => rfl
  | succ n ih => exact (turn_gathered next (w n) _).trans ih

theorem turn_finished {w : Nat → Bool} {s : St σ} {i : Nat} (h : ph s i = some .finished) : ph (s.turn next w) i = some .finished := by
  unfold St.turn
  refine fold_inv next (P := fun _ s' => ph s' i = some .finished) (fun _ _ _ h1 => ph_exec_fin next h1) _ _ ?_
  change ph (s.wake w) i = _
  rw [ph_wake, h]
  cases w i <;> rfl

theorem turns_finished {w : Nat → Nat → Bool} {s : St σ} {i : Nat} (h : ph s i = some .finished) (n : Nat) :
    ph (s.turns next w n) i = some .finished := by
  induction n with
  | zero => exact h
  | succ n ih => exact turn_finished next ih

/-! ### C117 -/

/-- C117, the part that holds: when the call returns, every task that existed after the first turn has finished: those that were there
when it was called and those that the first turn created. (Missing: tasks created later.) -/
theorem C117_finished_partial {w0 : Nat → Bool} {w : Nat → Nat → Bool} {s s' : St σ} (hv : Valid s) (hc : s.Closes next w0 w s')
    {i : Nat} {j : Job σ} (hj : (s.turn next w0).jobs[i]? = some j) (ht : j.task = true) :
    s'.jobs[i]?.map Job.phase = some .finished := by
  obtain ⟨n, rfl, hs, _⟩ := hc
  by_cases hf : j.phase.isFinished = true
  · refine turns_finished next (s := s.begun next w0) ?_ (n + 1)
    change (s.turn next w0).jobs[i]?.map Job.phase = _
    rw [hj]
    cases hp : j.phase with
    | finished => simp [hp]
    | ready p => rw [hp] at hf; cases hf
    | waiting p => rw [hp] at hf; cases hf
  · have hcnt := counted_turns next w (hv.begun next w0).1 (n + 1)
    have h1 := hcnt.stop.1 (.inr hs)
    have h2 := hcnt.count
    have h3 := List.countP_le_length (p := fin ((s.begun next w0).turns next w (n + 1)))
      (l := ((s.begun next w0).turns next w (n + 1)).gathered)
    have h4 : ((s.begun next w0).turns next w (n + 1)).gathered.countP (fin ((s.begun next w0).turns next w (n + 1))) =
        ((s.begun next w0).turns next w (n + 1)).gathered.length := by omega
    rw [List.countP_eq_length] at h4
    apply fin_iff.1
    apply h4
    rw [turns_gathered]
    exact mem_allTasks.2 ⟨j, hj, ht, by simpa using hf⟩

theorem map_task_set (js : List (Job σ)) (i : Nat) (x : Phase σ) : (setPhase js i x).map Job.task = js.map Job.task := by
  apply List.ext_getElem?
  intro k
  unfold setPhase
  rw [List.getElem?_map, List.getElem?_map, List.getElem?_modify]
  split <;> simp [Function.comp_def]

theorem exec_tasks (s : St σ) (h : Handle) : s.jobs.map Job.task <+: (s.exec next h).jobs.map Job.task := by
  cases h with
  | child => exact List.prefix_rfl
  | stop => exact List.prefix_rfl
  | job i =>
    change _ <+: (s.runJob next i).jobs.map Job.task
    unfold St.runJob
    split
    · rename_i p _
      have : (({ s.add (next p).1 with log := s.log ++ [(i, p)] } : St σ).leave i (next p).2).jobs.map Job.task =
          (s.add (next p).1).jobs.map Job.task := by
        cases (next p).2 <;> exact map_task_set _ _ _
      rw [this]
      unfold St.add
      simp
    · exact List.prefix_rfl

theorem wake_tasks (w : Nat → Bool) (s : St σ) : (s.wake w).jobs.map Job.task = s.jobs.map Job.task := by
  apply List.ext_getElem?
  intro k
  simp only [St.wake, List.getElem?_map, List.getElem?_mapIdx, Option.map_map]
  congr 1
  funext j
  obtain ⟨x, b⟩ := j
  cases hw : w k <;> cases x <;> simp [wakeJob]

theorem turn_tasks (w : Nat → Bool) (s : St σ) : s.jobs.map Job.task <+: (s.turn next w).jobs.map Job.task := by
  unfold St.turn
  refine fold_inv next (P := fun _ s' => s.jobs.map Job.task <+: s'.jobs.map Job.task)
    (fun h _ s' h1 => h1.trans (exec_tasks next s' h)) _ _ ?_
  change _ <+: (s.wake w).jobs.map Job.task
  rw [wake_tasks]
  exact List.prefix_rfl

theorem turns_tasks (w : Nat → Nat → Bool) (s : St σ) (n : Nat) : s.jobs.map Job.task <+: (s.turns next w n).jobs.map Job.task := by
  induction n with
  | zero => exact List.prefix_rfl
  | succ n ih => exact ih.trans (turn_tasks next (w n) _)

/-- C117: if nothing is created after the first turn, then all tasks have finished. -/
theorem C117_all_partial {w0 : Nat → Bool} {w : Nat → Nat → Bool} {s s' : St σ} (hv : Valid s) (hc : s.Closes next w0 w s')
    (hn : s'.jobs.length = (s.turn next w0).jobs.length) : ∀ j ∈ s'.jobs, j.task = true → j.phase = .finished := by
  intro j hj ht
  obtain ⟨i, hi⟩ := List.mem_iff_getElem?.1 hj
  have hpre : (s.turn next w0).jobs.map Job.task <+: s'.jobs.map Job.task := by
    obtain ⟨n, rfl, _, _⟩ := hc
    exact turns_tasks next w (s.begun next w0) (n + 1)
  have heq := hpre.eq_of_length (by simp [hn])
  have h1 : ((s.turn next w0).jobs.map Job.task)[i]? = some true := by
    rw [heq, List.getElem?_map, hi]
    simp [ht]
  rw [List.getElem?_map] at h1
  obtain ⟨j', hj', ht'⟩ := Option.map_eq_some_iff.1 h1
  have := C117_finished_partial next hv hc hj' ht'
  rw [hi] at this
  simpa using this

theorem exec_log (s : St σ) (h : Handle) : s.log ⊆ (s.exec next h).log := by
  cases h with
  | child => exact fun _ h => h
  | stop => exact fun _ h => h
  | job i =>
    change _ ⊆ (s.runJob next i).log
    unfold St.runJob
    split
    · rename_i p _
      cases (next p).2 <;> exact fun _ h => List.mem_append_left _ h
    · exact fun _ h => h

theorem turn_log (w : Nat → Bool) (s : St σ) {x : Nat × σ} (hx : x ∈ s.log) : x ∈ (s.turn next w).log := by
  unfold St.turn
  exact fold_inv next (P := fun _ s' => x ∈ s'.log) (fun h _ s' h1 => exec_log next s' h h1) _ _ hx

theorem turns_log (w : Nat → Nat → Bool) (s : St σ) {x : Nat × σ} (hx : x ∈ s.log) (n : Nat) : x ∈ (s.turns next w n).log := by
  induction n with
  | zero => exact hx
  | succ n ih => exact turn_log next (w n) _ ih

/-- In a turn, everything that is scheduled runs. -/
theorem turn_runs {w : Nat → Bool} {s : St σ} (hs : Scheduled [] s) {i : Nat} {p : σ} (hp : ph s i = some (.ready p)) :
    (i, p) ∈ (s.turn next w).log := by
  unfold St.turn
  have h0 : ph (s.wake w) i = some (.ready p) := by
    rw [ph_wake, hp]
    cases w i <;> rfl
  have h1 := hs.wake (w := w) i p h0
  have := fold_inv next (P := fun todo s' => (ph s' i = some (.ready p) ∧ Handle.job i ∈ todo) ∨ (i, p) ∈ s'.log)
    (fun h todo s' h2 => by
      rcases h2 with ⟨h2, h3⟩ | h2
      · by_cases hh : h = .job i
        · subst hh
          exact .inr (ph_runJob_self next h2).2
        · left
          refine ⟨?_, ?_⟩
          · cases h with
            | job k => exact ph_runJob_other next (fun e => hh (by rw [e])) h2
            | child => exact h2
            | stop => exact h2
          · rcases List.mem_cons.1 h3 with e | e
            · exact absurd e.symm hh
            · exact e
      · exact .inr (exec_log next s' h h2)) (s.wake w).ready { s.wake w with ready := [] } (.inl ⟨h0, by simpa using h1⟩)
  rcases this with ⟨_, h⟩ | h
  · cases h
  · exact h

/-- C117: everything that was scheduled when the call was made has been run, callbacks that are not tasks too. -/
theorem C117_scheduled {w0 : Nat → Bool} {w : Nat → Nat → Bool} {s s' : St σ} (hv : Valid s) (hc : s.Closes next w0 w s')
    {i : Nat} {p : σ} (hp : s.jobs[i]?.map Job.phase = some (.ready p)) : (i, p) ∈ s'.log := by
  obtain ⟨n, rfl, _, _⟩ := hc
  exact turns_log next w (s.begun next w0) (turn_runs next (fun i p h => hv.ready i p h) hp) (n + 1)

/-- C117: and what the first turn scheduled, too. -/
theorem C117_scheduled_first {w0 : Nat → Bool} {w : Nat → Nat → Bool} {s s' : St σ} (hv : Valid s) (hc : s.Closes next w0 w s')
    {i : Nat} {p : σ} (hp : (s.turn next w0).jobs[i]?.map Job.phase = some (.ready p)) : (i, p) ∈ s'.log := by
  obtain ⟨n, rfl, _, _⟩ := hc
  have h1 : (i, p) ∈ ((s.begun next w0).turns next w 1).log := turn_runs next (hv.begun next w0).2 hp
  clear * - h1
  induction n with
  | zero => exact h1
  | succ n ih => exact turn_log next (w (n + 1)) _ ih

/-! ### The call returns -/

/-- The job goes on with `q` after a piece that began with `p`. -/
def stepsTo (q p : σ) : Prop := (next p).2 = .pause q ∨ (next p).2 = .wait q

/-- The program ends after finitely many pieces. -/
def Ends (p : σ) : Prop := Acc (stepsTo next) p

def Below (p : σ) : Phase σ → Prop
  | .finished => True
  | .ready q => Relation.TransGen (stepsTo next) q p
  | .waiting q => Relation.TransGen (stepsTo next) q p

theorem below_step {p : σ} (r : σ) (h : r = p ∨ Relation.TransGen (stepsTo next) r p) : Below next p (next r).2.phase := by
  have key : ∀ q, stepsTo next q r → Relation.TransGen (stepsTo next) q p := by
    intro q hq
    rcases h with rfl | h
    · exact .single hq
    · exact .head hq h
  cases hc : (next r).2 with
  | finish => trivial
  | pause q => exact key q (.inl hc)
  | wait q => exact key q (.inr hc)

theorem turn_progress {w : Nat → Bool} {s : St σ} (hs : Scheduled [] s) {i : Nat} {p : σ} (hp : ph (s.wake w) i = some (.ready p)) :
    ∃ x, ph (s.turn next w) i = some x ∧ Below next p x := by
  unfold St.turn
  have h1 := hs.wake (w := w) i p hp
  have := fold_inv next
    (P := fun todo s' => (ph s' i = some (.ready p) ∧ Handle.job i ∈ todo) ∨ ∃ x, ph s' i = some x ∧ Below next p x)
    (fun h todo s' h2 => by
      by_cases hh : h = .job i
      · subst hh
        right
        rcases h2 with ⟨h2, h3⟩ | ⟨x, h2, h3⟩
        · exact ⟨_, (ph_runJob_self next h2).1, below_step next p (.inl rfl)⟩
        · cases x with
          | ready r => exact ⟨_, (ph_runJob_self next h2).1, below_step next r (.inr h3)⟩
          | finished =>
            refine ⟨_, ?_, h3⟩
            change ph (s'.runJob next i) i = _
            rw [runJob_not_ready next (by rw [h2]; simp), h2]
          | waiting r =>
            refine ⟨_, ?_, h3⟩
            change ph (s'.runJob next i) i = _
            rw [runJob_not_ready next (by rw [h2]; simp), h2]
      · have hk : ∀ x, ph s' i = some x → ph (s'.exec next h) i = some x := fun x hx => by
          cases h with
          | job k => exact ph_runJob_other next (fun e => hh (by rw [e])) hx
          | child => exact hx
          | stop => exact hx
        rcases h2 with ⟨h2, h3⟩ | ⟨x, h2, h3⟩
        · refine .inl ⟨hk _ h2, ?_⟩
          rcases List.mem_cons.1 h3 with e | e
          · exact absurd e.symm hh
          · exact e
        · exact .inr ⟨x, hk _ h2, h3⟩) (s.wake w).ready { s.wake w with ready := [] } (.inl ⟨hp, by simpa using h1⟩)
  rcases this with ⟨_, h⟩ | h
  · cases h
  · exact h

theorem turn_waits {w : Nat → Bool} {s : St σ} {i : Nat} {p : σ} (hp : ph s i = some (.waiting p)) (hw : w i = false) :
    ph (s.turn next w) i = some (.waiting p) := by
  unfold St.turn
  refine fold_inv next (P := fun _ s' => ph s' i = some (.waiting p)) (fun h _ s' h1 => ?_) _ _ ?_
  · cases h with
    | job k =>
      by_cases hk : k = i
      · subst hk
        change ph (s'.runJob next k) k = _
        rw [runJob_not_ready next (by rw [h1]; simp), h1]
      · exact ph_runJob_other next hk h1
    | child => exact h1
    | stop => exact h1
  · change ph (s.wake w) i = _
    rw [ph_wake, hp, hw]
    rfl

theorem finished_le {w : Nat → Nat → Bool} {s : St σ} {i k m : Nat} (hkm : k ≤ m) (h : ph (s.turns next w k) i = some .finished) :
    ph (s.turns next w m) i = some .finished := by
  induction m, hkm using Nat.le_induction with
  | base => exact h
  | succ m _ ih => exact turn_finished next ih

theorem ends_finished {w : Nat → Nat → Bool} {s : St σ} (hs : Scheduled [] s) (fair : ∀ k i, ∃ m ≥ k, w m i = true) {i : Nat} {p : σ}
    (hp : Ends next p) : ∀ k, ph (s.turns next w k) i = some (.ready p) ∨ ph (s.turns next w k) i = some (.waiting p) →
      ∃ m, ph (s.turns next w m) i = some .finished := by
  have hp' : Acc (Relation.TransGen (stepsTo next)) p := hp.transGen
  induction hp' with
  | intro p hacc ih =>
    have ih' : ∀ q, Relation.TransGen (stepsTo next) q p → ∀ k, ph (s.turns next w k) i = some (.ready q) ∨
        ph (s.turns next w k) i = some (.waiting q) → ∃ m, ph (s.turns next w m) i = some .finished := by
      intro q hq
      refine ih q hq ?_
      have : Acc (Relation.TransGen (stepsTo next)) q := hp.transGen.inv hq
      exact Subrelation.accessible (fun h => Relation.TransGen.single h) this
    have go : ∀ k, ph ((s.turns next w k).wake (w k)) i = some (.ready p) → ∃ m, ph (s.turns next w m) i = some .finished := by
      intro k hk
      obtain ⟨x, hx, hb⟩ := turn_progress next (scheduled_turns next w hs k) hk
      cases x with
      | finished => exact ⟨k + 1, hx⟩
      | ready q => exact ih' q hb (k + 1) (.inl hx)
      | waiting q => exact ih' q hb (k + 1) (.inr hx)
    intro k hk
    rcases hk with hk | hk
    · apply go k
      rw [ph_wake, hk]
      cases w k i <;> rfl
    · have hex : ∃ d, w (k + d) i = true := by
        obtain ⟨m, hm, h⟩ := fair k i
        exact ⟨m - k, by rwa [Nat.add_sub_cancel' hm]⟩
      have hstay : ∀ d ≤ Nat.find hex, ph (s.turns next w (k + d)) i = some (.waiting p) := by
        intro d
        induction d with
        | zero => exact fun _ => hk
        | succ d ihd =>
          intro hd
          refine turn_waits next (s := s.turns next w (k + d)) (ihd (by omega)) ?_
          have := Nat.find_min hex (m := d) (by omega)
          simpa using this
      apply go (k + Nat.find hex)
      rw [ph_wake, hstay _ le_rfl, Nat.find_spec hex]
      rfl

theorem runJob_rest (s : St σ) (i : Nat) : (s.runJob next i).count = s.count ∧ (s.runJob next i).stopping = s.stopping := by
  unfold St.runJob
  split
  · rename_i p _
    cases (next p).2 <;> exact ⟨rfl, rfl⟩
  · exact ⟨rfl, rfl⟩

theorem turn_counts (w : Nat → Bool) (s : St σ) (h : s.gathered.length ≤ s.count + s.ready.count .child) :
    (s.turn next w).gathered.length ≤ (s.turn next w).count := by
  unfold St.turn
  have := fold_inv next (P := fun todo s' => s'.gathered.length ≤ s'.count + todo.count .child)
    (fun h todo s' h1 => by
      rw [exec_gathered]
      cases h with
      | job i =>
        change s'.gathered.length ≤ (s'.runJob next i).count + _
        rw [(runJob_rest next s' i).1]
        simpa using h1
      | child =>
        change s'.gathered.length ≤ s'.count + 1 + _
        rw [List.count_cons_self] at h1
        omega
      | stop =>
        change s'.gathered.length ≤ s'.count + _
        simpa using h1) (s.wake w).ready { s.wake w with ready := [] } (by
      change s.gathered.length ≤ s.count + (s.ready ++ (woken w s.jobs).map Handle.job).count .child
      rw [List.count_append]
      omega)
  simpa using this

theorem turn_stops (w : Nat → Bool) (s : St σ) (h : Handle.stop ∈ s.ready ∨ s.stopping = true) : (s.turn next w).stopping = true := by
  unfold St.turn
  have := fold_inv next (P := fun todo s' => Handle.stop ∈ todo ∨ s'.stopping = true)
    (fun h todo s' h1 => by
      cases h with
      | job i =>
        change _ ∨ (s'.runJob next i).stopping = true
        rw [(runJob_rest next s' i).2]
        simpa using h1
      | child =>
        change _ ∨ s'.stopping = true
        simpa using h1
      | stop => exact .inr rfl) (s.wake w).ready { s.wake w with ready := [] } (by
      rcases h with h | h
      · exact .inl (List.mem_append_left _ h)
      · exact .inr h)
  simpa using this

/-- C117: the call returns, if everything jobs wait for happens and the tasks that exist after the first turn end; tasks that these
create may run for ever. -/
theorem C117_returns {w0 : Nat → Bool} {w : Nat → Nat → Bool} {s : St σ} (hv : Valid s) (fair : ∀ k i, ∃ m ≥ k, w m i = true)
    (hends : ∀ (i : Nat) (j : Job σ), (s.turn next w0).jobs[i]? = some j → j.task = true → ∀ p, j.phase = .ready p ∨ j.phase = .waiting p → Ends next p) :
    ∃ s', s.Closes next w0 w s' := by
  obtain ⟨hc, hs⟩ := hv.begun next w0
  set b := s.begun next w0 with hb
  have hfin : ∀ i ∈ b.gathered, ∃ m, ph (b.turns next w m) i = some .finished := by
    intro i hi
    obtain ⟨j, hj, ht, hf⟩ := mem_allTasks.1 hi
    have hph : ph (b.turns next w 0) i = some j.phase := by
      change (s.turn next w0).jobs[i]?.map Job.phase = _
      rw [hj]; rfl
    cases hp : j.phase with
    | finished => rw [hp] at hf; cases hf
    | ready p => exact ends_finished next hs fair (hends i j hj ht p (.inl hp)) 0 (.inl (by rw [hph, hp]))
    | waiting p => exact ends_finished next hs fair (hends i j hj ht p (.inr hp)) 0 (.inr (by rw [hph, hp]))
  have hall : ∀ g : List Nat, (∀ i ∈ g, ∃ m, ph (b.turns next w m) i = some .finished) →
      ∃ M, ∀ i ∈ g, ph (b.turns next w M) i = some .finished := by
    intro g
    induction g with
    | nil => exact fun _ => ⟨0, by simp⟩
    | cons a g ih =>
      intro h
      obtain ⟨M, hM⟩ := ih fun i hi => h i (List.mem_cons_of_mem _ hi)
      obtain ⟨m, hm⟩ := h a (by simp)
      refine ⟨max M m, fun i hi => ?_⟩
      rcases List.mem_cons.1 hi with rfl | hi
      · exact finished_le next (le_max_right _ _) hm
      · exact finished_le next (le_max_left _ _) (hM i hi)
  obtain ⟨M, hM⟩ := hall _ hfin
  have c0 := counted_turns next w hc M
  have h1 : (b.turns next w M).gathered.countP (fin (b.turns next w M)) = (b.turns next w M).gathered.length := by
    rw [List.countP_eq_length]
    intro i hi
    rw [turns_gathered] at hi
    exact fin_iff.2 (hM i hi)
  have h2 := c0.count
  rw [h1, List.nil_append] at h2
  have h3 : (b.turns next w (M + 1)).gathered.length ≤ (b.turns next w (M + 1)).count :=
    turn_counts next (w M) (b.turns next w M) (by omega)
  have c1 := counted_turns next w hc (M + 1)
  have h4 := c1.count
  have h5 := List.countP_le_length (p := fin (b.turns next w (M + 1))) (l := (b.turns next w (M + 1)).gathered)
  have h6 : (b.turns next w (M + 1 + 1)).stopping = true := turn_stops next (w (M + 1)) _ (c1.stop.2 (by omega))
  have hex : ∃ n, (b.turns next w n).stopping = true := ⟨_, h6⟩
  have hb0 : b.stopping = false := (Plain.turn next (w := w0) ⟨hv.plain, hv.gathered, hv.count, hv.stopping⟩).stopping
  have hpos : Nat.find hex ≠ 0 := by
    intro h
    have := Nat.find_spec hex
    rw [h] at this
    change b.stopping = true at this
    rw [hb0] at this
    cases this
  obtain ⟨n, hn⟩ := Nat.exists_eq_succ_of_ne_zero hpos
  refine ⟨b.turns next w (n + 1), n, rfl, ?_, fun m hm => ?_⟩
  · have := Nat.find_spec hex
    rwa [hn] at this
  · have := Nat.find_min hex (m := m) (by omega)
    simpa using this

end

/-- A program: 101 goes on with 100, which creates a task and ends; the new one pauses five times. -/
def demo : Nat → List (Bool × Nat) × Cont Nat
  | 100 => ([(true, 5)], .finish)
  | 0 => ([], .finish)
  | n + 1 => ([], .pause n)

/-- A loop with one task. -/
def demoSt (p : Nat) : St Nat := ⟨[⟨.ready p, true⟩], [.job 0], [], 0, false, []⟩

theorem demo_valid (p : Nat) : Valid (demoSt p) := by
  refine ⟨fun i q h => ?_, fun h hh => ⟨0, by simpa [demoSt] using hh⟩, rfl, rfl, rfl, rfl⟩
  cases i with
  | zero => simp [demoSt]
  | succ i => simp [demoSt] at h

/-- The counterexample to C117: a task that a task creates while the call waits gets two turns, then the loop is closed. -/
theorem C117_counterexample : ∃ s', (demoSt 101).Closes demo (fun _ => true) (fun _ _ => true) s' ∧
    s'.jobs = [⟨.finished, true⟩, ⟨.ready 3, true⟩] := by
  refine ⟨_, ⟨2, rfl, by decide, ?_⟩, by decide⟩
  decide

/-- A task that pauses twice and finishes. -/
example : ∃ s', (demoSt 2).Closes demo (fun _ => true) (fun _ _ => true) s' ∧ s'.jobs = [⟨.finished, true⟩] := by
  refine ⟨_, ⟨3, rfl, by decide, ?_⟩, by decide⟩
  decide

theorem demo_ends : Ends demo 1 := by
  have h0 : Ends demo 0 := ⟨_, fun q hq => by rcases hq with h | h <;> cases h⟩
  refine ⟨_, fun q hq => ?_⟩
  rcases hq with h | h
  · cases h; exact h0
  · cases h

/-- The assumptions of `C117_returns` hold for it. -/
example : ∃ s', (demoSt 2).Closes demo (fun _ => true) (fun _ _ => true) s' := by
  refine C117_returns demo (demo_valid 2) (fun k _ => ⟨k, le_rfl, rfl⟩) fun i j hj _ p hp => ?_
  have hjobs : ((demoSt 2).turn demo fun _ => true).jobs = [⟨.ready 1, true⟩] := by decide
  rw [hjobs] at hj
  cases i with
  | succ i => cases hj
  | zero =>
    cases hj
    rcases hp with h | h
    · cases h; exact demo_ends
    · cases h

/-- A loop without tasks. -/
example : ∃ s', (⟨[], [], [], 0, false, []⟩ : St Nat).Closes demo (fun _ => true) (fun _ _ => true) s' ∧ s'.jobs = [] :=
  ⟨_, ⟨0, rfl, by decide, by decide⟩, by decide⟩

end Verif.Small.EventLoop
