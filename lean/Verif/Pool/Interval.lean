import Mathlib.Algebra.Order.Field.Rat
import Mathlib.Tactic.Linarith
import Verif.Pool.Dispatcher

/-!
C130: the minimum interval of `ThreadDispatcher` (`nion/utils/ThreadPool.py:26-36, 57-85`).

The machine of `Dispatcher` with a clock: real time passes between the steps, and `time.time()` is the real time plus an offset, which
somebody may change (the clock of the system can be set). Line 66-67 decides with the time at that step whether the interval has elapsed; a
timed wait (68) may end at any time, after which the test is made again, so nothing is assumed about it. Every event of the log gets the
real time at which it happens.
-/

namespace Verif.Dispatcher

section
variable {Tid : Type*} [DecidableEq Tid]

set_option linter.unusedSectionVars false

structure TState (Tid : Type*) where
  base : State Tid
  real : ℚ
  offset : ℚ
  /-- `self.__last_time` -/
  last : ℚ
  tlog : List (Ev Tid × ℚ)

inductive TAct (Tid : Type*) where
  | act (a : Act Tid)
  /-- time passes (negative numbers do nothing) -/
  | pass (d : ℚ)
  /-- the clock is set -/
  | adjust (d : ℚ)

def TState.init (start offset : ℚ) : TState Tid := ⟨State.init, start, offset, 0, []⟩

/-- Lines 66-67, negated. -/
def TState.late (interval : ℚ) (s : TState Tid) : Bool :=
  !(decide (interval ≠ 0) && decide (s.real + s.offset - s.last < interval))

/-- The choice whether the interval has elapsed is not free any more. -/
def TState.fix (interval : ℚ) (s : TState Tid) : Act Tid → Act Tid
  | .worker _ => .worker (s.late interval)
  | a => a

def TState.step (interval : ℚ) (s : TState Tid) : TAct Tid → TState Tid
  | .pass d => { s with real := if 0 ≤ d then s.real + d else s.real }
  | .adjust d => { s with offset := s.offset + d }
  | .act a =>
    match s.base.step (s.fix interval a) with
    | none => s
    | some b =>
      { s with base := b, tlog := s.tlog ++ (b.log.drop s.base.log.length).map (fun e => (e, s.real))
               last := if s.base.worker = .time ∧ b.worker = .wait then s.real + s.offset else s.last }

def TState.run (interval : ℚ) (s : TState Tid) (as : List (TAct Tid)) : TState Tid := as.foldl (TState.step interval) s

/-! ### Specification -/

/-- A start or an end of the function. -/
def Ev.ofRun : Ev Tid → Bool
  | .start | .finish | .fail => true
  | _ => false

/-- The function is not started sooner than `interval` after the end (and the start) of an earlier run. -/
def Spaced (interval : ℚ) (l : List (Ev Tid × ℚ)) : Prop :=
  l.Pairwise fun x y => x.1.ofRun = true → y.1 = .start → x.2 + interval ≤ y.2

/-- The times at which the function was started. -/
def starts (l : List (Ev Tid × ℚ)) : List ℚ := (l.filter (fun x => decide (x.1 = .start))).map Prod.snd

/-! ### Invariant -/

/-- The dispatcher's thread is in a run or just behind it. -/
def Behind : WPC → Prop
  | .running | .notify | .time => True
  | _ => False

instance : DecidablePred (Behind) := fun w => by cases w <;> unfold Behind <;> infer_instance

structure TInv (interval offset : ℚ) (s : TState Tid) : Prop where
  off : s.offset = offset
  past : ∀ x ∈ s.tlog, x.2 ≤ s.real
  last : ¬ Behind s.base.worker → ∀ x ∈ s.tlog, x.1.ofRun = true → x.2 + offset ≤ s.last
  pass : s.base.worker = .call → ∀ x ∈ s.tlog, x.1.ofRun = true → x.2 + interval ≤ s.real
  soon : (s.base.worker = .check2 ∨ ∃ f, s.base.worker = .reset f) → s.base.brk = true ∨
    ∀ x ∈ s.tlog, x.1.ofRun = true → x.2 + interval ≤ s.real
  spaced : Spaced interval s.tlog

theorem tinv_pass {interval offset : ℚ} {s : TState Tid} (h : TInv interval offset s) (r : ℚ) (hr : s.real ≤ r) :
    TInv interval offset { s with real := r } :=
  ⟨h.off, fun x hx => (h.past x hx).trans hr, h.last, fun hc x hx he => (h.pass hc x hx he).trans hr,
    fun hc => (h.soon hc).imp id (fun hh x hx he => (hh x hx he).trans hr), h.spaced⟩

/-- Only the events of a run matter. -/
theorem mem_stamped {s : TState Tid} {l : List (Ev Tid)} (hl : ∀ e ∈ l, e.ofRun = false) :
    ∀ x ∈ s.tlog ++ l.map (fun e => (e, s.real)), x.1.ofRun = true → x ∈ s.tlog := by
  intro x hx he
  rcases List.mem_append.1 hx with hx | hx
  · exact hx
  · obtain ⟨e, he', rfl⟩ := List.mem_map.1 hx
    simp [hl e he'] at he

theorem past_stamped {s : TState Tid} (h : ∀ x ∈ s.tlog, x.2 ≤ s.real) (l : List (Ev Tid)) :
    ∀ x ∈ s.tlog ++ l.map (fun e => (e, s.real)), x.2 ≤ s.real := by
  intro x hx
  rcases List.mem_append.1 hx with hx | hx
  · exact h x hx
  · obtain ⟨e, _, rfl⟩ := List.mem_map.1 hx; exact le_refl _

theorem spaced_stamped {interval : ℚ} {s : TState Tid} (h : Spaced interval s.tlog) (l : List (Ev Tid)) (hl : ∀ e ∈ l, e ≠ .start) :
    Spaced interval (s.tlog ++ l.map (fun e => (e, s.real))) := by
  unfold Spaced
  rw [List.pairwise_append]
  refine ⟨h, ?_, ?_⟩
  · rw [List.pairwise_map]
    refine List.pairwise_of_forall_mem_list ?_
    intro a _ b hb _ h1
    exact absurd h1 (hl b hb)
  · intro x _ y hy _ he
    obtain ⟨e, he', rfl⟩ := List.mem_map.1 hy
    exact absurd he (hl e he')

/-- A step that logs nothing of a run. -/
theorem tinv_quiet {interval offset : ℚ} {s : TState Tid} (h : TInv interval offset s) (b : State Tid) (l : List (Ev Tid))
    (hlog : b.log = s.base.log ++ l) (hl : ∀ e ∈ l, e.ofRun = false) (last' : ℚ)
    (hlast : ¬ Behind b.worker → ∀ x ∈ s.tlog, x.1.ofRun = true → x.2 + offset ≤ last')
    (hpass : b.worker = .call → ∀ x ∈ s.tlog, x.1.ofRun = true → x.2 + interval ≤ s.real)
    (hsoon : (b.worker = .check2 ∨ ∃ f, b.worker = .reset f) → b.brk = true ∨
      ∀ x ∈ s.tlog, x.1.ofRun = true → x.2 + interval ≤ s.real) :
    TInv interval offset { s with base := b, tlog := s.tlog ++ (b.log.drop s.base.log.length).map (fun e => (e, s.real)), last := last' } := by
  rw [hlog, List.drop_left]
  refine ⟨h.off, past_stamped h.past l, fun hb x hx he => hlast hb x (mem_stamped hl x hx he) he,
    fun hb x hx he => hpass hb x (mem_stamped hl x hx he) he,
    fun hb => (hsoon hb).imp id (fun hh x hx he => hh x (mem_stamped hl x hx he) he), spaced_stamped h.spaced l ?_⟩
  rintro e he rfl
  have := hl _ he
  simp [Ev.ofRun] at this

/-- A step that logs the end of a run. -/
theorem tinv_end {interval offset : ℚ} {s : TState Tid} (h : TInv interval offset s) (b : State Tid) (e : Ev Tid)
    (hlog : b.log = s.base.log ++ [e]) (he : e ≠ .start) (hb : Behind b.worker) (last' : ℚ) :
    TInv interval offset { s with base := b, tlog := s.tlog ++ (b.log.drop s.base.log.length).map (fun e => (e, s.real)), last := last' } := by
  rw [hlog, List.drop_left]
  refine ⟨h.off, past_stamped h.past _, fun hn => absurd hb hn, ?_, ?_, spaced_stamped h.spaced _ (by simpa using he)⟩
  · intro hc; simp only at hc; rw [hc] at hb; exact hb.elim
  · rintro (hc | ⟨f, hc⟩) <;> (simp only at hc; rw [hc] at hb; exact hb.elim)

/-- The start of a run. -/
theorem tinv_start {interval offset : ℚ} {s : TState Tid} (h : TInv interval offset s) (b : State Tid)
    (hlog : b.log = s.base.log ++ [.start]) (hw : s.base.worker = .call) (hb : Behind b.worker) (last' : ℚ) :
    TInv interval offset { s with base := b, tlog := s.tlog ++ (b.log.drop s.base.log.length).map (fun e => (e, s.real)), last := last' } := by
  rw [hlog, List.drop_left]
  refine ⟨h.off, past_stamped h.past _, fun hn => absurd hb hn, ?_, ?_, ?_⟩
  · intro hc; simp only at hc; rw [hc] at hb; exact hb.elim
  · rintro (hc | ⟨f, hc⟩) <;> (simp only at hc; rw [hc] at hb; exact hb.elim)
  · unfold Spaced
    rw [List.pairwise_append]
    refine ⟨h.spaced, by simp, ?_⟩
    intro x hx y hy hxe _
    simp only [List.map_cons, List.map_nil, List.mem_singleton] at hy
    subst hy
    exact h.pass hw x hx hxe

theorem client_step (s b : State Tid) (i : Tid) (h : s.clientStep i = some b) :
    b.worker = s.worker ∧ (s.brk = true → b.brk = true) ∧ ∃ l, b.log = s.log ++ l ∧ ∀ e ∈ l, e.ofRun = false := by
  have fin : ∀ (x : State Tid), some x = some b → x.worker = s.worker → (s.brk = true → x.brk = true) →
      (∃ l, x.log = s.log ++ l ∧ ∀ e ∈ l, e.ofRun = false) →
      b.worker = s.worker ∧ (s.brk = true → b.brk = true) ∧ ∃ l, b.log = s.log ++ l ∧ ∀ e ∈ l, e.ofRun = false := by
    intro x hx h1 h2 h3
    cases hx
    exact ⟨h1, h2, h3⟩
  have same : ∀ (x : State Tid), x.log = s.log → ∃ l, x.log = s.log ++ l ∧ ∀ e ∈ l, e.ofRun = false :=
    fun x hx => ⟨[], by simp [hx], by simp⟩
  unfold State.clientStep at h
  cases hc : s.client i <;> rw [hc] at h <;> simp only at h
  · cases h
  · split at h
    · exact fin _ h rfl id (same _ rfl)
    · cases h
  · exact fin _ h rfl id (same _ rfl)
  · exact fin _ h rfl id ⟨[.trigger], rfl, by simp [Ev.ofRun]⟩
  · exact fin _ h rfl id (same _ rfl)
  · split at h
    · exact fin _ h rfl id ⟨[.returned i], rfl, by simp [Ev.ofRun]⟩
    · exact fin _ h rfl id (same _ rfl)
  · cases h
  · exact fin _ h rfl id ⟨[.returned i], rfl, by simp [Ev.ofRun]⟩
  · split at h
    · exact fin _ h rfl id (same _ rfl)
    · cases h
  · exact fin _ h rfl (fun _ => rfl) (same _ rfl)
  · exact fin _ h rfl id (same _ rfl)
  · exact fin _ h rfl id (same _ rfl)
  · split at h
    · exact fin _ h rfl id ⟨[.closed i], rfl, by simp [Ev.ofRun]⟩
    · cases h

theorem tinv_act {interval offset : ℚ} {s : TState Tid} (h : TInv interval offset s) (a : Act Tid) :
    TInv interval offset (s.step interval (.act a)) := by
  -- a step that leaves the thread where it is
  have keep : ∀ (b : State Tid), b.worker = s.base.worker → (s.base.brk = true → b.brk = true) →
      (∃ l, b.log = s.base.log ++ l ∧ ∀ e ∈ l, e.ofRun = false) →
      TInv interval offset { s with
        base := b, tlog := s.tlog ++ (b.log.drop s.base.log.length).map (fun e => (e, s.real))
        last := if s.base.worker = .time ∧ b.worker = .wait then s.real + s.offset else s.last } := by
    rintro b hw hb ⟨l, hl, hle⟩
    rw [if_neg (by rw [hw]; rintro ⟨h1, h2⟩; rw [h1] at h2; cases h2)]
    exact tinv_quiet h b l hl hle _ (hw ▸ h.last) (hw ▸ h.pass) (fun hh => (h.soon (hw ▸ hh)).imp hb id)
  unfold TState.step
  cases a with
  | worker l =>
    simp only [TState.fix, State.step]
    -- a step that logs nothing of a run, from a point outside of a run
    have move : ∀ (b : State Tid) (l : List (Ev Tid)), ¬ Behind s.base.worker → b.log = s.base.log ++ l → (∀ e ∈ l, e.ofRun = false) →
        (b.worker = .call → ∀ x ∈ s.tlog, x.1.ofRun = true → x.2 + interval ≤ s.real) →
        ((b.worker = .check2 ∨ ∃ f, b.worker = .reset f) → b.brk = true ∨
          ∀ x ∈ s.tlog, x.1.ofRun = true → x.2 + interval ≤ s.real) →
        TInv interval offset { s with
          base := b, tlog := s.tlog ++ (b.log.drop s.base.log.length).map (fun e => (e, s.real))
          last := if s.base.worker = .time ∧ b.worker = .wait then s.real + s.offset else s.last } := by
      intro b l hn hl hle h1 h2
      rw [if_neg (by rintro ⟨h1, _⟩; exact hn (by rw [h1]; trivial))]
      exact tinv_quiet h b l hl hle _ (fun _ => h.last hn) h1 h2
    unfold State.workerStep
    cases hw : s.base.worker with
    | new => exact h
    | ended => exact h
    | wait =>
      simp only
      by_cases he : s.base.event
      · simp only [if_pos he]
        have m := move { s.base with worker := .clear } [] (by rw [hw]; exact id) (by simp) (by simp) (by simp) (by simp)
        rw [hw] at m
        exact m
      · simp only [if_neg he]; exact h
    | clear =>
      simp only
      by_cases he : s.base.lock = none
      · simp only [if_pos he]
        rw [← hw]
        exact move { s.base with event := false, worker := .check } [] (by rw [hw]; exact id) (by simp) (by simp) (by simp) (by simp)
      · simp only [if_neg he]; exact h
    | check =>
      simp only
      rw [← hw]
      refine move { s.base with worker := if s.base.brk then .ended else .inner false } [] (by rw [hw]; exact id) (by simp) (by simp) ?_ ?_
      · cases s.base.brk <;> simp
      · cases s.base.brk <;> simp
    | inner flag =>
      simp only
      rw [← hw]
      refine move { s.base with worker := if s.base.brk then .reset flag else if s.late interval then .reset flag else .timed flag } []
        (by rw [hw]; exact id) (by simp) (by simp) ?_ ?_
      · cases s.base.brk <;> cases s.late interval <;> simp
      · intro hh
        cases hb : s.base.brk with
        | true => exact .inl rfl
        | false =>
          right
          cases hl : s.late interval with
          | false => simp [hb, hl] at hh
          | true =>
            intro x hx he
            have h1 := h.last (by rw [hw]; exact id) x hx he
            have h2 := h.past x hx
            have h3 := h.off
            simp only [TState.late, Bool.not_eq_true', Bool.and_eq_false_iff, decide_eq_false_iff_not, not_not, not_lt] at hl
            rcases hl with hl | hl
            · rw [hl]; linarith
            · rw [h3] at hl; linarith
    | timed flag =>
      simp only
      rw [← hw]
      exact move { s.base with worker := .clear2 (s.base.event || flag) } [] (by rw [hw]; exact id) (by simp) (by simp) (by simp) (by simp)
    | clear2 flag =>
      simp only
      rw [← hw]
      exact move { s.base with event := false, worker := .inner flag } [] (by rw [hw]; exact id) (by simp) (by simp) (by simp) (by simp)
    | reset flag =>
      simp only
      rw [← hw]
      exact move { s.base with event := s.base.event || flag, worker := .check2 } [] (by rw [hw]; exact id) (by simp) (by simp) (by simp)
        (fun _ => h.soon (.inr ⟨flag, hw⟩))
    | check2 =>
      simp only
      rw [← hw]
      refine move { s.base with worker := if s.base.brk then .ended else .call } [] (by rw [hw]; exact id) (by simp) (by simp) ?_ ?_
      · intro hh
        rcases h.soon (.inl hw) with hb | hb
        · simp [hb] at hh
        · exact hb
      · cases s.base.brk <;> simp
    | call =>
      simp only
      exact tinv_start h ({ s.base with worker := .running }.emit .start) rfl hw (show Behind .running from trivial) _
    | running =>
      simp only
      exact tinv_end h ({ s.base with worker := .notify }.emit .finish) .finish rfl (by simp) (show Behind .notify from trivial) _
    | notify =>
      simp only
      exact tinv_end h ({ s.base.setTriggered with worker := .time }.emit .announce) .announce rfl (by simp) (show Behind .time from trivial) _
    | time =>
      simp only [true_and, if_true]
      refine tinv_quiet h { s.base with worker := .wait } [] (by simp) (by simp) _ (fun _ x hx _ => ?_) (by simp) (by simp)
      have := h.past x hx
      rw [h.off]; linarith
  | fnRaise =>
    simp only [TState.fix, State.step]
    by_cases hw : s.base.worker = .running
    · simp only [if_pos hw]
      exact tinv_end h ({ s.base with worker := .time }.emit .fail) .fail rfl (by simp) (show Behind .time from trivial) _
    · simp only [if_neg hw]; exact h
  | fnTrigger =>
    simp only [TState.fix, State.step]
    by_cases hw : s.base.worker = .running
    · simp only [if_pos hw]
      exact keep _ rfl (fun h => h) ⟨_, rfl, by simp [Ev.ofRun]⟩
    · simp only [if_neg hw]; exact h
  | start =>
    simp only [TState.fix, State.step]
    by_cases hw : s.base.worker = .new
    · simp only [if_pos hw]
      refine tinv_quiet h _ [] (by simp) (by simp) _ ?_ (by simp) (by simp)
      intro _
      rw [if_neg (by simp [hw])]
      exact h.last (by rw [hw]; exact id)
    · simp only [if_neg hw]; exact h
  | trigger i =>
    simp only [TState.fix, State.step]
    by_cases hw : s.base.client i = .idle
    · simp only [if_pos hw]
      exact keep _ rfl (fun h => h) ⟨_, rfl, by simp [Ev.ofRun]⟩
    · simp only [if_neg hw]; exact h
  | triggerWait i =>
    simp only [TState.fix, State.step]
    by_cases hw : s.base.client i = .idle
    · simp only [if_pos hw]
      exact keep _ rfl (fun h => h) ⟨_, rfl, by simp [Ev.ofRun]⟩
    · simp only [if_neg hw]; exact h
  | close i =>
    simp only [TState.fix, State.step]
    by_cases hw : s.base.client i = .idle
    · simp only [if_pos hw]
      exact keep _ rfl (fun h => h) ⟨[], by simp [State.setC], by simp⟩
    · simp only [if_neg hw]; exact h
  | go i =>
    simp only [TState.fix, State.step]
    cases hc : s.base.clientStep i with
    | none => exact h
    | some b =>
      obtain ⟨h1, h2, h3⟩ := client_step _ _ _ hc
      exact keep b h1 h2 h3

theorem tinv_run {interval offset : ℚ} {s : TState Tid} (h : TInv interval offset s) (as : List (TAct Tid))
    (ha : ∀ d, .adjust d ∉ as) : TInv interval offset (s.run interval as) := by
  induction as generalizing s with
  | nil => exact h
  | cons a as ih =>
    refine ih ?_ (fun d hd => ha d (List.mem_cons_of_mem _ hd))
    cases a with
    | act a => exact tinv_act h a
    | pass d =>
      refine tinv_pass h _ ?_
      split
      · rename_i hd; linarith
      · exact le_refl _
    | adjust d => exact absurd (List.mem_cons_self) (ha d)

/-! ### C130 -/

/-- C130: while nobody sets the clock, the function is never started sooner than the minimum interval after the end of an earlier run,
however often it is triggered, and also when it raises. (Missing: the clock is set.) -/
theorem C130_interval_partial (interval start offset : ℚ) (as : List (TAct Tid)) (ha : ∀ d, .adjust d ∉ as) :
    Spaced interval ((TState.init start offset : TState Tid).run interval as).tlog :=
  (tinv_run (s := TState.init start offset) ⟨rfl, by simp [TState.init], by simp [TState.init], by simp [TState.init],
    fun _ => .inr (by simp [TState.init]), by simp [TState.init, Spaced]⟩ as ha).spaced

/-- Numbers at least `i` apart, from an interval of the length `k i`, are at most `k`. -/
theorem length_le_of_gaps (i a : ℚ) (l : List ℚ) (h : l.Pairwise fun x y => x + i ≤ y) (k : ℕ) (h1 : ∀ x ∈ l, a ≤ x)
    (h2 : ∀ x ∈ l, x < a + k * i) : l.length ≤ k := by
  induction l generalizing a k with
  | nil => simp
  | cons x l ih =>
    rw [List.pairwise_cons] at h
    cases k with
    | zero =>
      have := h1 x (by simp); have := h2 x (by simp)
      simp at *; linarith
    | succ k =>
      have hx := h1 x (by simp)
      have := ih (a := a + i) h.2 k (fun y hy => by have := h.1 y hy; linarith)
        (fun y hy => by have := h2 y (by simp [hy]); push_cast at this; linarith)
      simpa using this

/-- C130: in any span of `k` minimum intervals the function is started at most `k` times. -/
theorem C130_rate_partial (interval start offset : ℚ) (as : List (TAct Tid)) (ha : ∀ d, .adjust d ∉ as) (a : ℚ) (k : ℕ) :
    ((starts ((TState.init start offset : TState Tid).run interval as).tlog).filter
      (fun t => decide (a ≤ t ∧ t < a + k * interval))).length ≤ k := by
  refine length_le_of_gaps interval a _ ?_ k ?_ ?_
  · refine List.Pairwise.filter _ ?_
    unfold starts
    rw [List.pairwise_map]
    have := (C130_interval_partial (Tid := Tid) interval start offset as ha).filter (fun x => decide (x.1 = .start))
    refine this.imp_of_mem ?_
    intro x y hx hy hxy
    have h1 : x.1 = .start := by simpa using (List.mem_filter.1 hx).2
    have h2 : y.1 = .start := by simpa using (List.mem_filter.1 hy).2
    exact hxy (by rw [h1]; rfl) h2
  · intro x hx; have := (List.mem_filter.1 hx).2; simp only [decide_eq_true_eq] at this; exact this.1
  · intro x hx; have := (List.mem_filter.1 hx).2; simp only [decide_eq_true_eq] at this; exact this.2

theorem base_step (interval : ℚ) (s : TState Tid) (a : Act Tid) :
    (s.step interval (.act a)).base = (s.base.step (s.fix interval a)).getD s.base := by
  cases h : s.base.step (s.fix interval a) <;> simp [TState.step, h]

theorem base_run (interval : ℚ) (s : TState Tid) (as : List (TAct Tid)) : ∃ sch, (s.run interval as).base = s.base.run sch := by
  induction as generalizing s with
  | nil => exact ⟨[], rfl⟩
  | cons a as ih =>
    obtain ⟨sch, h⟩ := ih (s.step interval a)
    cases a with
    | act a =>
      refine ⟨s.fix interval a :: sch, ?_⟩
      have : s.base.run (s.fix interval a :: sch) = ((s.base.step (s.fix interval a)).getD s.base).run sch := rfl
      rw [this, ← base_step]; exact h
    | pass d => exact ⟨sch, h⟩
    | adjust d => exact ⟨sch, h⟩

/-- While no run ends, `last` stays. -/
theorem worker_last (interval : ℚ) (s : TState Tid) (a : Act Tid) (h : s.base.worker ≠ .time) :
    (s.step interval (.act a)).late interval = s.late interval := by
  cases hs : s.base.step (s.fix interval a) <;> simp [TState.step, TState.late, hs, h]

theorem base_alone (interval : ℚ) (n : Nat) (s : TState Tid) : ¬ Behind s.base.worker → s.late interval = true → s.base.brk = false →
    s.base.lock = none → n ≤ rank s.base.worker →
    (s.run interval (List.replicate n (.act (.worker true)))).base = s.base.alone n := by
  induction n generalizing s with
  | zero => intros; rfl
  | succ n ih =>
    intro hb hl hk hlo hn
    rw [List.replicate_succ]
    change ((s.step interval (.act (.worker true))).run interval _).base = _
    have hstep : (s.step interval (.act (.worker true))).base = (s.base.workerStep true).getD s.base := by
      rw [base_step]; simp only [TState.fix, hl, State.step]
    rw [alone_succ, ← hstep]
    have hl' : (s.step interval (.act (.worker true))).late interval = true := by
      rw [worker_last interval s _ (fun hw => hb (by rw [hw]; trivial)), hl]
    cases n with
    | zero => rfl
    | succ n =>
      by_cases hsame : (s.base.workerStep true).getD s.base = s.base
      · refine ih _ ?_ hl' ?_ ?_ ?_ <;> rw [hstep, hsame] <;> first | assumption | omega
      · have key : ∃ w e, (s.base.workerStep true).getD s.base = { s.base with worker := w, event := e } ∧ ¬ Behind w ∧
            rank w + 1 = rank s.base.worker := by
          cases hw : s.base.worker with
          | new => exact absurd (by simp [State.workerStep, hw]) hsame
          | ended => exact absurd (by simp [State.workerStep, hw]) hsame
          | wait =>
            by_cases he : s.base.event = true
            · exact ⟨.clear, s.base.event, by simp [State.workerStep, hw, he], id, rfl⟩
            · exact absurd (by simp [State.workerStep, hw, he]) hsame
          | clear => exact ⟨.check, false, by simp [State.workerStep, hw, hlo], id, rfl⟩
          | check => exact ⟨.inner false, s.base.event, by simp [State.workerStep, hw, hk], id, rfl⟩
          | inner f => exact ⟨.reset f, s.base.event, by simp [State.workerStep, hw, hk], id, rfl⟩
          | timed f => exact ⟨.clear2 (s.base.event || f), s.base.event, by simp [State.workerStep, hw], id, rfl⟩
          | clear2 f => exact ⟨.inner f, false, by simp [State.workerStep, hw], id, rfl⟩
          | reset f => exact ⟨.check2, s.base.event || f, by simp [State.workerStep, hw], id, rfl⟩
          | check2 => exact ⟨.call, s.base.event, by simp [State.workerStep, hw, hk], id, rfl⟩
          | call => rw [hw] at hn; simp [rank] at hn
          | running => exact absurd (by rw [hw]; trivial) hb
          | notify => exact absurd (by rw [hw]; trivial) hb
          | time => exact absurd (by rw [hw]; trivial) hb
        obtain ⟨w, e, h1, h2, h3⟩ := key
        refine ih _ ?_ hl' ?_ ?_ ?_ <;> rw [hstep, h1]
        · exact h2
        · exact hk
        · exact hlo
        · simp only; omega

/-- C130: the function is not kept waiting longer than the interval: as soon as the interval has elapsed since the end of the last run, the
thread of an open dispatcher needs at most seven steps to start the function after every trigger so far. -/
theorem C130_prompt (interval start offset : ℚ) (as : List (TAct Tid)) (s : TState Tid)
    (hs : s = (TState.init start offset : TState Tid).run interval as) (hw : ¬ Behind s.base.worker) (hn : s.base.worker ≠ .new)
    (hb : s.base.brk = false) (hl : s.base.lock = none) (ht : s.last + interval ≤ s.real + s.offset) :
    ∃ n ≤ 7, Served (s.run interval (List.replicate n (.act (.worker true)))).base.log := by
  have hlate : s.late interval = true := by
    simp only [TState.late, Bool.not_eq_true', Bool.and_eq_false_iff, decide_eq_false_iff_not, not_not, not_lt]
    right; linarith
  refine ⟨rank s.base.worker, ?_, ?_⟩
  · cases h : s.base.worker <;> simp [rank] <;> (rw [h] at hw; exact absurd trivial hw)
  · rw [base_alone interval _ s hw hlate hb hl (le_refl _)]
    obtain ⟨sch, hsch⟩ := base_run interval (TState.init start offset : TState Tid) as
    refine alone_serves _ _ ?_ hn hb hl (le_refl _)
    rw [hs, hsch]
    exact inv_run sch inv_init

end

/-- Seven steps of the thread, from the wait to the run of the function. -/
def oneRun : List (TAct (Fin 1)) := List.replicate 7 (.act (.worker true))

/-- Three steps from inside the function to the wait. -/
def endRun : List (TAct (Fin 1)) := List.replicate 3 (.act (.worker true))

/-- The clock is set forward by an hour right after a run: the next run starts at once. -/
theorem C130_counterexample_forward :
    starts ((TState.init 1000 0 : TState (Fin 1)).run 5 ([.act .start, .act (.trigger 0)] ++ oneRun ++ endRun ++
      [.act (.trigger 0), .adjust 3600] ++ oneRun)).tlog = [1000, 1000] := by
  decide +kernel

/-- The clock is set back by an hour right after a run: the function is not started although the interval has passed many times since
the trigger. -/
theorem C130_counterexample_back :
    let s := (TState.init 10000 0 : TState (Fin 1)).run 5 ([.act .start, .act (.trigger 0)] ++ oneRun ++ endRun ++
      [.act (.trigger 0), .adjust (-3600), .pass 3000] ++ oneRun ++ oneRun)
    starts s.tlog = [10000] ∧ s.real = 13000 := by
  decide +kernel

/-- Triggered during the first run and again and again, the function is started a second time after the interval. -/
example : starts ((TState.init 1000 7 : TState (Fin 1)).run 5 ([.act .start, .act (.trigger 0)] ++ oneRun ++
    [.pass 2, .act (.trigger 0)] ++ endRun ++ oneRun ++ [.pass 3, .act (.trigger 0)] ++ oneRun ++ [.pass 3] ++ oneRun ++ endRun)).tlog =
    [1000, 1008] := by
  decide +kernel

end Verif.Dispatcher
