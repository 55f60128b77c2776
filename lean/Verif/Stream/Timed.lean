import Mathlib.Data.List.Induction

/-!
Model of `DebounceStream` and `SampleStream` (`nion/utils/Stream.py`, lines 142-237), properties C41 and C42.

The event loop and other threads are a schedule of atomic steps. Time is not modelled: the expiry of a timer is a step that
the schedule may take at any moment at which the timer is pending, so the theorems hold for every period.
-/

namespace Verif.Stream.Debounce

variable {α : Type}

/-- `__debounce_task`. -/
inductive Task where
  | none
  /-- waiting in `asyncio.sleep` (170) -/
  | sleeping
  /-- inside `value_stream.fire` (171) -/
  | firing
  deriving DecidableEq, Repr

inductive Ev (α : Type) where
  /-- the input stream fires, or construction -/
  | input (v : α)
  /-- `value_stream` fires -/
  | deliver (v : α)
  | closed
  deriving DecidableEq, Repr

structure State (α : Type) where
  value : α
  task : Task
  listening : Bool
  log : List (Ev α)
  deriving DecidableEq, Repr

inductive Act (α : Type) where
  /-- The input stream fires a value; also possible while the stream fires, from a listener or another thread. -/
  | input (v : α)
  /-- The sleep ends and the value is fired. -/
  | expire
  /-- The listeners have returned; end of the task (172-173). -/
  | finish
  | close
  deriving DecidableEq, Repr

/-- Stream.py:175-180. -/
def State.valueChanged (s : State α) (v : α) : State α :=
  { s with value := v, task := if s.task = .none then .sleeping else s.task, log := s.log ++ [.input v] }

/-- Stream.py:145-155 with the value of the input stream. -/
def State.init (v : α) : State α := State.valueChanged ⟨v, .none, true, []⟩ v

/-- One step. A cancelled sleeping task ends without firing; a task that is firing goes on to its end. -/
def State.step (s : State α) : Act α → State α
  | .input v => if s.listening then s.valueChanged v else s
  | .expire => if s.task = .sleeping then { s with task := .firing, log := s.log ++ [.deliver s.value] } else s
  | .finish => if s.task = .firing then { s with task := .none } else s
  | .close =>
    if s.listening then
      { s with listening := false, task := if s.task = .sleeping then .none else s.task, log := s.log ++ [.closed] }
    else s

def State.run (s : State α) (as : List (Act α)) : State α := as.foldl State.step s

/-! ### Specification -/

/-- The last input value. -/
def lastInput : List (Ev α) → Option α
  | [] => none
  | .input v :: l => (lastInput l).or (some v)
  | _ :: l => lastInput l

/-- Was there an input after the last delivery? -/
def fresh : List (Ev α) → Bool
  | [] => false
  | l => match l.reverse.find? (fun e => match e with | .closed => false | _ => true) with
    | some (.input _) => true
    | _ => false

theorem lastInput_append (l : List (Ev α)) (e : Ev α) : lastInput (l ++ [e]) =
    match e with | .input v => some v | _ => lastInput l := by
  induction l with
  | nil => cases e <;> rfl
  | cons x l ih =>
    cases x <;> simp only [List.cons_append, lastInput, ih] <;> cases e <;> simp

theorem fresh_append (l : List (Ev α)) (e : Ev α) : fresh (l ++ [e]) =
    match e with | .input _ => true | .deliver _ => false | .closed => fresh l := by
  cases e with
  | input v => cases l <;> simp [fresh]
  | deliver v => cases l <;> simp [fresh]
  | closed => cases l <;> simp [fresh]

/-- What every entry of the log must satisfy, given the entries before it. -/
def Ok (l : List (Ev α)) : Ev α → Prop
  | .deliver v => lastInput l = some v ∧ fresh l = true ∧ .closed ∉ l
  | .input _ => .closed ∉ l
  | .closed => .closed ∉ l

structure Inv (s : State α) : Prop where
  value : lastInput s.log = some s.value
  sleeping : s.task = .sleeping → fresh s.log = true
  listening : s.listening = true ↔ Ev.closed ∉ s.log
  dead : s.listening = false → s.task ≠ .sleeping
  log : ∀ l₁ e l₂, s.log = l₁ ++ e :: l₂ → Ok l₁ e

theorem log_append {log : List (Ev α)} {e : Ev α} (h : ∀ l₁ e l₂, log = l₁ ++ e :: l₂ → Ok l₁ e) (he : Ok log e) :
    ∀ l₁ e' l₂, log ++ [e] = l₁ ++ e' :: l₂ → Ok l₁ e' := by
  intro l₁ e' l₂ heq
  induction l₂ using List.reverseRecOn with
  | nil =>
    obtain ⟨h1, h2⟩ := List.append_inj' heq (by simp)
    simp only [List.cons.injEq, and_true] at h2
    subst h1 h2; exact he
  | append_singleton l x _ =>
    rw [← List.cons_append, ← List.append_assoc] at heq
    obtain ⟨h1, _⟩ := List.append_inj' heq (by simp)
    exact h _ _ _ h1

theorem inv_valueChanged {s : State α} (hl : ∀ l₁ e l₂, s.log = l₁ ++ e :: l₂ → Ok l₁ e) (hs : s.listening = true)
    (hc : .closed ∉ s.log) (v : α) : Inv (s.valueChanged v) where
  value := by simp [State.valueChanged, lastInput_append]
  sleeping := fun _ => by simp [State.valueChanged, fresh_append]
  listening := by simp [State.valueChanged, hs, hc]
  dead := by simp [State.valueChanged, hs]
  log := log_append hl hc

theorem inv_init (v : α) : Inv (State.init v) :=
  inv_valueChanged (by simp) rfl (by simp) v

theorem inv_step {s : State α} (h : Inv s) (a : Act α) : Inv (s.step a) := by
  cases a with
  | input v =>
    simp only [State.step]
    split
    · rename_i hl; exact inv_valueChanged h.log hl (h.listening.1 hl) v
    · exact h
  | expire =>
    simp only [State.step]
    split
    · rename_i ht
      have hl : s.listening = true := by
        by_contra hx; exact h.dead (by simpa using hx) ht
      refine ⟨by simp [lastInput_append, h.value], by simp, ?_, by simp, ?_⟩
      · simp [h.listening]
      · exact log_append h.log ⟨h.value, h.sleeping ht, h.listening.1 hl⟩
    · exact h
  | finish =>
    simp only [State.step]
    split
    · exact ⟨h.value, by simp, h.listening, by simp, h.log⟩
    · exact h
  | close =>
    simp only [State.step]
    split
    · rename_i hl
      refine ⟨by simp [lastInput_append, h.value], ?_, by simp, ?_, log_append h.log (h.listening.1 hl)⟩
      · intro ht
        simp only at ht
        split at ht
        · cases ht
        · rename_i h2; exact absurd ht h2
      · intro _
        simp only
        split
        · simp
        · assumption
    · exact h

theorem inv_run (v : α) (as : List (Act α)) : Inv ((State.init v).run as) := by
  induction as using List.reverseRecOn with
  | nil => exact inv_init v
  | append_singleton as a ih =>
    rw [State.run, List.foldl_append]; exact inv_step ih a

/-- C41: in every schedule, every delivery carries the latest input value, there was an input since the previous delivery,
and nothing is delivered after close. The value of the stream is always the latest input value. -/
theorem C41_latest (v : α) (as : List (Act α)) :
    let s := (State.init v).run as
    lastInput s.log = some s.value ∧
    ∀ l₁ x l₂, s.log = l₁ ++ .deliver x :: l₂ → lastInput l₁ = some x ∧ fresh l₁ = true ∧ .closed ∉ l₁ :=
  have h := inv_run v as
  ⟨h.value, fun l₁ x l₂ e => h.log l₁ _ l₂ e⟩

/-- C41: a delivery due is made exactly once: from every state with a pending timer, whatever timer steps follow, as soon as
one of them is an expiry the log has grown by exactly one delivery, of the latest input value. -/
theorem C41_once (v : α) (as : List (Act α)) (ticks : List Bool) (hd : true ∈ ticks) :
    let s := (State.init v).run as
    s.task = .sleeping →
      (s.run (ticks.map fun b => if b then .expire else .finish)).log = s.log ++ [.deliver s.value] := by
  intro s
  generalize s = s
  have hno : ∀ (ticks : List Bool) (s : State α), s.task ≠ .sleeping →
      (s.run (ticks.map fun b => if b then .expire else .finish)).log = s.log := by
    intro ticks
    induction ticks with
    | nil => intro s _; rfl
    | cons b ticks ih =>
      intro s hs
      rw [State.run, List.map_cons, List.foldl_cons]
      cases b
      · simp only [Bool.false_eq_true, if_false, State.step]
        split
        · exact ih _ (by simp)
        · exact ih _ hs
      · simp only [if_true, State.step, hs, if_false]
        exact ih _ hs
  induction ticks generalizing s with
  | nil => simp at hd
  | cons b ticks ih =>
    intro hs
    rw [State.run, List.map_cons, List.foldl_cons]
    cases b
    · simp only [Bool.false_eq_true, if_false, State.step, hs, reduceCtorEq]
      exact ih (by simpa using hd) s hs
    · simp only [if_true, State.step, hs]
      exact hno ticks _ (by simp)

/-- No input arrives while the stream fires. -/
def Quiet : State α → List (Act α) → Prop
  | _, [] => True
  | s, a :: as => (s.task = .firing → ∀ v, a ≠ .input v) ∧ Quiet (s.step a) as

/-- C41, if no input arrives while the stream fires: an input value not delivered yet has a pending timer (until close). -/
theorem C41_pending_partial (v : α) (as : List (Act α)) (hq : Quiet (State.init v) as) :
    let s := (State.init v).run as
    s.listening = true → fresh s.log = true → s.task = .sleeping := by
  suffices key : ∀ (as : List (Act α)) (s : State α), Quiet s as →
      ((s.listening = true → fresh s.log = true → s.task = .sleeping) ∧ (s.listening = false → fresh s.log = true → True)) →
      (s.run as).listening = true → fresh (s.run as).log = true → (s.run as).task = .sleeping by
    refine key as _ hq ⟨fun _ _ => ?_, fun _ _ => trivial⟩
    simp [State.init, State.valueChanged]
  intro as
  induction as with
  | nil => intro s _ h; exact h.1
  | cons a as ih =>
    intro s hq h
    obtain ⟨h1, h2⟩ := hq
    refine ih _ h2 ⟨?_, fun _ _ => trivial⟩
    cases a with
    | input w =>
      simp only [State.step]
      split
      · intro _ _
        simp only [State.valueChanged]
        split
        · rfl
        · rename_i hn
          cases ht : s.task with
          | none => exact absurd ht hn
          | sleeping => rfl
          | firing => exact absurd rfl (h1 ht w)
      · exact h.1
    | expire =>
      simp only [State.step]
      split
      · intro _ hf; simp [fresh_append] at hf
      · exact h.1
    | finish =>
      simp only [State.step]
      split
      · rename_i ht
        intro hl hf
        have := h.1 hl hf
        rw [ht] at this; cases this
      · exact h.1
    | close =>
      simp only [State.step]
      split
      · intro hl; simp at hl
      · exact h.1

/-- Did the latest input arrive while the stream fired? -/
def lateInput : State α → List (Act α) → Bool → Bool
  | _, [], b => b
  | s, .input v :: as, b => lateInput (s.step (.input v)) as (if s.listening then s.task = .firing else b)
  | s, a :: as, b => lateInput (s.step a) as b

/-- C41, exactly and for every schedule: as long as the stream is open, a latest input value that has not been delivered has a
pending timer just if it did not arrive while the stream fired. -/
theorem C41_iff_partial (v : α) (as : List (Act α)) (hl : ((State.init v).run as).listening = true)
    (hf : fresh ((State.init v).run as).log = true) :
    ((State.init v).run as).task = .sleeping ↔ lateInput (State.init v) as false = false := by
  suffices key : ∀ (as : List (Act α)) (s : State α) (b : Bool),
      (s.listening = true → (b = false → fresh s.log = true → s.task = .sleeping) ∧ (b = true → s.task ≠ .sleeping)) →
      (s.run as).listening = true → fresh (s.run as).log = true →
      ((s.run as).task = .sleeping ↔ lateInput s as b = false) by
    exact key as _ false (fun _ => ⟨fun _ _ => by simp [State.init, State.valueChanged], by simp⟩) hl hf
  intro as
  induction as with
  | nil =>
    intro s b h hl hf
    obtain ⟨h1, h2⟩ := h hl
    cases b
    · simp only [lateInput, iff_true]; exact h1 rfl hf
    · simp only [lateInput, Bool.true_eq_false, iff_false]; exact h2 rfl
  | cons a as ih =>
    intro s b h
    have hr : s.run (a :: as) = (s.step a).run as := rfl
    rw [hr]
    cases a with
    | input w =>
      refine ih (s.step (.input w)) _ ?_
      cases hl : s.listening with
      | false => simp [State.step, hl]
      | true =>
        intro _
        simp only [State.step, hl, if_true, State.valueChanged]
        cases ht : s.task <;> simp
    | expire =>
      refine ih (s.step .expire) b ?_
      simp only [State.step]
      split
      · intro _; exact ⟨fun _ hf => by simp [fresh_append] at hf, fun _ => by simp⟩
      · exact h
    | finish =>
      refine ih (s.step .finish) b ?_
      simp only [State.step]
      split
      · rename_i ht
        intro hl
        obtain ⟨h1, _⟩ := h hl
        refine ⟨fun hb hf => ?_, fun _ => by simp⟩
        have := h1 hb hf
        rw [ht] at this; cases this
      · exact h
    | close =>
      refine ih (s.step .close) b ?_
      simp only [State.step]
      split
      · intro hl; simp at hl
      · exact h

/-- C41 is false of the code if the input changes while the stream fires (for example from one of its listeners): that value
is never delivered, no timer is pending. -/
theorem C41_counterexample :
    ∃ as : List (Act Nat), let s := (State.init 0).run as
      s.listening = true ∧ s.task = .none ∧ s.value = 7 ∧ s.log = [.input 0, .deliver 0, .input 7] :=
  ⟨[.expire, .input 7, .finish], by decide⟩

example : ((State.init 0).run [.input 1, .input 2, .expire, .finish, .expire, .input 3, .expire, .finish, .close, .input 4]).log =
    [.input 0, .input 1, .input 2, .deliver 2, .input 3, .deliver 3, .closed] := by decide

end Verif.Stream.Debounce

namespace Verif.Stream.Sample

variable {α : Type}

/-- Where an input notification stands. -/
inductive IPC (α : Type) where
  | idle
  /-- `__value_dirty` is set (232), `__pending_value` is not (233) -/
  | half (v : α)
  deriving DecidableEq, Repr

/-- Where the sampling task stands. -/
inductive SPC where
  | sleeping
  /-- `__value_dirty` was taken and cleared (223-225); it was set -/
  | taken
  /-- `__value` is set (227), about to fire (228) -/
  | fire
  deriving DecidableEq, Repr

inductive Ev (α : Type) where
  /-- the input stream fired and the notification has returned -/
  | input (v : α)
  | deliver (v : Option α)
  | closed
  deriving DecidableEq, Repr

structure State (α : Type) where
  value : Option α
  pending : Option α
  dirty : Bool
  ipc : IPC α
  spc : SPC
  listening : Bool
  log : List (Ev α)
  deriving DecidableEq, Repr

/-- Stream.py:190-209 with the value of the input stream. -/
def State.init (v : Option α) : State α := ⟨v, none, true, .idle, .sleeping, true, []⟩

inductive Act (α : Type) where
  /-- 231-232 -/
  | input (v : α)
  /-- 233 -/
  | inputEnd
  /-- The period ends (222-226). -/
  | period
  /-- 227 -/
  | store
  /-- 228; the next sampling task starts (204-207) -/
  | fire
  | close
  deriving DecidableEq, Repr

/-- One step; closing (211-219) cancels a sleeping task and lets a task beyond its sleep finish. -/
def State.step (s : State α) : Act α → State α
  | .input v => if s.listening ∧ s.ipc matches .idle then { s with dirty := true, ipc := .half v } else s
  | .inputEnd =>
    match s.ipc with
    | .half v => { s with pending := some v, ipc := .idle, log := s.log ++ [.input v] }
    | .idle => s
  | .period =>
    if s.listening ∧ s.spc = .sleeping then { s with dirty := false, spc := if s.dirty then .taken else .sleeping } else s
  | .store => if s.spc = .taken then { s with value := s.pending, spc := .fire } else s
  | .fire => if s.spc = .fire then { s with spc := .sleeping, log := s.log ++ [.deliver s.pending] } else s
  | .close => if s.listening then { s with listening := false, log := s.log ++ [.closed] } else s

def State.run (s : State α) (as : List (Act α)) : State α := as.foldl State.step s

/-- Input notifications and samples one at a time: what an event loop does if the input changes on its thread. -/
inductive Macro (α : Type) where
  | input (v : α)
  | sample
  | close
  deriving DecidableEq, Repr

def Macro.acts : Macro α → List (Act α)
  | .input v => [.input v, .inputEnd]
  | .sample => [.period, .store, .fire]
  | .close => [.close]

def runMacros (s : State α) (ms : List (Macro α)) : State α := s.run (ms.flatMap Macro.acts)

/-- Specification: deliveries for a sequence of inputs and samples: `latest` is the latest input if there was one since the
last delivery. The first sample delivers in any case, `None` if there was no input. -/
def spec : Bool → Option α → List (Macro α) → List (Ev α)
  | _, _, [] => []
  | d, p, .sample :: ms => if d then .deliver p :: spec false p ms else spec false p ms
  | _, _, .input v :: ms => .input v :: spec true (some v) ms
  | _, _, .close :: _ => [.closed]

theorem run_append (s : State α) (a b : List (Act α)) : s.run (a ++ b) = (s.run a).run b := by
  simp [State.run]

theorem closed_run (ms : List (Macro α)) (s : State α) (hl : s.listening = false) (hi : s.ipc = .idle) (hs : s.spc = .sleeping) :
    runMacros s ms = s := by
  induction ms with
  | nil => rfl
  | cons m ms ih =>
    rw [runMacros, List.flatMap_cons, run_append]
    have : s.run m.acts = s := by
      cases m <;> simp [Macro.acts, State.run, State.step, hl, hi, hs]
    rw [this]; exact ih

/-- C42, if input notifications and samples do not interleave: the inputs and deliveries are exactly those of the
specification: at each period the latest input is delivered if there was an input since the last delivery, nothing otherwise;
after close nothing. (The first period delivers also without input: then `None`.) -/
theorem C42_samples_partial (v : Option α) (ms : List (Macro α)) :
    (runMacros (State.init v) ms).log = spec true none ms := by
  suffices key : ∀ (ms : List (Macro α)) (s : State α), s.listening = true → s.ipc = .idle → s.spc = .sleeping →
      (runMacros s ms).log = s.log ++ spec s.dirty s.pending ms by
    simpa [State.init] using key ms (State.init v) rfl rfl rfl
  intro ms
  induction ms with
  | nil => intro s _ _ _; simp [runMacros, State.run, spec]
  | cons m ms ih =>
    intro s hl hi hs
    rw [runMacros, List.flatMap_cons, run_append]
    cases m with
    | input v =>
      have : s.run (Macro.acts (.input v)) = { s with dirty := true, pending := some v, log := s.log ++ [.input v] } := by
        simp [Macro.acts, State.run, State.step, hl, hi]
      rw [this]
      refine (ih { s with dirty := true, pending := some v, log := s.log ++ [.input v] } hl hi hs).trans ?_
      simp [spec]
    | sample =>
      cases hd : s.dirty with
      | false =>
        have : s.run (Macro.acts .sample) = s := by
          obtain ⟨_, _, _, _, _, _, _⟩ := s
          simp_all [Macro.acts, State.run, State.step]
        rw [this]
        refine (ih _ hl hi hs).trans ?_
        rw [hd]
        simp [spec]
      | true =>
        have : s.run (Macro.acts .sample) = { s with dirty := false, value := s.pending, log := s.log ++ [.deliver s.pending] } := by
          simp [Macro.acts, State.run, State.step, hl, hs, hd]
        rw [this]
        refine (ih { s with dirty := false, value := s.pending, log := s.log ++ [.deliver s.pending] } hl hi hs).trans ?_
        simp [spec]
    | close =>
      have : s.run (Macro.acts .close) = { s with listening := false, log := s.log ++ [.closed] } := by
        simp [Macro.acts, State.run, State.step, hl]
      rw [this]
      have := closed_run ms { s with listening := false, log := s.log ++ [.closed] } rfl hi hs
      rw [runMacros] at this
      rw [this]
      simp [spec]

/-- C42, likewise: the value is the one delivered last, or the initial input value before the first delivery. -/
theorem C42_value_partial (v : Option α) (ms : List (Macro α)) :
    (runMacros (State.init v) ms).value =
      ((runMacros (State.init v) ms).log.filterMap fun e => match e with | .deliver x => some x | _ => none).getLastD v := by
  suffices key : ∀ (ms : List (Macro α)) (s : State α), s.ipc = .idle → s.spc = .sleeping →
      s.value = (s.log.filterMap fun e => match e with | .deliver x => some x | _ => none).getLastD v →
      (runMacros s ms).value =
        ((runMacros s ms).log.filterMap fun e => match e with | .deliver x => some x | _ => none).getLastD v by
    exact key ms (State.init v) rfl rfl rfl
  intro ms
  induction ms with
  | nil => intro s _ _ h; exact h
  | cons m ms ih =>
    intro s hi hs h
    rw [runMacros, List.flatMap_cons, run_append]
    cases m with
    | input x =>
      by_cases hl : s.listening = true
      · have : s.run (Macro.acts (.input x)) = { s with dirty := true, pending := some x, log := s.log ++ [.input x] } := by
          simp [Macro.acts, State.run, State.step, hl, hi]
        rw [this]
        exact ih _ hi hs (by simpa using h)
      · have : s.run (Macro.acts (.input x)) = s := by simp [Macro.acts, State.run, State.step, hl, hi]
        rw [this]; exact ih _ hi hs h
    | sample =>
      by_cases hl : s.listening = true
      · cases hd : s.dirty with
        | false =>
          have : s.run (Macro.acts .sample) = s := by
            obtain ⟨_, _, _, _, _, _, _⟩ := s
            simp_all [Macro.acts, State.run, State.step]
          rw [this]; exact ih _ hi hs h
        | true =>
          have : s.run (Macro.acts .sample) = { s with dirty := false, value := s.pending, log := s.log ++ [.deliver s.pending] } := by
            simp [Macro.acts, State.run, State.step, hl, hs, hd]
          rw [this]
          exact ih _ hi hs (by simp [List.filterMap_append])
      · have : s.run (Macro.acts .sample) = s := by simp [Macro.acts, State.run, State.step, hl, hs]
        rw [this]; exact ih _ hi hs h
    | close =>
      by_cases hl : s.listening = true
      · have : s.run (Macro.acts .close) = { s with listening := false, log := s.log ++ [.closed] } := by
          simp [Macro.acts, State.run, State.step, hl]
        rw [this]
        exact ih _ hi hs (by simpa using h)
      · have : s.run (Macro.acts .close) = s := by simp [Macro.acts, State.run, State.step, hl]
        rw [this]; exact ih _ hi hs h

/-- C42 is false of the code: without any input the first period delivers `None` and replaces the value of the input stream;
and an input from another thread between the end of the period and the firing is lost: the stream delivers the old value for
it and is not dirty any more. -/
theorem C42_counterexample :
    (let s := runMacros (State.init (some 5)) [.sample];
      s.value = none ∧ s.log = [.deliver none]) ∧
    (let s := (State.init (some 5)).run [.input 6, .inputEnd, .input 7, .period, .store, .fire, .inputEnd, .period, .store, .fire];
      s.log = [.input 6, .deliver (some 6), .input 7] ∧ s.dirty = false ∧ s.value = some 6) := by decide

example : (runMacros (State.init (some 5)) [.input 6, .input 7, .sample, .sample, .input 8, .sample, .close, .sample]).log =
    [.input 6, .input 7, .deliver (some 7), .input 8, .deliver (some 8), .closed] := by decide

/-! ### C42 for every schedule -/

/-- The input reported last. -/
def lastInput (l : List (Ev α)) : Option α :=
  l.foldl (fun p e => match e with | .input v => some v | _ => p) none

/-- Is the last report an input (and not a delivery)? -/
def fresh (l : List (Ev α)) : Bool :=
  l.foldl (fun p e => match e with | .input _ => true | .deliver _ => false | .closed => p) false

/-- The deliveries. -/
def delivered (l : List (Ev α)) : Nat := l.countP fun e => match e with | .deliver _ => true | _ => false

/-- No period ends between the two steps of an input notification. -/
def Apart : State α → List (Act α) → Prop
  | _, [] => True
  | s, a :: as => (a = .period → s.ipc matches .idle) ∧ Apart (s.step a) as

theorem step_input (s : State α) (v : α) :
    s.step (.input v) = { s with dirty := true, ipc := .half v } ∨ s.step (.input v) = s := by
  simp only [State.step]
  split <;> simp_all <;> split <;> simp_all

theorem step_pending (s : State α) (a : Act α) (h : s.pending = lastInput s.log) : (s.step a).pending = lastInput (s.step a).log := by
  cases a with
  | input v => rcases step_input s v with e | e <;> rw [e] <;> exact h
  | inputEnd =>
    simp only [State.step]
    split
    · simp [lastInput]
    · exact h
  | period => simp only [State.step]; split <;> exact h
  | store => simp only [State.step]; split <;> exact h
  | fire =>
    simp only [State.step]
    split
    · simpa [lastInput] using h
    · exact h
  | close =>
    simp only [State.step]
    split
    · simpa [lastInput] using h
    · exact h

/-- C42, in every schedule of notifications, samples and closing, also from several threads: what is delivered is the input reported
last (`None` before the first). -/
theorem C42_latest (v : Option α) (as : List (Act α)) :
    ∀ l₁ x l₂, ((State.init v).run as).log = l₁ ++ .deliver x :: l₂ → x = lastInput l₁ := by
  suffices key : ∀ as : List (Act α), (let s := (State.init v).run as
      s.pending = lastInput s.log ∧ ∀ l₁ x l₂, s.log = l₁ ++ .deliver x :: l₂ → x = lastInput l₁) from (key as).2
  intro as
  induction as using List.reverseRecOn with
  | nil => exact ⟨rfl, fun l₁ x l₂ h => by simp [State.run, State.init] at h⟩
  | append_singleton as a ih =>
    rw [run_append]
    generalize (State.init v).run as = s at ih
    refine ⟨step_pending s a ih.1, ?_⟩
    have add : ∀ e : Ev α, (∀ x, e = .deliver x → x = lastInput s.log) →
        ∀ l₁ x l₂, s.log ++ [e] = l₁ ++ .deliver x :: l₂ → x = lastInput l₁ := by
      intro e he l₁ x l₂ heq
      induction l₂ using List.reverseRecOn with
      | nil =>
        obtain ⟨h1, h2⟩ := List.append_inj' heq (by simp)
        simp only [List.cons.injEq, and_true] at h2
        subst h1
        exact he x h2
      | append_singleton l y _ =>
        rw [← List.cons_append, ← List.append_assoc] at heq
        obtain ⟨h1, _⟩ := List.append_inj' heq (by simp)
        exact ih.2 _ _ _ h1
    change ∀ l₁ x l₂, (s.step a).log = _ → _
    cases a with
    | input v => rcases step_input s v with e | e <;> rw [e] <;> exact ih.2
    | inputEnd =>
      simp only [State.step]
      split
      · exact add _ (fun x h => by cases h)
      · exact ih.2
    | period => simp only [State.step]; split <;> exact ih.2
    | store => simp only [State.step]; split <;> exact ih.2
    | fire =>
      simp only [State.step]
      split
      · exact add _ (fun x h => by cases h; exact ih.1)
      · exact ih.2
    | close =>
      simp only [State.step]
      split
      · exact add _ (fun x h => by cases h)
      · exact ih.2

/-- C42, in every schedule: there are no more deliveries than periods. -/
theorem C42_at_most_once (v : Option α) (as : List (Act α)) :
    delivered ((State.init v).run as).log ≤ as.countP fun a => match a with | .period => true | _ => false := by
  suffices key : ∀ (as : List (Act α)) (s : State α),
      delivered (s.run as).log + (if (s.run as).spc = .sleeping then 0 else 1) ≤
        delivered s.log + (if s.spc = .sleeping then 0 else 1) + as.countP fun a => match a with | .period => true | _ => false by
    have := key as (State.init v)
    simp only [State.init, delivered, List.countP_nil, if_true] at this ⊢
    omega
  intro as
  induction as with
  | nil => intro s; exact Nat.le_refl _
  | cons a as ih =>
    intro s
    have h := ih (s.step a)
    change delivered ((s.step a).run as).log + (if ((s.step a).run as).spc = .sleeping then 0 else 1) ≤ _
    refine Nat.le_trans h ?_
    rw [List.countP_cons]
    cases a with
    | input w => rcases step_input s w with e | e <;> rw [e] <;> exact Nat.le_refl _
    | inputEnd => cases hi : s.ipc <;> simp [State.step, hi, delivered]
    | period =>
      simp only [State.step, if_true]
      split
      · rename_i h; simp only [h.2, if_true]; split <;> split <;> omega
      · omega
    | store =>
      simp only [State.step]
      split
      · rename_i h; simp [h]
      · simp
    | fire =>
      simp only [State.step]
      split
      · rename_i h; simp [h, delivered]
      · simp
    | close =>
      simp only [State.step]
      split <;> simp [delivered]

/-- C42, if no period ends in the middle of an input notification (from another thread): while the stream is open, an input that has
not been delivered is going to be: the stream is marked as changed, or a sample is on its way to deliver it.
(Missing: a period that ends in the middle; C42_counterexample.) -/
theorem C42_kept_partial (v : Option α) (as : List (Act α)) (ha : Apart (State.init v) as) :
    let s := (State.init v).run as
    fresh s.log = true → s.dirty = true ∨ s.spc ≠ .sleeping := by
  suffices key : ∀ (as : List (Act α)) (s : State α), Apart s as → (∀ w, s.ipc = .half w → s.dirty = true) →
      (fresh s.log = true → s.dirty = true ∨ s.spc ≠ .sleeping) →
      fresh (s.run as).log = true → (s.run as).dirty = true ∨ (s.run as).spc ≠ .sleeping by
    exact key as _ ha (by simp [State.init]) (by simp [State.init, fresh])
  intro as
  induction as with
  | nil => intro s _ _ h; exact h
  | cons a as ih =>
    intro s ha h1 h2
    refine ih (s.step a) ha.2 ?_ ?_
    · cases a with
      | input w => rcases step_input s w with e | e <;> rw [e] <;> simp_all
      | inputEnd =>
        simp only [State.step]
        split
        · simp
        · exact h1
      | period =>
        have := ha.1 rfl
        simp only [State.step]
        split
        · intro w hw; simp only at hw; rw [hw] at this; simp at this
        · exact h1
      | store => simp only [State.step]; split <;> exact h1
      | fire => simp only [State.step]; split <;> exact h1
      | close => simp only [State.step]; split <;> exact h1
    · cases a with
      | input w => rcases step_input s w with e | e <;> rw [e] <;> simp_all
      | inputEnd =>
        simp only [State.step]
        split
        · rename_i w hw
          intro _; exact .inl (h1 w hw)
        · exact h2
      | period =>
        simp only [State.step]
        split
        · rename_i h
          intro hf
          rcases h2 hf with h3 | h3
          · simp [h3]
          · exact absurd h.2 h3
        · exact h2
      | store =>
        simp only [State.step]
        split
        · intro _; simp
        · exact h2
      | fire =>
        simp only [State.step]
        split
        · simp [fresh]
        · exact h2
      | close =>
        simp only [State.step]
        split
        · intro hf
          exact h2 (by simpa [fresh] using hf)
        · exact h2

/-- An input from another thread between `__value = ...` and the firing: it is delivered by that firing, and again by the next. -/
example : ((State.init (some 5)).run [.input 6, .inputEnd, .period, .store, .input 7, .inputEnd, .fire, .period, .store, .fire]).log =
    [.input 6, .input 7, .deliver (some 7), .deliver (some 7)] ∧
    Apart (State.init (some 5)) [.input 6, .inputEnd, .period, .store, .input 7, .inputEnd, .fire, .period, .store, .fire] := by
  refine ⟨by decide, ?_⟩
  simp [Apart, State.step, State.init]

end Verif.Stream.Sample
