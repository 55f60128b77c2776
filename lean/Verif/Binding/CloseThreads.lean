import Mathlib.Logic.Function.Basic
import Mathlib.Data.Nat.Notation

/-!
C194: a `PropertyBinding` that one thread closes while others use it (`nion/utils/Binding.py:55-65`, 98-162, 232-252): `update_source` and
`get_target_value`, which are documented as thread safe, and changes of the source property that reach the binding, which is one of the
listeners of the source (`nion/utils/Event.py:103-114`): `listener.call` is replaced by a function that does nothing on `close`, and an
exception of a listener ends the fire, so that those after it are not told.

One step is one access to a variable that threads share. `close` has six of them: the listener is closed (line 250), then `__source`,
`source_getter`, `source_setter`, `target_setter` are set to `None` and `_closed` to `True` (lines 60-64); so each variable says how many
steps `close` has done. `close` is called once. Converter and validator are functions without effect; setting the property of the source
assigns it, the events of that are calls of their own.
-/

namespace Verif.Binding.CloseThreads

set_option linter.unusedSectionVars false

variable {T V W : Type} [DecidableEq T]

/-- What threads call: `update_source` with a value of the target, `get_target_value`, or the listeners of the source for a change. -/
inductive Call (W : Type) where
  | update (w : W)
  | get
  | notify
  deriving DecidableEq

/-- How a call ends: the source was assigned, a value was returned, nothing was done, the target was shown a value, or it raised. -/
inductive Out (V W : Type) where
  | set (v : V)
  | value (w : Option W)
  | nothing
  | shown (w : Option W)
  | raised
  deriving DecidableEq

/-- Where a thread is. -/
inductive Pc (W : Type) where
  | idle
  /-- before the test of lines 109, 158; or before `listener.call` is read -/
  | test (k : Call W)
  /-- before the setter or getter is read in lines 111, 159; or at line 239 -/
  | read (k : Call W)
  /-- in the setter or getter, before `self.source` is read (lines 247, 248); or before the property is read in line 241 -/
  | source (k : Call W)
  /-- before the property is set or read; not used for changes -/
  | access (k : Call W)
  /-- the value for the target is known: before the test of line 141 -/
  | testTarget (w : Option W)
  /-- before the target setter is read in line 142 -/
  | readTarget (w : Option W)
  /-- before it is called -/
  | callTarget (w : Option W)
  deriving DecidableEq

/-- A call that has ended: thread, call, how many steps `close` had done when it began and when it ended, the values the property had
meanwhile, how it ended. -/
structure Ended (T V W : Type) where
  thread : T
  call : Call W
  before : ℕ
  after : ℕ
  values : List (Option V)
  out : Out V W

/-- What happened: a call ended, or the property was assigned by others. -/
inductive Entry (T V W : Type) where
  | ended (e : Ended T V W)
  | assigned (p : Option V)

/-- The property of the source, how many steps `close` has done, where the threads are, how many steps `close` had done when their calls
began, the values of the property since then; what happened, in order. -/
structure St (T V W : Type) where
  prop : Option V
  closing : ℕ
  pc : T → Pc W
  began : T → ℕ
  values : T → List (Option V)
  log : List (Entry T V W)

/-- Converter, validator and fallback: from source to target, and back. -/
structure Config (V W : Type) where
  conv : V → W
  back : W → V
  fallback : Option W

/-- The value shown for a value of the property (lines 157-162, 241-245). -/
def Config.show (c : Config V W) (p : Option V) : Option W :=
  match p with
  | some v => some (c.conv v)
  | none => c.fallback

inductive Act (T V W : Type) where
  /-- a thread that is idle calls -/
  | call (t : T) (k : Call W)
  /-- a thread does its next step -/
  | step (t : T)
  /-- `close` does its next step -/
  | close
  /-- the property is assigned by others -/
  | assign (p : Option V)

def St.goto (s : St T V W) (t : T) (p : Pc W) : St T V W := { s with pc := Function.update s.pc t p }

/-- The call of thread `t` ends. -/
def St.finish (s : St T V W) (t : T) (k : Call W) (o : Out V W) : St T V W :=
  { s.goto t .idle with log := s.log ++ [.ended ⟨t, k, s.began t, s.closing, s.values t, o⟩] }

/-- The property is assigned. -/
def St.setProp (s : St T V W) (p : Option V) : St T V W := { s with prop := p, values := fun t => s.values t ++ [p] }

/-- One step of a thread. -/
def St.next (c : Config V W) (s : St T V W) (t : T) : St T V W :=
  match s.pc t with
  | .idle => s
  | .test (.update w) => if s.closing < 4 then s.goto t (.read (.update w)) else s.finish t (.update w) .nothing
  | .test .get => if s.closing < 3 then s.goto t (.read .get) else s.finish t .get (.value c.fallback)
  | .test .notify => if s.closing < 1 then s.goto t (.read .notify) else s.finish t .notify .nothing
  | .read (.update w) => if s.closing < 4 then s.goto t (.source (.update w)) else s.finish t (.update w) .raised
  | .read .get => if s.closing < 3 then s.goto t (.source .get) else s.finish t .get .raised
  | .read .notify => if s.closing < 6 then s.goto t (.source .notify) else s.finish t .notify .raised
  | .source (.update w) => if s.closing < 2 then s.goto t (.access (.update w)) else s.finish t (.update w) .raised
  | .source .get => if s.closing < 2 then s.goto t (.access .get) else s.finish t .get .raised
  | .source .notify => s.goto t (.testTarget (c.show s.prop))
  | .access (.update w) => (s.finish t (.update w) (.set (c.back w))).setProp (some (c.back w))
  | .access .get => s.finish t .get (.value (c.show s.prop))
  | .access .notify => s
  | .testTarget w => if s.closing < 5 then s.goto t (.readTarget w) else s.finish t .notify .nothing
  | .readTarget w => if s.closing < 5 then s.goto t (.callTarget w) else s.finish t .notify .raised
  | .callTarget w => s.finish t .notify (.shown w)

def St.act (c : Config V W) (s : St T V W) : Act T V W → St T V W
  | .call t k =>
    match s.pc t with
    | .idle =>
      { s.goto t (.test k) with
        began := Function.update s.began t s.closing, values := Function.update s.values t [s.prop] }
    | _ => s
  | .step t => s.next c t
  | .close => { s with closing := min 6 (s.closing + 1) }
  | .assign p => { s.setProp p with log := s.log ++ [.assigned p] }

def St.init (p : Option V) : St T V W := ⟨p, 0, fun _ => .idle, fun _ => 0, fun _ => [p], []⟩

def St.run (c : Config V W) (s : St T V W) (as : List (Act T V W)) : St T V W := as.foldl (St.act c) s

/-! ### Specification -/

/-- `close` had not begun, and had returned. -/
def notBegun : ℕ := 0
def returned : ℕ := 6

/-- How calls may end. An update assigns what the value is converted to, or does nothing if `close` has begun; `get_target_value` returns
what is shown for a value the property had during the call, or the fallback if `close` has begun; a change shows the target such a value, or
does nothing if `close` has begun. They raise only if `close` had begun when they ended and had not returned when they began. -/
def Proper (c : Config V W) (e : Ended T V W) : Prop :=
  e.before ≤ e.after ∧
  match e.call, e.out with
  | .update w, .set v => v = c.back w ∧ e.before ≠ returned
  | .get, .value w => (∃ p ∈ e.values, w = c.show p) ∧ e.before ≠ returned ∨ w = c.fallback ∧ e.after ≠ notBegun
  | .notify, .shown w => (∃ p ∈ e.values, w = c.show p) ∧ e.before = notBegun
  | .update _, .nothing => e.after ≠ notBegun
  | .notify, .nothing => e.after ≠ notBegun
  | .notify, .raised => e.before = notBegun ∧ e.after ≠ notBegun
  | _, .raised => e.before ≠ returned ∧ e.after ≠ notBegun
  | _, _ => False

/-- What the property is, from what happened. -/
def lastAssigned (p : Option V) : List (Entry T V W) → Option V
  | [] => p
  | .assigned q :: l => lastAssigned q l
  | .ended e :: l => lastAssigned (match e.out with | .set v => some v | _ => p) l

/-! ### Proof -/

/-- What is known of a thread inside a call. -/
def Inside (c : Config V W) (s : St T V W) (t : T) : Prop :=
  s.began t ≤ s.closing ∧
  match s.pc t with
  | .idle => True
  | .test _ => True
  | .read (.update _) => s.began t < 4
  | .read .get => s.began t < 3
  | .read .notify => s.began t < 1
  | .source (.update _) => s.began t < 4
  | .source .get => s.began t < 3
  | .source .notify => s.began t < 1
  | .access .notify => False
  | .access _ => s.began t < 2
  | .testTarget w => s.began t < 1 ∧ ∃ p ∈ s.values t, w = c.show p
  | .readTarget w => s.began t < 1 ∧ ∃ p ∈ s.values t, w = c.show p
  | .callTarget w => s.began t < 1 ∧ ∃ p ∈ s.values t, w = c.show p

structure Inv (c : Config V W) (p : Option V) (s : St T V W) : Prop where
  last : s.prop = lastAssigned p s.log
  closing : s.closing ≤ 6
  inside : ∀ t, Inside c s t
  mem : ∀ t, s.prop ∈ s.values t
  proper : ∀ e, .ended e ∈ s.log → Proper c e

theorem lastAssigned_append (p : Option V) (l m : List (Entry T V W)) : lastAssigned p (l ++ m) = lastAssigned (lastAssigned p l) m := by
  induction l generalizing p with
  | nil => rfl
  | cons e l ih => cases e <;> exact ih _

variable {c : Config V W} {p0 : Option V} {s : St T V W}

/-- A thread goes on within its call. -/
theorem Inv.goto (h : Inv c p0 s) (t : T) (p : Pc W) (hp : Inside c { s with pc := fun _ => p } t) : Inv c p0 (s.goto t p) := by
  refine ⟨h.last, h.closing, fun t' => ?_, h.mem, h.proper⟩
  have ht := h.inside t'
  unfold Inside at ht hp ⊢
  simp only [St.goto]
  by_cases he : t' = t
  · subst he
    rw [Function.update_self]
    exact hp
  · rw [Function.update_of_ne he]
    exact ht

theorem Inv.logged (h : Inv c p0 s) (t : T) (k : Call W) (o : Out V W)
    (hp : Proper c (⟨t, k, s.began t, s.closing, s.values t, o⟩ : Ended T V W)) : ∀ e, .ended e ∈ (s.finish t k o).log → Proper c e := by
  intro e he
  rcases List.mem_append.1 he with he | he
  · exact h.proper e he
  · rw [List.mem_singleton, Entry.ended.injEq] at he
    exact he ▸ hp

/-- A call ends. -/
theorem Inv.finish (h : Inv c p0 s) (t : T) (k : Call W) (o : Out V W) (ho : ∀ v, o ≠ .set v)
    (hp : Proper c (⟨t, k, s.began t, s.closing, s.values t, o⟩ : Ended T V W)) : Inv c p0 (s.finish t k o) := by
  have g := h.goto t .idle ⟨(h.inside t).1, trivial⟩
  refine ⟨?_, g.closing, g.inside, g.mem, h.logged t k o hp⟩
  show s.prop = lastAssigned p0 (s.log ++ _)
  rw [lastAssigned_append, ← h.last]
  cases o with
  | set v => exact absurd rfl (ho v)
  | _ => rfl

/-- The property is assigned. -/
theorem inside_assign (p : Option V) (t : T) (h : Inside c s t) : Inside c (s.setProp p) t := by
  unfold Inside St.setProp at *
  obtain ⟨h1, h2⟩ := h
  refine ⟨h1, ?_⟩
  revert h2
  simp only
  cases s.pc t with
  | testTarget w | readTarget w | callTarget w =>
    rintro ⟨h1, q, hq, hw⟩
    exact ⟨h1, q, List.mem_append_left _ hq, hw⟩
  | read k | source k | access k => cases k <;> exact id
  | _ => exact id

theorem next_inv (h : Inv c p0 s) (t : T) : Inv c p0 (s.next c t) := by
  have ht := h.inside t
  have h6 := h.closing
  obtain ⟨hb, ht⟩ := ht
  unfold St.next
  cases hpc : s.pc t with
  | idle => exact h
  | test k =>
    rw [hpc] at ht
    cases k with
    | update w =>
      simp only
      split
      · exact h.goto t _ ⟨hb, by simp only; omega⟩
      · exact h.finish t _ _ (by simp) ⟨hb, by simp only [notBegun]; omega⟩
    | get =>
      simp only
      split
      · exact h.goto t _ ⟨hb, by simp only; omega⟩
      · exact h.finish t _ _ (by simp) ⟨hb, .inr ⟨rfl, by simp only [notBegun]; omega⟩⟩
    | notify =>
      simp only
      split
      · exact h.goto t _ ⟨hb, by simp only; omega⟩
      · exact h.finish t _ _ (by simp) ⟨hb, by simp only [notBegun]; omega⟩
  | read k =>
    rw [hpc] at ht
    cases k with
    | update w =>
      simp only at ht ⊢
      split
      · exact h.goto t _ ⟨hb, ht⟩
      · exact h.finish t _ _ (by simp) ⟨hb, by simp only [notBegun, returned]; omega⟩
    | get =>
      simp only at ht ⊢
      split
      · exact h.goto t _ ⟨hb, ht⟩
      · exact h.finish t _ _ (by simp) ⟨hb, by simp only [notBegun, returned]; omega⟩
    | notify =>
      simp only at ht ⊢
      split
      · exact h.goto t _ ⟨hb, ht⟩
      · exact h.finish t _ _ (by simp) ⟨hb, by simp only [notBegun]; omega⟩
  | source k =>
    rw [hpc] at ht
    cases k with
    | update w =>
      simp only at ht ⊢
      split
      · exact h.goto t _ ⟨hb, by simp only; omega⟩
      · exact h.finish t _ _ (by simp) ⟨hb, by simp only [notBegun, returned]; omega⟩
    | get =>
      simp only at ht ⊢
      split
      · exact h.goto t _ ⟨hb, by simp only; omega⟩
      · exact h.finish t _ _ (by simp) ⟨hb, by simp only [notBegun, returned]; omega⟩
    | notify =>
      simp only at ht ⊢
      exact h.goto t _ ⟨hb, ht, s.prop, h.mem t, rfl⟩
  | access k =>
    rw [hpc] at ht
    cases k with
    | update w =>
      simp only at ht ⊢
      have g := h.goto t .idle ⟨hb, trivial⟩
      refine ⟨?_, g.closing, fun t' => inside_assign _ t' (g.inside t'), fun t' => List.mem_append_right _ (by simp [St.setProp]),
        h.logged t _ _ ⟨hb, rfl, by simp only [returned]; omega⟩⟩
      show some (c.back w) = lastAssigned p0 (s.log ++ _)
      rw [lastAssigned_append]
      rfl
    | get =>
      simp only at ht ⊢
      exact h.finish t _ _ (by simp) ⟨hb, .inl ⟨⟨s.prop, h.mem t, rfl⟩, by simp only [returned]; omega⟩⟩
    | notify => exact h
  | testTarget w =>
    rw [hpc] at ht
    simp only at ht ⊢
    split
    · exact h.goto t _ ⟨hb, ht⟩
    · exact h.finish t _ _ (by simp) ⟨hb, by simp only [notBegun]; omega⟩
  | readTarget w =>
    rw [hpc] at ht
    simp only at ht ⊢
    split
    · exact h.goto t _ ⟨hb, ht⟩
    · exact h.finish t _ _ (by simp) ⟨hb, by simp only [notBegun]; omega⟩
  | callTarget w =>
    rw [hpc] at ht
    simp only at ht ⊢
    exact h.finish t _ _ (by simp) ⟨hb, ht.2, by simp only [notBegun]; omega⟩

theorem act_inv (h : Inv c p0 s) (a : Act T V W) : Inv c p0 (s.act c a) := by
  cases a with
  | call t k =>
    simp only [St.act]
    split
    · refine ⟨h.last, h.closing, fun t' => ?_, fun t' => ?_, h.proper⟩
      · have ht := h.inside t'
        unfold Inside at ht ⊢
        simp only [St.goto]
        by_cases he : t' = t
        · subst he
          rw [Function.update_self, Function.update_self]
          exact ⟨Nat.le_refl _, trivial⟩
        · rw [Function.update_of_ne he, Function.update_of_ne he, Function.update_of_ne he]
          exact ht
      · show s.prop ∈ Function.update s.values t [s.prop] t'
        by_cases he : t' = t
        · subst he
          simp
        · rw [Function.update_of_ne he]
          exact h.mem t'
    · exact h
  | step t => exact next_inv h t
  | close =>
    refine ⟨h.last, Nat.min_le_left _ _, fun t => ?_, h.mem, h.proper⟩
    have ht := h.inside t
    have h6 := h.closing
    unfold Inside at ht ⊢
    exact ⟨by show s.began t ≤ min 6 (s.closing + 1); omega, ht.2⟩
  | assign p =>
    refine ⟨?_, h.closing, fun t => inside_assign p t (h.inside t), fun t => List.mem_append_right _ (by simp [St.act, St.setProp]), fun e he => ?_⟩
    · show p = lastAssigned p0 (s.log ++ _)
      rw [lastAssigned_append]
      rfl
    · rcases List.mem_append.1 he with he | he
      · exact h.proper e he
      · simp at he

theorem run_inv (c : Config V W) (as : List (Act T V W)) (s : St T V W) (h : Inv c p0 s) : Inv c p0 (s.run c as) := by
  induction as generalizing s with
  | nil => exact h
  | cons a as ih => exact ih _ (act_inv h a)

theorem init_inv (c : Config V W) (p : Option V) : Inv c p (St.init p : St T V W) :=
  ⟨rfl, Nat.zero_le _, fun _ => ⟨Nat.le_refl _, trivial⟩, by simp [St.init], by simp [St.init]⟩

/-- C194 (partial: calls raise only if they overlap with `close`): every call that has ended did what it should, and the property is what
was assigned last. -/
theorem C194_calls_partial (c : Config V W) (p : Option V) (as : List (Act T V W)) :
    (∀ e, .ended e ∈ ((St.init p : St T V W).run c as).log → Proper c e) ∧
      ((St.init p : St T V W).run c as).prop = lastAssigned p ((St.init p : St T V W).run c as).log :=
  ⟨(run_inv c as _ (init_inv c p)).proper, (run_inv c as _ (init_inv c p)).last⟩

/-! ### Cases -/

def exConfig : Config ℕ ℕ := ⟨(· + 1), (· - 1), some 9⟩

def exRun (as : List (Act (Fin 2) ℕ ℕ)) : List (Call ℕ × ℕ × ℕ × Out ℕ ℕ) × Option ℕ :=
  let s := (St.init (some 4) : St (Fin 2) ℕ ℕ).run exConfig as
  (s.log.filterMap fun e => match e with
    | .ended e => some (e.call, e.before, e.after, e.out)
    | _ => none, s.prop)

/-- Without `close`; and afterwards. -/
example : exRun [.call 0 (.update 8), .step 0, .step 0, .step 0, .call 1 .get, .step 1, .step 1, .step 1, .step 1, .step 0,
    .call 0 .notify, .step 0, .step 0, .step 0, .step 0, .step 0, .step 0,
    .close, .close, .close, .close, .close, .close, .call 0 (.update 6), .step 0, .call 1 .get, .step 1, .call 0 .notify, .step 0] =
    ([(.get, 0, 0, .value (some 5)), (.update 8, 0, 0, .set 7), (.notify, 0, 0, .shown (some 8)), (.update 6, 6, 6, .nothing),
      (.get, 6, 6, .value (some 9)), (.notify, 6, 6, .nothing)], some 7) := by decide +kernel

/-- The property has no value: the fallback is returned and shown. -/
example : exRun [.assign none, .call 0 .get, .step 0, .step 0, .step 0, .step 0, .call 0 .notify, .step 0, .step 0, .step 0, .step 0, .step 0, .step 0] =
    ([(.get, 0, 0, .value (some 9)), (.notify, 0, 0, .shown (some 9))], none) := by decide +kernel

/-- C194: `update_source` finds that the source is gone, or the setter. -/
theorem C194_counterexample_update :
    exRun [.call 0 (.update 8), .step 0, .step 0, .close, .close, .step 0] = ([(.update 8, 0, 2, .raised)], some 4) ∧
      exRun [.call 0 (.update 8), .step 0, .close, .close, .close, .close, .step 0] = ([(.update 8, 0, 4, .raised)], some 4) :=
  ⟨by decide +kernel, by decide +kernel⟩

/-- C194: so does `get_target_value`. -/
theorem C194_counterexample_get :
    exRun [.call 0 .get, .close, .close, .step 0, .step 0, .step 0] = ([(.get, 0, 2, .raised)], some 4) := by decide +kernel

/-- C194: a change that reaches the binding while it is closed raises (also `AssertionError` when `close` has returned); listeners after the
binding are not told. -/
theorem C194_counterexample_notify :
    exRun [.call 0 .notify, .step 0, .step 0, .step 0, .step 0, .close, .close, .close, .close, .close, .step 0] =
        ([(.notify, 0, 5, .raised)], some 4) ∧
      exRun [.call 0 .notify, .step 0, .close, .close, .close, .close, .close, .close, .step 0] = ([(.notify, 0, 6, .raised)], some 4) :=
  ⟨by decide +kernel, by decide +kernel⟩

/-- C194: the target is shown a value after `close` has returned. -/
theorem C194_counterexample_shown :
    exRun [.call 0 .notify, .step 0, .step 0, .step 0, .step 0, .step 0, .close, .close, .close, .close, .close, .close, .step 0] =
        ([(.notify, 0, 6, .shown (some 5))], some 4) := by
  decide +kernel

end Verif.Binding.CloseThreads
