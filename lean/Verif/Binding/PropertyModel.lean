import Mathlib.Data.List.Destutter
import Mathlib.Data.List.Induction
import Verif.Py.Basic

/-!
Model of `PropertyModel`, `StreamValueModel` and `FuncStreamValueModel` (`nion/utils/Model.py`), properties C45, C84, C85.

Python values are `Option V`, `None` being `none`. The comparison function is an arbitrary Boolean function on values.
Not modelled: comparison functions that raise.
-/

namespace Verif.Binding

open Verif.Py

variable {V : Type}

/-- Observable effects: the property changed event fired (with the value a listener then reads), `on_value_changed` called. -/
inductive PMEv (V : Type) where
  | changed (value : Option V)
  | called (arg : Option V)
  deriving DecidableEq, Repr

/-- A `PropertyModel` (Model.py:29-33); `handler`: `on_value_changed` is not `None`. -/
structure PM (V : Type) where
  value : Option V
  handler : Bool
  log : List (PMEv V)

/-- Model.py:44-49: `not_equal`. -/
def notEqual (cmp : V → V → Bool) (old new : Option V) : Bool :=
  match old with
  | none => new.isSome
  | some o =>
    match new with
    | none => true
    | some n => !cmp n o

/-- Model.py:42-54, the setter. -/
def PM.set (cmp : V → V → Bool) (s : PM V) (v : Option V) : PM V :=
  if notEqual cmp s.value v then
    { s with value := v, log := s.log ++ [.changed v] ++ if s.handler then [.called v] else [] }
  else s

inductive PMOp (V : Type) where
  | set (v : Option V)
  | setHandler (b : Bool)
  /-- Model.py:35-36 -/
  | close

def PM.step (cmp : V → V → Bool) (s : PM V) : PMOp V → PM V
  | .set v => s.set cmp v
  | .setHandler b => { s with handler := b }
  | .close => { s with handler := false }

def PM.run (cmp : V → V → Bool) (s : PM V) (ops : List (PMOp V)) : PM V := ops.foldl (PM.step cmp) s

/-! ### Specification -/

/-- The two values count as the same: both `None`, or both not and the comparison says so. -/
def Same (cmp : V → V → Bool) (old new : Option V) : Prop :=
  (old = none ∧ new = none) ∨ ∃ o n, old = some o ∧ new = some n ∧ cmp n o = true

theorem notEqual_iff (cmp : V → V → Bool) (old new : Option V) : notEqual cmp old new = true ↔ ¬ Same cmp old new := by
  cases old <;> cases new <;> simp [notEqual, Same]

/-- The value assigned last. -/
def lastSet (v : Option V) : List (PMOp V) → Option V
  | [] => v
  | .set w :: ops => lastSet w ops
  | _ :: ops => lastSet v ops

/-- All values assigned. -/
def sets : List (PMOp V) → List (Option V)
  | [] => []
  | .set w :: ops => w :: sets ops
  | _ :: ops => sets ops

/-- The values seen by listeners of the property changed event. -/
def changes (log : List (PMEv V)) : List (Option V) := log.filterMap fun e => match e with | .changed v => some v | _ => none

/-- The arguments of `on_value_changed`. -/
def calls (log : List (PMEv V)) : List (Option V) := log.filterMap fun e => match e with | .called v => some v | _ => none

@[simp] theorem changes_nil : changes ([] : List (PMEv V)) = [] := rfl
@[simp] theorem changes_append (l m : List (PMEv V)) : changes (l ++ m) = changes l ++ changes m := by simp [changes]
@[simp] theorem calls_nil : calls ([] : List (PMEv V)) = [] := rfl
@[simp] theorem calls_append (l m : List (PMEv V)) : calls (l ++ m) = calls l ++ calls m := by simp [calls]

theorem PM.run_append (cmp : V → V → Bool) (s : PM V) (a b : List (PMOp V)) :
    PM.run cmp s (a ++ b) = PM.run cmp (PM.run cmp s a) b := by simp [PM.run]

/-! ### C45 -/

/-- C45, one assignment: the same value changes nothing at all; another one is stored, and first the event is fired (a
listener reads the new value), then `on_value_changed` is called with it. -/
theorem C45_set (cmp : V → V → Bool) (s : PM V) (v : Option V) :
    (Same cmp s.value v → s.set cmp v = s) ∧
    (¬ Same cmp s.value v → (s.set cmp v).value = v ∧ (s.set cmp v).handler = s.handler ∧
      (s.set cmp v).log = s.log ++ .changed v :: if s.handler then [.called v] else []) := by
  constructor
  · intro h
    have : notEqual cmp s.value v = false := by
      cases hn : notEqual cmp s.value v with
      | false => rfl
      | true => exact absurd h ((notEqual_iff ..).1 hn)
    simp [PM.set, this]
  · intro h
    have := (notEqual_iff cmp s.value v).2 h
    simp [PM.set, this]

theorem history_aux (cmp : V → V → Bool) (ops : List (PMOp V)) :
    ∀ (s : PM V) (l : Option V), (Same cmp s.value l ∨ s.value = l) →
      (Same cmp (PM.run cmp s ops).value (lastSet l ops) ∨ (PM.run cmp s ops).value = lastSet l ops) := by
  induction ops with
  | nil => intro s l h; exact h
  | cons op ops ih =>
    intro s l h
    cases op with
    | set v =>
      refine ih (s.set cmp v) v ?_
      by_cases hv : Same cmp s.value v
      · rw [(C45_set cmp s v).1 hv]; exact .inl hv
      · exact .inr ((C45_set cmp s v).2 hv).1
    | setHandler b => exact ih { s with handler := b } l h
    | close => exact ih { s with handler := false } l h

/-- C45, every history and comparison function: the value is the one assigned last, or counts as the same. -/
theorem C45_history (cmp : V → V → Bool) (s : PM V) (ops : List (PMOp V)) :
    Same cmp (PM.run cmp s ops).value (lastSet s.value ops) ∨ (PM.run cmp s ops).value = lastSet s.value ops :=
  history_aux cmp ops s s.value (.inr rfl)

theorem same_eq {cmp : V → V → Bool} (h : ∀ a b, cmp a b = true ↔ a = b) (old new : Option V) : Same cmp old new ↔ old = new := by
  cases old with
  | none => cases new <;> simp [Same]
  | some o =>
    cases new with
    | none => simp [Same]
    | some n =>
      simp only [Same, reduceCtorEq, false_and, false_or, Option.some.injEq, exists_eq_left']
      constructor
      · rintro ⟨o', n', rfl, rfl, hc⟩; exact ((h _ _).1 hc).symm
      · rintro rfl; exact ⟨o, o, rfl, rfl, (h _ _).2 rfl⟩

/-- C45, the default comparison (equality), every history: the value is the one assigned last, and the values seen by
listeners are the assigned ones without repetitions. -/
theorem C45_changes [DecidableEq V] (cmp : V → V → Bool) (hc : ∀ a b, cmp a b = true ↔ a = b) (s : PM V)
    (ops : List (PMOp V)) :
    (PM.run cmp s ops).value = lastSet s.value ops ∧
    changes (PM.run cmp s ops).log = changes s.log ++ (List.destutter (· ≠ ·) (s.value :: sets ops)).tail := by
  constructor
  · rcases C45_history cmp s ops with h | h
    · exact (same_eq hc _ _).1 h
    · exact h
  · have htail : ∀ (a : Option V) (l : List (Option V)), List.destutter' (· ≠ ·) a l = a :: (List.destutter' (· ≠ ·) a l).tail := by
      intro a l
      induction l with
      | nil => rfl
      | cons b l ih =>
        rw [List.destutter'_cons]
        split
        · rfl
        · exact ih
    rw [List.destutter_cons']
    induction ops generalizing s with
    | nil => simp [PM.run, sets]
    | cons op ops ih =>
      cases op with
      | set v =>
        have hr : PM.run cmp s (.set v :: ops) = PM.run cmp (s.set cmp v) ops := rfl
        rw [hr, ih]
        simp only [sets, List.destutter'_cons]
        by_cases hv : s.value = v
        · have h1 := (C45_set cmp s v).1 ((same_eq hc _ _).2 hv)
          rw [h1, if_neg (by simpa using hv)]
        · have h1 := (C45_set cmp s v).2 (fun h => hv ((same_eq hc _ _).1 h))
          rw [if_pos hv, h1.1, h1.2.2]
          have : changes (s.log ++ .changed v :: if s.handler then [PMEv.called v] else []) = changes s.log ++ [v] := by
            cases s.handler <;> simp [changes]
          rw [this, List.tail_cons, List.append_assoc]
          congr 1
          rw [htail v (sets ops)]; rfl
      | setHandler b => exact ih { s with handler := b }
      | close => exact ih { s with handler := false }

/-- C45: with a handler attached all the time, `on_value_changed` is called with exactly the values the listeners see; after
`close` it is not called any more. -/
theorem C45_calls (cmp : V → V → Bool) (s : PM V) (vs : List (Option V)) :
    (s.handler = true → ∃ l, changes (PM.run cmp s (vs.map .set)).log = changes s.log ++ l ∧
      calls (PM.run cmp s (vs.map .set)).log = calls s.log ++ l) ∧
    calls (PM.run cmp s (.close :: vs.map .set)).log = calls s.log := by
  constructor
  · intro hh
    induction vs generalizing s with
    | nil => exact ⟨[], by simp [PM.run]⟩
    | cons v vs ih =>
      have hr : PM.run cmp s ((v :: vs).map .set) = PM.run cmp (s.set cmp v) (vs.map .set) := rfl
      rw [hr]
      by_cases hv : Same cmp s.value v
      · rw [(C45_set cmp s v).1 hv]; exact ih s hh
      · obtain ⟨h1, h2, h3⟩ := (C45_set cmp s v).2 hv
        obtain ⟨l, hl1, hl2⟩ := ih (s.set cmp v) (by rw [h2, hh])
        refine ⟨v :: l, ?_, ?_⟩
        · rw [hl1, h3, hh]; simp [changes]
        · rw [hl2, h3, hh]; simp [calls]
  · have : ∀ s : PM V, s.handler = false → calls (PM.run cmp s (vs.map .set)).log = calls s.log := by
      intro s hh
      induction vs generalizing s with
      | nil => rfl
      | cons v vs ih =>
        have hr : PM.run cmp s ((v :: vs).map .set) = PM.run cmp (s.set cmp v) (vs.map .set) := rfl
        rw [hr]
        by_cases hv : Same cmp s.value v
        · rw [(C45_set cmp s v).1 hv]; exact ih s hh
        · obtain ⟨h1, h2, h3⟩ := (C45_set cmp s v).2 hv
          rw [ih _ (by rw [h2, hh]), h3, hh]; simp [calls]
    exact this { s with handler := false } rfl

/-- Values compared modulo 10: 13 counts as 3, so the first assignment changes nothing. -/
example : PM.run (fun a b : Nat => a % 10 == b % 10) ⟨some 3, true, []⟩ [.set (some 13), .set none, .set none, .set (some 7)] =
    ⟨some 7, true, [.changed none, .called none, .changed (some 7), .called (some 7)]⟩ := by rfl

example : changes (PM.run (fun a b : Nat => a == b) ⟨none, false, []⟩ [.set (some 1), .set (some 1), .set none, .set (some 1)]).log =
    [some 1, none, some 1] := by decide

/-! ### `StreamValueModel` (C45) -/

/-- A `StreamValueModel` (Model.py:99-118) and the value of its stream. -/
structure SVM (V : Type) where
  pm : PM V
  stream : Option V
  listening : Bool

inductive SVMAct (V : Type) where
  /-- The stream gets a value and fires it. -/
  | fire (v : Option V)
  /-- The stream's value changes without being fired. -/
  | silent (v : Option V)
  | set (v : Option V)
  | close

/-- Model.py:102-111. -/
def SVM.init (cmp : V → V → Bool) (value stream : Option V) : SVM V := ⟨PM.set cmp ⟨value, false, []⟩ stream, stream, true⟩

def SVM.step (cmp : V → V → Bool) (s : SVM V) : SVMAct V → SVM V
  | .fire v => { s with stream := v, pm := if s.listening then s.pm.set cmp v else s.pm }
  | .silent v => { s with stream := v }
  | .set v => { s with pm := s.pm.set cmp v }
  | .close => { s with pm := { s.pm with handler := false }, listening := false }

def SVM.run (cmp : V → V → Bool) (s : SVM V) (as : List (SVMAct V)) : SVM V := as.foldl (SVM.step cmp) s

/-- The assignments a history amounts to. -/
def assigned (listening : Bool) : List (SVMAct V) → List (PMOp V)
  | [] => []
  | .fire v :: as => (if listening then [.set v] else []) ++ assigned listening as
  | .silent _ :: as => assigned listening as
  | .set v :: as => .set v :: assigned listening as
  | .close :: as => .close :: assigned false as

/-- C45 for `StreamValueModel`, every history: it behaves as a property model to which the initial value of the stream and
then every fired value is assigned until it is closed. -/
theorem C45_stream_value (cmp : V → V → Bool) (value stream : Option V) (as : List (SVMAct V)) :
    (SVM.run cmp (SVM.init cmp value stream) as).pm = PM.run cmp ⟨value, false, []⟩ (.set stream :: assigned true as) := by
  have key : ∀ s : SVM V, (SVM.run cmp s as).pm = PM.run cmp s.pm (assigned s.listening as) := by
    induction as with
    | nil => intro s; rfl
    | cons a as ih =>
      intro s
      have hr : SVM.run cmp s (a :: as) = SVM.run cmp (s.step cmp a) as := rfl
      rw [hr, ih]
      cases a with
      | fire v =>
        simp only [SVM.step, assigned]
        cases s.listening <;> simp [PM.run, PM.step]
      | silent v => rfl
      | set v => rfl
      | close => rfl
  rw [key]; rfl

/-- C45: as long as the model is open and nobody else assigns it, its value is the value the stream fired last. -/
theorem C45_stream_follows [DecidableEq V] (cmp : V → V → Bool) (hc : ∀ a b, cmp a b = true ↔ a = b) (value stream : Option V)
    (vs : List (Option V)) :
    (SVM.run cmp (SVM.init cmp value stream) (vs.map .fire)).pm.value = vs.getLastD stream := by
  rw [C45_stream_value, (C45_changes cmp hc _ _).1]
  simp only [lastSet]
  induction vs generalizing stream with
  | nil => rfl
  | cons v vs ih =>
    simp only [List.map_cons, assigned, if_true, List.cons_append, List.nil_append, lastSet, List.getLastD_cons]
    exact ih v

example : (SVM.run (fun a b : Nat => a == b) (SVM.init (fun a b : Nat => a == b) none (some 1)) [.fire (some 2), .fire (some 2),
    .close, .fire (some 3)]).pm = ⟨some 2, false, [.changed (some 1), .changed (some 2)]⟩ := by rfl

/-! ### `FuncStreamValueModel` (C84) -/

/-- A `FuncStreamValueModel` (Model.py:57-96). Functions are numbered; `pending` are the evaluations under way, oldest first:
each is a coroutine that awaits a function running in the executor. -/
structure FSM (V : Type) where
  pm : PM V
  /-- `__count` -/
  count : Nat
  pending : List Nat
  listening : Bool

inductive FSMAct where
  /-- The stream fires a function. -/
  | fire (f : Nat)
  /-- The `k`-th pending evaluation ends and its coroutine continues. -/
  | complete (k : Nat)
  | close

/-- Model.py:66-77. -/
def FSM.handle (s : FSM V) (f : Nat) : FSM V := { s with count := s.count + 1, pending := s.pending ++ [f] }

/-- Model.py:60-80, `f` the value of the stream. -/
def FSM.init (value : Option V) (f : Nat) : FSM V := FSM.handle ⟨⟨value, false, []⟩, 0, [], true⟩ f

/-- `eval f`: what function `f` returns, or an exception, which ends the coroutine at line 71. -/
def FSM.step (cmp : V → V → Bool) (eval : Nat → Except Exc (Option V)) (s : FSM V) : FSMAct → FSM V
  | .fire f => if s.listening then s.handle f else s
  | .complete k =>
    match s.pending[k]? with
    | none => s
    | some f =>
      match eval f with
      | .error _ => { s with pending := s.pending.eraseIdx k }
      | .ok v =>  -- 72-75
        let pm := s.pm.set cmp v
        { s with pm := { pm with log := pm.log ++ [.changed pm.value] }, pending := s.pending.eraseIdx k, count := s.count - 1 }
  | .close => { s with listening := false }

def FSM.run (cmp : V → V → Bool) (eval : Nat → Except Exc (Option V)) (s : FSM V) (as : List FSMAct) : FSM V :=
  as.foldl (FSM.step cmp eval) s

/-- The function fired last while the model was open. -/
def lastFired (f : Nat) (listening : Bool) : List FSMAct → Nat
  | [] => f
  | .fire g :: as => lastFired (if listening then g else f) listening as
  | .complete _ :: as => lastFired f listening as
  | .close :: as => lastFired f false as

/-- C84, when evaluations end in the order in which they were started and none raises: once none is pending, the value is that
of the function fired last, and the counter is zero. -/
theorem C84_settles_partial [DecidableEq V] (cmp : V → V → Bool) (hc : ∀ a b, cmp a b = true ↔ a = b)
    (eval : Nat → Except Exc (Option V)) (res : Nat → Option V) (hok : ∀ f, eval f = .ok (res f)) (value : Option V) (f : Nat)
    (as : List FSMAct) (hfifo : ∀ k, .complete k ∈ as → k = 0) :
    let s := FSM.run cmp eval (FSM.init value f) as
    s.count = s.pending.length ∧ (s.pending = [] → s.pm.value = res (lastFired f true as)) := by
  have hset : ∀ (p : PM V) (v : Option V), (p.set cmp v).value = v := by
    intro p v
    by_cases h : Same cmp p.value v
    · rw [(C45_set cmp p v).1 h]; exact (same_eq hc _ _).1 h
    · exact ((C45_set cmp p v).2 h).1
  have key : ∀ (s : FSM V) (f : Nat), (s.count = s.pending.length ∧ (s.pending = [] → s.pm.value = res f) ∧
        (∀ g, s.pending.getLast? = some g → g = f)) →
      let s' := FSM.run cmp eval s as
      s'.count = s'.pending.length ∧ (s'.pending = [] → s'.pm.value = res (lastFired f s.listening as)) := by
    induction as with
    | nil => intro s f h; exact ⟨h.1, h.2.1⟩
    | cons a as ih =>
      intro s f h
      have hr : FSM.run cmp eval s (a :: as) = FSM.run cmp eval (s.step cmp eval a) as := rfl
      rw [hr]
      have ih' := ih fun k hk => hfifo k (by simp [hk])
      cases a with
      | fire g =>
        cases hl : s.listening with
        | true =>
          have := ih' (s.step cmp eval (.fire g)) g (by
            simp [FSM.step, hl, FSM.handle, h.1])
          simpa [FSM.step, hl, FSM.handle, lastFired] using this
        | false =>
          have := ih' (s.step cmp eval (.fire g)) f (by simpa [FSM.step, hl] using h)
          simpa [FSM.step, hl, lastFired] using this
      | close =>
        have := ih' (s.step cmp eval .close) f h
        simpa [FSM.step, lastFired] using this
      | complete k =>
        have hk : k = 0 := hfifo k (by simp)
        subst hk
        cases hp : s.pending with
        | nil =>
          have hs : s.step cmp eval (.complete 0) = s := by simp [FSM.step, hp]
          rw [hs]
          simpa [lastFired] using ih' s f h
        | cons g ps =>
          have := ih' (s.step cmp eval (.complete 0)) f (by
            obtain ⟨h1, h2, h3⟩ := h
            rw [hp] at h1 h3
            simp only [FSM.step, hp, List.getElem?_cons_zero, hok]
            refine ⟨by simp [h1], ?_, ?_⟩
            · intro he
              simp at he
              subst he
              rw [hset, h3 g (by simp)]
            · intro g' hg'
              apply h3 g'
              cases ps with
              | nil => simp at hg'
              | cons q ps => simpa using hg')
          simpa [FSM.step, hp, hok, lastFired] using this
  exact key (FSM.init value f) f (by simp [FSM.init, FSM.handle])

/-- The functions whose evaluations end, in the order in which they do, given the evaluations pending. -/
def endedFns (pending : List Nat) (listening : Bool) : List FSMAct → List Nat
  | [] => []
  | .fire g :: as => endedFns (if listening then pending ++ [g] else pending) listening as
  | .complete k :: as =>
    match pending[k]? with
    | some f => f :: endedFns (pending.eraseIdx k) listening as
    | none => endedFns pending listening as
  | .close :: as => endedFns pending false as

/-- What the functions that did not raise returned. -/
def results (eval : Nat → Except Exc (Option V)) (fs : List Nat) : List (Option V) :=
  fs.filterMap fun f => match eval f with | .ok v => some v | .error _ => none

/-- C84, every schedule and functions that may raise: the value is that of the evaluation that ended last without raising, and
the counter exceeds the number of pending evaluations by the number of those that raised. -/
theorem C84_exact_partial [DecidableEq V] (cmp : V → V → Bool) (hc : ∀ a b, cmp a b = true ↔ a = b)
    (eval : Nat → Except Exc (Option V)) (value : Option V) (f : Nat) (as : List FSMAct) :
    let s := FSM.run cmp eval (FSM.init value f) as
    let fs := endedFns [f] true as
    s.pm.value = (results eval fs).getLastD value ∧
    s.count = s.pending.length + fs.countP (fun g => match eval g with | .ok _ => false | .error _ => true) := by
  have hset : ∀ (p : PM V) (v : Option V), (p.set cmp v).value = v := by
    intro p v
    by_cases h : Same cmp p.value v
    · rw [(C45_set cmp p v).1 h]; exact (same_eq hc _ _).1 h
    · exact ((C45_set cmp p v).2 h).1
  have key : ∀ (s : FSM V) (n : Nat), s.count = s.pending.length + n →
      (FSM.run cmp eval s as).pm.value = (results eval (endedFns s.pending s.listening as)).getLastD s.pm.value ∧
      (FSM.run cmp eval s as).count = (FSM.run cmp eval s as).pending.length + (n +
        (endedFns s.pending s.listening as).countP (fun g => match eval g with | .ok _ => false | .error _ => true)) := by
    induction as with
    | nil => intro s n h; exact ⟨rfl, h⟩
    | cons a as ih =>
      intro s n h
      have hr : FSM.run cmp eval s (a :: as) = FSM.run cmp eval (s.step cmp eval a) as := rfl
      rw [hr]
      cases a with
      | fire g =>
        cases hl : s.listening with
        | true =>
          have := ih (s.step cmp eval (.fire g)) n (by simp [FSM.step, hl, FSM.handle, h]; omega)
          simpa [FSM.step, hl, FSM.handle, endedFns] using this
        | false =>
          have := ih (s.step cmp eval (.fire g)) n (by simpa [FSM.step, hl] using h)
          simpa [FSM.step, hl, endedFns] using this
      | close => exact ih (s.step cmp eval .close) n h
      | complete k =>
        cases hp : s.pending[k]? with
        | none =>
          have hs : s.step cmp eval (.complete k) = s := by simp [FSM.step, hp]
          rw [hs]
          simpa [endedFns, hp] using ih s n h
        | some g =>
          have hk : k < s.pending.length := by
            by_contra hk
            rw [List.getElem?_eq_none (by omega)] at hp; cases hp
          cases he : eval g with
          | error e =>
            have := ih (s.step cmp eval (.complete k)) (n + 1) (by
              simp only [FSM.step, hp, he, List.length_eraseIdx, hk, if_true]; omega)
            simp only [FSM.step, hp, he] at this
            simp only [FSM.step, hp, he, endedFns, results, List.filterMap_cons, List.countP_cons, if_true] at this ⊢
            refine ⟨this.1, ?_⟩
            rw [this.2]; omega
          | ok v =>
            have := ih (s.step cmp eval (.complete k)) n (by
              simp only [FSM.step, hp, he, List.length_eraseIdx, hk, if_true]; omega)
            simp only [FSM.step, hp, he] at this
            simp only [FSM.step, hp, he, endedFns, results, List.filterMap_cons, List.countP_cons, Bool.false_eq_true,
              if_false, hset, List.getLastD_cons] at this ⊢
            exact this
  have := key (FSM.init value f) 0 (by simp [FSM.init, FSM.handle])
  simpa [FSM.init, FSM.handle] using this

/-- What observers read when they are told: a new value twice (the setter and line 74), an equal one once. -/
def told [DecidableEq V] (old : Option V) : List (Option V) → List (Option V)
  | [] => []
  | v :: vs => (if old = v then [v] else [v, v]) ++ told v vs

/-- C84, every schedule: observers are told after each evaluation that ends without raising and read its value; nothing else is sent. -/
theorem C84_told [DecidableEq V] (cmp : V → V → Bool) (hc : ∀ a b, cmp a b = true ↔ a = b)
    (eval : Nat → Except Exc (Option V)) (value : Option V) (f : Nat) (as : List FSMAct) :
    (FSM.run cmp eval (FSM.init value f) as).pm.log = (told value (results eval (endedFns [f] true as))).map .changed := by
  have key : ∀ s : FSM V, s.pm.handler = false → (FSM.run cmp eval s as).pm.log =
      s.pm.log ++ (told s.pm.value (results eval (endedFns s.pending s.listening as))).map .changed := by
    induction as with
    | nil => intro s _; simp [FSM.run, endedFns, results, told]
    | cons a as ih =>
      intro s h0
      have hr : FSM.run cmp eval s (a :: as) = FSM.run cmp eval (s.step cmp eval a) as := rfl
      rw [hr]
      cases a with
      | fire g =>
        cases hl : s.listening with
        | true => have := ih (s.step cmp eval (.fire g)) (by simpa [FSM.step, hl, FSM.handle] using h0)
                  simpa [FSM.step, hl, FSM.handle, endedFns] using this
        | false => have := ih (s.step cmp eval (.fire g)) (by simpa [FSM.step, hl] using h0)
                   simpa [FSM.step, hl, endedFns] using this
      | close => exact ih (s.step cmp eval .close) h0
      | complete k =>
        cases hp : s.pending[k]? with
        | none =>
          have hs : s.step cmp eval (.complete k) = s := by simp [FSM.step, hp]
          rw [hs]
          simpa [endedFns, hp] using ih s h0
        | some g =>
          cases he : eval g with
          | error e =>
            have := ih (s.step cmp eval (.complete k)) (by simpa [FSM.step, hp, he] using h0)
            simpa [FSM.step, hp, he, endedFns, results, List.filterMap_cons] using this
          | ok v =>
            have hh : (s.pm.set cmp v).handler = false := by
              unfold PM.set; split
              · exact h0
              · exact h0
            have := ih (s.step cmp eval (.complete k)) (by simpa [FSM.step, hp, he] using hh)
            rw [this]
            simp only [FSM.step, hp, he, endedFns, results, List.filterMap_cons, told, List.map_append]
            by_cases hv : s.pm.value = v
            · rw [(C45_set cmp s.pm v).1 ((same_eq hc _ _).2 hv)]
              simp [hv]
            · have hn : notEqual cmp s.pm.value v = true := by
                by_contra hn
                have e : s.pm.set cmp v = s.pm := by simp [PM.set, hn]
                have := ((C45_set cmp s.pm v).2 fun hs => hv ((same_eq hc _ _).1 hs)).1
                rw [e] at this
                exact hv this
              simp [PM.set, hn, h0, hv]
  simpa [FSM.init, FSM.handle] using key (FSM.init value f) rfl

example : (FSM.run (fun a b : Nat => a == b) (fun f => .ok (some (f / 2))) (FSM.init none 0) [.fire 1, .fire 2, .complete 0, .complete 0,
    .complete 0]).pm.log = [.changed (some 0), .changed (some 0), .changed (some 0), .changed (some 1), .changed (some 1)] := by decide

/-- Three evaluations, the second of which raises and ends last. -/
example :
    let eval : Nat → Except Exc (Option Nat) := fun f => if f = 1 then .error .typeError else .ok (some (10 * f))
    let s := FSM.run (fun a b : Nat => a == b) eval (FSM.init none 0) [.fire 1, .fire 2, .complete 2, .complete 0, .complete 0]
    s.pm.value = some 0 ∧ s.count = 1 ∧ endedFns [0] true [.fire 1, .fire 2, .complete 2, .complete 0, .complete 0] = [2, 0, 1] := by
  decide

/-- C84 is false of the code: two evaluations that end in the other order leave the value of the older function. -/
theorem C84_counterexample :
    let s := FSM.run (fun a b : Nat => a == b) (fun f => .ok (some (10 * f))) (FSM.init none 0) [.fire 1, .fire 2, .complete 2,
      .complete 0, .complete 0]
    s.pending = [] ∧ s.pm.value = some 10 ∧ lastFired 0 true [.fire 1, .fire 2, .complete 2, .complete 0, .complete 0] = 2 := by
  decide

/-- C84: a function that raises leaves the counter above zero for ever, so that `_run_until_complete` does not return; the
initial `None` of a stream of functions is such a function. -/
theorem C84_raise_counterexample :
    (FSM.run (fun a b : Nat => a == b) (fun f => if f = 0 then .error .typeError else .ok (some f)) (FSM.init none 0)
      [.fire 1, .complete 0, .complete 0]).count = 1 := by decide

end Verif.Binding
