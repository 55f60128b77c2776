import Mathlib.Data.List.Induction
import Verif.Py.Basic

/-!
Model of `Promise` (`nion/utils/Promise.py`) and property C32.

The function's behaviour at its `n`-th call is `fn n`; Python's `None` is `none`. Readers of `value` in several threads are
serialised by the lock. Several threads and a function that reads the promise itself are in `PromiseThreads.lean`.
-/

namespace Verif.Promise

open Verif.Py

/-- Promise.py:12-16; `pending` says that the function is still stored; `calls` counts its calls. -/
structure Pr (V : Type*) where
  value : Option V
  pending : Bool
  calls : Nat

section
variable {V : Type*} (fn : Nat → Except Exc (Option V))

def Pr.init : Pr V := ⟨none, true, 0⟩

/-- What a read gives. -/
inductive Out (V : Type*) where
  | value (v : Option V)
  | flag (b : Bool)
  | raised (e : Exc)
  deriving DecidableEq

inductive Op where
  | value
  | optValue
  | hasValue
  deriving DecidableEq

/-- Promise.py:18-25 `value`, 27-30 `opt_value`, 32-35 `has_value`. -/
def Pr.step (s : Pr V) : Op → Pr V × Out V
  | .value =>
    if s.pending then
      match fn s.calls with
      | .ok v => (⟨v, false, s.calls + 1⟩, .value v)
      | .error e => ({ s with calls := s.calls + 1 }, .raised e)
    else (s, .value s.value)
  | .optValue => (s, .value s.value)
  | .hasValue => (s, .flag s.value.isSome)

def Pr.run (s : Pr V) (os : List Op) : Pr V := os.foldl (fun s o => (s.step fn o).1) s

/-- Specification: the result of the first successful call among the first `n`. -/
def firstOk : Nat → Option (Option V)
  | 0 => none
  | n + 1 => match firstOk n with
    | some v => some v
    | none => match fn n with
      | .ok v => some v
      | .error _ => none

/-- Specification: how many of the first `n` reads of `value` call the function. -/
def callsIn : Nat → Nat
  | 0 => 0
  | n + 1 => match firstOk fn n with
    | some _ => callsIn n
    | none => n + 1

theorem callsIn_none {n : Nat} (h : firstOk fn n = none) : callsIn fn n = n := by
  cases n with
  | zero => rfl
  | succ n =>
    unfold firstOk at h
    unfold callsIn
    cases h1 : firstOk fn n with
    | none => rfl
    | some v => rw [h1] at h; cases h

theorem state_spec (os : List Op) : (Pr.init.run fn os) =
    ⟨(firstOk fn (os.count .value)).getD none, (firstOk fn (os.count .value)).isNone, callsIn fn (os.count .value)⟩ := by
  induction os using List.reverseRecOn with
  | nil => rfl
  | append_singleton os o ih =>
    have hr : Pr.init.run fn (os ++ [o]) = ((Pr.init.run fn os).step fn o).1 := by simp [Pr.run]
    rw [hr, ih]
    cases o with
    | optValue => simp [Pr.step, List.count_append, List.count_cons]
    | hasValue => simp [Pr.step, List.count_append, List.count_cons]
    | value =>
      have hc : (os ++ [Op.value]).count .value = os.count .value + 1 := by simp [List.count_append]
      rw [hc]
      generalize os.count .value = n
      simp only [Pr.step, firstOk, callsIn]
      cases h : firstOk fn n with
      | some v => simp
      | none =>
        simp only [Option.isNone_none, if_true, callsIn_none fn h]
        cases h1 : fn n with
        | ok v => simp
        | error e => simp

/-- C32: what every read gives after every history of reads, in terms of the number `n` of earlier reads of `value`:
`value` gives the result of the first successful call; before that, each read calls the function once and gives what it
gives (result or exception). `opt_value` and `has_value` never call it. -/
theorem C32_promise (os : List Op) :
    let s := Pr.init.run fn os
    let n := os.count .value
    s.calls = callsIn fn n ∧
    (∀ v, firstOk fn n = some v → (s.step fn .value).2 = .value v ∧ (s.step fn .value).1.calls = s.calls ∧
      (s.step fn .optValue).2 = .value v ∧ (s.step fn .hasValue).2 = .flag v.isSome) ∧
    (firstOk fn n = none → s.calls = n ∧ (s.step fn .value).1.calls = n + 1 ∧
      (s.step fn .value).2 = (match fn n with | .ok v => .value v | .error e => .raised e) ∧
      (s.step fn .optValue).2 = .value none ∧ (s.step fn .hasValue).2 = .flag false) ∧
    (s.step fn .optValue).1 = s ∧ (s.step fn .hasValue).1 = s := by
  intro s n
  have hs := state_spec fn os
  change s = _ at hs
  refine ⟨by rw [hs], fun v hv => ?_, fun hv => ?_, rfl, rfl⟩
  · change firstOk fn (os.count .value) = some v at hv
    rw [hs]; simp [Pr.step, hv]
  · change firstOk fn (os.count .value) = none at hv
    have hc := callsIn_none fn hv
    rw [hs]
    simp only [hv, hc]
    cases h1 : fn (os.count .value) with
    | ok v => simp [Pr.step, h1, n]
    | error e => simp [Pr.step, h1, n]

/-- C32: a function that does not raise is called exactly once if `value` is read at all, and every read gives that first
result. -/
theorem C32_once (v : Nat → Option V) (h : ∀ n, fn n = .ok (v n)) (os : List Op) :
    let s := Pr.init.run fn os
    s.calls = (if Op.value ∈ os then 1 else 0) ∧ (s.step fn .value).2 = .value (v 0) := by
  have h1 : ∀ n, firstOk fn (n + 1) = some (v 0) := by
    intro n
    induction n with
    | zero => simp [firstOk, h]
    | succ n ih => rw [firstOk, ih]
  have h2 : ∀ n, callsIn fn (n + 1) = 1 := by
    intro n
    induction n with
    | zero => simp [callsIn, firstOk]
    | succ n ih => rw [callsIn, h1]; exact ih
  intro s
  obtain ⟨c1, c2, c3, _⟩ := C32_promise fn os
  change s.calls = _ at c1
  by_cases hm : Op.value ∈ os
  · obtain ⟨n, hn⟩ : ∃ n, os.count .value = n + 1 := ⟨os.count .value - 1, by
      have := List.count_pos_iff.2 hm; omega⟩
    rw [hn] at c1 c2
    refine ⟨by rw [c1, h2, if_pos hm], (c2 _ (h1 n)).1⟩
  · have hn : os.count .value = 0 := List.count_eq_zero.2 hm
    rw [hn] at c1 c3
    refine ⟨by rw [c1, if_neg hm]; rfl, ?_⟩
    rw [(c3 rfl).2.2.1, h]

end

/-- a function that raises twice, then gives 5, then would give 6 -/
example : let fn : Nat → Except Exc (Option Nat) := fun n => if n < 2 then .error (.user n) else .ok (some (n + 3))
    let s := Pr.init.run fn [.value, .optValue, .value, .value, .hasValue, .value]
    s.calls = 3 ∧ (s.step fn .value).2 = .value (some 5) ∧
    ((Pr.init.run fn [.value]).step fn .value).2 = .raised (.user 1) := by decide

end Verif.Promise
