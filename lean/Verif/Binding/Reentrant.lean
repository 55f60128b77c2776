import Verif.Binding.PropertyModel

/-!
A `PropertyModel` with a listener that assigns the model again from inside the property changed event (property C88), such as
one that restricts the value to a range (`nion/utils/Model.py`:42-54).

`react v` is what the listener assigns when it reads the value `v`, none if it assigns nothing. The number of nested
assignments is bounded by `n`, Python's recursion limit; the `RecursionError` is swallowed by `Event.fire`.
-/

namespace Verif.Binding

variable {V : Type}

/-- Model.py:42-54 with the listener called in line 52. -/
def PM.setR (cmp : V → V → Bool) (react : Option V → Option (Option V)) : Nat → PM V → Option V → PM V
  | 0, s, _ => s
  | n + 1, s, v =>
    if notEqual cmp s.value v then
      let s := { s with value := v, log := s.log ++ [.changed v] }
      let s := match react v with
        | some w => PM.setR cmp react n s w
        | none => s
      { s with log := s.log ++ if s.handler then [.called v] else [] }
    else s

theorem setR_handler (cmp : V → V → Bool) (react : Option V → Option (Option V)) (n : Nat) (s : PM V) (v : Option V) :
    (PM.setR cmp react n s v).handler = s.handler := by
  induction n generalizing s v with
  | zero => rfl
  | succ n ih =>
    unfold PM.setR
    split
    · cases react v with
      | none => rfl
      | some w => simp only [ih]
    · rfl

/-- Without reaction it is the setter of `C45`. -/
theorem setR_none (cmp : V → V → Bool) (n : Nat) (s : PM V) (v : Option V) :
    PM.setR cmp (fun _ => none) (n + 1) s v = s.set cmp v := by
  simp [PM.setR, PM.set]

/-- C88, the event: whatever the listener does, when the setter returns the last value a listener has seen is the value of the
model, provided this was so before. -/
theorem C88_event (cmp : V → V → Bool) (react : Option V → Option (Option V)) (n : Nat) (s : PM V) (v init : Option V)
    (h : (changes s.log).getLastD init = s.value) :
    (changes (PM.setR cmp react n s v).log).getLastD init = (PM.setR cmp react n s v).value := by
  induction n generalizing s v with
  | zero => exact h
  | succ n ih =>
    unfold PM.setR
    split
    · have hc : ∀ (l : List (PMEv V)) (b : Bool), changes (l ++ if b then [.called v] else []) = changes l := by
        intro l b; cases b <;> simp [changes]
      simp only [hc]
      cases react v with
      | none => simp [changes]
      | some w => exact ih _ w (by simp [changes])
    · exact h

/-- C88, `on_value_changed`, when no listener assigns the model: after a changing assignment its last argument is the value. -/
theorem C88_called_partial (cmp : V → V → Bool) (n : Nat) (s : PM V) (v : Option V) (hh : s.handler = true)
    (hv : ¬ Same cmp s.value v) :
    let s' := PM.setR cmp (fun _ => none) (n + 1) s v
    (calls s'.log).getLast? = some s'.value := by
  intro s'
  have : s' = s.set cmp v := setR_none cmp n s v
  rw [this]
  obtain ⟨h1, _, h3⟩ := (C45_set cmp s v).2 hv
  rw [h1, h3, hh]
  simp [calls]

/-- C88, exactly: whatever the listener does, the last argument of `on_value_changed` after a changing assignment is the value assigned,
so it is the value of the model if and only if what the listener assigned meanwhile has come back to that value. -/
theorem C88_called_iff_partial (cmp : V → V → Bool) (react : Option V → Option (Option V)) (n : Nat) (s : PM V) (v : Option V)
    (hh : s.handler = true) (hv : ¬ Same cmp s.value v) :
    let s' := PM.setR cmp react (n + 1) s v
    (calls s'.log).getLast? = some v ∧ ((calls s'.log).getLast? = some s'.value ↔ s'.value = v) := by
  intro s'
  have hl : (calls s'.log).getLast? = some v := by
    have hne := (notEqual_iff cmp s.value v).2 hv
    simp only [s', PM.setR, hne, if_true]
    cases react v with
    | none => simp [hh, calls]
    | some w => simp [setR_handler, hh, calls]
  refine ⟨hl, ?_⟩
  rw [hl, Option.some.injEq, eq_comm]

/-- A listener that restricts the value to at most 10. -/
def clamp : Option Nat → Option (Option Nat)
  | some x => if 10 < x then some (some 10) else none
  | none => none

/-- C88 is false of the code with such a listener: the handler is called with 10 and then with 12, while the value is 10. -/
theorem C88_counterexample :
    let s := PM.setR (fun a b : Nat => a == b) clamp 5 ⟨some 3, true, []⟩ (some 12)
    s.value = some 10 ∧ s.log = [.changed (some 12), .changed (some 10), .called (some 10), .called (some 12)] := by decide

end Verif.Binding
