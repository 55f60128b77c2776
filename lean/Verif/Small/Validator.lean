import Mathlib.Order.Lattice
import Mathlib.Data.Int.Order.Basic
import Verif.Py.Basic

/-!
Model of `IntegerRangeValidator` (`nion/utils/Validator.py`) and property C49.
-/

namespace Verif.Validator

/-- Validator.py:22-27. -/
def validate (mn mx : Option Int) (value : Int) : Int :=
  let value := match mn with
    | some m => max m value
    | none => value
  match mx with
  | some m => min m value
  | none => value

/-- The integers within the bounds that are given. -/
def InRange (mn mx : Option Int) (v : Int) : Prop := (∀ m, mn = some m → m ≤ v) ∧ ∀ m, mx = some m → v ≤ m

/-- C49: if the range is not empty, the result is in the range and is strictly nearer to the value than every other member
of the range; values in the range are unchanged; validating is idempotent and monotone. -/
theorem C49_clamps (mn mx : Option Int) (hne : ∃ v, InRange mn mx v) (v : Int) :
    InRange mn mx (validate mn mx v) ∧
    (∀ w, InRange mn mx w → w ≠ validate mn mx v → (validate mn mx v - v).natAbs < (w - v).natAbs) ∧
    (InRange mn mx v → validate mn mx v = v) ∧
    validate mn mx (validate mn mx v) = validate mn mx v ∧
    (∀ w, v ≤ w → validate mn mx v ≤ validate mn mx w) := by
  obtain ⟨x, hx1, hx2⟩ := hne
  have key : InRange mn mx (validate mn mx v) ∧
    (∀ w, InRange mn mx w → w ≠ validate mn mx v → (validate mn mx v - v).natAbs < (w - v).natAbs) ∧
    (InRange mn mx v → validate mn mx v = v) ∧ (∀ w, v ≤ w → validate mn mx v ≤ validate mn mx w) := by
    refine ⟨⟨fun m h => ?_, fun m h => ?_⟩, fun w hw hne => ?_, fun hv => ?_, fun w hw => ?_⟩
    · subst h
      cases mx with
      | none => simp only [validate]; omega
      | some b => have := hx1 m rfl; have := hx2 b rfl; simp only [validate]; omega
    · subst h
      cases mn with
      | none => simp only [validate]; omega
      | some a => simp only [validate]; omega
    · obtain ⟨h1, h2⟩ := hw
      cases mn <;> cases mx <;> simp only [validate, Option.some.injEq, forall_eq', reduceCtorEq, false_implies,
        implies_true] at * <;> omega
    · obtain ⟨h1, h2⟩ := hv
      cases mn <;> cases mx <;> simp only [validate, Option.some.injEq, forall_eq', reduceCtorEq, false_implies,
        implies_true] at * <;> omega
    · cases mn <;> cases mx <;> simp only [validate] <;> omega
  refine ⟨key.1, key.2.1, key.2.2.1, ?_, key.2.2.2⟩
  cases mn <;> cases mx <;> simp only [validate] at * <;> omega

/-- C49: a missing bound does not constrain: without an upper bound the result is the larger of value and lower bound, and
so on; with an empty range (lower bound above upper bound) the upper bound wins. -/
theorem C49_bounds (a b v : Int) :
    validate none none v = v ∧ validate (some a) none v = max a v ∧ validate none (some b) v = min b v ∧
    (b ≤ a → validate (some a) (some b) v = b) := by
  simp [validate]; omega

example : validate (some 3) (some 9) 12 = 9 ∧ validate (some 3) (some 9) (-4) = 3 ∧ validate (some 3) (some 9) 5 = 5 := by
  decide

end Verif.Validator
