import Mathlib.Data.List.Basic
import Mathlib.Data.List.Induction
import Mathlib.Tactic.Common

/-!
C154: comparisons that raise. Model of the setter of `PropertyModel` (`nion/utils/Model.py:40-53`) with a comparison function that may
raise (as `operator.eq` followed by `not` does for arrays of more than one element), and a handler that may raise; of `StreamValueModel`
(lines 95-118), in whose case `Event.fire` (`nion/utils/Event.py:103-114`) swallows the exception.
-/

namespace Verif.Binding.RaisingCmp

/-- `None` is `none`. `cmp` and the handler of `on_value_changed` raise where they have the value `none`. -/
structure Cfg (V : Type) where
  cmp : V → V → Option Bool
  handler : Option (Option V → Option Unit)

/-- The value and what listeners of the event have seen, oldest first. -/
structure PM (V : Type) where
  value : Option V
  told : List (Option V)
  handled : List (Option V)

variable {V : Type}

/-- Lines 42-47; `none`: the comparison raises. -/
def notEqual (c : Cfg V) (old new : Option V) : Option Bool :=
  match old, new with
  | none, x => some x.isSome
  | some _, none => some true
  | some v, some x => (c.cmp x v).map (!·)

/-- Lines 42-53; the flag tells whether it raises. -/
def PM.set (c : Cfg V) (m : PM V) (x : Option V) : PM V × Bool :=
  match notEqual c m.value x with
  | none => (m, true)
  | some false => (m, false)
  | some true =>
    let m' : PM V := { m with value := x, told := m.told ++ [x] }
    match c.handler with
    | none => (m', false)
    | some h => ({ m' with handled := m'.handled ++ [x] }, (h x).isNone)

/-- A model on a stream that sends these values (lines 102-110): exceptions are swallowed. -/
def follow (c : Cfg V) (m : PM V) (xs : List (Option V)) : PM V := xs.foldl (fun m x => (m.set c x).1) m

/-! ### Specification -/

/-- Comparing these raises. -/
def CmpRaises (c : Cfg V) (old new : Option V) : Prop := ∃ v x, old = some v ∧ new = some x ∧ c.cmp x v = none

/-- The same value, or one that the comparison takes for the same. -/
def Same (c : Cfg V) (x old : Option V) : Prop := x = old ∨ ∃ v y, old = some v ∧ x = some y ∧ c.cmp y v = some true

/-- The first value that is not `None` since the last `None` (from the end: `xs` is reversed). -/
def firstSince : List (Option V) → Option V
  | [] => none
  | none :: _ => none
  | some x :: xs => (firstSince xs).or (some x)

/-! ### Proofs -/

theorem notEqual_none (c : Cfg V) (old new : Option V) : notEqual c old new = none ↔ CmpRaises c old new := by
  rcases old with _ | v <;> rcases new with _ | x <;> simp [notEqual, CmpRaises]

theorem notEqual_false (c : Cfg V) (old new : Option V) (h : notEqual c old new = some false) : Same c new old := by
  rcases old with _ | v <;> rcases new with _ | x <;> simp_all [notEqual, Same]

/-- C154: an assignment for which the comparison raises changes nothing and tells nobody; no other is refused, whatever the handler
does. -/
theorem C154_set (c : Cfg V) (m : PM V) (x : Option V) :
    (CmpRaises c m.value x → m.set c x = (m, true)) ∧
      (¬ CmpRaises c m.value x → Same c x (m.set c x).1.value ∧
        ((m.set c x).1 = m ∨ (m.set c x).1.value = x ∧ (m.set c x).1.told = m.told ++ [x])) := by
  constructor
  · intro h
    simp only [PM.set, (notEqual_none c m.value x).2 h]
  · intro h
    rcases hn : notEqual c m.value x with _ | b
    · exact absurd ((notEqual_none c m.value x).1 hn) h
    · rcases b with _ | _
      · have : m.set c x = (m, false) := by simp only [PM.set, hn]
        rw [this]
        exact ⟨notEqual_false c _ _ hn, .inl rfl⟩
      · have h1 : (m.set c x).1.value = x ∧ (m.set c x).1.told = m.told ++ [x] := by
          simp only [PM.set, hn]
          rcases c.handler with _ | f <;> exact ⟨rfl, rfl⟩
        exact ⟨.inl h1.1.symm, .inr h1⟩

/-- C154: an assignment raises exactly if the comparison does, or it changes the value and the handler raises; in that case the value is the
new one and the listeners have been told. -/
theorem C154_raises_iff (c : Cfg V) (m : PM V) (x : Option V) :
    (m.set c x).2 = true ↔ CmpRaises c m.value x ∨
      (notEqual c m.value x = some true ∧ ∃ h, c.handler = some h ∧ h x = none) := by
  rcases hn : notEqual c m.value x with _ | b
  · simp [PM.set, hn, (notEqual_none c m.value x).1 hn]
  · have h0 : ¬ CmpRaises c m.value x := fun h => by rw [(notEqual_none c m.value x).2 h] at hn; cases hn
    rcases b with _ | _
    · simp [PM.set, hn, h0]
    · rcases hh : c.handler with _ | f
      · simp [PM.set, hn, h0, hh]
      · simp [PM.set, hn, h0, hh]

theorem follow_append (c : Cfg V) (m : PM V) (xs : List (Option V)) (x : Option V) :
    follow c m (xs ++ [x]) = ((follow c m xs).set c x).1 := by
  simp [follow, List.foldl_append]

/-- C154, exactly, every history (partial: the property asks for it without the condition): a model on a stream has the value the stream
sent last, exactly if comparing it with the value it had did not raise, or they are one and the same. -/
theorem C154_follow_iff_partial (c : Cfg V) (m : PM V) (xs : List (Option V)) (x : Option V) :
    Same c x (follow c m (xs ++ [x])).value ↔ ¬ CmpRaises c (follow c m xs).value x ∨ x = (follow c m xs).value := by
  rw [follow_append]
  obtain ⟨h1, h2⟩ := C154_set c (follow c m xs) x
  by_cases h : CmpRaises c (follow c m xs).value x
  · rw [h1 h]
    simp only [h, not_true_eq_false, false_or]
    constructor
    · rintro (h3 | ⟨v, y, hv, hy, h3⟩)
      · exact h3
      · obtain ⟨v', y', hv', hy', h4⟩ := h
        simp only [hv, Option.some.injEq] at hv'
        simp only [hy, Option.some.injEq] at hy'
        rw [hv', hy', h4] at h3
        cases h3
    · intro h3
      exact .inl h3
  · exact iff_of_true (h2 h).1 (.inl h)

/-- C154: the handler is called with exactly the values the listeners are told of, also when it raises; without one nothing is called. -/
theorem C154_handled (c : Cfg V) (m : PM V) (xs : List (Option V)) :
    ∃ new, (follow c m xs).told = m.told ++ new ∧ (follow c m xs).handled = m.handled ++ if c.handler = none then [] else new := by
  induction xs generalizing m with
  | nil => exact ⟨[], by simp [follow], by simp [follow]⟩
  | cons x xs ih =>
    obtain ⟨new, h1, h2⟩ := ih (m.set c x).1
    have hf : follow c m (x :: xs) = follow c (m.set c x).1 xs := rfl
    rw [hf, h1, h2]
    have hs : ∃ n, (m.set c x).1.told = m.told ++ n ∧ (m.set c x).1.handled = m.handled ++ if c.handler = none then [] else n := by
      unfold PM.set
      split
      · exact ⟨[], by simp, by simp⟩
      · exact ⟨[], by simp, by simp⟩
      · cases hh : c.handler with
        | none => exact ⟨[x], rfl, by simp⟩
        | some h => exact ⟨[x], rfl, by simp⟩
    obtain ⟨n, k1, k2⟩ := hs
    refine ⟨n ++ new, by rw [k1, List.append_assoc], ?_⟩
    rw [k2]
    split <;> simp

/-- C154: if the comparison never raises, the model follows the stream. -/
theorem C154_total (c : Cfg V) (hc : ∀ v x, c.cmp v x ≠ none) (m : PM V) (xs : List (Option V)) (x : Option V) :
    Same c x (follow c m (xs ++ [x])).value := by
  rw [C154_follow_iff_partial]
  left
  rintro ⟨v, y, _, _, h⟩
  exact hc _ _ h

/-- C154, negative, for every history: with a comparison that raises for all values (as that of arrays), a model on a stream has the first
value since the last `None`, not the last one. -/
theorem C154_stuck_counterexample (c : Cfg V) (hc : ∀ v x, c.cmp v x = none) (xs : List (Option V)) :
    (follow c ⟨none, [], []⟩ xs).value = firstSince xs.reverse := by
  induction xs using List.reverseRecOn with
  | nil => rfl
  | append_singleton xs x ih =>
    rw [follow_append, List.reverse_append, List.reverse_singleton, List.singleton_append]
    set m := follow c ⟨none, [], []⟩ xs
    obtain ⟨h1, h2⟩ := C154_set c m x
    rcases x with _ | x
    · have hr : ¬ CmpRaises c m.value none := by rintro ⟨v, y, _, h, _⟩; cases h
      rcases (h2 hr).1 with h | ⟨v, y, _, h, _⟩
      · simpa [firstSince] using h.symm
      · cases h
    · rw [firstSince, ← ih]
      rcases hv : m.value with _ | v
      · have hr : ¬ CmpRaises c m.value (some x) := by rintro ⟨v, y, h, _⟩; rw [hv] at h; cases h
        rcases (h2 hr).2 with h | h
        · rcases (h2 hr).1 with h3 | ⟨v, y, h3, _⟩
          · rw [h, hv] at h3
            cases h3
          · rw [h, hv] at h3
            cases h3
        · rw [h.1]
          rfl
      · rw [h1 ⟨v, x, hv, rfl, hc _ _⟩]
        simp [hv]

/-- A stream of arrays 1, 2, 3: the model keeps 1. After `None` it takes the next. -/
example : (follow (V := ℕ) ⟨fun _ _ => none, none⟩ ⟨none, [], []⟩ [some 1, some 2, some 3]).value = some 1 ∧
    (follow (V := ℕ) ⟨fun _ _ => none, none⟩ ⟨none, [], []⟩ [some 1, some 2, none, some 3]).value = some 3 := by decide

/-- A handler that raises: the value is stored. -/
example : (PM.set (V := ℕ) ⟨fun a b => some (a == b), some fun _ => none⟩ ⟨some 1, [], []⟩ (some 2)).1.value = some 2 ∧
    (PM.set (V := ℕ) ⟨fun a b => some (a == b), some fun _ => none⟩ ⟨some 1, [], []⟩ (some 2)).2 = true := by decide

/-- The first condition is met by a comparison that raises for some pairs only. -/
example : Same ⟨fun a b : ℕ => if a < b then none else some (a == b), none⟩ (some 5)
    (follow ⟨fun a b : ℕ => if a < b then none else some (a == b), none⟩ ⟨none, [], []⟩ [some 4, some 2, some 5]).value :=
  .inl (by decide)

end Verif.Binding.RaisingCmp
