import Verif.Binding.PropertyModel

/-!
Two property models kept in step by a `PropertyBinding` (property C87): the binding's source is the property `value` of model
`a`, its `target_setter` assigns model `b`, and `b.on_value_changed` is the binding's `update_source`
(`nion/utils/Model.py`:42-54, `nion/utils/Binding.py`:99-126, 213-249). The setters call each other; the recursion limit of
Python is the parameter `n`, `none` is the `RecursionError`.

`c` takes a value of `a` to what the binding shows for it (conversion, or fallback for `None`), `cb` is the validated back
conversion; both do not raise. Both models compare with equality.
-/

namespace Verif.Binding.TwoWay

variable {S T : Type} [DecidableEq S] [DecidableEq T]

structure State (S T : Type) where
  a : Option S
  b : Option T
  deriving DecidableEq

mutual
/-- `a.value = v`: stores, then the event makes the binding assign `b`. -/
def setA (c : Option S → Option T) (cb : Option T → Option S) : Nat → State S T → Option S → Option (State S T)
  | 0, _, _ => none
  | n + 1, s, v => if s.a = v then some s else setB c cb n { s with a := v } (c v)
/-- `b.value = t`: stores, then `on_value_changed` makes the binding assign `a`. -/
def setB (c : Option S → Option T) (cb : Option T → Option S) : Nat → State S T → Option T → Option (State S T)
  | 0, _, _ => none
  | n + 1, s, t => if s.b = t then some s else setA c cb n { s with b := t } (cb t)
end

inductive Act (S T : Type) where
  | a (v : Option S)
  | b (t : Option T)

def step (c : Option S → Option T) (cb : Option T → Option S) (n : Nat) (s : State S T) : Act S T → Option (State S T)
  | .a v => setA c cb n s v
  | .b t => setB c cb n s t

/-- A history; `none` if some assignment exceeded the recursion limit. -/
def run (c : Option S → Option T) (cb : Option T → Option S) (n : Nat) (s : State S T) (as : List (Act S T)) :
    Option (State S T) := as.foldlM (step c cb n) s

variable {c : Option S → Option T} {cb : Option T → Option S}

/-- Converting back and forth repeatedly gives nothing new. -/
structure Stable (c : Option S → Option T) (cb : Option T → Option S) : Prop where
  fwd : ∀ v, c (cb (c v)) = c v
  bwd : ∀ t, cb (c (cb t)) = cb t

/-- C87, assigning `a`: the setters return after at most four nested calls; afterwards `b` shows `a`; `a` is what was
assigned, or what the binding reads back from it. -/
theorem C87_set_a (h : Stable c cb) (n : Nat) (s : State S T) (v : Option S) (hs : s.b = c s.a ∨ s.a ≠ v) :
    ∃ s', setA c cb (n + 5) s v = some s' ∧ s'.b = c v ∧ (s'.a = v ∨ s'.a = cb (c v)) ∧ s'.b = c s'.a := by
  by_cases h1 : s.a = v
  · exact ⟨s, by simp [setA, h1], by subst h1; simpa using hs, .inl h1, by simpa [h1] using hs⟩
  · by_cases h2 : s.b = c v
    · exact ⟨{ s with a := v }, by simp [setA, setB, h1, h2], h2, .inl rfl, h2⟩
    · by_cases h3 : v = cb (c v)
      · exact ⟨⟨v, c v⟩, by simp [setA, setB, h1, h2, ← h3], rfl, .inl rfl, rfl⟩
      · exact ⟨⟨cb (c v), c v⟩, by simp [setA, setB, h1, h2, h3, h.fwd], rfl, .inr rfl, by simp [h.fwd]⟩

/-- C87, assigning `b`: the setters return after at most five nested calls; afterwards `a` is what is read back from what was
assigned; `b` is what was assigned, or what the binding shows for it. -/
theorem C87_set_b (h : Stable c cb) (n : Nat) (s : State S T) (t : Option T) (hs : s.a = cb s.b ∨ s.b ≠ t) :
    ∃ s', setB c cb (n + 6) s t = some s' ∧ s'.a = cb t ∧ (s'.b = t ∨ s'.b = c (cb t)) ∧ s'.a = cb s'.b := by
  by_cases h1 : s.b = t
  · exact ⟨s, by simp [setB, h1], by subst h1; simpa using hs, .inl h1, by simpa [h1] using hs⟩
  · by_cases h2 : s.a = cb t
    · exact ⟨{ s with b := t }, by simp [setA, setB, h1, h2], h2, .inl rfl, h2⟩
    · by_cases h3 : t = c (cb t)
      · exact ⟨⟨cb t, t⟩, by simp [setA, setB, h1, h2, ← h3], rfl, .inl rfl, rfl⟩
      · exact ⟨⟨cb t, c (cb t)⟩, by simp [setA, setB, h1, h2, h3, h.bwd], rfl, .inr rfl, by simp [h.bwd]⟩

/-- C87, every history of assignments to either model: no recursion error, and the models agree afterwards: `b` shows `a`, or
`a` is what is read back from `b`. -/
theorem C87_history (h : Stable c cb) (s : State S T) (hs : s.b = c s.a ∨ s.a = cb s.b) (as : List (Act S T)) :
    ∃ s', run c cb 6 s as = some s' ∧ (s'.b = c s'.a ∨ s'.a = cb s'.b) := by
  induction as generalizing s with
  | nil => exact ⟨s, rfl, hs⟩
  | cons x as ih =>
    have : ∃ s', step c cb 6 s x = some s' ∧ (s'.b = c s'.a ∨ s'.a = cb s'.b) := by
      cases x with
      | a v =>
        by_cases h1 : s.a = v
        · exact ⟨s, by simp [step, setA, h1], hs⟩
        · obtain ⟨s', e, _, _, h4⟩ := C87_set_a h 1 s v (.inr h1)
          exact ⟨s', e, .inl h4⟩
      | b t =>
        by_cases h1 : s.b = t
        · exact ⟨s, by simp [step, setB, h1], hs⟩
        · obtain ⟨s', e, _, _, h4⟩ := C87_set_b h 0 s t (.inr h1)
          exact ⟨s', e, .inr h4⟩
    obtain ⟨s', e, hs'⟩ := this
    obtain ⟨s'', e', hs''⟩ := ih s' hs'
    refine ⟨s'', ?_, hs''⟩
    have hr : run c cb 6 s (x :: as) = (step c cb 6 s x).bind fun s => run c cb 6 s as := rfl
    rw [hr, e]; exact e'

/-- C87: if moreover the conversions are inverse to each other, `b` always shows `a` and `a` is always read back from `b`. -/
theorem C87_inverse (h1 : ∀ v, cb (c v) = v) (h2 : ∀ t, c (cb t) = t) (s : State S T) (hs : s.b = c s.a) (as : List (Act S T)) :
    ∃ s', run c cb 6 s as = some s' ∧ s'.b = c s'.a ∧ s'.a = cb s'.b := by
  obtain ⟨s', e, h⟩ := C87_history (c := c) (cb := cb) ⟨fun v => by rw [h1], fun t => by rw [h2]⟩ s (.inl hs) as
  refine ⟨s', e, ?_⟩
  rcases h with h | h
  · exact ⟨h, by rw [h, h1]⟩
  · exact ⟨by rw [h, h2], h⟩

/-- C87 needs the hypothesis: if what is read back from what is shown is new each time, no recursion limit suffices. -/
theorem C87_unstable_diverges : ∀ (n : Nat) (s : State Nat Nat) (v : Nat), s.a ≠ some v → s.b ≠ some (v + 1) →
    setA (Option.map (· + 1)) id n s (some v) = none
  | 0, _, _, _, _ => rfl
  | 1, s, v, h1, h2 => by simp [setA, setB, h1]
  | n + 2, s, v, h1, h2 => by
    simp only [setA, setB, h1, if_false, Option.map_some, h2, id]
    exact C87_unstable_diverges n ⟨some v, some (v + 1)⟩ (v + 1) (by simp) (by simp)

/-- `a` holds tenths, `b` shows whole numbers: 37 tenths are shown as 3, read back as 30 tenths. Setting `b` to 5 makes `a` 50. -/
def tenths : Option Nat → Option Nat := Option.map (· / 10)
def whole : Option Nat → Option Nat := Option.map (10 * ·)

example : Stable tenths whole := ⟨fun v => by cases v <;> simp [tenths, whole], fun t => by cases t <;> simp [tenths, whole]⟩

example : run tenths whole 6 ⟨some 0, some 0⟩ [.a (some 37)] = some ⟨some 30, some 3⟩ := by decide

example : run tenths whole 6 ⟨some 0, some 0⟩ [.a (some 37), .a (some 39), .b (some 5), .b none] = some ⟨none, none⟩ := by decide

end Verif.Binding.TwoWay
