import Verif.Stream.Timed
import Mathlib.Algebra.Order.Group.Defs
import Mathlib.Tactic.Linarith
import Mathlib.Tactic.Abel

/-!
`DebounceStream` and `SampleStream` (`nion/utils/Stream.py`, lines 142-237) with a clock, property C169.

The streams are those of `Timed`; what is added is the time. `asyncio.sleep(period)` never returns early (lines 170, 222); how late it
returns is up to the schedule, as is how long listeners take. Steps other than waiting take no time.
-/

namespace Verif.Stream.Debounce

variable {α K : Type} [AddCommGroup K] [LinearOrder K] [IsOrderedAddMonoid K]

/-- `since`: when the sleeping task was created; `stamped`: the log with the times. -/
structure TState (α K : Type) where
  st : State α
  now : K
  since : K
  stamped : List (K × Ev α)

inductive TAct (α K : Type) where
  | wait (d : K)
  | act (a : Act α)

/-- Can the step be taken? Stream.py:170: the sleep ends after the period. -/
def TState.able (P : K) (s : TState α K) : TAct α K → Bool
  | .wait d => decide (0 ≤ d)
  | .act .expire => decide (s.since + P ≤ s.now)
  | .act _ => true

def TState.step (P : K) (s : TState α K) (a : TAct α K) : TState α K :=
  if s.able P a then
    match a with
    | .wait d => { s with now := s.now + d }
    | .act a =>
      { st := s.st.step a, now := s.now, since := if s.st.task = .none then s.now else s.since,
        stamped := s.stamped ++ ((s.st.step a).log.drop s.st.log.length).map fun e => (s.now, e) }
  else s

/-- Construction at time `t`. -/
def TState.init (v : α) (t : K) : TState α K := ⟨.init v, t, t, [(t, .input v)]⟩

def TState.run (P : K) (s : TState α K) (as : List (TAct α K)) : TState α K := as.foldl (TState.step P) s

/-! ### Specification -/

def IsDelivery (e : K × Ev α) : Prop := ∃ x, e.2 = .deliver x

/-- The time of the oldest input that has not been delivered. -/
def oldest (l : List (K × Ev α)) : Option K :=
  l.foldl (fun o e => match e.2 with | .input _ => o.or (some e.1) | .deliver _ => none | .closed => none) none

/-- The event loop is never more than `ε` late. -/
def Punctual (P ε : K) : TState α K → List (TAct α K) → Prop
  | _, [] => True
  | s, a :: as => (∀ d, a = .wait d → s.st.task = .sleeping → s.now + d ≤ s.since + P + ε) ∧ Punctual P ε (s.step P a) as

/-- No input arrives while the stream fires. -/
def TQuiet (P : K) : TState α K → List (TAct α K) → Prop
  | _, [] => True
  | s, a :: as => (s.st.task = .firing → ∀ v, a ≠ .act (.input v)) ∧ TQuiet P (s.step P a) as

/-! ### Proofs -/

/-- What a step adds to the log. -/
def added (s : State α) : Act α → List (Ev α)
  | .input v => if s.listening then [.input v] else []
  | .expire => if s.task = .sleeping then [.deliver s.value] else []
  | .finish => []
  | .close => if s.listening then [.closed] else []

theorem step_log (s : State α) (a : Act α) : (s.step a).log = s.log ++ added s a := by
  cases a <;> simp only [State.step, added] <;> split <;> simp [State.valueChanged]

omit [IsOrderedAddMonoid K] in
theorem step_stamped (P : K) (s : TState α K) (a : Act α) (h : s.able P (.act a) = true) :
    s.step P (.act a) = ⟨s.st.step a, s.now, if s.st.task = .none then s.now else s.since, s.stamped ++ (added s.st a).map fun e => (s.now, e)⟩ := by
  simp [TState.step, h, step_log]

omit [IsOrderedAddMonoid K] in
/-- the untimed stream inside is the one of C41 -/
theorem stamped_log (P : K) (v : α) (t : K) (as : List (TAct α K)) :
    ((TState.init v t).run P as).stamped.map Prod.snd = ((TState.init v t).run P as).st.log := by
  induction as using List.reverseRecOn with
  | nil => rfl
  | append_singleton as a ih =>
    rw [TState.run, List.foldl_append, List.foldl_cons, List.foldl_nil, ← TState.run]
    generalize (TState.init v t).run P as = s at ih
    cases a with
    | wait d => simp only [TState.step]; split <;> exact ih
    | act a =>
      by_cases h : s.able P (.act a) = true
      · rw [step_stamped P s a h]
        simp [ih, step_log, Function.comp_def]
      · simp only [TState.step, h]; exact ih

/-- There is an input at least `P` before `t` after the last delivery of `l`. -/
def Awaited (P : K) (l : List (K × Ev α)) (t : K) : Prop :=
  ∃ u x m₁ m₂, l = m₁ ++ (u, .input x) :: m₂ ∧ (∀ e ∈ m₂, ¬ IsDelivery e) ∧ u + P ≤ t

structure TInv (P : K) (s : TState α K) : Prop where
  past : ∀ e ∈ s.stamped, e.1 ≤ s.now
  sorted : s.stamped.Pairwise fun a b => a.1 ≤ b.1
  sleeping : s.st.task = .sleeping → Awaited 0 s.stamped s.since
  deliveries : ∀ l₁ e l₂, s.stamped = l₁ ++ e :: l₂ → IsDelivery e → Awaited P l₁ e.1

omit [IsOrderedAddMonoid K] in
theorem awaited_append {P : K} {l : List (K × Ev α)} {t : K} (h : Awaited P l t) (e : K × Ev α) (he : ¬ IsDelivery e) : Awaited P (l ++ [e]) t := by
  obtain ⟨u, x, m₁, m₂, rfl, h1, h2⟩ := h
  refine ⟨u, x, m₁, m₂ ++ [e], by simp, ?_, h2⟩
  intro e' he'
  rcases List.mem_append.1 he' with h | h
  · exact h1 e' h
  · rw [List.mem_singleton.1 h]; exact he

omit [IsOrderedAddMonoid K] in
theorem deliveries_append {P : K} {l : List (K × Ev α)} {e : K × Ev α} (h : ∀ l₁ e l₂, l = l₁ ++ e :: l₂ → IsDelivery e → Awaited P l₁ e.1)
    (he : IsDelivery e → Awaited P l e.1) : ∀ l₁ e' l₂, l ++ [e] = l₁ ++ e' :: l₂ → IsDelivery e' → Awaited P l₁ e'.1 := by
  intro l₁ e' l₂ heq
  induction l₂ using List.reverseRecOn with
  | nil =>
    obtain ⟨h1, h2⟩ := List.append_inj' heq (by simp)
    simp only [List.cons.injEq, and_true] at h2
    subst h1 h2
    exact he
  | append_singleton l' x _ =>
    rw [← List.cons_append, ← List.append_assoc] at heq
    obtain ⟨h1, _⟩ := List.append_inj' heq (by simp)
    exact h _ _ _ h1

omit [AddCommGroup K] [IsOrderedAddMonoid K] in
theorem sorted_append {l : List (K × Ev α)} {e : K × Ev α} (h : l.Pairwise fun a b => a.1 ≤ b.1) (he : ∀ a ∈ l, a.1 ≤ e.1) :
    (l ++ [e]).Pairwise fun a b => a.1 ≤ b.1 := by
  rw [List.pairwise_append]
  refine ⟨h, List.pairwise_singleton _ _, fun a ha b hb => ?_⟩
  rw [List.mem_singleton.1 hb]; exact he a ha

theorem tinv_step (P : K) (s : TState α K) (h : TInv P s) (a : TAct α K) : TInv P (s.step P a) := by
  by_cases hab : s.able P a = true
  swap
  · simp only [TState.step, hab]; exact h
  cases a with
  | wait d =>
    simp only [TState.step, hab, if_true]
    exact ⟨fun e he => (h.past e he).trans (by simpa [TState.able] using hab), h.sorted, h.sleeping, h.deliveries⟩
  | act a =>
    rw [step_stamped P s a hab]
    have past1 : ∀ e : Ev α, ∀ e' ∈ s.stamped ++ [(s.now, e)], e'.1 ≤ s.now := by
      intro e e' he'
      rcases List.mem_append.1 he' with h' | h'
      · exact h.past e' h'
      · rw [List.mem_singleton.1 h']
    cases a with
    | input v =>
      by_cases hl : s.st.listening = true
      · simp only [added, hl, if_true, List.map_cons, List.map_nil, State.step, State.valueChanged]
        refine ⟨past1 _, sorted_append h.sorted h.past, ?_, deliveries_append h.deliveries (by simp [IsDelivery])⟩
        simp only
        intro ht
        by_cases hn : s.st.task = .none
        · rw [if_pos hn]
          exact ⟨s.now, v, s.stamped, [], rfl, by simp, by simp⟩
        · rw [if_neg hn] at ht ⊢
          exact awaited_append (h.sleeping ht) _ (by simp [IsDelivery])
      · have hl : s.st.listening = false := by simpa using hl
        simp only [added, hl, State.step, Bool.false_eq_true, if_false, List.map_nil, List.append_nil]
        refine ⟨h.past, h.sorted, fun ht => ?_, h.deliveries⟩
        simp only at ht ⊢
        rw [if_neg (by simp [ht])]
        exact h.sleeping ht
    | expire =>
      by_cases ht : s.st.task = .sleeping
      · simp only [added, ht, if_true, List.map_cons, List.map_nil, State.step]
        refine ⟨past1 _, sorted_append h.sorted h.past, by simp, deliveries_append h.deliveries fun _ => ?_⟩
        obtain ⟨u, x, m₁, m₂, e, h1, h2⟩ := h.sleeping ht
        refine ⟨u, x, m₁, m₂, e, h1, ?_⟩
        have hab : s.since + P ≤ s.now := of_decide_eq_true hab
        rw [add_zero] at h2
        exact (add_le_add_left h2 P).trans hab
      · simp only [added, ht, State.step, if_false, List.map_nil, List.append_nil]
        exact ⟨h.past, h.sorted, fun ht' => absurd ht' ht, h.deliveries⟩
    | finish =>
      simp only [added, List.map_nil, List.append_nil]
      refine ⟨h.past, h.sorted, fun ht => ?_, h.deliveries⟩
      simp only [State.step] at ht ⊢
      split at ht
      · cases ht
      · rw [if_neg (by simp [ht])]; exact h.sleeping ht
    | close =>
      by_cases hl : s.st.listening = true
      · simp only [added, hl, if_true, List.map_cons, List.map_nil, State.step]
        refine ⟨past1 _, sorted_append h.sorted h.past, ?_, deliveries_append h.deliveries (by simp [IsDelivery])⟩
        intro ht
        simp only at ht
        split at ht
        · cases ht
        · rename_i hn; exact absurd ht hn
      · have hl : s.st.listening = false := by simpa using hl
        simp only [added, hl, State.step, Bool.false_eq_true, if_false, List.map_nil, List.append_nil]
        refine ⟨h.past, h.sorted, fun ht => ?_, h.deliveries⟩
        simp only at ht ⊢
        rw [if_neg (by simp [ht])]
        exact h.sleeping ht

theorem tinv_run (P : K) (v : α) (t : K) (as : List (TAct α K)) : TInv P ((TState.init v t).run P as) := by
  induction as using List.reverseRecOn with
  | nil =>
    refine ⟨by simp [TState.run, TState.init], by simp [TState.run, TState.init], fun _ => ⟨t, v, [], [], rfl, by simp, ?_⟩, ?_⟩
    · simp [TState.run, TState.init]
    · intro l₁ e l₂ h he
      rcases l₁ with _ | ⟨_, l₁⟩ <;> simp [TState.run, TState.init] at h
      obtain ⟨x, hx⟩ := he
      rw [← h.1] at hx
      cases hx
  | append_singleton as a ih =>
    rw [TState.run, List.foldl_append]; exact tinv_step P _ ih a

/-- C169, not too early: whatever the schedule, a delivery comes at least a period after an input that had not been delivered. -/
theorem C169_debounce_after (P : K) (v : α) (t : K) (as : List (TAct α K)) (l₁ l₂ : List (K × Ev α)) (d : K) (x : α)
    (h : ((TState.init v t).run P as).stamped = l₁ ++ (d, .deliver x) :: l₂) :
    ∃ u y m₁ m₂, l₁ = m₁ ++ (u, .input y) :: m₂ ∧ (∀ e ∈ m₂, ¬ IsDelivery e) ∧ u + P ≤ d :=
  (tinv_run P v t as).deliveries l₁ _ l₂ h ⟨x, rfl⟩

/-- C169: deliveries are at least a period apart. -/
theorem C169_debounce_apart (P : K) (v : α) (t : K) (as : List (TAct α K)) (l₁ l₂ l₃ : List (K × Ev α)) (d₁ d₂ : K) (x y : α)
    (h : ((TState.init v t).run P as).stamped = l₁ ++ (d₁, .deliver x) :: l₂ ++ (d₂, .deliver y) :: l₃) : d₁ + P ≤ d₂ := by
  have inv := tinv_run P v t as
  obtain ⟨u, z, m₁, m₂, e, h1, h2⟩ := inv.deliveries _ _ _ h ⟨y, rfl⟩
  have hs := inv.sorted
  rw [h, List.pairwise_append] at hs
  have hs := hs.1
  rw [e] at hs
  have hmem : (d₁, Ev.deliver x) ∈ m₁ ++ (u, .input z) :: m₂ := by rw [← e]; simp
  rcases List.mem_append.1 hmem with hm | hm
  · rw [List.pairwise_append] at hs
    have := hs.2.2 _ hm (u, .input z) List.mem_cons_self
    exact (add_le_add_left this P).trans h2
  · rcases List.mem_cons.1 hm with hm | hm
    · cases hm
    · exact absurd ⟨x, rfl⟩ (h1 _ hm)

omit [AddCommGroup K] [LinearOrder K] [IsOrderedAddMonoid K] in
theorem oldest_append (l : List (K × Ev α)) (e : K × Ev α) : oldest (l ++ [e]) =
    match e.2 with | .input _ => (oldest l).or (some e.1) | .deliver _ => none | .closed => none := by
  rw [oldest, List.foldl_append]; rfl

/-- The oldest input that waits is the one the task sleeps for. -/
structure DInv (P ε : K) (s : TState α K) : Prop where
  waits : ∀ u, oldest s.stamped = some u → s.st.task = .sleeping ∧ s.since = u
  closed : s.st.listening = false → oldest s.stamped = none
  some : s.st.task = .sleeping → (oldest s.stamped).isSome = true
  due : s.st.task = .sleeping → s.now ≤ s.since + P + ε

theorem dinv_step (P ε : K) (hε : 0 ≤ P + ε) (s : TState α K) (h : DInv P ε s) (a : TAct α K)
    (hp : ∀ d, a = .wait d → s.st.task = .sleeping → s.now + d ≤ s.since + P + ε)
    (hq : s.st.task = .firing → ∀ v, a ≠ .act (.input v)) : DInv P ε (s.step P a) := by
  by_cases hab : s.able P a = true
  swap
  · simp only [TState.step, hab]; exact h
  cases a with
  | wait d =>
    simp only [TState.step, hab, if_true]
    exact ⟨h.waits, h.closed, h.some, fun ht => hp d rfl ht⟩
  | act a =>
    rw [step_stamped P s a hab]
    cases a with
    | input v =>
      by_cases hl : s.st.listening = true
      · simp only [added, hl, if_true, List.map_cons, List.map_nil, State.step, State.valueChanged]
        have hno : s.st.task ≠ .sleeping → oldest s.stamped = none := by
          intro hn
          cases ho : oldest s.stamped with
          | none => rfl
          | some u => exact absurd (h.waits u ho).1 hn
        cases ht : s.st.task with
        | none =>
          have ho := hno (by simp [ht])
          refine ⟨?_, by simp, by simp [oldest_append], ?_⟩
          · simp [oldest_append, ho]
          · simp only [if_true]
            intro _
            rw [add_assoc]
            exact le_add_of_nonneg_right hε
        | sleeping =>
          obtain ⟨u, hu⟩ := Option.isSome_iff_exists.1 (h.some ht)
          refine ⟨?_, by simp, by simp [oldest_append], ?_⟩
          · intro u' hu'
            rw [oldest_append, hu] at hu'
            simp only [Option.some_or, Option.some.injEq] at hu'
            subst hu'
            exact ⟨by simp, by simpa using (h.waits _ hu).2⟩
          · intro _; simpa using h.due ht
        | firing => exact absurd rfl (hq ht v)
      · have hl : s.st.listening = false := by simpa using hl
        simp only [added, hl, State.step, Bool.false_eq_true, if_false, List.map_nil, List.append_nil]
        refine ⟨fun u hu => ?_, h.closed, h.some, fun ht => ?_⟩
        · rw [h.closed hl] at hu; cases hu
        · simp only at ht ⊢
          rw [if_neg (by simp [ht])]
          exact h.due ht
    | expire =>
      by_cases ht : s.st.task = .sleeping
      · simp only [added, ht, if_true, List.map_cons, List.map_nil, State.step]
        exact ⟨by simp [oldest_append], by simp [oldest_append], by simp, by simp⟩
      · simp only [added, ht, State.step, if_false, List.map_nil, List.append_nil]
        exact ⟨fun u hu => absurd (h.waits u hu).1 ht, h.closed, h.some, fun ht' => absurd ht' ht⟩
    | finish =>
      simp only [added, List.map_nil, List.append_nil, State.step]
      by_cases hf : s.st.task = .firing
      · simp only [hf, if_true]
        exact ⟨fun u hu => absurd (h.waits u hu).1 (by simp [hf]), h.closed, by simp, by simp⟩
      · simp only [hf, if_false]
        refine ⟨fun u hu => ?_, h.closed, h.some, fun ht => ?_⟩
        · obtain ⟨h1, h2⟩ := h.waits u hu
          exact ⟨h1, by rw [if_neg (by simp [h1])]; exact h2⟩
        · simp only at ht ⊢
          rw [if_neg (by simp [ht])]
          exact h.due ht
    | close =>
      by_cases hl : s.st.listening = true
      · simp only [added, hl, if_true, List.map_cons, List.map_nil, State.step]
        have hts : (if s.st.task = .sleeping then Task.none else s.st.task) ≠ .sleeping := by
          split
          · simp
          · assumption
        exact ⟨by simp [oldest_append], by simp [oldest_append], fun ht => absurd ht hts, fun ht => absurd ht hts⟩
      · have hl : s.st.listening = false := by simpa using hl
        simp only [added, hl, State.step, Bool.false_eq_true, if_false, List.map_nil, List.append_nil]
        refine ⟨fun u hu => ?_, h.closed, h.some, fun ht => ?_⟩
        · rw [h.closed hl] at hu; cases hu
        · simp only at ht ⊢
          rw [if_neg (by simp [ht])]
          exact h.due ht

/-- C169, in time, if no input arrives while the stream fires and the event loop is never more than `ε` late: no input waits longer
than the period and `ε` for a delivery. (Inputs that arrive while the stream fires: C41_counterexample.) -/
theorem C169_debounce_within_partial (P ε : K) (hε : 0 ≤ P + ε) (v : α) (t : K) (as : List (TAct α K)) (hp : Punctual P ε (TState.init v t) as)
    (hq : TQuiet P (TState.init v t) as) (u : K) (hu : oldest ((TState.init v t).run P as).stamped = some u) :
    ((TState.init v t).run P as).now ≤ u + P + ε := by
  suffices key : ∀ (as : List (TAct α K)) (s : TState α K), DInv P ε s → Punctual P ε s as → TQuiet P s as → DInv P ε (s.run P as) by
    have h := key as _ ⟨?_, ?_, ?_, ?_⟩ hp hq
    · obtain ⟨h1, h2⟩ := h.waits u hu
      rw [← h2]
      exact h.due h1
    · simp [TState.init, State.init, State.valueChanged, oldest]
    · simp [TState.init, State.init, State.valueChanged]
    · simp [TState.init, oldest]
    · intro _
      rw [add_assoc]
      exact le_add_of_nonneg_right hε
  intro as
  induction as with
  | nil => exact fun s h _ _ => h
  | cons a as ih =>
    intro s h hp hq
    exact ih _ (dinv_step P ε hε s h a hp.1 hq.1) hp.2 hq.2

/-- two inputs within the period of 10, one later -/
example : ((TState.init 0 (0 : ℤ)).run 10 [.wait 5, .act (.input 1), .act .expire, .wait 6, .act .expire, .act .finish, .wait 1, .act (.input 2),
    .wait 10, .act .expire]).stamped = [(0, .input 0), (5, .input 1), (11, .deliver 1), (12, .input 2), (22, .deliver 2)] := by decide

/-- a schedule in time, one unit late -/
example : Punctual 10 1 (TState.init 0 (0 : ℤ)) [.wait 5, .act (.input 1), .wait 6, .act .expire, .wait 50] ∧
    TQuiet 10 (TState.init 0 (0 : ℤ)) [.wait 5, .act (.input 1), .wait 6, .act .expire, .wait 50] := by
  constructor
  · simp only [Punctual, TAct.wait.injEq, reduceCtorEq, false_implies, forall_const, forall_eq', and_true, true_and]
    decide
  · refine ⟨?_, ?_, ?_, ?_, ?_, trivial⟩ <;> intro h
    all_goals first | exact absurd h (by decide) | simp

/-- C169 fails for quiet as other reactive libraries have it (a value is delivered only if no other came for a period): a value is delivered
one unit of time after it came, the period being 10, and inputs that keep coming every unit do not hold back the delivery. -/
theorem C169_counterexample :
    ((TState.init 0 (0 : ℤ)).run 10 [.wait 8, .act (.input 1), .wait 1, .act (.input 2), .wait 1, .act .expire]).stamped =
      [(0, .input 0), (8, .input 1), (9, .input 2), (10, .deliver 2)] := by decide

end Verif.Stream.Debounce

namespace Verif.Stream.Sample

variable {α K : Type} [AddCommGroup K] [LinearOrder K] [IsOrderedAddMonoid K]

/-- `busy`: the sleep has ended and the next task has not started; `mark`: when this or the sleep began. -/
structure TState (α K : Type) where
  st : State α
  now : K
  busy : Bool
  mark : K
  stamped : List (K × Ev α)

inductive TAct (α K : Type) where
  | wait (d : K)
  | act (a : Act α)
  /-- the task is done, the next one starts (204-209, 222) -/
  | begin

/-- The step that ends the sleep. -/
def ends : Act α → Bool
  | .period => true
  | _ => false

/-- Can the step be taken? Stream.py:222: the sleep ends after the period; the next task starts when this one is done. -/
def TState.able (P : K) (s : TState α K) : TAct α K → Bool
  | .wait d => decide (0 ≤ d)
  | .act .period => s.st.listening && !s.busy && decide (s.mark + P ≤ s.now)
  | .act _ => true
  | .begin => s.st.listening && s.busy && decide (s.st.spc = .sleeping)

def TState.step (P : K) (s : TState α K) (a : TAct α K) : TState α K :=
  if s.able P a then
    match a with
    | .wait d => { s with now := s.now + d }
    | .act a =>
      { st := s.st.step a, now := s.now, busy := s.busy || ends a, mark := if ends a then s.now else s.mark,
        stamped := s.stamped ++ ((s.st.step a).log.drop s.st.log.length).map fun e => (s.now, e) }
    | .begin => { s with busy := false, mark := s.now }
  else s

def TState.init (v : Option α) (t : K) : TState α K := ⟨.init v, t, false, t, []⟩

def TState.run (P : K) (s : TState α K) (as : List (TAct α K)) : TState α K := as.foldl (TState.step P) s

/-! ### Specification -/

def IsDelivery (e : K × Ev α) : Prop := ∃ x, e.2 = .deliver x

/-- The time of the oldest input that has not been delivered. -/
def oldest (l : List (K × Ev α)) : Option K :=
  l.foldl (fun o e => match e.2 with | .input _ => o.or (some e.1) | .deliver _ => none | .closed => none) none

/-- The event loop ends a sleep at most `ε` late, and a sample with its listeners and the start of the next task take at most `δ`. -/
def Punctual (P ε δ : K) : TState α K → List (TAct α K) → Prop
  | _, [] => True
  | s, a :: as => (∀ d, a = .wait d → s.now + d ≤ s.mark + if s.busy then δ else P + ε) ∧ Punctual P ε δ (s.step P a) as

/-- No period ends between the two steps of an input notification. -/
def TApart (P : K) : TState α K → List (TAct α K) → Prop
  | _, [] => True
  | s, a :: as => (a = .act .period → s.st.ipc matches .idle) ∧ TApart P (s.step P a) as

/-! ### Proofs -/

def added (s : State α) : Act α → List (Ev α)
  | .inputEnd => match s.ipc with | .half v => [.input v] | .idle => []
  | .fire => if s.spc = .fire then [.deliver s.pending] else []
  | .close => if s.listening then [.closed] else []
  | _ => []

theorem step_log (s : State α) (a : Act α) : (s.step a).log = s.log ++ added s a := by
  cases a with
  | input v => rcases step_input s v with e | e <;> rw [e] <;> simp [added]
  | inputEnd => cases hi : s.ipc <;> simp [State.step, added, hi]
  | period => simp only [State.step, added]; split <;> simp
  | store => simp only [State.step, added]; split <;> simp
  | fire => simp only [State.step, added]; split <;> simp
  | close => simp only [State.step, added]; split <;> simp

omit [IsOrderedAddMonoid K] in
theorem step_stamped (P : K) (s : TState α K) (a : Act α) (h : s.able P (.act a) = true) :
    s.step P (.act a) = ⟨s.st.step a, s.now, s.busy || ends a, if ends a then s.now else s.mark,
      s.stamped ++ (added s.st a).map fun e => (s.now, e)⟩ := by
  rw [TState.step, if_pos h, step_log, List.drop_left]

structure TInv (P : K) (s : TState α K) : Prop where
  mark : s.mark ≤ s.now
  past : ∀ e ∈ s.stamped, e.1 ≤ s.now
  asleep : s.busy = false → ∀ e ∈ s.stamped, IsDelivery e → e.1 ≤ s.mark
  awake : s.st.spc ≠ .sleeping → s.busy = true ∧ ∀ e ∈ s.stamped, IsDelivery e → e.1 + P ≤ s.mark
  apart : s.stamped.Pairwise fun a b => IsDelivery a → IsDelivery b → a.1 + P ≤ b.1

theorem tinv_step (P : K) (s : TState α K) (h : TInv P s) (a : TAct α K) : TInv P (s.step P a) := by
  by_cases hab : s.able P a = true
  swap
  · simp only [TState.step, hab]; exact h
  have more : ∀ e : Ev α, ∀ e' ∈ s.stamped ++ [(s.now, e)], e'.1 ≤ s.now := by
    intro e e' he'
    rcases List.mem_append.1 he' with h' | h'
    · exact h.past e' h'
    · rw [List.mem_singleton.1 h']
  have silent : ∀ (e : Ev α) (C : K × Ev α → Prop), ¬ IsDelivery (s.now, e) → (∀ e' ∈ s.stamped, IsDelivery e' → C e') →
      ∀ e' ∈ s.stamped ++ [(s.now, e)], IsDelivery e' → C e' := by
    intro e C he hC e' he' hd
    rcases List.mem_append.1 he' with h' | h'
    · exact hC e' h' hd
    · rw [List.mem_singleton.1 h'] at hd; exact absurd hd he
  have pw : ∀ e : Ev α, (IsDelivery (s.now, e) → ∀ e' ∈ s.stamped, IsDelivery e' → e'.1 + P ≤ s.now) →
      (s.stamped ++ [(s.now, e)]).Pairwise fun a b => IsDelivery a → IsDelivery b → a.1 + P ≤ b.1 := by
    intro e he
    rw [List.pairwise_append]
    refine ⟨h.apart, List.pairwise_singleton _ _, fun a ha b hb hda hdb => ?_⟩
    rw [List.mem_singleton.1 hb] at hdb ⊢
    exact he hdb a ha hda
  cases a with
  | wait d =>
    simp only [TState.step, hab, if_true]
    have hd : s.now ≤ s.now + d := le_add_of_nonneg_right (of_decide_eq_true hab)
    exact ⟨h.mark.trans hd, fun e he => (h.past e he).trans hd, h.asleep, h.awake, h.apart⟩
  | begin =>
    simp only [TState.step, hab, if_true]
    simp only [TState.able, Bool.and_eq_true, decide_eq_true_eq] at hab
    exact ⟨le_refl _, h.past, fun _ e he _ => h.past e he, fun hs => absurd hab.2 hs, h.apart⟩
  | act a =>
    rw [step_stamped P s a hab]
    cases a with
    | input v =>
      have hspc : (s.st.step (.input v)).spc = s.st.spc := by rcases step_input s.st v with e | e <;> rw [e]
      simp only [added, List.map_nil, List.append_nil, ends, Bool.or_false, Bool.false_eq_true, if_false]
      exact ⟨h.mark, h.past, h.asleep, fun hs => h.awake (by rwa [hspc] at hs), h.apart⟩
    | inputEnd =>
      cases hi : s.st.ipc with
      | idle =>
        simp only [added, hi, State.step, List.map_nil, List.append_nil, ends, Bool.or_false, Bool.false_eq_true, if_false]
        exact ⟨h.mark, h.past, h.asleep, h.awake, h.apart⟩
      | half v =>
        simp only [added, hi, State.step, List.map_cons, List.map_nil, ends, Bool.or_false, Bool.false_eq_true, if_false]
        have hn : ¬ IsDelivery ((s.now, .input v) : K × Ev α) := by simp [IsDelivery]
        exact ⟨h.mark, more _, fun hb => silent _ _ hn (h.asleep hb), fun hs => ⟨(h.awake hs).1, silent _ _ hn (h.awake hs).2⟩,
          pw _ fun hd => absurd hd hn⟩
    | period =>
      simp only [TState.able, Bool.and_eq_true, Bool.not_eq_true', decide_eq_true_eq] at hab
      obtain ⟨⟨_, hb⟩, hp⟩ := hab
      simp only [added, List.map_nil, List.append_nil, ends, Bool.or_true, if_true]
      exact ⟨le_refl _, h.past, by simp, fun _ => ⟨rfl, fun e he hd => (add_le_add_left (h.asleep hb e he hd) P).trans hp⟩, h.apart⟩
    | store =>
      simp only [added, List.map_nil, List.append_nil, ends, Bool.or_false, Bool.false_eq_true, if_false]
      refine ⟨h.mark, h.past, h.asleep, fun hs => h.awake ?_, h.apart⟩
      simp only [State.step] at hs
      split at hs
      · rename_i ht; simp [ht]
      · exact hs
    | fire =>
      by_cases hf : s.st.spc = .fire
      · simp only [added, hf, if_true, List.map_cons, List.map_nil, State.step, ends, Bool.or_false, Bool.false_eq_true, if_false]
        obtain ⟨hb, hd⟩ := h.awake (by simp [hf])
        exact ⟨h.mark, more _, fun hb' => absurd hb' (by simp [hb]), fun hs => absurd rfl hs,
          pw _ fun _ e he hde => (hd e he hde).trans h.mark⟩
      · simp only [added, hf, if_false, List.map_nil, List.append_nil, State.step, ends, Bool.or_false, Bool.false_eq_true]
        exact ⟨h.mark, h.past, h.asleep, h.awake, h.apart⟩
    | close =>
      have hn : ¬ IsDelivery ((s.now, .closed) : K × Ev α) := by simp [IsDelivery]
      by_cases hl : s.st.listening = true
      · simp only [added, hl, if_true, List.map_cons, List.map_nil, State.step, ends, Bool.or_false, Bool.false_eq_true, if_false]
        exact ⟨h.mark, more _, fun hb => silent _ _ hn (h.asleep hb), fun hs => ⟨(h.awake hs).1, silent _ _ hn (h.awake hs).2⟩,
          pw _ fun hd => absurd hd hn⟩
      · simp only [added, hl, if_false, List.map_nil, List.append_nil, State.step, ends, Bool.or_false, Bool.false_eq_true]
        exact ⟨h.mark, h.past, h.asleep, h.awake, h.apart⟩

theorem tinv_run (P : K) (v : Option α) (t : K) (as : List (TAct α K)) : TInv P ((TState.init v t).run P as) := by
  induction as using List.reverseRecOn with
  | nil => exact ⟨le_refl _, by simp [TState.run, TState.init], by simp [TState.run, TState.init], by simp [TState.run, TState.init, State.init], by simp [TState.run, TState.init]⟩
  | append_singleton as a ih =>
    rw [TState.run, List.foldl_append]; exact tinv_step P _ ih a

/-- C169: in every schedule the deliveries of a sample stream are at least a period apart. -/
theorem C169_sample_apart (P : K) (v : Option α) (t : K) (as : List (TAct α K)) (l₁ l₂ l₃ : List (K × Ev α)) (d₁ d₂ : K) (x y : Option α)
    (h : ((TState.init v t).run P as).stamped = l₁ ++ (d₁, .deliver x) :: l₂ ++ (d₂, .deliver y) :: l₃) : d₁ + P ≤ d₂ := by
  have hs := (tinv_run P v t as).apart
  rw [h, List.pairwise_append] at hs
  exact hs.2.2 (d₁, .deliver x) (by simp) (d₂, .deliver y) List.mem_cons_self ⟨x, rfl⟩ ⟨y, rfl⟩

omit [AddCommGroup K] [LinearOrder K] [IsOrderedAddMonoid K] in
theorem oldest_append (l : List (K × Ev α)) (e : K × Ev α) : oldest (l ++ [e]) =
    match e.2 with | .input _ => (oldest l).or (some e.1) | .deliver _ => none | .closed => none := by
  rw [oldest, List.foldl_append]; rfl

structure DInv (P ε δ : K) (s : TState α K) : Prop where
  mark : s.mark ≤ s.now
  due : s.st.listening = true → s.now ≤ s.mark + if s.busy then δ else P + ε
  awake : s.st.spc ≠ .sleeping → s.busy = true
  half : ∀ v, s.st.ipc = .half v → s.st.dirty = true
  /-- asleep -/
  asleep : s.st.listening = true → ∀ u, oldest s.stamped = some u → s.busy = false → s.st.dirty = true ∧ s.mark ≤ u + δ
  /-- a delivery is under way -/
  coming : s.st.listening = true → ∀ u, oldest s.stamped = some u → s.st.spc ≠ .sleeping → s.mark ≤ u + δ + (P + ε)
  /-- done, the next task has not started -/
  done : s.st.listening = true → ∀ u, oldest s.stamped = some u → s.busy = true → s.st.spc = .sleeping → s.st.dirty = true ∧ s.mark ≤ u

theorem dinv_step (P ε δ : K) (hP : 0 ≤ P + ε) (hδ : 0 ≤ δ) (s : TState α K) (h : DInv P ε δ s) (a : TAct α K)
    (hp : ∀ d, a = .wait d → s.now + d ≤ s.mark + if s.busy then δ else P + ε)
    (ha : a = .act .period → s.st.ipc matches .idle) : DInv P ε δ (s.step P a) := by
  by_cases hab : s.able P a = true
  swap
  · simp only [TState.step, hab]; exact h
  cases a with
  | wait d =>
    simp only [TState.step, hab, if_true]
    exact ⟨h.mark.trans (le_add_of_nonneg_right (of_decide_eq_true hab)), fun _ => hp d rfl, h.awake, h.half, h.asleep, h.coming, h.done⟩
  | begin =>
    simp only [TState.step, hab, if_true]
    simp only [TState.able, Bool.and_eq_true, decide_eq_true_eq] at hab
    obtain ⟨⟨hl, hb⟩, hs⟩ := hab
    refine ⟨le_refl _, ?_, fun h' => absurd hs h', h.half, ?_, fun _ _ _ h' => absurd hs h', by simp⟩
    · intro _
      simpa using hP
    · intro _ u hu _
      obtain ⟨h1, h2⟩ := h.done hl u hu hb hs
      have := h.due hl
      rw [if_pos hb] at this
      exact ⟨h1, this.trans (add_le_add_left h2 δ)⟩
  | act a =>
    rw [step_stamped P s a hab]
    cases a with
    | input v =>
      simp only [added, List.map_nil, List.append_nil, ends, Bool.or_false, Bool.false_eq_true, if_false]
      rcases step_input s.st v with e | e <;> rw [e]
      · exact ⟨h.mark, h.due, h.awake, fun _ _ => rfl, fun hl u hu hb => ⟨rfl, (h.asleep hl u hu hb).2⟩, h.coming,
          fun hl u hu hb hs => ⟨rfl, (h.done hl u hu hb hs).2⟩⟩
      · exact h
    | inputEnd =>
      cases hi : s.st.ipc with
      | idle =>
        simp only [added, hi, State.step, List.map_nil, List.append_nil, ends, Bool.or_false, Bool.false_eq_true, if_false]
        exact h
      | half v =>
        simp only [added, hi, State.step, List.map_cons, List.map_nil, ends, Bool.or_false, Bool.false_eq_true, if_false]
        have hd := h.half v hi
        have old : ∀ u, oldest (s.stamped ++ [(s.now, .input v)]) = some u → oldest s.stamped = some u ∨ u = s.now := by
          intro u hu
          rw [oldest_append] at hu
          cases ho : oldest s.stamped with
          | none => rw [ho] at hu; right; simpa using hu.symm
          | some w => rw [ho] at hu; left; simpa using hu
        refine ⟨h.mark, h.due, h.awake, by simp, ?_, ?_, ?_⟩
        · intro hl u hu hb
          refine ⟨hd, ?_⟩
          rcases old u hu with hu | rfl
          · exact (h.asleep hl u hu hb).2
          · exact h.mark.trans (le_add_of_nonneg_right hδ)
        · intro hl u hu hs
          rcases old u hu with hu | rfl
          · exact h.coming hl u hu hs
          · exact h.mark.trans ((le_add_of_nonneg_right hδ).trans (le_add_of_nonneg_right hP))
        · intro hl u hu hb hs
          refine ⟨hd, ?_⟩
          rcases old u hu with hu | rfl
          · exact (h.done hl u hu hb hs).2
          · exact h.mark
    | period =>
      simp only [TState.able, Bool.and_eq_true, Bool.not_eq_true', decide_eq_true_eq] at hab
      obtain ⟨⟨hl, hb⟩, _⟩ := hab
      have hs : s.st.spc = .sleeping := by
        by_contra hs
        rw [h.awake hs] at hb
        cases hb
      have hidle : s.st.ipc = .idle := by
        have := ha rfl
        revert this
        cases s.st.ipc <;> simp
      have hdue := h.due hl
      simp only [hb, Bool.false_eq_true, if_false] at hdue
      simp only [added, List.map_nil, List.append_nil, ends, Bool.or_true, if_true, State.step, hl, hs, true_and]
      refine ⟨le_refl _, fun _ => le_add_of_nonneg_right hδ, by simp, by simp [hidle], by simp, ?_, ?_⟩
      · intro _ u hu _
        obtain ⟨_, h2⟩ := h.asleep hl u hu hb
        exact hdue.trans (add_le_add_left h2 _)
      · intro _ u hu _ hs'
        obtain ⟨h1, _⟩ := h.asleep hl u hu hb
        simp [h1] at hs'
    | store =>
      simp only [added, List.map_nil, List.append_nil, ends, Bool.or_false, Bool.false_eq_true, if_false]
      by_cases ht : s.st.spc = .taken
      · simp only [State.step, ht, if_true]
        have hne : s.st.spc ≠ .sleeping := by simp [ht]
        exact ⟨h.mark, h.due, fun _ => h.awake hne, h.half, h.asleep, fun hl u hu _ => h.coming hl u hu hne, by simp⟩
      · simp only [State.step, ht, if_false]
        exact h
    | fire =>
      by_cases hf : s.st.spc = .fire
      · simp only [added, hf, if_true, List.map_cons, List.map_nil, State.step, ends, Bool.or_false, Bool.false_eq_true, if_false]
        exact ⟨h.mark, h.due, by simp, h.half, by simp [oldest_append], by simp, by simp [oldest_append]⟩
      · simp only [added, hf, if_false, List.map_nil, List.append_nil, State.step, ends, Bool.or_false, Bool.false_eq_true]
        exact h
    | close =>
      by_cases hl : s.st.listening = true
      · simp only [added, hl, if_true, List.map_cons, List.map_nil, State.step, ends, Bool.or_false, Bool.false_eq_true, if_false]
        exact ⟨h.mark, by simp, h.awake, h.half, by simp, by simp, by simp⟩
      · simp only [added, hl, if_false, List.map_nil, List.append_nil, State.step, ends, Bool.or_false, Bool.false_eq_true]
        exact h

/-- C169, in time, if no period ends in the middle of an input notification (from another thread), sleeps end at most `ε` late and a
sample takes at most `δ`: while the stream is open, no input waits longer than a period, `ε` and twice `δ` for a delivery.
(Otherwise: C42_counterexample.) -/
theorem C169_sample_within_partial (P ε δ : K) (hP : 0 ≤ P + ε) (hδ : 0 ≤ δ) (v : Option α) (t : K) (as : List (TAct α K))
    (hp : Punctual P ε δ (TState.init v t) as) (ha : TApart P (TState.init v t) as)
    (hl : ((TState.init v t).run P as).st.listening = true) (u : K) (hu : oldest ((TState.init v t).run P as).stamped = some u) :
    ((TState.init v t).run P as).now ≤ u + (P + ε) + δ + δ := by
  suffices key : ∀ (as : List (TAct α K)) (s : TState α K), DInv P ε δ s → Punctual P ε δ s as → TApart P s as → DInv P ε δ (s.run P as) by
    have h := key as _ ⟨le_refl _, ?_, ?_, ?_, ?_, ?_, ?_⟩ hp ha
    · have hdue := h.due hl
      by_cases hb : ((TState.init v t).run P as).busy = true
      · rw [if_pos hb] at hdue
        by_cases hs : ((TState.init v t).run P as).st.spc = .sleeping
        · have := (h.done hl u hu hb hs).2
          refine hdue.trans ?_
          refine add_le_add_left (this.trans ?_) δ
          exact (le_add_of_nonneg_right hP).trans (le_add_of_nonneg_right hδ)
        · have := h.coming hl u hu hs
          refine hdue.trans (add_le_add_left (this.trans (le_of_eq ?_)) δ)
          abel
      · rw [if_neg hb] at hdue
        have := (h.asleep hl u hu (by simpa using hb)).2
        refine hdue.trans ((add_le_add_left this _).trans ?_)
        rw [add_right_comm u δ]
        exact le_add_of_nonneg_right hδ
    · intro _
      simpa [TState.init] using hP
    · simp [TState.init, State.init]
    · simp [TState.init, State.init]
    · simp [TState.init, oldest]
    · simp [TState.init, oldest]
    · simp [TState.init, oldest]
  intro as
  induction as with
  | nil => exact fun s h _ _ => h
  | cons a as ih =>
    intro s h hp ha
    exact ih _ (dinv_step P ε δ hP hδ s h a hp.1 ha.1) hp.2 ha.2

/-- a period of 10 -/
example : ((TState.init (some 5) (0 : ℤ)).run 10 [.wait 3, .act (.input 1), .act .inputEnd, .act .period, .wait 8, .act .period, .act .store, .act .fire,
    .act (.input 2), .act .inputEnd, .wait 1, .begin, .wait 9, .act .period, .wait 1, .act .period, .act .store, .act .fire]).stamped =
    [(3, .input 1), (11, .deliver (some 1)), (11, .input 2), (22, .deliver (some 2))] := by decide

/-- a schedule in time -/
example : Punctual 10 1 2 (TState.init (some 5) (0 : ℤ)) [.wait 11, .act .period, .wait 1, .act .store, .act .fire, .wait 1, .begin, .wait 10] ∧
    TApart 10 (TState.init (some 5) (0 : ℤ)) [.wait 11, .act .period, .wait 1, .act .store, .act .fire, .wait 1, .begin, .wait 10] := by
  simp only [Punctual, TApart, TAct.wait.injEq, reduceCtorEq, false_implies, forall_const, forall_eq', and_true, true_and, TAct.act.injEq]
  decide

end Verif.Stream.Sample
