import Mathlib.Data.List.Perm.Basic
import Verif.Registry.Props

/-!
C129: listeners that call the registry while they are told about a change (`nion/utils/Registry.py:53-71`, `nion/utils/Event.py:107-118`).

Each of `n` listeners listens to both events; they are called in the order in which they were added. A call of the registry changes it, and
then its event is fired, in the middle of the listener that made the call; the events which are being fired form a stack. A listener may
make any calls, so an execution is any list of actions in which calls come from the program (nothing is being fired) or from the
listener called last. An exception that leaves a listener ends the fire (it is printed). Listeners do not change while events are fired
(see C11, C12 for that).
-/

namespace Verif.Registry

open Verif.Py

section
variable {C T : Type*} [DecidableEq C] [DecidableEq T]

set_option linter.unusedSectionVars false

/-- The registry, the events being fired (the innermost first) with the number of listeners called so far, and what each listener was
told. -/
structure Live (C T : Type*) where
  reg : Reg C T
  stack : List (Ev C T × Nat)
  told : Nat → List (Ev C T)

def Live.init : Live C T := ⟨Reg.init, [], fun _ => []⟩

inductive Act (C T : Type*) where
  /-- the program or the running listener calls the registry -/
  | call (op : Op C T)
  /-- the running listener returns and the next one is called, or the fire ends -/
  | next
  /-- the running listener raises -/
  | raise

/-- The event that a step of the registry fired. -/
def fired (s s' : Reg C T) : Option (Ev C T) := s'.log[s.log.length]?

def Live.step (n : Nat) (s : Live C T) : Act C T → Live C T
  | .call op =>
    match s.stack with
    | (_, 0) :: _ => s -- the first listener is called right away
    | st =>
      let r := (s.reg.step op).1
      match fired s.reg r with
      | some e => { s with reg := r, stack := (e, 0) :: st }
      | none => { s with reg := r }
  | .next =>
    match s.stack with
    | [] => s
    | (e, i) :: st =>
      if i < n then { s with stack := (e, i + 1) :: st, told := fun k => if k = i then s.told k ++ [e] else s.told k }
      else { s with stack := st }
  | .raise =>
    match s.stack with
    | (_, _ + 1) :: st => { s with stack := st }
    | _ => s

def Live.run (n : Nat) (s : Live C T) (as : List (Act C T)) : Live C T := as.foldl (Live.step n) s

/-! ### Specification -/

/-- A listener's copy, kept with what it is told. -/
def replay : List (Ev C T) → T → Finset C
  | es => es.foldl (fun f e => match e with
      | .registered c ts => fun t => if t ∈ ts then insert c (f t) else f t
      | .unregistered c ts => fun t => if t ∈ ts then (f t).erase c else f t) (fun _ => ∅)

/-- The types are given in every call of `unregister` (without them the event reports no types, C30). -/
def Explicit : Act C T → Prop
  | .call (.unregister _ none) => False
  | _ => True

/-- The listener called last, plus one; 0 if the program runs. -/
def Live.running (s : Live C T) : Nat := (s.stack.head?.map Prod.snd).getD 0

/-- No call is made by a listener before the listener `k`, and none of these raises (if no listener was called yet, nothing happens but
that the first one is called). -/
def Quiet (n k : Nat) : Live C T → List (Act C T) → Prop
  | _, [] => True
  | s, a :: as => (match a with
      | .next => True
      | _ => s.stack = [] ∨ s.running = 0 ∨ k < s.running) ∧ Quiet n k (s.step n a) as

/-! ### The log of the registry -/

theorem step_log_cases (s : Reg C T) (op : Op C T) : (s.step op).1.log = s.log ∨ ∃ e, (s.step op).1.log = s.log ++ [e] := by
  cases op with
  | register c ts => simp only [Reg.step, Reg.register]; split <;> simp
  | unregister c ts =>
    have ht : ∀ (ts : Finset T) (b : Bool), (s.unregisterTypes c ts b).1.log = s.log ∨
        ∃ e, (s.unregisterTypes c ts b).1.log = s.log ++ [e] := by
      intro ts b
      unfold Reg.unregisterTypes
      split
      · cases h : s.types c <;> simp [h]
      · exact .inl rfl
    cases ts with
    | some ts => exact ht ts false
    | none =>
      simp only [Reg.step, Reg.unregister]
      cases h : s.types c with
      | none => exact .inl rfl
      | some own => exact ht own true

theorem fired_cases (s : Reg C T) (op : Op C T) :
    (fired s (s.step op).1 = none ∧ (s.step op).1.log = s.log) ∨
      ∃ e, fired s (s.step op).1 = some e ∧ (s.step op).1.log = s.log ++ [e] := by
  unfold fired
  rcases step_log_cases s op with h | ⟨e, h⟩
  · left; rw [h]; simp
  · right; exact ⟨e, by rw [h]; simp, h⟩

theorem replay_append (es : List (Ev C T)) (e : Ev C T) (t : T) :
    replay (es ++ [e]) t = match e with
      | .registered c ts => if t ∈ ts then insert c (replay es t) else replay es t
      | .unregistered c ts => if t ∈ ts then (replay es t).erase c else replay es t := by
  unfold replay
  rw [List.foldl_append]
  cases e <;> rfl

theorem replay_log (s : Reg C T) (hi : Inv s) (h : ∀ t, replay s.log t = s.components t) (op : Op C T) (ho : Explicit (Act.call op)) :
    ∀ t, replay (s.step op).1.log t = (s.step op).1.components t := by
  intro t
  cases op with
  | register c ts =>
    simp only [Reg.step, Reg.register]
    split
    · simp only [replay_append, h, Reg.components]
    · exact h t
  | unregister c ts =>
    cases ts with
    | none => exact absurd ho (by simp [Explicit])
    | some ts =>
      simp only [Reg.step, Reg.unregister, Reg.unregisterTypes]
      split
      · rename_i hm
        cases hc : s.types c with
        | none =>
          have : ts = ∅ := by
            rw [Finset.eq_empty_iff_forall_notMem]
            intro t' ht'
            have := (hi c t').1 (hm t' ht')
            simp [hc] at this
          subst this
          simpa [hc, Reg.components] using h t
        | some own => simp only [replay_append, h, Reg.components]; rfl
      · exact h t

/-- What the listener `k` has still to be told, in the order of the changes. -/
def Live.pending (s : Live C T) (k : Nat) : List (Ev C T) := (s.stack.reverse.filter (fun f => f.2 ≤ k)).map Prod.fst

theorem pending_cons (e : Ev C T) (i : Nat) (st : List (Ev C T × Nat)) (r : Reg C T) (f : Nat → List (Ev C T)) (k : Nat) :
    (Live.mk r ((e, i) :: st) f).pending k = (Live.mk r st f).pending k ++ if i ≤ k then [e] else [] := by
  unfold Live.pending
  simp only [List.reverse_cons, List.filter_append, List.map_append]
  congr 1
  by_cases h : i ≤ k <;> simp [h]

theorem pending_told (st : List (Ev C T × Nat)) (r : Reg C T) (f g : Nat → List (Ev C T)) (k : Nat) :
    (Live.mk r st f).pending k = (Live.mk r st g).pending k := rfl

/-- Every listener will have been told of every change once. -/
def Told (n : Nat) (s : Live C T) : Prop := ∀ k < n, (s.told k ++ s.pending k).Perm s.reg.log

theorem told_step (n : Nat) (s : Live C T) (h : Told n s) (a : Act C T) (ha : a ≠ .raise) : Told n (s.step n a) := by
  obtain ⟨r, st, f⟩ := s
  intro k hk
  have hkk := h k hk
  cases a with
  | raise => exact absurd rfl ha
  | call op =>
    have push : ∀ x : Live C T, x = (match fired r (r.step op).1 with
        | some e => Live.mk (r.step op).1 ((e, 0) :: st) f
        | none => Live.mk (r.step op).1 st f) → (x.told k ++ x.pending k).Perm x.reg.log := by
      intro x hx
      rcases fired_cases r op with ⟨h1, h2⟩ | ⟨e, h1, h2⟩
      · rw [h1] at hx; subst hx
        simp only [h2]; exact hkk
      · rw [h1] at hx; subst hx
        simp only [h2, pending_cons, Nat.zero_le, if_true, ← List.append_assoc]
        exact List.Perm.append_right _ hkk
    match st, hkk, push with
    | [], hkk, push => exact push _ rfl
    | (e, 0) :: st, hkk, _ => exact hkk
    | (e, i + 1) :: st, hkk, push => exact push _ rfl
  | next =>
    match st, hkk with
    | [], hkk => exact hkk
    | (e, i) :: st, hkk =>
      simp only [pending_cons] at hkk
      simp only [Live.step]
      by_cases hi : i < n
      · rw [if_pos hi]
        simp only [pending_cons]
        by_cases hki : k = i
        · subst hki
          simp only [if_true, le_refl, show ¬ k + 1 ≤ k by omega, if_false, List.append_nil] at hkk ⊢
          refine List.Perm.trans ?_ hkk
          rw [List.append_assoc]
          exact List.Perm.append_left _ List.perm_append_comm
        · have : i + 1 ≤ k ↔ i ≤ k := by omega
          simp only [if_neg hki, this]
          rw [pending_told st r _ f]; exact hkk
      · rw [if_neg hi]
        rw [if_neg (by omega), List.append_nil] at hkk
        exact hkk

/-- C129: when the calls have returned, every listener was told of every change exactly once, if no listener raises. -/
theorem C129_once_partial (n : Nat) (as : List (Act C T)) (hr : .raise ∉ as) (k : Nat) (hk : k < n)
    (hs : ((Live.init : Live C T).run n as).stack = []) :
    (((Live.init : Live C T).run n as).told k).Perm ((Live.init : Live C T).run n as).reg.log := by
  have : ∀ (as : List (Act C T)) (s : Live C T), Told n s → .raise ∉ as → Told n (s.run n as) := by
    intro as
    induction as with
    | nil => intro s h _; exact h
    | cons a as ih =>
      intro s h hr
      exact ih _ (told_step n s h a (fun hh => hr (by simp [hh]))) (fun hh => hr (List.mem_cons_of_mem _ hh))
  have h := this as Live.init (fun k _ => by simp [Live.init, Live.pending, Reg.init]) hr k hk
  rw [Live.pending, hs] at h
  simpa using h

/-- Listener `k` is behind by the innermost event at most. -/
def InOrder (k : Nat) (s : Live C T) : Prop :=
  s.told k ++ s.pending k = s.reg.log ∧ ∀ f ∈ s.stack.tail, k < f.2

theorem order_step (n k : Nat) (hk : k < n) (s : Live C T) (h : InOrder k s) (a : Act C T)
    (ha : a = .next ∨ s.stack = [] ∨ s.running = 0 ∨ k < s.running) : InOrder k (s.step n a) := by
  obtain ⟨r, st, f⟩ := s
  obtain ⟨h1, h2⟩ := h
  have tail : ∀ st' : List (Ev C T × Nat), (∀ f ∈ st', k < f.2) → ∀ f ∈ st'.tail, k < f.2 := fun st' h f hf => h f (List.mem_of_mem_tail hf)
  cases a with
  | raise =>
    match st, h1, h2, ha with
    | [], h1, h2, _ => exact ⟨h1, h2⟩
    | (e, 0) :: st, h1, h2, _ => exact ⟨h1, h2⟩
    | (e, i + 1) :: st, h1, h2, ha =>
      have hi : k < i + 1 := by simpa [Live.running] using ha
      simp only [Live.step]
      rw [pending_cons, if_neg (by omega), List.append_nil] at h1
      exact ⟨h1, tail st h2⟩
  | call op =>
    have push : (∀ f ∈ st, k < f.2) → ∀ x : Live C T, x = (match fired r (r.step op).1 with
        | some e => Live.mk (r.step op).1 ((e, 0) :: st) f
        | none => Live.mk (r.step op).1 st f) → InOrder k x := by
      intro hst x hx
      rcases fired_cases r op with ⟨h3, h4⟩ | ⟨e, h3, h4⟩
      · rw [h3] at hx; subst hx
        exact ⟨by simp only [h4]; exact h1, h2⟩
      · rw [h3] at hx; subst hx
        refine ⟨?_, hst⟩
        simp only [h4, pending_cons, Nat.zero_le, if_true, ← List.append_assoc]
        rw [← h1]; rfl
    match st, h1, h2, ha, push with
    | [], _, _, _, push => exact push (by simp) _ rfl
    | (e, 0) :: st, h1, h2, _, _ => exact ⟨h1, h2⟩
    | (e, i + 1) :: st, h1, h2, ha, push =>
      have hi : k < i + 1 := by simpa [Live.running] using ha
      refine push ?_ _ rfl
      intro f hf
      rcases List.mem_cons.1 hf with rfl | hf
      · exact hi
      · exact h2 f hf
  | next =>
    match st, h1, h2 with
    | [], h1, h2 => exact ⟨h1, h2⟩
    | (e, i) :: st, h1, h2 =>
      have hp : (Live.mk r st f).pending k = [] := by
        unfold Live.pending
        simp only [List.map_eq_nil_iff, List.filter_eq_nil_iff, List.mem_reverse, decide_eq_true_eq, not_le]
        exact h2
      rw [pending_cons, hp, List.nil_append] at h1
      simp only [Live.step]
      by_cases hi : i < n
      · rw [if_pos hi]
        refine ⟨?_, h2⟩
        rw [pending_cons, pending_told st r _ f, hp, List.nil_append]
        by_cases hki : k = i
        · subst hki
          simpa using h1
        · have : i + 1 ≤ k ↔ i ≤ k := by omega
          simpa only [if_neg hki, this] using h1
      · rw [if_neg hi]
        rw [if_neg (by omega), List.append_nil] at h1
        exact ⟨by rw [show (Live.mk r st f).pending k = [] from hp, List.append_nil]; exact h1, tail st h2⟩

theorem reg_step (n : Nat) (s : Live C T) (a : Act C T) (P : Reg C T → Prop) (h : P s.reg) (hc : ∀ op, a = .call op → P (s.reg.step op).1) :
    P (s.step n a).reg := by
  obtain ⟨r, st, f⟩ := s
  cases a with
  | call op =>
    have push : P ((match fired r (r.step op).1 with
        | some e => Live.mk (r.step op).1 ((e, 0) :: st) f
        | none => Live.mk (r.step op).1 st f) : Live C T).reg := by
      have := hc op rfl
      split <;> exact this
    match st, push with
    | [], push => exact push
    | (e, 0) :: st, _ => exact h
    | (e, i + 1) :: st, push => exact push
  | next =>
    match st with
    | [] => exact h
    | (e, i) :: st =>
      simp only [Live.step]
      split <;> exact h
  | raise =>
    match st with
    | [] => exact h
    | (e, 0) :: st => exact h
    | (e, i + 1) :: st => exact h

/-- C129: a listener's copy is the registry whenever the listener has been told of the last change, in particular while it runs and when
the calls have returned, if no listener before it calls the registry or raises. -/
theorem C129_copy_partial (n k : Nat) (hk : k < n) (as : List (Act C T)) (hq : Quiet n k (Live.init : Live C T) as)
    (he : ∀ a ∈ as, Explicit a)
    (hs : ((Live.init : Live C T).run n as).stack = [] ∨ k < ((Live.init : Live C T).run n as).running) (t : T) :
    replay (((Live.init : Live C T).run n as).told k) t = ((Live.init : Live C T).run n as).reg.components t := by
  have key : ∀ (as : List (Act C T)) (s : Live C T), InOrder k s → Inv s.reg → (∀ t, replay s.reg.log t = s.reg.components t) →
      Quiet n k s as → (∀ a ∈ as, Explicit a) →
      InOrder k (s.run n as) ∧ ∀ t, replay (s.run n as).reg.log t = (s.run n as).reg.components t := by
    intro as
    induction as with
    | nil => intro s h _ hr _ _; exact ⟨h, hr⟩
    | cons a as ih =>
      intro s h hi hr hq he
      refine ih (s.step n a) (order_step n k hk s h a ?_) (reg_step n s a Inv hi (fun op _ => (step_spec hi op).1))
        (reg_step n s a (fun r => ∀ t, replay r.log t = r.components t) hr
          (fun op ha => replay_log _ hi hr op (ha ▸ he a (by simp)))) hq.2 (fun b hb => he b (List.mem_cons_of_mem _ hb))
      cases a with
      | next => exact .inl rfl
      | call op => exact .inr hq.1
      | raise => exact .inr hq.1
  obtain ⟨h1, h2⟩ := key as Live.init ⟨by simp [Live.init, Live.pending, Reg.init], by simp [Live.init]⟩ Inv.init
    (by intro t; rfl) hq he
  rw [← h2 t, ← h1.1]
  have hp : ((Live.init : Live C T).run n as).pending k = [] := by
    unfold Live.pending
    simp only [List.map_eq_nil_iff, List.filter_eq_nil_iff, List.mem_reverse, decide_eq_true_eq, not_le]
    intro f hf
    rcases hs with hs | hs
    · rw [hs] at hf; simp at hf
    · unfold Live.running at hs
      cases hst : ((Live.init : Live C T).run n as).stack with
      | nil => rw [hst] at hf; simp at hf
      | cons g st =>
        rw [hst] at hf hs
        have h3 := h1.2
        rw [hst] at h3
        rcases List.mem_cons.1 hf with rfl | hf
        · simpa using hs
        · exact h3 f hf
  rw [hp, List.append_nil]

theorem quiet_zero (n : Nat) (s : Live C T) (as : List (Act C T)) : Quiet n 0 s as := by
  induction as generalizing s with
  | nil => trivial
  | cons a as ih =>
    refine ⟨?_, ih _⟩
    cases a with
    | next => trivial
    | call op => exact .inr (Nat.eq_zero_or_pos _)
    | raise => exact .inr (Nat.eq_zero_or_pos _)

/-- C129: whatever the listeners do, the copy of the first one is the registry while it runs and when the calls have returned. (Calls of
`unregister` without types are excluded, see C30.) -/
theorem C129_first_partial (n : Nat) (hn : 0 < n) (as : List (Act C T)) (he : ∀ a ∈ as, Explicit a)
    (hs : ((Live.init : Live C T).run n as).stack = [] ∨ 0 < ((Live.init : Live C T).run n as).running) (t : T) :
    replay (((Live.init : Live C T).run n as).told 0) t = ((Live.init : Live C T).run n as).reg.components t :=
  C129_copy_partial n 0 hn as (quiet_zero n _ as) he hs t

end

/-- The first of two listeners unregisters a component as soon as it is registered: the second one is told that it was unregistered before
it is told that it was registered, and its copy has the component for ever. -/
theorem C129_counterexample_order :
    let s : Live Nat Nat := Live.init.run 2 [.call (.register 7 {0}), .next, .call (.unregister 7 (some {0})), .next, .next, .next, .next, .next]
    s.stack = [] ∧ s.told 0 = [.registered 7 {0}, .unregistered 7 {0}] ∧ s.told 1 = [.unregistered 7 {0}, .registered 7 {0}] ∧
      s.reg.components 0 = ∅ ∧ replay (s.told 1) 0 = {7} := by
  decide

/-- The first of two listeners tries to register the component again, the exception ends the fire, and the second listener is not told. -/
theorem C129_counterexample_raises :
    let s : Live Nat Nat := Live.init.run 2 [.call (.register 7 {0}), .next, .call (.register 7 {0}), .raise]
    s.stack = [] ∧ s.told 0 = [.registered 7 {0}] ∧ s.told 1 = [] ∧ s.reg.components 0 = {7} := by
  decide

/-- The second listener registers another component: both copies are right. -/
example : let s : Live Nat Nat := Live.init.run 2 [.call (.register 7 {0}), .next, .next, .call (.register 8 {0, 1}), .next, .next, .next, .next]
    s.stack = [] ∧ (∀ k < 2, ∀ t, replay (s.told k) t = s.reg.components t) ∧ s.reg.components 0 = {7, 8} := by
  refine ⟨by decide, fun k hk t => ?_, by decide⟩
  refine C129_copy_partial 2 k hk _ ?_ (by simp [Explicit]) (.inl (by decide)) t
  refine ⟨.inl rfl, trivial, trivial, ?_, trivial, trivial, trivial, trivial, trivial⟩
  exact .inr (.inr (by simpa [Live.running, Live.step, Live.init, Reg.step, Reg.register, fired, Reg.init] using hk))

end Verif.Registry
