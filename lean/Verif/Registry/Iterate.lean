import Verif.Registry.Props

/-!
C116: going over the components of a type while the registry is changed. `get_components_by_type` (`nion/utils/Registry.py:50-51`) returns
the set that the registry itself changes, and `fire_existing_component_registered_events` (120-122) iterates over it while listeners run.
Python's set iterator compares the size of the set with the size at the beginning at each step, also at the last one, and raises
RuntimeError if it differs; if elements were added or removed meanwhile but the size is the same again, what is visited is unspecified.
-/

namespace Verif.Registry

open Verif.Py

section
variable {C T : Type*} [DecidableEq C] [DecidableEq T]

/-- How a loop over a set ends. -/
inductive Visit (C T : Type*) where
  | done (s : Reg C T) (seen : List C)
  /-- RuntimeError: set changed size during iteration -/
  | raised (s : Reg C T) (seen : List C)
  | unspecified

/-- No call adds to or removes from the set for `t`. -/
def keeps (t : T) : Reg C T → List (Op C T) → Bool
  | _, [] => true
  | s, op :: ops => decide ((s.step op).1.components t = s.components t) && keeps t (s.step op).1 ops

/-- `for c in components: body(c)` with the set for type `t`, which had `n` elements when the loop began. `before` is what happens first
for a component (the event), `body` is what the loop or the listeners call; `same` says that the set was left alone so far. -/
def visit (before : Reg C T → C → Reg C T) (body : Reg C T → C → List (Op C T)) (t : T) (n : Nat) :
    List C → Reg C T → List C → Bool → Visit C T
  | cs, s, seen, same =>
    if (s.components t).card ≠ n then .raised s seen
    else if !same then .unspecified
    else match cs with
      | [] => .done s seen
      | c :: cs => visit before body t n cs ((before s c).run (body (before s c) c)) (seen ++ [c])
          (keeps t (before s c) (body (before s c) c))

/-- The loop over `get_components_by_type(t)`. -/
def Reg.forEach (s : Reg C T) (ord : IterOrder C) (t : T) (body : Reg C T → C → List (Op C T)) : Visit C T :=
  visit (fun s _ => s) body t (s.components t).card (ord.f (s.components t)) s [] true

/-- The event that announces the component `c`. -/
def announced (t : T) (s : Reg C T) (c : C) : Reg C T := { s with log := s.log ++ [.registered c {t}] }

/-- Lines 120-122: the event is fired for each component, then its listeners run. -/
def Reg.announce (s : Reg C T) (ord : IterOrder C) (t : T) (listeners : Reg C T → C → List (Op C T)) : Visit C T :=
  visit (announced t) listeners t (s.components t).card (ord.f (s.components t)) s [] true

/-! ### C116 -/

/-- All calls made for the components of `cs`, one after the other. -/
def runAll (before : Reg C T → C → Reg C T) (body : Reg C T → C → List (Op C T)) : List C → Reg C T → Reg C T
  | [], s => s
  | c :: cs, s => runAll before body cs ((before s c).run (body (before s c) c))

theorem keeps_run {t : T} {s : Reg C T} {ops : List (Op C T)} (h : keeps t s ops = true) :
    (s.run ops).components t = s.components t := by
  induction ops generalizing s with
  | nil => rfl
  | cons op ops ih =>
    simp only [keeps, Bool.and_eq_true, decide_eq_true_eq] at h
    exact (ih h.2).trans h.1

/-- The calls for the components before `c` leave the set alone. -/
def KeepsAll (before : Reg C T → C → Reg C T) (body : Reg C T → C → List (Op C T)) (t : T) : List C → Reg C T → Prop
  | [], _ => True
  | c :: cs, s => keeps t (before s c) (body (before s c) c) = true ∧
      KeepsAll before body t cs ((before s c).run (body (before s c) c))

theorem visit_keeps (before : Reg C T → C → Reg C T) (hb : ∀ s c t, (before s c).components t = s.components t)
    (body : Reg C T → C → List (Op C T)) (t : T) (n : Nat) (cs : List C) (s : Reg C T) (seen : List C)
    (hn : (s.components t).card = n) (h : KeepsAll before body t cs s) :
    visit before body t n cs s seen true = .done (runAll before body cs s) (seen ++ cs) := by
  induction cs generalizing s seen with
  | nil => unfold visit; simp [hn, runAll]
  | cons c cs ih =>
    obtain ⟨h1, h2⟩ := h
    unfold visit
    rw [if_neg (not_not.2 hn), if_neg (by simp)]
    change visit before body t n cs ((before s c).run (body (before s c) c)) (seen ++ [c])
      (keeps t (before s c) (body (before s c) c)) = _
    rw [h1, ih _ _ (by rw [keeps_run h1, hb]; exact hn) h2]
    simp [runAll]

/-- C116, the part that holds: if no call made in the loop adds or removes a component of the type, the loop visits every component of
the type exactly once and ends; calls for other types are free. (Missing: calls for the type, after which it raises.) -/
theorem C116_visits_partial (s : Reg C T) (ord : IterOrder C) (t : T) (body : Reg C T → C → List (Op C T))
    (h : KeepsAll (fun s _ => s) body t (ord.f (s.components t)) s) :
    ∃ seen : List C, seen.Nodup ∧ (∀ c, c ∈ seen ↔ c ∈ s.components t) ∧
      s.forEach ord t body = .done (runAll (fun s _ => s) body seen s) seen :=
  ⟨ord.f (s.components t), ord.nodup _, ord.mem _, by
    unfold Reg.forEach
    rw [visit_keeps _ (fun _ _ _ => rfl) body t _ _ s [] rfl h]
    simp⟩

theorem step_log (s : Reg C T) (op : Op C T) : s.log <+: (s.step op).1.log := by
  cases op with
  | register c ts => simp only [Reg.step, Reg.register]; split <;> simp
  | unregister c ts =>
    have ht : ∀ (ts : Finset T) (b : Bool), s.log <+: (s.unregisterTypes c ts b).1.log := by
      intro ts b
      unfold Reg.unregisterTypes
      split
      · cases h : s.types c <;> simp [h]
      · exact List.prefix_rfl
    cases ts with
    | some ts => exact ht ts false
    | none =>
      simp only [Reg.step, Reg.unregister]
      cases h : s.types c with
      | none => exact List.prefix_rfl
      | some own => exact ht own true

theorem run_log (ops : List (Op C T)) (s : Reg C T) : s.log <+: (s.run ops).log := by
  induction ops generalizing s with
  | nil => exact List.prefix_rfl
  | cons op ops ih => exact (step_log s op).trans (ih (s.step op).1)

theorem runAll_log (t : T) (body : Reg C T → C → List (Op C T)) (cs : List C) (s : Reg C T) :
    s.log <+: (runAll (announced t) body cs s).log ∧
      ∀ c ∈ cs, Ev.registered c {t} ∈ (runAll (announced t) body cs s).log := by
  induction cs generalizing s with
  | nil => exact ⟨List.prefix_rfl, by simp⟩
  | cons d cs ih =>
    obtain ⟨h1, h2⟩ := ih ((announced t s d).run (body (announced t s d) d))
    have h3 : (s.log ++ [Ev.registered d {t}]) <+: (runAll (announced t) body (d :: cs) s).log :=
      (run_log (body (announced t s d) d) (announced t s d)).trans h1
    refine ⟨(List.prefix_append _ _).trans h3, fun c hc => ?_⟩
    rcases List.mem_cons.1 hc with rfl | hc
    · exact h3.subset (by simp)
    · exact h2 c hc

/-- C116, the part that holds for announcing the existing components while listeners call the registry. -/
theorem C116_announce_partial (s : Reg C T) (ord : IterOrder C) (t : T) (listeners : Reg C T → C → List (Op C T))
    (h : KeepsAll (announced t) listeners t (ord.f (s.components t)) s) :
    ∃ seen : List C, seen.Nodup ∧ (∀ c, c ∈ seen ↔ c ∈ s.components t) ∧
      ∃ s', s.announce ord t listeners = .done s' seen ∧ s.log <+: s'.log ∧ ∀ c ∈ s.components t, Ev.registered c {t} ∈ s'.log :=
  ⟨ord.f (s.components t), ord.nodup _, ord.mem _, runAll (announced t) listeners (ord.f (s.components t)) s, by
    unfold Reg.announce
    rw [visit_keeps (announced t) (fun _ _ _ => rfl) listeners t _ _ s [] rfl h]
    simp, (runAll_log t listeners _ s).1, fun c hc => (runAll_log t listeners _ s).2 c ((ord.mem _ c).2 hc)⟩

/-- C116: exactly when and where it raises: if the calls for the components `pre` leave the set alone and those for the next one, `c`,
change its size, then RuntimeError is raised after `c`, and the components after it are not visited. -/
theorem C116_raises (s : Reg C T) (ord : IterOrder C) (t : T) (body : Reg C T → C → List (Op C T)) (pre post : List C) (c : C)
    (ho : ord.f (s.components t) = pre ++ c :: post) (h : KeepsAll (fun s _ => s) body t pre s)
    (hc : ((runAll (fun s _ => s) body (pre ++ [c]) s).components t).card ≠ (s.components t).card) :
    s.forEach ord t body = .raised (runAll (fun s _ => s) body (pre ++ [c]) s) (pre ++ [c]) := by
  unfold Reg.forEach
  rw [ho]
  have key : ∀ (pre : List C) (s' : Reg C T) (seen : List C) (n : Nat), (s'.components t).card = n →
      KeepsAll (fun s _ => s) body t pre s' → ((runAll (fun s _ => s) body (pre ++ [c]) s').components t).card ≠ n →
      visit (fun s _ => s) body t n (pre ++ c :: post) s' seen true =
        .raised (runAll (fun s _ => s) body (pre ++ [c]) s') (seen ++ (pre ++ [c])) := by
    intro pre
    induction pre with
    | nil =>
      intro s' seen n hn _ hne
      simp only [List.nil_append, runAll] at hne ⊢
      unfold visit
      rw [if_neg (not_not.2 hn), if_neg (by simp)]
      simp only
      unfold visit
      rw [if_pos hne]
    | cons d pre ih =>
      intro s' seen n hn hk hne
      obtain ⟨h1, h2⟩ := hk
      simp only [List.cons_append, runAll] at hne ⊢
      unfold visit
      rw [if_neg (not_not.2 hn), if_neg (by simp)]
      change visit (fun s _ => s) body t n (pre ++ c :: post) (s'.run (body s' d)) (seen ++ [d]) (keeps t s' (body s' d)) = _
      rw [show keeps t s' (body s' d) = true from h1, ih _ _ n (by rw [keeps_run h1]; exact hn) h2 hne]
      simp
  simpa using key pre s [] _ rfl h hc

end

/-- The counterexample to C116: unregistering all components of a type in a loop over them raises after the first. -/
theorem C116_counterexample :
    ∃ s' : Reg Nat Nat, (Reg.init.run [.register 1 {0}, .register 2 {0}] : Reg Nat Nat).forEach ascending 0
      (fun _ c => [.unregister c none]) = .raised s' [1] ∧ s'.components 0 = {2} := by
  have hs : (Reg.init.run [.register 1 {0}, .register 2 {0}] : Reg Nat Nat).components 0 = {1, 2} := by decide
  have ho : ascending.f ((Reg.init.run [.register 1 {0}, .register 2 {0}] : Reg Nat Nat).components 0) = [] ++ 1 :: [2] := by
    rw [hs]; decide
  exact ⟨_, C116_raises _ ascending 0 _ [] [2] 1 ho trivial (by decide), by decide⟩

/-- A listener that registers, for each announced component of type 0, a component of type 1: all are announced. -/
example : ∃ s', (Reg.init.run [.register 1 {0}, .register 2 {0}] : Reg Nat Nat).announce ascending 0
    (fun _ c => [.register (c + 10) {1}]) = .done s' [1, 2] ∧ s'.components 1 = {11, 12} := by
  have hs : (Reg.init.run [.register 1 {0}, .register 2 {0}] : Reg Nat Nat).components 0 = {1, 2} := by decide
  have ho : ascending.f ((Reg.init.run [.register 1 {0}, .register 2 {0}] : Reg Nat Nat).components 0) = [1, 2] := by
    rw [hs]; decide
  unfold Reg.announce
  rw [ho, visit_keeps (announced 0) (fun _ _ _ => rfl)]
  rotate_left
  · rfl
  · exact ⟨by decide, by decide, trivial⟩
  exact ⟨_, rfl, by decide⟩

end Verif.Registry
