import Mathlib.Data.List.Sort
import Verif.Registry.Model

/-! Properties C28, C29, C30. -/

namespace Verif.Registry

open Verif.Py

section
variable {C T : Type*} [DecidableEq C] [DecidableEq T]

/-! ### Specification -/

/-- Specification: for every component the set of types it is registered with; `none` for a component that is not known.
-/
abbrev Spec (C T : Type*) := C → Option (Finset T)

/-- The types a call removes. -/
def removedTypes (s : Spec C T) (c : C) : Option (Finset T) → Finset T
  | some ts => ts
  | none => (s c).getD ∅

/-- Which calls are valid: registering with types the component does not have; unregistering a known component from types
it has. -/
def Valid (s : Spec C T) : Op C T → Prop
  | .register c ts => Disjoint ((s c).getD ∅) ts
  | .unregister c ts => s c ≠ none ∧ removedTypes s c ts ⊆ (s c).getD ∅

/-- What a valid call does; a component without types is no longer known after an `unregister`. -/
def apply (s : Spec C T) : Op C T → Spec C T
  | .register c ts => fun x => if x = c then some ((s c).getD ∅ ∪ ts) else s x
  | .unregister c ts => fun x =>
      if x = c then (if (s c).getD ∅ \ removedTypes s c ts = ∅ then none else some ((s c).getD ∅ \ removedTypes s c ts))
      else s x

open Classical in
/-- The specification after a history: invalid calls have no effect. -/
noncomputable def specRun (s : Spec C T) (ops : List (Op C T)) : Spec C T :=
  ops.foldl (fun s o => if Valid s o then apply s o else s) s

/-! ### Invariant -/

def Inv (s : Reg C T) : Prop := ∀ c t, c ∈ s.byType t ↔ t ∈ (s.types c).getD ∅

theorem register_ok {s : Reg C T} (h : Inv s) (c : C) (ts : Finset T) :
    (∀ t ∈ ts, c ∉ s.byType t) ↔ Valid s.types (.register c ts) := by
  simp only [Valid, Finset.disjoint_right, ← h c]

theorem step_spec {s : Reg C T} (h : Inv s) (o : Op C T) :
    Inv (s.step o).1 ∧
    (Valid s.types o → (s.step o).2 = .ok () ∧ (s.step o).1.types = apply s.types o) ∧
    (¬ Valid s.types o → (∃ e, (s.step o).2 = .error e) ∧ (s.step o).1 = s) := by
  cases o with
  | register c ts =>
    rw [← register_ok h]
    simp only [Reg.step, Reg.register]
    split
    · rename_i hv
      refine ⟨?_, fun _ => ⟨rfl, ?_⟩, fun hn => absurd hv hn⟩
      · intro x t
        by_cases hx : x = c
        · subst hx
          by_cases ht : t ∈ ts
          · simp [ht]
          · simp [ht, h x t]
        · by_cases ht : t ∈ ts
          · simp [ht, hx, h x t]
          · simp [ht, hx, h x t]
      · funext x
        by_cases hx : x = c
        · subst hx; simp [apply]
        · simp [apply, hx]
    · rename_i hv
      exact ⟨h, fun hh => absurd hh hv, fun _ => ⟨⟨_, rfl⟩, rfl⟩⟩
  | unregister c ts =>
    have key : ∀ (rs : Finset T) (al : Bool), rs = removedTypes s.types c ts →
        Inv (s.unregisterTypes c rs al).1 ∧
        (Valid s.types (.unregister c ts) → (s.unregisterTypes c rs al).2 = .ok () ∧
          (s.unregisterTypes c rs al).1.types = apply s.types (.unregister c ts)) ∧
        (¬ Valid s.types (.unregister c ts) →
          (∃ e, (s.unregisterTypes c rs al).2 = .error e) ∧ (s.unregisterTypes c rs al).1 = s) := by
      intro rs al hrs
      unfold Reg.unregisterTypes
      by_cases hv : ∀ t ∈ rs, c ∈ s.byType t
      · rw [if_pos hv]
        have hsub : rs ⊆ (s.types c).getD ∅ := fun t ht => (h c t).1 (hv t ht)
        cases hc : s.types c with
        | none =>
          have he : rs = ∅ := by simpa [hc] using hsub
          subst he
          simp only [hc, Finset.notMem_empty, if_false]
          refine ⟨h, fun hh => absurd hc hh.1, fun _ => ⟨⟨_, rfl⟩, trivial⟩⟩
        | some own =>
          rw [hc] at hsub
          simp only [Option.getD_some] at hsub
          simp only [hc, Finset.card_eq_zero]
          have hval : Valid s.types (.unregister c ts) := ⟨by simp [hc], by rw [← hrs, hc]; exact hsub⟩
          refine ⟨?_, fun _ => ⟨trivial, ?_⟩, fun hn => absurd hval hn⟩
          · intro x t
            by_cases hx : x = c
            · subst hx
              have hxt := h x t
              rw [hc] at hxt
              simp only [Option.getD_some] at hxt
              by_cases he : own \ rs = ∅
              · rw [Finset.sdiff_eq_empty_iff_subset] at he
                by_cases ht : t ∈ rs
                · simp [ht, Finset.sdiff_eq_empty_iff_subset.2 he]
                · simp only [ht, if_false, Finset.sdiff_eq_empty_iff_subset.2 he, if_true, Function.update_self,
                    Option.getD_none, Finset.notMem_empty, iff_false, hxt]
                  exact fun hh => ht (he hh)
              · by_cases ht : t ∈ rs
                · simp [ht, he]
                · simp [ht, he, hxt]
            · by_cases ht : t ∈ rs
              · simp [ht, hx, h x t]
              · simp [ht, hx, h x t]
          · funext x
            by_cases hx : x = c
            · subst hx; simp [apply, hc, ← hrs]
            · simp [apply, hx]
      · rw [if_neg hv]
        refine ⟨h, fun hh => absurd ?_ hv, fun _ => ⟨⟨_, rfl⟩, rfl⟩⟩
        intro t ht
        exact (h c t).2 (hh.2 (by rw [← hrs]; exact ht))
    cases ts with
    | some rs => exact key rs false rfl
    | none =>
      simp only [Reg.step, Reg.unregister]
      cases hc : s.types c with
      | none => exact ⟨h, fun hh => absurd hc hh.1, fun _ => ⟨⟨_, rfl⟩, rfl⟩⟩
      | some own =>
        have := key own true (by simp [removedTypes, hc])
        exact this

theorem Inv.init : Inv (Reg.init : Reg C T) := by intro c t; simp [Reg.init]

theorem Inv.run (ops : List (Op C T)) {s : Reg C T} (h : Inv s) : Inv (s.run ops) := by
  induction ops generalizing s with
  | nil => exact h
  | cons o ops ih => exact ih (step_spec h o).1

open Classical in
theorem run_types (ops : List (Op C T)) {s : Reg C T} (h : Inv s) : (s.run ops).types = specRun s.types ops := by
  induction ops generalizing s with
  | nil => rfl
  | cons o ops ih =>
    have hs := step_spec h o
    show ((s.step o).1.run ops).types = _
    rw [ih hs.1]
    simp only [specRun, List.foldl_cons]
    by_cases hv : Valid s.types o
    · rw [(hs.2.1 hv).2, if_pos hv]
    · rw [(hs.2.2 hv).2, if_neg hv]

/-- C28: after every history, looking up a type gives exactly the components that are registered with it according to the
specification; a valid call succeeds, an invalid call raises and changes nothing (also no event). -/
theorem C28_lookup (ops : List (Op C T)) :
    let s := (Reg.init : Reg C T).run ops
    (∀ t c, c ∈ s.components t ↔ ∃ ts, specRun (fun _ => none) ops c = some ts ∧ t ∈ ts) ∧
    (∀ o, (Valid (specRun (fun _ => none) ops) o → (s.step o).2 = .ok ()) ∧
      (¬ Valid (specRun (fun _ => none) ops) o → (∃ e, (s.step o).2 = .error e) ∧ (s.step o).1 = s)) := by
  intro s
  have h : Inv s := Inv.init.run ops
  have hr : s.types = specRun (fun _ => none) ops := run_types ops Inv.init
  rw [← hr]
  refine ⟨fun t c => ?_, fun o => ⟨fun hv => ((step_spec h o).2.1 hv).1, (step_spec h o).2.2⟩⟩
  show c ∈ s.byType t ↔ _
  rw [h c t]
  cases s.types c <;> simp

/-- C29, the part that holds: the result is `None` exactly if nothing is registered for the type, otherwise a component
registered for the type; it has the highest priority if all priorities are equal.
(Missing: the highest priority in general, which is false.) -/
theorem C29_get_component_partial (ops : List (Op C T)) (ord : IterOrder C) (prio : C → Int) (t : T) :
    let s := (Reg.init : Reg C T).run ops
    (s.getComponent ord prio t = none ↔ ∀ c ts, specRun (fun _ => none) ops c = some ts → t ∉ ts) ∧
    (∀ c, s.getComponent ord prio t = some c →
      (∃ ts, specRun (fun _ => none) ops c = some ts ∧ t ∈ ts) ∧
      ((∀ a ∈ s.components t, ∀ b ∈ s.components t, prio a = prio b) → ∀ b ∈ s.components t, prio b ≤ prio c)) := by
  intro s
  have hl := (C28_lookup (C := C) (T := T) ops).1 t
  change ∀ c, c ∈ s.components t ↔ _ at hl
  have hg : s.getComponent ord prio t = (ord.f (s.components t))[0]? := by
    unfold Reg.getComponent
    simp only [List.length_mergeSort]
    split
    · rfl
    · rename_i h
      rw [List.getElem?_eq_none (by omega)]
  rw [hg]
  constructor
  · rw [List.getElem?_eq_none_iff]
    constructor
    · intro h c ts hc ht
      have : c ∈ ord.f (s.components t) := (ord.mem _ _).2 ((hl c).2 ⟨ts, hc, ht⟩)
      rw [List.length_eq_zero_iff.1 (Nat.le_zero.1 h)] at this
      simp at this
    · intro h
      rw [Nat.le_zero, List.length_eq_zero_iff, List.eq_nil_iff_forall_not_mem]
      intro c hc
      obtain ⟨ts, h1, h2⟩ := (hl c).1 ((ord.mem _ _).1 hc)
      exact h c ts h1 h2
  · intro c hc
    have hm : c ∈ s.components t := (ord.mem _ _).1 (List.mem_of_getElem? hc)
    exact ⟨(hl c).1 hm, fun he b hb => le_of_eq (he b hb c hm)⟩

/-- C30, the part that holds: a successful `register` or an `unregister` with explicit types fires its event exactly once
with the component and exactly the given types; a successful `unregister` without types fires exactly once with the
component; a call that raises fires nothing. (Missing: the types of an `unregister` without types, which is false.) -/
theorem C30_events_partial (s : Reg C T) (c : C) :
    (∀ ts, (s.step (.register c ts)).2 = .ok () → (s.step (.register c ts)).1.log = s.log ++ [.registered c ts]) ∧
    (∀ ts, (s.step (.unregister c (some ts))).2 = .ok () →
      (s.step (.unregister c (some ts))).1.log = s.log ++ [.unregistered c ts]) ∧
    ((s.step (.unregister c none)).2 = .ok () →
      ∃ ts, (s.step (.unregister c none)).1.log = s.log ++ [.unregistered c ts]) ∧
    (∀ o e, (s.step o).2 = .error e → (s.step o).1.log = s.log) := by
  have un : ∀ ts al, (s.unregisterTypes c ts al).2 = .ok () →
      ∃ ts', (s.unregisterTypes c ts al).1.log = s.log ++ [.unregistered c ts'] ∧ (al = false → ts' = ts) := by
    intro ts al h
    unfold Reg.unregisterTypes at *
    split at h
    · rename_i hv
      rw [if_pos hv]
      cases hc : s.types c with
      | none => simp [hc] at h
      | some own =>
        simp only [hc]
        exact ⟨_, rfl, fun ha => by rw [ha]; rfl⟩
    · cases h
  have unE : ∀ c ts al e, (s.unregisterTypes c ts al).2 = .error e → (s.unregisterTypes c ts al).1.log = s.log := by
    intro c ts al e h
    unfold Reg.unregisterTypes at *
    split at h
    · rename_i hv
      rw [if_pos hv]
      cases hc : s.types c with
      | none => simp [hc]
      | some own => simp [hc] at h
    · rename_i hv; rw [if_neg hv]
  refine ⟨fun ts h => ?_, fun ts h => ?_, fun h => ?_, fun o e h => ?_⟩
  · simp only [Reg.step, Reg.register] at *
    split at h
    · rename_i hv; rw [if_pos hv]
    · cases h
  · obtain ⟨ts', h1, h2⟩ := un ts false h
    rw [h2 rfl] at h1; exact h1
  · simp only [Reg.step, Reg.unregister] at *
    cases hc : s.types c with
    | none => simp [hc] at h
    | some own =>
      simp only [hc] at h ⊢
      obtain ⟨ts', h1, _⟩ := un own true h
      exact ⟨ts', h1⟩
  · cases o with
    | register c ts =>
      simp only [Reg.step, Reg.register] at *
      split at h
      · cases h
      · rename_i hv; rw [if_neg hv]
    | unregister c ts =>
      cases ts with
      | some ts => exact unE c ts false e h
      | none =>
        simp only [Reg.step, Reg.unregister] at *
        cases hc : s.types c with
        | none => simp
        | some own => simp only [hc] at h ⊢; exact unE c own true e h

/-- C30: announcing the existing components of a type fires the registered event exactly once for each of them, with that
type only, and changes nothing. -/
theorem C30_existing (s : Reg C T) (ord : IterOrder C) (t : T) :
    ∃ cs : List C, cs.Nodup ∧ (∀ c, c ∈ cs ↔ c ∈ s.components t) ∧
      (s.fireExisting ord t).log = s.log ++ cs.map (fun c => .registered c {t}) ∧
      (s.fireExisting ord t).types = s.types ∧ ∀ t, (s.fireExisting ord t).components t = s.components t :=
  ⟨ord.f (s.components t), ord.nodup _, ord.mem _, rfl, rfl, fun _ => rfl⟩

end

/-- Sets of naturals iterated in ascending order. -/
def ascending : IterOrder Nat where
  f s := Quot.liftOn s.val (fun l => l.insertionSort (· ≤ ·)) fun _ _ h =>
    (((List.perm_insertionSort _ _).trans h).trans (List.perm_insertionSort _ _).symm).eq_of_pairwise'
      (List.pairwise_insertionSort _ _) (List.pairwise_insertionSort _ _)
  nodup s := by
    obtain ⟨m, hm⟩ := s
    induction m using Quot.inductionOn
    rename_i l
    exact ((List.perm_insertionSort _ l).nodup_iff).2 hm
  mem s i := by
    obtain ⟨m, hm⟩ := s
    induction m using Quot.inductionOn
    rename_i l
    exact (List.perm_insertionSort _ l).mem_iff

/-- C29 is false: component 1 with priority 10 and component 2 with priority 90 are registered; the set is iterated in
ascending order and the one with priority 10 is returned. -/
theorem C29_get_component_counterexample :
    let prio : Nat → Int := fun c => if c = 1 then 10 else 90
    let s : Reg Nat Nat := Reg.init.run [.register 1 {0}, .register 2 {0}]
    s.components 0 = {1, 2} ∧ s.getComponent ascending prio 0 = some 1 ∧ prio 1 < prio 2 := by
  have hs : (Reg.init.run [.register 1 {0}, .register 2 {0}] : Reg Nat Nat).components 0 = {1, 2} := by decide
  refine ⟨hs, ?_, by decide⟩
  unfold Reg.getComponent
  rw [hs]
  simp only [List.length_mergeSort]
  decide

/-- C30 is false for `unregister` without types: component 7 was registered with the types 0 and 1, the event reports the
empty set. -/
theorem C30_events_counterexample :
    let s : Reg Nat Nat := Reg.init.run [.register 7 {0, 1}, .unregister 7 none]
    s.log = [.registered 7 {0, 1}, .unregistered 7 ∅] ∧ s.components 0 = ∅ ∧ s.components 1 = ∅ := by
  decide

/-- a history with valid and invalid calls -/
example : let s : Reg Nat Nat := Reg.init.run [.register 7 {0, 1}, .register 8 {1}, .register 7 {1, 2},
      .unregister 7 (some {0}), .unregister 8 (some {0, 1})]
    s.components 0 = ∅ ∧ s.components 1 = {7, 8} ∧ s.components 2 = ∅ := by decide

end Verif.Registry
