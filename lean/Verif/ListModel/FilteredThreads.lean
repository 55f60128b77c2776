import Mathlib.Data.Finset.Basic
import Mathlib.Data.Finset.Filter
import Mathlib.Logic.Function.Basic
import Mathlib.Tactic.Common

set_option linter.unusedSectionVars false

/-!
C115: a `FilteredListModel` (`nion/utils/ListModel.py:232-640`) whose source is changed, whose filter is set and whose change blocks are
opened and closed by several threads. Atomic are: what runs inside `with self._update_mutex` as far as it touches only what the mutex
protects, and single reads and writes of an attribute. Outside of the mutex are the `+=` of `begin_change` (a read and a write, line 276),
and the assignment of the filter (342); the update reads the filter for each item anew (487), so another thread may set it meanwhile.

Only which items are in the list is modelled, not their order (C20, C21): source and items are sets. The source notifies each change
once, in the thread that makes it; listeners do not call the model. Not modelled: sort keys, selections, `container` being set.
-/

namespace Verif.ListModel.FilteredThreads

/-- Where a thread is in a call. -/
inductive PC (X : Type) where
  | idle
  /-- `begin_change` has read the level -/
  | beginW (v : Int)
  /-- `end_change` holds the mutex, before reading the level, line 281 -/
  | endR
  /-- ... and has read the level -/
  | endW (v : Int)
  /-- `filter.setter` has assigned the filter, before the mutex of `__update_items`, line 499 -/
  | updA
  /-- `__update_items` holds the mutex, before the test of line 500 -/
  | updC
  /-- `__build_items`: items still to be tested, items accepted -/
  | build (todo acc : Finset X)
  deriving DecidableEq

structure St (X T : Type) where
  master : Finset X
  items : Finset X
  filter : X → Bool
  level : Int
  owner : Option T
  pc : T → PC X
  /-- for the specification: `begin_change` calls made minus `end_change` calls made -/
  opened : Int

variable {X T : Type} [DecidableEq X] [DecidableEq T]

def St.init (f : X → Bool) : St X T := ⟨∅, ∅, f, 0, none, fun _ => .idle, 0⟩

inductive Act (X T : Type) where
  /-- `begin_change`: the read, the write (line 276) -/
  | beginRead (t : T)
  | beginWrite (t : T)
  /-- `end_change`: the mutex is taken (280); the read and the write (281), and the test (282) -/
  | endCall (t : T)
  | endRead (t : T)
  | endWrite (t : T)
  /-- `filter.setter` up to the update (342-344) -/
  | setFilter (t : T) (f : X → Bool)
  /-- the mutex is taken (499) -/
  | acquire (t : T)
  /-- the test (500) -/
  | check (t : T)
  /-- one item of the loop of `__build_items` (485-489) -/
  | test (t : T) (x : X)
  /-- the items are replaced, the mutex is released (513-546) -/
  | commit (t : T)
  /-- the source inserts or removes an item (611-640, 385-394, 416-425) -/
  | insert (t : T) (x : X)
  | remove (t : T) (x : X)

def St.go (s : St X T) (t : T) (p : PC X) : St X T := { s with pc := Function.update s.pc t p }

def stepInsert (s : St X T) (x : X) : St X T :=
  { s with master := insert x s.master, items := if s.level > 0 then s.items else if s.filter x then insert x s.items else s.items }

def stepRemove (s : St X T) (x : X) : St X T :=
  { s with master := s.master.erase x, items := if s.level > 0 then s.items else s.items.erase x }

/-- What a schedule can do; `none` if it cannot. -/
def step (s : St X T) : Act X T → Option (St X T)
  | .beginRead t =>
    match s.pc t with
    | .idle => some (s.go t (.beginW s.level))
    | _ => none
  | .beginWrite t =>
    match s.pc t with
    | .beginW v => some { s.go t .idle with level := v + 1, opened := s.opened + 1 }
    | _ => none
  | .endCall t =>
    match s.pc t with
    | .idle => if s.owner = none then some { s.go t .endR with owner := some t } else none
    | _ => none
  | .endRead t =>
    match s.pc t with
    | .endR => some (s.go t (.endW s.level))
    | _ => none
  | .endWrite t =>
    match s.pc t with
    | .endW v =>
      if v - 1 = 0 then some { s.go t .updC with level := v - 1, opened := s.opened - 1 }
      else some { s.go t .idle with level := v - 1, opened := s.opened - 1, owner := none }
    | _ => none
  | .setFilter t f =>
    match s.pc t with
    | .idle => some { s.go t .updA with filter := f }
    | _ => none
  | .acquire t =>
    match s.pc t with
    | .updA => if s.owner = none then some { s.go t .updC with owner := some t } else none
    | _ => none
  | .check t =>
    match s.pc t with
    | .updC => if s.level > 0 then some { s.go t .idle with owner := none } else some (s.go t (.build s.master ∅))
    | _ => none
  | .test t x =>
    match s.pc t with
    | .build todo acc =>
      if x ∈ todo then some (s.go t (.build (todo.erase x) (if s.filter x then insert x acc else acc))) else none
    | _ => none
  | .commit t =>
    match s.pc t with
    | .build todo acc => if todo = ∅ then some { s.go t .idle with items := acc, owner := none } else none
    | _ => none
  | .insert t x =>
    match s.pc t with
    | .idle => if s.owner = none ∧ x ∉ s.master then some (stepInsert s x) else none
    | _ => none
  | .remove t x =>
    match s.pc t with
    | .idle => if s.owner = none ∧ x ∈ s.master then some (stepRemove s x) else none
    | _ => none

inductive Reach (f : X → Bool) : St X T → Prop where
  | init : Reach f (St.init f)
  | step {s s' : St X T} (a : Act X T) (hr : Reach f s) (h : step s a = some s') : Reach f s'

/-- The level is what was read when it is written: no `begin_change` or `end_change` of another thread in between. -/
def NoLoss (s : St X T) : Act X T → Prop
  | .beginWrite t => ∀ v, s.pc t = .beginW v → v = s.level
  | .endWrite t => ∀ v, s.pc t = .endW v → v = s.level
  | _ => True

inductive ReachNoLoss (f : X → Bool) : St X T → Prop where
  | init : ReachNoLoss f (St.init f)
  | step {s s' : St X T} (a : Act X T) (hr : ReachNoLoss f s) (hn : NoLoss s a) (h : step s a = some s') : ReachNoLoss f s'

/-! ### Invariant -/

/-- A thread has still to update. -/
def Pending (s : St X T) : Prop := ∃ t, s.pc t = .updA ∨ s.pc t = .updC

def Right (s : St X T) (items : Finset X) : Prop := ∀ x, x ∈ items ↔ x ∈ s.master ∧ s.filter x = true

/-- What the building thread has collected is right as far as it has come. -/
def BuildRight (s : St X T) (todo acc : Finset X) : Prop :=
  todo ⊆ s.master ∧ ∀ x, x ∈ acc ↔ (x ∈ s.master ∧ x ∉ todo) ∧ s.filter x = true

def holds : PC X → Bool
  | .endR | .endW _ | .updC | .build _ _ => true
  | _ => false

structure Inv (s : St X T) : Prop where
  mutex : ∀ t, holds (s.pc t) = true ↔ s.owner = some t
  level : s.level = s.opened
  good : s.level > 0 ∨ Pending s ∨ (∃ t todo acc, s.pc t = .build todo acc) ∨ Right s s.items
  build : ∀ t todo acc, s.pc t = .build todo acc → (Pending s ∨ BuildRight s todo acc)

theorem inv_init (f : X → Bool) : Inv (St.init f : St X T) :=
  ⟨by simp [St.init, holds], rfl, .inr (.inr (.inr (by simp [Right, St.init]))), by simp [St.init]⟩

theorem upd_pc {s : St X T} {t u : T} {p : PC X} : (s.go t p).pc u = if u = t then p else s.pc u := by
  simp only [St.go, Function.update_apply]

/-- A pending update of another thread, or of this one, goes on. -/
theorem pending_go {s s' : St X T} {t : T} {p : PC X} (hpc : s'.pc = (s.go t p).pc) (h : Pending s)
    (ht : (s.pc t ≠ .updA ∧ s.pc t ≠ .updC) ∨ p = .updA ∨ p = .updC) : Pending s' := by
  obtain ⟨u, hu⟩ := h
  by_cases hut : u = t
  · subst hut
    rcases ht with ⟨h1, h2⟩ | h
    · exact (hu.elim h1 h2).elim
    · exact ⟨u, by rw [hpc, upd_pc, if_pos rfl]; exact h⟩
  · exact ⟨u, by rw [hpc, upd_pc, if_neg hut]; exact hu⟩

/-- The mutex after a step that changes neither the owner nor whether the thread holds it. -/
theorem mutex_same {s s' : St X T} {t : T} {p : PC X} (h : Inv s) (hpc : s'.pc = (s.go t p).pc) (ho : s'.owner = s.owner)
    (hh : holds p = holds (s.pc t)) : ∀ u, holds (s'.pc u) = true ↔ s'.owner = some u := by
  intro u
  rw [hpc, upd_pc, ho, ← h.mutex u]
  split
  · rename_i hut; subst hut; rw [hh]
  · rfl

theorem mutex_take {s s' : St X T} {t : T} {p : PC X} (h : Inv s) (hpc : s'.pc = (s.go t p).pc) (hn : s.owner = none)
    (ho : s'.owner = some t) (hh : holds p = true) : ∀ u, holds (s'.pc u) = true ↔ s'.owner = some u := by
  intro u
  rw [hpc, upd_pc, ho]
  split
  · rename_i hut; subst hut; simp [hh]
  · rename_i hut
    rw [h.mutex u, hn]
    simp only [reduceCtorEq, Option.some.injEq, false_iff]
    exact fun e => hut e.symm

theorem mutex_drop {s s' : St X T} {t : T} {p : PC X} (h : Inv s) (hpc : s'.pc = (s.go t p).pc) (hn : holds (s.pc t) = true)
    (ho : s'.owner = none) (hh : holds p = false) : ∀ u, holds (s'.pc u) = true ↔ s'.owner = some u := by
  intro u
  rw [hpc, upd_pc, ho]
  split
  · simp [hh]
  · rename_i hut
    rw [h.mutex u, (h.mutex t).1 hn]
    simp only [Option.some.injEq, reduceCtorEq, iff_false]
    exact fun e => hut e.symm

/-- Two threads do not hold the mutex. -/
theorem only {s : St X T} (h : Inv s) {t u : T} (ht : holds (s.pc t) = true) (hu : holds (s.pc u) = true) : t = u := by
  have h1 := (h.mutex t).1 ht
  have h2 := (h.mutex u).1 hu
  rw [h1] at h2
  exact Option.some.inj h2

/-- The last two parts of the invariant after a step that leaves source, items and filter and is not part of an update. -/
theorem rest_same {s s' : St X T} {t : T} {p : PC X} (h : Inv s) (hpc : s'.pc = (s.go t p).pc) (hm : s'.master = s.master)
    (hi : s'.items = s.items) (hf : s'.filter = s.filter) (hl : s.level > 0 → s'.level > 0 ∨ Pending s')
    (ht : (s.pc t ≠ .updA ∧ s.pc t ≠ .updC) ∨ p = .updA ∨ p = .updC) (hb : ∀ a b, s.pc t ≠ .build a b) (hb' : ∀ a b, p ≠ .build a b) :
    (s'.level > 0 ∨ Pending s' ∨ (∃ t todo acc, s'.pc t = .build todo acc) ∨ Right s' s'.items) ∧
    ∀ t todo acc, s'.pc t = .build todo acc → (Pending s' ∨ BuildRight s' todo acc) := by
  refine ⟨?_, ?_⟩
  · rcases h.good with h1 | h1 | ⟨u, a, b, hu⟩ | h1
    · rcases hl h1 with h2 | h2
      · exact .inl h2
      · exact .inr (.inl h2)
    · exact .inr (.inl (pending_go hpc h1 ht))
    · have hut : u ≠ t := by rintro rfl; exact hb a b hu
      exact .inr (.inr (.inl ⟨u, a, b, by rw [hpc, upd_pc, if_neg hut]; exact hu⟩))
    · refine .inr (.inr (.inr fun x => ?_))
      rw [hi, hm, hf]; exact h1 x
  · intro u a b hu
    rw [hpc, upd_pc] at hu
    split at hu
    · exact absurd hu (hb' a b)
    · rcases h.build u a b hu with h1 | ⟨h1, h2⟩
      · exact .inl (pending_go hpc h1 ht)
      · exact .inr ⟨hm ▸ h1, fun x => by rw [hm, hf]; exact h2 x⟩

theorem inv_step {s s' : St X T} (h : Inv s) (a : Act X T) (hn : NoLoss s a) (hs : step s a = some s') : Inv s' := by
  cases a with
  | beginRead t =>
    simp only [step] at hs
    split at hs <;> simp only [Option.some.injEq, reduceCtorEq] at hs
    rename_i hp
    subst hs
    obtain ⟨r1, r2⟩ := rest_same h (t := t) (p := .beginW s.level) rfl rfl rfl rfl (s' := s.go t (.beginW s.level)) (fun h => .inl h)
      (.inl (by simp [hp])) (by simp [hp]) (by simp)
    exact ⟨mutex_same h (t := t) rfl rfl (by rw [hp]; rfl), h.level, r1, r2⟩
  | beginWrite t =>
    simp only [step] at hs
    split at hs <;> simp only [Option.some.injEq, reduceCtorEq] at hs
    rename_i v hp
    have hv := hn v hp
    subst hs
    obtain ⟨r1, r2⟩ := rest_same h (t := t) (p := .idle) (s' := { s.go t .idle with level := v + 1, opened := s.opened + 1 }) rfl rfl rfl rfl
      (fun h => .inl (by simp only; omega)) (.inl (by simp [hp])) (by simp [hp]) (by simp)
    exact ⟨mutex_same h (t := t) rfl rfl (by rw [hp]; rfl), by have := h.level; simp only; omega, r1, r2⟩
  | endCall t =>
    simp only [step] at hs
    split at hs <;> try simp only [reduceCtorEq] at hs
    rename_i hp
    split at hs <;> simp only [Option.some.injEq, reduceCtorEq] at hs
    rename_i ho
    subst hs
    obtain ⟨r1, r2⟩ := rest_same h (t := t) (p := .endR) (s' := { s.go t .endR with owner := some t }) rfl rfl rfl rfl
      (fun h => .inl h) (.inl (by simp [hp])) (by simp [hp]) (by simp)
    exact ⟨mutex_take h (t := t) (p := .endR) rfl ho rfl rfl, h.level, r1, r2⟩
  | endRead t =>
    simp only [step] at hs
    split at hs <;> simp only [Option.some.injEq, reduceCtorEq] at hs
    rename_i hp
    subst hs
    obtain ⟨r1, r2⟩ := rest_same h (t := t) (p := .endW s.level) rfl rfl rfl rfl (s' := s.go t (.endW s.level)) (fun h => .inl h)
      (.inl (by simp [hp])) (by simp [hp]) (by simp)
    exact ⟨mutex_same h (t := t) rfl rfl (by rw [hp]; rfl), h.level, r1, r2⟩
  | endWrite t =>
    simp only [step] at hs
    split at hs <;> try simp only [reduceCtorEq] at hs
    rename_i v hp
    have hv := hn v hp
    have hl := h.level
    split at hs <;> simp only [Option.some.injEq] at hs
    · rename_i h0
      subst hs
      have hpend : Pending { s.go t .updC with level := v - 1, opened := s.opened - 1 } := ⟨t, .inr (by simp [St.go])⟩
      obtain ⟨r1, r2⟩ := rest_same h (t := t) (p := .updC) (s' := { s.go t .updC with level := v - 1, opened := s.opened - 1 }) rfl rfl rfl rfl
        (fun h => .inr hpend) (.inr (.inr rfl)) (by simp [hp]) (by simp)
      exact ⟨mutex_same h (t := t) (p := .updC) rfl rfl (by rw [hp]; rfl), by simp only; omega, r1, r2⟩
    · rename_i h0
      subst hs
      obtain ⟨r1, r2⟩ := rest_same h (t := t) (p := .idle)
        (s' := { s.go t .idle with level := v - 1, opened := s.opened - 1, owner := none }) rfl rfl rfl rfl
        (fun h => .inl (by simp only; omega)) (.inl (by simp [hp])) (by simp [hp]) (by simp)
      exact ⟨mutex_drop h (t := t) (p := .idle) rfl (by rw [hp]; rfl) rfl rfl, by simp only; omega, r1, r2⟩
  | setFilter t f =>
    simp only [step] at hs
    split at hs <;> simp only [Option.some.injEq, reduceCtorEq] at hs
    rename_i hp
    subst hs
    have hpend : Pending { s.go t .updA with filter := f } := ⟨t, .inl (by simp [St.go])⟩
    exact ⟨mutex_same h (t := t) (p := .updA) rfl rfl (by rw [hp]; rfl), h.level, .inr (.inl hpend), fun _ _ _ _ => .inl hpend⟩
  | acquire t =>
    simp only [step] at hs
    split at hs <;> try simp only [reduceCtorEq] at hs
    rename_i hp
    split at hs <;> simp only [Option.some.injEq, reduceCtorEq] at hs
    rename_i ho
    subst hs
    have hpend : Pending { s.go t .updC with owner := some t } := ⟨t, .inr (by simp [St.go])⟩
    exact ⟨mutex_take h (t := t) (p := .updC) rfl ho rfl rfl, h.level, .inr (.inl hpend), fun _ _ _ _ => .inl hpend⟩
  | check t =>
    simp only [step] at hs
    split at hs <;> try simp only [reduceCtorEq] at hs
    rename_i hp
    have hold : holds (s.pc t) = true := by rw [hp]; rfl
    split at hs <;> simp only [Option.some.injEq] at hs
    · rename_i hl
      subst hs
      refine ⟨mutex_drop h (t := t) (p := .idle) rfl hold rfl rfl, h.level, .inl hl, fun u a b hu => ?_⟩
      simp only [upd_pc] at hu
      split at hu
      · cases hu
      · rename_i hut
        exact absurd (only h hold (by rw [hu]; rfl)).symm hut
    · subst hs
      refine ⟨mutex_same h (t := t) (p := .build s.master ∅) rfl rfl (by rw [hp]; rfl), h.level,
        .inr (.inr (.inl ⟨t, s.master, ∅, by simp [St.go]⟩)), fun u a b hu => ?_⟩
      simp only [upd_pc] at hu
      split at hu
      · simp only [PC.build.injEq] at hu
        obtain ⟨rfl, rfl⟩ := hu
        refine .inr ⟨Finset.Subset.refl _, fun x => ?_⟩
        simp only [Finset.notMem_empty, false_iff]
        rintro ⟨⟨h1, h2⟩, _⟩
        exact h2 h1
      · rename_i hut
        exact absurd (only h hold (by rw [hu]; rfl)).symm hut
  | test t x =>
    simp only [step] at hs
    split at hs <;> try simp only [reduceCtorEq] at hs
    rename_i todo acc hp
    split at hs <;> simp only [Option.some.injEq, reduceCtorEq] at hs
    rename_i hx
    have hold : holds (s.pc t) = true := by rw [hp]; rfl
    have ht : (s.pc t ≠ .updA ∧ s.pc t ≠ .updC) := by simp [hp]
    subst hs
    refine ⟨mutex_same h (t := t) rfl rfl (by rw [hp]; rfl), h.level, .inr (.inr (.inl ⟨t, _, _, by simp [St.go]; exact ⟨rfl, rfl⟩⟩)),
      fun u a b hu => ?_⟩
    simp only [upd_pc] at hu
    split at hu
    · simp only [PC.build.injEq] at hu
      obtain ⟨rfl, rfl⟩ := hu
      rcases h.build t todo acc hp with h1 | ⟨h1, h2⟩
      · exact .inl (pending_go rfl h1 (.inl ht))
      · refine .inr ⟨fun y hy => h1 (Finset.mem_of_mem_erase hy), fun y => ?_⟩
        have hxm := h1 hx
        have h2y := h2 y
        simp only [St.go]
        by_cases hyx : y = x
        · subst hyx
          by_cases hf : s.filter y = true
          · simp [hf, hxm]
          · simp only [hf, Bool.false_eq_true, if_false, and_false, h2y]
        · have : y ∈ (if s.filter x = true then insert x acc else acc) ↔ y ∈ acc := by
            split
            · simp [hyx]
            · rfl
          rw [this, h2y]
          simp [hyx]
    · rename_i hut
      exact absurd (only h hold (by rw [hu]; rfl)).symm hut
  | commit t =>
    simp only [step] at hs
    split at hs <;> try simp only [reduceCtorEq] at hs
    rename_i todo acc hp
    split at hs <;> simp only [Option.some.injEq, reduceCtorEq] at hs
    rename_i h0
    have hold : holds (s.pc t) = true := by rw [hp]; rfl
    have ht : (s.pc t ≠ .updA ∧ s.pc t ≠ .updC) := by simp [hp]
    subst hs
    subst h0
    refine ⟨mutex_drop h (t := t) (p := .idle) rfl hold rfl rfl, h.level, ?_, fun u a b hu => ?_⟩
    · rcases h.build t ∅ acc hp with h1 | ⟨_, h2⟩
      · exact .inr (.inl (pending_go (t := t) (p := .idle) rfl h1 (.inl ht)))
      · refine .inr (.inr (.inr fun x => ?_))
        have := h2 x
        simpa [St.go] using this
    · simp only [upd_pc] at hu
      split at hu
      · cases hu
      · rename_i hut
        exact absurd (only h hold (by rw [hu]; rfl)).symm hut
  | insert t x =>
    simp only [step] at hs
    split at hs <;> try simp only [reduceCtorEq] at hs
    rename_i hp
    split at hs <;> simp only [Option.some.injEq, reduceCtorEq] at hs
    rename_i ho
    subst hs
    have nob : ∀ u a b, s.pc u ≠ .build a b := fun u a b hu => by
      have := (h.mutex u).1 (by rw [hu]; rfl)
      rw [ho.1] at this; cases this
    refine ⟨h.mutex, h.level, ?_, fun u a b hu => absurd hu (nob u a b)⟩
    rcases h.good with h1 | h1 | ⟨u, a, b, hu⟩ | h1
    · exact .inl h1
    · exact .inr (.inl h1)
    · exact absurd hu (nob u a b)
    · by_cases hl : s.level > 0
      · exact .inl hl
      · refine .inr (.inr (.inr fun y => ?_))
        simp only [stepInsert, if_neg hl]
        have h1y := h1 y
        by_cases hyx : y = x
        · subst hyx
          by_cases hf : s.filter y = true
          · simp [hf]
          · simp only [hf, Bool.false_eq_true, if_false, h1y, and_false]
        · split
          · simp [hyx, h1y]
          · simp [hyx, h1y]
  | remove t x =>
    simp only [step] at hs
    split at hs <;> try simp only [reduceCtorEq] at hs
    rename_i hp
    split at hs <;> simp only [Option.some.injEq, reduceCtorEq] at hs
    rename_i ho
    subst hs
    have nob : ∀ u a b, s.pc u ≠ .build a b := fun u a b hu => by
      have := (h.mutex u).1 (by rw [hu]; rfl)
      rw [ho.1] at this; cases this
    refine ⟨h.mutex, h.level, ?_, fun u a b hu => absurd hu (nob u a b)⟩
    rcases h.good with h1 | h1 | ⟨u, a, b, hu⟩ | h1
    · exact .inl h1
    · exact .inr (.inl h1)
    · exact absurd hu (nob u a b)
    · by_cases hl : s.level > 0
      · exact .inl hl
      · refine .inr (.inr (.inr fun y => ?_))
        simp only [stepRemove, if_neg hl, Finset.mem_erase]
        rw [h1 y]
        exact and_assoc.symm

theorem inv_reach {f : X → Bool} {s : St X T} (h : ReachNoLoss f s) : Inv s := by
  induction h with
  | init => exact inv_init f
  | step a _ hn hs ih => exact inv_step ih a hn hs

/-- C115, the part that holds: if the level of the change blocks is never changed by another thread between its read and its write, then
whenever no call is in progress and all change blocks are closed, the model has exactly the source items that its filter accepts.
(Missing: begin_change at the same time as begin_change or end_change, for which it is false.) -/
theorem C115_settled_partial {f : X → Bool} {s : St X T} (h : ReachNoLoss f s) (hidle : ∀ t, s.pc t = .idle) (hopen : s.opened = 0) :
    ∀ x, x ∈ s.items ↔ x ∈ s.master ∧ s.filter x = true := by
  have hi := inv_reach h
  have hl := hi.level
  rcases hi.good with h1 | ⟨t, h1⟩ | ⟨t, a, b, h1⟩ | h1
  · omega
  · rw [hidle t] at h1; simp at h1
  · rw [hidle t] at h1; cases h1
  · exact h1

def exec (s : St X T) : List (Act X T) → Option (St X T)
  | [] => some s
  | a :: as => (step s a).bind fun s' => exec s' as

theorem exec_reach {f : X → Bool} {s s' : St X T} (hr : Reach f s) {as : List (Act X T)} (h : exec s as = some s') : Reach f s' := by
  induction as generalizing s with
  | nil => obtain rfl : s = s' := by simpa [exec] using h
           exact hr
  | cons a as ih =>
    simp only [exec] at h
    obtain ⟨s1, h1, h2⟩ := Option.bind_eq_some_iff.1 h
    exact ih (.step a hr h1) h2

/-- A schedule from one state to another without the write of an `end_change`. -/
inductive StepsNoEnd : St X T → St X T → Prop where
  | refl (s : St X T) : StepsNoEnd s s
  | step {s s1 s2 : St X T} (a : Act X T) (hr : StepsNoEnd s s1) (ha : ∀ t, a ≠ .endWrite t) (h : step s1 a = some s2) : StepsNoEnd s s2

structure Held (i : Finset X) (s : St X T) : Prop where
  level : s.level > 0
  items : s.items = i
  pc : ∀ t, (∀ a b, s.pc t ≠ .build a b) ∧ ∀ v, s.pc t = .beginW v → v > 0

theorem held_go {i : Finset X} {s s' : St X T} (h : Held i s) (t : T) (p : PC X) (hpc : s'.pc = (s.go t p).pc) (hl : s'.level > 0)
    (hi : s'.items = s.items) (h1 : ∀ a b, p ≠ .build a b) (h2 : ∀ v, p = .beginW v → v > 0) : Held i s' := by
  refine ⟨hl, hi.trans h.items, fun u => ?_⟩
  rw [hpc, upd_pc]
  split
  · exact ⟨h1, h2⟩
  · exact h.pc u

theorem held_step {i : Finset X} {s s' : St X T} (h : Held i s) (a : Act X T) (ha : ∀ t, a ≠ .endWrite t) (hs : step s a = some s') :
    Held i s' := by
  have hl := h.level
  cases a with
  | endWrite t => exact absurd rfl (ha t)
  | beginRead t =>
    simp only [step] at hs
    split at hs <;> simp only [Option.some.injEq, reduceCtorEq] at hs
    subst hs
    exact held_go h t _ rfl hl rfl (by simp) (by simpa using hl)
  | beginWrite t =>
    simp only [step] at hs
    split at hs <;> simp only [Option.some.injEq, reduceCtorEq] at hs
    rename_i v hp
    have := (h.pc t).2 v hp
    subst hs
    exact held_go h t .idle rfl (by simp only; omega) rfl (by simp) (by simp)
  | endCall t =>
    simp only [step] at hs
    split at hs <;> try simp only [reduceCtorEq] at hs
    split at hs <;> simp only [Option.some.injEq, reduceCtorEq] at hs
    subst hs
    exact held_go h t .endR rfl hl rfl (by simp) (by simp)
  | endRead t =>
    simp only [step] at hs
    split at hs <;> simp only [Option.some.injEq, reduceCtorEq] at hs
    subst hs
    exact held_go h t _ rfl hl rfl (by simp) (by simp)
  | setFilter t f =>
    simp only [step] at hs
    split at hs <;> simp only [Option.some.injEq, reduceCtorEq] at hs
    subst hs
    exact held_go h t .updA rfl hl rfl (by simp) (by simp)
  | acquire t =>
    simp only [step] at hs
    split at hs <;> try simp only [reduceCtorEq] at hs
    split at hs <;> simp only [Option.some.injEq, reduceCtorEq] at hs
    subst hs
    exact held_go h t .updC rfl hl rfl (by simp) (by simp)
  | check t =>
    simp only [step, if_pos hl] at hs
    split at hs <;> simp only [Option.some.injEq, reduceCtorEq] at hs
    subst hs
    exact held_go h t .idle rfl hl rfl (by simp) (by simp)
  | test t x =>
    simp only [step] at hs
    split at hs <;> try simp only [reduceCtorEq] at hs
    rename_i hp
    exact absurd hp ((h.pc t).1 _ _)
  | commit t =>
    simp only [step] at hs
    split at hs <;> try simp only [reduceCtorEq] at hs
    rename_i hp
    exact absurd hp ((h.pc t).1 _ _)
  | insert t x =>
    simp only [step] at hs
    split at hs <;> try simp only [reduceCtorEq] at hs
    split at hs <;> simp only [Option.some.injEq, reduceCtorEq] at hs
    subst hs
    exact ⟨hl, by simp only [stepInsert, if_pos hl]; exact h.items, h.pc⟩
  | remove t x =>
    simp only [step] at hs
    split at hs <;> try simp only [reduceCtorEq] at hs
    split at hs <;> simp only [Option.some.injEq, reduceCtorEq] at hs
    subst hs
    exact ⟨hl, by simp only [stepRemove, if_pos hl]; exact h.items, h.pc⟩

/-- C115: from a state with a positive level and no call in progress, whatever the threads do, the items stay as they are until an
`end_change` comes to write the level. (In the state of the counterexample below, where no block is open, this never happens.) -/
theorem C115_held {s s' : St X T} (hl : s.level > 0) (hidle : ∀ t, s.pc t = .idle) (hr : StepsNoEnd s s') : s'.items = s.items := by
  have : Held s.items s' := by
    induction hr with
    | refl => exact ⟨hl, rfl, fun t => by simp [hidle t]⟩
    | step a _ ha hs ih => exact held_step ih a ha hs
  exact this.items

/-- The counterexample to C115: thread `true` opens a block; while thread `false` opens one, having read the level, `true` closes its
block; then `false` closes its block. All blocks are closed, no call is in progress, but the level is one: an item inserted afterwards
is not shown, nor after the filter is set again. -/
theorem C115_counterexample : ∃ s : St Nat Bool, Reach (fun _ => true) s ∧ (∀ t, s.pc t = .idle) ∧ s.opened = 0 ∧ s.level = 1 ∧
    5 ∈ s.master ∧ s.filter 5 = true ∧ 5 ∉ s.items := by
  refine ⟨_, exec_reach (s := St.init fun _ => true) .init (as := [.beginRead true, .beginWrite true, .beginRead false, .endCall true,
    .endRead true, .endWrite true, .check true, .commit true, .beginWrite false, .endCall false, .endRead false, .endWrite false,
    .insert true 5, .setFilter true fun _ => true, .acquire true, .check true]) rfl, ?_⟩
  refine ⟨?_, ?_⟩ <;> decide

/-- Two threads set the filter, one while the other builds: what is built is a mixture, but the second update makes it right. -/
def mixRun : List (Act Nat Bool) := [.insert true 1, .insert true 2, .setFilter true fun x => x == 1, .acquire true, .check true, .test true 1,
  .setFilter false fun x => x == 2, .test true 2, .commit true]

example : (exec (St.init fun _ => true) mixRun).map (fun s => (s.items, s.level)) = some ({1, 2}, 0) := by decide

example : (exec (St.init fun _ => true) (mixRun ++ [.acquire false, .check false, .test false 2, .test false 1, .commit false])).map
    (fun s => (s.items, s.level, s.owner)) = some ({2}, 0, none) := by decide

end Verif.ListModel.FilteredThreads
