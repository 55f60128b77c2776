import Verif.Py.Basic
import Verif.Py.Dict
import Mathlib.Algebra.BigOperators.Group.Finset.Basic
import Mathlib.Algebra.BigOperators.Group.Finset.Piecewise
import Mathlib.Algebra.Order.Group.Multiset
import Mathlib.Data.Multiset.Basic
import Mathlib.Data.List.Range
import Mathlib.Data.Fintype.Basic
import Mathlib.Tactic.Abel
import Mathlib.Tactic.Common

set_option linter.unusedSectionVars false

/-!
C114: a `TaskSet` (`nion/utils/Process.py:49-65`) used by several threads. `add_task`, `clear_task` and the first part of
`perform_tasks` (61-63) hold the lock and are atomic; the tasks are called afterwards without it (64-65), so other threads, and the
tasks themselves, may add, clear and perform meanwhile. A thread has a stack of calls of `perform_tasks`. Tasks are numbered in the
order in which they are added. Whether a task returns or raises is chosen by the schedule.
-/

namespace Verif.Small.SetThreads

open Verif.Py

/-- A call of `perform_tasks` after line 63: the tasks not yet called, the task that is running; `batch`, for the specification, is what
was in the set. -/
structure Frame where
  pend : List ℕ
  cur : Option ℕ
  batch : List ℕ
  deriving DecidableEq

/-- The dict, the calls of all threads innermost first; and, for the specification, the key of every task, and the tasks called,
replaced by `add_task`, removed by `clear_task`, dropped because a task of their batch raised, and those which raised. -/
structure St (K T : Type) where
  dict : List (K × ℕ)
  calls : T → List Frame
  keys : List K
  runs : List ℕ
  replaced : List ℕ
  cleared : List ℕ
  dropped : List ℕ
  raised : List ℕ

variable {K T : Type} [DecidableEq K] [DecidableEq T]

def St.init : St K T := ⟨[], fun _ => [], [], [], [], [], [], []⟩

inductive Act (K T : Type) where
  /-- `add_task(k, ...)` by any thread -/
  | add (k : K)
  /-- `clear_task(k)` by any thread -/
  | clear (k : K)
  /-- `perform_tasks` is called, up to line 63 -/
  | call (t : T)
  /-- the innermost call goes on: the running task returns, the next task is called, or the call returns -/
  | go (t : T)
  /-- the running task raises -/
  | throw (t : T)

def St.set (s : St K T) (t : T) (fs : List Frame) : St K T := { s with calls := Function.update s.calls t fs }

/-- A thread may call if it does nothing with the set or is in a task. -/
def mayCall : List Frame → Bool
  | [] => true
  | f :: _ => f.cur.isSome

/-- Lines 64-65. -/
def goFrame (s : St K T) (t : T) (f : Frame) (fs : List Frame) : St K T :=
  match f.cur with
  | some _ => s.set t ({ f with cur := none } :: fs)
  | none =>
    match f.pend with
    | [] => s.set t fs
    | x :: r => { s.set t ({ f with pend := r, cur := some x } :: fs) with runs := s.runs ++ [x] }

def step (s : St K T) : Act K T → Option (St K T)
  | .add k => some { s with dict := dset s.dict k s.keys.length, keys := s.keys ++ [k],
                            replaced := s.replaced ++ (dget s.dict k).toList }
  | .clear k => some { s with dict := ddel s.dict k, cleared := s.cleared ++ (dget s.dict k).toList }
  | .call t =>
    if mayCall (s.calls t) then
      some { s.set t (⟨s.dict.map Prod.snd, none, s.dict.map Prod.snd⟩ :: s.calls t) with dict := [] }
    else none
  | .go t =>
    match s.calls t with
    | [] => none
    | f :: fs => some (goFrame s t f fs)
  | .throw t =>
    match s.calls t with
    | [] => none
    | f :: fs =>
      match f.cur with
      | some x => some { s.set t fs with dropped := s.dropped ++ f.pend, raised := s.raised ++ [x] }
      | none => none

/-- A schedule from one state to another. -/
inductive Steps : St K T → St K T → Prop where
  | refl (s : St K T) : Steps s s
  | step {s s1 s2 : St K T} (a : Act K T) (hr : Steps s s1) (h : step s1 a = some s2) : Steps s s2

def Reach (s : St K T) : Prop := Steps St.init s

/-! ### Invariant -/

def pendBy : List Frame → Multiset ℕ
  | [] => 0
  | f :: fs => (f.pend : Multiset ℕ) + pendBy fs

def tasks (d : List (K × ℕ)) : Multiset ℕ := (d.map Prod.snd : List ℕ)

variable [Fintype T]

structure Inv (s : St K T) : Prop where
  all : ((List.range s.keys.length : List ℕ) : Multiset ℕ) =
    tasks s.dict + (∑ t, pendBy (s.calls t)) + s.runs + s.replaced + s.cleared + s.dropped
  nodup : (dkeys s.dict).Nodup
  latest : ∀ k x, dget s.dict k = some x → s.keys[x]? = some k ∧ ∀ y : ℕ, s.keys[y]? = some k → y ≤ x
  replaced : ∀ x ∈ s.replaced, ∃ y : ℕ, x < y ∧ ∃ k, s.keys[x]? = some k ∧ s.keys[y]? = some k
  frames : ∀ t, ∀ f ∈ s.calls t, ∃ d, f.batch = d ++ f.pend ∧ d.Sublist s.runs

theorem sum_set (s : St K T) (t : T) (fs : List Frame) :
    (∑ u, pendBy ((s.set t fs).calls u)) + pendBy (s.calls t) = (∑ u, pendBy (s.calls u)) + pendBy fs := by
  have h1 : ∀ u, pendBy ((s.set t fs).calls u) = Function.update (fun u => pendBy (s.calls u)) t (pendBy fs) u := by
    intro u
    simp only [St.set, Function.update_apply]
    split <;> rfl
  rw [Finset.sum_congr rfl fun u _ => h1 u, Finset.sum_update_of_mem (Finset.mem_univ t),
    ← Finset.add_sum_erase Finset.univ (fun u => pendBy (s.calls u)) (Finset.mem_univ t), Finset.sdiff_singleton_eq_erase]
  abel

theorem sum_repl {s : St K T} {t : T} {f : Frame} {fs : List Frame} (hfs : s.calls t = f :: fs) (g : Frame) :
    (∑ u, pendBy ((s.set t (g :: fs)).calls u)) + (f.pend : Multiset ℕ) = (∑ u, pendBy (s.calls u)) + (g.pend : Multiset ℕ) := by
  have := sum_set s t (g :: fs)
  rw [hfs, pendBy, pendBy, ← add_assoc, ← add_assoc] at this
  exact add_right_cancel this

theorem sum_pop {s : St K T} {t : T} {f : Frame} {fs : List Frame} (hfs : s.calls t = f :: fs) :
    (∑ u, pendBy ((s.set t fs).calls u)) + (f.pend : Multiset ℕ) = ∑ u, pendBy (s.calls u) := by
  have := sum_set s t fs
  rw [hfs, pendBy, ← add_assoc] at this
  exact add_right_cancel this

theorem sum_push (s : St K T) (t : T) (g : Frame) :
    (∑ u, pendBy ((s.set t (g :: s.calls t)).calls u)) = (∑ u, pendBy (s.calls u)) + (g.pend : Multiset ℕ) := by
  have := sum_set s t (g :: s.calls t)
  rw [pendBy, ← add_assoc] at this
  exact add_right_cancel this

theorem tasks_cons (e : K × ℕ) (d : List (K × ℕ)) : tasks (e :: d) = {e.2} + tasks d := by
  simp only [tasks, List.map_cons, ← Multiset.cons_coe, Multiset.singleton_add]

theorem tasks_dset (d : List (K × ℕ)) (k : K) (x : ℕ) :
    tasks (dset d k x) + ((dget d k).toList : Multiset ℕ) = tasks d + {x} := by
  induction d with
  | nil => simp [dset, dget, tasks]
  | cons e d ih =>
    obtain ⟨k', y⟩ := e
    by_cases h : k' = k
    · simp only [dset, dget, if_pos h, tasks_cons, Option.toList_some, Multiset.coe_singleton]
      abel
    · simp only [dset, dget, if_neg h, tasks_cons]
      rw [add_assoc, ih]
      abel

theorem tasks_ddel (d : List (K × ℕ)) (k : K) :
    tasks (ddel d k) + ((dget d k).toList : Multiset ℕ) = tasks d := by
  induction d with
  | nil => simp [ddel, dget, tasks]
  | cons e d ih =>
    obtain ⟨k', y⟩ := e
    by_cases h : k' = k
    · simp only [ddel, dget, if_pos h, tasks_cons, Option.toList_some, Multiset.coe_singleton]
      abel
    · simp only [ddel, dget, if_neg h, tasks_cons]
      rw [add_assoc, ih]

theorem mem_dset {d : List (K × ℕ)} {k : K} {x : ℕ} {e : K × ℕ} (h : e ∈ dset d k x) : e = (k, x) ∨ e ∈ d := by
  induction d with
  | nil => simpa [dset] using h
  | cons e' d ih =>
    obtain ⟨k', y⟩ := e'
    simp only [dset] at h
    split at h
    · rcases List.mem_cons.1 h with h | h
      · exact .inl h
      · exact .inr (List.mem_cons_of_mem _ h)
    · rcases List.mem_cons.1 h with h | h
      · exact .inr (h ▸ List.mem_cons_self)
      · exact (ih h).imp id (List.mem_cons_of_mem _)

theorem inv_init : Inv (St.init : St K T) :=
  ⟨by simp [St.init, pendBy, tasks], by simp [St.init, dkeys], by simp [St.init, dget], by simp [St.init], by simp [St.init]⟩

theorem frames_set {s s' : St K T} (h : Inv s) {t : T} {fs : List Frame} (hc : s'.calls = Function.update s.calls t fs)
    (hr : s.runs.Sublist s'.runs) (hf : ∀ f ∈ fs, (∃ d, f.batch = d ++ f.pend ∧ d.Sublist s'.runs) ∨ f ∈ s.calls t) :
    ∀ u, ∀ f ∈ s'.calls u, ∃ d, f.batch = d ++ f.pend ∧ d.Sublist s'.runs := by
  have old : ∀ u, ∀ f ∈ s.calls u, ∃ d, f.batch = d ++ f.pend ∧ d.Sublist s'.runs := fun u f hf => by
    obtain ⟨d, h1, h2⟩ := h.frames u f hf
    exact ⟨d, h1, h2.trans hr⟩
  intro u f hfu
  rw [hc, Function.update_apply] at hfu
  split at hfu
  · rcases hf f hfu with h' | h'
    · exact h'
    · exact old t f h'
  · exact old u f hfu

theorem Inv.mem_lt {s : St K T} (h : Inv s) {x : ℕ} (hx : x ∈ tasks s.dict + (∑ t, pendBy (s.calls t)) + s.runs + s.replaced + s.cleared +
    s.dropped) : x < s.keys.length := by
  rw [← h.all, Multiset.mem_coe, List.mem_range] at hx
  exact hx

theorem Inv.replaced_lt {s : St K T} (h : Inv s) {x : ℕ} (hx : x ∈ s.replaced) : x < s.keys.length :=
  h.mem_lt (by simp [hx])

theorem inv_step {s s' : St K T} (h : Inv s) (a : Act K T) (hs : step s a = some s') : Inv s' := by
  cases a with
  | add k =>
    simp only [step, Option.some.injEq] at hs
    subst hs
    have hnew : ∀ (y : ℕ) k', (s.keys ++ [k])[y]? = some k' → (s.keys[y]? = some k' ∨ (y = s.keys.length ∧ k' = k)) := by
      intro y k' hy
      rw [List.getElem?_append] at hy
      split at hy
      · exact .inl hy
      · rename_i hlt
        obtain ⟨h1, h2⟩ := List.getElem?_eq_some_iff.1 hy
        have : y = s.keys.length := by simp at h1; omega
        subst this
        simp at h2
        exact .inr ⟨rfl, h2.symm⟩
    have hold : ∀ (y : ℕ) k', s.keys[y]? = some k' → (s.keys ++ [k])[y]? = some k' := by
      intro y k' hy
      rw [List.getElem?_append_left (List.getElem?_eq_some_iff.1 hy).1, hy]
    refine ⟨?_, nodup_dset h.nodup _ _, ?_, ?_, h.frames⟩
    · simp only [List.length_append, List.length_singleton, List.range_succ]
      rw [← Multiset.coe_add, h.all, ← Multiset.coe_add, Multiset.coe_singleton]
      have := tasks_dset s.dict k s.keys.length
      calc _ = (tasks s.dict + {s.keys.length}) + (∑ t, pendBy (s.calls t)) + s.runs + s.replaced + s.cleared + s.dropped := by abel
        _ = _ := by rw [← this]; abel
    · intro k' x hx
      rw [dget_dset] at hx
      split at hx
      · rename_i hk
        subst hk
        simp only [Option.some.injEq] at hx
        subst hx
        refine ⟨by simp, fun y hy => ?_⟩
        have := (List.getElem?_eq_some_iff.1 hy).1
        simp at this
        omega
      · rename_i hk
        obtain ⟨h1, h2⟩ := h.latest k' x hx
        refine ⟨hold _ _ h1, fun y hy => ?_⟩
        rcases hnew y k' hy with h' | ⟨_, h'⟩
        · exact h2 y h'
        · exact absurd h'.symm hk
    · intro x hx
      rcases List.mem_append.1 hx with hx | hx
      · obtain ⟨y, h1, k', h2, h3⟩ := h.replaced x hx
        exact ⟨y, h1, k', hold _ _ h2, hold _ _ h3⟩
      · obtain ⟨h1, h2⟩ := h.latest k x (by simpa using hx)
        exact ⟨s.keys.length, (List.getElem?_eq_some_iff.1 h1).1, k, hold _ _ h1, by simp⟩
  | clear k =>
    simp only [step, Option.some.injEq] at hs
    subst hs
    refine ⟨?_, nodup_ddel h.nodup _, ?_, h.replaced, h.frames⟩
    · have := tasks_ddel s.dict k
      simp only
      rw [h.all, ← this, ← Multiset.coe_add]
      abel
    · intro k' x hx
      rw [dget_ddel h.nodup] at hx
      split at hx
      · cases hx
      · exact h.latest k' x hx
  | call t =>
    simp only [step] at hs
    split at hs
    · simp only [Option.some.injEq] at hs
      subst hs
      refine ⟨?_, by simp [dkeys], by simp [dget], h.replaced, ?_⟩
      · have := sum_push s t ⟨s.dict.map Prod.snd, none, s.dict.map Prod.snd⟩
        change ((List.range s.keys.length : List ℕ) : Multiset ℕ) = tasks [] +
          (∑ u, pendBy ((s.set t (⟨s.dict.map Prod.snd, none, s.dict.map Prod.snd⟩ :: s.calls t)).calls u)) + s.runs + s.replaced +
          s.cleared + s.dropped
        rw [this, h.all]
        simp only [tasks, List.map_nil, Multiset.coe_nil]
        abel
      · refine frames_set h (t := t) rfl (List.Sublist.refl _) fun f hf => ?_
        rcases List.mem_cons.1 hf with rfl | hf
        · exact .inl ⟨[], rfl, List.nil_sublist _⟩
        · exact .inr hf
    · cases hs
  | go t =>
    simp only [step] at hs
    split at hs
    · cases hs
    · rename_i f fs hfs
      simp only [Option.some.injEq] at hs
      subst hs
      obtain ⟨d, hd1, hd2⟩ := h.frames t f (by simp [hfs])
      cases hc : f.cur with
      | some x =>
        simp only [goFrame, hc]
        refine ⟨?_, h.nodup, h.latest, h.replaced, ?_⟩
        · have := sum_repl hfs { f with cur := none }
          rw [add_right_cancel this]
          exact h.all
        · refine frames_set h (t := t) rfl (List.Sublist.refl _) fun g hg => ?_
          rcases List.mem_cons.1 hg with rfl | hg
          · exact .inl ⟨d, hd1, hd2⟩
          · exact .inr (by simp [hfs, hg])
      | none =>
        cases hp : f.pend with
        | nil =>
          simp only [goFrame, hc, hp]
          refine ⟨?_, h.nodup, h.latest, h.replaced, ?_⟩
          · have := sum_pop hfs
            rw [hp, Multiset.coe_nil, add_zero] at this
            rw [this]
            exact h.all
          · exact frames_set h (t := t) rfl (List.Sublist.refl _) fun g hg => .inr (by simp [hfs, hg])
        | cons x r =>
          simp only [goFrame, hc, hp]
          refine ⟨?_, h.nodup, h.latest, h.replaced, ?_⟩
          · have := sum_repl hfs { f with pend := r, cur := some x }
            rw [hp, ← Multiset.cons_coe, ← Multiset.singleton_add] at this
            change ((List.range s.keys.length : List ℕ) : Multiset ℕ) = tasks s.dict +
              (∑ u, pendBy ((s.set t ({ f with pend := r, cur := some x } :: fs)).calls u)) + (s.runs ++ [x] : List ℕ) + s.replaced +
              s.cleared + s.dropped
            have h2 : (∑ u, pendBy ((s.set t ({ f with pend := r, cur := some x } :: fs)).calls u)) + {x} =
                ∑ u, pendBy (s.calls u) := by
              apply add_right_cancel (b := (r : Multiset ℕ))
              rw [← this]
              abel
            rw [h.all, ← h2, ← Multiset.coe_add, Multiset.coe_singleton]
            abel
          · refine frames_set h (t := t) rfl (List.sublist_append_left _ _) fun g hg => ?_
            rcases List.mem_cons.1 hg with rfl | hg
            · refine .inl ⟨d ++ [x], ?_, hd2.append (List.Sublist.refl _)⟩
              simp only [hd1, hp, List.append_assoc, List.singleton_append]
            · exact .inr (by simp [hfs, hg])
  | throw t =>
    simp only [step] at hs
    split at hs
    · cases hs
    · rename_i f fs hfs
      split at hs
      · rename_i x hx
        simp only [Option.some.injEq] at hs
        subst hs
        refine ⟨?_, h.nodup, h.latest, h.replaced, ?_⟩
        · have := sum_pop hfs
          change ((List.range s.keys.length : List ℕ) : Multiset ℕ) = tasks s.dict + (∑ u, pendBy ((s.set t fs).calls u)) + s.runs +
            s.replaced + s.cleared + (s.dropped ++ f.pend : List ℕ)
          rw [h.all, ← this, ← Multiset.coe_add]
          abel
        · exact frames_set h (t := t) rfl (List.Sublist.refl _) fun g hg => .inr (by simp [hfs, hg])
      · cases hs

theorem inv_steps {s s' : St K T} (h : Inv s) (hr : Steps s s') : Inv s' := by
  induction hr with
  | refl => exact h
  | step a _ hs ih => exact inv_step ih a hs

theorem inv_reach {s : St K T} (h : Reach s) : Inv s := inv_steps inv_init h

/-! ### C114 -/

/-- C114: every task added is accounted for exactly once: it is in the set, in the batch of a call that has not come to it, called,
replaced, cleared, or dropped by an exception. So no task is called twice. -/
theorem C114_once {s : St K T} (h : Reach s) :
    s.runs.Nodup ∧ ((List.range s.keys.length : List ℕ) : Multiset ℕ) =
      (s.dict.map Prod.snd : List ℕ) + (∑ t, pendBy (s.calls t)) + s.runs + s.replaced + s.cleared + s.dropped := by
  have hi := inv_reach h
  refine ⟨?_, hi.all⟩
  have hn : ((List.range s.keys.length : List ℕ) : Multiset ℕ).Nodup := Multiset.coe_nodup.2 List.nodup_range
  rw [← Multiset.coe_nodup]
  refine Multiset.nodup_of_le ?_ hn
  rw [hi.all]
  have : (tasks s.dict + (∑ t, pendBy (s.calls t)) + s.runs + s.replaced + s.cleared + s.dropped) =
      (s.runs : Multiset ℕ) + (tasks s.dict + (∑ t, pendBy (s.calls t)) + s.replaced + s.cleared + s.dropped) := by abel
  rw [this]
  exact Multiset.le_add_right _ _

/-- C114: the task in the set for a key is the one added last for it; a task is replaced only by a later one for the same key. -/
theorem C114_latest {s : St K T} (h : Reach s) :
    (∀ k x, (k, x) ∈ s.dict → s.keys[x]? = some k ∧ ∀ y : ℕ, s.keys[y]? = some k → y ≤ x) ∧
    ∀ x ∈ s.replaced, ∃ y : ℕ, x < y ∧ ∃ k, s.keys[x]? = some k ∧ s.keys[y]? = some k :=
  ⟨fun k x hx => (inv_reach h).latest k x (dget_of_mem (inv_reach h).nodup hx), (inv_reach h).replaced⟩

/-- Schedules during which thread `t` has more than `n` calls in progress. -/
inductive StepsAbove (t : T) (n : ℕ) : St K T → St K T → Prop where
  | refl (s : St K T) : StepsAbove t n s s
  | step {s s1 s2 : St K T} (a : Act K T) (hr : StepsAbove t n s s1) (h : step s1 a = some s2) (hn : n < (s2.calls t).length) :
      StepsAbove t n s s2

theorem StepsAbove.steps {t : T} {n : ℕ} {s s' : St K T} (h : StepsAbove t n s s') : Steps s s' := by
  induction h with
  | refl => exact .refl _
  | step a _ hs _ ih => exact .step a ih hs

/-- The call at depth `l.length` is still there, with its batch. -/
def Has (l : List Frame) (b : List ℕ) (fs : List Frame) : Prop := ∃ gs f, fs = gs ++ f :: l ∧ f.batch = b

theorem has_tail {l : List Frame} {b : List ℕ} {f : Frame} {fs : List Frame} (h : Has l b (f :: fs)) (hn : l.length < fs.length) :
    Has l b fs := by
  obtain ⟨gs, g, e, hb⟩ := h
  cases gs with
  | nil => simp only [List.nil_append, List.cons.injEq] at e; rw [e.2] at hn; omega
  | cons g' gs => simp only [List.cons_append, List.cons.injEq] at e; exact ⟨gs, g, e.2, hb⟩

theorem has_repl {l : List Frame} {b : List ℕ} {f f' : Frame} {fs : List Frame} (h : Has l b (f :: fs)) (hf : f'.batch = f.batch) :
    Has l b (f' :: fs) := by
  obtain ⟨gs, g, e, hb⟩ := h
  cases gs with
  | nil =>
    simp only [List.nil_append, List.cons.injEq] at e
    exact ⟨[], f', by simp [e.2], by rw [hf, e.1, hb]⟩
  | cons g' gs =>
    simp only [List.cons_append, List.cons.injEq] at e
    exact ⟨f' :: gs, g, by simp [e.2], hb⟩

theorem has_step {s s' : St K T} {t : T} {l : List Frame} {b : List ℕ} (h : Has l b (s.calls t)) (a : Act K T) (hs : step s a = some s')
    (hn : l.length < (s'.calls t).length) : Has l b (s'.calls t) := by
  cases a with
  | add k => simp only [step, Option.some.injEq] at hs; subst hs; exact h
  | clear k => simp only [step, Option.some.injEq] at hs; subst hs; exact h
  | call u =>
    simp only [step] at hs
    split at hs
    · simp only [Option.some.injEq] at hs
      subst hs
      by_cases htu : t = u
      · subst htu
        obtain ⟨gs, g, e, hb⟩ := h
        refine ⟨⟨s.dict.map Prod.snd, none, s.dict.map Prod.snd⟩ :: gs, g, ?_, hb⟩
        simp only [St.set, Function.update_self]
        rw [e]; rfl
      · simpa [St.set, Function.update_of_ne htu] using h
    · cases hs
  | go u =>
    simp only [step] at hs
    split at hs
    · cases hs
    · rename_i f fs hfs
      simp only [Option.some.injEq] at hs
      subst hs
      by_cases htu : t = u
      · subst htu
        rw [hfs] at h
        unfold goFrame at hn ⊢
        split
        · simp only [St.set, Function.update_self]
          exact has_repl h rfl
        · rename_i hc
          rw [hc] at hn
          split
          · rename_i hp
            rw [hp] at hn
            simp only [St.set, Function.update_self] at hn ⊢
            exact has_tail h hn
          · simp only [St.set, Function.update_self]
            exact has_repl h rfl
      · have : (goFrame s u f fs).calls t = s.calls t := by
          unfold goFrame
          split
          · simp [St.set, Function.update_of_ne htu]
          · split <;> simp [St.set, Function.update_of_ne htu]
        rw [this]; exact h
  | throw u =>
    simp only [step] at hs
    split at hs
    · cases hs
    · rename_i f fs hfs
      split at hs
      · simp only [Option.some.injEq] at hs
        subst hs
        by_cases htu : t = u
        · subst htu
          rw [hfs] at h
          simp only [St.set, Function.update_self] at hn ⊢
          exact has_tail h hn
        · simpa [St.set, Function.update_of_ne htu] using h
      · cases hs

/-- C114: when a call of `perform_tasks` returns (`s3`), all tasks that were in the set when it took the lock (`s`) have been called, in
the order of the set, and a call that raises has left out the rest (`dropped`, `C114_once`). -/
theorem C114_batch {s s1 s2 s3 : St K T} {t : T} (h : Reach s) (hc : step s (.call t) = some s1)
    (hr : StepsAbove t (s.calls t).length s1 s2) (hg : step s2 (.go t) = some s3) (hret : s3.calls t = s.calls t) :
    (s.dict.map Prod.snd).Sublist s3.runs := by
  have hi := inv_steps (inv_step (inv_reach h) _ hc) hr.steps
  have h1 : Has (s.calls t) (s.dict.map Prod.snd) (s1.calls t) := by
    simp only [step] at hc
    split at hc
    · simp only [Option.some.injEq] at hc
      subst hc
      exact ⟨[], ⟨s.dict.map Prod.snd, none, s.dict.map Prod.snd⟩, by simp [St.set], rfl⟩
    · cases hc
  have h2 : Has (s.calls t) (s.dict.map Prod.snd) (s2.calls t) := by
    clear hg hi
    induction hr with
    | refl => exact h1
    | step a _ hs hn ih => exact has_step ih a hs hn
  obtain ⟨gs, f, e, hb⟩ := h2
  have hlen : gs = [] := by
    simp only [step] at hg
    cases hcs : s2.calls t with
    | nil => rw [hcs] at hg; cases hg
    | cons g fs =>
      rw [hcs] at hg e
      simp only [Option.some.injEq] at hg
      subst hg
      cases gs with
      | nil => rfl
      | cons g' gs =>
        exfalso
        simp only [List.cons_append, List.cons.injEq] at e
        have hl := congrArg List.length e.2
        have hr' := congrArg List.length hret
        simp only [List.length_append, List.length_cons] at hl
        unfold goFrame at hr'
        split at hr'
        · simp [St.set] at hr'; omega
        · split at hr' <;> simp [St.set] at hr' <;> omega
  subst hlen
  simp only [List.nil_append] at e
  obtain ⟨d, h3, h4⟩ := hi.frames t f (by simp [e])
  simp only [step, e, Option.some.injEq] at hg
  subst hg
  have hne : ∀ (g : Frame), (s2.set t (g :: s.calls t)).calls t ≠ s.calls t := by
    intro g e
    have := congrArg List.length e
    simp [St.set] at this
  unfold goFrame at hret ⊢
  cases hcur : f.cur with
  | some x => rw [hcur] at hret; exact absurd hret (hne _)
  | none =>
    rw [hcur] at hret
    cases hp : f.pend with
    | nil =>
      rw [← hb, h3, hp, List.append_nil]
      exact h4
    | cons x r => rw [hp] at hret; exact absurd hret (hne _)

theorem mono_step {s s' : St K T} (a : Act K T) (hs : step s a = some s') :
    s.replaced ⊆ s'.replaced ∧ s.cleared ⊆ s'.cleared ∧ s.dropped ⊆ s'.dropped := by
  cases a with
  | add k => simp only [step, Option.some.injEq] at hs; subst hs; simp
  | clear k => simp only [step, Option.some.injEq] at hs; subst hs; simp
  | call t => simp only [step] at hs; split at hs <;> simp only [Option.some.injEq, reduceCtorEq] at hs; subst hs; simp [St.set]
  | go t =>
    simp only [step] at hs
    split at hs
    · cases hs
    · simp only [Option.some.injEq] at hs
      subst hs
      unfold goFrame
      split
      · simp [St.set]
      · split <;> simp [St.set]
  | throw t =>
    simp only [step] at hs
    split at hs
    · cases hs
    · split at hs <;> simp only [Option.some.injEq, reduceCtorEq] at hs
      subst hs; simp [St.set]

theorem mono_steps {s s' : St K T} (hr : Steps s s') :
    s.replaced ⊆ s'.replaced ∧ s.cleared ⊆ s'.cleared ∧ s.dropped ⊆ s'.dropped := by
  induction hr with
  | refl => exact ⟨fun _ h => h, fun _ h => h, fun _ h => h⟩
  | step a _ hs ih =>
    obtain ⟨h1, h2, h3⟩ := mono_step a hs
    exact ⟨fun _ h => h1 (ih.1 h), fun _ h => h2 (ih.2.1 h), fun _ h => h3 (ih.2.2 h)⟩

/-- A task that was replaced, cleared or dropped is not called. -/
theorem not_run {s : St K T} (h : Inv s) {x : ℕ} (hx : x ∈ s.replaced ∨ x ∈ s.cleared ∨ x ∈ s.dropped) : x ∉ s.runs := by
  intro hr
  have hn : Multiset.count x ((List.range s.keys.length : List ℕ) : Multiset ℕ) ≤ 1 :=
    Multiset.nodup_iff_count_le_one.1 (Multiset.coe_nodup.2 List.nodup_range) x
  rw [h.all] at hn
  simp only [Multiset.count_add] at hn
  have h1 : 0 < Multiset.count x (s.runs : Multiset ℕ) := Multiset.count_pos.2 (Multiset.mem_coe.2 hr)
  rcases hx with hx | hx | hx
  · have : 0 < Multiset.count x (s.replaced : Multiset ℕ) := Multiset.count_pos.2 (Multiset.mem_coe.2 hx)
    omega
  · have : 0 < Multiset.count x (s.cleared : Multiset ℕ) := Multiset.count_pos.2 (Multiset.mem_coe.2 hx)
    omega
  · have : 0 < Multiset.count x (s.dropped : Multiset ℕ) := Multiset.count_pos.2 (Multiset.mem_coe.2 hx)
    omega

theorem mem_pendBy {s : St K T} {x : ℕ} (h : x ∈ ∑ t, pendBy (s.calls t)) : ∃ t, ∃ f ∈ s.calls t, x ∈ f.pend := by
  obtain ⟨t, _, ht⟩ := Multiset.mem_sum.1 h
  refine ⟨t, ?_⟩
  generalize s.calls t = fs at ht
  induction fs with
  | nil => simp [pendBy] at ht
  | cons f fs ih =>
    rw [pendBy, Multiset.mem_add] at ht
    rcases ht with ht | ht
    · exact ⟨f, List.mem_cons_self, by simpa using ht⟩
    · obtain ⟨g, hg, hx⟩ := ih ht
      exact ⟨g, List.mem_cons_of_mem _ hg, hx⟩

/-- C114, the part that holds for clear_task: if no call in progress has yet to call a task for the key, then after `clear_task` no task
that was added for it before is called any more. (Missing: calls in progress, for which it is false.) -/
theorem C114_cleared_partial {s s1 s2 : St K T} {k : K} (h : Reach s)
    (hp : ∀ t, ∀ f ∈ s.calls t, ∀ x ∈ f.pend, s.keys[x]? ≠ some k) (hc : step s (.clear k) = some s1) (hr : Steps s1 s2) (x : ℕ)
    (hx : s.keys[x]? = some k) (hrun : x ∈ s2.runs) : x ∈ s.runs := by
  have hi := inv_reach h
  have hi2 := inv_steps (inv_step hi _ hc) hr
  obtain ⟨m1, m2, m3⟩ := mono_steps hr
  have hmem : x ∈ tasks s.dict + (∑ t, pendBy (s.calls t)) + s.runs + s.replaced + s.cleared + s.dropped := by
    rw [← hi.all, Multiset.mem_coe, List.mem_range]
    exact (List.getElem?_eq_some_iff.1 hx).1
  simp only [step, Option.some.injEq] at hc
  subst hc
  simp only [Multiset.mem_add, Multiset.mem_coe] at hmem
  rcases hmem with ((((hd | hpe) | hru) | hre) | hcl) | hdr
  · obtain ⟨⟨k', x'⟩, he, rfl⟩ := List.mem_map.1 (Multiset.mem_coe.1 hd)
    have hl := hi.latest k' x' (dget_of_mem hi.nodup he)
    have hk : k' = k := by
      have := hl.1.symm.trans hx
      exact Option.some.inj this
    subst hk
    have : x' ∈ s2.cleared := m2 (by
      simp only [List.mem_append, Option.mem_toList]
      exact .inr (dget_of_mem hi.nodup he))
    exact absurd hrun (not_run hi2 (.inr (.inl this)))
  · obtain ⟨t, f, hf, hxf⟩ := mem_pendBy hpe
    exact absurd hx (hp t f hf x hxf)
  · exact hru
  · exact absurd hrun (not_run hi2 (.inl (m1 hre)))
  · exact absurd hrun (not_run hi2 (.inr (.inl (m2 (List.mem_append_left _ hcl)))))
  · exact absurd hrun (not_run hi2 (.inr (.inr (m3 hdr))))

/-! ### Order -/

/-- Schedules in which `perform_tasks` is not called while a call is in progress. -/
inductive StepsAlone : St K T → St K T → Prop where
  | refl (s : St K T) : StepsAlone s s
  | step {s s1 s2 : St K T} (a : Act K T) (hr : StepsAlone s s1) (ha : ∀ t, a = .call t → ∀ u, s1.calls u = [])
      (h : step s1 a = some s2) : StepsAlone s s2

theorem StepsAlone.steps {s s' : St K T} (h : StepsAlone s s') : Steps s s' := by
  induction h with
  | refl => exact .refl _
  | step a _ _ hs ih => exact .step a ih hs

structure Ordered (s : St K T) : Prop where
  one : ∀ t f fs, s.calls t = f :: fs → fs = [] ∧ ∀ u, u ≠ t → s.calls u = []
  rr : s.runs.Pairwise fun x y => s.keys[x]? = s.keys[y]? → x < y
  rp : ∀ x ∈ s.runs, ∀ t, ∀ f ∈ s.calls t, ∀ y ∈ f.pend, s.keys[x]? = s.keys[y]? → x < y
  rd : ∀ x ∈ s.runs, ∀ e ∈ s.dict, s.keys[x]? = s.keys[e.2]? → x < e.2
  pp : ∀ t, ∀ f ∈ s.calls t, f.pend.Pairwise fun x y => s.keys[x]? ≠ s.keys[y]?
  pd : ∀ t, ∀ f ∈ s.calls t, ∀ x ∈ f.pend, ∀ e ∈ s.dict, s.keys[x]? = s.keys[e.2]? → x < e.2

theorem mem_pend_sum {s : St K T} {t : T} {f : Frame} (hf : f ∈ s.calls t) {x : ℕ} (hx : x ∈ f.pend) : x ∈ ∑ t, pendBy (s.calls t) := by
  refine Multiset.mem_sum.2 ⟨t, Finset.mem_univ t, ?_⟩
  generalize s.calls t = fs at hf
  induction fs with
  | nil => cases hf
  | cons g fs ih =>
    rw [pendBy, Multiset.mem_add]
    rcases List.mem_cons.1 hf with rfl | hf
    · exact .inl (by simpa using hx)
    · exact .inr (ih hf)

theorem ordered_step {s s' : St K T} (hi : Inv s) (h : Ordered s) (a : Act K T) (ha : ∀ t, a = .call t → ∀ u, s.calls u = [])
    (hs : step s a = some s') : Ordered s' := by
  cases a with
  | add k =>
    simp only [step, Option.some.injEq] at hs
    subst hs
    have lr : ∀ x ∈ s.runs, x < s.keys.length := fun x hx => hi.mem_lt (by simp [hx])
    have lp : ∀ t, ∀ f ∈ s.calls t, ∀ x ∈ f.pend, x < s.keys.length := fun t f hf x hx => hi.mem_lt (by
      have := mem_pend_sum hf hx
      simp only [Multiset.mem_add]; tauto)
    have ld : ∀ e ∈ s.dict, e.2 < s.keys.length := fun e he => hi.mem_lt (by
      have : e.2 ∈ tasks s.dict := by simp only [tasks, Multiset.mem_coe]; exact List.mem_map_of_mem he
      simp only [Multiset.mem_add]; tauto)
    have hk : ∀ x, x < s.keys.length → (s.keys ++ [k])[x]? = s.keys[x]? := fun x hx => List.getElem?_append_left hx
    refine ⟨h.one, ?_, ?_, ?_, ?_, ?_⟩
    · refine h.rr.imp_of_mem fun hx hy hh => ?_
      simp only
      rw [hk _ (lr _ hx), hk _ (lr _ hy)]
      exact hh
    · intro x hx t f hf y hy
      simp only
      rw [hk _ (lr _ hx), hk _ (lp t f hf _ hy)]
      exact h.rp x hx t f hf y hy
    · intro x hx e he
      rcases mem_dset he with rfl | he
      · exact fun _ => lr x hx
      · simp only
        rw [hk _ (lr _ hx), hk _ (ld _ he)]
        exact h.rd x hx e he
    · intro t f hf
      refine (h.pp t f hf).imp_of_mem fun hx hy hh => ?_
      simp only
      rw [hk _ (lp t f hf _ hx), hk _ (lp t f hf _ hy)]
      exact hh
    · intro t f hf x hx e he
      rcases mem_dset he with rfl | he
      · exact fun _ => lp t f hf x hx
      · simp only
        rw [hk _ (lp t f hf _ hx), hk _ (ld _ he)]
        exact h.pd t f hf x hx e he
  | clear k =>
    simp only [step, Option.some.injEq] at hs
    subst hs
    have hsub := (ddel_sublist s.dict k).subset
    exact ⟨h.one, h.rr, h.rp, fun x hx e he => h.rd x hx e (hsub he), h.pp, fun t f hf x hx e he => h.pd t f hf x hx e (hsub he)⟩
  | call t =>
    have hall := ha t rfl
    simp only [step] at hs
    split at hs
    · simp only [Option.some.injEq] at hs
      subst hs
      have hf : ∀ u f, f ∈ (Function.update s.calls t (⟨s.dict.map Prod.snd, none, s.dict.map Prod.snd⟩ :: s.calls t)) u →
          f = ⟨s.dict.map Prod.snd, none, s.dict.map Prod.snd⟩ := by
        intro u f hfu
        rw [Function.update_apply] at hfu
        split at hfu
        · rw [hall t] at hfu; simpa using hfu
        · rw [hall u] at hfu; cases hfu
      refine ⟨?_, h.rr, ?_, by simp, ?_, by simp⟩
      · intro u f fs hu
        simp only [St.set, Function.update_apply] at hu
        split at hu
        · rename_i hut
          subst hut
          rw [hall u] at hu
          refine ⟨by simp at hu; exact hu.2, fun v hv => ?_⟩
          simp only [St.set, Function.update_of_ne hv]
          exact hall v
        · rw [hall u] at hu; cases hu
      · intro x hx u f hfu y hy
        rw [hf u f hfu] at hy
        obtain ⟨e, he, rfl⟩ := List.mem_map.1 hy
        exact h.rd x hx e he
      · intro u f hfu
        rw [hf u f hfu]
        simp only [St.set]
        rw [List.pairwise_map]
        have hn : s.dict.Pairwise fun a b => a.1 ≠ b.1 := by
          have := hi.nodup
          unfold dkeys List.Nodup at this
          rw [List.pairwise_map] at this
          exact this
        refine hn.imp_of_mem fun {a b} hab hb hne => ?_
        rw [(hi.latest a.1 a.2 (dget_of_mem hi.nodup hab)).1, (hi.latest b.1 b.2 (dget_of_mem hi.nodup hb)).1]
        exact fun e => hne (Option.some.inj e)
    · cases hs
  | go t =>
    simp only [step] at hs
    split at hs
    · cases hs
    · rename_i f fs hfs
      simp only [Option.some.injEq] at hs
      subst hs
      obtain ⟨rfl, hothers⟩ := h.one t f fs hfs
      have hft : f ∈ s.calls t := by simp [hfs]
      have hupd : ∀ (g : List Frame) u f', f' ∈ (Function.update s.calls t g) u → u = t ∧ f' ∈ g := by
        intro g u f' hf'
        rw [Function.update_apply] at hf'
        split at hf'
        · rename_i hut; exact ⟨hut, hf'⟩
        · rename_i hut; rw [hothers u hut] at hf'; cases hf'
      have hone : ∀ (g : List Frame), g.length ≤ 1 → ∀ u f' fs', (Function.update s.calls t g) u = f' :: fs' →
          fs' = [] ∧ ∀ v, v ≠ u → (Function.update s.calls t g) v = [] := by
        intro g hg u f' fs' hu
        rw [Function.update_apply] at hu
        split at hu
        · rename_i hut
          subst hut
          rw [hu] at hg
          refine ⟨List.length_eq_zero_iff.1 (by simp at hg; simpa using hg), fun v hv => ?_⟩
          rw [Function.update_of_ne hv]; exact hothers v hv
        · rename_i hut; rw [hothers u hut] at hu; cases hu
      unfold goFrame
      cases hc : f.cur with
      | some x =>
        simp only
        refine ⟨hone _ (by simp), h.rr, ?_, h.rd, ?_, ?_⟩
        · intro y hy u f' hf'
          obtain ⟨_, hg⟩ := hupd _ u f' hf'
          rw [List.mem_singleton.1 hg]
          exact h.rp y hy t f hft
        · intro u f' hf'
          obtain ⟨_, hg⟩ := hupd _ u f' hf'
          rw [List.mem_singleton.1 hg]
          exact h.pp t f hft
        · intro u f' hf'
          obtain ⟨_, hg⟩ := hupd _ u f' hf'
          rw [List.mem_singleton.1 hg]
          exact h.pd t f hft
      | none =>
        cases hp : f.pend with
        | nil =>
          simp only
          refine ⟨hone _ (by simp), h.rr, ?_, h.rd, ?_, ?_⟩
          · intro y hy u f' hf'
            cases (hupd _ u f' hf').2
          · intro u f' hf'
            cases (hupd _ u f' hf').2
          · intro u f' hf'
            cases (hupd _ u f' hf').2
        | cons x r =>
          simp only
          have hpp := h.pp t f hft
          rw [hp] at hpp
          obtain ⟨hx1, hx2⟩ := List.pairwise_cons.1 hpp
          refine ⟨hone _ (by simp), ?_, ?_, ?_, ?_, ?_⟩
          · simp only [St.set]
            rw [List.pairwise_append]
            refine ⟨h.rr, by simp, fun a ha b hb => ?_⟩
            rw [List.mem_singleton.1 hb]
            exact h.rp a ha t f hft x (by simp [hp])
          · intro y hy u f' hf' z hz
            obtain ⟨_, hg⟩ := hupd _ u f' hf'
            rw [List.mem_singleton.1 hg] at hz
            simp only [List.mem_append, List.mem_singleton] at hy
            rcases hy with hy | rfl
            · exact h.rp y hy t f hft z (by rw [hp]; exact List.mem_cons_of_mem _ hz)
            · exact fun e => absurd e (hx1 z hz)
          · intro y hy e he
            simp only [List.mem_append, List.mem_singleton] at hy
            rcases hy with hy | rfl
            · exact h.rd y hy e he
            · exact h.pd t f hft y (by simp [hp]) e he
          · intro u f' hf'
            obtain ⟨_, hg⟩ := hupd _ u f' hf'
            rw [List.mem_singleton.1 hg]
            exact hx2
          · intro u f' hf' y hy
            obtain ⟨_, hg⟩ := hupd _ u f' hf'
            rw [List.mem_singleton.1 hg] at hy
            exact h.pd t f hft y (by rw [hp]; exact List.mem_cons_of_mem _ hy)
  | throw t =>
    simp only [step] at hs
    split at hs
    · cases hs
    · rename_i f fs hfs
      obtain ⟨rfl, hothers⟩ := h.one t f fs hfs
      split at hs
      · simp only [Option.some.injEq] at hs
        subst hs
        have hno : ∀ u, (Function.update s.calls t []) u = [] := by
          intro u
          rw [Function.update_apply]
          split
          · rfl
          · rename_i hut; exact hothers u hut
        have hno' : ∀ u f', f' ∈ (Function.update s.calls t []) u → False := fun u f' hf' => by rw [hno u] at hf'; cases hf'
        exact ⟨fun u f' fs' hu => (List.cons_ne_nil f' fs' (hu.symm.trans (hno u))).elim, h.rr, fun _ _ u f' hf' => (hno' u f' hf').elim, h.rd,
          fun u f' hf' => (hno' u f' hf').elim, fun u f' hf' => (hno' u f' hf').elim⟩
      · cases hs

theorem ordered_steps {s0 s : St K T} (hi : Inv s0) (h0 : Ordered s0) (h : StepsAlone s0 s) : Ordered s := by
  induction h with
  | refl => exact h0
  | step a hr ha hs ih => exact ordered_step (inv_steps hi hr.steps) ih a ha hs

theorem ordered_init : Ordered (St.init : St K T) where
  one := by simp [St.init]
  rr := by simp [St.init]
  rp := by simp [St.init]
  rd := by simp [St.init]
  pp := by simp [St.init]
  pd := by simp [St.init]

/-- C114, the part that holds for the order: as long as `perform_tasks` is not called while a call is in progress, the tasks of one key
are called in the order in which they were added. (Missing: calls at the same time or inside tasks, for which it is false.) -/
theorem C114_order_partial {s : St K T} (h : StepsAlone St.init s) : s.runs.Pairwise fun x y => s.keys[x]? = s.keys[y]? → x < y :=
  (ordered_steps inv_init ordered_init h).rr

/-! ### Runs -/

def exec (s : St K T) : List (Act K T) → Option (St K T)
  | [] => some s
  | a :: as => (step s a).bind fun s' => exec s' as

theorem exec_steps {s s' : St K T} {as : List (Act K T)} (h : exec s as = some s') : Steps s s' := by
  have : ∀ (s0 : St K T), Steps s0 s → Steps s0 s' := by
    induction as generalizing s with
    | nil => intro s0 h0; obtain rfl : s = s' := by simpa [exec] using h
             exact h0
    | cons a as ih =>
      intro s0 h0
      simp only [exec] at h
      obtain ⟨s1, h1, h2⟩ := Option.bind_eq_some_iff.1 h
      exact ih h2 s0 (.step a h0 h1)
  exact this s (.refl s)

/-- The counterexample to C114: a task is called after `clear_task` for its key has returned. -/
theorem C114_counterexample_clear : ∃ s s1 s2 : St Nat Bool, Reach s ∧ step s (.clear 7) = some s1 ∧ Steps s1 s2 ∧
    s.keys[0]? = some 7 ∧ 0 ∉ s1.runs ∧ 0 ∈ s2.runs := by
  refine ⟨_, _, _, exec_steps (as := [.add 7, .call true]) rfl, rfl, exec_steps (as := [.go true]) rfl, ?_⟩
  decide

/-- The counterexample to C114: a task is called after the one that was added later for the same key. -/
theorem C114_counterexample_order : ∃ s : St Nat Bool, Reach s ∧ s.keys = [7, 7] ∧ s.runs = [1, 0] := by
  refine ⟨_, exec_steps (as := [.add 7, .call true, .add 7, .call false, .go false, .go true]) rfl, ?_⟩
  decide

/-- The same with one thread: a task adds a task and performs the tasks. -/
example : (exec (St.init : St Nat Unit) [.add 1, .add 7, .call (), .go (), .add 7, .call (), .go (), .go (), .go (), .go (), .go ()]).map
    (fun s => (s.keys, s.runs)) = some ([1, 7, 7], [0, 2, 1]) := by decide

/-- Two threads, a replaced and a cleared task, a task that raises. -/
example : (exec (St.init : St Nat Bool) [.add 1, .add 2, .add 1, .add 3, .clear 3, .call true, .add 5, .go true, .call false, .go false,
    .throw true]).map (fun s => (s.runs, s.replaced, s.cleared, s.dropped, s.raised)) = some ([2, 4], [0], [3], [1], [2]) := by decide

end Verif.Small.SetThreads
