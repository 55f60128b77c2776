import Verif.Small.RefCount
import Mathlib.Logic.Function.Basic
import Mathlib.Data.List.Perm.Subperm
import Mathlib.Tactic.Common

set_option linter.unusedSectionVars false

/-!
C110: a `ReferenceCounted` object (`nion/utils/ReferenceCounting.py:1-49`) used by several threads. Each thread has a stack of calls,
innermost first: `about_to_delete` may call `add_ref` and `remove_ref` on the object itself, the lock being re-entrant. The steps of a
call are: acquire the lock (32, 38), test the count (39), read the count and write it back (33, 40: `+=` and `-=` are a read and a
write), decide whether to delete (41-42), `about_to_delete` (43), release the lock. The context manager (17-26) makes the same calls.
-/

namespace Verif.Small.RefThreads

open Verif.RefCount (Ev Spec balance balance_append spec_count_delete)

inductive Op where
  | add
  | rem (check : Bool)
  deriving DecidableEq, Repr

/-- Where a call is; `release` says whether the assertion failed. -/
inductive PC where
  | acquire
  | test
  | read
  | write (x : ℤ)
  | decide
  /-- in `about_to_delete` -/
  | hook
  | release (failed : Bool)
  deriving DecidableEq, Repr

structure Frame where
  op : Op
  pc : PC
  deriving DecidableEq, Repr

/-- The lock's owner and how often it holds the lock, `__ref_count`, `__active`, the stacks; and for the specification: what happened and
in which thread, the calls begun, and those that returned, with whether the assertion failed. -/
structure St (T : Type) where
  owner : Option T
  depth : ℕ
  count : ℤ
  active : Bool
  stack : T → List Frame
  log : List (T × Ev)
  begun : List (T × Op)
  done : List (T × Op × Bool)

variable {T : Type} [DecidableEq T]

/-- ReferenceCounting.py:6-10. -/
def St.init : St T := ⟨none, 0, 0, true, fun _ => [], [], [], []⟩

inductive Act (T : Type) where
  /-- the thread calls `add_ref` or `remove_ref`, perhaps inside `about_to_delete` -/
  | call (t : T) (op : Op)
  /-- the innermost call of the thread goes on; out of `about_to_delete` when that returns or raises -/
  | go (t : T)

def St.set (s : St T) (t : T) (l : List Frame) : St T := { s with stack := Function.update s.stack t l }

/-- After the lock has been acquired. -/
def first : Op → PC
  | .add => .read
  | .rem _ => .test

/-- The new count. -/
def bump : Op → ℤ → ℤ
  | .add, x => x + 1
  | .rem _, x => x - 1

def evOf : Op → Ev
  | .add => .add
  | .rem c => .rem c

/-- After the count has been written. -/
def next : Op → PC
  | .add => .release false
  | .rem _ => .decide

def checked : Op → Bool
  | .add => false
  | .rem c => c

/-- One step of the innermost call; `none` if it has to wait. -/
def goFrame (s : St T) (t : T) (rest : List Frame) (op : Op) : PC → Option (St T)
  | .acquire =>
    if s.owner = none ∨ s.owner = some t then
      some { s.set t (⟨op, first op⟩ :: rest) with owner := some t, depth := s.depth + 1 }
    else none
  | .test =>
    if s.count > 0 then some (s.set t (⟨op, .read⟩ :: rest))
    else some { s.set t (⟨op, .release true⟩ :: rest) with log := s.log ++ [(t, .fail)] }
  | .read => some (s.set t (⟨op, .write s.count⟩ :: rest))
  | .write x => some { s.set t (⟨op, next op⟩ :: rest) with count := bump op x, log := s.log ++ [(t, evOf op)] }
  | .decide =>
    if s.active = true ∧ s.count = 0 ∧ checked op = true then
      some { s.set t (⟨op, .hook⟩ :: rest) with active := false, log := s.log ++ [(t, .delete)] }
    else some (s.set t (⟨op, .release false⟩ :: rest))
  | .hook => some (s.set t (⟨op, .release false⟩ :: rest))
  | .release f =>
    some { s.set t rest with
      owner := if s.depth = 1 then none else s.owner, depth := s.depth - 1, done := s.done ++ [(t, op, f)] }

def step (s : St T) : Act T → Option (St T)
  | .call t op =>
    match s.stack t with
    | [] => some { s.set t [⟨op, .acquire⟩] with begun := s.begun ++ [(t, op)] }
    | ⟨o, .hook⟩ :: rest => some { s.set t (⟨op, .acquire⟩ :: ⟨o, .hook⟩ :: rest) with begun := s.begun ++ [(t, op)] }
    | _ => none
  | .go t =>
    match s.stack t with
    | [] => none
    | f :: rest => goFrame s t rest f.op f.pc

/-- The states reached through states with `P`. -/
inductive Reach (P : St T → Prop) : St T → Prop where
  | init : Reach P St.init
  | step {s s' : St T} (a : Act T) (hr : Reach P s) (h : step s a = some s') (hp : P s') : Reach P s'

/-! ### Specification -/

/-- What happened, whatever the thread. -/
def St.evs (s : St T) : List Ev := s.log.map Prod.snd

def isRem : Op → Bool
  | .rem _ => true
  | .add => false

/-- A reference is only removed after it has been added: the calls of `remove_ref` that have begun are at most as many as the calls of
`add_ref` that have returned (in whichever threads). -/
def Owned (s : St T) : Prop := s.begun.countP (fun p => isRem p.2) ≤ s.done.countP (fun p => !isRem p.2.1)

/-- The call has taken effect. -/
def applied : PC → Bool
  | .decide => true
  | .hook => true
  | .release f => !f
  | _ => false

/-! ### Invariant -/

/-- The state between calls. -/
structure Acc (s : St T) : Prop where
  nonneg : 0 ≤ s.count
  balance : s.count = balance s.evs
  spec : ∀ m, Spec s.count s.active m → Spec 0 true (s.evs ++ m)

/-- What is known from where the owner of the lock is. -/
def Phase (s : St T) (op : Op) : PC → Prop
  | .acquire => Acc s
  | .test => Acc s ∧ isRem op = true
  | .read => Acc s ∧ (isRem op = true → 0 < s.count)
  | .write x => Acc s ∧ x = s.count ∧ (isRem op = true → 0 < s.count)
  | .decide => 0 ≤ s.count ∧ s.count = balance s.evs ∧
      if s.active = true ∧ s.count = 0 ∧ checked op = true then ∀ m, Spec 0 false m → Spec 0 true (s.evs ++ .delete :: m)
      else ∀ m, Spec s.count s.active m → Spec 0 true (s.evs ++ m)
  | .hook => Acc s
  | .release _ => Acc s

/-- The stack of the owner. -/
structure Owns (s : St T) (f : Frame) (rest : List Frame) : Prop where
  hooks : ∀ g ∈ rest, g.pc = .hook
  depth : s.depth = rest.length + if f.pc = .acquire then 0 else 1
  pos : 0 < s.depth
  phase : Phase s f.op f.pc

structure Inv (s : St T) : Prop where
  others : ∀ t, s.owner ≠ some t → s.stack t = [] ∨ ∃ op, s.stack t = [⟨op, .acquire⟩]
  owned : ∀ t, s.owner = some t → ∃ f rest, s.stack t = f :: rest ∧ Owns s f rest
  free : s.owner = none → Acc s ∧ s.depth = 0

theorem Inv.init : Inv (St.init : St T) :=
  ⟨fun _ _ => .inl rfl, by simp [St.init], fun _ => ⟨⟨le_refl _, rfl, fun _ h => h⟩, rfl⟩⟩

theorem Acc.congr {s s' : St T} (h : Acc s) (h1 : s'.count = s.count) (h2 : s'.active = s.active) (h3 : s'.log = s.log) : Acc s' := by
  obtain ⟨a, b, c⟩ := h
  have he : s'.evs = s.evs := by simp [St.evs, h3]
  exact ⟨by rw [h1]; exact a, by rw [h1, he]; exact b, by rw [h1, h2, he]; exact c⟩

theorem Phase.congr {s s' : St T} {op : Op} {pc : PC} (h : Phase s op pc) (h1 : s'.count = s.count) (h2 : s'.active = s.active)
    (h3 : s'.log = s.log) : Phase s' op pc := by
  have he : s'.evs = s.evs := by simp [St.evs, h3]
  cases pc with
  | acquire => exact Acc.congr h h1 h2 h3
  | test => exact ⟨h.1.congr h1 h2 h3, h.2⟩
  | read => exact ⟨h.1.congr h1 h2 h3, by rw [h1]; exact h.2⟩
  | write x => exact ⟨h.1.congr h1 h2 h3, by rw [h1]; exact h.2⟩
  | decide =>
    simp only [Phase, h1, h2, he] at h ⊢
    exact h
  | hook => exact Acc.congr h h1 h2 h3
  | release b => exact Acc.congr h h1 h2 h3

/-- A thread with a call that is not waiting for the lock, or more than one, owns the lock. -/
theorem Inv.top {s : St T} (h : Inv s) {t : T} {f : Frame} {rest : List Frame} (ht : s.stack t = f :: rest)
    (hf : f.pc ≠ .acquire ∨ rest ≠ []) : s.owner = some t ∧ Owns s f rest := by
  by_cases ho : s.owner = some t
  · obtain ⟨f', r', h1, h2⟩ := h.owned t ho
    rw [h1] at ht
    cases ht
    exact ⟨ho, h2⟩
  · rcases h.others t ho with h1 | ⟨op, h1⟩
    · rw [h1] at ht; cases ht
    · rw [h1] at ht
      cases ht
      rcases hf with hf | hf
      · exact absurd rfl hf
      · exact absurd rfl hf

theorem set_stack_self (s : St T) (t : T) (l : List Frame) : (s.set t l).stack t = l := by simp [St.set]

theorem set_stack_ne (s : St T) {t u : T} (h : u ≠ t) (l : List Frame) : (s.set t l).stack u = s.stack u := by simp [St.set, h]

/-- The owner's step that keeps the lock. -/
theorem Inv.keep {s s' : St T} (h : Inv s) {t : T} {f f' : Frame} {rest : List Frame} (ho : s.owner = some t) (hs : Owns s f rest)
    (hf : f.pc ≠ .acquire) (hf' : f'.pc ≠ .acquire) (h1 : s'.owner = s.owner) (h2 : s'.depth = s.depth)
    (h3 : s'.stack = Function.update s.stack t (f' :: rest)) (hp : Phase s' f'.op f'.pc) : Inv s' := by
  refine ⟨fun u hu => ?_, fun u hu => ?_, fun hn => ?_⟩
  · rw [h1] at hu
    have : u ≠ t := fun e => hu (e ▸ ho)
    rw [h3, Function.update_of_ne this]
    exact h.others u hu
  · rw [h1, ho] at hu
    cases hu
    refine ⟨f', rest, by rw [h3, Function.update_self], hs.hooks, ?_, by rw [h2]; exact hs.pos, hp⟩
    rw [h2, hs.depth, if_neg hf, if_neg hf']
  · rw [h1, ho] at hn; cases hn

theorem spec_fail {s : St T} (h : Acc s) (hc : ¬ 0 < s.count) : ∀ m, Spec s.count s.active m → Spec 0 true ((s.evs ++ [.fail]) ++ m) := by
  intro m hm
  rw [List.append_assoc]
  have := h.nonneg
  exact h.spec _ ⟨by omega, hm⟩

theorem inv_go {s s' : St T} (h : Inv s) {t : T} {f : Frame} {rest : List Frame} (ht : s.stack t = f :: rest)
    (hg : goFrame s t rest f.op f.pc = some s') : Inv s' := by
  obtain ⟨op, pc⟩ := f
  cases pc with
  | acquire =>
    simp only [goFrame] at hg
    split at hg
    · rename_i ho
      simp only [Option.some.injEq] at hg
      subst hg
      have hpre : Acc s ∧ s.depth = rest.length ∧ ∀ g ∈ rest, g.pc = .hook := by
        rcases ho with ho | ho
        · obtain ⟨h1, h2⟩ := h.free ho
          rcases h.others t (by rw [ho]; simp) with h3 | ⟨op', h3⟩
          · rw [h3] at ht; cases ht
          · rw [h3] at ht; cases ht
            exact ⟨h1, h2, by simp⟩
        · obtain ⟨f', r', h1, h2⟩ := h.owned t ho
          rw [h1] at ht
          cases ht
          exact ⟨h2.phase, by simpa using h2.depth, h2.hooks⟩
      obtain ⟨ha, hd, hh⟩ := hpre
      refine ⟨fun u hu => ?_, fun u hu => ?_, fun hn => by cases hn⟩
      · have hut : u ≠ t := fun e => hu (by rw [e])
        change (s.set t _).stack u = [] ∨ ∃ op', (s.set t _).stack u = [⟨op', .acquire⟩]
        rw [set_stack_ne s hut]
        refine h.others u (fun e => ?_)
        rcases ho with ho | ho
        · rw [ho] at e; cases e
        · rw [ho] at e; cases e; exact hut rfl
      · cases hu
        refine ⟨⟨op, first op⟩, rest, set_stack_self s t _, hh, ?_, Nat.succ_pos _, ?_⟩
        · have : first op ≠ .acquire := by cases op <;> simp [first]
          simp [hd, this]
        · cases op with
          | add => exact ⟨ha.congr rfl rfl rfl, by simp [isRem]⟩
          | rem c => exact ⟨ha.congr rfl rfl rfl, rfl⟩
    · cases hg
  | test =>
    obtain ⟨ho, hs⟩ := h.top ht (.inl (by simp))
    obtain ⟨ha, hr⟩ := hs.phase
    simp only [goFrame] at hg
    split at hg <;> rename_i hc <;> simp only [Option.some.injEq] at hg <;> subst hg
    · exact h.keep ho hs (by simp) (f' := ⟨op, .read⟩) (by simp) rfl rfl rfl ⟨ha.congr rfl rfl rfl, fun _ => hc⟩
    · refine h.keep ho hs (by simp) (f' := ⟨op, .release true⟩) (by simp) rfl rfl rfl ⟨ha.nonneg, ?_, ?_⟩
      · change s.count = balance ((s.log ++ [(t, Ev.fail)]).map Prod.snd)
        rw [List.map_append, balance_append, ha.balance]
        simp [St.evs, balance]
      · change ∀ m, Spec s.count s.active m → Spec 0 true ((s.log ++ [(t, Ev.fail)]).map Prod.snd ++ m)
        rw [List.map_append]
        exact spec_fail ha hc
  | read =>
    obtain ⟨ho, hs⟩ := h.top ht (.inl (by simp))
    obtain ⟨ha, hr⟩ := hs.phase
    simp only [goFrame, Option.some.injEq] at hg
    subst hg
    exact h.keep ho hs (by simp) (f' := ⟨op, .write s.count⟩) (by simp) rfl rfl rfl ⟨ha.congr rfl rfl rfl, rfl, hr⟩
  | write x =>
    obtain ⟨ho, hs⟩ := h.top ht (.inl (by simp))
    obtain ⟨ha, hx, hr⟩ := hs.phase
    simp only [goFrame, Option.some.injEq] at hg
    subst hg
    subst hx
    have hn := ha.nonneg
    cases op with
    | add =>
      refine h.keep ho hs (by simp) (f' := ⟨.add, .release false⟩) (by simp) rfl rfl rfl ⟨?_, ?_, ?_⟩
      · change 0 ≤ s.count + 1; omega
      · change s.count + 1 = balance ((s.log ++ [(t, Ev.add)]).map Prod.snd)
        rw [List.map_append, balance_append, ha.balance]
        simp [St.evs, balance]
      · change ∀ m, Spec (s.count + 1) s.active m → Spec 0 true ((s.log ++ [(t, Ev.add)]).map Prod.snd ++ m)
        intro m hm
        rw [List.map_append, List.append_assoc]
        exact ha.spec _ (by simpa [Spec] using hm)
    | rem c =>
      have hpos := hr rfl
      refine h.keep ho hs (by simp) (f' := ⟨.rem c, .decide⟩) (by simp) rfl rfl rfl ⟨?_, ?_, ?_⟩
      · change 0 ≤ s.count - 1; omega
      · change s.count - 1 = balance ((s.log ++ [(t, Ev.rem c)]).map Prod.snd)
        rw [List.map_append, balance_append, ha.balance]
        simp [St.evs, balance]
        omega
      · change if s.active = true ∧ s.count - 1 = 0 ∧ c = true
          then ∀ m, Spec 0 false m → Spec 0 true ((s.log ++ [(t, Ev.rem c)]).map Prod.snd ++ .delete :: m)
          else ∀ m, Spec (s.count - 1) s.active m → Spec 0 true ((s.log ++ [(t, Ev.rem c)]).map Prod.snd ++ m)
        split
        · rename_i hd
          intro m hm
          rw [List.map_append, List.append_assoc]
          refine ha.spec _ ?_
          change Spec s.count s.active (.rem c :: .delete :: m)
          unfold Spec
          refine ⟨hpos, ?_⟩
          rw [if_pos ⟨hd.1, hd.2.2, by omega⟩]
          exact hm
        · rename_i hd
          intro m hm
          rw [List.map_append, List.append_assoc]
          refine ha.spec _ ?_
          change Spec s.count s.active (.rem c :: m)
          unfold Spec
          refine ⟨hpos, ?_⟩
          rw [if_neg (fun hx => hd ⟨hx.1, by omega, hx.2.1⟩)]
          exact hm
  | decide =>
    obtain ⟨ho, hs⟩ := h.top ht (.inl (by simp))
    obtain ⟨hn, hb, hsp⟩ := hs.phase
    simp only [goFrame] at hg
    split at hg <;> rename_i hc <;> simp only [Option.some.injEq] at hg <;> subst hg
    · rw [if_pos hc] at hsp
      refine h.keep ho hs (by simp) (f' := ⟨op, .hook⟩) (by simp) rfl rfl rfl ⟨hn, ?_, ?_⟩
      · change s.count = balance ((s.log ++ [(t, Ev.delete)]).map Prod.snd)
        rw [List.map_append, balance_append, hb]
        simp [St.evs, balance]
      · change ∀ m, Spec s.count false m → Spec 0 true ((s.log ++ [(t, Ev.delete)]).map Prod.snd ++ m)
        intro m hm
        rw [List.map_append, List.append_assoc]
        rw [hc.2.1] at hm
        exact hsp m hm
    · rw [if_neg hc] at hsp
      exact h.keep ho hs (by simp) (f' := ⟨op, .release false⟩) (by simp) rfl rfl rfl ⟨hn, hb, hsp⟩
  | hook =>
    obtain ⟨ho, hs⟩ := h.top ht (.inl (by simp))
    simp only [goFrame, Option.some.injEq] at hg
    subst hg
    have ha : Acc s := hs.phase
    exact h.keep ho hs (by simp) (f' := ⟨op, .release false⟩) (by simp) rfl rfl rfl
      (show Acc _ from ha.congr rfl rfl rfl)
  | release b =>
    obtain ⟨ho, hs⟩ := h.top ht (.inl (by simp))
    simp only [goFrame, Option.some.injEq] at hg
    subst hg
    have ha : Acc s := hs.phase
    have hd : s.depth = rest.length + 1 := by simpa using hs.depth
    refine ⟨fun u hu => ?_, fun u hu => ?_, fun hn => ?_⟩
    · change (if s.depth = 1 then none else s.owner) ≠ some u at hu
      change (s.set t rest).stack u = [] ∨ ∃ op', (s.set t rest).stack u = [⟨op', .acquire⟩]
      by_cases hut : u = t
      · subst hut
        rw [set_stack_self]
        left
        by_contra hne
        have : s.depth ≠ 1 := by
          have := List.length_pos_of_ne_nil hne
          omega
        rw [if_neg this] at hu
        exact hu ho
      · rw [set_stack_ne s hut]
        exact h.others u (fun e => hut (by rw [ho] at e; cases e; rfl))
    · change (if s.depth = 1 then none else s.owner) = some u at hu
      split at hu
      · cases hu
      · rename_i hd1
        rw [ho] at hu
        cases hu
        cases hrest : rest with
        | nil => rw [hrest] at hd; simp at hd; exact absurd hd hd1
        | cons g gs =>
          have hg : g.pc = .hook := hs.hooks g (by simp [hrest])
          refine ⟨g, gs, by rw [← hrest]; exact set_stack_self s _ rest, fun k hk => hs.hooks k (by simp [hrest, hk]), ?_, ?_, ?_⟩
          · change s.depth - 1 = _
            rw [hd, hrest, hg]
            simp
          · change 0 < s.depth - 1
            rw [hd, hrest]
            simp
          · rw [hg]
            exact (show Acc _ from ha.congr rfl rfl rfl)
    · change (if s.depth = 1 then none else s.owner) = none at hn
      split at hn
      · rename_i hd1
        exact ⟨ha.congr rfl rfl rfl, show s.depth - 1 = 0 by omega⟩
      · rw [ho] at hn; cases hn

theorem inv_step {s s' : St T} (h : Inv s) (a : Act T) (hs : step s a = some s') : Inv s' := by
  cases a with
  | go t =>
    simp only [step] at hs
    split at hs
    · cases hs
    · rename_i f rest ht
      exact inv_go h ht hs
  | call t op =>
    simp only [step] at hs
    split at hs
    · rename_i ht
      simp only [Option.some.injEq] at hs
      subst hs
      have hno : s.owner ≠ some t := fun ho => by
        obtain ⟨f, r, h1, _⟩ := h.owned t ho
        rw [h1] at ht; cases ht
      refine ⟨fun u hu => ?_, fun u hu => ?_, fun hn => ?_⟩
      · change (s.set t _).stack u = [] ∨ ∃ op', (s.set t _).stack u = [⟨op', .acquire⟩]
        by_cases hut : u = t
        · subst hut
          exact .inr ⟨op, set_stack_self s _ _⟩
        · rw [set_stack_ne s hut]
          exact h.others u hu
      · have hut : u ≠ t := fun e => hno (e ▸ hu)
        obtain ⟨f, r, h1, h2⟩ := h.owned u hu
        refine ⟨f, r, (set_stack_ne s hut _).trans h1, h2.hooks, h2.depth, h2.pos, ?_⟩
        exact h2.phase.congr rfl rfl rfl
      · obtain ⟨h1, h2⟩ := h.free hn
        exact ⟨h1.congr rfl rfl rfl, h2⟩
    · rename_i o rest ht
      simp only [Option.some.injEq] at hs
      subst hs
      obtain ⟨ho, hw⟩ := h.top ht (.inl (by simp))
      refine ⟨fun u hu => ?_, fun u hu => ?_, fun hn => ?_⟩
      · have hut : u ≠ t := fun e => hu (e ▸ ho)
        change (s.set t _).stack u = [] ∨ ∃ op', (s.set t _).stack u = [⟨op', .acquire⟩]
        rw [set_stack_ne s hut]
        exact h.others u hu
      · have hut : u = t := by
          have : s.owner = some u := hu
          rw [ho] at this; cases this; rfl
        subst hut
        refine ⟨⟨op, .acquire⟩, ⟨o, .hook⟩ :: rest, set_stack_self s _ _, ?_, ?_, hw.pos, ?_⟩
        · intro g hg
          simp only [List.mem_cons] at hg
          rcases hg with rfl | hg
          · rfl
          · exact hw.hooks g hg
        · change s.depth = _
          rw [hw.depth]
          simp
        · exact (show Acc _ from (show Acc s from hw.phase).congr rfl rfl rfl)
      · have : s.owner = none := hn
        rw [ho] at this; cases this
    · cases hs

theorem reach_inv {P : St T → Prop} {s : St T} (h : Reach P s) : Inv s := by
  induction h with
  | init => exact Inv.init
  | step a _ hs _ ih => exact inv_step ih a hs

/-! ### No call is lost -/

/-- Each call takes effect once, or fails once. -/
structure Cnt (s : St T) : Prop where
  begun : ∀ t op, s.begun.count (t, op) =
    s.done.count (t, op, false) + s.done.count (t, op, true) + (s.stack t).countP (fun f => f.op = op)
  effect : ∀ t op, s.log.count (t, evOf op) = s.done.count (t, op, false) + (s.stack t).countP (fun f => f.op = op ∧ applied f.pc = true)
  fails : ∀ t, s.log.count (t, .fail) =
    s.done.countP (fun p => p.1 = t ∧ p.2.2 = true) + (s.stack t).countP (fun f => f.pc = .release true)

theorem Cnt.init : Cnt (St.init : St T) := ⟨fun _ _ => rfl, fun _ _ => rfl, fun _ => rfl⟩

theorem evOf_inj {a b : Op} : evOf a = evOf b ↔ a = b := by cases a <;> cases b <;> simp [evOf]

theorem evOf_ne_fail (a : Op) : evOf a ≠ .fail := by cases a <;> simp [evOf]

theorem evOf_ne_delete (a : Op) : evOf a ≠ .delete := by cases a <;> simp [evOf]

theorem applied_first (op : Op) : applied (first op) = false := by cases op <;> rfl

theorem applied_next (op : Op) : applied (next op) = true := by cases op <;> rfl

theorem first_ne (op : Op) : first op ≠ .release true := by cases op <;> simp [first]

theorem next_ne (op : Op) : next op ≠ .release true := by cases op <;> simp [next]

theorem cne {α : Type} [BEq α] [LawfulBEq α] {t u : T} (a : α) (l : List α) (hu : u ≠ t) : (l.map (t, ·)).count (u, a) = 0 := by
  rw [List.count_eq_zero]
  simp only [List.mem_map, Prod.mk.injEq, not_exists, not_and]
  rintro x _ rfl
  exact absurd rfl hu

theorem ceq {α : Type} [BEq α] [LawfulBEq α] (t : T) (a : α) (l : List α) : (l.map (t, ·)).count (t, a) = l.count a := by
  induction l with
  | nil => rfl
  | cons x l ih =>
    rw [List.map_cons, List.count_cons, List.count_cons, ih]
    congr 1
    by_cases h : x = a
    · subst h; simp
    · simp [h]

/-- A step of thread `t` that replaces its innermost call `f` by `l` and adds these entries. -/
theorem Cnt.go {s s' : St T} (h : Cnt s) {t : T} {f : Frame} {rest l : List Frame} {el : List Ev} {ed : List (Op × Bool)}
    (ht : s.stack t = f :: rest) (h1 : s'.stack = Function.update s.stack t (l ++ rest)) (h2 : s'.log = s.log ++ el.map (t, ·))
    (h3 : s'.done = s.done ++ ed.map (t, ·)) (h4 : s'.begun = s.begun)
    (g1 : ∀ op, (if f.op = op then 1 else 0) = ed.count (op, false) + ed.count (op, true) + l.countP (fun f => f.op = op))
    (g2 : ∀ op, el.count (evOf op) + (if f.op = op ∧ applied f.pc = true then 1 else 0) =
      ed.count (op, false) + l.countP (fun f => f.op = op ∧ applied f.pc = true))
    (g3 : el.count .fail + (if f.pc = .release true then 1 else 0) =
      ed.countP (fun p => p.2 = true) + l.countP (fun f => f.pc = .release true)) : Cnt s' := by
  refine ⟨fun u op => ?_, fun u op => ?_, fun u => ?_⟩ <;> by_cases hu : u = t
  · subst hu
    have := h.begun u op
    rw [ht, List.countP_cons] at this
    have := g1 op
    rw [h1, h3, h4, Function.update_self, List.count_append, List.count_append, List.countP_append, ceq, ceq]
    simp only [decide_eq_true_eq] at *
    omega
  · rw [h1, h3, h4, Function.update_of_ne hu, List.count_append, List.count_append, cne _ _ hu, cne _ _ hu, h.begun u op]
    rfl
  · subst hu
    have := h.effect u op
    rw [ht, List.countP_cons] at this
    have := g2 op
    rw [h1, h2, h3, Function.update_self, List.count_append, List.count_append, List.countP_append, ceq, ceq]
    simp only [decide_eq_true_eq] at *
    omega
  · rw [h1, h2, h3, Function.update_of_ne hu, List.count_append, List.count_append, cne _ _ hu, cne _ _ hu, h.effect u op]
    rfl
  · subst hu
    have := h.fails u
    rw [ht, List.countP_cons] at this
    have hc : (ed.map (fun x => (u, x))).countP (fun p => p.1 = u ∧ p.2.2 = true) = ed.countP (fun p => p.2 = true) := by
      rw [List.countP_map]
      simp [Function.comp_def]
    rw [h1, h2, h3, Function.update_self, List.count_append, List.countP_append, List.countP_append, ceq, hc]
    simp only [decide_eq_true_eq] at *
    omega
  · have hc : (ed.map (fun x => (t, x))).countP (fun p => p.1 = u ∧ p.2.2 = true) = 0 := by
      rw [List.countP_eq_zero]
      simp only [List.mem_map]
      rintro p ⟨x, _, rfl⟩
      simp [Ne.symm hu]
    rw [h1, h2, h3, Function.update_of_ne hu, List.count_append, List.countP_append, cne _ _ hu, hc, h.fails u]
    rfl

theorem cnt_step {s s' : St T} (hi : Inv s) (h : Cnt s) (a : Act T) (hs : step s a = some s') : Cnt s' := by
  cases a with
  | call t op =>
    have key : ∀ l, s.stack t = l → s' = { s.set t (⟨op, .acquire⟩ :: l) with begun := s.begun ++ [(t, op)] } → Cnt s' := by
      intro l hl e
      subst e
      refine ⟨fun u o => ?_, fun u o => ?_, fun u => ?_⟩ <;> by_cases hu : u = t
      · subst hu
        have := h.begun u o
        simp only [St.set, Function.update_self, List.count_append, List.countP_cons, List.count_singleton, hl] at *
        by_cases ho : op = o
        · subst ho; simp; omega
        · simp [ho]; omega
      · have := h.begun u o
        simp only [St.set, Function.update_of_ne hu, List.count_append, this, List.count_singleton]
        simp [Ne.symm hu]
      · subst hu
        have := h.effect u o
        simp only [St.set, Function.update_self, List.countP_cons, hl] at *
        simpa [applied] using this
      · simpa only [St.set, Function.update_of_ne hu] using h.effect u o
      · subst hu
        have := h.fails u
        simp only [St.set, Function.update_self, List.countP_cons, hl] at *
        simpa using this
      · simpa only [St.set, Function.update_of_ne hu] using h.fails u
    simp only [step] at hs
    split at hs
    · rename_i ht
      simp only [Option.some.injEq] at hs
      exact key _ ht hs.symm
    · rename_i o rest ht
      simp only [Option.some.injEq] at hs
      exact key _ ht hs.symm
    · cases hs
  | go t =>
    simp only [step] at hs
    split at hs
    · cases hs
    · rename_i f rest ht
      obtain ⟨op, pc⟩ := f
      cases pc with
      | acquire =>
        simp only [goFrame] at hs
        split at hs
        · simp only [Option.some.injEq] at hs
          subst hs
          exact h.go ht (l := [⟨op, first op⟩]) (el := []) (ed := []) rfl (by simp [St.set]) (by simp [St.set]) rfl
            (by simp) (by simp [applied_first, show applied .acquire = false from rfl]) (by simp [first_ne])
        · cases hs
      | test =>
        simp only [goFrame] at hs
        split at hs <;> simp only [Option.some.injEq] at hs <;> subst hs
        · exact h.go ht (l := [⟨op, .read⟩]) (el := []) (ed := []) rfl (by simp [St.set]) (by simp [St.set]) rfl
            (by simp) (by simp [applied]) (by simp)
        · exact h.go ht (l := [⟨op, .release true⟩]) (el := [.fail]) (ed := []) rfl (by simp [St.set]) (by simp [St.set]) rfl
            (by simp) (by simp [applied, Ne.symm (evOf_ne_fail _), List.count_singleton]) (by simp)
      | read =>
        simp only [goFrame, Option.some.injEq] at hs
        subst hs
        exact h.go ht (l := [⟨op, .write s.count⟩]) (el := []) (ed := []) rfl (by simp [St.set]) (by simp [St.set]) rfl
          (by simp) (by simp [applied]) (by simp)
      | write x =>
        simp only [goFrame, Option.some.injEq] at hs
        subst hs
        exact h.go ht (l := [⟨op, next op⟩]) (el := [evOf op]) (ed := []) rfl (by simp [St.set]) (by simp [St.set]) rfl
          (by simp) (by simp [applied_next, show applied (.write x) = false from rfl, List.count_singleton, evOf_inj]) (by simp [next_ne, evOf_ne_fail, List.count_singleton])
      | decide =>
        simp only [goFrame] at hs
        split at hs <;> simp only [Option.some.injEq] at hs <;> subst hs
        · exact h.go ht (l := [⟨op, .hook⟩]) (el := [.delete]) (ed := []) rfl (by simp [St.set]) (by simp [St.set]) rfl
            (by simp) (by simp [applied, Ne.symm (evOf_ne_delete _), List.count_singleton]) (by simp)
        · exact h.go ht (l := [⟨op, .release false⟩]) (el := []) (ed := []) rfl (by simp [St.set]) (by simp [St.set]) rfl
            (by simp) (by simp [applied]) (by simp)
      | hook =>
        simp only [goFrame, Option.some.injEq] at hs
        subst hs
        exact h.go ht (l := [⟨op, .release false⟩]) (el := []) (ed := []) rfl (by simp [St.set]) (by simp [St.set]) rfl
          (by simp) (by simp [applied]) (by simp)
      | release b =>
        simp only [goFrame, Option.some.injEq] at hs
        subst hs
        refine h.go ht (l := []) (el := []) (ed := [(op, b)]) rfl (by simp [St.set]) rfl rfl ?_ ?_ ?_
        · intro o; cases b <;> simp [List.count_singleton]
        · intro o; cases b <;> simp [applied, List.count_singleton]
        · cases b <;> simp

theorem reach_cnt {P : St T → Prop} {s : St T} (h : Reach P s) : Cnt s := by
  induction h with
  | init => exact Cnt.init
  | step a hr hs _ ih => exact cnt_step (reach_inv hr) ih a hs

theorem Phase.facts {s : St T} {op : Op} {pc : PC} (h : Phase s op pc) :
    0 ≤ s.count ∧ s.count = balance s.evs ∧ (Spec 0 true s.evs ∨ Spec 0 true (s.evs ++ [.delete])) ∧ (pc ≠ .decide → Acc s) := by
  have key : Acc s → 0 ≤ s.count ∧ s.count = balance s.evs ∧ (Spec 0 true s.evs ∨ Spec 0 true (s.evs ++ [.delete])) ∧
      (pc ≠ .decide → Acc s) :=
    fun ha => ⟨ha.nonneg, ha.balance, .inl (by simpa using ha.spec [] (by simp [Spec])), fun _ => ha⟩
  cases pc with
  | acquire => exact key h
  | test => exact key h.1
  | read => exact key h.1
  | write x => exact key h.1
  | hook => exact key h
  | release b => exact key h
  | decide =>
    obtain ⟨h1, h2, h3⟩ := h
    refine ⟨h1, h2, ?_, by simp⟩
    split at h3
    · exact .inr (h3 [] (by simp [Spec]))
    · exact .inl (by simpa using h3 [] (by simp [Spec]))

theorem Inv.facts {s : St T} (h : Inv s) :
    0 ≤ s.count ∧ s.count = balance s.evs ∧ (Spec 0 true s.evs ∨ Spec 0 true (s.evs ++ [.delete])) := by
  cases ho : s.owner with
  | none =>
    have ha := (h.free ho).1
    exact ⟨ha.nonneg, ha.balance, .inl (by simpa using ha.spec [] (by simp [Spec]))⟩
  | some t =>
    obtain ⟨f, rest, _, h2⟩ := h.owned t ho
    obtain ⟨a, b, c, _⟩ := h2.phase.facts
    exact ⟨a, b, c⟩

/-- Only `remove_ref` can fail. -/
def OnlyRem (s : St T) : Prop :=
  (∀ p ∈ s.done, p.2.2 = true → isRem p.2.1 = true) ∧ ∀ t, ∀ f ∈ s.stack t, f.pc = .release true → isRem f.op = true

theorem only_step {s s' : St T} (hi : Inv s) (h : OnlyRem s) (a : Act T) (hs : step s a = some s') : OnlyRem s' := by
  have key : ∀ (s1 : St T) (t : T) (f : Frame) (l : List Frame), s1.done = s.done → s1.stack = Function.update s.stack t (f :: l) →
      (∀ g ∈ l, g ∈ s.stack t) → (f.pc = .release true → isRem f.op = true) → OnlyRem s1 := by
    intro s1 t f l h1 h2 h3 h4
    refine ⟨by rw [h1]; exact h.1, fun u g hg => ?_⟩
    rw [h2] at hg
    by_cases hu : u = t
    · subst hu
      rw [Function.update_self, List.mem_cons] at hg
      rcases hg with rfl | hg
      · exact h4
      · exact h.2 u g (h3 g hg)
    · rw [Function.update_of_ne hu] at hg
      exact h.2 u g hg
  cases a with
  | call t op =>
    simp only [step] at hs
    split at hs
    · rename_i ht
      simp only [Option.some.injEq] at hs
      subst hs
      exact key _ t ⟨op, .acquire⟩ [] rfl rfl (by simp) (by simp)
    · rename_i o rest ht
      simp only [Option.some.injEq] at hs
      subst hs
      exact key _ t ⟨op, .acquire⟩ (⟨o, .hook⟩ :: rest) rfl rfl (by rw [ht]; simp) (by simp)
    · cases hs
  | go t =>
    simp only [step] at hs
    split at hs
    · cases hs
    · rename_i f rest ht
      obtain ⟨op, pc⟩ := f
      have hr : ∀ g ∈ rest, g ∈ s.stack t := by rw [ht]; intro g hg; simp [hg]
      cases pc with
      | acquire =>
        simp only [goFrame] at hs
        split at hs
        · simp only [Option.some.injEq] at hs
          subst hs
          exact key _ t ⟨op, first op⟩ rest rfl rfl hr (fun h => absurd h (first_ne op))
        · cases hs
      | test =>
        obtain ⟨_, hw⟩ := hi.top ht (.inl (by simp))
        simp only [goFrame] at hs
        split at hs <;> simp only [Option.some.injEq] at hs <;> subst hs
        · exact key _ t ⟨op, .read⟩ rest rfl rfl hr (by simp)
        · exact key _ t ⟨op, .release true⟩ rest rfl rfl hr (fun _ => hw.phase.2)
      | read =>
        simp only [goFrame, Option.some.injEq] at hs
        subst hs
        exact key _ t ⟨op, .write s.count⟩ rest rfl rfl hr (by simp)
      | write x =>
        simp only [goFrame, Option.some.injEq] at hs
        subst hs
        exact key _ t ⟨op, next op⟩ rest rfl rfl hr (fun h => absurd h (next_ne op))
      | decide =>
        simp only [goFrame] at hs
        split at hs <;> simp only [Option.some.injEq] at hs <;> subst hs
        · exact key _ t ⟨op, .hook⟩ rest rfl rfl hr (by simp)
        · exact key _ t ⟨op, .release false⟩ rest rfl rfl hr (by simp)
      | hook =>
        simp only [goFrame, Option.some.injEq] at hs
        subst hs
        exact key _ t ⟨op, .release false⟩ rest rfl rfl hr (by simp)
      | release b =>
        simp only [goFrame, Option.some.injEq] at hs
        subst hs
        refine ⟨fun p hp => ?_, fun u g hg => ?_⟩
        · change p ∈ s.done ++ [(t, op, b)] at hp
          simp only [List.mem_append, List.mem_singleton] at hp
          rcases hp with hp | rfl
          · exact h.1 p hp
          · intro hb
            simp only at hb
            subst hb
            exact h.2 t ⟨op, .release true⟩ (by rw [ht]; simp) rfl
        · change g ∈ Function.update s.stack t rest u at hg
          by_cases hu : u = t
          · subst hu
            rw [Function.update_self] at hg
            exact h.2 u g (hr g hg)
          · rw [Function.update_of_ne hu] at hg
            exact h.2 u g hg

theorem reach_only {P : St T → Prop} {s : St T} (h : Reach P s) : OnlyRem s := by
  induction h with
  | init => exact ⟨by simp [St.init], by simp [St.init]⟩
  | step a hr hs _ ih => exact only_step (reach_inv hr) ih a hs

/-! ### Theorems -/

/-- C110: whatever the threads do, and whatever `about_to_delete` does: `ref_count` is at any time (read without the lock) the number of
`add_ref` calls that took effect minus the number of `remove_ref` calls that did, and not negative; `about_to_delete` is called at most
once. -/
theorem C110_count {s : St T} (h : Reach (fun _ => True) s) : s.count = balance s.evs ∧ 0 ≤ s.count ∧ s.evs.count .delete ≤ 1 := by
  obtain ⟨h1, h2, h3⟩ := (reach_inv h).facts
  refine ⟨h2, h1, ?_⟩
  rcases h3 with h3 | h3
  · simpa using spec_count_delete 0 true _ h3
  · have := spec_count_delete 0 true _ h3
    simp at this
    omega

/-- C110: what happens is at any time, but for a deletion about to happen, a history of the object used by one thread (`Spec`, as in C31):
a removal fails exactly at zero references, and the object is deleted exactly at the first checked removal that leaves no reference. -/
theorem C110_order {s : St T} (h : Reach (fun _ => True) s) :
    (Spec 0 true s.evs ∨ Spec 0 true (s.evs ++ [.delete])) ∧ ((∀ t, s.stack t = []) → Spec 0 true s.evs) := by
  have hi := reach_inv h
  refine ⟨hi.facts.2.2, fun hq => ?_⟩
  cases ho : s.owner with
  | none => simpa using (hi.free ho).1.spec [] (by simp [Spec])
  | some t =>
    obtain ⟨f, r, h1, _⟩ := hi.owned t ho
    rw [hq t] at h1
    cases h1

/-- C110: no call is lost or doubled: when a thread is in no call, each of its calls of `add_ref` has taken effect once; each of its calls
of `remove_ref` has either taken effect once or failed once. -/
theorem C110_calls {s : St T} (h : Reach (fun _ => True) s) (t : T) (ht : s.stack t = []) :
    s.log.count (t, .add) = s.begun.count (t, .add) ∧
    (s.log.count (t, .rem true) + s.log.count (t, .rem false)) + s.log.count (t, .fail) =
      s.begun.count (t, .rem true) + s.begun.count (t, .rem false) ∧
    ∀ c, s.log.count (t, .rem c) ≤ s.begun.count (t, .rem c) := by
  have hc := reach_cnt h
  have hn := (reach_only h).1
  have e1 := hc.effect t
  have e2 := hc.begun t
  have e3 := hc.fails t
  simp only [ht, List.countP_nil, Nat.add_zero] at e1 e2 e3
  have hadd : s.done.count (t, .add, true) = 0 := by
    rw [List.count_eq_zero]
    intro hm
    have := hn _ hm rfl
    simp [isRem] at this
  have hf : ∀ l : List (T × Op × Bool), (∀ p ∈ l, p.2.2 = true → isRem p.2.1 = true) →
      l.countP (fun p => p.1 = t ∧ p.2.2 = true) = l.count (t, .rem true, true) + l.count (t, .rem false, true) := by
    intro l
    induction l with
    | nil => simp
    | cons p l ih =>
      intro hp
      have ih' := ih (fun q hq => hp q (by simp [hq]))
      have hp' := hp p (by simp)
      obtain ⟨u, o, b⟩ := p
      rw [List.countP_cons, List.count_cons, List.count_cons, ih']
      cases b
      · simp
      · have ho := hp' rfl
        cases o with
        | add => simp [isRem] at ho
        | rem c =>
          by_cases hu : u = t
          · subst hu
            cases c <;> simp <;> omega
          · simp [hu]
  have a1 := e1 .add
  have a2 := e1 (.rem true)
  have a3 := e1 (.rem false)
  have b1 := e2 .add
  have b2 := e2 (.rem true)
  have b3 := e2 (.rem false)
  rw [hf _ hn] at e3
  simp only [evOf] at a1 a2 a3
  refine ⟨by omega, by omega, fun c => ?_⟩
  cases c <;> omega

theorem countP_le_of_count_le {α : Type} [DecidableEq α] {l l' : List α} (p : α → Bool) (h : ∀ a, l.count a ≤ l'.count a) :
    l.countP p ≤ l'.countP p :=
  (List.subperm_ext_iff.2 (fun a _ => h a)).countP_le p

theorem balance_count (l : List (T × Ev)) :
    balance (l.map Prod.snd) = (l.countP (fun p => p.2 = .add) : ℤ) - l.countP (fun p => p.2 = .rem true ∨ p.2 = .rem false) := by
  induction l with
  | nil => rfl
  | cons p l ih =>
    obtain ⟨t, e⟩ := p
    rw [List.map_cons, List.countP_cons, List.countP_cons]
    cases e with
    | rem c => cases c <;> simp [balance, ih] <;> omega
    | _ => simp [balance, ih] <;> omega

theorem reach_owned {s : St T} (h : Reach Owned s) : Owned s := by
  cases h with
  | init => exact Nat.le_refl _
  | step _ _ _ hp => exact hp

/-- At the assertion of an owned removal there is a reference. -/
theorem test_pos {s : St T} (h : Reach Owned s) (hf : .fail ∉ s.evs) {t : T} {op : Op} {rest : List Frame}
    (ht : s.stack t = ⟨op, .test⟩ :: rest) : 0 < s.count := by
  have hi := reach_inv h
  have hc := reach_cnt h
  obtain ⟨_, hw⟩ := hi.top ht (.inl (by simp))
  obtain ⟨ha, hr⟩ := hw.phase
  have hO := reach_owned h
  have hadd : s.done.countP (fun p => !isRem p.2.1) ≤ s.log.countP (fun p => p.2 = .add) := by
    have h1 : s.done.countP (fun p => !isRem p.2.1) = (s.done.filter (fun p => !isRem p.2.1)).length := List.countP_eq_length_filter
    have h2 : (s.done.filter (fun p => !isRem p.2.1)).length = ((s.done.filter (fun p => !isRem p.2.1)).map Prod.fst).length := by simp
    have h3 : s.log.countP (fun p => p.2 = .add) = ((s.log.filter (fun p => p.2 = .add)).map Prod.fst).length := by
      rw [List.length_map, ← List.countP_eq_length_filter]
    rw [h1, h2, h3]
    refine (List.subperm_ext_iff.2 (fun u _ => ?_)).length_le
    have e := hc.effect u .add
    have e' : s.done.count (u, .add, true) = 0 := by
      rw [List.count_eq_zero]
      intro hm
      have := (reach_only h).1 _ hm rfl
      simp [isRem] at this
    have g1 : ((s.done.filter (fun p => !isRem p.2.1)).map Prod.fst).count u =
        s.done.count (u, .add, false) + s.done.count (u, .add, true) := by
      generalize s.done = l
      induction l with
      | nil => rfl
      | cons p l ih =>
        obtain ⟨v, o, b⟩ := p
        rw [List.count_cons, List.count_cons]
        cases o with
        | rem c =>
          rw [List.filter_cons_of_neg (by simp [isRem]), ih]
          simp
        | add =>
          rw [List.filter_cons_of_pos (by simp [isRem]), List.map_cons, List.count_cons, ih]
          by_cases hv : v = u
          · subst hv
            cases b <;> simp <;> omega
          · simp [hv]
    have g2 : ((s.log.filter (fun p => p.2 = .add)).map Prod.fst).count u = s.log.count (u, .add) := by
      generalize s.log = l
      induction l with
      | nil => rfl
      | cons p l ih =>
        obtain ⟨v, o⟩ := p
        rw [List.count_cons]
        by_cases ho : o = .add
        · subst ho
          simp only [decide_true, List.filter_cons_of_pos, List.map_cons, List.count_cons, ih]
          by_cases hv : v = u
          · subst hv; simp
          · simp [hv]
        · simpa [ho] using ih
    rw [g1, g2]
    simp only [evOf] at e
    omega
  have hrem : s.log.countP (fun p => p.2 = .rem true ∨ p.2 = .rem false) + 1 ≤ s.begun.countP (fun p => isRem p.2) := by
    have h1 : s.log.countP (fun p => p.2 = .rem true ∨ p.2 = .rem false) + 1 =
        ((t, evOf op) :: s.log).countP (fun p => p.2 = .rem true ∨ p.2 = .rem false) := by
      rw [List.countP_cons]
      cases op with
      | add => simp [isRem] at hr
      | rem c => cases c <;> simp [evOf]
    have h2 : s.begun.countP (fun p => isRem p.2) =
        (s.begun.map (fun p => (p.1, evOf p.2))).countP (fun p => p.2 = .rem true ∨ p.2 = .rem false) := by
      rw [List.countP_map]
      congr 1
      funext p
      obtain ⟨u, o⟩ := p
      cases o with
      | add => simp [isRem, evOf]
      | rem c => cases c <;> simp [isRem, evOf]
    have hmap : ∀ u o, (s.begun.map (fun p => (p.1, evOf p.2))).count (u, evOf o) = s.begun.count (u, o) := by
      intro u o
      generalize s.begun = l
      induction l with
      | nil => rfl
      | cons p l ih =>
        obtain ⟨v, o'⟩ := p
        rw [List.map_cons, List.count_cons, List.count_cons, ih]
        by_cases hv : v = u
        · subst hv; simp [evOf_inj]
        · simp [hv]
    rw [h1, h2, List.countP_eq_length_filter, List.countP_eq_length_filter]
    refine (List.subperm_ext_iff.2 (fun x hx => ?_)).length_le
    obtain ⟨hx1, hx2⟩ := List.mem_filter.1 hx
    rw [List.count_filter (p := fun p : T × Ev => decide (p.2 = .rem true ∨ p.2 = .rem false)) hx2,
      List.count_filter (p := fun p : T × Ev => decide (p.2 = .rem true ∨ p.2 = .rem false)) hx2]
    obtain ⟨u, e⟩ := x
    obtain ⟨o, rfl⟩ : ∃ o, e = evOf o := by
      simp only [decide_eq_true_eq] at hx2
      rcases hx2 with hx2 | hx2
      · exact ⟨.rem true, hx2⟩
      · exact ⟨.rem false, hx2⟩
    rw [hmap, List.count_cons]
    have e1 := hc.effect u o
    have e2 := hc.begun u o
    have hle : (s.stack u).countP (fun f => f.op = o ∧ applied f.pc = true) + (if t = u ∧ op = o then 1 else 0) ≤
        (s.stack u).countP (fun f => f.op = o) := by
      by_cases htu : t = u
      · subst htu
        rw [ht, List.countP_cons, List.countP_cons]
        have : rest.countP (fun f => f.op = o ∧ applied f.pc = true) ≤ rest.countP (fun f => f.op = o) :=
          List.countP_mono_left (by intro f _; simp; exact fun h _ => h)
        by_cases hoo : op = o
        · simp only [show applied PC.test = false from rfl, Bool.false_eq_true, and_false, decide_false, if_false, hoo, decide_true,
            if_true, and_true]
          omega
        · simp only [hoo, false_and, and_false, decide_false, Bool.false_eq_true, if_false]
          omega
      · simp only [htu, false_and, if_false, Nat.add_zero]
        exact List.countP_mono_left (by intro f _; simp; exact fun h _ => h)
    have hif : (if ((t, evOf op) == (u, evOf o)) = true then 1 else 0) = if t = u ∧ op = o then 1 else 0 := by
      simp [evOf_inj]
    rw [hif]
    omega
  have hb := ha.balance
  rw [St.evs, balance_count] at hb
  unfold Owned at hO
  omega

/-- C110: if references are only removed after they have been added (in whichever threads), then no removal fails. -/
theorem C110_owned {s : St T} (h : Reach Owned s) : .fail ∉ s.evs := by
  induction h with
  | init => simp [St.init, St.evs]
  | @step s s' a hr hs _ ih =>
    cases a with
    | call t op =>
      simp only [step] at hs
      split at hs
      · simp only [Option.some.injEq] at hs
        subst hs
        exact ih
      · simp only [Option.some.injEq] at hs
        subst hs
        exact ih
      · cases hs
    | go t =>
      simp only [step] at hs
      split at hs
      · cases hs
      · rename_i f rest ht
        obtain ⟨op, pc⟩ := f
        cases pc with
        | acquire =>
          simp only [goFrame] at hs
          split at hs
          · simp only [Option.some.injEq] at hs
            subst hs
            exact ih
          · cases hs
        | test =>
          simp only [goFrame] at hs
          rw [if_pos (test_pos hr ih ht)] at hs
          simp only [Option.some.injEq] at hs
          subst hs
          exact ih
        | read =>
          simp only [goFrame, Option.some.injEq] at hs
          subst hs
          exact ih
        | write x =>
          simp only [goFrame, Option.some.injEq] at hs
          subst hs
          have : Ev.fail ≠ evOf op := Ne.symm (evOf_ne_fail op)
          simpa [St.evs, St.set, this] using ih
        | decide =>
          simp only [goFrame] at hs
          split at hs <;> simp only [Option.some.injEq] at hs <;> subst hs
          · simpa [St.evs, St.set] using ih
          · exact ih
        | hook =>
          simp only [goFrame, Option.some.injEq] at hs
          subst hs
          exact ih
        | release b =>
          simp only [goFrame, Option.some.injEq] at hs
          subst hs
          exact ih

/-- C110: no deadlock: while some thread is in a call, the thread that holds the lock is in a call and can go on; if the lock is free every
thread that is in a call can. -/
theorem C110_progress {s : St T} (h : Reach (fun _ => True) s) :
    (∀ t, s.owner = some t → s.stack t ≠ []) ∧
    ∀ t, s.stack t ≠ [] → s.owner = some t ∨ s.owner = none → ∃ s', step s (.go t) = some s' := by
  refine ⟨fun t ho => ?_, fun t ht ho => ?_⟩
  · obtain ⟨f, r, h1, _⟩ := (reach_inv h).owned t ho
    rw [h1]; simp
  cases hst : s.stack t with
  | nil => exact absurd hst ht
  | cons f rest =>
    obtain ⟨op, pc⟩ := f
    simp only [step, hst]
    cases pc with
    | acquire => exact ⟨_, if_pos ho.symm⟩
    | test =>
      simp only [goFrame]
      split <;> exact ⟨_, rfl⟩
    | decide =>
      simp only [goFrame]
      split <;> exact ⟨_, rfl⟩
    | _ => exact ⟨_, rfl⟩

/-! ### Examples -/

/-- A run given by its steps. -/
def runs (s : St T) : List (Act T) → Option (St T)
  | [] => some s
  | a :: as => (step s a).bind (fun s' => runs s' as)

/-- Thread 0 adds a reference; while it removes it and `about_to_delete` adds and removes one, thread 1 waits to add one. -/
def exActs : List (Act ℕ) :=
  [.call 0 .add, .go 0, .go 0, .go 0, .go 0,
   .call 0 (.rem true), .go 0, .call 1 .add, .go 0, .go 0, .go 0, .go 0,
   .call 0 .add, .go 0, .go 0, .go 0, .go 0,
   .call 0 (.rem true), .go 0, .go 0, .go 0, .go 0, .go 0, .go 0,
   .go 0, .go 0, .go 1, .go 1, .go 1, .go 1]

example : (runs (St.init : St ℕ) exActs).map (fun s => (s.count, s.active, s.log, s.owner)) =
    some (1, false, [(0, .add), (0, .rem true), (0, .delete), (0, .add), (0, .rem true), (1, .add)], none) := by decide

/-- thread 1 has to wait while thread 0 is in `about_to_delete` -/
example : (runs (St.init : St ℕ) (exActs.take 14 ++ [.go 1])).isNone = true := by decide

/-- a removal that is not owned fails -/
example : (runs (St.init : St ℕ) [.call 0 (.rem true), .go 0, .go 0, .go 0]).map (fun s => (s.count, s.log)) =
    some (0, [(0, .fail)]) := by decide

end Verif.Small.RefThreads
