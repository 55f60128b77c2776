import Verif.Binding.Binding
import Mathlib.Logic.Function.Basic
import Mathlib.Data.List.Chain

/-!
Threads that use the same source, C143, C144.

C143: several threads set the value of a `PropertyModel` (`nion/utils/Model.py:43-54`) that a `PropertyBinding` shows
(`nion/utils/Binding.py:238-245`), comparison by equality, no converter. One step is one access to a variable that threads share: a read of
the value, the assignment, the read of the value by the binding, the call of the target setter, the call of `on_value_changed`.

C144: several threads call `update_source` of `TuplePropertyBinding`s of one property (`nion/utils/Binding.py:348-354`). One step is reading
or assigning the property. The documentation of `update_source` says "Thread safe" (Binding.py:106).

Not modelled: closing the bindings meanwhile, converters, listeners that raise or set the value themselves, negative tuple indexes.
-/

namespace Verif.Binding.Threads

set_option linter.unusedSectionVars false

variable {V T : Type} [DecidableEq V] [DecidableEq T]

/-! ### Setting a value -/

/-- Where a thread is in the setter for the value `v` (Model.py:43-54, Binding.py:238-245). -/
inductive Pc (V : Type) where
  | idle
  /-- at line 44 -/
  | first (v : Option V)
  /-- the value was not `None`: at line 47 or 49 -/
  | second (v : Option V)
  /-- at line 51 -/
  | assign (v : Option V)
  /-- at line 52, the binding is at line 241 -/
  | notify (v : Option V)
  /-- the binding has read `w` and is at line 243 or 245 -/
  | showing (v w : Option V)
  /-- at line 53 -/
  | handle (v : Option V)
  deriving DecidableEq

/-- What happens, in order. -/
inductive Ev (T V : Type) where
  | assigned (t : T) (v : Option V)
  /-- the target setter is called -/
  | shown (t : T) (w : Option V)
  /-- `on_value_changed` is called -/
  | handled (t : T) (v : Option V)
  deriving DecidableEq

structure St (T V : Type) where
  value : Option V
  pc : T → Pc V
  log : List (Ev T V)

inductive Act (T V : Type) where
  /-- thread `t`, which is idle, begins to set the value `v` -/
  | set (t : T) (v : Option V)
  /-- thread `t` does its next step -/
  | run (t : T)
  deriving DecidableEq

def St.init (v : Option V) : St T V := ⟨v, fun _ => .idle, []⟩

def St.goto (s : St T V) (t : T) (p : Pc V) : St T V := { s with pc := Function.update s.pc t p }

def St.step (s : St T V) : Act T V → St T V
  | .set t v => if s.pc t = .idle then s.goto t (.first v) else s
  | .run t => match s.pc t with
    | .idle => s
    | .first v => if s.value = none then s.goto t (if v = none then .idle else .assign v) else s.goto t (.second v)
    | .second v => s.goto t (if v = s.value then .idle else .assign v)
    | .assign v => { s.goto t (.notify v) with value := v, log := s.log ++ [.assigned t v] }
    | .notify v => s.goto t (.showing v s.value)
    | .showing v w => { s.goto t (.handle v) with log := s.log ++ [.shown t w] }
    | .handle v => { s.goto t .idle with log := s.log ++ [.handled t v] }

def St.run (s : St T V) (as : List (Act T V)) : St T V := as.foldl St.step s

/-! ### What the claims say -/

/-- The values assigned, in order. -/
def assigns (log : List (Ev T V)) : List (Option V) := log.filterMap fun e => match e with
  | .assigned _ v => some v
  | _ => none

/-- What the target shows. -/
def shownLast (v0 : Option V) (log : List (Ev T V)) : Option V := (log.filterMap fun e => match e with
  | .shown _ w => some w
  | _ => none).getLastD v0

/-- What `on_value_changed` was told last. -/
def handledLast (v0 : Option V) (log : List (Ev T V)) : Option V := (log.filterMap fun e => match e with
  | .handled _ v => some v
  | _ => none).getLastD v0

/-- The thread assigned nothing. -/
def NoAssign (t : T) (log : List (Ev T V)) : Prop := ∀ v, .assigned t v ∉ log

/-- The latest assignment of the thread was `v`, and `w` is a value assigned then or later. -/
def Since (t : T) (log : List (Ev T V)) (v w : Option V) : Prop :=
  ∃ a b, log = a ++ .assigned t v :: b ∧ NoAssign t b ∧ w ∈ v :: assigns b

/-! ### Proofs -/

theorem assigns_append (a b : List (Ev T V)) : assigns (a ++ b) = assigns a ++ assigns b := by simp [assigns]

theorem assigns_cons (t : T) (v : Option V) (b : List (Ev T V)) : assigns (.assigned t v :: b) = v :: assigns b := by simp [assigns]

theorem Since.append {t : T} {log l : List (Ev T V)} {v w : Option V} (h : Since t log v w) (hl : NoAssign t l) : Since t (log ++ l) v w := by
  obtain ⟨a, b, rfl, hb, hw⟩ := h
  refine ⟨a, b ++ l, by simp, fun u hu => ?_, ?_⟩
  · rcases List.mem_append.1 hu with hu | hu
    · exact hb u hu
    · exact hl u hu
  · rw [assigns_append, ← List.cons_append]
    exact List.mem_append_left _ hw

/-- What holds between the steps. -/
structure Inv (v0 : Option V) (s : St T V) : Prop where
  value : s.value = (assigns s.log).getLastD v0
  notify : ∀ t v, s.pc t = .notify v → ∃ a b, s.log = a ++ .assigned t v :: b ∧ NoAssign t b
  showing : ∀ t v w, s.pc t = .showing v w → Since t s.log v w
  handle : ∀ t v, s.pc t = .handle v → ∃ a b, s.log = a ++ .assigned t v :: b ∧ NoAssign t b ∧ ∃ w, .shown t w ∈ b
  shown : ∀ l₁ t w l₂, s.log = l₁ ++ .shown t w :: l₂ → ∃ v, Since t l₁ v w
  handled : ∀ l₁ t v l₂, s.log = l₁ ++ .handled t v :: l₂ → ∃ a b, l₁ = a ++ .assigned t v :: b ∧ NoAssign t b ∧ ∃ w, .shown t w ∈ b
  last : ∀ a t v b, s.log = a ++ .assigned t v :: b → assigns b = [] →
    s.pc t = .notify v ∨ s.pc t = .showing v v ∨ (s.pc t = .handle v ∧ .shown t v ∈ b) ∨ (.shown t v ∈ b ∧ .handled t v ∈ b)

theorem inv_init (v0 : Option V) : Inv v0 (St.init v0 : St T V) := by
  constructor <;> simp [St.init, assigns]

/-- A log with one more event, cut at an event. -/
theorem cut_snoc {α : Type} {l l₁ l₂ : List α} {x e : α} (h : l ++ [x] = l₁ ++ e :: l₂) :
    (l₂ = [] ∧ l₁ = l ∧ e = x) ∨ ∃ l₃, l₂ = l₃ ++ [x] ∧ l = l₁ ++ e :: l₃ := by
  rcases List.eq_nil_or_concat l₂ with rfl | ⟨l₃, y, rfl⟩
  · left
    obtain ⟨h1, h2⟩ := List.append_inj' h rfl
    simp only [List.cons.injEq, and_true] at h2
    exact ⟨rfl, h1.symm, h2.symm⟩
  · right
    rw [List.concat_eq_append, ← List.cons_append, ← List.append_assoc] at h
    obtain ⟨h1, h2⟩ := List.append_inj' h rfl
    simp only [List.cons.injEq, and_true] at h2
    exact ⟨l₃, by rw [List.concat_eq_append, h2], h1⟩

theorem Inv.goto {v0 : Option V} {s : St T V} (h : Inv v0 s) {t : T} {p : Pc V} (hp : s.pc t = .idle ∨ (∃ v, s.pc t = .first v) ∨
    (∃ v, s.pc t = .second v)) (hq : p = .idle ∨ (∃ v, p = .first v) ∨ (∃ v, p = .second v) ∨ ∃ v, p = .assign v) : Inv v0 (s.goto t p) := by
  have key : ∀ u (q : Pc V), (q = .idle → False) → (∀ v, q ≠ .first v) → (∀ v, q ≠ .second v) → (∀ v, q ≠ .assign v) →
      (Function.update s.pc t p u = q ↔ s.pc u = q) := by
    intro u q h1 h2 h3 h4
    by_cases hu : u = t
    · subst hu
      rw [Function.update_self]
      constructor
      · intro e
        rcases hq with e' | ⟨v, e'⟩ | ⟨v, e'⟩ | ⟨v, e'⟩ <;> rw [e'] at e
        · exact absurd e.symm (fun h => h1 h)
        · exact absurd e.symm (h2 v)
        · exact absurd e.symm (h3 v)
        · exact absurd e.symm (h4 v)
      · intro e
        rcases hp with e' | ⟨v, e'⟩ | ⟨v, e'⟩ <;> rw [e'] at e
        · exact absurd e.symm (fun h => h1 h)
        · exact absurd e.symm (h2 v)
        · exact absurd e.symm (h3 v)
    · rw [Function.update_of_ne hu]
  constructor
  · exact h.value
  · intro u v e
    exact h.notify u v ((key u _ (by simp) (by simp) (by simp) (by simp)).1 e)
  · intro u v w e
    exact h.showing u v w ((key u _ (by simp) (by simp) (by simp) (by simp)).1 e)
  · intro u v e
    exact h.handle u v ((key u _ (by simp) (by simp) (by simp) (by simp)).1 e)
  · exact h.shown
  · exact h.handled
  · intro a u v b e hb
    have := h.last a u v b e hb
    simp only [St.goto]
    rwa [key u _ (by simp) (by simp) (by simp) (by simp), key u _ (by simp) (by simp) (by simp) (by simp),
      key u _ (by simp) (by simp) (by simp) (by simp)]

theorem Inv.assign {v0 : Option V} {s : St T V} (h : Inv v0 s) {t : T} {v : Option V} (hp : s.pc t = .assign v) :
    Inv v0 { s.goto t (.notify v) with value := v, log := s.log ++ [.assigned t v] } := by
  have other : ∀ u, u ≠ t → NoAssign u [(Ev.assigned t v : Ev T V)] := by
    intro u hu x hx
    simp only [List.mem_singleton, Ev.assigned.injEq] at hx
    exact hu hx.1
  constructor
  · simp [assigns]
  · intro u x e
    simp only [St.goto] at e ⊢
    by_cases hu : u = t
    · subst hu
      rw [Function.update_self, Pc.notify.injEq] at e
      subst e
      exact ⟨s.log, [], rfl, by simp [NoAssign]⟩
    · rw [Function.update_of_ne hu] at e
      obtain ⟨a, b, e, hb⟩ := h.notify u x e
      refine ⟨a, b ++ [.assigned t v], by rw [e]; simp, fun y hy => ?_⟩
      rcases List.mem_append.1 hy with hy | hy
      · exact hb y hy
      · exact other u hu y hy
  · intro u x w e
    simp only [St.goto] at e ⊢
    by_cases hu : u = t
    · subst hu
      rw [Function.update_self] at e
      cases e
    · rw [Function.update_of_ne hu] at e
      exact (h.showing u x w e).append (other u hu)
  · intro u x e
    simp only [St.goto] at e ⊢
    by_cases hu : u = t
    · subst hu
      rw [Function.update_self] at e
      cases e
    · rw [Function.update_of_ne hu] at e
      obtain ⟨a, b, e, hb, w, hw⟩ := h.handle u x e
      refine ⟨a, b ++ [.assigned t v], by rw [e]; simp, fun y hy => ?_, w, by simp [hw]⟩
      rcases List.mem_append.1 hy with hy | hy
      · exact hb y hy
      · exact other u hu y hy
  · intro l₁ u w l₂ e
    rcases cut_snoc e with ⟨-, -, e⟩ | ⟨l₃, -, e⟩
    · cases e
    · exact h.shown l₁ u w l₃ e
  · intro l₁ u w l₂ e
    rcases cut_snoc e with ⟨-, -, e⟩ | ⟨l₃, -, e⟩
    · cases e
    · exact h.handled l₁ u w l₃ e
  · intro a u x b e hb
    simp only [St.goto] at e ⊢
    rcases cut_snoc e with ⟨-, -, e⟩ | ⟨l₃, rfl, -⟩
    · rw [Ev.assigned.injEq] at e
      obtain ⟨rfl, rfl⟩ := e
      left
      rw [Function.update_self]
    · rw [assigns_append] at hb
      simp [assigns] at hb

theorem Inv.notified {v0 : Option V} {s : St T V} (h : Inv v0 s) {t : T} {v : Option V} (hp : s.pc t = .notify v) :
    Inv v0 (s.goto t (.showing v s.value)) := by
  constructor
  · exact h.value
  · intro u x e
    simp only [St.goto] at e ⊢
    by_cases hu : u = t
    · subst hu
      rw [Function.update_self] at e
      cases e
    · rw [Function.update_of_ne hu] at e
      exact h.notify u x e
  · intro u x w e
    simp only [St.goto] at e ⊢
    by_cases hu : u = t
    · subst hu
      rw [Function.update_self, Pc.showing.injEq] at e
      obtain ⟨rfl, rfl⟩ := e
      obtain ⟨a, b, e, hb⟩ := h.notify u v hp
      refine ⟨a, b, e, hb, ?_⟩
      rw [h.value, e, assigns_append, assigns_cons]
      have hne : v :: assigns b ≠ [] := by simp
      rw [List.getLastD_eq_getLast?, List.getLast?_append, List.getLast?_eq_some_getLast hne, Option.some_or, Option.getD_some]
      exact List.getLast_mem hne
    · rw [Function.update_of_ne hu] at e
      exact h.showing u x w e
  · intro u x e
    simp only [St.goto] at e ⊢
    by_cases hu : u = t
    · subst hu
      rw [Function.update_self] at e
      cases e
    · rw [Function.update_of_ne hu] at e
      exact h.handle u x e
  · exact h.shown
  · exact h.handled
  · intro a u x b e hb
    have := h.last a u x b e hb
    simp only [St.goto]
    by_cases hu : u = t
    · subst hu
      rw [Function.update_self]
      rcases this with h1 | h1 | h1 | h1
      · rw [hp, Pc.notify.injEq] at h1
        subst h1
        right; left
        change s.log = _ at e
        rw [h.value, e, assigns_append, assigns_cons, hb]
        simp
      · rw [hp] at h1; cases h1
      · rw [hp] at h1; cases h1.1
      · exact .inr (.inr (.inr h1))
    · rwa [Function.update_of_ne hu]

theorem Inv.shows {v0 : Option V} {s : St T V} (h : Inv v0 s) {t : T} {v w : Option V} (hp : s.pc t = .showing v w) :
    Inv v0 { s.goto t (.handle v) with log := s.log ++ [.shown t w] } := by
  have other : ∀ u, NoAssign u [(Ev.shown t w : Ev T V)] := by
    intro u x hx
    simp at hx
  constructor
  · simp only [St.goto, assigns_append]
    rw [h.value]
    simp [assigns]
  · intro u x e
    simp only [St.goto] at e ⊢
    by_cases hu : u = t
    · subst hu
      rw [Function.update_self] at e
      cases e
    · rw [Function.update_of_ne hu] at e
      obtain ⟨a, b, e, hb⟩ := h.notify u x e
      refine ⟨a, b ++ [.shown t w], by rw [e]; simp, fun y hy => ?_⟩
      rcases List.mem_append.1 hy with hy | hy
      · exact hb y hy
      · exact other u y hy
  · intro u x y e
    simp only [St.goto] at e ⊢
    by_cases hu : u = t
    · subst hu
      rw [Function.update_self] at e
      cases e
    · rw [Function.update_of_ne hu] at e
      exact (h.showing u x y e).append (other u)
  · intro u x e
    simp only [St.goto] at e ⊢
    by_cases hu : u = t
    · subst hu
      rw [Function.update_self, Pc.handle.injEq] at e
      subst e
      obtain ⟨a, b, e, hb, -⟩ := h.showing u v w hp
      refine ⟨a, b ++ [.shown u w], by rw [e]; simp, fun y hy => ?_, w, by simp⟩
      rcases List.mem_append.1 hy with hy | hy
      · exact hb y hy
      · exact other u y hy
    · rw [Function.update_of_ne hu] at e
      obtain ⟨a, b, e, hb, y, hy⟩ := h.handle u x e
      refine ⟨a, b ++ [.shown t w], by rw [e]; simp, fun z hz => ?_, y, by simp [hy]⟩
      rcases List.mem_append.1 hz with hz | hz
      · exact hb z hz
      · exact other u z hz
  · intro l₁ u y l₂ e
    rcases cut_snoc e with ⟨-, rfl, e'⟩ | ⟨l₃, -, e'⟩
    · clear e
      have e := e'
      rw [Ev.shown.injEq] at e
      obtain ⟨rfl, rfl⟩ := e
      exact ⟨v, h.showing u v y hp⟩
    · exact h.shown l₁ u y l₃ (by assumption)
  · intro l₁ u y l₂ e
    rcases cut_snoc e with ⟨-, -, e⟩ | ⟨l₃, -, e⟩
    · cases e
    · exact h.handled l₁ u y l₃ (by assumption)
  · intro a u x b e hb
    simp only [St.goto] at e ⊢
    rcases cut_snoc e with ⟨-, -, e'⟩ | ⟨l₃, rfl, e'⟩
    · cases e'
    · have hb' : assigns l₃ = [] := by
        rw [assigns_append] at hb
        exact (List.append_eq_nil_iff.1 hb).1
      have := h.last a u x l₃ e' hb'
      by_cases hu : u = t
      · subst hu
        rw [Function.update_self]
        rcases this with h1 | h1 | h1 | h1
        · rw [hp] at h1; cases h1
        · rw [hp, Pc.showing.injEq] at h1
          obtain ⟨rfl, rfl⟩ := h1
          exact .inr (.inr (.inl ⟨rfl, by simp⟩))
        · rw [hp] at h1; cases h1.1
        · exact .inr (.inr (.inr ⟨List.mem_append_left _ h1.1, List.mem_append_left _ h1.2⟩))
      · rw [Function.update_of_ne hu]
        rcases this with h1 | h1 | h1 | h1
        · exact .inl h1
        · exact .inr (.inl h1)
        · exact .inr (.inr (.inl ⟨h1.1, List.mem_append_left _ h1.2⟩))
        · exact .inr (.inr (.inr ⟨List.mem_append_left _ h1.1, List.mem_append_left _ h1.2⟩))

theorem Inv.handles {v0 : Option V} {s : St T V} (h : Inv v0 s) {t : T} {v : Option V} (hp : s.pc t = .handle v) :
    Inv v0 { s.goto t .idle with log := s.log ++ [.handled t v] } := by
  have other : ∀ u, NoAssign u [(Ev.handled t v : Ev T V)] := by
    intro u x hx
    simp at hx
  have neq : ∀ u q, q ≠ .idle → Function.update s.pc t .idle u = q → s.pc u = q := by
    intro u q hq e
    by_cases hu : u = t
    · subst hu
      rw [Function.update_self] at e
      exact absurd e.symm hq
    · rwa [Function.update_of_ne hu] at e
  constructor
  · simp only [St.goto, assigns_append]
    rw [h.value]
    simp [assigns]
  · intro u x e
    simp only [St.goto] at e ⊢
    obtain ⟨a, b, e, hb⟩ := h.notify u x (neq u _ (by simp) e)
    refine ⟨a, b ++ [.handled t v], by rw [e]; simp, fun y hy => ?_⟩
    rcases List.mem_append.1 hy with hy | hy
    · exact hb y hy
    · exact other u y hy
  · intro u x y e
    exact (h.showing u x y (neq u _ (by simp) e)).append (other u)
  · intro u x e
    simp only [St.goto] at e ⊢
    obtain ⟨a, b, e, hb, y, hy⟩ := h.handle u x (neq u _ (by simp) e)
    refine ⟨a, b ++ [.handled t v], by rw [e]; simp, fun z hz => ?_, y, by simp [hy]⟩
    rcases List.mem_append.1 hz with hz | hz
    · exact hb z hz
    · exact other u z hz
  · intro l₁ u y l₂ e
    rcases cut_snoc e with ⟨-, -, e'⟩ | ⟨l₃, -, e'⟩
    · cases e'
    · exact h.shown l₁ u y l₃ e'
  · intro l₁ u y l₂ e
    rcases cut_snoc e with ⟨-, rfl, e'⟩ | ⟨l₃, -, e'⟩
    · clear e
      have e := e'
      rw [Ev.handled.injEq] at e
      obtain ⟨rfl, rfl⟩ := e
      exact h.handle u y hp
    · exact h.handled l₁ u y l₃ (by assumption)
  · intro a u x b e hb
    simp only [St.goto] at e ⊢
    rcases cut_snoc e with ⟨-, -, e'⟩ | ⟨l₃, rfl, e'⟩
    · cases e'
    · have hb' : assigns l₃ = [] := by
        rw [assigns_append] at hb
        exact (List.append_eq_nil_iff.1 hb).1
      have := h.last a u x l₃ e' hb'
      by_cases hu : u = t
      · subst hu
        rcases this with h1 | h1 | h1 | h1
        · rw [hp] at h1; cases h1
        · rw [hp] at h1; cases h1
        · obtain ⟨h1, h2⟩ := h1
          rw [hp, Pc.handle.injEq] at h1
          subst h1
          exact .inr (.inr (.inr ⟨List.mem_append_left _ h2, by simp⟩))
        · exact .inr (.inr (.inr ⟨List.mem_append_left _ h1.1, List.mem_append_left _ h1.2⟩))
      · rw [Function.update_of_ne hu]
        rcases this with h1 | h1 | h1 | h1
        · exact .inl h1
        · exact .inr (.inl h1)
        · exact .inr (.inr (.inl ⟨h1.1, List.mem_append_left _ h1.2⟩))
        · exact .inr (.inr (.inr ⟨List.mem_append_left _ h1.1, List.mem_append_left _ h1.2⟩))

theorem Inv.step {v0 : Option V} {s : St T V} (h : Inv v0 s) (a : Act T V) : Inv v0 (s.step a) := by
  cases a with
  | set t v =>
    rw [St.step]
    split_ifs with hi
    · exact h.goto (.inl hi) (.inr (.inl ⟨v, rfl⟩))
    · exact h
  | run t =>
    rw [St.step]
    cases hp : s.pc t with
    | idle => exact h
    | first v =>
      simp only
      split_ifs with h1 h2
      · exact h.goto (.inr (.inl ⟨v, hp⟩)) (.inl rfl)
      · exact h.goto (.inr (.inl ⟨v, hp⟩)) (.inr (.inr (.inr ⟨v, rfl⟩)))
      · exact h.goto (.inr (.inl ⟨v, hp⟩)) (.inr (.inr (.inl ⟨v, rfl⟩)))
    | second v =>
      simp only
      split_ifs with h1
      · exact h.goto (.inr (.inr ⟨v, hp⟩)) (.inl rfl)
      · exact h.goto (.inr (.inr ⟨v, hp⟩)) (.inr (.inr (.inr ⟨v, rfl⟩)))
    | assign v => exact h.assign hp
    | notify v => exact h.notified hp
    | showing v w => exact h.shows hp
    | handle v => exact h.handles hp

theorem inv_run (v0 : Option V) (as : List (Act T V)) : Inv v0 ((St.init v0 : St T V).run as) := by
  suffices H : ∀ (as : List (Act T V)) (s : St T V), Inv v0 s → Inv v0 (s.run as) from H as _ (inv_init v0)
  intro as
  induction as with
  | nil => exact fun s h => h
  | cons a as ih => exact fun s h => ih _ (h.step a)

/-- C143: no call of the target setter shows a value that is older than the assignment it is for. -/
theorem C143_not_older (v0 : Option V) (as : List (Act T V)) (l₁ l₂ : List (Ev T V)) (t : T) (w : Option V)
    (h : ((St.init v0 : St T V).run as).log = l₁ ++ .shown t w :: l₂) : ∃ v, Since t l₁ v w :=
  (inv_run v0 as).shown l₁ t w l₂ h

/-- C143: when all threads are done, the value is the last one assigned; the thread that assigned it has since shown it and handed it on. -/
theorem C143_seen (v0 : Option V) (as : List (Act T V)) (hidle : ∀ t, ((St.init v0 : St T V).run as).pc t = .idle) :
    let s := (St.init v0 : St T V).run as
    (s.value = v0 ∧ s.log = []) ∨ ∃ a t b, s.log = a ++ .assigned t s.value :: b ∧ assigns b = [] ∧ .shown t s.value ∈ b ∧ .handled t s.value ∈ b := by
  intro s
  have h := inv_run (T := T) v0 as
  by_cases hn : assigns s.log = []
  · left
    have hv : s.value = v0 := by
      have := h.value
      rw [show ((St.init v0 : St T V).run as) = s from rfl, hn] at this
      simpa using this
    refine ⟨hv, ?_⟩
    -- nothing is shown or handled without an assignment
    by_contra hne
    obtain ⟨e, l, hl⟩ := List.exists_cons_of_ne_nil hne
    cases e with
    | assigned t v => rw [hl, assigns_cons] at hn; cases hn
    | shown t w =>
      obtain ⟨v, a, b, e, -⟩ := h.shown [] t w l hl
      simp at e
    | handled t v =>
      obtain ⟨a, b, e, -⟩ := h.handled [] t v l hl
      simp at e
  · right
    -- the last assignment
    obtain ⟨a, t, v, b, e, hb⟩ : ∃ a t v b, s.log = a ++ .assigned t v :: b ∧ assigns b = [] := by
      have : ∀ l : List (Ev T V), assigns l ≠ [] → ∃ a t v b, l = a ++ .assigned t v :: b ∧ assigns b = [] := by
        intro l
        induction l with
        | nil => intro h; exact absurd rfl h
        | cons e l ih =>
          intro hne
          by_cases hl : assigns l = []
          · cases e with
            | assigned t v => exact ⟨[], t, v, l, rfl, hl⟩
            | shown t w => exact absurd hl (by simpa [assigns] using hne)
            | handled t w => exact absurd hl (by simpa [assigns] using hne)
          · obtain ⟨a, t, v, b, e', hb⟩ := ih hl
            exact ⟨e :: a, t, v, b, by rw [e']; rfl, hb⟩
      exact this _ hn
    have hv : s.value = v := by
      have := h.value
      rw [show ((St.init v0 : St T V).run as) = s from rfl, e, assigns_append, assigns_cons, hb] at this
      simpa using this
    rw [hv]
    refine ⟨a, t, b, e, hb, ?_⟩
    rcases h.last a t v b e hb with h1 | h1 | h1 | h1
    · rw [hidle t] at h1; cases h1
    · rw [hidle t] at h1; cases h1
    · rw [hidle t] at h1; cases h1.1
    · exact h1

/-- Whenever a thread begins to set a value, no other thread is in the setter. -/
def Alone : St T V → List (Act T V) → Prop
  | _, [] => True
  | s, .set t v :: as => (∀ u, u ≠ t → s.pc u = .idle) ∧ Alone (s.step (.set t v)) as
  | s, .run t :: as => Alone (s.step (.run t)) as

theorem shownLast_snoc (v0 : Option V) (l : List (Ev T V)) (t : T) (w : Option V) : shownLast v0 (l ++ [.shown t w]) = w := by simp [shownLast]

theorem handledLast_snoc (v0 : Option V) (l : List (Ev T V)) (t : T) (w : Option V) : handledLast v0 (l ++ [.handled t w]) = w := by simp [handledLast]

/-- What holds between the steps when the setters do not overlap. -/
structure Solo (v0 : Option V) (s : St T V) (t : T) : Prop where
  others : ∀ u, u ≠ t → s.pc u = .idle
  value : s.value = (assigns s.log).getLastD v0
  chain : (v0 :: assigns s.log).IsChain (fun a b => a ≠ b)
  at_pc : match s.pc t with
    | .idle | .first _ | .second _ => shownLast v0 s.log = s.value ∧ handledLast v0 s.log = s.value
    | .assign v => v ≠ s.value
    | .notify v => v = s.value
    | .showing v w => v = s.value ∧ w = s.value
    | .handle v => v = s.value ∧ shownLast v0 s.log = s.value

theorem Solo.run {v0 : Option V} {s : St T V} {t : T} (h : Solo v0 s t) (u : T) : Solo v0 (s.step (.run u)) t := by
  by_cases hu : u = t
  swap
  · have : s.step (.run u) = s := by simp [St.step, h.others u hu]
    rwa [this]
  subst hu
  have others : ∀ p x, x ≠ u → (s.goto u p).pc x = .idle := by
    intro p x hx
    rw [St.goto]
    simp only
    rw [Function.update_of_ne hx]
    exact h.others x hx
  have self : ∀ p, (s.goto u p).pc u = p := by intro p; simp [St.goto]
  have hat := h.at_pc
  rw [St.step]
  cases hp : s.pc u with
  | idle => exact h
  | first v =>
    rw [hp] at hat
    simp only at hat ⊢
    split_ifs with h1 h2
    · exact ⟨others _, h.value, h.chain, by rw [self]; exact hat⟩
    · exact ⟨others _, h.value, h.chain, by rw [self]; exact fun e => h2 (e.trans h1)⟩
    · exact ⟨others _, h.value, h.chain, by rw [self]; exact hat⟩
  | second v =>
    rw [hp] at hat
    simp only at hat ⊢
    split_ifs with h1
    · exact ⟨others _, h.value, h.chain, by rw [self]; exact hat⟩
    · exact ⟨others _, h.value, h.chain, by rw [self]; exact h1⟩
  | assign v =>
    rw [hp] at hat
    simp only at hat ⊢
    refine ⟨others _, by simp [assigns], ?_, ?_⟩
    · have hc := h.chain
      simp only [assigns_append]
      rw [← List.cons_append, List.isChain_append]
      refine ⟨hc, by simp [assigns], ?_⟩
      intro x hx y hy
      have hy : y = v := by simpa [assigns, eq_comm] using hy
      subst hy
      rw [h.value] at hat
      rw [List.getLast?_cons, Option.mem_some_iff] at hx
      rw [List.getLastD_eq_getLast?] at hat
      exact fun e => hat (by rw [← e, ← hx])
    · have := self (.notify v)
      simp only [this]
  | notify v =>
    rw [hp] at hat
    simp only at hat ⊢
    exact ⟨others _, h.value, h.chain, by rw [self]; exact ⟨hat, rfl⟩⟩
  | showing v w =>
    rw [hp] at hat
    simp only at hat ⊢
    refine ⟨others _, ?_, ?_, ?_⟩
    · have := h.value
      simpa [St.goto, assigns] using this
    · have := h.chain
      simpa [assigns] using this
    · have := self (.handle v)
      simp only [this, shownLast_snoc]
      exact hat
  | handle v =>
    rw [hp] at hat
    simp only at hat ⊢
    refine ⟨others _, ?_, ?_, ?_⟩
    · have := h.value
      simpa [St.goto, assigns] using this
    · have := h.chain
      simpa [assigns] using this
    · have := self .idle
      simp only [this, handledLast_snoc]
      refine ⟨?_, hat.1⟩
      have h2 := hat.2
      simpa [St.goto, shownLast] using h2

theorem Solo.set {v0 : Option V} {s : St T V} {t : T} (h : Solo v0 s t) (u : T) (v : Option V) (hal : ∀ x, x ≠ u → s.pc x = .idle) :
    Solo v0 (s.step (.set u v)) u := by
  have hu : Solo v0 s u := by
    by_cases e : u = t
    · rw [e]; exact h
    · have ht := hal t (fun x => e x.symm)
      have hat := h.at_pc
      rw [ht] at hat
      exact ⟨hal, h.value, h.chain, by rw [h.others u e]; exact hat⟩
  rw [St.step]
  split_ifs with hi
  · refine ⟨fun x hx => ?_, hu.value, hu.chain, ?_⟩
    · rw [St.goto]
      simp only
      rw [Function.update_of_ne hx]
      exact hal x hx
    · have hat := hu.at_pc
      rw [hi] at hat
      have : (s.goto u (.first v)).pc u = .first v := by simp [St.goto]
      rw [this]
      exact hat
  · exact hu

theorem solo_run (v0 : Option V) (as : List (Act T V)) (s : St T V) (t : T) (h : Solo v0 s t) (hal : Alone s as) : ∃ u, Solo v0 (s.run as) u := by
  induction as generalizing s t with
  | nil => exact ⟨t, h⟩
  | cons a as ih =>
    cases a with
    | set u v => exact ih _ _ (h.set u v hal.1) hal.2
    | run u => exact ih _ _ (h.run u) hal

/-- C143, partial: what is missing is setters that overlap. When they do not, and all are done, the target shows the value, the handler was
told it last, and each assignment changed the value. -/
theorem C143_partial [Nonempty T] (v0 : Option V) (as : List (Act T V)) (hal : Alone (St.init v0 : St T V) as)
    (hidle : ∀ t, ((St.init v0 : St T V).run as).pc t = .idle) :
    let s := (St.init v0 : St T V).run as
    shownLast v0 s.log = s.value ∧ handledLast v0 s.log = s.value ∧ (v0 :: assigns s.log).IsChain (fun a b => a ≠ b) := by
  intro s
  obtain ⟨t⟩ := ‹Nonempty T›
  obtain ⟨u, h⟩ := solo_run v0 as (St.init v0 : St T V) t ⟨fun _ _ => rfl, rfl, by simp [St.init, assigns], ⟨rfl, rfl⟩⟩ hal
  have hat := h.at_pc
  rw [hidle u] at hat
  exact ⟨hat.1, hat.2, h.chain⟩

/-- C143: whatever happened before, when all are done, setting another value without interference brings target and handler up to date, and
setting the value that is there already does nothing, even if the target shows something else. -/
theorem C143_recovers (v0 : Option V) (s : St T V) (hidle : ∀ t, s.pc t = .idle) (t : T) (v : Option V) :
    let s' := s.run (.set t v :: List.replicate 6 (.run t))
    s'.value = v ∧ (∀ u, s'.pc u = .idle) ∧
    (v ≠ s.value → shownLast v0 s'.log = v ∧ handledLast v0 s'.log = v) ∧
    (v = s.value → s'.log = s.log) := by
  intro s'
  obtain ⟨x, pc, log⟩ := s
  have hpc : pc = fun _ => .idle := funext hidle
  subst hpc
  have hself : ∀ q : Pc V, Function.update (Function.update (fun _ => Pc.idle) t q) t .idle = (fun _ => Pc.idle : T → Pc V) := by
    intro q
    funext u
    by_cases hu : u = t
    · subst hu; simp
    · simp [Function.update_of_ne hu]
  by_cases hv : v = x
  · subst hv
    have : s' = ⟨v, fun _ => .idle, log⟩ := by
      show St.run _ _ = _
      by_cases hn : v = none
      · subst hn
        simp [St.run, List.replicate, St.step, St.goto]
      · simp [St.run, List.replicate, St.step, St.goto, hn]
    rw [this]
    exact ⟨rfl, fun _ => rfl, fun h => absurd rfl h, fun _ => rfl⟩
  · by_cases hn : x = none
    · subst hn
      have : s' = ⟨v, fun _ => .idle, log ++ [.assigned t v] ++ [.shown t v] ++ [.handled t v]⟩ := by
        show St.run _ _ = _
        simp [St.run, List.replicate, St.step, St.goto, hv]
      rw [this]
      refine ⟨rfl, fun _ => rfl, fun _ => ⟨by simp [shownLast], by simp [handledLast]⟩, fun h => absurd h hv⟩
    · have : s' = ⟨v, fun _ => .idle, log ++ [.assigned t v] ++ [.shown t v] ++ [.handled t v]⟩ := by
        show St.run _ _ = _
        simp [St.run, List.replicate, St.step, St.goto, hv, hn]
      rw [this]
      refine ⟨rfl, fun _ => rfl, fun _ => ⟨by simp [shownLast], by simp [handledLast]⟩, fun h => absurd h hv⟩

/-- Two threads set 1 and 2; thread `false` reads 1 for the target and is held up. -/
def stale : List (Act Bool Nat) :=
  [.set false (some 1), .run false, .run false, .run false, .run false, .set true (some 2)] ++ List.replicate 6 (.run true) ++ [.run false, .run false]

/-- Two threads set 1; both compare before either assigns. -/
def twice : List (Act Bool Nat) :=
  [.set false (some 1), .set true (some 1), .run false, .run false, .run true, .run true] ++ List.replicate 4 (.run false) ++ List.replicate 4 (.run true)

/-- C143 does not hold for setters that overlap: the model has the value 2 and everybody is done, the target shows 1 and the handler was told 1
last; setting 2 again does not help. And one change can be assigned and announced twice. -/
theorem C143_counterexample :
    (let s := (St.init (some 0) : St Bool Nat).run stale
     (∀ t, s.pc t = .idle) ∧ s.value = some 2 ∧ shownLast (some 0) s.log = some 1 ∧ handledLast (some 0) s.log = some 1 ∧
       shownLast (some 0) (s.run (.set true (some 2) :: List.replicate 6 (.run true))).log = some 1) ∧
    (let s := (St.init (some 0) : St Bool Nat).run twice
     (∀ t, s.pc t = .idle) ∧ assigns s.log = [some 1, some 1]) := by
  decide

example : Since true ((St.init (some 0) : St Bool Nat).run (stale.take 11)).log (some 2) (some 2) :=
  ⟨[.assigned false (some 1)], [.shown true (some 2)], by decide, by simp [NoAssign], by simp⟩

example : Alone (St.init (some 0) : St Bool Nat) (.set false (some 1) :: List.replicate 6 (.run false) ++ .set true (some 2) :: List.replicate 6 (.run true)) := by
  simp only [List.replicate, List.cons_append, List.nil_append, Alone, and_true]
  exact ⟨by decide, by decide⟩

/-! ### Tuples -/

section tuples

variable {E : Type}

/-- A property that holds a tuple, and for each thread in `source_setter` the index, the value and the tuple it read (Binding.py:349-353). -/
structure TS (T E : Type) where
  prop : Option (List (Option E))
  pc : T → Option (Nat × Option E × Option (List (Option E)))

inductive TAct (T E : Type) where
  /-- `update_source` of a binding for index `i` reads the tuple (Binding.py:349) -/
  | read (t : T) (i : Nat) (x : Option E)
  /-- it assigns the tuple (Binding.py:354) -/
  | write (t : T)

def TS.init (p : Option (List (Option E))) : TS T E := ⟨p, fun _ => none⟩

def TS.step (s : TS T E) : TAct T E → TS T E
  | .read t i x => match s.pc t with
    | none => { s with pc := Function.update s.pc t (some (i, x, s.prop)) }
    | some _ => s
  | .write t => match s.pc t with
    | none => s
    | some (i, x, p) => ⟨(tupleAccess E i).setter p x, Function.update s.pc t none⟩

def TS.run (s : TS T E) (as : List (TAct T E)) : TS T E := as.foldl TS.step s

/-- The updates that a schedule begins: index and value. -/
def begun (as : List (TAct T E)) : List (Nat × Option E) := as.filterMap fun a => match a with
  | .read _ i x => some (i, x)
  | .write _ => none

structure TInv (p : Option (List (Option E))) (us : List (Nat × Option E)) (s : TS T E) : Prop where
  prop : ∀ j, elem s.prop j = elem p j ∨ (j, elem s.prop j) ∈ us
  pcs : ∀ t i x q, s.pc t = some (i, x, q) → (i, x) ∈ us ∧ ∀ j, elem q j = elem p j ∨ (j, elem q j) ∈ us

theorem tinv_step {p : Option (List (Option E))} {us : List (Nat × Option E)} {s : TS T E} (h : TInv p us s) (a : TAct T E) :
    TInv p (us ++ begun [a]) (s.step a) := by
  have lift : ∀ (q : Option (List (Option E))), (∀ j, elem q j = elem p j ∨ (j, elem q j) ∈ us) →
      ∀ j, elem q j = elem p j ∨ (j, elem q j) ∈ us ++ begun [a] :=
    fun q hq j => (hq j).imp id (List.mem_append_left _)
  cases a with
  | read t i x =>
    rw [TS.step]
    cases hp : s.pc t with
    | some c => exact ⟨lift _ h.prop, fun u j y q e => ⟨List.mem_append_left _ (h.pcs u j y q e).1, lift _ (h.pcs u j y q e).2⟩⟩
    | none =>
      refine ⟨lift _ h.prop, fun u j y q e => ?_⟩
      simp only at e
      by_cases hu : u = t
      · subst hu
        rw [Function.update_self, Option.some.injEq, Prod.mk.injEq, Prod.mk.injEq] at e
        obtain ⟨rfl, rfl, rfl⟩ := e
        exact ⟨by simp [begun], lift _ h.prop⟩
      · rw [Function.update_of_ne hu] at e
        exact ⟨List.mem_append_left _ (h.pcs u j y q e).1, lift _ (h.pcs u j y q e).2⟩
  | write t =>
    rw [TS.step]
    cases hp : s.pc t with
    | none => exact ⟨lift _ h.prop, fun u j y q e => ⟨List.mem_append_left _ (h.pcs u j y q e).1, lift _ (h.pcs u j y q e).2⟩⟩
    | some c =>
      obtain ⟨i, x, q⟩ := c
      obtain ⟨h1, h2⟩ := h.pcs t i x q hp
      refine ⟨lift _ fun j => ?_, fun u j y r e => ?_⟩
      · simp only
        rw [setter_elem]
        split_ifs with hj
        · rw [hj]; exact .inr h1
        · exact h2 j
      · simp only at e
        by_cases hu : u = t
        · subst hu
          rw [Function.update_self] at e
          cases e
        · rw [Function.update_of_ne hu] at e
          exact ⟨List.mem_append_left _ (h.pcs u j y r e).1, lift _ (h.pcs u j y r e).2⟩

/-- C144: however the updates of several threads interleave, each element is the initial one or one that an update of this index brought; the
elements nobody updates stay. -/
theorem C144_elements (p : Option (List (Option E))) (as : List (TAct T E)) (j : Nat) :
    elem ((TS.init p : TS T E).run as).prop j = elem p j ∨ (j, elem ((TS.init p : TS T E).run as).prop j) ∈ begun as := by
  suffices H : ∀ (as : List (TAct T E)) (us : List (Nat × Option E)) (s : TS T E), TInv p us s → TInv p (us ++ begun as) (s.run as) by
    have := (H as [] (TS.init p) ⟨fun _ => .inl rfl, fun _ _ _ _ e => by cases e⟩).prop j
    simpa using this
  intro as
  induction as with
  | nil => intro us s h; simpa [begun, TS.run] using h
  | cons a as ih =>
    intro us s h
    have := ih _ _ (tinv_step h a)
    rw [List.append_assoc] at this
    rwa [show begun (a :: as) = begun [a] ++ begun as by cases a <;> simp [begun]]

/-- The tuple a thread has in hand is the one it read. -/
theorem held (s : TS T E) (t : T) (c : Nat × Option E × Option (List (Option E))) (hc : s.pc t = some c) (as : List (TAct T E))
    (hw : ∀ a ∈ as, a ≠ .write t) : (s.run as).pc t = some c := by
  induction as generalizing s with
  | nil => exact hc
  | cons a as ih =>
    refine ih (s.step a) ?_ fun b hb => hw b (List.mem_cons_of_mem _ hb)
    have ha := hw a List.mem_cons_self
    cases a with
    | read u i x =>
      rw [TS.step]
      cases hu : s.pc u with
      | some d => exact hc
      | none =>
        have : t ≠ u := fun e => by rw [e, hu] at hc; cases hc
        simp only
        rwa [Function.update_of_ne this]
    | write u =>
      have hne : t ≠ u := fun e => ha (by rw [e])
      rw [TS.step]
      cases hu : s.pc u with
      | none => exact hc
      | some d =>
        simp only
        rwa [Function.update_of_ne hne]

/-- C144: an update of index `i` leaves the value at `i`; all other elements are as they were when the update began, whatever other threads
wrote in between. -/
theorem C144_rolls_back (s : TS T E) (t : T) (hidle : s.pc t = none) (i : Nat) (x : Option E) (as : List (TAct T E)) (hw : ∀ a ∈ as, a ≠ .write t) (j : Nat) :
    elem (s.run (.read t i x :: as ++ [.write t])).prop j = if j = i then x else elem s.prop j := by
  have h1 : (s.step (.read t i x)).pc t = some (i, x, s.prop) := by
    rw [TS.step, hidle]
    simp
  have h2 := held _ t _ h1 as hw
  have h3 : s.run (.read t i x :: as ++ [.write t]) = ((s.step (.read t i x)).run as).step (.write t) := by
    simp [TS.run]
  rw [h3]
  generalize (s.step (.read t i x)).run as = r at h2
  rw [TS.step, h2]
  simp only
  rw [setter_elem]

/-- Updates one after the other. -/
def serial (us : List (T × Nat × Option E)) : List (TAct T E) := us.flatMap fun u => [.read u.1 u.2.1 u.2.2, .write u.1]

/-- C144, partial: what is missing is updates that overlap. One after the other, from whatever threads, each element is the last value that an
update brought to this index, or the initial element. -/
theorem C144_partial (p : Option (List (Option E))) (us : List (T × Nat × Option E)) (j : Nat) :
    elem ((TS.init p : TS T E).run (serial us)).prop j = ((us.filterMap fun u => if u.2.1 = j then some u.2.2 else none).getLastD (elem p j)) := by
  suffices H : ∀ (us : List (T × Nat × Option E)) (s : TS T E), s.pc = (fun _ => none) →
      elem (s.run (serial us)).prop j = ((us.filterMap fun u => if u.2.1 = j then some u.2.2 else none).getLastD (elem s.prop j)) from
    H us (TS.init p) rfl
  intro us
  induction us with
  | nil => intro s _; rfl
  | cons u us ih =>
    intro s hs
    obtain ⟨t, i, x⟩ := u
    have hstep : (s.step (.read t i x)).step (.write t) = ⟨(tupleAccess E i).setter s.prop x, fun _ => none⟩ := by
      obtain ⟨q, pc⟩ := s
      simp only at hs
      subst hs
      simp [TS.step]
    have : s.run (serial ((t, i, x) :: us)) = TS.run ⟨(tupleAccess E i).setter s.prop x, fun _ => none⟩ (serial us) := by
      rw [← hstep]
      simp [serial, TS.run]
    rw [this, ih _ rfl]
    simp only
    rw [setter_elem]
    by_cases hj : i = j
    · rw [if_pos hj.symm, List.filterMap_cons_some (b := x) (by simp [hj]), List.getLastD_cons]
    · rw [if_neg (fun e => hj e.symm), List.filterMap_cons_none (by simp [hj])]

/-- C144 does not hold for updates that overlap: two threads set the elements 0 and 1 of `(0, 0)`; both updates return, one is lost. -/
theorem C144_counterexample :
    ((TS.init (some [some 0, some 0]) : TS Bool Nat).run [.read false 0 (some 1), .read true 1 (some 2), .write false, .write true]).prop =
      some [some 0, some 2] ∧
    ((TS.init (some [some 0, some 0]) : TS Bool Nat).run (serial [(false, 0, some 1), (true, 1, some 2)])).prop = some [some 1, some 2] := by
  decide

example : begun [TAct.read false 0 (some 1), .read true 1 (some 2), .write false, .write true] = [(0, some 1), (1, some 2)] := rfl

end tuples

end Verif.Binding.Threads
