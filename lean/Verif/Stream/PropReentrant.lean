import Mathlib.Data.List.Basic
import Mathlib.Data.List.Chain
import Mathlib.Logic.Function.Basic
import Mathlib.Tactic.Common

set_option linter.unusedSectionVars false

/-!
C178: listeners that set properties and assign the source while a `PropertyChangedEventStream` (`nion/utils/Stream.py:260-310`) is kept up
to date. The source is a `ValueStream` of objects; each object has one property (the one the stream is made for), and setting it fires the
object's `property_changed_event`. Listeners of the source, of the objects and of the stream itself may set properties, assign the source
and raise, in any way that depends on the whole state. An exception ends the innermost `Event.fire` (`nion/utils/Event.py:103-114`), which
prints it. A closed listener that is still to be called does nothing (`Event.py:33-37`). `none` is a recursion that does not end within the
fuel. Objects are true (`if self.__source_object`), and the comparison is equality.
-/

namespace Verif.Stream.PropReentrant

/-- What listeners do. -/
inductive Act (V : Type) where
  | source (o : Option ℕ)
  | prop (o : ℕ) (v : V)
deriving DecidableEq

/-- The source's value; the property of each object and who listens to it, users and listeners of the stream (numbered); the object the
stream is at, the number of its open listener, the next number, its value; what it told; the memory of the users. -/
structure St (ι V M : Type) where
  src : Option ℕ
  props : ℕ → V
  lis : ℕ → List (ι ⊕ ℕ)
  fol : Option ℕ
  tok : Option ℕ
  next : ℕ
  val : V
  told : List V
  mem : M

variable {ι V M : Type} [DecidableEq ι] [DecidableEq V]

/-- The users: what each does when it is called (memory, actions in order, whether it raises then), who listens to the source before and
after the stream, and who listens to the stream. -/
structure Users (ι V M : Type) where
  react : ι → St ι V M → M × List (Act V) × Bool
  pre : List ι
  post : List ι
  out : List ι

abbrev Exec (ι V M : Type) := Act V → St ι V M → Option (St ι V M)

/-- Actions one after the other. -/
def acts (ex : Exec ι V M) : List (Act V) → St ι V M → Option (St ι V M)
  | [], s => some s
  | a :: as, s => (ex a s).bind (acts ex as)

/-- A user is called; the second component says whether it raised. -/
def call (u : Users ι V M) (ex : Exec ι V M) (i : ι) (s : St ι V M) : Option (St ι V M × Bool) :=
  (acts ex (u.react i s).2.1 { s with mem := (u.react i s).1 }).map fun t => (t, (u.react i s).2.2)

/-- `Event.fire` with users only. -/
def fireUsers (u : Users ι V M) (ex : Exec ι V M) : List ι → St ι V M → Option (St ι V M × Bool)
  | [], s => some (s, false)
  | i :: is, s => (call u ex i s).bind fun r => if r.2 then some r else fireUsers u ex is r.1

/-- Stream.py:305-310 `__property_changed`. -/
def changed (u : Users ι V M) (ex : Exec ι V M) (s : St ι V M) : Option (St ι V M × Bool) :=
  match s.fol with
  | none => some (s, true)
  | some o =>
    if s.props o ≠ s.val then
      (fireUsers u ex u.out { s with val := s.props o, told := s.told ++ [s.props o] }).map fun r => (r.1, false)
    else some (s, false)

/-- `Event.fire` of an object: users and listeners of the stream. -/
def fireObj (u : Users ι V M) (ex : Exec ι V M) : List (ι ⊕ ℕ) → St ι V M → Option (St ι V M)
  | [], s => some s
  | .inl i :: hs, s => (call u ex i s).bind fun r => if r.2 then some r.1 else fireObj u ex hs r.1
  | .inr t :: hs, s =>
    if s.tok = some t then (changed u ex s).bind fun r => if r.2 then some r.1 else fireObj u ex hs r.1 else fireObj u ex hs s

/-- The stream stops listening to the object it is at (lines 281-283). -/
def unlisten (s : St ι V M) : St ι V M :=
  match s.tok with
  | some t => { s with tok := none, lis := fun o => (s.lis o).filter fun h => decide (h ≠ .inr t) }
  | none => s

/-- The stream listens to an object (lines 284-286). -/
def listenTo (o : ℕ) (s : St ι V M) : St ι V M :=
  { s with fol := some o, tok := some s.next, next := s.next + 1, lis := Function.update s.lis o (s.lis o ++ [.inr s.next]) }

/-- Stream.py:280-287 `source_object_changed`. -/
def sourceChanged (u : Users ι V M) (ex : Exec ι V M) (v : Option ℕ) (s : St ι V M) : Option (St ι V M × Bool) :=
  match v with
  | none => some ({ unlisten s with fol := none }, false)
  | some o => changed u ex (listenTo o (unlisten s))

/-- One action, with the nested ones run by `ex`: assigning the source (Stream.py:55-59) or setting a property. -/
def body (u : Users ι V M) (ex : Exec ι V M) : Exec ι V M
  | .source v, s =>
    if s.src ≠ v then
      (fireUsers u ex u.pre { s with src := v }).bind fun r => if r.2 then some r.1 else
      (sourceChanged u ex v r.1).bind fun r => if r.2 then some r.1 else
      (fireUsers u ex u.post r.1).map fun r => r.1
    else some s
  | .prop o v, s =>
    let t := { s with props := Function.update s.props o v }
    fireObj u ex (t.lis o) t

def exec (u : Users ι V M) : ℕ → Exec ι V M
  | 0, _, _ => none
  | n + 1, a, s => body u (exec u n) a s

/-- Lines 265-289: the stream is made while the source has a value; nobody listens to it yet. -/
def start (src : Option ℕ) (props : ℕ → V) (lis : ℕ → List ι) (none0 : V) (m : M) : St ι V M :=
  let s : St ι V M := ⟨src, props, fun o => (lis o).map .inl, none, none, 0, none0, [], m⟩
  match src with
  | none => s
  | some o => { s with
      fol := some o, tok := some 0, next := 1, lis := Function.update s.lis o (s.lis o ++ [.inr 0])
      val := props o, told := if props o ≠ none0 then [props o] else [] }

/-! ### Specification -/

/-- Never does anything. -/
def Users.Passive (u : Users ι V M) (i : ι) : Prop := ∀ s, (u.react i s).2 = ([], false)

/-- Never raises. -/
def Users.Calm (u : Users ι V M) (i : ι) : Prop := ∀ s, (u.react i s).2.2 = false

/-- The stream is at the source's object and has the value of its property. -/
def St.Right (s : St ι V M) : Prop := s.fol = s.src ∧ ∀ o, s.src = some o → s.val = s.props o

/-! ### Proof -/

variable {u : Users ι V M}

structure Inv (u : Users ι V M) (s : St ι V M) : Prop where
  at_source : s.fol = s.src
  listens : ∀ o, s.fol = some o → ∃ t, s.tok = some t ∧ .inr t ∈ s.lis o
  closed : s.fol = none → s.tok = none
  calm : ∀ o i, .inl i ∈ s.lis o → u.Calm i

/-- What running an action does. -/
structure Eff (u : Users ι V M) (s t : St ι V M) : Prop where
  inv : Inv u t
  keeps : s.Right → t.Right
  tok : t.tok = s.tok ∨ t.Right

def Ok (u : Users ι V M) (ex : Exec ι V M) : Prop := ∀ a s t, Inv u s → ex a s = some t → Eff u s t

theorem Eff.refl {s : St ι V M} (h : Inv u s) : Eff u s s := ⟨h, id, .inl rfl⟩

theorem Eff.trans {s t r : St ι V M} (h1 : Eff u s t) (h2 : Eff u t r) : Eff u s r := by
  refine ⟨h2.inv, fun h => h2.keeps (h1.keeps h), ?_⟩
  rcases h1.tok with h | h
  · rcases h2.tok with k | k
    · exact .inl (k.trans h)
    · exact .inr k
  · exact .inr (h2.keeps h)

theorem acts_eff {ex : Exec ι V M} (h : Ok u ex) (as : List (Act V)) (s t : St ι V M) (hi : Inv u s) (he : acts ex as s = some t) :
    Eff u s t := by
  induction as generalizing s with
  | nil =>
    simp only [acts, Option.some.injEq] at he
    exact he ▸ Eff.refl hi
  | cons a as ih =>
    simp only [acts] at he
    cases h1 : ex a s with
    | none => rw [h1] at he; cases he
    | some r =>
      rw [h1] at he
      have e := h a s r hi h1
      exact e.trans (ih r e.inv he)

theorem call_eff {ex : Exec ι V M} (h : Ok u ex) (i : ι) (s : St ι V M) (r : St ι V M × Bool) (hi : Inv u s) (he : call u ex i s = some r) :
    Eff u s r.1 ∧ r.2 = (u.react i s).2.2 := by
  unfold call at he
  cases h1 : acts ex (u.react i s).2.1 { s with mem := (u.react i s).1 } with
  | none => rw [h1] at he; cases he
  | some t =>
    rw [h1] at he
    simp only [Option.map_some, Option.some.injEq] at he
    subst he
    have e := acts_eff h _ { s with mem := (u.react i s).1 } t ⟨hi.1, hi.2, hi.3, hi.4⟩ h1
    exact ⟨⟨e.inv, fun hr => e.keeps hr, e.tok⟩, rfl⟩

theorem fireUsers_eff {ex : Exec ι V M} (h : Ok u ex) (is : List ι) (s : St ι V M) (r : St ι V M × Bool) (hi : Inv u s)
    (he : fireUsers u ex is s = some r) : Eff u s r.1 := by
  induction is generalizing s with
  | nil =>
    simp only [fireUsers, Option.some.injEq] at he
    subst he
    exact .refl hi
  | cons i is ih =>
    simp only [fireUsers] at he
    cases h1 : call u ex i s with
    | none => rw [h1] at he; cases he
    | some q =>
      rw [h1] at he
      obtain ⟨e, -⟩ := call_eff h i s q hi h1
      simp only [Option.bind_some] at he
      split at he
      · simp only [Option.some.injEq] at he
        exact he ▸ e
      · exact e.trans (ih _ e.inv he)

theorem changed_eff {ex : Exec ι V M} (h : Ok u ex) (s : St ι V M) (r : St ι V M × Bool) (hi : Inv u s) (he : changed u ex s = some r) :
    Eff u s r.1 ∧ (s.fol ≠ none → r.1.Right ∧ r.2 = false) := by
  unfold changed at he
  split at he
  · rename_i hf
    simp only [Option.some.injEq] at he
    subst he
    exact ⟨.refl hi, fun h => absurd hf h⟩
  · rename_i o hf
    have hsrc : s.src = some o := hi.at_source ▸ hf
    split at he
    · cases h1 : fireUsers u ex u.out { s with val := s.props o, told := s.told ++ [s.props o] } with
      | none => rw [h1] at he; cases he
      | some q =>
        rw [h1] at he
        simp only [Option.map_some, Option.some.injEq] at he
        subst he
        have e := fireUsers_eff h _ { s with val := s.props o, told := s.told ++ [s.props o] } q ⟨hi.1, hi.2, hi.3, hi.4⟩ h1
        have hr : q.1.Right := e.keeps ⟨hi.at_source, fun o' ho' => by
          have : o' = o := Option.some.inj ((show s.src = some o' from ho').symm.trans hsrc)
          rw [this]⟩
        exact ⟨⟨e.inv, fun _ => hr, .inr hr⟩, fun _ => ⟨hr, rfl⟩⟩
    · rename_i hv
      simp only [Option.some.injEq] at he
      subst he
      refine ⟨.refl hi, fun _ => ⟨⟨hi.at_source, fun o' ho' => ?_⟩, rfl⟩⟩
      rw [hsrc] at ho'
      rw [← Option.some.inj ho']
      exact (not_not.1 hv).symm

theorem fireObj_eff {ex : Exec ι V M} (h : Ok u ex) (hs : List (ι ⊕ ℕ)) (hc : ∀ i, .inl i ∈ hs → u.Calm i) (s t : St ι V M) (hi : Inv u s)
    (he : fireObj u ex hs s = some t) :
    Inv u t ∧ (t.tok = s.tok ∨ t.Right) ∧ ((s.Right ∨ ∃ k, s.tok = some k ∧ .inr k ∈ hs) → t.Right) := by
  induction hs generalizing s with
  | nil =>
    simp only [fireObj, Option.some.injEq] at he
    subst he
    exact ⟨hi, .inl rfl, fun hh => hh.elim id fun ⟨k, _, hk⟩ => absurd hk (by simp)⟩
  | cons x hs ih =>
    have hc' : ∀ i, .inl i ∈ hs → u.Calm i := fun i hm => hc i (by simp [hm])
    cases x with
    | inl i =>
      simp only [fireObj] at he
      cases h1 : call u ex i s with
      | none => rw [h1] at he; cases he
      | some q =>
        rw [h1] at he
        obtain ⟨e, e2⟩ := call_eff h i s q hi h1
        rw [hc i (by simp) s] at e2
        simp only [Option.bind_some, e2, Bool.false_eq_true, if_false] at he
        obtain ⟨g1, g2, g3⟩ := ih hc' q.1 e.inv he
        refine ⟨g1, ?_, ?_⟩
        · rcases e.tok with k | k
          · rcases g2 with g2 | g2
            · exact .inl (g2.trans k)
            · exact .inr g2
          · exact .inr (g3 (.inl k))
        · rintro (hr | ⟨k, hk, hm⟩)
          · exact g3 (.inl (e.keeps hr))
          · rcases e.tok with e | e
            · refine g3 (.inr ⟨k, e.trans hk, ?_⟩)
              rcases List.mem_cons.1 hm with hm | hm
              · cases hm
              · exact hm
            · exact g3 (.inl e)
    | inr n =>
      simp only [fireObj] at he
      split at he
      · rename_i ht
        cases h1 : changed u ex s with
        | none => rw [h1] at he; cases he
        | some q =>
          rw [h1] at he
          obtain ⟨e, e2⟩ := changed_eff h s q hi h1
          simp only [Option.bind_some] at he
          by_cases hf : s.fol = none
          · rw [hi.closed hf] at ht
            cases ht
          · obtain ⟨r1, r2⟩ := e2 hf
            rw [r2] at he
            simp only [Bool.false_eq_true, if_false] at he
            obtain ⟨g1, g2, g3⟩ := ih hc' q.1 e.inv he
            exact ⟨g1, .inr (g3 (.inl r1)), fun _ => g3 (.inl r1)⟩
      · rename_i ht
        obtain ⟨g1, g2, g3⟩ := ih hc' s hi he
        refine ⟨g1, g2, ?_⟩
        rintro (hr | ⟨k, hk, hm⟩)
        · exact g3 (.inl hr)
        · refine g3 (.inr ⟨k, hk, ?_⟩)
          rcases List.mem_cons.1 hm with hm | hm
          · cases hm
            exact absurd hk ht
          · exact hm

theorem unlisten_mem {s : St ι V M} {o : ℕ} {i : ι} (h : .inl i ∈ (unlisten s).lis o) : .inl i ∈ s.lis o := by
  unfold unlisten at h
  split at h
  · exact (List.mem_filter.1 h).1
  · exact h

theorem fireUsers_passive {ex : Exec ι V M} (is : List ι) (hp : ∀ i ∈ is, u.Passive i) (s : St ι V M) :
    ∃ m, fireUsers u ex is s = some ({ s with mem := m }, false) := by
  induction is generalizing s with
  | nil => exact ⟨s.mem, rfl⟩
  | cons i is ih =>
    obtain ⟨m, h⟩ := ih (fun j hj => hp j (by simp [hj])) { s with mem := (u.react i s).1 }
    refine ⟨m, ?_⟩
    simp only [fireUsers, call, hp i (by simp) s, acts, Option.map_some, Option.bind_some, Bool.false_eq_true, if_false]
    exact h

theorem sourceChanged_eff {ex : Exec ι V M} (h : Ok u ex) (v : Option ℕ) (s : St ι V M) (r : St ι V M × Bool) (hv : s.src = v)
    (hc : ∀ o i, .inl i ∈ s.lis o → u.Calm i) (he : sourceChanged u ex v s = some r) : Inv u r.1 ∧ r.1.Right ∧ r.2 = false := by
  have hus : (unlisten s).src = s.src := by unfold unlisten; split <;> rfl
  have hut : (unlisten s).tok = none := by
    unfold unlisten
    split
    · rfl
    · assumption
  unfold sourceChanged at he
  split at he
  · simp only [Option.some.injEq] at he
    subst he
    refine ⟨⟨by simp [hus, hv], (fun o ho => by cases ho), fun _ => hut, fun o i hm => hc o i (unlisten_mem hm)⟩, ⟨by simp [hus, hv], ?_⟩, rfl⟩
    intro o ho
    rw [show _ = s.src from hus, hv] at ho
    cases ho
  · rename_i o
    have hI : Inv u (listenTo o (unlisten s)) := by
      refine ⟨by simp [listenTo, hus, hv], fun o' ho' => ⟨(unlisten s).next, rfl, ?_⟩, (fun hn => by cases hn), fun o' i hm => ?_⟩
      · simp only [listenTo, Option.some.injEq] at ho'
        subst ho'
        simp [listenTo]
      · unfold listenTo at hm
        by_cases ho : o' = o
        · subst ho
          simp only [Function.update_self, List.mem_append, List.mem_singleton, reduceCtorEq, or_false] at hm
          exact hc _ i (unlisten_mem hm)
        · simp only [Function.update_of_ne ho] at hm
          exact hc _ i (unlisten_mem hm)
    obtain ⟨e1, e2⟩ := changed_eff h _ r hI he
    exact ⟨e1.inv, e2 (by simp [listenTo])⟩

theorem body_ok {ex : Exec ι V M} (hp : ∀ i ∈ u.pre, u.Passive i) (h : Ok u ex) : Ok u (body u ex) := by
  intro a s t hi he
  cases a with
  | source v =>
    simp only [body] at he
    split at he
    · obtain ⟨m, hm⟩ := fireUsers_passive (ex := ex) u.pre hp { s with src := v }
      rw [hm] at he
      simp only [Option.bind_some, Bool.false_eq_true, if_false] at he
      cases h1 : sourceChanged u ex v { s with src := v, mem := m } with
      | none => rw [h1] at he; cases he
      | some q =>
        rw [h1] at he
        obtain ⟨g1, g2, g3⟩ := sourceChanged_eff h v { s with src := v, mem := m } q rfl hi.calm h1
        simp only [Option.bind_some, g3, Bool.false_eq_true, if_false] at he
        cases h2 : fireUsers u ex u.post q.1 with
        | none => rw [h2] at he; cases he
        | some q2 =>
          rw [h2] at he
          simp only [Option.map_some, Option.some.injEq] at he
          subst he
          have e := fireUsers_eff h _ _ _ g1 h2
          exact ⟨e.inv, fun _ => e.keeps g2, .inr (e.keeps g2)⟩
    · simp only [Option.some.injEq] at he
      subst he
      exact .refl hi
  | prop o v =>
    simp only [body] at he
    have hi' : Inv u { s with props := Function.update s.props o v } := ⟨hi.1, hi.2, hi.3, hi.4⟩
    obtain ⟨g1, g2, g3⟩ := fireObj_eff h (s.lis o) (fun i hm => hi.calm o i hm) _ t hi' he
    refine ⟨g1, fun hr => ?_, g2⟩
    by_cases ho : s.src = some o
    · obtain ⟨k, hk, hm⟩ := hi.listens o (hi.at_source.trans ho)
      exact g3 (.inr ⟨k, hk, hm⟩)
    · refine g3 (.inl ⟨hi.at_source, fun o' ho' => ?_⟩)
      have : o' ≠ o := by rintro rfl; exact ho ho'
      simp only [Function.update_of_ne this]
      exact hr.2 o' ho'

theorem exec_ok (hp : ∀ i ∈ u.pre, u.Passive i) : ∀ n, Ok u (exec u n)
  | 0 => fun a s t _ he => by simp [exec] at he
  | n + 1 => fun a s t hi he => body_ok hp (exec_ok hp n) a s t hi he

/-- C178 (partial: no listener of the source before the stream does anything, and no listener of a property raises): whatever the
listeners of properties, of the source and of the stream set and assign while they are called, when the outermost calls have returned the
stream is at the object of the source and has the value of its property. -/
theorem C178_follows_partial (u : Users ι V M) (hp : ∀ i ∈ u.pre, u.Passive i) (src : Option ℕ) (props : ℕ → V) (lis : ℕ → List ι)
    (hc : ∀ o, ∀ i ∈ lis o, u.Calm i) (none0 : V) (m : M) (n : ℕ) (as : List (Act V)) (s : St ι V M)
    (h : acts (exec u n) as (start src props lis none0 m) = some s) : s.Right := by
  have h0 : Inv u (start src props lis none0 m) ∧ (start src props lis none0 m).Right := by
    unfold start
    cases src with
    | none =>
      refine ⟨⟨rfl, (fun o ho => by cases ho), fun _ => rfl, fun o i hm => ?_⟩, rfl, fun o ho => by cases ho⟩
      simp only [List.mem_map, Sum.inl.injEq, exists_eq_right] at hm
      exact hc o i hm
    | some o =>
      refine ⟨⟨rfl, fun o' ho' => ⟨0, rfl, ?_⟩, (fun hn => by cases hn), fun o' i hm => ?_⟩, rfl, fun o' ho' => ?_⟩
      · simp only [Option.some.injEq] at ho'
        subst ho'
        simp
      · by_cases ho : o' = o
        · subst ho
          simp only [Function.update_self, List.mem_append, List.mem_map, Sum.inl.injEq, exists_eq_right, List.mem_singleton, reduceCtorEq,
            or_false] at hm
          exact hc _ i hm
        · simp only [Function.update_of_ne ho, List.mem_map, Sum.inl.injEq, exists_eq_right] at hm
          exact hc _ i hm
      · simp only [Option.some.injEq] at ho'
        subst ho'
        rfl
  exact (acts_eff (exec_ok hp n) as _ s h0.1 h).keeps h0.2

/-! ### What is told -/

/-- What the stream told ends with its value, and no value is told twice in a row. -/
def St.Told (none0 : V) (s : St ι V M) : Prop := (none0 :: s.told).getLast? = some s.val ∧ (none0 :: s.told).IsChain (· ≠ ·)

theorem told_add {none0 : V} {s : St ι V M} (h : s.Told none0) {v : V} (hv : v ≠ s.val) : ({ s with val := v, told := s.told ++ [v] } : St ι V M).Told none0 := by
  refine ⟨by rw [show none0 :: (s.told ++ [v]) = (none0 :: s.told) ++ [v] from rfl, List.getLast?_concat], ?_⟩
  rw [show none0 :: (s.told ++ [v]) = (none0 :: s.told) ++ [v] from rfl, List.isChain_append]
  refine ⟨h.2, by simp, fun x hx y hy => ?_⟩
  rw [h.1] at hx
  cases hx
  cases hy
  exact hv.symm

/-- Kept by everything that is done to a state, whatever the listeners do. -/
structure Stable (P : St ι V M → Prop) : Prop where
  mem : ∀ s m, P s → P { s with mem := m }
  src : ∀ s v, P s → P { s with src := v }
  props : ∀ s o v, P s → P { s with props := Function.update s.props o v }
  tell : ∀ s o, P s → s.props o ≠ s.val → P { s with val := s.props o, told := s.told ++ [s.props o] }
  leave : ∀ s, P s → P { unlisten s with fol := none }
  move : ∀ s o, P s → P (listenTo o (unlisten s))

def Keeps (P : St ι V M → Prop) (ex : Exec ι V M) : Prop := ∀ a s t, P s → ex a s = some t → P t

theorem acts_told {P : St ι V M → Prop} {ex : Exec ι V M} (h : Keeps P ex) (as : List (Act V)) (s t : St ι V M) (hi : P s)
    (he : acts ex as s = some t) : P t := by
  induction as generalizing s with
  | nil =>
    simp only [acts, Option.some.injEq] at he
    exact he ▸ hi
  | cons a as ih =>
    simp only [acts, Option.bind_eq_some_iff] at he
    obtain ⟨r, h1, h2⟩ := he
    exact ih r (h a s r hi h1) h2

theorem call_told {P : St ι V M → Prop} (hP : Stable P) {ex : Exec ι V M} (h : Keeps P ex) (i : ι) (s : St ι V M) (r : St ι V M × Bool) (hi : P s)
    (he : call u ex i s = some r) : P r.1 := by
  simp only [call, Option.map_eq_some_iff] at he
  obtain ⟨t, h1, rfl⟩ := he
  exact acts_told h _ _ t (hP.mem s _ hi) h1

theorem fireUsers_told {P : St ι V M → Prop} (hP : Stable P) {ex : Exec ι V M} (h : Keeps P ex) (is : List ι) (s : St ι V M) (r : St ι V M × Bool)
    (hi : P s) (he : fireUsers u ex is s = some r) : P r.1 := by
  induction is generalizing s with
  | nil =>
    simp only [fireUsers, Option.some.injEq] at he
    exact he ▸ hi
  | cons i is ih =>
    simp only [fireUsers, Option.bind_eq_some_iff] at he
    obtain ⟨q, h1, h2⟩ := he
    have := call_told hP h i s q hi h1
    split at h2
    · cases h2
      exact this
    · exact ih _ this h2

theorem changed_told {P : St ι V M → Prop} (hP : Stable P) {ex : Exec ι V M} (h : Keeps P ex) (s : St ι V M) (r : St ι V M × Bool) (hi : P s)
    (he : changed u ex s = some r) : P r.1 := by
  unfold changed at he
  split at he
  · cases he
    exact hi
  · split at he
    · rename_i hv
      simp only [Option.map_eq_some_iff] at he
      obtain ⟨q, h1, rfl⟩ := he
      exact fireUsers_told hP h _ _ q (hP.tell s _ hi hv) h1
    · cases he
      exact hi

theorem fireObj_told {P : St ι V M → Prop} (hP : Stable P) {ex : Exec ι V M} (h : Keeps P ex) (hs : List (ι ⊕ ℕ)) (s t : St ι V M) (hi : P s)
    (he : fireObj u ex hs s = some t) : P t := by
  induction hs generalizing s with
  | nil =>
    simp only [fireObj, Option.some.injEq] at he
    exact he ▸ hi
  | cons x hs ih =>
    cases x with
    | inl i =>
      simp only [fireObj, Option.bind_eq_some_iff] at he
      obtain ⟨q, h1, h2⟩ := he
      have := call_told hP h i s q hi h1
      split at h2
      · cases h2
        exact this
      · exact ih _ this h2
    | inr n =>
      simp only [fireObj] at he
      split at he
      · simp only [Option.bind_eq_some_iff] at he
        obtain ⟨q, h1, h2⟩ := he
        have := changed_told hP h s q hi h1
        split at h2
        · cases h2
          exact this
        · exact ih _ this h2
      · exact ih _ hi he

theorem body_told {P : St ι V M → Prop} (hP : Stable P) {ex : Exec ι V M} (h : Keeps P ex) : Keeps P (body u ex) := by
  intro a s t hi he
  cases a with
  | source v =>
    simp only [body] at he
    split at he
    · simp only [Option.bind_eq_some_iff] at he
      obtain ⟨q, h1, h2⟩ := he
      have t1 := fireUsers_told hP h _ _ q (hP.src s v hi) h1
      split at h2
      · cases h2
        exact t1
      simp only [Option.bind_eq_some_iff] at h2
      obtain ⟨q2, h2, h3⟩ := h2
      have t2 : P q2.1 := by
        unfold sourceChanged at h2
        split at h2
        · cases h2
          exact hP.leave _ t1
        · exact changed_told hP h _ _ (hP.move _ _ t1) h2
      split at h3
      · cases h3
        exact t2
      simp only [Option.map_eq_some_iff] at h3
      obtain ⟨q3, h3, rfl⟩ := h3
      exact fireUsers_told hP h _ _ _ t2 h3
    · cases he
      exact hi
  | prop o v => exact fireObj_told hP h _ _ t (hP.props s o v hi) he

theorem exec_told {P : St ι V M → Prop} (hP : Stable P) : ∀ n, Keeps P (exec u n)
  | 0 => fun a s t _ he => by simp [exec] at he
  | n + 1 => fun a s t hi he => body_told hP (exec_told hP n) a s t hi he

theorem told_stable (none0 : V) : Stable (fun s : St ι V M => s.Told none0) where
  mem _ _ h := h
  src _ _ h := h
  props _ _ _ h := h
  tell _ _ h hv := told_add h hv
  leave s h := by unfold unlisten; split <;> exact h
  move s o h := by unfold unlisten; split <;> exact h

/-- C178: with any listeners, whatever they do, what the stream told (beginning with none) ends with its value, and no value was told twice
in a row. -/
theorem C178_told (u : Users ι V M) (src : Option ℕ) (props : ℕ → V) (lis : ℕ → List ι) (none0 : V) (m : M) (n : ℕ) (as : List (Act V))
    (s : St ι V M) (h : acts (exec u n) as (start src props lis none0 m) = some s) :
    (none0 :: s.told).getLast? = some s.val ∧ (none0 :: s.told).IsChain (· ≠ ·) := by
  refine acts_told (exec_told (told_stable none0) n) as _ s ?_ h
  unfold start
  cases src with
  | none => exact ⟨rfl, by simp⟩
  | some o =>
    refine ⟨?_, ?_⟩
    · by_cases hv : props o = none0 <;> simp [hv]
    · by_cases hv : props o = none0
      · simp [hv]
      · simp [hv, Ne.symm hv]

/-! ### Who listens -/

/-- The users that listen to an object are `L`, and the stream listens to the object it is at, once, and to no other. -/
def St.Hears (L : ℕ → List ι) (s : St ι V M) : Prop := ∀ o, (s.lis o).filterMap Sum.getLeft? = L o ∧
  (s.lis o).filterMap Sum.getRight? = if s.fol = some o then s.tok.toList else []

theorem filter_left (t : ℕ) (l : List (ι ⊕ ℕ)) : (l.filter fun h => decide (h ≠ .inr t)).filterMap Sum.getLeft? = l.filterMap Sum.getLeft? := by
  induction l with
  | nil => rfl
  | cons x l ih =>
    cases x with
    | inl i => simpa using ih
    | inr k => by_cases hk : k = t <;> simpa [hk, List.filterMap_cons] using ih

theorem filter_right (t : ℕ) (l : List (ι ⊕ ℕ)) : (l.filter fun h => decide (h ≠ .inr t)).filterMap Sum.getRight? =
    (l.filterMap Sum.getRight?).filter fun k => decide (k ≠ t) := by
  induction l with
  | nil => rfl
  | cons x l ih =>
    cases x with
    | inl i => simpa [List.filterMap_cons] using ih
    | inr k => by_cases hk : k = t <;> simpa [hk, List.filterMap_cons] using ih

theorem unlisten_hears {L : ℕ → List ι} {s : St ι V M} (h : s.Hears L) (o : ℕ) : ((unlisten s).lis o).filterMap Sum.getLeft? = L o ∧
    ((unlisten s).lis o).filterMap Sum.getRight? = [] := by
  obtain ⟨h1, h2⟩ := h o
  unfold unlisten
  split
  · rename_i t ht
    refine ⟨(filter_left t _).trans h1, (filter_right t _).trans ?_⟩
    rw [h2, ht]
    split <;> simp
  · rename_i ht
    exact ⟨h1, h2.trans (by simp [ht])⟩

theorem hears_stable (L : ℕ → List ι) : Stable (fun s : St ι V M => s.Hears L) where
  mem _ _ h := h
  src _ _ h := h
  props _ _ _ h := h
  tell _ _ h _ := h
  leave s h o := ⟨(unlisten_hears h o).1, (unlisten_hears h o).2.trans (by simp)⟩
  move s o h o' := by
    obtain ⟨h1, h2⟩ := unlisten_hears h o'
    by_cases ho : o' = o
    · subst ho
      simp [listenTo, h1, h2]
    · simp [listenTo, Function.update_of_ne ho, h1, h2, Ne.symm ho]

/-- C178: with any listeners, whatever they do, the users listen to the objects as before, and the stream listens to no object or once to
the object it is at. -/
theorem C178_hears (u : Users ι V M) (src : Option ℕ) (props : ℕ → V) (lis : ℕ → List ι) (none0 : V) (m : M) (n : ℕ) (as : List (Act V))
    (s : St ι V M) (h : acts (exec u n) as (start src props lis none0 m) = some s) (o : ℕ) :
    (s.lis o).filterMap Sum.getLeft? = lis o ∧ (s.lis o).filterMap Sum.getRight? = if s.fol = some o then s.tok.toList else [] := by
  refine acts_told (exec_told (hears_stable lis) n) as _ s (fun o' => ?_) h o
  have hm : ((lis o').map (Sum.inl (β := ℕ))).filterMap Sum.getLeft? = lis o' := by simp [List.filterMap_map, Function.comp_def]
  have hn : ((lis o').map (Sum.inl (β := ℕ))).filterMap Sum.getRight? = [] := by simp
  unfold start
  cases src with
  | none => exact ⟨hm, hn⟩
  | some k =>
    by_cases ho : o' = k
    · subst ho
      simp [Function.comp_def, List.filterMap_map]
    · simp [Function.update_of_ne ho, Ne.symm ho, Function.comp_def, List.filterMap_map]

/-! ### Examples -/

/-- Listener 1 limits the property of object 0 to ten, 2 assigns object 0 to the source whenever it is 1, 3 raises, 4 copies the property of
object 0 to object 1 and assigns object 1 to the source, 5 assigns the source and assigns it back if the property of object 1 is 7, and
raises if it is 9, 6 replaces 7 by 9. -/
def exReact : ℕ → St ℕ ℕ Unit → Unit × List (Act ℕ) × Bool
  | 1, s => ((), if 10 < s.props 0 then [.prop 0 10] else [], false)
  | 2, s => ((), if s.src = some 1 then [.source (some 0)] else [], false)
  | 3, _ => ((), [], true)
  | 4, s => ((), if s.src = some 0 then [.prop 1 (s.props 0), .source (some 1)] else [], false)
  | 5, s => ((), if s.props 1 = 7 then [.source (some 0), .source (some 1)] else [], s.props 1 = 9)
  | 6, s => ((), if s.props 1 = 7 then [.prop 1 9] else [], false)
  | _, _ => ((), [], false)

/-- The limit comes first: the stream (told nothing of 12) has the limited value. Compare `C109_counterexample_mapped`. -/
example : (acts (exec ⟨exReact, [], [], []⟩ 5) [.prop 0 12] (start (some 0) (fun _ => 1) (fun _ => [1]) 0 ())).map
    (fun s => (s.val, s.told, s.props 0, s.fol)) = some (10, [1, 10], 10, some 0) := by decide

/-- The source changes while the property is being told, before and after the stream is. -/
example : (acts (exec ⟨exReact, [], [3], [4, 3]⟩ 5) [.prop 0 7, .prop 1 8, .prop 0 9] (start (some 0) (fun _ => 1) (fun o => if o = 0 then [1, 4] else []) 0 ())).map
    (fun s => (s.val, s.told, s.src, s.fol)) = some (8, [1, 7, 8], some 1, some 1) := by decide

/-- The listener that was open when 7 was set has been closed, and another one for the same object was told of nothing (5 raises): 9 is not seen. -/
example : (acts (exec ⟨exReact, [], [], []⟩ 5) [.source (some 1), .prop 1 7] (start (some 0) (fun o => o) (fun o => if o = 1 then [5, 6] else []) 0 ())).map
    (fun s => (s.val, s.told, s.props 1, s.fol)) = some (7, [1, 0, 7], 9, some 1) := by decide

/-- C178: a listener of the source before the stream that assigns the source leaves the stream at an object that is not the source's. -/
theorem C178_counterexample_source :
    (acts (exec ⟨exReact, [2], [], []⟩ 5) [.source (some 1), .prop 0 5] (start (some 0) (fun o => o) (fun _ => []) 0 ())).map
      (fun s => (s.src, s.fol, s.props 0, s.val)) = some (some 0, some 1, 5, 1) := by decide

/-- C178: a listener of the property before the stream that raises leaves the stream with the old value. -/
theorem C178_counterexample_raises :
    (acts (exec ⟨exReact, [], [], []⟩ 5) [.prop 0 5] (start (some 0) (fun _ => 1) (fun _ => [3]) 0 ())).map
      (fun s => (s.src, s.fol, s.props 0, s.val)) = some (some 0, some 0, 5, 1) := by decide

end Verif.Stream.PropReentrant
