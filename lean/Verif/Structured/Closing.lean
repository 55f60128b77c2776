import Verif.Py.Basic
import Mathlib.Data.List.Basic
import Mathlib.Data.List.Induction
import Mathlib.Logic.Function.Basic

/-!
# Closing structured models (/repo/nion/utils/StructuredModel.py)

A tree of models: fields, records and arrays, numbered such that a model has a greater number than the record or array that
contains it. A record listens to its field models, an array to its items that are records or arrays; the listeners of lines
152 and 250 pass `model_changed_event` on. `RecordModel.close` (162-171) closes and deletes the listeners of the record, field by
field; `ArrayModel.close` (253-259) calls `self.items()`, but `items` is a property that returns a list; closing a field
(/repo/nion/utils/Model.py:35-36) does not concern notifications.

Items are neither inserted nor removed here (`Verif.Structured.Own` is about these); a change is the assignment of a field
or any other reason for a model to fire by itself.
-/

namespace Verif.Structured.Closing

open Verif.Py

inductive Kind where
  | field | record | array
  deriving DecidableEq

/-- The tree: `size` models. -/
structure Tree where
  size : Nat
  kind : Nat → Kind
  parent : Nat → Option Nat
  less : ∀ n p, parent n = some p → p < n

/-- The models directly inside `n`. -/
def Tree.inside (T : Tree) (n : Nat) : List Nat := (List.range T.size).filter fun m => decide (T.parent m = some n)

structure State where
  /-- the model that contains it listens to the model -/
  heard : Nat → Bool
  /-- for every change the models whose `model_changed_event` fired -/
  log : List (List Nat)
  /-- results of closing -/
  results : List (Except Exc Unit)

inductive Act where
  | close (n : Nat)
  | change (n : Nat)
  deriving DecidableEq

/-- StructuredModel.py:162-171: `del` of a key that is missing raises (so does the look-up before). -/
def closeFields : List Nat → (Nat → Bool) → (Nat → Bool) × Except Exc Unit
  | [], heard => (heard, .ok ())
  | m :: ms, heard => if heard m then closeFields ms (Function.update heard m false) else (heard, .error .keyError)

/-- Lines 152, 250 and `Event.fire`: the models told, from the inside to the outside. -/
def up (T : Tree) (heard : Nat → Bool) : Nat → Nat → List Nat
  | 0, _ => []
  | fuel + 1, n =>
    n :: match T.parent n with
      | some p => if heard n then up T heard fuel p else []
      | none => []

def State.step (T : Tree) (s : State) : Act → State
  | .close n =>
    match T.kind n with
    | .field => { s with results := s.results ++ [.ok ()] }
    | .record =>
      let r := closeFields (T.inside n) s.heard
      { s with heard := r.1, results := s.results ++ [r.2] }
    -- 254: a list cannot be called
    | .array => { s with results := s.results ++ [.error .typeError] }
  | .change n => { s with log := s.log ++ [up T s.heard (n + 1) n] }

def run (T : Tree) (as : List Act) : State := as.foldl (State.step T) ⟨fun _ => true, [], []⟩

/-! ### Specification -/

/-- `n` is `a` or inside `a`, and no model that contains `n` up to `a` is in `shut`. -/
inductive Reaches (T : Tree) (shut : Nat → Prop) : Nat → Nat → Prop
  | refl (n : Nat) : Reaches T shut n n
  | up {n p a : Nat} (h : T.parent n = some p) (hs : ¬ shut p) (hr : Reaches T shut p a) : Reaches T shut n a

/-- What closing promises: a closed model tells nobody of changes inside it. -/
def Closed (as : List Act) (n : Nat) : Prop := .close n ∈ as

/-- What closing does. -/
def Shut (T : Tree) (as : List Act) (n : Nat) : Prop := T.kind n = .record ∧ .close n ∈ as

/-! ### Proofs -/

theorem mem_inside (T : Tree) (n m : Nat) : m ∈ T.inside n ↔ m < T.size ∧ T.parent m = some n := by
  simp [Tree.inside]

theorem closeFields_all (l : List Nat) (hn : l.Nodup) (heard : Nat → Bool) (h : ∀ m ∈ l, heard m = true) :
    (closeFields l heard).2 = .ok () ∧ ∀ m, (closeFields l heard).1 m = if m ∈ l then false else heard m := by
  induction l generalizing heard with
  | nil => simp [closeFields]
  | cons a l ih =>
    rw [List.nodup_cons] at hn
    simp only [closeFields, h a (by simp), if_true]
    have := ih hn.2 (Function.update heard a false) (fun m hm => by
      have : m ≠ a := by rintro rfl; exact hn.1 hm
      rw [Function.update_of_ne this]; exact h m (by simp [hm]))
    refine ⟨this.1, fun m => ?_⟩
    rw [this.2]
    by_cases e : m = a
    · subst e; simp
    · simp [e]

theorem closeFields_none (l : List Nat) (heard : Nat → Bool) (h : ∀ m ∈ l, heard m = false) :
    (closeFields l heard).1 = heard ∧ ((closeFields l heard).2 = .ok () ↔ l = []) ∧
    (l ≠ [] → (closeFields l heard).2 = .error .keyError) := by
  cases l with
  | nil => simp [closeFields]
  | cons a l => simp [closeFields, h a (by simp)]

theorem inv_run (T : Tree) (as : List Act) (m : Nat) (hm : m < T.size) (p : Nat) (hp : T.parent m = some p) :
    (run T as).heard m = true ↔ ¬ Shut T as p := by
  induction as using List.reverseRecOn generalizing m p with
  | nil => simp [run, Shut]
  | append_singleton as a ih =>
    have hrun : run T (as ++ [a]) = (run T as).step T a := by unfold run; rw [List.foldl_append]; rfl
    rw [hrun]
    have hS : Shut T (as ++ [a]) p ↔ Shut T as p ∨ (T.kind p = .record ∧ a = .close p) := by
      simp only [Shut, List.mem_append, List.mem_singleton, eq_comm (a := Act.close p)]; tauto
    rw [hS]
    cases a with
    | change n => simpa [State.step] using ih m hm p hp
    | close n =>
      simp only [State.step]
      cases hk : T.kind n with
      | field =>
        have : ¬ (T.kind p = .record ∧ Act.close n = .close p) := by
          rintro ⟨h1, h2⟩; cases h2; rw [hk] at h1; cases h1
        rw [or_iff_left this]; exact ih m hm p hp
      | array =>
        have : ¬ (T.kind p = .record ∧ Act.close n = .close p) := by
          rintro ⟨h1, h2⟩; cases h2; rw [hk] at h1; cases h1
        rw [or_iff_left this]; exact ih m hm p hp
      | record =>
        simp only
        have hnd : (T.inside n).Nodup := List.Pairwise.filter _ List.nodup_range
        by_cases hs : Shut T as n
        · have h0 : ∀ x ∈ T.inside n, (run T as).heard x = false := by
            intro x hx
            rw [mem_inside] at hx
            have := ih x hx.1 n hx.2
            cases e : (run T as).heard x with
            | false => rfl
            | true => exact absurd hs (this.1 e)
          rw [(closeFields_none _ _ h0).1, ih m hm p hp]
          constructor
          · rintro h (h' | ⟨-, h'⟩)
            · exact h h'
            · cases h'; exact h hs
          · exact fun h h' => h (Or.inl h')
        · have h1 : ∀ x ∈ T.inside n, (run T as).heard x = true := by
            intro x hx
            rw [mem_inside] at hx
            exact (ih x hx.1 n hx.2).2 hs
          rw [(closeFields_all _ hnd _ h1).2]
          by_cases e : p = n
          · subst e
            rw [if_pos ((mem_inside T p m).2 ⟨hm, hp⟩)]
            simp [hk]
          · rw [if_neg (fun h => e (by have := ((mem_inside T n m).1 h).2; rw [hp] at this; exact Option.some.inj this)),
              ih m hm p hp]
            have : ¬ (T.kind p = .record ∧ Act.close n = .close p) := by
              rintro ⟨-, h2⟩; cases h2; exact e rfl
            rw [or_iff_left this]

theorem up_spec (T : Tree) (shut : Nat → Prop) (heard : Nat → Bool)
    (hh : ∀ m < T.size, ∀ p, T.parent m = some p → (heard m = true ↔ ¬ shut p)) (fuel n : Nat) (hf : n < fuel) (hn : n < T.size) :
    (∀ a, a ∈ up T heard fuel n ↔ Reaches T shut n a) ∧ (up T heard fuel n).Pairwise (· > ·) ∧
    ∀ a ∈ up T heard fuel n, a ≤ n := by
  induction fuel generalizing n with
  | zero => omega
  | succ fuel ih =>
    simp only [up]
    cases hp : T.parent n with
    | none =>
      refine ⟨fun a => ?_, by simp, by simp⟩
      constructor
      · intro h; simp at h; subst h; exact Reaches.refl _
      · rintro (_ | ⟨h, -, -⟩)
        · simp
        · rw [hp] at h; cases h
    | some p =>
      have hlt := T.less n p hp
      obtain ⟨i1, i2, i3⟩ := ih p (by omega) (by omega)
      by_cases hs : heard n = true
      · simp only [hs, if_true]
        have hns := (hh n hn p hp).1 hs
        refine ⟨fun a => ?_, List.pairwise_cons.2 ⟨fun a ha => ?_, i2⟩, fun a ha => ?_⟩
        · rw [List.mem_cons, i1]
          constructor
          · rintro (rfl | h)
            · exact Reaches.refl _
            · exact Reaches.up hp hns h
          · rintro (_ | ⟨h, h', hr⟩)
            · exact Or.inl rfl
            · rw [hp] at h; cases h; exact Or.inr hr
        · have := i3 a ha; omega
        · rcases List.mem_cons.1 ha with rfl | h
          · exact le_refl _
          · have := i3 a h; omega
      · have hs' : heard n = false := by simpa using hs
        simp only [hs', Bool.false_eq_true, if_false]
        refine ⟨fun a => ?_, by simp, by simp⟩
        constructor
        · intro h; simp at h; subst h; exact Reaches.refl _
        · rintro (_ | ⟨h, h', -⟩)
          · simp
          · rw [hp] at h; cases h
            exact absurd ((hh n hn _ hp).2 h') hs

/-- C163, what happens: after every history, a change of a model is told by the model itself and by every model that contains
it, up to the innermost record that was closed; each tells it once, from the inside to the outside. (Missing: arrays that were
closed go on telling.) -/
theorem C163_told_partial (T : Tree) (as : List Act) (n : Nat) (hn : n < T.size) :
    ∃ told, (run T (as ++ [.change n])).log = (run T as).log ++ [told] ∧
      (∀ a, a ∈ told ↔ Reaches T (Shut T as) n a) ∧ told.Pairwise (· > ·) := by
  have hrun : run T (as ++ [.change n]) = (run T as).step T (.change n) := by unfold run; rw [List.foldl_append]; rfl
  rw [hrun]
  obtain ⟨h1, h2, -⟩ := up_spec T (Shut T as) (run T as).heard (fun m hm p hp => inv_run T as m hm p hp) (n + 1) n (by omega) hn
  exact ⟨_, rfl, h1, h2⟩

theorem reaches_le (T : Tree) (shut : Nat → Prop) (n a : Nat) (h : Reaches T shut n a) : a ≤ n := by
  induction h with
  | refl n => exact le_refl _
  | up h _ _ ih => have := T.less _ _ h; omega

theorem reaches_last (T : Tree) (shut : Nat → Prop) (n a : Nat) (h : Reaches T shut n a) (hne : a ≠ n) : ¬ shut a := by
  induction h with
  | refl n => exact absurd rfl hne
  | @up n p a h hs hr ih =>
    by_cases e : a = p
    · rw [e]; exact hs
    · exact ih e

theorem reaches_mono (T : Tree) {shut shut' : Nat → Prop} (hm : ∀ p, shut' p → shut p) (n a : Nat) (h : Reaches T shut n a) :
    Reaches T shut' n a := by
  induction h with
  | refl n => exact .refl n
  | up h hs _ ih => exact .up h (fun hs' => hs (hm _ hs')) ih

theorem reaches_closed (T : Tree) (as : List Act) (n a : Nat) (h : Reaches T (Shut T as) n a)
    (hq : ∀ b, Reaches T (Shut T as) n b → b ≠ n → T.kind b ≠ .record → ¬ Closed as b) : Reaches T (Closed as) n a := by
  induction h with
  | refl n => exact .refl n
  | @up n p a h hs hr ih =>
    have hlt := T.less _ _ h
    refine .up h (fun hc => ?_) (ih fun b hb hbp => hq b (.up h hs hb) (by have := reaches_le T _ _ _ hb; omega))
    by_cases hk : T.kind p = .record
    · exact hs ⟨hk, hc⟩
    · exact hq p (.up h hs (.refl p)) (by omega) hk hc

/-- C163, exactly: a closed model is silent about changes inside it, in every history in which only records (and fields) are
closed, and in no other. -/
theorem C163_iff_partial (T : Tree) (as : List Act) (n : Nat) (hn : n < T.size) (told : List Nat)
    (ht : (run T (as ++ [.change n])).log = (run T as).log ++ [told]) :
    (∀ a, a ∈ told ↔ Reaches T (Closed as) n a) ↔
      ∀ a, Reaches T (Shut T as) n a → a ≠ n → T.kind a ≠ .record → ¬ Closed as a := by
  obtain ⟨told', h0, h1, -⟩ := C163_told_partial T as n hn
  have e : told' = told := by
    rw [h0] at ht
    simpa using List.append_cancel_left ht
  subst e
  constructor
  · intro h a ha hne _ hc
    exact reaches_last T (Closed as) n a ((h a).1 ((h1 a).2 ha)) hne hc
  · intro h a
    rw [h1]
    exact ⟨fun ha => reaches_closed T as n a ha h, fun ha => reaches_mono T (fun p hp => hp.2) n a ha⟩

/-- C163: what closing answers. A record answers without exception the first time, and later exactly if it has no fields; a
field always, an array never. -/
theorem C163_answers_partial (T : Tree) (as : List Act) (n : Nat) :
    ∃ r, (run T (as ++ [.close n])).results = (run T as).results ++ [r] ∧
      (T.kind n = .field → r = .ok ()) ∧ (T.kind n = .array → r = .error .typeError) ∧
      (T.kind n = .record → .close n ∉ as → r = .ok ()) ∧
      (T.kind n = .record → .close n ∈ as → (∀ m < T.size, T.parent m ≠ some n) → r = .ok ()) ∧
      (T.kind n = .record → .close n ∈ as → (∃ m < T.size, T.parent m = some n) → r = .error .keyError) := by
  have hrun : run T (as ++ [.close n]) = (run T as).step T (.close n) := by unfold run; rw [List.foldl_append]; rfl
  rw [hrun]
  simp only [State.step]
  cases hk : T.kind n with
  | field => exact ⟨_, rfl, by simp⟩
  | array => exact ⟨_, rfl, by simp⟩
  | record =>
    refine ⟨_, rfl, by simp, by simp, fun _ hc => ?_, fun _ hc hm => ?_, fun _ hc hm => ?_⟩
    · refine (closeFields_all _ (List.Pairwise.filter _ List.nodup_range) _ fun x hx => ?_).1
      have hx := (mem_inside T n x).1 hx
      exact (inv_run T as x hx.1 n hx.2).2 fun h => hc h.2
    · have : T.inside n = [] := List.eq_nil_iff_forall_not_mem.2 fun x hx => by
        rw [mem_inside] at hx; exact hm x hx.1 hx.2
      rw [this]; rfl
    · obtain ⟨m, h1, h2⟩ := hm
      refine (closeFields_none _ _ fun x hx => ?_).2.2 (List.ne_nil_of_mem ((mem_inside T n m).2 ⟨h1, h2⟩))
      rw [mem_inside] at hx
      cases e : (run T as).heard x with
      | false => rfl
      | true => exact absurd ⟨hk, hc⟩ ((inv_run T as x hx.1 n hx.2).1 e)

/-- A record (0) with a field (1) and an array (2) of two records (3, 5) with one field each (4, 6). -/
def demo : Tree where
  size := 7
  kind n := if n = 0 ∨ n = 3 ∨ n = 5 then .record else if n = 2 then .array else .field
  parent n := if n = 1 ∨ n = 2 then some 0 else if n = 3 ∨ n = 5 then some 2 else if n = 4 then some 3 else if n = 6 then some 5 else none
  less n p h := by split_ifs at h <;> simp at h <;> omega

/-- C163 is false of the code: closing an array raises, and the array goes on telling; closing a record twice raises. -/
theorem C163_counterexample :
    let s := run demo [.close 2, .change 4, .close 0, .close 0, .change 4]
    s.results = [.error .typeError, .ok (), .error .keyError] ∧ s.log = [[4, 3, 2, 0], [4, 3, 2]] ∧
    ¬ Reaches demo (Closed [.close 2]) 4 2 := by
  refine ⟨by decide, by decide, fun h => ?_⟩
  exact reaches_last demo _ 4 2 h (by decide) (by simp [Closed])

example : (run demo [.change 6, .close 5, .change 6, .change 4, .close 1, .change 1]).log = [[6, 5, 2, 0], [6], [4, 3, 2, 0], [1, 0]] := by
  decide

end Verif.Structured.Closing
