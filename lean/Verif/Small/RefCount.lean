import Verif.Py.Basic

/-!
Model of `ReferenceCounted` (`nion/utils/ReferenceCounting.py`) and property C31.

`about_to_delete` is an arbitrary sequence of `add_ref`/`remove_ref` calls on the same object (it runs under the lock, which
is re-entrant). Calls from several threads are serialised by the lock.
-/

namespace Verif.RefCount

open Verif.Py

/-- What happened, in order; `fail` is the assertion in `remove_ref`. -/
inductive Ev where
  | add
  | rem (check : Bool)
  | fail
  | delete
  deriving DecidableEq, Repr

/-- ReferenceCounting.py:8-10, and the record of what happened. -/
structure RC where
  count : Int
  active : Bool
  log : List Ev
  deriving DecidableEq, Repr

def RC.init : RC := ⟨0, true, []⟩

/-- Calls; `enter`/`exit` are the context manager of ReferenceCounting.py:17-26. -/
inductive Op where
  | addRef
  | removeRef (check : Bool)
  | enter
  | exit
  deriving DecidableEq, Repr

/-- ReferenceCounting.py:31-34. -/
def RC.addRef (s : RC) : RC := { s with count := s.count + 1, log := s.log ++ [.add] }

/-- ReferenceCounting.py:37-43; `hook` is `about_to_delete`. -/
def RC.removeRef (hook : RC → RC × Option Exc) (s : RC) (check : Bool) : RC × Option Exc :=
  if s.count > 0 then
    let t := { s with count := s.count - 1, log := s.log ++ [.rem check] }
    if t.active ∧ t.count = 0 ∧ check then
      hook { t with active := false, log := t.log ++ [.delete] }
    else (t, none)
  else ({ s with log := s.log ++ [.fail] }, some .assertionError)

def RC.stepWith (hook : RC → RC × Option Exc) (s : RC) : Op → RC × Option Exc
  | .addRef => (s.addRef, none)
  | .removeRef check => s.removeRef hook check
  | .enter => (s.addRef, none)
  | .exit => s.removeRef hook true

/-- The calls made by `about_to_delete`, up to the first exception. A further `about_to_delete` inside them would be
recorded in the log but do nothing; the theorems show that there is none. -/
def RC.runHook : List Op → RC → RC × Option Exc
  | [], s => (s, none)
  | o :: os, s =>
    match s.stepWith (fun t => (t, none)) o with
    | (t, none) => RC.runHook os t
    | (t, some e) => (t, some e)

/-- One call by a client. -/
def RC.step (hook : List Op) (s : RC) (o : Op) : RC × Option Exc := s.stepWith (RC.runHook hook) o

def RC.run (hook : List Op) (s : RC) (os : List Op) : RC := os.foldl (fun s o => (s.step hook o).1) s

/-! ### Specification -/

/-- Specification of a history of an object with `c` references which is (`alive`) not deleted yet: a removal fails exactly
at zero references, and deletion happens exactly at a checked removal that brings the count of an alive object to zero. -/
def Spec : Int → Bool → List Ev → Prop
  | _, _, [] => True
  | c, alive, .add :: l => Spec (c + 1) alive l
  | c, alive, .fail :: l => c = 0 ∧ Spec c alive l
  | _, _, .delete :: _ => False
  | c, alive, .rem check :: l =>
    0 < c ∧ if alive = true ∧ check = true ∧ c = 1 then
        match l with
        | .delete :: l' => Spec 0 false l'
        | _ => False
      else Spec (c - 1) alive l

/-- Number of `add_ref` calls minus number of successful `remove_ref` calls. -/
def balance : List Ev → Int
  | [] => 0
  | .add :: l => balance l + 1
  | .rem _ :: l => balance l - 1
  | _ :: l => balance l

theorem balance_append (a b : List Ev) : balance (a ++ b) = balance a + balance b := by
  induction a with
  | nil => simp [balance]
  | cons x a ih => cases x <;> simp [balance, ih] <;> omega

/-- The state after a history that satisfies the specification up to here: what may follow. -/
def Accepts (s : RC) (c : Int) (alive : Bool) (l : List Ev) : Prop :=
  ∀ m, Spec s.count s.active m → Spec c alive (l ++ m)

/-- A call preserves being described by the specification, whatever the start. -/
structure Good (s : RC) : Prop where
  nonneg : 0 ≤ s.count
  balance : s.count = balance s.log
  spec : ∀ m, Spec s.count s.active m → Spec 0 true (s.log ++ m)

theorem Good.init : Good RC.init := ⟨le_refl _, rfl, fun _ h => h⟩

theorem Good.addRef {s : RC} (h : Good s) : Good s.addRef :=
  ⟨by have := h.nonneg; simp [RC.addRef]; omega, by simp [RC.addRef, balance_append, h.balance, RefCount.balance],
    fun m hm => by
      simp only [RC.addRef, List.append_assoc, List.singleton_append] at *
      exact h.spec _ (by simpa [Spec] using hm)⟩

theorem Good.removeRef {s : RC} (h : Good s) (hook : RC → RC × Option Exc)
    (hh : ∀ t, Good t → t.active = false → Good (hook t).1) (check : Bool) : Good (s.removeRef hook check).1 := by
  unfold RC.removeRef
  have hn := h.nonneg
  split
  · rename_i hc
    simp only
    split
    · rename_i hd
      obtain ⟨h1, h2, h3⟩ := hd
      apply hh
      · refine ⟨by simp only; omega, ?_, fun m hm => ?_⟩
        · simp [balance_append, ← h.balance, RefCount.balance]; omega
        · simp only [List.append_assoc, List.singleton_append]
          apply h.spec
          refine ⟨by omega, ?_⟩
          rw [if_pos ⟨h1, h3, by omega⟩]
          simp only at hm
          rw [h2] at hm
          exact hm
      · rfl
    · rename_i hd
      refine ⟨by simp only; omega, ?_, fun m hm => ?_⟩
      · simp [balance_append, ← h.balance, RefCount.balance]; omega
      · simp only [List.append_assoc, List.singleton_append]
        apply h.spec
        unfold Spec
        refine ⟨by omega, ?_⟩
        rw [if_neg (fun hx => hd ⟨hx.1, by omega, hx.2.1⟩)]
        exact hm
  · rename_i hc
    refine ⟨hn, by simp [balance_append, ← h.balance, RefCount.balance], fun m hm => ?_⟩
    simp only [List.append_assoc, List.singleton_append]
    exact h.spec _ ⟨by omega, hm⟩

theorem good_stepWith {s : RC} (h : Good s) (hook : RC → RC × Option Exc)
    (hh : ∀ t, Good t → t.active = false → Good (hook t).1) (o : Op) : Good (s.stepWith hook o).1 := by
  cases o with
  | addRef => exact h.addRef
  | enter => exact h.addRef
  | removeRef c => exact h.removeRef hook hh c
  | exit => exact h.removeRef hook hh true

theorem good_runHook (os : List Op) (s : RC) (h : Good s) : Good (RC.runHook os s).1 := by
  induction os generalizing s with
  | nil => exact h
  | cons o os ih =>
    have hg := good_stepWith h (fun t => (t, none)) (fun _ h _ => h) o
    unfold RC.runHook
    split
    · rename_i t ht; rw [ht] at hg; exact ih t hg
    · rename_i t e ht; rw [ht] at hg; exact hg

theorem good_step {s : RC} (hook : List Op) (h : Good s) (o : Op) : Good (s.step hook o).1 :=
  good_stepWith h _ (fun t ht _ => good_runHook hook t ht) o

theorem good_run (hook : List Op) (os : List Op) {s : RC} (h : Good s) : Good (s.run hook os) := by
  induction os generalizing s with
  | nil => exact h
  | cons o os ih => exact ih (good_step hook h o)

theorem spec_count_delete (c : Int) (a : Bool) (l : List Ev) (h : Spec c a l) :
    l.count .delete ≤ if a then 1 else 0 := by
  induction hn : l.length using Nat.strongRecOn generalizing c a l with
  | ind n ih =>
    match l with
    | [] => simp
    | .add :: l =>
      have := ih l.length (by simp at hn; omega) _ _ l h rfl
      simpa using this
    | .fail :: l =>
      have := ih l.length (by simp at hn; omega) _ _ l h.2 rfl
      simpa using this
    | .delete :: l => exact absurd h (fun x => x)
    | .rem check :: l =>
      unfold Spec at h
      obtain ⟨_, h2⟩ := h
      split at h2
      · rename_i hc
        match l, h2 with
        | .delete :: l', h2 =>
          have := ih l'.length (by simp at hn; omega) _ _ l' h2 rfl
          simp at this
          simp [hc.1, List.count_cons]; exact this
      · have := ih l.length (by simp at hn; omega) _ _ l h2 rfl
        simpa using this

/-- C31: in every history of calls, whatever `about_to_delete` does, what happens is described by the specification:
removing at zero fails (and only then), and deletion happens exactly at the first checked removal that brings the count to
zero; deletion happens at most once; the count is the number of additions minus the number of successful removals, never
negative. -/
theorem C31_refcount (hook : List Op) (os : List Op) :
    let s := RC.init.run hook os
    Spec 0 true s.log ∧ s.log.count .delete ≤ 1 ∧ s.count = balance s.log ∧ 0 ≤ s.count := by
  intro s
  have h : Good s := good_run hook os Good.init
  have hs : Spec 0 true s.log := by simpa using h.spec [] (by simp [Spec])
  exact ⟨hs, by simpa using spec_count_delete 0 true _ hs, h.balance, h.nonneg⟩

/-- C31: `add_ref` and entering a context never raise; `remove_ref` and leaving a context raise the assertion at zero
references, changing nothing, and otherwise raise only what `about_to_delete` raises. -/
theorem C31_raises (hook : List Op) (s : RC) (check : Bool) :
    (s.step hook .addRef).2 = none ∧ (s.step hook .addRef).1.count = s.count + 1 ∧ s.step hook .enter = s.step hook .addRef ∧
    s.step hook .exit = s.step hook (.removeRef true) ∧
    (s.count ≤ 0 → (s.step hook (.removeRef check)).2 = some .assertionError ∧
      (s.step hook (.removeRef check)).1.count = s.count ∧ (s.step hook (.removeRef check)).1.active = s.active) ∧
    (0 < s.count → ¬ (s.active = true ∧ s.count = 1 ∧ check = true) →
      (s.step hook (.removeRef check)).2 = none ∧ (s.step hook (.removeRef check)).1.count = s.count - 1) ∧
    (s.active = true → s.count = 1 → check = true → hook = [] →
      (s.step hook (.removeRef check)).2 = none ∧ (s.step hook (.removeRef check)).1.count = 0) := by
  refine ⟨rfl, rfl, rfl, rfl, fun h => ?_, fun h1 h2 => ?_, fun h1 h2 h3 h4 => ?_⟩
  · simp [RC.step, RC.stepWith, RC.removeRef, show ¬ s.count > 0 by omega]
  · simp only [RC.step, RC.stepWith, RC.removeRef]
    rw [if_pos (by omega), if_neg (fun hh => h2 ⟨hh.1, by have := hh.2.1; omega, hh.2.2⟩)]
    exact ⟨rfl, rfl⟩
  · subst h4 h3
    simp only [RC.step, RC.stepWith, RC.removeRef]
    rw [if_pos (by omega), if_pos ⟨h1, by omega, trivial⟩]
    exact ⟨rfl, by simp [RC.runHook]; omega⟩

/-- resurrection, a hook that adds and removes a reference, an unchecked removal and a failing removal -/
example : (RC.init.run [.addRef, .removeRef true] [.addRef, .removeRef false, .enter, .exit, .addRef, .removeRef true,
      .removeRef true]).log =
    [.add, .rem false, .add, .rem true, .delete, .add, .rem true, .add, .rem true, .fail] := by decide

end Verif.RefCount
