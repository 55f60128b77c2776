import Mathlib.Data.List.Basic
import Mathlib.Data.Nat.Notation

/-!
C203: a `ListBinding` that one thread closes while another changes the list it observes (`nion/utils/Binding.py:185-216`, 55-65). The source
calls its listeners after each change (`nion/utils/Event.py:103-114`); `close` first closes the listener for insertions (line 206), then the one
for removals (line 208), then does the rest (lines 209-210, 60-64), which the functions for changes do not read: they keep `inserter` and
`remover`. The target is a list that has been filled from `items` and is changed by `inserter` and `remover`.

One step is one access to a variable that threads share: the list is changed, `listener.call` is read, `inserter` or `remover` is called. One
thread changes the list, `close` is called once; changes with another key do nothing and are left out.
-/

namespace Verif.Binding.ListClose

variable {A : Type}

/-- A change of a list. -/
inductive Edit (A : Type) where
  | insert (x : A) (i : ℕ)
  | remove (i : ℕ)
  deriving DecidableEq

/-- The list after a change; `none` if there is no such place. -/
def Edit.apply (l : List A) : Edit A → Option (List A)
  | .insert x i => if i ≤ l.length then some (l.insertIdx i x) else none
  | .remove i => if i < l.length then some (l.eraseIdx i) else none

/-- Where the thread is that changes the list. -/
inductive Pc (A : Type) where
  | idle
  /-- the list is changed, `listener.call` is not read -/
  | fire (e : Edit A)
  /-- it is read, `inserter` or `remover` is not called -/
  | call (e : Edit A)
  deriving DecidableEq

/-- The list, how many of its three steps `close` has done, where the thread is; the changes, with how many steps `close` had done, and what
the target was told. -/
structure St (A : Type) where
  source : List A
  closing : ℕ
  pc : Pc A
  edits : List (Edit A × ℕ)
  told : List (Edit A)

inductive Act (A : Type) where
  /-- the thread changes the list, if it is idle and there is such a place -/
  | edit (e : Edit A)
  /-- it does its next step -/
  | step
  /-- `close` does its next step -/
  | close

/-- The listener for this kind of change is open. -/
def St.hears (s : St A) : Edit A → Bool
  | .insert _ _ => decide (s.closing < 1)
  | .remove _ => decide (s.closing < 2)

def St.next (s : St A) : St A :=
  match s.pc with
  | .idle => s
  | .fire e => if s.hears e then { s with pc := .call e } else { s with pc := .idle }
  | .call e => { s with pc := .idle, told := s.told ++ [e] }

def St.act (s : St A) : Act A → St A
  | .edit e =>
    match s.pc, e.apply s.source with
    | .idle, some l => { s with source := l, pc := .fire e, edits := s.edits ++ [(e, s.closing)] }
    | _, _ => s
  | .step => s.next
  | .close => if s.closing < 3 then { s with closing := s.closing + 1 } else s

def St.run (s : St A) (as : List (Act A)) : St A := as.foldl St.act s

/-- A list that has just been bound. -/
def St.init (l : List A) : St A := ⟨l, 0, .idle, [], []⟩

/-! ### Specification -/

def Edit.IsRemove : Edit A → Bool
  | .remove _ => true
  | .insert _ _ => false

/-- What changes in order make of a list; `none` if there is no such place. -/
def replay (l : List A) : List (Edit A) → Option (List A)
  | [] => some l
  | .insert x i :: es => if i ≤ l.length then replay (l.take i ++ x :: l.drop i) es else none
  | .remove i :: es => if i < l.length then replay (l.take i ++ l.drop (i + 1)) es else none

/-- The change the target has not been told of yet, if there is one. -/
def St.pending (s : St A) : List (Edit A) :=
  match s.pc with
  | .idle => []
  | .fire e => [e]
  | .call e => [e]

/-! ### Proof -/

theorem replay_append (l : List A) (es fs : List (Edit A)) : replay l (es ++ fs) = (replay l es).bind fun m => replay m fs := by
  induction es generalizing l with
  | nil => rfl
  | cons e es ih =>
    cases e with
    | insert x i =>
      simp only [List.cons_append, replay]
      split
      · exact ih _
      · rfl
    | remove i =>
      simp only [List.cons_append, replay]
      split
      · exact ih _
      · rfl

theorem insertIdx_take (l : List A) (i : ℕ) (x : A) (h : i ≤ l.length) : l.insertIdx i x = l.take i ++ x :: l.drop i := by
  induction l generalizing i with
  | nil =>
    have : i = 0 := Nat.le_zero.mp h
    subst this; rfl
  | cons y l ih =>
    cases i with
    | zero => rfl
    | succ i =>
      simp only [List.insertIdx_succ_cons, List.take_succ_cons, List.drop_succ_cons, List.cons_append]
      rw [ih i (Nat.le_of_succ_le_succ h)]

theorem apply_replay (l : List A) (e : Edit A) : replay l [e] = e.apply l := by
  cases e with
  | insert x i =>
    simp only [replay, Edit.apply]
    split
    · rename_i h; rw [insertIdx_take l i x h]
    · rfl
  | remove i =>
    simp only [replay, Edit.apply]
    split
    · rw [List.eraseIdx_eq_take_drop_succ]
    · rfl

/-- The changes are: those made while both listeners were open, those while only the one for removals was, and the others. -/
structure Inv (l : List A) (s : St A) (a b c : List (Edit A × ℕ)) (p : List (Edit A × ℕ)) : Prop where
  edits : s.edits = a ++ b ++ c ++ p
  pend : p.map Prod.fst = s.pending
  told : s.told = (a ++ b.filter fun e => e.1.IsRemove).map Prod.fst
  source : replay l (s.edits.map Prod.fst) = some s.source
  first : ∀ e ∈ a, e.2 = 0
  second : ∀ e ∈ b, e.2 ≤ 1
  rest : ∀ e ∈ (b ++ c ++ p).tail, 1 ≤ e.2
  now : ∀ e ∈ p, e.2 ≤ s.closing
  noB : s.closing = 0 → b = []
  noC : s.closing ≤ 1 → c = []
  le : s.closing ≤ 3
  callIns : ∀ e, s.pc = .call e → e.IsRemove = false → b = [] ∧ c = [] ∧ ∀ q ∈ p, q.2 = 0
  callRem : ∀ e, s.pc = .call e → e.IsRemove = true → c = [] ∧ ∀ q ∈ p, q.2 ≤ 1

theorem pend_cases {p : List (Edit A × ℕ)} {e : Edit A} (h : p.map Prod.fst = [e]) : ∃ k, p = [(e, k)] := by
  match p, h with
  | [(e', k)], h => simp at h; exact ⟨k, by rw [h]⟩

theorem act_inv (l : List A) (s : St A) (x : Act A) (h : ∃ a b c p, Inv l s a b c p) : ∃ a b c p, Inv l (s.act x) a b c p := by
  obtain ⟨a, b, c, p, h⟩ := h
  cases x with
  | close =>
    simp only [St.act]
    split
    · rename_i hlt
      exact ⟨a, b, c, p, h.edits, h.pend, h.told, h.source, h.first, h.second, h.rest, fun e he => Nat.le_succ_of_le (h.now e he),
        by simp, fun hc => h.noC (Nat.le_of_succ_le hc), hlt, h.callIns, h.callRem⟩
    · exact ⟨a, b, c, p, h⟩
  | edit e =>
    cases hp : s.pc with
    | fire f => simp only [St.act, hp]; exact ⟨a, b, c, p, h⟩
    | call f => simp only [St.act, hp]; exact ⟨a, b, c, p, h⟩
    | idle =>
      cases ha : e.apply s.source with
      | none => simp only [St.act, hp, ha]; exact ⟨a, b, c, p, h⟩
      | some m =>
        simp only [St.act, hp, ha]
        have hpe : p = [] := by simpa [St.pending, hp] using h.pend
        subst hpe
        refine ⟨a, b, c, [(e, s.closing)], ?_, rfl, h.told, ?_, h.first, h.second, ?_, by simp, h.noB, h.noC, h.le, by simp, by simp⟩
        · simp [h.edits]
        · simp only [List.map_append, List.map_cons, List.map_nil]
          rw [replay_append, h.source]
          exact (apply_replay _ _).trans ha
        · intro q hq
          cases hbc : b ++ c with
          | nil => simp [hbc] at hq
          | cons y ys =>
            simp only [hbc, List.cons_append, List.tail_cons, List.mem_append, List.mem_singleton] at hq
            rcases hq with hq | rfl
            · exact h.rest q (by simp [hbc, hq])
            · by_contra h0
              have h0 : s.closing = 0 := by simpa using h0
              simp [h.noB h0, h.noC (by omega)] at hbc
  | step =>
    simp only [St.act, St.next]
    cases hp : s.pc with
    | idle => exact ⟨a, b, c, p, h⟩
    | call e =>
      obtain ⟨k, hk⟩ := pend_cases (p := p) (e := e) (by simpa [St.pending, hp] using h.pend)
      subst hk
      cases hr : e.IsRemove with
      | false =>
        obtain ⟨hb, hc, hq⟩ := h.callIns e hp hr
        subst hb; subst hc
        have hk : k = 0 := hq (e, k) (by simp)
        subst hk
        refine ⟨a ++ [(e, 0)], [], [], [], ?_, rfl, ?_, h.source, ?_, by simp, by simp, by simp, by simp, by simp, h.le, by simp, by simp⟩
        · simp [h.edits]
        · simp [h.told]
        · intro q hq'
          rcases List.mem_append.mp hq' with hq' | hq'
          · exact h.first q hq'
          · simp at hq'; rw [hq']
      | true =>
        obtain ⟨hc, hq⟩ := h.callRem e hp hr
        subst hc
        have hk : k ≤ 1 := hq (e, k) (by simp)
        by_cases hz : s.closing = 0
        · have hb := h.noB hz
          subst hb
          have hk0 : k = 0 := by have := h.now (e, k) (by simp); simp only at this; omega
          subst hk0
          refine ⟨a ++ [(e, 0)], [], [], [], ?_, rfl, ?_, h.source, ?_, by simp, by simp, by simp, by simp, by simp, h.le, by simp, by simp⟩
          · simp [h.edits]
          · simp [h.told]
          · intro q hq'
            rcases List.mem_append.mp hq' with hq' | hq'
            · exact h.first q hq'
            · simp at hq'; rw [hq']
        · refine ⟨a, b ++ [(e, k)], [], [], ?_, rfl, ?_, h.source, h.first, ?_, ?_, by simp, fun h0 => absurd h0 hz, by simp, h.le,
            by simp, by simp⟩
          · simp [h.edits]
          · simp [h.told, hr]
          · intro q hq'
            rcases List.mem_append.mp hq' with hq' | hq'
            · exact h.second q hq'
            · simp at hq'; rw [hq']; exact hk
          · have := h.rest; simpa using this
    | fire e =>
      obtain ⟨k, hk⟩ := pend_cases (p := p) (e := e) (by simpa [St.pending, hp] using h.pend)
      subst hk
      have hn : k ≤ s.closing := h.now (e, k) (by simp)
      by_cases hh : s.hears e = true
      · simp only [hh, if_true]
        refine ⟨a, b, c, [(e, k)], h.edits, rfl, h.told, h.source, h.first, h.second, h.rest, h.now, h.noB, h.noC, h.le, ?_, ?_⟩
        · intro f hf hr
          simp only [Pc.call.injEq] at hf; subst hf
          cases e with
          | remove i => simp [Edit.IsRemove] at hr
          | insert x i =>
            have h1 : s.closing < 1 := by simpa [St.hears] using hh
            exact ⟨h.noB (by omega), h.noC (by omega), by simp; omega⟩
        · intro f hf hr
          simp only [Pc.call.injEq] at hf; subst hf
          cases e with
          | insert x i => simp [Edit.IsRemove] at hr
          | remove i =>
            have h1 : s.closing < 2 := by simpa [St.hears] using hh
            exact ⟨h.noC (by omega), by simp; omega⟩
      · simp only [hh]
        have h1 : 1 ≤ s.closing := by
          cases e with
          | insert x i =>
            have : s.closing ≠ 0 := by simpa [St.hears] using hh
            omega
          | remove i =>
            have : 2 ≤ s.closing := by simpa [St.hears] using hh
            omega
        by_cases h2 : s.closing ≤ 1
        · have hc := h.noC h2
          subst hc
          have hr : e.IsRemove = false := by
            cases e with
            | insert x i => rfl
            | remove i =>
              have : 2 ≤ s.closing := by simpa [St.hears] using hh
              omega
          refine ⟨a, b ++ [(e, k)], [], [], ?_, rfl, ?_, h.source, h.first, ?_, ?_, by simp, fun h0 => ?_, by simp, h.le, by simp, by simp⟩
          · simp [h.edits]
          · simp [h.told, hr]
          · intro q hq'
            rcases List.mem_append.mp hq' with hq' | hq'
            · exact h.second q hq'
            · simp at hq'; rw [hq']; exact Nat.le_trans hn h2
          · have := h.rest; simpa using this
          · simp only [Bool.false_eq_true, if_false] at h0; omega
        · refine ⟨a, b, c ++ [(e, k)], [], ?_, rfl, h.told, h.source, h.first, h.second, ?_, by simp, h.noB, fun h0 => ?_, h.le,
            by simp, by simp⟩
          · simp [h.edits]
          · have := h.rest; simpa using this
          · simp only [Bool.false_eq_true, if_false] at h0; omega

theorem run_inv (l : List A) (as : List (Act A)) : ∃ a b c p, Inv l ((St.init l).run as) a b c p := by
  suffices h : ∀ s : St A, (∃ a b c p, Inv l s a b c p) → ∃ a b c p, Inv l (s.run as) a b c p from
    h _ ⟨[], [], [], [], rfl, rfl, rfl, rfl, by simp, by simp, by simp, by simp, by simp, by simp, by simp [St.init], by simp [St.init],
      by simp [St.init]⟩
  induction as with
  | nil => exact fun s h => h
  | cons x as ih => exact fun s h => ih _ (act_inv l s x h)

/-- C203: the list is what its changes make of it. -/
theorem C203_source (l : List A) (as : List (Act A)) :
    replay l (((St.init l).run as).edits.map Prod.fst) = some ((St.init l).run as).source := by
  obtain ⟨a, b, c, p, h⟩ := run_inv l as
  exact h.source

/-- C203: until `close` is called, the target is told of every change, in order. -/
theorem C203_open (l : List A) (as : List (Act A)) (h0 : ((St.init l).run as).closing = 0) :
    ((St.init l).run as).edits.map Prod.fst = ((St.init l).run as).told ++ ((St.init l).run as).pending := by
  obtain ⟨a, b, c, p, h⟩ := run_inv l as
  have hb := h.noB h0
  have hc := h.noC (by omega)
  subst hb; subst hc
  rw [h.edits, h.told, ← h.pend]
  simp

/-- C203: the changes fall in three parts, one after another: the target is told of the first, only of removals of the second, and not of the
third. The first are made before `close` begins, the second before its second step; of those made before `close` begins at most one is not in
the first part. -/
theorem C203_told (l : List A) (as : List (Act A)) :
    ∃ a b c, (∃ p, ((St.init l).run as).edits = a ++ b ++ c ++ p ∧ p.map Prod.fst = ((St.init l).run as).pending ∧
        ∀ e ∈ (b ++ c ++ p).tail, 1 ≤ e.2) ∧
      ((St.init l).run as).told = (a ++ b.filter fun e => e.1.IsRemove).map Prod.fst ∧
      (∀ e ∈ a, e.2 = 0) ∧ ∀ e ∈ b, e.2 ≤ 1 := by
  obtain ⟨a, b, c, p, h⟩ := run_inv l as
  exact ⟨a, b, c, ⟨p, h.edits, h.pend, h.rest⟩, h.told, h.first, h.second⟩

/-- C203: the target is told of no change that is made when `close` has returned, of no change twice, and of none that was not made. -/
theorem C203_after (l : List A) (as : List (Act A)) :
    ((St.init l).run as).told.Sublist ((((St.init l).run as).edits.filter fun e => decide (e.2 < 3)).map Prod.fst) := by
  obtain ⟨a, b, c, ⟨p, h1, _, _⟩, h2, h3, h4⟩ := C203_told l as
  have ha : a.filter (fun e => decide (e.2 < 3)) = a := List.filter_eq_self.mpr fun e he => by simp [h3 e he]
  have hb : b.filter (fun e => decide (e.2 < 3)) = b := List.filter_eq_self.mpr fun e he => by
    have := h4 e he; simp; omega
  rw [h1, h2]
  apply List.Sublist.map
  rw [List.append_assoc, List.append_assoc, List.filter_append, ha, List.filter_append, hb]
  exact List.Sublist.append (List.Sublist.refl _) (List.filter_sublist.trans (List.sublist_append_left _ _))

/-- C203, the part that holds: if nothing is removed from the list while `close` is at work, the target is a list that the source had. -/
theorem C203_target_partial (l : List A) (as : List (Act A))
    (hi : ∀ e ∈ ((St.init l).run as).edits, e.2 = 1 ∨ e.2 = 2 → e.1.IsRemove = false) :
    ∃ q, q <+: ((St.init l).run as).edits.map Prod.fst ∧ ((St.init l).run as).told = q ∧
      (replay l ((St.init l).run as).told).isSome := by
  have hpre : ∃ q, q <+: ((St.init l).run as).edits.map Prod.fst ∧ ((St.init l).run as).told = q := by
    obtain ⟨a, b, c, ⟨p, h1, _, h5⟩, h2, h3, h4⟩ := C203_told l as
    refine ⟨_, ?_, rfl⟩
    rw [h1, h2]
    cases b with
    | nil => simp
    | cons y ys =>
      have hys : ys.filter (fun e => e.1.IsRemove) = [] := by
        apply List.filter_eq_nil_iff.mpr
        intro e he
        have h6 : 1 ≤ e.2 := h5 e (by simp [he])
        have h7 : e.2 ≤ 1 := h4 e (by simp [he])
        rw [hi e (by rw [h1]; simp [he]) (Or.inl (Nat.le_antisymm h7 h6))]
        simp
      rw [List.filter_cons, hys]
      split
      · refine ⟨(ys ++ c ++ p).map Prod.fst, ?_⟩
        simp
      · refine ⟨((y :: ys) ++ c ++ p).map Prod.fst, ?_⟩
        simp
  obtain ⟨q, ⟨r, hr⟩, hq⟩ := hpre
  refine ⟨q, ⟨r, hr⟩, hq, ?_⟩
  have hs := C203_source l as
  rw [← hr, replay_append, ← hq] at hs
  cases h : replay l ((St.init l).run as).told with
  | none => rw [h] at hs; cases hs
  | some m => rfl

/-! ### Cases -/

/-- The source, what the target was told, and the target. -/
def exRun (l : List ℕ) (as : List (Act ℕ)) : List ℕ × List (Edit ℕ) × Option (List ℕ) :=
  let s := (St.init l).run as
  (s.source, s.told, replay l s.told)

/-- Changes before, during and after `close`. -/
example : exRun [1, 2] [.edit (.insert 3 0), .step, .step, .edit (.remove 2), .step, .close, .step, .edit (.insert 4 0), .close, .close,
    .step, .edit (.remove 0), .step] = ([3, 1], [.insert 3 0, .remove 2], some [3, 1]) := by decide +kernel

/-- C203 is false: an insertion is missed, the removal after it is not; the target loses another item than the source. -/
theorem C203_counterexample_other :
    exRun [1, 2] [.close, .edit (.insert 3 0), .step, .edit (.remove 0), .step, .step, .close, .close] =
      ([1, 2], [.remove 0], some [2]) := by decide +kernel

/-- C203 is false: or the remover is called with an index that the target does not have. -/
theorem C203_counterexample_index :
    exRun [1, 2] [.close, .edit (.insert 3 2), .step, .edit (.remove 2), .step, .step, .close, .close] =
      ([1, 2], [.remove 2], none) := by decide +kernel

/-- C203 is false: the inserter is called when `close` has returned. -/
theorem C203_counterexample_late :
    exRun [1, 2] [.edit (.insert 3 2), .step, .close, .close, .close] = ([1, 2, 3], [], some [1, 2]) ∧
      exRun [1, 2] [.edit (.insert 3 2), .step, .close, .close, .close, .step] = ([1, 2, 3], [.insert 3 2], some [1, 2, 3]) :=
  ⟨by decide +kernel, by decide +kernel⟩

end Verif.Binding.ListClose
