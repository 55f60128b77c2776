import Verif.ListModel.MappedThreads
import Mathlib.Logic.Function.Basic

set_option linter.unusedSectionVars false

/-!
C195: one thread assigns the container of a `MappedListModel` (`nion/utils/ListModel.py:723-758`, commented as thread safe) while others
change the containers, which are `ListModel`s (lines 35-42).

A call of `insert_item` or `remove_item` of a container has three steps: the list is changed; `Event.fire` reads `call` of the listener of
the mapped list, if there is one; it is called, which is one step, under the lock (lines 768-790). The assignment has a step for each listener
that is closed or made, for copying the list of the old container, for each item that is removed, for setting `__container`, and for each item
that is inserted; it does not hold the lock in between. Only one assignment is under way at a time. Change blocks and selections are left out.
-/

namespace Verif.ListModel.MappedContainers

open Verif.ListModel.MappedThreads (Note map_insert map_del)

variable {C α β : Type} [DecidableEq C]

/-- A call that has changed the list of a container: whether `listener.call` was read. -/
structure Pending (C α : Type) where
  cont : C
  note : Note α
  called : Bool

/-- Where the thread is that assigns the container `n`. -/
inductive Rep (C : Type) where
  | idle
  /-- at line 730: the listener of insertions is closed -/
  | closeRemoved (n : Option C)
  /-- at line 738 -/
  | copy (n : Option C)
  /-- in the loop of line 738, with `k` items to go -/
  | remove (k : ℕ) (n : Option C)
  /-- at line 741 -/
  | assign (n : Option C)
  /-- at line 743 -/
  | listenInserted (n : C)
  /-- at line 744 -/
  | listenRemoved (n : C)
  /-- in the loop of line 757, at index `k` -/
  | add (k : ℕ) (n : C)

/-- The lists of the containers; the container of the mapped list, the containers whose insertions and removals it listens to, its items;
the calls under way, in the order in which they changed lists; the assignment under way, and whether one has raised. -/
structure St (C α β : Type) where
  conts : C → List α
  cur : Option C
  insL : Option C
  remL : Option C
  items : List β
  calls : List (Pending C α)
  rep : Rep C
  raised : Bool

inductive Act (C α : Type) where
  /-- the first step of `insert_item(i, v)` of a container -/
  | insert (c : C) (i : ℤ) (v : α)
  /-- the first step of `remove_item(i)` of a container -/
  | remove (c : C) (i : ℤ)
  /-- the second step of a call under way -/
  | tell (j : ℕ)
  /-- the third step of a call under way -/
  | handle (j : ℕ)
  /-- an assignment of the container begins -/
  | replace (n : Option C)
  /-- the next step of the assignment -/
  | go

/-- The container whose notes of this kind reach the mapped list. -/
def St.listener (s : St C α β) : Note α → Option C
  | .inserted _ _ => s.insL
  | .removed _ => s.remL

/-- Lines 726-758; the loop of line 757 looks at the list of the container as it is. -/
def go (f : α → β) (s : St C α β) : St C α β :=
  match s.rep with
  | .idle => s
  | .closeRemoved n => { s with remL := none, rep := .copy n }
  | .copy n => { s with rep := .remove (match s.cur with | some c => (s.conts c).length | none => 0) n }
  | .remove 0 n => { s with rep := .assign n }
  | .remove (k + 1) n =>
    if s.items = [] then { s with rep := .idle, raised := true } else { s with items := s.items.dropLast, rep := .remove k n }
  | .assign n => { s with cur := n, rep := match n with | some c => .listenInserted c | none => .idle }
  | .listenInserted n => { s with insL := some n, rep := .listenRemoved n }
  | .listenRemoved n => { s with remL := some n, rep := .add 0 n }
  | .add k n =>
    match (s.conts n)[k]? with
    | some v => { s with items := Py.insert s.items k (f v), rep := .add (k + 1) n }
    | none => { s with rep := .idle }

def step (f : α → β) (s : St C α β) : Act C α → St C α β
  | .insert c i v =>
    { s with conts := Function.update s.conts c (Py.insert (s.conts c) i v), calls := s.calls ++ [⟨c, .inserted v i, false⟩] }
  | .remove c i =>
    match Py.del? (s.conts c) i with
    | some l => { s with conts := Function.update s.conts c l, calls := s.calls ++ [⟨c, .removed i, false⟩] }
    | none => s
  | .tell j =>
    match s.calls[j]? with
    | some x =>
      if x.called then s
      else if s.listener x.note = some x.cont then { s with calls := s.calls.set j { x with called := true } }
      else { s with calls := s.calls.eraseIdx j }
    | none => s
  | .handle j =>
    match s.calls[j]? with
    | some x => if x.called then { s with items := x.note.apply f s.items, calls := s.calls.eraseIdx j } else s
    | none => s
  | .replace n =>
    match s.rep with
    | .idle =>
      match s.cur with
      | some _ => { s with insL := none, rep := .closeRemoved n }
      | none => { s with rep := .assign n }
    | _ => s
  | .go => go f s

def run (f : α → β) (s : St C α β) (as : List (Act C α)) : St C α β := as.foldl (step f) s

/-- A new mapped list without container. -/
def start (conts : C → List α) : St C α β := ⟨conts, none, none, none, [], [], .idle, false⟩

/-! ### Specification -/

/-- The mapped list has the values of the items of its container, in order. -/
def Mirrors (f : α → β) (s : St C α β) : Prop := s.items = match s.cur with
  | some c => (s.conts c).map f
  | none => []

/-- Whether an assignment under way needs the container to be left alone: the new one, and the old one until its list has been copied. -/
def St.Involved (s : St C α β) (c : C) : Prop :=
  match s.rep with
  | .idle => False
  | .closeRemoved n => s.cur = some c ∨ n = some c
  | .copy n => s.cur = some c ∨ n = some c
  | .remove _ n => n = some c
  | .assign n => n = some c
  | .listenInserted n => n = c
  | .listenRemoved n => n = c
  | .add _ n => n = c

/-- Calls of one container tell in the order in which they changed it; the container is assigned while no call of the old and of the new
container is under way, and none begins until they are not needed any more. -/
def Fits (s : St C α β) : Act C α → Prop
  | .insert c _ _ => ¬ s.Involved c
  | .remove c _ => ¬ s.Involved c
  | .tell _ => True
  | .handle j => ∀ x, s.calls[j]? = some x → ∀ y ∈ s.calls.take j, y.cont ≠ x.cont
  | .replace n => ∀ x ∈ s.calls, s.cur ≠ some x.cont ∧ n ≠ some x.cont
  | .go => True

def Orderly (f : α → β) : St C α β → List (Act C α) → Prop
  | _, [] => True
  | s, a :: as => Fits s a ∧ Orderly f (step f s a) as

/-! ### Proof -/

/-- The notes of calls of a container under way. -/
def notes (c : C) (l : List (Pending C α)) : List (Note α) := (l.filter fun x => x.cont = c).map (·.note)

/-- What holds in each phase. -/
def Phase (f : α → β) (s : St C α β) : Prop :=
  match s.rep with
  | .idle => s.insL = s.cur ∧ s.remL = s.cur ∧ match s.cur with
    | some c => (notes c s.calls).foldl (fun l n => n.apply f l) s.items = (s.conts c).map f
    | none => s.items = []
  | .closeRemoved _ => s.insL = none ∧ s.remL = s.cur ∧ ∃ c, s.cur = some c ∧ s.items = (s.conts c).map f
  | .copy _ => s.insL = none ∧ s.remL = none ∧ ∃ c, s.cur = some c ∧ s.items = (s.conts c).map f
  | .remove k _ => s.insL = none ∧ s.remL = none ∧ s.items.length = k
  | .assign _ => s.insL = none ∧ s.remL = none ∧ s.items = []
  | .listenInserted n => s.insL = none ∧ s.remL = none ∧ s.cur = some n ∧ s.items = []
  | .listenRemoved n => s.insL = some n ∧ s.remL = none ∧ s.cur = some n ∧ s.items = []
  | .add k n => s.insL = some n ∧ s.remL = some n ∧ s.cur = some n ∧ k ≤ (s.conts n).length ∧ s.items = ((s.conts n).take k).map f

structure Inv (f : α → β) (s : St C α β) : Prop where
  phase : Phase f s
  called : ∀ x ∈ s.calls, x.called = true → s.cur = some x.cont ∧ s.rep = .idle
  quiet : ∀ x ∈ s.calls, ¬ s.Involved x.cont
  fine : s.raised = false

theorem notes_append (c : C) (l m : List (Pending C α)) : notes c (l ++ m) = notes c l ++ notes c m := by simp [notes]

variable {f : α → β} {s : St C α β}

/-- The list of a container that is not needed, and the calls of it, change. -/
theorem change_inv (h : Inv f s) (c : C) (l : List α) (n : Note α) (hc : ¬ s.Involved c)
    (hn : n.apply f ((s.conts c).map f) = l.map f) :
    Inv f { s with conts := Function.update s.conts c l, calls := s.calls ++ [⟨c, n, false⟩] } := by
  refine ⟨?_, fun x hx => ?_, fun x hx => ?_, h.fine⟩
  · have hp := h.phase
    unfold Phase at hp ⊢
    unfold St.Involved at hc
    cases hr : s.rep with
    | idle =>
      rw [hr] at hp
      simp only at hp ⊢
      refine ⟨hp.1, hp.2.1, ?_⟩
      have h3 := hp.2.2
      cases hcur : s.cur with
      | none =>
        rw [hcur] at h3
        exact h3
      | some d =>
        rw [hcur] at h3
        simp only at h3 ⊢
        rw [notes_append, List.foldl_append, h3]
        by_cases hd : d = c
        · subst hd
          simp [notes, hn]
        · have : notes d [(⟨c, n, false⟩ : Pending C α)] = [] := by simp [notes, Ne.symm hd]
          rw [this, Function.update_of_ne hd]
          rfl
    | closeRemoved m =>
      rw [hr] at hp hc
      simp only [not_or] at hp hc ⊢
      obtain ⟨h1, h2, d, h3, h4⟩ := hp
      refine ⟨h1, h2, d, h3, ?_⟩
      rw [Function.update_of_ne (fun he : d = c => hc.1 (he ▸ h3))]
      exact h4
    | copy m =>
      rw [hr] at hp hc
      simp only [not_or] at hp hc ⊢
      obtain ⟨h1, h2, d, h3, h4⟩ := hp
      refine ⟨h1, h2, d, h3, ?_⟩
      rw [Function.update_of_ne (fun he : d = c => hc.1 (he ▸ h3))]
      exact h4
    | add k m =>
      rw [hr] at hp hc
      simp only at hp hc ⊢
      rw [Function.update_of_ne hc]
      exact hp
    | _ =>
      rw [hr] at hp
      exact hp
  · intro hx'
    rcases List.mem_append.1 hx with hx | hx
    · exact h.called x hx hx'
    · rw [List.mem_singleton] at hx
      subst hx
      cases hx'
  · rcases List.mem_append.1 hx with hx | hx
    · exact h.quiet x hx
    · rw [List.mem_singleton] at hx
      subst hx
      exact hc

theorem split_at {l : List (Pending C α)} {j : ℕ} {x : Pending C α} (hx : l[j]? = some x) :
    ∃ a b, l = a ++ x :: b ∧ a.length = j ∧ l.take j = a := by
  obtain ⟨hj, rfl⟩ := List.getElem?_eq_some_iff.1 hx
  exact ⟨l.take j, l.drop (j + 1), by simp, by simp; omega, rfl⟩

theorem notes_erase {l : List (Pending C α)} {j : ℕ} {x : Pending C α} (hx : l[j]? = some x) (c : C) (hc : x.cont ≠ c) :
    notes c (l.eraseIdx j) = notes c l := by
  obtain ⟨a, b, rfl, rfl, _⟩ := split_at hx
  rw [List.eraseIdx_append_of_length_le (Nat.le_refl _)]
  simp [notes, hc]

theorem notes_first {l : List (Pending C α)} {j : ℕ} {x : Pending C α} (hx : l[j]? = some x) (hf : ∀ y ∈ l.take j, y.cont ≠ x.cont) :
    notes x.cont l = x.note :: notes x.cont (l.eraseIdx j) := by
  obtain ⟨a, b, rfl, rfl, h⟩ := split_at hx
  rw [h] at hf
  have h3 : notes x.cont a = [] := by
    simp only [notes, List.map_eq_nil_iff, List.filter_eq_nil_iff, decide_eq_true_eq]
    exact hf
  rw [List.eraseIdx_append_of_length_le (Nat.le_refl _), notes_append, notes_append, h3]
  simp [notes]

theorem notes_set {l : List (Pending C α)} {j : ℕ} {x : Pending C α} (hx : l[j]? = some x) (c : C) :
    notes c (l.set j { x with called := true }) = notes c l := by
  obtain ⟨a, b, rfl, rfl, _⟩ := split_at hx
  rw [List.set_append_right _ _ (Nat.le_refl _), notes_append, notes_append]
  by_cases hc : x.cont = c <;> simp [notes, hc]

/-- The calls change, but not those of the container. -/
theorem phase_calls (h : Phase f s) (l : List (Pending C α)) (hl : ∀ c, s.rep = .idle → s.cur = some c → notes c l = notes c s.calls) :
    Phase f { s with calls := l } := by
  unfold Phase at h ⊢
  cases hr : s.rep with
  | idle =>
    rw [hr] at h
    simp only at h ⊢
    refine ⟨h.1, h.2.1, ?_⟩
    have h3 := h.2.2
    cases hcur : s.cur with
    | none =>
      rw [hcur] at h3
      exact h3
    | some d =>
      rw [hcur] at h3
      simp only at h3 ⊢
      rw [hl d hr hcur]
      exact h3
  | _ =>
    rw [hr] at h
    exact h

theorem go_inv (h : Inv f s) : Inv f (go f s) := by
  have hp := h.phase
  have hc := h.called
  have hq := h.quiet
  unfold go
  unfold Phase at hp
  unfold St.Involved at hq
  cases hr : s.rep with
  | idle => exact h
  | closeRemoved n =>
    rw [hr] at hp hq
    simp only at hp hq ⊢
    refine ⟨⟨hp.1, rfl, hp.2.2⟩, fun x hx hx' => ?_, hq, h.fine⟩
    exact absurd ((hc x hx hx').2) (by simp [hr])
  | copy n =>
    rw [hr] at hp hq
    simp only at hp hq ⊢
    obtain ⟨h1, h2, c, h3, h4⟩ := hp
    refine ⟨⟨h1, h2, ?_⟩, fun x hx hx' => absurd ((hc x hx hx').2) (by simp [hr]), fun x hx => ?_, h.fine⟩
    · simp [h3, h4]
    · exact fun he => hq x hx (.inr he)
  | remove k n =>
    rw [hr] at hp hq
    cases k with
    | zero =>
      simp only at hp hq ⊢
      exact ⟨⟨hp.1, hp.2.1, List.length_eq_zero_iff.1 hp.2.2⟩, fun x hx hx' => absurd ((hc x hx hx').2) (by simp [hr]), hq, h.fine⟩
    | succ k =>
      simp only at hp hq ⊢
      have h0 : s.items ≠ [] := by
        intro h0
        rw [h0] at hp
        simp at hp
      rw [if_neg h0]
      exact ⟨⟨hp.1, hp.2.1, by simp [hp.2.2]⟩, fun x hx hx' => absurd ((hc x hx hx').2) (by simp [hr]), hq, h.fine⟩
  | assign n =>
    rw [hr] at hp hq
    simp only at hp hq ⊢
    have hcall : ∀ x ∈ s.calls, x.called = true → False := fun x hx hx' => absurd ((hc x hx hx').2) (by simp [hr])
    cases n with
    | none => exact ⟨⟨hp.1, hp.2.1, hp.2.2⟩, fun x hx hx' => (hcall x hx hx').elim, fun x hx => id, h.fine⟩
    | some c =>
      refine ⟨⟨hp.1, hp.2.1, rfl, hp.2.2⟩, fun x hx hx' => (hcall x hx hx').elim, fun x hx he => ?_, h.fine⟩
      exact hq x hx (congrArg some he)
  | listenInserted n =>
    rw [hr] at hp hq
    simp only at hp hq ⊢
    exact ⟨⟨rfl, hp.2.1, hp.2.2.1, hp.2.2.2⟩, fun x hx hx' => absurd ((hc x hx hx').2) (by simp [hr]), hq, h.fine⟩
  | listenRemoved n =>
    rw [hr] at hp hq
    simp only at hp hq ⊢
    refine ⟨⟨hp.1, rfl, hp.2.2.1, Nat.zero_le _, ?_⟩, fun x hx hx' => absurd ((hc x hx hx').2) (by simp [hr]), hq, h.fine⟩
    simpa using hp.2.2.2
  | add k n =>
    rw [hr] at hp hq
    simp only at hp hq ⊢
    obtain ⟨h1, h2, h3, h4, h5⟩ := hp
    cases hv : (s.conts n)[k]? with
    | some v =>
      obtain ⟨hk, hv⟩ := List.getElem?_eq_some_iff.1 hv
      refine ⟨⟨h1, h2, h3, hk, ?_⟩, fun x hx hx' => absurd ((hc x hx hx').2) (by simp [hr]), hq, h.fine⟩
      have hl : s.items.length = k := by rw [h5]; simp; omega
      show Py.insert s.items (k : ℕ) (f v) = ((s.conts n).take (k + 1)).map f
      have := Py.insert_length s.items (f v)
      rw [hl] at this
      rw [this, h5, List.take_succ_eq_append_getElem hk, List.map_append, ← hv]
      rfl
    | none =>
      have hk : k = (s.conts n).length := Nat.le_antisymm h4 (List.getElem?_eq_none_iff.1 hv)
      refine ⟨⟨h1.trans h3.symm, h2.trans h3.symm, ?_⟩, fun x hx hx' => ⟨(hc x hx hx').1, rfl⟩, fun x hx => id, h.fine⟩
      have : notes n s.calls = [] := by
        simp only [notes, List.map_eq_nil_iff, List.filter_eq_nil_iff, decide_eq_true_eq]
        exact fun x hx he => hq x hx he.symm
      rw [h3]
      simp only [this, List.foldl_nil]
      rw [h5, hk, List.take_length]

theorem step_inv (h : Inv f s) (a : Act C α) (ha : Fits s a) : Inv f (step f s a) := by
  cases a with
  | insert c i v => exact change_inv h c _ _ ha (map_insert f _ i v).symm
  | remove c i =>
    simp only [step]
    cases hd : Py.del? (s.conts c) i with
    | none => exact h
    | some l =>
      refine change_inv h c l _ ha ?_
      rw [Note.apply, ← map_del, hd]
      rfl
  | tell j =>
    simp only [step]
    cases hx : s.calls[j]? with
    | none => exact h
    | some x =>
      have hm : x ∈ s.calls := List.mem_of_getElem? hx
      simp only
      split
      · exact h
      split
      · rename_i hl
        have hcur : s.cur = some x.cont ∧ s.rep = .idle := by
          have hp := h.phase
          have hq := h.quiet x hm
          unfold Phase at hp
          unfold St.Involved at hq
          have hL : s.insL = some x.cont ∨ s.remL = some x.cont := by
            cases hn : x.note <;> rw [hn] at hl
            · exact .inl hl
            · exact .inr hl
          cases hr : s.rep with
          | idle =>
            rw [hr] at hp
            simp only at hp
            refine ⟨?_, rfl⟩
            rcases hL with hL | hL
            · exact hp.1 ▸ hL
            · exact hp.2.1 ▸ hL
          | closeRemoved n =>
            rw [hr] at hp hq
            simp only [not_or] at hp hq
            rcases hL with hL | hL
            · rw [hp.1] at hL; cases hL
            · exact absurd (hp.2.1 ▸ hL) hq.1
          | copy n | remove k n | assign n | listenInserted n =>
            rw [hr] at hp
            simp only at hp
            rcases hL with hL | hL
            · rw [hp.1] at hL; cases hL
            · rw [hp.2.1] at hL; cases hL
          | listenRemoved n | add k n =>
            rw [hr] at hp hq
            simp only at hp hq
            rcases hL with hL | hL
            · rw [hp.1] at hL
              exact absurd (Option.some.inj hL) hq
            · rw [hp.2.1] at hL
              first
                | (cases hL; done)
                | exact absurd (Option.some.inj hL) hq
        refine ⟨phase_calls h.phase _ fun c _ _ => notes_set hx c, fun y hy hy' => ?_, fun y hy => ?_, h.fine⟩
        · rcases List.mem_or_eq_of_mem_set hy with hy | rfl
          · exact h.called y hy hy'
          · exact hcur
        · rcases List.mem_or_eq_of_mem_set hy with hy | rfl
          · exact h.quiet y hy
          · exact h.quiet x hm
      · rename_i hl
        refine ⟨phase_calls h.phase _ fun c hr hc => notes_erase hx c fun he => hl ?_,
          fun y hy => h.called y (List.mem_of_mem_eraseIdx hy), fun y hy => h.quiet y (List.mem_of_mem_eraseIdx hy), h.fine⟩
        have hp := h.phase
        unfold Phase at hp
        rw [hr] at hp
        simp only at hp
        cases hn : x.note <;> simp only [St.listener]
        · rw [hp.1, hc, he]
        · rw [hp.2.1, hc, he]
  | handle j =>
    simp only [step]
    cases hx : s.calls[j]? with
    | none => exact h
    | some x =>
      have hm : x ∈ s.calls := List.mem_of_getElem? hx
      simp only
      split
      · rename_i hcl
        obtain ⟨h1, h2⟩ := h.called x hm hcl
        refine ⟨?_, fun y hy => h.called y (List.mem_of_mem_eraseIdx hy), fun y hy => h.quiet y (List.mem_of_mem_eraseIdx hy), h.fine⟩
        have hp := h.phase
        unfold Phase at hp ⊢
        rw [h2] at hp
        simp only at hp ⊢
        rw [h2]
        simp only
        rw [h1] at hp ⊢
        simp only at hp ⊢
        rw [notes_first hx (ha x hx)] at hp
        exact hp
      · exact h
  | replace n =>
    simp only [step]
    cases hr : s.rep with
    | idle =>
      have hp := h.phase
      unfold Phase at hp
      rw [hr] at hp
      simp only at hp ⊢
      have hcall : ∀ x ∈ s.calls, x.called = true → False := fun x hx hx' => (ha x hx).1 (h.called x hx hx').1
      cases hcur : s.cur with
      | none =>
        rw [hcur] at hp
        refine ⟨⟨hp.1, hp.2.1, hp.2.2⟩, fun x hx hx' => (hcall x hx hx').elim, fun x hx => (ha x hx).2, h.fine⟩
      | some c =>
        rw [hcur] at hp
        simp only at hp
        refine ⟨⟨rfl, hp.2.1, c, rfl, ?_⟩, fun x hx hx' => (hcall x hx hx').elim, fun x hx => ?_, h.fine⟩
        · have : notes c s.calls = [] := by
            simp only [notes, List.map_eq_nil_iff, List.filter_eq_nil_iff, decide_eq_true_eq]
            exact fun x hx he => (ha x hx).1 (he ▸ hcur)
          have h3 := hp.2.2
          rw [this] at h3
          exact h3
        · rintro (he | he)
          · exact (ha x hx).1 (hcur.trans he)
          · exact (ha x hx).2 he
    | _ => exact h
  | go => exact go_inv h

/-- C195 (partial: the container is assigned while no call of the old or the new container is under way, and calls of one container tell in
the order in which they changed it): no assignment raises, and whenever no assignment and no call of the container is under way, the mapped
list has the values of its items; calls of other containers do no harm. -/
theorem C195_containers_partial (f : α → β) (conts : C → List α) (as : List (Act C α)) (ho : Orderly f (start conts : St C α β) as) :
    (run f (start conts : St C α β) as).raised = false ∧
      ((run f (start conts : St C α β) as).rep = .idle → (∀ x ∈ (run f (start conts : St C α β) as).calls,
        (run f (start conts : St C α β) as).cur ≠ some x.cont) → Mirrors f (run f (start conts : St C α β) as)) := by
  have key : ∀ (as : List (Act C α)) (s : St C α β), Inv f s → Orderly f s as → Inv f (run f s as) := by
    intro as
    induction as with
    | nil => exact fun s h _ => h
    | cons a as ih => exact fun s h ho => ih _ (step_inv h a ho.1) ho.2
  have h : Inv f (run f (start conts : St C α β) as) := key as _ ⟨⟨rfl, rfl, rfl⟩, by simp [start], by simp [start], rfl⟩ ho
  refine ⟨h.fine, fun hr hq => ?_⟩
  have hp := h.phase
  unfold Phase at hp
  rw [hr] at hp
  unfold Mirrors
  have h3 := hp.2.2
  cases hcur : (run f (start conts : St C α β) as).cur with
  | none =>
    rw [hcur] at h3
    exact h3
  | some c =>
    rw [hcur] at h3
    have : notes c (run f (start conts : St C α β) as).calls = [] := by
      simp only [notes, List.map_eq_nil_iff, List.filter_eq_nil_iff, decide_eq_true_eq]
      exact fun x hx he => hq x hx (he ▸ hcur)
    simp only [this] at h3
    exact h3

/-! ### Cases -/

/-- What is looked at: the list of the container, the items, whether an assignment raised, whether nothing is under way. -/
def sight (as : List (Act (Fin 2) ℕ)) : Option (List ℕ) × List ℕ × Bool × Bool :=
  let s := run (· * 10) (start (fun c => if c = 0 then [1, 2] else [7]) : St (Fin 2) ℕ ℕ) as
  (s.cur.map s.conts, s.items, s.raised, s.calls.isEmpty && match s.rep with | .idle => true | _ => false)

/-- The first container is assigned. -/
def assign0 : List (Act (Fin 2) ℕ) := [.replace (some 0), .go, .go, .go, .go, .go, .go]

/-- The second container is assigned in its place; it begins before `as`, then goes on for `n` steps. -/
def assign1 (n : ℕ) : List (Act (Fin 2) ℕ) := .replace (some 1) :: List.replicate n .go

instance (s : St (Fin 2) ℕ ℕ) (c : Fin 2) : Decidable (s.Involved c) := by
  unfold St.Involved
  cases s.rep <;> infer_instance

instance (s : St (Fin 2) ℕ ℕ) (a : Act (Fin 2) ℕ) : Decidable (Fits s a) := by
  cases a with
  | handle j =>
    cases h : s.calls[j]? with
    | none => exact .isTrue fun x hx => by rw [h] at hx; cases hx
    | some x =>
      exact decidable_of_iff (∀ y ∈ s.calls.take j, y.cont ≠ x.cont)
        ⟨fun g y hy => by rw [h] at hy; cases hy; exact g, fun g => g x h⟩
  | _ => unfold Fits; infer_instance

/-- An insertion into the old container between assignments, one into it while the new one is being filled. -/
example : sight (assign0 ++ [.insert 0 1 5, .tell 0, .handle 0] ++ assign1 6 ++ [.insert 0 0 9, .tell 0, .go, .go, .go, .go, .go]) =
    (some [7], [70], false, true) := by decide +kernel

/-- C195: a removal from the old container whose listener has been read is handled after the assignment: the item of the new container
goes, the removed one stays. -/
theorem C195_counterexample_late :
    sight (assign0 ++ [.remove 0 0, .tell 0] ++ assign1 9 ++ [.handle 0]) = (some [7], [10], false, true) := by decide +kernel

/-- C195: an insertion into the old container that has not been told of: the assignment raises, the mapped list is left empty without
listeners, its container is still the old one. -/
theorem C195_counterexample_raises :
    sight (assign0 ++ [.insert 0 0 5] ++ assign1 6 ++ [.tell 0]) = (some [5, 1, 2], [], true, true) := by decide +kernel

/-- C195: an insertion into the new container while it is copied: the item is there twice. -/
theorem C195_counterexample_twice :
    sight (assign0 ++ assign1 8 ++ [.insert 1 1 8, .tell 0, .handle 0, .go, .go, .go]) = (some [7, 8], [70, 80, 80], false, true) := by
  decide +kernel

end Verif.ListModel.MappedContainers
