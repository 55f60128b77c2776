import Verif.ListModel.FilteredProps
import Mathlib.Logic.Function.Basic

set_option linter.unusedSectionVars false

/-!
C201: one thread assigns the container of a `FilteredListModel` (`nion/utils/ListModel.py:551-597`, commented as thread safe) while others
change the containers, which are `ListModel`s (lines 35-42) with distinct items. C195 has mapped list models.

A call of `insert_item` or `remove_item` of a container has three steps: the list is changed; `Event.fire` reads `call` of the listener, if
there is one; it is called, which is one step, under the lock (lines 605-640). An exception in it is printed, and what was done before it stays.
The assignment has a step for each listener that is closed or made, for copying the list of the old container, for each item that is removed
or inserted, and for setting `__container`; it does not hold the lock in between. Only one assignment is under way at a time. The steps are the
same whatever the list model does when it is told (`Receiver`). Filter, sort key and direction stay; change blocks, selections and items that
change are left out.
-/

namespace Verif.ListModel.Containers

variable {C α W : Type} [DecidableEq C]

/-- What the listeners do, and how many items the list model thinks its container has; whether they raise. -/
structure Receiver (α W : Type) where
  ins : α → ℤ → W → W × Bool
  rem : α → ℤ → W → W × Bool
  size : W → ℕ

/-- What a container tells. -/
inductive Note (α : Type) where
  | inserted (v : α) (i : ℤ)
  | removed (v : α) (i : ℤ)
  deriving DecidableEq

/-- A call that has changed the list of a container: whether `listener.call` was read. -/
structure Pending (C α : Type) where
  cont : C
  note : Note α
  called : Bool

/-- Where the thread is that assigns the container `n`. -/
inductive Rep (C α : Type) where
  | idle
  /-- the listener of insertions is closed (559-560) -/
  | closeRemoved (n : Option C)
  /-- before the list of the container is copied (572) -/
  | copy (n : Option C)
  /-- in the loop of line 572, with items to go -/
  | remove (todo : List α) (n : Option C)
  /-- before `__container` is set (574) -/
  | assign (n : Option C)
  /-- before the listener of insertions is made (578) -/
  | listenInserted (n : C)
  /-- before the listener of removals is made (579) -/
  | listenRemoved (n : C)
  /-- in the loop of line 596, at index `k` -/
  | add (k : ℕ) (n : C)

/-- The lists of the containers; the container of the list model, the containers whose insertions and removals it listens to, what it has;
the calls under way, in the order in which they changed lists; the assignment under way, and whether one has raised. -/
structure St (C α W : Type) where
  conts : C → List α
  cur : Option C
  insL : Option C
  remL : Option C
  w : W
  calls : List (Pending C α)
  rep : Rep C α
  raised : Bool

inductive Act (C α : Type) where
  /-- the first step of `insert_item(i, v)` of a container -/
  | insert (c : C) (i : ℤ) (v : α)
  /-- the first step of `remove_item(i)` of a container -/
  | remove (c : C) (i : ℤ)
  /-- the second step of a call under way -/
  | tell (j : ℕ)
  /-- the third step of a call under way -/
  | handle (j : ℕ)
  /-- an assignment of the container begins -/
  | replace (n : Option C)
  /-- the next step of the assignment -/
  | go

/-- The container whose notes of this kind reach the list model. -/
def St.listener (s : St C α W) : Note α → Option C
  | .inserted _ _ => s.insL
  | .removed _ _ => s.remL

def Note.apply (R : Receiver α W) : Note α → W → W
  | .inserted v i, w => (R.ins v i w).1
  | .removed v i, w => (R.rem v i w).1

/-- Lines 557-597; the loop of line 596 looks at the list of the container as it is. -/
def go (R : Receiver α W) (s : St C α W) : St C α W :=
  match s.rep with
  | .idle => s
  | .closeRemoved n => { s with remL := none, rep := .copy n }
  | .copy n => { s with rep := .remove (match s.cur with | some c => (s.conts c).reverse | none => []) n }
  | .remove [] n => { s with rep := .assign n }
  | .remove (x :: todo) n =>
    if (R.rem x ((R.size s.w : ℤ) - 1) s.w).2 then { s with w := (R.rem x ((R.size s.w : ℤ) - 1) s.w).1, rep := .idle, raised := true }
    else { s with w := (R.rem x ((R.size s.w : ℤ) - 1) s.w).1, rep := .remove todo n }
  | .assign n => { s with cur := n, rep := match n with | some c => .listenInserted c | none => .idle }
  | .listenInserted n => { s with insL := some n, rep := .listenRemoved n }
  | .listenRemoved n => { s with remL := some n, rep := .add 0 n }
  | .add k n =>
    match (s.conts n)[k]? with
    | some v =>
      if (R.ins v k s.w).2 then { s with w := (R.ins v k s.w).1, rep := .idle, raised := true }
      else { s with w := (R.ins v k s.w).1, rep := .add (k + 1) n }
    | none => { s with rep := .idle }

def step (R : Receiver α W) (s : St C α W) : Act C α → St C α W
  | .insert c i v =>
    { s with conts := Function.update s.conts c (Py.insert (s.conts c) i v), calls := s.calls ++ [⟨c, .inserted v i, false⟩] }
  | .remove c i =>
    match Py.get? (s.conts c) i, Py.del? (s.conts c) i with
    | some v, some l => { s with conts := Function.update s.conts c l, calls := s.calls ++ [⟨c, .removed v i, false⟩] }
    | _, _ => s
  | .tell j =>
    match s.calls[j]? with
    | some x =>
      if x.called then s
      else if s.listener x.note = some x.cont then { s with calls := s.calls.set j { x with called := true } }
      else { s with calls := s.calls.eraseIdx j }
    | none => s
  | .handle j =>
    match s.calls[j]? with
    | some x => if x.called then { s with w := x.note.apply R s.w, calls := s.calls.eraseIdx j } else s
    | none => s
  | .replace n =>
    match s.rep with
    | .idle =>
      match s.cur with
      | some _ => { s with insL := none, rep := .closeRemoved n }
      | none => { s with rep := .assign n }
    | _ => s
  | .go => go R s

def run (R : Receiver α W) (s : St C α W) (as : List (Act C α)) : St C α W := as.foldl (step R) s

/-- A new list model without container. -/
def start (conts : C → List α) (w : W) : St C α W := ⟨conts, none, none, none, w, [], .idle, false⟩

/-! ### Specification -/

/-- Whether an assignment under way needs the container to be left alone: the new one, and the old one until its list has been copied. -/
def St.Involved (s : St C α W) (c : C) : Prop :=
  match s.rep with
  | .idle => False
  | .closeRemoved n => s.cur = some c ∨ n = some c
  | .copy n => s.cur = some c ∨ n = some c
  | .remove _ n => n = some c
  | .assign n => n = some c
  | .listenInserted n => n = c
  | .listenRemoved n => n = c
  | .add _ n => n = c

/-- Items are put into a container that does not have them; calls of one container tell in the order in which they changed it; the
container is assigned while no call of the old and of the new container is under way, and none begins until they are not needed any more. -/
def Fits (s : St C α W) : Act C α → Prop
  | .insert c _ v => ¬ s.Involved c ∧ v ∉ s.conts c
  | .remove c _ => ¬ s.Involved c
  | .tell _ => True
  | .handle j => ∀ x, s.calls[j]? = some x → ∀ y ∈ s.calls.take j, y.cont ≠ x.cont
  | .replace n => ∀ x ∈ s.calls, s.cur ≠ some x.cont ∧ n ≠ some x.cont
  | .go => True

def Orderly (R : Receiver α W) : St C α W → List (Act C α) → Prop
  | _, [] => True
  | s, a :: as => Fits s a ∧ Orderly R (step R s a) as

/-- The list model does right what it is told one after the other: `Shows l w` says that it has what is to be had for the list `l`. -/
structure Lawful (R : Receiver α W) (Shows : List α → W → Prop) : Prop where
  size : ∀ l w, Shows l w → R.size w = l.length
  ins : ∀ l w v i, Shows l w → l.Nodup → v ∉ l → (R.ins v i w).2 = false ∧ Shows (Py.insert l i v) (R.ins v i w).1
  rem : ∀ l w v i l', Shows l w → l.Nodup → Py.get? l i = some v → Py.del? l i = some l' →
    (R.rem v i w).2 = false ∧ Shows l' (R.rem v i w).1

/-! ### Proof -/

/-- The notes of calls of a container under way. -/
def notes (c : C) (l : List (Pending C α)) : List (Note α) := (l.filter fun x => x.cont = c).map (·.note)

/-- The notes lead from one list to another. -/
def Chain : List α → List (Note α) → List α → Prop
  | l, [], m => l = m
  | l, .inserted v i :: ns, m => v ∉ l ∧ Chain (Py.insert l i v) ns m
  | l, .removed v i :: ns, m => ∃ l', Py.get? l i = some v ∧ Py.del? l i = some l' ∧ Chain l' ns m

theorem Chain.append {l m k : List α} {ns ms : List (Note α)} (h : Chain l ns m) (h' : Chain m ms k) : Chain l (ns ++ ms) k := by
  induction ns generalizing l with
  | nil => cases h; exact h'
  | cons n ns ih =>
    cases n with
    | inserted v i => exact ⟨h.1, ih h.2⟩
    | removed v i => obtain ⟨l', h1, h2, h3⟩ := h; exact ⟨l', h1, h2, ih h3⟩

theorem del_nodup {l l' : List α} {i : ℤ} (h : l.Nodup) (hd : Py.del? l i = some l') : l'.Nodup := by
  unfold Py.del? at hd
  cases hi : Py.index? l.length i with
  | none => rw [hi] at hd; cases hd
  | some k => rw [hi] at hd; cases hd; exact h.sublist (List.eraseIdx_sublist ..)

/-- What holds in each phase. -/
def Phase (Shows : List α → W → Prop) (s : St C α W) : Prop :=
  match s.rep with
  | .idle => s.insL = s.cur ∧ s.remL = s.cur ∧ match s.cur with
    | some c => ∃ l, l.Nodup ∧ Shows l s.w ∧ Chain l (notes c s.calls) (s.conts c)
    | none => Shows [] s.w
  | .closeRemoved _ => s.insL = none ∧ s.remL = s.cur ∧ ∃ c, s.cur = some c ∧ Shows (s.conts c) s.w
  | .copy _ => s.insL = none ∧ s.remL = none ∧ ∃ c, s.cur = some c ∧ Shows (s.conts c) s.w
  | .remove todo _ => s.insL = none ∧ s.remL = none ∧ todo.Nodup ∧ Shows todo.reverse s.w
  | .assign _ => s.insL = none ∧ s.remL = none ∧ Shows [] s.w
  | .listenInserted n => s.insL = none ∧ s.remL = none ∧ s.cur = some n ∧ Shows [] s.w
  | .listenRemoved n => s.insL = some n ∧ s.remL = none ∧ s.cur = some n ∧ Shows [] s.w
  | .add k n => s.insL = some n ∧ s.remL = some n ∧ s.cur = some n ∧ k ≤ (s.conts n).length ∧ Shows ((s.conts n).take k) s.w

structure Inv (Shows : List α → W → Prop) (s : St C α W) : Prop where
  phase : Phase Shows s
  called : ∀ x ∈ s.calls, x.called = true → s.cur = some x.cont ∧ s.rep = .idle
  quiet : ∀ x ∈ s.calls, ¬ s.Involved x.cont
  nodup : ∀ c, (s.conts c).Nodup
  fine : s.raised = false

theorem notes_append (c : C) (l m : List (Pending C α)) : notes c (l ++ m) = notes c l ++ notes c m := by simp [notes]

variable {R : Receiver α W} {Shows : List α → W → Prop} {s : St C α W}

/-- The list of a container that is not needed, and the calls of it, change. -/
theorem change_inv (h : Inv Shows s) (c : C) (l : List α) (n : Note α) (hc : ¬ s.Involved c) (hl : l.Nodup) (hn : Chain (s.conts c) [n] l) :
    Inv Shows { s with conts := Function.update s.conts c l, calls := s.calls ++ [⟨c, n, false⟩] } := by
  refine ⟨?_, fun x hx => ?_, fun x hx => ?_, fun d => ?_, h.fine⟩
  · have hp := h.phase
    unfold Phase at hp ⊢
    unfold St.Involved at hc
    cases hr : s.rep with
    | idle =>
      rw [hr] at hp
      simp only at hp ⊢
      refine ⟨hp.1, hp.2.1, ?_⟩
      have h3 := hp.2.2
      cases hcur : s.cur with
      | none =>
        rw [hcur] at h3
        exact h3
      | some d =>
        rw [hcur] at h3
        simp only at h3 ⊢
        obtain ⟨l0, h4, h5, h6⟩ := h3
        refine ⟨l0, h4, h5, ?_⟩
        rw [notes_append]
        by_cases hd : d = c
        · subst hd
          rw [Function.update_self]
          have : notes d [(⟨d, n, false⟩ : Pending C α)] = [n] := by simp [notes]
          rw [this]
          exact h6.append hn
        · have : notes d [(⟨c, n, false⟩ : Pending C α)] = [] := by simp [notes, Ne.symm hd]
          rw [this, Function.update_of_ne hd, List.append_nil]
          exact h6
    | closeRemoved m =>
      rw [hr] at hp hc
      simp only [not_or] at hp hc ⊢
      obtain ⟨h1, h2, d, h3, h4⟩ := hp
      refine ⟨h1, h2, d, h3, ?_⟩
      rw [Function.update_of_ne (fun he : d = c => hc.1 (he ▸ h3))]
      exact h4
    | copy m =>
      rw [hr] at hp hc
      simp only [not_or] at hp hc ⊢
      obtain ⟨h1, h2, d, h3, h4⟩ := hp
      refine ⟨h1, h2, d, h3, ?_⟩
      rw [Function.update_of_ne (fun he : d = c => hc.1 (he ▸ h3))]
      exact h4
    | add k m =>
      rw [hr] at hp hc
      simp only at hp hc ⊢
      rw [Function.update_of_ne hc]
      exact hp
    | _ =>
      rw [hr] at hp
      exact hp
  · intro hx'
    rcases List.mem_append.1 hx with hx | hx
    · exact h.called x hx hx'
    · rw [List.mem_singleton] at hx
      subst hx
      cases hx'
  · rcases List.mem_append.1 hx with hx | hx
    · exact h.quiet x hx
    · rw [List.mem_singleton] at hx
      subst hx
      exact hc
  · by_cases hd : d = c
    · subst hd; simpa using hl
    · simpa [hd] using h.nodup d

theorem split_at {l : List (Pending C α)} {j : ℕ} {x : Pending C α} (hx : l[j]? = some x) :
    ∃ a b, l = a ++ x :: b ∧ a.length = j ∧ l.take j = a := by
  obtain ⟨hj, rfl⟩ := List.getElem?_eq_some_iff.1 hx
  exact ⟨l.take j, l.drop (j + 1), by simp, by simp; omega, rfl⟩

theorem notes_erase {l : List (Pending C α)} {j : ℕ} {x : Pending C α} (hx : l[j]? = some x) (c : C) (hc : x.cont ≠ c) :
    notes c (l.eraseIdx j) = notes c l := by
  obtain ⟨a, b, rfl, rfl, _⟩ := split_at hx
  rw [List.eraseIdx_append_of_length_le (Nat.le_refl _)]
  simp [notes, hc]

theorem notes_first {l : List (Pending C α)} {j : ℕ} {x : Pending C α} (hx : l[j]? = some x) (hf : ∀ y ∈ l.take j, y.cont ≠ x.cont) :
    notes x.cont l = x.note :: notes x.cont (l.eraseIdx j) := by
  obtain ⟨a, b, rfl, rfl, h⟩ := split_at hx
  rw [h] at hf
  have h3 : notes x.cont a = [] := by
    simp only [notes, List.map_eq_nil_iff, List.filter_eq_nil_iff, decide_eq_true_eq]
    exact hf
  rw [List.eraseIdx_append_of_length_le (Nat.le_refl _), notes_append, notes_append, h3]
  simp [notes]

theorem notes_set {l : List (Pending C α)} {j : ℕ} {x : Pending C α} (hx : l[j]? = some x) (c : C) :
    notes c (l.set j { x with called := true }) = notes c l := by
  obtain ⟨a, b, rfl, rfl, _⟩ := split_at hx
  rw [List.set_append_right _ _ (Nat.le_refl _), notes_append, notes_append]
  by_cases hc : x.cont = c <;> simp [notes, hc]

/-- The calls change, but not those of the container. -/
theorem phase_calls (h : Phase Shows s) (l : List (Pending C α)) (hl : ∀ c, s.rep = .idle → s.cur = some c → notes c l = notes c s.calls) :
    Phase Shows { s with calls := l } := by
  unfold Phase at h ⊢
  cases hr : s.rep with
  | idle =>
    rw [hr] at h
    simp only at h ⊢
    refine ⟨h.1, h.2.1, ?_⟩
    have h3 := h.2.2
    cases hcur : s.cur with
    | none =>
      rw [hcur] at h3
      exact h3
    | some d =>
      rw [hcur] at h3
      simp only at h3 ⊢
      rw [hl d hr hcur]
      exact h3
  | _ =>
    rw [hr] at h
    exact h

theorem last_del {l : List α} {x : α} : Py.get? (l ++ [x]) (((l ++ [x]).length : ℤ) - 1) = some x ∧
    Py.del? (l ++ [x]) (((l ++ [x]).length : ℤ) - 1) = some l := by
  have e : (((l ++ [x]).length : ℤ) - 1) = ((l.length : ℕ) : ℤ) := by simp
  rw [e]
  have hlt : l.length < (l ++ [x]).length := by simp
  constructor
  · rw [Py.get?_nat hlt]; simp
  · rw [Py.del?_nat hlt]; simp [List.eraseIdx_append_of_length_le]

theorem go_inv (hR : Lawful R Shows) (h : Inv Shows s) : Inv Shows (go R s) := by
  have hp := h.phase
  have hc := h.called
  have hq := h.quiet
  unfold go
  unfold Phase at hp
  unfold St.Involved at hq
  cases hr : s.rep with
  | idle => exact h
  | closeRemoved n =>
    rw [hr] at hp hq
    simp only at hp hq ⊢
    refine ⟨⟨hp.1, rfl, hp.2.2⟩, fun x hx hx' => ?_, hq, h.nodup, h.fine⟩
    exact absurd ((hc x hx hx').2) (by simp [hr])
  | copy n =>
    rw [hr] at hp hq
    simp only at hp hq ⊢
    obtain ⟨h1, h2, c, h3, h4⟩ := hp
    refine ⟨⟨h1, h2, ?_⟩, fun x hx hx' => absurd ((hc x hx hx').2) (by simp [hr]), fun x hx => ?_, h.nodup, h.fine⟩
    · simp only [h3, List.reverse_reverse]
      exact ⟨List.nodup_reverse.2 (h.nodup c), h4⟩
    · exact fun he => hq x hx (.inr he)
  | remove k n =>
    rw [hr] at hp hq
    cases k with
    | nil =>
      simp only at hp hq ⊢
      exact ⟨⟨hp.1, hp.2.1, hp.2.2.2⟩, fun x hx hx' => absurd ((hc x hx hx').2) (by simp [hr]), hq, h.nodup, h.fine⟩
    | cons y k =>
      simp only at hp hq ⊢
      obtain ⟨h1, h2, h3, h4⟩ := hp
      rw [List.reverse_cons] at h4
      have hd := last_del (l := k.reverse) (x := y)
      rw [← hR.size _ _ h4] at hd
      have hn : (k.reverse ++ [y]).Nodup := by rw [← List.reverse_cons]; exact List.nodup_reverse.2 h3
      obtain ⟨h5, h6⟩ := hR.rem _ _ _ _ _ h4 hn hd.1 hd.2
      rw [if_neg (by rw [h5]; simp)]
      exact ⟨⟨h1, h2, (List.nodup_cons.1 h3).2, h6⟩, fun x hx hx' => absurd ((hc x hx hx').2) (by simp [hr]), hq, h.nodup, h.fine⟩
  | assign n =>
    rw [hr] at hp hq
    simp only at hp hq ⊢
    have hcall : ∀ x ∈ s.calls, x.called = true → False := fun x hx hx' => absurd ((hc x hx hx').2) (by simp [hr])
    cases n with
    | none => exact ⟨⟨hp.1, hp.2.1, hp.2.2⟩, fun x hx hx' => (hcall x hx hx').elim, fun x hx => id, h.nodup, h.fine⟩
    | some c =>
      refine ⟨⟨hp.1, hp.2.1, rfl, hp.2.2⟩, fun x hx hx' => (hcall x hx hx').elim, fun x hx he => ?_, h.nodup, h.fine⟩
      exact hq x hx (congrArg some he)
  | listenInserted n =>
    rw [hr] at hp hq
    simp only at hp hq ⊢
    exact ⟨⟨rfl, hp.2.1, hp.2.2.1, hp.2.2.2⟩, fun x hx hx' => absurd ((hc x hx hx').2) (by simp [hr]), hq, h.nodup, h.fine⟩
  | listenRemoved n =>
    rw [hr] at hp hq
    simp only at hp hq ⊢
    refine ⟨⟨hp.1, rfl, hp.2.2.1, Nat.zero_le _, ?_⟩, fun x hx hx' => absurd ((hc x hx hx').2) (by simp [hr]), hq, h.nodup, h.fine⟩
    simpa using hp.2.2.2
  | add k n =>
    rw [hr] at hp hq
    simp only at hp hq ⊢
    obtain ⟨h1, h2, h3, h4, h5⟩ := hp
    cases hv : (s.conts n)[k]? with
    | some v =>
      obtain ⟨hk, hv⟩ := List.getElem?_eq_some_iff.1 hv
      have hnd := h.nodup n
      have hsp : (s.conts n).take (k + 1) = (s.conts n).take k ++ [v] := by rw [List.take_succ_eq_append_getElem hk, hv]
      have hnd' : ((s.conts n).take k ++ [v]).Nodup := hsp ▸ hnd.sublist (List.take_sublist _ _)
      have hvn : v ∉ (s.conts n).take k := fun hm => by
        rw [List.nodup_append] at hnd'
        exact hnd'.2.2 v hm v (by simp) rfl
      obtain ⟨h6, h7⟩ := hR.ins _ _ v (k : ℤ) h5 (hnd.sublist (List.take_sublist _ _)) hvn
      simp only
      rw [if_neg (by rw [h6]; simp)]
      refine ⟨⟨h1, h2, h3, hk, ?_⟩, fun x hx hx' => absurd ((hc x hx hx').2) (by simp [hr]), hq, h.nodup, h.fine⟩
      have hl : ((s.conts n).take k).length = k := by simp; omega
      have := Py.insert_length ((s.conts n).take k) v
      rw [hl] at this
      rw [this, ← hsp] at h7
      exact h7
    | none =>
      have hk : k = (s.conts n).length := Nat.le_antisymm h4 (List.getElem?_eq_none_iff.1 hv)
      refine ⟨⟨h1.trans h3.symm, h2.trans h3.symm, ?_⟩, fun x hx hx' => ⟨(hc x hx hx').1, rfl⟩, fun x hx => id, h.nodup, h.fine⟩
      have : notes n s.calls = [] := by
        simp only [notes, List.map_eq_nil_iff, List.filter_eq_nil_iff, decide_eq_true_eq]
        exact fun x hx he => hq x hx he.symm
      rw [h3]
      simp only [this]
      rw [hk, List.take_length] at h5
      exact ⟨_, h.nodup n, h5, rfl⟩

variable [DecidableEq α]

theorem step_inv (hR : Lawful R Shows) (h : Inv Shows s) (a : Act C α) (ha : Fits s a) : Inv Shows (step R s a) := by
  cases a with
  | insert c i v => exact change_inv h c _ _ ha.1 (nodup_pyInsert' (h.nodup c) i ha.2) ⟨ha.2, rfl⟩
  | remove c i =>
    simp only [step]
    cases hg : Py.get? (s.conts c) i with
    | none => exact h
    | some v =>
      cases hd : Py.del? (s.conts c) i with
      | none => exact h
      | some l => exact change_inv h c l _ ha (del_nodup (h.nodup c) hd) ⟨l, hg, hd, rfl⟩
  | tell j =>
    simp only [step]
    cases hx : s.calls[j]? with
    | none => exact h
    | some x =>
      have hm : x ∈ s.calls := List.mem_of_getElem? hx
      simp only
      split
      · exact h
      split
      · rename_i hl
        have hcur : s.cur = some x.cont ∧ s.rep = .idle := by
          have hp := h.phase
          have hq := h.quiet x hm
          unfold Phase at hp
          unfold St.Involved at hq
          have hL : s.insL = some x.cont ∨ s.remL = some x.cont := by
            cases hn : x.note <;> rw [hn] at hl
            · exact .inl hl
            · exact .inr hl
          cases hr : s.rep with
          | idle =>
            rw [hr] at hp
            simp only at hp
            refine ⟨?_, rfl⟩
            rcases hL with hL | hL
            · exact hp.1 ▸ hL
            · exact hp.2.1 ▸ hL
          | closeRemoved n =>
            rw [hr] at hp hq
            simp only [not_or] at hp hq
            rcases hL with hL | hL
            · rw [hp.1] at hL; cases hL
            · exact absurd (hp.2.1 ▸ hL) hq.1
          | copy n | remove k n | assign n | listenInserted n =>
            rw [hr] at hp
            simp only at hp
            rcases hL with hL | hL
            · rw [hp.1] at hL; cases hL
            · rw [hp.2.1] at hL; cases hL
          | listenRemoved n | add k n =>
            rw [hr] at hp hq
            simp only at hp hq
            rcases hL with hL | hL
            · rw [hp.1] at hL
              exact absurd (Option.some.inj hL) hq
            · rw [hp.2.1] at hL
              first
                | (cases hL; done)
                | exact absurd (Option.some.inj hL) hq
        refine ⟨phase_calls h.phase _ fun c _ _ => notes_set hx c, fun y hy hy' => ?_, fun y hy => ?_, h.nodup, h.fine⟩
        · rcases List.mem_or_eq_of_mem_set hy with hy | rfl
          · exact h.called y hy hy'
          · exact hcur
        · rcases List.mem_or_eq_of_mem_set hy with hy | rfl
          · exact h.quiet y hy
          · exact h.quiet x hm
      · rename_i hl
        refine ⟨phase_calls h.phase _ fun c hr hc => notes_erase hx c fun he => hl ?_,
          fun y hy => h.called y (List.mem_of_mem_eraseIdx hy), fun y hy => h.quiet y (List.mem_of_mem_eraseIdx hy), h.nodup, h.fine⟩
        have hp := h.phase
        unfold Phase at hp
        rw [hr] at hp
        simp only at hp
        cases hn : x.note <;> simp only [St.listener]
        · rw [hp.1, hc, he]
        · rw [hp.2.1, hc, he]
  | handle j =>
    simp only [step]
    cases hx : s.calls[j]? with
    | none => exact h
    | some x =>
      have hm : x ∈ s.calls := List.mem_of_getElem? hx
      simp only
      split
      · rename_i hcl
        obtain ⟨h1, h2⟩ := h.called x hm hcl
        refine ⟨?_, fun y hy => h.called y (List.mem_of_mem_eraseIdx hy), fun y hy => h.quiet y (List.mem_of_mem_eraseIdx hy), h.nodup, h.fine⟩
        have hp := h.phase
        unfold Phase at hp ⊢
        rw [h2] at hp
        simp only at hp ⊢
        rw [h2]
        simp only
        rw [h1] at hp ⊢
        simp only at hp ⊢
        rw [notes_first hx (ha x hx)] at hp
        obtain ⟨h3, h4, l, h5, h6, h7⟩ := hp
        refine ⟨h3, h4, ?_⟩
        cases hn : x.note with
        | inserted v i =>
          rw [hn] at h7
          exact ⟨_, nodup_pyInsert' h5 i h7.1, (hR.ins l s.w v i h6 h5 h7.1).2, h7.2⟩
        | removed v i =>
          rw [hn] at h7
          obtain ⟨l', h8, h9, h10⟩ := h7
          exact ⟨l', del_nodup h5 h9, (hR.rem l s.w v i l' h6 h5 h8 h9).2, h10⟩
      · exact h
  | replace n =>
    simp only [step]
    cases hr : s.rep with
    | idle =>
      have hp := h.phase
      unfold Phase at hp
      rw [hr] at hp
      simp only at hp ⊢
      have hcall : ∀ x ∈ s.calls, x.called = true → False := fun x hx hx' => (ha x hx).1 (h.called x hx hx').1
      cases hcur : s.cur with
      | none =>
        rw [hcur] at hp
        refine ⟨⟨hp.1, hp.2.1, hp.2.2⟩, fun x hx hx' => (hcall x hx hx').elim, fun x hx => (ha x hx).2, h.nodup, h.fine⟩
      | some c =>
        rw [hcur] at hp
        simp only at hp
        refine ⟨⟨rfl, hp.2.1, c, rfl, ?_⟩, fun x hx hx' => (hcall x hx hx').elim, fun x hx => ?_, h.nodup, h.fine⟩
        · have : notes c s.calls = [] := by
            simp only [notes, List.map_eq_nil_iff, List.filter_eq_nil_iff, decide_eq_true_eq]
            exact fun x hx he => (ha x hx).1 (he ▸ hcur)
          obtain ⟨l, _, h3, h4⟩ := hp.2.2
          rw [this] at h4
          cases h4
          exact h3
        · rintro (he | he)
          · exact (ha x hx).1 (hcur.trans he)
          · exact (ha x hx).2 he
    | _ => exact h
  | go => exact go_inv hR h

/-- For every list model that does right what it is told one after the other. -/
theorem containers (hR : Lawful R Shows) (conts : C → List α) (hd : ∀ c, (conts c).Nodup) (w : W) (hw : Shows [] w) (as : List (Act C α))
    (ho : Orderly R (start conts w) as) : (run R (start conts w) as).raised = false ∧
      ((run R (start conts w) as).rep = .idle → (∀ x ∈ (run R (start conts w) as).calls, (run R (start conts w) as).cur ≠ some x.cont) →
        Shows (match (run R (start conts w) as).cur with | some c => (run R (start conts w) as).conts c | none => []) (run R (start conts w) as).w) := by
  have key : ∀ (as : List (Act C α)) (s : St C α W), Inv Shows s → Orderly R s as → Inv Shows (run R s as) := by
    intro as
    induction as with
    | nil => exact fun s h _ => h
    | cons a as ih => exact fun s h ho => ih _ (step_inv hR h a ho.1) ho.2
  have h : Inv Shows (run R (start conts w) as) := key as _ ⟨⟨rfl, rfl, hw⟩, by simp [start], by simp [start], hd, rfl⟩ ho
  refine ⟨h.fine, fun hr hq => ?_⟩
  have hp := h.phase
  unfold Phase at hp
  rw [hr] at hp
  have h3 := hp.2.2
  cases hcur : (run R (start conts w) as).cur with
  | none =>
    rw [hcur] at h3
    exact h3
  | some c =>
    rw [hcur] at h3
    have : notes c (run R (start conts w) as).calls = [] := by
      simp only [notes, List.map_eq_nil_iff, List.filter_eq_nil_iff, decide_eq_true_eq]
      exact fun x hx he => hq x hx (he ▸ hcur)
    simp only [this] at h3
    obtain ⟨l, _, h4, h5⟩ := h3
    cases h5
    exact h4

/-! ### Filtered list models -/

section
variable {K : Type} [LinearOrder K]

/-- The filter, the sort key, if there is one, and the direction. -/
structure Config (α K : Type) where
  acc : α → Bool
  key : Option (α → K)
  rev : Bool

/-- `__master_items`, the keys of `__item_changed_event_listeners`, `__items` (ListModel.py:236-250). -/
structure FW (α : Type) where
  master : List α
  heard : List α
  items : List α
  deriving DecidableEq

/-- ListModel.py:385-406 and 605-623, without change blocks. -/
def FW.ins (g : Config α K) (v : α) (i : ℤ) (w : FW α) : FW α × Bool :=
  if v ∈ w.master then (w, true)
  else
    let master := Py.insert w.master i v
    let pos : ℕ := match g.key with
      | some k => findSorted (cmpKey g.rev k) v w.items
      | none => findUnsorted g.acc v master
    (⟨master, v :: w.heard.erase v, if g.acc v then Py.insert w.items pos v else w.items⟩, false)

/-- ListModel.py:408-425 and 626-637, without change blocks. -/
def FW.rem (v : α) (i : ℤ) (w : FW α) : FW α × Bool :=
  match Py.del? w.master i with
  | none => (w, true)
  | some master => if v ∈ w.heard then (⟨master, w.heard.erase v, w.items.erase v⟩, false) else ({ w with master := master }, true)

def filtered (g : Config α K) : Receiver α (FW α) := ⟨FW.ins g, FW.rem, fun w => w.master.length⟩

/-- The items are those of the list that pass the filter: in the order of the list, or in the order of the sort key. -/
def FW.Right (g : Config α K) (l : List α) (w : FW α) : Prop :=
  match g.key with
  | none => w.items = l.filter g.acc
  | some k => w.items.Perm (l.filter g.acc) ∧ w.items.Pairwise fun a b => if g.rev then k b ≤ k a else k a ≤ k b

def FW.Has (g : Config α K) (l : List α) (w : FW α) : Prop := w.master = l ∧ w.heard.Perm l ∧ w.Right g l

theorem right_correct {g : Config α K} {l : List α} {w : FW α} : w.Right g l ↔ CorrectFor true l g.acc g.key g.rev w.items := by
  unfold FW.Right CorrectFor
  cases g.key with
  | none => exact ⟨fun h => ⟨h ▸ .refl _, fun _ => h⟩, fun h => h.2 rfl⟩
  | some k => exact Iff.rfl

theorem filtered_lawful (g : Config α K) : Lawful (filtered g) (FW.Has g) := by
  refine ⟨fun l w h => congrArg _ h.1, fun l w v i h hn hv => ?_, fun l w v i l' h hn hg hd => ?_⟩
  · obtain ⟨rfl, h2, h3⟩ := h
    simp only [filtered, FW.ins]
    rw [if_neg hv]
    refine ⟨rfl, rfl, ?_, ?_⟩
    · rw [List.erase_of_not_mem fun hm => hv (h2.mem_iff.1 hm)]
      exact (h2.cons v).trans (perm_pyInsert _ _ _).symm
    · rw [right_correct] at h3 ⊢
      unfold CorrectFor at h3 ⊢
      by_cases ha : g.acc v = true
      · rw [show (if g.acc v = true then _ else w.items) = _ from if_pos ha]
        cases hk : g.key with
        | none =>
          rw [hk] at h3
          obtain ⟨pre, post, e1, e2⟩ := pyInsert_split w.master i v
          have e : Py.insert w.items ((findUnsorted g.acc v (Py.insert w.master i v) : ℕ) : ℤ) v = (Py.insert w.master i v).filter g.acc := by
            rw [e2, h3.2 rfl, e1]
            exact findUnsorted_insert _ _ _ _ (fun hp => hv (by rw [e1]; simp [hp])) ha
          exact ⟨e ▸ .refl _, fun _ => e⟩
        | some k =>
          rw [hk] at h3
          simp only at h3 ⊢
          refine ⟨?_, sorted_insert (isCmp_key g.rev k) h3.2 v⟩
          refine (perm_pyInsert _ _ _).trans ((h3.1.cons v).trans ?_)
          have := ((perm_pyInsert w.master i v).filter g.acc).symm
          rwa [List.filter_cons_of_pos ha] at this
      · have hf : (Py.insert w.master i v).filter g.acc = w.master.filter g.acc := by
          obtain ⟨pre, post, e1, e2⟩ := pyInsert_split w.master i v
          rw [e2, e1]; simp [List.filter_append, ha]
        rw [show (if g.acc v = true then _ else w.items) = _ from if_neg ha, hf]
        exact h3
  · obtain ⟨rfl, h2, h3⟩ := h
    simp only [filtered, FW.rem, hd]
    have hi : ∃ k, Py.index? w.master.length i = some k := by
      unfold Py.del? at hd
      cases hk : Py.index? w.master.length i with
      | none => rw [hk] at hd; cases hd
      | some k => exact ⟨k, rfl⟩
    obtain ⟨k, hk⟩ := hi
    unfold Py.get? at hg
    unfold Py.del? at hd
    rw [hk] at hg hd
    simp only [Option.bind_some, Option.map_some] at hg hd
    cases hd
    obtain ⟨hlt, rfl⟩ := List.getElem?_eq_some_iff.1 hg
    have he : w.master.eraseIdx k = w.master.erase w.master[k] := by
      rw [List.erase_eq_eraseIdx_of_idxOf (hn.idxOf_getElem k hlt)]
    rw [if_pos (h2.mem_iff.2 (List.getElem_mem hlt))]
    refine ⟨rfl, rfl, ?_, ?_⟩
    · rw [he]; exact h2.erase _
    · rw [he]
      exact right_correct.2 ((right_correct.1 h3).erase hn _)

/-- C201: between assignments, with no call of its container under way, a filtered list model has the items of its container that pass
the filter, in order, and listens to their changes; no assignment has raised. -/
theorem C201_filtered_partial (g : Config α K) (conts : C → List α) (hd : ∀ c, (conts c).Nodup) (as : List (Act C α)) (s : St C α (FW α))
    (hs : s = run (filtered g) (start conts ⟨[], [], []⟩) as) (ho : Orderly (filtered g) (start conts ⟨[], [], []⟩) as) :
    s.raised = false ∧ (s.rep = .idle → (∀ x ∈ s.calls, s.cur ≠ some x.cont) →
      s.w.Right g (match s.cur with | some c => s.conts c | none => []) ∧ s.w.heard.Perm (match s.cur with | some c => s.conts c | none => [])) := by
  have h0 : FW.Has g [] (⟨[], [], []⟩ : FW α) := by
    refine ⟨rfl, .refl _, ?_⟩
    unfold FW.Right
    cases g.key with
    | none => rfl
    | some k => exact ⟨.refl _, .nil⟩
  subst hs
  obtain ⟨h1, h2⟩ := containers (filtered_lawful g) conts hd _ h0 as ho
  exact ⟨h1, fun hr hq => ⟨(h2 hr hq).2.2, (h2 hr hq).2.1⟩⟩

end

/-! ### Cases -/

/-- What is looked at: the list of the container, the items, whether an assignment raised, whether nothing is under way. Items that are not
divisible by three pass; the order is that of the container, or descending. -/
def sight (sorted : Bool) (as : List (Act (Fin 2) ℕ)) : Option (List ℕ) × List ℕ × Bool × Bool :=
  let s := run (filtered (⟨fun v => v % 3 ≠ 0, if sorted then some id else none, true⟩ : Config ℕ ℕ))
    (start (fun c => if c = 0 then [1, 3, 2] else [7]) ⟨[], [], []⟩ : St (Fin 2) ℕ (FW ℕ)) as
  (s.cur.map s.conts, s.w.items, s.raised, s.calls.isEmpty && match s.rep with | .idle => true | _ => false)

/-- The first container is assigned. -/
def assign0 : List (Act (Fin 2) ℕ) := [.replace (some 0), .go, .go, .go, .go, .go, .go, .go]

/-- The second container is assigned in its place, and goes on for `n` steps. -/
def assign1 (n : ℕ) : List (Act (Fin 2) ℕ) := .replace (some 1) :: List.replicate n .go

/-- An insertion into the old container between assignments, in both orders. -/
example : sight false (assign0 ++ [.insert 0 1 5, .tell 0, .handle 0]) = (some [1, 5, 3, 2], [1, 5, 2], false, true) := by decide +kernel
example : sight true (assign0 ++ [.insert 0 1 5, .tell 0, .handle 0]) = (some [1, 5, 3, 2], [5, 2, 1], false, true) := by decide +kernel

/-- One into it while the new one is being filled. -/
example : sight false (assign0 ++ [.insert 0 1 5, .tell 0, .handle 0] ++ assign1 8 ++ [.insert 0 0 4, .tell 0, .go, .go, .go, .go, .go]) =
    (some [7], [7], false, true) := by decide +kernel

instance (s : St (Fin 2) ℕ (FW ℕ)) (c : Fin 2) : Decidable (s.Involved c) := by
  unfold St.Involved
  cases s.rep <;> infer_instance

instance (s : St (Fin 2) ℕ (FW ℕ)) (a : Act (Fin 2) ℕ) : Decidable (Fits s a) := by
  cases a with
  | handle j =>
    cases h : s.calls[j]? with
    | none => exact .isTrue fun x hx => by rw [h] at hx; cases hx
    | some x =>
      exact decidable_of_iff (∀ y ∈ s.calls.take j, y.cont ≠ x.cont)
        ⟨fun g y hy => by rw [h] at hy; cases hy; exact g, fun g => g x h⟩
  | _ => unfold Fits; infer_instance

instance decOrderly (R : Receiver ℕ (FW ℕ)) : (as : List (Act (Fin 2) ℕ)) → (s : St (Fin 2) ℕ (FW ℕ)) → Decidable (Orderly R s as)
  | [], _ => .isTrue trivial
  | a :: as, s => haveI := decOrderly R as (step R s a); inferInstanceAs (Decidable (Fits s a ∧ Orderly R (step R s a) as))

example : Orderly (filtered (⟨fun v => v % 3 ≠ 0, none, true⟩ : Config ℕ ℕ))
    (start (fun c => if c = 0 then [1, 3, 2] else [7]) ⟨[], [], []⟩ : St (Fin 2) ℕ (FW ℕ))
    (assign0 ++ [.insert 0 1 5, .tell 0, .handle 0] ++ assign1 8 ++ [.insert 0 0 4, .tell 0, .go, .go, .go, .go, .go]) := by decide +kernel

/-- C201: a removal from the old container whose listener has been read is handled after the assignment: an item of the new container is
taken for it. When the removed item is later put into the new container, the filtered list does not get it. -/
theorem C201_counterexample_late :
    sight false (assign0 ++ [.remove 0 0, .tell 0] ++ assign1 10 ++ [.handle 0, .insert 1 0 1, .tell 0, .handle 0]) =
      (some [1, 7], [7], false, true) := by decide +kernel

/-- C201: an insertion into the old container that has not been told of: the assignment raises `KeyError`, the container is still the old
one, and nothing is heard of it any more. -/
theorem C201_counterexample_raises :
    sight false (assign0 ++ [.insert 0 0 5] ++ assign1 8 ++ [.tell 0]) = (some [5, 1, 3, 2], [], true, true) := by decide +kernel

/-- C201: an insertion into the new container while it is copied: the assignment raises `AssertionError` at the item, and the items after
it are missing. -/
theorem C201_counterexample_twice :
    sight false (assign0 ++ assign1 9 ++ [.insert 1 0 8, .tell 0, .handle 0, .go, .go, .go]) = (some [8, 7], [8], true, true) := by
  decide +kernel

end Verif.ListModel.Containers
