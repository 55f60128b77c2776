import Verif.ListModel.Basic
import Mathlib.Data.List.Perm.Basic
import Mathlib.Data.List.Perm.Subperm
import Mathlib.Tactic.Common

/-!
C119: observers that change the list model while they are notified. Model of `ListModel.insert_item` and `remove_item`
(`nion/utils/ListModel.py:35-42`) with `Event.fire` (`nion/utils/Event.py:103-114`): the observers are called one after the other; an observer
may call the list model again, which notifies all observers before the outer notification goes on. What an observer does may depend on
and change a memory shared by the observers; it is a list of calls. A call that raises ends the reaction of that observer and the
`Event.fire` that called it, which catches the exception. `none` is a recursion that does not end within the fuel. Each observer listens to both events, in the same order.
Not modelled here: observers that come or go meanwhile (`Event/`).
-/

namespace Verif.ListModel.Reentrant

open Verif.Py

/-- The calls that an observer makes. -/
inductive Call (α : Type) where
  | insert (i : Int) (v : α)
  | remove (i : Int)

/-- The items, the memory of the observers; for the specification: what the observers were told, with the items at that moment, the
changes of the list in the order in which they were made, and whether a call of an observer raised. -/
structure St (ι α M : Type) where
  items : List α
  mem : M
  log : List (ι × Notif α × List α)
  hist : List (Notif α)
  raised : Bool

variable {ι α M : Type} [DecidableEq ι]

/-- An observer: the notification, the items at that moment, the memory; gives the memory and the calls it makes. -/
abbrev React (ι α M : Type) := ι → Notif α → List α → M → M × List (Call α)

/-- What a call does to the list before it notifies: the new items and the notification, or `none` if it raises `IndexError`. -/
def change (l : List α) : Call α → Option (List α × Notif α)
  | .insert i v => some (Py.insert l i v, .inserted v i)
  | .remove i =>
    match Py.get? l i, Py.del? l i with
    | some v, some l' => some (l', .removed v i)
    | _, _ => none

/-- Calls one after the other; one that raises is the last (`true`: none raised). -/
def calls (call : Call α → St ι α M → Option (St ι α M × Bool)) : List (Call α) → St ι α M → Option (St ι α M × Bool)
  | [], s => some (s, true)
  | c :: cs, s => (call c s).bind fun r => if r.2 then calls call cs r.1 else some r

/-- `Event.fire`: each observer in turn, up to the first that raises. -/
def notify (react : React ι α M) (call : Call α → St ι α M → Option (St ι α M × Bool)) (n : Notif α) :
    List ι → St ι α M → Option (St ι α M)
  | [], s => some s
  | i :: is, s =>
    (calls call (react i n s.items s.mem).2
      { s with mem := (react i n s.items s.mem).1, log := s.log ++ [(i, n, s.items)] }).bind
      fun r => if r.2 then notify react call n is r.1 else some { r.1 with raised := true }

/-- ListModel.py:35-42. -/
def call (react : React ι α M) (obs : List ι) : ℕ → Call α → St ι α M → Option (St ι α M × Bool)
  | 0, _, _ => none
  | n + 1, c, s =>
    match change s.items c with
    | none => some (s, false)
    | some (l, e) => (notify react (call react obs n) e obs { s with items := l, hist := s.hist ++ [e] }).map fun s => (s, true)

/-- Calls from outside: those that raise do not keep the others from being made. -/
def outer (react : React ι α M) (obs : List ι) (n : ℕ) : List (Call α) → St ι α M → Option (St ι α M)
  | [], s => some s
  | c :: cs, s => (call react obs n c s).bind fun r => outer react obs n cs r.1

/-! ### Specification -/

/-- What an observer was told, with the items at that moment. -/
def seen (i : ι) (log : List (ι × Notif α × List α)) : List (Notif α × List α) := (log.filter fun p => p.1 = i).map Prod.snd

/-- The observer never changes the list. -/
def Passive (react : React ι α M) (i : ι) : Prop := ∀ n l m, (react i n l m).2 = []

/-- A copy kept with the notifications is, after each of them, the list that the observer could read at that moment. -/
def InSync (l0 : List α) (ns : List (Notif α × List α)) : Prop :=
  ∀ p n l q, ns = p ++ (n, l) :: q → Replays l0 (p.map Prod.fst ++ [n]) l

/-! ### Proof -/

variable {react : React ι α M}

theorem seen_append (i : ι) (l l' : List (ι × Notif α × List α)) : seen i (l ++ l') = seen i l ++ seen i l' := by simp [seen]

theorem seen_self (i : ι) (v : Notif α × List α) : seen i [(i, v)] = [v] := by simp [seen]

theorem seen_ne {i j : ι} (h : j ≠ i) (v : Notif α × List α) : seen i [(j, v)] = [] := by simp [seen, h]

omit [DecidableEq ι] in
theorem change_replays {l l' : List α} {c : Call α} {n : Notif α} (h : change l c = some (l', n)) : Replays l [n] l' := by
  cases c with
  | insert i v =>
    simp only [change, Option.some.injEq, Prod.mk.injEq] at h
    obtain ⟨rfl, rfl⟩ := h
    exact .ins (.nil _)
  | remove i =>
    simp only [change] at h
    split at h
    · rename_i v l1 h1 h2
      simp only [Option.some.injEq, Prod.mk.injEq] at h
      obtain ⟨rfl, rfl⟩ := h
      exact .rem h1 h2 (.nil _)
    · cases h

/-- The observer has been told all changes in order, and was in step each time. -/
structure Good (l0 : List α) (i : ι) (s : St ι α M) : Prop where
  told : (seen i s.log).map Prod.fst = s.hist
  cur : Replays l0 s.hist s.items
  sync : InSync l0 (seen i s.log)

theorem InSync.snoc {l0 : List α} {ns : List (Notif α × List α)} (h : InSync l0 ns) {n : Notif α} {l : List α}
    (hr : Replays l0 (ns.map Prod.fst ++ [n]) l) : InSync l0 (ns ++ [(n, l)]) := by
  intro p m k q e
  rcases List.append_eq_append_iff.1 e with ⟨a, h1, h2⟩ | ⟨a, h1, h2⟩
  · -- the new one is behind `p`
    cases a with
    | nil =>
      simp only [List.nil_append, List.cons.injEq, Prod.mk.injEq] at h2
      obtain ⟨⟨rfl, rfl⟩, _⟩ := h2
      rw [List.append_nil] at h1
      rw [h1]; exact hr
    | cons x a =>
      simp only [List.cons_append, List.cons.injEq] at h2
      exact absurd h2.2 (by simp)
  · cases a with
    | nil =>
      simp only [List.nil_append, List.cons.injEq, Prod.mk.injEq] at h2
      obtain ⟨⟨rfl, rfl⟩, _⟩ := h2
      rw [List.append_nil] at h1
      rw [← h1]; exact hr
    | cons x a =>
      simp only [List.cons_append, List.cons.injEq] at h2
      obtain ⟨rfl, h2⟩ := h2
      exact h p m k a h1

omit [DecidableEq ι] in
theorem calls_good {P : St ι α M → Prop} {cl : Call α → St ι α M → Option (St ι α M × Bool)}
    (h : ∀ c s r, P s → cl c s = some r → P r.1) :
    ∀ (cs : List (Call α)) (s : St ι α M) (r), P s → calls cl cs s = some r → P r.1
  | [], s, r, hg, he => by
    simp only [calls, Option.some.injEq] at he
    subst he; exact hg
  | c :: cs, s, r, hg, he => by
    simp only [calls] at he
    cases h1 : cl c s with
    | none => rw [h1] at he; cases he
    | some r1 =>
      rw [h1] at he
      simp only [Option.bind_some] at he
      split at he
      · exact calls_good h cs r1.1 r (h c s r1 hg h1) he
      · simp only [Option.some.injEq] at he
        subst he; exact h c s _ hg h1

theorem notify_good {l0 : List α} {i : ι} {cl : Call α → St ι α M → Option (St ι α M × Bool)}
    (h : ∀ c s r, Good l0 i s → cl c s = some r → Good l0 i r.1) (n : Notif α) :
    ∀ (is : List ι) (s s' : St ι α M), i ∉ is → Good l0 i s → notify react cl n is s = some s' → Good l0 i s'
  | [], s, s', _, hg, he => by
    simp only [notify, Option.some.injEq] at he
    exact he ▸ hg
  | j :: is, s, s', hi, hg, he => by
    simp only [List.mem_cons, not_or] at hi
    simp only [notify] at he
    cases h1 : calls cl (react j n s.items s.mem).2
        { s with mem := (react j n s.items s.mem).1, log := s.log ++ [(j, n, s.items)] } with
    | none => rw [h1] at he; cases he
    | some r =>
      rw [h1] at he
      have e : seen i (s.log ++ [(j, n, s.items)]) = seen i s.log := by
        rw [seen_append, seen_ne (Ne.symm hi.1), List.append_nil]
      have hg' : Good l0 i { s with mem := (react j n s.items s.mem).1, log := s.log ++ [(j, n, s.items)] } :=
        ⟨by rw [e]; exact hg.told, hg.cur, by rw [e]; exact hg.sync⟩
      have hg2 := calls_good h _ _ r hg' h1
      simp only [Option.bind_some] at he
      split at he
      · exact notify_good h n is r.1 s' hi.2 hg2 he
      · simp only [Option.some.injEq] at he
        subst he
        exact ⟨hg2.told, hg2.cur, hg2.sync⟩

/-- Observers that make no calls are only told. -/
theorem notify_passive {i : ι} {cl : Call α → St ι α M → Option (St ι α M × Bool)} (n : Notif α) :
    ∀ (pre rest : List ι) (s s' : St ι α M), i ∉ pre → (∀ j ∈ pre, Passive react j) → notify react cl n (pre ++ rest) s = some s' →
      ∃ s1, seen i s1.log = seen i s.log ∧ s1.hist = s.hist ∧ s1.items = s.items ∧ notify react cl n rest s1 = some s'
  | [], rest, s, s', _, _, he => ⟨s, rfl, rfl, rfl, he⟩
  | j :: pre, rest, s, s', hi, hp, he => by
    simp only [List.mem_cons, not_or] at hi
    simp only [List.cons_append, notify, hp j (by simp) n s.items s.mem, calls, Option.bind_some, if_true] at he
    obtain ⟨s1, h1, h2, h3, h4⟩ := notify_passive n pre rest _ s' hi.2 (fun k hk => hp k (by simp [hk])) he
    refine ⟨s1, ?_, h2, h3, h4⟩
    rw [h1, seen_append, seen_ne (Ne.symm hi.1), List.append_nil]

theorem call_good {l0 : List α} {pre post : List ι} {i : ι} (hn : (pre ++ i :: post).Nodup) (hp : ∀ j ∈ pre, Passive react j) :
    ∀ (n : ℕ) (c : Call α) (s : St ι α M) (r), Good l0 i s → call react (pre ++ i :: post) n c s = some r → Good l0 i r.1
  | 0, c, s, r, _, he => by simp [call] at he
  | n + 1, c, s, r, hg, he => by
    have hpre : i ∉ pre := fun h => (List.nodup_append.1 hn).2.2 i h i (by simp) rfl
    have hpost : i ∉ post := (List.nodup_cons.1 (List.nodup_append.1 hn).2.1).1
    rw [call] at he
    split at he
    · simp only [Option.some.injEq] at he
      subst he; exact hg
    · rename_i l e hc
      rw [Option.map_eq_some_iff] at he
      obtain ⟨s', h0, rfl⟩ := he
      obtain ⟨s1, h1, h2, h3, h4⟩ := notify_passive (i := i) e pre (i :: post) _ s' hpre hp h0
      simp only [notify] at h4
      cases h5 : calls (call react (pre ++ i :: post) n) (react i e s1.items s1.mem).2
          { s1 with mem := (react i e s1.items s1.mem).1, log := s1.log ++ [(i, e, s1.items)] } with
      | none => rw [h5] at h4; cases h4
      | some r2 =>
        rw [h5] at h4
        have ih := call_good hn hp (l0 := l0) n
        have hr : Replays l0 (s.hist ++ [e]) l := hg.cur.append (change_replays hc)
        have hg2 : Good l0 i r2.1 := by
          refine calls_good ih _ _ r2 ⟨?_, ?_, ?_⟩ h5
          · rw [seen_append, seen_self, List.map_append, h1, h2, hg.told]; rfl
          · show Replays l0 s1.hist s1.items
            rw [h2, h3]; exact hr
          · rw [seen_append, seen_self, h1]
            refine hg.sync.snoc ?_
            rw [hg.told, h3]; exact hr
        simp only [Option.bind_some] at h4
        split at h4
        · exact notify_good ih e post r2.1 s' hpost hg2 h4
        · simp only [Option.some.injEq] at h4
          subst h4
          exact ⟨hg2.told, hg2.cur, hg2.sync⟩

/-- C119 (partial: no observer before it changes the list): whatever this observer and those after it do while they are notified, a copy
kept with the notifications is, whenever the observer is called, the list it can read then; when the calls return it is the list. -/
theorem C119_copy_partial (pre post : List ι) (i : ι) (hn : (pre ++ i :: post).Nodup) (hp : ∀ j ∈ pre, Passive react j)
    (n : ℕ) (l0 : List α) (m : M) (cs : List (Call α)) (s : St ι α M)
    (h : outer react (pre ++ i :: post) n cs ⟨l0, m, [], [], false⟩ = some s) :
    InSync l0 (seen i s.log) ∧ Replays l0 ((seen i s.log).map Prod.fst) s.items := by
  have key : ∀ (cs : List (Call α)) (s1 s2 : St ι α M), Good l0 i s1 →
      outer react (pre ++ i :: post) n cs s1 = some s2 → Good l0 i s2 := by
    intro cs
    induction cs with
    | nil =>
      intro s1 s2 h1 h2
      simp only [outer, Option.some.injEq] at h2
      exact h2 ▸ h1
    | cons c cs ih =>
      intro s1 s2 h1 h2
      simp only [outer] at h2
      cases h3 : call react (pre ++ i :: post) n c s1 with
      | none => rw [h3] at h2; cases h2
      | some r =>
        rw [h3] at h2
        exact ih r.1 s2 (call_good hn hp n c s1 r h1 h3) h2
  have hg := key cs _ s ⟨rfl, .nil _, by intro p n l q e; simp [seen] at e⟩ h
  exact ⟨hg.sync, by rw [hg.told]; exact hg.cur⟩

/-! ### Every observer is told every change once -/

/-- What was told to the observer since, as a collection, is among what was changed since, and all of it if no call of an observer raised. -/
def Told (i : ι) (s s' : St ι α M) : Prop :=
  ∃ h, s'.hist = s.hist ++ h ∧ ((seen i s'.log).map Prod.fst).Subperm ((seen i s.log).map Prod.fst ++ h) ∧
    (s'.raised = false → s.raised = false ∧ ((seen i s'.log).map Prod.fst).Perm ((seen i s.log).map Prod.fst ++ h))

theorem Told.refl (i : ι) (s : St ι α M) : Told i s s := ⟨[], by simp, by simpa using List.Subperm.refl _, fun h => ⟨h, by simp⟩⟩

theorem Told.trans {i : ι} {s t u : St ι α M} (h1 : Told i s t) (h2 : Told i t u) : Told i s u := by
  obtain ⟨a, h3, h4, h4'⟩ := h1
  obtain ⟨b, h5, h6, h6'⟩ := h2
  refine ⟨a ++ b, by rw [h5, h3, List.append_assoc], h6.trans ?_, fun hr => ?_⟩
  · rw [← List.append_assoc]
    exact (List.subperm_append_right b).2 h4
  · obtain ⟨k1, k2⟩ := h6' hr
    obtain ⟨k3, k4⟩ := h4' k1
    exact ⟨k3, k2.trans (by rw [← List.append_assoc]; exact k4.append_right b)⟩

theorem calls_told {i : ι} {cl : Call α → St ι α M → Option (St ι α M × Bool)}
    (h : ∀ c s r, cl c s = some r → Told i s r.1) (cs : List (Call α)) (s : St ι α M) (r) (he : calls cl cs s = some r) : Told i s r.1 :=
  calls_good (P := fun t => Told i s t) (fun c t r ht hr => ht.trans (h c t r hr)) cs s r (Told.refl i s) he

theorem told_order {γ : Type} (A a b : List γ) (x : List γ) : (A ++ a ++ (x ++ b)).Perm (A ++ (x ++ (a ++ b))) := by
  rw [List.append_assoc]
  refine List.Perm.append_left _ ?_
  rw [← List.append_assoc, ← List.append_assoc]
  exact List.perm_append_comm.append_right b

/-- Since `s`, where `e` has been changed but not told. -/
theorem notify_told {i : ι} {cl : Call α → St ι α M → Option (St ι α M × Bool)}
    (h : ∀ c s r, cl c s = some r → Told i s r.1) (e : Notif α) :
    ∀ (is : List ι) (s s' : St ι α M), is.Nodup → notify react cl e is s = some s' →
      ∃ g, s'.hist = s.hist ++ g ∧
        ((seen i s'.log).map Prod.fst).Subperm ((seen i s.log).map Prod.fst ++ ((if i ∈ is then [e] else []) ++ g)) ∧
        (s'.raised = false → s.raised = false ∧
          ((seen i s'.log).map Prod.fst).Perm ((seen i s.log).map Prod.fst ++ ((if i ∈ is then [e] else []) ++ g)))
  | [], s, s', _, he => by
    simp only [notify, Option.some.injEq] at he
    subst he; exact ⟨[], by simp, by simpa using List.Subperm.refl _, fun h => ⟨h, by simp⟩⟩
  | j :: is, s, s', hn, he => by
    simp only [notify] at he
    cases h1 : calls cl (react j e s.items s.mem).2
        { s with mem := (react j e s.items s.mem).1, log := s.log ++ [(j, e, s.items)] } with
    | none => rw [h1] at he; cases he
    | some r =>
      rw [h1] at he
      simp only [Option.bind_some] at he
      obtain ⟨a, h2, h3, h3'⟩ := calls_told h _ _ r h1
      simp only at h2 h3 h3'
      rw [seen_append, List.map_append] at h3 h3'
      split at he
      · obtain ⟨b, h4, h5, h5'⟩ := notify_told h e is r.1 s' (List.nodup_cons.1 hn).2 he
        have key : ((seen i s.log).map Prod.fst ++ (seen i [(j, e, s.items)]).map Prod.fst ++ a ++ ((if i ∈ is then [e] else []) ++ b)).Perm
            ((seen i s.log).map Prod.fst ++ ((if i ∈ j :: is then [e] else []) ++ (a ++ b))) := by
          by_cases hj : j = i
          · subst hj
            rw [if_neg (List.nodup_cons.1 hn).1, seen_self]
            simp
          · rw [seen_ne hj]
            have : (i ∈ j :: is) = (i ∈ is) := by simp [Ne.symm hj]
            simp only [this, List.map_nil, List.append_nil]
            exact told_order _ _ _ _
        refine ⟨a ++ b, by rw [h4, h2, List.append_assoc], ?_, fun hr => ?_⟩
        · exact (h5.trans ((List.subperm_append_right _).2 h3)).trans key.subperm
        · obtain ⟨k1, k2⟩ := h5' hr
          obtain ⟨k3, k4⟩ := h3' k1
          exact ⟨k3, (k2.trans (k4.append_right _)).trans key⟩
      · simp only [Option.some.injEq] at he
        subst he
        refine ⟨a, h2, ?_, fun hr => by cases hr⟩
        refine h3.trans ?_
        rw [List.append_assoc]
        refine (List.subperm_append_left _).2 ?_
        refine (List.subperm_append_right a).2 ?_
        by_cases hj : j = i
        · subst hj
          rw [seen_self]
          simp
        · rw [seen_ne hj]
          exact List.nil_subperm

theorem call_told {obs : List ι} (hn : obs.Nodup) {i : ι} (hi : i ∈ obs) :
    ∀ (n : ℕ) (c : Call α) (s : St ι α M) (r), call react obs n c s = some r → Told i s r.1
  | 0, c, s, r, he => by simp [call] at he
  | n + 1, c, s, r, he => by
    rw [call] at he
    split at he
    · simp only [Option.some.injEq] at he
      subst he; exact Told.refl i s
    · rename_i l e hc
      rw [Option.map_eq_some_iff] at he
      obtain ⟨s', h0, rfl⟩ := he
      obtain ⟨g, h1, h2, h3⟩ := notify_told (i := i) (call_told hn hi n) e obs _ s' hn h0
      rw [if_pos hi] at h2 h3
      exact ⟨[e] ++ g, by rw [h1]; simp, h2, h3⟩

theorem outer_told {obs : List ι} (hn : obs.Nodup) {i : ι} (hi : i ∈ obs) (n : ℕ) (cs : List (Call α)) (s1 s2 : St ι α M)
    (h2 : outer react obs n cs s1 = some s2) : Told i s1 s2 := by
  induction cs generalizing s1 with
  | nil =>
    simp only [outer, Option.some.injEq] at h2
    exact h2 ▸ Told.refl i s1
  | cons c cs ih =>
    simp only [outer] at h2
    cases h3 : call react obs n c s1 with
    | none => rw [h3] at h2; cases h2
    | some r => rw [h3] at h2; exact (call_told hn hi n c s1 r h3).trans (ih r.1 h2)

/-- C119 (partial: no call of an observer raises): whatever the observers do, each of them is told each change of the list exactly once (as
a collection; the order may differ from the order in which the changes were made). -/
theorem C119_once_partial (obs : List ι) (hn : obs.Nodup) (i : ι) (hi : i ∈ obs) (n : ℕ) (l0 : List α) (m : M) (cs : List (Call α))
    (s : St ι α M) (h : outer react obs n cs ⟨l0, m, [], [], false⟩ = some s) (hr : s.raised = false) :
    ((seen i s.log).map Prod.fst).Perm s.hist := by
  obtain ⟨g, h1, -, h2⟩ := outer_told hn hi n cs _ s h
  simp only [List.nil_append] at h1
  rw [h1]
  exact (h2 hr).2

/-- C119: whatever the observers do, none of them is told a change twice, or a change that was not made. -/
theorem C119_at_most_once (obs : List ι) (hn : obs.Nodup) (i : ι) (hi : i ∈ obs) (n : ℕ) (l0 : List α) (m : M) (cs : List (Call α))
    (s : St ι α M) (h : outer react obs n cs ⟨l0, m, [], [], false⟩ = some s) : ((seen i s.log).map Prod.fst).Subperm s.hist := by
  obtain ⟨g, h1, h2, -⟩ := outer_told hn hi n cs _ s h
  simp only [List.nil_append] at h1
  rw [h1]
  exact h2

/-! ### Where it fails -/

/-- Observer 1 keeps item 0 at the front of the list: when another item is put there it removes item 0 and inserts it again. Observer 2
removes items above 100 again. Observer 4 removes the tenth item (which raises if there is none). -/
def exReact : React ℕ ℕ Unit
  | 1, .inserted v 0, _, _ => ((), if v = 0 then [] else [.remove 1, .insert 0 0])
  | 2, .inserted v i, _, _ => ((), if 100 < v then [.remove i] else [])
  | 4, .inserted _ _, _, _ => ((), [.remove 9])
  | _, _, _, _ => ((), [])

/-- The copy of an observer that follows the indexes. -/
def copy (l : List ℕ) : List (Notif ℕ) → List ℕ
  | [] => l
  | .inserted v i :: ns => copy (Py.insert l i v) ns
  | .removed _ i :: ns => copy ((Py.del? l i).getD l) ns

/-- C119 is false for an observer after one that changes the list: after the insertion of 5 the list is 0, 5, 7; the copy is 5, 0, 0. -/
theorem C119_counterexample :
    (outer exReact [0, 1, 3] 5 [.insert 0 5] ⟨[0, 7], (), [], [], false⟩).map
      (fun s => (s.items, copy [0, 7] ((seen 3 s.log).map Prod.fst))) = some ([0, 5, 7], [5, 0, 0]) := by decide

/-- The same with an observer that rejects an item: the list is as before, the copy has lost an item and has the rejected one. -/
theorem C119_reject_counterexample :
    (outer exReact [0, 2, 3] 5 [.insert 0 200] ⟨[6, 7], (), [], [], false⟩).map
      (fun s => (s.items, (seen 3 s.log).map Prod.fst, copy [6, 7] ((seen 3 s.log).map Prod.fst))) =
      some ([6, 7], [.removed 200 0, .inserted 200 0], [200, 7]) := by decide

/-- C119: an observer that raises keeps the change from those after it. -/
theorem C119_counterexample_raises :
    (outer exReact [0, 4, 3] 5 [.insert 0 5, .remove 1] ⟨[6, 7], (), [], [], false⟩).map
      (fun s => (s.items, (seen 0 s.log).map Prod.fst, (seen 3 s.log).map Prod.fst)) =
      some ([5, 7], [.inserted 5 0, .removed 6 1], [.removed 6 1]) := by decide

/-- Observers before, and the one that rejects, are in step. -/
example : (outer exReact [0, 2, 3] 5 [.insert 0 200] ⟨[6, 7], (), [], [], false⟩).map
      (fun s => (s.items, seen 0 s.log, seen 2 s.log)) =
      some ([6, 7], [(.inserted 200 0, [200, 6, 7]), (.removed 200 0, [6, 7])],
        [(.inserted 200 0, [200, 6, 7]), (.removed 200 0, [6, 7])]) := by decide

end Verif.ListModel.Reentrant
