import Verif.ListModel.FilteredLemmas

/-!
Threads that change the child lists of a `FlattenedListModel` (`nion/utils/ListModel.py:890-916`).

`__child_item_inserted` and `__child_item_removed` do not take the mutex that `__master_item_inserted` takes. Here the master items stay as they
are and any number of threads insert children into and remove children from them. One step of a thread is: change the child list of the
master item (which then notifies, in the same thread), look at one master item in the loop of lines 893-896, change the copy of the
child list, change the list of items, tell the observers. An exception ends the notification (`Event.fire`). No selections.
-/

namespace Verif.ListModel.FlatThreads

open Verif.Py

/-- The notification a thread is working on. -/
inductive Job (C : Type*) where
  | ins (c : C)
  | rem (c : C)
  deriving DecidableEq

/-- Where a thread is; `m` the master item, `i` the child index, `mi` the index in the list of items. -/
inductive Pc (M C : Type*) where
  | idle
  /-- 893-896 -/
  | scan (j : Job C) (m : M) (i : Nat) (rest : List M) (acc : Nat)
  /-- 898, 912 -/
  | child (j : Job C) (m : M) (i : Nat) (mi : Nat)
  /-- 899, 913 -/
  | list (j : Job C) (mi : Nat)
  /-- 900, 914 -/
  | tell (j : Job C) (mi : Nat)
  deriving DecidableEq

/-- `kids` are the child lists themselves, `children` the model's copies of them. -/
structure St (M C : Type*) where
  kids : M → List C
  children : M → List C
  items : List C
  log : List (Notif C)
  pcs : List (Pc M C)

/-- What a schedule does; `t` is the number of a thread. -/
inductive Act (M C : Type*) where
  | insert (t : Nat) (m : M) (c : C) (i : Nat)
  | remove (t : Nat) (m : M) (i : Nat)
  | go (t : Nat)

section
variable {M C : Type*} [DecidableEq M]

def St.at (s : St M C) (t : Nat) (p : Pc M C) : St M C := { s with pcs := s.pcs.set t p }

/-- The next step of a thread. -/
def St.next (s : St M C) (t : Nat) : Pc M C → St M C
  | .idle => s
  | .scan j m i [] acc => s.at t (.child j m i (acc + i))
  | .scan j m i (x :: xs) acc =>
    if x = m then s.at t (.child j m i (acc + i)) else s.at t (.scan j m i xs (acc + (s.children x).length))
  | .child (.ins c) m i mi =>
    { s with children := Function.update s.children m (Py.insert (s.children m) i c) }.at t (.list (.ins c) mi)
  | .child (.rem c) m i mi =>
    match Py.del? (s.children m) i with
    | some l => { s with children := Function.update s.children m l }.at t (.list (.rem c) mi)
    | none => s.at t .idle
  | .list (.ins c) mi => { s with items := Py.insert s.items mi c }.at t (.tell (.ins c) mi)
  | .list (.rem c) mi =>
    match Py.del? s.items mi with
    | some l => { s with items := l }.at t (.tell (.rem c) mi)
    | none => s.at t .idle
  | .tell (.ins c) mi => { s with log := s.log ++ [Notif.inserted c mi] }.at t .idle
  | .tell (.rem c) mi => { s with log := s.log ++ [Notif.removed c mi] }.at t .idle

/-- One step of the schedule; a thread begins a change only when it has nothing else to do. -/
def St.step (master : List M) (s : St M C) : Act M C → St M C
  | .insert t m c i =>
    match s.pcs[t]? with
    | some .idle => { s with kids := Function.update s.kids m (Py.insert (s.kids m) i c) }.at t (.scan (.ins c) m i master 0)
    | _ => s
  | .remove t m i =>
    match s.pcs[t]?, (s.kids m)[i]? with
    | some .idle, some c => { s with kids := Function.update s.kids m ((s.kids m).eraseIdx i) }.at t (.scan (.rem c) m i master 0)
    | _, _ => s
  | .go t =>
    match s.pcs[t]? with
    | some p => s.next t p
    | none => s

def St.run (master : List M) (s : St M C) (as : List (Act M C)) : St M C := as.foldl (St.step master) s

/-- The model with the master items `master`, no thread doing anything; `n` threads. -/
def St.start (master : List M) (kids : M → List C) (n : Nat) : St M C :=
  ⟨kids, kids, master.flatMap kids, [], List.replicate n .idle⟩

/-- No thread is in a notification. -/
def St.Quiet (s : St M C) : Prop := ∀ p ∈ s.pcs, p = .idle

/-! ### Insertions only -/

/-- The child a thread is about to insert. -/
def Pc.due : Pc M C → List C
  | .scan (.ins c) _ _ _ _ => [c]
  | .child (.ins c) _ _ _ => [c]
  | .list (.ins c) _ => [c]
  | _ => []

/-- The thread is inserting or doing nothing. -/
def Pc.Inserts : Pc M C → Prop
  | .idle => True
  | .scan (.ins _) _ _ _ _ => True
  | .child (.ins _) _ _ _ => True
  | .list (.ins _) _ => True
  | .tell (.ins _) _ => True
  | _ => False

theorem perm_set {α β : Type*} (f : α → List β) (l : List α) (t : Nat) (a b : α) (h : l[t]? = some a) :
    ((l.set t b).flatMap f ++ f a).Perm (l.flatMap f ++ f b) := by
  induction l generalizing t with
  | nil => simp at h
  | cons x l ih =>
    cases t with
    | zero =>
      simp only [List.getElem?_cons_zero, Option.some.injEq] at h
      subst h
      simp only [List.set_cons_zero, List.flatMap_cons, List.append_assoc]
      exact (List.perm_append_comm (l₁ := f b)).trans (by
        rw [List.append_assoc]
        exact (List.perm_append_comm_assoc _ _ _).trans (.refl _))
    | succ t =>
      simp only [List.getElem?_cons_succ] at h
      simp only [List.set_cons_succ, List.flatMap_cons, List.append_assoc]
      exact (ih t h).append_left _


omit [DecidableEq M] in
theorem count_set [DecidableEq C] (l : List (Pc M C)) (t : Nat) (a b : Pc M C) (h : l[t]? = some a) (x : C) :
    ((l.set t b).flatMap Pc.due).count x + a.due.count x = (l.flatMap Pc.due).count x + b.due.count x := by
  have := (perm_set Pc.due l t a b h).count_eq x
  simpa only [List.count_append] using this

theorem count_insert [DecidableEq C] (l : List C) (i : Int) (c x : C) :
    (Py.insert l i c).count x = l.count x + [c].count x := by
  rw [(perm_pyInsert l i c).count_eq x, List.count_cons, List.count_singleton]

theorem count_update [DecidableEq C] (master : List M) (kids : M → List C) (m : M) (l : List C) (hn : master.Nodup)
    (hm : m ∈ master) (x : C) :
    (master.flatMap (Function.update kids m l)).count x + (kids m).count x = (master.flatMap kids).count x + l.count x := by
  obtain ⟨pre, post, rfl⟩ := List.append_of_mem hm
  have h1 : m ∉ pre := fun h => (List.nodup_append.1 hn).2.2 m h m (by simp) rfl
  have h2 : m ∉ post := (List.nodup_cons.1 (List.nodup_append.1 hn).2.1).1
  simp only [List.flatMap_append, List.flatMap_cons, Function.update_self, flatMap_update h1, flatMap_update h2, List.count_append]
  omega

/-- The children listed and those on their way are the children of the master items. -/
structure Bag (master : List M) [DecidableEq C] (s : St M C) : Prop where
  count : ∀ x, s.items.count x + (s.pcs.flatMap Pc.due).count x = (master.flatMap s.kids).count x
  ins : ∀ p ∈ s.pcs, p.Inserts

/-- The schedule only inserts, into master items. -/
def Act.Inserts (master : List M) : Act M C → Prop
  | .insert _ m _ _ => m ∈ master
  | .remove _ _ _ => False
  | .go _ => True

omit [DecidableEq M] in
theorem mem_of_set {p q : Pc M C} {l : List (Pc M C)} {t : Nat} (h : p ∈ l.set t q) : p = q ∨ p ∈ l := by
  rcases List.mem_or_eq_of_mem_set h with h | h
  · exact .inr h
  · exact .inl h

theorem bag_move [DecidableEq C] {master : List M} {s : St M C} (h : Bag master s) {t : Nat} {p q : Pc M C} (hp : s.pcs[t]? = some p)
    (hq : q.Inserts) (he : p.due = q.due) : Bag master (s.at t q) := by
  refine ⟨fun x => ?_, fun r hr => ?_⟩
  · have := count_set s.pcs t p q hp x
    rw [he] at this
    have h1 := h.count x
    simp only [St.at]
    omega
  · rcases mem_of_set hr with rfl | hr
    · exact hq
    · exact h.ins r hr

theorem bag_step [DecidableEq C] {master : List M} (hn : master.Nodup) {s : St M C} (h : Bag master s) (a : Act M C)
    (ha : a.Inserts master) : Bag master (s.step master a) := by
  cases a with
  | remove t m i => exact absurd ha (fun h => h)
  | insert t m c i =>
    simp only [St.step]
    split
    · rename_i hp
      refine ⟨fun x => ?_, fun r hr => ?_⟩
      · have h1 := count_set s.pcs t .idle (.scan (.ins c) m i master 0) hp x
        have h2 := count_update master s.kids m (Py.insert (s.kids m) i c) hn ha x
        have h3 := h.count x
        rw [count_insert] at h2
        simp only [St.at, Pc.due, List.count_nil] at h1 ⊢
        omega
      · rcases mem_of_set hr with rfl | hr
        · trivial
        · exact h.ins r hr
    · exact h
  | go t =>
    simp only [St.step]
    cases hp : s.pcs[t]? with
    | none => exact h
    | some p =>
      simp only
      have hi := h.ins p (List.mem_of_getElem? hp)
      cases p with
      | idle => exact h
      | scan j m i rest acc =>
        cases j with
        | rem c => exact absurd hi (fun h => h)
        | ins c =>
          cases rest with
          | nil => exact bag_move h hp trivial rfl
          | cons y ys =>
            simp only [St.next]
            split
            · exact bag_move h hp trivial rfl
            · exact bag_move h hp trivial rfl
      | child j m i mi =>
        cases j with
        | rem c => exact absurd hi (fun h => h)
        | ins c =>
          exact bag_move (s := { s with children := Function.update s.children m (Py.insert (s.children m) i c) }) ⟨h.count, h.ins⟩ hp
            (q := .list (.ins c) mi) trivial rfl
      | list j mi =>
        cases j with
        | rem c => exact absurd hi (fun h => h)
        | ins c =>
          refine ⟨fun x => ?_, fun r hr => ?_⟩
          · have h1 := count_set s.pcs t _ (.tell (.ins c) mi) hp x
            have h3 := h.count x
            simp only [St.next, St.at, Pc.due, List.count_nil, count_insert] at h1 ⊢
            omega
          · rcases mem_of_set hr with rfl | hr
            · trivial
            · exact h.ins r hr
      | tell j mi =>
        cases j with
        | rem c => exact absurd hi (fun h => h)
        | ins c =>
          exact bag_move (s := { s with log := s.log ++ [Notif.inserted c mi] }) ⟨h.count, h.ins⟩ hp (q := .idle) trivial rfl

omit [DecidableEq M] in
theorem bag_start [DecidableEq C] (master : List M) (kids : M → List C) (n : Nat) : Bag master (St.start master kids n) := by
  refine ⟨fun x => ?_, fun p hp => ?_⟩
  · have : (List.replicate n (Pc.idle : Pc M C)).flatMap Pc.due = [] := by
      rw [List.flatMap_eq_nil_iff]
      intro p hp
      rw [List.eq_of_mem_replicate hp]; rfl
    simp only [St.start, this, List.count_nil, Nat.add_zero]
  · rw [List.eq_of_mem_replicate hp]; trivial

/-- C127, the part that holds for threads that only insert children: under every schedule, when no thread is in a notification, the items
are the children of the master items, each as often as it is a child. (Missing: their order, and removals.) -/
theorem C127_inserts_partial (master : List M) (hn : master.Nodup) (kids : M → List C) (n : Nat) (as : List (Act M C))
    (ha : ∀ a ∈ as, a.Inserts master) :
    let s := (St.start master kids n).run master as
    s.Quiet → s.items.Perm (master.flatMap s.kids) := by
  classical
  intro s hq
  have key : ∀ s : St M C, Bag master s → Bag master (s.run master as) := by
    clear s hq
    induction as with
    | nil => exact fun s h => h
    | cons a as ih =>
      intro s h
      exact ih (fun b hb => ha b (by simp [hb])) _ (bag_step hn h a (ha a (by simp)))
  have h := key _ (bag_start master kids n)
  rw [List.perm_iff_count]
  intro x
  have h1 := h.count x
  have : s.pcs.flatMap Pc.due = [] := by
    rw [List.flatMap_eq_nil_iff]
    intro p hp
    rw [hq p hp]; rfl
  rw [this] at h1
  simpa using h1

/-! ### One notification at a time -/

/-- What a notification does to a list at an index. -/
def Does : Job C → List C → Nat → List C → Prop
  | .ins c, l, i, l' => i ≤ l.length ∧ l' = l.insertIdx i c
  | .rem c, l, i, l' => l[i]? = some c ∧ l' = l.eraseIdx i

theorem does_flat {j : Job C} {children : M → List C} {m : M} {i : Nat} {l' : List C} {pre post : List M} (h1 : m ∉ pre) (h2 : m ∉ post)
    (h : Does j (children m) i l') :
    Does j ((pre ++ m :: post).flatMap children) ((pre.flatMap children).length + i)
      ((pre ++ m :: post).flatMap (Function.update children m l')) := by
  have e : (pre ++ m :: post).flatMap children = pre.flatMap children ++ children m ++ post.flatMap children := by
    simp [List.flatMap_append, List.flatMap_cons]
  have e' : (pre ++ m :: post).flatMap (Function.update children m l') = pre.flatMap children ++ l' ++ post.flatMap children := by
    rw [List.flatMap_append, List.flatMap_cons, flatMap_update h1, flatMap_update h2]; simp
  rw [e, e']
  cases j with
  | ins c =>
    obtain ⟨hi, rfl⟩ := h
    exact ⟨by simp; omega, (insertIdx_middle _ _ _ _ hi _).symm⟩
  | rem c =>
    obtain ⟨hi, rfl⟩ := h
    have hlt : i < (children m).length := by
      by_contra hh
      rw [List.getElem?_eq_none (by omega)] at hi; cases hi
    refine ⟨?_, (eraseIdx_middle _ _ _ _ hlt).symm⟩
    rw [List.getElem?_append_left (by simp; omega), List.getElem?_append_right (by omega)]
    simpa using hi

omit [DecidableEq M] in
theorem does_replay {j : Job C} {a l l' : List C} {i : Nat} {ns : List (Notif C)} (hr : Replays a ns l) (h : Does j l i l') :
    Replays a (ns ++ [match j with | .ins c => Notif.inserted c i | .rem c => Notif.removed c i]) l' := by
  cases j with
  | ins c =>
    obtain ⟨hi, rfl⟩ := h
    refine hr.append ?_
    rw [← Py.insert_nat hi]
    exact .ins (.nil _)
  | rem c =>
    obtain ⟨hi, rfl⟩ := h
    have hlt : i < l.length := by
      by_contra hh
      rw [List.getElem?_eq_none (by omega)] at hi; cases hi
    refine hr.append (.rem ?_ (Py.del?_nat hlt) (.nil _))
    rw [Py.get?_nat hlt, ← List.getElem?_eq_getElem hlt]; exact hi

/-- What holds while a thread is at `p` and the others do nothing; `l0` is the list of items at the start. -/
def At (master : List M) (l0 : List C) (s : St M C) : Pc M C → Prop
  | .idle => s.children = s.kids ∧ s.items = master.flatMap s.kids ∧ Replays l0 s.log s.items
  | .scan j m i rest acc => ∃ pre l', master = pre ++ rest ∧ m ∉ pre ∧ m ∈ rest ∧
      acc = (pre.flatMap s.children).length ∧ s.items = master.flatMap s.children ∧ s.kids = Function.update s.children m l' ∧
      Does j (s.children m) i l' ∧ Replays l0 s.log s.items
  | .child j m i mi => ∃ l', Does j s.items mi (master.flatMap s.kids) ∧ s.kids = Function.update s.children m l' ∧
      Does j (s.children m) i l' ∧ Replays l0 s.log s.items
  | .list j mi => s.children = s.kids ∧ Does j s.items mi (master.flatMap s.kids) ∧ Replays l0 s.log s.items
  | .tell j mi => ∃ old, s.children = s.kids ∧ s.items = master.flatMap s.kids ∧ Does j old mi s.items ∧ Replays l0 s.log old

/-- All threads do nothing except perhaps one. -/
def Serial (master : List M) (l0 : List C) (s : St M C) : Prop :=
  ∃ (t : Nat) (p : Pc M C), At master l0 s p ∧ (p ≠ .idle → s.pcs[t]? = some p) ∧ (∀ q, s.pcs[t]? = some q → q = p) ∧
    ∀ (t' : Nat) (q : Pc M C), t' ≠ t → s.pcs[t']? = some q → q = .idle

/-- A change of a child list begins when no thread is in a notification, at an index within the list. -/
def Act.Alone (master : List M) (s : St M C) : Act M C → Prop
  | .insert _ m _ i => s.Quiet ∧ m ∈ master ∧ i ≤ (s.kids m).length
  | .remove _ m _ => s.Quiet ∧ m ∈ master
  | .go _ => True

def AllAlone (master : List M) : St M C → List (Act M C) → Prop
  | _, [] => True
  | s, a :: as => a.Alone master s ∧ AllAlone master (s.step master a) as

theorem serial_at {master : List M} {l0 : List C} {s : St M C} {t : Nat} {p : Pc M C} (q : Pc M C) (hp : s.pcs[t]? = some p)
    (ho : ∀ (t' : Nat) (q : Pc M C), t' ≠ t → s.pcs[t']? = some q → q = .idle) (h : At master l0 (s.at t q) q) : Serial master l0 (s.at t q) := by
  have hlt : t < s.pcs.length := by
    by_contra hh
    rw [List.getElem?_eq_none (by omega)] at hp; cases hp
  refine ⟨t, q, h, fun _ => ?_, fun r hr => ?_, fun t' r ht hr => ?_⟩
  · simp [St.at, hlt]
  · simpa [St.at, hlt] using hr.symm
  · simp only [St.at] at hr
    rw [List.getElem?_set_ne (Ne.symm ht)] at hr
    exact ho t' r ht hr

theorem serial_quiet {master : List M} {l0 : List C} {s : St M C} (h : Serial master l0 s) (hq : s.Quiet) : At master l0 s .idle := by
  obtain ⟨t, p, h1, h2, _⟩ := h
  by_cases hp : p = .idle
  · rw [hp] at h1; exact h1
  · exact absurd (hq p (List.mem_of_getElem? (h2 hp))) hp

theorem serial_step {master : List M} (hn : master.Nodup) {l0 : List C} {s : St M C} (h : Serial master l0 s) (a : Act M C)
    (ha : a.Alone master s) : Serial master l0 (s.step master a) := by
  cases a with
  | insert t m c i =>
    obtain ⟨hq, hm, hi⟩ := ha
    simp only [St.step]
    split
    · rename_i hp
      obtain ⟨e1, e2, e3⟩ := serial_quiet h hq
      refine serial_at _ (s := { s with kids := Function.update s.kids m (Py.insert (s.kids m) i c) }) hp
        (fun t' q _ hr => hq q (List.mem_of_getElem? hr)) ?_
      refine ⟨[], Py.insert (s.kids m) i c, rfl, by simp, hm, by simp, by rw [e2, ← e1]; rfl, ?_, ?_, e3⟩
      · simp only [St.at, e1]
      · simp only [St.at, e1]
        exact ⟨hi, Py.insert_nat hi c⟩
    · exact h
  | remove t m i =>
    obtain ⟨hq, hm⟩ := ha
    simp only [St.step]
    split
    · rename_i c hp hc
      obtain ⟨e1, e2, e3⟩ := serial_quiet h hq
      refine serial_at _ (s := { s with kids := Function.update s.kids m ((s.kids m).eraseIdx i) }) hp
        (fun t' q _ hr => hq q (List.mem_of_getElem? hr)) ?_
      refine ⟨[], (s.kids m).eraseIdx i, rfl, by simp, hm, by simp, by rw [e2, ← e1]; rfl, ?_, ?_, e3⟩
      · simp only [St.at, e1]
      · simp only [St.at, e1]
        exact ⟨hc, rfl⟩
    · exact h
  | go t =>
    simp only [St.step]
    cases hp : s.pcs[t]? with
    | none => exact h
    | some p =>
      simp only
      by_cases hpi : p = .idle
      · subst hpi; exact h
      obtain ⟨t0, p0, h1, _, h2, h3⟩ := h
      have ht : t = t0 := by
        by_contra hne
        exact hpi (h3 t p hne hp)
      subst ht
      have hp0 : p = p0 := h2 p hp
      subst hp0
      cases p with
      | idle => exact absurd rfl hpi
      | scan j m i rest acc =>
        obtain ⟨pre, l', e1, e2, e3, e4, e5, e6, e7, e8⟩ := h1
        cases rest with
        | nil => simp at e3
        | cons x xs =>
          simp only [St.next]
          split
          · rename_i hx
            subst hx
            refine serial_at _ hp h3 ⟨l', ?_, e6, e7, e8⟩
            have hx2 : x ∉ xs := by
              rw [e1] at hn
              exact (List.nodup_cons.1 (List.nodup_append.1 hn).2.1).1
            simp only [St.at]
            rw [e5, e4, e6, e1]
            exact does_flat e2 hx2 e7
          · rename_i hx
            refine serial_at _ hp h3 ⟨pre ++ [x], l', by simp [e1], ?_, ?_, ?_, e5, e6, e7, e8⟩
            · simp only [List.mem_append, List.mem_singleton, not_or]
              exact ⟨e2, fun hh => hx hh.symm⟩
            · rcases List.mem_cons.1 e3 with hh | hh
              · exact absurd hh.symm hx
              · exact hh
            · simp [St.at, e4]
      | child j m i mi =>
        obtain ⟨l', e1, e2, e3, e4⟩ := h1
        cases j with
        | ins c =>
          obtain ⟨hi, rfl⟩ := e3
          refine serial_at _ (s := { s with children := Function.update s.children m (Py.insert (s.children m) i c) }) hp h3
            ⟨?_, e1, e4⟩
          simp only [St.at]
          rw [Py.insert_nat hi, e2]
        | rem c =>
          obtain ⟨hi, rfl⟩ := e3
          have hlt : i < (s.children m).length := by
            by_contra hh
            rw [List.getElem?_eq_none (by omega)] at hi; cases hi
          simp only [St.next, Py.del?_nat hlt]
          refine serial_at _ (s := { s with children := Function.update s.children m ((s.children m).eraseIdx i) }) hp h3
            ⟨?_, e1, e4⟩
          simp only [St.at]
          rw [e2]
      | list j mi =>
        obtain ⟨e1, e2, e3⟩ := h1
        cases j with
        | ins c =>
          have hd := e2
          obtain ⟨hi, he⟩ := e2
          refine serial_at _ (s := { s with items := Py.insert s.items mi c }) hp h3 ⟨s.items, e1, ?_, ?_, e3⟩
          · simp only [St.at]; rw [Py.insert_nat hi, he]
          · simp only [St.at]; rw [Py.insert_nat hi, ← he]; exact hd
        | rem c =>
          have hd := e2
          obtain ⟨hi, he⟩ := e2
          have hlt : mi < s.items.length := by
            by_contra hh
            rw [List.getElem?_eq_none (by omega)] at hi; cases hi
          simp only [St.next, Py.del?_nat hlt]
          refine serial_at _ (s := { s with items := s.items.eraseIdx mi }) hp h3 ⟨s.items, e1, ?_, ?_, e3⟩
          · simp only [St.at]; rw [he]
          · simp only [St.at]; rw [← he]; exact hd
      | tell j mi =>
        obtain ⟨old, e1, e2, e3, e4⟩ := h1
        have hr := does_replay e4 e3
        cases j with
        | ins c => exact serial_at _ (s := { s with log := s.log ++ [Notif.inserted c mi] }) hp h3 ⟨e1, e2, hr⟩
        | rem c => exact serial_at _ (s := { s with log := s.log ++ [Notif.removed c mi] }) hp h3 ⟨e1, e2, hr⟩

/-- C127, the part that holds for notifications that do not overlap: under every schedule in which a child list is changed only when no thread
is in a notification, with indexes within the list, whenever no thread is in one the items are the children of the master items in
order, and the notifications replay to them. (Missing: changes during another thread's notification, for which it is false.) -/
theorem C127_serial_partial (master : List M) (hn : master.Nodup) (kids : M → List C) (n : Nat) (as : List (Act M C))
    (ha : AllAlone master (St.start master kids n) as) :
    let s := (St.start master kids n).run master as
    s.Quiet → s.items = master.flatMap s.kids ∧ Replays (master.flatMap kids) s.log s.items := by
  intro s hq
  have key : ∀ s : St M C, Serial master (master.flatMap kids) s → AllAlone master s as → Serial master (master.flatMap kids) (s.run master as) := by
    clear s hq ha
    induction as with
    | nil => exact fun s h _ => h
    | cons a as ih => exact fun s h ha => ih _ (serial_step hn h a ha.1) ha.2
  have h0 : Serial master (master.flatMap kids) (St.start master kids n) := by
    have hi : ∀ (t : Nat) (q : Pc M C), (St.start master kids n).pcs[t]? = some q → q = .idle := fun t q hq =>
      List.eq_of_mem_replicate (List.mem_of_getElem? hq)
    exact ⟨0, .idle, ⟨rfl, rfl, .nil _⟩, fun hh => absurd rfl hh, hi 0, fun t q _ => hi t q⟩
  exact (serial_quiet (key _ h0 ha) hq).2

end

/-! ### Counterexamples and cases -/

/-- the schedule lets thread `t` do `k` steps -/
def steps (t k : Nat) : List (Act Nat Nat) := List.replicate k (.go t)

/-- two master items with the children `[10]` and `[20]` -/
def two : St Nat Nat := St.start [1, 2] (fun m => [10 * m]) 2

/-- C127 is false for the order: thread 0 has found the place of 29 at the end when thread 1 inserts 11 and 12 before 10; the items
become `[11, 12, 29, …]`. -/
theorem C127_counterexample_order :
    let s := two.run [1, 2] ([.insert 0 2 29 1] ++ steps 0 2 ++ [.insert 1 1 11 0] ++ steps 1 4 ++ [.insert 1 1 12 1] ++ steps 1 4 ++ steps 0 3)
    s.pcs = [.idle, .idle] ∧ [1, 2].flatMap s.kids = [11, 12, 10, 20, 29] ∧ s.items = [11, 12, 29, 10, 20] := by decide

/-- C127 is false for removals: thread 0 removes 20, thread 1 inserts 11 meanwhile; 10 goes instead of 20. -/
theorem C127_counterexample_remove :
    let s := two.run [1, 2] ([.remove 0 2 0] ++ steps 0 2 ++ [.insert 1 1 11 0] ++ steps 1 4 ++ steps 0 3)
    s.pcs = [.idle, .idle] ∧ [1, 2].flatMap s.kids = [11, 10] ∧ s.items = [11, 20] ∧
    s.log = [.inserted 11 0, .removed 20 1] := by decide

/-- C127 is false for observers: the two threads have changed the items in one order and tell about it in the other; the items are
right, the observer's copy is not. -/
theorem C127_counterexample_told :
    let s := two.run [1, 2] ([.insert 0 1 11 0] ++ steps 0 3 ++ [.insert 1 1 12 1] ++ steps 1 4 ++ steps 0 1)
    s.pcs = [.idle, .idle] ∧ s.items = [11, 12, 10, 20] ∧ [1, 2].flatMap s.kids = s.items ∧ s.log = [.inserted 12 1, .inserted 11 0] ∧
    ReplaysIdx [10, 20] s.log [11, 10, 12, 20] := by
  refine ⟨by decide, by decide, by decide, by decide, ?_⟩
  exact .ins (.ins (.nil _))

/-- two insertions and a removal by different threads, one after the other -/
example :
    let as := [.insert 0 2 29 1] ++ steps 0 5 ++ [.insert 1 1 11 0] ++ steps 1 4 ++ [.remove 0 2 0] ++ steps 0 5
    let s := two.run [1, 2] as
    s.pcs = [.idle, .idle] ∧ s.items = [11, 10, 29] ∧ [1, 2].flatMap s.kids = [11, 10, 29] := by decide

end Verif.ListModel.FlatThreads
