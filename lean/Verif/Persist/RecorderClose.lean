import Mathlib.Data.List.Basic
import Mathlib.Data.List.Perm.Basic
import Mathlib.Data.List.Nodup
import Mathlib.Tactic.Common

/-!
C171: closing a recorder (`nion/utils/Recorder.py`, lines 14-55, 69-103), with all handlers, also those that raise, and objects that
contain objects to any depth.

The recorders are numbered. A recorder owns the recorders of the objects in its object; that is the tree `RT`. Apart from that there is
the list `live` of the recorders that listen: the two are independent, a recorder dropped without being closed would go on recording.
The recorded objects are not modelled: any event may come at any time, with any content of the object inserted (so also a tree that is not
what the recorders think it is). An index is an integer, as given to `insert_item`.

A handler that raises ends the loop over the listeners (`Event.py:126-141`). Entries of the log carry the number of the recorder.
-/

namespace Verif.Persist.RecorderClose

/-- What an object holds another one as: item with a name, or member of the relationship with a name. -/
inductive Slot where
  | item (k : Nat)
  | rel (r : Nat)
  deriving DecidableEq

/-- The objects in an object, with the objects in them. -/
inductive Shape where
  | nil
  | cons (slot : Slot) (o : Nat) (kids rest : Shape)

/-- The recorders that a recorder owns (`__item_recorders`, `__relationship_recorders`): number, object, and the recorders they own. -/
inductive RT where
  | nil
  | cons (slot : Slot) (id o : Nat) (kids rest : RT)
  deriving DecidableEq

inductive Event where
  | prop (k : Nat)
  | itemSet (k : Nat)
  | inserted (r : Nat) (i : Int) (o : Nat) (kids : Shape)
  | removed (r : Nat) (i : Int)

inductive Entry where
  | set (id k : Nat)
  | insert (id r : Nat) (i : Int) (o : Nat)
  | remove (id r : Nat) (i : Int)
  deriving DecidableEq

/-- `top` is what the first recorder (number 0) owns, `none` after `close`. `live`: the recorders that listen and their objects, in the order in which
they were made. -/
structure St where
  top : Option RT
  live : List (Nat × Nat)
  next : Nat
  log : List Entry
  printed : Nat
  deriving DecidableEq

/-- Lines 14-36 for the objects contained in an object: each listens (18-22) before the recorders it owns are made. -/
def make : Shape → Nat → RT × List (Nat × Nat) × Nat
  | .nil, n => (.nil, [], n)
  | .cons slot o kids rest, n =>
    let a := make kids (n + 1)
    let b := make rest a.2.2
    (.cons slot n o a.1 b.1, (n, o) :: a.2.1 ++ b.2.1, b.2.2)

/-- Lines 38-55 for recorders: the listeners are closed, then the recorders owned. `false`: the recorder was closed before, and `None.close()` raises. -/
def closeAll : RT → List (Nat × Nat) → List (Nat × Nat) × Bool
  | .nil, live => (live, true)
  | .cons _ id _ kids rest, live =>
    if live.any (fun p => p.1 == id) then
      match closeAll kids (live.filter fun p => p.1 != id) with
      | (live1, false) => (live1, false)
      | (live1, true) => closeAll rest live1
    else (live, false)

/-- How many recorders there are in a slot. -/
def RT.count (slot : Slot) : RT → Nat
  | .nil => 0
  | .cons s _ _ _ rest => (if s = slot then 1 else 0) + rest.count slot

/-- Take the last recorder of a slot. -/
def RT.takeLast (slot : Slot) : RT → RT × RT
  | .nil => (.nil, .nil)
  | .cons s id o kids rest =>
    if rest.count slot = 0 ∧ s = slot then (rest, .cons s id o kids .nil)
    else ((RT.cons s id o kids (rest.takeLast slot).1), (rest.takeLast slot).2)

/-- Put recorders at the end. -/
def RT.append : RT → RT → RT
  | .nil, t => t
  | .cons s id o kids rest, t => .cons s id o kids (rest.append t)

/-- The handlers (69-103) of recorder `id`, which owns `kids`: what it owns then, the listeners, the next number, what is logged, and whether it raises. -/
def handle (rec : Nat → Nat → Bool) (id o : Nat) (kids : RT) (live : List (Nat × Nat)) (next : Nat) : Event → RT × List (Nat × Nat) × Nat × List Entry × Bool
  | .prop k => (kids, live, next, if rec o k then [.set id k] else [], false)
  | .itemSet k =>
    if kids.count (.item k) = 0 then (kids, live, next, [], true)
    else
      let t := kids.takeLast (.item k)
      (t.1, (closeAll t.2 live).1, next, [], true)
  | .inserted r i o' shape =>
    if kids.count (.rel r) ≠ 0 ∧ i < kids.count (.rel r) then (kids, live, next, [], true)
    else
      let m := make (.cons (.rel r) o' shape .nil) next
      (kids.append m.1, live ++ m.2.1, m.2.2, [.insert id r i o'], false)
  | .removed r i =>
    if i + 1 = kids.count (.rel r) ∧ kids.count (.rel r) ≠ 0 then
      let t := kids.takeLast (.rel r)
      let c := closeAll t.2 live
      if c.2 then (t.1, c.1, next, [.remove id r i], false) else (t.1, c.1, next, [], true)
    else (kids, live, next, [], true)

/-- The recorder with a number among recorders: what it owns is replaced; the second component says what it owned. -/
def RT.find (id : Nat) : RT → Option RT
  | .nil => none
  | .cons _ id' _ kids rest => if id' = id then some kids else (kids.find id).orElse fun _ => rest.find id

def RT.put (id : Nat) : RT → RT → RT
  | .nil, _ => .nil
  | .cons s id' o kids rest, new => if id' = id then .cons s id' o new rest else .cons s id' o (kids.put id new) (rest.put id new)

/-- What recorder `id` owns; a recorder that nobody owns any more has nothing. -/
def St.owned (s : St) (id : Nat) : RT :=
  match s.top with
  | none => .nil
  | some t => if id = 0 then t else (t.find id).getD .nil

def St.setOwned (s : St) (id : Nat) (new : RT) : Option RT :=
  s.top.map fun t => if id = 0 then new else t.put id new

/-- The loop of `Event.fire` over the recorders that listened when it began; one closed meanwhile does nothing, an exception ends it. -/
def fire (rec : Nat → Nat → Bool) (o : Nat) (e : Event) : List (Nat × Nat) → St → St
  | [], s => s
  | p :: l, s =>
    if p.2 = o ∧ p ∈ s.live then
      let h := handle rec p.1 o (s.owned p.1) s.live s.next e
      let s1 : St := ⟨s.setOwned p.1 h.1, h.2.1, h.2.2.1, s.log ++ h.2.2.2.1, s.printed⟩
      if h.2.2.2.2 then { s1 with printed := s1.printed + 1 } else fire rec o e l s1
    else fire rec o e l s

inductive Op where
  | event (o : Nat) (e : Event)
  | close

/-- `close` of the first recorder (38-55); `false` if it raises. -/
def St.close (s : St) : St × Bool :=
  match s.top with
  | none => (s, false)
  | some t =>
    let c := closeAll (.cons (.item 0) 0 0 t .nil) s.live
    ({ s with top := none, live := c.1 }, c.2)

def step (rec : Nat → Nat → Bool) (s : St) : Op → St
  | .event o e => fire rec o e s.live s
  | .close => s.close.1

def run (rec : Nat → Nat → Bool) (s : St) (ops : List Op) : St := ops.foldl (step rec) s

/-- A recorder for object `o`. -/
def init (o : Nat) (shape : Shape) : St :=
  let m := make shape 1
  ⟨some m.1, (0, o) :: m.2.1, m.2.2, [], 0⟩

/-! ### Specification -/

/-- The recorders in a tree, with their objects. -/
def RT.all : RT → List (Nat × Nat)
  | .nil => []
  | .cons _ id o kids rest => (id, o) :: kids.all ++ rest.all

/-- The recorders there should be: the first and those it owns. -/
def St.owners (root : Nat) (s : St) : List (Nat × Nat) :=
  match s.top with
  | none => []
  | some t => (0, root) :: t.all

/-! ### Proofs -/

structure Good (root : Nat) (s : St) : Prop where
  live : s.live.Perm (s.owners root)
  distinct : (s.live.map Prod.fst).Nodup
  fresh : ∀ p ∈ s.live, p.1 < s.next
  pos : 0 < s.next

theorem make_spec (sh : Shape) : ∀ n, (make sh n).2.1 = (make sh n).1.all ∧ n ≤ (make sh n).2.2 ∧
    (∀ p ∈ (make sh n).2.1, n ≤ p.1 ∧ p.1 < (make sh n).2.2) ∧ ((make sh n).2.1.map Prod.fst).Nodup := by
  induction sh with
  | nil => intro n; simp [make, RT.all]
  | cons slot o kids rest ih1 ih2 =>
    intro n
    obtain ⟨a1, a2, a3, a4⟩ := ih1 (n + 1)
    obtain ⟨b1, b2, b3, b4⟩ := ih2 (make kids (n + 1)).2.2
    simp only [make]
    refine ⟨by simp [RT.all, a1, b1], by omega, ?_, ?_⟩
    · intro p hp
      simp only [List.cons_append, List.mem_cons, List.mem_append] at hp
      rcases hp with rfl | hp | hp
      · exact ⟨Nat.le_refl _, by simp only; omega⟩
      · have := a3 p hp; omega
      · have := b3 p hp; omega
    · simp only [List.cons_append, List.map_cons, List.map_append, List.nodup_cons, List.mem_append, List.mem_map, not_or]
      refine ⟨⟨?_, ?_⟩, List.nodup_append.2 ⟨a4, b4, ?_⟩⟩
      · rintro ⟨p, hp, e⟩; have := a3 p hp; omega
      · rintro ⟨p, hp, e⟩; have := b3 p hp; omega
      · intro x hx y hy e
        obtain ⟨p, hp, rfl⟩ := List.mem_map.1 hx
        obtain ⟨q, hq, rfl⟩ := List.mem_map.1 hy
        have := a3 p hp; have := b3 q hq; omega

/-- Closing recorders that all listen, once each: exactly these no longer listen, and nothing is raised. -/
theorem closeAll_spec (t : RT) : ∀ (live rest : List (Nat × Nat)), live.Perm (t.all ++ rest) → (live.map Prod.fst).Nodup →
    ∃ live1, closeAll t live = (live1, true) ∧ live1.Perm rest ∧ live1.Sublist live := by
  induction t with
  | nil => intro live rest hp _; exact ⟨live, rfl, by simpa [RT.all] using hp, List.Sublist.refl _⟩
  | cons s id o kids more ih1 ih2 =>
    intro live rest hp hd
    have hmem : (id, o) ∈ live := hp.symm.subset (by simp [RT.all])
    have hany : live.any (fun p => p.1 == id) = true := by
      rw [List.any_eq_true]; exact ⟨_, hmem, by simp⟩
    have hd' : (((id, o) :: (kids.all ++ (more.all ++ rest))).map Prod.fst).Nodup := by
      have := (hp.map Prod.fst).nodup_iff.1 hd
      simpa [RT.all] using this
    have hp1 : (live.filter fun p => p.1 != id).Perm (kids.all ++ (more.all ++ rest)) := by
      have h1 := hp.filter (fun p : Nat × Nat => p.1 != id)
      refine h1.trans ?_
      have h2 : ((RT.cons s id o kids more).all ++ rest).filter (fun p => p.1 != id) = kids.all ++ (more.all ++ rest) := by
        simp only [RT.all, List.cons_append, List.append_assoc, List.filter_cons, bne_self_eq_false, Bool.false_eq_true, if_false]
        rw [List.filter_eq_self]
        intro p hpm
        simp only [List.map_cons, List.nodup_cons] at hd'
        simp only [bne_iff_ne, ne_eq]
        intro e
        exact hd'.1 (e ▸ List.mem_map_of_mem hpm)
      rw [h2]
    have hd1 : ((live.filter fun p => p.1 != id).map Prod.fst).Nodup := (List.filter_sublist.map _).nodup hd
    obtain ⟨live1, e1, p1, s1⟩ := ih1 _ _ hp1 hd1
    obtain ⟨live2, e2, p2, s2⟩ := ih2 live1 rest p1 ((s1.map _).nodup hd1)
    refine ⟨live2, ?_, p2, s2.trans (s1.trans List.filter_sublist)⟩
    rw [closeAll, if_pos hany, e1]
    exact e2

theorem append_all (t u : RT) : (t.append u).all = t.all ++ u.all := by
  induction t with
  | nil => rfl
  | cons s id o kids rest _ ih => simp [RT.append, RT.all, ih]

theorem takeLast_all (slot : Slot) (t : RT) : t.all.Perm ((t.takeLast slot).2.all ++ (t.takeLast slot).1.all) := by
  induction t with
  | nil => simp [RT.takeLast, RT.all]
  | cons s id o kids rest _ ih =>
    simp only [RT.takeLast]
    split
    · simp [RT.all]
    · simp only [RT.all]
      calc (id, o) :: kids.all ++ rest.all = ((id, o) :: kids.all) ++ rest.all := rfl
        _ |>.Perm (((id, o) :: kids.all) ++ ((rest.takeLast slot).2.all ++ (rest.takeLast slot).1.all)) := ih.append_left _
        _ |>.Perm ((rest.takeLast slot).2.all ++ (((id, o) :: kids.all) ++ (rest.takeLast slot).1.all)) := by
          rw [← List.append_assoc, ← List.append_assoc]
          exact (List.perm_append_comm).append_right _

theorem handle_spec (rec : Nat → Nat → Bool) (id o : Nat) (kids : RT) (live : List (Nat × Nat)) (next : Nat) (e : Event) (others : List (Nat × Nat))
    (hp : live.Perm (kids.all ++ others)) (hd : (live.map Prod.fst).Nodup) (hn : ∀ p ∈ live, p.1 < next) :
    ∃ kids1 live1 next1 l b, handle rec id o kids live next e = (kids1, live1, next1, l, b) ∧ live1.Perm (kids1.all ++ others) ∧
      (live1.map Prod.fst).Nodup ∧ (∀ p ∈ live1, p.1 < next1) ∧ next ≤ next1 := by
  cases e with
  | prop k => exact ⟨_, _, _, _, _, rfl, hp, hd, hn, Nat.le_refl _⟩
  | itemSet k =>
    rw [handle]
    split
    · exact ⟨_, _, _, _, _, rfl, hp, hd, hn, Nat.le_refl _⟩
    · have hq : live.Perm ((kids.takeLast (.item k)).2.all ++ ((kids.takeLast (.item k)).1.all ++ others)) := by
        rw [← List.append_assoc]; exact hp.trans ((takeLast_all _ kids).append_right _)
      obtain ⟨live1, e1, p1, s1⟩ := closeAll_spec _ live _ hq hd
      refine ⟨_, _, _, _, _, rfl, ?_⟩
      simp only [e1]
      exact ⟨p1, (s1.map _).nodup hd, fun p hpm => hn p (s1.subset hpm), Nat.le_refl _⟩
  | inserted r i o' shape =>
    rw [handle]
    split
    · exact ⟨_, _, _, _, _, rfl, hp, hd, hn, Nat.le_refl _⟩
    · obtain ⟨m1, m2, m3, m4⟩ := make_spec (.cons (.rel r) o' shape .nil) next
      refine ⟨_, _, _, _, _, rfl, ?_, ?_, ?_, m2⟩
      · rw [append_all, m1]
        calc (live ++ (make (.cons (.rel r) o' shape .nil) next).1.all)
          _ |>.Perm ((kids.all ++ others) ++ (make (.cons (.rel r) o' shape .nil) next).1.all) := hp.append_right _
          _ |>.Perm (kids.all ++ (make (.cons (.rel r) o' shape .nil) next).1.all ++ others) := by
            rw [List.append_assoc, List.append_assoc]; exact List.perm_append_comm.append_left _
      · rw [List.map_append, List.nodup_append]
        refine ⟨hd, m4, ?_⟩
        intro x hx y hy e
        obtain ⟨p, hp', rfl⟩ := List.mem_map.1 hx
        obtain ⟨q, hq', rfl⟩ := List.mem_map.1 hy
        have := hn p hp'; have := m3 q hq'; omega
      · intro p hpm
        rcases List.mem_append.1 hpm with h | h
        · exact Nat.lt_of_lt_of_le (hn p h) m2
        · exact (m3 p h).2
  | removed r i =>
    rw [handle]
    split
    · have hq : live.Perm ((kids.takeLast (.rel r)).2.all ++ ((kids.takeLast (.rel r)).1.all ++ others)) := by
        rw [← List.append_assoc]; exact hp.trans ((takeLast_all _ kids).append_right _)
      obtain ⟨live1, e1, p1, s1⟩ := closeAll_spec _ live _ hq hd
      simp only [e1, if_true]
      exact ⟨_, _, _, _, _, rfl, p1, (s1.map _).nodup hd, fun p hpm => hn p (s1.subset hpm), Nat.le_refl _⟩
    · exact ⟨_, _, _, _, _, rfl, hp, hd, hn, Nat.le_refl _⟩

theorem put_absent (id : Nat) (new : RT) (t : RT) (h : id ∉ t.all.map Prod.fst) : t.put id new = t := by
  induction t with
  | nil => rfl
  | cons s id' o kids rest ih1 ih2 =>
    simp only [RT.all, List.cons_append, List.map_cons, List.map_append, List.mem_cons, List.mem_append, not_or] at h
    simp only [RT.put, if_neg (Ne.symm h.1), ih1 h.2.1, ih2 h.2.2]

/-- Where a recorder is in the tree: the others are the same whatever it owns. -/
theorem find_put (id : Nat) (t : RT) (hd : (t.all.map Prod.fst).Nodup) (h : id ∈ t.all.map Prod.fst) :
    ∃ own others, t.find id = some own ∧ ∀ new : RT, (t.put id new).all.Perm (new.all ++ others) ∧ t.all.Perm (own.all ++ others) := by
  induction t with
  | nil => simp [RT.all] at h
  | cons s id' o kids rest ih1 ih2 =>
    simp only [RT.all, List.cons_append, List.map_cons, List.map_append, List.nodup_cons, List.mem_append, not_or] at hd
    obtain ⟨⟨n1, n2⟩, hd2⟩ := hd
    obtain ⟨d1, d2, d3⟩ := List.nodup_append.1 hd2
    by_cases e : id' = id
    · subst e
      refine ⟨kids, (id', o) :: rest.all, by simp [RT.find], fun new => ⟨?_, ?_⟩⟩
      · simp only [RT.put, if_true, RT.all, List.cons_append]
        exact (List.perm_middle (a := (id', o)) (l₁ := new.all) (l₂ := rest.all)).symm
      · simp only [RT.all, List.cons_append]
        exact (List.perm_middle (a := (id', o)) (l₁ := kids.all) (l₂ := rest.all)).symm
    · simp only [RT.all, List.cons_append, List.map_cons, List.map_append, List.mem_cons, List.mem_append] at h
      rcases h with h | h | h
      · exact absurd h.symm e
      · have hr : id ∉ rest.all.map Prod.fst := fun h' => d3 _ h _ h' rfl
        obtain ⟨own, others, f1, f2⟩ := ih1 d1 h
        refine ⟨own, (id', o) :: (others ++ rest.all), by simp [RT.find, e, f1], fun new => ⟨?_, ?_⟩⟩
        · simp only [RT.put, if_neg e, RT.all, put_absent id new rest hr, List.cons_append]
          refine ((((f2 new).1.append_right rest.all).cons (id', o)).trans ?_)
          rw [List.append_assoc]
          exact (List.perm_middle (a := (id', o)) (l₁ := new.all)).symm
        · simp only [RT.all, List.cons_append]
          refine ((((f2 new).2.append_right rest.all).cons (id', o)).trans ?_)
          rw [List.append_assoc]
          exact (List.perm_middle (a := (id', o)) (l₁ := own.all)).symm
      · have hr : id ∉ kids.all.map Prod.fst := fun h' => d3 _ h' _ h rfl
        have hf : kids.find id = none := by
          clear ih1 ih2 d1 d3 n1 hd2
          induction kids with
          | nil => rfl
          | cons s id2 o kids rest i1 i2 =>
            simp only [RT.all, List.cons_append, List.map_cons, List.map_append, List.mem_cons, List.mem_append, not_or] at hr
            simp [RT.find, Ne.symm hr.1, i1 hr.2.1, i2 hr.2.2]
        obtain ⟨own, others, f1, f2⟩ := ih2 d2 h
        refine ⟨own, (id', o) :: (kids.all ++ others), by simp [RT.find, e, hf, f1], fun new => ⟨?_, ?_⟩⟩
        · simp only [RT.put, if_neg e, RT.all, put_absent id new kids hr, List.cons_append]
          refine ((((f2 new).1.append_left kids.all).cons (id', o)).trans ?_)
          refine List.Perm.trans ?_ (List.perm_middle (a := (id', o)) (l₁ := new.all)).symm
          refine List.Perm.cons _ ?_
          rw [← List.append_assoc, ← List.append_assoc]
          exact List.perm_append_comm.append_right _
        · simp only [RT.all, List.cons_append]
          refine ((((f2 new).2.append_left kids.all).cons (id', o)).trans ?_)
          refine List.Perm.trans ?_ (List.perm_middle (a := (id', o)) (l₁ := own.all)).symm
          refine List.Perm.cons _ ?_
          rw [← List.append_assoc, ← List.append_assoc]
          exact List.perm_append_comm.append_right _

theorem fire_good (rec : Nat → Nat → Bool) (root o : Nat) (e : Event) (l : List (Nat × Nat)) : ∀ s : St, Good root s → Good root (fire rec o e l s) := by
  induction l with
  | nil => exact fun s h => h
  | cons p l ih =>
    intro s h
    rw [fire]
    split
    · rename_i hm
      obtain ⟨_, hm⟩ := hm
      cases ht : s.top with
      | none =>
        have := h.live
        rw [St.owners, ht] at this
        rw [this.eq_nil] at hm
        cases hm
      | some t =>
        have hl := h.live
        simp only [St.owners, ht] at hl
        have hd : ((((0, root) :: t.all)).map Prod.fst).Nodup := (hl.map Prod.fst).nodup_iff.1 h.distinct
        simp only [List.map_cons, List.nodup_cons] at hd
        obtain ⟨own, others, ho, h1, h2⟩ : ∃ own others, s.owned p.1 = own ∧ s.live.Perm (own.all ++ others) ∧
            ∀ new, ∃ t1, s.setOwned p.1 new = some t1 ∧ ((0, root) :: t1.all).Perm (new.all ++ others) := by
          by_cases h0 : p.1 = 0
          · refine ⟨t, [(0, root)], by simp [St.owned, ht, h0], hl.trans (List.perm_append_comm (l₁ := [(0, root)])), fun new => ⟨new, by simp [St.setOwned, ht, h0], List.perm_append_comm (l₁ := [(0, root)])⟩⟩
          · have hmem : p.1 ∈ t.all.map Prod.fst := by
              have := hl.subset hm
              rcases List.mem_cons.1 this with h' | h'
              · rw [h'] at h0; exact absurd rfl h0
              · exact List.mem_map_of_mem h'
            obtain ⟨own, others, f1, f2⟩ := find_put p.1 t hd.2 hmem
            refine ⟨own, (0, root) :: others, by simp [St.owned, ht, h0, f1], ?_, fun new => ⟨t.put p.1 new, by simp [St.setOwned, ht, h0], ?_⟩⟩
            · exact hl.trans (((f2 .nil).2.cons _).trans (List.perm_middle).symm)
            · exact ((f2 new).1.cons _).trans (List.perm_middle).symm
        obtain ⟨kids1, live1, next1, lg, b, g1, g2, g3, g4, g5⟩ := handle_spec rec p.1 o own s.live s.next e others h1 h.distinct h.fresh
        obtain ⟨t1, q1, q2⟩ := h2 kids1
        have hgood : ∀ (lg : List Entry) (n : Nat), Good root ⟨some t1, live1, next1, lg, n⟩ := fun lg n =>
          ⟨g2.trans q2.symm, g3, g4, Nat.lt_of_lt_of_le h.pos g5⟩
        simp only [ho, g1, q1]
        split
        · exact hgood _ _
        · exact ih _ (hgood _ _)
    · exact ih s h

theorem close_good (root : Nat) (s : St) (h : Good root s) : Good root s.close.1 ∧ s.close.1.live = [] ∧ s.close.1.log = s.log ∧ (s.close.2 = true ↔ s.top ≠ none) := by
  cases ht : s.top with
  | none =>
    have hl := h.live
    rw [St.owners, ht] at hl
    simp only [St.close, ht]
    exact ⟨h, hl.eq_nil, trivial, by simp⟩
  | some t =>
    have hl := h.live
    simp only [St.owners, ht] at hl
    have hall : ∃ q : Nat × Nat, True := ⟨(0, 0), trivial⟩
    clear hall
    -- the first recorder's object does not matter for closing
    have hsame : ∀ o, closeAll (.cons (.item 0) 0 0 t .nil) s.live = closeAll (.cons (.item 0) 0 o t .nil) s.live := fun _ => rfl
    obtain ⟨live1, e1, p1, _⟩ := closeAll_spec (.cons (.item 0) 0 root t .nil) s.live [] (by simpa [RT.all] using hl) h.distinct
    simp only [St.close, ht, hsame root, e1]
    have hn := p1.eq_nil
    subst hn
    exact ⟨⟨by simp [St.owners], List.nodup_nil, by simp, h.pos⟩, rfl, trivial, by simp⟩

theorem init_good (o : Nat) (shape : Shape) : Good o (init o shape) := by
  obtain ⟨m1, m2, m3, m4⟩ := make_spec shape 1
  refine ⟨by simp [init, St.owners, m1], ?_, ?_, by simp only [init]; omega⟩
  · simp only [init, List.map_cons, List.nodup_cons, List.mem_map, not_exists, not_and]
    exact ⟨fun p hp e => by have := m3 p hp; omega, m4⟩
  · intro p hp
    simp only [init, List.mem_cons] at hp ⊢
    rcases hp with rfl | hp
    · simp only; omega
    · exact (m3 p hp).2

theorem run_good (rec : Nat → Nat → Bool) (root : Nat) (ops : List Op) : ∀ s, Good root s → Good root (run rec s ops) := by
  induction ops with
  | nil => exact fun s h => h
  | cons op ops ih =>
    intro s h
    refine ih _ ?_
    cases op with
    | event o e => exact fire_good rec root o e _ s h
    | close => exact (close_good root s h).1

/-- C171: at any time the recorders that listen are exactly the first one and those it owns: none has been dropped without being closed,
none is closed that is still owned. -/
theorem C171_live (rec : Nat → Nat → Bool) (o : Nat) (shape : Shape) (ops : List Op) :
    (run rec (init o shape) ops).live.Perm ((run rec (init o shape) ops).owners o) :=
  (run_good rec o ops _ (init_good o shape)).live

theorem run_dead (rec : Nat → Nat → Bool) (ops : List Op) : ∀ s : St, s.live = [] → s.top = none → run rec s ops = s := by
  induction ops with
  | nil => exact fun s _ _ => rfl
  | cons op ops ih =>
    intro s h1 h2
    have : step rec s op = s := by
      cases op with
      | event o e => simp [step, h1, fire]
      | close => simp [step, St.close, h2]
    rw [run, List.foldl_cons, this]
    exact ih s h1 h2

/-- C171: after any history `close` does not raise (unless the recorder was closed before), and whatever happens then, nothing is
recorded any more and no handler raises. -/
theorem C171_closed (rec : Nat → Nat → Bool) (o : Nat) (shape : Shape) (ops ops' : List Op) :
    ((run rec (init o shape) ops).close.2 = true ↔ (run rec (init o shape) ops).top ≠ none) ∧
    (run rec (init o shape) (ops ++ .close :: ops')).log = (run rec (init o shape) ops).log ∧
    (run rec (init o shape) (ops ++ .close :: ops')).printed = (run rec (init o shape) ops).printed := by
  have h := run_good rec o ops _ (init_good o shape)
  obtain ⟨_, h2, h3, h4⟩ := close_good o _ h
  refine ⟨h4, ?_⟩
  have e : run rec (init o shape) (ops ++ .close :: ops') = (run rec (init o shape) ops).close.1 := by
    simp only [run, List.foldl_append, List.foldl_cons]
    refine run_dead rec ops' _ h2 ?_
    simp only [step, St.close]
    split
    · assumption
    · rfl
  rw [e]
  refine ⟨h3, ?_⟩
  simp only [St.close]
  split <;> rfl

/-- Not closed before: no `close` in the history. -/
theorem top_open (rec : Nat → Nat → Bool) (ops : List Op) (h : Op.close ∉ ops) : ∀ s : St, s.top ≠ none → (run rec s ops).top ≠ none := by
  induction ops with
  | nil => exact fun s h => h
  | cons op ops ih =>
    intro s hs
    simp only [List.mem_cons, not_or] at h
    refine ih h.2 _ ?_
    cases op with
    | close => exact absurd rfl h.1
    | event o e =>
      have : ∀ (l : List (Nat × Nat)) (s : St), s.top ≠ none → (fire rec o e l s).top ≠ none := by
        intro l
        induction l with
        | nil => exact fun s h => h
        | cons p l ih =>
          intro s hs
          have hset : ∀ new, s.setOwned p.1 new ≠ none := fun new => by
            cases ht : s.top with
            | none => exact absurd ht hs
            | some t => simp [St.setOwned, ht]
          rw [fire]
          split
          · simp only
            split
            · exact hset _
            · exact ih _ (hset _)
          · exact ih s hs
      exact this _ s hs

theorem C171_close_ok (rec : Nat → Nat → Bool) (o : Nat) (shape : Shape) (ops : List Op) (h : Op.close ∉ ops) :
    (run rec (init o shape) ops).close.2 = true :=
  (C171_closed rec o shape ops []).1.2 (top_open rec ops h _ (by simp [init]))

theorem fire_prop (rec : Nat → Nat → Bool) (o k : Nat) (l : List (Nat × Nat)) : ∀ s : St, (∀ p ∈ l, p ∈ s.live) → s.top ≠ none →
    (fire rec o (.prop k) l s).log = s.log ++ if rec o k then (l.filter fun p => p.2 = o).map fun p => Entry.set p.1 k else [] := by
  induction l with
  | nil => intro s _ _; simp [fire]
  | cons p l ih =>
    intro s h ht
    have hp := h p List.mem_cons_self
    rw [fire]
    by_cases e : p.2 = o
    · rw [if_pos ⟨e, hp⟩]
      simp only [handle, Bool.false_eq_true, if_false]
      refine (ih _ ?_ ?_).trans ?_
      · exact fun q hq => h q (List.mem_cons_of_mem _ hq)
      · cases ht' : s.top with
        | none => exact absurd ht' ht
        | some t => simp [St.setOwned, ht']
      cases hr : rec o k <;> simp [e]
    · rw [if_neg (by simp [e]), ih s (fun q hq => h q (List.mem_cons_of_mem _ hq)) ht]
      simp [e]

/-- C171: until then a change of a property is recorded once for each recorder of the object in the tree, by this recorder, if the
property is recordable, and not at all otherwise. -/
theorem C171_property (rec : Nat → Nat → Bool) (o : Nat) (shape : Shape) (ops : List Op) (h : Op.close ∉ ops) (x k : Nat) :
    ∃ l, (run rec (init o shape) (ops ++ [.event x (.prop k)])).log = (run rec (init o shape) ops).log ++ l ∧
      l.Perm (if rec x k then (((run rec (init o shape) ops).owners o).filter fun p => p.2 = x).map fun p => Entry.set p.1 k else []) := by
  have hl := C171_live rec o shape ops
  have ht := top_open rec ops h (init o shape) (by simp [init])
  have e0 : run rec (init o shape) (ops ++ [.event x (.prop k)]) = fire rec x (.prop k) (run rec (init o shape) ops).live (run rec (init o shape) ops) := by
    simp only [run, List.foldl_append, List.foldl_cons, List.foldl_nil, step]
  have e := fire_prop rec x k _ (run rec (init o shape) ops) (fun _ h => h) ht
  rw [← e0] at e
  refine ⟨_, e, ?_⟩
  · split
    · exact (hl.filter _).map _
    · exact List.Perm.refl _

/-- an object 1 with an item 2 (name 0) and members 3, 4 of relationship 0; 4 contains 5. A change of 5 is recorded, inserting 6 at 0 raises, removing 4
(index 1) is recorded and closes the recorders of 4 and 5; then changes of 5 are not recorded any more -/
example :
    let sh : Shape := .cons (.item 0) 2 .nil (.cons (.rel 0) 3 .nil (.cons (.rel 0) 4 (.cons (.rel 0) 5 .nil .nil) .nil))
    let s := run (fun _ _ => true) (init 1 sh) [.event 5 (.prop 7), .event 1 (.inserted 0 0 6 .nil), .event 1 (.removed 0 1), .event 5 (.prop 8), .event 3 (.prop 9)]
    s.log = [.set 4 7, .remove 0 0 1, .set 2 9] ∧ s.printed = 1 ∧ s.live = [(0, 1), (1, 2), (2, 3)] ∧
      (run (fun _ _ => true) s [.close, .event 3 (.prop 9), .event 1 (.prop 9)]).log = s.log ∧ s.close.2 = true ∧ s.close.1.close.2 = false := by
  decide

/-- Setting an item with a recorder closes the recorder and raises; without one it only raises. -/
example :
    let sh : Shape := .cons (.item 0) 2 (.cons (.rel 0) 5 .nil .nil) (.cons (.rel 0) 3 .nil .nil)
    let s := run (fun _ _ => true) (init 1 sh) [.event 1 (.itemSet 0), .event 5 (.prop 7), .event 3 (.prop 8)]
    s.log = [.set 3 8] ∧ s.printed = 1 ∧ s.live = [(0, 1), (3, 3)] ∧
      (run (fun _ _ => true) s [.event 1 (.itemSet 0), .event 1 (.itemSet 4)]).live = s.live ∧
      (run (fun _ _ => true) s [.event 1 (.itemSet 0), .event 1 (.itemSet 4)]).printed = 3 := by
  decide

end Verif.Persist.RecorderClose
