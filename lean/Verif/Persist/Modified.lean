import Verif.Py.Basic
import Mathlib.Data.List.Nodup
import Mathlib.Logic.Function.Basic
import Mathlib.Logic.Relation
import Mathlib.Tactic.Common

/-!
C58: modification counts. Model of `PersistentObject.__update_modified` (`nion/utils/Persistence.py:599-605`) and the parts of
`__setattr__`, `set_item`, `insert_item`, `remove_item` (644-731) which change the tree: contained objects, `persistent_object_parent`
(a weak reference; parents are assumed to live), `modified_count`, `modified`. Storage, context and callbacks: see `Storage.lean`,
`Context.lean`.
-/

namespace Verif.Persist

open Verif.Py

/-- Objects are numbers; items and relationships of an object are numbered. -/
structure Heap where
  items : Nat → Nat → Option Nat
  rels : Nat → Nat → List Nat
  parent : Nat → Option Nat
  count : Nat → Nat
  time : Nat → Nat

def Heap.init : Heap := ⟨fun _ _ => none, fun _ _ => [], fun _ => none, fun _ => 0, fun _ => 0⟩

/-- Lines 599-605 `__update_modified`; `n` bounds the depth of the recursion. -/
def bump (t : Nat) : Nat → Nat → Heap → Heap
  | 0, _, h => h
  | n + 1, o, h =>
    let h' := { h with count := Function.update h.count o (h.count o + 1), time := Function.update h.time o t }
    match h.parent o with
    | some p => bump t n p h'
    | none => h'

inductive HOp where
  /-- assignment of a property -/
  | setProp (o : Nat)
  | setItem (p k : Nat) (v : Option Nat)
  | insert (p k : Nat) (i : Int) (c : Nat)
  | remove (p k : Nat) (c : Nat)

/-- The object operated on. -/
def HOp.target : HOp → Nat
  | .setProp o => o
  | .setItem p _ _ | .insert p _ _ _ | .remove p _ _ => p

/-- Lines 644-659, 679-692, 703-714, 720-731 at the time `t`; removing an item which is not there raises `ValueError`. -/
def Heap.step (n t : Nat) (h : Heap) : HOp → Heap
  | .setProp o => bump t n o h
  | .setItem p k v =>
    let h := bump t n p { h with items := Function.update h.items p (Function.update (h.items p) k v) }
    match v with
    | some c => { h with parent := Function.update h.parent c (some p) }
    | none => h
  | .insert p k i c =>
    let h := bump t n p { h with rels := Function.update h.rels p (Function.update (h.rels p) k (Py.insert (h.rels p k) i c)) }
    { h with parent := Function.update h.parent c (some p) }
  | .remove p k c =>
    if c ∈ h.rels p k then
      let h := bump t n p { h with rels := Function.update h.rels p (Function.update (h.rels p) k ((h.rels p k).erase c)) }
      { h with parent := Function.update h.parent c none }
    else h

/-! ### Specification -/

/-- `c` is one of the items of `p` or in one of its relationships. -/
def Heap.Contains (h : Heap) (p c : Nat) : Prop := (∃ k, h.items p k = some c) ∨ ∃ k, c ∈ h.rels p k

/-- `a` is `o` or contains it, directly or not. -/
def Heap.Within (h : Heap) (o a : Nat) : Prop := Relation.ReflTransGen (fun x y => h.Contains y x) o a

/-- What users have to observe: an object is put into one place only and not into itself. For the theorem, items are set only
where none is set (see `C58_counterexample`). -/
def HOp.Good (h : Heap) : HOp → Prop
  | .setProp _ => True
  | .setItem p k none => h.items p k = none
  | .setItem p k (some c) => h.items p k = none ∧ (∀ q, ¬ h.Contains q c) ∧ ¬ h.Within p c
  | .insert p _ _ c => (∀ q, ¬ h.Contains q c) ∧ ¬ h.Within p c
  | .remove p k c => c ∈ h.rels p k

/-! ### Parent chains -/

/-- The chain of parents from an object. -/
inductive Chain (parent : Nat → Option Nat) : Nat → List Nat → Prop where
  | top (o : Nat) (h : parent o = none) : Chain parent o [o]
  | up (o p : Nat) (l : List Nat) (h : parent o = some p) (hc : Chain parent p l) : Chain parent o (o :: l)

theorem Chain.unique {parent : Nat → Option Nat} {o : Nat} {l l' : List Nat} (h : Chain parent o l) (h' : Chain parent o l') :
    l = l' := by
  induction h generalizing l' with
  | top o h =>
    cases h' with
    | top => rfl
    | up _ p l hp => rw [h] at hp; cases hp
  | up o p l h _ ih =>
    cases h' with
    | top _ hn => rw [h] at hn; cases hn
    | up _ p' l' hp hc =>
      rw [h] at hp
      cases hp
      rw [ih hc]

theorem Chain.suffix {parent : Nat → Option Nat} {o : Nat} {l : List Nat} (h : Chain parent o l) :
    ∀ x ∈ l, ∃ l', Chain parent x l' ∧ l'.length ≤ l.length := by
  induction h with
  | top o h =>
    intro x hx
    simp at hx
    subst hx
    exact ⟨[x], .top x h, le_refl _⟩
  | up o p l h hc ih =>
    intro x hx
    rcases List.mem_cons.1 hx with rfl | hx
    · exact ⟨_, .up x p l h hc, le_refl _⟩
    · obtain ⟨l', h1, h2⟩ := ih x hx
      exact ⟨l', h1, by simp; omega⟩

theorem Chain.nodup {parent : Nat → Option Nat} {o : Nat} {l : List Nat} (h : Chain parent o l) : l.Nodup := by
  induction h with
  | top => simp
  | up o p l h hc ih =>
    rw [List.nodup_cons]
    refine ⟨fun hm => ?_, ih⟩
    obtain ⟨l', h1, h2⟩ := hc.suffix o hm
    have := h1.unique (.up o p l h hc)
    subst this
    simp at h2

theorem Chain.mem_iff {parent : Nat → Option Nat} {o : Nat} {l : List Nat} (h : Chain parent o l) (a : Nat) :
    a ∈ l ↔ Relation.ReflTransGen (fun x y => parent x = some y) o a := by
  induction h with
  | top o h =>
    simp only [List.mem_singleton]
    constructor
    · rintro rfl; exact .refl
    · intro hr
      rcases Relation.ReflTransGen.cases_head hr with rfl | ⟨b, hb, _⟩
      · rfl
      · rw [h] at hb; cases hb
  | up o p l h _ ih =>
    rw [List.mem_cons, ih]
    constructor
    · rintro (rfl | hr)
      · exact .refl
      · exact Relation.ReflTransGen.head h hr
    · intro hr
      rcases Relation.ReflTransGen.cases_head hr with rfl | ⟨b, hb, hbr⟩
      · exact .inl rfl
      · rw [h] at hb
        cases hb
        exact .inr hbr

theorem bump_chain (t : Nat) : ∀ (n : Nat) (o : Nat) (l : List Nat) (h : Heap), Chain h.parent o l → l.length ≤ n →
    (bump t n o h).items = h.items ∧ (bump t n o h).rels = h.rels ∧ (bump t n o h).parent = h.parent ∧
      ∀ a, (bump t n o h).count a = h.count a + l.count a ∧ (bump t n o h).time a = if a ∈ l then t else h.time a
  | 0, o, l, h, hc, hl => by cases hc <;> simp at hl
  | n + 1, o, l, h, hc, hl => by
    cases hc with
    | top _ hp =>
      rw [bump]
      simp only [hp]
      refine ⟨trivial, trivial, trivial, fun a => ?_⟩
      by_cases ha : a = o
      · subst ha; simp
      · simp [ha, Ne.symm ha]
    | up _ p l hp hc =>
      rw [bump]
      simp only [hp]
      have ih := bump_chain t n p l { h with count := Function.update h.count o (h.count o + 1), time := Function.update h.time o t }
        hc (by simpa using hl)
      refine ⟨ih.1, ih.2.1, ih.2.2.1, fun a => ?_⟩
      obtain ⟨h1, h2⟩ := ih.2.2.2 a
      rw [h1, h2]
      by_cases ha : a = o
      · subst ha
        simp
        omega
      · simp [ha, Ne.symm ha]

/-! ### Invariant -/

structure Heap.Inv (h : Heap) : Prop where
  parent_iff : ∀ p c, h.Contains p c ↔ h.parent c = some p
  item_once : ∀ p k k' c, h.items p k = some c → h.items p k' = some c → k = k'
  item_rel : ∀ p k k' c, h.items p k = some c → c ∉ h.rels p k'
  rel_once : ∀ p k k' c, c ∈ h.rels p k → c ∈ h.rels p k' → k = k'
  nodup : ∀ p k, (h.rels p k).Nodup
  ends : ∀ o, ∃ l, Chain h.parent o l

theorem Heap.inv_init : Heap.init.Inv :=
  ⟨by simp [Heap.init, Heap.Contains], by simp [Heap.init], by simp [Heap.init], by simp [Heap.init], by simp [Heap.init],
    fun o => ⟨[o], .top o rfl⟩⟩

theorem Heap.Inv.within_iff {h : Heap} (hi : h.Inv) (o a : Nat) :
    h.Within o a ↔ Relation.ReflTransGen (fun x y => h.parent x = some y) o a := by
  have : (fun x y => h.Contains y x) = fun x y => h.parent x = some y := by
    funext x y
    exact propext (hi.parent_iff y x)
  rw [Heap.Within, this]

/-- Setting the parent of a top object to one outside of it leaves no cycles. -/
theorem ends_update {parent : Nat → Option Nat} (h : ∀ o, ∃ l, Chain parent o l) {c p : Nat} (hc : parent c = none)
    (hp : ¬ Relation.ReflTransGen (fun x y => parent x = some y) p c) :
    ∀ o, ∃ l, Chain (Function.update parent c (some p)) o l := by
  have hout : ∀ x l, Chain parent x l → c ∉ l → Chain (Function.update parent c (some p)) x l := by
    intro x l hx hcl
    induction hx with
    | top o h =>
      simp only [List.mem_singleton] at hcl
      exact .top o (by rw [Function.update_of_ne (Ne.symm hcl)]; exact h)
    | up o q l h _ ih =>
      simp only [List.mem_cons, not_or] at hcl
      exact .up o q l (by rw [Function.update_of_ne (Ne.symm hcl.1)]; exact h) (ih hcl.2)
  obtain ⟨lp, hlp⟩ := h p
  have hlp' := hout p lp hlp fun hm => hp ((hlp.mem_iff c).1 hm)
  intro o
  obtain ⟨l, hl⟩ := h o
  induction hl with
  | top o h =>
    by_cases hoc : o = c
    · subst hoc
      exact ⟨_, .up o p lp (by simp) hlp'⟩
    · exact ⟨[o], .top o (by rw [Function.update_of_ne hoc]; exact h)⟩
  | up o q l h _ ih =>
    have hoc : o ≠ c := fun he => by rw [he, hc] at h; cases h
    obtain ⟨l', hl'⟩ := ih
    exact ⟨_, .up o q l' (by rw [Function.update_of_ne hoc]; exact h) hl'⟩

/-- Removing the parent of an object leaves no cycles. -/
theorem ends_none {parent : Nat → Option Nat} (h : ∀ o, ∃ l, Chain parent o l) (c : Nat) :
    ∀ o, ∃ l, Chain (Function.update parent c none) o l := by
  intro o
  obtain ⟨l, hl⟩ := h o
  induction hl with
  | top o h =>
    refine ⟨[o], .top o ?_⟩
    by_cases hoc : o = c
    · subst hoc; simp
    · rw [Function.update_of_ne hoc]; exact h
  | up o q l h _ ih =>
    by_cases hoc : o = c
    · subst hoc
      exact ⟨[o], .top o (by simp)⟩
    · obtain ⟨l', hl'⟩ := ih
      exact ⟨_, .up o q l' (by rw [Function.update_of_ne hoc]; exact h) hl'⟩

/-! ### C58 -/

theorem mem_insert {l : List Nat} {i : Int} {c x : Nat} : x ∈ Py.insert l i c ↔ x = c ∨ x ∈ l := by
  have : (Py.insert l i c).Perm (c :: l) := List.perm_insertIdx _ _ (by unfold insertPos; split <;> omega)
  rw [this.mem_iff]
  simp

theorem nodup_insert {l : List Nat} {i : Int} {c : Nat} (h : l.Nodup) (hc : c ∉ l) : (Py.insert l i c).Nodup := by
  have : (Py.insert l i c).Perm (c :: l) := List.perm_insertIdx _ _ (by unfold insertPos; split <;> omega)
  rw [this.nodup_iff, List.nodup_cons]
  exact ⟨hc, h⟩

/-- The effect of a step on the counts and times: exactly the object operated on and the objects containing it. -/
theorem step_counts {h : Heap} (op : HOp) (hg : op.Good h) {l : List Nat} (hl : Chain h.parent op.target l)
    (n t : Nat) (hn : l.length ≤ n) (a : Nat) :
    (h.step n t op).count a = h.count a + l.count a ∧ (h.step n t op).time a = if a ∈ l then t else h.time a := by
  cases op with
  | setProp o => exact (bump_chain t n o l h hl hn).2.2.2 a
  | setItem p k v =>
    have := (bump_chain t n p l { h with items := Function.update h.items p (Function.update (h.items p) k v) } hl hn).2.2.2 a
    cases v <;> exact this
  | insert p k i c =>
    exact (bump_chain t n p l
      { h with rels := Function.update h.rels p (Function.update (h.rels p) k (Py.insert (h.rels p k) i c)) } hl hn).2.2.2 a
  | remove p k c =>
    have hc : c ∈ h.rels p k := hg
    simp only [Heap.step, if_pos hc]
    exact (bump_chain t n p l
      { h with rels := Function.update h.rels p (Function.update (h.rels p) k ((h.rels p k).erase c)) } hl hn).2.2.2 a

theorem step_inv {h : Heap} (hi : h.Inv) (op : HOp) (hg : op.Good h) {l : List Nat} (hl : Chain h.parent op.target l)
    (n t : Nat) (hn : l.length ≤ n) : (h.step n t op).Inv := by
  cases op with
  | setProp o =>
    obtain ⟨h1, h2, h3, _⟩ := bump_chain t n o l h hl hn
    simp only [Heap.step]
    exact ⟨fun p c => by rw [Heap.Contains, h1, h2, h3]; exact hi.parent_iff p c, by rw [h1]; exact hi.item_once,
      by rw [h1, h2]; exact hi.item_rel, by rw [h2]; exact hi.rel_once, by rw [h2]; exact hi.nodup, by rw [h3]; exact hi.ends⟩
  | setItem p k v =>
    obtain ⟨h1, h2, h3, _⟩ := bump_chain t n p l
      { h with items := Function.update h.items p (Function.update (h.items p) k v) } hl hn
    simp only at h1 h2 h3
    cases v with
    | none =>
      have hk : h.items p k = none := hg
      have hsame : Function.update h.items p (Function.update (h.items p) k none) = h.items := by
        rw [← hk, Function.update_eq_self, Function.update_eq_self]
      simp only [Heap.step]
      refine ⟨fun p c => ?_, ?_, ?_, ?_, ?_, ?_⟩
      · rw [Heap.Contains, h1, h2, h3, hsame]; exact hi.parent_iff p c
      · rw [h1, hsame]; exact hi.item_once
      · rw [h1, h2, hsame]; exact hi.item_rel
      · rw [h2]; exact hi.rel_once
      · rw [h2]; exact hi.nodup
      · rw [h3]; exact hi.ends
    | some c =>
      obtain ⟨hk, hnc, hw⟩ : h.items p k = none ∧ (∀ q, ¬ h.Contains q c) ∧ ¬ h.Within p c := hg
      have hpc : h.parent c = none := by
        rcases hh : h.parent c with _ | q
        · rfl
        · exact absurd ((hi.parent_iff q c).2 hh) (hnc q)
      have hni : ∀ q j, h.items q j ≠ some c := fun q j he => hnc q (.inl ⟨j, he⟩)
      have hnr : ∀ q j, c ∉ h.rels q j := fun q j he => hnc q (.inr ⟨j, he⟩)
      have hit : ∀ q j x, Function.update h.items p (Function.update (h.items p) k (some c)) q j = some x ↔
          (q = p ∧ j = k ∧ x = c) ∨ h.items q j = some x := by
        intro q j x
        simp only [Function.update_apply]
        by_cases hq : q = p
        · subst hq
          by_cases hj : j = k
          · subst hj
            simp [hk, eq_comm]
          · simp [hj]
        · simp [hq]
      simp only [Heap.step]
      refine ⟨fun q x => ?_, fun q j j' x hj hj' => ?_, fun q j j' x hj => ?_, ?_, ?_, ?_⟩
      · simp only [Heap.Contains, h1, h2, h3, hit]
        by_cases hx : x = c
        · subst hx
          rw [Function.update_self]
          constructor
          · rintro (⟨j, ⟨rfl, _, _⟩ | hj⟩ | ⟨j, hj⟩)
            · rfl
            · exact absurd hj (hni q j)
            · exact absurd hj (hnr q j)
          · intro he
            cases he
            exact .inl ⟨k, .inl ⟨rfl, rfl, rfl⟩⟩
        · rw [Function.update_of_ne hx, ← hi.parent_iff q x, Heap.Contains]
          simp [hx]
      · rw [h1, hit] at hj hj'
        rcases hj with ⟨rfl, rfl, rfl⟩ | hj
        · rcases hj' with ⟨_, rfl, _⟩ | hj'
          · rfl
          · exact absurd hj' (hni _ _)
        · rcases hj' with ⟨rfl, rfl, rfl⟩ | hj'
          · exact absurd hj (hni _ _)
          · exact hi.item_once q j j' x hj hj'
      · rw [h1, hit] at hj
        rw [h2]
        rcases hj with ⟨rfl, rfl, rfl⟩ | hj
        · exact hnr _ _
        · exact hi.item_rel q j j' x hj
      · rw [h2]; exact hi.rel_once
      · rw [h2]; exact hi.nodup
      · rw [h3]
        exact ends_update hi.ends hpc fun hr => hw ((hi.within_iff p c).2 hr)
  | insert p k i c =>
    obtain ⟨hnc, hw⟩ : (∀ q, ¬ h.Contains q c) ∧ ¬ h.Within p c := hg
    obtain ⟨h1, h2, h3, _⟩ := bump_chain t n p l
      { h with rels := Function.update h.rels p (Function.update (h.rels p) k (Py.insert (h.rels p k) i c)) } hl hn
    simp only at h1 h2 h3
    have hpc : h.parent c = none := by
      rcases hh : h.parent c with _ | q
      · rfl
      · exact absurd ((hi.parent_iff q c).2 hh) (hnc q)
    have hni : ∀ q j, h.items q j ≠ some c := fun q j he => hnc q (.inl ⟨j, he⟩)
    have hnr : ∀ q j, c ∉ h.rels q j := fun q j he => hnc q (.inr ⟨j, he⟩)
    have hrel : ∀ q j x, x ∈ Function.update h.rels p (Function.update (h.rels p) k (Py.insert (h.rels p k) i c)) q j ↔
        (q = p ∧ j = k ∧ x = c) ∨ x ∈ h.rels q j := by
      intro q j x
      simp only [Function.update_apply]
      by_cases hq : q = p
      · subst hq
        by_cases hj : j = k
        · subst hj
          simp [mem_insert]
        · simp [hj]
      · simp [hq]
    simp only [Heap.step]
    refine ⟨fun q x => ?_, ?_, fun q j j' x hj hj' => ?_, fun q j j' x hj hj' => ?_, fun q j => ?_, ?_⟩
    · simp only [Heap.Contains, h1, h2, h3, hrel]
      by_cases hx : x = c
      · subst hx
        rw [Function.update_self]
        constructor
        · rintro (⟨j, hj⟩ | ⟨j, ⟨rfl, _, _⟩ | hj⟩)
          · exact absurd hj (hni q j)
          · rfl
          · exact absurd hj (hnr q j)
        · intro he
          cases he
          exact .inr ⟨k, .inl ⟨rfl, rfl, rfl⟩⟩
      · rw [Function.update_of_ne hx, ← hi.parent_iff q x, Heap.Contains]
        simp [hx]
    · rw [h1]; exact hi.item_once
    · rw [h1] at hj
      rw [h2, hrel] at hj'
      rcases hj' with ⟨rfl, rfl, rfl⟩ | hj'
      · exact hni _ _ hj
      · exact hi.item_rel q j j' x hj hj'
    · rw [h2, hrel] at hj hj'
      rcases hj with ⟨rfl, rfl, rfl⟩ | hj
      · rcases hj' with ⟨_, rfl, _⟩ | hj'
        · rfl
        · exact absurd hj' (hnr _ _)
      · rcases hj' with ⟨rfl, rfl, rfl⟩ | hj'
        · exact absurd hj (hnr _ _)
        · exact hi.rel_once q j j' x hj hj'
    · rw [h2]
      simp only [Function.update_apply]
      by_cases hq : q = p
      · subst hq
        by_cases hj : j = k
        · subst hj
          simpa using nodup_insert (hi.nodup q j) (hnr q j)
        · simpa [Function.update_of_ne hj] using hi.nodup q j
      · simpa [hq] using hi.nodup q j
    · rw [h3]
      exact ends_update hi.ends hpc fun hr => hw ((hi.within_iff p c).2 hr)
  | remove p k c =>
    have hc : c ∈ h.rels p k := hg
    obtain ⟨h1, h2, h3, _⟩ := bump_chain t n p l
      { h with rels := Function.update h.rels p (Function.update (h.rels p) k ((h.rels p k).erase c)) } hl hn
    simp only at h1 h2 h3
    have hpp : h.parent c = some p := (hi.parent_iff p c).1 (.inr ⟨k, hc⟩)
    have hrel : ∀ q j x, x ∈ Function.update h.rels p (Function.update (h.rels p) k ((h.rels p k).erase c)) q j ↔
        x ≠ c ∧ x ∈ h.rels q j := by
      intro q j x
      simp only [Function.update_apply]
      by_cases hq : q = p
      · subst hq
        by_cases hj : j = k
        · subst hj
          simp [(hi.nodup q j).mem_erase_iff]
        · rw [if_pos rfl, Function.update_of_ne hj]
          refine ⟨fun hx => ⟨fun he => ?_, hx⟩, fun hx => hx.2⟩
          subst he
          exact hj (hi.rel_once q j k x hx hc)
      · rw [if_neg hq]
        refine ⟨fun hx => ⟨fun he => ?_, hx⟩, fun hx => hx.2⟩
        subst he
        have := (hi.parent_iff q x).1 (.inr ⟨j, hx⟩)
        rw [hpp] at this
        cases this
        exact hq rfl
    simp only [Heap.step, if_pos hc]
    refine ⟨fun q x => ?_, ?_, fun q j j' x hj hj' => ?_, fun q j j' x hj hj' => ?_, fun q j => ?_, ?_⟩
    · simp only [Heap.Contains, h1, h2, h3, hrel]
      by_cases hx : x = c
      · subst hx
        rw [Function.update_self]
        constructor
        · rintro (⟨j, hj⟩ | ⟨j, hj, _⟩)
          · have := (hi.parent_iff q x).1 (.inl ⟨j, hj⟩)
            rw [hpp] at this
            cases this
            exact absurd hc (hi.item_rel p j k x hj)
          · exact absurd rfl hj
        · intro he; cases he
      · rw [Function.update_of_ne hx, ← hi.parent_iff q x, Heap.Contains]
        simp [hx]
    · rw [h1]; exact hi.item_once
    · rw [h1] at hj
      rw [h2, hrel] at hj'
      exact hi.item_rel q j j' x hj hj'.2
    · rw [h2, hrel] at hj hj'
      exact hi.rel_once q j j' x hj.2 hj'.2
    · rw [h2]
      simp only [Function.update_apply]
      by_cases hq : q = p
      · subst hq
        by_cases hj : j = k
        · subst hj
          simpa using (hi.nodup q j).erase c
        · simpa [Function.update_of_ne hj] using hi.nodup q j
      · simpa [hq] using hi.nodup q j
    · rw [h3]
      exact ends_none hi.ends c

/-- Object trees reached by any history of operations as they are meant to be used; the recursion is as deep as needed. -/
inductive Reach : Heap → Prop where
  | init : Reach Heap.init
  | step {h : Heap} (n t : Nat) (op : HOp) (hr : Reach h) (hg : op.Good h) (hn : ∀ l, Chain h.parent op.target l → l.length ≤ n) :
      Reach (h.step n t op)

theorem Reach.inv {h : Heap} (hr : Reach h) : h.Inv := by
  induction hr with
  | init => exact Heap.inv_init
  | step n t op _ hg hn ih =>
    obtain ⟨l, hl⟩ := ih.ends op.target
    exact step_inv ih op hg hl n t (hn l hl)

/-- C58: in any state reached by property assignments, items set where none was, insertions and removals, each such operation
increases `modified_count` by one and sets the modified time for the object operated on and the objects containing it, directly
or not, and for no other object. (`n`: recursion as deep as needed.) Missing: an item replaced by `set_item` keeps its parent
(`C58_counterexample`). -/
theorem C58_modified_partial (h : Heap) (hr : Reach h) (op : HOp) (hg : op.Good h) :
    ∃ N, ∀ n ≥ N, ∀ t a, (h.Within op.target a → (h.step n t op).count a = h.count a + 1 ∧ (h.step n t op).time a = t) ∧
      (¬ h.Within op.target a → (h.step n t op).count a = h.count a ∧ (h.step n t op).time a = h.time a) := by
  have hi := hr.inv
  obtain ⟨l, hl⟩ := hi.ends op.target
  refine ⟨l.length, fun n hn t a => ?_⟩
  obtain ⟨h1, h2⟩ := step_counts op hg hl n t hn a
  rw [hi.within_iff, ← hl.mem_iff a]
  refine ⟨fun hm => ?_, fun hm => ?_⟩
  · rw [h1, h2, List.count_eq_one_of_mem hl.nodup hm, if_pos hm]
    exact ⟨rfl, rfl⟩
  · rw [h1, h2, List.count_eq_zero_of_not_mem hm, if_neg hm]
    exact ⟨rfl, rfl⟩

/-- Object 0 contains 1 in a relationship, 1 contains 2 as an item. -/
def demoHeap : Heap := ((Heap.init.step 5 1 (.insert 0 0 0 1)).step 5 2 (.setItem 1 0 (some 2)))

/-- A change in 2 counts for 2, 1 and 0. -/
example : let h := demoHeap.step 5 3 (.setProp 2); (h.count 0, h.count 1, h.count 2, h.count 3) = (3, 2, 1, 0) := by decide

/-- C58, negative: the item 2 of 1 is replaced by 3 and then changed: this still counts as a modification of 1 (and 0), which do
not contain it any more. -/
theorem C58_counterexample :
    (demoHeap.step 5 3 (.setItem 1 0 (some 3))).items 1 0 = some 3 ∧
      (demoHeap.step 5 3 (.setItem 1 0 (some 3))).count 1 = 2 ∧
      ((demoHeap.step 5 3 (.setItem 1 0 (some 3))).step 5 4 (.setProp 2)).count 1 = 3 := by
  decide

end Verif.Persist
