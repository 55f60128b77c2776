import Verif.Py.Basic
import Mathlib.Data.List.Basic
import Mathlib.Data.List.Nodup
import Mathlib.Logic.Function.Basic
import Mathlib.Tactic.Common

set_option linter.unusedSectionVars false

/-!
C205: relationships and items that are defined again, or undefined, while an object has members in them and a storage
(`nion/utils/Persistence.py:449-463`, with 679-731). `define_relationship` makes an empty relationship in place of the one of that name, and
`define_item` an empty item; neither tells the storage or the objects that were in them.

The storage keeps what it is told (lines 255-270): it inserts as `list.insert` does and deletes by index (an exception if there is none), and
gives its context to the objects it is given. It is an error to add an object that has a context (line 412); such calls are left out: they do nothing here. Calls for names
that are not defined raise and do nothing (`KeyError`), as removals of objects that are no members do. Callbacks are left out (C179).
-/

namespace Verif.Persist.RedefineItems

variable {R K X : Type} [DecidableEq R] [DecidableEq K] [DecidableEq X]

inductive Op (R K X : Type) where
  | define (r : R)
  | undefine
  | insert (r : R) (i : ℤ) (x : X)
  | remove (r : R) (x : X)
  | defineItem (k : K)
  | undefineItems
  | set (k : K) (x : Option X)

/-- Relationships and items that are defined, what the storage has, and which objects have the context of the storage as members of relationships. -/
structure St (R K X : Type) where
  rels : R → Option (List X)
  items : K → Option (Option X)
  stored : R → List X
  storedItems : K → Option X
  live : X → Bool

def step (s : St R K X) : Op R K X → St R K X
  | .define r => { s with rels := Function.update s.rels r (some []) }
  | .undefine => { s with rels := fun _ => none }
  | .insert r i x =>
    match s.rels r with
    | some l =>
      if s.live x then s else
        { s with
          rels := Function.update s.rels r (some (Py.insert l i x))
          stored := Function.update s.stored r (Py.insert (s.stored r) i x)
          live := Function.update s.live x true }
    | none => s
  | .remove r x =>
    match s.rels r with
    | some l =>
      if x ∈ l then
        { s with
          rels := Function.update s.rels r (some (l.erase x))
          stored := Function.update s.stored r ((s.stored r).eraseIdx (l.idxOf x))
          live := Function.update s.live x false }
      else s
    | none => s
  | .defineItem k => { s with items := Function.update s.items k (some none) }
  | .undefineItems => { s with items := fun _ => none }
  | .set k x =>
    match s.items k with
    | some _ => { s with items := Function.update s.items k (some x), storedItems := Function.update s.storedItems k x }
    | none => s

def run (s : St R K X) (ops : List (Op R K X)) : St R K X := ops.foldl step s

/-- The object gets a context with this storage, before anything is defined. -/
def start (stored : R → List X) (storedItems : K → Option X) : St R K X := ⟨fun _ => none, fun _ => none, stored, storedItems, fun _ => false⟩

/-! ### Specification -/

/-- The relationship is not defined again. -/
def Op.Keeps (r : R) : Op R K X → Prop
  | .define r' => r' ≠ r
  | .undefine => False
  | _ => True

/-- The item is not. -/
def Op.KeepsItem (k : K) : Op R K X → Prop
  | .defineItem k' => k' ≠ k
  | .undefineItems => False
  | _ => True

/-- Insertions and removals have an effect at this place of the list: the index counts from the front, and objects that are inserted are not in
use, objects that are removed are there. `none` otherwise. -/
def replay (r : R) : List (Op R K X) → List X → Option (List X)
  | [], l => some l
  | .insert r' i x :: ops, l =>
    if r' = r then
      if 0 ≤ i ∧ i ≤ l.length then replay r ops (l.take i.toNat ++ x :: l.drop i.toNat) else none
    else replay r ops l
  | .remove r' x :: ops, l =>
    if r' = r then if x ∈ l then replay r ops (l.erase x) else none else replay r ops l
  | _ :: ops, l => replay r ops l

/-- Nobody inserts objects that have a context. -/
def Fresh : St R K X → List (Op R K X) → Prop
  | _, [] => True
  | s, .insert r i x :: ops => s.live x = false ∧ Fresh (step s (.insert r i x)) ops
  | s, o :: ops => Fresh (step s o) ops

/-- The object has the context of the storage, but is in no relationship. -/
def Lost (s : St R K X) (x : X) : Prop := s.live x = true ∧ ∀ r l, s.rels r = some l → x ∉ l

/-- What the item was set to last. -/
def lastSet (k : K) : List (Op R K X) → Option X → Option X
  | [], x => x
  | .set k' x :: ops, y => lastSet k ops (if k' = k then x else y)
  | _ :: ops, y => lastSet k ops y

/-! ### Proof -/

theorem insert_take (l : List X) (i : ℤ) (x : X) (h0 : 0 ≤ i) (hi : i ≤ l.length) :
    Py.insert l i x = l.take i.toNat ++ x :: l.drop i.toNat := by
  obtain ⟨n, rfl⟩ := Int.eq_ofNat_of_zero_le h0
  have hn : n ≤ l.length := by omega
  rw [Py.insert_nat hn]
  simp only [Int.toNat_natCast]
  clear hi h0
  induction l generalizing n with
  | nil =>
    have : n = 0 := Nat.le_zero.mp hn
    subst this; rfl
  | cons y l ih =>
    cases n with
    | zero => rfl
    | succ n =>
      simp only [List.insertIdx_succ_cons, List.take_succ_cons, List.drop_succ_cons, List.cons_append]
      rw [ih n (Nat.le_of_succ_le_succ hn)]

theorem insert_append (l m : List X) (i : ℤ) (x : X) (h0 : 0 ≤ i) (hi : i ≤ l.length) :
    Py.insert (l ++ m) i x = Py.insert l i x ++ m := by
  rw [insert_take l i x h0 hi, insert_take (l ++ m) i x h0 (by rw [List.length_append]; omega)]
  have hn : i.toNat ≤ l.length := by omega
  rw [List.take_append_of_le_length hn, List.drop_append_of_le_length hn]
  simp

theorem replayed (r : R) (ops : List (Op R K X)) (hk : ∀ o ∈ ops, o.Keeps r) (s : St R K X) (hf : Fresh s ops) (l m l' : List X)
    (hr : s.rels r = some l) (hs : s.stored r = l ++ m) (h : replay r ops l = some l') :
    (run s ops).rels r = some l' ∧ (run s ops).stored r = l' ++ m := by
  induction ops generalizing s l with
  | nil => cases h; exact ⟨hr, hs⟩
  | cons o ops ih =>
    have hk' : ∀ o ∈ ops, o.Keeps r := fun o ho => hk o (by simp [ho])
    have ho := hk o (by simp)
    show (run (step s o) ops).rels r = _ ∧ (run (step s o) ops).stored r = _
    cases o with
    | define r' => exact ih hk' _ hf l (by simp only [step]; rw [Function.update_of_ne (Ne.symm ho)]; exact hr) hs h
    | undefine => exact absurd ho id
    | insert r' i x =>
      obtain ⟨hx, hf⟩ := hf
      simp only [replay] at h
      by_cases e : r' = r
      · subst e
        rw [if_pos rfl] at h
        split at h
        · rename_i hi
          refine ih hk' _ hf _ ?_ ?_ h
          · simp only [step, hr, hx, Bool.false_eq_true, if_false, Function.update_self, insert_take l i x hi.1 hi.2]
          · simp only [step, hr, hx, Bool.false_eq_true, if_false, Function.update_self, hs]
            rw [insert_append l m i x hi.1 hi.2, insert_take l i x hi.1 hi.2]
        · cases h
      · rw [if_neg e] at h
        refine ih hk' _ hf l ?_ ?_ h
        · simp only [step]
          split
          · split
            · exact hr
            · simp only [Function.update_of_ne (Ne.symm e)]; exact hr
          · exact hr
        · simp only [step]
          split
          · split
            · exact hs
            · simp only [Function.update_of_ne (Ne.symm e)]; exact hs
          · exact hs
    | remove r' x =>
      simp only [replay] at h
      by_cases e : r' = r
      · subst e
        rw [if_pos rfl] at h
        split at h
        · rename_i hx
          refine ih hk' _ hf _ ?_ ?_ h
          · simp only [step, hr, hx, if_true, Function.update_self]
          · simp only [step, hr, hx, if_true, Function.update_self, hs]
            rw [List.eraseIdx_append_of_lt_length (List.idxOf_lt_length_iff.mpr hx), List.eraseIdx_idxOf_eq_erase]
        · cases h
      · rw [if_neg e] at h
        refine ih hk' _ hf l ?_ ?_ h
        · simp only [step]
          split
          · split
            · simp only [Function.update_of_ne (Ne.symm e)]; exact hr
            · exact hr
          · exact hr
        · simp only [step]
          split
          · split
            · simp only [Function.update_of_ne (Ne.symm e)]; exact hs
            · exact hs
          · exact hs
    | defineItem k => exact ih hk' _ hf l hr hs h
    | undefineItems => exact ih hk' _ hf l hr hs h
    | set k x =>
      refine ih hk' _ hf l ?_ ?_ h
      · simp only [step]; split <;> exact hr
      · simp only [step]; split <;> exact hs

/-- C205: after `define_relationship`, the relationship has what is put into it since; the storage has that, and behind it everything it had. -/
theorem C205_stored (s : St R K X) (r : R) (ops : List (Op R K X)) (hk : ∀ o ∈ ops, o.Keeps r) (hf : Fresh (step s (.define r)) ops)
    (l : List X) (h : replay r ops [] = some l) :
    (run s (.define r :: ops)).rels r = some l ∧ (run s (.define r :: ops)).stored r = l ++ s.stored r :=
  replayed r ops hk _ hf [] (s.stored r) l (by simp only [step, Function.update_self]) rfl h

/-- C205: so the storage has the members of the relationship if and only if it had none when the relationship was defined. -/
theorem C205_right_iff_partial (s : St R K X) (r : R) (ops : List (Op R K X)) (hk : ∀ o ∈ ops, o.Keeps r)
    (hf : Fresh (step s (.define r)) ops) (l : List X) (h : replay r ops [] = some l) :
    (run s (.define r :: ops)).rels r = some ((run s (.define r :: ops)).stored r) ↔ s.stored r = [] := by
  obtain ⟨h1, h2⟩ := C205_stored s r ops hk hf l h
  rw [h1, h2, Option.some.injEq]
  exact List.self_eq_append_right

/-- What is known at any time: no object is twice in relationships, and members have the context. -/
structure Inv (s : St R K X) : Prop where
  nodup : ∀ r l, s.rels r = some l → l.Nodup ∧ ∀ x ∈ l, s.live x = true
  apart : ∀ r r' l l' x, s.rels r = some l → s.rels r' = some l' → x ∈ l → x ∈ l' → r = r'

theorem insert_perm (l : List X) (i : ℤ) (x : X) : (Py.insert l i x).Perm (x :: l) :=
  List.perm_insertIdx x l (Py.insertPos_le l.length i)

theorem mem_insert (l : List X) (i : ℤ) (x y : X) : y ∈ Py.insert l i x ↔ y = x ∨ y ∈ l := by
  rw [(insert_perm l i x).mem_iff, List.mem_cons]

theorem nodup_insert (l : List X) (i : ℤ) (x : X) (h : l.Nodup) (hx : x ∉ l) : (Py.insert l i x).Nodup :=
  (insert_perm l i x).nodup_iff.mpr (List.nodup_cons.mpr ⟨hx, h⟩)

theorem step_inv (s : St R K X) (h : Inv s) (o : Op R K X) : Inv (step s o) := by
  have upd : ∀ (r : R) (l : List X) (f : X → Bool), l.Nodup → (∀ x ∈ l, f x = true) →
      (∀ r' l', r' ≠ r → s.rels r' = some l' → ∀ x ∈ l', f x = true ∧ x ∉ l) →
      Inv { s with rels := Function.update s.rels r (some l), live := f } := by
    intro r l f h1 h2 h3
    have at' : ∀ r' l', Function.update s.rels r (some l) r' = some l' → (r' = r ∧ l' = l) ∨ (r' ≠ r ∧ s.rels r' = some l') := by
      intro r' l' e
      by_cases e' : r' = r
      · subst e'; rw [Function.update_self] at e; cases e; exact .inl ⟨rfl, rfl⟩
      · rw [Function.update_of_ne e'] at e; exact .inr ⟨e', e⟩
    constructor
    · intro r' l' e
      rcases at' r' l' e with ⟨rfl, rfl⟩ | ⟨e1, e2⟩
      · exact ⟨h1, h2⟩
      · exact ⟨(h.1 r' l' e2).1, fun x hx => (h3 r' l' e1 e2 x hx).1⟩
    · intro a b la lb x ea eb hxa hxb
      rcases at' a la ea with ⟨rfl, rfl⟩ | ⟨e1, e2⟩
      · rcases at' b lb eb with ⟨rfl, rfl⟩ | ⟨e3, e4⟩
        · rfl
        · exact absurd hxa (h3 b lb e3 e4 x hxb).2
      · rcases at' b lb eb with ⟨rfl, rfl⟩ | ⟨e3, e4⟩
        · exact absurd hxb (h3 a la e1 e2 x hxa).2
        · exact h.2 a b la lb x e2 e4 hxa hxb
  cases o with
  | define r => exact upd r [] s.live (by simp) (by simp) fun r' l' _ e x hx => ⟨(h.1 r' l' e).2 x hx, by simp⟩
  | undefine => exact ⟨fun _ _ e => (nomatch e), fun _ _ _ _ _ e => (nomatch e)⟩
  | insert r i x =>
    simp only [step]
    split
    · rename_i l hl
      split
      · exact h
      · rename_i hx
        have nx : ∀ r' l', s.rels r' = some l' → x ∉ l' := fun r' l' e hm => hx ((h.1 r' l' e).2 x hm)
        have k := upd r (Py.insert l i x) (Function.update s.live x true) (nodup_insert l i x (h.1 r l hl).1 (nx r l hl)) (fun y hy => by
          by_cases e : y = x
          · subst e; exact Function.update_self ..
          · rw [Function.update_of_ne e]
            exact (h.1 r l hl).2 y (((mem_insert l i x y).1 hy).resolve_left e)) (fun r' l' hn e y hy => by
          have hyx : y ≠ x := fun e' => nx r' l' e (e' ▸ hy)
          refine ⟨by rw [Function.update_of_ne hyx]; exact (h.1 r' l' e).2 y hy, fun hm => ?_⟩
          exact hn (h.2 r' r l' l y e hl hy (((mem_insert l i x y).1 hm).resolve_left hyx)))
        exact ⟨k.1, k.2⟩
    · exact h
  | remove r x =>
    simp only [step]
    split
    · rename_i l hl
      split
      · rename_i hx
        obtain ⟨hn, hv⟩ := h.1 r l hl
        have k := upd r (l.erase x) (Function.update s.live x false) (hn.erase x) (fun y hy => by
          obtain ⟨e, hy⟩ := (hn.mem_erase_iff).1 hy
          rw [Function.update_of_ne e]
          exact hv y hy) (fun r' l' hr' e y hy => by
          have hyx : y ≠ x := fun e' => hr' (h.2 r' r l' l y e hl hy (e' ▸ hx))
          exact ⟨by rw [Function.update_of_ne hyx]; exact (h.1 r' l' e).2 y hy,
            fun hm => hr' (h.2 r' r l' l y e hl hy (List.mem_of_mem_erase hm))⟩)
        exact ⟨k.1, k.2⟩
      · exact h
    · exact h
  | defineItem k => exact ⟨h.1, h.2⟩
  | undefineItems => exact ⟨h.1, h.2⟩
  | set k x => simp only [step]; split <;> exact ⟨h.1, h.2⟩

theorem run_inv (s : St R K X) (h : Inv s) (ops : List (Op R K X)) : Inv (run s ops) := by
  induction ops generalizing s with
  | nil => exact h
  | cons o ops ih => exact ih _ (step_inv s h o)

theorem step_lost (s : St R K X) (x : X) (h : Lost s x) (o : Op R K X) : Lost (step s o) x := by
  obtain ⟨h1, h2⟩ := h
  cases o with
  | define r =>
    refine ⟨h1, fun r' l' e => ?_⟩
    simp only [step] at e
    by_cases e' : r' = r
    · subst e'; rw [Function.update_self] at e; cases e; simp
    · rw [Function.update_of_ne e'] at e; exact h2 r' l' e
  | undefine => exact ⟨h1, fun _ _ e => by cases e⟩
  | insert r i y =>
    simp only [step]
    split
    · rename_i l hl
      split
      · exact ⟨h1, h2⟩
      · rename_i hy
        have hxy : x ≠ y := fun e => hy (e ▸ h1)
        refine ⟨by show Function.update s.live y true x = true; rw [Function.update_of_ne hxy]; exact h1, fun r' l' e => ?_⟩
        by_cases e' : r' = r
        · subst e'
          simp only [Function.update_self, Option.some.injEq] at e
          subst e
          exact fun hm => ((mem_insert l i y x).1 hm).elim hxy (h2 r' l hl)
        · simp only [Function.update_of_ne e'] at e; exact h2 r' l' e
    · exact ⟨h1, h2⟩
  | remove r y =>
    simp only [step]
    split
    · rename_i l hl
      split
      · rename_i hy
        have hxy : x ≠ y := fun e => h2 r l hl (e ▸ hy)
        refine ⟨by show Function.update s.live y false x = true; rw [Function.update_of_ne hxy]; exact h1, fun r' l' e => ?_⟩
        by_cases e' : r' = r
        · subst e'
          simp only [Function.update_self, Option.some.injEq] at e
          subst e
          exact fun hm => h2 r' l hl (List.mem_of_mem_erase hm)
        · simp only [Function.update_of_ne e'] at e; exact h2 r' l' e
      · exact ⟨h1, h2⟩
    · exact ⟨h1, h2⟩
  | defineItem k => exact ⟨h1, h2⟩
  | undefineItems => exact ⟨h1, h2⟩
  | set k y => simp only [step]; split <;> exact ⟨h1, h2⟩

/-- C205: an object that was a member when the relationship was defined again, or all were undefined, keeps its context whatever is called
afterwards, and is in no relationship: it can neither be removed nor inserted again. -/
theorem C205_left (stored : R → List X) (storedItems : K → Option X) (before : List (Op R K X)) (r : R) (l : List X) (x : X)
    (hl : (run (start stored storedItems) before).rels r = some l) (hx : x ∈ l) (o : Op R K X) (ho : o = .define r ∨ o = .undefine)
    (after : List (Op R K X)) : Lost (run (start stored storedItems) (before ++ o :: after)) x := by
  have hi : Inv (run (start stored storedItems) before) :=
    run_inv _ ⟨fun _ _ e => (by simp [start] at e), fun _ _ _ _ _ e => (by simp [start] at e)⟩ before
  have h0 : Lost (step (run (start stored storedItems) before) o) x := by
    refine ⟨?_, fun r' l' e hm => ?_⟩
    · rcases ho with rfl | rfl <;> exact (hi.1 r l hl).2 x hx
    · rcases ho with rfl | rfl
      · simp only [step] at e
        by_cases e' : r' = r
        · subst e'; rw [Function.update_self] at e; cases e; cases hm
        · rw [Function.update_of_ne e'] at e
          exact e' (hi.2 r' r l' l x e hl hm hx)
      · cases e
  have main : ∀ (after : List (Op R K X)) (s : St R K X), Lost s x → Lost (run s after) x := by
    intro after
    induction after with
    | nil => exact fun s h => h
    | cons o after ih => exact fun s h => ih _ (step_lost s x h o)
  rw [run, List.foldl_append]
  exact main after _ h0

/-- C205: while a relationship is not defined, the storage of it does not change. -/
theorem C205_undefined (s : St R K X) (r : R) (hr : s.rels r = none) (ops : List (Op R K X)) (hk : ∀ o ∈ ops, o ≠ .define r) :
    (run s ops).rels r = none ∧ (run s ops).stored r = s.stored r := by
  induction ops generalizing s with
  | nil => exact ⟨hr, rfl⟩
  | cons o ops ih =>
    have ho := hk o (by simp)
    have key : (step s o).rels r = none ∧ (step s o).stored r = s.stored r := by
      cases o with
      | define r' =>
        have : r ≠ r' := fun e => ho (by rw [e])
        simp only [step]
        rw [Function.update_of_ne this]; exact ⟨hr, trivial⟩
      | undefine => exact ⟨rfl, rfl⟩
      | insert r' i x =>
        by_cases e : r = r'
        · subst e; simp only [step, hr, and_self]
        · simp only [step]
          split
          · split
            · exact ⟨hr, rfl⟩
            · simp only [Function.update_of_ne e]; exact ⟨hr, trivial⟩
          · exact ⟨hr, rfl⟩
      | remove r' x =>
        by_cases e : r = r'
        · subst e; simp only [step, hr, and_self]
        · simp only [step]
          split
          · split
            · simp only [Function.update_of_ne e]; exact ⟨hr, trivial⟩
            · exact ⟨hr, rfl⟩
          · exact ⟨hr, rfl⟩
      | defineItem k => exact ⟨hr, rfl⟩
      | undefineItems => exact ⟨hr, rfl⟩
      | set k x => simp only [step]; split <;> exact ⟨hr, rfl⟩
    obtain ⟨h1, h2⟩ := ih (step s o) key.1 fun o ho => hk o (by simp [ho])
    exact ⟨h1, h2.trans key.2⟩

/-- C205: an item has what it was set to since it was defined, or nothing; the storage has that, or what it had. -/
theorem C205_item (s : St R K X) (k : K) (ops : List (Op R K X)) (hk : ∀ o ∈ ops, o.KeepsItem k) :
    (run s (.defineItem k :: ops)).items k = some (lastSet k ops none) ∧
      (run s (.defineItem k :: ops)).storedItems k = lastSet k ops (s.storedItems k) := by
  have main : ∀ (ops : List (Op R K X)) (s : St R K X) (x : Option X), (∀ o ∈ ops, o.KeepsItem k) → s.items k = some x →
      (run s ops).items k = some (lastSet k ops x) ∧ (run s ops).storedItems k = lastSet k ops (s.storedItems k) := by
    intro ops
    induction ops with
    | nil => exact fun s x _ h => ⟨h, rfl⟩
    | cons o ops ih =>
      intro s x hk h
      have hk' : ∀ o ∈ ops, o.KeepsItem k := fun o ho => hk o (by simp [ho])
      have ho := hk o (by simp)
      show (run (step s o) ops).items k = _ ∧ (run (step s o) ops).storedItems k = _
      cases o with
      | define r => exact ih _ x hk' h
      | undefine => exact ih _ x hk' h
      | insert r i y =>
        have e : (step s (.insert r i y)).items = s.items ∧ (step s (.insert r i y)).storedItems = s.storedItems := by
          simp only [step]; split
          · split <;> exact ⟨rfl, rfl⟩
          · exact ⟨rfl, rfl⟩
        have k0 := ih (step s (.insert r i y)) x hk' (by rw [e.1]; exact h)
        rw [e.2] at k0; exact k0
      | remove r y =>
        have e : (step s (.remove r y)).items = s.items ∧ (step s (.remove r y)).storedItems = s.storedItems := by
          simp only [step]; split
          · split <;> exact ⟨rfl, rfl⟩
          · exact ⟨rfl, rfl⟩
        have k0 := ih (step s (.remove r y)) x hk' (by rw [e.1]; exact h)
        rw [e.2] at k0; exact k0
      | defineItem k' => exact ih _ x hk' (by simp only [step]; rw [Function.update_of_ne (Ne.symm ho)]; exact h)
      | undefineItems => exact absurd ho id
      | set k' y =>
        by_cases e : k' = k
        · subst e
          have k0 := ih (step s (.set k' y)) y hk' (by simp only [step, h, Function.update_self])
          have e2 : (step s (.set k' y)).storedItems k' = y := by simp only [step, h, Function.update_self]
          rw [e2] at k0
          simp only [lastSet, if_true]
          exact k0
        · have k0 := ih (step s (.set k' y)) x hk' (by
            simp only [step]; split
            · simp only [Function.update_of_ne (Ne.symm e)]; exact h
            · exact h)
          have e2 : (step s (.set k' y)).storedItems k = s.storedItems k := by
            simp only [step]; split
            · simp only [Function.update_of_ne (Ne.symm e)]
            · rfl
          rw [e2] at k0
          simp only [lastSet, if_neg e]
          exact k0
  exact main ops _ none hk (by simp only [step, Function.update_self])

/-- C205: when all items have been undefined, an item is stored as it was until it is defined again, whatever is called. -/
theorem C205_item_undefined (s : St R K X) (k : K) (ops : List (Op R K X)) (hk : ∀ o ∈ ops, o ≠ .defineItem k) :
    (run s (.undefineItems :: ops)).items k = none ∧ (run s (.undefineItems :: ops)).storedItems k = s.storedItems k := by
  have main : ∀ (ops : List (Op R K X)) (s : St R K X), (∀ o ∈ ops, o ≠ .defineItem k) → s.items k = none →
      (run s ops).items k = none ∧ (run s ops).storedItems k = s.storedItems k := by
    intro ops
    induction ops with
    | nil => exact fun s _ h => ⟨h, rfl⟩
    | cons o ops ih =>
      intro s hk h
      have ho := hk o (by simp)
      have key : (step s o).items k = none ∧ (step s o).storedItems k = s.storedItems k := by
        cases o with
        | define r => exact ⟨h, rfl⟩
        | undefine => exact ⟨h, rfl⟩
        | insert r i y =>
          simp only [step]; split
          · split <;> exact ⟨h, rfl⟩
          · exact ⟨h, rfl⟩
        | remove r y =>
          simp only [step]; split
          · split <;> exact ⟨h, rfl⟩
          · exact ⟨h, rfl⟩
        | defineItem k' =>
          have : k ≠ k' := fun e => ho (by rw [e])
          exact ⟨by simp only [step]; rw [Function.update_of_ne this]; exact h, rfl⟩
        | undefineItems => exact ⟨rfl, rfl⟩
        | set k' y =>
          by_cases e : k = k'
          · subst e; simp only [step, h]; exact ⟨trivial, trivial⟩
          · simp only [step]; split
            · exact ⟨by simp only [Function.update_of_ne e]; exact h, by simp only [Function.update_of_ne e]⟩
            · exact ⟨h, rfl⟩
      have k0 := ih (step s o) (fun o ho => hk o (by simp [ho])) key.1
      rw [key.2] at k0
      exact k0
  exact main ops (step s .undefineItems) hk rfl

/-! ### Cases -/

/-- Relationship 0 and item 0, and which of the objects 1 to 4 have a context. -/
def exRun (ops : List (Op ℕ ℕ ℕ)) : Option (List ℕ) × List ℕ × Option (Option ℕ) × Option ℕ × List Bool :=
  let s := run (start (fun _ => []) fun _ => none) ops
  (s.rels 0, s.stored 0, s.items 0, s.storedItems 0, [1, 2, 3, 4].map s.live)

/-- Defined once. -/
example : exRun [.define 0, .defineItem 0, .insert 0 0 1, .insert 0 0 2, .insert 0 1 3, .set 0 (some 9), .remove 0 2, .define 1, .insert 1 0 4] =
    (some [3, 1], [3, 1], some (some 9), some 9, [true, false, true, true]) := by decide

/-- Items that are undefined cannot be set, and stay stored. -/
example : exRun [.defineItem 0, .set 0 (some 9), .undefineItems, .set 0 (some 8)] = (none, [], none, some 9, [false, false, false, false]) := by decide

/-- C205: 1 and 2 are stored and have the context when the relationship has been defined again, and cannot be removed or inserted; 9 is
stored when the item has been. -/
theorem C205_counterexample :
    exRun [.define 0, .defineItem 0, .insert 0 0 1, .insert 0 1 2, .set 0 (some 9), .define 0, .defineItem 0, .remove 0 1, .insert 0 0 2,
        .insert 0 0 3] =
      (some [3], [3, 1, 2], some none, some 9, [true, true, true, false]) := by decide

/-- C205: an index that counts from the end, or one that is too large, is another place in the storage then, and a removal takes another object
out of it. -/
theorem C205_counterexample_index :
    exRun [.define 0, .insert 0 0 1, .define 0, .insert 0 0 2, .insert 0 (-1) 3] = (some [3, 2], [2, 3, 1], none, none, [true, true, true, false]) ∧
      exRun [.define 0, .insert 0 0 1, .define 0, .insert 0 0 2, .insert 0 (-1) 3, .remove 0 2] =
        (some [3], [2, 1], none, none, [true, false, true, false]) ∧
      exRun [.define 0, .insert 0 0 1, .define 0, .insert 0 5 2, .remove 0 2] = (some [], [2], none, none, [true, false, false, false]) :=
  ⟨by decide, by decide, by decide⟩

end Verif.Persist.RedefineItems
