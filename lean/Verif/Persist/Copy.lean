import Verif.Py.Basic
import Mathlib.Data.List.Nodup
import Mathlib.Data.List.Perm.Basic
import Mathlib.Tactic.Common

/-!
Deep copies of persistent objects: `PersistentObject.__deepcopy__`, `deepcopy_from` (`nion/utils/Persistence.py:384-399`) with
`_set_persistent_property_value` (616-621), `PersistentProperty.set_value` (46-53), `set_item` (680-695), `append_item` (717-719) and
`__getattr__` (632-642), property C104.

Objects are trees: no object is contained twice, which the class documentation calls an error (so `memo` never has an object that is
copied). An object has a number which stands for it and its uuid, the number of its parent, a class, property values, items and
relationships. `self.__class__()` makes an object with the next number and what its class defines. The values of properties are
immutable or copied by `copy.deepcopy`. Not modelled: the callbacks of properties, items and relationships (assumed not to raise or
change the objects), modification counts (`Modified.lean`), a context (a copy has none).
-/

namespace Verif.Persist.Copy

open Verif.Py

/-- A class: the validators of the properties, which of the items are hidden, the number of relationships. -/
structure Class (V : Type) where
  props : List (Option (V → Except Exc V))
  hidden : List Bool
  rels : ℕ

mutual
inductive Obj (V : Type) where
  | mk (cls id : ℕ) (parent : Option ℕ) (props : List V) (items : Items V) (rels : Rels V)
inductive Items (V : Type) where
  | nil
  | none (rest : Items V)
  | some (o : Obj V) (rest : Items V)
inductive Rels (V : Type) where
  | nil
  | cons (os : Objs V) (rest : Rels V)
inductive Objs (V : Type) where
  | nil
  | cons (o : Obj V) (rest : Objs V)
end

variable {V : Type} (env : ℕ → Class V)

/-- 46-53 `set_value`: validated, or copied. -/
def setValue (validate : Option (V → Except Exc V)) (v : V) : Except Exc V :=
  match validate with
  | some f => f v
  | none => .ok v

/-- 391-394. -/
def copyProps : List (Option (V → Except Exc V)) → List V → Except Exc (List V)
  | f :: fs, v :: vs =>
    match setValue f v with
    | .error e => .error e
    | .ok w =>
      match copyProps fs vs with
      | .error e => .error e
      | .ok ws => .ok (w :: ws)
  | _, _ => .ok []

/-- `persistent_object_parent = PersistentObjectParent(self, ...)`. -/
def Obj.setParent (p : ℕ) : Obj V → Obj V
  | .mk c i _ ps is rs => .mk c i (some p) ps is rs

mutual
/-- 384-388: the copy and the next number, or the exception. -/
def copyObj : Obj V → ℕ → Except Exc (Obj V × ℕ)
  | .mk c _ _ ps is rs, n =>
    match copyProps (env c).props ps with
    | .error e => .error e
    | .ok ps' =>
      match copyItems n (env c).hidden is (n + 1) with
      | .error e => .error e
      | .ok (is', m) =>
        match copyRels n rs m with
        | .error e => .error e
        | .ok (rs', k) => .ok (.mk c n none ps' is' rs', k)
/-- 395-396: `getattr` of a hidden item raises (637-638). -/
def copyItems (self : ℕ) : List Bool → Items V → ℕ → Except Exc (Items V × ℕ)
  | true :: _, .none _, _ => .error .attributeError
  | true :: _, .some _ _, _ => .error .attributeError
  | false :: hs, .none rest, n =>
    match copyItems self hs rest n with
    | .error e => .error e
    | .ok (rest', m) => .ok (.none rest', m)
  | false :: hs, .some o rest, n =>
    match copyObj o n with
    | .error e => .error e
    | .ok (o', m) =>
      match copyItems self hs rest m with
      | .error e => .error e
      | .ok (rest', k) => .ok (.some (o'.setParent self) rest', k)
  | _, _, n => .ok (.nil, n)
/-- 397-399. -/
def copyRels (self : ℕ) : Rels V → ℕ → Except Exc (Rels V × ℕ)
  | .nil, n => .ok (.nil, n)
  | .cons os rest, n =>
    match copyObjs self os n with
    | .error e => .error e
    | .ok (os', m) =>
      match copyRels self rest m with
      | .error e => .error e
      | .ok (rest', k) => .ok (.cons os' rest', k)
def copyObjs (self : ℕ) : Objs V → ℕ → Except Exc (Objs V × ℕ)
  | .nil, n => .ok (.nil, n)
  | .cons o rest, n =>
    match copyObj o n with
    | .error e => .error e
    | .ok (o', m) =>
      match copyObjs self rest m with
      | .error e => .error e
      | .ok (rest', k) => .ok (.cons (o'.setParent self) rest', k)
end

/-! ### Specification -/

mutual
/-- Equal but for the numbers: same classes, property values, items and relationships in the same order. -/
def Same : Obj V → Obj V → Prop
  | .mk c _ _ ps is rs, .mk c' _ _ ps' is' rs' => c = c' ∧ ps = ps' ∧ SameI is is' ∧ SameR rs rs'
def SameI : Items V → Items V → Prop
  | .nil, .nil => True
  | .none r, .none r' => SameI r r'
  | .some o r, .some o' r' => Same o o' ∧ SameI r r'
  | _, _ => False
def SameR : Rels V → Rels V → Prop
  | .nil, .nil => True
  | .cons os r, .cons os' r' => SameO os os' ∧ SameR r r'
  | _, _ => False
def SameO : Objs V → Objs V → Prop
  | .nil, .nil => True
  | .cons o r, .cons o' r' => Same o o' ∧ SameO r r'
  | _, _ => False
end

mutual
/-- The numbers of the objects of a tree. -/
def Obj.ids : Obj V → List ℕ
  | .mk _ i _ _ is rs => i :: (is.ids ++ rs.ids)
def Items.ids : Items V → List ℕ
  | .nil => []
  | .none r => r.ids
  | .some o r => o.ids ++ r.ids
def Rels.ids : Rels V → List ℕ
  | .nil => []
  | .cons os r => os.ids ++ r.ids
def Objs.ids : Objs V → List ℕ
  | .nil => []
  | .cons o r => o.ids ++ r.ids
end

def Obj.id : Obj V → ℕ
  | .mk _ i _ _ _ _ => i

def Obj.parent : Obj V → Option ℕ
  | .mk _ _ p _ _ _ => p

mutual
/-- The parent of every contained object is the object that contains it. -/
def Parents : Obj V → Prop
  | .mk _ i _ _ is rs => ParentsI i is ∧ ParentsR i rs
def ParentsI (i : ℕ) : Items V → Prop
  | .nil => True
  | .none r => ParentsI i r
  | .some o r => o.parent = some i ∧ Parents o ∧ ParentsI i r
def ParentsR (i : ℕ) : Rels V → Prop
  | .nil => True
  | .cons os r => ParentsO i os ∧ ParentsR i r
def ParentsO (i : ℕ) : Objs V → Prop
  | .nil => True
  | .cons o r => o.parent = some i ∧ Parents o ∧ ParentsO i r
end

/-- The validators accept the values and leave them as they are. -/
def Stable : List (Option (V → Except Exc V)) → List V → Prop
  | [], [] => True
  | f :: fs, v :: vs => (∀ g, f = some g → g v = .ok v) ∧ Stable fs vs
  | _, _ => False

mutual
/-- The object has what its class defines, no hidden items, and values its validators leave alone. -/
def Ok : Obj V → Prop
  | .mk c _ _ ps is rs => Stable (env c).props ps ∧ OkI (env c).hidden is ∧ rs.length = (env c).rels ∧ OkR rs
def OkI : List Bool → Items V → Prop
  | [], .nil => True
  | h :: hs, .none r => h = false ∧ OkI hs r
  | h :: hs, .some o r => h = false ∧ Ok o ∧ OkI hs r
  | _, _ => False
def Rels.length : Rels V → ℕ
  | .nil => 0
  | .cons _ r => r.length + 1
def OkR : Rels V → Prop
  | .nil => True
  | .cons os r => OkO os ∧ OkR r
def OkO : Objs V → Prop
  | .nil => True
  | .cons o r => Ok o ∧ OkO r
end

/-! ### Proof -/

theorem copyProps_ok {fs : List (Option (V → Except Exc V))} {vs : List V} (h : Stable fs vs) : copyProps fs vs = .ok vs := by
  induction fs generalizing vs with
  | nil =>
    cases vs with
    | nil => rfl
    | cons v vs => exact h.elim
  | cons f fs ih =>
    cases vs with
    | nil => exact h.elim
    | cons v vs =>
      have : setValue f v = .ok v := by
        cases f with
        | none => rfl
        | some g => exact h.1 g rfl
      rw [copyProps, this, ih h.2]

theorem same_setParent {o o' : Obj V} (p : ℕ) (h : Same o o') : Same o (o'.setParent p) := by
  cases o; cases o'
  simpa only [Same, Obj.setParent] using h

theorem ids_setParent (o : Obj V) (p : ℕ) : (o.setParent p).ids = o.ids := by cases o; rfl

theorem parents_setParent {o : Obj V} (p : ℕ) (h : Parents o) : Parents (o.setParent p) := by cases o; exact h

theorem parent_setParent (o : Obj V) (p : ℕ) : (o.setParent p).parent = some p := by cases o; rfl

/-- The numbers from `n` up to `m`. -/
def Fresh (ids : List ℕ) (n m : ℕ) : Prop := n ≤ m ∧ ids = List.range' n (m - n)

theorem Fresh.append {a b : List ℕ} {n m k : ℕ} (h1 : Fresh a n m) (h2 : Fresh b m k) : Fresh (a ++ b) n k := by
  obtain ⟨h1, rfl⟩ := h1
  obtain ⟨h2, rfl⟩ := h2
  refine ⟨by omega, ?_⟩
  have : k - n = (m - n) + (k - m) := by omega
  rw [this, ← List.range'_append_1]
  congr 2
  omega

mutual
theorem copyObj_spec : ∀ (o : Obj V) (n : ℕ), Ok env o →
    ∃ o' m, copyObj env o n = .ok (o', m) ∧ Same o o' ∧ Fresh o'.ids n m ∧ Parents o' ∧ o'.parent = none
  | .mk c i p ps is rs, n, h => by
    obtain ⟨h1, h2, -, h3⟩ := h
    obtain ⟨is', m, e1, s1, f1, p1⟩ := copyItems_spec n (env c).hidden is (n + 1) h2
    obtain ⟨rs', k, e2, s2, f2, p2⟩ := copyRels_spec n rs m h3
    refine ⟨.mk c n none ps is' rs', k, ?_, by simp only [Same]; exact ⟨trivial, trivial, s1, s2⟩, ?_, ⟨p1, p2⟩, rfl⟩
    · rw [copyObj, copyProps_ok h1]
      simp only [e1, e2]
    · have := (f1.append f2)
      rw [Obj.ids]
      refine ⟨by have := this.1; omega, ?_⟩
      rw [this.2]
      have h' := this.1
      have e : k - n = (k - (n + 1)) + 1 := by omega
      rw [e, List.range'_succ]
theorem copyItems_spec (self : ℕ) : ∀ (hs : List Bool) (is : Items V) (n : ℕ), OkI env hs is →
    ∃ is' m, copyItems env self hs is n = .ok (is', m) ∧ SameI is is' ∧ Fresh is'.ids n m ∧ ParentsI self is'
  | [], .nil, n, _ => ⟨.nil, n, by simp [copyItems], by simp only [SameI], ⟨le_rfl, by simp [Items.ids]⟩, trivial⟩
  | h :: hs, .none r, n, hok => by
    obtain ⟨rfl, h2⟩ := hok
    obtain ⟨r', m, e1, s1, f1, p1⟩ := copyItems_spec self hs r n h2
    exact ⟨.none r', m, by rw [copyItems, e1], by simpa only [SameI] using s1, f1, p1⟩
  | h :: hs, .some o r, n, hok => by
    obtain ⟨rfl, h1, h2⟩ := hok
    obtain ⟨o', m, e1, s1, f1, p1, -⟩ := copyObj_spec o n h1
    obtain ⟨r', k, e2, s2, f2, p2⟩ := copyItems_spec self hs r m h2
    refine ⟨.some (o'.setParent self) r', k, ?_, by simp only [SameI]; exact ⟨same_setParent self s1, s2⟩, ?_, parent_setParent _ _, parents_setParent self p1, p2⟩
    · rw [copyItems, e1]
      simp only [e2]
    · rw [Items.ids, ids_setParent]
      exact f1.append f2
theorem copyRels_spec (self : ℕ) : ∀ (rs : Rels V) (n : ℕ), OkR env rs →
    ∃ rs' m, copyRels env self rs n = .ok (rs', m) ∧ SameR rs rs' ∧ Fresh rs'.ids n m ∧ ParentsR self rs'
  | .nil, n, _ => ⟨.nil, n, by rw [copyRels], by simp only [SameR], ⟨le_rfl, by simp [Rels.ids]⟩, trivial⟩
  | .cons os r, n, h => by
    obtain ⟨os', m, e1, s1, f1, p1⟩ := copyObjs_spec self os n h.1
    obtain ⟨r', k, e2, s2, f2, p2⟩ := copyRels_spec self r m h.2
    refine ⟨.cons os' r', k, ?_, by simp only [SameR]; exact ⟨s1, s2⟩, ?_, p1, p2⟩
    · rw [copyRels, e1]
      simp only [e2]
    · rw [Rels.ids]
      exact f1.append f2
theorem copyObjs_spec (self : ℕ) : ∀ (os : Objs V) (n : ℕ), OkO env os →
    ∃ os' m, copyObjs env self os n = .ok (os', m) ∧ SameO os os' ∧ Fresh os'.ids n m ∧ ParentsO self os'
  | .nil, n, _ => ⟨.nil, n, by rw [copyObjs], by simp only [SameO], ⟨le_rfl, by simp [Objs.ids]⟩, trivial⟩
  | .cons o r, n, h => by
    obtain ⟨o', m, e1, s1, f1, p1, -⟩ := copyObj_spec o n h.1
    obtain ⟨r', k, e2, s2, f2, p2⟩ := copyObjs_spec self r m h.2
    refine ⟨.cons (o'.setParent self) r', k, ?_, by simp only [SameO]; exact ⟨same_setParent self s1, s2⟩, ?_, parent_setParent _ _, parents_setParent self p1, p2⟩
    · rw [copyObjs, e1]
      simp only [e2]
    · rw [Objs.ids, ids_setParent]
      exact f1.append f2
end

/-- C104 (partial: no hidden items; values which their validators leave alone): a deep copy has the same classes, values, items and
relationships, its objects are all new and different from each other, each contained object has the object that contains it as its
parent, and the copy itself has none. -/
theorem C104_copy_partial (o : Obj V) (n : ℕ) (h : Ok env o) (hn : ∀ i ∈ o.ids, i < n) :
    ∃ o' m, copyObj env o n = .ok (o', m) ∧ Same o o' ∧ o'.ids.Nodup ∧ (∀ i ∈ o'.ids, n ≤ i ∧ i < m ∧ i ∉ o.ids) ∧ Parents o' ∧
      o'.parent = none := by
  obtain ⟨o', m, e, s, f, p, q⟩ := copyObj_spec env o n h
  refine ⟨o', m, e, s, ?_, ?_, p, q⟩
  · rw [f.2]
    exact List.nodup_range'
  · intro i hi
    rw [f.2, List.mem_range'_1] at hi
    have := f.1
    exact ⟨hi.1, by omega, fun h => absurd (hn i h) (by omega)⟩

mutual
/-- The object has what its class defines. -/
def Shape : Obj V → Prop
  | .mk c _ _ ps is rs => ps.length = (env c).props.length ∧ ShapeI (env c).hidden is ∧ Rels.length env rs = (env c).rels ∧ ShapeR rs
def ShapeI : List Bool → Items V → Prop
  | [], .nil => True
  | _ :: hs, .none r => ShapeI hs r
  | _ :: hs, .some o r => Shape o ∧ ShapeI hs r
  | _, _ => False
def ShapeR : Rels V → Prop
  | .nil => True
  | .cons os r => ShapeO os ∧ ShapeR r
def ShapeO : Objs V → Prop
  | .nil => True
  | .cons o r => Shape o ∧ ShapeO r
end

theorem copyProps_stable : ∀ (fs : List (Option (V → Except Exc V))) (vs : List V), vs.length = fs.length → copyProps fs vs = .ok vs →
    Stable fs vs
  | [], [], _, _ => trivial
  | [], _ :: _, h, _ => by simp at h
  | _ :: _, [], h, _ => by simp at h
  | f :: fs, v :: vs, h, hc => by
    rw [copyProps] at hc
    split at hc
    · cases hc
    · rename_i w hw
      split at hc
      · cases hc
      · rename_i ws hws
        simp only [Except.ok.injEq, List.cons.injEq] at hc
        obtain ⟨rfl, rfl⟩ := hc
        refine ⟨?_, copyProps_stable fs _ (by simpa using h) hws⟩
        rintro g rfl
        exact hw

theorem same_of_setParent {o o' : Obj V} {p : ℕ} (h : Same o (o'.setParent p)) : Same o o' := by
  cases o; cases o'
  simpa only [Same, Obj.setParent] using h

mutual
theorem ok_of_copyObj : ∀ (o : Obj V) (n : ℕ) (o' : Obj V) (m : ℕ), Shape env o → copyObj env o n = .ok (o', m) → Same o o' → Ok env o
  | .mk c i p ps is rs, n, o', m, h, hc, hs => by
    rw [Shape] at h
    rw [copyObj] at hc
    split at hc
    · cases hc
    · rename_i ps' hp
      split at hc
      · cases hc
      · rename_i is' m' hi
        split at hc
        · cases hc
        · rename_i rs' k hr
          simp only [Except.ok.injEq, Prod.mk.injEq] at hc
          obtain ⟨rfl, rfl⟩ := hc
          rw [Same] at hs
          obtain ⟨-, rfl, s1, s2⟩ := hs
          rw [Ok]
          exact ⟨copyProps_stable _ _ h.1 hp, ok_of_copyItems n _ is _ _ _ h.2.1 hi s1, h.2.2.1,
            ok_of_copyRels n rs _ _ _ h.2.2.2 hr s2⟩
termination_by structural o => o
theorem ok_of_copyItems (self : ℕ) : ∀ (hs : List Bool) (is : Items V) (n : ℕ) (is' : Items V) (m : ℕ), ShapeI env hs is →
    copyItems env self hs is n = .ok (is', m) → SameI is is' → OkI env hs is
  | [], .nil, _, _, _, _, _, _ => by simp only [OkI]
  | [], .none _, _, _, _, h, _, _ => by simp only [ShapeI] at h
  | [], .some _ _, _, _, _, h, _, _ => by simp only [ShapeI] at h
  | _ :: _, .nil, _, _, _, h, _, _ => by simp only [ShapeI] at h
  | true :: _, .none _, _, _, _, _, hc, _ => by simp [copyItems] at hc
  | true :: _, .some _ _, _, _, _, _, hc, _ => by simp [copyItems] at hc
  | false :: hs, .none r, n, is', m, h, hc, hsm => by
    rw [ShapeI] at h
    rw [copyItems] at hc
    split at hc
    · cases hc
    · rename_i r' m' hr
      simp only [Except.ok.injEq, Prod.mk.injEq] at hc
      obtain ⟨rfl, rfl⟩ := hc
      rw [SameI] at hsm
      rw [OkI]
      exact ⟨rfl, ok_of_copyItems self hs r n _ _ h hr hsm⟩
  | false :: hs, .some o r, n, is', m, h, hc, hsm => by
    rw [ShapeI] at h
    rw [copyItems] at hc
    split at hc
    · cases hc
    · rename_i o' m' ho
      split at hc
      · cases hc
      · rename_i r' k hr
        simp only [Except.ok.injEq, Prod.mk.injEq] at hc
        obtain ⟨rfl, rfl⟩ := hc
        rw [SameI] at hsm
        rw [OkI]
        exact ⟨rfl, ok_of_copyObj o n _ _ h.1 ho (same_of_setParent hsm.1), ok_of_copyItems self hs r _ _ _ h.2 hr hsm.2⟩
termination_by structural _ is => is
theorem ok_of_copyRels (self : ℕ) : ∀ (rs : Rels V) (n : ℕ) (rs' : Rels V) (m : ℕ), ShapeR env rs →
    copyRels env self rs n = .ok (rs', m) → SameR rs rs' → OkR env rs
  | .nil, _, _, _, _, _, _ => by simp only [OkR]
  | .cons os r, n, rs', m, h, hc, hsm => by
    rw [ShapeR] at h
    rw [copyRels] at hc
    split at hc
    · cases hc
    · rename_i os' m' ho
      split at hc
      · cases hc
      · rename_i r' k hr
        simp only [Except.ok.injEq, Prod.mk.injEq] at hc
        obtain ⟨rfl, rfl⟩ := hc
        rw [SameR] at hsm
        rw [OkR]
        exact ⟨ok_of_copyObjs self os n _ _ h.1 ho hsm.1, ok_of_copyRels self r _ _ _ h.2 hr hsm.2⟩
termination_by structural rs => rs
theorem ok_of_copyObjs (self : ℕ) : ∀ (os : Objs V) (n : ℕ) (os' : Objs V) (m : ℕ), ShapeO env os →
    copyObjs env self os n = .ok (os', m) → SameO os os' → OkO env os
  | .nil, _, _, _, _, _, _ => by simp only [OkO]
  | .cons o r, n, os', m, h, hc, hsm => by
    rw [ShapeO] at h
    rw [copyObjs] at hc
    split at hc
    · cases hc
    · rename_i o' m' ho
      split at hc
      · cases hc
      · rename_i r' k hr
        simp only [Except.ok.injEq, Prod.mk.injEq] at hc
        obtain ⟨rfl, rfl⟩ := hc
        rw [SameO] at hsm
        rw [OkO]
        exact ⟨ok_of_copyObj o n _ _ h.1 ho (same_of_setParent hsm.1), ok_of_copyObjs self r _ _ _ h.2 hr hsm.2⟩
termination_by structural os => os
end

/-- C104, exactly when: the deep copy of an object succeeds and is equal precisely if nowhere in the tree there is a hidden item
definition or a value that its validator changes or refuses. -/
theorem C104_iff_partial (o : Obj V) (n : ℕ) (h : Shape env o) :
    (∃ o' m, copyObj env o n = .ok (o', m) ∧ Same o o') ↔ Ok env o := by
  constructor
  · rintro ⟨o', m, hc, hs⟩
    exact ok_of_copyObj env o n o' m h hc hs
  · intro hok
    obtain ⟨o', m, e, s, -⟩ := copyObj_spec env o n hok
    exact ⟨o', m, e, s⟩

/-- Counterexample: `copy.deepcopy` of any object of a class whose first item is hidden raises `AttributeError`. -/
theorem C104_counterexample_hidden (c i : ℕ) (p : Option ℕ) (is : Items V) (rs : Rels V) (n : ℕ) (hp : (env c).props = [])
    (hh : (env c).hidden.head? = some true) (hi : is ≠ .nil) : copyObj env (.mk c i p [] is rs) n = .error .attributeError := by
  obtain ⟨hs, he⟩ : ∃ hs, (env c).hidden = true :: hs := by
    cases hx : (env c).hidden with
    | nil => rw [hx] at hh; cases hh
    | cons b hs => rw [hx] at hh; cases hh; exact ⟨hs, rfl⟩
  rw [copyObj, hp, he]
  cases is with
  | nil => exact absurd rfl hi
  | none r => simp [copyProps, copyItems]
  | some o r => simp [copyProps, copyItems]

/-- A class with a property whose validator makes the value at least 1, and one relationship. -/
def atLeastOne : Class ℕ := ⟨[some fun v => .ok (max v 1)], [], 1⟩

/-- Counterexample: the value a property is defined with is not validated, but its copy is; the copy differs. -/
theorem C104_counterexample : ∃ o' m, copyObj (fun _ => atLeastOne) (.mk 0 0 none [0] .nil (.cons .nil .nil)) 1 = .ok (o', m) ∧
    ¬ Same (.mk 0 0 none [0] .nil (.cons .nil .nil)) o' := by
  refine ⟨.mk 0 1 none [1] .nil (.cons .nil .nil), 2, rfl, ?_⟩
  simp [Same]

/-- A class with an item and a relationship, and a tree of three objects. -/
def sampleEnv : ℕ → Class ℕ
  | 0 => ⟨[none, some fun v => .ok (max v 1)], [false, false], 1⟩
  | _ => ⟨[none], [], 0⟩

def sample : Obj ℕ := .mk 0 3 none [7, 2] (.none (.some (.mk 1 5 (some 3) [8] .nil .nil) .nil)) (.cons (.cons (.mk 1 4 (some 3) [9] .nil .nil) .nil) .nil)

example : Ok sampleEnv sample ∧ (∀ i ∈ sample.ids, i < 6) ∧ copyObj sampleEnv sample 6 =
    .ok (.mk 0 6 none [7, 2] (.none (.some (.mk 1 7 (some 6) [8] .nil .nil) .nil)) (.cons (.cons (.mk 1 8 (some 6) [9] .nil .nil) .nil) .nil), 9) := by
  refine ⟨?_, by decide, rfl⟩
  simp [sample, sampleEnv, Ok, OkI, OkR, OkO, Stable, Rels.length]

/-- A tree in which a value deep inside would be changed: it has the shape of its classes but is not copied faithfully. -/
example : Shape sampleEnv (.mk 0 3 none [7, 2] (.none (.some (.mk 0 5 (some 3) [8, 0] (.none (.none .nil)) (.cons .nil .nil)) .nil)) (.cons .nil .nil)) ∧
    ¬ Ok sampleEnv (.mk 0 3 none [7, 2] (.none (.some (.mk 0 5 (some 3) [8, 0] (.none (.none .nil)) (.cons .nil .nil)) .nil)) (.cons .nil .nil)) := by
  simp [sampleEnv, Shape, ShapeI, ShapeR, ShapeO, Ok, OkI, OkR, OkO, Stable, Rels.length]

end Verif.Persist.Copy
