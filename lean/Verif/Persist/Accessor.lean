import Verif.Persist.Dict

/-!
C106: finding the part of a written dict which belongs to a contained object. Model of `PersistentObject.get_accessor_in_parent`
(`nion/utils/Persistence.py:429-437`) with `write_to_dict` (`Dict.lean`). A step of a path from an object to one it contains is an
item, or a position in a relationship; `index(self)` (435) finds the object itself, as no object is contained twice and objects are
compared by identity, so the position is that of the step.
-/

namespace Verif.Persist

open Verif.Py

variable {V : Type} (env : Nat → Class V)

/-- From an object to one it contains: the item with a number, or the object at a position of the relationship with a number. -/
inductive Acc where
  | item (k : Nat)
  | rel (k j : Nat)

def Items.get? : Items V → Nat → Option (Obj V)
  | .nil, _ => Option.none
  | .none _, 0 => Option.none
  | .some o _, 0 => Option.some o
  | .none r, k + 1 => r.get? k
  | .some _ r, k + 1 => r.get? k

def Objs.get? : Objs V → Nat → Option (Obj V)
  | .nil, _ => none
  | .cons o _, 0 => some o
  | .cons _ r, j + 1 => r.get? j

def Rels.get? : Rels V → Nat → Option (Objs V)
  | .nil, _ => none
  | .cons os _, 0 => some os
  | .cons _ r, k + 1 => r.get? k

/-- The object contained at a place. -/
def Obj.child : Obj V → Acc → Option (Obj V)
  | .mk _ _ _ is _, .item k => is.get? k
  | .mk _ _ _ _ rs, .rel k j => (rs.get? k).bind fun os => os.get? j

def Obj.walk : Obj V → List Acc → Option (Obj V)
  | o, [] => some o
  | o, a :: as => (o.child a).bind fun c => c.walk as

/-- What `get(name, dict())` gives; something which is no dict stands for an exception later. -/
def getDict (d : Dict) (k : String) : Except Exc Dict :=
  match d.lookup k with
  | some (.dict e) => .ok e
  | some _ => .error .typeError
  | none => .ok []

/-- `d[k][j]`. -/
def getAt (d : Dict) (k : String) (j : Nat) : Except Exc Dict :=
  match d.lookup k with
  | some (.list l) =>
    match l[j]? with
    | some (.dict e) => .ok e
    | some _ => .error .typeError
    | none => .error .indexError
  | some _ => .error .typeError
  | none => .error .keyError

/-- Lines 429-437: the accessor of the object at a place in an object of the class, applied to a dict. -/
def access (c : Class V) : Acc → Dict → Except Exc Dict
  | .item k, d =>
    match c.items[k]? with
    | some i => getDict d i.name
    | none => .error .assertionError
  | .rel k j, d =>
    match c.rels[k]? with
    | some r => getAt d r.name j
    | none => .error .assertionError

/-- The accessors along a path, from the outermost object inwards. -/
def accessAll : Obj V → List Acc → Dict → Except Exc Dict
  | _, [], d => .ok d
  | o, a :: as, d =>
    match access (env o.cls) a d with
    | .error e => .error e
    | .ok d' =>
      match o.child a with
      | some c => accessAll c as d'
      | none => .error .assertionError

/-! ### Hypotheses -/

/-- The relationship of the step is stored under its name. -/
def Acc.Named (c : Class V) : Acc → Prop
  | .item _ => True
  | .rel k _ => ∀ r, c.rels[k]? = some r → r.key = r.name

/-- Along the path, the keys of the classes are distinct, relationships are stored under their names, objects have what their
classes define. -/
def PathOk : Obj V → List Acc → Prop
  | _, [] => True
  | o, a :: as => ObjOk env o ∧ a.Named (env o.cls) ∧ ∀ c, o.child a = some c → PathOk c as

/-! ### Proof -/

theorem itemsAt_get {D : Dict} : ∀ (ds : List ItemDef) (is : Items V), ItemsOk env ds is → ItemsAt env D ds is →
    ∀ k o, is.get? k = some o → ∃ i, ds[k]? = some i ∧ D.lookup i.name = some (.dict (writeObj env o))
  | [], .nil, _, _ => by intro k o h; cases k <;> simp [Items.get?] at h
  | [], .none _, h, _ => by simp [ItemsOk] at h
  | [], .some _ _, h, _ => by simp [ItemsOk] at h
  | _ :: _, .nil, h, _ => by simp [ItemsOk] at h
  | i :: ds, .none r, h, ha => by
    intro k o hk
    rw [ItemsOk] at h
    rw [ItemsAt] at ha
    cases k with
    | zero => simp [Items.get?] at hk
    | succ k => simpa using itemsAt_get ds r h ha.2 k o hk
  | i :: ds, .some c r, h, ha => by
    intro k o hk
    rw [ItemsOk] at h
    rw [ItemsAt] at ha
    cases k with
    | zero =>
      simp only [Items.get?, Option.some.injEq] at hk
      subst hk
      exact ⟨i, rfl, ha.1⟩
    | succ k => simpa using itemsAt_get ds r h.2.2 ha.2 k o hk

theorem writeObjs_get : ∀ (os : Objs V) (j : Nat) (o : Obj V), os.get? j = some o → (writeObjs env os)[j]? = some (.dict (writeObj env o))
  | .nil, j, o, h => by cases j <;> simp [Objs.get?] at h
  | .cons c r, 0, o, h => by
    simp only [Objs.get?, Option.some.injEq] at h
    subst h
    rw [writeObjs]
    rfl
  | .cons c r, j + 1, o, h => by
    rw [writeObjs]
    exact writeObjs_get r j o h

theorem relsAt_get {D : Dict} : ∀ (ds : List RelDef) (rs : Rels V), RelsOk env ds rs → RelsAt env D ds rs →
    ∀ k os, rs.get? k = some os → ∃ r, ds[k]? = some r ∧ D.lookup r.key = some (.list (writeObjs env os))
  | [], .nil, _, _ => by intro k o h; cases k <;> simp [Rels.get?] at h
  | [], .cons _ _, h, _ => by simp [RelsOk] at h
  | _ :: _, .nil, h, _ => by simp [RelsOk] at h
  | i :: ds, .cons c r, h, ha => by
    intro k o hk
    rw [RelsOk] at h
    rw [RelsAt] at ha
    cases k with
    | zero =>
      simp only [Rels.get?, Option.some.injEq] at hk
      subst hk
      exact ⟨i, rfl, ha.1⟩
    | succ k => simpa using relsAt_get ds r h.2 ha.2 k o hk

theorem access_child (o c : Obj V) (a : Acc) (ho : ObjOk env o) (hn : a.Named (env o.cls)) (h : o.child a = some c) :
    access (env o.cls) a (writeObj env o) = .ok (writeObj env c) := by
  obtain ⟨cl, u, ps, is, rs⟩ := o
  rw [ObjOk] at ho
  obtain ⟨hk, -, hi, hr⟩ := ho
  obtain ⟨-, -, hwi, hwr⟩ := written env cl u ps is rs hk
  cases a with
  | item k =>
    obtain ⟨i, h1, h2⟩ := itemsAt_get env _ is hi hwi k c h
    rw [access, Obj.cls, h1]
    simp only [getDict, h2]
  | rel k j =>
    rw [Obj.child] at h
    cases hos : rs.get? k with
    | none => rw [hos] at h; cases h
    | some os =>
      rw [hos] at h
      obtain ⟨r, h1, h2⟩ := relsAt_get env _ rs hr hwr k os hos
      have h3 := writeObjs_get env os j c h
      have h4 := hn r h1
      rw [access, Obj.cls, h1]
      rw [h4] at h2
      simp only [getAt, h2, h3]

/-- C106 (partial: every relationship along the path is stored under its name): the accessors of the objects from an object inwards to
one it contains, applied one after the other to the dict the outer object writes, give exactly the dict the inner object writes. -/
theorem C106_accessor_partial (o c : Obj V) (as : List Acc) (h : PathOk env o as) (hw : o.walk as = some c) :
    accessAll env o as (writeObj env o) = .ok (writeObj env c) := by
  induction as generalizing o with
  | nil =>
    simp only [Obj.walk, Option.some.injEq] at hw
    subst hw
    rfl
  | cons a as ih =>
    obtain ⟨h1, h2, h3⟩ := h
    rw [Obj.walk] at hw
    cases hc : o.child a with
    | none => rw [hc] at hw; cases hw
    | some c' =>
      rw [hc] at hw
      rw [accessAll, access_child env o c' a h1 h2 hc]
      simp only [hc]
      exact ih c' (h3 c' hc) hw

/-- C106: hence an object can be read from there, and is the contained object (as in C55). -/
theorem C106_read_partial (u0 : String) (o c : Obj V) (as : List Acc) (h : PathOk env o as) (hw : o.walk as = some c)
    (hc : ObjOk env c) (n : Nat) (hn : c.height ≤ n) :
    ∃ d, accessAll env o as (writeObj env o) = .ok d ∧ readObj env u0 n c.cls d = some c :=
  ⟨_, C106_accessor_partial env o c as h hw, C55_round_trip_partial env u0 c hc n hn⟩

/-- The environment of `Dict.lean`, but the relationship is stored under its name. -/
def namedEnv : Nat → Class (Option Nat)
  | 0 => ⟨"leaf", [numProp "v" "value" none], [], []⟩
  | _ => ⟨"node", [numProp "x" "x" none, numProp "y" "y" (some 3)], [⟨"i", byType⟩], [⟨"l", "l", byType⟩]⟩

def nested : Obj (Option Nat) :=
  .mk 1 "u1" [some 5, some 4] (.none .nil)
    (.cons (.cons (leaf "u3" none) (.cons (.mk 1 "u4" [none, some 3] (.some (leaf "u2" (some 1)) .nil) (.cons .nil .nil)) .nil)) .nil)

/-- The item of the second object of the relationship. -/
example : PathOk namedEnv nested [.rel 0 1, .item 0] ∧ nested.walk [.rel 0 1, .item 0] = some (leaf "u2" (some 1)) := by
  refine ⟨⟨?_, ?_, ?_⟩, rfl⟩
  · simp [nested, leaf, ObjOk, ItemsOk, RelsOk, ObjsOk, namedEnv, Class.KeysOk, PropsOk, numProp, writeObj, writeProps, writeProp,
      writeItems, writeRels, writeObjs, byType, Obj.cls, dset, dpop, List.lookup]
  · intro r hr
    simp [nested, Obj.cls, namedEnv] at hr
    rw [← hr]
  · intro c hc
    simp only [nested, Obj.child, Rels.get?, Objs.get?, Option.bind_some, Option.some.injEq] at hc
    subst hc
    refine ⟨?_, trivial, fun _ _ => trivial⟩
    simp [nested, leaf, ObjOk, ItemsOk, RelsOk, ObjsOk, namedEnv, Class.KeysOk, PropsOk, numProp, writeObj, writeProps, writeProp,
      writeItems, writeRels, writeObjs, byType, Obj.cls, dset, dpop, List.lookup]

/-- C106, negative: a relationship with a separate key: the accessor looks under the name and raises `KeyError`. -/
theorem C106_counterexample :
    ObjOk demoEnv demoObj ∧ demoObj.walk [.rel 0 0] = some (leaf "u3" none) ∧
      accessAll demoEnv demoObj [.rel 0 0] (writeObj demoEnv demoObj) = .error .keyError := by
  refine ⟨?_, rfl, ?_⟩
  · simp [demoObj, leaf, ObjOk, ItemsOk, RelsOk, ObjsOk, demoEnv, Class.KeysOk, PropsOk, numProp, writeObj, writeProps, writeProp,
      writeItems, writeRels, writeObjs, byType, Obj.cls, dset, dpop]
  · simp [demoObj, leaf, demoEnv, numProp, writeObj, writeProps, writeProp, writeItems, writeRels, writeObjs, Obj.cls, dset, dpop,
      List.lookup, accessAll, access, getAt, listAt]

/-! ### Exactly -/

/-- The keys of what objects of the class write. -/
def Class.allKeys (c : Class V) : List String :=
  "type" :: "uuid" :: (c.props.map PropDef.key ++ c.items.map ItemDef.name ++ c.rels.map RelDef.key)

/-- The relationship of the step is stored under its name, or nothing is. -/
def Acc.Free (c : Class V) : Acc → Prop
  | .item _ => True
  | .rel k _ => ∀ r, c.rels[k]? = some r → r.key = r.name ∨ r.name ∉ c.allKeys

/-- As `PathOk`, with relationships whose names are no keys. -/
def PathFree : Obj V → List Acc → Prop
  | _, [] => True
  | o, a :: as => ObjOk env o ∧ a.Free (env o.cls) ∧ ∀ c, o.child a = some c → PathFree c as

theorem lookup_written_none (o : Obj V) (k : String) (h : k ∉ (env o.cls).allKeys) : (writeObj env o).lookup k = none := by
  obtain ⟨c, u, ps, is, rs⟩ := o
  simp only [Class.allKeys, Obj.cls, List.mem_cons, List.mem_append, not_or] at h
  obtain ⟨h1, h2, ⟨h3, h4⟩, h5⟩ := h
  rw [writeObj, lookup_writeRels_ne env _ _ _ h5, lookup_writeItems_ne env _ _ _ h4, lookup_writeProps_ne _ _ _ h3, lookup_dset_ne _ _ h2]
  split
  · rfl
  · rw [List.lookup_cons, show (k == "type") = false by simpa using h1]
    rfl

theorem access_free (o c : Obj V) (a : Acc) (ho : ObjOk env o) (hn : a.Free (env o.cls)) (h : o.child a = some c) (h' : ¬ a.Named (env o.cls)) :
    access (env o.cls) a (writeObj env o) = .error .keyError := by
  cases a with
  | item k => exact absurd trivial h'
  | rel k j =>
    simp only [Acc.Named, not_forall] at h'
    obtain ⟨r, h1, h2⟩ := h'
    have h3 := lookup_written_none env o r.name ((hn r h1).resolve_left h2)
    rw [access, h1]
    simp only [getAt, h3]

/-- C106 (partial: names of relationships that are not their keys are no keys of others, see `C106_counterexample_swapped`): the accessors
give what the inner object writes exactly if every relationship on the way is stored under its name, and raise `KeyError` otherwise. -/
theorem C106_iff_partial (o c : Obj V) (as : List Acc) (h : PathFree env o as) (hw : o.walk as = some c) :
    (PathOk env o as ∧ accessAll env o as (writeObj env o) = .ok (writeObj env c)) ∨
      (¬ PathOk env o as ∧ accessAll env o as (writeObj env o) = .error .keyError) := by
  induction as generalizing o with
  | nil => exact .inl ⟨trivial, C106_accessor_partial env o c [] trivial hw⟩
  | cons a as ih =>
    obtain ⟨h1, h2, h3⟩ := h
    rw [Obj.walk] at hw
    cases hc : o.child a with
    | none => rw [hc] at hw; cases hw
    | some c' =>
      rw [hc] at hw
      by_cases hn : a.Named (env o.cls)
      · rw [accessAll, access_child env o c' a h1 hn hc]
        simp only [hc]
        rcases ih c' (h3 c' hc) hw with ⟨g1, g2⟩ | ⟨g1, g2⟩
        · exact .inl ⟨⟨h1, hn, fun d hd => by rw [hc] at hd; cases hd; exact g1⟩, g2⟩
        · exact .inr ⟨fun g => g1 (g.2.2 c' hc), g2⟩
      · rw [accessAll, access_free env o c' a h1 h2 hc hn]
        exact .inr ⟨fun g => hn g.2.1, rfl⟩

/-- Two relationships, each stored under the name of the other. -/
def swapEnv : Nat → Class (Option Nat)
  | 0 => ⟨"leaf", [numProp "v" "value" none], [], []⟩
  | _ => ⟨"node", [], [], [⟨"a", "b", byType⟩, ⟨"b", "a", byType⟩]⟩

def swapObj : Obj (Option Nat) :=
  .mk 1 "u1" [] .nil (.cons (.cons (leaf "u2" none) .nil) (.cons (.cons (leaf "u3" none) .nil) .nil))

/-- C106: the accessor of an object gives what another object writes. -/
theorem C106_counterexample_swapped :
    ObjOk swapEnv swapObj ∧ swapObj.walk [.rel 0 0] = some (leaf "u2" none) ∧
      accessAll swapEnv swapObj [.rel 0 0] (writeObj swapEnv swapObj) = .ok (writeObj swapEnv (leaf "u3" none)) := by
  refine ⟨?_, rfl, ?_⟩
  · simp [swapObj, leaf, ObjOk, ItemsOk, RelsOk, ObjsOk, swapEnv, Class.KeysOk, PropsOk, numProp, writeObj, writeProps, writeProp,
      writeItems, writeRels, writeObjs, byType, Obj.cls, dset, dpop, List.lookup]
  · simp [swapObj, leaf, swapEnv, numProp, writeObj, writeProps, writeProp, writeItems, writeRels, writeObjs, Obj.cls, dset, dpop,
      List.lookup, accessAll, access, getAt, listAt, Obj.child, Rels.get?, Objs.get?]

/-- `C106_iff_partial` where a relationship has a key of its own. -/
example : PathFree demoEnv demoObj [.rel 0 0] ∧ demoObj.walk [.rel 0 0] = some (leaf "u3" none) := by
  refine ⟨⟨?_, ?_, fun _ _ => trivial⟩, rfl⟩
  · exact C106_counterexample.1
  · intro r hr
    simp [demoObj, Obj.cls, demoEnv] at hr
    subst hr
    exact .inr (by decide)

end Verif.Persist
