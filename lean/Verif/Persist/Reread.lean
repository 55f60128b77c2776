import Verif.Persist.Dict
import Verif.Persist.Context

/-!
C120: reading a dict into an object that has content already (`nion/utils/Persistence.py:501-550`): values, items and related objects
that are there when `read_from_dict` is called. Same simplifications as in `Persist/Dict.lean`.
-/

namespace Verif.Persist

open Verif.Py

variable {V : Type} (env : Nat → Class V)

/-- Lines 511-513 and 63-75: a property whose key is missing keeps its value. -/
def readPropsInto (d : Dict) : List (PropDef V) → List V → List V
  | p :: ps, v :: vs =>
    (match d.lookup p.key with
      | some j => p.read j
      | none => v) :: readPropsInto d ps vs
  | _, _ => []

/-- Lines 514-531: an item whose key is missing, or whose dict is empty, stays; any other is replaced. -/
def readItemsInto (rd : Nat → Dict → Option (Obj V)) (d : Dict) : List ItemDef → Items V → Option (Items V)
  | i :: is, .none rest =>
    match d.lookup i.name with
    | some (.dict (e :: es)) =>
      (i.factory fun k => (e :: es).lookup k).bind fun c => (rd c (e :: es)).bind fun o => (readItemsInto rd d is rest).map (.some o ·)
    | _ => (readItemsInto rd d is rest).map .none
  | i :: is, .some old rest =>
    match d.lookup i.name with
    | some (.dict (e :: es)) =>
      (i.factory fun k => (e :: es).lookup k).bind fun c => (rd c (e :: es)).bind fun o => (readItemsInto rd d is rest).map (.some o ·)
    | _ => (readItemsInto rd d is rest).map (.some old ·)
  | _, _ => some .nil

def Objs.append : Objs V → Objs V → Objs V
  | .nil, b => b
  | .cons o rest, b => .cons o (rest.append b)

/-- Lines 532-550: the objects are inserted behind those that are there. -/
def readRelsInto (rd : Nat → Dict → Option (Obj V)) (d : Dict) : List RelDef → Rels V → Option (Rels V)
  | r :: rs, .cons os rest =>
    (readObjs rd r.factory (listAt d r.key)).bind fun new => (readRelsInto rd d rs rest).map (.cons (os.append new) ·)
  | _, _ => some .nil

/-- Lines 501-550 `read_from_dict` of an object with content. Objects made on the way are new, with the uuid `u0` before they are read. -/
def readInto (u0 : String) (n : Nat) (d : Dict) : Obj V → Option (Obj V)
  | .mk c u ps is rs =>
    let u' := match d.lookup "uuid" with
      | some (.str u') => u'
      | _ => u
    (readItemsInto (readObj env u0 n) d (env c).items is).bind fun is' =>
      (readRelsInto (readObj env u0 n) d (env c).rels rs).map fun rs' => .mk c u' (readPropsInto d (env c).props ps) is' rs'

/-! ### A new object -/

def blankItems : List ItemDef → Items V
  | [] => .nil
  | _ :: is => .none (blankItems is)

def blankRels : List RelDef → Rels V
  | [] => .nil
  | _ :: rs => .cons .nil (blankRels rs)

/-- A new object: defaults, no items, no related objects (lines 436-453). -/
def blank (u0 : String) (c : Nat) : Obj V :=
  .mk c u0 ((env c).props.map PropDef.default) (blankItems (env c).items) (blankRels (env c).rels)

/-- Reading into a new object is what `Persist/Dict.lean` models. -/
theorem readInto_blank (u0 : String) (n c : Nat) (d : Dict) : readInto env u0 n d (blank env u0 c) = readObj env u0 (n + 1) c d := by
  have h1 : ∀ ps : List (PropDef V), readPropsInto d ps (ps.map PropDef.default) = readProps ps d := by
    intro ps
    induction ps with
    | nil => rfl
    | cons p ps ih => rw [List.map_cons, readPropsInto, ih]; rfl
  have h2 : ∀ is, readItemsInto (readObj env u0 n) d is (blankItems is) = readItems (readObj env u0 n) d is := by
    intro is
    induction is with
    | nil => rfl
    | cons i is ih => rw [blankItems, readItemsInto, readItems, ih]; rfl
  have h3 : ∀ rs, readRelsInto (readObj env u0 n) d rs (blankRels rs) = readRels (readObj env u0 n) d rs := by
    intro rs
    induction rs with
    | nil => rfl
    | cons r rs ih => rw [blankRels, readRelsInto, readRels, ih]; rfl
  rw [blank, readInto, readObj, h1, h2, h3]; rfl

/-! ### Specification -/

/-- Each property has the new value if that is written, otherwise the old. -/
def overProps : List (PropDef V) → List V → List V → List V
  | p :: ps, v :: vs, v' :: vs' => (if (p.write v').isSome then v' else v) :: overProps ps vs vs'
  | _, _, _ => []

/-- Each item is the new one if there is one, otherwise the old. -/
def overItems : Items V → Items V → Items V
  | .none r, .none r' => .none (overItems r r')
  | .some o r, .none r' => .some o (overItems r r')
  | .none r, .some o' r' => .some o' (overItems r r')
  | .some _ r, .some o' r' => .some o' (overItems r r')
  | _, _ => .nil

/-- The related objects are the old ones and then the new. -/
def overRels : Rels V → Rels V → Rels V
  | .cons os r, .cons os' r' => .cons (os.append os') (overRels r r')
  | _, _ => .nil

/-- The object that has the content of the second over that of the first. -/
def over : Obj V → Obj V → Obj V
  | .mk _ _ ps is rs, .mk c' u' ps' is' rs' => .mk c' u' (overProps (env c').props ps ps') (overItems is is') (overRels rs rs')

/-- The object has as many properties, items and relationships as its class. -/
def ItemsShaped : List ItemDef → Items V → Prop
  | [], .nil => True
  | _ :: is, .none r => ItemsShaped is r
  | _ :: is, .some _ r => ItemsShaped is r
  | _, _ => False

def RelsShaped : List RelDef → Rels V → Prop
  | [], .nil => True
  | _ :: rs, .cons _ r => RelsShaped rs r
  | _, _ => False

def Shaped : Obj V → Prop
  | .mk c _ ps is rs => ps.length = (env c).props.length ∧ ItemsShaped (env c).items is ∧ RelsShaped (env c).rels rs

/-! ### Proof -/

theorem readPropsInto_ok {D : Dict} : ∀ (ps : List (PropDef V)) (vs vs' : List V), vs.length = ps.length → PropsOk ps vs' → PropsAt D ps vs' →
    readPropsInto D ps vs = overProps ps vs vs'
  | [], [], [], _, _, _ => rfl
  | [], _ :: _, _, h, _, _ => by simp at h
  | _ :: _, [], _, h, _, _ => by simp at h
  | [], _, _ :: _, _, h, _ => by simp [PropsOk] at h
  | _ :: _, _, [], _, h, _ => by simp [PropsOk] at h
  | p :: ps, v :: vs, v' :: vs', hl, h, ha => by
    rw [PropsOk] at h
    rw [PropsAt] at ha
    rw [readPropsInto, overProps, readPropsInto_ok ps vs vs' (by simpa using hl) h.2 ha.2, ha.1]
    have h1 := h.1
    cases hw : p.write v' with
    | none => simp
    | some j => rw [hw] at h1; simp only at h1; simp [h1]

theorem readItemsInto_ok (u0 : String) (n : Nat) {D : Dict} : ∀ (ds : List ItemDef) (is is' : Items V), ItemsShaped ds is → ItemsOk env ds is' →
    is'.height ≤ n → ItemsAt env D ds is' → readItemsInto (readObj env u0 n) D ds is = some (overItems is is')
  | [], .nil, .nil, _, _, _, _ => rfl
  | [], .none _, _, h, _, _, _ => by simp [ItemsShaped] at h
  | [], .some _ _, _, h, _, _, _ => by simp [ItemsShaped] at h
  | _ :: _, .nil, _, h, _, _, _ => by simp [ItemsShaped] at h
  | [], _, .none _, _, h, _, _ => by simp [ItemsOk] at h
  | [], _, .some _ _, _, h, _, _ => by simp [ItemsOk] at h
  | _ :: _, _, .nil, _, h, _, _ => by simp [ItemsOk] at h
  | i :: ds, .none r, .none r', hs, h, hn, ha => by
    rw [ItemsShaped] at hs
    rw [ItemsOk] at h
    rw [ItemsAt] at ha
    rw [Items.height] at hn
    rw [readItemsInto, ha.1, readItemsInto_ok u0 n ds r r' hs h hn ha.2]; rfl
  | i :: ds, .some o r, .none r', hs, h, hn, ha => by
    rw [ItemsShaped] at hs
    rw [ItemsOk] at h
    rw [ItemsAt] at ha
    rw [Items.height] at hn
    rw [readItemsInto, ha.1, readItemsInto_ok u0 n ds r r' hs h hn ha.2]; rfl
  | i :: ds, .none r, .some o' r', hs, h, hn, ha => by
    rw [ItemsShaped] at hs
    rw [ItemsOk] at h
    rw [ItemsAt] at ha
    rw [Items.height] at hn
    obtain ⟨e, es, he⟩ := writeObj_ne_nil env o' h.2.1
    have h1 := read_write env u0 o' h.2.1 n (by omega)
    have h2 := h.1
    rw [he] at h1 h2
    rw [readItemsInto, ha.1, he]
    simp only [h2, Option.bind_some]
    rw [h1, readItemsInto_ok u0 n ds r r' hs h.2.2 (by omega) ha.2]; rfl
  | i :: ds, .some o r, .some o' r', hs, h, hn, ha => by
    rw [ItemsShaped] at hs
    rw [ItemsOk] at h
    rw [ItemsAt] at ha
    rw [Items.height] at hn
    obtain ⟨e, es, he⟩ := writeObj_ne_nil env o' h.2.1
    have h1 := read_write env u0 o' h.2.1 n (by omega)
    have h2 := h.1
    rw [he] at h1 h2
    rw [readItemsInto, ha.1, he]
    simp only [h2, Option.bind_some]
    rw [h1, readItemsInto_ok u0 n ds r r' hs h.2.2 (by omega) ha.2]; rfl

theorem readRelsInto_ok (u0 : String) (n : Nat) {D : Dict} : ∀ (ds : List RelDef) (rs rs' : Rels V), RelsShaped ds rs → RelsOk env ds rs' →
    rs'.height ≤ n → RelsAt env D ds rs' → readRelsInto (readObj env u0 n) D ds rs = some (overRels rs rs')
  | [], .nil, .nil, _, _, _, _ => rfl
  | [], .cons _ _, _, h, _, _, _ => by simp [RelsShaped] at h
  | _ :: _, .nil, _, h, _, _, _ => by simp [RelsShaped] at h
  | [], _, .cons _ _, _, h, _, _ => by simp [RelsOk] at h
  | _ :: _, _, .nil, _, h, _, _ => by simp [RelsOk] at h
  | r :: ds, .cons os rest, .cons os' rest', hs, h, hn, ha => by
    rw [RelsShaped] at hs
    rw [RelsOk] at h
    rw [RelsAt] at ha
    rw [Rels.height] at hn
    rw [readRelsInto, listAt, ha.1]
    simp only
    rw [read_writeObjs env u0 r os' h.1 n (by omega), Option.bind_some, readRelsInto_ok u0 n ds rest rest' hs h.2 (by omega) ha.2]
    rfl

/-- C120: reading what an object wrote into another object of its class puts the content over what is there: values that were written
replace the old ones and the others stay, items that were written replace the old ones and the others stay, related objects come behind
the old ones. -/
theorem C120_over (u0 : String) (n : Nat) (o o' : Obj V) (hc : o.cls = o'.cls) (hs : Shaped env o) (h : ObjOk env o') (hn : o'.height ≤ n + 1) :
    readInto env u0 n (writeObj env o') o = some (over env o o') := by
  obtain ⟨c, u, ps, is, rs⟩ := o
  obtain ⟨c', u', ps', is', rs'⟩ := o'
  simp only [Obj.cls] at hc
  subst hc
  rw [ObjOk] at h
  rw [Shaped] at hs
  rw [Obj.height] at hn
  obtain ⟨hu, hp, hi, hr⟩ := written env c u' ps' is' rs' h.1
  rw [readInto, hu, readItemsInto_ok env u0 n _ is is' hs.2.1 h.2.2.1 (by omega) hi, Option.bind_some,
    readRelsInto_ok env u0 n _ rs rs' hs.2.2 h.2.2.2 (by omega) hr, readPropsInto_ok _ ps ps' hs.1 h.2.1 hp]
  rfl

/-! ### When the object read is the object written -/

/-- Values that are not written are the same. -/
def PropsSame : List (PropDef V) → List V → List V → Prop
  | p :: ps, v :: vs, v' :: vs' => (p.write v' = none → v = v') ∧ PropsSame ps vs vs'
  | _, _, _ => True

/-- Where the second has no item the first has none. -/
def ItemsSame : Items V → Items V → Prop
  | .none r, .none r' => ItemsSame r r'
  | .some _ _, .none _ => False
  | .none r, .some _ r' => ItemsSame r r'
  | .some _ r, .some _ r' => ItemsSame r r'
  | _, _ => True

/-- There are no related objects. -/
def NoRelated : Rels V → Prop
  | .nil => True
  | .cons .nil r => NoRelated r
  | .cons (.cons _ _) _ => False

def Objs.length : Objs V → Nat
  | .nil => 0
  | .cons _ r => r.length + 1

theorem Objs.length_append : ∀ a b : Objs V, (a.append b).length = a.length + b.length
  | .nil, b => by simp [Objs.append, Objs.length]
  | .cons o r, b => by rw [Objs.append, Objs.length, Objs.length, Objs.length_append r b]; omega

theorem overProps_same : ∀ (ps : List (PropDef V)) (vs vs' : List V), vs.length = ps.length → vs'.length = ps.length →
    (overProps ps vs vs' = vs' ↔ PropsSame ps vs vs')
  | [], [], [], _, _ => by simp [overProps, PropsSame]
  | [], _ :: _, _, h, _ => by simp at h
  | [], _, _ :: _, _, h => by simp at h
  | _ :: _, [], _, h, _ => by simp at h
  | _ :: _, _, [], _, h => by simp at h
  | p :: ps, v :: vs, v' :: vs', hl, hl' => by
    rw [overProps, PropsSame, List.cons.injEq, overProps_same ps vs vs' (by simpa using hl) (by simpa using hl')]
    cases hw : p.write v' <;> simp

theorem overItems_same : ∀ (ds : List ItemDef) (is is' : Items V), ItemsShaped ds is → ItemsShaped ds is' →
    (overItems is is' = is' ↔ ItemsSame is is')
  | [], .nil, .nil, _, _ => by simp [overItems, ItemsSame]
  | [], .none _, _, h, _ => by simp [ItemsShaped] at h
  | [], .some _ _, _, h, _ => by simp [ItemsShaped] at h
  | [], _, .none _, _, h => by simp [ItemsShaped] at h
  | [], _, .some _ _, _, h => by simp [ItemsShaped] at h
  | _ :: _, .nil, _, h, _ => by simp [ItemsShaped] at h
  | _ :: _, _, .nil, _, h => by simp [ItemsShaped] at h
  | _ :: ds, .none r, .none r', h, h' => by
    rw [ItemsShaped] at h h'
    rw [overItems, ItemsSame, Items.none.injEq, overItems_same ds r r' h h']
  | _ :: ds, .some o r, .none r', h, h' => by simp [overItems, ItemsSame]
  | _ :: ds, .none r, .some o' r', h, h' => by
    simp only [ItemsShaped] at h h'
    rw [overItems, ItemsSame, Items.some.injEq, overItems_same ds r r' h h']; simp
  | _ :: ds, .some o r, .some o' r', h, h' => by
    simp only [ItemsShaped] at h h'
    rw [overItems, ItemsSame, Items.some.injEq, overItems_same ds r r' h h']; simp

theorem overRels_same : ∀ (ds : List RelDef) (rs rs' : Rels V), RelsShaped ds rs → RelsShaped ds rs' →
    (overRels rs rs' = rs' ↔ NoRelated rs)
  | [], .nil, .nil, _, _ => by simp [overRels, NoRelated]
  | [], .cons _ _, _, h, _ => by simp [RelsShaped] at h
  | [], _, .cons _ _, _, h => by simp [RelsShaped] at h
  | _ :: _, .nil, _, h, _ => by simp [RelsShaped] at h
  | _ :: _, _, .nil, _, h => by simp [RelsShaped] at h
  | _ :: ds, .cons .nil r, .cons os' r', h, h' => by
    rw [RelsShaped] at h h'
    rw [overRels, NoRelated, Rels.cons.injEq, overRels_same ds r r' h h']; simp [Objs.append]
  | _ :: ds, .cons (.cons o os) r, .cons os' r', h, h' => by
    rw [overRels, NoRelated, Rels.cons.injEq]
    simp only [iff_false, not_and]
    intro e
    have := congrArg Objs.length e
    rw [Objs.length_append, Objs.length] at this
    omega

theorem PropsOk.length : ∀ {ps : List (PropDef V)} {vs : List V}, PropsOk ps vs → vs.length = ps.length
  | [], [], _ => rfl
  | [], _ :: _, h => by simp [PropsOk] at h
  | _ :: _, [], h => by simp [PropsOk] at h
  | _ :: ps, _ :: vs, h => by rw [PropsOk] at h; simp [PropsOk.length h.2]

theorem ItemsOk.shaped : ∀ {ds : List ItemDef} {is : Items V}, ItemsOk env ds is → ItemsShaped ds is
  | [], .nil, _ => by simp [ItemsShaped]
  | [], .none _, h => by simp [ItemsOk] at h
  | [], .some _ _, h => by simp [ItemsOk] at h
  | _ :: _, .nil, h => by simp [ItemsOk] at h
  | _ :: ds, .none r, h => by rw [ItemsOk] at h; rw [ItemsShaped]; exact ItemsOk.shaped h
  | _ :: ds, .some o r, h => by rw [ItemsOk] at h; rw [ItemsShaped]; exact ItemsOk.shaped h.2.2

theorem RelsOk.shaped : ∀ {ds : List RelDef} {rs : Rels V}, RelsOk env ds rs → RelsShaped ds rs
  | [], .nil, _ => by simp [RelsShaped]
  | [], .cons _ _, h => by simp [RelsOk] at h
  | _ :: _, .nil, h => by simp [RelsOk] at h
  | _ :: ds, .cons os r, h => by rw [RelsOk] at h; rw [RelsShaped]; exact RelsOk.shaped h.2

/-- What has to be so for the object read to be the object written. -/
def Fits : Obj V → Obj V → Prop
  | .mk _ _ ps is rs, .mk c' _ ps' is' _ => PropsSame (env c').props ps ps' ∧ ItemsSame is is' ∧ NoRelated rs

/-- C120, exactly when reading into an object gives the object that was written: when it has no related objects, no item that the other
has not, and the same values for properties that are not written (`None`). (Partial: for other objects it is false.) -/
theorem C120_same_partial (u0 : String) (n : Nat) (o o' : Obj V) (hc : o.cls = o'.cls) (hs : Shaped env o) (h : ObjOk env o')
    (hn : o'.height ≤ n + 1) : readInto env u0 n (writeObj env o') o = some o' ↔ Fits env o o' := by
  rw [C120_over env u0 n o o' hc hs h hn, Option.some.injEq]
  obtain ⟨c, u, ps, is, rs⟩ := o
  obtain ⟨c', u', ps', is', rs'⟩ := o'
  simp only [Obj.cls] at hc
  subst hc
  rw [ObjOk] at h
  rw [Shaped] at hs
  rw [over, Fits, Obj.mk.injEq, overProps_same _ _ _ hs.1 h.2.1.length, overItems_same _ _ _ hs.2.1 (ItemsOk.shaped env h.2.2.1),
    overRels_same _ _ _ hs.2.2 (RelsOk.shaped env h.2.2.2)]
  simp

/-- C120: reading a dict a second time changes nothing exactly if it has no related objects; otherwise they are there twice. -/
theorem C120_twice (u0 : String) (n : Nat) (o : Obj V) (h : ObjOk env o) (hn : o.height ≤ n + 1) :
    readInto env u0 n (writeObj env o) (blank env u0 o.cls) = some o ∧
    (readInto env u0 n (writeObj env o) o = some o ↔ match o with | .mk _ _ _ _ rs => NoRelated rs) := by
  have hs : Shaped env o := by
    obtain ⟨c, u, ps, is, rs⟩ := o
    rw [ObjOk] at h
    exact ⟨h.2.1.length, ItemsOk.shaped env h.2.2.1, RelsOk.shaped env h.2.2.2⟩
  refine ⟨by rw [readInto_blank]; exact read_write env u0 o h (n + 1) hn, ?_⟩
  rw [C120_same_partial env u0 n o o rfl hs h hn]
  obtain ⟨c, u, ps, is, rs⟩ := o
  rw [Fits]
  have hp : ∀ (qs : List (PropDef V)) (vs : List V), PropsSame qs vs vs := by
    intro qs
    induction qs with
    | nil => intro vs; simp [PropsSame]
    | cons q qs ih => intro vs; cases vs <;> simp [PropsSame, ih]
  have hi : ∀ is : Items V, ItemsSame is is := by
    intro is
    induction is using Items.rec (motive_1 := fun _ => True) (motive_3 := fun _ => True) (motive_4 := fun _ => True) <;>
      simp_all [ItemsSame]
  simp [hp, hi]

/-! ### Registration -/

/-- Lines 504-507 for an object in a context: it takes the uuid of the dict and is registered under it. `uuidOf` are the uuids before. -/
def reread (s : Ctx) (uuidOf : Nat → Nat) (o u : Nat) : Ctx × (Nat → Nat) :=
  let uuidOf' := Function.update uuidOf o u
  (s.register uuidOf' o, uuidOf')

/-- C120: an object in a context that reads a dict is found under the uuid it has read; it is found under its old uuid too, and if that
differs it stays there after the object was unregistered. -/
theorem C120_registration (s : Ctx) (uuidOf : Nat → Nat) (o u : Nat) (hd : s.dead o = false) (h : s.get (uuidOf o) = some o) :
    let r := reread s uuidOf o u
    r.1.get u = some o ∧ r.1.get (uuidOf o) = some o ∧
      ((r.1.unregister r.2 o).1.get (uuidOf o) = if uuidOf o = u then none else some o) ∧ (r.1.unregister r.2 o).2 = none := by
  have hg : s.objects (uuidOf o) = some o := by
    unfold Ctx.get at h
    cases hob : s.objects (uuidOf o) with
    | none => simp [hob] at h
    | some x =>
      rw [hob] at h
      simp only [Option.bind_some] at h
      split at h <;> simp_all
  by_cases e : uuidOf o = u
  · subst e
    simp [reread, Ctx.register, Ctx.unregister, Ctx.get, hd]
  · simp [reread, Ctx.register, Ctx.unregister, Ctx.get, hd, e, hg, Function.update_of_ne]

/-- an object 3 with uuid 7 in a context reads a dict with uuid 8 -/
example :
    let s := Ctx.init.register (fun _ => 7) 3
    let r := reread s (fun _ => 7) 3 8
    r.1.get 7 = some 3 ∧ r.1.get 8 = some 3 ∧ (r.1.unregister r.2 3).1.get 7 = some 3 ∧ (r.1.unregister r.2 3).1.get 8 = none := by decide

/-! ### Cases -/

/-- C120 is false for an object that has content: reading the dict again doubles the related objects; and an object with an item and a
value keeps them when it reads the dict of an object without. -/
theorem C120_counterexample :
    (∃ o, readInto demoEnv "u" 5 (writeObj demoEnv demoObj) demoObj = some o ∧ o ≠ demoObj) ∧
    readInto demoEnv "u" 5 (writeObj demoEnv (.mk 1 "u9" [none, some 3] (.none .nil) (.cons .nil .nil)))
        (.mk 1 "u8" [some 5, some 4] (.some (leaf "u2" (some 1)) .nil) (.cons .nil .nil)) =
      some (.mk 1 "u9" [some 5, some 3] (.some (leaf "u2" (some 1)) .nil) (.cons .nil .nil)) := by
  constructor
  · refine ⟨_, C120_over demoEnv "u" 5 demoObj demoObj rfl ?_ ?_ (by decide), ?_⟩
    · simp [Shaped, demoObj, demoEnv, ItemsShaped, RelsShaped]
    · simp [demoObj, leaf, ObjOk, ItemsOk, RelsOk, ObjsOk, demoEnv, Class.KeysOk, PropsOk, numProp, writeObj, writeProps, writeProp,
        writeItems, writeRels, writeObjs, byType, Obj.cls, dset, dpop]
    · simp [over, demoObj, overRels, Objs.append]
  · simp [readInto, writeObj, demoEnv, writeProps, writeProp, numProp, writeItems, writeRels, writeObjs, dset, dpop, List.lookup,
      readItemsInto, readRelsInto, readObjs, readPropsInto, listAt, Objs.append]

/-- an object with content into which `C120_same_partial` allows to read -/
example : Fits demoEnv (.mk 1 "u8" [some 5, some 4] (.some (leaf "u2" (some 1)) .nil) (.cons .nil .nil)) demoObj := by
  simp [Fits, demoObj, demoEnv, PropsSame, ItemsSame, NoRelated, numProp]

end Verif.Persist
