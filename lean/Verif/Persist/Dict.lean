import Verif.Py.Basic
import Mathlib.Data.List.Nodup
import Mathlib.Tactic.Common

/-!
Model of writing and reading persistent objects (`nion/utils/Persistence.py`: `PersistentProperty.read_from_dict/write_to_dict`,
`PersistentObject.write_to_dict/read_from_dict`), and C55.

Objects are trees; a class (number in an environment `env`) has a type, properties, items and relationships. The functions of a
property stand for `convert_get_fn` followed by the test for `None` (or `write_dict` for a property with `make`), and for
`convert_set_fn` (or `make` and `read_dict`) followed by the validator. Dicts are association lists. Not modelled: custom readers
and writers, the `modified` time (which `write_to_dict` does not write), the callbacks, the registration during reading.
-/

namespace Verif.Persist

open Verif.Py

inductive J where
  | str (s : String)
  | num (n : Nat)
  | dict (d : List (String × J))
  | list (l : List J)

abbrev Dict := List (String × J)

/-- `d[k] = v`. -/
def dset (d : Dict) (k : String) (v : J) : Dict :=
  match d with
  | [] => [(k, v)]
  | (k', v') :: r => if k = k' then (k, v) :: r else (k', v') :: dset r k v

/-- `d.pop(k, None)`. -/
def dpop (d : Dict) (k : String) : Dict := d.filter fun p => p.1 ≠ k

/-- Persistence.py:21-93. -/
structure PropDef (V : Type) where
  name : String
  key : String
  default : V
  write : V → Option J
  read : J → V

/-- Persistence.py:111-119; the factory gets the lookup function of the stored dict and says which class to make. -/
structure ItemDef where
  name : String
  factory : (String → Option J) → Option Nat

/-- Persistence.py:122-135; `key` is `storage_key`. -/
structure RelDef where
  name : String
  key : String
  factory : (String → Option J) → Option Nat

/-- What a subclass defines (lines 439-453); an empty type is not written. -/
structure Class (V : Type) where
  type : String
  props : List (PropDef V)
  items : List ItemDef
  rels : List RelDef

mutual
inductive Obj (V : Type) where
  | mk (cls : Nat) (uuid : String) (props : List V) (items : Items V) (rels : Rels V)
inductive Items (V : Type) where
  | nil
  | none (rest : Items V)
  | some (o : Obj V) (rest : Items V)
inductive Rels (V : Type) where
  | nil
  | cons (os : Objs V) (rest : Rels V)
inductive Objs (V : Type) where
  | nil
  | cons (o : Obj V) (rest : Objs V)
end

variable {V : Type} (env : Nat → Class V)

/-- Persistence.py:77-93. -/
def writeProp (p : PropDef V) (v : V) (d : Dict) : Dict :=
  match p.write v with
  | some j => dset d p.key j
  | none => dpop d p.key

/-- Persistence.py:568-570. -/
def writeProps : List (PropDef V) → List V → Dict → Dict
  | p :: ps, v :: vs, d => writeProps ps vs (writeProp p v d)
  | _, _, d => d

/-- `properties.setdefault(key, list())`, the list. -/
def listAt (d : Dict) (k : String) : List J :=
  match d.lookup k with
  | some (.list l) => l
  | _ => []

mutual
/-- Persistence.py:562-580 `write_to_dict`. -/
def writeObj : Obj V → Dict
  | .mk c u ps is rs =>
    writeRels (env c).rels rs
      (writeItems (env c).items is
        (writeProps (env c).props ps
          (dset (if (env c).type = "" then [] else [("type", .str (env c).type)]) "uuid" (.str u))))
def writeItems : List ItemDef → Items V → Dict → Dict
  | i :: is, .some o rest, d => writeItems is rest (dset d i.name (.dict (writeObj o)))
  | _ :: is, .none rest, d => writeItems is rest d
  | _, _, d => d
def writeRels : List RelDef → Rels V → Dict → Dict
  | r :: rs, .cons os rest, d => writeRels rs rest (dset d r.key (.list (listAt d r.key ++ writeObjs os)))
  | _, _, d => d
def writeObjs : Objs V → List J
  | .nil => []
  | .cons o rest => .dict (writeObj o) :: writeObjs rest
end

/-- Persistence.py:63-75. -/
def readProps (ps : List (PropDef V)) (d : Dict) : List V :=
  ps.map fun p => match d.lookup p.key with
    | some j => p.read j
    | none => p.default

/-- Persistence.py:514-531; `rd` reads an object of a class from a dict. A missing or empty dict leaves the item unset. -/
def readItems (rd : Nat → Dict → Option (Obj V)) (d : Dict) : List ItemDef → Option (Items V)
  | [] => some .nil
  | i :: is =>
    match d.lookup i.name with
    | some (.dict (e :: es)) =>
      (i.factory fun k => (e :: es).lookup k).bind fun c => (rd c (e :: es)).bind fun o => (readItems rd d is).map (.some o ·)
    | _ => (readItems rd d is).map .none

/-- Persistence.py:534-550. -/
def readObjs (rd : Nat → Dict → Option (Obj V)) (factory : (String → Option J) → Option Nat) : List J → Option (Objs V)
  | [] => some .nil
  | .dict e :: l =>
    (factory fun k => e.lookup k).bind fun c => (rd c e).bind fun o => (readObjs rd factory l).map (.cons o ·)
  | _ :: _ => none

/-- Persistence.py:532-550. -/
def readRels (rd : Nat → Dict → Option (Obj V)) (d : Dict) : List RelDef → Option (Rels V)
  | [] => some .nil
  | r :: rs => (readObjs rd r.factory (listAt d r.key)).bind fun os => (readRels rd d rs).map (.cons os ·)

/-- Persistence.py:501-550 `read_from_dict` of a new object of class `c` with the uuid `u0`; `none` is a raised exception; `n`
bounds the depth of the recursion. -/
def readObj (u0 : String) : Nat → Nat → Dict → Option (Obj V)
  | 0, _, _ => none
  | n + 1, c, d =>
    let u := match d.lookup "uuid" with
      | some (.str u) => u
      | _ => u0
    (readItems (readObj u0 n) d (env c).items).bind fun is =>
      (readRels (readObj u0 n) d (env c).rels).map fun rs => .mk c u (readProps (env c).props d) is rs

/-! ### Hypotheses of the round trip -/

/-- The keys a class writes are distinct. -/
def Class.KeysOk (c : Class V) : Prop :=
  ("type" :: "uuid" :: (c.props.map PropDef.key ++ c.items.map ItemDef.name ++ c.rels.map RelDef.key)).Nodup

/-- The conversions are inverse on the values; values written as nothing (`None`) are the default. -/
def PropsOk : List (PropDef V) → List V → Prop
  | [], [] => True
  | p :: ps, v :: vs =>
    (match p.write v with
      | some j => p.read j = v
      | none => p.default = v) ∧ PropsOk ps vs
  | _, _ => False

def Obj.cls : Obj V → Nat
  | .mk c _ _ _ _ => c

mutual
/-- The object has the properties, items and relationships of its class; factories recognise what is written. -/
def ObjOk : Obj V → Prop
  | .mk c _ ps is rs => (env c).KeysOk ∧ PropsOk (env c).props ps ∧ ItemsOk (env c).items is ∧ RelsOk (env c).rels rs
def ItemsOk : List ItemDef → Items V → Prop
  | [], .nil => True
  | _ :: is, .none rest => ItemsOk is rest
  | i :: is, .some o rest => i.factory (fun k => (writeObj env o).lookup k) = some o.cls ∧ ObjOk o ∧ ItemsOk is rest
  | _, _ => False
def RelsOk : List RelDef → Rels V → Prop
  | [], .nil => True
  | r :: rs, .cons os rest => ObjsOk r os ∧ RelsOk rs rest
  | _, _ => False
def ObjsOk : RelDef → Objs V → Prop
  | _, .nil => True
  | r, .cons o rest => r.factory (fun k => (writeObj env o).lookup k) = some o.cls ∧ ObjOk o ∧ ObjsOk r rest
end

mutual
/-- Depth of an object tree. -/
def Obj.height : Obj V → Nat
  | .mk _ _ _ is rs => max is.height rs.height + 1
def Items.height : Items V → Nat
  | .nil => 0
  | .none rest => rest.height
  | .some o rest => max o.height rest.height
def Rels.height : Rels V → Nat
  | .nil => 0
  | .cons os rest => max os.height rest.height
def Objs.height : Objs V → Nat
  | .nil => 0
  | .cons o rest => max o.height rest.height
end

/-! ### Dicts -/

theorem lookup_dset_self (d : Dict) (k : String) (v : J) : (dset d k v).lookup k = some v := by
  induction d with
  | nil => simp [dset]
  | cons p d ih =>
    obtain ⟨k', v'⟩ := p
    by_cases h : k = k'
    · simp [dset, h]
    · rw [dset, if_neg h, List.lookup_cons, show (k == k') = false by simpa using h, ih]

theorem lookup_dset_ne (d : Dict) {k k' : String} (v : J) (h : k' ≠ k) : (dset d k v).lookup k' = d.lookup k' := by
  induction d with
  | nil => rw [dset, List.lookup_cons, show (k' == k) = false by simpa using h]
  | cons p d ih =>
    obtain ⟨k2, v2⟩ := p
    by_cases h2 : k = k2
    · subst h2
      rw [dset, if_pos rfl, List.lookup_cons, List.lookup_cons, show (k' == k) = false by simpa using h]
    · rw [dset, if_neg h2, List.lookup_cons, List.lookup_cons, ih]

theorem lookup_dpop_self (d : Dict) (k : String) : (dpop d k).lookup k = none := by
  induction d with
  | nil => rfl
  | cons p d ih =>
    obtain ⟨k2, v2⟩ := p
    unfold dpop at *
    by_cases h : k2 = k
    · simpa [h] using ih
    · rw [List.filter_cons_of_pos (by simpa using h), List.lookup_cons, show (k == k2) = false by simpa using Ne.symm h]
      exact ih

theorem lookup_dpop_ne (d : Dict) {k k' : String} (h : k' ≠ k) : (dpop d k).lookup k' = d.lookup k' := by
  induction d with
  | nil => rfl
  | cons p d ih =>
    obtain ⟨k2, v2⟩ := p
    unfold dpop at *
    by_cases h2 : k2 = k
    · rw [List.filter_cons_of_neg (by simpa using h2), ih, List.lookup_cons,
        show (k' == k2) = false by rw [h2]; simpa using h]
    · rw [List.filter_cons_of_pos (by simpa using h2), List.lookup_cons, List.lookup_cons, ih]

theorem lookup_writeProp_self (p : PropDef V) (v : V) (d : Dict) : (writeProp p v d).lookup p.key = p.write v := by
  unfold writeProp
  cases h : p.write v with
  | none => exact lookup_dpop_self d p.key
  | some j => exact lookup_dset_self d p.key j

theorem lookup_writeProp_ne (p : PropDef V) (v : V) (d : Dict) {k : String} (h : k ≠ p.key) :
    (writeProp p v d).lookup k = d.lookup k := by
  unfold writeProp
  cases p.write v with
  | none => exact lookup_dpop_ne d h
  | some j => exact lookup_dset_ne d j h

theorem lookup_writeProps_ne {k : String} : ∀ (ps : List (PropDef V)) (vs : List V) (d : Dict), k ∉ ps.map PropDef.key →
    (writeProps ps vs d).lookup k = d.lookup k
  | [], _, _, _ => by simp [writeProps]
  | _ :: _, [], _, _ => by simp [writeProps]
  | p :: ps, v :: vs, d, h => by
    simp only [List.map_cons, List.mem_cons, not_or] at h
    rw [writeProps, lookup_writeProps_ne ps vs _ h.2, lookup_writeProp_ne p v d h.1]

theorem lookup_writeItems_ne {k : String} : ∀ (ds : List ItemDef) (is : Items V) (d : Dict), k ∉ ds.map ItemDef.name →
    (writeItems env ds is d).lookup k = d.lookup k
  | [], .nil, _, _ | [], .none _, _, _ | [], .some _ _, _, _ => by simp [writeItems]
  | _ :: _, .nil, _, _ => by simp [writeItems]
  | i :: ds, .none rest, d, h => by
    simp only [List.map_cons, List.mem_cons, not_or] at h
    rw [writeItems, lookup_writeItems_ne ds rest d h.2]
  | i :: ds, .some o rest, d, h => by
    simp only [List.map_cons, List.mem_cons, not_or] at h
    rw [writeItems, lookup_writeItems_ne ds rest _ h.2, lookup_dset_ne d _ h.1]

theorem lookup_writeRels_ne {k : String} : ∀ (ds : List RelDef) (rs : Rels V) (d : Dict), k ∉ ds.map RelDef.key →
    (writeRels env ds rs d).lookup k = d.lookup k
  | [], .nil, _, _ | [], .cons _ _, _, _ => by simp [writeRels]
  | _ :: _, .nil, _, _ => by simp [writeRels]
  | r :: ds, .cons os rest, d, h => by
    simp only [List.map_cons, List.mem_cons, not_or] at h
    rw [writeRels, lookup_writeRels_ne ds rest _ h.2, lookup_dset_ne d _ h.1]

/-! ### What the written dict contains -/

/-- The dict contains the properties. -/
def PropsAt (D : Dict) : List (PropDef V) → List V → Prop
  | p :: ps, v :: vs => D.lookup p.key = p.write v ∧ PropsAt D ps vs
  | _, _ => True

def ItemsAt (D : Dict) : List ItemDef → Items V → Prop
  | i :: is, .some o rest => D.lookup i.name = some (.dict (writeObj env o)) ∧ ItemsAt D is rest
  | i :: is, .none rest => D.lookup i.name = none ∧ ItemsAt D is rest
  | _, _ => True

def RelsAt (D : Dict) : List RelDef → Rels V → Prop
  | r :: rs, .cons os rest => D.lookup r.key = some (.list (writeObjs env os)) ∧ RelsAt D rs rest
  | _, _ => True

theorem propsAt_congr {D D' : Dict} : ∀ (ps : List (PropDef V)) (vs : List V), (∀ k ∈ ps.map PropDef.key, D'.lookup k = D.lookup k) →
    PropsAt D ps vs → PropsAt D' ps vs
  | [], _, _, _ => by simp [PropsAt]
  | _ :: _, [], _, _ => by simp [PropsAt]
  | p :: ps, v :: vs, h, hp => by
    rw [PropsAt] at *
    exact ⟨by rw [h p.key (by simp), hp.1], propsAt_congr ps vs (fun k hk => h k (by simp at hk ⊢; exact .inr hk)) hp.2⟩

theorem itemsAt_congr {D D' : Dict} : ∀ (ds : List ItemDef) (is : Items V), (∀ k ∈ ds.map ItemDef.name, D'.lookup k = D.lookup k) →
    ItemsAt env D ds is → ItemsAt env D' ds is
  | [], .nil, _, _ | [], .none _, _, _ | [], .some _ _, _, _ => by simp [ItemsAt]
  | _ :: _, .nil, _, _ => by simp [ItemsAt]
  | i :: ds, .none rest, h, hp => by
    rw [ItemsAt] at *
    exact ⟨by rw [h i.name (by simp), hp.1], itemsAt_congr ds rest (fun k hk => h k (by simp at hk ⊢; exact .inr hk)) hp.2⟩
  | i :: ds, .some o rest, h, hp => by
    rw [ItemsAt] at *
    exact ⟨by rw [h i.name (by simp), hp.1], itemsAt_congr ds rest (fun k hk => h k (by simp at hk ⊢; exact .inr hk)) hp.2⟩

theorem propsAt_write : ∀ (ps : List (PropDef V)) (vs : List V) (d : Dict), (ps.map PropDef.key).Nodup →
    PropsAt (writeProps ps vs d) ps vs
  | [], _, _, _ => by simp [PropsAt]
  | _ :: _, [], _, _ => by simp [PropsAt]
  | p :: ps, v :: vs, d, h => by
    rw [List.map_cons, List.nodup_cons] at h
    rw [PropsAt, writeProps]
    exact ⟨by rw [lookup_writeProps_ne ps vs _ h.1, lookup_writeProp_self], propsAt_write ps vs _ h.2⟩

theorem itemsAt_write : ∀ (ds : List ItemDef) (is : Items V) (d : Dict), (ds.map ItemDef.name).Nodup →
    (∀ k ∈ ds.map ItemDef.name, d.lookup k = none) → ItemsAt env (writeItems env ds is d) ds is
  | [], .nil, _, _, _ | [], .none _, _, _, _ | [], .some _ _, _, _, _ => by simp [ItemsAt]
  | _ :: _, .nil, _, _, _ => by simp [ItemsAt]
  | i :: ds, .none rest, d, h, hn => by
    rw [List.map_cons, List.nodup_cons] at h
    rw [ItemsAt, writeItems]
    exact ⟨by rw [lookup_writeItems_ne env ds rest d h.1, hn i.name (by simp)],
      itemsAt_write ds rest d h.2 fun k hk => hn k (by simp at hk ⊢; exact .inr hk)⟩
  | i :: ds, .some o rest, d, h, hn => by
    rw [List.map_cons, List.nodup_cons] at h
    rw [ItemsAt, writeItems]
    refine ⟨by rw [lookup_writeItems_ne env ds rest _ h.1, lookup_dset_self], itemsAt_write ds rest _ h.2 fun k hk => ?_⟩
    rw [lookup_dset_ne d _ (fun (he : k = i.name) => h.1 (he ▸ hk))]
    exact hn k (by simp at hk ⊢; exact .inr hk)

theorem relsAt_write : ∀ (ds : List RelDef) (rs : Rels V) (d : Dict), (ds.map RelDef.key).Nodup →
    (∀ k ∈ ds.map RelDef.key, d.lookup k = none) → RelsAt env (writeRels env ds rs d) ds rs
  | [], .nil, _, _, _ | [], .cons _ _, _, _, _ => by simp [RelsAt]
  | _ :: _, .nil, _, _, _ => by simp [RelsAt]
  | r :: ds, .cons os rest, d, h, hn => by
    rw [List.map_cons, List.nodup_cons] at h
    rw [RelsAt, writeRels]
    refine ⟨?_, relsAt_write ds rest _ h.2 fun k hk => ?_⟩
    · rw [lookup_writeRels_ne env ds rest _ h.1, lookup_dset_self, listAt, hn r.key (by simp)]
      rfl
    · rw [lookup_dset_ne d _ (fun (he : k = r.key) => h.1 (he ▸ hk))]
      exact hn k (by simp at hk ⊢; exact .inr hk)

theorem written (c : Nat) (u : String) (ps : List V) (is : Items V) (rs : Rels V) (h : (env c).KeysOk) :
    (writeObj env (.mk c u ps is rs)).lookup "uuid" = some (.str u) ∧
      PropsAt (writeObj env (.mk c u ps is rs)) (env c).props ps ∧
      ItemsAt env (writeObj env (.mk c u ps is rs)) (env c).items is ∧
      RelsAt env (writeObj env (.mk c u ps is rs)) (env c).rels rs := by
  unfold Class.KeysOk at h
  simp only [List.nodup_cons, List.mem_cons, List.mem_append, not_or, List.nodup_append] at h
  obtain ⟨⟨hty, ⟨htp, hti⟩, htr⟩, ⟨⟨hup, hui⟩, hur⟩, ⟨hpn, hin, hpi⟩, hrn, hpr⟩ := h
  have hd0 : ∀ k, k ≠ "type" → k ≠ "uuid" →
      (dset (if (env c).type = "" then [] else [("type", .str (env c).type)]) "uuid" (.str u)).lookup k = none := by
    intro k hk hu
    rw [lookup_dset_ne _ _ hu]
    split
    · rfl
    · rw [List.lookup_cons, show (k == "type") = false by simpa using hk]; rfl
  have hu0 := lookup_dset_self (if (env c).type = "" then [] else [("type", .str (env c).type)]) "uuid" (.str u)
  rw [writeObj]
  generalize dset (if (env c).type = "" then [] else [("type", .str (env c).type)]) "uuid" (.str u) = d0 at hd0 hu0
  refine ⟨?_, ?_, ?_, ?_⟩
  · rw [lookup_writeRels_ne env _ _ _ hur, lookup_writeItems_ne env _ _ _ hui, lookup_writeProps_ne _ _ _ hup, hu0]
  · refine propsAt_congr _ _ (fun k hk => ?_) (propsAt_write _ _ d0 hpn)
    rw [lookup_writeRels_ne env _ _ _ fun hr => hpr k (.inl hk) k hr rfl,
      lookup_writeItems_ne env _ _ _ fun hi => hpi k hk k hi rfl]
  · refine itemsAt_congr env _ _ (fun k hk => ?_) (itemsAt_write env _ _ (writeProps (env c).props ps d0) hin fun k hk => ?_)
    · rw [lookup_writeRels_ne env _ _ _ fun hr => hpr k (.inr hk) k hr rfl]
    · rw [lookup_writeProps_ne _ _ _ fun hp => hpi k hp k hk rfl]
      exact hd0 k (fun he => hti (he ▸ hk)) (fun he => hui (he ▸ hk))
  · refine relsAt_write env _ _ _ hrn fun k hk => ?_
    rw [lookup_writeItems_ne env _ _ _ fun hi => hpr k (.inr hi) k hk rfl,
      lookup_writeProps_ne _ _ _ fun hp => hpr k (.inl hp) k hk rfl]
    exact hd0 k (fun he => htr (he ▸ hk)) (fun he => hur (he ▸ hk))

theorem writeObj_ne_nil (o : Obj V) (h : ObjOk env o) : ∃ e es, writeObj env o = e :: es := by
  obtain ⟨c, u, ps, is, rs⟩ := o
  rw [ObjOk] at h
  have := (written env c u ps is rs h.1).1
  rcases hw : writeObj env (.mk c u ps is rs) with _ | ⟨e, es⟩
  · rw [hw] at this; simp at this
  · exact ⟨e, es, rfl⟩

theorem readProps_ok {D : Dict} : ∀ (ps : List (PropDef V)) (vs : List V), PropsOk ps vs → PropsAt D ps vs → readProps ps D = vs
  | [], [], _, _ => rfl
  | [], _ :: _, h, _ => by simp [PropsOk] at h
  | _ :: _, [], h, _ => by simp [PropsOk] at h
  | p :: ps, v :: vs, h, ha => by
    rw [PropsOk] at h
    rw [PropsAt] at ha
    have ih := readProps_ok ps vs h.2 ha.2
    unfold readProps at ih ⊢
    rw [List.map_cons, ih, ha.1]
    have h1 := h.1
    cases hw : p.write v with
    | none => rw [hw] at h1; simp only at h1 ⊢; rw [h1]
    | some j => rw [hw] at h1; simp only at h1 ⊢; rw [h1]

mutual
theorem read_write (u0 : String) : (o : Obj V) → ObjOk env o → ∀ n, o.height ≤ n → readObj env u0 n o.cls (writeObj env o) = some o
  | .mk c u ps is rs, h, n, hn => by
    obtain ⟨hu, hp, hi, hr⟩ := written env c u ps is rs (by rw [ObjOk] at h; exact h.1)
    rw [ObjOk] at h
    rw [Obj.height] at hn
    cases n with
    | zero => omega
    | succ n =>
      rw [readObj, Obj.cls, hu, read_writeItems u0 (env c).items is h.2.2.1 n (by omega) _ hi,
        readProps_ok _ _ h.2.1 hp]
      simp only [Option.bind_some]
      rw [read_writeRels u0 (env c).rels rs h.2.2.2 n (by omega) _ hr]
      rfl
theorem read_writeItems (u0 : String) : (ds : List ItemDef) → (is : Items V) → ItemsOk env ds is → ∀ n, is.height ≤ n →
    ∀ D, ItemsAt env D ds is → readItems (readObj env u0 n) D ds = some is
  | [], .nil, _, _, _, _, _ => rfl
  | [], .none _, h, _, _, _, _ => by simp [ItemsOk] at h
  | [], .some _ _, h, _, _, _, _ => by simp [ItemsOk] at h
  | _ :: _, .nil, h, _, _, _, _ => by simp [ItemsOk] at h
  | i :: ds, .none rest, h, n, hn, D, ha => by
    rw [ItemsOk] at h
    rw [ItemsAt] at ha
    rw [Items.height] at hn
    rw [readItems, ha.1, read_writeItems u0 ds rest h n hn D ha.2]
    rfl
  | i :: ds, .some o rest, h, n, hn, D, ha => by
    rw [ItemsOk] at h
    rw [ItemsAt] at ha
    rw [Items.height] at hn
    obtain ⟨e, es, he⟩ := writeObj_ne_nil env o h.2.1
    have h1 := read_write u0 o h.2.1 n (by omega)
    have h2 := h.1
    rw [he] at h1 h2
    rw [readItems, ha.1, he]
    simp only [h2, Option.bind_some]
    rw [h1, read_writeItems u0 ds rest h.2.2 n (by omega) D ha.2]
    rfl
theorem read_writeRels (u0 : String) : (ds : List RelDef) → (rs : Rels V) → RelsOk env ds rs → ∀ n, rs.height ≤ n →
    ∀ D, RelsAt env D ds rs → readRels (readObj env u0 n) D ds = some rs
  | [], .nil, _, _, _, _, _ => rfl
  | [], .cons _ _, h, _, _, _, _ => by simp [RelsOk] at h
  | _ :: _, .nil, h, _, _, _, _ => by simp [RelsOk] at h
  | r :: ds, .cons os rest, h, n, hn, D, ha => by
    rw [RelsOk] at h
    rw [RelsAt] at ha
    rw [Rels.height] at hn
    rw [readRels, listAt, ha.1]
    simp only
    rw [read_writeObjs u0 r os h.1 n (by omega), Option.bind_some, read_writeRels u0 ds rest h.2 n (by omega) D ha.2]
    rfl
theorem read_writeObjs (u0 : String) : (r : RelDef) → (os : Objs V) → ObjsOk env r os → ∀ n, os.height ≤ n →
    readObjs (readObj env u0 n) r.factory (writeObjs env os) = some os
  | _, .nil, _, _, _ => rfl
  | r, .cons o rest, h, n, hn => by
    rw [ObjsOk] at h
    rw [Objs.height] at hn
    rw [writeObjs, readObjs, h.1, Option.bind_some, read_write u0 o h.2.1 n (by omega), Option.bind_some,
      read_writeObjs u0 r rest h.2.2 n (by omega)]
    rfl
end

/-- C55: writing an object to a dict and reading the dict into a new object of the same class gives the same object: uuid,
property values, items and relationship lists, recursively. The keys of a class have to be distinct, converters inverse on the
values, factories have to recognise the dicts, and a value written as nothing (`None`) has to be the default. Missing: a
property with another default does not come back as `None` (`C55_counterexample`). -/
theorem C55_round_trip_partial (u0 : String) (o : Obj V) (h : ObjOk env o) (n : Nat) (hn : o.height ≤ n) :
    readObj env u0 n o.cls (writeObj env o) = some o :=
  read_write env u0 o h n hn

/-! ### Cases -/

/-- a property whose values are optional numbers -/
def numProp (name key : String) (default : Option Nat) : PropDef (Option Nat) :=
  { name, key, default, write := fun v => v.map .num, read := fun j => match j with | .num n => some n | _ => none }

/-- The factory of a nionswift-like item: the class is found from the stored type. -/
def byType : (String → Option J) → Option Nat := fun get =>
  match get "type" with
  | some (.str "leaf") => some 0
  | some (.str "node") => some 1
  | _ => none

/-- class 0: a leaf with a property with its own key; class 1: a node with two properties, an item and a relationship of leaves
and nodes -/
def demoEnv : Nat → Class (Option Nat)
  | 0 => ⟨"leaf", [numProp "v" "value" none], [], []⟩
  | _ => ⟨"node", [numProp "x" "x" none, numProp "y" "y" (some 3)], [⟨"i", byType⟩], [⟨"l", "list", byType⟩]⟩

def leaf (u : String) (v : Option Nat) : Obj (Option Nat) := .mk 0 u [v] .nil .nil

def demoObj : Obj (Option Nat) :=
  .mk 1 "u1" [some 5, some 4] (.some (leaf "u2" (some 1)) .nil)
    (.cons (.cons (leaf "u3" none) (.cons (.mk 1 "u4" [none, some 3] (.none .nil) (.cons .nil .nil)) .nil)) .nil)

example : ObjOk demoEnv demoObj := by
  simp [demoObj, leaf, ObjOk, ItemsOk, RelsOk, ObjsOk, demoEnv, Class.KeysOk, PropsOk, numProp, writeObj, writeProps, writeProp,
    writeItems, writeRels, writeObjs, byType, Obj.cls, dset, dpop, List.lookup]

/-- C55, negative: a property with the default 3 set to `None` is read back as 3. -/
theorem C55_counterexample :
    readObj demoEnv "u" 5 1 (writeObj demoEnv (.mk 1 "u1" [none, none] (.none .nil) (.cons .nil .nil))) =
      some (.mk 1 "u1" [none, some 3] (.none .nil) (.cons .nil .nil)) := by
  simp [readObj, writeObj, demoEnv, writeProps, writeProp, numProp, writeItems, writeRels, writeObjs, dset, dpop, List.lookup,
    readItems, readRels, readObjs, readProps, listAt]

end Verif.Persist
