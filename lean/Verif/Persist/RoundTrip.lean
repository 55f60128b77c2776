import Verif.Persist.Dict

/-!
C55 without conditions on the values: what comes back when an object is written to a dict and the dict is read into a new object, and
exactly when it is the object written. The model is that of `Dict.lean`.
-/

namespace Verif.Persist

variable {V : Type} (env : Nat → Class V)

/-! ### Specification -/

/-- What a property value becomes: the value read from what was written, or the default if nothing was written. -/
def backProps : List (PropDef V) → List V → List V
  | p :: ps, v :: vs => ((p.write v).elim p.default p.read) :: backProps ps vs
  | _, _ => []

mutual
/-- What an object becomes: the same tree with the same uuids, with the values of `backProps`. -/
def back : Obj V → Obj V
  | .mk c u ps is rs => .mk c u (backProps (env c).props ps) (backItems is) (backRels rs)
def backItems : Items V → Items V
  | .nil => .nil
  | .none rest => .none (backItems rest)
  | .some o rest => .some (back o) (backItems rest)
def backRels : Rels V → Rels V
  | .nil => .nil
  | .cons os rest => .cons (backObjs os) (backRels rest)
def backObjs : Objs V → Objs V
  | .nil => .nil
  | .cons o rest => .cons (back o) (backObjs rest)
end

mutual
/-- The object has the properties, items and relationships of its class, whose keys are distinct; factories recognise what is written. -/
def Known : Obj V → Prop
  | .mk c _ ps is rs => (env c).KeysOk ∧ ps.length = (env c).props.length ∧ KnownItems (env c).items is ∧ KnownRels (env c).rels rs
def KnownItems : List ItemDef → Items V → Prop
  | [], .nil => True
  | _ :: is, .none rest => KnownItems is rest
  | i :: is, .some o rest => i.factory (fun k => (writeObj env o).lookup k) = some o.cls ∧ Known o ∧ KnownItems is rest
  | _, _ => False
def KnownRels : List RelDef → Rels V → Prop
  | [], .nil => True
  | r :: rs, .cons os rest => KnownObjs r os ∧ KnownRels rs rest
  | _, _ => False
def KnownObjs : RelDef → Objs V → Prop
  | _, .nil => True
  | r, .cons o rest => r.factory (fun k => (writeObj env o).lookup k) = some o.cls ∧ Known o ∧ KnownObjs r rest
end

mutual
/-- Every value in the tree survives: it is read from what it was written as, or it is the default and is not written. -/
def Survives : Obj V → Prop
  | .mk c _ ps is rs =>
    (∀ q ∈ (env c).props.zip ps, (q.1.write q.2).elim q.1.default q.1.read = q.2) ∧ SurvivesItems is ∧ SurvivesRels rs
def SurvivesItems : Items V → Prop
  | .nil => True
  | .none rest => SurvivesItems rest
  | .some o rest => Survives o ∧ SurvivesItems rest
def SurvivesRels : Rels V → Prop
  | .nil => True
  | .cons os rest => SurvivesObjs os ∧ SurvivesRels rest
def SurvivesObjs : Objs V → Prop
  | .nil => True
  | .cons o rest => Survives o ∧ SurvivesObjs rest
end

/-! ### Proof -/

theorem known_ne_nil (o : Obj V) (h : Known env o) : ∃ e es, writeObj env o = e :: es := by
  obtain ⟨c, u, ps, is, rs⟩ := o
  rw [Known] at h
  have := (written env c u ps is rs h.1).1
  rcases hw : writeObj env (.mk c u ps is rs) with _ | ⟨e, es⟩
  · rw [hw] at this; simp at this
  · exact ⟨e, es, rfl⟩

theorem readProps_back {D : Dict} : ∀ (ps : List (PropDef V)) (vs : List V), vs.length = ps.length → PropsAt D ps vs →
    readProps ps D = backProps ps vs
  | [], [], _, _ => rfl
  | [], _ :: _, h, _ => by simp at h
  | _ :: _, [], h, _ => by simp at h
  | p :: ps, v :: vs, h, ha => by
    rw [PropsAt] at ha
    have ih := readProps_back ps vs (by simpa using h) ha.2
    unfold readProps at ih ⊢
    rw [List.map_cons, ih, ha.1, backProps]
    cases p.write v <;> rfl

mutual
theorem read_back (u0 : String) : (o : Obj V) → Known env o → ∀ n, o.height ≤ n →
    readObj env u0 n o.cls (writeObj env o) = some (back env o)
  | .mk c u ps is rs, h, n, hn => by
    obtain ⟨hu, hp, hi, hr⟩ := written env c u ps is rs (by rw [Known] at h; exact h.1)
    rw [Known] at h
    rw [Obj.height] at hn
    cases n with
    | zero => omega
    | succ n =>
      rw [readObj, Obj.cls, hu, read_backItems u0 (env c).items is h.2.2.1 n (by omega) _ hi,
        readProps_back _ _ h.2.1 hp]
      simp only [Option.bind_some]
      rw [read_backRels u0 (env c).rels rs h.2.2.2 n (by omega) _ hr, back]
      rfl
theorem read_backItems (u0 : String) : (ds : List ItemDef) → (is : Items V) → KnownItems env ds is → ∀ n, is.height ≤ n →
    ∀ D, ItemsAt env D ds is → readItems (readObj env u0 n) D ds = some (backItems env is)
  | [], .nil, _, _, _, _, _ => by simp [readItems, backItems]
  | [], .none _, h, _, _, _, _ => by simp [KnownItems] at h
  | [], .some _ _, h, _, _, _, _ => by simp [KnownItems] at h
  | _ :: _, .nil, h, _, _, _, _ => by simp [KnownItems] at h
  | i :: ds, .none rest, h, n, hn, D, ha => by
    rw [KnownItems] at h
    rw [ItemsAt] at ha
    rw [Items.height] at hn
    rw [readItems, ha.1, read_backItems u0 ds rest h n hn D ha.2, backItems]
    rfl
  | i :: ds, .some o rest, h, n, hn, D, ha => by
    rw [KnownItems] at h
    rw [ItemsAt] at ha
    rw [Items.height] at hn
    obtain ⟨e, es, he⟩ := known_ne_nil env o h.2.1
    have h1 := read_back u0 o h.2.1 n (by omega)
    have h2 := h.1
    rw [he] at h1 h2
    rw [readItems, ha.1, he]
    simp only [h2, Option.bind_some]
    rw [h1, read_backItems u0 ds rest h.2.2 n (by omega) D ha.2, backItems]
    rfl
theorem read_backRels (u0 : String) : (ds : List RelDef) → (rs : Rels V) → KnownRels env ds rs → ∀ n, rs.height ≤ n →
    ∀ D, RelsAt env D ds rs → readRels (readObj env u0 n) D ds = some (backRels env rs)
  | [], .nil, _, _, _, _, _ => by simp [readRels, backRels]
  | [], .cons _ _, h, _, _, _, _ => by simp [KnownRels] at h
  | _ :: _, .nil, h, _, _, _, _ => by simp [KnownRels] at h
  | r :: ds, .cons os rest, h, n, hn, D, ha => by
    rw [KnownRels] at h
    rw [RelsAt] at ha
    rw [Rels.height] at hn
    rw [readRels, listAt, ha.1]
    simp only
    rw [read_backObjs u0 r os h.1 n (by omega), Option.bind_some, read_backRels u0 ds rest h.2 n (by omega) D ha.2, backRels]
    rfl
theorem read_backObjs (u0 : String) : (r : RelDef) → (os : Objs V) → KnownObjs env r os → ∀ n, os.height ≤ n →
    readObjs (readObj env u0 n) r.factory (writeObjs env os) = some (backObjs env os)
  | _, .nil, _, _, _ => by simp [writeObjs, readObjs, backObjs]
  | r, .cons o rest, h, n, hn => by
    rw [KnownObjs] at h
    rw [Objs.height] at hn
    rw [writeObjs, readObjs, h.1, Option.bind_some, read_back u0 o h.2.1 n (by omega), Option.bind_some,
      read_backObjs u0 r rest h.2.2 n (by omega), backObjs]
    rfl
end

theorem backProps_eq : ∀ (ps : List (PropDef V)) (vs : List V), vs.length = ps.length →
    (backProps ps vs = vs ↔ ∀ q ∈ ps.zip vs, (q.1.write q.2).elim q.1.default q.1.read = q.2)
  | [], [], _ => by simp [backProps]
  | [], _ :: _, h => by simp at h
  | _ :: _, [], h => by simp at h
  | p :: ps, v :: vs, h => by
    rw [backProps, List.cons.injEq, backProps_eq ps vs (by simpa using h), List.zip_cons_cons, List.forall_mem_cons]

mutual
theorem back_eq : (o : Obj V) → Known env o → (back env o = o ↔ Survives env o)
  | .mk c u ps is rs, h => by
    rw [Known] at h
    rw [back, Survives, Obj.mk.injEq, backProps_eq _ _ h.2.1, backItems_eq _ is h.2.2.1, backRels_eq _ rs h.2.2.2]
    simp
theorem backItems_eq : (ds : List ItemDef) → (is : Items V) → KnownItems env ds is → (backItems env is = is ↔ SurvivesItems env is)
  | [], .nil, _ => by simp [backItems, SurvivesItems]
  | [], .none _, h => by simp [KnownItems] at h
  | [], .some _ _, h => by simp [KnownItems] at h
  | _ :: _, .nil, h => by simp [KnownItems] at h
  | i :: ds, .none rest, h => by
    rw [KnownItems] at h
    rw [backItems, SurvivesItems, Items.none.injEq, backItems_eq ds rest h]
  | i :: ds, .some o rest, h => by
    rw [KnownItems] at h
    rw [backItems, SurvivesItems, Items.some.injEq, back_eq o h.2.1, backItems_eq ds rest h.2.2]
theorem backRels_eq : (ds : List RelDef) → (rs : Rels V) → KnownRels env ds rs → (backRels env rs = rs ↔ SurvivesRels env rs)
  | [], .nil, _ => by simp [backRels, SurvivesRels]
  | [], .cons _ _, h => by simp [KnownRels] at h
  | _ :: _, .nil, h => by simp [KnownRels] at h
  | r :: ds, .cons os rest, h => by
    rw [KnownRels] at h
    rw [backRels, SurvivesRels, Rels.cons.injEq, backObjs_eq r os h.1, backRels_eq ds rest h.2]
theorem backObjs_eq : (r : RelDef) → (os : Objs V) → KnownObjs env r os → (backObjs env os = os ↔ SurvivesObjs env os)
  | _, .nil, _ => by simp [backObjs, SurvivesObjs]
  | r, .cons o rest, h => by
    rw [KnownObjs] at h
    rw [backObjs, SurvivesObjs, Objs.cons.injEq, back_eq o h.2.1, backObjs_eq r rest h.2.2]
end

/-- C55, whatever the values and conversions are: reading what was written gives the same tree with the same uuids, in which each value
is what the reading conversion makes of the stored one, or the default if nothing was stored. -/
theorem C55_back (u0 : String) (o : Obj V) (h : Known env o) (n : Nat) (hn : o.height ≤ n) :
    readObj env u0 n o.cls (writeObj env o) = some (back env o) :=
  read_back env u0 o h n hn

/-- C55, exactly when the object read is the object written: when every value in the tree is what its property reads from what it
wrote, and values that are not written (`None`) are the default. -/
theorem C55_iff_partial (u0 : String) (o : Obj V) (h : Known env o) (n : Nat) (hn : o.height ≤ n) :
    readObj env u0 n o.cls (writeObj env o) = some o ↔ Survives env o := by
  rw [C55_back env u0 o h n hn, Option.some.injEq, back_eq env o h]

/-- A node whose values do not survive, with a leaf and a node inside: the tree is known, `y` comes back as 3 in both nodes. -/
def lossy : Obj (Option Nat) :=
  .mk 1 "u1" [some 5, none] (.some (leaf "u2" none) .nil) (.cons (.cons (.mk 1 "u4" [none, none] (.none .nil) (.cons .nil .nil)) .nil) .nil)

example : Known demoEnv lossy ∧ ¬ Survives demoEnv lossy ∧ back demoEnv lossy =
    .mk 1 "u1" [some 5, some 3] (.some (leaf "u2" none) .nil)
      (.cons (.cons (.mk 1 "u4" [none, some 3] (.none .nil) (.cons .nil .nil)) .nil) .nil) := by
  refine ⟨?_, ?_, ?_⟩
  · simp [lossy, leaf, Known, KnownItems, KnownRels, KnownObjs, demoEnv, Class.KeysOk, numProp, writeObj, writeProps, writeProp,
      writeItems, writeRels, writeObjs, byType, Obj.cls, dset, dpop]
  · simp [lossy, Survives, demoEnv, numProp]
  · simp [lossy, back, backItems, backRels, backObjs, backProps, demoEnv, numProp, leaf]

end Verif.Persist
