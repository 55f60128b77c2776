import Mathlib.Logic.Function.Basic
import Mathlib.Data.Nat.Notation

/-!
C202: properties of a persistent object that are defined, defined again and undefined while it has a storage. Model of `define_property`,
`undefine_properties` (`nion/utils/Persistence.py:442-447, 455-456`), assignment (644-661, 582-597) and the part of `write_to_dict` for
properties (568-570, 86-103). The storage keeps a dict (`Storage.lean`). Dicts with keys that are looked up are functions; the dict of the
properties keeps its order, in which they are written. Hidden and read-only properties, custom readers and writers, items and relationships
are left out.
-/

namespace Verif.Persist.Redefine

variable {V J : Type}

/-- `define_property` with a name, a key, a value, how it is validated or copied, and what is written for a value (`None`: nothing). -/
structure Def (V J : Type) where
  name : String
  key : String
  default : V
  validate : V → V
  write : V → Option J

inductive Op (V J : Type) where
  | define (d : Def V J)
  | undefine
  /-- `object.name = value` -/
  | assign (n : String) (v : V)

/-- The properties with their values, and the storage. -/
structure St (V J : Type) where
  props : List (Def V J × V)
  storage : String → Option J

/-- Setting an entry of the dict of properties: one that is there keeps its place (446-447). -/
def put (d : Def V J) : List (Def V J × V) → List (Def V J × V)
  | [] => [(d, d.default)]
  | p :: l => if p.1.name = d.name then (d, d.default) :: l else p :: put d l

/-- `self.__properties.get(name)` (652) -/
def find (n : String) : List (Def V J × V) → Option (Def V J × V)
  | [] => none
  | p :: l => if p.1.name = n then some p else find n l

/-- Lines 46-51. -/
def setVal (n : String) (v : V) : List (Def V J × V) → List (Def V J × V)
  | [] => []
  | p :: l => if p.1.name = n then (p.1, p.1.validate v) :: l else p :: setVal n v l

/-- Lines 590-597. -/
def tell (d : Def V J) (x : V) (f : String → Option J) : String → Option J :=
  match d.write x with
  | some j => Function.update f d.key (some j)
  | none => Function.update f d.name none

/-- Without property the name is an ordinary attribute (661). -/
def step (s : St V J) : Op V J → St V J
  | .define d => { s with props := put d s.props }
  | .undefine => { s with props := [] }
  | .assign n v =>
    match find n s.props with
    | some p => ⟨setVal n v s.props, tell p.1 (p.1.validate v) s.storage⟩
    | none => s

def run (s : St V J) (h : List (Op V J)) : St V J := h.foldl step s

/-- Lines 568-570. -/
def writeDict (l : List (Def V J × V)) : String → Option J := l.foldl (fun f p => Function.update f p.1.key (p.1.write p.2)) fun _ => none

/-- An object without properties, with a storage. -/
def start (storage : String → Option J) : St V J := ⟨[], storage⟩

/-! ### Specification, on histories with the newest call first -/

/-- The definition of a property: the newest one, unless properties have been undefined since. -/
def defOf (n : String) : List (Op V J) → Option (Def V J)
  | [] => none
  | .define d :: h => if d.name = n then some d else defOf n h
  | .undefine :: _ => none
  | .assign _ _ :: h => defOf n h

/-- Its value: what was assigned last since then, or the one it was defined with. -/
def valOf (n : String) : List (Op V J) → Option V
  | [] => none
  | .define d :: h => if d.name = n then some d.default else valOf n h
  | .undefine :: _ => none
  | .assign m v :: h => if m = n then (defOf n h).map (·.validate v) else valOf n h

/-- What is stored for a key: what the last assignment of a property with that key wrote, whatever has become of the property; assigning
what is not written removes the entry called like the property. -/
def stored (init : String → Option J) (k : String) : List (Op V J) → Option J
  | .assign m v :: h =>
    match defOf m h with
    | some d =>
      match d.write (d.validate v) with
      | some j => if d.key = k then some j else stored init k h
      | none => if m = k then none else stored init k h
    | none => stored init k h
  | _ :: h => stored init k h
  | [] => init k

/-- Every property always has the same key, no two have the same, and where nothing is written the key is the name. -/
def Tidy (key : String → String) (h : List (Op V J)) : Prop :=
  (∀ m n, key m = key n → m = n) ∧ ∀ d, Op.define d ∈ h → d.key = key d.name ∧ ∀ x, d.write x = none → d.key = d.name

/-- The call leaves the property with the name alone. -/
def Leaves (n : String) : Op V J → Prop
  | .define d => d.name ≠ n
  | .undefine => False
  | .assign m _ => m ≠ n

/-! ### Proof -/

theorem run_append (s : St V J) (h g : List (Op V J)) : run s (h ++ g) = run (run s h) g := List.foldl_append ..

theorem find_put (d : Def V J) (n : String) (l : List (Def V J × V)) :
    find n (put d l) = if d.name = n then some (d, d.default) else find n l := by
  induction l with
  | nil => simp [put, find]
  | cons p l ih =>
    simp only [put]
    by_cases h : p.1.name = d.name
    · rw [if_pos h]
      simp only [find]
      by_cases hn : d.name = n
      · simp [hn]
      · simp [hn, h]
    · rw [if_neg h]
      simp only [find, ih]
      by_cases hn : p.1.name = n
      · have : d.name ≠ n := fun he => h (hn.trans he.symm)
        simp [hn, this]
      · simp [hn]

theorem find_setVal (n m : String) (v : V) (l : List (Def V J × V)) :
    find m (setVal n v l) = if n = m then (find m l).map fun p => (p.1, p.1.validate v) else find m l := by
  induction l with
  | nil => simp [setVal, find]
  | cons p l ih =>
    simp only [setVal]
    by_cases h : p.1.name = n
    · rw [if_pos h]
      simp only [find]
      by_cases hm : n = m
      · simp [hm, h]
      · simp [hm, h]
    · rw [if_neg h]
      simp only [find, ih]
      by_cases hm : p.1.name = m
      · have : n ≠ m := fun he => h (hm.trans he.symm)
        simp [hm, this]
      · simp [hm]

theorem find_name {n : String} {l : List (Def V J × V)} {p : Def V J × V} (h : find n l = some p) : p.1.name = n := by
  induction l with
  | nil => cases h
  | cons q l ih =>
    simp only [find] at h
    split at h
    · cases h; assumption
    · exact ih h

/-- The definition and the value agree with the history. -/
theorem find_run (init : String → Option J) (h : List (Op V J)) (n : String) :
    find n (run (start init) h.reverse).props = (defOf n h).bind fun d => (valOf n h).map fun v => (d, v) := by
  induction h with
  | nil => rfl
  | cons o h ih =>
    rw [List.reverse_cons, run_append]
    show find n (step (run (start init) h.reverse) o).props = _
    cases o with
    | define d =>
      simp only [step, find_put, ih, defOf, valOf]
      by_cases hn : d.name = n <;> simp [hn]
    | undefine => rfl
    | assign m v =>
      simp only [step, defOf, valOf]
      cases hf : find m (run (start init) h.reverse).props with
      | none =>
        simp only [ih]
        by_cases hm : m = n
        · subst hm
          rw [ih] at hf
          simp only [if_true]
          rw [hf]
          cases hd : defOf m h with
          | none => rfl
          | some d =>
            exfalso
            rw [hd] at hf
            simp only [Option.bind_some, Option.map_eq_none_iff] at hf
            have key : ∀ g : List (Op V J), defOf m g = some d → valOf m g ≠ none := by
              intro g
              induction g with
              | nil => intro hd; cases hd
              | cons o g ihg =>
                cases o with
                | define e =>
                  simp only [defOf, valOf]
                  split
                  · simp
                  · exact ihg
                | undefine => intro hd; cases hd
                | assign k w =>
                  simp only [defOf, valOf]
                  intro hd
                  split
                  · rw [hd]; simp
                  · exact ihg hd
            exact key h hd hf
        · simp [hm]
      | some p =>
        simp only [find_setVal, ih]
        by_cases hm : m = n
        · subst hm
          simp only [if_true]
          cases hd : defOf m h with
          | none => rfl
          | some d =>
            rw [ih, hd] at hf
            simp only [Option.bind_some] at hf ⊢
            cases hv : valOf m h with
            | none => rw [hv] at hf; cases hf
            | some x => rfl
        · simp [hm]

theorem defOf_find (init : String → Option J) (h : List (Op V J)) (n : String) :
    (find n (run (start init) h.reverse).props).map (·.1) = defOf n h := by
  induction h with
  | nil => rfl
  | cons o h ih =>
    rw [List.reverse_cons, run_append]
    show (find n (step (run (start init) h.reverse) o).props).map (·.1) = _
    cases o with
    | define d =>
      simp only [step, find_put, defOf]
      by_cases hn : d.name = n <;> simp [hn, ih]
    | undefine => rfl
    | assign m v =>
      simp only [step, defOf]
      cases hf : find m (run (start init) h.reverse).props with
      | none => exact ih
      | some p =>
        simp only [find_setVal, ← ih]
        by_cases hm : m = n
        · subst hm
          rw [hf, if_pos rfl]
          rfl
        · simp [hm]

/-- C202: after every history, an object has for a name the property last defined, with the value assigned last since then, or the one it was
defined with. -/
theorem C202_values (init : String → Option J) (h : List (Op V J)) (n : String) :
    find n (run (start init) h).props = (defOf n h.reverse).bind fun d => (valOf n h.reverse).map fun v => (d, v) := by
  have := find_run init h.reverse n
  rwa [List.reverse_reverse] at this

/-- C202: what the storage has after every history. -/
theorem C202_storage (init : String → Option J) (h : List (Op V J)) (k : String) :
    (run (start init) h).storage k = stored init k h.reverse := by
  suffices H : ∀ h : List (Op V J), (run (start init) h.reverse).storage k = stored init k h by
    have := H h.reverse
    rwa [List.reverse_reverse] at this
  intro h
  induction h with
  | nil => rfl
  | cons o h ih =>
    rw [List.reverse_cons, run_append]
    show (step (run (start init) h.reverse) o).storage k = _
    cases o with
    | define d => exact ih
    | undefine => exact ih
    | assign m v =>
      simp only [step, stored]
      have hd := defOf_find init h m
      cases hf : find m (run (start init) h.reverse).props with
      | none =>
        rw [hf] at hd
        simp only [Option.map_none] at hd
        rw [← hd]
        exact ih
      | some p =>
        rw [hf] at hd
        simp only [Option.map_some] at hd
        rw [← hd]
        simp only [tell]
        cases hw : p.1.write (p.1.validate v) with
        | some j =>
          simp only [Function.update_apply, ih]
          by_cases hk : p.1.key = k
          · simp [hk]
          · simp [hk, Ne.symm hk]
        | none =>
          simp only [Function.update_apply, ih, find_name hf]
          by_cases hk : m = k
          · simp [hk]
          · simp [hk, Ne.symm hk]

/-! ### The dict that is written -/

/-- Names are there once, and keys go with names. -/
structure Ok (key : String → String) (l : List (Def V J × V)) : Prop where
  names : (l.map fun p => p.1.name).Nodup
  keys : ∀ p ∈ l, p.1.key = key p.1.name

theorem mem_put {d : Def V J} {l : List (Def V J × V)} {p : Def V J × V} (h : p ∈ put d l) : p = (d, d.default) ∨ p ∈ l := by
  induction l with
  | nil => exact .inl (by simpa [put] using h)
  | cons q l ih =>
    simp only [put] at h
    split at h
    · rcases List.mem_cons.1 h with h | h
      · exact .inl h
      · exact .inr (List.mem_cons_of_mem _ h)
    · rcases List.mem_cons.1 h with h | h
      · exact .inr (h ▸ List.mem_cons_self ..)
      · exact (ih h).imp id (List.mem_cons_of_mem _)

theorem put_ok {key : String → String} {l : List (Def V J × V)} (h : Ok key l) (d : Def V J) (hd : d.key = key d.name) : Ok key (put d l) := by
  refine ⟨?_, fun p hp => ?_⟩
  · have h1 := h.names
    clear h
    induction l with
    | nil => simp [put]
    | cons q l ih =>
      rw [List.map_cons, List.nodup_cons] at h1
      simp only [put]
      split
      · rename_i he
        rw [List.map_cons, List.nodup_cons]
        exact ⟨he ▸ h1.1, h1.2⟩
      · rename_i he
        rw [List.map_cons, List.nodup_cons]
        refine ⟨fun hm => ?_, ih h1.2⟩
        obtain ⟨p, hp, hpe⟩ := List.mem_map.1 hm
        rcases mem_put hp with rfl | hp
        · exact he hpe.symm
        · exact h1.1 (hpe ▸ List.mem_map_of_mem hp)
  · rcases mem_put hp with rfl | hp
    · exact hd
    · exact h.keys p hp

theorem setVal_map (n : String) (v : V) (l : List (Def V J × V)) : (setVal n v l).map (·.1) = l.map (·.1) := by
  induction l with
  | nil => rfl
  | cons p l ih =>
    simp only [setVal]
    split
    · rfl
    · rw [List.map_cons, List.map_cons, ih]

theorem setVal_ok {key : String → String} {l : List (Def V J × V)} (h : Ok key l) (n : String) (v : V) : Ok key (setVal n v l) := by
  have e := setVal_map n v l
  refine ⟨?_, fun p hp => ?_⟩
  · have : (setVal n v l).map (fun p => p.1.name) = l.map fun p => p.1.name := by
      have := congrArg (List.map Def.name) e
      rwa [List.map_map, List.map_map] at this
    rw [this]
    exact h.names
  · have hm : p.1 ∈ l.map (·.1) := e ▸ List.mem_map_of_mem hp
    obtain ⟨q, hq, hqe⟩ := List.mem_map.1 hm
    rw [← hqe]
    exact h.keys q hq

theorem run_ok {key : String → String} (init : String → Option J) (h : List (Op V J)) (ht : ∀ d, Op.define d ∈ h → d.key = key d.name) :
    Ok key (run (start init) h).props := by
  suffices H : ∀ (h : List (Op V J)) (s : St V J), (∀ d, Op.define d ∈ h → d.key = key d.name) → Ok key s.props → Ok key (run s h).props from
    H h _ ht ⟨.nil, fun p hp => by cases hp⟩
  intro h
  induction h with
  | nil => exact fun s _ hs => hs
  | cons o h ih =>
    intro s ht hs
    refine ih _ (fun d hd => ht d (List.mem_cons_of_mem _ hd)) ?_
    cases o with
    | define d => exact put_ok hs d (ht d (List.mem_cons_self ..))
    | undefine => exact ⟨.nil, fun p hp => by cases hp⟩
    | assign n v =>
      simp only [step]
      cases find n s.props with
      | none => exact hs
      | some p => exact setVal_ok hs n v

theorem writeDict_find {key : String → String} (hk : ∀ m n, key m = key n → m = n) (l : List (Def V J × V)) (h : Ok key l) (n : String) :
    writeDict l (key n) = (find n l).bind fun p => p.1.write p.2 := by
  suffices H : ∀ (l : List (Def V J × V)) (f : String → Option J), Ok key l →
      l.foldl (fun f p => Function.update f p.1.key (p.1.write p.2)) f (key n) = match find n l with | some p => p.1.write p.2 | none => f (key n) by
    rw [writeDict, H l _ h]
    cases find n l <;> rfl
  intro l
  induction l with
  | nil => exact fun f _ => rfl
  | cons p l ih =>
    intro f h
    have hn := h.names
    rw [List.map_cons, List.nodup_cons] at hn
    rw [List.foldl_cons, ih _ ⟨hn.2, fun q hq => h.keys q (List.mem_cons_of_mem _ hq)⟩]
    simp only [find]
    have hp := h.keys p (List.mem_cons_self ..)
    by_cases hpn : p.1.name = n
    · have hf : find n l = none := by
        cases hf : find n l with
        | none => rfl
        | some q =>
          exfalso
          refine hn.1 ?_
          have hq : ∀ l : List (Def V J × V), find n l = some q → q ∈ l := by
            intro l
            induction l with
            | nil => intro h; cases h
            | cons r l ih =>
              simp only [find]
              split
              · intro h; cases h; exact List.mem_cons_self ..
              · exact fun h => List.mem_cons_of_mem _ (ih h)
          rw [hpn, ← find_name hf]
          exact List.mem_map_of_mem (f := fun p : Def V J × V => p.1.name) (hq l hf)
      rw [hf, if_pos hpn]
      simp only
      rw [hp, hpn, Function.update_self]
    · rw [if_neg hpn]
      cases find n l with
      | some q => rfl
      | none =>
        simp only
        rw [Function.update_of_ne]
        intro he
        rw [hp] at he
        exact hpn (hk _ _ he).symm

/-- C202: what is written for the key of a name is what the property with the name writes; nothing if there is none. -/
theorem C202_dict (key : String → String) (init : String → Option J) (h : List (Op V J)) (ht : Tidy key h) (n : String) :
    writeDict (run (start init) h).props (key n) =
      (defOf n h.reverse).bind fun d => (valOf n h.reverse).bind fun v => d.write v := by
  rw [writeDict_find ht.1 _ (run_ok init h fun d hd => (ht.2 d hd).1), C202_values]
  cases defOf n h.reverse with
  | none => rfl
  | some d => cases valOf n h.reverse <;> rfl

theorem leaves_spec (n : String) (g h : List (Op V J)) (hg : ∀ o ∈ g, Leaves n o) :
    defOf n (g ++ h) = defOf n h ∧ valOf n (g ++ h) = valOf n h := by
  induction g with
  | nil => exact ⟨rfl, rfl⟩
  | cons o g ih =>
    obtain ⟨h1, h2⟩ := ih fun o ho => hg o (List.mem_cons_of_mem _ ho)
    have ho := hg o (List.mem_cons_self ..)
    cases o with
    | define d => simp only [List.cons_append, defOf, valOf]; rw [if_neg ho, if_neg ho]; exact ⟨h1, h2⟩
    | undefine => exact ho.elim
    | assign m v => simp only [List.cons_append, defOf, valOf]; rw [if_neg ho]; exact ⟨h1, h2⟩

theorem defOf_mem {n : String} {h : List (Op V J)} {d : Def V J} (hd : defOf n h = some d) : Op.define d ∈ h ∧ d.name = n := by
  induction h with
  | nil => cases hd
  | cons o h ih =>
    cases o with
    | define e =>
      simp only [defOf] at hd
      split at hd
      · cases hd; exact ⟨List.mem_cons_self .., by assumption⟩
      · exact ⟨List.mem_cons_of_mem _ (ih hd).1, (ih hd).2⟩
    | undefine => cases hd
    | assign m v => exact ⟨List.mem_cons_of_mem _ (ih hd).1, (ih hd).2⟩

theorem leaves_stored {key : String → String} (init : String → Option J) (n : String) (g h : List (Op V J)) (hg : ∀ o ∈ g, Leaves n o)
    (ht : Tidy key (g ++ h)) : stored init (key n) (g ++ h) = stored init (key n) h := by
  induction g with
  | nil => rfl
  | cons o g ih =>
    have ih := ih (fun o ho => hg o (List.mem_cons_of_mem _ ho)) ⟨ht.1, fun d hd => ht.2 d (List.mem_cons_of_mem _ hd)⟩
    have ho := hg o (List.mem_cons_self ..)
    cases o with
    | define d => exact ih
    | undefine => exact ih
    | assign m v =>
      simp only [List.cons_append, stored]
      cases hd : defOf m (g ++ h) with
      | none => exact ih
      | some d =>
        obtain ⟨h1, h2⟩ := defOf_mem hd
        obtain ⟨h3, h4⟩ := ht.2 d (List.mem_cons_of_mem _ h1)
        have hne : d.key ≠ key n := fun he => ho (ht.1 _ _ (by rw [← h2, ← h3]; exact he))
        simp only
        cases hw : d.write (d.validate v) with
        | some j => simp only; rw [if_neg hne]; exact ih
        | none => simp only; rw [if_neg (by rw [← h2, ← h4 _ hw]; exact hne)]; exact ih

/-- C202 (partial: properties that have been assigned since they were defined): the storage has for the key of the property what is written
for the object, which is the value assigned last. -/
theorem C202_assigned_partial (key : String → String) (init : String → Option J) (h g : List (Op V J)) (n : String) (v : V) (d : Def V J)
    (ht : Tidy key (h ++ .assign n v :: g)) (hd : defOf n h.reverse = some d) (hg : ∀ o ∈ g, Leaves n o) :
    (run (start init) (h ++ .assign n v :: g)).storage d.key = d.write (d.validate v) ∧
      writeDict (run (start init) (h ++ .assign n v :: g)).props d.key = d.write (d.validate v) := by
  obtain ⟨h1, h2⟩ := defOf_mem hd
  have hm : Op.define d ∈ h ++ .assign n v :: g := List.mem_append_left _ (List.mem_reverse.1 h1)
  obtain ⟨h3, h4⟩ := ht.2 d hm
  rw [h2] at h3
  have e : (h ++ .assign n v :: g).reverse = g.reverse ++ .assign n v :: h.reverse := by simp
  have hg' : ∀ o ∈ g.reverse, Leaves n o := fun o ho => hg o (List.mem_reverse.1 ho)
  have ht' : Tidy key (g.reverse ++ .assign n v :: h.reverse) := ⟨ht.1, fun d hd => ht.2 d (List.mem_reverse.1 (e ▸ hd))⟩
  constructor
  · rw [C202_storage, e, h3, leaves_stored init n _ _ hg' ht', stored, hd]
    simp only
    cases hw : d.write (d.validate v) with
    | some j => simp only; rw [if_pos h3]
    | none => simp only; rw [if_pos (by rw [← h3, h4 _ hw, h2])]
  · rw [h3, C202_dict key init _ ht, e, (leaves_spec n _ _ hg').1, (leaves_spec n _ _ hg').2]
    simp only [defOf, valOf, if_true, hd, Option.bind_some, Option.map_some]

/-- C202: for a property that has not been assigned since it was defined, what it was defined with is written for the object; the storage
still has what it had then. -/
theorem C202_defined (key : String → String) (init : String → Option J) (h g : List (Op V J)) (d : Def V J)
    (ht : Tidy key (h ++ .define d :: g)) (hg : ∀ o ∈ g, Leaves d.name o) :
    (run (start init) (h ++ .define d :: g)).storage d.key = (run (start init) h).storage d.key ∧
      writeDict (run (start init) (h ++ .define d :: g)).props d.key = d.write d.default := by
  obtain ⟨h3, h4⟩ := ht.2 d (by simp)
  have e : (h ++ .define d :: g).reverse = g.reverse ++ .define d :: h.reverse := by simp
  have hg' : ∀ o ∈ g.reverse, Leaves d.name o := fun o ho => hg o (List.mem_reverse.1 ho)
  have ht' : Tidy key (g.reverse ++ .define d :: h.reverse) := ⟨ht.1, fun d hd => ht.2 d (List.mem_reverse.1 (e ▸ hd))⟩
  constructor
  · rw [C202_storage, C202_storage, e, h3, leaves_stored init d.name _ _ hg' ht', stored]
    simp
  · rw [h3, C202_dict key init _ ht, e, (leaves_spec d.name _ _ hg').1, (leaves_spec d.name _ _ hg').2]
    simp [defOf, valOf]

/-- C202: after properties have been undefined, nothing is written for a name until it is defined again; the storage still has what it had. -/
theorem C202_undefined (key : String → String) (init : String → Option J) (h g : List (Op V J)) (n : String)
    (ht : Tidy key (h ++ .undefine :: g)) (hg : ∀ o ∈ g, Leaves n o) :
    (run (start init) (h ++ .undefine :: g)).storage (key n) = (run (start init) h).storage (key n) ∧
      writeDict (run (start init) (h ++ .undefine :: g)).props (key n) = none := by
  have e : (h ++ .undefine :: g).reverse = g.reverse ++ .undefine :: h.reverse := by simp
  have hg' : ∀ o ∈ g.reverse, Leaves n o := fun o ho => hg o (List.mem_reverse.1 ho)
  have ht' : Tidy key (g.reverse ++ .undefine :: h.reverse) := ⟨ht.1, fun d hd => ht.2 d (List.mem_reverse.1 (e ▸ hd))⟩
  constructor
  · rw [C202_storage, C202_storage, e, leaves_stored init n _ _ hg' ht', stored]
    simp
  · rw [C202_dict key init _ ht, e, (leaves_spec n _ _ hg').1]
    rfl

/-! ### Cases -/

/-- A number, written if it is not zero. -/
def num (n : String) (x : ℕ) : Def ℕ ℕ := ⟨n, n, x, fun v => v, fun v => if v = 0 then none else some v⟩

/-- The storage and what is written, for a key. -/
def sight (h : List (Op ℕ ℕ)) (k : String) : Option ℕ × Option ℕ :=
  ((run (start fun _ => none) h).storage k, writeDict (run (start fun _ => none) h).props k)

example : sight [.define (num "a" 0), .define (num "b" 0), .assign "a" 3, .assign "b" 4, .assign "a" 5] "a" = (some 5, some 5) := by
  decide +kernel
example : sight [.define (num "a" 0), .assign "a" 3, .assign "a" 0] "a" = (none, none) := by decide +kernel
example : ((run (start fun _ => none) [.define (num "a" 0), .define (num "b" 0), .define (num "a" 7)]).props.map fun p => (p.1.name, p.2)) =
    [("a", 7), ("b", 0)] := by decide +kernel

/-- C202: a property with a value of its own is not stored until it is assigned. -/
theorem C202_counterexample_default : sight [.define (num "a" 7)] "a" = (none, some 7) := by decide +kernel

/-- C202: a property that is defined again loses its value, which is still stored. -/
theorem C202_counterexample_again : sight [.define (num "a" 0), .assign "a" 3, .define (num "a" 0)] "a" = (some 3, none) := by decide +kernel

/-- C202: a property that is undefined is still stored. -/
theorem C202_counterexample_undefined : sight [.define (num "a" 0), .assign "a" 3, .undefine] "a" = (some 3, none) := by decide +kernel

end Verif.Persist.Redefine
