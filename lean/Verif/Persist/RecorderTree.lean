import Verif.Py.Basic
import Mathlib.Logic.Function.Basic
import Mathlib.Data.List.Basic
import Mathlib.Tactic.Common

/-!
C113: the recorder (`nion/utils/Recorder.py`) for objects that contain objects to any depth.

Objects are numbered; an object has properties and lists of contained objects, one list per relationship (an item is a list of at
most one object that does not change: setting an item is not recorded, C61). `Rec` of C61 keeps the recorders beside the object;
here they are identified with the objects: the changes considered are those whose handlers do not raise (C61), properties set, objects
appended, the last object removed. With these an object keeps its place as long as it is in the tree, so the accessor of its recorder,
fixed when the recorder is made (lines 26-36, 79, 94), leads to its place; there is a recorder for exactly the objects in the tree
(26-36 make them for all contained objects, 42-55 close them).

The object the log is applied to is a tree of values. A deep copy (95) of a recorded object is a copy of everything in it as it is when
the log is applied; it is written `copy o`. Not modelled: changes whose handlers raise, validators.
-/

namespace Verif.Persist.RecorderTree

open Verif.Py

variable {V : Type}

/-- The recorded objects. -/
structure Heap (V : Type) where
  vals : Nat → Nat → V
  kids : Nat → List (List Nat)

/-- A place: relationship and index, from the root down. -/
abbrev Path := List (Nat × Nat)

/-- The object at a place below `o`: what the accessors of lines 29-30, 34-35, 79 and 94 lead to. -/
def Heap.walk (s : Heap V) : Nat → Path → Option Nat
  | o, [] => some o
  | o, (r, i) :: p => (s.kids o)[r]?.bind fun l => l[i]?.bind fun c => s.walk c p

/-- The logged functions, with the place of the recorder's object. -/
inductive Entry where
  /-- line 72: set property `k` to the value it has in the recorded object `o` -/
  | set (p : Path) (o k : Nat)
  /-- line 95 -/
  | insert (p : Path) (r : Nat) (i : Nat) (o : Nat)
  /-- line 103 -/
  | remove (p : Path) (r : Nat) (i : Nat)
  deriving DecidableEq

/-- A change at the object at a place of the recorded tree, or of an object that is not in it. -/
inductive Op (V : Type) where
  | set (p : Path) (k : Nat) (v : V)
  | append (p : Path) (r : Nat) (o : Nat)
  | removeLast (p : Path) (r : Nat)
  | outside (o : Nat) (f : Nat → V) (ks : List (List Nat))

def Heap.setKids (s : Heap V) (o r : Nat) (l : List Nat) : Heap V :=
  { s with kids := Function.update s.kids o ((s.kids o).set r l) }

/-- The change and what is logged (69-74, 89-95, 97-103). -/
def step (rec : Nat → Nat → Bool) (root : Nat) (s : Heap V) : Op V → Heap V × List Entry
  | .set p k v =>
    match s.walk root p with
    | some o => ({ s with vals := Function.update s.vals o (Function.update (s.vals o) k v) }, if rec o k then [.set p o k] else [])
    | none => (s, [])
  | .append p r o =>
    match s.walk root p with
    | some x =>
      match (s.kids x)[r]? with
      | some l => (s.setKids x r (l ++ [o]), [.insert p r l.length o])
      | none => (s, [])
    | none => (s, [])
  | .removeLast p r =>
    match s.walk root p with
    | some x =>
      match (s.kids x)[r]? with
      | some l => if l = [] then (s, []) else (s.setKids x r l.dropLast, [.remove p r (l.length - 1)])
      | none => (s, [])
    | none => (s, [])
  | .outside o f ks => ({ vals := Function.update s.vals o f, kids := Function.update s.kids o ks }, [])

/-- The recorded tree after a history and the log. -/
def run (rec : Nat → Nat → Bool) (root : Nat) : Heap V → List (Op V) → Heap V × List Entry
  | s, [] => (s, [])
  | s, op :: ops =>
    let q := step rec root s op
    let t := run rec root q.1 ops
    (t.1, q.2 ++ t.2)

/-! ### Applying the log -/

/-- An object that the log is applied to: made before, or a deep copy of the object `o` as it is at the end. -/
inductive Tree (V : Type) where
  | copy (o : Nat)
  | node (f : Nat → V) (kids : List (List (Tree V)))

/-- The values and the contained objects. -/
def Tree.vals (fin : Heap V) : Tree V → Nat → V
  | .copy o => fin.vals o
  | .node f _ => f

def Tree.kids (fin : Heap V) : Tree V → List (List (Tree V))
  | .copy o => (fin.kids o).map fun l => l.map .copy
  | .node _ ks => ks

/-- The object at a place. -/
def Tree.get (fin : Heap V) : Tree V → Path → Option (Tree V)
  | t, [] => some t
  | t, (r, i) :: p => (t.kids fin)[r]?.bind fun l => l[i]?.bind fun c => c.get fin p

/-- Change the object at a place; `none` if there is none (an exception). -/
def Tree.modify (fin : Heap V) (g : Tree V → Option (Tree V)) : Tree V → Path → Option (Tree V)
  | t, [] => g t
  | t, (r, i) :: p => (t.kids fin)[r]?.bind fun l => l[i]?.bind fun c => (Tree.modify fin g c p).map fun c' =>
      .node (t.vals fin) ((t.kids fin).set r (l.set i c'))

/-- One logged function; `fin` is the recorded tree when the log is applied. -/
def Entry.apply (fin : Heap V) (t : Tree V) : Entry → Option (Tree V)
  | .set p o k => t.modify fin (fun u => some (.node (Function.update (u.vals fin) k (fin.vals o k)) (u.kids fin))) p
  | .insert p r i o => t.modify fin (fun u => (u.kids fin)[r]?.map fun l =>
      .node (u.vals fin) ((u.kids fin).set r (Py.insert l i (.copy o)))) p
  | .remove p r i => t.modify fin (fun u => (u.kids fin)[r]?.bind fun l =>
      if i < l.length then some (.node (u.vals fin) ((u.kids fin).set r (l.eraseIdx i))) else none) p

/-- Lines 57-59 `apply`. -/
def applyAll (fin : Heap V) : List Entry → Tree V → Option (Tree V)
  | [], t => some t
  | e :: l, t => (e.apply fin t).bind (applyAll fin l)

/-! ### Specification -/

/-- The recorded tree and a tree of values are equal: at every place both have an object, with the same values, or none. -/
def Same (s : Heap V) (root : Nat) (fin : Heap V) (t : Tree V) : Prop :=
  ∀ p, (t.get fin p).map (fun u => u.vals fin) = (s.walk root p).map s.vals ∧
    (t.get fin p).map (fun u => (u.kids fin).map List.length) = (s.walk root p).map fun o => (s.kids o).map List.length

/-- No object is at two places. -/
def Heap.Single (s : Heap V) (root : Nat) : Prop := ∀ p q o, s.walk root p = some o → s.walk root q = some o → p = q

/-- The changes the recorder handles right. `fresh` are the objects that were inserted since the recording began, with what they
contained: their lists must not change any more. The changes of properties are of recordable ones, the changes outside are of objects
that are not in the tree. -/
def Op.Good (rec : Nat → Nat → Bool) (root : Nat) (fresh : Nat → Prop) (s : Heap V) : Op V → Prop
  | .set p k _ => ∀ o, s.walk root p = some o → rec o k = true
  | .append p _ _ => ∀ o, s.walk root p = some o → ¬ fresh o
  | .removeLast p _ => ∀ o, s.walk root p = some o → ¬ fresh o
  | .outside o _ ks => (∀ p, s.walk root p ≠ some o) ∧ (fresh o → ks = s.kids o)

/-- The fresh objects after a change. -/
def freshen (fresh : Nat → Prop) (s : Heap V) : Op V → Nat → Prop
  | .append _ _ o => fun x => fresh x ∨ ∃ p, s.walk o p = some x
  | _ => fresh

/-- A history of such changes, during which no object is at two places. -/
def AllGood (rec : Nat → Nat → Bool) (root : Nat) : (Nat → Prop) → Heap V → List (Op V) → Prop
  | _, _, [] => True
  | fresh, s, op :: ops => op.Good rec root fresh s ∧ (step rec root s op).1.Single root ∧
      AllGood rec root (freshen fresh s op) (step rec root s op).1 ops

/-! ### Places -/

theorem kids_node (fin : Heap V) (f : Nat → V) (ks : List (List (Tree V))) : (Tree.node f ks).kids fin = ks := rfl

theorem vals_node (fin : Heap V) (f : Nat → V) (ks : List (List (Tree V))) : (Tree.node f ks).vals fin = f := rfl


theorem Heap.walk_append (s : Heap V) (a : Nat) (p q : Path) : s.walk a (p ++ q) = (s.walk a p).bind fun o => s.walk o q := by
  induction p generalizing a with
  | nil => rfl
  | cons x p ih =>
    obtain ⟨r, i⟩ := x
    simp only [List.cons_append, Heap.walk]
    cases (s.kids a)[r]? with
    | none => rfl
    | some l =>
      simp only [Option.bind_some]
      cases l[i]? with
      | none => rfl
      | some c => exact ih c

theorem Tree.get_append (fin : Heap V) (t : Tree V) (p q : Path) : t.get fin (p ++ q) = (t.get fin p).bind fun u => u.get fin q := by
  induction p generalizing t with
  | nil => rfl
  | cons x p ih =>
    obtain ⟨r, i⟩ := x
    simp only [List.cons_append, Tree.get]
    cases (t.kids fin)[r]? with
    | none => rfl
    | some l =>
      simp only [Option.bind_some]
      cases l[i]? with
      | none => rfl
      | some c => exact ih c

/-- Heaps that differ only at `x` have the same object at a place if `x` is not on the way. -/
theorem walk_congr {s s' : Heap V} {x : Nat} (hk : ∀ o, o ≠ x → s'.kids o = s.kids o) (a : Nat) (q : Path)
    (h : ∀ p y r, q = p ++ y :: r → s.walk a p ≠ some x) : s'.walk a q = s.walk a q := by
  induction q generalizing a with
  | nil => rfl
  | cons y q ih =>
    obtain ⟨r, i⟩ := y
    have ha : a ≠ x := fun e => h [] (r, i) q rfl (by rw [e]; rfl)
    simp only [Heap.walk]
    rw [hk a ha]
    cases hl : (s.kids a)[r]? with
    | none => rfl
    | some l =>
      simp only [Option.bind_some]
      cases hi : l[i]? with
      | none => rfl
      | some c =>
        simp only [Option.bind_some]
        refine ih c fun p y' r' e hw => h ((r, i) :: p) y' r' (by rw [e]; rfl) ?_
        simp only [Heap.walk, hl, hi, Option.bind_some]
        exact hw

theorem walk_copy (fin : Heap V) (o : Nat) (q : Path) : (Tree.copy o : Tree V).get fin q = (fin.walk o q).map .copy := by
  induction q generalizing o with
  | nil => rfl
  | cons y q ih =>
    obtain ⟨r, i⟩ := y
    simp only [Tree.get, Tree.kids, Heap.walk, List.getElem?_map]
    cases (fin.kids o)[r]? with
    | none => rfl
    | some l =>
      simp only [Option.map_some, Option.bind_some, List.getElem?_map]
      cases l[i]? with
      | none => rfl
      | some c => exact ih c

/-- What can be seen at a place. -/
def Tree.obs (fin : Heap V) (t : Tree V) (q : Path) : Option ((Nat → V) × List Nat) :=
  (t.get fin q).map fun u => (u.vals fin, (u.kids fin).map List.length)

theorem modify_spec (fin : Heap V) (g : Tree V → Option (Tree V)) (t : Tree V) (p : Path) (u u' : Tree V) (hu : t.get fin p = some u)
    (hg : g u = some u') :
    ∃ t', t.modify fin g p = some t' ∧ (∀ r, t'.get fin (p ++ r) = u'.get fin r) ∧
      ∀ q, ¬ p <+: q → t'.obs fin q = t.obs fin q := by
  induction p generalizing t with
  | nil =>
    obtain rfl : t = u := by simpa [Tree.get] using hu
    exact ⟨u', hg, fun r => rfl, fun q h => absurd (List.nil_prefix) h⟩
  | cons x p ih =>
    obtain ⟨r, i⟩ := x
    simp only [Tree.get] at hu
    cases hl : (t.kids fin)[r]? with
    | none => rw [hl] at hu; simp at hu
    | some l =>
      cases hi : l[i]? with
      | none => rw [hl] at hu; simp [hi] at hu
      | some c =>
        rw [hl] at hu
        simp only [Option.bind_some, hi] at hu
        obtain ⟨c', h1, h2, h3⟩ := ih c hu
        obtain ⟨hil, hic⟩ := List.getElem?_eq_some_iff.1 hi
        obtain ⟨hrl, hrc⟩ := List.getElem?_eq_some_iff.1 hl
        refine ⟨.node (t.vals fin) ((t.kids fin).set r (l.set i c')), ?_, ?_, ?_⟩
        · simp only [Tree.modify, hl, hi, Option.bind_some, h1, Option.map_some]
        · intro q
          simp only [List.cons_append, Tree.get, kids_node]
          rw [List.getElem?_set_self hrl]
          simp only [Option.bind_some]
          rw [List.getElem?_set_self hil]
          exact h2 q
        · intro q hq
          cases q with
          | nil =>
            simp only [Tree.obs, Tree.get, Option.map_some, vals_node, kids_node]
            congr 2
            rw [List.map_set]
            apply List.ext_getElem?
            intro j
            rw [List.getElem?_set]
            split
            · rename_i hj
              subst hj
              rw [List.getElem?_map, hl]
              simp [hrl]
            · rfl
          | cons y q =>
            obtain ⟨r', i'⟩ := y
            simp only [Tree.obs, Tree.get, kids_node]
            by_cases hr : r = r'
            · subst hr
              rw [List.getElem?_set_self hrl, hl]
              simp only [Option.bind_some]
              by_cases hii : i = i'
              · subst hii
                rw [List.getElem?_set_self hil, hi]
                simp only [Option.bind_some]
                exact h3 q fun hp => hq (List.cons_prefix_cons.2 ⟨rfl, hp⟩)
              · rw [List.getElem?_set_ne hii]
            · rw [List.getElem?_set_ne hr]

/-! ### The invariant: what is replayed has, in each place, the value of the recorded object at that time or its final value -/

def Near (fin s : Heap V) (a : Nat) (t : Tree V) : Prop :=
  ∀ q o, s.walk a q = some o → ∃ f n, t.obs fin q = some (f, n) ∧ (∀ k, f k = s.vals o k ∨ f k = fin.vals o k) ∧
    n = (s.kids o).map List.length

theorem obs_some {fin : Heap V} {t : Tree V} {q : Path} {f : Nat → V} {n : List Nat} (h : t.obs fin q = some (f, n)) :
    ∃ u, t.get fin q = some u ∧ u.vals fin = f ∧ (u.kids fin).map List.length = n := by
  unfold Tree.obs at h
  obtain ⟨u, h1, h2⟩ := Option.map_eq_some_iff.1 h
  exact ⟨u, h1, congrArg Prod.fst h2, congrArg Prod.snd h2⟩

theorem step_kids (rec : Nat → Nat → Bool) (root : Nat) (fresh : Nat → Prop) (s : Heap V) (op : Op V)
    (hg : op.Good rec root fresh s) (x : Nat) (hx : fresh x) : (step rec root s op).1.kids x = s.kids x := by
  cases op with
  | set p k v => simp only [step]; split <;> rfl
  | append p r o =>
    simp only [step]
    split
    · rename_i y hy
      have : x ≠ y := by rintro rfl; exact hg x hy hx
      split
      · simp [Heap.setKids, Function.update_of_ne this]
      · rfl
    · rfl
  | removeLast p r =>
    simp only [step]
    split
    · rename_i y hy
      have : x ≠ y := by rintro rfl; exact hg x hy hx
      split
      · split
        · rfl
        · simp [Heap.setKids, Function.update_of_ne this]
      · rfl
    · rfl
  | outside o f ks =>
    simp only [step]
    by_cases h : x = o
    · subst h; rw [Function.update_self]; exact hg.2 hx
    · rw [Function.update_of_ne h]

theorem freshen_le (fresh : Nat → Prop) (s : Heap V) (op : Op V) (x : Nat) (hx : fresh x) : freshen fresh s op x := by
  cases op <;> first | exact hx | exact Or.inl hx

theorem run_kids (rec : Nat → Nat → Bool) (root : Nat) (fresh : Nat → Prop) (s : Heap V) (ops : List (Op V))
    (hg : AllGood rec root fresh s ops) (x : Nat) (hx : fresh x) : (run rec root s ops).1.kids x = s.kids x := by
  induction ops generalizing fresh s with
  | nil => rfl
  | cons op ops ih =>
    obtain ⟨h1, _, h3⟩ := hg
    exact (ih _ _ h3 (freshen_le _ _ _ _ hx)).trans (step_kids rec root fresh s op h1 x hx)

/-- In a tree without repetition an object is not below itself. -/
theorem Heap.Single.not_below {s : Heap V} {root x : Nat} (h : s.Single root) {p : Path} (hp : s.walk root p = some x)
    (y : Nat × Nat) (r : Path) : s.walk root (p ++ y :: r) ≠ some x := by
  intro hh
  have := congrArg List.length (h _ _ _ hp hh)
  simp at this

/-- The places after a change of the lists of the object at place `p`. -/
theorem walk_setKids {s : Heap V} {root x : Nat} (p : Path) (hs : s.Single root) (hp : s.walk root p = some x) (r : Nat) (l : List Nat)
    (hs' : (s.setKids x r l).Single root) :
    (s.setKids x r l).walk root p = some x ∧
    (∀ q, (∀ y r', q ≠ p ++ y :: r') → (s.setKids x r l).walk root q = s.walk root q) ∧
    (∀ c y q, (s.setKids x r l).walk root (p ++ [y]) = some c → (s.setKids x r l).walk c q = s.walk c q) := by
  have hk : ∀ o, o ≠ x → (s.setKids x r l).kids o = s.kids o := fun o ho => by simp [Heap.setKids, Function.update_of_ne ho]
  have hk' : ∀ o, o ≠ x → s.kids o = (s.setKids x r l).kids o := fun o ho => (hk o ho).symm
  have h1 : ∀ q, (∀ y r', q ≠ p ++ y :: r') → (s.setKids x r l).walk root q = s.walk root q := by
    intro q hq
    refine walk_congr hk root q fun p' y r' e hw => hq y r' ?_
    rw [e, hs _ _ _ hw hp]
  refine ⟨?_, h1, ?_⟩
  · rw [h1 p fun y r' e => ?_, hp]
    have := congrArg List.length e
    simp at this
  · intro c y q hc
    symm
    refine walk_congr hk' c q fun p' y' r' e hw => ?_
    have hpx : (s.setKids x r l).walk root p = some x := by
      rw [h1 p fun y r' e => ?_, hp]
      have := congrArg List.length e
      simp at this
    refine hs'.not_below hpx y p' ?_
    rw [show p ++ y :: p' = (p ++ [y]) ++ p' by simp, Heap.walk_append, hc]
    exact hw

theorem lengths_get {l : List (List Nat)} {m : List (List (Tree V))} (h : m.map List.length = l.map List.length) (r : Nat) :
    (m[r]?).map List.length = (l[r]?).map List.length := by
  rw [← List.getElem?_map, ← List.getElem?_map, h]

theorem get_cons_of_kids (fin : Heap V) (u u' : Tree V) (r i : Nat) (q : Path)
    (h : ((u'.kids fin)[r]?.bind fun l => l[i]?) = ((u.kids fin)[r]?.bind fun l => l[i]?)) :
    u'.get fin ((r, i) :: q) = u.get fin ((r, i) :: q) := by
  simp only [Tree.get]
  have e : ∀ v : Tree V, ((v.kids fin)[r]?.bind fun l => l[i]?.bind fun c => c.get fin q) =
      ((v.kids fin)[r]?.bind fun l => l[i]?).bind fun c => c.get fin q := by
    intro v
    cases (v.kids fin)[r]? <;> rfl
  rw [e, e, h]

theorem step_near (rec : Nat → Nat → Bool) (root : Nat) (fin : Heap V) (fresh : Nat → Prop) (s : Heap V) (op : Op V) (t : Tree V)
    (hg : op.Good rec root fresh s) (hs : s.Single root) (hs' : (step rec root s op).1.Single root)
    (hf : ∀ x, freshen fresh s op x → fin.kids x = (step rec root s op).1.kids x) (hn : Near fin s root t) :
    ∃ t', applyAll fin (step rec root s op).2 t = some t' ∧ Near fin (step rec root s op).1 root t' := by
  cases op with
  | set p k v =>
    cases hp : s.walk root p with
    | none => simp only [step, hp, applyAll]; exact ⟨t, rfl, hn⟩
    | some o =>
      simp only [step, hp, hg o hp, if_true, applyAll]
      obtain ⟨f, n, ho, hv, hlen⟩ := hn p o hp
      obtain ⟨u, hu, huf, hun⟩ := obs_some ho
      obtain ⟨t', h1, h2, h3⟩ := modify_spec fin
        (fun u => some (.node (Function.update (u.vals fin) k (fin.vals o k)) (u.kids fin))) t p u _ hu rfl
      refine ⟨t', by simp only [Entry.apply]; rw [h1]; rfl, ?_⟩
      have hw : ∀ q, Heap.walk { s with vals := Function.update s.vals o (Function.update (s.vals o) k v) } root q = s.walk root q :=
        fun q => by
          have : ∀ a, Heap.walk { s with vals := Function.update s.vals o (Function.update (s.vals o) k v) } a q = s.walk a q := by
            induction q with
            | nil => intro a; rfl
            | cons y q ih => obtain ⟨r, i⟩ := y; intro a; simp only [Heap.walk]; congr 1; funext l; congr 1; funext c; exact ih c
          exact this root
      intro q y hy
      rw [hw] at hy
      by_cases hpq : p <+: q
      · obtain ⟨r, rfl⟩ := hpq
        cases r with
        | nil =>
          rw [List.append_nil] at hy ⊢
          obtain rfl : o = y := by rw [hp] at hy; exact Option.some.inj hy
          refine ⟨Function.update (u.vals fin) k (fin.vals o k), n, ?_, ?_, hlen⟩
          · have := h2 []
            rw [List.append_nil] at this
            rw [Tree.obs, this]
            simp only [Tree.get, Option.map_some, vals_node, kids_node, hun]
          · intro j
            by_cases hj : j = k
            · subst hj; right; simp
            · have e : Function.update s.vals o (Function.update (s.vals o) k v) o j = s.vals o j := by
                rw [Function.update_self, Function.update_of_ne hj]
              rw [Function.update_of_ne hj, huf]
              show f j = Function.update s.vals o (Function.update (s.vals o) k v) o j ∨ _
              rw [e]
              exact hv j
        | cons z r =>
          obtain ⟨f', n', ho', hv', hl'⟩ := hn _ y hy
          have hyo : y ≠ o := by
            rintro rfl
            exact hs.not_below hp z r hy
          refine ⟨f', n', ?_, ?_, hl'⟩
          · rw [← ho', Tree.obs, Tree.obs, h2, Tree.get_append, hu]
            rfl
          · simpa only [Function.update_of_ne hyo] using hv'
      · obtain ⟨f', n', ho', hv', hl'⟩ := hn _ y hy
        have hyo : y ≠ o := by
          rintro rfl
          exact hpq (by rw [hs _ _ _ hp hy]; exact List.prefix_refl _)
        refine ⟨f', n', by rw [h3 q hpq]; exact ho', ?_, hl'⟩
        simpa only [Function.update_of_ne hyo] using hv'
  | append p r o =>
    cases hp : s.walk root p with
    | none => simp only [step, hp, applyAll]; exact ⟨t, rfl, hn⟩
    | some x =>
      cases hl : (s.kids x)[r]? with
      | none => simp only [step, hp, hl, applyAll]; exact ⟨t, rfl, hn⟩
      | some l =>
        simp only [step, hp, hl, applyAll] at hs' hf ⊢
        obtain ⟨f, n, ho, hv, hlen⟩ := hn p x hp
        obtain ⟨u, hu, huf, hun⟩ := obs_some ho
        have hlu := lengths_get (hun.trans hlen) r
        rw [hl] at hlu
        obtain ⟨m, hm, hml⟩ := Option.map_eq_some_iff.1 hlu
        obtain ⟨hrm, hrm'⟩ := List.getElem?_eq_some_iff.1 hm
        obtain ⟨hrl, hrl'⟩ := List.getElem?_eq_some_iff.1 hl
        have hins : Py.insert m (l.length : Nat) (Tree.copy o : Tree V) = m ++ [.copy o] := by rw [← hml, Py.insert_length]
        obtain ⟨t', h1, h2, h3⟩ := modify_spec fin
          (fun u => (u.kids fin)[r]?.map fun l' => .node (u.vals fin) ((u.kids fin).set r (Py.insert l' (l.length : Nat) (.copy o)))) t p u
          (.node (u.vals fin) ((u.kids fin).set r (m ++ [.copy o]))) hu (by simp only [hm, Option.map_some, hins])
        refine ⟨t', by simp only [Entry.apply]; rw [h1]; rfl, ?_⟩
        obtain ⟨w1, w2, w3⟩ := walk_setKids p hs hp r (l ++ [o]) hs'
        set s' := s.setKids x r (l ++ [o]) with hs'e
        have hkx : s'.kids x = (s.kids x).set r (l ++ [o]) := by rw [hs'e]; simp [Heap.setKids]
        have hko : ∀ y, y ≠ x → s'.kids y = s.kids y := fun y hy => by rw [hs'e]; simp [Heap.setKids, Function.update_of_ne hy]
        intro q y hy
        by_cases hpq : p <+: q
        · obtain ⟨q', rfl⟩ := hpq
          cases q' with
          | nil =>
            rw [List.append_nil] at hy ⊢
            obtain rfl : x = y := by rw [w1] at hy; exact Option.some.inj hy
            refine ⟨u.vals fin, ((u.kids fin).set r (m ++ [.copy o])).map List.length, ?_, by rw [huf]; exact hv, ?_⟩
            · have := h2 []
              rw [List.append_nil] at this
              rw [Tree.obs, this]; rfl
            · rw [hkx, List.map_set, List.map_set, hun, hlen]
              simp [hml]
          | cons z q' =>
            obtain ⟨r', i'⟩ := z
            have hsplit : p ++ (r', i') :: q' = (p ++ [(r', i')]) ++ q' := by simp
            have hyx : y ≠ x := by rintro rfl; exact hs'.not_below w1 (r', i') q' hy
            have hy' := hy
            rw [hsplit, Heap.walk_append] at hy'
            obtain ⟨c, hc, hcy⟩ := Option.bind_eq_some_iff.1 hy'
            rw [w3 c _ q' hc] at hcy
            have hc' := hc
            rw [Heap.walk_append, w1] at hc'
            simp only [Option.bind_some, Heap.walk] at hc'
            rw [hkx] at hc'
            by_cases hnew : r' = r ∧ i' = l.length
            · obtain ⟨rfl, rfl⟩ := hnew
              rw [List.getElem?_set_self hrl] at hc'
              simp only [Option.bind_some] at hc'
              rw [List.getElem?_append_right (le_refl _)] at hc'
              simp only [Nat.sub_self, List.getElem?_cons_zero, Option.bind_some, Option.some.injEq] at hc'
              subst hc'
              -- the copy is as the object is now
              have hfro : ∀ q y, s.walk o q = some y → fin.kids y = s'.kids y := fun q y h => hf y (.inr ⟨q, h⟩)
              have hwf : ∀ (q : Path) (a : Nat), (∀ q1 y, s.walk a q1 = some y → fin.kids y = s.kids y) →
                  fin.walk a q = s.walk a q := by
                intro q
                induction q with
                | nil => intro a _; rfl
                | cons z q ih =>
                  intro a ha
                  obtain ⟨r1, i1⟩ := z
                  simp only [Heap.walk]
                  rw [ha [] a rfl]
                  cases e1 : (s.kids a)[r1]? with
                  | none => rfl
                  | some l1 =>
                    simp only [Option.bind_some]
                    cases e2 : l1[i1]? with
                    | none => rfl
                    | some c1 =>
                      simp only [Option.bind_some]
                      refine ih c1 fun q1 y1 h => ha ((r1, i1) :: q1) y1 ?_
                      simp only [Heap.walk, e1, e2, Option.bind_some]; exact h
              have hnx : ∀ q1 y1, s.walk o q1 = some y1 → y1 ≠ x := by
                rintro q1 y1 hq1 rfl
                refine hs'.not_below w1 (r', l.length) q1 ?_
                rw [show p ++ (r', l.length) :: q1 = (p ++ [(r', l.length)]) ++ q1 by simp, Heap.walk_append, hc]
                simp only [Option.bind_some]
                rw [w3 _ _ q1 hc]; exact hq1
              have hfw : fin.walk o q' = some y := by
                rw [hwf q' o fun q1 y1 h => (hfro q1 y1 h).trans (hko y1 (hnx q1 y1 h))]
                exact hcy
              refine ⟨fin.vals y, (fin.kids y).map List.length, ?_, fun k => .inr rfl, by rw [hfro q' y hcy]⟩
              rw [Tree.obs, h2]
              have : Tree.get fin (Tree.node (u.vals fin) ((u.kids fin).set r' (m ++ [Tree.copy o]))) ((r', l.length) :: q') =
                  (Tree.copy o : Tree V).get fin q' := by
                simp only [Tree.get, kids_node]
                rw [List.getElem?_set_self hrm]
                simp only [Option.bind_some]
                rw [List.getElem?_append_right (by omega), hml]
                simp
              rw [this, walk_copy, hfw]
              simp [Tree.vals, Tree.kids]
            · have hold : s.walk root (p ++ (r', i') :: q') = some y := by
                rw [Heap.walk_append, hp]
                simp only [Option.bind_some, Heap.walk]
                by_cases hr : r' = r
                · subst hr
                  rw [List.getElem?_set_self hrl] at hc'
                  rw [hl]
                  simp only [Option.bind_some] at hc' ⊢
                  have hi : i' ≠ l.length := fun e => hnew ⟨rfl, e⟩
                  rw [List.getElem?_append] at hc'
                  split at hc'
                  · obtain ⟨c1, e1, e2⟩ := Option.bind_eq_some_iff.1 hc'
                    rw [e1]
                    obtain rfl : c1 = c := Option.some.inj e2
                    exact hcy
                  · rw [List.getElem?_eq_none (by simp; omega)] at hc'
                    cases hc'
                · rw [List.getElem?_set_ne (Ne.symm hr)] at hc'
                  obtain ⟨l1, e1, e2⟩ := Option.bind_eq_some_iff.1 hc'
                  obtain ⟨c1, e3, e4⟩ := Option.bind_eq_some_iff.1 e2
                  rw [e1]
                  simp only [Option.bind_some]
                  rw [e3]
                  obtain rfl : c1 = c := Option.some.inj e4
                  exact hcy
              obtain ⟨f', n', ho', hv', hl'⟩ := hn _ y hold
              refine ⟨f', n', ?_, hv', by rw [hl', hko y hyx]⟩
              rw [← ho', Tree.obs, Tree.obs, h2, Tree.get_append, hu]
              simp only [Option.bind_some]
              rw [get_cons_of_kids fin u]
              simp only [kids_node]
              by_cases hr : r' = r
              · subst hr
                rw [List.getElem?_set_self hrm, hm]
                simp only [Option.bind_some]
                have hi : i' ≠ m.length := fun e => hnew ⟨rfl, by omega⟩
                rw [List.getElem?_append]
                split
                · rfl
                · rw [List.getElem?_eq_none (by simp; omega), List.getElem?_eq_none (by omega)]
              · rw [List.getElem?_set_ne (Ne.symm hr)]
        · have hqn : ∀ y r', q ≠ p ++ y :: r' := fun y r' e => hpq (by rw [e]; exact List.prefix_append _ _)
          rw [w2 q hqn] at hy
          obtain ⟨f', n', ho', hv', hl'⟩ := hn _ y hy
          have hyx : y ≠ x := by rintro rfl; exact hpq (by rw [hs _ _ _ hp hy]; exact List.prefix_refl _)
          exact ⟨f', n', by rw [h3 q hpq]; exact ho', hv', by rw [hl', hko y hyx]⟩
  | removeLast p r =>
    cases hp : s.walk root p with
    | none => simp only [step, hp, applyAll]; exact ⟨t, rfl, hn⟩
    | some x =>
      cases hl : (s.kids x)[r]? with
      | none => simp only [step, hp, hl, applyAll]; exact ⟨t, rfl, hn⟩
      | some l =>
        by_cases hne : l = []
        · simp only [step, hp, hl, if_pos hne, applyAll]; exact ⟨t, rfl, hn⟩
        simp only [step, hp, hl, if_neg hne, applyAll] at hs' hf ⊢
        have hpos : l.length ≠ 0 := fun h => hne (List.length_eq_zero_iff.1 h)
        obtain ⟨f, n, ho, hv, hlen⟩ := hn p x hp
        obtain ⟨u, hu, huf, hun⟩ := obs_some ho
        have hlu := lengths_get (hun.trans hlen) r
        rw [hl] at hlu
        obtain ⟨m, hm, hml⟩ := Option.map_eq_some_iff.1 hlu
        obtain ⟨hrm, hrm'⟩ := List.getElem?_eq_some_iff.1 hm
        obtain ⟨hrl, hrl'⟩ := List.getElem?_eq_some_iff.1 hl
        have hdel : m.eraseIdx (l.length - 1) = m.dropLast := by rw [← hml, List.eraseIdx_length_sub_one]
        obtain ⟨t', h1, h2, h3⟩ := modify_spec fin
          (fun u => (u.kids fin)[r]?.bind fun l' => if l.length - 1 < l'.length then
            some (.node (u.vals fin) ((u.kids fin).set r (l'.eraseIdx (l.length - 1)))) else none) t p u
          (.node (u.vals fin) ((u.kids fin).set r m.dropLast)) hu
          (by simp only [hm, Option.bind_some, hdel]; rw [if_pos (by omega)])
        refine ⟨t', by simp only [Entry.apply]; rw [h1]; rfl, ?_⟩
        obtain ⟨w1, w2, w3⟩ := walk_setKids p hs hp r l.dropLast hs'
        set s' := s.setKids x r l.dropLast with hs'e
        have hkx : s'.kids x = (s.kids x).set r l.dropLast := by rw [hs'e]; simp [Heap.setKids]
        have hko : ∀ y, y ≠ x → s'.kids y = s.kids y := fun y hy => by rw [hs'e]; simp [Heap.setKids, Function.update_of_ne hy]
        intro q y hy
        by_cases hpq : p <+: q
        · obtain ⟨q', rfl⟩ := hpq
          cases q' with
          | nil =>
            rw [List.append_nil] at hy ⊢
            obtain rfl : x = y := by rw [w1] at hy; exact Option.some.inj hy
            refine ⟨u.vals fin, ((u.kids fin).set r m.dropLast).map List.length, ?_, by rw [huf]; exact hv, ?_⟩
            · have := h2 []
              rw [List.append_nil] at this
              rw [Tree.obs, this]; rfl
            · rw [hkx, List.map_set, List.map_set, hun, hlen]
              simp [hml]
          | cons z q' =>
            obtain ⟨r', i'⟩ := z
            have hsplit : p ++ (r', i') :: q' = (p ++ [(r', i')]) ++ q' := by simp
            have hyx : y ≠ x := by rintro rfl; exact hs'.not_below w1 (r', i') q' hy
            have hy' := hy
            rw [hsplit, Heap.walk_append] at hy'
            obtain ⟨c, hc, hcy⟩ := Option.bind_eq_some_iff.1 hy'
            rw [w3 c _ q' hc] at hcy
            have hc' := hc
            rw [Heap.walk_append, w1] at hc'
            simp only [Option.bind_some, Heap.walk] at hc'
            rw [hkx] at hc'
            have hgone : r' = r → i' < l.length - 1 := by
              rintro rfl
              rw [List.getElem?_set_self hrl] at hc'
              simp only [Option.bind_some] at hc'
              obtain ⟨c1, e1, _⟩ := Option.bind_eq_some_iff.1 hc'
              have := (List.getElem?_eq_some_iff.1 e1).1
              simpa using this
            have hold : s.walk root (p ++ (r', i') :: q') = some y := by
              rw [Heap.walk_append, hp]
              simp only [Option.bind_some, Heap.walk]
              by_cases hr : r' = r
              · subst hr
                have hi := hgone rfl
                rw [List.getElem?_set_self hrl] at hc'
                rw [hl]
                simp only [Option.bind_some] at hc' ⊢
                rw [List.getElem?_dropLast, if_pos hi] at hc'
                obtain ⟨c1, e1, e2⟩ := Option.bind_eq_some_iff.1 hc'
                rw [e1]
                obtain rfl : c1 = c := Option.some.inj e2
                exact hcy
              · rw [List.getElem?_set_ne (Ne.symm hr)] at hc'
                obtain ⟨l1, e1, e2⟩ := Option.bind_eq_some_iff.1 hc'
                obtain ⟨c1, e3, e4⟩ := Option.bind_eq_some_iff.1 e2
                rw [e1]
                simp only [Option.bind_some]
                rw [e3]
                obtain rfl : c1 = c := Option.some.inj e4
                exact hcy
            obtain ⟨f', n', ho', hv', hl'⟩ := hn _ y hold
            refine ⟨f', n', ?_, hv', by rw [hl', hko y hyx]⟩
            rw [← ho', Tree.obs, Tree.obs, h2, Tree.get_append, hu]
            simp only [Option.bind_some]
            rw [get_cons_of_kids fin u]
            simp only [kids_node]
            by_cases hr : r' = r
            · subst hr
              rw [List.getElem?_set_self hrm, hm]
              simp only [Option.bind_some]
              rw [List.getElem?_dropLast, if_pos (by rw [hml]; exact hgone rfl)]
            · rw [List.getElem?_set_ne (Ne.symm hr)]
        · have hqn : ∀ y r', q ≠ p ++ y :: r' := fun y r' e => hpq (by rw [e]; exact List.prefix_append _ _)
          rw [w2 q hqn] at hy
          obtain ⟨f', n', ho', hv', hl'⟩ := hn _ y hy
          have hyx : y ≠ x := by rintro rfl; exact hpq (by rw [hs _ _ _ hp hy]; exact List.prefix_refl _)
          exact ⟨f', n', by rw [h3 q hpq]; exact ho', hv', by rw [hl', hko y hyx]⟩
  | outside o f ks =>
    simp only [step, applyAll]
    refine ⟨t, rfl, fun q y hy => ?_⟩
    have hw := walk_congr (s := s) (s' := { vals := Function.update s.vals o f, kids := Function.update s.kids o ks }) (x := o)
      (fun z hz => by simp [Function.update_of_ne hz]) root q fun p _ _ _ => hg.1 p
    rw [hw] at hy
    have hyo : y ≠ o := by rintro rfl; exact hg.1 q hy
    simpa only [Function.update_of_ne hyo] using hn q y hy

theorem run_near (rec : Nat → Nat → Bool) (root : Nat) (fin : Heap V) (fresh : Nat → Prop) (s : Heap V) (ops : List (Op V)) (t : Tree V)
    (hg : AllGood rec root fresh s ops) (hs : s.Single root) (hfin : (run rec root s ops).1 = fin) (hn : Near fin s root t) :
    ∃ t', applyAll fin (run rec root s ops).2 t = some t' ∧ Near fin fin root t' := by
  induction ops generalizing fresh s t with
  | nil => obtain rfl : s = fin := hfin; exact ⟨t, rfl, hn⟩
  | cons op ops ih =>
    obtain ⟨h1, h2, h3⟩ := hg
    have hfin' : (run rec root (step rec root s op).1 ops).1 = fin := hfin
    obtain ⟨t1, e1, n1⟩ := step_near rec root fin fresh s op t h1 hs h2
      (fun x hx => by rw [← hfin']; exact run_kids rec root _ _ ops h3 x hx) hn
    obtain ⟨t2, e2, n2⟩ := ih _ _ t1 h3 h2 hfin' n1
    refine ⟨t2, ?_, n2⟩
    have happ : ∀ (a b : List Entry) (t : Tree V), applyAll fin (a ++ b) t = (applyAll fin a t).bind (applyAll fin b) := by
      intro a
      induction a with
      | nil => intro b t; rfl
      | cons e a ih =>
        intro b t
        simp only [List.cons_append, applyAll]
        cases e.apply fin t with
        | none => rfl
        | some t' => exact ih b t'
    simp only [run]
    rw [happ, e1]
    exact e2

theorem Near.none {fin s : Heap V} {a : Nat} {t : Tree V} (h : Near fin s a t) (q : Path) (hq : s.walk a q = none) :
    t.get fin q = none := by
  induction q generalizing a t with
  | nil => cases hq
  | cons y q ih =>
    obtain ⟨r, i⟩ := y
    obtain ⟨f, n, h1, _, h3⟩ := h [] a rfl
    have h3' : (t.kids fin).map List.length = (s.kids a).map List.length := by
      obtain ⟨u, hu, _, hn⟩ := obs_some h1
      obtain rfl : t = u := by simpa [Tree.get] using hu
      rw [hn, h3]
    have hlen := lengths_get h3' r
    simp only [Heap.walk] at hq
    simp only [Tree.get]
    cases hm : (t.kids fin)[r]? with
    | none => rfl
    | some m =>
      simp only [Option.bind_some]
      cases hc : m[i]? with
      | none => rfl
      | some c =>
        simp only [Option.bind_some]
        cases hl : (s.kids a)[r]? with
        | none => rw [hm, hl] at hlen; simp at hlen
        | some l =>
          rw [hm, hl] at hlen
          simp only [Option.map_some, Option.some.injEq] at hlen
          have hi : i < l.length := hlen ▸ (List.getElem?_eq_some_iff.1 hc).1
          rw [hl] at hq
          simp only [Option.bind_some, List.getElem?_eq_getElem hi] at hq
          refine ih (a := l[i]) (t := c) ?_ hq
          intro q' o ho
          obtain ⟨f', n', g1, g2, g3⟩ := h ((r, i) :: q') o (by
            simp only [Heap.walk, hl, Option.bind_some, List.getElem?_eq_getElem hi]; exact ho)
          refine ⟨f', n', ?_, g2, g3⟩
          rw [← g1, Tree.obs, Tree.obs]
          simp only [Tree.get, hm, hc, Option.bind_some]

/-- C113, the part that holds: record any object with objects in it to any depth, make any history of setting recordable properties,
appending objects and removing last objects anywhere in it, without changing the lists of an object that was inserted meanwhile (or of
what it contains), no object ever being at two places. Then applying the log to an object equal to the recorded one at the beginning
does not raise and makes it equal to the recorded one at the end.
(Missing: changes of the lists of inserted objects, for which it is false; the changes of C61's counterexamples.) -/
theorem C113_replay_partial (rec : Nat → Nat → Bool) (root : Nat) (s : Heap V) (ops : List (Op V)) (hs : s.Single root)
    (hg : AllGood rec root (fun _ => False) s ops) (t : Tree V) (ht : Same s root (run rec root s ops).1 t) :
    ∃ t', applyAll (run rec root s ops).1 (run rec root s ops).2 t = some t' ∧
      Same (run rec root s ops).1 root (run rec root s ops).1 t' := by
  set fin := (run rec root s ops).1 with hfin
  have hn : Near fin s root t := by
    intro q o ho
    obtain ⟨h1, h2⟩ := ht q
    rw [ho] at h1 h2
    obtain ⟨u, hu, hv⟩ := Option.map_eq_some_iff.1 h1
    rw [hu] at h2
    simp only [Option.map_some, Option.some.injEq] at h2
    refine ⟨u.vals fin, (u.kids fin).map List.length, by rw [Tree.obs, hu]; rfl, fun k => .inl (by rw [hv]), h2⟩
  obtain ⟨t', h1, h2⟩ := run_near rec root fin _ s ops t hg hs hfin.symm hn
  refine ⟨t', h1, fun q => ?_⟩
  cases hw : fin.walk root q with
  | none => rw [h2.none q hw]; exact ⟨rfl, rfl⟩
  | some o =>
    obtain ⟨f, n, g1, g2, g3⟩ := h2 q o hw
    obtain ⟨u, hu, hv, hl⟩ := obs_some g1
    rw [hu]
    refine ⟨?_, ?_⟩
    · simp only [Option.map_some, Option.some.injEq]
      rw [hv]
      funext k
      rcases g2 k with h | h <;> exact h
    · simp only [Option.map_some, Option.some.injEq]
      rw [hl, g3]

/-! ### A history with values, objects inside objects, an insertion, an object changed outside before it is inserted; and what fails -/

theorem single_of_place {s : Heap V} {root : Nat} (place : Nat → Path) (h0 : place root = [])
    (h : ∀ o r i c, ((s.kids o)[r]?.bind fun l => l[i]?) = some c → place c = place o ++ [(r, i)]) : s.Single root := by
  have key : ∀ (q : Path) (a o : Nat), s.walk a q = some o → place o = place a ++ q := by
    intro q
    induction q with
    | nil => intro a o ho; obtain rfl : a = o := by simpa [Heap.walk] using ho
             simp
    | cons y q ih =>
      obtain ⟨r, i⟩ := y
      intro a o ho
      simp only [Heap.walk] at ho
      obtain ⟨l, e1, e2⟩ := Option.bind_eq_some_iff.1 ho
      obtain ⟨c, e3, e4⟩ := Option.bind_eq_some_iff.1 e2
      have hc : ((s.kids a)[r]?.bind fun l => l[i]?) = some c := by rw [e1]; exact e3
      rw [ih c o e4, h a r i c hc]
      simp
  intro p q o hp hq
  have := (key p _ _ hp).symm.trans (key q _ _ hq)
  simpa [h0] using this

/-- A heap given by the lists of its objects; the value of object `o` is `o`. -/
def tableHeap (ks : List (List (List Nat))) : Heap Nat := ⟨fun o _ => o, fun o => ks.getD o []⟩

theorem tableHeap_setKids (ks : List (List (List Nat))) (o r : Nat) (l : List Nat) (ho : o < ks.length) :
    (tableHeap ks).setKids o r l = tableHeap (ks.set o ((ks.getD o []).set r l)) := by
  unfold tableHeap Heap.setKids
  congr 1
  funext x
  by_cases hx : x = o
  · subst hx
    simp [List.getD_eq_getElem?_getD, ho]
  · rw [Function.update_of_ne hx]
    simp [List.getD_eq_getElem?_getD, List.getElem?_set_ne (Ne.symm hx)]

/-- Check of a table: every contained object is where `place` says. -/
def tableOk (ks : List (List (List Nat))) (place : List Path) : Bool :=
  (List.range ks.length).all fun o => (List.range (ks.getD o []).length).all fun r =>
    (List.range ((ks.getD o []).getD r []).length).all fun i =>
      decide (place.getD (((ks.getD o []).getD r []).getD i 0) [] = place.getD o [] ++ [(r, i)])

theorem single_of_table (ks : List (List (List Nat))) (place : List Path) (h0 : place.getD 0 [] = []) (h : tableOk ks place = true) :
    (tableHeap ks).Single 0 := by
  refine single_of_place (fun o => place.getD o []) h0 fun o r i c hc => ?_
  obtain ⟨l, e1, e2⟩ := Option.bind_eq_some_iff.1 hc
  change (ks.getD o [])[r]? = some l at e1
  have ho : o < ks.length := by
    by_contra hlt
    rw [List.getD_eq_getElem?_getD, List.getElem?_eq_none (Nat.le_of_not_lt hlt)] at e1
    cases e1
  obtain ⟨hr, hr'⟩ := List.getElem?_eq_some_iff.1 e1
  have hl : (ks.getD o []).getD r [] = l := by rw [List.getD_eq_getElem?_getD, e1]; rfl
  obtain ⟨hi, hi'⟩ := List.getElem?_eq_some_iff.1 e2
  have hcc : ((ks.getD o []).getD r []).getD i 0 = c := by rw [hl, List.getD_eq_getElem?_getD, e2]; rfl
  have := List.all_eq_true.1 h o (List.mem_range.2 ho)
  have := List.all_eq_true.1 this r (List.mem_range.2 hr)
  have := List.all_eq_true.1 this i (List.mem_range.2 (by rw [hl]; exact hi))
  rw [hcc] at this
  exact of_decide_eq_true this

/-- An object equal to a recorded one, made of values, to depth `d`. -/
def Heap.unfold (s : Heap V) : Nat → Nat → Tree V
  | 0, o => .node (s.vals o) ((s.kids o).map fun _ => [])
  | d + 1, o => .node (s.vals o) ((s.kids o).map fun l => l.map (s.unfold d))

theorem unfold_same (s fin : Heap V) (rank : Nat → Nat) (h : ∀ o l c, l ∈ s.kids o → c ∈ l → rank c < rank o) (d o : Nat)
    (hd : rank o ≤ d) : Same s o fin (s.unfold d o) := by
  intro p
  induction p generalizing d o with
  | nil =>
    cases d with
    | zero =>
      have he : ∀ l ∈ s.kids o, l = [] := by
        intro l hl
        cases l with
        | nil => rfl
        | cons c l => have := h o _ c hl (List.mem_cons_self); omega
      refine ⟨rfl, ?_⟩
      simp only [Heap.unfold, Tree.get, Heap.walk, Option.map_some, kids_node, List.map_map, Option.some.injEq]
      apply List.map_congr_left
      intro l hl
      rw [he l hl]; rfl
    | succ d =>
      refine ⟨rfl, ?_⟩
      simp only [Heap.unfold, Tree.get, Heap.walk, Option.map_some, kids_node, List.map_map, Option.some.injEq]
      apply List.map_congr_left
      intro l hl
      simp
  | cons y p ih =>
    obtain ⟨r, i⟩ := y
    simp only [Heap.walk, Tree.get]
    cases hl : (s.kids o)[r]? with
    | none =>
      have : ((s.unfold d o).kids fin)[r]? = none := by
        cases d <;> simp only [Heap.unfold, kids_node, List.getElem?_map, hl, Option.map_none]
      rw [this]; exact ⟨rfl, rfl⟩
    | some l =>
      have hmem := List.mem_of_getElem? hl
      simp only [Option.bind_some]
      cases hc : l[i]? with
      | none =>
        have : (((s.unfold d o).kids fin)[r]?.bind fun l => l[i]?) = none := by
          cases d <;> simp only [Heap.unfold, kids_node, List.getElem?_map, hl, hc, Option.map_some, Option.bind_some, Option.map_none,
            List.getElem?_nil]
        cases hk : ((s.unfold d o).kids fin)[r]? with
        | none => exact ⟨rfl, rfl⟩
        | some m =>
          rw [hk] at this
          simp only [Option.bind_some] at this ⊢
          rw [this]; exact ⟨rfl, rfl⟩
      | some c =>
        have hr := h o l c hmem (List.mem_of_getElem? hc)
        cases d with
        | zero => omega
        | succ d =>
          simp only [Heap.unfold, kids_node, List.getElem?_map, hl, Option.map_some, Option.bind_some, hc]
          exact ih d c (by omega)

theorem table_unfold (ks : List (List (List Nat))) (fin : Heap Nat) (rank : List Nat) (d : Nat) (hd : rank.getD 0 0 ≤ d)
    (h : ((List.range ks.length).all fun o => (ks.getD o []).all fun l => l.all fun c => rank.getD c 0 < rank.getD o 0) = true) :
    Same (tableHeap ks) 0 fin ((tableHeap ks).unfold d 0) := by
  refine unfold_same _ _ (fun o => rank.getD o 0) (fun o l c hl hc => ?_) d 0 hd
  change l ∈ ks.getD o [] at hl
  have ho : o < ks.length := by
    by_contra hlt
    rw [List.getD_eq_getElem?_getD, List.getElem?_eq_none (by omega)] at hl
    cases hl
  have := List.all_eq_true.1 h o (List.mem_range.2 ho)
  have := List.all_eq_true.1 this l hl
  have := List.all_eq_true.1 this c hc
  exact of_decide_eq_true this

/-- A history without any condition on inserted objects. -/
def Plain (rec : Nat → Nat → Bool) (root : Nat) : Heap V → List (Op V) → Prop
  | _, [] => True
  | s, op :: ops => op.Good rec root (fun _ => False) s ∧ (step rec root s op).1.Single root ∧ Plain rec root (step rec root s op).1 ops

/-- The counterexample to C113: append an object, then append another one in it. The copy inserted when the log is applied has the other
one already, and it is inserted once more: the first object has it twice. -/
theorem C113_counterexample_twice :
    ∃ (s : Heap Nat) (ops : List (Op Nat)) (t : Tree Nat), s.Single 0 ∧ Plain (fun _ _ => true) 0 s ops ∧
      Same s 0 (run (fun _ _ => true) 0 s ops).1 t ∧
      ∃ t', applyAll (run (fun _ _ => true) 0 s ops).1 (run (fun _ _ => true) 0 s ops).2 t = some t' ∧
        (t'.get (run (fun _ _ => true) 0 s ops).1 [(0, 0)]).map (fun u => (u.kids (run (fun _ _ => true) 0 s ops).1).map List.length) =
          some [2] ∧
        ((run (fun _ _ => true) 0 s ops).1.walk 0 [(0, 0)]).map
          (fun o => ((run (fun _ _ => true) 0 s ops).1.kids o).map List.length) = some [1] := by
  have e1 : (tableHeap [[[]], [[]], [[]]]).setKids 0 0 [1] = tableHeap [[[1]], [[]], [[]]] := tableHeap_setKids _ 0 0 [1] (by decide)
  have e2 : (tableHeap [[[1]], [[]], [[]]]).setKids 1 0 [2] = tableHeap [[[1]], [[2]], [[]]] := tableHeap_setKids _ 1 0 [2] (by decide)
  refine ⟨tableHeap [[[]], [[]], [[]]], [.append [] 0 1, .append [(0, 0)] 0 2], (tableHeap [[[]], [[]], [[]]]).unfold 0 0,
    single_of_table _ [] (by decide) (by decide), ⟨fun _ _ h => h, ?_, fun _ _ h => h, ?_, trivial⟩,
    table_unfold _ _ [] 0 (by decide) (by decide), _, rfl, rfl, rfl⟩
  · show ((tableHeap [[[]], [[]], [[]]]).setKids 0 0 [1]).Single 0
    rw [e1]
    exact single_of_table _ [[], [(0, 0)]] (by decide) (by decide)
  · show (((tableHeap [[[]], [[]], [[]]]).setKids 0 0 [1]).setKids 1 0 [2]).Single 0
    rw [e1, e2]
    exact single_of_table _ [[], [(0, 0)], [(0, 0), (0, 0)]] (by decide) (by decide)

/-- The counterexample to C113: append an object that contains another one, then remove that one from it. The copy inserted when the log
is applied does not contain it, and removing it raises. -/
theorem C113_counterexample_raises :
    ∃ (s : Heap Nat) (ops : List (Op Nat)) (t : Tree Nat), s.Single 0 ∧ Plain (fun _ _ => true) 0 s ops ∧
      Same s 0 (run (fun _ _ => true) 0 s ops).1 t ∧
      applyAll (run (fun _ _ => true) 0 s ops).1 (run (fun _ _ => true) 0 s ops).2 t = none := by
  have e1 : (tableHeap [[[]], [[2]], [[]]]).setKids 0 0 [1] = tableHeap [[[1]], [[2]], [[]]] := tableHeap_setKids _ 0 0 [1] (by decide)
  have e2 : (tableHeap [[[1]], [[2]], [[]]]).setKids 1 0 [] = tableHeap [[[1]], [[]], [[]]] := tableHeap_setKids _ 1 0 [] (by decide)
  refine ⟨tableHeap [[[]], [[2]], [[]]], [.append [] 0 1, .removeLast [(0, 0)] 0], (tableHeap [[[]], [[2]], [[]]]).unfold 0 0,
    single_of_table _ [[], [], [(0, 0)]] (by decide) (by decide), ⟨fun _ _ h => h, ?_, fun _ _ h => h, ?_, trivial⟩,
    table_unfold _ _ [0, 1] 0 (by decide) (by decide), rfl⟩
  · show ((tableHeap [[[]], [[2]], [[]]]).setKids 0 0 [1]).Single 0
    rw [e1]
    exact single_of_table _ [[], [(0, 0)], [(0, 0), (0, 0)]] (by decide) (by decide)
  · show (((tableHeap [[[]], [[2]], [[]]]).setKids 0 0 [1]).setKids 1 0 []).Single 0
    rw [e1, e2]
    exact single_of_table _ [[], [(0, 0)]] (by decide) (by decide)

/-- A good history: in the object 1 inside the root append the object 3, which contains 4; set a value of 4 and of 1; remove the last
object of the root, 2. -/
def goodEx : Heap Nat := tableHeap [[[1, 2]], [[]], [[]], [[4]], [[]]]

def goodOps : List (Op Nat) := [.append [(0, 0)] 0 3, .set [(0, 0), (0, 0), (0, 0)] 0 40, .set [(0, 0)] 1 11, .removeLast [] 0]

example : (run (fun _ _ => true) 0 goodEx goodOps).2 =
    [.insert [(0, 0)] 0 0 3, .set [(0, 0), (0, 0), (0, 0)] 4 0, .set [(0, 0)] 1 1, .remove [] 0 1] := by decide

example : AllGood (fun _ _ => true) 0 (fun _ => False) goodEx goodOps := by
  have e1 : goodEx.setKids 1 0 [3] = tableHeap [[[1, 2]], [[3]], [[]], [[4]], [[]]] := tableHeap_setKids _ 1 0 [3] (by decide)
  have w : ∀ (s s' : Heap Nat), s.kids = s'.kids → s'.Single 0 → s.Single 0 := by
    intro s s' h hs
    have : ∀ q a, s.walk a q = s'.walk a q := by
      intro q
      induction q with
      | nil => intro a; rfl
      | cons y q ih =>
        obtain ⟨r, i⟩ := y
        intro a; simp only [Heap.walk]; rw [h]; congr 1; funext l; congr 1; funext c; exact ih c
    intro p q o hp hq
    rw [this] at hp hq
    exact hs p q o hp hq
  have s1 : (goodEx.setKids 1 0 [3]).Single 0 := by
    rw [e1]
    exact single_of_table _ [[], [(0, 0)], [(0, 1)], [(0, 0), (0, 0)], [(0, 0), (0, 0), (0, 0)]] (by decide) (by decide)
  have s2 : ((goodEx.setKids 1 0 [3]).setKids 0 0 [1]).Single 0 := by
    rw [e1, show (tableHeap [[[1, 2]], [[3]], [[]], [[4]], [[]]]).setKids 0 0 [1] = tableHeap [[[1]], [[3]], [[]], [[4]], [[]]] from
      tableHeap_setKids _ 0 0 [1] (by decide)]
    exact single_of_table _ [[], [(0, 0)], [], [(0, 0), (0, 0)], [(0, 0), (0, 0), (0, 0)]] (by decide) (by decide)
  refine ⟨fun _ _ h => h, s1, fun _ _ => rfl, w _ (goodEx.setKids 1 0 [3]) rfl s1, fun _ _ => rfl, w _ (goodEx.setKids 1 0 [3]) rfl s1, ?_, w _ ((goodEx.setKids 1 0 [3]).setKids 0 0 [1]) rfl s2, trivial⟩
  intro o ho hf
  obtain rfl : 0 = o := by simpa [Heap.walk] using ho
  rcases hf with hf | ⟨p, hp⟩
  · exact hf
  · -- the root is not in the inserted object
    have hin : (goodEx.setKids 1 0 [3]).walk 0 ([(0, 0), (0, 0)] ++ p) = some 0 := by
      rw [Heap.walk_append]
      show (goodEx.setKids 1 0 [3]).walk 3 p = some 0
      rw [walk_congr (s := goodEx) (x := 1) (fun o ho => by simp [Heap.setKids, Function.update_of_ne ho]), hp]
      rintro p' y r rfl hw
      match p', hw with
      | [], hw => simp [Heap.walk] at hw
      | [z], hw => obtain ⟨a, b⟩ := z; revert hw; match a, b with
        | 0, 0 => exact (by decide)
        | 0, b + 1 => exact fun h => by cases h
        | a + 1, b => exact fun h => by cases h
      | z :: z' :: p'', hw => obtain ⟨a, b⟩ := z; obtain ⟨a', b'⟩ := z'; revert hw; match a, b, a', b' with
        | 0, 0, 0, b' => exact fun h => by cases h
        | 0, 0, a' + 1, b' => exact fun h => by cases h
        | 0, b + 1, _, _ => exact fun h => by cases h
        | a + 1, b, _, _ => exact fun h => by cases h
    have := s1 _ [] 0 hin rfl
    simp at this

/-- What the log makes of an equal object: the copied object 4 has its value. -/
example : (applyAll (run (fun _ _ => true) 0 goodEx goodOps).1 (run (fun _ _ => true) 0 goodEx goodOps).2 (goodEx.unfold 1 0)).map (fun t =>
    ((t.get (run (fun _ _ => true) 0 goodEx goodOps).1 [(0, 0), (0, 0), (0, 0)]).map
      (fun u => u.vals (run (fun _ _ => true) 0 goodEx goodOps).1 0),
     (t.get (run (fun _ _ => true) 0 goodEx goodOps).1 [(0, 0)]).map (fun u => u.vals (run (fun _ _ => true) 0 goodEx goodOps).1 1),
     (t.get (run (fun _ _ => true) 0 goodEx goodOps).1 [(0, 1)]).isSome)) = some (some 40, some 11, false) := by decide

end Verif.Persist.RecorderTree
