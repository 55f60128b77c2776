import Verif.Py.Basic
import Mathlib.Logic.Function.Basic
import Mathlib.Tactic.Common

/-!
C122: property values that are mutable objects. Model of `PersistentProperty.set_value`, `json_value`, `read_from_dict` and `write_to_dict`
(`nion/utils/Persistence.py:46-94`) and of `PersistentPropertySpecial` (`copy_on_read`, lines 96-108) with a heap: values are numbers or
references to lists of values, and `copy.deepcopy` makes new lists. One property without converter, reader, writer and `make`.
Simplified: `deepcopy` raises beyond a depth `limit` (and so for lists that contain themselves, which Python can copy), and does not keep
sharing inside the copied object.
-/

namespace Verif.Persist.Isolation

inductive Val where
  | atom (n : Int)
  | ref (r : Nat)
  deriving DecidableEq

/-- The lists, and the next unused reference. -/
structure Heap where
  cells : Nat → List Val
  next : Nat

mutual
/-- What a value is, without references. -/
inductive Tree where
  | leaf (n : Int)
  | node (f : Forest)
inductive Forest where
  | nil
  | cons (t : Tree) (f : Forest)
end

deriving instance DecidableEq for Tree
deriving instance DecidableEq for Forest

def forestOf (f : Val → Option Tree) : List Val → Option Forest
  | [] => some .nil
  | v :: vs => (f v).bind fun t => (forestOf f vs).map (.cons t ·)

/-- The content of a value, if it is not deeper than the limit. -/
def treeOf (c : Nat → List Val) : Nat → Val → Option Tree
  | _, .atom n => some (.leaf n)
  | 0, .ref _ => none
  | k + 1, .ref r => (forestOf (treeOf c k) (c r)).map .node

mutual
/-- New lists with the content. -/
def alloc : Tree → Heap → Heap × Val
  | .leaf n, h => (h, .atom n)
  | .node f, h =>
    let r := allocs f h
    (⟨Function.update r.1.cells r.1.next r.2, r.1.next + 1⟩, .ref r.1.next)
def allocs : Forest → Heap → Heap × List Val
  | .nil, h => (h, [])
  | .cons t f, h =>
    let r := alloc t h
    let q := allocs f r.1
    (q.1, r.2 :: q.2)
end

/-- `copy.deepcopy`; `none`: it raises. -/
def deepcopy (limit : Nat) (h : Heap) (v : Val) : Option (Heap × Val) := (treeOf h.cells limit v).map fun t => alloc t h

/-- A property: `copy_on_read`, and whether there is a validator that returns the object it is given. -/
structure Cfg where
  copyOnRead : Bool
  keeps : Bool
  limit : Nat

/-- The heap, the values that the rest of the program holds, the value of the property. -/
structure St where
  heap : Heap
  known : List Val
  stored : Val

/-- What the program does. It reaches lists only through the values it holds. -/
inductive Op where
  /-- a new list of values it holds -/
  | new (js : List Nat)
  /-- changes a list it holds -/
  | write (i : Nat) (js : List Nat)
  /-- takes an element of a list it holds -/
  | look (i j : Nat)
  /-- `obj.x = v` -/
  | assign (i : Nat)
  /-- `obj.x` -/
  | read
  /-- `obj.write_to_dict()["x"]` -/
  | writeDict
  /-- `obj.read_from_dict({"x": v})` -/
  | readDict (i : Nat)
  deriving DecidableEq

/-- Lines 46-53. -/
def St.setValue (cfg : Cfg) (s : St) (v : Val) : Option St :=
  if cfg.keeps then some { s with stored := v }
  else (deepcopy cfg.limit s.heap v).map fun r => { s with heap := r.1, stored := r.2 }

/-- The values a program uses; `none` if it does not hold one of them. -/
def St.pick (s : St) : List Nat → Option (List Val)
  | [] => some []
  | j :: js => (s.known[j]?).bind fun v => (s.pick js).map (v :: ·)

/-- `none`: not possible, or it raises; nothing happens. -/
def St.step? (cfg : Cfg) (s : St) : Op → Option St
  | .new js => (s.pick js).map fun vs =>
      { s with heap := ⟨Function.update s.heap.cells s.heap.next vs, s.heap.next + 1⟩, known := s.known ++ [.ref s.heap.next] }
  | .write i js =>
    match s.known[i]? with
    | some (.ref r) => (s.pick js).map fun vs => { s with heap := { s.heap with cells := Function.update s.heap.cells r vs } }
    | _ => none
  | .look i j =>
    match s.known[i]? with
    | some (.ref r) => ((s.heap.cells r)[j]?).map fun v => { s with known := s.known ++ [v] }
    | _ => none
  | .assign i => (s.known[i]?).bind (s.setValue cfg)
  | .read =>
    if cfg.copyOnRead then (deepcopy cfg.limit s.heap s.stored).map fun r => { s with heap := r.1, known := s.known ++ [r.2] }
    else some { s with known := s.known ++ [s.stored] }
  | .writeDict =>
    -- lines 55-57, 88: `copy.deepcopy` of the value, and a second copy before if `copy_on_read`
    (deepcopy cfg.limit s.heap s.stored).map fun r => { s with heap := r.1, known := s.known ++ [r.2] }
  | .readDict i => (s.known[i]?).bind (s.setValue cfg)

def St.step (cfg : Cfg) (s : St) (op : Op) : St := (s.step? cfg op).getD s

def St.run (cfg : Cfg) (s : St) (ops : List Op) : St := ops.foldl (St.step cfg) s

/-! ### Specification -/

/-- What the property is, and what the program sees in a value. -/
def St.content (cfg : Cfg) (s : St) (v : Val) : Option Tree := treeOf s.heap.cells cfg.limit v

/-- The operation sets the property. -/
def Op.sets : Op → Bool
  | .assign _ => true
  | .readDict _ => true
  | _ => false

/-- The program changes one of its lists. -/
def Op.writes : Op → Bool
  | .write _ _ => true
  | _ => false

def Val.Below (n : Nat) : Val → Prop
  | .atom _ => True
  | .ref r => r < n

/-- No references to lists that do not exist. -/
structure St.Wf (s : St) : Prop where
  cells : ∀ r, r < s.heap.next → ∀ v ∈ s.heap.cells r, v.Below s.heap.next
  known : ∀ v ∈ s.known, v.Below s.heap.next
  stored : s.stored.Below s.heap.next

/-! ### Proof -/

mutual
def Tree.depth : Tree → Nat
  | .leaf _ => 0
  | .node f => f.depth + 1
def Forest.depth : Forest → Nat
  | .nil => 0
  | .cons t f => max t.depth f.depth
end

mutual
def Reads (c : Nat → List Val) : Val → Tree → Prop
  | .atom n, .leaf m => n = m
  | .ref r, .node f => ReadsAll c (c r) f
  | _, _ => False
def ReadsAll (c : Nat → List Val) : List Val → Forest → Prop
  | [], .nil => True
  | v :: vs, .cons t f => Reads c v t ∧ ReadsAll c vs f
  | _, _ => False
end

mutual
theorem reads_treeOf (c : Nat → List Val) : ∀ (t : Tree) (k : Nat) (v : Val), t.depth ≤ k → Reads c v t → treeOf c k v = some t
  | .leaf m, k, .atom n, _, h => by
    rw [Reads] at h
    subst h
    cases k <;> rfl
  | .leaf _, _, .ref _, _, h => by simp [Reads] at h
  | .node _, _, .atom _, _, h => by simp [Reads] at h
  | .node f, 0, .ref r, hd, h => by simp [Tree.depth] at hd
  | .node f, k + 1, .ref r, hd, h => by
    rw [Reads] at h
    rw [Tree.depth] at hd
    rw [treeOf, readsAll_forestOf c f k (c r) (by omega) h]; rfl
theorem readsAll_forestOf (c : Nat → List Val) : ∀ (f : Forest) (k : Nat) (vs : List Val), f.depth ≤ k → ReadsAll c vs f →
    forestOf (treeOf c k) vs = some f
  | .nil, _, [], _, _ => rfl
  | .nil, _, _ :: _, _, h => by simp [ReadsAll] at h
  | .cons _ _, _, [], _, h => by simp [ReadsAll] at h
  | .cons t f, k, v :: vs, hd, h => by
    rw [ReadsAll] at h
    rw [Forest.depth] at hd
    rw [forestOf, reads_treeOf c t k v (by omega) h.1, Option.bind_some, readsAll_forestOf c f k vs (by omega) h.2]; rfl
end

theorem treeOf_reads (c : Nat → List Val) : ∀ (k : Nat) (v : Val) (t : Tree), treeOf c k v = some t → Reads c v t ∧ t.depth ≤ k := by
  intro k
  induction k with
  | zero =>
    intro v t h
    cases v with
    | atom n => rw [treeOf] at h; cases h; simp [Reads, Tree.depth]
    | ref r => rw [treeOf] at h; cases h
  | succ k ih =>
    have all : ∀ (vs : List Val) (f : Forest), forestOf (treeOf c k) vs = some f → ReadsAll c vs f ∧ f.depth ≤ k := by
      intro vs
      induction vs with
      | nil => intro f h; rw [forestOf] at h; cases h; simp [ReadsAll, Forest.depth]
      | cons v vs ih2 =>
        intro f h
        rw [forestOf] at h
        obtain ⟨t, ht, h⟩ := Option.bind_eq_some_iff.1 h
        obtain ⟨f', hf, rfl⟩ := Option.map_eq_some_iff.1 h
        have h1 := ih v t ht
        have h2 := ih2 f' hf
        rw [ReadsAll, Forest.depth]
        exact ⟨⟨h1.1, h2.1⟩, by omega⟩
    intro v t h
    cases v with
    | atom n => rw [treeOf] at h; cases h; simp [Reads, Tree.depth]
    | ref r =>
      rw [treeOf] at h
      obtain ⟨f, hf, rfl⟩ := Option.map_eq_some_iff.1 h
      have := all _ _ hf
      rw [Reads, Tree.depth]
      exact ⟨this.1, by omega⟩

/-- A value whose references satisfy `P`. -/
def Val.In (P : Nat → Prop) : Val → Prop
  | .atom _ => True
  | .ref r => P r

theorem Val.In.imp {P Q : Nat → Prop} (h : ∀ r, P r → Q r) : ∀ {v : Val}, v.In P → v.In Q
  | .atom _, _ => trivial
  | .ref r, hv => h r hv

mutual
/-- The content depends on the lists that can be reached only. -/
theorem Reads.frame {c c' : Nat → List Val} {P : Nat → Prop} (hc : ∀ r, P r → c' r = c r) (hp : ∀ r, P r → ∀ v ∈ c r, v.In P) :
    ∀ (t : Tree) (v : Val), v.In P → Reads c v t → Reads c' v t
  | .leaf _, .atom _, _, h => by rw [Reads] at *; exact h
  | .leaf _, .ref _, _, h => by simp [Reads] at h
  | .node _, .atom _, _, h => by simp [Reads] at h
  | .node f, .ref r, hv, h => by
    rw [Reads] at *
    rw [hc r hv]
    exact ReadsAll.frame hc hp f (c r) (hp r hv) h
theorem ReadsAll.frame {c c' : Nat → List Val} {P : Nat → Prop} (hc : ∀ r, P r → c' r = c r) (hp : ∀ r, P r → ∀ v ∈ c r, v.In P) :
    ∀ (f : Forest) (vs : List Val), (∀ v ∈ vs, v.In P) → ReadsAll c vs f → ReadsAll c' vs f
  | .nil, [], _, _ => by simp [ReadsAll]
  | .nil, _ :: _, _, h => by simp [ReadsAll] at h
  | .cons _ _, [], _, h => by simp [ReadsAll] at h
  | .cons t f, v :: vs, hv, h => by
    rw [ReadsAll] at *
    exact ⟨Reads.frame hc hp t v (hv v (by simp)) h.1, ReadsAll.frame hc hp f vs (fun w hw => hv w (by simp [hw])) h.2⟩
end

/-- What a copy does to the heap: old lists stay, new ones refer to new ones only. -/
structure Grows (h h' : Heap) : Prop where
  le : h.next ≤ h'.next
  old : ∀ r, r < h.next → h'.cells r = h.cells r
  new : ∀ r, h.next ≤ r → r < h'.next → ∀ v ∈ h'.cells r, v.In fun q => h.next ≤ q ∧ q < h'.next

theorem Grows.refl (h : Heap) : Grows h h := ⟨le_refl _, fun _ _ => rfl, fun _ h1 h2 => by omega⟩

mutual
theorem alloc_spec : ∀ (t : Tree) (h : Heap),
    Grows h (alloc t h).1 ∧ ((alloc t h).2.In fun q => h.next ≤ q ∧ q < (alloc t h).1.next) ∧ Reads (alloc t h).1.cells (alloc t h).2 t
  | .leaf n, h => ⟨.refl h, trivial, by simp [alloc, Reads]⟩
  | .node f, h => by
    obtain ⟨g, hv, hr⟩ := allocs_spec f h
    rw [alloc]
    have hlt := g.le
    refine ⟨⟨?_, ?_, ?_⟩, ?_, ?_⟩
    · simp only; omega
    · intro r hr'
      simp only
      rw [Function.update_of_ne (by omega), g.old r hr']
    · intro r h1 h2 v hv'
      simp only at h2 hv' ⊢
      by_cases e : r = (allocs f h).1.next
      · subst e
        rw [Function.update_self] at hv'
        exact (hv v hv').imp fun q hq => ⟨hq.1, by omega⟩
      · rw [Function.update_of_ne e] at hv'
        exact (g.new r h1 (by omega) v hv').imp fun q hq => ⟨hq.1, by omega⟩
    · simp only [Val.In]; omega
    · rw [Reads]
      simp only
      rw [Function.update_self]
      refine ReadsAll.frame (P := fun q => h.next ≤ q ∧ q < (allocs f h).1.next) ?_ ?_ f _ hv hr
      · intro r hr'
        rw [Function.update_of_ne (by omega)]
      · intro r hr' v hv'
        exact g.new r hr'.1 hr'.2 v hv'
theorem allocs_spec : ∀ (f : Forest) (h : Heap),
    Grows h (allocs f h).1 ∧ (∀ v ∈ (allocs f h).2, v.In fun q => h.next ≤ q ∧ q < (allocs f h).1.next) ∧
      ReadsAll (allocs f h).1.cells (allocs f h).2 f
  | .nil, h => ⟨.refl h, by simp [allocs], by simp [allocs, ReadsAll]⟩
  | .cons t f, h => by
    obtain ⟨g1, v1, r1⟩ := alloc_spec t h
    obtain ⟨g2, v2, r2⟩ := allocs_spec f (alloc t h).1
    rw [allocs]
    simp only
    have l1 := g1.le
    have l2 := g2.le
    refine ⟨⟨by omega, ?_, ?_⟩, ?_, ?_⟩
    · intro r hr
      rw [g2.old r (by omega), g1.old r hr]
    · intro r h1 h2 v hv
      by_cases hlt : r < (alloc t h).1.next
      · rw [g2.old r hlt] at hv
        exact (g1.new r h1 hlt v hv).imp fun q hq => ⟨hq.1, by omega⟩
      · exact (g2.new r (by omega) h2 v hv).imp fun q hq => ⟨by omega, hq.2⟩
    · intro v hv
      rcases List.mem_cons.1 hv with rfl | hv
      · exact v1.imp fun q hq => ⟨hq.1, by omega⟩
      · exact (v2 v hv).imp fun q hq => ⟨by omega, hq.2⟩
    · rw [ReadsAll]
      refine ⟨Reads.frame (P := fun q => h.next ≤ q ∧ q < (alloc t h).1.next) ?_ ?_ t _ v1 r1, r2⟩
      · intro r hr; exact g2.old r hr.2
      · intro r hr v hv; exact g1.new r hr.1 hr.2 v hv
end

theorem deepcopy_spec {limit : Nat} {h h' : Heap} {v w : Val} (hd : deepcopy limit h v = some (h', w)) :
    Grows h h' ∧ (w.In fun q => h.next ≤ q ∧ q < h'.next) ∧ treeOf h'.cells limit w = treeOf h.cells limit v := by
  obtain ⟨t, ht, he⟩ := Option.map_eq_some_iff.1 hd
  obtain ⟨a, b, c⟩ := alloc_spec t h
  rw [he] at a b c
  refine ⟨a, b, ?_⟩
  rw [ht]
  exact reads_treeOf _ t limit w (treeOf_reads _ _ _ _ ht).2 c

/-- The values the program holds and those of the property are apart: `o` are the lists of the program. -/
structure Apart (s : St) (o : Nat → Prop) : Prop where
  known : ∀ v ∈ s.known, v.In fun r => o r ∧ r < s.heap.next
  mine : ∀ r, o r → r < s.heap.next → ∀ v ∈ s.heap.cells r, v.In fun q => o q ∧ q < s.heap.next
  stored : s.stored.In fun r => ¬ o r ∧ r < s.heap.next
  its : ∀ r, ¬ o r → r < s.heap.next → ∀ v ∈ s.heap.cells r, v.In fun q => ¬ o q ∧ q < s.heap.next

theorem St.pick_mem {s : St} {P : Val → Prop} (hk : ∀ v ∈ s.known, P v) : ∀ {js : List Nat} {vs : List Val}, s.pick js = some vs → ∀ v ∈ vs, P v
  | [], vs, h => by rw [St.pick] at h; cases h; simp
  | j :: js, vs, h => by
    rw [St.pick] at h
    obtain ⟨v, hv, h⟩ := Option.bind_eq_some_iff.1 h
    obtain ⟨ws, hw, rfl⟩ := Option.map_eq_some_iff.1 h
    intro x hx
    rcases List.mem_cons.1 hx with rfl | hx
    · exact hk _ (List.mem_of_getElem? hv)
    · exact St.pick_mem hk hw x hx

/-- A copy for the program. -/
theorem Apart.give {s : St} {o : Nat → Prop} (h : Apart s o) {h' : Heap} {w : Val} (g : Grows s.heap h')
    (hw : w.In fun q => s.heap.next ≤ q ∧ q < h'.next) :
    Apart { s with heap := h', known := s.known ++ [w] } (fun r => o r ∨ s.heap.next ≤ r) := by
  have hl := g.le
  refine ⟨?_, ?_, ?_, ?_⟩
  · intro v hv
    rcases List.mem_append.1 hv with hv | hv
    · exact (h.known v hv).imp fun r hr => ⟨.inl hr.1, by simp only; omega⟩
    · rw [List.mem_singleton] at hv
      subst hv
      exact hw.imp fun r hr => ⟨.inr hr.1, hr.2⟩
  · intro r hr hlt v hv
    simp only at hv hlt ⊢
    by_cases hlt' : r < s.heap.next
    · rw [g.old r hlt'] at hv
      rcases hr with hr | hr
      · exact (h.mine r hr hlt' v hv).imp fun q hq => ⟨.inl hq.1, by omega⟩
      · omega
    · exact (g.new r (by omega) hlt v hv).imp fun q hq => ⟨.inr hq.1, hq.2⟩
  · exact h.stored.imp fun r hr => ⟨by push Not; exact ⟨hr.1, hr.2⟩, by simp only; omega⟩
  · intro r hr hlt v hv
    push Not at hr
    simp only at hv ⊢
    rw [g.old r hr.2] at hv
    exact (h.its r hr.1 hr.2 v hv).imp fun q hq => ⟨by push Not; exact hq, by omega⟩

/-- The operations of the program that do not set the property. -/
theorem Apart.step {cfg : Cfg} {s : St} {o : Nat → Prop} (h : Apart s o) (op : Op) (hs : op.sets = false)
    (hr : op = .read → cfg.copyOnRead = true) :
    ∃ o', Apart (s.step cfg op) o' ∧ (s.step cfg op).stored = s.stored ∧
      ∀ r, ¬ o r → r < s.heap.next → (s.step cfg op).heap.cells r = s.heap.cells r := by
  unfold St.step
  cases hop : s.step? cfg op with
  | none => exact ⟨o, h, rfl, fun _ _ _ => rfl⟩
  | some s' =>
    rw [Option.getD_some]
    cases op with
    | assign i => cases hs
    | readDict i => cases hs
    | new js =>
      obtain ⟨vs, hvs, rfl⟩ := Option.map_eq_some_iff.1 hop
      have hin := St.pick_mem (P := fun v => v.In fun r => o r ∧ r < s.heap.next) h.known hvs
      refine ⟨fun r => o r ∨ s.heap.next ≤ r, ⟨?_, ?_, ?_, ?_⟩, rfl, ?_⟩
      · intro v hv
        rcases List.mem_append.1 hv with hv | hv
        · exact (h.known v hv).imp fun r hr => ⟨.inl hr.1, by simp only; omega⟩
        · rw [List.mem_singleton] at hv
          subst hv
          exact ⟨.inr (le_refl _), by simp⟩
      · intro r hr' hlt v hv
        simp only at hv hlt ⊢
        by_cases e : r = s.heap.next
        · subst e
          rw [Function.update_self] at hv
          exact (hin v hv).imp fun q hq => ⟨.inl hq.1, by omega⟩
        · rw [Function.update_of_ne e] at hv
          rcases hr' with hr' | hr'
          · exact (h.mine r hr' (by omega) v hv).imp fun q hq => ⟨.inl hq.1, by omega⟩
          · omega
      · exact h.stored.imp fun r hr => ⟨by push Not; exact hr, by simp only; omega⟩
      · intro r hr' hlt v hv
        push Not at hr'
        simp only at hv ⊢
        rw [Function.update_of_ne (by omega)] at hv
        exact (h.its r hr'.1 hr'.2 v hv).imp fun q hq => ⟨by push Not; exact hq, by omega⟩
      · intro r _ hlt
        simp only
        rw [Function.update_of_ne (by omega)]
    | write i js =>
      simp only [St.step?] at hop
      split at hop
      · rename_i r hi
        obtain ⟨vs, hvs, rfl⟩ := Option.map_eq_some_iff.1 hop
        have hin := St.pick_mem (P := fun v => v.In fun r => o r ∧ r < s.heap.next) h.known hvs
        have hor : o r ∧ r < s.heap.next := h.known _ (List.mem_of_getElem? hi)
        refine ⟨o, ⟨h.known, ?_, h.stored, ?_⟩, rfl, ?_⟩
        · intro q hq hlt v hv
          simp only at hv hlt ⊢
          by_cases e : q = r
          · subst e
            rw [Function.update_self] at hv
            exact hin v hv
          · rw [Function.update_of_ne e] at hv
            exact h.mine q hq hlt v hv
        · intro q hq hlt v hv
          simp only at hv hlt ⊢
          rw [Function.update_of_ne (by rintro rfl; exact hq hor.1)] at hv
          exact h.its q hq hlt v hv
        · intro q hq _
          simp only
          rw [Function.update_of_ne (by rintro rfl; exact hq hor.1)]
      · cases hop
    | look i j =>
      simp only [St.step?] at hop
      split at hop
      · rename_i r hi
        obtain ⟨v, hv, rfl⟩ := Option.map_eq_some_iff.1 hop
        have hor : o r ∧ r < s.heap.next := h.known _ (List.mem_of_getElem? hi)
        refine ⟨o, ⟨?_, h.mine, h.stored, h.its⟩, rfl, fun _ _ _ => rfl⟩
        intro w hw
        rcases List.mem_append.1 hw with hw | hw
        · exact h.known w hw
        · rw [List.mem_singleton] at hw
          subst hw
          exact h.mine r hor.1 hor.2 w (List.mem_of_getElem? hv)
      · cases hop
    | read =>
      simp only [St.step?] at hop
      rw [if_pos (hr rfl)] at hop
      obtain ⟨⟨h', w⟩, hd, rfl⟩ := Option.map_eq_some_iff.1 hop
      obtain ⟨g, hw, _⟩ := deepcopy_spec hd
      exact ⟨_, h.give g hw, rfl, fun r _ hlt => g.old r hlt⟩
    | writeDict =>
      simp only [St.step?] at hop
      obtain ⟨⟨h', w⟩, hd, rfl⟩ := Option.map_eq_some_iff.1 hop
      obtain ⟨g, hw, _⟩ := deepcopy_spec hd
      exact ⟨_, h.give g hw, rfl, fun r _ hlt => g.old r hlt⟩

theorem Apart.run {cfg : Cfg} : ∀ (ops : List Op) {s : St} {o : Nat → Prop}, Apart s o → (∀ op ∈ ops, op.sets = false) →
    (cfg.copyOnRead = true ∨ .read ∉ ops) → ∀ t, s.content cfg s.stored = some t → (s.run cfg ops).content cfg (s.run cfg ops).stored = some t
  | [], _, _, _, _, _, _, ht => ht
  | op :: ops, s, o, h, hs, hr, t, ht => by
    have hr' : op = .read → cfg.copyOnRead = true := by
      rintro rfl
      rcases hr with hr | hr
      · exact hr
      · simp at hr
    obtain ⟨o', h', e1, e2⟩ := h.step op (hs op (by simp)) hr'
    have h1 := treeOf_reads _ _ _ _ ht
    refine Apart.run ops h' (fun q hq => hs q (by simp [hq])) (hr.imp_right fun h2 h3 => h2 (by simp [h3])) t ?_
    rw [St.content, e1]
    refine reads_treeOf _ t _ _ h1.2 ?_
    refine Reads.frame (P := fun r => ¬ o r ∧ r < s.heap.next) (fun r hr => e2 r hr.1 hr.2) ?_ t _ h.stored h1.1
    exact fun r hr v hv => h.its r hr.1 hr.2 v hv

theorem Val.Below.in {n : Nat} : ∀ {v : Val}, v.Below n → v.In (· < n)
  | .atom _, _ => trivial
  | .ref _, h => h

/-- After an assignment with a copy the values are apart, whatever they were before. -/
theorem St.Wf.apart {cfg : Cfg} {s s' : St} (h : s.Wf) (hk : cfg.keeps = false) {v : Val} (hset : s.setValue cfg v = some s') :
    Apart s' (· < s.heap.next) ∧ s'.content cfg s'.stored = s.content cfg v := by
  unfold St.setValue at hset
  rw [hk] at hset
  simp only [Bool.false_eq_true, if_false] at hset
  obtain ⟨⟨h', w⟩, hd, rfl⟩ := Option.map_eq_some_iff.1 hset
  obtain ⟨g, hw, ht⟩ := deepcopy_spec hd
  have hl := g.le
  refine ⟨⟨?_, ?_, ?_, ?_⟩, ht⟩
  · intro x hx
    exact (h.known x hx).in.imp fun r hr => ⟨hr, by simp only; omega⟩
  · intro r hr _ x hx
    simp only at hx ⊢
    rw [g.old r hr] at hx
    exact (h.cells r hr x hx).in.imp fun q hq => ⟨hq, by omega⟩
  · exact hw.imp fun r hr => ⟨by omega, hr.2⟩
  · intro r hr hlt x hx
    exact (g.new r (by omega) hlt x hx).imp fun q hq => ⟨by omega, hq.2⟩

/-- C122: after an assignment (or reading a dict) the property is what the value was at that moment, whatever the program does afterwards
with the object it assigned and with all other objects it holds or gets from the property, as long as it does not set the property again
and, without `copy_on_read`, does not take the object out by reading it.
(Partial: for validators that return the object they are given, and for objects taken out without `copy_on_read`, it is false.) -/
theorem C122_assigned_partial (cfg : Cfg) (s : St) (h : s.Wf) (hk : cfg.keeps = false) (i : Nat) (op : Op) (hop : op = .assign i ∨ op = .readDict i)
    (s' : St) (hs : s.step? cfg op = some s') (ops : List Op) (hset : ∀ q ∈ ops, q.sets = false) (hr : cfg.copyOnRead = true ∨ .read ∉ ops) :
    ∃ v, s.known[i]? = some v ∧ (s'.run cfg ops).content cfg (s'.run cfg ops).stored = s.content cfg v ∧ s.content cfg v ≠ none := by
  have hb : (s.known[i]?).bind (s.setValue cfg) = some s' := by rcases hop with rfl | rfl <;> exact hs
  obtain ⟨v, hv, hb⟩ := Option.bind_eq_some_iff.1 hb
  obtain ⟨ha, hc⟩ := h.apart hk hb
  have hne : s.content cfg v ≠ none := by
    intro hn
    unfold St.setValue deepcopy at hb
    rw [hk] at hb
    unfold St.content at hn
    rw [hn] at hb
    simp at hb
  refine ⟨v, hv, ?_, hne⟩
  obtain ⟨t, ht⟩ := Option.ne_none_iff_exists'.1 hne
  rw [ht] at hc ⊢
  exact Apart.run ops ha hset hr t hc

/-- C122: what the program holds (for instance a dict written before) is not changed by setting, reading or writing the property. -/
theorem C122_known (cfg : Cfg) (s : St) (h : s.Wf) (op : Op) (hop : op.writes = false) (v : Val) (hv : v ∈ s.known) (t : Tree)
    (ht : s.content cfg v = some t) : v ∈ (s.step cfg op).known ∧ (s.step cfg op).content cfg v = some t := by
  have h1 := treeOf_reads _ _ _ _ ht
  have key : ∀ s' : St, s.known <+: s'.known → (∀ r, r < s.heap.next → s'.heap.cells r = s.heap.cells r) →
      v ∈ s'.known ∧ s'.content cfg v = some t := by
    intro s' hp hc
    refine ⟨hp.subset hv, reads_treeOf _ t _ _ h1.2 ?_⟩
    refine Reads.frame (P := (· < s.heap.next)) hc ?_ t _ (h.known v hv).in h1.1
    exact fun r hr w hw => (h.cells r hr w hw).in
  have hset : ∀ w s', s.setValue cfg w = some s' → v ∈ s'.known ∧ s'.content cfg v = some t := by
    intro w s' hs
    unfold St.setValue at hs
    split at hs
    · cases hs; exact key _ (List.prefix_rfl) fun _ _ => rfl
    · obtain ⟨⟨h', x⟩, hd, rfl⟩ := Option.map_eq_some_iff.1 hs
      exact key _ (List.prefix_rfl) (deepcopy_spec hd).1.old
  unfold St.step
  cases hs : s.step? cfg op with
  | none => exact ⟨hv, ht⟩
  | some s' =>
    rw [Option.getD_some]
    cases op with
    | write i js => cases hop
    | new js =>
      obtain ⟨vs, hvs, rfl⟩ := Option.map_eq_some_iff.1 hs
      refine key _ (List.prefix_append _ _) fun r hr => ?_
      simp only
      rw [Function.update_of_ne (by omega)]
    | look i j =>
      simp only [St.step?] at hs
      split at hs
      · obtain ⟨w, hw, rfl⟩ := Option.map_eq_some_iff.1 hs
        exact key _ (List.prefix_append _ _) fun _ _ => rfl
      · cases hs
    | assign i =>
      obtain ⟨w, _, hb⟩ := Option.bind_eq_some_iff.1 hs
      exact hset w s' hb
    | readDict i =>
      obtain ⟨w, _, hb⟩ := Option.bind_eq_some_iff.1 hs
      exact hset w s' hb
    | read =>
      simp only [St.step?] at hs
      split at hs
      · obtain ⟨⟨h', x⟩, hd, rfl⟩ := Option.map_eq_some_iff.1 hs
        exact key _ (List.prefix_append _ _) (deepcopy_spec hd).1.old
      · cases hs
        exact key _ (List.prefix_append _ _) fun _ _ => rfl
    | writeDict =>
      simp only [St.step?] at hs
      obtain ⟨⟨h', x⟩, hd, rfl⟩ := Option.map_eq_some_iff.1 hs
      exact key _ (List.prefix_append _ _) (deepcopy_spec hd).1.old

/-! ### Reachable states -/

theorem Val.In.below {n : Nat} {P : Nat → Prop} (h : ∀ r, P r → r < n) : ∀ {v : Val}, v.In P → v.Below n
  | .atom _, _ => trivial
  | .ref r, hv => h r hv

theorem Val.Below.mono {n m : Nat} (h : n ≤ m) : ∀ {v : Val}, v.Below n → v.Below m
  | .atom _, _ => trivial
  | .ref _, hv => lt_of_lt_of_le hv h

/-- All states a program reaches are as the theorems ask for. -/
theorem St.Wf.step {cfg : Cfg} {s : St} (h : s.Wf) (op : Op) : (s.step cfg op).Wf := by
  have cells : ∀ {h' : Heap}, Grows s.heap h' → ∀ r, r < h'.next → ∀ v ∈ h'.cells r, v.Below h'.next := by
    intro h' g r hr v hv
    by_cases hlt : r < s.heap.next
    · rw [g.old r hlt] at hv
      exact (h.cells r hlt v hv).mono g.le
    · exact (g.new r (by omega) hr v hv).below fun q hq => hq.2
  have hset : ∀ (i : Nat) (s' : St), (s.known[i]?).bind (s.setValue cfg) = some s' → s'.Wf := by
    intro i s' hb
    obtain ⟨v, hv, hb⟩ := Option.bind_eq_some_iff.1 hb
    unfold St.setValue at hb
    split at hb
    · cases hb
      exact ⟨h.cells, h.known, h.known v (List.mem_of_getElem? hv)⟩
    · obtain ⟨⟨h', w⟩, hd, rfl⟩ := Option.map_eq_some_iff.1 hb
      obtain ⟨g, hw, _⟩ := deepcopy_spec hd
      exact ⟨cells g, fun x hx => (h.known x hx).mono g.le, hw.below fun q hq => hq.2⟩
  have hgive : ∀ s', ((deepcopy cfg.limit s.heap s.stored).map fun r => { s with heap := r.1, known := s.known ++ [r.2] }) = some s' → s'.Wf := by
    intro s' hb
    obtain ⟨⟨h', w⟩, hd, rfl⟩ := Option.map_eq_some_iff.1 hb
    obtain ⟨g, hw, _⟩ := deepcopy_spec hd
    refine ⟨cells g, fun x hx => ?_, h.stored.mono g.le⟩
    rcases List.mem_append.1 hx with hx | hx
    · exact (h.known x hx).mono g.le
    · rw [List.mem_singleton] at hx
      subst hx
      exact hw.below fun q hq => hq.2
  unfold St.step
  cases hs : s.step? cfg op with
  | none => exact h
  | some s' =>
    rw [Option.getD_some]
    cases op with
    | new js =>
      obtain ⟨vs, hvs, rfl⟩ := Option.map_eq_some_iff.1 hs
      have hin := St.pick_mem h.known hvs
      refine ⟨?_, ?_, h.stored.mono (by simp)⟩
      · intro r hr v hv
        simp only at hr hv ⊢
        by_cases e : r = s.heap.next
        · subst e
          rw [Function.update_self] at hv
          exact (hin v hv).mono (by omega)
        · rw [Function.update_of_ne e] at hv
          exact (h.cells r (by omega) v hv).mono (by omega)
      · intro v hv
        rcases List.mem_append.1 hv with hv | hv
        · exact (h.known v hv).mono (by simp)
        · rw [List.mem_singleton] at hv
          subst hv
          simp [Val.Below]
    | write i js =>
      simp only [St.step?] at hs
      split at hs
      · rename_i r hi
        obtain ⟨vs, hvs, rfl⟩ := Option.map_eq_some_iff.1 hs
        have hin := St.pick_mem h.known hvs
        refine ⟨?_, h.known, h.stored⟩
        intro q hq v hv
        simp only at hq hv ⊢
        by_cases e : q = r
        · subst e
          rw [Function.update_self] at hv
          exact hin v hv
        · rw [Function.update_of_ne e] at hv
          exact h.cells q hq v hv
      · cases hs
    | look i j =>
      simp only [St.step?] at hs
      split at hs
      · rename_i r hi
        obtain ⟨v, hv, rfl⟩ := Option.map_eq_some_iff.1 hs
        have hr : r < s.heap.next := h.known _ (List.mem_of_getElem? hi)
        refine ⟨h.cells, ?_, h.stored⟩
        intro w hw
        rcases List.mem_append.1 hw with hw | hw
        · exact h.known w hw
        · rw [List.mem_singleton] at hw
          subst hw
          exact h.cells r hr w (List.mem_of_getElem? hv)
      · cases hs
    | assign i => exact hset i s' hs
    | readDict i => exact hset i s' hs
    | read =>
      simp only [St.step?] at hs
      split at hs
      · exact hgive s' hs
      · cases hs
        refine ⟨h.cells, fun x hx => ?_, h.stored⟩
        rcases List.mem_append.1 hx with hx | hx
        · exact h.known x hx
        · rw [List.mem_singleton] at hx
          subst hx
          exact h.stored
    | writeDict => exact hgive s' hs

/-- A program that holds a number, and a property that is a number. -/
def St.start (n m : Int) : St := ⟨⟨fun _ => [], 0⟩, [.atom n], .atom m⟩

theorem C122_reachable (cfg : Cfg) (n m : Int) (ops : List Op) : ((St.start n m).run cfg ops).Wf := by
  have h0 : (St.start n m).Wf := ⟨fun r hr => absurd hr (Nat.not_lt_zero r), by simp [St.start, Val.Below], trivial⟩
  have : ∀ (ops : List Op) (s : St), s.Wf → (s.run cfg ops).Wf := by
    intro ops
    induction ops with
    | nil => exact fun s h => h
    | cons op ops ih => exact fun s h => ih _ (h.step op)
  exact this ops _ h0

/-! ### Cases -/

/-- `a = [5]; obj.x = [a]; a.append(5)` with a nested list; and the same through the object that was read. -/
def nested : List Op := [.new [0], .new [1]]

/-- C122 is false: with a validator that returns its argument, changing the object that was assigned changes the property; without
`copy_on_read`, changing (a part of) the object that was read does. -/
theorem C122_counterexample :
    (let cfg : Cfg := ⟨false, true, 9⟩
     let s := (St.start 5 0).run cfg (nested ++ [.assign 2])
     let t := s.run cfg [.write 1 [0, 0]]
     s.content cfg s.stored = some (.node (.cons (.node (.cons (.leaf 5) .nil)) .nil)) ∧
     t.content cfg t.stored = some (.node (.cons (.node (.cons (.leaf 5) (.cons (.leaf 5) .nil))) .nil))) ∧
    (let cfg : Cfg := ⟨false, false, 9⟩
     let s := (St.start 5 0).run cfg (nested ++ [.assign 2])
     let t := s.run cfg [.read, .look 3 0, .write 4 []]
     s.content cfg s.stored = some (.node (.cons (.node (.cons (.leaf 5) .nil)) .nil)) ∧
     t.content cfg t.stored = some (.node (.cons (.node .nil) .nil))) := by decide

/-- A property whose default (lines 33, 99-100) is a list that the program holds: it is kept without a copy. -/
def shared : St := ⟨⟨fun _ => [.atom 5], 1⟩, [.ref 0], .ref 0⟩

/-- C122 is false for defaults, even with `copy_on_read`: the property changes with the list (and so in all objects with this default). -/
theorem C122_default_counterexample :
    let cfg : Cfg := ⟨true, false, 9⟩
    shared.content cfg shared.stored = some (.node (.cons (.leaf 5) .nil)) ∧
    (shared.step cfg (.write 0 [])).content cfg (shared.step cfg (.write 0 [])).stored = some (.node .nil) := by decide

/-- the same programs, with copies: nothing changes -/
example :
    let cfg : Cfg := ⟨true, false, 9⟩
    let s := (St.start 5 0).run cfg (nested ++ [.assign 2])
    let t := s.run cfg [.write 1 [0, 0], .read, .look 3 0, .write 4 [], .writeDict, .write 5 []]
    t.content cfg t.stored = some (.node (.cons (.node (.cons (.leaf 5) .nil)) .nil)) := by decide

end Verif.Persist.Isolation
