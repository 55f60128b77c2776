import Mathlib.Data.Nat.Notation

/-!
C197: which objects are registered with a persistent object context, for whole histories. Model of the setter of
`persistent_object_context` (`nion/utils/Persistence.py:410-428`), `insert_item` (703-715), `set_item` (679-693), `remove_item` (720-731),
with a storage that sets the context of what is put into an object to that of the object, as the comments at 690 and 712 expect, and
`del self.__objects[object_uuid]` (205), which raises `KeyError` if nothing is registered. Objects are trees; those contained in an object
are listed in the order in which the setter visits them (items, then relationships). There is one context. As the class asks, an object is
only put into another one if nothing contains it, and not into itself. Objects stay alive.
-/

namespace Verif.Persist.Registered

mutual
/-- An object: whether it has the context, whether it is registered, what it contains. -/
inductive Tree where
  | node (ctx reg : Bool) (kids : Kids)
/-- Contained objects; with the number of the item they are, or none for relationships. -/
inductive Kids where
  | nil
  | cons (item : Option ℕ) (t : Tree) (rest : Kids)
end

def Tree.ctx : Tree → Bool
  | .node c _ _ => c

mutual
/-- Lines 413-427 with a context; the Boolean says whether an exception was raised. -/
def Tree.give : Tree → Tree × Bool
  | .node true r k => (.node true r k, true)
  | .node false r k => if k.give.2 then (.node true r k.give.1, true) else (.node true true k.give.1, false)
def Kids.give : Kids → Kids × Bool
  | .nil => (.nil, false)
  | .cons n t k => if t.give.2 then (.cons n t.give.1 k, true) else (.cons n t.give.1 k.give.1, k.give.2)
end

mutual
/-- Lines 413-427 with `None`; an object without context is not unregistered. -/
def Tree.take : Tree → Tree × Bool
  | .node c r k =>
    if k.take.2 then (.node false r k.take.1, true)
    else if c then (.node false false k.take.1, !r)
    else (.node false r k.take.1, false)
def Kids.take : Kids → Kids × Bool
  | .nil => (.nil, false)
  | .cons n t k => if t.take.2 then (.cons n t.take.1 k, true) else (.cons n t.take.1 k.take.1, k.take.2)
end

/-- Something is put at a position. -/
def Kids.insert (n : Option ℕ) (t : Tree) : ℕ → Kids → Kids
  | 0, k => .cons n t k
  | _ + 1, .nil => .cons n t .nil
  | p + 1, .cons m u k => .cons m u (k.insert n t p)

/-- The relationship member at a position, and the others. -/
def Kids.pull : ℕ → Kids → Option (Tree × Kids)
  | _, .nil => none
  | 0, .cons (some _) _ _ => none
  | 0, .cons none t k => some (t, k)
  | p + 1, .cons m u k => (k.pull p).map fun r => (r.1, .cons m u r.2)

/-- The item with a number, and the others. -/
def Kids.item (n : ℕ) : Kids → Option Tree × Kids
  | .nil => (none, .nil)
  | .cons m u k => if m = some n then (some u, k) else ((k.item n).1, .cons m u (k.item n).2)

/-- An object put into one that has the context or not (lines 690, 712). -/
def Tree.join (c : Bool) (t : Tree) : Tree × Bool := if c then t.give else (t, false)

/-- What a call leaves: the object, what has come out of it, whether it raised. -/
structure Res where
  tree : Tree
  out : Option Tree
  raised : Bool

/-- Lines 703-715. -/
def Tree.insertItem (p : ℕ) (x : Tree) : Tree → Res
  | .node c r k => ⟨.node c r (k.insert none (x.join c).1 p), none, (x.join c).2⟩

/-- Lines 720-731. -/
def Tree.removeItem (p : ℕ) : Tree → Res
  | .node c r k =>
    match k.pull p with
    | some (t, k') => ⟨.node c r k', some t.take.1, t.take.2⟩
    | none => ⟨.node c r k, none, false⟩

/-- Lines 679-693; the position is where the setter of the context visits the item. -/
def Tree.setItem (n p : ℕ) (x : Option Tree) : Tree → Res
  | .node c r k =>
    match x with
    | none => ⟨.node c r (k.item n).2, (k.item n).1, false⟩
    | some x => ⟨.node c r ((k.item n).2.insert (some n) (x.join c).1 p), (k.item n).1, (x.join c).2⟩

mutual
/-- A call of the object at the end of a path. -/
def Tree.at (f : Tree → Res) : List ℕ → Tree → Res
  | [], t => f t
  | p :: ps, .node c r k => ⟨.node c r (k.at f p ps).1, (k.at f p ps).2.1, (k.at f p ps).2.2⟩
def Kids.at (f : Tree → Res) : ℕ → List ℕ → Kids → Kids × Option Tree × Bool
  | _, _, .nil => (.nil, none, false)
  | 0, ps, .cons m t k => (.cons m (t.at f ps).tree k, (t.at f ps).out, (t.at f ps).raised)
  | p + 1, ps, .cons m t k => (.cons m t (k.at f p ps).1, (k.at f p ps).2)
end

/-- An object nothing contains. The Booleans are not in the code: whether the program has given it the context, and whether it has been
replaced as an item of an object with the context. -/
structure Top where
  tree : Tree
  given : Bool
  left : Bool

inductive Op where
  | create
  | give (j : ℕ)
  | take (j : ℕ)
  | insert (i : ℕ) (path : List ℕ) (p j : ℕ)
  | remove (i : ℕ) (path : List ℕ) (p : ℕ)
  | setItem (i : ℕ) (path : List ℕ) (n p : ℕ) (j : Option ℕ)

/-- What comes out of an object is contained in nothing. -/
def out (left : Bool) : Option Tree → List Top
  | none => []
  | some t => [⟨t, false, left⟩]

/-- A call of an object in the tree with a number. -/
def call (s : List Top) (i : ℕ) (path : List ℕ) (left : Bool) (f : Tree → Res) : List Top × Bool :=
  match s[i]? with
  | some a => ((s.set i { a with tree := (a.tree.at f path).tree }) ++ out (left && a.tree.ctx) (a.tree.at f path).out, (a.tree.at f path).raised)
  | none => (s, false)

/-- The calls; the Boolean says whether an exception was raised. -/
def step (s : List Top) : Op → List Top × Bool
  | .create => (s ++ [⟨.node false false .nil, false, false⟩], false)
  | .give j =>
    match s[j]? with
    | some a => (s.set j ⟨a.tree.give.1, true, a.left⟩, a.tree.give.2)
    | none => (s, false)
  | .take j =>
    match s[j]? with
    | some a => (s.set j ⟨a.tree.take.1, false, false⟩, a.tree.take.2)
    | none => (s, false)
  | .insert i path p j =>
    match s[j]? with
    | some x => if i = j then (s, false) else
      ((call s i path false (Tree.insertItem p x.tree)).1.eraseIdx j, (call s i path false (Tree.insertItem p x.tree)).2)
    | none => (s, false)
  | .remove i path p => call s i path false (Tree.removeItem p)
  | .setItem i path n p none => call s i path true (Tree.setItem n p none)
  | .setItem i path n p (some j) =>
    match s[j]? with
    | some x => if i = j then (s, false) else
      ((call s i path true (Tree.setItem n p (some x.tree))).1.eraseIdx j, (call s i path true (Tree.setItem n p (some x.tree))).2)
    | none => (s, false)

def run : List Op → List Top → List Top
  | [], s => s
  | o :: os, s => run os (step s o).1

/-! ### Specification -/

mutual
/-- The objects of a tree that are registered. -/
def Tree.flags : Tree → List Bool
  | .node _ r k => r :: k.flags
def Kids.flags : Kids → List Bool
  | .nil => []
  | .cons _ t k => t.flags ++ k.flags
end

/-- Objects put into others were not given the context by the program, and are not objects that were replaced. -/
def Clean (s : List Top) : Op → Prop
  | .insert _ _ _ j => ∀ x, s[j]? = some x → x.given = false ∧ x.left = false
  | .setItem _ _ _ _ (some j) => ∀ x, s[j]? = some x → x.given = false ∧ x.left = false
  | _ => True

def CleanRun : List Op → List Top → Prop
  | [], _ => True
  | o :: os, s => Clean s o ∧ CleanRun os (step s o).1

mutual
/-- The objects contained in the object at the end of a path. -/
def Tree.kidsAt : List ℕ → Tree → Option Kids
  | [], .node _ _ k => some k
  | p :: ps, .node _ _ k => k.kidsAt p ps
def Kids.kidsAt : ℕ → List ℕ → Kids → Option Kids
  | _, _, .nil => none
  | 0, ps, .cons _ t _ => t.kidsAt ps
  | p + 1, ps, .cons _ _ k => k.kidsAt p ps
end

/-- The numbers of the items that are set. -/
def Kids.items : Kids → List ℕ
  | .nil => []
  | .cons m _ k => m.toList ++ k.items

/-- Items are set only where none is set. -/
def Fresh (s : List Top) : Op → Prop
  | .setItem i path n _ _ => ∀ a k, s[i]? = some a → a.tree.kidsAt path = some k → n ∉ k.items
  | _ => True

def FreshRun : List Op → List Top → Prop
  | [], _ => True
  | o :: os, s => Fresh s o ∧ FreshRun os (step s o).1

/-! ### Proof -/

mutual
/-- All objects have the context and are registered, or none. -/
def Tree.Uni (b : Bool) : Tree → Prop
  | .node c r k => c = b ∧ r = b ∧ k.Uni b
def Kids.Uni (b : Bool) : Kids → Prop
  | .nil => True
  | .cons _ t k => t.Uni b ∧ k.Uni b
end

theorem Tree.Uni.ctx {b : Bool} {t : Tree} (h : t.Uni b) : t.ctx = b := by
  cases t
  exact h.1

mutual
theorem Tree.give_uni : ∀ t : Tree, t.Uni false → t.give.1.Uni true ∧ t.give.2 = false
  | .node c r k, h => by
    obtain ⟨rfl, rfl, h3⟩ := h
    obtain ⟨g1, g2⟩ := Kids.give_uni k h3
    simp [Tree.give, g2, Tree.Uni, g1]
theorem Kids.give_uni : ∀ k : Kids, k.Uni false → k.give.1.Uni true ∧ k.give.2 = false
  | .nil, _ => by simp [Kids.give, Kids.Uni]
  | .cons n t k, h => by
    obtain ⟨h1, h2⟩ := h
    obtain ⟨g1, g2⟩ := Tree.give_uni t h1
    obtain ⟨g3, g4⟩ := Kids.give_uni k h2
    simp [Kids.give, g2, g4, Kids.Uni, g1, g3]
end

theorem Tree.give_twice (t : Tree) (h : t.ctx = true) : t.give = (t, true) := by
  cases t with
  | node c r k =>
    cases h
    rfl

mutual
theorem Tree.take_uni (b : Bool) : ∀ t : Tree, t.Uni b → t.take.1.Uni false ∧ t.take.2 = false
  | .node c r k, h => by
    obtain ⟨rfl, rfl, h3⟩ := h
    obtain ⟨g1, g2⟩ := Kids.take_uni _ k h3
    cases r <;> simp [Tree.take, g2, Tree.Uni, g1]
theorem Kids.take_uni (b : Bool) : ∀ k : Kids, k.Uni b → k.take.1.Uni false ∧ k.take.2 = false
  | .nil, _ => by simp [Kids.take, Kids.Uni]
  | .cons n t k, h => by
    obtain ⟨h1, h2⟩ := h
    obtain ⟨g1, g2⟩ := Tree.take_uni b t h1
    obtain ⟨g3, g4⟩ := Kids.take_uni b k h2
    simp [Kids.take, g2, g4, Kids.Uni, g1, g3]
end

theorem Kids.insert_uni {b : Bool} (n : Option ℕ) (t : Tree) (ht : t.Uni b) : ∀ (p : ℕ) (k : Kids), k.Uni b → (k.insert n t p).Uni b
  | 0, _, h => ⟨ht, h⟩
  | _ + 1, .nil, _ => ⟨ht, trivial⟩
  | p + 1, .cons _ _ k, h => ⟨h.1, Kids.insert_uni n t ht p k h.2⟩

theorem Kids.pull_uni {b : Bool} : ∀ (p : ℕ) (k : Kids), k.Uni b → ∀ r, k.pull p = some r → r.1.Uni b ∧ r.2.Uni b
  | p, .nil, _, r, e => by cases p <;> simp [Kids.pull] at e
  | 0, .cons (some _) _ _, _, r, e => by simp [Kids.pull] at e
  | 0, .cons none t k, h, r, e => by
    simp only [Kids.pull, Option.some.injEq] at e
    subst e
    exact h
  | p + 1, .cons m u k, h, r, e => by
    simp only [Kids.pull, Option.map_eq_some_iff] at e
    obtain ⟨q, e1, rfl⟩ := e
    obtain ⟨h1, h2⟩ := Kids.pull_uni p k h.2 q e1
    exact ⟨h1, h.1, h2⟩

theorem Kids.item_uni {b : Bool} (n : ℕ) : ∀ k : Kids, k.Uni b → (∀ t, (k.item n).1 = some t → t.Uni b) ∧ (k.item n).2.Uni b
  | .nil, _ => ⟨fun t e => by simp [Kids.item] at e, trivial⟩
  | .cons m u k, h => by
    unfold Kids.item
    split
    · exact ⟨fun t e => by cases e; exact h.1, h.2⟩
    · obtain ⟨h1, h2⟩ := Kids.item_uni n k h.2
      exact ⟨h1, h.1, h2⟩

theorem Tree.join_uni {b : Bool} (x : Tree) (h : x.Uni false) : (x.join b).1.Uni b ∧ (x.join b).2 = false := by
  unfold Tree.join
  cases b with
  | false => exact ⟨h, rfl⟩
  | true => exact Tree.give_uni x h

/-- What a call does to a tree in which all objects are alike: `o` says how what comes out is. -/
def Keeps (b o : Bool) (f : Tree → Res) : Prop :=
  ∀ t : Tree, t.Uni b → (f t).tree.Uni b ∧ (∀ u, (f t).out = some u → u.Uni o) ∧ (f t).raised = false

theorem insertItem_keeps (b o : Bool) (p : ℕ) (x : Tree) (h : x.Uni false) : Keeps b o (Tree.insertItem p x) := by
  intro t ht
  cases t with
  | node c r k =>
    obtain ⟨rfl, h2, h3⟩ := ht
    obtain ⟨g1, g2⟩ := Tree.join_uni (b := c) x h
    exact ⟨⟨rfl, h2, Kids.insert_uni none _ g1 p k h3⟩, fun u e => by simp [Tree.insertItem] at e, g2⟩

theorem removeItem_keeps (b : Bool) (p : ℕ) : Keeps b false (Tree.removeItem p) := by
  intro t ht
  cases t with
  | node c r k =>
    obtain ⟨h1, h2, h3⟩ := ht
    cases e : k.pull p with
    | none =>
      rw [Tree.removeItem, e]
      exact ⟨⟨h1, h2, h3⟩, fun u e => by injection e, rfl⟩
    | some q =>
      obtain ⟨g1, g2⟩ := Kids.pull_uni p k h3 q e
      obtain ⟨g3, g4⟩ := Tree.take_uni b q.1 g1
      rw [Tree.removeItem, e]
      exact ⟨⟨h1, h2, g2⟩, fun u e => by injection e with e; exact e ▸ g3, g4⟩

theorem setItem_keeps (b : Bool) (n p : ℕ) (x : Option Tree) (h : ∀ y, x = some y → y.Uni false) : Keeps b b (Tree.setItem n p x) := by
  intro t ht
  cases t with
  | node c r k =>
    obtain ⟨rfl, h2, h3⟩ := ht
    obtain ⟨g1, g2⟩ := Kids.item_uni n k h3
    cases x with
    | none => exact ⟨⟨rfl, h2, g2⟩, g1, rfl⟩
    | some x =>
      obtain ⟨g3, g4⟩ := Tree.join_uni (b := c) x (h x rfl)
      exact ⟨⟨rfl, h2, Kids.insert_uni _ _ g3 p _ g2⟩, g1, g4⟩

mutual
theorem Tree.at_keeps {b o : Bool} {f : Tree → Res} (h : Keeps b o f) : ∀ (path : List ℕ), Keeps b o (Tree.at f path)
  | [], t => by
    rw [Tree.at]
    exact h t
  | p :: ps, .node c r k => by
    intro ht
    obtain ⟨h1, h2, h3⟩ := ht
    obtain ⟨g1, g2, g3⟩ := Kids.at_keeps h p ps k h3
    simp only [Tree.at]
    exact ⟨⟨h1, h2, g1⟩, g2, g3⟩
theorem Kids.at_keeps {b o : Bool} {f : Tree → Res} (h : Keeps b o f) : ∀ (p : ℕ) (ps : List ℕ) (k : Kids), k.Uni b →
    (k.at f p ps).1.Uni b ∧ (∀ u, (k.at f p ps).2.1 = some u → u.Uni o) ∧ (k.at f p ps).2.2 = false
  | p, ps, .nil, _ => by cases p <;> exact ⟨trivial, fun u e => by simp [Kids.at] at e, rfl⟩
  | 0, ps, .cons m t k, hk => by
    obtain ⟨g1, g2, g3⟩ := Tree.at_keeps h ps t hk.1
    simp only [Kids.at]
    exact ⟨⟨g1, hk.2⟩, g2, g3⟩
  | p + 1, ps, .cons m t k, hk => by
    obtain ⟨g1, g2, g3⟩ := Kids.at_keeps h p ps k hk.2
    simp only [Kids.at]
    exact ⟨⟨hk.1, g1⟩, g2, g3⟩
end

/-- Every tree is registered as a whole, or not at all. -/
def Inv (s : List Top) : Prop := ∀ a ∈ s, a.tree.Uni (a.given || a.left)

theorem mem_set {s : List Top} {i : ℕ} {a b : Top} (h : b ∈ s.set i a) : b = a ∨ b ∈ s := by
  have := List.mem_or_eq_of_mem_set h
  exact this.symm

theorem call_inv {s : List Top} (h : Inv s) (i : ℕ) (path : List ℕ) (left : Bool) (f : Tree → Res)
    (hf : ∀ b, Keeps b (left && b) f) : Inv (call s i path left f).1 ∧ (call s i path left f).2 = false := by
  unfold call
  cases e : s[i]? with
  | none => exact ⟨h, rfl⟩
  | some a =>
    have ha := h a (List.mem_of_getElem? e)
    obtain ⟨g1, g2, g3⟩ := Tree.at_keeps (hf _) path a.tree ha
    refine ⟨?_, g3⟩
    intro b hb
    rcases List.mem_append.1 hb with hb | hb
    · rcases mem_set hb with rfl | hb
      · exact g1
      · exact h b hb
    · cases eo : (a.tree.at f path).out with
      | none => simp [eo, out] at hb
      | some u =>
        simp only [eo, out, List.mem_singleton] at hb
        subst hb
        have := g2 u eo
        simpa [ha.ctx] using this

theorem step_inv {s : List Top} (h : Inv s) (o : Op) (hc : Clean s o) : Inv (step s o).1 ∧
    ((step s o).2 = true ↔ ∃ j a, o = .give j ∧ s[j]? = some a ∧ (a.given || a.left) = true) := by
  have no : ∀ (r : List Top × Bool), (∀ j, o ≠ .give j) → Inv r.1 ∧ r.2 = false → Inv r.1 ∧
      (r.2 = true ↔ ∃ j a, o = .give j ∧ s[j]? = some a ∧ (a.given || a.left) = true) := by
    intro r ho hr
    refine ⟨hr.1, fun e => ?_, ?_⟩
    · rw [hr.2] at e
      cases e
    · rintro ⟨j, a, e, _⟩
      exact absurd e (ho j)
  cases o with
  | create =>
    refine no _ (by simp) ⟨?_, rfl⟩
    intro a ha
    rcases List.mem_append.1 ha with ha | ha
    · exact h a ha
    · simp only [List.mem_singleton] at ha
      subst ha
      exact ⟨rfl, rfl, trivial⟩
  | give j =>
    cases e : s[j]? with
    | none =>
      simp only [step, e]
      refine ⟨h, iff_of_false (by simp) ?_⟩
      rintro ⟨k, a, h1, h2, _⟩
      cases h1
      rw [e] at h2
      cases h2
    | some a =>
      have ha := h a (List.mem_of_getElem? e)
      simp only [step, e]
      cases hb : (a.given || a.left) with
      | false =>
        rw [hb] at ha
        obtain ⟨g1, g2⟩ := Tree.give_uni a.tree ha
        refine ⟨?_, fun h => (by rw [g2] at h; cases h), ?_⟩
        · intro b hm
          rcases mem_set hm with rfl | hm
          · exact g1
          · exact h b hm
        · rintro ⟨k, c, h1, h2, h3⟩
          cases h1
          rw [e] at h2
          cases h2
          rw [hb] at h3
          cases h3
      | true =>
        rw [hb] at ha
        rw [Tree.give_twice a.tree ha.ctx]
        refine ⟨?_, fun _ => ⟨j, a, rfl, e, hb⟩, fun _ => rfl⟩
        intro b hm
        rcases mem_set hm with rfl | hm
        · exact ha
        · exact h b hm
  | take j =>
    simp only [step]
    refine no _ (by simp) ?_
    cases e : s[j]? with
    | none => exact ⟨h, rfl⟩
    | some a =>
      obtain ⟨g1, g2⟩ := Tree.take_uni _ a.tree (h a (List.mem_of_getElem? e))
      refine ⟨?_, g2⟩
      intro b hm
      rcases mem_set hm with rfl | hm
      · exact g1
      · exact h b hm
  | insert i path p j =>
    refine no _ (by simp) ?_
    simp only [step]
    cases e : s[j]? with
    | none => exact ⟨h, rfl⟩
    | some x =>
      simp only
      split
      · exact ⟨h, rfl⟩
      · have hx := h x (List.mem_of_getElem? e)
        rw [(hc x e).1, (hc x e).2] at hx
        obtain ⟨g1, g2⟩ := call_inv h i path false _ fun b => insertItem_keeps b _ p x.tree hx
        exact ⟨fun a ha => g1 a (List.mem_of_mem_eraseIdx ha), g2⟩
  | remove i path p => exact no _ (by simp) (call_inv h i path false _ fun b => removeItem_keeps b p)
  | setItem i path n p x =>
    refine no _ (by simp) ?_
    cases x with
    | none => exact call_inv h i path true _ fun b => by simpa using setItem_keeps b n p none (by simp)
    | some j =>
      simp only [step]
      cases e : s[j]? with
      | none => exact ⟨h, rfl⟩
      | some x =>
        simp only
        split
        · exact ⟨h, rfl⟩
        · have hx := h x (List.mem_of_getElem? e)
          rw [(hc x e).1, (hc x e).2] at hx
          obtain ⟨g1, g2⟩ := call_inv h i path true _ fun b => by
            simpa using setItem_keeps b n p (some x.tree) (by intro y hy; cases hy; exact hx)
          exact ⟨fun a ha => g1 a (List.mem_of_mem_eraseIdx ha), g2⟩

mutual
theorem Tree.uni_flags {b : Bool} : ∀ t : Tree, t.Uni b → ∀ f ∈ t.flags, f = b
  | .node c r k, h, f, hf => by
    simp only [Tree.flags, List.mem_cons] at hf
    rcases hf with rfl | hf
    · exact h.2.1
    · exact Kids.uni_flags k h.2.2 f hf
theorem Kids.uni_flags {b : Bool} : ∀ k : Kids, k.Uni b → ∀ f ∈ k.flags, f = b
  | .nil, _, f, hf => by simp [Kids.flags] at hf
  | .cons m t k, h, f, hf => by
    simp only [Kids.flags, List.mem_append] at hf
    rcases hf with hf | hf
    · exact Tree.uni_flags t h.1 f hf
    · exact Kids.uni_flags k h.2 f hf
end

theorem run_inv : ∀ (os : List Op) (s : List Top), Inv s → CleanRun os s → Inv (run os s)
  | [], _, h, _ => h
  | o :: os, _, h, hc => run_inv os _ (step_inv h o hc.1).1 hc.2

theorem inv_nil : Inv [] := fun a ha => by simp at ha

/-- C197 (partial: objects that were replaced, or that the program gave the context itself, are not put into others): an object is
registered exactly if the outermost object that contains it was given the context, or was replaced as an item of an object that had it. -/
theorem C197_replaced_partial (os : List Op) (hc : CleanRun os []) (a : Top) (ha : a ∈ run os []) :
    ∀ f ∈ a.tree.flags, f = (a.given || a.left) :=
  Tree.uni_flags a.tree (run_inv os [] inv_nil hc a ha)

/-- C197 (partial: as before): a call raises exactly if it gives the context to an object that has it. -/
theorem C197_raises_partial (os : List Op) (hc : CleanRun os []) (o : Op) (ho : Clean (run os []) o) :
    (step (run os []) o).2 = true ↔ ∃ j a, o = .give j ∧ (run os [])[j]? = some a ∧ (a.given || a.left) = true :=
  (step_inv (run_inv os [] inv_nil hc) o ho).2

/-! ### Items that are set once -/

theorem Kids.item_none {n : ℕ} : ∀ k : Kids, n ∉ k.items → (k.item n).1 = none
  | .nil, _ => rfl
  | .cons m u k, h => by
    simp only [Kids.items, List.mem_append, Option.mem_toList, not_or] at h
    simp only [Kids.item, if_neg h.1]
    exact Kids.item_none k h.2

mutual
theorem Tree.at_out {f : Tree → Res} {n : ℕ} (hf : ∀ c r k, n ∉ k.items → (f (.node c r k)).out = none) : ∀ (path : List ℕ) (t : Tree),
    (∀ k, t.kidsAt path = some k → n ∉ k.items) → (t.at f path).out = none
  | [], .node c r k, h => by
    rw [Tree.at]
    exact hf c r k (h k rfl)
  | p :: ps, .node c r k, h => by
    rw [Tree.at]
    exact Kids.at_out hf p ps k fun q hq => h q hq
theorem Kids.at_out {f : Tree → Res} {n : ℕ} (hf : ∀ c r k, n ∉ k.items → (f (.node c r k)).out = none) : ∀ (p : ℕ) (path : List ℕ) (t : Kids),
    (∀ k, t.kidsAt p path = some k → n ∉ k.items) → (t.at f p path).2.1 = none
  | p, ps, .nil, _ => by cases p <;> rfl
  | 0, ps, .cons m t k, h => by
    rw [Kids.at]
    exact Tree.at_out hf ps t fun q hq => h q hq
  | p + 1, ps, .cons m t k, h => by
    rw [Kids.at]
    exact Kids.at_out hf p ps k fun q hq => h q hq
end

theorem setItem_out (n p : ℕ) (x : Option Tree) (c r : Bool) (k : Kids) (h : n ∉ k.items) : (Tree.setItem n p x (.node c r k)).out = none := by
  cases x <;> exact Kids.item_none k h

/-- Nothing was replaced. -/
def NoLeft (s : List Top) : Prop := ∀ a ∈ s, a.left = false

theorem call_noLeft {s : List Top} (h : NoLeft s) (i : ℕ) (path : List ℕ) (left : Bool) (f : Tree → Res)
    (hf : left = true → ∀ a, s[i]? = some a → (a.tree.at f path).out = none) : NoLeft (call s i path left f).1 := by
  unfold call
  cases e : s[i]? with
  | none => exact h
  | some a =>
    intro b hb
    rcases List.mem_append.1 hb with hb | hb
    · rcases mem_set hb with rfl | hb
      · exact h a (List.mem_of_getElem? e)
      · exact h b hb
    · cases left with
      | false =>
        cases eo : (a.tree.at f path).out with
        | none => simp [eo, out] at hb
        | some u =>
          simp only [eo, out, List.mem_singleton] at hb
          subst hb
          rfl
      | true => simp [hf rfl a e, out] at hb

theorem step_noLeft {s : List Top} (h : NoLeft s) (o : Op) (hf : Fresh s o) : NoLeft (step s o).1 := by
  cases o with
  | create =>
    intro a ha
    rcases List.mem_append.1 ha with ha | ha
    · exact h a ha
    · simp only [List.mem_singleton] at ha
      subst ha
      rfl
  | give j =>
    simp only [step]
    cases e : s[j]? with
    | none => exact h
    | some a =>
      intro b hm
      rcases mem_set hm with rfl | hm
      · exact h a (List.mem_of_getElem? e)
      · exact h b hm
  | take j =>
    simp only [step]
    cases e : s[j]? with
    | none => exact h
    | some a =>
      intro b hm
      rcases mem_set hm with rfl | hm
      · rfl
      · exact h b hm
  | insert i path p j =>
    simp only [step]
    cases e : s[j]? with
    | none => exact h
    | some x =>
      simp only
      split
      · exact h
      · exact fun a ha => call_noLeft h i path false _ (by simp) a (List.mem_of_mem_eraseIdx ha)
  | remove i path p => exact call_noLeft h i path false _ (by simp)
  | setItem i path n p x =>
    have hx : ∀ y : Option Tree, NoLeft (call s i path true (Tree.setItem n p y)).1 := fun y =>
      call_noLeft h i path true _ fun _ a e => Tree.at_out (fun c r k => setItem_out n p y c r k) path a.tree fun k hk => hf a k e hk
    cases x with
    | none => exact hx none
    | some j =>
      simp only [step]
      cases e : s[j]? with
      | none => exact h
      | some x =>
        simp only
        split
        · exact h
        · exact fun a ha => hx _ a (List.mem_of_mem_eraseIdx ha)

theorem run_noLeft : ∀ (os : List Op) (s : List Top), NoLeft s → FreshRun os s → NoLeft (run os s)
  | [], _, h, _ => h
  | o :: os, _, h, hf => run_noLeft os _ (step_noLeft h o hf.1) hf.2

/-- C197 (partial: items are set only where none is set, and objects that the program gave the context itself are not put into others): an
object is registered exactly if the outermost object that contains it was given the context. -/
theorem C197_registered_partial (os : List Op) (hc : CleanRun os []) (hf : FreshRun os []) (a : Top) (ha : a ∈ run os []) :
    ∀ f ∈ a.tree.flags, f = a.given := by
  have h1 := C197_replaced_partial os hc a ha
  have h2 : a.left = false := run_noLeft os [] (fun b hb => by simp at hb) hf a ha
  simpa [h2] using h1

/-! ### Exactly -/

theorem Kids.insert_flags (n : Option ℕ) (t : Tree) (f : Bool) (hf : f ∈ t.flags) : ∀ (p : ℕ) (k : Kids), f ∈ (k.insert n t p).flags
  | 0, k => by simp [Kids.insert, Kids.flags, hf]
  | _ + 1, .nil => by simp [Kids.insert, Kids.flags, hf]
  | p + 1, .cons m u k => by simp [Kids.insert, Kids.flags, Kids.insert_flags n t f hf p k]

mutual
theorem Tree.at_flags {g : Tree → Res} {f b v : Bool} (hg : ∀ t : Tree, t.Uni b → f ∈ (g t).tree.flags ∧ (g t).raised = v) : ∀ (path : List ℕ)
    (t : Tree), t.Uni b → (t.kidsAt path).isSome → f ∈ (t.at g path).tree.flags ∧ (t.at g path).raised = v
  | [], t, ht, _ => by
    rw [Tree.at]
    exact hg t ht
  | p :: ps, .node c r k, ht, h => by
    simp only [Tree.at, Tree.flags, List.mem_cons]
    exact (Kids.at_flags hg p ps k ht.2.2 h).imp .inr id
theorem Kids.at_flags {g : Tree → Res} {f b v : Bool} (hg : ∀ t : Tree, t.Uni b → f ∈ (g t).tree.flags ∧ (g t).raised = v) : ∀ (p : ℕ)
    (path : List ℕ) (k : Kids), k.Uni b → (k.kidsAt p path).isSome → f ∈ (k.at g p path).1.flags ∧ (k.at g p path).2.2 = v
  | p, ps, .nil, _, h => by cases p <;> simp [Kids.kidsAt] at h
  | 0, ps, .cons m t k, hk, h => by
    simp only [Kids.at, Kids.flags, List.mem_append]
    exact (Tree.at_flags hg ps t hk.1 h).imp .inl id
  | p + 1, ps, .cons m t k, hk, h => by
    simp only [Kids.at, Kids.flags, List.mem_append]
    exact (Kids.at_flags hg p ps k hk.2 h).imp .inr id
end

theorem Tree.flags_self {b : Bool} {t : Tree} (h : t.Uni b) : b ∈ t.flags := by
  cases t with
  | node c r k =>
    obtain ⟨_, rfl, _⟩ := h
    simp [Tree.flags]

mutual
theorem Tree.at_uni {b v : Bool} {f : Tree → Res} (h : ∀ t : Tree, t.Uni b → (f t).tree.Uni b ∧ (f t).raised = v) : ∀ (path : List ℕ) (t : Tree),
    t.Uni b → (t.kidsAt path).isSome → (t.at f path).tree.Uni b ∧ (t.at f path).raised = v
  | [], t, ht, _ => by
    rw [Tree.at]
    exact h t ht
  | p :: ps, .node c r k, ht, hp => by
    obtain ⟨g1, g2⟩ := Kids.at_uni h p ps k ht.2.2 hp
    rw [Tree.at]
    exact ⟨⟨ht.1, ht.2.1, g1⟩, g2⟩
theorem Kids.at_uni {b v : Bool} {f : Tree → Res} (h : ∀ t : Tree, t.Uni b → (f t).tree.Uni b ∧ (f t).raised = v) : ∀ (p : ℕ) (path : List ℕ)
    (k : Kids), k.Uni b → (k.kidsAt p path).isSome → (k.at f p path).1.Uni b ∧ (k.at f p path).2.2 = v
  | p, ps, .nil, _, hp => by cases p <;> simp [Kids.kidsAt] at hp
  | 0, ps, .cons m t k, hk, hp => by
    obtain ⟨g1, g2⟩ := Tree.at_uni h ps t hk.1 hp
    rw [Kids.at]
    exact ⟨⟨g1, hk.2⟩, g2⟩
  | p + 1, ps, .cons m t k, hk, hp => by
    obtain ⟨g1, g2⟩ := Kids.at_uni h p ps k hk.2 hp
    rw [Kids.at]
    exact ⟨⟨hk.1, g1⟩, g2⟩
end

/-- C197: an object that is registered with all it contains (`c`) or not at all is put into a relationship of an object in such a tree (`b`):
this raises exactly if both are registered, and leaves the tree alike exactly if it is registered or the object is not. -/
theorem C197_insert_iff (t x : Tree) (b c : Bool) (ht : t.Uni b) (hx : x.Uni c) (path : List ℕ) (p : ℕ) (hp : (t.kidsAt path).isSome) :
    ((t.at (Tree.insertItem p x) path).raised = true ↔ b = true ∧ c = true) ∧
      ((∀ f ∈ (t.at (Tree.insertItem p x) path).tree.flags, f = b) ↔ b = true ∨ c = false) := by
  cases c with
  | false =>
    obtain ⟨g1, _, g3⟩ := Tree.at_keeps (insertItem_keeps b b p x hx) path t ht
    exact ⟨by simp [g3], by simpa using Tree.uni_flags _ g1⟩
  | true =>
    cases b with
    | true =>
      obtain ⟨g1, g2⟩ := Tree.at_uni (f := Tree.insertItem p x) (v := true) (by
        intro u hu
        cases u with
        | node c r k =>
          obtain ⟨rfl, h2, h3⟩ := hu
          simp only [Tree.insertItem, Tree.join, if_true, Tree.give_twice x hx.ctx, and_true]
          exact ⟨rfl, h2, Kids.insert_uni none x hx p k h3⟩) path t ht hp
      exact ⟨by simp [g2], by simpa using Tree.uni_flags _ g1⟩
    | false =>
      obtain ⟨g2, g1⟩ := Tree.at_flags (g := Tree.insertItem p x) (f := true) (v := false) (by
        intro u hu
        cases u with
        | node c r k =>
          obtain ⟨rfl, h2, h3⟩ := hu
          simp only [Tree.insertItem, Tree.join, Bool.false_eq_true, if_false, and_true, Tree.flags, List.mem_cons]
          exact .inr (Kids.insert_flags none x true (Tree.flags_self hx) p k)) path t ht hp
      refine ⟨by simp [g1], ?_⟩
      simp only [Bool.false_eq_true, Bool.true_eq_false, or_self, iff_false]
      intro h
      exact absurd (h true g2) (by simp)

/-! ### Cases -/

/-- What is registered, tree by tree. -/
def flags (s : List Top) : List (List Bool) := s.map fun a => a.tree.flags

/-- Whether the calls raise. -/
def raises : List Op → List Top → List Bool
  | [], _ => []
  | o :: os, s => (step s o).2 :: raises os (step s o).1

/-- The first object is given the context; the second, with the third in it, is put into it, and the third taken out again. -/
def exOps : List Op := [.create, .create, .create, .insert 1 [] 0 2, .give 0, .insert 0 [] 0 1, .remove 0 [0] 0]

/-- The theorem about items that are set once is not empty. -/
example : CleanRun exOps [] ∧ FreshRun exOps [] ∧ flags (run exOps []) = [[true, true], [false]] := by
  refine ⟨?_, ?_, by decide⟩
  · simp [exOps, CleanRun, Clean, step, call, Tree.at, Tree.insertItem, Tree.join, out, Tree.give, Kids.give, Kids.insert]
  · simp [exOps, FreshRun, Fresh]

/-- Items: the second object is set as an item and replaced by the third. -/
def replaceOps : List Op := [.create, .create, .create, .give 0, .setItem 0 [] 0 0 (some 1), .setItem 0 [] 0 0 (some 1)]

/-- The theorem about replaced items is not empty. -/
example : CleanRun replaceOps [] := by
  simp [replaceOps, CleanRun, Clean, step, call, Tree.at, Tree.setItem, Tree.join, out, Tree.give, Kids.give, Kids.insert, Kids.item]

/-- C197: an item that was replaced stays registered. -/
theorem C197_counterexample_replaced : flags (run replaceOps []) = [[true, true], [true]] ∧
    raises replaceOps [] = [false, false, false, false, false, false] := by decide

/-- C197: putting an object back that was replaced raises. -/
theorem C197_counterexample_back : raises (replaceOps ++ [.setItem 0 [] 1 0 (some 1)]) [] =
    [false, false, false, false, false, false, true] := by decide

/-- C197: put into an object without context, the replaced object keeps this one from being registered: giving it the context raises, it has
the context then, but neither it nor the object after the replaced one is registered. -/
theorem C197_counterexample_half : flags (run (replaceOps ++ [.create, .create, .insert 2 [] 0 1, .insert 1 [] 1 2, .give 1]) []) =
      [[true, true], [false, true, false]] ∧
    raises (replaceOps ++ [.create, .create, .insert 2 [] 0 1, .insert 1 [] 1 2, .give 1]) [] =
      [false, false, false, false, false, false, false, false, false, false, true] := by decide

end Verif.Persist.Registered
