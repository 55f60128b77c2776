import Mathlib.Data.List.Nodup
import Mathlib.Data.List.Induction
import Mathlib.Data.List.Flatten
import Mathlib.Data.List.TakeWhile
import Mathlib.Logic.Function.Basic
import Mathlib.Data.Finset.Basic
import Mathlib.Data.Finset.Dedup
import Mathlib.Tactic.Push

/-!
`FlattenedListModel` whose container is replaced by a listener of the container or of a master item (`nion/utils/ListModel.py`, lines 792-916),
property C174.

The listeners of an event are told in the order in which they were attached; one told before the flattened model may assign `container` of the
flattened model, as may one told after it. An exception ends the loop over the listeners and is printed (`Event.py:102-113`). The listeners of the
container are closed by the assignment and are not called any more; those of the master items are only dropped, and the loop under way still has
them. Without selections.
-/

namespace Verif.ListModel.FlattenedReplace

variable {M C : Type} [DecidableEq M]

/-- `src c` are the master items of container number `c`, `kids m` the children of master item `m`. `master` is `__master_items`; `children` is
`__children` (an entry that is missing is the empty list here: `del` raises for both); `heard` are the keys of the dictionaries of the listeners of
master items; `listening`: the listeners of the container are attached; `printed` is how many tracebacks have been printed. -/
structure St (M C : Type) where
  src : ℕ → List M
  kids : M → List C
  container : Option ℕ
  listening : Bool
  master : List M
  children : M → List C
  heard : Finset M
  items : List C
  printed : ℕ

/-- `list.insert` (for indexes that are not negative). -/
def pyInsert {β : Type} (l : List β) (k : ℕ) (v : β) : List β := l.take k ++ v :: l.drop k

/-- ListModel.py:892-896, 906-910: how many children are before those of `m`. -/
def St.offset (s : St M C) (m : M) : ℕ := ((s.master.takeWhile fun y => y ≠ m).map fun y => (s.children y).length).sum

/-- ListModel.py:890-900. -/
def St.childInserted (s : St M C) (m : M) (x : C) (i : ℕ) : St M C :=
  { s with children := Function.update s.children m (pyInsert (s.children m) i x), items := pyInsert s.items (s.offset m + i) x }

/-- ListModel.py:904-914; the Boolean tells if it raised. -/
def St.childRemoved (s : St M C) (m : M) (i : ℕ) : St M C × Bool :=
  if i < (s.children m).length then
    if s.offset m + i < s.items.length then
      ({ s with children := Function.update s.children m ((s.children m).eraseIdx i), items := s.items.eraseIdx (s.offset m + i) }, false)
    else ({ s with children := Function.update s.children m ((s.children m).eraseIdx i) }, true)
  else (s, true)

/-- ListModel.py:871-872, from index `i`. -/
def St.insertKids (m : M) : List C → ℕ → St M C → St M C
  | [], _, s => s
  | x :: l, i, s => St.insertKids m l (i + 1) (s.childInserted m x i)

/-- ListModel.py:881-882, with `n` children left. -/
def St.removeKids (m : M) : ℕ → St M C → St M C × Bool
  | 0, s => (s, false)
  | n + 1, s =>
    match s.childRemoved m n with
    | (s1, true) => (s1, true)
    | (s1, false) => St.removeKids m n s1

/-- ListModel.py:860-872. -/
def St.masterInserted (s : St M C) (m : M) (k : ℕ) : St M C × Bool :=
  if m ∈ s.master then (s, true)
  else (St.insertKids m (s.kids m) 0 { s with master := pyInsert s.master k m, heard := insert m s.heard }, false)

/-- ListModel.py:875-887. -/
def St.masterRemoved (s : St M C) (m : M) (k : ℕ) : St M C × Bool :=
  match St.removeKids m (s.kids m).length s with
  | (s1, true) => (s1, true)
  | (s1, false) =>
    if k < s1.master.length then
      if m ∈ s1.heard then
        ({ s1 with master := s1.master.eraseIdx k, heard := s1.heard.erase m }, decide (m ∈ s1.master.eraseIdx k))
      else ({ s1 with master := s1.master.eraseIdx k }, true)
    else (s1, true)

/-- ListModel.py:839-840, for the master items of the container from the end; index `-1` of an empty list raises, as index 0 does. -/
def St.takeAway : List M → St M C → St M C × Bool
  | [], s => (s, false)
  | m :: l, s =>
    match s.masterRemoved m (s.master.length - 1) with
    | (s1, true) => (s1, true)
    | (s1, false) => St.takeAway l s1

/-- ListModel.py:846-847, from index `k`. -/
def St.takeIn : List M → ℕ → St M C → St M C × Bool
  | [], _, s => (s, false)
  | m :: l, k, s =>
    match s.masterInserted m k with
    | (s1, true) => (s1, true)
    | (s1, false) => St.takeIn l (k + 1) s1

/-- ListModel.py:841-847. -/
def St.attach (s : St M C) (new : Option ℕ) : St M C × Bool :=
  match new with
  | none => ({ s with container := none }, false)
  | some c => St.takeIn (s.src c) 0 { s with container := some c, listening := true }

/-- ListModel.py:831-847, the setter. The listeners are `None` if an assignment has raised before: `close` raises then. -/
def St.setContainer (s : St M C) (new : Option ℕ) : St M C × Bool :=
  match s.container with
  | none => s.attach new
  | some c =>
    if s.listening then
      match St.takeAway (s.src c).reverse { s with listening := false } with
      | (s1, true) => (s1, true)
      | (s1, false) => s1.attach new
    else (s, true)

inductive Op (α : Type) where
  | ins (k : ℕ) (x : α)
  | rem (k : ℕ) (x : α)

def Op.apply {α : Type} : Op α → List α → List α
  | .ins k x, l => pyInsert l k x
  | .rem k _, l => l.eraseIdx k

/-- The index is there, and master items are distinct (866). -/
def Op.Valid : Op M → List M → Bool
  | .ins k x, l => decide (k ≤ l.length) && decide (x ∉ l)
  | .rem k x, l => decide (l[k]? = some x)

/-- The index is there. -/
def Op.InRange : Op C → List C → Bool
  | .ins k _, l => decide (k ≤ l.length)
  | .rem k _, l => decide (k < l.length)

def St.told (s : St M C) : Op M → St M C × Bool
  | .ins k x => s.masterInserted x k
  | .rem k x => s.masterRemoved x k

def St.toldChild (s : St M C) (m : M) : Op C → St M C × Bool
  | .ins k x => (s.childInserted m x k, false)
  | .rem k _ => s.childRemoved m k

/-- What happens: a client assigns the container, or changes the master items of container `c`, or changes the children of `m`, where the listeners
told before and after the flattened model may assign the container. -/
inductive Act (M C : Type) where
  | set (new : Option ℕ)
  | change (c : ℕ) (op : Op M) (early late : Option (Option ℕ))
  | child (m : M) (op : Op C) (early late : Option (Option ℕ))

def St.print (r : St M C × Bool) : St M C × Bool := if r.2 then ({ r.1 with printed := r.1.printed + 1 }, true) else r

/-- A listener that assigns the container. -/
def St.listener (s : St M C) : Option (Option ℕ) → St M C × Bool
  | none => (s, false)
  | some new => St.print (s.setContainer new)

/-- The loop over the listeners; `f` is what the flattened model does if it is told, `called` if it is, after the listeners told before it. -/
def St.fire (s : St M C) (f : St M C → St M C × Bool) (called : Bool) (early late : Option (Option ℕ)) : St M C :=
  match s.listener early with
  | (s1, true) => s1
  | (s1, false) =>
    match (if called then St.print (f s1) else (s1, false)) with
    | (s2, true) => s2
    | (s2, false) => (s2.listener late).1

def St.step (s : St M C) : Act M C → St M C
  | .set new => (s.setContainer new).1
  | .change c op early late =>
    if op.Valid (s.src c) then
      St.fire { s with src := Function.update s.src c (op.apply (s.src c)) } (fun t => t.told op)
        (decide (s.container = some c) && s.listening && early.isNone) early late
    else s
  | .child m op early late =>
    if op.InRange (s.kids m) then
      St.fire { s with kids := Function.update s.kids m (op.apply (s.kids m)) } (fun t => t.toldChild m op) (decide (m ∈ s.heard)) early late
    else s

def St.run (s : St M C) (as : List (Act M C)) : St M C := as.foldl St.step s

def St.init (src : ℕ → List M) (kids : M → List C) : St M C := ⟨src, kids, none, false, [], fun _ => [], ∅, [], 0⟩

/-! ### Specification -/

def St.source (s : St M C) : List M :=
  match s.container with
  | none => []
  | some c => s.src c

/-- The flattened model has the children of the master items of its container. -/
def St.Right (s : St M C) : Prop := s.items = s.source.flatMap s.kids

/-- No listener told before the flattened model assigns the container during a change of the container followed or of one of its master
items. -/
def Act.Polite (s : St M C) : Act M C → Prop
  | .set _ => True
  | .change c _ early _ => early = none ∨ s.container ≠ some c
  | .child m _ early _ => early = none ∨ m ∉ s.source

def AllPolite : St M C → List (Act M C) → Prop
  | _, [] => True
  | s, a :: as => a.Polite s ∧ AllPolite (s.step a) as

/-! ### Proofs -/

theorem offset_eq (s : St M C) (pre post : List M) (m : M) (hm : s.master = pre ++ m :: post) (h : m ∉ pre) :
    s.offset m = (pre.flatMap s.children).length := by
  have : s.master.takeWhile (fun y => y ≠ m) = pre := by
    rw [hm, List.takeWhile_append_of_pos]
    · simp
    · intro y hy
      simp only [decide_eq_true_eq]
      rintro rfl
      exact h hy
  rw [St.offset, this, List.length_flatMap]

theorem offset_update (s : St M C) (m : M) (l : List C) (it : List C) :
    St.offset { s with children := Function.update s.children m l, items := it } m = s.offset m := by
  simp only [St.offset]
  congr 1
  refine List.map_congr_left fun y hy => ?_
  have hy := List.mem_takeWhile_imp hy
  simp only [decide_eq_true_eq] at hy
  rw [Function.update_of_ne hy]

theorem insert_middle {β : Type} (a l t : List β) (k : ℕ) (hk : k ≤ l.length) (x : β) :
    pyInsert (a ++ l ++ t) (a.length + k) x = a ++ pyInsert l k x ++ t := by
  rw [pyInsert, pyInsert, List.append_assoc, List.take_length_add_append, List.drop_length_add_append, List.take_append_of_le_length hk,
    List.drop_append_of_le_length hk]
  simp

theorem erase_middle {β : Type} (a l t : List β) (k : ℕ) (hk : k < l.length) : (a ++ l ++ t).eraseIdx (a.length + k) = a ++ l.eraseIdx k ++ t := by
  rw [List.append_assoc, List.eraseIdx_append_of_length_le (by omega), Nat.add_sub_cancel_left, List.eraseIdx_append_of_lt_length hk, List.append_assoc]

theorem childInserted_spec (s : St M C) (m : M) (x : C) (i : ℕ) (a t : List C) (ha : a.length = s.offset m) (hi : i ≤ (s.children m).length)
    (h : s.items = a ++ s.children m ++ t) :
    s.childInserted m x i = { s with children := Function.update s.children m (pyInsert (s.children m) i x), items := a ++ pyInsert (s.children m) i x ++ t } := by
  rw [St.childInserted, h, ← ha, insert_middle _ _ _ _ hi]

theorem childRemoved_spec (s : St M C) (m : M) (i : ℕ) (a t : List C) (ha : a.length = s.offset m) (hi : i < (s.children m).length)
    (h : s.items = a ++ s.children m ++ t) :
    s.childRemoved m i = ({ s with children := Function.update s.children m ((s.children m).eraseIdx i), items := a ++ (s.children m).eraseIdx i ++ t }, false) := by
  rw [St.childRemoved, if_pos hi, if_pos (by rw [h]; simp; omega), h, ← ha, erase_middle _ _ _ _ hi]

theorem insertKids_spec (m : M) (l : List C) : ∀ (p q a t : List C) (s : St M C), a.length = s.offset m → s.children m = p ++ q →
    s.items = a ++ (p ++ q) ++ t →
    St.insertKids m l p.length s = { s with children := Function.update s.children m (p ++ l ++ q), items := a ++ (p ++ l ++ q) ++ t } := by
  induction l with
  | nil =>
    intro p q a t s _ hc hi
    obtain ⟨src, kids, co, li, ma, ch, he, it, pr⟩ := s
    simp only at hc hi
    simp [St.insertKids, hi, ← hc, Function.update_eq_self]
  | cons x l ih =>
    intro p q a t s ha hc hi
    rw [St.insertKids, childInserted_spec s m x p.length a t ha (by simp [hc]) (by rw [hi, hc])]
    have e : pyInsert (s.children m) p.length x = (p ++ [x]) ++ q := by simp [hc, pyInsert]
    rw [e]
    have := ih (p ++ [x]) q a t { s with children := Function.update s.children m (p ++ [x] ++ q), items := a ++ (p ++ [x] ++ q) ++ t }
      (by rw [offset_update]; exact ha) (by simp) rfl
    rw [List.length_append, List.length_singleton] at this
    rw [this]
    simp

theorem removeKids_spec (m : M) (n : ℕ) : ∀ (a t : List C) (s : St M C), a.length = s.offset m → n ≤ (s.children m).length →
    s.items = a ++ s.children m ++ t →
    St.removeKids m n s = ({ s with children := Function.update s.children m ((s.children m).drop n), items := a ++ (s.children m).drop n ++ t }, false) := by
  induction n with
  | zero =>
    intro a t s _ _ hi
    obtain ⟨src, kids, co, li, ma, ch, he, it, pr⟩ := s
    simp only at hi
    simp [St.removeKids, hi, Function.update_eq_self]
  | succ n ih =>
    intro a t s ha hn hi
    rw [St.removeKids, childRemoved_spec s m n a t ha (by omega) hi]
    simp only
    rw [ih a t { s with children := Function.update s.children m ((s.children m).eraseIdx n), items := a ++ (s.children m).eraseIdx n ++ t }
      (by rw [offset_update]; exact ha) (by simp [List.length_eraseIdx]; split <;> omega) (by simp)]
    have e : ((s.children m).eraseIdx n).drop n = (s.children m).drop (n + 1) := by
      rw [List.eraseIdx_eq_take_drop_succ, List.drop_append_of_le_length (by simp; omega)]
      simp
    simp [e]

/-- too many children -/
theorem removeKids_raises (m : M) (n : ℕ) (s : St M C) (h : (s.children m).length < n) : St.removeKids m n s = (s, true) := by
  cases n with
  | zero => omega
  | succ n => rw [St.removeKids, St.childRemoved, if_neg (by omega)]

theorem flatMap_update (ch : M → List C) (m : M) (l : List C) (xs : List M) (h : m ∉ xs) : xs.flatMap (Function.update ch m l) = xs.flatMap ch := by
  simp only [List.flatMap]
  congr 1
  refine List.map_congr_left fun y hy => ?_
  rw [Function.update_of_ne]
  rintro rfl
  exact h hy

/-- A master item comes in; `q` is what `__children` has for it already. -/
theorem masterInserted_spec (s : St M C) (m : M) (k : ℕ) (p g : List M) (h q : List C) (hm : s.master = p ++ g) (hk : k ≤ p.length) (hx : m ∉ p ++ g)
    (hq : s.children m = q) (hi : s.items = (p.take k).flatMap s.children ++ q ++ h) :
    s.masterInserted m k = ({ s with master := pyInsert p k m ++ g, heard := insert m s.heard, children := Function.update s.children m (s.kids m ++ q), items := (p.take k).flatMap s.children ++ (s.kids m ++ q) ++ h }, false) := by
  have e1 : pyInsert s.master k m = p.take k ++ m :: (p.drop k ++ g) := by
    rw [hm, pyInsert, List.take_append_of_le_length hk, List.drop_append_of_le_length hk]
  have hp : m ∉ p.take k := fun h' => hx (List.mem_append_left _ (List.mem_of_mem_take h'))
  rw [St.masterInserted, if_neg (by rw [hm]; exact hx)]
  have := insertKids_spec m (s.kids m) [] q ((p.take k).flatMap s.children) h { s with master := pyInsert s.master k m, heard := insert m s.heard }
    (by rw [offset_eq _ (p.take k) (p.drop k ++ g) m e1 hp]) (by simpa using hq) (by simpa using hi)
  rw [List.length_nil] at this
  rw [this]
  simp only [e1]
  simp [pyInsert]

theorem masterRemoved_spec (s : St M C) (m : M) (k : ℕ) (pre post : List M) (t : List C) (hm : s.master = pre ++ m :: post) (hx : m ∉ pre)
    (hk : k < s.master.length) (hh : m ∈ s.heard) (hn : (s.kids m).length ≤ (s.children m).length) (hi : s.items = pre.flatMap s.children ++ s.children m ++ t) :
    s.masterRemoved m k = ({ s with master := s.master.eraseIdx k, heard := s.heard.erase m, children := Function.update s.children m ((s.children m).drop (s.kids m).length), items := pre.flatMap s.children ++ (s.children m).drop (s.kids m).length ++ t }, decide (m ∈ s.master.eraseIdx k)) := by
  rw [St.masterRemoved, removeKids_spec m _ (pre.flatMap s.children) t s (by rw [offset_eq s pre post m hm hx]) hn hi]
  simp only [if_pos hk, if_pos hh]

/-- Taking away: `l` is what the container has, behind `p`. -/
theorem takeAway_spec (l : List M) : ∀ (p : List M) (g : List C) (s : St M C), s.master = p ++ l → s.items = (p ++ l).flatMap s.children ++ g → (p ++ l).Nodup →
    (∀ x ∈ l, x ∈ s.heard) → (∀ x ∈ l, s.kids x = s.children x) →
    St.takeAway l.reverse s = ({ s with master := p, heard := s.heard \ l.toFinset, children := fun y => if y ∈ l then [] else s.children y, items := p.flatMap s.children ++ g }, false) := by
  induction l using List.reverseRecOn with
  | nil =>
    intro p g s hm hi _ _ _
    obtain ⟨src, kids, co, li, ma, ch, he, it, pr⟩ := s
    simp only at hm hi
    simp [St.takeAway, hi, hm]
  | append_singleton l m ih =>
    intro p g s hm hi hd hh hk
    rw [← List.append_assoc] at hm hi hd
    have hx : m ∉ p ++ l := by
      rw [List.nodup_append] at hd
      exact fun h' => hd.2.2 m h' m (by simp) rfl
    have hkm := hk m (by simp)
    rw [List.reverse_append, List.reverse_singleton, List.singleton_append, St.takeAway,
      masterRemoved_spec s m (s.master.length - 1) (p ++ l) [] g hm hx (by rw [hm]; simp) (hh m (by simp)) (by rw [hkm]) (by simpa using hi)]
    have e1 : s.master.eraseIdx (s.master.length - 1) = p ++ l := by
      rw [hm, List.length_append, List.length_singleton, Nat.add_sub_cancel, List.eraseIdx_append_of_length_le (by omega)]
      simp
    rw [e1, decide_eq_false hx]
    simp only
    have e2 : (s.children m).drop (s.kids m).length = [] := by rw [hkm, List.drop_length]
    have hne : ∀ y ∈ p ++ l, y ≠ m := fun y hy e => hx (e ▸ hy)
    rw [e2, ih p g { s with master := p ++ l, heard := s.heard.erase m, children := Function.update s.children m [], items := (p ++ l).flatMap s.children ++ [] ++ g }
      rfl (by simp only [List.append_nil]; rw [flatMap_update _ _ _ _ hx]) (hd.sublist (List.sublist_append_left _ _))
      (fun y hy => Finset.mem_erase.2 ⟨hne y (List.mem_append_right _ hy), hh y (List.mem_append_left _ hy)⟩)
      (fun y hy => by simp only [Function.update_of_ne (hne y (List.mem_append_right _ hy))]; exact hk y (List.mem_append_left _ hy))]
    have e3 : s.heard.erase m \ l.toFinset = s.heard \ (l ++ [m]).toFinset := by
      ext y; simp only [Finset.mem_sdiff, Finset.mem_erase, List.mem_toFinset, List.mem_append, List.mem_singleton]; tauto
    have e4 : (fun y => if y ∈ l then [] else Function.update s.children m [] y) = fun y => if y ∈ l ++ [m] then [] else s.children y := by
      funext y
      by_cases h1 : y ∈ l
      · simp [h1]
      · by_cases h2 : y = m
        · subst h2; simp
        · simp [h1, h2]
    simp only [e3, e4]
    rw [flatMap_update _ _ _ _ (fun h' => hx (List.mem_append_left _ h'))]

theorem takeAway_append (l₁ l₂ : List M) : ∀ s : St M C, St.takeAway (l₁ ++ l₂) s =
    match St.takeAway l₁ s with | (s1, true) => (s1, true) | (s1, false) => St.takeAway l₂ s1 := by
  induction l₁ with
  | nil => intro s; rfl
  | cons x l₁ ih =>
    intro s
    rw [List.cons_append, St.takeAway, St.takeAway]
    split
    · rfl
    · exact ih _

theorem takeIn_append (l₁ l₂ : List M) : ∀ (k : ℕ) (s : St M C), St.takeIn (l₁ ++ l₂) k s =
    match St.takeIn l₁ k s with | (s1, true) => (s1, true) | (s1, false) => St.takeIn l₂ (k + l₁.length) s1 := by
  induction l₁ with
  | nil => intro k s; rfl
  | cons x l₁ ih =>
    intro k s
    rw [List.cons_append, St.takeIn, St.takeIn]
    split
    · rfl
    · rw [ih, List.length_cons, Nat.add_right_comm, Nat.add_assoc]

/-- Taking in: `l` comes behind `p`, in front of `g`; `h` are items that are left over. -/
theorem takeIn_spec (l : List M) : ∀ (p g : List M) (h : List C) (s : St M C), s.master = p ++ g → s.items = p.flatMap s.children ++ h → (p ++ l).Nodup →
    (∀ x ∈ l, x ∉ g) → (∀ x ∈ l, s.children x = []) →
    St.takeIn l p.length s = ({ s with master := p ++ l ++ g, heard := s.heard ∪ l.toFinset, children := fun y => if y ∈ l then s.kids y else s.children y, items := p.flatMap s.children ++ l.flatMap s.kids ++ h }, false) := by
  induction l with
  | nil =>
    intro p g h s hm hi _ _ _
    obtain ⟨src, kids, co, li, ma, ch, he, it, pr⟩ := s
    simp only at hm hi
    simp [St.takeIn, hi, hm]
  | cons m l ih =>
    intro p g h s hm hi hd hg hc
    have hd' := hd
    rw [List.nodup_append] at hd'
    have hmp : m ∉ p := fun hp => hd'.2.2 m hp m List.mem_cons_self rfl
    have hx : m ∉ p ++ g := by
      simp only [List.mem_append, not_or]
      exact ⟨hmp, hg m List.mem_cons_self⟩
    have hml : m ∉ l := (List.nodup_cons.1 hd'.2.1).1
    rw [St.takeIn, masterInserted_spec s m p.length p g h [] hm (Nat.le_refl _) hx (hc m List.mem_cons_self) (by simpa using hi)]
    have e : pyInsert p p.length m = p ++ [m] := by simp [pyInsert]
    simp only [e, List.take_length, List.append_nil]
    have := ih (p ++ [m]) g h { s with master := p ++ [m] ++ g, heard := insert m s.heard, children := Function.update s.children m (s.kids m), items := p.flatMap s.children ++ s.kids m ++ h }
      rfl (by simp [flatMap_update _ _ _ _ hmp]) (by simpa using hd) (fun y hy => hg y (List.mem_cons_of_mem _ hy))
      (fun y hy => by
        simp only
        rw [Function.update_of_ne (fun e : y = m => hml (e ▸ hy))]
        exact hc y (List.mem_cons_of_mem _ hy))
    rw [List.length_append, List.length_singleton] at this
    rw [this]
    have e3 : insert m s.heard ∪ l.toFinset = s.heard ∪ (m :: l).toFinset := by
      ext y; simp only [Finset.mem_union, Finset.mem_insert, List.toFinset_cons]; tauto
    have e4 : (fun y => if y ∈ l then s.kids y else Function.update s.children m (s.kids m) y) = fun y => if y ∈ m :: l then s.kids y else s.children y := by
      funext y
      by_cases h1 : y ∈ l
      · simp [h1]
      · by_cases h2 : y = m
        · subst h2; simp
        · simp [h1, h2]
    simp [e3, e4, flatMap_update _ _ _ _ hmp]

/-- Everything inside is as it should be. -/
structure Good (s : St M C) : Prop where
  distinct : ∀ c, (s.src c).Nodup
  master : s.master = s.source
  heard : s.heard = s.source.toFinset
  children : ∀ m ∈ s.source, s.children m = s.kids m
  rest : ∀ m, m ∉ s.source → s.children m = []
  right : s.items = s.source.flatMap s.kids
  listening : s.container.isSome = true → s.listening = true

omit [DecidableEq M] in
theorem flatMap_same (f g : M → List C) (l : List M) (h : ∀ x ∈ l, f x = g x) : l.flatMap f = l.flatMap g := by
  simp only [List.flatMap]
  rw [List.map_congr_left h]

theorem attach_spec (s : St M C) (new : Option ℕ) (hd : ∀ c, (s.src c).Nodup) (hm : s.master = []) (hk : s.heard = ∅) (hc : ∀ m, s.children m = []) (hi : s.items = []) :
    ∃ s1, s.attach new = (s1, false) ∧ Good s1 ∧ s1.src = s.src ∧ s1.kids = s.kids ∧ s1.container = new ∧ s1.printed = s.printed := by
  cases new with
  | none =>
    exact ⟨{ s with container := none }, rfl, ⟨hd, hm, by simp [St.source, hk], by simp [St.source], by simp [hc], by simp [St.source, hi], by simp⟩, rfl, rfl, rfl, rfl⟩
  | some c =>
    have := takeIn_spec (s.src c) [] [] [] { s with container := some c, listening := true } (by simpa using hm) (by simpa using hi) (by simpa using hd c) (by simp)
      (by simp [hc])
    rw [List.length_nil] at this
    exact ⟨_, this, ⟨hd, by simp [St.source], by simp [St.source, hk], fun m hm => if_pos hm, fun m hm => (if_neg hm).trans (hc m), by simp [St.source], fun _ => rfl⟩, rfl, rfl, rfl, rfl⟩

/-- An assignment of the container when everything is as it should be. -/
theorem set_good (s : St M C) (h : Good s) (new : Option ℕ) :
    ∃ s1, s.setContainer new = (s1, false) ∧ Good s1 ∧ s1.src = s.src ∧ s1.kids = s.kids ∧ s1.container = new ∧ s1.printed = s.printed := by
  obtain ⟨src, kids, cont, li, m, ch, he, it, pr⟩ := s
  have hm := h.master
  have hk := h.heard
  have hc := h.children
  have hr := h.rest
  have hi := h.right
  cases cont with
  | none => exact attach_spec _ new h.distinct hm hk (fun m => hr m (by simp [St.source])) hi
  | some c =>
    have hli : li = true := h.listening rfl
    subst hli
    simp only [St.source] at hm hk hi hc hr
    subst hm hk hi
    have e := takeAway_spec (src c) [] [] (⟨src, kids, some c, false, src c, ch, (src c).toFinset, (src c).flatMap kids, pr⟩ : St M C)
      rfl (by simp [flatMap_same _ _ _ hc]) (by simpa using h.distinct c) (by simp) (fun x hx => (hc x hx).symm)
    simp only [St.setContainer, if_true, e]
    refine attach_spec _ new h.distinct rfl (by simp) (fun m => ?_) (by simp)
    by_cases hm : m ∈ src c
    · exact if_pos hm
    · exact (if_neg hm).trans (hr m hm)

theorem apply_nodup (op : Op M) (l : List M) (hv : op.Valid l = true) (hl : l.Nodup) : (op.apply l).Nodup := by
  cases op with
  | ins k x =>
    simp only [Op.Valid, Bool.and_eq_true, decide_eq_true_eq] at hv
    simp only [Op.apply, pyInsert]
    rw [List.nodup_middle, List.take_append_drop]
    exact List.nodup_cons.2 ⟨hv.2, hl⟩
  | rem k x => exact (List.eraseIdx_sublist l k).nodup hl

omit [DecidableEq M] in
theorem split_at {l : List M} {k : ℕ} {x : M} (hl : l.Nodup) (h : l[k]? = some x) :
    l = l.take k ++ x :: l.drop (k + 1) ∧ l.eraseIdx k = l.take k ++ l.drop (k + 1) ∧ k < l.length ∧ x ∉ l.take k ∧ x ∉ l.drop (k + 1) := by
  obtain ⟨hk, rfl⟩ := List.getElem?_eq_some_iff.1 h
  have e : l = l.take k ++ l[k] :: l.drop (k + 1) := by rw [List.getElem_cons_drop, List.take_append_drop]
  refine ⟨e, List.eraseIdx_eq_take_drop_succ _ _, hk, ?_⟩
  have hl' := hl
  rw [e, List.nodup_middle, List.nodup_cons, List.mem_append, not_or] at hl'
  exact hl'.1

omit [DecidableEq M] in
theorem update_nodup (src : ℕ → List M) (hd : ∀ c, (src c).Nodup) (c : ℕ) (l : List M) (hl : l.Nodup) : ∀ c', (Function.update src c l c').Nodup := by
  intro c'
  by_cases e : c' = c
  · subst e; rw [Function.update_self]; exact hl
  · rw [Function.update_of_ne e]; exact hd c'

/-- The model is told of a change of the container it follows. -/
theorem told_good (s : St M C) (h : Good s) (c : ℕ) (hc : s.container = some c) (op : Op M) (hv : op.Valid (s.src c) = true) :
    ∃ s1, ({ s with src := Function.update s.src c (op.apply (s.src c)) } : St M C).told op = (s1, false) ∧ Good s1 ∧
      s1.src = Function.update s.src c (op.apply (s.src c)) ∧ s1.kids = s.kids ∧ s1.container = some c ∧ s1.printed = s.printed := by
  have hd := update_nodup s.src h.distinct c _ (apply_nodup op _ hv (h.distinct c))
  obtain ⟨src, kids, cont, li, ma, ch, he, it, pr⟩ := s
  simp only at hc hv hd
  subst hc
  have hm := h.master
  have hk := h.heard
  have hch := h.children
  have hr := h.rest
  have hi := h.right
  have hl := h.listening rfl
  simp only [St.source] at hm hk hi hch hr hl
  subst hm hk hi hl
  cases op with
  | ins k x =>
    simp only [Op.Valid, Bool.and_eq_true, decide_eq_true_eq] at hv
    have hes : (src c).flatMap kids = ((src c).take k).flatMap ch ++ [] ++ ((src c).drop k).flatMap kids := by
      rw [flatMap_same ch kids _ (fun y hy => hch y (List.mem_of_mem_take hy)), List.append_nil, ← List.flatMap_append, List.take_append_drop]
    have e := masterInserted_spec (⟨Function.update src c (pyInsert (src c) k x), kids, some c, true, src c, ch, (src c).toFinset, (src c).flatMap kids, pr⟩ : St M C)
      x k (src c) [] (((src c).drop k).flatMap kids) [] (by simp) hv.1 (by simpa using hv.2) (hr x hv.2) hes
    have hmem : ∀ y, y ∈ pyInsert (src c) k x ↔ y = x ∨ y ∈ src c := by
      intro y
      have : y ∈ src c ↔ y ∈ (src c).take k ∨ y ∈ (src c).drop k := by rw [← List.mem_append, List.take_append_drop]
      simp only [pyInsert, List.mem_append, List.mem_cons, this]
      tauto
    refine ⟨_, e, ⟨hd, ?_, ?_, ?_, ?_, ?_, fun _ => rfl⟩, rfl, rfl, rfl, rfl⟩
    · simp [St.source]
    · ext y; simp [St.source, hmem]
    · intro y hy
      simp only [St.source, Function.update_self, hmem] at hy
      simp only [List.append_nil]
      by_cases hyx : y = x
      · subst hyx; simp
      · rw [Function.update_of_ne hyx]; exact hch y (hy.resolve_left hyx)
    · intro y hy
      simp only [St.source, Function.update_self, hmem, not_or] at hy
      simp only
      rw [Function.update_of_ne hy.1]; exact hr y hy.2
    · simp only [St.source, Function.update_self, pyInsert]
      rw [flatMap_same ch kids _ (fun y hy => hch y (List.mem_of_mem_take hy))]
      simp
  | rem k x =>
    simp only [Op.Valid, decide_eq_true_eq] at hv
    have hdc : (src c).Nodup := h.distinct c
    obtain ⟨h1, h2, h3, h4, h5⟩ := split_at hdc hv
    have hx : x ∈ src c := by rw [h1]; simp
    have hes : (src c).flatMap kids = ((src c).take k).flatMap ch ++ ch x ++ ((src c).drop (k + 1)).flatMap kids := by
      rw [flatMap_same ch kids _ (fun y hy => hch y (List.mem_of_mem_take hy)), hch x hx]
      conv_lhs => rw [h1]
      simp
    have e := masterRemoved_spec (⟨Function.update src c ((src c).eraseIdx k), kids, some c, true, src c, ch, (src c).toFinset, (src c).flatMap kids, pr⟩ : St M C)
      x k _ _ (((src c).drop (k + 1)).flatMap kids) h1 h4 h3 (by simpa using hx) (by simp [hch x hx]) hes
    have hmem : ∀ y, y ∈ (src c).eraseIdx k ↔ y ≠ x ∧ y ∈ src c := by
      intro y
      have : y ∈ src c ↔ y ∈ (src c).take k ∨ y = x ∨ y ∈ (src c).drop (k + 1) := by
        conv_lhs => rw [h1]
        simp
      rw [h2, this, List.mem_append]
      constructor
      · rintro (hy | hy)
        · exact ⟨fun e => h4 (e ▸ hy), Or.inl hy⟩
        · exact ⟨fun e => h5 (e ▸ hy), Or.inr (Or.inr hy)⟩
      · rintro ⟨hy, hy1 | hy1 | hy1⟩
        exacts [Or.inl hy1, absurd hy1 hy, Or.inr hy1]
    have hn : decide (x ∈ (src c).eraseIdx k) = false := decide_eq_false (by rw [hmem]; simp)
    have hdrop : (ch x).drop (kids x).length = [] := by rw [hch x hx, List.drop_length]
    simp only [hn, hdrop] at e
    refine ⟨_, e, ⟨hd, ?_, ?_, ?_, ?_, ?_, fun _ => rfl⟩, rfl, rfl, rfl, rfl⟩
    · simp [St.source]
    · ext y; simp [St.source, hmem]
    · intro y hy
      simp only [St.source, Function.update_self, hmem] at hy
      simp only
      rw [Function.update_of_ne hy.1]; exact hch y hy.2
    · intro y hy
      simp only [St.source, Function.update_self, hmem, not_and] at hy
      simp only
      by_cases hyx : y = x
      · subst hyx; simp
      · rw [Function.update_of_ne hyx]; exact hr y (hy hyx)
    · simp only [St.source, Function.update_self, h2]
      rw [flatMap_same ch kids _ (fun y hy => hch y (List.mem_of_mem_take hy))]
      simp

/-- A change of another container. -/
theorem other_good (s : St M C) (h : Good s) (c : ℕ) (hc : s.container ≠ some c) (op : Op M) (hv : op.Valid (s.src c) = true) :
    Good { s with src := Function.update s.src c (op.apply (s.src c)) } := by
  have hs : ({ s with src := Function.update s.src c (op.apply (s.src c)) } : St M C).source = s.source := by
    rw [St.source, St.source]
    cases h' : s.container with
    | none => rfl
    | some c' =>
      simp only
      rw [Function.update_of_ne]
      rintro rfl
      exact hc h'
  exact ⟨update_nodup _ h.distinct c _ (apply_nodup op _ hv (h.distinct c)), by rw [hs]; exact h.master, by rw [hs]; exact h.heard, by rw [hs]; exact h.children,
    by rw [hs]; exact h.rest, by rw [hs]; exact h.right, h.listening⟩

/-- A change of the children of a master item that is not in the container. -/
theorem otherChild_good (s : St M C) (h : Good s) (m : M) (hm : m ∉ s.source) (l : List C) : Good { s with kids := Function.update s.kids m l } := by
  have hne : ∀ y ∈ s.source, y ≠ m := fun y hy e => hm (e ▸ hy)
  have hs : ({ s with kids := Function.update s.kids m l } : St M C).source = s.source := rfl
  refine ⟨h.distinct, h.master, h.heard, fun y hy => ?_, h.rest, ?_, h.listening⟩
  · simp only [Function.update_of_ne (hne y (hs ▸ hy))]; exact h.children y hy
  · simp only [hs]
    rw [flatMap_update _ _ _ _ hm]
    exact h.right

/-- The model is told of a change of the children of a master item. -/
theorem toldChild_good (s : St M C) (h : Good s) (m : M) (hm : m ∈ s.source) (op : Op C) (hv : op.InRange (s.kids m) = true) :
    ∃ s1, ({ s with kids := Function.update s.kids m (op.apply (s.kids m)) } : St M C).toldChild m op = (s1, false) ∧ Good s1 ∧
      s1.src = s.src ∧ s1.container = s.container ∧ s1.printed = s.printed := by
  obtain ⟨pre, post, hsp⟩ := List.append_of_mem hm
  have hsn : s.source.Nodup := by
    rw [St.source]
    split
    · exact List.nodup_nil
    · exact h.distinct _
  have hsn' := hsn
  rw [hsp, List.nodup_middle, List.nodup_cons, List.mem_append, not_or] at hsn'
  obtain ⟨⟨hpre, hpost⟩, _⟩ := hsn'
  have hmp : ∀ y ∈ pre, y ∈ s.source := fun y hy => by rw [hsp]; exact List.mem_append_left _ hy
  have hkm : s.children m = s.kids m := h.children m hm
  have hi : s.items = pre.flatMap s.children ++ s.children m ++ post.flatMap s.kids := by
    rw [h.right, flatMap_same s.children s.kids pre (fun y hy => h.children y (hmp y hy)), hkm]
    conv_lhs => rw [hsp]
    simp
  set t : St M C := { s with kids := Function.update s.kids m (op.apply (s.kids m)) } with ht
  have ho : (pre.flatMap s.children).length = t.offset m := by
    rw [offset_eq t pre post m (h.master.trans hsp) hpre]
  have key : t.toldChild m op = ({ t with children := Function.update s.children m (op.apply (s.kids m)), items := pre.flatMap s.children ++ op.apply (s.kids m) ++ post.flatMap s.kids }, false) := by
    cases op with
    | ins k x =>
      simp only [Op.InRange, decide_eq_true_eq] at hv
      simp only [St.toldChild]
      rw [childInserted_spec t m x k _ _ ho (by show k ≤ (s.children m).length; rw [hkm]; exact hv) hi]
      simp only [Op.apply, ← hkm]
      rfl
    | rem k x =>
      simp only [Op.InRange, decide_eq_true_eq] at hv
      simp only [St.toldChild]
      rw [childRemoved_spec t m k _ _ ho (by show k < (s.children m).length; rw [hkm]; exact hv) hi]
      simp only [Op.apply, ← hkm]
      rfl
  refine ⟨_, key, ⟨h.distinct, h.master, h.heard, ?_, ?_, ?_, h.listening⟩, rfl, rfl, rfl⟩
  · intro y hy
    by_cases hym : y = m
    · subst hym; simp [ht]
    · simp only [ht, Function.update_of_ne hym]; exact h.children y hy
  · intro y hy
    have hym : y ≠ m := by rintro rfl; exact hy hm
    simp only [Function.update_of_ne hym]
    exact h.rest y hy
  · show _ = s.source.flatMap t.kids
    rw [hsp, List.flatMap_append, List.flatMap_cons, ht]
    simp only [Function.update_self, flatMap_update _ _ _ _ hpre, flatMap_update _ _ _ _ hpost]
    rw [flatMap_same s.children s.kids pre (fun y hy => h.children y (hmp y hy))]
    simp

theorem listener_good (s : St M C) (h : Good s) (new : Option (Option ℕ)) :
    ∃ s1, s.listener new = (s1, false) ∧ Good s1 ∧ s1.src = s.src ∧ s1.kids = s.kids ∧ s1.container = new.getD s.container ∧ s1.printed = s.printed := by
  cases new with
  | none => exact ⟨s, rfl, h, rfl, rfl, rfl, rfl⟩
  | some new =>
    obtain ⟨s1, e, h1⟩ := set_good s h new
    exact ⟨s1, by simp [St.listener, St.print, e], h1⟩

/-- The container after a polite action. -/
def lastSet (s : St M C) : Act M C → Option ℕ
  | .set new => new
  | .change c op early late => if op.Valid (s.src c) then late.getD (early.getD s.container) else s.container
  | .child m op early late => if op.InRange (s.kids m) then late.getD (early.getD s.container) else s.container

theorem step_good (s : St M C) (h : Good s) (a : Act M C) (hp : a.Polite s) :
    Good (s.step a) ∧ (s.step a).printed = s.printed ∧ (s.step a).container = lastSet s a := by
  cases a with
  | set new =>
    obtain ⟨s1, e, h1, _, _, h3, h4⟩ := set_good s h new
    simp only [St.step, e]
    exact ⟨h1, h4, h3⟩
  | change c op early late =>
    by_cases hv : op.Valid (s.src c) = true
    · simp only [St.step, if_pos hv, St.fire, lastSet]
      by_cases hc : s.container = some c
      · have he : early = none := by rcases hp with hp | hp; exacts [hp, absurd hc hp]
        subst he
        obtain ⟨s1, e1, h1, _, _, hc1, hpr⟩ := told_good s h c hc op hv
        have hl := h.listening (by simp [hc])
        obtain ⟨s2, e2, h2, _, _, hc2, hpr2⟩ := listener_good s1 h1 late
        have hb : (decide (s.container = some c) && s.listening) = true := by simp [hc, hl]
        have he1 : St.listener { s with src := Function.update s.src c (op.apply (s.src c)) } none = (_, false) := rfl
        rw [hb]
        simp only [he1, Option.isNone_none, Bool.and_true, if_true, e1, St.print, Bool.false_eq_true, if_false, Option.getD_none, e2]
        exact ⟨h2, hpr2.trans hpr, by rw [hc2, hc1, hc]⟩
      · obtain ⟨s1, e1, h1, _, _, hc1, hpr1⟩ := listener_good _ (other_good s h c hc op hv) early
        obtain ⟨s2, e2, h2, _, _, hc2, hpr2⟩ := listener_good s1 h1 late
        have hb : (decide (s.container = some c) && s.listening) = false := by simp [hc]
        rw [hb]
        simp only [e1, Bool.false_and, Bool.false_eq_true, if_false, e2]
        exact ⟨h2, hpr2.trans hpr1, by rw [hc2, hc1]⟩
    · simp only [St.step, if_neg hv, lastSet]; exact ⟨h, trivial, trivial⟩
  | child m op early late =>
    by_cases hv : op.InRange (s.kids m) = true
    · simp only [St.step, if_pos hv, St.fire, lastSet]
      by_cases hm : m ∈ s.source
      · have he : early = none := by rcases hp with hp | hp; exacts [hp, absurd hm hp]
        subst he
        obtain ⟨s1, e1, h1, _, hc1, hpr⟩ := toldChild_good s h m hm op hv
        obtain ⟨s2, e2, h2, _, _, hc2, hpr2⟩ := listener_good s1 h1 late
        have hb : decide (m ∈ s.heard) = true := by rw [h.heard]; simpa using hm
        have he1 : St.listener { s with kids := Function.update s.kids m (op.apply (s.kids m)) } none = (_, false) := rfl
        rw [hb]
        simp only [he1, if_true, e1, St.print, Bool.false_eq_true, if_false, Option.getD_none, e2]
        exact ⟨h2, hpr2.trans hpr, by rw [hc2, hc1]⟩
      · obtain ⟨s1, e1, h1, _, _, hc1, hpr1⟩ := listener_good _ (otherChild_good s h m hm (op.apply (s.kids m))) early
        obtain ⟨s2, e2, h2, _, _, hc2, hpr2⟩ := listener_good s1 h1 late
        have hb : decide (m ∈ s.heard) = false := by rw [h.heard]; simpa using hm
        rw [hb]
        simp only [e1, Bool.false_eq_true, if_false, e2]
        exact ⟨h2, hpr2.trans hpr1, by rw [hc2, hc1]⟩
    · simp only [St.step, if_neg hv, lastSet]; exact ⟨h, trivial, trivial⟩

theorem init_good (src : ℕ → List M) (kids : M → List C) (hd : ∀ c, (src c).Nodup) : Good (St.init src kids) :=
  ⟨hd, rfl, rfl, by simp [St.init, St.source], fun _ _ => rfl, rfl, by simp [St.init]⟩

theorem run_good (as : List (Act M C)) : ∀ s : St M C, Good s → AllPolite s as → Good (s.run as) ∧ (s.run as).printed = s.printed := by
  induction as with
  | nil => exact fun s h _ => ⟨h, rfl⟩
  | cons a as ih =>
    intro s h hp
    obtain ⟨h1, h2, _⟩ := step_good s h a hp.1
    obtain ⟨h3, h4⟩ := ih _ h1 hp.2
    exact ⟨h3, h4.trans h2⟩

/-- C174, partial: what is missing is assignments by listeners told before the model, during a change of the container it follows or of one of its
master items. Without, the items are the children of the master items of the container after any history, no exception is raised, and
the container is the one assigned last. -/
theorem C174_polite_partial (src : ℕ → List M) (kids : M → List C) (hd : ∀ c, (src c).Nodup) (as : List (Act M C)) (hp : AllPolite (St.init src kids) as) :
    ((St.init src kids).run as).Right ∧ ((St.init src kids).run as).printed = 0 ∧
    ∀ a, a.Polite ((St.init src kids).run as) → (((St.init src kids).run as).step a).container = lastSet ((St.init src kids).run as) a := by
  obtain ⟨h1, h2⟩ := run_good as _ (init_good src kids hd) hp
  exact ⟨h1.right, h2, fun a ha => (step_good _ h1 a ha).2.2⟩

/-- A master item that stayed by mistake at the end: taking in stops there. -/
theorem takeIn_stop (f : M) (h : List C) (l : List M) (s : St M C) (hm : s.master = [f]) (hi : s.items = h) (hd : l.Nodup) (hc : ∀ x ∈ l, x ≠ f → s.children x = []) :
    ∃ s1, St.takeIn l 0 s = (s1, decide (f ∈ l)) ∧ s1.items = (l.takeWhile fun y => y ≠ f).flatMap s.kids ++ h ∧
      s1.container = s.container ∧ s1.printed = s.printed ∧ s1.src = s.src ∧ s1.kids = s.kids := by
  by_cases hf : f ∈ l
  · obtain ⟨l1, l2, e⟩ := List.append_of_mem hf
    subst e
    have hd' := hd
    rw [List.nodup_middle, List.nodup_cons, List.mem_append, not_or] at hd'
    have e := takeIn_spec l1 [] [f] h s hm (by simpa using hi) (by simpa using hd.sublist (List.sublist_append_left _ _))
      (fun x hx => by simp only [List.mem_singleton]; rintro rfl; exact hd'.1.1 hx)
      (fun x hx => hc x (List.mem_append_left _ hx) (by rintro rfl; exact hd'.1.1 hx))
    have ht : (l1 ++ f :: l2).takeWhile (fun y => y ≠ f) = l1 := by
      rw [List.takeWhile_append_of_pos]
      · simp
      · intro y hy
        simp only [decide_eq_true_eq]
        rintro rfl
        exact hd'.1.1 hy
    rw [List.length_nil] at e
    rw [takeIn_append, e, ht]
    simp only [St.takeIn, St.masterInserted]
    rw [if_pos (by simp), decide_eq_true hf]
    exact ⟨_, rfl, by simp, rfl, rfl, rfl, rfl⟩
  · have e := takeIn_spec l [] [f] h s hm (by simpa using hi) (by simpa using hd)
      (fun x hx => by simp only [List.mem_singleton]; rintro rfl; exact hf hx) (fun x hx => hc x hx (by rintro rfl; exact hf hx))
    rw [List.length_nil] at e
    have ht : l.takeWhile (fun y => y ≠ f) = l := by
      rw [List.takeWhile_eq_self_iff]
      intro y hy
      simp only [decide_eq_true_eq]
      rintro rfl
      exact hf hy
    rw [ht]
    rw [decide_eq_false hf]
    exact ⟨_, e, by simp, rfl, rfl, rfl, rfl⟩

/-- C174, a listener told before the model of an insertion of a master item assigns the container (everything being as it should): the assignment
raises, whatever the new container is; the old one stays, no longer heard, and what comes behind the insertion is gone. -/
theorem C174_inserted (s : St M C) (h : Good s) (c k : ℕ) (x : M) (hc : s.container = some c) (hk : k ≤ (s.src c).length) (hx : x ∉ s.src c)
    (new : Option ℕ) (late : Option (Option ℕ)) :
    ∃ s1, s1 = s.step (.change c (.ins k x) (some new) late) ∧ s1.container = some c ∧ s1.listening = false ∧
      s1.items = ((s.src c).take k).flatMap s.kids ∧ s1.printed = s.printed + 1 ∧ s1.source = pyInsert (s.src c) k x := by
  obtain ⟨src, kids, cont, li, ma, ch, he, it, pr⟩ := s
  simp only at hc hk hx
  subst hc
  have hd : ∀ c, (src c).Nodup := h.distinct
  have hm := h.master
  have hke := h.heard
  have hch := h.children
  have hr := h.rest
  have hi := h.right
  have hl := h.listening rfl
  simp only [St.source] at hm hke hi hch hr hl
  subst hm hke hi hl
  refine ⟨_, rfl, ?_⟩
  have hv : (Op.ins k x).Valid (src c) = true := by simp [Op.Valid, hk, hx]
  have hrev : (pyInsert (src c) k x).reverse = ((src c).drop k).reverse ++ x :: ((src c).take k).reverse := by simp [pyInsert]
  have e := takeAway_spec ((src c).drop k) ((src c).take k) []
    (⟨Function.update src c (pyInsert (src c) k x), kids, some c, false, src c, ch, (src c).toFinset, (src c).flatMap kids, pr⟩ : St M C)
    (by simp) (by simp [flatMap_same _ _ _ hch]) (by simpa using hd c) (fun y hy => by simpa using List.mem_of_mem_drop hy)
    (fun y hy => (hch y (List.mem_of_mem_drop hy)).symm)
  have hes : ((src c).take k).flatMap ch = ((src c).take k).flatMap kids := flatMap_same _ _ _ fun y hy => hch y (List.mem_of_mem_take hy)
  have hxd : x ∉ (src c).drop k := fun h' => hx (List.mem_of_mem_drop h')
  have key : ∃ m2, St.takeAway (pyInsert (src c) k x).reverse
      (⟨Function.update src c (pyInsert (src c) k x), kids, some c, false, src c, ch, (src c).toFinset, (src c).flatMap kids, pr⟩ : St M C) =
      (⟨Function.update src c (pyInsert (src c) k x), kids, some c, false, m2, fun y => if y ∈ (src c).drop k then [] else ch y,
        (src c).toFinset \ ((src c).drop k).toFinset, ((src c).take k).flatMap kids, pr⟩, true) := by
    rw [hrev, takeAway_append, e]
    simp only [St.takeAway, St.masterRemoved, hes, List.append_nil]
    cases hkx : kids x with
    | nil =>
      simp only [List.length_nil, St.removeKids]
      by_cases hlt : ((src c).take k).length - 1 < ((src c).take k).length
      · rw [if_pos hlt, if_neg (by simp [hx])]; exact ⟨_, rfl⟩
      · rw [if_neg hlt]; exact ⟨_, rfl⟩
    | cons y l =>
      rw [removeKids_raises x _ _ (by simp [hxd, hr x hx])]
      exact ⟨_, rfl⟩
  obtain ⟨m2, key⟩ := key
  simp only [St.step, hv, if_true, St.fire, St.listener, St.setContainer, Op.apply, Function.update_self, key, St.print]
  simp [St.source]

/-- C174, the same for a removal of a master item other than the first: the assignment raises, the old container stays, no longer heard, the children
of the item removed stay, and those of the item before it and of the items behind it are gone. -/
theorem C174_removed (s : St M C) (h : Good s) (c k : ℕ) (x : M) (hc : s.container = some c) (hx : (s.src c)[k + 1]? = some x)
    (new : Option ℕ) (late : Option (Option ℕ)) :
    ∃ s1, s1 = s.step (.change c (.rem (k + 1) x) (some new) late) ∧ s1.container = some c ∧ s1.listening = false ∧
      s1.items = ((s.src c).take k).flatMap s.kids ++ s.kids x ∧ s1.printed = s.printed + 1 ∧ s1.source = (s.src c).eraseIdx (k + 1) := by
  obtain ⟨src, kids, cont, li, ma, ch, he, it, pr⟩ := s
  simp only at hc hx
  subst hc
  have hd : ∀ c, (src c).Nodup := h.distinct
  have hm := h.master
  have hke := h.heard
  have hch := h.children
  have hr := h.rest
  have hi := h.right
  have hl := h.listening rfl
  simp only [St.source] at hm hke hi hch hr hl
  subst hm hke hi hl
  refine ⟨_, rfl, ?_⟩
  have hv : (Op.rem (k + 1) x).Valid (src c) = true := by simpa [Op.Valid] using hx
  obtain ⟨h1, h2, h3, h4, h5⟩ := split_at (hd c) hx
  obtain ⟨y, hy⟩ : ∃ y, (src c)[k]? = some y := ⟨_, List.getElem?_eq_getElem (by omega)⟩
  obtain ⟨g1, _, _, g4, g5⟩ := split_at (hd c) hy
  have htk : (src c).take (k + 1) = (src c).take k ++ [y] := by rw [List.take_add_one, hy]; rfl
  have hyx : y ≠ x := by rintro rfl; exact h4 (by rw [htk]; simp)
  have hxs : x ∈ src c := by rw [h1]; simp
  have hys : y ∈ src c := by rw [g1]; simp
  have hyd : y ∉ (src c).drop (k + 2) := fun h' => g5 (List.drop_subset_drop_left _ (by omega) h')
  have hxd : x ∉ (src c).drop (k + 2) := h5
  have hrev : ((src c).eraseIdx (k + 1)).reverse = ((src c).drop (k + 2)).reverse ++ y :: ((src c).take k).reverse := by rw [h2, htk]; simp
  have e := takeAway_spec ((src c).drop (k + 2)) ((src c).take (k + 1) ++ [x]) []
    (⟨Function.update src c ((src c).eraseIdx (k + 1)), kids, some c, false, src c, ch, (src c).toFinset, (src c).flatMap kids, pr⟩ : St M C)
    (by rw [List.append_assoc]; exact h1) (by rw [List.append_assoc, List.singleton_append, ← h1]; simp [flatMap_same _ _ _ hch])
    (by rw [List.append_assoc, List.singleton_append, ← h1]; exact hd c) (fun z hz => by simpa using List.mem_of_mem_drop hz)
    (fun z hz => (hch z (List.mem_of_mem_drop hz)).symm)
  have hes : ((src c).take (k + 1) ++ [x]).flatMap ch = ((src c).take k).flatMap kids ++ kids y ++ kids x := by
    rw [flatMap_same ch kids _ (fun z hz => hch z ?_), htk]
    · simp
    · rw [List.mem_append, List.mem_singleton] at hz
      rcases hz with hz | rfl
      exacts [List.mem_of_mem_take hz, hxs]
  have hsame : ((src c).take k).flatMap (fun z => if z ∈ (src c).drop (k + 2) then [] else ch z) = ((src c).take k).flatMap kids := by
    refine flatMap_same _ _ _ fun z hz => ?_
    have hnd := hd c
    rw [h1, htk, List.nodup_append] at hnd
    rw [if_neg, hch z (List.mem_of_mem_take hz)]
    exact fun hz' => hnd.2.2 z (by simp [hz]) z (by simp [hz']) rfl
  have key : ∃ m2 ch2 he2, St.takeAway ((src c).eraseIdx (k + 1)).reverse
      (⟨Function.update src c ((src c).eraseIdx (k + 1)), kids, some c, false, src c, ch, (src c).toFinset, (src c).flatMap kids, pr⟩ : St M C) =
      (⟨Function.update src c ((src c).eraseIdx (k + 1)), kids, some c, false, m2, ch2, he2, ((src c).take k).flatMap kids ++ kids x, pr⟩, true) := by
    rw [hrev, takeAway_append, e]
    simp only [St.takeAway, hes, List.append_nil]
    rw [masterRemoved_spec _ y _ ((src c).take k) [x] (kids x) (by simp [htk]) g4 (by simp; omega) (by simp [hys, hyd]) (by simp [hyd, hch y hys])
      (by simp only [hsame]; simp [hyd, hch y hys])]
    have e1 : decide (y ∈ ((src c).take (k + 1) ++ [x]).eraseIdx (((src c).take (k + 1) ++ [x]).length - 1)) = true := by
      rw [decide_eq_true_eq, List.length_append, List.length_singleton, Nat.add_sub_cancel, List.eraseIdx_append_of_length_le (by omega), htk]
      simp
    simp only [e1, hsame, if_neg hyd, hch y hys, List.drop_length, List.append_nil]
    exact ⟨_, _, _, rfl⟩
  obtain ⟨m2, ch2, he2, key⟩ := key
  simp only [St.step, hv, if_true, St.fire, St.listener, St.setContainer, Op.apply, Function.update_self, key, St.print]
  simp [St.source]

/-- C174, the same for a removal of the first master item `x`: its children stay, behind those of the new container (`L` are its master items), and the
items of the new container are missing from `x` on, if it is there. -/
theorem C174_first (s : St M C) (h : Good s) (c : ℕ) (x : M) (hc : s.container = some c) (hx : (s.src c)[0]? = some x) (new : Option ℕ) :
    ∃ s1 L, s1 = s.step (.change c (.rem 0 x) (some new) none) ∧ L = s1.source ∧ s1.container = new ∧
      s1.items = (L.takeWhile fun y => y ≠ x).flatMap s.kids ++ s.kids x ∧ s1.printed = s.printed + if x ∈ L then 1 else 0 := by
  obtain ⟨src, kids, cont, li, ma, ch, he, it, pr⟩ := s
  simp only at hc hx
  subst hc
  have hd : ∀ c, (src c).Nodup := h.distinct
  have hm := h.master
  have hke := h.heard
  have hch := h.children
  have hr := h.rest
  have hi := h.right
  have hl := h.listening rfl
  simp only [St.source] at hm hke hi hch hr hl
  subst hm hke hi hl
  have hv : (Op.rem 0 x).Valid (src c) = true := by simpa [Op.Valid] using hx
  have hd' := update_nodup src hd c _ (apply_nodup _ _ hv (hd c))
  obtain ⟨h1, h2, h3, h4, h5⟩ := split_at (hd c) hx
  simp only [List.take_zero, List.nil_append, Nat.zero_add] at h1 h2 h5
  have hxs : x ∈ src c := by rw [h1]; simp
  have e := takeAway_spec ((src c).drop 1) [x] []
    (⟨Function.update src c ((src c).eraseIdx 0), kids, some c, false, src c, ch, (src c).toFinset, (src c).flatMap kids, pr⟩ : St M C)
    h1 (by rw [List.singleton_append, ← h1]; simp [flatMap_same _ _ _ hch])
    (by rw [List.singleton_append, ← h1]; exact hd c) (fun z hz => by simpa using List.mem_of_mem_drop hz)
    (fun z hz => (hch z (List.mem_of_mem_drop hz)).symm)
  refine ⟨_, _, rfl, rfl, ?_⟩
  simp only [Op.apply] at hd'
  simp only [St.step, hv, if_true, St.fire, St.listener, St.setContainer, Op.apply, Function.update_self]
  rw [← h2] at e
  rw [e]
  have hes : [x].flatMap ch ++ [] = kids x := by simp [hch x hxs]
  simp only [hes]
  cases new with
  | none => simp [St.attach, St.print, St.source]
  | some d =>
    obtain ⟨s1, g1, g2, g3, g4, g5, g6⟩ := takeIn_stop x (kids x) (Function.update src c ((src c).eraseIdx 0) d)
      ⟨Function.update src c ((src c).eraseIdx 0), kids, some d, true, [x], fun y => if y ∈ (src c).eraseIdx 0 then [] else ch y,
        (src c).toFinset \ ((src c).eraseIdx 0).toFinset, kids x, pr⟩ rfl rfl (hd' d) (fun y _ hyx => by
          simp only
          by_cases hy : y ∈ (src c).eraseIdx 0
          · exact if_pos hy
          · rw [if_neg hy]
            refine hr y fun hys => hy ?_
            rw [h2]
            rw [h1, List.mem_cons] at hys
            exact hys.resolve_left hyx)
    simp only [St.attach, g1]
    by_cases hfl : x ∈ Function.update src c ((src c).eraseIdx 0) d
    · simp only [hfl, decide_true, St.print, if_true]
      simp only [St.source, g3, g5, g4, hfl, if_true, g2]
      exact ⟨trivial, trivial, trivial⟩
    · simp only [hfl, decide_false, St.print, Bool.false_eq_true, if_false, Option.isNone_some, Bool.and_false]
      simp only [St.source, g3, g5, g4, hfl, if_false, g2]
      exact ⟨trivial, trivial, rfl⟩

/-- C174, a listener told before the model of an insertion of a child of master item `m` assigns the container (everything being as it should): the
assignment raises, the old container stays, no longer heard, and the children of the master items behind `m` are gone. -/
theorem C174_child_inserted (s : St M C) (h : Good s) (c k : ℕ) (m : M) (x : C) (hc : s.container = some c) (pre post : List M)
    (hm : s.src c = pre ++ m :: post) (hk : k ≤ (s.kids m).length) (new : Option ℕ) (late : Option (Option ℕ)) :
    ∃ s1, s1 = s.step (.child m (.ins k x) (some new) late) ∧ s1.container = some c ∧ s1.listening = false ∧
      s1.items = (pre ++ [m]).flatMap s.kids ∧ s1.printed = s.printed + 1 ∧ s1.source = s.src c := by
  obtain ⟨src, kids, cont, li, ma, ch, he, it, pr⟩ := s
  simp only at hc hm hk
  subst hc
  have hd : (src c).Nodup := h.distinct c
  have hma := h.master
  have hke := h.heard
  have hch := h.children
  have hi := h.right
  have hl := h.listening rfl
  simp only [St.source] at hma hke hi hch hl
  subst hma hke hi hl
  have hv : (Op.ins k x).InRange (kids m) = true := by simp [Op.InRange, hk]
  have hms : m ∈ src c := by rw [hm]; simp
  have hd' := hd
  rw [hm, List.nodup_middle, List.nodup_cons, List.mem_append, not_or] at hd'
  have hps : ∀ y ∈ post, y ∈ src c := fun y hy => by rw [hm]; simp [hy]
  have e := takeAway_spec post (pre ++ [m]) []
    (⟨src, Function.update kids m (pyInsert (kids m) k x), some c, false, src c, ch, (src c).toFinset, (src c).flatMap kids, pr⟩ : St M C)
    (by simpa using hm) (by rw [List.append_assoc, List.singleton_append, ← hm]; simp [flatMap_same _ _ _ hch]) (by simpa [← hm] using hd)
    (fun y hy => by simpa using hps y hy)
    (fun y hy => by
      simp only
      rw [Function.update_of_ne (fun e : y = m => hd'.1.2 (e ▸ hy)), hch y (hps y hy)])
  have hrev : (src c).reverse = post.reverse ++ m :: pre.reverse := by rw [hm]; simp
  have hes : (pre ++ [m]).flatMap ch ++ [] = (pre ++ [m]).flatMap kids := by
    rw [List.append_nil]
    refine flatMap_same _ _ _ fun y hy => hch y ?_
    rw [hm]
    simp only [List.mem_append, List.mem_cons] at hy ⊢
    tauto
  have key : St.takeAway (src c).reverse
      (⟨src, Function.update kids m (pyInsert (kids m) k x), some c, false, src c, ch, (src c).toFinset, (src c).flatMap kids, pr⟩ : St M C) =
      (⟨src, Function.update kids m (pyInsert (kids m) k x), some c, false, pre ++ [m], fun y => if y ∈ post then [] else ch y,
        (src c).toFinset \ post.toFinset, (pre ++ [m]).flatMap kids, pr⟩, true) := by
    rw [hrev, takeAway_append, e]
    simp only [St.takeAway, St.masterRemoved, hes]
    rw [removeKids_raises m _ _ (by simp [hd'.1.2, hch m hms, pyInsert]; omega)]
  refine ⟨_, rfl, ?_⟩
  simp only [St.step, hv, if_true, St.fire, St.listener, St.setContainer, Op.apply, key, St.print]
  simp [St.source]

/-- The state after a listener told before the model of the removal of a child of `m` has assigned the container: `z` was the last child. -/
theorem removed_attach (s : St M C) (m : M) (z : C) (new : Option ℕ) (hd : ∀ c, (s.src c).Nodup) (hm : s.master = []) (hz : s.children m = [z])
    (hr : ∀ y, y ≠ m → s.children y = []) (hi : s.items = [z]) :
    ∃ s1, s.attach new = (s1, false) ∧ s1.container = new ∧ s1.src = s.src ∧ s1.kids = s.kids ∧ s1.printed = s.printed ∧ s1.master = s1.source ∧
      s1.children = (fun y => if y ∈ s1.source then (if y = m then s.kids m ++ [z] else s.kids y) else s.children y) ∧
      s1.items = s1.source.flatMap s1.children ++ if m ∈ s1.source then [] else [z] := by
  cases new with
  | none => exact ⟨{ s with container := none }, rfl, rfl, rfl, rfl, rfl, hm, by simp [St.source], by simp [St.source, hi]⟩
  | some c =>
    simp only [St.attach]
    by_cases hmc : m ∈ s.src c
    · obtain ⟨l1, l2, hl⟩ := List.append_of_mem hmc
      have hdc := hd c
      rw [hl] at hdc
      have hd' := hdc
      rw [List.nodup_middle, List.nodup_cons, List.mem_append, not_or] at hd'
      obtain ⟨⟨hm1, hm2⟩, h12⟩ := hd'
      have e1 := takeIn_spec l1 [] [] [z] { s with container := some c, listening := true } (by simpa using hm) (by simpa using hi)
        (by simpa using hdc.sublist (List.sublist_append_left _ _)) (by simp) (fun y hy => hr y fun e : y = m => hm1 (e ▸ hy))
      rw [List.length_nil] at e1
      rw [hl, takeIn_append, e1]
      simp only [St.takeIn, Nat.zero_add]
      have hf1 : l1.flatMap (fun y => if y ∈ l1 then s.kids y else s.children y) = l1.flatMap s.kids := flatMap_same _ _ _ fun y hy => if_pos hy
      rw [masterInserted_spec _ m l1.length l1 [] [] [z] (by simp) (Nat.le_refl _) (by simpa using hm1) (by simpa [hm1] using hz) (by simp [hf1])]
      have e : pyInsert l1 l1.length m = l1 ++ [m] := by simp [pyInsert]
      simp only [e, List.take_length, hf1, List.append_nil]
      have hne : ∀ y ∈ l2, y ∉ l1 := by
        intro y hy hy1
        rw [List.nodup_append] at h12
        exact h12.2.2 y hy1 y hy rfl
      have e2 := takeIn_spec l2 (l1 ++ [m]) [] [] (⟨s.src, s.kids, some c, true, l1 ++ [m], Function.update (fun y => if y ∈ l1 then s.kids y else s.children y) m (s.kids m ++ [z]),
        insert m (s.heard ∪ l1.toFinset), l1.flatMap s.kids ++ (s.kids m ++ [z]), s.printed⟩ : St M C) (by simp)
        (by
          simp only [List.flatMap_append, List.append_nil]
          rw [flatMap_update _ _ _ _ hm1, hf1]
          simp) (by simpa using hdc) (by simp)
        (fun y hy => by
          have hym : y ≠ m := by rintro rfl; exact hm2 hy
          simp only [Function.update_of_ne hym, if_neg (hne y hy)]
          exact hr y hym)
      rw [List.length_append, List.length_singleton] at e2
      rw [e2]
      refine ⟨_, rfl, rfl, rfl, rfl, rfl, by simp [St.source, hl], ?_, ?_⟩
      · funext y
        simp only [St.source, hl, List.mem_append, List.mem_cons]
        by_cases h2 : y ∈ l2
        · have hym : y ≠ m := by rintro rfl; exact hm2 h2
          simp [h2, hym]
        · by_cases hym : y = m
          · subst hym; simp [h2]
          · simp [h2, hym]
      · simp only [St.source, hl]
        rw [if_pos (by simp), List.append_nil, List.append_nil, List.flatMap_append, List.flatMap_append, List.flatMap_cons, flatMap_update _ _ _ _ hm1, hf1]
        have g1 : l1.flatMap (fun y => if y ∈ l2 then s.kids y else Function.update (fun y => if y ∈ l1 then s.kids y else s.children y) m (s.kids m ++ [z]) y) = l1.flatMap s.kids := by
          refine flatMap_same _ _ _ fun y hy => ?_
          have hym : y ≠ m := by rintro rfl; exact hm1 hy
          simp [hym, hy]
        have g2 : l2.flatMap (fun y => if y ∈ l2 then s.kids y else Function.update (fun y => if y ∈ l1 then s.kids y else s.children y) m (s.kids m ++ [z]) y) = l2.flatMap s.kids :=
          flatMap_same _ _ _ fun y hy => if_pos hy
        rw [g1, List.flatMap_cons, g2]
        simp [hm2]
    · have e1 := takeIn_spec (s.src c) [] [] [z] { s with container := some c, listening := true } (by simpa using hm) (by simpa using hi)
        (by simpa using hd c) (by simp) (fun y hy => hr y fun e : y = m => hmc (e ▸ hy))
      rw [List.length_nil] at e1
      rw [e1]
      refine ⟨_, rfl, rfl, rfl, rfl, rfl, by simp [St.source], ?_, ?_⟩
      · funext y
        simp only [St.source]
        by_cases hy : y ∈ s.src c
        · have hym : y ≠ m := by rintro rfl; exact hmc hy
          simp [hy, hym]
        · simp [hy]
      · simp only [St.source]
        rw [flatMap_same (fun y => if y ∈ s.src c then s.kids y else s.children y) s.kids _ (fun y hy => if_pos hy)]
        simp [hmc]

/-- C174, the same for a removal of a child of master item `m` whose last child was `z`. The assignment does not raise, but leaves `z`, and the model is
still told of the removal: if `m` is in the new container (`L` are its master items) too, its children are those it has and `z`, without the one at the index of the
removal; otherwise `z` stays behind the others, and an exception is printed, unless the first child was removed. -/
theorem C174_child_removed (s : St M C) (h : Good s) (c k : ℕ) (m : M) (x : C) (hc : s.container = some c) (hm : m ∈ s.src c)
    (hk : k < (s.kids m).length) (z : C) (hz : (s.kids m).getLast? = some z) (new : Option ℕ) :
    ∃ s1 L, s1 = s.step (.child m (.rem k x) (some new) none) ∧ L = s1.source ∧ s1.container = new ∧ s1.kids = Function.update s.kids m ((s.kids m).eraseIdx k) ∧
      s1.items = (if m ∈ L then L.flatMap (Function.update s.kids m (((s.kids m).eraseIdx k ++ [z]).eraseIdx k)) else L.flatMap s1.kids ++ if k = 0 then [] else [z]) ∧
      s1.printed = s.printed + if m ∈ L ∨ k = 0 then 0 else 1 := by
  obtain ⟨pre, post, hsp⟩ := List.append_of_mem hm
  obtain ⟨src, kids, cont, li, ma, ch, he, it, pr⟩ := s
  simp only at hc hm hk hz hsp
  subst hc
  have hd : ∀ c, (src c).Nodup := h.distinct
  have hma := h.master
  have hke := h.heard
  have hch := h.children
  have hr := h.rest
  have hi := h.right
  have hl := h.listening rfl
  simp only [St.source] at hma hke hi hch hl hr
  subst hma hke hi hl
  have hv : (Op.rem k x).InRange (kids m) = true := by simp [Op.InRange, hk]
  have hd' := hd c
  rw [hsp, List.nodup_middle, List.nodup_cons, List.mem_append, not_or] at hd'
  obtain ⟨⟨hpre, hpost⟩, hpp⟩ := hd'
  have hdj : ∀ y ∈ pre, y ∉ post := fun y h1 h2 => by
    rw [List.nodup_append] at hpp
    exact hpp.2.2 y h1 y h2 rfl
  have hps : ∀ y ∈ post, y ∈ src c := fun y hy => by rw [hsp]; simp [hy]
  have hpr : ∀ y ∈ pre, y ∈ src c := fun y hy => by rw [hsp]; simp [hy]
  have hnp : ∀ y ∈ post, y ≠ m := fun y hy e => hpost (e ▸ hy)
  have hnq : ∀ y ∈ pre, y ≠ m := fun y hy e => hpre (e ▸ hy)
  set K := Function.update kids m ((kids m).eraseIdx k) with hK
  have hKm : K m = (kids m).eraseIdx k := by simp [hK]
  have hKo : ∀ y, y ≠ m → K y = kids y := fun y hy => by rw [hK, Function.update_of_ne hy]
  have e := takeAway_spec post (pre ++ [m]) [] (⟨src, K, some c, false, src c, ch, (src c).toFinset, (src c).flatMap kids, pr⟩ : St M C)
    (by simpa using hsp) (by rw [List.append_assoc, List.singleton_append, ← hsp]; simp [flatMap_same _ _ _ hch]) (by simpa [← hsp] using hd c)
    (fun y hy => by simpa using hps y hy)
    (fun y hy => by simp only; rw [hKo y (hnp y hy), hch y (hps y hy)])
  have hdrop : (kids m).drop (K m).length = [z] := by
    have hne : kids m ≠ [] := by rintro h'; simp [h'] at hk
    rw [hKm, List.length_eraseIdx_of_lt hk]
    conv_lhs => rw [← List.dropLast_append_getLast hne]
    rw [List.drop_left' (by simp)]
    rw [List.getLast?_eq_some_getLast hne, Option.some.injEq] at hz
    rw [hz]
  have hlen : (K m).length ≤ (kids m).length := by rw [hKm]; exact (List.eraseIdx_sublist _ _).length_le
  have hrev : (src c).reverse = post.reverse ++ m :: pre.reverse := by rw [hsp]; simp
  have hes : pre.flatMap (fun y => if y ∈ post then [] else ch y) = pre.flatMap ch := flatMap_same _ _ _ fun y hy => if_neg (hdj y hy)
  have key : ∃ ch2 he2, St.takeAway (src c).reverse (⟨src, K, some c, false, src c, ch, (src c).toFinset, (src c).flatMap kids, pr⟩ : St M C) =
      (⟨src, K, some c, false, [], ch2, he2, [z], pr⟩, false) ∧ ch2 m = [z] ∧ ∀ y, y ≠ m → ch2 y = [] := by
    rw [hrev, takeAway_append, e]
    simp only [St.takeAway]
    rw [masterRemoved_spec _ m _ pre [] [] rfl hpre (by simp) (by simp [hm, hpost]) (by simpa [hpost, hch m hm] using hlen)
      (by simp [hes, hpost])]
    have e1 : (pre ++ [m]).eraseIdx ((pre ++ [m]).length - 1) = pre := by
      rw [List.length_append, List.length_singleton, Nat.add_sub_cancel, List.eraseIdx_append_of_length_le (by omega)]
      simp
    simp only [e1, decide_eq_false hpre, if_neg hpost, hch m hm, hdrop, hes, List.append_nil]
    have e2 := takeAway_spec pre [] [z] (⟨src, K, some c, false, pre, Function.update (fun y => if y ∈ post then [] else ch y) m [z],
        ((src c).toFinset \ post.toFinset).erase m, pre.flatMap ch ++ [z], pr⟩ : St M C) rfl
      (by simp only [List.nil_append]; rw [flatMap_update _ _ _ _ hpre, hes]) (by simpa using hpp.sublist (List.sublist_append_left _ _))
      (fun y hy => by simp [hnq y hy, hpr y hy, hdj y hy])
      (fun y hy => by simp only [Function.update_of_ne (hnq y hy), if_neg (hdj y hy), hKo y (hnq y hy), hch y (hpr y hy)])
    rw [e2]
    refine ⟨_, _, rfl, by simp [hpre], fun y hy => ?_⟩
    by_cases h1 : y ∈ pre
    · simp [h1]
    · by_cases h2 : y ∈ post
      · simp [h1, h2, hy]
      · simp only [h1, h2, if_false, Function.update_of_ne hy]
        refine hr y ?_
        rw [hsp]
        simp [h1, h2, hy]
  obtain ⟨ch2, he2, key, hzm, hzo⟩ := key
  obtain ⟨s1, g1, g2, g3, g4, g5, g6, g7, g8⟩ := removed_attach (⟨src, K, some c, false, [], ch2, he2, [z], pr⟩ : St M C) m z new hd rfl hzm hzo rfl
  have hhe : m ∈ (src c).toFinset := by simpa using hm
  have hstep : (⟨src, kids, some c, true, src c, ch, (src c).toFinset, (src c).flatMap kids, pr⟩ : St M C).step (.child m (.rem k x) (some new) none) =
      (St.print (s1.childRemoved m k)).1 := by
    simp only [St.step, hv, if_true, St.fire, St.listener, St.setContainer, Op.apply, ← hK, key, g1, St.print, Bool.false_eq_true, if_false, hhe, decide_true,
      St.toldChild]
    split <;> (rename_i heq; exact (congrArg Prod.fst heq).symm)
  have hsrc : ∀ t : St M C, t.src = s1.src → t.container = s1.container → t.source = s1.source := fun t h1 h2 => by rw [St.source, St.source, h1, h2]
  rw [hstep]
  refine ⟨_, s1.source, rfl, ?_⟩
  by_cases hmL : m ∈ s1.source
  · obtain ⟨l1, l2, hL⟩ := List.append_of_mem hmL
    have hnd : s1.source.Nodup := by
      rw [St.source]
      split
      · exact List.nodup_nil
      · rw [g3]; exact hd _
    rw [hL, List.nodup_middle, List.nodup_cons, List.mem_append, not_or] at hnd
    obtain ⟨⟨hm1, hm2⟩, _⟩ := hnd
    have hcm : s1.children m = (kids m).eraseIdx k ++ [z] := by rw [g7]; simp [hmL, hKm]
    have hco : ∀ y ∈ s1.source, y ≠ m → s1.children y = kids y := fun y hy hym => by rw [g7]; simp [hy, hym, hKo y hym]
    have hl1 : l1.flatMap s1.children = l1.flatMap kids := flatMap_same _ _ _ fun y hy => hco y (by rw [hL]; simp [hy]) fun e => hm1 (e ▸ hy)
    have hl2 : l2.flatMap s1.children = l2.flatMap kids := flatMap_same _ _ _ fun y hy => hco y (by rw [hL]; simp [hy]) fun e => hm2 (e ▸ hy)
    rw [childRemoved_spec s1 m k (l1.flatMap s1.children) (l2.flatMap s1.children) (by rw [offset_eq s1 l1 l2 m (g6.trans hL) hm1])
      (by rw [hcm, List.length_append, List.length_eraseIdx_of_lt hk, List.length_singleton]; omega)
      (by rw [g8, if_pos hmL, List.append_nil, hL]; simp)]
    simp only [St.print, Bool.false_eq_true, if_false]
    refine ⟨(hsrc _ rfl rfl).symm, g2, g4, ?_, by simp [hmL, g5]⟩
    rw [if_pos hmL, hL, List.flatMap_append, List.flatMap_cons, flatMap_update _ _ _ _ hm1, flatMap_update _ _ _ _ hm2, Function.update_self, hl1, hl2, hcm]
    simp
  · have hcm : s1.children m = [z] := by rw [g7]; simp [hmL, hzm]
    have hfl : s1.source.flatMap s1.children = s1.source.flatMap K := flatMap_same _ _ _ fun y hy => by
      have hym : y ≠ m := fun e => hmL (e ▸ hy)
      rw [g7]; simp [hy, hym]
    have hoff : s1.offset m = (s1.source.flatMap s1.children).length := by
      have : s1.master.takeWhile (fun y => y ≠ m) = s1.source := by
        rw [g6, List.takeWhile_eq_self_iff]
        intro y hy
        simp only [decide_eq_true_eq]
        rintro rfl
        exact hmL hy
      rw [St.offset, this, List.length_flatMap]
    rw [if_neg hmL] at g8
    by_cases hk0 : k = 0
    · subst hk0
      rw [childRemoved_spec s1 m 0 (s1.source.flatMap s1.children) [] hoff.symm (by simp [hcm]) (by rw [g8, hcm]; simp)]
      simp only [St.print, Bool.false_eq_true, if_false]
      refine ⟨(hsrc _ rfl rfl).symm, g2, g4, ?_, by simp [g5]⟩
      rw [if_neg hmL, hcm, hfl, g4]
      simp
    · rw [St.childRemoved, if_neg (by simp [hcm, hk0])]
      simp only [St.print, if_true]
      refine ⟨(hsrc _ rfl rfl).symm, g2, g4, ?_, by simp [hmL, hk0, g5]⟩
      rw [if_neg hmL, if_neg hk0, g8, hfl, g4]

/-- C174: once an assignment has raised while the container was being left, no assignment helps, and changes of the container are not noticed. -/
theorem C174_stuck (s : St M C) (c : ℕ) (hc : s.container = some c) (hl : s.listening = false) (as : List (Act M C)) :
    (s.run as).container = some c ∧ (s.run as).master = s.master := by
  have hset : ∀ (s : St M C) (new : Option ℕ), s.container = some c → s.listening = false → s.setContainer new = (s, true) := by
    intro s new hc hl
    simp [St.setContainer, hc, hl]
  have hlis : ∀ (t : St M C) (new : Option (Option ℕ)), t.container = some c → t.listening = false →
      (t.listener new).1.container = some c ∧ (t.listener new).1.listening = false ∧ (t.listener new).1.master = t.master := by
    intro t new h1 h2
    cases new with
    | none => exact ⟨h1, h2, rfl⟩
    | some new => simp [St.listener, hset t new h1 h2, St.print, h1, h2]
  have hfire : ∀ (t : St M C) (f : St M C → St M C × Bool) (b : Bool) (early late : Option (Option ℕ)),
      (b = true → ∀ u, (f u).1.container = u.container ∧ (f u).1.listening = u.listening ∧ (f u).1.master = u.master) → t.container = some c → t.listening = false →
      (St.fire t f b early late).container = some c ∧ (St.fire t f b early late).listening = false ∧ (St.fire t f b early late).master = t.master := by
    intro t f b early late hf h1 h2
    have k1 := hlis t early h1 h2
    simp only [St.fire]
    rcases hle : t.listener early with ⟨s1, _ | _⟩
    · rw [hle] at k1
      simp only at k1 ⊢
      cases b with
      | false =>
        simp only [Bool.false_eq_true, if_false]
        obtain ⟨a1, a2, a3⟩ := hlis s1 late k1.1 k1.2.1
        exact ⟨a1, a2, a3.trans k1.2.2⟩
      | true =>
        obtain ⟨f1, f2, f3⟩ := hf rfl s1
        simp only [if_true, St.print]
        rcases hfe : f s1 with ⟨s2, _ | _⟩
        · rw [hfe] at f1 f2 f3
          simp only [Bool.false_eq_true, if_false] at f1 f2 f3 ⊢
          obtain ⟨a1, a2, a3⟩ := hlis s2 late (f1.trans k1.1) (f2.trans k1.2.1)
          exact ⟨a1, a2, a3.trans (f3.trans k1.2.2)⟩
        · rw [hfe] at f1 f2 f3
          simp only [if_true] at f1 f2 f3 ⊢
          exact ⟨f1.trans k1.1, f2.trans k1.2.1, f3.trans k1.2.2⟩
    · rw [hle] at k1; exact k1
  suffices H : ∀ (as : List (Act M C)) (s : St M C), s.container = some c → s.listening = false → (s.run as).container = some c ∧ (s.run as).master = s.master from H as s hc hl
  intro as
  induction as with
  | nil => exact fun s hc _ => ⟨hc, rfl⟩
  | cons a as ih =>
    intro s hc hl
    have hstep : (s.step a).container = some c ∧ (s.step a).listening = false ∧ (s.step a).master = s.master := by
      cases a with
      | set new => rw [St.step, hset s new hc hl]; exact ⟨hc, hl, rfl⟩
      | change c' op early late =>
        rw [St.step]
        split
        · exact hfire { s with src := Function.update s.src c' (op.apply (s.src c')) } _ _ early late (by simp [hl]) hc hl
        · exact ⟨hc, hl, rfl⟩
      | child m op early late =>
        rw [St.step]
        split
        · refine hfire { s with kids := Function.update s.kids m (op.apply (s.kids m)) } _ _ early late (fun _ u => ?_) hc hl
          cases op with
          | ins k x => exact ⟨rfl, rfl, rfl⟩
          | rem k x =>
            simp only [St.toldChild, St.childRemoved]
            split_ifs <;> exact ⟨rfl, rfl, rfl⟩
        · exact ⟨hc, hl, rfl⟩
    obtain ⟨h1, h2, h3⟩ := hstep
    obtain ⟨g1, g2⟩ := ih _ h1 h2
    exact ⟨g1, g2.trans h3⟩

/-- C174 fails: the container has 1, 2 and 3, whose children are 10, 11 and 20, 21 and 30, 31. A listener told before the model makes a container
with 4 the container: when 1 is removed, the children of 1 stay; when 2 is removed, those of 1 and 3 are gone and those of 2 stay; when the second child
of 1 is removed, it stays. -/
theorem C174_counterexample :
    ∃ (src : ℕ → List ℕ) (kids : ℕ → List ℕ), src = (fun c => if c = 0 then [1, 2, 3] else [4]) ∧ kids = (fun m => [10 * m, 10 * m + 1]) ∧
      ((St.init src kids).run [.set (some 0), .change 0 (.rem 0 1) (some (some 1)) none]).items = [40, 41, 10, 11] ∧
      ((St.init src kids).run [.set (some 0), .change 0 (.rem 1 2) (some (some 1)) none]).items = [20, 21] ∧
      ((St.init src kids).run [.set (some 0), .child 1 (.rem 1 11) (some (some 1)) none]).items = [40, 41, 11] ∧
      ((St.init src kids).run [.set (some 0), .change 0 (.ins 3 5) (some (some 1)) none, .set (some 1), .set none]).items = [10, 11, 20, 21, 30, 31] :=
  ⟨_, _, rfl, rfl, by decide, by decide, by decide, by decide⟩

/-- a history that is polite: the container replaced by a listener told after the model -/
example : ((St.init (fun c => if c = 0 then [1, 2, 3] else [4, 2]) (fun m : ℕ => [10 * m, 10 * m + 1])).run
    [.set (some 0), .change 0 (.ins 1 8) none none, .child 2 (.rem 0 20) none none, .change 0 (.rem 0 1) none (some (some 1)),
      .child 2 (.ins 1 25) none none]).items = [40, 41, 21, 25] := by decide

end Verif.ListModel.FlattenedReplace
