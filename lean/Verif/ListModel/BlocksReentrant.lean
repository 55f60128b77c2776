import Verif.ListModel.FilteredProps
import Mathlib.Tactic.SplitIfs

set_option linter.unusedSectionVars false
set_option linter.unusedSimpArgs false

/-!
C185: change blocks of a filtered list model (`nion/utils/ListModel.py:274-298`, 327-345, 385-425, 493-546, 611-640, with `Event.fire`,
`nion/utils/Event.py:103-114`) when observers of the model, and observers of the source that are told after it, act while they are told:
they insert into and remove from the source, assign filters and open change blocks of their own, in any way that depends on the whole
state, and raise.

A block is `with model.changes(): ...`: `end_change` runs also if an act in the block raises. Sort key and direction are fixed, contents of
items do not change (C182), the source has no item twice: an insertion of an item that is there is left out. Indexes of the source count
from the front. `none` is a recursion that does not end within the fuel.
-/

namespace Verif.ListModel.Blocks

/-- What users and observers do: insert into the source, remove from it, assign the filter, act within a change block. -/
inductive Act (α : Type) where
  | insert (i : ℕ) (v : α)
  | remove (i : ℕ)
  | setFilter (p : α → Bool)
  | block (as : List (Act α))

/-- What observers are told: by the filtered list model, and by the source. -/
inductive Ev (α : Type) where
  | beginChanges
  | endChanges
  | reset
  | inserted (v : α) (i : ℕ)
  | removed (v : α) (i : ℕ)
  | srcInserted (v : α) (i : ℕ)
  | srcRemoved (v : α) (i : ℕ)
deriving DecidableEq

/-- What an observer sees: source, filter, items; `moved` as below. -/
structure View (α : Type) where
  src : List α
  acc : α → Bool
  moved : Bool
  items : List α

/-- The filtered list model and its source, the memory of the observers. The other fields are not in the code: whether an item was taken
from the source and put back while a block was open, since the last full update; whether an update is going on; whether anything was done
meanwhile, or the filter was assigned and the update is to come; what observers saw while neither was so and no block was open; and the
events so far. -/
structure St (α M : Type) where
  src : List α
  acc : α → Bool
  items : List α
  sorted : Bool
  level : ℕ
  mem : M
  moved : Bool
  busy : Bool
  mixed : Bool
  seen : List (View α)
  told : List (Ev α)

variable {ι α K M : Type} [DecidableEq α] [LinearOrder K]

def St.view (s : St α M) : View α := ⟨s.src, s.acc, s.moved, s.items⟩

/-- What an observer does when it is told: memory, acts in order, whether it raises then. -/
structure Reaction (α M : Type) where
  mem : M
  acts : List (Act α)
  raises : Bool

/-- Sort key and direction of the model, the order in which its sets are iterated, the observers of each event, in order, and what they
do. -/
structure Users (ι α K M : Type) where
  key : Option (α → K)
  reverse : Bool
  ord : IterOrder α
  obs : Ev α → List ι
  react : ι → Ev α → St α M → Reaction α M

abbrev Exec (α M : Type) := Act α → St α M → Option (St α M × Bool)

/-- Acts one after the other, up to an exception. -/
def acts (ex : Exec α M) : List (Act α) → St α M → Option (St α M × Bool)
  | [], s => some (s, false)
  | a :: as, s => (ex a s).bind fun r => if r.2 then some r else acts ex as r.1

/-- An observer is called. -/
def look (m : M) (s : St α M) : St α M :=
  { s with mem := m, seen := if s.busy || s.mixed || s.level ≠ 0 then s.seen else s.seen ++ [s.view] }

/-- An observer is told; the Boolean says whether it raised. -/
def tell (u : Users ι α K M) (ex : Exec α M) (e : Ev α) (i : ι) (s : St α M) : Option (St α M × Bool) :=
  (acts ex (u.react i e s).acts (look (u.react i e s).mem s)).map fun r => (r.1, r.2 || (u.react i e s).raises)

/-- `Event.fire`. -/
def fireL (u : Users ι α K M) (ex : Exec α M) (e : Ev α) : List ι → St α M → Option (St α M)
  | [], s => some s
  | i :: is, s => (tell u ex e i s).bind fun r => if r.2 then some r.1 else fireL u ex e is r.1

def fire (u : Users ι α K M) (ex : Exec α M) (e : Ev α) (s : St α M) : Option (St α M) :=
  fireL u ex e (u.obs e) { s with told := s.told ++ [e] }

/-- The three events around a change of one item (lines 404-406 and 411-413). -/
def announce (u : Users ι α K M) (ex : Exec α M) (e : Ev α) (s : St α M) : Option (St α M) :=
  (fire u ex .beginChanges s).bind fun s => (fire u ex e s).bind fun s => fire u ex .endChanges s

/-- The index of lines 398-402. -/
def position (u : Users ι α K M) (v : α) (s : St α M) : ℕ :=
  match u.key with
  | some k => findSorted (cmpKey u.reverse k) v s.items
  | none => findUnsorted s.acc v s.src

/-- Lines 385-406 `__inserted_master_item`. -/
def insertedMaster (u : Users ι α K M) (ex : Exec α M) (v : α) (s : St α M) : Option (St α M) :=
  if s.level > 0 then some s
  else if s.acc v then announce u ex (.inserted v (position u v s)) { s with items := Py.insert s.items (position u v s) v }
  else some s

/-- Lines 408-425 `__removed_master_item`. -/
def removedMaster (u : Users ι α K M) (ex : Exec α M) (v : α) (s : St α M) : Option (St α M) :=
  if s.level > 0 then some s
  else if v ∈ s.items then announce u ex (.removed v (s.items.idxOf v)) { s with items := s.items.erase v }
  else some s

/-- Lines 469-490 `__build_items`. -/
def build (u : Users ι α K M) (s : St α M) : List α :=
  (match u.key with
    | some k => s.src.insertionSort (leKey u.reverse k)
    | none => s.src).filter s.acc

/-- The comparison of lines 517-520 and 399: by the sort key, or by the index in the new items, `none` for an item that is not there
(`KeyError`). -/
def cmpOf (u : Users ι α K M) (new : List α) (y x : α) : Option Bool :=
  match u.key with
  | some k => some (cmpKey u.reverse k y x)
  | none => if y ∈ new ∧ x ∈ new then some (cmpKey u.reverse (fun z => new.idxOf z) y x) else none

/-- Lines 367-372 with a comparison that may raise. -/
def searchE (p : α → Option Bool) (l : List α) : ℕ → ℕ → ℕ → Option ℕ
  | 0, low, _ => some low
  | fuel + 1, low, high =>
    if low < high then
      match l[(low + high) / 2]? with
      | some y =>
        match p y with
        | some true => searchE p l fuel ((low + high) / 2 + 1) high
        | some false => searchE p l fuel low ((low + high) / 2)
        | none => none
      | none => some low
    else some low

/-- Lines 363-373. -/
def findE (cmp : α → α → Option Bool) (x : α) (l : List α) : Option ℕ := searchE (fun y => cmp y x) l l.length 0 l.length

/-- Lines 525-530: `i` is the enumeration index, `r` is `items_removed`; the Boolean says whether the index was out of range. -/
def removeLoop (u : Users ι α K M) (ex : Exec α M) (new : List α) : List α → ℕ → ℕ → St α M → Option (St α M × Bool)
  | [], _, _, s => some (s, false)
  | v :: vs, i, r, s =>
    if v ∈ new then removeLoop u ex new vs (i + 1) r s
    else if i - r < s.items.length then
      (fire u ex (.removed v (i - r)) { s with items := s.items.eraseIdx (i - r) }).bind (removeLoop u ex new vs (i + 1) (r + 1))
    else some (s, true)

/-- Lines 532-533. -/
def insertLoop (u : Users ι α K M) (ex : Exec α M) (new : List α) : List α → St α M → Option (St α M × Bool)
  | [], s => some (s, false)
  | v :: vs, s =>
    match findE (cmpOf u new) v s.items with
    | none => some (s, true)
    | some i => (announce u ex (.inserted v i) { s with items := Py.insert s.items i v }).bind (insertLoop u ex new vs)

/-- Lines 521-533. -/
def incremental (u : Users ι α K M) (ex : Exec α M) (old new : List α) (s : St α M) : Option (St α M × Bool) :=
  (removeLoop u ex new old 0 0 s).bind fun r =>
    if r.2 then some r else insertLoop u ex new (u.ord.f (new.filter fun x => x ∉ old)) r.1

/-- Lines 536-539; the Boolean says whether the list was empty (`IndexError`). -/
def popLoop (u : Users ι α K M) (ex : Exec α M) : List α → St α M → Option (St α M × Bool)
  | [], s => some (s, false)
  | v :: vs, s =>
    if s.items = [] then some (s, true)
    else (fire u ex (.removed v (s.items.length - 1)) { s with items := s.items.dropLast }).bind (popLoop u ex vs)

/-- Lines 540-544. -/
def appendLoop (u : Users ι α K M) (ex : Exec α M) : List α → St α M → Option (St α M)
  | [], s => some s
  | v :: vs, s => (fire u ex (.inserted v s.items.length) { s with items := s.items ++ [v] }).bind (appendLoop u ex vs)

/-- Lines 536-544. -/
def replace (u : Users ι α K M) (ex : Exec α M) (old new : List α) (s : St α M) : Option (St α M × Bool) :=
  (popLoop u ex old s).bind fun r => if r.2 then some r else (appendLoop u ex new r.1).map fun t => (t, false)

/-- An update begins. -/
def opened (s : St α M) : St α M :=
  { s with busy := true, mixed := s.mixed && (s.sorted || s.busy), moved := s.moved && s.sorted }

/-- Lines 493-546 `__update_items`. -/
def updateItems (u : Users ι α K M) (ex : Exec α M) (s : St α M) : Option (St α M × Bool) :=
  if s.level > 0 then some (s, false)
  else (fire u ex .beginChanges (opened s)).bind fun t =>
    (if t.sorted then incremental u ex s.items (build u s) t else replace u ex s.items (build u s) t).bind fun r =>
      if r.2 then some ({ r.1 with busy := s.busy }, true)
      else (fire u ex .endChanges { r.1 with sorted := true, busy := s.busy }).map fun t => (t, false)

/-- Something is done. -/
def touch (s : St α M) : St α M := { s with mixed := s.mixed || s.busy }

/-- One act, with the nested ones run by `ex`: lines 35-42 and 611-627; 45-53 and 630-640; 334-340; 274-298. -/
def body (u : Users ι α K M) (ex : Exec α M) : Exec α M
  | .insert i v, s =>
    if v ∈ s.src then some (touch s, false)
    else (insertedMaster u ex v { touch s with src := Py.insert s.src i v, moved := s.moved || decide (v ∈ s.items) }).bind fun t =>
      (fire u ex (.srcInserted v i) t).map fun t => (t, false)
  | .remove i, s =>
    match s.src[i]? with
    | some v => (removedMaster u ex v { touch s with src := s.src.eraseIdx i }).bind fun t =>
      (fire u ex (.srcRemoved v i) t).map fun t => (t, false)
    | none => some (touch s, true)
  | .setFilter p, s =>
    (fire u ex .reset { touch s with acc := p, sorted := false, mixed := s.mixed || s.busy || decide (s.level = 0) }).bind
      (updateItems u ex)
  | .block as, s =>
    (acts ex as { touch s with level := s.level + 1 }).bind fun r =>
      if r.1.level - 1 = 0 then (updateItems u ex { r.1 with level := r.1.level - 1 }).map fun q => (q.1, r.2 || q.2)
      else some ({ r.1 with level := r.1.level - 1 }, r.2)

def exec (u : Users ι α K M) : ℕ → Exec α M
  | 0, _, _ => none
  | n + 1, a, s => body u (exec u n) a s

/-- Acts from outside, whether they raise or not. -/
def run (ex : Exec α M) : List (Act α) → St α M → Option (St α M)
  | [], s => some s
  | a :: as, s => (ex a s).bind fun r => run ex as r.1

/-! ### Specification -/

/-- The items are the accepted items of the source, each once; sorted if there is a sort key; in the order of the source if there is
none, the direction is not reversed and no item was moved within a block. -/
def View.Right (key : Option (α → K)) (rev : Bool) (w : View α) : Prop :=
  w.items.Perm (w.src.filter w.acc) ∧
    match key with
    | some k => w.items.Pairwise fun a b => if rev then k b ≤ k a else k a ≤ k b
    | none => rev = false → w.moved = false → w.items = w.src.filter w.acc

/-- A new filtered list model. -/
def start (u : Users ι α K M) (src : List α) (acc : α → Bool) (m : M) : St α M :=
  let s : St α M := ⟨src, acc, [], true, 0, m, false, false, false, [], []⟩
  { s with items := build u s }

/-! ### Proof -/

variable {u : Users ι α K M} {ex : Exec α M} {s t : St α M}

/-- The order of the items, some of which may be gone from the source. -/
def Ordered (u : Users ι α K M) (moved : Bool) (src l : List α) : Prop :=
  match u.key with
  | some k => l.Pairwise (leKey u.reverse k)
  | none => u.reverse = false → moved = false → (l.filter fun x => x ∈ src).Sublist src

structure Pre (u : Users ι α K M) (s : St α M) : Prop where
  nodup : s.src.Nodup
  order : s.busy = false → s.mixed = false → s.items.Nodup ∧ Ordered u s.moved s.src s.items
  seen : ∀ w ∈ s.seen, w.Right u.key u.reverse

structure Inv (u : Users ι α K M) (s : St α M) : Prop extends Pre u s where
  right : s.busy = false → s.mixed = false → s.level = 0 → s.items.Perm (s.src.filter s.acc)

/-- The fields of the model. -/
structure Same (s t : St α M) : Prop where
  src : t.src = s.src
  acc : t.acc = s.acc
  items : t.items = s.items
  sorted : t.sorted = s.sorted
  moved : t.moved = s.moved

structure Eff (u : Users ι α K M) (s t : St α M) : Prop where
  inv : Inv u t
  busy : t.busy = s.busy
  level : t.level = s.level
  still : s.busy = true → t.mixed = false → s.mixed = false ∧ Same s t

def Ok (u : Users ι α K M) (ex : Exec α M) : Prop := ∀ a s r, Inv u s → ex a s = some r → Eff u s r.1

theorem Same.refl (s : St α M) : Same s s := ⟨rfl, rfl, rfl, rfl, rfl⟩

theorem Same.trans {r : St α M} (h : Same s t) (k : Same t r) : Same s r :=
  ⟨k.1.trans h.1, k.2.trans h.2, k.3.trans h.3, k.4.trans h.4, k.5.trans h.5⟩

theorem Eff.refl (h : Inv u s) : Eff u s s := ⟨h, rfl, rfl, fun _ h => ⟨h, .refl s⟩⟩

theorem Eff.trans {r : St α M} (h1 : Eff u s t) (h2 : Eff u t r) : Eff u s r := by
  refine ⟨h2.inv, h2.busy.trans h1.busy, h2.level.trans h1.level, fun hb hm => ?_⟩
  obtain ⟨a, b⟩ := h2.still (h1.busy.trans hb) hm
  obtain ⟨c, d⟩ := h1.still hb a
  exact ⟨c, d.trans b⟩

/-- Items that are in order and the right ones. -/
theorem ordered_right (w : View α) (ho : Ordered u w.moved w.src w.items)
    (hp : w.items.Perm (w.src.filter w.acc)) : w.Right u.key u.reverse := by
  refine ⟨hp, ?_⟩
  unfold Ordered at ho
  cases hk : u.key with
  | some k =>
    rw [hk] at ho
    exact ho
  | none =>
    rw [hk] at ho
    intro hr hm
    have h1 := ho hr hm
    have h2 : (w.items.filter fun x => x ∈ w.src) = w.items :=
      List.filter_eq_self.2 fun a ha => decide_eq_true (List.mem_filter.1 (hp.mem_iff.1 ha)).1
    rw [h2] at h1
    have h3 : w.items.filter w.acc = w.items := List.filter_eq_self.2 fun a ha => (List.mem_filter.1 (hp.mem_iff.1 ha)).2
    have h4 := h1.filter w.acc
    rw [h3] at h4
    exact h4.eq_of_length hp.length_eq

theorem Right.ordered {w : View α} (h : w.Right u.key u.reverse) : Ordered u w.moved w.src w.items := by
  have h2 := h.2
  unfold Ordered
  cases hk : u.key with
  | some k =>
    rw [hk] at h2
    exact h2
  | none =>
    rw [hk] at h2
    intro hr hm
    have h1 : w.items = w.src.filter w.acc := h2 hr hm
    rw [h1]
    exact List.filter_sublist.trans List.filter_sublist

theorem Inv.view (h : Inv u s) (hb : s.busy = false) (hm : s.mixed = false) (hl : s.level = 0) : s.view.Right u.key u.reverse :=
  ordered_right s.view (h.order hb hm).2 (h.right hb hm hl)

theorem acts_eff (h : Ok u ex) (as : List (Act α)) (s : St α M) (r : St α M × Bool) (hi : Inv u s) (he : acts ex as s = some r) :
    Eff u s r.1 := by
  induction as generalizing s with
  | nil =>
    simp only [acts, Option.some.injEq] at he
    exact he ▸ .refl hi
  | cons a as ih =>
    simp only [acts, Option.bind_eq_some_iff] at he
    obtain ⟨r1, h1, h2⟩ := he
    have e := h a s r1 hi h1
    split at h2
    · cases h2
      exact e
    · exact e.trans (ih _ e.inv h2)

theorem look_eff (m : M) (hi : Inv u s) : Eff u s (look m s) := by
  refine ⟨⟨⟨hi.nodup, hi.order, fun w hw => ?_⟩, hi.right⟩, rfl, rfl, fun _ hm => ⟨hm, ⟨rfl, rfl, rfl, rfl, rfl⟩⟩⟩
  simp only [look] at hw
  split at hw
  · exact hi.seen w hw
  · rename_i hb
    simp only [Bool.or_eq_true, not_or, Bool.not_eq_true, decide_eq_true_eq, ne_eq, not_not] at hb
    rcases List.mem_append.1 hw with hw | hw
    · exact hi.seen w hw
    · rw [List.mem_singleton.1 hw]
      exact hi.view hb.1.1 hb.1.2 hb.2

theorem tell_eff (h : Ok u ex) (e : Ev α) (i : ι) (s : St α M) (r : St α M × Bool) (hi : Inv u s) (he : tell u ex e i s = some r) :
    Eff u s r.1 := by
  simp only [tell, Option.map_eq_some_iff] at he
  obtain ⟨r1, h1, rfl⟩ := he
  have k := look_eff (u.react i e s).mem hi
  exact k.trans (acts_eff h _ _ r1 k.inv h1)

theorem fireL_eff (h : Ok u ex) (e : Ev α) (is : List ι) (s t : St α M) (hi : Inv u s) (he : fireL u ex e is s = some t) : Eff u s t := by
  induction is generalizing s with
  | nil =>
    simp only [fireL, Option.some.injEq] at he
    exact he ▸ .refl hi
  | cons i is ih =>
    simp only [fireL, Option.bind_eq_some_iff] at he
    obtain ⟨r1, h1, h2⟩ := he
    have k := tell_eff h e i s r1 hi h1
    split at h2
    · cases h2
      exact k
    · exact k.trans (ih _ k.inv h2)

theorem fire_eff (h : Ok u ex) (e : Ev α) (s t : St α M) (hi : Inv u s) (he : fire u ex e s = some t) : Eff u s t := by
  have k : Eff u s { s with told := s.told ++ [e] } :=
    ⟨⟨⟨hi.nodup, hi.order, hi.seen⟩, hi.right⟩, rfl, rfl, fun _ hm => ⟨hm, ⟨rfl, rfl, rfl, rfl, rfl⟩⟩⟩
  exact k.trans (fireL_eff h e _ _ t k.inv he)

theorem announce_eff (h : Ok u ex) (e : Ev α) (s t : St α M) (hi : Inv u s) (he : announce u ex e s = some t) : Eff u s t := by
  simp only [announce, Option.bind_eq_some_iff] at he
  obtain ⟨t1, h1, t2, h2, h3⟩ := he
  have k1 := fire_eff h _ _ _ hi h1
  have k2 := fire_eff h _ _ _ k1.inv h2
  exact (k1.trans k2).trans (fire_eff h _ _ _ k2.inv h3)

/-- While an update is going on, the items can be anything. -/
theorem Inv.items (h : Inv u s) (hb : s.busy = true) (l : List α) : Inv u { s with items := l } :=
  ⟨⟨h.nodup, fun hf => absurd (hb.symm.trans hf) (by simp), h.seen⟩, fun hf => absurd (hb.symm.trans hf) (by simp)⟩

/-! #### The loops -/

theorem searchE_eq (p : α → Option Bool) (q : α → Bool) (l : List α) (h : ∀ y ∈ l, p y = some (q y)) (fuel low high : ℕ) :
    searchE p l fuel low high = some (bsearch q l fuel low high) := by
  induction fuel generalizing low high with
  | zero => rfl
  | succ n ih =>
    simp only [searchE, bsearch]
    split
    · cases hl : l[(low + high) / 2]? with
      | none => rfl
      | some y =>
        have hy : y ∈ l := List.mem_of_getElem? hl
        simp only [h y hy]
        cases q y <;> simp [ih]
    · rfl

/-- The comparison when it does not raise. -/
def cmpT (u : Users ι α K M) (new : List α) : α → α → Bool :=
  match u.key with
  | some k => cmpKey u.reverse k
  | none => cmpKey u.reverse fun z => new.idxOf z

theorem findE_eq (u : Users ι α K M) (new l : List α) (v : α) (hv : v ∈ new) (hl : ∀ y ∈ l, y ∈ new) :
    findE (cmpOf u new) v l = some (findSorted (cmpT u new) v l) := by
  refine searchE_eq _ _ _ (fun y hy => ?_) _ _ _
  unfold cmpOf cmpT
  cases u.key with
  | some k => rfl
  | none => simp [hl y hy, hv]

theorem removeLoop_part (h : Ok u ex) (new vs kept : List α) (i r : ℕ) (s : St α M) (q : St α M × Bool) (hi : Inv u s)
    (hb : s.busy = true) (hr : i = kept.length + r) (he : removeLoop u ex new vs i r s = some q) :
    Inv u q.1 ∧ q.1.busy = true ∧ q.1.level = s.level ∧ (q.1.mixed = false → s.mixed = false ∧ (s.items = kept ++ vs →
      q.2 = false ∧ Same { s with items := kept ++ vs.filter fun x => x ∈ new } q.1)) := by
  induction vs generalizing kept i r s with
  | nil =>
    simp only [removeLoop, Option.some.injEq] at he
    subst he
    refine ⟨hi, hb, rfl, fun hm => ⟨hm, fun hk => ⟨rfl, rfl, rfl, ?_, rfl, rfl⟩⟩⟩
    simpa using hk
  | cons v vs ih =>
    unfold removeLoop at he
    split at he
    · rename_i hv
      obtain ⟨g1, g2, g3, g4⟩ := ih (kept ++ [v]) (i + 1) r s hi hb (by simp; omega) he
      refine ⟨g1, g2, g3, fun hm => ⟨(g4 hm).1, fun hk => ?_⟩⟩
      have := (g4 hm).2 (by rw [hk]; simp)
      rw [List.filter_cons_of_pos (by simpa using hv)]
      simpa using this
    · rename_i hv
      split at he
      · rw [Option.bind_eq_some_iff] at he
        obtain ⟨t, h1, h2⟩ := he
        have e := fire_eff h _ _ _ (hi.items hb _) h1
        obtain ⟨g1, g2, g3, g4⟩ := ih kept (i + 1) (r + 1) t e.inv (e.busy.trans hb) (by omega) h2
        refine ⟨g1, g2, g3.trans e.level, fun hm => ?_⟩
        obtain ⟨a1, a2⟩ := g4 hm
        obtain ⟨b1, b2⟩ := e.still hb a1
        refine ⟨b1, fun hk => ?_⟩
        have hpos : i - r = kept.length := by omega
        have hx : t.items = kept ++ vs := by
          rw [b2.items]
          show s.items.eraseIdx (i - r) = kept ++ vs
          rw [hpos, hk, List.eraseIdx_append_of_length_le (le_refl _)]
          simp
        obtain ⟨c1, c2⟩ := a2 hx
        refine ⟨c1, c2.src.trans b2.src, c2.acc.trans b2.acc, ?_, c2.sorted.trans b2.sorted, c2.moved.trans b2.moved⟩
        rw [c2.items, List.filter_cons_of_neg (by simpa using hv)]
      · cases he
        refine ⟨hi, hb, rfl, fun hm => ⟨hm, fun hk => ?_⟩⟩
        rename_i hl
        rw [hk] at hl
        simp at hl
        omega

theorem insertLoop_part (h : Ok u ex) (new vs : List α) (hv : ∀ v ∈ vs, v ∈ new) (s : St α M) (q : St α M × Bool) (hi : Inv u s)
    (hb : s.busy = true) (he : insertLoop u ex new vs s = some q) :
    Inv u q.1 ∧ q.1.busy = true ∧ q.1.level = s.level ∧ (q.1.mixed = false → s.mixed = false ∧ ((∀ y ∈ s.items, y ∈ new) →
      q.2 = false ∧ ∃ x, x.Perm (vs ++ s.items) ∧ (∀ le, IsCmp (cmpT u new) le → s.items.Pairwise le → x.Pairwise le) ∧
        Same { s with items := x } q.1)) := by
  induction vs generalizing s with
  | nil =>
    simp only [insertLoop, Option.some.injEq] at he
    subst he
    exact ⟨hi, hb, rfl, fun hm => ⟨hm, fun _ => ⟨rfl, s.items, .refl _, fun _ _ h => h, rfl, rfl, rfl, rfl, rfl⟩⟩⟩
  | cons v vs ih =>
    unfold insertLoop at he
    split at he
    · cases he
      rename_i hf
      refine ⟨hi, hb, rfl, fun hm => ⟨hm, fun hk => ?_⟩⟩
      rw [findE_eq u new _ v (hv v (by simp)) hk] at hf
      cases hf
    · rename_i j hf
      rw [Option.bind_eq_some_iff] at he
      obtain ⟨t, h1, h2⟩ := he
      have e := announce_eff h _ _ _ (hi.items hb _) h1
      obtain ⟨g1, g2, g3, g4⟩ := ih (fun w hw => hv w (by simp [hw])) t e.inv (e.busy.trans hb) h2
      refine ⟨g1, g2, g3.trans e.level, fun hm => ?_⟩
      obtain ⟨a1, a2⟩ := g4 hm
      obtain ⟨b1, b2⟩ := e.still hb a1
      refine ⟨b1, fun hk => ?_⟩
      rw [findE_eq u new _ v (hv v (by simp)) hk, Option.some.injEq] at hf
      subst hf
      have hx : t.items = Py.insert s.items (findSorted (cmpT u new) v s.items : ℕ) v := b2.items
      have hp := perm_pyInsert s.items (findSorted (cmpT u new) v s.items : ℕ) v
      obtain ⟨c1, x, c2, c3, c4⟩ := a2 (fun y hy => by
        rw [hx, hp.mem_iff] at hy
        rcases List.mem_cons.1 hy with rfl | hy
        · exact hv y (by simp)
        · exact hk y hy)
      refine ⟨c1, x, ?_, fun le hle hs => c3 le hle (by rw [hx]; exact sorted_insert hle hs v), c4.src.trans b2.src, c4.acc.trans b2.acc,
        c4.items, c4.sorted.trans b2.sorted, c4.moved.trans b2.moved⟩
      rw [hx] at c2
      exact c2.trans ((hp.append_left vs).trans List.perm_middle)

theorem incremental_part (h : Ok u ex) (new : List α) (hn : new.Nodup) (s : St α M) (q : St α M × Bool) (hi : Inv u s)
    (hb : s.busy = true) (old : List α) (he : incremental u ex old new s = some q) :
    Inv u q.1 ∧ q.1.busy = true ∧ q.1.level = s.level ∧ (q.1.mixed = false → s.mixed = false ∧ (s.items = old → old.Nodup →
      q.2 = false ∧ ∃ x, x.Perm new ∧ (∀ le, IsCmp (cmpT u new) le → (old.filter fun y => y ∈ new).Pairwise le → x.Pairwise le) ∧
        Same { s with items := x } q.1)) := by
  simp only [incremental, Option.bind_eq_some_iff] at he
  obtain ⟨r, h1, h2⟩ := he
  obtain ⟨g1, g2, g3, g4⟩ := removeLoop_part h new old [] 0 0 s r hi hb rfl h1
  split at h2
  · cases h2
    rename_i hr
    refine ⟨g1, g2, g3, fun hm => ⟨(g4 hm).1, fun hs _ => ?_⟩⟩
    exact absurd (((g4 hm).2 (by simpa using hs)).1.symm.trans hr) (by simp)
  · obtain ⟨f1, f2, f3, f4⟩ := insertLoop_part h new _ (fun v hv => (List.mem_filter.1 ((u.ord.perm _).mem_iff.1 hv)).1) r.1 q g1 g2 h2
    refine ⟨f1, f2, f3.trans g3, fun hm => ?_⟩
    obtain ⟨a1, a2⟩ := f4 hm
    obtain ⟨b1, b2⟩ := g4 a1
    refine ⟨b1, fun hs ho => ?_⟩
    obtain ⟨-, c2⟩ := b2 (by simpa using hs)
    have hx : r.1.items = old.filter fun y => y ∈ new := by simpa using c2.items
    obtain ⟨d1, x, d2, d3, d4⟩ := a2 (fun y hy => by rw [hx] at hy; simpa using (List.mem_filter.1 hy).2)
    rw [hx] at d2 d3
    refine ⟨d1, x, ?_, d3, d4.src.trans c2.src, d4.acc.trans c2.acc, d4.items, d4.sorted.trans c2.sorted, d4.moved.trans c2.moved⟩
    refine d2.trans (((u.ord.perm _).append_right _).trans ?_)
    rw [List.perm_ext_iff_of_nodup _ hn]
    · intro x; simp; tauto
    · rw [List.nodup_append]
      refine ⟨hn.filter _, ho.filter _, fun a ha b hb' => ?_⟩
      rintro rfl
      simp at ha hb'; exact ha.2 hb'.1

theorem popLoop_part (h : Ok u ex) (vs : List α) (s : St α M) (q : St α M × Bool) (hi : Inv u s) (hb : s.busy = true)
    (he : popLoop u ex vs s = some q) :
    Inv u q.1 ∧ q.1.busy = true ∧ q.1.level = s.level ∧ (q.1.mixed = false → s.mixed = false ∧ (s.items.length = vs.length →
      q.2 = false ∧ Same { s with items := [] } q.1)) := by
  induction vs generalizing s with
  | nil =>
    simp only [popLoop, Option.some.injEq] at he
    subst he
    refine ⟨hi, hb, rfl, fun hm => ⟨hm, fun hl => ⟨rfl, rfl, rfl, ?_, rfl, rfl⟩⟩⟩
    exact List.length_eq_zero_iff.1 hl
  | cons v vs ih =>
    unfold popLoop at he
    split at he
    · cases he
      rename_i h0
      exact ⟨hi, hb, rfl, fun hm => ⟨hm, fun hl => by rw [h0] at hl; simp at hl⟩⟩
    · rw [Option.bind_eq_some_iff] at he
      obtain ⟨t, h1, h2⟩ := he
      have e := fire_eff h _ _ _ (hi.items hb _) h1
      obtain ⟨g1, g2, g3, g4⟩ := ih t e.inv (e.busy.trans hb) h2
      refine ⟨g1, g2, g3.trans e.level, fun hm => ?_⟩
      obtain ⟨a1, a2⟩ := g4 hm
      obtain ⟨b1, b2⟩ := e.still hb a1
      refine ⟨b1, fun hl => ?_⟩
      obtain ⟨c1, c2⟩ := a2 (by rw [b2.items]; simp at hl ⊢; omega)
      exact ⟨c1, c2.src.trans b2.src, c2.acc.trans b2.acc, c2.items, c2.sorted.trans b2.sorted, c2.moved.trans b2.moved⟩

theorem appendLoop_part (h : Ok u ex) (vs : List α) (s t : St α M) (hi : Inv u s) (hb : s.busy = true)
    (he : appendLoop u ex vs s = some t) :
    Inv u t ∧ t.busy = true ∧ t.level = s.level ∧ (t.mixed = false → s.mixed = false ∧ Same { s with items := s.items ++ vs } t) := by
  induction vs generalizing s with
  | nil =>
    simp only [appendLoop, Option.some.injEq] at he
    subst he
    exact ⟨hi, hb, rfl, fun hm => ⟨hm, rfl, rfl, by simp, rfl, rfl⟩⟩
  | cons v vs ih =>
    simp only [appendLoop, Option.bind_eq_some_iff] at he
    obtain ⟨t1, h1, h2⟩ := he
    have e := fire_eff h _ _ _ (hi.items hb _) h1
    obtain ⟨g1, g2, g3, g4⟩ := ih t1 e.inv (e.busy.trans hb) h2
    refine ⟨g1, g2, g3.trans e.level, fun hm => ?_⟩
    obtain ⟨a1, a2⟩ := g4 hm
    obtain ⟨b1, b2⟩ := e.still hb a1
    refine ⟨b1, a2.src.trans b2.src, a2.acc.trans b2.acc, ?_, a2.sorted.trans b2.sorted, a2.moved.trans b2.moved⟩
    rw [a2.items]
    show t1.items ++ vs = s.items ++ v :: vs
    rw [b2.items]
    simp

theorem replace_part (h : Ok u ex) (new : List α) (s : St α M) (q : St α M × Bool) (hi : Inv u s) (hb : s.busy = true) (old : List α)
    (he : replace u ex old new s = some q) :
    Inv u q.1 ∧ q.1.busy = true ∧ q.1.level = s.level ∧ (q.1.mixed = false → s.mixed = false ∧ (s.items = old →
      q.2 = false ∧ Same { s with items := new } q.1)) := by
  simp only [replace, Option.bind_eq_some_iff] at he
  obtain ⟨r, h1, h2⟩ := he
  obtain ⟨g1, g2, g3, g4⟩ := popLoop_part h old s r hi hb h1
  split at h2
  · cases h2
    rename_i hr
    refine ⟨g1, g2, g3, fun hm => ⟨(g4 hm).1, fun hs => ?_⟩⟩
    exact absurd (((g4 hm).2 (by rw [hs])).1.symm.trans hr) (by simp)
  · rw [Option.map_eq_some_iff] at h2
    obtain ⟨t, h2, rfl⟩ := h2
    obtain ⟨f1, f2, f3, f4⟩ := appendLoop_part h new r.1 t g1 g2 h2
    refine ⟨f1, f2, f3.trans g3, fun hm => ?_⟩
    obtain ⟨a1, a2⟩ := f4 hm
    obtain ⟨b1, b2⟩ := g4 a1
    refine ⟨b1, fun hs => ⟨rfl, ?_⟩⟩
    obtain ⟨-, c2⟩ := b2 (by rw [hs])
    refine ⟨a2.src.trans c2.src, a2.acc.trans c2.acc, ?_, a2.sorted.trans c2.sorted, a2.moved.trans c2.moved⟩
    rw [a2.items]
    show r.1.items ++ new = new
    rw [c2.items]
    simp

/-! #### Updates -/

theorem build_perm (u : Users ι α K M) (s : St α M) : (build u s).Perm (s.src.filter s.acc) := by
  unfold build
  cases u.key with
  | none => exact .refl _
  | some k => exact (List.perm_insertionSort _ _).filter _

theorem build_right (u : Users ι α K M) (s : St α M) : View.Right u.key u.reverse ⟨s.src, s.acc, s.moved, build u s⟩ := by
  refine ⟨build_perm u s, ?_⟩
  unfold build
  cases hk : u.key with
  | none => exact fun _ _ => rfl
  | some k =>
    have : Std.Total (leKey u.reverse k) := ⟨(isCmp_key u.reverse k).total⟩
    have : IsTrans α (leKey u.reverse k) := ⟨(isCmp_key u.reverse k).trans⟩
    exact (List.pairwise_insertionSort (leKey u.reverse k) _).filter _

/-- The order after an incremental update. -/
theorem ordered_incr (u : Users ι α K M) (s : St α M) (hn : s.src.Nodup) (ho : Ordered u s.moved s.src s.items) (x : List α)
    (hp : x.Perm (build u s))
    (hx : ∀ le, IsCmp (cmpT u (build u s)) le → (s.items.filter fun y => y ∈ build u s).Pairwise le → x.Pairwise le) :
    Ordered u s.moved s.src x := by
  have hbn : (build u s).Nodup := (build_perm u s).nodup_iff.2 (hn.filter _)
  unfold Ordered at ho ⊢
  unfold cmpT at hx
  cases hk : u.key with
  | some k =>
    rw [hk] at ho hx
    exact hx _ (isCmp_key u.reverse k) (ho.filter _)
  | none =>
    rw [hk] at ho hx
    simp only at ho hx ⊢
    intro hr hm
    rw [hr] at hx
    have hb : build u s = s.src.filter s.acc := by unfold build; rw [hk]
    have hsub : (s.items.filter fun y => y ∈ build u s).Sublist (build u s) := by
      have : (s.items.filter fun y => y ∈ build u s) = (s.items.filter fun y => y ∈ s.src).filter s.acc := by
        rw [List.filter_filter, hb]
        apply List.filter_congr
        intro y _
        simp [Bool.and_comm]
      rw [this, hb]
      exact (ho hr hm).filter _
    have h2 := hx _ (isCmp_key false fun z => (build u s).idxOf z) ((pairwise_idxOf hbn).sublist hsub)
    have : x = build u s := by
      refine List.Perm.eq_of_pairwise ?_ h2 (pairwise_idxOf hbn) hp
      intro a b ha hb' h1 h2
      simp only [leKey, Bool.false_eq_true, if_false] at h1 h2
      exact (List.idxOf_inj (hp.mem_iff.1 ha)).1 (le_antisymm h1 h2)
    rw [this, hb]
    exact List.filter_sublist.trans List.filter_sublist

theorem updateItems_eff (h : Ok u ex) (s : St α M) (r : St α M × Bool) (hi : Pre u s) (hl : s.level = 0)
    (he : updateItems u ex s = some r) :
    Inv u r.1 ∧ r.1.busy = s.busy ∧ r.1.level = 0 ∧ (s.busy = true → r.1.mixed = false → s.mixed = false) ∧
      (s.busy = false → r.1.mixed = false → r.2 = true → False) := by
  have hnl : ¬ s.level > 0 := by omega
  simp only [updateItems, if_neg hnl, Option.bind_eq_some_iff] at he
  obtain ⟨t, h1, q, h2, h3⟩ := he
  have i0 : Inv u (opened s) := ⟨⟨hi.nodup, fun hf => (by cases hf), hi.seen⟩, fun hf => (by cases hf)⟩
  have e := fire_eff h _ _ _ i0 h1
  have hbn : (build u s).Nodup := (build_perm u s).nodup_iff.2 (hi.nodup.filter _)
  have key : Inv u q.1 ∧ q.1.busy = true ∧ q.1.level = 0 ∧ (q.1.mixed = false → (s.busy = true → s.mixed = false) ∧
      (s.busy = false → q.2 = false ∧ q.1.items.Nodup ∧ Ordered u q.1.moved q.1.src q.1.items ∧
        q.1.items.Perm (q.1.src.filter q.1.acc))) := by
    split at h2
    · rename_i hs
      obtain ⟨g1, g2, g3, g4⟩ := incremental_part h _ hbn t q e.inv e.busy s.items h2
      refine ⟨g1, g2, g3.trans (e.level.trans hl), fun hm => ?_⟩
      obtain ⟨a1, a2⟩ := g4 hm
      obtain ⟨b1, b2⟩ := e.still rfl a1
      have hmix : s.mixed = false ∨ (s.sorted || s.busy) = false := by
        have b1 : (s.mixed && (s.sorted || s.busy)) = false := b1
        rwa [Bool.and_eq_false_iff] at b1
      have hso : s.sorted = true := by rw [← hs]; exact b2.sorted.symm
      have hm0 : s.mixed = false := by
        rcases hmix with h | h
        · exact h
        · rw [hso] at h; simp at h
      refine ⟨fun _ => hm0, fun hb => ?_⟩
      obtain ⟨o1, o2⟩ := hi.order hb hm0
      obtain ⟨c1, x, c2, c3, c4⟩ := a2 b2.items o1
      have hx : q.1.items = x := c4.items
      have hsrc : q.1.src = s.src := c4.src.trans b2.src
      have hacc : q.1.acc = s.acc := c4.acc.trans b2.acc
      have hmv : q.1.moved = s.moved := by
        have : q.1.moved = (s.moved && s.sorted) := c4.moved.trans b2.moved
        rw [this, hso, Bool.and_true]
      rw [hx, hsrc, hacc, hmv]
      exact ⟨c1, c2.nodup_iff.2 hbn, ordered_incr u s hi.nodup o2 x c2 c3, c2.trans (build_perm u s)⟩
    · rename_i hs
      obtain ⟨g1, g2, g3, g4⟩ := replace_part h _ t q e.inv e.busy s.items h2
      refine ⟨g1, g2, g3.trans (e.level.trans hl), fun hm => ?_⟩
      obtain ⟨a1, a2⟩ := g4 hm
      obtain ⟨b1, b2⟩ := e.still rfl a1
      refine ⟨fun hb => ?_, fun hb => ?_⟩
      · simpa [opened, hb] using b1
      · obtain ⟨c1, c2⟩ := a2 b2.items
        have hx : q.1.items = build u s := c2.items
        have hsrc : q.1.src = s.src := c2.src.trans b2.src
        have hacc : q.1.acc = s.acc := c2.acc.trans b2.acc
        rw [hx, hsrc, hacc]
        exact ⟨c1, hbn, Right.ordered (u := u) (w := ⟨s.src, s.acc, q.1.moved, build u s⟩)
          (build_right u { s with moved := q.1.moved }), build_perm u s⟩
  obtain ⟨k1, k2, k3, k4⟩ := key
  have hq : ∀ b, Inv u { q.1 with sorted := b, busy := s.busy } := fun b =>
    ⟨⟨k1.nodup, fun hb hm => ⟨((k4 hm).2 hb).2.1, ((k4 hm).2 hb).2.2.1⟩, k1.seen⟩, fun hb hm _ => ((k4 hm).2 hb).2.2.2⟩
  split at h3
  · cases h3
    rename_i hr
    exact ⟨hq q.1.sorted, rfl, k3, fun hb hm => (k4 hm).1 hb, fun hb hm _ => absurd (((k4 hm).2 hb).1.symm.trans hr) (by simp)⟩
  · rw [Option.map_eq_some_iff] at h3
    obtain ⟨t3, h3, rfl⟩ := h3
    have e3 := fire_eff h _ _ _ (hq true) h3
    exact ⟨e3.inv, e3.busy, e3.level.trans k3, fun hb hm => (k4 (e3.still hb hm).1).1 hb, fun _ _ hf => by cases hf⟩

/-! #### Acts -/

theorem sublist_insert (l : List α) (i : ℕ) (v : α) : l.Sublist (Py.insert l i v) := by
  obtain ⟨pre, post, h1, h2⟩ := pyInsert_split l i v
  rw [h1] at h2 ⊢
  rw [h2]
  exact (List.Sublist.refl pre).append (List.sublist_cons_self v post)

theorem ordered_src_insert (u : Users ι α K M) (moved : Bool) (src l : List α) (i : ℕ) (v : α) (h : Ordered u moved src l) :
    Ordered u (moved || decide (v ∈ l)) (Py.insert src i v) l := by
  unfold Ordered at h ⊢
  cases hk : u.key with
  | some k =>
    rw [hk] at h
    exact h
  | none =>
    rw [hk] at h
    intro hr hm
    simp only [Bool.or_eq_false_iff, decide_eq_false_iff_not] at hm
    have : (l.filter fun x => x ∈ Py.insert src i v) = l.filter fun x => x ∈ src := by
      apply List.filter_congr
      intro x hx
      have hne : x ≠ v := fun e => hm.2 (e ▸ hx)
      simp [(perm_pyInsert src i v).mem_iff, hne]
    show (l.filter fun x => x ∈ Py.insert src i v).Sublist (Py.insert src i v)
    rw [this]
    exact (h hr hm.1).trans (sublist_insert src i v)

theorem ordered_src_erase (u : Users ι α K M) (moved : Bool) (src l : List α) (v : α) (hn : src.Nodup) (h : Ordered u moved src l) :
    Ordered u moved (src.erase v) l := by
  unfold Ordered at h ⊢
  cases hk : u.key with
  | some k =>
    rw [hk] at h
    exact h
  | none =>
    rw [hk] at h
    intro hr hm
    have h1 := (h hr hm).filter fun x => x ≠ v
    rw [List.filter_filter] at h1
    have : (l.filter fun x => x ∈ src.erase v) = l.filter fun x => decide (x ≠ v) && decide (x ∈ src) := by
      apply List.filter_congr
      intro x _
      simp [hn.mem_erase_iff]
    show (l.filter fun x => x ∈ src.erase v).Sublist (src.erase v)
    have h2 : src.erase v = src.filter fun x => decide (x ≠ v) := by
      rw [hn.erase_eq_filter]
      apply List.filter_congr
      intro x _
      by_cases hx : x = v <;> simp [hx]
    rw [this, h2]
    exact h1

/-- A state of an act that was begun while an update was going on. -/
theorem touched {s t : St α M} (hm : t.mixed = true) (hi : Inv u t) (hb : t.busy = s.busy) (hl : t.level = s.level) : Eff u s t :=
  ⟨hi, hb, hl, fun _ h => absurd (hm.symm.trans h) (by simp)⟩

theorem eff_of {s s1 t : St α M} (e : Eff u s1 t) (hb : s1.busy = s.busy) (hl : s1.level = s.level) (hm : s.busy = true → s1.mixed = true) :
    Eff u s t :=
  ⟨e.inv, e.busy.trans hb, e.level.trans hl, fun hbt h => absurd ((hm hbt).symm.trans (e.still (hb.trans hbt) h).1) (by simp)⟩

theorem touch_mixed (s : St α M) (hb : s.busy = true) : (touch s).mixed = true := by simp [touch, hb]

theorem touch_not (s : St α M) (hm : (touch s).mixed = false) : s.mixed = false := by
  simp only [touch, Bool.or_eq_false_iff] at hm
  exact hm.1

theorem insert_eff (h : Ok u ex) (i : ℕ) (v : α) (s : St α M) (r : St α M × Bool) (hi : Inv u s)
    (he : body u ex (.insert i v) s = some r) : Eff u s r.1 := by
  simp only [body] at he
  split at he
  · cases he
    refine ⟨⟨⟨hi.nodup, fun hb hm => hi.order hb (touch_not s hm), hi.seen⟩, fun hb hm => hi.right hb (touch_not s hm)⟩, rfl, rfl,
      fun hb hm => absurd ((touch_mixed s hb).symm.trans hm) (by simp)⟩
  · rename_i hv
    simp only [Option.bind_eq_some_iff, Option.map_eq_some_iff] at he
    obtain ⟨t1, h1, t2, h2, rfl⟩ := he
    have hn' : (Py.insert s.src i v).Nodup := (perm_pyInsert _ _ _).nodup_iff.2 (List.nodup_cons.2 ⟨hv, hi.nodup⟩)
    have hpre : Pre u { touch s with src := Py.insert s.src i v, moved := s.moved || decide (v ∈ s.items) } :=
      ⟨hn', fun hb hm => ⟨(hi.order hb (touch_not s hm)).1, ordered_src_insert u _ _ _ i v (hi.order hb (touch_not s hm)).2⟩, hi.seen⟩
    have e1 : Eff u { touch s with src := Py.insert s.src i v, moved := s.moved || decide (v ∈ s.items) } t1 ∨
        ∃ l, Eff u { touch s with src := Py.insert s.src i v, moved := s.moved || decide (v ∈ s.items), items := l } t1 := by
      unfold insertedMaster at h1
      split at h1
      · cases h1
        rename_i hl
        have hl : s.level > 0 := hl
        exact .inl (.refl ⟨hpre, fun _ _ h0 => absurd h0 (by show s.level ≠ 0; omega)⟩)
      · rename_i hl
        have hl0 : s.level = 0 := by
          have : ¬ s.level > 0 := hl
          omega
        split at h1
        · rename_i ha
          have ha : s.acc v = true := ha
          refine .inr ⟨_, announce_eff h _ _ _ ?_ h1⟩
          have hfacts : s.busy = false → s.mixed = false → (Py.insert s.items (position u v { touch s with src := Py.insert s.src i v, moved := s.moved || decide (v ∈ s.items) }) v).Perm
              ((Py.insert s.src i v).filter s.acc) ∧ Ordered u (s.moved || decide (v ∈ s.items)) (Py.insert s.src i v)
                (Py.insert s.items (position u v { touch s with src := Py.insert s.src i v, moved := s.moved || decide (v ∈ s.items) }) v) := by
            intro hb hm
            have hr := hi.view hb hm hl0
            have hperm : s.items.Perm (s.src.filter s.acc) := hr.1
            obtain ⟨pre, post, hs1, hs2⟩ := pyInsert_split s.src i v
            have hp0 : v ∉ pre := fun hx => hv (by rw [hs1]; simp [hx])
            have hP : (Py.insert s.items (position u v { touch s with src := Py.insert s.src i v, moved := s.moved || decide (v ∈ s.items) }) v).Perm
                ((Py.insert s.src i v).filter s.acc) := by
              refine (perm_pyInsert _ _ _).trans ((hperm.cons v).trans ?_)
              rw [hs2, hs1, List.filter_append, List.filter_append, List.filter_cons_of_pos ha]
              exact List.perm_middle.symm
            refine ⟨hP, ?_⟩
            have h2 := hr.2
            refine Right.ordered (u := u) (w := ⟨Py.insert s.src i v, s.acc, _, _⟩) ⟨hP, ?_⟩
            unfold position
            cases hk : u.key with
            | some k =>
              rw [hk] at h2
              exact sorted_insert (isCmp_key u.reverse k) h2 v
            | none =>
              rw [hk] at h2
              intro hrev hmv
              have hmv : (s.moved || decide (v ∈ s.items)) = false := hmv
              rw [Bool.or_eq_false_iff] at hmv
              have h3 : s.items = s.src.filter s.acc := h2 hrev hmv.1
              show Py.insert s.items (findUnsorted s.acc v (Py.insert s.src i v) : ℕ) v = (Py.insert s.src i v).filter s.acc
              rw [h3, hs2, hs1]
              exact findUnsorted_insert _ _ _ _ hp0 ha
          exact ⟨⟨hn', fun hb hm => ⟨(hfacts hb (touch_not s hm)).1.nodup_iff.2 (hn'.filter _), (hfacts hb (touch_not s hm)).2⟩, hi.seen⟩,
            fun hb hm _ => (hfacts hb (touch_not s hm)).1⟩
        · cases h1
          rename_i ha
          have ha : ¬ s.acc v = true := ha
          refine .inl (.refl ⟨hpre, fun hb hm _ => ?_⟩)
          refine (hi.right hb (touch_not s hm) hl0).trans ?_
          obtain ⟨pre, post, hs1, hs2⟩ := pyInsert_split s.src i v
          show (s.src.filter s.acc).Perm ((Py.insert s.src i v).filter s.acc)
          rw [hs2, hs1, List.filter_append, List.filter_append, List.filter_cons_of_neg ha]
    have e2 : Eff u s t1 := by
      rcases e1 with e1 | ⟨l, e1⟩
      · exact eff_of e1 rfl rfl (touch_mixed s)
      · exact eff_of e1 rfl rfl (touch_mixed s)
    exact e2.trans (fire_eff h _ _ _ e2.inv h2)

theorem remove_eff (h : Ok u ex) (i : ℕ) (s : St α M) (r : St α M × Bool) (hi : Inv u s)
    (he : body u ex (.remove i) s = some r) : Eff u s r.1 := by
  simp only [body] at he
  split at he
  · rename_i v hv
    simp only [Option.bind_eq_some_iff, Option.map_eq_some_iff] at he
    obtain ⟨t1, h1, t2, h2, rfl⟩ := he
    have hsrc : s.src.eraseIdx i = s.src.erase v := by
      obtain ⟨hlt, hx⟩ := List.getElem?_eq_some_iff.1 hv
      have := hi.nodup.idxOf_getElem i hlt
      rw [hx] at this
      rw [← eraseIdx_idxOf, this]
    rw [hsrc] at h1
    have hn' : (s.src.erase v).Nodup := hi.nodup.erase v
    have hpre : Pre u { touch s with src := s.src.erase v } :=
      ⟨hn', fun hb hm => ⟨(hi.order hb (touch_not s hm)).1, ordered_src_erase u _ _ _ v hi.nodup (hi.order hb (touch_not s hm)).2⟩, hi.seen⟩
    have e1 : Eff u { touch s with src := s.src.erase v } t1 ∨ Eff u { touch s with src := s.src.erase v, items := s.items.erase v } t1 := by
      unfold removedMaster at h1
      split at h1
      · cases h1
        rename_i hl
        have hl : s.level > 0 := hl
        exact .inl (.refl ⟨hpre, fun _ _ h0 => absurd h0 (by show s.level ≠ 0; omega)⟩)
      · rename_i hl
        have hl0 : s.level = 0 := by
          have : ¬ s.level > 0 := hl
          omega
        have hfil : (s.src.erase v).filter s.acc = (s.src.filter s.acc).erase v := filter_erase_eq hi.nodup v s.acc
        have hperm : s.busy = false → s.mixed = false → (s.items.erase v).Perm ((s.src.erase v).filter s.acc) := fun hb hm => by
          rw [hfil]
          exact (hi.right hb hm hl0).erase v
        split at h1
        · refine .inr (announce_eff h _ _ _ ?_ h1)
          refine ⟨⟨hn', fun hb hm => ⟨(hi.order hb (touch_not s hm)).1.erase v, ?_⟩, hi.seen⟩, fun hb hm _ => hperm hb (touch_not s hm)⟩
          have ho := (hi.order hb (touch_not s hm)).2
          have hr := hi.view hb (touch_not s hm) hl0
          refine Right.ordered (u := u) (w := ⟨s.src.erase v, s.acc, s.moved, s.items.erase v⟩) ⟨hperm hb (touch_not s hm), ?_⟩
          have h2 := hr.2
          cases hk : u.key with
          | some k =>
            rw [hk] at h2
            exact List.Pairwise.sublist List.erase_sublist h2
          | none =>
            rw [hk] at h2
            intro hrev hmv
            have h3 : s.items = s.src.filter s.acc := h2 hrev hmv
            show s.items.erase v = (s.src.erase v).filter s.acc
            rw [hfil, h3]
        · cases h1
          rename_i hnv
          have hnv : v ∉ s.items := hnv
          refine .inl (.refl ⟨hpre, fun hb hm _ => ?_⟩)
          have := hperm hb (touch_not s hm)
          rw [List.erase_of_not_mem hnv] at this
          exact this
    have e2 : Eff u s t1 := by
      rcases e1 with e1 | e1
      · exact eff_of e1 rfl rfl (touch_mixed s)
      · exact eff_of e1 rfl rfl (touch_mixed s)
    exact e2.trans (fire_eff h _ _ _ e2.inv h2)
  · cases he
    exact ⟨⟨⟨hi.nodup, fun hb hm => hi.order hb (touch_not s hm), hi.seen⟩, fun hb hm => hi.right hb (touch_not s hm)⟩, rfl, rfl,
      fun hb hm => absurd ((touch_mixed s hb).symm.trans hm) (by simp)⟩

theorem setFilter_eff (h : Ok u ex) (p : α → Bool) (s : St α M) (r : St α M × Bool) (hi : Inv u s)
    (he : body u ex (.setFilter p) s = some r) : Eff u s r.1 := by
  simp only [body, Option.bind_eq_some_iff] at he
  obtain ⟨t, h1, h2⟩ := he
  have i1 : Inv u { touch s with acc := p, sorted := false, mixed := s.mixed || s.busy || decide (s.level = 0) } := by
    refine ⟨⟨hi.nodup, fun hb hm => ?_, hi.seen⟩, fun hb hm hl => ?_⟩
    · simp only [Bool.or_eq_false_iff] at hm
      exact hi.order hb hm.1.1
    · have hl : s.level = 0 := hl
      simp [hl] at hm
  have e := eff_of (s := s) (fire_eff h _ _ _ i1 h1) rfl rfl (fun hb => by simp [hb])
  by_cases hl : s.level = 0
  · obtain ⟨g1, g2, g3, g4, -⟩ := updateItems_eff h t r e.inv.toPre (e.level.trans hl) h2
    refine ⟨g1, g2.trans e.busy, g3.trans hl.symm, fun hb hm => e.still hb (g4 (e.busy.trans hb) hm) |> fun x => absurd ?_ id⟩
    have := (fire_eff h _ _ _ i1 h1).still hb (g4 (e.busy.trans hb) hm)
    simp [hb] at this
  · have htl : t.level > 0 := by
      have := e.level
      omega
    simp only [updateItems, if_pos htl, Option.some.injEq] at h2
    subst h2
    exact e

theorem block_eff (h : Ok u ex) (as : List (Act α)) (s : St α M) (r : St α M × Bool) (hi : Inv u s)
    (he : body u ex (.block as) s = some r) : Eff u s r.1 := by
  simp only [body, Option.bind_eq_some_iff] at he
  obtain ⟨q, h1, h2⟩ := he
  have i1 : Inv u { touch s with level := s.level + 1 } :=
    ⟨⟨hi.nodup, fun hb hm => hi.order hb (touch_not s hm), hi.seen⟩, fun _ _ hl => absurd hl (Nat.succ_ne_zero _)⟩
  have e := acts_eff h as _ q i1 h1
  have hql : q.1.level - 1 = s.level := by rw [e.level]; rfl
  have hmx : s.busy = true → q.1.mixed = false → False := fun hb hm => by
    have := (e.still hb hm).1
    exact absurd ((touch_mixed s hb).symm.trans this) (by simp)
  have hpre : Pre u { q.1 with level := q.1.level - 1 } := ⟨e.inv.nodup, e.inv.order, e.inv.seen⟩
  split at h2
  · rename_i h0
    rw [Option.map_eq_some_iff] at h2
    obtain ⟨p, h2, rfl⟩ := h2
    obtain ⟨g1, g2, g3, g4, -⟩ := updateItems_eff h _ p hpre h0 h2
    exact ⟨g1, g2.trans e.busy, g3.trans (h0.symm.trans hql), fun hb hm => (hmx hb (g4 (e.busy.trans hb) hm)).elim⟩
  · rename_i h0
    cases h2
    exact ⟨⟨hpre, fun _ _ hl => absurd hl h0⟩, e.busy, hql, fun hb hm => (hmx hb hm).elim⟩

theorem body_ok (h : Ok u ex) : Ok u (body u ex) := by
  intro a s r hi he
  cases a with
  | insert i v => exact insert_eff h i v s r hi he
  | remove i => exact remove_eff h i s r hi he
  | setFilter p => exact setFilter_eff h p s r hi he
  | block as => exact block_eff h as s r hi he

theorem exec_ok (u : Users ι α K M) : ∀ n, Ok u (exec u n)
  | 0 => fun a s r _ he => by simp [exec] at he
  | n + 1 => fun a s r hi he => body_ok (exec_ok u n) a s r hi he

theorem run_eff (h : Ok u ex) (as : List (Act α)) (s t : St α M) (hi : Inv u s) (he : run ex as s = some t) : Eff u s t := by
  induction as generalizing s with
  | nil =>
    simp only [run, Option.some.injEq] at he
    exact he ▸ .refl hi
  | cons a as ih =>
    simp only [run, Option.bind_eq_some_iff] at he
    obtain ⟨r, h1, h2⟩ := he
    have e := h a s r hi h1
    exact e.trans (ih _ e.inv h2)

theorem start_inv (u : Users ι α K M) (src : List α) (hs : src.Nodup) (acc : α → Bool) (m : M) : Inv u (start u src acc m) := by
  let s : St α M := ⟨src, acc, [], true, 0, m, false, false, false, [], []⟩
  exact ⟨⟨hs, fun _ _ => ⟨(build_perm u s).nodup_iff.2 (hs.filter _), Right.ordered (build_right u s)⟩, fun w hw => by simp [start] at hw⟩,
    fun _ _ _ => build_perm u s⟩

/-- C185 (partial: nothing was done while an update was going on, since the last full update): whatever observers do when they are told,
with blocks or without, the items are right when the acts have returned, and whenever an observer was told while this was so and no block
was open. -/
theorem C185_items_partial (u : Users ι α K M) (src : List α) (hs : src.Nodup) (acc : α → Bool) (m : M) (n : ℕ) (as : List (Act α))
    (s : St α M) (h : run (exec u n) as (start u src acc m) = some s) :
    s.level = 0 ∧ (s.mixed = false → s.view.Right u.key u.reverse) ∧ ∀ w ∈ s.seen, w.Right u.key u.reverse := by
  have e := run_eff (exec_ok u n) as _ s (start_inv u src hs acc m) h
  exact ⟨e.level, fun hm => e.inv.view e.busy hm e.level, e.inv.seen⟩

/-- C185: a block raises only if an act in it raised or something was done during the update at its end. -/
theorem C185_raises (u : Users ι α K M) (src : List α) (hs : src.Nodup) (acc : α → Bool) (m : M) (n : ℕ) (as : List (Act α))
    (s : St α M) (h : run (exec u n) as (start u src acc m) = some s) (k : ℕ) (bs : List (Act α)) (r q : St α M × Bool)
    (hq : acts (exec u k) bs { s with level := 1 } = some q) (hr : exec u (k + 1) (.block bs) s = some r) (hqf : q.2 = false)
    (hrt : r.2 = true) : r.1.mixed = true := by
  have e := run_eff (exec_ok u n) as _ s (start_inv u src hs acc m) h
  have hb : s.busy = false := e.busy
  have hl : s.level = 0 := e.level
  have ht : touch s = s := by cases s; simp only at hb; simp [touch, hb]
  have e1 := exec_ok u (k + 1) _ s r e.inv hr
  simp only [exec, body, ht, hl, Nat.zero_add, hq, Option.bind_some] at hr
  have i1 : Inv u { s with level := 1 } := ⟨⟨e.inv.nodup, e.inv.order, e.inv.seen⟩, fun _ _ hl => absurd hl (by simp)⟩
  have e2 := acts_eff (exec_ok u k) bs _ q i1 hq
  have h0 : q.1.level - 1 = 0 := by
    have : q.1.level = 1 := e2.level
    omega
  rw [if_pos h0, Option.map_eq_some_iff] at hr
  obtain ⟨p, h2, rfl⟩ := hr
  obtain ⟨-, -, -, -, g5⟩ := updateItems_eff (exec_ok u k) { q.1 with level := q.1.level - 1 } p ⟨e2.inv.nodup, e2.inv.order, e2.inv.seen⟩ h0 h2
  simp only [hqf, Bool.false_or] at hrt
  cases hm : p.1.mixed with
  | true => rfl
  | false => exact (g5 (e2.busy.trans hb) hm hrt).elim

/-! ### While a block is open -/

/-- An event of the model about an item. -/
def Ev.ofItem : Ev α → Prop
  | .inserted _ _ => True
  | .removed _ _ => True
  | _ => False

structure Frozen (s t : St α M) : Prop where
  level : t.level = s.level
  items : t.items = s.items
  told : ∃ es, t.told = s.told ++ es ∧ ∀ e ∈ es, ¬ e.ofItem

theorem Frozen.refl (s : St α M) : Frozen s s := ⟨rfl, rfl, [], by simp, fun _ h => by cases h⟩

theorem Frozen.trans {r : St α M} (h : Frozen s t) (k : Frozen t r) : Frozen s r := by
  obtain ⟨a, ha, ha2⟩ := h.told
  obtain ⟨b, hb, hb2⟩ := k.told
  refine ⟨k.level.trans h.level, k.items.trans h.items, a ++ b, by rw [hb, ha, List.append_assoc], fun e he => ?_⟩
  rcases List.mem_append.1 he with he | he
  · exact ha2 e he
  · exact hb2 e he

def Fr (ex : Exec α M) : Prop := ∀ a s r, 0 < s.level → ex a s = some r → Frozen s r.1

theorem acts_frozen (h : Fr ex) (as : List (Act α)) (s : St α M) (r : St α M × Bool) (hl : 0 < s.level) (he : acts ex as s = some r) :
    Frozen s r.1 := by
  induction as generalizing s with
  | nil =>
    simp only [acts, Option.some.injEq] at he
    exact he ▸ .refl s
  | cons a as ih =>
    simp only [acts, Option.bind_eq_some_iff] at he
    obtain ⟨r1, h1, h2⟩ := he
    have e := h a s r1 hl h1
    split at h2
    · cases h2
      exact e
    · exact e.trans (ih _ (e.level ▸ hl) h2)

theorem fireL_frozen (h : Fr ex) (e : Ev α) (is : List ι) (s t : St α M) (hl : 0 < s.level) (he : fireL u ex e is s = some t) :
    Frozen s t := by
  induction is generalizing s with
  | nil =>
    simp only [fireL, Option.some.injEq] at he
    exact he ▸ .refl s
  | cons i is ih =>
    simp only [fireL, tell, Option.bind_eq_some_iff, Option.map_eq_some_iff] at he
    obtain ⟨_, ⟨r1, h1, rfl⟩, h2⟩ := he
    have k0 : Frozen s (look (u.react i e s).mem s) := ⟨rfl, rfl, [], by simp [look], fun _ h => by cases h⟩
    have k := k0.trans (acts_frozen h _ _ r1 hl h1)
    split at h2
    · cases h2
      exact k
    · exact k.trans (ih _ (k.level ▸ hl) h2)

theorem fire_frozen (h : Fr ex) (e : Ev α) (hn : ¬ e.ofItem) (s t : St α M) (hl : 0 < s.level) (he : fire u ex e s = some t) :
    Frozen s t := by
  have k : Frozen s { s with told := s.told ++ [e] } := ⟨rfl, rfl, [e], rfl, fun x hx => by rw [List.mem_singleton.1 hx]; exact hn⟩
  exact k.trans (fireL_frozen h e _ _ t hl he)

theorem body_frozen (h : Fr ex) : Fr (body u ex) := by
  intro a s r hl he
  have e0 : ∀ l m, Frozen s { touch s with src := l, moved := m } := fun l m => ⟨rfl, rfl, [], by simp [touch], fun _ h => by cases h⟩
  cases a with
  | insert i v =>
    simp only [body] at he
    split at he
    · cases he
      exact e0 s.src s.moved
    · simp only [insertedMaster, Option.bind_eq_some_iff, Option.map_eq_some_iff] at he
      obtain ⟨t1, h1, t2, h2, rfl⟩ := he
      have hl' : (touch s).level > 0 := hl
      rw [if_pos hl'] at h1
      cases h1
      exact (e0 _ _).trans (fire_frozen h (.srcInserted v i) id _ _ hl h2)
  | remove i =>
    simp only [body] at he
    split at he
    · simp only [removedMaster, Option.bind_eq_some_iff, Option.map_eq_some_iff] at he
      obtain ⟨t1, h1, t2, h2, rfl⟩ := he
      have hl' : (touch s).level > 0 := hl
      rw [if_pos hl'] at h1
      cases h1
      exact (e0 _ s.moved).trans (fire_frozen h (.srcRemoved _ i) id _ _ hl h2)
    · cases he
      exact e0 s.src s.moved
  | setFilter p =>
    simp only [body, Option.bind_eq_some_iff] at he
    obtain ⟨t, h1, h2⟩ := he
    have k0 : Frozen s { touch s with acc := p, sorted := false, mixed := s.mixed || s.busy || decide (s.level = 0) } :=
      ⟨rfl, rfl, [], by simp [touch], fun _ h => by cases h⟩
    have k := k0.trans (fire_frozen h .reset id _ _ hl h1)
    have htl : t.level > 0 := by
      have := k.level
      omega
    simp only [updateItems, if_pos htl, Option.some.injEq] at h2
    subst h2
    exact k
  | block as =>
    simp only [body, Option.bind_eq_some_iff] at he
    obtain ⟨q, h1, h2⟩ := he
    have e := acts_frozen h as _ q (Nat.succ_pos _) h1
    have hq : q.1.level - 1 = s.level := by rw [e.level]; rfl
    rw [if_neg (by omega)] at h2
    cases h2
    exact ⟨hq, e.items, e.told⟩

theorem exec_frozen (u : Users ι α K M) : ∀ n, Fr (exec u n)
  | 0 => fun a s r _ he => by simp [exec] at he
  | n + 1 => fun a s r hl he => body_frozen (exec_frozen u n) a s r hl he

/-- C185: while a block is open, whatever is done, by anyone, the items do not change and observers are not told of inserted or removed
items; nested blocks do not end it. -/
theorem C185_batched (u : Users ι α K M) (n : ℕ) (as : List (Act α)) (s t : St α M) (hl : 0 < s.level) (h : run (exec u n) as s = some t) :
    t.level = s.level ∧ t.items = s.items ∧ ∃ es, t.told = s.told ++ es ∧ ∀ e ∈ es, ∀ v i, e ≠ .inserted v i ∧ e ≠ .removed v i := by
  have key : ∀ (as : List (Act α)) (s : St α M), 0 < s.level → run (exec u n) as s = some t → Frozen s t := by
    intro as
    induction as with
    | nil =>
      intro s _ he
      simp only [run, Option.some.injEq] at he
      exact he ▸ .refl s
    | cons a as ih =>
      intro s hl he
      simp only [run, Option.bind_eq_some_iff] at he
      obtain ⟨r, h1, h2⟩ := he
      have e := exec_frozen u n a s r hl h1
      exact e.trans (ih _ (e.level ▸ hl) h2)
  obtain ⟨h1, h2, es, h3, h4⟩ := key as s hl h
  refine ⟨h1, h2, es, h3, fun e he v i => ⟨fun hx => h4 e he ?_, fun hx => h4 e he ?_⟩⟩
  · rw [hx]; trivial
  · rw [hx]; trivial

/-! ### Observers of the source -/

/-- What a part of an update leaves as it is if no observer acts. -/
structure Calm (s t : St α M) : Prop where
  busy : t.busy = s.busy
  mixed : t.mixed = s.mixed
  sorted : t.sorted = s.sorted
  level : t.level = s.level

theorem Calm.refl (s : St α M) : Calm s s := ⟨rfl, rfl, rfl, rfl⟩

theorem Calm.trans {r : St α M} (h : Calm s t) (k : Calm t r) : Calm s r :=
  ⟨k.1.trans h.1, k.2.trans h.2, k.3.trans h.3, k.4.trans h.4⟩

/-- An event of the source. -/
def Ev.ofSource : Ev α → Prop
  | .srcInserted _ _ => True
  | .srcRemoved _ _ => True
  | _ => False

/-- The observers of the filtered list model do nothing (but raise perhaps). -/
def Users.Still (u : Users ι α K M) : Prop := ∀ i e s, ¬ e.ofSource → (u.react i e s).acts = []

theorem fireL_calm (hu : u.Still) (e : Ev α) (hn : ¬ e.ofSource) (is : List ι) (s t : St α M) (he : fireL u ex e is s = some t) :
    Calm s t := by
  induction is generalizing s with
  | nil =>
    simp only [fireL, Option.some.injEq] at he
    exact he ▸ .refl s
  | cons i is ih =>
    simp only [fireL, tell, hu i e s hn, acts, Option.map_some, Option.bind_some] at he
    have k0 : Calm s (look (u.react i e s).mem s) := ⟨rfl, rfl, rfl, rfl⟩
    split at he
    · simp only [Option.some.injEq] at he
      exact he ▸ k0
    · exact k0.trans (ih _ he)

theorem fire_calm (hu : u.Still) (e : Ev α) (hn : ¬ e.ofSource) (s t : St α M) (he : fire u ex e s = some t) : Calm s t :=
  (⟨rfl, rfl, rfl, rfl⟩ : Calm s { s with told := s.told ++ [e] }).trans (fireL_calm hu e hn _ _ t he)

theorem announce_calm (hu : u.Still) (e : Ev α) (hn : ¬ e.ofSource) (s t : St α M) (he : announce u ex e s = some t) : Calm s t := by
  simp only [announce, Option.bind_eq_some_iff] at he
  obtain ⟨t1, h1, t2, h2, h3⟩ := he
  exact ((fire_calm hu .beginChanges id _ _ h1).trans (fire_calm hu e hn _ _ h2)).trans (fire_calm hu .endChanges id _ _ h3)

theorem Calm.items (l : List α) (h : Calm { s with items := l } t) : Calm s t := ⟨h.1, h.2, h.3, h.4⟩

theorem removeLoop_calm (hu : u.Still) (new vs : List α) (i r : ℕ) (s : St α M) (q : St α M × Bool)
    (he : removeLoop u ex new vs i r s = some q) : Calm s q.1 := by
  induction vs generalizing i r s with
  | nil =>
    simp only [removeLoop, Option.some.injEq] at he
    exact he ▸ .refl s
  | cons v vs ih =>
    unfold removeLoop at he
    split at he
    · exact ih _ _ _ he
    · split at he
      · rw [Option.bind_eq_some_iff] at he
        obtain ⟨t, h1, h2⟩ := he
        exact (Calm.items _ (fire_calm hu (.removed v (i - r)) id _ _ h1)).trans (ih _ _ _ h2)
      · cases he
        exact .refl s

theorem insertLoop_calm (hu : u.Still) (new vs : List α) (s : St α M) (q : St α M × Bool) (he : insertLoop u ex new vs s = some q) :
    Calm s q.1 := by
  induction vs generalizing s with
  | nil =>
    simp only [insertLoop, Option.some.injEq] at he
    exact he ▸ .refl s
  | cons v vs ih =>
    unfold insertLoop at he
    split at he
    · cases he
      exact .refl s
    · rename_i j hf
      rw [Option.bind_eq_some_iff] at he
      obtain ⟨t, h1, h2⟩ := he
      exact (Calm.items _ (announce_calm hu (.inserted v j) id _ _ h1)).trans (ih _ h2)

theorem popLoop_calm (hu : u.Still) (vs : List α) (s : St α M) (q : St α M × Bool) (he : popLoop u ex vs s = some q) : Calm s q.1 := by
  induction vs generalizing s with
  | nil =>
    simp only [popLoop, Option.some.injEq] at he
    exact he ▸ .refl s
  | cons v vs ih =>
    unfold popLoop at he
    split at he
    · cases he
      exact .refl s
    · rw [Option.bind_eq_some_iff] at he
      obtain ⟨t, h1, h2⟩ := he
      exact (Calm.items _ (fire_calm hu (.removed v _) id _ _ h1)).trans (ih _ h2)

theorem appendLoop_calm (hu : u.Still) (vs : List α) (s t : St α M) (he : appendLoop u ex vs s = some t) : Calm s t := by
  induction vs generalizing s with
  | nil =>
    simp only [appendLoop, Option.some.injEq] at he
    exact he ▸ .refl s
  | cons v vs ih =>
    simp only [appendLoop, Option.bind_eq_some_iff] at he
    obtain ⟨t1, h1, h2⟩ := he
    exact (Calm.items _ (fire_calm hu (.inserted v _) id _ _ h1)).trans (ih _ h2)

theorem updateItems_calm (hu : u.Still) (s : St α M) (r : St α M × Bool) (hb : s.busy = false) (hm : s.sorted = true → s.mixed = false)
    (hl : s.level = 0) (he : updateItems u ex s = some r) : r.1.mixed = false ∧ r.1.busy = s.busy ∧ r.1.level = s.level := by
  simp only [updateItems, if_neg (by omega : ¬ s.level > 0), Option.bind_eq_some_iff] at he
  obtain ⟨t, h1, q, h2, h3⟩ := he
  have k := fire_calm hu .beginChanges id _ _ h1
  have kt : t.mixed = false := by
    rw [k.mixed]
    cases hs : s.sorted with
    | true => simp [opened, hm hs]
    | false => simp [opened, hs, hb]
  have kq : q.1.mixed = false ∧ q.1.level = s.level := by
    split at h2
    · simp only [incremental, Option.bind_eq_some_iff] at h2
      obtain ⟨p, h4, h5⟩ := h2
      have k1 := removeLoop_calm hu _ _ _ _ _ _ h4
      split at h5
      · cases h5
        exact ⟨k1.mixed.trans kt, k1.level.trans k.level⟩
      · have k2 := insertLoop_calm hu _ _ _ _ h5
        exact ⟨k2.mixed.trans (k1.mixed.trans kt), k2.level.trans (k1.level.trans k.level)⟩
    · simp only [replace, Option.bind_eq_some_iff] at h2
      obtain ⟨p, h4, h5⟩ := h2
      have k1 := popLoop_calm hu _ _ _ h4
      split at h5
      · cases h5
        exact ⟨k1.mixed.trans kt, k1.level.trans k.level⟩
      · rw [Option.map_eq_some_iff] at h5
        obtain ⟨t5, h5, rfl⟩ := h5
        have k2 := appendLoop_calm hu _ _ _ h5
        exact ⟨k2.mixed.trans (k1.mixed.trans kt), k2.level.trans (k1.level.trans k.level)⟩
  split at h3
  · cases h3
    exact ⟨kq.1, rfl, kq.2⟩
  · rw [Option.map_eq_some_iff] at h3
    obtain ⟨t3, h3, rfl⟩ := h3
    have k3 := fire_calm hu .endChanges id _ _ h3
    exact ⟨k3.mixed.trans kq.1, k3.busy, k3.level.trans kq.2⟩

structure Clean (s t : St α M) : Prop where
  busy : t.busy = false
  mixed : t.mixed = false
  level : t.level = s.level

def Cl (ex : Exec α M) : Prop := ∀ a s r, s.busy = false → s.mixed = false → ex a s = some r → Clean s r.1

theorem Clean.trans {r : St α M} (h : Clean s t) (k : Clean t r) : Clean s r := ⟨k.1, k.2, k.3.trans h.3⟩

theorem acts_clean (h : Cl ex) (as : List (Act α)) (s : St α M) (r : St α M × Bool) (hb : s.busy = false) (hm : s.mixed = false)
    (he : acts ex as s = some r) : Clean s r.1 := by
  induction as generalizing s with
  | nil =>
    simp only [acts, Option.some.injEq] at he
    exact he ▸ ⟨hb, hm, rfl⟩
  | cons a as ih =>
    simp only [acts, Option.bind_eq_some_iff] at he
    obtain ⟨r1, h1, h2⟩ := he
    have e := h a s r1 hb hm h1
    split at h2
    · cases h2
      exact e
    · exact e.trans (ih _ e.busy e.mixed h2)

theorem fireL_clean (h : Cl ex) (e : Ev α) (is : List ι) (s t : St α M) (hb : s.busy = false) (hm : s.mixed = false)
    (he : fireL u ex e is s = some t) : Clean s t := by
  induction is generalizing s with
  | nil =>
    simp only [fireL, Option.some.injEq] at he
    exact he ▸ ⟨hb, hm, rfl⟩
  | cons i is ih =>
    simp only [fireL, tell, Option.bind_eq_some_iff, Option.map_eq_some_iff] at he
    obtain ⟨_, ⟨r1, h1, rfl⟩, h2⟩ := he
    have k0 : Clean s (look (u.react i e s).mem s) := ⟨hb, hm, rfl⟩
    have k := k0.trans (acts_clean h _ _ r1 hb hm h1)
    split at h2
    · cases h2
      exact k
    · exact k.trans (ih _ k.busy k.mixed h2)

theorem fire_clean (h : Cl ex) (e : Ev α) (s t : St α M) (hb : s.busy = false) (hm : s.mixed = false) (he : fire u ex e s = some t) :
    Clean s t :=
  (⟨hb, hm, rfl⟩ : Clean s { s with told := s.told ++ [e] }).trans (fireL_clean h e _ _ t hb hm he)

theorem touch_eq (h : s.busy = false) : touch s = s := by
  cases s
  simp only at h
  simp [touch, h]

theorem body_clean (hu : u.Still) (h : Cl ex) : Cl (body u ex) := by
  intro a s r hb hm he
  cases a with
  | insert i v =>
    simp only [body, touch_eq hb] at he
    split at he
    · cases he
      exact ⟨hb, hm, rfl⟩
    · simp only [Option.bind_eq_some_iff, Option.map_eq_some_iff] at he
      obtain ⟨t1, h1, t2, h2, rfl⟩ := he
      have k1 : Clean s t1 := by
        unfold insertedMaster at h1
        split at h1
        · cases h1
          exact ⟨hb, hm, rfl⟩
        · split at h1
          · have k := announce_calm hu (.inserted v _) id _ _ h1
            exact ⟨k.busy.trans hb, k.mixed.trans hm, k.level⟩
          · cases h1
            exact ⟨hb, hm, rfl⟩
      exact k1.trans (fire_clean h _ _ _ k1.busy k1.mixed h2)
  | remove i =>
    simp only [body, touch_eq hb] at he
    split at he
    · simp only [Option.bind_eq_some_iff, Option.map_eq_some_iff] at he
      obtain ⟨t1, h1, t2, h2, rfl⟩ := he
      have k1 : Clean s t1 := by
        unfold removedMaster at h1
        split at h1
        · cases h1
          exact ⟨hb, hm, rfl⟩
        · split at h1
          · have k := announce_calm hu (.removed _ _) id _ _ h1
            exact ⟨k.busy.trans hb, k.mixed.trans hm, k.level⟩
          · cases h1
            exact ⟨hb, hm, rfl⟩
      exact k1.trans (fire_clean h _ _ _ k1.busy k1.mixed h2)
    · cases he
      exact ⟨hb, hm, rfl⟩
  | setFilter p =>
    simp only [body, touch_eq hb, Option.bind_eq_some_iff] at he
    obtain ⟨t, h1, h2⟩ := he
    have k := fire_calm hu .reset id _ _ h1
    have hts : t.sorted = false := k.sorted
    by_cases hl : s.level = 0
    · obtain ⟨g1, g2, g3⟩ :=
        updateItems_calm hu t r (k.busy.trans hb) (fun hs => absurd (hs.symm.trans hts) (by simp)) (k.level.trans hl) h2
      exact ⟨g2.trans (k.busy.trans hb), g1, g3.trans k.level⟩
    · have htl : t.level > 0 := by
        have : t.level = s.level := k.level
        omega
      simp only [updateItems, if_pos htl, Option.some.injEq] at h2
      subst h2
      refine ⟨k.busy.trans hb, ?_, k.level⟩
      rw [k.mixed]
      simp [hb, hm, hl]
  | block as =>
    simp only [body, touch_eq hb, Option.bind_eq_some_iff] at he
    obtain ⟨q, h1, h2⟩ := he
    have k := acts_clean h as _ q (by exact hb) (by exact hm) h1
    have hq : q.1.level - 1 = s.level := by rw [k.level]; rfl
    split at h2
    · rename_i h0
      rw [Option.map_eq_some_iff] at h2
      obtain ⟨p, h2, rfl⟩ := h2
      obtain ⟨g1, g2, g3⟩ := updateItems_calm hu { q.1 with level := q.1.level - 1 } p k.busy (fun _ => k.mixed) h0 h2
      exact ⟨g2.trans k.busy, g1, g3.trans hq⟩
    · cases h2
      exact ⟨k.busy, k.mixed, hq⟩

theorem exec_clean (hu : u.Still) : ∀ n, Cl (exec u n)
  | 0 => fun a s r _ _ he => by simp [exec] at he
  | n + 1 => fun a s r hb hm he => body_clean hu (exec_clean hu n) a s r hb hm he

/-- C185: if observers act only when the source tells them, also within blocks of their own, then after any history the items are right,
whoever raises. -/
theorem C185_source (u : Users ι α K M)
    (hu : ∀ i e s, (∀ v j, e ≠ .srcInserted v j ∧ e ≠ .srcRemoved v j) → (u.react i e s).acts = []) (src : List α) (hs : src.Nodup)
    (acc : α → Bool) (m : M) (n : ℕ) (as : List (Act α)) (s : St α M) (h : run (exec u n) as (start u src acc m) = some s) :
    s.view.Right u.key u.reverse := by
  have hu' : u.Still := fun i e s he => hu i e s fun v j => ⟨fun hx => he (by rw [hx]; trivial), fun hx => he (by rw [hx]; trivial)⟩
  have key : ∀ (as : List (Act α)) (s t : St α M), s.busy = false → s.mixed = false → run (exec u n) as s = some t → t.mixed = false := by
    intro as
    induction as with
    | nil =>
      intro s t _ hm he
      simp only [run, Option.some.injEq] at he
      exact he ▸ hm
    | cons a as ih =>
      intro s t hb hm he
      simp only [run, Option.bind_eq_some_iff] at he
      obtain ⟨r, h1, h2⟩ := he
      have e := exec_clean hu' n a s r hb hm h1
      exact ih _ _ e.busy e.mixed h2
  exact (C185_items_partial u src hs acc m n as s h).2.1 (key as _ s rfl rfl h)

/-! ### What observers are told -/

/-- Observers do nothing, except that they remember and raise perhaps. -/
def Users.Passive (u : Users ι α K M) : Prop := ∀ i e s, (u.react i e s).acts = []

/-- What the notes make of a list of the items; removals by index only (the event of an update may name another item, C26). -/
def kept : List (Ev α) → List α → Option (List α)
  | [], l => some l
  | .inserted v i :: es, l => kept es (l.take i ++ v :: l.drop i)
  | .removed _ i :: es, l => if i < l.length then kept es (l.take i ++ l.drop (i + 1)) else none
  | _ :: es, l => kept es l

/-- What they make of a list of the source. -/
def keptSrc : List (Ev α) → List α → Option (List α)
  | [], l => some l
  | .srcInserted v i :: es, l => keptSrc es (l.take i ++ v :: l.drop i)
  | .srcRemoved v i :: es, l => if l[i]? = some v then keptSrc es (l.take i ++ l.drop (i + 1)) else none
  | _ :: es, l => keptSrc es l

theorem kept_append (es fs : List (Ev α)) (l : List α) : kept (es ++ fs) l = (kept es l).bind (kept fs) := by
  induction es generalizing l with
  | nil => rfl
  | cons e es ih =>
    cases e <;> simp only [List.cons_append, kept, ih]
    split <;> rfl

theorem keptSrc_append (es fs : List (Ev α)) (l : List α) : keptSrc (es ++ fs) l = (keptSrc es l).bind (keptSrc fs) := by
  induction es generalizing l with
  | nil => rfl
  | cons e es ih =>
    cases e <;> simp only [List.cons_append, keptSrc, ih]
    split <;> rfl

/-- What was noted since makes the items of what they were; the source is the same. -/
def Noted (items src : List α) (m : List (Ev α)) (t : St α M) : Prop :=
  ∃ es, t.told = m ++ es ∧ kept es items = some t.items ∧ t.src = src ∧ ∀ l, keptSrc es l = some l

theorem Noted.refl (s : St α M) : Noted s.items s.src s.told s := ⟨[], by simp, rfl, rfl, fun _ => rfl⟩

theorem Noted.trans {a b : List α} {m : List (Ev α)} {t r : St α M} (h : Noted a b m t) (k : Noted t.items t.src t.told r) :
    Noted a b m r := by
  obtain ⟨e1, h1, h2, h3, h4⟩ := h
  obtain ⟨e2, k1, k2, k3, k4⟩ := k
  exact ⟨e1 ++ e2, by rw [k1, h1, List.append_assoc], by rw [kept_append, h2]; exact k2, k3.trans h3,
    fun l => by rw [keptSrc_append, h4]; exact k4 l⟩

theorem fireL_passive {u : Users ι α K M} (hu : u.Passive) (ex : Exec α M) (e : Ev α) (is : List ι) (s t : St α M)
    (h : fireL u ex e is s = some t) : t.told = s.told ∧ t.items = s.items ∧ t.src = s.src := by
  induction is generalizing s with
  | nil => cases h; exact ⟨rfl, rfl, rfl⟩
  | cons i is ih =>
    simp only [fireL, tell] at h
    rw [show (u.react i e s).acts = [] from hu i e s] at h
    simp only [acts, Option.map_some, Option.bind_some, Bool.false_or] at h
    split at h
    · cases h; exact ⟨rfl, rfl, rfl⟩
    · obtain ⟨h1, h2, h3⟩ := ih _ h
      exact ⟨h1, h2, h3⟩

theorem fire_rec {u : Users ι α K M} (hu : u.Passive) (ex : Exec α M) (e : Ev α) (s t : St α M) (h : fire u ex e s = some t) :
    t.told = s.told ++ [e] ∧ t.items = s.items ∧ t.src = s.src := by
  obtain ⟨h1, h2, h3⟩ := fireL_passive hu ex e _ _ t h
  exact ⟨h1, h2, h3⟩

theorem fire_noted {u : Users ι α K M} (hu : u.Passive) {ex : Exec α M} {e : Ev α} {s t : St α M} {a : List α} {m : List (Ev α)}
    (h : fire u ex e s = some t) (hm : s.told = m) (ha : kept [e] a = some s.items) (hb : ∀ l, keptSrc [e] l = some l) :
    Noted a s.src m t := by
  obtain ⟨h1, h2, h3⟩ := fire_rec hu ex e s t h
  exact ⟨[e], by rw [h1, hm], by rw [h2]; exact ha, h3, hb⟩

theorem announce_noted {u : Users ι α K M} (hu : u.Passive) {ex : Exec α M} {e : Ev α} {s t : St α M} {a : List α} {m : List (Ev α)}
    (h : announce u ex e s = some t) (hm : s.told = m) (ha : kept [e] a = some s.items) (hb : ∀ l, keptSrc [e] l = some l) :
    Noted a s.src m t := by
  simp only [announce, Option.bind_eq_some_iff] at h
  obtain ⟨s1, h1, s2, h2, h3⟩ := h
  obtain ⟨a1, a2, a3⟩ := fire_rec hu ex _ _ _ h1
  obtain ⟨b1, b2, b3⟩ := fire_rec hu ex _ _ _ h2
  obtain ⟨c1, c2, c3⟩ := fire_rec hu ex _ _ _ h3
  refine ⟨[.beginChanges] ++ [e] ++ [.endChanges], ?_, ?_, c3.trans (b3.trans a3), fun l => ?_⟩
  · rw [c1, b1, a1, hm]; simp
  · rw [c2, b2, a2, kept_append, kept_append]
    show ((kept [e] a).bind _) = _
    rw [ha]; rfl
  · rw [keptSrc_append, keptSrc_append]
    show ((keptSrc [e] l).bind _) = _
    rw [hb]; rfl

theorem take_drop_insert (l : List α) (i : ℕ) (v : α) : Py.insert l (i : ℤ) v = l.take i ++ v :: l.drop i := by
  by_cases h : i ≤ l.length
  · rw [Py.insert_nat h]
    induction l generalizing i with
    | nil =>
      have : i = 0 := Nat.le_zero.mp h
      subst this; rfl
    | cons y l ih =>
      cases i with
      | zero => rfl
      | succ i =>
        simp only [List.insertIdx_succ_cons, List.take_succ_cons, List.drop_succ_cons, List.cons_append]
        rw [ih i (Nat.le_of_succ_le_succ h)]
  · have h' : l.length ≤ i := by omega
    rw [List.take_of_length_le h', List.drop_eq_nil_of_le h']
    have : Py.insertPos l.length (i : ℤ) = l.length := by unfold Py.insertPos; split <;> omega
    unfold Py.insert
    rw [this]
    simp

theorem inserted_noted {u : Users ι α K M} (hu : u.Passive) {ex : Exec α M} {v : α} {s t : St α M}
    (h : insertedMaster u ex v s = some t) : Noted s.items s.src s.told t := by
  simp only [insertedMaster] at h
  split at h
  · cases h; exact .refl _
  split at h
  · refine announce_noted hu (s := { s with items := Py.insert s.items (position u v s) v }) h rfl ?_ fun _ => rfl
    simp only [kept, take_drop_insert]
  · cases h; exact .refl _

theorem removed_noted {u : Users ι α K M} (hu : u.Passive) {ex : Exec α M} {v : α} {s t : St α M}
    (h : removedMaster u ex v s = some t) : Noted s.items s.src s.told t := by
  simp only [removedMaster] at h
  split at h
  · cases h; exact .refl _
  split at h
  · rename_i hv
    refine announce_noted hu (s := { s with items := s.items.erase v }) h rfl ?_ fun _ => rfl
    simp only [kept]
    rw [if_pos (List.idxOf_lt_length_iff.mpr hv), ← List.eraseIdx_eq_take_drop_succ, List.erase_eq_eraseIdx_of_idxOf rfl]
  · cases h; exact .refl _

theorem pop_noted {u : Users ι α K M} (hu : u.Passive) {ex : Exec α M} (vs : List α) (s : St α M) (r : St α M × Bool)
    (h : popLoop u ex vs s = some r) : Noted s.items s.src s.told r.1 := by
  induction vs generalizing s with
  | nil => cases h; exact .refl _
  | cons v vs ih =>
    simp only [popLoop] at h
    split at h
    · cases h; exact .refl _
    · rename_i hne
      rw [Option.bind_eq_some_iff] at h
      obtain ⟨t, h1, h2⟩ := h
      have hl : 0 < s.items.length := List.length_pos_iff.mpr hne
      refine Noted.trans (fire_noted hu (s := { s with items := s.items.dropLast }) h1 rfl ?_ fun _ => rfl) (ih t h2)
      simp only [kept]
      rw [if_pos (by omega), List.drop_eq_nil_of_le (by omega), List.append_nil, List.dropLast_eq_take]

theorem append_noted {u : Users ι α K M} (hu : u.Passive) {ex : Exec α M} (vs : List α) (s t : St α M)
    (h : appendLoop u ex vs s = some t) : Noted s.items s.src s.told t := by
  induction vs generalizing s with
  | nil => cases h; exact .refl _
  | cons v vs ih =>
    simp only [appendLoop] at h
    rw [Option.bind_eq_some_iff] at h
    obtain ⟨r, h1, h2⟩ := h
    refine Noted.trans (fire_noted hu (s := { s with items := s.items ++ [v] }) h1 rfl ?_ fun _ => rfl) (ih r h2)
    simp [kept]

theorem remove_noted {u : Users ι α K M} (hu : u.Passive) {ex : Exec α M} (new vs : List α) (i k : ℕ) (s : St α M) (r : St α M × Bool)
    (h : removeLoop u ex new vs i k s = some r) : Noted s.items s.src s.told r.1 := by
  induction vs generalizing s i k with
  | nil => cases h; exact .refl _
  | cons v vs ih =>
    simp only [removeLoop] at h
    split at h
    · exact ih _ _ _ h
    split at h
    · rename_i hl
      rw [Option.bind_eq_some_iff] at h
      obtain ⟨t, h1, h2⟩ := h
      refine Noted.trans (fire_noted hu (s := { s with items := s.items.eraseIdx (i - k) }) h1 rfl ?_ fun _ => rfl) (ih _ _ t h2)
      simp only [kept]
      rw [if_pos hl, List.eraseIdx_eq_take_drop_succ]
    · cases h; exact .refl _

theorem insert_noted {u : Users ι α K M} (hu : u.Passive) {ex : Exec α M} (new vs : List α) (s : St α M) (r : St α M × Bool)
    (h : insertLoop u ex new vs s = some r) : Noted s.items s.src s.told r.1 := by
  induction vs generalizing s with
  | nil => cases h; exact .refl _
  | cons v vs ih =>
    simp only [insertLoop] at h
    split at h
    · cases h; exact .refl _
    · rename_i i hi
      rw [Option.bind_eq_some_iff] at h
      obtain ⟨t, h1, h2⟩ := h
      refine Noted.trans (announce_noted hu (s := { s with items := Py.insert s.items i v }) h1 rfl ?_ fun _ => rfl) (ih t h2)
      simp only [kept, take_drop_insert]

theorem update_noted {u : Users ι α K M} (hu : u.Passive) {ex : Exec α M} {s : St α M} {r : St α M × Bool}
    (h : updateItems u ex s = some r) : Noted s.items s.src s.told r.1 := by
  simp only [updateItems] at h
  split at h
  · cases h; exact .refl _
  rw [Option.bind_eq_some_iff] at h
  obtain ⟨t, h1, h2⟩ := h
  have k1 : Noted s.items s.src s.told t := fire_noted hu (s := opened s) h1 rfl rfl (by intro _; rfl)
  rw [Option.bind_eq_some_iff] at h2
  obtain ⟨q, h3, h4⟩ := h2
  have k2 : Noted t.items t.src t.told q.1 := by
    split at h3
    · simp only [incremental, Option.bind_eq_some_iff] at h3
      obtain ⟨y, g3, g4⟩ := h3
      have j2 := remove_noted hu _ _ _ _ _ _ g3
      split at g4
      · cases g4; exact j2
      · exact j2.trans (insert_noted hu _ _ _ _ g4)
    · simp only [replace, Option.bind_eq_some_iff] at h3
      obtain ⟨y, g3, g4⟩ := h3
      have j2 := pop_noted hu _ _ _ g3
      split at g4
      · cases g4; exact j2
      · rw [Option.map_eq_some_iff] at g4
        obtain ⟨z, g5, rfl⟩ := g4
        exact j2.trans (append_noted hu _ _ _ g5)
  split at h4
  · cases h4; exact k1.trans k2
  · rw [Option.map_eq_some_iff] at h4
    obtain ⟨x, h5, rfl⟩ := h4
    exact (k1.trans k2).trans (fire_noted hu (s := { q.1 with sorted := true, busy := s.busy }) h5 rfl rfl (by intro _; rfl))

/-- What was told since makes the items and the source of what they were. -/
def Both (s t : St α M) : Prop := ∃ es, t.told = s.told ++ es ∧ kept es s.items = some t.items ∧ keptSrc es s.src = some t.src

theorem Noted.both {s t : St α M} (h : Noted s.items s.src s.told t) : Both s t := by
  obtain ⟨es, h1, h2, h3, h4⟩ := h
  exact ⟨es, h1, h2, by rw [h3]; exact h4 _⟩

theorem Both.trans {s t r : St α M} (h : Both s t) (k : Both t r) : Both s r := by
  obtain ⟨e1, a1, a2, a3⟩ := h
  obtain ⟨e2, b1, b2, b3⟩ := k
  exact ⟨e1 ++ e2, by rw [b1, a1, List.append_assoc], by rw [kept_append, a2]; exact b2, by rw [keptSrc_append, a3]; exact b3⟩

theorem acts_both {ex : Exec α M} (he : ∀ a s r, ex a s = some r → Both s r.1) (as : List (Act α)) (s : St α M) (r : St α M × Bool)
    (h : acts ex as s = some r) : Both s r.1 := by
  induction as generalizing s with
  | nil => cases h; exact (Noted.refl _).both
  | cons a as ih =>
    simp only [acts, Option.bind_eq_some_iff] at h
    obtain ⟨q, h1, h2⟩ := h
    split at h2
    · cases h2; exact he _ _ _ h1
    · exact (he _ _ _ h1).trans (ih _ h2)

theorem body_both {u : Users ι α K M} (hu : u.Passive) {ex : Exec α M} (he : ∀ a s r, ex a s = some r → Both s r.1) (a : Act α)
    (s : St α M) (r : St α M × Bool) (h : body u ex a s = some r) : Both s r.1 := by
  cases a with
  | insert i v =>
    simp only [body] at h
    split at h
    · cases h; exact (Noted.refl s).both
    · rw [Option.bind_eq_some_iff] at h
      obtain ⟨t, h1, h2⟩ := h
      rw [Option.map_eq_some_iff] at h2
      obtain ⟨x, h3, rfl⟩ := h2
      obtain ⟨es, e1, e2, e3, e4⟩ := inserted_noted hu h1
      obtain ⟨f1, f2, f3⟩ := fire_rec hu ex _ _ _ h3
      refine ⟨es ++ [.srcInserted v i], ?_, ?_, ?_⟩
      · show x.told = _
        rw [f1, e1]; exact List.append_assoc ..
      · show _ = some x.items
        rw [kept_append, f2]
        show (kept es (touch s).items).bind _ = _
        rw [show kept es (touch s).items = _ from e2]; rfl
      · show _ = some x.src
        rw [keptSrc_append, e4, f3, e3]
        simp only [Option.bind_some, keptSrc, take_drop_insert]
  | remove i =>
    simp only [body] at h
    cases hv : s.src[i]? with
    | none => rw [hv] at h; cases h; exact (Noted.refl s).both
    | some v =>
      rw [hv] at h
      dsimp only at h
      rw [Option.bind_eq_some_iff] at h
      obtain ⟨t, h1, h2⟩ := h
      rw [Option.map_eq_some_iff] at h2
      obtain ⟨x, h3, rfl⟩ := h2
      obtain ⟨es, e1, e2, e3, e4⟩ := removed_noted hu h1
      obtain ⟨f1, f2, f3⟩ := fire_rec hu ex _ _ _ h3
      refine ⟨es ++ [.srcRemoved v i], ?_, ?_, ?_⟩
      · show x.told = _
        rw [f1, e1]; exact List.append_assoc ..
      · show _ = some x.items
        rw [kept_append, f2]
        show (kept es (touch s).items).bind _ = _
        rw [show kept es (touch s).items = _ from e2]; rfl
      · show _ = some x.src
        rw [keptSrc_append, e4, f3, e3]
        simp only [Option.bind_some, keptSrc, hv, if_true, List.eraseIdx_eq_take_drop_succ]
  | setFilter p =>
    simp only [body, Option.bind_eq_some_iff] at h
    obtain ⟨t, h1, h2⟩ := h
    have k1 : Noted s.items s.src s.told t :=
      fire_noted hu (s := { touch s with acc := p, sorted := false, mixed := s.mixed || s.busy || decide (s.level = 0) }) h1 rfl rfl
        (by intro _; rfl)
    exact (k1.trans (update_noted hu h2)).both
  | block as =>
    simp only [body, Option.bind_eq_some_iff] at h
    obtain ⟨q, h1, h2⟩ := h
    have k1 : Both s q.1 := acts_both he as { touch s with level := s.level + 1 } q h1
    split at h2
    · rw [Option.map_eq_some_iff] at h2
      obtain ⟨x, h3, rfl⟩ := h2
      have k2 := (update_noted hu h3).both
      exact k1.trans k2
    · cases h2; exact k1

/-- C185: if observers do nothing but raise perhaps, one that keeps lists of its own by what the model and the source tell always has the items
and the source when the calls have returned, blocks included. -/
theorem C185_told (u : Users ι α K M) (hu : ∀ i e s, (u.react i e s).acts = []) (src : List α) (acc : α → Bool) (m : M) (n : ℕ)
    (as : List (Act α)) (s : St α M) (h : run (exec u n) as (start u src acc m) = some s) :
    kept s.told (start u src acc m).items = some s.items ∧ keptSrc s.told src = some s.src := by
  have hex : ∀ n a s r, exec u n a s = some r → Both s r.1 := by
    intro n
    induction n with
    | zero => intro a s r h; cases h
    | succ n ih => exact fun a s r h => body_both hu ih a s r h
  have main : ∀ (as : List (Act α)) (r : St α M), run (exec u n) as r = some s → Both r s := by
    intro as
    induction as with
    | nil => intro r hr; cases hr; exact (Noted.refl _).both
    | cons a as ih =>
      intro r hr
      simp only [run, Option.bind_eq_some_iff] at hr
      obtain ⟨q, h1, h2⟩ := hr
      exact (hex n a r q h1).trans (ih q.1 h2)
  obtain ⟨es, e1, e2, e3⟩ := main as _ h
  have : s.told = es := by rw [e1]; rfl
  rw [this]
  exact ⟨e2, e3⟩


/-! ### Cases -/

/-- Observers of a list of numbers; the memory counts their calls. Observer 0 inserts 3 into the source when it is told of 1; observer 1
does so within a block; observer 2, of the source, adds 10 times any number less than 10, within a block; observer 3 does nothing. -/
def exReact (i : ℕ) (e : Ev ℕ) (s : St ℕ ℕ) : Reaction ℕ ℕ :=
  match i, e with
  | 0, .inserted 1 _ => ⟨s.mem + 1, [.insert 9 3], false⟩
  | 1, .inserted 1 _ => ⟨s.mem + 1, [.block [.insert 9 3]], false⟩
  | 2, .srcInserted v _ => ⟨s.mem + 1, if v < 10 then [.block [.insert 0 (10 * v), .remove 99]] else [], false⟩
  | _, _ => ⟨s.mem + 1, [], false⟩

def exUsers (k : Option (ℕ → ℕ)) (is : List ℕ) : Users ℕ ℕ ℕ ℕ := ⟨k, false, ⟨id, fun _ => .refl _⟩, fun _ => is, exReact⟩

/-- What is looked at in the cases: source, items, events of items. -/
def sight (r : Option (St ℕ ℕ)) : Option (List ℕ × List ℕ × List (Ev ℕ)) :=
  r.map fun s => (s.src, s.items, s.told.filter fun e => match e with | .inserted _ _ => true | .removed _ _ => true | _ => false)

/-- A block in which items are inserted and removed: one update. -/
example : sight (run (exec (exUsers none [3]) 4) [.block [.insert 0 1, .insert 1 2, .block [.remove 2], .insert 0 7]]
    (start (exUsers none [3]) [5, 6] (fun x => x ≠ 7) 0)) = some ([7, 1, 2, 6], [1, 2, 6], [.removed 5 0, .inserted 1 0, .inserted 2 1]) := by
  decide +kernel

/-- An observer of the source that acts within blocks of its own, which raise (there is no index 99). -/
example : sight (run (exec (exUsers none [2]) 5) [.block [.insert 0 1, .insert 0 2]] (start (exUsers none [2]) [5] (fun _ => true) 0)) =
    some ([20, 2, 10, 1, 5], [20, 2, 10, 1, 5], [.inserted 20 0, .inserted 2 1, .inserted 10 2, .inserted 1 3]) := by decide +kernel

/-- A block passes exceptions on: there is no index 99; what was done before is there. -/
example : ((exec (exUsers none [3]) 4 (.block [.insert 0 1, .remove 99, .insert 0 2]) (start (exUsers none [3]) [5] (fun _ => true) 0)).map
    fun r => (r.1.src, r.1.items, r.2)) = some ([1, 5], [1, 5], true) := by decide +kernel

/-- Items taken out and put back within a block are in another order than those of the source (C20). -/
example : sight (run (exec (exUsers none []) 3) [.block [.remove 0, .insert 1 5]] (start (exUsers none []) [5, 6] (fun _ => true) 0)) =
    some ([6, 5], [5, 6], []) := by decide +kernel

/-- C185: an observer that inserts while it is told of an item at the end of a block: the block raises `KeyError`, and an item is missing. -/
theorem C185_counterexample : ∃ r, exec (exUsers none [0]) 4 (.block [.insert 0 1, .insert 1 2])
    (start (exUsers none [0]) [] (fun _ => true) 0) = some r ∧ r.2 = true ∧ r.1.src = [1, 2, 3] ∧ r.1.items = [1, 3] := by
  have h : ((exec (exUsers none [0]) 4 (.block [.insert 0 1, .insert 1 2]) (start (exUsers none [0]) [] (fun _ => true) 0)).map
    fun r => (r.2, r.1.src, r.1.items)) = some (true, [1, 2, 3], [1, 3]) := by decide +kernel
  obtain ⟨r, h1, h2⟩ := Option.map_eq_some_iff.1 h
  simp only [Prod.mk.injEq] at h2
  exact ⟨r, h1, h2⟩

/-- C185: if it does so within a block of its own, nobody raises, and an item is there twice. -/
theorem C185_counterexample_twice : ∃ r, exec (exUsers none [1]) 5 (.block [.insert 0 1, .insert 1 2])
    (start (exUsers none [1]) [] (fun _ => true) 0) = some r ∧ r.2 = false ∧ r.1.src = [1, 2, 3] ∧ r.1.items = [1, 2, 2, 3] := by
  have h : ((exec (exUsers none [1]) 5 (.block [.insert 0 1, .insert 1 2]) (start (exUsers none [1]) [] (fun _ => true) 0)).map
    fun r => (r.2, r.1.src, r.1.items)) = some (false, [1, 2, 3], [1, 2, 2, 3]) := by decide +kernel
  obtain ⟨r, h1, h2⟩ := Option.map_eq_some_iff.1 h
  simp only [Prod.mk.injEq] at h2
  exact ⟨r, h1, h2⟩

/-- With a sort key nobody raises and the items are right here. -/
example : sight (run (exec (exUsers (some id) [0]) 4) [.block [.insert 0 1, .insert 1 2]] (start (exUsers (some id) [0]) [] (fun _ => true) 0)) =
    some ([1, 2, 3], [1, 2, 3], [.inserted 1 0, .inserted 3 1, .inserted 2 1]) := by decide +kernel

end Verif.ListModel.Blocks
