import Verif.ListModel.FilteredProps
import Mathlib.Tactic.SplitIfs

set_option linter.unusedSectionVars false
set_option linter.unusedSimpArgs false

/-!
C182: observers that change the source, the items, the filter or the sort key of a filtered list model while they are told
(`nion/utils/ListModel.py:299-340`, 385-466, 493-546, 611-640, with `Event.fire`, `nion/utils/Event.py:103-114`). Observers of the filtered
list model, and observers of the source that are told after it, may act in any way that depends on the whole state, and raise; an exception
ends the innermost fire.

The source has no item twice: an insertion of an item that is there is left out. The copy of the source is changed together with the source
(there is no callback between), so there is one list. Indexes of the source count from the front. Change blocks and selections are left out
(C22, C181). `none` is a recursion that does not end within the fuel, or an update that finds the list marked as sorted while its
items are not those accepted (lines 516-533, which needs a list that is wrong already; C185), or during whose first event an observer
makes another update (lines 516 and 534 read the mark after it; C185).
-/

namespace Verif.ListModel.FilteredReentrant

/-- What users and observers do: insert into the source, remove from it, change the content of an item, assign filter, sort key, order. -/
inductive Act (α C K : Type) where
  | insert (i : ℕ) (v : α)
  | remove (i : ℕ)
  | change (v : α) (c : C)
  | setFilter (p : C → Bool)
  | setKey (k : Option (C → K))
  | setReverse (b : Bool)

/-- What observers are told: by the filtered list model, and by the source. -/
inductive Ev (α : Type) where
  | beginChanges
  | endChanges
  | reset
  | inserted (v : α) (i : ℕ)
  | removed (v : α) (i : ℕ)
  | srcInserted (v : α) (i : ℕ)
  | srcRemoved (v : α) (i : ℕ)
deriving DecidableEq

/-- What an observer sees: source, accepted items, order, items; `plain` as below. -/
structure View (α K : Type) where
  src : List α
  acc : α → Bool
  key : Option (α → K)
  rev : Bool
  plain : Bool
  items : List α

/-- The filtered list model and its source, the memory of the observers. The other fields are not in the code: whether no item in the list
changed its content since the last full update of a list with sort key; whether an update or a move of an item is going on, in which the
items are not right; whether anything was done meanwhile, or the filter or order was assigned and the update is to come; and what observers
saw while neither was so. -/
structure St (α C K M : Type) where
  src : List α
  content : α → C
  items : List α
  sorted : Bool
  filter : C → Bool
  key : Option (C → K)
  reverse : Bool
  mem : M
  plain : Bool
  busy : Bool
  mixed : Bool
  seen : List (View α K)

variable {ι α C K M : Type} [DecidableEq α] [LinearOrder K]

/-- The fields of the filtered list model, as in `FL`. -/
def St.fl (s : St α C K M) : FL α C K := ⟨some s.src, s.content, s.src, s.items, s.sorted, s.filter, s.key, s.reverse, 0, [], []⟩

def St.view (s : St α C K M) : View α K := ⟨s.src, s.fl.acc, s.fl.ikey, s.reverse, s.plain, s.items⟩

/-- What an observer does when it is told: memory, acts in order, whether it raises then. -/
structure Reaction (α C K M : Type) where
  mem : M
  acts : List (Act α C K)
  raises : Bool

/-- The observers of each event, in order, and what they do. -/
structure Users (ι α C K M : Type) where
  obs : Ev α → List ι
  react : ι → Ev α → St α C K M → Reaction α C K M

abbrev Exec (α C K M : Type) := Act α C K → St α C K M → Option (St α C K M × Bool)

/-- Acts one after the other, up to an exception. -/
def acts (ex : Exec α C K M) : List (Act α C K) → St α C K M → Option (St α C K M × Bool)
  | [], s => some (s, false)
  | a :: as, s => (ex a s).bind fun r => if r.2 then some r else acts ex as r.1

/-- An observer is called. -/
def look (m : M) (s : St α C K M) : St α C K M :=
  { s with mem := m, seen := if s.busy || s.mixed then s.seen else s.seen ++ [s.view] }

/-- An observer is told; the Boolean says whether it raised. -/
def tell (u : Users ι α C K M) (ex : Exec α C K M) (e : Ev α) (i : ι) (s : St α C K M) : Option (St α C K M × Bool) :=
  (acts ex (u.react i e s).acts (look (u.react i e s).mem s)).map fun r => (r.1, r.2 || (u.react i e s).raises)

/-- `Event.fire`. -/
def fireL (u : Users ι α C K M) (ex : Exec α C K M) (e : Ev α) : List ι → St α C K M → Option (St α C K M)
  | [], s => some s
  | i :: is, s => (tell u ex e i s).bind fun r => if r.2 then some r.1 else fireL u ex e is r.1

def fire (u : Users ι α C K M) (ex : Exec α C K M) (e : Ev α) (s : St α C K M) : Option (St α C K M) := fireL u ex e (u.obs e) s

/-- The three events around a change of one item (lines 404-406 and 411-413). -/
def announce (u : Users ι α C K M) (ex : Exec α C K M) (e : Ev α) (s : St α C K M) : Option (St α C K M) :=
  (fire u ex .beginChanges s).bind fun s => (fire u ex e s).bind fun s => fire u ex .endChanges s

/-- The index of lines 398-402. -/
def position (v : α) (s : St α C K M) : ℕ :=
  match s.fl.cmp with
  | some c => findSorted c v s.items
  | none => findUnsorted s.fl.acc v s.src

/-- Line 403. -/
def put (v : α) (s : St α C K M) : St α C K M := { s with items := Py.insert s.items (position v s) v }

/-- Lines 385-406 `__inserted_master_item`. -/
def insertedMaster (u : Users ι α C K M) (ex : Exec α C K M) (v : α) (s : St α C K M) : Option (St α C K M) :=
  if s.fl.acc v then announce u ex (.inserted v (position v s)) (put v s) else some s

/-- Lines 408-425 `__removed_master_item`. -/
def removedMaster (u : Users ι α C K M) (ex : Exec α C K M) (v : α) (s : St α C K M) : Option (St α C K M) :=
  if v ∈ s.items then announce u ex (.removed v (s.items.idxOf v)) { s with items := s.items.erase v } else some s

/-- Lines 446-452: the item is removed and inserted again. -/
def move (u : Users ι α C K M) (ex : Exec α C K M) (v : α) (s : St α C K M) : Option (St α C K M) :=
  (removedMaster u ex v { s with busy := true }).bind fun t => insertedMaster u ex v { t with busy := s.busy }

/-- Lines 428-466 `__updated_master_item`. -/
def updatedMaster (u : Users ι α C K M) (ex : Exec α C K M) (v : α) (s : St α C K M) : Option (St α C K M) :=
  if s.fl.acc v then
    match s.fl.cmp with
    | some c =>
      if v ∈ s.items then if findSorted c v s.items = s.items.idxOf v then some s else move u ex v s
      else insertedMaster u ex v s
    | none => if v ∈ s.items then some s else insertedMaster u ex v s
  else removedMaster u ex v s

/-- Lines 536-539; the Boolean says whether the list was empty (`IndexError`). -/
def popLoop (u : Users ι α C K M) (ex : Exec α C K M) : List α → St α C K M → Option (St α C K M × Bool)
  | [], s => some (s, false)
  | v :: vs, s =>
    if s.items = [] then some (s, true)
    else (fire u ex (.removed v (s.items.length - 1)) { s with items := s.items.dropLast }).bind (popLoop u ex vs)

/-- Lines 540-544. -/
def appendLoop (u : Users ι α C K M) (ex : Exec α C K M) : List α → St α C K M → Option (St α C K M)
  | [], s => some s
  | v :: vs, s => (fire u ex (.inserted v s.items.length) { s with items := s.items ++ [v] }).bind (appendLoop u ex vs)

/-- Lines 534-544, with the events before. -/
def replace (u : Users ι α C K M) (ex : Exec α C K M) (s : St α C K M) : Option (St α C K M × Bool) :=
  (fire u ex .beginChanges { s with plain := true, busy := true, mixed := s.mixed && s.busy }).bind fun t =>
    if t.sorted then none
    else (popLoop u ex s.items t).bind fun r => if r.2 then some r else (appendLoop u ex s.fl.build r.1).map fun t => (t, false)

/-- Lines 493-546 `__update_items`. -/
def updateItems (u : Users ι α C K M) (ex : Exec α C K M) (s : St α C K M) : Option (St α C K M × Bool) :=
  if s.sorted then
    if s.items.Perm s.fl.build then
      (fire u ex .beginChanges s).bind fun t =>
        if t.sorted then (fire u ex .endChanges { t with sorted := true }).map fun t => (t, false) else none
    else none
  else
    (replace u ex s).bind fun r =>
      if r.2 then some ({ r.1 with busy := s.busy }, true)
      else (fire u ex .endChanges { r.1 with sorted := true, busy := s.busy }).map fun t => (t, false)

/-- Lines 305-340, after the assignment. -/
def assigned (u : Users ι α C K M) (ex : Exec α C K M) (s : St α C K M) : Option (St α C K M × Bool) :=
  (fire u ex .reset { s with sorted := false, mixed := true }).bind (updateItems u ex)

/-- `list.insert` with an index from the front. -/
def pyInsert (l : List α) (i : ℕ) (v : α) : List α := Py.insert l i v

/-- Something is done. -/
def touch (s : St α C K M) : St α C K M := { s with mixed := s.mixed || s.busy }

/-- The content of an item changes. -/
def withContent (v : α) (c : C) (s : St α C K M) : St α C K M :=
  { s with content := Function.update s.content v c, plain := s.plain && (s.key.isNone || decide (v ∉ s.src)) }

/-- One act, with the nested ones run by `ex`: lines 35-42 and 611-627; 45-53 and 630-640; 619-622; 305-340. -/
def body (u : Users ι α C K M) (ex : Exec α C K M) : Exec α C K M
  | .insert i v, s =>
    if v ∈ s.src then some (touch s, false)
    else (insertedMaster u ex v { touch s with src := pyInsert s.src i v }).bind fun t =>
      (fire u ex (.srcInserted v i) t).map fun t => (t, false)
  | .remove i, s =>
    match s.src[i]? with
    | some v => (removedMaster u ex v { touch s with src := s.src.eraseIdx i }).bind fun t =>
      (fire u ex (.srcRemoved v i) t).map fun t => (t, false)
    | none => some (touch s, true)
  | .change v c, s =>
    if v ∈ s.src then (updatedMaster u ex v (withContent v c (touch s))).map fun t => (t, false)
    else some (withContent v c (touch s), false)
  | .setFilter p, s => assigned u ex { touch s with filter := p }
  | .setKey k, s => assigned u ex { touch s with key := k }
  | .setReverse b, s => assigned u ex { touch s with reverse := b }

def exec (u : Users ι α C K M) : ℕ → Exec α C K M
  | 0, _, _ => none
  | n + 1, a, s => body u (exec u n) a s

/-- Acts from outside, whether they raise or not. -/
def run (ex : Exec α C K M) : List (Act α C K) → St α C K M → Option (St α C K M)
  | [], s => some s
  | a :: as, s => (ex a s).bind fun r => run ex as r.1

/-! ### Specification -/

/-- The items are the accepted items of the source, each once; in the order of the source, or sorted if there is a sort key and no content
of an item in the list was changed since the last full update. -/
def View.Right (w : View α K) : Prop :=
  w.items.Perm (w.src.filter w.acc) ∧ (w.plain = true →
    match w.key with
    | none => w.items = w.src.filter w.acc
    | some k => w.items.Pairwise fun a b => if w.rev then k b ≤ k a else k a ≤ k b)

/-- A new filtered list model, with a filter and order assigned. -/
def start (src : List α) (content : α → C) (filter : C → Bool) (key : Option (C → K)) (reverse : Bool) (m : M) : St α C K M :=
  let s : St α C K M := ⟨src, content, [], true, filter, key, reverse, m, true, false, false, []⟩
  { s with items := s.fl.build }

/-! ### Proof -/

variable {u : Users ι α C K M} {ex : Exec α C K M} {s t : St α C K M}

structure Inv (s : St α C K M) : Prop where
  nodup : s.src.Nodup
  right : s.busy = false → s.mixed = false → s.view.Right
  seen : ∀ w ∈ s.seen, w.Right

/-- The fields of the model. -/
structure Same (s t : St α C K M) : Prop where
  src : t.src = s.src
  content : t.content = s.content
  items : t.items = s.items
  filter : t.filter = s.filter
  key : t.key = s.key
  reverse : t.reverse = s.reverse
  plain : t.plain = s.plain
  sorted : t.sorted = s.sorted

structure Eff (s t : St α C K M) : Prop where
  inv : Inv t
  busy : t.busy = s.busy
  still : s.busy = true → t.mixed = false → s.mixed = false ∧ Same s t

def Ok (ex : Exec α C K M) : Prop := ∀ a s r, Inv s → ex a s = some r → Eff s r.1

theorem Same.refl (s : St α C K M) : Same s s := ⟨rfl, rfl, rfl, rfl, rfl, rfl, rfl, rfl⟩

theorem Same.trans {r : St α C K M} (h : Same s t) (k : Same t r) : Same s r :=
  ⟨k.1.trans h.1, k.2.trans h.2, k.3.trans h.3, k.4.trans h.4, k.5.trans h.5, k.6.trans h.6, k.7.trans h.7, k.8.trans h.8⟩

theorem Eff.refl (h : Inv s) : Eff s s := ⟨h, rfl, fun _ h => ⟨h, .refl s⟩⟩

theorem Eff.trans {r : St α C K M} (h1 : Eff s t) (h2 : Eff t r) : Eff s r := by
  refine ⟨h2.inv, h2.busy.trans h1.busy, fun hb hm => ?_⟩
  obtain ⟨a, b⟩ := h2.still (h1.busy.trans hb) hm
  obtain ⟨c, d⟩ := h1.still hb a
  exact ⟨c, d.trans b⟩

theorem acts_eff (h : Ok ex) (as : List (Act α C K)) (s : St α C K M) (r : St α C K M × Bool) (hi : Inv s) (he : acts ex as s = some r) :
    Eff s r.1 := by
  induction as generalizing s with
  | nil =>
    simp only [acts, Option.some.injEq] at he
    exact he ▸ .refl hi
  | cons a as ih =>
    simp only [acts, Option.bind_eq_some_iff] at he
    obtain ⟨r1, h1, h2⟩ := he
    have e := h a s r1 hi h1
    split at h2
    · cases h2
      exact e
    · exact e.trans (ih _ e.inv h2)

theorem look_eff (m : M) (hi : Inv s) : Eff s (look m s) := by
  refine ⟨⟨hi.nodup, hi.right, fun w hw => ?_⟩, rfl, fun _ hm => ⟨hm, ⟨rfl, rfl, rfl, rfl, rfl, rfl, rfl, rfl⟩⟩⟩
  simp only [look] at hw
  split at hw
  · exact hi.seen w hw
  · rename_i hb
    simp only [Bool.or_eq_true, not_or, Bool.not_eq_true] at hb
    rcases List.mem_append.1 hw with hw | hw
    · exact hi.seen w hw
    · rw [List.mem_singleton.1 hw]
      exact hi.right hb.1 hb.2

theorem tell_eff (h : Ok ex) (e : Ev α) (i : ι) (s : St α C K M) (r : St α C K M × Bool) (hi : Inv s) (he : tell u ex e i s = some r) :
    Eff s r.1 := by
  simp only [tell, Option.map_eq_some_iff] at he
  obtain ⟨r1, h1, rfl⟩ := he
  have k := look_eff (u.react i e s).mem hi
  exact k.trans (acts_eff h _ _ r1 k.inv h1)

theorem fireL_eff (h : Ok ex) (e : Ev α) (is : List ι) (s t : St α C K M) (hi : Inv s) (he : fireL u ex e is s = some t) : Eff s t := by
  induction is generalizing s with
  | nil =>
    simp only [fireL, Option.some.injEq] at he
    exact he ▸ .refl hi
  | cons i is ih =>
    simp only [fireL, Option.bind_eq_some_iff] at he
    obtain ⟨r1, h1, h2⟩ := he
    have k := tell_eff h e i s r1 hi h1
    split at h2
    · cases h2
      exact k
    · exact k.trans (ih _ k.inv h2)

theorem fire_eff (h : Ok ex) (e : Ev α) (s t : St α C K M) (hi : Inv s) (he : fire u ex e s = some t) : Eff s t := fireL_eff h e _ s t hi he

theorem announce_eff (h : Ok ex) (e : Ev α) (s t : St α C K M) (hi : Inv s) (he : announce u ex e s = some t) : Eff s t := by
  simp only [announce, Option.bind_eq_some_iff] at he
  obtain ⟨t1, h1, t2, h2, h3⟩ := he
  have k1 := fire_eff h _ _ _ hi h1
  have k2 := fire_eff h _ _ _ k1.inv h2
  exact (k1.trans k2).trans (fire_eff h _ _ _ k2.inv h3)

/-! #### The lists -/

theorem cmp_none (s : St α C K M) (h : s.fl.ikey = none) : s.fl.cmp = none := by rw [cmp_eq, h]; rfl

theorem cmp_some (s : St α C K M) (k : α → K) (h : s.fl.ikey = some k) : s.fl.cmp = some (cmpKey s.reverse k) := by rw [cmp_eq, h]; rfl

/-- Inserting an item that is accepted and in the source, when the items are right but for it. -/
theorem put_right (v : α) (s : St α C K M) (hv : v ∈ s.src) (ha : s.fl.acc v = true)
    (h : View.Right ⟨s.src.erase v, s.fl.acc, s.fl.ikey, s.reverse, s.plain, s.items⟩) : (put v s).view.Right := by
  obtain ⟨pre, post, hs, hp⟩ := List.eq_append_cons_of_mem hv
  have he : s.src.erase v = pre ++ post := by rw [hs, List.erase_append_right _ hp]; simp
  simp only [View.Right] at h
  rw [he] at h
  refine ⟨?_, fun hpl => ?_⟩
  · change (Py.insert s.items (position v s) v).Perm (s.src.filter s.fl.acc)
    refine (perm_pyInsert _ _ _).trans ((h.1.cons v).trans ?_)
    rw [hs, List.filter_append, List.filter_append, List.filter_cons_of_pos ha]
    exact List.perm_middle.symm
  · have h2 := h.2 hpl
    change match s.fl.ikey with
      | none => Py.insert s.items (position v s) v = s.src.filter s.fl.acc
      | some k => (Py.insert s.items (position v s) v).Pairwise fun a b => if s.reverse then k b ≤ k a else k a ≤ k b
    unfold position
    cases hk : s.fl.ikey with
    | none =>
      rw [hk] at h2
      simp only at h2 ⊢
      rw [cmp_none s hk, h2, hs]
      exact findUnsorted_insert _ _ _ _ hp ha
    | some k =>
      rw [hk] at h2
      simp only at h2 ⊢
      rw [cmp_some s k hk]
      exact sorted_insert (isCmp_key s.reverse k) h2 v

/-- Removing an item from the source and the items. -/
theorem erase_right (v : α) (w : View α K) (hn : w.src.Nodup) (h : w.Right) :
    View.Right { w with src := w.src.erase v, items := w.items.erase v } := by
  refine ⟨?_, fun hp => ?_⟩
  · simp only
    rw [filter_erase_eq hn]
    exact h.1.erase v
  · have h2 := h.2 hp
    simp only
    cases hk : w.key with
    | none =>
      rw [hk] at h2
      simp only at h2 ⊢
      rw [filter_erase_eq hn, h2]
    | some k =>
      rw [hk] at h2
      exact h2.sublist List.erase_sublist

theorem Right.mem {w : View α K} (h : w.Right) (v : α) : v ∈ w.items ↔ v ∈ w.src ∧ w.acc v = true := by
  rw [h.1.mem_iff]
  simp

theorem put_nodup (v : α) (s : St α C K M) : (put v s).src = s.src := rfl

/-- `insertedMaster` when the items are right but for the item. -/
theorem insertedMaster_eff (h : Ok ex) (v : α) (s t : St α C K M) (hn : s.src.Nodup) (hv : v ∈ s.src) (hw : ∀ w ∈ s.seen, w.Right)
    (hr : s.busy = false → s.mixed = false → View.Right ⟨s.src.erase v, s.fl.acc, s.fl.ikey, s.reverse, s.plain, s.items⟩)
    (he : insertedMaster u ex v s = some t) : Inv t ∧ t.busy = s.busy ∧ (s.busy = true → t.mixed = false → s.mixed = false) := by
  unfold insertedMaster at he
  split at he
  · rename_i ha
    have i1 : Inv (put v s) := ⟨hn, fun hb hm => put_right v s hv ha (hr hb hm), hw⟩
    have e := announce_eff h _ _ _ i1 he
    exact ⟨e.inv, e.busy, fun hb hm => (e.still hb hm).1⟩
  · rename_i ha
    cases he
    refine ⟨⟨hn, fun hb hm => ?_, hw⟩, rfl, fun _ h => h⟩
    have hf : (s.src.erase v).filter s.fl.acc = s.src.filter s.fl.acc := by
      rw [filter_erase_eq hn, List.erase_of_not_mem (by simp [ha])]
    have := hr hb hm
    simp only [View.Right] at this
    rw [hf] at this
    exact this

/-- `removedMaster` when the items are right but for the item that is gone. -/
theorem removedMaster_eff (h : Ok ex) (v : α) (s t : St α C K M) (hn : s.src.Nodup) (hw : ∀ w ∈ s.seen, w.Right)
    (hr : s.busy = false → s.mixed = false → View.Right { s.view with items := s.items.erase v })
    (he : removedMaster u ex v s = some t) : Inv t ∧ t.busy = s.busy ∧ (s.busy = true → t.mixed = false → s.mixed = false ∧
      Same { s with items := s.items.erase v } t) := by
  unfold removedMaster at he
  split at he
  · have i1 : Inv { s with items := s.items.erase v } := ⟨hn, fun hb hm => hr hb hm, hw⟩
    have e := announce_eff h _ _ _ i1 he
    exact ⟨e.inv, e.busy, fun hb hm => e.still hb hm⟩
  · rename_i hv
    cases he
    have hx : s.items.erase v = s.items := List.erase_of_not_mem hv
    refine ⟨⟨hn, fun hb hm => ?_, hw⟩, rfl, fun _ hm => ⟨hm, ?_⟩⟩
    · have := hr hb hm
      rw [hx] at this
      exact this
    · rw [hx]
      exact .refl s

theorem Inv.touch (h : Inv s) : Inv (touch s) := by
  refine ⟨h.nodup, fun hb hm => ?_, h.seen⟩
  have hb' : s.busy = false := hb
  simp only [FilteredReentrant.touch, hb', Bool.or_false] at hm
  exact h.right hb' hm

/-- An act began: while an update is going on the mark stays. -/
theorem Eff.of_touch (hi : Inv t) (hb : t.busy = s.busy) (hm : s.busy = true → t.mixed = false → (touch s).mixed = false) : Eff s t := by
  refine ⟨hi, hb, fun h1 h2 => ?_⟩
  have := hm h1 h2
  simp [FilteredReentrant.touch, h1] at this

theorem touch_mixed (h : (touch s).mixed = false) (hb : (touch s).busy = false) : s.mixed = false := by
  have hb' : s.busy = false := hb
  simpa [FilteredReentrant.touch, hb'] using h

theorem insert_eff (h : Ok ex) (i : ℕ) (v : α) (s : St α C K M) (r : St α C K M × Bool) (hi : Inv s) (he : body u ex (.insert i v) s = some r) :
    Eff s r.1 := by
  simp only [body] at he
  split at he
  · cases he
    exact .of_touch hi.touch rfl fun _ h => h
  · rename_i hv
    simp only [Option.bind_eq_some_iff, Option.map_eq_some_iff] at he
    obtain ⟨t1, h1, t2, h2, rfl⟩ := he
    have hn : (pyInsert s.src i v).Nodup := nodup_pyInsert' hi.nodup i hv
    have hm : v ∈ pyInsert s.src i v := (perm_pyInsert s.src i v).mem_iff.2 (by simp)
    obtain ⟨pre, post, hs, hp⟩ := pyInsert_split s.src i v
    have he : (pyInsert s.src i v).erase v = s.src := by
      unfold pyInsert
      have : v ∉ pre := fun hx => hv (by rw [hs]; simp [hx])
      rw [hp, List.erase_append_right _ this, hs]
      simp
    obtain ⟨k1, k2, k3⟩ := insertedMaster_eff (s := { touch s with src := pyInsert s.src i v }) h v t1 hn hm hi.seen (fun hb hmm => by
      simp only
      rw [he]
      exact hi.right hb (touch_mixed hmm hb)) h1
    have e := fire_eff h _ _ _ k1 h2
    exact .of_touch e.inv (e.busy.trans k2) fun hb hmm => k3 hb (e.still (k2.trans hb) hmm).1

theorem remove_eff (h : Ok ex) (i : ℕ) (s : St α C K M) (r : St α C K M × Bool) (hi : Inv s) (he : body u ex (.remove i) s = some r) :
    Eff s r.1 := by
  simp only [body] at he
  split at he
  · rename_i v hv
    simp only [Option.bind_eq_some_iff, Option.map_eq_some_iff] at he
    obtain ⟨t1, h1, t2, h2, rfl⟩ := he
    obtain ⟨hl, hg⟩ := List.getElem?_eq_some_iff.1 hv
    have hx : s.src.eraseIdx i = s.src.erase v := by
      rw [List.erase_eq_eraseIdx_of_idxOf (hg ▸ hi.nodup.idxOf_getElem i hl)]
    rw [hx] at h1
    obtain ⟨k1, k2, k3⟩ := removedMaster_eff (s := { touch s with src := s.src.erase v }) h v t1 (hi.nodup.erase v) hi.seen (fun hb hmm =>
      erase_right v s.view hi.nodup (hi.right hb (touch_mixed hmm hb))) h1
    have e := fire_eff h _ _ _ k1 h2
    exact .of_touch e.inv (e.busy.trans k2) fun hb hmm => (k3 hb (e.still (k2.trans hb) hmm).1).1
  · cases he
    exact .of_touch hi.touch rfl fun _ h => h

/-- Without the changed item the items are right under the new content. -/
theorem content_right (v : α) (c : C) (s : St α C K M) (hn : s.src.Nodup) (hm : v ∈ s.src) (h : s.view.Right) :
    View.Right ⟨s.src.erase v, (withContent v c s).fl.acc, (withContent v c s).fl.ikey, s.reverse, (withContent v c s).plain, s.items.erase v⟩ := by
  have hacc : (s.src.erase v).filter (withContent v c s).fl.acc = (s.src.erase v).filter s.fl.acc :=
    filter_congr_erase hn fun x hx => by simp [withContent, St.fl, FL.acc, Function.update_of_ne hx]
  have he := erase_right v s.view hn h
  refine ⟨?_, fun hp => ?_⟩
  · simp only
    rw [hacc]
    exact he.1
  · simp only [withContent, Bool.and_eq_true, Bool.or_eq_true, decide_eq_true_eq] at hp
    obtain ⟨hp1, hp2⟩ := hp
    have hk : s.key = none := by
      rcases hp2 with hk | hk
      · exact Option.isNone_iff_eq_none.1 hk
      · exact absurd hm hk
    have hk1 : (withContent v c s).fl.ikey = none := by simp [FL.ikey, withContent, St.fl, hk]
    have hk2 : s.fl.ikey = none := by simp [FL.ikey, St.fl, hk]
    have h2 := he.2 hp1
    simp only [St.view, hk2] at h2
    simp only [hk1]
    rw [hacc]
    exact h2

theorem move_eff (h : Ok ex) (v : α) (s t : St α C K M) (hn : s.src.Nodup) (hm : v ∈ s.src) (hw : ∀ w ∈ s.seen, w.Right)
    (hr : s.busy = false → s.mixed = false → View.Right ⟨s.src.erase v, s.fl.acc, s.fl.ikey, s.reverse, s.plain, s.items.erase v⟩)
    (he : move u ex v s = some t) : Inv t ∧ t.busy = s.busy ∧ (s.busy = true → t.mixed = false → s.mixed = false) := by
  simp only [move, Option.bind_eq_some_iff] at he
  obtain ⟨t1, h1, h2⟩ := he
  obtain ⟨k1, k2, k3⟩ := removedMaster_eff (s := { s with busy := true }) h v t1 hn hw (fun hb => by cases hb) h1
  by_cases hv : v ∈ t1.src
  · obtain ⟨g1, g2, g3⟩ := insertedMaster_eff (s := { t1 with busy := s.busy }) h v t k1.nodup hv k1.seen (fun hb hmm => by
      obtain ⟨c1, c2⟩ := k3 rfl hmm
      have := hr hb c1
      have e1 : t1.src = s.src := c2.src
      have e2 : t1.fl.acc = s.fl.acc := by
        funext x
        simp only [FL.acc, St.fl]
        rw [c2.filter, c2.content]
      have e3 : t1.fl.ikey = s.fl.ikey := by
        simp only [FL.ikey, St.fl]
        rw [c2.key, c2.content]
      have e4 : t1.reverse = s.reverse := c2.reverse
      have e5 : t1.plain = s.plain := c2.plain
      have e6 : t1.items = s.items.erase v := c2.items
      change View.Right ⟨t1.src.erase v, t1.fl.acc, t1.fl.ikey, t1.reverse, t1.plain, t1.items⟩
      rw [e1, e2, e3, e4, e5, e6]
      exact this) h2
    exact ⟨g1, g2, fun hb hmm => (k3 rfl (g3 hb hmm)).1⟩
  · have hmm : t1.mixed = true := by
      cases hmm : t1.mixed with
      | true => rfl
      | false =>
        have := (k3 rfl hmm).2.src
        rw [this] at hv
        exact absurd hm hv
    unfold insertedMaster at h2
    split at h2
    · have i1 : Inv (put v { t1 with busy := s.busy }) := ⟨k1.nodup, fun _ h => absurd (hmm.symm.trans h) (by simp), k1.seen⟩
      have e := announce_eff h _ _ _ i1 h2
      exact ⟨e.inv, e.busy, fun hb hx => absurd (hmm.symm.trans (e.still hb hx).1) (by simp)⟩
    · cases h2
      exact ⟨⟨k1.nodup, fun _ h => absurd (hmm.symm.trans h) (by simp), k1.seen⟩, rfl, fun _ hx => absurd (hmm.symm.trans hx) (by simp)⟩

theorem change_eff (h : Ok ex) (v : α) (c : C) (s : St α C K M) (r : St α C K M × Bool) (hi : Inv s)
    (he : body u ex (.change v c) s = some r) : Eff s r.1 := by
  simp only [body] at he
  split at he
  swap
  · rename_i hv
    cases he
    refine .of_touch ⟨hi.nodup, fun hb hm => ?_, hi.seen⟩ rfl fun _ h => h
    have hr := hi.right hb (touch_mixed hm hb)
    have hacc : s.src.filter (withContent v c (touch s)).fl.acc = s.src.filter s.fl.acc := by
      apply List.filter_congr
      intro x hx
      have hne : x ≠ v := fun e => hv (e ▸ hx)
      simp [withContent, St.fl, FL.acc, Function.update_of_ne hne, touch]
    refine ⟨?_, fun hp => ?_⟩
    · simp only [St.view]
      change s.items.Perm (s.src.filter _)
      rw [hacc]
      exact hr.1
    · have hp1 : s.plain = true := by
        simp only [St.view, withContent, Bool.and_eq_true] at hp
        exact hp.1
      have h2 := hr.2 hp1
      simp only [St.view] at h2 ⊢
      cases hk : s.key with
      | none =>
        have hk1 : (withContent v c (touch s)).fl.ikey = none := by simp [FL.ikey, withContent, St.fl, touch, hk]
        have hk2 : s.fl.ikey = none := by simp [FL.ikey, St.fl, hk]
        rw [hk2] at h2
        rw [hk1]
        simp only at h2 ⊢
        change s.items = s.src.filter _
        rw [hacc]
        exact h2
      | some k =>
        have hk1 : (withContent v c (touch s)).fl.ikey = some fun x => k (Function.update s.content v c x) := by
          simp [FL.ikey, withContent, St.fl, touch, hk]
        have hk2 : s.fl.ikey = some fun x => k (s.content x) := by simp [FL.ikey, St.fl, hk]
        rw [hk2] at h2
        rw [hk1]
        simp only at h2 ⊢
        have hmem : ∀ x ∈ s.items, x ≠ v := fun x hx e => hv (e ▸ ((Right.mem hr x).1 hx).1)
        change s.items.Pairwise _
        refine h2.imp_of_mem fun {a b} ha hb hab => ?_
        rw [Function.update_of_ne (hmem a ha), Function.update_of_ne (hmem b hb)]
        exact hab
  · rename_i hv
    rw [Option.map_eq_some_iff] at he
    obtain ⟨t, h1, rfl⟩ := he
    have hc : s.busy = false → (touch s).mixed = false → View.Right ⟨s.src.erase v, (withContent v c s).fl.acc, (withContent v c s).fl.ikey,
        s.reverse, (withContent v c s).plain, s.items.erase v⟩ := fun hb hm =>
      content_right v c s hi.nodup hv (hi.right hb (touch_mixed hm hb))
    have hit : s.busy = false → (touch s).mixed = false → (v ∈ s.items ↔ s.fl.acc v = true) := fun hb hm => by
      have := Right.mem (hi.right hb (touch_mixed hm hb)) v
      simpa [St.view, hv] using this
    set w := withContent v c (touch s) with hw
    have hitems : w.items = s.items := rfl
    have hsrc : w.src = s.src := rfl
    have hrej : w.fl.acc v = false → s.busy = false → w.mixed = false → View.Right { w.view with items := w.items.erase v } := fun ha hb hm => by
      have := hc hb hm
      have hf : (s.src.erase v).filter w.fl.acc = s.src.filter w.fl.acc := by
        rw [filter_erase_eq hi.nodup, List.erase_of_not_mem (by simp [ha])]
      simp only [View.Right] at this ⊢
      change (s.items.erase v).Perm (s.src.filter w.fl.acc) ∧ _
      rw [← hf]
      refine ⟨this.1, fun hp => ?_⟩
      have h2 := this.2 hp
      change match w.fl.ikey with
        | none => s.items.erase v = s.src.filter w.fl.acc
        | some k => _
      rw [← hf]
      exact h2
    -- the item is accepted and in the list where it belongs or there is no sort key
    have hstay : w.fl.acc v = true → v ∈ s.items → s.busy = false → w.mixed = false → w.view.Right := fun ha hx hb hm => by
      have h0 := hi.right hb (touch_mixed hm hb)
      have h1 := hc hb hm
      have hsv : s.fl.acc v = true := (hit hb hm).1 hx
      have hf : s.src.filter w.fl.acc = s.src.filter s.fl.acc := by
        apply List.filter_congr
        intro x _
        by_cases e : x = v
        · rw [e, ha, hsv]
        · simp [hw, withContent, St.fl, FL.acc, Function.update_of_ne e, touch]
      refine ⟨?_, fun hp => ?_⟩
      · change s.items.Perm (s.src.filter w.fl.acc)
        rw [hf]
        exact h0.1
      · have hp' : (s.plain && (s.key.isNone || decide (v ∉ s.src))) = true := hp
        simp only [Bool.and_eq_true, Bool.or_eq_true, decide_eq_true_eq] at hp'
        have hk : s.key = none := hp'.2.elim Option.isNone_iff_eq_none.1 fun h => absurd hv h
        have hk1 : w.fl.ikey = none := by simp [hw, FL.ikey, withContent, St.fl, touch, hk]
        have hk2 : s.fl.ikey = none := by simp [FL.ikey, St.fl, hk]
        have h2 := h0.2 hp'.1
        simp only [St.view, hk2] at h2
        simp only [St.view, hk1]
        change s.items = s.src.filter w.fl.acc
        rw [hf]
        exact h2
    have hins : w.fl.acc v = true → v ∉ s.items → insertedMaster u ex v w = some t → Eff s t := fun ha hx hh => by
      obtain ⟨g1, g2, g3⟩ := insertedMaster_eff (s := w) h v t hi.nodup hv hi.seen (fun hb hm => by
        have := hc hb hm
        rw [List.erase_of_not_mem hx] at this
        exact this) hh
      exact .of_touch g1 g2 g3
    unfold updatedMaster at h1
    split at h1
    · rename_i ha
      split at h1
      · split at h1
        · rename_i hx
          split at h1
          · rw [← Option.some.inj h1]
            exact .of_touch ⟨hi.nodup, fun hb hm => hstay ha hx hb hm, hi.seen⟩ rfl fun _ h => h
          · obtain ⟨g1, g2, g3⟩ := move_eff (s := w) h v t hi.nodup hv hi.seen (fun hb hm => hc hb hm) h1
            exact .of_touch g1 g2 g3
        · rename_i hx
          exact hins ha hx h1
      · split at h1
        · rename_i hx
          rw [← Option.some.inj h1]
          exact .of_touch ⟨hi.nodup, fun hb hm => hstay ha hx hb hm, hi.seen⟩ rfl fun _ h => h
        · rename_i hx
          exact hins ha hx h1
    · rename_i ha
      obtain ⟨g1, g2, g3⟩ := removedMaster_eff (s := w) h v t hi.nodup hi.seen (fun hb hm => hrej (by simpa using ha) hb hm) h1
      exact .of_touch g1 g2 fun hb hm => (g3 hb hm).1

/-! #### Updates -/

theorem popLoop_eff (h : Ok ex) (vs : List α) (s : St α C K M) (r : St α C K M × Bool) (hi : Inv s) (hb : s.busy = true)
    (he : popLoop u ex vs s = some r) : Inv r.1 ∧ r.1.busy = true ∧ (r.1.mixed = false → s.mixed = false ∧
      (s.items.length = vs.length → r.2 = false ∧ Same { s with items := [] } r.1)) := by
  induction vs generalizing s with
  | nil =>
    simp only [popLoop, Option.some.injEq] at he
    subst he
    refine ⟨hi, hb, fun hm => ⟨hm, fun hl => ⟨rfl, ?_⟩⟩⟩
    have : s.items = [] := List.length_eq_zero_iff.1 hl
    exact ⟨rfl, rfl, this, rfl, rfl, rfl, rfl, rfl⟩
  | cons v vs ih =>
    simp only [popLoop] at he
    split at he
    · rename_i hx
      cases he
      exact ⟨hi, hb, fun hm => ⟨hm, fun hl => by simp [hx] at hl⟩⟩
    · rw [Option.bind_eq_some_iff] at he
      obtain ⟨t, h1, h2⟩ := he
      have i1 : Inv { s with items := s.items.dropLast } := ⟨hi.nodup, fun hf => absurd (hb.symm.trans hf) (by simp), hi.seen⟩
      have e := fire_eff h _ _ _ i1 h1
      obtain ⟨g1, g2, g3⟩ := ih t e.inv (e.busy.trans hb) h2
      refine ⟨g1, g2, fun hm => ?_⟩
      obtain ⟨c1, c2⟩ := g3 hm
      obtain ⟨d1, d2⟩ := e.still hb c1
      refine ⟨d1, fun hl => ?_⟩
      have hti : t.items = s.items.dropLast := d2.items
      obtain ⟨f1, f2⟩ := c2 (by rw [hti]; simp [hl])
      exact ⟨f1, f2.src.trans d2.src, f2.content.trans d2.content, f2.items, f2.filter.trans d2.filter, f2.key.trans d2.key,
        f2.reverse.trans d2.reverse, f2.plain.trans d2.plain, f2.sorted.trans d2.sorted⟩

theorem appendLoop_eff (h : Ok ex) (vs : List α) (s t : St α C K M) (hi : Inv s) (hb : s.busy = true)
    (he : appendLoop u ex vs s = some t) : Inv t ∧ t.busy = true ∧ (t.mixed = false → s.mixed = false ∧
      Same { s with items := s.items ++ vs } t) := by
  induction vs generalizing s with
  | nil =>
    simp only [appendLoop, Option.some.injEq] at he
    subst he
    exact ⟨hi, hb, fun hm => ⟨hm, by rw [List.append_nil]; exact .refl s⟩⟩
  | cons v vs ih =>
    simp only [appendLoop, Option.bind_eq_some_iff] at he
    obtain ⟨t1, h1, h2⟩ := he
    have i1 : Inv { s with items := s.items ++ [v] } := ⟨hi.nodup, fun hf => absurd (hb.symm.trans hf) (by simp), hi.seen⟩
    have e := fire_eff h _ _ _ i1 h1
    obtain ⟨g1, g2, g3⟩ := ih t1 e.inv (e.busy.trans hb) h2
    refine ⟨g1, g2, fun hm => ?_⟩
    obtain ⟨c1, c2⟩ := g3 hm
    obtain ⟨d1, d2⟩ := e.still hb c1
    refine ⟨d1, c2.src.trans d2.src, c2.content.trans d2.content, ?_, c2.filter.trans d2.filter, c2.key.trans d2.key,
      c2.reverse.trans d2.reverse, c2.plain.trans d2.plain, c2.sorted.trans d2.sorted⟩
    have hti : t1.items = s.items ++ [v] := d2.items
    have := c2.items
    simp only [hti, List.append_assoc, List.singleton_append] at this
    exact this

theorem replace_eff (h : Ok ex) (s : St α C K M) (r : St α C K M × Bool) (hi : Inv s) (he : replace u ex s = some r) :
    Inv r.1 ∧ r.1.busy = true ∧ (r.1.mixed = false → (s.mixed && s.busy) = false ∧ r.2 = false ∧
      Same { s with items := s.fl.build, plain := true } r.1) := by
  simp only [replace, Option.bind_eq_some_iff] at he
  obtain ⟨t1, h1, h2⟩ := he
  split at h2
  · cases h2
  rw [Option.bind_eq_some_iff] at h2
  obtain ⟨r2, h2, h3⟩ := h2
  have i0 : Inv { s with plain := true, busy := true, mixed := s.mixed && s.busy } := ⟨hi.nodup, fun hf => (by cases hf), hi.seen⟩
  have e := fire_eff h _ _ _ i0 h1
  obtain ⟨g1, g2, g3⟩ := popLoop_eff h s.items t1 r2 e.inv e.busy h2
  split at h3
  · cases h3
    refine ⟨g1, g2, fun hm => ?_⟩
    obtain ⟨c1, c2⟩ := g3 hm
    obtain ⟨d1, d2⟩ := e.still rfl c1
    have hti : t1.items = s.items := d2.items
    rename_i hr
    exact absurd ((c2 (by rw [hti])).1.symm.trans hr) (by simp)
  · rw [Option.map_eq_some_iff] at h3
    obtain ⟨t3, h3, rfl⟩ := h3
    obtain ⟨f1, f2, f3⟩ := appendLoop_eff h _ _ _ g1 g2 h3
    refine ⟨f1, f2, fun hm => ?_⟩
    obtain ⟨a1, a2⟩ := f3 hm
    obtain ⟨c1, c2⟩ := g3 a1
    obtain ⟨d1, d2⟩ := e.still rfl c1
    have hti : t1.items = s.items := d2.items
    obtain ⟨_, b2⟩ := c2 (by rw [hti])
    refine ⟨d1, rfl, a2.src.trans (b2.src.trans d2.src), a2.content.trans (b2.content.trans d2.content), ?_,
      a2.filter.trans (b2.filter.trans d2.filter), a2.key.trans (b2.key.trans d2.key), a2.reverse.trans (b2.reverse.trans d2.reverse),
      a2.plain.trans (b2.plain.trans d2.plain), a2.sorted.trans (b2.sorted.trans d2.sorted)⟩
    have h1 := a2.items
    have h2 : r2.1.items = [] := b2.items
    simp only [h2, List.nil_append] at h1
    exact h1

theorem build_right (s : St α C K M) : View.Right ⟨s.src, s.fl.acc, s.fl.ikey, s.reverse, true, s.fl.build⟩ := by
  have := build_spec true s.fl
  unfold CorrectFor at this
  simp only [View.Right]
  have hm : s.fl.master = s.src := rfl
  have hr : s.fl.reverse = s.reverse := rfl
  rw [hm, hr] at this
  cases hk : s.fl.ikey with
  | none =>
    rw [hk] at this
    simp only at this ⊢
    exact ⟨this.1, fun _ => this.2 (by trivial)⟩
  | some k =>
    rw [hk] at this
    simp only at this ⊢
    exact ⟨this.1, fun _ => this.2⟩

theorem replaced_right (s t : St α C K M) (h : Same { s with items := s.fl.build, plain := true } t) : t.view.Right := by
  have e2 : t.fl.acc = s.fl.acc := by
    funext x
    simp only [FL.acc, St.fl]
    rw [h.filter, h.content]
  have e3 : t.fl.ikey = s.fl.ikey := by
    simp only [FL.ikey, St.fl]
    rw [h.key, h.content]
  simp only [St.view]
  rw [h.src, e2, e3, h.reverse, h.plain, h.items]
  exact build_right s

theorem updateItems_eff (h : Ok ex) (s : St α C K M) (r : St α C K M × Bool) (hi : Inv s) (he : updateItems u ex s = some r) :
    Inv r.1 ∧ r.1.busy = s.busy ∧ (s.busy = true → r.1.mixed = false → s.mixed = false) := by
  unfold updateItems at he
  split at he
  · split at he
    · rw [Option.bind_eq_some_iff] at he
      obtain ⟨t1, h1, he⟩ := he
      split at he
      on_goal 2 => cases he
      rw [Option.map_eq_some_iff] at he
      obtain ⟨t2, h2, rfl⟩ := he
      have e := fire_eff h _ _ _ hi h1
      have i1 : Inv { t1 with sorted := true } := ⟨e.inv.nodup, e.inv.right, e.inv.seen⟩
      have e2 := fire_eff h _ _ _ i1 h2
      exact ⟨e2.inv, e2.busy.trans e.busy, fun hb hm => (e.still hb (e2.still (e.busy.trans hb) hm).1).1⟩
    · cases he
  · rw [Option.bind_eq_some_iff] at he
    obtain ⟨r1, h1, h2⟩ := he
    obtain ⟨g1, g2, g3⟩ := replace_eff h s r1 hi h1
    have hright : r1.1.mixed = false → r1.1.view.Right := fun hm => replaced_right s r1.1 (g3 hm).2.2
    have hmix : s.busy = true → r1.1.mixed = false → s.mixed = false := fun hb hm => by simpa [hb] using (g3 hm).1
    split at h2
    · cases h2
      exact ⟨⟨g1.nodup, fun _ hm => hright hm, g1.seen⟩, rfl, hmix⟩
    · rw [Option.map_eq_some_iff] at h2
      obtain ⟨t, h2, rfl⟩ := h2
      have i1 : Inv { r1.1 with sorted := true, busy := s.busy } := ⟨g1.nodup, fun _ hm => hright hm, g1.seen⟩
      have e := fire_eff h _ _ _ i1 h2
      exact ⟨e.inv, e.busy, fun hb hm => hmix hb (e.still hb hm).1⟩

theorem assigned_eff (h : Ok ex) (s : St α C K M) (r : St α C K M × Bool) (hn : s.src.Nodup) (hs : ∀ w ∈ s.seen, w.Right)
    (he : assigned u ex s = some r) : Inv r.1 ∧ r.1.busy = s.busy ∧ (s.busy = true → r.1.mixed = true) := by
  simp only [assigned, Option.bind_eq_some_iff] at he
  obtain ⟨t, h1, h2⟩ := he
  have i1 : Inv { s with sorted := false, mixed := true } := ⟨hn, fun _ hm => (by cases hm), hs⟩
  have e := fire_eff h _ _ _ i1 h1
  obtain ⟨g1, g2, g3⟩ := updateItems_eff h t r e.inv h2
  refine ⟨g1, g2.trans e.busy, fun hb => ?_⟩
  cases hm : r.1.mixed with
  | true => rfl
  | false => exact absurd (e.still hb (g3 (e.busy.trans hb) hm)).1 (by simp)

theorem body_ok (h : Ok ex) : Ok (body u ex) := by
  intro a s r hi he
  have hset : ∀ w : St α C K M, w.src = s.src → w.seen = s.seen → w.busy = s.busy → assigned u ex w = some r → Eff s r.1 := by
    intro w h1 h2 h3 hw
    obtain ⟨g1, g2, g3⟩ := assigned_eff h w r (h1 ▸ hi.nodup) (h2 ▸ hi.seen) hw
    exact ⟨g1, g2.trans h3, fun hb hm => absurd ((g3 (h3.trans hb)).symm.trans hm) (by simp)⟩
  cases a with
  | insert i v => exact insert_eff h i v s r hi he
  | remove i => exact remove_eff h i s r hi he
  | change v c => exact change_eff h v c s r hi he
  | setFilter p => exact hset { touch s with filter := p } rfl rfl rfl he
  | setKey k => exact hset { touch s with key := k } rfl rfl rfl he
  | setReverse b => exact hset { touch s with reverse := b } rfl rfl rfl he

theorem exec_ok (u : Users ι α C K M) : ∀ n, Ok (exec u n)
  | 0 => fun a s r _ he => by simp [exec] at he
  | n + 1 => fun a s r hi he => body_ok (exec_ok u n) a s r hi he

theorem run_eff (h : Ok ex) (as : List (Act α C K)) (s t : St α C K M) (hi : Inv s) (he : run ex as s = some t) : Eff s t := by
  induction as generalizing s with
  | nil =>
    simp only [run, Option.some.injEq] at he
    exact he ▸ .refl hi
  | cons a as ih =>
    simp only [run, Option.bind_eq_some_iff] at he
    obtain ⟨r, h1, h2⟩ := he
    have e := h a s r hi h1
    exact e.trans (ih _ e.inv h2)

theorem start_inv (src : List α) (hs : src.Nodup) (content : α → C) (filter : C → Bool) (key : Option (C → K)) (reverse : Bool) (m : M) :
    Inv (start src content filter key reverse m) :=
  ⟨hs, fun _ _ => build_right (α := α) (C := C) (K := K) (M := M) ⟨src, content, [], true, filter, key, reverse, m, true, false, false, []⟩,
    fun w hw => by simp [start] at hw⟩

/-- C182 (partial: nothing was done while an update or the move of an item was going on, since the last full update): whatever observers
do when they are told, the items are right when the acts have returned, and whenever an observer was told while this was so. -/
theorem C182_items_partial (u : Users ι α C K M) (src : List α) (hs : src.Nodup) (content : α → C) (filter : C → Bool) (key : Option (C → K))
    (reverse : Bool) (m : M) (n : ℕ) (as : List (Act α C K)) (s : St α C K M)
    (h : run (exec u n) as (start src content filter key reverse m) = some s) :
    (s.mixed = false → s.view.Right) ∧ ∀ w ∈ s.seen, w.Right := by
  have e := run_eff (exec_ok u n) as _ s (start_inv src hs content filter key reverse m) h
  exact ⟨fun hm => e.inv.right e.busy hm, e.inv.seen⟩

/-! ### Calls of the source only -/

/-- Calls of the source. -/
def Act.OfSource : Act α C K → Prop
  | .insert _ _ => True
  | .remove _ => True
  | _ => False

/-- What such acts leave as it is. -/
structure Calm (s t : St α C K M) : Prop where
  busy : t.busy = false
  mixed : t.mixed = s.mixed
  plain : t.plain = s.plain
  filter : t.filter = s.filter
  key : t.key = s.key
  reverse : t.reverse = s.reverse
  content : t.content = s.content
  seen : s.plain = true → ∀ w ∈ t.seen, w ∈ s.seen ∨ (w.acc = s.fl.acc ∧ w.key = s.fl.ikey ∧ w.rev = s.reverse ∧ w.plain = true)

theorem Calm.refl (h : s.busy = false) : Calm s s := ⟨h, rfl, rfl, rfl, rfl, rfl, rfl, fun _ _ hw => .inl hw⟩

theorem Calm.acc (h : Calm s t) : t.fl.acc = s.fl.acc := by
  funext x
  simp only [FL.acc, St.fl]
  rw [h.filter, h.content]

theorem Calm.ikey (h : Calm s t) : t.fl.ikey = s.fl.ikey := by
  simp only [FL.ikey, St.fl]
  rw [h.key, h.content]

theorem Calm.trans {r : St α C K M} (h : Calm s t) (k : Calm t r) : Calm s r := by
  refine ⟨k.busy, k.mixed.trans h.mixed, k.plain.trans h.plain, k.filter.trans h.filter, k.key.trans h.key, k.reverse.trans h.reverse,
    k.content.trans h.content, fun hp w hw => ?_⟩
  rcases k.seen (h.plain.trans hp) w hw with h1 | h1
  · exact h.seen hp w h1
  · rw [h.acc, h.ikey, h.reverse] at h1
    exact .inr h1

def Quiet (ex : Exec α C K M) : Prop := ∀ a s r, a.OfSource → s.busy = false → ex a s = some r → Calm s r.1

/-- Observers call only the source. -/
def Users.OnlySource (u : Users ι α C K M) : Prop := ∀ i e s, ∀ a ∈ (u.react i e s).acts, a.OfSource

theorem acts_calm (h : Quiet ex) (as : List (Act α C K)) (ha : ∀ a ∈ as, a.OfSource) (s : St α C K M) (r : St α C K M × Bool)
    (hb : s.busy = false) (he : acts ex as s = some r) : Calm s r.1 := by
  induction as generalizing s with
  | nil =>
    simp only [acts, Option.some.injEq] at he
    exact he ▸ .refl hb
  | cons a as ih =>
    simp only [acts, Option.bind_eq_some_iff] at he
    obtain ⟨r1, h1, h2⟩ := he
    have e := h a s r1 (ha a (by simp)) hb h1
    split at h2
    · cases h2
      exact e
    · exact e.trans (ih (fun b hb => ha b (by simp [hb])) _ e.busy h2)

theorem fireL_calm (hu : u.OnlySource) (h : Quiet ex) (e : Ev α) (is : List ι) (s t : St α C K M) (hb : s.busy = false)
    (he : fireL u ex e is s = some t) : Calm s t := by
  induction is generalizing s with
  | nil =>
    simp only [fireL, Option.some.injEq] at he
    exact he ▸ .refl hb
  | cons i is ih =>
    simp only [fireL, tell, Option.bind_eq_some_iff, Option.map_eq_some_iff] at he
    obtain ⟨_, ⟨r1, h1, rfl⟩, h2⟩ := he
    have k0 : Calm s (look (u.react i e s).mem s) := by
      refine ⟨hb, rfl, rfl, rfl, rfl, rfl, rfl, fun hp w hw => ?_⟩
      simp only [look] at hw
      split at hw
      · exact .inl hw
      · rcases List.mem_append.1 hw with hw | hw
        · exact .inl hw
        · rw [List.mem_singleton.1 hw]
          exact .inr ⟨rfl, rfl, rfl, hp⟩
    have k := k0.trans (acts_calm h _ (hu i e s) _ r1 hb h1)
    split at h2
    · cases h2
      exact k
    · exact k.trans (ih _ k.busy h2)

theorem announce_calm (hu : u.OnlySource) (h : Quiet ex) (e : Ev α) (s t : St α C K M) (hb : s.busy = false)
    (he : announce u ex e s = some t) : Calm s t := by
  simp only [announce, Option.bind_eq_some_iff] at he
  obtain ⟨t1, h1, t2, h2, h3⟩ := he
  have k1 := fireL_calm hu h _ _ _ _ hb h1
  have k2 := fireL_calm hu h _ _ _ _ k1.busy h2
  exact (k1.trans k2).trans (fireL_calm hu h _ _ _ _ k2.busy h3)

/-- A change of the lists only. -/
theorem Calm.lists (l items : List α) (h : Calm { s with src := l, items := items } t) : Calm s t :=
  ⟨h.busy, h.mixed, h.plain, h.filter, h.key, h.reverse, h.content, h.seen⟩

theorem touch_eq (h : s.busy = false) : touch s = s := by
  cases s
  simp only at h
  simp [touch, h]

theorem body_calm (hu : u.OnlySource) (h : Quiet ex) : Quiet (body u ex) := by
  intro a s r ha hb he
  cases a with
  | insert i v =>
    simp only [body, touch_eq hb] at he
    split at he
    · cases he
      exact .refl hb
    · simp only [Option.bind_eq_some_iff, Option.map_eq_some_iff] at he
      obtain ⟨t1, h1, t2, h2, rfl⟩ := he
      have k1 : Calm s t1 := by
        unfold insertedMaster at h1
        split at h1
        · exact Calm.lists _ _ (announce_calm hu h _ _ _ (by exact hb) h1)
        · cases h1
          exact ⟨hb, rfl, rfl, rfl, rfl, rfl, rfl, fun _ _ hw => .inl hw⟩
      exact k1.trans (fireL_calm hu h _ _ _ _ k1.busy h2)
  | remove i =>
    simp only [body, touch_eq hb] at he
    split at he
    · simp only [Option.bind_eq_some_iff, Option.map_eq_some_iff] at he
      obtain ⟨t1, h1, t2, h2, rfl⟩ := he
      have k1 : Calm s t1 := by
        unfold removedMaster at h1
        split at h1
        · exact Calm.lists _ _ (announce_calm hu h _ _ _ (by exact hb) h1)
        · cases h1
          exact ⟨hb, rfl, rfl, rfl, rfl, rfl, rfl, fun _ _ hw => .inl hw⟩
      exact k1.trans (fireL_calm hu h _ _ _ _ k1.busy h2)
    · cases he
      exact .refl hb
  | _ => exact ha.elim

theorem exec_calm (hu : u.OnlySource) : ∀ n, Quiet (exec u n)
  | 0 => fun a s r _ _ he => by simp [exec] at he
  | n + 1 => fun a s r ha hb he => body_calm hu (exec_calm hu n) a s r ha hb he

theorem run_calm (h : Quiet ex) (as : List (Act α C K)) (ha : ∀ a ∈ as, a.OfSource) (s t : St α C K M) (hb : s.busy = false)
    (he : run ex as s = some t) : Calm s t := by
  induction as generalizing s with
  | nil =>
    simp only [run, Option.some.injEq] at he
    exact he ▸ .refl hb
  | cons a as ih =>
    simp only [run, Option.bind_eq_some_iff] at he
    obtain ⟨r, h1, h2⟩ := he
    have e := h a s r (ha a (by simp)) hb h1
    exact e.trans (ih (fun b hb => ha b (by simp [hb])) _ e.busy h2)

/-- The accepted items of a source in its order, or, with a sort key, all accepted items and sorted. -/
def Exactly (src : List α) (acc : α → Bool) (key : Option (α → K)) (rev : Bool) (items : List α) : Prop :=
  match key with
  | none => items = src.filter acc
  | some k => items.Perm (src.filter acc) ∧ items.Pairwise fun a b => if rev then k b ≤ k a else k a ≤ k b

theorem View.Right.exactly {w : View α K} (h : w.Right) (hp : w.plain = true) : Exactly w.src w.acc w.key w.rev w.items := by
  have h2 := h.2 hp
  unfold Exactly
  cases hk : w.key with
  | none =>
    rw [hk] at h2
    exact h2
  | some k =>
    rw [hk] at h2
    exact ⟨h.1, h2⟩

/-- C182: when users and observers insert into and remove from the source only, the filtered list model has exactly the accepted items, in
the order of the source or of the sort key, whenever an observer is told and when the calls have returned; whatever the observers call, at
any depth, and also when they raise. -/
theorem C182_source (u : Users ι α C K M) (hu : u.OnlySource) (src : List α) (hs : src.Nodup) (content : α → C) (filter : C → Bool)
    (key : Option (C → K)) (reverse : Bool) (m : M) (n : ℕ) (as : List (Act α C K)) (ha : ∀ a ∈ as, a.OfSource) (s : St α C K M)
    (h : run (exec u n) as (start src content filter key reverse m) = some s) :
    Exactly s.src (fun x => filter (content x)) (key.map fun k x => k (content x)) reverse s.items ∧
    ∀ w ∈ s.seen, Exactly w.src (fun x => filter (content x)) (key.map fun k x => k (content x)) reverse w.items := by
  have k := run_calm (exec_calm hu n) as ha _ s rfl h
  obtain ⟨h1, h2⟩ := C182_items_partial u src hs content filter key reverse m n as s h
  refine ⟨?_, fun w hw => ?_⟩
  · have := (h1 k.mixed).exactly k.plain
    simp only [St.view] at this
    rw [k.acc, k.ikey, k.reverse] at this
    exact this
  · have := (h2 w hw)
    rcases k.seen rfl w hw with h3 | ⟨h3, h4, h5, h6⟩
    · simp [start] at h3
    · have := this.exactly h6
      rw [h3, h4, h5] at this
      exact this

/-! ### Observers that do nothing -/

/-- Observers do nothing but raise perhaps, while the filter is one of some. -/
def Users.Still (u : Users ι α C K M) (P : (C → Bool) → Prop) : Prop := ∀ i e s, P s.filter → (u.react i e s).acts = []

structure Kept (s t : St α C K M) : Prop where
  busy : t.busy = s.busy
  mixed : t.mixed = s.mixed
  filter : t.filter = s.filter
  sorted : t.sorted = s.sorted
  src : t.src = s.src
  content : t.content = s.content
  key : t.key = s.key
  reverse : t.reverse = s.reverse
  plain : t.plain = s.plain

theorem Kept.refl (s : St α C K M) : Kept s s := ⟨rfl, rfl, rfl, rfl, rfl, rfl, rfl, rfl, rfl⟩

theorem Kept.trans {r : St α C K M} (h : Kept s t) (k : Kept t r) : Kept s r :=
  ⟨k.1.trans h.1, k.2.trans h.2, k.3.trans h.3, k.4.trans h.4, k.5.trans h.5, k.6.trans h.6, k.7.trans h.7, k.8.trans h.8, k.9.trans h.9⟩

variable {P : (C → Bool) → Prop}

theorem fireL_kept (hu : u.Still P) (e : Ev α) (is : List ι) (s t : St α C K M) (hp : P s.filter) (he : fireL u ex e is s = some t) :
    Kept s t := by
  induction is generalizing s with
  | nil =>
    simp only [fireL, Option.some.injEq] at he
    exact he ▸ .refl s
  | cons i is ih =>
    simp only [fireL, tell, hu i e s hp, acts, Option.map_some, Option.bind_some] at he
    have k0 : Kept s (look (u.react i e s).mem s) := ⟨rfl, rfl, rfl, rfl, rfl, rfl, rfl, rfl, rfl⟩
    split at he
    · cases he
      exact k0
    · exact k0.trans (ih _ hp he)

theorem announce_kept (hu : u.Still P) (e : Ev α) (s t : St α C K M) (hp : P s.filter) (he : announce u ex e s = some t) : Kept s t := by
  simp only [announce, Option.bind_eq_some_iff] at he
  obtain ⟨t1, h1, t2, h2, h3⟩ := he
  have k1 := fireL_kept hu _ _ _ _ hp h1
  have k2 := fireL_kept hu _ _ _ _ (k1.filter ▸ hp) h2
  have k12 := k1.trans k2
  exact k12.trans (fireL_kept hu _ _ _ _ (k12.filter ▸ hp) h3)

theorem insertedMaster_kept (hu : u.Still P) (v : α) (s t : St α C K M) (hp : P s.filter) (he : insertedMaster u ex v s = some t) : Kept s t := by
  unfold insertedMaster at he
  split at he
  · have := announce_kept hu _ _ _ (by exact hp) he
    exact ⟨this.1, this.2, this.3, this.4, this.5, this.6, this.7, this.8, this.9⟩
  · cases he
    exact .refl s

theorem removedMaster_kept (hu : u.Still P) (v : α) (s t : St α C K M) (hp : P s.filter) (he : removedMaster u ex v s = some t) : Kept s t := by
  unfold removedMaster at he
  split at he
  · have := announce_kept hu _ _ _ (by exact hp) he
    exact ⟨this.1, this.2, this.3, this.4, this.5, this.6, this.7, this.8, this.9⟩
  · cases he
    exact .refl s

theorem move_kept (hu : u.Still P) (v : α) (s t : St α C K M) (hp : P s.filter) (he : move u ex v s = some t) : Kept s t := by
  simp only [move, Option.bind_eq_some_iff] at he
  obtain ⟨t1, h1, h2⟩ := he
  have k1 := removedMaster_kept hu v _ _ (by exact hp) h1
  have hf : t1.filter = s.filter := k1.filter
  have k2 := insertedMaster_kept hu v _ _ (by rw [← hf] at hp; exact hp) h2
  exact ⟨k2.busy, k2.mixed.trans k1.mixed, k2.filter.trans k1.filter, k2.sorted.trans k1.sorted, k2.src.trans k1.src,
    k2.content.trans k1.content, k2.key.trans k1.key, k2.reverse.trans k1.reverse, k2.plain.trans k1.plain⟩

theorem updatedMaster_kept (hu : u.Still P) (v : α) (s t : St α C K M) (hp : P s.filter) (he : updatedMaster u ex v s = some t) : Kept s t := by
  unfold updatedMaster at he
  split at he
  · split at he
    · split at he
      · split at he
        · rw [← Option.some.inj he]
          exact .refl s
        · exact move_kept hu v s t hp he
      · exact insertedMaster_kept hu v s t hp he
    · split at he
      · rw [← Option.some.inj he]
        exact .refl s
      · exact insertedMaster_kept hu v s t hp he
  · exact removedMaster_kept hu v s t hp he

theorem popLoop_kept (hu : u.Still P) (vs : List α) (s : St α C K M) (r : St α C K M × Bool) (hp : P s.filter)
    (he : popLoop u ex vs s = some r) : Kept s r.1 := by
  induction vs generalizing s with
  | nil =>
    simp only [popLoop, Option.some.injEq] at he
    exact he ▸ .refl s
  | cons v vs ih =>
    simp only [popLoop] at he
    split at he
    · cases he
      exact .refl s
    · rw [Option.bind_eq_some_iff] at he
      obtain ⟨t, h1, h2⟩ := he
      have k := fireL_kept hu _ _ _ _ (by exact hp) h1
      have k' : Kept s t := ⟨k.1, k.2, k.3, k.4, k.5, k.6, k.7, k.8, k.9⟩
      exact k'.trans (ih t (k'.filter ▸ hp) h2)

theorem appendLoop_kept (hu : u.Still P) (vs : List α) (s t : St α C K M) (hp : P s.filter)
    (he : appendLoop u ex vs s = some t) : Kept s t := by
  induction vs generalizing s with
  | nil =>
    simp only [appendLoop, Option.some.injEq] at he
    exact he ▸ .refl s
  | cons v vs ih =>
    simp only [appendLoop, Option.bind_eq_some_iff] at he
    obtain ⟨t1, h1, h2⟩ := he
    have k := fireL_kept hu _ _ _ _ (by exact hp) h1
    have k' : Kept s t1 := ⟨k.1, k.2, k.3, k.4, k.5, k.6, k.7, k.8, k.9⟩
    exact k'.trans (ih t1 (k'.filter ▸ hp) h2)

/-- An assignment outside updates leaves nothing mixed and does not raise. -/
theorem assigned_kept (h : Ok ex) (hu : u.Still P) (s : St α C K M) (r : St α C K M × Bool) (hn : s.src.Nodup) (hs : ∀ w ∈ s.seen, w.Right)
    (hp : P s.filter) (hb : s.busy = false) (he : assigned u ex s = some r) :
    r.2 = false ∧ Kept { s with sorted := true, mixed := false, plain := true } r.1 := by
  simp only [assigned, Option.bind_eq_some_iff] at he
  obtain ⟨t, h1, h2⟩ := he
  have i1 : Inv { s with sorted := false, mixed := true } := ⟨hn, fun _ hm => (by cases hm), hs⟩
  have k := fireL_kept hu _ _ _ _ (by exact hp) h1
  have e := fire_eff h _ _ _ i1 h1
  have hts : t.sorted = false := k.sorted
  have htb : t.busy = false := k.busy.trans hb
  have htf : t.filter = s.filter := k.filter
  simp only [updateItems, hts, Bool.false_eq_true, if_false, Option.bind_eq_some_iff] at h2
  obtain ⟨r1, h3, h4⟩ := h2
  have hr := replace_eff h t r1 e.inv h3
  have k1 : Kept { t with plain := true, busy := true, mixed := false } r1.1 := by
    simp only [replace, Option.bind_eq_some_iff] at h3
    obtain ⟨t1, g1, g2⟩ := h3
    split at g2
    · cases g2
    rw [Option.bind_eq_some_iff] at g2
    obtain ⟨r2, g2, g3⟩ := g2
    have q1 := fireL_kept hu _ _ _ _ (by exact htf ▸ hp) g1
    have q1 : Kept { t with plain := true, busy := true, mixed := false } t1 := by simpa only [htb, Bool.and_false] using q1
    have hf1 : t1.filter = t.filter := q1.filter
    have q2 := q1.trans (popLoop_kept hu _ _ _ (by rw [hf1, htf]; exact hp) g2)
    have hf2 : r2.1.filter = t.filter := q2.filter
    split at g3
    · cases g3
      exact q2
    · rw [Option.map_eq_some_iff] at g3
      obtain ⟨t3, g3, rfl⟩ := g3
      exact q2.trans (appendLoop_kept hu _ _ _ (by rw [hf2, htf]; exact hp) g3)
  obtain ⟨-, hr2, -⟩ := hr.2.2 k1.mixed
  have hf1 : r1.1.filter = t.filter := k1.filter
  rw [hr2] at h4
  simp only [Bool.false_eq_true, if_false, Option.map_eq_some_iff] at h4
  obtain ⟨t4, h4, rfl⟩ := h4
  have q4 := fireL_kept hu _ _ _ _ (by show P r1.1.filter; rw [hf1, htf]; exact hp) h4
  exact ⟨rfl, q4.busy.trans k.busy, q4.mixed.trans k1.mixed, q4.filter.trans (k1.filter.trans k.filter), q4.sorted,
    q4.src.trans (k1.src.trans k.src), q4.content.trans (k1.content.trans k.content), q4.key.trans (k1.key.trans k.key),
    q4.reverse.trans (k1.reverse.trans k.reverse), q4.plain.trans k1.plain⟩

/-- C182: whatever happened before, an assignment of a filter during which observers do nothing (but raise perhaps) makes the items exactly
right. -/
theorem C182_repair (u : Users ι α C K M) (src : List α) (hs : src.Nodup) (content : α → C) (filter : C → Bool) (key : Option (C → K))
    (reverse : Bool) (m : M) (n : ℕ) (as : List (Act α C K)) (s : St α C K M)
    (h : run (exec u n) as (start src content filter key reverse m) = some s) (p : C → Bool)
    (hu : ∀ i e t, t.filter = p → (u.react i e t).acts = []) (k : ℕ) (r : St α C K M × Bool) (hr : exec u k (.setFilter p) s = some r) :
    r.2 = false ∧ r.1.src = s.src ∧ Exactly s.src (fun x => p (s.content x)) (s.key.map fun k x => k (s.content x)) s.reverse r.1.items := by
  have e := run_eff (exec_ok u n) as _ s (start_inv src hs content filter key reverse m) h
  cases k with
  | zero => simp [exec] at hr
  | succ k =>
    obtain ⟨g1, g2⟩ := assigned_kept (P := (· = p)) (s := { touch s with filter := p }) (exec_ok u k) hu r e.inv.nodup e.inv.seen rfl
      e.busy hr
    have e2 := exec_ok u (k + 1) _ s r e.inv hr
    have hw := (e2.inv.right (g2.busy.trans e.busy) g2.mixed).exactly g2.plain
    refine ⟨g1, g2.src, ?_⟩
    have hacc : r.1.fl.acc = fun x => p (s.content x) := by
      funext x
      simp only [FL.acc, St.fl]
      rw [show r.1.filter = p from g2.filter, show r.1.content = s.content from g2.content]
    have hkey : r.1.fl.ikey = s.key.map fun k x => k (s.content x) := by
      simp only [FL.ikey, St.fl]
      rw [show r.1.key = s.key from g2.key, show r.1.content = s.content from g2.content]
    simp only [St.view] at hw
    rw [hacc, hkey, show r.1.src = s.src from g2.src, show r.1.reverse = s.reverse from g2.reverse] at hw
    exact hw

theorem body_reads (h : Ok ex) (hu : u.Still fun _ => True) (a : Act α C K) (s : St α C K M) (r : St α C K M × Bool) (hi : Inv s)
    (hb : s.busy = false) (hm : s.mixed = false) (he : body u ex a s = some r) : r.1.busy = false ∧ r.1.mixed = false := by
  have hset : ∀ w : St α C K M, w.src = s.src → w.seen = s.seen → w.busy = s.busy → assigned u ex w = some r →
      r.1.busy = false ∧ r.1.mixed = false := fun w h1 h2 h3 hw => by
    obtain ⟨-, g2⟩ := assigned_kept h hu w r (h1 ▸ hi.nodup) (h2 ▸ hi.seen) trivial (h3.trans hb) hw
    exact ⟨g2.busy.trans (h3.trans hb), g2.mixed⟩
  cases a with
  | insert i v =>
    simp only [body, touch_eq hb] at he
    split at he
    · cases he
      exact ⟨hb, hm⟩
    · simp only [Option.bind_eq_some_iff, Option.map_eq_some_iff] at he
      obtain ⟨t1, h1, t2, h2, rfl⟩ := he
      have k1 := insertedMaster_kept hu v _ _ trivial h1
      have k2 := fireL_kept hu _ _ _ _ trivial h2
      exact ⟨k2.busy.trans (k1.busy.trans hb), k2.mixed.trans (k1.mixed.trans hm)⟩
  | remove i =>
    simp only [body, touch_eq hb] at he
    split at he
    · simp only [Option.bind_eq_some_iff, Option.map_eq_some_iff] at he
      obtain ⟨t1, h1, t2, h2, rfl⟩ := he
      have k1 := removedMaster_kept hu _ _ _ trivial h1
      have k2 := fireL_kept hu _ _ _ _ trivial h2
      exact ⟨k2.busy.trans (k1.busy.trans hb), k2.mixed.trans (k1.mixed.trans hm)⟩
    · cases he
      exact ⟨hb, hm⟩
  | change v c =>
    simp only [body, touch_eq hb] at he
    split at he
    · rw [Option.map_eq_some_iff] at he
      obtain ⟨t, h1, rfl⟩ := he
      have k1 := updatedMaster_kept hu v _ _ trivial h1
      exact ⟨k1.busy.trans hb, k1.mixed.trans hm⟩
    · cases he
      exact ⟨hb, hm⟩
  | setFilter p => exact hset { touch s with filter := p } rfl rfl rfl he
  | setKey k => exact hset { touch s with key := k } rfl rfl rfl he
  | setReverse b => exact hset { touch s with reverse := b } rfl rfl rfl he

/-- C182 (partial: observers do nothing but raise perhaps): after any history the items are right. -/
theorem C182_reads_partial (u : Users ι α C K M) (hu : ∀ i e s, (u.react i e s).acts = []) (src : List α) (hs : src.Nodup) (content : α → C)
    (filter : C → Bool) (key : Option (C → K)) (reverse : Bool) (m : M) (n : ℕ) (as : List (Act α C K)) (s : St α C K M)
    (h : run (exec u n) as (start src content filter key reverse m) = some s) : s.view.Right := by
  have hu' : u.Still fun _ => True := fun i e s _ => hu i e s
  have key : ∀ (as : List (Act α C K)) (s t : St α C K M), Inv s → s.busy = false → s.mixed = false → run (exec u n) as s = some t →
      t.mixed = false := by
    intro as
    induction as with
    | nil =>
      intro s t _ _ hm he
      simp only [run, Option.some.injEq] at he
      exact he ▸ hm
    | cons a as ih =>
      intro s t hi hb hm he
      simp only [run, Option.bind_eq_some_iff] at he
      obtain ⟨r, h1, h2⟩ := he
      cases n with
      | zero => simp [exec] at h1
      | succ n =>
        obtain ⟨k1, k2⟩ := body_reads (exec_ok u n) hu' a s r hi hb hm h1
        exact ih r.1 t (exec_ok u (n + 1) a s r hi h1).inv k1 k2 h2
  exact (C182_items_partial u src hs content filter _ reverse m n as s h).1
    (key as _ s (start_inv src hs content filter _ reverse m) rfl rfl h)

/-! ### What observers are told -/

/-- An observer that notes what it is told, and does nothing else. -/
def recorder : Users Unit α C K (List (Ev α)) := ⟨fun _ => [()], fun _ e s => ⟨s.mem ++ [e], [], false⟩⟩

/-- What the notes make of a list of the items; removals by index only (the event of an update may name another item, C26). -/
def kept : List (Ev α) → List α → Option (List α)
  | [], l => some l
  | .inserted v i :: es, l => kept es (l.take i ++ v :: l.drop i)
  | .removed _ i :: es, l => if i < l.length then kept es (l.take i ++ l.drop (i + 1)) else none
  | _ :: es, l => kept es l

/-- What they make of a list of the source. -/
def keptSrc : List (Ev α) → List α → Option (List α)
  | [], l => some l
  | .srcInserted v i :: es, l => keptSrc es (l.take i ++ v :: l.drop i)
  | .srcRemoved v i :: es, l => if l[i]? = some v then keptSrc es (l.take i ++ l.drop (i + 1)) else none
  | _ :: es, l => keptSrc es l

theorem kept_append (es fs : List (Ev α)) (l : List α) : kept (es ++ fs) l = (kept es l).bind (kept fs) := by
  induction es generalizing l with
  | nil => rfl
  | cons e es ih =>
    cases e <;> simp only [List.cons_append, kept, ih]
    split <;> rfl

theorem keptSrc_append (es fs : List (Ev α)) (l : List α) : keptSrc (es ++ fs) l = (keptSrc es l).bind (keptSrc fs) := by
  induction es generalizing l with
  | nil => rfl
  | cons e es ih =>
    cases e <;> simp only [List.cons_append, keptSrc, ih]
    split <;> rfl

/-- What was noted since makes the items of what they were; the source is the same. -/
def Noted (items src : List α) (m : List (Ev α)) (t : St α C K (List (Ev α))) : Prop :=
  ∃ es, t.mem = m ++ es ∧ kept es items = some t.items ∧ t.src = src ∧ ∀ l, keptSrc es l = some l

theorem Noted.refl (s : St α C K (List (Ev α))) : Noted s.items s.src s.mem s := ⟨[], by simp, rfl, rfl, fun _ => rfl⟩

theorem Noted.trans {a b : List α} {m : List (Ev α)} {t r : St α C K (List (Ev α))} (h : Noted a b m t) (k : Noted t.items t.src t.mem r) :
    Noted a b m r := by
  obtain ⟨e1, h1, h2, h3, h4⟩ := h
  obtain ⟨e2, k1, k2, k3, k4⟩ := k
  exact ⟨e1 ++ e2, by rw [k1, h1, List.append_assoc], by rw [kept_append, h2]; exact k2, k3.trans h3,
    fun l => by rw [keptSrc_append, h4]; exact k4 l⟩

theorem fire_rec (ex : Exec α C K (List (Ev α))) (e : Ev α) (s t : St α C K (List (Ev α))) (h : fire recorder ex e s = some t) :
    t.mem = s.mem ++ [e] ∧ t.items = s.items ∧ t.src = s.src := by
  simp [fire, recorder, fireL, tell, acts, look] at h
  subst h
  exact ⟨rfl, rfl, rfl⟩

theorem fire_noted {ex : Exec α C K (List (Ev α))} {e : Ev α} {s t : St α C K (List (Ev α))} {a : List α} {m : List (Ev α)}
    (h : fire recorder ex e s = some t) (hm : s.mem = m) (ha : kept [e] a = some s.items) (hb : ∀ l, keptSrc [e] l = some l) :
    Noted a s.src m t := by
  obtain ⟨h1, h2, h3⟩ := fire_rec ex e s t h
  exact ⟨[e], by rw [h1, hm], by rw [h2]; exact ha, h3, hb⟩

theorem announce_noted {ex : Exec α C K (List (Ev α))} {e : Ev α} {s t : St α C K (List (Ev α))} {a : List α} {m : List (Ev α)}
    (h : announce recorder ex e s = some t) (hm : s.mem = m) (ha : kept [e] a = some s.items) (hb : ∀ l, keptSrc [e] l = some l) :
    Noted a s.src m t := by
  simp only [announce, Option.bind_eq_some_iff] at h
  obtain ⟨s1, h1, s2, h2, h3⟩ := h
  obtain ⟨a1, a2, a3⟩ := fire_rec ex _ _ _ h1
  obtain ⟨b1, b2, b3⟩ := fire_rec ex _ _ _ h2
  obtain ⟨c1, c2, c3⟩ := fire_rec ex _ _ _ h3
  refine ⟨[.beginChanges] ++ [e] ++ [.endChanges], ?_, ?_, c3.trans (b3.trans a3), fun l => ?_⟩
  · rw [c1, b1, a1, hm]; simp
  · rw [c2, b2, a2, kept_append, kept_append]
    show ((kept [e] a).bind _) = _
    rw [ha]; rfl
  · rw [keptSrc_append, keptSrc_append]
    show ((keptSrc [e] l).bind _) = _
    rw [hb]; rfl

theorem take_drop_insert (l : List α) (i : ℕ) (v : α) : Py.insert l (i : ℤ) v = l.take i ++ v :: l.drop i := by
  by_cases h : i ≤ l.length
  · rw [Py.insert_nat h]
    induction l generalizing i with
    | nil =>
      have : i = 0 := Nat.le_zero.mp h
      subst this; rfl
    | cons y l ih =>
      cases i with
      | zero => rfl
      | succ i =>
        simp only [List.insertIdx_succ_cons, List.take_succ_cons, List.drop_succ_cons, List.cons_append]
        rw [ih i (Nat.le_of_succ_le_succ h)]
  · have h' : l.length ≤ i := by omega
    rw [List.take_of_length_le h', List.drop_eq_nil_of_le h']
    have : Py.insertPos l.length (i : ℤ) = l.length := by unfold Py.insertPos; split <;> omega
    unfold Py.insert
    rw [this]
    simp

theorem inserted_noted {ex : Exec α C K (List (Ev α))} {v : α} {s t : St α C K (List (Ev α))}
    (h : insertedMaster recorder ex v s = some t) : Noted s.items s.src s.mem t := by
  simp only [insertedMaster] at h
  split at h
  · refine announce_noted (s := put v s) h rfl ?_ fun _ => rfl
    simp only [kept, put, take_drop_insert]
  · cases h; exact .refl _

theorem removed_noted {ex : Exec α C K (List (Ev α))} {v : α} {s t : St α C K (List (Ev α))}
    (h : removedMaster recorder ex v s = some t) : Noted s.items s.src s.mem t := by
  simp only [removedMaster] at h
  split at h
  · rename_i hv
    refine announce_noted (s := { s with items := s.items.erase v }) h rfl ?_ fun _ => rfl
    simp only [kept]
    rw [if_pos (List.idxOf_lt_length_iff.mpr hv), ← List.eraseIdx_eq_take_drop_succ, List.erase_eq_eraseIdx_of_idxOf rfl]
  · cases h; exact .refl _

theorem updated_noted {ex : Exec α C K (List (Ev α))} {v : α} {s t : St α C K (List (Ev α))}
    (h : updatedMaster recorder ex v s = some t) : Noted s.items s.src s.mem t := by
  simp only [updatedMaster] at h
  split at h
  · split at h
    · split at h
      · split at h
        · cases h; exact .refl _
        · simp only [move, Option.bind_eq_some_iff] at h
          obtain ⟨r, h1, h2⟩ := h
          exact Noted.trans (removed_noted (s := { s with busy := true }) h1) (inserted_noted (s := { r with busy := s.busy }) h2)
      · exact inserted_noted h
    · split at h
      · cases h; exact .refl _
      · exact inserted_noted h
  · exact removed_noted h

theorem pop_noted {ex : Exec α C K (List (Ev α))} (vs : List α) (s : St α C K (List (Ev α))) (r : St α C K (List (Ev α)) × Bool)
    (h : popLoop recorder ex vs s = some r) : Noted s.items s.src s.mem r.1 := by
  induction vs generalizing s with
  | nil => cases h; exact .refl _
  | cons v vs ih =>
    simp only [popLoop] at h
    split at h
    · cases h; exact .refl _
    · rename_i hne
      rw [Option.bind_eq_some_iff] at h
      obtain ⟨t, h1, h2⟩ := h
      have hl : 0 < s.items.length := List.length_pos_iff.mpr hne
      refine Noted.trans (fire_noted (s := { s with items := s.items.dropLast }) h1 rfl ?_ fun _ => rfl) (ih t h2)
      simp only [kept]
      rw [if_pos (by omega), List.drop_eq_nil_of_le (by omega), List.append_nil, List.dropLast_eq_take]

theorem append_noted {ex : Exec α C K (List (Ev α))} (vs : List α) (s t : St α C K (List (Ev α)))
    (h : appendLoop recorder ex vs s = some t) : Noted s.items s.src s.mem t := by
  induction vs generalizing s with
  | nil => cases h; exact .refl _
  | cons v vs ih =>
    simp only [appendLoop] at h
    rw [Option.bind_eq_some_iff] at h
    obtain ⟨r, h1, h2⟩ := h
    refine Noted.trans (fire_noted (s := { s with items := s.items ++ [v] }) h1 rfl ?_ fun _ => rfl) (ih r h2)
    simp [kept]

theorem update_noted {ex : Exec α C K (List (Ev α))} {s : St α C K (List (Ev α))} {r : St α C K (List (Ev α)) × Bool}
    (h : updateItems recorder ex s = some r) : Noted s.items s.src s.mem r.1 := by
  simp only [updateItems] at h
  split at h
  · split at h
    · rw [Option.bind_eq_some_iff] at h
      obtain ⟨t, h1, h2⟩ := h
      have k1 : Noted s.items s.src s.mem t := fire_noted h1 rfl rfl (by intro _; rfl)
      split at h2
      · rw [Option.map_eq_some_iff] at h2
        obtain ⟨x, h3, rfl⟩ := h2
        exact k1.trans (fire_noted (s := { t with sorted := true }) h3 rfl rfl (by intro _; rfl))
      · cases h2
    · cases h
  · rw [Option.bind_eq_some_iff] at h
    obtain ⟨q, h1, h2⟩ := h
    have k1 : Noted s.items s.src s.mem q.1 := by
      simp only [replace, Option.bind_eq_some_iff] at h1
      obtain ⟨x, g1, g2⟩ := h1
      have j1 : Noted s.items s.src s.mem x :=
        fire_noted (s := { s with plain := true, busy := true, mixed := s.mixed && s.busy }) g1 rfl rfl (by intro _; rfl)
      split at g2
      · cases g2
      · rw [Option.bind_eq_some_iff] at g2
        obtain ⟨y, g3, g4⟩ := g2
        have j2 := j1.trans (pop_noted _ _ _ g3)
        split at g4
        · cases g4; exact j2
        · rw [Option.map_eq_some_iff] at g4
          obtain ⟨z, g5, rfl⟩ := g4
          exact j2.trans (append_noted _ _ _ g5)
    split at h2
    · cases h2; exact k1
    · rw [Option.map_eq_some_iff] at h2
      obtain ⟨x, h3, rfl⟩ := h2
      exact k1.trans (fire_noted (s := { q.1 with sorted := true, busy := s.busy }) h3 rfl rfl (by intro _; rfl))

theorem assigned_noted {ex : Exec α C K (List (Ev α))} {s : St α C K (List (Ev α))} {r : St α C K (List (Ev α)) × Bool}
    (h : assigned recorder ex s = some r) : Noted s.items s.src s.mem r.1 := by
  simp only [assigned, Option.bind_eq_some_iff] at h
  obtain ⟨t, h1, h2⟩ := h
  have k1 : Noted s.items s.src s.mem t := fire_noted (s := { s with sorted := false, mixed := true }) h1 rfl rfl (by intro _; rfl)
  exact k1.trans (update_noted h2)

theorem body_noted {ex : Exec α C K (List (Ev α))} (a : Act α C K) (s : St α C K (List (Ev α))) (r : St α C K (List (Ev α)) × Bool)
    (h : body recorder ex a s = some r) :
    ∃ es, r.1.mem = s.mem ++ es ∧ kept es s.items = some r.1.items ∧ keptSrc es s.src = some r.1.src := by
  have key : ∀ {t : St α C K (List (Ev α))}, Noted s.items s.src s.mem t →
      ∃ es, t.mem = s.mem ++ es ∧ kept es s.items = some t.items ∧ keptSrc es s.src = some t.src := by
    rintro t ⟨es, h1, h2, h3, h4⟩
    exact ⟨es, h1, h2, by rw [h3]; exact h4 _⟩
  cases a with
  | insert i v =>
    simp only [body] at h
    split at h
    · cases h; exact key (.refl _)
    · rw [Option.bind_eq_some_iff] at h
      obtain ⟨t, h1, h2⟩ := h
      rw [Option.map_eq_some_iff] at h2
      obtain ⟨x, h3, rfl⟩ := h2
      obtain ⟨es, e1, e2, e3, e4⟩ := inserted_noted h1
      obtain ⟨f1, f2, f3⟩ := fire_rec ex _ _ _ h3
      refine ⟨es ++ [.srcInserted v i], ?_, ?_, ?_⟩
      · show x.mem = _
        rw [f1, e1]; exact List.append_assoc ..
      · show _ = some x.items
        rw [kept_append, f2]
        show (kept es (touch s).items).bind _ = _
        rw [show kept es (touch s).items = _ from e2]; rfl
      · show _ = some x.src
        rw [keptSrc_append, e4, f3, e3]
        simp only [Option.bind_some, keptSrc, pyInsert, take_drop_insert]
  | remove i =>
    simp only [body] at h
    cases hv : s.src[i]? with
    | none => rw [hv] at h; cases h; exact key (.refl _)
    | some v =>
      rw [hv] at h
      dsimp only at h
      rw [Option.bind_eq_some_iff] at h
      obtain ⟨t, h1, h2⟩ := h
      rw [Option.map_eq_some_iff] at h2
      obtain ⟨x, h3, rfl⟩ := h2
      obtain ⟨es, e1, e2, e3, e4⟩ := removed_noted h1
      obtain ⟨f1, f2, f3⟩ := fire_rec ex _ _ _ h3
      refine ⟨es ++ [.srcRemoved v i], ?_, ?_, ?_⟩
      · show x.mem = _
        rw [f1, e1]; exact List.append_assoc ..
      · show _ = some x.items
        rw [kept_append, f2]
        show (kept es (touch s).items).bind _ = _
        rw [show kept es (touch s).items = _ from e2]; rfl
      · show _ = some x.src
        rw [keptSrc_append, e4, f3, e3]
        simp only [Option.bind_some, keptSrc, hv, if_true, List.eraseIdx_eq_take_drop_succ]
  | change v c =>
    simp only [body] at h
    split at h
    · rw [Option.map_eq_some_iff] at h
      obtain ⟨x, h3, rfl⟩ := h
      exact key (updated_noted (s := withContent v c (touch s)) h3)
    · cases h; exact key (.refl _)
  | setFilter p => exact key (assigned_noted (s := { touch s with filter := p }) h)
  | setKey k => exact key (assigned_noted (s := { touch s with key := k }) h)
  | setReverse b => exact key (assigned_noted (s := { touch s with reverse := b }) h)

/-- C182: an observer that keeps lists of its own by what it is told always has the items and the source. -/
theorem C182_told (src : List α) (content : α → C) (filter : C → Bool) (key : Option (C → K)) (reverse : Bool) (n : ℕ) (as : List (Act α C K))
    (s : St α C K (List (Ev α))) (h : run (exec recorder n) as (start src content filter key reverse []) = some s) :
    kept s.mem (start src content filter key reverse ([] : List (Ev α))).items = some s.items ∧ keptSrc s.mem src = some s.src := by
  have main : ∀ (as : List (Act α C K)) (r : St α C K (List (Ev α))), run (exec recorder n) as r = some s →
      ∃ es, s.mem = r.mem ++ es ∧ kept es r.items = some s.items ∧ keptSrc es r.src = some s.src := by
    intro as
    induction as with
    | nil => intro r hr; cases hr; exact ⟨[], by simp, rfl, rfl⟩
    | cons a as ih =>
      intro r hr
      simp only [run, Option.bind_eq_some_iff] at hr
      obtain ⟨q, h1, h2⟩ := hr
      cases n with
      | zero => cases h1
      | succ n =>
        obtain ⟨e1, a1, a2, a3⟩ := body_noted a r q h1
        obtain ⟨e2, b1, b2, b3⟩ := ih q.1 h2
        exact ⟨e1 ++ e2, by rw [b1, a1, List.append_assoc], by rw [kept_append, a2]; exact b2, by rw [keptSrc_append, a3]; exact b3⟩
  obtain ⟨es, e1, e2, e3⟩ := main as _ h
  have : s.mem = es := by rw [e1]; rfl
  rw [this]
  exact ⟨e2, e3⟩

/-! ### Examples -/

/-- What is told when 20 is inserted, 5 moves behind it, and the filter lets only 20 and 30 through. -/
example : (run (exec recorder 3) [.insert 1 20, .change 5 25, .setFilter (· ≠ 25)]
    (start [5, 30] id (fun _ => true) (some id) false [] : St ℕ ℕ ℕ (List (Ev ℕ)))).map (fun s => (s.items, s.mem)) =
    some ([20, 30], [.beginChanges, .inserted 20 1, .endChanges, .srcInserted 20 1,
      .beginChanges, .removed 5 0, .endChanges, .beginChanges, .inserted 5 1, .endChanges,
      .reset, .beginChanges, .removed 20 2, .removed 5 1, .removed 30 0, .inserted 20 0, .inserted 30 1, .endChanges]) := by decide

/-- C182: insertions and changes of items do not raise, and removals just if the item is not there; what observers do is not seen. -/
theorem C182_raises (u : Users ι α C K M) (n : ℕ) (s : St α C K M) (r : St α C K M × Bool) :
    (∀ i v, exec u n (.insert i v) s = some r → r.2 = false) ∧ (∀ v c, exec u n (.change v c) s = some r → r.2 = false) ∧
    ∀ i, exec u n (.remove i) s = some r → (r.2 = true ↔ s.src.length ≤ i) := by
  cases n with
  | zero => simp [exec]
  | succ n =>
    refine ⟨fun i v h => ?_, fun v c h => ?_, fun i h => ?_⟩ <;> simp only [exec, body] at h <;> split at h
    · cases h
      rfl
    · simp only [Option.bind_eq_some_iff, Option.map_eq_some_iff] at h
      obtain ⟨_, -, _, -, rfl⟩ := h
      rfl
    · rw [Option.map_eq_some_iff] at h
      obtain ⟨_, -, rfl⟩ := h
      rfl
    · cases h
      rfl
    · rename_i hv
      simp only [Option.bind_eq_some_iff, Option.map_eq_some_iff] at h
      obtain ⟨_, -, _, -, rfl⟩ := h
      simpa using (List.getElem?_eq_some_iff.1 hv).1
    · rename_i hv
      cases h
      simpa using hv

/-- Items are numbers, accepted if their content is below 100. Observer 1 inserts ten times a new item below 10 behind it in the source;
2 removes the first item of the source when it is told that 7 was removed; 3 gives 7 the content 50 when it is told that 7 was removed
while its content was 60; 4 takes 5 out of the source when it is told that 5 was removed; 5 raises. -/
def exReact : ℕ → Ev ℕ → St ℕ ℕ ℕ Unit → Reaction ℕ ℕ ℕ Unit
  | 1, .inserted v _, s => ⟨(), if v < 10 then [.insert (s.src.idxOf v + 1) (10 * v)] else [], false⟩
  | 2, .removed 7 _, _ => ⟨(), [.remove 0], false⟩
  | 3, .removed 7 _, s => ⟨(), if s.content 7 = 60 then [.change 7 50] else [], false⟩
  | 4, .removed 5 _, s => ⟨(), if 5 ∈ s.src then [.remove (s.src.idxOf 5)] else [], false⟩
  | 5, _, _ => ⟨(), [], true⟩
  | 6, .inserted _ _, _ => ⟨(), [.remove 99, .insert 0 4], false⟩
  | _, _, _ => ⟨(), [], false⟩

/-- The observers of the filtered list model, and of the source. -/
def exUsers (own post : List ℕ) : Users ℕ ℕ ℕ ℕ Unit :=
  ⟨fun e => match e with
    | .srcInserted _ _ => post
    | .srcRemoved _ _ => post
    | _ => own, exReact⟩

/-- The content is the item; sorted by content or not. -/
def ex0 (l : List ℕ) (sort : Bool) : St ℕ ℕ ℕ Unit := start l id (· < 100) (if sort then some id else none) false ()

/-- Observer 1 inserts items into the source while it is told, whether 5 raises then or not. -/
example : ((run (exec (exUsers [1, 5] [5]) 5) [.insert 1 6, .insert 0 3, .remove 2] (ex0 [200, 40] false)).map fun s => (s.src, s.items)) =
    some ([3, 30, 6, 60, 40], [3, 30, 6, 60, 40]) := by decide

/-- The same with a sort key. -/
example : ((run (exec (exUsers [1, 5] [5]) 5) [.insert 1 6, .insert 0 3, .remove 2] (ex0 [200, 40] true)).map fun s => (s.src, s.items)) =
    some ([3, 30, 6, 60, 40], [3, 6, 30, 40, 60]) := by decide

/-- The exception of a nested removal ends the notification: observer 1 is not told. -/
example : ((run (exec (exUsers [6, 1] []) 5) [.insert 1 6] (ex0 [200, 40] false)).map fun s => s.items) = some [6, 40] := by decide

/-- A new filter after the list became wrong. -/
example : ((run (exec (exUsers [4] []) 5) [.change 5 90, .setFilter (· < 30)] (ex0 [5, 20, 30] true)).map fun s => (s.src, s.items, s.mixed)) =
    some ([20, 30], [20], false) := by decide

/-- C182: an item that is taken out of the source while it is moved to its new place stays in the list. -/
theorem C182_counterexample_ghost : ((run (exec (exUsers [4] []) 5) [.change 5 90] (ex0 [5, 20, 30] true)).map fun s => (s.src, s.items)) =
    some ([20, 30], [20, 30, 5]) := by decide

/-- C182: an item that changes again while it is moved to its new place is in the list twice. -/
theorem C182_counterexample_twice : ((run (exec (exUsers [3] []) 5) [.change 7 60] (ex0 [7, 20, 30] true)).map fun s => (s.src, s.items)) =
    some ([7, 20, 30], [20, 30, 7, 7]) := by decide

/-- C182: when an item is removed from the source while the filter is assigned, the assignment raises and the list is empty. -/
theorem C182_counterexample_raises : ((exec (exUsers [2] []) 5 (.setFilter (· < 50)) (ex0 [1, 7, 8] false)).map fun r =>
    (r.1.src, r.1.items, r.2)) = some ([7, 8], [], true) := by decide

end Verif.ListModel.FilteredReentrant
