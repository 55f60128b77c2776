import Verif.ListModel.Flattened
import Mathlib.Tactic.SplitIfs

set_option linter.unusedSectionVars false
set_option linter.unusedSimpArgs false

/-!
C183: observers that change the lists of a flattened list model while they are told (`nion/utils/ListModel.py:861-916` and 35-42, with
`Event.fire`, `nion/utils/Event.py:103-114`). Observers of the flattened list model, and observers of the source and of the lists of children
that are told after it, may insert and remove master items and children, in any way that depends on the whole state, and raise; an exception
ends the innermost fire.

The source and the lists of children are `ListModel`s: the loop of line 872 goes over the list itself, so it sees children that are inserted
meanwhile. The source has no item twice: an insertion of an item that is there is left out, and so is an insertion of a child behind the end
of the list (C17). Selections are left out. `none` is a recursion or a loop that does not end within the fuel.
-/

namespace Verif.ListModel.FlattenedReentrant

/-- What users and observers do. -/
inductive Act (α β : Type) where
  | insertMaster (i : ℕ) (m : α)
  | removeMaster (i : ℕ)
  | insertChild (m : α) (i : ℕ) (c : β)
  | removeChild (m : α) (i : ℕ)
deriving DecidableEq

/-- What observers are told: by the flattened list model, by the source, by a list of children. -/
inductive Ev (α β : Type) where
  | inserted (c : β) (i : ℕ)
  | removed (c : β) (i : ℕ)
  | masterInserted (m : α) (i : ℕ)
  | masterRemoved (m : α) (i : ℕ)
  | childInserted (m : α) (c : β) (i : ℕ)
  | childRemoved (m : α) (c : β) (i : ℕ)
deriving DecidableEq

/-- The source, the children of all objects, the state of the flattened list model (lines 795-812), the memory of the observers. The other
fields are not in the code: the master items that are being inserted or removed; whether one is being removed; whether a master item or its
children were changed while it was being inserted or removed, or any master item was inserted or removed while one was being removed; and
what observers saw while no master item was being inserted or removed and nothing of this had happened. -/
structure St (α β M : Type) where
  src : List α
  kids : α → List β
  mast : List α
  ch : α → List β
  lis : α → Bool
  items : List β
  mem : M
  busy : List α
  removing : Bool
  mixed : Bool
  seen : List (List α × (α → List β) × List β)

variable {ι α β M : Type} [DecidableEq α]

/-- What an observer does when it is told: memory, acts in order, whether it raises then. -/
structure Reaction (α β M : Type) where
  mem : M
  acts : List (Act α β)
  raises : Bool

/-- The observers of each event, in order, and what they do. -/
structure Users (ι α β M : Type) where
  obs : Ev α β → List ι
  react : ι → Ev α β → St α β M → Reaction α β M

abbrev Exec (α β M : Type) := Act α β → St α β M → Option (St α β M × Bool)

/-- Acts one after the other, up to an exception. -/
def acts (ex : Exec α β M) : List (Act α β) → St α β M → Option (St α β M × Bool)
  | [], s => some (s, false)
  | a :: as, s => (ex a s).bind fun r => if r.2 then some r else acts ex as r.1

/-- An observer is called. -/
def look (m : M) (s : St α β M) : St α β M :=
  { s with mem := m, seen := if s.busy ≠ [] ∨ s.mixed then s.seen else s.seen ++ [(s.src, s.kids, s.items)] }

/-- An observer is told; the Boolean says whether it raised. -/
def tell (u : Users ι α β M) (ex : Exec α β M) (e : Ev α β) (i : ι) (s : St α β M) : Option (St α β M × Bool) :=
  (acts ex (u.react i e s).acts (look (u.react i e s).mem s)).map fun r => (r.1, r.2 || (u.react i e s).raises)

/-- `Event.fire`. -/
def fireL (u : Users ι α β M) (ex : Exec α β M) (e : Ev α β) : List ι → St α β M → Option (St α β M)
  | [], s => some s
  | i :: is, s => (tell u ex e i s).bind fun r => if r.2 then some r.1 else fireL u ex e is r.1

def fire (u : Users ι α β M) (ex : Exec α β M) (e : Ev α β) (s : St α β M) : Option (St α β M) := fireL u ex e (u.obs e) s

/-- The index in the flattened list (lines 892-897 and 906-911). -/
def index (m : α) (i : ℕ) (s : St α β M) : ℕ := offset s.ch m s.mast + i

/-- Lines 890-902 `__child_item_inserted`. -/
def childInserted (u : Users ι α β M) (ex : Exec α β M) (m : α) (c : β) (i : ℕ) (s : St α β M) : Option (St α β M) :=
  fire u ex (.inserted c (index m i s))
    { s with ch := Function.update s.ch m (Py.insert (s.ch m) i c), items := Py.insert s.items (index m i s) c }

/-- Lines 904-916 `__child_item_removed`. -/
def childRemoved (u : Users ι α β M) (ex : Exec α β M) (m : α) (c : β) (i : ℕ) (s : St α β M) : Option (St α β M × Bool) :=
  if i < (s.ch m).length then
    if index m i s < s.items.length then
      (fire u ex (.removed c (index m i s))
        { s with ch := Function.update s.ch m ((s.ch m).eraseIdx i), items := s.items.eraseIdx (index m i s) }).map fun t => (t, false)
    else some ({ s with ch := Function.update s.ch m ((s.ch m).eraseIdx i) }, true)
  else some (s, true)

/-- Lines 872-873: the loop looks at the list of children as it is. -/
def insertKids (u : Users ι α β M) (ex : Exec α β M) (m : α) : ℕ → ℕ → St α β M → Option (St α β M)
  | 0, _, _ => none
  | n + 1, k, s =>
    match (s.kids m)[k]? with
    | none => some s
    | some c => (childInserted u ex m c k s).bind (insertKids u ex m n (k + 1))

/-- Lines 882-883: the loop goes over the children there were at its beginning, from the end. -/
def removeKids (u : Users ι α β M) (ex : Exec α β M) (m : α) (cs : List β) : ℕ → St α β M → Option (St α β M × Bool)
  | 0, s => some (s, false)
  | n + 1, s =>
    match cs[n]? with
    | none => some (s, false)
    | some c => (childRemoved u ex m c n s).bind fun r => if r.2 then some r else removeKids u ex m cs n r.1

/-- Lines 861-873 `__master_item_inserted`. -/
def masterInserted (u : Users ι α β M) (ex : Exec α β M) (n : ℕ) (m : α) (i : ℕ) (s : St α β M) : Option (St α β M × Bool) :=
  if m ∈ s.mast then some (s, true)
  else (insertKids u ex m n 0
      { s with mast := Py.insert s.mast i m, lis := Function.update s.lis m true, busy := m :: s.busy }).map fun t =>
    ({ t with busy := s.busy }, false)

/-- Lines 885-888. -/
def masterGone (m : α) (i : ℕ) (s : St α β M) : St α β M × Bool :=
  if i < s.mast.length then
    if s.lis m then ({ s with mast := s.mast.eraseIdx i, lis := Function.update s.lis m false }, decide (m ∈ s.mast.eraseIdx i))
    else ({ s with mast := s.mast.eraseIdx i }, true)
  else (s, true)

/-- Lines 876-888 `__master_item_removed`. -/
def masterRemoved (u : Users ι α β M) (ex : Exec α β M) (m : α) (i : ℕ) (s : St α β M) : Option (St α β M × Bool) :=
  (removeKids u ex m (s.kids m) (s.kids m).length { s with busy := m :: s.busy, removing := true }).map fun r =>
    if r.2 then ({ r.1 with busy := s.busy, removing := s.removing }, true)
    else masterGone m i { r.1 with busy := s.busy, removing := s.removing }

/-- After the flattened list model was told: the other observers of the event, unless it raised. -/
def others (u : Users ι α β M) (ex : Exec α β M) (e : Ev α β) (r : St α β M × Bool) : Option (St α β M × Bool) :=
  if r.2 then some (r.1, false) else (fire u ex e r.1).map fun t => (t, false)

/-- A master item, or its children, are changed. -/
def touch (m : α) (master : Bool) (s : St α β M) : St α β M :=
  { s with mixed := s.mixed || decide (m ∈ s.busy) || (master && s.removing) }

/-- One act, with the nested ones run by `ex`. -/
def body (u : Users ι α β M) (n : ℕ) (ex : Exec α β M) : Exec α β M
  | .insertMaster i m, s =>
    if m ∈ s.src then some (s, false)
    else (masterInserted u ex n m i { touch m true s with src := Py.insert s.src i m }).bind (others u ex (.masterInserted m i))
  | .removeMaster i, s =>
    match s.src[i]? with
    | some m => (masterRemoved u ex m i { touch m true s with src := s.src.eraseIdx i }).bind (others u ex (.masterRemoved m i))
    | none => some (s, true)
  | .insertChild m i c, s =>
    if i ≤ (s.kids m).length then
      let t := { touch m false s with kids := Function.update s.kids m (Py.insert (s.kids m) i c) }
      (if t.lis m then childInserted u ex m c i t else some t).bind fun t => others u ex (.childInserted m c i) (t, false)
    else some (s, false)
  | .removeChild m i, s =>
    match (s.kids m)[i]? with
    | some c =>
      let t := { touch m false s with kids := Function.update s.kids m ((s.kids m).eraseIdx i) }
      (if t.lis m then childRemoved u ex m c i t else some (t, false)).bind (others u ex (.childRemoved m c i))
    | none => some (s, true)

def exec (u : Users ι α β M) : ℕ → Exec α β M
  | 0, _, _ => none
  | n + 1, a, s => body u n (exec u n) a s

/-- Acts from outside, whether they raise or not. -/
def run (ex : Exec α β M) : List (Act α β) → St α β M → Option (St α β M)
  | [], s => some s
  | a :: as, s => (ex a s).bind fun r => run ex as r.1

/-- A new flattened list model with its source. -/
def start (src : List α) (kids : α → List β) (m : M) : St α β M :=
  ⟨src, kids, src, fun x => if x ∈ src then kids x else [], fun x => decide (x ∈ src), src.flatMap kids, m, [], false, false, []⟩

/-! ### Proof -/

variable {u : Users ι α β M} {ex : Exec α β M} {s t : St α β M}

structure Good (s : St α β M) : Prop where
  nodup : s.mast.Nodup
  items : s.items = s.mast.flatMap s.ch
  link : ∀ m, m ∉ s.busy → s.ch m = if m ∈ s.mast then s.kids m else []
  lis : ∀ m, s.lis m = true ↔ m ∈ s.mast
  src : s.removing = false → s.mast = s.src
  busy : ∀ m ∈ s.busy, m ∈ s.mast

structure Inv (s : St α β M) : Prop where
  good : s.mixed = false → Good s
  seen : ∀ w ∈ s.seen, w.2.2 = w.1.flatMap w.2.1
  removing : s.removing = true → s.busy ≠ []

structure Eff (s t : St α β M) : Prop where
  inv : Inv t
  busy : t.busy = s.busy
  removing : t.removing = s.removing
  mixed : t.mixed = false → s.mixed = false
  still : t.mixed = false → (∀ m ∈ s.busy, t.ch m = s.ch m ∧ t.kids m = s.kids m) ∧ (s.removing = true → t.src = s.src ∧ t.mast = s.mast)

def Ok (ex : Exec α β M) : Prop := ∀ a s r, Inv s → ex a s = some r → Eff s r.1

theorem Eff.refl (h : Inv s) : Eff s s := ⟨h, rfl, rfl, id, fun _ => ⟨fun _ _ => ⟨rfl, rfl⟩, fun _ => ⟨rfl, rfl⟩⟩⟩

theorem Eff.trans {r : St α β M} (h1 : Eff s t) (h2 : Eff t r) : Eff s r := by
  refine ⟨h2.inv, h2.busy.trans h1.busy, h2.removing.trans h1.removing, fun h => h1.mixed (h2.mixed h), fun h => ?_⟩
  obtain ⟨a, b⟩ := h2.still h
  obtain ⟨c, d⟩ := h1.still (h2.mixed h)
  refine ⟨fun m hm => ?_, fun hr => ?_⟩
  · have := a m (h1.busy ▸ hm)
    exact ⟨this.1.trans (c m hm).1, this.2.trans (c m hm).2⟩
  · have := b (h1.removing.trans hr)
    exact ⟨this.1.trans (d hr).1, this.2.trans (d hr).2⟩

theorem Good.right (h : Good s) (hb : s.busy = []) (hr : s.removing = false) : s.items = s.src.flatMap s.kids := by
  rw [h.items, ← h.src hr]
  apply List.flatMap_congr
  intro m hm
  rw [h.link m (by rw [hb]; simp), if_pos hm]

theorem Inv.right (h : Inv s) (hm : s.mixed = false) (hb : s.busy = []) : s.items = s.src.flatMap s.kids := by
  refine (h.good hm).right hb ?_
  cases hr : s.removing with
  | false => rfl
  | true => exact absurd hb (h.removing hr)

theorem acts_eff (h : Ok ex) (as : List (Act α β)) (s : St α β M) (r : St α β M × Bool) (hi : Inv s) (he : acts ex as s = some r) :
    Eff s r.1 := by
  induction as generalizing s with
  | nil =>
    simp only [acts, Option.some.injEq] at he
    exact he ▸ .refl hi
  | cons a as ih =>
    simp only [acts, Option.bind_eq_some_iff] at he
    obtain ⟨r1, h1, h2⟩ := he
    have e := h a s r1 hi h1
    split at h2
    · cases h2
      exact e
    · exact e.trans (ih _ e.inv h2)

theorem Inv.congr (h : Inv s) (h1 : t.mixed = s.mixed) (h2 : Good s → Good t) (h3 : t.seen = s.seen) (h4 : t.removing = s.removing)
    (h5 : t.busy = s.busy) : Inv t :=
  ⟨fun hm => h2 (h.good (h1 ▸ hm)), h3 ▸ h.seen, by rw [h4, h5]; exact h.removing⟩

theorem look_eff (m : M) (hi : Inv s) : Eff s (look m s) := by
  refine ⟨⟨fun hm => ?_, fun w hw => ?_, hi.removing⟩, rfl, rfl, id, fun _ => ⟨fun _ _ => ⟨rfl, rfl⟩, fun _ => ⟨rfl, rfl⟩⟩⟩
  · have g := hi.good hm
    exact ⟨g.nodup, g.items, g.link, g.lis, g.src, g.busy⟩
  · simp only [look] at hw
    split at hw
    · exact hi.seen w hw
    · rename_i hb
      simp only [not_or, ne_eq, not_not, Bool.not_eq_true] at hb
      rcases List.mem_append.1 hw with hw | hw
      · exact hi.seen w hw
      · rw [List.mem_singleton.1 hw]
        exact hi.right hb.2 hb.1

theorem tell_eff (h : Ok ex) (e : Ev α β) (i : ι) (s : St α β M) (r : St α β M × Bool) (hi : Inv s) (he : tell u ex e i s = some r) :
    Eff s r.1 := by
  simp only [tell, Option.map_eq_some_iff] at he
  obtain ⟨r1, h1, rfl⟩ := he
  have k := look_eff (u.react i e s).mem hi
  exact k.trans (acts_eff h _ _ r1 k.inv h1)

theorem fireL_eff (h : Ok ex) (e : Ev α β) (is : List ι) (s t : St α β M) (hi : Inv s) (he : fireL u ex e is s = some t) : Eff s t := by
  induction is generalizing s with
  | nil =>
    simp only [fireL, Option.some.injEq] at he
    exact he ▸ .refl hi
  | cons i is ih =>
    simp only [fireL, Option.bind_eq_some_iff] at he
    obtain ⟨r1, h1, h2⟩ := he
    have k := tell_eff h e i s r1 hi h1
    split at h2
    · cases h2
      exact k
    · exact k.trans (ih _ k.inv h2)

theorem fire_eff (h : Ok ex) (e : Ev α β) (s t : St α β M) (hi : Inv s) (he : fire u ex e s = some t) : Eff s t := fireL_eff h e _ s t hi he

theorem others_eff (h : Ok ex) (e : Ev α β) (r q : St α β M × Bool) (hi : Inv r.1) (he : others u ex e r = some q) : Eff r.1 q.1 := by
  unfold others at he
  split at he
  · cases he
    exact .refl hi
  · rw [Option.map_eq_some_iff] at he
    obtain ⟨t, h1, rfl⟩ := he
    exact fire_eff h e _ _ hi h1

/-! #### The lists -/

theorem split_mast {mast : List α} (hn : mast.Nodup) {m : α} (hm : m ∈ mast) (ch : α → List β) :
    ∃ pre post, mast = pre ++ m :: post ∧ m ∉ pre ∧ m ∉ post ∧ offset ch m mast = (pre.flatMap ch).length := by
  obtain ⟨pre, post, e, hp⟩ := List.eq_append_cons_of_mem hm
  refine ⟨pre, post, e, hp, ?_, by rw [e]; exact offset_eq ch m pre post hp⟩
  rw [e] at hn
  exact (List.nodup_cons.1 (List.nodup_append.1 hn).2.1).1

theorem flat_split (pre post : List α) (m : α) (ch : α → List β) :
    (pre ++ m :: post).flatMap ch = pre.flatMap ch ++ ch m ++ post.flatMap ch := by simp

theorem flat_update (pre post : List α) (m : α) (ch : α → List β) (l : List β) (h1 : m ∉ pre) (h2 : m ∉ post) :
    (pre ++ m :: post).flatMap (Function.update ch m l) = pre.flatMap ch ++ l ++ post.flatMap ch := by
  rw [flat_split, flatMap_update h1, flatMap_update h2]
  simp

theorem flat_insert {mast : List α} (hn : mast.Nodup) {m : α} (hm : m ∈ mast) (ch : α → List β) (k : ℕ) (hk : k ≤ (ch m).length) (c : β) :
    Py.insert (mast.flatMap ch) ((offset ch m mast + k : ℕ) : ℤ) c = mast.flatMap (Function.update ch m (Py.insert (ch m) k c)) := by
  obtain ⟨pre, post, e, h1, h2, h3⟩ := split_mast hn hm ch
  rw [h3, e, flat_update pre post m ch _ h1 h2, flat_split, Py.insert_nat (by simp; omega), Py.insert_nat hk,
    insertIdx_middle _ _ _ _ hk]

theorem flat_erase {mast : List α} (hn : mast.Nodup) {m : α} (hm : m ∈ mast) (ch : α → List β) (k : ℕ) (hk : k < (ch m).length) :
    offset ch m mast + k < (mast.flatMap ch).length ∧
    (mast.flatMap ch).eraseIdx (offset ch m mast + k) = mast.flatMap (Function.update ch m ((ch m).eraseIdx k)) := by
  obtain ⟨pre, post, e, h1, h2, h3⟩ := split_mast hn hm ch
  rw [h3, e, flat_update pre post m ch _ h1 h2, flat_split]
  refine ⟨?_, eraseIdx_middle _ _ _ _ hk⟩
  simp only [List.length_append]
  omega

/-! #### Children -/

/-- What telling of one child of `m` does, when what is said of the other fields is known: the children of other master items are not
touched but by observers. -/
structure Step (m : α) (l : List β) (s t : St α β M) : Prop where
  inv : Inv t
  busy : t.busy = s.busy
  removing : t.removing = s.removing
  mixed : t.mixed = false → s.mixed = false
  still : t.mixed = false → (∀ m' ∈ s.busy, t.ch m' = (if m' = m then l else s.ch m') ∧ t.kids m' = s.kids m') ∧
    (s.removing = true → t.src = s.src ∧ t.mast = s.mast)

/-- The state in between: the items are those of the children, and `m` is busy or its children are in step. -/
structure Ready (m : α) (s : St α β M) : Prop where
  nodup : s.mast.Nodup
  items : s.items = s.mast.flatMap s.ch
  link : ∀ m', m' ∉ s.busy → m' ≠ m → s.ch m' = if m' ∈ s.mast then s.kids m' else []
  lis : ∀ m', s.lis m' = true ↔ m' ∈ s.mast
  src : s.removing = false → s.mast = s.src
  busy : ∀ m' ∈ s.busy, m' ∈ s.mast
  mem : m ∈ s.mast

theorem childInserted_step (h : Ok ex) (m : α) (c : β) (i : ℕ) (s t : St α β M) (hg : s.mixed = false → Ready m s)
    (hs : ∀ w ∈ s.seen, w.2.2 = w.1.flatMap w.2.1) (hr : s.removing = true → s.busy ≠ [])
    (hi : s.mixed = false → i ≤ (s.ch m).length)
    (hk : s.mixed = false → m ∈ s.busy ∨ Py.insert (s.ch m) i c = s.kids m)
    (he : childInserted u ex m c i s = some t) : Step m (Py.insert (s.ch m) i c) s t := by
  have i1 : Inv { s with ch := Function.update s.ch m (Py.insert (s.ch m) i c), items := Py.insert s.items (index m i s) c } := by
    refine ⟨fun hm => ?_, hs, hr⟩
    have g := hg hm
    refine ⟨g.nodup, ?_, fun m' hm' => ?_, g.lis, g.src, g.busy⟩
    · simp only
      rw [g.items]
      exact flat_insert g.nodup g.mem s.ch i (hi hm) c
    · by_cases e : m' = m
      · subst e
        simp only [Function.update_self]
        rw [if_pos g.mem]
        exact (hk hm).resolve_left hm'
      · simp only [Function.update_of_ne e]
        exact g.link m' hm' e
  have e := fire_eff h _ _ _ i1 he
  refine ⟨e.inv, e.busy, e.removing, e.mixed, fun hm => ?_⟩
  obtain ⟨a, b⟩ := e.still hm
  refine ⟨fun m' hm' => ⟨(a m' hm').1.trans ?_, (a m' hm').2⟩, b⟩
  simp only [Function.update_apply]

theorem childRemoved_step (h : Ok ex) (m : α) (c : β) (i : ℕ) (s : St α β M) (r : St α β M × Bool) (hg : s.mixed = false → Ready m s)
    (hs : ∀ w ∈ s.seen, w.2.2 = w.1.flatMap w.2.1) (hr : s.removing = true → s.busy ≠ [])
    (hi : s.mixed = false → i < (s.ch m).length)
    (hk : s.mixed = false → m ∈ s.busy ∨ (s.ch m).eraseIdx i = s.kids m)
    (he : childRemoved u ex m c i s = some r) : Step m ((s.ch m).eraseIdx i) s r.1 ∧ (r.1.mixed = false → r.2 = false) := by
  have bad : s.mixed = true → ∀ ch, Step m ((s.ch m).eraseIdx i) s { s with ch := ch } := fun hm ch =>
    ⟨⟨fun h => absurd (hm.symm.trans h) (by simp), hs, hr⟩, rfl, rfl, id, fun h => absurd (hm.symm.trans h) (by simp)⟩
  unfold childRemoved at he
  split at he
  · split at he
    · rw [Option.map_eq_some_iff] at he
      obtain ⟨t, h1, rfl⟩ := he
      have i1 : Inv { s with ch := Function.update s.ch m ((s.ch m).eraseIdx i), items := s.items.eraseIdx (index m i s) } := by
        refine ⟨fun hm => ?_, hs, hr⟩
        have g := hg hm
        refine ⟨g.nodup, ?_, fun m' hm' => ?_, g.lis, g.src, g.busy⟩
        · simp only
          rw [g.items]
          exact (flat_erase g.nodup g.mem s.ch i (hi hm)).2
        · by_cases e : m' = m
          · subst e
            simp only [Function.update_self]
            rw [if_pos g.mem]
            exact (hk hm).resolve_left hm'
          · simp only [Function.update_of_ne e]
            exact g.link m' hm' e
      have e := fire_eff h _ _ _ i1 h1
      refine ⟨⟨e.inv, e.busy, e.removing, e.mixed, fun hm => ?_⟩, fun _ => rfl⟩
      obtain ⟨a, b⟩ := e.still hm
      refine ⟨fun m' hm' => ⟨(a m' hm').1.trans ?_, (a m' hm').2⟩, b⟩
      simp only [Function.update_apply]
    · rename_i hl
      cases he
      have hm : s.mixed = true := by
        cases hm : s.mixed with
        | true => rfl
        | false =>
          have g := hg hm
          refine absurd ?_ hl
          rw [g.items]
          exact (flat_erase g.nodup g.mem s.ch i (hi hm)).1
      exact ⟨bad hm _, fun h => absurd (hm.symm.trans h) (by simp)⟩
  · rename_i hl
    cases he
    have hm : s.mixed = true := by
      cases hm : s.mixed with
      | true => rfl
      | false => exact absurd (hi hm) hl
    exact ⟨bad hm s.ch, fun h => absurd (hm.symm.trans h) (by simp)⟩

theorem Good.ready (h : Good s) {m : α} (hm : m ∈ s.mast) : Ready m s :=
  ⟨h.nodup, h.items, fun m' hb _ => h.link m' hb, h.lis, h.src, h.busy, hm⟩

theorem insertKids_eff (h : Ok ex) (m : α) (n k : ℕ) (s t : St α β M) (hi : Inv s) (hb : m ∈ s.busy)
    (hk : s.mixed = false → s.ch m = (s.kids m).take k ∧ k ≤ (s.kids m).length) (he : insertKids u ex m n k s = some t) :
    Inv t ∧ t.busy = s.busy ∧ t.removing = s.removing ∧ (t.mixed = false → s.mixed = false ∧ t.ch m = t.kids m ∧
      (∀ m' ∈ s.busy, m' ≠ m → t.ch m' = s.ch m' ∧ t.kids m' = s.kids m') ∧ t.kids m = s.kids m ∧
      (s.removing = true → t.src = s.src ∧ t.mast = s.mast)) := by
  induction n generalizing s k with
  | zero => simp [insertKids] at he
  | succ n ih =>
    simp only [insertKids] at he
    split at he
    · rename_i hl
      cases he
      refine ⟨hi, rfl, rfl, fun hm => ⟨hm, ?_, fun _ _ _ => ⟨rfl, rfl⟩, rfl, fun _ => ⟨rfl, rfl⟩⟩⟩
      rw [(hk hm).1]
      exact List.take_of_length_le (List.getElem?_eq_none_iff.1 hl)
    · rename_i c hc
      rw [Option.bind_eq_some_iff] at he
      obtain ⟨t1, h1, h2⟩ := he
      obtain ⟨hlt, hget⟩ := List.getElem?_eq_some_iff.1 hc
      have st := childInserted_step h m c k s t1 (fun hm => (hi.good hm).ready ((hi.good hm).busy m hb)) hi.seen hi.removing
        (fun hm => by rw [(hk hm).1, List.length_take]; omega) (fun _ => .inl hb) h1
      have hins : s.mixed = false → Py.insert (s.ch m) k c = (s.kids m).take (k + 1) := fun hm => by
        have hlen : (s.ch m).length = k := by rw [(hk hm).1, List.length_take]; omega
        rw [show (k : ℤ) = ((s.ch m).length : ℤ) by rw [hlen], Py.insert_length, (hk hm).1, List.take_add_one, hc]
        rfl
      obtain ⟨g1, g2, g3, g4⟩ := ih (k + 1) t1 st.inv (st.busy ▸ hb) (fun hm => by
        obtain ⟨a, -⟩ := st.still hm
        obtain ⟨a1, a2⟩ := a m hb
        rw [a1, a2, if_pos rfl, hins (st.mixed hm)]
        exact ⟨rfl, hlt⟩) h2
      refine ⟨g1, g2.trans st.busy, g3.trans st.removing, fun hm => ?_⟩
      obtain ⟨c1, c2, c3, c4, c5⟩ := g4 hm
      obtain ⟨a, b⟩ := st.still c1
      refine ⟨st.mixed c1, c2, fun m' hm' hne => ?_, c4.trans (a m hb).2, fun hr => ?_⟩
      · have := c3 m' (st.busy ▸ hm') hne
        have a' := a m' hm'
        rw [if_neg hne] at a'
        exact ⟨this.1.trans a'.1, this.2.trans a'.2⟩
      · have := c5 (st.removing.trans hr)
        exact ⟨this.1.trans (b hr).1, this.2.trans (b hr).2⟩

theorem removeKids_eff (h : Ok ex) (m : α) (cs : List β) (n : ℕ) (hn : n ≤ cs.length) (s : St α β M) (r : St α β M × Bool) (hi : Inv s)
    (hb : m ∈ s.busy) (hk : s.mixed = false → s.ch m = cs.take n) (he : removeKids u ex m cs n s = some r) :
    Inv r.1 ∧ r.1.busy = s.busy ∧ r.1.removing = s.removing ∧ (r.1.mixed = false → s.mixed = false ∧ r.2 = false ∧ r.1.ch m = [] ∧
      (∀ m' ∈ s.busy, m' ≠ m → r.1.ch m' = s.ch m' ∧ r.1.kids m' = s.kids m') ∧ r.1.kids m = s.kids m ∧
      (s.removing = true → r.1.src = s.src ∧ r.1.mast = s.mast)) := by
  induction n generalizing s with
  | zero =>
    simp only [removeKids, Option.some.injEq] at he
    subst he
    exact ⟨hi, rfl, rfl, fun hm => ⟨hm, rfl, by rw [hk hm]; rfl, fun _ _ _ => ⟨rfl, rfl⟩, rfl, fun _ => ⟨rfl, rfl⟩⟩⟩
  | succ n ih =>
    simp only [removeKids] at he
    rw [List.getElem?_eq_getElem (by omega)] at he
    simp only [Option.bind_eq_some_iff] at he
    obtain ⟨r1, h1, h2⟩ := he
    obtain ⟨st, hx⟩ := childRemoved_step h m _ n s r1 (fun hm => (hi.good hm).ready ((hi.good hm).busy m hb)) hi.seen hi.removing
      (fun hm => by rw [hk hm, List.length_take]; omega) (fun _ => .inl hb) h1
    split at h2
    · rename_i hr
      cases h2
      exact ⟨st.inv, st.busy, st.removing, fun hm => absurd ((hx hm).symm.trans hr) (by simp)⟩
    · obtain ⟨g1, g2, g3, g4⟩ := ih (by omega) r1.1 st.inv (st.busy ▸ hb) (fun hm => by
        obtain ⟨a, -⟩ := st.still hm
        rw [(a m hb).1, if_pos rfl, hk (st.mixed hm)]
        rw [List.eraseIdx_eq_take_drop_succ, List.take_take, List.drop_take]
        simp) h2
      refine ⟨g1, g2.trans st.busy, g3.trans st.removing, fun hm => ?_⟩
      obtain ⟨c1, c2, c3, c4, c5, c6⟩ := g4 hm
      obtain ⟨a, b⟩ := st.still c1
      refine ⟨st.mixed c1, c2, c3, fun m' hm' hne => ?_, c5.trans (a m hb).2, fun hr => ?_⟩
      · have := c4 m' (st.busy ▸ hm') hne
        have a' := a m' hm'
        rw [if_neg hne] at a'
        exact ⟨this.1.trans a'.1, this.2.trans a'.2⟩
      · have := c6 (st.removing.trans hr)
        exact ⟨this.1.trans (b hr).1, this.2.trans (b hr).2⟩

/-! #### Acts -/

theorem touch_mixed {m : α} {b : Bool} (h : (touch m b s).mixed = false) : s.mixed = false ∧ m ∉ s.busy ∧ (b = true → s.removing = false) := by
  simp only [touch, Bool.or_eq_false_iff, decide_eq_false_iff_not, Bool.and_eq_false_iff] at h
  refine ⟨h.1.1, h.1.2, fun hb => ?_⟩
  rcases h.2 with h | h
  · rw [hb] at h
    cases h
  · exact h

theorem Inv.touch (h : Inv s) (m : α) (b : Bool) : Inv (touch m b s) := by
  refine ⟨fun hm => ?_, h.seen, h.removing⟩
  have g := h.good (touch_mixed hm).1
  exact ⟨g.nodup, g.items, g.link, g.lis, g.src, g.busy⟩

theorem mem_pyInsert' (l : List α) (i : ℤ) (x : α) : x ∈ Py.insert l i x := (mem_pyInsert l i x x).2 (.inl rfl)

theorem insertMaster_eff (h : Ok ex) (n : ℕ) (i : ℕ) (m : α) (s : St α β M) (r : St α β M × Bool) (hi : Inv s)
    (he : body u n ex (.insertMaster i m) s = some r) : Eff s r.1 := by
  simp only [body] at he
  split at he
  · cases he
    exact .refl hi
  · rename_i hsrc
    rw [Option.bind_eq_some_iff] at he
    obtain ⟨r1, h1, h2⟩ := he
    suffices H : Eff s r1.1 from H.trans (others_eff h _ _ _ H.inv h2)
    unfold masterInserted at h1
    split at h1
    · -- the assertion fails: only if something was mixed before
      rename_i hm
      cases h1
      have hx : (touch m true s).mixed = true := by
        cases hx : (touch m true s).mixed with
        | true => rfl
        | false =>
          obtain ⟨a, _, c⟩ := touch_mixed hx
          have := (hi.good a).src (c rfl)
          change m ∈ s.mast at hm
          rw [this] at hm
          exact absurd hm hsrc
      refine ⟨⟨fun h => absurd (hx.symm.trans h) (by simp), hi.seen, hi.removing⟩, rfl, rfl, fun h => absurd (hx.symm.trans h) (by simp),
        fun h => absurd (hx.symm.trans h) (by simp)⟩
    · rename_i hm
      rw [Option.map_eq_some_iff] at h1
      obtain ⟨t, h1, rfl⟩ := h1
      change m ∉ s.mast at hm
      obtain ⟨g1, g2, g3, g4⟩ := insertKids_eff h m n 0 _ t (by
        refine ⟨fun hx => ?_, hi.seen, fun _ => by simp⟩
        obtain ⟨a, b, c⟩ := touch_mixed (s := s) (m := m) (b := true) hx
        have g := hi.good a
        have hnil : s.ch m = [] := by rw [g.link m b, if_neg hm]
        refine ⟨nodup_pyInsert g.nodup hm _, ?_, fun m' hm' => ?_, fun m' => ?_, fun hr => ?_, fun m' hm' => ?_⟩
        · change s.items = (Py.insert s.mast i m).flatMap s.ch
          rw [g.items, flatMap_pyInsert_nil hnil]
        · simp only [List.mem_cons, not_or] at hm'
          change s.ch m' = if m' ∈ Py.insert s.mast i m then s.kids m' else []
          rw [g.link m' hm'.2]
          simp only [mem_pyInsert, hm'.1, false_or]
        · change Function.update s.lis m true m' = true ↔ m' ∈ Py.insert s.mast i m
          rw [mem_pyInsert]
          by_cases e : m' = m
          · subst e
            simp
          · simp [Function.update_of_ne e, e, g.lis m']
        · change Py.insert s.mast i m = Py.insert s.src i m
          rw [g.src (c rfl)]
        · change m' ∈ Py.insert s.mast i m
          rw [mem_pyInsert]
          rcases List.mem_cons.1 hm' with e | e
          · exact .inl e
          · exact .inr (g.busy m' e)) (by simp) (fun hx => by
        obtain ⟨a, b, c⟩ := touch_mixed (s := s) (m := m) (b := true) hx
        have g := hi.good a
        refine ⟨?_, Nat.zero_le _⟩
        change s.ch m = _
        rw [g.link m b, if_neg hm]
        rfl) h1
      have key : t.mixed = false → s.mixed = false ∧ m ∉ s.busy ∧ s.removing = false := fun hx => by
        obtain ⟨a, b, c⟩ := touch_mixed (s := s) (m := m) (b := true) (g4 hx).1
        exact ⟨a, b, c rfl⟩
      refine ⟨⟨fun hx => ?_, g1.seen, fun hr => ?_⟩, rfl, g3, fun hx => (key hx).1, fun hx => ?_⟩
      · have g := g1.good hx
        obtain ⟨c1, c2, c3, c4, c5⟩ := g4 hx
        refine ⟨g.nodup, g.items, fun m' hm' => ?_, g.lis, g.src, fun m' hm' => g.busy m' (by rw [g2]; exact List.mem_cons_of_mem _ hm')⟩
        by_cases e : m' = m
        · subst e
          have hmem : m' ∈ t.mast := g.busy m' (by rw [g2]; simp)
          rw [if_pos hmem]
          exact c2
        · refine g.link m' ?_
          rw [g2]
          simp only [List.mem_cons, not_or]
          exact ⟨e, hm'⟩
      · exact hi.removing (g3 ▸ hr)
      · obtain ⟨c1, c2, c3, c4, c5⟩ := g4 hx
        obtain ⟨a, b, c⟩ := key hx
        refine ⟨fun m' hm' => ?_, fun hr => absurd (c.symm.trans hr) (by simp)⟩
        have hne : m' ≠ m := fun e => b (e ▸ hm')
        exact c3 m' (List.mem_cons_of_mem _ hm') hne

theorem removeMaster_eff (h : Ok ex) (n : ℕ) (i : ℕ) (s : St α β M) (r : St α β M × Bool) (hi : Inv s)
    (he : body u n ex (.removeMaster i) s = some r) : Eff s r.1 := by
  simp only [body] at he
  split at he
  swap
  · cases he
    exact .refl hi
  rename_i m hget
  rw [Option.bind_eq_some_iff] at he
  obtain ⟨r1, h1, h2⟩ := he
  suffices H : Eff s r1.1 from H.trans (others_eff h _ _ _ H.inv h2)
  obtain ⟨hlt, hm⟩ := List.getElem?_eq_some_iff.1 hget
  unfold masterRemoved at h1
  rw [Option.map_eq_some_iff] at h1
  obtain ⟨q, h1, h3⟩ := h1
  have start : ∀ hx : (touch m true s).mixed = false, Good s ∧ m ∉ s.busy ∧ s.removing = false ∧ s.mast = s.src ∧ m ∈ s.mast :=
    fun hx => by
      obtain ⟨a, b, c⟩ := touch_mixed hx
      have g := hi.good a
      have e := g.src (c rfl)
      exact ⟨g, b, c rfl, e, by rw [e, ← hm]; exact List.getElem_mem hlt⟩
  obtain ⟨g1, g2, g3, g4⟩ := removeKids_eff h m (s.kids m) (s.kids m).length (le_refl _) _ q (by
    refine ⟨fun hx => ?_, hi.seen, fun _ => by simp⟩
    obtain ⟨g, b, c, e, hmem⟩ := start hx
    refine ⟨g.nodup, g.items, fun m' hm' => ?_, g.lis, fun hr => (by cases hr), fun m' hm' => ?_⟩
    · simp only [List.mem_cons, not_or] at hm'
      exact g.link m' hm'.2
    · rcases List.mem_cons.1 hm' with rfl | e
      · exact hmem
      · exact g.busy m' e) (by simp) (fun hx => by
      obtain ⟨g, b, c, e, hmem⟩ := start hx
      rw [List.take_length]
      change s.ch m = _
      rw [g.link m b, if_pos hmem]) h1
  have key : q.1.mixed = false → (touch m true s).mixed = false := fun hx => (g4 hx).1
  have still : ∀ t : St α β M, t.mixed = q.1.mixed → t.ch = q.1.ch → t.kids = q.1.kids → t.mixed = false →
      (∀ m' ∈ s.busy, t.ch m' = s.ch m' ∧ t.kids m' = s.kids m') ∧ (s.removing = true → t.src = s.src ∧ t.mast = s.mast) := by
    intro t e1 e2 e3 hx
    rw [e1] at hx
    obtain ⟨c1, c2, c3, c4, c5, c6⟩ := g4 hx
    obtain ⟨g, b, c, e, hmem⟩ := start c1
    refine ⟨fun m' hm' => ?_, fun hr => absurd (c.symm.trans hr) (by simp)⟩
    have hne : m' ≠ m := fun e => b (e ▸ hm')
    rw [e2, e3]
    exact c4 m' (List.mem_cons_of_mem _ hm') hne
  split at h3
  · rename_i hr
    subst h3
    have hx : q.1.mixed = true := by
      cases hx : q.1.mixed with
      | true => rfl
      | false => exact absurd ((g4 hx).2.1.symm.trans hr) (by simp)
    exact ⟨⟨fun h => absurd (hx.symm.trans h) (by simp), g1.seen, hi.removing⟩, rfl, rfl, fun h => absurd (hx.symm.trans h) (by simp),
      fun h => absurd (hx.symm.trans h) (by simp)⟩
  · have fin : q.1.mixed = false → q.1.mast = s.mast ∧ q.1.src = s.src.eraseIdx i ∧ q.1.lis m = true ∧ i < q.1.mast.length ∧
        m ∉ q.1.mast.eraseIdx i := fun hx => by
      obtain ⟨c1, c2, c3, c4, c5, c6⟩ := g4 hx
      obtain ⟨g, b, c, e, hmem⟩ := start c1
      obtain ⟨d1, d2⟩ := c6 rfl
      have d2' : q.1.mast = s.mast := d2
      refine ⟨d2', d1, ?_, by rw [d2', e]; exact hlt, ?_⟩
      · rw [(g1.good hx).lis m, d2']
        exact hmem
      · rw [d2', e]
        have hn := g.nodup
        rw [e] at hn
        rw [← List.erase_eq_eraseIdx_of_idxOf (hm ▸ hn.idxOf_getElem i hlt)]
        exact hn.not_mem_erase
    have mk : ∀ l lis, (q.1.mixed = false → l = q.1.mast.eraseIdx i ∧ lis = Function.update q.1.lis m false) →
        Eff s { q.1 with mast := l, lis := lis, busy := s.busy, removing := s.removing } := by
      intro l lis hl
      refine ⟨⟨fun hx => ?_, g1.seen, hi.removing⟩, rfl, rfl, fun hx => (touch_mixed (key hx)).1, fun hx => ?_⟩
      · obtain ⟨c1, c2, c3, c4, c5, c6⟩ := g4 hx
        obtain ⟨g, b, c, e, hmem⟩ := start c1
        obtain ⟨f1, f2, f3, f4, f5⟩ := fin hx
        obtain ⟨l1, l2⟩ := hl hx
        have gq := g1.good hx
        have hgetm : q.1.mast[i] = m := by
          have h1 : q.1.mast = s.src := f1.trans e
          rw [← hm]
          simp [h1]
        refine ⟨?_, ?_, fun m' hm' => ?_, fun m' => ?_, fun _ => ?_, fun m' hm' => ?_⟩
        · simp only [l1]
          exact gq.nodup.sublist (List.eraseIdx_sublist ..)
        · simp only [l1]
          rw [flatMap_eraseIdx_nil _ _ f4 (by rw [hgetm]; exact c3)]
          exact gq.items
        · simp only [l1]
          by_cases e' : m' = m
          · subst e'
            rw [if_neg f5]
            exact c3
          · have := gq.link m' (by
              rw [g2]
              simp only [List.mem_cons, not_or]
              exact ⟨e', hm'⟩)
            rw [this]
            have : m' ∈ q.1.mast.eraseIdx i ↔ m' ∈ q.1.mast := by
              have hn := gq.nodup
              rw [← List.erase_eq_eraseIdx_of_idxOf (hgetm ▸ hn.idxOf_getElem i f4), hn.mem_erase_iff]
              exact ⟨fun h => h.2, fun h => ⟨e', h⟩⟩
            simp only [this]
        · simp only [l1, l2]
          by_cases e' : m' = m
          · subst e'
            simp [f5]
          · rw [Function.update_of_ne e', gq.lis m']
            have hn := gq.nodup
            rw [← List.erase_eq_eraseIdx_of_idxOf (hgetm ▸ hn.idxOf_getElem i f4), hn.mem_erase_iff]
            exact ⟨fun h => ⟨e', h⟩, fun h => h.2⟩
        · simp only [l1]
          rw [f1, f2, e]
        · simp only [l1]
          have hne : m' ≠ m := fun e => b (e ▸ hm')
          have hn := gq.nodup
          rw [← List.erase_eq_eraseIdx_of_idxOf (hgetm ▸ hn.idxOf_getElem i f4), hn.mem_erase_iff]
          exact ⟨hne, by rw [f1]; exact g.busy m' hm'⟩
      · have := still q.1 rfl rfl rfl hx
        refine ⟨this.1, fun hr => ?_⟩
        obtain ⟨g, b, c, -⟩ := start (key hx)
        exact absurd (c.symm.trans hr) (by simp)
    subst h3
    unfold masterGone
    split
    · split
      · exact mk _ _ fun _ => ⟨rfl, rfl⟩
      · rename_i hl
        exact mk _ q.1.lis fun hx => absurd (fin hx).2.2.1 hl
    · rename_i hl
      exact mk q.1.mast q.1.lis fun hx => absurd (fin hx).2.2.2.1 hl

theorem Step.eff {m : α} {l : List β} (h : Step m l t r) (h1 : t.busy = s.busy) (h2 : t.removing = s.removing)
    (h3 : t.mixed = false → s.mixed = false ∧ m ∉ s.busy ∧ (∀ m' ∈ s.busy, t.ch m' = s.ch m' ∧ t.kids m' = s.kids m') ∧
      t.src = s.src ∧ t.mast = s.mast) : Eff s r := by
  refine ⟨h.inv, h.busy.trans h1, h.removing.trans h2, fun hx => (h3 (h.mixed hx)).1, fun hx => ?_⟩
  obtain ⟨a, b, c, d, e⟩ := h3 (h.mixed hx)
  obtain ⟨p, q⟩ := h.still hx
  refine ⟨fun m' hm' => ?_, fun hr => ?_⟩
  · have := p m' (h1 ▸ hm')
    have hne : m' ≠ m := fun e => b (e ▸ hm')
    rw [if_neg hne] at this
    exact ⟨this.1.trans (c m' hm').1, this.2.trans (c m' hm').2⟩
  · have := q (h2.trans hr)
    exact ⟨this.1.trans d, this.2.trans e⟩

/-- Before the flattened list model hears of a change of the children of `m`. -/
theorem ready_kids (m : α) (l : List β) (hi : Inv s) (hl : s.lis m = true)
    (hx : (touch m false s).mixed = false) :
    Ready m { touch m false s with kids := Function.update s.kids m l } ∧ s.ch m = s.kids m := by
  obtain ⟨a, b, -⟩ := touch_mixed hx
  have g := hi.good a
  have hm := (g.lis m).1 hl
  refine ⟨⟨g.nodup, g.items, fun m' hb hne => ?_, g.lis, g.src, g.busy, hm⟩, by rw [g.link m b, if_pos hm]⟩
  simp only [Function.update_of_ne hne]
  exact g.link m' hb

/-- A change of children that nobody hears of. -/
theorem deaf_eff (m : α) (l : List β) (hi : Inv s) (hl : ¬ s.lis m = true) :
    Eff s { touch m false s with kids := Function.update s.kids m l } := by
  refine ⟨⟨fun hx => ?_, hi.seen, hi.removing⟩, rfl, rfl, fun hx => (touch_mixed hx).1, fun hx => ?_⟩
  · obtain ⟨a, b, -⟩ := touch_mixed (s := s) (m := m) (b := false) hx
    have g := hi.good a
    have hm : m ∉ s.mast := fun h => hl ((g.lis m).2 h)
    refine ⟨g.nodup, g.items, fun m' hb => ?_, g.lis, g.src, g.busy⟩
    by_cases e : m' = m
    · subst e
      have := g.link m' b
      rw [if_neg hm] at this
      change s.ch m' = if m' ∈ s.mast then _ else []
      rw [if_neg hm]
      exact this
    · change s.ch m' = if m' ∈ s.mast then Function.update s.kids m l m' else []
      rw [Function.update_of_ne e]
      exact g.link m' hb
  · obtain ⟨a, b, -⟩ := touch_mixed (s := s) (m := m) (b := false) hx
    refine ⟨fun m' hm' => ⟨rfl, ?_⟩, fun _ => ⟨rfl, rfl⟩⟩
    change Function.update s.kids m l m' = _
    have hne : m' ≠ m := fun e => b (e ▸ hm')
    rw [Function.update_of_ne hne]

theorem insertChild_eff (h : Ok ex) (n : ℕ) (m : α) (i : ℕ) (c : β) (s : St α β M) (r : St α β M × Bool) (hi : Inv s)
    (he : body u n ex (.insertChild m i c) s = some r) : Eff s r.1 := by
  simp only [body] at he
  split at he
  swap
  · cases he
    exact .refl hi
  rename_i hlen
  rw [Option.bind_eq_some_iff] at he
  obtain ⟨t, h1, h2⟩ := he
  suffices H : Eff s t from H.trans (others_eff h _ (t, false) _ H.inv h2)
  split at h1
  · rename_i hl
    have st := childInserted_step h m c i
      { touch m false s with kids := Function.update s.kids m (Py.insert (s.kids m) i c) } t (fun hx => (ready_kids m _ hi hl hx).1) hi.seen hi.removing
      (fun hx => by
        change i ≤ (s.ch m).length
        rw [(ready_kids m [] hi hl hx).2]
        exact hlen)
      (fun hx => .inr (by
        change Py.insert (s.ch m) i c = Function.update s.kids m _ m
        rw [Function.update_self, (ready_kids m [] hi hl hx).2])) h1
    refine st.eff rfl rfl fun hx => ?_
    obtain ⟨a, b, -⟩ := touch_mixed (s := s) (m := m) (b := false) hx
    refine ⟨a, b, fun m' hm' => ⟨rfl, ?_⟩, rfl, rfl⟩
    change Function.update s.kids m _ m' = _
    have hne : m' ≠ m := fun e => b (e ▸ hm')
    rw [Function.update_of_ne hne]
  · rename_i hl
    cases h1
    exact deaf_eff m _ hi hl

theorem removeChild_eff (h : Ok ex) (n : ℕ) (m : α) (i : ℕ) (s : St α β M) (r : St α β M × Bool) (hi : Inv s)
    (he : body u n ex (.removeChild m i) s = some r) : Eff s r.1 := by
  simp only [body] at he
  split at he
  swap
  · cases he
    exact .refl hi
  rename_i c hc
  obtain ⟨hlen, -⟩ := List.getElem?_eq_some_iff.1 hc
  rw [Option.bind_eq_some_iff] at he
  obtain ⟨q, h1, h2⟩ := he
  suffices H : Eff s q.1 from H.trans (others_eff h _ q _ H.inv h2)
  split at h1
  · rename_i hl
    obtain ⟨st, -⟩ := childRemoved_step h m c i
      { touch m false s with kids := Function.update s.kids m ((s.kids m).eraseIdx i) } q (fun hx => (ready_kids m _ hi hl hx).1) hi.seen hi.removing
      (fun hx => by
        change i < (s.ch m).length
        rw [(ready_kids m [] hi hl hx).2]
        exact hlen)
      (fun hx => .inr (by
        change (s.ch m).eraseIdx i = Function.update s.kids m _ m
        rw [Function.update_self, (ready_kids m [] hi hl hx).2])) h1
    refine st.eff rfl rfl fun hx => ?_
    obtain ⟨a, b, -⟩ := touch_mixed (s := s) (m := m) (b := false) hx
    refine ⟨a, b, fun m' hm' => ⟨rfl, ?_⟩, rfl, rfl⟩
    change Function.update s.kids m _ m' = _
    have hne : m' ≠ m := fun e => b (e ▸ hm')
    rw [Function.update_of_ne hne]
  · rename_i hl
    cases h1
    exact deaf_eff m _ hi hl

theorem body_ok (n : ℕ) (h : Ok ex) : Ok (body u n ex) := by
  intro a s r hi he
  cases a with
  | insertMaster i m => exact insertMaster_eff h n i m s r hi he
  | removeMaster i => exact removeMaster_eff h n i s r hi he
  | insertChild m i c => exact insertChild_eff h n m i c s r hi he
  | removeChild m i => exact removeChild_eff h n m i s r hi he

theorem exec_ok (u : Users ι α β M) : ∀ n, Ok (exec u n)
  | 0 => fun a s r _ he => by simp [exec] at he
  | n + 1 => fun a s r hi he => body_ok n (exec_ok u n) a s r hi he

theorem run_eff (h : Ok ex) (as : List (Act α β)) (s t : St α β M) (hi : Inv s) (he : run ex as s = some t) : Eff s t := by
  induction as generalizing s with
  | nil =>
    simp only [run, Option.some.injEq] at he
    exact he ▸ .refl hi
  | cons a as ih =>
    simp only [run, Option.bind_eq_some_iff] at he
    obtain ⟨r, h1, h2⟩ := he
    have e := h a s r hi h1
    exact e.trans (ih _ e.inv h2)

theorem start_inv (src : List α) (hs : src.Nodup) (kids : α → List β) (m : M) : Inv (start src kids m) := by
  refine ⟨fun _ => ⟨hs, ?_, fun _ _ => rfl, fun x => by simp [start], fun _ => rfl, fun x hx => by simp [start] at hx⟩,
    fun w hw => by simp [start] at hw, fun h => by simp [start] at h⟩
  simp only [start]
  apply List.flatMap_congr
  intro x hx
  rw [if_pos hx]

/-- C183 (partial: no master item was changed while it was being inserted or removed, and none was inserted or removed while one was being
removed): whatever observers do when they are told, the flattened list has the children of the master items in order when the acts have
returned, and whenever an observer was told while no master item was being inserted or removed. -/
theorem C183_items_partial (u : Users ι α β M) (src : List α) (hs : src.Nodup) (kids : α → List β) (m : M) (n : ℕ) (as : List (Act α β))
    (s : St α β M) (h : run (exec u n) as (start src kids m) = some s) :
    (s.mixed = false → s.items = s.src.flatMap s.kids) ∧ ∀ w ∈ s.seen, w.2.2 = w.1.flatMap w.2.1 := by
  have e := run_eff (exec_ok u n) as _ s (start_inv src hs kids m) h
  exact ⟨fun hx => e.inv.right hx e.busy, e.inv.seen⟩

/-! #### Observers that keep away from what is being changed -/

/-- What observers may do: insert master items that are not among `d`, and change the children of those that are. -/
def Inner (d : α → Prop) : Act α β → Prop
  | .insertMaster _ m => ¬ d m
  | .removeMaster _ => False
  | .insertChild m _ _ => d m
  | .removeChild m _ => d m

/-- What users may do: insert master items that are not among `d`, and change all children. -/
def Outer (d : α → Prop) : Act α β → Prop
  | .insertMaster _ m => ¬ d m
  | .removeMaster _ => False
  | .insertChild .. => True
  | .removeChild .. => True

structure Calm (d : α → Prop) (s : St α β M) : Prop where
  mixed : s.mixed = false
  removing : s.removing = false
  busy : ∀ m ∈ s.busy, ¬ d m ∧ m ∈ s.src

structure CEff (s t : St α β M) : Prop where
  mixed : s.mixed = false → t.mixed = false
  removing : t.removing = s.removing
  busy : t.busy = s.busy
  src : s.src ⊆ t.src

theorem CEff.refl (s : St α β M) : CEff s s := ⟨id, rfl, rfl, List.Subset.refl _⟩

theorem CEff.trans {r : St α β M} (h1 : CEff s t) (h2 : CEff t r) : CEff s r :=
  ⟨fun h => h2.mixed (h1.mixed h), h2.removing.trans h1.removing, h2.busy.trans h1.busy, List.Subset.trans h1.src h2.src⟩

theorem CEff.calm {d : α → Prop} (h : CEff s t) (hc : Calm d s) : Calm d t :=
  ⟨h.mixed hc.mixed, h.removing.trans hc.removing, fun m hm => by
    rw [h.busy] at hm
    exact ⟨(hc.busy m hm).1, h.src (hc.busy m hm).2⟩⟩

def COk (d : α → Prop) (ex : Exec α β M) : Prop := ∀ a s r, Inner d a → Calm d s → ex a s = some r → CEff s r.1

section Calm

variable {d : α → Prop} (hu : ∀ i e s, ∀ a ∈ (u.react i e s).acts, Inner d a)
include hu

theorem acts_calm (h : COk d ex) (as : List (Act α β)) (ha : ∀ a ∈ as, Inner d a) (s : St α β M) (r : St α β M × Bool) (hc : Calm d s)
    (he : acts ex as s = some r) : CEff s r.1 := by
  induction as generalizing s with
  | nil =>
    simp only [acts, Option.some.injEq] at he
    exact he ▸ .refl s
  | cons a as ih =>
    simp only [acts, Option.bind_eq_some_iff] at he
    obtain ⟨r1, h1, h2⟩ := he
    have e := h a s r1 (ha a (by simp)) hc h1
    split at h2
    · cases h2
      exact e
    · exact e.trans (ih (fun b hb => ha b (List.mem_cons_of_mem _ hb)) _ (e.calm hc) h2)

theorem fireL_calm (h : COk d ex) (e : Ev α β) (is : List ι) (s t : St α β M) (hc : Calm d s) (he : fireL u ex e is s = some t) :
    CEff s t := by
  induction is generalizing s with
  | nil =>
    simp only [fireL, Option.some.injEq] at he
    exact he ▸ .refl s
  | cons i is ih =>
    simp only [fireL, tell, Option.bind_eq_some_iff, Option.map_eq_some_iff] at he
    obtain ⟨r1, ⟨q, h1, rfl⟩, h2⟩ := he
    have k : CEff s (look (u.react i e s).mem s) := ⟨id, rfl, rfl, List.Subset.refl _⟩
    have k2 := k.trans (acts_calm hu h _ (hu i e s) _ q (k.calm hc) h1)
    split at h2
    · cases h2
      exact k2
    · exact k2.trans (ih _ (k2.calm hc) h2)

theorem childInserted_calm (h : COk d ex) (m : α) (c : β) (i : ℕ) (s t : St α β M) (hc : Calm d s)
    (he : childInserted u ex m c i s = some t) : CEff s t := by
  have k : CEff s { s with ch := Function.update s.ch m (Py.insert (s.ch m) i c), items := Py.insert s.items (index m i s) c } :=
    ⟨id, rfl, rfl, List.Subset.refl _⟩
  exact k.trans (fireL_calm hu h _ _ _ t (k.calm hc) he)

theorem childRemoved_calm (h : COk d ex) (m : α) (c : β) (i : ℕ) (s : St α β M) (r : St α β M × Bool) (hc : Calm d s)
    (he : childRemoved u ex m c i s = some r) : CEff s r.1 := by
  unfold childRemoved at he
  split at he
  · split at he
    · rw [Option.map_eq_some_iff] at he
      obtain ⟨t, h1, rfl⟩ := he
      have k : CEff s { s with ch := Function.update s.ch m ((s.ch m).eraseIdx i), items := s.items.eraseIdx (index m i s) } :=
        ⟨id, rfl, rfl, List.Subset.refl _⟩
      exact k.trans (fireL_calm hu h _ _ _ t (k.calm hc) h1)
    · cases he
      exact ⟨id, rfl, rfl, List.Subset.refl _⟩
  · cases he
    exact .refl s

theorem insertKids_calm (h : COk d ex) (m : α) (n k : ℕ) (s t : St α β M) (hc : Calm d s) (he : insertKids u ex m n k s = some t) :
    CEff s t := by
  induction n generalizing s k with
  | zero => simp [insertKids] at he
  | succ n ih =>
    simp only [insertKids] at he
    split at he
    · cases he
      exact .refl _
    · rw [Option.bind_eq_some_iff] at he
      obtain ⟨t1, h1, h2⟩ := he
      have e := childInserted_calm hu h m _ k s t1 hc h1
      exact e.trans (ih (k + 1) t1 (e.calm hc) h2)

theorem others_calm (h : COk d ex) (e : Ev α β) (r q : St α β M × Bool) (hc : Calm d r.1) (he : others u ex e r = some q) :
    CEff r.1 q.1 := by
  unfold others at he
  split at he
  · cases he
    exact .refl _
  · rw [Option.map_eq_some_iff] at he
    obtain ⟨t, h1, rfl⟩ := he
    exact fireL_calm hu h e _ _ _ hc h1

theorem body_calm (h : COk d ex) (n : ℕ) (a : Act α β) (s : St α β M) (r : St α β M × Bool)
    (ha : Inner d a ∨ Outer d a ∧ s.busy = []) (hc : Calm d s) (he : body u n ex a s = some r) : CEff s r.1 := by
  cases a with
  | removeMaster i =>
    rcases ha with ha | ha
    · exact absurd ha id
    · exact absurd ha.1 id
  | insertMaster i m =>
    have hd : ¬ d m := by
      rcases ha with ha | ha
      · exact ha
      · exact ha.1
    simp only [body] at he
    split at he
    · cases he
      exact .refl s
    · rename_i hsrc
      rw [Option.bind_eq_some_iff] at he
      obtain ⟨r1, h1, h2⟩ := he
      suffices H : CEff s r1.1 from H.trans (others_calm hu h _ _ _ (H.calm hc) h2)
      have hb : m ∉ s.busy := fun hm => hsrc (hc.busy m hm).2
      have hx : (touch m true s).mixed = false := by
        simp [touch, hc.mixed, hb, hc.removing]
      have hsub : s.src ⊆ Py.insert s.src i m := fun x hx => (mem_pyInsert _ _ _ _).2 (.inr hx)
      unfold masterInserted at h1
      split at h1
      · cases h1
        exact ⟨fun _ => hx, rfl, rfl, hsub⟩
      · rw [Option.map_eq_some_iff] at h1
        obtain ⟨t, h1, rfl⟩ := h1
        have e := insertKids_calm hu h m n 0 _ t (by
          refine ⟨hx, hc.removing, fun m' hm' => ?_⟩
          rcases List.mem_cons.1 hm' with rfl | hm'
          · exact ⟨hd, mem_pyInsert' _ _ _⟩
          · exact ⟨(hc.busy m' hm').1, hsub (hc.busy m' hm').2⟩) h1
        exact ⟨fun _ => e.mixed hx, e.removing, rfl, List.Subset.trans hsub e.src⟩
  | insertChild m i c =>
    have hb : m ∉ s.busy := by
      rcases ha with ha | ha
      · exact fun hm => (hc.busy m hm).1 ha
      · rw [ha.2]
        simp
    simp only [body] at he
    split at he
    swap
    · cases he
      exact .refl s
    rw [Option.bind_eq_some_iff] at he
    obtain ⟨t, h1, h2⟩ := he
    suffices H : CEff s t from H.trans (others_calm hu h _ (t, false) _ (H.calm hc) h2)
    have k : CEff s { touch m false s with kids := Function.update s.kids m (Py.insert (s.kids m) i c) } :=
      ⟨fun _ => by simp [touch, hc.mixed, hb], rfl, rfl, List.Subset.refl _⟩
    split at h1
    · exact k.trans (childInserted_calm hu h m c i _ t (k.calm hc) h1)
    · cases h1
      exact k
  | removeChild m i =>
    have hb : m ∉ s.busy := by
      rcases ha with ha | ha
      · exact fun hm => (hc.busy m hm).1 ha
      · rw [ha.2]
        simp
    simp only [body] at he
    split at he
    swap
    · cases he
      exact .refl s
    rename_i c hget
    rw [Option.bind_eq_some_iff] at he
    obtain ⟨q, h1, h2⟩ := he
    suffices H : CEff s q.1 from H.trans (others_calm hu h _ q _ (H.calm hc) h2)
    have k : CEff s { touch m false s with kids := Function.update s.kids m ((s.kids m).eraseIdx i) } :=
      ⟨fun _ => by simp [touch, hc.mixed, hb], rfl, rfl, List.Subset.refl _⟩
    split at h1
    · exact k.trans (childRemoved_calm hu h m c i _ q (k.calm hc) h1)
    · cases h1
      exact k

theorem exec_calm : ∀ n, COk d (exec u n)
  | 0 => fun a s r _ _ he => by simp [exec] at he
  | n + 1 => fun a s r ha hc he => body_calm hu (exec_calm n) n a s r (.inl ha) hc he

theorem run_calm (n : ℕ) (as : List (Act α β)) (ha : ∀ a ∈ as, Outer d a) (s t : St α β M) (hc : Calm d s) (hb : s.busy = [])
    (he : run (exec u n) as s = some t) : CEff s t := by
  induction as generalizing s with
  | nil =>
    simp only [run, Option.some.injEq] at he
    exact he ▸ .refl s
  | cons a as ih =>
    simp only [run, Option.bind_eq_some_iff] at he
    obtain ⟨r, h1, h2⟩ := he
    cases n with
    | zero => simp [exec] at h1
    | succ n =>
      have e := body_calm hu (exec_calm hu n) n a s r (.inr ⟨ha a (by simp), hb⟩) hc h1
      exact e.trans (ih (fun b hb => ha b (List.mem_cons_of_mem _ hb)) _ (e.calm hc) (e.busy.trans hb) h2)

end Calm

/-- C183: the flattened list has the children of the master items in order, if no master items are removed, observers insert master items,
and change children only of master items that nobody inserts. -/
theorem C183_apart (u : Users ι α β M) (d : α → Prop) (hu : ∀ i e s, ∀ a ∈ (u.react i e s).acts, Inner d a) (src : List α) (hs : src.Nodup)
    (kids : α → List β) (m : M) (n : ℕ) (as : List (Act α β)) (ha : ∀ a ∈ as, Outer d a) (s : St α β M)
    (h : run (exec u n) as (start src kids m) = some s) : s.items = s.src.flatMap s.kids := by
  refine (C183_items_partial u src hs kids m n as s h).1 ?_
  exact (run_calm hu n as ha _ s ⟨rfl, rfl, fun x hx => by simp [start] at hx⟩ rfl h).mixed rfl

/-- C183: calls raise just if they remove what is not there; what observers and the flattened list model do is not seen. -/
theorem C183_raises (u : Users ι α β M) (n : ℕ) (a : Act α β) (s : St α β M) (r : St α β M × Bool) (h : exec u n a s = some r) :
    r.2 = true ↔ (∃ i, a = .removeMaster i ∧ s.src.length ≤ i) ∨ ∃ m i, a = .removeChild m i ∧ (s.kids m).length ≤ i := by
  have ev : ∀ n e q, others u (exec u n) e q = some r → r.2 = false := by
    intro n e q hq
    unfold others at hq
    split at hq
    · cases hq
      rfl
    · rw [Option.map_eq_some_iff] at hq
      obtain ⟨t, -, rfl⟩ := hq
      rfl
  cases n with
  | zero => simp [exec] at h
  | succ n =>
    cases a with
    | insertMaster i m =>
      simp only [exec, body] at h
      split at h
      · cases h
        simp
      · rw [Option.bind_eq_some_iff] at h
        obtain ⟨q, -, h2⟩ := h
        simp [ev _ _ q h2]
    | removeMaster i =>
      simp only [exec, body] at h
      split at h
      · rename_i m hm
        rw [Option.bind_eq_some_iff] at h
        obtain ⟨q, -, h2⟩ := h
        simp [ev _ _ q h2, (List.getElem?_eq_some_iff.1 hm).1]
      · rename_i hm
        cases h
        simpa using hm
    | insertChild m i c =>
      simp only [exec, body] at h
      split at h
      · rw [Option.bind_eq_some_iff] at h
        obtain ⟨q, -, h2⟩ := h
        simp [ev _ _ _ h2]
      · cases h
        simp
    | removeChild m i =>
      simp only [exec, body] at h
      split at h
      · rename_i c hc
        rw [Option.bind_eq_some_iff] at h
        obtain ⟨q, -, h2⟩ := h
        simp [ev _ _ q h2, (List.getElem?_eq_some_iff.1 hc).1]
      · rename_i hc
        cases h
        simpa using hc

/-! ### What observers are told -/

/-- The observer `i0` is told first, notes what it is told and does nothing else; the others leave its notes alone. -/
structure Users.Noting (u : Users ι α β M) (notes : M → List (Ev α β)) (i0 : ι) : Prop where
  obs : ∀ e, ∃ is, u.obs e = i0 :: is ∧ i0 ∉ is
  note : ∀ e s, notes (u.react i0 e s).mem = notes s.mem ++ [e] ∧ (u.react i0 e s).acts = [] ∧ (u.react i0 e s).raises = false
  others : ∀ i e s, i ≠ i0 → notes (u.react i e s).mem = notes s.mem

/-- What the notes make of a list of the items. -/
def kept : List (Ev α β) → List β → Option (List β)
  | [], l => some l
  | .inserted c i :: es, l => kept es (l.take i ++ c :: l.drop i)
  | .removed _ i :: es, l => if i < l.length then kept es (l.take i ++ l.drop (i + 1)) else none
  | _ :: es, l => kept es l

theorem kept_append (es fs : List (Ev α β)) (l : List β) : kept (es ++ fs) l = (kept es l).bind (kept fs) := by
  induction es generalizing l with
  | nil => rfl
  | cons e es ih =>
    cases e <;> simp only [List.cons_append, kept, ih]
    split <;> rfl

/-- What was noted since makes the items of what they were. -/
def Noted (notes : M → List (Ev α β)) (m : M) (items : List β) (t : St α β M) : Prop :=
  ∃ es, notes t.mem = notes m ++ es ∧ kept es items = some t.items

variable {notes : M → List (Ev α β)} {i0 : ι}

theorem Noted.refl (s : St α β M) : Noted notes s.mem s.items s := ⟨[], by simp, rfl⟩

theorem Noted.trans {m : M} {l : List β} {t r : St α β M} (h : Noted notes m l t) (k : Noted notes t.mem t.items r) : Noted notes m l r := by
  obtain ⟨e1, a1, a2⟩ := h
  obtain ⟨e2, b1, b2⟩ := k
  exact ⟨e1 ++ e2, by rw [b1, a1, List.append_assoc], by rw [kept_append, a2]; exact b2⟩

/-- Nested acts are noted. -/
def Notes (notes : M → List (Ev α β)) (ex : Exec α β M) : Prop := ∀ a s r, ex a s = some r → Noted notes s.mem s.items r.1

theorem acts_noted {ex : Exec α β M} (he : Notes notes ex) (as : List (Act α β)) (s : St α β M) (r : St α β M × Bool)
    (h : acts ex as s = some r) : Noted notes s.mem s.items r.1 := by
  induction as generalizing s with
  | nil => cases h; exact .refl _
  | cons a as ih =>
    simp only [acts, Option.bind_eq_some_iff] at h
    obtain ⟨q, h1, h2⟩ := h
    split at h2
    · cases h2; exact he _ _ _ h1
    · exact (he _ _ _ h1).trans (ih _ h2)

theorem fireL_noted {u : Users ι α β M} (hu : u.Noting notes i0) {ex : Exec α β M} (he : Notes notes ex) (e : Ev α β) (is : List ι) (hi : i0 ∉ is)
    (s t : St α β M) (h : fireL u ex e is s = some t) : Noted notes s.mem s.items t := by
  induction is generalizing s with
  | nil => cases h; exact .refl _
  | cons i is ih =>
    simp only [List.mem_cons, not_or] at hi
    simp only [fireL, tell, Option.bind_eq_some_iff, Option.map_eq_some_iff] at h
    obtain ⟨r, ⟨q, h1, rfl⟩, h2⟩ := h
    have k1 := acts_noted he _ _ _ h1
    have k2 : Noted notes s.mem s.items q.1 := by
      obtain ⟨es, a1, a2⟩ := k1
      refine ⟨es, a1.trans ?_, a2⟩
      simp only [look]
      rw [hu.others i e s (fun h => hi.1 h.symm)]
    dsimp only at h2
    split at h2
    · cases h2; exact k2
    · exact k2.trans (ih hi.2 _ h2)

theorem fire_noted {u : Users ι α β M} (hu : u.Noting notes i0) {ex : Exec α β M} (he : Notes notes ex) {e : Ev α β} {s t : St α β M}
    {l : List β} (h : fire u ex e s = some t) (hl : kept [e] l = some s.items) : Noted notes s.mem l t := by
  obtain ⟨is, h1, h2⟩ := hu.obs e
  obtain ⟨n1, n2, n3⟩ := hu.note e s
  simp only [fire] at h
  rw [h1] at h
  simp only [fireL, tell] at h
  rw [n2, n3] at h
  simp only [acts, Option.map_some, Option.bind_some, Bool.or_false, Bool.false_eq_true, if_false] at h
  obtain ⟨es, a1, a2⟩ := fireL_noted hu he e is h2 _ t h
  refine ⟨[e] ++ es, ?_, ?_⟩
  · rw [a1]
    simp only [look]
    rw [n1, List.append_assoc]
  · rw [kept_append, hl]; exact a2

theorem take_drop_insert (l : List β) (i : ℕ) (v : β) : Py.insert l (i : ℤ) v = l.take i ++ v :: l.drop i := by
  by_cases h : i ≤ l.length
  · rw [Py.insert_nat h]
    induction l generalizing i with
    | nil =>
      have : i = 0 := Nat.le_zero.mp h
      subst this; rfl
    | cons y l ih =>
      cases i with
      | zero => rfl
      | succ i =>
        simp only [List.insertIdx_succ_cons, List.take_succ_cons, List.drop_succ_cons, List.cons_append]
        rw [ih i (Nat.le_of_succ_le_succ h)]
  · have h' : l.length ≤ i := by omega
    rw [List.take_of_length_le h', List.drop_eq_nil_of_le h']
    have : Py.insertPos l.length (i : ℤ) = l.length := by unfold Py.insertPos; split <;> omega
    unfold Py.insert
    rw [this]
    simp

theorem childInserted_noted {u : Users ι α β M} (hu : u.Noting notes i0) {ex : Exec α β M} (he : Notes notes ex) {m : α} {c : β} {i : ℕ}
    {s t : St α β M} (h : childInserted u ex m c i s = some t) : Noted notes s.mem s.items t := by
  simp only [childInserted] at h
  have k := fire_noted hu he (l := s.items) h (by simp only [kept, take_drop_insert])
  exact k

theorem childRemoved_noted {u : Users ι α β M} (hu : u.Noting notes i0) {ex : Exec α β M} (he : Notes notes ex) {m : α} {c : β} {i : ℕ}
    {s : St α β M} {r : St α β M × Bool} (h : childRemoved u ex m c i s = some r) : Noted notes s.mem s.items r.1 := by
  simp only [childRemoved] at h
  split at h
  · split at h
    · rename_i hl
      rw [Option.map_eq_some_iff] at h
      obtain ⟨t, h1, rfl⟩ := h
      have k := fire_noted hu he (l := s.items) h1 (by
        simp only [kept]
        rw [if_pos hl, List.eraseIdx_eq_take_drop_succ])
      exact k
    · cases h; exact .refl s
  · cases h; exact .refl _

theorem insertKids_noted {u : Users ι α β M} (hu : u.Noting notes i0) {ex : Exec α β M} (he : Notes notes ex) {m : α} (n k : ℕ)
    (s t : St α β M) (h : insertKids u ex m n k s = some t) : Noted notes s.mem s.items t := by
  induction n generalizing k s with
  | zero => cases h
  | succ n ih =>
    simp only [insertKids] at h
    split at h
    · cases h; exact .refl _
    · rw [Option.bind_eq_some_iff] at h
      obtain ⟨q, h1, h2⟩ := h
      exact (childInserted_noted hu he h1).trans (ih _ _ h2)

theorem removeKids_noted {u : Users ι α β M} (hu : u.Noting notes i0) {ex : Exec α β M} (he : Notes notes ex) {m : α} (cs : List β) (n : ℕ)
    (s : St α β M) (r : St α β M × Bool) (h : removeKids u ex m cs n s = some r) : Noted notes s.mem s.items r.1 := by
  induction n generalizing s with
  | zero => cases h; exact .refl _
  | succ n ih =>
    simp only [removeKids] at h
    split at h
    · cases h; exact .refl _
    · rw [Option.bind_eq_some_iff] at h
      obtain ⟨q, h1, h2⟩ := h
      have k1 := childRemoved_noted hu he h1
      split at h2
      · cases h2; exact k1
      · exact k1.trans (ih _ h2)

theorem others_noted {u : Users ι α β M} (hu : u.Noting notes i0) {ex : Exec α β M} (he : Notes notes ex) {e : Ev α β}
    (hk : ∀ l, kept [e] l = some l) {q r : St α β M × Bool} (h : FlattenedReentrant.others u ex e q = some r) :
    Noted notes q.1.mem q.1.items r.1 := by
  simp only [FlattenedReentrant.others] at h
  split at h
  · cases h; exact .refl _
  · rw [Option.map_eq_some_iff] at h
    obtain ⟨t, h1, rfl⟩ := h
    exact fire_noted hu he h1 (hk _)

theorem body_noted {u : Users ι α β M} (hu : u.Noting notes i0) {ex : Exec α β M} (he : Notes notes ex) (n : ℕ) :
    Notes notes (body u n ex) := by
  intro a s r h
  cases a with
  | insertMaster i m =>
    simp only [body] at h
    split at h
    · cases h; exact .refl _
    · rw [Option.bind_eq_some_iff] at h
      obtain ⟨q, h1, h2⟩ := h
      have k1 : Noted notes s.mem s.items q.1 := by
        simp only [masterInserted] at h1
        split at h1
        · cases h1; exact .refl s
        · rw [Option.map_eq_some_iff] at h1
          obtain ⟨t, h3, rfl⟩ := h1
          have k := insertKids_noted hu he _ _ _ _ h3
          exact k
      exact k1.trans (others_noted hu he (fun _ => rfl) h2)
  | removeMaster i =>
    simp only [body] at h
    split at h
    · rw [Option.bind_eq_some_iff] at h
      obtain ⟨q, h1, h2⟩ := h
      have k1 : Noted notes s.mem s.items q.1 := by
        simp only [masterRemoved, Option.map_eq_some_iff] at h1
        obtain ⟨x, h3, h4⟩ := h1
        have k2 := removeKids_noted hu he _ _ _ _ h3
        subst h4
        split
        · exact k2
        · simp only [masterGone]
          split
          · split <;> exact k2
          · exact k2
      exact k1.trans (others_noted hu he (fun _ => rfl) h2)
    · cases h; exact .refl _
  | insertChild m i c =>
    simp only [body] at h
    split at h
    · rw [Option.bind_eq_some_iff] at h
      obtain ⟨q, h1, h2⟩ := h
      have k1 : Noted notes s.mem s.items q := by
        split at h1
        · have k := childInserted_noted hu he h1
          exact k
        · cases h1; exact .refl s
      exact k1.trans (others_noted hu he (fun _ => rfl) h2)
    · cases h; exact .refl _
  | removeChild m i =>
    simp only [body] at h
    split at h
    · rw [Option.bind_eq_some_iff] at h
      obtain ⟨q, h1, h2⟩ := h
      have k1 : Noted notes s.mem s.items q.1 := by
        split at h1
        · have k := childRemoved_noted hu he h1
          exact k
        · cases h1; exact .refl s
      exact k1.trans (others_noted hu he (fun _ => rfl) h2)
    · cases h; exact .refl _

/-- C183: an observer that is told first and keeps a list of its own by the indexes it is told always has the items, whatever the others do. -/
theorem C183_told {u : Users ι α β M} (hu : u.Noting notes i0) (src : List α) (kids : α → List β) (m : M) (hm : notes m = []) (n : ℕ)
    (as : List (Act α β)) (s : St α β M) (h : run (exec u n) as (start src kids m) = some s) :
    kept (notes s.mem) (src.flatMap kids) = some s.items := by
  have hex : ∀ n, Notes notes (exec u n) := by
    intro n
    induction n with
    | zero => intro a s r h; cases h
    | succ n ih => exact body_noted hu ih n
  have main : ∀ (as : List (Act α β)) (r : St α β M), run (exec u n) as r = some s → Noted notes r.mem r.items s := by
    intro as
    induction as with
    | nil => intro r hr; cases hr; exact .refl _
    | cons a as ih =>
      intro r hr
      simp only [run, Option.bind_eq_some_iff] at hr
      obtain ⟨q, h1, h2⟩ := hr
      exact (hex n a r q h1).trans (ih q.1 h2)
  obtain ⟨es, e1, e2⟩ := main as _ h
  have : notes s.mem = es := by rw [e1]; show notes m ++ es = es; rw [hm]; rfl
  rw [this]
  exact e2

/-- The children of 1, 2, 3. -/
def exKids : ℕ → List ℕ
  | 1 => [10, 11]
  | 2 => [20]
  | 3 => [30]
  | _ => []

/-- One observer of everything, who acts as is said, when that is told for the first time. -/
def exUsers (f : Ev ℕ ℕ → List (Act ℕ ℕ)) : Users Unit ℕ ℕ (List (Ev ℕ ℕ)) :=
  ⟨fun _ => [()], fun _ e s => ⟨s.mem ++ [e], if e ∈ s.mem then [] else f e, false⟩⟩

def exRun (f : Ev ℕ ℕ → List (Act ℕ ℕ)) (src : List ℕ) (as : List (Act ℕ ℕ)) : Option (List ℕ × List (List ℕ) × List ℕ × Bool) :=
  (run (exec (exUsers f) 10) as (start src exKids [])).map fun s => (s.src, s.src.map s.kids, s.items, s.mixed)

/-- When a child of 1 comes, 3 is inserted before, and a child of 2 is added. -/
example : exRun (fun | .inserted 10 _ => [.insertMaster 0 3, .insertChild 2 1 21] | _ => []) [2] [.insertMaster 0 1]
    = some ([3, 1, 2], [[30], [10, 11], [20, 21]], [30, 10, 11, 20, 21], false) := by decide

example : exRun (fun | .removed 10 _ => [.removeChild 2 0] | _ => []) [1, 2] [.removeMaster 0, .insertChild 2 0 22]
    = some ([2], [[22]], [22], false) := by decide

/-- What is told when 1 is inserted before 2 and removed again; an observer that acts comes after the one that notes. -/
example : (run (exec (⟨fun _ => [true, false], fun w e s => if w then ⟨s.mem ++ [e], [], false⟩ else
      ⟨s.mem, match e with | .inserted 10 _ => [.removeChild 2 0] | _ => [], false⟩⟩ : Users Bool ℕ ℕ (List (Ev ℕ ℕ))) 10)
    [.insertMaster 0 1, .removeMaster 0] (start [2] exKids [])).map (fun s => (s.mem, s.items)) =
    some ([.inserted 10 0, .removed 20 1, .childRemoved 2 20 0, .inserted 11 1, .masterInserted 1 0,
      .removed 11 1, .removed 10 0, .masterRemoved 1 0], []) := by decide

/-- Two observers: the first removes a child that is not there, or raises; the second hears of nothing then. -/
example : (run (exec (⟨fun _ => [true, false], fun w e s => if w then
      ⟨s.mem, match e with | .inserted 11 _ => [.removeChild 2 5] | _ => [], e = .inserted 10 0⟩ else ⟨s.mem ++ [e], [], false⟩⟩ :
        Users Bool ℕ ℕ (List (Ev ℕ ℕ))) 10)
    [.insertMaster 0 1, .removeChild 1 0] (start [2] exKids [])).map (fun s => (s.mem, s.items))
    = some ([.masterInserted 1 0, .removed 10 0, .childRemoved 1 10 0], [11, 20]) := by decide

/-- An observer that removes a master item while its children are being added: the children stay. -/
theorem C183_counterexample_ghost :
    exRun (fun | .inserted 10 _ => [.removeMaster 0] | _ => []) [] [.insertMaster 0 1] = some ([], [], [10, 11], true) := by decide

/-- C183: when that master item comes again the flattened list model raises, and observers of the source after it are not told. -/
theorem C183_counterexample_again :
    (run (exec (exUsers fun | .inserted 10 _ => [.removeMaster 0] | _ => []) 10) [.insertMaster 0 1, .insertMaster 0 1]
      (start [] exKids [])).map (fun s => (s.src, s.items, s.mem.count (.masterInserted 1 0))) = some ([1], [10, 11], 1) := by decide

/-- An observer that adds a child to a master item that is being inserted: the child is there twice. -/
theorem C183_counterexample_twice :
    exRun (fun | .inserted 10 _ => [.insertChild 1 2 12] | _ => []) [] [.insertMaster 0 1]
      = some ([1], [[10, 11, 12]], [10, 11, 12, 12], true) := by decide

/-- An observer that inserts a master item before one that is being removed: the flattened list model forgets the new one and keeps the old
one, and later children are in the wrong place. -/
theorem C183_counterexample_order :
    exRun (fun | .removed 10 _ => [.insertMaster 0 3] | _ => []) [1, 2] [.removeMaster 0, .insertChild 3 1 31]
      = some ([3, 2], [[30, 31], [20]], [30, 20, 31], true) := by decide

end Verif.ListModel.FlattenedReentrant
