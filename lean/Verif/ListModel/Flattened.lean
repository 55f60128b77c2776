import Verif.ListModel.Mapped

/-!
Model of `FlattenedListModel` (`nion/utils/ListModel.py:793-916`).

The container and each master item are observable lists: they change their own list with the Python operation and then
notify. The state holds these outside lists (`source`, `kids`) beside the model's own.
Not modelled: the mutex (single thread), listeners changing lists during a notification, the setter stopping halfway with an exception
when the new container has an item twice (the theorems exclude such containers).
-/

namespace Verif.ListModel

open Verif.Py Verif.Selection

/-- `kids m`: the child list of the object `m`; `source`: the container's list; the rest is the state of
ListModel.py:795-812, `children` returning `[]` for missing entries (every use has that default, or fails the same way) and
`listening m` telling whether there are listeners on `m`. -/
structure FM (M C : Type*) where
  kids : M → List C
  source : Option (List M)
  master : List M
  children : M → List C
  listening : M → Bool
  items : List C
  sels : List Sel
  log : List (Notif C)

inductive FOp (M C : Type*) where
  | masterInsert (m : M) (i : Int)
  | masterRemove (i : Int)
  | childInsert (m : M) (c : C) (i : Int)
  | childRemove (m : M) (i : Int)
  | setContainer (c : Option (List M))
  | select (k : Nat) (o : Selection.Op)

/-- The start: objects with the child lists `kids`, no container. -/
def FM.init {M C} (kids : M → List C) (sels : List Sel) : FM M C :=
  ⟨kids, none, [], fun _ => [], fun _ => false, [], sels, []⟩

section
variable {M C : Type*} [DecidableEq M] (ord : SetOrder)

/-- ListModel.py:892-896 and 906-910: the number of children of the master items before `m`. -/
def offset (children : M → List C) (m : M) : List M → Nat
  | [] => 0
  | x :: xs => if x = m then 0 else (children x).length + offset children m xs

/-- ListModel.py:890-902 `__child_item_inserted`. The selections are told the index within the master item. -/
def FM.childInserted (s : FM M C) (m : M) (c : C) (i : Int) : FM M C :=
  let mi : Int := offset s.children m s.master + i
  { s with
    children := Function.update s.children m (Py.insert (s.children m) i c)
    items := Py.insert s.items mi c
    log := s.log ++ [.inserted c mi]
    sels := s.sels.map fun x => (insertIndex ord x i).sel }

/-- ListModel.py:904-916 `__child_item_removed`; the `IndexError`s leave what has been done before. -/
def FM.childRemoved (s : FM M C) (m : M) (c : C) (i : Int) : FM M C :=
  let mi : Int := offset s.children m s.master + i
  match Py.del? (s.children m) i with
  | none => s
  | some ch =>
    match Py.del? s.items mi with
    | none => { s with children := Function.update s.children m ch }
    | some l =>
      { s with
        children := Function.update s.children m ch
        items := l
        log := s.log ++ [.removed c mi]
        sels := s.sels.map fun x => (removeIndex ord x mi).sel }

/-- ListModel.py:872-873. -/
def FM.insertKids (s : FM M C) (m : M) : List C → Nat → FM M C
  | [], _ => s
  | c :: cs, i => (s.childInserted ord m c i).insertKids m cs (i + 1)

/-- ListModel.py:882-883, the reversed enumeration given as the list of children still to be removed. -/
def FM.removeKids (s : FM M C) (m : M) : List C → Nat → FM M C
  | _, 0 => s
  | cs, n + 1 =>
    match cs[n]? with
    | some c => (s.childRemoved ord m c n).removeKids m cs n
    | none => s

/-- ListModel.py:861-873 `__master_item_inserted`; the assertion failing leaves everything unchanged (the exception ends
in `Event.fire`). -/
def FM.masterInserted (s : FM M C) (m : M) (i : Int) : FM M C :=
  if m ∈ s.master then s
  else
    { s with master := Py.insert s.master i m, listening := Function.update s.listening m true }.insertKids ord m
      (s.kids m) 0

/-- ListModel.py:876-888 `__master_item_removed`. -/
def FM.masterRemoved (s : FM M C) (m : M) (i : Int) : FM M C :=
  let s := s.removeKids ord m (s.kids m) (s.kids m).length
  match Py.del? s.master i with
  | some l => { s with master := l, listening := Function.update s.listening m false }
  | none => s

/-- ListModel.py:842-843. -/
def FM.removeAll (s : FM M C) : List M → FM M C
  | [] => s
  | m :: ms => (s.masterRemoved ord m (s.master.length - 1 : Int)).removeAll ms

/-- ListModel.py:849-850. -/
def FM.insertAll (s : FM M C) : List M → Nat → FM M C
  | [], _ => s
  | m :: ms, i => (s.masterInserted ord m i).insertAll ms (i + 1)

/-- ListModel.py:834-850 `container` setter. -/
def FM.setContainer (s : FM M C) (c : Option (List M)) : FM M C :=
  let s := s.removeAll ord (s.source.getD []).reverse
  { s with source := c }.insertAll ord (c.getD []) 0

/-- One event: the container or a master item changes its list and notifies, or a call by the user. -/
def FM.step (s : FM M C) : FOp M C → FM M C
  | .masterInsert m i =>
    match s.source with
    | some l => { s with source := some (Py.insert l i m) }.masterInserted ord m i
    | none => s
  | .masterRemove i =>
    match s.source with
    | some l =>
      match Py.get? l i, Py.del? l i with
      | some m, some l' => { s with source := some l' }.masterRemoved ord m i
      | _, _ => s
    | none => s
  | .childInsert m c i =>
    let t := { s with kids := Function.update s.kids m (Py.insert (s.kids m) i c) }
    if s.listening m then t.childInserted ord m c i else t
  | .childRemove m i =>
    match Py.get? (s.kids m) i, Py.del? (s.kids m) i with
    | some c, some l =>
      let t := { s with kids := Function.update s.kids m l }
      if s.listening m then t.childRemoved ord m c i else t
    | _, _ => s
  | .setContainer c => s.setContainer ord c
  | .select k o => { s with sels := s.sels.modify k fun x => (Selection.step ord x o).sel }

def FM.run (s : FM M C) (ops : List (FOp M C)) : FM M C := ops.foldl (fun s o => s.step ord o) s

end

/-! ### Lemmas -/

section
variable {M C : Type*} [DecidableEq M] (ord : SetOrder)

theorem offset_eq (children : M → List C) (m : M) (pre post : List M) (h : m ∉ pre) :
    offset children m (pre ++ m :: post) = (pre.flatMap children).length := by
  induction pre with
  | nil => simp [offset]
  | cons x pre ih =>
    simp only [List.mem_cons, not_or] at h
    simp only [List.cons_append, offset, if_neg (Ne.symm h.1), ih h.2, List.flatMap_cons, List.length_append]

theorem flatMap_update {children : M → List C} {m : M} {l : List C} {xs : List M} (h : m ∉ xs) :
    xs.flatMap (Function.update children m l) = xs.flatMap children := by
  induction xs with
  | nil => rfl
  | cons x xs ih =>
    simp only [List.mem_cons, not_or] at h
    rw [List.flatMap_cons, List.flatMap_cons, ih h.2, Function.update_of_ne (Ne.symm h.1)]

theorem insertIdx_middle {α} (a b c : List α) (k : Nat) (hk : k ≤ b.length) (x : α) :
    (a ++ b ++ c).insertIdx (a.length + k) x = a ++ b.insertIdx k x ++ c := by
  induction a with
  | nil =>
    simp only [List.nil_append, List.length_nil, Nat.zero_add]
    induction b generalizing k with
    | nil =>
      have : k = 0 := by simpa using hk
      subst this; simp
    | cons y b ih =>
      cases k with
      | zero => simp
      | succ k => simpa using ih k (by simpa using hk)
  | cons y a ih =>
    have e : (y :: a).length + k = (a.length + k) + 1 := by simp; omega
    rw [e]
    simpa using ih

theorem eraseIdx_middle {α} (a b c : List α) (k : Nat) (hk : k < b.length) :
    (a ++ b ++ c).eraseIdx (a.length + k) = a ++ b.eraseIdx k ++ c := by
  induction a with
  | nil =>
    simp only [List.nil_append, List.length_nil, Nat.zero_add]
    exact List.eraseIdx_append_of_lt_length hk c
  | cons y a ih =>
    have e : (y :: a).length + k = (a.length + k) + 1 := by simp; omega
    rw [e]
    simpa using ih

/-- The part of the invariant that holds during an update too. -/
structure FCore (s : FM M C) : Prop where
  nodup : s.master.Nodup
  items : s.items = s.master.flatMap s.children
  replay : Replays [] s.log s.items

/-- Where the children of `m` are. -/
theorem FCore.split {s : FM M C} (h : FCore s) {m : M} (hm : m ∈ s.master) :
    ∃ pre post, s.master = pre ++ m :: post ∧ m ∉ pre ∧ m ∉ post ∧
      s.items = pre.flatMap s.children ++ s.children m ++ post.flatMap s.children ∧
      offset s.children m s.master = (pre.flatMap s.children).length := by
  obtain ⟨pre, post, e⟩ := List.append_of_mem hm
  have hnd := h.nodup
  rw [e, List.nodup_append] at hnd
  have h1 : m ∉ pre := fun hp => hnd.2.2 m hp m (by simp) rfl
  have h2 : m ∉ post := (List.nodup_cons.1 hnd.2.1).1
  refine ⟨pre, post, e, h1, h2, ?_, ?_⟩
  · rw [h.items, e]; simp [List.flatMap_append, List.flatMap_cons]
  · rw [e]; exact offset_eq _ _ _ _ h1

theorem FCore.childInserted {s : FM M C} (h : FCore s) {m : M} (hm : m ∈ s.master) (c : C) {k : Nat}
    (hk : k ≤ (s.children m).length) :
    FCore (s.childInserted ord m c k) ∧
    (s.childInserted ord m c k).children = Function.update s.children m ((s.children m).insertIdx k c) := by
  obtain ⟨pre, post, e1, h1, h2, e2, e3⟩ := h.split hm
  have hpos : ((offset s.children m s.master : Nat) : Int) + (k : Int) =
      (((pre.flatMap s.children).length + k : Nat) : Int) := by rw [e3]; push_cast; rfl
  have hle : (pre.flatMap s.children).length + k ≤ s.items.length := by rw [e2]; simp; omega
  refine ⟨⟨h.nodup, ?_, ?_⟩, ?_⟩
  · simp only [FM.childInserted]
    rw [hpos, Py.insert_nat hle, Py.insert_nat hk]
    have : (pre ++ m :: post).flatMap (Function.update s.children m ((s.children m).insertIdx k c)) =
        pre.flatMap s.children ++ (s.children m).insertIdx k c ++ post.flatMap s.children := by
      rw [List.flatMap_append, List.flatMap_cons, flatMap_update h1, flatMap_update h2]; simp
    rw [e1, this, e2, insertIdx_middle _ _ _ _ hk]
  · simp only [FM.childInserted]
    exact h.replay.append (.ins (.nil _))
  · simp only [FM.childInserted]
    rw [Py.insert_nat hk]

theorem FCore.childRemoved {s : FM M C} (h : FCore s) {m : M} (hm : m ∈ s.master) {k : Nat}
    (hk : k < (s.children m).length) :
    FCore (s.childRemoved ord m (s.children m)[k] k) ∧
    (s.childRemoved ord m (s.children m)[k] k).children =
      Function.update s.children m ((s.children m).eraseIdx k) ∧
    (s.childRemoved ord m (s.children m)[k] k).sels =
      s.sels.map fun x => (removeIndex ord x ((offset s.children m s.master + k : Nat) : Int)).sel := by
  obtain ⟨pre, post, e1, h1, h2, e2, e3⟩ := h.split hm
  have hpos : ((offset s.children m s.master : Nat) : Int) + (k : Int) =
      (((pre.flatMap s.children).length + k : Nat) : Int) := by rw [e3]; push_cast; rfl
  have hlt : (pre.flatMap s.children).length + k < s.items.length := by rw [e2]; simp; omega
  have hval : s.items[(pre.flatMap s.children).length + k]'hlt = (s.children m)[k] := by
    simp only [e2]
    rw [List.getElem_append_left (by simp; omega), List.getElem_append_right (by omega)]
    simp
  have e : s.childRemoved ord m (s.children m)[k] k =
      { s with
        children := Function.update s.children m ((s.children m).eraseIdx k)
        items := s.items.eraseIdx ((pre.flatMap s.children).length + k)
        log := s.log ++ [.removed (s.children m)[k] (((pre.flatMap s.children).length + k : Nat) : Int)]
        sels := s.sels.map fun x => (removeIndex ord x (((pre.flatMap s.children).length + k : Nat) : Int)).sel } := by
    simp only [FM.childRemoved]
    rw [Py.del?_nat hk, hpos, Py.del?_nat hlt]
  rw [e, e3]
  refine ⟨⟨h.nodup, ?_, ?_⟩, rfl, rfl⟩
  · have : (pre ++ m :: post).flatMap (Function.update s.children m ((s.children m).eraseIdx k)) =
        pre.flatMap s.children ++ (s.children m).eraseIdx k ++ post.flatMap s.children := by
      rw [List.flatMap_append, List.flatMap_cons, flatMap_update h1, flatMap_update h2]; simp
    simp only
    rw [e1, this, e2, eraseIdx_middle _ _ _ _ hk]
  · exact h.replay.append (.rem (by rw [Py.get?_nat hlt, hval]) (Py.del?_nat hlt) (.nil _))

/-- The fields an update of children leaves alone. -/
structure Same (s t : FM M C) : Prop where
  kids : t.kids = s.kids
  source : t.source = s.source
  master : t.master = s.master
  listening : t.listening = s.listening

theorem Same.refl (s : FM M C) : Same s s := ⟨rfl, rfl, rfl, rfl⟩
theorem Same.trans {s t u : FM M C} (h : Same s t) (h' : Same t u) : Same s u :=
  ⟨h'.kids.trans h.kids, h'.source.trans h.source, h'.master.trans h.master, h'.listening.trans h.listening⟩

theorem same_childInserted (s : FM M C) (m : M) (c : C) (i : Int) : Same s (s.childInserted ord m c i) :=
  ⟨rfl, rfl, rfl, rfl⟩

theorem same_childRemoved (s : FM M C) (m : M) (c : C) (i : Int) : Same s (s.childRemoved ord m c i) := by
  unfold FM.childRemoved
  cases Py.del? (s.children m) i with
  | none => exact ⟨rfl, rfl, rfl, rfl⟩
  | some ch => cases h : Py.del? s.items (offset s.children m s.master + i) <;> simp only [h] <;> exact ⟨rfl, rfl, rfl, rfl⟩

theorem insertKids_spec (cs : List C) {s : FM M C} (h : FCore s) {m : M} (hm : m ∈ s.master) :
    FCore (s.insertKids ord m cs (s.children m).length) ∧ Same s (s.insertKids ord m cs (s.children m).length) ∧
    (s.insertKids ord m cs (s.children m).length).children = Function.update s.children m (s.children m ++ cs) := by
  induction cs generalizing s with
  | nil => exact ⟨h, .refl s, by simp [FM.insertKids]⟩
  | cons c cs ih =>
    obtain ⟨h1, h2⟩ := h.childInserted ord hm c (le_refl _)
    have hch : (s.childInserted ord m c ((s.children m).length : Nat)).children m = s.children m ++ [c] := by
      rw [h2]; simp
    have := ih h1 (by rw [(same_childInserted ord s m c _).master]; exact hm)
    rw [hch] at this
    simp only [List.length_append, List.length_singleton] at this
    obtain ⟨g1, g2, g3⟩ := this
    simp only [FM.insertKids]
    refine ⟨g1, (same_childInserted ord s m c _).trans g2, ?_⟩
    rw [g3, h2]
    simp

theorem removeKids_spec (n : Nat) {s : FM M C} (h : FCore s) {m : M} (hm : m ∈ s.master) (cs : List C)
    (hn : n ≤ cs.length) (hcs : s.children m = cs.take n) :
    FCore (s.removeKids ord m cs n) ∧ Same s (s.removeKids ord m cs n) ∧
    (s.removeKids ord m cs n).children = Function.update s.children m [] := by
  induction n generalizing s with
  | zero =>
    refine ⟨h, .refl s, ?_⟩
    simp only [List.take_zero] at hcs
    simp [FM.removeKids, ← hcs]
  | succ n ih =>
    have hlt : n < cs.length := by omega
    have hk : n < (s.children m).length := by rw [hcs]; simp; omega
    have hv : (s.children m)[n] = cs[n] := by simp [hcs]
    obtain ⟨h1, h2, _⟩ := h.childRemoved ord hm hk
    rw [hv] at h1 h2
    simp only [FM.removeKids, List.getElem?_eq_getElem hlt]
    have hsame := same_childRemoved ord s m cs[n] n
    have := ih h1 (by rw [hsame.master]; exact hm) (by omega) (by
      rw [h2, Function.update_self, hcs, List.eraseIdx_eq_take_drop_succ, List.take_take]
      simp)
    obtain ⟨g1, g2, g3⟩ := this
    refine ⟨g1, hsame.trans g2, ?_⟩
    rw [g3, h2]; simp

/-- The invariant between events, `src` being the master items accounted for. -/
structure FInv (src : List M) (s : FM M C) : Prop where
  core : FCore s
  link : ∀ m, s.children m = if m ∈ s.master then s.kids m else []
  listen : ∀ m, s.listening m = true ↔ m ∈ s.master
  src : s.master = src

theorem mem_pyInsert {α} (l : List α) (i : Int) (x y : α) : y ∈ Py.insert l i x ↔ y = x ∨ y ∈ l := by
  unfold Py.insert; rw [List.mem_insertIdx (Py.insertPos_le _ _)]

theorem nodup_pyInsert {α} {l : List α} (h : l.Nodup) {x : α} (hx : x ∉ l) (i : Int) : (Py.insert l i x).Nodup := by
  unfold Py.insert
  rw [(List.perm_insertIdx x l (Py.insertPos_le _ _)).nodup_iff]
  exact List.nodup_cons.2 ⟨hx, h⟩

/-- Inserting a master item without children does not change the concatenation. -/
theorem flatMap_pyInsert_nil {children : M → List C} {m : M} (h : children m = []) (l : List M) (i : Int) :
    (Py.insert l i m).flatMap children = l.flatMap children := by
  unfold Py.insert
  generalize Py.insertPos l.length i = k
  induction l generalizing k with
  | nil => cases k <;> simp [h]
  | cons x l ih => cases k with
    | zero => simp [h]
    | succ k => simp [ih k]

theorem flatMap_eraseIdx_nil {children : M → List C} (l : List M) (k : Nat) (hk : k < l.length)
    (h : children l[k] = []) : (l.eraseIdx k).flatMap children = l.flatMap children := by
  induction l generalizing k with
  | nil => simp at hk
  | cons x l ih => cases k with
    | zero => simp at h; simp [h]
    | succ k =>
      simp only [List.eraseIdx_cons_succ, List.flatMap_cons]
      rw [ih k (by simpa using hk) (by simpa using h)]

theorem FInv.masterInserted {src : List M} {s : FM M C} (h : FInv src s) (m : M) (i : Int) (hm : m ∉ src) :
    FInv (Py.insert src i m) (s.masterInserted ord m i) ∧ (s.masterInserted ord m i).kids = s.kids ∧
    (s.masterInserted ord m i).source = s.source := by
  have hm' : m ∉ s.master := by rw [h.src]; exact hm
  have hnil : s.children m = [] := by rw [h.link, if_neg hm']
  unfold FM.masterInserted
  rw [if_neg hm']
  set t : FM M C := { s with master := Py.insert s.master i m, listening := Function.update s.listening m true } with ht
  have hct : FCore t := by
    refine ⟨nodup_pyInsert h.core.nodup hm' i, ?_, h.core.replay⟩
    simp only [ht]
    rw [flatMap_pyInsert_nil hnil, h.core.items]
  have hmt : m ∈ t.master := by simp only [ht]; rw [mem_pyInsert]; exact .inl rfl
  have := insertKids_spec ord (s.kids m) hct hmt
  have hnt : t.children m = [] := hnil
  rw [hnt] at this
  simp only [List.length_nil, List.nil_append] at this
  obtain ⟨g1, g2, g3⟩ := this
  refine ⟨⟨g1, ?_, ?_, ?_⟩, g2.kids, g2.source⟩
  · intro x
    rw [g3, g2.master, g2.kids]
    by_cases hx : x = m
    · rw [hx, Function.update_self, if_pos hmt]
    · rw [Function.update_of_ne hx]
      have : x ∈ t.master ↔ x ∈ s.master := by simp only [ht]; rw [mem_pyInsert]; simp [hx]
      simp only [this]
      exact h.link x
  · intro x
    rw [g2.master, g2.listening]
    simp only [ht]
    rw [mem_pyInsert]
    by_cases hx : x = m
    · subst hx; simp
    · rw [Function.update_of_ne hx, h.listen]; simp [hx]
  · rw [g2.master]; simp only [ht]; rw [h.src]

theorem FInv.masterRemoved {src : List M} {s : FM M C} (h : FInv src s) (i : Int) (k : Nat) (hk : k < src.length)
    (hi : Py.index? src.length i = some k) :
    FInv (src.eraseIdx k) (s.masterRemoved ord src[k] i) ∧ (s.masterRemoved ord src[k] i).kids = s.kids ∧
    (s.masterRemoved ord src[k] i).source = s.source := by
  have hm : src[k] ∈ s.master := by rw [h.src]; exact List.getElem_mem hk
  have hch : s.children src[k] = s.kids src[k] := by rw [h.link, if_pos hm]
  obtain ⟨g1, g2, g3⟩ := removeKids_spec ord (s.kids src[k]).length h.core hm (s.kids src[k]) (le_refl _)
    (by rw [hch]; simp)
  unfold FM.masterRemoved
  simp only
  set t := s.removeKids ord src[k] (s.kids src[k]) (s.kids src[k]).length with ht
  have hmt : t.master = src := by rw [g2.master, h.src]
  have hd : Py.del? t.master i = some (src.eraseIdx k) := by rw [hmt]; simp [Py.del?, hi]
  rw [hd]
  have hnd : src.Nodup := by rw [← h.src]; exact h.core.nodup
  have hmem : ∀ x, x ∈ src.eraseIdx k ↔ x ∈ src ∧ x ≠ src[k] := by
    intro x
    have hp := perm_eraseIdx src k hk
    have hnd' := (hp.nodup_iff).2 hnd
    have h1 : src[k] ∉ src.eraseIdx k := (List.nodup_cons.1 hnd').1
    constructor
    · intro hx
      refine ⟨hp.mem_iff.1 (List.mem_cons_of_mem _ hx), ?_⟩
      rintro rfl
      exact h1 hx
    · rintro ⟨hx, hne⟩
      rcases List.mem_cons.1 (hp.mem_iff.2 hx) with e | e
      · exact absurd e hne
      · exact e
  refine ⟨⟨⟨?_, ?_, ?_⟩, ?_, ?_, rfl⟩, g2.kids, g2.source⟩
  · exact hnd.sublist (List.eraseIdx_sublist _ _)
  · simp only
    rw [g1.items, hmt, flatMap_eraseIdx_nil src k hk (by rw [g3]; simp)]
  · exact g1.replay
  · intro x
    simp only
    rw [g3, g2.kids]
    by_cases hx : x = src[k]
    · rw [hx, Function.update_self, if_neg (fun hh => ((hmem _).1 hh).2 rfl)]
    · rw [Function.update_of_ne hx, h.link x, h.src]
      simp [hmem, hx]
  · intro x
    simp only
    rw [g2.listening, hmem]
    by_cases hx : x = src[k]
    · rw [hx, Function.update_self]; simp
    · rw [Function.update_of_ne hx, h.listen, h.src]; simp [hx]

theorem FInv.congr {src : List M} {s t : FM M C} (h : FInv src s) (h1 : Same s { t with source := s.source })
    (h2 : t.children = s.children) (h3 : t.items = s.items) (h4 : t.log = s.log) : FInv src t := by
  have hm : t.master = s.master := h1.master
  have hk : t.kids = s.kids := h1.kids
  have hl : t.listening = s.listening := h1.listening
  refine ⟨⟨by rw [hm]; exact h.core.nodup, by rw [hm, h2, h3]; exact h.core.items,
    by rw [h3, h4]; exact h.core.replay⟩, ?_, ?_, by rw [hm]; exact h.src⟩
  · rw [h2, hm, hk]; exact h.link
  · rw [hm, hl]; exact h.listen

theorem FInv.removeAll (n : Nat) {src : List M} {s : FM M C} (h : FInv src s) (hn : src.length = n) :
    FInv [] (s.removeAll ord src.reverse) ∧ (s.removeAll ord src.reverse).kids = s.kids ∧
    (s.removeAll ord src.reverse).source = s.source := by
  induction n generalizing src s with
  | zero =>
    have : src = [] := List.length_eq_zero_iff.1 hn
    subst this
    exact ⟨by simpa [FM.removeAll] using h, rfl, rfl⟩
  | succ n ih =>
    rcases List.eq_nil_or_concat src with e | ⟨l, m, e⟩
    · subst e; simp at hn
    · simp only [List.concat_eq_append] at e
      subst e
      simp only [List.length_append, List.length_singleton] at hn
      have e1 : (s.master.length - 1 : Int) = ((l.length : Nat) : Int) := by rw [h.src]; simp
      have hk : l.length < (l ++ [m]).length := by simp
      have := h.masterRemoved ord (l.length : Int) l.length hk (Py.index?_nat hk)
      have ev : (l ++ [m])[l.length] = m := by simp
      have ee : (l ++ [m]).eraseIdx l.length = l := by
        rw [List.eraseIdx_append_of_length_le (le_refl _)]; simp
      rw [ev, ee] at this
      obtain ⟨g1, g2, g3⟩ := this
      obtain ⟨k1, k2, k3⟩ := ih g1 (by omega)
      simp only [List.reverse_append, List.reverse_cons, List.reverse_nil, List.nil_append, List.singleton_append,
        FM.removeAll]
      rw [e1]
      exact ⟨k1, k2.trans g2, k3.trans g3⟩

theorem FInv.insertAll (ms : List M) {src : List M} {s : FM M C} (h : FInv src s) (hnd : (src ++ ms).Nodup) :
    FInv (src ++ ms) (s.insertAll ord ms src.length) ∧ (s.insertAll ord ms src.length).kids = s.kids ∧
    (s.insertAll ord ms src.length).source = s.source := by
  induction ms generalizing src s with
  | nil => exact ⟨by simpa [FM.insertAll] using h, rfl, rfl⟩
  | cons m ms ih =>
    have hm : m ∉ src := by
      rw [List.nodup_append] at hnd
      exact fun hh => hnd.2.2 m hh m (by simp) rfl
    obtain ⟨g1, g2, g3⟩ := h.masterInserted ord m src.length hm
    rw [Py.insert_length] at g1
    obtain ⟨k1, k2, k3⟩ := ih g1 (by simpa using hnd)
    have e : (src ++ [m]).length = src.length + 1 := by simp
    rw [e] at k1 k2 k3
    simp only [FM.insertAll]
    refine ⟨by simpa using k1, k2.trans g2, k3.trans g3⟩

/-- What the outside may do: a container never holds an item twice, and a master item notifies child indexes counted
from the front (`0 … len` for insertions); operations the outside list refuses do not count. -/
def FM.Adm (s : FM M C) : FOp M C → Prop
  | .masterInsert m _ => ∀ l, s.source = some l → m ∉ l
  | .masterRemove _ => True
  | .childInsert m _ i => 0 ≤ i ∧ i ≤ (s.kids m).length
  | .childRemove _ i => 0 ≤ i
  | .setContainer c => (c.getD []).Nodup
  | .select _ _ => True

/-- Every event of the history is admissible when it happens. -/
def FM.AdmAll (s : FM M C) : List (FOp M C) → Prop
  | [] => True
  | o :: ops => s.Adm o ∧ (s.step ord o).AdmAll ops

theorem FInv.step {s : FM M C} (h : FInv (s.source.getD []) s) (o : FOp M C) (ha : s.Adm o) :
    FInv ((s.step ord o).source.getD []) (s.step ord o) := by
  cases o with
  | masterInsert m i =>
    cases hs : s.source with
    | none => simp only [FM.step, hs]; simpa [hs] using h
    | some l =>
      simp only [FM.step, hs]
      rw [hs] at h
      have h' : FInv l { s with source := some (Py.insert l i m) } := h.congr ⟨rfl, rfl, rfl, rfl⟩ rfl rfl rfl
      obtain ⟨g1, _, g3⟩ := h'.masterInserted ord m i (ha l hs)
      rw [g3]
      exact g1
  | masterRemove i =>
    cases hs : s.source with
    | none => simp only [FM.step, hs]; simpa [hs] using h
    | some l =>
      rw [hs] at h
      rcases del?_cases l i with ⟨k, hk, h1, h2, h3⟩ | ⟨h1, h2, h3⟩
      · simp only [FM.step, hs, h2, h3]
        have h' : FInv l { s with source := some (l.eraseIdx k) } := h.congr ⟨rfl, rfl, rfl, rfl⟩ rfl rfl rfl
        obtain ⟨g1, _, g3⟩ := h'.masterRemoved ord i k hk h1
        rw [g3]
        exact g1
      · simp only [FM.step, hs, h2, h3]; simpa [hs] using h
  | childInsert m c i =>
    obtain ⟨h0, hle⟩ := ha
    obtain ⟨k, rfl⟩ := Int.eq_ofNat_of_zero_le h0
    simp only [Int.ofNat_eq_natCast, Nat.cast_le] at *
    simp only [FM.step]
    by_cases hl : s.listening m = true
    · rw [if_pos hl]
      have hm := (h.listen m).1 hl
      set t : FM M C := { s with kids := Function.update s.kids m (Py.insert (s.kids m) k c) } with ht
      have hct : FCore t := ⟨h.core.nodup, h.core.items, h.core.replay⟩
      have hmt : m ∈ t.master := hm
      have hch : t.children m = s.kids m := by show s.children m = _; rw [h.link, if_pos hm]
      obtain ⟨g1, g2⟩ := hct.childInserted ord hmt c (k := k) (by rw [hch]; exact hle)
      refine ⟨g1, ?_, h.listen, h.src⟩
      intro x
      rw [g2]
      show _ = if x ∈ s.master then Function.update s.kids m (Py.insert (s.kids m) k c) x else []
      by_cases hx : x = m
      · subst hx
        rw [Function.update_self, Function.update_self, if_pos hm, hch, Py.insert_nat hle]
      · rw [Function.update_of_ne hx, Function.update_of_ne hx]
        exact h.link x
    · rw [if_neg hl]
      have hm : m ∉ s.master := fun hh => hl ((h.listen m).2 hh)
      refine ⟨⟨h.core.nodup, h.core.items, h.core.replay⟩, ?_, h.listen, h.src⟩
      intro x
      simp only
      by_cases hx : x = m
      · subst hx; rw [h.link, if_neg hm, if_neg hm]
      · rw [Function.update_of_ne hx]; exact h.link x
  | childRemove m i =>
    obtain ⟨k, rfl⟩ := Int.eq_ofNat_of_zero_le (ha : 0 ≤ i)
    simp only [FM.step]
    by_cases hk : k < (s.kids m).length
    · rw [Py.get?_nat hk, Py.del?_nat hk]
      simp only
      by_cases hl : s.listening m = true
      · rw [if_pos hl]
        have hm := (h.listen m).1 hl
        set t : FM M C := { s with kids := Function.update s.kids m ((s.kids m).eraseIdx k) } with ht
        have hct : FCore t := ⟨h.core.nodup, h.core.items, h.core.replay⟩
        have hmt : m ∈ t.master := hm
        have hch : t.children m = s.kids m := by show s.children m = _; rw [h.link, if_pos hm]
        have hkt : k < (t.children m).length := by rw [hch]; exact hk
        have hv : (t.children m)[k] = (s.kids m)[k] := by simp only [hch]
        obtain ⟨g1, g2, _⟩ := hct.childRemoved ord hmt hkt
        rw [hv] at g1 g2
        have hs := same_childRemoved ord t m (s.kids m)[k] k
        refine ⟨g1, ?_, ?_, ?_⟩
        · intro x
          rw [g2, hs.master, hs.kids]
          show _ = if x ∈ s.master then Function.update s.kids m ((s.kids m).eraseIdx k) x else []
          by_cases hx : x = m
          · subst hx
            rw [Function.update_self, Function.update_self, if_pos hm, hch]
          · rw [Function.update_of_ne hx, Function.update_of_ne hx]
            exact h.link x
        · intro x; rw [hs.listening, hs.master]; exact h.listen x
        · rw [hs.master, hs.source]; exact h.src
      · rw [if_neg hl]
        have hm : m ∉ s.master := fun hh => hl ((h.listen m).2 hh)
        refine ⟨⟨h.core.nodup, h.core.items, h.core.replay⟩, ?_, h.listen, h.src⟩
        intro x
        simp only
        by_cases hx : x = m
        · subst hx; rw [h.link, if_neg hm, if_neg hm]
        · rw [Function.update_of_ne hx]; exact h.link x
    · have hn : Py.index? (s.kids m).length (k : Int) = none := Py.index?_nat_none (by omega)
      have h1 : Py.get? (s.kids m) (k : Int) = none := by simp only [Py.get?, hn]; rfl
      rw [h1]
      exact h
  | setContainer c =>
    obtain ⟨g1, _, _⟩ := h.removeAll ord _ rfl
    have h' : FInv [] { s.removeAll ord (s.source.getD []).reverse with source := c } :=
      g1.congr ⟨rfl, rfl, rfl, rfl⟩ rfl rfl rfl
    obtain ⟨k1, _, k3⟩ := h'.insertAll ord (c.getD []) (by rw [List.nil_append]; exact ha)
    simp only [FM.step, FM.setContainer]
    simp only [List.length_nil, List.nil_append] at k1 k3
    rw [k3]
    exact k1
  | select k o => exact h.congr ⟨rfl, rfl, rfl, rfl⟩ rfl rfl rfl

theorem FInv.run (ops : List (FOp M C)) {s : FM M C} (h : FInv (s.source.getD []) s) (ha : s.AdmAll ord ops) :
    FInv ((s.run ord ops).source.getD []) (s.run ord ops) := by
  induction ops generalizing s with
  | nil => exact h
  | cons o ops ih => exact ih (h.step ord o ha.1) ha.2

theorem FInv.init (kids : M → List C) (sels : List Sel) :
    FInv ((FM.init kids sels).source.getD []) (FM.init kids sels) :=
  ⟨⟨.nil, rfl, .nil _⟩, fun m => by simp [FM.init], fun m => by simp [FM.init], rfl⟩

/-! ### C17 -/

/-- C17 without the conditions on child indexes is false: a master item that inserts with index `-1` (before its last
child) makes the model put the item among the children of the master item before. -/
theorem C17_flattened_counterexample :
    ∃ (kids : Nat → List Nat) (ops : List (FOp Nat Nat)),
      let s := (FM.init kids []).run ascending ops
      s.source = some [0, 1] ∧ s.kids 0 = [1, 2] ∧ s.kids 1 = [9, 3] ∧ s.items = [1, 9, 2, 3] :=
  ⟨fun m => if m = 0 then [1, 2] else [3], [.setContainer (some [0, 1]), .childInsert 1 9 (-1)], by decide⟩

/-- C17: after any history in which containers hold no item twice and master items use child indexes counted from the
front, the items are the concatenation, in container order, of the current child lists of the master items, and an
observer replaying the notifications has the same items. (Missing: negative or too large child indexes, false.) -/
theorem C17_flattened_partial (kids : M → List C) (sels : List Sel) (ops : List (FOp M C))
    (ha : (FM.init kids sels).AdmAll ord ops) :
    let s := (FM.init kids sels).run ord ops
    s.items = (s.source.getD []).flatMap s.kids ∧ Replays [] s.log s.items := by
  have h := (FInv.init kids sels).run ord ops ha
  refine ⟨?_, h.core.replay⟩
  rw [h.core.items, ← h.src]
  apply List.flatMap_congr
  intro m hm
  rw [h.link, if_pos hm]

/-- C17: the model does not change the lists it observes. -/
theorem C17_outside_unchanged (kids : M → List C) (sels : List Sel) (ops : List (FOp M C))
    (ha : (FM.init kids sels).AdmAll ord ops) (m : M) (i : Int) (c : Option (List M)) :
    let s := (FM.init kids sels).run ord ops
    (s.Adm (.masterInsert m i) → (s.step ord (.masterInsert m i)).kids = s.kids ∧
      (s.step ord (.masterInsert m i)).source = s.source.map fun l => Py.insert l i m) ∧
    ((s.step ord (.masterRemove i)).kids = s.kids) ∧
    (s.Adm (.setContainer c) → (s.step ord (.setContainer c)).kids = s.kids ∧
      (s.step ord (.setContainer c)).source = c) := by
  have h := (FInv.init kids sels).run ord ops ha
  intro s
  change FInv (s.source.getD []) s at h
  refine ⟨?_, ?_, ?_⟩
  · intro hm
    cases hs : s.source with
    | none => simp [FM.step, hs]
    | some l =>
      rw [hs] at h
      have h' : FInv l { s with source := some (Py.insert l i m) } := h.congr ⟨rfl, rfl, rfl, rfl⟩ rfl rfl rfl
      obtain ⟨_, g2, g3⟩ := h'.masterInserted ord m i (hm l hs)
      simp only [FM.step, hs]
      exact ⟨g2, g3⟩
  · cases hs : s.source with
    | none => simp [FM.step, hs]
    | some l =>
      rw [hs] at h
      rcases del?_cases l i with ⟨k, hk, h1, h2, h3⟩ | ⟨h1, h2, h3⟩
      · simp only [FM.step, hs, h2, h3]
        have h' : FInv l { s with source := some (l.eraseIdx k) } := h.congr ⟨rfl, rfl, rfl, rfl⟩ rfl rfl rfl
        exact (h'.masterRemoved ord i k hk h1).2.1
      · simp [FM.step, hs, h2, h3]
  · intro hc
    obtain ⟨g1, g2, _⟩ := h.removeAll ord _ rfl
    have h' : FInv [] { s.removeAll ord (s.source.getD []).reverse with source := c } :=
      g1.congr ⟨rfl, rfl, rfl, rfl⟩ rfl rfl rfl
    obtain ⟨_, k2, k3⟩ := h'.insertAll ord (c.getD []) (by rw [List.nil_append]; exact hc)
    simp only [FM.step, FM.setContainer]
    exact ⟨k2.trans g2, k3⟩

end

/-- an admissible history: container of two, a child insertion, a master removal and a re-insertion after its children
changed while outside -/
example :
    let kids : Nat → List Nat := fun m => if m = 0 then [1, 2] else [3]
    let ops : List (FOp Nat Nat) := [.setContainer (some [0, 1]), .childInsert 0 7 1, .masterRemove 0, .childRemove 0 0,
      .masterInsert 0 (-1), .childInsert 1 8 1]
    (FM.init kids []).AdmAll ascending ops ∧ ((FM.init kids []).run ascending ops).items = [7, 2, 3, 8] := by
  refine ⟨⟨?_, ?_, ?_, ?_, ?_, ?_, trivial⟩, by decide⟩
  · show ([0, 1] : List Nat).Nodup; decide
  · show (_ : Prop) ∧ _; decide
  · trivial
  · show (0 : Int) ≤ 0; decide
  · intro l hl
    have : l = [1] := by
      have : some l = some [1] := hl.symm.trans (by decide)
      exact Option.some.inj this
    subst this; decide
  · show (_ : Prop) ∧ _; decide

/-! ### C18 -/

section
variable {M C : Type*} [DecidableEq M] (ord : SetOrder)

/-- C18 is false: an insertion into the second master item tells the selections the index within that master item, so
the selection of the first master item's child is moved. -/
theorem C18_selections_counterexample :
    ∃ (kids : Nat → List Nat) (sels : List Sel) (ops : List (FOp Nat Nat)) (o : FOp Nat Nat),
      let s := (FM.init kids sels).run ascending ops
      let t := s.step ascending o
      s.items = [1, 2, 3] ∧ (s.sels.map fun x => selectedItems x.indexes s.items) = [[1]] ∧
      t.items = [1, 2, 9, 3] ∧ (t.sels.map fun x => selectedItems x.indexes t.items) = [[2]] :=
  ⟨fun m => if m = 0 then [1, 2] else [3], [⟨∅, none, .multiple⟩],
    [.setContainer (some [0, 1]), .select 0 (.set 0)], .childInsert 1 9 0, by decide⟩

/-- C18, the part that holds: in a state reached by an admissible history every selection keeps selecting the same items
through every child removal, and through a child insertion into a master item with no children before it in the list; the
anchor stays on its item. (Missing: insertions with children before them, which is false.) -/
theorem C18_selections_partial (kids : M → List C) (sels : List Sel) (ops : List (FOp M C))
    (ha : (FM.init kids sels).AdmAll ord ops) (m : M) (k : Nat) :
    let s := (FM.init kids sels).run ord ops
    (∀ pre post, s.source = some (pre ++ m :: post) → k < (s.kids m).length →
      let t := s.step ord (.childRemove m k)
      List.Forall₂ (fun x y : Sel =>
        selectedItems y.indexes t.items =
          selectedItems (x.indexes \ {(((pre.flatMap s.kids).length + k : Nat) : ℤ)}) s.items ∧
        (∀ a, x.anchor = some a → a ≠ ((pre.flatMap s.kids).length + k : Nat) →
          y.anchor = some (if a < ((pre.flatMap s.kids).length + k : Nat) then a else a - 1))) s.sels t.sels) ∧
    (∀ (c : C) pre post, s.source = some (pre ++ m :: post) → pre.flatMap s.kids = [] → k ≤ (s.kids m).length →
      let t := s.step ord (.childInsert m c k)
      List.Forall₂ (fun x y : Sel => selectedItems y.indexes t.items = selectedItems x.indexes s.items ∧
        (k : ℤ) ∉ y.indexes ∧ y.anchor = x.anchor.map (fun (a : ℤ) => if a < k then a else a + 1)) s.sels t.sels) := by
  have h := (FInv.init kids sels).run ord ops ha
  intro s
  change FInv (s.source.getD []) s at h
  have setup : ∀ pre post, s.source = some (pre ++ m :: post) →
      s.listening m = true ∧ s.children m = s.kids m ∧
      offset s.children m s.master = (pre.flatMap s.kids).length ∧
      s.items = pre.flatMap s.kids ++ s.kids m ++ post.flatMap s.kids := by
    intro pre post hs
    have hmaster : s.master = pre ++ m :: post := by rw [h.src, hs]; rfl
    have hall : ∀ x ∈ s.master, s.children x = s.kids x := fun x hx => by rw [h.link, if_pos hx]
    have hm : m ∈ s.master := by rw [hmaster]; simp
    have hnd := h.core.nodup
    rw [hmaster, List.nodup_append] at hnd
    have h1 : m ∉ pre := fun hp => hnd.2.2 m hp m (by simp) rfl
    have e1 : pre.flatMap s.children = pre.flatMap s.kids :=
      List.flatMap_congr fun x hx => hall x (by rw [hmaster]; simp [hx])
    have e2 : post.flatMap s.children = post.flatMap s.kids :=
      List.flatMap_congr fun x hx => hall x (by rw [hmaster]; simp [hx])
    refine ⟨(h.listen m).2 hm, hall m hm, ?_, ?_⟩
    · rw [hmaster, offset_eq _ _ _ _ h1, e1]
    · rw [h.core.items, hmaster, List.flatMap_append, List.flatMap_cons, e1, e2, hall m hm, List.append_assoc]
  constructor
  · intro pre post hs hk
    obtain ⟨hl, hch, hoff, hitems⟩ := setup pre post hs
    have hlt : (pre.flatMap s.kids).length + k < s.items.length := by rw [hitems]; simp; omega
    have hkc : k < (s.children m).length := by rw [hch]; exact hk
    simp only [FM.step, Py.get?_nat hk, Py.del?_nat hk, hl, if_true, FM.childRemoved, Py.del?_nat hkc]
    rw [hoff, ← Nat.cast_add, Py.del?_nat hlt]
    simp only
    rw [List.forall₂_map_right_iff, List.forall₂_same]
    intro x _
    have := C05_remove_index ord x s.items _ hlt
    exact ⟨this.1, this.2.2⟩
  · intro c pre post hs hpre hk
    obtain ⟨hl, hch, hoff, hitems⟩ := setup pre post hs
    have hle : k ≤ s.items.length := by rw [hitems]; simp; omega
    simp only [FM.step, hl, if_true, FM.childInserted]
    rw [hoff, hpre]
    simp only [List.length_nil, Nat.cast_zero, zero_add]
    rw [Py.insert_nat hle, List.forall₂_map_right_iff, List.forall₂_same]
    intro x _
    have := C05_insert_index ord x s.items k hle c
    exact ⟨this.1, this.2.1, this.2.2.2⟩

end

/-- the hypotheses of the two cases are met: removal from the second master item, insertion into the first -/
example :
    let kids : Nat → List Nat := fun m => if m = 0 then [1, 2] else [3, 4]
    let s := (FM.init kids [⟨∅, none, .multiple⟩]).run ascending [.setContainer (some [0, 1]), .select 0 (.set 3)]
    let t := (s.step ascending (.childRemove 1 0)).step ascending (.childInsert 0 9 1)
    t.items = [1, 9, 2, 4] ∧ t.sels.map (·.indexes) = [{3}] := by decide

end Verif.ListModel
