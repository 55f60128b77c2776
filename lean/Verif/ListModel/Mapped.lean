import Verif.ListModel.Basic
import Verif.Selection.Props

/-!
Model of `MappedListModel` (`nion/utils/ListModel.py:643-790`).

The container is any observable list: it changes its list with the Python operation and then notifies, so container
changes are given as the notifications it sends (`srcInsert`, `srcRemove`); a removal may name any item, the model ignores
it like the code does. The map function may give a different result on each call (`f n` is the result of the `n`th call).
Not modelled: the mutex (single thread), listeners that change the container during a notification, a map or unmap
function that raises, containers without change events.
-/

namespace Verif.ListModel

open Verif.Py Verif.Selection

/-- What a mapped list model does to the outside: notifications, calls of the map and unmap functions, change events. -/
inductive MEv (β : Type*) where
  | note (n : Notif β)
  | mapped (b : β)
  | unmapped (b : β)
  | beginChanges
  | endChanges
  deriving DecidableEq, Repr

/-- ListModel.py:645-664: the container's list (`none` without container), items, change level, selections; `calls` counts
calls of the map function and `log` records the outside effects in order. -/
structure MM (α β : Type*) where
  source : Option (List α)
  items : List β
  level : Int
  sels : List Sel
  calls : Nat
  log : List (MEv β)

/-- ListModel.py:645-664 with no container yet. -/
def MM.init {α β} (sels : List Sel) : MM α β := ⟨none, [], 0, sels, 0, []⟩

/-- What can happen to a mapped list model. -/
inductive MOp (α : Type*) where
  | srcInsert (v : α) (i : Int)
  | srcRemove (i : Int)
  | setContainer (c : Option (List α))
  | beginChange
  | endChange
  | select (k : Nat) (o : Selection.Op)

section
variable {α β : Type*} (f : Nat → α → β) (hasUnmap : Bool) (ord : SetOrder)

/-- ListModel.py:769-777 `__master_item_inserted`. -/
def MM.masterInserted (s : MM α β) (v : α) (i : Int) : MM α β :=
  let b := f s.calls v
  { s with
    items := Py.insert s.items i b
    calls := s.calls + 1
    log := s.log ++ [.mapped b, .note (.inserted b i)]
    sels := s.sels.map fun x => (insertIndex ord x i).sel }

/-- ListModel.py:780-790 `__master_item_removed`; an `IndexError` leaves everything unchanged. -/
def MM.masterRemoved (s : MM α β) (i : Int) : MM α β :=
  match Py.get? s.items i, Py.del? s.items i with
  | some b, some l =>
    { s with
      items := l
      log := s.log ++ (if hasUnmap then [.unmapped b] else []) ++ [.note (.removed b i)]
      sels := s.sels.map fun x => (removeIndex ord x i).sel }
  | _, _ => s

/-- ListModel.py:757-758: insert the items of a new container one after the other. -/
def MM.insertAll (s : MM α β) : List α → Nat → MM α β
  | [], _ => s
  | v :: vs, i => (s.masterInserted f ord v i).insertAll vs (i + 1)

/-- ListModel.py:738-739: remove the last item once per item of the old container. -/
def MM.removeAll (s : MM α β) : List α → MM α β
  | [] => s
  | _ :: vs => (s.masterRemoved hasUnmap ord (s.items.length - 1 : Int)).removeAll vs

/-- ListModel.py:724-758 `container` setter. -/
def MM.setContainer (s : MM α β) (c : Option (List α)) : MM α β :=
  let s := s.removeAll hasUnmap ord (s.source.getD []).reverse
  let s := { s with source := c }
  s.insertAll f ord (c.getD []) 0

/-- ListModel.py:671-675 `begin_change`. -/
def MM.beginChange (s : MM α β) : MM α β :=
  { s with log := if s.level = 0 then s.log ++ [.beginChanges] else s.log, level := s.level + 1 }

/-- ListModel.py:677-682 `end_change`. -/
def MM.endChange (s : MM α β) : MM α β :=
  { s with level := s.level - 1, log := if s.level - 1 = 0 then s.log ++ [.endChanges] else s.log }

/-- One event: a container change with the resulting notification, or a call by the user. -/
def MM.step (s : MM α β) : MOp α → MM α β
  | .srcInsert v i =>
    match s.source with
    | some l => { s with source := some (Py.insert l i v) }.masterInserted f ord v i
    | none => s
  | .srcRemove i =>
    match s.source with
    | some l =>
      match Py.del? l i with
      | some l' => { s with source := some l' }.masterRemoved hasUnmap ord i
      | none => s
    | none => s
  | .setContainer c => s.setContainer f hasUnmap ord c
  | .beginChange => s.beginChange
  | .endChange => s.endChange
  | .select k o => { s with sels := s.sels.modify k fun x => (Selection.step ord x o).sel }

def MM.run (s : MM α β) (ops : List (MOp α)) : MM α β := ops.foldl (fun s o => s.step f hasUnmap ord o) s

end

/-! ### Specification -/

/-- The notifications of a log. -/
def notesOf {β} : List (MEv β) → List (Notif β)
  | [] => []
  | .note n :: l => n :: notesOf l
  | _ :: l => notesOf l

/-- The values returned by the map function. -/
def createdOf {β} : List (MEv β) → List β
  | [] => []
  | .mapped b :: l => b :: createdOf l
  | _ :: l => createdOf l

/-- The values given to the unmap function. -/
def unmappedOf {β} : List (MEv β) → List β
  | [] => []
  | .unmapped b :: l => b :: unmappedOf l
  | _ :: l => unmappedOf l

/-- The net number of open change events. -/
def openOf {β} : List (MEv β) → Int
  | [] => 0
  | .beginChanges :: l => 1 + openOf l
  | .endChanges :: l => -1 + openOf l
  | _ :: l => openOf l

@[simp] theorem notesOf_append {β} (a b : List (MEv β)) : notesOf (a ++ b) = notesOf a ++ notesOf b := by
  induction a with
  | nil => rfl
  | cons x a ih => cases x <;> simp [notesOf, ih]
@[simp] theorem createdOf_append {β} (a b : List (MEv β)) : createdOf (a ++ b) = createdOf a ++ createdOf b := by
  induction a with
  | nil => rfl
  | cons x a ih => cases x <;> simp [createdOf, ih]
@[simp] theorem unmappedOf_append {β} (a b : List (MEv β)) : unmappedOf (a ++ b) = unmappedOf a ++ unmappedOf b := by
  induction a with
  | nil => rfl
  | cons x a ih => cases x <;> simp [unmappedOf, ih]
@[simp] theorem openOf_append {β} (a b : List (MEv β)) : openOf (a ++ b) = openOf a + openOf b := by
  induction a with
  | nil => simp [openOf]
  | cons x a ih => cases x <;> simp [openOf, ih] <;> omega

/-- The items correspond to the source items one by one, each the result of some earlier call of the map function. -/
def Mirrors {α β} (f : Nat → α → β) (calls : Nat) (src : List α) (items : List β) : Prop :=
  List.Forall₂ (fun a b => ∃ n < calls, b = f n a) src items

theorem Forall₂.insertIdx {α β} {R : α → β → Prop} {l : List α} {m : List β} (h : List.Forall₂ R l m) {a : α} {b : β}
    (hab : R a b) (k : Nat) : List.Forall₂ R (l.insertIdx k a) (m.insertIdx k b) := by
  induction h generalizing k with
  | nil => cases k with
    | zero => simpa using hab
    | succ k => simp
  | cons h1 _ ih => cases k with
    | zero => simp [hab, *]
    | succ k => simpa [h1] using ih k

theorem Forall₂.eraseIdx {α β} {R : α → β → Prop} {l : List α} {m : List β} (h : List.Forall₂ R l m) (k : Nat) :
    List.Forall₂ R (l.eraseIdx k) (m.eraseIdx k) := by
  induction h generalizing k with
  | nil => simp
  | cons h1 h2 ih => cases k with
    | zero => simpa using h2
    | succ k => simpa [h1] using ih k

theorem Mirrors.mono {α β} {f : Nat → α → β} {n m : Nat} {src : List α} {items : List β} (h : Mirrors f n src items)
    (hnm : n ≤ m) : Mirrors f m src items :=
  List.Forall₂.imp (fun _ _ ⟨k, hk, e⟩ => ⟨k, by omega, e⟩) h

/-- `Py.insert` keeps the one-by-one correspondence. -/
theorem Mirrors.pyInsert {α β} {f : Nat → α → β} {n : Nat} {src : List α} {items : List β} (h : Mirrors f n src items)
    (v : α) (i : Int) : Mirrors f (n + 1) (Py.insert src i v) (Py.insert items i (f n v)) := by
  unfold Py.insert
  rw [List.Forall₂.length_eq h]
  exact Forall₂.insertIdx (h.mono (Nat.le_succ n)) ⟨n, Nat.lt_succ_self n, rfl⟩ _

/-- `del` on two lists of the same length removes at the same place. -/
theorem del?_cases {α} (l : List α) (i : Int) :
    (∃ k, ∃ hk : k < l.length, Py.index? l.length i = some k ∧ Py.get? l i = some l[k] ∧
      Py.del? l i = some (l.eraseIdx k)) ∨
    (Py.index? l.length i = none ∧ Py.get? l i = none ∧ Py.del? l i = none) := by
  cases hi : Py.index? l.length i with
  | none => right; simp [Py.get?, Py.del?, hi]
  | some k =>
    left
    have hk := Py.index?_lt hi
    exact ⟨k, hk, rfl, by simp [Py.get?, hi, hk], by simp [Py.del?, hi]⟩

theorem perm_eraseIdx {α} (l : List α) (k : Nat) (hk : k < l.length) : (l[k] :: l.eraseIdx k).Perm l := by
  induction l generalizing k with
  | nil => simp at hk
  | cons a l ih => cases k with
    | zero => simp
    | succ k =>
      simp only [List.getElem_cons_succ, List.eraseIdx_cons_succ]
      exact (List.Perm.swap _ _ _).trans ((ih k (by simpa using hk)).cons a)

/-- The invariant kept by everything that can happen, `src` being the source items accounted for so far. -/
structure MInv {α β} (f : Nat → α → β) (hasUnmap : Bool) (src : List α) (s : MM α β) : Prop where
  mirror : Mirrors f s.calls src s.items
  replay : Replays [] (notesOf s.log) s.items
  unmap : hasUnmap = true → (createdOf s.log).Perm (s.items ++ unmappedOf s.log)
  created : (createdOf s.log).length = s.calls

section
variable {α β : Type*} (f : Nat → α → β) (hasUnmap : Bool) (ord : SetOrder)

theorem MInv.inserted {src : List α} {s : MM α β} (h : MInv f hasUnmap src s) (v : α) (i : Int) :
    MInv f hasUnmap (Py.insert src i v) (s.masterInserted f ord v i) := by
  refine ⟨h.mirror.pyInsert v i, ?_, ?_, ?_⟩
  · simp only [MM.masterInserted, notesOf_append, notesOf]
    exact h.replay.append (.ins (.nil _))
  · intro hu
    simp only [MM.masterInserted, createdOf_append, createdOf, unmappedOf_append, unmappedOf, List.append_nil]
    refine (List.perm_append_comm.trans ((h.unmap hu).cons _)).trans ?_
    rw [← List.cons_append]
    apply List.Perm.append_right
    unfold Py.insert
    exact (List.perm_insertIdx _ _ (Py.insertPos_le _ _)).symm
  · simp [MM.masterInserted, createdOf, h.created]

theorem MInv.removed {src : List α} {s : MM α β} (h : MInv f hasUnmap src s) (i : Int) (src' : List α)
    (hd : Py.del? src i = some src') : MInv f hasUnmap src' (s.masterRemoved hasUnmap ord i) := by
  have hlen := List.Forall₂.length_eq h.mirror
  rcases del?_cases src i with ⟨k, hk, h1, _, h3⟩ | ⟨_, _, h3⟩
  · rw [h3] at hd
    cases hd
    rcases del?_cases s.items i with ⟨k', hk', g1, g2, g3⟩ | ⟨g1, _, _⟩
    · rw [← hlen, h1] at g1
      cases g1
      have e : s.masterRemoved hasUnmap ord i =
        { s with
          items := s.items.eraseIdx k
          log := s.log ++ (if hasUnmap then [.unmapped s.items[k]] else []) ++ [.note (.removed s.items[k] i)]
          sels := s.sels.map fun x => (removeIndex ord x i).sel } := by
        simp only [MM.masterRemoved, g2, g3]
      rw [e]
      refine ⟨Forall₂.eraseIdx h.mirror k, ?_, ?_, ?_⟩
      · have : notesOf (if hasUnmap then [MEv.unmapped s.items[k]] else []) = [] := by cases hasUnmap <;> rfl
        simp only [notesOf_append, notesOf, this, List.append_nil]
        exact h.replay.append (.rem g2 g3 (.nil _))
      · intro hu
        simp only [hu, if_true, createdOf_append, createdOf, unmappedOf_append, unmappedOf, List.append_nil]
        refine (h.unmap hu).trans ?_
        refine ((perm_eraseIdx s.items k hk').symm.append_right _).trans ?_
        rw [← List.append_assoc]
        exact List.perm_append_comm (l₁ := [s.items[k]])
      · have : createdOf (if hasUnmap then [MEv.unmapped s.items[k]] else []) = [] := by cases hasUnmap <;> rfl
        simp [createdOf, this, h.created]
    · rw [← hlen, h1] at g1; cases g1
  · rw [h3] at hd; cases hd

theorem MInv.removeAll (ws : List α) {src : List α} {s : MM α β} (h : MInv f hasUnmap src s)
    (hw : ws.length ≤ src.length) :
    MInv f hasUnmap (src.take (src.length - ws.length)) (s.removeAll hasUnmap ord ws) := by
  induction ws generalizing src s with
  | nil => simpa [MM.removeAll] using h
  | cons w ws ih =>
    simp only [List.length_cons] at hw
    have hlen := List.Forall₂.length_eq h.mirror
    have e : (s.items.length - 1 : Int) = ((src.length - 1 : Nat) : Int) := by omega
    have h' := h.removed f hasUnmap ord ((src.length - 1 : Nat) : Int) (src.eraseIdx (src.length - 1))
      (Py.del?_nat (by omega))
    have hl' : (src.eraseIdx (src.length - 1)) = src.take (src.length - 1) := by
      rw [List.eraseIdx_length_sub_one, List.dropLast_eq_take]
    rw [hl'] at h'
    have h'' := ih h' (by simp; omega)
    simp only [MM.removeAll]
    rw [e]
    have e2 : (src.take (src.length - 1)).take ((src.take (src.length - 1)).length - ws.length) =
        src.take (src.length - (w :: ws).length) := by
      rw [List.take_take, List.length_take]
      congr 1
      simp only [List.length_cons]
      omega
    rw [e2] at h''
    exact h''

theorem MInv.insertAll (vs : List α) {src : List α} {s : MM α β} (h : MInv f hasUnmap src s) :
    MInv f hasUnmap (src ++ vs) (s.insertAll f ord vs src.length) := by
  induction vs generalizing src s with
  | nil => simpa [MM.insertAll] using h
  | cons v vs ih =>
    have h' := h.inserted f hasUnmap ord v src.length
    rw [Py.insert_length] at h'
    have h'' := ih h'
    simpa [MM.insertAll] using h''

theorem MM.removeAll_source (ws : List α) (s : MM α β) : (s.removeAll hasUnmap ord ws).source = s.source := by
  induction ws generalizing s with
  | nil => rfl
  | cons w ws ih =>
    simp only [MM.removeAll]
    rw [ih]
    unfold MM.masterRemoved
    split <;> rfl

theorem MM.insertAll_source (vs : List α) (s : MM α β) (i : Nat) : (s.insertAll f ord vs i).source = s.source := by
  induction vs generalizing s i with
  | nil => rfl
  | cons w ws ih =>
    simp only [MM.insertAll]
    rw [ih]; rfl

theorem MM.masterRemoved_source (s : MM α β) (i : Int) : (s.masterRemoved hasUnmap ord i).source = s.source := by
  unfold MM.masterRemoved; split <;> rfl

theorem MM.setContainer_source (s : MM α β) (c : Option (List α)) :
    (s.setContainer f hasUnmap ord c).source = c := by
  simp [MM.setContainer, MM.insertAll_source]

theorem MInv.congr {src : List α} {s t : MM α β} (h : MInv f hasUnmap src s) (h1 : t.items = s.items)
    (h2 : t.log = s.log) (h3 : t.calls = s.calls) : MInv f hasUnmap src t :=
  ⟨by rw [h1, h3]; exact h.mirror, by rw [h1, h2]; exact h.replay, by rw [h1, h2]; exact h.unmap,
    by rw [h2, h3]; exact h.created⟩

theorem MInv.setContainer {s : MM α β} (h : MInv f hasUnmap (s.source.getD []) s) (c : Option (List α)) :
    MInv f hasUnmap (c.getD []) (s.setContainer f hasUnmap ord c) := by
  have h1 := h.removeAll f hasUnmap ord (s.source.getD []).reverse (by simp)
  simp only [List.length_reverse, Nat.sub_self, List.take_zero] at h1
  have h2 : MInv f hasUnmap [] { s.removeAll hasUnmap ord (s.source.getD []).reverse with source := c } :=
    h1.congr f hasUnmap rfl rfl rfl
  have h3 := h2.insertAll f hasUnmap ord (c.getD [])
  simpa [MM.setContainer] using h3

theorem MInv.step {s : MM α β} (h : MInv f hasUnmap (s.source.getD []) s) (o : MOp α) :
    MInv f hasUnmap ((s.step f hasUnmap ord o).source.getD []) (s.step f hasUnmap ord o) := by
  cases o with
  | srcInsert v i =>
    cases hs : s.source with
    | none => simp only [MM.step, hs]; simpa [hs] using h
    | some l =>
      simp only [MM.step, hs]
      rw [hs] at h
      exact (h.congr f hasUnmap (t := { s with source := some (Py.insert l i v) }) rfl rfl rfl).inserted f hasUnmap ord v i
  | srcRemove i =>
    cases hs : s.source with
    | none => simp only [MM.step, hs]; simpa [hs] using h
    | some l =>
      cases hd : Py.del? l i with
      | none => simp only [MM.step, hs, hd]; simpa [hs] using h
      | some l' =>
        simp only [MM.step, hs, hd]
        rw [hs] at h
        rw [MM.masterRemoved_source]
        exact (h.congr f hasUnmap (t := { s with source := some l' }) rfl rfl rfl).removed f hasUnmap ord i l' hd
  | setContainer c =>
    simp only [MM.step, MM.setContainer_source]
    exact h.setContainer f hasUnmap ord c
  | beginChange =>
    have e1 : notesOf (s.beginChange).log = notesOf s.log := by
      simp only [MM.beginChange]; split <;> simp [notesOf]
    have e2 : createdOf (s.beginChange).log = createdOf s.log := by
      simp only [MM.beginChange]; split <;> simp [createdOf]
    have e3 : unmappedOf (s.beginChange).log = unmappedOf s.log := by
      simp only [MM.beginChange]; split <;> simp [unmappedOf]
    exact ⟨h.mirror, by simp only [MM.step]; rw [e1]; exact h.replay,
      by simp only [MM.step]; rw [e2, e3]; exact h.unmap, by simp only [MM.step]; rw [e2]; exact h.created⟩
  | endChange =>
    have e1 : notesOf (s.endChange).log = notesOf s.log := by
      simp only [MM.endChange]; split <;> simp [notesOf]
    have e2 : createdOf (s.endChange).log = createdOf s.log := by
      simp only [MM.endChange]; split <;> simp [createdOf]
    have e3 : unmappedOf (s.endChange).log = unmappedOf s.log := by
      simp only [MM.endChange]; split <;> simp [unmappedOf]
    exact ⟨h.mirror, by simp only [MM.step]; rw [e1]; exact h.replay,
      by simp only [MM.step]; rw [e2, e3]; exact h.unmap, by simp only [MM.step]; rw [e2]; exact h.created⟩
  | select k o => exact h.congr f hasUnmap rfl rfl rfl

theorem MInv.run (ops : List (MOp α)) {s : MM α β} (h : MInv f hasUnmap (s.source.getD []) s) :
    MInv f hasUnmap ((s.run f hasUnmap ord ops).source.getD []) (s.run f hasUnmap ord ops) := by
  induction ops generalizing s with
  | nil => exact h
  | cons o ops ih => exact ih (h.step f hasUnmap ord o)

theorem MInv.init (sels : List Sel) : MInv f hasUnmap ((MM.init (α := α) (β := β) sels).source.getD []) (MM.init sels) :=
  ⟨.nil, .nil _, fun _ => by simp [MM.init, createdOf, unmappedOf], rfl⟩

/-- C15: after any history the items are, one by one, results of the map function for the container's current items
(no items without container); an observer that replays the notifications has the same items; and with an unmap function
every value the map function ever returned is either in the list or has been given to the unmap function, exactly once. -/
theorem C15_mirrors (sels : List Sel) (ops : List (MOp α)) :
    let s := (MM.init (β := β) sels).run f hasUnmap ord ops
    List.Forall₂ (fun a b => ∃ n, b = f n a) (s.source.getD []) s.items ∧
    Replays [] (notesOf s.log) s.items ∧
    (hasUnmap = true → (createdOf s.log).Perm (s.items ++ unmappedOf s.log)) := by
  have h := MInv.run f hasUnmap ord ops (MInv.init f hasUnmap sels)
  exact ⟨List.Forall₂.imp (fun _ _ ⟨n, _, e⟩ => ⟨n, e⟩) h.mirror, h.replay, h.unmap⟩

/-- C15, for a map function without hidden state: the items are the mapped source items. -/
theorem C15_pure (g : α → β) (sels : List Sel) (ops : List (MOp α)) :
    ((MM.init (β := β) sels).run (fun _ => g) hasUnmap ord ops).items =
      (((MM.init (β := β) sels).run (fun _ => g) hasUnmap ord ops).source.getD []).map g := by
  have h := (C15_mirrors (fun _ => g) hasUnmap ord sels ops).1
  have h' := List.Forall₂.imp (S := fun a b => g a = b) (fun _ _ ⟨_, e⟩ => e.symm) h
  exact (List.forall₂_eq_eq_eq ▸ (List.forall₂_map_left_iff.2 h' : List.Forall₂ Eq _ _)).symm

/-- C15: one insertion in the container calls the map function once, on the new item, and notifies that value at the
same index; one removal gives the value at the index to the unmap function, then notifies it. Other items stay. -/
theorem C15_effects (s : MM α β) (l : List α) (hs : s.source = some l) (hlen : l.length = s.items.length) :
    (∀ v i, (s.step f hasUnmap ord (.srcInsert v i)).items = Py.insert s.items i (f s.calls v) ∧
      (s.step f hasUnmap ord (.srcInsert v i)).log =
        s.log ++ [.mapped (f s.calls v), .note (.inserted (f s.calls v) i)]) ∧
    (∀ (k : Nat) (hk : k < s.items.length),
      (s.step f hasUnmap ord (.srcRemove k)).items = s.items.eraseIdx k ∧
      (s.step f hasUnmap ord (.srcRemove k)).log =
        s.log ++ (if hasUnmap then [.unmapped s.items[k], .note (.removed s.items[k] k)]
          else [.note (.removed s.items[k] k)])) := by
  constructor
  · intro v i; simp [MM.step, hs, MM.masterInserted]
  · intro k hk
    have hk' : k < l.length := by omega
    cases hasUnmap <;>
      simp [MM.step, hs, Py.del?_nat hk', MM.masterRemoved, Py.get?_nat hk, Py.del?_nat hk]

/-- Change calls are balanced: never more ends than begins. -/
def Balanced : Int → List (MOp α) → Prop
  | _, [] => True
  | n, .beginChange :: l => Balanced (n + 1) l
  | n, .endChange :: l => 0 < n ∧ Balanced (n - 1) l
  | n, _ :: l => Balanced n l

/-- The log of changes between begin and end events is untouched by other steps. -/
def openOk (s : MM α β) : Prop := 0 ≤ s.level ∧ openOf s.log = if 0 < s.level then 1 else 0

theorem MM.masterRemoved_open (s : MM α β) (i : Int) :
    (s.masterRemoved hasUnmap ord i).level = s.level ∧
    openOf (s.masterRemoved hasUnmap ord i).log = openOf s.log := by
  unfold MM.masterRemoved
  split
  · cases hasUnmap <;> simp [openOf]
  · simp

theorem MM.insertAll_open (vs : List α) (s : MM α β) (i : Nat) :
    (s.insertAll f ord vs i).level = s.level ∧ openOf (s.insertAll f ord vs i).log = openOf s.log := by
  induction vs generalizing s i with
  | nil => exact ⟨rfl, rfl⟩
  | cons v vs ih =>
    obtain ⟨h1, h2⟩ := ih (s.masterInserted f ord v i) (i + 1)
    simp only [MM.insertAll, h1, h2]
    simp [MM.masterInserted, openOf]

theorem MM.removeAll_open (ws : List α) (s : MM α β) :
    (s.removeAll hasUnmap ord ws).level = s.level ∧ openOf (s.removeAll hasUnmap ord ws).log = openOf s.log := by
  induction ws generalizing s with
  | nil => exact ⟨rfl, rfl⟩
  | cons v vs ih =>
    obtain ⟨h1, h2⟩ := ih (s.masterRemoved hasUnmap ord (s.items.length - 1 : Int))
    obtain ⟨h3, h4⟩ := s.masterRemoved_open hasUnmap ord (s.items.length - 1 : Int)
    simp only [MM.removeAll, h1, h2, h3, h4]
    simp

/-- C15: with balanced change calls the model's own change events nest to depth one: a begin event is open exactly while
some change call is open. -/
theorem C15_change_events (ops : List (MOp α)) (s : MM α β) (h0 : openOk s) (hb : Balanced s.level ops) :
    openOk (s.run f hasUnmap ord ops) := by
  induction ops generalizing s with
  | nil => exact h0
  | cons o ops ih =>
    have key : ∀ t : MM α β, t.level = s.level → openOf t.log = openOf s.log → openOk t := by
      intro t h1 h2
      unfold openOk
      rw [h1, h2]
      exact h0
    cases o with
    | srcInsert v i =>
      have : (s.step f hasUnmap ord (.srcInsert v i)).level = s.level ∧
          openOf (s.step f hasUnmap ord (.srcInsert v i)).log = openOf s.log := by
        cases hs : s.source <;> simp [MM.step, hs, MM.masterInserted, openOf]
      exact ih _ (key _ this.1 this.2) (by rw [this.1]; exact hb)
    | srcRemove i =>
      have : (s.step f hasUnmap ord (.srcRemove i)).level = s.level ∧
          openOf (s.step f hasUnmap ord (.srcRemove i)).log = openOf s.log := by
        cases hs : s.source with
        | none => simp [MM.step, hs]
        | some l =>
          cases hd : Py.del? l i with
          | none => simp [MM.step, hs, hd]
          | some l' =>
            simp only [MM.step, hs, hd]
            exact MM.masterRemoved_open hasUnmap ord _ i
      exact ih _ (key _ this.1 this.2) (by rw [this.1]; exact hb)
    | setContainer c =>
      have : (s.step f hasUnmap ord (.setContainer c)).level = s.level ∧
          openOf (s.step f hasUnmap ord (.setContainer c)).log = openOf s.log := by
        obtain ⟨h1, h2⟩ := MM.removeAll_open hasUnmap ord (s.source.getD []).reverse s
        obtain ⟨h3, h4⟩ := MM.insertAll_open f ord (c.getD [])
          { s.removeAll hasUnmap ord (s.source.getD []).reverse with source := c } 0
        simp only [MM.step, MM.setContainer]
        exact ⟨h3.trans h1, h4.trans h2⟩
      exact ih _ (key _ this.1 this.2) (by rw [this.1]; exact hb)
    | beginChange =>
      refine ih _ ?_ hb
      obtain ⟨h1, h2⟩ := h0
      refine ⟨by simp [MM.step, MM.beginChange]; omega, ?_⟩
      simp only [MM.step, MM.beginChange]
      by_cases hl : s.level = 0
      · simp [hl, openOf, h2]
      · rw [if_neg hl, h2, if_pos (by omega)]
        split_ifs <;> omega
    | endChange =>
      refine ih _ ?_ hb.2
      obtain ⟨h1, h2⟩ := h0
      have hpos := hb.1
      refine ⟨by simp [MM.step, MM.endChange]; omega, ?_⟩
      simp only [MM.step, MM.endChange]
      rw [if_pos hpos] at h2
      by_cases hl : s.level - 1 = 0
      · simp [hl, openOf, h2]
      · rw [if_neg hl, h2]
        split_ifs <;> omega
    | select k o => exact ih _ (key _ rfl rfl) hb

end

/-- a stateful map function, a negative index, a replaced container -/
example : ((MM.init []).run (fun n (a : Nat) => (n, a)) true ascending
    [.setContainer (some [7, 8]), .srcInsert 9 (-1), .srcRemove 0, .srcRemove 5, .setContainer (some [4])]).items =
    [(3, 4)] ∧
    ((MM.init []).run (fun n (a : Nat) => (n, a)) true ascending
      [.setContainer (some [7, 8]), .srcInsert 9 (-1), .srcRemove 0]).items = [(2, 9), (1, 8)] := by decide

/-! ### C16 -/

section
variable {α β : Type*} (f : Nat → α → β) (hasUnmap : Bool) (ord : SetOrder)

/-- C16 is false for a negative index: the container inserts before its last item and notifies index `-1`, and the
selection moves all its indexes although only the last item moved. -/
theorem C16_selections_counterexample :
    ∃ (s : MM Nat Nat) (v : Nat) (i : Int), s.source = some [10, 20] ∧ s.items = [10, 20] ∧
      (s.sels.map fun x => selectedItems x.indexes s.items) = [[10]] ∧
      ((s.step (fun _ a => a) true ascending (.srcInsert v i)).sels.map fun x =>
        selectedItems x.indexes (s.step (fun _ a => a) true ascending (.srcInsert v i)).items) = [[30]] :=
  ⟨⟨some [10, 20], [10, 20], 0, [⟨{0}, some 0, .multiple⟩], 2, []⟩, 30, -1, by decide⟩

/-- C16, for indexes counted from the front: through an insertion at `k` or a removal at `k` every selection keeps
selecting the same items; the new item is not selected, the removed one no longer is, anchors stay on their item.
(Missing: insertion with a negative index, which is false.) -/
theorem C16_selections_partial (s : MM α β) (l : List α) (hs : s.source = some l) (hlen : l.length = s.items.length) :
    (∀ (v : α) (k : Nat), k ≤ l.length →
      let t := s.step f hasUnmap ord (.srcInsert v k)
      List.Forall₂ (fun x y : Sel => selectedItems y.indexes t.items = selectedItems x.indexes s.items ∧
        (k : ℤ) ∉ y.indexes ∧ y.anchor = x.anchor.map (fun (a : ℤ) => if a < k then a else a + 1)) s.sels t.sels) ∧
    (∀ k : Nat, k < l.length →
      let t := s.step f hasUnmap ord (.srcRemove k)
      List.Forall₂ (fun x y : Sel => selectedItems y.indexes t.items = selectedItems (x.indexes \ {(k : ℤ)}) s.items ∧
        (∀ a, x.anchor = some a → a ≠ k → y.anchor = some (if a < k then a else a - 1))) s.sels t.sels) := by
  constructor
  · intro v k hk
    have hk' : k ≤ s.items.length := by omega
    simp only [MM.step, hs, MM.masterInserted]
    rw [Py.insert_nat hk', List.forall₂_map_right_iff, List.forall₂_same]
    intro x _
    have := C05_insert_index ord x s.items k hk' (f s.calls v)
    exact ⟨this.1, this.2.1, this.2.2.2⟩
  · intro k hk
    have hk' : k < s.items.length := by omega
    simp only [MM.step, hs, Py.del?_nat hk, MM.masterRemoved, Py.get?_nat hk', Py.del?_nat hk']
    rw [List.forall₂_map_right_iff, List.forall₂_same]
    intro x _
    have := C05_remove_index ord x s.items k hk'
    exact ⟨this.1, this.2.2⟩

end

/-- the second and third of three mapped items stay selected when an item is inserted between them and the first is
removed -/
example :
    let s : MM Nat Nat := ⟨some [1, 2, 3], [10, 20, 30], 0, [⟨{1, 2}, some 1, .multiple⟩], 3, []⟩
    let t := (s.step (fun _ a => 10 * a) true ascending (.srcInsert 9 2)).step (fun _ a => 10 * a) true ascending
      (.srcRemove 0)
    t.items = [20, 90, 30] ∧ t.sels.map (·.indexes) = [{0, 2}] ∧ t.sels.map (·.anchor) = [some 0] := by decide

end Verif.ListModel
