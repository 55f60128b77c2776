import Verif.ListModel.Containers
import Verif.ListModel.Flattened

set_option linter.unusedSectionVars false

/-!
C201 for `FlattenedListModel` (`nion/utils/ListModel.py:828-916`): the assignment of the container has the steps of
`Verif.ListModel.Containers`, with lines 836-850 in place of 557-597. The child lists do not change meanwhile (C127 has threads that change
them).
-/

namespace Verif.ListModel.Containers

variable {C α β : Type} [DecidableEq C] [DecidableEq α]

/-- `__master_items`, the keys of the dicts of listeners, `__children` (a missing entry is empty; an empty one stays after removals, which
cannot be told apart: every use fails or has the empty list as default), `__items` (ListModel.py:795-807). -/
structure TW (α β : Type) where
  master : List α
  heard : List α
  children : α → List β
  items : List β

/-- ListModel.py:890-900: `__child_item_inserted` of the children from the index on (lines 872-873). -/
def TW.insKids (m : α) : List β → ℕ → TW α β → TW α β
  | [], _, w => w
  | c :: cs, k, w =>
    TW.insKids m cs (k + 1) { w with
      children := Function.update w.children m (Py.insert (w.children m) k c)
      items := Py.insert w.items ((offset w.children m w.master : ℤ) + k) c }

/-- ListModel.py:904-914: `__child_item_removed` of the children below the index, from the last one (lines 882-883). -/
def TW.remKids (m : α) : ℕ → TW α β → TW α β × Bool
  | 0, w => (w, false)
  | k + 1, w =>
    match Py.del? (w.children m) k with
    | none => (w, true)
    | some ch =>
      match Py.del? w.items ((offset w.children m w.master : ℤ) + k) with
      | none => ({ w with children := Function.update w.children m ch }, true)
      | some l => TW.remKids m k { w with children := Function.update w.children m ch, items := l }

/-- ListModel.py:861-873 -/
def TW.ins (kids : α → List β) (v : α) (i : ℤ) (w : TW α β) : TW α β × Bool :=
  if v ∈ w.master then (w, true)
  else (TW.insKids v (kids v) 0 { w with master := Py.insert w.master i v, heard := v :: w.heard.erase v }, false)

/-- ListModel.py:876-888 -/
def TW.rem (kids : α → List β) (v : α) (i : ℤ) (w : TW α β) : TW α β × Bool :=
  let (t, raised) := TW.remKids v (kids v).length w
  if raised then (t, true)
  else
    match Py.del? t.master i with
    | none => (t, true)
    | some l =>
      if v ∈ t.heard then ({ t with master := l, heard := t.heard.erase v }, v ∈ l) else ({ t with master := l }, true)

def flattened (kids : α → List β) : Receiver α (TW α β) := ⟨TW.ins kids, TW.rem kids, fun w => w.master.length⟩

/-- A new one. -/
def TW.new : TW α β := ⟨[], [], fun _ => [], []⟩

/-! ### Proof -/

def TW.Has (kids : α → List β) (l : List α) (w : TW α β) : Prop :=
  w.master = l ∧ w.heard.Perm l ∧ w.items = l.flatMap kids ∧ ∀ m, w.children m = if m ∈ l then kids m else []

theorem offset_update (ch : α → List β) (m : α) (x : List β) (l : List α) : offset (Function.update ch m x) m l = offset ch m l := by
  induction l with
  | nil => rfl
  | cons y l ih =>
    simp only [offset]
    by_cases h : y = m
    · rw [if_pos h, if_pos h]
    · rw [if_neg h, if_neg h, ih, Function.update_of_ne h]

theorem insKids_eq (m : α) (cs : List β) (w : TW α β) (P Q : List β) (hP : P.length = offset w.children m w.master)
    (hi : w.items = P ++ w.children m ++ Q) :
    TW.insKids m cs (w.children m).length w =
      { w with children := Function.update w.children m (w.children m ++ cs), items := P ++ (w.children m ++ cs) ++ Q } := by
  induction cs generalizing w with
  | nil => simp [TW.insKids, ← hi]
  | cons c cs ih =>
    simp only [TW.insKids]
    have e1 : Py.insert (w.children m) ((w.children m).length : ℕ) c = w.children m ++ [c] := Py.insert_length _ _
    have e2 : Py.insert w.items ((offset w.children m w.master : ℤ) + ((w.children m).length : ℕ)) c = P ++ (w.children m ++ [c]) ++ Q := by
      rw [hi, ← hP, ← Int.natCast_add, Py.insert_nat (by simp)]
      classical
      rw [insertIdx_take_drop' _ _ (by simp), ← List.length_append, List.take_left, List.drop_left]
      simp
    rw [e1, e2]
    have := ih { w with children := Function.update w.children m (w.children m ++ [c]), items := P ++ (w.children m ++ [c]) ++ Q }
      (by simp only [offset_update]; exact hP) (by simp)
    simp only [Function.update_self, List.length_append, List.length_singleton] at this
    rw [this]
    simp

theorem remKids_eq (m : α) (cs : List β) (n : ℕ) (hn : n ≤ cs.length) (w : TW α β) (P Q : List β)
    (hP : P.length = offset w.children m w.master) (hc : w.children m = cs.take n) (hi : w.items = P ++ cs.take n ++ Q) :
    TW.remKids m n w = ({ w with children := Function.update w.children m [], items := P ++ Q }, false) := by
  induction n generalizing w with
  | zero =>
    have : Function.update w.children m [] = w.children := by rw [← List.take_zero (l := cs), ← hc, Function.update_eq_self]
    simp only [TW.remKids, this]
    rw [List.take_zero, List.append_nil] at hi
    rw [← hi]
  | succ n ih =>
    simp only [TW.remKids]
    have hl : (cs.take (n + 1)).length = n + 1 := by simp; omega
    have ht : (cs.take (n + 1)).eraseIdx n = cs.take n := by
      rw [List.eraseIdx_eq_take_drop_succ, List.take_take]; simp
    have e1 : Py.del? (w.children m) (n : ℕ) = some (cs.take n) := by
      rw [hc, Py.del?_nat (by omega), ht]
    have e2 : Py.del? w.items ((offset w.children m w.master : ℤ) + (n : ℕ)) = some (P ++ cs.take n ++ Q) := by
      rw [hi, ← hP, ← Int.natCast_add, Py.del?_nat (by simp; omega)]
      rw [List.append_assoc, List.eraseIdx_append_of_length_le (by omega), Nat.add_sub_cancel_left,
        List.eraseIdx_append_of_lt_length (by omega), ht, List.append_assoc]
    rw [e1]
    simp only
    rw [e2]
    simp only
    rw [ih (by omega) _ (by simp only [offset_update]; exact hP) (by simp) (by simp)]
    simp

theorem flatMap_has {kids ch : α → List β} {l : List α} (h : ∀ m, ch m = if m ∈ l then kids m else []) (p : List α) (hp : ∀ m ∈ p, m ∈ l) :
    p.flatMap ch = p.flatMap kids := by
  induction p with
  | nil => rfl
  | cons m p ih =>
    rw [List.flatMap_cons, List.flatMap_cons, ih fun x hx => hp x (List.mem_cons_of_mem _ hx), h m, if_pos (hp m (List.mem_cons_self ..))]

theorem flattened_lawful (kids : α → List β) : Lawful (flattened kids) (TW.Has kids) := by
  refine ⟨fun l w h => congrArg _ h.1, fun l w v i h hn hv => ?_, fun l w v i l' h hn hg hd => ?_⟩
  · obtain ⟨rfl, h2, h3, h4⟩ := h
    obtain ⟨pre, post, e1, e2⟩ := pyInsert_split w.master i v
    simp only [flattened, TW.ins]
    rw [if_neg hv, e2]
    have hvp : v ∉ pre := fun hp => hv (by rw [e1]; simp [hp])
    have hc : w.children v = [] := by rw [h4, if_neg hv]
    have hpre : pre.flatMap w.children = pre.flatMap kids := flatMap_has h4 pre fun m hm => by rw [e1]; simp [hm]
    have key := insKids_eq v (kids v) { w with master := pre ++ v :: post, heard := v :: w.heard.erase v } (pre.flatMap kids) (post.flatMap kids)
      (by simp only [offset_eq w.children v pre post hvp, hpre]) (by simp only [hc, h3]; rw [e1]; simp)
    simp only [hc, List.length_nil, List.nil_append] at key
    rw [key]
    refine ⟨rfl, rfl, ?_, ?_, fun m => ?_⟩
    · rw [List.erase_of_not_mem fun hm => hv (h2.mem_iff.1 hm)]
      refine (h2.cons v).trans ?_
      rw [e1]
      exact List.perm_middle.symm
    · simp
    · by_cases hm : m = v
      · subst hm; simp
      · show Function.update w.children v (kids v) m = _
        rw [Function.update_of_ne hm, h4, e1]
        simp [hm]
  · obtain ⟨rfl, h2, h3, h4⟩ := h
    have hi : ∃ k, Py.index? w.master.length i = some k := by
      unfold Py.del? at hd
      cases hk : Py.index? w.master.length i with
      | none => rw [hk] at hd; cases hd
      | some k => exact ⟨k, rfl⟩
    obtain ⟨k, hk⟩ := hi
    have hd0 := hd
    unfold Py.get? at hg
    unfold Py.del? at hd
    rw [hk] at hg hd
    simp only [Option.bind_some, Option.map_some] at hg hd
    cases hd
    obtain ⟨hlt, rfl⟩ := List.getElem?_eq_some_iff.1 hg
    have e1 : w.master = w.master.take k ++ w.master[k] :: w.master.drop (k + 1) := by simp
    have e2 : w.master.eraseIdx k = w.master.take k ++ w.master.drop (k + 1) := List.eraseIdx_eq_take_drop_succ ..
    generalize w.master.take k = pre at e1 e2
    generalize w.master.drop (k + 1) = post at e1 e2
    generalize w.master[k] = v at e1
    have hn' := hn
    rw [e1, List.nodup_append, List.nodup_cons] at hn'
    have hvp : v ∉ pre := fun hp => hn'.2.2 v hp v (by simp) rfl
    have hvq : v ∉ post := hn'.2.1.1
    have hvm : v ∈ w.master := by rw [e1]; simp
    have hc : w.children v = kids v := by rw [h4, if_pos hvm]
    have hpre : pre.flatMap w.children = pre.flatMap kids := flatMap_has h4 pre fun m hm => by rw [e1]; simp [hm]
    have key := remKids_eq v (kids v) (kids v).length (Nat.le_refl _) w (pre.flatMap kids) (post.flatMap kids)
      (by rw [e1, offset_eq w.children v pre post hvp, hpre]) (by rw [hc, List.take_length]) (by rw [h3, e1, List.take_length]; simp)
    simp only [flattened, TW.rem]
    rw [key]
    simp only [Bool.false_eq_true, if_false]
    rw [hd0]
    simp only
    rw [if_pos (h2.mem_iff.2 hvm), e2]
    refine ⟨by simp [hvp, hvq], rfl, ?_, ?_, fun m => ?_⟩
    · have := h2.erase v
      rw [e1, List.erase_append_right _ hvp, List.erase_cons_head] at this
      exact this
    · simp
    · by_cases hm : m = v
      · subst hm; simp [hvp, hvq]
      · show Function.update w.children v [] m = _
        rw [Function.update_of_ne hm, h4, e1]
        simp [hm]

/-- C201: between assignments, with no call of its container under way, a flattened list model has the children of the items of its
container, in order, and listens to these items; no assignment has raised. -/
theorem C201_flattened_partial (kids : α → List β) (conts : C → List α) (hd : ∀ c, (conts c).Nodup) (as : List (Act C α))
    (s : St C α (TW α β)) (hs : s = run (flattened kids) (start conts .new) as) (ho : Orderly (flattened kids) (start conts .new) as) :
    s.raised = false ∧ (s.rep = .idle → (∀ x ∈ s.calls, s.cur ≠ some x.cont) →
      s.w.items = (match s.cur with | some c => s.conts c | none => []).flatMap kids ∧
      s.w.heard.Perm (match s.cur with | some c => s.conts c | none => [])) := by
  subst hs
  obtain ⟨h1, h2⟩ := containers (flattened_lawful kids) conts hd _ ⟨rfl, .refl _, rfl, fun _ => rfl⟩ as ho
  exact ⟨h1, fun hr hq => ⟨(h2 hr hq).2.2.1, (h2 hr hq).2.1⟩⟩

/-! ### Cases -/

/-- What is looked at: the list of the container, the items, whether an assignment raised, whether nothing is under way. The children of an
item are as many of its tens as its last digit says. -/
def sightFlat (as : List (Act (Fin 2) ℕ)) : Option (List ℕ) × List ℕ × Bool × Bool :=
  let s := run (flattened fun v => List.replicate (v % 10) (v / 10))
    (start (fun c => if c = 0 then [12, 20, 31] else [71]) .new : St (Fin 2) ℕ (TW ℕ ℕ)) as
  (s.cur.map s.conts, s.w.items, s.raised, s.calls.isEmpty && match s.rep with | .idle => true | _ => false)

example : sightFlat assign0 = (some [12, 20, 31], [1, 1, 3], false, true) := by decide +kernel
example : sightFlat (assign0 ++ [.insert 0 1 52, .tell 0, .handle 0]) = (some [12, 52, 20, 31], [1, 1, 5, 5, 3], false, true) := by
  decide +kernel
example : sightFlat (assign0 ++ [.insert 0 1 52, .tell 0, .handle 0] ++ assign1 8 ++ [.insert 0 0 42, .tell 0, .go, .go, .go, .go, .go]) =
    (some [71], [7], false, true) := by decide +kernel

/-- C201: a removal from the old container whose listener has been read is handled after the assignment: the item of the new container goes
from the items listened to, and when the removed item is put into the new container, its children do not appear. -/
theorem C201_counterexample_flattened_late :
    sightFlat (assign0 ++ [.remove 0 0, .tell 0] ++ assign1 10 ++ [.handle 0, .insert 1 0 12, .tell 0, .handle 0]) =
      (some [12, 71], [7], false, true) := by decide +kernel

/-- C201: an insertion into the old container that has not been told of: the assignment raises, the container is still the old one. -/
theorem C201_counterexample_flattened_raises :
    sightFlat (assign0 ++ [.insert 0 0 52] ++ assign1 8 ++ [.tell 0]) = (some [52, 12, 20, 31], [], true, true) := by decide +kernel

/-- If the item was inserted at the end, its children are missed first: nothing is removed. -/
example :
    let s := run (flattened fun v => List.replicate (v % 10) (v / 10))
      (start (fun c => if c = 0 then [12, 20, 31] else [71]) .new : St (Fin 2) ℕ (TW ℕ ℕ)) (assign0 ++ [.insert 0 3 52] ++ assign1 8 ++ [.tell 0])
    s.raised = true ∧ s.w.master = [12, 20, 31] ∧ s.w.items = [1, 1, 3] := by decide +kernel

/-- C201: an insertion into the new container while it is copied: the assignment raises `AssertionError` at the item. -/
theorem C201_counterexample_flattened_twice :
    sightFlat (assign0 ++ assign1 9 ++ [.insert 1 0 82, .tell 0, .handle 0, .go, .go, .go]) = (some [82, 71], [8, 8], true, true) := by
  decide +kernel

end Verif.ListModel.Containers
