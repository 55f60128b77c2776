import Mathlib.Data.List.Basic
import Mathlib.Data.List.Count
import Mathlib.Tactic.Common
import Mathlib.Order.Basic

/-!
C132: who is told of reading (`nion/utils/Persistence.py:498-560`, with `__set_item` 663-672 and `__insert_item` 694-701): `begin_reading`,
the callbacks of items and relationships during `read_from_dict`, and `finish_reading`.

A dict is seen as what the object reads from it (`Plan`): for each item, in the order of definition, whether there is a dict for it, then
for each relationship the dicts for it. What properties read is in `Persist/Dict.lean`; here they can only make reading fail, and so can
factories. Objects are numbered in the order in which factories make them.
-/

namespace Verif.Persist.Reading

mutual

/-- What is read for an object; `bad`: uuid, modification date or a property raises. -/
inductive Plan where
  | mk (bad : Bool) (slots : Slots)

/-- Items and relationships: no dict for the item (or an empty one), a dict for which the factory finds no object, a dict, a list. -/
inductive Slots where
  | nil
  | keep (rest : Slots)
  | noItem (rest : Slots)
  | item (p : Plan) (rest : Slots)
  | rel (ps : Plans) (rest : Slots)

/-- Dicts of a relationship; `no`: the factory finds no object. -/
inductive Plans where
  | nil
  | no (rest : Plans)
  | cons (p : Plan) (rest : Plans)

end

/-- An object: whether `_is_reading`, and what is in its items (at most one object) and relationships. -/
inductive Tree where
  | mk (id : Nat) (reading : Bool) (slots : List (List Tree))

def Tree.id : Tree → Nat
  | .mk i _ _ => i

/-- What is told, and to whom: `begin_reading`; the callback of the owner for an item or relationship, with the content of the item before
(or the objects before in the relationship) and the new object; `finish_reading`. -/
inductive Ev where
  | begun (id : Nat)
  | put (owner slot : Nat) (before : List Tree) (child : Tree)
  | finished (id : Nat)

structure Res (α : Type) where
  val : α
  next : Nat
  evs : List Ev
  ok : Bool

/-- A new object has nothing in its items and relationships. -/
def Slots.blank : Slots → List (List Tree)
  | .nil => []
  | .keep rest | .noItem rest | .item _ rest | .rel _ rest => [] :: rest.blank

def Plan.blank : Plan → List (List Tree)
  | .mk _ slots => slots.blank

mutual

/-- Lines 501-550 `read_from_dict`. -/
def readTree : Plan → Tree → Nat → Res Tree
  | .mk bad slots, .mk i f ss, n =>
    if bad then ⟨.mk i f ss, n, [], false⟩
    else
      let r := readSlots i 0 slots ss n
      ⟨.mk i f r.val, r.next, r.evs, r.ok⟩

/-- Lines 514-550, the loops. -/
def readSlots (owner k : Nat) : Slots → List (List Tree) → Nat → Res (List (List Tree))
  | .keep rest, s :: ss, n =>
    let q := readSlots owner (k + 1) rest ss n
    ⟨s :: q.val, q.next, q.evs, q.ok⟩
  | .noItem _, ss, n => ⟨ss, n, [], false⟩
  | .item p rest, s :: ss, n =>
    let c := readTree p (.mk n true p.blank) (n + 1)
    if c.ok then
      let q := readSlots owner (k + 1) rest ss c.next
      ⟨[c.val] :: q.val, q.next, .begun n :: (c.evs ++ .put owner k s c.val :: q.evs), q.ok⟩
    else ⟨s :: ss, c.next, .begun n :: c.evs, false⟩
  | .rel ps rest, s :: ss, n =>
    let r := readKids owner k ps s n
    if r.ok then
      let q := readSlots owner (k + 1) rest ss r.next
      ⟨r.val :: q.val, q.next, r.evs ++ q.evs, q.ok⟩
    else ⟨r.val :: ss, r.next, r.evs, false⟩
  | .nil, ss, n => ⟨ss, n, [], true⟩
  | .keep _, [], n => ⟨[], n, [], true⟩
  | .item _ _, [], n => ⟨[], n, [], true⟩
  | .rel _ _, [], n => ⟨[], n, [], true⟩

/-- Lines 534-550, one relationship. -/
def readKids (owner k : Nat) : Plans → List Tree → Nat → Res (List Tree)
  | .nil, s, n => ⟨s, n, [], true⟩
  | .no _, s, n => ⟨s, n, [], false⟩
  | .cons p rest, s, n =>
    let c := readTree p (.mk n true p.blank) (n + 1)
    if c.ok then
      let q := readKids owner k rest (s ++ [c.val]) c.next
      ⟨q.val, q.next, .begun n :: (c.evs ++ .put owner k s c.val :: q.evs), q.ok⟩
    else ⟨s, c.next, .begun n :: c.evs, false⟩

end

mutual

/-- Lines 552-560 `finish_reading`: the object after it, and who is told. -/
def finish : Tree → Tree × List Ev
  | .mk i _ ss => (.mk i false (finishSlots ss).1, (finishSlots ss).2 ++ [.finished i])

def finishSlots : List (List Tree) → List (List Tree) × List Ev
  | [] => ([], [])
  | s :: ss => ((finishKids s).1 :: (finishSlots ss).1, (finishKids s).2 ++ (finishSlots ss).2)

def finishKids : List Tree → List Tree × List Ev
  | [] => ([], [])
  | t :: ts => ((finish t).1 :: (finishKids ts).1, (finish t).2 ++ (finishKids ts).2)

end

/-- Line 499 `begin_reading`. -/
def begin : Tree → Tree × List Ev
  | .mk i _ ss => (.mk i true ss, [.begun i])

/-- The protocol: `begin_reading`, `read_from_dict`, `finish_reading`; an exception ends it. -/
def session (p : Plan) (t : Tree) (n : Nat) : Res Tree :=
  let b := begin t
  let r := readTree p b.1 n
  if r.ok then
    let f := finish r.val
    ⟨f.1, r.next, b.2 ++ (r.evs ++ f.2), true⟩
  else ⟨r.val, r.next, b.2 ++ r.evs, false⟩

/-! ### Specification -/

def Tree.reading : Tree → Bool
  | .mk _ f _ => f

def Tree.slots : Tree → List (List Tree)
  | .mk _ _ ss => ss

/-- The object is the other one or contained in it, at any depth. -/
inductive Within (c : Tree) : Tree → Prop
  | self : Within c c
  | step {i f ss s t} : s ∈ ss → t ∈ s → Within c t → Within c (.mk i f ss)

/-- Whom the event is about. -/
def Ev.about (x : Nat) : Ev → Bool
  | .begun i => i = x
  | .put _ _ _ c => c.id = x
  | .finished i => i = x

/-- The events about an object, in order. -/
def about (x : Nat) (es : List Ev) : List Ev := es.filter (Ev.about x)

/-- The object is in the item or relationship `k` of the object with the number `o`, somewhere in the tree. -/
def Placed (o k : Nat) (c t : Tree) : Prop := ∃ x, Within x t ∧ x.id = o ∧ ∃ s, x.slots[k]? = some s ∧ c ∈ s

/-! ### Lemmas -/

@[simp] theorem about_nil (x : Nat) : about x [] = [] := rfl

@[simp] theorem about_append (x : Nat) (a b : List Ev) : about x (a ++ b) = about x a ++ about x b := List.filter_append ..

theorem about_cons (x : Nat) (e : Ev) (es : List Ev) : about x (e :: es) = if e.about x then e :: about x es else about x es := List.filter_cons ..

theorem within_trans {a b c : Tree} (h1 : Within a b) (h2 : Within b c) : Within a c := by
  induction h2 with
  | self => exact h1
  | step hs ht _ ih => exact .step hs ht ih

mutual

theorem readTree_next : ∀ (p : Plan) (t : Tree) (n : Nat), n ≤ (readTree p t n).next ∧ (readTree p t n).val.id = t.id ∧
    (readTree p t n).val.reading = t.reading
  | .mk bad slots, .mk i f ss, n => by
    simp only [readTree]
    split
    · exact ⟨Nat.le_refl _, rfl, rfl⟩
    · exact ⟨readSlots_next i 0 slots ss n, rfl, rfl⟩

theorem readSlots_next : ∀ (o k : Nat) (p : Slots) (ss : List (List Tree)) (n : Nat), n ≤ (readSlots o k p ss n).next
  | o, k, .nil, ss, n => by simp only [readSlots, Nat.le_refl]
  | o, k, .keep rest, s :: ss, n => by
    simp only [readSlots]
    exact readSlots_next o (k + 1) rest ss n
  | o, k, .keep rest, [], n => by simp only [readSlots, Nat.le_refl]
  | o, k, .noItem rest, ss, n => by simp only [readSlots, Nat.le_refl]
  | o, k, .item p rest, [], n => by simp only [readSlots, Nat.le_refl]
  | o, k, .item p rest, s :: ss, n => by
    have h1 := (readTree_next p (.mk n true p.blank) (n + 1)).1
    have h2 := readSlots_next o (k + 1) rest ss (readTree p (.mk n true p.blank) (n + 1)).next
    simp only [readSlots]
    split <;> simp only <;> omega
  | o, k, .rel ps rest, [], n => by simp only [readSlots, Nat.le_refl]
  | o, k, .rel ps rest, s :: ss, n => by
    have h1 := readKids_next o k ps s n
    have h2 := readSlots_next o (k + 1) rest ss (readKids o k ps s n).next
    simp only [readSlots]
    split <;> simp only <;> omega

theorem readKids_next : ∀ (o k : Nat) (p : Plans) (s : List Tree) (n : Nat), n ≤ (readKids o k p s n).next
  | o, k, .nil, s, n => by simp only [readKids, Nat.le_refl]
  | o, k, .no rest, s, n => by simp only [readKids, Nat.le_refl]
  | o, k, .cons p rest, s, n => by
    have h1 := (readTree_next p (.mk n true p.blank) (n + 1)).1
    have h2 := readKids_next o k rest (s ++ [(readTree p (.mk n true p.blank) (n + 1)).val]) (readTree p (.mk n true p.blank) (n + 1)).next
    simp only [readKids]
    split <;> simp only <;> omega

end

/-- Events about the objects from `n` to `m` only; if all went well about each of them that it began and then was put in. -/
def Told (n m : Nat) (ok : Bool) (es : List Ev) : Prop :=
  ∀ x, (¬ (n ≤ x ∧ x < m) → about x es = []) ∧
    (ok = true → n ≤ x → x < m → ∃ o k s c, about x es = [.begun x, .put o k s c] ∧ c.id = x)

theorem told_nil (n : Nat) (ok : Bool) : Told n n ok [] := fun x => ⟨fun _ => rfl, fun _ h1 h2 => by omega⟩

theorem told_child {n m m' o k : Nat} {ok : Bool} {es q : List Ev} {s : List Tree} {c : Tree} (hc : Told (n + 1) m true es) (hi : c.id = n)
    (h1 : n + 1 ≤ m) (h2 : m ≤ m') (hq : Told m m' ok q) : Told n m' ok (.begun n :: (es ++ .put o k s c :: q)) := by
  intro x
  have hb : (Ev.begun n).about x = decide (n = x) := rfl
  have hp : (Ev.put o k s c).about x = decide (n = x) := by simp only [Ev.about, hi]
  rw [about_cons, about_append, about_cons, hb, hp]
  constructor
  · intro hx
    have hn : n ≠ x := by omega
    simp only [hn, decide_false, Bool.false_eq_true, if_false]
    rw [(hc x).1 (by omega), (hq x).1 (by omega)]
    rfl
  · intro hok h3 h4
    by_cases hn : n = x
    · simp only [hn, decide_true, if_true]
      rw [(hc x).1 (by omega), (hq x).1 (by omega)]
      exact ⟨o, k, s, c, rfl, by rw [hi, hn]⟩
    · simp only [hn, decide_false, Bool.false_eq_true, if_false]
      by_cases hm : x < m
      · rw [(hq x).1 (by omega), List.append_nil]
        exact (hc x).2 rfl (by omega) hm
      · rw [(hc x).1 (by omega), List.nil_append]
        exact (hq x).2 hok (by omega) h4

theorem told_fail {n m : Nat} {b : Bool} {es : List Ev} (hc : Told (n + 1) m b es) (h1 : n + 1 ≤ m) : Told n m false (.begun n :: es) := by
  intro x
  refine ⟨fun hx => ?_, fun h => by cases h⟩
  have hb : (Ev.begun n).about x = decide (n = x) := rfl
  rw [about_cons, hb]
  have hn : n ≠ x := by omega
  simp only [hn, decide_false, Bool.false_eq_true, if_false]
  exact (hc x).1 (by omega)

theorem told_append {n m m' : Nat} {ok : Bool} {a b : List Ev} (ha : Told n m true a) (hb : Told m m' ok b) (h1 : n ≤ m) (h2 : m ≤ m') :
    Told n m' ok (a ++ b) := by
  intro x
  rw [about_append]
  constructor
  · intro hx
    rw [(ha x).1 (by omega), (hb x).1 (by omega)]
    rfl
  · intro hok h3 h4
    by_cases hm : x < m
    · rw [(hb x).1 (by omega), List.append_nil]
      exact (ha x).2 rfl h3 hm
    · rw [(ha x).1 (by omega), List.nil_append]
      exact (hb x).2 hok (by omega) h4

theorem told_weak {n m : Nat} {b : Bool} {es : List Ev} (h : Told n m b es) : Told n m false es := fun x =>
  ⟨(h x).1, fun h => by cases h⟩

mutual

theorem readTree_told : ∀ (p : Plan) (t : Tree) (n : Nat), Told n (readTree p t n).next (readTree p t n).ok (readTree p t n).evs
  | .mk bad slots, .mk i f ss, n => by
    simp only [readTree]
    split
    · exact told_nil _ _
    · exact readSlots_told i 0 slots ss n

theorem readSlots_told : ∀ (o k : Nat) (p : Slots) (ss : List (List Tree)) (n : Nat),
    Told n (readSlots o k p ss n).next (readSlots o k p ss n).ok (readSlots o k p ss n).evs
  | o, k, .nil, ss, n => by simp only [readSlots]; exact told_nil _ _
  | o, k, .keep rest, s :: ss, n => by
    simp only [readSlots]
    exact readSlots_told o (k + 1) rest ss n
  | o, k, .keep rest, [], n => by simp only [readSlots]; exact told_nil _ _
  | o, k, .noItem rest, ss, n => by simp only [readSlots]; exact told_nil _ _
  | o, k, .item p rest, [], n => by simp only [readSlots]; exact told_nil _ _
  | o, k, .item p rest, s :: ss, n => by
    have h1 := readTree_next p (.mk n true p.blank) (n + 1)
    have h2 := readSlots_next o (k + 1) rest ss (readTree p (.mk n true p.blank) (n + 1)).next
    have h3 := readTree_told p (.mk n true p.blank) (n + 1)
    have h4 := readSlots_told o (k + 1) rest ss (readTree p (.mk n true p.blank) (n + 1)).next
    simp only [readSlots]
    split
    · next hok =>
      rw [hok] at h3
      exact told_child h3 h1.2.1 h1.1 h2 h4
    · exact told_fail h3 h1.1
  | o, k, .rel ps rest, [], n => by simp only [readSlots]; exact told_nil _ _
  | o, k, .rel ps rest, s :: ss, n => by
    have h1 := readKids_next o k ps s n
    have h2 := readSlots_next o (k + 1) rest ss (readKids o k ps s n).next
    have h3 := readKids_told o k ps s n
    have h4 := readSlots_told o (k + 1) rest ss (readKids o k ps s n).next
    simp only [readSlots]
    split
    · next hok =>
      rw [hok] at h3
      exact told_append h3 h4 h1 h2
    · exact told_weak h3

theorem readKids_told : ∀ (o k : Nat) (p : Plans) (s : List Tree) (n : Nat),
    Told n (readKids o k p s n).next (readKids o k p s n).ok (readKids o k p s n).evs
  | o, k, .nil, s, n => by simp only [readKids]; exact told_nil _ _
  | o, k, .no rest, s, n => by simp only [readKids]; exact told_nil _ _
  | o, k, .cons p rest, s, n => by
    have h1 := readTree_next p (.mk n true p.blank) (n + 1)
    have h2 := readKids_next o k rest (s ++ [(readTree p (.mk n true p.blank) (n + 1)).val]) (readTree p (.mk n true p.blank) (n + 1)).next
    have h3 := readTree_told p (.mk n true p.blank) (n + 1)
    have h4 := readKids_told o k rest (s ++ [(readTree p (.mk n true p.blank) (n + 1)).val]) (readTree p (.mk n true p.blank) (n + 1)).next
    simp only [readKids]
    split
    · next hok =>
      rw [hok] at h3
      exact told_child h3 h1.2.1 h1.1 h2 h4
    · exact told_fail h3 h1.1

end

/-! Who finishes -/

/-- The events about an object that may be new. -/
def once (n m x : Nat) : List Ev := if n ≤ x ∧ x < m then [.finished x] else []

theorem once_self (n x : Nat) : once n n x = [] := if_neg (by omega)

theorem once_append {n m m' : Nat} (h1 : n ≤ m) (h2 : m ≤ m') (x : Nat) : once n m x ++ once m m' x = once n m' x := by
  simp only [once]
  by_cases h3 : n ≤ x <;> by_cases h4 : x < m <;> by_cases h5 : x < m'
  all_goals first
    | (rw [if_pos (by omega), if_neg (by omega), if_pos (by omega)]; rfl)
    | (rw [if_neg (by omega), if_pos (by omega), if_pos (by omega)]; rfl)
    | (rw [if_neg (by omega), if_neg (by omega), if_neg (by omega)]; rfl)

theorem about_finish (x : Nat) (t : Tree) : about x (finish t).2 = about x (finishSlots t.slots).2 ++ if t.id = x then [.finished x] else [] := by
  cases t with
  | mk i f ss =>
    simp only [finish, about_append, Tree.slots, Tree.id]
    congr 1
    by_cases h : i = x
    · simp [about, Ev.about, h]
    · simp [about, Ev.about, h]

theorem blank_finish : ∀ p : Slots, (finishSlots p.blank).2 = []
  | .nil => by simp only [Slots.blank, finishSlots]
  | .keep rest | .noItem rest | .item _ rest | .rel _ rest => by
    simp only [Slots.blank, finishSlots, finishKids, blank_finish rest, List.append_nil]

theorem plan_blank_finish : ∀ p : Plan, (finishSlots p.blank).2 = []
  | .mk _ slots => blank_finish slots

theorem finishKids_append (a b : List Tree) : (finishKids (a ++ b)).2 = (finishKids a).2 ++ (finishKids b).2 := by
  induction a with
  | nil => simp [finishKids]
  | cons t a ih => simp only [List.cons_append, finishKids, ih, List.append_assoc]

theorem child_finish (x : Nat) (p : Plan) (n : Nat)
    (h2 : about x (finishSlots (readTree p (.mk n true p.blank) (n + 1)).val.slots).2 =
      once (n + 1) (readTree p (.mk n true p.blank) (n + 1)).next x) :
    about x (finish (readTree p (.mk n true p.blank) (n + 1)).val).2 = once n (readTree p (.mk n true p.blank) (n + 1)).next x := by
  have h1 := readTree_next p (.mk n true p.blank) (n + 1)
  have h3 : (readTree p (.mk n true p.blank) (n + 1)).val.id = n := h1.2.1
  rw [about_finish, h2, h3]
  have h4 := h1.1
  simp only [once]
  by_cases h : n = x
  · rw [if_neg (by omega), if_pos h, if_pos (by omega)]
    rfl
  · rw [if_neg h, List.append_nil]
    by_cases h5 : n + 1 ≤ x ∧ x < (readTree p (.mk n true p.blank) (n + 1)).next
    · rw [if_pos h5, if_pos (by omega)]
    · rw [if_neg h5, if_neg (by omega)]

theorem child_blank (x : Nat) (p : Plan) (n : Nat) : about x (finishSlots (Tree.mk n true p.blank).slots).2 = [] := by
  rw [Tree.slots, plan_blank_finish]; rfl

mutual

theorem readTree_finish (x : Nat) : ∀ (p : Plan) (t : Tree) (n : Nat), (readTree p t n).ok = true → about x (finishSlots t.slots).2 = [] →
    about x (finishSlots (readTree p t n).val.slots).2 = once n (readTree p t n).next x
  | .mk bad slots, .mk i f ss, n, hok, h => by
    simp only [readTree] at hok ⊢
    split
    · next hb => simp [hb] at hok
    · next hb =>
      rw [if_neg hb] at hok
      exact readSlots_finish x i 0 slots ss n hok h

theorem readSlots_finish (x : Nat) : ∀ (o k : Nat) (p : Slots) (ss : List (List Tree)) (n : Nat), (readSlots o k p ss n).ok = true →
    about x (finishSlots ss).2 = [] → about x (finishSlots (readSlots o k p ss n).val).2 = once n (readSlots o k p ss n).next x
  | o, k, .nil, ss, n, _, h => by simp only [readSlots, once_self, h]
  | o, k, .keep rest, s :: ss, n, hok, h => by
    simp only [readSlots] at hok ⊢
    simp only [finishSlots, about_append, List.append_eq_nil_iff] at h ⊢
    rw [h.1, List.nil_append]
    exact readSlots_finish x o (k + 1) rest ss n hok h.2
  | o, k, .keep rest, [], n, _, h => by simp only [readSlots, once_self, h]
  | o, k, .noItem rest, ss, n, hok, h => by simp [readSlots] at hok
  | o, k, .item p rest, [], n, _, h => by simp only [readSlots, once_self, h]
  | o, k, .item p rest, s :: ss, n, hok, h => by
    have h1 := readTree_next p (.mk n true p.blank) (n + 1)
    have h2 := readSlots_next o (k + 1) rest ss (readTree p (.mk n true p.blank) (n + 1)).next
    simp only [readSlots] at hok ⊢
    simp only [finishSlots, about_append, List.append_eq_nil_iff] at h
    by_cases hc : (readTree p (.mk n true p.blank) (n + 1)).ok = true
    · simp only [if_pos hc] at hok ⊢
      simp only [finishSlots, finishKids, about_append, List.append_nil]
      rw [child_finish x p n (readTree_finish x p _ (n + 1) hc (child_blank x p n)), readSlots_finish x o (k + 1) rest ss _ hok h.2]
      exact once_append (by omega) h2 x
    · simp [hc] at hok
  | o, k, .rel ps rest, [], n, _, h => by simp only [readSlots, once_self, h]
  | o, k, .rel ps rest, s :: ss, n, hok, h => by
    have h1 := readKids_next o k ps s n
    have h2 := readSlots_next o (k + 1) rest ss (readKids o k ps s n).next
    simp only [readSlots] at hok ⊢
    simp only [finishSlots, about_append, List.append_eq_nil_iff] at h
    by_cases hc : (readKids o k ps s n).ok = true
    · simp only [if_pos hc] at hok ⊢
      simp only [finishSlots, about_append]
      rw [readKids_finish x o k ps s n hc, h.1, List.nil_append, readSlots_finish x o (k + 1) rest ss _ hok h.2]
      exact once_append h1 h2 x
    · simp [hc] at hok

theorem readKids_finish (x : Nat) : ∀ (o k : Nat) (p : Plans) (s : List Tree) (n : Nat), (readKids o k p s n).ok = true →
    about x (finishKids (readKids o k p s n).val).2 = about x (finishKids s).2 ++ once n (readKids o k p s n).next x
  | o, k, .nil, s, n, _ => by simp only [readKids, once_self, List.append_nil]
  | o, k, .no rest, s, n, hok => by simp [readKids] at hok
  | o, k, .cons p rest, s, n, hok => by
    have h1 := readTree_next p (.mk n true p.blank) (n + 1)
    have h2 := readKids_next o k rest (s ++ [(readTree p (.mk n true p.blank) (n + 1)).val]) (readTree p (.mk n true p.blank) (n + 1)).next
    simp only [readKids] at hok ⊢
    by_cases hc : (readTree p (.mk n true p.blank) (n + 1)).ok = true
    · simp only [if_pos hc] at hok ⊢
      rw [readKids_finish x o k rest _ _ hok, finishKids_append]
      simp only [finishKids, about_append, List.append_nil]
      rw [child_finish x p n (readTree_finish x p _ (n + 1) hc (child_blank x p n)), List.append_assoc, once_append (by omega) h2 x]
    · simp [hc] at hok

end

/-! Who is reading -/

def AllReading (t : Tree) : Prop := ∀ x, Within x t → x.reading = true

def SlotsReading (ss : List (List Tree)) : Prop := ∀ s ∈ ss, ∀ t ∈ s, AllReading t

theorem allReading_mk {t : Tree} (h1 : t.reading = true) (h2 : SlotsReading t.slots) : AllReading t := by
  intro x hx
  cases hx with
  | self => exact h1
  | step hs ht hx => exact h2 _ hs _ ht x hx

theorem blank_reading : ∀ p : Slots, SlotsReading p.blank
  | .nil => fun s hs => by simp [Slots.blank] at hs
  | .keep rest | .noItem rest | .item _ rest | .rel _ rest => fun s hs => by
    simp only [Slots.blank, List.mem_cons] at hs
    rcases hs with rfl | hs
    · intro t ht
      cases ht
    · exact blank_reading rest s hs

theorem plan_blank_reading : ∀ p : Plan, SlotsReading p.blank
  | .mk _ slots => blank_reading slots

/-- Whatever is put in is reading, with all of its content. -/
def PutsReading (es : List Ev) : Prop := ∀ o k b c, Ev.put o k b c ∈ es → AllReading c

theorem puts_nil : PutsReading [] := fun _ _ _ _ h => by cases h

theorem puts_child {n o k : Nat} {b : List Tree} {c : Tree} {es q : List Ev} (h1 : PutsReading es) (h2 : AllReading c) (h3 : PutsReading q) :
    PutsReading (.begun n :: (es ++ .put o k b c :: q)) := by
  intro o' k' b' c' h
  simp only [List.mem_cons, List.mem_append, reduceCtorEq, false_or, Ev.put.injEq] at h
  rcases h with h | ⟨rfl, rfl, rfl, rfl⟩ | h
  · exact h1 _ _ _ _ h
  · exact h2
  · exact h3 _ _ _ _ h

theorem puts_cons {n : Nat} {es : List Ev} (h1 : PutsReading es) : PutsReading (.begun n :: es) := by
  intro o' k' b' c' h
  simp only [List.mem_cons, reduceCtorEq, false_or] at h
  exact h1 _ _ _ _ h

theorem puts_append {a b : List Ev} (h1 : PutsReading a) (h2 : PutsReading b) : PutsReading (a ++ b) := fun o k s c h =>
  (List.mem_append.1 h).elim (h1 o k s c) (h2 o k s c)

theorem child_reading (p : Plan) (n : Nat) (h : SlotsReading (readTree p (.mk n true p.blank) (n + 1)).val.slots) :
    AllReading (readTree p (.mk n true p.blank) (n + 1)).val :=
  allReading_mk (readTree_next p (.mk n true p.blank) (n + 1)).2.2 h

mutual

theorem readTree_reading : ∀ (p : Plan) (t : Tree) (n : Nat),
    (SlotsReading t.slots → SlotsReading (readTree p t n).val.slots) ∧ PutsReading (readTree p t n).evs
  | .mk bad slots, .mk i f ss, n => by
    simp only [readTree]
    split
    · exact ⟨id, puts_nil⟩
    · exact readSlots_reading i 0 slots ss n

theorem readSlots_reading : ∀ (o k : Nat) (p : Slots) (ss : List (List Tree)) (n : Nat),
    (SlotsReading ss → SlotsReading (readSlots o k p ss n).val) ∧ PutsReading (readSlots o k p ss n).evs
  | o, k, .nil, ss, n => by simp only [readSlots]; exact ⟨id, puts_nil⟩
  | o, k, .keep rest, s :: ss, n => by
    obtain ⟨h1, h2⟩ := readSlots_reading o (k + 1) rest ss n
    simp only [readSlots]
    refine ⟨fun h s' hs' => ?_, h2⟩
    rcases List.mem_cons.1 hs' with rfl | hs'
    · exact h s' List.mem_cons_self
    · exact h1 (fun a ha => h a (List.mem_cons_of_mem _ ha)) s' hs'
  | o, k, .keep rest, [], n => by simp only [readSlots]; exact ⟨id, puts_nil⟩
  | o, k, .noItem rest, ss, n => by simp only [readSlots]; exact ⟨id, puts_nil⟩
  | o, k, .item p rest, [], n => by simp only [readSlots]; exact ⟨id, puts_nil⟩
  | o, k, .item p rest, s :: ss, n => by
    obtain ⟨h1, h2⟩ := readTree_reading p (.mk n true p.blank) (n + 1)
    obtain ⟨h3, h4⟩ := readSlots_reading o (k + 1) rest ss (readTree p (.mk n true p.blank) (n + 1)).next
    have hc := child_reading p n (h1 (plan_blank_reading p))
    simp only [readSlots]
    split
    · refine ⟨fun h s' hs' => ?_, puts_child h2 hc h4⟩
      rcases List.mem_cons.1 hs' with rfl | hs'
      · intro t ht
        rw [List.mem_singleton] at ht
        exact ht ▸ hc
      · exact h3 (fun a ha => h a (List.mem_cons_of_mem _ ha)) s' hs'
    · exact ⟨id, puts_cons h2⟩
  | o, k, .rel ps rest, [], n => by simp only [readSlots]; exact ⟨id, puts_nil⟩
  | o, k, .rel ps rest, s :: ss, n => by
    obtain ⟨h1, h2⟩ := readKids_reading o k ps s n
    obtain ⟨h3, h4⟩ := readSlots_reading o (k + 1) rest ss (readKids o k ps s n).next
    simp only [readSlots]
    split
    · refine ⟨fun h s' hs' => ?_, puts_append h2 h4⟩
      rcases List.mem_cons.1 hs' with rfl | hs'
      · exact h1 (h s List.mem_cons_self)
      · exact h3 (fun a ha => h a (List.mem_cons_of_mem _ ha)) s' hs'
    · refine ⟨fun h s' hs' => ?_, h2⟩
      rcases List.mem_cons.1 hs' with rfl | hs'
      · exact h1 (h s List.mem_cons_self)
      · exact h s' (List.mem_cons_of_mem _ hs')

theorem readKids_reading : ∀ (o k : Nat) (p : Plans) (s : List Tree) (n : Nat),
    ((∀ t ∈ s, AllReading t) → ∀ t ∈ (readKids o k p s n).val, AllReading t) ∧ PutsReading (readKids o k p s n).evs
  | o, k, .nil, s, n => by simp only [readKids]; exact ⟨id, puts_nil⟩
  | o, k, .no rest, s, n => by simp only [readKids]; exact ⟨id, puts_nil⟩
  | o, k, .cons p rest, s, n => by
    obtain ⟨h1, h2⟩ := readTree_reading p (.mk n true p.blank) (n + 1)
    obtain ⟨h3, h4⟩ := readKids_reading o k rest (s ++ [(readTree p (.mk n true p.blank) (n + 1)).val]) (readTree p (.mk n true p.blank) (n + 1)).next
    have hc := child_reading p n (h1 (plan_blank_reading p))
    simp only [readKids]
    split
    · refine ⟨fun h => h3 fun t ht => ?_, puts_child h2 hc h4⟩
      rcases List.mem_append.1 ht with ht | ht
      · exact h t ht
      · rw [List.mem_singleton] at ht
        exact ht ▸ hc
    · exact ⟨id, puts_cons h2⟩

end

/-! Where they are put -/

theorem placed_up {o k i : Nat} {f : Bool} {c t : Tree} {s : List Tree} {ss : List (List Tree)} (h : Placed o k c t) (hs : s ∈ ss) (ht : t ∈ s) :
    Placed o k c (.mk i f ss) := by
  obtain ⟨x, h1, h2⟩ := h
  exact ⟨x, .step hs ht h1, h2⟩

mutual

theorem readTree_placed : ∀ (p : Plan) (t : Tree) (n : Nat), (readTree p t n).ok = true →
    ∀ o k b c, Ev.put o k b c ∈ (readTree p t n).evs → Placed o k c (readTree p t n).val
  | .mk bad slots, .mk i f ss, n, hok, o, k, b, c, h => by
    simp only [readTree] at hok h ⊢
    by_cases hb : bad = true
    · simp [hb] at hok
    · rw [if_neg hb] at hok h ⊢
      rcases readSlots_placed i 0 slots ss n hok o k b c h with ⟨rfl, j, s, rfl, h1, h2⟩ | ⟨s, hs, t, ht, h1⟩
      · refine ⟨_, .self, rfl, s, ?_, h2⟩
        rw [Nat.zero_add]
        exact h1
      · exact placed_up h1 hs ht

theorem readSlots_placed : ∀ (o k : Nat) (p : Slots) (ss : List (List Tree)) (n : Nat), (readSlots o k p ss n).ok = true →
    ∀ o' k' b c, Ev.put o' k' b c ∈ (readSlots o k p ss n).evs →
      (o' = o ∧ ∃ j s, k' = k + j ∧ (readSlots o k p ss n).val[j]? = some s ∧ c ∈ s) ∨
        ∃ s ∈ (readSlots o k p ss n).val, ∃ t ∈ s, Placed o' k' c t
  | o, k, .nil, ss, n, _, _, _, _, _, h => by simp [readSlots] at h
  | o, k, .keep rest, s :: ss, n, hok, o', k', b, c, h => by
    simp only [readSlots] at hok h ⊢
    rcases readSlots_placed o (k + 1) rest ss n hok o' k' b c h with ⟨h0, j, s', h1, h2, h3⟩ | ⟨s', hs, h1⟩
    · exact .inl ⟨h0, j + 1, s', by omega, by simpa using h2, h3⟩
    · exact .inr ⟨s', List.mem_cons_of_mem _ hs, h1⟩
  | o, k, .keep rest, [], n, _, _, _, _, _, h => by simp [readSlots] at h
  | o, k, .noItem rest, ss, n, _, _, _, _, _, h => by simp [readSlots] at h
  | o, k, .item p rest, [], n, _, _, _, _, _, h => by simp [readSlots] at h
  | o, k, .item p rest, s :: ss, n, hok, o', k', b, c, h => by
    simp only [readSlots] at hok h ⊢
    by_cases hc : (readTree p (.mk n true p.blank) (n + 1)).ok = true
    · simp only [if_pos hc] at hok h ⊢
      simp only [List.mem_cons, List.mem_append, reduceCtorEq, false_or, Ev.put.injEq] at h
      rcases h with h | ⟨rfl, rfl, rfl, rfl⟩ | h
      · exact .inr ⟨_, List.mem_cons_self, _, List.mem_singleton_self _, readTree_placed p _ _ hc o' k' b c h⟩
      · exact .inl ⟨rfl, 0, _, rfl, rfl, List.mem_singleton_self _⟩
      · rcases readSlots_placed o (k + 1) rest ss _ hok o' k' b c h with ⟨h0, j, s', h1, h2, h3⟩ | ⟨s', hs, h1⟩
        · exact .inl ⟨h0, j + 1, s', by omega, by simpa using h2, h3⟩
        · exact .inr ⟨s', List.mem_cons_of_mem _ hs, h1⟩
    · simp [hc] at hok
  | o, k, .rel ps rest, [], n, _, _, _, _, _, h => by simp [readSlots] at h
  | o, k, .rel ps rest, s :: ss, n, hok, o', k', b, c, h => by
    simp only [readSlots] at hok h ⊢
    by_cases hc : (readKids o k ps s n).ok = true
    · simp only [if_pos hc] at hok h ⊢
      rcases List.mem_append.1 h with h | h
      · rcases (readKids_placed o k ps s n hc).2 o' k' b c h with ⟨rfl, rfl, h1⟩ | ⟨t, ht, h1⟩
        · exact .inl ⟨rfl, 0, _, rfl, rfl, h1⟩
        · exact .inr ⟨_, List.mem_cons_self, t, ht, h1⟩
      · rcases readSlots_placed o (k + 1) rest ss _ hok o' k' b c h with ⟨h0, j, s', h1, h2, h3⟩ | ⟨s', hs, h1⟩
        · exact .inl ⟨h0, j + 1, s', by omega, by simpa using h2, h3⟩
        · exact .inr ⟨s', List.mem_cons_of_mem _ hs, h1⟩
    · simp [hc] at hok

theorem readKids_placed : ∀ (o k : Nat) (p : Plans) (s : List Tree) (n : Nat), (readKids o k p s n).ok = true →
    (∀ t ∈ s, t ∈ (readKids o k p s n).val) ∧
    ∀ o' k' b c, Ev.put o' k' b c ∈ (readKids o k p s n).evs →
      (o' = o ∧ k' = k ∧ c ∈ (readKids o k p s n).val) ∨ ∃ t ∈ (readKids o k p s n).val, Placed o' k' c t
  | o, k, .nil, s, n, _ => by simp [readKids]
  | o, k, .no rest, s, n, hok => by simp [readKids] at hok
  | o, k, .cons p rest, s, n, hok => by
    simp only [readKids] at hok ⊢
    by_cases hc : (readTree p (.mk n true p.blank) (n + 1)).ok = true
    · simp only [if_pos hc] at hok ⊢
      obtain ⟨h1, h2⟩ := readKids_placed o k rest (s ++ [(readTree p (.mk n true p.blank) (n + 1)).val]) _ hok
      have hin := h1 _ (List.mem_append_right _ (List.mem_singleton_self _))
      refine ⟨fun t ht => h1 t (List.mem_append_left _ ht), fun o' k' b c h => ?_⟩
      simp only [List.mem_cons, List.mem_append, reduceCtorEq, false_or, Ev.put.injEq] at h
      rcases h with h | ⟨rfl, rfl, rfl, rfl⟩ | h
      · exact .inr ⟨_, hin, readTree_placed p _ _ hc o' k' b c h⟩
      · exact .inl ⟨rfl, rfl, hin⟩
      · exact h2 o' k' b c h
    · simp [hc] at hok

end

/-! Finishing -/

theorem mem_finishKids {ts : List Tree} {x : Tree} : x ∈ (finishKids ts).1 ↔ ∃ t ∈ ts, x = (finish t).1 := by
  induction ts with
  | nil => simp [finishKids]
  | cons t ts ih => simp only [finishKids, List.mem_cons, ih, exists_eq_or_imp]

theorem finishSlots_eq (ss : List (List Tree)) : (finishSlots ss).1 = ss.map fun s => (finishKids s).1 := by
  induction ss with
  | nil => rfl
  | cons s ss ih => simp only [finishSlots, ih, List.map_cons]

theorem finish_within {c t : Tree} (h : Within c t) : Within (finish c).1 (finish t).1 := by
  induction h with
  | self => exact .self
  | @step i f ss s t hs ht _ ih =>
    rw [finish]
    refine .step (s := (finishKids s).1) ?_ (mem_finishKids.2 ⟨t, ht, rfl⟩) ih
    rw [finishSlots_eq]
    exact List.mem_map.2 ⟨s, hs, rfl⟩

mutual

theorem finish_flags : ∀ (t x : Tree), Within x (finish t).1 → x.reading = false
  | .mk i f ss, x, h => by
    rw [finish] at h
    cases h with
    | self => rfl
    | step hs ht hx => exact finishSlots_flags ss _ hs _ ht x hx

theorem finishSlots_flags : ∀ (ss : List (List Tree)), ∀ s ∈ (finishSlots ss).1, ∀ t ∈ s, ∀ x, Within x t → x.reading = false
  | [], s, hs, _, _, _, _ => by simp [finishSlots] at hs
  | a :: ss, s, hs, t, ht, x, hx => by
    simp only [finishSlots, List.mem_cons] at hs
    rcases hs with rfl | hs
    · exact finishKids_flags a t ht x hx
    · exact finishSlots_flags ss s hs t ht x hx

theorem finishKids_flags : ∀ (ts : List Tree), ∀ t ∈ (finishKids ts).1, ∀ x, Within x t → x.reading = false
  | [], t, ht, _, _ => by simp [finishKids] at ht
  | a :: ts, t, ht, x, hx => by
    simp only [finishKids, List.mem_cons] at ht
    rcases ht with rfl | ht
    · exact finish_flags a x hx
    · exact finishKids_flags ts t ht x hx

end

mutual

theorem finish_evs : ∀ (t : Tree) (e : Ev), e ∈ (finish t).2 → ∃ y, Within y t ∧ e = .finished y.id
  | .mk i f ss, e, h => by
    rw [finish] at h
    rcases List.mem_append.1 h with h | h
    · obtain ⟨s, hs, t, ht, y, hy, he⟩ := finishSlots_evs ss e h
      exact ⟨y, .step hs ht hy, he⟩
    · exact ⟨_, .self, List.mem_singleton.1 h⟩

theorem finishSlots_evs : ∀ (ss : List (List Tree)) (e : Ev), e ∈ (finishSlots ss).2 → ∃ s ∈ ss, ∃ t ∈ s, ∃ y, Within y t ∧ e = .finished y.id
  | [], e, h => by simp [finishSlots] at h
  | s :: ss, e, h => by
    rw [finishSlots] at h
    rcases List.mem_append.1 h with h | h
    · obtain ⟨t, ht, hy⟩ := finishKids_evs s e h
      exact ⟨s, List.mem_cons_self, t, ht, hy⟩
    · obtain ⟨s', hs, hy⟩ := finishSlots_evs ss e h
      exact ⟨s', List.mem_cons_of_mem _ hs, hy⟩

theorem finishKids_evs : ∀ (ts : List Tree) (e : Ev), e ∈ (finishKids ts).2 → ∃ t ∈ ts, ∃ y, Within y t ∧ e = .finished y.id
  | [], e, h => by simp [finishKids] at h
  | t :: ts, e, h => by
    rw [finishKids] at h
    rcases List.mem_append.1 h with h | h
    · obtain ⟨y, hy⟩ := finish_evs t e h
      exact ⟨t, List.mem_cons_self, y, hy⟩
    · obtain ⟨t', ht, hy⟩ := finishKids_evs ts e h
      exact ⟨t', List.mem_cons_of_mem _ ht, hy⟩

end

theorem finishKids_split {ts : List Tree} {t : Tree} (h : t ∈ ts) : ∃ a b, (finishKids ts).2 = a ++ ((finish t).2 ++ b) := by
  induction ts with
  | nil => cases h
  | cons u ts ih =>
    rw [finishKids]
    rcases List.mem_cons.1 h with rfl | h
    · exact ⟨[], _, rfl⟩
    · obtain ⟨a, b, hab⟩ := ih h
      exact ⟨(finish u).2 ++ a, b, by rw [hab, List.append_assoc]⟩

theorem finishSlots_split {ss : List (List Tree)} {s : List Tree} (h : s ∈ ss) : ∃ a b, (finishSlots ss).2 = a ++ ((finishKids s).2 ++ b) := by
  induction ss with
  | nil => cases h
  | cons u ss ih =>
    rw [finishSlots]
    rcases List.mem_cons.1 h with rfl | h
    · exact ⟨[], _, rfl⟩
    · obtain ⟨a, b, hab⟩ := ih h
      exact ⟨(finishKids u).2 ++ a, b, by rw [hab, List.append_assoc]⟩

theorem finish_split {y t : Tree} (h : Within y t) : ∃ a b, (finish t).2 = a ++ ((finish y).2 ++ b) := by
  induction h with
  | self => exact ⟨[], [], by simp⟩
  | @step i f ss s t hs ht _ ih =>
    obtain ⟨a, b, h1⟩ := ih
    obtain ⟨a', b', h2⟩ := finishKids_split ht
    obtain ⟨a'', b'', h3⟩ := finishSlots_split hs
    refine ⟨a'' ++ a' ++ a, b ++ b' ++ b'' ++ [.finished i], ?_⟩
    rw [finish, h3, h2, h1]
    simp only [List.append_assoc]

theorem session_eq {p : Plan} {t : Tree} {n : Nat} (h : (session p t n).ok = true) :
    (readTree p (begin t).1 n).ok = true ∧ (session p t n).val = (finish (readTree p (begin t).1 n).val).1 ∧
      (session p t n).next = (readTree p (begin t).1 n).next ∧
      (session p t n).evs = (begin t).2 ++ ((readTree p (begin t).1 n).evs ++ (finish (readTree p (begin t).1 n).val).2) := by
  simp only [session] at h ⊢
  by_cases hc : (readTree p (begin t).1 n).ok = true
  · simp only [if_pos hc]
    exact ⟨hc, trivial, trivial, trivial⟩
  · simp [hc] at h

/-! ### C132 -/

/-- C132 (partial: reading does not raise; objects made by reading): every object made is told that reading begins, then it is put into
its container, then it is told that reading is finished, each exactly once. -/
theorem C132_once_partial (p : Plan) (t : Tree) (n : Nat) (hn : ∀ y, Within y t → y.id < n) (hok : (session p t n).ok = true)
    (x : Nat) (h1 : n ≤ x) (h2 : x < (session p t n).next) :
    ∃ o k b c, c.id = x ∧ about x (session p t n).evs = [.begun x, .put o k b c, .finished x] := by
  obtain ⟨hr, -, hnext, hevs⟩ := session_eq hok
  rw [hnext] at h2
  obtain ⟨o, k, b, c, h3, h4⟩ := (readTree_told p (begin t).1 n x).2 hr h1 h2
  refine ⟨o, k, b, c, h4, ?_⟩
  have hroot : t.id < n := hn t .self
  have hid : (begin t).1.id = t.id := by cases t; rfl
  have hslots : (begin t).1.slots = t.slots := by cases t; rfl
  have hb : about x (begin t).2 = [] := by
    cases t with
    | mk i f ss =>
      have : i ≠ x := by simp only [Tree.id] at hroot; omega
      simp [begin, about, Ev.about, this]
  have hold : about x (finishSlots (begin t).1.slots).2 = [] := by
    rw [hslots]
    refine List.filter_eq_nil_iff.2 fun e he => ?_
    obtain ⟨s, hs, u, hu, y, hy, rfl⟩ := finishSlots_evs _ e he
    have : y.id < n := hn y (by
      cases t with
      | mk i f ss => exact .step hs hu hy)
    simp only [Ev.about, decide_eq_true_eq]
    omega
  have hfin := readTree_finish x p (begin t).1 n hr hold
  have hnew : (readTree p (begin t).1 n).val.id ≠ x := by
    rw [(readTree_next p (begin t).1 n).2.1, hid]
    omega
  rw [hevs, about_append, about_append, hb, h3, about_finish, hfin, if_neg hnew, once, if_pos ⟨h1, h2⟩]
  rfl

/-- C132 (partial: reading does not raise): what an object is told to contain it does contain at the end; the object put in is complete (it
is the object that is there at the end, except for the marks), and marked as reading, with everything in it. -/
theorem C132_complete_partial (p : Plan) (t : Tree) (n : Nat) (hok : (session p t n).ok = true) (o k : Nat) (b : List Tree) (c : Tree)
    (h : Ev.put o k b c ∈ (session p t n).evs) :
    (∀ x, Within x c → x.reading = true) ∧ Placed o k (finish c).1 (session p t n).val := by
  obtain ⟨hr, hval, -, hevs⟩ := session_eq hok
  have h1 : Ev.put o k b c ∈ (readTree p (begin t).1 n).evs := by
    rw [hevs] at h
    rcases List.mem_append.1 h with h | h
    · cases t
      simp [begin] at h
    · rcases List.mem_append.1 h with h | h
      · exact h
      · obtain ⟨y, -, hy⟩ := finish_evs _ _ h
        cases hy
  refine ⟨(readTree_reading p (begin t).1 n).2 o k b c h1, ?_⟩
  obtain ⟨x, h2, h3, s, h4, h5⟩ := readTree_placed p (begin t).1 n hr o k b c h1
  rw [hval]
  refine ⟨(finish x).1, finish_within h2, ?_, (finishKids s).1, ?_, mem_finishKids.2 ⟨c, h5, rfl⟩⟩
  · rw [← h3]
    cases x
    rw [finish]
    rfl
  · cases x with
    | mk i f ss =>
      simp only [Tree.slots] at h4
      rw [finish, Tree.slots, finishSlots_eq, List.getElem?_map, h4]
      rfl

/-- C132: after `finish_reading` neither the object nor anything in it is marked as reading, whatever was there before. -/
theorem C132_marks (t x : Tree) (h : Within x (finish t).1) : x.reading = false := finish_flags t x h

/-- C132: an object is told that reading is finished after everything in it. -/
theorem C132_inner_first (t y : Tree) (h : Within y t) : ∃ a es b, (finish t).2 = a ++ (es ++ (.finished y.id :: b)) ∧
    ∀ z, Within z y → z ≠ y → Ev.finished z.id ∈ es := by
  obtain ⟨a, b, h1⟩ := finish_split h
  cases y with
  | mk i f ss =>
    refine ⟨a, (finishSlots ss).2, b, ?_, ?_⟩
    · rw [h1, finish]
      simp [Tree.id]
    · intro z hz hne
      cases hz with
      | self => exact absurd rfl hne
      | step hs ht hz =>
        obtain ⟨a1, b1, e1⟩ := finishSlots_split hs
        obtain ⟨a2, b2, e2⟩ := finishKids_split ht
        obtain ⟨a3, b3, e3⟩ := finish_split hz
        rw [e1, e2, e3]
        cases z
        rw [finish]
        simp [Tree.id]

/-- C132, counterexample: an object that was there before is told that reading is finished, though never that it begins. -/
theorem C132_counterexample_again :
    about 1 (session (.mk false (.rel .nil .nil)) (.mk 0 false [[.mk 1 false []]]) 2).evs = [.finished 1] := rfl

/-- C132, counterexample: if the second object of a relationship cannot be made, the object that is read and the first one stay marked. -/
theorem C132_counterexample_raises : let r := session (.mk false (.rel (.cons (.mk false .nil) (.no .nil)) .nil)) (.mk 0 false [[]]) 1
    r.ok = false ∧ r.val = .mk 0 true [[.mk 1 true []]] := ⟨rfl, rfl⟩

/-- An item that contains two objects, and a relationship with one: the item replaces the one that was there. -/
example :
    let leaf : Plan := .mk false .nil
    let r := session (.mk false (.item (.mk false (.rel (.cons leaf (.cons leaf .nil)) .nil)) (.rel (.cons leaf .nil) .nil))) (.mk 0 false [[.mk 1 false []], []]) 2
    r.val = .mk 0 false [[.mk 2 false [[.mk 3 false [], .mk 4 false []]]], [.mk 5 false []]] ∧
    r.evs = [.begun 0, .begun 2, .begun 3, .put 2 0 [] (.mk 3 true []), .begun 4, .put 2 0 [.mk 3 true []] (.mk 4 true []),
      .put 0 0 [.mk 1 false []] (.mk 2 true [[.mk 3 true [], .mk 4 true []]]), .begun 5, .put 0 1 [] (.mk 5 true []),
      .finished 3, .finished 4, .finished 2, .finished 5, .finished 0] := ⟨rfl, rfl⟩

end Verif.Persist.Reading
