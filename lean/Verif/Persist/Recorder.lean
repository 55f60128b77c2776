import Verif.Py.Basic
import Mathlib.Data.List.Basic
import Mathlib.Logic.Function.Basic
import Mathlib.Tactic.Common

/-!
C61: the recorder (`nion/utils/Recorder.py`). The recorded object has properties (numbered), one item and one relationship; the
contained objects (numbered) have properties. It fires the events the recorder listens to after each change, as
`Persistence.PersistentObject` with callbacks firing them does; an exception in a handler of the recorder is caught by `Event.fire`
and leaves what the handler did so far. Not modelled: deeper trees, several items or relationships, validators (a value set is the
value got), the order of two recorders of one object.
-/

namespace Verif.Persist.Recorder

open Verif.Py

variable {V : Type}

/-- The recorded object. -/
structure Obj (V : Type) where
  own : Nat → V
  item : Option Nat
  items : List Nat
  vals : Nat → Nat → V

/-- The logged functions: they use the recorded object as it is when they are applied. -/
inductive Entry where
  /-- line 72, for the object itself -/
  | own (k : Nat)
  /-- line 72, for the object `o` recorded as the item -/
  | item (o k : Nat)
  /-- line 72, for the object `o` recorded at an index of the relationship -/
  | at (o : Nat) (i : Int) (k : Nat)
  /-- line 95 -/
  | insert (i : Int) (o : Nat)
  /-- line 103 -/
  | remove (i : Nat)
  deriving DecidableEq

/-- The recorders of contained objects with the index in their accessor function, and the log; lines 14-36. -/
structure Rec where
  item : Option Nat
  items : List (Nat × Int)
  log : List Entry

def Rec.init (s : Obj V) : Rec := ⟨s.item, s.items.zipIdx.map fun p => (p.1, (p.2 : Int)), []⟩

inductive Op (V : Type) where
  | setOwn (k : Nat) (v : V)
  | setVal (o k : Nat) (v : V)
  | setItem (o : Option Nat)
  | insert (i : Int) (o : Nat)
  | remove (o : Nat)

/-- Which properties are recordable, of the object and of contained objects (`_is_persistent_property_recordable`). -/
structure Defs where
  own : Nat → Bool
  item : Nat → Bool

/-- Lines 89-95 `__item_inserted`. For each recorder at or after the index, `_accessor_fn = …` is a property whose setter calls
itself (65-67): `RecursionError`, nothing is recorded. -/
def Rec.inserted (r : Rec) (i : Int) (o : Nat) : Rec :=
  if r.items ≠ [] ∧ i < r.items.length then r
  else { r with items := Py.insert r.items i (o, i), log := r.log ++ [.insert i o] }

/-- Lines 97-103 `__item_removed`; `RecursionError` as above, `IndexError` from `pop`. -/
def Rec.removed (r : Rec) (i : Nat) : Rec :=
  if i + 1 < r.items.length then r
  else if i < r.items.length then { r with items := r.items.eraseIdx i, log := r.log ++ [.remove i] }
  else r

/-- The recorded object and its recorder: a change and the recorder's handler. `__item_set` (76-87): `KeyError` if no item was
recorded, else the item's recorder is closed and `__accessor_fn()` raises `TypeError`; nothing is recorded. -/
def step (d : Defs) (p : Obj V × Rec) : Op V → Obj V × Rec
  | .setOwn k v =>
    ({ p.1 with own := Function.update p.1.own k v },
      if d.own k then { p.2 with log := p.2.log ++ [.own k] } else p.2)
  | .setVal o k v =>
    ({ p.1 with vals := Function.update p.1.vals o (Function.update (p.1.vals o) k v) },
      if d.item k then
        { p.2 with log := p.2.log ++ (if p.2.item = some o then [.item o k] else []) ++
            ((p.2.items.filter fun r => r.1 = o).map fun r => .at o r.2 k) }
      else p.2)
  | .setItem o => ({ p.1 with item := o }, { p.2 with item := none })
  | .insert i o => ({ p.1 with items := Py.insert p.1.items i o }, p.2.inserted i o)
  | .remove o =>
    if o ∈ p.1.items then
      ({ p.1 with items := p.1.items.eraseIdx (p.1.items.idxOf o) }, p.2.removed (p.1.items.idxOf o))
    else p

def run (d : Defs) (p : Obj V × Rec) (ops : List (Op V)) : Obj V × Rec := ops.foldl (step d) p

/-- The contents of an object: what `apply` works on, what makes objects equal. -/
@[ext] structure Con (V : Type) where
  own : Nat → V
  item : Option (Nat → V)
  items : List (Nat → V)

def Obj.con (s : Obj V) : Con V := ⟨s.own, s.item.map s.vals, s.items.map s.vals⟩

/-- One logged function applied to an object, `s` being the recorded object; `none` is a raised exception. -/
def Entry.apply (s : Obj V) (t : Con V) : Entry → Option (Con V)
  | .own k => some { t with own := Function.update t.own k (s.own k) }
  | .item o k => t.item.map fun f => { t with item := some (Function.update f k (s.vals o k)) }
  | .at o i k => (index? t.items.length i).bind fun j => t.items[j]?.map fun f =>
      { t with items := t.items.set j (Function.update f k (s.vals o k)) }
  | .insert i o => some { t with items := Py.insert t.items i (s.vals o) }
  | .remove i => if i < t.items.length then some { t with items := t.items.eraseIdx i } else none

/-- Lines 57-59 `apply`. -/
def applyAll (s : Obj V) : List Entry → Con V → Option (Con V)
  | [], t => some t
  | e :: l, t => (e.apply s t).bind (applyAll s l)

theorem applyAll_append (s : Obj V) (l l' : List Entry) (t : Con V) :
    applyAll s (l ++ l') t = (applyAll s l t).bind (applyAll s l') := by
  induction l generalizing t with
  | nil => rfl
  | cons e l ih =>
    simp only [List.cons_append, applyAll]
    cases e.apply s t with
    | none => rfl
    | some t' => exact ih t'

/-- Changes as the recorder handles them: recordable properties are set, items are appended, the last item is removed. -/
def Op.Good (d : Defs) (s : Obj V) : Op V → Prop
  | .setOwn k _ => d.own k = true
  | .setVal _ k _ => d.item k = true
  | .setItem _ => False
  | .insert i _ => i = s.items.length
  | .remove o => s.items.idxOf o + 1 = s.items.length

def AllGood (d : Defs) : Obj V × Rec → List (Op V) → Prop
  | _, [] => True
  | p, op :: ops => op.Good d p.1 ∧ AllGood d (step d p op) ops

/-! ### The proof: what is replayed has, in each place, the value of the recorded object at that time or its final value -/

def NearF (fin now f : Nat → V) : Prop := ∀ k, f k = now k ∨ f k = fin k

structure Near (fin s : Obj V) (t : Con V) : Prop where
  own : NearF fin.own s.own t.own
  item : (s.item = none ∧ t.item = none) ∨ ∃ o f, s.item = some o ∧ t.item = some f ∧ NearF (fin.vals o) (s.vals o) f
  length : t.items.length = s.items.length
  items : ∀ (j : Nat) (o : Nat) (f : Nat → V), s.items[j]? = some o → t.items[j]? = some f → NearF (fin.vals o) (s.vals o) f

/-- The recorder follows the object. -/
structure InStep (s : Obj V) (r : Rec) : Prop where
  item : r.item = s.item
  items : r.items = s.items.zipIdx.map fun p => (p.1, (p.2 : Int))

theorem NearF.update {fin now f : Nat → V} (h : NearF fin now f) (k : Nat) (v : V) :
    NearF fin (Function.update now k v) (Function.update f k (fin k)) := by
  intro k'
  by_cases hk : k' = k
  · subst hk; simp
  · simpa [Function.update_of_ne hk] using h k'

/-- Logged changes of a property of items. -/
theorem applyAll_at (s : Obj V) (o k : Nat) : ∀ (E : List Nat) (t : Con V), (∀ j ∈ E, j < t.items.length) →
    ∃ t', applyAll s (E.map fun (j : Nat) => Entry.at o (j : Int) k) t = some t' ∧ t'.own = t.own ∧ t'.item = t.item ∧
      t'.items.length = t.items.length ∧
      ∀ (j : Nat) (f' : Nat → V), t'.items[j]? = some f' → ∃ f, t.items[j]? = some f ∧
        ((j ∈ E ∧ f' = Function.update f k (s.vals o k)) ∨ (j ∉ E ∧ f' = f))
  | [], t, _ => ⟨t, rfl, rfl, rfl, rfl, fun j f' h => ⟨f', h, .inr ⟨by simp, rfl⟩⟩⟩
  | i :: E, t, hE => by
    have hi : i < t.items.length := hE i (by simp)
    obtain ⟨t', h1, h2, h3, h4, h5⟩ := applyAll_at s o k E
      { t with items := t.items.set i (Function.update t.items[i] k (s.vals o k)) } (by
        intro j hj
        simpa using hE j (by simp [hj]))
    refine ⟨t', ?_, h2, h3, by simpa using h4, fun j f' hf' => ?_⟩
    · simp only [List.map_cons, applyAll, Entry.apply, index?_nat hi, Option.bind_some, List.getElem?_eq_getElem hi,
        Option.map_some]
      exact h1
    · obtain ⟨f, hf, hc⟩ := h5 j f' hf'
      simp only at hf
      by_cases hij : i = j
      · subst hij
        rw [List.getElem?_set_self hi] at hf
        cases hf
        refine ⟨t.items[i], List.getElem?_eq_getElem hi, .inl ⟨by simp, ?_⟩⟩
        rcases hc with ⟨_, rfl⟩ | ⟨_, rfl⟩
        · simp
        · rfl
      · rw [List.getElem?_set_ne hij] at hf
        refine ⟨f, hf, ?_⟩
        rcases hc with ⟨hm, rfl⟩ | ⟨hm, rfl⟩
        · exact .inl ⟨by simp [hm], rfl⟩
        · exact .inr ⟨by simp [hm, Ne.symm hij], rfl⟩

theorem idxOf_last {l : List Nat} {o : Nat} (h : l.idxOf o + 1 = l.length) : o ∈ l := by
  by_contra hc
  rw [List.idxOf_eq_length hc] at h
  omega

/-- One good change: the recorder stays in step and its new entries bring along what is replayed. -/
theorem step_near (d : Defs) (fin : Obj V) {s : Obj V} {r : Rec} (hs : InStep s r) (op : Op V) (hg : op.Good d s) {t : Con V}
    (ht : Near fin s t) :
    InStep (step d (s, r) op).1 (step d (s, r) op).2 ∧ ∃ new, (step d (s, r) op).2.log = r.log ++ new ∧
      ∃ t', applyAll fin new t = some t' ∧ Near fin (step d (s, r) op).1 t' := by
  cases op with
  | setOwn k v =>
    have hk : d.own k = true := hg
    simp only [step, hk, if_true]
    exact ⟨⟨hs.item, hs.items⟩, [.own k], rfl, _, rfl, ⟨ht.own.update k v, ht.item, ht.length, ht.items⟩⟩
  | setVal o k v =>
    have hk : d.item k = true := hg
    simp only [step, hk, if_true]
    refine ⟨⟨hs.item, hs.items⟩, _, by rw [List.append_assoc], ?_⟩
    -- the item
    obtain ⟨t1, h1, hown, hlen, hitems, hit⟩ : ∃ t1, applyAll fin (if r.item = some o then [.item o k] else []) t = some t1 ∧
        t1.own = t.own ∧ t1.items.length = t.items.length ∧ t1.items = t.items ∧
        ((s.item = none ∧ t1.item = none) ∨ ∃ o' f, s.item = some o' ∧ t1.item = some f ∧
          NearF (fin.vals o') (Function.update s.vals o (Function.update (s.vals o) k v) o') f) := by
      rw [hs.item]
      rcases ht.item with ⟨ha, hb⟩ | ⟨o', f, ha, hb, hn⟩
      · refine ⟨t, ?_, rfl, rfl, rfl, .inl ⟨ha, hb⟩⟩
        rw [ha]
        rfl
      · by_cases ho : o' = o
        · subst ho
          refine ⟨{ t with item := some (Function.update f k (fin.vals o' k)) }, ?_, rfl, rfl, rfl,
            .inr ⟨o', _, ha, rfl, ?_⟩⟩
          · simp [ha, applyAll, Entry.apply, hb]
          · rw [Function.update_self]
            exact hn.update k v
        · refine ⟨t, ?_, rfl, rfl, rfl, .inr ⟨o', f, ha, hb, ?_⟩⟩
          · simp [ha, ho, applyAll]
          · rwa [Function.update_of_ne ho]
    -- the relationship
    have hent : ((r.items.filter fun p => p.1 = o).map fun p => Entry.at o p.2 k) =
        ((s.items.zipIdx.filter fun p => p.1 = o).map fun p => p.2).map fun (j : Nat) => Entry.at o (j : Int) k := by
      rw [hs.items, List.filter_map, List.map_map, List.map_map]
      rfl
    have hmem : ∀ j : Nat, (j ∈ (s.items.zipIdx.filter fun p => p.1 = o).map fun p => p.2) ↔ s.items[j]? = some o := by
      intro j
      constructor
      · intro hj
        obtain ⟨⟨x, y⟩, hxy, rfl⟩ := List.mem_map.1 hj
        obtain ⟨ha, hb⟩ := List.mem_filter.1 hxy
        have := List.mem_zipIdx_iff_getElem?.1 ha
        simp only [decide_eq_true_eq] at hb
        rw [← hb]
        exact this
      · intro hj
        exact List.mem_map.2 ⟨(o, j), List.mem_filter.2 ⟨List.mem_zipIdx_iff_getElem?.2 hj, by simp⟩, rfl⟩
    obtain ⟨t', h2, h3, h4, h5, h6⟩ := applyAll_at fin o k ((s.items.zipIdx.filter fun p => p.1 = o).map fun p => p.2) t1 (by
      intro j hj
      rw [hlen, ht.length]
      exact (List.getElem?_eq_some_iff.1 ((hmem j).1 hj)).1)
    refine ⟨t', ?_, ?_⟩
    · rw [applyAll_append, h1, Option.bind_some, hent, h2]
    · refine ⟨by rw [h3, hown]; exact ht.own, by rw [h4]; exact hit, by rw [h5, hlen]; exact ht.length, ?_⟩
      intro j o' f' ho' hf'
      simp only at ho' ⊢
      obtain ⟨f, hf, hc⟩ := h6 j f' hf'
      rw [hitems] at hf
      have hn := ht.items j o' f ho' hf
      rw [hmem, ho'] at hc
      rcases hc with ⟨ha, rfl⟩ | ⟨ha, rfl⟩
      · cases ha
        rw [Function.update_self]
        exact hn.update k v
      · rw [Function.update_of_ne (fun he => ha (by rw [he]))]
        exact hn
  | setItem o => exact absurd hg (by simp [Op.Good])
  | insert i o =>
    have hi : i = s.items.length := hg
    subst hi
    have hlen : r.items.length = s.items.length := by rw [hs.items]; simp
    have hno : ¬ (r.items ≠ [] ∧ (s.items.length : Int) < r.items.length) := by rw [hlen]; omega
    simp only [step, Rec.inserted, if_neg hno]
    refine ⟨⟨hs.item, ?_⟩, [.insert s.items.length o], rfl, ⟨t.own, t.item, t.items ++ [fin.vals o]⟩, ?_, ?_⟩
    · show Py.insert r.items _ _ = (Py.insert s.items _ _).zipIdx.map _
      rw [insert_length, ← hlen, insert_length, hs.items, List.zipIdx_append]
      simp
    · simp only [applyAll, Entry.apply, Option.bind_some, ← ht.length, insert_length]
    · refine ⟨ht.own, ht.item, by simp [insert_length, ht.length], ?_⟩
      intro j o' f ho' hf
      simp only [insert_length] at ho' hf ⊢
      rcases Nat.lt_or_ge j s.items.length with hj | hj
      · rw [List.getElem?_append_left hj] at ho'
        rw [List.getElem?_append_left (by rw [ht.length]; exact hj)] at hf
        exact ht.items j o' f ho' hf
      · have hj' : j = s.items.length := by
          have := (List.getElem?_eq_some_iff.1 ho').1
          simp at this
          omega
        subst hj'
        rw [List.getElem?_append_right (le_refl _)] at ho'
        rw [List.getElem?_append_right (by rw [ht.length]), ht.length] at hf
        simp at ho' hf
        subst ho' hf
        exact fun k => .inr rfl
  | remove o =>
    have hl : s.items.idxOf o + 1 = s.items.length := hg
    have hm := idxOf_last hl
    have hlen : r.items.length = s.items.length := by rw [hs.items]; simp
    simp only [step, if_pos hm, Rec.removed]
    rw [if_neg (by omega), if_pos (by omega)]
    refine ⟨⟨hs.item, ?_⟩, [.remove (s.items.idxOf o)], rfl, ⟨t.own, t.item, t.items.eraseIdx (s.items.idxOf o)⟩, ?_, ?_⟩
    · have hx : s.items.idxOf o = s.items.length - 1 := by omega
      have hx' : s.items.length - 1 = (s.items.zipIdx.map fun p => (p.1, (p.2 : Int))).length - 1 := by simp
      simp only [hs.items, hx]
      rw [List.eraseIdx_length_sub_one]
      rw [hx', List.eraseIdx_length_sub_one]
      rw [← List.map_dropLast]
      congr 1
      refine List.ext_getElem? fun j => ?_
      rw [List.dropLast_eq_take, List.dropLast_eq_take, List.getElem?_take, List.getElem?_zipIdx, List.getElem?_zipIdx,
        List.getElem?_take, List.length_zipIdx]
      split <;> simp
    · simp only [applyAll, Entry.apply, if_pos (show s.items.idxOf o < t.items.length by rw [ht.length]; omega)]
      rfl
    · refine ⟨ht.own, ht.item, ?_, ?_⟩
      · simp only [List.length_eraseIdx, ht.length]
      · intro j o' f ho' hf
        simp only at ho' hf ⊢
        have hj : j < s.items.idxOf o := by
          have := (List.getElem?_eq_some_iff.1 ho').1
          rw [List.length_eraseIdx_of_lt (by omega)] at this
          omega
        rw [List.getElem?_eraseIdx_of_lt hj] at ho' hf
        exact ht.items j o' f ho' hf

theorem near_self (fin s : Obj V) : Near fin s s.con := by
  refine ⟨fun k => .inl rfl, ?_, by simp [Obj.con], ?_⟩
  · rcases h : s.item with _ | o
    · exact .inl ⟨rfl, by simp [Obj.con, h]⟩
    · exact .inr ⟨o, s.vals o, rfl, by simp [Obj.con, h], fun k => .inl rfl⟩
  · intro j o f ho hf
    simp only [Obj.con, List.getElem?_map, ho, Option.map_some, Option.some.injEq] at hf
    subst hf
    exact fun k => .inl rfl

theorem near_fin {s : Obj V} {t : Con V} (h : Near s s t) : t = s.con := by
  have hf : ∀ {now f : Nat → V}, NearF now now f → f = now := fun h => funext fun k => (h k).elim id id
  ext1
  · exact hf h.own
  · rcases h.item with ⟨ha, hb⟩ | ⟨o, f, ha, hb, hn⟩
    · rw [hb]; simp [Obj.con, ha]
    · rw [hb, hf hn]; simp [Obj.con, ha]
  · refine List.ext_getElem? fun j => ?_
    simp only [Obj.con, List.getElem?_map]
    rcases ho : s.items[j]? with _ | o
    · rw [List.getElem?_eq_none_iff] at ho
      simp [ho, h.length]
    · have hj := (List.getElem?_eq_some_iff.1 ho).1
      rw [← h.length] at hj
      have := h.items j o _ ho (List.getElem?_eq_getElem hj)
      rw [List.getElem?_eq_getElem hj, hf this]
      rfl

theorem run_near (d : Defs) (fin : Obj V) (ops : List (Op V)) : ∀ {s : Obj V} {r : Rec}, InStep s r → AllGood d (s, r) ops →
    ∀ {t : Con V}, Near fin s t → ∃ new, (run d (s, r) ops).2.log = r.log ++ new ∧
      ∃ t', applyAll fin new t = some t' ∧ Near fin (run d (s, r) ops).1 t' := by
  induction ops with
  | nil => exact fun {s r} _ _ {t} ht => ⟨[], by simp [run], t, rfl, ht⟩
  | cons op ops ih =>
    intro s r hs hg t ht
    obtain ⟨h1, new, h2, t1, h3, h4⟩ := step_near d fin hs op hg.1 ht
    obtain ⟨new', h5, t', h6, h7⟩ := ih (s := (step d (s, r) op).1) (r := (step d (s, r) op).2) h1 hg.2 h4
    refine ⟨new ++ new', ?_, t', ?_, h7⟩
    · show (run d (step d (s, r) op) ops).2.log = _
      rw [h5, h2, List.append_assoc]
    · rw [applyAll_append, h3]
      exact h6

/-- C61: after any history of setting recordable properties of the object, its item and the items of its relationship, of appending
items and of removing the last item, applying the recorder to an object equal to the recorded one at first succeeds and makes it
equal to the recorded object as it is then. Missing, because it is false (see below): insertions and removals elsewhere, setting the
item, properties which are not recordable. -/
theorem C61_replay_partial (d : Defs) (s : Obj V) (ops : List (Op V)) (hg : AllGood d (s, Rec.init s) ops) :
    applyAll (run d (s, Rec.init s) ops).1 (run d (s, Rec.init s) ops).2.log s.con =
      some (run d (s, Rec.init s) ops).1.con := by
  obtain ⟨new, h1, t', h2, h3⟩ := run_near d (run d (s, Rec.init s) ops).1 ops (s := s) (r := Rec.init s) ⟨rfl, rfl⟩ hg
    (near_self _ s)
  rw [h1, show (Rec.init s).log = [] from rfl, List.nil_append, h2, near_fin h3]

/-- Properties 0 and 1 are recordable; the object has the item 5 and the items 6, 7. -/
def demoDefs : Defs := ⟨fun k => k < 2, fun k => k < 2⟩
def demo : Obj Nat := ⟨fun _ => 0, some 5, [6, 7], fun _ _ => 0⟩

/-- What the first two properties are. -/
def Con.view (t : Con Nat) : List Nat × Option (List Nat) × List (List Nat) :=
  ([t.own 0, t.own 1], t.item.map fun f => [f 0, f 1], t.items.map fun f => [f 0, f 1])

def demoOps : List (Op Nat) :=
  [.setOwn 0 1, .setVal 5 1 2, .insert 2 8, .setVal 8 0 3, .remove 8, .insert 2 9, .setVal 7 1 4, .setOwn 0 5, .setVal 9 1 6]

example : AllGood demoDefs (demo, Rec.init demo) demoOps := by
  refine ⟨?_, ?_, ?_, ?_, ?_, ?_, ?_, ?_, ?_, trivial⟩ <;> (unfold Op.Good; decide)

example : (applyAll (run demoDefs (demo, Rec.init demo) demoOps).1 (run demoDefs (demo, Rec.init demo) demoOps).2.log
    demo.con).map Con.view = some ([5, 0], some [0, 2], [[0, 0], [0, 4], [0, 6]]) := by decide

/-- C61, negative: an item inserted before others is not in the object the recorder is applied to. -/
theorem C61_counterexample_insert :
    let p := run demoDefs (demo, Rec.init demo) [.insert 0 8]
    p.1.items = [8, 6, 7] ∧ p.2.log = [] ∧ (applyAll p.1 p.2.log demo.con).map (·.items.length) = some 2 := by decide

/-- C61, negative: an item removed before others stays. -/
theorem C61_counterexample_remove :
    let p := run demoDefs (demo, Rec.init demo) [.remove 6]
    p.1.items = [7] ∧ p.2.log = [] ∧ (applyAll p.1 p.2.log demo.con).map (·.items.length) = some 2 := by decide

/-- C61, negative: after a removal before others, an appended item and its changes are not recorded either. -/
theorem C61_counterexample_later :
    let p := run demoDefs (demo, Rec.init demo) [.remove 6, .insert 1 8, .setVal 8 0 3]
    p.1.con.view.2.2 = [[0, 0], [3, 0]] ∧ (applyAll p.1 p.2.log demo.con).map (·.view.2.2) = some [[0, 0], [0, 0]] := by decide

/-- C61, negative: after an insertion before others, the removal of the last item is not recorded either (`pop` raises). -/
theorem C61_counterexample_late :
    let p := run demoDefs (demo, Rec.init demo) [.insert 0 8, .setVal 8 0 3, .remove 7]
    p.2.log = [] ∧ p.1.con.view.2.2 = [[3, 0], [0, 0]] ∧
      (applyAll p.1 p.2.log demo.con).map (·.view.2.2) = some [[0, 0], [0, 0]] := by decide

/-- C61, negative: setting the item is not recorded, nor are changes of the new item. -/
theorem C61_counterexample_item :
    let p := run demoDefs (demo, Rec.init demo) [.setItem (some 8), .setVal 8 0 3]
    p.1.con.view.2.1 = some [3, 0] ∧ (applyAll p.1 p.2.log demo.con).map (·.view.2.1) = some (some [0, 0]) := by decide

/-- C61, negative: properties which are not recordable are left out. -/
theorem C61_counterexample_recordable :
    let p := run demoDefs (demo, Rec.init demo) [.setOwn 2 7]
    p.1.own 2 = 7 ∧ (applyAll p.1 p.2.log demo.con).map (·.own 2) = some 0 := by decide

end Verif.Persist.Recorder
