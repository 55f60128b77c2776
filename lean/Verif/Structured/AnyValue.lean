import Mathlib.Data.Nat.Notation
import Mathlib.Tactic.ByContra

/-!
C200: `from_dict_value` of structured models (`nion/utils/StructuredModel.py:99-100`, `RecordModel` 177-180, `ArrayModel` 275-282) with values of
any kind: what raises, and what is left then. Texts and dicts have a length and can be gone over; `k in values` looks for a part of a text and
for an element of a list (179). A model is the tree of its fields and items; an array has the item that `build_value` makes for it (278).
Who is told is in C52; `None` and numbers stand for whatever has no length and no `in`.
-/

namespace Verif.Structured.AnyValue

inductive Val where
  | none
  | num (n : ℕ)
  | text (s : List Char)
  | dict (d : List (List Char × Val))
  | list (l : List Val)

mutual
/-- `FieldPropertyModel`; an item that is no model, as arrays of texts, numbers and Booleans have; what `build_value` raises for;
`RecordModel`; `ArrayModel` with the item it makes. -/
inductive M where
  | field (v : Val)
  | plain (v : Val)
  | broken
  | record (fs : Fields)
  | array (new : M) (items : Items)
inductive Fields where
  | nil
  | cons (k : List Char) (m : M) (r : Fields)
inductive Items where
  | nil
  | cons (m : M) (r : Items)
end

def Fields.toList : Fields → List (List Char × M)
  | .nil => []
  | .cons k m r => (k, m) :: r.toList

def Items.toList : Items → List M
  | .nil => []
  | .cons m r => m :: r.toList

/-- Items with the same model. -/
def fresh (new : M) : ℕ → Items
  | 0 => .nil
  | n + 1 => .cons new (fresh new n)

/-- Lines 276-280, with the number of values. -/
def Items.fit (new : M) : Items → ℕ → Items
  | .nil, n => fresh new n
  | .cons _ _, 0 => .nil
  | .cons m r, n + 1 => .cons m (r.fit new n)

/-- `k in values`, or `values[k]` after it, raises, for a value that is no dict (179-180). -/
def Val.bad (k : List Char) : Val → Bool
  | .none | .num _ => true
  | .text s => decide (k <:+: s)
  | .list l => l.any fun | .text s => s == k | _ => false
  | .dict _ => false

/-- What `len` and `zip` see (276, 281). -/
def Val.elems : Val → Option (List Val)
  | .none | .num _ => Option.none
  | .text s => some (s.map fun c => .text [c])
  | .dict d => some (d.map fun e => .text e.1)
  | .list l => some l

def M.isBroken : M → Bool
  | .broken => true
  | _ => false

/-- The rest of the loop of line 281, with items that were just made; `f` reads into one. -/
def readNew (f : Val → M × Bool) (new : M) : List Val → Items × Bool
  | [] => (.nil, false)
  | v :: vs => if (f v).2 then (.cons (f v).1 (fresh new vs.length), true) else (.cons (f v).1 (readNew f new vs).1, (readNew f new vs).2)

mutual
/-- `from_dict_value`; the Boolean says whether it raised. A plain item has no such method. -/
def M.read : M → Val → M × Bool
  | .field _, v => (.field v, false)
  | .plain w, _ => (.plain w, true)
  | .broken, _ => (.broken, true)
  | .record fs, v =>
    match v with
    | .dict d => (.record (fs.read d).1, (fs.read d).2)
    | v => (.record fs, fs.toList.any fun p => v.bad p.1)
  | .array new items, v =>
    match v.elems with
    | none => (.array new items, true)
    | some vs =>
      if new.isBroken && decide (items.toList.length < vs.length) then (.array new items, true)
      else (.array new (items.read (fun w => new.read w) new vs).1, (items.read (fun w => new.read w) new vs).2)
/-- Lines 178-180. -/
def Fields.read : Fields → List (List Char × Val) → Fields × Bool
  | .nil, _ => (.nil, false)
  | .cons k m r, d =>
    match d.lookup k with
    | none => (.cons k m (r.read d).1, (r.read d).2)
    | some v => if (m.read v).2 then (.cons k (m.read v).1 r, true) else (.cons k (m.read v).1 (r.read d).1, (r.read d).2)
/-- Lines 276-282. -/
def Items.read (f : Val → M × Bool) (new : M) : Items → List Val → Items × Bool
  | .nil, vs => readNew f new vs
  | .cons _ _, [] => (.nil, false)
  | .cons m r, v :: vs =>
    if (m.read v).2 then (.cons (m.read v).1 (r.fit new vs.length), true)
    else (.cons (m.read v).1 (r.read f new vs).1, (r.read f new vs).2)
end

/-! ### Specification -/

/-- The value has nothing called `k`, and can be asked. -/
def Val.Lacks (k : List Char) (v : Val) : Prop :=
  (∃ s, v = .text s ∧ ¬ k <:+: s) ∨ (∃ l, v = .list l ∧ Val.text k ∉ l) ∨ ∃ d, v = .dict d ∧ d.lookup k = Option.none

/-- What going over a value gives: the letters of a text, the keys of a dict, the elements of a list. -/
inductive Val.Gives : Val → List Val → Prop where
  | list (l : List Val) : Gives (.list l) l
  | empty : Gives (.text []) []
  | letter (c : Char) (s : List Char) (vs : List Val) (h : Gives (.text s) vs) : Gives (.text (c :: s)) (.text [c] :: vs)
  | nothing : Gives (.dict []) []
  | key (k : List Char) (v : Val) (d : List (List Char × Val)) (vs : List Val) (h : Gives (.dict d) vs) :
      Gives (.dict ((k, v) :: d)) (.text k :: vs)

/-- Values that can be read into a model: any into a field; into a record a dict whose values can be read into the fields they are for, or
something that has nothing called as a field; into an array something with elements that can be read into the items, further ones into the
item that the array makes. -/
inductive Fits : M → Val → Prop where
  | field (u v : Val) : Fits (.field u) v
  | dict (fs : Fields) (d : List (List Char × Val)) (h : ∀ k m, (k, m) ∈ fs.toList → ∀ v, d.lookup k = some v → Fits m v) :
      Fits (.record fs) (.dict d)
  | lacks (fs : Fields) (v : Val) (h : ∀ k m, (k, m) ∈ fs.toList → v.Lacks k) : Fits (.record fs) v
  | array (new : M) (items : Items) (v : Val) (vs : List Val) (he : v.Gives vs)
      (hb : new ≠ .broken ∨ vs.length ≤ items.toList.length)
      (h : ∀ (i : ℕ) w, vs[i]? = some w → Fits (items.toList[i]?.getD new) w) : Fits (.array new items) v

/-! ### Proofs -/

theorem gives_iff (v : Val) (vs : List Val) : v.Gives vs ↔ v.elems = some vs := by
  constructor
  · intro h
    induction h with
    | list l => rfl
    | empty => rfl
    | letter c s vs _ ih => simp only [Val.elems, Option.some.injEq] at ih ⊢; rw [List.map_cons, ih]
    | nothing => rfl
    | key k v d vs _ ih => simp only [Val.elems, Option.some.injEq] at ih ⊢; rw [List.map_cons, ih]
  · intro h
    cases v with
    | none => cases h
    | num n => cases h
    | list l => cases h; exact .list _
    | text s =>
      cases h
      induction s with
      | nil => exact .empty
      | cons c s ih => exact .letter c s _ ih
    | dict d =>
      cases h
      induction d with
      | nil => exact .nothing
      | cons e d ih => exact .key e.1 e.2 d _ ih

theorem isBroken_iff (m : M) : m.isBroken = true ↔ m = .broken := by cases m <;> simp [M.isBroken]

theorem bad_iff (k : List Char) (v : Val) (hv : ∀ d, v ≠ .dict d) : v.bad k = false ↔ v.Lacks k := by
  cases v with
  | none => simp [Val.bad, Val.Lacks]
  | num n => simp [Val.bad, Val.Lacks]
  | text s => simp [Val.bad, Val.Lacks]
  | dict d => exact absurd rfl (hv d)
  | list l =>
    have : (∃ x ∈ l, (match x with | .text s => s == k | _ => false) = true) ↔ Val.text k ∈ l := by
      constructor
      · rintro ⟨x, hx, h⟩
        cases x with
        | text s => rw [show s = k by simpa using h] at hx; exact hx
        | _ => simp at h
      · intro h; exact ⟨_, h, by simp⟩
    rw [Val.bad, Bool.eq_false_iff, ne_eq, List.any_eq_true]
    constructor
    · intro h; exact Or.inr (Or.inl ⟨l, rfl, fun hm => h (this.2 hm)⟩)
    · rintro (⟨s, h, _⟩ | ⟨l', h, hn⟩ | ⟨d, h, _⟩)
      · cases h
      · cases h; exact fun hm => hn (this.1 hm)
      · cases h

theorem readNew_ok (f : Val → M × Bool) (new : M) (vs : List Val) : (readNew f new vs).2 = false ↔ ∀ v ∈ vs, (f v).2 = false := by
  induction vs with
  | nil => simp [readNew]
  | cons v vs ih =>
    rw [readNew]
    cases h : (f v).2 with
    | true => simp [h]
    | false => simp [h, ih]

mutual
theorem read_ok : (m : M) → (v : Val) → ((m.read v).2 = false ↔ Fits m v)
  | .field u, v => by simp only [M.read, true_iff]; exact .field u v
  | .plain w, v => by
    simp only [M.read, Bool.true_eq_false, false_iff]
    intro h; cases h
  | .broken, v => by
    simp only [M.read, Bool.true_eq_false, false_iff]
    intro h; cases h
  | .record fs, v => by
    cases v with
    | dict d =>
      simp only [M.read]
      rw [fields_ok fs d]
      constructor
      · exact fun h => .dict fs d h
      · intro h k m hm w hw
        cases h with
        | dict _ _ h => exact h k m hm w hw
        | lacks _ _ h =>
          rcases h k m hm with ⟨s, h, _⟩ | ⟨l, h, _⟩ | ⟨d', h, hn⟩
          · cases h
          · cases h
          · cases h; rw [hn] at hw; cases hw
    | _ =>
      simp only [M.read, List.any_eq_false, Bool.not_eq_true]
      constructor
      · intro h
        exact .lacks fs _ fun k m hm => (bad_iff k _ (by intro d h; cases h)).1 (h (k, m) hm)
      · intro h p hp
        cases h with
        | lacks _ _ h => exact (bad_iff p.1 _ (by intro d h; cases h)).2 (h p.1 p.2 hp)
  | .array new items, v => by
    rw [M.read]
    cases he : v.elems with
    | none =>
      simp only [Bool.true_eq_false, false_iff]
      intro h; cases h with
      | array _ _ _ vs he' => rw [gives_iff, he] at he'; cases he'
    | some vs =>
      simp only
      by_cases hb : new.isBroken && decide (items.toList.length < vs.length)
      · rw [if_pos hb]
        simp only [Bool.true_eq_false, false_iff]
        rw [Bool.and_eq_true, isBroken_iff, decide_eq_true_eq] at hb
        intro h; cases h with
        | array _ _ _ vs' he' hb' =>
          rw [gives_iff, he] at he'; cases he'
          rcases hb' with h | h
          · exact h hb.1
          · omega
      · rw [if_neg hb]
        rw [Bool.and_eq_true, isBroken_iff, decide_eq_true_eq] at hb
        rw [items_ok _ new items vs]
        constructor
        · intro h
          refine .array new items v vs ((gives_iff v vs).2 he) ?_ ?_
          · by_cases hn : new = .broken
            · exact Or.inr (by by_contra hc; exact hb ⟨hn, by omega⟩)
            · exact Or.inl hn
          · intro i w hw
            cases hi : items.toList[i]? with
            | some m => exact (h i w hw).1 m hi
            | none => exact (read_ok new w).1 ((h i w hw).2 hi)
        · intro h; cases h with
          | array _ _ _ vs' he' _ h =>
            rw [gives_iff, he] at he'; cases he'
            intro i w hw
            have := h i w hw
            refine ⟨fun m hm => ?_, fun hn => ?_⟩
            · rw [hm] at this; exact this
            · rw [hn] at this; exact (read_ok new w).2 this
theorem fields_ok : (fs : Fields) → (d : List (List Char × Val)) →
    ((fs.read d).2 = false ↔ ∀ k m, (k, m) ∈ fs.toList → ∀ v, d.lookup k = some v → Fits m v)
  | .nil, d => by simp [Fields.read, Fields.toList]
  | .cons k m r, d => by
    rw [Fields.read]
    have ih := fields_ok r d
    cases hl : d.lookup k with
    | none =>
      simp only
      rw [ih]
      constructor
      · intro h k' m' hm w hw
        rcases List.mem_cons.1 hm with e | hm
        · cases e; rw [hl] at hw; cases hw
        · exact h k' m' hm w hw
      · intro h k' m' hm; exact h k' m' (List.mem_cons_of_mem _ hm)
    | some v =>
      simp only
      have hm := read_ok m v
      cases hr : (m.read v).2 with
      | true =>
        rw [if_pos rfl]
        simp only [Bool.true_eq_false, false_iff]
        intro h
        exact absurd (hm.2 (h k m List.mem_cons_self v hl)) (by simp [hr])
      | false =>
        rw [if_neg (by simp)]
        simp only
        rw [ih]
        constructor
        · intro h k' m' hm' w hw
          rcases List.mem_cons.1 hm' with e | hm'
          · cases e; rw [hl] at hw; cases hw; exact hm.1 hr
          · exact h k' m' hm' w hw
        · intro h k' m' hm'; exact h k' m' (List.mem_cons_of_mem _ hm')
theorem items_ok (f : Val → M × Bool) (new : M) : (items : Items) → (vs : List Val) →
    ((items.read f new vs).2 = false ↔
      ∀ (i : ℕ) w, vs[i]? = some w → (∀ m, items.toList[i]? = some m → Fits m w) ∧ (items.toList[i]? = none → (f w).2 = false))
  | .nil, vs => by
    rw [Items.read, readNew_ok]
    constructor
    · intro h i w hw; exact ⟨fun m hm => by simp [Items.toList] at hm, fun _ => h w (List.mem_of_getElem? hw)⟩
    · intro h v hv
      obtain ⟨i, hi⟩ := List.mem_iff_getElem?.1 hv
      exact (h i v hi).2 (by simp [Items.toList])
  | .cons _ _, [] => by simp [Items.read]
  | .cons m r, v :: vs => by
    rw [Items.read]
    have ih := items_ok f new r vs
    have hm := read_ok m v
    cases hr : (m.read v).2 with
    | true =>
      rw [if_pos rfl]
      simp only [Bool.true_eq_false, false_iff]
      intro h
      exact absurd (hm.2 ((h 0 v rfl).1 m rfl)) (by simp [hr])
    | false =>
      rw [if_neg (by simp)]
      simp only
      rw [ih]
      constructor
      · intro h i w hw
        cases i with
        | zero =>
          simp only [List.getElem?_cons_zero, Option.some.injEq] at hw
          subst hw
          refine ⟨fun m' hm' => ?_, fun hn => by simp [Items.toList] at hn⟩
          simp only [Items.toList, List.getElem?_cons_zero, Option.some.injEq] at hm'
          subst hm'; exact hm.1 hr
        | succ i => exact h i w (by simpa using hw)
      · intro h i w hw
        exact h (i + 1) w (by simpa using hw)
end

/-- C200: reading a value into a model raises exactly if the value cannot be read into it. -/
theorem C200_raises_iff (m : M) (v : Val) : (m.read v).2 = true ↔ ¬ Fits m v := by
  rw [← read_ok m v]; simp

theorem fields_content (fs : Fields) (d : List (List Char × Val)) (i : ℕ) (k : List Char) (m : M) (h : fs.toList[i]? = some (k, m)) :
    ((∀ j < i, ∀ k' m', fs.toList[j]? = some (k', m') → ∀ v, d.lookup k' = some v → Fits m' v) →
      (fs.read d).1.toList[i]? = some (k, match d.lookup k with | some v => (m.read v).1 | none => m)) ∧
    ((∃ j < i, ∃ k' m', fs.toList[j]? = some (k', m') ∧ ∃ v, d.lookup k' = some v ∧ ¬ Fits m' v) →
      (fs.read d).1.toList[i]? = some (k, m)) := by
  induction i generalizing fs with
  | zero =>
    refine ⟨fun _ => ?_, fun ⟨j, hj, _⟩ => absurd hj (by omega)⟩
    cases fs with
    | nil => simp [Fields.toList] at h
    | cons k' m' r =>
      simp only [Fields.toList, List.getElem?_cons_zero, Option.some.injEq, Prod.mk.injEq] at h
      obtain ⟨rfl, rfl⟩ := h
      rw [Fields.read]
      cases d.lookup k' with
      | none => simp [Fields.toList]
      | some v => simp only; split <;> simp [Fields.toList]
  | succ i ih =>
    cases fs with
    | nil => simp [Fields.toList] at h
    | cons k' m' r =>
      simp only [Fields.toList, List.getElem?_cons_succ] at h
      have ih := ih r h
      have hm := fun v => read_ok m' v
      rw [Fields.read]
      constructor
      · intro hall
        have h0 := hall 0 (by omega) k' m' rfl
        have e := ih.1 fun j hj k'' m'' hk => hall (j + 1) (by omega) k'' m'' (by simpa [Fields.toList] using hk)
        cases hl : d.lookup k' with
        | none => simpa [Fields.toList] using e
        | some v =>
          simp only
          rw [if_neg (by rw [(hm v).2 (h0 v hl)]; simp)]
          simpa [Fields.toList] using e
      · rintro ⟨j, hj, k'', m'', hk, v, hv, hn⟩
        cases j with
        | zero =>
          simp only [Fields.toList, List.getElem?_cons_zero, Option.some.injEq, Prod.mk.injEq] at hk
          obtain ⟨rfl, rfl⟩ := hk
          rw [hv]; simp only
          rw [if_pos (by by_contra hc; exact hn ((hm v).1 (by simpa using hc)))]
          simpa [Fields.toList] using h
        | succ j =>
          have e := ih.2 ⟨j, by omega, k'', m'', by simpa [Fields.toList] using hk, v, hv, hn⟩
          cases hl : d.lookup k' with
          | none => simpa [Fields.toList] using e
          | some w =>
            simp only
            split
            · simpa [Fields.toList] using h
            · simpa [Fields.toList] using e

theorem fields_length (fs : Fields) (d : List (List Char × Val)) : (fs.read d).1.toList.length = fs.toList.length := by
  match fs with
  | .nil => rfl
  | .cons k m r =>
    have ih := fields_length r d
    rw [Fields.read]
    cases d.lookup k with
    | none => simp [Fields.toList, ih]
    | some v => simp only; split <;> simp [Fields.toList, ih]

/-- C200: reading a dict into a record reads the values into the fields they are for, in the order of the fields, up to the first that
cannot be read; that field is left as reading into it leaves it, the later ones as they were. -/
theorem C200_record (fs : Fields) (d : List (List Char × Val)) : ∃ fs', ((M.record fs).read (.dict d)).1 = .record fs' ∧
    fs'.toList.length = fs.toList.length ∧ ∀ (i : ℕ) k m, fs.toList[i]? = some (k, m) →
      ((∀ j < i, ∀ k' m', fs.toList[j]? = some (k', m') → ∀ v, d.lookup k' = some v → Fits m' v) →
        fs'.toList[i]? = some (k, match d.lookup k with | some v => (m.read v).1 | none => m)) ∧
      ((∃ j < i, ∃ k' m', fs.toList[j]? = some (k', m') ∧ ∃ v, d.lookup k' = some v ∧ ¬ Fits m' v) →
        fs'.toList[i]? = some (k, m)) :=
  ⟨(fs.read d).1, by simp [M.read], fields_length fs d, fun i k m h => fields_content fs d i k m h⟩

theorem fresh_toList (new : M) (n : ℕ) : (fresh new n).toList = List.replicate n new := by
  induction n with
  | zero => rfl
  | succ n ih => simp [fresh, Items.toList, ih, List.replicate_succ]

theorem fit_get (new : M) (items : Items) (n i : ℕ) : (items.fit new n).toList[i]? = if i < n then some (items.toList[i]?.getD new) else none := by
  induction i generalizing items n with
  | zero =>
    cases items with
    | nil => rw [Items.fit, fresh_toList, List.getElem?_replicate]; simp [Items.toList]
    | cons m r => cases n <;> simp [Items.fit, Items.toList]
  | succ i ih =>
    cases items with
    | nil => rw [Items.fit, fresh_toList, List.getElem?_replicate]; simp [Items.toList]
    | cons m r =>
      cases n with
      | zero => simp [Items.fit, Items.toList]
      | succ n => simp [Items.fit, Items.toList, ih]

/-- The content of the items, and of the ones to be made, after reading. -/
theorem items_content (new : M) (items : Items) (vs : List Val) (i : ℕ) :
    (vs.length ≤ i → (items.read (fun w => new.read w) new vs).1.toList[i]? = none) ∧ ∀ v, vs[i]? = some v →
    ((∀ j < i, ∀ w, vs[j]? = some w → Fits (items.toList[j]?.getD new) w) →
      (items.read (fun w => new.read w) new vs).1.toList[i]? = some ((items.toList[i]?.getD new).read v).1) ∧
    ((∃ j < i, ∃ w, vs[j]? = some w ∧ ¬ Fits (items.toList[j]?.getD new) w) →
      (items.read (fun w => new.read w) new vs).1.toList[i]? = some (items.toList[i]?.getD new)) := by
  induction i generalizing items vs with
  | zero =>
    cases vs with
    | nil =>
      refine ⟨fun _ => ?_, fun v h => by simp at h⟩
      cases items <;> simp [Items.read, readNew, Items.toList]
    | cons v vs =>
      refine ⟨fun h => by simp at h, fun w h => ?_⟩
      simp only [List.getElem?_cons_zero, Option.some.injEq] at h
      subst h
      refine ⟨fun _ => ?_, fun ⟨j, hj, _⟩ => absurd hj (by omega)⟩
      cases items with
      | nil => rw [Items.read, readNew]; split <;> simp [Items.toList]
      | cons m r => rw [Items.read]; split <;> simp [Items.toList]
  | succ i ih =>
    cases vs with
    | nil =>
      refine ⟨fun _ => ?_, fun v h => by simp at h⟩
      cases items <;> simp [Items.read, readNew, Items.toList]
    | cons v vs =>
      -- the first item and the rest, whether they were there or are new
      obtain ⟨m, r, hr, hm, hg⟩ : ∃ (m : M) (r : Items), (items.read (fun w => new.read w) new (v :: vs) =
          if (m.read v).2 then (.cons (m.read v).1 (r.fit new vs.length), true)
          else (.cons (m.read v).1 (r.read (fun w => new.read w) new vs).1, (r.read (fun w => new.read w) new vs).2)) ∧
          items.toList[0]?.getD new = m ∧ (∀ j : ℕ, items.toList[j + 1]?.getD new = r.toList[j]?.getD new) := by
        cases items with
        | nil => exact ⟨new, .nil, by rw [Items.read, readNew]; rfl, rfl, fun j => by simp [Items.toList]⟩
        | cons m r => exact ⟨m, r, by rw [Items.read], rfl, fun j => by simp [Items.toList]⟩
      have ih := ih r vs
      have hok := read_ok m v
      rw [hr]
      refine ⟨fun hl => ?_, fun w hw => ?_⟩
      · split
        · simp only [Items.toList, List.getElem?_cons_succ]
          rw [fit_get, if_neg (by simp only [List.length_cons] at hl; omega)]
        · simpa [Items.toList] using ih.1 (by simpa using hl)
      · simp only [List.getElem?_cons_succ] at hw
        obtain ⟨ih1, ih2⟩ := ih.2 w hw
        have hlt : i < vs.length := by
          by_contra hc
          rw [List.getElem?_eq_none (by omega)] at hw; cases hw
        refine ⟨fun hall => ?_, fun ⟨j, hj, x, hx, hn⟩ => ?_⟩
        · have h0 := hall 0 (by omega) v rfl
          rw [hm] at h0
          rw [if_neg (by rw [hok.2 h0]; simp), hg]
          simp only [Items.toList, List.getElem?_cons_succ]
          refine ih1 fun j hj x hx => ?_
          have := hall (j + 1) (by omega) x (by simpa using hx)
          rwa [hg] at this
        · rw [hg]
          split
          · simp only [Items.toList, List.getElem?_cons_succ]
            rw [fit_get, if_pos hlt]
          · rename_i hrd
            simp only [Items.toList, List.getElem?_cons_succ]
            cases j with
            | zero =>
              simp only [List.getElem?_cons_zero, Option.some.injEq] at hx
              subst hx; rw [hm] at hn
              exact absurd (hok.1 (by simpa using hrd)) hn
            | succ j =>
              rw [hg] at hn
              exact ih2 ⟨j, by omega, x, by simpa using hx, hn⟩

/-- C200: reading something with elements into an array gives it as many items as there are elements, and reads the elements into them in
order, up to the first that cannot be read; that item is left as reading into it leaves it, the later ones as they were or were made. -/
theorem C200_array (new : M) (items : Items) (v : Val) (vs : List Val) (he : v.Gives vs)
    (hb : new ≠ .broken ∨ vs.length ≤ items.toList.length) : ∃ items', ((M.array new items).read v).1 = .array new items' ∧ items'.toList.length = vs.length ∧ ∀ (i : ℕ) w, vs[i]? = some w →
      ((∀ j < i, ∀ x, vs[j]? = some x → Fits (items.toList[j]?.getD new) x) →
        items'.toList[i]? = some ((items.toList[i]?.getD new).read w).1) ∧
      ((∃ j < i, ∃ x, vs[j]? = some x ∧ ¬ Fits (items.toList[j]?.getD new) x) → items'.toList[i]? = some (items.toList[i]?.getD new)) := by
  refine ⟨(items.read (fun w => new.read w) new vs).1, ?_, ?_, fun i w hw => (items_content new items vs i).2 w hw⟩
  · rw [M.read, (gives_iff v vs).1 he]
    simp only
    rw [if_neg]
    rw [Bool.and_eq_true, isBroken_iff, decide_eq_true_eq]
    rintro ⟨h1, h2⟩
    rcases hb with h | h
    · exact h h1
    · omega
  · apply Nat.le_antisymm
    · have := (items_content new items vs vs.length).1 (Nat.le_refl _)
      exact List.getElem?_eq_none_iff.1 this
    · by_contra hc
      have hlt : (items.read (fun w => new.read w) new vs).1.toList.length < vs.length := by omega
      obtain ⟨h1, h2⟩ := (items_content new items vs _).2 _ (List.getElem?_eq_getElem hlt)
      have hnone : ∀ l : List M, l[l.length]? = none := fun l => by simp
      by_cases hx : ∃ j < (items.read (fun w => new.read w) new vs).1.toList.length, ∃ x, vs[j]? = some x ∧ ¬ Fits (items.toList[j]?.getD new) x
      · rw [hnone] at h2; cases h2 hx
      · rw [hnone] at h1
        refine absurd (h1 fun j hj x hxx => ?_) (by simp)
        by_contra hf; exact hx ⟨j, hj, x, hxx, hf⟩

/-- C200: what is neither a dict nor has elements changes nothing in records and arrays, and a value that is no dict nothing in a record.
Missing: dicts, and elements of arrays. -/
theorem C200_unchanged_partial (m : M) (v : Val)
    (h : (∃ fs, m = .record fs ∧ ∀ d, v ≠ .dict d) ∨ (∃ new items, m = .array new items ∧ ∀ vs, ¬ v.Gives vs)) :
    (m.read v).1 = m := by
  rcases h with ⟨fs, rfl, hv⟩ | ⟨new, items, rfl, he⟩
  · cases v with
    | dict d => exact absurd rfl (hv d)
    | _ => simp [M.read]
  · have : v.elems = none := by
      cases hv : v.elems with
      | none => rfl
      | some vs => exact absurd ((gives_iff v vs).2 hv) (he vs)
    rw [M.read, this]

/-! ### Cases -/

/-- A record with a number and an array of records with a number. -/
def exItem : M := .record (.cons ['x'] (.field .none) .nil)

def exModel : M := .record (.cons ['a'] (.field (.num 1)) (.cons ['b'] (.array exItem .nil) (.cons ['c'] (.field (.num 3)) .nil)))

example : exModel.read (.dict [(['c'], .num 9), (['b'], .list [.dict [(['x'], .num 7)]])]) =
    (.record (.cons ['a'] (.field (.num 1)) (.cons ['b'] (.array exItem (.cons (.record (.cons ['x'] (.field (.num 7)) .nil)) .nil))
      (.cons ['c'] (.field (.num 9)) .nil))), false) := by
  simp [exModel, exItem, M.read, Fields.read, Items.read, readNew, Val.elems, M.isBroken, List.lookup, Items.toList]

/-- C200: reading raises, and the first field is changed, the third is not. -/
theorem C200_counterexample : exModel.read (.dict [(['a'], .num 5), (['b'], .num 7), (['c'], .num 9)]) =
    (.record (.cons ['a'] (.field (.num 5)) (.cons ['b'] (.array exItem .nil) (.cons ['c'] (.field (.num 3)) .nil))), true) := by
  simp [exModel, exItem, M.read, Fields.read, Val.elems, List.lookup]

/-- C200: reading a list of a number into an array of records raises, and the array has a new item. -/
theorem C200_counterexample_array : (M.array exItem .nil).read (.list [.num 7]) = (.array exItem (.cons exItem .nil), true) := by
  simp [exItem, M.read, Items.read, readNew, Val.elems, M.isBroken, Val.bad, Fields.toList, fresh, Items.toList]

/-- C200: a text is read into an array of records without an exception: there is a record for each character. -/
theorem C200_counterexample_text : (M.array exItem .nil).read (.text ['p', 'q']) = (.array exItem (.cons exItem (.cons exItem .nil)), false) := by
  have hp : ¬ ['x'] <:+: ['p'] := by decide
  have hq : ¬ ['x'] <:+: ['q'] := by decide
  simp [exItem, M.read, Items.read, readNew, Val.elems, M.isBroken, Val.bad, Fields.toList, Items.toList, hp, hq]

/-- C200: a list of texts is read into a record without an exception, if no field is called so; else it raises. -/
theorem C200_counterexample_list : exModel.read (.list [.text ['z']]) = (exModel, false) ∧ (exModel.read (.list [.text ['a']])).2 = true := by
  constructor <;> simp [exModel, exItem, M.read, Val.bad, Fields.toList]

end Verif.Structured.AnyValue
