import Verif.Structured.AnyValue

/-!
C206: `build_model` and `build_value` (`nion/utils/StructuredModel.py:64-87`, with the constructors of `RecordModel` 134-139 and `ArrayModel`
237-247) with values and defaults of any kind: what raises, and what the model has otherwise. `0`, `''`, `[]` and `{}` count as nothing given
where the code says `or dict()`. A list is taken by `dict.update` if its elements are pairs (72). Field names of a record are distinct. Keys that
are no texts can name no field and are left out of what is kept of a pair.
-/

namespace Verif.Structured.AnyValue

mutual
/-- What `define_string`, `define_boolean`, `define_int` give; `define_float`; `define_record`; `define_array` (33-61). -/
inductive Sch where
  | scalar
  | float
  | record (fs : SFields)
  | array (item : Sch)
/-- Fields with their name, type and default (49-53); no default is `None`. -/
inductive SFields where
  | nil
  | cons (k : List Char) (s : Sch) (default : Val) (r : SFields)
end

def SFields.toList : SFields → List (List Char × Sch × Val)
  | .nil => []
  | .cons k s df r => (k, s, df) :: r.toList

/-- `not v`. -/
def Val.falsy : Val → Bool
  | .none => true
  | .num n => n == 0
  | .text s => s.isEmpty
  | .dict d => d.isEmpty
  | .list l => l.isEmpty

def Val.orElse : Val → Val → Val
  | .none, v => v
  | d, _ => d

/-- An element of a list as `dict.update` takes it; no key if the key is no text; nothing if it raises. -/
def Val.pair : Val → Option (Option (List Char) × Val)
  | .text [a, b] => some (some [a], .text [b])
  | .dict [(a, _), (b, _)] => some (some a, .text b)
  | .list [.text k, v] => some (some k, v)
  | .list [.none, v] => some (Option.none, v)
  | .list [.num _, v] => some (Option.none, v)
  | _ => Option.none

/-- The pairs of a list, the last one first. -/
def pairs : List Val → Option (List (List Char × Val))
  | [] => some []
  | x :: r =>
    match x.pair, pairs r with
    | some (some k, v), some e => some (e ++ [(k, v)])
    | some (none, _), some e => some e
    | _, _ => none

/-- `v or dict()`, for what has to be a dict (71, 138). -/
def Val.asDict (v : Val) : Option (List (List Char × Val)) :=
  if v.falsy then some [] else
    match v with
    | .dict d => some d
    | _ => Option.none

/-- What `update(v or dict())` adds (72). -/
def Val.entries (v : Val) : Option (List (List Char × Val)) :=
  if v.falsy then some [] else
    match v with
    | .dict d => some d
    | .list l => pairs l
    | _ => Option.none

/-- Lines 71-72. -/
def over (d v : Val) : Option (List (List Char × Val)) :=
  match d.asDict, v.entries with
  | some a, some b => some (b ++ a)
  | _, _ => none

/-- Lines 243-244. -/
def makeItems (f : Val → Option M) : List Val → Option Items
  | [] => some .nil
  | w :: r =>
    match f w, makeItems f r with
    | some m, some is => some (.cons m is)
    | _, _ => none

/-- Lines 237-247; `f` is `build_value` with the schema of the items. -/
def makeArray (f : Val → Option M) (v : Val) : Option M :=
  match v with
  | .none => some (.array ((f .none).getD .broken) .nil)
  | v =>
    match v.elems with
    | none => none
    | some vs => (makeItems f vs).map (.array ((f .none).getD .broken))

mutual
/-- `build_model` (64-75), with the default and the value; `none` if it raises. -/
def Sch.build : Sch → Val → Val → Option M
  | .scalar, d, v => some (.field (d.orElse v))
  | .float, _, _ => none
  | .record fs, d, v => (over d v).bind fun e => (fs.build (some e)).map .record
  | .array item, d, v => makeArray (fun w => item.buildValue w) (v.orElse d)
/-- `build_value` (78-87). -/
def Sch.buildValue : Sch → Val → Option M
  | .scalar, v => some (.plain v)
  | .float, _ => none
  | .record fs, v => (fs.build v.asDict).map .record
  | .array item, v => makeArray (fun w => item.buildValue w) v
/-- Lines 134-139; without entries `get` raises. -/
def SFields.build : SFields → Option (List (List Char × Val)) → Option Fields
  | .nil, _ => some .nil
  | .cons _ _ _ _, none => none
  | .cons k s df r, some e =>
    match s.build df ((e.lookup k).getD .none), r.build (some e) with
    | some m, some fs => some (.cons k m fs)
    | _, _ => none
end

/-! ### Specification -/

/-- Nothing, zero, or something empty. -/
def Val.Empty (v : Val) : Prop := v = .none ∨ v = .num 0 ∨ v = .text [] ∨ v = .dict [] ∨ v = .list []

/-- A pair of a key and a value: two letters, a dict with two keys, or a list of two. -/
inductive Val.IsPair : Val → Val → Val → Prop where
  | text (a b : Char) : IsPair (.text [a, b]) (.text [a]) (.text [b])
  | dict (a b : List Char) (v w : Val) : IsPair (.dict [(a, v), (b, w)]) (.text a) (.text b)
  | list (k v : Val) : IsPair (.list [k, v]) k v

/-- What can be a key. -/
def Val.Key (k : Val) : Prop := k = .none ∨ (∃ n, k = .num n) ∨ ∃ s, k = .text s

/-- A value has an entry: a dict its own, a list of pairs that of the last pair with the key. -/
inductive Val.Has : Val → List Char → Val → Prop where
  | dict (d : List (List Char × Val)) (k : List Char) (w : Val) (h : d.lookup k = some w) : Has (.dict d) k w
  | list (l r : List Val) (x : Val) (k : List Char) (w : Val) (hx : x.IsPair (.text k) w)
      (hr : ∀ y ∈ r, ∀ w', ¬ y.IsPair (.text k) w') : Has (.list (l ++ x :: r)) k w

/-- What a field is given: the entry of the value, otherwise that of the default, otherwise nothing. -/
def Entry (d v : Val) (k : List Char) (w : Val) : Prop :=
  v.Has k w ∨ (∀ w', ¬ v.Has k w') ∧ (d.Has k w ∨ (∀ w', ¬ d.Has k w') ∧ w = .none)

/-- What can be built: for a field (`false`) from a default and a value, for an item of an array (`true`) from a value. -/
inductive Ok : Bool → Sch → Val → Val → Prop where
  | scalar (b : Bool) (d v : Val) : Ok b .scalar d v
  | record (fs : SFields) (d v : Val) (hd : d.Empty ∨ ∃ e, d = .dict e)
      (hv : v.Empty ∨ (∃ e, v = .dict e) ∨ ∃ l, v = .list l ∧ ∀ x ∈ l, ∃ k w, x.IsPair k w ∧ k.Key)
      (h : ∀ k s df, (k, s, df) ∈ fs.toList → ∀ w, Entry d v k w → Ok false s df w) : Ok false (.record fs) d v
  | item (fs : SFields) (v : Val) (hv : fs.toList = [] ∨ v.Empty ∨ ∃ e, v = .dict e)
      (h : ∀ k s df, (k, s, df) ∈ fs.toList → ∀ w, Entry .none v k w → Ok false s df w) : Ok true (.record fs) .none v
  | without (b : Bool) (item : Sch) : Ok b (.array item) .none .none
  | array (b : Bool) (item : Sch) (d v : Val) (vs : List Val) (hg : v.Gives vs) (h : ∀ w ∈ vs, Ok true item .none w) : Ok b (.array item) d v
  | default (item : Sch) (d : Val) (vs : List Val) (hg : d.Gives vs) (h : ∀ w ∈ vs, Ok true item .none w) :
      Ok false (.array item) d .none

/-! ### Proofs -/

theorem falsy_iff (v : Val) : v.falsy = true ↔ v.Empty := by
  cases v <;> simp [Val.falsy, Val.Empty]

theorem pair_iff (x : Val) : (∃ p, x.pair = some p) ↔ ∃ k w, x.IsPair k w ∧ k.Key := by
  constructor
  · rintro ⟨p, h⟩
    unfold Val.pair at h
    split at h <;> cases h
    · exact ⟨_, _, .text _ _, .inr (.inr ⟨_, rfl⟩)⟩
    · exact ⟨_, _, .dict _ _ _ _, .inr (.inr ⟨_, rfl⟩)⟩
    · exact ⟨_, _, .list _ _, .inr (.inr ⟨_, rfl⟩)⟩
    · exact ⟨_, _, .list _ _, .inl rfl⟩
    · exact ⟨_, _, .list _ _, .inr (.inl ⟨_, rfl⟩)⟩
  · rintro ⟨k, w, h, hk⟩
    cases h with
    | text a b => exact ⟨_, rfl⟩
    | dict a b v w => exact ⟨_, rfl⟩
    | list =>
      rcases hk with rfl | ⟨n, rfl⟩ | ⟨s, rfl⟩ <;> exact ⟨_, rfl⟩

theorem pair_text (x : Val) (k : List Char) (w : Val) : x.IsPair (.text k) w ↔ x.pair = some (some k, w) := by
  constructor
  · intro h
    cases h <;> rfl
  · intro h
    unfold Val.pair at h
    split at h <;> cases h
    · exact .text _ _
    · exact .dict _ _ _ _
    · exact .list _ _

theorem pairs_iff (l : List Val) : (∃ e, pairs l = some e) ↔ ∀ x ∈ l, ∃ k w, x.IsPair k w ∧ k.Key := by
  induction l with
  | nil => simp [pairs]
  | cons x r ih =>
    rw [List.forall_mem_cons, ← ih, ← pair_iff, pairs]
    constructor
    · rintro ⟨e, h⟩
      split at h
      · next h1 h2 => exact ⟨⟨_, h1⟩, _, h2⟩
      · next h1 h2 => exact ⟨⟨_, h1⟩, _, h2⟩
      · cases h
    · rintro ⟨⟨⟨k, v⟩, h1⟩, e, h2⟩
      rw [h1, h2]
      cases k <;> exact ⟨_, rfl⟩

theorem lookup_append (a b : List (List Char × Val)) (k : List Char) : (a ++ b).lookup k = (a.lookup k).or (b.lookup k) := by
  induction a with
  | nil => rfl
  | cons p a ih =>
    rw [List.cons_append, List.lookup_cons, List.lookup_cons, ih]
    split <;> rfl

theorem has_list (l : List Val) (k : List Char) (w : Val) : (Val.list l).Has k w ↔
    ∃ a x r, l = a ++ x :: r ∧ x.IsPair (.text k) w ∧ ∀ y ∈ r, ∀ w', ¬ y.IsPair (.text k) w' := by
  constructor
  · intro h
    generalize hv : Val.list l = v at h
    cases h with
    | dict => cases hv
    | list a r x _ _ hx hr => cases hv; exact ⟨a, x, r, rfl, hx, hr⟩
  · rintro ⟨a, x, r, rfl, hx, hr⟩; exact .list a r x k w hx hr

theorem pairs_lookup (l : List Val) (e : List (List Char × Val)) (h : pairs l = some e) (k : List Char) (w : Val) :
    e.lookup k = some w ↔ (Val.list l).Has k w := by
  rw [has_list]
  induction l generalizing e w with
  | nil =>
    cases h
    constructor
    · intro h; cases h
    · rintro ⟨a, x, r, h, _⟩; simp at h
  | cons x r ih =>
    rw [pairs] at h
    have step : ∀ e', pairs r = some e' → ∀ w,
        ((∃ a y t, x :: r = a ++ y :: t ∧ y.IsPair (.text k) w ∧ ∀ z ∈ t, ∀ w', ¬ z.IsPair (.text k) w') ↔
          e'.lookup k = some w ∨ e'.lookup k = none ∧ x.IsPair (.text k) w) := by
      intro e' he w
      have ih := fun w => ih e' he w
      constructor
      · rintro ⟨a, y, t, hl, hy, ht⟩
        cases a with
        | nil =>
          cases hl
          refine .inr ⟨?_, hy⟩
          cases hc : e'.lookup k with
          | none => rfl
          | some w' =>
            obtain ⟨a, z, t, rfl, hz, _⟩ := (ih w').1 hc
            exact absurd hz (ht z (by simp) w')
        | cons b a => cases hl; exact .inl ((ih w).2 ⟨a, y, t, rfl, hy, ht⟩)
      · rintro (h | ⟨h, hx⟩)
        · obtain ⟨a, y, t, rfl, hy, ht⟩ := (ih w).1 h
          exact ⟨x :: a, y, t, rfl, hy, ht⟩
        · by_cases hn : ∃ z ∈ r, ∃ w', z.IsPair (.text k) w'
          · exfalso
            have last : ∀ r : List Val, (∃ z ∈ r, ∃ w', z.IsPair (.text k) w') →
                ∃ w' a y t, r = a ++ y :: t ∧ y.IsPair (.text k) w' ∧ ∀ z ∈ t, ∀ w', ¬ z.IsPair (.text k) w' := by
              intro r
              induction r with
              | nil => rintro ⟨z, hz, _⟩; cases hz
              | cons b r ihr =>
                rintro ⟨z, hz, w', hw⟩
                by_cases hr : ∃ z ∈ r, ∃ w', z.IsPair (.text k) w'
                · obtain ⟨w', a, y, t, rfl, hy, ht⟩ := ihr hr
                  exact ⟨w', b :: a, y, t, rfl, hy, ht⟩
                · rcases List.mem_cons.1 hz with rfl | hz
                  · exact ⟨w', [], z, r, rfl, hw, fun y hy w'' h => hr ⟨y, hy, w'', h⟩⟩
                  · exact absurd ⟨z, hz, w', hw⟩ hr
            obtain ⟨w', hw'⟩ := last r hn
            rw [(ih w').2 hw'] at h; cases h
          · exact ⟨[], x, r, rfl, hx, fun z hz w' hw => hn ⟨z, hz, w', hw⟩⟩
    split at h
    · next k' v e' h1 h2 =>
      cases h
      rw [step e' h2 w, lookup_append, pair_text, h1]
      cases hl : e'.lookup k with
      | some w' => simp
      | none =>
        by_cases hk : k = k'
        · subst hk; simp
        · have : ¬ (k' = k) := fun h => hk h.symm
          simp [List.lookup_cons, beq_eq_false_iff_ne.2 hk, this]
    · next h1 h2 =>
      cases h
      rw [step e h2 w, pair_text, h1]
      simp
    · cases h

theorem has_empty (v : Val) (h : v.Empty) (k : List Char) (w : Val) : ¬ v.Has k w := by
  intro hh
  rcases h with rfl | rfl | rfl | rfl | rfl
  · cases hh
  · cases hh
  · cases hh
  · cases hh with
    | dict _ _ _ h => cases h
  · obtain ⟨a, x, r, h, _⟩ := (has_list _ _ _).1 hh
    simp at h

theorem asDict_iff (v : Val) : (∃ e, v.asDict = some e) ↔ v.Empty ∨ ∃ e, v = .dict e := by
  rw [← falsy_iff]
  unfold Val.asDict
  cases h : v.falsy with
  | true => simp
  | false => cases v <;> simp

theorem asDict_lookup (v : Val) (e : List (List Char × Val)) (h : v.asDict = some e) (k : List Char) (w : Val) :
    e.lookup k = some w ↔ v.Has k w := by
  unfold Val.asDict at h
  split at h
  · next hf =>
    cases h
    constructor
    · intro h; cases h
    · exact fun hh => absurd hh (has_empty v ((falsy_iff v).1 hf) k w)
  · cases v with
    | dict d =>
      cases h
      exact ⟨.dict _ _ _, fun h => by cases h; assumption⟩
    | _ => cases h

theorem entries_iff (v : Val) : (∃ e, v.entries = some e) ↔
    v.Empty ∨ (∃ e, v = .dict e) ∨ ∃ l, v = .list l ∧ ∀ x ∈ l, ∃ k w, x.IsPair k w ∧ k.Key := by
  rw [← falsy_iff]
  unfold Val.entries
  cases h : v.falsy with
  | true => simp
  | false =>
    cases v with
    | list l => simpa using pairs_iff l
    | _ => simp

theorem entries_lookup (v : Val) (e : List (List Char × Val)) (h : v.entries = some e) (k : List Char) (w : Val) :
    e.lookup k = some w ↔ v.Has k w := by
  unfold Val.entries at h
  split at h
  · next hf =>
    cases h
    constructor
    · intro h; cases h
    · exact fun hh => absurd hh (has_empty v ((falsy_iff v).1 hf) k w)
  · cases v with
    | dict d =>
      cases h
      exact ⟨.dict _ _ _, fun h => by cases h; assumption⟩
    | list l => exact pairs_lookup l e h k w
    | _ => cases h

theorem entry_of (d v : Val) (a b : List (List Char × Val)) (ha : ∀ k w, a.lookup k = some w ↔ d.Has k w)
    (hb : ∀ k w, b.lookup k = some w ↔ v.Has k w) (k : List Char) (w : Val) :
    Entry d v k w ↔ w = ((b ++ a).lookup k).getD .none := by
  rw [Entry, lookup_append]
  simp only [← ha, ← hb]
  cases b.lookup k with
  | some x => simp [eq_comm]
  | none => cases a.lookup k <;> simp [eq_comm]

theorem over_iff (d v : Val) : (∃ e, over d v = some e) ↔ (d.Empty ∨ ∃ e, d = .dict e) ∧
    (v.Empty ∨ (∃ e, v = .dict e) ∨ ∃ l, v = .list l ∧ ∀ x ∈ l, ∃ k w, x.IsPair k w ∧ k.Key) := by
  rw [← asDict_iff, ← entries_iff, over]
  cases d.asDict <;> cases v.entries <;> simp

theorem over_entry (d v : Val) (e : List (List Char × Val)) (h : over d v = some e) (k : List Char) (w : Val) :
    Entry d v k w ↔ w = (e.lookup k).getD .none := by
  rw [over] at h
  cases hd : d.asDict with
  | none => simp [hd] at h
  | some a =>
    cases hv : v.entries with
    | none => simp [hd, hv] at h
    | some b =>
      simp only [hd, hv, Option.some.injEq] at h
      subst h
      exact entry_of d v a b (asDict_lookup d a hd) (entries_lookup v b hv) k w

theorem asDict_entry (v : Val) (e : List (List Char × Val)) (h : v.asDict = some e) (k : List Char) (w : Val) :
    Entry .none v k w ↔ w = (e.lookup k).getD .none := by
  have := entry_of .none v [] e (fun k w => ⟨fun h => (nomatch h), fun h => (nomatch h)⟩) (asDict_lookup v e h) k w
  simpa using this

theorem makeItems_iff (f : Val → Option M) (vs : List Val) : (∃ is, makeItems f vs = some is) ↔ ∀ w ∈ vs, ∃ m, f w = some m := by
  induction vs with
  | nil => simp [makeItems]
  | cons w r ih =>
    rw [List.forall_mem_cons, ← ih, makeItems]
    cases f w <;> cases makeItems f r <;> simp

theorem makeArray_iff (f : Val → Option M) (v : Val) : (∃ m, makeArray f v = some m) ↔
    v = .none ∨ ∃ vs, v.Gives vs ∧ ∀ w ∈ vs, ∃ m, f w = some m := by
  simp only [gives_iff, ← makeItems_iff]
  cases v with
  | none => simp [makeArray]
  | num n => simp [makeArray, Val.elems]
  | _ =>
    simp only [makeArray, Val.elems, Option.map_eq_some_iff, reduceCtorEq, false_or, Option.some.injEq, exists_eq_left']
    constructor
    · rintro ⟨m, is, h, _⟩; exact ⟨is, h⟩
    · rintro ⟨is, h⟩; exact ⟨_, is, h, rfl⟩

mutual
theorem build_ok : (s : Sch) → (d v : Val) → ((∃ m, s.build d v = some m) ↔ Ok false s d v)
  | .scalar, d, v => by simp only [Sch.build, Option.some.injEq, exists_eq', true_iff]; exact .scalar _ _ _
  | .float, d, v => by
    simp only [Sch.build, reduceCtorEq, exists_false, false_iff]
    intro h; cases h
  | .record fs, d, v => by
    have hb : (∃ m, (Sch.record fs).build d v = some m) ↔ ∃ e, over d v = some e ∧ ∃ ms, fs.build (some e) = some ms := by
      rw [Sch.build]
      cases over d v with
      | none => simp
      | some e =>
        cases h : fs.build (some e) <;> simp [h]
    rw [hb]
    constructor
    · rintro ⟨e, he, hf⟩
      obtain ⟨hd, hv⟩ := (over_iff d v).1 ⟨e, he⟩
      refine .record fs d v hd hv fun k s df hm w hw => ?_
      rw [(over_entry d v e he k w).1 hw]
      exact (sfields_ok fs e).1 hf k s df hm
    · intro h
      cases h with
      | record _ _ _ hd hv h =>
        obtain ⟨e, he⟩ := (over_iff d v).2 ⟨hd, hv⟩
        exact ⟨e, he, (sfields_ok fs e).2 fun k s df hm => h k s df hm _ ((over_entry d v e he k _).2 rfl)⟩
  | .array item, d, v => by
    rw [Sch.build, makeArray_iff]
    have ih := fun w => value_ok item w
    simp only [ih]
    constructor
    · rintro (h | ⟨vs, hg, h⟩)
      · cases v with
        | none => cases d <;> first | exact .without _ _ | cases h
        | _ => cases h
      · cases v with
        | none => exact .default item d vs hg h
        | _ => exact .array _ item d _ vs hg h
    · intro h
      cases h with
      | without => exact .inl rfl
      | array _ _ _ _ vs hg h =>
        refine .inr ⟨vs, ?_, h⟩
        cases v with
        | none => cases hg
        | _ => exact hg
      | default _ _ vs hg h => exact .inr ⟨vs, hg, h⟩
theorem value_ok : (s : Sch) → (v : Val) → ((∃ m, s.buildValue v = some m) ↔ Ok true s .none v)
  | .scalar, v => by simp only [Sch.buildValue, Option.some.injEq, exists_eq', true_iff]; exact .scalar _ _ _
  | .float, v => by
    simp only [Sch.buildValue, reduceCtorEq, exists_false, false_iff]
    intro h; cases h
  | .record fs, v => by
    have hb : (∃ m, (Sch.record fs).buildValue v = some m) ↔ ∃ ms, fs.build v.asDict = some ms := by
      rw [Sch.buildValue]
      cases fs.build v.asDict <;> simp
    rw [hb]
    cases he : v.asDict with
    | some e =>
      rw [sfields_ok fs e]
      constructor
      · intro hf
        refine .item fs v (.inr ((asDict_iff v).1 ⟨e, he⟩)) fun k s df hm w hw => ?_
        rw [(asDict_entry v e he k w).1 hw]
        exact hf k s df hm
      · intro h
        cases h with
        | item _ _ _ h => exact fun k s df hm => h k s df hm _ ((asDict_entry v e he k _).2 rfl)
    | none =>
      constructor
      · rintro ⟨ms, h⟩
        cases fs with
        | nil => exact .item .nil v (.inl rfl) fun k s df hm => by simp [SFields.toList] at hm
        | cons => cases h
      · intro h
        cases h with
        | item _ _ hv h =>
          rcases hv with h0 | hv
          · cases fs with
            | nil => exact ⟨_, rfl⟩
            | cons => simp [SFields.toList] at h0
          · obtain ⟨e, h'⟩ := (asDict_iff v).2 hv
            rw [he] at h'; cases h'
  | .array item, v => by
    rw [Sch.buildValue, makeArray_iff]
    have ih := fun w => value_ok item w
    simp only [ih]
    constructor
    · rintro (rfl | ⟨vs, hg, h⟩)
      · exact .without _ _
      · exact .array _ item _ v vs hg h
    · intro h
      cases h with
      | without => exact .inl rfl
      | array _ _ _ _ vs hg h => exact .inr ⟨vs, hg, h⟩
theorem sfields_ok : (fs : SFields) → (e : List (List Char × Val)) →
    ((∃ ms, fs.build (some e) = some ms) ↔ ∀ k s df, (k, s, df) ∈ fs.toList → Ok false s df ((e.lookup k).getD .none))
  | .nil, e => by simp [SFields.build, SFields.toList]
  | .cons k s df r, e => by
    have h1 := build_ok s df ((e.lookup k).getD .none)
    have h2 := sfields_ok r e
    have hb : (∃ ms, (SFields.cons k s df r).build (some e) = some ms) ↔
        (∃ m, s.build df ((e.lookup k).getD .none) = some m) ∧ ∃ ms, r.build (some e) = some ms := by
      rw [SFields.build]
      cases s.build df ((e.lookup k).getD .none) <;> cases r.build (some e) <;> simp
    rw [hb, h1, h2]
    constructor
    · rintro ⟨ha, hr⟩ k' s' df' hm
      rcases List.mem_cons.1 hm with h | hm
      · cases h; exact ha
      · exact hr k' s' df' hm
    · intro h
      exact ⟨h k s df List.mem_cons_self, fun k' s' df' hm => h k' s' df' (List.mem_cons_of_mem _ hm)⟩
end

/-- C206: building a model raises exactly if the default and the value are not of a kind it can be built from. -/
theorem C206_raises_iff (s : Sch) (d v : Val) : s.build d v = none ↔ ¬ Ok false s d v := by
  rw [← build_ok s d v]
  cases s.build d v <;> simp

/-- C206: making an item of an array raises exactly if the value is not of a kind it can be made from. -/
theorem C206_item_raises_iff (s : Sch) (v : Val) : s.buildValue v = none ↔ ¬ Ok true s .none v := by
  rw [← value_ok s v]
  cases s.buildValue v <;> simp

theorem sfields_content (fs : SFields) (e : List (List Char × Val)) (ms : Fields) (h : fs.build (some e) = some ms) :
    ms.toList.length = fs.toList.length ∧ ∀ (i : ℕ) k s df, fs.toList[i]? = some (k, s, df) →
      ∃ m, ms.toList[i]? = some (k, m) ∧ s.build df ((e.lookup k).getD .none) = some m := by
  induction fs using SFields.rec (motive_1 := fun _ => True) generalizing ms with
  | scalar => trivial
  | float => trivial
  | record => trivial
  | array => trivial
  | nil => cases h; simp [Fields.toList, SFields.toList]
  | cons k s df r _ ih =>
    rw [SFields.build] at h
    split at h
    · next m fs' h1 h2 =>
      cases h
      obtain ⟨hl, hc⟩ := ih fs' h2
      refine ⟨by simp [Fields.toList, SFields.toList, hl], fun i k' s' df' hi => ?_⟩
      cases i with
      | zero =>
        simp only [SFields.toList, List.getElem?_cons_zero, Option.some.injEq, Prod.mk.injEq] at hi
        obtain ⟨rfl, rfl, rfl⟩ := hi
        exact ⟨m, by simp [Fields.toList], h1⟩
      | succ i =>
        simp only [SFields.toList, List.getElem?_cons_succ] at hi
        obtain ⟨m', hm, hb⟩ := hc i k' s' df' hi
        exact ⟨m', by simpa [Fields.toList] using hm, hb⟩
    · cases h

/-- C206: a record that is built has its fields in order, each built from the entry of the value, otherwise that of the default of the record,
otherwise nothing. -/
theorem C206_record (fs : SFields) (d v : Val) (m : M) (h : (Sch.record fs).build d v = some m) :
    ∃ ms, m = .record ms ∧ ms.toList.length = fs.toList.length ∧ ∀ (i : ℕ) k s df, fs.toList[i]? = some (k, s, df) →
      ∀ w, Entry d v k w → ∃ m', ms.toList[i]? = some (k, m') ∧ s.build df w = some m' := by
  rw [Sch.build] at h
  cases he : over d v with
  | none => simp [he] at h
  | some e =>
    rw [he, Option.bind_some, Option.map_eq_some_iff] at h
    obtain ⟨ms, hm, rfl⟩ := h
    obtain ⟨hl, hc⟩ := sfields_content fs e ms hm
    refine ⟨ms, rfl, hl, fun i k s df hi w hw => ?_⟩
    rw [(over_entry d v e he k w).1 hw]
    exact hc i k s df hi

/-- C206: an array that is built has one item for each thing that going over the value gives, in order, made from it. -/
theorem C206_array (item : Sch) (d v : Val) (m : M) (h : (Sch.array item).build d v = some m) :
    ∃ new items, m = .array new items ∧
      (∀ vs, v.Gives vs ∨ v = .none ∧ d.Gives vs → items.toList.length = vs.length ∧
        ∀ (i : ℕ) w, vs[i]? = some w → ∃ m', items.toList[i]? = some m' ∧ item.buildValue w = some m') ∧
      (v = .none → d = .none → items.toList = []) := by
  have hi : ∀ vs is, makeItems (fun w => item.buildValue w) vs = some is → is.toList.length = vs.length ∧
      ∀ (i : ℕ) w, vs[i]? = some w → ∃ m', is.toList[i]? = some m' ∧ item.buildValue w = some m' := by
    intro vs
    induction vs with
    | nil => intro is h; cases h; simp [Items.toList]
    | cons w r ih =>
      intro is h
      rw [makeItems] at h
      split at h
      · next m is' h1 h2 =>
        cases h
        obtain ⟨hl, hc⟩ := ih is' h2
        refine ⟨by simp [Items.toList, hl], fun i w' hw => ?_⟩
        cases i with
        | zero => cases hw; exact ⟨m, by simp [Items.toList], h1⟩
        | succ i => exact hc i w' hw
      · cases h
  have ha : ∀ x, makeArray (fun w => item.buildValue w) x = some m → ∃ new items, m = .array new items ∧
      (∀ vs, x.Gives vs → items.toList.length = vs.length ∧
        ∀ (i : ℕ) w, vs[i]? = some w → ∃ m', items.toList[i]? = some m' ∧ item.buildValue w = some m') ∧ (x = .none → items.toList = []) := by
    intro x hx
    cases x with
    | none => cases hx; exact ⟨_, _, rfl, ⟨fun vs hg => (nomatch hg), fun _ => rfl⟩⟩
    | num n => cases hx
    | _ =>
      simp only [makeArray, Val.elems, Option.map_eq_some_iff] at hx
      obtain ⟨is, hm, rfl⟩ := hx
      refine ⟨_, is, rfl, fun vs hg => ?_, fun h => by cases h⟩
      rw [gives_iff] at hg
      cases hg
      exact hi _ is hm
  rw [Sch.build] at h
  obtain ⟨new, items, rfl, h1, h2⟩ := ha _ h
  refine ⟨new, items, rfl, fun vs hg => h1 vs ?_, fun hv hd => h2 (by rw [hv, hd]; rfl)⟩
  rcases hg with hg | ⟨rfl, hg⟩
  · cases v with
    | none => cases hg
    | _ => exact hg
  · exact hg

/-- C206: a scalar field can be built from anything; it has its default if it has one. -/
theorem C206_scalar (d v : Val) : (d = .none → Sch.scalar.build d v = some (.field v)) ∧ (d ≠ .none → Sch.scalar.build d v = some (.field d)) := by
  cases d <;> simp [Sch.build, Val.orElse]

/-- C206, partial: from a dict, a record that is an item of an array is the record that is a field without a default. For lists of pairs it is
not: see `C206_counterexample`. -/
theorem C206_dict_partial (fs : SFields) (e : List (List Char × Val)) :
    (Sch.record fs).buildValue (.dict e) = (Sch.record fs).build .none (.dict e) := by
  rw [Sch.build, Sch.buildValue]
  cases e <;> simp [over, Val.asDict, Val.entries, Val.falsy]

/-! ### Cases -/

/-- A record with the field `a`. -/
def exRec : Sch := .record (.cons ['a'] .scalar .none .nil)

def exPairs : Val := .list [.list [.text ['a'], .num 1], .text ['b', 'c'], .text ['a', 'x']]

example : exRec.build .none exPairs = some (.record (.cons ['a'] (.field (.text ['x'])) .nil)) := rfl

/-- C206: a list of pairs makes a record that is a field, and raises for a record that is an item of an array; and reading the same list into the
record leaves it as it was, without raising. -/
theorem C206_counterexample : ∃ (s : Sch) (v : Val) (m : M), s.build .none v = some (.record (.cons ['a'] (.field (.num 1)) .nil)) ∧
    s.buildValue v = none ∧ (Sch.array s).build .none (.list [v]) = none ∧ s.build .none .none = some m ∧ m.read v = (m, false) ∧
    m = .record (.cons ['a'] (.field .none) .nil) :=
  ⟨exRec, .list [.list [.text ['a'], .num 1]], _, rfl, rfl, rfl, rfl, rfl, rfl⟩

/-- C206: a text makes an array of its letters, and zero counts as a record without entries but raises for an array. -/
theorem C206_counterexample_text : ∃ v w : Val,
    (Sch.array .scalar).build .none v = some (.array (.plain .none) (.cons (.plain (.text ['h'])) (.cons (.plain (.text ['i'])) .nil))) ∧
    exRec.build .none w = exRec.build .none .none ∧ (Sch.array .scalar).build .none w = none :=
  ⟨.text ['h', 'i'], .num 0, rfl, rfl, rfl⟩

/-- A default that is no dict raises, as does a text; a list of something that is no pair, or whose key is a list. -/
example : exRec.build (.list [.text ['a', 'b']]) .none = none ∧ exRec.build .none (.text ['a', 'b']) = none ∧
    exRec.build .none (.list [.text ['a']]) = none ∧ exRec.build .none (.list [.list [.list [], .num 1]]) = none ∧
    (exRec.build .none (.list [.list [.num 3, .num 1]])).isSome := ⟨rfl, rfl, rfl, rfl, rfl⟩

/-- An empty record takes anything as an item of an array, but not as a field. -/
example : (Sch.record .nil).buildValue (.num 3) = some (.record .nil) ∧ (Sch.record .nil).build .none (.num 3) = none := ⟨rfl, rfl⟩

/-- Two letters, or a dict with two keys, are a pair; the default of the record is used for what the value does not have. -/
example : (Sch.record (.cons ['a'] .scalar .none (.cons ['b'] .scalar (.num 4) (.cons ['c'] .scalar .none .nil)))).build
      (.dict [(['a'], .num 7), (['c'], .num 8), (['b'], .num 9)]) (.list [.text ['a', 'x'], .dict [(['z'], .none), (['y'], .none)]]) =
    some (.record (.cons ['a'] (.field (.text ['x'])) (.cons ['b'] (.field (.num 4)) (.cons ['c'] (.field (.num 8)) .nil)))) := rfl

/-- A value for an array is taken even if it is empty, its default only if there is none; arrays of floats can only be empty. -/
example : (Sch.array .float).build (.list [.num 1]) (.list []) = some (.array .broken .nil) ∧
    (Sch.array .float).build (.list [.num 1]) .none = none ∧ (Sch.array exRec).build (.list [.dict []]) .none =
      some (.array (.record (.cons ['a'] (.field .none) .nil)) (.cons (.record (.cons ['a'] (.field .none) .nil)) .nil)) :=
  ⟨rfl, rfl, rfl⟩

end Verif.Structured.AnyValue
