import Verif.Py.Basic

/-! Model of the filter classes (`nion/utils/ListModel.py:57-226`) and property C27. -/

namespace Verif.ListModel

open Verif.Py

/-- Python values that items have as attributes: strings, integers, dates, others (by identity). -/
inductive Val where
  | str (s : List Char)
  | int (i : Int)
  | date (year month day : Int)
  | other (n : Nat)
  deriving DecidableEq, Repr

/-- What the filters use of the outside world: attributes of items (`none`: `AttributeError`), `str(x)` and
`str.lower`. -/
structure Env (D : Type*) where
  attr : D → String → Option Val
  str : Val → List Char
  lower : List Char → List Char

/-- A filter object. `text` has its stored lower case text, `none` if the attribute does not exist (see `deepcopy`).
The comparison of `eq` and `notEq` is a function and may raise; `pred` likewise. -/
inductive Flt (D : Type*) where
  | const (default : Bool)
  | and (fs : List (Flt D))
  | or (fs : List (Flt D))
  | not (f : Flt D)
  | eq (key : String) (value : Val) (cmp : Val → Val → Except Exc Bool)
  | notEq (key : String) (value : Val) (cmp : Val → Val → Except Exc Bool)
  | startsWith (key : String) (value : List Char)
  | text (key : String) (text : List Char) (lowerText : Option (List Char))
  | date (key : String) (year month day : Option Int)
  | pred (p : D → Except Exc Bool)

section
variable {D : Type*} (E : Env D)

/-- ListModel.py:169-174: the constructor of a text filter. -/
def Flt.mkText (key : String) (t : List Char) : Flt D := .text key t (some (E.lower t))

/-- `getattr(d, key)` -/
def getattr (d : D) (key : String) : Except Exc Val :=
  match E.attr d key with
  | some v => .ok v
  | none => .error .attributeError

/-- `s.find(sub)`, starting at position `i` of the original string. -/
def find (sub : List Char) : List Char → Nat → Int
  | [], i => if sub.isEmpty then i else -1
  | c :: s, i => if sub.isPrefixOf (c :: s) then i else find sub s (i + 1)

/-- ListModel.py:203-211: `self.__x and d_value.x != self.__x`. -/
def dateMismatch (want : Option Int) (have_ : Int) : Bool :=
  match want with
  | none => false
  | some w => w ≠ 0 && have_ ≠ w

mutual
/-- The `matches` methods: ListModel.py:68-69, 82-83, 96-97, 110-111, 128-130, 147-149, 164-166, 182-184, 203-211,
225-226. -/
def Flt.matches : Flt D → D → Except Exc Bool
  | .const b, _ => .ok b
  | .and fs, d => allM fs d
  | .or fs, d => anyM fs d
  | .not f, d => do let b ← f.matches d; return !b
  | .eq key value cmp, d => do let v ← getattr E d key; cmp v value
  | .notEq key value cmp, d => do let v ← getattr E d key; let b ← cmp v value; return !b
  | .startsWith key value, d => do
    match ← getattr E d key with
    | .str s => return value.isPrefixOf s
    | _ => throw .attributeError
  | .text key _ lowerText, d => do
    let v ← getattr E d key
    match lowerText with
    | some t => return find t (E.lower (E.str v)) 0 ≥ 0
    | none => throw .attributeError
  | .date key y m dd, d => do
    match ← getattr E d key with
    | .date yy mm ddd => return !(dateMismatch y yy) && !(dateMismatch m mm) && !(dateMismatch dd ddd)
    | _ => if y.getD 0 = 0 ∧ m.getD 0 = 0 ∧ dd.getD 0 = 0 then return true else throw .attributeError
  | .pred p, d => p d

/-- `all(map(methodcaller('matches', d), filters))` -/
def allM : List (Flt D) → D → Except Exc Bool
  | [], _ => .ok true
  | f :: fs, d => do if ← f.matches d then allM fs d else return false

/-- `any(map(methodcaller('matches', d), filters))` -/
def anyM : List (Flt D) → D → Except Exc Bool
  | [], _ => .ok false
  | f :: fs, d => do if ← f.matches d then return true else anyM fs d
end

mutual
/-- The `__deepcopy__` methods: ListModel.py:61-66, 77-80, 91-94, 105-108, 121-126, 140-145, 158-162, 176-180, 195-201,
220-223. `TextFilter` does not copy its lower case text. The sharing of parts (`memo`) is not modelled: filters are never
changed after construction. -/
def Flt.deepcopy : Flt D → Flt D
  | .const b => .const b
  | .and fs => .and (copyAll fs)
  | .or fs => .or (copyAll fs)
  | .not f => .not f.deepcopy
  | .eq key value cmp => .eq key value cmp
  | .notEq key value cmp => .notEq key value cmp
  | .startsWith key value => .startsWith key value
  | .text key t _ => .text key t none
  | .date key y m d => .date key y m d
  | .pred p => .pred p

/-- `copy.deepcopy` of a list of filters -/
def copyAll : List (Flt D) → List (Flt D)
  | [] => []
  | f :: fs => f.deepcopy :: copyAll fs
end

theorem copyAll_eq (fs : List (Flt D)) : copyAll fs = fs.map Flt.deepcopy := by
  induction fs with
  | nil => simp [copyAll]
  | cons f fs ih => simp [copyAll, ih]

/-! ### C27: Boolean combination -/

/-- C27: the value of a combined filter whose parts do not raise is the Boolean combination of the values of its parts;
in particular And of none accepts and Or of none rejects. -/
theorem C27_algebra (fs : List (Flt D)) (d : D) (v : Flt D → Bool) (h : ∀ f ∈ fs, f.matches E d = .ok (v f)) :
    (Flt.and fs).matches E d = .ok (decide (∀ f ∈ fs, v f = true)) ∧
    (Flt.or fs).matches E d = .ok (decide (∃ f ∈ fs, v f = true)) ∧
    (∀ f ∈ fs, (Flt.not f).matches E d = .ok (!v f)) ∧
    (∀ b, (Flt.const b).matches E d = .ok b) := by
  refine ⟨?_, ?_, fun f hf => ?_, fun b => by simp [Flt.matches]⟩
  · simp only [Flt.matches]
    induction fs with
    | nil => simp [allM]
    | cons f fs ih =>
      have hf := h f (by simp)
      have := ih fun g hg => h g (by simp [hg])
      cases hv : v f <;> simp [allM, hf, hv, this, bind, Except.bind, pure, Except.pure]
  · simp only [Flt.matches]
    induction fs with
    | nil => simp [anyM]
    | cons f fs ih =>
      have hf := h f (by simp)
      have := ih fun g hg => h g (by simp [hg])
      cases hv : v f <;> simp [anyM, hf, hv, this, bind, Except.bind, pure, Except.pure]
  · simp [Flt.matches, h f hf, bind, Except.bind, pure, Except.pure]

/-- C27 with exceptions: parts are asked in order; And stops at the first part that does not say true, Or at the first
that does not say false, and what that part says (or raises) is the answer. -/
theorem C27_order (pre post : List (Flt D)) (f : Flt D) (d : D) :
    ((∀ g ∈ pre, g.matches E d = .ok true) → f.matches E d ≠ .ok true →
      (Flt.and (pre ++ f :: post)).matches E d = f.matches E d) ∧
    ((∀ g ∈ pre, g.matches E d = .ok false) → f.matches E d ≠ .ok false →
      (Flt.or (pre ++ f :: post)).matches E d = f.matches E d) := by
  constructor
  · intro h1 h2
    simp only [Flt.matches]
    induction pre with
    | nil =>
      cases hf : f.matches E d with
      | error e => simp [allM, hf, bind, Except.bind]
      | ok b =>
        cases b
        · simp [allM, hf, bind, Except.bind, pure, Except.pure]
        · exact absurd hf h2
    | cons g pre ih =>
      simp only [List.cons_append, allM, h1 g (by simp), bind, Except.bind, if_true]
      exact ih fun x hx => h1 x (by simp [hx])
  · intro h1 h2
    simp only [Flt.matches]
    induction pre with
    | nil =>
      cases hf : f.matches E d with
      | error e => simp [anyM, hf, bind, Except.bind]
      | ok b =>
        cases b
        · exact absurd hf h2
        · simp [anyM, hf, bind, Except.bind, pure, Except.pure]
    | cons g pre ih =>
      simp only [List.cons_append, anyM, h1 g (by simp), bind, Except.bind]
      exact ih fun x hx => h1 x (by simp [hx])

/-! ### C27: the simple filters -/

theorem find_nonneg (sub s : List Char) (i : Nat) : 0 ≤ find sub s i ↔ sub <:+: s := by
  induction s generalizing i with
  | nil =>
    unfold find
    split
    · rename_i h; simp [List.isEmpty_iff.1 h]
    · rename_i h
      have : sub ≠ [] := fun e => h (by simp [e])
      simp [this]
  | cons c s ih =>
    unfold find
    split
    · rename_i h
      exact ⟨fun _ => (List.isPrefixOf_iff_prefix.1 h).isInfix, fun _ => Int.natCast_nonneg _⟩
    · rename_i h
      rw [ih, List.infix_cons_iff]
      rw [List.isPrefixOf_iff_prefix] at h
      simp [h]

/-- C27 for the simple filters, for an item that has the attribute: equality and its negation use the comparison with the
attribute first; a prefix test; a text filter accepts exactly if the lower case text occurs in the lower case string of
the attribute; a date filter compares exactly the given non-zero parts. -/
theorem C27_simple (d : D) (key : String) (v : Val) (hv : E.attr d key = some v) :
    (∀ value cmp b, cmp v value = .ok b →
      (Flt.eq key value cmp).matches E d = .ok b ∧ (Flt.notEq key value cmp).matches E d = .ok (!b)) ∧
    (∀ s p, v = .str s → (Flt.startsWith key p).matches E d = .ok (decide (p <+: s))) ∧
    (∀ t, (Flt.mkText E key t).matches E d = .ok (decide (E.lower t <:+: E.lower (E.str v)))) ∧
    (∀ y m dd wy wm wd, v = .date y m dd → (Flt.date key wy wm wd).matches E d =
      .ok (decide ((∀ w, wy = some w → w ≠ 0 → y = w) ∧ (∀ w, wm = some w → w ≠ 0 → m = w) ∧
        (∀ w, wd = some w → w ≠ 0 → dd = w)))) := by
  refine ⟨fun value cmp b hb => ?_, fun s p hs => ?_, fun t => ?_, fun y m dd wy wm wd hd => ?_⟩
  · simp [Flt.matches, getattr, hv, hb, bind, Except.bind, pure, Except.pure]
  · subst hs
    simp only [Flt.matches, getattr, hv, bind, Except.bind, pure, Except.pure]
    congr 1
    rw [Bool.eq_iff_iff, List.isPrefixOf_iff_prefix]; simp
  · simp only [Flt.mkText, Flt.matches, getattr, hv, bind, Except.bind, pure, Except.pure, ge_iff_le]
    congr 1
    rw [Bool.eq_iff_iff]; simp [find_nonneg]
  · subst hd
    simp only [Flt.matches, getattr, hv, bind, Except.bind, pure, Except.pure]
    congr 1
    have hm : ∀ (w : Option Int) (x : Int), (!dateMismatch w x) = decide (∀ w', w = some w' → w' ≠ 0 → x = w') := by
      intro w x
      cases w with
      | none => simp [dateMismatch]
      | some w =>
        rw [Bool.eq_iff_iff]
        simp [dateMismatch]
    rw [hm, hm, hm, Bool.eq_iff_iff]
    simp [and_assoc]

/-- C27, when the simple filters raise: an item without the attribute makes each of them raise `AttributeError`; an
attribute that is no string makes the prefix test raise; an attribute that is no date makes the date filter raise exactly
if some part to compare is given and not zero, otherwise the item is accepted. What a comparison raises is raised. -/
theorem C27_raises (d : D) (key : String) :
    (E.attr d key = none →
      (∀ value cmp, (Flt.eq key value cmp).matches E d = .error .attributeError ∧
        (Flt.notEq key value cmp).matches E d = .error .attributeError) ∧
      (∀ p, (Flt.startsWith key p).matches E d = .error .attributeError) ∧
      (∀ t, (Flt.mkText E key t).matches E d = .error .attributeError) ∧
      (∀ y m dd, (Flt.date key y m dd).matches E d = .error .attributeError)) ∧
    (∀ v, E.attr d key = some v →
      (∀ value cmp e, cmp v value = .error e → (Flt.eq key value cmp).matches E d = .error e ∧
        (Flt.notEq key value cmp).matches E d = .error e) ∧
      ((∀ s, v ≠ .str s) → ∀ p, (Flt.startsWith key p).matches E d = .error .attributeError) ∧
      ((∀ y m dd, v ≠ .date y m dd) → ∀ wy wm wd,
        ((∃ w : Int, w ≠ 0 ∧ (wy = some w ∨ wm = some w ∨ wd = some w)) →
          (Flt.date key wy wm wd).matches E d = .error .attributeError) ∧
        ((∀ w : Int, w ≠ 0 → wy ≠ some w ∧ wm ≠ some w ∧ wd ≠ some w) →
          (Flt.date key wy wm wd).matches E d = .ok true))) := by
  refine ⟨fun h => ⟨fun value cmp => ?_, fun p => ?_, fun t => ?_, fun y m dd => ?_⟩,
    fun v hv => ⟨fun value cmp e he => ?_, fun hs p => ?_, fun hd wy wm wd => ⟨fun hw => ?_, fun hw => ?_⟩⟩⟩
  · simp [Flt.matches, getattr, h, bind, Except.bind]
  · simp [Flt.matches, getattr, h, bind, Except.bind]
  · simp [Flt.mkText, Flt.matches, getattr, h, bind, Except.bind]
  · simp [Flt.matches, getattr, h, bind, Except.bind]
  · simp [Flt.matches, getattr, hv, he, bind, Except.bind]
  · cases v with
    | str s => exact absurd rfl (hs s)
    | _ => simp [Flt.matches, getattr, hv, bind, Except.bind, throw, throwThe, MonadExceptOf.throw]
  · have hn : ¬ (wy.getD 0 = 0 ∧ wm.getD 0 = 0 ∧ wd.getD 0 = 0) := by
      obtain ⟨w, h0, rfl | rfl | rfl⟩ := hw <;> simp [h0]
    cases v with
    | date y m dd => exact absurd rfl (hd y m dd)
    | _ => simp only [Flt.matches, getattr, hv, bind, Except.bind, if_neg hn]; rfl
  · have z : ∀ o : Option Int, (∀ w : Int, w ≠ 0 → o ≠ some w) → o.getD 0 = 0 := by
      intro o ho
      cases o with
      | none => rfl
      | some w => by_contra h0; exact ho w h0 rfl
    have hn : wy.getD 0 = 0 ∧ wm.getD 0 = 0 ∧ wd.getD 0 = 0 :=
      ⟨z _ fun w h => (hw w h).1, z _ fun w h => (hw w h).2.1, z _ fun w h => (hw w h).2.2⟩
    cases v with
    | date y m dd => exact absurd rfl (hd y m dd)
    | _ => simp only [Flt.matches, getattr, hv, bind, Except.bind, if_pos hn]; rfl

/-- a date filter on an item that has a string there -/
example : (Flt.date "name" (some 0) none none : Flt Nat).matches
      (⟨fun _ _ => some (.str ['a']), fun _ => [], id⟩ : Env Nat) 0 = .ok true ∧
    (Flt.date "name" (some 0) (some 3) none : Flt Nat).matches
      (⟨fun _ _ => some (.str ['a']), fun _ => [], id⟩ : Env Nat) 0 = .error .attributeError :=
  ⟨((C27_raises _ 0 "name").2 _ rfl).2.2 (by simp) _ _ _ |>.2 (by simp; tauto),
    ((C27_raises _ 0 "name").2 _ rfl).2.2 (by simp) _ _ _ |>.1 ⟨3, by simp⟩⟩

/-! ### C27: deep copies -/

/-- The filter contains a text filter. -/
inductive HasText : Flt D → Prop where
  | text (key t l) : HasText (.text key t l)
  | and {fs f} : f ∈ fs → HasText f → HasText (.and fs)
  | or {fs f} : f ∈ fs → HasText f → HasText (.or fs)
  | not {f} : HasText f → HasText (.not f)

mutual
theorem deepcopy_same (f : Flt D) (d : D) : f.deepcopy.matches E d = f.matches E d ∨
    (f.deepcopy.matches E d = .error .attributeError ∧ HasText f) := by
  cases f with
  | const b => left; simp [Flt.deepcopy]
  | and fs =>
    rcases allM_same fs d with h | ⟨h, f, hf, ht⟩
    · left; simpa [Flt.deepcopy, Flt.matches] using h
    · right; exact ⟨by simpa [Flt.deepcopy, Flt.matches] using h, .and hf ht⟩
  | or fs =>
    rcases anyM_same fs d with h | ⟨h, f, hf, ht⟩
    · left; simpa [Flt.deepcopy, Flt.matches] using h
    · right; exact ⟨by simpa [Flt.deepcopy, Flt.matches] using h, .or hf ht⟩
  | not f =>
    rcases deepcopy_same f d with h | ⟨h, ht⟩
    · left; simp [Flt.deepcopy, Flt.matches, h]
    · right; exact ⟨by simp [Flt.deepcopy, Flt.matches, h, bind, Except.bind], .not ht⟩
  | eq key value cmp => left; simp [Flt.deepcopy]
  | notEq key value cmp => left; simp [Flt.deepcopy]
  | startsWith key value => left; simp [Flt.deepcopy]
  | text key t l =>
    right
    refine ⟨?_, .text ..⟩
    simp only [Flt.deepcopy, Flt.matches, getattr]
    cases E.attr d key <;> rfl
  | date key y m dd => left; simp [Flt.deepcopy]
  | pred p => left; simp [Flt.deepcopy]

theorem allM_same (fs : List (Flt D)) (d : D) : allM E (copyAll fs) d = allM E fs d ∨
    (allM E (copyAll fs) d = .error .attributeError ∧ ∃ f ∈ fs, HasText f) := by
  match fs with
  | [] => left; simp [copyAll]
  | f :: fs =>
    rcases deepcopy_same f d with h | ⟨h, ht⟩
    · cases hf : f.matches E d with
      | error e => left; simp [copyAll, allM, h, hf, bind, Except.bind]
      | ok b =>
        cases b with
        | false => left; simp [copyAll, allM, h, hf, bind, Except.bind]
        | true =>
          rcases allM_same fs d with h2 | ⟨h2, g, hg, ht⟩
          · left; simp [copyAll, allM, h, hf, h2, bind, Except.bind]
          · right; exact ⟨by simp [copyAll, allM, h, hf, h2, bind, Except.bind], g, by simp [hg], ht⟩
    · right; exact ⟨by simp [copyAll, allM, h, bind, Except.bind], f, by simp, ht⟩

theorem anyM_same (fs : List (Flt D)) (d : D) : anyM E (copyAll fs) d = anyM E fs d ∨
    (anyM E (copyAll fs) d = .error .attributeError ∧ ∃ f ∈ fs, HasText f) := by
  match fs with
  | [] => left; simp [copyAll]
  | f :: fs =>
    rcases deepcopy_same f d with h | ⟨h, ht⟩
    · cases hf : f.matches E d with
      | error e => left; simp [copyAll, anyM, h, hf, bind, Except.bind]
      | ok b =>
        cases b with
        | true => left; simp [copyAll, anyM, h, hf, bind, Except.bind]
        | false =>
          rcases anyM_same fs d with h2 | ⟨h2, g, hg, ht⟩
          · left; simp [copyAll, anyM, h, hf, h2, bind, Except.bind]
          · right; exact ⟨by simp [copyAll, anyM, h, hf, h2, bind, Except.bind], g, by simp [hg], ht⟩
    · right; exact ⟨by simp [copyAll, anyM, h, bind, Except.bind], f, by simp, ht⟩
end

/-- C27, deep copies: the copy of a filter with no text filter in it behaves the same on every item; the copy of any
filter behaves the same or raises `AttributeError`.
(Missing: copies of filters with a text filter in them, for which it is false.) -/
theorem C27_deepcopy_partial (f : Flt D) (d : D) :
    (¬ HasText f → f.deepcopy.matches E d = f.matches E d) ∧
    (f.deepcopy.matches E d = f.matches E d ∨ f.deepcopy.matches E d = .error .attributeError) := by
  rcases deepcopy_same E f d with h | ⟨h, ht⟩
  · exact ⟨fun _ => h, .inl h⟩
  · exact ⟨fun hn => absurd ht hn, .inr h⟩

end

/-- A world where every item has the attribute `name` with the value "ab". -/
def abEnv : Env Nat := ⟨fun _ k => if k = "name" then some (.str ['a', 'b']) else none, fun v => match v with
  | .str s => s
  | _ => [], id⟩

/-- C27 is false for copies of text filters: the filter accepts the item, its deep copy raises. -/
theorem C27_deepcopy_counterexample :
    (Flt.mkText abEnv "name" ['b']).matches abEnv 0 = .ok true ∧
    (Flt.mkText abEnv "name" ['b']).deepcopy.matches abEnv 0 = .error .attributeError := by
  constructor
  · simp [Flt.mkText, Flt.matches, getattr, abEnv, bind, Except.bind, pure, Except.pure]; decide
  · simp [Flt.mkText, Flt.deepcopy, Flt.matches, getattr, abEnv, bind, Except.bind]; rfl

/-- a nested filter without text filter, and its copy, on a concrete item -/
example : let f : Flt Nat := .and [.or [], .not (.startsWith "name" ['b'])]
    ¬ HasText f ∧ f.deepcopy.matches abEnv 0 = .ok false ∧
    (Flt.or [.const false, .not (.startsWith "name" ['b'])] : Flt Nat).matches abEnv 0 = .ok true := by
  refine ⟨?_, ?_, ?_⟩
  · rintro (_ | ⟨h, ht⟩ | _ | _)
    simp at h
    rcases h with rfl | rfl
    · cases ht; simp at *
    · cases ht; rename_i h; cases h
  · simp [Flt.deepcopy, copyAll, Flt.matches, allM, anyM, bind, Except.bind, pure, Except.pure]
  · simp [Flt.matches, anyM, getattr, abEnv, bind, Except.bind, pure, Except.pure]

end Verif.ListModel
