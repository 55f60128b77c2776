import Mathlib.Data.Nat.Notation
import Mathlib.Data.Int.Notation

/-!
C208: integer points, sizes and rectangles compared with anything (`nion/utils/Geometry.py`: `IntPoint` 309-316, 337-347, 375-376; `IntSize`
387-404, 425-435, 462-463; `IntRect` 483-490, 592-605). The other operand is made into one of the same class first, so it is subscripted
with 0 and 1 and `int` is applied. What `int` makes of a text is a parameter. Tuples and lists are sequences; floats are in C93 and C168. The
comparison of a tuple, list, text or number with a point is the one of the point with it, as Python tries the other operand.
-/

namespace Verif.Geometry.EqAny

inductive Obj where
  | none
  | int (n : ℤ)
  | text (s : List Char)
  | seq (l : List Obj)
  | point (y x : ℤ)
  | size (h w : ℤ)
  | rect (t l h w : ℤ)

/-- `value[i]`; nothing if it raises. -/
def Obj.get (i : ℕ) : Obj → Option Obj
  | .none => Option.none
  | .int _ => Option.none
  | .text s => s[i]?.map fun c => .text [c]
  | .seq l => l[i]?
  | .point y x => [Obj.int y, .int x][i]?
  | .size h w => [Obj.int h, .int w][i]?
  | .rect t l h w => [Obj.seq [.int t, .int l], .seq [.int h, .int w]][i]?

variable (parse : List Char → Option ℤ)

/-- `int(value)`. -/
def Obj.toInt : Obj → Option ℤ
  | .int n => some n
  | .text s => parse s
  | _ => Option.none

/-- Lines 388-399: a side that is `None` is zero. -/
def Obj.toSide : Obj → Option ℤ
  | .none => some 0
  | o => o.toInt parse

/-- Two arguments; nothing if one of them raises. -/
def both {A B : Type} : Option A → Option B → Option (A × B)
  | some a, some b => some (a, b)
  | _, _ => none

/-- Lines 309-316. -/
def makePoint (o : Obj) : Option (ℤ × ℤ) :=
  both ((o.get 0).bind (Obj.toInt parse)) ((o.get 1).bind (Obj.toInt parse))

/-- Lines 387-404. -/
def makeSize (o : Obj) : Option (ℤ × ℤ) :=
  both ((o.get 0).bind (Obj.toSide parse)) ((o.get 1).bind (Obj.toSide parse))

/-- Lines 483-490. -/
def makeRect (o : Obj) : Option ((ℤ × ℤ) × ℤ × ℤ) :=
  both ((o.get 0).bind (makePoint parse)) ((o.get 1).bind (makeSize parse))

/-- `a == b` for a point, a size or a rectangle `a`; nothing if it raises, or if `a` is none of them. -/
def eq (a b : Obj) : Option Bool :=
  match a, b with
  | .point _ _, .none => some false
  | .point y x, b => (makePoint parse b).map fun p => x == p.2 && y == p.1
  | .size _ _, .none => some false
  | .size h w, b => (makeSize parse b).map fun s => w == s.2 && h == s.1
  | .rect _ _ _ _, .none => some false
  | .rect t l h w, b => (makeRect parse b).map fun r => (l == r.1.2 && t == r.1.1) && (w == r.2.2 && h == r.2.1)
  | _, _ => none

/-- `a != b`. -/
def ne (a b : Obj) : Option Bool :=
  match a, b with
  | .point _ _, .none => some true
  | .point y x, b => (makePoint parse b).map fun p => x != p.2 || y != p.1
  | .size _ _, .none => some true
  | .size h w, b => (makeSize parse b).map fun s => w != s.2 || h != s.1
  | .rect _ _ _ _, .none => some true
  | .rect t l h w, b => (makeRect parse b).map fun r => (l != r.1.2 || t != r.1.1) || (w != r.2.2 || h != r.2.1)
  | _, _ => none

/-! ### Specification -/

/-- What something begins with: the first two elements or letters, the coordinates of a point, the sides of a size, the corner and the sides of
a rectangle. -/
inductive Begins : Obj → Obj → Obj → Prop where
  | seq (a b : Obj) (r : List Obj) : Begins (.seq (a :: b :: r)) a b
  | text (a b : Char) (r : List Char) : Begins (.text (a :: b :: r)) (.text [a]) (.text [b])
  | point (y x : ℤ) : Begins (.point y x) (.int y) (.int x)
  | size (h w : ℤ) : Begins (.size h w) (.int h) (.int w)
  | rect (t l h w : ℤ) : Begins (.rect t l h w) (.seq [.int t, .int l]) (.seq [.int h, .int w])

def IsInt (o : Obj) (n : ℤ) : Prop := o = .int n ∨ ∃ s, o = .text s ∧ parse s = some n

/-- Something that begins with two numbers. -/
def IsPoint (o : Obj) (y x : ℤ) : Prop := ∃ a b, Begins o a b ∧ IsInt parse a y ∧ IsInt parse b x

def IsSide (o : Obj) (n : ℤ) : Prop := IsInt parse o n ∨ o = .none ∧ n = 0

/-- Something that begins with two numbers, or with `None` for zero. -/
def IsSize (o : Obj) (h w : ℤ) : Prop := ∃ a b, Begins o a b ∧ IsSide parse a h ∧ IsSide parse b w

def IsRect (o : Obj) (t l h w : ℤ) : Prop := ∃ a b, Begins o a b ∧ IsPoint parse a t l ∧ IsSize parse b h w

/-! ### Proofs -/

theorem get_iff (o a b : Obj) : Begins o a b ↔ o.get 0 = some a ∧ o.get 1 = some b := by
  constructor
  · intro h; cases h <;> exact ⟨rfl, rfl⟩
  · rintro ⟨h0, h1⟩
    cases o with
    | none => cases h0
    | int => cases h0
    | text s =>
      match s, h0, h1 with
      | a :: b :: r, h0, h1 => cases h0; cases h1; exact .text _ _ _
    | seq l =>
      match l, h0, h1 with
      | a :: b :: r, h0, h1 => cases h0; cases h1; exact .seq _ _ _
    | point => cases h0; cases h1; exact .point _ _
    | size => cases h0; cases h1; exact .size _ _
    | rect => cases h0; cases h1; exact .rect _ _ _ _

theorem toInt_iff (o : Obj) (n : ℤ) : IsInt parse o n ↔ o.toInt parse = some n := by
  cases o <;> simp [IsInt, Obj.toInt]

theorem toSide_iff (o : Obj) (n : ℤ) : IsSide parse o n ↔ o.toSide parse = some n := by
  cases o <;> simp [IsSide, IsInt, Obj.toSide, Obj.toInt, eq_comm]

theorem make_iff {A B : Type} (f : Obj → Option A) (g : Obj → Option B) (o : Obj) (p : A × B) :
    both ((o.get 0).bind f) ((o.get 1).bind g) = some p ↔
      ∃ a b, Begins o a b ∧ f a = some p.1 ∧ g b = some p.2 := by
  simp only [get_iff]
  constructor
  · intro h
    unfold both at h
    split at h
    · next h0 h1 =>
      cases h
      rw [Option.bind_eq_some_iff] at h0 h1
      obtain ⟨a, ha, h0⟩ := h0
      obtain ⟨b, hb, h1⟩ := h1
      exact ⟨a, b, ⟨ha, hb⟩, h0, h1⟩
    · cases h
  · rintro ⟨a, b, ⟨ha, hb⟩, h0, h1⟩
    rw [ha, hb, Option.bind_some, Option.bind_some, h0, h1]; rfl

theorem point_iff (o : Obj) (p : ℤ × ℤ) : makePoint parse o = some p ↔ IsPoint parse o p.1 p.2 := by
  simp only [IsPoint, toInt_iff]; exact make_iff (Obj.toInt parse) (Obj.toInt parse) o p

theorem size_iff (o : Obj) (p : ℤ × ℤ) : makeSize parse o = some p ↔ IsSize parse o p.1 p.2 := by
  simp only [IsSize, toSide_iff]; exact make_iff (Obj.toSide parse) (Obj.toSide parse) o p

theorem rect_iff (o : Obj) (p : (ℤ × ℤ) × ℤ × ℤ) : makeRect parse o = some p ↔ IsRect parse o p.1.1 p.1.2 p.2.1 p.2.2 := by
  simp only [IsRect, ← point_iff parse _ (_, _), ← size_iff parse _ (_, _)]; exact make_iff (makePoint parse) (makeSize parse) o p

theorem begins_none (a b : Obj) : ¬ Begins .none a b := fun h => (nomatch h)

/-- C208, partial: a point is equal exactly to what begins with the same two numbers, whatever it is, and comparing it raises exactly with what
does not begin with two numbers, unless it is `None`. -/
theorem C208_point_partial (y x : ℤ) (o : Obj) : (eq parse (.point y x) o = some true ↔ IsPoint parse o y x) ∧
    (eq parse (.point y x) o = none ↔ o ≠ .none ∧ ∀ y' x', ¬ IsPoint parse o y' x') := by
  by_cases ho : o = .none
  · subst ho
    refine ⟨⟨fun h => (nomatch h), fun ⟨a, b, h, _⟩ => absurd h (begins_none a b)⟩, fun h => (nomatch h), fun h => absurd rfl h.1⟩
  · have e : eq parse (.point y x) o = (makePoint parse o).map fun p => x == p.2 && y == p.1 := by
      cases o <;> first | exact absurd rfl ho | rfl
    rw [e]
    cases hm : makePoint parse o with
    | none =>
      have hn : ∀ y' x', ¬ IsPoint parse o y' x' := fun y' x' h => by rw [← point_iff parse o (y', x'), hm] at h; cases h
      simp [hn, ho]
    | some p =>
      have hp := (point_iff parse o p).1 hm
      refine ⟨⟨fun h => ?_, fun h => ?_⟩, fun h => by simp at h, fun h => absurd hp (h.2 _ _)⟩
      · simp only [Option.map_some, Option.some.injEq, Bool.and_eq_true, beq_iff_eq] at h
        rw [h.1, h.2]; exact hp
      · rw [← point_iff parse o (y, x), hm] at h; cases h; simp

/-- C208, partial: a size likewise; `None` counts as zero in what it is compared with. -/
theorem C208_size_partial (h w : ℤ) (o : Obj) : (eq parse (.size h w) o = some true ↔ IsSize parse o h w) ∧
    (eq parse (.size h w) o = none ↔ o ≠ .none ∧ ∀ h' w', ¬ IsSize parse o h' w') := by
  by_cases ho : o = .none
  · subst ho
    refine ⟨⟨fun h => (nomatch h), fun ⟨a, b, h, _⟩ => absurd h (begins_none a b)⟩, fun h => (nomatch h), fun h => absurd rfl h.1⟩
  · have e : eq parse (.size h w) o = (makeSize parse o).map fun p => w == p.2 && h == p.1 := by
      cases o <;> first | exact absurd rfl ho | rfl
    rw [e]
    cases hm : makeSize parse o with
    | none =>
      have hn : ∀ y' x', ¬ IsSize parse o y' x' := fun y' x' h => by rw [← size_iff parse o (y', x'), hm] at h; cases h
      simp [hn, ho]
    | some p =>
      have hp := (size_iff parse o p).1 hm
      refine ⟨⟨fun h => ?_, fun h => ?_⟩, fun h => by simp at h, fun h => absurd hp (h.2 _ _)⟩
      · simp only [Option.map_some, Option.some.injEq, Bool.and_eq_true, beq_iff_eq] at h
        rw [h.1, h.2]; exact hp
      · rw [← size_iff parse o (_, w), hm] at h; cases h; simp

/-- C208, partial: a rectangle is equal exactly to what begins with something its corner is equal to and something its size is equal to. -/
theorem C208_rect_partial (t l h w : ℤ) (o : Obj) : (eq parse (.rect t l h w) o = some true ↔ IsRect parse o t l h w) ∧
    (eq parse (.rect t l h w) o = none ↔ o ≠ .none ∧ ∀ t' l' h' w', ¬ IsRect parse o t' l' h' w') := by
  by_cases ho : o = .none
  · subst ho
    refine ⟨⟨fun h => (nomatch h), fun ⟨a, b, h, _⟩ => absurd h (begins_none a b)⟩, fun h => (nomatch h), fun h => absurd rfl h.1⟩
  · have e : eq parse (.rect t l h w) o = (makeRect parse o).map fun r => (l == r.1.2 && t == r.1.1) && (w == r.2.2 && h == r.2.1) := by
      cases o <;> first | exact absurd rfl ho | rfl
    rw [e]
    cases hm : makeRect parse o with
    | none =>
      have hn : ∀ t' l' h' w', ¬ IsRect parse o t' l' h' w' := fun t' l' h' w' h => by
        rw [← rect_iff parse o ((t', l'), h', w'), hm] at h; cases h
      simp [hn, ho]
    | some p =>
      have hp := (rect_iff parse o p).1 hm
      refine ⟨⟨fun h => ?_, fun h => ?_⟩, fun h => by simp at h, fun h => absurd hp (h.2 _ _ _ _)⟩
      · simp only [Option.map_some, Option.some.injEq, Bool.and_eq_true, beq_iff_eq] at h
        rw [h.1.1, h.1.2, h.2.1, h.2.2]; exact hp
      · rw [← rect_iff parse o ((t, l), _, w), hm] at h; cases h; simp

/-- C208: `!=` is the opposite of `==`, and raises exactly if it does. -/
theorem C208_ne (a b : Obj) : ne parse a b = (eq parse a b).map not := by
  cases a <;> cases b <;> simp [ne, eq, bne, Option.map_map, Function.comp_def]

/-- A point, a size or a rectangle. -/
inductive Geo : Obj → Prop where
  | point (y x : ℤ) : Geo (.point y x)
  | size (h w : ℤ) : Geo (.size h w)
  | rect (t l h w : ℤ) : Geo (.rect t l h w)

/-- C208: between points, sizes and rectangles the comparison is symmetric, also in raising, and what is equal to the same is equal. -/
theorem C208_equivalence (a b c : Obj) (ha : Geo a) (hb : Geo b) (hc : Geo c) : eq parse a a = some true ∧ eq parse a b = eq parse b a ∧
    (eq parse a b = some true → eq parse b c = some true → eq parse a c = some true) := by
  refine ⟨?_, ?_, ?_⟩
  · cases ha <;> simp [eq, makePoint, makeSize, makeRect, both, Obj.get, Obj.toInt, Obj.toSide]
  · cases ha <;> cases hb <;>
      simp [eq, makePoint, makeSize, makeRect, both, Obj.get, Obj.toInt, Obj.toSide, Bool.beq_comm]
  · cases ha <;> cases hb <;> cases hc <;>
      simp +contextual [eq, makePoint, makeSize, makeRect, both, Obj.get, Obj.toInt, Obj.toSide]

/-- C208: two points, two sizes and two rectangles are equal exactly if they are the same, and never raise. -/
theorem C208_same_class (a b c d a' b' c' d' : ℤ) :
    eq parse (.point a b) (.point a' b') = some (decide (a = a' ∧ b = b')) ∧ eq parse (.size a b) (.size a' b') = some (decide (a = a' ∧ b = b')) ∧
      eq parse (.rect a b c d) (.rect a' b' c' d') = some (decide (a = a' ∧ b = b' ∧ c = c' ∧ d = d')) := by
  refine ⟨?_, ?_, ?_⟩ <;>
    simp only [eq, makePoint, makeSize, makeRect, both, Obj.get, Obj.toInt, Obj.toSide, Option.map_some, Option.bind_some, List.getElem?_cons_zero,
      List.getElem?_cons_succ, Option.some.injEq] <;>
    rw [Bool.eq_iff_iff] <;>
    simp only [Bool.and_eq_true, beq_iff_eq, decide_eq_true_eq]
  · exact and_comm
  · exact and_comm
  · constructor
    · rintro ⟨⟨h1, h2⟩, h3, h4⟩; exact ⟨h2, h1, h4, h3⟩
    · rintro ⟨h1, h2, h3, h4⟩; exact ⟨⟨h2, h1⟩, h4, h3⟩

/-! ### Cases -/

/-- Digits. -/
def digits (s : List Char) : Option ℤ := match s with | ['1'] => some 1 | ['2'] => some 2 | _ => none

/-- C208: a point is equal to a size, to a longer tuple and to a text; a size to a tuple of `None`. -/
theorem C208_counterexample : eq digits (.point 1 2) (.size 1 2) = some true ∧ eq digits (.point 1 2) (.seq [.int 1, .int 2, .int 3]) = some true ∧
    eq digits (.point 1 2) (.text ['1', '2']) = some true ∧ eq digits (.size 0 0) (.seq [.none, .none]) = some true :=
  ⟨by decide, by decide, by decide, by decide⟩

/-- C208: comparing a point with a rectangle, a number, an empty tuple or a word raises. -/
theorem C208_counterexample_raises : eq digits (.point 1 2) (.rect 1 2 3 4) = none ∧ eq digits (.rect 1 2 3 4) (.point 1 2) = none ∧
    eq digits (.point 1 2) (.int 1) = none ∧ eq digits (.point 1 2) (.seq []) = none ∧ eq digits (.point 1 2) (.text ['n', 'o']) = none ∧
    eq digits (.point 0 0) (.seq [.none, .none]) = none := ⟨by decide, by decide, by decide, by decide, by decide, by decide⟩

/-- A rectangle and a pair of a point and a size, of tuples, of sizes; different corners, different sizes; `None`. -/
example : eq digits (.rect 1 2 3 4) (.seq [.point 1 2, .size 3 4]) = some true ∧
    eq digits (.rect 1 2 0 4) (.seq [.text ['1', '2'], .seq [.none, .int 4]]) = some true ∧
    eq digits (.rect 1 2 3 4) (.seq [.size 1 2, .point 3 5]) = some false ∧ eq digits (.rect 1 2 3 4) (.rect 2 1 3 4) = some false ∧
    eq digits (.rect 1 2 3 4) .none = some false ∧ ne digits (.rect 1 2 3 4) .none = some true ∧ ne digits (.point 1 2) (.point 2 1) = some true :=
  ⟨by decide, by decide, by decide, by decide, by decide, by decide, by decide⟩

end Verif.Geometry.EqAny
