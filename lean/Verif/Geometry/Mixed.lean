import Verif.Geometry.Rect
import Mathlib.Algebra.Order.Floor.Ring
import Mathlib.Data.Rat.Floor
import Mathlib.Tactic.Push

/-!
Insets, equality, integer against float rectangles, slices (`nion/utils/Geometry.py:277-279, 336-346, 446-447, 516-517, 588-606,
616-623, 639-644`), C92-C96. Floats are exact.
-/

set_option linter.unusedSectionVars false

namespace Verif.Geometry

attribute [local simp] Rect.left Rect.top Rect.right Rect.bottom Rect.width Rect.height

section

variable {K : Type} [CommRing K] [LinearOrder K] [IsStrictOrderedRing K]

/-- Lines 277-279: on pairs of pairs. -/
def insetRect (r : (K × K) × (K × K)) (a : K) : (K × K) × (K × K) :=
  ((r.1.1 + a, r.1.2 + a), (r.2.1 - 2 * a, r.2.2 - 2 * a))

/-- Lines 603-606, 994-997: a rectangle as pairs. -/
def Rect.toPairs (r : Rect K) : (K × K) × (K × K) := ((r.origin.y, r.origin.x), (r.size.height, r.size.width))

/-- C92: an inset is undone by the opposite one, insets add, and each side moves inwards by the amount. -/
theorem C92_inset (r : Rect K) (dx dy ex ey : K) :
    (r.inset dx dy).inset (-dx) (-dy) = r ∧ (r.inset dx dy).inset ex ey = r.inset (dx + ex) (dy + ey) ∧
      (r.inset dx dy).top = r.top + dy ∧ (r.inset dx dy).left = r.left + dx ∧ (r.inset dx dy).bottom = r.bottom - dy ∧
      (r.inset dx dy).right = r.right - dx := by
  refine ⟨?_, ?_, ?_, ?_, ?_, ?_⟩
  · ext <;> simp [Rect.inset]
  · ext <;> simp [Rect.inset] <;> ring
  all_goals simp [Rect.inset]
  all_goals ring

/-- C92: the points of the inset rectangle are those whose neighbourhood is in the rectangle. -/
theorem C92_points (r : Rect K) (dx dy : K) (p : Point K) (h : 0 ≤ dx ∧ 0 ≤ dy) :
    (r.inset dx dy).containsPoint p = true ↔
      r.containsPoint ⟨p.y - dy, p.x - dx⟩ = true ∧ r.containsPoint ⟨p.y + dy, p.x + dx⟩ = true := by
  rw [C62_contains, C62_contains, C62_contains]
  simp only [Rect.Has, Rect.inset]
  constructor
  · rintro ⟨h1, h2, h3, h4⟩
    refine ⟨⟨?_, ?_, ?_, ?_⟩, ⟨?_, ?_, ?_, ?_⟩⟩ <;> linarith [h.1, h.2]
  · rintro ⟨⟨h1, h2, h3, h4⟩, ⟨h5, h6, h7, h8⟩⟩
    refine ⟨?_, ?_, ?_, ?_⟩ <;> linarith [h.1, h.2]

/-- C92: `inset_rect` is the inset by the same amount on all sides. -/
theorem C92_inset_rect (r : Rect K) (a : K) : insetRect r.toPairs a = (r.inset a a).toPairs := by
  simp [insetRect, Rect.toPairs, Rect.inset, mul_comm]

/-- Pairs with the same components are the same. -/
example : ((⟨⟨1, 2⟩, ⟨10, 20⟩⟩ : Rect ℤ).inset 3 4) = ⟨⟨5, 5⟩, ⟨2, 14⟩⟩ := by decide

end

/-! ### Integers and floats -/

section

variable {K : Type} [Field K] [LinearOrder K] [IsStrictOrderedRing K] [FloorRing K]

/-- `int(v)` of a float. -/
def trunc (v : K) : ℤ := if 0 ≤ v then ⌊v⌋ else ⌈v⌉

theorem trunc_intCast (z : ℤ) : trunc (z : K) = z := by
  rw [trunc]
  split <;> simp

/-- A point given to a method: of integers, or of floats. -/
inductive PointArg (K : Type) where
  | int (p : Point ℤ)
  | float (p : Point K)

/-- Lines 309-316: `IntPoint.make`. -/
def PointArg.toInt : PointArg K → Point ℤ
  | .int p => p
  | .float p => ⟨trunc p.y, trunc p.x⟩

/-- Lines 677-684: `FloatPoint.make`. -/
def PointArg.toFloat : PointArg K → Point K
  | .int p => ⟨p.y, p.x⟩
  | .float p => p

/-- Lines 336-340, 700-704: `a == b`. -/
def PointArg.eq (a b : PointArg K) : Bool :=
  match a with
  | .int p => decide (p.x = b.toInt.x) && decide (p.y = b.toInt.y)
  | .float p => decide (p.x = b.toFloat.x) && decide (p.y = b.toFloat.y)

/-- Lines 342-346, 706-710: `a != b`. -/
def PointArg.ne (a b : PointArg K) : Bool :=
  match a with
  | .int p => decide (p.x ≠ b.toInt.x) || decide (p.y ≠ b.toInt.y)
  | .float p => decide (p.x ≠ b.toFloat.x) || decide (p.y ≠ b.toFloat.y)

/-- C93: `!=` is the opposite of `==`. -/
theorem C93_ne (a b : PointArg K) : a.ne b = !a.eq b := by
  cases a <;> simp [PointArg.eq, PointArg.ne]

/-- C93: equal values are equal and equality of two integer points, or two float points, is equality of the coordinates. -/
theorem C93_eq_partial (a b : PointArg K) (h : (∃ p q, a = .int p ∧ b = .int q) ∨ ∃ p q, a = .float p ∧ b = .float q) :
    (a.eq b = true ↔ a.toFloat = b.toFloat) ∧ a.eq b = b.eq a := by
  rw [Bool.eq_iff_iff]
  rcases h with ⟨p, q, rfl, rfl⟩ | ⟨p, q, rfl, rfl⟩
  · simp only [PointArg.eq, Bool.and_eq_true, decide_eq_true_eq]
    simp only [PointArg.toInt, PointArg.toFloat, Point.mk.injEq, Int.cast_inj, @eq_comm _ q.x, @eq_comm _ q.y]
    tauto
  · simp only [PointArg.eq, Bool.and_eq_true, decide_eq_true_eq]
    simp only [PointArg.toFloat, Point.ext_iff, @eq_comm _ q.x, @eq_comm _ q.y]
    tauto

/-- C93 for an integer and a float point: `==` compares with the float point cut off towards zero in one order, and exactly in the
other; the orders agree exactly if the cut changes nothing or the points differ even after it. -/
theorem C93_mixed_partial (p : Point ℤ) (q : Point K) :
    ((PointArg.int p : PointArg K).eq (.float q) = true ↔ p = ⟨trunc q.y, trunc q.x⟩) ∧
      ((PointArg.float q : PointArg K).eq (.int p) = true ↔ q = ⟨(p.y : K), (p.x : K)⟩) ∧
      ((PointArg.int p : PointArg K).eq (.float q) = (PointArg.float q : PointArg K).eq (.int p) ↔
        (p = ⟨trunc q.y, trunc q.x⟩ → q = ⟨(p.y : K), (p.x : K)⟩)) := by
  have h1 : (PointArg.int p : PointArg K).eq (.float q) = true ↔ p = ⟨trunc q.y, trunc q.x⟩ := by
    simp only [PointArg.eq, PointArg.toInt, Bool.and_eq_true, decide_eq_true_eq, Point.ext_iff, @eq_comm _ p.x, @eq_comm _ p.y]
    tauto
  have h2 : (PointArg.float q : PointArg K).eq (.int p) = true ↔ q = ⟨(p.y : K), (p.x : K)⟩ := by
    simp only [PointArg.eq, PointArg.toFloat, Bool.and_eq_true, decide_eq_true_eq, Point.ext_iff, @eq_comm _ q.x, @eq_comm _ q.y]
    tauto
  refine ⟨h1, h2, ?_⟩
  rw [Bool.eq_iff_iff, h1, h2]
  constructor
  · exact fun h => h.1
  · intro h
    refine ⟨h, ?_⟩
    rintro rfl
    simp only [trunc_intCast]

/-- C93, counterexample: the integer point (1, 1) equals the float point (1.5, 1.75), which does not equal it. -/
theorem C93_counterexample :
    (PointArg.int ⟨1, 1⟩ : PointArg ℚ).eq (.float ⟨3 / 2, 7 / 4⟩) = true ∧
      (PointArg.float ⟨3 / 2, 7 / 4⟩ : PointArg ℚ).eq (.int ⟨1, 1⟩) = false := by
  constructor
  · have h1 : trunc (3 / 2 : ℚ) = 1 := by rw [trunc, if_pos (by norm_num)]; norm_num
    have h2 : trunc (7 / 4 : ℚ) = 1 := by rw [trunc, if_pos (by norm_num)]; norm_num
    simp [PointArg.eq, PointArg.toInt, h1, h2]
  · simp only [PointArg.eq, PointArg.toFloat]
    norm_num

/-- Lines 516-517. -/
def Rect.toFloat (r : Rect ℤ) : Rect K := .fromTLBR (r.top : K) (r.left : K) (r.bottom : K) (r.right : K)

/-- Lines 616-623 with any point. -/
def Rect.intContains (r : Rect ℤ) (p : PointArg K) : Bool := r.containsPoint p.toInt

/-- Lines 1007-1014 with any point. -/
def Rect.floatContains (r : Rect K) (p : PointArg K) : Bool := r.containsPoint p.toFloat

theorem toFloat_intersect (a b : Rect ℤ) : ((a.intersect b).toFloat : Rect K) = a.toFloat.intersect b.toFloat := by
  simp [Rect.toFloat, Rect.intersect, Rect.fromTLBR]

theorem toFloat_union (a b : Rect ℤ) : ((a.union b).toFloat : Rect K) = a.toFloat.union b.toFloat := by
  simp [Rect.toFloat, Rect.union, Rect.fromTLBR]

/-- C94: `to_float_rect` keeps the corners, and commutes with intersection, union, translation and insets; `intersects_rect` and
equality give the same before and after. -/
theorem C94_to_float (a b : Rect ℤ) (p : Point ℤ) (dx dy : ℤ) :
    (a.toFloat : Rect K).topLeft = (PointArg.int a.topLeft).toFloat ∧
      (a.toFloat : Rect K).bottomRight = (PointArg.int a.bottomRight).toFloat ∧
      ((a.intersect b).toFloat : Rect K) = a.toFloat.intersect b.toFloat ∧
      ((a.union b).toFloat : Rect K) = a.toFloat.union b.toFloat ∧
      ((a.translated p).toFloat : Rect K) = a.toFloat.translated (PointArg.int p).toFloat ∧
      ((a.inset dx dy).toFloat : Rect K) = (a.toFloat : Rect K).inset (dx : K) (dy : K) ∧
      (a.toFloat : Rect K).intersectsRect b.toFloat = a.intersectsRect b ∧
      ((a.toFloat : Rect K) = b.toFloat ↔ a = b) := by
  refine ⟨?_, ?_, toFloat_intersect a b, toFloat_union a b, ?_, ?_, ?_, ?_⟩
  · simp [Rect.toFloat, Rect.topLeft, Rect.fromTLBR, PointArg.toFloat]
  · simp [Rect.toFloat, Rect.bottomRight, Rect.fromTLBR, PointArg.toFloat]
  · simp [Rect.toFloat, Rect.translated, Rect.fromTLBR, PointArg.toFloat, Point.add]
  · ext <;> simp [Rect.toFloat, Rect.inset, Rect.fromTLBR]
  · simp only [Rect.intersectsRect, Bool.or_eq_true, decide_eq_true_eq]
    simp only [Rect.toFloat, Rect.fromTLBR, Rect.left, Rect.right, Rect.top, Rect.bottom, add_sub_cancel, gt_iff_lt, Int.cast_lt]
  · constructor
    · intro h
      simp only [Rect.toFloat, Rect.fromTLBR, Rect.mk.injEq, Point.mk.injEq, Size.mk.injEq, Int.cast_inj, Int.cast_add,
        add_sub_cancel_left] at h
      obtain ⟨⟨h1, h2⟩, h3, h4⟩ := h
      ext <;> assumption
    · rintro rfl
      rfl

/-- C95: points that are not left of or above zero, or have integer coordinates, are in an integer rectangle exactly if they are in
the float rectangle. -/
theorem C95_contains_partial (r : Rect ℤ) (p : PointArg K)
    (h : (∃ q, p = .int q) ∨ 0 ≤ p.toFloat.y ∧ 0 ≤ p.toFloat.x) : r.intContains p = r.toFloat.floatContains p := by
  rw [Rect.intContains, Rect.floatContains, Bool.eq_iff_iff, C62_contains, C62_contains]
  simp only [Rect.Has, Rect.toFloat, Rect.fromTLBR, add_sub_cancel]
  rcases h with ⟨q, rfl⟩ | ⟨hy, hx⟩
  · simp only [PointArg.toInt, PointArg.toFloat, Int.cast_le, Int.cast_lt]
  · cases p with
    | int q => simp only [PointArg.toInt, PointArg.toFloat, Int.cast_le, Int.cast_lt]
    | float q =>
      simp only [PointArg.toFloat] at hy hx
      simp only [PointArg.toInt, PointArg.toFloat, trunc, if_pos hy, if_pos hx, Int.le_floor, Int.floor_lt]

/-- C95, exactly when: a point is in the same integer rectangles and float rectangles if each coordinate is an integer or not negative, and
only then. -/
theorem C95_iff_partial (q : Point K) :
    (∀ r : Rect ℤ, r.intContains (.float q : PointArg K) = r.toFloat.floatContains (.float q)) ↔
      (0 ≤ q.y ∨ ((trunc q.y : ℤ) : K) = q.y) ∧ (0 ≤ q.x ∨ ((trunc q.x : ℤ) : K) = q.x) := by
  have hc : ∀ r : Rect ℤ, (r.intContains (.float q : PointArg K) = r.toFloat.floatContains (.float q)) ↔
      ((r.origin.y ≤ trunc q.y ∧ trunc q.y < r.origin.y + r.size.height ∧ r.origin.x ≤ trunc q.x ∧ trunc q.x < r.origin.x + r.size.width) ↔
        ((r.origin.y : K) ≤ q.y ∧ q.y < ((r.origin.y + r.size.height : ℤ) : K) ∧ (r.origin.x : K) ≤ q.x ∧
          q.x < ((r.origin.x + r.size.width : ℤ) : K))) := by
    intro r
    rw [Rect.intContains, Rect.floatContains, Bool.eq_iff_iff, C62_contains, C62_contains]
    simp only [Rect.Has, Rect.toFloat, Rect.fromTLBR, add_sub_cancel, PointArg.toInt, PointArg.toFloat, Rect.top, Rect.left,
      Rect.bottom, Rect.right]
  have one : ∀ (a : K) (m n : ℤ), (0 ≤ a ∨ ((trunc a : ℤ) : K) = a) → ((m ≤ trunc a ∧ trunc a < n) ↔ ((m : K) ≤ a ∧ a < (n : K))) := by
    intro a m n h
    rcases h with h | h
    · rw [trunc, if_pos h, Int.le_floor, Int.floor_lt]
    · conv_rhs => rw [← h]
      rw [Int.cast_le, Int.cast_lt]
  have wide : ∀ a : K, ∃ m n : ℤ, m ≤ trunc a ∧ trunc a < n ∧ (m : K) ≤ a ∧ a < (n : K) := by
    intro a
    refine ⟨⌊a⌋, ⌈a⌉ + 1, ?_, ?_, Int.floor_le a, ?_⟩
    · rw [trunc]; split
      · exact le_refl _
      · exact Int.floor_le_ceil a
    · rw [trunc]; split
      · have := Int.floor_le_ceil a; omega
      · omega
    · push_cast
      have := Int.le_ceil a
      exact lt_of_le_of_lt this (lt_add_one _)
  have bad : ∀ a : K, ¬ (0 ≤ a ∨ ((trunc a : ℤ) : K) = a) → a < ((trunc a : ℤ) : K) := by
    intro a h
    rw [not_or] at h
    have h2 : trunc a = ⌈a⌉ := by rw [trunc, if_neg h.1]
    refine lt_of_le_of_ne ?_ (Ne.symm h.2)
    rw [h2]
    exact Int.le_ceil a
  constructor
  · intro h
    constructor
    · by_contra hb
      obtain ⟨m, n, h1, h2, h3, h4⟩ := wide q.x
      have := (hc ⟨⟨trunc q.y, m⟩, ⟨1, n - m⟩⟩).1 (h _)
      simp only [add_sub_cancel] at this
      exact absurd (this.1 ⟨le_refl _, by omega, h1, h2⟩).1 (not_le.2 (bad _ hb))
    · by_contra hb
      obtain ⟨m, n, h1, h2, h3, h4⟩ := wide q.y
      have := (hc ⟨⟨m, trunc q.x⟩, ⟨n - m, 1⟩⟩).1 (h _)
      simp only [add_sub_cancel] at this
      exact absurd (this.1 ⟨h1, h2, le_refl _, by omega⟩).2.2.1 (not_le.2 (bad _ hb))
  · rintro ⟨hy, hx⟩ r
    rw [hc]
    have a := one q.y r.origin.y (r.origin.y + r.size.height) hy
    have b := one q.x r.origin.x (r.origin.x + r.size.width) hx
    tauto

/-- C95, counterexample: the rectangle from (0, 0) of size (4, 4) contains (-1/2, -1/2) as an integer rectangle. -/
theorem C95_counterexample :
    (⟨⟨0, 0⟩, ⟨4, 4⟩⟩ : Rect ℤ).intContains (.float ⟨-1 / 2, -1 / 2⟩ : PointArg ℚ) = true ∧
      ((⟨⟨0, 0⟩, ⟨4, 4⟩⟩ : Rect ℤ).toFloat : Rect ℚ).floatContains (.float ⟨-1 / 2, -1 / 2⟩) = false := by
  have h : trunc (-1 / 2 : ℚ) = 0 := by
    rw [trunc, if_neg (by norm_num), Int.ceil_eq_iff]
    norm_num
  constructor
  · rw [Rect.intContains, C62_contains]
    simp [Rect.Has, PointArg.toInt, h]
  · rw [Bool.eq_false_iff, Ne, Rect.floatContains, C62_contains]
    simp only [Rect.Has, PointArg.toFloat, Rect.toFloat, Rect.fromTLBR]
    norm_num

end

/-! ### C96: slices -/

/-- `slice(start, stop).indices(n)` for a length `n`: negative bounds count from the end, then both are limited to `0 … n`. -/
def sliceBounds (start stop n : ℤ) : ℤ × ℤ :=
  let clip (i : ℤ) : ℤ := if i < 0 then max (i + n) 0 else min i n
  (clip start, clip stop)

/-- The positions a slice selects. -/
def Selects (start stop n i : ℤ) : Prop := (sliceBounds start stop n).1 ≤ i ∧ i < (sliceBounds start stop n).2

/-- Lines 588-590. -/
def Rect.slice (r : Rect ℤ) : (ℤ × ℤ) × (ℤ × ℤ) := ((r.top, r.bottom), (r.left, r.right))

/-- C96: for a rectangle that is not left of or above zero, the slice selects from an array the positions contained in the
rectangle. -/
theorem C96_slice_partial (r : Rect ℤ) (h w : ℤ) (p : Point ℤ) (hp : 0 ≤ p.y ∧ p.y < h ∧ 0 ≤ p.x ∧ p.x < w)
    (hr : 0 ≤ r.top ∧ 0 ≤ r.left ∧ 0 ≤ r.bottom ∧ 0 ≤ r.right) :
    (Selects r.slice.1.1 r.slice.1.2 h p.y ∧ Selects r.slice.2.1 r.slice.2.2 w p.x) ↔ r.containsPoint p = true := by
  rw [C62_contains]
  simp only [Selects, sliceBounds, Rect.slice, Rect.Has, Rect.top, Rect.left, Rect.bottom, Rect.right] at *
  split_ifs <;> omega

/-- What the slice does to one direction is right for an array of `n`: no side is negative, or a negative start is at or before
the beginning of the array or the rectangle ends there, or a negative stop is before the start. -/
def SideOk (start stop n : ℤ) : Prop :=
  (0 ≤ start ∧ 0 ≤ stop) ∨ (start < 0 ∧ 0 ≤ stop ∧ (start + n ≤ 0 ∨ stop = 0)) ∨
  (0 ≤ start ∧ stop < 0 ∧ stop + n ≤ start) ∨ (start < 0 ∧ stop < 0 ∧ (stop ≤ start ∨ stop + n ≤ 0))

theorem side_iff (start stop n : ℤ) (hn : 0 ≤ n) :
    (∀ i, 0 ≤ i → i < n → (Selects start stop n i ↔ start ≤ i ∧ i < stop)) ↔ SideOk start stop n := by
  constructor
  · intro h
    simp only [Selects, sliceBounds] at h
    by_cases hs : start < 0 <;> by_cases ht : stop < 0 <;> simp only [hs, ht, if_true, if_false] at h
    · have := h (max (start + n) 0)
      exact .inr (.inr (.inr ⟨hs, ht, by omega⟩))
    · have := h 0
      exact .inr (.inl ⟨hs, by omega, by omega⟩)
    · have := h start
      exact .inr (.inr (.inl ⟨by omega, ht, by omega⟩))
    · exact .inl ⟨by omega, by omega⟩
  · intro h i h0 h1
    simp only [Selects, sliceBounds]
    rcases h with h | h | h | h <;> split_ifs <;> omega

/-- C96, exactly: the slice selects from an array of `h` by `w` the positions contained in the rectangle just if it does so in
both directions, or selects nothing where nothing is contained. -/
theorem C96_iff_partial (r : Rect ℤ) (h w : ℤ) (hh : 0 ≤ h) (hw : 0 ≤ w) :
    (∀ p : Point ℤ, 0 ≤ p.y ∧ p.y < h ∧ 0 ≤ p.x ∧ p.x < w →
      ((Selects r.slice.1.1 r.slice.1.2 h p.y ∧ Selects r.slice.2.1 r.slice.2.2 w p.x) ↔ r.containsPoint p = true)) ↔
    (SideOk r.top r.bottom h ∧ SideOk r.left r.right w) ∨
    ((∀ p : Point ℤ, ¬ (Selects r.slice.1.1 r.slice.1.2 h p.y ∧ Selects r.slice.2.1 r.slice.2.2 w p.x)) ∧
      ∀ p : Point ℤ, 0 ≤ p.y ∧ p.y < h ∧ 0 ≤ p.x ∧ p.x < w → r.containsPoint p = false) := by
  have hrange : ∀ a b n i : ℤ, 0 ≤ n → Selects a b n i → 0 ≤ i ∧ i < n := by
    intro a b n i hn hs
    simp only [Selects, sliceBounds] at hs
    split_ifs at hs <;> omega
  have hc : ∀ p : Point ℤ, r.containsPoint p = true ↔ (r.top ≤ p.y ∧ p.y < r.bottom) ∧ (r.left ≤ p.x ∧ p.x < r.right) := by
    intro p
    rw [C62_contains]
    simp only [Rect.Has, Rect.top, Rect.left, Rect.bottom, Rect.right]
    tauto
  rw [← side_iff r.top r.bottom h hh, ← side_iff r.left r.right w hw]
  simp only [Rect.slice]
  constructor
  · intro H
    by_cases hne : ∃ p : Point ℤ, Selects r.top r.bottom h p.y ∧ Selects r.left r.right w p.x
    · left
      obtain ⟨p, hp1, hp2⟩ := hne
      have b1 := hrange _ _ _ _ hh hp1
      have b2 := hrange _ _ _ _ hw hp2
      have hp := (hc p).1 ((H p ⟨b1.1, b1.2, b2.1, b2.2⟩).1 ⟨hp1, hp2⟩)
      constructor
      · intro i i0 i1
        have := H ⟨i, p.x⟩ ⟨i0, i1, b2.1, b2.2⟩
        rw [hc] at this
        simp only at this
        tauto
      · intro i i0 i1
        have := H ⟨p.y, i⟩ ⟨b1.1, b1.2, i0, i1⟩
        rw [hc] at this
        simp only at this
        tauto
    · right
      refine ⟨fun p hp => hne ⟨p, hp⟩, fun p hp => ?_⟩
      rw [Bool.eq_false_iff, Ne, ← H p hp]
      exact fun hp' => hne ⟨p, hp'⟩
  · rintro (⟨h1, h2⟩ | ⟨h1, h2⟩) p hp
    · rw [hc, h1 p.y hp.1 hp.2.1, h2 p.x hp.2.2.1 hp.2.2.2]
    · constructor
      · intro hs; exact absurd hs (h1 p)
      · intro hs; rw [h2 p hp] at hs; cases hs

/-- Rows -3 and on of an array with 2 rows are right, of one with 5 rows not. -/
example : SideOk (-3) 2 2 ∧ ¬ SideOk (-3) 2 5 := by simp only [SideOk]; omega

/-- C96, counterexample: the rectangle of rows -1 and 0 contains row 0; its slice of an array of 10 rows selects nothing. -/
theorem C96_counterexample :
    (⟨⟨-1, 0⟩, ⟨2, 4⟩⟩ : Rect ℤ).containsPoint ⟨0, 0⟩ = true ∧
      ∀ i, ¬ Selects (⟨⟨-1, 0⟩, ⟨2, 4⟩⟩ : Rect ℤ).slice.1.1 (⟨⟨-1, 0⟩, ⟨2, 4⟩⟩ : Rect ℤ).slice.1.2 10 i := by
  constructor
  · decide
  · intro i
    simp only [Selects, sliceBounds, Rect.slice, Rect.top, Rect.bottom]
    omega

/-- Rows 2 to 5 and columns 1 to 3. -/
example : (⟨⟨2, 1⟩, ⟨3, 2⟩⟩ : Rect ℤ).slice = ((2, 5), (1, 3)) ∧ sliceBounds 2 5 4 = (2, 4) := by decide

end Verif.Geometry
