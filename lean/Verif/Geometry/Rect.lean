import Mathlib.Algebra.Order.Field.Basic
import Mathlib.Data.Rat.Cast.Order
import Mathlib.Algebra.Order.Ring.Rat
import Mathlib.Tactic.Ring
import Mathlib.Tactic.FieldSimp
import Mathlib.Tactic.NormNum
import Mathlib.Tactic.Linarith

/-!
Points, sizes and rectangles (`nion/utils/Geometry.py:305-1076`), C62-C66.

`IntPoint`, `IntSize`, `IntRect` and `FloatPoint`, `FloatSize`, `FloatRect` have the same formulas except for centres; both are
`Point K`, `Size K`, `Rect K`, with `K = ℤ` for the first and an ordered field (`ℚ`, `ℝ`) for the second: float arithmetic is exact
here. For integers, `int(h * 0.5)` is exact up to 2^53 and truncates towards zero (`Int.tdiv`), `// 2` rounds down (`Int.fdiv`).
-/

set_option linter.unusedSectionVars false

namespace Verif.Geometry

/-- Lines 305-335, 673-700. -/
@[ext] structure Point (K : Type) where
  y : K
  x : K
  deriving DecidableEq

/-- Lines 383-423, 770-807. -/
@[ext] structure Size (K : Type) where
  height : K
  width : K
  deriving DecidableEq

/-- Lines 475-490, 869-884. -/
@[ext] structure Rect (K : Type) where
  origin : Point K
  size : Size K
  deriving DecidableEq

section

variable {K : Type} [Ring K] [LinearOrder K]

/-- Lines 355-357, 720-722. -/
def Point.add (p q : Point K) : Point K := ⟨p.y + q.y, p.x + q.x⟩

/-- Lines 365-367, 730-732. -/
def Point.sub (p q : Point K) : Point K := ⟨p.y - q.y, p.x - q.x⟩

/-- Lines 368-369, 733-734: point minus size. -/
def Point.subSize (p : Point K) (s : Size K) : Point K := ⟨p.y - s.height, p.x - s.width⟩

/-- Lines 533-561, 928-956. -/
abbrev Rect.width (r : Rect K) : K := r.size.width
abbrev Rect.height (r : Rect K) : K := r.size.height
abbrev Rect.left (r : Rect K) : K := r.origin.x
abbrev Rect.top (r : Rect K) : K := r.origin.y
abbrev Rect.right (r : Rect K) : K := r.origin.x + r.size.width
abbrev Rect.bottom (r : Rect K) : K := r.origin.y + r.size.height

/-- Lines 563-581, 958-976. -/
def Rect.topLeft (r : Rect K) : Point K := ⟨r.top, r.left⟩
def Rect.topRight (r : Rect K) : Point K := ⟨r.top, r.right⟩
def Rect.bottomLeft (r : Rect K) : Point K := ⟨r.bottom, r.left⟩
def Rect.bottomRight (r : Rect K) : Point K := ⟨r.bottom, r.right⟩

/-- Lines 500-512, 894-906. -/
def Rect.fromTLBR (top left bottom right : K) : Rect K := ⟨⟨top, left⟩, ⟨bottom - top, right - left⟩⟩
def Rect.fromTLHW (top left height width : K) : Rect K := ⟨⟨top, left⟩, ⟨height, width⟩⟩

/-- Lines 616-623, 1007-1014. -/
def Rect.containsPoint (r : Rect K) (p : Point K) : Bool :=
  decide (p.x ≥ r.left) && decide (p.x < r.right) && decide (p.y ≥ r.top) && decide (p.y < r.bottom)

/-- Lines 625-633, 1016-1024. -/
def Rect.intersectsRect (a b : Rect K) : Bool :=
  if a.left > b.right || b.left > a.right then false
  else if a.bottom < b.top || b.bottom < a.top then false
  else true

/-- Lines 635-637, 1026-1028. -/
def Rect.translated (r : Rect K) (p : Point K) : Rect K := ⟨r.origin.add p, r.size⟩

/-- Lines 639-644, 1030-1035. -/
def Rect.inset (r : Rect K) (dx dy : K) : Rect K := ⟨⟨r.top + dy, r.left + dx⟩, ⟨r.height - dy * 2, r.width - dx * 2⟩⟩

/-- Lines 646-651, 1037-1042. -/
def Rect.intersect (a b : Rect K) : Rect K :=
  .fromTLBR (max a.top b.top) (max a.left b.left) (min a.bottom b.bottom) (min a.right b.right)

/-- Lines 653-658, 1044-1049. -/
def Rect.union (a b : Rect K) : Rect K :=
  .fromTLBR (min a.top b.top) (min a.left b.left) (max a.bottom b.bottom) (max a.right b.right)

/-! ### C62: intersection and union -/

/-- The points of a rectangle, specified by its corner and size: left/top sides included, right/bottom sides not. -/
def Rect.Has (r : Rect K) (p : Point K) : Prop :=
  r.origin.y ≤ p.y ∧ p.y < r.origin.y + r.size.height ∧ r.origin.x ≤ p.x ∧ p.x < r.origin.x + r.size.width

/-- The points of a rectangle with all its sides. -/
def Rect.HasClosed (r : Rect K) (p : Point K) : Prop :=
  r.origin.y ≤ p.y ∧ p.y ≤ r.origin.y + r.size.height ∧ r.origin.x ≤ p.x ∧ p.x ≤ r.origin.x + r.size.width

theorem C62_contains (r : Rect K) (p : Point K) : r.containsPoint p = true ↔ r.Has p := by
  simp only [Rect.containsPoint, Rect.Has, Bool.and_eq_true, decide_eq_true_eq, ge_iff_le, Rect.left, Rect.right, Rect.top,
    Rect.bottom]
  tauto

/-- C62: a point is in the intersection of two rectangles exactly if it is in both. -/
theorem C62_intersect (a b : Rect K) (p : Point K) :
    (a.intersect b).containsPoint p = true ↔ a.containsPoint p = true ∧ b.containsPoint p = true := by
  rw [C62_contains, C62_contains, C62_contains]
  simp only [Rect.Has, Rect.intersect, Rect.fromTLBR, Rect.left, Rect.right, Rect.top, Rect.bottom, add_sub_cancel, max_le_iff,
    lt_min_iff]
  tauto

/-- C62: the union of two rectangles has every point of both. -/
theorem C62_union (a b : Rect K) (p : Point K) (h : a.containsPoint p = true ∨ b.containsPoint p = true) :
    (a.union b).containsPoint p = true := by
  rw [C62_contains] at *
  rw [C62_contains] at h
  simp only [Rect.Has, Rect.union, Rect.fromTLBR, Rect.left, Rect.right, Rect.top, Rect.bottom, add_sub_cancel, min_le_iff,
    lt_max_iff] at *
  tauto

/-- C62: intersection and union do not depend on the order. -/
theorem C62_comm (a b : Rect K) : a.intersect b = b.intersect a ∧ a.union b = b.union a := by
  simp only [Rect.intersect, Rect.union, max_comm, min_comm, and_self]

/-- C62: `intersects_rect` is symmetric. -/
theorem C62_intersects_symm (a b : Rect K) : a.intersectsRect b = b.intersectsRect a := by
  unfold Rect.intersectsRect
  rw [Bool.or_comm (decide (a.left > b.right)), Bool.or_comm (decide (a.bottom < b.top))]

/-- C62: for sizes which are not negative, `intersects_rect` is true exactly if the rectangles, with all their sides, share a
point. Missing: negative sizes, see `C62_counterexample`. -/
theorem C62_intersects_partial (a b : Rect K) (ha : 0 ≤ a.size.height ∧ 0 ≤ a.size.width)
    (hb : 0 ≤ b.size.height ∧ 0 ≤ b.size.width) [IsOrderedAddMonoid K] :
    a.intersectsRect b = true ↔ ∃ p, a.HasClosed p ∧ b.HasClosed p := by
  obtain ⟨⟨ay, ax⟩, ⟨ah, aw⟩⟩ := a
  obtain ⟨⟨by_, bx⟩, ⟨bh, bw⟩⟩ := b
  simp only [Rect.intersectsRect, Rect.HasClosed, Rect.left, Rect.right, Rect.top, Rect.bottom] at *
  constructor
  · intro h
    split_ifs at h with h1 h2
    simp only [Bool.or_eq_true, decide_eq_true_eq, not_or, not_lt, gt_iff_lt] at h1 h2
    refine ⟨⟨max ay by_, max ax bx⟩, ?_⟩
    simp only [le_max_left, le_max_right, max_le_iff, true_and]
    refine ⟨⟨⟨by simpa using ha.1, h2.1⟩, by simpa using ha.2, h1.2⟩, ⟨h2.2, by simpa using hb.1⟩, h1.1, by simpa using hb.2⟩
  · rintro ⟨⟨y, x⟩, h1, h2⟩
    simp only at h1 h2
    rw [if_neg, if_neg]
    · simp only [Bool.or_eq_true, decide_eq_true_eq, not_or, not_lt]
      exact ⟨h2.1.trans h1.2.1, h1.1.trans h2.2.1⟩
    · simp only [Bool.or_eq_true, decide_eq_true_eq, not_or, not_lt, gt_iff_lt]
      exact ⟨h1.2.2.1.trans h2.2.2.2, h2.2.2.1.trans h1.2.2.2⟩

/-- C62, all sizes: the rectangles with all their sides share a point exactly if `intersects_rect` is true and no size is
negative (a rectangle with a negative size has no points). -/
theorem C62_intersects_iff (a b : Rect K) [IsOrderedAddMonoid K] :
    (∃ p, a.HasClosed p ∧ b.HasClosed p) ↔ a.intersectsRect b = true ∧
      (0 ≤ a.size.height ∧ 0 ≤ a.size.width) ∧ 0 ≤ b.size.height ∧ 0 ≤ b.size.width := by
  constructor
  · intro h
    have hs : ∀ r : Rect K, (∃ p, r.HasClosed p) → 0 ≤ r.size.height ∧ 0 ≤ r.size.width := by
      rintro r ⟨p, h1, h2, h3, h4⟩
      exact ⟨by simpa using h1.trans h2, by simpa using h3.trans h4⟩
    obtain ⟨p, h1, h2⟩ := h
    exact ⟨(C62_intersects_partial a b (hs a ⟨p, h1⟩) (hs b ⟨p, h2⟩)).2 ⟨p, h1, h2⟩, hs a ⟨p, h1⟩, hs b ⟨p, h2⟩⟩
  · rintro ⟨h, ha, hb⟩
    exact (C62_intersects_partial a b ha hb).1 h

/-! ### C64, what holds in both cases: corners -/

/-- C64: `from_tlbr` and `from_tlhw` give back their arguments. -/
theorem C64_corners (t l b r h w : K) :
    (Rect.fromTLBR t l b r).top = t ∧ (Rect.fromTLBR t l b r).left = l ∧ (Rect.fromTLBR t l b r).bottom = b ∧
      (Rect.fromTLBR t l b r).right = r ∧ (Rect.fromTLHW t l h w).top = t ∧ (Rect.fromTLHW t l h w).left = l ∧
      (Rect.fromTLHW t l h w).height = h ∧ (Rect.fromTLHW t l h w).width = w := by
  simp [Rect.fromTLBR, Rect.fromTLHW, Rect.top, Rect.left, Rect.bottom, Rect.right, Rect.height, Rect.width]

/-- C64: a rectangle is made of its corners. -/
theorem C64_tlbr (r : Rect K) : Rect.fromTLBR r.top r.left r.bottom r.right = r ∧
    Rect.fromTLHW r.top r.left r.height r.width = r := by
  simp [Rect.fromTLBR, Rect.fromTLHW, Rect.top, Rect.left, Rect.bottom, Rect.right, Rect.height, Rect.width]

end

/-! ### Integers -/

/-- Lines 583-586. -/
def Rect.centerI (r : Rect ℤ) : Point ℤ := ⟨(r.top + r.bottom).fdiv 2, (r.left + r.right).fdiv 2⟩

/-- Lines 492-498; `int(height * 0.5)`. -/
def fromCenterAndSizeI (c : Point ℤ) (s : Size ℤ) : Rect ℤ := ⟨c.subSize ⟨s.height.tdiv 2, s.width.tdiv 2⟩, s⟩

/-- Lines 660-664 (and `point + rect`, 360-361). -/
def Rect.addI (r : Rect ℤ) (p : Point ℤ) : Rect ℤ := fromCenterAndSizeI (r.centerI.add p) r.size

/-- Lines 666-670. -/
def Rect.subI (r : Rect ℤ) (p : Point ℤ) : Rect ℤ := fromCenterAndSizeI (r.centerI.sub p) r.size

/-- C62: the union of two rectangles which are not empty is the smallest rectangle with the points of both. -/
theorem C62_union_least (a b c : Rect ℤ) (ha : ∃ p, a.Has p) (hb : ∃ p, b.Has p)
    (h : ∀ p, a.containsPoint p = true ∨ b.containsPoint p = true → c.containsPoint p = true) (p : Point ℤ)
    (hp : (a.union b).containsPoint p = true) : c.containsPoint p = true := by
  simp only [C62_contains] at *
  obtain ⟨pa, ha⟩ := ha
  obtain ⟨pb, hb⟩ := hb
  have h1 := h ⟨a.origin.y, a.origin.x⟩ (.inl (by simp only [Rect.Has] at *; omega))
  have h2 := h ⟨a.origin.y + a.size.height - 1, a.origin.x + a.size.width - 1⟩ (.inl (by simp only [Rect.Has] at *; omega))
  have h3 := h ⟨b.origin.y, b.origin.x⟩ (.inr (by simp only [Rect.Has] at *; omega))
  have h4 := h ⟨b.origin.y + b.size.height - 1, b.origin.x + b.size.width - 1⟩ (.inr (by simp only [Rect.Has] at *; omega))
  simp only [Rect.Has, Rect.union, Rect.fromTLBR, Rect.left, Rect.right, Rect.top, Rect.bottom] at *
  omega

example : (⟨⟨0, 0⟩, ⟨4, 6⟩⟩ : Rect ℤ).intersect ⟨⟨2, 3⟩, ⟨10, 10⟩⟩ = ⟨⟨2, 3⟩, ⟨2, 3⟩⟩ ∧
    (⟨⟨0, 0⟩, ⟨4, 6⟩⟩ : Rect ℤ).union ⟨⟨2, 3⟩, ⟨10, 10⟩⟩ = ⟨⟨0, 0⟩, ⟨12, 13⟩⟩ := by decide

/-- Touching rectangles intersect. -/
example : (⟨⟨0, 0⟩, ⟨4, 6⟩⟩ : Rect ℤ).intersectsRect ⟨⟨4, 6⟩, ⟨1, 1⟩⟩ = true ∧
    (⟨⟨0, 0⟩, ⟨4, 6⟩⟩ : Rect ℤ).intersectsRect ⟨⟨5, 6⟩, ⟨1, 1⟩⟩ = false := by decide

/-- C62, negative: a rectangle of negative width (such as `intersect` gives for two which are apart) intersects another although it
has no points, even with its sides. -/
theorem C62_counterexample : let a : Rect ℤ := (⟨⟨0, 0⟩, ⟨4, 4⟩⟩ : Rect ℤ).intersect ⟨⟨0, 6⟩, ⟨4, 4⟩⟩
    a = ⟨⟨0, 6⟩, ⟨4, -2⟩⟩ ∧ a.intersectsRect ⟨⟨0, 0⟩, ⟨10, 10⟩⟩ = true ∧ ∀ p, ¬ a.HasClosed p := by
  refine ⟨by decide, by decide, fun p => ?_⟩
  simp [Rect.HasClosed, Rect.intersect, Rect.fromTLBR, Rect.left, Rect.right, Rect.top, Rect.bottom]
  intros
  omega

/-- A size whose halves are exact or rounded down: not negative or even. -/
def Halves (s : Size ℤ) : Prop := (0 ≤ s.height ∨ 2 ∣ s.height) ∧ (0 ≤ s.width ∨ 2 ∣ s.width)

theorem tdiv_two {n : ℤ} (h : 0 ≤ n ∨ 2 ∣ n) : n.tdiv 2 = n / 2 := by
  rcases h with h | ⟨k, rfl⟩
  · exact Int.tdiv_eq_ediv_of_nonneg h
  · rw [Int.mul_tdiv_cancel_left _ (by omega), Int.mul_ediv_cancel_left _ (by omega)]

theorem tdiv_two_neg {n : ℤ} (h : ¬ (0 ≤ n ∨ 2 ∣ n)) : n.tdiv 2 = n / 2 + 1 := by
  obtain ⟨m, rfl⟩ : ∃ m, n = -m := ⟨-n, by omega⟩
  rw [Int.neg_tdiv, Int.tdiv_eq_ediv_of_nonneg (by omega)]
  omega

/-- Moving by the centre, for any size: off by one for negative odd sizes. -/
theorem addI_eq (r : Rect ℤ) (p : Point ℤ) : r.addI p = r.translated
    ⟨p.y - (if 0 ≤ r.size.height ∨ 2 ∣ r.size.height then 0 else 1), p.x - (if 0 ≤ r.size.width ∨ 2 ∣ r.size.width then 0 else 1)⟩ := by
  simp only [Rect.addI, fromCenterAndSizeI, Rect.translated, Point.add, Point.subSize, Rect.centerI, Rect.top, Rect.bottom,
    Rect.left, Rect.right, Int.fdiv_eq_ediv_of_nonneg _ (show (0 : ℤ) ≤ 2 by omega)]
  ext
  · simp only
    split_ifs with h
    · rw [tdiv_two h]; omega
    · rw [tdiv_two_neg h]; omega
  · simp only
    split_ifs with h
    · rw [tdiv_two h]; omega
    · rw [tdiv_two_neg h]; omega
  · rfl
  · rfl

theorem subI_eq (r : Rect ℤ) (p : Point ℤ) : r.subI p = r.addI ⟨-p.y, -p.x⟩ := by
  simp [Rect.subI, Rect.addI, Point.sub, Point.add, sub_eq_add_neg]

/-! ### C63 -/

section

variable {K : Type} [Ring K] [LinearOrder K] [IsStrictOrderedRing K]

/-- C63: `translated` moves every point of the rectangle and keeps its size. -/
theorem C63_translated (r : Rect K) (p q : Point K) :
    ((r.translated p).containsPoint (q.add p) = true ↔ r.containsPoint q = true) ∧ (r.translated p).size = r.size := by
  refine ⟨?_, rfl⟩
  rw [C62_contains, C62_contains]
  simp only [Rect.Has, Rect.translated, Point.add]
  rw [add_right_comm r.origin.y, add_right_comm r.origin.x]
  simp only [add_le_add_iff_right, add_lt_add_iff_right]

end

/-- C63: rectangle plus or minus point, for sizes not negative or even: moved by the point; moving back restores the rectangle.
Missing: negative odd sizes (`C63_counterexample`). -/
theorem C63_add_partial (r : Rect ℤ) (p q : Point ℤ) (h : Halves r.size) :
    (r.addI p).size = r.size ∧ ((r.addI p).containsPoint (q.add p) = true ↔ r.containsPoint q = true) ∧
      (r.subI p).size = r.size ∧ ((r.subI p).containsPoint (q.sub p) = true ↔ r.containsPoint q = true) ∧
      (r.addI p).subI p = r ∧ (r.subI p).addI p = r := by
  have ha : ∀ (r : Rect ℤ), Halves r.size → ∀ p : Point ℤ, r.addI p = r.translated p := by
    intro r h p
    rw [addI_eq, if_pos h.1, if_pos h.2, sub_zero, sub_zero]
  have hs : ∀ q : Point ℤ, q.sub p = q.add ⟨-p.y, -p.x⟩ := fun q => by simp [Point.sub, Point.add, sub_eq_add_neg]
  simp only [subI_eq, ha r h]
  rw [ha (r.translated p) h, ha (r.translated _) h, hs]
  refine ⟨rfl, (C63_translated r p q).1, rfl, (C63_translated r _ q).1, ?_, ?_⟩ <;>
    simp [Rect.translated, Point.add]

/-- C63: in general: sizes are kept. -/
theorem C63_size (r : Rect ℤ) (p : Point ℤ) : (r.addI p).size = r.size ∧ (r.subI p).size = r.size := ⟨rfl, rfl⟩

example : (⟨⟨1, 1⟩, ⟨3, 5⟩⟩ : Rect ℤ).addI ⟨10, 20⟩ = ⟨⟨11, 21⟩, ⟨3, 5⟩⟩ := by decide

/-- C63, negative: adding the point zero moves a rectangle of negative odd size. -/
theorem C63_counterexample : (⟨⟨0, 0⟩, ⟨-3, 4⟩⟩ : Rect ℤ).addI ⟨0, 0⟩ = ⟨⟨-1, 0⟩, ⟨-3, 4⟩⟩ := by decide

/-- C63, exactly when: `+` is the translation, and zero is neutral, precisely for the sizes of `C63_add_partial`. Otherwise the result is
one row or column off (`addI_eq`). -/
theorem C63_iff_partial (r : Rect ℤ) (p : Point ℤ) :
    (r.addI p = r.translated p ↔ Halves r.size) ∧ (r.subI p = r.translated ⟨-p.y, -p.x⟩ ↔ Halves r.size) ∧
      (r.addI ⟨0, 0⟩ = r ↔ Halves r.size) := by
  have key : ∀ p : Point ℤ, r.addI p = r.translated p ↔ Halves r.size := by
    intro p
    rw [addI_eq]
    simp only [Rect.translated, Point.add, Rect.mk.injEq, Point.mk.injEq, and_true, Halves]
    constructor
    · rintro ⟨h1, h2⟩
      constructor
      · by_contra h; rw [if_neg h] at h1; omega
      · by_contra h; rw [if_neg h] at h2; omega
    · rintro ⟨h1, h2⟩
      rw [if_pos h1, if_pos h2]
      omega
  refine ⟨key p, by rw [subI_eq]; exact key _, ?_⟩
  rw [← key ⟨0, 0⟩]
  simp [Rect.translated, Point.add]

/-! ### C64 -/

/-- C64: centre and size determine a rectangle, for sizes not negative or even. Missing: negative odd sizes
(`C64_counterexample`). -/
theorem C64_center_partial (r : Rect ℤ) (c : Point ℤ) (s : Size ℤ) :
    (Halves r.size → fromCenterAndSizeI r.centerI r.size = r) ∧
      (Halves s → (fromCenterAndSizeI c s).centerI = c ∧ (fromCenterAndSizeI c s).size = s) := by
  refine ⟨fun h => ?_, fun h => ⟨?_, rfl⟩⟩
  · have := addI_eq r ⟨0, 0⟩
    rw [if_pos h.1, if_pos h.2] at this
    simpa [Rect.addI, Point.add, Rect.translated] using this
  · simp only [fromCenterAndSizeI, Rect.centerI, Rect.top, Rect.bottom, Rect.left, Rect.right, Point.subSize,
      Int.fdiv_eq_ediv_of_nonneg _ (show (0 : ℤ) ≤ 2 by omega), tdiv_two h.1, tdiv_two h.2]
    ext
    · simp only; omega
    · simp only; omega

example : fromCenterAndSizeI ⟨5, 5⟩ ⟨3, 4⟩ = ⟨⟨4, 3⟩, ⟨3, 4⟩⟩ ∧ (⟨⟨4, 3⟩, ⟨3, 4⟩⟩ : Rect ℤ).centerI = ⟨5, 5⟩ := by decide

/-- C64, negative. -/
theorem C64_counterexample : (fromCenterAndSizeI ⟨0, 0⟩ ⟨-3, 4⟩).centerI = ⟨-1, 0⟩ := by decide

/-- C64, exactly when: a rectangle is given by its centre and size, and a centre comes back, precisely for the sizes of
`C64_center_partial`. -/
theorem C64_iff_partial (r : Rect ℤ) (c : Point ℤ) (s : Size ℤ) :
    (fromCenterAndSizeI r.centerI r.size = r ↔ Halves r.size) ∧ ((fromCenterAndSizeI c s).centerI = c ↔ Halves s) := by
  refine ⟨?_, ?_⟩
  · rw [← (C63_iff_partial r ⟨0, 0⟩).2.2]
    simp [Rect.addI, Point.add]
  · simp only [fromCenterAndSizeI, Rect.centerI, Rect.top, Rect.bottom, Rect.left, Rect.right, Point.subSize,
      Int.fdiv_eq_ediv_of_nonneg _ (show (0 : ℤ) ≤ 2 by omega), Point.ext_iff, Halves]
    refine and_congr ?_ ?_
    · by_cases h : 0 ≤ s.height ∨ 2 ∣ s.height
      · rw [tdiv_two h]; simp only [h, iff_true]; omega
      · rw [tdiv_two_neg h]; simp only [h, iff_false]; omega
    · by_cases h : 0 ≤ s.width ∨ 2 ∣ s.width
      · rw [tdiv_two h]; simp only [h, iff_true]; omega
      · rw [tdiv_two_neg h]; simp only [h, iff_false]; omega

/-! ### Floats in exact arithmetic -/

section

variable {K : Type} [Field K] [LinearOrder K] [IsStrictOrderedRing K]

/-- Lines 978-981. -/
def Rect.center (r : Rect K) : Point K := ⟨(r.top + r.bottom) * (1 / 2), (r.left + r.right) * (1 / 2)⟩

/-- Lines 886-892. -/
def fromCenterAndSize (c : Point K) (s : Size K) : Rect K := ⟨c.subSize ⟨s.height * (1 / 2), s.width * (1 / 2)⟩, s⟩

/-- Lines 1051-1061. -/
def Rect.add (r : Rect K) (p : Point K) : Rect K := fromCenterAndSize (r.center.add p) r.size
def Rect.sub (r : Rect K) (p : Point K) : Rect K := fromCenterAndSize (r.center.sub p) r.size

/-- Lines 1002-1005. -/
def Rect.aspectRatio (r : Rect K) : K := if r.height ≠ 0 then r.width / r.height else 1

/-- Lines 264-276. -/
def fitToAspectRatio (r : Rect K) (a : K) : Rect K :=
  if r.aspectRatio > a then
    let s : Size K := ⟨r.height, r.height * a⟩
    ⟨⟨r.top, r.left + 1 / 2 * (r.width - s.width)⟩, s⟩
  else
    let s : Size K := ⟨r.width / a, r.width⟩
    ⟨⟨r.top + 1 / 2 * (r.height - s.height), r.left⟩, s⟩

/-- Lines 279-281. -/
def fitToSize (r : Rect K) (s : Size K) : Rect K := fitToAspectRatio r (s.width / s.height)

/-- Lines 1064-1066. -/
def mapPoint (p : Point K) (f t : Rect K) : Point K :=
  ⟨(p.y - f.top) / f.height * t.height + t.top, (p.x - f.left) / f.width * t.width + t.left⟩

/-- Lines 1069-1071. -/
def mapSize (s : Size K) (f t : Rect K) : Size K := ⟨s.height / f.height * t.height, s.width / f.width * t.width⟩

/-- Lines 1074-1076. -/
def mapRect (r f t : Rect K) : Rect K := fromCenterAndSize (mapPoint r.center f t) (mapSize r.size f t)

/-- C63 for float rectangles: `+` and `-` are translations. -/
theorem C63_add_float (r : Rect K) (p : Point K) :
    r.add p = r.translated p ∧ (r.add p).sub p = r ∧ (r.sub p).add p = r := by
  refine ⟨?_, ?_, ?_⟩ <;> ext <;>
    simp only [Rect.add, Rect.sub, fromCenterAndSize, Rect.translated, Point.add, Point.sub, Point.subSize, Rect.center, Rect.top,
      Rect.bottom, Rect.left, Rect.right] <;> ring

/-- C64 for float rectangles. -/
theorem C64_center_float (r : Rect K) (c : Point K) (s : Size K) :
    fromCenterAndSize r.center r.size = r ∧ (fromCenterAndSize c s).center = c ∧ (fromCenterAndSize c s).size = s := by
  refine ⟨?_, ?_, rfl⟩ <;> ext <;>
    simp only [fromCenterAndSize, Point.subSize, Rect.center, Rect.top, Rect.bottom, Rect.left, Rect.right] <;> ring

/-- C65: the fitted rectangle lies inside, touches both the top and the bottom or both the left and the right side, has the
same centre and the given aspect ratio. -/
theorem C65_fit (r : Rect K) (a : K) (hh : 0 < r.size.height) (hw : 0 < r.size.width) (ha : 0 < a) :
    let q := fitToAspectRatio r a
    (r.left ≤ q.left ∧ r.top ≤ q.top ∧ q.right ≤ r.right ∧ q.bottom ≤ r.bottom) ∧
      ((q.left = r.left ∧ q.right = r.right) ∨ (q.top = r.top ∧ q.bottom = r.bottom)) ∧
      q.center = r.center ∧ 0 < q.height ∧ q.width = a * q.height ∧ q.aspectRatio = a := by
  obtain ⟨⟨y, x⟩, ⟨h, w⟩⟩ := r
  simp only at hh hw
  have har : (⟨⟨y, x⟩, ⟨h, w⟩⟩ : Rect K).aspectRatio = w / h := by
    simp only [Rect.aspectRatio, Rect.height, Rect.width, if_pos hh.ne']
  simp only [fitToAspectRatio, har]
  split_ifs with hc
  · have hc' : h * a < w := by
      rw [gt_iff_lt, lt_div_iff₀ hh] at hc
      linarith
    simp only [Rect.left, Rect.top, Rect.right, Rect.bottom, Rect.width, Rect.height, Rect.center, Rect.aspectRatio, if_pos hh.ne',
      Point.mk.injEq]
    refine ⟨⟨by linarith, le_refl _, by linarith, le_refl _⟩, .inr ⟨trivial, trivial⟩, ⟨trivial, by ring⟩, hh, by ring, ?_⟩
    rw [mul_comm, mul_div_assoc, div_self hh.ne', mul_one]
  · have hc' : w / a ≤ h := by
      rw [gt_iff_lt, not_lt, div_le_iff₀ hh] at hc
      rw [div_le_iff₀ ha]
      linarith
    have hq : 0 < w / a := div_pos hw ha
    simp only [Rect.left, Rect.top, Rect.right, Rect.bottom, Rect.width, Rect.height, Rect.center, Rect.aspectRatio, if_pos hq.ne',
      Point.mk.injEq]
    refine ⟨⟨le_refl _, by linarith, le_refl _, by linarith⟩, .inl ⟨trivial, trivial⟩, ⟨by ring, trivial⟩, hq, ?_, ?_⟩
    · field_simp
    · field_simp

/-- C65 for flat rectangles: the fitted rectangle is centred and has the ratio of the sides for all rectangles and ratios; for
rectangles which may be flat it lies inside just if not the height only is zero and the ratio at least one (the ratio of a
rectangle without height counts as one). -/
theorem C65_inside_iff (r : Rect K) (a : K) (ha : a ≠ 0) :
    let q := fitToAspectRatio r a
    q.center = r.center ∧ q.width = a * q.height ∧
      (0 ≤ r.size.height → 0 ≤ r.size.width → 0 < a →
        ((r.left ≤ q.left ∧ r.top ≤ q.top ∧ q.right ≤ r.right ∧ q.bottom ≤ r.bottom) ↔
          ¬ (r.size.height = 0 ∧ 0 < r.size.width ∧ 1 ≤ a))) := by
  obtain ⟨⟨y, x⟩, ⟨h, w⟩⟩ := r
  simp only [fitToAspectRatio, Rect.aspectRatio, Rect.height, Rect.width]
  refine ⟨?_, ?_, fun hh hw ha' => ?_⟩
  · split_ifs <;> ext <;> simp only [Rect.center, Rect.top, Rect.left, Rect.bottom, Rect.right] <;> ring
  · split_ifs <;> field_simp
  · rcases hh.eq_or_lt with rfl | hh
    · simp only [ne_eq, not_true_eq_false, if_false]
      split_ifs with hc
      · simp only [Rect.left, Rect.top, Rect.right, Rect.bottom, zero_mul]
        constructor
        · rintro - ⟨-, -, h3⟩
          exact absurd h3 (not_le.2 hc)
        · intro _
          refine ⟨by linarith, le_refl _, by linarith, le_refl _⟩
      · simp only [Rect.left, Rect.top, Rect.right, Rect.bottom]
        constructor
        · rintro ⟨-, h2, -, -⟩ ⟨-, h4, -⟩
          have := div_pos h4 ha'
          linarith
        · intro hn
          have hw0 : w = 0 := by
            by_contra hne
            exact hn ⟨trivial, lt_of_le_of_ne hw (Ne.symm hne), not_lt.1 hc⟩
          subst hw0
          simp
    · rw [if_pos hh.ne']
      simp only [hh.ne', false_and, not_false_eq_true, iff_true]
      split_ifs with hc
      · have hc' : h * a < w := by
          rw [gt_iff_lt, lt_div_iff₀ hh] at hc
          linarith
        simp only [Rect.left, Rect.top, Rect.right, Rect.bottom]
        exact ⟨by linarith, le_refl _, by linarith, le_refl _⟩
      · have hc' : w / a ≤ h := by
          rw [gt_iff_lt, not_lt, div_le_iff₀ hh] at hc
          rw [div_le_iff₀ ha']
          linarith
        simp only [Rect.left, Rect.top, Rect.right, Rect.bottom]
        exact ⟨le_refl _, by linarith, le_refl _, by linarith⟩

/-- a rectangle without height and the ratio 3/2: the result is higher than the rectangle; ratio 1/2: a point -/
example : fitToAspectRatio (⟨⟨0, 0⟩, ⟨0, 6⟩⟩ : Rect ℚ) (3 / 2) = ⟨⟨-2, 0⟩, ⟨4, 6⟩⟩ ∧
    fitToAspectRatio (⟨⟨0, 0⟩, ⟨0, 6⟩⟩ : Rect ℚ) (1 / 2) = ⟨⟨0, 3⟩, ⟨0, 0⟩⟩ := by
  constructor <;> norm_num [fitToAspectRatio, Rect.aspectRatio, Rect.height, Rect.width, Rect.top, Rect.left]

/-- C65: `fit_to_size` has the aspect ratio of the size. -/
theorem C65_fit_size (r : Rect K) (s : Size K) (hh : 0 < r.size.height) (hw : 0 < r.size.width) (hsh : 0 < s.height)
    (hsw : 0 < s.width) : (fitToSize r s).width * s.height = (fitToSize r s).height * s.width := by
  have := (C65_fit r (s.width / s.height) hh hw (div_pos hsw hsh)).2.2.2.2.1
  rw [fitToSize, this]
  field_simp

example : fitToAspectRatio (⟨⟨0, 0⟩, ⟨10, 40⟩⟩ : Rect ℚ) 2 = ⟨⟨0, 10⟩, ⟨10, 20⟩⟩ ∧
    fitToAspectRatio (⟨⟨0, 0⟩, ⟨10, 40⟩⟩ : Rect ℚ) 8 = ⟨⟨5 / 2, 0⟩, ⟨5, 40⟩⟩ := by
  constructor <;> norm_num [fitToAspectRatio, Rect.aspectRatio, Rect.height, Rect.width, Rect.top, Rect.left]

/-- A rectangle with non-zero sides. -/
def Rect.Proper (r : Rect K) : Prop := r.size.height ≠ 0 ∧ r.size.width ≠ 0

/-- C66: corners go to corners. -/
theorem C66_corners (f t : Rect K) (hf : f.Proper) :
    mapPoint f.topLeft f t = t.topLeft ∧ mapPoint f.topRight f t = t.topRight ∧ mapPoint f.bottomLeft f t = t.bottomLeft ∧
      mapPoint f.bottomRight f t = t.bottomRight := by
  obtain ⟨h1, h2⟩ := hf
  refine ⟨?_, ?_, ?_, ?_⟩ <;>
    simp [mapPoint, Rect.topLeft, Rect.topRight, Rect.bottomLeft, Rect.bottomRight, Rect.top, Rect.left, Rect.bottom, Rect.right,
      Rect.height, Rect.width, h1, h2, add_comm]

/-- C66: swapping the rectangles inverts the mapping. -/
theorem C66_inverse (p : Point K) (f t : Rect K) (hf : f.Proper) (ht : t.Proper) : mapPoint (mapPoint p f t) t f = p := by
  obtain ⟨h1, h2⟩ := hf
  obtain ⟨h3, h4⟩ := ht
  ext <;> simp only [mapPoint, Rect.height, Rect.width] <;> field_simp <;> ring

/-- C66: mappings compose. -/
theorem C66_compose (p : Point K) (f t u : Rect K) (ht : t.Proper) : mapPoint (mapPoint p f t) t u = mapPoint p f u := by
  obtain ⟨h3, h4⟩ := ht
  ext <;> simp only [mapPoint, Rect.height, Rect.width, add_sub_cancel_right] <;> field_simp

/-- C66: `map_rect` gives the rectangle between the mapped corners. -/
theorem C66_rect (r f t : Rect K) (hf : f.Proper) :
    mapRect r f t = Rect.fromTLBR (mapPoint r.topLeft f t).y (mapPoint r.topLeft f t).x (mapPoint r.bottomRight f t).y
      (mapPoint r.bottomRight f t).x := by
  obtain ⟨h1, h2⟩ := hf
  ext <;> simp only [mapRect, mapPoint, mapSize, fromCenterAndSize, Rect.fromTLBR, Rect.center, Rect.topLeft, Rect.bottomRight,
    Rect.top, Rect.left, Rect.bottom, Rect.right, Rect.height, Rect.width, Point.subSize] <;> field_simp <;> ring

/-- C66: mapping a rectangle back restores it. -/
theorem C66_rect_inverse (r f t : Rect K) (hf : f.Proper) (ht : t.Proper) : mapRect (mapRect r f t) t f = r := by
  obtain ⟨h1, h2⟩ := hf
  obtain ⟨h3, h4⟩ := ht
  ext <;> simp only [mapRect, mapPoint, mapSize, fromCenterAndSize, Rect.center,
    Rect.top, Rect.left, Rect.bottom, Rect.right, Rect.height, Rect.width, Point.subSize] <;> field_simp <;> ring

example : mapPoint (⟨5, 5⟩ : Point ℚ) ⟨⟨0, 0⟩, ⟨10, 20⟩⟩ ⟨⟨1, 1⟩, ⟨2, 4⟩⟩ = ⟨2, 2⟩ := by
  norm_num [mapPoint, Rect.top, Rect.left, Rect.height, Rect.width]

end

end Verif.Geometry
