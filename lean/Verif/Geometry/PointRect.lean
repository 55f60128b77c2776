import Verif.Geometry.Rect

/-!
C139: a point plus or minus a rectangle (`IntPoint.__add__`, `__sub__`, `FloatPoint.__add__`, `__sub__`,
`nion/utils/Geometry.py:355-373, 720-738`). `p - r` reflects: it should hold the points `p - q` for the points `q` of `r`.
-/

set_option linter.unusedSectionVars false

namespace Verif.Geometry

/-- Lines 360-361. -/
def Point.addRectI (p : Point ℤ) (r : Rect ℤ) : Rect ℤ := r.addI p

/-- Lines 370-371. -/
def Point.subRectI (p : Point ℤ) (r : Rect ℤ) : Rect ℤ := fromCenterAndSizeI (p.sub r.centerI) r.size

/-- The first row (column) of a reflected rectangle: as expected for odd sizes, one less for even sizes that are not negative. -/
theorem subRectI_eq (p : Point ℤ) (r : Rect ℤ) : p.subRectI r =
    ⟨⟨p.y - r.origin.y - r.size.height + (if 0 ≤ r.size.height then r.size.height % 2 else 0),
      p.x - r.origin.x - r.size.width + (if 0 ≤ r.size.width then r.size.width % 2 else 0)⟩, r.size⟩ := by
  have key : ∀ a t h : ℤ, a - (t + (t + h)) / 2 - h.tdiv 2 = a - t - h + (if 0 ≤ h then h % 2 else 0) := by
    intro a t h
    by_cases hh : 0 ≤ h ∨ 2 ∣ h
    · rw [tdiv_two hh]
      split_ifs <;> omega
    · rw [tdiv_two_neg hh, if_neg (by omega)]
      omega
  simp only [Point.subRectI, fromCenterAndSizeI, Point.sub, Point.subSize, Rect.centerI, Rect.top, Rect.bottom, Rect.left, Rect.right,
    Int.fdiv_eq_ediv_of_nonneg _ (show (0 : ℤ) ≤ 2 by omega), key]

/-- C139: reflecting twice gives back the rectangle, whatever its size; the size is kept. -/
theorem C139_twice (p : Point ℤ) (r : Rect ℤ) : p.subRectI (p.subRectI r) = r ∧ (p.subRectI r).size = r.size := by
  refine ⟨?_, rfl⟩
  rw [subRectI_eq, subRectI_eq]
  ext
  · simp only; split_ifs <;> omega
  · simp only; split_ifs <;> omega
  · rfl
  · rfl

/-- C139: reflecting a moved rectangle is moving the reflected one back; moving the point moves the reflected rectangle. -/
theorem C139_moves (p v : Point ℤ) (r : Rect ℤ) :
    p.subRectI (r.translated v) = (p.subRectI r).translated ⟨-v.y, -v.x⟩ ∧
      (p.add v).subRectI r = (p.subRectI r).translated v := by
  constructor <;> rw [subRectI_eq, subRectI_eq] <;> ext <;> simp only [Rect.translated, Point.add] <;> ring_nf <;> rfl

/-- C139: a point plus a rectangle moves the points of the rectangle. Missing: negative odd sizes (`C63_counterexample`). -/
theorem C139_add_partial (p q : Point ℤ) (r : Rect ℤ) (h : Halves r.size) :
    ((p.addRectI r).containsPoint (p.add q) = true ↔ r.containsPoint q = true) ∧ (p.addRectI r).size = r.size := by
  have := (C63_add_partial r p q h).2.1
  refine ⟨?_, rfl⟩
  rw [← this, Point.addRectI]
  simp only [Point.add, add_comm]

/-- C139: for odd height and width, `p - r` has the points `p - q` for the points `q` of `r`. Missing: even sizes, see
`C139_iff_partial`. -/
theorem C139_points_partial (p q : Point ℤ) (r : Rect ℤ) (hh : r.size.height % 2 = 1) (hw : r.size.width % 2 = 1) :
    (p.subRectI r).containsPoint (p.sub q) = true ↔ r.containsPoint q = true := by
  rw [C62_contains, C62_contains, subRectI_eq]
  simp only [Rect.Has, Point.sub]
  split_ifs <;> omega

/-- C139, exactly when: `p - r` has just the points `p - q`, `q` a point of `r`, precisely if both sides are odd or there are no points
at all. -/
theorem C139_iff_partial (p : Point ℤ) (r : Rect ℤ) :
    (∀ q, (p.subRectI r).containsPoint (p.sub q) = true ↔ r.containsPoint q = true) ↔
      (r.size.height % 2 = 1 ∧ r.size.width % 2 = 1) ∨ ∀ q, r.containsPoint q = false := by
  constructor
  · intro h
    by_cases he : ∀ q, r.containsPoint q = false
    · exact .inr he
    · left
      obtain ⟨q, hq⟩ := not_forall.1 he
      rw [Bool.not_eq_false, C62_contains] at hq
      have h1 := h r.origin
      rw [C62_contains, C62_contains, subRectI_eq] at h1
      simp only [Rect.Has, Point.sub] at h1 hq
      split_ifs at h1 <;> omega
  · rintro (⟨hh, hw⟩ | he) q
    · exact C139_points_partial p q r hh hw
    · rw [he q, C62_contains, subRectI_eq]
      simp only [Rect.Has, Point.sub, Bool.false_eq_true, iff_false]
      have hq : ∀ q, ¬ r.Has q := by
        intro q hq
        rw [← C62_contains, he q] at hq
        cases hq
      have := hq r.origin
      simp only [Rect.Has] at this
      split_ifs <;> omega

/-- C139: for even sizes the sides are reflected: every row and column is one too small. -/
theorem C139_even (p q : Point ℤ) (r : Rect ℤ) (hh : r.size.height % 2 = 0) (hw : r.size.width % 2 = 0) :
    (p.subRectI r).containsPoint (p.sub q) = true ↔ r.containsPoint ⟨q.y - 1, q.x - 1⟩ = true := by
  rw [C62_contains, C62_contains, subRectI_eq]
  simp only [Rect.Has, Point.sub]
  split_ifs <;> omega

/-- C139, negative: `(0, 0) - r` for the rectangle of the points (1, 1), (1, 2), (2, 1), (2, 2) has the points (-3, -3) and (-2, -2), not
(-1, -1). -/
theorem C139_counterexample : let r : Rect ℤ := ⟨⟨1, 1⟩, ⟨2, 2⟩⟩
    r.containsPoint ⟨1, 1⟩ = true ∧ (Point.subRectI ⟨0, 0⟩ r) = ⟨⟨-3, -3⟩, ⟨2, 2⟩⟩ ∧
      (Point.subRectI ⟨0, 0⟩ r).containsPoint ⟨-1, -1⟩ = false ∧ (Point.subRectI ⟨0, 0⟩ r).containsPoint ⟨-3, -3⟩ = true ∧
      r.containsPoint ⟨3, 3⟩ = false := by decide

example : Point.subRectI ⟨10, 20⟩ ⟨⟨1, 2⟩, ⟨3, 5⟩⟩ = ⟨⟨7, 14⟩, ⟨3, 5⟩⟩ ∧ (⟨⟨1, 2⟩, ⟨3, 5⟩⟩ : Rect ℤ).containsPoint ⟨3, 6⟩ = true ∧
    (Point.subRectI ⟨10, 20⟩ ⟨⟨1, 2⟩, ⟨3, 5⟩⟩).containsPoint ⟨7, 14⟩ = true := by decide

section

variable {K : Type} [Field K] [LinearOrder K] [IsStrictOrderedRing K]

/-- Lines 725-726, 735-736. -/
def Point.addRect (p : Point K) (r : Rect K) : Rect K := r.add p
def Point.subRect (p : Point K) (r : Rect K) : Rect K := fromCenterAndSize (p.sub r.center) r.size

/-- C139 for floats in exact arithmetic: `p - r` with all its sides has the points `p - q` for the points `q` of `r` with all its sides;
the bottom and right sides of `r` become the top and left sides of `p - r`, which belong to it. Reflecting twice gives back `r`. -/
theorem C139_float (p q v : Point K) (r : Rect K) :
    ((p.subRect r).HasClosed (p.sub q) ↔ r.HasClosed q) ∧
      ((p.subRect r).containsPoint (p.sub q) = true ↔ (r.top < q.y ∧ q.y ≤ r.bottom) ∧ r.left < q.x ∧ q.x ≤ r.right) ∧
      p.subRect (p.subRect r) = r ∧ p.subRect (r.translated v) = (p.subRect r).sub v ∧ (p.add v).subRect r = (p.subRect r).add v ∧
      ((p.addRect r).containsPoint (p.add q) = true ↔ r.containsPoint q = true) := by
  have hs : ∀ p : Point K, ∀ r : Rect K, p.subRect r =
      ⟨⟨p.y - r.origin.y - r.size.height, p.x - r.origin.x - r.size.width⟩, r.size⟩ := by
    intro p r
    ext <;> simp only [Point.subRect, fromCenterAndSize, Point.sub, Point.subSize, Rect.center, Rect.top, Rect.bottom, Rect.left,
      Rect.right] <;> ring
  have ha := fun (r : Rect K) (p : Point K) => C63_add_float r p
  refine ⟨?_, ?_, ?_, ?_, ?_, ?_⟩
  · rw [hs]
    simp only [Rect.HasClosed, Point.sub]
    constructor <;> rintro ⟨h1, h2, h3, h4⟩ <;> refine ⟨?_, ?_, ?_, ?_⟩ <;> linarith
  · rw [C62_contains, hs]
    simp only [Rect.Has, Point.sub, Rect.top, Rect.bottom, Rect.left, Rect.right]
    constructor
    · rintro ⟨h1, h2, h3, h4⟩
      exact ⟨⟨by linarith, by linarith⟩, by linarith, by linarith⟩
    · rintro ⟨⟨h1, h2⟩, h3, h4⟩
      exact ⟨by linarith, by linarith, by linarith, by linarith⟩
  · rw [hs, hs]
    ext <;> simp only <;> ring
  · rw [hs, hs]
    ext <;> simp only [Rect.sub, fromCenterAndSize, Rect.translated, Point.add, Point.sub, Point.subSize, Rect.center, Rect.top,
      Rect.bottom, Rect.left, Rect.right] <;> ring
  · rw [(ha _ _).1, hs, hs]
    ext <;> simp only [Rect.translated, Point.add] <;> ring
  · rw [Point.addRect, (ha _ _).1]
    have := (C63_translated r p q).1
    rw [← this]
    simp only [Point.add, add_comm]

end

example : Point.subRect (⟨10, 20⟩ : Point ℚ) ⟨⟨1, 2⟩, ⟨3, 5⟩⟩ = ⟨⟨6, 13⟩, ⟨3, 5⟩⟩ := by
  simp only [Point.subRect, fromCenterAndSize, Point.sub, Point.subSize, Rect.center, Rect.top, Rect.bottom, Rect.left, Rect.right]
  norm_num

end Verif.Geometry
