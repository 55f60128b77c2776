import Verif.Geometry.Rect
import Mathlib.Analysis.SpecialFunctions.Trigonometric.Basic
import Mathlib.Analysis.Complex.Basic
import Mathlib.Tactic.LinearCombination

/-!
Rotation and distance (`nion/utils/Geometry.py:282-290, 759-767, 859-866`), C70, C91, over the real numbers: `math.cos`, `math.sin` and
`math.sqrt` are the exact functions.
-/

namespace Verif.Geometry

/-- Lines 759-767. -/
noncomputable def Point.rotate (p : Point ℝ) (radians : ℝ) (origin : Option (Point ℝ)) : Point ℝ :=
  let o := origin.getD ⟨0, 0⟩
  let dx := p.x - o.x
  let dy := p.y - o.y
  ⟨o.y + Real.sin radians * dx + Real.cos radians * dy, o.x + Real.cos radians * dx - Real.sin radians * dy⟩

/-- Lines 859-866. -/
noncomputable def Size.rotate (s : Size ℝ) (radians : ℝ) : Size ℝ :=
  ⟨Real.sin radians * s.width + Real.cos radians * s.height, Real.cos radians * s.width - Real.sin radians * s.height⟩

/-- The distance of two points. -/
noncomputable def dist (p q : Point ℝ) : ℝ := Real.sqrt ((p.x - q.x) ^ 2 + (p.y - q.y) ^ 2)

/-- The length of the diagonal. -/
noncomputable def diagonal (s : Size ℝ) : ℝ := Real.sqrt (s.width ^ 2 + s.height ^ 2)

/-- C70: rotation preserves the distance of any two points. -/
theorem C70_dist (p q : Point ℝ) (t : ℝ) (o : Option (Point ℝ)) : dist (p.rotate t o) (q.rotate t o) = dist p q := by
  unfold dist Point.rotate
  congr 1
  have h := Real.sin_sq_add_cos_sq t
  simp only
  linear_combination ((p.x - q.x) ^ 2 + (p.y - q.y) ^ 2) * h

/-- C70: the origin stays where it is. -/
theorem C70_origin (o : Point ℝ) (t : ℝ) : o.rotate t (some o) = o ∧ Point.rotate ⟨0, 0⟩ t none = ⟨0, 0⟩ := by
  simp [Point.rotate]

/-- C70: so the distance to the origin is preserved. -/
theorem C70_radius (p o : Point ℝ) (t : ℝ) : dist (p.rotate t (some o)) o = dist p o := by
  have := C70_dist p o t (some o)
  rwa [(C70_origin o t).1] at this

/-- C70: rotations add. -/
theorem C70_add (p : Point ℝ) (s t : ℝ) (o : Option (Point ℝ)) : (p.rotate s o).rotate t o = p.rotate (s + t) o := by
  simp only [Point.rotate, Real.sin_add, Real.cos_add]
  ext <;> simp only <;> ring

/-- C70: rotating back undoes a rotation. -/
theorem C70_back (p : Point ℝ) (t : ℝ) (o : Option (Point ℝ)) : (p.rotate t o).rotate (-t) o = p := by
  rw [C70_add, add_neg_cancel]
  simp [Point.rotate]

/-- C70: a quarter turn takes the direction of the x axis to the direction of the y axis. -/
theorem C70_quarter (o : Point ℝ) (d : ℝ) :
    (Point.mk o.y (o.x + d)).rotate (Real.pi / 2) (some o) = ⟨o.y + d, o.x⟩ := by
  simp [Point.rotate]

/-- C70: sizes. -/
theorem C70_diagonal (s : Size ℝ) (t : ℝ) : diagonal (s.rotate t) = diagonal s := by
  unfold diagonal Size.rotate
  congr 1
  have h := Real.sin_sq_add_cos_sq t
  simp only
  linear_combination (s.width ^ 2 + s.height ^ 2) * h

/-- C70: sizes turn as points about zero. -/
theorem C70_size (s : Size ℝ) (t : ℝ) :
    (Point.mk s.height s.width).rotate t none = ⟨(s.rotate t).height, (s.rotate t).width⟩ := by
  simp [Point.rotate, Size.rotate]

/-- (3, 1) about (1, 1) by a half turn. -/
example : (Point.mk 1 3).rotate Real.pi (some ⟨1, 1⟩) = ⟨1, -1⟩ := by
  simp [Point.rotate]; norm_num

/-! ### C91 -/

/-- Lines 282-284. -/
noncomputable def distance (p q : Point ℝ) : ℝ := Real.sqrt ((q.y - p.y) ^ 2 + (q.x - p.x) ^ 2)

/-- Lines 287-289. -/
noncomputable def midpoint (p q : Point ℝ) : Point ℝ := ⟨1 / 2 * (p.y + q.y), 1 / 2 * (p.x + q.x)⟩

/-- A point as a complex number. -/
def toComplex (p : Point ℝ) : ℂ := ⟨p.x, p.y⟩

theorem distance_eq (p q : Point ℝ) : distance p q = ‖toComplex p - toComplex q‖ := by
  rw [Complex.norm_def, Complex.normSq_apply, distance]
  congr 1
  simp only [toComplex, Complex.sub_re, Complex.sub_im]
  ring

/-- C91: `distance` is symmetric, zero exactly for the same point, satisfies the triangle inequality and is kept by rotation. -/
theorem C91_distance (p q r : Point ℝ) :
    distance p q = distance q p ∧ (distance p q = 0 ↔ p = q) ∧ distance p r ≤ distance p q + distance q r ∧
      ∀ t o, distance (p.rotate t o) (q.rotate t o) = distance p q := by
  refine ⟨?_, ?_, ?_, ?_⟩
  · rw [distance_eq, distance_eq, norm_sub_rev]
  · rw [distance_eq, norm_eq_zero, sub_eq_zero, toComplex, toComplex, Complex.mk.injEq, Point.ext_iff]
    exact and_comm
  · rw [distance_eq, distance_eq, distance_eq]
    exact norm_sub_le_norm_sub_add_norm_sub _ _ _
  · intro t o
    have h : ∀ a b : Point ℝ, distance a b = dist a b := by
      intro a b
      rw [distance, dist]
      congr 1
      ring
    rw [h, h, C70_dist]

/-- C91: the midpoint is half the distance away from both. -/
theorem C91_midpoint (p q : Point ℝ) :
    distance p (midpoint p q) = distance p q / 2 ∧ distance q (midpoint p q) = distance p q / 2 ∧
      midpoint p q = midpoint q p := by
  have h : ∀ a b : Point ℝ, distance a (midpoint a b) = distance a b / 2 := by
    intro a b
    have : ∀ s : ℝ, Real.sqrt s / 2 = Real.sqrt (s / 4) := by
      intro s
      rw [show s / 4 = s / 2 ^ 2 by norm_num, Real.sqrt_div' _ (by norm_num), Real.sqrt_sq (by norm_num)]
    rw [distance, distance, this, midpoint]
    congr 1
    simp only
    ring
  have hs : midpoint p q = midpoint q p := by
    rw [midpoint, midpoint, add_comm p.y, add_comm p.x]
  refine ⟨h p q, ?_, hs⟩
  rw [hs, h q p, (C91_distance p q p).1]

/-- 3, 4, 5. -/
example : distance ⟨1, 1⟩ ⟨4, 5⟩ = 5 ∧ midpoint ⟨1, 1⟩ ⟨4, 5⟩ = ⟨5 / 2, 3⟩ := by
  constructor
  · rw [distance, show ((4 : ℝ) - 1) ^ 2 + (5 - 1) ^ 2 = 5 ^ 2 by norm_num, Real.sqrt_sq (by norm_num)]
  · norm_num [midpoint]

end Verif.Geometry
