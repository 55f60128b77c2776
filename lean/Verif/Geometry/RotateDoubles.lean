import Verif.Geometry.MapDoubles
import Verif.Geometry.Rotate

/-!
Rotation in double precision (`nion/utils/Geometry.py:759-767, 859-866`), C147.

`c` and `s` are what `math.cos` and `math.sin` return for the angle; they are not assumed to be the nearest doubles, only to be within
one unit of the last place (`Trig`). Every operation of the code is followed by rounding to 53 binary digits (`fl`).
-/

set_option linter.unusedSectionVars false

namespace Verif.Geometry

open Verif.Converter

/-- Lines 759-767 after the calls of `math.cos` and `math.sin`. -/
def Point.rotateD (p : Point ℚ) (c s : ℚ) (origin : Option (Point ℚ)) : Point ℚ :=
  let o := origin.getD ⟨0, 0⟩
  let dx := fl (p.x - o.x)
  let dy := fl (p.y - o.y)
  ⟨fl (fl (o.y + fl (s * dx)) + fl (c * dy)), fl (fl (o.x + fl (c * dx)) - fl (s * dy))⟩

/-- Lines 859-866. -/
def Size.rotateD (z : Size ℚ) (c s : ℚ) : Size ℚ :=
  ⟨fl (fl (s * z.width) + fl (c * z.height)), fl (fl (c * z.width) - fl (s * z.height))⟩

/-! ### Specification -/

/-- `c` and `s` are the cosine and the sine up to one unit of the last place. -/
def Trig (t : ℝ) (c s : ℚ) : Prop := |(c : ℝ) - Real.cos t| ≤ |Real.cos t| / 2 ^ 52 ∧ |(s : ℝ) - Real.sin t| ≤ |Real.sin t| / 2 ^ 52

/-- The point with the same coordinates as real numbers. -/
def Point.real (p : Point ℚ) : Point ℝ := ⟨p.y, p.x⟩

def Size.real (z : Size ℚ) : Size ℝ := ⟨z.height, z.width⟩

/-- The size of the numbers in a rotation: the coordinates of the origin and of the point relative to it. -/
def scale (p o : Point ℚ) : ℚ := |o.x| + |o.y| + |p.x - o.x| + |p.y - o.y|

/-! ### Proofs -/

theorem fl_real (x : ℚ) : |((fl x : ℚ) : ℝ) - (x : ℝ)| ≤ |(x : ℝ)| / 2 ^ 53 := by
  have := fl_near x
  exact_mod_cast this

/-- One product: the factor is the cosine or the sine. -/
theorem prod_near {c D : ℚ} {C : ℝ} (hC : |C| ≤ 1) (hc : |(c : ℝ) - C| ≤ |C| / 2 ^ 52) :
    |((fl (c * fl D) : ℚ) : ℝ) - C * D| ≤ 5 / 2 ^ 53 * |(D : ℝ)| := by
  have h1 := fl_real D
  have h2 := fl_real (c * fl D)
  push_cast at h2
  rw [abs_mul] at h2
  have hA := abs_nonneg (D : ℝ)
  have hd : |((fl D : ℚ) : ℝ)| ≤ |(D : ℝ)| * (1 + 1 / 2 ^ 53) := by
    have := abs_sub_abs_le_abs_sub ((fl D : ℚ) : ℝ) D
    linarith
  have hcc : |(c : ℝ)| ≤ 1 + 1 / 2 ^ 52 := by
    have := abs_sub_abs_le_abs_sub (c : ℝ) C
    have : |C| / 2 ^ 52 ≤ 1 / 2 ^ 52 := by gcongr
    linarith
  have hcd : |(c : ℝ)| * |((fl D : ℚ) : ℝ)| ≤ (1 + 1 / 2 ^ 52) * (|(D : ℝ)| * (1 + 1 / 2 ^ 53)) :=
    mul_le_mul hcc hd (abs_nonneg _) (by positivity)
  have h3 : |((c : ℝ) - C) * ((fl D : ℚ) : ℝ)| ≤ 1 / 2 ^ 52 * (|(D : ℝ)| * (1 + 1 / 2 ^ 53)) := by
    rw [abs_mul]
    refine mul_le_mul (hc.trans ?_) hd (abs_nonneg _) (by positivity)
    gcongr
  have h4 : |C * (((fl D : ℚ) : ℝ) - D)| ≤ |(D : ℝ)| / 2 ^ 53 := by
    rw [abs_mul]
    calc |C| * |((fl D : ℚ) : ℝ) - D| ≤ 1 * (|(D : ℝ)| / 2 ^ 53) := mul_le_mul hC h1 (abs_nonneg _) zero_le_one
      _ = _ := one_mul _
  have e : ((fl (c * fl D) : ℚ) : ℝ) - C * D =
      (((fl (c * fl D) : ℚ) : ℝ) - c * ((fl D : ℚ) : ℝ)) + ((c : ℝ) - C) * ((fl D : ℚ) : ℝ) + C * (((fl D : ℚ) : ℝ) - D) := by ring
  rw [e]
  refine (abs_add_three _ _ _).trans ?_
  norm_num at *
  linarith [abs_nonneg (D : ℝ)]

/-- One coordinate. -/
theorem coord_near {o a b : ℚ} {A B A' B' : ℝ} (ha : |(a : ℝ) - A| ≤ 5 / 2 ^ 53 * A') (hb : |(b : ℝ) - B| ≤ 5 / 2 ^ 53 * B')
    (hA : |A| ≤ A') (hB : |B| ≤ B') :
    |((fl (fl (o + a) + b) : ℚ) : ℝ) - (o + A + B)| ≤ (|(o : ℝ)| + A' + B') / 2 ^ 50 := by
  have h1 := fl_real (o + a)
  have h2 := fl_real (fl (o + a) + b)
  push_cast at h1 h2
  have hA0 := (abs_nonneg A).trans hA
  have hB0 := (abs_nonneg B).trans hB
  have hO := abs_nonneg (o : ℝ)
  have ha' : |(a : ℝ)| ≤ A' * (1 + 5 / 2 ^ 53) := by
    have := abs_sub_abs_le_abs_sub (a : ℝ) A
    linarith
  have hb' : |(b : ℝ)| ≤ B' * (1 + 5 / 2 ^ 53) := by
    have := abs_sub_abs_le_abs_sub (b : ℝ) B
    linarith
  have h3 := abs_add_le (o : ℝ) a
  have h4 := abs_add_le ((fl (o + a) : ℚ) : ℝ) b
  have h5 := abs_sub_abs_le_abs_sub ((fl (o + a) : ℚ) : ℝ) (o + a)
  have e : ((fl (fl (o + a) + b) : ℚ) : ℝ) - (o + A + B) = (((fl (fl (o + a) + b) : ℚ) : ℝ) - (((fl (o + a) : ℚ) : ℝ) + b)) +
      (((fl (o + a) : ℚ) : ℝ) - (o + a)) + (((a : ℝ) - A) + ((b : ℝ) - B)) := by ring
  rw [e]
  refine (abs_add_three _ _ _).trans ?_
  have h6 := abs_add_le ((a : ℝ) - A) ((b : ℝ) - B)
  norm_num at *
  linarith [abs_nonneg (o : ℝ)]

theorem coords_near {c s : ℚ} {t : ℝ} (h : Trig t c s) (ox oy Dx Dy : ℚ) :
    |((fl (fl (ox + fl (c * fl Dx)) - fl (s * fl Dy)) : ℚ) : ℝ) - (ox + Real.cos t * Dx - Real.sin t * Dy)| ≤
      (|(ox : ℝ)| + |(Dx : ℝ)| + |(Dy : ℝ)|) / 2 ^ 50 ∧
    |((fl (fl (oy + fl (s * fl Dx)) + fl (c * fl Dy)) : ℚ) : ℝ) - (oy + Real.sin t * Dx + Real.cos t * Dy)| ≤
      (|(oy : ℝ)| + |(Dx : ℝ)| + |(Dy : ℝ)|) / 2 ^ 50 := by
  have hb : ∀ (C : ℝ) (D : ℚ), |C| ≤ 1 → |C * D| ≤ |(D : ℝ)| := by
    intro C D hC
    rw [abs_mul]
    exact mul_le_of_le_one_left (abs_nonneg _) hC
  have hc1 := Real.abs_cos_le_one t
  have hs1 := Real.abs_sin_le_one t
  constructor
  · have := coord_near (o := ox) (prod_near (D := Dx) hc1 h.1)
      (b := -fl (s * fl Dy)) (B := -(Real.sin t * Dy)) (B' := |(Dy : ℝ)|)
      (by push_cast; rw [neg_sub_neg, abs_sub_comm]; exact prod_near hs1 h.2) (hb _ _ hc1) (by rw [abs_neg]; exact hb _ _ hs1)
    rwa [← sub_eq_add_neg, ← sub_eq_add_neg] at this
  · exact coord_near (prod_near (D := Dx) hs1 h.2) (prod_near hc1 h.1) (hb _ _ hs1) (hb _ _ hc1)

/-- C147: a rotated point is at the exact place up to a few units of the last place of the numbers involved. -/
theorem C147_near (p : Point ℚ) (o : Option (Point ℚ)) (t : ℝ) (c s : ℚ) (h : Trig t c s) :
    let q := (p.rotateD c s o).real
    let r := p.real.rotate t (o.map Point.real)
    |q.x - r.x| ≤ scale p (o.getD ⟨0, 0⟩) / 2 ^ 50 ∧ |q.y - r.y| ≤ scale p (o.getD ⟨0, 0⟩) / 2 ^ 50 := by
  intro q r
  have hr : r = ⟨(o.getD ⟨0, 0⟩).real.y + Real.sin t * (p.x - (o.getD ⟨0, 0⟩).real.x) + Real.cos t * (p.y - (o.getD ⟨0, 0⟩).real.y),
      (o.getD ⟨0, 0⟩).real.x + Real.cos t * (p.x - (o.getD ⟨0, 0⟩).real.x) - Real.sin t * (p.y - (o.getD ⟨0, 0⟩).real.y)⟩ := by
    cases o <;> simp [r, Point.rotate, Point.real]
  generalize ho : o.getD ⟨0, 0⟩ = o' at *
  have hq : q = (p.rotateD c s (some o')).real := by
    simp [q, Point.rotateD, ho]
  rw [hr, hq]
  obtain ⟨h1, h2⟩ := coords_near h o'.x o'.y (p.x - o'.x) (p.y - o'.y)
  simp only [Point.real, Point.rotateD, Option.getD_some, scale]
  push_cast at *
  refine ⟨h1.trans ?_, h2.trans ?_⟩
  · gcongr; linarith [abs_nonneg (o'.y : ℝ)]
  · gcongr; linarith [abs_nonneg (o'.x : ℝ)]

/-- C147: the same for sizes. -/
theorem C147_size (z : Size ℚ) (hz : Dbl z.width ∧ Dbl z.height) (t : ℝ) (c s : ℚ) (h : Trig t c s) :
    let q := (z.rotateD c s).real
    let r := z.real.rotate t
    |q.width - r.width| ≤ (|(z.width : ℝ)| + |(z.height : ℝ)|) / 2 ^ 50 ∧
    |q.height - r.height| ≤ (|(z.width : ℝ)| + |(z.height : ℝ)|) / 2 ^ 50 := by
  intro q r
  obtain ⟨h1, h2⟩ := coords_near h 0 0 z.width z.height
  simp only [zero_add, fl_of_dbl (fl_dbl _), fl_of_dbl hz.1, fl_of_dbl hz.2, Rat.cast_zero, abs_zero] at h1 h2
  exact ⟨h1, h2⟩

/-- The distance of two points is at most the sum of the differences of the coordinates. -/
theorem dist_le (p q : Point ℝ) : dist p q ≤ |p.x - q.x| + |p.y - q.y| := by
  rw [dist]
  refine Real.sqrt_le_iff.2 ⟨by positivity, ?_⟩
  rw [add_sq, sq_abs, sq_abs]
  nlinarith [mul_nonneg (abs_nonneg (p.x - q.x)) (abs_nonneg (p.y - q.y))]

theorem dist_tri (p q r : Point ℝ) : dist p r ≤ dist p q + dist q r := by
  have h : ∀ a b : Point ℝ, dist a b = distance a b := by
    intro a b
    rw [distance, dist]
    congr 1
    ring
  rw [h, h, h]
  exact (C91_distance p q r).2.2.1

theorem dist_comm' (p q : Point ℝ) : dist p q = dist q p := by
  rw [dist, dist]
  congr 1
  ring

/-- C147: the distance of two points is kept up to a few units of the last place of the numbers involved. -/
theorem C147_dist (p q : Point ℚ) (o : Option (Point ℚ)) (t : ℝ) (c s : ℚ) (h : Trig t c s) :
    |dist (p.rotateD c s o).real (q.rotateD c s o).real - dist p.real q.real| ≤
      (scale p (o.getD ⟨0, 0⟩) + scale q (o.getD ⟨0, 0⟩) : ℚ) / 2 ^ 49 := by
  have hp := C147_near p o t c s h
  have hq := C147_near q o t c s h
  simp only at hp hq
  have h1 := dist_le (p.rotateD c s o).real (p.real.rotate t (o.map Point.real))
  have h2 := dist_le (q.rotateD c s o).real (q.real.rotate t (o.map Point.real))
  have h3 := C70_dist p.real q.real t (o.map Point.real)
  have t1 := dist_tri (p.rotateD c s o).real (p.real.rotate t (o.map Point.real)) (q.rotateD c s o).real
  have t2 := dist_tri (p.real.rotate t (o.map Point.real)) (q.real.rotate t (o.map Point.real)) (q.rotateD c s o).real
  have t3 := dist_tri (p.real.rotate t (o.map Point.real)) (p.rotateD c s o).real (q.real.rotate t (o.map Point.real))
  have t4 := dist_tri (p.rotateD c s o).real (q.rotateD c s o).real (q.real.rotate t (o.map Point.real))
  rw [dist_comm' (q.real.rotate t (o.map Point.real)) (q.rotateD c s o).real] at t2
  rw [dist_comm' (p.real.rotate t (o.map Point.real)) (p.rotateD c s o).real] at t3
  rw [← h3]
  push_cast
  rw [abs_le]
  have e : ∀ x : ℝ, x / 2 ^ 49 = 2 * (x / 2 ^ 50) := by intro x; ring
  rw [e, add_div]
  constructor <;> linarith

/-- Two points rotated by the same angle differ by at most the sum of their differences. -/
theorem rotate_diff (a b : Point ℝ) (t : ℝ) (o : Option (Point ℝ)) :
    |(a.rotate t o).x - (b.rotate t o).x| ≤ |a.x - b.x| + |a.y - b.y| ∧
    |(a.rotate t o).y - (b.rotate t o).y| ≤ |a.x - b.x| + |a.y - b.y| := by
  have hb : ∀ C D : ℝ, |C| ≤ 1 → |C * D| ≤ |D| := by
    intro C D hC
    rw [abs_mul]
    exact mul_le_of_le_one_left (abs_nonneg _) hC
  have hc := Real.abs_cos_le_one t
  have hs := Real.abs_sin_le_one t
  simp only [Point.rotate]
  constructor
  · refine le_trans (le_of_eq ?_) ((abs_sub (Real.cos t * (a.x - b.x)) (Real.sin t * (a.y - b.y))).trans
      (add_le_add (hb _ _ hc) (hb _ _ hs)))
    congr 1; ring
  · refine le_trans (le_of_eq ?_) ((abs_add_le (Real.sin t * (a.x - b.x)) (Real.cos t * (a.y - b.y))).trans
      (add_le_add (hb _ _ hs) (hb _ _ hc)))
    congr 1; ring

/-- C147: rotating back by the same angle undoes a rotation up to a few units of the last place of the numbers involved. -/
theorem C147_back (p : Point ℚ) (o : Option (Point ℚ)) (t : ℝ) (c s : ℚ) (h : Trig t c s) :
    let q := (p.rotateD c s o).rotateD c (-s) o
    |(q.x : ℝ) - p.x| ≤ scale p (o.getD ⟨0, 0⟩) / 2 ^ 47 ∧ |(q.y : ℝ) - p.y| ≤ scale p (o.getD ⟨0, 0⟩) / 2 ^ 47 := by
  intro q
  have h' : Trig (-t) c (-s) := by
    refine ⟨by rw [Real.cos_neg]; exact h.1, ?_⟩
    rw [Real.sin_neg, abs_neg]
    push_cast
    rw [neg_sub_neg, abs_sub_comm]
    exact h.2
  obtain ⟨n1, n2⟩ := C147_near p o t c s h
  obtain ⟨m1, m2⟩ := C147_near (p.rotateD c s o) o (-t) c (-s) h'
  obtain ⟨d1, d2⟩ := rotate_diff (p.rotateD c s o).real (p.real.rotate t (o.map Point.real)) (-t) (o.map Point.real)
  rw [C70_back] at d1 d2
  have e0 := C70_origin
  obtain ⟨r1, r2⟩ := rotate_diff p.real (o.getD ⟨0, 0⟩).real t (o.map Point.real)
  have hor : (o.getD ⟨0, 0⟩).real.rotate t (o.map Point.real) = (o.getD ⟨0, 0⟩).real := by
    cases o <;> simp [Point.rotate, Point.real]
  rw [hor] at r1 r2
  change |(q.x : ℝ) - _| ≤ _ at m1
  change |(q.y : ℝ) - _| ≤ _ at m2
  have hs : ((scale (p.rotateD c s o) (o.getD ⟨0, 0⟩) : ℚ) : ℝ) ≤ 3 * scale p (o.getD ⟨0, 0⟩) := by
    simp only [scale]
    push_cast
    simp only [scale, Point.real] at n1 n2 r1 r2
    push_cast at n1 n2
    have a1 := abs_sub_le (((p.rotateD c s o).x : ℚ) : ℝ) ((Point.rotate ⟨(p.y : ℝ), (p.x : ℝ)⟩ t (o.map Point.real)).x) ((o.getD ⟨0, 0⟩).x : ℝ)
    have a2 := abs_sub_le (((p.rotateD c s o).y : ℚ) : ℝ) ((Point.rotate ⟨(p.y : ℝ), (p.x : ℝ)⟩ t (o.map Point.real)).y) ((o.getD ⟨0, 0⟩).y : ℝ)
    have p1 := abs_nonneg ((o.getD ⟨0, 0⟩).x : ℝ)
    have p2 := abs_nonneg ((o.getD ⟨0, 0⟩).y : ℝ)
    have p3 := abs_nonneg ((p.x : ℝ) - (o.getD ⟨0, 0⟩).x)
    have p4 := abs_nonneg ((p.y : ℝ) - (o.getD ⟨0, 0⟩).y)
    change |((p.rotateD c s o).x : ℝ) - (Point.rotate ⟨(p.y : ℝ), (p.x : ℝ)⟩ t (o.map Point.real)).x| ≤ _ at n1
    change |((p.rotateD c s o).y : ℝ) - (Point.rotate ⟨(p.y : ℝ), (p.x : ℝ)⟩ t (o.map Point.real)).y| ≤ _ at n2
    norm_num only at n1 n2 ⊢
    linarith
  have hs0 : (0 : ℝ) ≤ scale p (o.getD ⟨0, 0⟩) := by
    simp only [scale]; push_cast; positivity
  have b1 := abs_sub_le (q.x : ℝ) (((p.rotateD c s o).real.rotate (-t) (o.map Point.real)).x) p.real.x
  have b2 := abs_sub_le (q.y : ℝ) (((p.rotateD c s o).real.rotate (-t) (o.map Point.real)).y) p.real.y
  simp only [Point.real] at *
  norm_num only at *
  constructor <;> linarith

/-- C147: the origin stays where it is, exactly, whatever the cosine and sine. -/
theorem C147_origin (o : Point ℚ) (c s : ℚ) (ho : o.Dbl) : o.rotateD c s (some o) = o := by
  simp only [Point.rotateD, Option.getD_some, sub_self, fl_zero, mul_zero, add_zero, sub_zero, fl_of_dbl ho.1, fl_of_dbl ho.2]

/-- C147: a rotation by zero changes nothing if the differences of the coordinates are doubles. -/
theorem C147_zero_partial (p : Point ℚ) (o : Option (Point ℚ)) (hp : p.Dbl) (ho : (o.getD ⟨0, 0⟩).Dbl)
    (hx : Dbl (p.x - (o.getD ⟨0, 0⟩).x)) (hy : Dbl (p.y - (o.getD ⟨0, 0⟩).y)) : p.rotateD 1 0 o = p := by
  simp only [Point.rotateD, fl_of_dbl hx, fl_of_dbl hy, one_mul, zero_mul, fl_zero, sub_zero, add_zero, fl_of_dbl ho.1,
    add_sub_cancel, fl_of_dbl hp.1, fl_of_dbl hp.2]

/-- C147: a rotation by zero about zero changes nothing. -/
theorem C147_zero_about_zero (p : Point ℚ) (hp : p.Dbl) : p.rotateD 1 0 none = p :=
  C147_zero_partial p none hp ⟨dbl_zero, dbl_zero⟩ (by simpa using hp.2) (by simpa using hp.1)

/-- C147, counterexample: (0.1, 0) turned by zero about (1, 0) is not (0.1, 0). -/
theorem C147_counterexample : (Point.mk 0 (fl (1 / 10))).rotateD 1 0 (some ⟨0, 1⟩) ≠ Point.mk 0 (fl (1 / 10)) := by
  decide +kernel

/-- the exact cosine and sine of a quarter turn are allowed -/
example : Trig (Real.pi / 2) 0 1 := by
  constructor <;> simp

/-- (3, 1) about (1, 1) by a quarter turn -/
example : (Point.mk 1 3).rotateD 0 1 (some ⟨1, 1⟩) = ⟨3, 1⟩ := by decide +kernel

end Verif.Geometry
