import Verif.Geometry.Mixed

/-!
Integer rectangles made from floats (`nion/utils/Geometry.py`, lines 475-512, 639-658), property C168, in exact arithmetic.

`IntPoint` and `IntSize` apply `int` to their arguments (309-311, 387-399), so `IntRect.make(r)` of a `FloatRect` truncates origin and size
each by itself, `IntRect.from_tlbr` with floats truncates the origin and the difference, and `intersect` and `union` of an `IntRect` with
a `FloatRect` go through it.
-/

namespace Verif.Geometry

variable {K : Type} [Field K] [LinearOrder K] [IsStrictOrderedRing K] [FloorRing K]

/-- Lines 483-490: `IntRect(origin, size)` and `IntRect.make` with floats. -/
def Rect.ofFloat (r : Rect K) : Rect ℤ := ⟨⟨trunc r.origin.y, trunc r.origin.x⟩, ⟨trunc r.size.height, trunc r.size.width⟩⟩

/-- Lines 501-505: `IntRect.from_tlbr` with floats. -/
def Rect.fromTLBRF (top left bottom right : K) : Rect ℤ := ⟨⟨trunc top, trunc left⟩, ⟨trunc (bottom - top), trunc (right - left)⟩⟩

/-- Lines 646-651 with a float rectangle. -/
def Rect.intersectF (a : Rect ℤ) (b : Rect K) : Rect ℤ :=
  .fromTLBRF (max (a.top : K) b.top) (max (a.left : K) b.left) (min (a.bottom : K) b.bottom) (min (a.right : K) b.right)

/-- Lines 653-658 with a float rectangle. -/
def Rect.unionF (a : Rect ℤ) (b : Rect K) : Rect ℤ :=
  .fromTLBRF (min (a.top : K) b.top) (min (a.left : K) b.left) (max (a.bottom : K) b.bottom) (max (a.right : K) b.right)

omit [IsStrictOrderedRing K] in
theorem trunc_le (v : K) (h : 0 ≤ v) : (trunc v : K) ≤ v := by rw [trunc, if_pos h]; exact Int.floor_le v

theorem lt_trunc_add_one (v : K) : v < trunc v + 1 := by
  unfold trunc
  split
  · exact Int.lt_floor_add_one v
  · exact lt_of_le_of_lt (Int.le_ceil v) (by linarith)

theorem trunc_lt_add_one (v : K) : (trunc v : K) < v + 1 := by
  unfold trunc
  split
  · have := Int.floor_le v; linarith
  · exact Int.ceil_lt_add_one v

omit [IsStrictOrderedRing K] in
theorem trunc_mono {u v : K} (h : u ≤ v) : trunc u ≤ trunc v := by
  unfold trunc
  split
  · rename_i hu
    rw [if_pos (hu.trans h)]
    exact Int.floor_le_floor h
  · rename_i hu
    split
    · rename_i hv
      have h1 : ⌈u⌉ ≤ 0 := by rw [Int.ceil_le]; push_cast; exact le_of_not_ge hu
      exact h1.trans (Int.floor_nonneg.2 hv)
    · exact Int.ceil_le_ceil h

omit [IsStrictOrderedRing K] in
theorem trunc_nonneg {v : K} (h : 0 ≤ v) : 0 ≤ trunc v := by rw [trunc, if_pos h]; exact Int.floor_nonneg.2 h

theorem trunc_nonpos {v : K} (h : v ≤ 0) : trunc v ≤ 0 := by
  have := trunc_mono h
  have h0 : trunc (0 : K) = 0 := by simp [trunc]
  rwa [h0] at this

/-- C168, there and back: an integer rectangle turned into a float rectangle and back is the same. -/
theorem C168_back (r : Rect ℤ) : (r.toFloat : Rect K).ofFloat = r := by
  have h : ∀ a b : ℤ, trunc ((b : K) - (a : K)) = b - a := fun a b => by rw [← Int.cast_sub, trunc_intCast]
  obtain ⟨⟨y, x⟩, ⟨hh, ww⟩⟩ := r
  simp only [Rect.toFloat, Rect.fromTLBR, Rect.ofFloat, Rect.top, Rect.left, Rect.bottom, Rect.right, trunc_intCast, h]
  congr 2 <;> ring

/-- C168, bounds: the sides of the integer rectangle are closer than 1 (top, left) and 2 (bottom, right) to those of the float one. -/
theorem C168_bounds (r : Rect K) :
    |(r.ofFloat.top : K) - r.top| < 1 ∧ |(r.ofFloat.left : K) - r.left| < 1 ∧
    |(r.ofFloat.bottom : K) - r.bottom| < 2 ∧ |(r.ofFloat.right : K) - r.right| < 2 := by
  have key : ∀ v : K, |(trunc v : K) - v| < 1 := fun v => by
    rw [abs_lt]
    have := lt_trunc_add_one v
    have := trunc_lt_add_one v
    constructor <;> linarith
  refine ⟨key _, key _, ?_, ?_⟩
  · have h1 := abs_lt.1 (key r.origin.y)
    have h2 := abs_lt.1 (key r.size.height)
    simp only [Rect.bottom, Rect.ofFloat, Int.cast_add, abs_lt]
    constructor <;> linarith [h1.1, h1.2, h2.1, h2.2]
  · have h1 := abs_lt.1 (key r.origin.x)
    have h2 := abs_lt.1 (key r.size.width)
    simp only [Rect.right, Rect.ofFloat, Int.cast_add, abs_lt]
    constructor <;> linarith [h1.1, h1.2, h2.1, h2.2]

theorem trunc_add_iff (t h : K) (ht : 0 ≤ t) (hh : 0 ≤ h) : trunc t + trunc h = trunc (t + h) ↔ Int.fract t + Int.fract h < 1 := by
  rw [trunc, if_pos ht, trunc, if_pos hh, trunc, if_pos (add_nonneg ht hh)]
  have e1 := Int.floor_add_fract t
  have e2 := Int.floor_add_fract h
  have n1 := Int.fract_nonneg t
  have n2 := Int.fract_nonneg h
  constructor
  · intro he
    have h1 := Int.lt_floor_add_one (t + h)
    rw [← he] at h1
    push_cast at h1
    linarith
  · intro hlt
    symm
    rw [Int.floor_eq_iff]
    push_cast
    constructor <;> linarith

/-- C168, exactly when (origin and size not negative): bottom and right are the truncated ones precisely if the fractions of origin and
size do not add up to 1. -/
theorem C168_iff_partial (r : Rect K) (hy : 0 ≤ r.origin.y) (hx : 0 ≤ r.origin.x) (hh : 0 ≤ r.size.height) (hw : 0 ≤ r.size.width) :
    (r.ofFloat.bottom = trunc r.bottom ↔ Int.fract r.origin.y + Int.fract r.size.height < 1) ∧
    (r.ofFloat.right = trunc r.right ↔ Int.fract r.origin.x + Int.fract r.size.width < 1) :=
  ⟨trunc_add_iff _ _ hy hh, trunc_add_iff _ _ hx hw⟩

/-- C168, inside (origin and size not negative): an integer point of the integer rectangle that is not above or left of the float one is
in the float one. -/
theorem C168_inside_partial (r : Rect K) (hy : 0 ≤ r.origin.y) (hx : 0 ≤ r.origin.x) (hh : 0 ≤ r.size.height) (hw : 0 ≤ r.size.width)
    (p : Point ℤ) (hp : r.ofFloat.containsPoint p = true) (h1 : r.top ≤ p.y) (h2 : r.left ≤ p.x) :
    r.containsPoint ⟨(p.y : K), (p.x : K)⟩ = true := by
  simp only [Rect.containsPoint, Rect.left, Rect.right, Rect.top, Rect.bottom, Rect.ofFloat,
    Bool.and_eq_true, decide_eq_true_eq, ge_iff_le] at hp h1 h2 ⊢
  have a1 := trunc_le _ hy
  have a2 := trunc_le _ hx
  have a3 := trunc_le _ hh
  have a4 := trunc_le _ hw
  obtain ⟨⟨⟨b1, b2⟩, b3⟩, b4⟩ := hp
  have b2 := of_decide_eq_true b2
  have b4 := of_decide_eq_true b4
  have c2 : (p.x : K) < trunc r.origin.x + trunc r.size.width := by exact_mod_cast b2
  have c4 : (p.y : K) < trunc r.origin.y + trunc r.size.height := by exact_mod_cast b4
  refine ⟨⟨⟨h2, ?_⟩, h1⟩, ?_⟩ <;> linarith

theorem lo_hi (a b : ℤ) (t u : K) (p : ℤ) (hat : (a : K) ≤ t) (hub : u ≤ (b : K)) (h1 : trunc t ≤ p) (h2 : p < trunc t + trunc (u - t)) :
    a ≤ p ∧ p < b := by
  refine ⟨?_, ?_⟩
  · have := trunc_mono hat
    rw [trunc_intCast] at this
    omega
  · have hs : 0 < trunc (u - t) := by omega
    have hpos : 0 ≤ u - t := by
      by_contra hn
      have := trunc_nonpos (le_of_not_ge hn)
      omega
    have e1 := trunc_le _ hpos
    have e2 := trunc_lt_add_one t
    have e3 : ((p : ℤ) : K) < ((trunc t + trunc (u - t) : ℤ) : K) := by exact_mod_cast h2
    push_cast at e3
    have hle : trunc t + trunc (u - t) < b + 1 := by
      have : ((trunc t + trunc (u - t) : ℤ) : K) < ((b + 1 : ℤ) : K) := by push_cast; linarith
      exact_mod_cast this
    omega

/-- C168, intersections: whatever the float rectangle, a point of the intersection of an integer with a float rectangle is in the
integer rectangle. -/
theorem C168_intersect (a : Rect ℤ) (b : Rect K) (p : Point ℤ) (h : (a.intersectF b).containsPoint p = true) : a.containsPoint p = true := by
  simp only [Rect.containsPoint, Rect.intersectF, Rect.fromTLBRF, Bool.and_eq_true, decide_eq_true_eq, ge_iff_le] at h ⊢
  obtain ⟨⟨⟨b1, b2⟩, b3⟩, b4⟩ := h
  have hy := lo_hi a.top a.bottom (max (a.top : K) b.top) (min (a.bottom : K) b.bottom) p.y (le_max_left _ _) (min_le_left _ _) b3 (of_decide_eq_true b4)
  have hx := lo_hi a.left a.right (max (a.left : K) b.left) (min (a.right : K) b.right) p.x (le_max_left _ _) (min_le_left _ _) b1 (of_decide_eq_true b2)
  exact ⟨⟨⟨hx.1, hx.2⟩, hy.1⟩, hy.2⟩

/-- corners that are right -/
example : (⟨⟨5 / 4, 3⟩, ⟨5 / 2, 1 / 2⟩⟩ : Rect ℚ).ofFloat.bottom = 3 ∧ trunc (⟨⟨5 / 4, 3⟩, ⟨5 / 2, 1 / 2⟩⟩ : Rect ℚ).bottom = 3 := by
  constructor <;> norm_num [Rect.ofFloat, Rect.bottom, Rect.top, Rect.height, trunc]

/-- C168 fails as stated: from (0.5, 0.5) with size (1.5, 1.5) goes down to 2.0, but the integer rectangle ends at 1 and does not hold the
point (1, 1), the only integer point of the float rectangle. The intersection of the integer rectangle (0, 0), (5, 5) with it holds
(0, 0), which is not in the float rectangle. -/
theorem C168_counterexample :
    ∃ r : Rect ℚ, r = ⟨⟨1 / 2, 1 / 2⟩, ⟨3 / 2, 3 / 2⟩⟩ ∧
      r.ofFloat.bottom = 1 ∧ trunc r.bottom = 2 ∧
      r.containsPoint ⟨1, 1⟩ = true ∧ r.ofFloat.containsPoint ⟨1, 1⟩ = false ∧
      (Rect.intersectF ⟨⟨0, 0⟩, ⟨5, 5⟩⟩ r).containsPoint ⟨0, 0⟩ = true ∧ r.containsPoint ⟨0, 0⟩ = false := by
  refine ⟨_, rfl, ?_, ?_, ?_, ?_, ?_, ?_⟩ <;>
    norm_num [Rect.ofFloat, Rect.bottom, Rect.top, Rect.left, Rect.right, Rect.height, Rect.width, trunc, Rect.containsPoint, Rect.intersectF,
      Rect.fromTLBRF]

end Verif.Geometry
