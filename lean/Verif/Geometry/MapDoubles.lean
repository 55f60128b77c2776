import Verif.Geometry.Doubles

/-!
Mapping between rectangles and fitting to an aspect ratio in double precision (`nion/utils/Geometry.py:264-276, 1064-1076`), C140, C141.

`Geometry/Rect.lean` computes with exact numbers. Here every operation is followed by rounding to the nearest double, as in
`Geometry/Doubles.lean`. Not modelled: overflow, subnormal numbers, infinite numbers, nan; sizes that are zero (division raises).
-/

namespace Verif.Geometry

open Verif.Converter (fl fl_near fl_zero)

/-! ### The model -/

/-- Lines 1065-1066, one coordinate: `((p - f.top) / f.height) * t.height + t.top`. -/
def mapCoordD (p fo fs go gs : ℚ) : ℚ := fl (fl (fl (fl (p - fo) / fs) * gs) + go)

/-- Lines 1064-1066. -/
def mapPointD (p : Point ℚ) (f t : Rect ℚ) : Point ℚ :=
  ⟨mapCoordD p.y f.origin.y f.size.height t.origin.y t.size.height, mapCoordD p.x f.origin.x f.size.width t.origin.x t.size.width⟩

/-- Lines 1069-1071. -/
def mapSizeD (s : Size ℚ) (f t : Rect ℚ) : Size ℚ :=
  ⟨fl (fl (s.height / f.size.height) * t.size.height), fl (fl (s.width / f.size.width) * t.size.width)⟩

/-- Lines 1074-1076. -/
def mapRectD (r f t : Rect ℚ) : Rect ℚ := fromCenterAndSizeD (mapPointD r.centerD f t) (mapSizeD r.size f t)

/-- Lines 1002-1005. -/
def Rect.aspectRatioD (r : Rect ℚ) : ℚ := if r.size.height ≠ 0 then fl (r.size.width / r.size.height) else 1

/-- Lines 264-276. -/
def fitToAspectRatioD (r : Rect ℚ) (a : ℚ) : Rect ℚ :=
  if r.aspectRatioD > a then
    let w := fl (r.size.height * a)
    ⟨⟨r.origin.y, fl (r.origin.x + fl (1 / 2 * fl (r.size.width - w)))⟩, ⟨r.size.height, w⟩⟩
  else
    let h := fl (r.size.width / a)
    ⟨⟨fl (r.origin.y + fl (1 / 2 * fl (r.size.height - h))), r.origin.x⟩, ⟨h, r.size.width⟩⟩

/-! ### C140: mapping -/

theorem fl_one : fl 1 = 1 := fl_of_dbl ⟨1, 0, by norm_num, by norm_num⟩

theorem mapCoordD_origin {fo fs go gs : ℚ} (h : Dbl go) : mapCoordD fo fo fs go gs = go := by
  simp [mapCoordD, fl_zero, fl_of_dbl h]

theorem mapCoordD_mono {p q fo fs go gs : ℚ} (hf : 0 < fs) (ht : 0 ≤ gs) (h : p ≤ q) :
    mapCoordD p fo fs go gs ≤ mapCoordD q fo fs go gs := by
  refine fl_mono (add_le_add_left (fl_mono (mul_le_mul_of_nonneg_right (fl_mono ?_) ht)) _)
  exact div_le_div_of_nonneg_right (fl_mono (by linarith)) hf.le

theorem mapCoordD_far {fo fs go gs : ℚ} (hf : fs ≠ 0) (ht : Dbl gs) (h : fl (fl (fo + fs) - fo) = fs) :
    mapCoordD (fl (fo + fs)) fo fs go gs = fl (go + gs) := by
  rw [mapCoordD, h, div_self hf, fl_one, one_mul, fl_of_dbl ht, add_comm]

/-- C140: the top left corner is mapped to the top left corner, exactly. -/
theorem C140_origin (f t : Rect ℚ) (ht : t.Dbl) : mapPointD f.origin f t = t.origin := by
  ext
  · exact mapCoordD_origin ht.1.1
  · exact mapCoordD_origin ht.1.2

/-- C140: the bottom right corner is mapped to the bottom right corner, exactly, if the sides of the first rectangle are where its size
says: `bottom - top` is `height` and `right - left` is `width`. Missing: other rectangles, see `C140_near` and
`C140_counterexample_corner`. -/
theorem C140_corner_partial (f t : Rect ℚ) (ht : t.Dbl) (hh : f.size.height ≠ 0) (hw : f.size.width ≠ 0)
    (h1 : fl (f.bottomD - f.origin.y) = f.size.height) (h2 : fl (f.rightD - f.origin.x) = f.size.width) :
    mapPointD ⟨f.bottomD, f.rightD⟩ f t = ⟨t.bottomD, t.rightD⟩ := by
  ext
  · exact mapCoordD_far hh ht.2.1 h1
  · exact mapCoordD_far hw ht.2.2 h2

/-- C140: points keep their order. -/
theorem C140_monotone (f t : Rect ℚ) (hf : 0 < f.size.height ∧ 0 < f.size.width) (ht : 0 ≤ t.size.height ∧ 0 ≤ t.size.width)
    (p q : Point ℚ) : (p.y ≤ q.y → (mapPointD p f t).y ≤ (mapPointD q f t).y) ∧
      (p.x ≤ q.x → (mapPointD p f t).x ≤ (mapPointD q f t).x) :=
  ⟨mapCoordD_mono hf.1 ht.1, mapCoordD_mono hf.2 ht.2⟩

/-- C140: so the points of a rectangle whose sides are where its size says are mapped to points of the other one with its sides. -/
theorem C140_inside_partial (f t : Rect ℚ) (ht : t.Dbl) (hf : 0 < f.size.height ∧ 0 < f.size.width)
    (hs : 0 ≤ t.size.height ∧ 0 ≤ t.size.width) (h1 : fl (f.bottomD - f.origin.y) = f.size.height)
    (h2 : fl (f.rightD - f.origin.x) = f.size.width) (p : Point ℚ) (hp : f.containsPointD p = true) :
    t.origin.y ≤ (mapPointD p f t).y ∧ (mapPointD p f t).y ≤ t.bottomD ∧ t.origin.x ≤ (mapPointD p f t).x ∧
      (mapPointD p f t).x ≤ t.rightD := by
  simp only [Rect.containsPointD, ge_iff_le, Bool.and_eq_true, decide_eq_true_eq] at hp
  obtain ⟨⟨⟨a1, a2⟩, a3⟩, a4⟩ := hp
  have c := C140_corner_partial f t ht hf.1.ne' hf.2.ne' h1 h2
  have o := C140_origin f t ht
  have m := fun p q => C140_monotone f t hf hs p q
  refine ⟨?_, ?_, ?_, ?_⟩
  · have := (m f.origin p).1 a3; rwa [o] at this
  · have := (m p ⟨f.bottomD, f.rightD⟩).1 a4.le; rwa [c] at this
  · have := (m f.origin p).2 a1; rwa [o] at this
  · have := (m p ⟨f.bottomD, f.rightD⟩).2 a2.le; rwa [c] at this

theorem fl_rel (x : ℚ) : ∃ d : ℚ, |d| ≤ 1 / 2 ^ 53 ∧ fl x = x * (1 + d) := by
  by_cases h : x = 0
  · exact ⟨0, by norm_num, by rw [h, fl_zero, zero_mul]⟩
  · refine ⟨(fl x - x) / x, ?_, by field_simp; ring⟩
    rw [abs_div, div_le_iff₀ (abs_pos.2 h)]
    have := fl_near x
    linarith

theorem mapCoordD_near (p fo fs go gs : ℚ) :
    |mapCoordD p fo fs go gs - ((p - fo) / fs * gs + go)| ≤ (|(p - fo) / fs * gs| + |go|) / 2 ^ 50 := by
  obtain ⟨d1, e1, h1⟩ := fl_rel (p - fo)
  obtain ⟨d2, e2, h2⟩ := fl_rel (fl (p - fo) / fs)
  obtain ⟨d3, e3, h3⟩ := fl_rel (fl (fl (p - fo) / fs) * gs)
  set x := (p - fo) / fs * gs with hx
  set C := fl (fl (fl (p - fo) / fs) * gs) with hC
  have hCx : C = x * ((1 + d1) * (1 + d2) * (1 + d3)) := by
    rw [h3, h2, h1, hx]
    ring
  have hk : |(1 + d1) * (1 + d2) * (1 + d3) - 1| ≤ 4 / 2 ^ 53 := by
    have e : (1 + d1) * (1 + d2) * (1 + d3) - 1 = d1 + d2 + d3 + d1 * d2 + d1 * d3 + d2 * d3 + d1 * d2 * d3 := by ring
    have m : ∀ a b : ℚ, |a| ≤ 1 / 2 ^ 53 → |b| ≤ 1 / 2 ^ 53 → |a * b| ≤ 1 / 2 ^ 53 * (1 / 2 ^ 53) := by
      intro a b ha hb
      rw [abs_mul]
      exact mul_le_mul ha hb (abs_nonneg _) (by norm_num)
    have m12 := m d1 d2 e1 e2
    have m13 := m d1 d3 e1 e3
    have m23 := m d2 d3 e2 e3
    have m123 : |d1 * d2 * d3| ≤ 1 / 2 ^ 53 * (1 / 2 ^ 53) := m _ _ (m12.trans (by norm_num)) e3
    rw [e]
    rw [abs_le] at e1 e2 e3 m12 m13 m23 m123 ⊢
    norm_num at *
    constructor <;> linarith
  have hCd : |C - x| ≤ |x| * (4 / 2 ^ 53) := by
    rw [hCx, show x * ((1 + d1) * (1 + d2) * (1 + d3)) - x = x * ((1 + d1) * (1 + d2) * (1 + d3) - 1) by ring, abs_mul]
    exact mul_le_mul_of_nonneg_left hk (abs_nonneg _)
  have hD := fl_near (C + go)
  have h4 : |C + go| ≤ |C - x| + |x| + |go| := by
    calc |C + go| = |(C - x) + x + go| := by ring_nf
      _ ≤ |(C - x) + x| + |go| := abs_add_le _ _
      _ ≤ _ := by linarith [abs_add_le (C - x) x]
  have h5 : |mapCoordD p fo fs go gs - (x + go)| ≤ |fl (C + go) - (C + go)| + |C - x| := by
    have : mapCoordD p fo fs go gs = fl (C + go) := rfl
    rw [this]
    calc |fl (C + go) - (x + go)| = |(fl (C + go) - (C + go)) + (C - x)| := by ring_nf
      _ ≤ _ := abs_add_le _ _
  have h6 := abs_nonneg x
  have h7 := abs_nonneg go
  norm_num at hCd hD ⊢
  linarith

/-- C140: every point is mapped to where exact arithmetic has it, up to a relative error of `1 / 2^50`. -/
theorem C140_near (p : Point ℚ) (f t : Rect ℚ) :
    |(mapPointD p f t).y - (mapPoint p f t).y| ≤ (|(mapPoint p f t).y - t.top| + |t.top|) / 2 ^ 50 ∧
      |(mapPointD p f t).x - (mapPoint p f t).x| ≤ (|(mapPoint p f t).x - t.left| + |t.left|) / 2 ^ 50 := by
  refine ⟨?_, ?_⟩
  · have := mapCoordD_near p.y f.origin.y f.size.height t.origin.y t.size.height
    simpa [mapPoint, mapPointD] using this
  · have := mapCoordD_near p.x f.origin.x f.size.width t.origin.x t.size.width
    simpa [mapPoint, mapPointD] using this

/-- C140: a rectangle mapped between itself and another one gets exactly the size of the other one. -/
theorem C140_size (f t : Rect ℚ) (ht : t.Dbl) (hh : f.size.height ≠ 0) (hw : f.size.width ≠ 0) : (mapRectD f f t).size = t.size := by
  ext
  · simp [mapRectD, fromCenterAndSizeD, mapSizeD, div_self hh, fl_one, fl_of_dbl ht.2.1]
  · simp [mapRectD, fromCenterAndSizeD, mapSizeD, div_self hw, fl_one, fl_of_dbl ht.2.2]

/-- C140, counterexample: the right side of the rectangle from 0.1 with width 0.2 is mapped behind the right side of the unit square. -/
theorem C140_counterexample_corner : let f : Rect ℚ := ⟨⟨0, fl (1 / 10)⟩, ⟨1, fl (2 / 10)⟩⟩
    let t : Rect ℚ := ⟨⟨0, 0⟩, ⟨1, 1⟩⟩
    t.rightD = 1 ∧ 1 < (mapPointD ⟨1, f.rightD⟩ f t).x := by decide +kernel

/-- C140, counterexample: mapping the point 15 of the range 0 to 22 to the same range moves it, and mapping 1 from 0 to 5 to the range 0 to
3 and back does not give 1. -/
theorem C140_counterexample_back : mapCoordD 15 0 22 0 22 ≠ 15 ∧ mapCoordD (mapCoordD 1 0 5 0 3) 0 3 0 5 ≠ 1 := by decide +kernel

/-- C140, counterexample: the rectangle from 0.1 to 1.1, mapped to the one from 0 to 0.1, does not begin at 0. -/
theorem C140_counterexample_rect : let f : Rect ℚ := ⟨⟨0, fl (1 / 10)⟩, ⟨1, 1⟩⟩
    let t : Rect ℚ := ⟨⟨0, 0⟩, ⟨1, fl (1 / 10)⟩⟩
    mapRectD f f t ≠ t := by decide +kernel

example : mapPointD ⟨3, 100⟩ ⟨⟨0, 0⟩, ⟨12, 400⟩⟩ ⟨⟨1, 1⟩, ⟨4, 4⟩⟩ = ⟨2, 2⟩ := by decide +kernel

example : let f : Rect ℚ := ⟨⟨0, 0⟩, ⟨12, 400⟩⟩
    fl (f.bottomD - f.origin.y) = f.size.height ∧ fl (f.rightD - f.origin.x) = f.size.width ∧ f.containsPointD ⟨5, 7⟩ = true := by
  decide +kernel

/-! ### C141: fitting -/

/-- The near side of the fitted range: between the side and the side moved by twice the margin. -/
theorem fit_origin {l d : ℚ} (hl : Dbl l) : |fl (l + d) - (l + d)| ≤ |d| := by
  have := fl_nearest (l + d) l hl
  rwa [show l - (l + d) = -d by ring, abs_neg] at this

theorem fl_half (x : ℚ) : fl (1 / 2 * fl x) = fl x / 2 := by
  rw [mul_comm, fl_of_dbl (dbl_half (fl_dbl x))]
  ring

/-- A range of size `n` in the middle of a range of size `w` that is not smaller. -/
theorem fit_axis {l w n : ℚ} (hl : Dbl l) (hn : 0 ≤ n) (h : n ≤ w) :
    let o := fl (l + fl (1 / 2 * fl (w - n)))
    l ≤ o ∧ fl (o + n) ≤ fl (l + w) + (|l| + w) / 2 ^ 51 ∧ (Dbl w → Dbl n → w ≤ 2 * n → fl (o + n) ≤ fl (l + w)) := by
  have h0 : 0 ≤ fl (w - n) := by
    have := fl_mono (show 0 ≤ w - n by linarith)
    rwa [fl_zero] at this
  have h1 := fit_origin (d := fl (w - n) / 2) hl
  rw [abs_of_nonneg (by linarith : 0 ≤ fl (w - n) / 2), abs_le] at h1
  simp only [fl_half]
  refine ⟨by linarith [h1.1], ?_, ?_⟩
  · have h2 := fl_near (w - n)
    rw [abs_of_nonneg (by linarith : 0 ≤ w - n), abs_le] at h2
    have h3 : fl (l + fl (w - n) / 2) + n ≤ l + w + w / 2 ^ 53 := by
      norm_num at h2 ⊢
      linarith [h1.2, h2.2]
    have h4 := fl_mono h3
    have h5 := fl_near (l + w + w / 2 ^ 53)
    have h6 := fl_near (l + w)
    have h7 : |l + w| ≤ |l| + w := by
      have := abs_add_le l w
      rwa [abs_of_nonneg (by linarith : 0 ≤ w)] at this
    have h8 : |l + w + w / 2 ^ 53| ≤ |l| + w + w / 2 ^ 53 := by
      have := abs_add_le (l + w) (w / 2 ^ 53)
      rw [abs_of_nonneg (by have : 0 ≤ w := by linarith
                            positivity : 0 ≤ w / 2 ^ 53)] at this
      linarith
    have h9 := abs_nonneg l
    have h10 := (abs_le.1 h5).2
    have h11 := (abs_le.1 h6).1
    have hw : 0 ≤ w := by linarith
    clear h5 h6 h1 h2
    norm_num at h3 h4 h8 h10 h11 ⊢
    linarith
  · intro hw hnd h2
    have e : fl (w - n) = w - n := fl_of_dbl (dbl_sub hnd hw
      (by rw [abs_of_nonneg (by linarith), abs_of_nonneg hn]; linarith)
      (by rw [abs_of_nonneg (by linarith), abs_of_nonneg (by linarith)]; linarith))
    rw [e] at h1 ⊢
    exact fl_mono (by linarith [h1.2])

/-- C141: if the rectangle is wider than the aspect ratio, top and height are kept, and the fitted rectangle is not wider, does not begin
before the left side, and ends at most a relative error of `1 / 2^51` behind the right side; not behind it if at least half the width
is left. -/
theorem C141_wide_partial (r : Rect ℚ) (hr : r.Dbl) (a : ℚ) (hd : Geometry.Dbl a) (ha : 0 < a) (hh : 0 < r.size.height)
    (h : r.aspectRatioD > a) :
    let q := fitToAspectRatioD r a
    q.origin.y = r.origin.y ∧ q.size.height = r.size.height ∧ q.size.width ≤ r.size.width ∧ r.origin.x ≤ q.origin.x ∧
      q.rightD ≤ r.rightD + (|r.origin.x| + r.size.width) / 2 ^ 51 ∧
      (r.size.width ≤ 2 * q.size.width → q.rightD ≤ r.rightD) := by
  have hq : fitToAspectRatioD r a = ⟨⟨r.origin.y, fl (r.origin.x + fl (1 / 2 * fl (r.size.width - fl (r.size.height * a))))⟩,
      ⟨r.size.height, fl (r.size.height * a)⟩⟩ := by rw [fitToAspectRatioD, if_pos h]
  rw [Rect.aspectRatioD, if_pos hh.ne'] at h
  have hx : ¬ r.size.width ≤ r.size.height * a := by
    intro hle
    have := fl_mono ((div_le_iff₀ hh).2 (by linarith) : r.size.width / r.size.height ≤ a)
    rw [fl_of_dbl hd] at this
    linarith
  have hn : fl (r.size.height * a) ≤ r.size.width := by
    have := fl_mono (not_le.1 hx).le
    rwa [fl_of_dbl hr.2.2] at this
  have h0 : 0 ≤ fl (r.size.height * a) := by
    have := fl_mono (show 0 ≤ r.size.height * a by positivity)
    rwa [fl_zero] at this
  obtain ⟨k1, k2, k3⟩ := fit_axis hr.1.2 h0 hn
  rw [hq]
  exact ⟨rfl, rfl, hn, k1, k2, k3 hr.2.2 (fl_dbl _)⟩

/-- A range of size `n` around a range of size `w` that is a little smaller. -/
theorem fit_over {l w n : ℚ} (hl : Dbl l) (hw : Dbl w) (hn : Dbl n) (h0 : 0 ≤ w) (h : w ≤ n) (h1 : n ≤ w + w / 2 ^ 51) :
    let o := fl (l + fl (1 / 2 * fl (w - n)))
    l - w / 2 ^ 51 ≤ o ∧ fl (o + n) ≤ fl (l + w) + (|l| + w) / 2 ^ 50 := by
  have h2 : w / 2 ^ 51 ≤ w := div_le_self h0 (by norm_num)
  have e : fl (w - n) = w - n := fl_of_dbl (dbl_sub hn hw
    (by rw [abs_of_nonpos (by linarith), abs_of_nonneg (by linarith)]; linarith)
    (by rw [abs_of_nonpos (by linarith), abs_of_nonneg (by linarith)]; linarith))
  have h3 := fit_origin (d := (w - n) / 2) hl
  rw [abs_of_nonpos (by linarith : (w - n) / 2 ≤ 0), abs_le] at h3
  simp only [fl_half]
  rw [e]
  refine ⟨by linarith [h3.1], ?_⟩
  have h4 : fl (l + (w - n) / 2) + n ≤ l + w + w / 2 ^ 51 := by linarith [h3.2]
  have h5 := fl_mono h4
  have h6 := (abs_le.1 (fl_near (l + w + w / 2 ^ 51))).2
  have h7 := (abs_le.1 (fl_near (l + w))).1
  have h8 : |l + w| ≤ |l| + w := by
    have := abs_add_le l w
    rwa [abs_of_nonneg h0] at this
  have h9 : |l + w + w / 2 ^ 51| ≤ |l| + w + w / 2 ^ 51 := by
    have := abs_add_le (l + w) (w / 2 ^ 51)
    rw [abs_of_nonneg (by positivity : 0 ≤ w / 2 ^ 51)] at this
    linarith
  have h10 := abs_nonneg l
  clear h1 h2 h3 h4
  norm_num at h5 h6 h7 h9 ⊢
  linarith

/-- C141: otherwise left and width are kept; the fitted rectangle is at most a relative error of `1 / 2^51` higher, begins at most that much
before the top side, and ends at most a relative error of `1 / 2^50` behind the bottom side. If the exact ratio of the sides is not
larger than the aspect ratio, it is not higher and does not begin before the top side, and if at least half the height is left it does
not end behind the bottom side. Missing: inside in the other cases, see the counterexamples. -/
theorem C141_tall_partial (r : Rect ℚ) (hr : r.Dbl) (a : ℚ) (ha : 0 < a) (hh : 0 < r.size.height) (hw : 0 < r.size.width)
    (h : ¬ r.aspectRatioD > a) :
    let q := fitToAspectRatioD r a
    q.origin.x = r.origin.x ∧ q.size.width = r.size.width ∧ q.size.height ≤ r.size.height + r.size.height / 2 ^ 51 ∧
      r.origin.y - r.size.height / 2 ^ 51 ≤ q.origin.y ∧
      q.bottomD ≤ r.bottomD + (|r.origin.y| + r.size.height) / 2 ^ 50 ∧
      (r.size.width / r.size.height ≤ a → q.size.height ≤ r.size.height ∧ r.origin.y ≤ q.origin.y ∧
        (r.size.height ≤ 2 * q.size.height → q.bottomD ≤ r.bottomD)) := by
  have hq : fitToAspectRatioD r a = ⟨⟨fl (r.origin.y + fl (1 / 2 * fl (r.size.height - fl (r.size.width / a)))), r.origin.x⟩,
      ⟨fl (r.size.width / a), r.size.width⟩⟩ := by rw [fitToAspectRatioD, if_neg h]
  rw [Rect.aspectRatioD, if_pos hh.ne', gt_iff_lt, not_lt] at h
  have hpos : 0 < r.size.width / a := div_pos hw ha
  have hn0 : 0 ≤ fl (r.size.width / a) := by
    have := fl_mono hpos.le
    rwa [fl_zero] at this
  -- the exact height
  have hx : r.size.width / a * (1 - 1 / 2 ^ 53) ≤ r.size.height := by
    have h1 := (abs_le.1 (fl_near (r.size.width / r.size.height))).1
    rw [abs_of_pos (div_pos hw hh)] at h1
    have h2 : r.size.width / r.size.height * (1 - 1 / 2 ^ 53) ≤ a := by linarith
    rw [div_mul_eq_mul_div, div_le_iff₀ hh] at h2
    rw [div_mul_eq_mul_div, div_le_iff₀ ha]
    linarith
  have hup : fl (r.size.width / a) ≤ r.size.height + r.size.height / 2 ^ 51 := by
    have h1 := (abs_le.1 (fl_near (r.size.width / a))).2
    rw [abs_of_pos hpos] at h1
    norm_num at hx h1 ⊢
    linarith
  rw [hq]
  have hle : fl (r.size.width / a) ≤ r.size.height → r.origin.y ≤ fl (r.origin.y + fl (1 / 2 * fl (r.size.height - fl (r.size.width / a)))) ∧
      fl (fl (r.origin.y + fl (1 / 2 * fl (r.size.height - fl (r.size.width / a)))) + fl (r.size.width / a)) ≤
        fl (r.origin.y + r.size.height) + (|r.origin.y| + r.size.height) / 2 ^ 51 ∧ _ :=
    fun h1 => fit_axis hr.1.1 hn0 h1
  have hp : 0 ≤ r.size.height / 2 ^ 51 := by positivity
  refine ⟨rfl, rfl, hup, ?_, ?_, ?_⟩
  · rcases le_total (fl (r.size.width / a)) r.size.height with h1 | h1
    · have := (hle h1).1
      show r.origin.y - r.size.height / 2 ^ 51 ≤ _
      linarith
    · exact (fit_over hr.1.1 hr.2.1 (fl_dbl _) hh.le h1 hup).1
  · rcases le_total (fl (r.size.width / a)) r.size.height with h1 | h1
    · refine (hle h1).2.1.trans (add_le_add_right ?_ _)
      have : 0 ≤ |r.origin.y| + r.size.height := by positivity
      exact div_le_div_of_nonneg_left this (by norm_num) (by norm_num)
    · exact (fit_over hr.1.1 hr.2.1 (fl_dbl _) hh.le h1 hup).2
  · intro h1
    rw [div_le_iff₀ hh] at h1
    have h2 : fl (r.size.width / a) ≤ r.size.height := by
      have := fl_mono ((div_le_iff₀ ha).2 (by linarith) : r.size.width / a ≤ r.size.height)
      rwa [fl_of_dbl hr.2.1] at this
    exact ⟨h2, (hle h2).1, (hle h2).2.2 hr.2.1 (fl_dbl _)⟩

/-- C141: the fitted rectangle has the aspect ratio asked for, up to a relative error of `1 / 2^51`. -/
theorem C141_ratio (r : Rect ℚ) (a : ℚ) (ha : 0 < a) (hh : 0 < r.size.height) (hw : 0 < r.size.width) :
    |(fitToAspectRatioD r a).size.width / (fitToAspectRatioD r a).size.height - a| ≤ a / 2 ^ 51 := by
  by_cases h : r.aspectRatioD > a
  · rw [fitToAspectRatioD, if_pos h]
    obtain ⟨d, hd, e⟩ := fl_rel (r.size.height * a)
    simp only [e]
    rw [show r.size.height * a * (1 + d) / r.size.height - a = a * d by field_simp; ring, abs_mul, abs_of_pos ha]
    have := mul_le_mul_of_nonneg_left hd ha.le
    norm_num at this ⊢
    linarith
  · rw [fitToAspectRatioD, if_neg h]
    obtain ⟨d, hd, e⟩ := fl_rel (r.size.width / a)
    simp only [e]
    have hd' := abs_le.1 hd
    have h1 : (1 : ℚ) / 2 ≤ 1 + d := by
      have : (1 : ℚ) / 2 ^ 53 ≤ 1 / 2 := by norm_num
      linarith [hd'.1]
    have h2 : (1 + d) ≠ 0 := by linarith
    rw [show r.size.width / (r.size.width / a * (1 + d)) - a = a * (-d / (1 + d)) by field_simp; ring, abs_mul, abs_of_pos ha, abs_div,
      abs_neg, abs_of_pos (by linarith : 0 < 1 + d)]
    have h3 : |d| / (1 + d) ≤ 2 / 2 ^ 53 := by
      rw [div_le_iff₀ (by linarith)]
      norm_num at hd ⊢
      linarith
    have := mul_le_mul_of_nonneg_left h3 ha.le
    norm_num at this ⊢
    linarith

/-- C141, counterexample: a rectangle of height 7 and width 17, fitted to its own aspect ratio, becomes higher and begins before its top. -/
theorem C141_counterexample : let r : Rect ℚ := ⟨⟨0, 0⟩, ⟨7, 17⟩⟩
    let q := fitToAspectRatioD r r.aspectRatioD
    r.Dbl ∧ 7 < q.size.height ∧ q.origin.y < 0 := by
  refine ⟨⟨⟨dbl_zero, dbl_zero⟩, ⟨7, 0, by norm_num, by norm_num⟩, ⟨17, 0, by norm_num, by norm_num⟩⟩, ?_⟩
  decide +kernel

/-- C141, counterexample: a rectangle that is wider than the aspect ratio, whose fitted rectangle ends behind its right side. Less than half
the width is left, and the width is about the distance of its left side to the next double. -/
theorem C141_counterexample_wide : let r : Rect ℚ := ⟨⟨0, -1 - 1 / 2 ^ 52⟩, ⟨(1 / 4 + 1 / 2 ^ 54) / 2 ^ 52, 5 / 2 ^ 54⟩⟩
    r.Dbl ∧ r.aspectRatioD > 1 ∧ r.rightD < (fitToAspectRatioD r 1).rightD := by
  refine ⟨⟨⟨dbl_zero, ⟨-(2 ^ 52 + 1), -52, by norm_num, by norm_num⟩⟩, ⟨2 ^ 52 + 1, -106, by norm_num, by norm_num⟩,
    ⟨5, -54, by norm_num, by norm_num⟩⟩, ?_⟩
  decide +kernel

example : fitToAspectRatioD ⟨⟨1, 2⟩, ⟨3, 10⟩⟩ 2 = ⟨⟨1, 4⟩, ⟨3, 6⟩⟩ ∧ fitToAspectRatioD ⟨⟨1, 2⟩, ⟨8, 10⟩⟩ 2 = ⟨⟨5 / 2, 2⟩, ⟨5, 10⟩⟩ := by
  decide +kernel

end Verif.Geometry
