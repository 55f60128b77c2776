import Verif.Geometry.SizeArith

/-!
C133: rectangles of doubles (`FloatRect`, `nion/utils/Geometry.py:869-1061`).

`Geometry/Rect.lean` computes with exact numbers. Here every `+`, `-` and `*` of the code is followed by rounding to the nearest double
(`fl` of `Converter/Scaled.lean`: 53 binary digits, halves to even). Not modelled: overflow, subnormal numbers, infinite numbers, nan.
-/

set_option linter.unusedSectionVars false

namespace Verif.Geometry

open Verif.Converter (fl fl_near fl_zero roundHalfEven roundHalfEven_near fl_of_bounds)

/-! ### The model -/

/-- Line 943, 948: `right`, `bottom`. -/
def Rect.rightD (r : Rect ℚ) : ℚ := fl (r.origin.x + r.size.width)
def Rect.bottomD (r : Rect ℚ) : ℚ := fl (r.origin.y + r.size.height)

/-- Lines 894-899. -/
def Rect.fromTLBRD (top left bottom right : ℚ) : Rect ℚ := ⟨⟨top, left⟩, ⟨fl (bottom - top), fl (right - left)⟩⟩

/-- Lines 973-976. -/
def Rect.centerD (r : Rect ℚ) : Point ℚ :=
  ⟨fl (fl (r.origin.y + r.bottomD) * (1 / 2)), fl (fl (r.origin.x + r.rightD) * (1 / 2))⟩

/-- Lines 886-892. -/
def fromCenterAndSizeD (c : Point ℚ) (s : Size ℚ) : Rect ℚ :=
  ⟨⟨fl (c.y - fl (s.height * (1 / 2))), fl (c.x - fl (s.width * (1 / 2)))⟩, s⟩

/-- Lines 1007-1014. -/
def Rect.containsPointD (r : Rect ℚ) (p : Point ℚ) : Bool :=
  decide (p.x ≥ r.origin.x) && decide (p.x < r.rightD) && decide (p.y ≥ r.origin.y) && decide (p.y < r.bottomD)

/-- Lines 1016-1024. -/
def Rect.intersectsRectD (a b : Rect ℚ) : Bool :=
  if a.origin.x > b.rightD || b.origin.x > a.rightD then false
  else if a.bottomD < b.origin.y || b.bottomD < a.origin.y then false
  else true

/-- Lines 1026-1028. -/
def Rect.translatedD (r : Rect ℚ) (p : Point ℚ) : Rect ℚ := ⟨⟨fl (r.origin.y + p.y), fl (r.origin.x + p.x)⟩, r.size⟩

/-- Lines 1030-1035. -/
def Rect.insetD (r : Rect ℚ) (dx dy : ℚ) : Rect ℚ :=
  ⟨⟨fl (r.origin.y + dy), fl (r.origin.x + dx)⟩, ⟨fl (r.size.height - fl (dy * 2)), fl (r.size.width - fl (dx * 2))⟩⟩

/-- Lines 1037-1042. -/
def Rect.intersectD (a b : Rect ℚ) : Rect ℚ :=
  .fromTLBRD (max a.origin.y b.origin.y) (max a.origin.x b.origin.x) (min a.bottomD b.bottomD) (min a.rightD b.rightD)

/-- Lines 1044-1049. -/
def Rect.unionD (a b : Rect ℚ) : Rect ℚ :=
  .fromTLBRD (min a.origin.y b.origin.y) (min a.origin.x b.origin.x) (max a.bottomD b.bottomD) (max a.rightD b.rightD)

/-- Lines 1051-1061. -/
def Rect.addD (r : Rect ℚ) (p : Point ℚ) : Rect ℚ := fromCenterAndSizeD ⟨fl (r.centerD.y + p.y), fl (r.centerD.x + p.x)⟩ r.size
def Rect.subD (r : Rect ℚ) (p : Point ℚ) : Rect ℚ := fromCenterAndSizeD ⟨fl (r.centerD.y - p.y), fl (r.centerD.x - p.x)⟩ r.size

/-! ### Doubles -/

/-- A double: at most 53 binary digits. -/
def Dbl (q : ℚ) : Prop := ∃ z k : ℤ, |z| ≤ 2 ^ 53 ∧ q = z * 2 ^ k

theorem dbl_zero : Dbl 0 := ⟨0, 0, by norm_num, by norm_num⟩

theorem round_nearest (x : ℚ) (z : ℤ) : |(roundHalfEven x : ℚ) - x| ≤ |(z : ℚ) - x| := by
  by_cases h : roundHalfEven x = z
  · rw [h]
  · have h1 := roundHalfEven_near x
    have h2 : (1 : ℚ) ≤ |(roundHalfEven x : ℚ) - z| := by
      exact_mod_cast Int.one_le_abs (sub_ne_zero.2 h)
    have h3 : |(roundHalfEven x : ℚ) - z| ≤ |(roundHalfEven x : ℚ) - x| + |(z : ℚ) - x| := by
      rw [abs_sub_comm (z : ℚ) x]
      exact abs_sub_le _ _ _
    linarith

theorem log2_bounds {x : ℚ} (h : x ≠ 0) : (2 : ℚ) ^ Int.log 2 |x| ≤ |x| ∧ |x| < 2 ^ (Int.log 2 |x| + 1) := by
  have h1 := Int.zpow_log_le_self (b := 2) (by norm_num) (abs_pos.2 h)
  have h2 := Int.lt_zpow_succ_log_self (b := 2) (by norm_num) |x|
  push_cast at h1 h2
  exact ⟨h1, h2⟩

theorem fl_dbl (x : ℚ) : Dbl (fl x) := by
  rw [fl]
  by_cases h : x = 0
  · rw [if_pos h]; exact dbl_zero
  · rw [if_neg h]
    refine ⟨_, _, ?_, rfl⟩
    obtain ⟨-, h2⟩ := log2_bounds h
    have hu : (0 : ℚ) < 2 ^ (Int.log 2 |x| - 52) := zpow_pos (by norm_num) _
    have h3 : |x / 2 ^ (Int.log 2 |x| - 52)| < 2 ^ 53 := by
      rw [abs_div, abs_of_pos hu, div_lt_iff₀ hu]
      refine h2.trans_eq ?_
      rw [show Int.log 2 |x| + 1 = 53 + (Int.log 2 |x| - 52) by ring, zpow_add₀ (by norm_num)]
      norm_num
    have h4 := round_nearest (x / 2 ^ (Int.log 2 |x| - 52)) 
    rw [abs_lt] at h3
    have h5 := h4 (2 ^ 53)
    have h6 := h4 (-2 ^ 53)
    push_cast at h5 h6
    generalize x / 2 ^ (Int.log 2 |x| - 52) = y at *
    have h7 : ((roundHalfEven y : ℤ) : ℚ) ≤ 2 ^ 53 := by
      rw [abs_of_nonneg (a := (9007199254740992 : ℚ) - y) (by linarith)] at h5
      linarith [(abs_le.1 h5).2]
    have h8 : -2 ^ 53 ≤ ((roundHalfEven y : ℤ) : ℚ) := by
      rw [abs_of_nonpos (a := -(9007199254740992 : ℚ) - y) (by linarith)] at h6
      linarith [(abs_le.1 h6).1]
    rw [abs_le]
    exact ⟨by exact_mod_cast h8, by exact_mod_cast h7⟩

/-- Rounding gives a double to which no other double is nearer. -/
theorem fl_nearest (x q : ℚ) (hq : Dbl q) : |fl x - x| ≤ |q - x| := by
  by_cases h : x = 0
  · subst h; rw [fl_zero]; simp
  obtain ⟨h1, -⟩ := log2_bounds h
  have hu : (0 : ℚ) < 2 ^ (Int.log 2 |x| - 52) := zpow_pos (by norm_num) _
  have key : ∀ n : ℤ, |fl x - x| ≤ |(n : ℚ) * 2 ^ (Int.log 2 |x| - 52) - x| := by
    intro n
    have e : ∀ m : ℤ, (m : ℚ) * 2 ^ (Int.log 2 |x| - 52) - x =
        ((m : ℚ) - x / 2 ^ (Int.log 2 |x| - 52)) * 2 ^ (Int.log 2 |x| - 52) := by
      intro m
      rw [sub_mul, div_mul_cancel₀ _ hu.ne']
    rw [fl, if_neg h, e, e, abs_mul, abs_mul]
    exact mul_le_mul_of_nonneg_right (round_nearest _ _) (abs_nonneg _)
  obtain ⟨z, k, hz, rfl⟩ := hq
  rcases le_or_gt (Int.log 2 |x| - 52) k with hk | hk
  · obtain ⟨n, hn⟩ := Int.eq_ofNat_of_zero_le (sub_nonneg.2 hk)
    have := key (z * 2 ^ n)
    push_cast at this
    rwa [mul_assoc, ← zpow_natCast (2 : ℚ) n, ← zpow_add₀ (by norm_num),
      show ((n : ℕ) : ℤ) + (Int.log 2 |x| - 52) = k by omega] at this
  · have h3 : (2 : ℚ) ^ 52 * 2 ^ (Int.log 2 |x| - 52) = 2 ^ Int.log 2 |x| := by
      rw [← zpow_natCast (2 : ℚ) 52, ← zpow_add₀ (by norm_num)]
      congr 1
      push_cast
      ring
    have h4 : |(z : ℚ) * 2 ^ k| ≤ 2 ^ Int.log 2 |x| := by
      rw [abs_mul, abs_of_pos (zpow_pos (by norm_num : (0 : ℚ) < 2) k)]
      have hz' : |(z : ℚ)| ≤ 2 ^ 53 := by exact_mod_cast hz
      calc |(z : ℚ)| * 2 ^ k ≤ 2 ^ 53 * 2 ^ k := mul_le_mul_of_nonneg_right hz' (zpow_pos (by norm_num) k).le
        _ = 2 ^ (k + 53) := by rw [zpow_add₀ (by norm_num)]; norm_num; ring
        _ ≤ 2 ^ Int.log 2 |x| := zpow_le_zpow_right₀ (by norm_num) (by omega)
    have h5 : |x| - |(z : ℚ) * 2 ^ k| ≤ |(z : ℚ) * 2 ^ k - x| := by
      rw [abs_sub_comm]
      exact abs_sub_abs_le_abs_sub _ _
    norm_num at h3
    rcases lt_or_gt_of_ne h with hn | hp
    · have h6 := key (-2 ^ 52)
      push_cast at h6
      rw [neg_mul, h3] at h6
      rw [abs_of_neg hn] at *
      rw [abs_of_nonneg (a := -2 ^ Int.log 2 (-x) - x) (by linarith)] at h6
      linarith
    · have h6 := key (2 ^ 52)
      push_cast at h6
      rw [h3] at h6
      rw [abs_of_pos hp] at *
      rw [abs_of_nonpos (a := 2 ^ Int.log 2 x - x) (by linarith)] at h6
      linarith

theorem fl_of_dbl {q : ℚ} (h : Dbl q) : fl q = q := by
  have := fl_nearest q q h
  rw [sub_self, abs_zero, abs_nonpos_iff, sub_eq_zero] at this
  exact this

theorem fl_mono {x y : ℚ} (h : x ≤ y) : fl x ≤ fl y := by
  rcases h.eq_or_lt with rfl | h
  · exact le_refl _
  by_contra hlt
  rw [not_le] at hlt
  have h1 := fl_nearest x _ (fl_dbl y)
  have h2 := fl_nearest y _ (fl_dbl x)
  rcases abs_cases (fl x - x) with ⟨e1, c1⟩ | ⟨e1, c1⟩ <;> rcases abs_cases (fl y - x) with ⟨e2, c2⟩ | ⟨e2, c2⟩ <;>
    rcases abs_cases (fl y - y) with ⟨e3, c3⟩ | ⟨e3, c3⟩ <;> rcases abs_cases (fl x - y) with ⟨e4, c4⟩ | ⟨e4, c4⟩ <;> linarith

theorem dbl_max {a b : ℚ} (ha : Dbl a) (hb : Dbl b) : Dbl (max a b) := by
  rcases max_choice a b with h | h <;> rw [h] <;> assumption

theorem dbl_min {a b : ℚ} (ha : Dbl a) (hb : Dbl b) : Dbl (min a b) := by
  rcases min_choice a b with h | h <;> rw [h] <;> assumption

theorem dbl_half {a : ℚ} (ha : Dbl a) : Dbl (a * (1 / 2)) := by
  obtain ⟨z, k, hz, rfl⟩ := ha
  refine ⟨z, k - 1, hz, ?_⟩
  rw [zpow_sub₀ (by norm_num)]
  ring

theorem dbl_double {a : ℚ} (ha : Dbl a) : Dbl (2 * a) := by
  obtain ⟨z, k, hz, rfl⟩ := ha
  refine ⟨z, k + 1, hz, ?_⟩
  rw [zpow_add₀ (by norm_num)]
  ring

/-- The difference of two doubles which is not larger than either of them is a double. -/
theorem dbl_sub {l r : ℚ} (hl : Dbl l) (hr : Dbl r) (h1 : |r - l| ≤ |l|) (h2 : |r - l| ≤ |r|) : Dbl (r - l) := by
  obtain ⟨z, k, hz, rfl⟩ := hl
  obtain ⟨w, m, hw, rfl⟩ := hr
  have aux : ∀ (a b : ℤ), a ≤ b → ∃ n : ℕ, (2 : ℚ) ^ b = 2 ^ n * 2 ^ a := by
    intro a b hab
    obtain ⟨n, hn⟩ := Int.eq_ofNat_of_zero_le (sub_nonneg.2 hab)
    refine ⟨n, ?_⟩
    rw [← zpow_natCast (2 : ℚ) n, ← zpow_add₀ (by norm_num)]
    congr 1
    omega
  have hk : (0 : ℚ) < 2 ^ k := zpow_pos (by norm_num) _
  have hm : (0 : ℚ) < 2 ^ m := zpow_pos (by norm_num) _
  rcases le_total k m with h | h
  · obtain ⟨n, hn⟩ := aux k m h
    have e : (w : ℚ) * 2 ^ m - z * 2 ^ k = ((w * 2 ^ n - z : ℤ) : ℚ) * 2 ^ k := by rw [hn]; push_cast; ring
    refine ⟨w * 2 ^ n - z, k, ?_, e⟩
    rw [e, abs_mul, abs_mul, abs_of_pos hk, mul_le_mul_iff_left₀ hk] at h1
    exact le_trans (by exact_mod_cast h1) hz
  · obtain ⟨n, hn⟩ := aux m k h
    have e : (w : ℚ) * 2 ^ m - z * 2 ^ k = ((w - z * 2 ^ n : ℤ) : ℚ) * 2 ^ m := by rw [hn]; push_cast; ring
    refine ⟨w - z * 2 ^ n, m, ?_, e⟩
    rw [e, abs_mul, abs_mul, abs_of_pos hm, mul_le_mul_iff_left₀ hm] at h2
    exact le_trans (by exact_mod_cast h2) hw

/-! ### C133: for all doubles -/

/-- The numbers of a point or rectangle are doubles. -/
def Point.Dbl (p : Point ℚ) : Prop := Geometry.Dbl p.y ∧ Geometry.Dbl p.x
def Rect.Dbl (r : Rect ℚ) : Prop := r.origin.Dbl ∧ Geometry.Dbl r.size.height ∧ Geometry.Dbl r.size.width

/-- C133: a point `contains_point` accepts is in the exact rectangle; a point of the exact rectangle is accepted unless it is on the
rounded right or bottom side. -/
theorem C133_contains (r : Rect ℚ) (p : Point ℚ) (hp : p.Dbl) :
    (r.containsPointD p = true → r.Has p) ∧ (r.Has p → r.containsPointD p = true ∨ p.x = r.rightD ∨ p.y = r.bottomD) := by
  have key : ∀ {x s : ℚ}, Dbl x → (x < fl s → x < s) ∧ (x < s → x ≤ fl s) := by
    intro x s hx
    constructor
    · intro h
      by_contra hs
      have := fl_mono (not_lt.1 hs)
      rw [fl_of_dbl hx] at this
      linarith
    · intro h
      have := fl_mono h.le
      rwa [fl_of_dbl hx] at this
  simp only [Rect.containsPointD, Rect.Has, Bool.and_eq_true, decide_eq_true_eq, ge_iff_le]
  rw [Rect.rightD, Rect.bottomD]
  constructor
  · rintro ⟨⟨⟨h1, h2⟩, h3⟩, h4⟩
    exact ⟨h3, (key hp.1).1 h4, h1, (key hp.2).1 h2⟩
  · rintro ⟨h1, h2, h3, h4⟩
    rcases ((key hp.2).2 h4).lt_or_eq with h5 | h5
    · rcases ((key hp.1).2 h2).lt_or_eq with h6 | h6
      · exact .inl ⟨⟨⟨h3, h5⟩, h1⟩, h6⟩
      · exact .inr (.inr h6)
    · exact .inr (.inl h5)

/-- C133: `intersects_rect` finds every pair of rectangles that share a point, sides included. -/
theorem C133_intersects (a b : Rect ℚ) (ha : a.Dbl) (hb : b.Dbl) (p : Point ℚ) (h1 : a.HasClosed p) (h2 : b.HasClosed p) :
    a.intersectsRectD b = true := by
  obtain ⟨a1, a2, a3, a4⟩ := h1
  obtain ⟨b1, b2, b3, b4⟩ := h2
  have e1 := fl_mono (a3.trans b4)
  have e2 := fl_mono (b3.trans a4)
  have e3 := fl_mono (a1.trans b2)
  have e4 := fl_mono (b1.trans a2)
  rw [fl_of_dbl ha.1.2] at e1
  rw [fl_of_dbl hb.1.2] at e2
  rw [fl_of_dbl ha.1.1] at e3
  rw [fl_of_dbl hb.1.1] at e4
  simp only [Rect.intersectsRectD, Rect.rightD, Rect.bottomD, gt_iff_lt, not_lt.2 e1, not_lt.2 e2, not_lt.2 e3, not_lt.2 e4]
  simp

/-- The side computed from a difference. -/
theorem side_near (l r : ℚ) : |fl (l + fl (r - l)) - r| ≤ (|l| + |r|) / 2 ^ 51 := by
  have h1 := fl_near (r - l)
  have h2 := fl_near (l + fl (r - l))
  have h3 : |r - l| ≤ |l| + |r| := by
    have := abs_sub r l
    linarith
  have h4 : |l + fl (r - l)| ≤ |r| + |fl (r - l) - (r - l)| := by
    calc |l + fl (r - l)| = |r + (fl (r - l) - (r - l))| := by ring_nf
      _ ≤ _ := abs_add_le _ _
  have h5 : |fl (l + fl (r - l)) - r| ≤ |fl (l + fl (r - l)) - (l + fl (r - l))| + |fl (r - l) - (r - l)| := by
    calc |fl (l + fl (r - l)) - r| = |(fl (l + fl (r - l)) - (l + fl (r - l))) + (fl (r - l) - (r - l))| := by ring_nf
      _ ≤ _ := abs_add_le _ _
  have h6 := abs_nonneg l
  have h7 := abs_nonneg r
  norm_num at h1 h2 ⊢
  linarith

/-- C133: `from_tlbr` gives exactly the top and left asked for, and the bottom and right up to a relative error. -/
theorem C133_tlbr (t l b r : ℚ) :
    let q := Rect.fromTLBRD t l b r
    q.origin = ⟨t, l⟩ ∧ |q.bottomD - b| ≤ (|t| + |b|) / 2 ^ 51 ∧ |q.rightD - r| ≤ (|l| + |r|) / 2 ^ 51 :=
  ⟨rfl, side_near _ _, side_near _ _⟩

/-- C133: when the rectangle is not larger than the distances of its sides from zero, the sides are exactly the ones asked for. -/
theorem C133_tlbr_exact (t l b r : ℚ) (ht : Dbl t) (hl : Dbl l) (hb : Dbl b) (hr : Dbl r) (h1 : |b - t| ≤ |t| ∧ |b - t| ≤ |b|)
    (h2 : |r - l| ≤ |l| ∧ |r - l| ≤ |r|) :
    let q := Rect.fromTLBRD t l b r
    q = .fromTLBR t l b r ∧ q.bottomD = b ∧ q.rightD = r := by
  have e1 := fl_of_dbl (dbl_sub ht hb h1.1 h1.2)
  have e2 := fl_of_dbl (dbl_sub hl hr h2.1 h2.2)
  simp only [Rect.fromTLBRD, Rect.fromTLBR, Rect.bottomD, Rect.rightD, e1, e2, add_sub_cancel, fl_of_dbl hb, fl_of_dbl hr, and_self]

/-- How far the right and bottom of a rectangle can be off. -/
def Near (d x y : ℚ) : Prop := |x - y| ≤ d / 2 ^ 51

/-- C133: the union of two rectangles has every point of both which is not at its right or bottom side, and no side of it is further
out than rounding takes it. -/
theorem C133_union (a b : Rect ℚ) (p : Point ℚ) (h : a.containsPointD p = true ∨ b.containsPointD p = true) :
    let q := a.unionD b
    q.containsPointD p = true ∨ (q.rightD ≤ p.x ∧ Near (|min a.origin.x b.origin.x| + |max a.rightD b.rightD|) p.x q.rightD) ∨
      (q.bottomD ≤ p.y ∧ Near (|min a.origin.y b.origin.y| + |max a.bottomD b.bottomD|) p.y q.bottomD) := by
  intro q
  obtain ⟨h0, h1, h2⟩ := C133_tlbr (min a.origin.y b.origin.y) (min a.origin.x b.origin.x) (max a.bottomD b.bottomD)
    (max a.rightD b.rightD)
  have hx : min a.origin.x b.origin.x ≤ p.x ∧ p.x < max a.rightD b.rightD ∧ min a.origin.y b.origin.y ≤ p.y ∧
      p.y < max a.bottomD b.bottomD := by
    simp only [Rect.containsPointD, Bool.and_eq_true, decide_eq_true_eq, ge_iff_le] at h
    rw [min_le_iff, min_le_iff, lt_max_iff, lt_max_iff]
    tauto
  obtain ⟨x1, x2, x3, x4⟩ := hx
  change |q.bottomD - _| ≤ _ at h1
  change |q.rightD - _| ≤ _ at h2
  have hq1 : q.origin.x = min a.origin.x b.origin.x := rfl
  have hq2 : q.origin.y = min a.origin.y b.origin.y := rfl
  simp only [Rect.containsPointD, Bool.and_eq_true, decide_eq_true_eq, ge_iff_le, hq1, hq2]
  rcases lt_or_ge p.x q.rightD with c1 | c1
  · rcases lt_or_ge p.y q.bottomD with c2 | c2
    · exact .inl ⟨⟨⟨x1, c1⟩, x3⟩, c2⟩
    · refine .inr (.inr ⟨c2, ?_⟩)
      rw [Near, abs_of_nonneg (by linarith)]
      linarith [(abs_le.1 h1).1]
  · refine .inr (.inl ⟨c1, ?_⟩)
    rw [Near, abs_of_nonneg (by linarith)]
    linarith [(abs_le.1 h2).1]

/-- C133: the intersection of two rectangles has every point of both that is not at its right or bottom side; a point of it is in both
or at the right or bottom side of one of them. -/
theorem C133_intersect (a b : Rect ℚ) (p : Point ℚ) :
    let q := a.intersectD b
    let ex := |max a.origin.x b.origin.x| + |min a.rightD b.rightD|
    let ey := |max a.origin.y b.origin.y| + |min a.bottomD b.bottomD|
    (a.containsPointD p = true → b.containsPointD p = true →
      q.containsPointD p = true ∨ q.rightD ≤ p.x ∧ Near ex p.x q.rightD ∨ q.bottomD ≤ p.y ∧ Near ey p.y q.bottomD) ∧
    (q.containsPointD p = true → a.containsPointD p = true ∧ b.containsPointD p = true ∨
      min a.rightD b.rightD ≤ p.x ∧ Near ex p.x (min a.rightD b.rightD) ∨
      min a.bottomD b.bottomD ≤ p.y ∧ Near ey p.y (min a.bottomD b.bottomD)) := by
  intro q ex ey
  obtain ⟨h0, h1, h2⟩ := C133_tlbr (max a.origin.y b.origin.y) (max a.origin.x b.origin.x) (min a.bottomD b.bottomD)
    (min a.rightD b.rightD)
  change |q.bottomD - _| ≤ ey / 2 ^ 51 at h1
  change |q.rightD - _| ≤ ex / 2 ^ 51 at h2
  have hq1 : q.origin.x = max a.origin.x b.origin.x := rfl
  have hq2 : q.origin.y = max a.origin.y b.origin.y := rfl
  rw [abs_le] at h1 h2
  simp only [Rect.containsPointD, Bool.and_eq_true, decide_eq_true_eq, ge_iff_le, hq1, hq2, max_le_iff]
  constructor
  · rintro ⟨⟨⟨a1, a2⟩, a3⟩, a4⟩ ⟨⟨⟨b1, b2⟩, b3⟩, b4⟩
    have m1 := lt_min a2 b2
    have m2 := lt_min a4 b4
    rcases lt_or_ge p.x q.rightD with c1 | c1
    · rcases lt_or_ge p.y q.bottomD with c2 | c2
      · exact .inl ⟨⟨⟨⟨a1, b1⟩, c1⟩, ⟨a3, b3⟩⟩, c2⟩
      · refine .inr (.inr ⟨c2, ?_⟩)
        rw [Near, abs_of_nonneg (by linarith)]
        linarith
    · refine .inr (.inl ⟨c1, ?_⟩)
      rw [Near, abs_of_nonneg (by linarith)]
      linarith
  · rintro ⟨⟨⟨⟨a1, b1⟩, c1⟩, ⟨a3, b3⟩⟩, c2⟩
    rcases lt_or_ge p.x (min a.rightD b.rightD) with d1 | d1
    · rcases lt_or_ge p.y (min a.bottomD b.bottomD) with d2 | d2
      · rw [lt_min_iff] at d1 d2
        exact .inl ⟨⟨⟨⟨a1, d1.1⟩, a3⟩, d2.1⟩, ⟨⟨b1, d1.2⟩, b3⟩, d2.2⟩
      · refine .inr (.inr ⟨d2, ?_⟩)
        rw [Near, abs_of_nonneg (by linarith)]
        linarith
    · refine .inr (.inl ⟨d1, ?_⟩)
      rw [Near, abs_of_nonneg (by linarith)]
      linarith

/-- C133: the centre of a rectangle is never outside its sides. -/
theorem C133_center (r : Rect ℚ) (hr : r.Dbl) (h1 : 0 ≤ r.size.height) (h2 : 0 ≤ r.size.width) :
    r.origin.y ≤ r.centerD.y ∧ r.centerD.y ≤ r.bottomD ∧ r.origin.x ≤ r.centerD.x ∧ r.centerD.x ≤ r.rightD := by
  have key : ∀ o s : ℚ, Dbl o → 0 ≤ s → o ≤ fl (fl (o + fl (o + s)) * (1 / 2)) ∧ fl (fl (o + fl (o + s)) * (1 / 2)) ≤ fl (o + s) := by
    intro o s ho hs
    have h3 : o ≤ fl (o + s) := by
      have := fl_mono (show o ≤ o + s by linarith)
      rwa [fl_of_dbl ho] at this
    have h4 := fl_mono (show 2 * o ≤ o + fl (o + s) by linarith)
    have h5 := fl_mono (show o + fl (o + s) ≤ 2 * fl (o + s) by linarith)
    rw [fl_of_dbl (dbl_double ho)] at h4
    rw [fl_of_dbl (dbl_double (fl_dbl _))] at h5
    rw [fl_of_dbl (dbl_half (fl_dbl _))]
    constructor <;> linarith
  exact ⟨(key _ _ hr.1.1 h1).1, (key _ _ hr.1.1 h1).2, (key _ _ hr.1.2 h2).1, (key _ _ hr.1.2 h2).2⟩

/-! ### C133: on a grid -/

/-- Multiples of `1 / 2^k`, at most `2^50` of them. -/
def Grid (k : ℕ) (v : ℚ) : Prop := ∃ z : ℤ, |z| ≤ 2 ^ 50 ∧ v = z / 2 ^ k

def Point.OnGrid (k : ℕ) (p : Point ℚ) : Prop := Grid k p.y ∧ Grid k p.x
def Size.OnGrid (k : ℕ) (s : Size ℚ) : Prop := Grid k s.height ∧ Grid k s.width
def Rect.OnGrid (k : ℕ) (r : Rect ℚ) : Prop := r.origin.OnGrid k ∧ r.size.OnGrid k

/-- A multiple of `1 / 2^k`, at most `n` of them. -/
def Within (k : ℕ) (n : ℤ) (v : ℚ) : Prop := ∃ z : ℤ, |z| ≤ n ∧ v = z / 2 ^ k

theorem Within.add {k : ℕ} {n m : ℤ} {v w : ℚ} (h : Within k n v) (h' : Within k m w) : Within k (n + m) (v + w) := by
  obtain ⟨z, hz, rfl⟩ := h
  obtain ⟨y, hy, rfl⟩ := h'
  exact ⟨z + y, (abs_add_le _ _).trans (add_le_add hz hy), by push_cast; ring⟩

theorem Within.sub {k : ℕ} {n m : ℤ} {v w : ℚ} (h : Within k n v) (h' : Within k m w) : Within k (n + m) (v - w) := by
  obtain ⟨z, hz, rfl⟩ := h
  obtain ⟨y, hy, rfl⟩ := h'
  refine ⟨z - y, ?_, by push_cast; ring⟩
  rw [abs_le] at *
  constructor <;> linarith [hz.1, hz.2, hy.1, hy.2]

theorem Within.half {k : ℕ} {n : ℤ} {v : ℚ} (h : Within k n v) : Within (k + 1) n (v * (1 / 2)) := by
  obtain ⟨z, hz, rfl⟩ := h
  exact ⟨z, hz, by rw [pow_succ]; field_simp⟩

theorem Within.fine {k : ℕ} {n : ℤ} {v : ℚ} (h : Within k n v) : Within (k + 1) (2 * n) v := by
  obtain ⟨z, hz, rfl⟩ := h
  refine ⟨2 * z, by rw [abs_mul]; norm_num; exact hz, ?_⟩
  push_cast
  rw [pow_succ]
  field_simp

theorem Within.mono {k : ℕ} {n m : ℤ} {v : ℚ} (h : Within k n v) (hm : n ≤ m) : Within k m v := by
  obtain ⟨z, hz, rfl⟩ := h
  exact ⟨z, hz.trans hm, rfl⟩

theorem Within.max {k : ℕ} {n : ℤ} {v w : ℚ} (h : Within k n v) (h' : Within k n w) : Within k n (max v w) := by
  rcases max_choice v w with e | e <;> rw [e] <;> assumption

theorem Within.min {k : ℕ} {n : ℤ} {v w : ℚ} (h : Within k n v) (h' : Within k n w) : Within k n (min v w) := by
  rcases min_choice v w with e | e <;> rw [e] <;> assumption

theorem Within.fl {k : ℕ} {n : ℤ} {v : ℚ} (h : Within k n v) (hn : n ≤ 2 ^ 53) : Verif.Converter.fl v = v := by
  obtain ⟨z, hz, rfl⟩ := h
  exact fl_scaled (hz.trans hn)

variable {k : ℕ} {a b : Rect ℚ}

theorem OnGrid.right (h : a.OnGrid k) : Within k (2 ^ 51) a.right ∧ a.rightD = a.right := by
  have := Within.add h.1.2 h.2.2
  exact ⟨this.mono (by norm_num), this.fl (by norm_num)⟩

theorem OnGrid.bottom (h : a.OnGrid k) : Within k (2 ^ 51) a.bottom ∧ a.bottomD = a.bottom := by
  have := Within.add h.1.1 h.2.1
  exact ⟨this.mono (by norm_num), this.fl (by norm_num)⟩

theorem OnGrid.center (h : a.OnGrid k) :
    Within (k + 1) (2 ^ 51 + 2 ^ 50) a.center.y ∧ Within (k + 1) (2 ^ 51 + 2 ^ 50) a.center.x ∧ a.centerD = a.center := by
  have h1 := Within.add h.1.1 (OnGrid.bottom h).1
  have h2 := Within.add h.1.2 (OnGrid.right h).1
  refine ⟨h1.half.mono (by norm_num), h2.half.mono (by norm_num), ?_⟩
  ext
  · rw [Rect.centerD, (OnGrid.bottom h).2]
    change fl (fl (a.origin.y + a.bottom) * (1 / 2)) = (a.origin.y + a.bottom) * (1 / 2)
    rw [h1.fl (by norm_num), h1.half.fl (by norm_num)]
  · rw [Rect.centerD, (OnGrid.right h).2]
    change fl (fl (a.origin.x + a.right) * (1 / 2)) = (a.origin.x + a.right) * (1 / 2)
    rw [h2.fl (by norm_num), h2.half.fl (by norm_num)]

theorem OnGrid.fromCenter {n : ℤ} {c : Point ℚ} {s : Size ℚ} (hc : Within (k + 1) n c.y ∧ Within (k + 1) n c.x) (hs : s.OnGrid k)
    (hn : n ≤ 2 ^ 52 + 2 ^ 50) : fromCenterAndSizeD c s = fromCenterAndSize c s := by
  have h1 := Within.sub hc.1 (Within.half hs.1)
  have h2 := Within.sub hc.2 (Within.half hs.2)
  have e1 := (Within.half hs.1).fl (by norm_num)
  have e2 := (Within.half hs.2).fl (by norm_num)
  simp only [fromCenterAndSizeD, fromCenterAndSize, Point.subSize]
  rw [e1, e2, h1.fl (by linarith), h2.fl (by linarith)]

/-- C133: when all numbers are multiples of a power of two and not too large (pixels, halves or quarters of pixels), nothing is rounded:
every operation gives what exact arithmetic gives. Missing: other numbers, see the counterexamples. -/
theorem C133_grid_partial (ha : a.OnGrid k) (hb : b.OnGrid k) (p : Point ℚ) (hp : p.OnGrid k) (dx dy : ℚ) (hx : Grid k dx)
    (hy : Grid k dy) (s : Size ℚ) (hs : s.OnGrid k) (q : Point ℚ) :
    a.rightD = a.right ∧ a.bottomD = a.bottom ∧ a.centerD = a.center ∧ a.containsPointD q = a.containsPoint q ∧
      a.intersectsRectD b = a.intersectsRect b ∧ a.intersectD b = a.intersect b ∧ a.unionD b = a.union b ∧
      a.translatedD p = a.translated p ∧ a.insetD dx dy = a.inset dx dy ∧ fromCenterAndSizeD p s = fromCenterAndSize p s ∧
      a.addD p = a.add p ∧ a.subD p = a.sub p := by
  obtain ⟨ra, ea⟩ := OnGrid.right ha
  obtain ⟨rb, eb⟩ := OnGrid.right hb
  obtain ⟨ba, fa⟩ := OnGrid.bottom ha
  obtain ⟨bb, fb⟩ := OnGrid.bottom hb
  obtain ⟨cy, cx, ec⟩ := OnGrid.center ha
  have g : ∀ {v : ℚ}, Grid k v → Within k (2 ^ 50) v := id
  have gf : ∀ {v : ℚ}, Grid k v → Within (k + 1) (2 ^ 51) v := fun h => (Within.fine (g h)).mono (by norm_num)
  refine ⟨ea, fa, ec, ?_, ?_, ?_, ?_, ?_, ?_, ?_, ?_, ?_⟩
  · simp only [Rect.containsPointD, Rect.containsPoint, ea, fa]
  · simp only [Rect.intersectsRectD, Rect.intersectsRect, ea, fa, eb, fb]
  · simp only [Rect.intersectD, Rect.intersect, Rect.fromTLBRD, Rect.fromTLBR, ea, fa, eb, fb]
    rw [(Within.sub (ba.min bb) (Within.max (g ha.1.1) (g hb.1.1))).fl (by norm_num),
      (Within.sub (ra.min rb) (Within.max (g ha.1.2) (g hb.1.2))).fl (by norm_num)]
  · simp only [Rect.unionD, Rect.union, Rect.fromTLBRD, Rect.fromTLBR, ea, fa, eb, fb]
    rw [(Within.sub (ba.max bb) (Within.min (g ha.1.1) (g hb.1.1))).fl (by norm_num),
      (Within.sub (ra.max rb) (Within.min (g ha.1.2) (g hb.1.2))).fl (by norm_num)]
  · simp only [Rect.translatedD, Rect.translated, Point.add]
    rw [(Within.add (g ha.1.1) (g hp.1)).fl (by norm_num), (Within.add (g ha.1.2) (g hp.2)).fl (by norm_num)]
  · have dbl : ∀ {v : ℚ}, Grid k v → Within k (2 ^ 51) (v * 2) := fun {v} h => by
      rw [mul_two]
      exact (Within.add (g h) (g h)).mono (by norm_num)
    simp only [Rect.insetD, Rect.inset]
    rw [(Within.add (g ha.1.1) (g hy)).fl (by norm_num), (Within.add (g ha.1.2) (g hx)).fl (by norm_num),
      (dbl hy).fl (by norm_num), (dbl hx).fl (by norm_num),
      (Within.sub (g ha.2.1) (dbl hy)).fl (by norm_num), (Within.sub (g ha.2.2) (dbl hx)).fl (by norm_num)]
  · exact OnGrid.fromCenter ⟨gf hp.1, gf hp.2⟩ hs (by norm_num)
  · have h1 := Within.add cy (gf hp.1)
    have h2 := Within.add cx (gf hp.2)
    simp only [Rect.addD, Rect.add, ec]
    rw [h1.fl (by norm_num), h2.fl (by norm_num)]
    exact OnGrid.fromCenter (n := 2 ^ 51 + 2 ^ 50 + 2 ^ 51) ⟨h1, h2⟩ ha.2 (by norm_num)
  · have h1 := Within.sub cy (gf hp.1)
    have h2 := Within.sub cx (gf hp.2)
    simp only [Rect.subD, Rect.sub, ec]
    rw [h1.fl (by norm_num), h2.fl (by norm_num)]
    exact OnGrid.fromCenter (n := 2 ^ 51 + 2 ^ 50 + 2 ^ 51) ⟨h1, h2⟩ ha.2 (by norm_num)

/-- C133: so, on the grid, a point is in the intersection of two rectangles exactly if it is in both, and the union has the points of
both. -/
theorem C133_points_partial (ha : a.OnGrid k) (hb : b.OnGrid k) (p : Point ℚ) :
    ((a.intersectD b).containsPointD p = true ↔ a.containsPointD p = true ∧ b.containsPointD p = true) ∧
      (a.containsPointD p = true ∨ b.containsPointD p = true → (a.unionD b).containsPointD p = true) := by
  obtain ⟨ra, ea⟩ := OnGrid.right ha
  obtain ⟨rb, eb⟩ := OnGrid.right hb
  obtain ⟨ba, fa⟩ := OnGrid.bottom ha
  obtain ⟨bb, fb⟩ := OnGrid.bottom hb
  have z : Grid k 0 := ⟨0, by norm_num, by simp⟩
  obtain ⟨-, -, -, ca, -, hi, hu, -⟩ := C133_grid_partial ha hb ⟨0, 0⟩ ⟨z, z⟩ 0 0 z z ⟨0, 0⟩ ⟨z, z⟩ p
  obtain ⟨-, -, -, cb, -⟩ := C133_grid_partial hb ha ⟨0, 0⟩ ⟨z, z⟩ 0 0 z z ⟨0, 0⟩ ⟨z, z⟩ p
  have same : ∀ r : Rect ℚ, Within k (2 ^ 51) r.right → Within k (2 ^ 51) r.bottom → r.containsPointD p = r.containsPoint p := by
    intro r h1 h2
    have e1 : r.rightD = r.right := h1.fl (by norm_num)
    have e2 : r.bottomD = r.bottom := h2.fl (by norm_num)
    simp only [Rect.containsPointD, Rect.containsPoint, e1, e2]
  rw [hi, hu, ca, cb, same (a.intersect b), same (a.union b)]
  · exact ⟨C62_intersect a b p, C62_union a b p⟩
  · simp only [Rect.union, Rect.fromTLBR, Rect.right, add_sub_cancel]
    exact ra.max rb
  · simp only [Rect.union, Rect.fromTLBR, Rect.bottom, add_sub_cancel]
    exact ba.max bb
  · simp only [Rect.intersect, Rect.fromTLBR, Rect.right, add_sub_cancel]
    exact ra.min rb
  · simp only [Rect.intersect, Rect.fromTLBR, Rect.bottom, add_sub_cancel]
    exact ba.min bb

/-! ### C133: counterexamples -/

/-- C133, counterexample: the union of rectangles from 0.2 to 0.4 and from 0.5 to 0.9 ends before 0.9 and does not have a point of the
second one. -/
theorem C133_counterexample_union :
    let a : Rect ℚ := ⟨⟨0, fl (1 / 2)⟩, ⟨1, fl (4 / 10)⟩⟩
    let b : Rect ℚ := ⟨⟨0, fl (2 / 10)⟩, ⟨1, fl (2 / 10)⟩⟩
    let p : Point ℚ := ⟨0, (a.unionD b).rightD⟩
    p.Dbl ∧ a.rightD = fl (9 / 10) ∧ a.containsPointD p = true ∧ (a.unionD b).containsPointD p = false :=
  ⟨⟨dbl_zero, fl_dbl _⟩, by decide +kernel, by decide +kernel, by decide +kernel⟩

/-- C133, counterexample: the intersection of rectangles from 0 to 0.9 and from 0.3 to 5.3 has the point at 0.9, which the first one does
not have. -/
theorem C133_counterexample_intersect :
    let a : Rect ℚ := ⟨⟨0, 0⟩, ⟨1, fl (9 / 10)⟩⟩
    let b : Rect ℚ := ⟨⟨0, fl (3 / 10)⟩, ⟨1, 5⟩⟩
    let p : Point ℚ := ⟨0, fl (9 / 10)⟩
    (a.intersectD b).containsPointD p = true ∧ a.containsPointD p = false := by
  decide +kernel

/-- C133, counterexample: rectangles that have no point in common, found to intersect: from 0.1 with a width of 0.3, and from 0.4. -/
theorem C133_counterexample_intersects :
    let a : Rect ℚ := ⟨⟨0, fl (1 / 10)⟩, ⟨1, fl (3 / 10)⟩⟩
    let b : Rect ℚ := ⟨⟨0, fl (4 / 10)⟩, ⟨1, 1⟩⟩
    a.intersectsRectD b = true ∧ ∀ p, ¬ (a.HasClosed p ∧ b.HasClosed p) := by
  refine ⟨by decide +kernel, ?_⟩
  rintro p ⟨⟨-, -, -, h1⟩, -, -, h2, -⟩
  have h3 : fl (1 / 10) + fl (3 / 10) < fl (4 / 10) := by decide +kernel
  exact absurd (h2.trans h1) (not_le.2 h3)

/-- C133, counterexample: moving there and back, and making a rectangle from its own centre and size, do not give the rectangle. -/
theorem C133_counterexample_back :
    let r : Rect ℚ := ⟨⟨0, fl (1 / 10)⟩, ⟨1, fl (5 / 10)⟩⟩
    (r.translatedD ⟨0, fl (2 / 10)⟩).translatedD ⟨0, -fl (2 / 10)⟩ ≠ r ∧ fromCenterAndSizeD r.centerD r.size ≠ r ∧
      r.addD ⟨0, 0⟩ ≠ r := by
  decide +kernel

/-! ### C133: examples -/

example : (Rect.unionD ⟨⟨0, 1 / 4⟩, ⟨1, 1 / 2⟩⟩ ⟨⟨2, -3⟩, ⟨1, 1⟩⟩) = ⟨⟨0, -3⟩, ⟨3, 15 / 4⟩⟩ := by decide +kernel

example : Rect.OnGrid 2 ⟨⟨0, 1 / 4⟩, ⟨1, 1 / 2⟩⟩ :=
  ⟨⟨⟨0, by norm_num, by norm_num⟩, ⟨1, by norm_num, by norm_num⟩⟩, ⟨⟨4, by norm_num, by norm_num⟩, ⟨2, by norm_num, by norm_num⟩⟩⟩

example : (Rect.fromTLBRD (fl (3 / 10)) (fl (7 / 10)) (fl (5 / 10)) (fl (9 / 10))).rightD = fl (9 / 10) := by decide +kernel

end Verif.Geometry
