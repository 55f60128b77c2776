import Verif.Converter.General
import Verif.Converter.Fixed
import Verif.Geometry.DistanceDoubles

/-!
Floats as they are displayed, over the whole range of double precision (`nion/utils/Converter.py`, `FloatToStringConverter`, lines 30-52,
with the default format `{:g}`), C159.

C131 rounds what is read to 53 binary digits whatever its exponent. Here the numbers are those of double precision (`Geometry.Flt`): none
has digits below 2^-1074, none is 2^1024 or more, and a text is read as the nearest (`Geometry.flS`). Not modelled: the sign of zero.
-/

namespace Verif.Converter

open Verif.Geometry

/-! ### The model -/

/-- `FloatToStringConverter.convert_back` of a text with a finite number (lines 48-52): `float` of the number of the text. -/
def readD (L : Loc) (s : List Char) : Option Fl := (fuzzyBack L s).map rnd

/-- `FloatToStringConverter.convert` (lines 44-46). -/
def textD : Fl → List Char
  | .fin q => formatG q
  | .inf false => ['i', 'n', 'f']
  | .inf true => ['-', 'i', 'n', 'f']

/-! ### The least numbers -/

/-- The least positive float. -/
def tiny : ℚ := 2 ^ (-1074 : ℤ)

theorem tiny_pos : 0 < tiny := two_pos' _

/-- The last digit of 9.99999e-319. -/
def small : ℚ := 10 ^ (-324 : ℤ)

theorem small_pos : 0 < small := zpow_pos (by norm_num) _

set_option exponentiation.threshold 2000 in
/-- How 10^-324 compares with it. -/
theorem tiny_ten : 20240225 / 10 ^ 8 * tiny < small ∧ small < 20240226 / 10 ^ 8 * tiny := by
  have h1 : (20240225 : ℚ) * 10 ^ 316 < 2 ^ 1074 := by
    have : (20240225 : ℕ) * 10 ^ 316 < 2 ^ 1074 := by decide +kernel
    exact_mod_cast this
  have h2 : (2 : ℚ) ^ 1074 < 20240226 * 10 ^ 316 := by
    have : (2 : ℕ) ^ 1074 < 20240226 * 10 ^ 316 := by decide +kernel
    exact_mod_cast this
  have ht : tiny = 1 / 2 ^ 1074 := by
    rw [tiny, zpow_neg, one_div]
    rfl
  have hT : small = 1 / (10 ^ 8 * 10 ^ 316) := by
    rw [small, zpow_neg, one_div, ← pow_add]
    rfl
  have p1 : (0 : ℚ) < 2 ^ 1074 := pow_pos (by norm_num) _
  have p2 : (0 : ℚ) < 10 ^ 316 := pow_pos (by norm_num) _
  rw [ht, hT]
  generalize (2 : ℚ) ^ 1074 = A at *
  generalize (10 : ℚ) ^ 316 = B at *
  constructor
  · rw [div_mul_div_comm, div_lt_div_iff₀ (by positivity) (by positivity)]
    nlinarith
  · rw [div_mul_div_comm, div_lt_div_iff₀ (by positivity) (by positivity)]
    nlinarith

theorem tiny_scale (k : ℤ) (n : ℕ) (h : k = n - 1074) : (2 : ℚ) ^ k = 2 ^ n * tiny := by
  rw [h, show ((n : ℤ) - 1074) = n + -1074 by ring, two_add, zpow_natCast, tiny]

theorem ten_scale (k : ℤ) (n : ℕ) (h : k = n - 324) : (10 : ℚ) ^ k = 10 ^ n * small := by
  rw [h, show ((n : ℤ) - 324) = n + -324 by ring, zpow_add₀ (by norm_num), zpow_natCast, small]

theorem small_eq : small = 10 ^ (-324 : ℤ) := rfl

attribute [local irreducible] small

theorem normal_big : 2 ^ 20 * tiny < (2 : ℚ) ^ (-1022 : ℤ) := by
  rw [← tiny_scale (-1054) 20 (by norm_num)]
  exact two_lt (by norm_num)

/-- The error of reading. -/
theorem flS_error (x : ℚ) : |flS x - x| ≤ max (tiny / 2) (|x| / 2 ^ 53) := by
  rw [flS]
  split_ifs with h
  · apply le_max_of_le_left
    have h1 := roundHalfEven_near (x / tiny)
    have h2 : (roundHalfEven (x / tiny) : ℚ) * tiny - x = ((roundHalfEven (x / tiny) : ℚ) - x / tiny) * tiny := by
      rw [sub_mul, div_mul_cancel₀ _ tiny_pos.ne']
    change |(roundHalfEven (x / tiny) : ℚ) * tiny - x| ≤ _
    rw [h2, abs_mul, abs_of_pos tiny_pos]
    have := mul_le_mul_of_nonneg_right h1 tiny_pos.le
    linarith
  · exact le_max_of_le_right (fl_near x)

theorem flS_small {x : ℚ} {z : ℤ} (h0 : |x| < 2 ^ (-1022 : ℤ)) (h : |x - z * tiny| < tiny / 2) : flS x = z * tiny := by
  rw [flS, if_pos h0]
  change (roundHalfEven (x / tiny) : ℚ) * tiny = _
  rw [roundHalfEven_eq (z := z)]
  have : x / tiny - z = (x - z * tiny) / tiny := by rw [sub_div, mul_div_cancel_right₀ _ tiny_pos.ne']
  rw [this, abs_div, abs_of_pos tiny_pos, div_lt_iff₀ tiny_pos]
  linarith

/-! ### The digits -/

theorem shown_neg (v : ℚ) : shown (-v) = -shown v := by
  have h6 : sixDigits (-v) = sixDigits v := by rw [sixDigits, sixDigits, abs_neg]
  rw [shown, shown, h6]
  rcases lt_trichotomy v 0 with h | h | h
  · rw [if_neg (by linarith : ¬ -v = 0), if_neg (by linarith : ¬ v = 0), if_neg (by linarith), if_pos h]
    ring
  · rw [if_pos (by linarith), if_pos h, neg_zero]
  · rw [if_neg (by linarith : ¬ -v = 0), if_neg (by linarith : ¬ v = 0), if_pos (by linarith), if_neg (by linarith)]
    ring

theorem shown_pos_eq {v : ℚ} (h : 0 < v) : shown v = (sixDigits v).1 * 10 ^ ((sixDigits v).2 - 5) := by
  rw [shown, if_neg h.ne', if_neg (not_lt.2 h.le), one_mul]

/-- Two texts are the same when their numbers are. -/
theorem formatG_eq_iff (v w : ℚ) : formatG w = formatG v ↔ shown w = shown v := by
  constructor
  · intro h
    have h1 := fuzzyBack_alone locC locC_ok w
    rw [h, fuzzyBack_alone locC locC_ok v, Option.some.injEq] at h1
    exact h1.symm
  · intro h
    have h1 : ∀ x, formatG (shown x) = formatG x := fun x => formatG_near (by
      rw [sub_self, abs_zero]
      positivity)
    rw [← h1 w, h, h1 v]

/-- A number that is as near to the digits has the same digits, if these are not a power of ten. -/
theorem sixDigits_closer {v w : ℚ} (hv : 0 < v) (hw : 0 < w) (h5 : (sixDigits v).1 ≠ 10 ^ 5) (h : |w - shown v| ≤ |v - shown v|) :
    sixDigits w = sixDigits v := by
  obtain ⟨s1, s2, -⟩ := sixDigits_spec hv.ne'
  obtain ⟨l1, l2⟩ := log_bounds hv.ne'
  have hu : (0 : ℚ) < 10 ^ (Int.log 10 |v| - 5) := zpow_pos (by norm_num) _
  have hsv := shown_pos_eq hv
  have hdef : sixDigits v = if (roundHalfEven (|v| / 10 ^ (Int.log 10 |v| - 5))).toNat = 10 ^ 6 then (10 ^ 5, Int.log 10 |v| + 1)
    else ((roundHalfEven (|v| / 10 ^ (Int.log 10 |v| - 5))).toNat, Int.log 10 |v|) := rfl
  by_cases hc : (roundHalfEven (|v| / 10 ^ (Int.log 10 |v| - 5))).toNat = 10 ^ 6
  · rw [if_pos hc] at hdef
    rw [hdef] at h5
    exact absurd rfl h5
  rw [if_neg hc] at hdef
  have h3 := ten_pow (Int.log 10 |v|) 5
  have h4 : (10 : ℚ) ^ (Int.log 10 |v| + 1) = 10 ^ (Int.log 10 |v| - 5) * 10 ^ 6 := by
    rw [zpow_add₀ (by norm_num), ← h3]
    norm_num
    ring
  push_cast at h3
  set e := Int.log 10 |v| with he
  rw [hdef] at s1 s2 h5 hsv
  simp only at s1 s2 h5 hsv
  have hr0 : (((roundHalfEven (|v| / 10 ^ (e - 5))).toNat : ℕ) : ℤ) = roundHalfEven (|v| / 10 ^ (e - 5)) :=
    Int.toNat_of_nonneg (by omega)
  have hrq : (((roundHalfEven (|v| / 10 ^ (e - 5))).toNat : ℕ) : ℚ) = roundHalfEven (|v| / 10 ^ (e - 5)) := by exact_mod_cast hr0
  rw [hrq] at hsv
  have hcl : |(|w| / 10 ^ (e - 5)) - roundHalfEven (|v| / 10 ^ (e - 5))| ≤
      |(|v| / 10 ^ (e - 5)) - roundHalfEven (|v| / 10 ^ (e - 5))| := by
    rw [abs_of_pos hv, abs_of_pos hw] at *
    rw [hsv] at h
    have hx : ∀ x r : ℚ, |x / 10 ^ (e - 5) - r| = |x - r * 10 ^ (e - 5)| / 10 ^ (e - 5) := by
      intro x r
      rw [← abs_of_pos hu, ← abs_div, abs_of_pos hu, sub_div, mul_div_cancel_right₀ _ hu.ne']
    rw [hx, hx]
    exact div_le_div_of_nonneg_right h hu.le
  have hround := round_closer hcl
  have hn := roundHalfEven_near (|v| / 10 ^ (e - 5))
  rw [abs_sub_comm] at hn
  have hb := abs_le.1 (hcl.trans hn)
  have hm1 : (100001 : ℚ) ≤ roundHalfEven (|v| / 10 ^ (e - 5)) := by
    have : (100001 : ℤ) ≤ roundHalfEven (|v| / 10 ^ (e - 5)) := by omega
    exact_mod_cast this
  have hm2 : (roundHalfEven (|v| / 10 ^ (e - 5)) : ℚ) ≤ 999999 := by
    have : roundHalfEven (|v| / 10 ^ (e - 5)) ≤ (999999 : ℤ) := by omega
    exact_mod_cast this
  have hlog : Int.log 10 |w| = e := by
    apply log_eq
    · rw [← h3, mul_comm, ← le_div_iff₀ hu]
      norm_num
      linarith [hb.1]
    · rw [h4, mul_comm, ← div_lt_iff₀ hu]
      norm_num
      linarith [hb.2]
  have hdw : sixDigits w = if (roundHalfEven (|w| / 10 ^ (Int.log 10 |w| - 5))).toNat = 10 ^ 6 then (10 ^ 5, Int.log 10 |w| + 1)
    else ((roundHalfEven (|w| / 10 ^ (Int.log 10 |w| - 5))).toNat, Int.log 10 |w|) := rfl
  rw [hdw, hlog, hround, if_neg hc, hdef]

/-! ### The number that is displayed otherwise -/

theorem sixDigits_odd : sixDigits (202403 * tiny) = (100000, -318) := by
  obtain ⟨t1, t2⟩ := tiny_ten
  have tp := tiny_pos
  have hpos : 0 < 202403 * tiny := by linarith
  have hlog : Int.log 10 |202403 * tiny| = -318 := by
    rw [abs_of_pos hpos]
    apply log_eq
    · rw [ten_scale (-318) 6 (by norm_num)]
      linarith
    · rw [ten_scale (-318 + 1) 7 (by norm_num)]
      linarith
  have hu : (10 : ℚ) ^ (-318 - 5 : ℤ) = 10 * small := by
    rw [ten_scale (-318 - 5) 1 (by norm_num), pow_one]
  have hTp := small_pos
  have hr : roundHalfEven (|202403 * tiny| / 10 ^ (Int.log 10 |202403 * tiny| - 5)) = 100000 := by
    rw [hlog, hu, abs_of_pos hpos]
    apply roundHalfEven_eq
    have hd : 202403 * tiny / (10 * small) - ((100000 : ℤ) : ℚ) =
        (202403 * tiny - 1000000 * small) / (10 * small) := by
      rw [sub_div]
      congr 1
      rw [eq_div_iff (by positivity)]
      push_cast
      ring
    rw [hd, abs_div, abs_of_pos (show (0 : ℚ) < 10 * small by positivity), div_lt_iff₀ (by positivity), abs_lt]
    constructor <;> linarith
  have hd : sixDigits (202403 * tiny) = if (roundHalfEven (|202403 * tiny| / 10 ^ (Int.log 10 |202403 * tiny| - 5))).toNat = 10 ^ 6
    then (10 ^ 5, Int.log 10 |202403 * tiny| + 1)
    else ((roundHalfEven (|202403 * tiny| / 10 ^ (Int.log 10 |202403 * tiny| - 5))).toNat, Int.log 10 |202403 * tiny|) := rfl
  rw [hd, hr, hlog]
  rfl

theorem sixDigits_neighbour : sixDigits (202402 * tiny) = (999999, -319) := by
  obtain ⟨t1, t2⟩ := tiny_ten
  have tp := tiny_pos
  have hpos : 0 < 202402 * tiny := by linarith
  have hlog : Int.log 10 |202402 * tiny| = -319 := by
    rw [abs_of_pos hpos]
    apply log_eq
    · rw [ten_scale (-319) 5 (by norm_num)]
      linarith
    · rw [ten_scale (-319 + 1) 6 (by norm_num)]
      linarith
  have hu : (10 : ℚ) ^ (-319 - 5 : ℤ) = small := by
    rw [ten_scale (-319 - 5) 0 (by norm_num), pow_zero, one_mul]
  have hTp := small_pos
  have hr : roundHalfEven (|202402 * tiny| / 10 ^ (Int.log 10 |202402 * tiny| - 5)) = 999999 := by
    rw [hlog, hu, abs_of_pos hpos]
    apply roundHalfEven_eq
    have hd : 202402 * tiny / small - ((999999 : ℤ) : ℚ) =
        (202402 * tiny - 999999 * small) / small := by
      rw [sub_div]
      congr 1
      rw [eq_div_iff (by positivity)]
      push_cast
      ring
    rw [hd, abs_div, abs_of_pos (show (0 : ℚ) < small by positivity), div_lt_iff₀ (by positivity), abs_lt]
    constructor <;> linarith
  have hd : sixDigits (202402 * tiny) = if (roundHalfEven (|202402 * tiny| / 10 ^ (Int.log 10 |202402 * tiny| - 5))).toNat = 10 ^ 6
    then (10 ^ 5, Int.log 10 |202402 * tiny| + 1)
    else ((roundHalfEven (|202402 * tiny| / 10 ^ (Int.log 10 |202402 * tiny| - 5))).toNat, Int.log 10 |202402 * tiny|) := rfl
  rw [hd, hr, hlog]
  rfl

theorem shown_odd : shown (202403 * tiny) = 10 ^ (-318 : ℤ) := by
  rw [shown_pos_eq (by linarith [tiny_pos]), sixDigits_odd]
  simp only
  rw [ten_scale (-318 - 5) 1 (by norm_num), ten_scale (-318) 6 (by norm_num)]
  push_cast
  ring

/-- It is read as its neighbour, which is displayed otherwise. -/
theorem odd_read : flS (10 ^ (-318 : ℤ)) = 202402 * tiny ∧ shown (202402 * tiny) ≠ 10 ^ (-318 : ℤ) := by
  obtain ⟨t1, t2⟩ := tiny_ten
  have tp := tiny_pos
  have hX := ten_scale (-318) 6 (by norm_num)
  constructor
  · have := flS_small (x := 10 ^ (-318 : ℤ)) (z := 202402) (by
      rw [hX, abs_of_pos (by linarith)]
      refine lt_trans ?_ normal_big
      linarith) (by
      rw [hX, abs_lt]
      push_cast
      constructor <;> linarith)
    exact_mod_cast this
  · intro h
    have hn := shown_nearest (202402 * tiny) (999999 * small) ⟨999999, -324, by norm_num, by rw [small_eq]; norm_cast⟩
    rw [h, hX] at hn
    have h1 : |999999 * small - 202402 * tiny| ≤ 6 / 100 * tiny := by
      rw [abs_le]
      constructor <;> linarith
    have h2 := (abs_le.1 (hn.trans h1)).2
    linarith

/-- A power of ten that is displayed for a float between 2^-1058 and 2^-1054 is 10^-318, and the float is that one. -/
theorem only_odd {a : ℚ} (hg : ∃ z : ℤ, a = z * 2 ^ (-1074 : ℤ)) (h1 : 2 ^ 16 * tiny < a) (h2 : shown a < 2 ^ 20 * tiny)
    (h5 : (sixDigits a).1 = 10 ^ 5) : a = 202403 * tiny := by
  obtain ⟨t1, t2⟩ := tiny_ten
  have tp := tiny_pos
  have ha : 0 < a := by linarith
  have hs : shown a = 10 ^ (sixDigits a).2 := by
    rw [shown_pos_eq ha, h5, ← ten_pow (sixDigits a).2 5]
    push_cast
    ring
  have hc := abs_le.1 (shown_close a)
  rw [abs_of_pos ha] at hc
  have he : (sixDigits a).2 = -318 := by
    apply le_antisymm
    · by_contra hlt
      have : (10 : ℚ) ^ (-317 : ℤ) ≤ 10 ^ (sixDigits a).2 := zpow_le_zpow_right₀ (by norm_num) (by omega)
      rw [← hs, ten_scale (-317) 7 (by norm_num)] at this
      linarith
    · by_contra hlt
      have : (10 : ℚ) ^ (sixDigits a).2 ≤ 10 ^ (-319 : ℤ) := zpow_le_zpow_right₀ (by norm_num) (by omega)
      rw [← hs, ten_scale (-319) 5 (by norm_num)] at this
      linarith [hc.1]
  rw [he, ten_scale (-318) 6 (by norm_num)] at hs
  have n1 := shown_nearest a (999999 * small) ⟨999999, -324, by norm_num, by rw [small_eq]; norm_cast⟩
  have n2 := shown_nearest a (100001 * 10 ^ (-323 : ℤ)) ⟨100001, -323, by norm_num, by norm_cast⟩
  rw [hs] at n1 n2
  rw [ten_scale (-323) 1 (by norm_num)] at n2
  have b1 : 1999999 / 2 * small ≤ a := by
    rcases abs_cases (10 ^ 6 * small - a) with ⟨e1, c1⟩ | ⟨e1, c1⟩ <;>
      rcases abs_cases (999999 * small - a) with ⟨e2, c2⟩ | ⟨e2, c2⟩ <;> linarith
  have b2 : a ≤ 1000005 * small := by
    rcases abs_cases (10 ^ 6 * small - a) with ⟨e1, c1⟩ | ⟨e1, c1⟩ <;>
      rcases abs_cases (100001 * (10 ^ 1 * small) - a) with ⟨e2, c2⟩ | ⟨e2, c2⟩ <;> linarith
  obtain ⟨z, hz⟩ := hg
  change a = z * tiny at hz
  have z1 : (202402 : ℤ) < z := by
    have : ((202402 : ℤ) : ℚ) * tiny < z * tiny := by
      rw [← hz]
      push_cast
      linarith
    exact_mod_cast lt_of_mul_lt_mul_right this tp.le
  have z2 : z < (202404 : ℤ) := by
    have : (z : ℚ) * tiny < ((202404 : ℤ) : ℚ) * tiny := by
      rw [← hz]
      push_cast
      linarith
    exact_mod_cast lt_of_mul_lt_mul_right this tp.le
  rw [hz, show z = 202403 by omega]
  norm_num

theorem shown_nonneg {a : ℚ} (h : 0 < a) : 0 < shown a := by
  obtain ⟨s1, -, -⟩ := sixDigits_spec h.ne'
  rw [shown_pos_eq h]
  have : (0 : ℚ) < (sixDigits a).1 := by exact_mod_cast (show 0 < (sixDigits a).1 by omega)
  exact mul_pos this (zpow_pos (by norm_num) _)

theorem whole_pos {a : ℚ} (hf : Flt a) (h : 0 < a) : shown (flS (shown a)) = shown a ↔ a ≠ 202403 * tiny := by
  have tp := tiny_pos
  constructor
  · rintro hs rfl
    rw [shown_odd, odd_read.1] at hs
    exact odd_read.2 hs
  · intro hne
    have hX := shown_nonneg h
    have hc := shown_close a
    rw [abs_of_pos h] at hc
    by_cases hA : 2 ^ 20 * tiny ≤ shown a
    · rw [← formatG_eq_iff]
      apply formatG_near
      refine (flS_error _).trans (max_le ?_ ?_)
      · rw [abs_of_pos hX]
        norm_num at hA ⊢
        linarith
      · norm_num
        linarith [abs_nonneg (shown a)]
    rw [not_le] at hA
    have hsm : |shown a| < 2 ^ (-1022 : ℤ) := by
      rw [abs_of_pos hX]
      exact hA.trans normal_big
    obtain ⟨z, hz⟩ := hf.grid
    change a = z * tiny at hz
    by_cases hB : a ≤ 2 ^ 16 * tiny
    · have : flS (shown a) = a := by
        rw [flS_small (z := z) hsm, ← hz]
        rw [← hz]
        refine lt_of_le_of_lt hc ?_
        norm_num at hB ⊢
        linarith
      rw [this]
    rw [not_le] at hB
    have h5 : (sixDigits a).1 ≠ 10 ^ 5 := fun h5 => hne (only_odd hf.grid hB hA h5)
    have hn := flS_nearest (shown a) a hf.dbl hf.grid
    have hw : 0 < flS (shown a) := by
      have := hn.trans ((abs_sub_comm _ _).trans_le hc)
      have h1 := (abs_le.1 this).1
      have h2 := (abs_le.1 hc).1
      linarith
    rw [shown_pos_eq hw, sixDigits_closer h hw h5 hn, shown_pos_eq h]

/-! ### No infinity -/

/-- The last of the six digits of a number from 10^308 on. -/
def big : ℚ := 10 ^ (303 : ℤ)

/-- The last binary digit of the greatest float. -/
def last : ℚ := 2 ^ (971 : ℤ)

theorem big_eq : big = 10 ^ (303 : ℤ) := rfl

theorem big_pos : 0 < big := zpow_pos (by norm_num) _

theorem last_pos : 0 < last := two_pos' _

theorem two_1024 : (2 : ℚ) ^ (1024 : ℤ) = 2 ^ 53 * last := by
  rw [show (1024 : ℤ) = (53 : ℕ) + 971 by norm_num, two_add, zpow_natCast, last]

set_option exponentiation.threshold 2000 in
theorem max_ten : 2 ^ 53 * last < 1797694 / 10 * big ∧ 179769 * big ≤ (2 ^ 53 - 1) * last := by
  constructor
  · have : (2 : ℕ) ^ 1024 * 10 < 1797694 * 10 ^ 303 := by decide +kernel
    have h : (2 : ℚ) ^ 1024 * 10 < 1797694 * 10 ^ 303 := by exact_mod_cast this
    rw [← two_1024, big, show ((1024 : ℤ)) = ((1024 : ℕ) : ℤ) from rfl, show ((303 : ℤ)) = ((303 : ℕ) : ℤ) from rfl, zpow_natCast, zpow_natCast]
    generalize (2 : ℚ) ^ 1024 = A at *
    generalize (10 : ℚ) ^ 303 = B at *
    linarith
  · have : (179769 : ℕ) * 10 ^ 303 ≤ (2 ^ 53 - 1) * 2 ^ 971 := by decide +kernel
    have h : (179769 : ℚ) * 10 ^ 303 ≤ ((2 ^ 53 - 1 : ℕ) : ℚ) * 2 ^ 971 := by exact_mod_cast this
    rw [last, big, show ((971 : ℤ)) = ((971 : ℕ) : ℤ) from rfl, show ((303 : ℤ)) = ((303 : ℕ) : ℤ) from rfl, zpow_natCast, zpow_natCast]
    generalize (2 : ℚ) ^ 971 = A at *
    generalize (10 : ℚ) ^ 303 = B at *
    norm_num at h ⊢
    linarith

attribute [local irreducible] big last

theorem shown_max {a : ℚ} (h : 0 < a) (hr : a < 2 ^ 53 * last) : shown a ≤ 179769 * big := by
  obtain ⟨m1, -⟩ := max_ten
  obtain ⟨s1, s2, -⟩ := sixDigits_spec h.ne'
  have hB := big_pos
  have hc := (abs_le.1 (shown_close a)).2
  rw [abs_of_pos h] at hc
  have hn := shown_nearest a (179769 * big) ⟨179769, 303, by norm_num, by rw [big_eq]; norm_cast⟩
  have hs := shown_pos_eq h
  have s1' : (10 ^ 5 : ℚ) ≤ (sixDigits a).1 := by exact_mod_cast s1
  have s2' : ((sixDigits a).1 : ℚ) < 10 ^ 6 := by exact_mod_cast s2
  rcases lt_trichotomy (sixDigits a).2 308 with he | he | he
  · have h1 : (10 : ℚ) ^ ((sixDigits a).2 - 5) ≤ 10 ^ (302 : ℤ) := zpow_le_zpow_right₀ (by norm_num) (by omega)
    have h2 : big = 10 ^ (302 : ℤ) * 10 := by
      rw [big_eq, show (303 : ℤ) = 302 + 1 by norm_num, zpow_add₀ (by norm_num), zpow_one]
    have hp : (0 : ℚ) < 10 ^ ((sixDigits a).2 - 5) := zpow_pos (by norm_num) _
    have h3 : (0 : ℚ) < 10 ^ (302 : ℤ) := zpow_pos (by norm_num) _
    rw [hs, h2]
    generalize (10 : ℚ) ^ (302 : ℤ) = c at *
    generalize (10 : ℚ) ^ ((sixDigits a).2 - 5) = d at *
    generalize ((sixDigits a).1 : ℚ) = m at *
    clear hs hn hc m1 hr hB h2
    nlinarith
  · rw [he, show (308 - 5 : ℤ) = 303 by norm_num, ← big_eq] at hs
    have hm : ((sixDigits a).1 : ℚ) < 179770 := by
      by_contra hge
      rw [not_lt] at hge
      have h1 : 179770 * big ≤ shown a := by
        rw [hs]
        exact mul_le_mul_of_nonneg_right hge hB.le
      rw [abs_of_nonneg (by linarith)] at hn
      rcases abs_cases (179769 * big - a) with ⟨e2, c2⟩ | ⟨e2, c2⟩ <;> linarith
    have hm' : (sixDigits a).1 ≤ 179769 := by
      have : (sixDigits a).1 < 179770 := by exact_mod_cast hm
      omega
    have hm'' : ((sixDigits a).1 : ℚ) ≤ 179769 := by exact_mod_cast hm'
    rw [hs]
    exact mul_le_mul_of_nonneg_right hm'' hB.le
  · exfalso
    have h1 : (10 : ℚ) ^ (304 : ℤ) ≤ 10 ^ ((sixDigits a).2 - 5) := zpow_le_zpow_right₀ (by norm_num) (by omega)
    have h2 : (10 : ℚ) ^ (304 : ℤ) = big * 10 := by
      rw [big_eq, show (304 : ℤ) = 303 + 1 by norm_num, zpow_add₀ (by norm_num), zpow_one]
    have : 10 ^ 5 * (big * 10) ≤ shown a := by
      rw [hs, ← h2]
      exact mul_le_mul s1' h1 (zpow_pos (by norm_num) _).le (by linarith)
    clear h1 h2 hs hn
    linarith

theorem read_finite {v : ℚ} (hr : |v| < 2 ^ (1024 : ℤ)) : |flS (shown v)| < 2 ^ (1024 : ℤ) := by
  have key : ∀ a : ℚ, 0 < a → a < 2 ^ (1024 : ℤ) → |flS (shown a)| < 2 ^ (1024 : ℤ) := by
    intro a ha har
    rw [two_1024] at har ⊢
    have h1 := (shown_max ha har).trans max_ten.2
    have h2 := flS_mono h1
    rw [flS_self (q := (2 ^ 53 - 1) * last)] at h2
    · rw [abs_of_nonneg (flS_nonneg (shown_nonneg ha).le)]
      refine lt_of_le_of_lt h2 ?_
      linarith [last_pos]
    · exact ⟨2 ^ 53 - 1, 971, by norm_num, by rw [last]; norm_num⟩
    · refine ⟨(2 ^ 53 - 1) * 2 ^ 2045, ?_⟩
      rw [last, show (971 : ℤ) = (2045 : ℕ) + -1074 by norm_num, two_add, zpow_natCast]
      generalize (2 : ℚ) ^ (-1074 : ℤ) = t
      rw [← mul_assoc]
      congr 1
      rw [Int.cast_mul, Int.cast_pow, Int.cast_sub]
      congr 1
  rcases lt_trichotomy v 0 with h | h | h
  · rw [abs_of_neg h] at hr
    have := key (-v) (by linarith) hr
    rwa [shown_neg, flS_neg, abs_neg] at this
  · rw [h, shown, if_pos rfl, flS_zero, abs_zero]
    exact two_pos' _
  · rw [abs_of_pos h] at hr
    exact key v h hr

theorem readD_formatG (L : Loc) (hL : L.Ok) {v : ℚ} (hr : |v| < 2 ^ (1024 : ℤ)) : readD L (formatG v) = some (.fin (flS (shown v))) := by
  rw [readD, fuzzyBack_alone L hL, Option.map_some, rnd, if_neg (not_le.2 (read_finite hr))]

/-! ### C159 -/

/-- C159: the text of a float is read as a float, never as an infinity, within a hundred thousandth of it. -/
theorem C159_finite (L : Loc) (hL : L.Ok) (v : ℚ) (hv : Flt v) :
    ∃ w, readD L (textD (.fin v)) = some (.fin w) ∧ Flt w ∧ |w - v| ≤ |v| * (1 / 10 ^ 5) := by
  refine ⟨_, readD_formatG L hL hv.range, ⟨flS_dbl _, flS_grid _, read_finite hv.range⟩, ?_⟩
  have h1 := flS_nearest (shown v) v hv.dbl hv.grid
  have h2 := shown_close v
  rw [abs_sub_comm] at h1
  calc |flS (shown v) - v| = |(flS (shown v) - shown v) + (shown v - v)| := by ring_nf
    _ ≤ |flS (shown v) - shown v| + |shown v - v| := abs_add_le _ _
    _ ≤ _ := by
      rw [abs_sub_comm, abs_sub_comm v] at h1
      norm_num at h2 ⊢
      linarith

/-- C159: entering the text of a float as it is displays the same text, exactly if the float is not 202403 times the least. -/
theorem C159_iff_partial (L : Loc) (hL : L.Ok) (v : ℚ) (hv : Flt v) (w : Fl) (h : readD L (textD (.fin v)) = some w) :
    textD w = textD (.fin v) ↔ |v| ≠ 202403 * 2 ^ (-1074 : ℤ) := by
  rw [textD, readD_formatG L hL hv.range, Option.some.injEq] at h
  subst h
  simp only [textD]
  rw [formatG_eq_iff]
  have tp := tiny_pos
  change _ ↔ |v| ≠ 202403 * tiny
  rcases lt_trichotomy v 0 with hn | hn | hn
  · have hf : Flt (-v) := by
      refine ⟨?_, ?_, by rw [abs_neg]; exact hv.range⟩
      · obtain ⟨z, k, hz, he⟩ := hv.dbl
        exact ⟨-z, k, by rwa [abs_neg], by rw [he]; push_cast; ring⟩
      · obtain ⟨z, he⟩ := hv.grid
        exact ⟨-z, by rw [he]; push_cast; ring⟩
    have := whole_pos hf (by linarith)
    rw [shown_neg, flS_neg, shown_neg, neg_inj] at this
    rw [this, abs_of_neg hn]
  · subst hn
    rw [abs_zero]
    refine ⟨fun _ => by intro h; linarith, fun _ => ?_⟩
    simp [shown, flS_zero]
  · rw [whole_pos hv hn, abs_of_pos hn]

/-- C159: so a float that is 2^-1022 or more, or less than 10^-318 (in size), keeps its text. -/
theorem C159_normal (L : Loc) (hL : L.Ok) (v : ℚ) (hv : Flt v) (hs : 2 ^ (-1022 : ℤ) ≤ |v| ∨ |v| ≤ 10 ^ (-318 : ℤ)) (w : Fl)
    (h : readD L (textD (.fin v)) = some w) : textD w = textD (.fin v) := by
  rw [C159_iff_partial L hL v hv w h]
  intro he
  change |v| = 202403 * tiny at he
  have tp := tiny_pos
  have := normal_big
  obtain ⟨t1, t2⟩ := tiny_ten
  rcases hs with hs | hs
  · rw [he] at hs
    have h3 : 202403 * tiny < 2 ^ 20 * tiny := by linarith
    exact absurd hs (not_le.2 (h3.trans this))
  · rw [he, ten_scale (-318) 6 (by norm_num)] at hs
    linarith

/-- C159: the float that is 202403 times the least is displayed `1e-318`; the text that is displayed after entering it is another. -/
theorem C159_counterexample (L : Loc) (hL : L.Ok) : ∃ v w, Flt v ∧ textD (.fin v) = "1e-318".toList ∧
    readD L "1e-318".toList = some w ∧ textD w = "9.99999e-319".toList := by
  have tp := tiny_pos
  obtain ⟨t1, t2⟩ := tiny_ten
  have hf : Flt (202403 * tiny) := by
    refine ⟨⟨202403, -1074, by norm_num, by rw [tiny]; norm_cast⟩, ⟨202403, by rw [tiny]; norm_cast⟩, ?_⟩
    rw [abs_of_pos (by linarith)]
    have h1 := normal_big
    have h2 : (2 : ℚ) ^ (-1022 : ℤ) < 2 ^ (1024 : ℤ) := two_lt (by norm_num)
    have h3 : 202403 * tiny < 2 ^ 20 * tiny := by linarith
    exact h3.trans (h1.trans h2)
  have ht : textD (.fin (202403 * tiny)) = "1e-318".toList := by
    rw [textD, formatG, if_neg (by linarith : ¬ 202403 * tiny = 0), sixDigits_odd, decide_eq_false (not_lt.2 (by linarith))]
    decide +kernel
  refine ⟨_, .fin (flS (shown (202403 * tiny))), hf, ht, ?_, ?_⟩
  · rw [← ht]
    exact readD_formatG L hL hf.range
  · rw [shown_odd, odd_read.1, textD, formatG, if_neg (by linarith : ¬ 202402 * tiny = 0), sixDigits_neighbour,
      decide_eq_false (not_lt.2 (by linarith))]
    decide +kernel

example : textD (.fin (3 / 2 ^ 60)) = "2.60209e-18".toList ∧ readD locC "1e400".toList = some (.inf false) ∧
    readD locC "-1.5 nm".toList = some (.fin (-3 / 2)) := by
  refine ⟨by decide +kernel, by decide +kernel, by decide +kernel⟩

end Verif.Converter
