import Verif.Converter.Integer
import Mathlib.Data.Int.Log
import Mathlib.Algebra.Order.Floor.Ring
import Mathlib.Data.Rat.Floor
import Mathlib.Algebra.Order.Round
import Mathlib.Tactic.Linarith
import Mathlib.Tactic.Ring
import Mathlib.Tactic.FieldSimp
import Mathlib.Tactic.Positivity

/-!
Scaled integers and percentages (`nion/utils/Converter.py:79-105`), C73, C74, C100. In exact arithmetic (an ordered field), and in
double precision: rational numbers, each operation rounded to 53 binary digits, halves to even. Not modelled: overflow, underflow and
numbers that are not finite, which do not occur between the numbers spoken about.
-/

set_option linter.unusedSectionVars false

namespace Verif.Converter

section

variable {K : Type} [Field K] [LinearOrder K] [IsStrictOrderedRing K] [FloorRing K]

/-- `int(v)` of a float: towards zero. -/
def trunc (v : K) : ℤ := if 0 ≤ v then ⌊v⌋ else ⌈v⌉

theorem trunc_intCast (z : ℤ) : trunc (z : K) = z := by
  rw [trunc]
  split <;> simp

theorem trunc_mono {a b : K} (h : a ≤ b) : trunc a ≤ trunc b := by
  rw [trunc, trunc]
  split_ifs with ha hb hb
  · exact Int.floor_le_floor h
  · exact absurd (ha.trans h) hb
  · refine le_trans (b := 0) ?_ (Int.floor_nonneg.2 hb)
    rw [Int.ceil_le]
    exact_mod_cast (not_le.1 ha).le
  · exact Int.ceil_le_ceil h

/-- Lines 81-84. -/
structure Scale (K : Type) where
  n : ℤ
  min : K
  max : K

/-- Lines 86-88. -/
def Scale.convert (c : Scale K) (v : K) : ℤ := trunc (c.n * (v - c.min) / (c.max - c.min))

/-- Lines 90-92. -/
def Scale.convertBack (c : Scale K) (i : ℤ) : K := i * (c.max - c.min) / c.n + c.min

/-- Something to convert. -/
structure Scale.Ok (c : Scale K) : Prop where
  n : 0 < c.n
  range : c.min < c.max

variable {c : Scale K}

/-- C73: back and forth. -/
theorem C73_round_trip (h : c.Ok) (i : ℤ) : c.convert (c.convertBack i) = i := by
  have h1 : (0 : K) < c.n := by exact_mod_cast h.n
  have h2 : 0 < c.max - c.min := sub_pos.2 h.range
  rw [Scale.convert, Scale.convertBack]
  have : c.n * (i * (c.max - c.min) / c.n + c.min - c.min) / (c.max - c.min) = (i : K) := by
    field_simp
    ring
  rw [this, trunc_intCast]

/-- C73: monotone, and from the range to 0 … n. -/
theorem C73_range (h : c.Ok) : (∀ v w, v ≤ w → c.convert v ≤ c.convert w) ∧ c.convert c.min = 0 ∧ c.convert c.max = c.n ∧
    ∀ v, c.min ≤ v → v ≤ c.max → 0 ≤ c.convert v ∧ c.convert v ≤ c.n := by
  have h1 : (0 : K) < c.n := by exact_mod_cast h.n
  have h2 : 0 < c.max - c.min := sub_pos.2 h.range
  have hm : ∀ v w, v ≤ w → c.convert v ≤ c.convert w := by
    intro v w hvw
    refine trunc_mono (div_le_div_of_nonneg_right (mul_le_mul_of_nonneg_left ?_ h1.le) h2.le)
    linarith
  have h0 : c.convert c.min = 0 := by
    rw [Scale.convert, sub_self, mul_zero, zero_div]
    exact_mod_cast trunc_intCast (K := K) 0
  have hn : c.convert c.max = c.n := by
    rw [Scale.convert, mul_div_assoc, div_self h2.ne', mul_one, trunc_intCast]
  refine ⟨hm, h0, hn, fun v hv1 hv2 => ⟨h0 ▸ hm _ _ hv1, hn ▸ hm _ _ hv2⟩⟩

/-- C73: forth and back ends at or below a value of the range, less than a step away. -/
theorem C73_step (h : c.Ok) (v : K) (hv : c.min ≤ v) :
    c.convertBack (c.convert v) ≤ v ∧ v - c.convertBack (c.convert v) < (c.max - c.min) / c.n := by
  have h1 : (0 : K) < c.n := by exact_mod_cast h.n
  have h2 : 0 < c.max - c.min := sub_pos.2 h.range
  set w := c.n * (v - c.min) / (c.max - c.min) with hw
  have hw0 : 0 ≤ w := div_nonneg (mul_nonneg h1.le (by linarith)) h2.le
  have hvw : v = w * (c.max - c.min) / c.n + c.min := by rw [hw]; field_simp; ring
  have hf1 := Int.floor_le w
  have hf2 := Int.lt_floor_add_one w
  have hs : 0 < (c.max - c.min) / c.n := div_pos h2 h1
  have hc : c.convertBack (c.convert v) = ⌊w⌋ * ((c.max - c.min) / c.n) + c.min := by
    rw [Scale.convertBack, Scale.convert, ← hw, trunc, if_pos hw0, mul_div_assoc]
  rw [hc, hvw, mul_div_assoc]
  constructor <;> nlinarith

example : (⟨10, -1, 1⟩ : Scale ℚ).convert (1 / 4) = 6 ∧ (⟨10, -1, 1⟩ : Scale ℚ).convertBack 6 = 1 / 5 := by
  constructor
  · rw [Scale.convert, trunc, if_pos (by norm_num), Int.floor_eq_iff]
    norm_num
  · norm_num [Scale.convertBack]

end

/-! ### Double precision -/

/-- To the nearest integer, halves to even. -/
def roundHalfEven (x : ℚ) : ℤ :=
  if x - ⌊x⌋ < 1 / 2 then ⌊x⌋ else if 1 / 2 < x - ⌊x⌋ then ⌊x⌋ + 1 else if ⌊x⌋ % 2 = 0 then ⌊x⌋ else ⌊x⌋ + 1

/-- The nearest double: 53 binary digits. -/
def fl (x : ℚ) : ℚ := if x = 0 then 0 else roundHalfEven (x / 2 ^ (Int.log 2 |x| - 52)) * 2 ^ (Int.log 2 |x| - 52)

theorem roundHalfEven_near (x : ℚ) : |(roundHalfEven x : ℚ) - x| ≤ 1 / 2 := by
  have h1 := Int.floor_le x
  have h2 := Int.lt_floor_add_one x
  rw [roundHalfEven, abs_le]
  split_ifs <;> push_cast <;> constructor <;> linarith

/-- The relative error of rounding. -/
theorem fl_near (x : ℚ) : |fl x - x| ≤ |x| / 2 ^ 53 := by
  rw [fl]
  split
  · next h => simp [h]
  · next h =>
    have hp : (0 : ℚ) < 2 ^ (Int.log 2 |x| - 52) := zpow_pos (by norm_num) _
    have hl := Int.zpow_log_le_self (b := 2) (by norm_num) (abs_pos.2 h)
    push_cast at hl
    set e := Int.log 2 |x|
    have hx : x = x / 2 ^ (e - 52) * 2 ^ (e - 52) := by field_simp
    calc |(roundHalfEven (x / 2 ^ (e - 52)) : ℚ) * 2 ^ (e - 52) - x|
        = |((roundHalfEven (x / 2 ^ (e - 52)) : ℚ) - x / 2 ^ (e - 52)) * 2 ^ (e - 52)| := by rw [sub_mul, ← hx]
      _ = |(roundHalfEven (x / 2 ^ (e - 52)) : ℚ) - x / 2 ^ (e - 52)| * 2 ^ (e - 52) := by rw [abs_mul, abs_of_pos hp]
      _ ≤ 1 / 2 * 2 ^ (e - 52) := mul_le_mul_of_nonneg_right (roundHalfEven_near _) hp.le
      _ = 2 ^ e / 2 ^ 53 := by rw [zpow_sub₀ (by norm_num)]; norm_num; ring
      _ ≤ |x| / 2 ^ 53 := div_le_div_of_nonneg_right hl (by norm_num)

/-- A number near an integer is truncated to it or to the one next to it towards zero. -/
theorem trunc_near {z : ℚ} {n : ℤ} (h : |z - n| < 1) (h0 : n = 0 → z = 0) :
    trunc z = n ∨ |trunc z| = |n| - 1 ∧ 0 ≤ trunc z * n := by
  rw [abs_lt] at h
  rcases lt_trichotomy n 0 with hn | hn | hn
  · have hn' : (n : ℚ) ≤ -1 := by exact_mod_cast (show n ≤ -1 by omega)
    have hz : ¬ 0 ≤ z ∨ z = 0 := by
      rcases lt_or_ge z 0 with h | h
      · exact .inl (not_le.2 h)
      · exact .inr (le_antisymm (by linarith) h)
    have ht : trunc z = ⌈z⌉ := by
      rw [trunc]
      rcases hz with hz | hz
      · rw [if_neg hz]
      · simp [hz]
    have h1 : ⌈z⌉ ≤ n + 1 := by rw [Int.ceil_le]; push_cast; linarith
    have h2 : n - 1 < ⌈z⌉ := by rw [Int.lt_ceil]; push_cast; linarith
    rw [ht]
    rcases (show ⌈z⌉ = n ∨ ⌈z⌉ = n + 1 by omega) with h3 | h3
    · exact .inl h3
    · refine .inr ⟨?_, ?_⟩
      · rw [h3, abs_of_nonpos (by omega), abs_of_neg hn]; ring
      · rw [h3]; nlinarith
  · subst hn
    rw [h0 rfl]
    left
    exact_mod_cast trunc_intCast (K := ℚ) 0
  · have hn' : (1 : ℚ) ≤ n := by exact_mod_cast (show 1 ≤ n by omega)
    have hz : 0 ≤ z := by linarith
    have h1 : n - 1 ≤ ⌊z⌋ := by rw [Int.le_floor]; push_cast; linarith
    have h2 : ⌊z⌋ < n + 1 := by rw [Int.floor_lt]; push_cast; linarith
    rw [trunc, if_pos hz]
    rcases (show ⌊z⌋ = n ∨ ⌊z⌋ = n - 1 by omega) with h3 | h3
    · exact .inl h3
    · refine .inr ⟨?_, ?_⟩
      · rw [h3, abs_of_nonneg (by omega), abs_of_pos hn]
      · rw [h3]; nlinarith

theorem fl_zero : fl 0 = 0 := by simp [fl]

/-- Rounding, dividing and multiplying changes little. -/
theorem scale_near (x n : ℚ) (hn : 0 < n) : |fl (n * fl (x / n)) - x| ≤ |x| / 2 ^ 51 := by
  have h1 := fl_near (x / n)
  have h2 := fl_near (n * fl (x / n))
  set y := fl (x / n)
  have hy : |n * y - x| ≤ |x| / 2 ^ 53 := by
    have : n * y - x = n * (y - x / n) := by field_simp
    rw [this, abs_mul, abs_of_pos hn]
    calc n * |y - x / n| ≤ n * (|x / n| / 2 ^ 53) := mul_le_mul_of_nonneg_left h1 hn.le
      _ = |x| / 2 ^ 53 := by rw [abs_div, abs_of_pos hn]; field_simp
  have hny : |n * y| ≤ |x| + |x| / 2 ^ 53 := by
    calc |n * y| = |(n * y - x) + x| := by ring_nf
      _ ≤ |n * y - x| + |x| := abs_add_le _ _
      _ ≤ _ := by linarith
  calc |fl (n * y) - x| = |(fl (n * y) - n * y) + (n * y - x)| := by ring_nf
    _ ≤ |fl (n * y) - n * y| + |n * y - x| := abs_add_le _ _
    _ ≤ |n * y| / 2 ^ 53 + |x| / 2 ^ 53 := add_le_add h2 hy
    _ ≤ (|x| + |x| / 2 ^ 53) / 2 ^ 53 + |x| / 2 ^ 53 := by
      have := div_le_div_of_nonneg_right hny (show (0 : ℚ) ≤ 2 ^ 53 by norm_num)
      linarith
    _ ≤ |x| / 2 ^ 51 := by
      have := abs_nonneg x
      norm_num
      linarith

/-- Lines 86-92 in double precision, with the default limits 0 and 1 (integers: subtracting, multiplying and dividing by them is
exact). -/
def convertD (n : ℤ) (v : ℚ) : ℤ := trunc (fl (n * v))
def convertBackD (n i : ℤ) : ℚ := fl (i / n)

/-- C100 (partial): in double precision the round trip gives the integer or the next one towards zero. -/
theorem C100_round_trip_partial (n i : ℤ) (hn : 0 < n) (hi : |i| ≤ 2 ^ 50) :
    convertD n (convertBackD n i) = i ∨
      |convertD n (convertBackD n i)| = |i| - 1 ∧ 0 ≤ convertD n (convertBackD n i) * i := by
  have hn' : (0 : ℚ) < n := by exact_mod_cast hn
  refine trunc_near ?_ ?_
  · refine lt_of_le_of_lt (scale_near i n hn') ?_
    have : |(i : ℚ)| ≤ 2 ^ 50 := by exact_mod_cast hi
    rw [div_lt_iff₀ (by norm_num)]
    norm_num at this ⊢
    linarith
  · rintro rfl
    simp [convertBackD, fl_zero]

/-- The double next to a number with a known exponent. -/
theorem fl_of_bounds {x : ℚ} (e : ℤ) (m : ℤ) (h1 : 2 ^ e ≤ x) (h2 : x < 2 ^ (e + 1))
    (h3 : (m : ℚ) - 1 / 2 < x / 2 ^ (e - 52)) (h4 : x / 2 ^ (e - 52) < m + 1 / 2) : fl x = m * 2 ^ (e - 52) := by
  have hx : 0 < x := lt_of_lt_of_le (zpow_pos (by norm_num) e) h1
  have hlog : Int.log 2 x = e := by
    apply le_antisymm
    · rw [← Int.lt_add_one_iff, ← Int.lt_zpow_iff_log_lt (by norm_num) hx]
      simpa using h2
    · rw [← Int.zpow_le_iff_le_log (by norm_num) hx]
      simpa using h1
  rw [fl, if_neg hx.ne', abs_of_pos hx, hlog]
  congr 2
  generalize x / 2 ^ (e - 52) = y at *
  have f1 := Int.floor_le y
  have f2 := Int.lt_floor_add_one y
  have g1 : ⌊y⌋ < m + 1 := by rw [Int.floor_lt]; push_cast; linarith
  have g2 : m - 1 ≤ ⌊y⌋ := by rw [Int.le_floor]; push_cast; linarith
  rw [roundHalfEven]
  rcases (show ⌊y⌋ = m ∨ ⌊y⌋ = m - 1 by omega) with h | h
  · rw [h, if_pos (by linarith)]
  · rw [h]
    push_cast
    rw [if_neg (by linarith), if_pos (by linarith)]
    ring

theorem fl_29 : fl (29 / 100) = 5224175567749775 / 2 ^ 54 := by
  rw [fl_of_bounds (-2) 5224175567749775 (by norm_num) (by norm_num) (by norm_num) (by norm_num)]
  norm_num

theorem fl_29_100 : fl (100 * (5224175567749775 / 2 ^ 54)) = 8162774324609023 / 2 ^ 48 := by
  rw [fl_of_bounds 4 8162774324609023 (by norm_num) (by norm_num) (by norm_num) (by norm_num)]
  norm_num

/-- C100, counterexample: 29 of 100. -/
theorem C100_counterexample : convertD 100 (convertBackD 100 29) = 28 := by
  rw [convertBackD, convertD]
  push_cast
  rw [fl_29, fl_29_100, trunc, if_pos (by norm_num), Int.floor_eq_iff]
  norm_num

/-- C100: with a hundred steps exactly 29, 57 and 58 do not come back. -/
theorem C100_hundred_partial (i : ℕ) (hi : i ≤ 100) : convertD 100 (convertBackD 100 i) = i ↔ i ≠ 29 ∧ i ≠ 57 ∧ i ≠ 58 := by
  have h : ∀ i ∈ List.range 101, (convertD 100 (convertBackD 100 i) = i ↔ i ≠ 29 ∧ i ≠ 57 ∧ i ≠ 58) := by decide +kernel
  exact h i (List.mem_range.2 (by omega))

/-! ### C74: percentages -/

/-- `s.strip('%')`. -/
def stripPercent (s : List Char) : List Char := ((s.dropWhile (· == '%')).reverse.dropWhile (· == '%')).reverse

/-- Lines 98-100, with rounding `r` of each operation. -/
def percentConvert (r : ℚ → ℚ) (v : ℚ) : List Char := intStr (trunc (r (v * 100))) ++ ['%']

/-- Lines 102-104 for strings that are integers for Python (others: not modelled). -/
def percentConvertBack (r : ℚ → ℚ) (s : List Char) : Option ℚ := (parseInt (stripPercent s)).map fun n : ℤ => r (r n / 100)

theorem stripPercent_intStr (n : ℤ) : stripPercent (intStr n ++ ['%']) = intStr n := by
  have hne : ∀ c ∈ intStr n, (c == '%') = false := by
    intro c hc
    have : c ≠ '%' := by
      rintro rfl
      cases n with
      | ofNat n => exact absurd ((natStr_spec n).1 _ hc) (by decide)
      | negSucc n =>
        rcases List.mem_cons.1 hc with h | h
        · exact absurd h (by decide)
        · exact absurd ((natStr_spec (n + 1)).1 _ h) (by decide)
    simpa using this
  have hdrop : ∀ s : List Char, (∀ c ∈ s, (c == '%') = false) → s.dropWhile (· == '%') = s := by
    intro s hs
    cases s with
    | nil => rfl
    | cons c s => rw [List.dropWhile_cons_of_neg (by rw [hs c List.mem_cons_self]; simp)]
  have hnil : intStr n ≠ [] := by
    cases n with
    | ofNat n => exact (natStr_spec n).2.1
    | negSucc n => simp [intStr]
  rw [stripPercent]
  obtain ⟨c, t, hct⟩ := List.exists_cons_of_ne_nil hnil
  have h1 : (intStr n ++ ['%']).dropWhile (· == '%') = intStr n ++ ['%'] := by
    rw [hct, List.cons_append, List.dropWhile_cons_of_neg]
    rw [hne c (by rw [hct]; exact List.mem_cons_self)]
    simp
  rw [h1, List.reverse_append]
  simp only [List.reverse_cons, List.reverse_nil, List.nil_append, List.singleton_append]
  rw [List.dropWhile_cons_of_pos (by simp), hdrop _ fun c hc => hne c (List.mem_reverse.1 hc), List.reverse_reverse]

theorem parse_percent (r : ℚ → ℚ) (n : ℤ) : percentConvertBack r (intStr n ++ ['%']) = some (r (r n / 100)) := by
  have := C72_round_trip n
  rw [intConvertBack, intConvert] at this
  rw [percentConvertBack, stripPercent_intStr, this]
  rfl

/-- C74 in exact arithmetic: percentages are read and written as they are. -/
theorem C74_exact (n : ℤ) : (percentConvertBack id (intStr n ++ ['%'])).map (percentConvert id) = some (intStr n ++ ['%']) := by
  rw [parse_percent, Option.map_some, percentConvert]
  have : (id (id (id (n : ℚ) / 100) * 100) : ℚ) = (n : ℤ) := by simp only [id]; field_simp
  rw [this, trunc_intCast]

/-- C74 (partial): in double precision a percentage is written as it was read or as the next one towards zero. -/
theorem C74_double_partial (n : ℤ) (hn : |n| ≤ 2 ^ 50) :
    ∃ m : ℤ, (percentConvertBack fl (intStr n ++ ['%'])).map (percentConvert fl) = some (intStr m ++ ['%']) ∧
      (m = n ∨ |m| = |n| - 1 ∧ 0 ≤ m * n) := by
  rw [parse_percent]
  refine ⟨_, rfl, trunc_near ?_ ?_⟩
  · have hx := fl_near n
    have hs := scale_near (fl n) 100 (by norm_num)
    rw [mul_comm] at hs
    have hn' : |(n : ℚ)| ≤ 2 ^ 50 := by exact_mod_cast hn
    have hfl : |fl n| ≤ |(n : ℚ)| + |(n : ℚ)| / 2 ^ 53 := by
      calc |fl n| = |(fl n - n) + n| := by ring_nf
        _ ≤ |fl n - n| + |(n : ℚ)| := abs_add_le _ _
        _ ≤ _ := by linarith
    calc |fl (fl (fl n / 100) * 100) - n| = |(fl (fl (fl n / 100) * 100) - fl n) + (fl n - n)| := by ring_nf
      _ ≤ |fl (fl (fl n / 100) * 100) - fl n| + |fl n - n| := abs_add_le _ _
      _ ≤ |fl n| / 2 ^ 51 + |(n : ℚ)| / 2 ^ 53 := add_le_add hs hx
      _ < 1 := by
        norm_num at hn' hfl ⊢
        linarith
  · rintro rfl
    simp [fl_zero]

/-- C74: in double precision exactly 29%, 57% and 58% of the percentages up to 100 do not come back. -/
theorem C74_hundred_partial (n : ℕ) (hn : n ≤ 100) :
    (percentConvertBack fl (intStr n ++ ['%'])).map (percentConvert fl) = some (intStr n ++ ['%']) ↔ n ≠ 29 ∧ n ≠ 57 ∧ n ≠ 58 := by
  have h : ∀ n ∈ List.range 101, ((percentConvertBack fl (intStr n ++ ['%'])).map (percentConvert fl) = some (intStr n ++ ['%']) ↔
      n ≠ 29 ∧ n ≠ 57 ∧ n ≠ 58) := by decide +kernel
  exact h n (List.mem_range.2 (by omega))

/-- C74: a text that is entered again and again as it is displayed goes on changing: 116%, 115%, 114%, 113%, 112%. -/
theorem C74_counterexample_drift :
    let again (s : List Char) : Option (List Char) := (percentConvertBack fl s).map (percentConvert fl)
    again "116%".toList = some "115%".toList ∧ again "115%".toList = some "114%".toList ∧ again "114%".toList = some "113%".toList ∧
      again "113%".toList = some "112%".toList ∧ again "112%".toList = some "112%".toList := by
  decide +kernel

/-- C74, counterexample: in double precision 29% becomes 28%. -/
theorem C74_counterexample :
    (percentConvertBack fl "29%".toList).map (percentConvert fl) = some "28%".toList := by
  have h29 : fl ((29 : ℤ) : ℚ) = 29 := by
    push_cast
    rw [fl_of_bounds 4 (29 * 2 ^ 48) (by norm_num) (by norm_num) (by norm_num) (by norm_num)]
    norm_num
  have hs : ∀ n : ℕ, 10 ≤ n → n < 100 → intStr n = [digitChar (n / 10), digitChar (n % 10)] := by
    intro n h1 h2
    change natStr n = _
    rw [natStr, if_neg (by omega), natStr, if_pos (by omega)]
    rfl
  have e1 : "29%".toList = intStr 29 ++ ['%'] := by
    rw [show (29 : ℤ) = ((29 : ℕ) : ℤ) from rfl, hs 29 (by norm_num) (by norm_num)]
    decide
  have e2 : "28%".toList = intStr 28 ++ ['%'] := by
    rw [show (28 : ℤ) = ((28 : ℕ) : ℤ) from rfl, hs 28 (by norm_num) (by norm_num)]
    decide
  rw [e1, e2, parse_percent, h29, fl_29, Option.map_some, percentConvert, mul_comm, fl_29_100, trunc, if_pos (by norm_num)]
  have : ⌊(8162774324609023 / 2 ^ 48 : ℚ)⌋ = 28 := by
    rw [Int.floor_eq_iff]
    norm_num
  rw [this]

end Verif.Converter
