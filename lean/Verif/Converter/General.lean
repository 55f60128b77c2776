import Verif.Converter.Fuzzy
import Verif.Converter.Scaled
import Verif.Converter.Datetime

/-!
Floats as they are displayed (`nion/utils/Converter.py`, `FloatToStringConverter.convert` and `PhysicalValueToStringConverter.convert` with
the default format `{:g}`), C131.

The format is that of Python: six digits, correctly rounded from the exact value, halves to even; the exponent of the rounded number says
whether there is one in the text; zeros at the end of the fraction are dropped. Not modelled: the sign of zero, overflow, underflow.
-/

namespace Verif.Converter

/-- The six digits of a number, as an integer, and the exponent of the first. -/
def sixDigits (v : ℚ) : ℕ × ℤ :=
  let e := Int.log 10 |v|
  let m := (roundHalfEven (|v| / 10 ^ (e - 5))).toNat
  if m = 10 ^ 6 then (10 ^ 5, e + 1) else (m, e)

/-- Without the zeros at the end. -/
def strip0 (s : List Char) : List Char := (s.reverse.dropWhile (· == '0')).reverse

/-- The fraction, if there is one. -/
def fracOf (s : List Char) : Option (Char × List Char) := if strip0 s = [] then none else some ('.', strip0 s)

/-- At least two digits. -/
def expDigits (n : ℕ) : List Char := if n < 10 then '0' :: natStr n else natStr n

def signOf (neg : Bool) : Option Char := if neg then some '-' else none

def expSign (e : ℤ) : Char := if e < 0 then '-' else '+'

/-- The parts of the text. -/
def layout (neg : Bool) (m : ℕ) (e : ℤ) : Num :=
  if 0 ≤ e ∧ e < 6 then ⟨signOf neg, (pad 6 m).take (e.toNat + 1), fracOf ((pad 6 m).drop (e.toNat + 1)), none⟩
  else if -4 ≤ e ∧ e < 0 then ⟨signOf neg, ['0'], fracOf (List.replicate (-e - 1).toNat '0' ++ pad 6 m), none⟩
  else ⟨signOf neg, (pad 6 m).take 1, fracOf ((pad 6 m).drop 1), some ('e', some (expSign e), expDigits e.natAbs)⟩

/-- `"{:g}".format(v)` (lines 39, 46). -/
def formatG (v : ℚ) : List Char := if v = 0 then ['0'] else (layout (v < 0) (sixDigits v).1 (sixDigits v).2).text

/-- `"{:g} {:s}".format(v * multiplier, units)` (lines 114, 121), in double precision. -/
def physicalConvert (multiplier : ℚ) (units : List Char) (v : ℚ) : List Char := formatG (fl (v * multiplier)) ++ ' ' :: units

/-- `PhysicalValueToStringConverter.convert_back` in double precision. -/
def physicalBackD (L : Loc) (multiplier : ℚ) (s : List Char) : Option ℚ :=
  match fuzzyBack L s with
  | some q => if multiplier = 0 then none else some (fl (fl q / multiplier))
  | none => none

/-- A float, and its text. -/
inductive Flt64 where
  | fin (q : ℚ)
  | inf (neg : Bool)
  | nan

def Flt64.text : Flt64 → List Char
  | .fin q => formatG q
  | .inf false => ['i', 'n', 'f']
  | .inf true => ['-', 'i', 'n', 'f']
  | .nan => ['n', 'a', 'n']

/-! ### Six digits -/

theorem roundHalfEven_nearest (x : ℚ) (z : ℤ) : |(roundHalfEven x : ℚ) - x| ≤ |(z : ℚ) - x| := by
  have h1 := Int.floor_le x
  have h2 := Int.lt_floor_add_one x
  have hz : (z : ℚ) ≤ ⌊x⌋ ∨ (⌊x⌋ : ℚ) + 1 ≤ z := by
    rcases le_or_gt z ⌊x⌋ with h | h
    · exact .inl (by exact_mod_cast h)
    · exact .inr (by exact_mod_cast h)
  rw [roundHalfEven]
  split_ifs <;> rcases hz with hz | hz <;> push_cast <;>
    first
    | (rw [abs_of_nonpos (by linarith : (⌊x⌋ : ℚ) - x ≤ 0), abs_of_nonpos (by linarith : (z : ℚ) - x ≤ 0)]; linarith)
    | (rw [abs_of_nonpos (by linarith : (⌊x⌋ : ℚ) - x ≤ 0), abs_of_nonneg (by linarith : 0 ≤ (z : ℚ) - x)]; linarith)
    | (rw [abs_of_nonneg (by linarith : 0 ≤ (⌊x⌋ : ℚ) + 1 - x), abs_of_nonpos (by linarith : (z : ℚ) - x ≤ 0)]; linarith)
    | (rw [abs_of_nonneg (by linarith : 0 ≤ (⌊x⌋ : ℚ) + 1 - x), abs_of_nonneg (by linarith : 0 ≤ (z : ℚ) - x)]; linarith)

theorem roundHalfEven_eq {x : ℚ} {z : ℤ} (h : |x - z| < 1 / 2) : roundHalfEven x = z := by
  have h1 := roundHalfEven_near x
  have h2 : |(roundHalfEven x : ℚ) - z| < 1 := by
    calc |(roundHalfEven x : ℚ) - z| = |((roundHalfEven x : ℚ) - x) + (x - z)| := by ring_nf
      _ ≤ _ := abs_add_le _ _
      _ < 1 := by linarith
  have h3 : |roundHalfEven x - z| < 1 := by exact_mod_cast h2
  rw [Int.abs_lt_one_iff] at h3
  omega

theorem log_bounds {v : ℚ} (h : v ≠ 0) : (10 : ℚ) ^ Int.log 10 |v| ≤ |v| ∧ |v| < 10 ^ (Int.log 10 |v| + 1) := by
  constructor
  · simpa using Int.zpow_log_le_self (b := 10) (by norm_num) (abs_pos.2 h)
  · simpa using Int.lt_zpow_succ_log_self (b := 10) (by norm_num) |v|

theorem log_eq {x : ℚ} {e : ℤ} (h1 : 10 ^ e ≤ x) (h2 : x < 10 ^ (e + 1)) : Int.log 10 x = e := by
  have hx : 0 < x := lt_of_lt_of_le (zpow_pos (by norm_num) e) h1
  apply le_antisymm
  · rw [← Int.lt_add_one_iff, ← Int.lt_zpow_iff_log_lt (by norm_num) hx]
    simpa using h2
  · rw [← Int.zpow_le_iff_le_log (by norm_num) hx]
    simpa using h1

theorem ten_pow (e : ℤ) (k : ℕ) : (10 : ℚ) ^ (e - k) * 10 ^ k = 10 ^ e := by
  rw [zpow_sub₀ (by norm_num), zpow_natCast, div_mul_cancel₀ _ (pow_ne_zero _ (by norm_num))]

/-- The digits are six, and say the number that is rounded. -/
theorem sixDigits_spec {v : ℚ} (h : v ≠ 0) : 10 ^ 5 ≤ (sixDigits v).1 ∧ (sixDigits v).1 < 10 ^ 6 ∧
    ((sixDigits v).1 : ℚ) * 10 ^ ((sixDigits v).2 - 5) =
      roundHalfEven (|v| / 10 ^ (Int.log 10 |v| - 5)) * 10 ^ (Int.log 10 |v| - 5) := by
  obtain ⟨h1, h2⟩ := log_bounds h
  have hu : (0 : ℚ) < 10 ^ (Int.log 10 |v| - 5) := zpow_pos (by norm_num) _
  have h3 := ten_pow (Int.log 10 |v|) 5
  have h4 : (10 : ℚ) ^ (Int.log 10 |v| + 1) = 10 ^ (Int.log 10 |v| - 5) * 10 ^ 6 := by
    rw [zpow_add₀ (by norm_num), ← h3]
    norm_num
    ring
  push_cast at h3
  have h7 : (10 : ℚ) ^ (Int.log 10 |v| + 1 - 5) = 10 ^ (Int.log 10 |v| - 5) * 10 := by
    rw [show Int.log 10 |v| + 1 - 5 = Int.log 10 |v| - 5 + 1 by ring, zpow_add₀ (by norm_num), zpow_one]
  rw [sixDigits]
  generalize hg : (10 : ℚ) ^ (Int.log 10 |v| - 5) = u at *
  have h5 : (10 : ℚ) ^ 5 ≤ |v| / u := by rw [le_div_iff₀ hu]; linarith
  have h6 : |v| / u < 10 ^ 6 := by rw [div_lt_iff₀ hu]; linarith
  have hn := roundHalfEven_near (|v| / u)
  rw [abs_le] at hn
  generalize hr : roundHalfEven (|v| / u) = r at *
  have r1 : (10 : ℤ) ^ 5 ≤ r := by
    have : ((10 : ℤ) ^ 5 : ℤ) - 1 < r := by
      have : (((10 : ℤ) ^ 5 - 1 : ℤ) : ℚ) < (r : ℚ) := by push_cast; linarith
      exact_mod_cast this
    omega
  have r2 : r ≤ (10 : ℤ) ^ 6 := by
    have : (r : ℚ) < (((10 : ℤ) ^ 6 + 1 : ℤ) : ℚ) := by push_cast; linarith
    have : r < (10 : ℤ) ^ 6 + 1 := by exact_mod_cast this
    omega
  have hnat : ((r.toNat : ℕ) : ℚ) = (r : ℚ) := by
    have : ((r.toNat : ℕ) : ℤ) = r := Int.toNat_of_nonneg (by omega)
    exact_mod_cast this
  split_ifs with hc
  · refine ⟨le_refl _, by norm_num, ?_⟩
    have : (r : ℚ) = 10 ^ 6 := by rw [← hnat, hc]; norm_num
    simp only [h7, this]
    norm_num
    ring
  · refine ⟨?_, ?_, ?_⟩
    · simp only
      omega
    · simp only
      omega
    · simp only [hnat, hg]

/-- A number near one of six digits has these digits. -/
theorem sixDigits_near {w : ℚ} {m : ℕ} {e : ℤ} (h1 : 10 ^ 5 ≤ m) (h2 : m < 10 ^ 6)
    (h : |(|w| - m * 10 ^ (e - 5))| ≤ m * 10 ^ (e - 5) / 2 ^ 21) : w ≠ 0 ∧ sixDigits w = (m, e) := by
  have hu : (0 : ℚ) < 10 ^ (e - 5) := zpow_pos (by norm_num) _
  have h3 := ten_pow e 5
  have h4 : (10 : ℚ) ^ (e + 1) = 10 ^ (e - 5) * 10 ^ 6 := by
    rw [zpow_add₀ (by norm_num), ← h3]
    norm_num
    ring
  have h5 : (10 : ℚ) ^ (e - 5) = 10 ^ (e - 1 - 5) * 10 := by
    rw [show e - 5 = e - 1 - 5 + 1 by ring, zpow_add₀ (by norm_num), zpow_one]
  push_cast at h3
  have m1 : (100000 : ℚ) ≤ m := by exact_mod_cast h1
  have m2 : (m : ℚ) ≤ 999999 := by exact_mod_cast (show m ≤ 999999 by omega)
  have hm6 : m ≠ 10 ^ 6 := by omega
  rw [abs_le] at h
  generalize hg : (10 : ℚ) ^ (e - 5) = u at *
  obtain ⟨y, hy⟩ : ∃ y, |w| = y * u := ⟨|w| / u, by field_simp⟩
  rw [hy] at h
  have y1 : (m : ℚ) - m / 2 ^ 21 ≤ y := by
    have : ((m : ℚ) - m / 2 ^ 21) * u ≤ y * u := by linarith [h.1]
    exact le_of_mul_le_mul_right this hu
  have y2 : y ≤ (m : ℚ) + m / 2 ^ 21 := by
    have : y * u ≤ ((m : ℚ) + m / 2 ^ 21) * u := by linarith [h.2]
    exact le_of_mul_le_mul_right this hu
  have hy0 : 0 < y := by
    norm_num at y1
    linarith
  have hw : w ≠ 0 := by
    rintro rfl
    rw [abs_zero] at hy
    have := mul_pos hy0 hu
    linarith
  refine ⟨hw, ?_⟩
  rw [sixDigits]
  rcases le_or_gt ((10 : ℚ) ^ 5) y with hc | hc
  · have hlog : Int.log 10 |w| = e := by
      apply log_eq
      · rw [← h3, hy, mul_comm u]
        exact mul_le_mul_of_nonneg_right hc hu.le
      · rw [h4, hy, mul_comm u]
        refine mul_lt_mul_of_pos_right ?_ hu
        norm_num at y2 ⊢
        linarith
    rw [hlog, hg, hy, mul_div_cancel_right₀ _ hu.ne']
    have hr : roundHalfEven y = (m : ℤ) := by
      apply roundHalfEven_eq
      rw [abs_lt]
      push_cast
      norm_num at y1 y2 ⊢
      constructor <;> linarith
    rw [hr, Int.toNat_natCast, if_neg hm6]
  · have hm : m = 10 ^ 5 := by
      by_contra hne
      have : (100001 : ℚ) ≤ m := by exact_mod_cast (show 100001 ≤ m by omega)
      norm_num at y1 hc
      linarith
    subst hm
    have hlog : Int.log 10 |w| = e - 1 := by
      apply log_eq
      · have : (10 : ℚ) ^ (e - 1) = u * 10 ^ 4 := by
          rw [h5, ← ten_pow (e - 1) 5]
          norm_num
          ring
        rw [this, hy, mul_comm u]
        refine mul_le_mul_of_nonneg_right ?_ hu.le
        norm_num at y1 ⊢
        linarith
      · rw [show e - 1 + 1 = e by ring, ← h3, hy, mul_comm u]
        exact mul_lt_mul_of_pos_right hc hu
    rw [hlog, hy, h5]
    have hu' : (0 : ℚ) < 10 ^ (e - 1 - 5) := zpow_pos (by norm_num) _
    rw [show y * (10 ^ (e - 1 - 5) * 10) / 10 ^ (e - 1 - 5) = y * 10 by field_simp]
    have hr : roundHalfEven (y * 10) = ((10 ^ 6 : ℕ) : ℤ) := by
      apply roundHalfEven_eq
      rw [abs_lt]
      push_cast
      norm_num at y1 hc ⊢
      constructor <;> linarith
    rw [hr, Int.toNat_natCast, if_pos rfl, show e - 1 + 1 = e by ring]

/-! ### The text -/

theorem strip0_eq (s : List Char) : ∃ k, s = strip0 s ++ List.replicate k '0' := by
  induction s using List.reverseRecOn with
  | nil => exact ⟨0, rfl⟩
  | append_singleton s c ih =>
    rw [strip0, List.reverse_append, List.reverse_singleton, List.singleton_append]
    by_cases hc : c = '0'
    · obtain ⟨k, hk⟩ := ih
      refine ⟨k + 1, ?_⟩
      rw [List.dropWhile_cons_of_pos (by simp [hc]), List.replicate_succ', ← List.append_assoc]
      change s ++ [c] = strip0 s ++ _ ++ _
      rw [← hk, hc]
    · refine ⟨0, ?_⟩
      rw [List.dropWhile_cons_of_neg (by simp [hc])]
      simp

theorem digitsVal_zeros (s : List Char) (k : ℕ) : digitsVal 0 (s ++ List.replicate k '0') = digitsVal 0 s * 10 ^ k := by
  induction k with
  | zero => simp
  | succ k ih =>
    rw [List.replicate_succ', ← List.append_assoc, digitsVal_append, ih, show digitVal '0' = 0 from rfl, pow_succ]
    ring

theorem zeros_digitsVal (s : List Char) (k : ℕ) : digitsVal 0 (List.replicate k '0' ++ s) = digitsVal 0 s := by
  induction s using List.reverseRecOn with
  | nil =>
    have := digitsVal_zeros [] k
    simpa [digitsVal] using this
  | append_singleton s c ih => rw [← List.append_assoc, digitsVal_append, ih, digitsVal_append]

/-- Dropping zeros does not change the number. -/
theorem fracOf_value (i l : List Char) :
    (digitsVal 0 (i ++ ((fracOf l).map Prod.snd).getD []) : ℚ) / 10 ^ (((fracOf l).map Prod.snd).getD []).length =
      digitsVal 0 (i ++ l) / 10 ^ l.length := by
  obtain ⟨k, hk⟩ := strip0_eq l
  have hf : ((fracOf l).map Prod.snd).getD [] = strip0 l := by
    rw [fracOf]
    split_ifs with h
    · simp [h]
    · rfl
  rw [hf]
  conv_rhs => rw [hk, ← List.append_assoc, digitsVal_zeros, List.length_append, List.length_replicate, pow_add]
  push_cast
  have : (10 : ℚ) ^ k ≠ 0 := pow_ne_zero _ (by norm_num)
  have : (10 : ℚ) ^ (strip0 l).length ≠ 0 := pow_ne_zero _ (by norm_num)
  field_simp

theorem expDigits_spec (n : ℕ) : (∀ c ∈ expDigits n, isDigit c = true) ∧ expDigits n ≠ [] ∧ digitsVal 0 (expDigits n) = n := by
  obtain ⟨h1, h2, h3⟩ := natStr_spec n
  rw [expDigits]
  split_ifs
  · refine ⟨fun c hc => ?_, by simp, ?_⟩
    · rcases List.mem_cons.1 hc with rfl | hc
      · decide
      · exact h1 c hc
    · rw [show '0' :: natStr n = List.replicate 1 '0' ++ natStr n from rfl, zeros_digitsVal, h3]
  · exact ⟨h1, h2, h3⟩

theorem strip0_subset {s : List Char} {c : Char} (h : c ∈ strip0 s) : c ∈ s := by
  obtain ⟨k, hk⟩ := strip0_eq s
  rw [hk]
  exact List.mem_append_left _ h

theorem fracOf_wf {l : List Char} (hl : ∀ c ∈ l, isDigit c = true) (c : Char) (f : List Char) (h : fracOf l = some (c, f)) :
    c = '.' ∧ ∀ d ∈ f, isDigit d = true := by
  rw [fracOf] at h
  split_ifs at h
  simp only [Option.some.injEq, Prod.mk.injEq] at h
  obtain ⟨rfl, rfl⟩ := h
  exact ⟨rfl, fun d hd => hl d (strip0_subset hd)⟩

theorem layout_wf (neg : Bool) (m : ℕ) (e : ℤ) :
    (layout neg m e).Wf isPoint ∧ ∀ c f, (layout neg m e).frac = some (c, f) → c = '.' := by
  have hs : ∀ c, signOf neg = some c → isSign c = true := by
    intro c hc
    rw [signOf] at hc
    split_ifs at hc
    cases hc
    rfl
  have hp := pad_digits 6 m
  have hne : ∀ k, (pad 6 m).take (k + 1) ≠ [] := by
    intro k h
    have := congrArg List.length h
    rw [List.length_take, length_pad] at this
    simp at this
  rw [layout]
  by_cases h1 : 0 ≤ e ∧ e < 6
  on_goal 2 => by_cases h2 : -4 ≤ e ∧ e < 0
  · rw [if_pos h1]
    have hf := fun c f => fracOf_wf (l := (pad 6 m).drop (e.toNat + 1)) (fun c hc => hp c (List.mem_of_mem_drop hc)) c f
    refine ⟨⟨hs, fun c hc => hp c (List.mem_of_mem_take hc), fun c f h => ⟨?_, (hf c f h).2⟩, (fun c s d h => nomatch h),
      .inl (hne _)⟩, fun c f h => (hf c f h).1⟩
    rw [(hf c f h).1]
    rfl
  · rw [if_neg h1, if_pos h2]
    have hf := fun c f => fracOf_wf (l := List.replicate (-e - 1).toNat '0' ++ pad 6 m) (fun c hc => by
      rcases List.mem_append.1 hc with hc | hc
      · rw [(List.mem_replicate.1 hc).2]
        decide
      · exact hp c hc) c f
    refine ⟨⟨hs, fun c hc => ?_, fun c f h => ⟨?_, (hf c f h).2⟩, (fun c s d h => nomatch h), .inl (by simp)⟩, fun c f h => (hf c f h).1⟩
    · rw [List.mem_singleton] at hc
      rw [hc]
      decide
    · rw [(hf c f h).1]
      rfl
  · rw [if_neg h1, if_neg h2]
    have hf := fun c f => fracOf_wf (l := (pad 6 m).drop 1) (fun c hc => hp c (List.mem_of_mem_drop hc)) c f
    refine ⟨⟨hs, fun c hc => hp c (List.mem_of_mem_take hc), fun c f h => ⟨?_, (hf c f h).2⟩, fun c s d h => ?_, .inl (hne 0)⟩,
      fun c f h => (hf c f h).1⟩
    · rw [(hf c f h).1]
      rfl
    · simp only [Option.some.injEq, Prod.mk.injEq] at h
      obtain ⟨rfl, rfl, rfl⟩ := h
      obtain ⟨h3, h4, -⟩ := expDigits_spec e.natAbs
      refine ⟨rfl, fun x hx => ?_, h4, h3⟩
      cases hx
      rw [expSign]
      split_ifs <;> rfl

theorem layout_value (neg : Bool) {m : ℕ} (hm : m < 10 ^ 6) (e : ℤ) :
    (layout neg m e).value = (if neg then -1 else 1) * (m * 10 ^ (e - 5)) := by
  have hsign : signOf neg = some '-' ↔ neg = true := by
    cases neg <;> simp [signOf]
  have hd := digitsVal_pad hm
  have hlen := length_pad 6 m
  have hsgn : (if signOf neg = some '-' then -1 else 1 : ℚ) = if neg then -1 else 1 := by simp only [hsign]
  rw [Num.value, layout]
  by_cases h1 : 0 ≤ e ∧ e < 6
  on_goal 2 => by_cases h2 : -4 ≤ e ∧ e < 0
  · rw [if_pos h1]
    simp only [hsgn]
    rw [mul_div_assoc, fracOf_value, List.take_append_drop, hd, List.length_drop, hlen, mul_one]
    congr 1
    rw [zpow_sub₀ (by norm_num), show (6 - (e.toNat + 1)) = 5 - e.toNat by omega]
    obtain ⟨k, rfl⟩ := Int.eq_ofNat_of_zero_le h1.1
    have : k ≤ 5 := by have := h1.2; omega
    rw [Int.toNat_natCast, zpow_natCast, show (10 : ℚ) ^ (5 : ℤ) = 10 ^ 5 by norm_num]
    have h10 : (10 : ℚ) ^ 5 = 10 ^ (5 - k) * 10 ^ k := by rw [← pow_add]; congr 1; omega
    have : (10 : ℚ) ^ (5 - k) ≠ 0 := pow_ne_zero _ (by norm_num)
    have : (10 : ℚ) ^ k ≠ 0 := pow_ne_zero _ (by norm_num)
    rw [h10]
    field_simp
  · rw [if_neg h1, if_pos h2]
    simp only [hsgn]
    rw [mul_div_assoc, fracOf_value, mul_one]
    congr 1
    rw [show ['0'] = List.replicate 1 '0' from rfl, zeros_digitsVal, zeros_digitsVal, hd, List.length_append, List.length_replicate, hlen,
      div_eq_mul_inv, ← zpow_natCast, ← zpow_neg]
    congr 2
    have := h2.2
    push_cast
    omega
  · rw [if_neg h1, if_neg h2]
    simp only [hsgn]
    rw [mul_div_assoc, fracOf_value, List.take_append_drop, hd, List.length_drop, hlen, mul_assoc]
    congr 1
    rw [(expDigits_spec _).2.2, zpow_sub₀ (by norm_num)]
    by_cases h3 : e < 0
    · rw [expSign, if_pos h3, if_pos rfl, show (10 : ℚ) ^ e = 1 / 10 ^ e.natAbs by
        rw [one_div, ← zpow_natCast, ← zpow_neg]
        congr 1
        omega]
      norm_num
      ring
    · rw [expSign, if_neg h3, if_neg (by decide), show (10 : ℚ) ^ e = 10 ^ e.natAbs by
        rw [← zpow_natCast]
        congr 1
        omega]
      norm_num
      ring

/-! ### C131 -/

/-- Numbers with at most six significant digits. -/
def Six (q : ℚ) : Prop := ∃ z k : ℤ, |z| < 10 ^ 6 ∧ q = z * 10 ^ k

/-- The number of the text. -/
def shown (v : ℚ) : ℚ := if v = 0 then 0 else (if v < 0 then -1 else 1) * ((sixDigits v).1 * 10 ^ ((sixDigits v).2 - 5))

theorem formatG_num (v : ℚ) : ∃ n : Num, formatG v = n.text ∧ n.Wf isPoint ∧ (∀ c f, n.frac = some (c, f) → c = '.') ∧ n.value = shown v := by
  rw [formatG, shown]
  split_ifs with h h'
  · refine ⟨⟨none, ['0'], none, none⟩, rfl, ⟨(fun c h => nomatch h), (fun c h => ?_), (fun c f h => nomatch h),
      (fun c s d h => nomatch h), .inl (by simp)⟩, (fun c f h => nomatch h), ?_⟩
    · rw [List.mem_singleton] at h
      rw [h]
      decide
    · simp [Num.value, digitsVal, digitVal]
  · refine ⟨_, rfl, (layout_wf _ _ _).1, (layout_wf _ _ _).2, ?_⟩
    rw [layout_value _ (sixDigits_spec h).2.1]
    simp [h']
  · refine ⟨_, rfl, (layout_wf _ _ _).1, (layout_wf _ _ _).2, ?_⟩
    rw [layout_value _ (sixDigits_spec h).2.1]
    simp [h']

theorem fuzzyBack_formatG (L : Loc) (hL : L.Ok) (v : ℚ) (a r : List Char) (ha : ∀ c ∈ a, isSpace c = true) (hr : Stop r) :
    fuzzyBack L (a ++ (formatG v ++ r)) = some (shown v) := by
  obtain ⟨n, h1, h2, h3, h4⟩ := formatG_num v
  rw [h1, fuzzyBack_text L hL n h2 (fun c f h => .inl (h3 c f h)) a r ha hr, h4]

theorem shown_six (v : ℚ) : Six (shown v) := by
  rw [shown]
  split_ifs with h h'
  · exact ⟨0, 0, by norm_num, by simp⟩
  · have := (sixDigits_spec h).2.1
    refine ⟨-((sixDigits v).1 : ℤ), (sixDigits v).2 - 5, ?_, ?_⟩
    · rw [abs_neg, Nat.abs_cast]
      exact_mod_cast this
    · push_cast
      ring
  · have := (sixDigits_spec h).2.1
    refine ⟨((sixDigits v).1 : ℤ), (sixDigits v).2 - 5, ?_, ?_⟩
    · rw [Nat.abs_cast]
      exact_mod_cast this
    · push_cast
      ring

theorem abs_shown_sub {v : ℚ} (h : v ≠ 0) : |shown v - v| =
    |(roundHalfEven (|v| / 10 ^ (Int.log 10 |v| - 5)) : ℚ) - |v| / 10 ^ (Int.log 10 |v| - 5)| * 10 ^ (Int.log 10 |v| - 5) := by
  have hu : (0 : ℚ) < 10 ^ (Int.log 10 |v| - 5) := zpow_pos (by norm_num) _
  rw [shown, if_neg h, (sixDigits_spec h).2.2]
  generalize (10 : ℚ) ^ (Int.log 10 |v| - 5) = u at *
  have key : (roundHalfEven (|v| / u) : ℚ) * u - |v| = ((roundHalfEven (|v| / u) : ℚ) - |v| / u) * u := by field_simp
  split_ifs with h'
  · rw [show -1 * ((roundHalfEven (|v| / u) : ℚ) * u) - v = -((roundHalfEven (|v| / u) : ℚ) * u - |v|) by rw [abs_of_neg h']; ring, abs_neg,
      key, abs_mul, abs_of_pos hu]
  · have : 1 * ((roundHalfEven (|v| / u) : ℚ) * u) - v = (roundHalfEven (|v| / u) : ℚ) * u - |v| := by rw [abs_of_nonneg (not_lt.1 h')]; ring
    rw [this, key, abs_mul, abs_of_pos hu]

/-- No number of six digits is nearer. -/
theorem shown_nearest (v q : ℚ) (hq : Six q) : |shown v - v| ≤ |q - v| := by
  by_cases h : v = 0
  · subst h
    simp [shown]
  obtain ⟨z, k, hz, rfl⟩ := hq
  rw [abs_shown_sub h]
  have hu : (0 : ℚ) < 10 ^ (Int.log 10 |v| - 5) := zpow_pos (by norm_num) _
  obtain ⟨h1, -⟩ := log_bounds h
  -- any multiple of the unit
  have hmul : ∀ y : ℤ, |(roundHalfEven (|v| / 10 ^ (Int.log 10 |v| - 5)) : ℚ) - |v| / 10 ^ (Int.log 10 |v| - 5)| * 10 ^ (Int.log 10 |v| - 5) ≤
      abs ((y : ℚ) * 10 ^ (Int.log 10 |v| - 5) - abs v) := by
    intro y
    have := mul_le_mul_of_nonneg_right (roundHalfEven_nearest (|v| / 10 ^ (Int.log 10 |v| - 5)) y) hu.le
    refine this.trans (le_of_eq ?_)
    rw [← abs_of_pos hu, ← abs_mul, abs_of_pos hu]
    congr 1
    field_simp
  have hsig : ∀ x : ℚ, abs ((if v < 0 then -x else x) - abs v) = abs (x - v) := by
    intro x
    split_ifs with h'
    · rw [abs_of_neg h', show -x - -v = -(x - v) by ring, abs_neg]
    · rw [abs_of_nonneg (not_lt.1 h')]
  rcases le_or_gt (Int.log 10 |v| - 5) k with hk | hk
  · obtain ⟨j, hj⟩ := Int.le.dest hk
    have hpow : (10 : ℚ) ^ k = 10 ^ j * 10 ^ (Int.log 10 |v| - 5) := by
      rw [← hj, zpow_add₀ (by norm_num), zpow_natCast, mul_comm]
    rw [← hsig]
    have := hmul (if v < 0 then -(z * 10 ^ j) else z * 10 ^ j)
    refine this.trans (le_of_eq ?_)
    congr 2
    split_ifs <;> push_cast <;> rw [hpow] <;> ring
  · have h2 := hmul (10 ^ 5)
    have h3 := ten_pow (Int.log 10 |v|) 5
    push_cast at h3 h2
    rw [show (100000 : ℚ) = 10 ^ 5 by norm_num, mul_comm ((10 : ℚ) ^ 5), h3,
      abs_of_nonpos (a := (10 : ℚ) ^ Int.log 10 |v| - |v|) (by linarith)] at h2
    refine h2.trans ?_
    have h4 : |(z : ℚ) * 10 ^ k| ≤ 10 ^ Int.log 10 |v| := by
      rw [abs_mul, abs_of_pos (zpow_pos (by norm_num : (0 : ℚ) < 10) k)]
      have hz' : |(z : ℚ)| ≤ 10 ^ 6 := by exact_mod_cast hz.le
      calc |(z : ℚ)| * 10 ^ k ≤ 10 ^ 6 * 10 ^ k := mul_le_mul_of_nonneg_right hz' (zpow_pos (by norm_num) k).le
        _ = 10 ^ (k + 6) := by rw [zpow_add₀ (by norm_num)]; norm_num; ring
        _ ≤ 10 ^ Int.log 10 |v| := zpow_le_zpow_right₀ (by norm_num) (by omega)
    have h5 : |v| - |(z : ℚ) * 10 ^ k| ≤ |(z : ℚ) * 10 ^ k - v| := by
      rw [abs_sub_comm]
      exact abs_sub_abs_le_abs_sub _ _
    linarith

theorem shown_close (v : ℚ) : |shown v - v| ≤ |v| * (5 / 10 ^ 6) := by
  by_cases h : v = 0
  · subst h
    simp [shown]
  rw [abs_shown_sub h]
  have hu : (0 : ℚ) < 10 ^ (Int.log 10 |v| - 5) := zpow_pos (by norm_num) _
  obtain ⟨h1, -⟩ := log_bounds h
  have h3 := ten_pow (Int.log 10 |v|) 5
  push_cast at h3
  have := mul_le_mul_of_nonneg_right (roundHalfEven_near (|v| / 10 ^ (Int.log 10 |v| - 5))) hu.le
  norm_num at h3 ⊢
  linarith

/-- Near the number of a text, the text is the same. -/
theorem formatG_near {v w : ℚ} (h : |w - shown v| ≤ |shown v| / 2 ^ 21) : formatG w = formatG v := by
  by_cases hv : v = 0
  · subst hv
    simp only [shown, if_true, sub_zero, abs_zero, zero_div] at h
    rw [abs_nonpos_iff.1 h]
  · obtain ⟨h1, h2, -⟩ := sixDigits_spec hv
    have hu : (0 : ℚ) < 10 ^ ((sixDigits v).2 - 5) := zpow_pos (by norm_num) _
    have hm : (0 : ℚ) < (sixDigits v).1 := by exact_mod_cast (show 0 < (sixDigits v).1 by omega)
    have hx := mul_pos hm hu
    generalize hX : ((sixDigits v).1 : ℚ) * 10 ^ ((sixDigits v).2 - 5) = X at *
    have habs : |shown v| = X := by
      rw [shown, if_neg hv, hX]
      split_ifs
      · rw [abs_mul, abs_of_pos hx]; norm_num
      · rw [one_mul, abs_of_pos hx]
    have hw : |(|w| - X)| ≤ X / 2 ^ 21 := by
      rw [← habs]
      exact (abs_abs_sub_abs_le _ _).trans h
    rw [← hX] at hw
    obtain ⟨hw0, hw6⟩ := sixDigits_near h1 h2 hw
    have hsign : decide (w < 0) = decide (v < 0) := by
      rw [habs, abs_le] at h
      simp only [shown, if_neg hv, hX] at h
      rw [decide_eq_decide]
      have : X / 2 ^ 21 < X := by rw [div_lt_iff₀ (by norm_num)]; norm_num; linarith
      split_ifs at h with hn
      · exact ⟨fun _ => hn, fun _ => by linarith [h.2]⟩
      · exact ⟨fun hw => by linarith [h.1], fun hv => absurd hv hn⟩
    rw [formatG, if_neg hw0, formatG, if_neg hv, hw6, hsign]

/-- C131: the text of a number, after white space and before any text that does not go on with it, is read as a number of six significant
digits to which no other such number is nearer. -/
theorem C131_nearest (L : Loc) (hL : L.Ok) (v : ℚ) (a r : List Char) (ha : ∀ c ∈ a, isSpace c = true) (hr : Stop r) :
    ∃ q, fuzzyBack L (a ++ (formatG v ++ r)) = some q ∧ Six q ∧ (∀ q', Six q' → |q - v| ≤ |q' - v|) ∧ |q - v| ≤ |v| * (5 / 10 ^ 6) :=
  ⟨_, fuzzyBack_formatG L hL v a r ha hr, shown_six v, shown_nearest v, shown_close v⟩

theorem stop_nil : Stop [] := fun c t h => by cases h

theorem fuzzyBack_alone (L : Loc) (hL : L.Ok) (v : ℚ) : fuzzyBack L (formatG v) = some (shown v) := by
  simpa using fuzzyBack_formatG L hL v [] [] (by simp) stop_nil

/-- C131: a number of six digits comes back. -/
theorem C131_exact (L : Loc) (hL : L.Ok) (v : ℚ) (hv : Six v) : fuzzyBack L (formatG v) = some v := by
  have := shown_nearest v v hv
  rw [sub_self, abs_zero, abs_nonpos_iff, sub_eq_zero] at this
  rw [fuzzyBack_alone L hL, this]

/-- C131: and only such a number. -/
theorem C131_iff (L : Loc) (hL : L.Ok) (v : ℚ) : fuzzyBack L (formatG v) = some v ↔ Six v := by
  refine ⟨fun h => ?_, C131_exact L hL v⟩
  rw [fuzzyBack_alone L hL, Option.some.injEq] at h
  rw [← h]
  exact shown_six v

/-- C131: the order of numbers is kept. -/
theorem C131_order (L : Loc) (hL : L.Ok) (v w : ℚ) (h : v ≤ w) :
    ∃ p q, fuzzyBack L (formatG v) = some p ∧ fuzzyBack L (formatG w) = some q ∧ p ≤ q := by
  refine ⟨_, _, fuzzyBack_alone L hL v, fuzzyBack_alone L hL w, ?_⟩
  rcases h.eq_or_lt with rfl | h
  · exact le_refl _
  by_contra hlt
  rw [not_le] at hlt
  have h1 := shown_nearest v _ (shown_six w)
  have h2 := shown_nearest w _ (shown_six v)
  rcases abs_cases (shown v - v) with ⟨e1, c1⟩ | ⟨e1, c1⟩ <;> rcases abs_cases (shown w - v) with ⟨e2, c2⟩ | ⟨e2, c2⟩ <;>
    rcases abs_cases (shown w - w) with ⟨e3, c3⟩ | ⟨e3, c3⟩ <;> rcases abs_cases (shown v - w) with ⟨e4, c4⟩ | ⟨e4, c4⟩ <;> linarith

/-- C131: entering the text as it is, in double precision, displays the same text. -/
theorem C131_stable (L : Loc) (hL : L.Ok) (v q : ℚ) (h : fuzzyBack L (formatG v) = some q) : formatG (fl q) = formatG v := by
  rw [fuzzyBack_alone L hL, Option.some.injEq] at h
  subst h
  apply formatG_near
  refine (fl_near _).trans ?_
  have := abs_nonneg (shown v)
  norm_num
  linarith

theorem fl_le (x : ℚ) : |fl x| ≤ |x| + |x| / 2 ^ 53 := by
  calc |fl x| = |(fl x - x) + x| := by ring_nf
    _ ≤ |fl x - x| + |x| := abs_add_le _ _
    _ ≤ _ := by linarith [fl_near x]

/-- Reading, dividing and multiplying changes little. -/
theorem back_near (q m : ℚ) (hm : m ≠ 0) : |fl (q) / m * m - q| ≤ |q| / 2 ^ 53 ∧ |fl (fl q / m) * m - q| ≤ |q| / 2 ^ 51 ∧
    |fl (fl (fl q / m) * m) - q| ≤ |q| / 2 ^ 50 := by
  have h1 := fl_near q
  have hle := fl_le q
  have h2 := fl_near (fl q / m)
  have h0 := abs_nonneg q
  have hx : fl q / m * m = fl q := div_mul_cancel₀ _ hm
  have h3 : |fl (fl q / m) * m - fl q| ≤ |fl q| / 2 ^ 53 := by
    have : fl (fl q / m) * m - fl q = (fl (fl q / m) - fl q / m) * m := by rw [sub_mul, hx]
    rw [this, abs_mul]
    calc |fl (fl q / m) - fl q / m| * |m| ≤ |fl q / m| / 2 ^ 53 * |m| := mul_le_mul_of_nonneg_right h2 (abs_nonneg m)
      _ = |fl q / m * m| / 2 ^ 53 := by rw [abs_mul]; ring
      _ = |fl q| / 2 ^ 53 := by rw [hx]
  have h4 : |fl (fl q / m) * m - q| ≤ |q| / 2 ^ 53 + |fl q| / 2 ^ 53 := by
    calc |fl (fl q / m) * m - q| = |(fl (fl q / m) * m - fl q) + (fl q - q)| := by ring_nf
      _ ≤ |fl (fl q / m) * m - fl q| + |fl q - q| := abs_add_le _ _
      _ ≤ _ := by linarith
  have h5 : |fl (fl q / m) * m| ≤ |q| + (|q| / 2 ^ 53 + |fl q| / 2 ^ 53) := by
    calc |fl (fl q / m) * m| = |(fl (fl q / m) * m - q) + q| := by ring_nf
      _ ≤ |fl (fl q / m) * m - q| + |q| := abs_add_le _ _
      _ ≤ _ := by linarith
  have h6 := fl_near (fl (fl q / m) * m)
  have h7 : |fl (fl (fl q / m) * m) - q| ≤ |fl (fl q / m) * m| / 2 ^ 53 + (|q| / 2 ^ 53 + |fl q| / 2 ^ 53) := by
    calc |fl (fl (fl q / m) * m) - q| = |(fl (fl (fl q / m) * m) - fl (fl q / m) * m) + (fl (fl q / m) * m - q)| := by ring_nf
      _ ≤ |fl (fl (fl q / m) * m) - fl (fl q / m) * m| + |fl (fl q / m) * m - q| := abs_add_le _ _
      _ ≤ _ := by linarith
  refine ⟨by rw [hx]; exact h1, ?_, ?_⟩
  · norm_num at hle h4 ⊢
    linarith
  · norm_num at hle h5 h7 ⊢
    linarith

theorem stop_space (s : List Char) : Stop (' ' :: s) := by
  intro c t h
  cases h
  decide

/-- C131: physical values, in double precision, whatever the units: the text, read and written, is the same, and the value that is read
is within six millionths of the value. -/
theorem C131_physical (L : Loc) (hL : L.Ok) (multiplier : ℚ) (hm : multiplier ≠ 0) (units : List Char) (v : ℚ) :
    ∃ w, physicalBackD L multiplier (physicalConvert multiplier units v) = some w ∧
      physicalConvert multiplier units w = physicalConvert multiplier units v ∧ |w - v| ≤ |v| * (6 / 10 ^ 6) := by
  have hb := fuzzyBack_formatG L hL (fl (v * multiplier)) [] (' ' :: units) (by simp) (stop_space units)
  rw [List.nil_append] at hb
  refine ⟨fl (fl (shown (fl (v * multiplier))) / multiplier), ?_, ?_, ?_⟩
  · rw [physicalBackD, physicalConvert, hb]
    simp only [if_neg hm]
  · rw [physicalConvert, physicalConvert]
    congr 1
    apply formatG_near
    refine (back_near _ multiplier hm).2.2.trans ?_
    have := abs_nonneg (shown (fl (v * multiplier)))
    norm_num
    linarith
  · have h1 := (back_near (shown (fl (v * multiplier))) multiplier hm).2.1
    have h2 := shown_close (fl (v * multiplier))
    have h3 := fl_near (v * multiplier)
    have h4 := fl_le (v * multiplier)
    generalize fl (v * multiplier) = x at *
    generalize shown x = y at *
    generalize fl (fl y / multiplier) = w at *
    have h5 : |y| ≤ |x| + |x| * (5 / 10 ^ 6) := by
      calc |y| = |(y - x) + x| := by ring_nf
        _ ≤ |y - x| + |x| := abs_add_le _ _
        _ ≤ _ := by linarith
    have h6 : |w * multiplier - v * multiplier| ≤ |y| / 2 ^ 51 + |x| * (5 / 10 ^ 6) + |v * multiplier| / 2 ^ 53 := by
      calc |w * multiplier - v * multiplier| = |(w * multiplier - y) + (y - x) + (x - v * multiplier)| := by ring_nf
        _ ≤ |(w * multiplier - y) + (y - x)| + |x - v * multiplier| := abs_add_le _ _
        _ ≤ |w * multiplier - y| + |y - x| + |x - v * multiplier| := by linarith [abs_add_le (w * multiplier - y) (y - x)]
        _ ≤ _ := by linarith
    have h7 : |w * multiplier - v * multiplier| ≤ |v * multiplier| * (6 / 10 ^ 6) := by
      have := abs_nonneg (v * multiplier)
      generalize |v * multiplier| = b at *
      norm_num at h4 h5 h6 ⊢
      linarith
    rw [← sub_mul, abs_mul, abs_mul, mul_right_comm] at h7
    exact le_of_mul_le_mul_right h7 (abs_pos.2 hm)

/-- C131: what is not finite is read as zero. -/
theorem C131_not_finite (L : Loc) (x : Flt64) (h : ∀ q, x ≠ .fin q) : fuzzyBack L x.text = some 0 := by
  cases x with
  | fin q => exact absurd rfl (h q)
  | inf b => cases b <;> rfl
  | nan => rfl

example : formatG (1 / 3) = "0.333333".toList ∧ formatG (-1234567) = "-1.23457e+06".toList ∧ formatG 100000 = "100000".toList ∧
    formatG (9999995 / 10) = "1e+06".toList ∧ formatG (1 / 100000) = "1e-05".toList ∧ formatG (1 / 10000) = "0.0001".toList ∧
    formatG (5 / 2) = "2.5".toList := by decide +kernel

example : fuzzyBack ⟨',', some '.'⟩ (formatG (-1234567)) = some (-1234570) ∧
    physicalBackD ⟨'.', none⟩ 1000 (physicalConvert 1000 "eV".toList (1 / 8)) = some (1 / 8) := by decide +kernel

end Verif.Converter
