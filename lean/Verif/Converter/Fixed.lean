import Verif.Converter.General
import Verif.Converter.Strict

/-!
C155: floats displayed with a fixed number of digits, `FloatToStringConverter` with the formats `{:.0f}`, `{:.1f}`, …
(`nion/utils/Converter.py:35-73`).

The text is that of Python: correctly rounded from the exact value, halves to even, all digits after the point, the sign also of zero
(`-0.00`). Floats are a sign and a magnitude; which magnitudes are floats, and to which of two equally near floats a text is read, is
left open: the theorems hold for every set of numbers.
-/

namespace Verif.Converter

/-- A finite float. -/
structure SignedFloat where
  neg : Bool
  mag : ℚ
  nonneg : 0 ≤ mag

def SignedFloat.value (x : SignedFloat) : ℚ := (if x.neg then -1 else 1) * x.mag

/-- The magnitude in units of the last digit. -/
def SignedFloat.units (d : ℕ) (x : SignedFloat) : ℕ := (roundHalfEven (x.mag * 10 ^ d)).toNat

/-- The parts of the text. -/
def fixedNum (d : ℕ) (x : SignedFloat) : Num :=
  ⟨signOf x.neg, natStr (x.units d / 10 ^ d), if d = 0 then none else some ('.', pad d (x.units d % 10 ^ d)), none⟩

/-- `"{:.df}".format(x)` (line 46). -/
def fixedText (d : ℕ) (x : SignedFloat) : List Char := (fixedNum d x).text

/-! ### Specification -/

/-- A number with at most `d` digits after the point. -/
def Dec (d : ℕ) (q : ℚ) : Prop := ∃ z : ℤ, q * 10 ^ d = z

/-- `y` is what a text with the sign `neg` and the number `q` is read as: a float to which no float is nearer. -/
def ReadAs (D : Set ℚ) (neg : Bool) (q : ℚ) (y : SignedFloat) : Prop :=
  y.neg = neg ∧ y.mag ∈ D ∧ ∀ m ∈ D, abs (y.mag - abs q) ≤ abs (m - abs q)

/-- A text begins with a minus sign, after white space. -/
def isNegative (s : List Char) : Bool := (s.dropWhile isSpace).head? = some '-'

/-! ### Proofs -/

theorem round_nonneg {x : ℚ} (h : 0 ≤ x) : 0 ≤ roundHalfEven x := by
  have : 0 ≤ ⌊x⌋ := Int.floor_nonneg.2 h
  rw [roundHalfEven]
  split_ifs <;> omega

theorem units_cast (d : ℕ) (x : SignedFloat) : ((x.units d : ℕ) : ℤ) = roundHalfEven (x.mag * 10 ^ d) := by
  rw [SignedFloat.units, Int.toNat_of_nonneg]
  exact round_nonneg (mul_nonneg x.nonneg (by positivity))

theorem fixedNum_wf (d : ℕ) (x : SignedFloat) : (fixedNum d x).Wf isPoint ∧ (∀ c f, (fixedNum d x).frac = some (c, f) → c = '.') := by
  obtain ⟨h1, h2, -⟩ := natStr_spec (x.units d / 10 ^ d)
  have hf : ∀ c f, (fixedNum d x).frac = some (c, f) → c = '.' ∧ f = pad d (x.units d % 10 ^ d) := by
    intro c f h
    simp only [fixedNum] at h
    split_ifs at h
    cases h
    exact ⟨rfl, rfl⟩
  refine ⟨⟨fun c hc => ?_, h1, fun c f h => ?_, (fun c s e h => nomatch h), .inl h2⟩, fun c f h => (hf c f h).1⟩
  · simp only [fixedNum, signOf] at hc
    split_ifs at hc
    cases hc
    rfl
  · obtain ⟨rfl, rfl⟩ := hf c f h
    exact ⟨rfl, pad_digits _ _⟩

theorem digitsVal_append_list (s t : List Char) : digitsVal 0 (s ++ t) = digitsVal 0 s * 10 ^ t.length + digitsVal 0 t := by
  induction t using List.reverseRecOn with
  | nil => simp [digitsVal]
  | append_singleton t c ih =>
    rw [← List.append_assoc, digitsVal_append, ih, digitsVal_append, List.length_append, List.length_singleton, pow_succ]
    ring

theorem fixedNum_value (d : ℕ) (x : SignedFloat) :
    (fixedNum d x).value = (if x.neg then -1 else 1) * (x.units d / 10 ^ d) := by
  have hs : (if (fixedNum d x).sign = some '-' then -1 else 1 : ℚ) = if x.neg then -1 else 1 := by
    cases h : x.neg <;> simp [fixedNum, signOf, h]
  rw [Num.value, hs]
  have he : (fixedNum d x).exp = none := rfl
  simp only [he, mul_one]
  rw [mul_div_assoc]
  congr 1
  rcases Nat.eq_zero_or_pos d with rfl | hd
  · simp only [fixedNum, if_true, Option.map_none, Option.getD_none, List.append_nil, pow_zero, Nat.div_one, List.length_nil, div_one]
    rw [(natStr_spec _).2.2]
  · simp only [fixedNum, if_neg (show d ≠ 0 by omega), Option.map_some, Option.getD_some, length_pad]
    rw [digitsVal_append_list, (natStr_spec _).2.2, length_pad, digitsVal_pad (Nat.mod_lt _ (by positivity))]
    congr 2
    rw [mul_comm]
    exact Nat.div_add_mod _ _

/-- The number of the text. -/
def shownFixed (d : ℕ) (x : SignedFloat) : ℚ := (if x.neg then -1 else 1) * (x.units d / 10 ^ d)

theorem fuzzyBack_fixed (L : Loc) (hL : L.Ok) (d : ℕ) (x : SignedFloat) (a r : List Char) (ha : ∀ c ∈ a, isSpace c = true) (hr : Stop r) :
    fuzzyBack L (a ++ (fixedText d x ++ r)) = some (shownFixed d x) := by
  obtain ⟨h1, h2⟩ := fixedNum_wf d x
  rw [fixedText, fuzzyBack_text L hL _ h1 (fun c f h => .inl (h2 c f h)) a r ha hr, fixedNum_value, shownFixed]

/-- The text of a number with digits before the point is read by `float`. -/
theorem strictBack_text (L : Loc) (hL : L.Ok) (n : Num) (h : n.Wf isPoint) (hp : n.PointOk L) (hi : n.int ≠ []) :
    strictBack L n.text = some (.fin n.value) := by
  have hts : ∀ t, L.ts = some t → t ≠ '.' → t ∉ n.text := by
    intro t ht h1 hm
    rcases text_chars h hm with hc | ⟨f, hf⟩
    · exact ((plain_ne hc).2 L hL).2 t ht rfl
    · rcases hp t f hf with h2 | h2
      · exact h1 h2
      · exact (hL.ts t ht).1 h2
  have hmap : (n.text.map fun c => if c = '.' ∨ c = L.dp then '.' else c) = n.dot.text := by
    refine map_text h _ (fun c hc => ?_) (fun c f hf => ?_)
    · have h1 := (plain_ne hc).1
      have h2 := ((plain_ne hc).2 L hL).1
      rw [if_neg (by tauto)]
    · rw [if_pos (hp c f hf)]
  rw [strictBack, delocalized L hL _ hts, hmap, pyFloat]
  have hw : n.dot.Wf isPoint := by
    have := wf_dot h
    refine ⟨this.sign, this.int, fun c f hf => ?_, this.exp, this.digit⟩
    obtain ⟨h1, h2⟩ := this.frac c f hf
    simp only [decide_eq_true_eq] at h1
    subst h1
    exact ⟨rfl, h2⟩
  obtain ⟨hsp, hne⟩ := text_not_space hw
  have hstrip : strip n.dot.text = n.dot.text := by
    have hd : ∀ l : List Char, (∀ c ∈ l, isSpace c = false) → l.dropWhile isSpace = l := by
      intro l hl
      cases l with
      | nil => rfl
      | cons c l => rw [List.dropWhile_cons_of_neg (by simp [hl c (by simp)])]
    rw [strip, hd _ hsp, hd _ (fun c hc => hsp c (by simpa using hc)), List.reverse_reverse]
  have hus : '_' ∉ n.dot.text := by
    intro hm
    rcases text_chars hw hm with (hc | hc | hc) | ⟨f, hf⟩
    · exact absurd hc (by decide)
    · exact absurd hc (by decide)
    · exact absurd hc (by decide)
    · exact absurd (hw.frac _ f hf).1 (by decide)
  rw [hstrip, ungroup, if_neg hus, Option.bind_some]
  obtain ⟨c, i, hci⟩ := List.exists_cons_of_ne_nil hi
  have hc : isDigit c = true := h.int c (by rw [hci]; simp)
  have hscan : (scanSign n.dot.text).2 = c :: (i ++ (fracText n.dot.frac ++ expText n.dot.exp)) := by
    have : n.dot.text = n.sign.toList ++ (c :: (i ++ (fracText n.dot.frac ++ expText n.dot.exp))) := by
      rw [Num.text]
      simp only [Num.dot, hci, List.cons_append]
    rw [this, scanSign_append h.sign]
    intro c' t hct
    cases hct
    exact (digit_ne hc).1
  have hlow : ∀ u : List Char, ∀ x ∈ u.head?, (x = 'i' ∨ x = 'n') → lower (scanSign n.dot.text).2 ≠ u := by
    intro u x hx hxx he
    rw [hscan, lower, List.map_cons] at he
    rw [← he] at hx
    simp only [List.head?_cons, Option.mem_def, Option.some.injEq] at hx
    have hcc : c.toLower = c := by
      simp only [isDigit, Bool.and_eq_true, decide_eq_true_eq] at hc
      rw [Char.toLower]
      have : c.isUpper = false := by
        simp only [Char.isUpper, decide_eq_false_iff_not]
        rintro ⟨hge, _⟩
        have : 65 ≤ c.toNat := hge
        omega
      simp_all [Char.isUpper]
    rw [hcc] at hx
    subst hx
    rcases hxx with rfl | rfl <;> exact absurd hc (by decide)
  simp only
  rw [if_neg, if_neg, floatOf_text h]
  · rfl
  · exact hlow _ 'n' (by decide) (.inr rfl)
  · rintro (h1 | h1)
    · exact hlow _ 'i' (by decide) (.inl rfl) h1
    · exact hlow _ 'i' (by decide) (.inl rfl) h1

theorem abs_shownFixed (d : ℕ) (x : SignedFloat) : |shownFixed d x| = x.units d / 10 ^ d := by
  rw [shownFixed, abs_mul, abs_of_nonneg (show (0 : ℚ) ≤ x.units d / 10 ^ d by positivity)]
  split_ifs <;> simp

theorem shownFixed_dec (d : ℕ) (x : SignedFloat) : Dec d (shownFixed d x) := by
  refine ⟨(if x.neg then -1 else 1) * x.units d, ?_⟩
  rw [shownFixed, mul_assoc, div_mul_cancel₀ _ (by positivity)]
  push_cast
  rfl

theorem shownFixed_nearest (d : ℕ) (x : SignedFloat) (q : ℚ) (hq : Dec d q) : |shownFixed d x - x.value| ≤ |q - x.value| := by
  obtain ⟨z, hz⟩ := hq
  have h10 : (0 : ℚ) < 10 ^ d := by positivity
  have hqz : q = z / 10 ^ d := by rw [← hz]; field_simp
  have key := fun z : ℤ => roundHalfEven_nearest (x.mag * 10 ^ d) z
  have hu : (x.units d : ℚ) = roundHalfEven (x.mag * 10 ^ d) := by
    have := units_cast d x
    exact_mod_cast this
  have h1 : |shownFixed d x - x.value| = |(roundHalfEven (x.mag * 10 ^ d) : ℚ) - x.mag * 10 ^ d| / 10 ^ d := by
    rw [shownFixed, SignedFloat.value, ← mul_sub, abs_mul, hu]
    have : |(if x.neg then -1 else 1 : ℚ)| = 1 := by split_ifs <;> simp
    rw [this, one_mul, ← abs_of_pos h10, ← abs_div, abs_of_pos h10, sub_div, mul_div_assoc, div_self h10.ne', mul_one]
  rw [h1, div_le_iff₀ h10, ← abs_of_pos h10, ← abs_mul, abs_of_pos h10, sub_mul, hz, SignedFloat.value]
  rcases hn : x.neg with _ | _
  · simpa using key z
  · have := key (-z)
    simp only [if_true]
    rw [show (z : ℚ) - -1 * x.mag * 10 ^ d = -(((-z : ℤ) : ℚ) - x.mag * 10 ^ d) by push_cast; ring, abs_neg]
    exact this

/-- C155: the text of a float, after white space and before any text that does not go on with it, is read as a number with `d` digits after
the point, to which no other such number is nearer; with `fuzzy=False` the text itself is read as the same number. -/
theorem C155_nearest (L : Loc) (hL : L.Ok) (d : ℕ) (x : SignedFloat) (a r : List Char) (ha : ∀ c ∈ a, isSpace c = true) (hr : Stop r) :
    ∃ q, fuzzyBack L (a ++ (fixedText d x ++ r)) = some q ∧ strictBack L (fixedText d x) = some (.fin q) ∧
      Dec d q ∧ ∀ q', Dec d q' → |q - x.value| ≤ |q' - x.value| := by
  obtain ⟨h1, h2⟩ := fixedNum_wf d x
  refine ⟨_, fuzzyBack_fixed L hL d x a r ha hr, ?_, shownFixed_dec d x, shownFixed_nearest d x⟩
  rw [fixedText, strictBack_text L hL _ h1 (fun c f h => .inl (h2 c f h)) (natStr_spec _).2.1, fixedNum_value, shownFixed]

theorem fuzzyBack_fixed_alone (L : Loc) (hL : L.Ok) (d : ℕ) (x : SignedFloat) : fuzzyBack L (fixedText d x) = some (shownFixed d x) := by
  simpa using fuzzyBack_fixed L hL d x [] [] (by simp) stop_nil

/-- C155: exactly the numbers with `d` digits come back. -/
theorem C155_iff (L : Loc) (hL : L.Ok) (d : ℕ) (x : SignedFloat) : fuzzyBack L (fixedText d x) = some x.value ↔ Dec d x.value := by
  rw [fuzzyBack_fixed_alone L hL, Option.some.injEq]
  constructor
  · intro h
    rw [← h]
    exact shownFixed_dec d x
  · intro h
    have := shownFixed_nearest d x _ h
    rwa [sub_self, abs_zero, abs_nonpos_iff, sub_eq_zero] at this

theorem round_tie {x : ℚ} {z : ℤ} (h : |x - z| = 1 / 2) : (roundHalfEven x = z ↔ z % 2 = 0) := by
  rcases abs_cases (x - z) with ⟨e, _⟩ | ⟨e, _⟩
  · have hf : ⌊x⌋ = z := by
      rw [Int.floor_eq_iff]
      constructor <;> linarith
    have hx : x - (⌊x⌋ : ℚ) = 1 / 2 := by rw [hf, ← e, h]
    rw [roundHalfEven, hx, if_neg (lt_irrefl _), if_neg (lt_irrefl _), hf]
    split_ifs with h0
    · exact ⟨fun _ => h0, fun _ => rfl⟩
    · constructor <;> intro <;> omega
  · have hf : ⌊x⌋ = z - 1 := by
      rw [Int.floor_eq_iff]
      push_cast
      constructor <;> linarith
    have hx : x - (⌊x⌋ : ℚ) = 1 / 2 := by
      rw [hf]
      push_cast
      linarith
    rw [roundHalfEven, hx, if_neg (lt_irrefl _), if_neg (lt_irrefl _), hf]
    split_ifs with h0
    · constructor <;> intro <;> omega
    · constructor <;> intro <;> omega

/-- As near or nearer to the integer a number is rounded to. -/
theorem round_closer {x y : ℚ} (h : |y - roundHalfEven x| ≤ |x - roundHalfEven x|) : roundHalfEven y = roundHalfEven x := by
  have hx : |x - roundHalfEven x| ≤ 1 / 2 := by
    have h1 := roundHalfEven_nearest x ⌊x⌋
    have h2 := roundHalfEven_nearest x (⌊x⌋ + 1)
    rw [abs_sub_comm]
    have h3 := Int.floor_le x
    have h4 := Int.lt_floor_add_one x
    push_cast at h2
    rw [abs_of_nonpos (by linarith : (⌊x⌋ : ℚ) - x ≤ 0)] at h1
    rw [abs_of_nonneg (by linarith : (0 : ℚ) ≤ ⌊x⌋ + 1 - x)] at h2
    linarith
  rcases (h.trans hx).lt_or_eq with h1 | h1
  · exact roundHalfEven_eq h1
  · have h2 : |x - roundHalfEven x| = 1 / 2 := le_antisymm hx (h1 ▸ h)
    exact (round_tie h1).2 ((round_tie h2).1 rfl)

/-- C155: entering the text as it is displays the same text, whatever numbers are floats and whichever of two equally near floats a text
is read as. -/
theorem C155_stable (L : Loc) (hL : L.Ok) (d : ℕ) (D : Set ℚ) (x y : SignedFloat) (hx : x.mag ∈ D) (q : ℚ)
    (hq : fuzzyBack L (fixedText d x) = some q) (hy : ReadAs D (isNegative (fixedText d x)) q y) : fixedText d y = fixedText d x := by
  rw [fuzzyBack_fixed_alone L hL, Option.some.injEq] at hq
  subst hq
  obtain ⟨hneg, -, hnear⟩ := hy
  have hsign : isNegative (fixedText d x) = x.neg := by
    have hdig : ∀ l : List Char, (∀ c ∈ l, isDigit c = true) → l ≠ [] → ∀ r, isNegative (l ++ r) = false := by
      intro l hl hne r
      obtain ⟨c, l, rfl⟩ := List.exists_cons_of_ne_nil hne
      have hc := hl c (by simp)
      rw [isNegative, List.cons_append, List.dropWhile_cons_of_neg (by simp [isDigit_not_space hc])]
      simp only [List.head?_cons, Option.some.injEq, decide_eq_false_iff_not]
      rintro rfl
      exact absurd hc (by decide)
    rcases hn : x.neg with _ | _
    · simp only [fixedText, Num.text, fixedNum, signOf, hn, Bool.false_eq_true, if_false, Option.toList_none, List.nil_append]
      exact hdig _ (natStr_spec _).1 (natStr_spec _).2.1 _
    · simp only [fixedText, Num.text, fixedNum, signOf, hn, if_true, Option.toList_some, List.singleton_append, isNegative]
      rw [List.dropWhile_cons_of_neg (by decide)]
      rfl
  have h := hnear _ hx
  rw [abs_shownFixed] at h
  have h10 : (0 : ℚ) < 10 ^ d := by positivity
  have hu : (x.units d : ℚ) = roundHalfEven (x.mag * 10 ^ d) := by
    have := units_cast d x
    exact_mod_cast this
  have hscale : ∀ m : ℚ, |m - x.units d / 10 ^ d| = |m * 10 ^ d - roundHalfEven (x.mag * 10 ^ d)| / 10 ^ d := by
    intro m
    rw [← hu, eq_div_iff h10.ne', ← abs_of_pos h10, ← abs_mul, abs_of_pos h10, sub_mul, div_mul_cancel₀ _ h10.ne']
  rw [hscale, hscale, div_le_div_iff_of_pos_right h10] at h
  have hunits : y.units d = x.units d := by
    rw [SignedFloat.units, SignedFloat.units, round_closer h]
  rw [fixedText, fixedText, fixedNum, fixedNum, hunits, hneg, hsign]

/-- C155: the order of floats is kept. -/
theorem C155_order (L : Loc) (hL : L.Ok) (d : ℕ) (x y : SignedFloat) (h : x.value ≤ y.value) :
    ∃ p q, fuzzyBack L (fixedText d x) = some p ∧ fuzzyBack L (fixedText d y) = some q ∧ p ≤ q := by
  refine ⟨_, _, fuzzyBack_fixed_alone L hL d x, fuzzyBack_fixed_alone L hL d y, ?_⟩
  rcases h.eq_or_lt with he | h
  · rw [SignedFloat.value, SignedFloat.value] at he
    rw [shownFixed, shownFixed]
    have hx := x.nonneg
    have hy := y.nonneg
    have hux : x.mag = 0 → x.units d = 0 := by
      intro h0
      rw [SignedFloat.units, h0, zero_mul]
      decide +kernel
    have huy : y.mag = 0 → y.units d = 0 := by
      intro h0
      rw [SignedFloat.units, h0, zero_mul]
      decide +kernel
    rcases hnx : x.neg with _ | _ <;> rcases hny : y.neg with _ | _ <;>
      simp only [hnx, hny, if_true, Bool.false_eq_true, if_false] at he ⊢
    · have : x.mag = y.mag := by linarith
      rw [SignedFloat.units, SignedFloat.units, this]
    · rw [hux (by linarith), huy (by linarith)]
      simp
    · rw [hux (by linarith), huy (by linarith)]
      simp
    · have : x.mag = y.mag := by linarith
      rw [SignedFloat.units, SignedFloat.units, this]
  by_contra hlt
  rw [not_le] at hlt
  have h1 := shownFixed_nearest d x _ (shownFixed_dec d y)
  have h2 := shownFixed_nearest d y _ (shownFixed_dec d x)
  rcases abs_cases (shownFixed d x - x.value) with ⟨e1, c1⟩ | ⟨e1, c1⟩ <;>
    rcases abs_cases (shownFixed d y - x.value) with ⟨e2, c2⟩ | ⟨e2, c2⟩ <;>
    rcases abs_cases (shownFixed d y - y.value) with ⟨e3, c3⟩ | ⟨e3, c3⟩ <;>
    rcases abs_cases (shownFixed d x - y.value) with ⟨e4, c4⟩ | ⟨e4, c4⟩ <;> linarith

/-! ### Concrete cases -/

example : fixedText 2 ⟨true, 12345 / 1000, by norm_num⟩ = "-12.34".toList ∧ fixedText 0 ⟨false, 5 / 2, by norm_num⟩ = "2".toList ∧
    fixedText 3 ⟨true, 1 / 10000, by norm_num⟩ = "-0.000".toList ∧ fixedText 1 ⟨false, 999 / 100, by norm_num⟩ = "10.0".toList := by
  decide +kernel

example : fuzzyBack locC "-12.34".toList = some (-617 / 50) ∧ isNegative " -0.000".toList = true := by decide +kernel

/-- A set of floats so coarse that the text 0.3 is read as 1/4, half way between 0.2 and 0.3: it is displayed as 0.2, the text of 1/4. -/
example : fixedText 1 ⟨false, 1 / 4, by norm_num⟩ = "0.2".toList ∧ ReadAs {0, 1 / 4, 1} false (1 / 5) ⟨false, 1 / 4, by norm_num⟩ := by
  refine ⟨by decide +kernel, rfl, by simp, ?_⟩
  intro m hm
  rcases hm with rfl | rfl | rfl <;> norm_num [abs_of_nonneg, abs_of_neg]

end Verif.Converter
