import Mathlib.Data.List.TakeWhile
import Mathlib.Data.Nat.Notation
import Mathlib.Tactic.IntervalCases
import Mathlib.Tactic.NormNum

/-!
Integers and strings, check states (`nion/utils/Converter.py:19-33, 119-128`), C72, C78. Strings are lists of characters.

`"{:d}".format` and `int(str)` of Python are modelled for ASCII digits: leading and trailing white space is ignored, then an optional
sign and digits, single underscores between digits allowed. Other decimal digits of Unicode, which `int` also reads, and other formats
are not modelled.
-/

namespace Verif.Converter

/-- `str.isspace` characters. -/
def isSpace (c : Char) : Bool :=
  let n := c.toNat
  (9 ≤ n && n ≤ 13) || (28 ≤ n && n ≤ 32) || n == 0x85 || n == 0xa0 || n == 0x1680 || (0x2000 ≤ n && n ≤ 0x200a) || n == 0x2028 ||
    n == 0x2029 || n == 0x202f || n == 0x205f || n == 0x3000

def isDigit (c : Char) : Bool := 48 ≤ c.toNat && c.toNat ≤ 57

def digitVal (c : Char) : ℕ := c.toNat - 48

def digitChar (n : ℕ) : Char := Char.ofNat (48 + n)

/-- `str.strip()`. -/
def strip (s : List Char) : List Char := ((s.dropWhile isSpace).reverse.dropWhile isSpace).reverse

/-- The decimal digits of a number. -/
def natStr (n : ℕ) : List Char := if n < 10 then [digitChar n] else natStr (n / 10) ++ [digitChar (n % 10)]
termination_by n

/-- `"{:d}".format(n)`. -/
def intStr : ℤ → List Char
  | .ofNat n => natStr n
  | .negSucc n => '-' :: natStr (n + 1)

/-- Digits after the first. -/
def digitsFrom (acc : ℕ) : List Char → Option ℕ
  | [] => some acc
  | [c] => if isDigit c then some (acc * 10 + digitVal c) else none
  | c :: d :: rest =>
    if isDigit c then digitsFrom (acc * 10 + digitVal c) (d :: rest)
    else if c = '_' ∧ isDigit d then digitsFrom (acc * 10 + digitVal d) rest
    else none

def parseNat : List Char → Option ℕ
  | [] => none
  | c :: rest => if isDigit c then digitsFrom (digitVal c) rest else none

/-- `int(s)`; `none` is a `ValueError`. -/
def parseInt (s : List Char) : Option ℤ :=
  match strip s with
  | [] => none
  | c :: t =>
    if c = '-' then (parseNat t).map fun n : ℕ => -(n : ℤ)
    else if c = '+' then (parseNat t).map fun n : ℕ => (n : ℤ)
    else (parseNat (c :: t)).map fun n : ℕ => (n : ℤ)

/-- Lines 26-28. -/
def intConvert (n : ℤ) : List Char := intStr n

/-- Lines 30-32. -/
def intConvertBack (s : List Char) : Option ℤ := parseInt s

/-! ### Digits -/

theorem digitChar_spec {n : ℕ} (h : n < 10) :
    isDigit (digitChar n) = true ∧ digitVal (digitChar n) = n ∧ isSpace (digitChar n) = false := by
  interval_cases n <;> decide

theorem isDigit_not_space {c : Char} (h : isDigit c = true) : isSpace c = false := by
  simp only [isDigit, Bool.and_eq_true, decide_eq_true_eq] at h
  simp only [isSpace]
  obtain ⟨h1, h2⟩ := h
  generalize c.toNat = n at *
  interval_cases n <;> decide

theorem isDigit_ne {c : Char} (h : isDigit c = true) : c ≠ '-' ∧ c ≠ '+' ∧ c ≠ '_' := by
  refine ⟨?_, ?_, ?_⟩ <;> rintro rfl <;> revert h <;> decide

/-- The number written by digits. -/
def digitsVal (acc : ℕ) (s : List Char) : ℕ := s.foldl (fun a c => a * 10 + digitVal c) acc

theorem digitsFrom_digits {s : List Char} (h : ∀ c ∈ s, isDigit c = true) (acc : ℕ) : digitsFrom acc s = some (digitsVal acc s) := by
  induction s generalizing acc with
  | nil => rfl
  | cons c s ih =>
    have hc := h c List.mem_cons_self
    have hs : ∀ d ∈ s, isDigit d = true := fun d hd => h d (List.mem_cons_of_mem _ hd)
    cases s with
    | nil => simp [digitsFrom, hc, digitsVal]
    | cons d s =>
      rw [digitsFrom, if_pos hc, ih hs]
      rfl

theorem parseNat_digits {s : List Char} (hne : s ≠ []) (h : ∀ c ∈ s, isDigit c = true) : parseNat s = some (digitsVal 0 s) := by
  cases s with
  | nil => exact absurd rfl hne
  | cons c s =>
    rw [parseNat, if_pos (h c List.mem_cons_self), digitsFrom_digits fun d hd => h d (List.mem_cons_of_mem _ hd)]
    simp [digitsVal]

theorem natStr_spec (n : ℕ) : (∀ c ∈ natStr n, isDigit c = true) ∧ natStr n ≠ [] ∧ digitsVal 0 (natStr n) = n := by
  induction n using Nat.strongRecOn with
  | ind n ih =>
    rw [natStr]
    split
    · next h =>
      refine ⟨?_, by simp, ?_⟩
      · intro c hc
        rw [List.mem_singleton] at hc
        exact hc ▸ (digitChar_spec h).1
      · simp [digitsVal, (digitChar_spec h).2.1]
    · next h =>
      obtain ⟨h1, -, h3⟩ := ih (n / 10) (by omega)
      have hm := digitChar_spec (Nat.mod_lt n (show 0 < 10 by omega))
      refine ⟨?_, by simp, ?_⟩
      · intro c hc
        rcases List.mem_append.1 hc with hc | hc
        · exact h1 c hc
        · rw [List.mem_singleton] at hc
          exact hc ▸ hm.1
      · rw [digitsVal, List.foldl_append]
        change (digitsVal 0 (natStr (n / 10))) * 10 + digitVal (digitChar (n % 10)) = n
        rw [h3, hm.2.1]
        omega

theorem dropWhile_all {s t : List Char} (h : ∀ c ∈ s, isSpace c = true) : (s ++ t).dropWhile isSpace = t.dropWhile isSpace := by
  induction s with
  | nil => rfl
  | cons c s ih =>
    rw [List.cons_append, List.dropWhile_cons_of_pos (h c List.mem_cons_self)]
    exact ih fun d hd => h d (List.mem_cons_of_mem _ hd)

theorem dropWhile_none {s : List Char} (h : ∀ c ∈ s, isSpace c = false) : s.dropWhile isSpace = s := by
  cases s with
  | nil => rfl
  | cons c s => rw [List.dropWhile_cons_of_neg (by rw [h c List.mem_cons_self]; simp)]

/-- White space around something without is removed. -/
theorem strip_spaces {a s b : List Char} (ha : ∀ c ∈ a, isSpace c = true) (hs : ∀ c ∈ s, isSpace c = false)
    (hb : ∀ c ∈ b, isSpace c = true) : strip (a ++ s ++ b) = s := by
  rw [strip, List.append_assoc, dropWhile_all ha]
  cases s with
  | nil =>
    have : b.dropWhile isSpace = [] := by
      have := dropWhile_all (t := []) hb
      simpa using this
    simp [this]
  | cons c s =>
    rw [List.cons_append, List.dropWhile_cons_of_neg (by rw [hs c List.mem_cons_self]; simp), ← List.cons_append, List.reverse_append,
      dropWhile_all (fun c hc => hb c (List.mem_reverse.1 hc)), dropWhile_none (fun d hd => hs d (List.mem_reverse.1 hd)),
      List.reverse_reverse]

theorem intStr_not_space (n : ℤ) : ∀ c ∈ intStr n, isSpace c = false := by
  intro c hc
  cases n with
  | ofNat n => exact isDigit_not_space ((natStr_spec n).1 c hc)
  | negSucc n =>
    rcases List.mem_cons.1 hc with rfl | hc
    · decide
    · exact isDigit_not_space ((natStr_spec (n + 1)).1 c hc)

theorem parse_natStr (n : ℕ) : parseNat (natStr n) = some n := by
  obtain ⟨h1, h2, h3⟩ := natStr_spec n
  rw [parseNat_digits h2 h1, h3]

/-! ### C72 -/

/-- C72: an integer written and read, with white space around, is the integer. -/
theorem C72_spaces (n : ℤ) (a b : List Char) (ha : ∀ c ∈ a, isSpace c = true) (hb : ∀ c ∈ b, isSpace c = true) :
    intConvertBack (a ++ intConvert n ++ b) = some n := by
  rw [intConvertBack, parseInt, intConvert, strip_spaces ha (intStr_not_space n) hb]
  cases n with
  | ofNat n =>
    obtain ⟨h1, h2, -⟩ := natStr_spec n
    have hp := parse_natStr n
    simp only [intStr]
    rcases hs : natStr n with _ | ⟨c, t⟩
    · exact absurd hs h2
    · have hc := isDigit_ne (h1 c (by rw [hs]; exact List.mem_cons_self))
      rw [hs] at hp
      simp [hc.1, hc.2.1, hp]
  | negSucc n =>
    simp only [intStr]
    rw [if_pos trivial, parse_natStr, Option.map_some, Int.negSucc_eq]
    push_cast
    rfl

/-- C72: the round trip. -/
theorem C72_round_trip (n : ℤ) : intConvertBack (intConvert n) = some n := by
  have := C72_spaces n [] [] (by simp) (by simp)
  simpa using this

/-- C72: so different integers have different strings. -/
theorem C72_injective (m n : ℤ) (h : intConvert m = intConvert n) : m = n := by
  have := C72_round_trip m
  rw [h, C72_round_trip] at this
  exact (Option.some.inj this).symm

/-- C72: a sign, leading zeros and digits are read as the number they write. -/
theorem C72_digits (neg : Bool) (s : List Char) (hne : s ≠ []) (hs : ∀ c ∈ s, isDigit c = true) :
    intConvertBack ((if neg then '-' else '+') :: s) = some ((if neg then -1 else 1) * (digitsVal 0 s : ℤ)) := by
  have hstrip : strip ((if neg then '-' else '+') :: s) = (if neg then '-' else '+') :: s := by
    have := strip_spaces (a := []) (s := (if neg then '-' else '+') :: s) (b := []) (by simp) (by
      intro c hc
      rcases List.mem_cons.1 hc with rfl | hc
      · cases neg <;> decide
      · exact isDigit_not_space (hs c hc)) (by simp)
    simpa using this
  rw [intConvertBack, parseInt, hstrip]
  cases neg <;> simp [parseNat_digits hne hs]

/-- Decimal digits with single underscores between them, and the number they write. -/
inductive Digits : List Char → ℕ → Prop where
  | one (c : Char) : isDigit c = true → Digits [c] (digitVal c)
  | more (c : Char) {s : List Char} {n : ℕ} : Digits s n → isDigit c = true → Digits (s ++ [c]) (10 * n + digitVal c)
  | under (c : Char) {s : List Char} {n : ℕ} : Digits s n → isDigit c = true → Digits (s ++ ['_', c]) (10 * n + digitVal c)

/-- The texts `int` reads. -/
inductive IntText : List Char → ℤ → Prop where
  | plain {s : List Char} {n : ℕ} : Digits s n → IntText s n
  | plus {s : List Char} {n : ℕ} : Digits s n → IntText ('+' :: s) n
  | minus {s : List Char} {n : ℕ} : Digits s n → IntText ('-' :: s) (-n)

theorem digitsFrom_sound (n : ℕ) : ∀ (s : List Char), s.length ≤ n → ∀ (p : List Char) (acc m : ℕ), Digits p acc → digitsFrom acc s = some m →
    Digits (p ++ s) m := by
  induction n with
  | zero =>
    intro s hs p acc m hp h
    have := List.length_eq_zero_iff.1 (Nat.le_zero.1 hs)
    subst this
    simp only [digitsFrom, Option.some.injEq] at h
    simpa [← h] using hp
  | succ n ih =>
    intro s hs p acc m hp h
    match s, hs, h with
    | [], _, h =>
      simp only [digitsFrom, Option.some.injEq] at h
      simpa [← h] using hp
    | [c], _, h =>
      simp only [digitsFrom] at h
      split_ifs at h with hc
      simp only [Option.some.injEq] at h
      rw [← h, mul_comm]
      exact hp.more c hc
    | c :: d :: rest, hs, h =>
      simp only [List.length_cons] at hs
      rw [digitsFrom] at h
      split_ifs at h with hc hd
      · have := ih (d :: rest) (by simp only [List.length_cons]; omega) (p ++ [c]) _ m (mul_comm acc 10 ▸ hp.more c hc) h
        simpa using this
      · have := ih rest (by omega) (p ++ ['_', d]) _ m (mul_comm acc 10 ▸ hp.under d hd.2) h
        rw [hd.1]
        simpa using this

theorem digitsFrom_digit (acc : ℕ) {c : Char} (hc : isDigit c = true) (t : List Char) :
    digitsFrom acc (c :: t) = digitsFrom (10 * acc + digitVal c) t := by
  cases t <;> simp [digitsFrom, hc, mul_comm]

theorem digitsFrom_under (acc : ℕ) {c : Char} (hc : isDigit c = true) (t : List Char) :
    digitsFrom acc ('_' :: c :: t) = digitsFrom (10 * acc + digitVal c) t := by
  have : isDigit '_' = false := by decide
  simp [digitsFrom, hc, mul_comm, this]

theorem parseNat_iff (s : List Char) (n : ℕ) : parseNat s = some n ↔ Digits s n := by
  constructor
  · intro h
    cases s with
    | nil => cases h
    | cons c s =>
      rw [parseNat] at h
      split_ifs at h with hc
      exact digitsFrom_sound _ s le_rfl [c] _ n (.one c hc) h
  · intro h
    have key : ∀ t : List Char, parseNat (s ++ t) = digitsFrom n t := by
      induction h with
      | one c hc =>
        intro t
        simp [parseNat, hc]
      | more c _ hc ih =>
        intro t
        rw [List.append_assoc, ih, List.singleton_append, digitsFrom_digit _ hc]
      | under c _ hc ih =>
        intro t
        rw [List.append_assoc, ih, List.cons_append, List.singleton_append, digitsFrom_under _ hc]
    have := key []
    simpa [digitsFrom] using this

theorem Digits.chars {s : List Char} {n : ℕ} (h : Digits s n) :
    (∀ c ∈ s, isDigit c = true ∨ c = '_') ∧ ∃ c t, s = c :: t ∧ isDigit c = true := by
  induction h with
  | one c hc => exact ⟨by simp [hc], c, [], rfl, hc⟩
  | more c _ hc ih =>
    obtain ⟨h1, d, t, rfl, hd⟩ := ih
    refine ⟨?_, d, t ++ [c], rfl, hd⟩
    intro x hx
    rcases List.mem_append.1 hx with hx | hx
    · exact h1 x hx
    · rw [List.mem_singleton] at hx
      exact .inl (hx ▸ hc)
  | under c _ hc ih =>
    obtain ⟨h1, d, t, rfl, hd⟩ := ih
    refine ⟨?_, d, t ++ ['_', c], rfl, hd⟩
    intro x hx
    rcases List.mem_append.1 hx with hx | hx
    · exact h1 x hx
    · simp only [List.mem_cons, List.not_mem_nil, or_false] at hx
      rcases hx with rfl | rfl
      · exact .inr rfl
      · exact .inl hc

theorem IntText.not_space {s : List Char} {n : ℤ} (h : IntText s n) : ∀ c ∈ s, isSpace c = false := by
  have key : ∀ {s : List Char} {n : ℕ}, Digits s n → ∀ c ∈ s, isSpace c = false := by
    intro s n h c hc
    rcases h.chars.1 c hc with h | rfl
    · exact isDigit_not_space h
    · decide
  cases h with
  | plain h => exact key h
  | plus h => exact List.forall_mem_cons.2 ⟨by decide, key h⟩
  | minus h => exact List.forall_mem_cons.2 ⟨by decide, key h⟩

theorem strip_split (s : List Char) : ∃ a b, (∀ c ∈ a, isSpace c = true) ∧ (∀ c ∈ b, isSpace c = true) ∧ s = a ++ strip s ++ b := by
  refine ⟨s.takeWhile isSpace, ((s.dropWhile isSpace).reverse.takeWhile isSpace).reverse, ?_, ?_, ?_⟩
  · exact fun c hc => List.mem_takeWhile_imp hc
  · exact fun c hc => List.mem_takeWhile_imp (List.mem_reverse.1 hc)
  · rw [strip, List.append_assoc, ← List.reverse_append, List.takeWhile_append_dropWhile, List.reverse_reverse,
      List.takeWhile_append_dropWhile]

theorem parseInt_iff (s : List Char) (n : ℤ) : parseInt s = some n ↔ IntText (strip s) n := by
  rw [parseInt]
  constructor
  · intro h
    split at h
    · cases h
    · next c t hs =>
      rw [hs]
      split_ifs at h with h1 h2
      · obtain ⟨k, hk, rfl⟩ := Option.map_eq_some_iff.1 h
        exact h1 ▸ .minus ((parseNat_iff _ _).1 hk)
      · obtain ⟨k, hk, rfl⟩ := Option.map_eq_some_iff.1 h
        exact h2 ▸ .plus ((parseNat_iff _ _).1 hk)
      · obtain ⟨k, hk, rfl⟩ := Option.map_eq_some_iff.1 h
        exact .plain ((parseNat_iff _ _).1 hk)
  · intro h
    generalize strip s = w at h
    cases h with
    | plain h =>
      obtain ⟨-, c, t, rfl, hc⟩ := h.chars
      have := isDigit_ne hc
      simp [this.1, this.2.1, (parseNat_iff _ _).2 h]
    | plus h => simp [(parseNat_iff _ _).2 h]
    | minus h => simp [(parseNat_iff _ _).2 h]

/-- C72: exactly the texts of a number, with white space around, are read, as the number; all others raise. -/
theorem C72_texts (s : List Char) (n : ℤ) : intConvertBack s = some n ↔
    ∃ a w b, (∀ c ∈ a, isSpace c = true) ∧ (∀ c ∈ b, isSpace c = true) ∧ s = a ++ w ++ b ∧ IntText w n := by
  rw [intConvertBack, parseInt_iff]
  constructor
  · intro h
    obtain ⟨a, b, ha, hb, hs⟩ := strip_split s
    exact ⟨a, strip s, b, ha, hb, hs, h⟩
  · rintro ⟨a, w, b, ha, hb, rfl, h⟩
    rwa [strip_spaces ha h.not_space hb]

example : intConvert (-1203) = "-1203".toList ∧ intConvertBack " +0_12 ".toList = some 12 ∧ intConvertBack "1__2".toList = none ∧
    intConvertBack "12a".toList = none := by
  refine ⟨?_, by decide, by decide, by decide⟩
  change '-' :: natStr 1203 = _
  rw [natStr, natStr, natStr, natStr]
  decide

/-! ### C78 -/

/-- Lines 122-124. -/
def checkConvert (b : Bool) : String := if b then "checked" else "unchecked"

/-- Lines 126-128. -/
def checkConvertBack (s : String) : Bool := s == "checked"

/-- C78. -/
theorem C78_round_trip (b : Bool) : checkConvertBack (checkConvert b) = b := by cases b <;> decide

/-- C78: true exactly for `checked`. -/
theorem C78_checked (s : String) : checkConvertBack s = true ↔ s = "checked" := by simp [checkConvertBack]

example : checkConvert true = "checked" ∧ checkConvertBack "Checked" = false := by decide

end Verif.Converter
