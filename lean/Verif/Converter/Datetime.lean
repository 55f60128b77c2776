import Verif.Converter.Integer
import Mathlib.Data.List.Induction
import Mathlib.Tactic.Linarith

/-!
Dates and strings (`nion/utils/Converter.py`, `DatetimeToStringConverter`), C76. A naive datetime is its seven fields.

`datetime.isoformat` and `datetime.strptime` of the Python library are modelled for the two formats used here. With a string as long as
the converter requires, every field of the format must have its full width, since no field is wider; so the parser reads fields of
fixed width. The fields may only hold ASCII digits; `strptime` also reads other decimal digits of Unicode, which is not modelled. It
reads the letter `T` in either case, a day such as `" 5"`, and seconds up to 61, which the constructor then rejects.
-/

namespace Verif.Converter

/-- A naive `datetime.datetime`. -/
structure Datetime where
  year : ℕ
  month : ℕ
  day : ℕ
  hour : ℕ
  minute : ℕ
  second : ℕ
  micro : ℕ
  deriving DecidableEq

def leap (y : ℕ) : Bool := y % 4 = 0 && (y % 100 ≠ 0 || y % 400 = 0)

def daysIn (y m : ℕ) : ℕ :=
  if m = 2 then (if leap y then 29 else 28) else if m = 4 ∨ m = 6 ∨ m = 9 ∨ m = 11 then 30 else 31

/-- What the constructor accepts. -/
def Datetime.valid (d : Datetime) : Bool :=
  1 ≤ d.year && d.year ≤ 9999 && 1 ≤ d.month && d.month ≤ 12 && 1 ≤ d.day && d.day ≤ daysIn d.year d.month && d.hour ≤ 23 &&
    d.minute ≤ 59 && d.second ≤ 59 && d.micro ≤ 999999

/-- `"%0wd" % n` for `n < 10 ^ w`. -/
def pad : ℕ → ℕ → List Char
  | 0, _ => []
  | w + 1, n => pad w (n / 10) ++ [digitChar (n % 10)]

def isoSeconds (d : Datetime) : List Char :=
  pad 4 d.year ++ ('-' :: (pad 2 d.month ++ ('-' :: (pad 2 d.day ++ ('T' :: (pad 2 d.hour ++ (':' :: (pad 2 d.minute ++
    (':' :: pad 2 d.second)))))))))

/-- `d.isoformat()`: microseconds if they are not zero. -/
def Datetime.isoformat (d : Datetime) : List Char := isoSeconds d ++ (if d.micro = 0 then [] else '.' :: pad 6 d.micro)

/-- A field of `w` digits. -/
def digitsP (w : ℕ) (s : List Char) : Option (ℕ × List Char) :=
  if (s.take w).length = w ∧ (s.take w).all isDigit then some (digitsVal 0 (s.take w), s.drop w) else none

/-- A field of `w` digits in a range. -/
def rangeP (w lo hi : ℕ) (s : List Char) : Option (ℕ × List Char) :=
  match digitsP w s with
  | some (n, t) => if lo ≤ n ∧ n ≤ hi then some (n, t) else none
  | none => none

/-- `%d`: `3[0-1]|[1-2]\d|0[1-9]|[1-9]| [1-9]` of width two. -/
def dayP : List Char → Option (ℕ × List Char)
  | ' ' :: s => rangeP 1 1 9 s
  | s => rangeP 2 1 31 s

/-- A letter of the format. -/
def litP (p : Char → Bool) : List Char → Option (List Char)
  | [] => none
  | c :: s => if p c then some s else none

/-- `%Y-%m-%dT%H:%M:%S`. -/
def secondsP (s : List Char) : Option (Datetime × List Char) := do
  let (year, s) ← digitsP 4 s
  let s ← litP (· = '-') s
  let (month, s) ← rangeP 2 1 12 s
  let s ← litP (· = '-') s
  let (day, s) ← dayP s
  let s ← litP (fun c => c = 'T' || c = 't') s
  let (hour, s) ← rangeP 2 0 23 s
  let s ← litP (· = ':') s
  let (minute, s) ← rangeP 2 0 59 s
  let s ← litP (· = ':') s
  let (second, s) ← rangeP 2 0 61 s
  some (⟨year, month, day, hour, minute, second, 0⟩, s)

/-- The constructor; `none` is a `ValueError`. -/
def construct (d : Datetime) : Option Datetime := if d.valid then some d else none

/-- `strptime(value, "%Y-%m-%dT%H:%M:%S.%f")` for 26 characters; `none` is a `ValueError`. -/
def strptime26 (s : List Char) : Option Datetime := do
  let (d, s) ← secondsP s
  let s ← litP (· = '.') s
  let (micro, s) ← digitsP 6 s
  if s = [] then construct { d with micro } else none

/-- `strptime(value, "%Y-%m-%dT%H:%M:%S")` for 19 characters. -/
def strptime19 (s : List Char) : Option Datetime := do
  let (d, s) ← secondsP s
  if s = [] then construct d else none

def datetimeConvert (d : Datetime) : List Char := d.isoformat

/-- A `ValueError` is caught, then the result is `None`. -/
def datetimeConvertBack (s : List Char) : Option Datetime :=
  if s.length = 26 then strptime26 s
  else if s.length = 19 then strptime19 s
  else none

/-! ### C76 -/

theorem length_pad (w n : ℕ) : (pad w n).length = w := by
  induction w generalizing n with
  | zero => rfl
  | succ w ih => simp [pad, ih]

theorem pad_digits (w n : ℕ) : ∀ c ∈ pad w n, isDigit c = true := by
  induction w generalizing n with
  | zero => simp [pad]
  | succ w ih =>
    intro c hc
    rw [pad, List.mem_append, List.mem_singleton] at hc
    rcases hc with hc | rfl
    · exact ih _ c hc
    · exact (digitChar_spec (Nat.mod_lt n (by omega))).1

theorem digitsVal_append (s : List Char) (c : Char) : digitsVal 0 (s ++ [c]) = digitsVal 0 s * 10 + digitVal c := by
  simp [digitsVal]

theorem digitsVal_pad {w n : ℕ} (h : n < 10 ^ w) : digitsVal 0 (pad w n) = n := by
  induction w generalizing n with
  | zero =>
    simp at h
    subst h
    rfl
  | succ w ih =>
    rw [pad, digitsVal_append, ih (by rw [pow_succ] at h; omega), (digitChar_spec (Nat.mod_lt n (by omega))).2.1]
    omega

theorem digit_char {c : Char} (h : isDigit c = true) : digitVal c < 10 ∧ digitChar (digitVal c) = c := by
  simp only [isDigit, Bool.and_eq_true, decide_eq_true_eq] at h
  refine ⟨by simp only [digitVal]; omega, ?_⟩
  simp only [digitChar, digitVal]
  rw [show 48 + (c.toNat - 48) = c.toNat by omega]
  exact Char.ofNat_toNat c

theorem pad_digitsVal {s : List Char} (h : ∀ c ∈ s, isDigit c = true) :
    pad s.length (digitsVal 0 s) = s ∧ digitsVal 0 s < 10 ^ s.length := by
  induction s using List.reverseRecOn with
  | nil => exact ⟨rfl, by simp [digitsVal]⟩
  | append_singleton s c ih =>
    obtain ⟨h1, h2⟩ := ih fun d hd => h d (by simp [hd])
    obtain ⟨h3, h4⟩ := digit_char (h c (by simp))
    rw [digitsVal_append, List.length_append, List.length_singleton, pad]
    rw [show (digitsVal 0 s * 10 + digitVal c) / 10 = digitsVal 0 s by omega,
      show (digitsVal 0 s * 10 + digitVal c) % 10 = digitVal c by omega, h1, h4, pow_succ]
    exact ⟨rfl, by omega⟩

theorem digitsP_iff {w n : ℕ} {s t : List Char} : digitsP w s = some (n, t) ↔ s = pad w n ++ t ∧ n < 10 ^ w := by
  rw [digitsP]
  constructor
  · intro h
    split_ifs at h with hc
    obtain ⟨h1, h2⟩ := hc
    simp only [Option.some.injEq, Prod.mk.injEq] at h
    obtain ⟨rfl, rfl⟩ := h
    have := pad_digitsVal (fun c hc => List.all_eq_true.1 h2 c hc)
    rw [h1] at this
    rw [this.1]
    exact ⟨(List.take_append_drop w s).symm, this.2⟩
  · rintro ⟨rfl, h⟩
    have ht : (pad w n ++ t).take w = pad w n := by
      conv_lhs => rw [← length_pad w n]
      rw [length_pad, List.take_left' (length_pad w n)]
    have hd : (pad w n ++ t).drop w = t := List.drop_left' (length_pad w n)
    rw [ht, hd, if_pos ⟨length_pad w n, List.all_eq_true.2 (pad_digits w n)⟩, digitsVal_pad h]

theorem rangeP_iff {w lo hi n : ℕ} {s t : List Char} :
    rangeP w lo hi s = some (n, t) ↔ s = pad w n ++ t ∧ n < 10 ^ w ∧ lo ≤ n ∧ n ≤ hi := by
  rw [rangeP]
  constructor
  · intro h
    split at h
    · next m u hm =>
      split_ifs at h with hc
      simp only [Option.some.injEq, Prod.mk.injEq] at h
      obtain ⟨rfl, rfl⟩ := h
      obtain ⟨h1, h2⟩ := digitsP_iff.1 hm
      exact ⟨h1, h2, hc⟩
    · cases h
  · rintro ⟨h1, h2, h3⟩
    rw [digitsP_iff.2 ⟨h1, h2⟩]
    simp only [if_pos h3]

theorem litP_iff {p : Char → Bool} {s t : List Char} : litP p s = some t ↔ ∃ c, p c = true ∧ s = c :: t := by
  cases s with
  | nil => simp [litP]
  | cons c s =>
    rw [litP]
    constructor
    · intro h
      split_ifs at h with hc
      simp only [Option.some.injEq] at h
      exact ⟨c, hc, by rw [h]⟩
    · rintro ⟨d, hd, h⟩
      simp only [List.cons.injEq] at h
      rw [h.1, if_pos hd, h.2]

theorem dayP_iff {n : ℕ} {s t : List Char} : dayP s = some (n, t) ↔
    (s = pad 2 n ++ t ∧ 1 ≤ n ∧ n ≤ 31) ∨ (s = ' ' :: (pad 1 n ++ t) ∧ 1 ≤ n ∧ n ≤ 9) := by
  have hsp : ∀ u, pad 2 n ++ t ≠ ' ' :: u := by
    intro u h
    have h1 : (' ' : Char) ∈ pad 2 n := by
      have : (pad 2 n).length = 2 := length_pad 2 n
      cases hp : pad 2 n with
      | nil => rw [hp] at this; cases this
      | cons c r =>
        rw [hp, List.cons_append, List.cons.injEq] at h
        rw [h.1]
        exact List.mem_cons_self
    have := pad_digits 2 n _ h1
    revert this
    decide
  unfold dayP
  split
  · next s =>
    rw [rangeP_iff]
    constructor
    · rintro ⟨rfl, h2, h3⟩
      exact .inr ⟨rfl, h3⟩
    · rintro (⟨h, -⟩ | ⟨h, h3⟩)
      · exact absurd h.symm (hsp _)
      · simp only [List.cons.injEq, true_and] at h
        exact ⟨h, by omega, h3⟩
  · next s hs =>
    rw [rangeP_iff]
    constructor
    · rintro ⟨rfl, h2, h3⟩
      exact .inl ⟨rfl, h3⟩
    · rintro (⟨h, h3⟩ | ⟨h, h3⟩)
      · exact ⟨h, by omega, h3⟩
      · exact absurd h (hs _)

/-- The text of a day: two digits, or a space and a digit. -/
def DayText (n : ℕ) (s : List Char) : Prop := (s = pad 2 n ∧ 1 ≤ n ∧ n ≤ 31) ∨ (s = ' ' :: pad 1 n ∧ 1 ≤ n ∧ n ≤ 9)

theorem secondsP_iff {d : Datetime} {s t : List Char} : secondsP s = some (d, t) ↔
    ∃ day c, DayText d.day day ∧ (c = 'T' ∨ c = 't') ∧ d.micro = 0 ∧ d.year < 10000 ∧ 1 ≤ d.month ∧ d.month ≤ 12 ∧ d.hour ≤ 23 ∧
      d.minute ≤ 59 ∧ d.second ≤ 61 ∧
      s = pad 4 d.year ++ ('-' :: (pad 2 d.month ++ ('-' :: (day ++ (c :: (pad 2 d.hour ++ (':' :: (pad 2 d.minute ++
        (':' :: (pad 2 d.second ++ t)))))))))) := by
  unfold secondsP
  simp only [Option.bind_eq_bind, Option.bind_eq_some_iff, Prod.exists, digitsP_iff, rangeP_iff, litP_iff, dayP_iff, Option.some.injEq,
    Prod.mk.injEq, decide_eq_true_eq, Bool.or_eq_true]
  constructor
  · rintro ⟨y, s1, ⟨rfl, hy⟩, s2, ⟨_, rfl, rfl⟩, m, s3, ⟨rfl, hm⟩, s4, ⟨_, rfl, rfl⟩, n, s5, hd, s6, ⟨c, hc, rfl⟩, h, s7, ⟨rfl, hh⟩,
      s8, ⟨_, rfl, rfl⟩, mi, s9, ⟨rfl, hmi⟩, s10, ⟨_, rfl, rfl⟩, se, s11, ⟨rfl, hse⟩, rfl, rfl⟩
    rcases hd with ⟨rfl, h1, h2⟩ | ⟨rfl, h1, h2⟩
    · exact ⟨pad 2 n, c, .inl ⟨rfl, h1, h2⟩, hc, rfl, hy, hm.2.1, hm.2.2, hh.2.2, hmi.2.2, hse.2.2, rfl⟩
    · exact ⟨' ' :: pad 1 n, c, .inr ⟨rfl, h1, h2⟩, hc, rfl, hy, hm.2.1, hm.2.2, hh.2.2, hmi.2.2, hse.2.2, rfl⟩
  · rintro ⟨day, c, hd, hc, h0, hy, hm1, hm2, hh, hmi, hse, rfl⟩
    refine ⟨d.year, _, ⟨rfl, hy⟩, _, ⟨_, rfl, rfl⟩, d.month, _, ⟨rfl, by omega, hm1, hm2⟩, _, ⟨_, rfl, rfl⟩, d.day, _, ?_, _,
      ⟨c, hc, rfl⟩, d.hour, _, ⟨rfl, by omega, by omega, hh⟩, _, ⟨_, rfl, rfl⟩, d.minute, _, ⟨rfl, by omega, by omega, hmi⟩, _,
      ⟨_, rfl, rfl⟩, d.second, _, ⟨rfl, by omega, by omega, hse⟩, ?_, rfl⟩
    · rcases hd with ⟨rfl, h⟩ | ⟨rfl, h⟩
      · exact .inl ⟨rfl, h⟩
      · exact .inr ⟨rfl, h⟩
    · cases d
      simp at h0
      rw [h0]

/-- The texts of a datetime: the day may start with a space, the letter may be small, and microseconds that are zero may be there. -/
def Text (d : Datetime) (s : List Char) : Prop :=
  ∃ day c us, DayText d.day day ∧ (c = 'T' ∨ c = 't') ∧ ((us = [] ∧ d.micro = 0) ∨ us = '.' :: pad 6 d.micro) ∧
    s = pad 4 d.year ++ ('-' :: (pad 2 d.month ++ ('-' :: (day ++ (c :: (pad 2 d.hour ++ (':' :: (pad 2 d.minute ++
        (':' :: (pad 2 d.second ++ us))))))))))

theorem DayText.length {n : ℕ} {s : List Char} (h : DayText n s) : s.length = 2 := by
  rcases h with ⟨rfl, -⟩ | ⟨rfl, -⟩
  · exact length_pad 2 n
  · rw [List.length_cons, length_pad]

theorem valid_iff (d : Datetime) : d.valid = true ↔ 1 ≤ d.year ∧ d.year ≤ 9999 ∧ 1 ≤ d.month ∧ d.month ≤ 12 ∧ 1 ≤ d.day ∧
    d.day ≤ daysIn d.year d.month ∧ d.hour ≤ 23 ∧ d.minute ≤ 59 ∧ d.second ≤ 59 ∧ d.micro ≤ 999999 := by
  simp only [Datetime.valid, Bool.and_eq_true, decide_eq_true_eq, and_assoc]

theorem construct_iff {d e : Datetime} : construct d = some e ↔ d.valid = true ∧ d = e := by
  rw [construct]
  split_ifs with h
  · simp [h]
  · simp [h]

theorem daysIn_le (y m : ℕ) : daysIn y m ≤ 31 := by
  rw [daysIn]
  split_ifs <;> omega

/-- The dates and times of the proleptic Gregorian calendar from year 1 to 9999. -/
structure Exists (d : Datetime) : Prop where
  year : 1 ≤ d.year ∧ d.year < 10000
  month : 1 ≤ d.month ∧ d.month ≤ 12
  day : 1 ≤ d.day ∧ d.day ≤ 31
  thirty : d.month ∈ [4, 6, 9, 11] → d.day ≠ 31
  february : d.month = 2 → d.day ≤ 28 ∨ (d.day = 29 ∧ 4 ∣ d.year ∧ (100 ∣ d.year → 400 ∣ d.year))
  time : d.hour < 24 ∧ d.minute < 60 ∧ d.second < 60 ∧ d.micro < 1000000

theorem exists_iff (d : Datetime) : Exists d ↔ d.valid = true := by
  rw [valid_iff]
  constructor
  · rintro ⟨h1, h2, h3, h4, h5, h6⟩
    simp only [List.mem_cons, List.not_mem_nil, or_false] at h4
    refine ⟨h1.1, by omega, h2.1, h2.2, h3.1, ?_, by omega, by omega, by omega, by omega⟩
    simp only [daysIn, leap, Bool.and_eq_true, Bool.or_eq_true, decide_eq_true_eq]
    split_ifs <;> omega
  · rintro ⟨h1, h2, h3, h4, h5, h6, h7, h8, h9, h10⟩
    simp only [daysIn, leap, Bool.and_eq_true, Bool.or_eq_true, decide_eq_true_eq] at h6
    refine ⟨by omega, by omega, ⟨h5, ?_⟩, ?_, ?_, by omega⟩
    · split_ifs at h6 <;> omega
    · simp only [List.mem_cons, List.not_mem_nil, or_false]
      split_ifs at h6 <;> omega
    · intro hm
      rw [if_pos hm] at h6
      split_ifs at h6 <;> omega

/-- C76: exactly the texts of a valid datetime are read as it. -/
theorem C76_texts (s : List Char) (d : Datetime) : datetimeConvertBack s = some d ↔ Exists d ∧ Text d s := by
  rw [exists_iff]
  have hlen : ∀ day us, DayText d.day day → ∀ c : Char, (pad 4 d.year ++ ('-' :: (pad 2 d.month ++ ('-' :: (day ++ (c :: (pad 2 d.hour ++
      (':' :: (pad 2 d.minute ++ (':' :: (pad 2 d.second ++ us))))))))))).length = 19 + us.length := by
    intro day us hd c
    simp only [List.length_append, List.length_cons, length_pad, hd.length]
    omega
  rw [datetimeConvertBack]
  constructor
  · intro h
    split_ifs at h with h26 h19
    · simp only [strptime26, Option.bind_eq_bind, Option.bind_eq_some_iff, Prod.exists, secondsP_iff, litP_iff, digitsP_iff,
        decide_eq_true_eq] at h
      obtain ⟨e, t, ⟨day, c, hday, hc, h0, hy, hm1, hm2, hh, hmi, hse, rfl⟩, t2, ⟨_, rfl, rfl⟩, us, t3, ⟨rfl, hus⟩, h⟩ := h
      split_ifs at h with ht
      obtain ⟨hv, rfl⟩ := construct_iff.1 h
      subst ht
      exact ⟨hv, day, c, _, hday, hc, .inr rfl, by simp⟩
    · simp only [strptime19, Option.bind_eq_bind, Option.bind_eq_some_iff, Prod.exists, secondsP_iff] at h
      obtain ⟨e, t, ⟨day, c, hday, hc, h0, hy, hm1, hm2, hh, hmi, hse, rfl⟩, h⟩ := h
      split_ifs at h with ht
      obtain ⟨hv, rfl⟩ := construct_iff.1 h
      subst ht
      exact ⟨hv, day, c, [], hday, hc, .inl ⟨rfl, h0⟩, rfl⟩
  · rintro ⟨hv, day, c, us, hday, hc, hus, rfl⟩
    obtain ⟨v1, v2, v3, v4, v5, v6, v7, v8, v9, v10⟩ := (valid_iff d).1 hv
    rw [hlen day us hday c]
    rcases hus with ⟨rfl, h0⟩ | rfl
    · rw [if_neg (by simp), if_pos (by simp)]
      simp only [strptime19, Option.bind_eq_bind, Option.bind_eq_some_iff, Prod.exists, secondsP_iff]
      exact ⟨d, [], ⟨day, c, hday, hc, h0, by omega, v3, v4, v7, v8, by omega, rfl⟩, by simp [construct, hv]⟩
    · rw [if_pos (by simp [length_pad])]
      simp only [strptime26, Option.bind_eq_bind, Option.bind_eq_some_iff, Prod.exists, secondsP_iff, litP_iff, digitsP_iff,
        decide_eq_true_eq]
      refine ⟨{ d with micro := 0 }, '.' :: pad 6 d.micro, ⟨day, c, hday, hc, rfl, Nat.lt_succ_of_le v2, v3, v4, v7, v8,
          le_trans v9 (by decide), rfl⟩,
        pad 6 d.micro, ⟨_, rfl, rfl⟩, d.micro, [], ⟨by simp, by omega⟩, ?_⟩
      rw [if_pos rfl, construct_iff]
      exact ⟨hv, rfl⟩

/-- C76: the round trip. -/
theorem C76_round_trip (d : Datetime) (hd : Exists d) : datetimeConvertBack (datetimeConvert d) = some d := by
  have h := (exists_iff d).1 hd
  obtain ⟨v1, v2, v3, v4, v5, v6, v7, v8, v9, v10⟩ := (valid_iff d).1 h
  rw [C76_texts]
  refine ⟨hd, pad 2 d.day, 'T', if d.micro = 0 then [] else '.' :: pad 6 d.micro, .inl ⟨rfl, v5, ?_⟩, .inl rfl, ?_, ?_⟩
  · have := daysIn_le d.year d.month
    omega
  · split_ifs with h0
    · exact .inl ⟨rfl, h0⟩
    · exact .inr rfl
  · simp [datetimeConvert, Datetime.isoformat, isoSeconds]

/-- C76: two datetimes are never written alike. -/
theorem C76_injective (d e : Datetime) (hd : Exists d) (he : Exists e) (h : datetimeConvert d = datetimeConvert e) : d = e := by
  have := C76_round_trip d hd
  rw [h, C76_round_trip e he] at this
  exact (Option.some.inj this).symm

/-- C76: what comes back is valid; another conversion gives the same. -/
theorem C76_stable (s : List Char) (d : Datetime) (h : datetimeConvertBack s = some d) :
    Exists d ∧ datetimeConvertBack (datetimeConvert d) = some d :=
  have hv := ((C76_texts s d).1 h).1
  ⟨hv, C76_round_trip d hv⟩

/-- C76: the time zone of an aware datetime, written as `+hh:mm`, with seconds and microseconds or not, makes it `None`. -/
theorem C76_aware (d : Datetime) (zone : List Char) (hz : zone.length = 6 ∨ zone.length = 9 ∨ zone.length = 16) :
    datetimeConvertBack (d.isoformat ++ zone) = none := by
  have hl : d.isoformat.length = 19 ∨ d.isoformat.length = 26 := by
    rw [Datetime.isoformat, isoSeconds]
    split_ifs
    · left
      simp only [List.length_append, List.length_cons, length_pad, List.length_nil]
    · right
      simp only [List.length_append, List.length_cons, length_pad]
  rw [datetimeConvertBack, List.length_append, if_neg (by omega), if_neg (by omega)]

/-- The last microsecond of a leap day. -/
example : datetimeConvert ⟨2024, 2, 29, 23, 59, 59, 999999⟩ = "2024-02-29T23:59:59.999999".toList ∧
    datetimeConvertBack "2024-02-29T23:59:59.999999".toList = some ⟨2024, 2, 29, 23, 59, 59, 999999⟩ ∧
    datetimeConvertBack "2023-02-29T23:59:59.999999".toList = none ∧ datetimeConvertBack "2023-02- 9T23:59:60".toList = none ∧
    datetimeConvertBack "2023-02- 9t23:59:09".toList = some ⟨2023, 2, 9, 23, 59, 9, 0⟩ := by
  decide

end Verif.Converter
