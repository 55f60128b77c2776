import Verif.Converter.Integer
import Mathlib.Algebra.Order.Field.Rat
import Mathlib.Data.List.Induction
import Mathlib.Tactic.Ring
import Mathlib.Tactic.Linarith
import Mathlib.Tactic.FieldSimp

/-!
Numbers with text after them (`nion/utils/Converter.py`, `FloatToStringConverter.convert_back` with `fuzzy`, and
`PhysicalValueToStringConverter.convert_back`), C77, C99.

`float` is modelled on what the pattern can match, with exact values; rounding to a double is not modelled, nor decimal digits other than
ASCII. `locale.atof` is modelled as in the library: it removes the thousands separator, and writes `.` for the decimal point.
-/

namespace Verif.Converter

/-- The parts of a number. -/
structure Num where
  sign : Option Char
  int : List Char
  frac : Option (Char × List Char)
  exp : Option (Char × Option Char × List Char)
  deriving DecidableEq

def fracText : Option (Char × List Char) → List Char
  | none => []
  | some (c, f) => c :: f

def expText : Option (Char × Option Char × List Char) → List Char
  | none => []
  | some (c, s, d) => c :: (s.toList ++ d)

/-- `m.group(0)`. -/
def Num.text (n : Num) : List Char := n.sign.toList ++ (n.int ++ (fracText n.frac ++ expText n.exp))

def isSign (c : Char) : Bool := c = '-' || c = '+'
def isExp (c : Char) : Bool := c = 'e' || c = 'E'

/-- `[-+]?`. -/
def scanSign : List Char → Option Char × List Char
  | [] => (none, [])
  | c :: s => if isSign c then (some c, s) else (none, c :: s)

/-- `(?=\d|[\.,]\d)`. -/
def ahead (pt : Char → Bool) : List Char → Bool
  | [] => false
  | [c] => isDigit c
  | c :: d :: _ => isDigit c || (pt c && isDigit d)

/-- `([\.,](?P<frac>\d*))?`. -/
def scanFrac (pt : Char → Bool) : List Char → Option (Char × List Char) × List Char
  | [] => (none, [])
  | c :: s => if pt c then (some (c, s.takeWhile isDigit), s.dropWhile isDigit) else (none, c :: s)

/-- `(E(?P<exp>[-+]?\d+))?`. -/
def scanExp : List Char → Option (Char × Option Char × List Char) × List Char
  | [] => (none, [])
  | c :: s =>
    if isExp c ∧ (scanSign s).2.takeWhile isDigit ≠ [] then
      (some (c, (scanSign s).1, (scanSign s).2.takeWhile isDigit), (scanSign s).2.dropWhile isDigit)
    else (none, c :: s)

/-- The pattern at the start of a text, and the rest. Every part after the lookahead may be empty, so nothing is tried again. -/
def scan (pt : Char → Bool) (s : List Char) : Option (Num × List Char) :=
  let t := (scanSign s).2
  if ahead pt t then
    let u := t.dropWhile isDigit
    let f := scanFrac pt u
    let e := scanExp f.2
    some (⟨(scanSign s).1, t.takeWhile isDigit, f.1, e.1⟩, e.2)
  else none

/-- The number that is written. -/
def Num.value (n : Num) : ℚ :=
  (if n.sign = some '-' then -1 else 1) * (digitsVal 0 (n.int ++ (n.frac.map Prod.snd).getD []) : ℚ) /
    10 ^ ((n.frac.map Prod.snd).getD []).length *
    (match n.exp with
    | none => 1
    | some (_, s, d) => if s = some '-' then 1 / 10 ^ digitsVal 0 d else 10 ^ digitsVal 0 d)

/-- `float(s)`, without white space, underscores, `inf` and `nan`; `none` is a `ValueError`. -/
def floatOf (s : List Char) : Option ℚ :=
  match scan (· = '.') s with
  | some (n, []) => some n.value
  | _ => none

/-- `locale.localeconv()`. -/
structure Loc where
  dp : Char
  ts : Option Char

/-- `s.replace(c, d)`. -/
def replace (c d : Char) (s : List Char) : List Char := s.map fun x => if x = c then d else x

/-- `locale.delocalize`. -/
def delocalize (L : Loc) (s : List Char) : List Char :=
  replace L.dp '.' (match L.ts with
    | none => s
    | some t => s.filter (· ≠ t))

/-- `locale.atof`. -/
def atof (L : Loc) (s : List Char) : Option ℚ := floatOf (delocalize L s)

def isPoint (c : Char) : Bool := c = '.' || c = ','

/-- Lines 52-69. -/
def fuzzyBack (L : Loc) (s : List Char) : Option ℚ :=
  match scan isPoint (strip s) with
  | some (n, _) => if L.dp ≠ '.' then atof L (replace '.' L.dp n.text) else atof L n.text
  | none => some 0

/-- Lines 48-50 before that, then lines 52-69: what comes back, `raises` for an exception. -/
inductive FloatResult where
  | none
  | value (q : ℚ)
  | raises

def floatConvertBack (L : Loc) (passNone : Bool) : Option (List Char) → FloatResult
  | Option.none => if passNone then .none else .raises
  | some s =>
    if passNone ∧ s.length = 0 then .none
    else
      match fuzzyBack L s with
      | some q => .value q
      | Option.none => .raises

/-- `PhysicalValueToStringConverter.convert_back`; `none` is a `ValueError` or `ZeroDivisionError`. -/
def physicalBack (L : Loc) (multiplier : ℚ) (s : List Char) : Option ℚ :=
  match fuzzyBack L s with
  | some q => if multiplier = 0 then none else some (q / multiplier)
  | none => none

/-! ### Numbers -/

/-- A number with at least one digit; an exponent has a digit. -/
structure Num.Wf (pt : Char → Bool) (n : Num) : Prop where
  sign : ∀ c, n.sign = some c → isSign c = true
  int : ∀ c ∈ n.int, isDigit c = true
  frac : ∀ c f, n.frac = some (c, f) → pt c = true ∧ ∀ d ∈ f, isDigit d = true
  exp : ∀ c s d, n.exp = some (c, s, d) → isExp c = true ∧ (∀ x, s = some x → isSign x = true) ∧ d ≠ [] ∧ ∀ x ∈ d, isDigit x = true
  digit : n.int ≠ [] ∨ ∃ c f, n.frac = some (c, f) ∧ f ≠ []

/-- A text that does not go on with a number. -/
def Stop (s : List Char) : Prop := ∀ c t, s = c :: t → isDigit c = false ∧ isPoint c = false ∧ isExp c = false

theorem digit_ne {c : Char} (h : isDigit c = true) : isSign c = false ∧ isPoint c = false ∧ isExp c = false := by
  simp only [isDigit, Bool.and_eq_true, decide_eq_true_eq] at h
  have : ∀ d : Char, (d.toNat < 48 ∨ 57 < d.toNat) → c ≠ d := by
    rintro d hd rfl
    omega
  simp only [isSign, isPoint, isExp, Bool.or_eq_false_iff, decide_eq_false_iff_not]
  exact ⟨⟨this _ (by decide), this _ (by decide)⟩, ⟨this _ (by decide), this _ (by decide)⟩, this _ (by decide), this _ (by decide)⟩

theorem span_digits {l r : List Char} (h : ∀ c ∈ l, isDigit c = true) (hr : ∀ c t, r = c :: t → isDigit c = false) :
    (l ++ r).takeWhile isDigit = l ∧ (l ++ r).dropWhile isDigit = r := by
  induction l with
  | nil =>
    cases r with
    | nil => exact ⟨rfl, rfl⟩
    | cons c t => simp [hr c t rfl]
  | cons c l ih =>
    have hc := h c List.mem_cons_self
    obtain ⟨h1, h2⟩ := ih fun d hd => h d (List.mem_cons_of_mem _ hd)
    constructor
    · rw [List.cons_append, List.takeWhile_cons_of_pos hc, h1]
    · rw [List.cons_append, List.dropWhile_cons_of_pos hc, h2]

theorem takeWhile_digits (s : List Char) : ∀ c ∈ s.takeWhile isDigit, isDigit c = true := fun c hc => by
  induction s with
  | nil => cases hc
  | cons d s ih =>
    rw [List.takeWhile_cons] at hc
    split_ifs at hc with hd
    · rcases List.mem_cons.1 hc with rfl | hc
      · exact hd
      · exact ih hc
    · cases hc

theorem scanSign_append {o : Option Char} (ho : ∀ c, o = some c → isSign c = true) {r : List Char}
    (hr : ∀ c t, r = c :: t → isSign c = false) : scanSign (o.toList ++ r) = (o, r) := by
  cases o with
  | some c => simp [scanSign, ho c rfl]
  | none =>
    cases r with
    | nil => rfl
    | cons c t => simp [scanSign, hr c t rfl]

theorem scanSign_eq (s : List Char) : s = (scanSign s).1.toList ++ (scanSign s).2 ∧ ∀ c, (scanSign s).1 = some c → isSign c = true := by
  cases s with
  | nil => exact ⟨rfl, fun c h => by cases h⟩
  | cons c s =>
    rw [scanSign]
    split_ifs with h
    · exact ⟨rfl, fun d hd => by cases hd; exact h⟩
    · exact ⟨rfl, fun d hd => by cases hd⟩

theorem scanExp_append {e : Option (Char × Option Char × List Char)}
    (he : ∀ c s d, e = some (c, s, d) → isExp c = true ∧ (∀ x, s = some x → isSign x = true) ∧ d ≠ [] ∧ ∀ x ∈ d, isDigit x = true)
    {r : List Char} (hr : Stop r) : scanExp (expText e ++ r) = (e, r) := by
  cases e with
  | none =>
    cases r with
    | nil => rfl
    | cons c t => simp [scanExp, expText, (hr c t rfl).2.2]
  | some p =>
    obtain ⟨c, s, d⟩ := p
    obtain ⟨h1, h2, h3, h4⟩ := he c s d rfl
    have hs : scanSign (s.toList ++ (d ++ r)) = (s, d ++ r) := by
      apply scanSign_append h2
      intro x t hx
      cases d with
      | nil => exact absurd rfl h3
      | cons y d =>
        rw [List.cons_append, List.cons.injEq] at hx
        exact hx.1 ▸ (digit_ne (h4 y List.mem_cons_self)).1
    obtain ⟨h5, h6⟩ := span_digits h4 fun c t h => (hr c t h).1
    rw [expText, List.cons_append, List.append_assoc, scanExp, hs]
    simp only [h5, h6]
    rw [if_pos ⟨h1, h3⟩]

theorem scanFrac_append {pt : Char → Bool} (hpt : ∀ c, pt c = true → isPoint c = true) {f : Option (Char × List Char)}
    (hf : ∀ c d, f = some (c, d) → pt c = true ∧ ∀ x ∈ d, isDigit x = true) {r : List Char}
    (hr : ∀ c t, r = c :: t → isDigit c = false ∧ isPoint c = false) : scanFrac pt (fracText f ++ r) = (f, r) := by
  cases f with
  | none =>
    cases r with
    | nil => rfl
    | cons c t =>
      have : pt c = false := by
        by_contra h
        rw [Bool.not_eq_false] at h
        exact absurd (hr c t rfl).2 (by simp [hpt c h])
      simp [scanFrac, fracText, this]
  | some p =>
    obtain ⟨c, d⟩ := p
    obtain ⟨h1, h2⟩ := hf c d rfl
    obtain ⟨h3, h4⟩ := span_digits h2 fun c t h => (hr c t h).1
    rw [fracText, List.cons_append, scanFrac, if_pos h1, h3, h4]

theorem exp_not_digit {c : Char} (h : isExp c = true) : isDigit c = false ∧ isPoint c = false := by
  have : c = 'e' ∨ c = 'E' := by simpa [isExp] using h
  rcases this with rfl | rfl <;> decide

theorem point_not_digit {c : Char} (h : isPoint c = true) : isDigit c = false ∧ isSign c = false := by
  have : c = '.' ∨ c = ',' := by simpa [isPoint] using h
  rcases this with rfl | rfl <;> decide

/-- A number before a text that does not go on with it is found. -/
theorem scan_text {pt : Char → Bool} (hpt : ∀ c, pt c = true → isPoint c = true) {n : Num} (h : n.Wf pt) {r : List Char} (hr : Stop r) :
    scan pt (n.text ++ r) = some (n, r) := by
  have hE : ∀ c t, expText n.exp ++ r = c :: t → isDigit c = false ∧ isPoint c = false := by
    intro c t hc
    cases he : n.exp with
    | none =>
      rw [he] at hc
      exact ⟨(hr c t hc).1, (hr c t hc).2.1⟩
    | some p =>
      obtain ⟨x, s, d⟩ := p
      rw [he, expText, List.cons_append, List.cons.injEq] at hc
      exact hc.1 ▸ exp_not_digit (h.exp x s d he).1
  have hF : ∀ c t, fracText n.frac ++ (expText n.exp ++ r) = c :: t → isDigit c = false := by
    intro c t hc
    cases hf : n.frac with
    | none =>
      rw [hf] at hc
      exact (hE c t hc).1
    | some p =>
      obtain ⟨x, d⟩ := p
      rw [hf, fracText, List.cons_append, List.cons.injEq] at hc
      exact hc.1 ▸ (point_not_digit (hpt x (h.frac x d hf).1)).1
  have hsign : scanSign (n.text ++ r) = (n.sign, n.int ++ (fracText n.frac ++ (expText n.exp ++ r))) := by
    rw [Num.text, List.append_assoc, List.append_assoc, List.append_assoc]
    apply scanSign_append h.sign
    intro c t hc
    cases hi : n.int with
    | cons d l =>
      rw [hi, List.cons_append, List.cons.injEq] at hc
      exact hc.1 ▸ (digit_ne (h.int d (by rw [hi]; exact List.mem_cons_self))).1
    | nil =>
      rcases h.digit with hd | ⟨x, f, hf, -⟩
      · exact absurd hi hd
      · rw [hi, hf, fracText, List.nil_append, List.cons_append, List.cons.injEq] at hc
        exact hc.1 ▸ (point_not_digit (hpt x (h.frac x f hf).1)).2
  have hahead : ahead pt (n.int ++ (fracText n.frac ++ (expText n.exp ++ r))) = true := by
    cases hi : n.int with
    | cons d l =>
      have hd := h.int d (by rw [hi]; exact List.mem_cons_self)
      rw [List.cons_append]
      cases l ++ (fracText n.frac ++ (expText n.exp ++ r)) with
      | nil => simp [ahead, hd]
      | cons y l => simp [ahead, hd]
    | nil =>
      rcases h.digit with hd | ⟨x, f, hf, hne⟩
      · exact absurd hi hd
      · obtain ⟨h1, h2⟩ := h.frac x f hf
        cases f with
        | nil => exact absurd rfl hne
        | cons y f => simp [hf, fracText, ahead, h1, h2 y List.mem_cons_self]
  obtain ⟨h1, h2⟩ := span_digits h.int hF
  rw [scan]
  simp only [hsign, hahead, if_true, h1, h2, scanFrac_append hpt h.frac hE, scanExp_append h.exp hr]

theorem scanFrac_eq (pt : Char → Bool) (s : List Char) : s = fracText (scanFrac pt s).1 ++ (scanFrac pt s).2 ∧
    ∀ c f, (scanFrac pt s).1 = some (c, f) → pt c = true ∧ ∀ d ∈ f, isDigit d = true := by
  cases s with
  | nil => exact ⟨rfl, fun c f h => by cases h⟩
  | cons c s =>
    rw [scanFrac]
    split_ifs with h
    · refine ⟨by simp [fracText], fun d f hd => ?_⟩
      simp only [Option.some.injEq, Prod.mk.injEq] at hd
      obtain ⟨rfl, rfl⟩ := hd
      exact ⟨h, takeWhile_digits s⟩
    · exact ⟨rfl, fun c f h => by cases h⟩

theorem scanExp_eq (s : List Char) : s = expText (scanExp s).1 ++ (scanExp s).2 ∧
    ∀ c o d, (scanExp s).1 = some (c, o, d) → isExp c = true ∧ (∀ x, o = some x → isSign x = true) ∧ d ≠ [] ∧ ∀ x ∈ d, isDigit x = true := by
  cases s with
  | nil => exact ⟨rfl, fun c o d h => by cases h⟩
  | cons c s =>
    rw [scanExp]
    split_ifs with h
    · refine ⟨?_, fun d o l hd => ?_⟩
      · rw [expText, List.cons_append, List.append_assoc, List.takeWhile_append_dropWhile, ← (scanSign_eq s).1]
      · simp only [Option.some.injEq, Prod.mk.injEq] at hd
        obtain ⟨rfl, rfl, rfl⟩ := hd
        exact ⟨h.1, (scanSign_eq s).2, h.2, takeWhile_digits _⟩
    · exact ⟨rfl, fun c o d h => by cases h⟩

/-- What is found is a number at the start. -/
theorem scan_sound {pt : Char → Bool} {s r : List Char} {n : Num} (h : scan pt s = some (n, r)) :
    s = n.text ++ r ∧ n.Wf pt := by
  rw [scan] at h
  simp only at h
  split_ifs at h with ha
  simp only [Option.some.injEq, Prod.mk.injEq] at h
  obtain ⟨rfl, rfl⟩ := h
  obtain ⟨h1, h2⟩ := scanSign_eq s
  generalize hg : (scanSign s).2 = t at *
  obtain ⟨h3, h4⟩ := scanFrac_eq pt (t.dropWhile isDigit)
  generalize hf : scanFrac pt (t.dropWhile isDigit) = f at *
  obtain ⟨h5, h6⟩ := scanExp_eq f.2
  refine ⟨?_, h2, takeWhile_digits t, h4, h6, ?_⟩
  · simp only [Num.text, List.append_assoc]
    rw [← h5, ← h3, List.takeWhile_append_dropWhile]
    exact h1
  · cases t with
    | nil => simp [ahead] at ha
    | cons c t =>
      by_cases hc : isDigit c = true
      · left
        rw [List.takeWhile_cons_of_pos hc]
        simp
      · right
        cases t with
        | nil => simp [ahead, hc] at ha
        | cons d t =>
          simp only [ahead, hc, Bool.false_or, Bool.and_eq_true] at ha
          rw [List.dropWhile_cons_of_neg hc, scanFrac, if_pos ha.1] at hf
          subst hf
          refine ⟨_, _, rfl, ?_⟩
          rw [List.takeWhile_cons_of_pos ha.2]
          simp

/-- A number at the start is not missed. -/
theorem scan_isSome {pt : Char → Bool} (hpt : ∀ c, pt c = true → isPoint c = true) {n : Num} (h : n.Wf pt) (r : List Char) :
    (scan pt (n.text ++ r)).isSome = true := by
  have key : ∀ r', ahead pt (n.int ++ (fracText n.frac ++ r')) = true := by
    intro r'
    cases hi : n.int with
    | cons d l =>
      have hd := h.int d (by rw [hi]; exact List.mem_cons_self)
      rw [List.cons_append]
      cases l ++ (fracText n.frac ++ r') with
      | nil => simp [ahead, hd]
      | cons y l => simp [ahead, hd]
    | nil =>
      rcases h.digit with hd | ⟨x, f, hf, hne⟩
      · exact absurd hi hd
      · obtain ⟨h1, h2⟩ := h.frac x f hf
        cases f with
        | nil => exact absurd rfl hne
        | cons y f => simp [hf, fracText, ahead, h1, h2 y List.mem_cons_self]
  have hsign : scanSign (n.text ++ r) = (n.sign, n.int ++ (fracText n.frac ++ (expText n.exp ++ r))) := by
    rw [Num.text, List.append_assoc, List.append_assoc, List.append_assoc]
    apply scanSign_append h.sign
    intro c t hc
    cases hi : n.int with
    | cons d l =>
      rw [hi, List.cons_append, List.cons.injEq] at hc
      exact hc.1 ▸ (digit_ne (h.int d (by rw [hi]; exact List.mem_cons_self))).1
    | nil =>
      rcases h.digit with hd | ⟨x, f, hf, -⟩
      · exact absurd hi hd
      · rw [hi, hf, fracText, List.nil_append, List.cons_append, List.cons.injEq] at hc
        exact hc.1 ▸ (point_not_digit (hpt x (h.frac x f hf).1)).2
  rw [scan]
  simp only [hsign, key, if_true, Option.isSome_some]

/-! ### Locales -/

/-- A locale: the decimal point is not part of a number otherwise, nor is the thousands separator, and they differ. -/
structure Loc.Ok (L : Loc) : Prop where
  dp : isDigit L.dp = false ∧ isSign L.dp = false ∧ isExp L.dp = false
  ts : ∀ t, L.ts = some t → t ≠ L.dp ∧ isDigit t = false ∧ isSign t = false ∧ isExp t = false

/-- The decimal point of a number is `.` or that of the locale. -/
def Num.PointOk (L : Loc) (n : Num) : Prop := ∀ c f, n.frac = some (c, f) → c = '.' ∨ c = L.dp

/-- With the decimal point `.`. -/
def Num.dot (n : Num) : Num := { n with frac := n.frac.map fun p : Char × List Char => ('.', p.2) }

theorem value_dot (n : Num) : n.dot.value = n.value := by
  have : (n.frac.map fun p : Char × List Char => ('.', p.2)).map Prod.snd = n.frac.map Prod.snd := by
    cases n.frac <;> rfl
  simp only [Num.value, Num.dot, this]
  rfl

theorem wf_dot {n : Num} (h : n.Wf isPoint) : n.dot.Wf (· = '.') := by
  refine ⟨h.sign, h.int, ?_, h.exp, ?_⟩
  · intro c f hf
    simp only [Num.dot, Option.map_eq_some_iff, Prod.exists, Prod.mk.injEq] at hf
    obtain ⟨d, g, hn, rfl, rfl⟩ := hf
    exact ⟨by simp, (h.frac d g hn).2⟩
  · rcases h.digit with hd | ⟨c, f, hf, hne⟩
    · exact .inl hd
    · exact .inr ⟨'.', f, by simp [Num.dot, hf], hne⟩

/-- A plain character of a number: a digit, sign or exponent letter. -/
def Plain (c : Char) : Prop := isDigit c = true ∨ isSign c = true ∨ isExp c = true

theorem map_text {n : Num} (h : n.Wf isPoint) (g : Char → Char) (hg : ∀ c, Plain c → g c = c) (hp : ∀ c f, n.frac = some (c, f) → g c = '.') :
    n.text.map g = n.dot.text := by
  have hid : ∀ l : List Char, (∀ c ∈ l, Plain c) → l.map g = l := fun l hl =>
    (List.map_congr_left fun c hc => hg c (hl c hc)).trans (List.map_id l)
  simp only [Num.text, List.map_append]
  congr 1
  · apply hid
    intro c hc
    exact .inr (.inl (h.sign c (by simpa using hc)))
  congr 1
  · exact hid _ fun c hc => .inl (h.int c hc)
  congr 1
  · cases hf : n.frac with
    | none => simp [Num.dot, hf, fracText]
    | some p =>
      obtain ⟨c, f⟩ := p
      have := hid f fun d hd => .inl ((h.frac c f hf).2 d hd)
      simp [Num.dot, hf, fracText, this, hp c f hf]
  · apply hid
    intro x hx
    cases he : n.exp with
    | none => simp [he, expText] at hx
    | some p =>
      obtain ⟨c, s, d⟩ := p
      obtain ⟨h1, h2, h3, h4⟩ := h.exp c s d he
      simp only [he, expText, List.mem_cons, List.mem_append, Option.mem_toList] at hx
      rcases hx with rfl | hx | hx
      · exact .inr (.inr h1)
      · exact .inr (.inl (h2 x hx))
      · exact .inl (h4 x hx)

theorem text_chars {n : Num} (h : n.Wf isPoint) {x : Char} (hx : x ∈ n.text) : Plain x ∨ ∃ f, n.frac = some (x, f) := by
  simp only [Num.text, List.mem_append, Option.mem_toList] at hx
  rcases hx with hx | hx | hx | hx
  · exact .inl (.inr (.inl (h.sign x hx)))
  · exact .inl (.inl (h.int x hx))
  · cases hf : n.frac with
    | none => simp [hf, fracText] at hx
    | some p =>
      obtain ⟨c, f⟩ := p
      simp only [hf, fracText, List.mem_cons] at hx
      rcases hx with rfl | hx
      · exact .inr ⟨f, rfl⟩
      · exact .inl (.inl ((h.frac c f hf).2 x hx))
  · cases he : n.exp with
    | none => simp [he, expText] at hx
    | some p =>
      obtain ⟨c, s, d⟩ := p
      obtain ⟨h1, h2, h3, h4⟩ := h.exp c s d he
      simp only [he, expText, List.mem_cons, List.mem_append, Option.mem_toList] at hx
      rcases hx with rfl | hx | hx
      · exact .inl (.inr (.inr h1))
      · exact .inl (.inr (.inl (h2 x hx)))
      · exact .inl (.inl (h4 x hx))

theorem plain_ne {c : Char} (h : Plain c) : c ≠ '.' ∧ ∀ L : Loc, L.Ok → c ≠ L.dp ∧ ∀ t, L.ts = some t → c ≠ t := by
  refine ⟨?_, fun L hL => ⟨?_, ?_⟩⟩
  · rintro rfl
    simp [Plain, isDigit, isSign, isExp] at h
  · rintro rfl
    obtain ⟨h1, h2, h3⟩ := hL.dp
    simp [Plain, h1, h2, h3] at h
  · rintro t ht rfl
    obtain ⟨-, h1, h2, h3⟩ := hL.ts c ht
    simp [Plain, h1, h2, h3] at h

theorem floatOf_text {n : Num} (h : n.Wf isPoint) : floatOf n.dot.text = some n.value := by
  have := scan_text (pt := (· = '.')) (fun c hc => by
    simp only [decide_eq_true_eq] at hc
    subst hc
    rfl) (wf_dot h) (r := []) (fun c t hc => by cases hc)
  rw [List.append_nil] at this
  rw [floatOf, this]
  exact congrArg some (value_dot n)

/-- What `atof` does with the text of a number. -/
theorem atof_text {L : Loc} (hL : L.Ok) {n : Num} (h : n.Wf isPoint) (hp : n.PointOk L) :
    (if L.dp ≠ '.' then atof L (replace '.' L.dp n.text) else atof L n.text) = some n.value := by
  have hkeep : ∀ s : List Char, (∀ x ∈ s, Plain x ∨ x = L.dp) → (match L.ts with
      | none => s
      | some t => s.filter (· ≠ t)) = s := by
    intro s hs
    cases ht : L.ts with
    | none => rfl
    | some t =>
      simp only
      rw [List.filter_eq_self]
      intro x hx
      simp only [decide_eq_true_eq]
      rcases hs x hx with hx | rfl
      · exact ((plain_ne hx).2 L hL).2 t ht
      · exact ((hL.ts t ht).1).symm
  split_ifs with hd
  · rw [atof, delocalize, hkeep, replace, replace, List.map_map, map_text h, floatOf_text h]
    · intro c hc
      have h1 := plain_ne hc
      simp only [Function.comp_apply, if_neg h1.1, if_neg (h1.2 L hL).1]
    · intro c f hf
      rcases hp c f hf with rfl | rfl
      · simp
      · simp [hd]
    · intro x hx
      rw [replace, List.mem_map] at hx
      obtain ⟨y, hy, rfl⟩ := hx
      split_ifs with hy0
      · exact .inr rfl
      · rcases text_chars h hy with hy | ⟨f, hf⟩
        · exact .inl hy
        · exact .inr ((hp y f hf).resolve_left hy0)
  · rw [not_not] at hd
    rw [atof, delocalize, hkeep, replace, map_text h, floatOf_text h]
    · intro c hc
      rw [if_neg ((plain_ne hc).2 L hL).1]
    · intro c f hf
      rcases hp c f hf with rfl | rfl
      · simp
      · simp
    · intro x hx
      rcases text_chars h hx with hx | ⟨f, hf⟩
      · exact .inl hx
      · rcases hp x f hf with rfl | rfl
        · exact .inr hd.symm
        · exact .inr rfl

/-! ### C77 -/

/-- White space before, and at the end, around something that starts without. -/
theorem strip_start {a s w : List Char} (ha : ∀ c ∈ a, isSpace c = true) (hs : ∀ c ∈ s, isSpace c = false) (hne : s ≠ []) :
    ∃ w', strip (a ++ (s ++ w)) = s ++ w' ∧ (w' = [] ∨ ∃ v, w = w' ++ v) := by
  rw [strip, dropWhile_all ha]
  have h1 : (s ++ w).dropWhile isSpace = s ++ w := by
    cases s with
    | nil => exact absurd rfl hne
    | cons c s => rw [List.cons_append, List.dropWhile_cons_of_neg (by rw [hs c List.mem_cons_self]; simp)]
  rw [h1]
  clear h1
  induction w using List.reverseRecOn with
  | nil =>
    refine ⟨[], ?_, .inl rfl⟩
    rw [List.append_nil, dropWhile_none fun d hd => hs d (List.mem_reverse.1 hd), List.reverse_reverse]
  | append_singleton w c ih =>
    obtain ⟨w', h1, h2⟩ := ih
    rw [← List.append_assoc, List.reverse_append, List.reverse_singleton, List.singleton_append]
    by_cases hc : isSpace c = true
    · rw [List.dropWhile_cons_of_pos hc]
      refine ⟨w', h1, ?_⟩
      rcases h2 with rfl | ⟨v, rfl⟩
      · exact .inl rfl
      · exact .inr ⟨v ++ [c], by simp⟩
    · rw [List.dropWhile_cons_of_neg hc]
      exact ⟨w ++ [c], by simp, .inr ⟨[], by simp⟩⟩

theorem text_not_space {n : Num} (h : n.Wf isPoint) : (∀ c ∈ n.text, isSpace c = false) ∧ n.text ≠ [] := by
  constructor
  · intro c hc
    rcases text_chars h hc with (hc | hc | hc) | ⟨f, hf⟩
    · exact isDigit_not_space hc
    · have : c = '-' ∨ c = '+' := by simpa [isSign] using hc
      rcases this with rfl | rfl <;> decide
    · have : c = 'e' ∨ c = 'E' := by simpa [isExp] using hc
      rcases this with rfl | rfl <;> decide
    · have : c = '.' ∨ c = ',' := by simpa [isPoint] using (h.frac c f hf).1
      rcases this with rfl | rfl <;> decide
  · rcases h.digit with hi | ⟨c, f, hf, -⟩
    · simp [Num.text, hi]
    · simp [Num.text, hf, fracText]

/-- C77 (partial: the decimal point is `.` or that of the locale): a number, after white space and before any text that does not go on
with it, is read as its value. -/
theorem fuzzyBack_text (L : Loc) (hL : L.Ok) (n : Num) (h : n.Wf isPoint) (hp : n.PointOk L) (a r : List Char)
    (ha : ∀ c ∈ a, isSpace c = true) (hr : Stop r) : fuzzyBack L (a ++ (n.text ++ r)) = some n.value := by
  obtain ⟨h1, h2⟩ := text_not_space h
  obtain ⟨w, hw, hw'⟩ := strip_start (w := r) ha h1 h2
  have hstop : Stop w := by
    intro c t hc
    rcases hw' with rfl | ⟨v, rfl⟩
    · cases hc
    · exact hr c (t ++ v) (by rw [hc]; rfl)
  rw [fuzzyBack, hw, scan_text (fun _ h => h) h hstop]
  exact atof_text hL h hp

/-- What a number text says: with `f` digits after the point and exponent `e`, `q * 10 ^ f` is the signed number of all its digits times
`10 ^ e`. -/
structure Denotes (n : Num) (q : ℚ) : Prop where
  plain : n.exp = none → q * 10 ^ ((n.frac.map Prod.snd).getD []).length =
    (if n.sign = some '-' then -1 else 1) * (digitsVal 0 (n.int ++ (n.frac.map Prod.snd).getD []) : ℚ)
  pos : ∀ c s d, n.exp = some (c, s, d) → s ≠ some '-' → q * 10 ^ ((n.frac.map Prod.snd).getD []).length =
    (if n.sign = some '-' then -1 else 1) * (digitsVal 0 (n.int ++ (n.frac.map Prod.snd).getD []) : ℚ) * 10 ^ digitsVal 0 d
  neg : ∀ c d, n.exp = some (c, some '-', d) → q * 10 ^ ((n.frac.map Prod.snd).getD []).length * 10 ^ digitsVal 0 d =
    (if n.sign = some '-' then -1 else 1) * (digitsVal 0 (n.int ++ (n.frac.map Prod.snd).getD []) : ℚ)

theorem denotes_value (n : Num) : Denotes n n.value := by
  have h10 : ∀ k : ℕ, (10 : ℚ) ^ k ≠ 0 := fun k => pow_ne_zero k (by norm_num)
  refine ⟨fun h => ?_, fun c s d h hs => ?_, fun c d h => ?_⟩
  · rw [Num.value, h]
    simp only [mul_one]
    exact div_mul_cancel₀ _ (h10 _)
  · rw [Num.value, h]
    simp only [if_neg hs]
    rw [mul_right_comm, div_mul_cancel₀ _ (h10 _)]
  · rw [Num.value, h]
    simp only [if_true]
    have h1 := h10 (digitsVal 0 d)
    have h2 := h10 ((n.frac.map Prod.snd).getD []).length
    generalize (10 : ℚ) ^ digitsVal 0 d = x at *
    generalize (10 : ℚ) ^ ((n.frac.map Prod.snd).getD []).length = y at *
    field_simp

/-- C77 (partial: without the sentence on commas in other locales): a number after white space and before text that does not go on
with it, is read as the number it denotes. -/
theorem C77_value_partial (L : Loc) (hL : L.Ok) (n : Num) (h : n.Wf isPoint) (hp : n.PointOk L) (a r : List Char)
    (ha : ∀ c ∈ a, isSpace c = true) (hr : Stop r) : ∃ q, fuzzyBack L (a ++ (n.text ++ r)) = some q ∧ Denotes n q :=
  ⟨n.value, fuzzyBack_text L hL n h hp a r ha hr, denotes_value n⟩

/-- C77 (partial: no comma, or the decimal point of the locale is one): there is a number for every string. -/
theorem C77_total_partial (L : Loc) (hL : L.Ok) (s : List Char) (hs : ',' ∉ s ∨ L.dp = ',') :
    ∃ q, fuzzyBack L s = some q ∧ (q = 0 ∨ ∃ (n : Num) (r : List Char), n.Wf isPoint ∧ strip s = n.text ++ r ∧ Denotes n q) := by
  rw [fuzzyBack]
  cases h : scan isPoint (strip s) with
  | none => exact ⟨0, rfl, .inl rfl⟩
  | some p =>
    obtain ⟨n, r⟩ := p
    obtain ⟨h1, h2⟩ := scan_sound h
    refine ⟨n.value, ?_,   .inr ⟨n, r, h2, h1, denotes_value n⟩⟩
    apply atof_text hL h2
    intro c f hf
    have hc : c = '.' ∨ c = ',' := by simpa [isPoint] using (h2.frac c f hf).1
    rcases hc with rfl | rfl
    · exact .inl rfl
    · rcases hs with hs | hs
      · exfalso
        apply hs
        have : ',' ∈ strip s := by
          rw [h1]
          simp [Num.text, hf, fracText]
        rw [strip, List.mem_reverse] at this
        exact (List.dropWhile_suffix _).subset (List.mem_reverse.1 ((List.dropWhile_suffix _).subset this))
      · exact .inr hs.symm

/-- C77: zero for a string that does not start with a number. -/
theorem C77_zero (L : Loc) (s : List Char) (h : ∀ (n : Num) (r : List Char), n.Wf isPoint → strip s ≠ n.text ++ r) :
    fuzzyBack L s = some 0 := by
  rw [fuzzyBack]
  cases hs : scan isPoint (strip s) with
  | none => rfl
  | some p =>
    obtain ⟨n, r⟩ := p
    obtain ⟨h1, h2⟩ := scan_sound hs
    exact absurd h1 (h n r h2)

/-- C77: a number at the start is not missed, whatever follows: then the value is that of a number the string starts with. -/
theorem C77_found_partial (L : Loc) (hL : L.Ok) (s : List Char) (hs : ',' ∉ s ∨ L.dp = ',') (n : Num) (r : List Char) (h : n.Wf isPoint)
    (he : strip s = n.text ++ r) :
    ∃ (m : Num) (t : List Char), m.Wf isPoint ∧ strip s = m.text ++ t ∧ ∃ q, fuzzyBack L s = some q ∧ Denotes m q := by
  obtain ⟨p, hp⟩ := Option.isSome_iff_exists.1 (scan_isSome (fun _ h => h) h r)
  rw [← he] at hp
  obtain ⟨m, t⟩ := p
  obtain ⟨h1, h2⟩ := scan_sound hp
  refine ⟨m, t, h2, h1, m.value, ?_, denotes_value m⟩
  rw [fuzzyBack, hp]
  apply atof_text hL h2
  intro c f hf
  have hc : c = '.' ∨ c = ',' := by simpa [isPoint] using (h2.frac c f hf).1
  rcases hc with rfl | rfl
  · exact .inl rfl
  · rcases hs with hs | hs
    · exfalso
      apply hs
      have : ',' ∈ strip s := by
        rw [h1]
        simp [Num.text, hf, fracText]
      rw [strip, List.mem_reverse] at this
      exact (List.dropWhile_suffix _).subset (List.mem_reverse.1 ((List.dropWhile_suffix _).subset this))
    · exact .inr hs.symm

/-- C77: nothing and the empty string pass as `None`. -/
theorem C77_none (L : Loc) : floatConvertBack L true none = .none ∧ floatConvertBack L true (some []) = .none := ⟨rfl, rfl⟩

/-- The locale `C`. -/
def locC : Loc := ⟨'.', none⟩
/-- The locale `en_US`. -/
def locEn : Loc := ⟨'.', some ','⟩
/-- The locale `de_DE`. -/
def locDe : Loc := ⟨',', some '.'⟩

theorem locC_ok : locC.Ok := ⟨by decide, fun _ h => by cases h⟩
theorem locEn_ok : locEn.Ok := ⟨by decide, fun _ h => by cases h; decide⟩
theorem locDe_ok : locDe.Ok := ⟨by decide, fun _ h => by cases h; decide⟩

/-- `1,5`. -/
def oneComma : Num := ⟨none, ['1'], some (',', ['5']), none⟩

/-- C77, counterexample: the pattern takes a comma for a decimal point, then `float` raises, in the locale `C`. -/
theorem C77_counterexample : oneComma.Wf isPoint ∧ fuzzyBack locC "1,5".toList = none := by
  refine ⟨⟨fun c h => (by cases h), by decide, ?_, fun c s d h => (by cases h), .inl (by decide)⟩, by decide⟩
  intro c f h
  cases h
  decide

/-- C77, counterexample: in the locale `en_US` the comma is removed and `1,5` is read as 15. -/
theorem C77_counterexample_value : fuzzyBack locEn "1,5".toList = some 15 ∧ fuzzyBack locDe "1,5".toList = some (3 / 2) := by
  decide +kernel

/-- `" -1.25e3 nm"` is read as -1250. -/
example : fuzzyBack locC " -1.25e3 nm".toList = some (-1250) := by
  decide +kernel

example : fuzzyBack locC "nm 5".toList = some 0 := by rfl

/-! ### C99 -/

/-- C99: a number, a space and any units are read as the number divided by the multiplier. -/
theorem C99_units (L : Loc) (hL : L.Ok) (n : Num) (h : n.Wf isPoint) (hp : n.PointOk L) (multiplier : ℚ) (hm : multiplier ≠ 0)
    (units : List Char) : ∃ q, physicalBack L multiplier (n.text ++ ' ' :: units) = some (q / multiplier) ∧ Denotes n q := by
  refine ⟨n.value, ?_, denotes_value n⟩
  have := fuzzyBack_text L hL n h hp [] (' ' :: units) (by simp) (fun c t hc => by
    cases hc
    decide)
  rw [List.nil_append] at this
  rw [physicalBack, this]
  simp only [if_neg hm]

/-- `"-0.5 e5m"` with the multiplier 10: the units may look like an exponent. -/
example : physicalBack locC 10 "-0.5 e5m".toList = some (-1 / 20) := by
  decide +kernel

end Verif.Converter
