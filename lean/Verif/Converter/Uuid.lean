import Verif.Converter.Integer
import Mathlib.Tactic.Linarith
import Mathlib.Data.List.Forall2

/-!
UUIDs and strings (`nion/utils/Converter.py:131-138`), C75. A UUID is its 32 hexadecimal digits.
-/

namespace Verif.Converter

/-- A UUID: 128 bits, here as 32 digits of four bits. -/
structure Uuid where
  nibbles : List (Fin 16)
  length : nibbles.length = 32
  deriving DecidableEq

def hexChar (n : Fin 16) : Char := if n.val < 10 then Char.ofNat (48 + n.val) else Char.ofNat (87 + n.val)
def hexUpper (n : Fin 16) : Char := if n.val < 10 then Char.ofNat (48 + n.val) else Char.ofNat (55 + n.val)

/-- A hexadecimal digit, upper or lower case. -/
def hexVal (c : Char) : Option (Fin 16) :=
  let n := c.toNat
  if 48 ≤ n ∧ n ≤ 57 then some (Fin.ofNat 16 (n - 48))
  else if 97 ≤ n ∧ n ≤ 102 then some (Fin.ofNat 16 (n - 87))
  else if 65 ≤ n ∧ n ≤ 70 then some (Fin.ofNat 16 (n - 55))
  else none

/-- Dashes after 8, 12, 16 and 20 digits. -/
def dashed (s : List Char) : List Char :=
  s.take 8 ++ ['-'] ++ (s.drop 8).take 4 ++ ['-'] ++ (s.drop 12).take 4 ++ ['-'] ++ (s.drop 16).take 4 ++ ['-'] ++ s.drop 20

/-- `str(u)`. -/
def Uuid.str (u : Uuid) : List Char := dashed (u.nibbles.map hexChar)

/-- Lines 132-133 for a UUID (which is always true). -/
def uuidConvert (u : Uuid) : List Char := u.str

/-- A place of the pattern of line 135. -/
inductive Pat where
  | hex
  | dash
  | four
  | variant
  deriving DecidableEq

/-- `[0-9A-F]{8}-[0-9A-F]{4}-4[0-9A-F]{3}-[89AB][0-9A-F]{3}-[0-9A-F]{12}`. -/
def pattern : List Pat :=
  List.replicate 8 .hex ++ [.dash] ++ List.replicate 4 .hex ++ [.dash] ++ ([.four] ++ List.replicate 3 .hex) ++ [.dash] ++
    ([.variant] ++ List.replicate 3 .hex) ++ [.dash] ++ List.replicate 12 .hex

/-- One character against the pattern, without case. -/
def Pat.matches (p : Pat) (c : Char) : Bool :=
  match p with
  | .hex => (hexVal c).isSome
  | .dash => c = '-'
  | .four => c = '4'
  | .variant => c = '8' || c = '9' || c = 'a' || c = 'b' || c = 'A' || c = 'B'

/-- `re.fullmatch`. -/
def fullmatch : List Pat → List Char → Bool
  | [], [] => true
  | p :: ps, c :: cs => p.matches c && fullmatch ps cs
  | _, _ => false

/-- `uuid.UUID(s)`: the digits without dashes; `none` is a `ValueError`. -/
def parseUuid (s : List Char) : Option Uuid :=
  match (s.filter (· ≠ '-')).mapM hexVal with
  | some l => if h : l.length = 32 then some ⟨l, h⟩ else none
  | none => none

/-- What comes back: a value or `None`; or `ValueError`. -/
inductive UuidResult where
  | uuid (u : Uuid)
  | none
  | raises
  deriving DecidableEq

/-- Lines 134-138. -/
def uuidConvertBack (s : List Char) : UuidResult :=
  if fullmatch pattern (strip s) then
    match parseUuid (strip s) with
    | some u => .uuid u
    | Option.none => .raises
  else .none

/-! ### C75 -/

theorem hexVal_hexChar (n : Fin 16) : hexVal (hexChar n) = some n ∧ hexVal (hexUpper n) = some n ∧ hexChar n ≠ '-' ∧
    hexUpper n ≠ '-' ∧ isSpace (hexChar n) = false ∧ isSpace (hexUpper n) = false := by
  revert n
  decide

/-- A digit character in lower or upper case. -/
def IsHex (c : Char) (n : Fin 16) : Prop := c = hexChar n ∨ c = hexUpper n

theorem IsHex.spec {c : Char} {n : Fin 16} (h : IsHex c n) : hexVal c = some n ∧ c ≠ '-' ∧ isSpace c = false := by
  have := hexVal_hexChar n
  rcases h with rfl | rfl
  · exact ⟨this.1, this.2.2.1, this.2.2.2.2.1⟩
  · exact ⟨this.2.1, this.2.2.2.1, this.2.2.2.2.2⟩

/-- The thirteenth digit is 4 and the seventeenth 8, 9, a or b: version 4 of RFC 4122. -/
def Uuid.Version4 (u : Uuid) : Prop := u.nibbles[12]? = some 4 ∧ ∃ v ∈ ([8, 9, 10, 11] : List (Fin 16)), u.nibbles[16]? = some v

theorem four_iff {c : Char} {n : Fin 16} (h : IsHex c n) : (Pat.four).matches c = true ↔ n = 4 := by
  have : ∀ n : Fin 16, ((Pat.four).matches (hexChar n) = true ↔ n = 4) ∧ ((Pat.four).matches (hexUpper n) = true ↔ n = 4) := by decide
  rcases h with rfl | rfl
  · exact (this n).1
  · exact (this n).2

theorem variant_iff {c : Char} {n : Fin 16} (h : IsHex c n) :
    (Pat.variant).matches c = true ↔ n ∈ ([8, 9, 10, 11] : List (Fin 16)) := by
  have : ∀ n : Fin 16, ((Pat.variant).matches (hexChar n) = true ↔ n ∈ ([8, 9, 10, 11] : List (Fin 16))) ∧
      ((Pat.variant).matches (hexUpper n) = true ↔ n ∈ ([8, 9, 10, 11] : List (Fin 16))) := by decide
  rcases h with rfl | rfl
  · exact (this n).1
  · exact (this n).2

theorem fullmatch_append {ps qs : List Pat} {cs ds : List Char} (h : ps.length = cs.length) :
    fullmatch (ps ++ qs) (cs ++ ds) = (fullmatch ps cs && fullmatch qs ds) := by
  induction ps generalizing cs with
  | nil =>
    cases cs with
    | nil => simp [fullmatch]
    | cons => simp at h
  | cons p ps ih =>
    cases cs with
    | nil => simp at h
    | cons c cs =>
      simp only [List.cons_append, fullmatch]
      rw [ih (by simpa using h), Bool.and_assoc]

theorem fullmatch_hex {cs : List Char} (h : ∀ c ∈ cs, ∃ n, IsHex c n) : fullmatch (List.replicate cs.length .hex) cs = true := by
  induction cs with
  | nil => rfl
  | cons c cs ih =>
    obtain ⟨n, hn⟩ := h c List.mem_cons_self
    rw [List.length_cons, List.replicate_succ, fullmatch, ih fun d hd => h d (List.mem_cons_of_mem _ hd)]
    simp [Pat.matches, hn.spec.1]

/-- 32 characters as groups. -/
theorem split_32 (s : List Char) (h : s.length = 32) : ∃ A B c C d D E, s = A ++ (B ++ (c :: (C ++ (d :: (D ++ E))))) ∧
    A.length = 8 ∧ B.length = 4 ∧ C.length = 3 ∧ D.length = 3 ∧ E.length = 12 := by
  have hs : ∀ (l : List Char) (k : ℕ), k ≤ l.length → ∃ A R, l = A ++ R ∧ A.length = k ∧ R.length = l.length - k := by
    intro l k hk
    exact ⟨l.take k, l.drop k, (List.take_append_drop k l).symm, by simp [hk], by simp⟩
  obtain ⟨A, R1, rfl, hA, h1⟩ := hs s 8 (by omega)
  obtain ⟨B, R2, rfl, hB, h2⟩ := hs R1 4 (by omega)
  cases R2 with
  | nil => simp at *; omega
  | cons c R2 =>
    rw [List.length_cons] at h2
    obtain ⟨C, R3, rfl, hC, h3⟩ := hs R2 3 (by omega)
    cases R3 with
    | nil => simp at *; omega
    | cons d R3 =>
      rw [List.length_cons] at h3
      obtain ⟨D, E, rfl, hD, h4⟩ := hs R3 3 (by omega)
      exact ⟨A, B, c, C, d, D, E, rfl, hA, hB, hC, hD, by omega⟩

theorem dashed_split {A B C D E : List Char} {c d : Char} (hA : A.length = 8) (hB : B.length = 4) (hC : C.length = 3)
    (hD : D.length = 3) : dashed (A ++ (B ++ (c :: (C ++ (d :: (D ++ E)))))) =
      A ++ (['-'] ++ (B ++ (['-'] ++ (c :: C ++ (['-'] ++ (d :: D ++ (['-'] ++ E))))))) := by
  have d8 : (A ++ (B ++ (c :: (C ++ (d :: (D ++ E)))))).drop 8 = B ++ (c :: (C ++ (d :: (D ++ E)))) := by
    rw [← hA, List.drop_left]
  have d12 : (A ++ (B ++ (c :: (C ++ (d :: (D ++ E)))))).drop 12 = c :: (C ++ (d :: (D ++ E))) := by
    rw [show 12 = 8 + 4 from rfl, ← List.drop_drop, d8, ← hB, List.drop_left]
  have d16 : (A ++ (B ++ (c :: (C ++ (d :: (D ++ E)))))).drop 16 = d :: (D ++ E) := by
    rw [show 16 = 12 + 4 from rfl, ← List.drop_drop, d12, List.drop_succ_cons, ← hC, List.drop_left]
  have d20 : (A ++ (B ++ (c :: (C ++ (d :: (D ++ E)))))).drop 20 = E := by
    rw [show 20 = 16 + 4 from rfl, ← List.drop_drop, d16, List.drop_succ_cons, ← hD, List.drop_left]
  have t8 : (A ++ (B ++ (c :: (C ++ (d :: (D ++ E)))))).take 8 = A := by rw [← hA, List.take_left]
  have t4 : (B ++ (c :: (C ++ (d :: (D ++ E))))).take 4 = B := by rw [← hB, List.take_left]
  have tc : (c :: (C ++ (d :: (D ++ E)))).take 4 = c :: C := by rw [List.take_succ_cons, ← hC, List.take_left]
  have td : (d :: (D ++ E)).take 4 = d :: D := by rw [List.take_succ_cons, ← hD, List.take_left]
  rw [dashed, d20, d16, d12, d8, t8, t4, tc, td]
  simp

/-- The pattern on dashed digits. -/
theorem fullmatch_dashed {s : List Char} (hl : s.length = 32) (hs : ∀ c ∈ s, ∃ n, IsHex c n) :
    ∃ c d, s[12]? = some c ∧ s[16]? = some d ∧
      fullmatch pattern (dashed s) = ((Pat.four).matches c && (Pat.variant).matches d) := by
  obtain ⟨A, B, c, C, d, D, E, rfl, hA, hB, hC, hD, hE⟩ := split_32 s hl
  refine ⟨c, d, ?_, ?_, ?_⟩
  · rw [List.getElem?_append_right (by omega), List.getElem?_append_right (by omega), hA, hB]
    rfl
  · rw [List.getElem?_append_right (by omega), List.getElem?_append_right (by omega), hA, hB,
      show 16 - 8 - 4 = 3 + 1 from rfl, List.getElem?_cons_succ, List.getElem?_append_right (by omega), hC]
    rfl
  · have hm : ∀ X : List Char, (∀ x ∈ X, x ∈ A ++ (B ++ (c :: (C ++ (d :: (D ++ E)))))) → ∀ k, X.length = k →
        fullmatch (List.replicate k .hex) X = true := by
      intro X hX k hk
      rw [← hk]
      exact fullmatch_hex fun x hx => hs x (hX x hx)
    have hdash : fullmatch [.dash] ['-'] = true := by decide
    rw [dashed_split hA hB hC hD, pattern]
    simp only [List.append_assoc]
    rw [fullmatch_append (by simp [hA]), fullmatch_append (by simp), fullmatch_append (by simp [hB]), fullmatch_append (by simp),
      hm A (by simp +contextual) 8 hA, hm B (by simp +contextual) 4 hB, hdash]
    simp only [List.cons_append, fullmatch, List.nil_append]
    rw [fullmatch_append (by simp [hC]), hm C (by simp +contextual) 3 hC]
    simp only [fullmatch]
    rw [fullmatch_append (by simp [hD]), hm D (by simp +contextual) 3 hD]
    simp only [fullmatch]
    rw [hm E (by simp +contextual) 12 hE]
    simp [Pat.matches]

theorem mem_dashed {s : List Char} {x : Char} (h : x ∈ dashed s) : x = '-' ∨ x ∈ s := by
  simp only [dashed, List.mem_append, List.mem_singleton] at h
  rcases h with (((((((h | h) | h) | h) | h) | h) | h) | h) | h
  · exact .inr (List.mem_of_mem_take h)
  · exact .inl h
  · exact .inr (List.mem_of_mem_drop (List.mem_of_mem_take h))
  · exact .inl h
  · exact .inr (List.mem_of_mem_drop (List.mem_of_mem_take h))
  · exact .inl h
  · exact .inr (List.mem_of_mem_drop (List.mem_of_mem_take h))
  · exact .inl h
  · exact .inr (List.mem_of_mem_drop h)

theorem filter_dashed {s : List Char} (hl : s.length = 32) (hs : ∀ c ∈ s, ∃ n, IsHex c n) :
    (dashed s).filter (· ≠ '-') = s := by
  have hf : ∀ X : List Char, (∀ x ∈ X, x ∈ s) → X.filter (· ≠ '-') = X := by
    intro X hX
    rw [List.filter_eq_self]
    intro x hx
    obtain ⟨n, hn⟩ := hs x (hX x hx)
    simpa using hn.spec.2.1
  obtain ⟨A, B, c, C, d, D, E, rfl, hA, hB, hC, hD, hE⟩ := split_32 s hl
  have hdash : List.filter (· ≠ '-') ['-'] = [] := by decide
  rw [dashed_split hA hB hC hD]
  rw [List.filter_append, List.filter_append, List.filter_append, List.filter_append, List.filter_append, List.filter_append,
    List.filter_append, List.filter_append, hdash, hf A (by simp +contextual), hf B (by simp +contextual),
    hf (c :: C) (by simp +contextual), hf (d :: D) (by simp +contextual), hf E (by simp +contextual)]
  simp

theorem mapM_hexVal {s : List Char} {n : List (Fin 16)} (h : List.Forall₂ IsHex s n) : s.mapM hexVal = some n := by
  induction h with
  | nil => rfl
  | cons h _ ih => simp [List.mapM_cons, h.spec.1, ih]

/-- C75 in general: a UUID of version 4 written in lower or upper case, with white space around, is read as the UUID; any other UUID is
read as `None`. -/
theorem C75_back (u : Uuid) (s a b : List Char) (hs : List.Forall₂ IsHex s u.nibbles) (ha : ∀ c ∈ a, isSpace c = true)
    (hb : ∀ c ∈ b, isSpace c = true) :
    (u.Version4 → uuidConvertBack (a ++ dashed s ++ b) = .uuid u) ∧
      (¬ u.Version4 → uuidConvertBack (a ++ dashed s ++ b) = .none) := by
  have hl : s.length = 32 := by rw [hs.length_eq, u.length]
  have hex : ∀ c ∈ s, ∃ n, IsHex c n := by
    intro c hc
    obtain ⟨i, hi, rfl⟩ := List.mem_iff_getElem.1 hc
    exact ⟨_, (List.forall₂_iff_get.1 hs).2 i hi (by rw [← hs.length_eq]; exact hi)⟩
  have hns : ∀ c ∈ dashed s, isSpace c = false := by
    intro c hc
    rcases mem_dashed hc with rfl | hc
    · decide
    · obtain ⟨n, hn⟩ := hex c hc
      exact hn.spec.2.2
  obtain ⟨c, d, hc, hd, hm⟩ := fullmatch_dashed hl hex
  have hnc : ∀ (i : ℕ) (x : Char), s[i]? = some x → ∃ n, u.nibbles[i]? = some n ∧ IsHex x n := by
    intro i x hx
    obtain ⟨hi, rfl⟩ := List.getElem?_eq_some_iff.1 hx
    have hi' : i < u.nibbles.length := by rw [← hs.length_eq]; exact hi
    exact ⟨_, List.getElem?_eq_getElem hi', (List.forall₂_iff_get.1 hs).2 i hi hi'⟩
  obtain ⟨n, hn, hcn⟩ := hnc 12 c hc
  obtain ⟨v, hv, hdv⟩ := hnc 16 d hd
  have hver : u.Version4 ↔ fullmatch pattern (dashed s) = true := by
    rw [hm, Bool.and_eq_true, four_iff hcn, variant_iff hdv, Uuid.Version4, hn, hv]
    simp only [Option.some.injEq, exists_eq_right']
  have hp : parseUuid (dashed s) = some u := by
    rw [parseUuid, filter_dashed hl hex, mapM_hexVal hs]
    simp only [u.length, dif_pos]
  rw [uuidConvertBack, strip_spaces ha hns hb, hp]
  constructor
  · intro h
    rw [if_pos (hver.1 h)]
  · intro h
    rw [if_neg fun h' => h (hver.2 h')]

/-- C75 (partial: version 4): the round trip. -/
theorem C75_round_trip_partial (u : Uuid) (h : u.Version4) : uuidConvertBack (uuidConvert u) = .uuid u := by
  have hs : List.Forall₂ IsHex (u.nibbles.map hexChar) u.nibbles := by
    rw [List.forall₂_map_left_iff, List.forall₂_same]
    exact fun n _ => .inl rfl
  have := (C75_back u _ [] [] hs (by simp) (by simp)).1 h
  simpa [uuidConvert, Uuid.str] using this

theorem fullmatch_digits {ps : List Pat} {cs : List Char} (h : fullmatch ps cs = true) :
    ∃ l, (cs.filter (· ≠ '-')).mapM hexVal = some l ∧ l.length = (ps.filter (· ≠ .dash)).length := by
  have hd : hexVal '-' = none := by decide
  have key : ∀ (p : Pat) (c : Char), p.matches c = true → p ≠ .dash → ∃ n, hexVal c = some n := by
    intro p c hp hne
    cases p with
    | hex => exact Option.isSome_iff_exists.1 hp
    | dash => exact absurd rfl hne
    | four =>
      have : c = '4' := by simpa [Pat.matches] using hp
      exact this ▸ ⟨4, by decide⟩
    | variant =>
      have : ((((c = '8' ∨ c = '9') ∨ c = 'a') ∨ c = 'b') ∨ c = 'A') ∨ c = 'B' := by simpa [Pat.matches] using hp
      rcases this with ((((rfl | rfl) | rfl) | rfl) | rfl) | rfl
      exacts [⟨8, by decide⟩, ⟨9, by decide⟩, ⟨10, by decide⟩, ⟨11, by decide⟩, ⟨10, by decide⟩, ⟨11, by decide⟩]
  induction ps generalizing cs with
  | nil =>
    cases cs with
    | nil => exact ⟨[], rfl, rfl⟩
    | cons => simp [fullmatch] at h
  | cons p ps ih =>
    cases cs with
    | nil => simp [fullmatch] at h
    | cons c cs =>
      rw [fullmatch, Bool.and_eq_true] at h
      obtain ⟨l, hl, hlen⟩ := ih h.2
      by_cases hp : p = .dash
      · subst hp
        have hc : c = '-' := by simpa [Pat.matches] using h.1
        subst hc
        exact ⟨l, by simpa using hl, by simpa using hlen⟩
      · obtain ⟨n, hn⟩ := key p c h.1 hp
        have hc : c ≠ '-' := by
          rintro rfl
          rw [hd] at hn
          cases hn
        refine ⟨n :: l, ?_, ?_⟩
        · rw [List.filter_cons_of_pos (by simpa using hc), List.mapM_cons, hn, hl]
          rfl
        · rw [List.filter_cons_of_pos (by simpa using hp), List.length_cons, List.length_cons, hlen]

/-- C75: nothing makes it raise: any text. -/
theorem C75_no_raise (s : List Char) : uuidConvertBack s ≠ .raises := by
  rw [uuidConvertBack]
  split_ifs with h
  · obtain ⟨l, hl, hlen⟩ := fullmatch_digits h
    have h32 : l.length = 32 := by rw [hlen]; rfl
    rw [parseUuid, hl]
    simp only [h32, dif_pos]
    exact UuidResult.noConfusion
  · exact UuidResult.noConfusion

/-- C75, counterexample: other UUIDs are read as `None`, such as the one with digits zero. -/
theorem C75_counterexample (u : Uuid) (h : ¬ u.Version4) : uuidConvertBack (uuidConvert u) = .none := by
  have hs : List.Forall₂ IsHex (u.nibbles.map hexChar) u.nibbles := by
    rw [List.forall₂_map_left_iff, List.forall₂_same]
    exact fun n _ => .inl rfl
  have := (C75_back u _ [] [] hs (by simp) (by simp)).2 h
  simpa [uuidConvert, Uuid.str] using this

/-- A UUID of version 1, such as `uuid.uuid1()` makes, does not come back. -/
example : ¬ (⟨[6, 11, 10, 7, 11, 8, 1, 0, 9, 13, 10, 13, 1, 1, 13, 1, 8, 0, 11, 4, 0, 0, 12, 0, 4, 15, 13, 4, 3, 0, 12, 8], rfl⟩ :
    Uuid).Version4 := by
  unfold Uuid.Version4
  decide

/-- `"6BA7B810-9dad-41d1-80b4-00c04fd430c8"`, of version 4, in mixed case, after a space. -/
example : ∃ u : Uuid, u.Version4 ∧ uuidConvertBack " 6BA7B810-9dad-41d1-80b4-00c04fd430c8".toList = .uuid u :=
  ⟨⟨[6, 11, 10, 7, 11, 8, 1, 0, 9, 13, 10, 13, 4, 1, 13, 1, 8, 0, 11, 4, 0, 0, 12, 0, 4, 15, 13, 4, 3, 0, 12, 8], rfl⟩,
    by unfold Uuid.Version4; decide, by decide⟩

end Verif.Converter
