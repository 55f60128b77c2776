import Verif.Converter.Datetime
import Verif.Persist.Dict

/-!
C136: the stored time of the last modification (`nion/utils/Persistence.py:508-509` in `read_from_dict`): the text under `"modified"` is
cut at every character that is no digit, and the numbers are passed to `datetime.datetime`. The text is written by the storage, as
`isoformat()`; `write_to_dict` (lines 562-580) does not write it.

`\d` and `int` are modelled for ASCII digits. `none` is a `ValueError` (an empty piece, no such time) or a `TypeError` (too few or too
many numbers; a number as time zone).
-/

namespace Verif.Persist.ModifiedTime

open Verif.Converter Verif.Persist

/-- `re.split('[^\d]', s)`. -/
def pieces : List Char → List (List Char)
  | [] => [[]]
  | c :: s =>
    if isDigit c then
      match pieces s with
      | p :: ps => (c :: p) :: ps
      | [] => [[c]]
    else [] :: pieces s

/-- `int(p)` for a piece. -/
def pieceInt (p : List Char) : Option ℕ := if p = [] then none else some (digitsVal 0 p)

/-- `list(map(int, ps))`. -/
def ints : List (List Char) → Option (List ℕ)
  | [] => some []
  | p :: ps => (pieceInt p).bind fun n => (ints ps).map fun ns => n :: ns

/-- `datetime.datetime(*ns)`. -/
def fromInts : List ℕ → Option Datetime
  | [y, mo, d] => construct ⟨y, mo, d, 0, 0, 0, 0⟩
  | [y, mo, d, h] => construct ⟨y, mo, d, h, 0, 0, 0⟩
  | [y, mo, d, h, mi] => construct ⟨y, mo, d, h, mi, 0, 0⟩
  | [y, mo, d, h, mi, s] => construct ⟨y, mo, d, h, mi, s, 0⟩
  | [y, mo, d, h, mi, s, us] => construct ⟨y, mo, d, h, mi, s, us⟩
  | _ => none

/-- Line 509. -/
def parseModified (s : List Char) : Option Datetime := (ints (pieces s)).bind fromInts

/-- Lines 508-509 for an object that has the time `t0`; `re.split` of anything but a text raises. -/
def readTime (t0 : Datetime) (d : Dict) : Option Datetime :=
  match d.lookup "modified" with
  | some (.str s) => parseModified s.toList
  | some _ => none
  | none => some t0

/-! ### What is expected -/

/-- The numbers, each in one or more decimal digits, with one character that is no digit between two of them. -/
inductive Joined : List ℕ → List Char → Prop
  | one (w n : ℕ) : 1 ≤ w → n < 10 ^ w → Joined [n] (pad w n)
  | cons (w n : ℕ) (c : Char) (ns : List ℕ) (s : List Char) : 1 ≤ w → n < 10 ^ w → isDigit c = false → Joined ns s →
      Joined (n :: ns) (pad w n ++ c :: s)

/-- The numbers are the fields of the time in order, from the year at least to the day; the others are zero. -/
def Fields (d : Datetime) (ns : List ℕ) : Prop :=
  3 ≤ ns.length ∧ ∃ k, [d.year, d.month, d.day, d.hour, d.minute, d.second, d.micro] = ns ++ List.replicate k 0

/-! ### Proofs -/

theorem pieces_digits : ∀ p : List Char, (∀ c ∈ p, isDigit c = true) → pieces p = [p]
  | [], _ => rfl
  | c :: p, h => by
    rw [pieces, if_pos (h c (by simp)), pieces_digits p fun x hx => h x (List.mem_cons_of_mem _ hx)]

theorem pieces_ne : ∀ s : List Char, pieces s ≠ []
  | [] => by simp [pieces]
  | c :: s => by
    rw [pieces]
    split_ifs
    · split <;> simp
    · simp

theorem pieces_append (c : Char) (hc : isDigit c = false) (t : List Char) : ∀ s : List Char,
    pieces (s ++ c :: t) = pieces s ++ pieces t
  | [] => by simp [pieces, hc]
  | x :: s => by
    have ih := pieces_append c hc t s
    rw [List.cons_append, pieces, pieces, ih]
    split_ifs
    · obtain ⟨p, ps, h⟩ := List.exists_cons_of_ne_nil (pieces_ne s)
      simp [h]
    · rfl

theorem ints_append (ps qs : List (List Char)) : ints (ps ++ qs) = (ints ps).bind fun ns => (ints qs).map fun ms => ns ++ ms := by
  induction ps with
  | nil => simp [ints]
  | cons p ps ih =>
    simp only [List.cons_append, ints, ih]
    cases pieceInt p <;> cases ints ps <;> cases ints qs <;> simp

theorem pieceInt_pad {w n : ℕ} (hw : 1 ≤ w) (hn : n < 10 ^ w) : pieceInt (pad w n) = some n := by
  rw [pieceInt, if_neg, digitsVal_pad hn]
  intro h
  have := congrArg List.length h
  rw [length_pad] at this
  simp at this
  omega

theorem pieces_pad (w n : ℕ) : pieces (pad w n) = [pad w n] := pieces_digits _ (pad_digits w n)

theorem Joined.ints {ns : List ℕ} {s : List Char} (h : Joined ns s) : ints (pieces s) = some ns := by
  induction h with
  | one w n hw hn => simp [pieces_pad, ModifiedTime.ints, pieceInt_pad hw hn]
  | cons w n c ns s hw hn hc _ ih => simp [pieces_append c hc, pieces_pad, ModifiedTime.ints, pieceInt_pad hw hn, ih]

theorem pieceInt_some {p : List Char} {n : ℕ} (hp : ∀ c ∈ p, isDigit c = true) (h : pieceInt p = some n) :
    ∃ w, 1 ≤ w ∧ n < 10 ^ w ∧ p = pad w n := by
  rw [pieceInt] at h
  split_ifs at h with h0
  injection h with h
  subst h
  exact ⟨p.length, List.length_pos_of_ne_nil h0, (pad_digitsVal hp).2, (pad_digitsVal hp).1.symm⟩

theorem joined_of_ints : ∀ (s p : List Char) (ns : List ℕ), (∀ c ∈ p, isDigit c = true) → ints (pieces (p ++ s)) = some ns →
    Joined ns (p ++ s)
  | [], p, ns, hp, h => by
    rw [List.append_nil] at h ⊢
    rw [pieces_digits p hp] at h
    simp only [ints, Option.bind_eq_some_iff, Option.map_some, Option.some.injEq] at h
    obtain ⟨n, hn, rfl⟩ := h
    obtain ⟨w, hw, hlt, rfl⟩ := pieceInt_some hp hn
    exact .one w n hw hlt
  | c :: s, p, ns, hp, h => by
    cases hc : isDigit c with
    | true =>
      have := joined_of_ints s (p ++ [c]) ns (by
        intro x hx
        rw [List.mem_append, List.mem_singleton] at hx
        rcases hx with hx | rfl
        · exact hp x hx
        · exact hc) (by simpa using h)
      simpa using this
    | false =>
      rw [pieces_append c hc, pieces_digits p hp] at h
      simp only [List.singleton_append, ints, Option.bind_eq_some_iff, Option.map_eq_some_iff] at h
      obtain ⟨n, hn, ms, hms, rfl⟩ := h
      obtain ⟨w, hw, hlt, rfl⟩ := pieceInt_some hp hn
      exact .cons w n c ms s hw hlt hc (by simpa using joined_of_ints s [] ms (by simp) (by simpa using hms))

theorem ints_iff (s : List Char) (ns : List ℕ) : ints (pieces s) = some ns ↔ Joined ns s :=
  ⟨fun h => by simpa using joined_of_ints s [] ns (by simp) (by simpa using h), Joined.ints⟩

theorem fromInts_iff (ns : List ℕ) (d : Datetime) : fromInts ns = some d ↔ Exists d ∧ Fields d ns := by
  rw [exists_iff, Fields]
  obtain ⟨y, mo, dd, h, mi, s, us⟩ := d
  have hk : ∀ (l : List ℕ) (k : ℕ), [y, mo, dd, h, mi, s, us] = l ++ List.replicate k 0 → k = 7 - l.length := by
    intro l k e
    have := congrArg List.length e
    simp at this
    omega
  constructor
  · intro e
    unfold fromInts at e
    split at e
    case h_6 => cases e
    all_goals
      obtain ⟨hv, e⟩ := construct_iff.1 e
      simp only [Datetime.mk.injEq] at e
      obtain ⟨rfl, rfl, rfl, rfl, rfl, rfl, rfl⟩ := e
      refine ⟨hv, by simp, ?_⟩
    exacts [⟨4, rfl⟩, ⟨3, rfl⟩, ⟨2, rfl⟩, ⟨1, rfl⟩, ⟨0, rfl⟩]
  · rintro ⟨hv, h3, k, e⟩
    have hk' := hk ns k e
    have hl := congrArg List.length e
    simp only [List.length_append, List.length_cons, List.length_nil, List.length_replicate] at hl
    have : ns.length = 3 ∨ ns.length = 4 ∨ ns.length = 5 ∨ ns.length = 6 ∨ ns.length = 7 := by omega
    rcases this with h' | h' | h' | h' | h'
    all_goals rw [h'] at hk'
    all_goals subst hk'
    · obtain ⟨a, b, c, rfl⟩ := List.length_eq_three.1 h'
      simp [List.replicate_succ] at e
      obtain ⟨rfl, rfl, rfl, rfl, rfl, rfl, rfl⟩ := e
      exact construct_iff.2 ⟨hv, rfl⟩
    · match ns, h' with
      | [_, _, _, _], _ =>
        simp [List.replicate_succ] at e
        obtain ⟨rfl, rfl, rfl, rfl, rfl, rfl, rfl⟩ := e
        exact construct_iff.2 ⟨hv, rfl⟩
    · match ns, h' with
      | [_, _, _, _, _], _ =>
        simp [List.replicate_succ] at e
        obtain ⟨rfl, rfl, rfl, rfl, rfl, rfl, rfl⟩ := e
        exact construct_iff.2 ⟨hv, rfl⟩
    · match ns, h' with
      | [_, _, _, _, _, _], _ =>
        simp [List.replicate_succ] at e
        obtain ⟨rfl, rfl, rfl, rfl, rfl, rfl, rfl⟩ := e
        exact construct_iff.2 ⟨hv, rfl⟩
    · match ns, h' with
      | [_, _, _, _, _, _, _], _ =>
        simp at e
        obtain ⟨rfl, rfl, rfl, rfl, rfl, rfl, rfl⟩ := e
        exact construct_iff.2 ⟨hv, rfl⟩

/-- C136: exactly the texts with the numbers of an existing time, from the year on, with any single characters between, are read, and as
that time. -/
theorem C136_texts (s : List Char) (d : Datetime) : parseModified s = some d ↔ Exists d ∧ ∃ ns, Fields d ns ∧ Joined ns s := by
  rw [parseModified, Option.bind_eq_some_iff]
  constructor
  · rintro ⟨ns, h, h'⟩
    obtain ⟨hd, hf⟩ := (fromInts_iff ns d).1 h'
    exact ⟨hd, ns, hf, (ints_iff s ns).1 h⟩
  · rintro ⟨hd, ns, hf, h⟩
    exact ⟨ns, (ints_iff s ns).2 h, (fromInts_iff ns d).2 ⟨hd, hf⟩⟩

theorem joined_seconds {d : Datetime} (hd : Exists d) {ns : List ℕ} {s : List Char} {c : Char} (hc : isDigit c = false)
    (h : Joined ns s) : Joined (d.year :: d.month :: d.day :: d.hour :: d.minute :: d.second :: ns) (isoSeconds d ++ c :: s) := by
  obtain ⟨h1, h2, h3, h4, h5, h6⟩ := hd
  have e : isoSeconds d ++ c :: s = pad 4 d.year ++ '-' :: (pad 2 d.month ++ '-' :: (pad 2 d.day ++ 'T' :: (pad 2 d.hour ++ ':' ::
      (pad 2 d.minute ++ ':' :: (pad 2 d.second ++ c :: s))))) := by
    simp [isoSeconds]
  rw [e]
  have n : ∀ k : ℕ, k < 100 → k < 10 ^ 2 := fun k h => by simpa using h
  exact .cons 4 _ _ _ _ (by omega) (by omega) (by decide) <| .cons 2 _ _ _ _ (by omega) (n _ (by omega)) (by decide) <|
    .cons 2 _ _ _ _ (by omega) (n _ (by omega)) (by decide) <| .cons 2 _ _ _ _ (by omega) (n _ (by omega)) (by decide) <|
    .cons 2 _ _ _ _ (by omega) (n _ (by omega)) (by decide) <| .cons 2 _ _ _ _ (by omega) (n _ (by omega)) hc h

theorem joined_whole {d : Datetime} (hd : Exists d) :
    Joined [d.year, d.month, d.day, d.hour, d.minute, d.second] (isoSeconds d) := by
  obtain ⟨h1, h2, h3, h4, h5, h6⟩ := hd
  rw [isoSeconds]
  have n : ∀ k : ℕ, k < 100 → k < 10 ^ 2 := fun k h => by simpa using h
  exact .cons 4 _ _ _ _ (by omega) (by omega) (by decide) <| .cons 2 _ _ _ _ (by omega) (n _ (by omega)) (by decide) <|
    .cons 2 _ _ _ _ (by omega) (n _ (by omega)) (by decide) <| .cons 2 _ _ _ _ (by omega) (n _ (by omega)) (by decide) <|
    .cons 2 _ _ _ _ (by omega) (n _ (by omega)) (by decide) <| .one 2 _ (by omega) (n _ (by omega))

/-- C136: the time is read back as it was written, to the microsecond. -/
theorem C136_round_trip (d : Datetime) (hd : Exists d) : parseModified d.isoformat = some d := by
  rw [C136_texts]
  refine ⟨hd, ?_⟩
  rw [Datetime.isoformat]
  split_ifs with h0
  · refine ⟨_, ⟨?_, 1, ?_⟩, by simpa using joined_whole hd⟩
    · simp
    · simp [h0]
  · have := hd.time
    refine ⟨_, ⟨?_, 0, ?_⟩, joined_seconds hd (by decide) (.one 6 d.micro (by omega) (by omega))⟩
    · simp
    · simp

/-- C136: digits behind the seconds are taken as a number of microseconds, however many they are. -/
theorem C136_fraction (d : Datetime) (hd : Exists d) (w f : ℕ) (hw : 1 ≤ w) (hf : f < 10 ^ w) (hu : f < 1000000) :
    parseModified (isoSeconds d ++ '.' :: pad w f) = some { d with micro := f } := by
  rw [C136_texts]
  refine ⟨⟨hd.year, hd.month, hd.day, hd.thirty, hd.february, hd.time.1, hd.time.2.1, hd.time.2.2.1, hu⟩, _, ⟨?_, 0, ?_⟩,
    joined_seconds hd (by decide) (.one w f hw hf)⟩
  · simp
  · simp

/-- C136 is false of texts with milliseconds: half a second is read as 500 microseconds. -/
theorem C136_counterexample_milliseconds :
    parseModified "2020-05-17T12:00:00.500".toList = some ⟨2020, 5, 17, 12, 0, 0, 500⟩ := by
  decide

theorem joined_length_pos {ns : List ℕ} {s : List Char} (h : Joined ns s) : ns ≠ [] := by
  cases h <;> simp

/-- C136: a text with a time zone cannot be read: neither `Z` nor an offset `+hh:mm…`. -/
theorem C136_aware (d : Datetime) (hd : Exists d) :
    parseModified (d.isoformat ++ ['Z']) = none ∧
      ∀ (sign sep : Char) (h : ℕ) (rest : List Char), isDigit sign = false → isDigit sep = false →
        parseModified (d.isoformat ++ sign :: (pad 2 h ++ sep :: rest)) = none := by
  have hiso : ∃ ns : List ℕ, 6 ≤ ns.length ∧ ints (pieces d.isoformat) = some ns := by
    rw [Datetime.isoformat]
    have := hd.time
    split_ifs with h0
    · have j := joined_whole hd
      rw [List.append_nil]
      exact ⟨_, by simp, j.ints⟩
    · have j := joined_seconds (c := '.') hd (by decide) (.one 6 d.micro (by omega) (by omega))
      exact ⟨_, by simp, j.ints⟩
  obtain ⟨ns, hl, hn⟩ := hiso
  refine ⟨?_, ?_⟩
  · rw [parseModified, pieces_append 'Z' (by decide), ints_append, hn]
    simp [pieces, ints, pieceInt]
  · intro sign sep h rest hs hp
    rw [parseModified, pieces_append sign hs, pieces_append sep hp, ints_append, hn, ints_append]
    cases h1 : ints (pieces (pad 2 h)) with
    | none => rfl
    | some ms =>
      cases h2 : ints (pieces rest) with
      | none => rfl
      | some ks =>
        have l1 := joined_length_pos ((ints_iff _ _).1 h1)
        have l2 := joined_length_pos ((ints_iff _ _).1 h2)
        have l1 := List.length_pos_of_ne_nil l1
        have l2 := List.length_pos_of_ne_nil l2
        change fromInts (ns ++ (ms ++ ks)) = none
        cases hr : fromInts (ns ++ (ms ++ ks)) with
        | none => rfl
        | some t =>
          obtain ⟨-, -, k, e⟩ := (fromInts_iff _ _).1 hr
          have := congrArg List.length e
          simp at this
          omega

/-! ### In objects -/

variable {V : Type} (env : Nat → Class V)

/-- C136 is false of objects written and read without a storage: the time is not written, the object that is read keeps its own. -/
theorem C136_counterexample_not_written (c : Nat) (u : String) (ps : List V) (is : Items V) (rs : Rels V) (t0 : Datetime)
    (h : "modified" ∉ (env c).props.map PropDef.key ++ (env c).items.map ItemDef.name ++ (env c).rels.map RelDef.key) :
    readTime t0 (writeObj env (.mk c u ps is rs)) = some t0 := by
  simp only [List.mem_append, not_or] at h
  have e : (writeObj env (.mk c u ps is rs)).lookup "modified" = none := by
    rw [writeObj, lookup_writeRels_ne env _ _ _ h.2, lookup_writeItems_ne env _ _ _ h.1.2, lookup_writeProps_ne _ _ _ h.1.1,
      lookup_dset_ne _ _ (by decide)]
    split_ifs
    · rfl
    · simp [List.lookup]
  rw [readTime, e]

/-- C136: with the time that the storage adds, the object that is read has it. -/
theorem C136_stored_partial (d : Dict) (t0 t : Datetime) (ht : Exists t) :
    readTime t0 (dset d "modified" (.str (String.ofList t.isoformat))) = some t := by
  rw [readTime, lookup_dset_self]
  simp [C136_round_trip t ht]

example : parseModified "2020-05-17T12:00:00.000500".toList = some ⟨2020, 5, 17, 12, 0, 0, 500⟩ ∧
    parseModified "2020-05-17 12:30:00".toList = some ⟨2020, 5, 17, 12, 30, 0, 0⟩ ∧
    parseModified "2020/5/17".toList = some ⟨2020, 5, 17, 0, 0, 0, 0⟩ ∧ parseModified "2020-05".toList = none ∧
    parseModified "2020-05-17T12:30:00+02:00".toList = none ∧ parseModified "2020-05-17T12:30:00+02".toList = some ⟨2020, 5, 17, 12, 30, 0, 2⟩ ∧
    parseModified "17.05.2020".toList = none ∧ parseModified "2020--5-17".toList = none := by
  decide

end Verif.Persist.ModifiedTime
