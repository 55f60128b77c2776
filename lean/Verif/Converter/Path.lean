import Mathlib.Data.List.Basic
import Mathlib.Tactic.Common

/-!
C150: paths as strings. Model of `PathToStringConverter` (`nion/utils/Converter.py:148-152`) on POSIX. `pathlib.PurePosixPath` is
modelled as in the standard library: `_parse_path` (`posixpath.splitroot`, then the parts between slashes without empty ones and `.`)
and `__str__` (`_format_parsed_parts`, `.` for an empty path). Paths are true as conditions.
-/

namespace Verif.Converter

/-- The root and the parts of a `pathlib.PurePosixPath`. -/
structure Path where
  root : List Char
  parts : List (List Char)
  deriving DecidableEq

/-- `s.split('/')`. -/
def splitSlash : List Char → List (List Char)
  | [] => [[]]
  | c :: s =>
    if c = '/' then [] :: splitSlash s
    else match splitSlash s with
      | [] => [[c]]
      | w :: ws => (c :: w) :: ws

/-- `'/'.join(ws)`. -/
def joinSlash : List (List Char) → List Char
  | [] => []
  | [w] => w
  | w :: v :: ws => w ++ '/' :: joinSlash (v :: ws)

/-- `posixpath.splitroot`, without the drive. -/
def splitRoot (s : List Char) : List Char × List Char :=
  if s.take 1 ≠ ['/'] then ([], s)
  else if (s.drop 1).take 1 ≠ ['/'] ∨ (s.drop 2).take 1 = ['/'] then (['/'], s.drop 1)
  else (['/', '/'], s.drop 2)

/-- `pathlib.Path(s)`. -/
def parsePath (s : List Char) : Path :=
  ⟨(splitRoot s).1, (splitSlash (splitRoot s).2).filter fun w => w ≠ [] ∧ w ≠ ['.']⟩

/-- `str(path)`. -/
def Path.str (p : Path) : List Char :=
  let s := p.root ++ joinSlash p.parts
  if s = [] then ['.'] else s

/-- Lines 149-150. -/
def pathConvert (p : Option Path) : Option (List Char) := p.map Path.str

/-- Lines 151-152. -/
def pathConvertBack : Option (List Char) → Option Path
  | none => none
  | some [] => none
  | some (c :: s) => some (parsePath (c :: s))

/-! ### Specification -/

/-- A name in a path: not empty, not `.`, no slash. -/
def Name (w : List Char) : Prop := w ≠ [] ∧ w ≠ ['.'] ∧ '/' ∉ w

/-- The paths there are. -/
def Path.Exists (p : Path) : Prop := (p.root = [] ∨ p.root = ['/'] ∨ p.root = ['/', '/']) ∧ ∀ w ∈ p.parts, Name w

/-- Reading a path character by character, as the system does: the names gone through, and the name being read. -/
def walk : List (List Char) × List Char → List Char → List (List Char) × List Char
  | st, [] => st
  | (done, w), c :: s => if c = '/' then walk (if w = [] ∨ w = ['.'] then (done, []) else (done ++ [w], [])) s else walk (done, w ++ [c]) s

/-- The names gone through. -/
def visited (s : List Char) : List (List Char) := (walk ([], []) (s ++ ['/'])).1

/-- The number of slashes in front; one and more than two mean the root, two may mean something else (POSIX). -/
def slashes (s : List Char) : ℕ := (s.takeWhile (· = '/')).length

/-! ### Proofs -/

theorem splitSlash_ne (s : List Char) : splitSlash s ≠ [] := by
  cases s with
  | nil => simp [splitSlash]
  | cons c s =>
    unfold splitSlash
    split_ifs
    · simp
    · split <;> simp

theorem splitSlash_cons (w s : List Char) (h : '/' ∉ w) : splitSlash (w ++ '/' :: s) = w :: splitSlash s := by
  induction w with
  | nil => simp [splitSlash]
  | cons c w ih =>
    rw [List.cons_append, splitSlash, if_neg (by rintro rfl; exact h (by simp)), ih (fun hm => h (by simp [hm]))]

theorem splitSlash_one (w : List Char) (h : '/' ∉ w) : splitSlash w = [w] := by
  induction w with
  | nil => simp [splitSlash]
  | cons c w ih =>
    rw [splitSlash, if_neg (by rintro rfl; exact h (by simp)), ih (fun hm => h (by simp [hm]))]

theorem splitSlash_join (ws : List (List Char)) (hne : ws ≠ []) (h : ∀ w ∈ ws, '/' ∉ w) : splitSlash (joinSlash ws) = ws := by
  induction ws with
  | nil => exact absurd rfl hne
  | cons w ws ih =>
    cases ws with
    | nil => exact splitSlash_one w (h w (by simp))
    | cons v ws =>
      rw [joinSlash, splitSlash_cons w _ (h w (by simp)), ih (by simp) (fun x hx => h x (by simp [hx]))]

theorem splitSlash_mem (s : List Char) : ∀ w ∈ splitSlash s, '/' ∉ w := by
  induction s with
  | nil => simp [splitSlash]
  | cons c s ih =>
    intro w hw
    rw [splitSlash] at hw
    split_ifs at hw with hc
    · rcases List.mem_cons.1 hw with rfl | hw
      · simp
      · exact ih w hw
    · rcases hs : splitSlash s with _ | ⟨v, vs⟩
      · exact absurd hs (splitSlash_ne s)
      · rw [hs] at hw
        rcases List.mem_cons.1 hw with rfl | hw
        · have := ih v (by rw [hs]; simp)
          simp only [List.mem_cons, not_or]
          exact ⟨fun h => hc h.symm, this⟩
        · exact ih w (by rw [hs]; simp [hw])

theorem splitRoot_cases (s : List Char) : ((splitRoot s).1 = [] ∨ (splitRoot s).1 = ['/'] ∨ (splitRoot s).1 = ['/', '/']) ∧
    s = (splitRoot s).1 ++ (splitRoot s).2 := by
  unfold splitRoot
  split_ifs with h1 h2
  · simp
  · rcases s with _ | ⟨c, s⟩
    · simp at h1
    · simp at h1; subst h1; simp
  · rcases s with _ | ⟨c, _ | ⟨d, s⟩⟩
    · simp at h1
    · simp at h2
    · simp at h1 h2; obtain ⟨rfl, -⟩ := h2; subst h1; simp

theorem join_head {ws : List (List Char)} (h : ∀ w ∈ ws, Name w) : (joinSlash ws).take 1 ≠ ['/'] := by
  rcases ws with _ | ⟨w, ws⟩
  · simp [joinSlash]
  · have hw := h w (by simp)
    rcases w with _ | ⟨c, w⟩
    · exact absurd rfl hw.1
    · have hc : c ≠ '/' := by rintro rfl; exact hw.2.2 (by simp)
      rcases ws with _ | ⟨v, ws⟩ <;> simp [joinSlash, hc]

theorem join_nil {ws : List (List Char)} (h : ∀ w ∈ ws, Name w) (hj : joinSlash ws = []) : ws = [] := by
  rcases ws with _ | ⟨w, _ | ⟨v, ws⟩⟩
  · rfl
  · exact absurd hj (h w (by simp)).1
  · simp [joinSlash] at hj

theorem parts_join {ws : List (List Char)} (h : ∀ w ∈ ws, Name w) :
    ((splitSlash (joinSlash ws)).filter fun w => w ≠ [] ∧ w ≠ ['.']) = ws := by
  rcases ws with _ | ⟨w, ws⟩
  · simp [joinSlash, splitSlash]
  · rw [splitSlash_join _ (by simp) (fun x hx => (h x hx).2.2), List.filter_eq_self]
    intro x hx
    simp only [decide_eq_true_eq]
    exact ⟨(h x hx).1, (h x hx).2.1⟩

theorem parse_text {root : List Char} {ws : List (List Char)} (hr : root = [] ∨ root = ['/'] ∨ root = ['/', '/'])
    (h : ∀ w ∈ ws, Name w) : parsePath (root ++ joinSlash ws) = ⟨root, ws⟩ := by
  have hj := join_head h
  have hs : splitRoot (root ++ joinSlash ws) = (root, joinSlash ws) := by
    rcases hr with rfl | rfl | rfl
    · rw [splitRoot, List.nil_append, if_pos hj]
    · rw [splitRoot, if_neg (by simp), if_pos (.inl (by simpa using hj))]
      simp
    · rw [splitRoot, if_neg (by simp), if_neg (by simpa using hj)]
      simp
  rw [parsePath, hs]
  simp only [parts_join h]

/-- Every string gives a path that there is. -/
theorem parse_exists (s : List Char) : (parsePath s).Exists := by
  refine ⟨(splitRoot_cases s).1, fun w hw => ?_⟩
  obtain ⟨h1, h2⟩ := List.mem_filter.1 hw
  simp only [decide_eq_true_eq] at h2
  exact ⟨h2.1, h2.2, splitSlash_mem _ w h1⟩

theorem parse_str {p : Path} (h : p.Exists) : parsePath p.str = p := by
  unfold Path.str
  by_cases hs : p.root ++ joinSlash p.parts = []
  · simp only [hs, if_true]
    obtain ⟨h1, h2⟩ := List.append_eq_nil_iff.1 hs
    have := join_nil h.2 h2
    rcases p with ⟨root, parts⟩
    simp only at h1 this
    subst h1 this
    decide
  · simp only [hs, if_false]
    exact parse_text h.1 h.2

theorem str_ne (p : Path) : p.str ≠ [] := by
  unfold Path.str
  by_cases hs : p.root ++ joinSlash p.parts = []
  · simp [hs]
  · simp only [hs, if_false]
    exact hs

/-- C150: every path comes back from its string, and `None` from `None`. -/
theorem C150_round_trip (p : Option Path) (h : ∀ q, p = some q → q.Exists) : pathConvertBack (pathConvert p) = p := by
  rcases p with _ | p
  · rfl
  · have hne := str_ne p
    have hp := parse_str (h p rfl)
    simp only [pathConvert, Option.map_some]
    rcases hs : p.str with _ | ⟨c, s⟩
    · exact absurd hs hne
    · rw [pathConvertBack, ← hs, hp]

/-- C150: different paths are different strings. -/
theorem C150_injective (p r : Path) (hp : p.Exists) (hr : r.Exists) (h : pathConvert (some p) = pathConvert (some r)) : p = r := by
  have h1 := C150_round_trip (some p) (by rintro q ⟨⟩; exact hp)
  have h2 := C150_round_trip (some r) (by rintro q ⟨⟩; exact hr)
  rw [h, h2] at h1
  exact (Option.some.inj h1).symm

theorem walk_split (s : List Char) : ∀ (done : List (List Char)) (w : List Char), (walk (done, w) (s ++ ['/'])).1 =
    done ++ (match splitSlash s with
      | [] => []
      | v :: vs => (w ++ v) :: vs).filter fun w => w ≠ [] ∧ w ≠ ['.'] := by
  induction s with
  | nil =>
    intro done w
    by_cases hw : w = [] ∨ w = ['.']
    · simp [walk, splitSlash, hw]
      exact fun h1 => hw.resolve_left h1
    · simp only [List.nil_append, walk, if_true, if_neg hw, splitSlash, List.append_nil]
      rw [List.filter_cons_of_pos (by simpa [not_or] using hw)]
      simp
  | cons c s ih =>
    intro done w
    by_cases hc : c = '/'
    · subst hc
      by_cases hw : w = [] ∨ w = ['.']
      · simp only [List.cons_append, walk, if_true, if_pos hw, ih, splitSlash, List.append_nil]
        rw [List.filter_cons_of_neg (by simp; intro h; rcases hw with hw | hw <;> [contradiction; exact hw])]
        rcases hs : splitSlash s with _ | ⟨v, vs⟩
        · exact absurd hs (splitSlash_ne s)
        · simp
      · simp only [List.cons_append, walk, if_true, if_neg hw, ih, splitSlash, List.append_nil]
        rw [List.filter_cons_of_pos (by simpa [not_or] using hw)]
        rcases hs : splitSlash s with _ | ⟨v, vs⟩
        · exact absurd hs (splitSlash_ne s)
        · simp
    · simp only [List.cons_append, walk, if_neg hc, ih, splitSlash]
      rcases hs : splitSlash s with _ | ⟨v, vs⟩
      · exact absurd hs (splitSlash_ne s)
      · simp

theorem visited_split (s : List Char) : visited s = (splitSlash s).filter fun w => w ≠ [] ∧ w ≠ ['.'] := by
  rw [visited, walk_split]
  rcases hs : splitSlash s with _ | ⟨v, vs⟩
  · exact absurd hs (splitSlash_ne s)
  · simp

/-- C150: the path of a string goes through the names of the string. -/
theorem C150_names (s : List Char) : (parsePath s).parts = visited s := by
  obtain ⟨h1, h2⟩ := splitRoot_cases s
  rw [visited_split, parsePath]
  simp only
  conv_rhs => rw [h2]
  rcases h1 with h1 | h1 | h1 <;> rw [h1] <;> simp [splitSlash]

/-- C150: which root the path has. -/
theorem C150_root (s : List Char) : (parsePath s).root = List.replicate (if slashes s = 0 then 0 else if slashes s = 2 then 2 else 1) '/' := by
  simp only [parsePath, splitRoot, slashes]
  rcases s with _ | ⟨a, _ | ⟨b, _ | ⟨c, s⟩⟩⟩
  · simp
  · by_cases ha : a = '/' <;> simp [ha]
  · by_cases ha : a = '/' <;> by_cases hb : b = '/' <;> simp [ha, hb]
  · by_cases ha : a = '/' <;> by_cases hb : b = '/' <;> by_cases hc : c = '/' <;> simp [ha, hb, hc]

/-- C150: a string that is converted back and again is another name of the same path, and stays so. -/
theorem C150_stable (s t : List Char) (hs : s ≠ []) (h : pathConvert (pathConvertBack (some s)) = some t) :
    visited t = visited s ∧ parsePath t = parsePath s ∧ pathConvert (pathConvertBack (some t)) = some t := by
  rcases s with _ | ⟨c, s⟩
  · exact absurd rfl hs
  · simp only [pathConvertBack, pathConvert, Option.map_some, Option.some.injEq] at h
    have hp := parse_str (parse_exists (c :: s))
    rw [h] at hp
    have ht : t ≠ [] := by rw [← h]; exact str_ne _
    refine ⟨by rw [← C150_names, ← C150_names, hp], hp, ?_⟩
    rcases t with _ | ⟨d, t⟩
    · exact absurd rfl ht
    · simp only [pathConvertBack, pathConvert, Option.map_some, hp, h]

/-- C150: the strings that come back as they were are `.` and the others written as names with single slashes between them, after
no, one or two slashes. -/
theorem C150_text_iff (s : List Char) : pathConvert (pathConvertBack (some s)) = some s ↔
    s = ['.'] ∨ s ≠ [] ∧ ∃ root ws, (root = [] ∨ root = ['/'] ∨ root = ['/', '/']) ∧ (∀ w ∈ ws, Name w) ∧ s = root ++ joinSlash ws := by
  constructor
  · intro h
    rcases s with _ | ⟨c, s⟩
    · cases h
    · simp only [pathConvertBack, pathConvert, Option.map_some, Option.some.injEq] at h
      have he := parse_exists (c :: s)
      unfold Path.str at h
      by_cases hs : (parsePath (c :: s)).root ++ joinSlash (parsePath (c :: s)).parts = []
      · simp only [hs, if_true] at h
        exact .inl h.symm
      · simp only [hs, if_false] at h
        exact .inr ⟨by simp, _, _, he.1, he.2, h.symm⟩
  · rintro (rfl | ⟨hne, root, ws, hr, hw, rfl⟩)
    · decide
    · have hp := parse_text hr hw
      rcases hs : root ++ joinSlash ws with _ | ⟨c, s⟩
      · exact absurd hs hne
      · rw [hs] at hp
        simp only [pathConvertBack, pathConvert, Option.map_some, hp, Path.str, hs]
        simp

/-- An absolute path. -/
example : pathConvertBack (some "/usr/lib".toList) = some ⟨['/'], ["usr".toList, "lib".toList]⟩ ∧
    pathConvert (some ⟨['/'], ["usr".toList, "lib".toList]⟩) = some "/usr/lib".toList := by decide

/-- Strings that come back otherwise. -/
example : (pathConvert (pathConvertBack (some ".//a/./b/".toList)) = some "a/b".toList) ∧
    (pathConvert (pathConvertBack (some "///a".toList)) = some "/a".toList) ∧ visited ".//a/./b/".toList = ["a".toList, "b".toList] ∧
    (pathConvert (pathConvertBack (some "//a/..".toList)) = some "//a/..".toList) := by decide

/-- The empty path. -/
example : pathConvert (some ⟨[], []⟩) = some ['.'] ∧ pathConvertBack (some ['.']) = some ⟨[], []⟩ ∧ pathConvertBack (some []) = none := by
  decide

end Verif.Converter
