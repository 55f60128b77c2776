import Verif.Py.Basic
import Mathlib.Data.List.Basic
import Mathlib.Logic.Function.Basic

/-!
A `ValueStream` that several threads assign, with `MapStream`s on it (`nion/utils/Stream.py:42-89`), C160.

A step is one of: the comparison of the setter (line 56), the assignment (line 57), the reading of the value that is sent (line 58, before
`fire` is called), the call of the listener of one map stream (lines 76-80). The list of listeners does not change. The functions do not
raise (C153 is about those that do).
-/

namespace Verif.Stream.ValueThreads

variable {V W : Type} [DecidableEq V] [DecidableEq W]

/-! ### The model -/

/-- Where a thread is. -/
inductive Loc (V : Type) where
  | idle
  /-- the comparison found another value -/
  | toSet (u : V)
  | toRead
  /-- `r` is sent, the next listener is number `k` -/
  | sending (r : V) (k : ℕ)

structure St (V W : Type) where
  value : V
  /-- the values of the map streams -/
  mapped : List W
  /-- what the listener of each map stream has been called with -/
  received : List (List V)
  loc : ℕ → Loc V

inductive Act (V : Type) where
  /-- an idle thread begins `stream.value = u` -/
  | call (t : ℕ) (u : V)
  /-- a thread goes on -/
  | step (t : ℕ)

/-- Lines 65-82: the map streams have been made. -/
def start (fs : List (V → W)) (v : V) : St V W := ⟨v, fs.map fun f => f v, fs.map fun _ => [], fun _ => .idle⟩

/-- The setter, lines 54-58, and `update_value`, lines 76-80. -/
def step (fs : List (V → W)) (s : St V W) : Act V → St V W
  | .call t u =>
    match s.loc t with
    | .idle => if s.value ≠ u then { s with loc := Function.update s.loc t (.toSet u) } else s
    | _ => s
  | .step t =>
    match s.loc t with
    | .idle => s
    | .toSet u => { s with value := u, loc := Function.update s.loc t .toRead }
    | .toRead => { s with loc := Function.update s.loc t (.sending s.value 0) }
    | .sending r k =>
      match fs[k]? with
      | none => { s with loc := Function.update s.loc t .idle }
      | some f =>
        let mapped := if s.mapped[k]? ≠ some (f r) then s.mapped.set k (f r) else s.mapped
        { s with mapped := mapped, received := s.received.modify k (· ++ [r]), loc := Function.update s.loc t (.sending r (k + 1)) }

def run (fs : List (V → W)) (s : St V W) (as : List (Act V)) : St V W := as.foldl (step fs) s

/-! ### Specification -/

/-- No assignment is under way. -/
def Quiet (s : St V W) : Prop := ∀ t, s.loc t = .idle

/-- Every map stream has the function of the value. -/
def Mirrors (fs : List (V → W)) (s : St V W) : Prop := s.mapped = fs.map fun f => f s.value

/-- No thread reads the value that it sends while another is sending. -/
def OneSends (fs : List (V → W)) (s : St V W) : List (Act V) → Prop
  | [] => True
  | a :: as => (∀ t, a = .step t → s.loc t = .toRead → ∀ t' r k, s.loc t' ≠ .sending r k) ∧ OneSends fs (step fs s a) as

/-- The last value a listener was called with. -/
def lastOf (v : V) (l : List V) : V := l.getLast?.getD v

/-! ### Proofs -/

section
variable (fs : List (V → W))

omit [DecidableEq V] in
theorem upd_same (g : ℕ → Loc V) (t : ℕ) (x : Loc V) : Function.update g t x t = x := Function.update_self ..

theorem set_if (l : List W) (k : ℕ) (w : W) (hk : k < l.length) : (if l[k]? ≠ some w then l.set k w else l) = l.set k w := by
  split_ifs with h
  · rfl
  · rw [not_not] at h
    apply List.ext_getElem?
    intro i
    rw [List.getElem?_set]
    split_ifs with h1
    · subst h1; exact h
    · rfl

/-- The invariant of all schedules: lengths; each map stream has the function of the value received last; who sends has come so far. -/
structure Inv (v : V) (s : St V W) : Prop where
  len : s.mapped.length = fs.length
  rlen : s.received.length = fs.length
  last : ∀ (k : ℕ) (f : V → W) (l : List V), fs[k]? = some f → s.received[k]? = some l → s.mapped[k]? = some (f (lastOf v l))

theorem inv_step (v : V) (s : St V W) (a : Act V) (h : Inv fs v s) : Inv fs v (step fs s a) := by
  rcases a with ⟨t, u⟩ | t
  · simp only [step]
    split
    · split_ifs
      · exact ⟨h.len, h.rlen, h.last⟩
      · exact h
    · exact h
  · simp only [step]
    split
    · exact h
    · exact ⟨h.len, h.rlen, h.last⟩
    · exact ⟨h.len, h.rlen, h.last⟩
    · rename_i r k _
      rcases hf : fs[k]? with _ | f
      · exact ⟨h.len, h.rlen, h.last⟩
      · have hk : k < fs.length := (List.getElem?_eq_some_iff.1 hf).1
        simp only [set_if _ _ _ (show k < s.mapped.length by rw [h.len]; exact hk)]
        refine ⟨by simp [h.len], by simp [h.rlen], fun i g l hg hl => ?_⟩
        simp only [List.getElem?_modify] at hl
        simp only [List.getElem?_set]
        by_cases hi : k = i
        · subst hi
          rw [hf, Option.some.injEq] at hg
          subst hg
          rcases ho : s.received[k]? with _ | l0
          · rw [ho] at hl; simp at hl
          · rw [ho] at hl
            simp only [if_true, Option.map_eq_map, Option.map_some, Option.some.injEq] at hl
            subst hl
            rw [if_pos rfl, if_pos (by rw [h.len]; exact hk), lastOf]
            simp
        · rw [if_neg hi]
          simp only [hi, if_false, Option.map_eq_map] at hl
          exact h.last i g l hg (by simpa using hl)

theorem inv_run (v : V) (as : List (Act V)) : Inv fs v (run fs (start fs v) as) := by
  have key : ∀ (as : List (Act V)) (s : St V W), Inv fs v s → Inv fs v (run fs s as) := by
    intro as
    induction as with
    | nil => exact fun s h => h
    | cons a as ih => exact fun s h => ih _ (inv_step fs v s a h)
  refine key as _ ⟨by simp [start], by simp [start], fun k f l hf hl => ?_⟩
  simp only [start, List.getElem?_map, hf, Option.map_some, Option.some.injEq] at hl ⊢
  subst hl
  rfl

/-- C160: whatever the schedule, a map stream has the function of the value its listener was called with last. -/
theorem C160_last (v : V) (as : List (Act V)) (k : ℕ) (f : V → W) (l : List V) (hf : fs[k]? = some f)
    (hl : (run fs (start fs v) as).received[k]? = some l) : (run fs (start fs v) as).mapped[k]? = some (f (lastOf v l)) :=
  (inv_run fs v as).last k f l hf hl

/-- C160, exactly: the map streams are right if and only if each was called last with a value that gives the same as that of the stream. -/
theorem C160_iff_partial (v : V) (as : List (Act V)) : Mirrors fs (run fs (start fs v) as) ↔
    ∀ (k : ℕ) (f : V → W) (l : List V), fs[k]? = some f → (run fs (start fs v) as).received[k]? = some l → f (lastOf v l) = f (run fs (start fs v) as).value := by
  have h := inv_run fs v as
  generalize run fs (start fs v) as = s at *
  constructor
  · intro hm k f l hf hl
    have h1 := h.last k f l hf hl
    rw [Mirrors] at hm
    rw [hm, List.getElem?_map, hf, Option.map_some, Option.some.injEq] at h1
    exact h1.symm
  · intro hm
    rw [Mirrors]
    apply List.ext_getElem?
    intro k
    rw [List.getElem?_map]
    rcases hf : fs[k]? with _ | f
    · rw [List.getElem?_eq_none_iff] at hf
      rw [Option.map_none, List.getElem?_eq_none_iff, h.len]
      exact hf
    · have hk : k < s.received.length := by rw [h.rlen]; exact (List.getElem?_eq_some_iff.1 hf).1
      rw [h.last k f _ hf (List.getElem?_eq_getElem hk), hm k f _ hf (List.getElem?_eq_getElem hk), Option.map_some]

/-- What remains to be done of the last assignment. -/
def Due (v : V) (s : St V W) : Prop :=
  (∃ t, s.loc t = .toRead) ∨
    ∀ (k : ℕ) (l : List V), s.received[k]? = some l → s.value = v ∨ s.value ∈ l ∨ ∃ t j, s.loc t = .sending s.value j ∧ j ≤ k

theorem due_step (v : V) (s : St V W) (a : Act V) (hr : s.received.length = fs.length) (h : Due v s) : Due v (step fs s a) := by
  rcases a with ⟨t, u⟩ | t
  · simp only [step]
    rcases hl : s.loc t with _ | u' | _ | ⟨r, k⟩ <;> simp only
    · split_ifs
      · have hne : ∀ t', s.loc t' ≠ .idle → Function.update s.loc t (.toSet u) t' = s.loc t' := by
          intro t' ht
          rw [Function.update_of_ne]
          rintro rfl
          exact ht hl
        rcases h with ⟨t', ht⟩ | h
        · exact .inl ⟨t', by simp only; rw [hne _ (by rw [ht]; exact nofun), ht]⟩
        · refine .inr fun k l hk => ?_
          rcases h k l hk with h | h | ⟨t', j, h1, h2⟩
          · exact .inl h
          · exact .inr (.inl h)
          · exact .inr (.inr ⟨t', j, by simp only; rw [hne _ (by rw [h1]; exact nofun), h1], h2⟩)
      · exact h
    all_goals exact h
  · simp only [step]
    rcases hl : s.loc t with _ | u' | _ | ⟨r, k⟩ <;> simp only
    · exact h
    · exact .inl ⟨t, upd_same _ _ _⟩
    · refine .inr fun k l hk => .inr (.inr ⟨t, 0, upd_same _ _ _, Nat.zero_le _⟩)
    · have hne : ∀ t', t' ≠ t → ∀ x, Function.update s.loc t x t' = s.loc t' := fun t' ht x => Function.update_of_ne ht ..
      rcases hf : fs[k]? with _ | f
      · simp only
        rcases h with ⟨t', ht⟩ | h
        · refine .inl ⟨t', ?_⟩
          simp only
          rw [hne t' (by rintro rfl; rw [hl] at ht; cases ht), ht]
        · refine .inr fun i l hi => ?_
          rcases h i l hi with h | h | ⟨t', j, h1, h2⟩
          · exact .inl h
          · exact .inr (.inl h)
          · refine .inr (.inr ⟨t', j, ?_, h2⟩)
            simp only
            rw [hne t' ?_, h1]
            rintro rfl
            rw [hl] at h1
            cases h1
            have := List.getElem?_eq_none_iff.1 hf
            have h3 : i < s.received.length := (List.getElem?_eq_some_iff.1 hi).1
            omega
      · simp only
        rcases h with ⟨t', ht⟩ | h
        · refine .inl ⟨t', ?_⟩
          simp only
          rw [hne t' (by rintro rfl; rw [hl] at ht; cases ht), ht]
        · refine .inr fun i l hi => ?_
          simp only [List.getElem?_modify] at hi
          rcases ho : s.received[i]? with _ | l0
          · rw [ho] at hi; simp at hi
          rw [ho] at hi
          simp only [Option.map_eq_map, Option.map_some, Option.some.injEq] at hi
          have hsub : ∀ x ∈ l0, x ∈ l := by
            intro x hx
            rw [← hi]
            split_ifs
            · exact List.mem_append_left _ hx
            · exact hx
          rcases h i l0 ho with h | h | ⟨t', j, h1, h2⟩
          · exact .inl h
          · exact .inr (.inl (hsub _ h))
          · by_cases ht : t' = t
            · subst ht
              rw [hl] at h1
              cases h1
              rcases Nat.eq_or_lt_of_le h2 with rfl | h2
              · refine .inr (.inl ?_)
                simp only
                rw [← hi, if_pos rfl]
                simp
              · exact .inr (.inr ⟨t', _, upd_same _ _ _, h2⟩)
            · exact .inr (.inr ⟨t', j, by simp only; rw [hne t' ht, h1], h2⟩)

/-- C160: no value is lost: when no assignment is under way, every map stream has been called with the value of the stream, unless it has the
value it had at first. -/
theorem C160_delivered (v : V) (as : List (Act V)) (hq : Quiet (run fs (start fs v) as)) (hv : (run fs (start fs v) as).value ≠ v)
    (l : List V) (hl : l ∈ (run fs (start fs v) as).received) : (run fs (start fs v) as).value ∈ l := by
  have key : ∀ (as : List (Act V)) (s : St V W), Inv fs v s → Due v s → Due v (run fs s as) := by
    intro as
    induction as with
    | nil => exact fun s _ h => h
    | cons a as ih => exact fun s hi h => ih _ (inv_step fs v s a hi) (due_step fs v s a hi.rlen h)
  have h := key as (start fs v) (inv_run fs v []) (.inr fun k l hk => .inl rfl)
  obtain ⟨k, hk⟩ := List.mem_iff_getElem?.1 hl
  rcases h with ⟨t, ht⟩ | h
  · rw [hq t] at ht; cases ht
  · rcases h k l hk with h | h | ⟨t, j, h, -⟩
    · exact absurd h hv
    · exact h
    · rw [hq t] at h; cases h

/-- With one sender at a time. -/
def Single (s : St V W) : Prop :=
  (∀ t t' r r' k k', s.loc t = .sending r k → s.loc t' = .sending r' k' → t = t') ∧
  ((∃ t, s.loc t = .toRead) ∨
    ((∀ t r k, s.loc t = .sending r k → r = s.value ∧ ∀ (j : ℕ) (f : V → W), j < k → fs[j]? = some f → s.mapped[j]? = some (f s.value)) ∧
      ((∀ t r k, s.loc t ≠ .sending r k) → ∀ (j : ℕ) (f : V → W), fs[j]? = some f → s.mapped[j]? = some (f s.value))))

theorem single_step (v : V) (s : St V W) (a : Act V) (hi : Inv fs v s) (h : Single fs s)
    (ha : ∀ t, a = .step t → s.loc t = .toRead → ∀ t' r k, s.loc t' ≠ .sending r k) : Single fs (step fs s a) := by
  have upd : ∀ (t : ℕ) (x : Loc V) (t' : ℕ) (y : Loc V), Function.update s.loc t x t' = y → (t' = t ∧ y = x) ∨ (t' ≠ t ∧ s.loc t' = y) := by
    intro t x t' y hy
    by_cases ht : t' = t
    · subst ht
      rw [upd_same] at hy
      exact .inl ⟨rfl, hy.symm⟩
    · rw [Function.update_of_ne ht] at hy
      exact .inr ⟨ht, hy⟩
  have ne : ∀ (t : ℕ) (x : Loc V) (t' : ℕ), t' ≠ t → Function.update s.loc t x t' = s.loc t' := fun t x t' ht => Function.update_of_ne ht ..
  obtain ⟨h1, h2⟩ := h
  rcases a with ⟨t, u⟩ | t
  · simp only [step]
    rcases hl : s.loc t with _ | u' | _ | ⟨r, k⟩ <;> simp only
    · split_ifs
      · have hs : ∀ t' r k, Function.update s.loc t (.toSet u) t' = .sending r k ↔ s.loc t' = .sending r k := by
          intro t' r k
          by_cases ht : t' = t
          · subst ht
            rw [upd_same, hl]
            exact ⟨nofun, nofun⟩
          · rw [ne _ _ _ ht]
        refine ⟨fun t1 t2 r r' k k' e1 e2 => h1 t1 t2 r r' k k' ((hs ..).1 e1) ((hs ..).1 e2), ?_⟩
        rcases h2 with ⟨t', ht⟩ | ⟨h2, h3⟩
        · exact .inl ⟨t', by simp only; rw [ne _ _ _ (by rintro rfl; rw [hl] at ht; cases ht), ht]⟩
        · exact .inr ⟨fun t' r k e => h2 t' r k ((hs ..).1 e), fun e => h3 fun t' r k e' => e t' r k ((hs ..).2 e')⟩
      · exact ⟨h1, h2⟩
    all_goals exact ⟨h1, h2⟩
  · simp only [step]
    rcases hl : s.loc t with _ | u' | _ | ⟨r, k⟩ <;> simp only
    · exact ⟨h1, h2⟩
    · refine ⟨fun t1 t2 r r' k k' e1 e2 => ?_, .inl ⟨t, upd_same _ _ _⟩⟩
      rcases upd _ _ _ _ e1 with ⟨-, e⟩ | ⟨-, e1⟩
      · cases e
      rcases upd _ _ _ _ e2 with ⟨-, e⟩ | ⟨-, e2⟩
      · cases e
      exact h1 t1 t2 r r' k k' e1 e2
    · have hn := ha t rfl hl
      refine ⟨fun t1 t2 r r' k k' e1 e2 => ?_, .inr ⟨fun t1 r k e => ?_, fun e => absurd (upd_same _ _ _) (e t s.value 0)⟩⟩
      · rcases upd _ _ _ _ e1 with ⟨rfl, -⟩ | ⟨-, e1⟩
        · rcases upd _ _ _ _ e2 with ⟨rfl, -⟩ | ⟨-, e2⟩
          · rfl
          · exact absurd e2 (hn _ _ _)
        · exact absurd e1 (hn _ _ _)
      · rcases upd _ _ _ _ e with ⟨rfl, e'⟩ | ⟨-, e'⟩
        · cases e'
          exact ⟨rfl, fun j f hj => absurd hj (Nat.not_lt_zero _)⟩
        · exact absurd e' (hn _ _ _)
    · have htr : (∃ t', s.loc t' = .toRead) → ∀ x, ∃ t', Function.update s.loc t x t' = .toRead := by
        rintro ⟨t', ht⟩ x
        exact ⟨t', by rw [ne _ _ _ (by rintro rfl; rw [hl] at ht; cases ht), ht]⟩
      rcases hf : fs[k]? with _ | f
      · simp only
        refine ⟨fun t1 t2 r r' k k' e1 e2 => ?_, ?_⟩
        · rcases upd _ _ _ _ e1 with ⟨-, e⟩ | ⟨-, e1⟩
          · cases e
          rcases upd _ _ _ _ e2 with ⟨-, e⟩ | ⟨-, e2⟩
          · cases e
          exact h1 t1 t2 r r' k k' e1 e2
        · rcases h2 with h2 | ⟨h2, h3⟩
          · exact .inl (htr h2 _)
          · refine .inr ⟨fun t1 r1 k1 e => ?_, fun _ j g hg => (h2 t r k hl).2 j g ?_ hg⟩
            · rcases upd _ _ _ _ e with ⟨-, e⟩ | ⟨-, e⟩
              · cases e
              · exact h2 t1 r1 k1 e
            · have := List.getElem?_eq_none_iff.1 hf
              have := (List.getElem?_eq_some_iff.1 hg).1
              omega
      · have hk : k < s.mapped.length := by rw [hi.len]; exact (List.getElem?_eq_some_iff.1 hf).1
        simp only [set_if _ _ _ hk]
        refine ⟨fun t1 t2 r r' k k' e1 e2 => ?_, ?_⟩
        · rcases upd _ _ _ _ e1 with ⟨rfl, -⟩ | ⟨-, e3⟩
          · rcases upd _ _ _ _ e2 with ⟨rfl, -⟩ | ⟨-, e4⟩
            · rfl
            · exact h1 t1 t2 _ _ _ _ hl e4
          · rcases upd _ _ _ _ e2 with ⟨rfl, -⟩ | ⟨-, e4⟩
            · exact h1 t1 t2 _ _ _ _ e3 hl
            · exact h1 t1 t2 _ _ _ _ e3 e4
        · rcases h2 with h2 | ⟨h2, h3⟩
          · exact .inl (htr h2 _)
          · refine .inr ⟨fun t1 r1 k1 e => ?_, fun e => absurd (upd_same _ _ _) (e t r (k + 1))⟩
            rcases upd _ _ _ _ e with ⟨rfl, e'⟩ | ⟨hne, e'⟩
            · cases e'
              obtain ⟨rfl, h4⟩ := h2 t1 r k hl
              refine ⟨rfl, fun j g hj hg => ?_⟩
              simp only [List.getElem?_set]
              by_cases hjk : k = j
              · subst hjk
                rw [hf] at hg
                cases hg
                rw [if_pos rfl, if_pos hk]
              · rw [if_neg hjk]
                exact h4 j g (by omega) hg
            · exact absurd (h1 t1 t _ _ _ _ e' hl) hne

/-- C160 (partial: no thread reads the value that it sends while another is sending): whenever no assignment is under way, every map stream has
the function of the value. -/
theorem C160_one_sends_partial (v : V) (as : List (Act V)) (ho : OneSends fs (start fs v) as) (hq : Quiet (run fs (start fs v) as)) :
    Mirrors fs (run fs (start fs v) as) := by
  have key : ∀ (as : List (Act V)) (s : St V W), Inv fs v s → Single fs s → OneSends fs s as → Single fs (run fs s as) := by
    intro as
    induction as with
    | nil => exact fun s _ h _ => h
    | cons a as ih => exact fun s hi h ho => ih _ (inv_step fs v s a hi) (single_step fs v s a hi h ho.1) ho.2
  have h0 : Single fs (start fs v) := by
    refine ⟨fun t t' r r' k k' e => (by cases e), .inr ⟨fun t r k e => (by cases e), fun _ j f hf => ?_⟩⟩
    simp [start, hf]
  have h := key as (start fs v) (inv_run fs v []) h0 ho
  have hi := inv_run fs v as
  generalize run fs (start fs v) as = s at *
  rcases h.2 with ⟨t, ht⟩ | ⟨-, h⟩
  · rw [hq t] at ht; cases ht
  · have h := h fun t r k e => by rw [hq t] at e; cases e
    rw [Mirrors]
    apply List.ext_getElem?
    intro k
    rw [List.getElem?_map]
    rcases hf : fs[k]? with _ | f
    · rw [List.getElem?_eq_none_iff] at hf
      rw [Option.map_none, List.getElem?_eq_none_iff, hi.len]
      exact hf
    · rw [h k f hf, Option.map_some]

/-- C160: what is received was assigned. -/
theorem C160_assigned (v : V) (as : List (Act V)) (l : List V) (hl : l ∈ (run fs (start fs v) as).received) (x : V) (hx : x ∈ l) :
    x = v ∨ ∃ t, Act.call t x ∈ as := by
  have key : ∀ (as : List (Act V)) (s : St V W) (P : V → Prop), (∀ t u, Act.call t u ∈ as → P u) → P s.value →
      (∀ t u, s.loc t = .toSet u → P u) → (∀ t r k, s.loc t = .sending r k → P r) → (∀ l ∈ s.received, ∀ x ∈ l, P x) →
      ∀ l ∈ (run fs s as).received, ∀ x ∈ l, P x := by
    intro as
    induction as with
    | nil => exact fun s P _ _ _ _ h => h
    | cons a as ih =>
      intro s P hc hv h1 h2 h3
      have upd : ∀ (t : ℕ) (x : Loc V) (t' : ℕ) (y : Loc V), Function.update s.loc t x t' = y → y = x ∨ s.loc t' = y := by
        intro t x t' y hy
        by_cases ht : t' = t
        · subst ht
          rw [upd_same] at hy
          exact .inl hy.symm
        · rw [Function.update_of_ne ht] at hy
          exact .inr hy
      rw [run, List.foldl_cons]
      have hc' : ∀ t u, Act.call t u ∈ as → P u := fun t u h => hc t u (by simp [h])
      rcases a with ⟨t, u⟩ | t
      · simp only [step]
        rcases hl : s.loc t with _ | u' | _ | ⟨r, k⟩ <;> simp only
        · split_ifs
          · refine ih _ P hc' hv (fun t' w e => ?_) (fun t' r k e => ?_) h3
            · rcases upd _ _ _ _ e with e | e
              · cases e
                exact hc t _ (by simp)
              · exact h1 t' w e
            · rcases upd _ _ _ _ e with e | e
              · cases e
              · exact h2 t' r k e
          · exact ih _ P hc' hv h1 h2 h3
        all_goals exact ih _ P hc' hv h1 h2 h3
      · simp only [step]
        rcases hl : s.loc t with _ | u' | _ | ⟨r, k⟩ <;> simp only
        · exact ih _ P hc' hv h1 h2 h3
        · refine ih _ P hc' (h1 t u' hl) (fun t' w e => ?_) (fun t' r k e => ?_) h3
          · rcases upd _ _ _ _ e with e | e
            · cases e
            · exact h1 t' w e
          · rcases upd _ _ _ _ e with e | e
            · cases e
            · exact h2 t' r k e
        · refine ih _ P hc' hv (fun t' w e => ?_) (fun t' r k e => ?_) h3
          · rcases upd _ _ _ _ e with e | e
            · cases e
            · exact h1 t' w e
          · rcases upd _ _ _ _ e with e | e
            · cases e
              exact hv
            · exact h2 t' r k e
        · have hr := h2 t r k hl
          rcases hf : fs[k]? with _ | f <;> simp only
          · refine ih _ P hc' hv (fun t' w e => ?_) (fun t' r k e => ?_) h3
            · rcases upd _ _ _ _ e with e | e
              · cases e
              · exact h1 t' w e
            · rcases upd _ _ _ _ e with e | e
              · cases e
              · exact h2 t' r k e
          · refine ih _ P hc' hv (fun t' w e => ?_) (fun t' r k e => ?_) (fun l hl' x hx => ?_)
            · rcases upd _ _ _ _ e with e | e
              · cases e
              · exact h1 t' w e
            · rcases upd _ _ _ _ e with e | e
              · cases e
                exact hr
              · exact h2 t' r k e
            · obtain ⟨i, hi⟩ := List.mem_iff_getElem?.1 hl'
              simp only [List.getElem?_modify] at hi
              rcases ho : s.received[i]? with _ | l0
              · rw [ho] at hi; simp at hi
              rw [ho] at hi
              simp only [Option.map_eq_map, Option.map_some, Option.some.injEq] at hi
              subst hi
              split_ifs at hx
              · rcases List.mem_append.1 hx with hx | hx
                · exact h3 _ (List.mem_of_getElem? ho) x hx
                · rw [List.mem_singleton.1 hx]
                  exact hr
              · exact h3 _ (List.mem_of_getElem? ho) x hx
  exact key as (start fs v) (fun x => x = v ∨ ∃ t, Act.call t x ∈ as) (fun t u h => .inr ⟨t, h⟩) (.inl rfl) (fun t u e => by cases e)
    (fun t r k e => by cases e) (fun l hl x hx => by
      simp only [start, List.mem_map] at hl
      obtain ⟨_, _, rfl⟩ := hl
      cases hx) l hl x hx

end

/-- C160, negative: two threads assign 1 and 2; the stream has 2 in the end, the map stream has the double of 1. -/
theorem C160_counterexample : ∃ s : St ℕ ℕ, s = run [(· * 2)] (start [(· * 2)] 0)
      [.call 0 1, .step 0, .step 0, .call 1 2, .step 1, .step 1, .step 1, .step 1, .step 0, .step 0] ∧
    s.value = 2 ∧ s.mapped = [2] ∧ s.received = [[2, 1]] ∧ Quiet s := by
  refine ⟨_, rfl, by decide +kernel, by decide +kernel, by decide +kernel, fun t => ?_⟩
  rcases t with _ | _ | t <;> rfl

/-- Two assignments that overlap in other ways: both are compared before one is made. -/
example : ∃ s : St ℕ ℕ, s = run [(· * 2)] (start [(· * 2)] 0)
      [.call 0 1, .call 1 2, .step 1, .step 0, .step 0, .step 0, .step 0, .step 1, .step 1, .step 1] ∧
    s.value = 1 ∧ s.mapped = [2] ∧ s.received = [[1, 1]] := by
  exact ⟨_, rfl, by decide +kernel, by decide +kernel, by decide +kernel⟩

end Verif.Stream.ValueThreads
