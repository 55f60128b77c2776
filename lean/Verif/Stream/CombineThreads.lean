import Mathlib.Logic.Function.Basic
import Mathlib.Data.List.Basic
import Mathlib.Tactic.Common

/-! Several threads assign the values of streams that one combined stream listens to (`nion/utils/Stream.py:42-59`,
`98-139`), property C118.

The combined stream exists already (lines 101-116 ran before the threads start) and nothing is closed. An atomic step is
one evaluation or assignment of an attribute, or of an element of the list of values; unpacking that list for the call of
the function is one step together with the call (it is a C level copy; the function is pure). Of `Event.fire` only the
calls of the listeners are modelled: the combined stream is the only listener of the inputs, and the calls of the listeners
of the combined stream are one step, kept in `told`. -/

namespace Verif.Stream.CombineThreads

variable {V C : Type}

/-- Where a thread is in the assignment of the value of a stream. -/
inductive Phase (V C : Type) where
  /-- not assigning -/
  | idle
  /-- found the value of stream `i` to be different from `v` (line 57) -/
  | checked (i : ℕ) (v : V)
  /-- kept the value (line 58) -/
  | stored (i : ℕ)
  /-- read the value again (line 59), about to call the handler of the combined stream -/
  | firing (i : ℕ) (w : V)
  /-- the handler has put the value in the list (line 130) -/
  | noted
  /-- the function was called (line 134), its result not yet kept -/
  | computed (c : C)
  /-- the result is kept (line 134) -/
  | kept
  /-- the combined value was read again (line 135), about to call the listeners -/
  | telling (c : C)

/-- `src`: the values of the streams; `vals`: the list of the combined stream; `value`: its value; `told`: what its listeners
were called with. -/
structure State (V C : Type) where
  src : List V
  vals : List V
  value : C
  told : List C
  phase : ℕ → Phase V C

inductive Step (V : Type) where
  /-- thread `t` starts `streams[i].value = v` (does nothing while the thread is busy) -/
  | assign (t i : ℕ) (v : V)
  /-- thread `t` makes its next step -/
  | go (t : ℕ)
  deriving DecidableEq

variable [DecidableEq V]

/-- The next step of a thread. Lines 55-59 and 129-135. -/
def State.go (f : List V → C) (s : State V C) (t : ℕ) : State V C :=
  match s.phase t with
  | .idle => s
  | .checked i v => { s with src := s.src.set i v, phase := Function.update s.phase t (.stored i) }
  | .stored i =>
    match s.src[i]? with
    | some w => { s with phase := Function.update s.phase t (.firing i w) }
    | none => s
  | .firing i w => { s with vals := s.vals.set i w, phase := Function.update s.phase t .noted }
  | .noted => { s with phase := Function.update s.phase t (.computed (f s.vals)) }
  | .computed c => { s with value := c, phase := Function.update s.phase t .kept }
  | .kept => { s with phase := Function.update s.phase t (.telling s.value) }
  | .telling c => { s with told := s.told ++ [c], phase := Function.update s.phase t .idle }

/-- The start of an assignment (line 57) -/
def State.assign (s : State V C) (t i : ℕ) (v : V) : State V C :=
  match s.phase t, s.src[i]? with
  | .idle, some w => if w ≠ v then { s with phase := Function.update s.phase t (.checked i v) } else s
  | _, _ => s

def State.step (f : List V → C) (s : State V C) : Step V → State V C
  | .assign t i v => s.assign t i v
  | .go t => s.go f t

def State.run (f : List V → C) (s : State V C) (l : List (Step V)) : State V C := l.foldl (State.step f) s

/-- The combined stream just made (lines 101-116), no thread assigning. -/
def State.init (f : List V → C) (src : List V) : State V C := ⟨src, src, f src, [f src], fun _ => .idle⟩

/-- No assignment is under way. -/
def State.quiet (s : State V C) : Prop := ∀ t, s.phase t = .idle

/-- The stream that thread `t` is assigning, as far as its handler still has to be told. -/
def Phase.pending : Phase V C → Option ℕ
  | .checked i _ => some i
  | .stored i => some i
  | .firing i _ => some i
  | _ => none

theorem run_append (f : List V → C) (s : State V C) (a b : List (Step V)) : s.run f (a ++ b) = (s.run f a).run f b :=
  List.foldl_append

/-! ### What is always so -/

/-- Everything that the combined stream shows or says, or is going to, is the function of what its list was at some
moment: `past` are the lists so far. -/
def Shown (f : List V → C) (past : List (List V)) (s : State V C) : Prop :=
  s.vals ∈ past ∧ (∃ l ∈ past, s.value = f l) ∧ (∀ c ∈ s.told, ∃ l ∈ past, c = f l) ∧
  ∀ t c, s.phase t = .computed c ∨ s.phase t = .telling c → ∃ l ∈ past, c = f l

/-- The lists of the combined stream in the course of a run. -/
def lists (f : List V → C) (s : State V C) : List (Step V) → List (List V)
  | [] => [s.vals]
  | st :: l => s.vals :: lists f (s.step f st) l

omit [DecidableEq V] in
theorem Shown.mono {f : List V → C} {p q : List (List V)} {s : State V C} (h : Shown f p s) (hs : ∀ l ∈ p, l ∈ q) :
    Shown f q s := by
  obtain ⟨h1, ⟨l, h2, h3⟩, h4, h5⟩ := h
  refine ⟨hs _ h1, ⟨l, hs _ h2, h3⟩, fun c hc => ?_, fun t c hc => ?_⟩
  · obtain ⟨l, hl, e⟩ := h4 c hc; exact ⟨l, hs _ hl, e⟩
  · obtain ⟨l, hl, e⟩ := h5 t c hc; exact ⟨l, hs _ hl, e⟩

theorem Shown.step {f : List V → C} {p : List (List V)} {s : State V C} (h : Shown f p s) (st : Step V) :
    Shown f (p ++ [(s.step f st).vals]) (s.step f st) := by
  obtain ⟨h1, ⟨l0, h2, h3⟩, h4, h5⟩ := h
  have up : ∀ {q : List V → Prop} (x : List V), (∃ l ∈ p, q l) → ∃ l ∈ p ++ [x], q l := fun x ⟨l, hl, e⟩ => ⟨l, by simp [hl], e⟩
  have key : ∀ (t : ℕ) (ph : Phase V C) (x : List V),
      (∀ c, ph = .computed c ∨ ph = .telling c → ∃ l ∈ p ++ [x], c = f l) →
      ∀ t' c, Function.update s.phase t ph t' = .computed c ∨ Function.update s.phase t ph t' = .telling c →
        ∃ l ∈ p ++ [x], c = f l := by
    intro t ph x hp t' c hc
    by_cases e : t' = t
    · subst e; simp only [Function.update_self] at hc; exact hp c hc
    · simp only [Function.update_of_ne e] at hc; exact up x (h5 t' c hc)
  cases st with
  | assign t i v =>
    simp only [State.step, State.assign]
    split
    · split
      · exact ⟨by simp, up _ ⟨l0, h2, h3⟩, fun c hc => up _ (h4 c hc), key t _ _ (by simp)⟩
      · exact ⟨by simp, up _ ⟨l0, h2, h3⟩, fun c hc => up _ (h4 c hc), fun t c hc => up _ (h5 t c hc)⟩
    · exact ⟨by simp, up _ ⟨l0, h2, h3⟩, fun c hc => up _ (h4 c hc), fun t c hc => up _ (h5 t c hc)⟩
  | go t =>
    simp only [State.step, State.go]
    split
    · exact ⟨by simp, up _ ⟨l0, h2, h3⟩, fun c hc => up _ (h4 c hc), fun t c hc => up _ (h5 t c hc)⟩
    · exact ⟨by simp, up _ ⟨l0, h2, h3⟩, fun c hc => up _ (h4 c hc), key t _ _ (by simp)⟩
    · split
      · exact ⟨by simp, up _ ⟨l0, h2, h3⟩, fun c hc => up _ (h4 c hc), key t _ _ (by simp)⟩
      · exact ⟨by simp, up _ ⟨l0, h2, h3⟩, fun c hc => up _ (h4 c hc), fun t c hc => up _ (h5 t c hc)⟩
    · exact ⟨by simp, up _ ⟨l0, h2, h3⟩, fun c hc => up _ (h4 c hc), key t _ _ (by simp)⟩
    · refine ⟨by simp, up _ ⟨l0, h2, h3⟩, fun c hc => up _ (h4 c hc), key t _ _ fun c hc => ?_⟩
      simp only [Phase.computed.injEq, reduceCtorEq, or_false] at hc
      exact ⟨s.vals, by simp, hc.symm⟩
    · rename_i c hc
      exact ⟨by simp, up _ (h5 t c (.inl hc)), fun c hc => up _ (h4 c hc), key t _ _ (by simp)⟩
    · refine ⟨by simp, up _ ⟨l0, h2, h3⟩, fun c hc => up _ (h4 c hc), key t _ _ fun c hc => ?_⟩
      simp only [Phase.telling.injEq, reduceCtorEq, false_or] at hc
      exact up _ ⟨l0, h2, hc ▸ h3⟩
    · rename_i c hc
      refine ⟨by simp, up _ ⟨l0, h2, h3⟩, fun c' hc' => ?_, key t _ _ (by simp)⟩
      simp only [List.mem_append, List.mem_singleton] at hc'
      rcases hc' with h | rfl
      · exact up _ (h4 c' h)
      · exact up _ (h5 t c' (.inr hc))

theorem Shown.run {f : List V → C} (l : List (Step V)) {p : List (List V)} {s : State V C} (h : Shown f p s) :
    Shown f (p ++ lists f s l) (s.run f l) := by
  induction l generalizing p s with
  | nil => exact h.mono (by simp +contextual)
  | cons st l ih =>
    refine (ih (h.step st)).mono ?_
    intro x hx
    simp only [List.mem_append, List.mem_singleton] at hx
    rcases hx with (hx | rfl) | hx
    · simp [hx]
    · cases l <;> simp [lists]
    · simp [lists, hx]

/-- C118: whatever the threads do, each value the combined stream shows, and each it tells its listeners, is the function of
what its list of input values was at some moment of the run. -/
theorem C118_shown (f : List V → C) (src : List V) (l : List (Step V)) :
    (∃ x ∈ lists f (State.init f src) l, ((State.init f src).run f l).value = f x) ∧
    ∀ c ∈ ((State.init f src).run f l).told, ∃ x ∈ lists f (State.init f src) l, c = f x := by
  have h0 : Shown f [src] (State.init f src) :=
    ⟨by simp [State.init], ⟨src, by simp, rfl⟩, by simp [State.init], by simp [State.init]⟩
  have h := h0.run l
  have hm : ∀ x ∈ [src] ++ lists f (State.init f src) l, x ∈ lists f (State.init f src) l := by
    intro x hx
    simp only [List.mem_append, List.mem_singleton] at hx
    rcases hx with rfl | hx
    · cases l <;> simp [lists, State.init]
    · exact hx
  obtain ⟨_, h2, h3, _⟩ := h.mono hm
  exact ⟨h2, h3⟩

/-! ### Each stream assigned by one thread only -/

/-- The steps start only assignments of streams by the threads that own them. -/
def Owned (own : ℕ → ℕ) (l : List (Step V)) : Prop := ∀ t i v, Step.assign t i v ∈ l → own i = t

structure OwnInv (own : ℕ → ℕ) (s : State V C) : Prop where
  len : s.vals.length = s.src.length
  busy : ∀ t i, (s.phase t).pending = some i → own i = t
  /-- a stream whose owner is not about to tell is in the list with its value -/
  told : ∀ i, (s.phase (own i)).pending ≠ some i → s.vals[i]? = s.src[i]?
  firing : ∀ t i w, s.phase t = .firing i w → s.src[i]? = some w
  bound : ∀ t i, (s.phase t).pending = some i → i < s.src.length

omit [DecidableEq V] in
theorem OwnInv.update {own : ℕ → ℕ} {s : State V C} (h : OwnInv own s) (t : ℕ) (ph : Phase V C)
    (hp : ph.pending = (s.phase t).pending) (hf : ∀ i w, ph = .firing i w → s.src[i]? = some w) (value : C) (log : List C) :
    OwnInv own ⟨s.src, s.vals, value, log, Function.update s.phase t ph⟩ := by
  have e : ∀ t', (Function.update s.phase t ph t').pending = (s.phase t').pending := by
    intro t'
    by_cases e : t' = t
    · subst e; simp [hp]
    · simp [Function.update_of_ne e]
  refine ⟨h.len, fun t' i hi => h.busy t' i ((e t') ▸ hi), fun i hi => h.told i ((e (own i)) ▸ hi), fun t' i w hw => ?_,
    fun t' i hi => h.bound t' i ((e t') ▸ hi)⟩
  by_cases e' : t' = t
  · subst e'; simp only [Function.update_self] at hw; exact hf i w hw
  · simp only [Function.update_of_ne e'] at hw; exact h.firing t' i w hw

theorem OwnInv.step {f : List V → C} {own : ℕ → ℕ} {s : State V C} (h : OwnInv own s) (st : Step V)
    (ho : Owned own [st]) : OwnInv own (s.step f st) := by
  cases st with
  | assign t i v =>
    have hi := ho t i v (by simp)
    simp only [State.step, State.assign]
    split
    · rename_i w hp hw
      split
      · refine ⟨h.len, fun t' j hj => ?_, fun j hj => ?_, fun t' j w' hw' => ?_, fun t' j hj => ?_⟩
        · by_cases e : t' = t
          · subst e; simp only [Function.update_self, Phase.pending, Option.some.injEq] at hj; exact hj ▸ hi
          · simp only [Function.update_of_ne e] at hj; exact h.busy t' j hj
        · refine h.told j fun hc => hj ?_
          have : own j ≠ t := fun e => by rw [e, hp] at hc; simp [Phase.pending] at hc
          simpa [Function.update_of_ne this] using hc
        · by_cases e : t' = t
          · subst e; simp at hw'
          · simp only [Function.update_of_ne e] at hw'; exact h.firing t' j w' hw'
        · by_cases e : t' = t
          · subst e; simp only [Function.update_self, Phase.pending, Option.some.injEq] at hj
            exact hj ▸ (List.getElem?_eq_some_iff.1 hw).1
          · simp only [Function.update_of_ne e] at hj; exact h.bound t' j hj
      · exact h
    · exact h
  | go t =>
    simp only [State.step, State.go]
    split
    · exact h
    · rename_i i v hp
      have hi := h.busy t i (by simp [hp, Phase.pending])
      have hb := h.bound t i (by simp [hp, Phase.pending])
      refine ⟨by simp [h.len], fun t' j hj => ?_, fun j hj => ?_, fun t' j w' hw' => ?_, fun t' j hj => ?_⟩
      · by_cases e : t' = t
        · subst e; simp only [Function.update_self, Phase.pending, Option.some.injEq] at hj; exact hj ▸ hi
        · simp only [Function.update_of_ne e] at hj; exact h.busy t' j hj
      · have hji : i ≠ j := fun e => hj (by simp [← e, hi, Phase.pending])
        simp only [List.getElem?_set_ne hji]
        refine h.told j fun hc => ?_
        by_cases e : own j = t
        · rw [e, hp] at hc; simp [Phase.pending] at hc; exact hji hc
        · exact hj (by simpa [Function.update_of_ne e] using hc)
      · by_cases e : t' = t
        · subst e; simp at hw'
        · simp only [Function.update_of_ne e] at hw'
          have h1 := h.busy t' j (by simp [hw', Phase.pending])
          have hji : i ≠ j := fun e' => e (by rw [← h1, ← e', hi])
          simp only [List.getElem?_set_ne hji]
          exact h.firing t' j w' hw'
      · simp only [List.length_set]
        by_cases e : t' = t
        · subst e; simp only [Function.update_self, Phase.pending, Option.some.injEq] at hj; exact hj ▸ hb
        · simp only [Function.update_of_ne e] at hj; exact h.bound t' j hj
    · rename_i i hp
      split
      · rename_i w hw
        exact h.update t _ (by simp [hp, Phase.pending]) (by rintro j w' ⟨⟩; exact hw) _ _
      · exact h
    · rename_i i w hp
      have hi := h.busy t i (by simp [hp, Phase.pending])
      have hb := h.bound t i (by simp [hp, Phase.pending])
      have hw := h.firing t i w hp
      have hb' : i < s.vals.length := h.len ▸ hb
      refine ⟨by simp [h.len], fun t' j hj => ?_, fun j hj => ?_, fun t' j w' hw' => ?_, fun t' j hj => ?_⟩
      · by_cases e : t' = t
        · subst e; simp [Phase.pending] at hj
        · simp only [Function.update_of_ne e] at hj; exact h.busy t' j hj
      · by_cases e : i = j
        · subst e; simp [List.getElem?_set_self hb', hw]
        · simp only [List.getElem?_set_ne e]
          refine h.told j fun hc => ?_
          by_cases e' : own j = t
          · rw [e', hp] at hc; simp [Phase.pending] at hc; exact e hc
          · exact hj (by simpa [Function.update_of_ne e'] using hc)
      · by_cases e : t' = t
        · subst e; simp at hw'
        · simp only [Function.update_of_ne e] at hw'; exact h.firing t' j w' hw'
      · by_cases e : t' = t
        · subst e; simp [Phase.pending] at hj
        · simp only [Function.update_of_ne e] at hj; exact h.bound t' j hj
    · rename_i hp; exact h.update t _ (by simp [hp, Phase.pending]) (by simp) _ _
    · rename_i c hp; exact h.update t _ (by simp [hp, Phase.pending]) (by simp) _ _
    · rename_i hp; exact h.update t _ (by simp [hp, Phase.pending]) (by simp) _ _
    · rename_i c hp; exact h.update t _ (by simp [hp, Phase.pending]) (by simp) _ _

theorem OwnInv.run {f : List V → C} {own : ℕ → ℕ} (l : List (Step V)) {s : State V C} (h : OwnInv own s)
    (ho : Owned own l) : OwnInv own (s.run f l) := by
  induction l generalizing s with
  | nil => exact h
  | cons st l ih =>
    exact ih (h.step st fun t i v hm => ho t i v (by simp only [List.mem_singleton] at hm; simp [hm]))
      fun t i v hm => ho t i v (by simp [hm])

omit [DecidableEq V] in
theorem OwnInv.init (f : List V → C) (own : ℕ → ℕ) (src : List V) : OwnInv own (State.init f src) :=
  ⟨rfl, by simp [State.init, Phase.pending], fun _ _ => rfl, by simp [State.init], by simp [State.init, Phase.pending]⟩

/-- No thread is about to tell the combined stream of an assignment. -/
def State.allNoted (s : State V C) : Prop := ∀ t, (s.phase t).pending = none

/-- C118, each stream assigned by one thread only: when the combined stream has been told of all assignments, its list
has the values of the streams. -/
theorem C118_list_partial (f : List V → C) (own : ℕ → ℕ) (src : List V) (l : List (Step V)) (ho : Owned own l)
    (hq : ((State.init f src).run f l).allNoted) :
    ((State.init f src).run f l).vals = ((State.init f src).run f l).src :=
  List.ext_getElem? fun i => ((OwnInv.init f own src).run l ho).told i (by rw [hq]; simp)

/-! ### After the last value was noted -/

/-- The thread holds a result of the function that it has not kept yet. -/
def Phase.holds : Phase V C → Prop
  | .computed _ => True
  | _ => False

/-- No step of the list puts a value in the list of the combined stream. -/
def Quietly (f : List V → C) (s : State V C) : List (Step V) → Prop
  | [] => True
  | st :: l => (∀ t i w, st = .go t → s.phase t ≠ .firing i w) ∧ Quietly f (s.step f st) l

/-- Results being held, and results being told, are those of the present list; someone may still have to keep it. -/
structure Fresh (f : List V → C) (s : State V C) : Prop where
  held : ∀ t c, s.phase t = .computed c → c = f s.vals
  cur : (∃ t, s.phase t = .noted ∨ (s.phase t).holds) ∨ s.value = f s.vals

theorem Fresh.step {f : List V → C} {s : State V C} (h : Fresh f s) (st : Step V)
    (hn : ∀ t i w, st = .go t → s.phase t ≠ .firing i w) : Fresh f (s.step f st) := by
  have key : ∀ (t : ℕ) (ph : Phase V C), ¬ (s.phase t = .noted ∨ (s.phase t).holds) →
      ((∃ t', Function.update s.phase t ph t' = .noted ∨ (Function.update s.phase t ph t').holds) ∨ s.value = f s.vals) := by
    intro t ph h1
    rcases h.cur with ⟨t', h'⟩ | h'
    · left
      have e : t' ≠ t := fun e => h1 (e ▸ h')
      exact ⟨t', by simpa [Function.update_of_ne e] using h'⟩
    · exact .inr h'
  have key2 : ∀ (t : ℕ) (ph : Phase V C), (∀ c, ph = .computed c → c = f s.vals) →
      ∀ t' c, Function.update s.phase t ph t' = .computed c → c = f s.vals := by
    intro t ph h1 t' c hc
    by_cases e : t' = t
    · subst e; simp only [Function.update_self] at hc; exact h1 c hc
    · simp only [Function.update_of_ne e] at hc; exact h.held t' c hc
  cases st with
  | assign t i v =>
    simp only [State.step, State.assign]
    split
    · rename_i w hp hw
      split
      · exact ⟨key2 t _ (by simp), key t _ (by simp [hp, Phase.holds])⟩
      · exact h
    · exact h
  | go t =>
    simp only [State.step, State.go]
    split
    · exact h
    · rename_i i v hp; exact ⟨key2 t _ (by simp), key t _ (by simp [hp, Phase.holds])⟩
    · rename_i i hp
      split
      · exact ⟨key2 t _ (by simp), key t _ (by simp [hp, Phase.holds])⟩
      · exact h
    · rename_i i w hp; exact absurd hp (hn t i w rfl)
    · exact ⟨key2 t _ (by rintro c ⟨⟩; rfl), .inl ⟨t, by simp [Phase.holds]⟩⟩
    · rename_i c hp
      exact ⟨key2 t _ (by simp), .inr (h.held t c hp)⟩
    · rename_i hp; exact ⟨key2 t _ (by simp), key t _ (by simp [hp, Phase.holds])⟩
    · rename_i c hp; exact ⟨key2 t _ (by simp), key t _ (by simp [hp, Phase.holds])⟩

theorem Fresh.run {f : List V → C} (l : List (Step V)) {s : State V C} (h : Fresh f s) (hq : Quietly f s l) :
    Fresh f (s.run f l) ∧ (s.run f l).vals = s.vals := by
  induction l generalizing s with
  | nil => exact ⟨h, rfl⟩
  | cons st l ih =>
    obtain ⟨h1, h2⟩ := ih (h.step st hq.1) hq.2
    refine ⟨h1, h2.trans ?_⟩
    cases st with
    | assign t i v => simp only [State.step, State.assign]; split <;> [split; skip] <;> rfl
    | go t =>
      simp only [State.step, State.go]
      split <;> try rfl
      · split <;> rfl
      · rename_i i w hp; exact absurd hp (hq.1 t i w rfl)

/-- C118: if at the moment when the last value is put in the list no thread holds a result it has not yet kept, then the
value of the combined stream after all assignments is the function of its list. In particular this is so if the
assignments do not overlap. (Missing: a thread that holds a result at that moment, for which it is false.) -/
theorem C118_value_partial (f : List V → C) (s : State V C) (t i : ℕ) (w : V) (l : List (Step V))
    (hw : s.phase t = .firing i w) (hh : ∀ t', ¬ (s.phase t').holds)
    (hq : Quietly f (s.step f (.go t)) l) (he : ((s.step f (.go t)).run f l).quiet) :
    ((s.step f (.go t)).run f l).value = f ((s.step f (.go t)).run f l).vals := by
  have h0 : Fresh f (s.step f (.go t)) := by
    simp only [State.step, State.go, hw]
    refine ⟨fun t' c hc => ?_, .inl ⟨t, by simp⟩⟩
    by_cases e : t' = t
    · subst e; simp at hc
    · simp only [Function.update_of_ne e] at hc
      exact absurd (by simp [hc, Phase.holds]) (hh t')
  obtain ⟨h1, _⟩ := h0.run l hq
  rcases h1.cur with ⟨t', h'⟩ | h'
  · rw [he t'] at h'; simp [Phase.holds] at h'
  · exact h'

/-! ### An assignment alone -/

/-- The steps of one assignment that nothing interrupts. -/
def alone (t i : ℕ) (v : V) : List (Step V) := .assign t i v :: List.replicate 7 (.go t)

/-- C118: whatever the threads did before, with each stream assigned by one thread only: once they are done, any one
assignment of a different value that nothing interrupts leaves the combined stream with the function of the values of all
streams, and tells it to the listeners last. -/
theorem C118_repair (f : List V → C) (own : ℕ → ℕ) (src : List V) (l : List (Step V)) (ho : Owned own l)
    (hq : ((State.init f src).run f l).quiet) (t i : ℕ) (v : V) (hi : i < src.length)
    (hv : ((State.init f src).run f l).src[i]? ≠ some v) :
    let s := ((State.init f src).run f l).run f (alone t i v)
    s.src = ((State.init f src).run f l).src.set i v ∧ s.value = f s.src ∧
    s.told = ((State.init f src).run f l).told ++ [f s.src] ∧ s.quiet := by
  have hl : ∀ (l : List (Step V)) (s : State V C), (s.run f l).src.length = s.src.length := by
    intro l
    induction l with
    | nil => intro s; rfl
    | cons st l ih =>
      intro s
      refine (ih (s.step f st)).trans ?_
      cases st with
      | assign t i v => simp only [State.step, State.assign]; split <;> [split; skip] <;> rfl
      | go t =>
        simp only [State.step, State.go]
        split <;> try rfl
        · simp
        · split <;> rfl
  have hvals := C118_list_partial f own src l ho fun t => by rw [hq t]; rfl
  have hlen : i < ((State.init f src).run f l).src.length := by rw [hl]; exact hi
  generalize (State.init f src).run f l = s at *
  have hne : ¬ s.src[i] = v := fun e => hv (e ▸ List.getElem?_eq_getElem hlen)
  have e1 : s.run f (alone t i v) = ⟨s.src.set i v, s.src.set i v, f (s.src.set i v), s.told ++ [f (s.src.set i v)],
      Function.update s.phase t .idle⟩ := by
    simp [State.run, alone, List.replicate, State.step, State.assign, hq t, hne, State.go, hlen, hvals]
  rw [e1]
  refine ⟨rfl, rfl, rfl, fun t' => ?_⟩
  by_cases e : t' = t
  · subst e; simp
  · simp [Function.update_of_ne e, hq t']

/-! ### Where it fails -/

/-- two streams, each with its own thread: thread 1 is interrupted between the call of the function and the assignment -/
def staleRun : List (Step ℕ) :=
  [.assign 0 0 1, .go 0, .go 0, .go 0, .go 0] ++ alone 1 1 2 ++ [.go 0, .go 0, .go 0]

/-- C118 is false even if each stream is assigned by one thread only: the streams end with 1 and 2, the list of the
combined stream has both, but its value is the combination of 1 and 0, and so is what the listeners are told last. -/
theorem C118_counterexample :
    let s := (State.init (C := List ℕ) id [0, 0]).run id staleRun
    Owned id staleRun ∧ s.src = [1, 2] ∧ s.vals = [1, 2] ∧ s.value = [1, 0] ∧ s.told.getLast? = some [1, 0] ∧
    ∀ t < 2, s.phase t matches .idle := by
  refine ⟨?_, by decide, by decide, by decide, by decide, by decide⟩
  intro t i v h
  simp [staleRun, alone, List.replicate] at h
  rcases h with ⟨rfl, rfl, _⟩ | ⟨rfl, rfl, _⟩ <;> rfl

/-- C118 is false for the list of the combined stream if two threads assign one stream: the stream ends with 2, the list
with 1. -/
theorem C118_one_stream_counterexample :
    let s := (State.init (C := List ℕ) id [0]).run id ([.assign 0 0 1, .go 0, .go 0] ++ alone 1 0 2 ++
      [.go 0, .go 0, .go 0, .go 0, .go 0])
    s.src = [2] ∧ s.vals = [1] ∧ s.value = [1] ∧ ∀ t < 2, s.phase t matches .idle := by
  refine ⟨by decide, by decide, by decide, by decide⟩

/-- `C118_repair` in a concrete case: after the stale value a further assignment puts things right. -/
example : let s := ((State.init (C := List ℕ) id [0, 0]).run id staleRun).run id (alone 0 0 7)
    s.value = [7, 2] ∧ s.told.getLast? = some [7, 2] := by decide

/-- two assignments about to be noted -/
def overlap : State ℕ (List ℕ) := (State.init id [0, 0]).run id [.assign 0 0 1, .assign 1 1 2, .go 0, .go 1, .go 0, .go 1]

/-- Two assignments that overlap, but not while a result is held: `C118_value_partial` applies. -/
example :
    (overlap.run id [.go 0, .go 1]).vals = [1, 2] ∧
    (overlap.run id [.go 0, .go 1, .go 0, .go 1, .go 0, .go 1, .go 0, .go 0, .go 1, .go 1]).value = [1, 2] := by
  refine ⟨by decide, ?_⟩
  have h := C118_value_partial id (overlap.step id (.go 0)) 1 1 2
    [.go 0, .go 1, .go 0, .go 1, .go 0, .go 0, .go 1, .go 1] rfl
    (fun t => by
      match t with
      | 0 => simp [overlap, State.step, State.go, State.run, State.init, State.assign, Phase.holds]
      | 1 => simp [overlap, State.step, State.go, State.run, State.init, State.assign, Phase.holds]
      | t + 2 => simp [overlap, State.step, State.go, State.run, State.init, State.assign, Phase.holds, Function.update])
    (by
      refine ⟨?_, ?_, ?_, ?_, ?_, ?_, ?_, ?_, trivial⟩ <;> rintro t i w ⟨⟩ <;>
        simp [overlap, State.step, State.go, State.run, State.init, State.assign])
    (fun t => by
      match t with
      | 0 => rfl
      | 1 => rfl
      | t + 2 => simp [overlap, State.step, State.go, State.run, State.init, State.assign, Function.update])
  have e : ∀ l, (overlap.run id (.go 0 :: .go 1 :: l)) = ((overlap.step id (.go 0)).step id (.go 1)).run id l := fun _ => rfl
  rw [e, h, ← e]
  decide

end Verif.Stream.CombineThreads
