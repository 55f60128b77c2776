import Mathlib.Data.List.Basic
import Mathlib.Data.List.Sort
import Mathlib.Tactic.Linarith

/-!
Events used from several threads (`nion/utils/Event.py:33-37, 67-85, 103-144`), property C101.

The state is shared; the schedule is any list of atomic steps of any number of threads. Fires are numbered, any number of them may be
in progress, in different threads or nested in one; what a listener function does is any steps between its call and its return. One
step is: `listen` (the list is changed under the mutex), `close` (one assignment to `call`), giving up a token, removing a token that
is dead from the list (the callback of the weak reference, under the mutex), the test of the list at the start of a fire (not under the
mutex), the copy of the list under the mutex, reading `listener.call`, calling it, and its return or exception. Between reading `call`
and calling it other threads may run.

A token is alive while a client holds it or a fire has it in its copy of the list. An owner is a client which closes the token when it
gives it up. Steps that cannot be taken leave the state as it is.
-/

namespace Verif.Event.Threads

inductive Kind where
  | fire | any | all
  deriving DecidableEq

/-- Where a fire is. -/
inductive Phase where
  /-- The list was not empty; it has not been copied. -/
  | begun
  /-- In the loop, before the given rest of the copy. -/
  | looping (rest : List ℕ)
  /-- `call` of the token has been read; `fn` says whether it was the listener function. -/
  | loaded (t : ℕ) (fn : Bool) (rest : List ℕ)
  /-- Inside the listener function. -/
  | inside (t : ℕ) (rest : List ℕ)
  /-- It has returned; `complete` if it came to the end of the loop. -/
  | ended (complete : Bool)
  deriving DecidableEq

structure Fire where
  kind : Kind
  snap : List ℕ
  phase : Phase
  deriving DecidableEq

structure State where
  /-- The number of the next token. -/
  next : ℕ
  /-- Tokens held by clients. -/
  held : List ℕ
  /-- Tokens for which `close` has returned. -/
  closed : List ℕ
  /-- `__weak_listeners`. -/
  listed : List ℕ
  fires : List Fire
  /-- The calls of listener functions: fire and token. -/
  trace : List (ℕ × ℕ)
  deriving DecidableEq

def State.init : State := ⟨0, [], [], [], [], []⟩

/-- The tokens referenced by the local list of a fire. -/
def Fire.pins (f : Fire) : List ℕ :=
  match f.phase with
  | .ended _ => []
  | _ => f.snap

def State.alive (s : State) (t : ℕ) : Bool := t ∈ s.held || s.fires.any fun f => t ∈ f.pins

inductive Step where
  | listen
  | close (t : ℕ)
  | drop (t : ℕ)
  | remove (t : ℕ)
  | begin (k : Kind)
  | copy (i : ℕ)
  | load (i : ℕ)
  | call (i : ℕ)
  | ret (i : ℕ) (v : Bool)
  | raise (i : ℕ)

/-- Whether a fire goes on after a listener function (or the function put in its place) has returned a value. -/
def goesOn : Kind → Bool → Bool
  | .fire, _ => true
  | .any, v => !v
  | .all, v => v

def State.setFire (s : State) (i : ℕ) (f : Fire) : State := { s with fires := s.fires.set i f }

/-- A step of fire `f` with number `i`. -/
def stepFire (s : State) (i : ℕ) (f : Fire) : Step → State
  | .copy _ =>
    match f.phase with
    | .begun =>
      let l := s.listed.filter s.alive
      s.setFire i { f with snap := l, phase := .looping l }
    | _ => s
  | .load _ =>
    match f.phase with
    | .looping [] => s.setFire i { f with phase := .ended true }
    | .looping (t :: rest) => s.setFire i { f with phase := .loaded t (t ∉ s.closed) rest }
    | _ => s
  | .call _ =>
    match f.phase with
    | .loaded t true rest => { s with fires := s.fires.set i { f with phase := .inside t rest }, trace := s.trace ++ [(i, t)] }
    | .loaded _ false rest => s.setFire i { f with phase := if goesOn f.kind false then .looping rest else .ended false }
    | _ => s
  | .ret _ v =>
    match f.phase with
    | .inside _ rest => s.setFire i { f with phase := if goesOn f.kind v then .looping rest else .ended false }
    | _ => s
  | .raise _ =>
    match f.phase with
    | .inside _ _ => s.setFire i { f with phase := .ended false }
    | _ => s
  | _ => s

def Step.fire? : Step → Option ℕ
  | .copy i => some i
  | .load i => some i
  | .call i => some i
  | .ret i _ => some i
  | .raise i => some i
  | _ => none

def step (s : State) (st : Step) : State :=
  match st with
  | .listen => { s with next := s.next + 1, held := s.held ++ [s.next], listed := s.listed ++ [s.next] }
  | .close t => if t < s.next then { s with closed := s.closed ++ [t] } else s
  | .drop t => { s with held := s.held.filter (· ≠ t) }
  | .remove t => if s.alive t then s else { s with listed := s.listed.filter (· ≠ t) }
  | .begin k => { s with fires := s.fires ++ [⟨k, [], if s.listed = [] then .ended true else .begun⟩] }
  | st =>
    match st.fire? with
    | none => s
    | some i =>
      match s.fires[i]? with
      | none => s
      | some f => stepFire s i f st

def run (s : State) (l : List Step) : State := l.foldl step s

/-- The tokens whose functions fire `i` has called, in order. -/
def calls (i : ℕ) (tr : List (ℕ × ℕ)) : List ℕ := tr.filterMap fun e => if e.1 = i then some e.2 else none

/-! ### Invariant -/

/-- What a fire has done so far: `l` are the calls it made. -/
def FireOk (closed : List ℕ) (l : List ℕ) (f : Fire) : Prop :=
  match f.phase with
  | .begun => l = [] ∧ f.snap = []
  | .looping rest => ∃ done, f.snap = done ++ rest ∧ l.Sublist done ∧ ∀ t ∈ done, t ∉ closed → t ∈ l
  | .loaded t fn rest => ∃ done, f.snap = done ++ t :: rest ∧ l.Sublist done ∧ (∀ u ∈ done, u ∉ closed → u ∈ l) ∧ (fn = false → t ∈ closed)
  | .inside t rest => ∃ done, f.snap = done ++ t :: rest ∧ l.Sublist (done ++ [t]) ∧ (∀ u ∈ done, u ∉ closed → u ∈ l) ∧ t ∈ l
  | .ended complete => l.Sublist f.snap ∧ (complete = true → ∀ t ∈ f.snap, t ∉ closed → t ∈ l)

theorem FireOk.mono {c c' l : List ℕ} {f : Fire} (h : FireOk c l f) (hc : ∀ t ∈ c, t ∈ c') : FireOk c' l f := by
  unfold FireOk at *
  have key : ∀ d : List ℕ, (∀ t ∈ d, t ∉ c → t ∈ l) → ∀ t ∈ d, t ∉ c' → t ∈ l := fun d h t ht hn => h t ht fun h' => hn (hc t h')
  cases hp : f.phase with
  | begun => simpa [hp] using h
  | looping rest =>
    simp only [hp] at h ⊢
    obtain ⟨d, h1, h2, h3⟩ := h
    exact ⟨d, h1, h2, key d h3⟩
  | loaded t fn rest =>
    simp only [hp] at h ⊢
    obtain ⟨d, h1, h2, h3, h4⟩ := h
    exact ⟨d, h1, h2, key d h3, fun h => hc t (h4 h)⟩
  | inside t rest =>
    simp only [hp] at h ⊢
    obtain ⟨d, h1, h2, h3, h4⟩ := h
    exact ⟨d, h1, h2, key d h3, h4⟩
  | ended b =>
    simp only [hp] at h ⊢
    exact ⟨h.1, fun hb => key _ (h.2 hb)⟩

structure Inv (s : State) : Prop where
  sorted : s.listed.Pairwise (· < ·)
  bound : ∀ t ∈ s.listed, t < s.next
  held : ∀ t ∈ s.held, t < s.next ∧ t ∈ s.listed
  pinned : ∀ f ∈ s.fires, ∀ t ∈ f.pins, t ∈ s.listed
  snap : ∀ f ∈ s.fires, f.snap.Pairwise (· < ·) ∧ ∀ t ∈ f.snap, t < s.next
  fires : ∀ i f, s.fires[i]? = some f → FireOk s.closed (calls i s.trace) f
  none : ∀ i, s.fires.length ≤ i → calls i s.trace = []

theorem Inv.init : Inv State.init :=
  ⟨List.Pairwise.nil, by simp [State.init], by simp [State.init], by simp [State.init], by simp [State.init],
    by simp [State.init], by simp [State.init, calls]⟩

theorem calls_append (i : ℕ) (a b : List (ℕ × ℕ)) : calls i (a ++ b) = calls i a ++ calls i b := by simp [calls]

theorem calls_self (i t : ℕ) : calls i [(i, t)] = [t] := by simp [calls]

theorem calls_other {i j : ℕ} (t : ℕ) (h : j ≠ i) : calls i [(j, t)] = [] := by simp [calls, h]

theorem mem_calls {i t : ℕ} {tr : List (ℕ × ℕ)} : t ∈ calls i tr ↔ (i, t) ∈ tr := by
  simp only [calls, List.mem_filterMap, Prod.exists]
  constructor
  · rintro ⟨a, b, h1, h2⟩
    split_ifs at h2 with h
    simp only [Option.some.injEq] at h2
    rwa [← h, ← h2]
  · intro h
    exact ⟨i, t, h, by simp⟩

/-- Replacing a fire keeps the invariant if the new fire is as it should be. -/
theorem Inv.setFire {s : State} (h : Inv s) {i : ℕ} {f g : Fire} (hf : s.fires[i]? = some f)
    (hsnap : g.snap.Pairwise (· < ·) ∧ ∀ t ∈ g.snap, t < s.next) (hpin : ∀ t ∈ g.pins, t ∈ s.listed) (l : List (ℕ × ℕ))
    (hl : ∀ e ∈ l, e.1 = i) (hok : FireOk s.closed (calls i (s.trace ++ l)) g) :
    Inv { s with fires := s.fires.set i g, trace := s.trace ++ l } := by
  have hi : i < s.fires.length := (List.getElem?_eq_some_iff.1 hf).1
  have hcalls : ∀ j, j ≠ i → calls j (s.trace ++ l) = calls j s.trace := by
    intro j hj
    rw [calls_append]
    have : calls j l = [] := by
      rw [calls, List.filterMap_eq_nil_iff]
      intro e he
      rw [if_neg]
      rw [hl e he]
      exact fun h => hj h.symm
    rw [this, List.append_nil]
  refine ⟨h.sorted, h.bound, h.held, ?_, ?_, ?_, ?_⟩
  · intro f' hf' t ht
    rcases List.mem_or_eq_of_mem_set hf' with hm | rfl
    · exact h.pinned f' hm t ht
    · exact hpin t ht
  · intro f' hf'
    rcases List.mem_or_eq_of_mem_set hf' with hm | rfl
    · exact h.snap f' hm
    · exact hsnap
  · intro j f' hj
    simp only at hj
    rw [List.getElem?_set] at hj
    split_ifs at hj with h1
    · subst h1
      simp only [Option.some.injEq] at hj
      subst hj
      exact hok
    · rw [hcalls j fun h => h1 h.symm]
      exact h.fires j f' hj
  · intro j hj
    simp only [List.length_set] at hj
    rw [hcalls j (by omega)]
    exact h.none j hj

theorem Inv.setFire' {s : State} (h : Inv s) {i : ℕ} {f g : Fire} (hf : s.fires[i]? = some f)
    (hsnap : g.snap.Pairwise (· < ·) ∧ ∀ t ∈ g.snap, t < s.next) (hpin : ∀ t ∈ g.pins, t ∈ s.listed)
    (hok : FireOk s.closed (calls i s.trace) g) : Inv (s.setFire i g) := by
  have := h.setFire hf hsnap hpin [] (by simp) (by simpa using hok)
  rw [List.append_nil] at this
  exact this

theorem pins_subset {f : Fire} {t : ℕ} (h : t ∈ f.pins) : t ∈ f.snap := by
  unfold Fire.pins at h
  split at h
  · cases h
  · exact h

theorem Inv.stepFire {s : State} (h : Inv s) {i : ℕ} {f : Fire} (hf : s.fires[i]? = some f) (st : Step) : Inv (stepFire s i f st) := by
  have hm : f ∈ s.fires := List.mem_of_getElem? hf
  have hs := h.snap f hm
  have hp := h.pinned f hm
  have hok := h.fires i f hf
  unfold FireOk at hok
  unfold Threads.stepFire
  cases st with
  | copy j =>
    cases hph : f.phase with
    | begun =>
      simp only [hph] at hok ⊢
      refine h.setFire' hf ?_ ?_ ?_
      · exact ⟨h.sorted.filter _, fun t ht => h.bound t (List.mem_of_mem_filter ht)⟩
      · intro t ht
        exact List.mem_of_mem_filter (pins_subset ht)
      · unfold FireOk
        simp only
        exact ⟨[], rfl, by rw [hok.1], by simp⟩
    | _ => simpa [hph] using h
  | load j =>
    cases hph : f.phase with
    | looping rest =>
      simp only [hph] at hok ⊢
      obtain ⟨d, h1, h2, h3⟩ := hok
      have hpins : ∀ t ∈ f.snap, t ∈ s.listed := by
        intro t ht
        apply hp t
        rw [Fire.pins, hph]
        exact ht
      cases rest with
      | nil =>
        simp only
        rw [List.append_nil] at h1
        refine h.setFire' hf (by exact hs) ?_ ?_
        · intro t ht
          cases ht
        · unfold FireOk
          simp only
          exact ⟨h1 ▸ h2, fun _ => h1 ▸ h3⟩
      | cons t rest =>
        simp only
        refine h.setFire' hf (by exact hs) ?_ ?_
        · exact fun t ht => by have := pins_subset ht; exact hpins t this
        · unfold FireOk
          simp only
          exact ⟨d, h1, h2, h3, fun h => by simpa using h⟩
    | _ => simpa [hph] using h
  | call j =>
    cases hph : f.phase with
    | loaded t fn rest =>
      simp only [hph] at hok
      obtain ⟨d, h1, h2, h3, h4⟩ := hok
      have hpins : ∀ t ∈ f.snap, t ∈ s.listed := by
        intro t ht
        apply hp t
        rw [Fire.pins, hph]
        exact ht
      cases fn with
      | true =>
        simp only
        refine h.setFire hf (by exact hs) ?_ [(i, t)] ?_ ?_
        · exact fun t ht => by have := pins_subset ht; exact hpins t this
        · simp
        · rw [calls_append, calls_self]
          unfold FireOk
          simp only
          exact ⟨d, h1, h2.append (List.Sublist.refl _), fun u hu hc => List.mem_append_left _ (h3 u hu hc), by simp⟩
      | false =>
        simp only
        refine h.setFire' hf (by exact hs) ?_ ?_
        · exact fun t ht => by have := pins_subset ht; exact hpins t this
        · unfold FireOk
          cases goesOn f.kind false with
          | true =>
            simp only [if_true]
            refine ⟨d ++ [t], by simp [h1], h2.trans (List.sublist_append_left _ _), ?_⟩
            intro u hu hc
            rcases List.mem_append.1 hu with hu | hu
            · exact h3 u hu hc
            · rw [List.mem_singleton] at hu
              exact absurd (h4 rfl) (hu ▸ hc)
          | false =>
            simp only [Bool.false_eq_true, if_false, false_implies, and_true]
            rw [h1]
            exact h2.trans (List.sublist_append_left _ _)
    | _ => simpa [hph] using h
  | ret j v =>
    cases hph : f.phase with
    | inside t rest =>
      simp only [hph] at hok ⊢
      obtain ⟨d, h1, h2, h3, h4⟩ := hok
      have hpins : ∀ t ∈ f.snap, t ∈ s.listed := by
        intro t ht
        apply hp t
        rw [Fire.pins, hph]
        exact ht
      refine h.setFire' hf (by exact hs) ?_ ?_
      · exact fun t ht => by have := pins_subset ht; exact hpins t this
      · unfold FireOk
        cases goesOn f.kind v with
        | true =>
          simp only [if_true]
          refine ⟨d ++ [t], by simp [h1], h2, ?_⟩
          intro u hu hc
          rcases List.mem_append.1 hu with hu | hu
          · exact h3 u hu hc
          · rw [List.mem_singleton] at hu
            exact hu ▸ h4
        | false =>
          simp only [Bool.false_eq_true, if_false, false_implies, and_true]
          rw [h1]
          exact h2.trans (by rw [show d ++ t :: rest = (d ++ [t]) ++ rest by simp]; exact List.sublist_append_left _ _)
    | _ => simpa [hph] using h
  | raise j =>
    cases hph : f.phase with
    | inside t rest =>
      simp only [hph] at hok ⊢
      obtain ⟨d, h1, h2, h3, h4⟩ := hok
      refine h.setFire' hf (by exact hs) ?_ ?_
      · intro t ht
        cases ht
      · unfold FireOk
        simp only [Bool.false_eq_true, false_implies, and_true]
        rw [h1]
        exact h2.trans (by rw [show d ++ t :: rest = (d ++ [t]) ++ rest by simp]; exact List.sublist_append_left _ _)
    | _ => simpa [hph] using h
  | _ => exact h

theorem not_alive {s : State} {t : ℕ} (h : ¬ s.alive t = true) : t ∉ s.held ∧ ∀ f ∈ s.fires, t ∉ f.pins := by
  simp only [State.alive, Bool.or_eq_true, decide_eq_true_eq, List.any_eq_true, not_or, not_exists, not_and] at h
  exact h

theorem Inv.step {s : State} (h : Inv s) (st : Step) : Inv (step s st) := by
  have hfire : ∀ st : Step, Inv (match st.fire? with
      | Option.none => s
      | some i =>
        match s.fires[i]? with
        | Option.none => s
        | some f => Threads.stepFire s i f st) := by
    intro st
    cases st.fire? with
    | none => exact h
    | some i =>
      simp only
      cases hf : s.fires[i]? with
      | none => exact h
      | some f => exact h.stepFire hf st
  cases st with
  | listen =>
    refine ⟨?_, ?_, ?_, ?_, ?_, h.fires, h.none⟩
    · simp only [Threads.step]
      rw [List.pairwise_append]
      exact ⟨h.sorted, by simp, fun a ha b hb => by rw [List.mem_singleton] at hb; exact hb ▸ h.bound a ha⟩
    · intro t ht
      simp only [Threads.step, List.mem_append, List.mem_singleton] at ht ⊢
      rcases ht with ht | rfl
      · have := h.bound t ht; omega
      · omega
    · intro t ht
      simp only [Threads.step, List.mem_append, List.mem_singleton] at ht ⊢
      rcases ht with ht | rfl
      · have := h.held t ht
        exact ⟨by omega, .inl this.2⟩
      · exact ⟨by omega, .inr rfl⟩
    · intro f hf t ht
      exact List.mem_append_left _ (h.pinned f hf t ht)
    · intro f hf
      have := h.snap f hf
      refine ⟨this.1, fun t ht => ?_⟩
      have := this.2 t ht
      simp only [Threads.step]
      omega
  | close t =>
    simp only [Threads.step]
    split_ifs
    · refine ⟨h.sorted, h.bound, h.held, h.pinned, h.snap, ?_, h.none⟩
      intro i f hf
      exact (h.fires i f hf).mono fun t ht => List.mem_append_left _ ht
    · exact h
  | drop t =>
    refine ⟨h.sorted, h.bound, ?_, h.pinned, h.snap, h.fires, h.none⟩
    intro u hu
    exact h.held u (List.mem_of_mem_filter hu)
  | remove t =>
    simp only [Threads.step]
    split_ifs with ha
    · exact h
    · obtain ⟨h1, h2⟩ := not_alive ha
      refine ⟨h.sorted.filter _, fun u hu => h.bound u (List.mem_of_mem_filter hu), ?_, ?_, h.snap, h.fires, h.none⟩
      · intro u hu
        refine ⟨(h.held u hu).1, List.mem_filter.2 ⟨(h.held u hu).2, ?_⟩⟩
        simp only [decide_not, Bool.not_eq_true', decide_eq_false_iff_not]
        rintro rfl
        exact h1 hu
      · intro f hf u hu
        refine List.mem_filter.2 ⟨h.pinned f hf u hu, ?_⟩
        simp only [decide_not, Bool.not_eq_true', decide_eq_false_iff_not]
        rintro rfl
        exact h2 f hf hu
  | begin k =>
    have hnew : ∀ f ∈ s.fires ++ [(⟨k, [], if s.listed = [] then .ended true else .begun⟩ : Fire)], f ∈ s.fires ∨ f.snap = [] := by
      intro f hf
      rcases List.mem_append.1 hf with hf | hf
      · exact .inl hf
      · rw [List.mem_singleton] at hf
        exact .inr (hf ▸ rfl)
    refine ⟨h.sorted, h.bound, h.held, ?_, ?_, ?_, ?_⟩
    · intro f hf t ht
      rcases hnew f hf with hf | hf
      · exact h.pinned f hf t ht
      · have := pins_subset ht
        rw [hf] at this
        cases this
    · intro f hf
      rcases hnew f hf with hf | hf
      · exact h.snap f hf
      · rw [hf]
        exact ⟨List.Pairwise.nil, by simp⟩
    · intro i f hf
      simp only [Threads.step] at hf ⊢
      by_cases hi : i < s.fires.length
      · rw [List.getElem?_append_left hi] at hf
        exact h.fires i f hf
      · rw [List.getElem?_append_right (by omega)] at hf
        rw [h.none i (by omega)]
        cases hj : i - s.fires.length with
        | succ j => simp [hj] at hf
        | zero =>
          simp only [hj, List.getElem?_cons_zero, Option.some.injEq] at hf
          subst hf
          unfold FireOk
          by_cases hl : s.listed = []
          · simp [hl]
          · simp [hl]
    · intro i hi
      simp only [Threads.step, List.length_append, List.length_singleton] at hi ⊢
      exact h.none i (by omega)
  | copy i => exact hfire (.copy i)
  | load i => exact hfire (.load i)
  | call i => exact hfire (.call i)
  | ret i v => exact hfire (.ret i v)
  | raise i => exact hfire (.raise i)

theorem Inv.run {s : State} (h : Inv s) (l : List Step) : Inv (run s l) := by
  induction l generalizing s with
  | nil => exact h
  | cons st l ih => exact ih (h.step st)

/-! ### C101 -/

theorem run_append (s : State) (a b : List Step) : run s (a ++ b) = run (run s a) b := List.foldl_append

/-- C101, order: a fire calls every listener at most once, in the order in which they were attached. -/
theorem C101_order (l : List Step) (i : ℕ) : (calls i (run .init l).trace).Pairwise (· < ·) := by
  have h := Inv.init.run l
  cases hf : (run .init l).fires[i]? with
  | none => rw [h.none i (List.getElem?_eq_none_iff.1 hf)]; exact List.Pairwise.nil
  | some f =>
    have hs := (h.snap f (List.mem_of_getElem? hf)).1
    have hok := h.fires i f hf
    refine hs.sublist ?_
    unfold FireOk at hok
    cases hp : f.phase with
    | begun =>
      simp only [hp] at hok
      rw [hok.1]
      exact List.nil_sublist _
    | looping rest =>
      simp only [hp] at hok
      obtain ⟨d, h1, h2, -⟩ := hok
      exact h1 ▸ h2.trans (List.sublist_append_left _ _)
    | loaded t fn rest =>
      simp only [hp] at hok
      obtain ⟨d, h1, h2, -⟩ := hok
      exact h1 ▸ h2.trans (List.sublist_append_left _ _)
    | inside t rest =>
      simp only [hp] at hok
      obtain ⟨d, h1, h2, -⟩ := hok
      rw [h1, show d ++ t :: rest = (d ++ [t]) ++ rest by simp]
      exact h2.trans (List.sublist_append_left _ _)
    | ended b =>
      simp only [hp] at hok
      exact hok.1

/-- What never changes back: closed tokens and given up tokens; and the number of fires does not shrink. -/
theorem step_mono (s : State) (st : Step) : (∀ t ∈ s.closed, t ∈ (step s st).closed) ∧ s.fires.length ≤ (step s st).fires.length ∧
    s.next ≤ (step s st).next ∧ (∀ t < s.next, t ∈ (step s st).held → t ∈ s.held) ∧
    (∀ i, i < s.fires.length → (∀ f, s.fires[i]? = some f → f.phase ≠ .begun →
      ∃ g, (step s st).fires[i]? = some g ∧ g.snap = f.snap ∧ g.phase ≠ .begun)) := by
  have hset : ∀ (i j : ℕ) (f g h : Fire), s.fires[i]? = some f → s.fires[j]? = some g → f.phase ≠ .begun →
      (j = i → h.snap = f.snap ∧ h.phase ≠ .begun) →
      ∃ g', (s.fires.set j h)[i]? = some g' ∧ g'.snap = f.snap ∧ g'.phase ≠ .begun := by
    intro i j f g h hf hg hp hh
    rw [List.getElem?_set]
    split_ifs with h1 h2
    · exact ⟨h, rfl, hh h1⟩
    · exact absurd (List.getElem?_eq_some_iff.1 hg).1 h2
    · exact ⟨f, hf, rfl, hp⟩
  have hfire : ∀ st : Step, ∀ s' : State, s' = (match st.fire? with
      | Option.none => s
      | some i =>
        match s.fires[i]? with
        | Option.none => s
        | some f => stepFire s i f st) → (∀ t ∈ s.closed, t ∈ s'.closed) ∧ s.fires.length ≤ s'.fires.length ∧
    s.next ≤ s'.next ∧ (∀ t < s.next, t ∈ s'.held → t ∈ s.held) ∧
    (∀ i, i < s.fires.length → (∀ f, s.fires[i]? = some f → f.phase ≠ .begun →
      ∃ g, s'.fires[i]? = some g ∧ g.snap = f.snap ∧ g.phase ≠ .begun)) := by
    rintro st s' rfl
    have hself : (∀ t ∈ s.closed, t ∈ s.closed) ∧ s.fires.length ≤ s.fires.length ∧
        s.next ≤ s.next ∧ (∀ t < s.next, t ∈ s.held → t ∈ s.held) ∧
        (∀ i, i < s.fires.length → (∀ f, s.fires[i]? = some f → f.phase ≠ .begun →
          ∃ g, s.fires[i]? = some g ∧ g.snap = f.snap ∧ g.phase ≠ .begun)) :=
      ⟨fun t h => h, le_rfl, le_rfl, fun t _ h => h, fun i _ f hf hp => ⟨f, hf, rfl, hp⟩⟩
    cases st.fire? with
    | none => exact hself
    | some j =>
      simp only
      cases hg : s.fires[j]? with
      | none => exact hself
      | some g =>
        simp only
        have hnew : ∀ (h : Fire) (tr : List (ℕ × ℕ)), (∀ f, s.fires[j]? = some f → f.phase ≠ .begun → h.snap = f.snap ∧ h.phase ≠ .begun) →
            (∀ t ∈ s.closed, t ∈ s.closed) ∧ s.fires.length ≤ (s.fires.set j h).length ∧
            s.next ≤ s.next ∧ (∀ t < s.next, t ∈ s.held → t ∈ s.held) ∧
            (∀ i, i < s.fires.length → (∀ f, s.fires[i]? = some f → f.phase ≠ .begun →
              ∃ g, (s.fires.set j h)[i]? = some g ∧ g.snap = f.snap ∧ g.phase ≠ .begun)) := by
          intro h tr hh
          refine ⟨fun t h => h, by simp, le_rfl, fun t _ h => h, fun i _ f hf hp => ?_⟩
          refine hset i j f g h hf hg hp ?_
          rintro rfl
          exact hh f hf hp
        have hgoes : ∀ b rest, (if goesOn g.kind b = true then Phase.looping rest else Phase.ended false) ≠ .begun := by
          intro b rest
          split_ifs <;> exact Phase.noConfusion
        have key : ∀ ph : Phase, ph ≠ .begun → (∀ f, s.fires[j]? = some f → f.phase ≠ .begun →
            ({ g with phase := ph } : Fire).snap = f.snap ∧ ({ g with phase := ph } : Fire).phase ≠ .begun) := by
          intro ph hph f hf _
          rw [hg, Option.some.injEq] at hf
          exact ⟨hf ▸ rfl, hph⟩
        unfold stepFire
        cases st with
        | copy k =>
          simp only
          cases hp : g.phase with
          | begun =>
            simp only
            apply hnew _ []
            intro f hf hp'
            rw [hg, Option.some.injEq] at hf
            exact absurd (hf ▸ hp) hp'
          | _ => exact hself
        | load k =>
          simp only
          cases hp : g.phase with
          | looping rest =>
            cases rest with
            | nil => exact hnew _ [] (key _ Phase.noConfusion)
            | cons t rest => exact hnew _ [] (key _ Phase.noConfusion)
          | _ => exact hself
        | call k =>
          simp only
          cases hp : g.phase with
          | loaded t fn rest =>
            cases fn with
            | true => exact hnew _ [] (key _ Phase.noConfusion)
            | false => exact hnew _ [] (key _ (hgoes false rest))
          | _ => exact hself
        | ret k v =>
          simp only
          cases hp : g.phase with
          | inside t rest => exact hnew _ [] (key _ (hgoes v rest))
          | _ => exact hself
        | raise k =>
          simp only
          cases hp : g.phase with
          | inside t rest => exact hnew _ [] (key _ Phase.noConfusion)
          | _ => exact hself
        | _ => exact hself
  cases st with
  | listen =>
    refine ⟨fun t h => h, le_rfl, by simp [step], ?_, fun i _ f hf hp => ⟨f, hf, rfl, hp⟩⟩
    intro t ht h
    simp only [step, List.mem_append, List.mem_singleton] at h
    rcases h with h | rfl
    · exact h
    · omega
  | close t =>
    simp only [step]
    split_ifs
    · exact ⟨fun t h => List.mem_append_left _ h, le_rfl, le_rfl, fun t _ h => h, fun i _ f hf hp => ⟨f, hf, rfl, hp⟩⟩
    · exact ⟨fun t h => h, le_rfl, le_rfl, fun t _ h => h, fun i _ f hf hp => ⟨f, hf, rfl, hp⟩⟩
  | drop t =>
    exact ⟨fun t h => h, le_rfl, le_rfl, fun t _ h => List.mem_of_mem_filter h, fun i _ f hf hp => ⟨f, hf, rfl, hp⟩⟩
  | remove t =>
    simp only [step]
    split_ifs
    · exact ⟨fun t h => h, le_rfl, le_rfl, fun t _ h => h, fun i _ f hf hp => ⟨f, hf, rfl, hp⟩⟩
    · exact ⟨fun t h => h, le_rfl, le_rfl, fun t _ h => h, fun i _ f hf hp => ⟨f, hf, rfl, hp⟩⟩
  | begin k =>
    refine ⟨fun t h => h, by simp [step], le_rfl, fun t _ h => h, fun i hi f hf hp => ⟨f, ?_, rfl, hp⟩⟩
    simp only [step]
    rw [List.getElem?_append_left hi]
    exact hf
  | copy i => exact hfire (.copy i) _ rfl
  | load i => exact hfire (.load i) _ rfl
  | call i => exact hfire (.call i) _ rfl
  | ret i v => exact hfire (.ret i v) _ rfl
  | raise i => exact hfire (.raise i) _ rfl

/-- What a step adds to the trace. -/
theorem step_trace (s : State) (st : Step) : (step s st).trace = s.trace ∨ ∃ i f t rest, s.fires[i]? = some f ∧
    f.phase = .loaded t true rest ∧ (step s st).trace = s.trace ++ [(i, t)] := by
  have hfire : ∀ st : Step, ∀ s' : State, s' = (match st.fire? with
      | Option.none => s
      | some i =>
        match s.fires[i]? with
        | Option.none => s
        | some f => stepFire s i f st) → s'.trace = s.trace ∨ ∃ i f t rest, s.fires[i]? = some f ∧
    f.phase = .loaded t true rest ∧ s'.trace = s.trace ++ [(i, t)] := by
    rintro st s' rfl
    cases st.fire? with
    | none => exact .inl rfl
    | some j =>
      simp only
      cases hg : s.fires[j]? with
      | none => exact .inl rfl
      | some g =>
        simp only
        unfold stepFire
        split
        · split <;> exact .inl rfl
        · split <;> exact .inl rfl
        · split
          · next t rest hp => exact .inr ⟨j, g, t, rest, hg, hp, rfl⟩
          · exact .inl rfl
          · exact .inl rfl
        · split <;> exact .inl rfl
        · split <;> exact .inl rfl
        · exact .inl rfl
  cases st with
  | listen => exact .inl rfl
  | close t =>
    simp only [step]
    split_ifs <;> exact .inl rfl
  | drop t => exact .inl rfl
  | remove t =>
    simp only [step]
    split_ifs <;> exact .inl rfl
  | begin k => exact .inl rfl
  | copy i => exact hfire (.copy i) _ rfl
  | load i => exact hfire (.load i) _ rfl
  | call i => exact hfire (.call i) _ rfl
  | ret i v => exact hfire (.ret i v) _ rfl
  | raise i => exact hfire (.raise i) _ rfl

/-- How a fire can change in a step. -/
inductive Trans (s : State) : Fire → Fire → Prop where
  | copy (f : Fire) : f.phase = .begun → Trans s f { f with snap := s.listed.filter s.alive, phase := .looping (s.listed.filter s.alive) }
  | load (f : Fire) (t : ℕ) (rest : List ℕ) : f.phase = .looping (t :: rest) →
      Trans s f { f with phase := .loaded t (t ∉ s.closed) rest }
  | call (f : Fire) (t : ℕ) (rest : List ℕ) : f.phase = .loaded t true rest → Trans s f { f with phase := .inside t rest }
  | next (f : Fire) (rest : List ℕ) : f.phase ≠ .begun → (∀ b, f.phase ≠ .ended b) → Trans s f { f with phase := .looping rest }
  | ended (f : Fire) (b : Bool) : f.phase ≠ .begun → Trans s f { f with phase := .ended b }

theorem step_fires (s : State) (st : Step) (i : ℕ) (g : Fire) (h : (step s st).fires[i]? = some g) :
    s.fires[i]? = some g ∨ (i = s.fires.length ∧ g.snap = [] ∧ (g.phase = .begun ∨ g.phase = .ended true)) ∨
      ∃ f, s.fires[i]? = some f ∧ Trans s f g := by
  have hset : ∀ (j : ℕ) (f g' : Fire), s.fires[j]? = some f → Trans s f g' → (s.fires.set j g')[i]? = some g →
      s.fires[i]? = some g ∨ ∃ f, s.fires[i]? = some f ∧ Trans s f g := by
    intro j f g' hf ht hg
    rw [List.getElem?_set] at hg
    split_ifs at hg with h1
    · simp only [Option.some.injEq] at hg
      exact .inr ⟨f, h1 ▸ hf, hg ▸ ht⟩
    · exact .inl hg
  have hfire : ∀ st : Step, (match st.fire? with
      | Option.none => s
      | some i =>
        match s.fires[i]? with
        | Option.none => s
        | some f => stepFire s i f st).fires[i]? = some g →
      s.fires[i]? = some g ∨ ∃ f, s.fires[i]? = some f ∧ Trans s f g := by
    intro st h
    cases hst : st.fire? with
    | none => rw [hst] at h; exact .inl h
    | some j =>
      rw [hst] at h
      simp only at h
      cases hf : s.fires[j]? with
      | none => rw [hf] at h; exact .inl h
      | some f =>
        rw [hf] at h
        simp only at h
        have hgoes : ∀ b rest, f.phase ≠ .begun → (∀ b, f.phase ≠ .ended b) →
            Trans s f { f with phase := if goesOn f.kind b = true then .looping rest else .ended false } := by
          intro b rest hp hq
          split_ifs
          · exact .next f rest hp hq
          · exact .ended f false hp
        unfold stepFire at h
        split at h
        · split at h
          · next hp => exact hset j f _ hf (.copy f hp) h
          · exact .inl h
        · split at h
          · next hp => exact hset j f _ hf (.ended f true (by rw [hp]; exact Phase.noConfusion)) h
          · next t rest hp => exact hset j f _ hf (.load f t rest hp) h
          · exact .inl h
        · split at h
          · next t rest hp => exact hset j f _ hf (.call f t rest hp) h
          · next t rest hp => exact hset j f _ hf (hgoes false rest (by rw [hp]; exact Phase.noConfusion) (by rw [hp]; exact fun _ => Phase.noConfusion)) h
          · exact .inl h
        · next v =>
          split at h
          · next t rest hp => exact hset j f _ hf (hgoes v rest (by rw [hp]; exact Phase.noConfusion) (by rw [hp]; exact fun _ => Phase.noConfusion)) h
          · exact .inl h
        · split at h
          · next t rest hp => exact hset j f _ hf (.ended f false (by rw [hp]; exact Phase.noConfusion)) h
          · exact .inl h
        · exact .inl h
  cases st with
  | listen => exact .inl h
  | close t =>
    simp only [step] at h
    split_ifs at h <;> exact .inl h
  | drop t => exact .inl h
  | remove t =>
    simp only [step] at h
    split_ifs at h <;> exact .inl h
  | begin k =>
    simp only [step] at h
    by_cases hi : i < s.fires.length
    · rw [List.getElem?_append_left hi] at h
      exact .inl h
    · rw [List.getElem?_append_right (by omega)] at h
      cases hj : i - s.fires.length with
      | succ j => simp [hj] at h
      | zero =>
        simp only [hj, List.getElem?_cons_zero, Option.some.injEq] at h
        subst h
        refine .inr (.inl ⟨by omega, rfl, ?_⟩)
        simp only
        split_ifs
        · exact .inr rfl
        · exact .inl rfl
  | copy j => exact (hfire (.copy j) h).imp id .inr
  | load j => exact (hfire (.load j) h).imp id .inr
  | call j => exact (hfire (.call j) h).imp id .inr
  | ret j v => exact (hfire (.ret j v) h).imp id .inr
  | raise j => exact (hfire (.raise j) h).imp id .inr

theorem FireOk.calls_snap {c l : List ℕ} {f : Fire} (h : FireOk c l f) : ∀ t ∈ l, t ∈ f.snap := by
  unfold FireOk at h
  intro t ht
  cases hp : f.phase with
  | begun =>
    simp only [hp] at h
    rw [h.1] at ht
    cases ht
  | looping rest =>
    simp only [hp] at h
    obtain ⟨d, h1, h2, -⟩ := h
    exact h1 ▸ List.mem_append_left _ (h2.subset ht)
  | loaded u fn rest =>
    simp only [hp] at h
    obtain ⟨d, h1, h2, -⟩ := h
    exact h1 ▸ List.mem_append_left _ (h2.subset ht)
  | inside u rest =>
    simp only [hp] at h
    obtain ⟨d, h1, h2, -⟩ := h
    rw [h1, show d ++ u :: rest = (d ++ [u]) ++ rest by simp]
    exact List.mem_append_left _ (h2.subset ht)
  | ended b =>
    simp only [hp] at h
    exact h.1.subset ht

/-- C101, completeness: a fire that comes to the end of its loop has called every listener which was attached when it began and was
neither closed nor given up when it ended, whatever other threads did. -/
theorem C101_complete (pre post : List Step) (k : Kind) (t : ℕ) :
    let s := run .init pre
    let i := s.fires.length
    let e := run (step s (.begin k)) post
    t ∈ s.held → t ∈ e.held → t ∉ e.closed → (∃ f, e.fires[i]? = some f ∧ f.phase = .ended true) → (calls i e.trace).count t = 1 := by
  intro s i e hs he hc hend
  have hinv : Inv s := Inv.init.run pre
  have key : ∀ (post : List Step) (s' : State), Inv s' → t < s'.next →
      (t ∈ s'.held → ∃ f, s'.fires[i]? = some f ∧ (f.phase = .begun ∨ t ∈ f.snap)) →
      t ∈ (run s' post).held → ∃ f, (run s' post).fires[i]? = some f ∧ (f.phase = .begun ∨ t ∈ f.snap) := by
    intro post
    induction post with
    | nil => exact fun s' _ _ h ht => h ht
    | cons st post ih =>
      intro s' h1 h2 h3 h4
      obtain ⟨-, hlen, hn, hheld, hkeep⟩ := step_mono s' st
      apply ih (step s' st) (h1.step st) (by omega) _ h4
      intro ht
      have ht' := hheld t h2 ht
      obtain ⟨f, hf, hfs⟩ := h3 ht'
      have hi : i < s'.fires.length := (List.getElem?_eq_some_iff.1 hf).1
      by_cases hb : f.phase = .begun
      · obtain ⟨g, hg⟩ : ∃ g, (step s' st).fires[i]? = some g := ⟨_, List.getElem?_eq_getElem (by omega)⟩
        refine ⟨g, hg, ?_⟩
        rcases step_fires s' st i g hg with h | ⟨h, -⟩ | ⟨f', hf', h⟩
        · rw [hf, Option.some.injEq] at h
          exact .inl (h ▸ hb)
        · omega
        · rw [hf, Option.some.injEq] at hf'
          subst hf'
          cases h with
          | copy _ =>
            right
            refine List.mem_filter.2 ⟨(h1.held t ht').2, ?_⟩
            simp [State.alive, ht']
          | load t rest h => rw [hb] at h; cases h
          | call t rest h => rw [hb] at h; cases h
          | next rest h _ => exact absurd hb h
          | ended b h => exact absurd hb h
      · obtain ⟨g, h5, h6, h7⟩ := hkeep i hi f hf hb
        exact ⟨g, h5, .inr (h6 ▸ hfs.resolve_left hb)⟩
  have hinv' : Inv (step s (.begin k)) := hinv.step _
  have hbegin : ∃ f, (step s (.begin k)).fires[i]? = some f ∧ (f.phase = .begun ∨ t ∈ f.snap) := by
    have hl : s.listed ≠ [] := List.ne_nil_of_mem (hinv.held t hs).2
    exact ⟨⟨k, [], .begun⟩, by simp [step, hl, i], .inl rfl⟩
  obtain ⟨f, hf, hfs⟩ := key post (step s (.begin k)) hinv' (hinv.held t hs).1 (fun _ => hbegin) he
  obtain ⟨f', hf', hph⟩ := hend
  rw [hf, Option.some.injEq] at hf'
  subst hf'
  have hok := (hinv'.run post).fires i f hf
  unfold FireOk at hok
  simp only [hph] at hok
  have hsnap : t ∈ f.snap := hfs.resolve_left (by rw [hph]; exact Phase.noConfusion)
  have hmem := hok.2 trivial t hsnap hc
  have hord := C101_order (pre ++ .begin k :: post) i
  rw [run_append] at hord
  change (calls i e.trace).Pairwise (· < ·) at hord
  exact List.count_eq_one_of_mem (hord.imp fun h => Nat.ne_of_lt h) hmem

/-- C101: once `close` has returned, no fire that begins later calls the listener. -/
theorem C101_closed (pre post : List Step) (t i : ℕ) :
    let s := run .init pre
    t ∈ s.closed → s.fires.length ≤ i → t ∉ calls i (run s post).trace := by
  intro s hc hi
  have hinv : Inv s := Inv.init.run pre
  suffices h : ∀ (post : List Step) (s' : State), t ∈ s'.closed →
      (∀ f rest, s'.fires[i]? = some f → f.phase ≠ .loaded t true rest) → t ∉ calls i s'.trace →
      t ∉ calls i (run s' post).trace by
    apply h post s hc
    · intro f rest hf
      exact absurd (List.getElem?_eq_some_iff.1 hf).1 (by omega)
    · rw [hinv.none i hi]
      simp
  intro post
  induction post with
  | nil => exact fun s' _ _ h => h
  | cons st post ih =>
    intro s' h1 h2 h3
    apply ih (step s' st) ((step_mono s' st).1 t h1)
    · intro g rest hg hp
      rcases step_fires s' st i g hg with h | ⟨-, -, h⟩ | ⟨f, hf, h⟩
      · exact h2 g rest h hp
      · rcases h with h | h <;> rw [hp] at h <;> cases h
      · cases h with
        | copy _ => cases hp
        | load u rest' _ =>
          simp only [Phase.loaded.injEq, decide_eq_true_eq] at hp
          exact hp.2.1 (hp.1 ▸ h1)
        | call u rest' _ => cases hp
        | next f rest' _ => cases hp
        | ended b _ => cases hp
    · rcases step_trace s' st with h | ⟨j, f, u, rest, hf, hp, h⟩
      · rwa [h]
      · rw [h, calls_append]
        by_cases hj : j = i
        · subst hj
          rw [calls_self]
          intro hm
          rcases List.mem_append.1 hm with hm | hm
          · exact h3 hm
          · rw [List.mem_singleton] at hm
            subst hm
            exact h2 f rest hf hp
        · rw [calls_other _ hj, List.append_nil]
          exact h3

/-- C101: once a token is dead (no client and no fire has it), nothing calls the listener any more. -/
theorem C101_dropped (pre post : List Step) (t i : ℕ) :
    let s := run .init pre
    t < s.next → s.alive t = false → (calls i (run s post).trace).count t = (calls i s.trace).count t := by
  intro s hn ha
  have hinv : Inv s := Inv.init.run pre
  suffices h : ∀ (post : List Step) (s' : State), Inv s' → t < s'.next → s'.alive t = false →
      (calls i (run s' post).trace).count t = (calls i s'.trace).count t from h post s hinv hn ha
  intro post
  induction post with
  | nil => exact fun s' _ _ _ => rfl
  | cons st post ih =>
    intro s' h1 h2 h3
    obtain ⟨h4, h5⟩ := not_alive (by rw [h3]; exact Bool.false_ne_true)
    obtain ⟨-, -, hn, hheld, -⟩ := step_mono s' st
    have h3' : (step s' st).alive t = false := by
      rw [Bool.eq_false_iff]
      intro h
      simp only [State.alive, Bool.or_eq_true, decide_eq_true_eq, List.any_eq_true] at h
      rcases h with h | ⟨g, hg, hpn⟩
      · exact h4 (hheld t h2 h)
      · obtain ⟨j, hj, rfl⟩ := List.mem_iff_getElem.1 hg
        have hpin : t ∈ (step s' st).fires[j].pins := hpn
        clear hpn
        have hjj : (step s' st).fires[j]? = some (step s' st).fires[j] := List.getElem?_eq_getElem hj
        generalize (step s' st).fires[j] = g at hpin hjj
        rcases step_fires s' st j g hjj with h | ⟨-, h, -⟩ | ⟨f, hf, h⟩
        · exact h5 g (List.mem_of_getElem? h) hpin
        · have := pins_subset hpin
          rw [h] at this
          cases this
        · have hne := h5 f (List.mem_of_getElem? hf)
          have hpins : f.phase ≠ .begun → (∀ b, f.phase ≠ .ended b) → t ∉ f.snap := by
            intro _ hb hs
            apply hne
            unfold Fire.pins
            split
            · next b hb' => exact absurd hb' (hb b)
            · exact hs
          cases h with
          | copy _ =>
            have := pins_subset hpin
            rw [List.mem_filter, h3] at this
            exact absurd this.2 Bool.false_ne_true
          | load u rest hp => exact hpins (by rw [hp]; exact Phase.noConfusion) (by rw [hp]; exact fun _ => Phase.noConfusion) hpin
          | call u rest hp => exact hpins (by rw [hp]; exact Phase.noConfusion) (by rw [hp]; exact fun _ => Phase.noConfusion) hpin
          | next rest hp hq => exact hpins hp hq hpin
          | ended b hp => cases hpin
    have := ih (step s' st) (h1.step st) (by omega) h3'
    change (calls i (run (step s' st) post).trace).count t = _
    rw [this]
    rcases step_trace s' st with h | ⟨j, f, u, rest, hf, hp, h⟩
    · rw [h]
    · rw [h, calls_append]
      by_cases hj : j = i
      · subst hj
        rw [calls_self, List.count_append]
        have hu : u ≠ t := by
          rintro rfl
          have hok := h1.fires j f hf
          unfold FireOk at hok
          simp only [hp] at hok
          obtain ⟨d, hd, -⟩ := hok
          apply h5 f (List.mem_of_getElem? hf)
          rw [Fire.pins, hp]
          simp [hd]
        simp [hu]
      · rw [calls_other _ hj, List.append_nil]

/-- C101: a listener attached after a fire has copied the list is not called by it. -/
theorem C101_new (pre post : List Step) (t i : ℕ) (f : Fire) :
    let s := run .init pre
    s.fires[i]? = some f → f.phase ≠ .begun → s.next ≤ t → t ∉ calls i (run s post).trace := by
  intro s hf hp ht hm
  have hinv : Inv s := Inv.init.run pre
  have key : ∀ (post : List Step) (s' : State) (f : Fire), s'.fires[i]? = some f → f.phase ≠ .begun →
      ∃ g, (run s' post).fires[i]? = some g ∧ g.snap = f.snap := by
    intro post
    induction post with
    | nil => exact fun s' f hf _ => ⟨f, hf, rfl⟩
    | cons st post ih =>
      intro s' f hf hp
      obtain ⟨-, -, -, -, hkeep⟩ := step_mono s' st
      obtain ⟨g, h1, h2, h3⟩ := hkeep i (List.getElem?_eq_some_iff.1 hf).1 f hf hp
      obtain ⟨g', h4, h5⟩ := ih (step s' st) g h1 h3
      exact ⟨g', h4, h5.trans h2⟩
  obtain ⟨g, hg, hsnap⟩ := key post s f hf hp
  have := ((hinv.run post).fires i g hg).calls_snap t hm
  rw [hsnap] at this
  have := (hinv.snap f (List.mem_of_getElem? hf)).2 t this
  omega

/-- C101, counterexample: another thread closes the listener after `call` has been read and before it is called; the listener function
runs after `close` has returned. -/
theorem C101_counterexample : ∃ pre : List Step, ∃ t, t ∈ (run .init pre).closed ∧ calls 0 (run .init pre).trace = [] ∧
    calls 0 (run (run .init pre) [.call 0]).trace = [t] :=
  ⟨[.listen, .begin .fire, .copy 0, .load 0, .close 0], 0, by decide⟩

/-- Two fires at once, while the second listener is closed and a third attached: the first fire has read the second listener's function
before, so it calls it, the other one does not. -/
example : let s := run .init [.listen, .listen, .begin .fire, .begin .fire, .copy 0, .copy 1, .load 1, .load 0, .call 0, .call 1, .ret 0 false,
      .load 0, .close 1, .listen, .ret 1 false, .load 1, .call 1, .call 0, .ret 0 true, .load 0, .load 1]
    calls 0 s.trace = [0, 1] ∧ calls 1 s.trace = [0] ∧ (s.fires.map fun f => f.phase) = [.ended true, .ended true] := by
  decide

end Verif.Event.Threads
