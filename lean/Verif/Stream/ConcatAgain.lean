import Mathlib.Data.List.Basic
import Mathlib.Data.List.Induction
import Mathlib.Data.List.Nodup
import Mathlib.Logic.Function.Basic

/-!
# Concat streams whose function returns a stream again (/repo/nion/utils/Stream.py:313-359)

`Verif.Stream.Follow` takes the values of the streams that the concat function returns as given. Here these streams are
mapped streams (Stream.py:60-92, with the identity as value function, on a source that nobody closes) with their reference
counts (/repo/nion/utils/ReferenceCounting.py:28-45): a mapped stream that nobody refers to any more is closed, has the value
`None` from then on and does not follow its source. The concat stream gives up its reference to the former stream (347)
before it asks its function for the next one (353).

The concat function `fn` is a function of the item, and returns the same stream for the same item; so each item has *its*
stream. Other clients take and give up references to the streams at any time (nobody gives up a reference that they do not
have). Items may be false (`0`, `''`, an empty list): line 348 tests the item, not whether it is `None`.
-/

namespace Verif.Stream.ConcatAgain

structure State (V : Type) where
  /-- the values of the sources of the mapped streams -/
  src : Nat → Option V
  /-- their reference counts -/
  refs : Nat → Nat
  /-- of these, the references of other clients -/
  others : Nat → Nat
  /-- `__active`: not closed yet -/
  alive : Nat → Bool
  /-- `__out_stream` -/
  cur : Option Nat
  value : Option V
  listening : Bool
  log : List (Option V)

inductive Act (I V : Type) where
  /-- The input stream fires `None` or an item. -/
  | item (i : Option I)
  /-- The source of stream `k` takes and fires a value. -/
  | set (k : Nat) (v : Option V)
  /-- Another client takes a reference to stream `k`. -/
  | take (k : Nat)
  /-- Another client gives up a reference to stream `k`. -/
  | drop (k : Nat)
  | close

variable {I V : Type} [DecidableEq V]

/-- The value of a mapped stream: Stream.py:84-90, 72-76. -/
def State.val (s : State V) (k : Nat) : Option V := if s.alive k then s.src k else none

/-- ReferenceCounting.py:28-31. -/
def State.addRef (s : State V) (k : Nat) : State V := { s with refs := Function.update s.refs k (s.refs k + 1) }

/-- ReferenceCounting.py:34-40. -/
def State.removeRef (s : State V) (k : Nat) : State V :=
  { s with
    refs := Function.update s.refs k (s.refs k - 1)
    alive := if s.refs k - 1 = 0 then Function.update s.alive k false else s.alive }

/-- Stream.py:349-351. -/
def State.tell (s : State V) (v : Option V) : State V := { s with value := v, log := s.log ++ [v] }

/-- Stream.py:343-347. -/
def State.release (s : State V) : State V :=
  match s.cur with
  | none => s
  | some j => { s.removeRef j with cur := none }

/-- Stream.py:343-359. -/
def State.streamChanged (truthy : I → Bool) (fn : I → Nat) (s : State V) (i : Option I) : State V :=
  match i with
  | none => s.release.tell none
  | some i =>
    if truthy i then
      let s := { s.release.addRef (fn i) with cur := some (fn i) }
      s.tell (s.val (fn i))
    else s.release.tell none

def State.step (truthy : I → Bool) (fn : I → Nat) (s : State V) : Act I V → State V
  | .item i => if s.listening then s.streamChanged truthy fn i else s
  | .set k v =>
    let s' := { s with src := Function.update s.src k v }
    -- 72-76 of a mapped stream that is not closed, then 349-351
    if s.alive k && decide (v ≠ s.src k) && decide (s.cur = some k) then s'.tell v else s'
  | .take k => { s.addRef k with others := Function.update s.others k (s.others k + 1) }
  | .drop k => if s.others k = 0 then s else { s.removeRef k with others := Function.update s.others k (s.others k - 1) }
  -- 331-337
  | .close => if s.listening then { s.streamChanged truthy fn none with listening := false } else s

/-- Nobody has a reference to any stream yet. -/
def blank (src : Nat → Option V) : State V := ⟨src, fun _ => 0, fun _ => 0, fun _ => true, none, none, true, []⟩

/-- A concat stream is made (316-329) when the input stream has the value `i`; then a history. -/
def run (truthy : I → Bool) (fn : I → Nat) (src : Nat → Option V) (as : List (Act I V)) : State V :=
  as.foldl (State.step truthy fn) (blank src)

/-! ### Specification -/

/-- The item of an open concat stream (`some i`), `none` once it is closed. -/
def shownStep : Option (Option I) → Act I V → Option (Option I)
  | some _, .item i => some i
  | _, .close => none
  | x, _ => x

def shown (as : List (Act I V)) : Option I := (as.foldl shownStep (some none)).join

/-- References that other clients have. -/
def heldStep (k : Nat) : Nat → Act I V → Nat
  | n, .take j => if j = k then n + 1 else n
  | n, .drop j => if j = k then n - 1 else n
  | n, _ => n

def held (k : Nat) (as : List (Act I V)) : Nat := as.foldl (heldStep k) 0

/-- The value of the source of stream `k`. -/
def srcStep (k : Nat) : Option V → Act I V → Option V
  | x, .set j v => if j = k then v else x
  | x, _ => x

def srcAfter (src : Nat → Option V) (k : Nat) (as : List (Act I V)) : Option V := as.foldl (srcStep k) (src k)

/-- What the documentation promises: the value of the stream of the latest item. -/
def Promised (fn : I → Nat) (src : Nat → Option V) (as : List (Act I V)) : Option V :=
  (shown as).bind fun i => srcAfter src (fn i) as

/-- The concat stream has an item that is true, and `k` is its stream. -/
def Uses (truthy : I → Bool) (fn : I → Nat) (k : Nat) (as : List (Act I V)) : Prop :=
  ∃ i, shown as = some i ∧ truthy i = true ∧ fn i = k

/-- After `as`, the event `a` leaves stream `k` for a moment without any reference: the concat stream is the only one that
refers to it and gets another item, or the same one again, or is closed; or the only other client gives it up. -/
def Abandons (truthy : I → Bool) (fn : I → Nat) (k : Nat) (as : List (Act I V)) (a : Act I V) : Prop :=
  (Uses truthy fn k as ∧ held k as = 0 ∧ ((∃ i, a = .item i) ∨ a = .close)) ∨
  (¬ Uses truthy fn k as ∧ held k as = 1 ∧ a = .drop k)

/-- Stream `k` was left without any reference at some moment. -/
def Abandoned (truthy : I → Bool) (fn : I → Nat) (k : Nat) (as : List (Act I V)) : Prop :=
  ∃ pre a post, as = pre ++ a :: post ∧ Abandons truthy fn k pre a

omit [DecidableEq V] in
theorem abandoned_snoc (truthy : I → Bool) (fn : I → Nat) (k : Nat) (as : List (Act I V)) (a : Act I V) :
    Abandoned truthy fn k (as ++ [a]) ↔ Abandoned truthy fn k as ∨ Abandons truthy fn k as a := by
  constructor
  · rintro ⟨pre, b, post, h, hb⟩
    rcases List.eq_nil_or_concat post with rfl | ⟨post', c, rfl⟩
    · obtain ⟨rfl, hab⟩ := List.append_inj' h rfl
      simp only [List.cons.injEq, and_true] at hab
      subst hab
      exact Or.inr hb
    · left
      refine ⟨pre, b, post', ?_, hb⟩
      have : as ++ [a] = (pre ++ b :: post') ++ [c] := by rw [h]; simp
      exact (List.append_inj' this rfl).1
  · rintro (⟨pre, b, post, rfl, hb⟩ | hb)
    · exact ⟨pre, b, post ++ [a], by simp, hb⟩
    · exact ⟨as, a, [], rfl, hb⟩

/-- The state agrees with the specification. -/
structure Ok (truthy : I → Bool) (fn : I → Nat) (src : Nat → Option V) (as : List (Act I V)) (s : State V) : Prop where
  listening : s.listening = (as.foldl shownStep (some none)).isSome
  cur : ∀ k, s.cur = some k ↔ Uses truthy fn k as
  src : ∀ k, s.src k = srcAfter src k as
  others : ∀ k, s.others k = held k as
  refs : ∀ k, s.refs k = held k as + if s.cur = some k then 1 else 0
  alive : ∀ k, s.alive k = true ↔ ¬ Abandoned truthy fn k as
  value : s.value = s.cur.bind s.val
  log : s.log ≠ [] → s.log.getLast? = some s.value

omit [DecidableEq V] in
theorem shown_snoc (as : List (Act I V)) (a : Act I V) :
    (as ++ [a]).foldl shownStep (some none) = shownStep (as.foldl shownStep (some none)) a := by
  rw [List.foldl_append]; rfl

omit [DecidableEq V] in
theorem held_snoc (k : Nat) (as : List (Act I V)) (a : Act I V) : held k (as ++ [a]) = heldStep k (held k as) a := by
  unfold held; rw [List.foldl_append]; rfl

omit [DecidableEq V] in
theorem src_snoc (src : Nat → Option V) (k : Nat) (as : List (Act I V)) (a : Act I V) :
    srcAfter src k (as ++ [a]) = srcStep k (srcAfter src k as) a := by
  unfold srcAfter; rw [List.foldl_append]; rfl

omit [DecidableEq V] in
/-- Events other than items and closing do not change what is used. -/
theorem uses_snoc (truthy : I → Bool) (fn : I → Nat) (k : Nat) (as : List (Act I V)) (a : Act I V)
    (h : ∀ i, a ≠ .item i) (h' : a ≠ .close) : Uses truthy fn k (as ++ [a]) ↔ Uses truthy fn k as := by
  unfold Uses shown
  rw [shown_snoc]
  cases a <;> simp_all [shownStep]

omit [DecidableEq V] in
theorem release_spec (truthy : I → Bool) (fn : I → Nat) (src : Nat → Option V) (as : List (Act I V)) (s : State V)
    (h : Ok truthy fn src as s) :
    s.release.cur = none ∧ s.release.src = s.src ∧ s.release.others = s.others ∧ s.release.listening = s.listening ∧
    s.release.log = s.log ∧ (∀ k, s.release.refs k = held k as) ∧
    ∀ k, s.release.alive k = true ↔ ¬ Abandoned truthy fn k as ∧ ¬ (Uses truthy fn k as ∧ held k as = 0) := by
  unfold State.release
  cases hc : s.cur with
  | none =>
    refine ⟨hc, rfl, rfl, rfl, rfl, fun k => by rw [h.refs, hc]; simp, fun k => ?_⟩
    rw [h.alive, ← h.cur, hc]
    simp
  | some j =>
    have hu : ∀ k, Uses truthy fn k as ↔ k = j := by
      intro k; rw [← h.cur, hc]; simp [eq_comm]
    have hr : ∀ k, s.refs k = held k as + if k = j then 1 else 0 := by
      intro k; rw [h.refs, hc]; simp [eq_comm]
    refine ⟨rfl, rfl, rfl, rfl, rfl, fun k => ?_, fun k => ?_⟩
    · simp only [State.removeRef]
      by_cases hk : k = j
      · subst hk; simp [hr]
      · simp [hr, hk]
    · rw [hu]
      simp only [State.removeRef]
      have hj : s.refs j - 1 = held j as := by rw [hr]; simp
      rw [hj]
      by_cases hk : k = j
      · subst hk
        by_cases h0 : held k as = 0
        · simp [h0]
        · simp only [h0, if_false, h.alive]; simp
      · split_ifs
        · simp only [Function.update_of_ne hk, h.alive, hk]; simp
        · simp only [h.alive, hk]; simp

omit [DecidableEq V] in
/-- The former stream is released, then the next one used. -/
theorem ok_changed (truthy : I → Bool) (fn : I → Nat) (src : Nat → Option V) (as : List (Act I V)) (s : State V)
    (h : Ok truthy fn src as s) (a : Act I V) (i : Option I) (ha : (∃ i, a = .item i) ∨ a = .close) (b : Bool)
    (hb : (shownStep (as.foldl shownStep (some none)) a).isSome = b)
    (hi : (shownStep (as.foldl shownStep (some none)) a).join = i) :
    Ok truthy fn src (as ++ [a]) { s.streamChanged truthy fn i with listening := b } := by
  obtain ⟨r1, r2, r3, r4, r5, r6, r7⟩ := release_spec truthy fn src as s h
  have hu : ∀ k, Uses truthy fn k (as ++ [a]) ↔ ∃ x, i = some x ∧ truthy x = true ∧ fn x = k := by
    intro k; unfold Uses shown; rw [shown_snoc, hi]
  have hheld : ∀ k, held k (as ++ [a]) = held k as := by
    intro k; rw [held_snoc]; rcases ha with ⟨x, rfl⟩ | rfl <;> rfl
  have hsrc : ∀ k, srcAfter src k (as ++ [a]) = srcAfter src k as := by
    intro k; rw [src_snoc]; rcases ha with ⟨x, rfl⟩ | rfl <;> rfl
  have hab : ∀ k, Abandoned truthy fn k (as ++ [a]) ↔ Abandoned truthy fn k as ∨ (Uses truthy fn k as ∧ held k as = 0) := by
    intro k
    rw [abandoned_snoc]
    have : Abandons truthy fn k as a ↔ (Uses truthy fn k as ∧ held k as = 0) := by
      unfold Abandons
      constructor
      · rintro (⟨h1, h2, -⟩ | ⟨-, -, rfl⟩)
        · exact ⟨h1, h2⟩
        · rcases ha with ⟨x, hx⟩ | hx <;> cases hx
      · rintro ⟨h1, h2⟩
        exact Or.inl ⟨h1, h2, ha⟩
    rw [this]
  have halive : ∀ k, s.release.alive k = true ↔ ¬ Abandoned truthy fn k (as ++ [a]) := by
    intro k; rw [r7, hab]; tauto
  have hb' : b = ((as ++ [a]).foldl shownStep (some none)).isSome := by rw [shown_snoc, hb]
  have quiet : (∀ x, i = some x → truthy x = false) →
      Ok truthy fn src (as ++ [a]) { s.release.tell none with listening := b } := by
    intro hq
    refine ⟨hb', fun k => ?_, fun k => ?_, fun k => ?_, fun k => ?_, halive, ?_, fun _ => by simp [State.tell]⟩
    · rw [hu]
      simp only [State.tell, r1, reduceCtorEq, false_iff]
      rintro ⟨x, hx, hx', -⟩
      rw [hq x hx] at hx'; cases hx'
    · rw [hsrc, ← h.src]; simp only [State.tell, r2]
    · rw [hheld, ← h.others]; simp only [State.tell, r3]
    · rw [hheld]; simp [State.tell, r1, r6]
    · simp [State.tell, r1]
  cases i with
  | none => exact quiet (by simp)
  | some x =>
    by_cases hx : truthy x = true
    · simp only [State.streamChanged, hx, if_true]
      refine ⟨hb', fun k => ?_, fun k => ?_, fun k => ?_, fun k => ?_, halive, ?_, fun _ => by simp [State.tell]⟩
      · rw [hu]
        simp [State.tell, hx]
      · rw [hsrc, ← h.src]; simp only [State.tell, State.addRef, r2]
      · rw [hheld, ← h.others]; simp only [State.tell, State.addRef, r3]
      · rw [hheld]
        simp only [State.tell, State.addRef]
        by_cases hk : k = fn x
        · subst hk; simp [r6]
        · simp [Function.update_of_ne hk, r6, Ne.symm hk]
      · simp [State.tell, State.val]
    · simp only [State.streamChanged, hx]
      exact quiet (by rintro y hy; cases hy; simpa using hx)

theorem ok_run (truthy : I → Bool) (fn : I → Nat) (src : Nat → Option V) (as : List (Act I V)) :
    Ok truthy fn src as (run truthy fn src as) := by
  induction as using List.reverseRecOn with
  | nil =>
    refine ⟨rfl, fun k => ?_, fun k => rfl, fun k => rfl, fun k => rfl, fun k => ?_, rfl, fun h => absurd rfl h⟩
    · simp [run, blank, Uses, shown]
    · simp [run, blank, Abandoned]
  | append_singleton as a ih =>
    have hrun : run truthy fn src (as ++ [a]) = (run truthy fn src as).step truthy fn a := by
      unfold run; rw [List.foldl_append]; rfl
    rw [hrun]
    generalize run truthy fn src as = s at ih
    -- events of a closed concat stream
    have dead : s.listening = false → ((∃ i, a = .item i) ∨ a = .close) → Ok truthy fn src (as ++ [a]) s := by
      intro hl ha
      have hn : as.foldl shownStep (some none) = none := by
        have := ih.listening
        rw [hl] at this
        simpa using this.symm
      have hn' : (as ++ [a]).foldl shownStep (some none) = none := by
        rw [shown_snoc, hn]; rcases ha with ⟨x, rfl⟩ | rfl <;> rfl
      have hu : ∀ k, ¬ Uses truthy fn k as := by
        rintro k ⟨i, hi, -⟩; simp [shown, hn] at hi
      have hu' : ∀ k, ¬ Uses truthy fn k (as ++ [a]) := by
        rintro k ⟨i, hi, -⟩; rw [shown, hn'] at hi; cases hi
      have hheld : ∀ k, held k (as ++ [a]) = held k as := by
        intro k; rw [held_snoc]; rcases ha with ⟨x, rfl⟩ | rfl <;> rfl
      have hsrc : ∀ k, srcAfter src k (as ++ [a]) = srcAfter src k as := by
        intro k; rw [src_snoc]; rcases ha with ⟨x, rfl⟩ | rfl <;> rfl
      refine ⟨by rw [hn', hl]; rfl, fun k => ?_, fun k => by rw [hsrc, ih.src], fun k => by rw [hheld, ih.others],
        fun k => by rw [hheld, ih.refs], fun k => ?_, ih.value, ih.log⟩
      · rw [ih.cur]; exact iff_of_false (hu k) (hu' k)
      · rw [ih.alive, abandoned_snoc]
        have : ¬ Abandons truthy fn k as a := by
          rintro (⟨h1, -⟩ | ⟨-, -, rfl⟩)
          · exact hu k h1
          · rcases ha with ⟨x, hx⟩ | hx <;> cases hx
        simp [this]
    cases a with
    | item i =>
      cases hl : s.listening with
      | false => simpa [State.step, hl] using dead hl (Or.inl ⟨i, rfl⟩)
      | true =>
        have hs : (as.foldl shownStep (some none)).isSome = true := by rw [← ih.listening, hl]
        obtain ⟨x, hx⟩ := Option.isSome_iff_exists.1 hs
        have := ok_changed truthy fn src as s ih (.item i) i (Or.inl ⟨i, rfl⟩) true (by rw [hx]; rfl) (by rw [hx]; rfl)
        have e : ({ s.streamChanged truthy fn i with listening := true } : State V) = s.streamChanged truthy fn i := by
          have : (s.streamChanged truthy fn i).listening = true := by
            rw [← hl]
            unfold State.streamChanged State.release
            cases i <;> cases s.cur <;> simp [State.tell, State.addRef, State.removeRef] <;> split_ifs <;> rfl
          rw [← this]
        rw [e] at this
        simpa [State.step, hl] using this
    | set k v =>
      have hu := fun j => uses_snoc truthy fn j as (.set k v : Act I V) (by simp) (by simp)
      have hab : ∀ j, ¬ Abandons truthy fn j as (.set k v : Act I V) := by
        rintro j (⟨-, -, ⟨i, hi⟩ | hi⟩ | ⟨-, -, hi⟩) <;> cases hi
      have hsrc : ∀ j, Function.update s.src k v j = srcAfter src j (as ++ [.set k v]) := by
        intro j
        rw [src_snoc, ← ih.src]
        by_cases hj : j = k
        · subst hj; simp [srcStep]
        · simp [srcStep, Function.update_of_ne hj, Ne.symm hj]
      have hheld : ∀ j, held j (as ++ [(.set k v : Act I V)]) = held j as := fun j => by rw [held_snoc]; rfl
      have hlis : s.listening = ((as ++ [(.set k v : Act I V)]).foldl shownStep (some none)).isSome := by
        rw [shown_snoc, ih.listening]; cases as.foldl shownStep (some none) <;> rfl
      have halive : ∀ j, s.alive j = true ↔ ¬ Abandoned truthy fn j (as ++ [.set k v]) := by
        intro j; rw [ih.alive, abandoned_snoc]; simp [hab j]
      simp only [State.step]
      split_ifs with hc
      · simp only [Bool.and_eq_true, decide_eq_true_eq] at hc
        refine ⟨hlis, fun j => by rw [hu, ← ih.cur]; rfl, hsrc, fun j => by rw [hheld, ← ih.others]; rfl,
          fun j => by rw [hheld]; exact ih.refs j, halive, ?_, fun _ => by simp [State.tell]⟩
        simp [State.tell, hc.2, State.val, hc.1.1]
      · refine ⟨hlis, fun j => by rw [hu, ← ih.cur], hsrc, fun j => by rw [hheld, ← ih.others],
          fun j => by rw [hheld, ← ih.refs], halive, ?_, ih.log⟩
        simp only
        rw [ih.value]
        cases hcur : s.cur with
        | none => rfl
        | some j =>
          simp only [Option.bind_some, State.val]
          by_cases hj : j = k
          · subst hj
            cases hal : s.alive j with
            | false => rfl
            | true =>
              simp only [Bool.and_eq_true, decide_eq_true_eq, hal, hcur, and_true, true_and, not_not] at hc
              simp [hc]
          · simp [Function.update_of_ne hj]
    | take k =>
      have hu := fun j => uses_snoc truthy fn j as (.take k : Act I V) (by simp) (by simp)
      have hab : ∀ j, ¬ Abandons truthy fn j as (.take k : Act I V) := by
        rintro j (⟨-, -, ⟨i, hi⟩ | hi⟩ | ⟨-, -, hi⟩) <;> cases hi
      have hsrc : ∀ j, srcAfter src j (as ++ [.take k]) = srcAfter src j as := fun j => by rw [src_snoc]; rfl
      have hheld : ∀ j, held j (as ++ [(.take k : Act I V)]) = if j = k then held j as + 1 else held j as := by
        intro j; rw [held_snoc]; simp [heldStep, eq_comm]
      have hlis : s.listening = ((as ++ [(.take k : Act I V)]).foldl shownStep (some none)).isSome := by
        rw [shown_snoc, ih.listening]; cases as.foldl shownStep (some none) <;> rfl
      have halive : ∀ j, s.alive j = true ↔ ¬ Abandoned truthy fn j (as ++ [.take k]) := by
        intro j; rw [ih.alive, abandoned_snoc]; simp [hab j]
      refine ⟨hlis, fun j => by rw [hu, ← ih.cur]; rfl, fun j => by rw [hsrc, ← ih.src]; rfl, fun j => ?_, fun j => ?_, halive,
        ih.value, ih.log⟩
      · rw [hheld]
        simp only [State.step]
        by_cases hj : j = k
        · subst hj; simp [ih.others]
        · simp [hj, ih.others]
      · rw [hheld]
        simp only [State.step, State.addRef]
        by_cases hj : j = k
        · subst hj; have := ih.refs j; by_cases hc : s.cur = some j <;> simp [hc] at this ⊢ <;> omega
        · simp only [Function.update_of_ne hj, hj, if_false]; exact ih.refs j
    | drop k =>
      have hu := fun j => uses_snoc truthy fn j as (.drop k : Act I V) (by simp) (by simp)
      have hab : ∀ j, Abandons truthy fn j as (.drop k : Act I V) ↔ j = k ∧ ¬ Uses truthy fn j as ∧ held j as = 1 := by
        intro j
        constructor
        · rintro (⟨-, -, ⟨i, hi⟩ | hi⟩ | ⟨h1, h2, hi⟩)
          · cases hi
          · cases hi
          · cases hi; exact ⟨rfl, h1, h2⟩
        · rintro ⟨rfl, h1, h2⟩; exact Or.inr ⟨h1, h2, rfl⟩
      have hsrc : ∀ j, srcAfter src j (as ++ [.drop k]) = srcAfter src j as := fun j => by rw [src_snoc]; rfl
      have hheld : ∀ j, held j (as ++ [(.drop k : Act I V)]) = if j = k then held j as - 1 else held j as := by
        intro j; rw [held_snoc]; simp [heldStep, eq_comm]
      have hlis : s.listening = ((as ++ [(.drop k : Act I V)]).foldl shownStep (some none)).isSome := by
        rw [shown_snoc, ih.listening]; cases as.foldl shownStep (some none) <;> rfl
      simp only [State.step]
      split_ifs with h0
      · rw [ih.others] at h0
        refine ⟨hlis, fun j => by rw [hu, ← ih.cur], fun j => by rw [hsrc, ← ih.src], fun j => ?_, fun j => ?_, fun j => ?_,
          ih.value, ih.log⟩
        · rw [hheld, ih.others]; split_ifs with hj
          · subst hj; omega
          · rfl
        · rw [hheld, ih.refs]; by_cases hj : j = k
          · subst hj; simp [h0]
          · simp [hj]
        · rw [ih.alive, abandoned_snoc, hab]
          have : ¬ (j = k ∧ ¬ Uses truthy fn j as ∧ held j as = 1) := by rintro ⟨rfl, -, h⟩; omega
          simp [this]
      · rw [ih.others] at h0
        have hrk : s.refs k - 1 = 0 ↔ ¬ Uses truthy fn k as ∧ held k as = 1 := by
          rw [ih.refs, ← ih.cur]
          split_ifs with hc
          · simp [hc]; omega
          · simp [hc]; omega
        refine ⟨hlis, fun j => by rw [hu, ← ih.cur]; rfl, fun j => by rw [hsrc, ← ih.src]; rfl, fun j => ?_, fun j => ?_,
          fun j => ?_, ?_, ih.log⟩
        · rw [hheld]
          by_cases hj : j = k
          · subst hj; simp [ih.others]
          · simp [hj, ih.others]
        · rw [hheld]
          simp only [State.removeRef]
          by_cases hj : j = k
          · subst hj; have := ih.refs j; by_cases hc : s.cur = some j <;> simp [hc] at this ⊢ <;> omega
          · simp only [Function.update_of_ne hj, hj, if_false]; exact ih.refs j
        · rw [abandoned_snoc, hab]
          simp only [State.removeRef]
          by_cases hj : j = k
          · subst hj
            split_ifs with hz
            · simp [hrk.1 hz]
            · rw [hrk] at hz; rw [ih.alive]; simp [hz]
          · have : Function.update s.alive k false j = s.alive j := Function.update_of_ne hj _ _
            split_ifs
            · rw [this, ih.alive]; simp [hj]
            · rw [ih.alive]; simp [hj]
        · simp only [State.removeRef]
          rw [ih.value]
          cases hcur : s.cur with
          | none => rfl
          | some j =>
            simp only [Option.bind_some, State.val]
            by_cases hz : s.refs k - 1 = 0
            · have hj : j ≠ k := by
                rintro rfl
                exact (hrk.1 hz).1 ((ih.cur j).1 hcur)
              simp [hz, Function.update_of_ne hj]
            · simp [hz]
    | close =>
      cases hl : s.listening with
      | false => simpa [State.step, hl] using dead hl (Or.inr rfl)
      | true =>
        have := ok_changed truthy fn src as s ih .close none (Or.inr rfl) false
          (by cases as.foldl shownStep (some none) <;> rfl) (by cases as.foldl shownStep (some none) <;> rfl)
        simpa [State.step, hl] using this

omit [DecidableEq V] in
theorem shown_from (l : List (Act I V)) (z : Option (Option I)) (x : I) (h : (l.foldl shownStep z).join = some x) :
    .item (some x) ∈ l ∨ z = some (some x) := by
  induction l generalizing z with
  | nil =>
    right
    cases z with
    | none => cases h
    | some z => exact congrArg some h
  | cons a l ih =>
    rcases ih _ h with h | h
    · exact Or.inl (List.mem_cons_of_mem _ h)
    · cases z with
      | none => cases a <;> cases h
      | some z =>
        cases a with
        | item j => cases h; exact Or.inl (List.mem_cons_self ..)
        | close => cases h
        | _ => exact Or.inr h

omit [DecidableEq V] in
theorem shown_mem (l : List (Act I V)) (x : I) (h : shown l = some x) : .item (some x) ∈ l := by
  rcases shown_from l _ x h with h | h
  · exact h
  · cases h

omit [DecidableEq V] in
theorem shown_item (pre post : List (Act I V)) (j : Option I) (x : I) (h : shown (pre ++ .item j :: post) = some x) :
    .item (some x) ∈ (.item j :: post : List (Act I V)) := by
  unfold shown at h
  rw [List.foldl_append, List.foldl_cons] at h
  rcases shown_from post _ x h with h | h
  · exact List.mem_cons_of_mem _ h
  · cases hz : pre.foldl shownStep (some none) with
    | none => rw [hz] at h; cases h
    | some z => rw [hz] at h; cases h; exact List.mem_cons_self ..

omit [DecidableEq V] in
theorem shown_close (pre post : List (Act I V)) : shown (pre ++ .close :: post) = none := by
  unfold shown
  rw [List.foldl_append, List.foldl_cons]
  have h0 : shownStep (pre.foldl shownStep (some none)) (.close : Act I V) = none := by
    cases pre.foldl shownStep (some none) <;> rfl
  rw [h0]
  have : post.foldl shownStep (none : Option (Option I)) = none := by
    induction post with
    | nil => rfl
    | cons a l ih => cases a <;> exact ih
  rw [this]; rfl

theorem log_step (truthy : I → Bool) (fn : I → Nat) (s : State V) (a : Act I V) (h : s.log ≠ []) :
    (s.step truthy fn a).log ≠ [] := by
  have hc : ∀ i, (s.streamChanged truthy fn i).log ≠ [] := by
    intro i; cases i <;> simp only [State.streamChanged] <;> (try split_ifs) <;> simp [State.tell]
  cases a with
  | item i => simp only [State.step]; split_ifs; exacts [hc i, h]
  | set k v => simp only [State.step]; split_ifs; exacts [by simp [State.tell], h]
  | take k => exact h
  | drop k => simp only [State.step]; split_ifs; exacts [h, h]
  | close => simp only [State.step]; split_ifs; exacts [hc none, h]

theorem log_ne (truthy : I → Bool) (fn : I → Nat) (src : Nat → Option V) (i : Option I) (as : List (Act I V)) :
    (run truthy fn src (.item i :: as)).log ≠ [] := by
  have : ∀ (l : List (Act I V)) (s : State V), s.log ≠ [] → (l.foldl (State.step truthy fn) s).log ≠ [] := by
    intro l
    induction l with
    | nil => exact fun _ h => h
    | cons a l ih => exact fun s h => ih _ (log_step truthy fn s a h)
  refine this as _ ?_
  cases i <;> simp only [State.step, blank, if_true, State.streamChanged] <;> (try split_ifs) <;> simp [State.tell]

/-- C161: after every history the value of a concat stream is the value of the stream of the latest item as long as that item
is true and its stream was never left without a reference, and `None` otherwise. The value is also what it fired last. -/
theorem C161_value (truthy : I → Bool) (fn : I → Nat) (src : Nat → Option V) (i : Option I) (as : List (Act I V)) :
    let s := run truthy fn src (.item i :: as)
    (∀ x, shown (.item i :: as) = some x → truthy x = true → ¬ Abandoned truthy fn (fn x) (.item i :: as) →
      s.value = srcAfter src (fn x) (.item i :: as)) ∧
    (∀ x, shown (.item i :: as) = some x → truthy x = false ∨ Abandoned truthy fn (fn x) (.item i :: as) → s.value = none) ∧
    (shown (.item i :: as) = none → s.value = none) ∧
    s.log.getLast? = some s.value := by
  have h := ok_run truthy fn src (.item i :: as)
  intro s
  have hcur : ∀ x, shown (.item i :: as) = some x → truthy x = true → s.value = s.val (fn x) := by
    intro x hx hx'
    have : s.cur = some (fn x) := (h.cur _).2 ⟨x, hx, hx', rfl⟩
    rw [h.value, this]; rfl
  have hnone : (∀ x, shown (.item i :: as) = some x → truthy x = false) → s.value = none := by
    intro hx
    have : s.cur = none := by
      cases hc : s.cur with
      | none => rfl
      | some k =>
        obtain ⟨x, h1, h2, -⟩ := (h.cur k).1 hc
        rw [hx x h1] at h2; cases h2
    rw [h.value, this]; rfl
  refine ⟨fun x hx hx' ha => ?_, fun x hx hx' => ?_, fun hn => hnone (by simp [hn]), h.log (log_ne truthy fn src i as)⟩
  · rw [hcur x hx hx', State.val, (h.alive _).2 ha, if_pos rfl, h.src]
  · cases ht : truthy x with
    | false =>
      refine hnone fun y hy => ?_
      rw [hx] at hy; cases hy; exact ht
    | true =>
      have ha : Abandoned truthy fn (fn x) (.item i :: as) := by
        rcases hx' with e | e
        · rw [ht] at e; cases e
        · exact e
      have : s.alive (fn x) = false := by
        cases e : s.alive (fn x) with
        | false => rfl
        | true => exact absurd ha ((h.alive _).1 e)
      rw [hcur x hx ht, State.val, this]; rfl

/-- C161, exactly: the promise is kept in those histories only. -/
theorem C161_iff_partial (truthy : I → Bool) (fn : I → Nat) (src : Nat → Option V) (i : Option I) (as : List (Act I V)) :
    (run truthy fn src (.item i :: as)).value = Promised fn src (.item i :: as) ↔
      ∀ x, shown (.item i :: as) = some x → srcAfter src (fn x) (.item i :: as) ≠ none →
        truthy x = true ∧ ¬ Abandoned truthy fn (fn x) (.item i :: as) := by
  obtain ⟨h1, h2, h3, -⟩ := C161_value truthy fn src i as
  unfold Promised
  cases hs : shown (.item i :: as) with
  | none => simp [h3 hs]
  | some x =>
    simp only [Option.bind_some, Option.some.injEq, forall_eq']
    constructor
    · intro hv hne
      by_contra hc
      rw [h2 x hs (by
        by_cases ht : truthy x = true
        · exact Or.inr (by by_contra ha; exact hc ⟨ht, ha⟩)
        · exact Or.inl (by simpa using ht))] at hv
      exact hne hv.symm
    · intro hp
      by_cases hne : srcAfter src (fn x) (.item i :: as) = none
      · rw [hne]
        by_cases ht : truthy x = true ∧ ¬ Abandoned truthy fn (fn x) (.item i :: as)
        · rw [h1 x hs ht.1 ht.2, hne]
        · refine h2 x hs ?_
          by_cases ht' : truthy x = true
          · exact Or.inr (by by_contra ha; exact ht ⟨ht', ha⟩)
          · exact Or.inl (by simpa using ht')
      · exact h1 x hs (hp hne).1 (hp hne).2

/-- C161: the promise is kept when every item is true and has a stream of its own, and nobody else gives up a reference. -/
theorem C161_fresh_partial (truthy : I → Bool) (fn : I → Nat) (src : Nat → Option V) (i : Option I) (as : List (Act I V))
    (ht : ∀ x, .item (some x) ∈ (.item i :: as : List (Act I V)) → truthy x = true)
    (hd : ∀ k, .drop k ∉ as)
    (hn : (((.item i :: as : List (Act I V)).filterMap fun a => match a with | .item (some x) => some (fn x) | _ => none)).Nodup) :
    (run truthy fn src (.item i :: as)).value = Promised fn src (.item i :: as) := by
  rw [C161_iff_partial]
  intro x hx _
  refine ⟨ht x (shown_mem _ x hx), ?_⟩
  rintro ⟨pre, a, post, he, ⟨⟨y, hy, -, hk⟩, -, ⟨j, rfl⟩ | rfl⟩ | ⟨-, -, rfl⟩⟩
  · rw [he] at hx hn
    rw [List.filterMap_append, List.nodup_append] at hn
    refine hn.2.2 (fn y) ?_ (fn x) ?_ hk
    · exact List.mem_filterMap.2 ⟨_, shown_mem _ y hy, rfl⟩
    · exact List.mem_filterMap.2 ⟨_, shown_item pre post j x hx, rfl⟩
  · rw [he, shown_close] at hx; cases hx
  · have : Act.drop (fn x) ∈ (.item i :: as : List (Act I V)) := by rw [he]; simp
    rw [List.mem_cons] at this
    rcases this with e | e
    · cases e
    · exact hd _ e

/-- C161: it is also kept when every item is true and somebody else refers to its stream while the concat stream uses it, and
does not give up the reference. -/
theorem C161_held_partial (truthy : I → Bool) (fn : I → Nat) (src : Nat → Option V) (i : Option I) (as : List (Act I V))
    (ht : ∀ x, .item (some x) ∈ (.item i :: as : List (Act I V)) → truthy x = true)
    (hd : ∀ k, .drop k ∉ as)
    (hh : ∀ pre a post x, .item i :: as = pre ++ a :: post → shown pre = some x → (∃ j, a = .item j) → 0 < held (fn x) pre) :
    (run truthy fn src (.item i :: as)).value = Promised fn src (.item i :: as) := by
  rw [C161_iff_partial]
  intro x hx _
  refine ⟨ht x (shown_mem _ x hx), ?_⟩
  rintro ⟨pre, a, post, he, ⟨⟨y, hy, -, hk⟩, h0, ⟨j, rfl⟩ | rfl⟩ | ⟨-, -, rfl⟩⟩
  · have := hh pre _ post y he hy ⟨j, rfl⟩
    rw [hk] at this; omega
  · rw [he, shown_close] at hx; cases hx
  · have : Act.drop (fn x) ∈ (.item i :: as : List (Act I V)) := by rw [he]; simp
    rw [List.mem_cons] at this
    rcases this with e | e
    · cases e
    · exact hd _ e

/-- C161: the concat stream has one reference to the stream that it uses and none to any other, besides those of the other
clients. -/
theorem C161_references (truthy : I → Bool) (fn : I → Nat) (src : Nat → Option V) (i : Option I) (as : List (Act I V)) (k : Nat) :
    let s := run truthy fn src (.item i :: as)
    (Uses truthy fn k (.item i :: as) → s.refs k = held k (.item i :: as) + 1) ∧
    (¬ Uses truthy fn k (.item i :: as) → s.refs k = held k (.item i :: as)) := by
  have h := ok_run truthy fn src (.item i :: as)
  intro s
  refine ⟨fun hu => ?_, fun hu => ?_⟩
  · rw [h.refs, if_pos ((h.cur k).2 hu)]
  · rw [h.refs, if_neg (fun hc => hu ((h.cur k).1 hc)), Nat.add_zero]

/-- C161 is false of the code: when an item comes back, its stream (to which nobody else refers) is closed, so the concat
stream has the value `None` and misses the changes of the stream. -/
theorem C161_counterexample :
    let s := run (V := Nat) (fun _ : Nat => true) id (fun k => some (10 * k))
      [.item (some 1), .item (some 2), .item (some 1), .set 1 (some 11)]
    s.value = none ∧ s.log = [some 10, some 20, none] ∧
    Promised id (fun k => some (10 * k)) [.item (some 1), .item (some 2), .item (some 1), (.set 1 (some 11) : Act Nat Nat)] = some 11 := by
  decide

/-- C161 is false of the code when an item is false: an item `0` counts as no item. -/
theorem C161_counterexample_false :
    let s := run (V := Nat) (fun x : Nat => x != 0) id (fun k => some (10 * k + 5)) [.item (some 1), .item (some 0)]
    s.value = none ∧
    Promised id (fun k => some (10 * k + 5)) [.item (some 1), (.item (some 0) : Act Nat Nat)] = some 5 := by
  decide

/-- Somebody else refers to stream 1: it survives. -/
example :
    let s := run (V := Nat) (fun x : Nat => x != 0) id (fun k => some (10 * k))
      [.item (some 1), .take 1, .item (some 2), .set 1 (some 12), .item (some 1), .set 1 (some 11), .drop 1, .set 1 (some 13), .close]
    s.log = [some 10, some 20, some 12, some 11, some 13, none] ∧ s.refs 1 = 0 := by decide

end Verif.Stream.ConcatAgain
