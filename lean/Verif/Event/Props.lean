import Verif.Event.Lemmas

/-!
Properties C09-C13 of `Event`. The theorems hold for every behaviour `beh` of the listener functions (arbitrary re-entrant
programs), every recursion depth, and every world satisfying the invariant `Inv`, which holds throughout every execution
(`C13_listener_count` for the state after any client program, `Inv` is also preserved by every single command).
-/

namespace Verif.Event

open Verif.Py

/-- The listeners whose functions a fire called, in order (nested fires have other numbers). -/
def callsOf (fid : Nat) (l : List Ev) : List Tok :=
  l.filterMap fun
    | .call i t _ => if i = fid then some t else none
    | _ => none

/-- The results of the listener functions called by a fire, in order. -/
def resultsOf (fid : Nat) (l : List Ev) : List Res :=
  l.filterMap fun
    | .ret i _ r => if i = fid then some r else none
    | _ => none

theorem callsOf_own (fid : Nat) (l : List Ev) : callsOf fid (own fid l) = callsOf fid l := by
  unfold callsOf own
  rw [List.filterMap_filter]
  congr 1
  funext e
  cases e <;> simp [Ev.fid?] <;> (intros; simp_all)

theorem resultsOf_own (fid : Nat) (l : List Ev) : resultsOf fid (own fid l) = resultsOf fid l := by
  unfold resultsOf own
  rw [List.filterMap_filter]
  congr 1
  funext e
  cases e <;> simp [Ev.fid?] <;> (intros; simp_all)

theorem callsOf_append (fid : Nat) (l m : List Ev) : callsOf fid (l ++ m) = callsOf fid l ++ callsOf fid m := by
  simp [callsOf]

theorem resultsOf_append (fid : Nat) (l m : List Ev) : resultsOf fid (l ++ m) = resultsOf fid l ++ resultsOf fid m := by
  simp [resultsOf]

theorem callsOf_turns (fid : Nat) (turns : List Turn) :
    callsOf fid (turns.flatMap (turnEvents fid)) =
      (turns.filter (fun x => x.2.isSome)).map Prod.fst := by
  induction turns with
  | nil => rfl
  | cons x turns ih =>
    obtain ⟨t, o⟩ := x
    rw [List.flatMap_cons, callsOf_append, ih]
    cases o with
    | none => simp [turnEvents, callsOf]
    | some fr => simp [turnEvents, callsOf]

theorem resultsOf_turns (fid : Nat) (turns : List Turn) :
    resultsOf fid (turns.flatMap (turnEvents fid)) = turns.filterMap (fun x => x.2.map Prod.snd) := by
  induction turns with
  | nil => rfl
  | cons x turns ih =>
    obtain ⟨t, o⟩ := x
    rw [List.flatMap_cons, resultsOf_append, ih]
    cases o with
    | none => simp [turnEvents, resultsOf]
    | some fr => simp [turnEvents, resultsOf]

theorem fireSpec_calls {k w v w' turns evs} (s : FireSpec k w v w' turns evs) :
    callsOf w.nextFire evs = (turns.filter (fun x => x.2.isSome)).map Prod.fst := by
  rw [← callsOf_own, s.own_evs]
  have : (Ev.fireBegin w.nextFire k w.weak :: turns.flatMap (turnEvents w.nextFire) ++ [Ev.fireEnd w.nextFire v]) =
    [Ev.fireBegin w.nextFire k w.weak] ++ turns.flatMap (turnEvents w.nextFire) ++ [Ev.fireEnd w.nextFire v] := by simp
  rw [this, callsOf_append, callsOf_append, callsOf_turns]
  simp [callsOf]

theorem fireSpec_results {k w v w' turns evs} (s : FireSpec k w v w' turns evs) :
    resultsOf w.nextFire evs = turns.filterMap (fun x => x.2.map Prod.snd) := by
  rw [← resultsOf_own, s.own_evs]
  have : (Ev.fireBegin w.nextFire k w.weak :: turns.flatMap (turnEvents w.nextFire) ++ [Ev.fireEnd w.nextFire v]) =
    [Ev.fireBegin w.nextFire k w.weak] ++ turns.flatMap (turnEvents w.nextFire) ++ [Ev.fireEnd w.nextFire v] := by simp
  rw [this, resultsOf_append, resultsOf_append, resultsOf_turns]
  simp [resultsOf]

theorem mem_called {turns : List Turn} {t : Tok} :
    t ∈ (turns.filter (fun x => x.2.isSome)).map Prod.fst ↔ ∃ f r, (t, some (f, r)) ∈ turns := by
  constructor
  · intro h
    obtain ⟨⟨u, o⟩, h1, rfl⟩ := List.mem_map.1 h
    obtain ⟨h1, h2⟩ := List.mem_filter.1 h1
    cases o with
    | none => simp at h2
    | some fr => exact ⟨fr.1, fr.2, h1⟩
  · rintro ⟨f, r, h⟩
    exact List.mem_map.2 ⟨_, List.mem_filter.2 ⟨h, rfl⟩, rfl⟩

/-! ### C09 -/

/-- C09: `fire` on a state with listeners `w.weak` (in order of attachment). Let `evs` be what happens during the fire.
The calls made by this fire are, in order and without repetition, some of those listeners, each with the function it was
attached with; and if no call raises, every listener of `w.weak` that is not called has no function at the end: it was
closed during the fire or had no function to begin with. Listeners attached during the fire are not in `w.weak`, so they
are not called. -/
theorem C09_fire_in_order_once (beh : Fn → World → Prog) (depth : Nat) (w : World) (h : Inv w) :
    ∃ evs, (fireEvent beh depth .fire w).2.trace = w.trace ++ evs ∧
      (callsOf w.nextFire evs).Sublist w.weak ∧ w.weak.Nodup ∧
      (∀ t f, Ev.call w.nextFire t f ∈ evs → w.fn t = some f) ∧
      ((∀ e, Res.raise e ∉ resultsOf w.nextFire evs) →
        ∀ t ∈ w.weak, t ∉ callsOf w.nextFire evs →
          w.fn t = none ∨ ((fireEvent beh depth .fire w).2.fn t = none ∧ Ev.closed t ∈ evs)) := by
  have hnd : w.weak.Nodup := h.sorted.imp (fun h => Nat.ne_of_lt h)
  by_cases hne : w.weak = []
  · have : fireEvent beh depth .fire w = (none, w) := by unfold fireEvent fireWith; rw [if_pos hne]
    rw [this]
    exact ⟨[], by simp, by simp [callsOf], hnd, by simp, by simp [hne]⟩
  · obtain ⟨turns, evs, s⟩ := fireWith_spec (callFn_ok beh depth) .fire h hne
    refine ⟨evs, s.trace, ?_, hnd, ?_, ?_⟩
    · rw [fireSpec_calls s]
      have h1 : ((turns.filter (fun x => x.2.isSome)).map Prod.fst).Sublist (turns.map Prod.fst) :=
        (List.filter_sublist).map _
      rcases s.ends with ⟨h2, _⟩ | ⟨_, _, rest, _, _, h2, _⟩
      · rw [← h2]; exact h1
      · rw [h2]; exact h1.trans (List.sublist_append_left _ _)
    · intro t f hcall
      have : Ev.call w.nextFire t f ∈ own w.nextFire evs := by simp [own, hcall, Ev.fid?]
      rw [s.own_evs] at this
      simp only [List.cons_append, List.mem_cons, reduceCtorEq, List.mem_append, List.mem_flatMap, List.not_mem_nil,
        false_or, or_false] at this
      obtain ⟨⟨u, o⟩, hx, he⟩ := this
      cases o with
      | none => simp [turnEvents] at he
      | some fr =>
        obtain ⟨f', r⟩ := fr
        simp [turnEvents] at he
        obtain ⟨rfl, rfl⟩ := he
        exact s.called t f r hx
    · intro hnr t ht hnc
      rw [fireSpec_calls s, mem_called] at hnc
      rw [fireSpec_results s] at hnr
      have hall : turns.map Prod.fst = w.weak := by
        rcases s.ends with ⟨h2, _⟩ | ⟨init, last, rest, o, h2, _, _, h3, _⟩
        · exact h2
        · exfalso
          obtain ⟨u, q⟩ := last
          cases q with
          | none => simp [stops] at h3
          | some fr =>
            obtain ⟨f, r⟩ := fr
            cases r with
            | ret b => simp [stops] at h3
            | raise e =>
              apply hnr e
              rw [h2]
              simp
      rw [← hall] at ht
      obtain ⟨⟨u, o⟩, hx, rfl⟩ := List.mem_map.1 ht
      cases o with
      | some fr => exact absurd ⟨fr.1, fr.2, hx⟩ hnc
      | none =>
        have hv := s.void u hx
        have hlt : u < w.next := ((h.weak_iff u).1 (by rw [← hall]; exact ht)).1
        rcases s.fn_mono u hlt with h1 | h1
        · left; rw [← h1]; exact hv
        · right; exact h1

/-! ### C10 -/

/-- C10: in every execution of every client program with every listener behaviour, no listener function is called (by
`fire`, `fire_any` or `fire_all`) after its token was closed (by `close` or because its owner is gone) or collected. -/
theorem C10_no_call_after_close (beh : Fn → World → Prog) (depth : Nat) (p : Prog) (i j : Nat) (t : Tok)
    (hij : i < j) (hi : (runClient beh depth p).2.trace[i]? = some (.closed t) ∨
      (runClient beh depth p).2.trace[i]? = some (.collected t)) (fid : Nat) (f : Fn) :
    (runClient beh depth p).2.trace[j]? ≠ some (.call fid t f) := by
  intro hj
  have hno := (runClient_inv beh depth p).no_call
  rw [List.pairwise_iff_getElem] at hno
  obtain ⟨hj1, hj2⟩ := List.getElem?_eq_some_iff.1 hj
  have hi1 : i < (runClient beh depth p).2.trace.length := by omega
  have := hno i j hi1 hj1 hij
  refine this t ?_ fid f hj2
  rcases hi with hi | hi
  · left; obtain ⟨_, h⟩ := List.getElem?_eq_some_iff.1 hi; exact h
  · right; obtain ⟨_, h⟩ := List.getElem?_eq_some_iff.1 hi; exact h

/-- C10: `close` takes effect at once and for good: whatever runs afterwards, the token's function stays void. -/
theorem C10_close_is_final (beh : Fn → World → Prog) (depth : Nat) (w : World) (h : Inv w) (t : Tok) (ht : t < w.next)
    (p : Prog) : (execProg (fireEvent beh depth) p (doClose w t)).2.fn t = none := by
  have h1 := doClose_ok h t
  have h2 := execProg_ok (fireEvent_ok beh depth) p h1.1
  have hn : (doClose w t).fn t = none := by unfold doClose; rw [if_pos ht]; simp
  have hlt : t < (doClose w t).next := lt_of_lt_of_le ht h1.2.next_le
  obtain ⟨_, _, _, hm⟩ := h2.2.trace
  rcases hm t hlt with h3 | h3
  · rw [h3, hn]
  · exact h3.1

/-! A small client used as a witness: two listeners with functions 0 and 1, then a fire. -/

def twoListeners (k : Kind) (after : Option Bool → Prog) : Prog :=
  .act (.listen (some 0) none false) fun _ =>
  .act (.listen (some 1) none false) fun _ =>
  .act (.fire k) fun r => match r with
    | .val v => after v
    | _ => .done (.ret true)

def finish : Option Bool → Prog := fun _ => .done (.ret true)

/-- function 0 closes the second token during the fire -/
def closing : Fn → World → Prog
  | 0, _ => .act (.close 1) fun _ => .done (.ret true)
  | _, _ => .done (.ret true)

/-- non-vacuous: the trace of a run in which a token is closed during the fire -/
example : (runClient closing 10 (twoListeners .fire finish)).2.trace =
    [.listen 0, .listen 1, .fireBegin 0 .fire [0, 1], .call 0 0 0, .closed 1, .ret 0 0 (.ret true),
      .fireEnd 0 none] := by decide

/-- everybody returns true -/
def agreeing : Fn → World → Prog := fun _ _ => .done (.ret true)

example : callsOf 0 (runClient agreeing 10 (twoListeners .fire finish)).2.trace = [0, 1] := by decide

/-! ### C11 -/

/-- function 0 raises -/
def raising : Fn → World → Prog
  | 0, _ => .done (.raise (.user 7))
  | _, _ => .done (.ret true)

/-- C11 is false of the code: a listener that raises keeps the following ones from being called, although none of them
is closed ("Calls listeners (in order added) unconditionally", Event.py:104; the `try` is outside the loop). -/
theorem C11_raising_does_not_affect_others_counterexample :
    ¬ ∀ (beh : Fn → World → Prog) (depth : Nat) (w : World), Inv w →
      ∀ t ∈ w.weak, w.fn t ≠ none → (fireEvent beh depth .fire w).2.fn t ≠ none →
        t ∈ callsOf w.nextFire (fireEvent beh depth .fire w).2.trace := by
  intro h
  let w := doListen (doListen World.init (some 0) none false) (some 1) none false
  have hw : Inv w := (doListen_ok (doListen_ok Inv.init (some 0) none false).1 (some 1) none false).1
  have := h raising 10 w hw 1 (by decide) (by decide) (by decide)
  revert this
  decide

/-- C11, the part that holds: `fire` itself never raises (it always gives a value and a state: exceptions of listener
functions end in it), and the listeners of the snapshot are served in order up to and including the first one that
raises: the snapshot is `served ++ rest` where everybody in `served` was called or has no function any more, nobody in
`rest` is called, and `rest` is empty unless the last call of this fire raised. Missing: calling `rest` after an
exception. -/
theorem C11_raising_does_not_affect_others_partial (beh : Fn → World → Prog) (depth : Nat) (w : World) (h : Inv w) :
    ∃ evs served rest, (fireEvent beh depth .fire w).2.trace = w.trace ++ evs ∧ w.weak = served ++ rest ∧
      (fireEvent beh depth .fire w).1 = none ∧
      (∀ t ∈ served, t ∈ callsOf w.nextFire evs ∨ (fireEvent beh depth .fire w).2.fn t = none) ∧
      (∀ t ∈ rest, t ∉ callsOf w.nextFire evs) ∧
      (rest ≠ [] → ∃ e, (resultsOf w.nextFire evs).getLast? = some (.raise e)) := by
  by_cases hne : w.weak = []
  · have : fireEvent beh depth .fire w = (none, w) := by unfold fireEvent fireWith; rw [if_pos hne]
    rw [this]
    exact ⟨[], [], [], by simp, hne, rfl, by simp, by simp, by simp⟩
  · obtain ⟨turns, evs, s⟩ := fireWith_spec (callFn_ok beh depth) .fire h hne
    have hv : (fireEvent beh depth .fire w).1 = none := by
      show (fireWith (callFn beh depth) .fire w).1 = none
      rcases s.ends with ⟨_, _, h2⟩ | ⟨_, _, _, o, _, _, _, _, h2⟩ <;> rw [h2] <;> rfl
    have hnd : w.weak.Nodup := h.sorted.imp (fun h => Nat.ne_of_lt h)
    have hserved : ∀ t ∈ turns.map Prod.fst,
        t ∈ callsOf w.nextFire evs ∨ (fireEvent beh depth .fire w).2.fn t = none := by
      intro t ht
      obtain ⟨⟨u, o⟩, hx, rfl⟩ := List.mem_map.1 ht
      cases o with
      | none => right; exact s.void u hx
      | some fr => left; rw [fireSpec_calls s, mem_called]; exact ⟨fr.1, fr.2, hx⟩
    have hcalled : ∀ t, t ∈ callsOf w.nextFire evs → t ∈ turns.map Prod.fst := by
      intro t ht
      rw [fireSpec_calls s, mem_called] at ht
      obtain ⟨f, r, hx⟩ := ht
      exact List.mem_map.2 ⟨_, hx, rfl⟩
    rcases s.ends with ⟨h2, _⟩ | ⟨init, last, rest, o, h2, h3, _, h4, _⟩
    · exact ⟨evs, w.weak, [], s.trace, by simp, hv, fun t ht => hserved t (by rw [h2]; exact ht), by simp, by simp⟩
    · refine ⟨evs, turns.map Prod.fst, rest, s.trace, h3, hv, hserved, ?_, ?_⟩
      · intro t ht hc
        rw [h3, List.nodup_append] at hnd
        exact hnd.2.2 t (hcalled t hc) t ht rfl
      · intro _
        obtain ⟨u, q⟩ := last
        cases q with
        | none => simp [stops] at h4
        | some fr =>
          obtain ⟨f, r⟩ := fr
          cases r with
          | ret b => simp [stops] at h4
          | raise e =>
            refine ⟨e, ?_⟩
            rw [fireSpec_results s, h2]
            simp

/-- three listeners, the second raises: the first is served, the third is the rest -/
example : callsOf 0 (fireEvent (fun f _ => if f = 1 then .done (.raise (.user 3)) else .done (.ret true)) 5 .fire
    (doListen (doListen (doListen World.init (some 0) none false) (some 1) none false) (some 2) none false)).2.trace
    = [0, 1] := by decide

/-! ### C12 -/

/-- C12 is false of the code for an event without listeners (both return `None`, so `fire_all` is not true), and for
`fire_all` when a listener was closed but its token is still referenced (`void` returns `None`). -/
theorem C12_any_all_counterexample :
    (fireEvent agreeing 10 .any World.init).1 ≠ some false ∧
    (fireEvent agreeing 10 .all World.init).1 ≠ some true ∧
    (fireEvent agreeing 10 .all
      (doClose (doListen (doListen World.init (some 0) none false) (some 1) none false) 0)).1 = some false := by
  decide

/-- C12, the part that holds: with at least one listener, if no listener function raises, `fire_any` returns `True` and
stops at the first true result, and otherwise returns `False` with every result false. Missing: `fire_any` without
listeners or after an exception, where the value is `None`. -/
theorem C12_fire_any_partial (beh : Fn → World → Prog) (depth : Nat) (w : World) (h : Inv w) (hne : w.weak ≠ []) :
    ∃ evs, (fireEvent beh depth .any w).2.trace = w.trace ++ evs ∧
      ((∀ e, Res.raise e ∉ resultsOf w.nextFire evs) →
        ((fireEvent beh depth .any w).1 = some true ∧
          ∃ fs, (∀ r ∈ fs, r = Res.ret false) ∧ resultsOf w.nextFire evs = fs ++ [.ret true]) ∨
        ((fireEvent beh depth .any w).1 = some false ∧
          (∀ r ∈ resultsOf w.nextFire evs, r = .ret false) ∧
          ∀ t ∈ w.weak, t ∈ callsOf w.nextFire evs ∨ (fireEvent beh depth .any w).2.fn t = none)) := by
  obtain ⟨turns, evs, s⟩ := fireWith_spec (callFn_ok beh depth) .any h hne
  refine ⟨evs, s.trace, ?_⟩
  intro hnr
  rw [fireSpec_results s] at hnr ⊢
  have hfalse : ∀ l : List Turn, (∀ x ∈ l, stops .any x.2 = none) →
      ∀ r ∈ l.filterMap (fun x => x.2.map Prod.snd), r = Res.ret false := by
    intro l hl r hr
    obtain ⟨⟨u, o⟩, hx, ho⟩ := List.mem_filterMap.1 hr
    have := hl _ hx
    cases o with
    | none => simp at ho
    | some fr =>
      obtain ⟨f, r'⟩ := fr
      simp at ho; subst ho
      cases r' with
      | raise e => simp [stops] at this
      | ret b => cases b <;> simp [stops] at this ⊢
  rcases s.ends with ⟨h2, h3, h4⟩ | ⟨init, last, rest, o, h2, h3, h4, h5, h6⟩
  · right
    refine ⟨h4, hfalse turns h3, ?_⟩
    intro t ht
    rw [← h2] at ht
    obtain ⟨⟨u, o⟩, hx, rfl⟩ := List.mem_map.1 ht
    cases o with
    | none => right; exact s.void u hx
    | some fr => left; rw [fireSpec_calls s, mem_called]; exact ⟨fr.1, fr.2, hx⟩
  · left
    obtain ⟨u, q⟩ := last
    cases q with
    | none => simp [stops] at h5
    | some fr =>
      obtain ⟨f, r⟩ := fr
      cases r with
      | raise e => exact absurd (by rw [h2]; simp) (hnr e)
      | ret b =>
        cases b with
        | false => simp [stops] at h5
        | true =>
          simp [stops] at h5
          subst h5
          refine ⟨h6, init.filterMap (fun x => x.2.map Prod.snd), hfalse init h4, ?_⟩
          rw [h2]; simp

/-- C12, the part that holds: with at least one listener, if no listener function raises and no listener has lost its
function by its turn (every listener still has one at the end), `fire_all` returns `False` and stops at the first false
result, and otherwise returns `True` with every listener called and every result true. Missing: `fire_all` without
listeners, after an exception, or with closed but referenced listeners. -/
theorem C12_fire_all_partial (beh : Fn → World → Prog) (depth : Nat) (w : World) (h : Inv w) (hne : w.weak ≠ []) :
    ∃ evs, (fireEvent beh depth .all w).2.trace = w.trace ++ evs ∧
      ((∀ e, Res.raise e ∉ resultsOf w.nextFire evs) →
        (∀ t ∈ w.weak, (fireEvent beh depth .all w).2.fn t ≠ none) →
        ((fireEvent beh depth .all w).1 = some false ∧
          ∃ ts, (∀ r ∈ ts, r = Res.ret true) ∧ resultsOf w.nextFire evs = ts ++ [.ret false]) ∨
        ((fireEvent beh depth .all w).1 = some true ∧
          (∀ r ∈ resultsOf w.nextFire evs, r = .ret true) ∧ callsOf w.nextFire evs = w.weak)) := by
  obtain ⟨turns, evs, s⟩ := fireWith_spec (callFn_ok beh depth) .all h hne
  refine ⟨evs, s.trace, ?_⟩
  intro hnr hopen
  rw [fireSpec_results s] at hnr ⊢
  have hsub : ∀ x ∈ turns, x.1 ∈ w.weak := by
    intro x hx
    have : x.1 ∈ turns.map Prod.fst := List.mem_map.2 ⟨x, hx, rfl⟩
    rcases s.ends with ⟨h2, _⟩ | ⟨_, _, rest, _, _, h2, _⟩
    · rw [← h2]; exact this
    · rw [h2]; exact List.mem_append_left _ this
  have hsome : ∀ x ∈ turns, x.2.isSome = true := by
    intro x hx
    obtain ⟨u, o⟩ := x
    cases o with
    | none => exact absurd (s.void u hx) (hopen u (hsub _ hx))
    | some _ => rfl
  have htrue : ∀ l : List Turn, (∀ x ∈ l, stops .all x.2 = none) →
      ∀ r ∈ l.filterMap (fun x => x.2.map Prod.snd), r = Res.ret true := by
    intro l hl r hr
    obtain ⟨⟨u, o⟩, hx, ho⟩ := List.mem_filterMap.1 hr
    have := hl _ hx
    cases o with
    | none => simp at ho
    | some fr =>
      obtain ⟨f, r'⟩ := fr
      simp at ho; subst ho
      cases r' with
      | raise e => simp [stops] at this
      | ret b => cases b <;> simp [stops] at this ⊢
  rcases s.ends with ⟨h2, h3, h4⟩ | ⟨init, last, rest, o, h2, h3, h4, h5, h6⟩
  · right
    refine ⟨h4, htrue turns h3, ?_⟩
    rw [fireSpec_calls s, List.filter_eq_self.2 hsome, h2]
  · left
    obtain ⟨u, q⟩ := last
    cases q with
    | none => exact absurd (hsome (u, none) (by rw [h2]; simp)) (by simp)
    | some fr =>
      obtain ⟨f, r⟩ := fr
      cases r with
      | raise e => exact absurd (by rw [h2]; simp) (hnr e)
      | ret b =>
        cases b with
        | true => simp [stops] at h5
        | false =>
          simp [stops] at h5
          subst h5
          refine ⟨h6, init.filterMap (fun x => x.2.map Prod.snd), htrue init h4, ?_⟩
          rw [h2]; simp

/-- The value of `fire_any` in all cases, from the results of the listeners it called (`rs`): `None` without listeners or if the last one
called raised, else true exactly if the last result is true. All results before the last are false. -/
theorem C12_any_value_partial (beh : Fn → World → Prog) (depth : Nat) (w : World) (h : Inv w) :
    ∃ evs, (fireEvent beh depth .any w).2.trace = w.trace ++ evs ∧
      (∀ r ∈ (resultsOf w.nextFire evs).dropLast, r = .ret false) ∧
      (fireEvent beh depth .any w).1 =
        (if w.weak = [] then none
         else match (resultsOf w.nextFire evs).getLast? with
          | some (.raise _) => none
          | some (.ret true) => some true
          | _ => some false) := by
  by_cases hne : w.weak = []
  · have : fireEvent beh depth .any w = (none, w) := by unfold fireEvent fireWith; rw [if_pos hne]
    rw [this]
    exact ⟨[], by simp, by simp [resultsOf], by simp [hne]⟩
  · obtain ⟨turns, evs, s⟩ := fireWith_spec (callFn_ok beh depth) .any h hne
    refine ⟨evs, s.trace, ?_⟩
    rw [fireSpec_results s, if_neg hne]
    have hfalse : ∀ l : List Turn, (∀ x ∈ l, stops .any x.2 = none) →
        ∀ r ∈ l.filterMap (fun x => x.2.map Prod.snd), r = Res.ret false := by
      intro l hl r hr
      obtain ⟨⟨u, o⟩, hx, ho⟩ := List.mem_filterMap.1 hr
      have := hl _ hx
      cases o with
      | none => simp at ho
      | some fr =>
        obtain ⟨f, r'⟩ := fr
        simp at ho; subst ho
        cases r' with
        | raise e => simp [stops] at this
        | ret b => cases b <;> simp [stops] at this ⊢
    show _ ∧ (fireWith (callFn beh depth) .any w).1 = _
    rcases s.ends with ⟨h2, h3, h4⟩ | ⟨init, last, rest, o, h2, h3, h4, h5, h6⟩
    · refine ⟨fun r hr => hfalse turns h3 r (List.dropLast_subset _ hr), ?_⟩
      rw [h4]
      rcases hl : (turns.filterMap (fun x => x.2.map Prod.snd)).getLast? with _ | r
      · rw [hl]; rfl
      · rw [hl, hfalse turns h3 r (List.mem_of_getLast? hl)]; rfl
    · obtain ⟨u, q⟩ := last
      cases q with
      | none => simp [stops] at h5
      | some fr =>
        obtain ⟨f, r⟩ := fr
        have e : turns.filterMap (fun x => x.2.map Prod.snd) = init.filterMap (fun x => x.2.map Prod.snd) ++ [r] := by
          rw [h2]; simp
        rw [e, h6]
        refine ⟨by rw [List.dropLast_concat]; exact hfalse init h4, ?_⟩
        rw [List.getLast?_concat]
        cases r with
        | raise e => simp [stops] at h5; subst h5; rfl
        | ret b => cases b <;> simp [stops] at h5; subst h5; rfl

/-- The value of `fire_all` in all cases, from the results of the listeners it called: `None` without listeners or if the last one called
raised, `False` if the last result is false; else every result is true, and it is true exactly if all listeners of the snapshot were called:
otherwise the next one had lost its function. -/
theorem C12_all_value_partial (beh : Fn → World → Prog) (depth : Nat) (w : World) (h : Inv w) :
    ∃ evs, (fireEvent beh depth .all w).2.trace = w.trace ++ evs ∧
      (∀ r ∈ (resultsOf w.nextFire evs).dropLast, r = .ret true) ∧
      (fireEvent beh depth .all w).1 =
        (if w.weak = [] then none
         else match (resultsOf w.nextFire evs).getLast? with
          | some (.raise _) => none
          | some (.ret false) => some false
          | _ => some (decide (callsOf w.nextFire evs = w.weak))) ∧
      ((∀ r ∈ resultsOf w.nextFire evs, r = .ret true) → callsOf w.nextFire evs = w.weak ∨
        ∃ t rest, w.weak = callsOf w.nextFire evs ++ t :: rest ∧ (fireEvent beh depth .all w).2.fn t = none) := by
  by_cases hne : w.weak = []
  · have : fireEvent beh depth .all w = (none, w) := by unfold fireEvent fireWith; rw [if_pos hne]
    rw [this]
    exact ⟨[], by simp, by simp [resultsOf], by simp [hne], fun _ => .inl (by simp [hne, callsOf])⟩
  · obtain ⟨turns, evs, s⟩ := fireWith_spec (callFn_ok beh depth) .all h hne
    refine ⟨evs, s.trace, ?_⟩
    rw [fireSpec_results s, fireSpec_calls s, if_neg hne]
    have hsome : ∀ l : List Turn, (∀ x ∈ l, stops .all x.2 = none) → l.filter (fun x => x.2.isSome) = l := by
      intro l hl
      rw [List.filter_eq_self]
      intro x hx
      have := hl x hx
      cases hx2 : x.2 with
      | none => rw [hx2] at this; simp [stops] at this
      | some _ => rfl
    have htrue : ∀ l : List Turn, (∀ x ∈ l, stops .all x.2 = none) →
        ∀ r ∈ l.filterMap (fun x => x.2.map Prod.snd), r = Res.ret true := by
      intro l hl r hr
      obtain ⟨⟨u, o⟩, hx, ho⟩ := List.mem_filterMap.1 hr
      have := hl _ hx
      cases o with
      | none => simp at ho
      | some fr =>
        obtain ⟨f, r'⟩ := fr
        simp at ho; subst ho
        cases r' with
        | raise e => simp [stops] at this
        | ret b => cases b <;> simp [stops] at this ⊢
    show _ ∧ (fireWith (callFn beh depth) .all w).1 = _ ∧ (_ → _ ∨ ∃ t rest, _ ∧ (fireWith (callFn beh depth) .all w).2.fn t = none)
    rcases s.ends with ⟨h2, h3, h4⟩ | ⟨init, last, rest, o, h2, h3, h4, h5, h6⟩
    · rw [hsome turns h3]
      refine ⟨fun r hr => htrue turns h3 r (List.dropLast_subset _ hr), ?_, fun _ => .inl h2⟩
      rw [h4]
      rcases hl : (turns.filterMap (fun x => x.2.map Prod.snd)).getLast? with _ | r
      · rw [hl]; simp [h2, Outcome.value]
      · rw [hl, htrue turns h3 r (List.mem_of_getLast? hl)]; simp [h2, Outcome.value]
    · obtain ⟨u, q⟩ := last
      have ht := htrue init h4
      cases q with
      | none =>
        simp [stops] at h5
        subst h5
        have e : turns.filterMap (fun x => x.2.map Prod.snd) = init.filterMap (fun x => x.2.map Prod.snd) := by
          rw [h2]; simp
        have e2 : (turns.filter (fun x => x.2.isSome)).map Prod.fst = init.map Prod.fst := by
          rw [h2, List.filter_append, hsome init h4]; simp
        have e3 : w.weak = init.map Prod.fst ++ u :: rest := by rw [h3, h2]; simp
        rw [e, e2]
        have hn : ¬ init.map Prod.fst = w.weak := by
          intro hc
          have := congrArg List.length (hc.trans e3)
          simp at this
        refine ⟨fun r hr => ht r (List.dropLast_subset _ hr), ?_, fun _ => .inr ⟨u, rest, e3, s.void u (by rw [h2]; simp)⟩⟩
        rw [h6]
        rcases hl : (init.filterMap (fun x => x.2.map Prod.snd)).getLast? with _ | r
        · rw [hl]; simp [hn, Outcome.value]
        · rw [hl, ht r (List.mem_of_getLast? hl)]; simp [hn, Outcome.value]
      | some fr =>
        obtain ⟨f, r⟩ := fr
        have e : turns.filterMap (fun x => x.2.map Prod.snd) = init.filterMap (fun x => x.2.map Prod.snd) ++ [r] := by
          rw [h2]; simp
        rw [e, h6]
        refine ⟨by rw [List.dropLast_concat]; exact ht, ?_, ?_⟩
        · rw [List.getLast?_concat]
          cases r with
          | raise e => simp [stops] at h5; subst h5; rfl
          | ret b => cases b <;> simp [stops] at h5; subst h5; rfl
        · intro hall
          have := hall r (by simp)
          subst this
          simp [stops] at h5

/-- function 1 says no -/
def dissenting : Fn → World → Prog := fun f _ => .done (.ret (f ≠ 1))

example : (fireEvent dissenting 10 .all
    (doListen (doListen World.init (some 0) none false) (some 1) none false)).1 = some false ∧
  (fireEvent dissenting 10 .any
    (doListen (doListen World.init (some 0) none false) (some 1) none false)).1 = some true := by decide

/-! ### C13 -/

/-- C13: in every reachable state the attached listeners are exactly the tokens still referenced (by the client, by an
owner that is still there, or by a running fire), in order of attachment without repetition, and `listener_count` is
their number. -/
theorem C13_listener_count (beh : Fn → World → Prog) (depth : Nat) (p : Prog) :
    let w := (runClient beh depth p).2
    (∀ t, t ∈ w.weak ↔ t < w.next ∧ (w.held t = true ∨ (w.owner t).isSome = true)) ∧ w.weak.Pairwise (· < ·) ∧
    listenerCount w = ((List.range w.next).filter (fun t => w.held t || (w.owner t).isSome)).length := by
  intro w
  have h : Inv w := runClient_inv beh depth p
  have hp : ∀ t, w.pins t = 0 := by
    intro t
    have := (execProg_ok (fireEvent_ok beh depth) p Inv.init).2.pins_eq t
    exact this
  have hiff : ∀ t, t ∈ w.weak ↔ t < w.next ∧ (w.held t = true ∨ (w.owner t).isSome = true) := by
    intro t
    rw [h.weak_iff]; simp [World.alive, hp]
  refine ⟨hiff, h.sorted, ?_⟩
  unfold listenerCount
  apply List.Perm.length_eq
  rw [List.perm_ext_iff_of_nodup (h.sorted.imp (fun h => Nat.ne_of_lt h)) (List.nodup_range.filter _)]
  intro t
  rw [hiff]; simp

/-- C13: dropping the client's reference detaches the listener unless an owner or a running fire references it, and
touches no other listener. -/
theorem C13_drop (w : World) (h : Inv w) (t u : Tok) :
    u ∈ (doDrop w t).weak ↔
      u ∈ w.weak ∧ (u = t → (w.owner t).isSome = true ∨ 0 < w.pins t) := by
  have h1 : u ∈ (doDrop w t).weak ↔
      u ∈ w.weak ∧ World.alive { w with held := Function.update w.held t false } u = true := by
    simp [doDrop, World.collect]
  rw [h1]
  constructor
  · rintro ⟨a, b⟩
    refine ⟨a, ?_⟩
    rintro rfl
    simpa [World.alive] using b
  · rintro ⟨a, b⟩
    refine ⟨a, ?_⟩
    by_cases hut : u = t
    · subst hut
      have := b rfl
      simpa [World.alive] using this
    · have := ((h.weak_iff u).1 a).2
      simpa [World.alive, Function.update_of_ne hut] using this

theorem ownerGone_fold (l : List Tok) (w : World) (hl : ∀ t ∈ l, t < w.next) (u : Tok) :
    (l.foldl ownerGoneOne w).owner u = (if u ∈ l then none else w.owner u) ∧
    (l.foldl ownerGoneOne w).fn u = (if u ∈ l then none else w.fn u) := by
  induction l generalizing w with
  | nil => simp
  | cons t l ih =>
    simp only [List.foldl_cons]
    have ht : t < w.next := hl t (by simp)
    have hn : (ownerGoneOne w t).next = w.next := by unfold ownerGoneOne doClose; rw [if_pos ht]
    obtain ⟨h1, h2⟩ := ih (ownerGoneOne w t) (fun v hv => by rw [hn]; exact hl v (by simp [hv]))
    rw [h1, h2]
    by_cases hut : u = t
    · subst hut
      simp [ownerGoneOne, doClose, ht]
    · simp [ownerGoneOne, doClose, ht, hut]

/-- C13: when an owner is destroyed, all listeners given that owner are closed and, unless the client still holds the
token or a fire is running over it, detached; other listeners stay as they are. -/
theorem C13_owner_gone (w : World) (h : Inv w) (o : Owner) (t : Tok) :
    (w.owner t = some o → (doOwnerGone w o).fn t = none ∧ (doOwnerGone w o).owner t = none ∧
      (t ∈ (doOwnerGone w o).weak ↔ w.held t = true ∨ 0 < w.pins t)) ∧
    (w.owner t ≠ some o → (doOwnerGone w o).fn t = w.fn t ∧ (t ∈ (doOwnerGone w o).weak ↔ t ∈ w.weak)) := by
  set l := (List.range w.next).filter (fun t => w.owner t = some o) with hl
  have hlt : ∀ t ∈ l, t < w.next := fun t ht => by simp [hl] at ht; exact ht.1
  have hmem : t ∈ l ↔ w.owner t = some o := by
    simp only [hl, List.mem_filter, List.mem_range, decide_eq_true_eq]
    constructor
    · exact fun h => h.2
    · intro ho
      refine ⟨?_, ho⟩
      by_contra hge
      have := (h.fresh t (by omega)).2.2.1
      rw [ho] at this; cases this
  have hm : Mid w (l.foldl ownerGoneOne w) := mid_fold l hlt w (mid_refl w)
  obtain ⟨hown, hfn⟩ := ownerGone_fold l w hlt t
  have hw : (t ∈ (doOwnerGone w o).weak ↔ t ∈ w.weak ∧ (l.foldl ownerGoneOne w).alive t = true) := by
    show t ∈ ((l.foldl ownerGoneOne w).weak.filter _) ↔ _
    rw [List.mem_filter, hm.weak_eq]
  have e1 : (doOwnerGone w o).fn t = (l.foldl ownerGoneOne w).fn t := rfl
  have e2 : (doOwnerGone w o).owner t = (l.foldl ownerGoneOne w).owner t := rfl
  constructor
  · intro ho
    have hin := hmem.2 ho
    rw [if_pos hin] at hown hfn
    refine ⟨by rw [e1, hfn], by rw [e2, hown], ?_⟩
    rw [hw, h.weak_iff]
    have hlt' := hlt t hin
    simp only [World.alive, hm.held_eq, hm.pins_eq, hown, ho]
    simp [hlt']
  · intro ho
    have hin : t ∉ l := fun hh => ho (hmem.1 hh)
    rw [if_neg hin] at hown hfn
    refine ⟨by rw [e1, hfn], ?_⟩
    rw [hw, h.weak_iff]
    simp only [World.alive, hm.held_eq, hm.pins_eq, hown]
    tauto

/-- C13: a listener given a (truthy) owner stays attached when the client drops its token. -/
theorem C13_owner_keeps (w : World) (h : Inv w) (fn : Option Fn) (o : Owner) :
    let w1 := doListen w fn (some o) true
    w.next ∈ w1.weak ∧ w.next ∈ (doDrop w1 w.next).weak ∧ (doDrop w1 w.next).fn w.next = fn ∧
    w.next ∉ (doOwnerGone (doDrop w1 w.next) o).weak := by
  intro w1
  have h1 : Inv w1 := (doListen_ok h fn (some o) true).1
  have ho : w1.owner w.next = some o := by simp [w1, doListen]
  have hm : w.next ∈ w1.weak := by simp [w1, doListen]
  have h2 : Inv (doDrop w1 w.next) := (doDrop_ok h1 w.next).1
  refine ⟨hm, ?_, ?_, ?_⟩
  · rw [C13_drop w1 h1]
    exact ⟨hm, fun _ => Or.inl (by rw [ho]; rfl)⟩
  · simp [doDrop, World.collect, w1, doListen]
  · have := ((C13_owner_gone (doDrop w1 w.next) h2 o w.next).1 ho).2.2
    rw [this]
    have hp : w.pins w.next = 0 := (h.fresh w.next (le_refl _)).2.2.2
    simp [doDrop, World.collect, w1, doListen, hp]

/-- non-vacuous: a client that drops one of two tokens -/
example : (runClient agreeing 3 (.act (.listen (some 0) none false) fun _ => .act (.listen (some 1) (some 4) true) fun _ =>
    .act (.drop 0) fun _ => .act (.drop 1) fun _ => .done (.ret true))).2.weak = [1] := by decide

end Verif.Event
