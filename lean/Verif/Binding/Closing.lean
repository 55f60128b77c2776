import Mathlib.Data.List.Induction
import Mathlib.Logic.Function.Basic
import Verif.Binding.PropertyModel

/-!
`PropertyBinding`s of one `PropertyModel` whose targets close bindings, assign the model or update the source while they are being
updated (C166).

`PropertyModel.value` is set and told in Model.py:43-54 (no `on_value_changed` here, see C88). `Event.fire` (Event.py:103-114) goes over
the listeners in one `try`; a closed listener does nothing (Event.py:33-37). `property_changed` of a binding (Binding.py:238-245)
reads the value of the source when it is called. `close` (Binding.py:54-64, 251-254) closes the listener and drops the setters; a second
`close` raises, as the listener is `None` by then; `update_source` (Binding.py:99-111) of a closed binding does nothing.
Converters are arbitrary functions that do not call back; every binding has a target setter; bindings are made before the calls.
-/

namespace Verif.Binding.Closing

open Verif.Binding

variable {V T : Type}

/-- The binding number `b`: converter and fallback (`shows`), and what `update_source` assigns (`back`). -/
structure Setup (V T : Type) where
  cmp : V → V → Bool
  convert : ℕ → V → T
  fallback : ℕ → T
  back : ℕ → T → Option V

/-- Spec: what the target of binding `b` has to show for a value. -/
def Setup.shows (p : Setup V T) (b : ℕ) : Option V → T
  | some v => p.convert b v
  | none => p.fallback b

inductive Act (V T : Type) where
  | assign (v : Option V)
  | update (b : ℕ) (t : T)
  | close (b : ℕ)

inductive Next (V T : Type) where
  | done
  | raise
  | act (a : Act V T)

/-- The value of the model, which bindings are open, the calls of target setters so far and how many tracebacks have been printed. -/
structure World (V T : Type) where
  value : Option V
  opened : ℕ → Bool
  calls : List (ℕ × T)
  printed : ℕ

/-- What target setter `b` does after `k` actions; it may look at everything. -/
abbrev Behaviour (V T : Type) := ℕ → ℕ → World V T → Next V T

inductive Task (V T : Type) where
  | act (a : Act V T)
  | fire (bs : List ℕ)
  | target (b k : ℕ)

/-- One layer of execution; `go` executes what is nested; the Boolean tells if the task raised. -/
def body (p : Setup V T) (n : ℕ) (beh : Behaviour V T) (go : Task V T → World V T → Option (World V T × Bool)) :
    Task V T → World V T → Option (World V T × Bool)
  | .act (.assign v), w =>
    if notEqual p.cmp w.value v then
      match go (.fire (List.range n)) { w with value := v } with
      | none => none
      | some (w1, _) => some (w1, false)
    else some (w, false)
  | .act (.update b t), w => if w.opened b then go (.act (.assign (p.back b t))) w else some (w, false)
  | .act (.close b), w => if w.opened b then some ({ w with opened := Function.update w.opened b false }, false) else some (w, true)
  | .fire [], w => some (w, false)
  | .fire (b :: bs), w =>
    if w.opened b then
      match go (.target b 0) { w with calls := w.calls ++ [(b, p.shows b w.value)] } with
      | none => none
      | some (w1, true) => some ({ w1 with printed := w1.printed + 1 }, false)
      | some (w1, false) => go (.fire bs) w1
    else go (.fire bs) w
  | .target b k, w =>
    match beh b k w with
    | .done => some (w, false)
    | .raise => some (w, true)
    | .act a =>
      match go (.act a) w with
      | none => none
      | some (w1, true) => some (w1, true)
      | some (w1, false) => go (.target b (k + 1)) w1

def exec (p : Setup V T) (n : ℕ) (beh : Behaviour V T) : ℕ → Task V T → World V T → Option (World V T × Bool)
  | 0, _, _ => none
  | f + 1, t, w => body p n beh (exec p n beh f) t w

/-- Actions of clients outside of targets; exceptions reach the client, who goes on. -/
def history (p : Setup V T) (n : ℕ) (beh : Behaviour V T) : List (ℕ × Act V T) → World V T → Option (World V T)
  | [], w => some w
  | (f, a) :: as, w =>
    match exec p n beh f (.act a) w with
    | none => none
    | some (w1, _) => history p n beh as w1

/-- What the target of `b` was given last. -/
def World.last (w : World V T) (b : ℕ) : Option T := ((w.calls.filter fun c => c.1 = b).map Prod.snd).getLast?

theorem last_snoc (w : World V T) (b c : ℕ) (t : T) :
    ({ w with calls := w.calls ++ [(c, t)] } : World V T).last b = if c = b then some t else w.last b := by
  unfold World.last
  rw [List.filter_append]
  by_cases h : c = b
  · subst h; simp
  · simp [h]

/-- The calls of target setter `b`. -/
def World.of (w : World V T) (b : ℕ) : List T := (w.calls.filter fun c => c.1 = b).map Prod.snd

theorem exec_closed (p : Setup V T) (n : ℕ) (beh : Behaviour V T) (b : ℕ) : ∀ (f : ℕ) (t : Task V T) (w w' : World V T) (r : Bool),
    exec p n beh f t w = some (w', r) → w.printed ≤ w'.printed ∧
      (w.opened b = false → w'.opened b = false ∧ w'.of b = w.of b) := by
  intro f
  induction f with
  | zero => intro t w w' r h; simp [exec] at h
  | succ f ih =>
    intro t w w' r h
    unfold exec body at h
    split at h
    · split at h
      · split at h
        · cases h
        · rename_i w2 b2 h2
          simp only [Option.some.injEq, Prod.mk.injEq] at h
          rw [← h.1]
          have a := ih _ _ _ _ h2
          exact ⟨a.1, a.2⟩
      · simp only [Option.some.injEq, Prod.mk.injEq] at h
        rw [← h.1]; exact ⟨le_rfl, fun hb => ⟨hb, rfl⟩⟩
    · split at h
      · exact ih _ _ _ _ h
      · simp only [Option.some.injEq, Prod.mk.injEq] at h
        rw [← h.1]; exact ⟨le_rfl, fun hb => ⟨hb, rfl⟩⟩
    · split at h
      · simp only [Option.some.injEq, Prod.mk.injEq] at h
        rw [← h.1]
        refine ⟨le_rfl, fun hb => ⟨?_, rfl⟩⟩
        simp only [Function.update_apply]
        split
        · rfl
        · exact hb
      · simp only [Option.some.injEq, Prod.mk.injEq] at h
        rw [← h.1]; exact ⟨le_rfl, fun hb => ⟨hb, rfl⟩⟩
    · simp only [Option.some.injEq, Prod.mk.injEq] at h
      rw [← h.1]; exact ⟨le_rfl, fun hb => ⟨hb, rfl⟩⟩
    · rename_i c bs
      split at h
      · rename_i hc
        have hof : w.opened b = false →
            ({ w with calls := w.calls ++ [(c, p.shows c w.value)] } : World V T).of b = w.of b := by
          intro hb
          have : c ≠ b := by rintro rfl; rw [hb] at hc; cases hc
          simp [World.of, List.filter_append, this]
        split at h
        · cases h
        · rename_i w2 h2
          simp only [Option.some.injEq, Prod.mk.injEq] at h
          rw [← h.1]
          obtain ⟨l, a⟩ := ih _ _ _ _ h2
          refine ⟨Nat.le_succ_of_le l, fun hb => ?_⟩
          obtain ⟨a1, a2⟩ := a hb
          exact ⟨a1, a2.trans (hof hb)⟩
        · rename_i w2 h2
          obtain ⟨l, a⟩ := ih _ _ _ _ h2
          obtain ⟨l', a'⟩ := ih _ _ _ _ h
          refine ⟨le_trans l l', fun hb => ?_⟩
          obtain ⟨a1, a2⟩ := a hb
          obtain ⟨b1, b2⟩ := a' a1
          exact ⟨b1, b2.trans (a2.trans (hof hb))⟩
      · exact ih _ _ _ _ h
    · split at h
      · simp only [Option.some.injEq, Prod.mk.injEq] at h
        rw [← h.1]; exact ⟨le_rfl, fun hb => ⟨hb, rfl⟩⟩
      · simp only [Option.some.injEq, Prod.mk.injEq] at h
        rw [← h.1]; exact ⟨le_rfl, fun hb => ⟨hb, rfl⟩⟩
      · split at h
        · cases h
        · rename_i w2 h2
          simp only [Option.some.injEq, Prod.mk.injEq] at h
          rw [← h.1]; exact ih _ _ _ _ h2
        · rename_i w2 h2
          obtain ⟨l, a⟩ := ih _ _ _ _ h2
          obtain ⟨l', a'⟩ := ih _ _ _ _ h
          refine ⟨le_trans l l', fun hb => ?_⟩
          obtain ⟨a1, a2⟩ := a hb
          obtain ⟨b1, b2⟩ := a' a1
          exact ⟨b1, b2.trans a2⟩

/-- Binding `b` shows the current value, or is closed. -/
def Synced (p : Setup V T) (b : ℕ) (w : World V T) : Prop := w.opened b = true → w.last b = some (p.shows b w.value)

theorem exec_synced (p : Setup V T) (n : ℕ) (beh : Behaviour V T) (b : ℕ) (hb : b < n) :
    ∀ (f : ℕ) (t : Task V T) (w w' : World V T) (r : Bool), exec p n beh f t w = some (w', r) →
      (b = 0 ∨ w'.printed = w.printed) →
      (Synced p b w → Synced p b w') ∧
      (∀ bs, t = .fire bs → b ∈ bs → (b = 0 → bs.head? = some 0) → Synced p b w') := by
  intro f
  induction f with
  | zero => intro t w w' r h; simp [exec] at h
  | succ f ih =>
    intro t w w' r h hp
    have hle : ∀ (t : Task V T) (w w' : World V T) (r : Bool), exec p n beh f t w = some (w', r) → w.printed ≤ w'.printed :=
      fun t w w' r h => (exec_closed p n beh b f t w w' r h).1
    unfold exec body at h
    split at h
    · refine ⟨fun hs => ?_, fun bs ht => by cases ht⟩
      split at h
      · split at h
        · cases h
        · rename_i w2 b2 h2
          simp only [Option.some.injEq, Prod.mk.injEq] at h
          rw [← h.1]
          rw [← h.1] at hp
          refine (ih _ _ _ _ h2 hp).2 _ rfl (List.mem_range.2 hb) ?_
          intro h0
          cases n with
          | zero => omega
          | succ n => simp [List.range_succ_eq_map]
      · simp only [Option.some.injEq, Prod.mk.injEq] at h
        rw [← h.1]; exact hs
    · refine ⟨fun hs => ?_, fun bs ht => by cases ht⟩
      split at h
      · exact (ih _ _ _ _ h hp).1 hs
      · simp only [Option.some.injEq, Prod.mk.injEq] at h
        rw [← h.1]; exact hs
    · refine ⟨fun hs => ?_, fun bs ht => by cases ht⟩
      split at h
      · simp only [Option.some.injEq, Prod.mk.injEq] at h
        rw [← h.1]
        intro ho
        simp only [Function.update_apply] at ho
        split at ho
        · cases ho
        · exact hs ho
      · simp only [Option.some.injEq, Prod.mk.injEq] at h
        rw [← h.1]; exact hs
    · simp only [Option.some.injEq, Prod.mk.injEq] at h
      rw [← h.1]
      refine ⟨fun hs => hs, fun bs ht hm => ?_⟩
      cases ht
      cases hm
    · rename_i c bs
      split at h
      · rename_i hc
        have hs1 : (Synced p b w ∨ c = b) → Synced p b { w with calls := w.calls ++ [(c, p.shows c w.value)] } := by
          intro h1 ho
          rw [last_snoc]
          by_cases hcb : c = b
          · subst hcb; simp
          · rw [if_neg hcb]
            rcases h1 with h1 | h1
            · exact h1 ho
            · exact absurd h1 hcb
        split at h
        · cases h
        · rename_i w2 h2
          simp only [Option.some.injEq, Prod.mk.injEq] at h
          have l1 := hle _ _ _ _ h2
          rcases hp with h0 | hp
          · have a1 := (ih _ _ _ _ h2 (Or.inl h0)).1
            have hw : Synced p b w2 → Synced p b w' := by rw [← h.1]; exact fun hs => hs
            refine ⟨fun hs => hw (a1 (hs1 (Or.inl hs))), fun bs' ht hm hh => ?_⟩
            cases ht
            have := hh h0
            simp at this
            exact hw (a1 (hs1 (Or.inr (by omega))))
          · rw [← h.1] at hp
            simp only at hp l1
            omega
        · rename_i w2 h2
          have l1 := hle _ _ _ _ h2
          have l2 := hle _ _ _ _ h
          simp only at l1
          have a1 := (ih _ _ _ _ h2 (hp.imp id (by intro e; simp only; omega))).1
          have a2 := ih _ _ _ _ h (hp.imp id (by intro e; omega))
          refine ⟨fun hs => a2.1 (a1 (hs1 (Or.inl hs))), fun bs' ht hm hh => ?_⟩
          cases ht
          by_cases hcb : c = b
          · exact a2.1 (a1 (hs1 (Or.inr hcb)))
          · rcases List.mem_cons.1 hm with e | e
            · exact absurd e.symm hcb
            · refine a2.2 bs rfl e ?_
              intro h0
              have := hh h0
              simp at this
              omega
      · rename_i hc
        have a2 := ih _ _ _ _ h hp
        refine ⟨a2.1, fun bs' ht hm hh => ?_⟩
        cases ht
        by_cases hcb : c = b
        · subst hcb
          refine a2.1 ?_
          intro ho
          exact absurd ho hc
        · rcases List.mem_cons.1 hm with e | e
          · exact absurd e.symm hcb
          · refine a2.2 bs rfl e ?_
            intro h0
            have := hh h0
            simp at this
            omega
    · refine ⟨fun hs => ?_, fun bs ht => by cases ht⟩
      split at h
      · simp only [Option.some.injEq, Prod.mk.injEq] at h
        rw [← h.1]; exact hs
      · simp only [Option.some.injEq, Prod.mk.injEq] at h
        rw [← h.1]; exact hs
      · split at h
        · cases h
        · rename_i w2 h2
          simp only [Option.some.injEq, Prod.mk.injEq] at h
          rw [← h.1]
          rw [← h.1] at hp
          exact (ih _ _ _ _ h2 hp).1 hs
        · rename_i w2 h2
          have l1 := hle _ _ _ _ h2
          have l2 := hle _ _ _ _ h
          have a1 := (ih _ _ _ _ h2 (hp.imp id (by intro e; omega))).1 hs
          exact (ih _ _ _ _ h (hp.imp id (by intro e; omega))).1 a1

theorem history_printed (p : Setup V T) (n : ℕ) (beh : Behaviour V T) : ∀ (as : List (ℕ × Act V T)) (w w' : World V T),
    history p n beh as w = some w' → w.printed ≤ w'.printed := by
  intro as
  induction as with
  | nil => intro w w' h; simp only [history, Option.some.injEq] at h; rw [h]
  | cons a as ih =>
    intro w w' h
    unfold history at h
    split at h
    · cases h
    · rename_i w1 r h1
      exact ((exec_closed p n beh 0 _ _ _ _ _ h1).1).trans (ih _ _ h)

theorem history_synced (p : Setup V T) (n : ℕ) (beh : Behaviour V T) (b : ℕ) (hb : b < n) :
    ∀ (as : List (ℕ × Act V T)) (w w' : World V T), history p n beh as w = some w' → (b = 0 ∨ w'.printed = w.printed) →
      Synced p b w → Synced p b w' := by
  intro as
  induction as with
  | nil => intro w w' h _ hs; simp only [history, Option.some.injEq] at h; rw [← h]; exact hs
  | cons a as ih =>
    intro w w' h hp hs
    unfold history at h
    split at h
    · cases h
    · rename_i w1 r h1
      have l1 := (exec_closed p n beh 0 _ _ _ _ _ h1).1
      have l2 := history_printed p n beh _ _ _ h
      exact ih _ _ h (hp.imp id (by intro e; omega))
        ((exec_synced p n beh b hb _ _ _ _ _ h1 (hp.imp id (by intro e; omega))).1 hs)

/-- C166, targets: if every open binding shows the value of the model, it still does after any actions of clients, whatever targets close,
assign or update on the way, provided no target raised. Missing: bindings after one whose target raised (see the counterexample). -/
theorem C166_shows_partial (p : Setup V T) (n : ℕ) (beh : Behaviour V T) (as : List (ℕ × Act V T)) (w w' : World V T)
    (hw : ∀ b < n, w.opened b = true → w.last b = some (p.shows b w.value)) (h : history p n beh as w = some w')
    (hp : w'.printed = w.printed) : ∀ b < n, w'.opened b = true → w'.last b = some (p.shows b w'.value) := fun b hb =>
  history_synced p n beh b hb as w w' h (Or.inr hp) (hw b hb)

/-- C166, the first binding shows the value of the model even if targets raise. -/
theorem C166_first (p : Setup V T) (n : ℕ) (hn : 0 < n) (beh : Behaviour V T) (as : List (ℕ × Act V T)) (w w' : World V T)
    (hw : w.opened 0 = true → w.last 0 = some (p.shows 0 w.value)) (h : history p n beh as w = some w') :
    w'.opened 0 = true → w'.last 0 = some (p.shows 0 w'.value) :=
  history_synced p n beh 0 hn as w w' h (Or.inl rfl) hw

/-- C166: assigning a value equal to the present one calls no target, and changes nothing. -/
theorem C166_equal (p : Setup V T) (n : ℕ) (beh : Behaviour V T) (f : ℕ) (v : Option V) (w w' : World V T) (r : Bool) (hv : Same p.cmp w.value v)
    (h : exec p n beh f (.act (.assign v)) w = some (w', r)) : w' = w ∧ r = false := by
  cases f with
  | zero => simp [exec] at h
  | succ f =>
    have hn : notEqual p.cmp w.value v = false := by
      rw [← Bool.not_eq_true, notEqual_iff]; exact not_not.2 hv
    unfold exec body at h
    simp only [hn, Bool.false_eq_true, if_false, Option.some.injEq, Prod.mk.injEq] at h
    exact ⟨h.1.symm, h.2.symm⟩

/-- C166, an assignment: after it returns, every open binding shows the value of the model, whatever it showed before, provided the
assignment changes the value and no target raised. -/
theorem C166_assign_partial (p : Setup V T) (n : ℕ) (beh : Behaviour V T) (f : ℕ) (v : Option V) (w w' : World V T) (r : Bool)
    (hv : ¬ Same p.cmp w.value v) (h : exec p n beh f (.act (.assign v)) w = some (w', r)) (hp : w'.printed = w.printed) :
    ∀ b < n, w'.opened b = true → w'.last b = some (p.shows b w'.value) := by
  intro b hb
  cases f with
  | zero => simp [exec] at h
  | succ f =>
    unfold exec body at h
    simp only [(notEqual_iff p.cmp w.value v).2 hv, if_true] at h
    split at h
    · cases h
    · rename_i w2 b2 h2
      simp only [Option.some.injEq, Prod.mk.injEq] at h
      rw [← h.1]
      rw [← h.1] at hp
      refine (exec_synced p n beh b hb _ _ _ _ _ h2 (Or.inr hp)).2 _ rfl (List.mem_range.2 hb) ?_
      intro h0
      cases n with
      | zero => omega
      | succ n => simp [List.range_succ_eq_map]

/-- C166, closed: the target of a closed binding is never called again and the binding stays closed, whatever happens. -/
theorem C166_closed (p : Setup V T) (n : ℕ) (beh : Behaviour V T) (b : ℕ) : ∀ (as : List (ℕ × Act V T)) (w w' : World V T),
    history p n beh as w = some w' → w.opened b = false →
      w'.opened b = false ∧ w'.calls.filter (fun c => c.1 = b) = w.calls.filter (fun c => c.1 = b) := by
  have key : ∀ (as : List (ℕ × Act V T)) (w w' : World V T), history p n beh as w = some w' → w.opened b = false →
      w'.opened b = false ∧ w'.of b = w.of b := by
    intro as
    induction as with
    | nil => intro w w' h hb; simp only [history, Option.some.injEq] at h; rw [← h]; exact ⟨hb, rfl⟩
    | cons a as ih =>
      intro w w' h hb
      unfold history at h
      split at h
      · cases h
      · rename_i w1 r h1
        obtain ⟨a1, a2⟩ := (exec_closed p n beh b _ _ _ _ _ h1).2 hb
        obtain ⟨b1, b2⟩ := ih _ _ h a1
        exact ⟨b1, b2.trans a2⟩
  intro as w w' h hb
  obtain ⟨h1, h2⟩ := key as w w' h hb
  refine ⟨h1, ?_⟩
  have hrec : ∀ (l : List (ℕ × T)), l.filter (fun c => c.1 = b) = ((l.filter fun c => c.1 = b).map Prod.snd).map fun t => (b, t) := by
    intro l
    induction l with
    | nil => rfl
    | cons c l ih =>
      by_cases hc : c.1 = b
      · obtain ⟨c1, c2⟩ := c
        simp only at hc
        subst hc
        simpa using ih
      · simpa [hc] using ih
  unfold World.of at h2
  rw [hrec, h2, ← hrec]

/-- two bindings of a number, the second shows it doubled -/
def twice : Setup ℕ ℕ := ⟨fun a b => a == b, fun b v => if b = 1 then 2 * v else v, fun _ => 0, fun _ t => some t⟩

/-- The first target makes 3 of 5 and closes the second binding on seeing 9. -/
def editor : Behaviour ℕ ℕ := fun b k w =>
  if b = 0 ∧ k = 0 then
    match w.value with
    | some 5 => .act (.update 0 3)
    | some 9 => .act (.close 1)
    | _ => .done
  else .done

example : ∃ w, history twice 2 editor [(30, .assign (some 5)), (30, .assign (some 9))] ⟨none, fun _ => true, [], 0⟩ = some w ∧
    w.calls = [(0, 5), (0, 3), (1, 6), (1, 6), (0, 9)] ∧ w.printed = 0 ∧ w.opened 1 = false :=
  ⟨(history twice 2 editor [(30, .assign (some 5)), (30, .assign (some 9))] ⟨none, fun _ => true, [], 0⟩).get (by decide),
    (Option.some_get _).symm, by decide, by decide, by decide⟩

/-- On every change the first target closes the second binding. -/
def closer : Behaviour ℕ ℕ := fun b k _ => if b = 0 ∧ k = 0 then .act (.close 1) else .done

/-- C166 fails after an exception: the first target closes a binding that is closed already, `AttributeError` is printed, and the third
binding keeps showing the old value. -/
theorem C166_counterexample :
    ∃ w, history twice 3 closer [(30, .assign (some 5)), (30, .assign (some 9))] ⟨none, fun _ => true, [], 0⟩ = some w ∧
      w.value = some 9 ∧ w.opened 2 = true ∧ w.last 2 = some 5 ∧ w.printed = 1 :=
  ⟨(history twice 3 closer [(30, .assign (some 5)), (30, .assign (some 9))] ⟨none, fun _ => true, [], 0⟩).get (by decide),
    (Option.some_get _).symm, by decide, by decide, by decide, by decide⟩

end Verif.Binding.Closing
