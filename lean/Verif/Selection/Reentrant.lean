import Verif.Selection.Props

/-!
Selections whose listeners call the selection (C164).

`Selection/Model` counts the fires of `changed_event`. Here the listeners are programs: each copies `indexes` when it is
called and then makes any calls on the same selection, reads included, or raises. `Event.fire` (Event.py:103-114) goes over
the listeners in one `try`: an exception ends the loop, so later listeners are not called, and is printed, not passed on.
In every method `fire` is the last statement (Selection.py:86, 103, 115, 132, 146, 172), except
that `add_range` (121-123) goes on with the next index.
Listeners are attached once, before the calls; attaching and closing while firing is C09-C13.
-/

namespace Verif.Selection

/-- The calls listeners and clients make: the calls of the model and assigning `selection_style` (Selection.py:31). -/
inductive RCall where
  | op (ord : SetOrder) (o : Op)
  | style (t : Style)

/-- What a listener does next. -/
inductive Next where
  | done
  | raise
  | call (c : RCall)

/-- The selection, the copy of `indexes` each listener made when last called, the calls carried out so far (`add_range` as its
single additions), and how many tracebacks have been printed. -/
structure World where
  sel : Sel
  seen : ℕ → Finset ℤ
  log : List RCall
  printed : ℕ

/-- A listener may look at everything; `k` is how many calls it has made since it was called. -/
abbrev Behaviour := ℕ → ℕ → World → Next

/-- A call that is not `add_range`. -/
def RCall.out (s : Sel) : RCall → Out
  | .op ord o => step ord s o
  | .style t => ⟨{ s with style := t }, 0, .none⟩

/-- What is being executed. -/
inductive Task where
  | call (c : RCall)
  | range (r : List ℤ)
  | fire (js : List ℕ)
  | listener (j k : ℕ)

/-- One layer of execution; `go` executes what is nested. The Boolean tells if the task raised. `n` listeners are attached. -/
def body (n : ℕ) (act : Behaviour) (go : Task → World → Option (World × Bool)) : Task → World → Option (World × Bool)
  | .call (.op _ (.addRange r)), w => go (.range r) w
  | .call c, w =>
    let o := c.out w.sel
    let w1 : World := { w with sel := o.sel, log := w.log ++ [c] }
    if o.fires = 0 then some (w1, o.err.isSome)
    else match go (.fire (List.range n)) w1 with
      | none => none
      | some (w2, _) => some (w2, o.err.isSome)
  | .range [], w => some (w, false)
  | .range (i :: r), w =>
    match go (.call (.op ascending (.add i))) w with
    | none => none
    | some (w1, true) => some (w1, true)
    | some (w1, false) => go (.range r) w1
  | .fire [], w => some (w, false)
  | .fire (j :: js), w =>
    match go (.listener j 0) { w with seen := Function.update w.seen j w.sel.indexes } with
    | none => none
    | some (w1, true) => some ({ w1 with printed := w1.printed + 1 }, false)
    | some (w1, false) => go (.fire js) w1
  | .listener j k, w =>
    match act j k w with
    | .done => some (w, false)
    | .raise => some (w, true)
    | .call c =>
      match go (.call c) w with
      | none => none
      | some (w1, true) => some (w1, true)
      | some (w1, false) => go (.listener j (k + 1)) w1

/-- Nested execution with fuel; `none` if the fuel does not suffice. -/
def exec (n : ℕ) (act : Behaviour) : ℕ → Task → World → Option (World × Bool)
  | 0, _, _ => none
  | f + 1, t, w => body n act (exec n act f) t w

/-- A history of calls by clients outside of listeners; exceptions reach the client, who goes on. -/
def history (n : ℕ) (act : Behaviour) : List (ℕ × RCall) → World → Option World
  | [], w => some w
  | (f, c) :: cs, w =>
    match exec n act f (.call c) w with
    | none => none
    | some (w1, _) => history n act cs w1

/-- The calls that tell of what they change: all but `insert_index` and `remove_index` (C01). -/
def RCall.Loud : RCall → Prop
  | .op _ (.insertIndex _) => False
  | .op _ (.removeIndex _) => False
  | _ => True

def Task.Loud : Task → Prop
  | .call c => c.Loud
  | _ => True

/-- No listener reindexes. -/
def LoudActs (act : Behaviour) : Prop := ∀ j k w c, act j k w = .call c → c.Loud

/-- The world at the start. -/
def World.start (style : Style) : World := ⟨init style, fun _ => ∅, [], 0⟩

theorem out_quiet (s : Sel) (c : RCall) (hc : c.Loud) (h : ∀ ord r, c ≠ .op ord (.addRange r)) (hf : (c.out s).fires = 0) :
    (c.out s).sel.indexes = s.indexes := by
  cases c with
  | style t => rfl
  | op ord o =>
    have key : o.Changing → (step ord s o).sel.indexes = s.indexes := by
      intro ho
      have := (C01_changed_event_exact ord s o).1 ho
      simp only [RCall.out] at hf
      rw [this] at hf
      by_contra hne
      rw [if_neg hne] at hf
      cases hf
    cases o with
    | addRange r => exact absurd rfl (h ord r)
    | insertIndex k => exact hc.elim
    | removeIndex k => exact hc.elim
    | setAnchor a => rfl
    | clear => exact key trivial
    | add i => exact key trivial
    | remove i => exact key trivial
    | setMultiple is => exact key trivial
    | set i => exact key trivial
    | toggle i => exact key trivial
    | extend i => exact key trivial

/-- Tracebacks are only added. -/
theorem printed_le (n : ℕ) (act : Behaviour) : ∀ (f : ℕ) (t : Task) (w w' : World) (b : Bool),
    exec n act f t w = some (w', b) → w.printed ≤ w'.printed := by
  intro f
  induction f with
  | zero => intro t w w' b h; simp [exec] at h
  | succ f ih =>
    intro t w w' b h
    unfold exec body at h
    split at h
    · exact ih _ _ _ _ h
    · dsimp only at h
      split at h
      · simp only [Option.some.injEq, Prod.mk.injEq] at h
        rw [← h.1]
      · split at h
        · cases h
        · rename_i w2 b2 h2
          simp only [Option.some.injEq, Prod.mk.injEq] at h
          have := ih _ _ _ _ h2
          rw [← h.1]
          exact this
    · simp only [Option.some.injEq, Prod.mk.injEq] at h
      rw [← h.1]
    · split at h
      · cases h
      · rename_i w2 h2
        simp only [Option.some.injEq, Prod.mk.injEq] at h
        rw [← h.1]; exact ih _ _ _ _ h2
      · rename_i w2 h2
        exact (ih _ _ _ _ h2).trans (ih _ _ _ _ h)
    · simp only [Option.some.injEq, Prod.mk.injEq] at h
      rw [← h.1]
    · split at h
      · cases h
      · rename_i w2 h2
        simp only [Option.some.injEq, Prod.mk.injEq] at h
        rw [← h.1]
        have := ih _ _ _ _ h2
        exact Nat.le_succ_of_le this
      · rename_i w2 h2
        have := ih _ _ _ _ h2
        exact this.trans (ih _ _ _ _ h)
    · split at h
      · simp only [Option.some.injEq, Prod.mk.injEq] at h
        rw [← h.1]
      · simp only [Option.some.injEq, Prod.mk.injEq] at h
        rw [← h.1]
      · split at h
        · cases h
        · rename_i w2 h2
          simp only [Option.some.injEq, Prod.mk.injEq] at h
          rw [← h.1]; exact ih _ _ _ _ h2
        · rename_i w2 h2
          exact (ih _ _ _ _ h2).trans (ih _ _ _ _ h)

/-- A listener that is up to date stays so, if it is the first or nothing is printed; and a fire that calls it brings it up to date. -/
theorem exec_seen (n : ℕ) (act : Behaviour) (hact : LoudActs act) (j : ℕ) (hj : j < n) :
    ∀ (f : ℕ) (t : Task) (w w' : World) (b : Bool), t.Loud → exec n act f t w = some (w', b) →
      (j = 0 ∨ w'.printed = w.printed) →
      (w.seen j = w.sel.indexes → w'.seen j = w'.sel.indexes) ∧
      (∀ js, t = .fire js → j ∈ js → (j = 0 → js.head? = some 0) → w'.seen j = w'.sel.indexes) := by
  intro f
  induction f with
  | zero => intro t w w' b _ h; simp [exec] at h
  | succ f ih =>
    intro t w w' b hl h hp
    have hple := printed_le n act
    unfold exec body at h
    split at h
    · refine ⟨(ih _ _ _ _ (by trivial) h hp).1, ?_⟩
      intro js ht; cases ht
    · rename_i c hc
      refine ⟨fun hs => ?_, fun js ht => by cases ht⟩
      dsimp only at h
      split at h
      · rename_i hf
        simp only [Option.some.injEq, Prod.mk.injEq] at h
        have hq := out_quiet w.sel c hl (fun ord r he => by subst he; exact hc ord r rfl) hf
        rw [← h.1]
        simp only [hs, hq]
      · split at h
        · cases h
        · rename_i w2 b2 h2
          simp only [Option.some.injEq, Prod.mk.injEq] at h
          rw [← h.1]
          rw [← h.1] at hp
          refine (ih _ _ _ _ (by trivial) h2 hp).2 _ rfl (List.mem_range.2 hj) ?_
          intro h0
          subst h0
          cases n with
          | zero => omega
          | succ n => simp [List.range_succ_eq_map]
    · simp only [Option.some.injEq, Prod.mk.injEq] at h
      rw [← h.1]
      exact ⟨fun hs => hs, fun js ht => by cases ht⟩
    · refine ⟨fun hs => ?_, fun js ht => by cases ht⟩
      split at h
      · cases h
      · rename_i w2 h2
        simp only [Option.some.injEq, Prod.mk.injEq] at h
        rw [← h.1]
        rw [← h.1] at hp
        exact (ih _ _ _ _ (by trivial) h2 hp).1 hs
      · rename_i w2 h2
        have l1 := hple _ _ _ _ _ h2
        have l2 := hple _ _ _ _ _ h
        have a1 := (ih _ _ _ _ (by trivial) h2 (hp.imp id (by intro e; omega))).1 hs
        exact (ih _ _ _ _ (by trivial) h (hp.imp id (by intro e; omega))).1 a1
    · simp only [Option.some.injEq, Prod.mk.injEq] at h
      rw [← h.1]
      refine ⟨fun hs => hs, fun js ht hm => ?_⟩
      cases ht
      cases hm
    · rename_i i js
      split at h
      · cases h
      · rename_i w2 h2
        simp only [Option.some.injEq, Prod.mk.injEq] at h
        have l1 := hple _ _ _ _ _ h2
        rcases hp with h0 | hp
        · subst h0
          rw [← h.1]
          have a1 := (ih _ _ _ _ (by trivial) h2 (Or.inl rfl)).1
          by_cases hi : i = 0
          · subst hi
            have := a1 (by simp)
            exact ⟨fun _ => this, fun _ _ _ _ => this⟩
          · refine ⟨fun hs => a1 (by simpa [Function.update, Ne.symm hi] using hs), fun js' ht hm hh => ?_⟩
            cases ht
            have := hh rfl
            simp at this
            exact absurd this hi
        · rw [← h.1] at hp
          simp only at hp l1
          omega
      · rename_i w2 h2
        have l1 := hple _ _ _ _ _ h2
        have l2 := hple _ _ _ _ _ h
        simp only at l1
        have a1 := (ih _ _ _ _ (by trivial) h2 (hp.imp id (by intro e; simp only; omega))).1
        have a2 := ih _ _ _ _ (by trivial) h (hp.imp id (by intro e; omega))
        by_cases hi : i = j
        · subst hi
          have := a2.1 (a1 (by simp))
          exact ⟨fun _ => this, fun _ _ _ _ => this⟩
        · have hu : w.seen j = w.sel.indexes → w'.seen j = w'.sel.indexes := fun hs =>
            a2.1 (a1 (by simpa [Function.update, Ne.symm hi] using hs))
          refine ⟨hu, fun js' ht hm hh => ?_⟩
          cases ht
          rcases List.mem_cons.1 hm with e | e
          · exact absurd e.symm hi
          · refine a2.2 js rfl e ?_
            intro h0
            have := hh h0
            simp at this
            omega
    · rename_i i k
      refine ⟨fun hs => ?_, fun js ht => by cases ht⟩
      split at h
      · simp only [Option.some.injEq, Prod.mk.injEq] at h
        rw [← h.1]; exact hs
      · simp only [Option.some.injEq, Prod.mk.injEq] at h
        rw [← h.1]; exact hs
      · rename_i c hc
        have hcl : c.Loud := hact _ _ _ _ hc
        split at h
        · cases h
        · rename_i w2 h2
          simp only [Option.some.injEq, Prod.mk.injEq] at h
          rw [← h.1]
          rw [← h.1] at hp
          exact (ih (.call c) _ _ _ hcl h2 hp).1 hs
        · rename_i w2 h2
          have l1 := hple _ _ _ _ _ h2
          have l2 := hple _ _ _ _ _ h
          have a1 := (ih (.call c) _ _ _ hcl h2 (hp.imp id (by intro e; omega))).1 hs
          exact (ih _ _ _ _ (by trivial) h (hp.imp id (by intro e; omega))).1 a1

theorem history_seen (n : ℕ) (act : Behaviour) (hact : LoudActs act) (j : ℕ) (hj : j < n) :
    ∀ (cs : List (ℕ × RCall)) (w w' : World), (∀ c ∈ cs, c.2.Loud) → history n act cs w = some w' →
      w.printed ≤ w'.printed ∧
      ((j = 0 ∨ w'.printed = w.printed) → w.seen j = w.sel.indexes → w'.seen j = w'.sel.indexes) := by
  intro cs
  induction cs with
  | nil =>
    intro w w' _ h
    simp only [history, Option.some.injEq] at h
    subst h
    exact ⟨le_rfl, fun _ hs => hs⟩
  | cons c cs ih =>
    intro w w' hl h
    unfold history at h
    split at h
    · cases h
    · rename_i w1 b h1
      have l1 := printed_le _ _ _ _ _ _ _ h1
      obtain ⟨l2, a2⟩ := ih w1 w' (fun d hd => hl d (by simp [hd])) h
      refine ⟨l1.trans l2, fun hp hs => ?_⟩
      exact a2 (hp.imp id (by intro e; omega))
        ((exec_seen n act hact j hj _ (.call c.2) _ _ _ (hl c (by simp)) h1 (hp.imp id (by intro e; omega))).1 hs)

/-- C164, listeners: whatever listeners do, after any calls made by clients every listener's copy is the current `indexes`,
provided no listener raised (no traceback was printed). Missing: listeners after one that raised (see the counterexample), and
`insert_index` and `remove_index`, which never tell (C01). -/
theorem C164_copies_partial (n : ℕ) (act : Behaviour) (hact : LoudActs act) (style : Style) (cs : List (ℕ × RCall))
    (hcs : ∀ c ∈ cs, c.2.Loud) (w : World) (h : history n act cs (.start style) = some w) (hp : w.printed = 0) :
    ∀ j < n, w.seen j = w.sel.indexes := fun j hj =>
  (history_seen n act hact j hj cs _ _ hcs h).2 (Or.inr hp) rfl

/-- C164, first listener: its copy is current even if listeners raise. -/
theorem C164_first (n : ℕ) (hn : 0 < n) (act : Behaviour) (hact : LoudActs act) (style : Style) (cs : List (ℕ × RCall))
    (hcs : ∀ c ∈ cs, c.2.Loud) (w : World) (h : history n act cs (.start style) = some w) : w.seen 0 = w.sel.indexes :=
  (history_seen n act hact 0 hn cs _ _ hcs h).2 (Or.inl rfl) rfl

/-- The selection after calls carried out one after the other, nobody listening. -/
def plain (s : Sel) (cs : List RCall) : Sel := cs.foldl (fun s c => (c.out s).sel) s

theorem exec_log (n : ℕ) (act : Behaviour) (s : Sel) : ∀ (f : ℕ) (t : Task) (w w' : World) (b : Bool),
    exec n act f t w = some (w', b) → w.sel = plain s w.log → w'.sel = plain s w'.log ∧ w.log <+: w'.log := by
  intro f
  induction f with
  | zero => intro t w w' b h; simp [exec] at h
  | succ f ih =>
    intro t w w' b h hs
    unfold exec body at h
    split at h
    · exact ih _ _ _ _ h hs
    · rename_i c hc
      have h1 : (c.out w.sel).sel = plain s (w.log ++ [c]) := by
        rw [hs]; unfold plain; rw [List.foldl_append]; rfl
      dsimp only at h
      split at h
      · simp only [Option.some.injEq, Prod.mk.injEq] at h
        rw [← h.1]
        exact ⟨h1, List.prefix_append _ _⟩
      · split at h
        · cases h
        · rename_i w2 b2 h2
          simp only [Option.some.injEq, Prod.mk.injEq] at h
          have := ih _ _ _ _ h2 h1
          rw [← h.1]
          exact ⟨this.1, (List.prefix_append _ _).trans this.2⟩
    · simp only [Option.some.injEq, Prod.mk.injEq] at h
      rw [← h.1]; exact ⟨hs, List.prefix_refl _⟩
    · split at h
      · cases h
      · rename_i w2 h2
        simp only [Option.some.injEq, Prod.mk.injEq] at h
        rw [← h.1]; exact ih _ _ _ _ h2 hs
      · rename_i w2 h2
        have a := ih _ _ _ _ h2 hs
        have b := ih _ _ _ _ h a.1
        exact ⟨b.1, a.2.trans b.2⟩
    · simp only [Option.some.injEq, Prod.mk.injEq] at h
      rw [← h.1]; exact ⟨hs, List.prefix_refl _⟩
    · split at h
      · cases h
      · rename_i w2 h2
        simp only [Option.some.injEq, Prod.mk.injEq] at h
        rw [← h.1]
        have a := ih _ _ _ _ h2 hs
        exact ⟨a.1, a.2⟩
      · rename_i w2 h2
        have a := ih _ _ _ _ h2 hs
        have b := ih _ _ _ _ h a.1
        exact ⟨b.1, a.2.trans b.2⟩
    · split at h
      · simp only [Option.some.injEq, Prod.mk.injEq] at h
        rw [← h.1]; exact ⟨hs, List.prefix_refl _⟩
      · simp only [Option.some.injEq, Prod.mk.injEq] at h
        rw [← h.1]; exact ⟨hs, List.prefix_refl _⟩
      · split at h
        · cases h
        · rename_i w2 h2
          simp only [Option.some.injEq, Prod.mk.injEq] at h
          rw [← h.1]; exact ih _ _ _ _ h2 hs
        · rename_i w2 h2
          have a := ih _ _ _ _ h2 hs
          have b := ih _ _ _ _ h a.1
          exact ⟨b.1, a.2.trans b.2⟩

/-- C164, order: however calls are nested, the selection is what the calls give when carried out one after the other in the order in
which they were made, and a call once made is never undone or repeated. -/
theorem C164_order (n : ℕ) (act : Behaviour) (style : Style) : ∀ (cs : List (ℕ × RCall)) (w w' : World),
    w.sel = plain (init style) w.log → history n act cs w = some w' → w'.sel = plain (init style) w'.log ∧ w.log <+: w'.log := by
  intro cs
  induction cs with
  | nil =>
    intro w w' hs h
    simp only [history, Option.some.injEq] at h
    subst h
    exact ⟨hs, List.prefix_refl _⟩
  | cons c cs ih =>
    intro w w' hs h
    unfold history at h
    split at h
    · cases h
    · rename_i w1 b h1
      have a := exec_log n act (init style) _ _ _ _ _ h1 hs
      have b := ih w1 w' a.1 h
      exact ⟨b.1, a.2.trans b.2⟩

/-- The first listener never lets index 3 stay selected: it makes 7 of it. -/
def swaps : Behaviour := fun j k w =>
  if j = 0 then
    if 3 ∈ w.sel.indexes ∧ k = 0 then .call (.op ascending (.remove 3))
    else if k = 1 then .call (.op ascending (.add 7)) else .done
  else .done

/-- both listeners know the selection after a range that makes the first listener call, twice nested -/
example : ∃ w, history 2 swaps [(40, .op ascending (.addRange [2, 3, 4]))] (.start .multiple) = some w ∧
    w.sel.indexes = {2, 4, 7} ∧ w.printed = 0 ∧ w.seen 1 = {2, 4, 7} := by
  refine ⟨(history 2 swaps [(40, .op ascending (.addRange [2, 3, 4]))] (.start .multiple)).get (by decide), (Option.some_get _).symm, ?_, ?_, ?_⟩ <;> decide

/-- A listener that removes index 3, selected or not. -/
def raises : Behaviour := fun j k _ => if j = 0 ∧ k = 0 then .call (.op ascending (.remove 3)) else .done

/-- C164 fails after an exception: the first listener removes an index that is not selected, `KeyError` is printed, and the second
listener is never told of `set(5)`. -/
theorem C164_counterexample :
    ∃ w, history 2 raises [(40, .op ascending (.set 5))] (.start .multiple) = some w ∧
      w.sel.indexes = {5} ∧ w.seen 0 = {5} ∧ w.seen 1 = ∅ ∧ w.printed = 1 := by
  refine ⟨(history 2 raises [(40, .op ascending (.set 5))] (.start .multiple)).get (by decide), (Option.some_get _).symm, ?_, ?_, ?_, ?_⟩ <;> decide

end Verif.Selection
