import Mathlib.Data.Nat.Notation
import Mathlib.Data.List.Induction
import Mathlib.Logic.Function.Basic
import Mathlib.Data.Finset.Card
import Mathlib.Tactic.SplitIfs

set_option linter.unusedSectionVars false
set_option linter.unusedSimpArgs false

/-!
C188: the functions of the registry all begin with `ComponentManager()` (`nion/utils/Registry.py:74-117`), which makes the manager when it
is called first (`Singleton.__call__`, lines 28-31), without lock.

Threads make calls one after the other: register a component for a type, unregister it, look whether it is registered. The atomic steps
of a call are: the test of line 29, making and storing the manager (line 30, if the test found none), reading it (line 31), and what the call
does to the manager; that this last step is one is an assumption here (C162 has its parts). A call that fails an assertion (registered
already, not registered) changes nothing.
-/

namespace Verif.Registry.Single

variable {K : Type} [DecidableEq K]

/-- Calls; `K` stands for pairs of component and type. -/
inductive Call (K : Type) where
  | register (k : K)
  | unregister (k : K)
  | find (k : K)
deriving DecidableEq

/-- Where a thread is in its first call: before it, the test found no manager, the manager is to be read, manager `m` was read. -/
inductive Phase where
  | idle
  | tested
  | ready
  | got (m : ℕ)
deriving DecidableEq

structure Thread (K : Type) where
  phase : Phase
  calls : List (Call K)

/-- `cls.instance`, how many managers were made, what is registered in each, the threads; what the calls did so far: manager, call, and
whether the component was there. -/
structure St (K : Type) where
  instance' : Option ℕ
  made : ℕ
  content : ℕ → K → Bool
  threads : ℕ → Thread K
  log : List (ℕ × Call K × Bool)

/-- What a call leaves in a manager: lines 53-71 for one type. -/
def Call.apply (f : K → Bool) : Call K → K → Bool
  | .register k => Function.update f k true
  | .unregister k => Function.update f k false
  | .find _ => f

def Call.key : Call K → K
  | .register k | .unregister k | .find k => k

/-- One step of thread `j`: lines 28-31 and the call. -/
def step (s : St K) (j : ℕ) : St K :=
  match (s.threads j).calls with
  | [] => s
  | c :: cs =>
    match (s.threads j).phase with
    | .idle =>
      { s with threads := Function.update s.threads j ⟨if s.instance' = none then .tested else .ready, c :: cs⟩ }
    | .tested =>
      { s with instance' := some s.made, made := s.made + 1, threads := Function.update s.threads j ⟨.ready, c :: cs⟩ }
    | .ready =>
      match s.instance' with
      | some m => { s with threads := Function.update s.threads j ⟨.got m, c :: cs⟩ }
      | none => s
    | .got m =>
      { s with
        content := Function.update s.content m (c.apply (s.content m))
        log := s.log ++ [(m, c, s.content m c.key)]
        threads := Function.update s.threads j ⟨.idle, cs⟩ }

def run (s : St K) (sched : List ℕ) : St K := sched.foldl step s

def start (calls : ℕ → List (Call K)) : St K := ⟨none, 0, fun _ _ => false, fun j => ⟨.idle, calls j⟩, []⟩

/-! ### What the claim is about -/

/-- Whether the last of the calls that registered or unregistered a component, the last call coming first, registered it. -/
def known (k : K) : List (Call K) → Bool
  | [] => false
  | .register k' :: l => if k' = k then true else known k l
  | .unregister k' :: l => if k' = k then false else known k l
  | .find _ :: l => known k l

/-- One registry: what calls find, after others. -/
def answers : List (Call K) → List (Call K) → List Bool
  | _, [] => []
  | past, c :: cs => known c.key past :: answers (c :: past) cs

/-- The calls made so far, in the order in which they took effect, found what they find in one registry. -/
def OneRegistry (s : St K) : Prop := s.log.map (fun e => e.2.2) = answers [] (s.log.map fun e => e.2.1)

instance (s : St K) : Decidable (OneRegistry s) := inferInstanceAs (Decidable (_ = _))

/-! ### Proofs -/

theorem answers_append (past l : List (Call K)) (c : Call K) :
    answers past (l ++ [c]) = answers past l ++ [known c.key (l.reverse ++ past)] := by
  induction l generalizing past with
  | nil => rfl
  | cons d l ih => simp only [List.cons_append, answers, ih, List.reverse_cons, List.append_assoc, List.nil_append]

/-- What calls leave in a manager. -/
theorem apply_known (c : Call K) (l : List (Call K)) : c.apply (fun k => known k l) = fun k => known k (c :: l) := by
  funext k
  cases c <;> simp only [Call.apply, known, Function.update_apply] <;> simp only [eq_comm (a := k)]

/-- Manager `m` is there for good: it is the only one that calls use, and it has what the calls made of it. -/
structure Settled (m : ℕ) (s : St K) : Prop where
  inst : s.instance' = some m
  phases : ∀ j : ℕ, (s.threads j).phase ≠ .tested ∧ ∀ m' : ℕ, (s.threads j).phase = .got m' → m' = m
  used : ∀ e ∈ s.log, e.1 = m
  content : s.content m = fun k => known k (s.log.map fun e => e.2.1).reverse
  one : OneRegistry s

theorem step_settled (m : ℕ) (s : St K) (j : ℕ) (h : Settled m s) : Settled m (step s j) := by
  unfold step
  split
  · exact h
  · rename_i c cs hc
    split
    · -- the test
      rw [h.inst]
      refine ⟨rfl, fun i => ?_, h.used, h.content, h.one⟩
      by_cases hi : i = j
      · subst hi; simp
      · simpa [Function.update, hi] using h.phases i
    · rename_i hp
      exact absurd hp (h.phases j).1
    · rename_i hp
      rw [h.inst]
      refine ⟨rfl, fun i => ?_, h.used, h.content, h.one⟩
      by_cases hi : i = j
      · subst hi; simp
      · simpa [Function.update, hi] using h.phases i
    · rename_i m' hp
      have hm : m' = m := (h.phases j).2 m' hp
      subst hm
      refine ⟨h.inst, fun i => ?_, ?_, ?_, ?_⟩
      · by_cases hi : i = j
        · subst hi; simp
        · simpa [Function.update, hi] using h.phases i
      · intro e he
        simp only [List.mem_append, List.mem_singleton] at he
        rcases he with he | rfl
        · exact h.used e he
        · rfl
      · simp only [Function.update_self, List.map_append, List.map_cons, List.map_nil, List.reverse_append, List.reverse_cons,
          List.reverse_nil, List.nil_append, List.cons_append, h.content, apply_known]
      · have h1 := h.one
        simp only [OneRegistry] at h1 ⊢
        simp only [List.map_append, List.map_cons, List.map_nil, answers_append, h1, h.content, List.append_nil]

/-- As soon as the manager is stored and no thread is between the test and the storing, there is one registry for all threads, from then
on: all calls use the same manager and find what was registered by whichever thread before. -/
theorem C188_one_partial (m : ℕ) (s : St K) (sched : List ℕ) (h : Settled m s) :
    OneRegistry (run s sched) ∧ (∀ e ∈ (run s sched).log, e.1 = m) ∧ (run s sched).instance' = some m := by
  have : Settled m (run s sched) := by
    induction sched using List.reverseRecOn with
    | nil => exact h
    | append_singleton l j ih => rw [run, List.foldl_append, List.foldl_cons, List.foldl_nil]; exact step_settled m _ j ih
  exact ⟨this.one, this.used, this.inst⟩

/-- A call that is finished before other threads begin is enough: thread `j` alone at the beginning, for at least two steps, then any
schedule. -/
theorem C188_first (calls : ℕ → List (Call K)) (j : ℕ) (n : ℕ) (hn : 2 ≤ n) (hj : calls j ≠ []) (sched : List ℕ) :
    OneRegistry (run (start calls) (List.replicate n j ++ sched)) ∧
    ∀ e ∈ (run (start calls) (List.replicate n j ++ sched)).log, e.1 = 0 := by
  obtain ⟨c, cs, hc⟩ := List.exists_cons_of_ne_nil hj
  have h1 : step (start calls) j = { start calls with threads := Function.update (start calls).threads j ⟨.tested, c :: cs⟩ } := by
    simp [step, start, hc]
  have h2 : Settled 0 (step (step (start calls) j) j) := by
    rw [h1]
    have : step { start calls with threads := Function.update (start calls).threads j ⟨.tested, c :: cs⟩ } j =
        { start calls with
          instance' := some 0, made := 1, threads := Function.update (start calls).threads j ⟨.ready, c :: cs⟩ } := by
      simp [step, start]
    rw [this]
    refine ⟨rfl, fun i => ?_, by simp [start], by simp [start, known], by simp [start, OneRegistry, answers]⟩
    by_cases hi : i = j
    · subst hi; simp
    · simp [start, Function.update, hi]
  obtain ⟨k, rfl⟩ : ∃ k : ℕ, n = k + 2 := ⟨n - 2, by omega⟩
  have h3 := C188_one_partial 0 _ (List.replicate k j ++ sched) h2
  have h4 : run (start calls) (List.replicate (k + 2) j ++ sched) =
      run (step (step (start calls) j) j) (List.replicate k j ++ sched) := by
    simp [run, List.replicate_succ]
  rw [h4]
  exact ⟨h3.1, h3.2.1⟩

/-- In particular one thread by itself always has one registry. -/
theorem C188_sequential (calls : List (Call K)) (n : ℕ) :
    OneRegistry (run (start fun j => if j = 0 then calls else []) (List.replicate n 0)) := by
  cases hc : calls with
  | nil =>
    have : ∀ m : ℕ, run (start fun j => if j = 0 then ([] : List (Call K)) else []) (List.replicate m 0) =
        start fun j => if j = 0 then ([] : List (Call K)) else [] := by
      intro m
      induction m with
      | zero => rfl
      | succ m ih =>
        have : step (start fun j => if j = 0 then ([] : List (Call K)) else []) 0 =
            start fun j => if j = 0 then ([] : List (Call K)) else [] := by simp [step, start]
        rw [List.replicate_succ, run, List.foldl_cons, this]
        exact ih
    rw [this]
    simp [OneRegistry, start, answers]
  | cons c cs =>
    by_cases hn : 2 ≤ n
    · have := (C188_first (fun j => if j = 0 then c :: cs else []) 0 n hn (by simp) []).1
      simpa using this
    · have : n = 0 ∨ n = 1 := by omega
      rcases this with rfl | rfl <;> simp [run, start, step, OneRegistry, answers]

/-! ### How many managers -/

structure Counted (s : St K) (ws : Finset ℕ) : Prop where
  card : s.made = ws.card
  none : s.instance' = none → ws = ∅
  last : ∀ m : ℕ, s.instance' = some m → m + 1 = s.made
  mem : ∀ j ∈ ws, (s.threads j).phase ≠ .tested

theorem step_counted (s : St K) (j : ℕ) (ws : Finset ℕ) (h : Counted s ws) :
    Counted (step s j) ws ∨ (j ∉ ws ∧ Counted (step s j) (insert j ws)) := by
  unfold step
  split
  · exact .inl h
  · rename_i c cs hc
    split
    · left
      refine ⟨h.card, h.none, h.last, fun i hi => ?_⟩
      by_cases hij : i = j
      · subst hij
        have : s.instance' ≠ Option.none := fun hn => by rw [h.none hn] at hi; simp at hi
        simp [this]
      · simpa [Function.update, hij] using h.mem i hi
    · rename_i hp
      right
      have hj : j ∉ ws := fun hj => h.mem j hj hp
      refine ⟨hj, by simp [Finset.card_insert_of_notMem hj, h.card], by simp, by simp, fun i hi => ?_⟩
      by_cases hij : i = j
      · subst hij; simp
      · simpa [Function.update, hij] using h.mem i (by simpa [hij] using hi)
    · left
      split
      · rename_i m hm
        refine ⟨h.card, by simp [hm], fun m' hm' => h.last m' (by simpa [hm] using hm'), fun i hi => ?_⟩
        by_cases hij : i = j
        · subst hij; simp
        · simpa [Function.update, hij] using h.mem i hi
      · exact h
    · left
      refine ⟨h.card, h.none, h.last, fun i hi => ?_⟩
      by_cases hij : i = j
      · subst hij; simp
      · simpa [Function.update, hij] using h.mem i hi

/-- A thread makes at most one manager: there are at most as many as there are threads that have done anything. -/
theorem C188_managers (calls : ℕ → List (Call K)) (sched : List ℕ) :
    (run (start calls) sched).made ≤ sched.toFinset.card := by
  suffices h : ∃ ws : Finset ℕ, ws ⊆ sched.toFinset ∧ Counted (run (start calls) sched) ws by
    obtain ⟨ws, h1, h2⟩ := h
    rw [h2.card]
    exact Finset.card_le_card h1
  induction sched using List.reverseRecOn with
  | nil => exact ⟨∅, by simp, ⟨rfl, fun _ => rfl, by simp [run, start], by simp⟩⟩
  | append_singleton l j ih =>
    obtain ⟨ws, h1, h2⟩ := ih
    have hs : run (start calls) (l ++ [j]) = step (run (start calls) l) j := by simp [run]
    rw [hs]
    rcases step_counted _ j ws h2 with h3 | ⟨_, h3⟩
    · exact ⟨ws, fun x hx => by simp [List.mem_toFinset.1 (h1 hx)], h3⟩
    · refine ⟨insert j ws, fun x hx => ?_, h3⟩
      rw [Finset.mem_insert] at hx
      rcases hx with rfl | hx
      · simp
      · simp [List.mem_toFinset.1 (h1 hx)]

/-! ### Cases -/

/-- Two threads: the first registers 7, the second 8; then the first looks for 7. -/
def two : St ℕ := start fun j => if j = 0 then [.register 7, .find 7] else if j = 1 then [.register 8, .find 7] else []

/-- Both make their first call at the same time. The second stores its manager when the first has registered its component: nobody finds it
any more. -/
theorem C188_counterexample :
    (run two [0, 1, 0, 0, 0, 1, 1, 1, 0, 0, 0]).log = [(0, .register 7, false), (1, .register 8, false), (1, .find 7, false)] ∧
    ¬ OneRegistry (run two [0, 1, 0, 0, 0, 1, 1, 1, 0, 0, 0]) := by decide +kernel

/-- The first is ahead. -/
example : (run two [0, 0, 1, 0, 0, 1, 1, 1, 1, 0, 0, 0]).log = [(0, .register 7, false), (0, .register 8, false), (0, .find 7, true)] := by
  decide +kernel

/-- Nested at the test, but both read the manager that was stored last. -/
example : (run two [0, 1, 0, 1, 0, 0, 1, 1, 1, 1, 1]).log = [(1, .register 7, false), (1, .register 8, false), (1, .find 7, true)] := by
  decide +kernel

example : (run two [0, 1, 0, 1]).made = 2 := by decide +kernel

end Verif.Registry.Single
