import Verif.Py.Basic
import Mathlib.Logic.Function.Basic
import Mathlib.Tactic.Common

set_option linter.unusedSectionVars false

/-!
C108: a `Promise` (`nion/utils/Promise.py:7-35`) read by several threads. Each thread has a stack of reads of `value`, innermost first:
the function may read the promise itself, the lock being re-entrant. The steps of `value` are: acquire the lock (21), test the
function (22), call it, store its result (23), drop the function (24), return the value and release the lock (25). What the function
returns, or that it raises, is chosen by the schedule. `opt_value` and `has_value` (27-35) take no lock and are one step.
-/

namespace Verif.Small.PromiseThreads

/-- Where a read of `value` is. -/
inductive PC (V : Type) where
  | acquire
  | test
  /-- in the function -/
  | inFn
  | store (v : V)
  | drop
  | ret

/-- The lock's owner, `__value`, whether `__fn` is set, the stacks; and for the specification: how often the function has been called, the
values it returned, how often it raised, the values `value` and `opt_value` gave. -/
structure St (T V : Type) where
  owner : Option T
  value : Option V
  fn : Bool
  pcs : T → List (PC V)
  calls : ℕ
  results : List V
  raises : ℕ
  reads : List (Option V)
  opts : List (Option V)

variable {T V : Type} [DecidableEq T]

def St.init : St T V := ⟨none, none, true, fun _ => [], 0, [], 0, [], []⟩

inductive Act (T V : Type) where
  /-- `value` is read by the thread, perhaps inside the function -/
  | read (t : T)
  /-- the innermost read goes on -/
  | go (t : T)
  | fnReturns (t : T) (v : V)
  | fnRaises (t : T)
  /-- `opt_value` -/
  | opt

def St.set (s : St T V) (t : T) (l : List (PC V)) : St T V := { s with pcs := Function.update s.pcs t l }

/-- The lock is released with the outermost read. -/
def released (s : St T V) (rest : List (PC V)) : Option T := if rest.length = 0 then none else s.owner

/-- One step of the innermost read; `none` if it has to wait. -/
def goRead (s : St T V) (t : T) (rest : List (PC V)) : PC V → Option (St T V)
  | .acquire => if s.owner = none ∨ s.owner = some t then some { s.set t (.test :: rest) with owner := some t } else none
  | .test => if s.fn then some { s.set t (.inFn :: rest) with calls := s.calls + 1 } else some (s.set t (.ret :: rest))
  | .inFn => none
  | .store v => some { s.set t (.drop :: rest) with value := some v }
  | .drop => some { s.set t (.ret :: rest) with fn := false }
  | .ret => some { s.set t rest with owner := released s rest, reads := s.reads ++ [s.value] }

def step (s : St T V) : Act T V → Option (St T V)
  | .read t =>
    match s.pcs t with
    | [] => some (s.set t [.acquire])
    | .inFn :: rest => some (s.set t (.acquire :: .inFn :: rest))
    | _ => none
  | .go t =>
    match s.pcs t with
    | [] => none
    | pc :: rest => goRead s t rest pc
  | .fnReturns t v =>
    match s.pcs t with
    | .inFn :: rest => some { s.set t (.store v :: rest) with results := s.results ++ [v] }
    | _ => none
  | .fnRaises t =>
    match s.pcs t with
    | .inFn :: rest => some { s.set t rest with owner := released s rest, raises := s.raises + 1 }
    | _ => none
  | .opt => some { s with opts := s.opts ++ [s.value] }

/-- The step is not a read of the promise by its own function. -/
def Act.Outer (s : St T V) : Act T V → Prop
  | .read t => s.pcs t = []
  | _ => True

/-- The states reached while the function does not read the promise. -/
inductive Reach : St T V → Prop where
  | init : Reach St.init
  | step {s s' : St T V} (a : Act T V) (hr : Reach s) (ho : a.Outer s) (h : step s a = some s') : Reach s'

/-- All states. -/
inductive ReachAny : St T V → Prop where
  | init : ReachAny St.init
  | step {s s' : St T V} (a : Act T V) (hr : ReachAny s) (h : step s a = some s') : ReachAny s'

/-! ### Invariant -/

/-- Nobody holds the lock, or it has just been acquired. -/
def Base (s : St T V) : Prop := (s.fn = true → s.results = [] ∧ s.value = none) ∧ s.calls = s.results.length + s.raises

/-- What is known from where the owner of the lock is. -/
def Phase (s : St T V) : PC V → Prop
  | .acquire => False
  | .test => Base s
  | .inFn => s.fn = true ∧ s.results = [] ∧ s.value = none ∧ s.calls = s.raises + 1
  | .store v => s.fn = true ∧ s.results = [v] ∧ s.value = none ∧ s.calls = s.raises + 1
  | .drop => s.fn = true ∧ (∃ v, s.results = [v] ∧ s.value = some v) ∧ s.calls = s.raises + 1
  | .ret => s.fn = false ∧ s.calls = s.results.length + s.raises

structure Inv (s : St T V) : Prop where
  others : ∀ t, s.owner ≠ some t → s.pcs t = [] ∨ s.pcs t = [.acquire]
  owned : ∀ t, s.owner = some t → ∃ pc, s.pcs t = [pc] ∧ Phase s pc
  free : s.owner = none → Base s
  dropped : s.fn = false → ∃ v, s.results = [v] ∧ s.value = some v
  stored : ∀ v, s.value = some v → s.results = [v]
  reads : ∀ r ∈ s.reads, s.fn = false ∧ r = s.value
  opts : ∀ r ∈ s.opts, r = none ∨ r = s.value

theorem inv_init : Inv (St.init : St T V) :=
  ⟨fun _ _ => .inl rfl, by simp [St.init], fun _ => ⟨fun _ => ⟨rfl, rfl⟩, rfl⟩, by simp [St.init], by simp [St.init], by simp [St.init],
    by simp [St.init]⟩

/-- Who has a read beyond `acquire` owns the lock. -/
theorem Inv.top {s : St T V} (h : Inv s) {t : T} {pc : PC V} {rest : List (PC V)} (ht : s.pcs t = pc :: rest) (hpc : pc ≠ .acquire) :
    s.owner = some t ∧ rest = [] ∧ Phase s pc := by
  by_cases ho : s.owner = some t
  · obtain ⟨pc', h1, h2⟩ := h.owned t ho
    rw [h1] at ht
    cases ht
    exact ⟨ho, rfl, h2⟩
  · rcases h.others t ho with h1 | h1
    · rw [h1] at ht; cases ht
    · rw [h1] at ht
      cases ht
      exact absurd rfl hpc

/-- The owner goes on and keeps the lock. -/
theorem Inv.keep {s s' : St T V} (h : Inv s) {t : T} {pc : PC V} (ho : s.owner = some t) (h1 : s'.pcs = Function.update s.pcs t [pc])
    (h2 : s'.owner = s.owner) (hp : Phase s' pc) (hd : s'.fn = false → ∃ v, s'.results = [v] ∧ s'.value = some v)
    (hst : ∀ v, s'.value = some v → s'.results = [v]) (hr : ∀ r ∈ s'.reads, s'.fn = false ∧ r = s'.value)
    (hop : ∀ r ∈ s'.opts, r = none ∨ r = s'.value) : Inv s' := by
  refine ⟨fun u hu => ?_, fun u hu => ?_, fun hn => ?_, hd, hst, hr, hop⟩
  · have hne : u ≠ t := by
      rintro rfl
      exact hu (h2 ▸ ho)
    rw [h1, Function.update_of_ne hne]
    exact h.others u (h2 ▸ hu)
  · rw [h2, ho] at hu
    cases hu
    exact ⟨pc, by rw [h1, Function.update_self], hp⟩
  · rw [h2, ho] at hn
    cases hn

/-- The owner ends its read and releases the lock. -/
theorem Inv.release {s s' : St T V} (h : Inv s) {t : T} (ho : s.owner = some t) (h1 : s'.pcs = Function.update s.pcs t [])
    (h2 : s'.owner = none) (hb : Base s') (hd : s'.fn = false → ∃ v, s'.results = [v] ∧ s'.value = some v)
    (hst : ∀ v, s'.value = some v → s'.results = [v]) (hr : ∀ r ∈ s'.reads, s'.fn = false ∧ r = s'.value)
    (hop : ∀ r ∈ s'.opts, r = none ∨ r = s'.value) : Inv s' := by
  refine ⟨fun u hu => ?_, fun u hu => ?_, fun _ => hb, hd, hst, hr, hop⟩
  · by_cases hne : u = t
    · subst hne
      rw [h1, Function.update_self]
      exact .inl rfl
    · rw [h1, Function.update_of_ne hne]
      exact h.others u (by rw [ho]; simpa using Ne.symm hne)
  · rw [h2] at hu
    cases hu

theorem inv_step {s s' : St T V} (h : Inv s) (a : Act T V) (ho : a.Outer s) (hs : step s a = some s') : Inv s' := by
  have hreads : s.value = none → s.reads = [] := by
    intro hv
    rcases hl : s.reads with _ | ⟨r, l⟩
    · rfl
    · have := h.reads r (by simp [hl])
      obtain ⟨v, -, hv'⟩ := h.dropped this.1
      rw [hv] at hv'
      cases hv'
  have hopts : s.value = none → ∀ r ∈ s.opts, r = none := by
    intro hv r hr
    rcases h.opts r hr with h' | h'
    · exact h'
    · rw [h', hv]
  cases a with
  | read t =>
    have ho' : s.pcs t = [] := ho
    simp only [step, ho', Option.some.injEq] at hs
    subst hs
    have hno : s.owner ≠ some t := fun h' => by
      obtain ⟨pc, h1, -⟩ := h.owned t h'
      rw [ho'] at h1
      cases h1
    refine ⟨fun u hu => ?_, fun u hu => ?_, h.free, h.dropped, h.stored, h.reads, h.opts⟩
    · by_cases hne : u = t
      · subst hne
        exact .inr (by simp [St.set])
      · simpa [St.set, hne] using h.others u hu
    · have hne : u ≠ t := by
        rintro rfl
        exact hno hu
      obtain ⟨pc, h1, h2⟩ := h.owned u hu
      exact ⟨pc, by simpa [St.set, hne] using h1, by cases pc <;> exact h2⟩
  | go t =>
    simp only [step] at hs
    split at hs
    · cases hs
    · rename_i pc rest hp
      cases pc with
      | acquire =>
        simp only [goRead] at hs
        split at hs
        · rename_i hfree
          simp only [Option.some.injEq] at hs
          subst hs
          have hno : s.owner ≠ some t := fun h' => by
            obtain ⟨pc, h1, h2⟩ := h.owned t h'
            rw [hp] at h1
            cases h1
            exact h2
          have hn : s.owner = none := by tauto
          have hrest : rest = [] := by
            rcases h.others t hno with h1 | h1 <;> rw [hp] at h1
            · cases h1
            · cases h1; rfl
          subst hrest
          refine ⟨fun u hu => ?_, fun u hu => ?_, by simp, h.dropped, h.stored, h.reads, h.opts⟩
          · have hne : u ≠ t := by
              rintro rfl
              exact hu rfl
            simpa [St.set, hne] using h.others u (by simp [hn])
          · simp only [Option.some.injEq] at hu
            subst hu
            exact ⟨.test, by simp [St.set], h.free hn⟩
        · cases hs
      | test =>
        obtain ⟨ho, rfl, hph⟩ := h.top hp (by simp)
        simp only [goRead] at hs
        split at hs
        · rename_i hfn
          simp only [Option.some.injEq] at hs
          subst hs
          obtain ⟨h1, h2⟩ := hph.1 hfn
          refine h.keep ho rfl rfl ⟨hfn, h1, h2, ?_⟩ h.dropped h.stored h.reads h.opts
          have := hph.2
          rw [h1] at this
          simp at this
          simp [this, St.set]
        · rename_i hfn
          simp only [Option.some.injEq] at hs
          subst hs
          exact h.keep ho rfl rfl ⟨by simpa [St.set] using hfn, hph.2⟩ h.dropped h.stored h.reads h.opts
      | inFn => simp [goRead] at hs
      | store v =>
        obtain ⟨ho, rfl, hph⟩ := h.top hp (by simp)
        simp only [goRead, Option.some.injEq] at hs
        subst hs
        obtain ⟨h1, h2, h3, h4⟩ := hph
        refine h.keep ho rfl rfl ⟨h1, ⟨v, h2, rfl⟩, h4⟩ (fun hf => by simp [St.set, h1] at hf) (fun w hw => ?_) ?_ ?_
        · simp only [Option.some.injEq] at hw
          subst hw
          exact h2
        · intro r hr
          have : r ∈ s.reads := hr
          rw [hreads h3] at this
          cases this
        · intro r hr
          exact .inl (hopts h3 r hr)
      | drop =>
        obtain ⟨ho, rfl, hph⟩ := h.top hp (by simp)
        simp only [goRead, Option.some.injEq] at hs
        subst hs
        obtain ⟨h1, ⟨v, h2, h3⟩, h4⟩ := hph
        refine h.keep ho rfl rfl ⟨rfl, ?_⟩ (fun _ => ⟨v, h2, h3⟩) h.stored (fun r hr => ⟨rfl, (h.reads r hr).2⟩) h.opts
        show s.calls = s.results.length + s.raises
        rw [h2, h4]
        simp
        omega
      | ret =>
        obtain ⟨ho, rfl, hph⟩ := h.top hp (by simp)
        simp only [goRead, Option.some.injEq] at hs
        subst hs
        obtain ⟨h1, h2⟩ := hph
        refine h.release ho rfl rfl ⟨fun hf => ?_, h2⟩ h.dropped h.stored (fun r hr => ?_) h.opts
        · have : s.fn = true := hf
          rw [h1] at this
          cases this
        · rcases List.mem_append.1 hr with hr | hr
          · exact h.reads r hr
          · simp only [List.mem_singleton] at hr
            exact ⟨h1, hr⟩
  | fnReturns t v =>
    simp only [step] at hs
    split at hs
    · rename_i rest hp
      obtain ⟨ho, rfl, hph⟩ := h.top hp (by simp)
      simp only [Option.some.injEq] at hs
      subst hs
      obtain ⟨h1, h2, h3, h4⟩ := hph
      refine h.keep ho rfl rfl ⟨h1, by simp [h2], h3, h4⟩ (fun hf => by simp [St.set, h1] at hf) (fun w hw => ?_) h.reads h.opts
      have : s.value = some w := hw
      rw [h3] at this
      cases this
    · cases hs
  | fnRaises t =>
    simp only [step] at hs
    split at hs
    · rename_i rest hp
      obtain ⟨ho, rfl, hph⟩ := h.top hp (by simp)
      simp only [Option.some.injEq] at hs
      subst hs
      obtain ⟨h1, h2, h3, h4⟩ := hph
      refine h.release ho rfl rfl ⟨fun _ => ⟨h2, h3⟩, ?_⟩ h.dropped h.stored h.reads h.opts
      show s.calls = s.results.length + (s.raises + 1)
      rw [h2, h4]
      simp
    · cases hs
  | opt =>
    simp only [step, Option.some.injEq] at hs
    subst hs
    refine ⟨h.others, fun t ht => ?_, h.free, h.dropped, h.stored, h.reads, fun r hr => ?_⟩
    · obtain ⟨pc, h1, h2⟩ := h.owned t ht
      exact ⟨pc, h1, by cases pc <;> exact h2⟩
    · rcases List.mem_append.1 hr with hr | hr
      · exact h.opts r hr
      · simp only [List.mem_singleton] at hr
        exact .inr hr

theorem Reach.inv {s : St T V} (hr : Reach s) : Inv s := by
  induction hr with
  | init => exact inv_init
  | step a _ ho h ih => exact inv_step ih a ho h

/-! ### C108 -/

/-- C108 (partial: the function does not read its own promise): for every schedule, the function returns at most once, is never called
after it has returned, and every read of `value`, by any thread, gives what it returned; `opt_value` gives that or `None`. -/
theorem C108_once_partial (s : St T V) (hr : Reach s) :
    s.results.length ≤ 1 ∧ (∀ r ∈ s.reads, ∃ v, s.results = [v] ∧ r = some v) ∧ (∀ r ∈ s.opts, r = none ∨ ∃ v, s.results = [v] ∧ r = some v) ∧
      (s.owner = none → s.calls = s.results.length + s.raises) := by
  have hi := hr.inv
  refine ⟨?_, fun r hr' => ?_, fun r hr' => ?_, fun hn => (hi.free hn).2⟩
  · cases ho : s.owner with
    | none =>
      cases hf : s.fn with
      | true => rw [((hi.free ho).1 hf).1]; simp
      | false =>
        obtain ⟨v, h1, -⟩ := hi.dropped hf
        simp [h1]
    | some t =>
      obtain ⟨pc, -, h2⟩ := hi.owned t ho
      cases hf : s.fn with
      | false =>
        obtain ⟨v, h1, -⟩ := hi.dropped hf
        simp [h1]
      | true =>
        cases pc with
        | acquire => exact h2.elim
        | test => rw [(h2.1 hf).1]; simp
        | inFn => rw [h2.2.1]; simp
        | store v => rw [h2.2.1]; simp
        | drop =>
          obtain ⟨-, ⟨v, h3, -⟩, -⟩ := h2
          simp [h3]
        | ret => rw [h2.1] at hf; cases hf
  · obtain ⟨h1, h2⟩ := hi.reads r hr'
    obtain ⟨v, h3, h4⟩ := hi.dropped h1
    exact ⟨v, h3, h2.trans h4⟩
  · rcases hi.opts r hr' with h1 | h1
    · exact .inl h1
    · cases hv : s.value with
      | none => exact .inl (h1.trans hv)
      | some v => exact .inr ⟨v, hi.stored v hv, h1.trans hv⟩

/-- C108 (partial as above): once the function has returned and that read has ended or another thread's read has got the lock, it is not
called any more: the number of calls stays. -/
theorem C108_no_call_partial (s s' : St T V) (hr : Reach s) (a : Act T V) (hs : step s a = some s') (hd : s.fn = false) :
    s'.calls = s.calls ∧ s'.results = s.results ∧ s'.value = s.value ∧ s'.fn = false := by
  have hi := hr.inv
  obtain ⟨v, h1, h2⟩ := hi.dropped hd
  have hnot : ∀ t rest, s.pcs t ≠ .inFn :: rest := by
    intro t rest hp
    have := (hi.top hp (by simp)).2.2
    rw [this.1] at hd
    cases hd
  cases a with
  | read t =>
    simp only [step] at hs
    split at hs
    · cases hs; exact ⟨rfl, rfl, rfl, hd⟩
    · cases hs; exact ⟨rfl, rfl, rfl, hd⟩
    · cases hs
  | go t =>
    simp only [step] at hs
    split at hs
    · cases hs
    · rename_i pc rest hp
      cases pc with
      | acquire =>
        simp only [goRead] at hs
        split at hs
        · cases hs; exact ⟨rfl, rfl, rfl, hd⟩
        · cases hs
      | test =>
        simp only [goRead, hd] at hs
        cases hs
        exact ⟨rfl, rfl, rfl, hd⟩
      | inFn => simp [goRead] at hs
      | store w =>
        have := (hi.top hp (by simp)).2.2
        rw [this.1] at hd
        cases hd
      | drop =>
        have := (hi.top hp (by simp)).2.2
        rw [this.1] at hd
        cases hd
      | ret =>
        cases hs
        exact ⟨rfl, rfl, rfl, hd⟩
  | fnReturns t w =>
    simp only [step] at hs
    split at hs
    · rename_i rest hp
      exact absurd hp (hnot t rest)
    · cases hs
  | fnRaises t =>
    simp only [step] at hs
    split at hs
    · rename_i rest hp
      exact absurd hp (hnot t rest)
    · cases hs
  | opt =>
    cases hs
    exact ⟨rfl, rfl, rfl, hd⟩

/-! ### Functions that read their own promise -/

/-- What is known from where the innermost read is. -/
def Top (s : St T V) : PC V → Prop
  | .store v => v ∈ s.results
  | .drop => ∃ v, s.value = some v
  | .ret => ∃ v, s.value = some v
  | _ => True

/-- The lock and the stacks, whatever the function does. -/
structure InvAny (s : St T V) : Prop where
  others : ∀ t, s.owner ≠ some t → s.pcs t = [] ∨ s.pcs t = [.acquire]
  owned : ∀ t, s.owner = some t → ∃ pc rest, s.pcs t = pc :: rest ∧ (∀ q ∈ rest, q = .inFn) ∧ (pc = .acquire → rest ≠ [])
  dropped : s.fn = false → ∃ v, s.value = some v
  stored : ∀ v, s.value = some v → v ∈ s.results
  tops : ∀ t pc rest, s.pcs t = pc :: rest → Top s pc
  reads : ∀ r ∈ s.reads, ∃ v ∈ s.results, r = some v

theorem InvAny.top {s : St T V} (h : InvAny s) {t : T} {pc : PC V} {rest : List (PC V)} (ht : s.pcs t = pc :: rest)
    (hpc : pc ≠ .acquire ∨ rest ≠ []) : s.owner = some t ∧ ∀ q ∈ rest, q = .inFn := by
  by_cases ho : s.owner = some t
  · obtain ⟨pc', r', h1, h2, -⟩ := h.owned t ho
    rw [h1] at ht
    cases ht
    exact ⟨ho, h2⟩
  · rcases h.others t ho with h1 | h1
    · rw [h1] at ht; cases ht
    · rw [h1] at ht
      cases ht
      rcases hpc with h | h <;> exact absurd rfl h

/-- A step of `t` that replaces its stack and keeps or takes the lock. -/
theorem InvAny.keep {s s' : St T V} (h : InvAny s) {t : T} {pc : PC V} {rest : List (PC V)} (ho : s.owner = none ∨ s.owner = some t)
    (h1 : s'.owner = some t) (h2 : s'.pcs = Function.update s.pcs t (pc :: rest)) (hr : ∀ q ∈ rest, q = .inFn)
    (hpc : pc = .acquire → rest ≠ []) (h3 : s'.fn = false → ∃ v, s'.value = some v) (h4 : ∀ v, s'.value = some v → v ∈ s'.results)
    (h5 : Top s' pc)
    (h6 : s'.reads = s.reads) (h7 : ∀ v ∈ s.results, v ∈ s'.results) : InvAny s' := by
  have hoth : ∀ u, u ≠ t → s.pcs u = [] ∨ s.pcs u = [.acquire] := by
    intro u hu
    refine h.others u (fun e => ?_)
    rcases ho with ho | ho
    · rw [ho] at e; cases e
    · rw [ho] at e; cases e; exact hu rfl
  refine ⟨fun u hu => ?_, fun u hu => ?_, h3, h4, fun u pc' r' hp => ?_, fun r hr' => ?_⟩
  · have hut : u ≠ t := fun e => hu (by rw [h1, e])
    rw [h2, Function.update_of_ne hut]
    exact hoth u hut
  · rw [h1] at hu
    cases hu
    exact ⟨pc, rest, by rw [h2, Function.update_self], hr, hpc⟩
  · rw [h2] at hp
    by_cases hut : u = t
    · subst hut
      rw [Function.update_self] at hp
      cases hp
      exact h5
    · rw [Function.update_of_ne hut] at hp
      rcases hoth u hut with h8 | h8 <;> rw [h8] at hp <;> cases hp
      trivial
  · rw [h6] at hr'
    obtain ⟨v, h8, h9⟩ := h.reads r hr'
    exact ⟨v, h7 v h8, h9⟩

/-- A read that ends. -/
theorem InvAny.pop {s s' : St T V} (h : InvAny s) {t : T} {rest : List (PC V)} (ho : s.owner = some t) (hr : ∀ q ∈ rest, q = .inFn)
    (h1 : s'.owner = released s rest) (h2 : s'.pcs = Function.update s.pcs t rest) (h3 : s'.fn = s.fn) (h4 : s'.value = s.value)
    (h5 : s'.results = s.results) (h6 : ∀ r ∈ s'.reads, ∃ v ∈ s.results, r = some v) : InvAny s' := by
  have hoth : ∀ u, u ≠ t → s.pcs u = [] ∨ s.pcs u = [.acquire] := by
    intro u hu
    exact h.others u (fun e => by rw [ho] at e; cases e; exact hu rfl)
  refine ⟨fun u hu => ?_, fun u hu => ?_, by rw [h3, h4]; exact h.dropped, by rw [h4, h5]; exact h.stored, fun u pc' r' hp => ?_,
    by rw [h5]; exact h6⟩
  · rw [h1, released] at hu
    rw [h2]
    by_cases hut : u = t
    · subst hut
      rw [Function.update_self]
      left
      by_contra hne
      rw [if_neg (by simpa using hne)] at hu
      exact hu ho
    · rw [Function.update_of_ne hut]
      exact hoth u hut
  · rw [h1, released] at hu
    split at hu
    · cases hu
    · rename_i hne
      rw [ho] at hu
      cases hu
      cases hrest : rest with
      | nil => rw [hrest] at hne; simp at hne
      | cons q qs =>
        have hq := hr q (by simp [hrest])
        exact ⟨q, qs, by rw [h2, Function.update_self, hrest], fun k hk => hr k (by simp [hrest, hk]), fun e => by rw [hq] at e; cases e⟩
  · rw [h2] at hp
    by_cases hut : u = t
    · subst hut
      rw [Function.update_self] at hp
      have := hr pc' (by rw [hp]; simp)
      subst this
      trivial
    · rw [Function.update_of_ne hut] at hp
      rcases hoth u hut with h8 | h8 <;> rw [h8] at hp <;> cases hp
      trivial

theorem invAny_step {s s' : St T V} (h : InvAny s) (a : Act T V) (hs : step s a = some s') : InvAny s' := by
  cases a with
  | read t =>
    simp only [step] at hs
    split at hs
    · rename_i hp
      simp only [Option.some.injEq] at hs
      subst hs
      have hno : s.owner ≠ some t := fun ho => by
        obtain ⟨pc, r, h1, -⟩ := h.owned t ho
        rw [h1] at hp; cases hp
      refine ⟨fun u hu => ?_, fun u hu => ?_, h.dropped, h.stored, fun u pc' r' hp' => ?_, h.reads⟩
      · change Function.update s.pcs t _ u = [] ∨ Function.update s.pcs t _ u = _
        by_cases hut : u = t
        · subst hut; right; rw [Function.update_self]
        · rw [Function.update_of_ne hut]; exact h.others u hu
      · have hut : u ≠ t := fun e => hno (e ▸ hu)
        obtain ⟨pc, r, h1, h2⟩ := h.owned u hu
        refine ⟨pc, r, ?_, h2⟩
        change Function.update s.pcs t _ u = _
        rw [Function.update_of_ne hut, h1]
      · change Function.update s.pcs t _ u = _ at hp'
        by_cases hut : u = t
        · subst hut
          rw [Function.update_self] at hp'
          cases hp'
          trivial
        · rw [Function.update_of_ne hut] at hp'
          exact h.tops u pc' r' hp'
    · rename_i rest hp
      simp only [Option.some.injEq] at hs
      subst hs
      obtain ⟨ho, hr⟩ := h.top hp (.inl (by simp))
      exact h.keep (pc := .acquire) (rest := .inFn :: rest) (.inr ho) ho rfl (by simpa using hr) (by simp) h.dropped h.stored trivial rfl
        (fun _ h => h)
    · cases hs
  | go t =>
    simp only [step] at hs
    split at hs
    · cases hs
    · rename_i pc rest hp
      have htop := h.tops t pc rest hp
      cases pc with
      | acquire =>
        simp only [goRead] at hs
        split at hs
        · rename_i ho
          simp only [Option.some.injEq] at hs
          subst hs
          have hr : ∀ q ∈ rest, q = .inFn := by
            by_cases hne : rest = []
            · simp [hne]
            · exact (h.top hp (.inr hne)).2
          exact h.keep (pc := .test) ho rfl rfl hr (by simp) h.dropped h.stored trivial rfl (fun _ h => h)
        · cases hs
      | test =>
        obtain ⟨ho, hr⟩ := h.top hp (.inl (by simp))
        simp only [goRead] at hs
        split at hs <;> simp only [Option.some.injEq] at hs <;> subst hs
        · exact h.keep (pc := .inFn) (.inr ho) ho rfl hr (by simp) h.dropped h.stored trivial rfl (fun _ h => h)
        · rename_i hf
          exact h.keep (pc := .ret) (.inr ho) ho rfl hr (by simp) h.dropped h.stored (h.dropped (by simpa using hf)) rfl (fun _ h => h)
      | inFn => simp [goRead] at hs
      | store v =>
        obtain ⟨ho, hr⟩ := h.top hp (.inl (by simp))
        simp only [goRead, Option.some.injEq] at hs
        subst hs
        refine h.keep (pc := .drop) (.inr ho) ho rfl hr (by simp) (fun _ => ⟨v, rfl⟩) (fun w hw => ?_) ⟨v, rfl⟩ rfl (fun _ h => h)
        change some v = some w at hw
        cases hw
        exact htop
      | drop =>
        obtain ⟨ho, hr⟩ := h.top hp (.inl (by simp))
        simp only [goRead, Option.some.injEq] at hs
        subst hs
        exact h.keep (pc := .ret) (.inr ho) ho rfl hr (by simp) (fun _ => htop) h.stored htop rfl (fun _ h => h)
      | ret =>
        obtain ⟨ho, hr⟩ := h.top hp (.inl (by simp))
        simp only [goRead, Option.some.injEq] at hs
        subst hs
        refine h.pop ho hr rfl rfl rfl rfl rfl (fun r hr' => ?_)
        change r ∈ s.reads ++ [s.value] at hr'
        simp only [List.mem_append, List.mem_singleton] at hr'
        rcases hr' with hr' | hr'
        · exact h.reads r hr'
        · obtain ⟨v, hv⟩ := htop
          exact ⟨v, h.stored v hv, hr'.trans hv⟩
  | fnReturns t v =>
    simp only [step] at hs
    split at hs
    · rename_i rest hp
      obtain ⟨ho, hr⟩ := h.top hp (.inl (by simp))
      simp only [Option.some.injEq] at hs
      subst hs
      refine h.keep (pc := .store v) (.inr ho) ho rfl hr (by simp) h.dropped (fun w hw => ?_) ?_ rfl (fun w hw => ?_)
      · exact List.mem_append_left _ (h.stored w hw)
      · change v ∈ s.results ++ [v]; simp
      · exact List.mem_append_left _ hw
    · cases hs
  | fnRaises t =>
    simp only [step] at hs
    split at hs
    · rename_i rest hp
      obtain ⟨ho, hr⟩ := h.top hp (.inl (by simp))
      simp only [Option.some.injEq] at hs
      subst hs
      exact h.pop ho hr rfl rfl rfl rfl rfl h.reads
    · cases hs
  | opt =>
    simp only [step, Option.some.injEq] at hs
    subst hs
    exact ⟨h.others, h.owned, h.dropped, h.stored, h.tops, h.reads⟩

theorem ReachAny.inv {s : St T V} (hr : ReachAny s) : InvAny s := by
  induction hr with
  | init => exact ⟨fun _ _ => .inl rfl, by simp [St.init], by simp [St.init], by simp [St.init], by simp [St.init], by simp [St.init]⟩
  | step a _ hs ih => exact invAny_step ih a hs

/-- C108, for every function, also one that reads its own promise: it never runs in two threads at once, and while it runs no other read
gets beyond the lock; every read gives a value that the function has returned. -/
theorem C108_exclusive (s : St T V) (hr : ReachAny s) :
    (∀ t u, .inFn ∈ s.pcs t → u ≠ t → s.pcs u = [] ∨ s.pcs u = [.acquire]) ∧ ∀ r ∈ s.reads, ∃ v ∈ s.results, r = some v := by
  refine ⟨fun t u ht hu => ?_, hr.inv.reads⟩
  refine hr.inv.others u (fun ho => ?_)
  have ht' : s.owner = some t := by
    by_contra hne
    rcases hr.inv.others t hne with h1 | h1 <;> rw [h1] at ht <;> simp at ht
  rw [ht'] at ho
  cases ho
  exact hu rfl

/-! ### Cases -/

def run : List (Act T V) → St T V → Option (St T V)
  | [], s => some s
  | a :: as, s => (step s a).bind (run as)

/-- Two threads; the function raises in the first, `opt_value` is read in between; then it returns 5 in the second and both have it. -/
example : (run [.read true, .read false, .go true, .go true, .fnRaises true, .opt, .go false, .go false, .read true, .fnReturns false 5,
    .opt, .go false, .opt, .go false, .go false, .go true, .go true, .go true] (St.init : St Bool ℕ)).map
      (fun s => (s.reads, s.opts, s.results, s.calls)) = some ([some 5, some 5], [none, none, some 5], [5], 2) := by
  decide

theorem reach_run {as : List (Act T V)} {s s' : St T V} (hs : ReachAny s) (h : run as s = some s') : ReachAny s' := by
  induction as generalizing s with
  | nil => cases h; exact hs
  | cons a as ih =>
    rw [run] at h
    cases h1 : step s a with
    | none => rw [h1] at h; cases h
    | some s1 => rw [h1] at h; exact ih (.step a hs h1) h

/-- C108, negative: the function reads its own promise: it is called again inside itself; the inner read gives 1, later reads give 2. -/
theorem C108_counterexample : ∃ s : St Bool ℕ, ReachAny s ∧ s.results = [1, 2] ∧ s.reads = [some 1, some 2] :=
  ⟨_, reach_run (as := [.read true, .go true, .go true, .read true, .go true, .go true, .fnReturns true 1, .go true, .go true, .go true,
    .fnReturns true 2, .go true, .go true, .go true]) .init rfl, by decide, by decide⟩

end Verif.Small.PromiseThreads
