import Verif.Pool.Props

/-!
What `close` leaves behind (properties C82, C83): the queue is empty and the worker threads have ended; what `run_all`
leaves behind.
-/

set_option linter.unusedSimpArgs false

namespace Verif.Pool

open Verif.Py

section
variable {Tid : Type*} [DecidableEq Tid] [Fintype Tid]

/-! ### Counting frames -/

def cnt (g : Frame → Nat) (st : List Frame) : Nat := (st.map g).sum

@[simp] theorem cnt_nil (g : Frame → Nat) : cnt g [] = 0 := rfl
@[simp] theorem cnt_cons (g : Frame → Nat) (f : Frame) (st : List Frame) : cnt g (f :: st) = g f + cnt g st := by
  simp [cnt]

theorem cnt_le {g h : Frame → Nat} (hle : ∀ f, g f ≤ h f) (st : List Frame) : cnt g st ≤ cnt h st := by
  induction st with
  | nil => simp
  | cons f st ih => have := hle f; simp; omega

theorem cnt_eq_zero {g : Frame → Nat} {st : List Frame} (h : cnt g st = 0) {f : Frame} (hf : f ∈ st) : g f = 0 := by
  induction st with
  | nil => simp at hf
  | cons x st ih =>
    simp only [cnt_cons] at h
    rcases List.mem_cons.1 hf with rfl | hf
    · omega
    · exact ih (by omega) hf

def all (g : Frame → Nat) (stk : Tid → List Frame) : Nat := ∑ w, cnt g (stk w)

omit [DecidableEq Tid] in
theorem all_eq_zero {g : Frame → Nat} {stk : Tid → List Frame} (h : all g stk = 0) (w : Tid) : cnt g (stk w) = 0 := by
  have := Finset.single_le_sum (f := fun v => cnt g (stk v)) (s := Finset.univ) (fun _ _ => Nat.zero_le _) (Finset.mem_univ w)
  unfold all at h
  omega

omit [DecidableEq Tid] in
theorem all_le {g h : Frame → Nat} (hle : ∀ f, g f ≤ h f) (stk : Tid → List Frame) : all g stk ≤ all h stk :=
  Finset.sum_le_sum fun w _ => cnt_le hle (stk w)

theorem all_update (g : Frame → Nat) (stk : Tid → List Frame) (tid : Tid) (st : List Frame) :
    all g (Function.update stk tid st) + cnt g (stk tid) = all g stk + cnt g st := sum_update (cnt g) stk tid st

/-- worker threads that will take another item -/
def fA : Frame → Nat
  | .get .worker => 1
  | .got .worker (some _) => 1
  | .done .worker (some _) => 1
  | _ => 0

/-- worker threads -/
def fT : Frame → Nat
  | .get .worker => 1
  | .got .worker _ => 1
  | .done .worker _ => 1
  | _ => 0

/-- threads started and not listed yet -/
def fP : Frame → Nat
  | .append _ => 1
  | _ => 0

def fS : Frame → Nat
  | .start _ => 1
  | _ => 0

/-- threads inside `close` -/
def fC : Frame → Nat
  | .cancel _ => 1
  | .put _ => 1
  | .join => 1
  | _ => 0

/-- end markers still to be put -/
def fD (n : Nat) : Frame → Nat
  | .cancel _ => n
  | .put i => n - i
  | _ => 0

/-- consumers other than worker threads -/
def fN : Frame → Nat
  | .check _ => 1
  | .get .worker => 0
  | .get _ => 1
  | .got .worker _ => 0
  | .got _ _ => 1
  | .done .worker _ => 0
  | .done _ _ => 1
  | _ => 0

theorem cnt_fD_le (n : Nat) (st : List Frame) : cnt (fD n) st ≤ n * cnt fC st := by
  induction st with
  | nil => simp
  | cons f st ih =>
    simp only [cnt_cons, Nat.mul_add]
    have : fD n f ≤ n * fC f := by cases f <;> simp [fD, fC]
    omega

omit [DecidableEq Tid] in
theorem all_fD_zero {stk : Tid → List Frame} (n : Nat) (h : all fC stk = 0) : all (fD n) stk = 0 := by
  unfold all
  apply Finset.sum_eq_zero
  intro w _
  have := cnt_fD_le n (stk w)
  rw [all_eq_zero h w] at this
  simpa using this

/-- One caller inside `close`, and it has put all its markers. -/
theorem all_fD_join {stk : Tid → List Frame} (n : Nat) (h : all fC stk ≤ 1) {tid : Tid} {st : List Frame}
    (hs : stk tid = .join :: st) : all (fD n) stk = 0 := by
  have h1 := all_update fC stk tid []
  have h2 := all_update (fD n) stk tid []
  rw [hs] at h1 h2
  simp [fC, fD] at h1 h2
  have h3 := all_fD_zero n (stk := Function.update stk tid []) (by omega)
  have h4 := cnt_fD_le n st
  have h5 : cnt fC st = 0 := by omega
  rw [h5] at h4
  omega

/-- The threads follow the usual discipline: `close` is called once, not by a queued function, and not while `start` is in
progress; `start` is not called after it; nobody calls `run_one` or `run_all`. -/
def Orderly : State Tid → List (Tid × Call Tid) → Prop
  | _, [] => True
  | s, (tid, c) :: sch =>
    (c = .close → s.closed = false ∧ s.stk tid = [] ∧ ∀ w n, Frame.start n ∉ s.stk w ∧ Frame.append n ∉ s.stk w) ∧
    (∀ n, c = .start n → s.closed = false) ∧ c ≠ .runOne ∧ c ≠ .runAll ∧ Orderly ((step s tid c).getD s) sch

theorem Orderly.noInner {s : State Tid} {sch : List (Tid × Call Tid)} (h : Orderly s sch) : NoInnerClose s sch := by
  induction sch generalizing s with
  | nil => trivial
  | cons p sch ih =>
    obtain ⟨tid, c⟩ := p
    refine ⟨fun hc t => ?_, ih h.2.2.2.2⟩
    rw [(h.1 hc).2.1]; simp

structure W (s : State Tid) : Prop where
  bal : all fA s.stk = s.queue.count none + all (fD s.nThreads) s.stk + (if s.closed then 0 else s.nThreads + all fP s.stk)
  bound : all fT s.stk ≤ s.nThreads + all fP s.stk
  quiet : s.closed = true → all fS s.stk = 0 ∧ all fP s.stk = 0
  one : all fC s.stk ≤ if s.closed then 1 else 0
  only : all fN s.stk = 0
  ret : .closeReturned ∈ s.log → s.closed = true ∧ all fT s.stk = 0 ∧ all fC s.stk = 0 ∧ (s.nThreads ≠ 0 → s.queue = [])

omit [DecidableEq Tid] in
theorem w_init : W (State.init : State Tid) := by
  constructor <;> simp [State.init, all]

theorem cnt_mem_zero {g : Frame → Nat} {st : List Frame} (h : ∀ f ∈ st, g f = 0) : cnt g st = 0 := by
  induction st with
  | nil => rfl
  | cons x st ih => simp [h x (by simp), ih fun f hf => h f (by simp [hf])]

/-- The equations for a new stack of one thread. -/
theorem sums (stk : Tid → List Frame) (n : Nat) (tid : Tid) (st : List Frame) :
    all fA (Function.update stk tid st) + cnt fA (stk tid) = all fA stk + cnt fA st ∧
    all fT (Function.update stk tid st) + cnt fT (stk tid) = all fT stk + cnt fT st ∧
    all fP (Function.update stk tid st) + cnt fP (stk tid) = all fP stk + cnt fP st ∧
    all fS (Function.update stk tid st) + cnt fS (stk tid) = all fS stk + cnt fS st ∧
    all fC (Function.update stk tid st) + cnt fC (stk tid) = all fC stk + cnt fC st ∧
    all (fD n) (Function.update stk tid st) + cnt (fD n) (stk tid) = all (fD n) stk + cnt (fD n) st ∧
    all fN (Function.update stk tid st) + cnt fN (stk tid) = all fN stk + cnt fN st :=
  ⟨all_update _ _ _ _, all_update _ _ _ _, all_update _ _ _ _, all_update _ _ _ _, all_update _ _ _ _, all_update _ _ _ _,
    all_update _ _ _ _⟩

/-- A step of one thread that leaves the closing flag alone. -/
theorem w_of {s s' : State Tid} (h : W s) {tid : Tid} {st : List Frame} (hstk : s'.stk = Function.update s.stk tid st)
    (hn : s'.nThreads = s.nThreads) (hcl : s'.closed = s.closed)
    (hlog : .closeReturned ∈ s'.log → .closeReturned ∈ s.log)
    (hA : cnt fA st + s.queue.count none + cnt (fD s.nThreads) (s.stk tid) =
      cnt fA (s.stk tid) + s'.queue.count none + cnt (fD s.nThreads) st)
    (hT : cnt fT st ≤ cnt fT (s.stk tid)) (hP : cnt fP st = cnt fP (s.stk tid))
    (hS : cnt fS st ≤ cnt fS (s.stk tid) ∨ s.closed = false) (hC : cnt fC st ≤ cnt fC (s.stk tid))
    (hN : cnt fN st ≤ cnt fN (s.stk tid)) (hq : s.closed = true → cnt fC (s.stk tid) = 0 → s.queue = [] → s'.queue = []) :
    W s' := by
  obtain ⟨kA, kT, kP, kS, kC, kD, kN⟩ := sums s.stk s.nThreads tid st
  obtain ⟨b1, b2, b3, b4, b5, b6⟩ := h
  have own : ∀ g : Frame → Nat, cnt g (s.stk tid) ≤ all g s.stk := fun g =>
    Finset.single_le_sum (f := fun v => cnt g (s.stk v)) (s := Finset.univ) (fun _ _ => Nat.zero_le _) (Finset.mem_univ tid)
  refine ⟨?_, ?_, ?_, ?_, ?_, ?_⟩
  · rw [hstk, hn, hcl]
    cases hc : s.closed with
    | true => simp only [hc, if_true] at b1 ⊢; omega
    | false => simp only [hc, Bool.false_eq_true, if_false] at b1 ⊢; omega
  · rw [hstk, hn]; omega
  · rw [hstk, hcl]
    intro hc
    have := b3 hc
    rcases hS with hS | hS
    · constructor <;> omega
    · rw [hc] at hS; cases hS
  · rw [hstk, hcl]; omega
  · rw [hstk]; omega
  · intro hr
    obtain ⟨c1, c2, c3, c4⟩ := b6 (hlog hr)
    have := own fC
    refine ⟨by rw [hcl, c1], by rw [hstk]; omega, by rw [hstk]; omega, ?_⟩
    rw [hn]
    intro h0
    exact hq c1 (by omega) (c4 h0)

theorem w_step {s s' : State Tid} {tid : Tid} {c : Call Tid} (hstep : Step s tid c s') (hi : Inv s) (h : W s)
    (hraise : ∀ e, Ev.raised e ∉ s'.log)
    (h1 : c = .close → s.closed = false ∧ s.stk tid = [] ∧ ∀ w n, Frame.start n ∉ s.stk w ∧ Frame.append n ∉ s.stk w)
    (h2 : ∀ n, c = .start n → s.closed = false) (h3 : c ≠ .runOne) (h4 : c ≠ .runAll) : W s' := by
  have own : ∀ g : Frame → Nat, cnt g (s.stk tid) ≤ all g s.stk := fun g =>
    Finset.single_le_sum (f := fun v => cnt g (s.stk v)) (s := Finset.univ) (fun _ _ => Nat.zero_le _) (Finset.mem_univ tid)
  have nk : ∀ f ∈ s.stk tid, fN f = 0 := fun f hf => cnt_eq_zero (all_eq_zero h.only tid) hf
  cases hstep with
  | refused hc =>
    exact ⟨h.bal, h.bound, h.quiet, h.one, h.only, fun hr => h.ret (by simpa [State.emit] using hr)⟩
  | queued hc =>
    refine ⟨?_, h.bound, h.quiet, h.one, h.only, fun hr => ?_⟩
    · simpa [List.count_append] using h.bal
    · have := (h.ret (by simpa using hr)).1
      rw [hc] at this; cases this
  | close hclose hcall =>
    obtain ⟨o1, o2, o3⟩ := h1 hclose
    have hP : all fP s.stk = 0 := Finset.sum_eq_zero fun w _ => cnt_mem_zero fun f hf => by
      cases f <;> first | rfl | exact absurd hf (o3 w _).2
    have hS : all fS s.stk = 0 := Finset.sum_eq_zero fun w _ => cnt_mem_zero fun f hf => by
      cases f <;> first | rfl | exact absurd hf (o3 w _).1
    have hC : all fC s.stk = 0 := by have := h.one; rw [o1] at this; simpa using this
    have hD := all_fD_zero s.nThreads hC
    obtain ⟨kA, kT, kP, kS, kC, kD, kN⟩ := sums s.stk s.nThreads tid (.cancel s.tasks :: s.stk tid)
    obtain ⟨b1, b2, b3, b4, b5, b6⟩ := h
    rw [o2] at kA kT kP kS kC kD kN
    simp [fA, fT, fP, fS, fC, fD, fN, o1] at kA kT kP kS kC kD kN b1
    refine ⟨?_, ?_, ?_, ?_, ?_, ?_⟩
    · simp [State.setStack, State.emit, o2]; omega
    · simp [State.setStack, State.emit, o2]; omega
    · simp [State.setStack, State.emit, o2]; omega
    · simp [State.setStack, State.emit, o2]; omega
    · simp [State.setStack, State.emit, o2]; omega
    · intro hr
      have := (b6 (by simpa [State.setStack, State.emit] using hr)).1
      rw [o1] at this; cases this
  | push hcall f hf hc =>
    rcases hc with ⟨hc | hc, _⟩ | ⟨n, hc, rfl⟩
    · exact absurd hc h3
    · exact absurd hc h4
    · refine w_of h (tid := tid) (st := .start n :: s.stk tid) rfl rfl rfl (by exact fun x => x) ?_ ?_ ?_ (.inr (h2 n hc)) ?_ ?_ ?_ <;>
        simp [fA, fT, fP, fS, fC, fD, fN, State.setStack]
  | ret t' st hs =>
    refine w_of h (tid := tid) (st := .fin t' :: st) rfl rfl rfl (by exact fun x => x) ?_ ?_ ?_ (.inl ?_) ?_ ?_ ?_ <;>
      simp [hs, fA, fT, fP, fS, fC, fD, fN, State.setStack]
  | pop f st hs hf =>
    rcases hf with ⟨k, rfl⟩ | rfl
    · exact absurd (nk (.check k) (by simp [hs])) (by simp [fN])
    · refine w_of h (tid := tid) (st := st) rfl rfl rfl (by exact fun x => x) ?_ ?_ ?_ (.inl ?_) ?_ ?_ ?_ <;>
        simp [hs, fA, fT, fP, fS, fC, fD, fN, State.setStack]
  | repl f g st hs hf =>
    rcases hf with ⟨k, rfl, rfl⟩ | ⟨k, i, rfl, rfl, _⟩
    · exact absurd (nk (.check k) (by simp [hs])) (by simp [fN])
    · have hk : k = .worker := by
        have := nk (.got k i) (by simp [hs])
        cases k <;> simp [fN] at this ⊢
      subst hk
      refine w_of h (tid := tid) (st := .done .worker i :: st) rfl rfl rfl (by exact fun x => x) ?_ ?_ ?_ (.inl ?_) ?_ ?_ ?_ <;>
        cases i <;> simp [hs, fA, fT, fP, fS, fC, fD, fN, State.setStack] <;> omega
  | get k st item q hs hq =>
    have hk : k = .worker := by
      have := nk (.get k) (by simp [hs])
      cases k <;> simp [fN] at this ⊢
    subst hk
    refine w_of h (tid := tid) (st := .got .worker item :: st) rfl rfl rfl (by exact fun x => x) ?_ ?_ ?_ (.inl ?_) ?_ ?_ ?_ <;>
      cases item <;> simp [hs, hq, fA, fT, fP, fS, fC, fD, fN, State.setStack] <;> omega
  | gotExec k t' st hs hc =>
    have hk : k = .worker := by
      have := nk (.got k (some t')) (by simp [hs])
      cases k <;> simp [fN] at this ⊢
    subst hk
    refine w_of h (tid := tid) (st := .exec t' :: .done .worker (some t') :: st) rfl rfl rfl (by exact fun x => x) ?_ ?_ ?_ (.inl ?_) ?_ ?_ ?_ <;>
      simp [hs, fA, fT, fP, fS, fC, fD, fN, State.setStack]
  | execRun t' st hs hl hlive =>
    refine w_of h (tid := tid) (st := .running t' :: st) rfl rfl rfl (by simp [State.setStack, State.emit]) ?_ ?_ ?_ (.inl ?_) ?_ ?_ ?_ <;>
      simp [hs, fA, fT, fP, fS, fC, fD, fN, State.setStack, State.emit]
  | execSkip t' st hs hlive =>
    refine w_of h (tid := tid) (st := st) rfl rfl rfl (by exact fun x => x) ?_ ?_ ?_ (.inl ?_) ?_ ?_ ?_ <;>
      simp [hs, fA, fT, fP, fS, fC, fD, fN, State.setStack]
  | finOk t' st hs ht =>
    refine w_of h (tid := tid) (st := st) rfl rfl rfl (by simp [State.setStack, State.emit]) ?_ ?_ ?_ (.inl ?_) ?_ ?_ ?_ <;>
      simp [hs, fA, fT, fP, fS, fC, fD, fN, State.setStack, State.emit]
  | finErr t' st hs ht => exact absurd (by simp [State.emit]) (hraise .valueError)
  | doneErr k item st hs hz => exact absurd (by simp [State.emit]) (hraise .valueError)
  | done k item st st' hs hst hd hu =>
    have hk : k = .worker := by
      have := nk (.done k item) (by simp [hs])
      cases k <;> simp [fN] at this ⊢
    subst hk
    refine w_of h (tid := tid) (st := st') rfl rfl rfl (by exact fun x => x) ?_ ?_ ?_ (.inl ?_) ?_ ?_ ?_ <;>
      cases item <;> simp only [afterDone] at hd <;> subst hd <;>
      simp [hs, fA, fT, fP, fS, fC, fD, fN, State.setStack] <;> omega
  | cancelNil st hs =>
    refine w_of h (tid := tid) (st := .put 0 :: st) rfl rfl rfl (by exact fun x => x) ?_ ?_ ?_ (.inl ?_) ?_ ?_ ?_ <;>
      simp [hs, fA, fT, fP, fS, fC, fD, fN, State.setStack]
  | cancelLive t' ts st hs hl hlive ht =>
    refine w_of h (tid := tid) (st := .cancel ts :: st) rfl rfl rfl (by simp [State.setStack, State.emit]) ?_ ?_ ?_ (.inl ?_) ?_ ?_ ?_ <;>
      simp [hs, fA, fT, fP, fS, fC, fD, fN, State.setStack, State.emit]
  | cancelErr t' ts st hs hlive ht => exact absurd (by simp [State.emit]) (hraise .valueError)
  | cancelDead t' ts st hs hlive =>
    refine w_of h (tid := tid) (st := .cancel ts :: st) rfl rfl rfl (by exact fun x => x) ?_ ?_ ?_ (.inl ?_) ?_ ?_ ?_ <;>
      simp [hs, fA, fT, fP, fS, fC, fD, fN, State.setStack]
  | put i st hs hi =>
    refine w_of h (tid := tid) (st := .put (i + 1) :: st) rfl rfl rfl (by exact fun x => x) ?_ ?_ ?_ (.inl ?_) ?_ ?_ ?_ <;>
      simp [hs, fA, fT, fP, fS, fC, fD, fN, State.setStack, List.count_append]
    omega
  | putEnd i st hs hi =>
    refine w_of h (tid := tid) (st := .join :: st) rfl rfl rfl (by exact fun x => x) ?_ ?_ ?_ (.inl ?_) ?_ ?_ ?_ <;>
      simp [hs, fA, fT, fP, fS, fC, fD, fN, State.setStack]
    omega
  | join st hs hj =>
    have hcl : s.closed = true := hi.closed.2 (hi.frames tid .join (by simp [hs])).1
    have hone : all fC s.stk ≤ 1 := by have := h.one; rw [hcl] at this; simpa using this
    have hD := all_fD_join s.nThreads hone hs
    obtain ⟨kA, kT, kP, kS, kC, kD, kN⟩ := sums s.stk s.nThreads tid st
    obtain ⟨b1, b2, b3, b4, b5, b6⟩ := h
    rw [hs] at kA kT kP kS kC kD kN
    simp [fA, fT, fP, fS, fC, fD, fN] at kA kT kP kS kC kD kN
    have hq3 := b3 hcl
    simp only [hcl, if_true] at b1
    have hTA : all fT s.stk ≤ all fA s.stk + all pnd s.stk := by
      unfold all
      rw [← Finset.sum_add_distrib]
      apply Finset.sum_le_sum
      intro w _
      induction s.stk w with
      | nil => simp
      | cons f st ih =>
        have : fT f ≤ fA f + pnd f := by
          cases f with
          | get k => cases k <;> simp [fT, fA, pnd]
          | got k i => cases k <;> simp [fT, fA, pnd]
          | done k i => cases k <;> simp [fT, fA, pnd]
          | _ => simp [fT]
        simp only [cnt_cons]; omega
    have ho := hi.owed
    have how : owed s = s.queue.length + all pnd s.stk := rfl
    have hT0 : all fT s.stk = 0 := by
      rcases hj with hj | hj
      · omega
      · have h0 : s.queue.length = 0 := by omega
        have : s.queue = [] := List.length_eq_zero_iff.1 h0
        rw [this] at b1
        simp at b1; omega
    refine ⟨?_, ?_, ?_, ?_, ?_, ?_⟩
    · simp [State.setStack, State.emit, hcl]; omega
    · simp [State.setStack, State.emit]; omega
    · simp [State.setStack, State.emit]; omega
    · simp [State.setStack, State.emit, hcl]; omega
    · simp [State.setStack, State.emit]; omega
    · intro _
      refine ⟨hcl, ?_, ?_, ?_⟩
      · simp [State.setStack, State.emit]; omega
      · simp [State.setStack, State.emit]; omega
      · simp only [State.setStack, State.emit]
        intro h0
        rcases hj with hj | hj
        · exact absurd hj h0
        · exact List.length_eq_zero_iff.1 (by omega)
  | spawn w n st hs hw hw' =>
    have hcl : s.closed = false := by
      by_contra hx
      have := (h.quiet (by simpa using hx)).1
      have := own fS
      rw [hs] at this; simp [fS] at this; omega
    obtain ⟨kA, kT, kP, kS, kC, kD, kN⟩ := sums s.stk s.nThreads w [.get .worker]
    obtain ⟨jA, jT, jP, jS, jC, jD, jN⟩ := sums (Function.update s.stk w [.get .worker]) s.nThreads tid (.append n :: st)
    rw [Function.update_of_ne hw.symm, hs] at jA jT jP jS jC jD jN
    rw [hw'] at kA kT kP kS kC kD kN
    obtain ⟨b1, b2, b3, b4, b5, b6⟩ := h
    simp [fA, fT, fP, fS, fC, fD, fN, hcl] at kA kT kP kS kC kD kN jA jT jP jS jC jD jN b1 b4
    refine ⟨?_, ?_, ?_, ?_, ?_, ?_⟩
    · simp [State.setStack, hcl]; omega
    · simp [State.setStack]; omega
    · simp [State.setStack, hcl]
    · simp [State.setStack, hcl]; omega
    · simp [State.setStack]; omega
    · intro hr; have := (b6 hr).1; rw [hcl] at this; cases this
  | append n st hs =>
    have hcl : s.closed = false := by
      by_contra hx
      have := (h.quiet (by simpa using hx)).2
      have := own fP
      rw [hs] at this; simp [fP] at this; omega
    obtain ⟨kA, kT, kP, kS, kC, kD, kN⟩ := sums s.stk (s.nThreads + 1) tid (.start n :: st)
    have hC0 : all fC s.stk = 0 := by have := h.one; rw [hcl] at this; simpa using this
    have hD0 := all_fD_zero s.nThreads hC0
    have hD1 := all_fD_zero (s.nThreads + 1) hC0
    obtain ⟨b1, b2, b3, b4, b5, b6⟩ := h
    rw [hs] at kA kT kP kS kC kD kN
    simp [fA, fT, fP, fS, fC, fD, fN, hcl] at kA kT kP kS kC kD kN b1 b4
    refine ⟨?_, ?_, ?_, ?_, ?_, ?_⟩
    · simp [State.setStack, hcl]; omega
    · simp [State.setStack]; omega
    · simp [State.setStack, hcl]
    · simp [State.setStack, hcl]; omega
    · simp [State.setStack]; omega
    · intro hr; have := (b6 hr).1; rw [hcl] at this; cases this

theorem w_run (sch : List (Tid × Call Tid)) {s : State Tid} (hi : InvOuter s) (h : W s) (ho : Orderly s sch) :
    W (run s sch) := by
  induction sch generalizing s with
  | nil => exact h
  | cons p sch ih =>
    obtain ⟨tid, c⟩ := p
    obtain ⟨o1, o2, o3, o4, o5⟩ := ho
    cases hs : step s tid c with
    | none =>
      rw [hs] at o5
      have : run s ((tid, c) :: sch) = run s sch := by simp [run, hs]
      rw [this]; exact ih hi h o5
    | some s' =>
      rw [hs] at o5
      have : run s ((tid, c) :: sch) = run s' sch := by simp [run, hs]
      rw [this]
      have hi' : InvOuter s' := outer_step (step_step hs) hi fun hc _ t => by rw [(o1 hc).2.1]; simp
      refine ih hi' (w_step (step_step hs) hi.inv h ?_ o1 o2 o3 o4) o5
      intro e he
      obtain ⟨l1, l2, e'⟩ := List.append_of_mem he
      exact hi'.log l1 _ l2 e'

/-- C82, every schedule: at the moment `close` returns on a pool with threads, the queue is empty and no thread has an item
in hand. -/
theorem C82_join (sch : List (Tid × Call Tid)) (tid : Tid) (c : Call Tid) (s' : State Tid) :
    let s := run (State.init : State Tid) sch
    step s tid c = some s' → s'.log = s.log ++ [.closeReturned] → s'.nThreads ≠ 0 →
      s'.queue = [] ∧ ∀ w k item, Frame.got k item ∉ s'.stk w ∧ Frame.done k item ∉ s'.stk w := by
  intro s hs hlog hn
  have hi : Inv s := inv_run sch inv_init
  have hstep := step_step hs
  have hi' := inv_step hstep hi
  generalize s = s at hi hs hlog hstep hi'
  have key : s'.unfinished = 0 := by
    cases hstep <;> simp [State.emit, State.setStack] at hlog hn ⊢
    rename_i hj
    exact hj.resolve_left hn
  have ho := hi'.owed
  have how : owed s' = s'.queue.length + all pnd s'.stk := rfl
  refine ⟨List.length_eq_zero_iff.1 (by omega), fun w k item => ?_⟩
  have h0 : all pnd s'.stk = 0 := by omega
  exact ⟨fun hx => absurd (cnt_eq_zero (all_eq_zero h0 w) hx) (by simp [pnd]),
    fun hx => absurd (cnt_eq_zero (all_eq_zero h0 w) hx) (by simp [pnd])⟩

/-- C82, for orderly schedules: once `close` has returned every worker thread has ended, and the queue of a pool with threads
stays empty. -/
theorem C82_workers_end_partial (sch : List (Tid × Call Tid)) (ho : Orderly (State.init : State Tid) sch) :
    let s := run (State.init : State Tid) sch
    .closeReturned ∈ s.log → (s.nThreads ≠ 0 → s.queue = []) ∧
      ∀ w item, Frame.get .worker ∉ s.stk w ∧ Frame.got .worker item ∉ s.stk w ∧ Frame.done .worker item ∉ s.stk w := by
  intro s hr
  obtain ⟨_, h1, _, h2⟩ := (w_run sch outer_init w_init ho).ret hr
  refine ⟨h2, fun w item => ⟨fun hx => ?_, fun hx => ?_, fun hx => ?_⟩⟩ <;>
    exact absurd (cnt_eq_zero (all_eq_zero h1 w) hx) (by simp [fT])

/-! ### `run_all` -/

/-- frames of `run_all` -/
def fR : Frame → Nat
  | .check .all => 1
  | .get .all => 1
  | .got .all _ => 1
  | .done .all _ => 1
  | _ => 0

/-- No end marker is in the queue or in hand, nor about to be put. -/
def NoMark (s : State Tid) : Prop :=
  none ∉ s.queue ∧ ∀ w k, Frame.got k none ∉ s.stk w ∧ Frame.done k none ∉ s.stk w

omit [Fintype Tid] in
theorem noMark_stk {stk : Tid → List Frame} {tid : Tid} {st : List Frame}
    (h : ∀ w k, Frame.got k none ∉ stk w ∧ Frame.done k none ∉ stk w)
    (hs : ∀ k, Frame.got k none ∉ st ∧ Frame.done k none ∉ st) :
    ∀ w k, Frame.got k none ∉ Function.update stk tid st w ∧ Frame.done k none ∉ Function.update stk tid st w := by
  intro w
  by_cases e : w = tid
  · subst e; simpa using hs
  · rw [Function.update_of_ne e]; exact h w

theorem noMark_step {s s' : State Tid} {tid : Tid} {c : Call Tid} (hstep : Step s tid c s') (hi : Inv s)
    (hopen : s'.closed = false) (h : NoMark s) : NoMark s' := by
  obtain ⟨h1, h2⟩ := h
  have hnc : s.closed = false → Ev.closeCalled ∉ s.log := fun hc hx => by rw [hi.closed.2 hx] at hc; cases hc
  have hu : ∀ st, (∀ k, Frame.got k none ∉ st ∧ Frame.done k none ∉ st) →
      ∀ k, Frame.got k none ∉ unwind st ∧ Frame.done k none ∉ unwind st := by
    intro st hst k
    constructor <;> intro hx <;> rcases mem_unwind hx with hx | ⟨t, hx, _⟩
    · exact (hst k).1 hx
    · cases hx
    · exact (hst k).2 hx
    · cases hx
  have ht := h2 tid
  cases hstep with
  | refused hc => exact ⟨h1, h2⟩
  | queued hc => exact ⟨by simpa using h1, h2⟩
  | close hclose hcall => simp [State.emit, State.setStack] at hopen
  | push hcall f hf hc =>
    refine ⟨h1, noMark_stk h2 ?_⟩
    rcases hf with ⟨k, rfl⟩ | ⟨n, rfl⟩ <;> simpa using ht
  | repl f g st hs hf =>
    rw [hs] at ht
    refine ⟨h1, noMark_stk h2 ?_⟩
    rcases hf with ⟨k, rfl, rfl⟩ | ⟨k, i, rfl, rfl, _⟩
    · simpa using ht
    · intro k'
      have := ht k'
      have h3 := ht k
      simp only [List.mem_cons, not_or] at this h3 ⊢
      refine ⟨⟨by simp, this.1.2⟩, ⟨?_, this.2.2⟩⟩
      intro e; cases e; exact h3.1.1 rfl
  | get k st item q hs hq =>
    rw [hs] at ht
    rw [hq] at h1
    simp only [List.mem_cons, not_or] at h1
    refine ⟨h1.2, noMark_stk h2 fun k' => ?_⟩
    have := ht k'
    simp only [List.mem_cons, not_or] at this ⊢
    exact ⟨⟨fun e => by cases e; exact h1.1 rfl, this.1.2⟩, by simp, this.2.2⟩
  | gotExec k t' st hs hc =>
    rw [hs] at ht
    exact ⟨h1, noMark_stk h2 (by simpa using ht)⟩
  | finErr t' st hs ht' =>
    rw [hs] at ht
    exact ⟨h1, noMark_stk h2 (hu st (by simpa using ht))⟩
  | doneErr k item st hs hz =>
    rw [hs] at ht
    refine ⟨h1, noMark_stk h2 (hu st fun k' => ?_)⟩
    have := ht k'
    simp only [List.mem_cons, not_or] at this
    exact ⟨this.1.2, this.2.2⟩
  | done k item st st' hs hst =>
    rw [hs] at ht
    refine ⟨h1, noMark_stk h2 fun k' => ?_⟩
    have := ht k'
    simp only [List.mem_cons, not_or] at this
    rcases hst with rfl | rfl | rfl
    · exact ⟨this.1.2, this.2.2⟩
    · simpa using ⟨this.1.2, this.2.2⟩
    · simpa using ⟨this.1.2, this.2.2⟩
  | cancelErr t' ts st hs hlive ht' =>
    exact absurd (hi.frames tid (.cancel (t' :: ts)) (by rw [hs]; simp)).1 (hnc hopen)
  | put i st hs hi' => exact absurd (hi.frames tid (.put i) (by rw [hs]; simp)).1 (hnc hopen)
  | spawn w n st hs hw hw' =>
    rw [hs] at ht
    exact ⟨h1, noMark_stk (noMark_stk h2 (by simp)) (by simpa using ht)⟩
  | pop f st hs hf =>
    rw [hs] at ht
    refine ⟨h1, noMark_stk h2 fun k' => ?_⟩
    have := ht k'
    simp only [List.mem_cons, not_or] at this
    exact ⟨this.1.2, this.2.2⟩
  | ret t' st hs | execRun t' st hs | execSkip t' st hs | finOk t' st hs | cancelNil st hs | cancelLive t' ts st hs
  | cancelDead t' ts st hs | putEnd i st hs | join st hs | append n st hs =>
    rw [hs] at ht
    exact ⟨h1, noMark_stk h2 (by simpa using ht)⟩

/-- Below the top of a stack there are only running functions and consumers that execute them. -/
def Below (st : List Frame) : Prop := ∀ f ∈ st.tail, (∃ t, f = .running t) ∨ ∃ k item, f = .done k item

theorem below_unwind {st : List Frame} (h : ∀ f ∈ st, (∃ t, f = .running t) ∨ ∃ k item, f = .done k item) :
    Below (unwind st) := by
  induction st with
  | nil => simp [unwind, Below]
  | cons f st ih =>
    rcases h f (by simp) with ⟨t, rfl⟩ | ⟨k, item, rfl⟩
    · exact fun g hg => h g (by simpa [unwind] using .inr hg)
    · exact ih fun g hg => h g (by simp [hg])

theorem below_tail {f : Frame} {st : List Frame} (h : Below (f :: st)) : Below st := fun g hg => h g (List.mem_of_mem_tail hg)

omit [Fintype Tid] in
theorem below_update {stk : Tid → List Frame} {tid : Tid} {st : List Frame} (h : ∀ w, Below (stk w)) (hs : Below st) :
    ∀ w, Below (Function.update stk tid st w) := by
  intro w
  by_cases e : w = tid
  · subst e; simpa using hs
  · rw [Function.update_of_ne e]; exact h w

theorem below_step {s s' : State Tid} {tid : Tid} {c : Call Tid} (hstep : Step s tid c s') (h : ∀ w, Below (s.stk w)) :
    ∀ w, Below (s'.stk w) := by
  have ht := h tid
  cases hstep with
  | refused hc => exact h
  | queued hc => exact h
  | close hclose hcall =>
    refine below_update h fun g hg => ?_
    rcases hcall with hs | ⟨t, st, hs⟩
    · simp [hs] at hg
    · rw [hs] at hg ht
      rcases List.mem_cons.1 hg with rfl | hg
      · exact .inl ⟨t, rfl⟩
      · exact ht g hg
  | push hcall f hf hc =>
    refine below_update h fun g hg => ?_
    rcases hcall with hs | ⟨t, st, hs⟩
    · simp [hs] at hg
    · rw [hs] at hg ht
      rcases List.mem_cons.1 hg with rfl | hg
      · exact .inl ⟨t, rfl⟩
      · exact ht g hg
  | pop f st hs hf | execSkip t' st hs | finOk t' st hs | join st hs =>
    rw [hs] at ht
    exact below_update h (below_tail ht)
  | gotExec k t' st hs hc =>
    rw [hs] at ht
    refine below_update h fun g hg => ?_
    rcases List.mem_cons.1 hg with rfl | hg
    · exact .inr ⟨_, _, rfl⟩
    · exact ht g hg
  | finErr t' st hs | doneErr k item st hs | cancelErr t' ts st hs =>
    rw [hs] at ht
    exact below_update h (below_unwind ht)
  | done k item st st' hs hst =>
    rw [hs] at ht
    refine below_update h ?_
    rcases hst with rfl | rfl | rfl
    · exact below_tail ht
    · exact ht
    · exact ht
  | spawn w n st hs =>
    rw [hs] at ht
    exact below_update (below_update h (by simp [Below])) ht
  | repl f g st hs | get k st item q hs | ret t' st hs | execRun t' st hs | cancelNil st hs | cancelLive t' ts st hs
  | cancelDead t' ts st hs | putEnd i st hs | put i st hs | append n st hs =>
    rw [hs] at ht
    exact below_update h ht

theorem closed_mono {s s' : State Tid} {tid : Tid} {c : Call Tid} (hstep : Step s tid c s') (h : s'.closed = false) :
    s.closed = false := by
  cases hstep <;> first | exact h | (simp [State.emit, State.setStack] at h; try exact h)

theorem closed_run (sch : List (Tid × Call Tid)) {s : State Tid} (h : (run s sch).closed = false) : s.closed = false := by
  induction sch generalizing s with
  | nil => exact h
  | cons p sch ih =>
    have h1 := ih (s := (step s p.1 p.2).getD s) h
    cases hs : step s p.1 p.2 with
    | none => simpa [hs] using h1
    | some s' => exact closed_mono (step_step hs) (by simpa [hs] using h1)

/-- The invariants of an open pool. -/
theorem open_run (sch : List (Tid × Call Tid)) {s : State Tid} (h : InvOuter s) (hm : NoMark s) (hb : ∀ w, Below (s.stk w))
    (ho : (run s sch).closed = false) :
    InvOuter (run s sch) ∧ NoMark (run s sch) ∧ ∀ w, Below ((run s sch).stk w) := by
  induction sch generalizing s with
  | nil => exact ⟨h, hm, hb⟩
  | cons p sch ih =>
    cases hs : step s p.1 p.2 with
    | none =>
      have e : run s (p :: sch) = run s sch := by simp [run, hs]
      rw [e] at ho ⊢; exact ih h hm hb ho
    | some s' =>
      have e : run s (p :: sch) = run s' sch := by simp [run, hs]
      rw [e] at ho ⊢
      have hopen := closed_run sch ho
      have hst := step_step hs
      exact ih (outer_step hst h fun _ hx => by rw [hopen] at hx; cases hx) (noMark_step hst h.inv hopen hm)
        (below_step hst hb) ho

/-- C83, every schedule: as long as the pool is open, a thread leaves `run_all` only when the queue is empty, and then every
function queued so far was started or is in the hand of another thread. -/
theorem C83_run_all (sch : List (Tid × Call Tid)) (tid : Tid) (c : Call Tid) (s' : State Tid) :
    let s := run (State.init : State Tid) sch
    step s tid c = some s' → s'.closed = false → cnt fR (s'.stk tid) < cnt fR (s.stk tid) →
      s'.queue = [] ∧ ∀ t, .queued t ∈ s'.log → .started t ∈ s'.log ∨
        ∃ w, w ≠ tid ∧ ((∃ k, Frame.got k (some t) ∈ s'.stk w) ∨ Frame.exec t ∈ s'.stk w) := by
  intro s hs hopen hlt
  have hst := step_step hs
  have hc : s.closed = false := closed_mono hst hopen
  obtain ⟨hi, hm, hb⟩ : InvOuter s ∧ NoMark s ∧ ∀ w, Below (s.stk w) := open_run sch (s := State.init) outer_init (by simp [NoMark, State.init])
    (by simp [Below, State.init]) hc
  have hi' : InvOuter s' := outer_step hst hi fun _ hx => by rw [hopen] at hx; cases hx
  have hrun : s' = run (State.init : State Tid) (sch ++ [(tid, c)]) := by
    have : run (State.init : State Tid) (sch ++ [(tid, c)]) = (step s tid c).getD s := by
      simp only [run, List.foldl_append, List.foldl_cons, List.foldl_nil]; rfl
    rw [this, hs]; rfl
  have hnr : ∀ e, Ev.raised e ∉ s'.log := by
    intro e he
    obtain ⟨l1, l2, e'⟩ := List.append_of_mem he
    exact hi'.log l1 _ l2 e'
  have key : s'.queue = [] ∧ ∃ st, s'.stk tid = st ∧ Below (.join :: st) := by
    generalize s = s at hst hlt hc hi hm hb
    have ht := hb tid
    cases hst with
    | pop f st h hf hq =>
      rcases hf with ⟨k, rfl⟩ | rfl
      · rcases hq with hq | hq
        · cases hq
        · rw [h] at ht
          exact ⟨hq, st, by simp [State.setStack], ht⟩
      · simp [h, State.setStack, fR] at hlt
    | refused | queued => simp [State.emit] at hlt
    | close => simp [State.setStack, State.emit] at hopen
    | push hcall f hf =>
      simp [State.setStack] at hlt
    | ret t' st h | execRun t' st h | execSkip t' st h | finOk t' st h | cancelNil st h | cancelLive t' ts st h
    | cancelDead t' ts st h | putEnd i st h | put i st h | join st h | append n st h =>
      simp [h, State.setStack, State.emit, fR] at hlt <;> omega
    | gotExec k t' st h => cases k <;> simp [h, State.setStack, fR] at hlt
    | repl f g st h hf =>
      rcases hf with ⟨k, rfl, rfl⟩ | ⟨k, i, rfl, rfl, _⟩ <;> cases k <;> simp [h, State.setStack, fR] at hlt
    | get k st item q h hq => cases k <;> simp [h, State.setStack, fR] at hlt
    | finErr t' st h | doneErr k item st h | cancelErr t' ts st h => exact absurd (by simp [State.emit]) (hnr .valueError)
    | spawn w n st h => simp [h, State.setStack, fR] at hlt
    | done k item st st' h hst' hd =>
      cases item with
      | none => exact absurd (by rw [h]; simp) (hm.2 tid k).2
      | some t' => cases k <;> simp [afterDone] at hd <;> subst hd <;> simp [h, State.setStack, fR] at hlt
  obtain ⟨hq, st, hstk, hbel⟩ := key
  refine ⟨hq, fun t htq => ?_⟩
  have hcl : Ev.closeCalled ∉ s'.log := fun hx => by rw [hi'.inv.closed.2 hx] at hopen; cases hopen
  rw [hrun] at hcl htq
  have h79 := (C79_nothing_lost (sch ++ [(tid, c)]) hcl t htq).2
  rw [← hrun] at h79
  rcases h79 with h1 | h1 | ⟨w, hw⟩
  · exact .inl h1
  · rw [hq] at h1; simp at h1
  · refine .inr ⟨w, ?_, hw⟩
    rintro rfl
    rw [hstk] at hw
    rcases hw with ⟨k, hw⟩ | hw
    · rcases hbel _ hw with ⟨t, h⟩ | ⟨_, _, h⟩ <;> cases h
    · rcases hbel _ hw with ⟨t, h⟩ | ⟨_, _, h⟩ <;> cases h

end

/-- Client 0 runs everything: the first function queues a third one, which is executed as well. -/
example : (run (State.init : State (Fin 1)) ([(0, .queueFn), (0, .queueFn), (0, .runAll), (0, .ret), (0, .ret), (0, .ret),
      (0, .ret), (0, .queueFn)] ++ List.replicate 17 (0, .ret))).log =
      [.queued 0, .queued 1, .started 0, .queued 2, .finished 0, .started 1, .finished 1, .started 2, .finished 2] := by decide

/-- The schedule of the example of `C36`: `close` has returned and the worker has ended. -/
def closeDemo : List (Fin 2 × Call (Fin 2)) := [(0, .queueFn), (0, .queueFn), (0, .start 1), (0, .spawn 1), (0, .ret), (0, .ret),
      (1, .ret), (1, .ret), (1, .ret), (0, .close), (0, .ret), (1, .queueFn), (1, .ret), (0, .ret), (0, .ret), (1, .ret),
      (0, .ret), (0, .ret), (0, .ret), (0, .ret), (0, .ret), (1, .ret), (1, .ret), (1, .ret), (1, .ret), (1, .ret), (1, .ret),
      (1, .ret), (1, .ret), (0, .ret)]

/-- A check of `Orderly`. -/
def orderlyB {n : Nat} : State (Fin n) → List (Fin n × Call (Fin n)) → Bool
  | _, [] => true
  | s, (tid, c) :: sch =>
    (c != .close || (!s.closed && (s.stk tid).isEmpty && decide (∀ w, ∀ f ∈ s.stk w, fS f = 0 ∧ fP f = 0))) &&
    (match c with
      | .start _ => !s.closed
      | .runOne => false
      | .runAll => false
      | _ => true) && orderlyB ((step s tid c).getD s) sch

theorem orderly_of {n : Nat} {s : State (Fin n)} {sch : List (Fin n × Call (Fin n))} (h : orderlyB s sch = true) :
    Orderly s sch := by
  induction sch generalizing s with
  | nil => trivial
  | cons p sch ih =>
    obtain ⟨tid, c⟩ := p
    simp only [orderlyB, Bool.and_eq_true] at h
    obtain ⟨⟨h1, h2⟩, h3⟩ := h
    refine ⟨?_, ?_, ?_, ?_, ih h3⟩
    · rintro rfl
      simp at h1
      refine ⟨h1.1.1, h1.1.2, fun w n => ⟨fun hx => ?_, fun hx => ?_⟩⟩
      · exact absurd (h1.2 w _ hx).1 (by simp [fS])
      · exact absurd (h1.2 w _ hx).2 (by simp [fP])
    · rintro n rfl; simpa using h2
    · rintro rfl; simp at h2
    · rintro rfl; simp at h2

example : Orderly State.init closeDemo := orderly_of (by decide)

example : (run State.init closeDemo).log.getLast? = some .closeReturned ∧ (run State.init closeDemo).stk 1 = [] ∧
    (run State.init closeDemo).queue = [] ∧ (run State.init closeDemo).nThreads = 1 := by decide

/-- C82 is false of the code when somebody calls `run_one` while the pool is closed: that call takes the end marker meant for
the worker; `close` returns and the worker waits for ever. -/
def strayDemo : List (Fin 3 × Call (Fin 3)) := [(0, .start 1), (0, .spawn 1), (0, .ret), (0, .ret), (0, .close), (0, .ret),
  (0, .ret), (2, .runOne), (2, .ret), (2, .ret), (2, .ret), (2, .ret), (0, .ret), (0, .ret)]

theorem C82_counterexample :
    (run State.init strayDemo).log = [.closeCalled, .closeReturned] ∧
    (run State.init strayDemo).stk 1 = [.get .worker] ∧ (run State.init strayDemo).queue = [] ∧
    (run State.init strayDemo).stk 0 = [] ∧ (run State.init strayDemo).stk 2 = [] := by decide

end Verif.Pool
