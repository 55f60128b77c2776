import Mathlib.Data.List.Nodup
import Verif.Pool.Lemmas

set_option linter.unusedSimpArgs false

/-!
C35 and C36: what the events of every schedule of a thread pool look like.
-/

set_option linter.unusedSectionVars false

namespace Verif.Pool

open Verif.Py

/-! ### Specification: which event may follow which events -/

/-- Every event of the log satisfies `P` with respect to the events before it. -/
def LogOk (P : List Ev → Ev → Prop) (log : List Ev) : Prop := ∀ l₁ e l₂, log = l₁ ++ e :: l₂ → P l₁ e

/-- For all schedules. A function is queued before `close` is called and refused after; it is started at most once, not
after it was cancelled, not after a `close` has returned; it is finished at most once and after it was started; it is
cancelled at most once and not after it has finished; when a `close` returns, every queued function was started or
cancelled. Only a function that was cancelled while running makes the pool raise. -/
def Ok (l : List Ev) : Ev → Prop
  | .queued t => .queued t ∉ l ∧ .closeCalled ∉ l
  | .refused => .closeCalled ∈ l
  | .started t => .queued t ∈ l ∧ .started t ∉ l ∧ .cancelled t ∉ l ∧ .closeReturned ∉ l
  | .finished t => .started t ∈ l ∧ .finished t ∉ l
  | .cancelled t => .queued t ∈ l ∧ .cancelled t ∉ l ∧ .finished t ∉ l ∧ .closeCalled ∈ l
  | .closeCalled => True
  | .closeReturned => .closeCalled ∈ l ∧ ∀ t, .queued t ∈ l → .started t ∈ l ∨ .cancelled t ∈ l
  | .raised _ => ∃ t, .started t ∈ l ∧ .cancelled t ∈ l

/-- For schedules in which no function closes the pool while it runs: no function is both started and cancelled; when a
`close` returns every queued function has finished or was cancelled, so none is running; nothing raises. -/
def OkOuter (l : List Ev) : Ev → Prop
  | .started t => Ok l (.started t)
  | .cancelled t => Ok l (.cancelled t) ∧ .started t ∉ l
  | .closeReturned => .closeCalled ∈ l ∧ ∀ t, .queued t ∈ l →
      (.started t ∈ l ∧ .finished t ∈ l) ∨ (.started t ∉ l ∧ .cancelled t ∈ l)
  | .raised _ => False
  | e => Ok l e

theorem logOk_append {P : List Ev → Ev → Prop} {log : List Ev} (h : LogOk P log) {e : Ev} (he : P log e) :
    LogOk P (log ++ [e]) := by
  intro l₁ e' l₂ heq
  rcases List.eq_nil_or_concat l₂ with rfl | ⟨l₂', x, rfl⟩
  · have := List.append_inj' heq rfl
    obtain ⟨rfl, h2⟩ := this
    cases h2; exact he
  · rw [List.concat_eq_append, ← List.cons_append, ← List.append_assoc] at heq
    have := List.append_inj' heq rfl
    exact h l₁ e' l₂' this.1

section
variable {Tid : Type*} [DecidableEq Tid] [Fintype Tid]

/-- What a frame on a stack says about the state. -/
def FrameOk (s : State Tid) : Frame → Prop
  | .cancel ts => .closeCalled ∈ s.log ∧ ∀ t, s.live t = true → t ∈ ts
  | .put _ => .closeCalled ∈ s.log ∧ ∀ t, s.live t = false
  | .join => .closeCalled ∈ s.log ∧ ∀ t, s.live t = false
  | .running t => .started t ∈ s.log
  | .fin t => .started t ∈ s.log
  | _ => True

structure Inv (s : State Tid) : Prop where
  tasks : ∀ t, t ∈ s.tasks ↔ s.live t = true
  nodup : s.tasks.Nodup
  token : ∀ t, total s t ≤ if t < s.next then 1 else 0
  held : ∀ t, holdSum s t ≤ s.log.count (.started t)
  owed : owed s ≤ s.unfinished
  frames : ∀ w, ∀ f ∈ s.stk w, FrameOk s f
  finTop : ∀ w, ∀ t, .fin t ∉ (s.stk w).tail
  closed : s.closed = true ↔ .closeCalled ∈ s.log
  returned : .closeReturned ∈ s.log → .closeCalled ∈ s.log ∧ ∀ t, s.live t = false
  queued : ∀ t, .queued t ∈ s.log ↔ t < s.next
  live : ∀ t, s.live t = true → t < s.next ∧ .cancelled t ∉ s.log ∧ .finished t ∉ s.log
  dead : ∀ t, t < s.next → s.live t = false → .cancelled t ∈ s.log ∨ .finished t ∈ s.log
  holder : ∀ t, .started t ∈ s.log → .finished t ∈ s.log ∨ ∃ w, Holds (s.stk w) t
  log : LogOk Ok s.log

theorem frameOk_mono {s s' : State Tid} (hl : ∀ e ∈ s.log, e ∈ s'.log)
    (hv : .closeCalled ∈ s.log → ∀ t, s'.live t = true → s.live t = true) {f : Frame} (h : FrameOk s f) : FrameOk s' f := by
  have hneg : .closeCalled ∈ s.log → (∀ t, s.live t = false) → ∀ t, s'.live t = false := by
    intro hc h t
    by_contra hx
    have := hv hc t (by simpa using hx)
    rw [h t] at this; cases this
  cases f with
  | cancel ts => exact ⟨hl _ h.1, fun t ht => h.2 t (hv h.1 t ht)⟩
  | put i => exact ⟨hl _ h.1, hneg h.1 h.2⟩
  | join => exact ⟨hl _ h.1, hneg h.1 h.2⟩
  | running t => exact hl _ h
  | fin t => exact hl _ h
  | _ => trivial

theorem mem_unwind {st : List Frame} {f : Frame} (h : f ∈ unwind st) : f ∈ st ∨ ∃ t, f = .fin t ∧ .running t ∈ st := by
  induction st with
  | nil => simp [unwind] at h
  | cons g st ih =>
    cases g
    case running t =>
      simp only [unwind, List.mem_cons] at h
      rcases h with rfl | h
      · exact .inr ⟨t, rfl, by simp⟩
      · exact .inl (by simp [h])
    all_goals
      rcases ih h with h | ⟨t, h1, h2⟩
      · exact .inl (by simp [h])
      · exact .inr ⟨t, h1, by simp [h2]⟩

theorem frameOk_unwind {s : State Tid} {st : List Frame} (h : ∀ f ∈ st, FrameOk s f) : ∀ f ∈ unwind st, FrameOk s f := by
  intro f hf
  rcases mem_unwind hf with h1 | ⟨t, rfl, h2⟩
  · exact h f h1
  · exact h (.running t) h2

theorem unwind_finTop {st : List Frame} (h : ∀ t, .fin t ∉ st) (t : Nat) : .fin t ∉ (unwind st).tail := by
  induction st with
  | nil => simp [unwind]
  | cons g st ih =>
    have h' : ∀ t, Frame.fin t ∉ st := fun t ht => h t (by simp [ht])
    cases g
    case running t' => simpa [unwind] using h' t
    all_goals exact ih h'

/-- Unwinding loses no lock holder if there is none behind the innermost running function. -/
theorem holds_unwind {st : List Frame} {t : Nat} (hf : ∀ t, .fin t ∉ st) (h : Holds st t) : Holds (unwind st) t := by
  induction st with
  | nil => exact h
  | cons g st ih =>
    have hf' : ∀ t, Frame.fin t ∉ st := fun t ht => hf t (by simp [ht])
    have hin : Holds st t → Holds (unwind st) t := ih hf'
    cases g
    case running t' =>
      simp only [unwind, Holds, List.mem_cons, Frame.running.injEq, Frame.fin.injEq, reduceCtorEq, false_or] at h ⊢
      rcases h with (rfl | h) | h
      · exact .inr (.inl rfl)
      · exact .inl h
      · exact .inr (.inr h)
    case fin t' => exact absurd (by simp) (hf t')
    all_goals
      apply hin
      simpa [Holds] using h

/-- How the stacks change: only those of `tid` (and of a spawned worker `w`). -/
theorem stk_update {P : Frame → Prop} {stk : Tid → List Frame} {tid : Tid} {st : List Frame}
    (h : ∀ v, ∀ f ∈ stk v, P f) (hs : ∀ f ∈ st, P f) : ∀ v, ∀ f ∈ Function.update stk tid st v, P f := by
  intro v
  by_cases e : v = tid
  · subst e; simpa using hs
  · rw [Function.update_of_ne e]; exact h v

theorem tail_update {stk : Tid → List Frame} {tid : Tid} {st : List Frame}
    (h : ∀ v t, Frame.fin t ∉ (stk v).tail) (hs : ∀ t, Frame.fin t ∉ st.tail) :
    ∀ v t, Frame.fin t ∉ (Function.update stk tid st v).tail := by
  intro v
  by_cases e : v = tid
  · subst e; simpa using hs
  · rw [Function.update_of_ne e]; exact h v

/-- A holder stays one if the changed stack keeps its holders. -/
theorem holder_update {stk : Tid → List Frame} {tid : Tid} {st : List Frame} {t : Nat}
    (hs : Holds (stk tid) t → Holds st t) (h : ∃ w, Holds (stk w) t) : ∃ w, Holds (Function.update stk tid st w) t := by
  obtain ⟨w, hw⟩ := h
  by_cases e : w = tid
  · subst e; exact ⟨w, by simpa using hs hw⟩
  · exact ⟨w, by rwa [Function.update_of_ne e]⟩

theorem Inv.started_le {s : State Tid} (h : Inv s) (t : Nat) : s.log.count (.started t) ≤ 1 := by
  have := h.token t
  unfold total at this
  split at this <;> omega

theorem Inv.holdSum_le {s : State Tid} (h : Inv s) (t : Nat) : holdSum s t ≤ 1 := (h.held t).trans (h.started_le t)

/-- Steps that change neither tasks nor log, and the stack of one thread in a harmless way. -/
theorem inv_quiet {s s' : State Tid} {tid : Tid} {c : Call Tid} (hstep : Step s tid c s') (h : Inv s) (hlog : s'.log = s.log)
    (hlive : s'.live = s.live) (htasks : s'.tasks = s.tasks) (hnext : s'.next = s.next) (hclosed : s'.closed = s.closed)
    (hf : ∀ w, ∀ f ∈ s'.stk w, FrameOk s f) (hfin : ∀ w t, Frame.fin t ∉ (s'.stk w).tail)
    (hh : ∀ t, (∃ w, Holds (s.stk w) t) → ∃ w, Holds (s'.stk w) t) : Inv s' where
  tasks := by rw [htasks, hlive]; exact h.tasks
  nodup := by rw [htasks]; exact h.nodup
  token t := by
    have := total_step hstep t
    rw [hnext] at this ⊢
    rw [if_neg (by omega)] at this
    exact this.trans (h.token t)
  held t := holdSum_step hstep t (h.held t)
  owed := owed_step hstep h.owed
  frames w f hw := frameOk_mono (by rw [hlog]; simp) (by rw [hlive]; simp) (hf w f hw)
  finTop := hfin
  closed := by rw [hclosed, hlog]; exact h.closed
  returned := by rw [hlog, hlive]; exact h.returned
  queued := by rw [hlog, hnext]; exact h.queued
  live := by rw [hlog, hlive, hnext]; exact h.live
  dead := by rw [hlog, hlive, hnext]; exact h.dead
  holder t ht := by
    rw [hlog] at ht ⊢
    rcases h.holder t ht with h1 | h1
    · exact .inl h1
    · exact .inr (hh t h1)
  log := by rw [hlog]; exact h.log

theorem inv_init : Inv (State.init : State Tid) where
  tasks := by simp [State.init]
  nodup := by simp [State.init]
  token := by simp [State.init, total]
  held := by simp [State.init, holdSum]
  owed := by simp [State.init, Pool.owed]
  frames := by simp [State.init]
  finTop := by simp [State.init]
  closed := by simp [State.init]
  returned := by simp [State.init]
  queued := by simp [State.init]
  live := by simp [State.init]
  dead := by simp [State.init]
  holder := by simp [State.init]
  log := by intro l₁ e l₂ h; simp [State.init] at h

/-- The task's function field becomes `None` and the task leaves the list: end of `execute` and `cancel`. -/
theorem tasks_erase {s : State Tid} (h : Inv s) (t : Nat) :
    (∀ x, x ∈ s.tasks.erase t ↔ Function.update s.live t false x = true) ∧ (s.tasks.erase t).Nodup := by
  refine ⟨fun x => ?_, h.nodup.erase t⟩
  rw [h.nodup.mem_erase_iff]
  by_cases e : x = t
  · subst e; simp
  · simp [e, h.tasks x]

theorem inv_step {s s' : State Tid} {tid : Tid} {c : Call Tid} (hstep : Step s tid c s') (h : Inv s) : Inv s' := by
  have hheld := fun t => holdSum_step hstep t (h.held t)
  have howed := owed_step hstep h.owed
  have htok : s'.next = s.next → ∀ t, total s' t ≤ if t < s'.next then 1 else 0 := by
    intro hn t
    have := total_step hstep t
    rw [hn] at this ⊢
    rw [if_neg (by omega)] at this
    exact this.trans (h.token t)
  have hfr : ∀ {f st}, s.stk tid = f :: st → ∀ g ∈ st, FrameOk s g := fun hs g hg => h.frames tid g (by simp [hs, hg])
  have hft : ∀ {f st}, s.stk tid = f :: st → ∀ t, Frame.fin t ∉ st := fun hs t ht => h.finTop tid t (by simpa [hs] using ht)
  have htl : ∀ {st : List Frame}, (∀ t, Frame.fin t ∉ st) → ∀ t, Frame.fin t ∉ st.tail :=
    fun hs t ht => hs t (List.mem_of_mem_tail ht)
  cases hstep with
  | refused hc =>
    have hcl := h.closed.1 hc
    exact {
      tasks := h.tasks, nodup := h.nodup, token := htok rfl, held := hheld, owed := howed
      frames := fun w f hf => frameOk_mono (s := s) (fun e he => by simp [State.emit, he]) (by exact fun _ _ h => h) (h.frames w f hf)
      finTop := h.finTop
      closed := by simpa [State.emit] using h.closed
      returned := by simpa [State.emit] using h.returned
      queued := by simpa [State.emit] using h.queued
      live := by simpa [State.emit] using h.live
      dead := by simpa [State.emit] using h.dead
      holder := by simpa [State.emit] using h.holder
      log := logOk_append h.log hcl }
  | queued hc =>
    have hnc : Ev.closeCalled ∉ s.log := fun hx => by rw [h.closed.2 hx] at hc; cases hc
    have hnl : s.live s.next = false := by
      by_contra hx
      have := (h.live s.next (by simpa using hx)).1
      omega
    have hnt : s.next ∉ s.tasks := by rw [h.tasks]; simp [hnl]
    have hns : ∀ t, Ev.started t ∈ s.log → t < s.next := by
      intro t ht
      by_contra hx
      have h1 := h.token t
      rw [if_neg hx] at h1
      have := List.count_pos_iff.2 ht
      unfold total at h1; omega
    have hcn : Ev.cancelled s.next ∉ s.log := by
      intro hx
      obtain ⟨l1, l2, e⟩ := List.append_of_mem hx
      have := (h.log l1 _ l2 e).1
      have := (h.queued s.next).1 (by rw [e]; simp [this])
      omega
    have hfn : Ev.finished s.next ∉ s.log := by
      intro hx
      obtain ⟨l1, l2, e⟩ := List.append_of_mem hx
      have := (h.log l1 _ l2 e).1
      have := hns s.next (by rw [e]; simp [this])
      omega
    exact {
      tasks := by
        intro t
        by_cases e : t = s.next
        · subst e; simp
        · simp [e, h.tasks t]
      nodup := by
        rw [List.nodup_append]
        refine ⟨h.nodup, List.nodup_singleton _, fun a ha b hb => ?_⟩
        rw [List.mem_singleton] at hb
        rintro rfl; subst hb; exact hnt ha
      token := by
        intro t
        have h1 := total_step (Step.queued (tid := tid) (c := c) hc) t
        have h2 := h.token t
        simp only at h1 ⊢
        by_cases e : t = s.next
        · subst e; simp at h1 h2 ⊢; omega
        · simp only [e, false_and, if_false] at h1
          split at h2 <;> split <;> omega
      held := hheld, owed := howed
      frames := fun w f hf => frameOk_mono (s := s) (fun e he => by simp [he]) (fun hx => absurd hx hnc) (h.frames w f hf)
      finTop := h.finTop
      closed := by simpa using h.closed
      returned := by
        intro hx
        simp only [List.mem_append, List.mem_singleton, reduceCtorEq, or_false] at hx
        exact absurd (h.returned hx).1 hnc
      queued := by
        intro t
        simp only [List.mem_append, List.mem_singleton, Ev.queued.injEq, h.queued t]
        omega
      live := by
        intro t ht
        simp only [List.mem_append, List.mem_singleton, reduceCtorEq, or_false]
        by_cases e : t = s.next
        · subst e; exact ⟨by omega, hcn, hfn⟩
        · have ht : Function.update s.live s.next true t = true := ht
          rw [Function.update_of_ne e] at ht
          have := h.live t ht
          exact ⟨by omega, this.2⟩
      dead := by
        intro t ht hl
        simp only [List.mem_append, List.mem_singleton, reduceCtorEq, or_false]
        by_cases e : t = s.next
        · subst e; simp at hl
        · have hl : Function.update s.live s.next true t = false := hl
          rw [Function.update_of_ne e] at hl
          exact h.dead t (by simp only at ht; omega) hl
      holder := by simpa using h.holder
      log := logOk_append h.log ⟨by rw [h.queued]; omega, hnc⟩ }
  | close hclose hcall =>
    have hfin0 : ∀ t, Frame.fin t ∉ s.stk tid := by
      intro t ht
      rcases hcall with hs | ⟨t', st, hs⟩
      · simp [hs] at ht
      · exact h.finTop tid t (by simpa [hs] using ht)
    exact {
      tasks := h.tasks, nodup := h.nodup, token := htok rfl, held := hheld, owed := howed
      frames := by
        apply stk_update
        · intro v f hf
          exact frameOk_mono (s := s) (fun e he => by simp [State.emit, State.setStack, he]) (by exact fun _ _ h => h) (h.frames v f hf)
        · intro f hf
          rcases List.mem_cons.1 hf with rfl | hf
          · exact ⟨by simp [State.emit], fun t ht => (h.tasks t).2 ht⟩
          · exact frameOk_mono (s := s) (fun e he => by simp [State.emit, State.setStack, he]) (by exact fun _ _ h => h) (h.frames tid f hf)
      finTop := tail_update h.finTop hfin0
      closed := by simp [State.emit, State.setStack]
      returned := fun hx => by
        have hx : Ev.closeReturned ∈ s.log := by simpa [State.emit, State.setStack] using hx
        exact ⟨by simp [State.emit], (h.returned hx).2⟩
      queued := by simpa [State.emit, State.setStack] using h.queued
      live := by simpa [State.emit, State.setStack] using h.live
      dead := by simpa [State.emit, State.setStack] using h.dead
      holder := by
        intro t ht
        have ht : Ev.started t ∈ s.log := by simpa [State.emit, State.setStack] using ht
        rcases h.holder t ht with h1 | h1
        · exact .inl (by simp [State.emit, State.setStack, h1])
        · exact .inr (holder_update (fun hh => by simpa [Holds] using hh) h1)
      log := logOk_append h.log trivial }
  | push hcall f hf =>
    have hfin0 : ∀ t, Frame.fin t ∉ s.stk tid := by
      intro t ht
      rcases hcall with hs | ⟨t', st, hs⟩
      · simp [hs] at ht
      · exact h.finTop tid t (by simpa [hs] using ht)
    refine inv_quiet (c := c) (.push hcall f hf (by assumption)) h rfl rfl rfl rfl rfl ?_ (tail_update h.finTop hfin0) ?_
    · apply stk_update h.frames
      intro g hg
      rcases List.mem_cons.1 hg with rfl | hg
      · rcases hf with ⟨k, rfl⟩ | ⟨n, rfl⟩ <;> trivial
      · exact h.frames tid g hg
    · intro t
      apply holder_update
      intro hh
      simp only [Holds, List.mem_cons] at hh ⊢
      rcases hh with hh | hh <;> simp [hh]
  | ret t st hs =>
    refine inv_quiet (c := c) (.ret t st hs) h rfl rfl rfl rfl rfl ?_ (tail_update h.finTop (hft hs)) ?_
    · apply stk_update h.frames
      intro g hg
      rcases List.mem_cons.1 hg with rfl | hg
      · exact h.frames tid (.running t) (by simp [hs])
      · exact hfr hs g hg
    · intro t'
      apply holder_update
      rw [hs]
      intro hh
      simp only [Holds, List.mem_cons, Frame.running.injEq, Frame.fin.injEq, reduceCtorEq, false_or] at hh ⊢
      rcases hh with (hh | hh) | hh <;> simp [hh]
  | pop f st hs hf =>
    refine inv_quiet (c := c) (.pop f st hs hf (by assumption)) h rfl rfl rfl rfl rfl ?_ (tail_update h.finTop (htl (hft hs))) ?_
    · exact stk_update h.frames (hfr hs)
    · intro t'
      apply holder_update
      rw [hs]
      rcases hf with ⟨k, rfl⟩ | rfl <;> (intro hh; simpa [Holds] using hh)
  | repl f g st hs hf =>
    refine inv_quiet (c := c) (.repl f g st hs hf) h rfl rfl rfl rfl rfl ?_ (tail_update h.finTop (hft hs)) ?_
    · apply stk_update h.frames
      intro x hx
      rcases List.mem_cons.1 hx with rfl | hx
      · rcases hf with ⟨k, rfl, rfl⟩ | ⟨k, i, rfl, rfl, _⟩ <;> trivial
      · exact hfr hs x hx
    · intro t'
      apply holder_update
      rw [hs]
      rcases hf with ⟨k, rfl, rfl⟩ | ⟨k, i, rfl, rfl, _⟩ <;> (intro hh; simpa [Holds] using hh)
  | get k st item q hs hq =>
    refine inv_quiet (c := c) (.get k st item q hs hq) h rfl rfl rfl rfl rfl ?_ (tail_update h.finTop (hft hs)) ?_
    · apply stk_update h.frames
      intro x hx
      rcases List.mem_cons.1 hx with rfl | hx
      · trivial
      · exact hfr hs x hx
    · intro t'
      apply holder_update
      change Holds (s.stk tid) t' → _
      rw [hs]
      intro hh; simpa [Holds] using hh
  | gotExec k t st hs hc =>
    refine inv_quiet (c := c) (.gotExec k t st hs hc) h rfl rfl rfl rfl rfl ?_ (tail_update h.finTop ?_) ?_
    · apply stk_update h.frames
      intro x hx
      rcases List.mem_cons.1 hx with rfl | hx
      · trivial
      · rcases List.mem_cons.1 hx with rfl | hx
        · trivial
        · exact hfr hs x hx
    · intro t'; simpa using hft hs t'
    · intro t'
      apply holder_update
      rw [hs]
      intro hh; simpa [Holds] using hh
  | execRun t st hs hl hlive =>
    have hlv := h.live t hlive
    have hret : Ev.closeReturned ∉ s.log := fun hx => by rw [(h.returned hx).2 t] at hlive; cases hlive
    have hns : Ev.started t ∉ s.log := by
      intro hx
      have h1 := h.token t
      rw [if_pos hlv.1] at h1
      have h2 := List.count_pos_iff.2 hx
      have h3 := Finset.single_le_sum (f := fun v => tokS t (s.stk v)) (s := Finset.univ) (fun _ _ => Nat.zero_le _)
        (Finset.mem_univ tid)
      simp only [hs, tokS_cons, tok, if_true] at h3
      unfold total at h1
      omega
    exact {
      tasks := h.tasks, nodup := h.nodup, token := htok rfl, held := hheld, owed := howed
      frames := by
        apply stk_update
        · intro v f hf
          exact frameOk_mono (s := s) (fun e he => by simp [State.emit, State.setStack, he]) (by exact fun _ _ h => h) (h.frames v f hf)
        · intro f hf
          rcases List.mem_cons.1 hf with rfl | hf
          · simp [FrameOk, State.emit]
          · exact frameOk_mono (s := s) (fun e he => by simp [State.emit, State.setStack, he]) (by exact fun _ _ h => h) (hfr hs f hf)
      finTop := tail_update h.finTop (hft hs)
      closed := by simpa [State.emit, State.setStack] using h.closed
      returned := by simpa [State.emit, State.setStack] using h.returned
      queued := by simpa [State.emit, State.setStack] using h.queued
      live := by simpa [State.emit, State.setStack] using h.live
      dead := by simpa [State.emit, State.setStack] using h.dead
      holder := by
        intro t' ht
        simp only [State.emit, State.setStack, List.mem_append, List.mem_singleton, Ev.started.injEq, reduceCtorEq,
          or_false] at ht ⊢
        rcases ht with ht | rfl
        · rcases h.holder t' ht with h1 | h1
          · exact .inl h1
          · refine .inr (holder_update ?_ h1)
            rw [hs]
            intro hh
            simp only [Holds, List.mem_cons, reduceCtorEq, false_or] at hh ⊢
            rcases hh with hh | hh <;> simp [hh]
        · exact .inr ⟨tid, by simp [Holds]⟩
      log := logOk_append h.log ⟨(h.queued t).2 hlv.1, hns, hlv.2.1, hret⟩ }
  | execSkip t st hs hlive =>
    refine inv_quiet (c := c) (.execSkip t st hs hlive) h rfl rfl rfl rfl rfl ?_ (tail_update h.finTop (htl (hft hs))) ?_
    · exact stk_update h.frames (hfr hs)
    · intro t'
      apply holder_update
      rw [hs]
      intro hh; simpa [Holds] using hh
  | finOk t st hs ht =>
    have hst : Ev.started t ∈ s.log := h.frames tid (.fin t) (by simp [hs])
    have hnf : Ev.finished t ∉ s.log := by
      have := (holder_unique (h.holdSum_le t) (w := tid) (by simp [Holds, hs])).2.2
      exact List.count_eq_zero.1 this
    have hte := tasks_erase h t
    have hlv := h.live t ((h.tasks t).1 ht)
    have hmono : ∀ x, Function.update s.live t false x = true → s.live x = true := by
      intro x hx
      by_cases e : x = t
      · subst e; simp at hx
      · rwa [Function.update_of_ne e] at hx
    exact {
      tasks := hte.1, nodup := hte.2, token := htok rfl, held := hheld, owed := howed
      frames := by
        apply stk_update
        · intro v f hf
          exact frameOk_mono (s := s) (fun e he => by simp [State.emit, State.setStack, he]) (fun _ => hmono) (h.frames v f hf)
        · intro f hf
          exact frameOk_mono (s := s) (fun e he => by simp [State.emit, State.setStack, he]) (fun _ => hmono) (hfr hs f hf)
      finTop := tail_update h.finTop (htl (hft hs))
      closed := by simpa [State.emit, State.setStack] using h.closed
      returned := by
        intro hx
        have hx : Ev.closeReturned ∈ s.log := by simpa [State.emit, State.setStack] using hx
        obtain ⟨h1, h2⟩ := h.returned hx
        refine ⟨by simp [State.emit, State.setStack, h1], fun x => ?_⟩
        by_contra hn
        have := hmono x ((Bool.not_eq_false _).mp hn)
        rw [h2 x] at this; cases this
      queued := by simpa [State.emit, State.setStack] using h.queued
      live := by
        intro x hx
        simp only [State.emit, State.setStack] at hx ⊢
        have hne : x ≠ t := by rintro rfl; simp at hx
        have := h.live x (hmono x hx)
        refine ⟨this.1, ?_, ?_⟩
        · simpa using this.2.1
        · simpa [hne] using this.2.2
      dead := by
        intro x hx hl
        simp only [State.emit, State.setStack] at hx hl ⊢
        by_cases e : x = t
        · subst e; right; simp
        · rw [Function.update_of_ne e] at hl
          rcases h.dead x hx hl with h1 | h1 <;> simp [h1]
      holder := by
        intro t' ht'
        have ht' : Ev.started t' ∈ s.log := by simpa [State.emit, State.setStack] using ht'
        by_cases e : t' = t
        · subst e; left; simp [State.emit]
        · rcases h.holder t' ht' with h1 | h1
          · left; simp [State.emit, State.setStack, h1]
          · right
            refine holder_update (stk := s.stk) ?_ h1
            rw [hs]
            intro hh
            simpa [Holds, e] using hh
      log := logOk_append h.log ⟨hst, hnf⟩ }
  | finErr t st hs ht =>
    have hst : Ev.started t ∈ s.log := h.frames tid (.fin t) (by simp [hs])
    have hnf : Ev.finished t ∉ s.log := by
      have := (holder_unique (h.holdSum_le t) (w := tid) (by simp [Holds, hs])).2.2
      exact List.count_eq_zero.1 this
    have hnl : s.live t = false := by
      by_contra hx; exact ht ((h.tasks t).2 (by simpa using hx))
    have hlt : t < s.next := by
      by_contra hx
      have h1 := h.token t
      rw [if_neg hx] at h1
      have := List.count_pos_iff.2 hst
      unfold total at h1; omega
    have hcan : Ev.cancelled t ∈ s.log := by
      rcases h.dead t hlt hnl with h1 | h1
      · exact h1
      · exact absurd h1 hnf
    have hupd : Function.update s.live t false = s.live := by rw [← hnl]; simp
    exact {
      tasks := by
        intro x
        simp only [State.emit, State.setStack, hupd]
        exact h.tasks x
      nodup := h.nodup, token := htok rfl, held := hheld, owed := howed
      frames := by
        have hm : ∀ f, FrameOk s f → FrameOk _ f := fun f =>
          frameOk_mono (s := s) (s' := (({ s with live := Function.update s.live t false }.setStack tid (unwind st)).emit
            (.finished t)).emit (.raised .valueError)) (fun e he => by simp [State.emit, State.setStack, he])
            (fun _ x hx => by simp only [State.emit, State.setStack, hupd] at hx; exact hx)
        apply stk_update
        · intro v f hf; exact hm f (h.frames v f hf)
        · intro f hf; exact hm f (frameOk_unwind (hfr hs) f hf)
      finTop := tail_update h.finTop (unwind_finTop (hft hs))
      closed := by simpa [State.emit, State.setStack] using h.closed
      returned := by simpa [State.emit, State.setStack, hupd] using h.returned
      queued := by simpa [State.emit, State.setStack] using h.queued
      live := by
        intro x hx
        simp only [State.emit, State.setStack, hupd] at hx ⊢
        have hne : x ≠ t := by rintro rfl; rw [hnl] at hx; cases hx
        have := h.live x hx
        refine ⟨this.1, ?_, ?_⟩
        · simpa using this.2.1
        · simpa [hne] using this.2.2
      dead := by
        intro x hx hl
        simp only [State.emit, State.setStack, hupd] at hx hl ⊢
        rcases h.dead x hx hl with h1 | h1 <;> simp [h1]
      holder := by
        intro t' ht'
        have ht' : Ev.started t' ∈ s.log := by simpa [State.emit, State.setStack] using ht'
        by_cases e : t' = t
        · subst e; left; simp [State.emit]
        · rcases h.holder t' ht' with h1 | h1
          · left; simp [State.emit, State.setStack, h1]
          · right
            refine holder_update (stk := s.stk) ?_ h1
            rw [hs]
            intro hh
            refine holds_unwind (hft hs) ?_
            simpa [Holds, e] using hh
      log := logOk_append (logOk_append h.log (e := .finished t) ⟨hst, hnf⟩) (e := .raised .valueError)
        ⟨t, by simp [State.setStack, hst], by simp [State.setStack, hcan]⟩ }
  | doneErr k item st hs hu =>
    have := owed_pos h.owed hs
    omega
  | done k item st st' hs hst =>
    refine inv_quiet (c := c) (.done k item st st' hs hst (by assumption) (by assumption)) h rfl rfl rfl rfl rfl ?_ (tail_update h.finTop ?_) ?_
    · refine stk_update h.frames (fun f hf => ?_)
      rcases hst with rfl | rfl | rfl
      · exact hfr hs f hf
      · rcases List.mem_cons.1 hf with rfl | hf
        · trivial
        · exact hfr hs f hf
      · rcases List.mem_cons.1 hf with rfl | hf
        · trivial
        · exact hfr hs f hf
    · rcases hst with rfl | rfl | rfl
      · exact htl (hft hs)
      · exact hft hs
      · exact hft hs
    · intro t'
      apply holder_update
      change Holds (s.stk tid) t' → _
      rw [hs]
      rcases hst with rfl | rfl | rfl <;> (intro hh; simpa [Holds] using hh)
  | cancelNil st hs =>
    have hk : FrameOk s (.cancel []) := h.frames tid _ (by simp [hs])
    refine inv_quiet (c := c) (.cancelNil st hs) h rfl rfl rfl rfl rfl ?_ (tail_update h.finTop (hft hs)) ?_
    · apply stk_update h.frames
      intro x hx
      rcases List.mem_cons.1 hx with rfl | hx
      · refine ⟨hk.1, fun t => ?_⟩
        by_contra hn
        have := hk.2 t (by simpa using hn)
        simp at this
      · exact hfr hs x hx
    · intro t'
      apply holder_update
      rw [hs]
      intro hh; simpa [Holds] using hh
  | cancelLive t ts st hs hl hlive ht =>
    have hk : FrameOk s (.cancel (t :: ts)) := h.frames tid _ (by simp [hs])
    have hte := tasks_erase h t
    have hlv := h.live t hlive
    have hmono : ∀ x, Function.update s.live t false x = true → s.live x = true := by
      intro x hx
      by_cases e : x = t
      · subst e; simp at hx
      · rwa [Function.update_of_ne e] at hx
    exact {
      tasks := hte.1, nodup := hte.2, token := htok rfl, held := hheld, owed := howed
      frames := by
        apply stk_update
        · intro v f hf
          exact frameOk_mono (s := s) (fun e he => by simp [State.emit, State.setStack, he]) (fun _ => hmono) (h.frames v f hf)
        · intro f hf
          rcases List.mem_cons.1 hf with rfl | hf
          · refine ⟨by simp [State.emit, State.setStack, hk.1], fun x hx => ?_⟩
            simp only [State.emit, State.setStack] at hx
            have hne : x ≠ t := by rintro rfl; simp at hx
            rcases List.mem_cons.1 (hk.2 x (hmono x hx)) with h1 | h1
            · exact absurd h1 hne
            · exact h1
          · exact frameOk_mono (s := s) (fun e he => by simp [State.emit, State.setStack, he]) (fun _ => hmono) (hfr hs f hf)
      finTop := tail_update h.finTop (hft hs)
      closed := by simpa [State.emit, State.setStack] using h.closed
      returned := by
        intro hx
        have hx : Ev.closeReturned ∈ s.log := by simpa [State.emit, State.setStack] using hx
        rw [(h.returned hx).2 t] at hlive; cases hlive
      queued := by simpa [State.emit, State.setStack] using h.queued
      live := by
        intro x hx
        simp only [State.emit, State.setStack] at hx ⊢
        have hne : x ≠ t := by rintro rfl; simp at hx
        have := h.live x (hmono x hx)
        refine ⟨this.1, ?_, ?_⟩
        · simpa [hne] using this.2.1
        · simpa using this.2.2
      dead := by
        intro x hx hl
        simp only [State.emit, State.setStack] at hx hl ⊢
        by_cases e : x = t
        · subst e; left; simp
        · rw [Function.update_of_ne e] at hl
          rcases h.dead x hx hl with h1 | h1 <;> simp [h1]
      holder := by
        intro t' ht'
        have ht' : Ev.started t' ∈ s.log := by simpa [State.emit, State.setStack] using ht'
        rcases h.holder t' ht' with h1 | h1
        · left; simp [State.emit, State.setStack, h1]
        · right
          refine holder_update (stk := s.stk) ?_ h1
          rw [hs]
          intro hh
          simpa [Holds] using hh
      log := logOk_append h.log ⟨(h.queued t).2 hlv.1, hlv.2.1, hlv.2.2, hk.1⟩ }
  | cancelErr t ts st hs hlive ht => exact absurd ((h.tasks t).2 hlive) ht
  | cancelDead t ts st hs hlive =>
    have hk : FrameOk s (.cancel (t :: ts)) := h.frames tid _ (by simp [hs])
    refine inv_quiet (c := c) (.cancelDead t ts st hs hlive) h rfl rfl rfl rfl rfl ?_ (tail_update h.finTop (hft hs)) ?_
    · apply stk_update h.frames
      intro x hx
      rcases List.mem_cons.1 hx with rfl | hx
      · refine ⟨hk.1, fun x hx => ?_⟩
        rcases List.mem_cons.1 (hk.2 x hx) with h1 | h1
        · subst h1; rw [hlive] at hx; cases hx
        · exact h1
      · exact hfr hs x hx
    · intro t'
      apply holder_update
      rw [hs]
      intro hh; simpa [Holds] using hh
  | put i st hs =>
    have hk : FrameOk s (.put i) := h.frames tid _ (by simp [hs])
    refine inv_quiet (c := c) (.put i st hs (by assumption)) h rfl rfl rfl rfl rfl ?_ (tail_update h.finTop (hft hs)) ?_
    · apply stk_update h.frames
      intro x hx
      rcases List.mem_cons.1 hx with rfl | hx
      · exact hk
      · exact hfr hs x hx
    · intro t'
      apply holder_update
      change Holds (s.stk tid) t' → _
      rw [hs]
      intro hh; simpa [Holds] using hh
  | putEnd i st hs =>
    have hk : FrameOk s (.put i) := h.frames tid _ (by simp [hs])
    refine inv_quiet (c := c) (.putEnd i st hs (by assumption)) h rfl rfl rfl rfl rfl ?_ (tail_update h.finTop (hft hs)) ?_
    · apply stk_update h.frames
      intro x hx
      rcases List.mem_cons.1 hx with rfl | hx
      · exact hk
      · exact hfr hs x hx
    · intro t'
      apply holder_update
      rw [hs]
      intro hh; simpa [Holds] using hh
  | join st hs =>
    have hk : FrameOk s .join := h.frames tid _ (by simp [hs])
    exact {
      tasks := h.tasks, nodup := h.nodup, token := htok rfl, held := hheld, owed := howed
      frames := by
        apply stk_update
        · intro v f hf
          exact frameOk_mono (s := s) (fun e he => by simp [State.emit, State.setStack, he]) (by exact fun _ _ h => h) (h.frames v f hf)
        · intro f hf
          exact frameOk_mono (s := s) (fun e he => by simp [State.emit, State.setStack, he]) (by exact fun _ _ h => h) (hfr hs f hf)
      finTop := tail_update h.finTop (htl (hft hs))
      closed := by simpa [State.emit, State.setStack] using h.closed
      returned := fun _ => ⟨by simp [State.emit, State.setStack, hk.1], hk.2⟩
      queued := by simpa [State.emit, State.setStack] using h.queued
      live := by simpa [State.emit, State.setStack] using h.live
      dead := by simpa [State.emit, State.setStack] using h.dead
      holder := by
        intro t' ht'
        have ht' : Ev.started t' ∈ s.log := by simpa [State.emit, State.setStack] using ht'
        rcases h.holder t' ht' with h1 | h1
        · left; simp [State.emit, State.setStack, h1]
        · right
          refine holder_update (stk := s.stk) ?_ h1
          rw [hs]
          intro hh
          simpa [Holds] using hh
      log := by
        refine logOk_append h.log ⟨hk.1, fun t ht => ?_⟩
        have ht : Ev.queued t ∈ s.log := ht
        rcases h.dead t ((h.queued t).1 ht) (hk.2 t) with h1 | h1
        · exact .inr h1
        · left
          obtain ⟨l1, l2, e⟩ := List.append_of_mem h1
          have := (h.log l1 _ l2 e).1
          change Ev.started t ∈ s.log
          rw [e]; simp [this] }
  | spawn w n st hs hw hw' =>
    refine inv_quiet (c := c) (.spawn w n st hs hw hw') h rfl rfl rfl rfl rfl ?_ ?_ ?_
    · apply stk_update
      · apply stk_update h.frames
        intro f hf
        rw [List.mem_singleton] at hf; subst hf; trivial
      · intro f hf
        rcases List.mem_cons.1 hf with rfl | hf
        · trivial
        · exact hfr hs f hf
    · exact tail_update (tail_update h.finTop (by simp)) (hft hs)
    · intro t' hh
      apply holder_update (stk := Function.update s.stk w [.get .worker])
      · rw [Function.update_of_ne hw.symm, hs]
        intro hh; simpa [Holds] using hh
      · refine holder_update ?_ hh
        rw [hw']; simp [Holds]
  | append n st hs =>
    refine inv_quiet (c := c) (.append n st hs) h rfl rfl rfl rfl rfl ?_ (tail_update h.finTop (hft hs)) ?_
    · apply stk_update h.frames
      intro x hx
      rcases List.mem_cons.1 hx with rfl | hx
      · trivial
      · exact hfr hs x hx
    · intro t'
      apply holder_update
      change Holds (s.stk tid) t' → _
      rw [hs]
      intro hh; simpa [Holds] using hh

theorem inv_run (sch : List (Tid × Call Tid)) {s : State Tid} (h : Inv s) : Inv (run s sch) := by
  induction sch generalizing s with
  | nil => exact h
  | cons p sch ih =>
    apply ih
    cases hs : step s p.1 p.2 with
    | none => simpa [hs] using h
    | some s' => simpa [hs] using inv_step (step_step hs) h

/-! ### No function closes the pool while it runs -/

/-- No thread calls `close` from inside a queued function. -/
def NoInnerClose : State Tid → List (Tid × Call Tid) → Prop
  | _, [] => True
  | s, (tid, c) :: sch => (c = .close → ∀ t, Frame.running t ∉ s.stk tid) ∧ NoInnerClose ((step s tid c).getD s) sch

structure InvOuter (s : State Tid) : Prop where
  inv : Inv s
  top : ∀ w ts, Frame.cancel ts ∈ s.stk w → s.stk w = [.cancel ts]
  live : ∀ w t, Holds (s.stk w) t → s.live t = true
  log : LogOk OkOuter s.log

theorem top_update {stk : Tid → List Frame} {tid : Tid} {st : List Frame}
    (h : ∀ w ts, Frame.cancel ts ∈ stk w → stk w = [.cancel ts]) (hs : ∀ ts, Frame.cancel ts ∈ st → st = [.cancel ts]) :
    ∀ w ts, Frame.cancel ts ∈ Function.update stk tid st w → Function.update stk tid st w = [.cancel ts] := by
  intro v
  by_cases e : v = tid
  · subst e; simpa using hs
  · rw [Function.update_of_ne e]; exact h v

theorem held_update {stk : Tid → List Frame} {tid : Tid} {st : List Frame} {P : Nat → Prop}
    (h : ∀ w t, Holds (stk w) t → P t) (hs : ∀ t, Holds st t → P t) : ∀ w t, Holds (Function.update stk tid st w) t → P t := by
  intro v
  by_cases e : v = tid
  · subst e; simpa using hs
  · rw [Function.update_of_ne e]; exact h v

theorem outer_exclusive {log : List Ev} (h : LogOk OkOuter log) {t : Nat} (hc : .cancelled t ∈ log) : .started t ∉ log := by
  intro hs
  obtain ⟨l1, l2, e⟩ := List.append_of_mem hc
  have h1 := h l1 _ l2 e
  rw [e] at hs
  rcases List.mem_append.1 hs with hs | hs
  · exact h1.2 hs
  · rcases List.mem_cons.1 hs with hs | hs
    · cases hs
    · obtain ⟨m1, m2, e'⟩ := List.append_of_mem hs
      have h2 := h (l1 ++ .cancelled t :: m1) (.started t) m2 (by rw [e, e']; simp)
      exact h2.2.2.1 (by simp)

theorem outer_step {s s' : State Tid} {tid : Tid} {c : Call Tid} (hstep : Step s tid c s') (h : InvOuter s)
    (hno : c = .close → s'.closed = true → ∀ t, Frame.running t ∉ s.stk tid) : InvOuter s' := by
  have hinv := inv_step hstep h.inv
  have htop : ∀ {f st}, s.stk tid = f :: st → (∀ ts, f ≠ .cancel ts) → ∀ ts, Frame.cancel ts ∉ st := by
    intro f st hs hf ts ht
    have := h.top tid ts (by simp [hs, ht])
    rw [hs] at this
    cases this; exact hf ts rfl
  have hcan : ∀ {ts st}, s.stk tid = .cancel ts :: st → st = [] := by
    intro ts st hs
    have := h.top tid ts (by simp [hs])
    rw [hs] at this
    simpa using this
  have hrun : (s.stk tid = [] ∨ ∃ t st, s.stk tid = .running t :: st) → ∀ ts, Frame.cancel ts ∉ s.stk tid := by
    rintro (hs | ⟨t, st, hs⟩) ts ht
    · simp [hs] at ht
    · exact htop hs (by simp) ts (by simpa [hs] using ht)
  have hhold : ∀ {f st}, s.stk tid = f :: st → ∀ t, Holds st t → s.live t = true := by
    intro f st hs t ht
    refine h.live tid t ?_
    rw [hs]
    rcases ht with ht | ht
    · exact .inl (by simp [ht])
    · exact .inr (by simp [ht])
  -- a changed stack that contains no `cancel` frame and whose lock holders were there before
  have quiet : ∀ (s₁ : State Tid) (st : List Frame), Inv s₁ → s₁.stk = Function.update s.stk tid st → s₁.live = s.live →
      s₁.log = s.log → (∀ ts, Frame.cancel ts ∉ st) → (∀ t, Holds st t → s.live t = true) → InvOuter s₁ := by
    intro s₁ st h1 h2 h3 h4 h5 h6
    refine ⟨h1, ?_, ?_, ?_⟩
    · rw [h2]; exact top_update h.top (fun ts ht => absurd ht (h5 ts))
    · rw [h2, h3]; exact held_update h.live h6
    · rw [h4]; exact h.log
  cases hstep with
  | refused hc => exact ⟨hinv, h.top, h.live, logOk_append h.log (h.inv.closed.1 hc)⟩
  | queued hc =>
    have hnl : ∀ t, s.live t = true → t < s.next := fun t ht => (h.inv.live t ht).1
    refine ⟨hinv, h.top, fun w t ht => ?_, ?_⟩
    · have := h.live w t ht
      by_cases e : t = s.next
      · subst e; simp
      · simp [e, this]
    · exact logOk_append h.log ⟨by rw [h.inv.queued]; omega, fun hx => by rw [h.inv.closed.2 hx] at hc; cases hc⟩
  | close hclose hcall =>
    have hnil : s.stk tid = [] := by
      rcases hcall with hs | ⟨t, st, hs⟩
      · exact hs
      · exact absurd (by simp [hs]) (hno hclose rfl t)
    refine ⟨hinv, ?_, ?_, logOk_append h.log trivial⟩
    · refine top_update (stk := s.stk) h.top ?_
      intro ts hts
      rw [hnil] at hts ⊢
      simp only [List.mem_singleton] at hts
      rw [hts]
    · refine held_update (stk := s.stk) h.live ?_
      rw [hnil]
      simp [Holds]
  | push hcall f hf =>
    refine quiet _ _ hinv rfl rfl rfl ?_ ?_
    · intro ts ht
      rcases List.mem_cons.1 ht with ht | ht
      · rcases hf with ⟨k, rfl⟩ | ⟨n, rfl⟩ <;> cases ht
      · exact hrun hcall ts ht
    · intro t ht
      apply h.live tid t
      rcases hf with ⟨k, rfl⟩ | ⟨n, rfl⟩ <;> simpa [Holds] using ht
  | ret t st hs =>
    refine quiet _ _ hinv rfl rfl rfl ?_ ?_
    · intro ts ht
      exact htop hs (by simp) ts (by simpa using ht)
    · intro t' ht
      apply h.live tid t'
      rw [hs]
      simp only [Holds, List.mem_cons, Frame.running.injEq, Frame.fin.injEq, reduceCtorEq, false_or] at ht ⊢
      rcases ht with ht | ht | ht <;> simp [ht]
  | pop f st hs hf =>
    refine quiet _ _ hinv rfl rfl rfl (htop hs ?_) (hhold hs)
    rcases hf with ⟨k, rfl⟩ | rfl <;> simp
  | repl f g st hs hf =>
    refine quiet _ _ hinv rfl rfl rfl ?_ ?_
    · intro ts ht
      rcases hf with ⟨k, rfl, rfl⟩ | ⟨k, i, rfl, rfl, _⟩ <;> exact htop hs (by simp) ts (by simpa using ht)
    · intro t ht
      apply hhold hs t
      rcases hf with ⟨k, rfl, rfl⟩ | ⟨k, i, rfl, rfl, _⟩ <;> simpa [Holds] using ht
  | get k st item q hs hq =>
    refine quiet _ _ hinv rfl rfl rfl ?_ ?_
    · intro ts ht; exact htop hs (by simp) ts (by simpa using ht)
    · intro t ht; exact hhold hs t (by simpa [Holds] using ht)
  | gotExec k t st hs hc =>
    refine quiet _ _ hinv rfl rfl rfl ?_ ?_
    · intro ts ht; exact htop hs (by simp) ts (by simpa using ht)
    · intro t ht; exact hhold hs t (by simpa [Holds] using ht)
  | execRun t st hs hl hlive =>
    refine ⟨hinv, ?_, ?_, ?_⟩
    · refine top_update (stk := s.stk) h.top ?_
      intro ts ht; exact absurd (by simpa using ht) (htop hs (by simp) ts)
    · refine held_update (stk := s.stk) h.live ?_
      intro t' ht
      simp only [Holds, List.mem_cons, Frame.running.injEq, reduceCtorEq, false_or] at ht
      rcases ht with (ht | ht) | ht
      · subst ht; exact hlive
      · exact hhold hs t' (.inl ht)
      · exact hhold hs t' (.inr ht)
    · refine logOk_append h.log ?_
      exact hinv.log s.log (.started t) [] rfl
  | execSkip t st hs hlive => exact quiet _ _ hinv rfl rfl rfl (htop hs (by simp)) (hhold hs)
  | finOk t st hs ht =>
    have hu := holder_unique (h.inv.holdSum_le t) (w := tid) (by simp [Holds, hs])
    have hne : ∀ w t', Holds (Function.update s.stk tid st w) t' → t' ≠ t := by
      intro w t' hw e
      subst e
      by_cases ew : w = tid
      · subst ew
        rw [Function.update_self] at hw
        have h1 := hu.1
        rw [hs, holdS_cons] at h1
        rw [holds_iff] at hw
        simp [hold] at h1
        omega
      · rw [Function.update_of_ne ew] at hw
        exact ew (hu.2.1 w hw)
    refine ⟨hinv, ?_, ?_, ?_⟩
    · refine top_update (stk := s.stk) h.top ?_
      intro ts ht; exact absurd ht (htop hs (by simp) ts)
    · intro w t' hw
      have h1 := hne w t' hw
      have h2 : s.live t' = true := held_update (stk := s.stk) h.live (hhold hs) w t' hw
      simp [State.emit, State.setStack, h1, h2]
    · refine logOk_append h.log ?_
      exact hinv.log s.log (.finished t) [] rfl
  | finErr t st hs ht =>
    exact absurd ((h.inv.tasks t).2 (h.live tid t (by simp [Holds, hs]))) ht
  | doneErr k item st hs hu =>
    have := owed_pos h.inv.owed hs
    omega
  | done k item st st' hs hst =>
    refine quiet _ _ hinv rfl rfl rfl ?_ ?_
    · intro ts ht
      rcases hst with rfl | rfl | rfl <;> exact htop hs (by simp) ts (by simpa using ht)
    · intro t ht
      rcases hst with rfl | rfl | rfl <;> exact hhold hs t (by simpa [Holds] using ht)
  | cancelNil st hs =>
    have := hcan hs
    subst this
    exact quiet _ _ hinv rfl rfl rfl (by simp) (by simp [Holds])
  | cancelLive t ts st hs hl hlive ht =>
    have := hcan hs
    subst this
    have hlv := h.inv.live t hlive
    have hns : Ev.started t ∉ s.log := by
      intro hx
      rcases h.inv.holder t hx with h1 | ⟨w, hw⟩
      · exact hlv.2.2 h1
      · by_cases e : w = tid
        · subst e; rw [hs] at hw; simp [Holds] at hw
        · exact hl w e hw
    refine ⟨hinv, ?_, ?_, ?_⟩
    · refine top_update (stk := s.stk) h.top ?_
      intro ts' ht'; simp at ht' ⊢; exact ht'.symm
    · intro w t' hw
      have h2 : s.live t' = true ∧ t' ≠ t := by
        by_cases e : w = tid
        · subst e; simp [State.emit, State.setStack, Holds] at hw
        · have hw' : Holds (s.stk w) t' := by
            simpa [State.emit, State.setStack, Function.update_of_ne e] using hw
          refine ⟨h.live w t' hw', fun et => ?_⟩
          rw [et] at hw'
          exact hl w e hw'
      simp [State.emit, State.setStack, h2.1, h2.2]
    · refine logOk_append h.log ⟨?_, hns⟩
      exact hinv.log s.log (.cancelled t) [] rfl
  | cancelErr t ts st hs hlive ht => exact absurd ((h.inv.tasks t).2 hlive) ht
  | cancelDead t ts st hs hlive =>
    have := hcan hs
    subst this
    refine ⟨hinv, ?_, ?_, h.log⟩
    · refine top_update (stk := s.stk) h.top ?_
      intro ts' ht'; simp at ht' ⊢; exact ht'.symm
    · exact held_update (stk := s.stk) h.live (by simp [Holds])
  | put i st hs =>
    refine quiet _ _ hinv rfl rfl rfl ?_ ?_
    · intro ts ht; exact htop hs (by simp) ts (by simpa using ht)
    · intro t ht; exact hhold hs t (by simpa [Holds] using ht)
  | putEnd i st hs =>
    refine quiet _ _ hinv rfl rfl rfl ?_ ?_
    · intro ts ht; exact htop hs (by simp) ts (by simpa using ht)
    · intro t ht; exact hhold hs t (by simpa [Holds] using ht)
  | join st hs =>
    have hk : FrameOk s .join := h.inv.frames tid _ (by simp [hs])
    refine ⟨hinv, ?_, ?_, ?_⟩
    · refine top_update (stk := s.stk) h.top ?_
      intro ts ht; exact absurd ht (htop hs (by simp) ts)
    · exact held_update (stk := s.stk) h.live (hhold hs)
    · refine logOk_append h.log ⟨hk.1, fun t ht => ?_⟩
      rcases h.inv.dead t ((h.inv.queued t).1 ht) (hk.2 t) with h1 | h1
      · exact .inr ⟨outer_exclusive h.log h1, h1⟩
      · left
        obtain ⟨l1, l2, e⟩ := List.append_of_mem h1
        have h2 := (h.inv.log l1 _ l2 e).1
        refine ⟨?_, h1⟩
        change Ev.started t ∈ s.log
        rw [e]; simp [h2]
  | spawn w n st hs hw hw' =>
    refine ⟨hinv, ?_, ?_, h.log⟩
    · refine top_update (top_update (stk := s.stk) h.top ?_) ?_
      · intro ts ht; simp at ht
      · intro ts ht; exact absurd (by simpa using ht) (htop hs (by simp) ts)
    · refine held_update (held_update (stk := s.stk) h.live ?_) ?_
      · intro t ht; simp [Holds] at ht
      · intro t ht; exact hhold hs t (by simpa [Holds] using ht)
  | append n st hs =>
    refine quiet _ _ hinv rfl rfl rfl ?_ ?_
    · intro ts ht; exact htop hs (by simp) ts (by simpa using ht)
    · intro t ht; exact hhold hs t (by simpa [Holds] using ht)

theorem outer_run (sch : List (Tid × Call Tid)) {s : State Tid} (h : InvOuter s) (hno : NoInnerClose s sch) :
    InvOuter (run s sch) := by
  induction sch generalizing s with
  | nil => exact h
  | cons p sch ih =>
    obtain ⟨tid, c⟩ := p
    refine ih ?_ hno.2
    cases hs : step s tid c with
    | none => simpa [hs] using h
    | some s' => simpa [hs] using outer_step (step_step hs) h fun hc _ => hno.1 hc

theorem outer_init : InvOuter (State.init : State Tid) :=
  ⟨inv_init, by simp [State.init], by simp [State.init, Holds], by intro l₁ e l₂ h; simp [State.init] at h⟩

/-! ### An open pool loses nothing -/

theorem total_keep {s s' : State Tid} {tid : Tid} {c : Call Tid} (hstep : Step s tid c s') (h : Inv s)
    (hopen : s'.closed = false) (t : Nat) (ht : s.live t = true) : total s t ≤ total s' t := by
  have key := fun stk st => sum_update (tokS t) stk tid st
  have hnc : s.closed = false → Ev.closeCalled ∉ s.log := fun hc hx => by rw [h.closed.2 hx] at hc; cases hc
  cases hstep with
  | refused hc => simp [total, State.emit, List.count_append]
  | queued hc =>
    simp only [total, List.count_append, List.count_cons, List.count_nil]
    omega
  | close hclose hcall => simp [State.emit, State.setStack] at hopen
  | push hcall f hf =>
    have := key s.stk (f :: s.stk tid)
    rcases hf with ⟨k, rfl⟩ | ⟨n, rfl⟩ <;> simp [total, State.setStack, tok] at this ⊢ <;> omega
  | ret t' st h =>
    have := key s.stk (.fin t' :: st)
    rw [h] at this
    simp [total, State.setStack, tok] at this ⊢; omega
  | pop f st h hf =>
    have := key s.stk st
    rw [h] at this
    rcases hf with ⟨k, rfl⟩ | rfl <;> simp [total, State.setStack, tok] at this ⊢ <;> omega
  | repl f g st h hf =>
    have := key s.stk (g :: st)
    rw [h] at this
    rcases hf with ⟨k, rfl, rfl⟩ | ⟨k, i, rfl, rfl, rfl | hc⟩
    · simp [total, State.setStack, tok] at this ⊢; omega
    · simp only [total, State.setStack, tokS_cons, tok] at this ⊢; omega
    · simp only [State.setStack] at hopen; rw [hc] at hopen; cases hopen
  | get k st item q h hq =>
    have := key s.stk (.got k item :: st)
    rw [h] at this
    cases item with
    | none => simp [total, State.setStack, tok, hq] at this ⊢; omega
    | some t' =>
      simp only [total, State.setStack, tokS_cons, tok, hq, List.count_cons] at this ⊢
      by_cases e : t' = t
      · subst e; simp at this ⊢; omega
      · simp [e] at this ⊢; omega
  | gotExec k t' st h hc =>
    have := key s.stk (.exec t' :: .done k (some t') :: st)
    rw [h] at this
    simp [total, State.setStack, tok] at this ⊢; omega
  | execRun t' st h hl hlive =>
    have := key s.stk (.running t' :: st)
    rw [h] at this
    by_cases e : t' = t
    · subst e; simp [total, State.setStack, State.emit, tok] at this ⊢; omega
    · simp [total, State.setStack, State.emit, tok, e, List.count_append, List.count_cons] at this ⊢; omega
  | execSkip t' st h hlive =>
    have := key s.stk st
    rw [h] at this
    have e : ¬ t' = t := by rintro rfl; rw [ht] at hlive; cases hlive
    simp [total, State.setStack, tok, e] at this ⊢; omega
  | finOk t' st h ht =>
    have := key s.stk st
    rw [h] at this
    simp [total, State.setStack, State.emit, tok, List.count_append, List.count_cons] at this ⊢; omega
  | finErr t' st hs ht' =>
    have hst : Ev.started t' ∈ s.log := h.frames tid (.fin t') (by simp [hs])
    have hnf := (holder_unique (h.holdSum_le t') (w := tid) (by simp [Holds, hs])).2.2
    have hlt : t' < s.next := by
      by_contra hx
      have h1 := h.token t'
      rw [if_neg hx] at h1
      have := List.count_pos_iff.2 hst
      unfold total at h1; omega
    have hnl : s.live t' = false := by
      by_contra hx; exact ht' ((h.tasks t').2 (by simpa using hx))
    rcases h.dead t' hlt hnl with h1 | h1
    · obtain ⟨l1, l2, e⟩ := List.append_of_mem h1
      have := (h.log l1 _ l2 e).2.2.2
      exact absurd (by rw [e]; simp [this]) (hnc hopen)
    · exact absurd h1 (List.count_eq_zero.1 hnf)
  | doneErr k item st hs hz =>
    have := owed_pos h.owed hs
    omega
  | done k item st st' h hst =>
    have := key s.stk st'
    rw [h] at this
    rcases hst with rfl | rfl | rfl <;> simp [total, State.setStack, tok] at this ⊢ <;> omega
  | cancelNil st hs => exact absurd (h.frames tid (.cancel []) (by simp [hs])).1 (hnc hopen)
  | cancelLive t' ts st hs hl hlive ht => exact absurd (h.frames tid (.cancel (t' :: ts)) (by simp [hs])).1 (hnc hopen)
  | cancelErr t' ts st hs hlive ht => exact absurd (h.frames tid (.cancel (t' :: ts)) (by simp [hs])).1 (hnc hopen)
  | cancelDead t' ts st hs hlive => exact absurd (h.frames tid (.cancel (t' :: ts)) (by simp [hs])).1 (hnc hopen)
  | put i st hs => exact absurd (h.frames tid (.put i) (by simp [hs])).1 (hnc hopen)
  | putEnd i st hs => exact absurd (h.frames tid (.put i) (by simp [hs])).1 (hnc hopen)
  | join st hs => exact absurd (h.frames tid .join (by simp [hs])).1 (hnc hopen)
  | spawn w n st h hw hw' =>
    have h1 := sum_update (tokS t) s.stk w [.get .worker]
    have := key (Function.update s.stk w [.get .worker]) (.append n :: st)
    rw [Function.update_of_ne hw.symm, h] at this
    rw [hw'] at h1
    simp [total, State.setStack, tok] at this h1 ⊢; omega
  | append n st h =>
    have := key s.stk (.start n :: st)
    rw [h] at this
    simp [total, State.setStack, tok] at this ⊢; omega

theorem kept_step {s s' : State Tid} {tid : Tid} {c : Call Tid} (hstep : Step s tid c s') (h : Inv s)
    (hk : s.closed = false → ∀ t, s.live t = true → 1 ≤ total s t) :
    s'.closed = false → ∀ t, s'.live t = true → 1 ≤ total s' t := by
  intro hopen t ht
  have hc : s.closed = false := by
    cases hstep <;> first | exact hopen | (simp [State.emit, State.setStack] at hopen; try exact hopen)
  by_cases hl : s.live t = true
  · exact (hk hc t hl).trans (total_keep hstep h hopen t hl)
  · cases hstep with
    | queued hc =>
      by_cases e : t = s.next
      · subst e; simp [total]; omega
      · simp [e] at ht; exact absurd ht hl
    | finOk t' st hs ht' =>
      simp only [State.emit, State.setStack, Function.update_apply] at ht
      split at ht
      · cases ht
      · exact absurd ht hl
    | finErr t' st hs ht' =>
      simp only [State.emit, State.setStack, Function.update_apply] at ht
      split at ht
      · cases ht
      · exact absurd ht hl
    | cancelLive t' ts st hs hl' hlive ht' =>
      simp only [State.emit, State.setStack, Function.update_apply] at ht
      split at ht
      · cases ht
      · exact absurd ht hl
    | cancelErr t' ts st hs hlive ht' =>
      simp only [State.emit, State.setStack, Function.update_apply] at ht
      split at ht
      · cases ht
      · exact absurd ht hl
    | _ => exact absurd ht hl

theorem kept_run (sch : List (Tid × Call Tid)) {s : State Tid} (h : Inv s)
    (hk : s.closed = false → ∀ t, s.live t = true → 1 ≤ total s t) :
    (run s sch).closed = false → ∀ t, (run s sch).live t = true → 1 ≤ total (run s sch) t := by
  induction sch generalizing s with
  | nil => exact hk
  | cons p sch ih =>
    cases hs : step s p.1 p.2 with
    | none =>
      have : run s (p :: sch) = run s sch := by simp [run, hs]
      rw [this]; exact ih h hk
    | some s' =>
      have : run s (p :: sch) = run s' sch := by simp [run, hs]
      rw [this]; exact ih (inv_step (step_step hs) h) (kept_step (step_step hs) h hk)

theorem exists_tok {t : Nat} {st : List Frame} (h : 0 < tokS t st) : (∃ k, .got k (some t) ∈ st) ∨ .exec t ∈ st := by
  induction st with
  | nil => simp at h
  | cons f st ih =>
    rw [tokS_cons] at h
    by_cases h0 : tok t f = 0
    · rcases ih (by omega) with ⟨k, hk⟩ | hk
      · exact .inl ⟨k, by simp [hk]⟩
      · exact .inr (by simp [hk])
    · match f, h0 with
      | .got k (some t'), h0 =>
        by_cases e : t' = t
        · subst e; exact .inl ⟨k, by simp⟩
        · simp [tok, e] at h0
      | .exec t', h0 =>
        by_cases e : t' = t
        · subst e; exact .inr (by simp)
        · simp [tok, e] at h0

/-! ### The properties -/

/-- C35: in every schedule every queued function is started at most once, is started only if it was queued, is not started
after it was cancelled, and finishes at most once. -/
theorem C35_at_most_once (sch : List (Tid × Call Tid)) (t : Nat) :
    let log := (run (State.init : State Tid) sch).log
    log.count (.started t) ≤ 1 ∧
    (∀ l₁ l₂, log = l₁ ++ .started t :: l₂ → .queued t ∈ l₁ ∧ .cancelled t ∉ l₁) ∧
    (∀ l₁ l₂, log = l₁ ++ .finished t :: l₂ → .started t ∈ l₁ ∧ .finished t ∉ l₁) ∧
    (∀ l₁ l₂, log = l₁ ++ .cancelled t :: l₂ → .queued t ∈ l₁ ∧ .cancelled t ∉ l₁ ∧ .finished t ∉ l₁) := by
  have h := inv_run sch (inv_init (Tid := Tid))
  refine ⟨h.started_le t, fun l₁ l₂ e => ?_, fun l₁ l₂ e => ?_, fun l₁ l₂ e => ?_⟩
  · have := h.log _ _ _ e; exact ⟨this.1, this.2.2.1⟩
  · exact h.log _ _ _ e
  · have := h.log _ _ _ e; exact ⟨this.1, this.2.1, this.2.2.1⟩

/-- C35, for schedules in which no queued function closes the pool while it runs: no function is both executed and
cancelled, and no exception comes out of the pool. -/
theorem C35_exclusive_partial (sch : List (Tid × Call Tid)) (hno : NoInnerClose (State.init : State Tid) sch) (t : Nat) :
    let log := (run (State.init : State Tid) sch).log
    (.cancelled t ∈ log → .started t ∉ log) ∧ ∀ e, .raised e ∉ log := by
  have h := outer_run sch outer_init hno
  refine ⟨outer_exclusive h.log, fun e he => ?_⟩
  obtain ⟨l1, l2, e'⟩ := List.append_of_mem he
  exact h.log l1 _ l2 e'

/-- C36: in every schedule, once a `close` has returned nothing is queued or started any more, and the task list is empty;
whatever is queued after `close` was called is refused; when `close` returns every queued function was started or
cancelled. -/
theorem C36_closed (sch : List (Tid × Call Tid)) :
    let s := run (State.init : State Tid) sch
    (∀ l₁ l₂, s.log = l₁ ++ .closeReturned :: l₂ → (∀ t, .started t ∉ l₂ ∧ .queued t ∉ l₂) ∧
      (∀ t, .queued t ∈ l₁ → .started t ∈ l₁ ∨ .cancelled t ∈ l₁) ∧ s.tasks = []) ∧
    (∀ l₁ l₂, s.log = l₁ ++ .closeCalled :: l₂ → ∀ t, .queued t ∉ l₂) := by
  intro s
  have h : Inv s := inv_run sch inv_init
  have hq : ∀ l₁ l₂, s.log = l₁ ++ .closeCalled :: l₂ → ∀ t, .queued t ∉ l₂ := by
    intro l₁ l₂ e t ht
    obtain ⟨m1, m2, e'⟩ := List.append_of_mem ht
    exact (h.log (l₁ ++ .closeCalled :: m1) (.queued t) m2 (by rw [e, e']; simp)).2 (by simp)
  refine ⟨fun l₁ l₂ e => ⟨fun t => ⟨fun ht => ?_, fun ht => ?_⟩, ?_, ?_⟩, hq⟩
  · obtain ⟨m1, m2, e'⟩ := List.append_of_mem ht
    exact (h.log (l₁ ++ .closeReturned :: m1) (.started t) m2 (by rw [e, e']; simp)).2.2.2 (by simp)
  · have hc := (h.log l₁ _ l₂ e).1
    obtain ⟨n1, n2, e''⟩ := List.append_of_mem hc
    exact hq n1 (n2 ++ .closeReturned :: l₂) (by rw [e, e'']; simp) t (by simp [ht])
  · exact (h.log l₁ _ l₂ e).2
  · have hl := (h.returned (by rw [e]; simp)).2
    apply List.eq_nil_iff_forall_not_mem.2
    intro t ht
    rw [h.tasks t, hl t] at ht; cases ht

/-- C36: if no queued function closes the pool while it runs, then when `close` returns every queued function has finished
or was cancelled before it was started; none is running. -/
theorem C36_none_running (sch : List (Tid × Call Tid)) (hno : NoInnerClose (State.init : State Tid) sch) :
    let s := run (State.init : State Tid) sch
    (∀ l₁ l₂, s.log = l₁ ++ .closeReturned :: l₂ → ∀ t, .queued t ∈ l₁ →
      (.started t ∈ l₁ ∧ .finished t ∈ l₁) ∨ (.started t ∉ l₁ ∧ .cancelled t ∈ l₁)) ∧
    (.closeReturned ∈ s.log → ∀ w t, Frame.running t ∉ s.stk w) := by
  intro s
  have h : InvOuter s := outer_run sch outer_init hno
  refine ⟨fun l₁ l₂ e => (h.log l₁ _ l₂ e).2, fun hr w t ht => ?_⟩
  have h1 := h.live w t (.inl ht)
  rw [(h.inv.returned hr).2 t] at h1; cases h1

/-- C79: as long as `close` was not called, in every schedule, every queued function was started, or waits in the queue, or
was taken out of the queue by a thread that has it in hand and is about to execute it; and nothing was cancelled. -/
theorem C79_nothing_lost (sch : List (Tid × Call Tid)) :
    let s := run (State.init : State Tid) sch
    .closeCalled ∉ s.log → ∀ t, .queued t ∈ s.log →
      .cancelled t ∉ s.log ∧
      (.started t ∈ s.log ∨ some t ∈ s.queue ∨ ∃ w, (∃ k, Frame.got k (some t) ∈ s.stk w) ∨ Frame.exec t ∈ s.stk w) := by
  intro s hopen t ht
  have h : Inv s := inv_run sch inv_init
  have hc : s.closed = false := by
    by_contra hx; exact hopen (h.closed.1 (by simpa using hx))
  have hcan : Ev.cancelled t ∉ s.log := by
    intro hx
    obtain ⟨l1, l2, e⟩ := List.append_of_mem hx
    have := (h.log l1 _ l2 e).2.2.2
    exact hopen (by rw [e]; simp [this])
  refine ⟨hcan, ?_⟩
  by_cases hl : s.live t = true
  · have h1 : 1 ≤ total s t := kept_run sch inv_init (by simp [State.init]) hc t hl
    unfold total at h1
    by_cases h2 : s.log.count (.started t) = 0
    · by_cases h3 : s.queue.count (some t) = 0
      · right; right
        have h4 : 0 < ∑ w, tokS t (s.stk w) := by omega
        obtain ⟨w, _, hw⟩ := Finset.exists_ne_zero_of_sum_ne_zero (Nat.pos_iff_ne_zero.1 h4)
        exact ⟨w, exists_tok (Nat.pos_of_ne_zero hw)⟩
      · right; left
        exact List.count_pos_iff.1 (by omega)
    · left
      exact List.count_pos_iff.1 (by omega)
  · rcases h.dead t ((h.queued t).1 ht) (by simpa using hl) with h1 | h1
    · exact absurd h1 hcan
    · left
      obtain ⟨l1, l2, e⟩ := List.append_of_mem h1
      have := (h.log l1 _ l2 e).1
      rw [e]; simp [this]

end

/-- Client 0 queues two functions and starts worker 1, which runs the first one; client 0 closes meanwhile and waits for it
(the function queues another one, which is refused); then the second function is cancelled, the worker takes it, skips it,
and ends; `close` returns; a function queued later is refused. -/
example : (run (State.init : State (Fin 2)) [(0, .queueFn), (0, .queueFn), (0, .start 1), (0, .spawn 1), (0, .ret), (0, .ret),
      (1, .ret), (1, .ret), (1, .ret), (0, .close), (0, .ret), (1, .queueFn), (1, .ret), (0, .ret), (0, .ret), (1, .ret),
      (0, .ret), (0, .ret), (0, .ret), (0, .ret), (0, .ret), (1, .ret), (1, .ret), (1, .ret), (1, .ret), (1, .ret), (1, .ret),
      (1, .ret), (1, .ret), (0, .ret), (0, .queueFn), (1, .ret)]).log =
      [.queued 0, .queued 1, .started 0, .closeCalled, .refused, .finished 0, .cancelled 1, .closeReturned, .refused] := by
  decide

/-- C35 is false of the code for a function that closes the pool it runs in: it is executed and cancelled, and the pool
raises `ValueError` when it finishes. -/
theorem C35_counterexample :
    (run (State.init : State (Fin 1)) [(0, .queueFn), (0, .runOne), (0, .ret), (0, .ret), (0, .ret), (0, .ret), (0, .close),
      (0, .ret), (0, .ret), (0, .ret), (0, .ret), (0, .ret), (0, .ret)]).log =
      [.queued 0, .started 0, .closeCalled, .cancelled 0, .closeReturned, .finished 0, .raised .valueError] := by decide

end Verif.Pool
