import Verif.Registry.Props
import Mathlib.Data.List.Induction
import Mathlib.Data.Finset.Sort

/-!
# The registry with several threads (`nion/utils/Registry.py`, lines 50-98)

The registry has no lock. A thread executes calls one after the other; the atomic steps of a call are the bodies of its loops
for one component type and the other lines: the look-ups of the assertions (54-55, 64-65), adding to and removing from the set
of one type (57-58, 67), updating the types of the component (59, 68), removing its entry (69-70), firing (60, 71). A failed
assertion or look-up ends the call. The types of a call are a list in the order in which Python iterates over the set. In
`unregister(c)` without types (63) the loops run over the set stored for the component; the model takes it at the look-up
(another thread that changes the set of the same component meanwhile would make the loops fail, which is not modelled; threads
that use other components do not change it).

Listeners are quick: firing is one step.
-/

namespace Verif.Registry.Threads

open Verif.Py Verif.Registry

variable {C T : Type} [DecidableEq C] [DecidableEq T]

/-- A call with its types in order. -/
inductive Call (C T : Type) where
  | register (c : C) (ts : List T)
  | unregister (c : C) (ts : Option (List T))

def Call.comp : Call C T → C
  | .register c _ => c
  | .unregister c _ => c

/-- A set has no element twice. -/
def Call.Set : Call C T → Prop
  | .register _ ts => ts.Nodup
  | .unregister _ ts => ∀ l ∈ ts, l.Nodup

/-- The call of the sequential model. -/
def Call.op : Call C T → Op C T
  | .register c ts => .register c ts.toFinset
  | .unregister c ts => .unregister c (ts.map List.toFinset)

/-- Atomic steps. -/
inductive Micro (C T : Type) where
  | absent (c : C) (t : T)
  | add (c : C) (t : T)
  | update (c : C) (ts : List T)
  | registered (c : C) (ts : List T)
  | look (c : C)
  | present (c : C) (t : T)
  | remove (c : C) (t : T)
  | diff (c : C) (ts : List T)
  | pop (c : C)
  | unregistered (c : C) (ts : List T)

def Micro.comp : Micro C T → C
  | .absent c _ | .add c _ | .update c _ | .registered c _ | .look c | .present c _ | .remove c _ | .diff c _ | .pop c
  | .unregistered c _ => c

/-- Registry.py:64-71; `told` is what the event reports. -/
def takeOut (c : C) (ts told : List T) : List (Micro C T) :=
  ts.map (.present c) ++ ts.map (.remove c) ++ [.diff c ts, .pop c, .unregistered c told]

/-- Registry.py:53-71. -/
def Call.micros : Call C T → List (Micro C T)
  | .register c ts => ts.map (.absent c) ++ ts.map (.add c) ++ [.update c ts, .registered c ts]
  | .unregister c (some ts) => takeOut c ts ts
  | .unregister c none => [.look c]

/-- One atomic step: the new state and steps to execute next, or an exception. `ord` is the order of iteration. -/
def exec (ord : Finset T → List T) (s : Reg C T) : Micro C T → Except Exc (Reg C T × List (Micro C T))
  | .absent c t => if c ∈ s.byType t then .error .assertionError else .ok (s, [])
  | .add c t => .ok ({ s with byType := Function.update s.byType t (insert c (s.byType t)) }, [])
  | .update c ts => .ok ({ s with types := Function.update s.types c (some ((s.types c).getD ∅ ∪ ts.toFinset)) }, [])
  | .registered c ts => .ok ({ s with log := s.log ++ [.registered c ts.toFinset] }, [])
  | .look c =>
    match s.types c with
    | none => .error .keyError
    | some own => .ok (s, takeOut c (ord own) [])
  | .present c t => if c ∈ s.byType t then .ok (s, []) else .error .assertionError
  | .remove c t =>
    if c ∈ s.byType t then .ok ({ s with byType := Function.update s.byType t ((s.byType t).erase c) }, [])
    else .error .keyError
  | .diff c ts =>
    match s.types c with
    | none => .error .keyError
    | some own => .ok ({ s with types := Function.update s.types c (some (own \ ts.toFinset)) }, [])
  | .pop c =>
    match s.types c with
    | none => .error .keyError
    | some own => .ok ({ s with types := Function.update s.types c (if own.card = 0 then none else some own) }, [])
  | .unregistered c ts => .ok ({ s with log := s.log ++ [.unregistered c ts.toFinset] }, [])

structure Thread (C T : Type) where
  todo : List (Call C T)
  /-- the rest of the call in progress -/
  now : List (Micro C T)
  results : List (Except Exc Unit)

structure Sys (C T : Type) where
  reg : Reg C T
  threads : Nat → Thread C T

/-- A thread executes one step. -/
def stepTh (ord : Finset T → List T) (reg : Reg C T) (th : Thread C T) : Reg C T × Thread C T :=
  match th.now with
  | [] =>
    match th.todo with
    | [] => (reg, th)
    | call :: todo => (reg, { th with todo := todo, now := call.micros })
  | m :: ms =>
    match exec ord reg m with
    | .error e => (reg, { th with now := [], results := th.results ++ [.error e] })
    | .ok (reg, ms') =>
      (reg, { th with now := ms' ++ ms, results := if ms' ++ ms = [] then th.results ++ [.ok ()] else th.results })

/-- Thread `i` is the next one. -/
def Sys.step (ord : Finset T → List T) (s : Sys C T) (i : Nat) : Sys C T :=
  let r := stepTh ord s.reg (s.threads i)
  ⟨r.1, Function.update s.threads i r.2⟩

def Sys.run (ord : Finset T → List T) (s : Sys C T) (sched : List Nat) : Sys C T := sched.foldl (Sys.step ord) s

/-- Every thread has a list of calls. -/
def start (calls : Nat → List (Call C T)) : Sys C T := ⟨Reg.init, fun i => ⟨calls i, [], []⟩⟩

/-! ### A call alone -/

/-- The steps, executed without interruption, lead to a state and a result. -/
inductive Fin (ord : Finset T → List T) : Reg C T → List (Micro C T) → Reg C T → Except Exc Unit → Prop
  | nil (s : Reg C T) : Fin ord s [] s (.ok ())
  | err {s : Reg C T} {m : Micro C T} {ms : List (Micro C T)} {e : Exc} (h : exec ord s m = .error e) :
      Fin ord s (m :: ms) s (.error e)
  | ok {s s1 s' : Reg C T} {m : Micro C T} {ms ms' : List (Micro C T)} {r : Except Exc Unit}
      (h : exec ord s m = .ok (s1, ms')) (hf : Fin ord s1 (ms' ++ ms) s' r) : Fin ord s (m :: ms) s' r

theorem fin_absent (ord : Finset T → List T) (c : C) (ts : List T) (s s' : Reg C T) (rest : List (Micro C T))
    (r : Except Exc Unit) :
    ((∀ t ∈ ts, c ∉ s.byType t) → Fin ord s rest s' r → Fin ord s (ts.map (.absent c) ++ rest) s' r) ∧
    (¬ (∀ t ∈ ts, c ∉ s.byType t) → Fin ord s (ts.map (.absent c) ++ rest) s (.error .assertionError)) := by
  induction ts with
  | nil => exact ⟨fun _ h => h, fun h => absurd (by simp) h⟩
  | cons t ts ih =>
    by_cases ht : c ∈ s.byType t
    · refine ⟨fun h => absurd ht (h t (by simp)), fun _ => Fin.err (by simp [exec, ht])⟩
    · refine ⟨fun h hf => Fin.ok (s1 := s) (ms' := []) (by simp [exec, ht]) (ih.1 (fun t' h' => h t' (by simp [h'])) hf),
        fun h => Fin.ok (s1 := s) (ms' := []) (by simp [exec, ht]) (ih.2 fun h' => h ?_)⟩
      rintro t' ht'
      rcases List.mem_cons.1 ht' with rfl | e
      exacts [ht, h' _ e]

theorem fin_present (ord : Finset T → List T) (c : C) (ts : List T) (s s' : Reg C T) (rest : List (Micro C T))
    (r : Except Exc Unit) :
    ((∀ t ∈ ts, c ∈ s.byType t) → Fin ord s rest s' r → Fin ord s (ts.map (.present c) ++ rest) s' r) ∧
    (¬ (∀ t ∈ ts, c ∈ s.byType t) → Fin ord s (ts.map (.present c) ++ rest) s (.error .assertionError)) := by
  induction ts with
  | nil => exact ⟨fun _ h => h, fun h => absurd (by simp) h⟩
  | cons t ts ih =>
    by_cases ht : c ∈ s.byType t
    · refine ⟨fun h hf => Fin.ok (s1 := s) (ms' := []) (by simp [exec, ht]) (ih.1 (fun t' h' => h t' (by simp [h'])) hf),
        fun h => Fin.ok (s1 := s) (ms' := []) (by simp [exec, ht]) (ih.2 fun h' => h ?_)⟩
      rintro t' ht'
      rcases List.mem_cons.1 ht' with rfl | e
      exacts [ht, h' _ e]
    · refine ⟨fun h => absurd (h t (by simp)) ht, fun _ => Fin.err (by simp [exec, ht])⟩

theorem fin_add (ord : Finset T → List T) (c : C) (ts : List T) (s s' : Reg C T) (rest : List (Micro C T))
    (r : Except Exc Unit)
    (h : Fin ord { s with byType := fun t => if t ∈ ts then insert c (s.byType t) else s.byType t } rest s' r) :
    Fin ord s (ts.map (.add c) ++ rest) s' r := by
  induction ts generalizing s with
  | nil => simpa using h
  | cons t ts ih =>
    refine Fin.ok rfl (ih _ ?_)
    convert h using 2
    funext t'
    by_cases e : t' = t
    · subst e; by_cases h' : t' ∈ ts <;> simp [h']
    · simp [e]

theorem fin_remove (ord : Finset T → List T) (c : C) (ts : List T) (hn : ts.Nodup) (s s' : Reg C T) (rest : List (Micro C T))
    (r : Except Exc Unit) (hp : ∀ t ∈ ts, c ∈ s.byType t)
    (h : Fin ord { s with byType := fun t => if t ∈ ts then (s.byType t).erase c else s.byType t } rest s' r) :
    Fin ord s (ts.map (.remove c) ++ rest) s' r := by
  induction ts generalizing s with
  | nil => simpa using h
  | cons t ts ih =>
    rw [List.nodup_cons] at hn
    refine Fin.ok (by simp only [exec, hp t (by simp), if_true]; rfl) (ih hn.2 _ ?_ ?_)
    · intro t' ht'
      have : t' ≠ t := by rintro rfl; exact hn.1 ht'
      simpa [Function.update_of_ne this] using hp t' (by simp [ht'])
    · convert h using 2
      funext t'
      by_cases e : t' = t
      · subst e; simp [hn.1]
      · simp [e]

theorem fin_takeOut (ord : Finset T → List T) (c : C) (ts told : List T) (hn : ts.Nodup) (stored : Bool) (s : Reg C T)
    (ht : told.toFinset = if stored then ((s.types c).getD ∅) \ ts.toFinset else ts.toFinset) :
    Fin ord s (takeOut c ts told) (s.unregisterTypes c ts.toFinset stored).1 (s.unregisterTypes c ts.toFinset stored).2 := by
  have hd : ∀ (s : Reg C T) (own : Finset T), s.types c = some own → exec ord s (.diff c ts) =
      .ok ({ s with types := Function.update s.types c (some (own \ ts.toFinset)) }, []) := by
    intro s own h; simp only [exec, h]
  have hq : ∀ (s : Reg C T) (own : Finset T), s.types c = some own → exec ord s (.pop c) =
      .ok ({ s with types := Function.update s.types c (if own.card = 0 then none else some own) }, []) := by
    intro s own h; simp only [exec, h]
  unfold takeOut Reg.unregisterTypes
  rw [List.append_assoc]
  simp only [List.mem_toFinset]
  by_cases hp : ∀ t ∈ ts, c ∈ s.byType t
  · rw [if_pos hp]
    refine (fin_present ord c ts s _ _ _).1 hp (fin_remove ord c ts hn s _ _ _ hp ?_)
    cases hc : s.types c with
    | none =>
      simp only
      exact Fin.err (by simp [exec, hc])
    | some own =>
      simp only
      rw [hc] at ht
      refine Fin.ok (hd _ own hc) (Fin.ok (hq _ (own \ ts.toFinset) (Function.update_self ..)) (Fin.ok rfl ?_))
      rw [ht]
      simp only [Function.update_idem]
      exact Fin.nil _
  · rw [if_neg hp]
    exact (fin_present ord c ts s s _ (.ok ())).2 hp

/-- A call that is not interrupted does what the sequential model says. -/
theorem fin_call (ord : Finset T → List T) (ho : ∀ l, (ord l).Nodup ∧ ∀ x, x ∈ ord l ↔ x ∈ l) (s : Reg C T) (call : Call C T)
    (hs : call.Set) : Fin ord s call.micros (s.step call.op).1 (s.step call.op).2 := by
  cases call with
  | register c ts =>
    simp only [Call.micros, Call.op, Reg.step, Reg.register, List.append_assoc, List.mem_toFinset]
    split_ifs with h
    · refine (fin_absent ord c ts s _ _ _).1 h (fin_add ord c ts s _ _ _ (Fin.ok rfl (Fin.ok rfl (Fin.nil _))))
    · exact (fin_absent ord c ts s s _ (.ok ())).2 h
  | unregister c ts =>
    cases ts with
    | some ts =>
      exact fin_takeOut ord c ts ts (hs ts rfl) false s rfl
    | none =>
      simp only [Call.micros, Call.op, Reg.step, Reg.unregister, Option.map_none]
      cases hc : s.types c with
      | none => exact Fin.err (by simp [exec, hc])
      | some own =>
        have e : (ord own).toFinset = own := by ext x; simp [(ho own).2]
        refine Fin.ok (by simp only [exec, hc]; rfl) ?_
        have := fin_takeOut ord c (ord own) [] (ho own).1 true s (by simp [hc, e])
        rw [e] at this
        simpa using this

/-! ### A thread alone -/

/-- Results of calls one after the other. -/
def seqResults (s : Reg C T) : List (Op C T) → List (Except Exc Unit)
  | [] => []
  | o :: ops => (s.step o).2 :: seqResults (s.step o).1 ops

theorem seqResults_snoc (s : Reg C T) (ops : List (Op C T)) (o : Op C T) :
    seqResults s (ops ++ [o]) = seqResults s ops ++ [((s.run ops).step o).2] := by
  induction ops generalizing s with
  | nil => rfl
  | cons a ops ih => simp only [List.cons_append, seqResults, ih]; rfl

theorem run_snoc (s : Reg C T) (ops : List (Op C T)) (o : Op C T) : s.run (ops ++ [o]) = ((s.run ops).step o).1 := by
  unfold Reg.run; rw [List.foldl_append]; rfl

/-- Where thread `i` is, if no other thread has done anything. -/
def Alone (ord : Finset T → List T) (calls : List (Call C T)) (reg : Reg C T) (th : Thread C T) : Prop :=
  ∃ done, th.results = seqResults Reg.init (done.map Call.op) ∧
    ((th.now = [] ∧ calls = done ++ th.todo ∧ reg = Reg.init.run (done.map Call.op)) ∨
     (th.now ≠ [] ∧ ∃ call, calls = done ++ call :: th.todo ∧
        Fin ord reg th.now ((Reg.init.run (done.map Call.op)).step call.op).1 ((Reg.init.run (done.map Call.op)).step call.op).2))

omit [DecidableEq C] [DecidableEq T] in
theorem micros_ne (call : Call C T) : call.micros ≠ [] := by
  cases call with
  | register c ts => simp [Call.micros]
  | unregister c ts => cases ts <;> simp [Call.micros, takeOut]

theorem alone_step (ord : Finset T → List T) (ho : ∀ l, (ord l).Nodup ∧ ∀ x, x ∈ ord l ↔ x ∈ l) (calls : List (Call C T))
    (hs : ∀ call ∈ calls, call.Set) (reg : Reg C T) (th : Thread C T) (h : Alone ord calls reg th) :
    Alone ord calls (stepTh ord reg th).1 (stepTh ord reg th).2 := by
  obtain ⟨done, h1, h2⟩ := h
  obtain ⟨todo, now, results⟩ := th
  simp only at h1 h2
  rcases h2 with ⟨rfl, hc, hr⟩ | ⟨hn, call, hc, hf⟩
  · cases todo with
    | nil => exact ⟨done, h1, Or.inl ⟨rfl, hc, hr⟩⟩
    | cons call todo =>
      refine ⟨done, h1, Or.inr ⟨micros_ne call, call, hc, ?_⟩⟩
      rw [← hr]
      exact fin_call ord ho _ call (hs call (by rw [hc]; simp))
  · have hdone : results ++ [((Reg.init.run (done.map Call.op)).step call.op).2] =
        seqResults Reg.init ((done ++ [call]).map Call.op) := by
      rw [List.map_append, List.map_singleton, seqResults_snoc, h1]
    have hreg := run_snoc (Reg.init : Reg C T) (done.map Call.op) call.op
    rw [show done.map Call.op ++ [call.op] = (done ++ [call]).map Call.op by simp] at hreg
    cases now with
    | nil => exact absurd rfl hn
    | cons m ms =>
      generalize hs' : ((Reg.init.run (done.map Call.op)).step call.op).1 = s' at hf hreg
      generalize hr' : ((Reg.init.run (done.map Call.op)).step call.op).2 = r at hf hdone
      cases hf with
      | err he =>
        simp only [stepTh, he]
        exact ⟨done ++ [call], hdone, Or.inl ⟨rfl, by rw [hc]; simp, hreg.symm⟩⟩
      | ok he hf' =>
        rename_i s1 ms'
        simp only [stepTh, he]
        by_cases hz : ms' ++ ms = []
        · rw [hz] at hf'
          cases hf'
          simp only [hz, if_true]
          exact ⟨done ++ [call], hdone, Or.inl ⟨rfl, by rw [hc]; simp, hreg.symm⟩⟩
        · simp only [hz, if_false]
          exact ⟨done, h1, Or.inr ⟨hz, call, hc, by rw [hs', hr']; exact hf'⟩⟩

/-! ### Threads that use different components -/

/-- The component of an event. -/
def evComp : Ev C T → C
  | .registered c _ => c
  | .unregistered c _ => c

/-- Two registries look the same to somebody who uses only the components of `i`. -/
structure Same (owner : C → Nat) (i : Nat) (r r' : Reg C T) : Prop where
  types : ∀ c, owner c = i → r.types c = r'.types c
  byType : ∀ c, owner c = i → ∀ t, c ∈ r.byType t ↔ c ∈ r'.byType t
  log : r.log.filter (fun e => decide (owner (evComp e) = i)) = r'.log.filter (fun e => decide (owner (evComp e) = i))

omit [DecidableEq C] [DecidableEq T] in
theorem Same.rfl' (owner : C → Nat) (i : Nat) (r : Reg C T) : Same owner i r r := ⟨fun _ _ => rfl, fun _ _ _ => Iff.rfl, rfl⟩

omit [DecidableEq C] [DecidableEq T] in
theorem Same.trans {owner : C → Nat} {i : Nat} {r r' r'' : Reg C T} (h : Same owner i r r') (h' : Same owner i r' r'') :
    Same owner i r r'' :=
  ⟨fun c hc => (h.types c hc).trans (h'.types c hc), fun c hc t => (h.byType c hc t).trans (h'.byType c hc t),
    h.log.trans h'.log⟩

/-- A step of another thread. -/
theorem exec_frame (ord : Finset T → List T) (owner : C → Nat) (i : Nat) (r r1 : Reg C T) (m : Micro C T)
    (ms : List (Micro C T)) (hm : owner m.comp ≠ i) (h : exec ord r m = .ok (r1, ms)) : Same owner i r1 r := by
  have hT : ∀ (c : C) (x : Option (Finset T)), owner c ≠ i →
      Same owner i { r with types := Function.update r.types c x } r := by
    intro c x hc
    refine ⟨fun c' hc' => ?_, fun _ _ _ => Iff.rfl, rfl⟩
    have : c' ≠ c := by rintro rfl; exact hc hc'
    simp only [Function.update_of_ne this]
  have hB : ∀ (c : C) (t : T) (x : Finset C), owner c ≠ i → (∀ c', c' ≠ c → (c' ∈ x ↔ c' ∈ r.byType t)) →
      Same owner i { r with byType := Function.update r.byType t x } r := by
    intro c t x hc hx
    refine ⟨fun _ _ => rfl, fun c' hc' t' => ?_, rfl⟩
    have hne : c' ≠ c := by rintro rfl; exact hc hc'
    by_cases e : t' = t
    · subst e; simpa using hx c' hne
    · simp only [Function.update_of_ne e]
  have hL : ∀ (e : Ev C T), owner (evComp e) ≠ i → Same owner i { r with log := r.log ++ [e] } r := by
    intro e he
    refine ⟨fun _ _ => rfl, fun _ _ _ => Iff.rfl, ?_⟩
    simp [List.filter_append, he]
  cases m with
  | absent c t => simp only [exec] at h; split at h <;> cases h; exact Same.rfl' ..
  | add c t => simp only [exec] at h; cases h; exact hB c t _ hm fun c' hc' => by simp [hc']
  | update c ts => simp only [exec] at h; cases h; exact hT c _ hm
  | registered c ts => simp only [exec] at h; cases h; exact hL _ hm
  | look c => simp only [exec] at h; split at h <;> cases h; exact Same.rfl' ..
  | present c t => simp only [exec] at h; split at h <;> cases h; exact Same.rfl' ..
  | remove c t => simp only [exec] at h; split at h <;> cases h; exact hB c t _ hm fun c' hc' => by simp [hc']
  | diff c ts => simp only [exec] at h; split at h <;> cases h; exact hT c _ hm
  | pop c => simp only [exec] at h; split at h <;> cases h; exact hT c _ hm
  | unregistered c ts => simp only [exec] at h; cases h; exact hL _ hm

/-- The same step in registries that look the same. -/
theorem exec_same (ord : Finset T → List T) (owner : C → Nat) (i : Nat) (r r' : Reg C T) (m : Micro C T)
    (hm : owner m.comp = i) (h : Same owner i r r') :
    (∃ e, exec ord r m = .error e ∧ exec ord r' m = .error e) ∨
    ∃ r1 r1' ms, exec ord r m = .ok (r1, ms) ∧ exec ord r' m = .ok (r1', ms) ∧ Same owner i r1 r1' := by
  have hT : ∀ (c : C) (x : Option (Finset T)),
      Same owner i { r with types := Function.update r.types c x } { r' with types := Function.update r'.types c x } := by
    intro c x
    refine ⟨fun c' hc' => ?_, h.byType, h.log⟩
    by_cases e : c' = c
    · subst e; simp
    · simp only [Function.update_of_ne e]; exact h.types c' hc'
  have hB : ∀ (t : T) (x x' : Finset C), (∀ c', owner c' = i → (c' ∈ x ↔ c' ∈ x')) →
      Same owner i { r with byType := Function.update r.byType t x } { r' with byType := Function.update r'.byType t x' } := by
    intro t x x' hx
    refine ⟨h.types, fun c' hc' t' => ?_, h.log⟩
    by_cases e : t' = t
    · subst e; simpa using hx c' hc'
    · simp only [Function.update_of_ne e]; exact h.byType c' hc' t'
  have hL : ∀ (e : Ev C T), Same owner i { r with log := r.log ++ [e] } { r' with log := r'.log ++ [e] } := by
    intro e
    refine ⟨h.types, h.byType, ?_⟩
    simp only [List.filter_append, h.log]
  cases m with
  | absent c t =>
    simp only [exec, h.byType c hm t]
    by_cases hc : c ∈ r'.byType t
    · exact Or.inl ⟨_, by rw [if_pos hc], by rw [if_pos hc]⟩
    · exact Or.inr ⟨_, _, _, by rw [if_neg hc], by rw [if_neg hc], h⟩
  | add c t => exact Or.inr ⟨_, _, _, rfl, rfl, hB t _ _ fun c' hc' => by simp [h.byType c' hc' t]⟩
  | update c ts =>
    refine Or.inr ⟨_, _, _, rfl, rfl, ?_⟩
    rw [h.types c hm]; exact hT c _
  | registered c ts => exact Or.inr ⟨_, _, _, rfl, rfl, hL _⟩
  | look c =>
    simp only [exec, h.types c hm]
    cases r'.types c with
    | none => exact Or.inl ⟨_, rfl, rfl⟩
    | some own => exact Or.inr ⟨_, _, _, rfl, rfl, h⟩
  | present c t =>
    simp only [exec, h.byType c hm t]
    by_cases hc : c ∈ r'.byType t
    · exact Or.inr ⟨_, _, _, by rw [if_pos hc], by rw [if_pos hc], h⟩
    · exact Or.inl ⟨_, by rw [if_neg hc], by rw [if_neg hc]⟩
  | remove c t =>
    simp only [exec, h.byType c hm t]
    by_cases hc : c ∈ r'.byType t
    · exact Or.inr ⟨_, _, _, by rw [if_pos hc], by rw [if_pos hc], hB t _ _ fun c' hc' => by simp [h.byType c' hc' t]⟩
    · exact Or.inl ⟨_, by rw [if_neg hc], by rw [if_neg hc]⟩
  | diff c ts =>
    simp only [exec, h.types c hm]
    cases r'.types c with
    | none => exact Or.inl ⟨_, rfl, rfl⟩
    | some own => exact Or.inr ⟨_, _, _, rfl, rfl, hT c _⟩
  | pop c =>
    simp only [exec, h.types c hm]
    cases r'.types c with
    | none => exact Or.inl ⟨_, rfl, rfl⟩
    | some own => exact Or.inr ⟨_, _, _, rfl, rfl, hT c _⟩
  | unregistered c ts => exact Or.inr ⟨_, _, _, rfl, rfl, hL _⟩

/-- A thread uses only the components of `i`. -/
def Uses (owner : C → Nat) (i : Nat) (th : Thread C T) : Prop :=
  (∀ call ∈ th.todo, owner call.comp = i) ∧ ∀ m ∈ th.now, owner m.comp = i

omit [DecidableEq C] [DecidableEq T] in
theorem takeOut_comp (c : C) (ts told : List T) : ∀ m ∈ takeOut c ts told, m.comp = c := by
  intro m hm
  simp only [takeOut, List.mem_append, List.mem_map, List.mem_cons, List.not_mem_nil, or_false] at hm
  rcases hm with (⟨t, -, rfl⟩ | ⟨t, -, rfl⟩) | rfl | rfl | rfl <;> rfl

omit [DecidableEq C] [DecidableEq T] in
theorem micros_comp (call : Call C T) : ∀ m ∈ call.micros, m.comp = call.comp := by
  cases call with
  | register c ts =>
    intro m hm
    simp only [Call.micros, List.mem_append, List.mem_map, List.mem_cons, List.not_mem_nil, or_false] at hm
    rcases hm with (⟨t, -, rfl⟩ | ⟨t, -, rfl⟩) | rfl | rfl <;> rfl
  | unregister c ts =>
    cases ts with
    | some ts => exact takeOut_comp c ts ts
    | none => intro m hm; simp only [Call.micros, List.mem_singleton] at hm; subst hm; rfl

theorem exec_comp (ord : Finset T → List T) (r r1 : Reg C T) (m : Micro C T) (ms : List (Micro C T))
    (h : exec ord r m = .ok (r1, ms)) : ∀ m' ∈ ms, m'.comp = m.comp := by
  cases m with
  | look c =>
    simp only [exec] at h
    split at h <;> cases h
    exact takeOut_comp c _ _
  | add | update | registered | unregistered => simp only [exec] at h; cases h; simp
  | absent | present | remove | diff | pop => simp only [exec] at h; split at h <;> cases h; simp

theorem uses_step (ord : Finset T → List T) (owner : C → Nat) (i : Nat) (r : Reg C T) (th : Thread C T)
    (h : Uses owner i th) : Uses owner i (stepTh ord r th).2 := by
  obtain ⟨todo, now, results⟩ := th
  obtain ⟨h1, h2⟩ := h
  simp only at h1 h2
  cases now with
  | nil =>
    cases todo with
    | nil => exact ⟨h1, h2⟩
    | cons call todo =>
      refine ⟨fun c hc => h1 c (List.mem_cons_of_mem _ hc), fun m hm => ?_⟩
      rw [micros_comp call m hm]; exact h1 call (by simp)
  | cons m ms =>
    simp only [stepTh]
    cases he : exec ord r m with
    | error e => exact ⟨h1, by simp⟩
    | ok p =>
      refine ⟨h1, fun m' hm' => ?_⟩
      rcases List.mem_append.1 hm' with h' | h'
      · rw [exec_comp ord r p.1 m p.2 he m' h']; exact h2 m (by simp)
      · exact h2 m' (by simp [h'])

theorem frame_step (ord : Finset T → List T) (owner : C → Nat) (i j : Nat) (hij : j ≠ i) (r : Reg C T) (th : Thread C T)
    (h : Uses owner j th) : Same owner i (stepTh ord r th).1 r := by
  obtain ⟨todo, now, results⟩ := th
  cases now with
  | nil => cases todo <;> exact Same.rfl' ..
  | cons m ms =>
    simp only [stepTh]
    cases he : exec ord r m with
    | error e => exact Same.rfl' ..
    | ok p => exact exec_frame ord owner i r p.1 m p.2 (by rw [h.2 m (by simp)]; exact hij) he

theorem same_step (ord : Finset T → List T) (owner : C → Nat) (i : Nat) (r r' : Reg C T) (th : Thread C T)
    (h : Uses owner i th) (hs : Same owner i r r') :
    (stepTh ord r th).2 = (stepTh ord r' th).2 ∧ Same owner i (stepTh ord r th).1 (stepTh ord r' th).1 := by
  obtain ⟨todo, now, results⟩ := th
  cases now with
  | nil => cases todo <;> exact ⟨rfl, hs⟩
  | cons m ms =>
    simp only [stepTh]
    rcases exec_same ord owner i r r' m (h.2 m (by simp)) hs with ⟨e, h1, h2⟩ | ⟨r1, r1', ms', h1, h2, h3⟩
    · rw [h1, h2]; exact ⟨rfl, hs⟩
    · rw [h1, h2]; exact ⟨rfl, h3⟩

/-- Whatever the other threads do, thread `i` and its components are as if it were alone. -/
theorem alone_run (ord : Finset T → List T) (ho : ∀ l, (ord l).Nodup ∧ ∀ x, x ∈ ord l ↔ x ∈ l) (owner : C → Nat)
    (calls : Nat → List (Call C T)) (hs : ∀ i, ∀ call ∈ calls i, call.Set ∧ owner call.comp = i) (sched : List Nat) :
    (∀ i, Uses owner i (((start calls).run ord sched).threads i)) ∧
    ∀ i, ∃ r, Same owner i ((start calls).run ord sched).reg r ∧
      Alone ord (calls i) r (((start calls).run ord sched).threads i) := by
  induction sched using List.reverseRecOn with
  | nil =>
    refine ⟨fun i => ⟨fun call hc => (hs i call hc).2, by simp [start, Sys.run]⟩, fun i => ⟨Reg.init, Same.rfl' .., [], rfl, ?_⟩⟩
    exact Or.inl ⟨rfl, rfl, rfl⟩
  | append_singleton sched j ih =>
    obtain ⟨hu, ha⟩ := ih
    have hrun : (start calls).run ord (sched ++ [j]) = ((start calls).run ord sched).step ord j := by
      unfold Sys.run; rw [List.foldl_append]; rfl
    rw [hrun]
    generalize (start calls).run ord sched = s at hu ha
    refine ⟨fun i => ?_, fun i => ?_⟩
    · simp only [Sys.step]
      by_cases e : i = j
      · subst e; rw [Function.update_self]; exact uses_step ord owner i _ _ (hu i)
      · rw [Function.update_of_ne e]; exact hu i
    · obtain ⟨r, h1, h2⟩ := ha i
      simp only [Sys.step]
      by_cases e : i = j
      · subst e
        rw [Function.update_self]
        obtain ⟨e1, e2⟩ := same_step ord owner i s.reg r (s.threads i) (hu i) h1
        refine ⟨_, e2, ?_⟩
        rw [e1]
        exact alone_step ord ho (calls i) (fun c hc => (hs i c hc).1) r _ h2
      · rw [Function.update_of_ne e]
        exact ⟨r, (frame_step ord owner i j (Ne.symm e) s.reg (s.threads j) (hu j)).trans h1, h2⟩

/-- C162, the part that holds: when every component is used by one thread only, then after every schedule, whenever a thread is
not inside a call, the registry knows about its components exactly what its calls so far, one after the other and alone, have
told it: the same types, the same look-ups by type, the same events; and every call had the same result. -/
theorem C162_own_partial (ord : Finset T → List T) (ho : ∀ l, (ord l).Nodup ∧ ∀ x, x ∈ ord l ↔ x ∈ l) (owner : C → Nat)
    (calls : Nat → List (Call C T)) (hs : ∀ i, ∀ call ∈ calls i, call.Set ∧ owner call.comp = i) (sched : List Nat) (i : Nat)
    (hn : (((start calls).run ord sched).threads i).now = []) :
    ∃ s, s = (start calls).run ord sched ∧ ∃ done, calls i = done ++ (s.threads i).todo ∧
      ∃ r, r = (Reg.init : Reg C T).run (done.map Call.op) ∧
        (s.threads i).results = seqResults Reg.init (done.map Call.op) ∧
        (∀ c, owner c = i → s.reg.types c = r.types c ∧ ∀ t, c ∈ s.reg.components t ↔ c ∈ r.components t) ∧
        s.reg.log.filter (fun e => decide (owner (evComp e) = i)) = r.log.filter (fun e => decide (owner (evComp e) = i)) := by
  obtain ⟨r, h1, done, h2, h3⟩ := (alone_run ord ho owner calls hs sched).2 i
  rcases h3 with ⟨-, h4, rfl⟩ | ⟨h4, -⟩
  · exact ⟨_, rfl, done, h4, _, rfl, h2, fun c hc => ⟨h1.types c hc, h1.byType c hc⟩, h1.log⟩
  · exact absurd hn h4

/-- C162, with the specification of C28: when all threads have finished, the components of a type are those registered with it
according to the calls of their own threads. -/
theorem C162_final_partial (ord : Finset T → List T) (ho : ∀ l, (ord l).Nodup ∧ ∀ x, x ∈ ord l ↔ x ∈ l) (owner : C → Nat)
    (calls : Nat → List (Call C T)) (hs : ∀ i, ∀ call ∈ calls i, call.Set ∧ owner call.comp = i) (sched : List Nat)
    (hn : ∀ i, (((start calls).run ord sched).threads i).now = [] ∧ (((start calls).run ord sched).threads i).todo = [])
    (t : T) (c : C) :
    c ∈ ((start calls).run ord sched).reg.components t ↔
      ∃ ts, specRun (fun _ => none) ((calls (owner c)).map Call.op) c = some ts ∧ t ∈ ts := by
  obtain ⟨s, rfl, done, hd, r, rfl, -, h, -⟩ := C162_own_partial ord ho owner calls hs sched (owner c) (hn (owner c)).1
  rw [(hn (owner c)).2, List.append_nil] at hd
  rw [(h c rfl).2 t, hd]
  exact (C28_lookup (done.map Call.op)).1 t c

/-- Registry.py:79-98 with other threads: `sorted` reads the set of the type in the state `s1`, `tuple(components)[0]` reads it
in the later state `s2` (the set is the same object as soon as the type has ever been registered). -/
def getComponent (s1 s2 : Reg C T) (order : IterOrder C) (t : T) : Except Exc (Option C) :=
  if (order.f (s1.components t)).length > 0 then
    match (order.f (s2.components t))[0]? with
    | some c => .ok (some c)
    | none => .error .indexError
  else .ok none

omit [DecidableEq T] in
/-- C162, what `get_component` does in a thread of its own: it returns `None` only if nothing was registered for the type when
it began, it returns only a component that is registered when it returns, and it raises exactly if the type lost its last
component meanwhile. -/
theorem C162_get_partial (s1 s2 : Reg C T) (order : IterOrder C) (t : T) :
    (getComponent s1 s2 order t = .ok none ↔ s1.components t = ∅) ∧
    (∀ c, getComponent s1 s2 order t = .ok (some c) → c ∈ s2.components t) ∧
    ((∃ e, getComponent s1 s2 order t = .error e) ↔ s1.components t ≠ ∅ ∧ s2.components t = ∅) := by
  have hz : ∀ s : Reg C T, (order.f (s.components t)).length > 0 ↔ s.components t ≠ ∅ := by
    intro s
    rw [gt_iff_lt, List.length_pos_iff_exists_mem, ← Finset.nonempty_iff_ne_empty]
    exact ⟨fun ⟨x, hx⟩ => ⟨x, (order.mem _ x).1 hx⟩, fun ⟨x, hx⟩ => ⟨x, (order.mem _ x).2 hx⟩⟩
  unfold getComponent
  simp only [hz]
  by_cases h1 : s1.components t = ∅
  · simp [h1]
  · simp only [h1, ne_eq, not_false_eq_true, if_true, true_and]
    cases h2 : (order.f (s2.components t))[0]? with
    | none =>
      have : s2.components t = ∅ := by
        by_contra hc
        have := (hz s2).2 hc
        rw [List.getElem?_eq_none_iff] at h2
        omega
      simp [this]
    | some c =>
      have hc : c ∈ s2.components t := (order.mem _ c).1 (List.mem_of_getElem? h2)
      have hne : s2.components t ≠ ∅ := Finset.ne_empty_of_mem hc
      simp [hne, hc]

def demoOrd : Finset Nat → List Nat := fun s => s.sort (· ≤ ·)

/-- C162 is false of the code when two threads use the same component: both register it with the same type and both succeed
and announce it (one after the other, the second call raises). -/
theorem C162_counterexample_twice :
    let s := (start (fun i => if i < 2 then [Call.register 7 [1]] else [])).run demoOrd [0, 1, 0, 1, 0, 1, 0, 1, 0, 1]
    (s.threads 0).results = [.ok ()] ∧ (s.threads 1).results = [.ok ()] ∧
    s.reg.log = [.registered 7 {1}, .registered 7 {1}] ∧
    seqResults Reg.init [.register 7 {1}, .register 7 {1}] = [.ok (), .error .assertionError] := by
  decide

/-- C162 is false of the code when one thread unregisters the component that another one is registering: afterwards the
component has a type under which it is not found, and it can never be unregistered. -/
theorem C162_counterexample_lost :
    let s := (start (fun i => if i = 0 then [Call.register 7 [1]] else if i = 1 then [.unregister 7 (some [1])] else [])).run demoOrd
      [0, 0, 0, 1, 1, 1, 1, 0, 0]
    s.reg.types 7 = some {1} ∧ 7 ∉ s.reg.components 1 ∧ (s.threads 0).results = [.ok ()] ∧
    (s.threads 1).results = [.error .keyError] ∧ (s.reg.unregister 7 none).2 = .error .assertionError := by
  decide

/-- C162 is false of the code: `get_component` raises when another thread unregisters the only component. -/
theorem C162_counterexample_get (order : IterOrder Nat) :
    ∃ s1 s2 : Reg Nat Nat,
      s1 = ((start (fun i => if i = 0 then [Call.register 7 [1], .unregister 7 (some [1])] else [])).run demoOrd
        (List.replicate 5 0)).reg ∧
      s2 = ((start (fun i => if i = 0 then [Call.register 7 [1], .unregister 7 (some [1])] else [])).run demoOrd
        (List.replicate 5 0 ++ List.replicate 6 0)).reg ∧
      ∃ e, getComponent s1 s2 order 1 = .error e :=
  ⟨_, _, rfl, rfl, (C162_get_partial _ _ order 1).2.2.2 (by decide)⟩

/-- Two threads with components of their own, interleaved. -/
example :
    let s := (start (fun i => if i = 0 then [Call.register 7 [1, 2], .unregister 7 (some [2])]
      else if i = 1 then [.register 8 [2], .register 8 [2]] else [])).run demoOrd
      [0, 1, 0, 1, 0, 0, 1, 1, 1, 0, 1, 0, 0, 0, 1, 1, 0, 0, 0, 0, 0]
    s.reg.components 1 = {7} ∧ s.reg.components 2 = {8} ∧ (s.threads 0).results = [.ok (), .ok ()] ∧
    (s.threads 1).results = [.ok (), .error .assertionError] := by decide

end Verif.Registry.Threads
