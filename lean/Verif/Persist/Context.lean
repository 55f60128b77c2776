import Verif.Py.Basic
import Mathlib.Data.List.Nodup
import Mathlib.Logic.Function.Basic
import Mathlib.Tactic.Common

/-!
Model of `PersistentObjectContext.register/unregister/subscribe/get_registered_object` (`nion/utils/Persistence.py:172-226`) with
C57, and of the setter of `persistent_object_context` (lines 405-427) with C56.

Objects are numbers, `uuidOf o` is the uuid of the object (assumed not to change while it is registered). Subscriptions are
numbered in the order they are made; the log has the calls of their functions. Callbacks are assumed not to use the context
themselves and not to raise.
-/

namespace Verif.Persist

open Verif.Py

inductive Call where
  /-- `registered(object)` of the subscription -/
  | registered (sub : Nat) (o : Nat)
  /-- `unregistered(object)` of the subscription -/
  | unregistered (sub : Nat) (o : Option Nat)
  /-- `registration_event.fire(new, old)` -/
  | event (new old : Option Nat)
  deriving DecidableEq

/-- A subscription; which of the two functions are given (not `None`). -/
structure Sub where
  id : Nat
  reg : Bool
  unreg : Bool
  deriving DecidableEq

structure Ctx where
  objects : Nat → Option Nat
  subs : Nat → List Sub
  dead : Nat → Bool
  next : Nat
  log : List Call

def Ctx.init : Ctx := ⟨fun _ => none, fun _ => [], fun _ => false, 0, []⟩

inductive COp where
  | register (o : Nat)
  | unregister (o : Nat)
  | subscribe (u : Nat) (reg unreg : Bool)
  /-- the object is garbage collected -/
  | die (o : Nat)

variable (uuidOf : Nat → Nat)

/-- `weak_object and weak_object()`, lines 208-210 `get_registered_object`. -/
def Ctx.get (s : Ctx) (u : Nat) : Option Nat := (s.objects u).bind fun o => if s.dead o then none else some o

/-- Lines 178-190. -/
def Ctx.register (s : Ctx) (o : Nat) : Ctx :=
  { s with
    objects := Function.update s.objects (uuidOf o) (some o)
    log := s.log ++ ((s.subs (uuidOf o)).filter Sub.reg).map (fun q => .registered q.id o) ++ [.event (some o) none] }

/-- Lines 192-206; `del` raises `KeyError` if nothing is registered. -/
def Ctx.unregister (s : Ctx) (o : Nat) : Ctx × Option Exc :=
  let u := uuidOf o
  let log := s.log ++ ((s.subs u).filter Sub.unreg).map (fun q => .unregistered q.id (s.get u)) ++ [.event none (s.get u)]
  match s.objects u with
  | some _ => ({ s with objects := Function.update s.objects u none, subs := Function.update s.subs u [], log }, none)
  | none => ({ s with log }, some .keyError)

/-- Lines 212-226; `registered(object)` is not guarded, `None` raises `TypeError`. -/
def Ctx.subscribe (s : Ctx) (u : Nat) (reg unreg : Bool) : Ctx × Option Exc :=
  let s' := { s with subs := Function.update s.subs u (s.subs u ++ [⟨s.next, reg, unreg⟩]), next := s.next + 1 }
  match s.get u with
  | some o => if reg then ({ s' with log := s'.log ++ [.registered s.next o] }, none) else (s', some .typeError)
  | none => (s', none)

def Ctx.step (s : Ctx) : COp → Ctx
  | .register o => s.register uuidOf o
  | .unregister o => (s.unregister uuidOf o).1
  | .subscribe u r n => (s.subscribe u r n).1
  | .die o => { s with dead := Function.update s.dead o true }

def Ctx.run (s : Ctx) (ops : List COp) : Ctx := ops.foldl (Ctx.step uuidOf) s

/-! ### Specification -/

/-- The object last registered for the uuid and not unregistered since. -/
def lastRegistered (u : Nat) : List COp → Option Nat → Option Nat
  | [], cur => cur
  | .register o :: ops, cur => lastRegistered u ops (if uuidOf o = u then some o else cur)
  | .unregister o :: ops, cur => lastRegistered u ops (if uuidOf o = u then none else cur)
  | .subscribe _ _ _ :: ops, cur | .die _ :: ops, cur => lastRegistered u ops cur

/-- The objects which have died. -/
def died : List COp → Nat → Bool
  | [], _ => false
  | .die o :: ops, x => decide (x = o) || died ops x
  | _ :: ops, x => died ops x

/-- The object, unless it is dead. -/
def living (dead : Nat → Bool) (o : Option Nat) : Option Nat := o.bind fun o => if dead o then none else some o

/-- What a subscriber to the uuid `u` is told by the operations `ops` after it has subscribed: each registration, until the
unregistration. `cur` is the object registered now. -/
def told (u : Nat) (q : Sub) : List COp → Option Nat → (Nat → Bool) → List Call
  | [], _, _ => []
  | .register o :: ops, cur, dead =>
    if uuidOf o = u then (if q.reg then [.registered q.id o] else []) ++ told u q ops (some o) dead else told u q ops cur dead
  | .unregister o :: ops, cur, dead =>
    if uuidOf o = u then
      (if q.unreg then [.unregistered q.id (living dead cur)] else []) ++ (if cur.isSome then [] else told u q ops cur dead)
    else told u q ops cur dead
  | .subscribe _ _ _ :: ops, cur, dead => told u q ops cur dead
  | .die o :: ops, cur, dead => told u q ops cur (Function.update dead o true)

/-- The calls of the functions of a subscription. -/
def callsOf (id : Nat) (log : List Call) : List Call :=
  log.filter fun c => match c with
    | .registered i _ => i = id
    | .unregistered i _ => i = id
    | .event _ _ => false

/-! ### C57 -/

/-- All subscriptions have different numbers below `next`. -/
structure Ctx.Ok (s : Ctx) : Prop where
  lt : ∀ u, ∀ q ∈ s.subs u, q.id < s.next
  once : ∀ u, ((s.subs u).map Sub.id).Nodup
  disj : ∀ u v, u ≠ v → ∀ q ∈ s.subs u, ∀ r ∈ s.subs v, q.id ≠ r.id

theorem Ctx.ok_init : Ctx.init.Ok := ⟨by simp [Ctx.init], by simp [Ctx.init], by simp [Ctx.init]⟩

theorem Ctx.ok_step {s : Ctx} (h : s.Ok) (op : COp) : (s.step uuidOf op).Ok := by
  cases op with
  | register o => exact ⟨h.lt, h.once, h.disj⟩
  | unregister o =>
    simp only [Ctx.step, Ctx.unregister]
    split
    · refine ⟨fun u q hq => ?_, fun u => ?_, fun u v huv q hq r hr => ?_⟩
      · simp only [Function.update_apply] at hq
        split at hq
        · simp at hq
        · exact h.lt u q hq
      · simp only [Function.update_apply]
        split
        · simp
        · exact h.once u
      · simp only [Function.update_apply] at hq hr
        split at hq
        · simp at hq
        · split at hr
          · simp at hr
          · exact h.disj u v huv q hq r hr
    · exact ⟨h.lt, h.once, h.disj⟩
  | subscribe w r n =>
    have key : ({ s with subs := Function.update s.subs w (s.subs w ++ [⟨s.next, r, n⟩]), next := s.next + 1 } : Ctx).Ok := by
      have hmem : ∀ u, ∀ q ∈ Function.update s.subs w (s.subs w ++ [⟨s.next, r, n⟩]) u,
          q ∈ s.subs u ∨ (u = w ∧ q.id = s.next) := by
        intro u q hq
        simp only [Function.update_apply] at hq
        split at hq
        · rename_i hu
          subst hu
          rcases List.mem_append.1 hq with hq | hq
          · exact .inl hq
          · simp at hq; exact .inr ⟨rfl, by rw [hq]⟩
        · exact .inl hq
      refine ⟨fun u q hq => ?_, fun u => ?_, fun u v huv q hq r' hr => ?_⟩
      · rcases hmem u q hq with hq | ⟨_, hq⟩
        · have := h.lt u q hq
          show q.id < s.next + 1
          omega
        · show q.id < s.next + 1
          omega
      · simp only [Function.update_apply]
        split
        · rw [List.map_append, List.nodup_append]
          refine ⟨h.once w, by simp, ?_⟩
          intro a ha b hb
          obtain ⟨q, hq, rfl⟩ := List.mem_map.1 ha
          have := h.lt w q hq
          simp at hb
          omega
        · exact h.once u
      · rcases hmem u q hq with hq1 | ⟨rfl, hq1⟩
        · rcases hmem v r' hr with hr1 | ⟨rfl, hr1⟩
          · exact h.disj u v huv q hq1 r' hr1
          · have := h.lt u q hq1; omega
        · rcases hmem v r' hr with hr1 | ⟨rfl, hr1⟩
          · have := h.lt v r' hr1; omega
          · exact absurd rfl huv
    simp only [Ctx.step, Ctx.subscribe]
    split
    · split
      · exact ⟨key.lt, key.once, key.disj⟩
      · exact key
    · exact key
  | die o => exact ⟨h.lt, h.once, h.disj⟩

theorem objects_run (u : Nat) : ∀ (ops : List COp) (s : Ctx), (s.run uuidOf ops).objects u = lastRegistered uuidOf u ops (s.objects u)
  | [], s => rfl
  | op :: ops, s => by
    have ih := objects_run u ops (s.step uuidOf op)
    rw [Ctx.run, List.foldl_cons]
    rw [Ctx.run] at ih
    rw [ih]
    cases op with
    | register o =>
      simp only [lastRegistered, Ctx.step, Ctx.register, Function.update_apply]
      by_cases h : uuidOf o = u
      · simp [h]
      · rw [if_neg (Ne.symm h), if_neg h]
    | unregister o =>
      simp only [lastRegistered, Ctx.step, Ctx.unregister]
      by_cases h : uuidOf o = u
      · subst h
        cases hs : s.objects (uuidOf o) with
        | none => simp [hs]
        | some x => simp
      · rw [if_neg h]
        cases hs : s.objects (uuidOf o) with
        | none => rfl
        | some x => simp only [Function.update_apply, if_neg (Ne.symm h)]
    | subscribe w r n =>
      simp only [lastRegistered, Ctx.step, Ctx.subscribe]
      split
      · split <;> rfl
      · rfl
    | die o => rfl

theorem dead_run : ∀ (ops : List COp) (s : Ctx) (x : Nat), (s.run uuidOf ops).dead x = (s.dead x || died ops x)
  | [], s, x => by simp [Ctx.run, died]
  | op :: ops, s, x => by
    have ih := dead_run ops (s.step uuidOf op) x
    rw [Ctx.run, List.foldl_cons]
    rw [Ctx.run] at ih
    rw [ih]
    cases op with
    | register o => rfl
    | unregister o =>
      simp only [Ctx.step, Ctx.unregister, died]
      split <;> rfl
    | subscribe w r n =>
      simp only [Ctx.step, Ctx.subscribe, died]
      split
      · split <;> rfl
      · rfl
    | die o =>
      simp only [Ctx.step, died, Function.update_apply]
      by_cases h : x = o
      · simp [h]
      · simp [h]

/-- C57: `get_registered_object` returns the object last registered for the uuid and not unregistered since, if it still
exists. -/
theorem C57_get (ops : List COp) (u : Nat) :
    ((Ctx.init.run uuidOf ops).get u) = living (died ops) (lastRegistered uuidOf u ops none) := by
  rw [Ctx.get, objects_run]
  show _ = Option.bind _ _
  congr 1
  funext o
  rw [dead_run]
  simp [Ctx.init]

theorem filter_reg {s : Ctx} (h : s.Ok) {u : Nat} {q : Sub} (hq : q ∈ s.subs u) (o : Nat) (v : Nat) :
    callsOf q.id (((s.subs v).filter Sub.reg).map (fun q => .registered q.id o)) =
      if v = u ∧ q.reg then [.registered q.id o] else [] := by
  by_cases huv : v = u
  · subst huv
    have hnd := h.once v
    generalize s.subs v = l at hq hnd
    induction l with
    | nil => simp at hq
    | cons r l ih =>
      rw [List.map_cons, List.nodup_cons] at hnd
      rcases List.mem_cons.1 hq with rfl | hq
      · have hrest : callsOf q.id ((l.filter Sub.reg).map (fun q => .registered q.id o)) = [] := by
          unfold callsOf
          rw [List.filter_eq_nil_iff]
          intro c hc
          obtain ⟨r, hr, rfl⟩ := List.mem_map.1 hc
          simp only [decide_eq_true_eq]
          intro he
          exact hnd.1 (he ▸ List.mem_map_of_mem (f := Sub.id) (List.mem_of_mem_filter hr))
        cases hr : q.reg with
        | true =>
          rw [List.filter_cons_of_pos hr, List.map_cons]
          unfold callsOf at hrest ⊢
          rw [List.filter_cons_of_pos (by simp), hrest]
          simp
        | false => rw [List.filter_cons_of_neg (by simp [hr]), hrest]; simp
      · have hne : r.id ≠ q.id := fun he => hnd.1 (he ▸ List.mem_map_of_mem (f := Sub.id) hq)
        rw [← ih hq hnd.2]
        by_cases hr : r.reg = true
        · rw [List.filter_cons_of_pos hr, List.map_cons]
          unfold callsOf
          rw [List.filter_cons_of_neg (by simpa using hne)]
        · rw [List.filter_cons_of_neg hr]
  · rw [if_neg (fun hh => huv hh.1)]
    unfold callsOf
    rw [List.filter_eq_nil_iff]
    intro c hc
    obtain ⟨r, hr, rfl⟩ := List.mem_map.1 hc
    simp only [decide_eq_true_eq]
    exact h.disj v u huv r (List.mem_of_mem_filter hr) q hq

theorem filter_unreg {s : Ctx} (h : s.Ok) {u : Nat} {q : Sub} (hq : q ∈ s.subs u) (o : Option Nat) (v : Nat) :
    callsOf q.id (((s.subs v).filter Sub.unreg).map (fun q => .unregistered q.id o)) =
      if v = u ∧ q.unreg then [.unregistered q.id o] else [] := by
  by_cases huv : v = u
  · subst huv
    have hnd := h.once v
    generalize s.subs v = l at hq hnd
    induction l with
    | nil => simp at hq
    | cons r l ih =>
      rw [List.map_cons, List.nodup_cons] at hnd
      rcases List.mem_cons.1 hq with rfl | hq
      · have hrest : callsOf q.id ((l.filter Sub.unreg).map (fun q => .unregistered q.id o)) = [] := by
          unfold callsOf
          rw [List.filter_eq_nil_iff]
          intro c hc
          obtain ⟨r, hr, rfl⟩ := List.mem_map.1 hc
          simp only [decide_eq_true_eq]
          intro he
          exact hnd.1 (he ▸ List.mem_map_of_mem (f := Sub.id) (List.mem_of_mem_filter hr))
        cases hr : q.unreg with
        | true =>
          rw [List.filter_cons_of_pos hr, List.map_cons]
          unfold callsOf at hrest ⊢
          rw [List.filter_cons_of_pos (by simp), hrest]
          simp
        | false => rw [List.filter_cons_of_neg (by simp [hr]), hrest]; simp
      · have hne : r.id ≠ q.id := fun he => hnd.1 (he ▸ List.mem_map_of_mem (f := Sub.id) hq)
        rw [← ih hq hnd.2]
        by_cases hr : r.unreg = true
        · rw [List.filter_cons_of_pos hr, List.map_cons]
          unfold callsOf
          rw [List.filter_cons_of_neg (by simpa using hne)]
        · rw [List.filter_cons_of_neg hr]
  · rw [if_neg (fun hh => huv hh.1)]
    unfold callsOf
    rw [List.filter_eq_nil_iff]
    intro c hc
    obtain ⟨r, hr, rfl⟩ := List.mem_map.1 hc
    simp only [decide_eq_true_eq]
    exact h.disj v u huv r (List.mem_of_mem_filter hr) q hq

theorem callsOf_append (id : Nat) (a b : List Call) : callsOf id (a ++ b) = callsOf id a ++ callsOf id b := List.filter_append ..

theorem callsOf_event (id : Nat) (a b : Option Nat) : callsOf id [.event a b] = [] := rfl

/-- No subscription has the number, and it is not going to be used again. -/
def Ctx.Gone (s : Ctx) (id : Nat) : Prop := id < s.next ∧ ∀ u, ∀ q ∈ s.subs u, q.id ≠ id

theorem gone_step {s : Ctx} {id : Nat} (h : s.Gone id) (op : COp) :
    (s.step uuidOf op).Gone id ∧ callsOf id (s.step uuidOf op).log = callsOf id s.log := by
  have hno : ∀ (u : Nat) (p : Sub → Bool) (f : Sub → Call), (∀ q, (match f q with
      | .registered i _ => i = id
      | .unregistered i _ => i = id
      | .event _ _ => false) → q.id = id) → callsOf id (((s.subs u).filter p).map f) = [] := by
    intro u p f hf
    unfold callsOf
    rw [List.filter_eq_nil_iff]
    intro c hc
    obtain ⟨r, hr, rfl⟩ := List.mem_map.1 hc
    intro he
    refine h.2 u r (List.mem_of_mem_filter hr) (hf r ?_)
    revert he
    cases f r <;> simp
  cases op with
  | register o =>
    refine ⟨h, ?_⟩
    simp only [Ctx.step, Ctx.register]
    rw [callsOf_append, callsOf_append, callsOf_event, hno _ _ _ (by simp)]
    simp
  | unregister o =>
    have hlog : callsOf id (s.log ++ ((s.subs (uuidOf o)).filter Sub.unreg).map
        (fun q => .unregistered q.id (s.get (uuidOf o))) ++ [.event none (s.get (uuidOf o))]) = callsOf id s.log := by
      rw [callsOf_append, callsOf_append, callsOf_event, hno _ _ _ (by simp)]
      simp
    simp only [Ctx.step, Ctx.unregister]
    split
    · refine ⟨⟨h.1, fun u q hq => ?_⟩, hlog⟩
      simp only [Function.update_apply] at hq
      split at hq
      · simp at hq
      · exact h.2 u q hq
    · exact ⟨h, hlog⟩
  | subscribe w r n =>
    have hg : ({ s with subs := Function.update s.subs w (s.subs w ++ [⟨s.next, r, n⟩]), next := s.next + 1 } : Ctx).Gone id := by
      refine ⟨Nat.lt_succ_of_lt h.1, fun u q hq => ?_⟩
      simp only [Function.update_apply] at hq
      split at hq
      · rcases List.mem_append.1 hq with hq | hq
        · exact h.2 w q hq
        · simp at hq
          rw [hq]
          exact Nat.ne_of_gt h.1
      · exact h.2 u q hq
    simp only [Ctx.step, Ctx.subscribe]
    split
    · split
      · refine ⟨hg, ?_⟩
        rw [callsOf_append]
        unfold callsOf
        rw [List.filter_cons_of_neg (by simpa using Nat.ne_of_gt h.1)]
        simp
      · exact ⟨hg, rfl⟩
    · exact ⟨hg, rfl⟩
  | die o => exact ⟨h, rfl⟩

theorem gone_run {id : Nat} : ∀ (ops : List COp) (s : Ctx), s.Gone id → callsOf id (s.run uuidOf ops).log = callsOf id s.log
  | [], _, _ => rfl
  | op :: ops, s, h => by
    obtain ⟨h1, h2⟩ := gone_step uuidOf h op
    have ih := gone_run ops _ h1
    rw [Ctx.run] at ih ⊢
    rw [List.foldl_cons, ih, h2]

theorem get_living (s : Ctx) (u : Nat) : s.get u = living s.dead (s.objects u) := rfl

/-- A subscription is told exactly what it should be. -/
theorem told_run (u : Nat) (q : Sub) : ∀ (ops : List COp) (s : Ctx), s.Ok → q ∈ s.subs u →
    callsOf q.id (s.run uuidOf ops).log = callsOf q.id s.log ++ told uuidOf u q ops (s.objects u) s.dead
  | [], s, _, _ => by simp [Ctx.run, told]
  | op :: ops, s, hok, hq => by
    have hok' := Ctx.ok_step uuidOf hok op
    have hrun : s.run uuidOf (op :: ops) = (s.step uuidOf op).run uuidOf ops := rfl
    rw [hrun]
    cases op with
    | register o =>
      rw [told_run u q ops _ hok' hq]
      simp only [Ctx.step, Ctx.register, told]
      rw [callsOf_append, callsOf_append, callsOf_event, filter_reg hok hq]
      by_cases h : uuidOf o = u
      · subst h
        cases hr : q.reg <;> simp
      · have h' : ¬ u = uuidOf o := fun he => h he.symm
        simp [h, h', Function.update_apply]
    | unregister o =>
      by_cases h : uuidOf o = u
      · subst h
        cases hs : s.objects (uuidOf o) with
        | none =>
          have hq' : q ∈ (s.step uuidOf (.unregister o)).subs (uuidOf o) := by simpa [Ctx.step, Ctx.unregister, hs] using hq
          rw [told_run (uuidOf o) q ops _ hok' hq']
          simp only [Ctx.step, Ctx.unregister, hs, told]
          rw [callsOf_append, callsOf_append, callsOf_event, filter_unreg hok hq, get_living, hs]
          cases hr : q.unreg <;> simp [hs]
        | some x =>
          have hgone : (s.step uuidOf (.unregister o)).Gone q.id := by
            simp only [Ctx.step, Ctx.unregister, hs]
            refine ⟨hok.lt _ q hq, fun v r hr => ?_⟩
            simp only [Function.update_apply] at hr
            split at hr
            · simp at hr
            · rename_i hv
              exact hok.disj v _ hv r hr q hq
          rw [gone_run uuidOf ops _ hgone]
          simp only [Ctx.step, Ctx.unregister, hs, told]
          rw [callsOf_append, callsOf_append, callsOf_event, filter_unreg hok hq, get_living, hs]
          cases hr : q.unreg <;> simp
      · have hst : (s.step uuidOf (.unregister o)).subs u = s.subs u ∧ (s.step uuidOf (.unregister o)).objects u = s.objects u ∧
            (s.step uuidOf (.unregister o)).dead = s.dead ∧
            (s.step uuidOf (.unregister o)).log = s.log ++ ((s.subs (uuidOf o)).filter Sub.unreg).map
              (fun q => .unregistered q.id (s.get (uuidOf o))) ++ [.event none (s.get (uuidOf o))] := by
          simp only [Ctx.step, Ctx.unregister]
          split <;> simp [Function.update_apply, Ne.symm h]
        rw [told_run u q ops _ hok' (hst.1 ▸ hq), hst.2.1, hst.2.2.1, hst.2.2.2, callsOf_append, callsOf_append, callsOf_event,
          filter_unreg hok hq]
        simp [told, h]
    | subscribe w r n =>
      have hne : q.id ≠ s.next := Nat.ne_of_lt (hok.lt u q hq)
      have hst : q ∈ (s.step uuidOf (.subscribe w r n)).subs u ∧ (s.step uuidOf (.subscribe w r n)).objects = s.objects ∧
          (s.step uuidOf (.subscribe w r n)).dead = s.dead ∧
          callsOf q.id (s.step uuidOf (.subscribe w r n)).log = callsOf q.id s.log := by
        have hm : q ∈ Function.update s.subs w (s.subs w ++ [⟨s.next, r, n⟩]) u := by
          simp only [Function.update_apply]
          split
          · rename_i hu
            subst hu
            simp [hq]
          · exact hq
        simp only [Ctx.step, Ctx.subscribe]
        split
        · split
          · refine ⟨hm, rfl, rfl, ?_⟩
            rw [callsOf_append]
            unfold callsOf
            rw [List.filter_cons_of_neg (by simpa using Ne.symm hne)]
            simp
          · exact ⟨hm, rfl, rfl, rfl⟩
        · exact ⟨hm, rfl, rfl, rfl⟩
      rw [told_run u q ops _ hok' hst.1, hst.2.1, hst.2.2.1, hst.2.2.2]
      rfl
    | die o => exact told_run u q ops _ hok' hq

theorem ok_run : ∀ (ops : List COp) (s : Ctx), s.Ok → (s.run uuidOf ops).Ok
  | [], _, h => h
  | op :: ops, s, h => ok_run ops _ (Ctx.ok_step uuidOf h op)

theorem callsOf_next {s : Ctx} (hlog : ∀ id, s.next ≤ id → callsOf id s.log = []) (hok : s.Ok) (op : COp) :
    ∀ id, (s.step uuidOf op).next ≤ id → callsOf id (s.step uuidOf op).log = [] := by
  have hno : ∀ (id u : Nat) (p : Sub → Bool) (f : Sub → Call), s.next ≤ id → (∀ q, (match f q with
      | .registered i _ => i = id
      | .unregistered i _ => i = id
      | .event _ _ => false) → q.id = id) → callsOf id (((s.subs u).filter p).map f) = [] := by
    intro id u p f hid hf
    unfold callsOf
    rw [List.filter_eq_nil_iff]
    intro c hc
    obtain ⟨r, hr, rfl⟩ := List.mem_map.1 hc
    intro he
    have h1 := hok.lt u r (List.mem_of_mem_filter hr)
    have h2 : r.id = id := by
      refine hf r ?_
      revert he
      cases f r <;> simp
    omega
  intro id hid
  cases op with
  | register o =>
    simp only [Ctx.step, Ctx.register] at hid ⊢
    rw [callsOf_append, callsOf_append, callsOf_event, hno id _ _ _ hid (by simp), hlog id hid]
    rfl
  | unregister o =>
    simp only [Ctx.step, Ctx.unregister] at hid ⊢
    split
    · rename_i hs
      rw [hs] at hid
      rw [callsOf_append, callsOf_append, callsOf_event, hno id _ _ _ hid (by simp), hlog id hid]
      rfl
    · rename_i hs
      rw [hs] at hid
      rw [callsOf_append, callsOf_append, callsOf_event, hno id _ _ _ hid (by simp), hlog id hid]
      rfl
  | subscribe w r n =>
    simp only [Ctx.step, Ctx.subscribe] at hid ⊢
    have hid' : s.next + 1 ≤ id := by
      revert hid
      split
      · split <;> exact fun h => h
      · exact fun h => h
    split
    · split
      · rw [callsOf_append, hlog id (by omega)]
        unfold callsOf
        rw [List.filter_cons_of_neg (by simp; omega)]
        rfl
      · exact hlog id (by omega)
    · exact hlog id (by omega)
  | die o => exact hlog id hid

theorem callsOf_next_run : ∀ (ops : List COp) (s : Ctx), s.Ok → (∀ id, s.next ≤ id → callsOf id s.log = []) →
    ∀ id, (s.run uuidOf ops).next ≤ id → callsOf id (s.run uuidOf ops).log = []
  | [], _, _, h => h
  | op :: ops, s, hok, h => callsOf_next_run ops _ (Ctx.ok_step uuidOf hok op) (callsOf_next uuidOf h hok op)

/-- C57: after any history, a subscriber for a uuid is called at once with the object if one is registered and then with the
object of every registration of that uuid, until it is unregistered, when `unregistered` is called with it and the subscription
is gone. (`q` is the subscription; `subscribe` without a `registered` function raises if the object is registered.) -/
theorem C57_subscriber (before after : List COp) (u : Nat) (reg unreg : Bool) :
    ∃ q : Sub, q.reg = reg ∧ q.unreg = unreg ∧
      callsOf q.id (Ctx.init.run uuidOf (before ++ .subscribe u reg unreg :: after)).log =
        (match living (died before) (lastRegistered uuidOf u before none) with
          | some o => if reg then [.registered q.id o] else []
          | none => []) ++
        told uuidOf u q after (lastRegistered uuidOf u before none) (died before) := by
  have hget := C57_get uuidOf before u
  have hok := ok_run uuidOf before Ctx.init Ctx.ok_init
  have hobj := objects_run uuidOf u before Ctx.init
  have hdead : (Ctx.init.run uuidOf before).dead = died before := by
    funext x
    rw [dead_run]
    simp [Ctx.init]
  have hlog := callsOf_next_run uuidOf before Ctx.init Ctx.ok_init (fun _ _ => rfl)
  refine ⟨⟨(Ctx.init.run uuidOf before).next, reg, unreg⟩, rfl, rfl, ?_⟩
  have hrun : Ctx.init.run uuidOf (before ++ .subscribe u reg unreg :: after) =
      ((Ctx.init.run uuidOf before).step uuidOf (.subscribe u reg unreg)).run uuidOf after := by
    simp [Ctx.run]
  rw [hrun]
  generalize Ctx.init.run uuidOf before = s at *
  rw [told_run uuidOf u ⟨s.next, reg, unreg⟩ after _ (Ctx.ok_step uuidOf hok _)]
  · have hst : (s.step uuidOf (.subscribe u reg unreg)).objects = s.objects ∧ (s.step uuidOf (.subscribe u reg unreg)).dead = s.dead ∧
        callsOf s.next (s.step uuidOf (.subscribe u reg unreg)).log = (match s.get u with
          | some o => if reg then [.registered s.next o] else []
          | none => []) := by
      simp only [Ctx.step, Ctx.subscribe]
      cases hg : s.get u with
      | none => exact ⟨rfl, rfl, hlog _ (Nat.le_refl _)⟩
      | some o =>
        cases reg with
        | true =>
          refine ⟨rfl, rfl, ?_⟩
          show callsOf s.next (s.log ++ [Call.registered s.next o]) = _
          rw [callsOf_append, hlog _ (Nat.le_refl _)]
          simp [callsOf]
        | false => exact ⟨rfl, rfl, hlog _ (Nat.le_refl _)⟩
    rw [hst.1, hst.2.1, hst.2.2, hobj, hdead, hget]
    rfl
  · simp only [Ctx.step, Ctx.subscribe]
    split
    · split <;> simp
    · simp

/-- C57: `subscribe` raises `TypeError` if no `registered` function is given and the object is registered (the subscription is
made nevertheless). -/
theorem C57_subscribe_raises (s : Ctx) (u : Nat) (reg unreg : Bool) :
    (s.subscribe u reg unreg).2 = if (s.get u).isSome ∧ reg = false then some .typeError else none := by
  unfold Ctx.subscribe
  cases s.get u with
  | none => simp
  | some o => cases reg <;> simp

/-- Two objects 1, 2 with uuid 7: a subscriber is told about both and about the unregistration, and nothing later. -/
example : (Ctx.init.run (fun _ => 7) [.register 1, .subscribe 7 true true, .register 2, .unregister 2, .register 1]).log =
    [.event (some 1) none, .registered 0 1, .registered 0 2, .event (some 2) none, .unregistered 0 (some 2), .event none (some 2),
      .event (some 1) none] := by
  decide

/-! ### C56 -/

mutual
/-- An object with its context and the objects in its items and relationships (in this order). -/
inductive Tree where
  | node (id : Nat) (ctx : Option Nat) (kids : Kids)
inductive Kids where
  | nil
  | cons (t : Tree) (rest : Kids)
end

/-- A call of `register` or `unregister` of a context. -/
inductive Ev where
  | register (ctx id : Nat)
  | unregister (ctx id : Nat)
  deriving DecidableEq

mutual
/-- Persistence.py:410-427, the setter of `persistent_object_context`. -/
def setCtx (new : Option Nat) : Tree → Tree × List Ev × Option Exc
  | .node id ctx kids =>
    if ctx.isSome ∧ new.isSome then (.node id ctx kids, [], some .assertionError)
    else match setKids new kids with
      | (ks, ev, some e) => (.node id new ks, ev, some e)
      | (ks, ev, none) =>
        (.node id new ks,
          ev ++ (match ctx with | some c => [.unregister c id] | none => []) ++ (match new with | some c => [.register c id] | none => []),
          none)
def setKids (new : Option Nat) : Kids → Kids × List Ev × Option Exc
  | .nil => (.nil, [], none)
  | .cons t rest =>
    match setCtx new t with
    | (t', ev, some e) => (.cons t' rest, ev, some e)
    | (t', ev, none) =>
      match setKids new rest with
      | (r', ev', x) => (.cons t' r', ev ++ ev', x)
end

mutual
/-- All objects of the tree with their contexts, contained ones first. -/
def Tree.all : Tree → List (Nat × Option Nat)
  | .node id ctx kids => kids.all ++ [(id, ctx)]
def Kids.all : Kids → List (Nat × Option Nat)
  | .nil => []
  | .cons t rest => t.all ++ rest.all
end

mutual
/-- The tree with every context replaced. -/
def Tree.withCtx (new : Option Nat) : Tree → Tree
  | .node id _ kids => .node id new (kids.withCtx new)
def Kids.withCtx (new : Option Nat) : Kids → Kids
  | .nil => .nil
  | .cons t rest => .cons (t.withCtx new) (rest.withCtx new)
end

/-- Unregistrations of the objects which have a context. -/
def unregs (l : List (Nat × Option Nat)) : List Ev := l.filterMap fun p => p.2.map fun c => .unregister c p.1

mutual
theorem setCtx_some (c : Nat) : (t : Tree) → (∀ p ∈ t.all, p.2 = none) →
    setCtx (some c) t = (t.withCtx (some c), t.all.map (fun p => .register c p.1), none)
  | .node id ctx kids, h => by
    simp only [Tree.all, List.mem_append, List.mem_singleton] at h
    have hc : ctx = none := h (id, ctx) (.inr rfl)
    subst hc
    rw [setCtx, setKids_some c kids fun p hp => h p (.inl hp)]
    simp [Tree.withCtx, Tree.all]
theorem setKids_some (c : Nat) : (k : Kids) → (∀ p ∈ k.all, p.2 = none) →
    setKids (some c) k = (k.withCtx (some c), k.all.map (fun p => .register c p.1), none)
  | .nil, _ => rfl
  | .cons t rest, h => by
    simp only [Kids.all, List.mem_append] at h
    rw [setKids, setCtx_some c t fun p hp => h p (.inl hp)]
    simp only
    rw [setKids_some c rest fun p hp => h p (.inr hp)]
    simp [Kids.withCtx, Kids.all]
end

mutual
theorem setCtx_none : (t : Tree) → setCtx none t = (t.withCtx none, unregs t.all, none)
  | .node id ctx kids => by
    cases ctx <;> simp [setCtx, setKids_none kids, Tree.withCtx, Tree.all, unregs]
theorem setKids_none : (k : Kids) → setKids none k = (k.withCtx none, unregs k.all, none)
  | .nil => rfl
  | .cons t rest => by
    rw [setKids, setCtx_none t]
    simp only
    rw [setKids_none rest]
    simp [Kids.withCtx, Kids.all, unregs]
end

mutual
theorem setCtx_raises (c : Nat) : (t : Tree) → (∃ p ∈ t.all, p.2 ≠ none) → (setCtx (some c) t).2.2 = some .assertionError
  | .node id ctx kids, h => by
    cases ctx with
    | some c' => simp [setCtx]
    | none =>
      simp only [Tree.all, List.mem_append, List.mem_singleton] at h
      obtain ⟨p, hp | rfl, hne⟩ := h
      · have := setKids_raises c kids ⟨p, hp, hne⟩
        simp only [setCtx, Option.isSome_none, Bool.false_eq_true, false_and, if_false]
        rcases hk : setKids (some c) kids with ⟨ks, ev, x⟩
        rw [hk] at this
        simp only at this
        subst this
        simp
      · exact absurd rfl hne
theorem setKids_raises (c : Nat) : (k : Kids) → (∃ p ∈ k.all, p.2 ≠ none) → (setKids (some c) k).2.2 = some .assertionError
  | .nil, h => by simp [Kids.all] at h
  | .cons t rest, h => by
    simp only [Kids.all, List.mem_append] at h
    rw [setKids]
    by_cases ht : ∃ p ∈ t.all, p.2 ≠ none
    · have := setCtx_raises c t ht
      rcases hk : setCtx (some c) t with ⟨t', ev, x⟩
      rw [hk] at this
      simp only at this
      subst this
      rfl
    · have ht' : ∀ p ∈ t.all, p.2 = none := fun p hp => by
        by_contra hn
        exact ht ⟨p, hp, hn⟩
      rw [setCtx_some c t ht']
      simp only
      obtain ⟨p, hp | hp, hne⟩ := h
      · exact absurd (ht' p hp) hne
      · exact setKids_raises c rest ⟨p, hp, hne⟩
end

mutual
theorem all_withCtx (new : Option Nat) : (t : Tree) → (t.withCtx new).all = t.all.map (fun p => (p.1, new))
  | .node id ctx kids => by rw [Tree.withCtx, Tree.all, Tree.all, all_withCtxKids new kids]; simp
theorem all_withCtxKids (new : Option Nat) : (k : Kids) → (k.withCtx new).all = k.all.map (fun p => (p.1, new))
  | .nil => rfl
  | .cons t rest => by rw [Kids.withCtx, Kids.all, Kids.all, all_withCtx new t, all_withCtxKids new rest]; simp
end

/-- Operations on the context `c`. -/
def evOp (c : Nat) : Ev → Option COp
  | .register c' id => if c' = c then some (.register id) else none
  | .unregister c' id => if c' = c then some (.unregister id) else none

/-- C56: setting the context on an object whose tree has no context sets it on every object contained in it and registers each
of them exactly once, contained ones first; afterwards each of them is found by its uuid (objects and uuids being different). -/
theorem C56_set (c : Nat) (t : Tree) (h : ∀ p ∈ t.all, p.2 = none) :
    (setCtx (some c) t).2.2 = none ∧
      (setCtx (some c) t).1.all = t.all.map (fun p => (p.1, some c)) ∧
      (setCtx (some c) t).2.1 = t.all.map (fun p => .register c p.1) ∧
      (((t.all.map Prod.fst).map uuidOf).Nodup → ∀ p ∈ t.all, ∀ s : Ctx, (∀ x, s.dead x = false) →
        (s.run uuidOf ((setCtx (some c) t).2.1.filterMap (evOp c))).get (uuidOf p.1) = some p.1) := by
  have hset := setCtx_some c t h
  refine ⟨by rw [hset], by rw [hset]; exact all_withCtx _ t, by rw [hset], fun hnd p hp s hs => ?_⟩
  rw [hset]
  have hops : ((t.all.map (fun p => Ev.register c p.1)).filterMap (evOp c)) = (t.all.map Prod.fst).map COp.register := by
    rw [List.filterMap_map]
    have : (evOp c ∘ fun (p : Nat × Option Nat) => Ev.register c p.1) = fun p => some (COp.register p.1) := by
      funext q; simp [evOp]
    rw [this, List.map_map]
    simp [Function.comp_def]
  have hp' : p.1 ∈ t.all.map Prod.fst := List.mem_map_of_mem hp
  simp only
  rw [hops]
  clear hops hset h hp
  generalize t.all.map Prod.fst = l at *
  rw [Ctx.get, objects_run]
  have hdead : ∀ x, (s.run uuidOf (l.map COp.register)).dead x = false := fun x => by
    rw [dead_run, hs x]
    clear hnd hp'
    induction l with
    | nil => rfl
    | cons a l ih => simpa [died] using ih
  have hlast : ∀ cur, lastRegistered uuidOf (uuidOf p.1) (l.map COp.register) cur = some p.1 := by
    clear hdead
    induction l with
    | nil => simp at hp'
    | cons a l ih =>
      intro cur
      simp only [List.map_cons, List.nodup_cons] at hnd
      have hrest : ∀ l : List Nat, uuidOf p.1 ∉ l.map uuidOf → ∀ cur, lastRegistered uuidOf (uuidOf p.1) (l.map COp.register) cur = cur := by
        intro l hl
        induction l with
        | nil => intro cur; rfl
        | cons b l ih =>
          intro cur
          simp only [List.map_cons, List.mem_cons, not_or] at hl
          rw [List.map_cons, lastRegistered, ih hl.2, if_neg (Ne.symm hl.1)]
      rw [List.map_cons, lastRegistered]
      rcases List.mem_cons.1 hp' with he | hm
      · rw [← he, if_pos rfl, hrest l (he ▸ hnd.1)]
      · exact ih hnd.2 hm _
  rw [hlast]
  simp [hdead]

/-- C56: setting the context to `None` clears it on every object of the tree and unregisters each object which had one, exactly
once, from the context it had. -/
theorem C56_clear (t : Tree) :
    (setCtx none t).2.2 = none ∧ (setCtx none t).1.all = t.all.map (fun p => (p.1, none)) ∧
      (setCtx none t).2.1 = unregs t.all := by
  rw [setCtx_none]
  exact ⟨rfl, all_withCtx none t, rfl⟩

/-- C56: setting a context on an object containing one which has a context already raises. -/
theorem C56_raises (c : Nat) (t : Tree) (h : ∃ p ∈ t.all, p.2 ≠ none) : (setCtx (some c) t).2.2 = some .assertionError :=
  setCtx_raises c t h

def demoTree : Tree := .node 1 none (.cons (.node 2 none (.cons (.node 3 none .nil) .nil)) (.cons (.node 4 none .nil) .nil))

example : (setCtx (some 9) demoTree).2.1 = [.register 9 3, .register 9 2, .register 9 4, .register 9 1] := by decide

end Verif.Persist
