import Verif.Event.Model
import Mathlib.Data.List.Basic

/-! Invariants of the event model and the specification of the listener loop. -/

namespace Verif.Event

open Verif.Py

/-- The fire an entry of the trace belongs to. -/
def Ev.fid? : Ev → Option Nat
  | .fireBegin fid _ _ | .call fid _ _ | .ret fid _ _ | .fireEnd fid _ => some fid
  | _ => none

/-- `e2` is not a call of a listener that `e1` closed or collected. -/
def Ev.NoCallAfter (e1 e2 : Ev) : Prop :=
  ∀ t, (e1 = .closed t ∨ e1 = .collected t) → ∀ fid f, e2 ≠ .call fid t f

structure Inv (w : World) : Prop where
  weak_iff : ∀ t, t ∈ w.weak ↔ t < w.next ∧ w.alive t = true
  sorted : w.weak.Pairwise (· < ·)
  fresh : ∀ t, w.next ≤ t → w.fn t = none ∧ w.held t = false ∧ w.owner t = none ∧ w.pins t = 0
  closed_fn : ∀ t, Ev.closed t ∈ w.trace → w.fn t = none ∧ t < w.next
  collected_dead : ∀ t, Ev.collected t ∈ w.trace → w.alive t = false ∧ t < w.next
  no_call : w.trace.Pairwise Ev.NoCallAfter
  fid_lt : ∀ e ∈ w.trace, ∀ fid, e.fid? = some fid → fid < w.nextFire

/-- `w'` is reached from `w` by complete commands. -/
structure Ext (w w' : World) : Prop where
  next_le : w.next ≤ w'.next
  nextFire_le : w.nextFire ≤ w'.nextFire
  pins_eq : ∀ t, w'.pins t = w.pins t
  trace : ∃ evs, w'.trace = w.trace ++ evs ∧ (∀ e ∈ evs, ∀ fid, e.fid? = some fid → w.nextFire ≤ fid) ∧
    ∀ t, t < w.next → w'.fn t = w.fn t ∨ (w'.fn t = none ∧ Ev.closed t ∈ evs)

theorem Ext.refl (w : World) : Ext w w :=
  ⟨le_refl _, le_refl _, fun _ => rfl, [], by simp, by simp, fun _ _ => Or.inl rfl⟩

theorem Ext.trans {a b c : World} (h1 : Ext a b) (h2 : Ext b c) : Ext a c := by
  obtain ⟨e1, t1, f1, n1⟩ := h1.trace
  obtain ⟨e2, t2, f2, n2⟩ := h2.trace
  refine ⟨le_trans h1.next_le h2.next_le, le_trans h1.nextFire_le h2.nextFire_le,
    fun t => by rw [h2.pins_eq, h1.pins_eq], e1 ++ e2, by rw [t2, t1, List.append_assoc], ?_, ?_⟩
  · intro e he fid hf
    rcases List.mem_append.1 he with he | he
    · exact f1 e he fid hf
    · exact le_trans h1.nextFire_le (f2 e he fid hf)
  · intro t ht
    rcases n2 t (lt_of_lt_of_le ht h1.next_le) with h | ⟨h, hc⟩
    · rcases n1 t ht with h' | ⟨h', hc⟩
      · left; rw [h, h']
      · right; exact ⟨by rw [h, h'], by simp [hc]⟩
    · right; exact ⟨h, by simp [hc]⟩

theorem Inv.init : Inv World.init := by
  refine ⟨?_, ?_, ?_, ?_, ?_, ?_, ?_⟩ <;> simp [World.init]

theorem pairwise_append_noncall {l m : List Ev} (h : l.Pairwise Ev.NoCallAfter)
    (hm : ∀ e ∈ m, ∀ fid t f, e ≠ .call fid t f) : (l ++ m).Pairwise Ev.NoCallAfter := by
  rw [List.pairwise_append]
  refine ⟨h, ?_, ?_⟩
  · apply List.Pairwise.imp_of_mem (R := fun _ _ => True)
    · intro a b _ hb _ t _ fid f; exact hm b hb fid t f
    · exact List.pairwise_of_forall (fun _ _ => trivial)
  · intro a _ b hb t _ fid f; exact hm b hb fid t f

/-- `collect` after references were given up. -/
theorem collect_ok {w : World}
    (hw : ∀ t, t ∈ w.weak → t < w.next)
    (hw2 : ∀ t, t < w.next → w.alive t = true → t ∈ w.weak)
    (sorted : w.weak.Pairwise (· < ·))
    (fresh : ∀ t, w.next ≤ t → w.fn t = none ∧ w.held t = false ∧ w.owner t = none ∧ w.pins t = 0)
    (closed_fn : ∀ t, Ev.closed t ∈ w.trace → w.fn t = none ∧ t < w.next)
    (collected_dead : ∀ t, Ev.collected t ∈ w.trace → w.alive t = false ∧ t < w.next)
    (no_call : w.trace.Pairwise Ev.NoCallAfter)
    (fid_lt : ∀ e ∈ w.trace, ∀ fid, e.fid? = some fid → fid < w.nextFire) :
    Inv w.collect ∧ Ext w w.collect := by
  have halive : ∀ t, w.collect.alive t = w.alive t := fun _ => rfl
  constructor
  · refine ⟨?_, ?_, fresh, ?_, ?_, ?_, ?_⟩
    · intro t
      rw [halive]
      simp only [World.collect, List.mem_filter]
      constructor
      · rintro ⟨h1, h2⟩; exact ⟨hw t h1, h2⟩
      · rintro ⟨h1, h2⟩; exact ⟨hw2 t h1 h2, h2⟩
    · exact sorted.filter _
    · intro t ht
      simp only [World.collect, List.mem_append, List.mem_map] at ht
      rcases ht with ht | ⟨_, _, h⟩
      · exact closed_fn t ht
      · cases h
    · intro t ht
      rw [halive]
      simp only [World.collect, List.mem_append, List.mem_map, List.mem_filter] at ht
      rcases ht with ht | ⟨u, ⟨h1, h2⟩, h⟩
      · exact collected_dead t ht
      · cases h; exact ⟨by simpa using h2, hw _ h1⟩
    · refine pairwise_append_noncall no_call ?_
      intro e he fid t f
      obtain ⟨_, _, rfl⟩ := List.mem_map.1 he
      simp
    · intro e he fid hf
      simp only [World.collect, List.mem_append, List.mem_map] at he
      rcases he with he | ⟨_, _, rfl⟩
      · exact fid_lt e he fid hf
      · simp [Ev.fid?] at hf
  · refine ⟨le_refl _, le_refl _, fun _ => rfl, _, rfl, ?_, fun _ _ => Or.inl rfl⟩
    intro e he fid hf
    obtain ⟨_, _, rfl⟩ := List.mem_map.1 he
    simp [Ev.fid?] at hf

theorem doListen_ok {w : World} (h : Inv w) (fn owner truthy) :
    Inv (doListen w fn owner truthy) ∧ Ext w (doListen w fn owner truthy) := by
  have halive : ∀ t, t ≠ w.next → (doListen w fn owner truthy).alive t = w.alive t := by
    intro t ht
    simp only [World.alive, doListen, Function.update_of_ne ht]
    rfl
  have hnew : (doListen w fn owner truthy).alive w.next = true := by
    simp [World.alive, doListen]
  constructor
  · refine ⟨?_, ?_, ?_, ?_, ?_, ?_, ?_⟩
    · intro t
      by_cases ht : t = w.next
      · subst ht; rw [hnew]; simp [doListen]
      · rw [halive t ht]
        simp only [doListen, List.mem_append, List.mem_singleton, h.weak_iff]
        constructor
        · rintro (⟨h1, h2⟩ | h1)
          · exact ⟨by omega, h2⟩
          · exact absurd h1 ht
        · rintro ⟨h1, h2⟩; left; exact ⟨by omega, h2⟩
    · simp only [doListen]
      rw [List.pairwise_append]
      refine ⟨h.sorted, by simp, ?_⟩
      intro a ha b hb
      simp at hb; subst hb
      exact ((h.weak_iff a).1 ha).1
    · intro t ht
      have ht' : w.next + 1 ≤ t := ht
      have hne : t ≠ w.next := by omega
      obtain ⟨h1, h2, h3, h4⟩ := h.fresh t (by omega)
      simp [doListen, Function.update_of_ne hne, h1, h2, h3, h4]
    · intro t ht
      simp only [doListen, List.mem_append, List.mem_singleton, reduceCtorEq, or_false] at ht
      obtain ⟨h1, h2⟩ := h.closed_fn t ht
      have hne : t ≠ w.next := by omega
      exact ⟨by simp [doListen, Function.update_of_ne hne, h1], by simp [doListen]; omega⟩
    · intro t ht
      simp only [doListen, List.mem_append, List.mem_singleton, reduceCtorEq, or_false] at ht
      obtain ⟨h1, h2⟩ := h.collected_dead t ht
      have hne : t ≠ w.next := by omega
      exact ⟨by rw [halive t hne, h1], by simp [doListen]; omega⟩
    · refine pairwise_append_noncall h.no_call ?_
      intro e he fid t f
      simp at he; subst he; simp
    · intro e he fid hf
      simp only [doListen, List.mem_append, List.mem_singleton] at he
      rcases he with he | rfl
      · exact h.fid_lt e he fid hf
      · simp [Ev.fid?] at hf
  · refine ⟨by simp [doListen], le_refl _, fun _ => rfl, [.listen w.next], rfl, ?_, ?_⟩
    · intro e he fid hf
      simp at he; subst he; simp [Ev.fid?] at hf
    · intro t ht
      left
      have hne : t ≠ w.next := by omega
      simp [doListen, Function.update_of_ne hne]

theorem doClose_ok {w : World} (h : Inv w) (t : Tok) : Inv (doClose w t) ∧ Ext w (doClose w t) := by
  unfold doClose
  split
  · rename_i hlt
    constructor
    · refine ⟨h.weak_iff, h.sorted, ?_, ?_, ?_, ?_, ?_⟩
      · intro u hu
        obtain ⟨h1, h2⟩ := h.fresh u hu
        refine ⟨?_, h2⟩
        by_cases hut : u = t
        · subst hut; simp
        · simp [Function.update_of_ne hut, h1]
      · intro u hu
        simp only [List.mem_append, List.mem_singleton] at hu
        by_cases hut : u = t
        · subst hut; exact ⟨by simp, hlt⟩
        · rcases hu with hu | hu
          · obtain ⟨h1, h2⟩ := h.closed_fn u hu
            exact ⟨by simp [Function.update_of_ne hut, h1], h2⟩
          · cases hu; exact absurd rfl hut
      · intro u hu
        simp only [List.mem_append, List.mem_singleton, reduceCtorEq, or_false] at hu
        exact h.collected_dead u hu
      · refine pairwise_append_noncall h.no_call ?_
        intro e he fid t f
        simp at he; subst he; simp
      · intro e he fid hf
        simp only [List.mem_append, List.mem_singleton] at he
        rcases he with he | rfl
        · exact h.fid_lt e he fid hf
        · simp [Ev.fid?] at hf
    · refine ⟨le_refl _, le_refl _, fun _ => rfl, [.closed t], rfl, ?_, ?_⟩
      · intro e he fid hf
        simp at he; subst he; simp [Ev.fid?] at hf
      · intro u _
        by_cases hut : u = t
        · subst hut; right; simp
        · left; simp [Function.update_of_ne hut]
  · exact ⟨h, Ext.refl w⟩

theorem alive_drop_le (w : World) (t u : Tok) :
    World.alive { w with held := Function.update w.held t false } u = true → w.alive u = true := by
  simp only [World.alive]
  by_cases hut : u = t
  · subst hut; simp; tauto
  · simp [Function.update_of_ne hut]

theorem doDrop_ok {w : World} (h : Inv w) (t : Tok) : Inv (doDrop w t) ∧ Ext w (doDrop w t) := by
  have := collect_ok (w := { w with held := Function.update w.held t false })
    (fun u hu => ((h.weak_iff u).1 hu).1)
    (fun u hu ha => (h.weak_iff u).2 ⟨hu, alive_drop_le w t u ha⟩)
    h.sorted
    (fun u hu => by
      obtain ⟨h1, h2, h3⟩ := h.fresh u hu
      refine ⟨h1, ?_, h3⟩
      by_cases hut : u = t
      · subst hut; simp
      · simp [Function.update_of_ne hut, h2])
    h.closed_fn
    (fun u hu => by
      obtain ⟨h1, h2⟩ := h.collected_dead u hu
      refine ⟨?_, h2⟩
      by_contra hne
      have := alive_drop_le w t u (by simpa using hne)
      rw [this] at h1; cases h1)
    h.no_call h.fid_lt
  refine ⟨this.1, ?_⟩
  obtain ⟨a, b, c, evs, d, e, f⟩ := this.2
  exact ⟨a, b, c, evs, d, e, f⟩

/-- What `owner_gone` keeps while it runs over the tokens of the owner. -/
structure Mid (w0 w : World) : Prop where
  next_eq : w.next = w0.next
  nextFire_eq : w.nextFire = w0.nextFire
  weak_eq : w.weak = w0.weak
  held_eq : w.held = w0.held
  pins_eq : w.pins = w0.pins
  owner_le : ∀ t, w.owner t = w0.owner t ∨ w.owner t = none
  trace : ∃ evs, w.trace = w0.trace ++ evs ∧ (∀ e ∈ evs, ∃ t, t < w0.next ∧ e = .closed t ∧ w.fn t = none) ∧
    ∀ t, w.fn t = w0.fn t ∨ (w.fn t = none ∧ Ev.closed t ∈ evs)

theorem mid_one {w0 w : World} (h : Mid w0 w) (t : Tok) (ht : t < w0.next) : Mid w0 (ownerGoneOne w t) := by
  have hlt : t < w.next := by rw [h.next_eq]; exact ht
  obtain ⟨evs, h1, h2, h3⟩ := h.trace
  unfold ownerGoneOne doClose
  rw [if_pos hlt]
  refine ⟨h.next_eq, h.nextFire_eq, h.weak_eq, h.held_eq, h.pins_eq, ?_, evs ++ [.closed t], ?_, ?_, ?_⟩
  · intro u
    by_cases hut : u = t
    · subst hut; right; simp
    · simpa [Function.update_of_ne hut] using h.owner_le u
  · simp [h1]
  · intro e he
    rcases List.mem_append.1 he with he | he
    · obtain ⟨u, hu, rfl, hf⟩ := h2 e he
      refine ⟨u, hu, rfl, ?_⟩
      by_cases hut : u = t
      · subst hut; simp
      · simp [Function.update_of_ne hut, hf]
    · simp at he; subst he
      exact ⟨t, ht, rfl, by simp⟩
  · intro u
    by_cases hut : u = t
    · subst hut; right; simp
    · simp only [Function.update_of_ne hut]
      rcases h3 u with h | ⟨h, hc⟩
      · exact Or.inl h
      · exact Or.inr ⟨h, by simp [hc]⟩

theorem mid_fold {w0 : World} (l : List Tok) (hl : ∀ t ∈ l, t < w0.next) (w : World) (h : Mid w0 w) :
    Mid w0 (l.foldl ownerGoneOne w) := by
  induction l generalizing w with
  | nil => exact h
  | cons t l ih =>
    simp only [List.foldl_cons]
    exact ih (fun u hu => hl u (by simp [hu])) _ (mid_one h t (hl t (by simp)))

theorem mid_refl (w : World) : Mid w w :=
  ⟨rfl, rfl, rfl, rfl, rfl, fun _ => Or.inl rfl, [], by simp, by simp, fun _ => Or.inl rfl⟩

theorem mid_alive {w0 w : World} (h : Mid w0 w) (t : Tok) : w.alive t = true → w0.alive t = true := by
  simp only [World.alive, h.held_eq, h.pins_eq]
  rcases h.owner_le t with he | he
  · rw [he]; exact id
  · rw [he]; simp; tauto

theorem doOwnerGone_ok {w : World} (h : Inv w) (o : Owner) : Inv (doOwnerGone w o) ∧ Ext w (doOwnerGone w o) := by
  unfold doOwnerGone
  set l := (List.range w.next).filter (fun t => w.owner t = some o) with hl
  have hm : Mid w (l.foldl ownerGoneOne w) :=
    mid_fold l (fun t ht => by simp [hl] at ht; exact ht.1) w (mid_refl w)
  set m := l.foldl ownerGoneOne w with hmdef
  obtain ⟨evs, h1, h2, h3⟩ := hm.trace
  have := collect_ok (w := m)
    (fun u hu => by rw [hm.weak_eq] at hu; rw [hm.next_eq]; exact ((h.weak_iff u).1 hu).1)
    (fun u hu ha => by
      rw [hm.weak_eq]; rw [hm.next_eq] at hu
      exact (h.weak_iff u).2 ⟨hu, mid_alive hm u ha⟩)
    (by rw [hm.weak_eq]; exact h.sorted)
    (fun u hu => by
      rw [hm.next_eq] at hu
      obtain ⟨h1', h2', h3', h4'⟩ := h.fresh u hu
      refine ⟨?_, by rw [hm.held_eq]; exact h2', ?_, by rw [hm.pins_eq]; exact h4'⟩
      · rcases h3 u with he | he
        · rw [he, h1']
        · exact he.1
      · rcases hm.owner_le u with he | he
        · rw [he, h3']
        · exact he)
    (fun u hu => by
      rw [h1] at hu
      rw [hm.next_eq]
      rcases List.mem_append.1 hu with hu | hu
      · obtain ⟨a, b⟩ := h.closed_fn u hu
        refine ⟨?_, b⟩
        rcases h3 u with he | he
        · rw [he, a]
        · exact he.1
      · obtain ⟨v, hv, hev, hf⟩ := h2 _ hu
        cases hev
        exact ⟨hf, hv⟩)
    (fun u hu => by
      rw [h1] at hu
      rw [hm.next_eq]
      rcases List.mem_append.1 hu with hu | hu
      · obtain ⟨a, b⟩ := h.collected_dead u hu
        refine ⟨?_, b⟩
        by_contra hne
        have := mid_alive hm u (by simpa using hne)
        rw [this] at a; cases a
      · obtain ⟨v, hv, hev, hf⟩ := h2 _ hu
        cases hev)
    (by
      rw [h1]
      refine pairwise_append_noncall h.no_call ?_
      intro e he fid t f
      obtain ⟨v, _, rfl, _⟩ := h2 e he
      simp)
    (fun e he fid hf => by
      rw [h1] at he
      rw [hm.nextFire_eq]
      rcases List.mem_append.1 he with he | he
      · exact h.fid_lt e he fid hf
      · obtain ⟨v, _, rfl, _⟩ := h2 e he
        simp [Ev.fid?] at hf)
  refine ⟨this.1, Ext.trans ?_ this.2⟩
  refine ⟨by rw [hm.next_eq], by rw [hm.nextFire_eq], fun t => by rw [hm.pins_eq], evs, h1, ?_, fun t _ => h3 t⟩
  intro e he fid hf
  obtain ⟨v, _, rfl, _⟩ := h2 e he
  simp [Ev.fid?] at hf

/-- A way of firing that keeps the invariant. -/
def FireOK (fire : Kind → World → Option Bool × World) : Prop :=
  ∀ k w, Inv w → Inv (fire k w).2 ∧ Ext w (fire k w).2

/-- A way of calling listener functions that keeps the invariant. -/
def CallOK (call : Fn → World → Res × World) : Prop :=
  ∀ f w, Inv w → Inv (call f w).2 ∧ Ext w (call f w).2

theorem doCmd_ok {fire} (hf : FireOK fire) {w : World} (h : Inv w) (c : Cmd) :
    Inv (doCmd fire w c).2 ∧ Ext w (doCmd fire w c).2 := by
  cases c with
  | listen fn owner truthy => exact doListen_ok h fn owner truthy
  | close t => exact doClose_ok h t
  | drop t => exact doDrop_ok h t
  | ownerGone o => exact doOwnerGone_ok h o
  | fire k => exact hf k w h

theorem execProg_ok {fire} (hf : FireOK fire) (p : Prog) {w : World} (h : Inv w) :
    Inv (execProg fire p w).2 ∧ Ext w (execProg fire p w).2 := by
  induction p generalizing w with
  | done r => exact ⟨h, Ext.refl w⟩
  | act c k ih =>
    have h1 := doCmd_ok hf h c
    have h2 := ih (doCmd fire w c).1 h1.1
    exact ⟨h2.1, h1.2.trans h2.2⟩

/-- The turn of a listener: `none` if its function was already gone, else the function and how it ended. -/
abbrev Turn := Tok × Option (Fn × Res)

/-- Whether, and how, a turn ends the loop. -/
def stops (k : Kind) : Option (Fn × Res) → Option Outcome
  | none => if k = .all then some (.stopped false) else none
  | some (_, .raise _) => some .exception
  | some (_, .ret b) =>
    match k with
    | .fire => none
    | .any => if b then some (.stopped true) else none
    | .all => if b then none else some (.stopped false)

/-- What a turn leaves in the trace. -/
def turnEvents (fid : Nat) : Turn → List Ev
  | (_, none) => []
  | (t, some (f, r)) => [.call fid t f, .ret fid t r]

/-- The entries of the trace that belong to a fire. -/
def own (fid : Nat) (l : List Ev) : List Ev := l.filter (fun e => e.fid? = some fid)

theorem own_append (fid : Nat) (l m : List Ev) : own fid (l ++ m) = own fid l ++ own fid m := by
  simp [own]

theorem own_eq_nil {fid : Nat} {l : List Ev} (h : ∀ e ∈ l, e.fid? ≠ some fid) : own fid l = [] := by
  simp only [own, List.filter_eq_nil_iff, decide_eq_true_eq]
  exact h

/-- What the loop over a list of listeners does, seen from outside. -/
structure LoopSpec (k : Kind) (fid : Nat) (ts : List Tok) (w : World) (o : Outcome) (w' : World)
    (turns : List Turn) (evs : List Ev) : Prop where
  inv : Inv w'
  next_le : w.next ≤ w'.next
  nextFire_le : w.nextFire ≤ w'.nextFire
  pins_eq : ∀ t, w'.pins t = w.pins t
  trace : w'.trace = w.trace ++ evs
  evs_fid : ∀ e ∈ evs, ∀ i, e.fid? = some i → i = fid ∨ w.nextFire ≤ i
  own_evs : own fid evs = turns.flatMap (turnEvents fid)
  fn_mono : ∀ t, t < w.next → w'.fn t = w.fn t ∨ (w'.fn t = none ∧ Ev.closed t ∈ evs)
  void : ∀ t, (t, none) ∈ turns → w'.fn t = none
  called : ∀ t f r, (t, some (f, r)) ∈ turns → w.fn t = some f
  ends : (o = .finished ∧ turns.map Prod.fst = ts ∧ ∀ x ∈ turns, stops k x.2 = none) ∨
    (∃ init last rest, turns = init ++ [last] ∧ ts = turns.map Prod.fst ++ rest ∧
      (∀ x ∈ init, stops k x.2 = none) ∧ stops k last.2 = some o)

theorem log_call_inv {w : World} (h : Inv w) {fid : Nat} {t : Tok} {f : Fn} (hfid : fid < w.nextFire)
    (hfn : w.fn t = some f) (hal : w.alive t = true) : Inv (w.log (.call fid t f)) := by
  refine ⟨h.weak_iff, h.sorted, h.fresh, ?_, ?_, ?_, ?_⟩
  · intro u hu
    simp [World.log] at hu
    exact h.closed_fn u hu
  · intro u hu
    simp [World.log] at hu
    exact h.collected_dead u hu
  · simp only [World.log]
    rw [List.pairwise_append]
    refine ⟨h.no_call, by simp, ?_⟩
    intro a ha b hb u hau fid' f' hb'
    simp at hb
    subst hb
    cases hb'
    rcases hau with rfl | rfl
    · have := (h.closed_fn t ha).1; rw [hfn] at this; cases this
    · have := (h.collected_dead t ha).1; rw [hal] at this; cases this
  · intro e he i hi
    simp only [World.log, List.mem_append, List.mem_singleton] at he
    rcases he with he | rfl
    · exact h.fid_lt e he i hi
    · simp [Ev.fid?] at hi; subst hi; exact hfid

theorem log_ret_inv {w : World} (h : Inv w) {fid : Nat} {t : Tok} {r : Res} (hfid : fid < w.nextFire) :
    Inv (w.log (.ret fid t r)) := by
  refine ⟨h.weak_iff, h.sorted, h.fresh, ?_, ?_, ?_, ?_⟩
  · intro u hu
    simp [World.log] at hu
    exact h.closed_fn u hu
  · intro u hu
    simp [World.log] at hu
    exact h.collected_dead u hu
  · refine pairwise_append_noncall h.no_call ?_
    intro e he fid t f
    simp at he; subst he; simp
  · intro e he i hi
    simp only [World.log, List.mem_append, List.mem_singleton] at he
    rcases he with he | rfl
    · exact h.fid_lt e he i hi
    · simp [Ev.fid?] at hi; subst hi; exact hfid

theorem loop_spec {call} (hc : CallOK call) (k : Kind) (fid : Nat) (ts : List Tok) (w : World) (h : Inv w)
    (hfid : fid < w.nextFire) (hts : ∀ t ∈ ts, 0 < w.pins t ∧ t < w.next) :
    ∃ turns evs, LoopSpec k fid ts w (loop call k fid ts w).1 (loop call k fid ts w).2 turns evs := by
  induction ts generalizing w with
  | nil =>
    exact ⟨[], [], h, le_refl _, le_refl _, fun _ => rfl, by simp [loop], by simp, rfl, fun _ _ => Or.inl rfl,
      by simp, by simp, Or.inl ⟨rfl, rfl, by simp⟩⟩
  | cons t ts ih =>
    obtain ⟨hpt, hlt⟩ := hts t (by simp)
    cases hfn : w.fn t with
    | none =>
      by_cases hk : k = .all
      · have hl : loop call k fid (t :: ts) w = (.stopped false, w) := by
          rw [loop]; simp only [hfn]; rw [if_pos hk]
        rw [hl]
        exact ⟨[(t, none)], [], h, le_refl _, le_refl _, fun _ => rfl, by simp, by simp, rfl, fun _ _ => Or.inl rfl,
          by simpa using hfn, by simp,
          Or.inr ⟨[], (t, none), ts, rfl, rfl, by simp, by simp [stops, hk]⟩⟩
      · have hl : loop call k fid (t :: ts) w = loop call k fid ts w := by
          rw [loop]; simp only [hfn]; rw [if_neg hk]
        rw [hl]
        obtain ⟨turns, evs, s⟩ := ih w h hfid (fun u hu => hts u (by simp [hu]))
        refine ⟨(t, none) :: turns, evs, s.inv, s.next_le, s.nextFire_le, s.pins_eq, s.trace, s.evs_fid, ?_, s.fn_mono,
          ?_, ?_, ?_⟩
        · simp [turnEvents, s.own_evs]
        · intro u hu
          rcases List.mem_cons.1 hu with hu | hu
          · cases hu
            rcases s.fn_mono t hlt with he | he
            · rw [he, hfn]
            · exact he.1
          · exact s.void u hu
        · intro u f r hu
          rcases List.mem_cons.1 hu with hu | hu
          · cases hu
          · exact s.called u f r hu
        · rcases s.ends with ⟨h1, h2, h3⟩ | ⟨init, last, rest, h1, h2, h3, h4⟩
          · left
            refine ⟨h1, by simp [h2], ?_⟩
            intro x hx
            rcases List.mem_cons.1 hx with rfl | hx
            · simp [stops, hk]
            · exact h3 x hx
          · right
            refine ⟨(t, none) :: init, last, rest, by simp [h1], by simp [h2], ?_, h4⟩
            intro x hx
            rcases List.mem_cons.1 hx with rfl | hx
            · simp [stops, hk]
            · exact h3 x hx
    | some f =>
      have hal : w.alive t = true := by simp [World.alive, hpt]
      have h1 := log_call_inv h hfid hfn hal
      obtain ⟨h2, e2⟩ := hc f (w.log (.call fid t f)) h1
      generalize hcr : call f (w.log (.call fid t f)) = cr at h2 e2
      obtain ⟨r, w1⟩ := cr
      simp only at h2 e2
      have hfid1 : fid < w1.nextFire := lt_of_lt_of_le hfid e2.nextFire_le
      have h3 := log_ret_inv h2 (t := t) (r := r) hfid1
      obtain ⟨evs1, t1, f1, n1⟩ := e2.trace
      have n1' : ∀ u, u < w.next → w1.fn u = w.fn u ∨ (w1.fn u = none ∧ Ev.closed u ∈ evs1) := n1
      have f1' : ∀ e ∈ evs1, ∀ i, e.fid? = some i → w.nextFire ≤ i := f1
      have hown1 : own fid evs1 = [] := own_eq_nil (fun e he hh => by have := f1' e he fid hh; omega)
      -- the trace after this turn
      have htr : (w1.log (.ret fid t r)).trace = w.trace ++ ([.call fid t f] ++ evs1 ++ [.ret fid t r]) := by
        simp [World.log, t1]
      have hownT : own fid ([.call fid t f] ++ evs1 ++ [.ret fid t r]) = turnEvents fid (t, some (f, r)) := by
        rw [own_append, own_append, hown1]; simp [own, Ev.fid?, turnEvents]
      have hevsT : ∀ e ∈ ([.call fid t f] ++ evs1 ++ [.ret fid t r] : List Ev), ∀ i, e.fid? = some i →
          i = fid ∨ w.nextFire ≤ i := by
        intro e he i hi
        simp only [List.mem_append, List.mem_singleton] at he
        rcases he with (rfl | he) | rfl
        · left; simpa [Ev.fid?] using hi.symm
        · right; exact f1' e he i hi
        · left; simpa [Ev.fid?] using hi.symm
      -- the loop ends here
      have stop : ∀ o, stops k (some (f, r)) = some o →
          loop call k fid (t :: ts) w = (o, w1.log (.ret fid t r)) →
          ∃ turns evs, LoopSpec k fid (t :: ts) w (loop call k fid (t :: ts) w).1 (loop call k fid (t :: ts) w).2
            turns evs := by
        intro o hs hl
        rw [hl]
        refine ⟨[(t, some (f, r))], _, h3, e2.next_le, e2.nextFire_le, e2.pins_eq, htr, hevsT, by simpa using hownT,
          ?_, by simp, ?_, Or.inr ⟨[], (t, some (f, r)), ts, rfl, rfl, by simp, hs⟩⟩
        · intro u hu
          rcases n1' u hu with he | ⟨he, hcl⟩
          · exact Or.inl he
          · exact Or.inr ⟨he, by simp [hcl]⟩
        · intro u f' r' hu
          simp at hu
          obtain ⟨rfl, rfl, rfl⟩ := hu
          exact hfn
      -- the loop goes on
      have cont : stops k (some (f, r)) = none →
          loop call k fid (t :: ts) w = loop call k fid ts (w1.log (.ret fid t r)) →
          ∃ turns evs, LoopSpec k fid (t :: ts) w (loop call k fid (t :: ts) w).1 (loop call k fid (t :: ts) w).2
            turns evs := by
        intro hs hl
        rw [hl]
        have hpins : ∀ u, (w1.log (.ret fid t r)).pins u = w.pins u := e2.pins_eq
        have hnext : w.next ≤ (w1.log (.ret fid t r)).next := e2.next_le
        have hnf : w.nextFire ≤ (w1.log (.ret fid t r)).nextFire := e2.nextFire_le
        obtain ⟨turns, evs, s⟩ := ih (w1.log (.ret fid t r)) h3 hfid1
          (fun u hu => ⟨by rw [hpins]; exact (hts u (by simp [hu])).1, lt_of_lt_of_le (hts u (by simp [hu])).2 hnext⟩)
        have hmono : ∀ u, u < w.next → (loop call k fid ts (w1.log (.ret fid t r))).2.fn u = w.fn u ∨
            ((loop call k fid ts (w1.log (.ret fid t r))).2.fn u = none ∧
              Ev.closed u ∈ ([.call fid t f] ++ evs1 ++ [.ret fid t r]) ++ evs) := by
          intro u hu
          rcases s.fn_mono u (lt_of_lt_of_le hu hnext) with he | ⟨he, hcl⟩
          · rcases n1' u hu with he' | ⟨he', hcl⟩
            · left; rw [he]; exact he'
            · right; exact ⟨by rw [he]; exact he', by simp [hcl]⟩
          · right; exact ⟨he, by simp [hcl]⟩
        refine ⟨(t, some (f, r)) :: turns, ([.call fid t f] ++ evs1 ++ [.ret fid t r]) ++ evs, s.inv,
          le_trans hnext s.next_le, le_trans hnf s.nextFire_le, fun u => by rw [s.pins_eq, hpins],
          by rw [s.trace, htr, List.append_assoc], ?_, ?_, hmono, ?_, ?_, ?_⟩
        · intro e he i hi
          rcases List.mem_append.1 he with he | he
          · exact hevsT e he i hi
          · rcases s.evs_fid e he i hi with h' | h'
            · exact Or.inl h'
            · exact Or.inr (le_trans hnf h')
        · rw [own_append, hownT, s.own_evs]; rfl
        · intro u hu
          rcases List.mem_cons.1 hu with hu | hu
          · cases hu
          · exact s.void u hu
        · intro u f' r' hu
          rcases List.mem_cons.1 hu with hu | hu
          · cases hu; exact hfn
          · have hcal := s.called u f' r' hu
            have hu' : u < w.next := by
              have hmem : u ∈ ts := by
                have : u ∈ turns.map Prod.fst := List.mem_map.2 ⟨_, hu, rfl⟩
                rcases s.ends with ⟨_, h2, _⟩ | ⟨_, _, rest, _, h2, _, _⟩
                · rw [← h2]; exact this
                · rw [h2]; exact List.mem_append_left _ this
              exact (hts u (by simp [hmem])).2
            rcases n1' u hu' with he | ⟨he, _⟩
            · rw [← he]; exact hcal
            · have : w1.fn u = some f' := hcal
              rw [he] at this; cases this
        · rcases s.ends with ⟨g1, g2, g3⟩ | ⟨init, last, rest, g1, g2, g3, g4⟩
          · left
            refine ⟨g1, by simp [g2], ?_⟩
            intro x hx
            rcases List.mem_cons.1 hx with rfl | hx
            · exact hs
            · exact g3 x hx
          · right
            refine ⟨(t, some (f, r)) :: init, last, rest, by simp [g1], by simp [g2], ?_, g4⟩
            intro x hx
            rcases List.mem_cons.1 hx with rfl | hx
            · exact hs
            · exact g3 x hx
      cases r with
      | raise e =>
        exact stop .exception rfl (by rw [loop]; simp only [hfn, hcr])
      | ret b =>
        cases k with
        | fire => exact cont rfl (by rw [loop]; simp only [hfn, hcr])
        | any =>
          cases b with
          | true => exact stop (.stopped true) rfl (by rw [loop]; simp [hfn, hcr])
          | false => exact cont rfl (by rw [loop]; simp [hfn, hcr])
        | all =>
          cases b with
          | true => exact cont rfl (by rw [loop]; simp [hfn, hcr])
          | false => exact stop (.stopped false) rfl (by rw [loop]; simp [hfn, hcr])

/-- The world in which the loop starts (snapshot taken). -/
def begin (k : Kind) (w : World) : World :=
  { w with
    nextFire := w.nextFire + 1
    pins := fun t => w.pins t + (if t ∈ w.weak then 1 else 0)
    trace := w.trace ++ [.fireBegin w.nextFire k w.weak] }

theorem begin_inv (k : Kind) {w : World} (h : Inv w) : Inv (begin k w) := by
  have halive : ∀ t, (begin k w).alive t = w.alive t := by
    intro t
    by_cases ht : t ∈ w.weak
    · have := ((h.weak_iff t).1 ht).2
      rw [this]; simp [World.alive, begin, ht]
    · simp [World.alive, begin, ht]
  refine ⟨?_, h.sorted, ?_, ?_, ?_, ?_, ?_⟩
  · intro t; rw [halive]; exact h.weak_iff t
  · intro t ht
    obtain ⟨h1, h2, h3, h4⟩ := h.fresh t ht
    refine ⟨h1, h2, h3, ?_⟩
    have ht' : w.next ≤ t := ht
    have : t ∉ w.weak := fun hh => by have := ((h.weak_iff t).1 hh).1; omega
    simp [begin, this, h4]
  · intro t ht
    simp [begin] at ht
    exact h.closed_fn t ht
  · intro t ht
    rw [halive]
    simp [begin] at ht
    exact h.collected_dead t ht
  · refine pairwise_append_noncall h.no_call ?_
    intro e he fid t f
    simp at he; subst he; simp
  · intro e he i hi
    simp only [begin, List.mem_append, List.mem_singleton] at he ⊢
    rcases he with he | rfl
    · have := h.fid_lt e he i hi; omega
    · simp [Ev.fid?] at hi; omega

/-- What firing does, seen from outside: `turns` are the turns of the listeners in the snapshot `w.weak`. -/
structure FireSpec (k : Kind) (w : World) (v : Option Bool) (w' : World) (turns : List Turn) (evs : List Ev) : Prop where
  inv : Inv w'
  ext : Ext w w'
  trace : w'.trace = w.trace ++ evs
  own_evs : own w.nextFire evs =
    .fireBegin w.nextFire k w.weak :: turns.flatMap (turnEvents w.nextFire) ++ [.fireEnd w.nextFire v]
  fn_mono : ∀ t, t < w.next → w'.fn t = w.fn t ∨ (w'.fn t = none ∧ Ev.closed t ∈ evs)
  void : ∀ t, (t, none) ∈ turns → w'.fn t = none
  called : ∀ t f r, (t, some (f, r)) ∈ turns → w.fn t = some f
  ends : (turns.map Prod.fst = w.weak ∧ (∀ x ∈ turns, stops k x.2 = none) ∧ v = Outcome.finished.value k) ∨
    (∃ init last rest o, turns = init ++ [last] ∧ w.weak = turns.map Prod.fst ++ rest ∧
      (∀ x ∈ init, stops k x.2 = none) ∧ stops k last.2 = some o ∧ v = o.value k)

theorem fireWith_spec {call} (hc : CallOK call) (k : Kind) {w : World} (h : Inv w) (hne : w.weak ≠ []) :
    ∃ turns evs, FireSpec k w (fireWith call k w).1 (fireWith call k w).2 turns evs := by
  have hb := begin_inv k h
  obtain ⟨turns, evs, s⟩ := loop_spec hc k w.nextFire w.weak (begin k w) hb (by simp [begin]) (by
    intro t ht
    refine ⟨by simp [begin, ht], ((h.weak_iff t).1 ht).1⟩)
  set r := loop call k w.nextFire w.weak (begin k w) with hr
  set w2 : World :=
    { r.2 with
      pins := fun t => r.2.pins t - (if t ∈ w.weak then 1 else 0)
      trace := r.2.trace ++ [.fireEnd w.nextFire (r.1.value k)] } with hw2
  have hfw : fireWith call k w = (r.1.value k, w2.collect) := by
    unfold fireWith; rw [if_neg hne]; rfl
  have hpins : ∀ t, w2.pins t = w.pins t := by
    intro t
    have := s.pins_eq t
    simp only [hw2, this, begin]
    split <;> omega
  have halive2 : ∀ t, w2.alive t = true → r.2.alive t = true := by
    intro t
    simp only [World.alive, hw2]
    have := s.pins_eq t
    simp only [Bool.or_eq_true, decide_eq_true_eq]
    rintro ((h | h) | h)
    · exact Or.inl (Or.inl h)
    · exact Or.inl (Or.inr h)
    · right; omega
  have hnf : w.nextFire < r.2.nextFire := lt_of_lt_of_le (by simp [begin]) s.nextFire_le
  have hcol := collect_ok (w := w2)
    (fun u hu => ((s.inv.weak_iff u).1 hu).1)
    (fun u hu ha => (s.inv.weak_iff u).2 ⟨hu, halive2 u ha⟩)
    s.inv.sorted
    (fun u hu => by
      obtain ⟨a, b, c, d⟩ := s.inv.fresh u hu
      refine ⟨a, b, c, ?_⟩
      simp only [hw2, d]; omega)
    (fun u hu => by
      simp [hw2] at hu
      exact s.inv.closed_fn u hu)
    (fun u hu => by
      simp [hw2] at hu
      obtain ⟨a, b⟩ := s.inv.collected_dead u hu
      refine ⟨?_, b⟩
      by_contra hno
      have := halive2 u (by simpa using hno)
      rw [this] at a; cases a)
    (pairwise_append_noncall s.inv.no_call (by
      intro e he fid t f
      simp at he; subst he; simp))
    (fun e he i hi => by
      simp only [hw2, List.mem_append, List.mem_singleton] at he
      rcases he with he | rfl
      · exact s.inv.fid_lt e he i hi
      · simp [Ev.fid?] at hi; subst hi; exact hnf)
  obtain ⟨cevs, hct, hcf, hcn⟩ := hcol.2.trace
  have htrace : w2.collect.trace =
      w.trace ++ ([.fireBegin w.nextFire k w.weak] ++ evs ++ [.fireEnd w.nextFire (r.1.value k)] ++ cevs) := by
    rw [hct]
    simp [hw2, s.trace, begin]
  have hmono : ∀ t, t < w.next → w2.collect.fn t = w.fn t ∨ (w2.collect.fn t = none ∧
      Ev.closed t ∈ [.fireBegin w.nextFire k w.weak] ++ evs ++ [.fireEnd w.nextFire (r.1.value k)] ++ cevs) := by
    intro t ht
    rcases s.fn_mono t ht with he | ⟨he, hcl⟩
    · exact Or.inl he
    · exact Or.inr ⟨he, by simp [hcl]⟩
  rw [hfw]
  refine ⟨turns, _, hcol.1, ?_, htrace, ?_, hmono, s.void, s.called, ?_⟩
  · refine ⟨le_trans s.next_le hcol.2.next_le, by
        have := hcol.2.nextFire_le
        have h' : w2.nextFire = r.2.nextFire := rfl
        show w.nextFire ≤ w2.collect.nextFire
        omega, fun t => by rw [hcol.2.pins_eq, hpins], _, htrace, ?_, hmono⟩
    intro e he i hi
    simp only [List.mem_append, List.mem_singleton] at he
    rcases he with ((rfl | he) | rfl) | he
    · simp [Ev.fid?] at hi; omega
    · have := s.evs_fid e he i hi
      have h' : (begin k w).nextFire = w.nextFire + 1 := rfl
      omega
    · simp [Ev.fid?] at hi; omega
    · have := hcf e he i hi
      have h' : w2.nextFire = r.2.nextFire := rfl
      omega
  · rw [own_append, own_append, own_append, s.own_evs,
      own_eq_nil (l := cevs) (fun e he hh => by
        have := hcf e he _ hh
        have h' : w2.nextFire = r.2.nextFire := rfl
        omega)]
    simp [own, Ev.fid?]
  · rcases s.ends with ⟨a, b, c⟩ | ⟨init, last, rest, a, b, c, d⟩
    · left; exact ⟨b, c, by rw [a]⟩
    · right; exact ⟨init, last, rest, r.1, a, b, c, d, rfl⟩

theorem fireWith_ok {call} (hc : CallOK call) : FireOK (fireWith call) := by
  intro k w h
  by_cases hne : w.weak = []
  · have : fireWith call k w = (none, w) := by unfold fireWith; rw [if_pos hne]
    rw [this]; exact ⟨h, Ext.refl w⟩
  · obtain ⟨turns, evs, s⟩ := fireWith_spec hc k h hne
    exact ⟨s.inv, s.ext⟩

theorem callFn_ok (beh : Fn → World → Prog) (depth : Nat) : CallOK (callFn beh depth) := by
  induction depth with
  | zero => intro f w h; exact ⟨h, Ext.refl w⟩
  | succ n ih => intro f w h; exact execProg_ok (fireWith_ok ih) (beh f w) h

theorem fireEvent_ok (beh : Fn → World → Prog) (depth : Nat) : FireOK (fireEvent beh depth) :=
  fireWith_ok (callFn_ok beh depth)

theorem runClient_inv (beh : Fn → World → Prog) (depth : Nat) (p : Prog) : Inv (runClient beh depth p).2 :=
  (execProg_ok (fireEvent_ok beh depth) p Inv.init).1

end Verif.Event
