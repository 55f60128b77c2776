import Verif.Py.Basic
import Mathlib.Tactic.SplitIfs

set_option linter.unusedSectionVars false
set_option linter.unusedSimpArgs false

/-!
C186: structured models (`nion/utils/StructuredModel.py:90-118`, 120-160, 236-309, with `nion/utils/ListModel.py:35-45`,
`nion/utils/Model.py:43-56` and `Event.fire`, `nion/utils/Event.py:103-114`) whose listeners change them while they are told: they assign
fields, insert into and remove from arrays of plain values, in any way that depends on the whole state, and raise.

The models are numbered by `N`. Which models are in which is given by the relays among the listeners: a record listens to the events of its
field models when it is built (lines 154-157), an array to the models it is built with (lines 253-258), and these listeners fire its own
events. Relays may be anywhere among the listeners of users and lead anywhere; arrays of models do not change. `none` is a recursion that
does not end within the fuel.
-/

namespace Verif.Structured.Reent

/-- Events of the model `n`: `property_changed_event`, `field_value_changed_event`, `model_changed_event`, `on_value_changed`,
`item_inserted_event`, `array_item_inserted_event`, `item_removed_event`, `array_item_removed_event`. -/
inductive Ev (N α : Type) where
  | property (n : N)
  | value (n : N)
  | changed (n : N)
  | hook (n : N)
  | inserted (n : N) (v : α) (i : Int)
  | arrayInserted (n : N) (v : α) (i : Int)
  | removed (n : N) (v : α) (i : Int)
  | arrayRemoved (n : N) (v : α) (i : Int)
deriving DecidableEq

/-- What users and listeners do: assign a field model, insert into an array, remove from it; fire an event. -/
inductive Act (N α : Type) where
  | assign (n : N) (v : α)
  | insert (n : N) (i : Int) (v : α)
  | remove (n : N) (i : Int)
  | fire (e : Ev N α)

/-- Listeners of an event: functions of users, and listeners of other models, which fire their events. -/
inductive Listener (ι N α : Type) where
  | user (i : ι)
  | relay (e : Ev N α)
deriving DecidableEq

/-- The values of the field models, the items of the arrays, how many entries `__model_changed_listeners` has, the memory of the listeners.
The other fields are not in the code: how many insertions into an array are between the insertion and the entry, what each listener found
in each model when it was told last, the listeners that have raised, and the changes in the order in which they were made. -/
structure St (ι N α M : Type) where
  val : N → α
  arr : N → List α
  entries : N → ℕ
  mem : M
  pend : N → ℕ
  copy : ι → N → α × List α
  bad : ι → Bool
  log : List (Act N α)

variable {ι N α M : Type} [DecidableEq ι] [DecidableEq N] [DecidableEq α]

def St.contents (s : St ι N α M) (n : N) : α × List α := (s.val n, s.arr n)

/-- What a listener does when it is told: memory, acts in order, whether it raises then. -/
structure Reaction (N α M : Type) where
  mem : M
  acts : List (Act N α)
  raises : Bool

/-- The listeners of each event in order, what they do, and the functions assigned to `on_value_changed`. -/
structure Users (ι N α M : Type) where
  ls : Ev N α → List (Listener ι N α)
  react : ι → Ev N α → St ι N α M → Reaction N α M
  hook : N → Option ι

abbrev Exec (ι N α M : Type) := Act N α → St ι N α M → Option (St ι N α M × Bool)

def update {β : Type} (f : N → β) (n : N) (b : β) : N → β := fun m => if m = n then b else f m

/-- Acts one after the other, up to an exception. -/
def acts (ex : Exec ι N α M) : List (Act N α) → St ι N α M → Option (St ι N α M × Bool)
  | [], s => some (s, false)
  | a :: as, s => (ex a s).bind fun r => if r.2 then some r else acts ex as r.1

/-- A listener is called and looks at the models. -/
def look (i : ι) (m : M) (s : St ι N α M) : St ι N α M :=
  { s with mem := m, copy := fun j => if j = i then s.contents else s.copy j }

def note (i : ι) (raised : Bool) (s : St ι N α M) : St ι N α M := { s with bad := fun j => s.bad j || (raised && (j = i : Bool)) }

/-- A listener is told; the Boolean says whether it raised. -/
def tell (u : Users ι N α M) (ex : Exec ι N α M) (e : Ev N α) (i : ι) (s : St ι N α M) : Option (St ι N α M × Bool) :=
  (acts ex (u.react i e s).acts (look i (u.react i e s).mem s)).map fun r =>
    (note i (r.2 || (u.react i e s).raises) r.1, r.2 || (u.react i e s).raises)

/-- `Event.fire`: the first exception ends it. -/
def fireL (u : Users ι N α M) (ex : Exec ι N α M) (e : Ev N α) : List (Listener ι N α) → St ι N α M → Option (St ι N α M)
  | [], s => some s
  | .user i :: l, s => (tell u ex e i s).bind fun r => if r.2 then some r.1 else fireL u ex e l r.1
  | .relay e' :: l, s => (ex (.fire e') s).bind fun r => fireL u ex e l r.1

def fire (u : Users ι N α M) (ex : Exec ι N α M) (e : Ev N α) (s : St ι N α M) : Option (St ι N α M) := fireL u ex e (u.ls e) s

/-- StructuredModel.py:115-118 `notify_property_changed` with Model.py:43-56: `on_value_changed` comes last, its exceptions are not
caught. -/
def assign (u : Users ι N α M) (ex : Exec ι N α M) (n : N) (v : α) (s : St ι N α M) : Option (St ι N α M × Bool) :=
  if v = s.val n then some (s, false)
  else
    (fire u ex (.property n) { s with val := update s.val n v, log := s.log ++ [.assign n v] }).bind fun s =>
    (fire u ex (.value n) s).bind fun s =>
    (fire u ex (.changed n) s).bind fun s =>
    match u.hook n with
    | some i => tell u ex (.hook n) i s
    | none => some (s, false)

/-- ListModel.py:35-37 with StructuredModel.py:293-301: the entry is made after the first two events. -/
def insert (u : Users ι N α M) (ex : Exec ι N α M) (n : N) (i : Int) (v : α) (s : St ι N α M) : Option (St ι N α M × Bool) :=
  (fire u ex (.inserted n v i) { s with
      arr := update s.arr n (Py.insert (s.arr n) i v), pend := update s.pend n (s.pend n + 1), log := s.log ++ [.insert n i v] }).bind fun s =>
  (fire u ex (.arrayInserted n v i) s).bind fun s =>
  (fire u ex (.changed n) { s with
      entries := update s.entries n (s.entries n + 1), pend := update s.pend n (s.pend n - 1) }).map fun s => (s, false)

/-- ListModel.py:39-42 with StructuredModel.py:303-309: `pop` may raise. -/
def remove (u : Users ι N α M) (ex : Exec ι N α M) (n : N) (i : Int) (s : St ι N α M) : Option (St ι N α M × Bool) :=
  match Py.get? (s.arr n) i, Py.del? (s.arr n) i with
  | some v, some l =>
    (fire u ex (.removed n v i) { s with arr := update s.arr n l, log := s.log ++ [.remove n i] }).bind fun s =>
    if (Py.index? (s.entries n) i).isSome then
      (fire u ex (.arrayRemoved n v i) { s with entries := update s.entries n (s.entries n - 1) }).bind fun s =>
      (fire u ex (.changed n) s).map fun s => (s, false)
    else some (s, true)
  | _, _ => some (s, true)

def body (u : Users ι N α M) (ex : Exec ι N α M) : Exec ι N α M
  | .assign n v, s => assign u ex n v s
  | .insert n i v, s => insert u ex n i v s
  | .remove n i, s => remove u ex n i s
  | .fire e, s => (fire u ex e s).map fun s => (s, false)

def exec (u : Users ι N α M) : ℕ → Exec ι N α M
  | 0 => fun _ _ => none
  | n + 1 => body u (exec u n)

/-- What users do, one thing after the other; they go on after exceptions. -/
def run (u : Users ι N α M) (fuel : ℕ) : List (Act N α) → St ι N α M → Option (St ι N α M)
  | [], s => some s
  | a :: as, s => (exec u fuel a s).bind fun r => run u fuel as r.1

/-! ### What the claim is about -/

/-- The listener `i` hears of `e`, by itself or by relays, and no listener before it on the way is one of those that raised. -/
inductive Hears (ls : Ev N α → List (Listener ι N α)) (bad : ι → Bool) : Ev N α → ι → Prop
  | user {e : Ev N α} {i : ι} {l r : List (Listener ι N α)} :
      ls e = l ++ .user i :: r → (∀ j : ι, .user j ∈ l → bad j = false) → Hears ls bad e i
  | relay {e e' : Ev N α} {i : ι} {l r : List (Listener ι N α)} :
      ls e = l ++ .relay e' :: r → (∀ j : ι, .user j ∈ l → bad j = false) → Hears ls bad e' i → Hears ls bad e i

/-- Changes replayed one after the other. -/
def replay : List (Act N α) → (N → α × List α) → N → α × List α
  | [], c => c
  | .assign n v :: as, c => replay as (update c n (v, (c n).2))
  | .insert n i v :: as, c => replay as (update c n ((c n).1, Py.insert (c n).2 i v))
  | .remove n i :: as, c => replay as (update c n ((c n).1, (Py.del? (c n).2 i).getD (c n).2))
  | .fire _ :: as, c => replay as c

/-- How many of the changes are removals from `n`. -/
def removals (n : N) : List (Act N α) → ℕ
  | [] => 0
  | .remove m _ :: as => (if m = n then 1 else 0) + removals n as
  | .assign _ _ :: as | .insert _ _ _ :: as | .fire _ :: as => removals n as

/-- No insertion is going on, and there is an entry for each item. -/
structure Rest (s : St ι N α M) : Prop where
  pend : ∀ n : N, s.pend n = 0
  entries : ∀ n : N, (s.arr n).length ≤ s.entries n

/-! ### Proofs -/

theorem Hears.mono {ls : Ev N α → List (Listener ι N α)} {b b' : ι → Bool} (h : ∀ i : ι, b i = true → b' i = true) {e : Ev N α} {i : ι}
    (hh : Hears ls b' e i) : Hears ls b e i := by
  have h' : ∀ j : ι, b' j = false → b j = false := fun j hj => by
    cases hb : b j with
    | false => rfl
    | true => rw [h j hb] at hj; exact absurd hj (by simp)
  induction hh with
  | user h1 h2 => exact .user h1 fun j hj => h' j (h2 j hj)
  | relay h1 h2 _ ih => exact .relay h1 (fun j hj => h' j (h2 j hj)) ih

/-- The condition on one model, from `s` to `t`. -/
structure At (u : Users ι N α M) (n : N) (s t : St ι N α M) : Prop where
  pend : t.pend n = s.pend n
  count : s.entries n + removals n s.log ≤ t.entries n + removals n t.log
  slack : s.entries n + (t.arr n).length ≤ t.entries n + (s.arr n).length
  fresh : ∀ i : ι, s.pend n = 0 → Hears u.ls t.bad (.changed n) i → t.copy i n = t.contents n ∨
    (t.copy i n = s.copy i n ∧ t.contents n = s.contents n ∧ s.entries n ≤ t.entries n)

structure Base (s t : St ι N α M) : Prop where
  bad : ∀ i : ι, s.bad i = true → t.bad i = true
  log : ∃ l : List (Act N α), t.log = s.log ++ l ∧ t.contents = replay l s.contents

structure Eff (u : Users ι N α M) (s t : St ι N α M) : Prop where
  base : Base s t
  at' : ∀ n : N, At u n s t

/-- As `Eff`, nothing said of one model. -/
structure EffX (u : Users ι N α M) (n : N) (s t : St ι N α M) : Prop where
  base : Base s t
  at' : ∀ m : N, m ≠ n → At u m s t

theorem replay_append (l l' : List (Act N α)) (c : N → α × List α) : replay (l ++ l') c = replay l' (replay l c) := by
  induction l generalizing c with
  | nil => rfl
  | cons a l ih => cases a <;> exact ih _

theorem removals_append (n : N) (l l' : List (Act N α)) : removals n (l ++ l') = removals n l + removals n l' := by
  induction l with
  | nil => simp [removals]
  | cons a l ih => cases a <;> simp only [List.cons_append, removals, ih]; omega

theorem Base.refl (s : St ι N α M) : Base s s := ⟨fun _ h => h, [], by simp, rfl⟩

theorem Base.trans {s t w : St ι N α M} (h : Base s t) (h' : Base t w) : Base s w := by
  obtain ⟨l, hl, hc⟩ := h.log
  obtain ⟨l', hl', hc'⟩ := h'.log
  exact ⟨fun i hi => h'.bad i (h.bad i hi), l ++ l', by rw [hl', hl, List.append_assoc], by rw [hc', hc, replay_append]⟩

theorem At.refl (u : Users ι N α M) (n : N) (s : St ι N α M) : At u n s s := ⟨rfl, le_refl _, le_refl _, fun _ _ _ => .inr ⟨rfl, rfl, le_refl _⟩⟩

theorem At.trans {u : Users ι N α M} {n : N} {s t w : St ι N α M} (hb : Base t w) (h : At u n s t) (h' : At u n t w) : At u n s w := by
  refine ⟨h'.pend.trans h.pend, le_trans h.count h'.count, ?_, fun i hp hh => ?_⟩
  · have := h.slack; have := h'.slack; omega
  · rcases h'.fresh i (h.pend.trans hp) hh with h1 | ⟨h1, h2, h3⟩
    · exact .inl h1
    · rcases h.fresh i hp (hh.mono hb.bad) with h4 | ⟨h4, h5, h6⟩
      · exact .inl (by rw [h1, h2, h4])
      · exact .inr ⟨h1.trans h4, h2.trans h5, le_trans h6 h3⟩

theorem Eff.refl (u : Users ι N α M) (s : St ι N α M) : Eff u s s := ⟨.refl s, fun n => .refl u n s⟩
theorem Eff.trans {u : Users ι N α M} {s t w : St ι N α M} (h : Eff u s t) (h' : Eff u t w) : Eff u s w :=
  ⟨h.base.trans h'.base, fun n => (h.at' n).trans h'.base (h'.at' n)⟩
theorem Eff.x {u : Users ι N α M} {s t : St ι N α M} (h : Eff u s t) (n : N) : EffX u n s t := ⟨h.base, fun m _ => h.at' m⟩
theorem EffX.trans {u : Users ι N α M} {n : N} {s t w : St ι N α M} (h : EffX u n s t) (h' : EffX u n t w) : EffX u n s w :=
  ⟨h.base.trans h'.base, fun m hm => (h.at' m hm).trans h'.base (h'.at' m hm)⟩
theorem EffX.eff {u : Users ι N α M} {n : N} {s t : St ι N α M} (h : EffX u n s t) (h' : At u n s t) : Eff u s t :=
  ⟨h.base, fun m => if hm : m = n then hm ▸ h' else h.at' m hm⟩

/-- The listener has the contents of all models it hears of. -/
def Fresh (u : Users ι N α M) (s : St ι N α M) (i : ι) : Prop :=
  ∀ n : N, s.pend n = 0 → Hears u.ls s.bad (.changed n) i → s.copy i n = s.contents n

theorem Fresh.eff {u : Users ι N α M} {s t : St ι N α M} {i : ι} (hf : Fresh u s i) (h : Eff u s t) : Fresh u t i := by
  intro n hp hh
  have hp' : s.pend n = 0 := by rw [← (h.at' n).pend]; exact hp
  rcases (h.at' n).fresh i hp' hh with h1 | ⟨h1, h2, _⟩
  · exact h1
  · rw [h1, h2]; exact hf n hp' (hh.mono h.base.bad)

def Inv (s : St ι N α M) : Prop := ∀ n : N, (s.arr n).length ≤ s.entries n + s.pend n

theorem Inv.eff {u : Users ι N α M} {s t : St ι N α M} (hi : Inv s) (h : Eff u s t) : Inv t := by
  intro n
  have := (h.at' n).slack; have := (h.at' n).pend; have := hi n
  omega

structure Ok (u : Users ι N α M) (ex : Exec ι N α M) : Prop where
  eff : ∀ (a : Act N α) (s : St ι N α M) (r : St ι N α M × Bool), Inv s → ex a s = some r → Eff u s r.1
  fire : ∀ (e : Ev N α) (s : St ι N α M) (r : St ι N α M × Bool), Inv s → ex (.fire e) s = some r →
    r.2 = false ∧ ∀ i : ι, Hears u.ls r.1.bad e i → Fresh u r.1 i

variable {u : Users ι N α M} {ex : Exec ι N α M}

theorem acts_eff (ok : Ok u ex) (as : List (Act N α)) (s : St ι N α M) (r : St ι N α M × Bool) (hi : Inv s)
    (h : acts ex as s = some r) : Eff u s r.1 := by
  induction as generalizing s with
  | nil => simp only [acts, Option.some.injEq] at h; subst h; exact .refl u s
  | cons a as ih =>
    simp only [acts, Option.bind_eq_some_iff] at h
    obtain ⟨r', h1, h2⟩ := h
    have e1 := ok.eff a s r' hi h1
    split at h2
    · simp only [Option.some.injEq] at h2; subst h2; exact e1
    · exact e1.trans (ih r'.1 (hi.eff e1) h2)

theorem look_eff (i : ι) (m : M) (s : St ι N α M) : Eff u s (look i m s) := by
  refine ⟨⟨fun _ h => h, [], by simp [look], rfl⟩, fun n => ⟨rfl, le_refl _, le_refl _, fun j _ _ => ?_⟩⟩
  by_cases hj : j = i
  · exact .inl (by simp [look, hj, St.contents])
  · exact .inr ⟨by simp [look, hj], rfl, le_refl _⟩

theorem look_fresh (i : ι) (m : M) (s : St ι N α M) : Fresh u (look i m s) i := fun n _ _ => by simp [look, St.contents]

theorem note_eff (i : ι) (b : Bool) (s : St ι N α M) : Eff u s (note i b s) :=
  ⟨⟨fun _ h => by simp [note, h], [], by simp [note], rfl⟩, fun _ => ⟨rfl, le_refl _, le_refl _, fun _ _ _ => .inr ⟨rfl, rfl, le_refl _⟩⟩⟩

theorem tell_eff (ok : Ok u ex) (e : Ev N α) (i : ι) (s : St ι N α M) (r : St ι N α M × Bool) (hi : Inv s)
    (h : tell u ex e i s = some r) : Eff u s r.1 ∧ Fresh u r.1 i ∧ (r.2 = true → r.1.bad i = true) := by
  simp only [tell, Option.map_eq_some_iff] at h
  obtain ⟨r', h1, rfl⟩ := h
  have e0 : Eff u s (look i (u.react i e s).mem s) := look_eff i _ s
  have e1 := acts_eff ok _ _ _ (hi.eff e0) h1
  have e2 : Eff u r'.1 (note i (r'.2 || (u.react i e s).raises) r'.1) := note_eff i _ _
  refine ⟨(e0.trans e1).trans e2, ((look_fresh i _ s).eff e1).eff e2, fun hb => ?_⟩
  have hb : (r'.2 || (u.react i e s).raises) = true := hb
  simp [note, hb]

/-- What is heard of the rest of the listeners of an event. -/
inductive HearsL (ls : Ev N α → List (Listener ι N α)) (bad : ι → Bool) : List (Listener ι N α) → ι → Prop
  | here {i : ι} {l : List (Listener ι N α)} : HearsL ls bad (.user i :: l) i
  | relay {e : Ev N α} {i : ι} {l : List (Listener ι N α)} : Hears ls bad e i → HearsL ls bad (.relay e :: l) i
  | user {i j : ι} {l : List (Listener ι N α)} : bad j = false → HearsL ls bad l i → HearsL ls bad (.user j :: l) i
  | next {e : Ev N α} {i : ι} {l : List (Listener ι N α)} : HearsL ls bad l i → HearsL ls bad (.relay e :: l) i

theorem HearsL.skip {ls : Ev N α → List (Listener ι N α)} {bad : ι → Bool} {i : ι} {l r : List (Listener ι N α)}
    (h : ∀ j : ι, .user j ∈ l → bad j = false) (hr : HearsL ls bad r i) : HearsL ls bad (l ++ r) i := by
  induction l with
  | nil => exact hr
  | cons a l ih =>
    have ih := ih fun j hj => h j (List.mem_cons_of_mem _ hj)
    cases a with
    | user j => exact .user (h j List.mem_cons_self) ih
    | relay e => exact .next ih

theorem Hears.toL {ls : Ev N α → List (Listener ι N α)} {bad : ι → Bool} {e : Ev N α} {i : ι} (h : Hears ls bad e i) :
    HearsL ls bad (ls e) i := by
  cases h with
  | user h1 h2 => rw [h1]; exact .skip h2 .here
  | relay h1 h2 h3 => rw [h1]; exact .skip h2 (.relay h3)

theorem HearsL.mono {ls : Ev N α → List (Listener ι N α)} {b b' : ι → Bool} (h : ∀ i : ι, b i = true → b' i = true)
    {l : List (Listener ι N α)} {i : ι} (hh : HearsL ls b' l i) : HearsL ls b l i := by
  induction hh with
  | here => exact .here
  | relay h1 => exact .relay (h1.mono h)
  | @user i j l h1 _ ih =>
    refine .user ?_ ih
    cases hb : b j with
    | false => rfl
    | true => rw [h j hb] at h1; exact absurd h1 (by simp)
  | next _ ih => exact .next ih

theorem fireL_eff (ok : Ok u ex) (e : Ev N α) (l : List (Listener ι N α)) (s t : St ι N α M) (hi : Inv s)
    (h : fireL u ex e l s = some t) : Eff u s t ∧ ∀ i : ι, HearsL u.ls t.bad l i → Fresh u t i := by
  induction l generalizing s with
  | nil =>
    simp only [fireL, Option.some.injEq] at h; subst h
    exact ⟨.refl u s, fun i hh => by cases hh⟩
  | cons a l ih =>
    cases a with
    | user j =>
      simp only [fireL, Option.bind_eq_some_iff] at h
      obtain ⟨r, h1, h2⟩ := h
      obtain ⟨e1, f1, b1⟩ := tell_eff ok e j s r hi h1
      cases hr : r.2 with
      | true =>
        simp only [hr, if_true, Option.some.injEq] at h2
        subst h2
        refine ⟨e1, fun i hh => ?_⟩
        cases hh with
        | here => exact f1
        | user h3 _ => rw [b1 hr] at h3; exact absurd h3 (by simp)
      | false =>
        simp only [hr, Bool.false_eq_true, if_false] at h2
        obtain ⟨e2, f2⟩ := ih r.1 (hi.eff e1) h2
        refine ⟨e1.trans e2, fun i hh => ?_⟩
        cases hh with
        | here => exact f1.eff e2
        | user _ h4 => exact f2 i h4
    | relay e' =>
      simp only [fireL, Option.bind_eq_some_iff] at h
      obtain ⟨r, h1, h2⟩ := h
      have e1 := ok.eff _ s r hi h1
      obtain ⟨_, f1⟩ := ok.fire e' s r hi h1
      obtain ⟨e2, f2⟩ := ih r.1 (hi.eff e1) h2
      refine ⟨e1.trans e2, fun i hh => ?_⟩
      cases hh with
      | relay h3 => exact (f1 i (h3.mono e2.base.bad)).eff e2
      | next h4 => exact f2 i h4

theorem fire_eff (ok : Ok u ex) (e : Ev N α) (s t : St ι N α M) (hi : Inv s) (h : fire u ex e s = some t) :
    Eff u s t ∧ ∀ i : ι, Hears u.ls t.bad e i → Fresh u t i := by
  obtain ⟨h1, h2⟩ := fireL_eff ok e _ s t hi h
  exact ⟨h1, fun i hh => h2 i hh.toL⟩

theorem update_self {β : Type} (f : N → β) (n : N) (b : β) : update f n b n = b := by simp [update]
theorem update_ne {β : Type} (f : N → β) {n m : N} (b : β) (h : m ≠ n) : update f n b m = f m := by simp [update, h]

theorem at_same {m : N} {s t : St ι N α M} (h1 : t.pend m = s.pend m) (h2 : t.entries m = s.entries m) (h3 : t.contents m = s.contents m)
    (h4 : t.copy = s.copy) (h5 : removals m t.log = removals m s.log) : At u m s t := by
  have : t.arr m = s.arr m := congrArg Prod.snd h3
  exact ⟨h1, by rw [h2, h5], by rw [h2, this], fun i _ _ => .inr ⟨by rw [h4], h3, h2.ge⟩⟩

theorem assign_eff (ok : Ok u ex) (n : N) (v : α) (s : St ι N α M) (r : St ι N α M × Bool) (hi : Inv s)
    (h : assign u ex n v s = some r) : Eff u s r.1 := by
  unfold assign at h
  split at h
  · simp only [Option.some.injEq] at h; subst h; exact .refl u s
  · simp only [Option.bind_eq_some_iff] at h
    obtain ⟨s1, h1, s2, h2, s3, h3, h4⟩ := h
    have e0 : EffX u n s { s with val := update s.val n v, log := s.log ++ [.assign n v] } := by
      refine ⟨⟨fun _ h => h, [.assign n v], rfl, ?_⟩, fun m hm => at_same rfl rfl ?_ rfl ?_⟩
      · funext m
        by_cases hm : m = n
        · subst hm; simp [St.contents, replay, update]
        · simp [St.contents, replay, update, hm]
      · simp [St.contents, update, hm]
      · simp [removals_append, removals]
    have i0 : Inv { s with val := update s.val n v, log := s.log ++ [.assign n v] } := hi
    obtain ⟨e1, _⟩ := fire_eff ok _ _ _ i0 h1
    obtain ⟨e2, _⟩ := fire_eff ok _ _ _ (i0.eff e1) h2
    obtain ⟨e3, f3⟩ := fire_eff ok _ _ _ ((i0.eff e1).eff e2) h3
    have e := (e1.trans e2).trans e3
    have hx : EffX u n s s3 := e0.trans (e.x n)
    have ha : At u n s s3 := by
      refine ⟨(e.at' n).pend, by simpa [removals_append, removals] using (e.at' n).count, (e.at' n).slack, fun i hp hh => .inl (f3 i hh n ?_ hh)⟩
      rw [(e.at' n).pend]; exact hp
    have he := hx.eff ha
    split at h4
    · exact he.trans (tell_eff ok _ _ _ _ (hi.eff he) h4).1
    · simp only [Option.some.injEq] at h4; subst h4; exact he

theorem length_insert (l : List α) (i : Int) (v : α) : (Py.insert l i v).length = l.length + 1 := by
  simp only [Py.insert, List.length_insertIdx]
  have := Py.insertPos_le l.length i
  split <;> omega

theorem insert_eff (ok : Ok u ex) (n : N) (i : Int) (v : α) (s : St ι N α M) (r : St ι N α M × Bool) (hi : Inv s)
    (h : insert u ex n i v s = some r) : Eff u s r.1 := by
  unfold insert at h
  simp only [Option.bind_eq_some_iff, Option.map_eq_some_iff] at h
  obtain ⟨s1, h1, s2, h2, s3, h3, rfl⟩ := h
  have e0 : EffX u n s { s with
      arr := update s.arr n (Py.insert (s.arr n) i v), pend := update s.pend n (s.pend n + 1), log := s.log ++ [.insert n i v] } := by
    refine ⟨⟨fun _ h => h, [.insert n i v], rfl, ?_⟩, fun m hm => at_same ?_ rfl ?_ rfl ?_⟩
    · funext m
      by_cases hm : m = n
      · subst hm; simp [St.contents, replay, update]
      · simp [St.contents, replay, update, hm]
    · simp [update, hm]
    · simp [St.contents, update, hm]
    · simp [removals_append, removals]
  have i0 : Inv { s with
      arr := update s.arr n (Py.insert (s.arr n) i v), pend := update s.pend n (s.pend n + 1), log := s.log ++ [.insert n i v] } := by
    intro m
    have := hi m
    by_cases hm : m = n
    · subst hm; simp only [update, if_true, length_insert]; omega
    · simpa [update, hm] using this
  obtain ⟨e1, _⟩ := fire_eff ok _ _ _ i0 h1
  obtain ⟨e2, _⟩ := fire_eff ok _ _ _ (i0.eff e1) h2
  have e := e1.trans e2
  have hp : s2.pend n = s.pend n + 1 := by rw [(e.at' n).pend]; simp [update]
  have i2 := (i0.eff e1).eff e2
  have e3 : EffX u n s2 { s2 with entries := update s2.entries n (s2.entries n + 1), pend := update s2.pend n (s2.pend n - 1) } := by
    refine ⟨⟨fun _ h => h, [], by simp, rfl⟩, fun m hm => at_same ?_ ?_ rfl rfl rfl⟩ <;> simp [update, hm]
  have i3 : Inv { s2 with entries := update s2.entries n (s2.entries n + 1), pend := update s2.pend n (s2.pend n - 1) } := by
    intro m
    have := i2 m
    by_cases hm : m = n
    · subst hm; simp only [update, if_true]; omega
    · simpa [update, hm] using this
  obtain ⟨e4, f4⟩ := fire_eff ok _ _ _ i3 h3
  have hx : EffX u n s s3 := (e0.trans (e.x n)).trans (e3.trans (e4.x n))
  have hp3 : s3.pend n = s.pend n := by rw [(e4.at' n).pend]; simp [update, hp]
  have c1 := (e.at' n).count
  have c2 := (e4.at' n).count
  simp only [update, if_true, removals_append, removals] at c1 c2
  refine hx.eff ⟨hp3, by omega, ?_, fun j hp' hh => .inl (f4 j hh n (by rw [hp3]; exact hp') hh)⟩
  have k1 := (e.at' n).slack
  have k2 := (e4.at' n).slack
  simp only [update, if_true, length_insert] at k1 k2
  omega

theorem index_isSome (len : ℕ) (i : Int) : (Py.index? len i).isSome = decide (-(len : Int) ≤ i ∧ i < len) := by
  unfold Py.index?
  split_ifs <;> simp <;> omega

theorem index_mono {a b : ℕ} {i : Int} (h : a ≤ b) (ha : (Py.index? a i).isSome = true) : (Py.index? b i).isSome = true := by
  rw [index_isSome, decide_eq_true_eq] at *
  omega

theorem index_pos {a : ℕ} {i : Int} (ha : (Py.index? a i).isSome = true) : 1 ≤ a := by
  rw [index_isSome, decide_eq_true_eq] at ha
  omega

theorem del_length {l l' : List α} {i : Int} (h : Py.del? l i = some l') : l'.length + 1 = l.length ∧ (Py.index? l.length i).isSome = true := by
  simp only [Py.del?, Option.map_eq_some_iff] at h
  obtain ⟨k, hk, rfl⟩ := h
  have hk' : k < l.length := by
    unfold Py.index? at hk
    split_ifs at hk <;> simp only [Option.some.injEq] at hk <;> omega
  exact ⟨by rw [List.length_eraseIdx]; simp only [hk', if_true]; omega, by rw [hk]; rfl⟩

theorem remove_eff (ok : Ok u ex) (n : N) (i : Int) (s : St ι N α M) (r : St ι N α M × Bool) (hi : Inv s)
    (h : remove u ex n i s = some r) : Eff u s r.1 := by
  unfold remove at h
  split at h
  case h_2 => simp only [Option.some.injEq] at h; subst h; exact .refl u s
  case h_1 v l hv hd =>
    simp only [Option.bind_eq_some_iff] at h
    obtain ⟨s1, h1, h2⟩ := h
    obtain ⟨hl, hx⟩ := del_length hd
    have e0 : EffX u n s { s with arr := update s.arr n l, log := s.log ++ [.remove n i] } := by
      refine ⟨⟨fun _ h => h, [.remove n i], rfl, ?_⟩, fun m hm => at_same rfl rfl ?_ rfl ?_⟩
      · funext m
        by_cases hm : m = n
        · subst hm; simp [St.contents, replay, update, hd]
        · simp [St.contents, replay, update, hm]
      · simp [St.contents, update, hm]
      · simp [removals_append, removals, Ne.symm hm]
    have i0 : Inv { s with arr := update s.arr n l, log := s.log ++ [.remove n i] } := by
      intro m
      have := hi m
      by_cases hm : m = n
      · subst hm; simp only [update, if_true]; omega
      · simpa [update, hm] using this
    obtain ⟨e1, _⟩ := fire_eff ok _ _ _ i0 h1
    have i1 := i0.eff e1
    have k1 := (e1.at' n).slack
    simp only [update, if_true] at k1
    have c1 := (e1.at' n).count
    simp only [removals_append, removals, if_true] at c1
    have p1 : s1.pend n = s.pend n := (e1.at' n).pend
    split at h2
    case isTrue hsome =>
      simp only [Option.bind_eq_some_iff, Option.map_eq_some_iff] at h2
      obtain ⟨s2, h2, s3, h3, rfl⟩ := h2
      have hpos := index_pos hsome
      have e2 : EffX u n s1 { s1 with entries := update s1.entries n (s1.entries n - 1) } := by
        refine ⟨⟨fun _ h => h, [], by simp, rfl⟩, fun m hm => at_same rfl ?_ rfl rfl rfl⟩
        simp [update, hm]
      have i2 : Inv { s1 with entries := update s1.entries n (s1.entries n - 1) } := by
        intro m
        have := i1 m
        by_cases hm : m = n
        · subst hm; simp only [update, if_true]
          have := hi m
          omega
        · simpa [update, hm] using this
      obtain ⟨e3, _⟩ := fire_eff ok _ _ _ i2 h2
      obtain ⟨e4, f4⟩ := fire_eff ok _ _ _ (i2.eff e3) h3
      have e := e3.trans e4
      have k2 := (e.at' n).slack
      simp only [update, if_true] at k2
      have c2 := (e.at' n).count
      simp only [update, if_true] at c2
      have p2 : s3.pend n = s.pend n := (e.at' n).pend.trans p1
      exact ((e0.trans (e1.x n)).trans (e2.trans (e.x n))).eff
        ⟨p2, by omega, by omega, fun j hp hh => .inl (f4 j hh n (by rw [p2]; exact hp) hh)⟩
    case isFalse hnone =>
      simp only [Option.some.injEq] at h2
      subst h2
      refine (e0.trans (e1.x n)).eff ⟨p1, by omega, by omega, fun j hp hh => ?_⟩
      rcases (e1.at' n).fresh j hp hh with h3 | ⟨_, _, h3⟩
      · exact .inl h3
      · have h3 : s.entries n ≤ s1.entries n := h3
        have := hi n
        exact absurd (index_mono (by omega) hx) hnone

theorem body_ok (ok : Ok u ex) : Ok u (body u ex) := by
  refine ⟨fun a s r hi h => ?_, fun e s r hi h => ?_⟩
  · cases a with
    | assign n v => exact assign_eff ok n v s r hi h
    | insert n i v => exact insert_eff ok n i v s r hi h
    | remove n i => exact remove_eff ok n i s r hi h
    | fire e =>
      simp only [body, Option.map_eq_some_iff] at h
      obtain ⟨t, h, rfl⟩ := h
      exact (fire_eff ok e s t hi h).1
  · simp only [body, Option.map_eq_some_iff] at h
    obtain ⟨t, h, rfl⟩ := h
    exact ⟨rfl, (fire_eff ok e s t hi h).2⟩

theorem exec_ok (u : Users ι N α M) (fuel : ℕ) : Ok u (exec u fuel) := by
  induction fuel with
  | zero => exact ⟨fun _ _ _ _ h => by simp [exec] at h, fun _ _ _ _ h => by simp [exec] at h⟩
  | succ n ih => exact body_ok ih

theorem run_eff (u : Users ι N α M) (fuel : ℕ) (as : List (Act N α)) (s t : St ι N α M) (hi : Inv s)
    (h : run u fuel as s = some t) : Eff u s t := by
  induction as generalizing s with
  | nil => simp only [run, Option.some.injEq] at h; subst h; exact .refl u s
  | cons a as ih =>
    simp only [run, Option.bind_eq_some_iff] at h
    obtain ⟨r, h1, h2⟩ := h
    have e1 := (exec_ok u fuel).eff a s r hi h1
    exact e1.trans (ih r.1 (hi.eff e1) h2)

theorem Rest.inv {s : St ι N α M} (h : Rest s) : Inv s := fun n => by have := h.entries n; omega

/-- A listener that looks at the models when it is told has, when all is done, the contents of every model it hears of, if it had them
before: whatever the listeners do and whoever raises, unless one of those told before it has raised. -/
theorem C186_contents (u : Users ι N α M) (fuel : ℕ) (as : List (Act N α)) (s t : St ι N α M) (hr : Rest s)
    (h : run u fuel as s = some t) (i : ι) (n : N) (hh : Hears u.ls t.bad (.changed n) i) (hc : s.copy i n = s.contents n) :
    t.copy i n = t.contents n := by
  have e := run_eff u fuel as s t hr.inv h
  rcases (e.at' n).fresh i (hr.pend n) hh with h1 | ⟨h1, h2, _⟩
  · exact h1
  · rw [h1, h2, hc]

/-- Also if it had not: if the model has changed. -/
theorem C186_told (u : Users ι N α M) (fuel : ℕ) (as : List (Act N α)) (s t : St ι N α M) (hr : Rest s)
    (h : run u fuel as s = some t) (i : ι) (n : N) (hh : Hears u.ls t.bad (.changed n) i) (hc : t.contents n ≠ s.contents n) :
    t.copy i n = t.contents n := by
  have e := run_eff u fuel as s t hr.inv h
  rcases (e.at' n).fresh i (hr.pend n) hh with h1 | ⟨_, h2, _⟩
  · exact h1
  · exact absurd h2 hc

/-- The models are what the changes, in the order in which they were made, make of them; after what a user does everything is as it has to
be for the next. -/
theorem C186_changes (u : Users ι N α M) (fuel : ℕ) (as : List (Act N α)) (s t : St ι N α M) (hr : Rest s)
    (h : run u fuel as s = some t) : Rest t ∧ ∃ l : List (Act N α), t.log = s.log ++ l ∧ t.contents = replay l s.contents := by
  have e := run_eff u fuel as s t hr.inv h
  refine ⟨⟨fun n => ?_, fun n => ?_⟩, e.base.log⟩
  · rw [(e.at' n).pend, hr.pend n]
  · have := (e.at' n).slack; have := hr.entries n; omega

/-- An insertion does not raise. An assignment raises if `on_value_changed` is set and raises. A removal raises if there is no such item,
and nothing happens, or if a listener has removed items of the array as well. -/
theorem C186_raises (u : Users ι N α M) (fuel : ℕ) (s t : St ι N α M) (hr : Rest s) (n : N) :
    (∀ (i : Int) (v : α), exec u fuel (.insert n i v) s ≠ some (t, true)) ∧
    (∀ v : α, exec u fuel (.assign n v) s = some (t, true) → ∃ i : ι, u.hook n = some i ∧ t.bad i = true) ∧
    (∀ i : Int, exec u fuel (.remove n i) s = some (t, true) →
      (¬ (-((s.arr n).length : Int) ≤ i ∧ i < (s.arr n).length) ∧ t = s) ∨ removals n s.log + 2 ≤ removals n t.log) := by
  cases fuel with
  | zero => exact ⟨fun _ _ h => by simp [exec] at h, fun _ h => by simp [exec] at h, fun _ h => by simp [exec] at h⟩
  | succ k =>
    have ok := exec_ok u k
    refine ⟨fun i v h => ?_, fun v h => ?_, fun i h => ?_⟩
    · simp only [exec, body, insert, Option.bind_eq_some_iff, Option.map_eq_some_iff] at h
      obtain ⟨_, _, _, _, _, _, h⟩ := h
      simp at h
    · have h : assign u (exec u k) n v s = some (t, true) := h
      unfold assign at h
      split at h
      · simp at h
      · simp only [Option.bind_eq_some_iff] at h
        obtain ⟨s1, h1, s2, h2, s3, h3, h4⟩ := h
        have i0 : Inv { s with val := update s.val n v, log := s.log ++ [.assign n v] } := hr.inv
        have i1 := i0.eff (fire_eff ok _ _ _ i0 h1).1
        have i2 := i1.eff (fire_eff ok _ _ _ i1 h2).1
        have i3 := i2.eff (fire_eff ok _ _ _ i2 h3).1
        split at h4
        · rename_i i hi
          exact ⟨i, hi, (tell_eff ok _ i s3 _ i3 h4).2.2 rfl⟩
        · simp at h4
    · have h : remove u (exec u k) n i s = some (t, true) := h
      unfold remove at h
      split at h
      · rename_i v l hv hd
        right
        simp only [Option.bind_eq_some_iff] at h
        obtain ⟨s1, h1, h2⟩ := h
        obtain ⟨hl, hx⟩ := del_length hd
        have i0 : Inv { s with arr := update s.arr n l, log := s.log ++ [.remove n i] } := by
          intro m
          have := hr.inv m
          by_cases hm : m = n
          · subst hm; simp only [update, if_true]; omega
          · simpa [update, hm] using this
        have e1 := (fire_eff ok _ _ _ i0 h1).1
        split at h2
        · simp only [Option.bind_eq_some_iff, Option.map_eq_some_iff] at h2
          obtain ⟨_, _, _, _, h2⟩ := h2
          simp at h2
        · rename_i hn
          simp only [Option.some.injEq, Prod.mk.injEq, and_true] at h2
          subst h2
          have c1 := (e1.at' n).count
          simp only [removals_append, removals, if_true] at c1
          by_contra hc
          exact hn (index_mono (by have := hr.entries n; omega) hx)
      · rename_i hno
        left
        simp only [Option.some.injEq, Prod.mk.injEq, and_true] at h
        refine ⟨fun hin => ?_, h.symm⟩
        have hs : (Py.index? (s.arr n).length i).isSome = true := by rw [index_isSome, decide_eq_true_eq]; exact hin
        obtain ⟨k', hk⟩ := Option.isSome_iff_exists.1 hs
        have hlt : k' < (s.arr n).length := by
          unfold Py.index? at hk
          split_ifs at hk <;> simp only [Option.some.injEq] at hk <;> omega
        refine hno (s.arr n)[k'] ((s.arr n).eraseIdx k') ?_ ?_
        · simp [Py.get?, hk, hlt]
        · simp [Py.del?, hk]

/-! ### Cases

A record 0 with the fields 1 and 2 and the array 3; the models 1, 2, 3 are relayed to the record. The listener 0 of the record keeps the
field 2 at one more than the field 1; the listeners 1 (of the record, later) and 2 (of the array) look. -/

def relays : Ev ℕ ℕ → List (Listener ℕ ℕ ℕ)
  | .changed 0 => [.user 0, .user 1]
  | .changed 3 => [.relay (.changed 0), .user 2]
  | .changed _ => [.relay (.changed 0)]
  | .value n => [.relay (.property (10 * n))]
  | .removed 3 _ _ => [.user 3]
  | .arrayRemoved 3 v i => [.relay (.removed 0 v i)]
  | .removed 0 _ _ => [.user 4]
  | _ => []

/-- The listener 0 as above, and it raises if the field 1 is 9; the listener 3 of `item_removed_event` of the array removes the two first
items if 7 is removed; the listener 4 of the record keeps a list: its memory. -/
def reactions (i : ℕ) (e : Ev ℕ ℕ) (s : St ℕ ℕ ℕ (List ℕ)) : Reaction ℕ ℕ (List ℕ) :=
  match i, e with
  | 0, _ => ⟨s.mem, [.assign 2 (s.val 1 + 1)], s.val 1 == 9⟩
  | 3, .removed _ 7 _ => ⟨s.mem, [.remove 3 0, .remove 3 0], false⟩
  | 4, .removed _ _ k => ⟨(Py.del? s.mem k).getD s.mem, [], false⟩
  | _, _ => ⟨s.mem, [], false⟩

def net : Users ℕ ℕ ℕ (List ℕ) := ⟨relays, reactions, fun _ => none⟩

def start (l : List ℕ) : St ℕ ℕ ℕ (List ℕ) :=
  ⟨fun _ => 0, fun n => if n = 3 then l else [], fun n => if n = 3 then l.length else 0, l, fun _ => 0, fun _ n => (0, if n = 3 then l else []),
    fun _ => false, []⟩

theorem rest_start (l : List ℕ) : Rest (start l) := by
  refine ⟨fun _ => rfl, fun n => ?_⟩
  by_cases h : n = 3 <;> simp [start, h]

/-- The field 1 is assigned: the listener 0 assigns the field 2, is told of that, and the listener 1 has both. -/
example : ((run net 8 [.assign 1 4] (start [])).map fun t => ([t.val 1, t.val 2], t.copy 1 1, t.copy 1 2)) =
    some ([4, 5], (4, []), (5, [])) := by decide +kernel

/-- The hypotheses of `C186_contents` are met. -/
example (b : ℕ → Bool) (h : b 0 = false) : Hears net.ls b (.changed 1) 1 :=
  .relay (l := []) (r := []) rfl (fun _ h => by simp at h)
    (.user (l := [.user 0]) (r := []) rfl (fun j hj => by simp only [List.mem_singleton, Listener.user.injEq] at hj; subst hj; exact h))

/-- The listener 0 raises and the listener 1, which comes after it, does not have the contents. -/
example : ((run net 8 [.assign 1 9] (start [])).map fun t => (t.val 1, t.bad 0, t.copy 0 1, t.copy 1 1)) =
    some (9, true, (9, []), (0, [])) := by decide +kernel

/-- A removal that raises though the item was there and is removed: the listener 3 has removed the others. The listener of the array has the
contents; the list kept from the record's `item_removed_event` (C156) has an item that is gone. -/
theorem C186_counterexample :
    ((exec net 8 (.remove 3 2) (start [5, 6, 7])).map fun r => (r.1.arr 3, r.2, r.1.copy 2 3, r.1.mem)) =
      some ([], true, (0, []), [7]) := by decide +kernel

/-- Without that listener the list is right. -/
example : ((exec net 8 (.remove 3 1) (start [5, 6, 7])).map fun r => (r.1.arr 3, r.2, r.1.copy 2 3, r.1.mem)) =
      some ([5, 7], false, (0, [5, 7]), [5, 7]) := by decide +kernel

end Verif.Structured.Reent
