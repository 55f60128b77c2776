import Verif.Py.Basic
import Mathlib.Data.List.Basic
import Mathlib.Logic.Function.Basic
import Mathlib.Tactic.SplitIfs
import Mathlib.Tactic.Common

set_option linter.unusedSectionVars false

/-!
C191: the recorder (`nion/utils/Recorder.py`) of an object whose listeners change it while they are told. The recorder is one of the listeners
of the object, at any place; the others may set properties, append items and remove the last item, in any way that depends on the whole state, and
raise, which ends the fire (`nion/utils/Event.py:103-114`), so that later listeners, the recorder perhaps among them, are not told.

Items are whatever they are (what is in them: C113); items in the middle are not considered since then the recorder raises anyway (C61). `none` is a
recursion that does not end within the fuel.
-/

namespace Verif.Persist.RecorderReentrant

/-- Who listens: the recorder, or somebody else. -/
inductive Lis (ι : Type) where
  | recorder
  | user (i : ι)

/-- What the object tells: `property_changed_event`, `item_inserted_event`, `item_removed_event`. -/
inductive Ev (α : Type) where
  | prop (k : ℕ)
  | inserted (i : ℕ) (x : α)
  | removed (i : ℕ)

/-- The logged functions (lines 71-74, 95, 103). -/
inductive Entry (α : Type) where
  | set (k : ℕ)
  | insert (i : ℕ) (x : α)
  | remove (i : ℕ)
deriving DecidableEq

inductive Act (α V : Type) where
  | set (k : ℕ) (v : V)
  | append (x : α)
  | removeLast

/-- The object; the number of recorders of items and the log; the memory of the listeners. -/
structure St (α V M : Type) where
  props : ℕ → V
  items : List α
  recs : ℕ
  log : List (Entry α)
  mem : M

structure Reaction (α V M : Type) where
  mem : M
  acts : List (Act α V)
  raises : Bool

variable {ι α V M : Type}

/-- The listeners of each event, in order; what the others do; which properties are recordable. -/
structure Env (ι α V M : Type) where
  props : List (Lis ι)
  inserted : List (Lis ι)
  removed : List (Lis ι)
  react : ι → Ev α → St α V M → Reaction α V M
  recordable : ℕ → Bool

def Env.lis (env : Env ι α V M) : Ev α → List (Lis ι)
  | .prop _ => env.props
  | .inserted _ _ => env.inserted
  | .removed _ => env.removed

/-- The handlers of the recorder (69-74, 89-95, 97-103); `none` if they raise, then nothing is recorded: `_accessor_fn = …` for recorders at or
after the index never ends (65-67), `pop` raises if there is no recorder. -/
def record (env : Env ι α V M) (e : Ev α) (s : St α V M) : Option (St α V M) :=
  match e with
  | .prop k => some (if env.recordable k then { s with log := s.log ++ [.set k] } else s)
  | .inserted i x => if i < s.recs then none else some { s with recs := s.recs + 1, log := s.log ++ [.insert i x] }
  | .removed i => if i + 1 = s.recs then some { s with recs := s.recs - 1, log := s.log ++ [.remove i] } else none

abbrev Exec (α V M : Type) := Ev α → St α V M → Option (St α V M)

def act (ex : Exec α V M) (a : Act α V) (s : St α V M) : Option (St α V M) :=
  match a with
  | .set k v => ex (.prop k) { s with props := Function.update s.props k v }
  | .append x => ex (.inserted s.items.length x) { s with items := s.items ++ [x] }
  | .removeLast => if s.items = [] then some s else ex (.removed (s.items.length - 1)) { s with items := s.items.dropLast }

def acts (ex : Exec α V M) : List (Act α V) → St α V M → Option (St α V M)
  | [], s => some s
  | a :: as, s => (act ex a s).bind (acts ex as)

/-- `Event.fire`. -/
def fireL (env : Env ι α V M) (ex : Exec α V M) (e : Ev α) : List (Lis ι) → St α V M → Option (St α V M)
  | [], s => some s
  | .recorder :: xs, s =>
    match record env e s with
    | some t => fireL env ex e xs t
    | none => some s
  | .user i :: xs, s =>
    (acts ex (env.react i e s).acts { s with mem := (env.react i e s).mem }).bind fun t =>
      if (env.react i e s).raises then some t else fireL env ex e xs t

def exec (env : Env ι α V M) : ℕ → Exec α V M
  | 0 => fun _ _ => none
  | n + 1 => fun e s => fireL env (exec env n) e (env.lis e) s

/-! ### Specification -/

/-- Apply the log to an object: properties are set to what they are in the recorded object then (71-72). Lists as in Python. -/
def apply (now : ℕ → V) : List (Entry α) → (ℕ → V) × List α → (ℕ → V) × List α
  | [], o => o
  | .set k :: es, o => apply now es (Function.update o.1 k (now k), o.2)
  | .insert i x :: es, o => apply now es (o.1, o.2.take i ++ x :: o.2.drop i)
  | .remove i :: es, o => apply now es (o.1, o.2.eraseIdx i)

/-- An object with its recorder just made. -/
def start (props : ℕ → V) (items : List α) (m : M) : St α V M := ⟨props, items, items.length, [], m⟩

/-- Who is told before the recorder about items does nothing; who is told before about properties does not raise. -/
structure Env.First (env : Env ι α V M) : Prop where
  props : ∃ pre post, env.props = pre ++ .recorder :: post ∧ ∀ x ∈ pre, ∃ i, x = .user i ∧ ∀ k s, (env.react i (.prop k) s).raises = false
  inserted : ∃ pre post, env.inserted = pre ++ .recorder :: post ∧
    ∀ x ∈ pre, ∃ i, x = .user i ∧ ∀ j y s, (env.react i (.inserted j y) s).acts = [] ∧ (env.react i (.inserted j y) s).raises = false
  removed : ∃ pre post, env.removed = pre ++ .recorder :: post ∧
    ∀ x ∈ pre, ∃ i, x = .user i ∧ ∀ j s, (env.react i (.removed j) s).acts = [] ∧ (env.react i (.removed j) s).raises = false
  /-- There is one recorder. -/
  once : ∀ e, (∀ pre post, env.lis e = pre ++ .recorder :: post → Lis.recorder ∉ post)

/-! ### Proof -/

variable {env : Env ι α V M} {ex : Exec α V M} {s t : St α V M}

/-- What the log makes of the items. -/
def replay (es : List (Entry α)) (l : List α) : List α :=
  es.foldl (fun l e => match e with | .set _ => l | .insert i x => l.take i ++ x :: l.drop i | .remove i => l.eraseIdx i) l

theorem apply_snd (now : ℕ → V) (es : List (Entry α)) : ∀ o : (ℕ → V) × List α, (apply now es o).2 = replay es o.2 := by
  induction es with
  | nil => exact fun _ => rfl
  | cons e es ih => intro o; cases e <;> exact ih _

theorem apply_fst (now : ℕ → V) (es : List (Entry α)) (k : ℕ) : ∀ o : (ℕ → V) × List α,
    (.set k ∈ es → (apply now es o).1 k = now k) ∧ (.set k ∉ es → (apply now es o).1 k = o.1 k) := by
  classical
  induction es with
  | nil => exact fun o => ⟨fun h => by simp at h, fun _ => rfl⟩
  | cons e es ih =>
    intro o
    cases e with
    | set j =>
      by_cases hk : k = j
      · subst hk
        refine ⟨fun _ => ?_, fun h => by simp at h⟩
        by_cases h : Entry.set k ∈ es
        · exact (ih _).1 h
        · exact ((ih (Function.update o.1 k (now k), o.2)).2 h).trans (Function.update_self ..)
      · refine ⟨fun h => (ih _).1 (by simpa [hk] using h), fun h => ?_⟩
        refine ((ih (Function.update o.1 j (now j), o.2)).2 (by simpa [hk] using h)).trans ?_
        exact Function.update_of_ne hk _ _
    | insert i x => exact ⟨fun h => (ih _).1 (by simpa using h), fun h => (ih _).2 (by simpa using h)⟩
    | remove i => exact ⟨fun h => (ih _).1 (by simpa using h), fun h => (ih _).2 (by simpa using h)⟩

structure Inv (items : List α) (s : St α V M) : Prop where
  recs : s.recs = s.items.length
  log : replay s.log items = s.items

structure Eff (env : Env ι α V M) (items : List α) (s t : St α V M) : Prop where
  inv : Inv items t
  log : s.log <+: t.log
  props : ∀ k, env.recordable k = true → t.props k ≠ s.props k → Entry.set k ∈ t.log

theorem Eff.refl {items : List α} (h : Inv items s) : Eff env items s s := ⟨h, List.prefix_rfl, fun _ _ h => absurd rfl h⟩

theorem Eff.trans {items : List α} {r : St α V M} (h1 : Eff env items s t) (h2 : Eff env items t r) : Eff env items s r := by
  refine ⟨h2.inv, h1.log.trans h2.log, fun k hk hne => ?_⟩
  by_cases e : r.props k = t.props k
  · exact h2.log.subset (h1.props k hk (by rwa [← e]))
  · exact h2.props k hk e

/-- What is told is not yet recorded. -/
def Told (items : List α) (e : Ev α) (s : St α V M) : Prop :=
  match e with
  | .prop _ => Inv items s
  | .inserted i x => ∃ l, s.items = l ++ [x] ∧ i = l.length ∧ s.recs = l.length ∧ replay s.log items = l
  | .removed i => ∃ l, s.items = l.dropLast ∧ l ≠ [] ∧ i = l.length - 1 ∧ s.recs = l.length ∧ replay s.log items = l

def Ok (env : Env ι α V M) (items : List α) (ex : Exec α V M) : Prop :=
  ∀ e s t, Told items e s → ex e s = some t → Eff env items s t ∧ ∀ k, e = .prop k → env.recordable k = true → Entry.set k ∈ t.log

theorem act_eff {items : List α} (h : Ok env items ex) {a : Act α V} (hs : Inv items s) (he : act ex a s = some t) : Eff env items s t := by
  cases a with
  | set k v =>
    simp only [act] at he
    obtain ⟨e, e2⟩ := h (.prop k) { s with props := Function.update s.props k v } t ⟨hs.recs, hs.log⟩ he
    refine ⟨e.inv, e.log, fun j hj hne => ?_⟩
    by_cases hjk : j = k
    · subst hjk
      exact e2 j rfl hj
    · exact e.props j hj (by
        change _ ≠ Function.update s.props k v j
        rwa [Function.update_of_ne hjk])
  | append x =>
    simp only [act] at he
    obtain ⟨e, -⟩ := h (.inserted s.items.length x) { s with items := s.items ++ [x] } t ⟨s.items, rfl, rfl, hs.recs, hs.log⟩ he
    exact ⟨e.inv, e.log, e.props⟩
  | removeLast =>
    simp only [act] at he
    split at he
    · obtain rfl := Option.some.inj he
      exact .refl hs
    · rename_i hne
      obtain ⟨e, -⟩ := h (.removed (s.items.length - 1)) { s with items := s.items.dropLast } t ⟨s.items, rfl, hne, rfl, hs.recs, hs.log⟩ he
      exact ⟨e.inv, e.log, e.props⟩

theorem acts_eff {items : List α} (h : Ok env items ex) : ∀ (as : List (Act α V)) (s t : St α V M), Inv items s → acts ex as s = some t →
    Eff env items s t := by
  intro as
  induction as with
  | nil =>
    intro s t hs he
    obtain rfl := Option.some.inj he
    exact .refl hs
  | cons a as ih =>
    intro s t hs he
    obtain ⟨u, hu, he⟩ := Option.bind_eq_some_iff.1 he
    have e := act_eff h hs hu
    exact e.trans (ih u t e.inv he)

/-- Listeners without the recorder. -/
theorem fireL_eff {items : List α} (h : Ok env items ex) (e : Ev α) : ∀ (l : List (Lis ι)) (s t : St α V M), Lis.recorder ∉ l →
    Inv items s → fireL env ex e l s = some t → Eff env items s t := by
  intro l
  induction l with
  | nil =>
    intro s t _ hs he
    obtain rfl := Option.some.inj he
    exact .refl hs
  | cons x xs ih =>
    intro s t hl hs he
    have hl' : Lis.recorder ∉ xs := fun hx => hl (List.mem_cons_of_mem _ hx)
    cases x with
    | recorder => exact absurd List.mem_cons_self hl
    | user i =>
      obtain ⟨u, hu, he⟩ := Option.bind_eq_some_iff.1 he
      have hv : Inv items { s with mem := (env.react i e s).mem } := ⟨hs.recs, hs.log⟩
      have e1 := acts_eff h _ _ u hv hu
      have e2 : Eff env items s u := ⟨e1.inv, e1.log, e1.props⟩
      split at he
      · obtain rfl := Option.some.inj he
        exact e2
      · exact e2.trans (ih u t hl' e2.inv he)

/-- Listeners that do nothing. -/
theorem fireL_pass (e : Ev α) (post : List (Lis ι)) : ∀ (pre : List (Lis ι)) (s : St α V M),
    (∀ x ∈ pre, ∃ i, x = .user i ∧ ∀ s, (env.react i e s).acts = [] ∧ (env.react i e s).raises = false) →
    ∃ m, fireL env ex e (pre ++ post) s = fireL env ex e post { s with mem := m } := by
  intro pre
  induction pre with
  | nil => exact fun s _ => ⟨s.mem, rfl⟩
  | cons x xs ih =>
    intro s hx
    obtain ⟨i, rfl, hi⟩ := hx x List.mem_cons_self
    obtain ⟨m, hm⟩ := ih { s with mem := (env.react i e s).mem } fun y hy => hx y (List.mem_cons_of_mem _ hy)
    refine ⟨m, ?_⟩
    simp only [List.cons_append, fireL, (hi s).1, (hi s).2, acts, Option.bind_some]
    exact hm

/-- Listeners that do not raise. -/
theorem fireL_pre {items : List α} (h : Ok env items ex) (e : Ev α) (post : List (Lis ι)) : ∀ (pre : List (Lis ι)) (s t : St α V M),
    (∀ x ∈ pre, ∃ i, x = .user i ∧ ∀ s, (env.react i e s).raises = false) → Inv items s → fireL env ex e (pre ++ post) s = some t →
    ∃ u, Eff env items s u ∧ fireL env ex e post u = some t := by
  intro pre
  induction pre with
  | nil => exact fun s t _ hs he => ⟨s, .refl hs, he⟩
  | cons x xs ih =>
    intro s t hx hs he
    obtain ⟨i, rfl, hi⟩ := hx x List.mem_cons_self
    obtain ⟨u, hu, he⟩ := Option.bind_eq_some_iff.1 he
    rw [if_neg (by simp [hi])] at he
    have hv : Inv items { s with mem := (env.react i e s).mem } := ⟨hs.recs, hs.log⟩
    have e1 := acts_eff h _ _ u hv hu
    have e2 : Eff env items s u := ⟨e1.inv, e1.log, e1.props⟩
    obtain ⟨r, hr, hr'⟩ := ih u t (fun y hy => hx y (List.mem_cons_of_mem _ hy)) e2.inv he
    exact ⟨r, e2.trans hr, hr'⟩

theorem replay_append (es : List (Entry α)) (e : Entry α) (l : List α) : replay (es ++ [e]) l = replay [e] (replay es l) := by
  simp [replay]

theorem exec_step (hf : env.First) {items : List α} (h : Ok env items ex) : Ok env items fun e s => fireL env ex e (env.lis e) s := by
  intro e s t hs he
  cases e with
  | prop k =>
    obtain ⟨pre, post, hl, hp⟩ := hf.props
    have ho := hf.once (.prop k) pre post hl
    simp only [Env.lis, hl] at he
    obtain ⟨u, hu, he⟩ := fireL_pre h (.prop k) _ pre s t (fun x hx => by
      obtain ⟨i, rfl, hi⟩ := hp x hx
      exact ⟨i, rfl, hi k⟩) hs he
    simp only [fireL, record] at he
    cases hr : env.recordable k with
    | false =>
      simp only [hr, Bool.false_eq_true, if_false] at he
      exact ⟨hu.trans (fireL_eff h _ post u t ho hu.inv he), fun j hj hj' => by
        obtain rfl := Ev.prop.inj hj
        simp [hr] at hj'⟩
    | true =>
      simp only [hr, if_true] at he
      have hi : Inv items { u with log := u.log ++ [.set k] } := ⟨hu.inv.recs, by rw [replay_append]; exact hu.inv.log⟩
      have e1 := fireL_eff h _ post _ t ho hi he
      have e2 : Eff env items u { u with log := u.log ++ [.set k] } := ⟨hi, List.prefix_append .., fun _ _ h => absurd rfl h⟩
      refine ⟨hu.trans (e2.trans e1), fun j hj _ => ?_⟩
      obtain rfl := Ev.prop.inj hj
      exact e1.log.subset (by simp)
  | inserted i x =>
    obtain ⟨pre, post, hl, hp⟩ := hf.inserted
    have ho := hf.once (.inserted i x) pre post hl
    simp only [Env.lis, hl] at he
    obtain ⟨m, hm⟩ := fireL_pass (env := env) (ex := ex) (.inserted i x) (.recorder :: post) pre s fun y hy => by
      obtain ⟨j, rfl, hj⟩ := hp y hy
      exact ⟨j, rfl, hj i x⟩
    rw [hm] at he
    obtain ⟨l, h1, h2, h3, h4⟩ := hs
    simp only [fireL, record, h3, h2, Nat.lt_irrefl, if_false] at he
    refine ⟨?_, fun _ hj => by cases hj⟩
    have hi : Inv items { s with mem := m, recs := l.length + 1, log := s.log ++ [.insert l.length x] } := by
      refine ⟨by simp [h1], ?_⟩
      change replay (s.log ++ _) items = s.items
      rw [replay_append, h4, h1]
      simp [replay]
    have e1 := fireL_eff h _ post _ t ho hi he
    exact ⟨e1.inv, (List.prefix_append ..).trans e1.log, e1.props⟩
  | removed i =>
    obtain ⟨pre, post, hl, hp⟩ := hf.removed
    have ho := hf.once (.removed i) pre post hl
    simp only [Env.lis, hl] at he
    obtain ⟨m, hm⟩ := fireL_pass (env := env) (ex := ex) (.removed i) (.recorder :: post) pre s fun y hy => by
      obtain ⟨j, rfl, hj⟩ := hp y hy
      exact ⟨j, rfl, hj i⟩
    rw [hm] at he
    obtain ⟨l, h1, h0, h2, h3, h4⟩ := hs
    have hpos : 0 < l.length := List.length_pos_iff.2 h0
    have h5 : l.length - 1 + 1 = l.length := by omega
    simp only [fireL, record, h3, h2, h5, if_true] at he
    refine ⟨?_, fun _ hj => by cases hj⟩
    have hi : Inv items { s with mem := m, recs := l.length - 1, log := s.log ++ [.remove (l.length - 1)] } := by
      refine ⟨by simp [h1], ?_⟩
      change replay (s.log ++ _) items = s.items
      rw [replay_append, h4, h1]
      simp [replay, List.eraseIdx_length_sub_one]
    have e1 := fireL_eff h _ post _ t ho hi he
    exact ⟨e1.inv, (List.prefix_append ..).trans e1.log, e1.props⟩

theorem exec_ok (hf : env.First) (items : List α) : ∀ n, Ok env items (exec env n)
  | 0 => fun _ _ _ _ he => by simp [exec] at he
  | n + 1 => exec_step hf (exec_ok hf items n)

/-! ### Theorems -/

/-- C191: if nobody who is told before the recorder about items changes the object or raises, and nobody who is told before about properties raises,
then applying the recording to an object as the recorded one was makes it as the recorded one is, whatever the listeners do. -/
theorem C191_replay_partial (env : Env ι α V M) (hf : env.First) (props : ℕ → V) (items : List α) (m : M) (n : ℕ) (as : List (Act α V))
    (s : St α V M) (h : acts (exec env n) as (start props items m) = some s) :
    (apply s.props s.log (props, items)).2 = s.items ∧
    ∀ k, env.recordable k = true → (apply s.props s.log (props, items)).1 k = s.props k := by
  have e := acts_eff (exec_ok hf items n) as _ s ⟨rfl, rfl⟩ h
  refine ⟨(apply_snd _ _ _).trans e.inv.log, fun k hk => ?_⟩
  by_cases hm : Entry.set k ∈ s.log
  · exact (apply_fst s.props s.log k _).1 hm
  · rw [(apply_fst s.props s.log k _).2 hm]
    by_contra hne
    exact hm (e.props k hk fun he => hne he.symm)

/-! ### Cases -/

/-- Listener 0 appends 7 when it is told about an item other than 7, and sets property 1 to the number of items. Listener 1, told about
property 0, removes the last item and sets the property to 9 as long as there are more than two items. Listener 2 raises. -/
def exReact : ℕ → Ev ℕ → St ℕ ℕ ℕ → Reaction ℕ ℕ ℕ := fun i e s =>
  match i, e with
  | 0, .inserted _ x => ⟨s.mem + 1, if x = 7 then [] else [.append 7, .set 1 (s.items.length + 1)], false⟩
  | 1, .prop 0 => ⟨s.mem + 1, if 2 < s.items.length then [.removeLast, .set 0 9] else [], false⟩
  | 2, .prop _ => ⟨s.mem + 1, [], true⟩
  | _, _ => ⟨s.mem + 1, [], false⟩

def exEnv (props inserted : List (Lis ℕ)) : Env ℕ ℕ ℕ ℕ := ⟨props, inserted, [.user 3, .recorder], exReact, fun _ => true⟩

/-- The recorded object's properties and items at the end, and those of the object the recording is applied to. -/
def exRun (props inserted : List (Lis ℕ)) (as : List (Act ℕ ℕ)) : Option ((List ℕ × List ℕ) × (List ℕ × List ℕ)) :=
  (acts (exec (exEnv props inserted) 8) as (start (fun _ => 0) [1, 2] 0)).map fun s =>
    ((([0, 1].map s.props), s.items),
      ((([0, 1].map (apply s.props s.log (fun _ => 0, [1, 2])).1), (apply s.props s.log (fun _ => 0, [1, 2])).2)))

theorem exEnv_first : (exEnv [.recorder, .user 2] [.user 3, .recorder, .user 0]).First := by
  refine ⟨⟨[], [.user 2], rfl, by simp⟩, ⟨[.user 3], [.user 0], rfl, ?_⟩, ⟨[.user 3], [], rfl, ?_⟩, ?_⟩
  · simp [exEnv, exReact]
  · simp [exEnv, exReact]
  · intro e pre post h
    cases e <;> simp only [exEnv, Env.lis] at h
    all_goals
      rcases pre with _ | ⟨a, _ | ⟨b, pre⟩⟩
      all_goals simp at h
      all_goals try (rw [← h]; simp)
      all_goals try (rw [← h.2]; simp)
      all_goals try simp [h]
    obtain ⟨-, -, h⟩ := h
    rcases pre with _ | ⟨c, pre⟩ <;> simp at h

example : exRun [.recorder, .user 2] [.user 3, .recorder, .user 0] [.append 5, .append 6, .removeLast] =
    some (([0, 6], [1, 2, 5, 7, 6]), ([0, 6], [1, 2, 5, 7, 6])) := by decide +kernel

/-- A listener that is told about a property before the recorder may change the object. -/
example : exRun [.user 1, .recorder] [.recorder] [.append 5, .append 6, .set 0 4] = some (([9, 0], [1, 2]), ([9, 0], [1, 2])) := by decide +kernel

/-- C191: a listener that is told about 5 before the recorder and appends 7: only 7 is recorded. -/
theorem C191_counterexample : exRun [.recorder] [.user 0, .recorder] [.append 5] = some (([0, 4], [1, 2, 5, 7]), ([0, 4], [1, 2, 7])) := by
  decide +kernel

/-- C191: a listener that is told before the recorder raises: what it was told is not recorded. -/
theorem C191_counterexample_raises : exRun [.user 2, .recorder] [.recorder] [.set 0 5, .append 3] =
    some (([5, 0], [1, 2, 3]), ([0, 0], [1, 2, 3])) := by
  decide +kernel

end Verif.Persist.RecorderReentrant
