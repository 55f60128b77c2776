import Mathlib.Data.Int.Notation
import Mathlib.Data.List.Basic
import Mathlib.Data.List.Nodup
import Mathlib.Logic.Function.Basic
import Mathlib.Tactic.Common

set_option linter.unusedSectionVars false

/-!
C179: callbacks that change persistent objects. A `PersistentObject` (`nion/utils/Persistence.py`) calls `changed` of a property (lines
46-53), `item_changed` of an item (679-692), `insert` and `remove` of a relationship (703-731) while the storage is told of some changes and
not yet of others. Here callbacks set properties and items, insert into and remove from relationships of any objects of the same storage,
in any way that depends on the whole state, and may raise or catch exceptions (as `Event.fire` does for listeners).

`P`, `I` and `R` are the properties, items and relationships of all objects that have the storage (all stay in the context). Properties are
stored under their own name (C59 is about keys). The storage keeps what it is told: it deletes by index, raising if there is none, and
inserts as `list.insert` does. `none` is a recursion that does not end within the fuel.
-/

namespace Verif.Persist.Callbacks

/-- What callbacks and users do. -/
inductive Act (P I R V X : Type) where
  | set (p : P) (v : Option V)
  | setItem (k : I) (x : Option X)
  | insert (r : R) (i : ℤ) (x : X)
  | remove (r : R) (x : X)
deriving DecidableEq

/-- The callbacks. -/
inductive Call (P I R V X : Type) where
  | changed (p : P) (v : Option V)
  | itemChanged (k : I) (old new : Option X)
  | inserted (r : R) (i : ℤ) (x : X)
  | removed (r : R) (i : ℕ) (x : X)
deriving DecidableEq

/-- The objects and the storage. The last three fields are not in the code, they say what happens: relationships with a removal whose
callback is running; properties whose last assignment was ended by an exception of `changed`; relationships that were changed while a
removal from them was waiting for its callback, or from which a removal was ended by an exception of its callback. -/
structure St (P I R V X M : Type) where
  props : P → Option V
  stored : P → Option V
  items : I → Option X
  storedItems : I → Option X
  rels : R → List X
  storedRels : R → List X
  mem : M
  waiting : List R
  late : P → Bool
  mixed : R → Bool

variable {P I R V X M : Type} [DecidableEq P] [DecidableEq I] [DecidableEq R] [DecidableEq X]

/-- What a callback does: memory, actions in order, whether it raises then, whether it catches exceptions. -/
structure Reaction (P I R V X M : Type) where
  mem : M
  acts : List (Act P I R V X)
  raises : Bool
  catches : Bool

/-- The callbacks, which may look at everything. -/
abbrev Users (P I R V X M : Type) := Call P I R V X → St P I R V X M → Reaction P I R V X M

/-- The second component of a result says whether an exception was raised. -/
abbrev Exec (P I R V X M : Type) := Act P I R V X → St P I R V X M → Option (St P I R V X M × Bool)

/-- Actions one after the other, up to an exception. -/
def acts (ex : Exec P I R V X M) : List (Act P I R V X) → St P I R V X M → Option (St P I R V X M × Bool)
  | [], s => some (s, false)
  | a :: as, s => (ex a s).bind fun q => if q.2 then some q else acts ex as q.1

/-- A callback is called. -/
def call (u : Users P I R V X M) (ex : Exec P I R V X M) (c : Call P I R V X) (s : St P I R V X M) : Option (St P I R V X M × Bool) :=
  (acts ex (u c s).acts { s with mem := (u c s).mem }).map fun q => (q.1, (q.2 || (u c s).raises) && !(u c s).catches)

/-- `list.insert`. -/
def pyInsert (l : List X) (i : ℤ) (x : X) : List X :=
  let j := min (if i < 0 then i + l.length else i).toNat l.length
  l.take j ++ x :: l.drop j

/-- Lines 46-53 and 616-621, 644-657: the value is kept, `changed` is called, then the storage is told the value there is. -/
def setProp (u : Users P I R V X M) (ex : Exec P I R V X M) (p : P) (v : Option V) (s : St P I R V X M) : Option (St P I R V X M × Bool) :=
  (call u ex (.changed p v) { s with props := Function.update s.props p v }).map fun q =>
    if q.2 then ({ q.1 with late := Function.update q.1.late p true }, true)
    else ({ q.1 with stored := Function.update q.1.stored p (q.1.props p), late := Function.update q.1.late p false }, false)

/-- Lines 679-692 `set_item`: the storage is told before the callback is called. -/
def setItem (u : Users P I R V X M) (ex : Exec P I R V X M) (k : I) (x : Option X) (s : St P I R V X M) :
    Option (St P I R V X M × Bool) :=
  call u ex (.itemChanged k (s.items k) x)
    { s with items := Function.update s.items k x, storedItems := Function.update s.storedItems k x }

/-- Whether a relationship is changed now. -/
def touch (r : R) (s : St P I R V X M) : R → Bool := Function.update s.mixed r (s.mixed r || decide (r ∈ s.waiting))

/-- Lines 703-714 `insert_item`: the storage is told before the callback is called. -/
def insert (u : Users P I R V X M) (ex : Exec P I R V X M) (r : R) (i : ℤ) (x : X) (s : St P I R V X M) : Option (St P I R V X M × Bool) :=
  call u ex (.inserted r i x)
    { s with
      rels := Function.update s.rels r (pyInsert (s.rels r) i x)
      storedRels := Function.update s.storedRels r (pyInsert (s.storedRels r) i x)
      mixed := touch r s }

/-- Lines 720-731 `remove_item`, up to the callback. -/
def taken (r : R) (i : ℕ) (s : St P I R V X M) : St P I R V X M :=
  { s with rels := Function.update s.rels r ((s.rels r).eraseIdx i), waiting := r :: s.waiting, mixed := touch r s }

/-- Lines 720-731 `remove_item`, after the callback. -/
def tellRemoved (r : R) (i : ℕ) (w : List R) (q : St P I R V X M × Bool) : St P I R V X M × Bool :=
  if q.2 then ({ q.1 with waiting := w, mixed := Function.update q.1.mixed r true }, true)
  else if i < (q.1.storedRels r).length then
    ({ q.1 with waiting := w, storedRels := Function.update q.1.storedRels r ((q.1.storedRels r).eraseIdx i) }, false)
  else ({ q.1 with waiting := w }, true)

/-- Lines 720-731 `remove_item`: the callback is called before the storage is told. -/
def remove (u : Users P I R V X M) (ex : Exec P I R V X M) (r : R) (x : X) (s : St P I R V X M) : Option (St P I R V X M × Bool) :=
  if x ∈ s.rels r then
    (call u ex (.removed r ((s.rels r).idxOf x) x) (taken r ((s.rels r).idxOf x) s)).map (tellRemoved r ((s.rels r).idxOf x) s.waiting)
  else some (s, true)

/-- One action, with the nested ones run by `ex`. -/
def body (u : Users P I R V X M) (ex : Exec P I R V X M) : Exec P I R V X M
  | .set p v, s => setProp u ex p v s
  | .setItem k x, s => setItem u ex k x s
  | .insert r i x, s => insert u ex r i x s
  | .remove r x, s => remove u ex r x s

def exec (u : Users P I R V X M) : ℕ → Exec P I R V X M
  | 0, _, _ => none
  | n + 1, a, s => body u (exec u n) a s

/-- Calls of the user one after the other, whether they raise or not. -/
def run (ex : Exec P I R V X M) : List (Act P I R V X) → St P I R V X M → Option (St P I R V X M)
  | [], s => some s
  | a :: as, s => (ex a s).bind fun q => run ex as q.1

/-- Objects as they are in the storage. -/
def start (props : P → Option V) (items : I → Option X) (rels : R → List X) (m : M) : St P I R V X M :=
  ⟨props, props, items, items, rels, rels, m, [], fun _ => false, fun _ => false⟩

/-! ### Specification -/

/-- The storage has what the objects have. -/
def St.InStep (s : St P I R V X M) : Prop := s.stored = s.props ∧ s.storedItems = s.items ∧ s.storedRels = s.rels

/-- An action on properties and items only. -/
def Act.Flat : Act P I R V X → Prop
  | .set _ _ => True
  | .setItem _ _ => True
  | _ => False

/-- Callbacks for properties, items and removals set only properties and items and let no exception out. Callbacks for insertions do
anything. -/
def Quiet (u : Users P I R V X M) : Prop := ∀ c s, (∀ r i x, c ≠ .inserted r i x) →
  (∀ a ∈ (u c s).acts, a.Flat) ∧ ((u c s).raises = false ∨ (u c s).catches = true)

/-! ### Proof -/

variable {u : Users P I R V X M} {ex : Exec P I R V X M} {s t : St P I R V X M}

def SyncP (s : St P I R V X M) (p : P) : Prop := s.late p = false → s.stored p = s.props p

def SyncR (s : St P I R V X M) (r : R) : Prop := s.mixed r = false → s.storedRels r = s.rels r

/-- What running an action does. -/
structure Eff (s t : St P I R V X M) : Prop where
  wait : t.waiting = s.waiting
  mixed : ∀ r, s.mixed r = true → t.mixed r = true
  still : ∀ r ∈ s.waiting, t.mixed r = true ∨ (t.rels r = s.rels r ∧ t.storedRels r = s.storedRels r)
  props : ∀ p, SyncP s p → SyncP t p
  rels : ∀ r, SyncR s r → SyncR t r
  items : ∀ k, s.storedItems k = s.items k → t.storedItems k = t.items k

theorem Eff.refl (s : St P I R V X M) : Eff s s := ⟨rfl, fun _ => id, fun _ _ => .inr ⟨rfl, rfl⟩, fun _ => id, fun _ => id, fun _ => id⟩

theorem Eff.trans {q : St P I R V X M} (h : Eff s t) (k : Eff t q) : Eff s q := by
  refine ⟨k.wait.trans h.wait, fun r hr => k.mixed r (h.mixed r hr), fun r hr => ?_, fun p hp => k.props p (h.props p hp),
    fun r hr => k.rels r (h.rels r hr), fun i hi => k.items i (h.items i hi)⟩
  rcases h.still r hr with h1 | ⟨h1, h2⟩
  · exact .inl (k.mixed r h1)
  · rcases k.still r (h.wait ▸ hr) with k1 | ⟨k1, k2⟩
    · exact .inl k1
    · exact .inr ⟨k1.trans h1, k2.trans h2⟩

def Ok (ex : Exec P I R V X M) : Prop := ∀ a s q, ex a s = some q → Eff s q.1

theorem acts_eff (h : Ok ex) (as : List (Act P I R V X)) (s : St P I R V X M) (q : St P I R V X M × Bool) (he : acts ex as s = some q) :
    Eff s q.1 := by
  induction as generalizing s with
  | nil =>
    simp only [acts, Option.some.injEq] at he
    exact he ▸ .refl s
  | cons a as ih =>
    simp only [acts, Option.bind_eq_some_iff] at he
    obtain ⟨q1, h1, h2⟩ := he
    split at h2
    · cases h2
      exact h a s q h1
    · exact (h a s q1 h1).trans (ih _ h2)

theorem call_eff (h : Ok ex) (c : Call P I R V X) (s : St P I R V X M) (q : St P I R V X M × Bool) (he : call u ex c s = some q) :
    Eff s q.1 := by
  simp only [call, Option.map_eq_some_iff] at he
  obtain ⟨q1, h1, rfl⟩ := he
  have e := acts_eff h _ _ _ h1
  exact ⟨e.wait, e.mixed, e.still, e.props, e.rels, e.items⟩

theorem setProp_eff (h : Ok ex) (p : P) (v : Option V) (s : St P I R V X M) (q : St P I R V X M × Bool) (he : setProp u ex p v s = some q) :
    Eff s q.1 := by
  simp only [setProp, Option.map_eq_some_iff] at he
  obtain ⟨q1, h1, h2⟩ := he
  have e := call_eff h _ _ _ h1
  have hp : ∀ p', p' ≠ p → SyncP s p' → SyncP q1.1 p' := fun p' hn hs => e.props p' fun hl => by
    simpa only [Function.update_of_ne hn] using hs hl
  split at h2
  · subst h2
    refine ⟨e.wait, e.mixed, e.still, fun p' hs hl => ?_, e.rels, e.items⟩
    by_cases hn : p' = p
    · subst hn
      simp at hl
    · simp only [Function.update_of_ne hn] at hl
      exact hp p' hn hs hl
  · subst h2
    refine ⟨e.wait, e.mixed, e.still, fun p' hs hl => ?_, e.rels, e.items⟩
    by_cases hn : p' = p
    · subst hn
      simp
    · simp only [Function.update_of_ne hn] at hl ⊢
      exact hp p' hn hs hl

theorem setItem_eff (h : Ok ex) (k : I) (x : Option X) (s : St P I R V X M) (q : St P I R V X M × Bool)
    (he : setItem u ex k x s = some q) : Eff s q.1 := by
  have e := call_eff h _ _ _ he
  refine ⟨e.wait, e.mixed, e.still, e.props, e.rels, fun k' hk => e.items k' ?_⟩
  by_cases hn : k' = k
  · subst hn
    simp
  · simpa only [Function.update_of_ne hn] using hk

theorem touch_mono (r : R) (s : St P I R V X M) (r' : R) (h : s.mixed r' = true) : touch r s r' = true := by
  unfold touch
  by_cases hn : r' = r
  · subst hn
    simp [h]
  · simpa only [Function.update_of_ne hn] using h

theorem touch_waiting (r : R) (s : St P I R V X M) (h : r ∈ s.waiting) : touch r s r = true := by simp [touch, h]

theorem touch_false {r : R} {s : St P I R V X M} {r' : R} (h : touch r s r' = false) : s.mixed r' = false := by
  cases hm : s.mixed r' with
  | false => rfl
  | true => rw [touch_mono r s r' hm] at h; cases h

theorem insert_eff (h : Ok ex) (r : R) (i : ℤ) (x : X) (s : St P I R V X M) (q : St P I R V X M × Bool)
    (he : insert u ex r i x s = some q) : Eff s q.1 := by
  have e := call_eff h _ _ _ he
  refine ⟨e.wait, fun r' hr => e.mixed r' (touch_mono r s r' hr), fun r' hr => ?_, e.props, fun r' hr => e.rels r' fun hm => ?_, e.items⟩
  · by_cases hn : r' = r
    · subst hn
      exact .inl (e.mixed _ (touch_waiting _ s hr))
    · simpa only [Function.update_of_ne hn] using e.still r' hr
  · have hs := hr (touch_false hm)
    by_cases hn : r' = r
    · subst hn
      simp [hs]
    · simpa only [Function.update_of_ne hn] using hs

theorem remove_eff (h : Ok ex) (r : R) (x : X) (s : St P I R V X M) (q : St P I R V X M × Bool) (he : remove u ex r x s = some q) :
    Eff s q.1 := by
  unfold remove at he
  split at he
  swap
  · cases he
    exact .refl s
  rename_i hx
  rw [Option.map_eq_some_iff] at he
  obtain ⟨q1, h1, rfl⟩ := he
  have e := call_eff h _ _ _ h1
  have hother : ∀ r' ∈ s.waiting, r' ≠ r → q1.1.mixed r' = true ∨ (q1.1.rels r' = s.rels r' ∧ q1.1.storedRels r' = s.storedRels r') := by
    intro r' hr hn
    have := e.still r' (List.mem_cons_of_mem _ hr)
    simpa only [taken, Function.update_of_ne hn] using this
  have hself : r ∈ s.waiting → q1.1.mixed r = true := fun hr => e.mixed _ (touch_waiting _ s hr)
  have hsync : ∀ r', r' ≠ r → SyncR s r' → SyncR q1.1 r' := fun r' hn hs => e.rels r' fun hm => by
    simpa only [taken, Function.update_of_ne hn] using hs (touch_false hm)
  unfold tellRemoved
  split
  · refine ⟨rfl, fun r' hr => ?_, fun r' hr => ?_, e.props, fun r' hs hm => ?_, e.items⟩
    · by_cases hn : r' = r
      · subst hn
        simp
      · simpa only [Function.update_of_ne hn] using e.mixed r' (touch_mono r s r' hr)
    · by_cases hn : r' = r
      · subst hn
        simp
      · simpa only [Function.update_of_ne hn] using hother r' hr hn
    · by_cases hn : r' = r
      · subst hn
        simp at hm
      · simp only [Function.update_of_ne hn] at hm
        exact hsync r' hn hs hm
  · have hr0 : q1.1.mixed r = false → SyncR s r → s.storedRels r = s.rels r ∧ q1.1.rels r = (s.rels r).eraseIdx ((s.rels r).idxOf x) ∧
        q1.1.storedRels r = s.rels r := by
      intro hm hs
      have hm' : s.mixed r = false := by
        cases hc : s.mixed r with
        | false => rfl
        | true => rw [e.mixed r (touch_mono r s r hc)] at hm; cases hm
      rcases e.still r (List.mem_cons_self ..) with k | ⟨k1, k2⟩
      · rw [k] at hm
        cases hm
      · exact ⟨hs hm', k1.trans (by simp [taken]), k2.trans (hs hm')⟩
    split
    · refine ⟨rfl, fun r' hr => e.mixed r' (touch_mono r s r' hr), fun r' hr => ?_, e.props, fun r' hs hm => ?_, e.items⟩
      · by_cases hn : r' = r
        · subst hn
          exact .inl (hself hr)
        · simpa only [Function.update_of_ne hn] using hother r' hr hn
      · by_cases hn : r' = r
        · subst hn
          obtain ⟨-, h2, h3⟩ := hr0 hm hs
          simp [h2, h3]
        · simpa only [Function.update_of_ne hn] using hsync r' hn hs hm
    · rename_i hl
      refine ⟨rfl, fun r' hr => e.mixed r' (touch_mono r s r' hr), fun r' hr => ?_, e.props, fun r' hs hm => ?_, e.items⟩
      · by_cases hn : r' = r
        · subst hn
          exact .inl (hself hr)
        · exact hother r' hr hn
      · by_cases hn : r' = r
        · subst hn
          obtain ⟨-, -, h3⟩ := hr0 hm hs
          rw [h3] at hl
          exact absurd (List.idxOf_lt_length_iff.2 hx) hl
        · exact hsync r' hn hs hm

theorem body_ok (h : Ok ex) : Ok (body u ex) := by
  intro a s q he
  cases a with
  | set p v => exact setProp_eff h p v s q he
  | setItem k x => exact setItem_eff h k x s q he
  | insert r i x => exact insert_eff h r i x s q he
  | remove r x => exact remove_eff h r x s q he

theorem exec_ok (u : Users P I R V X M) : ∀ n, Ok (exec u n)
  | 0 => fun a s q he => by simp [exec] at he
  | n + 1 => fun a s q he => body_ok (exec_ok u n) a s q he

theorem run_eff (h : Ok ex) (as : List (Act P I R V X)) (s t : St P I R V X M) (he : run ex as s = some t) : Eff s t := by
  induction as generalizing s with
  | nil =>
    simp only [run, Option.some.injEq] at he
    exact he ▸ .refl s
  | cons a as ih =>
    simp only [run, Option.bind_eq_some_iff] at he
    obtain ⟨q, h1, h2⟩ := he
    exact (h a s q h1).trans (ih _ h2)

/-- C179: whatever the callbacks do, the storage has the value of every property whose last assignment was not ended by an exception of its
callback. -/
theorem C179_properties (u : Users P I R V X M) (props : P → Option V) (items : I → Option X) (rels : R → List X) (m : M) (n : ℕ)
    (as : List (Act P I R V X)) (s : St P I R V X M) (h : run (exec u n) as (start props items rels m) = some s) (p : P)
    (hp : s.late p = false) : s.stored p = s.props p :=
  (run_eff (exec_ok u n) as _ s h).props p (fun _ => rfl) hp

/-- C179: whatever the callbacks do, also when they raise, the storage has all items. -/
theorem C179_items (u : Users P I R V X M) (props : P → Option V) (items : I → Option X) (rels : R → List X) (m : M) (n : ℕ)
    (as : List (Act P I R V X)) (s : St P I R V X M) (h : run (exec u n) as (start props items rels m) = some s) : s.storedItems = s.items :=
  funext fun k => (run_eff (exec_ok u n) as _ s h).items k rfl

/-- C179: whatever the callbacks do, the storage has every relationship that was not changed while a removal from it was waiting for its
callback, and from which no removal was ended by an exception of its callback. -/
theorem C179_relationships_partial (u : Users P I R V X M) (props : P → Option V) (items : I → Option X) (rels : R → List X) (m : M) (n : ℕ)
    (as : List (Act P I R V X)) (s : St P I R V X M) (h : run (exec u n) as (start props items rels m) = some s) (r : R)
    (hr : s.mixed r = false) : s.storedRels r = s.rels r :=
  (run_eff (exec_ok u n) as _ s h).rels r (fun _ => rfl) hr

/-! ### Callbacks that keep to properties and items -/

/-- Nothing goes wrong. -/
structure Fine (s t : St P I R V X M) : Prop where
  mixed : t.mixed = s.mixed
  late : ∀ p, s.late p = false → t.late p = false

theorem Fine.refl (s : St P I R V X M) : Fine s s := ⟨rfl, fun _ => id⟩

theorem Fine.trans {q : St P I R V X M} (h : Fine s t) (k : Fine t q) : Fine s q := ⟨k.mixed.trans h.mixed, fun p hp => k.late p (h.late p hp)⟩

def FlatFine (ex : Exec P I R V X M) : Prop := ∀ a s q, a.Flat → ex a s = some q → q.2 = false ∧ Fine s q.1

theorem acts_flat (h : FlatFine ex) (as : List (Act P I R V X)) (hf : ∀ a ∈ as, a.Flat) (s : St P I R V X M) (q : St P I R V X M × Bool)
    (he : acts ex as s = some q) : q.2 = false ∧ Fine s q.1 := by
  induction as generalizing s with
  | nil =>
    simp only [acts, Option.some.injEq] at he
    subst he
    exact ⟨rfl, .refl s⟩
  | cons a as ih =>
    simp only [acts, Option.bind_eq_some_iff] at he
    obtain ⟨q1, h1, h2⟩ := he
    obtain ⟨k1, k2⟩ := h a s q1 (hf a (by simp)) h1
    rw [k1] at h2
    obtain ⟨g1, g2⟩ := ih (fun b hb => hf b (by simp [hb])) _ h2
    exact ⟨g1, k2.trans g2⟩

theorem call_flat (hu : Quiet u) (h : FlatFine ex) (c : Call P I R V X) (hc : ∀ r i x, c ≠ .inserted r i x) (s : St P I R V X M)
    (q : St P I R V X M × Bool) (he : call u ex c s = some q) : q.2 = false ∧ Fine s q.1 := by
  simp only [call, Option.map_eq_some_iff] at he
  obtain ⟨q1, h1, rfl⟩ := he
  obtain ⟨g1, g2⟩ := acts_flat h _ (hu c s hc).1 _ _ h1
  refine ⟨?_, g2.mixed, g2.late⟩
  rcases (hu c s hc).2 with k | k <;> simp [g1, k]

theorem setProp_flat (hu : Quiet u) (h : FlatFine ex) (p : P) (v : Option V) (s : St P I R V X M) (q : St P I R V X M × Bool)
    (he : setProp u ex p v s = some q) : q.2 = false ∧ Fine s q.1 := by
  simp only [setProp, Option.map_eq_some_iff] at he
  obtain ⟨q1, h1, h2⟩ := he
  obtain ⟨k1, k2⟩ := call_flat hu h _ (fun _ _ _ => by simp) _ _ h1
  rw [if_neg (by simp [k1])] at h2
  subst h2
  refine ⟨rfl, k2.mixed, fun p' hp => ?_⟩
  by_cases hn : p' = p
  · subst hn
    simp
  · simpa only [Function.update_of_ne hn] using k2.late p' hp

theorem exec_flat (hu : Quiet u) : ∀ n, FlatFine (exec u n)
  | 0 => fun a s q _ he => by simp [exec] at he
  | n + 1 => fun a s q hf he => by
    cases a with
    | set p v => exact setProp_flat hu (exec_flat hu n) p v s q he
    | setItem k x =>
      obtain ⟨g1, g2⟩ := call_flat hu (exec_flat hu n) _ (fun _ _ _ => by simp) _ _ he
      exact ⟨g1, g2.mixed, g2.late⟩
    | insert r i x => exact hf.elim
    | remove r x => exact hf.elim

def TopFine (ex : Exec P I R V X M) : Prop := ∀ a s q, s.waiting = [] → ex a s = some q → Fine s q.1

theorem acts_top (ho : Ok ex) (h : TopFine ex) (as : List (Act P I R V X)) (s : St P I R V X M) (q : St P I R V X M × Bool)
    (hw : s.waiting = []) (he : acts ex as s = some q) : Fine s q.1 := by
  induction as generalizing s with
  | nil =>
    simp only [acts, Option.some.injEq] at he
    exact he ▸ .refl s
  | cons a as ih =>
    simp only [acts, Option.bind_eq_some_iff] at he
    obtain ⟨q1, h1, h2⟩ := he
    split at h2
    · cases h2
      exact h a s q hw h1
    · exact (h a s q1 hw h1).trans (ih _ ((ho a s q1 h1).wait.trans hw) h2)

theorem touch_top (r : R) (s : St P I R V X M) (h : s.waiting = []) : touch r s = s.mixed := by simp [touch, h]

theorem exec_top (hu : Quiet u) : ∀ n, TopFine (exec u n)
  | 0 => fun a s q _ he => by simp [exec] at he
  | n + 1 => fun a s q hw he => by
    cases a with
    | set p v => exact (setProp_flat hu (exec_flat hu n) p v s q he).2
    | setItem k x =>
      obtain ⟨g1, g2⟩ := call_flat hu (exec_flat hu n) _ (fun _ _ _ => by simp) _ _ he
      exact ⟨g2.mixed, g2.late⟩
    | insert r i x =>
      simp only [exec, body, insert, call, Option.map_eq_some_iff] at he
      obtain ⟨q1, h1, rfl⟩ := he
      have g := acts_top (exec_ok u n) (exec_top hu n) _ _ q1 (by exact hw) h1
      exact ⟨g.mixed.trans (touch_top r s hw), g.late⟩
    | remove r x =>
      simp only [exec, body, remove] at he
      split at he
      · rw [Option.map_eq_some_iff] at he
        obtain ⟨q1, h1, rfl⟩ := he
        obtain ⟨g1, g2⟩ := call_flat hu (exec_flat hu n) _ (fun _ _ _ => by simp) _ _ h1
        have hm : q1.1.mixed = s.mixed := g2.mixed.trans (touch_top r s hw)
        unfold tellRemoved
        rw [if_neg (by simp [g1])]
        split
        · exact ⟨hm, g2.late⟩
        · exact ⟨hm, g2.late⟩
      · cases he
        exact .refl s

theorem run_top (ho : Ok ex) (h : TopFine ex) (as : List (Act P I R V X)) (s t : St P I R V X M)
    (hw : s.waiting = []) (he : run ex as s = some t) : Fine s t := by
  induction as generalizing s with
  | nil =>
    simp only [run, Option.some.injEq] at he
    exact he ▸ .refl s
  | cons a as ih =>
    simp only [run, Option.bind_eq_some_iff] at he
    obtain ⟨q1, h1, h2⟩ := he
    exact (h a s q1 hw h1).trans (ih _ ((ho a s q1 h1).wait.trans hw) h2)

/-- C179 (partial: callbacks for properties, items and removals set only properties and items and let no exception out): the storage has
everything, whatever values they set and whatever the callbacks for insertions do. -/
theorem C179_quiet_partial (u : Users P I R V X M) (hu : Quiet u) (props : P → Option V) (items : I → Option X) (rels : R → List X) (m : M)
    (n : ℕ) (as : List (Act P I R V X)) (s : St P I R V X M) (h : run (exec u n) as (start props items rels m) = some s) : s.InStep := by
  have f := run_top (exec_ok u n) (exec_top hu n) as _ s rfl h
  exact ⟨funext fun p => C179_properties u props items rels m n as s h p (f.late p rfl), C179_items u props items rels m n as s h,
    funext fun r => C179_relationships_partial u props items rels m n as s h r (by rw [f.mixed]; rfl)⟩

/-! ### Removals that remove -/

theorem erase_iff (l : List X) (hl : l.Nodup) (x y : X) (hx : x ∈ l) (hy : y ∈ l) (hn : x ≠ y) :
    (l.eraseIdx ((l.erase x).idxOf y)).eraseIdx (l.idxOf x) = (l.erase x).erase y ↔ ∃ a b, l = a ++ x :: y :: b := by
  have hxi : l[l.idxOf x]? = some x := by simp [List.getElem?_eq_getElem (List.idxOf_lt_length_iff.2 hx)]
  have hy' : y ∈ l.erase x := (List.mem_erase_of_ne hn.symm).2 hy
  have hyj : (l.erase x)[(l.erase x).idxOf y]? = some y := by simp [List.getElem?_eq_getElem (List.idxOf_lt_length_iff.2 hy')]
  constructor
  · intro h
    have h1 : x ∉ (l.erase x).erase y := fun hm => hl.not_mem_erase (List.mem_of_mem_erase hm)
    have h2 : y ∉ (l.erase x).erase y := (hl.erase x).not_mem_erase
    rw [← h, List.mem_eraseIdx_iff_getElem?] at h1 h2
    rw [← List.eraseIdx_idxOf_eq_erase, List.getElem?_eraseIdx, List.eraseIdx_idxOf_eq_erase] at hyj
    generalize l.idxOf x = i at *
    generalize (l.erase x).idxOf y = j at *
    rcases Nat.lt_trichotomy j i with hji | rfl | hij
    · refine absurd ⟨i - 1, by omega, ?_⟩ h1
      rw [List.getElem?_eraseIdx, if_neg (by omega), show i - 1 + 1 = i by omega, hxi]
    · rw [if_neg (Nat.lt_irrefl _)] at hyj
      obtain ⟨hx1, hx2⟩ := List.getElem?_eq_some_iff.1 hxi
      obtain ⟨hy1, hy2⟩ := List.getElem?_eq_some_iff.1 hyj
      refine ⟨l.take j, l.drop (j + 1 + 1), ?_⟩
      rw [← hx2, ← hy2, ← List.drop_eq_getElem_cons hy1, ← List.drop_eq_getElem_cons hx1, List.take_append_drop]
    · rw [if_neg (by omega)] at hyj
      refine absurd ⟨j, by omega, ?_⟩ h2
      rw [List.getElem?_eraseIdx, if_neg (by omega), hyj]
  · rintro ⟨a, b, rfl⟩
    have hxa : x ∉ a := fun hm => (List.disjoint_of_nodup_append hl) hm (by simp)
    have hya : y ∉ a := fun hm => (List.disjoint_of_nodup_append hl) hm (by simp)
    simp [List.erase_append_right _ hxa, List.erase_append_right _ hya, List.idxOf_append_of_notMem hxa, List.idxOf_append_of_notMem hya,
      List.eraseIdx_append_of_length_le]

/-- C179: a removal whose callback removes another item of the same relationship (all different) removes both, and the storage has what the
relationship has just if the other item came directly after the first. -/
theorem C179_cascade_iff (u : Users P I R V X M) (s : St P I R V X M) (r : R) (x y : X) (n : ℕ) (hs : s.storedRels r = s.rels r)
    (hl : (s.rels r).Nodup) (hx : x ∈ s.rels r) (hy : y ∈ s.rels r) (hn : x ≠ y)
    (hux : ∀ i t, (u (.removed r i x) t).acts = [.remove r y] ∧ (u (.removed r i x) t).raises = false)
    (huy : ∀ i t, (u (.removed r i y) t).acts = [] ∧ (u (.removed r i y) t).raises = false) :
    ∃ q, exec u (n + 2) (.remove r x) s = some q ∧ q.1.rels r = ((s.rels r).erase x).erase y ∧
      (q.1.storedRels r = q.1.rels r ↔ ∃ a b, s.rels r = a ++ x :: y :: b) := by
  have hy' : y ∈ (s.rels r).erase x := (List.mem_erase_of_ne hn.symm).2 hy
  have hj : List.idxOf y ((s.rels r).erase x) < (s.rels r).length := by
    have := List.idxOf_lt_length_iff.2 hy'
    rw [List.length_erase_of_mem hx] at this
    omega
  rw [← erase_iff (s.rels r) hl x y hx hy hn]
  by_cases hi : (s.rels r).idxOf x < ((s.rels r).eraseIdx (List.idxOf y ((s.rels r).erase x))).length
  · refine ⟨_, by simp [exec, body, remove, call, hx, hux, huy, acts, taken, hy', List.eraseIdx_idxOf_eq_erase, tellRemoved, hs, hj, hi]; rfl, ?_⟩
    simp
  · refine ⟨_, by simp [exec, body, remove, call, hx, hux, huy, acts, taken, hy', List.eraseIdx_idxOf_eq_erase, tellRemoved, hs, hj, hi]; rfl, ?_⟩
    simp only [Function.update_self, true_and]
    rw [List.eraseIdx_of_length_le (Nat.not_lt.1 hi)]

/-! ### Examples -/

/-- Property 0 is limited to ten, and property 1 keeps the last value above; 2 raises after setting 0; 3 sets 0 and catches exceptions; 4 sets 2, then 0;
5 removes 2, then sets 0; the removal of 2 removes 1, the removal of 4 removes 5, and the insertion of 9 inserts 10, removes 8 and sets an item. -/
def exReact : Users ℕ ℕ ℕ ℕ ℕ Unit
  | .changed 0 (some v), _ => ⟨(), if 10 < v then [.set 0 (some 10), .set 1 (some v)] else [], false, false⟩
  | .changed 2 _, _ => ⟨(), [.set 0 (some 6)], true, false⟩
  | .changed 3 _, _ => ⟨(), [.set 0 (some 15), .remove 0 77, .set 0 (some 1)], false, true⟩
  | .changed 4 _, _ => ⟨(), [.set 2 (some 3), .set 0 (some 4)], false, false⟩
  | .changed 5 _, _ => ⟨(), [.remove 0 2, .set 0 (some 4)], false, false⟩
  | .removed 0 _ 2, _ => ⟨(), [.remove 0 1], false, false⟩
  | .removed 0 _ 4, _ => ⟨(), [.remove 0 5], false, false⟩
  | .inserted 0 _ 9, _ => ⟨(), [.insert 0 0 10, .remove 0 8, .setItem 0 (some 9)], false, false⟩
  | _, _ => ⟨(), [], false, false⟩

/-- Objects without properties and items, and the items of relationship 0. -/
def ex0 (l : List ℕ) : St ℕ ℕ ℕ ℕ ℕ Unit := start (fun _ => none) (fun _ => none) (fun r => if r = 0 then l else []) ()

/-- The limited value is stored, also when the assignment comes from another callback. -/
example : (run (exec exReact 5) [.set 0 (some 12), .set 3 (some 1)] (ex0 [])).map
    (fun s => (s.props 0, s.stored 0, s.stored 1, s.stored 3)) = some (some 10, some 10, some 15, some 1) := by decide

/-- A callback of an insertion may change the relationship. -/
example : (run (exec exReact 5) [.insert 0 (-1) 9] (ex0 [7, 8, 6])).map
    (fun s => (s.rels 0, s.storedRels 0, s.storedItems 0)) = some ([10, 7, 9, 6], [10, 7, 9, 6], some 9) := by decide

/-- The removal of 4 also removes the item that comes after it. -/
example : (run (exec exReact 5) [.remove 0 4] (ex0 [3, 4, 5, 6])).map (fun s => (s.rels 0, s.storedRels 0)) = some ([3, 6], [3, 6]) := by decide

/-- C179: when the callback of a removal removes the item before, the storage keeps the removed item and loses another. -/
theorem C179_counterexample_cascade : (run (exec exReact 5) [.remove 0 2] (ex0 [1, 2, 3])).map
    (fun s => (s.rels 0, s.storedRels 0)) = some ([3], [2]) := by decide

/-- C179: when the callback of a removal removes an item further behind. -/
theorem C179_counterexample_behind : (run (exec exReact 5) [.remove 0 4] (ex0 [4, 1, 5, 6])).map
    (fun s => (s.rels 0, s.storedRels 0)) = some ([1, 6], [5, 6]) := by decide

/-- C179: when the callback of a removal removes the item before and that was the last one, there is no such item in the storage: the removal
raises, what follows is not done, and the storage keeps the removed item. -/
theorem C179_counterexample_index : (run (exec exReact 5) [.set 5 (some 1)] (ex0 [1, 2])).map
    (fun s => (s.rels 0, s.storedRels 0, s.props 0, s.props 5, s.stored 5)) = some ([], [2], none, some 1, none) := by decide

/-- C179: when the callback of a property raises, the object has the new value and the storage has none. -/
theorem C179_counterexample_raises : (run (exec exReact 5) [.set 2 (some 1)] (ex0 [])).map
    (fun s => (s.props 2, s.stored 2, s.stored 0)) = some (some 1, none, some 6) := by decide

/-- C179: when the callback of a property sets a property whose callback raises, the storage has neither, and the first callback ends. -/
theorem C179_counterexample_nested : (run (exec exReact 5) [.set 4 (some 1)] (ex0 [])).map
    (fun s => (s.props 4, s.stored 4, s.props 2, s.stored 2, s.stored 0)) = some (some 1, none, some 3, none, some 6) := by decide

end Verif.Persist.Callbacks
