import Mathlib.Data.Nat.Notation
import Mathlib.Tactic.SplitIfs
import Mathlib.Logic.Function.Basic

set_option linter.unusedSectionVars false
set_option linter.unusedSimpArgs false

/-!
C189: several bindings (`nion/utils/Binding.py:82-165`, 213-420) to the properties of one source, whose targets act when they are set: they
call `update_source` of bindings and set properties of the source, in any way that depends on the whole state, and raise; as do other
listeners of the source. Converters and validators may raise. `Event.fire` (`nion/utils/Event.py:103-114`) ends with the first exception.

A binding has a property of the source, what it sets its target to for a value of the property (converted value or fallback, `none` if the
converter raises), and what `update_source` sets the property to, given the value it has (`none` if converter or validator raises). The
source fires `property_changed_event` when a property is set, unless it takes the new value for the same (as `PropertyModel` does,
`nion/utils/Model.py:43-54`). A target keeps the value before it acts. `none` is a recursion that does not end within the fuel.
-/

namespace Verif.Binding.Targets

variable {ι P V T M : Type} [DecidableEq ι] [DecidableEq P]

structure Bound (P V T : Type) where
  key : P
  target : V → Option T
  source : T → V → Option V

/-! The three kinds of bindings, values being optional as `None` is a value. -/

/-- Lines 231-253 with 74-126: `property_changed`, `update_source`. -/
def propertyBinding (key : P) (convert : V → Option T) (fallback : T) (back : T → Option (Option V)) : Bound P (Option V) T where
  key := key
  target v := match v with
    | some v => convert v
    | none => some fallback
  source t _ := back t

/-- Lines 279-314: `attr` is `getattr` of the attribute, `none` if there is none; `put` is `update_attribute_fn`. -/
def attributeBinding {A : Type} (key : P) (attr : V → Option A) (convert : A → Option T) (fallback : T) (back : T → Option A)
    (put : Option V → A → Option (Option V)) : Bound P (Option V) T where
  key := key
  target v := match v.bind attr with
    | some a => convert a
    | none => some fallback
  source t v := (back t).bind (put v)

/-- Lines 337-374, for a natural number as index. -/
def tupleBinding (key : P) (i : ℕ) (convert : Option V → Option T) (fallback : T) (back : T → Option (Option V)) :
    Bound P (Option (List (Option V))) T where
  key := key
  target v := match v with
    | some l => if h : i < l.length then convert l[i] else some fallback
    | none => some fallback
  source t v := (back t).map fun x => some (((v.getD []) ++ List.replicate (i + 1 - (v.getD []).length) none).set i x)

/-- What users, targets and listeners do: set a property, call `update_source` of a binding. -/
inductive Act (ι P V T : Type) where
  | set (p : P) (v : V)
  | update (i : ι) (t : T)

/-- The properties of the source, what the targets show, the memory of the listeners; not in the code: the listeners that have raised. -/
structure St (ι P V T M : Type) where
  val : P → V
  shown : ι → Option T
  mem : M
  bad : ι → Bool

structure Reaction (ι P V T M : Type) where
  mem : M
  acts : List (Act ι P V T)
  raises : Bool

/-- The listeners of the source in order, those of them that are bindings, which values the source takes for the same, what the targets and
the other listeners do. -/
structure Users (ι P V T M : Type) where
  ls : List ι
  bind : ι → Option (Bound P V T)
  same : P → V → V → Bool
  react : ι → P → St ι P V T M → Reaction ι P V T M

abbrev Exec (ι P V T M : Type) := Act ι P V T → St ι P V T M → Option (St ι P V T M × Bool)

/-- Acts one after the other, up to an exception. -/
def acts (ex : Exec ι P V T M) : List (Act ι P V T) → St ι P V T M → Option (St ι P V T M × Bool)
  | [], s => some (s, false)
  | a :: as, s => (ex a s).bind fun r => if r.2 then some r else acts ex as r.1

def note (i : ι) (raised : Bool) (s : St ι P V T M) : St ι P V T M := { s with bad := fun j => s.bad j || (raised && (j = i : Bool)) }

/-- The target of a binding, or another listener, acts. -/
def react (u : Users ι P V T M) (ex : Exec ι P V T M) (p : P) (i : ι) (s : St ι P V T M) : Option (St ι P V T M × Bool) :=
  (acts ex (u.react i p s).acts { s with mem := (u.react i p s).mem }).map fun r =>
    (note i (r.2 || (u.react i p s).raises) r.1, r.2 || (u.react i p s).raises)

/-- A listener of the source is told of property `p`; for a binding lines 236-243: it reads the property. -/
def tell (u : Users ι P V T M) (ex : Exec ι P V T M) (p : P) (i : ι) (s : St ι P V T M) : Option (St ι P V T M × Bool) :=
  match u.bind i with
  | some b =>
    if b.key = p then
      match b.target (s.val p) with
      | some t => react u ex p i { s with shown := Function.update s.shown i (some t) }
      | none => some (note i true s, true)
    else some (s, false)
  | none => react u ex p i s

/-- `Event.fire`. -/
def fireL (u : Users ι P V T M) (ex : Exec ι P V T M) (p : P) : List ι → St ι P V T M → Option (St ι P V T M)
  | [], s => some s
  | i :: is, s => (tell u ex p i s).bind fun r => if r.2 then some r.1 else fireL u ex p is r.1

/-- A property of the source is set. -/
def set (u : Users ι P V T M) (ex : Exec ι P V T M) (p : P) (v : V) (s : St ι P V T M) : Option (St ι P V T M) :=
  if u.same p v (s.val p) then some s else fireL u ex p u.ls { s with val := Function.update s.val p v }

/-- Lines 95-107 `update_source`. -/
def update (u : Users ι P V T M) (ex : Exec ι P V T M) (i : ι) (t : T) (s : St ι P V T M) : Option (St ι P V T M × Bool) :=
  match u.bind i with
  | some b =>
    match b.source t (s.val b.key) with
    | some v => (set u ex b.key v s).map fun s => (s, false)
    | none => some (s, true)
  | none => some (s, false)

def body (u : Users ι P V T M) (ex : Exec ι P V T M) : Exec ι P V T M
  | .set p v, s => (set u ex p v s).map fun s => (s, false)
  | .update i t, s => update u ex i t s

def exec (u : Users ι P V T M) : ℕ → Exec ι P V T M
  | 0 => fun _ _ => none
  | n + 1 => body u (exec u n)

/-- What users do, one thing after the other; they go on after exceptions. -/
def run (u : Users ι P V T M) (fuel : ℕ) : List (Act ι P V T) → St ι P V T M → Option (St ι P V T M)
  | [], s => some s
  | a :: as, s => (exec u fuel a s).bind fun r => run u fuel as r.1

/-! ### What the claim is about -/

/-- No listener before `i` is one of those that raised. -/
def Hears (l : List ι) (bad : ι → Bool) (i : ι) : Prop := ∃ a b : List ι, l = a ++ i :: b ∧ ∀ j ∈ a, bad j = false

/-- The target shows what the binding makes of the property, unless the converter raises for it. -/
def Shows (u : Users ι P V T M) (s : St ι P V T M) (i : ι) : Prop :=
  ∀ b : Bound P V T, u.bind i = some b → b.target (s.val b.key) = none ∨ s.shown i = b.target (s.val b.key)

/-! ### Proofs -/

structure Eff (u : Users ι P V T M) (s t : St ι P V T M) : Prop where
  bad : ∀ i : ι, s.bad i = true → t.bad i = true
  shows : ∀ i : ι, Hears u.ls t.bad i → Shows u t i ∨
    (t.shown i = s.shown i ∧ ∀ b : Bound P V T, u.bind i = some b → t.val b.key = s.val b.key)

theorem Hears.mono {l : List ι} {b b' : ι → Bool} (h : ∀ i : ι, b i = true → b' i = true) {i : ι} (hh : Hears l b' i) : Hears l b i := by
  obtain ⟨x, y, h1, h2⟩ := hh
  refine ⟨x, y, h1, fun j hj => ?_⟩
  cases hb : b j with
  | false => rfl
  | true => exact absurd (h j hb) (by rw [h2 j hj]; simp)

theorem Shows.same {u : Users ι P V T M} {s t : St ι P V T M} {i : ι} (h : Shows u s i) (h1 : t.shown i = s.shown i)
    (h2 : ∀ b : Bound P V T, u.bind i = some b → t.val b.key = s.val b.key) : Shows u t i := by
  intro b hb
  rw [h1, h2 b hb]
  exact h b hb

theorem Eff.refl (u : Users ι P V T M) (s : St ι P V T M) : Eff u s s := ⟨fun _ h => h, fun _ _ => .inr ⟨rfl, fun _ _ => rfl⟩⟩

theorem Eff.trans {u : Users ι P V T M} {s t w : St ι P V T M} (h : Eff u s t) (h' : Eff u t w) : Eff u s w := by
  refine ⟨fun i hi => h'.bad i (h.bad i hi), fun i hi => ?_⟩
  rcases h'.shows i hi with h1 | ⟨h1, h2⟩
  · exact .inl h1
  · rcases h.shows i (hi.mono h'.bad) with h3 | ⟨h3, h4⟩
    · exact .inl (h3.same h1 h2)
    · exact .inr ⟨h1.trans h3, fun b hb => (h2 b hb).trans (h4 b hb)⟩

theorem Eff.keeps {u : Users ι P V T M} {s t : St ι P V T M} (h : Eff u s t) {i : ι} (hi : Hears u.ls t.bad i) (hs : Shows u s i) :
    Shows u t i := by
  rcases h.shows i hi with h1 | ⟨h1, h2⟩
  · exact h1
  · exact hs.same h1 h2

def Ok (u : Users ι P V T M) (ex : Exec ι P V T M) : Prop :=
  ∀ (a : Act ι P V T) (s : St ι P V T M) (r : St ι P V T M × Bool), ex a s = some r → Eff u s r.1

variable {u : Users ι P V T M} {ex : Exec ι P V T M}

theorem acts_eff (ok : Ok u ex) (as : List (Act ι P V T)) (s : St ι P V T M) (r : St ι P V T M × Bool)
    (h : acts ex as s = some r) : Eff u s r.1 := by
  induction as generalizing s with
  | nil => simp only [acts, Option.some.injEq] at h; subst h; exact .refl u s
  | cons a as ih =>
    simp only [acts, Option.bind_eq_some_iff] at h
    obtain ⟨r', h1, h2⟩ := h
    have e1 := ok a s r' h1
    split at h2
    · simp only [Option.some.injEq] at h2; subst h2; exact e1
    · exact e1.trans (ih r'.1 h2)

theorem note_eff (i : ι) (b : Bool) (s : St ι P V T M) : Eff u s (note i b s) :=
  ⟨fun _ h => by simp [note, h], fun _ _ => .inr ⟨rfl, fun _ _ => rfl⟩⟩

theorem react_eff (ok : Ok u ex) (p : P) (i : ι) (s : St ι P V T M) (r : St ι P V T M × Bool) (h : react u ex p i s = some r) :
    Eff u s r.1 ∧ (r.2 = true → r.1.bad i = true) := by
  simp only [react, Option.map_eq_some_iff] at h
  obtain ⟨r', h1, rfl⟩ := h
  have e0 : Eff u s { s with mem := (u.react i p s).mem } := ⟨fun _ h => h, fun _ _ => .inr ⟨rfl, fun _ _ => rfl⟩⟩
  refine ⟨(e0.trans (acts_eff ok _ _ _ h1)).trans (note_eff i _ r'.1), fun hb => ?_⟩
  have hb : (r'.2 || (u.react i p s).raises) = true := hb
  simp [note, hb]

theorem tell_eff (ok : Ok u ex) (p : P) (i : ι) (s : St ι P V T M) (r : St ι P V T M × Bool) (h : tell u ex p i s = some r) :
    Eff u s r.1 ∧ (r.2 = true → r.1.bad i = true) ∧
    (Hears u.ls r.1.bad i → (∃ b : Bound P V T, u.bind i = some b ∧ b.key = p) → Shows u r.1 i) := by
  unfold tell at h
  split at h
  case h_1 b hb =>
    split at h
    case isTrue hk =>
      split at h
      case h_1 t ht =>
        have hs : Shows u { s with shown := Function.update s.shown i (some t) } i := by
          intro b' hb'
          rw [hb] at hb'
          cases hb'
          right
          rw [hk, ht]
          simp
        obtain ⟨e1, b1⟩ := react_eff ok p i _ r h
        have e0 : Eff u s { s with shown := Function.update s.shown i (some t) } := by
          refine ⟨fun _ h => h, fun j _ => ?_⟩
          by_cases hj : j = i
          · rw [hj]; exact .inl hs
          · exact .inr ⟨by simp [Function.update, hj], fun _ _ => rfl⟩
        exact ⟨e0.trans e1, b1, fun hh _ => e1.keeps hh hs⟩
      case h_2 ht =>
        simp only [Option.some.injEq] at h
        subst h
        refine ⟨note_eff i true s, fun _ => by simp [note], fun _ _ b' hb' => ?_⟩
        rw [hb] at hb'
        cases hb'
        left
        rw [hk]
        exact ht
    case isFalse hk =>
      simp only [Option.some.injEq] at h
      subst h
      refine ⟨.refl u s, fun h => by simp at h, fun _ ⟨b', hb', hk'⟩ => ?_⟩
      rw [hb] at hb'
      cases hb'
      exact absurd hk' hk
  case h_2 hb =>
    obtain ⟨e1, b1⟩ := react_eff ok p i s r h
    exact ⟨e1, b1, fun _ ⟨b', hb', _⟩ => by rw [hb] at hb'; cases hb'⟩

theorem fireL_eff (ok : Ok u ex) (p : P) (l : List ι) (s t : St ι P V T M) (h : fireL u ex p l s = some t) :
    Eff u s t ∧ ∀ (i : ι) (a b : List ι), l = a ++ i :: b → (∀ j ∈ a, t.bad j = false) → Hears u.ls t.bad i →
      (∃ b : Bound P V T, u.bind i = some b ∧ b.key = p) → Shows u t i := by
  induction l generalizing s with
  | nil =>
    simp only [fireL, Option.some.injEq] at h
    subst h
    exact ⟨.refl u s, fun i a b hl => by simp at hl⟩
  | cons k l ih =>
    simp only [fireL, Option.bind_eq_some_iff] at h
    obtain ⟨r, h1, h2⟩ := h
    obtain ⟨e1, b1, f1⟩ := tell_eff ok p k s r h1
    cases hr : r.2 with
    | true =>
      simp only [hr, if_true, Option.some.injEq] at h2
      subst h2
      refine ⟨e1, fun i a b hl ha hh hb => ?_⟩
      cases a with
      | nil =>
        simp only [List.nil_append, List.cons.injEq] at hl
        obtain ⟨rfl, rfl⟩ := hl
        exact f1 hh hb
      | cons j a =>
        simp only [List.cons_append, List.cons.injEq] at hl
        have := ha j List.mem_cons_self
        rw [← hl.1, b1 hr] at this
        exact absurd this (by simp)
    | false =>
      simp only [hr, Bool.false_eq_true, if_false] at h2
      obtain ⟨e2, f2⟩ := ih r.1 h2
      refine ⟨e1.trans e2, fun i a b hl ha hh hb => ?_⟩
      cases a with
      | nil =>
        simp only [List.nil_append, List.cons.injEq] at hl
        obtain ⟨rfl, rfl⟩ := hl
        exact e2.keeps hh (f1 (hh.mono e2.bad) hb)
      | cons j a =>
        simp only [List.cons_append, List.cons.injEq] at hl
        exact f2 i a b hl.2 (fun x hx => ha x (List.mem_cons_of_mem _ hx)) hh hb

theorem set_eff (ok : Ok u ex) (p : P) (v : V) (s t : St ι P V T M) (h : set u ex p v s = some t) : Eff u s t := by
  unfold set at h
  split at h
  · simp only [Option.some.injEq] at h; subst h; exact .refl u s
  · obtain ⟨e1, f1⟩ := fireL_eff ok p u.ls _ t h
    refine ⟨e1.bad, fun i hi => ?_⟩
    by_cases hb : ∃ b : Bound P V T, u.bind i = some b ∧ b.key = p
    · obtain ⟨x, y, h1, h2⟩ := id hi
      exact .inl (f1 i x y h1 h2 hi hb)
    · rcases e1.shows i hi with h1 | ⟨h1, h2⟩
      · exact .inl h1
      · refine .inr ⟨h1, fun b hb' => ?_⟩
        have hne : b.key ≠ p := fun hk => hb ⟨b, hb', hk⟩
        rw [h2 b hb']
        simp [Function.update, hne]

theorem body_ok (ok : Ok u ex) : Ok u (body u ex) := by
  intro a s r h
  cases a with
  | set p v =>
    simp only [body, Option.map_eq_some_iff] at h
    obtain ⟨t, h, rfl⟩ := h
    exact set_eff ok p v s t h
  | update i t =>
    have h2 : update u ex i t s = some r := h
    unfold update at h2
    split at h2
    · split at h2
      · simp only [Option.map_eq_some_iff] at h2
        obtain ⟨t', h3, rfl⟩ := h2
        exact set_eff ok _ _ s t' h3
      · simp only [Option.some.injEq] at h2; subst h2; exact .refl u s
    · simp only [Option.some.injEq] at h2; subst h2; exact .refl u s

theorem exec_ok (u : Users ι P V T M) (fuel : ℕ) : Ok u (exec u fuel) := by
  induction fuel with
  | zero => intro a s r h; simp [exec] at h
  | succ n ih => exact body_ok ih

theorem run_eff (u : Users ι P V T M) (fuel : ℕ) (as : List (Act ι P V T)) (s t : St ι P V T M)
    (h : run u fuel as s = some t) : Eff u s t := by
  induction as generalizing s with
  | nil => simp only [run, Option.some.injEq] at h; subst h; exact .refl u s
  | cons a as ih =>
    simp only [run, Option.bind_eq_some_iff] at h
    obtain ⟨r, h1, h2⟩ := h
    exact (exec_ok u fuel a s r h1).trans (ih r.1 h2)

/-- Each target shows in the end what its binding makes of the property, if it did before, unless the converter raises for this value or a
listener told before the binding has raised. -/
theorem C189_targets_partial (u : Users ι P V T M) (fuel : ℕ) (as : List (Act ι P V T)) (s t : St ι P V T M)
    (h : run u fuel as s = some t) (i : ι) (hi : Hears u.ls t.bad i) (hs : Shows u s i) : Shows u t i :=
  (run_eff u fuel as s t h).keeps hi hs

/-- Also if it did not, as soon as the property has changed. -/
theorem C189_changed_partial (u : Users ι P V T M) (fuel : ℕ) (as : List (Act ι P V T)) (s t : St ι P V T M)
    (h : run u fuel as s = some t) (i : ι) (hi : Hears u.ls t.bad i) (b : Bound P V T) (hb : u.bind i = some b)
    (hc : t.val b.key ≠ s.val b.key) : b.target (t.val b.key) = none ∨ t.shown i = b.target (t.val b.key) := by
  rcases (run_eff u fuel as s t h).shows i hi with h1 | ⟨_, h2⟩
  · exact h1 b hb
  · exact absurd (h2 b hb) hc

/-- If nobody raises all targets show what they should. -/
theorem C189_all (u : Users ι P V T M) (fuel : ℕ) (as : List (Act ι P V T)) (s t : St ι P V T M)
    (h : run u fuel as s = some t) (hb : ∀ i ∈ u.ls, t.bad i = false) (hs : ∀ i ∈ u.ls, Shows u s i) :
    ∀ i ∈ u.ls, Shows u t i := by
  intro i hi
  obtain ⟨a, b, hl⟩ := List.append_of_mem hi
  exact C189_targets_partial u fuel as s t h i ⟨a, b, hl, fun j hj => hb j (by rw [hl]; simp [hj])⟩ (hs i hi)

/-- `update_source` raises exactly if converter or validator do, and then nothing happens; setting a property does not raise. -/
theorem C189_raises (u : Users ι P V T M) (fuel : ℕ) (s t : St ι P V T M) :
    (∀ (p : P) (v : V), exec u fuel (.set p v) s ≠ some (t, true)) ∧
    ∀ (i : ι) (x : T), exec u fuel (.update i x) s = some (t, true) →
      t = s ∧ ∃ b : Bound P V T, u.bind i = some b ∧ b.source x (s.val b.key) = none := by
  cases fuel with
  | zero => exact ⟨fun _ _ h => by simp [exec] at h, fun _ _ h => by simp [exec] at h⟩
  | succ n =>
    refine ⟨fun p v h => ?_, fun i x h => ?_⟩
    · simp only [exec, body, Option.map_eq_some_iff] at h
      obtain ⟨_, _, h⟩ := h
      simp at h
    · have h : update u (exec u n) i x s = some (t, true) := h
      unfold update at h
      split at h
      · rename_i b hb
        split at h
        · simp only [Option.map_eq_some_iff] at h
          obtain ⟨_, _, h⟩ := h
          simp at h
        · rename_i hn
          simp only [Option.some.injEq, Prod.mk.injEq, and_true] at h
          exact ⟨h.symm, b, hb, hn⟩
      · simp at h

/-! ### Cases

One property, a number. Listener 0 is bound with a converter that raises for 13; listener 1 is bound without converter, and its target, a
field that shows at most 100, calls `update_source` with 100 if it is set to more. Listener 2 is bound with a converter to the half. -/

def demo : Users ℕ Unit (Option ℕ) ℕ Unit where
  ls := [0, 1, 2]
  bind i := match i with
    | 0 => some (propertyBinding () (fun v => if v = 13 then none else some v) 0 fun t => some (some t))
    | 1 => some (propertyBinding () some 0 fun t => some (some t))
    | _ => some (propertyBinding () (fun v => some (v / 2)) 7 fun t => if t = 50 then none else some (some (2 * t)))
  same _ v w := v == w
  react i _ s := ⟨(), if i = 1 ∧ (s.shown 1).getD 0 > 100 then [.update 1 100] else [], false⟩

def start : St ℕ Unit (Option ℕ) ℕ Unit := ⟨fun _ => none, fun i => if i = 2 then some 7 else some 0, (), fun _ => false⟩

example : ∀ i ∈ demo.ls, Shows demo start i := by
  intro i hi b hb
  simp only [demo, List.mem_cons, List.not_mem_nil, or_false] at hi
  rcases hi with rfl | rfl | rfl <;> (simp only [demo, Option.some.injEq] at hb; subst hb; right; rfl)

def outcome (as : List (Act ℕ Unit (Option ℕ) ℕ)) : Option (Option ℕ × List (Option ℕ)) :=
  (run demo 9 as start).map fun t => (t.val (), [t.shown 0, t.shown 1, t.shown 2])

/-- The target of listener 1 limits the value, all targets show it. -/
example : outcome [.set () (some 300)] = some (some 100, [some 100, some 100, some 50]) := by decide +kernel
/-- `update_source` of the third; its converter raises for 50, and nothing happens. -/
example : outcome [.update 2 21, .update 2 50] = some (some 42, [some 42, some 42, some 21]) := by decide +kernel
/-- Back to `None`. -/
example : outcome [.set () (some 3), .set () none] = some (none, [some 0, some 0, some 7]) := by decide +kernel

/-- The converter of the first binding raises: the targets of the other two are not told and show the former value. -/
theorem C189_counterexample : outcome [.set () (some 4), .set () (some 13)] = some (some 13, [some 4, some 4, some 2]) := by decide +kernel

/-- An attribute binding: one attribute of the object is replaced, the other one stays. -/
def firstBinding : Bound Unit (Option (ℕ × ℕ)) ℕ :=
  attributeBinding () (fun v => some v.1) some 0 some fun v a => v.map fun w => some (a, w.2)

example : firstBinding.source 5 (some (1, 2)) = some (some (5, 2)) ∧ firstBinding.source 5 none = none ∧
    firstBinding.target (some (1, 2)) = some 1 ∧ firstBinding.target none = some 0 := by decide

/-- A tuple binding: the tuple gets longer, with `None` in between. -/
example : (tupleBinding (V := ℕ) () 2 id 0 fun t => some (some t)).source 5 (some [some 1]) = some (some [some 1, none, some 5]) := by decide
example : (tupleBinding (V := ℕ) () 2 id 0 fun t => some (some t)).target (some [some 1]) = some 0 := by decide
example : (tupleBinding (V := ℕ) () 0 id 0 fun t => some (some t)).target (some [some 1]) = some 1 := by decide

end Verif.Binding.Targets
