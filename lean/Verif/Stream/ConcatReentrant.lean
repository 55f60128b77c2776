import Mathlib.Data.Nat.Notation
import Mathlib.Tactic.SplitIfs
import Mathlib.Logic.Function.Basic

set_option linter.unusedSectionVars false
set_option linter.unusedSimpArgs false

/-!
C187: a concat stream (`nion/utils/Stream.py:313-359`) whose source is a value stream (lines 42-59), as are the streams that its function
returns, while listeners of all these streams assign the source and the other streams, in any way that depends on the whole state, and
raise. `Event.fire` (`nion/utils/Event.py:103-114`) goes over the listeners there were at the beginning, a listener that is closed
meanwhile is called as a function that does nothing, and an exception ends it.

The function of the concat stream returns the same stream for the same item, or raises; it does nothing else. Users hold references to the
streams (see `ConcatAgain` for streams that go away). Where the concat stream comes among the listeners of a stream may be different each
time it listens. `none` for a step is a recursion that does not end within the fuel.
-/

namespace Verif.Stream.ConcatReentrant

variable {ι I S V M : Type} [DecidableEq ι] [DecidableEq I] [DecidableEq S] [DecidableEq V]

/-- What users and listeners do: assign the source (`none` is `None`), assign one of the other streams. -/
inductive Act (I S V : Type) where
  | item (x : Option I)
  | set (k : S) (v : V)

/-- What listeners are told: by the source, by another stream, by the concat stream. -/
inductive Ev (I S V : Type) where
  | item (x : Option I)
  | set (k : S) (v : V)
  | concat (v : Option V)
deriving DecidableEq

/-- The value of the source, the values of the other streams; of the concat stream: the stream it listens to, how often it has begun or
stopped listening, its value; the memory of the listeners. The other fields are not in the code: how many assignments of the source are
at the listeners that come before the concat stream; how many of the stream that it listens to are, since it listens; whether a stream was
assigned while this was so, or one of these listeners raised; what each listener of the concat stream found there when it was told last;
the listeners that have raised. -/
structure St (ι I S V M : Type) where
  src : Option I
  val : S → V
  out : Option S
  lid : ℕ
  value : Option V
  mem : M
  before : ℕ
  pend : ℕ
  mixed : Bool
  copy : ι → Option V
  bad : ι → Bool

/-- What a listener does when it is told: memory, acts in order, whether it raises then. -/
structure Reaction (I S V M : Type) where
  mem : M
  acts : List (Act I S V)
  raises : Bool

/-- Which items are true, the function of the concat stream, the listeners of the source and of the other streams before and after the
concat stream, those of the concat stream, and what they do. -/
structure Users (ι I S V M : Type) where
  truthy : I → Bool
  fn : I → Option S
  srcPre : List ι
  srcPost : List ι
  setPre : S → ℕ → List ι
  setPost : S → ℕ → List ι
  obs : List ι
  react : ι → Ev I S V → St ι I S V M → Reaction I S V M

abbrev Exec (ι I S V M : Type) := Act I S V → St ι I S V M → Option (St ι I S V M)

/-- Acts one after the other; assignments do not raise. -/
def acts (ex : Exec ι I S V M) : List (Act I S V) → St ι I S V M → Option (St ι I S V M)
  | [], s => some s
  | a :: as, s => (ex a s).bind fun s => acts ex as s

/-- A listener is called; a listener of the concat stream looks at its value. -/
def look (e : Ev I S V) (i : ι) (m : M) (s : St ι I S V M) : St ι I S V M :=
  match e with
  | .concat _ => { s with mem := m, copy := fun j => if j = i then s.value else s.copy j }
  | _ => { s with mem := m }

def note (i : ι) (raised : Bool) (s : St ι I S V M) : St ι I S V M := { s with bad := fun j => s.bad j || (raised && (j = i : Bool)) }

/-- A listener is told; the Boolean says whether it raised. -/
def tell (u : Users ι I S V M) (ex : Exec ι I S V M) (e : Ev I S V) (i : ι) (s : St ι I S V M) : Option (St ι I S V M × Bool) :=
  (acts ex (u.react i e s).acts (look e i (u.react i e s).mem s)).map fun t => (note i (u.react i e s).raises t, (u.react i e s).raises)

/-- Part of `Event.fire`; the Boolean says whether a listener raised. -/
def fireL (u : Users ι I S V M) (ex : Exec ι I S V M) (e : Ev I S V) : List ι → St ι I S V M → Option (St ι I S V M × Bool)
  | [], s => some (s, false)
  | i :: is, s => (tell u ex e i s).bind fun r => if r.2 then some r else fireL u ex e is r.1

/-- Lines 350-352 and 357-359: the value is set and told. -/
def announce (u : Users ι I S V M) (ex : Exec ι I S V M) (v : Option V) (s : St ι I S V M) : Option (St ι I S V M) :=
  (fireL u ex (.concat v) u.obs { s with value := v }).map Prod.fst

/-- Lines 343-348: the stream so far is let go. -/
def release (s : St ι I S V M) : St ι I S V M := { s with out := none, lid := s.lid + 1, pend := 0 }

/-- Lines 343-359; the Boolean says whether the function raised. -/
def streamChanged (u : Users ι I S V M) (ex : Exec ι I S V M) (x : Option I) (s : St ι I S V M) : Option (St ι I S V M × Bool) :=
  match x with
  | some i =>
    if u.truthy i then
      match u.fn i with
      | some k => (announce u ex (some (s.val k)) { release s with out := some k }).map fun s => (s, false)
      | none => some (release s, true)
    else (announce u ex none (release s)).map fun s => (s, false)
  | none => (announce u ex none (release s)).map fun s => (s, false)

/-- Lines 54-58 for the source. -/
def setItem (u : Users ι I S V M) (ex : Exec ι I S V M) (x : Option I) (s : St ι I S V M) : Option (St ι I S V M) :=
  if x = s.src then some s
  else
    (fireL u ex (.item x) u.srcPre { s with src := x, mixed := s.mixed || (s.before != 0), before := s.before + 1 }).bind fun r =>
      if r.2 then some { r.1 with mixed := true, before := r.1.before - 1 }
      else
        (streamChanged u ex x { r.1 with before := r.1.before - 1 }).bind fun r =>
          if r.2 then some r.1 else (fireL u ex (.item x) u.srcPost r.1).map Prod.fst

/-- Lines 54-58 for another stream. -/
def setVal (u : Users ι I S V M) (ex : Exec ι I S V M) (k : S) (v : V) (s : St ι I S V M) : Option (St ι I S V M) :=
  if v = s.val k then some s
  else if s.out = some k then
    (fireL u ex (.set k v) (u.setPre k s.lid) { s with
        val := Function.update s.val k v, mixed := s.mixed || (s.pend != 0), pend := s.pend + 1 }).bind fun r =>
      if r.1.lid = s.lid then
        if r.2 then some { r.1 with mixed := true, pend := r.1.pend - 1 }
        else
          (announce u ex (some v) { r.1 with pend := r.1.pend - 1 }).bind fun t =>
            (fireL u ex (.set k v) (u.setPost k s.lid) t).map Prod.fst
      else if r.2 then some r.1 else (fireL u ex (.set k v) (u.setPost k s.lid) r.1).map Prod.fst
  else (fireL u ex (.set k v) (u.setPre k s.lid ++ u.setPost k s.lid) { s with val := Function.update s.val k v }).map Prod.fst

def body (u : Users ι I S V M) (ex : Exec ι I S V M) : Exec ι I S V M
  | .item x, s => setItem u ex x s
  | .set k v, s => setVal u ex k v s

def exec (u : Users ι I S V M) : ℕ → Exec ι I S V M
  | 0 => fun _ _ => none
  | n + 1 => body u (exec u n)

/-! ### What the claim is about -/

/-- The stream of an item: `none` for items that are false, and if the function raises. -/
def stream (u : Users ι I S V M) : Option I → Option S
  | some i => if u.truthy i then u.fn i else none
  | none => none

/-- The function raises for the item. -/
def Raises (u : Users ι I S V M) : Option I → Prop
  | some i => u.truthy i = true ∧ u.fn i = none
  | none => False

/-- Nothing is going on, the concat stream listens to the stream of the item that the source has, and has its value. -/
structure Good (u : Users ι I S V M) (s : St ι I S V M) : Prop where
  before : s.before = 0
  pend : s.pend = 0
  out : s.out = stream u s.src
  value : ¬ Raises u s.src → s.value = (stream u s.src).map s.val

/-! ### Proofs -/

structure Inv (u : Users ι I S V M) (s : St ι I S V M) : Prop where
  out : s.before = 0 → s.out = stream u s.src
  value : s.pend = 0 → ∀ k : S, s.out = some k → s.value = some (s.val k)
  empty : s.before = 0 → s.out = none → ¬ Raises u s.src → s.value = none
  idle : s.out = none → s.pend = 0

/-- No listener of the concat stream before `i` is one of those that raised. -/
def Hears (l : List ι) (bad : ι → Bool) (i : ι) : Prop := ∃ a b : List ι, l = a ++ i :: b ∧ ∀ j ∈ a, bad j = false

structure Eff (u : Users ι I S V M) (s t : St ι I S V M) : Prop where
  mixed : s.mixed = true → t.mixed = true
  bad : ∀ i : ι, s.bad i = true → t.bad i = true
  before : t.before = s.before
  lid : s.lid ≤ t.lid
  same : t.lid = s.lid → t.pend = s.pend ∧ t.out = s.out
  other : t.lid ≠ s.lid → t.pend = 0
  kept : t.mixed = false → s.pend ≠ 0 → t.lid = s.lid → ∀ k : S, s.out = some k → t.val k = s.val k
  src : t.mixed = false → s.before ≠ 0 → t.src = s.src
  inv : t.mixed = false → Inv u s → Inv u t
  fresh : ∀ i : ι, Hears u.obs t.bad i → t.copy i = t.value ∨ (t.copy i = s.copy i ∧ t.value = s.value)

theorem Hears.mono {l : List ι} {b b' : ι → Bool} (h : ∀ i : ι, b i = true → b' i = true) {i : ι} (hh : Hears l b' i) : Hears l b i := by
  obtain ⟨x, y, h1, h2⟩ := hh
  refine ⟨x, y, h1, fun j hj => ?_⟩
  cases hb : b j with
  | false => rfl
  | true => exact absurd (h j hb) (by rw [h2 j hj]; simp)

theorem not_mixed {s t : St ι I S V M} (h : s.mixed = true → t.mixed = true) (ht : t.mixed = false) : s.mixed = false := by
  cases hs : s.mixed with
  | false => rfl
  | true => rw [h hs] at ht; exact absurd ht (by simp)

theorem Eff.refl (u : Users ι I S V M) (s : St ι I S V M) : Eff u s s :=
  ⟨fun h => h, fun _ h => h, rfl, Nat.le_refl _, fun _ => ⟨rfl, rfl⟩, fun h => absurd rfl h, fun _ _ _ _ _ => rfl, fun _ _ => rfl, fun _ h => h, fun _ _ => .inr ⟨rfl, rfl⟩⟩

theorem Eff.trans {u : Users ι I S V M} {s t w : St ι I S V M} (h : Eff u s t) (h' : Eff u t w) : Eff u s w := by
  refine ⟨fun x => h'.mixed (h.mixed x), fun i hi => h'.bad i (h.bad i hi), h'.before.trans h.before, Nat.le_trans h.lid h'.lid, fun hl => ?_,
    fun hl => ?_, fun hm hp hl k hk => ?_, fun hm hb => ?_, fun hm hi => h'.inv hm (h.inv (not_mixed h'.mixed hm) hi), fun i hi => ?_⟩
  · have l1 := h.lid; have l2 := h'.lid
    obtain ⟨a, b⟩ := h.same (by omega)
    obtain ⟨c, d⟩ := h'.same (by omega)
    exact ⟨c.trans a, d.trans b⟩
  · by_cases hw : w.lid = t.lid
    · rw [(h'.same hw).1, h.other (by omega)]
    · exact h'.other hw
  · have l1 := h.lid; have l2 := h'.lid
    obtain ⟨a, b⟩ := h.same (by omega)
    rw [h'.kept hm (by rw [a]; exact hp) (by omega) k (b.trans hk), h.kept (not_mixed h'.mixed hm) hp (by omega) k hk]
  · rw [h'.src hm (by rw [h.before]; exact hb), h.src (not_mixed h'.mixed hm) hb]
  · rcases h'.fresh i hi with h1 | ⟨h1, h2⟩
    · exact .inl h1
    · rcases h.fresh i (hi.mono h'.bad) with h3 | ⟨h3, h4⟩
      · exact .inl (by rw [h1, h2, h3])
      · exact .inr ⟨h1.trans h3, h2.trans h4⟩

def Ok (u : Users ι I S V M) (ex : Exec ι I S V M) : Prop := ∀ (a : Act I S V) (s t : St ι I S V M), ex a s = some t → Eff u s t

variable {u : Users ι I S V M} {ex : Exec ι I S V M}

theorem acts_eff (ok : Ok u ex) (as : List (Act I S V)) (s t : St ι I S V M) (h : acts ex as s = some t) : Eff u s t := by
  induction as generalizing s with
  | nil => simp only [acts, Option.some.injEq] at h; subst h; exact .refl u s
  | cons a as ih =>
    simp only [acts, Option.bind_eq_some_iff] at h
    obtain ⟨r, h1, h2⟩ := h
    exact (ok a s r h1).trans (ih r h2)

theorem look_eff (e : Ev I S V) (i : ι) (m : M) (s : St ι I S V M) : Eff u s (look e i m s) := by
  cases e with
  | concat v =>
    refine ⟨fun h => h, fun _ h => h, rfl, Nat.le_refl _, fun _ => ⟨rfl, rfl⟩, fun h => absurd rfl h, fun _ _ _ _ _ => rfl, fun _ _ => rfl,
      fun _ h => ⟨h.out, h.value, h.empty, h.idle⟩, fun j _ => ?_⟩
    by_cases hj : j = i
    · exact .inl (by simp [look, hj])
    · exact .inr ⟨by simp [look, hj], rfl⟩
  | item x =>
    exact ⟨fun h => h, fun _ h => h, rfl, Nat.le_refl _, fun _ => ⟨rfl, rfl⟩, fun h => absurd rfl h, fun _ _ _ _ _ => rfl, fun _ _ => rfl,
      fun _ h => ⟨h.out, h.value, h.empty, h.idle⟩, fun j _ => .inr ⟨rfl, rfl⟩⟩
  | set k v =>
    exact ⟨fun h => h, fun _ h => h, rfl, Nat.le_refl _, fun _ => ⟨rfl, rfl⟩, fun h => absurd rfl h, fun _ _ _ _ _ => rfl, fun _ _ => rfl,
      fun _ h => ⟨h.out, h.value, h.empty, h.idle⟩, fun j _ => .inr ⟨rfl, rfl⟩⟩

theorem note_eff (i : ι) (b : Bool) (s : St ι I S V M) : Eff u s (note i b s) :=
  ⟨fun h => h, fun _ h => by simp [note, h], rfl, Nat.le_refl _, fun _ => ⟨rfl, rfl⟩, fun h => absurd rfl h, fun _ _ _ _ _ => rfl, fun _ _ => rfl,
    fun _ h => ⟨h.out, h.value, h.empty, h.idle⟩, fun j _ => .inr ⟨rfl, rfl⟩⟩

theorem tell_eff (ok : Ok u ex) (e : Ev I S V) (i : ι) (s : St ι I S V M) (r : St ι I S V M × Bool)
    (h : tell u ex e i s = some r) : Eff u s r.1 := by
  simp only [tell, Option.map_eq_some_iff] at h
  obtain ⟨t, h1, rfl⟩ := h
  exact ((look_eff e i _ s).trans (acts_eff ok _ _ _ h1)).trans (note_eff i _ t)

theorem tell_fresh (ok : Ok u ex) (v : Option V) (i : ι) (s : St ι I S V M) (r : St ι I S V M × Bool)
    (h : tell u ex (.concat v) i s = some r) (hh : Hears u.obs r.1.bad i) : r.1.copy i = r.1.value := by
  simp only [tell, Option.map_eq_some_iff] at h
  obtain ⟨t, h1, rfl⟩ := h
  have e1 := acts_eff ok _ _ _ h1
  have e2 : Eff u t (note i (u.react i (.concat v) s).raises t) := note_eff i _ t
  have hl : (look (.concat v) i (u.react i (.concat v) s).mem s).copy i = (look (.concat v) i (u.react i (.concat v) s).mem s).value := by
    simp [look]
  rcases (e1.trans e2).fresh i hh with h2 | ⟨h2, h3⟩
  · exact h2
  · exact h2.trans (hl.trans h3.symm)

theorem tell_bad (e : Ev I S V) (i : ι) (s : St ι I S V M) (r : St ι I S V M × Bool) (h : tell u ex e i s = some r) (hr : r.2 = true) :
    r.1.bad i = true := by
  simp only [tell, Option.map_eq_some_iff] at h
  obtain ⟨t, h1, rfl⟩ := h
  have hr : (u.react i e s).raises = true := hr
  simp [note, hr]

theorem fireL_eff (ok : Ok u ex) (e : Ev I S V) (l : List ι) (s : St ι I S V M) (r : St ι I S V M × Bool)
    (h : fireL u ex e l s = some r) : Eff u s r.1 := by
  induction l generalizing s with
  | nil => simp only [fireL, Option.some.injEq] at h; subst h; exact .refl u s
  | cons i l ih =>
    simp only [fireL, Option.bind_eq_some_iff] at h
    obtain ⟨r', h1, h2⟩ := h
    have e1 := tell_eff ok e i s r' h1
    split at h2
    · simp only [Option.some.injEq] at h2; subst h2; exact e1
    · exact e1.trans (ih r'.1 h2)

/-- Those that are told by the concat stream have its value in the end. -/
theorem fireL_fresh (ok : Ok u ex) (v : Option V) (p l : List ι) (hl : u.obs = p ++ l) (s : St ι I S V M) (r : St ι I S V M × Bool)
    (h : fireL u ex (.concat v) l s = some r) (i : ι) (a b : List ι) (hi : l = a ++ i :: b) (ha : ∀ j ∈ a, r.1.bad j = false)
    (hh : Hears u.obs r.1.bad i) : r.1.copy i = r.1.value := by
  induction l generalizing s p a with
  | nil => simp at hi
  | cons j l ih =>
    simp only [fireL, Option.bind_eq_some_iff] at h
    obtain ⟨r', h1, h2⟩ := h
    cases a with
    | nil =>
      simp only [List.nil_append, List.cons.injEq] at hi
      obtain ⟨rfl, rfl⟩ := hi
      split at h2
      · simp only [Option.some.injEq] at h2; subst h2; exact tell_fresh ok v j s r' h1 hh
      · have e2 := fireL_eff ok _ _ _ _ h2
        have f1 := tell_fresh ok v j s r' h1 (hh.mono e2.bad)
        rcases e2.fresh j hh with h3 | ⟨h3, h4⟩
        · exact h3
        · rw [h3, h4, f1]
    | cons j' a =>
      simp only [List.cons_append, List.cons.injEq] at hi
      obtain ⟨rfl, hi⟩ := hi
      split at h2
      · rename_i hr
        simp only [Option.some.injEq] at h2; subst h2
        have := tell_bad _ _ _ _ h1 hr
        rw [ha j List.mem_cons_self] at this
        exact absurd this (by simp)
      · exact ih (p ++ [j]) (by rw [hl]; simp) r'.1 h2 a hi fun x hx => ha x (List.mem_cons_of_mem _ hx)

/-- What `announce` does, from the state with the new value. -/
theorem announce_eff (ok : Ok u ex) (v : Option V) (s t : St ι I S V M) (h : announce u ex v s = some t) :
    Eff u { s with value := v } t ∧ ∀ i : ι, Hears u.obs t.bad i → t.copy i = t.value := by
  simp only [announce, Option.map_eq_some_iff] at h
  obtain ⟨r, h1, rfl⟩ := h
  refine ⟨fireL_eff ok _ _ _ _ h1, fun i hi => ?_⟩
  obtain ⟨a, b, h2, h3⟩ := id hi
  exact fireL_fresh ok v [] u.obs (by simp) _ _ h1 i a b h2 h3 hi

/-- The concat stream takes over an item: then it has it, if that is the item of the source. -/
theorem streamChanged_eff (ok : Ok u ex) (x : Option I) (s : St ι I S V M) (r : St ι I S V M × Bool)
    (h : streamChanged u ex x s = some r) :
    ∃ s' : St ι I S V M, Eff u s' r.1 ∧ s'.src = s.src ∧ s'.val = s.val ∧ s'.out = stream u x ∧ s'.lid = s.lid + 1 ∧
      (¬ Raises u x → s'.value = (stream u x).map s.val) ∧ s'.pend = 0 ∧ s'.before = s.before ∧ s'.mixed = s.mixed ∧ s'.bad = s.bad ∧
      s'.copy = s.copy ∧ ((∀ i : ι, Hears u.obs r.1.bad i → r.1.copy i = r.1.value) ∨ s'.value = s.value) := by
  unfold streamChanged at h
  split at h
  case h_1 i =>
    split at h
    case isTrue ht =>
      split at h
      case h_1 k hk =>
        simp only [Option.map_eq_some_iff] at h
        obtain ⟨t, h1, rfl⟩ := h
        obtain ⟨e1, f1⟩ := announce_eff ok _ _ _ h1
        exact ⟨_, e1, rfl, rfl, by simp [stream, ht, hk], rfl, fun _ => by simp [stream, ht, hk], rfl, rfl, rfl, rfl, rfl, .inl f1⟩
      case h_2 hk =>
        simp only [Option.some.injEq] at h
        subst h
        exact ⟨release s, .refl u _, rfl, rfl, by simp [release, stream, ht, hk], rfl, fun hn => absurd ⟨ht, hk⟩ hn, rfl, rfl, rfl, rfl, rfl,
          .inr rfl⟩
    case isFalse ht =>
      simp only [Option.map_eq_some_iff] at h
      obtain ⟨t, h1, rfl⟩ := h
      obtain ⟨e1, f1⟩ := announce_eff ok _ _ _ h1
      exact ⟨_, e1, rfl, rfl, by simp [stream, ht, release], rfl, fun _ => by simp [stream, ht], rfl, rfl, rfl, rfl, rfl, .inl f1⟩
  case h_2 =>
    simp only [Option.map_eq_some_iff] at h
    obtain ⟨t, h1, rfl⟩ := h
    obtain ⟨e1, f1⟩ := announce_eff ok _ _ _ h1
    exact ⟨_, e1, rfl, rfl, by simp [stream, release], rfl, fun _ => by simp [stream], rfl, rfl, rfl, rfl, rfl, .inl f1⟩

theorem streamChanged_inv {x : Option I} {s s' : St ι I S V M} (h1 : s'.src = x) (h2 : s'.val = s.val) (h3 : s'.out = stream u x)
    (h4 : ¬ Raises u x → s'.value = (stream u x).map s.val) (h5 : s'.pend = 0) : Inv u s' := by
  refine ⟨fun _ => by rw [h3, h1], fun _ k hk => ?_, fun _ hn hr => ?_, fun _ => h5⟩
  · rw [h3] at hk
    have hr : ¬ Raises u x := by
      intro hr
      cases x with
      | none => exact hr
      | some i => simp [stream, hr.1, hr.2] at hk
    rw [h4 hr, hk, h2]; rfl
  · rw [h1] at hr
    rw [h3] at hn
    rw [h4 hr, hn]; rfl

/-- Assigning the source: all of `Eff`, and what it leaves if undisturbed. -/
theorem setItem_eff (ok : Ok u ex) (x : Option I) (s t : St ι I S V M) (h : setItem u ex x s = some t) :
    Eff u s t ∧ (x ≠ s.src → t.mixed = false → Inv u t) := by
  unfold setItem at h
  split at h
  case isTrue hx => simp only [Option.some.injEq] at h; subst h; exact ⟨.refl u s, fun h => absurd hx h⟩
  case isFalse hx =>
    simp only [Option.bind_eq_some_iff] at h
    obtain ⟨r, h1, h2⟩ := h
    have e1 := fireL_eff ok _ _ _ _ h1
    have hb : r.1.before = s.before + 1 := e1.before
    -- the beginning, if it is not mixed
    have m1 : s.mixed = true → r.1.mixed = true := fun hm => e1.mixed (by simp [hm])
    split at h2
    case isTrue hr =>
      simp only [Option.some.injEq] at h2
      subst h2
      refine ⟨⟨fun _ => rfl, e1.bad, by simp [hb], e1.lid, e1.same, e1.other, fun hm => by simp at hm, fun hm => by simp at hm, fun hm => by simp at hm,
        e1.fresh⟩, fun _ hm => by simp at hm⟩
    case isFalse hr =>
      simp only [Option.bind_eq_some_iff] at h2
      obtain ⟨r2, h2, h3⟩ := h2
      obtain ⟨s', e2, d1, d2, d3, d4, d5, d6, d7, d8, d9, d10, d11⟩ := streamChanged_eff ok x _ r2 h2
      have d1 : s'.src = r.1.src := d1
      have d4 : s'.lid = r.1.lid + 1 := d4
      have d7 : s'.before = r.1.before - 1 := d7
      have d8 : s'.mixed = r.1.mixed := d8
      have d9 : s'.bad = r.1.bad := d9
      have d10 : s'.copy = r.1.copy := d10
      have e3 : Eff u r2.1 t := by
        split at h3
        · simp only [Option.some.injEq] at h3; subst h3; exact .refl u _
        · simp only [Option.map_eq_some_iff] at h3
          obtain ⟨r3, h3, rfl⟩ := h3
          exact fireL_eff ok _ _ _ _ h3
      have e := e2.trans e3
      have hl : s.lid < t.lid := by
        have l1 : s.lid ≤ r.1.lid := e1.lid
        have l2 : s'.lid ≤ t.lid := e.lid
        omega
      have hsrc : t.mixed = false → r.1.src = x := fun hm => by
        have hm' : r.1.mixed = false := by rw [← d8]; exact not_mixed e.mixed hm
        have k : r.1.src = ({ s with src := x, mixed := s.mixed || (s.before != 0), before := s.before + 1 } : St ι I S V M).src :=
          e1.src hm' (Nat.succ_ne_zero s.before)
        exact k
      have hinv : t.mixed = false → Inv u t := fun hm =>
        e.inv hm (streamChanged_inv (x := x) (s := { r.1 with before := r.1.before - 1 }) (d1.trans (hsrc hm)) d2 d3 d5 d6)
      refine ⟨⟨fun hm => e.mixed (by rw [d8]; exact m1 hm), fun i hi => e.bad i (by rw [d9]; exact e1.bad i hi), ?_, Nat.le_of_lt hl,
        fun h => absurd h (by omega), fun _ => ?_, fun _ _ h => absurd h (by omega), fun hm hb0 => ?_, fun hm _ => hinv hm, fun i hi => ?_⟩,
        fun _ hm => hinv hm⟩
      · rw [e.before, d7, hb]; omega
      · by_cases hw : t.lid = s'.lid
        · rw [(e.same hw).1, d6]
        · exact e.other hw
      · -- an assignment of the source while it is at the listeners before the concat stream is noted
        exfalso
        have hm' : r.1.mixed = false := by rw [← d8]; exact not_mixed e.mixed hm
        have k := not_mixed e1.mixed hm'
        have k : (s.mixed || (s.before != 0)) = false := k
        rw [Bool.or_eq_false_iff] at k
        simp at k
        exact hb0 k.2
      · rcases e3.fresh i hi with h4 | ⟨h4, h5⟩
        · exact .inl h4
        · rcases d11 with d11 | d11
          · exact .inl (by rw [h4, h5, d11 i (hi.mono e3.bad)])
          · rcases e2.fresh i (hi.mono e3.bad) with h6 | ⟨h6, h7⟩
            · exact .inl (by rw [h4, h5, h6])
            · have d11 : s'.value = r.1.value := d11
              rcases e1.fresh i ((hi.mono e.bad).mono (fun j hj => by rw [d9]; exact hj)) with h8 | ⟨h8, h9⟩
              · exact .inl (by rw [h4, h5, h6, h7, d10, d11, h8])
              · exact .inr ⟨by rw [h4, h6, d10, h8], by rw [h5, h7, d11, h9]⟩

theorem setVal_eff (ok : Ok u ex) (k : S) (v : V) (s t : St ι I S V M) (h : setVal u ex k v s = some t) : Eff u s t := by
  unfold setVal at h
  split at h
  case isTrue hx => simp only [Option.some.injEq] at h; subst h; exact .refl u s
  case isFalse hx =>
    split at h
    case isFalse ho =>
      simp only [Option.map_eq_some_iff] at h
      obtain ⟨r, h1, rfl⟩ := h
      refine Eff.trans (t := { s with val := Function.update s.val k v }) ?_ (fireL_eff ok _ _ _ _ h1)
      have hv : ∀ j : S, s.out = some j → Function.update s.val k v j = s.val j := fun j hj => by
        have : j ≠ k := fun h => ho (h ▸ hj)
        simp [Function.update, this]
      exact ⟨fun h => h, fun _ h => h, rfl, Nat.le_refl _, fun _ => ⟨rfl, rfl⟩, fun h => absurd rfl h, fun _ _ _ j hj => hv j hj, fun _ _ => rfl,
        fun _ h => ⟨h.out, fun hp j hj => by rw [h.value hp j hj]; exact congrArg some (hv j hj).symm, h.empty, h.idle⟩, fun j _ => .inr ⟨rfl, rfl⟩⟩
    case isTrue ho =>
      simp only [Option.bind_eq_some_iff] at h
      obtain ⟨r, h1, h2⟩ := h
      have e1 := fireL_eff ok _ _ _ _ h1
      have m1 : s.mixed = true → r.1.mixed = true := fun hm => e1.mixed (by simp [hm])
      have m2 : r.1.mixed = false → s.pend = 0 := fun hm => by
        have k := not_mixed e1.mixed hm
        have k : (s.mixed || (s.pend != 0)) = false := k
        rw [Bool.or_eq_false_iff] at k
        simpa using k.2
      have l1 : s.lid ≤ r.1.lid := e1.lid
      -- the invariant while the listeners before the concat stream are told
      have i1 : r.1.mixed = false → Inv u s → Inv u r.1 := fun hm hi =>
        e1.inv hm ⟨hi.out, fun hp => absurd hp (Nat.succ_ne_zero s.pend), hi.empty, fun hn => absurd (ho.symm.trans hn) (by simp)⟩
      have hb : r.1.before = s.before := e1.before
      split at h2
      case isFalse hl =>
        have e2 : Eff u r.1 t := by
          split at h2
          · simp only [Option.some.injEq] at h2; subst h2; exact .refl u _
          · simp only [Option.map_eq_some_iff] at h2
            obtain ⟨r3, h3, rfl⟩ := h2
            exact fireL_eff ok _ _ _ _ h3
        have hlt : s.lid < t.lid := by have := e2.lid; omega
        have m3 : t.mixed = false → s.pend = 0 := fun hm => m2 (not_mixed e2.mixed hm)
        refine ⟨fun hm => e2.mixed (m1 hm), fun i hi => e2.bad i (e1.bad i hi), e2.before.trans hb, Nat.le_of_lt hlt,
          fun h => absurd h (by omega), (e1.trans e2).other, fun _ _ h => absurd h (by omega), fun hm hb0 => ?_,
          fun hm hi => e2.inv hm (i1 (not_mixed e2.mixed hm) hi), (e1.trans e2).fresh⟩
        exact (e1.trans e2).src hm hb0
      case isTrue hl =>
        obtain ⟨p1, o1⟩ := e1.same hl
        have p1 : r.1.pend = s.pend + 1 := p1
        have o1 : r.1.out = some k := o1.trans ho
        split at h2
        case isTrue hr =>
          simp only [Option.some.injEq] at h2
          subst h2
          exact ⟨fun _ => rfl, e1.bad, hb, l1, fun _ => ⟨by simp [p1], by rw [ho]; exact o1⟩, fun h => absurd hl h, fun hm => by simp at hm, fun hm => by simp at hm,
            fun hm => by simp at hm, e1.fresh⟩
        case isFalse hr =>
          simp only [Option.bind_eq_some_iff, Option.map_eq_some_iff] at h2
          obtain ⟨s2, h2, r3, h3, rfl⟩ := h2
          obtain ⟨e2, f2⟩ := announce_eff ok _ _ _ h2
          have e3 := fireL_eff ok _ _ _ _ h3
          have e := e2.trans e3
          have m3 : r3.1.mixed = false → r.1.mixed = false := fun hm => not_mixed e.mixed hm
          refine ⟨fun hm => e.mixed (m1 hm), fun i hi => e.bad i (e1.bad i hi), e.before.trans hb, Nat.le_trans l1 e.lid, fun hl3 => ?_,
            fun hl3 => e.other (fun h => hl3 (h.trans hl)), fun hm hp => absurd (m2 (m3 hm)) hp, fun hm hb0 => ?_, fun hm hi => ?_, fun i hi => ?_⟩
          · have := e.lid
            obtain ⟨a, b⟩ := e.same (by have : r3.1.lid = s.lid := hl3; exact this.trans hl.symm)
            exact ⟨by rw [a]; simp [p1], by rw [b, ho]; exact o1⟩
          · have k1 := e.src hm (by rw [← hb] at hb0; exact hb0)
            have k2 := e1.src (m3 hm) hb0
            exact k1.trans k2
          · have i2 := i1 (m3 hm) hi
            refine e.inv hm ⟨i2.out, fun _ j hj => ?_, fun _ hn => absurd (o1.symm.trans hn) (by simp), fun hn => absurd (o1.symm.trans hn) (by simp)⟩
            have hj : r.1.out = some j := hj
            rw [o1] at hj
            cases hj
            have kv := e1.kept (m3 hm) (Nat.succ_ne_zero s.pend) hl k ho
            have kv : r.1.val k = Function.update s.val k v k := kv
            have kv : r.1.val k = v := by rw [kv]; simp [Function.update]
            exact congrArg some kv.symm
          · rcases e3.fresh i hi with h4 | ⟨h4, h5⟩
            · exact .inl h4
            · exact .inl (by rw [h4, h5, f2 i (hi.mono e3.bad)])

theorem body_ok (ok : Ok u ex) : Ok u (body u ex) := by
  intro a s t h
  cases a with
  | item x => exact (setItem_eff ok x s t h).1
  | set k v => exact setVal_eff ok k v s t h

theorem exec_ok (u : Users ι I S V M) (fuel : ℕ) : Ok u (exec u fuel) := by
  induction fuel with
  | zero => intro a s t h; simp [exec] at h
  | succ n ih => exact body_ok ih

theorem Good.inv {s : St ι I S V M} (h : Good u s) : Inv u s := by
  refine ⟨fun _ => h.out, fun _ k hk => ?_, fun _ hn hr => ?_, fun _ => h.pend⟩
  · have hr : ¬ Raises u s.src := by
      intro hr
      rw [h.out] at hk
      cases hx : s.src with
      | none => simp [hx, stream] at hk
      | some i => rw [hx] at hr hk; simp [stream, hr.1, hr.2] at hk
    rw [h.value hr, ← h.out, hk]; rfl
  · rw [h.value hr, ← h.out, hn]; rfl

theorem Inv.good {s : St ι I S V M} (h : Inv u s) (hb : s.before = 0) (hp : s.pend = 0) : Good u s := by
  refine ⟨hb, hp, h.out hb, fun hr => ?_⟩
  rw [← h.out hb]
  cases ho : s.out with
  | none => exact h.empty hb ho hr
  | some k => exact h.value hp k ho

/-- What users do, one thing after the other, is right in the end if no stream was assigned while listeners that come before the concat
stream were told of an assignment of it, and none of these raised. -/
theorem C187_value_partial (u : Users ι I S V M) (fuel : ℕ) (as : List (Act I S V)) (s t : St ι I S V M) (hg : Good u s)
    (h : acts (exec u fuel) as s = some t) (hm : t.mixed = false) : Good u t := by
  have e := acts_eff (exec_ok u fuel) as s t h
  refine (e.inv hm hg.inv).good (e.before.trans hg.before) ?_
  by_cases hl : t.lid = s.lid
  · rw [(e.same hl).1, hg.pend]
  · exact e.other hl

/-- Whatever went wrong before, an assignment of the source that is not disturbed puts it right, as soon as the item is a different one. -/
theorem C187_recovers (u : Users ι I S V M) (fuel : ℕ) (x : Option I) (s t : St ι I S V M) (hb : s.before = 0) (hp : s.pend = 0)
    (h : exec u fuel (.item x) s = some t) (hx : x ≠ s.src) (hm : t.mixed = false) : Good u t := by
  have e := exec_ok u fuel _ _ _ h
  cases fuel with
  | zero => simp [exec] at h
  | succ n =>
    refine ((setItem_eff (exec_ok u n) x s t h).2 hx hm).good (e.before.trans hb) ?_
    by_cases hl : t.lid = s.lid
    · rw [(e.same hl).1, hp]
    · exact e.other hl

/-- A listener of the concat stream that looks at its value when it is told has it in the end, if it had it before, right or wrong; unless a
listener that comes before it has raised. -/
theorem C187_listeners (u : Users ι I S V M) (fuel : ℕ) (as : List (Act I S V)) (s t : St ι I S V M)
    (h : acts (exec u fuel) as s = some t) (i : ι) (hi : Hears u.obs t.bad i) (hc : s.copy i = s.value) : t.copy i = t.value := by
  rcases (acts_eff (exec_ok u fuel) as s t h).fresh i hi with h1 | ⟨h1, h2⟩
  · exact h1
  · rw [h1, h2, hc]

/-! ### Listeners before the concat stream that only look -/

/-- They neither assign nor raise. -/
def Quiet (u : Users ι I S V M) : Prop :=
  (∀ i ∈ u.srcPre, ∀ (x : Option I) (s : St ι I S V M), (u.react i (.item x) s).acts = [] ∧ (u.react i (.item x) s).raises = false) ∧
  ∀ (k : S) (n : ℕ), ∀ i ∈ u.setPre k n, ∀ (v : V) (s : St ι I S V M),
    (u.react i (.set k v) s).acts = [] ∧ (u.react i (.set k v) s).raises = false

structure Calm (s : St ι I S V M) : Prop where
  before : s.before = 0
  pend : s.pend = 0
  mixed : s.mixed = false

def Ok2 (ex : Exec ι I S V M) : Prop := ∀ (a : Act I S V) (s t : St ι I S V M), ex a s = some t → Calm s → Calm t

theorem look_calm (e : Ev I S V) (i : ι) (m : M) (s : St ι I S V M) (h : Calm s) : Calm (look e i m s) := by
  cases e <;> exact ⟨h.before, h.pend, h.mixed⟩

theorem acts_calm (ok : Ok2 ex) (as : List (Act I S V)) (s t : St ι I S V M) (h : acts ex as s = some t) (hc : Calm s) : Calm t := by
  induction as generalizing s with
  | nil => simp only [acts, Option.some.injEq] at h; subst h; exact hc
  | cons a as ih =>
    simp only [acts, Option.bind_eq_some_iff] at h
    obtain ⟨r, h1, h2⟩ := h
    exact ih r h2 (ok a s r h1 hc)

theorem fireL_calm (ok : Ok2 ex) (e : Ev I S V) (l : List ι) (s : St ι I S V M) (r : St ι I S V M × Bool)
    (h : fireL u ex e l s = some r) (hc : Calm s) : Calm r.1 := by
  induction l generalizing s with
  | nil => simp only [fireL, Option.some.injEq] at h; subst h; exact hc
  | cons i l ih =>
    simp only [fireL, tell, Option.bind_eq_some_iff, Option.map_eq_some_iff] at h
    obtain ⟨r', ⟨t, h1, rfl⟩, h2⟩ := h
    have c1 := acts_calm ok _ _ _ h1 (look_calm e i _ s hc)
    have c2 : Calm (note i (u.react i e s).raises t) := ⟨c1.before, c1.pend, c1.mixed⟩
    split at h2
    · simp only [Option.some.injEq] at h2; subst h2; exact c2
    · exact ih _ h2 c2

/-- Listeners that only look. -/
theorem fireL_quiet (e : Ev I S V) (he : ∀ v : Option V, e ≠ .concat v) (l : List ι) (s : St ι I S V M) (r : St ι I S V M × Bool)
    (hq : ∀ i ∈ l, ∀ s : St ι I S V M, (u.react i e s).acts = [] ∧ (u.react i e s).raises = false)
    (h : fireL u ex e l s = some r) :
    r.2 = false ∧ r.1.before = s.before ∧ r.1.pend = s.pend ∧ r.1.mixed = s.mixed ∧ r.1.lid = s.lid := by
  induction l generalizing s with
  | nil => simp only [fireL, Option.some.injEq] at h; subst h; exact ⟨rfl, rfl, rfl, rfl, rfl⟩
  | cons i l ih =>
    obtain ⟨q1, q2⟩ := hq i List.mem_cons_self s
    simp only [fireL, tell, q1, q2, acts, Option.map_some, Option.bind_some, Bool.false_eq_true, if_false] at h
    obtain ⟨a, b, c, d, f⟩ := ih _ (fun j hj => hq j (List.mem_cons_of_mem _ hj)) h
    have hk : ∀ m : M, (look e i m s).before = s.before ∧ (look e i m s).pend = s.pend ∧ (look e i m s).mixed = s.mixed ∧
        (look e i m s).lid = s.lid := fun m => by
      cases e with
      | item x => exact ⟨rfl, rfl, rfl, rfl⟩
      | set k v => exact ⟨rfl, rfl, rfl, rfl⟩
      | concat v => exact absurd rfl (he v)
    obtain ⟨k1, k2, k3, k4⟩ := hk (u.react i e s).mem
    exact ⟨a, b.trans k1, c.trans k2, d.trans k3, f.trans k4⟩

theorem announce_calm (ok : Ok2 ex) (v : Option V) (s t : St ι I S V M) (h : announce u ex v s = some t) (hc : Calm s) : Calm t := by
  simp only [announce, Option.map_eq_some_iff] at h
  obtain ⟨r, h1, rfl⟩ := h
  exact fireL_calm ok _ _ _ _ h1 ⟨hc.before, hc.pend, hc.mixed⟩

theorem streamChanged_calm (ok : Ok2 ex) (x : Option I) (s : St ι I S V M) (r : St ι I S V M × Bool)
    (h : streamChanged u ex x s = some r) (hc : Calm s) : Calm r.1 := by
  have hc' : ∀ k : Option S, Calm { release s with out := k } := fun k => ⟨hc.before, rfl, hc.mixed⟩
  unfold streamChanged at h
  split at h
  · split at h
    · split at h
      · simp only [Option.map_eq_some_iff] at h
        obtain ⟨t, h1, rfl⟩ := h
        exact announce_calm ok _ _ _ h1 (hc' _)
      · simp only [Option.some.injEq] at h
        subst h
        exact hc' none
    · simp only [Option.map_eq_some_iff] at h
      obtain ⟨t, h1, rfl⟩ := h
      exact announce_calm ok _ _ _ h1 (hc' none)
  · simp only [Option.map_eq_some_iff] at h
    obtain ⟨t, h1, rfl⟩ := h
    exact announce_calm ok _ _ _ h1 (hc' none)

theorem body_calm (hq : Quiet u) (ok : Ok2 ex) : Ok2 (body u ex) := by
  intro a s t h hc
  cases a with
  | item x =>
    have h : setItem u ex x s = some t := h
    unfold setItem at h
    split at h
    · simp only [Option.some.injEq] at h; subst h; exact hc
    · simp only [Option.bind_eq_some_iff] at h
      obtain ⟨r, h1, h2⟩ := h
      obtain ⟨a, b, c, d, _⟩ := fireL_quiet (.item x) (by simp) _ _ _ (fun i hi s => hq.1 i hi x s) h1
      simp only [a, Bool.false_eq_true, if_false, Option.bind_eq_some_iff] at h2
      obtain ⟨r2, h2, h3⟩ := h2
      have c1 : Calm { r.1 with before := r.1.before - 1 } :=
        ⟨by rw [b]; exact hc.before, c.trans hc.pend, by rw [d]; simp [hc.mixed, hc.before]⟩
      have c2 := streamChanged_calm ok x _ r2 h2 c1
      split at h3
      · simp only [Option.some.injEq] at h3; subst h3; exact c2
      · simp only [Option.map_eq_some_iff] at h3
        obtain ⟨r3, h3, rfl⟩ := h3
        exact fireL_calm ok _ _ _ _ h3 c2
  | set k v =>
    have h : setVal u ex k v s = some t := h
    unfold setVal at h
    split at h
    · simp only [Option.some.injEq] at h; subst h; exact hc
    · split at h
      · simp only [Option.bind_eq_some_iff] at h
        obtain ⟨r, h1, h2⟩ := h
        obtain ⟨a, b, c, d, f⟩ := fireL_quiet (.set k v) (by simp) _ _ _ (fun i hi s' => hq.2 k s.lid i hi v s') h1
        have f : r.1.lid = s.lid := f
        simp only [f, if_true, a, Bool.false_eq_true, if_false, Option.bind_eq_some_iff, Option.map_eq_some_iff] at h2
        obtain ⟨s2, h2, r3, h3, rfl⟩ := h2
        have c1 : Calm { r.1 with pend := r.1.pend - 1 } :=
          ⟨b.trans hc.before, by rw [c]; exact hc.pend, by rw [d]; simp [hc.mixed, hc.pend]⟩
        exact fireL_calm ok _ _ _ _ h3 (announce_calm ok _ _ _ h2 ⟨c1.before, c1.pend, c1.mixed⟩)
      · simp only [Option.map_eq_some_iff] at h
        obtain ⟨r, h1, rfl⟩ := h
        exact fireL_calm ok _ _ _ _ h1 ⟨hc.before, hc.pend, hc.mixed⟩

/-- It is right in the end if the listeners that come before the concat stream only look, whatever the others do. -/
theorem C187_quiet (u : Users ι I S V M) (fuel : ℕ) (as : List (Act I S V)) (s t : St ι I S V M) (hg : Good u s) (hm : s.mixed = false)
    (hq : Quiet u) (h : acts (exec u fuel) as s = some t) : Good u t := by
  have ok : ∀ n : ℕ, Ok2 (exec u n) := fun n => by
    induction n with
    | zero => intro a s t h; simp [exec] at h
    | succ n ih => exact body_calm hq ih
  exact C187_value_partial u fuel as s t hg h (acts_calm (ok fuel) as s t h ⟨hg.before, hg.pend, hm⟩).mixed

/-! ### Cases

Items are numbers, 0 is false, the function raises for 9; the stream of an item `i` is number `i`, its value `10 * i` at first. -/

/-- Listener 0 of the source comes before the concat stream and replaces the item 3 by 4; listener 1 of stream 1, before the concat stream,
replaces 7 by 8, and for 5 assigns item 2 to the source; listener 2 of stream 2 comes before it and raises; listener 3 of the concat stream
replaces the value 50 of stream 5 by 51, and the item 6, which has value 60, by 1; listener 4 of the concat stream comes after it; listener 5, of the source after
the concat stream, sets stream 7. -/
def reactions (i : ℕ) (e : Ev ℕ ℕ ℕ) (_ : St ℕ ℕ ℕ ℕ Unit) : Reaction ℕ ℕ ℕ Unit :=
  match i, e with
  | 0, .item (some 3) => ⟨(), [.item (some 4)], false⟩
  | 1, .set 1 7 => ⟨(), [.set 1 8], false⟩
  | 1, .set 1 5 => ⟨(), [.item (some 2)], false⟩
  | 2, _ => ⟨(), [], true⟩
  | 3, .concat (some 50) => ⟨(), [.set 5 51], false⟩
  | 5, .item (some _) => ⟨(), [.set 7 77], false⟩
  | 3, .concat (some 60) => ⟨(), [.item (some 1)], false⟩
  | _, _ => ⟨(), [], false⟩

def demo : Users ℕ ℕ ℕ ℕ Unit where
  truthy i := i != 0
  fn i := if i = 9 then none else some i
  srcPre := [0]
  srcPost := []
  setPre k _ := if k = 1 then [1] else if k = 2 then [2] else []
  setPost _ _ := []
  obs := [3, 4]
  react := reactions

def start : St ℕ ℕ ℕ ℕ Unit := ⟨none, fun k => 10 * k, none, 0, none, (), 0, 0, false, fun _ => none, fun _ => false⟩

theorem good_start : Good demo start := ⟨rfl, rfl, rfl, fun _ => rfl⟩

/-- Item, value of the stream of the item, value of the concat stream, what its second listener has found. -/
def outcome (as : List (Act ℕ ℕ ℕ)) : Option (Option ℕ × Option ℕ × Option ℕ × Option ℕ) :=
  (acts (exec demo 9) as start).map fun t => (t.src, (stream demo t.src).map t.val, t.value, t.copy 4)

/-- A listener of the concat stream assigns the stream that is told, and another the source. -/
example : outcome [.item (some 5)] = some (some 5, some 51, some 51, some 51) := by decide +kernel
example : outcome [.item (some 6)] = some (some 1, some 10, some 10, some 10) := by decide +kernel
/-- A listener before the concat stream assigns the source while a stream is told: the concat stream goes over to the other stream and is not
told the value of the former one. -/
example : outcome [.item (some 1), .set 1 5] = some (some 2, some 20, some 20, some 20) := by decide +kernel
/-- Listeners of the source after the concat stream are told of the item, unless the function raises. -/
example : (acts (exec { demo with srcPost := [5] } 9) [.item (some 8)] start).map (fun t => t.val 7) = some 77 ∧
    (acts (exec { demo with srcPost := [5] } 9) [.item (some 9)] start).map (fun t => t.val 7) = some 70 := by decide +kernel
/-- Items that are false. -/
example : outcome [.item (some 1), .item (some 0)] = some (some 0, none, none, none) := by decide +kernel

/-- A listener of the source that comes before the concat stream assigns the source: the concat stream is told of the item 4 and then of the
item 3, and has the stream of that. -/
theorem C187_counterexample : outcome [.item (some 3)] = some (some 4, some 40, some 30, some 30) := by decide +kernel

/-- A listener of a stream that comes before the concat stream assigns the stream: the concat stream has the former value. -/
theorem C187_counterexample_value : outcome [.item (some 1), .set 1 7] = some (some 1, some 8, some 7, some 7) := by decide +kernel

/-- A listener before the concat stream raises, and the concat stream is not told. -/
theorem C187_counterexample_raises : outcome [.item (some 2), .set 2 5] = some (some 2, some 5, some 20, some 20) := by decide +kernel

/-- The function raises: the concat stream keeps the value of the former stream, which it does not follow any more. -/
theorem C187_counterexample_function :
    outcome [.item (some 4), .item (some 9), .set 4 41] = some (some 9, none, some 40, some 40) ∧
    outcome [.item (some 4), .item (some 9), .item (some 8)] = some (some 8, some 80, some 80, some 80) := by decide +kernel

end Verif.Stream.ConcatReentrant
