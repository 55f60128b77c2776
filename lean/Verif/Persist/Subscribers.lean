import Mathlib.Data.List.Basic
import Mathlib.Logic.Function.Basic
import Mathlib.Tactic.Common

set_option linter.unusedSectionVars false

/-!
C180: subscribers of a `PersistentObjectContext` (`nion/utils/Persistence.py:138-226`) that subscribe, register and unregister while they
are told of a registration. The lists of subscriptions are objects that the loops go over while callbacks append to them (the iterator of a
list looks at the list each time), so they have addresses here. Callbacks see the whole state, may raise, and may catch exceptions; the
listeners of `registration_event` are called by `Event.fire`, which ends at an exception and catches it. Objects live as long as they are
registered, and subscribers give both functions (C57 is about these). `none` is a computation that does not end within the fuel.
-/

namespace Verif.Persist.Subscribers

/-- What a subscriber is told. -/
inductive Told (O : Type) where
  | registered (o : O)
  | unregistered (o : Option O)
deriving DecidableEq

/-- What callbacks and users do. -/
inductive Act (U O ι : Type) where
  | register (o : O)
  | unregister (o : O)
  | subscribe (v : U) (who : ι)
deriving DecidableEq

/-- Operations on one uuid. -/
inductive UOp (O ι : Type) where
  | register (o : O)
  | unregister
  | subscribe (who : ι)
deriving DecidableEq

/-- The objects by uuid; the address of the list of subscriptions of a uuid; the lists; the next address; what was told about each uuid.
The last three fields are not in the code: uuids of registrations and unregistrations in progress; uuids used by a callback while they were
in progress, or with a callback that raised; the operations on each uuid in the order in which they were begun. -/
structure St (U O ι M : Type) where
  objs : U → Option O
  subs : U → Option ℕ
  heap : ℕ → List ι
  next : ℕ
  log : U → List (ι × Told O)
  mem : M
  waiting : List U
  clash : U → Bool
  ops : U → List (UOp O ι)

variable {U O ι M : Type} [DecidableEq U]

/-- What a callback does: memory, actions in order, whether it raises then, whether it catches exceptions. -/
structure Reaction (U O ι M : Type) where
  mem : M
  acts : List (Act U O ι)
  raises : Bool
  catches : Bool

/-- A callback is called: a subscriber, or a listener of `registration_event` with the new and the old object. -/
inductive Call (U O ι : Type) where
  | told (who : ι) (v : U) (t : Told O)
  | event (who : ι) (v : U) (new old : Option O)
deriving DecidableEq

/-- The uuids of the objects, the callbacks, and the listeners of `registration_event`. -/
structure Users (U O ι M : Type) where
  uuid : O → U
  react : Call U O ι → St U O ι M → Reaction U O ι M
  listeners : List ι

abbrev Res (U O ι M : Type) := Option (St U O ι M × Bool)

/-- The second component of a result says whether an exception was raised. -/
abbrev Exec (U O ι M : Type) := Act U O ι → St U O ι M → Res U O ι M

/-- Actions one after the other, up to an exception. -/
def acts (ex : Exec U O ι M) : List (Act U O ι) → St U O ι M → Res U O ι M
  | [], s => some (s, false)
  | a :: as, s => (ex a s).bind fun q => if q.2 then some q else acts ex as q.1

/-- A callback is called. -/
def call (u : Users U O ι M) (ex : Exec U O ι M) (c : Call U O ι) (s : St U O ι M) : Res U O ι M :=
  (acts ex (u.react c s).acts { s with mem := (u.react c s).mem }).map fun q =>
    (q.1, (q.2 || (u.react c s).raises) && !(u.react c s).catches)

/-- A subscriber is told. -/
def tell (u : Users U O ι M) (ex : Exec U O ι M) (v : U) (who : ι) (t : Told O) (s : St U O ι M) : Res U O ι M :=
  call u ex (.told who v t) { s with log := Function.update s.log v (s.log v ++ [(who, t)]) }

/-- The loops of lines 187-189 and 201-203, from an index on. -/
def loop (u : Users U O ι M) (ex : Exec U O ι M) (v : U) (L : ℕ) (t : Told O) : ℕ → ℕ → St U O ι M → Res U O ι M
  | 0, _, _ => none
  | n + 1, k, s =>
    match (s.heap L)[k]? with
    | none => some (s, false)
    | some who => (tell u ex v who t s).bind fun q => if q.2 then some q else loop u ex v L t n (k + 1) q.1

/-- `self.__subscriptions.get(object_uuid, list())` and the loop. -/
def tellAll (u : Users U O ι M) (ex : Exec U O ι M) (n : ℕ) (v : U) (t : Told O) (s : St U O ι M) : Res U O ι M :=
  match s.subs v with
  | none => some (s, false)
  | some L => loop u ex v L t n 0 s

/-- `registration_event.fire`. -/
def fire (u : Users U O ι M) (ex : Exec U O ι M) (v : U) (new old : Option O) : List ι → St U O ι M → Option (St U O ι M)
  | [], s => some s
  | w :: ws, s => (call u ex (.event w v new old) s).bind fun q => if q.2 then some q.1 else fire u ex v new old ws q.1

/-- An operation on a uuid is begun. -/
def note (v : U) (op : UOp O ι) (s : St U O ι M) : St U O ι M :=
  { s with ops := Function.update s.ops v (s.ops v ++ [op]), clash := Function.update s.clash v (s.clash v || decide (v ∈ s.waiting)) }

/-- A registration or unregistration ends, after an exception if `bad`. -/
def done (v : U) (w : List U) (bad : Bool) (s : St U O ι M) : St U O ι M :=
  { s with waiting := w, clash := Function.update s.clash v (s.clash v || bad) }

/-- A registration or unregistration begins. -/
def begun (v : U) (op : UOp O ι) (new : Option O) (s : St U O ι M) : St U O ι M :=
  { note v op s with objs := Function.update s.objs v new, waiting := v :: s.waiting }

/-- Lines 178-190 `register`. -/
def register (u : Users U O ι M) (ex : Exec U O ι M) (n : ℕ) (o : O) (s : St U O ι M) : Res U O ι M :=
  let v := u.uuid o
  (tellAll u ex n v (.registered o) (begun v (.register o) (some o) s)).bind fun q =>
    if q.2 then some (done v s.waiting true q.1, true)
    else (fire u ex v (some o) none u.listeners (done v s.waiting false q.1)).map fun r => (r, false)

/-- Lines 205-206: the object and the subscriptions are forgotten; `del` raises if there is no object. -/
def forget (v : U) (s : St U O ι M) : St U O ι M × Bool :=
  match s.objs v with
  | none => (s, true)
  | some _ => ({ s with objs := Function.update s.objs v none, subs := Function.update s.subs v none }, false)

/-- Lines 192-206 `unregister`. -/
def unregister (u : Users U O ι M) (ex : Exec U O ι M) (n : ℕ) (o : O) (s : St U O ι M) : Res U O ι M :=
  let v := u.uuid o
  (tellAll u ex n v (.unregistered (s.objs v)) (begun v .unregister (s.objs v) s)).bind fun q =>
    if q.2 then some (done v s.waiting true q.1, true)
    else (fire u ex v none (s.objs v) u.listeners q.1).map fun r => ((done v s.waiting false (forget v r).1), (forget v r).2)

/-- `self.__subscriptions.setdefault(object_uuid, list()).append(…)`. -/
def append (v : U) (who : ι) (s : St U O ι M) : St U O ι M :=
  match s.subs v with
  | some L => { s with heap := Function.update s.heap L (s.heap L ++ [who]) }
  | none => { s with subs := Function.update s.subs v (some s.next), heap := Function.update s.heap s.next [who], next := s.next + 1 }

/-- Lines 212-226 `subscribe`. -/
def subscribe (u : Users U O ι M) (ex : Exec U O ι M) (v : U) (who : ι) (s : St U O ι M) : Res U O ι M :=
  match s.objs v with
  | some o => tell u ex v who (.registered o) (append v who (note v (.subscribe who) s))
  | none => some (append v who (note v (.subscribe who) s), false)

/-- One action, with the nested ones run by `ex`. -/
def body (u : Users U O ι M) (ex : Exec U O ι M) (n : ℕ) : Exec U O ι M
  | .register o, s => register u ex n o s
  | .unregister o, s => unregister u ex n o s
  | .subscribe v who, s => subscribe u ex v who s

def exec (u : Users U O ι M) : ℕ → Exec U O ι M
  | 0, _, _ => none
  | n + 1, a, s => body u (exec u n) n a s

/-- Calls of the user one after the other, whether they raise or not. -/
def run (ex : Exec U O ι M) : List (Act U O ι) → St U O ι M → Option (St U O ι M)
  | [], s => some s
  | a :: as, s => (ex a s).bind fun q => run ex as q.1

/-- A new context. -/
def start (m : M) : St U O ι M := ⟨fun _ => none, fun _ => none, fun _ => [], 0, fun _ => [], m, [], fun _ => false, fun _ => []⟩

/-! ### Specification -/

/-- The object of a uuid, its subscribers, and what these were told. -/
structure Part (O ι : Type) where
  obj : Option O
  subs : List ι
  told : List (ι × Told O)
deriving DecidableEq

/-- An operation on a uuid while nothing else happens (as in C57): all subscribers are told of registrations and unregistrations once, new
ones are told of the object there is, and an unregistration ends the subscriptions. -/
def Part.step (p : Part O ι) : UOp O ι → Part O ι
  | .register o => ⟨some o, p.subs, p.told ++ p.subs.map fun w => (w, .registered o)⟩
  | .unregister => ⟨none, if p.obj.isSome then [] else p.subs, p.told ++ p.subs.map fun w => (w, .unregistered p.obj)⟩
  | .subscribe who => ⟨p.obj, p.subs ++ [who], p.told ++ match p.obj with | some o => [(who, .registered o)] | none => []⟩

/-- The list of subscriptions of a uuid. -/
def St.list (s : St U O ι M) (v : U) : List ι :=
  match s.subs v with
  | none => []
  | some L => s.heap L

def St.part (s : St U O ι M) (v : U) : Part O ι := ⟨s.objs v, s.list v, s.log v⟩

/-- The uuid an action is about. -/
def Act.about (u : Users U O ι M) : Act U O ι → U
  | .register o => u.uuid o
  | .unregister o => u.uuid o
  | .subscribe v _ => v

def Call.about : Call U O ι → U
  | .told _ v _ => v
  | .event _ v _ _ => v

/-- Uuids have ranks such that callbacks for a uuid use only uuids of higher rank, and callbacks let no exceptions out. -/
def Ranked (u : Users U O ι M) : Prop := ∃ f : U → ℕ, ∀ c s, (∀ a ∈ (u.react c s).acts, f c.about < f (a.about u)) ∧
  ((u.react c s).catches = true ∨ ((u.react c s).raises = false ∧ ∀ a ∈ (u.react c s).acts, ∀ o, a ≠ .unregister o))

/-! ### Proof -/

variable {u : Users U O ι M} {ex : Exec U O ι M} {s t : St U O ι M} {v : U}

structure Wf (s : St U O ι M) : Prop where
  lt : ∀ v L, s.subs v = some L → L < s.next
  inj : ∀ v w L, s.subs v = some L → s.subs w = some L → v = w

/-- Nothing happened to a uuid except that subscribers were told. -/
structure Same (v : U) (l : List (ι × Told O)) (s t : St U O ι M) : Prop where
  objs : t.objs v = s.objs v
  subs : t.subs v = s.subs v
  list : t.list v = s.list v
  ops : t.ops v = s.ops v
  log : t.log v = s.log v ++ l

def Seq (s : St U O ι M) (v : U) : Prop := s.clash v = false → s.part v = (s.ops v).foldl Part.step ⟨none, [], []⟩

/-- What happens to all uuids for which `p` holds. -/
structure EffOn (p : U → Prop) (s t : St U O ι M) : Prop where
  clash : ∀ v, s.clash v = true → t.clash v = true
  wf : Wf t
  still : ∀ v, p v → v ∈ s.waiting → t.clash v = true ∨ Same v [] s t
  seq : ∀ v, p v → Seq s v → Seq t v

/-- What running an action does. -/
structure Eff (s t : St U O ι M) : Prop where
  wait : t.waiting = s.waiting
  on : EffOn (fun _ => True) s t

theorem Same.refl (v : U) (s : St U O ι M) : Same v [] s s := ⟨rfl, rfl, rfl, rfl, by simp⟩

theorem Same.trans {q : St U O ι M} {l m : List (ι × Told O)} (h : Same v l s t) (k : Same v m t q) : Same v (l ++ m) s q :=
  ⟨k.objs.trans h.objs, k.subs.trans h.subs, k.list.trans h.list, k.ops.trans h.ops, by rw [k.log, h.log, List.append_assoc]⟩

theorem EffOn.refl (p : U → Prop) (h : Wf s) : EffOn p s s := ⟨fun _ => id, h, fun v _ _ => .inr (.refl v s), fun _ _ => id⟩

theorem EffOn.trans {p : U → Prop} {q : St U O ι M} (h : EffOn p s t) (hw : t.waiting = s.waiting) (k : EffOn p t q) : EffOn p s q := by
  refine ⟨fun v hv => k.clash v (h.clash v hv), k.wf, fun v hp hv => ?_, fun v hp hs => k.seq v hp (h.seq v hp hs)⟩
  rcases h.still v hp hv with h1 | h1
  · exact .inl (k.clash v h1)
  · rcases k.still v hp (hw ▸ hv) with k1 | k1
    · exact .inl k1
    · exact .inr (h1.trans k1)

theorem EffOn.mono {p p' : U → Prop} (h : EffOn p s t) (hp : ∀ v, p' v → p v) : EffOn p' s t :=
  ⟨h.clash, h.wf, fun v hv => h.still v (hp v hv), fun v hv => h.seq v (hp v hv)⟩

theorem Eff.refl (h : Wf s) : Eff s s := ⟨rfl, .refl _ h⟩

theorem Eff.trans {q : St U O ι M} (h : Eff s t) (k : Eff t q) : Eff s q := ⟨k.wait.trans h.wait, h.on.trans h.wait k.on⟩

/-- Steps that leave other uuids alone. -/
theorem other {w : U} (h1 : t.objs w = s.objs w) (h2 : t.subs w = s.subs w) (h3 : t.list w = s.list w) (h4 : t.ops w = s.ops w)
    (h5 : t.log w = s.log w) (h6 : t.clash w = s.clash w) : Same w [] s t ∧ (Seq s w → Seq t w) :=
  ⟨⟨h1, h2, h3, h4, by simp [h5]⟩, fun h hc => by
    rw [St.part, h1, h3, h5, h4]
    exact h (h6 ▸ hc)⟩

def Ok (ex : Exec U O ι M) : Prop := ∀ a s q, Wf s → ex a s = some q → Eff s q.1

theorem acts_eff (h : Ok ex) (as : List (Act U O ι)) (s : St U O ι M) (q : St U O ι M × Bool) (h0 : Wf s)
    (he : acts ex as s = some q) : Eff s q.1 := by
  induction as generalizing s with
  | nil =>
    simp only [acts, Option.some.injEq] at he
    exact he ▸ .refl h0
  | cons a as ih =>
    simp only [acts, Option.bind_eq_some_iff] at he
    obtain ⟨q1, h1, h2⟩ := he
    have e := h a s q1 h0 h1
    split at h2
    · cases h2
      exact e
    · exact e.trans (ih _ e.on.wf h2)

theorem call_eff (h : Ok ex) (c : Call U O ι) (s : St U O ι M) (q : St U O ι M × Bool) (h0 : Wf s)
    (he : call u ex c s = some q) : Eff s q.1 := by
  simp only [call, Option.map_eq_some_iff] at he
  obtain ⟨q1, h1, rfl⟩ := he
  have e := acts_eff h _ _ _ (by exact ⟨h0.lt, h0.inj⟩) h1
  refine ⟨e.wait, e.on.clash, e.on.wf, fun v hp hv => ?_, fun v hp hs => e.on.seq v hp hs⟩
  rcases e.on.still v hp hv with k | k
  · exact .inl k
  · exact .inr ⟨k.objs, k.subs, k.list, k.ops, k.log⟩

theorem fire_eff (h : Ok ex) (v : U) (new old : Option O) (ws : List ι) (s t : St U O ι M) (h0 : Wf s) (he : fire u ex v new old ws s = some t) :
    Eff s t := by
  induction ws generalizing s with
  | nil =>
    simp only [fire, Option.some.injEq] at he
    exact he ▸ .refl h0
  | cons w ws ih =>
    simp only [fire, Option.bind_eq_some_iff] at he
    obtain ⟨q1, h1, h2⟩ := he
    have e := call_eff h _ s q1 h0 h1
    split at h2
    · cases h2
      exact e
    · exact e.trans (ih _ e.on.wf h2)

/-- A subscriber of a uuid in progress is told. -/
theorem tell_eff (h : Ok ex) (v : U) (who : ι) (x : Told O) (s : St U O ι M) (q : St U O ι M × Bool) (h0 : Wf s)
    (he : tell u ex v who x s = some q) :
    q.1.waiting = s.waiting ∧ EffOn (· ≠ v) s q.1 ∧ (v ∈ s.waiting → q.1.clash v = true ∨ Same v [(who, x)] s q.1) := by
  have e := call_eff h _ _ _ (by exact ⟨h0.lt, h0.inj⟩) he
  have hL : ∀ w, St.list { s with log := Function.update s.log v (s.log v ++ [(who, x)]) } w = s.list w := fun w => rfl
  refine ⟨e.wait, ⟨e.on.clash, e.on.wf, fun w hp hv => ?_, fun w hp hs => ?_⟩, fun hv => ?_⟩
  · rcases e.on.still w trivial hv with k | k
    · exact .inl k
    · refine .inr ⟨k.objs, k.subs, k.list, k.ops, ?_⟩
      have := k.log
      simpa only [Function.update_of_ne hp] using this
  · refine e.on.seq w trivial fun hc => ?_
    have := hs hc
    simp only [St.part, Function.update_of_ne hp, hL] at this ⊢
    exact this
  · rcases e.on.still v trivial hv with k | k
    · exact .inl k
    · refine .inr ⟨k.objs, k.subs, k.list, k.ops, ?_⟩
      have := k.log
      simpa using this

theorem loop_eff (h : Ok ex) (v : U) (L : ℕ) (x : Told O) (n k : ℕ) (s : St U O ι M) (q : St U O ι M × Bool) (h0 : Wf s) (hv : v ∈ s.waiting)
    (hL : s.clash v = true ∨ s.subs v = some L) (he : loop u ex v L x n k s = some q) :
    q.1.waiting = s.waiting ∧ EffOn (· ≠ v) s q.1 ∧
      (q.2 = false → q.1.clash v = true ∨ Same v (((s.list v).drop k).map fun w => (w, x)) s q.1) := by
  induction n generalizing k s with
  | zero => simp [loop] at he
  | succ n ih =>
    simp only [loop] at he
    split at he
    · rename_i hk
      cases he
      refine ⟨rfl, .refl _ h0, fun _ => ?_⟩
      rcases hL with hc | hL
      · exact .inl hc
      · refine .inr ?_
        have hlist : s.list v = s.heap L := by simp [St.list, hL]
        rw [hlist, List.drop_eq_nil_of_le (List.getElem?_eq_none_iff.1 hk)]
        exact .refl v s
    · rename_i who hk
      rw [Option.bind_eq_some_iff] at he
      obtain ⟨q1, h1, h2⟩ := he
      obtain ⟨g1, g2, g3⟩ := tell_eff h v who x s q1 h0 h1
      split at h2
      · rename_i hq
        cases h2
        exact ⟨g1, g2, fun hf => by rw [hq] at hf; cases hf⟩
      · have hL' : q1.1.clash v = true ∨ q1.1.subs v = some L := by
          rcases hL with hc | hL
          · exact .inl (g2.clash v hc)
          · rcases g3 hv with k | k
            · exact .inl k
            · exact .inr (k.subs.trans hL)
        obtain ⟨f1, f2, f3⟩ := ih (k + 1) q1.1 g2.wf (g1 ▸ hv) hL' h2
        refine ⟨f1.trans g1, g2.trans g1 f2, fun hq => ?_⟩
        rcases f3 hq with c | c
        · exact .inl c
        · rcases hL with hc | hL
          · exact .inl (f2.clash v (g2.clash v hc))
          · rcases g3 hv with k3 | k3
            · exact .inl (f2.clash v k3)
            · refine .inr ?_
              have hlist : s.list v = s.heap L := by simp [St.list, hL]
              obtain ⟨hlt, hget⟩ := List.getElem?_eq_some_iff.1 hk
              have := k3.trans c
              rw [k3.list, hlist] at this
              rw [hlist, List.drop_eq_getElem_cons hlt, hget]
              exact this

theorem tellAll_eff (h : Ok ex) (n : ℕ) (v : U) (x : Told O) (s : St U O ι M) (q : St U O ι M × Bool) (h0 : Wf s) (hv : v ∈ s.waiting)
    (he : tellAll u ex n v x s = some q) :
    q.1.waiting = s.waiting ∧ EffOn (· ≠ v) s q.1 ∧ (q.2 = false → q.1.clash v = true ∨ Same v ((s.list v).map fun w => (w, x)) s q.1) := by
  unfold tellAll at he
  split at he
  · rename_i hs
    cases he
    refine ⟨rfl, .refl _ h0, fun _ => .inr ?_⟩
    simp only [St.list, hs, List.map_nil]
    exact .refl v s
  · rename_i L hL
    exact loop_eff h v L x n 0 s q h0 hv (.inr hL) he

theorem note_other {w : U} (op : UOp O ι) (s : St U O ι M) (hw : w ≠ v) : Same w [] s (note v op s) ∧ (Seq s w → Seq (note v op s) w) :=
  other rfl rfl rfl (by simp [note, Function.update_of_ne hw]) rfl (by simp [note, Function.update_of_ne hw])

theorem note_clash (op : UOp O ι) (s : St U O ι M) (w : U) (h : s.clash w = true) : (note v op s).clash w = true := by
  by_cases hw : w = v
  · subst hw
    simp [note, h]
  · simpa [note, Function.update_of_ne hw] using h

theorem note_waiting (op : UOp O ι) (s : St U O ι M) (h : v ∈ s.waiting) : (note v op s).clash v = true := by simp [note, h]

theorem note_false {op : UOp O ι} {s : St U O ι M} (h : (note v op s).clash v = false) : s.clash v = false ∧ v ∉ s.waiting := by
  simpa [note] using h

theorem begun_other {w : U} (op : UOp O ι) (new : Option O) (s : St U O ι M) (hw : w ≠ v) :
    Same w [] s (begun v op new s) ∧ (Seq s w → Seq (begun v op new s) w) :=
  other (by simp [begun, Function.update_of_ne hw]) rfl rfl (by simp [begun, note, Function.update_of_ne hw]) rfl
    (by simp [begun, note, Function.update_of_ne hw])

theorem done_clash {w : List U} {b : Bool} (s : St U O ι M) (x : U) (h : s.clash x = true) : (done v w b s).clash x = true := by
  by_cases hn : x = v
  · subst hn
    simp [done, h]
  · simpa [done, Function.update_of_ne hn] using h

/-- A registration or unregistration, from begin to end: other uuids. -/
theorem done_eff (op : UOp O ι) (new : Option O) (s t : St U O ι M) (b : Bool) (g2 : EffOn (· ≠ v) (begun v op new s) t)
    (hv : Seq s v → (begun v op new s).clash v = false → t.clash v = false → b = false →
      t.part v = (t.ops v).foldl Part.step ⟨none, [], []⟩) :
    Eff s (done v s.waiting b t) := by
  refine ⟨rfl, fun w hw => done_clash t w (g2.clash w (note_clash op s w hw)), ⟨g2.wf.lt, g2.wf.inj⟩, fun w _ hw => ?_, fun w _ hs hc => ?_⟩
  · by_cases hn : w = v
    · subst hn
      exact .inl (done_clash t w (g2.clash _ (note_waiting op s hw)))
    · rcases g2.still w hn (List.mem_cons_of_mem _ hw) with k | k
      · exact .inl (done_clash t w k)
      · have := (begun_other op new s hn).1.trans k
        exact .inr ⟨this.objs, this.subs, this.list, this.ops, this.log⟩
  · by_cases hn : w = v
    · subst hn
      simp only [done, Function.update_self, Bool.or_eq_false_iff] at hc
      refine hv hs ?_ hc.1 hc.2
      cases hh : (begun w op new s).clash w with
      | false => rfl
      | true => rw [g2.clash w hh] at hc; cases hc.1
    · have e := g2.seq w hn ((begun_other op new s hn).2 hs)
      exact e (by simpa [done, Function.update_of_ne hn] using hc)

theorem register_eff (h : Ok ex) (n : ℕ) (o : O) (s : St U O ι M) (q : St U O ι M × Bool) (h0 : Wf s)
    (he : register u ex n o s = some q) :
    Eff s q.1 := by
  simp only [register, Option.bind_eq_some_iff] at he
  obtain ⟨q1, h1, h2⟩ := he
  generalize hv : u.uuid o = v at *
  obtain ⟨g1, g2, g3⟩ := tellAll_eff h n v (.registered o) _ q1 (by exact ⟨h0.lt, h0.inj⟩) (by simp [begun]) h1
  have hD : ∀ b, (b = false → q1.2 = false) → Eff s (done v s.waiting b q1.1) := by
    intro b hb
    refine done_eff (.register o) (some o) s q1.1 b g2 fun hs hc hc' hb' => ?_
    rcases g3 (hb hb') with k | k
    · rw [k] at hc'
      cases hc'
    · have hp := hs (note_false (op := .register o) hc).1
      rw [St.part, k.objs, k.list, k.ops, k.log]
      simp only [begun, note, Function.update_self, List.foldl_append]
      rw [← hp]
      rfl
  split at h2
  · cases h2
    exact hD true (by simp)
  · rename_i hq
    rw [Option.map_eq_some_iff] at h2
    obtain ⟨r, h2, rfl⟩ := h2
    exact (hD false fun _ => by simpa using hq).trans (fire_eff h _ _ _ _ _ _ (hD false fun _ => by simpa using hq).on.wf h2)

theorem forget_on (s : St U O ι M) (h0 : Wf s) : EffOn (· ≠ v) s (forget v s).1 := by
  unfold forget
  split
  · exact .refl _ h0
  · have hl : ∀ w, w ≠ v → St.list { s with objs := Function.update s.objs v none, subs := Function.update s.subs v none } w = s.list w :=
      fun w hw => by simp [St.list, Function.update_of_ne hw]
    refine ⟨fun _ => id, ⟨fun w L hw => ?_, fun w w' L hw hw' => ?_⟩, fun w hn _ => .inr ?_, fun w hn => ?_⟩
    · by_cases hn : w = v
      · subst hn
        simp at hw
      · exact h0.lt w L (by simpa only [Function.update_of_ne hn] using hw)
    · by_cases hn : w = v
      · subst hn
        simp at hw
      · by_cases hn' : w' = v
        · subst hn'
          simp at hw'
        · exact h0.inj w w' L (by simpa only [Function.update_of_ne hn] using hw) (by simpa only [Function.update_of_ne hn'] using hw')
    · exact (other (by simp [Function.update_of_ne hn]) (by simp [Function.update_of_ne hn]) (hl w hn) rfl rfl rfl).1
    · exact (other (by simp [Function.update_of_ne hn]) (by simp [Function.update_of_ne hn]) (hl w hn) rfl rfl rfl).2

theorem unregister_eff (h : Ok ex) (n : ℕ) (o : O) (s : St U O ι M) (q : St U O ι M × Bool) (h0 : Wf s)
    (he : unregister u ex n o s = some q) :
    Eff s q.1 := by
  simp only [unregister, Option.bind_eq_some_iff] at he
  obtain ⟨q1, h1, h2⟩ := he
  generalize hv : u.uuid o = v at *
  obtain ⟨g1, g2, g3⟩ := tellAll_eff h n v (.unregistered (s.objs v)) _ q1 (by exact ⟨h0.lt, h0.inj⟩) (by simp [begun]) h1
  split at h2
  · cases h2
    exact done_eff .unregister (s.objs v) s q1.1 true g2 fun _ _ _ hb => by cases hb
  · rename_i hq
    rw [Option.map_eq_some_iff] at h2
    obtain ⟨r, h2, rfl⟩ := h2
    have e := fire_eff h _ _ _ _ _ _ g2.wf h2
    have hw : v ∈ q1.1.waiting := by simp [g1, begun]
    have hwf : (forget v r).1.waiting = r.waiting := by unfold forget; split <;> rfl
    refine done_eff .unregister (s.objs v) s (forget v r).1 false ((g2.trans g1 (e.on.mono fun _ _ => trivial)).trans (e.wait.trans g1) (forget_on r e.on.wf))
      fun hs hc hc' hb' => ?_
    have hcr : r.clash v = false := by
      cases hh : r.clash v with
      | false => rfl
      | true => rw [(forget_on (v := v) r e.on.wf).clash v hh] at hc'; cases hc'
    have hcq : q1.1.clash v = false := by
      cases hh : q1.1.clash v with
      | false => rfl
      | true => rw [e.on.clash v hh] at hcr; cases hcr
    rcases g3 (by simpa using hq) with k | k
    · rw [k] at hcq
      cases hcq
    rcases e.on.still v trivial hw with k' | k'
    · rw [k'] at hcr
      cases hcr
    have kk := k.trans k'
    have hp := hs (note_false (op := .unregister) hc).1
    have h1 : r.objs v = s.objs v := by rw [kk.objs]; simp [begun]
    have h2 : r.list v = s.list v := kk.list
    have h3 : r.ops v = s.ops v ++ [.unregister] := by rw [kk.ops]; simp [begun, note]
    have h4 : r.log v = s.log v ++ (s.list v).map fun w => (w, .unregistered (s.objs v)) := by rw [kk.log, List.append_nil]; rfl
    unfold forget
    rw [h1]
    cases ho : s.objs v with
    | none =>
      simp only [St.part, h1, h2, h3, h4, ho, List.foldl_append, ← hp, List.foldl_cons, List.foldl_nil, Part.step]
      simp
    | some o' =>
      simp only [St.part, St.list, Function.update_self, h3, h4, ho, List.foldl_append, ← hp, List.foldl_cons, List.foldl_nil, Part.step]
      simp

theorem append_self (who : ι) (s : St U O ι M) : (append v who s).list v = s.list v ++ [who] := by
  unfold append
  split
  · rename_i L hL
    simp [St.list, hL]
  · rename_i hL
    simp [St.list, hL]

theorem append_on (who : ι) (s : St U O ι M) (h0 : Wf s) : Wf (append v who s) ∧ ∀ w, w ≠ v → (append v who s).subs w = s.subs w ∧
    (append v who s).list w = s.list w := by
  unfold append
  split
  · rename_i L hL
    refine ⟨⟨h0.lt, h0.inj⟩, fun w hw => ⟨rfl, ?_⟩⟩
    unfold St.list
    cases hs : s.subs w with
    | none => simp
    | some L' =>
      have : L' ≠ L := fun hh => hw (h0.inj w v L (hh ▸ hs) hL)
      simp [Function.update_of_ne this]
  · refine ⟨⟨fun w L hw => ?_, fun w w' L hw hw' => ?_⟩, fun w hw => ⟨by simp [Function.update_of_ne hw], ?_⟩⟩
    · by_cases hn : w = v
      · subst hn
        simp at hw
        simp [← hw]
      · exact Nat.lt_succ_of_lt (h0.lt w L (by simpa only [Function.update_of_ne hn] using hw))
    · by_cases hn : w = v <;> by_cases hn' : w' = v
      · exact hn.trans hn'.symm
      · subst hn
        simp only [Function.update_self, Option.some.injEq, Function.update_of_ne hn'] at hw hw'
        exact absurd (h0.lt w' L hw') (by simp [← hw])
      · subst hn'
        simp only [Function.update_self, Option.some.injEq, Function.update_of_ne hn] at hw hw'
        exact absurd (h0.lt w L hw) (by simp [← hw'])
      · exact h0.inj w w' L (by simpa only [Function.update_of_ne hn] using hw) (by simpa only [Function.update_of_ne hn'] using hw')
    · unfold St.list
      cases hs : s.subs w with
      | none => simp [Function.update_of_ne hw, hs]
      | some L' =>
        have : L' ≠ s.next := Nat.ne_of_lt (h0.lt w L' hs)
        simp [Function.update_of_ne hw, hs, Function.update_of_ne this]

theorem subscribed_eff (who : ι) (s : St U O ι M) (h0 : Wf s) (l : List (ι × Told O))
    (hl : l = match s.objs v with | some o => [(who, .registered o)] | none => []) :
    Eff s { append v who (note v (.subscribe who) s) with
      log := Function.update (append v who (note v (.subscribe who) s)).log v ((append v who (note v (.subscribe who) s)).log v ++ l) } := by
  obtain ⟨k1, k2⟩ := append_on (v := v) who (note v (.subscribe who) s) ⟨h0.lt, h0.inj⟩
  have k3 := append_self (v := v) who (note v (.subscribe who) s)
  have e1 : (append v who (note v (.subscribe who) s)).objs = s.objs := by unfold append; split <;> rfl
  have e2 : (append v who (note v (.subscribe who) s)).ops = (note v (.subscribe who) s).ops := by unfold append; split <;> rfl
  have e3 : (append v who (note v (.subscribe who) s)).log = s.log := by unfold append; split <;> rfl
  have e4 : (append v who (note v (.subscribe who) s)).clash = (note v (.subscribe who) s).clash := by unfold append; split <;> rfl
  have e5 : (append v who (note v (.subscribe who) s)).waiting = s.waiting := by unfold append; split <;> rfl
  generalize append v who (note v (.subscribe who) s) = t at *
  have ho : ∀ w, w ≠ v → Same w [] s { t with log := Function.update t.log v (t.log v ++ l) } ∧
      (Seq s w → Seq { t with log := Function.update t.log v (t.log v ++ l) } w) := fun w hw =>
    other (congrFun e1 w) (k2 w hw).1 (k2 w hw).2 (by simp [e2, note, Function.update_of_ne hw]) (by simp [e3, Function.update_of_ne hw])
      (by simp [e4, note, Function.update_of_ne hw])
  refine ⟨e5, fun w hw => ?_, ⟨k1.lt, k1.inj⟩, fun w _ hw => ?_, fun w _ hs hc => ?_⟩
  · show t.clash w = true
    rw [e4]
    exact note_clash _ s w hw
  · by_cases hn : w = v
    · subst hn
      refine .inl ?_
      show t.clash w = true
      rw [e4]
      exact note_waiting _ s hw
    · exact .inr (ho w hn).1
  · by_cases hn : w = v
    · subst hn
      have hc' : t.clash w = false := hc
      rw [e4] at hc'
      have hp := hs (note_false hc').1
      show (⟨t.objs w, t.list w, Function.update t.log w (t.log w ++ l) w⟩ : Part O ι) = (t.ops w).foldl Part.step ⟨none, [], []⟩
      rw [k3, e1, e2, e3]
      simp only [note, Function.update_self, List.foldl_append, ← hp, hl]
      rfl
    · exact (ho w hn).2 hs hc

theorem subscribe_eff (h : Ok ex) (w : U) (who : ι) (s : St U O ι M) (q : St U O ι M × Bool) (h0 : Wf s)
    (he : subscribe u ex w who s = some q) : Eff s q.1 := by
  unfold subscribe at he
  have e := subscribed_eff (v := w) who s h0 _ rfl
  split at he
  · rename_i o ho
    rw [ho] at e
    exact e.trans (call_eff h _ _ q e.on.wf he)
  · rename_i ho
    rw [ho] at e
    cases he
    simpa using e

theorem body_ok (h : Ok ex) (n : ℕ) : Ok (body u ex n) := by
  intro a s q h0 he
  cases a with
  | register o => exact register_eff h n o s q h0 he
  | unregister o => exact unregister_eff h n o s q h0 he
  | subscribe w who => exact subscribe_eff h w who s q h0 he

theorem exec_ok (u : Users U O ι M) : ∀ n, Ok (exec u n)
  | 0 => fun a s q _ he => by simp [exec] at he
  | n + 1 => fun a s q h0 he => body_ok (exec_ok u n) n a s q h0 he

theorem run_eff (h : Ok ex) (as : List (Act U O ι)) (s t : St U O ι M) (h0 : Wf s) (he : run ex as s = some t) : Eff s t := by
  induction as generalizing s with
  | nil =>
    simp only [run, Option.some.injEq] at he
    exact he ▸ .refl h0
  | cons a as ih =>
    simp only [run, Option.bind_eq_some_iff] at he
    obtain ⟨q, h1, h2⟩ := he
    have e := h a s q h0 h1
    exact e.trans (ih _ e.on.wf h2)

theorem start_wf (m : M) : Wf (start m : St U O ι M) := ⟨fun _ _ h => (by cases h), fun _ _ _ h => (by cases h)⟩

/-- C180 (partial: for uuids that callbacks do not use while a registration or unregistration of them is in progress, and whose callbacks do
not raise): whatever callbacks and listeners do with other uuids and at other times, the object, the subscribers and what these were told
are as if the operations on the uuid had been made one after the other with callbacks that do nothing. -/
theorem C180_sequential_partial (u : Users U O ι M) (m : M) (n : ℕ) (as : List (Act U O ι)) (s : St U O ι M)
    (h : run (exec u n) as (start m) = some s) (v : U) (hv : s.clash v = false) :
    s.part v = (s.ops v).foldl Part.step ⟨none, [], []⟩ :=
  (run_eff (exec_ok u n) as _ s (start_wf m) h).on.seq v trivial (fun _ => rfl) hv

/-! ### Ranks -/

section Ranks

variable {f : U → ℕ}

def RankedBy (f : U → ℕ) (u : Users U O ι M) : Prop := ∀ c s, (∀ a ∈ (u.react c s).acts, f c.about < f (a.about u)) ∧
  ((u.react c s).catches = true ∨ ((u.react c s).raises = false ∧ ∀ a ∈ (u.react c s).acts, ∀ o, a ≠ .unregister o))

def Fine (f : U → ℕ) (u : Users U O ι M) (ex : Exec U O ι M) : Prop := ∀ a s q, Wf s → (∀ w ∈ s.waiting, f w < f (a.about u)) →
  ex a s = some q → q.1.clash = s.clash ∧ ((∀ o, a ≠ .unregister o) → q.2 = false)

theorem acts_fine (ho : Ok ex) (h : Fine f u ex) (as : List (Act U O ι)) (s : St U O ι M) (q : St U O ι M × Bool) (h0 : Wf s)
    (hw : ∀ a ∈ as, ∀ w ∈ s.waiting, f w < f (a.about u)) (he : acts ex as s = some q) :
    q.1.clash = s.clash ∧ ((∀ a ∈ as, ∀ o, a ≠ .unregister o) → q.2 = false) := by
  induction as generalizing s with
  | nil =>
    simp only [acts, Option.some.injEq] at he
    subst he
    exact ⟨rfl, fun _ => rfl⟩
  | cons a as ih =>
    simp only [acts, Option.bind_eq_some_iff] at he
    obtain ⟨q1, h1, h2⟩ := he
    have e := ho a s q1 h0 h1
    obtain ⟨g1, g2⟩ := h a s q1 h0 (hw a (by simp)) h1
    split at h2
    · rename_i hq
      cases h2
      refine ⟨g1, fun hn => ?_⟩
      exact g2 (hn a (by simp))
    · obtain ⟨k1, k2⟩ := ih _ e.on.wf (fun b hb w hm => hw b (by simp [hb]) w (e.wait ▸ hm)) h2
      exact ⟨k1.trans g1, fun hn => k2 fun b hb => hn b (by simp [hb])⟩

theorem call_fine (hr : RankedBy f u) (ho : Ok ex) (h : Fine f u ex) (c : Call U O ι) (s : St U O ι M) (q : St U O ι M × Bool) (h0 : Wf s)
    (hw : ∀ w ∈ s.waiting, f w ≤ f c.about) (he : call u ex c s = some q) : q.1.clash = s.clash ∧ q.2 = false := by
  simp only [call, Option.map_eq_some_iff] at he
  obtain ⟨q1, h1, rfl⟩ := he
  obtain ⟨g1, g2⟩ := acts_fine ho h _ _ q1 (by exact ⟨h0.lt, h0.inj⟩)
    (by exact fun a ha w hm => Nat.lt_of_le_of_lt (hw w hm) ((hr c s).1 a ha)) h1
  refine ⟨g1, ?_⟩
  rcases (hr c s).2 with k | ⟨k1, k2⟩
  · simp [k]
  · simp [k1, g2 k2]

theorem fire_fine (hr : RankedBy f u) (ho : Ok ex) (h : Fine f u ex) (v : U) (new old : Option O) (ws : List ι) (s t : St U O ι M)
    (h0 : Wf s) (hw : ∀ w ∈ s.waiting, f w ≤ f v) (he : fire u ex v new old ws s = some t) : t.clash = s.clash := by
  induction ws generalizing s with
  | nil =>
    simp only [fire, Option.some.injEq] at he
    rw [he]
  | cons w ws ih =>
    simp only [fire, Option.bind_eq_some_iff] at he
    obtain ⟨q1, h1, h2⟩ := he
    have e := call_eff ho _ s q1 h0 h1
    obtain ⟨g1, g2⟩ := call_fine hr ho h _ s q1 h0 (by exact hw) h1
    rw [g2] at h2
    exact (ih _ e.on.wf (fun w hm => hw w (e.wait ▸ hm)) h2).trans g1

theorem tell_fine (hr : RankedBy f u) (ho : Ok ex) (h : Fine f u ex) (v : U) (who : ι) (x : Told O) (s : St U O ι M) (q : St U O ι M × Bool)
    (h0 : Wf s) (hw : ∀ w ∈ s.waiting, f w ≤ f v) (he : tell u ex v who x s = some q) : q.1.clash = s.clash ∧ q.2 = false :=
  call_fine hr ho h (.told who v x) { s with log := Function.update s.log v (s.log v ++ [(who, x)]) } q (by exact ⟨h0.lt, h0.inj⟩)
    (by exact hw) he

theorem loop_fine (hr : RankedBy f u) (ho : Ok ex) (h : Fine f u ex) (v : U) (L : ℕ) (x : Told O) (n k : ℕ) (s : St U O ι M)
    (q : St U O ι M × Bool) (h0 : Wf s) (hw : ∀ w ∈ s.waiting, f w ≤ f v) (he : loop u ex v L x n k s = some q) :
    q.1.clash = s.clash ∧ q.2 = false := by
  induction n generalizing k s with
  | zero => simp [loop] at he
  | succ n ih =>
    simp only [loop] at he
    split at he
    · cases he
      exact ⟨rfl, rfl⟩
    · rw [Option.bind_eq_some_iff] at he
      obtain ⟨q1, h1, h2⟩ := he
      obtain ⟨e1, e2, -⟩ := tell_eff ho v _ x s q1 h0 h1
      obtain ⟨g1, g2⟩ := tell_fine hr ho h v _ x s q1 h0 hw h1
      rw [g2] at h2
      obtain ⟨k1, k2⟩ := ih _ _ e2.wf (fun w hm => hw w (e1 ▸ hm)) h2
      exact ⟨k1.trans g1, k2⟩

theorem tellAll_fine (hr : RankedBy f u) (ho : Ok ex) (h : Fine f u ex) (n : ℕ) (v : U) (x : Told O) (s : St U O ι M)
    (q : St U O ι M × Bool) (h0 : Wf s) (hw : ∀ w ∈ s.waiting, f w ≤ f v) (he : tellAll u ex n v x s = some q) :
    q.1.clash = s.clash ∧ q.2 = false := by
  unfold tellAll at he
  split at he
  · cases he
    exact ⟨rfl, rfl⟩
  · exact loop_fine hr ho h v _ x n 0 s q h0 hw he

theorem note_fine (op : UOp O ι) (s : St U O ι M) (h : v ∉ s.waiting) : (note v op s).clash = s.clash := by simp [note, h]

theorem done_fine (w : List U) (s : St U O ι M) : (done v w false s).clash = s.clash := by simp [done]

theorem exec_fine (hr : RankedBy f u) : ∀ n, Fine f u (exec u n)
  | 0 => fun a s q _ _ he => by simp [exec] at he
  | n + 1 => fun a s q h0 hw he => by
    have ho := exec_ok u n
    have h := exec_fine hr n
    have hnot : a.about u ∉ s.waiting := fun hm => Nat.lt_irrefl _ (hw _ hm)
    cases a with
    | register o =>
      simp only [exec, body, register, Option.bind_eq_some_iff] at he
      obtain ⟨q1, h1, h2⟩ := he
      have hw' : ∀ w ∈ (begun (u.uuid o) (.register o) (some o) s).waiting, f w ≤ f (u.uuid o) := by
        intro w hm
        rcases List.mem_cons.1 hm with rfl | hm
        · exact Nat.le_refl _
        · exact Nat.le_of_lt (hw w hm)
      obtain ⟨g1, g2⟩ := tellAll_fine hr ho h n _ _ _ q1 (by exact ⟨h0.lt, h0.inj⟩) hw' h1
      obtain ⟨e1, e2, -⟩ := tellAll_eff ho n _ _ _ q1 (by exact ⟨h0.lt, h0.inj⟩) (by simp [begun]) h1
      rw [g2, if_neg (by simp), Option.map_eq_some_iff] at h2
      obtain ⟨r, h2, rfl⟩ := h2
      have g3 := fire_fine hr ho h _ _ _ _ _ _ (by exact ⟨e2.wf.lt, e2.wf.inj⟩) (by exact fun w hm => Nat.le_of_lt (hw w hm)) h2
      exact ⟨g3.trans ((done_fine _ _).trans (g1.trans (note_fine (.register o) s hnot))), fun _ => rfl⟩
    | unregister o =>
      simp only [exec, body, unregister, Option.bind_eq_some_iff] at he
      obtain ⟨q1, h1, h2⟩ := he
      have hw' : ∀ w ∈ (begun (u.uuid o) .unregister (s.objs (u.uuid o)) s).waiting, f w ≤ f (u.uuid o) := by
        intro w hm
        rcases List.mem_cons.1 hm with rfl | hm
        · exact Nat.le_refl _
        · exact Nat.le_of_lt (hw w hm)
      obtain ⟨g1, g2⟩ := tellAll_fine hr ho h n _ _ _ q1 (by exact ⟨h0.lt, h0.inj⟩) hw' h1
      obtain ⟨e1, e2, -⟩ := tellAll_eff ho n _ _ _ q1 (by exact ⟨h0.lt, h0.inj⟩) (by simp [begun]) h1
      rw [g2, if_neg (by simp), Option.map_eq_some_iff] at h2
      obtain ⟨r, h2, rfl⟩ := h2
      have g3 := fire_fine hr ho h _ _ _ _ _ _ e2.wf (fun w hm => hw' w (e1 ▸ hm)) h2
      have g4 : (forget (u.uuid o) r).1.clash = r.clash := by unfold forget; split <;> rfl
      exact ⟨(done_fine _ _).trans (g4.trans (g3.trans (g1.trans (note_fine .unregister s hnot)))), fun hn => absurd rfl (hn o)⟩
    | subscribe v who =>
      have hA : (append v who (note v (.subscribe who) s)).clash = s.clash := by
        rw [← note_fine (.subscribe who) s hnot]
        unfold append
        split <;> rfl
      have hB : (append v who (note v (.subscribe who) s)).waiting = s.waiting := by unfold append; split <;> rfl
      have hW := (append_on (v := v) who (note v (.subscribe who) s) ⟨h0.lt, h0.inj⟩).1
      simp only [exec, body, subscribe] at he
      split at he
      · obtain ⟨g1, g2⟩ := tell_fine hr ho h v who _ _ q hW (fun w hm => Nat.le_of_lt (hw w (hB ▸ hm))) he
        exact ⟨g1.trans hA, fun _ => g2⟩
      · cases he
        exact ⟨hA, fun _ => rfl⟩

theorem run_fine (ho : Ok ex) (h : Fine f u ex) (as : List (Act U O ι)) (s t : St U O ι M) (h0 : Wf s) (hw : s.waiting = [])
    (he : run ex as s = some t) : t.clash = s.clash := by
  induction as generalizing s with
  | nil =>
    simp only [run, Option.some.injEq] at he
    rw [he]
  | cons a as ih =>
    simp only [run, Option.bind_eq_some_iff] at he
    obtain ⟨q, h1, h2⟩ := he
    have e := ho a s q h0 h1
    exact (ih _ e.on.wf (e.wait.trans hw) h2).trans (h a s q h0 (by simp [hw]) h1).1

end Ranks

/-- C180 (partial: uuids have ranks, callbacks for a uuid use only uuids of higher rank and let no exceptions out): every uuid is as if the
operations on it had been made one after the other with callbacks that do nothing. -/
theorem C180_ranked_partial (u : Users U O ι M) (hr : Ranked u) (m : M) (n : ℕ) (as : List (Act U O ι)) (s : St U O ι M)
    (h : run (exec u n) as (start m) = some s) (v : U) : s.part v = (s.ops v).foldl Part.step ⟨none, [], []⟩ := by
  obtain ⟨f, hf⟩ := hr
  exact C180_sequential_partial u m n as s h v (by rw [run_fine (exec_ok u n) (exec_fine hf n) as _ s (start_wf m) rfl h]; rfl)

/-! ### Examples -/

/-- Objects have their tens as uuid. Subscriber 1 subscribes 2 for the same uuid when an object is registered, 3 does so when it is
unregistered, 4 subscribes itself again then, 5 raises, 6 subscribes 2 for uuid 8 and registers object 80, and 8
unregisters object 30. -/
def exReact : Call ℕ ℕ ℕ → St ℕ ℕ ℕ Unit → Reaction ℕ ℕ ℕ Unit
  | .told 1 v (.registered _), _ => ⟨(), [.subscribe v 2], false, false⟩
  | .told 3 v (.unregistered _), _ => ⟨(), [.subscribe v 2], false, false⟩
  | .told 4 v (.unregistered _), _ => ⟨(), [.subscribe v 4], false, false⟩
  | .told 5 _ _, _ => ⟨(), [], true, false⟩
  | .told 6 7 (.registered _), _ => ⟨(), [.subscribe 8 2, .register 80], false, false⟩
  | .told 8 _ (.registered _), _ => ⟨(), [.unregister 30], false, false⟩
  | _, _ => ⟨(), [], false, false⟩

def exUsers : Users ℕ ℕ ℕ Unit := ⟨(· / 10), exReact, [0]⟩

/-- Callbacks that use another uuid: subscriber 2 is told of object 80 when it is registered, twice since 70 is registered twice. -/
example : (run (exec exUsers 9) [.subscribe 7 6, .subscribe 7 2, .register 70, .register 71, .unregister 70] (start ())).map
    (fun s => (s.log 7, s.log 8)) =
    some ([(6, .registered 70), (2, .registered 70), (6, .registered 71), (2, .registered 71), (6, .unregistered (some 71)), (2, .unregistered (some 71))],
      [(2, .registered 80), (2, .registered 80), (2, .registered 80), (2, .registered 80)]) := by decide

/-- Users of which `C180_ranked_partial` speaks: callbacks for uuid 7 use uuid 8, and listeners of `registration_event` use uuid 9. -/
example : Ranked (⟨(· / 10), fun c _ => match c with
    | .told 6 7 (.registered _) => ⟨(), [.subscribe 8 2, .register 80], false, false⟩
    | .event _ 8 _ _ => ⟨(), [.unregister 90], true, true⟩
    | _ => ⟨(), [], false, false⟩, [0]⟩ : Users ℕ ℕ ℕ Unit) := by
  refine ⟨id, fun c s => ?_⟩
  dsimp only
  split <;> simp [Act.about, Call.about]

/-- C180: a subscriber that is subscribed while the registration is told is told of it twice. -/
theorem C180_counterexample_twice : (run (exec exUsers 9) [.subscribe 7 1, .register 70] (start ())).map (fun s => s.log 7) =
    some [(1, .registered 70), (2, .registered 70), (2, .registered 70)] := by decide

/-- C180: a subscriber that is subscribed while the unregistration is told is told of the object as if it were there, of the unregistration,
and not of the next registration. -/
theorem C180_counterexample_lost :
    (run (exec exUsers 9) [.subscribe 7 3, .register 70, .unregister 70, .register 71] (start ())).map (fun s => (s.log 7, s.list 7)) =
    some ([(3, .registered 70), (3, .unregistered (some 70)), (2, .registered 70), (2, .unregistered (some 70))], []) := by decide

/-- C180: when a subscriber raises, those after it are not told. -/
theorem C180_counterexample_raises : (run (exec exUsers 9) [.subscribe 7 5, .subscribe 7 2, .register 70] (start ())).map
    (fun s => (s.log 7, s.objs 7)) = some ([(5, .registered 70)], some 70) := by decide

/-- C180: when a subscriber unregisters an object that is not registered, this raises, and those after the subscriber are not told. -/
theorem C180_counterexample_unregister : (run (exec exUsers 9) [.subscribe 7 8, .subscribe 7 2, .register 70] (start ())).map
    (fun s => (s.log 7, s.objs 7)) = some ([(8, .registered 70)], some 70) := by decide

theorem hang_loop (m n k : ℕ) (s : St ℕ ℕ ℕ Unit) (L : ℕ) (hs : s.subs 7 = some L) (ho : s.objs 7 = some 70)
    (hl : ∀ w ∈ s.heap L, w = 4) (hk : k < (s.heap L).length) :
    loop exUsers (exec exUsers m) 7 L (.unregistered (some 70)) n k s = none := by
  induction n generalizing k s with
  | zero => rfl
  | succ n ih =>
    have h4 : (s.heap L)[k]? = some 4 := by
      rw [List.getElem?_eq_getElem hk, hl _ (List.getElem_mem hk)]
    simp only [loop, h4]
    cases m with
    | zero => rfl
    | succ m =>
      simp only [tell, call, exUsers, exReact, acts, exec, body, subscribe, note, ho, append, hs, Option.map_some, Option.bind_some,
        Bool.false_eq_true, if_false, Bool.or_false, Bool.false_and]
      refine ih (k + 1) _ hs ho (fun w hw => ?_) ?_
      · simp only [Function.update_self, List.mem_append, List.mem_singleton] at hw
        exact hw.elim (hl w) id
      · simpa using hk

/-- C180: a subscriber that subscribes again when it is told of an unregistration is told for ever. -/
theorem C180_counterexample_forever : ∃ s, run (exec exUsers 9) [.subscribe 7 4, .register 70] (start ()) = some s ∧
    ∀ n, exec exUsers n (.unregister 70) s = none := by
  refine ⟨_, rfl, fun n => ?_⟩
  cases n with
  | zero => rfl
  | succ n =>
    refine Option.bind_eq_none_iff.2 fun q hq => ?_
    have := (hang_loop n n 0 _ 0 (by rfl) (by rfl) (by decide) (by decide)).symm.trans hq
    cases this

end Verif.Persist.Subscribers
