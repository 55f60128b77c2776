import Mathlib.Data.List.Basic
import Mathlib.Data.List.Count
import Mathlib.Data.List.Nodup
import Mathlib.Logic.Function.Basic
import Mathlib.Tactic.SplitIfs
import Mathlib.Tactic.Common

set_option linter.unusedSectionVars false
set_option linter.unusedSimpArgs false
set_option linter.unusedVariables false

/-!
C190: streams whose listeners give up streams while they are told. Model of `ValueStream`, `ConstantStream`, `MapStream` and
`CombineLatestStream` (`nion/utils/Stream.py:42-139` and 240-255) with their `close`, `ReferenceCounted` (`nion/utils/ReferenceCounting.py`) and
`Event.fire` (`nion/utils/Event.py:103-114`). Listeners of any of the streams, in any place among the streams that listen, may assign value
streams, take references to streams and give up references that are theirs, also the last one of a stream that is just telling or closing, in any
way that depends on the whole state, and raise, which ends the innermost fire. A stream that closes tells its value once more before it leaves its
inputs (lines 84 and 121), so that its listeners act in the middle of `close`.

The network is made before; nobody gives up references of others. Functions do not raise (C153, C173) and do not touch the streams. `none` is a
recursion that does not end within the fuel.
-/

namespace Verif.Stream.Giving

/-- What a stream is made from. -/
inductive Kind (V : Type) where
  /-- Stream.py:42-59 -/
  | value
  /-- Stream.py:242-255 -/
  | const
  /-- Stream.py:62-95 -/
  | map (src : ℕ) (f : V → V)
  /-- Stream.py:98-139 -/
  | combine (srcs : List ℕ) (f : List V → V)

def Kind.inputs {V : Type} : Kind V → List ℕ
  | .map src _ => [src]
  | .combine srcs _ => srcs
  | _ => []

/-- A listener: the place of an input in a stream, or somebody else. -/
inductive Lis (ι : Type) where
  | stream (m k : ℕ)
  | user (i : ι)
deriving DecidableEq

/-- The values (`nul` is `None`); `__values` of `CombineLatestStream`; the counts and `__active` of `ReferenceCounted`; whether the listener at a
place of an input is open; the memory of the listeners. The other fields are not in the code: the references that others than streams hold;
whether there was a time when they held none; how often `close` was begun; whether it has ended; whether giving up a reference failed; the values
that derived streams started to tell after they were closed. -/
structure St (V M : Type) where
  val : ℕ → V
  vals : ℕ → List V
  count : ℕ → ℕ
  active : ℕ → Bool
  opened : ℕ × ℕ → Bool
  mem : M
  ext : ℕ → ℕ
  free : ℕ → Bool
  closings : ℕ → ℕ
  closed : ℕ → Bool
  failed : Bool
  late : List (ℕ × V)

inductive Act (V : Type) where
  /-- `stream.value = v` -/
  | assign (n : ℕ) (v : V)
  /-- `stream.add_ref()` -/
  | take (n : ℕ)
  /-- `stream.remove_ref()`, by somebody who has one -/
  | give (n : ℕ)

/-- What a listener does when it is told: memory, actions in order, whether it raises then. -/
structure Reaction (V M : Type) where
  mem : M
  acts : List (Act V)
  raises : Bool

variable {ι V M : Type} [DecidableEq V]

/-- The streams, the listeners of each in order, what the others do (listener, stream, value), and `None`. -/
structure Net (ι V M : Type) where
  kind : ℕ → Kind V
  lis : ℕ → List (Lis ι)
  react : ι → ℕ → V → St V M → Reaction V M
  nul : V

/-- The places among listeners. -/
def slots (l : List (Lis ι)) : List (ℕ × ℕ) := l.filterMap fun | .stream m k => some (m, k) | .user _ => none

/-- The streams listen to their inputs, once for each. -/
structure Net.Wf (net : Net ι V M) : Prop where
  lis : ∀ n m k, (m, k) ∈ slots (net.lis n) ↔ (net.kind m).inputs[k]? = some n
  once : ∀ n, (slots (net.lis n)).Nodup

/-- Recursive calls: `value_stream.fire(w)` of a stream, `remove_ref` of a stream. -/
inductive Cmd (V : Type) where
  | fire (n : ℕ) (w : V)
  | unref (n : ℕ)

abbrev Exec (V M : Type) := Cmd V → St V M → Option (St V M)

/-- A derived stream. -/
def Kind.derived {V : Type} : Kind V → Bool
  | .map _ _ => true
  | .combine _ _ => true
  | _ => false

/-- A stream starts to tell. -/
def tells (net : Net ι V M) (n : ℕ) (w : V) (s : St V M) : St V M :=
  if (net.kind n).derived && s.closed n then { s with late := s.late ++ [(n, w)] } else s

def setVal (n : ℕ) (w : V) (s : St V M) : St V M := { s with val := Function.update s.val n w }

/-- Lines 75-79 and 129-135; a closed listener does nothing (Event.py:35-39). -/
def receive (net : Net ι V M) (ex : Exec V M) (m k : ℕ) (w : V) (s : St V M) : Option (St V M) :=
  if s.opened (m, k) then
    match net.kind m with
    | .map _ f => if f w ≠ s.val m then ex (.fire m (f w)) (setVal m (f w) s) else some s
    | .combine _ f =>
      ex (.fire m (f ((s.vals m).set k w))) (setVal m (f ((s.vals m).set k w)) { s with vals := Function.update s.vals m ((s.vals m).set k w) })
    | _ => some s
  else some s

/-- Somebody else has a reference less. -/
def lose (n : ℕ) (s : St V M) : St V M :=
  { s with
    ext := Function.update s.ext n (s.ext n - 1)
    free := Function.update s.free n (s.free n || s.ext n == 1) }

/-- Lines 55-59; `add_ref` (ReferenceCounting.py:34-37); `remove_ref` of somebody who has a reference. -/
def act (net : Net ι V M) (ex : Exec V M) (a : Act V) (s : St V M) : Option (St V M) :=
  match a with
  | .assign n v =>
    match net.kind n with
    | .value => if s.val n ≠ v then ex (.fire n v) (setVal n v s) else some s
    | _ => some s
  | .take n => some { s with count := Function.update s.count n (s.count n + 1), ext := Function.update s.ext n (s.ext n + 1) }
  | .give n => if s.ext n = 0 then some s else ex (.unref n) (lose n s)

def acts (net : Net ι V M) (ex : Exec V M) : List (Act V) → St V M → Option (St V M)
  | [], s => some s
  | a :: as, s => (act net ex a s).bind (acts net ex as)

/-- `Event.fire` of stream `n`. -/
def fireL (net : Net ι V M) (ex : Exec V M) (n : ℕ) (w : V) : List (Lis ι) → St V M → Option (St V M)
  | [], s => some s
  | .stream m k :: xs, s => (receive net ex m k w s).bind (fireL net ex n w xs)
  | .user i :: xs, s =>
    (acts net ex (net.react i n w s).acts { s with mem := (net.react i n w s).mem }).bind fun t =>
      if (net.react i n w s).raises then some t else fireL net ex n w xs t

/-- The end of `close`. -/
def ended (net : Net ι V M) (n : ℕ) (s : St V M) : St V M :=
  { s with
    val := Function.update s.val n net.nul
    closed := Function.update s.closed n true }

/-- The listener of a place is closed. -/
def leave (m k : ℕ) (s : St V M) : St V M := { s with opened := Function.update s.opened (m, k) false }

/-- Lines 122-125, from place `k` on. -/
def closeL (net : Net ι V M) (ex : Exec V M) (m : ℕ) : ℕ → List ℕ → St V M → Option (St V M)
  | _, [], s => some s
  | k, src :: srcs, s =>
    (ex (.unref src) { leave m k s with vals := Function.update s.vals m ((s.vals m).set k net.nul) }).bind (closeL net ex m (k + 1) srcs)

/-- Lines 33-34 (nothing is done for a value stream), 84-90, 120-129, 249-251. -/
def close (net : Net ι V M) (ex : Exec V M) (n : ℕ) (s : St V M) : Option (St V M) :=
  match net.kind n with
  | .value => some { s with closed := Function.update s.closed n true }
  | .const => some (ended net n s)
  | .map src _ => (ex (.fire n (s.val n)) s).bind fun t => (ex (.unref src) (leave n 0 t)).map (ended net n)
  | .combine srcs _ =>
    (ex (.fire n (s.val n)) s).bind fun t => (closeL net ex n 0 srcs t).map fun u => ended net n { u with vals := Function.update u.vals n [] }

/-- ReferenceCounting.py:40-46. -/
def unref (net : Net ι V M) (ex : Exec V M) (n : ℕ) (s : St V M) : Option (St V M) :=
  if s.count n = 0 then some { s with failed := true }
  else if s.active n && s.count n == 1 then
    close net ex n
      { s with
        count := Function.update s.count n 0
        active := Function.update s.active n false
        closings := Function.update s.closings n (s.closings n + 1) }
  else some { s with count := Function.update s.count n (s.count n - 1) }

def body (net : Net ι V M) (ex : Exec V M) : Exec V M
  | .fire n w, s => fireL net ex n w (net.lis n) (tells net n w s)
  | .unref n, s => unref net ex n s

def exec (net : Net ι V M) : ℕ → Exec V M
  | 0 => fun _ _ => none
  | n + 1 => body net (exec net n)

/-! ### Specification -/

/-- The number of places of streams that are not closed where a stream is used. -/
def uses (net : Net ι V M) (s : St V M) (n : ℕ) : ℕ := (slots (net.lis n)).countP fun p => !s.closed p.1

/-- A network as it is made, with any references of others. -/
def start (net : Net ι V M) (val : ℕ → V) (ext : ℕ → ℕ) (m : M) : St V M :=
  { val := val
    vals := fun n => (net.kind n).inputs.map val
    count := fun n => ext n + (slots (net.lis n)).length
    active := fun _ => true
    opened := fun _ => true
    mem := m
    ext := ext
    free := fun n => ext n == 0
    closings := fun _ => 0
    closed := fun _ => false
    failed := false
    late := [] }

/-! ### Proof -/

variable {net : Net ι V M} {ex : Exec V M} {s t : St V M}

/-- The references that streams hold. -/
def held (net : Net ι V M) (s : St V M) (n : ℕ) : ℕ := (slots (net.lis n)).countP s.opened

/-- `extra` references are about to be given up. -/
structure Inv (net : Net ι V M) (extra : ℕ → ℕ) (s : St V M) : Prop where
  count : ∀ n, s.count n = s.ext n + held net s n + extra n
  active : ∀ m, s.active m = true → s.closed m = false ∧ ∀ k, s.opened (m, k) = true
  closed : ∀ m, s.closed m = true → ∀ k n, (net.kind m).inputs[k]? = some n → s.opened (m, k) = false
  val : ∀ m, s.closed m = true → net.kind m ≠ .value → s.val m = net.nul
  failed : s.failed = false
  late : s.late = []
  once : ∀ m, s.closings m = if s.active m then 0 else 1
  unused : ∀ m, s.active m = false → held net s m = 0 ∧ s.free m = true
  free : ∀ m, s.ext m = 0 → s.free m = true

structure Eff (net : Net ι V M) (s t : St V M) : Prop where
  inv : Inv net (fun _ => 0) t
  /-- Who closes a stream that is closing is around. -/
  busy : ∀ m, s.active m = false → t.active m = false ∧ t.closed m = s.closed m ∧ ∀ k, t.opened (m, k) = s.opened (m, k)
  /-- Who begins to close ends it. -/
  done : ∀ m, s.active m = true → t.active m = false → t.closed m = true
  /-- Streams that had references and have none are closed. -/
  live : ∀ m, 0 < s.count m → t.active m = true → 0 < t.count m

def one (n : ℕ) : ℕ → ℕ := fun m => if m = n then 1 else 0

structure Ok (net : Net ι V M) (ex : Exec V M) : Prop where
  fire : ∀ n w s t, Inv net (fun _ => 0) s → ((net.kind n).derived = true → s.closed n = false) → ex (.fire n w) s = some t → Eff net s t
  unref : ∀ n s t, Inv net (one n) s → ex (.unref n) s = some t → Eff net s t

theorem Eff.refl (h : Inv net (fun _ => 0) s) : Eff net s s := ⟨h, fun _ h => ⟨h, rfl, fun _ => rfl⟩, fun _ h1 h2 => by simp [h1] at h2, fun _ h _ => h⟩

theorem Eff.trans {r : St V M} (h1 : Eff net s t) (h2 : Eff net t r) : Eff net s r := by
  refine ⟨h2.inv, fun m hm => ?_, fun m hs hr => ?_, fun m hm hr => ?_⟩
  · obtain ⟨a1, a2, a3⟩ := h1.busy m hm
    obtain ⟨b1, b2, b3⟩ := h2.busy m a1
    exact ⟨b1, b2.trans a2, fun k => (b3 k).trans (a3 k)⟩
  · cases ht : t.active m with
    | true => exact h2.done m ht hr
    | false =>
      rw [(h2.busy m ht).2.1]
      exact h1.done m hs ht
  · have ht : t.active m = true := by
      cases ht : t.active m with
      | true => rfl
      | false => exact absurd ((h2.busy m ht).1) (by simp [hr])
    exact h2.live m (h1.live m hm ht) hr

/-- Only values change. -/
theorem Inv.setVal {extra : ℕ → ℕ} {n : ℕ} {w : V} (h : Inv net extra s) (hn : net.kind n ≠ .value → s.closed n = false) :
    Inv net extra (setVal n w s) := by
  refine ⟨h.count, h.active, h.closed, fun m hm hk => ?_, h.failed, h.late, h.once, h.unused, h.free⟩
  change Function.update s.val n w m = _
  rw [Function.update_of_ne]
  · exact h.val m hm hk
  · intro e
    subst e
    have h1 : s.closed m = true := hm
    simp [hn hk] at h1

theorem Inv.vals {extra : ℕ → ℕ} {v : ℕ → List V} (h : Inv net extra s) : Inv net extra { s with vals := v } :=
  ⟨h.count, h.active, h.closed, h.val, h.failed, h.late, h.once, h.unused, h.free⟩

theorem Eff.of_eq {s' : St V M} (h : Eff net s' t) (h1 : s'.active = s.active) (h2 : s'.closed = s.closed) (h3 : s'.opened = s.opened)
    (h4 : ∀ m, 0 < s.count m → 0 < s'.count m) : Eff net s t :=
  ⟨h.inv, fun m hm => by rw [← h2, ← h3]; exact h.busy m (h1 ▸ hm), fun m hm => h.done m (h1 ▸ hm), fun m hm => h.live m (h4 m hm)⟩

theorem receive_eff (h : Ok net ex) {m k : ℕ} {w : V} (hk : ∃ n, (net.kind m).inputs[k]? = some n) (hs : Inv net (fun _ => 0) s)
    (he : receive net ex m k w s = some t) : Eff net s t := by
  unfold receive at he
  split at he
  · rename_i ho
    have hc : s.closed m = false := by
      by_contra hc
      obtain ⟨n, hn⟩ := hk
      have := hs.closed m (by simpa using hc) k n hn
      simp [ho] at this
    cases hkind : net.kind m with
    | value => simp only [hkind] at he; obtain rfl := Option.some.inj he; exact .refl hs
    | const => simp only [hkind] at he; obtain rfl := Option.some.inj he; exact .refl hs
    | map src f =>
      simp only [hkind] at he
      split at he
      · exact (h.fire _ _ _ _ (hs.setVal fun _ => hc) (fun _ => hc) he).of_eq rfl rfl rfl fun _ h => h
      · obtain rfl := Option.some.inj he
        exact .refl hs
    | combine srcs f =>
      simp only [hkind] at he
      have hv : Inv net (fun _ => 0) { s with vals := Function.update s.vals m ((s.vals m).set k w) } := hs.vals
      exact (h.fire _ _ _ _ (hv.setVal fun _ => hc) (fun _ => hc) he).of_eq rfl rfl rfl fun _ h => h
  · obtain rfl := Option.some.inj he
    exact .refl hs

theorem act_eff (h : Ok net ex) {a : Act V} (hs : Inv net (fun _ => 0) s) (he : act net ex a s = some t) : Eff net s t := by
  cases a with
  | assign n v =>
    simp only [act] at he
    cases hkind : net.kind n with
    | value =>
      simp only [hkind] at he
      split at he
      · exact (h.fire _ _ _ _ (hs.setVal fun hx => absurd hkind hx) (fun hd => by simp [hkind, Kind.derived] at hd) he).of_eq rfl rfl rfl fun _ h => h
      · obtain rfl := Option.some.inj he
        exact .refl hs
    | const => simp only [hkind] at he; obtain rfl := Option.some.inj he; exact .refl hs
    | map src f => simp only [hkind] at he; obtain rfl := Option.some.inj he; exact .refl hs
    | combine srcs f => simp only [hkind] at he; obtain rfl := Option.some.inj he; exact .refl hs
  | take n =>
    simp only [act, Option.some.injEq] at he
    subst he
    refine ⟨⟨fun m => ?_, hs.active, hs.closed, hs.val, hs.failed, hs.late, hs.once, hs.unused, fun m hm => ?_⟩, fun _ h => ⟨h, rfl, fun _ => rfl⟩,
      fun _ h1 h2 => ?_, fun m hm _ => ?_⟩
    · have := hs.count m
      change Function.update s.count n _ m = Function.update s.ext n _ m + held net s m + 0
      by_cases e : m = n
      · subst e
        simp only [Function.update_self]
        omega
      · simp only [Function.update_of_ne e]
        omega
    · have h1 : Function.update s.ext n _ m = 0 := hm
      by_cases e : m = n
      · subst e
        simp at h1
      · rw [Function.update_of_ne e] at h1
        exact hs.free m h1
    · have h3 : s.active _ = false := h2
      simp [h1] at h3
    · change 0 < Function.update s.count n _ m
      by_cases e : m = n
      · subst e
        simp only [Function.update_self]
        omega
      · simpa only [Function.update_of_ne e]
  | give n =>
    simp only [act] at he
    split at he
    · obtain rfl := Option.some.inj he
      exact .refl hs
    · rename_i hx
      have hv : Inv net (one n) (lose n s) := by
        refine ⟨fun m => ?_, hs.active, hs.closed, hs.val, hs.failed, hs.late, hs.once, fun m hm => ⟨(hs.unused m hm).1, ?_⟩, fun m hm => ?_⟩
        · have := hs.count m
          change s.count m = Function.update s.ext n _ m + held net s m + one n m
          by_cases e : m = n
          · subst e
            simp only [Function.update_self, one, if_true]
            omega
          · simp only [Function.update_of_ne e, one, e, if_false]
            omega
        · change Function.update s.free n _ m = true
          by_cases e : m = n
          · subst e
            rw [Function.update_self, (hs.unused m hm).2, Bool.true_or]
          · rw [Function.update_of_ne e]
            exact (hs.unused m hm).2
        · have h1 : Function.update s.ext n _ m = 0 := hm
          change Function.update s.free n _ m = true
          by_cases e : m = n
          · subst e
            rw [Function.update_self] at h1 ⊢
            simp only [Bool.or_eq_true, beq_iff_eq]
            right
            omega
          · rw [Function.update_of_ne e] at h1 ⊢
            exact hs.free m h1
      exact (h.unref n _ t hv he).of_eq rfl rfl rfl fun _ h => h

theorem acts_eff (h : Ok net ex) : ∀ (as : List (Act V)) (s t : St V M), Inv net (fun _ => 0) s → acts net ex as s = some t → Eff net s t := by
  intro as
  induction as with
  | nil =>
    intro s t hs he
    obtain rfl := Option.some.inj he
    exact .refl hs
  | cons a as ih =>
    intro s t hs he
    obtain ⟨u, hu, he⟩ := Option.bind_eq_some_iff.1 he
    have e := act_eff h hs hu
    exact e.trans (ih u t e.inv he)

theorem fireL_eff (hw : net.Wf) (h : Ok net ex) (n : ℕ) (w : V) : ∀ (l : List (Lis ι)) (s t : St V M), l <:+ net.lis n →
    Inv net (fun _ => 0) s → fireL net ex n w l s = some t → Eff net s t := by
  intro l
  induction l with
  | nil =>
    intro s t _ hs he
    obtain rfl := Option.some.inj he
    exact .refl hs
  | cons x xs ih =>
    intro s t hl hs he
    have hl' : xs <:+ net.lis n := (List.suffix_cons x xs).trans hl
    cases x with
    | stream m k =>
      obtain ⟨u, hu, he⟩ := Option.bind_eq_some_iff.1 he
      have hm : (m, k) ∈ slots (net.lis n) := by
        simp only [slots, List.mem_filterMap]
        exact ⟨_, hl.subset (List.mem_cons_self), rfl⟩
      have e := receive_eff h ⟨n, (hw.lis n m k).1 hm⟩ hs hu
      exact e.trans (ih u t hl' e.inv he)
    | user i =>
      obtain ⟨u, hu, he⟩ := Option.bind_eq_some_iff.1 he
      have hv : Inv net (fun _ => 0) { s with mem := (net.react i n w s).mem } :=
        ⟨hs.count, hs.active, hs.closed, hs.val, hs.failed, hs.late, hs.once, hs.unused, hs.free⟩
      have e : Eff net s u := (acts_eff h _ _ u hv hu).of_eq rfl rfl rfl fun _ h => h
      split at he
      · obtain rfl := Option.some.inj he
        exact e
      · exact e.trans (ih u t hl' e.inv he)

theorem countP_update {l : List (ℕ × ℕ)} {p : ℕ × ℕ} {o : ℕ × ℕ → Bool} (hn : l.Nodup) (ho : o p = true) :
    l.countP o = l.countP (Function.update o p false) + if p ∈ l then 1 else 0 := by
  induction l with
  | nil => simp
  | cons x xs ih =>
    rw [List.nodup_cons] at hn
    rw [List.countP_cons, List.countP_cons, ih hn.2]
    by_cases e : x = p
    · subst e
      simp [hn.1, ho]
    · rw [Function.update_of_ne e]
      have : (p ∈ x :: xs) ↔ p ∈ xs := by simp [Ne.symm e]
      simp only [this]
      omega

theorem held_leave (hw : net.Wf) {m k src : ℕ} (ho : s.opened (m, k) = true) (hk : (net.kind m).inputs[k]? = some src) (n : ℕ) :
    held net s n = held net (leave m k s) n + one src n := by
  unfold held leave one
  rw [countP_update (hw.once n) ho]
  congr 1
  by_cases e : n = src
  · subst e
    rw [if_pos ((hw.lis n m k).2 hk), if_pos rfl]
  · rw [if_neg e, if_neg fun hm => e (by
      have := (hw.lis n m k).1 hm
      rw [hk] at this
      exact (Option.some.inj this).symm)]

/-- A stream that is closing leaves an input. -/
theorem leave_inv (hw : net.Wf) {m k src : ℕ} (hs : Inv net (fun _ => 0) s) (ha : s.active m = false)
    (ho : s.opened (m, k) = true) (hk : (net.kind m).inputs[k]? = some src) : Inv net (one src) (leave m k s) := by
  refine ⟨fun n => ?_, fun m' hm' => ?_, fun m' hm' k' n hn => ?_, hs.val, hs.failed, hs.late, hs.once, fun m' hm' => ?_, hs.free⟩
  · have h1 := hs.count n
    rw [held_leave hw ho hk n, Nat.add_zero, ← Nat.add_assoc] at h1
    exact h1
  · have h0 : s.active m' = true := hm'
    have hne : m' ≠ m := fun e => by simp [e, ha] at h0
    refine ⟨(hs.active m' h0).1, fun k' => ?_⟩
    change Function.update s.opened (m, k) false (m', k') = true
    rw [Function.update_of_ne (fun e => hne (congrArg Prod.fst e))]
    exact (hs.active m' h0).2 k'
  · change Function.update s.opened (m, k) false (m', k') = false
    by_cases e : (m', k') = (m, k)
    · rw [e, Function.update_self]
    · rw [Function.update_of_ne e]
      exact hs.closed m' hm' k' n hn
  · have h1 := hs.unused m' hm'
    rw [held_leave hw ho hk m'] at h1
    exact ⟨by omega, h1.2⟩

/-- What happens to the others while a stream closes. -/
structure Mid (net : Net ι V M) (m : ℕ) (s t : St V M) : Prop where
  inv : Inv net (fun _ => 0) t
  self : t.active m = false ∧ t.closed m = s.closed m
  busy : ∀ m', m' ≠ m → s.active m' = false → t.active m' = false ∧ t.closed m' = s.closed m' ∧ ∀ k, t.opened (m', k) = s.opened (m', k)
  done : ∀ m', s.active m' = true → t.active m' = false → t.closed m' = true
  live : ∀ m', 0 < s.count m' → t.active m' = true → 0 < t.count m'

theorem unref_mid (hw : net.Wf) (h : Ok net ex) {m k src : ℕ} {v : ℕ → List V} (hs : Inv net (fun _ => 0) s) (ha : s.active m = false)
    (ho : s.opened (m, k) = true) (hk : (net.kind m).inputs[k]? = some src)
    (he : ex (.unref src) { leave m k s with vals := v } = some t) :
    Mid net m s t ∧ t.opened (m, k) = false ∧ ∀ k', k' ≠ k → t.opened (m, k') = s.opened (m, k') := by
  have e := h.unref src _ t (leave_inv hw hs ha ho hk).vals he
  obtain ⟨b1, b2, b3⟩ := e.busy m ha
  refine ⟨⟨e.inv, ⟨b1, b2⟩, fun m' hm' ha' => ?_, e.done, e.live⟩, ?_, fun k' hk' => ?_⟩
  · obtain ⟨c1, c2, c3⟩ := e.busy m' ha'
    refine ⟨c1, c2, fun k' => (c3 k').trans ?_⟩
    exact Function.update_of_ne (fun e => hm' (congrArg Prod.fst e)) _ _
  · rw [b3]
    exact Function.update_self ..
  · rw [b3]
    exact Function.update_of_ne (fun e => hk' (congrArg Prod.snd e)) _ _

theorem Mid.trans {m : ℕ} {r : St V M} (h1 : Mid net m s t) (h2 : Mid net m t r) : Mid net m s r := by
  refine ⟨h2.inv, ⟨h2.self.1, h2.self.2.trans h1.self.2⟩, fun m' hn hm => ?_, fun m' hs hr => ?_, fun m' hm hr => ?_⟩
  · obtain ⟨a1, a2, a3⟩ := h1.busy m' hn hm
    obtain ⟨b1, b2, b3⟩ := h2.busy m' hn a1
    exact ⟨b1, b2.trans a2, fun k => (b3 k).trans (a3 k)⟩
  · cases ht : t.active m' with
    | true => exact h2.done m' ht hr
    | false =>
      have hne : m' ≠ m ∨ m' = m := by tauto
      rcases hne with hne | rfl
      · rw [(h2.busy m' hne ht).2.1]
        exact h1.done m' hs ht
      · rw [h2.self.2]
        exact h1.done m' hs ht
  · have ht : t.active m' = true := by
      cases ht : t.active m' with
      | true => rfl
      | false =>
        by_cases hne : m' = m
        · subst hne; simp [h2.self.1] at hr
        · exact absurd ((h2.busy m' hne ht).1) (by simp [hr])
    exact h2.live m' (h1.live m' hm ht) hr

theorem Eff.mid {m : ℕ} (h : Eff net s t) (ha : s.active m = false) : Mid net m s t :=
  ⟨h.inv, ⟨(h.busy m ha).1, (h.busy m ha).2.1⟩, fun m' _ => h.busy m', h.done, h.live⟩

theorem closeL_mid (hw : net.Wf) (h : Ok net ex) (m : ℕ) (srcs : List ℕ) : ∀ (k : ℕ) (s t : St V M), Inv net (fun _ => 0) s →
    s.active m = false → (∀ j, srcs[j]? = (net.kind m).inputs[k + j]?) → (∀ j, k ≤ j → s.opened (m, j) = true) →
    closeL net ex m k srcs s = some t → Mid net m s t ∧ (∀ j, j < k → t.opened (m, j) = s.opened (m, j)) ∧
      ∀ j, j < srcs.length → t.opened (m, k + j) = false := by
  induction srcs with
  | nil =>
    intro k s t hs ha _ _ he
    obtain rfl := Option.some.inj he
    exact ⟨(Eff.refl hs).mid ha, fun _ _ => rfl, fun j hj => by simp at hj⟩
  | cons src srcs ih =>
    intro k s t hs ha hi ho he
    obtain ⟨u, hu, he⟩ := Option.bind_eq_some_iff.1 he
    have hk : (net.kind m).inputs[k]? = some src := by
      have := hi 0
      simpa using this.symm
    obtain ⟨e1, e2, e3⟩ := unref_mid hw h hs ha (ho k (Nat.le_refl k)) hk hu
    obtain ⟨f1, f2, f3⟩ := ih (k + 1) u t e1.inv e1.self.1 (fun j => by
        have := hi (j + 1)
        rw [List.getElem?_cons_succ] at this
        rw [this]
        congr 1
        omega)
      (fun j hj => by rw [e3 j (by omega)]; exact ho j (by omega)) he
    refine ⟨e1.trans f1, fun j hj => ?_, fun j hj => ?_⟩
    · rw [f2 j (by omega), e3 j (by omega)]
    · cases j with
      | zero => rw [Nat.add_zero, f2 k (by omega)]; exact e2
      | succ j =>
        have := f3 j (by simpa using hj)
        rwa [show k + 1 + j = k + (j + 1) by omega] at this

/-- What `close` does, once its listeners are closed. -/
theorem ended_mid {m : ℕ} {v : ℕ → List V} (h : Mid net m s t) (hc : s.closed m = false)
    (ho : ∀ k n, (net.kind m).inputs[k]? = some n → t.opened (m, k) = false) :
    Inv net (fun _ => 0) (ended net m { t with vals := v }) ∧ (ended net m { t with vals := v }).closed m = true ∧
      (∀ m', m' ≠ m → s.active m' = false → t.active m' = false ∧
        (ended net m { t with vals := v }).closed m' = s.closed m' ∧ ∀ k, t.opened (m', k) = s.opened (m', k)) ∧
      ∀ m', s.active m' = true → t.active m' = false → (ended net m { t with vals := v }).closed m' = true := by
  have hcl : ∀ m', m' ≠ m → (ended net m { t with vals := v }).closed m' = t.closed m' := fun m' hm' => Function.update_of_ne hm' _ _
  have hself : (ended net m { t with vals := v }).closed m = true := Function.update_self ..
  refine ⟨⟨h.inv.count, fun m' hm' => ?_, fun m' hm' k n hn => ?_, fun m' hm' hk => ?_, h.inv.failed, h.inv.late, h.inv.once, h.inv.unused, h.inv.free⟩, hself,
    fun m' hm' ha => ?_, fun m' hs ht => ?_⟩
  · have hne : m' ≠ m := fun e => by
      have h0 : t.active m' = true := hm'
      simp [e, h.self.1] at h0
    rw [hcl m' hne]
    exact h.inv.active m' hm'
  · by_cases e : m' = m
    · subst e
      exact ho k n hn
    · rw [hcl m' e] at hm'
      exact h.inv.closed m' hm' k n hn
  · by_cases e : m' = m
    · subst e
      exact Function.update_self ..
    · rw [hcl m' e] at hm'
      exact (Function.update_of_ne e _ _).trans (h.inv.val m' hm' hk)
  · rw [hcl m' hm']
    exact h.busy m' hm' ha
  · by_cases e : m' = m
    · rw [e]; exact hself
    · rw [hcl m' e]
      exact h.done m' hs ht

/-- The reference that was the last is gone. -/
def last (n : ℕ) (s : St V M) : St V M :=
  { s with
    count := Function.update s.count n 0
    active := Function.update s.active n false
    closings := Function.update s.closings n (s.closings n + 1) }

theorem last_inv {n : ℕ} (hs : Inv net (one n) s) (ha : s.active n = true) (hc : s.count n = 1) : Inv net (fun _ => 0) (last n s) := by
  refine ⟨fun m => ?_, fun m hm => ?_, hs.closed, hs.val, hs.failed, hs.late, fun m => ?_, fun m hm => ?_, hs.free⟩
  · have h1 := hs.count m
    change Function.update s.count n 0 m = s.ext m + held net s m + 0
    by_cases e : m = n
    · subst e
      rw [Function.update_self]
      simp only [one, if_true] at h1
      omega
    · rw [Function.update_of_ne e]
      simp only [one, e, if_false] at h1
      omega
  · have h1 : Function.update s.active n false m = true := hm
    by_cases e : m = n
    · subst e
      simp at h1
    · rw [Function.update_of_ne e] at h1
      exact hs.active m h1
  · change Function.update s.closings n _ m = if Function.update s.active n false m = true then 0 else 1
    by_cases e : m = n
    · subst e
      have := hs.once m
      simp [ha] at this
      simp [this]
    · rw [Function.update_of_ne e, Function.update_of_ne e]
      exact hs.once m
  · have h1 : Function.update s.active n false m = false := hm
    by_cases e : m = n
    · subst e
      have h2 := hs.count m
      simp only [one, if_true] at h2
      exact ⟨show held net s m = 0 by omega, hs.free m (by omega)⟩
    · rw [Function.update_of_ne e] at h1
      exact hs.unused m h1

theorem unref_eff (hw : net.Wf) (h : Ok net ex) {n : ℕ} (hs : Inv net (one n) s) (he : unref net ex n s = some t) : Eff net s t := by
  unfold unref at he
  have hcn := hs.count n
  simp only [one, if_true] at hcn
  rw [if_neg (by omega)] at he
  split at he
  · rename_i hx
    simp only [Bool.and_eq_true, beq_iff_eq] at hx
    obtain ⟨ha, hc⟩ := hx
    have hi := last_inv hs ha hc
    have hcl := (hs.active n ha).1
    have hal : (last n s).active n = false := Function.update_self ..
    have hne : ∀ m, s.active m = false → m ≠ n := fun m hm e => by simp [e, ha] at hm
    have hact : ∀ m, m ≠ n → (last n s).active m = s.active m := fun m hm => Function.update_of_ne hm _ _
    have hfin : ∀ (u : St V M) (v : ℕ → List V), Mid net n (last n s) u → (∀ k x, (net.kind n).inputs[k]? = some x → u.opened (n, k) = false) →
        Eff net s (ended net n { u with vals := v }) := by
      intro u v hu ho
      obtain ⟨g1, g2, g3, g4⟩ := ended_mid (v := v) hu hcl ho
      refine ⟨g1, fun m hm => ?_, fun m hm ht => ?_, fun m hm ht => ?_⟩
      · exact g3 m (hne m hm) (by rw [hact m (hne m hm)]; exact hm)
      · by_cases e : m = n
        · rw [e]; exact g2
        · exact g4 m (by rw [hact m e]; exact hm) ht
      · have hmn : m ≠ n := fun e => by
          have : u.active m = true := ht
          simp [e, hu.self.1] at this
        exact hu.live m (by
          change 0 < Function.update s.count n 0 m
          rwa [Function.update_of_ne hmn]) ht
    change close net ex n (last n s) = some t at he
    unfold close at he
    cases hkind : net.kind n with
    | value =>
      simp only [hkind, Option.some.injEq] at he
      subst he
      have hno : ∀ k x, (net.kind n).inputs[k]? = some x → (last n s).opened (n, k) = false := by
        intro k x hx
        simp [hkind, Kind.inputs] at hx
      obtain ⟨g1, g2, g3, g4⟩ := ended_mid (v := s.vals) ((Eff.refl hi).mid hal) hcl hno
      refine ⟨⟨g1.count, g1.active, g1.closed, fun m hm hk => ?_, g1.failed, g1.late, g1.once, g1.unused, g1.free⟩, fun m hm => ?_, fun m hm ht => ?_, fun m hm ht => ?_⟩
      · have hmn : m ≠ n := fun e => hk (e ▸ hkind)
        have := g1.val m hm hk
        exact (Function.update_of_ne hmn _ _).symm.trans this
      · exact g3 m (hne m hm) (by rw [hact m (hne m hm)]; exact hm)
      · by_cases e : m = n
        · rw [e]; exact g2
        · exact g4 m (by rw [hact m e]; exact hm) ht
      · have hmn : m ≠ n := fun e => by
          have : (last n s).active m = true := ht
          simp [e, hal] at this
        change 0 < Function.update s.count n 0 m
        rwa [Function.update_of_ne hmn]
    | const =>
      simp only [hkind, Option.some.injEq] at he
      subst he
      exact hfin _ s.vals ((Eff.refl hi).mid hal) (by
        intro k x hx
        simp [hkind, Kind.inputs] at hx)
    | map src f =>
      simp only [hkind] at he
      obtain ⟨u, hu, he⟩ := Option.bind_eq_some_iff.1 he
      obtain ⟨r, hr, rfl⟩ := Option.map_eq_some_iff.1 he
      have e1 := h.fire _ _ _ _ hi (fun _ => hcl) hu
      have hko : u.opened (n, 0) = true := by
        rw [(e1.busy n hal).2.2]
        exact (hs.active n ha).2 0
      obtain ⟨e2, e3, -⟩ := unref_mid (v := u.vals) hw h e1.inv (e1.busy n hal).1 hko (by rw [hkind]; rfl) hr
      refine hfin r r.vals ((e1.mid hal).trans e2) fun k x hx => ?_
      cases k with
      | zero => exact e3
      | succ k => simp [hkind, Kind.inputs] at hx
    | combine srcs f =>
      simp only [hkind] at he
      obtain ⟨u, hu, he⟩ := Option.bind_eq_some_iff.1 he
      obtain ⟨r, hr, rfl⟩ := Option.map_eq_some_iff.1 he
      have e1 := h.fire _ _ _ _ hi (fun _ => hcl) hu
      obtain ⟨e2, -, e3⟩ := closeL_mid hw h n srcs 0 u r e1.inv (e1.busy n hal).1 (by simp [hkind, Kind.inputs])
        (fun j _ => by rw [(e1.busy n hal).2.2]; exact (hs.active n ha).2 j) hr
      refine hfin r _ ((e1.mid hal).trans e2) fun k x hx => ?_
      simp only [hkind, Kind.inputs] at hx
      have := e3 k (by
        by_contra hlt
        rw [List.getElem?_eq_none (by omega)] at hx
        simp at hx)
      simpa using this
  · rename_i hx
    obtain rfl := Option.some.inj he
    have hx' : s.active n = true → s.count n ≠ 1 := fun h1 h2 => hx (by simp [h1, h2])
    refine ⟨⟨fun m => ?_, hs.active, hs.closed, hs.val, hs.failed, hs.late, hs.once, hs.unused, hs.free⟩, fun _ h => ⟨h, rfl, fun _ => rfl⟩, fun m h1 h2 => ?_,
      fun m hm hm' => ?_⟩
    · have h1 := hs.count m
      change Function.update s.count n _ m = s.ext m + held net s m + 0
      by_cases e : m = n
      · subst e
        rw [Function.update_self]
        omega
      · rw [Function.update_of_ne e]
        simp only [one, e, if_false] at h1
        omega
    · have h3 : s.active m = false := h2
      simp [h1] at h3
    · change 0 < Function.update s.count n _ m
      by_cases e : m = n
      · subst e
        rw [Function.update_self]
        have := hx' hm'
        omega
      · rwa [Function.update_of_ne e]

theorem body_ok (hw : net.Wf) (h : Ok net ex) : Ok net (body net ex) := by
  refine ⟨fun n w s t hs hd he => ?_, fun n s t hs he => unref_eff hw h hs he⟩
  have : tells net n w s = s := by
    unfold tells
    rw [if_neg]
    intro hx
    simp only [Bool.and_eq_true] at hx
    simp [hd hx.1] at hx
  simp only [body, this] at he
  exact fireL_eff hw h n w _ s t List.suffix_rfl hs he

theorem exec_ok (hw : net.Wf) : ∀ n, Ok net (exec net n)
  | 0 => ⟨fun _ _ _ _ _ _ he => by simp [exec] at he, fun _ _ _ _ he => by simp [exec] at he⟩
  | n + 1 => body_ok hw (exec_ok hw n)

theorem start_inv (val : ℕ → V) (ext : ℕ → ℕ) (m : M) : Inv net (fun _ => 0) (start net val ext m) := by
  refine ⟨fun n => ?_, fun _ _ => ⟨rfl, fun _ => rfl⟩, fun _ h => by simp [start] at h, fun _ h => by simp [start] at h, rfl, rfl, fun _ => rfl,
    fun _ h => by simp [start] at h, fun _ h => by simpa [start] using h⟩
  simp [start, held]

/-! ### Theorems -/

/-- C190: whatever the listeners do, assign, take and give up references, also the last one of a stream that is telling or closing, afterwards each
stream has as many references as others hold and streams that are not closed use it; nothing fails; no stream is closed twice. A stream is closed
only if others gave up all their references and no stream that is not closed uses it; a stream that had references and has none is closed. -/
theorem C190_references (net : Net ι V M) (hw : net.Wf) (val : ℕ → V) (ext : ℕ → ℕ) (m : M) (n : ℕ) (as : List (Act V)) (s : St V M)
    (h : acts net (exec net n) as (start net val ext m) = some s) :
    s.failed = false ∧ ∀ x, s.count x = s.ext x + uses net s x ∧
      s.closings x = (if s.closed x then 1 else 0) ∧
      (s.closed x = true → s.free x = true ∧ uses net s x = 0) ∧
      (0 < ext x + uses net (start net val ext m) x → s.count x = 0 → s.closed x = true) := by
  have e := acts_eff (exec_ok hw n) as _ s (start_inv val ext m) h
  have hac : ∀ x, s.closed x = !s.active x := fun x => by
    cases hx : s.active x with
    | true => simpa using (e.inv.active x hx).1
    | false => simpa using e.done x rfl hx
  have hu : ∀ x, held net s x = uses net s x := fun x => by
    unfold held uses
    apply List.countP_congr
    rintro ⟨y, k⟩ hy
    have hk := (hw.lis x y k).1 hy
    cases hc : s.closed y with
    | true => simp [e.inv.closed y hc k x hk]
    | false =>
      have : s.active y = true := by
        have := hac y
        rw [hc] at this
        simpa using this.symm
      simp [(e.inv.active y this).2 k]
  refine ⟨e.inv.failed, fun x => ⟨?_, ?_, fun hc => ?_, fun h0 h1 => ?_⟩⟩
  · rw [← hu]
    exact e.inv.count x
  · rw [e.inv.once, hac]
    cases s.active x <;> rfl
  · rw [← hu]
    have := e.inv.unused x (by
      rw [hac] at hc
      simpa using hc)
    exact ⟨this.2, this.1⟩
  · rw [hac]
    cases hx : s.active x with
    | false => rfl
    | true =>
      have h2 := e.live x (by simpa [start, uses] using h0) hx
      omega

/-- C190: a derived stream that is closed does not start to tell; it has no value any more. -/
theorem C190_closed (net : Net ι V M) (hw : net.Wf) (val : ℕ → V) (ext : ℕ → ℕ) (m : M) (n : ℕ) (as : List (Act V)) (s : St V M)
    (h : acts net (exec net n) as (start net val ext m) = some s) :
    s.late = [] ∧ ∀ x, s.closed x = true → net.kind x ≠ .value → s.val x = net.nul := by
  have e := acts_eff (exec_ok hw n) as _ s (start_inv val ext m) h
  exact ⟨e.inv.late, e.inv.val⟩

/-! ### Cases -/

/-- 0 is a value stream, 1 is twice 0, 2 the sum of 1 and 0. -/
def exKind : ℕ → Kind ℕ
  | 0 => .value
  | 1 => .map 0 (2 * ·)
  | 2 => .combine [1, 0] List.sum
  | _ => .const

/-- Listeners `a` and `b` of each stream come after the streams. They remember what they are told, with the value that the stream has then;
`a` of a stream does what is given. `None` is 1000. -/
def exNet (f : ℕ → List (Act ℕ)) : Net Bool ℕ (List (Bool × ℕ × ℕ × ℕ)) where
  kind := exKind
  lis := fun
    | 0 => [.stream 1 0, .stream 2 1, .user true, .user false]
    | 1 => [.stream 2 0, .user true, .user false]
    | 2 => [.user true, .user false]
    | _ => []
  react := fun i n w s => ⟨s.mem ++ [(i, n, w, s.val n)], if i then f n else [], false⟩
  nul := 1000

theorem exNet_wf (f : ℕ → List (Act ℕ)) : (exNet f).Wf := by
  constructor
  · rintro n m k
    match n with
    | 0 | 1 | 2 | n + 3 =>
      match m, k with
      | 0, k | 1, 0 | 1, k + 1 | 2, 0 | 2, 1 | 2, k + 2 | m + 3, k => simp [exNet, exKind, slots, Kind.inputs]
  · intro n
    match n with
    | 0 | 1 | 2 | n + 3 => simp [exNet, slots]

def exRun (f : ℕ → List (Act ℕ)) (ext : ℕ → ℕ) (as : List (Act ℕ)) : Option (List (ℕ × Bool) × List (Bool × ℕ × ℕ × ℕ)) :=
  (acts (exNet f) (exec (exNet f) 12) as (start (exNet f) (fun | 0 => 1 | 1 => 2 | _ => 3) ext [])).map fun s =>
    ((List.range 3).map fun n => (s.count n, s.closed n), s.mem)

/-- The listener of 2 gives it up when it is told: 2 tells once more, then leaves 1, which tells, leaves 0 and is closed, too. -/
example : exRun (fun | 2 => [.give 2] | _ => []) (fun | 0 => 1 | 2 => 1 | _ => 0) [.assign 0 5] =
    some ([(1, false), (0, true), (0, true)],
      [(true, 2, 11, 11), (true, 2, 11, 11), (false, 2, 11, 11), (true, 1, 10, 10), (false, 1, 10, 10), (false, 2, 11, 1000),
        (true, 1, 10, 1000), (false, 1, 10, 1000), (true, 0, 5, 5), (false, 0, 5, 5)]) := by
  decide +kernel

/-- The listener of 2 takes a reference of 2 while it closes: giving this one up does not close it again. -/
example : exRun (fun | 2 => [.take 2] | _ => []) (fun | 0 => 1 | 1 => 1 | 2 => 1 | _ => 0) [.give 2, .give 2] =
    some ([(2, false), (1, false), (0, true)], [(true, 2, 3, 3), (false, 2, 3, 3)]) := by
  decide +kernel

/-- C190: if a listener gives up the stream that is telling, the listeners after it are told the value when the stream is closed and has no value
any more. -/
theorem C190_counterexample : exRun (fun | 2 => [.give 2] | _ => []) (fun | 0 => 1 | 1 => 1 | 2 => 1 | _ => 0) [.assign 0 5] =
    some ([(2, false), (1, false), (0, true)],
      [(true, 2, 11, 11), (true, 2, 11, 11), (false, 2, 11, 11), (false, 2, 11, 1000),
        (true, 1, 10, 10), (false, 1, 10, 10), (true, 0, 5, 5), (false, 0, 5, 5)]) := by
  decide +kernel

/-- C190: while 2 closes, the listener of 1, which 2 gave up, assigns 0: 2 tells its listeners the sum of `None` and 7. -/
theorem C190_counterexample_none : exRun (fun | 1 => [.assign 0 7] | _ => []) (fun | 0 => 1 | 2 => 1 | _ => 0) [.give 2] =
    some ([(1, false), (0, true), (0, true)],
      [(true, 2, 3, 3), (false, 2, 3, 3), (true, 1, 2, 2), (true, 1, 14, 14), (false, 1, 14, 14), (true, 2, 1007, 1007), (false, 2, 1007, 1007),
        (true, 0, 7, 7), (false, 0, 7, 7), (false, 1, 2, 14)]) := by
  decide +kernel

end Verif.Stream.Giving
