import Mathlib.Data.List.Basic
import Mathlib.Logic.Function.Basic
import Mathlib.Tactic.SplitIfs
import Mathlib.Tactic.Common

set_option linter.unusedSectionVars false
set_option linter.unusedSimpArgs false

/-!
C184: networks of streams whose listeners assign value streams while they are told. Model of `ValueStream`, `ConstantStream`, `MapStream` and
`CombineLatestStream` (`nion/utils/Stream.py:42-139` and 240-255) with `Event.fire` (`nion/utils/Event.py:103-114`): a value is passed to the
listeners one after the other, and the fire goes on with that value also if the stream has taken another one meanwhile. Listeners of any of
the streams, in any place among the streams that listen, may assign value streams, in any way that depends on the whole state, and raise, which
ends the innermost fire.

The network is made before; streams use streams with smaller numbers. Functions do not raise (C153, C173) and do not touch the streams.
`none` is a recursion that does not end within the fuel.
-/

namespace Verif.Stream.NetReentrant

/-- What a stream is made from. -/
inductive Kind (V : Type) where
  /-- Stream.py:42-59 -/
  | value
  /-- Stream.py:242-255 -/
  | const
  /-- Stream.py:62-95 -/
  | map (src : ℕ) (f : V → V)
  /-- Stream.py:98-139 -/
  | combine (srcs : List ℕ) (f : List V → V)

def Kind.inputs {V : Type} : Kind V → List ℕ
  | .map src _ => [src]
  | .combine srcs _ => srcs
  | _ => []

/-- A listener: the place of an input in a stream, or somebody else. -/
inductive Lis (ι : Type) where
  | stream (m k : ℕ)
  | user (i : ι)
deriving DecidableEq

/-- The values; `__values` of `CombineLatestStream` (line 110); the memory of the listeners. The other fields are not in the code: the places
that fires in progress have yet to tell; whether a stream took another value while one of the places that listen to it was still to be told,
or a listener raised while places were; and all values, when a listener was told while neither was the case. -/
structure St (V M : Type) where
  val : ℕ → V
  vals : ℕ → List V
  mem : M
  pend : List (ℕ × ℕ)
  mixed : Bool
  seen : List (ℕ → V)

/-- What a listener does when it is told: memory, assignments in order, whether it raises then. -/
structure Reaction (V M : Type) where
  mem : M
  assigns : List (ℕ × V)
  raises : Bool

variable {ι V M : Type} [DecidableEq V]

/-- The streams, the listeners of each in order, and what the others do: listener, stream, value. -/
structure Net (ι V M : Type) where
  kind : ℕ → Kind V
  lis : ℕ → List (Lis ι)
  react : ι → ℕ → V → St V M → Reaction V M

/-- The streams listen to their inputs, which were made before. -/
structure Net.Wf (net : Net ι V M) : Prop where
  lis : ∀ n m k, Lis.stream m k ∈ net.lis n ↔ (net.kind m).inputs[k]? = some n
  lt : ∀ m, ∀ n ∈ (net.kind m).inputs, n < m

/-- The places among listeners. -/
def slots (l : List (Lis ι)) : List (ℕ × ℕ) := l.filterMap fun | .stream m k => some (m, k) | .user _ => none

/-- `ex` runs a fire: stream, value. -/
abbrev Exec (V M : Type) := ℕ → V → St V M → Option (St V M)

/-- A stream takes a value. -/
def setVal (net : Net ι V M) (n : ℕ) (w : V) (s : St V M) : St V M :=
  { s with
    val := Function.update s.val n w
    mixed := s.mixed || (decide (s.val n ≠ w) && s.pend.any fun p => (net.kind p.1).inputs[p.2]? == some n) }

/-- Lines 75-79 and 129-135. -/
def receive (net : Net ι V M) (ex : Exec V M) (m k : ℕ) (w : V) (s : St V M) : Option (St V M) :=
  match net.kind m with
  | .map _ f => if f w ≠ s.val m then ex m (f w) (setVal net m (f w) s) else some s
  | .combine _ f =>
    ex m (f ((s.vals m).set k w)) (setVal net m (f ((s.vals m).set k w)) { s with vals := Function.update s.vals m ((s.vals m).set k w) })
  | _ => some s

/-- Lines 55-59. -/
def assign (net : Net ι V M) (ex : Exec V M) (n : ℕ) (v : V) (s : St V M) : Option (St V M) :=
  match net.kind n with
  | .value => if s.val n ≠ v then ex n v (setVal net n v s) else some s
  | _ => some s

def assigns (net : Net ι V M) (ex : Exec V M) : List (ℕ × V) → St V M → Option (St V M)
  | [], s => some s
  | a :: as, s => (assign net ex a.1 a.2 s).bind (assigns net ex as)

/-- A listener is called. -/
def look (m : M) (s : St V M) : St V M :=
  { s with mem := m, seen := if s.pend ≠ [] ∨ s.mixed then s.seen else s.seen ++ [s.val] }

/-- `Event.fire` of stream `n`; `pend` are the places the fires around it have yet to tell. -/
def fireL (net : Net ι V M) (ex : Exec V M) (n : ℕ) (w : V) (pend : List (ℕ × ℕ)) : List (Lis ι) → St V M → Option (St V M)
  | [], s => some { s with pend := pend }
  | .stream m k :: xs, s => (receive net ex m k w { s with pend := slots xs ++ pend }).bind (fireL net ex n w pend xs)
  | .user i :: xs, s =>
    (assigns net ex (net.react i n w s).assigns (look (net.react i n w s).mem { s with pend := slots xs ++ pend })).bind fun t =>
      if (net.react i n w s).raises then some { t with pend := pend, mixed := t.mixed || !(slots xs).isEmpty }
      else fireL net ex n w pend xs t

def fire (net : Net ι V M) (ex : Exec V M) : Exec V M := fun n w s =>
  fireL net ex n w s.pend (net.lis n) { s with pend := slots (net.lis n) ++ s.pend }

def exec (net : Net ι V M) : ℕ → Exec V M
  | 0 => fun _ _ _ => none
  | n + 1 => fire net (exec net n)

/-! ### Specification -/

/-- Every stream has the function of the values of its inputs. -/
def Right (kind : ℕ → Kind V) (val : ℕ → V) : Prop :=
  (∀ m src f, kind m = .map src f → val m = f (val src)) ∧ ∀ m srcs f, kind m = .combine srcs f → val m = f (srcs.map val)

/-- A network as it is made: the value streams and constant streams have any values. -/
def start (net : Net ι V M) (val : ℕ → V) (m : M) : St V M :=
  ⟨val, fun n => (net.kind n).inputs.map val, m, [], false, []⟩

/-! ### Proof -/

variable {net : Net ι V M} {ex : Exec V M} {s t : St V M}

structure Good (net : Net ι V M) (s : St V M) : Prop where
  map : ∀ m src f, net.kind m = .map src f → (m, 0) ∉ s.pend → s.val m = f (s.val src)
  comb : ∀ m srcs f, net.kind m = .combine srcs f → s.val m = f (s.vals m) ∧ (s.vals m).length = srcs.length ∧
    ∀ k src, srcs[k]? = some src → (m, k) ∉ s.pend → (s.vals m)[k]? = some (s.val src)

structure Inv (net : Net ι V M) (s : St V M) : Prop where
  good : s.mixed = false → Good net s
  seen : ∀ v ∈ s.seen, Right net.kind v

/-- The stream of a place that is to be told. -/
def Waits (net : Net ι V M) (s : St V M) (n : ℕ) : Prop := ∃ p ∈ s.pend, (net.kind p.1).inputs[p.2]? = some n

structure Eff (net : Net ι V M) (s t : St V M) : Prop where
  inv : Inv net t
  pend : t.pend = s.pend
  mixed : t.mixed = false → s.mixed = false
  still : t.mixed = false → ∀ n, Waits net s n → t.val n = s.val n

/-- With the places that listen to `n` to be told. -/
def opened (net : Net ι V M) (n : ℕ) (s : St V M) : St V M := { s with pend := slots (net.lis n) ++ s.pend }

def Ok (net : Net ι V M) (ex : Exec V M) : Prop :=
  ∀ n w s t, Inv net (opened net n s) → (s.mixed = false → s.val n = w) → ex n w s = some t → Eff net s t

theorem Eff.refl (h : Inv net s) : Eff net s s := ⟨h, rfl, id, fun _ _ _ => rfl⟩

theorem Waits.congr {n : ℕ} (h : Waits net s n) (e : t.pend = s.pend) : Waits net t n := by
  obtain ⟨p, hp, hq⟩ := h
  exact ⟨p, e ▸ hp, hq⟩

theorem Eff.trans {r : St V M} (h1 : Eff net s t) (h2 : Eff net t r) : Eff net s r :=
  ⟨h2.inv, h2.pend.trans h1.pend, fun h => h1.mixed (h2.mixed h), fun h n hn =>
    (h2.still h n (hn.congr h1.pend)).trans (h1.still (h2.mixed h) n hn)⟩

theorem Good.right (h : Good net s) (hp : s.pend = []) : Right net.kind s.val := by
  refine ⟨fun m src f hm => h.map m src f hm (by simp [hp]), fun m srcs f hm => ?_⟩
  obtain ⟨h1, h2, h3⟩ := h.comb m srcs f hm
  rw [h1]
  congr 1
  apply List.ext_getElem?
  intro k
  rw [List.getElem?_map]
  cases hk : srcs[k]? with
  | none =>
    rw [List.getElem?_eq_none_iff] at hk
    simp only [Option.map_none, List.getElem?_eq_none_iff]
    omega
  | some src => exact h3 k src hk (by simp [hp])

theorem setVal_mixed {n : ℕ} {w : V} (h : (setVal net n w s).mixed = false) :
    s.mixed = false ∧ (s.val n ≠ w → ¬ Waits net s n) := by
  simp only [setVal, Bool.or_eq_false_iff, Bool.and_eq_false_iff, decide_eq_false_iff_not] at h
  refine ⟨h.1, fun hne hw => ?_⟩
  rcases h.2 with h | h
  · exact h hne
  · obtain ⟨p, hp, hq⟩ := hw
    rw [List.any_eq_false] at h
    exact h p hp (by simp [hq])

/-- A stream takes a value and is about to fire. -/
theorem setVal_step (hw : net.Wf) (h : Ok net ex) (n : ℕ) (w : V) (s t : St V M)
    (hs : ∀ v ∈ s.seen, Right net.kind v)
    (hg : s.mixed = false →
      (∀ m src f, net.kind m = .map src f → m ≠ n → (m, 0) ∉ s.pend → s.val m = f (s.val src)) ∧
      (∀ m srcs f, net.kind m = .combine srcs f → (m ≠ n → s.val m = f (s.vals m)) ∧ (s.vals m).length = srcs.length ∧
        ∀ k src, srcs[k]? = some src → (m, k) ∉ s.pend → (s.vals m)[k]? = some (s.val src)) ∧
      (∀ src f, net.kind n = .map src f → (n, 0) ∉ s.pend → w = f (s.val src)) ∧
      (∀ srcs f, net.kind n = .combine srcs f → w = f (s.vals n)))
    (he : ex n w (setVal net n w s) = some t) :
    Inv net t ∧ t.pend = s.pend ∧ (t.mixed = false → s.mixed = false ∧ ∀ n, Waits net s n → t.val n = s.val n) := by
  have e : Eff net (setVal net n w s) t := by
    refine h n w _ t ⟨fun hx => ?_, hs⟩ (fun _ => by simp [setVal]) he
    obtain ⟨hm, -⟩ := setVal_mixed (s := s) hx
    obtain ⟨g1, g2, g3, g4⟩ := hg hm
    refine ⟨fun m src f hk hp => ?_, fun m srcs f hk => ?_⟩
    · have hp' : (m, 0) ∉ slots (net.lis n) ∧ (m, 0) ∉ s.pend := by
        rw [← not_or]
        exact fun hh => hp (List.mem_append.2 hh)
      have hsn : src ≠ n := fun e => hp'.1 (by
        simp only [slots, List.mem_filterMap]
        refine ⟨.stream m 0, (hw.lis n m 0).2 ?_, rfl⟩
        rw [hk]
        simp [Kind.inputs, e])
      change Function.update s.val n w m = f (Function.update s.val n w src)
      rw [Function.update_of_ne hsn]
      by_cases e : m = n
      · subst e
        rw [Function.update_self]
        exact g3 src f hk hp'.2
      · rw [Function.update_of_ne e]
        exact g1 m src f hk e hp'.2
    · obtain ⟨k1, k2, k3⟩ := g2 m srcs f hk
      refine ⟨?_, k2, fun k src hsrc hp => ?_⟩
      · change Function.update s.val n w m = f (s.vals m)
        by_cases e : m = n
        · subst e
          rw [Function.update_self]
          exact g4 srcs f hk
        · rw [Function.update_of_ne e]
          exact k1 e
      · have hp' : (m, k) ∉ slots (net.lis n) ∧ (m, k) ∉ s.pend := by
          rw [← not_or]
          exact fun hh => hp (List.mem_append.2 hh)
        have hsn : src ≠ n := fun e => hp'.1 (by
          simp only [slots, List.mem_filterMap]
          refine ⟨.stream m k, (hw.lis n m k).2 ?_, rfl⟩
          rw [hk, ← e]
          exact hsrc)
        change (s.vals m)[k]? = some (Function.update s.val n w src)
        rw [Function.update_of_ne hsn]
        exact k3 k src hsrc hp'.2
  refine ⟨e.inv, e.pend, fun hx => ?_⟩
  obtain ⟨hm, hne⟩ := setVal_mixed (e.mixed hx)
  refine ⟨hm, fun n' hn' => ?_⟩
  rw [e.still hx n' hn']
  change Function.update s.val n w n' = _
  by_cases e' : n' = n
  · subst e'
    rw [Function.update_self]
    by_contra hc
    exact hne (fun h => hc h.symm) hn'
  · rw [Function.update_of_ne e']

theorem receive_step (hw : net.Wf) (h : Ok net ex) (m k : ℕ) (w : V) (n : ℕ) (hin : (net.kind m).inputs[k]? = some n) (s t : St V M)
    (hi : Inv net { s with pend := (m, k) :: s.pend }) (hv : s.mixed = false → s.val n = w) (he : receive net ex m k w s = some t) :
    Inv net t ∧ t.pend = s.pend ∧ (t.mixed = false → s.mixed = false ∧ ∀ n, Waits net s n → t.val n = s.val n) := by
  unfold receive at he
  split at he
  · rename_i src f hk
    have hk0 : k = 0 ∧ src = n := by
      rw [hk] at hin
      simp only [Kind.inputs] at hin
      cases k with
      | zero => exact ⟨rfl, by simpa using hin⟩
      | succ k => simp at hin
    obtain ⟨rfl, rfl⟩ := hk0
    have hlt : src < m := hw.lt m src (by rw [hk]; simp [Kind.inputs])
    split at he
    · refine setVal_step hw h m (f w) s t hi.seen (fun hx => ?_) he
      have g := hi.good hx
      refine ⟨fun m' src' f' hk' hne hp => g.map m' src' f' hk' ?_, fun m' srcs' f' hk' => ?_, fun src' f' hk' _ => ?_, fun srcs' f' hk' => ?_⟩
      · simp only [List.mem_cons, Prod.mk.injEq, not_or]
        exact ⟨fun e => hne e.1, hp⟩
      · obtain ⟨k1, k2, k3⟩ := g.comb m' srcs' f' hk'
        refine ⟨fun _ => k1, k2, fun k' src' hs' hp => k3 k' src' hs' ?_⟩
        simp only [List.mem_cons, Prod.mk.injEq, not_or]
        refine ⟨fun e => ?_, hp⟩
        rw [e.1, hk] at hk'
        cases hk'
      · rw [hk] at hk'
        cases hk'
        rw [hv hx]
      · rw [hk] at hk'
        cases hk'
    · rename_i heq
      cases he
      simp only [ne_eq, not_not] at heq
      refine ⟨⟨fun hx => ?_, hi.seen⟩, rfl, fun hx => ⟨hx, fun _ _ => rfl⟩⟩
      have g := hi.good hx
      refine ⟨fun m' src' f' hk' hp => ?_, fun m' srcs' f' hk' => ?_⟩
      · by_cases e : m' = m
        · subst e
          rw [hk] at hk'
          cases hk'
          rw [hv hx, heq]
        · refine g.map m' src' f' hk' ?_
          simp only [List.mem_cons, Prod.mk.injEq, not_or]
          exact ⟨fun e' => e e'.1, hp⟩
      · obtain ⟨k1, k2, k3⟩ := g.comb m' srcs' f' hk'
        refine ⟨k1, k2, fun k' src' hs' hp => k3 k' src' hs' ?_⟩
        simp only [List.mem_cons, Prod.mk.injEq, not_or]
        refine ⟨fun e => ?_, hp⟩
        rw [e.1, hk] at hk'
        cases hk'
  · rename_i srcs f hk
    have hin' : srcs[k]? = some n := by
      rw [hk] at hin
      exact hin
    have hmem : n ∈ srcs := List.mem_of_getElem? hin'
    have hlt : n < m := hw.lt m n (by rw [hk]; exact hmem)
    have hkl : k < srcs.length := (List.getElem?_eq_some_iff.1 hin').1
    refine setVal_step hw h m _ { s with vals := Function.update s.vals m ((s.vals m).set k w) } t hi.seen (fun hx => ?_) he
    have g := hi.good hx
    refine ⟨fun m' src' f' hk' hne hp => g.map m' src' f' hk' ?_, fun m' srcs' f' hk' => ?_, fun src' f' hk' _ => ?_, fun srcs' f' hk' => ?_⟩
    · simp only [List.mem_cons, Prod.mk.injEq, not_or]
      exact ⟨fun e => hne e.1, hp⟩
    · obtain ⟨k1, k2, k3⟩ := g.comb m' srcs' f' hk'
      by_cases e : m' = m
      · subst e
        rw [hk] at hk'
        cases hk'
        simp only [Function.update_self, List.length_set]
        refine ⟨fun hh => absurd rfl hh, k2, fun k' src' hs' hp => ?_⟩
        by_cases e' : k' = k
        · subst e'
          rw [hin'] at hs'
          cases hs'
          have k2' : (s.vals m').length = srcs.length := k2
          rw [List.getElem?_set_self (by omega), hv hx]
        · rw [List.getElem?_set_ne (fun e'' => e' e''.symm)]
          refine k3 k' src' hs' ?_
          simp only [List.mem_cons, Prod.mk.injEq, not_or]
          exact ⟨fun e'' => e' e''.2, hp⟩
      · simp only [Function.update_of_ne e]
        refine ⟨fun _ => k1, k2, fun k' src' hs' hp => k3 k' src' hs' ?_⟩
        simp only [List.mem_cons, Prod.mk.injEq, not_or]
        exact ⟨fun e' => e e'.1, hp⟩
    · rw [hk] at hk'
      cases hk'
    · rw [hk] at hk'
      cases hk'
      simp only [Function.update_self]
  · rename_i h1 h2
    cases hk : net.kind m with
    | map src f => exact absurd hk (h1 src f)
    | combine srcs f => exact absurd hk (h2 srcs f)
    | value =>
      rw [hk] at hin
      simp [Kind.inputs] at hin
    | const =>
      rw [hk] at hin
      simp [Kind.inputs] at hin

theorem assign_eff (hw : net.Wf) (h : Ok net ex) (n : ℕ) (v : V) (s t : St V M) (hi : Inv net s) (he : assign net ex n v s = some t) :
    Eff net s t := by
  unfold assign at he
  split at he
  swap
  · cases he
    exact .refl hi
  rename_i hk
  split at he
  · obtain ⟨a, b, c⟩ := setVal_step hw h n v s t hi.seen (fun hx => by
      have g := hi.good hx
      refine ⟨fun m src f hk' _ hp => g.map m src f hk' hp, fun m srcs f hk' => ?_, fun src f hk' => ?_, fun srcs f hk' => ?_⟩
      · obtain ⟨k1, k2, k3⟩ := g.comb m srcs f hk'
        exact ⟨fun _ => k1, k2, k3⟩
      · rw [hk] at hk'
        cases hk'
      · rw [hk] at hk'
        cases hk') he
    exact ⟨a, b, fun hx => (c hx).1, fun hx => (c hx).2⟩
  · cases he
    exact .refl hi

theorem assigns_eff (hw : net.Wf) (h : Ok net ex) (as : List (ℕ × V)) (s t : St V M) (hi : Inv net s) (he : assigns net ex as s = some t) :
    Eff net s t := by
  induction as generalizing s with
  | nil =>
    simp only [assigns, Option.some.injEq] at he
    exact he ▸ .refl hi
  | cons a as ih =>
    simp only [assigns, Option.bind_eq_some_iff] at he
    obtain ⟨t1, h1, h2⟩ := he
    have e := assign_eff hw h a.1 a.2 s t1 hi h1
    exact e.trans (ih t1 e.inv h2)

theorem look_eff (m : M) (hi : Inv net s) : Eff net s (look m s) := by
  refine ⟨⟨fun hm => ?_, fun v hv => ?_⟩, rfl, id, fun _ _ _ => rfl⟩
  · have g := hi.good hm
    exact ⟨g.map, g.comb⟩
  · simp only [look] at hv
    split at hv
    · exact hi.seen v hv
    · rename_i hb
      simp only [not_or, ne_eq, not_not, Bool.not_eq_true] at hb
      rcases List.mem_append.1 hv with hv | hv
      · exact hi.seen v hv
      · rw [List.mem_singleton.1 hv]
        exact (hi.good hb.2).right hb.1

theorem fireL_step (hw : net.Wf) (h : Ok net ex) (n : ℕ) (w : V) (pend : List (ℕ × ℕ)) (xs : List (Lis ι))
    (hx : ∀ m k, Lis.stream m k ∈ xs → (net.kind m).inputs[k]? = some n) (s t : St V M) (hp : s.pend = slots xs ++ pend)
    (hi : Inv net s) (hv : s.mixed = false → slots xs ≠ [] → s.val n = w) (he : fireL net ex n w pend xs s = some t) :
    Inv net t ∧ t.pend = pend ∧ (t.mixed = false → s.mixed = false ∧
      ∀ n, (∃ p ∈ pend, (net.kind p.1).inputs[p.2]? = some n) → t.val n = s.val n) := by
  induction xs generalizing s with
  | nil =>
    simp only [fireL, Option.some.injEq] at he
    subst he
    have hp' : s.pend = pend := by simpa [slots] using hp
    refine ⟨⟨fun hm => ?_, hi.seen⟩, rfl, fun hm => ⟨hm, fun _ _ => rfl⟩⟩
    have g := hi.good hm
    exact ⟨fun m src f hk hq => g.map m src f hk (by rw [hp']; exact hq), fun m srcs f hk => by
      obtain ⟨a, b, c⟩ := g.comb m srcs f hk
      exact ⟨a, b, fun k src h1 h2 => c k src h1 (by rw [hp']; exact h2)⟩⟩
  | cons x xs ih =>
    have hx' : ∀ m k, Lis.stream m k ∈ xs → (net.kind m).inputs[k]? = some n := fun m k hm => hx m k (List.mem_cons_of_mem _ hm)
    have wait : slots xs ≠ [] → ∀ r : St V M, r.pend = slots xs ++ pend → Waits net r n := by
      intro hne r hr
      obtain ⟨p, hp⟩ := List.exists_mem_of_ne_nil _ hne
      refine ⟨p, by rw [hr]; exact List.mem_append_left _ hp, ?_⟩
      simp only [slots, List.mem_filterMap] at hp
      obtain ⟨y, hy, hq⟩ := hp
      cases y with
      | stream m k =>
        simp only [Option.some.injEq] at hq
        subst hq
        exact hx' m k hy
      | user i => cases hq
    cases x with
    | stream m k =>
      simp only [fireL, Option.bind_eq_some_iff] at he
      obtain ⟨t1, h1, h2⟩ := he
      have hsl : slots (Lis.stream m k :: xs) = (m, k) :: slots xs := rfl
      obtain ⟨a, b, c⟩ := receive_step hw h m k w n (hx m k (by simp)) { s with pend := slots xs ++ pend } t1 (by
        refine ⟨fun hm => ?_, hi.seen⟩
        have g := hi.good hm
        have e : s.pend = (m, k) :: (slots xs ++ pend) := by rw [hp, hsl]; rfl
        exact ⟨fun m src f hk hq => g.map m src f hk (by rw [e]; exact hq), fun m srcs f hk => by
          obtain ⟨a, b, c⟩ := g.comb m srcs f hk
          exact ⟨a, b, fun k src h1 h2 => c k src h1 (by rw [e]; exact h2)⟩⟩) (fun hm => hv hm (by rw [hsl]; simp)) h1
      obtain ⟨a', b', c'⟩ := ih hx' t1 b a (fun hm hne => by
        obtain ⟨d1, d2⟩ := c hm
        rw [d2 n (wait hne _ rfl)]
        exact hv d1 (by rw [hsl]; simp)) h2
      refine ⟨a', b', fun hm => ?_⟩
      obtain ⟨d1, d2⟩ := c' hm
      obtain ⟨f1, f2⟩ := c d1
      refine ⟨f1, fun n' hn' => ?_⟩
      rw [d2 n' hn']
      obtain ⟨p, hp1, hp2⟩ := hn'
      exact f2 n' ⟨p, List.mem_append_right _ hp1, hp2⟩
    | user i =>
      simp only [fireL, Option.bind_eq_some_iff] at he
      obtain ⟨t1, h1, h2⟩ := he
      have hsl : slots (Lis.user i :: xs) = slots xs := rfl
      have i1 : Inv net { s with pend := slots xs ++ pend } := by
        refine ⟨fun hm => ?_, hi.seen⟩
        have g := hi.good hm
        have e : s.pend = slots xs ++ pend := by rw [hp, hsl]
        exact ⟨fun m src f hk hq => g.map m src f hk (by rw [e]; exact hq), fun m srcs f hk => by
          obtain ⟨a, b, c⟩ := g.comb m srcs f hk
          exact ⟨a, b, fun k src h1 h2 => c k src h1 (by rw [e]; exact h2)⟩⟩
      have e0 := look_eff (net.react i n w s).mem i1
      have e1 := e0.trans (assigns_eff hw h _ _ t1 e0.inv h1)
      have b : t1.pend = slots xs ++ pend := e1.pend
      have fin : ∀ n', (∃ p ∈ pend, (net.kind p.1).inputs[p.2]? = some n') → t1.mixed = false → t1.val n' = s.val n' := by
        rintro n' ⟨p, hp1, hp2⟩ hm
        exact e1.still hm n' ⟨p, List.mem_append_right _ hp1, hp2⟩
      split at h2
      · cases h2
        refine ⟨⟨fun hm => ?_, e1.inv.seen⟩, rfl, fun hm => ?_⟩
        · simp only [Bool.or_eq_false_iff, Bool.not_eq_false', List.isEmpty_iff] at hm
          have g := e1.inv.good hm.1
          have e : t1.pend = pend := by rw [b, hm.2]; rfl
          exact ⟨fun m src f hk hq => g.map m src f hk (by rw [e]; exact hq), fun m srcs f hk => by
            obtain ⟨a, b, c⟩ := g.comb m srcs f hk
            exact ⟨a, b, fun k src h1 h2 => c k src h1 (by rw [e]; exact h2)⟩⟩
        · simp only [Bool.or_eq_false_iff] at hm
          exact ⟨e1.mixed hm.1, fun n' hn' => fin n' hn' hm.1⟩
      · obtain ⟨a', b', c'⟩ := ih hx' t1 b e1.inv (fun hm hne => by
          rw [e1.still hm n (wait hne _ rfl)]
          exact hv (e1.mixed hm) (by rw [hsl]; exact hne)) h2
        refine ⟨a', b', fun hm => ?_⟩
        obtain ⟨d1, d2⟩ := c' hm
        exact ⟨e1.mixed d1, fun n' hn' => (d2 n' hn').trans (fin n' hn' d1)⟩

theorem fire_ok (hw : net.Wf) (h : Ok net ex) : Ok net (fire net ex) := by
  intro n w s t hi hv he
  obtain ⟨a, b, c⟩ := fireL_step hw h n w s.pend (net.lis n) (fun m k hm => (hw.lis n m k).1 hm) (opened net n s) t rfl hi
    (fun hm _ => hv hm) he
  exact ⟨a, b, fun hm => (c hm).1, fun hm => (c hm).2⟩

theorem exec_ok (hw : net.Wf) : ∀ n, Ok net (exec net n)
  | 0 => fun _ _ _ _ _ _ he => by simp [exec] at he
  | n + 1 => fire_ok hw (exec_ok hw n)

theorem start_inv (val : ℕ → V) (hv : Right net.kind val) (m : M) : Inv net (start net val m) := by
  refine ⟨fun _ => ⟨fun m src f hk _ => hv.1 m src f hk, fun m srcs f hk => ?_⟩, fun v hv => by simp [start] at hv⟩
  simp only [start, hk, Kind.inputs, List.length_map, true_and, List.getElem?_map]
  exact ⟨hv.2 m srcs f hk, fun k src h _ => by simp [h]⟩

/-- C184 (partial: no stream took another value while a stream that listens to it was still to be told of the value before, and no listener
raised then): whatever listeners assign while they are told, every stream has the function of the values of its inputs when the assignments
have returned, and whenever a listener was told while no stream was still to be told. -/
theorem C184_streams_partial (net : Net ι V M) (hw : net.Wf) (val : ℕ → V) (hv : Right net.kind val) (m : M) (n : ℕ) (as : List (ℕ × V))
    (s : St V M) (h : assigns net (exec net n) as (start net val m) = some s) :
    (s.mixed = false → Right net.kind s.val) ∧ ∀ v ∈ s.seen, Right net.kind v := by
  have e := assigns_eff hw (exec_ok hw n) as _ s (start_inv val hv m) h
  exact ⟨fun hm => (e.inv.good hm).right e.pend, e.inv.seen⟩

/-! #### Listeners that come last -/

/-- The listener assigns nothing and does not raise, when the stream fires. -/
def Net.Passive (net : Net ι V M) (i : ι) (n : ℕ) : Prop := ∀ w s, (net.react i n w s).assigns = [] ∧ (net.react i n w s).raises = false

/-- Listeners that are not passive come after all streams that listen, and only at streams that are in `free`: each is told last of all
streams by each of its inputs, and so are these. -/
structure Net.Last (net : Net ι V M) (free : ℕ → Prop) : Prop where
  user : ∀ n pre i post, net.lis n = pre ++ .user i :: post → net.Passive i n ∨ free n ∧ slots post = []
  stream : ∀ n pre m k post, net.lis n = pre ++ .stream m k :: post → free m → free n ∧ slots post = []

def Calm (net : Net ι V M) (free : ℕ → Prop) (ex : Exec V M) : Prop :=
  ∀ n w s t, (free n → s.pend = []) → (∀ p ∈ s.pend, ∀ n', (net.kind p.1).inputs[p.2]? = some n' → n' < n) → s.mixed = false →
    ex n w s = some t → t.mixed = false ∧ t.pend = s.pend

theorem setVal_calm (n : ℕ) (w : V) (s : St V M)
    (hp : ∀ p ∈ s.pend, ∀ n', (net.kind p.1).inputs[p.2]? = some n' → n' < n) (hm : s.mixed = false) : (setVal net n w s).mixed = false := by
  simp only [setVal, hm, Bool.false_or, Bool.and_eq_false_iff]
  right
  rw [List.any_eq_false]
  intro p hp' hq
  exact Nat.lt_irrefl n (hp p hp' n (by simpa using hq))

theorem assigns_calm (free : ℕ → Prop) (h : Calm net free ex) (as : List (ℕ × V)) (s t : St V M) (hp : s.pend = []) (hm : s.mixed = false)
    (he : assigns net ex as s = some t) : t.mixed = false ∧ t.pend = [] := by
  induction as generalizing s with
  | nil =>
    simp only [assigns, Option.some.injEq] at he
    subst he
    exact ⟨hm, hp⟩
  | cons a as ih =>
    simp only [assigns, Option.bind_eq_some_iff] at he
    obtain ⟨t1, h1, h2⟩ := he
    have key : t1.mixed = false ∧ t1.pend = [] := by
      unfold assign at h1
      split at h1
      · split at h1
        · have := h a.1 a.2 (setVal net a.1 a.2 s) t1 (fun _ => hp) (by
            change ∀ p ∈ s.pend, _
            rw [hp]
            simp) (setVal_calm a.1 a.2 s (by rw [hp]; simp) hm) h1
          exact ⟨this.1, this.2.trans hp⟩
        · cases h1
          exact ⟨hm, hp⟩
      · cases h1
        exact ⟨hm, hp⟩
    exact ih t1 key.2 key.1 h2

theorem fireL_calm (hw : net.Wf) (free : ℕ → Prop) (hl : net.Last free) (h : Calm net free ex) (n : ℕ) (w : V) (pend : List (ℕ × ℕ))
    (hf : free n → pend = []) (hp : ∀ p ∈ pend, ∀ n', (net.kind p.1).inputs[p.2]? = some n' → n' < n) (pre xs : List (Lis ι))
    (hx : net.lis n = pre ++ xs) (s t : St V M) (hm : s.mixed = false) (he : fireL net ex n w pend xs s = some t) :
    t.mixed = false ∧ t.pend = pend := by
  induction xs generalizing s pre with
  | nil =>
    simp only [fireL, Option.some.injEq] at he
    subst he
    exact ⟨hm, rfl⟩
  | cons x xs ih =>
    cases x with
    | stream m k =>
      simp only [fireL, Option.bind_eq_some_iff] at he
      obtain ⟨t1, h1, h2⟩ := he
      have hin : (net.kind m).inputs[k]? = some n := (hw.lis n m k).1 (by rw [hx]; simp)
      have hlt : n < m := hw.lt m n (List.mem_of_getElem? hin)
      have hfr : free m → slots xs ++ pend = [] := fun hfm => by
        obtain ⟨a, b⟩ := hl.stream n pre m k xs hx hfm
        rw [b, hf a]
        rfl
      have hpd : ∀ p ∈ slots xs ++ pend, ∀ n', (net.kind p.1).inputs[p.2]? = some n' → n' < m := by
        intro p hp1 n' hn'
        rcases List.mem_append.1 hp1 with hp1 | hp1
        · simp only [slots, List.mem_filterMap] at hp1
          obtain ⟨y, hy, hq⟩ := hp1
          cases y with
          | stream m' k' =>
            simp only [Option.some.injEq] at hq
            subst hq
            have := (hw.lis n m' k').1 (by rw [hx]; exact List.mem_append_right _ (List.mem_cons_of_mem _ hy))
            rw [this] at hn'
            cases hn'
            exact hlt
          | user i => cases hq
        · exact Nat.lt_trans (hp p hp1 n' hn') hlt
      have key : t1.mixed = false ∧ t1.pend = slots xs ++ pend := by
        unfold receive at h1
        split at h1
        · split at h1
          · exact h m _ _ t1 hfr hpd (setVal_calm m _ { s with pend := slots xs ++ pend } hpd hm) h1
          · cases h1
            exact ⟨hm, rfl⟩
        · exact h m _ _ t1 hfr hpd (setVal_calm m _ { s with pend := slots xs ++ pend, vals := _ } hpd hm) h1
        · cases h1
          exact ⟨hm, rfl⟩
      exact ih (pre ++ [.stream m k]) (by rw [hx]; simp) t1 key.1 h2
    | user i =>
      simp only [fireL, Option.bind_eq_some_iff] at he
      obtain ⟨t1, h1, h2⟩ := he
      rcases hl.user n pre i xs hx with hps | ⟨hfn, hsl⟩
      · obtain ⟨a, b⟩ := hps w s
        rw [a] at h1
        simp only [assigns, Option.some.injEq] at h1
        rw [b] at h2
        refine ih (pre ++ [.user i]) (by rw [hx]; simp) t1 ?_ (by simpa using h2)
        rw [← h1]
        exact hm
      · obtain ⟨a, b⟩ := assigns_calm free h _ _ t1 (by
          change slots xs ++ pend = []
          rw [hsl, hf hfn]
          rfl) (by exact hm) h1
        split at h2
        · cases h2
          simp [a, hsl]
        · exact ih (pre ++ [.user i]) (by rw [hx]; simp) t1 a h2

theorem exec_calm (hw : net.Wf) (free : ℕ → Prop) (hl : net.Last free) : ∀ n, Calm net free (exec net n)
  | 0 => fun _ _ _ _ _ _ _ he => by simp [exec] at he
  | n + 1 => fun m w s t h1 h2 h3 he =>
    fireL_calm hw free hl (exec_calm hw free hl n) m w s.pend h1 h2 [] (net.lis m) rfl (opened net m s) t h3 he

/-- C184: every stream has the function of the values of its inputs, if listeners that assign or raise come after all streams that listen to
the same stream, and only at value streams and at streams that each of their inputs tells last, and these in the same way. -/
theorem C184_last (net : Net ι V M) (hw : net.Wf) (free : ℕ → Prop) (hl : net.Last free) (val : ℕ → V) (hv : Right net.kind val) (m : M)
    (n : ℕ) (as : List (ℕ × V)) (s : St V M) (h : assigns net (exec net n) as (start net val m) = some s) : Right net.kind s.val :=
  (C184_streams_partial net hw val hv m n as s h).1 (assigns_calm free (exec_calm hw free hl n) as _ s rfl rfl h).1

/-- C184: every stream has the function of the values of its inputs, whoever listens, if nobody assigns or raises. -/
theorem C184_passive (net : Net ι V M) (hw : net.Wf) (hp : ∀ i n, net.Passive i n) (val : ℕ → V) (hv : Right net.kind val) (m : M)
    (n : ℕ) (as : List (ℕ × V)) (s : St V M) (h : assigns net (exec net n) as (start net val m) = some s) : Right net.kind s.val :=
  C184_last net hw (fun _ => False) ⟨fun n _ i _ _ => .inl (hp i n), fun _ _ _ _ _ _ h => h.elim⟩ val hv m n as s h

/-! ### Examples -/

/-- 0 and 3 are value streams, 1 is twice 0, 2 the sum of 0 and 1. -/
def exKind : ℕ → Kind ℕ
  | 0 => .value
  | 1 => .map 0 (2 * ·)
  | 2 => .combine [0, 1] List.sum
  | 3 => .value
  | _ => .const

/-- The users at each stream come after the streams that listen to it. -/
def exNet (users : ℕ → List ℕ) (react : ℕ → ℕ → ℕ → St ℕ ℕ → Reaction ℕ ℕ) : Net ℕ ℕ ℕ :=
  ⟨exKind, fun n => (match n with
    | 0 => [.stream 1 0, .stream 2 0]
    | 1 => [.stream 2 1]
    | _ => []) ++ (users n).map .user, react⟩

theorem exWf (users : ℕ → List ℕ) (react : ℕ → ℕ → ℕ → St ℕ ℕ → Reaction ℕ ℕ) : (exNet users react).Wf := by
  constructor
  · intro n m k
    rcases m with _ | _ | _ | _ | m <;> rcases n with _ | _ | n <;> rcases k with _ | _ | k <;>
      simp [exNet, exKind, Kind.inputs]
  · intro m n hn
    rcases m with _ | _ | _ | _ | m <;> simp [exNet, exKind, Kind.inputs] at hn <;> omega

/-- Listeners that limit what they hear to at most 5 by assigning stream 0 (listener 0), assign stream 3 (listener 1), raise (listener 2);
the memory counts the calls. -/
def exReact (i _n w : ℕ) (s : St ℕ ℕ) : Reaction ℕ ℕ :=
  match i with
  | 0 => ⟨s.mem + 1, if 5 < w then [(0, 5)] else [], false⟩
  | 1 => ⟨s.mem + 1, [(3, w)], false⟩
  | 2 => ⟨s.mem + 1, [], true⟩
  | _ => ⟨s.mem + 1, [], false⟩

def exRun (users : ℕ → List ℕ) (as : List (ℕ × ℕ)) : Option (List ℕ × ℕ × Bool) :=
  (assigns (exNet users exReact) (exec (exNet users exReact) 7) as (start (exNet users exReact) (fun _ => 0) 0)).map
    fun s => ((List.range 4).map s.val, s.mem, s.mixed)

/-- The limit at stream 0 itself: listener 3 hears of nothing, as listener 2 raises before. -/
example : exRun (fun | 0 => [0, 2, 3] | _ => []) [(0, 7)] = some ([5, 10, 15, 0], 4, false) := by decide +kernel

/-- A listener of 1 that assigns 3. -/
example : exRun (fun | 1 => [1] | 3 => [3] | _ => []) [(0, 7)] = some ([7, 14, 21, 14], 2, false) := by decide +kernel

/-- Listeners of the two value streams may assign. -/
example : Net.Last (exNet (fun | 0 => [0, 2] | 3 => [0] | _ => []) exReact) (fun n => n = 0 ∨ n = 3) := by
  constructor
  · intro n pre i post h
    have : n = 0 ∨ n = 3 ∨ (n ≠ 0 ∧ n ≠ 3) := by omega
    rcases this with rfl | rfl | ⟨h0, h3⟩
    · refine .inr ⟨.inl rfl, ?_⟩
      simp only [exNet, List.map_cons, List.map_nil, List.cons_append, List.nil_append] at h
      rcases pre with _ | ⟨a, _ | ⟨b, _ | ⟨c, _ | ⟨d, pre⟩⟩⟩⟩ <;> simp at h
      · obtain ⟨-, -, -, rfl⟩ := h
        rfl
      · obtain ⟨-, -, -, -, rfl⟩ := h
        rfl
    · refine .inr ⟨.inr rfl, ?_⟩
      simp only [exNet, List.map_cons, List.map_nil, List.cons_append, List.nil_append] at h
      rcases pre with _ | ⟨a, pre⟩ <;> simp at h
      obtain ⟨-, rfl⟩ := h
      rfl
    · exfalso
      have : Lis.user i ∈ (exNet (fun | 0 => [0, 2] | 3 => [0] | _ => []) exReact).lis n := by rw [h]; simp
      rcases n with _ | _ | _ | _ | n <;> simp [exNet] at this h0 h3
  · intro n pre m k post h hm
    have hin := ((exWf _ _).lis n m k).1 (by rw [h]; simp)
    rcases hm with rfl | rfl <;> simp [exNet, exKind, Kind.inputs] at hin

/-- C184: a listener of 1 that assigns 0: the sum 2 of 0 and 1 is left with the value 0 had before. -/
theorem C184_counterexample : exRun (fun | 1 => [0] | _ => []) [(0, 7)] = some ([5, 10, 17, 0], 2, true) := by decide +kernel

/-- C184: a listener of 1 that raises after 2 is told does no harm; if a listener of 0 raises before 2 is told, 2 is left behind. -/
theorem C184_counterexample_raises :
    exRun (fun | 1 => [2] | _ => []) [(0, 7)] = some ([7, 14, 21, 0], 1, false) ∧
    (let net : Net ℕ ℕ ℕ := ⟨exKind, fun | 0 => [.stream 1 0, .user 2, .stream 2 0] | 1 => [.stream 2 1] | _ => [], exReact⟩
     (assigns net (exec net 7) [(0, 7)] (start net (fun _ => 0) 0)).map fun s => ((List.range 3).map s.val, s.mixed))
      = some ([7, 14, 14], true) := by
  decide +kernel

end Verif.Stream.NetReentrant
