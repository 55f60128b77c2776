import Mathlib.Data.List.Basic
import Mathlib.Logic.Function.Basic
import Mathlib.Tactic.SplitIfs
import Mathlib.Tactic.Common

set_option linter.unusedSectionVars false
set_option linter.unusedSimpArgs false

/-!
C198: networks of streams whose functions assign value streams while they are computed. Model of `ValueStream`, `ConstantStream`, `MapStream`
and `CombineLatestStream` (`nion/utils/Stream.py:42-139` and 240-255) with `Event.fire` (`nion/utils/Event.py:103-114`), as in C184, where only
listeners assign. The function of a map stream is computed before its result is compared with the value (76-77); that of a combined stream
is called with the values of the inputs as they are then (134), and the result is stored whatever happened meanwhile. Listeners may assign as well.

The network is made before; streams use streams with smaller numbers. Functions do not raise (C153, C173), and their results depend only on
their arguments; what they assign may depend on the whole state. `none` is a recursion that does not end within the fuel.
-/

namespace Verif.Stream.FnReentrant

/-- What a stream is made from. -/
inductive Kind (V : Type) where
  /-- Stream.py:42-59 -/
  | value
  /-- Stream.py:242-255 -/
  | const
  /-- Stream.py:62-95 -/
  | map (src : ℕ) (f : V → V)
  /-- Stream.py:98-139 -/
  | combine (srcs : List ℕ) (f : List V → V)

def Kind.inputs {V : Type} : Kind V → List ℕ
  | .map src _ => [src]
  | .combine srcs _ => srcs
  | _ => []

/-- A listener: the place of an input in a stream, or somebody else. -/
inductive Lis (ι : Type) where
  | stream (m k : ℕ)
  | user (i : ι)
deriving DecidableEq

/-- The values; `__values` of `CombineLatestStream` (line 110); the memory of the listeners. The other fields are not in the code: the places
that fires in progress have yet to tell, or whose function is being computed; whether a stream took another value while one of the places that
listen to it was among these, or a stream was told while its function was computed, or a listener raised while places were to be told; and all
values, when a listener was told while none of this was the case. -/
structure St (V M : Type) where
  val : ℕ → V
  vals : ℕ → List V
  mem : M
  pend : List (ℕ × ℕ)
  mixed : Bool
  seen : List (ℕ → V)

/-- What a listener does when it is told: memory, assignments in order, whether it raises then. -/
structure Reaction (V M : Type) where
  mem : M
  assigns : List (ℕ × V)
  raises : Bool

variable {ι V M : Type} [DecidableEq V]

/-- The streams, the listeners of each in order, what the others do (listener, stream, value), and what functions do: stream and arguments;
memory and assignments in order. -/
structure Net (ι V M : Type) where
  kind : ℕ → Kind V
  lis : ℕ → List (Lis ι)
  react : ι → ℕ → V → St V M → Reaction V M
  acts : ℕ → List V → St V M → M × List (ℕ × V)

/-- The streams listen to their inputs, which were made before. -/
structure Net.Wf (net : Net ι V M) : Prop where
  lis : ∀ n m k, Lis.stream m k ∈ net.lis n ↔ (net.kind m).inputs[k]? = some n
  lt : ∀ m, ∀ n ∈ (net.kind m).inputs, n < m

/-- The places among listeners. -/
def slots (l : List (Lis ι)) : List (ℕ × ℕ) := l.filterMap fun | .stream m k => some (m, k) | .user _ => none

/-- `ex` runs a fire: stream, value. -/
abbrev Exec (V M : Type) := ℕ → V → St V M → Option (St V M)

/-- A stream takes a value. -/
def setVal (net : Net ι V M) (n : ℕ) (w : V) (s : St V M) : St V M :=
  { s with
    val := Function.update s.val n w
    mixed := s.mixed || (decide (s.val n ≠ w) && s.pend.any fun p => (net.kind p.1).inputs[p.2]? == some n) }

/-- Lines 55-59. -/
def assign (net : Net ι V M) (ex : Exec V M) (n : ℕ) (v : V) (s : St V M) : Option (St V M) :=
  match net.kind n with
  | .value => if s.val n ≠ v then ex n v (setVal net n v s) else some s
  | _ => some s

def assigns (net : Net ι V M) (ex : Exec V M) : List (ℕ × V) → St V M → Option (St V M)
  | [], s => some s
  | a :: as, s => (assign net ex a.1 a.2 s).bind (assigns net ex as)

/-- The function of a stream is called: it assigns. The place that was told is still open. -/
def compute (net : Net ι V M) (ex : Exec V M) (m k : ℕ) (args : List V) (s : St V M) : Option (St V M) :=
  (assigns net ex (net.acts m args s).2 { s with mem := (net.acts m args s).1, pend := (m, k) :: s.pend }).map fun t => { t with pend := s.pend }

/-- Lines 75-79 and 129-135. -/
def receive (net : Net ι V M) (ex : Exec V M) (m k : ℕ) (w : V) (s : St V M) : Option (St V M) :=
  match net.kind m with
  | .map _ f => (compute net ex m k [w] s).bind fun t => if f w ≠ t.val m then ex m (f w) (setVal net m (f w) t) else some t
  | .combine _ f =>
    (compute net ex m k ((s.vals m).set k w) { s with vals := Function.update s.vals m ((s.vals m).set k w) }).bind fun t =>
      ex m (f ((s.vals m).set k w))
        (setVal net m (f ((s.vals m).set k w)) { t with mixed := t.mixed || decide (t.vals m ≠ (s.vals m).set k w) })
  | _ => some s

/-- A listener is called. -/
def look (m : M) (s : St V M) : St V M :=
  { s with mem := m, seen := if s.pend ≠ [] ∨ s.mixed then s.seen else s.seen ++ [s.val] }

/-- `Event.fire` of stream `n`; `pend` are the places the fires around it have yet to tell. -/
def fireL (net : Net ι V M) (ex : Exec V M) (n : ℕ) (w : V) (pend : List (ℕ × ℕ)) : List (Lis ι) → St V M → Option (St V M)
  | [], s => some { s with pend := pend }
  | .stream m k :: xs, s => (receive net ex m k w { s with pend := slots xs ++ pend }).bind (fireL net ex n w pend xs)
  | .user i :: xs, s =>
    (assigns net ex (net.react i n w s).assigns (look (net.react i n w s).mem { s with pend := slots xs ++ pend })).bind fun t =>
      if (net.react i n w s).raises then some { t with pend := pend, mixed := t.mixed || !(slots xs).isEmpty }
      else fireL net ex n w pend xs t

def fire (net : Net ι V M) (ex : Exec V M) : Exec V M := fun n w s =>
  fireL net ex n w s.pend (net.lis n) { s with pend := slots (net.lis n) ++ s.pend }

def exec (net : Net ι V M) : ℕ → Exec V M
  | 0 => fun _ _ _ => none
  | n + 1 => fire net (exec net n)

/-! ### Specification -/

/-- Every stream has the function of the values of its inputs. -/
def Right (kind : ℕ → Kind V) (val : ℕ → V) : Prop :=
  (∀ m src f, kind m = .map src f → val m = f (val src)) ∧ ∀ m srcs f, kind m = .combine srcs f → val m = f (srcs.map val)

/-- A network as it is made: the value streams and constant streams have any values. -/
def start (net : Net ι V M) (val : ℕ → V) (m : M) : St V M :=
  ⟨val, fun n => (net.kind n).inputs.map val, m, [], false, []⟩

/-! ### Proof -/

variable {net : Net ι V M} {ex : Exec V M} {s t : St V M}

structure Good (net : Net ι V M) (s : St V M) : Prop where
  map : ∀ m src f, net.kind m = .map src f → (m, 0) ∉ s.pend → s.val m = f (s.val src)
  comb : ∀ m srcs f, net.kind m = .combine srcs f → ((∀ k, (m, k) ∉ s.pend) → s.val m = f (s.vals m)) ∧ (s.vals m).length = srcs.length ∧
    ∀ k src, srcs[k]? = some src → (m, k) ∉ s.pend → (s.vals m)[k]? = some (s.val src)

structure Inv (net : Net ι V M) (s : St V M) : Prop where
  good : s.mixed = false → Good net s
  seen : ∀ v ∈ s.seen, Right net.kind v

/-- The stream of a place that is to be told. -/
def Waits (net : Net ι V M) (s : St V M) (n : ℕ) : Prop := ∃ p ∈ s.pend, (net.kind p.1).inputs[p.2]? = some n

structure Eff (net : Net ι V M) (s t : St V M) : Prop where
  inv : Inv net t
  pend : t.pend = s.pend
  mixed : t.mixed = false → s.mixed = false
  still : t.mixed = false → ∀ n, Waits net s n → t.val n = s.val n

/-- With the places that listen to `n` to be told. -/
def opened (net : Net ι V M) (n : ℕ) (s : St V M) : St V M := { s with pend := slots (net.lis n) ++ s.pend }

def Ok (net : Net ι V M) (ex : Exec V M) : Prop :=
  ∀ n w s t, Inv net (opened net n s) → (s.mixed = false → s.val n = w) → ex n w s = some t → Eff net s t

theorem Eff.refl (h : Inv net s) : Eff net s s := ⟨h, rfl, id, fun _ _ _ => rfl⟩

theorem Waits.congr {n : ℕ} (h : Waits net s n) (e : t.pend = s.pend) : Waits net t n := by
  obtain ⟨p, hp, hq⟩ := h
  exact ⟨p, e ▸ hp, hq⟩

theorem Eff.trans {r : St V M} (h1 : Eff net s t) (h2 : Eff net t r) : Eff net s r :=
  ⟨h2.inv, h2.pend.trans h1.pend, fun h => h1.mixed (h2.mixed h), fun h n hn =>
    (h2.still h n (hn.congr h1.pend)).trans (h1.still (h2.mixed h) n hn)⟩

theorem Good.right (h : Good net s) (hp : s.pend = []) : Right net.kind s.val := by
  refine ⟨fun m src f hm => h.map m src f hm (by simp [hp]), fun m srcs f hm => ?_⟩
  obtain ⟨h1, h2, h3⟩ := h.comb m srcs f hm
  rw [h1 (by simp [hp])]
  congr 1
  apply List.ext_getElem?
  intro k
  rw [List.getElem?_map]
  cases hk : srcs[k]? with
  | none =>
    rw [List.getElem?_eq_none_iff] at hk
    simp only [Option.map_none, List.getElem?_eq_none_iff]
    omega
  | some src => exact h3 k src hk (by simp [hp])

theorem setVal_mixed {n : ℕ} {w : V} (h : (setVal net n w s).mixed = false) :
    s.mixed = false ∧ (s.val n ≠ w → ¬ Waits net s n) := by
  simp only [setVal, Bool.or_eq_false_iff, Bool.and_eq_false_iff, decide_eq_false_iff_not] at h
  refine ⟨h.1, fun hne hw => ?_⟩
  rcases h.2 with h | h
  · exact h hne
  · obtain ⟨p, hp, hq⟩ := hw
    rw [List.any_eq_false] at h
    exact h p hp (by simp [hq])

/-- A stream takes a value and is about to fire. -/
theorem setVal_step (hw : net.Wf) (h : Ok net ex) (n : ℕ) (w : V) (s t : St V M)
    (hs : ∀ v ∈ s.seen, Right net.kind v)
    (hg : s.mixed = false →
      (∀ m src f, net.kind m = .map src f → m ≠ n → (m, 0) ∉ s.pend → s.val m = f (s.val src)) ∧
      (∀ m srcs f, net.kind m = .combine srcs f → (m ≠ n → (∀ k, (m, k) ∉ s.pend) → s.val m = f (s.vals m)) ∧ (s.vals m).length = srcs.length ∧
        ∀ k src, srcs[k]? = some src → (m, k) ∉ s.pend → (s.vals m)[k]? = some (s.val src)) ∧
      (∀ src f, net.kind n = .map src f → (n, 0) ∉ s.pend → w = f (s.val src)) ∧
      (∀ srcs f, net.kind n = .combine srcs f → w = f (s.vals n)))
    (he : ex n w (setVal net n w s) = some t) :
    Inv net t ∧ t.pend = s.pend ∧ (t.mixed = false → s.mixed = false ∧ ∀ n, Waits net s n → t.val n = s.val n) := by
  have e : Eff net (setVal net n w s) t := by
    refine h n w _ t ⟨fun hx => ?_, hs⟩ (fun _ => by simp [setVal]) he
    obtain ⟨hm, -⟩ := setVal_mixed (s := s) hx
    obtain ⟨g1, g2, g3, g4⟩ := hg hm
    refine ⟨fun m src f hk hp => ?_, fun m srcs f hk => ?_⟩
    · have hp' : (m, 0) ∉ slots (net.lis n) ∧ (m, 0) ∉ s.pend := by
        rw [← not_or]
        exact fun hh => hp (List.mem_append.2 hh)
      have hsn : src ≠ n := fun e => hp'.1 (by
        simp only [slots, List.mem_filterMap]
        refine ⟨.stream m 0, (hw.lis n m 0).2 ?_, rfl⟩
        rw [hk]
        simp [Kind.inputs, e])
      change Function.update s.val n w m = f (Function.update s.val n w src)
      rw [Function.update_of_ne hsn]
      by_cases e : m = n
      · subst e
        rw [Function.update_self]
        exact g3 src f hk hp'.2
      · rw [Function.update_of_ne e]
        exact g1 m src f hk e hp'.2
    · obtain ⟨k1, k2, k3⟩ := g2 m srcs f hk
      refine ⟨fun hall => ?_, k2, fun k src hsrc hp => ?_⟩
      · change Function.update s.val n w m = f (s.vals m)
        by_cases e : m = n
        · subst e
          rw [Function.update_self]
          exact g4 srcs f hk
        · rw [Function.update_of_ne e]
          exact k1 e fun k hk => hall k (List.mem_append_right _ hk)
      · have hp' : (m, k) ∉ slots (net.lis n) ∧ (m, k) ∉ s.pend := by
          rw [← not_or]
          exact fun hh => hp (List.mem_append.2 hh)
        have hsn : src ≠ n := fun e => hp'.1 (by
          simp only [slots, List.mem_filterMap]
          refine ⟨.stream m k, (hw.lis n m k).2 ?_, rfl⟩
          rw [hk, ← e]
          exact hsrc)
        change (s.vals m)[k]? = some (Function.update s.val n w src)
        rw [Function.update_of_ne hsn]
        exact k3 k src hsrc hp'.2
  refine ⟨e.inv, e.pend, fun hx => ?_⟩
  obtain ⟨hm, hne⟩ := setVal_mixed (e.mixed hx)
  refine ⟨hm, fun n' hn' => ?_⟩
  rw [e.still hx n' hn']
  change Function.update s.val n w n' = _
  by_cases e' : n' = n
  · subst e'
    rw [Function.update_self]
    by_contra hc
    exact hne (fun h => hc h.symm) hn'
  · rw [Function.update_of_ne e']

theorem assign_eff (hw : net.Wf) (h : Ok net ex) (n : ℕ) (v : V) (s t : St V M) (hi : Inv net s) (he : assign net ex n v s = some t) :
    Eff net s t := by
  unfold assign at he
  split at he
  swap
  · cases he
    exact .refl hi
  rename_i hk
  split at he
  · obtain ⟨a, b, c⟩ := setVal_step hw h n v s t hi.seen (fun hx => by
      have g := hi.good hx
      refine ⟨fun m src f hk' _ hp => g.map m src f hk' hp, fun m srcs f hk' => ?_, fun src f hk' => ?_, fun srcs f hk' => ?_⟩
      · obtain ⟨k1, k2, k3⟩ := g.comb m srcs f hk'
        exact ⟨fun _ => k1, k2, k3⟩
      · rw [hk] at hk'
        cases hk'
      · rw [hk] at hk'
        cases hk') he
    exact ⟨a, b, fun hx => (c hx).1, fun hx => (c hx).2⟩
  · cases he
    exact .refl hi

theorem assigns_eff (hw : net.Wf) (h : Ok net ex) (as : List (ℕ × V)) (s t : St V M) (hi : Inv net s) (he : assigns net ex as s = some t) :
    Eff net s t := by
  induction as generalizing s with
  | nil =>
    simp only [assigns, Option.some.injEq] at he
    exact he ▸ .refl hi
  | cons a as ih =>
    simp only [assigns, Option.bind_eq_some_iff] at he
    obtain ⟨t1, h1, h2⟩ := he
    have e := assign_eff hw h a.1 a.2 s t1 hi h1
    exact e.trans (ih t1 e.inv h2)

/-- The function of a stream is called. -/
theorem compute_step (hw : net.Wf) (h : Ok net ex) (m k : ℕ) (args : List V) (n : ℕ) (hin : (net.kind m).inputs[k]? = some n) (s t : St V M)
    (hi : Inv net { s with pend := (m, k) :: s.pend }) (he : compute net ex m k args s = some t) :
    Inv net { t with pend := (m, k) :: t.pend } ∧ t.pend = s.pend ∧
      (t.mixed = false → s.mixed = false ∧ t.val n = s.val n ∧ ∀ n, Waits net s n → t.val n = s.val n) := by
  simp only [compute, Option.map_eq_some_iff] at he
  obtain ⟨r, h1, rfl⟩ := he
  have hi' : Inv net { s with mem := (net.acts m args s).1, pend := (m, k) :: s.pend } :=
    ⟨fun hx => ⟨(hi.good hx).map, (hi.good hx).comb⟩, hi.seen⟩
  have e := assigns_eff hw h _ _ r hi' h1
  have hp : r.pend = (m, k) :: s.pend := e.pend
  refine ⟨?_, rfl, fun hx => ⟨e.mixed hx, e.still hx n ⟨(m, k), by simp, hin⟩, fun n' hn' => ?_⟩⟩
  · have := e.inv
    refine ⟨fun hx => ?_, this.seen⟩
    have g := this.good hx
    exact ⟨fun m' src f hk hq => g.map m' src f hk (by rw [hp]; exact hq), fun m' srcs f hk => by
      obtain ⟨a, b, c⟩ := g.comb m' srcs f hk
      exact ⟨fun hq => a (by rw [hp]; exact hq), b, fun k src h1 h2 => c k src h1 (by rw [hp]; exact h2)⟩⟩
  · obtain ⟨p, hp1, hp2⟩ := hn'
    exact e.still hx n' ⟨p, List.mem_cons_of_mem _ hp1, hp2⟩

theorem receive_step (hw : net.Wf) (h : Ok net ex) (m k : ℕ) (w : V) (n : ℕ) (hin : (net.kind m).inputs[k]? = some n) (s t : St V M)
    (hi : Inv net { s with pend := (m, k) :: s.pend }) (hv : s.mixed = false → s.val n = w) (he : receive net ex m k w s = some t) :
    Inv net t ∧ t.pend = s.pend ∧ (t.mixed = false → s.mixed = false ∧ ∀ n, Waits net s n → t.val n = s.val n) := by
  unfold receive at he
  split at he
  · rename_i src f hk
    have hk0 : k = 0 ∧ src = n := by
      rw [hk] at hin
      simp only [Kind.inputs] at hin
      cases k with
      | zero => exact ⟨rfl, by simpa using hin⟩
      | succ k => simp at hin
    obtain ⟨rfl, rfl⟩ := hk0
    have hlt : src < m := hw.lt m src (by rw [hk]; simp [Kind.inputs])
    rw [Option.bind_eq_some_iff] at he
    obtain ⟨r, hc, he⟩ := he
    obtain ⟨ci, cp, cv⟩ := compute_step hw h m 0 [w] src hin s r hi hc
    have fin : ∀ t : St V M, (Inv net t ∧ t.pend = r.pend ∧ (t.mixed = false → r.mixed = false ∧ ∀ n, Waits net r n → t.val n = r.val n)) →
        Inv net t ∧ t.pend = s.pend ∧ (t.mixed = false → s.mixed = false ∧ ∀ n, Waits net s n → t.val n = s.val n) := by
      rintro t ⟨a, b, c⟩
      refine ⟨a, b.trans cp, fun hx => ⟨(cv (c hx).1).1, fun n' hn' => ?_⟩⟩
      rw [(c hx).2 n' (hn'.congr cp)]
      exact (cv (c hx).1).2.2 n' hn'
    apply fin
    have hv : r.mixed = false → r.val src = w := fun hx => (cv hx).2.1.trans (hv (cv hx).1)
    replace hi := ci
    clear ci cp cv fin hc
    revert he hi hv
    generalize r = s
    intro he hv hi
    split at he
    · refine setVal_step hw h m (f w) s t hi.seen (fun hx => ?_) he
      have g := hi.good hx
      refine ⟨fun m' src' f' hk' hne hp => g.map m' src' f' hk' ?_, fun m' srcs' f' hk' => ?_, fun src' f' hk' _ => ?_, fun srcs' f' hk' => ?_⟩
      · simp only [List.mem_cons, Prod.mk.injEq, not_or]
        exact ⟨fun e => hne e.1, hp⟩
      · obtain ⟨k1, k2, k3⟩ := g.comb m' srcs' f' hk'
        have hm' : m' ≠ m := fun e => by
          rw [e, hk] at hk'
          cases hk'
        refine ⟨fun _ hq => k1 fun k' => ?_, k2, fun k' src' hs' hp => k3 k' src' hs' ?_⟩ <;>
          simp only [List.mem_cons, Prod.mk.injEq, not_or]
        · exact ⟨fun e => hm' e.1, hq k'⟩
        · exact ⟨fun e => hm' e.1, hp⟩
      · rw [hk] at hk'
        cases hk'
        rw [hv hx]
      · rw [hk] at hk'
        cases hk'
    · rename_i heq
      cases he
      simp only [ne_eq, not_not] at heq
      refine ⟨⟨fun hx => ?_, hi.seen⟩, rfl, fun hx => ⟨hx, fun _ _ => rfl⟩⟩
      have g := hi.good hx
      refine ⟨fun m' src' f' hk' hp => ?_, fun m' srcs' f' hk' => ?_⟩
      · by_cases e : m' = m
        · subst e
          rw [hk] at hk'
          cases hk'
          rw [hv hx, heq]
        · refine g.map m' src' f' hk' ?_
          simp only [List.mem_cons, Prod.mk.injEq, not_or]
          exact ⟨fun e' => e e'.1, hp⟩
      · obtain ⟨k1, k2, k3⟩ := g.comb m' srcs' f' hk'
        have hm' : m' ≠ m := fun e => by
          rw [e, hk] at hk'
          cases hk'
        refine ⟨fun hq => k1 fun k' => ?_, k2, fun k' src' hs' hp => k3 k' src' hs' ?_⟩ <;>
          simp only [List.mem_cons, Prod.mk.injEq, not_or]
        · exact ⟨fun e => hm' e.1, hq k'⟩
        · exact ⟨fun e => hm' e.1, hp⟩
  · rename_i srcs f hk
    have hin' : srcs[k]? = some n := by
      rw [hk] at hin
      exact hin
    have hmem : n ∈ srcs := List.mem_of_getElem? hin'
    have hlt : n < m := hw.lt m n (by rw [hk]; exact hmem)
    have hkl : k < srcs.length := (List.getElem?_eq_some_iff.1 hin').1
    rw [Option.bind_eq_some_iff] at he
    obtain ⟨r, hc, he⟩ := he
    have hi1 : Inv net { { s with vals := Function.update s.vals m ((s.vals m).set k w) } with pend := (m, k) :: s.pend } := by
      refine ⟨fun hx => ?_, hi.seen⟩
      have g := hi.good hx
      refine ⟨g.map, fun m' srcs' f' hk' => ?_⟩
      obtain ⟨k1, k2, k3⟩ := g.comb m' srcs' f' hk'
      by_cases e : m' = m
      · subst e
        simp only [Function.update_self, List.length_set]
        refine ⟨fun hq => absurd (List.mem_cons_self ..) (hq k), k2, fun k' src' hs' hp => ?_⟩
        have hne : k' ≠ k := fun e => hp (by simp [e])
        rw [List.getElem?_set_ne (fun e'' => hne e''.symm)]
        exact k3 k' src' hs' hp
      · simp only [Function.update_of_ne e]
        exact ⟨k1, k2, k3⟩
    obtain ⟨ci, cp, cv⟩ := compute_step hw h m k _ n hin _ r hi1 hc
    have hlen : s.mixed = false → ((s.vals m).set k w).length = srcs.length := fun hx => by
      obtain ⟨-, k2, -⟩ := (hi.good hx).comb m srcs f hk
      rw [List.length_set]
      exact k2
    obtain ⟨a, b, c⟩ := setVal_step hw h m (f ((s.vals m).set k w)) { r with mixed := r.mixed || decide (r.vals m ≠ (s.vals m).set k w) } t
      ci.seen (fun hx => by
        simp only [Bool.or_eq_false_iff, decide_eq_false_iff_not, not_not] at hx
        obtain ⟨hx1, hx2⟩ := hx
        have g := ci.good hx1
        refine ⟨fun m' src' f' hk' hne hp => g.map m' src' f' hk' ?_, fun m' srcs' f' hk' => ?_, fun src' f' hk' _ => ?_, fun srcs' f' hk' => ?_⟩
        · simp only [List.mem_cons, Prod.mk.injEq, not_or]
          exact ⟨fun e => hne e.1, hp⟩
        · obtain ⟨k1, k2, k3⟩ := g.comb m' srcs' f' hk'
          refine ⟨fun hne hq => k1 fun k' => ?_, k2, fun k' src' hs' hp => ?_⟩
          · simp only [List.mem_cons, Prod.mk.injEq, not_or]
            exact ⟨fun e => hne e.1, hq k'⟩
          · by_cases e : m' = m ∧ k' = k
            · obtain ⟨rfl, rfl⟩ := e
              rw [hk] at hk'
              cases hk'
              rw [hin'] at hs'
              cases hs'
              have h1 : r.val n = w := (cv hx1).2.1.trans (hv (cv hx1).1)
              have h2 := hlen (cv hx1).1
              rw [List.length_set] at h2
              change (r.vals m')[k']? = some (r.val n)
              rw [hx2, List.getElem?_set_self (by omega), h1]
            · refine k3 k' src' hs' ?_
              simp only [List.mem_cons, Prod.mk.injEq, not_or]
              exact ⟨e, hp⟩
        · rw [hk] at hk'
          cases hk'
        · rw [hk] at hk'
          cases hk'
          rw [← hx2]) he
    refine ⟨a, b.trans cp, fun hx => ?_⟩
    obtain ⟨d1, d2⟩ := c hx
    simp only [Bool.or_eq_false_iff] at d1
    refine ⟨(cv d1.1).1, fun n' hn' => ?_⟩
    have hn2 : Waits net r n' := hn'.congr cp
    rw [d2 n' hn2]
    exact (cv d1.1).2.2 n' hn'
  · rename_i h1 h2
    cases hk : net.kind m with
    | map src f => exact absurd hk (h1 src f)
    | combine srcs f => exact absurd hk (h2 srcs f)
    | value =>
      rw [hk] at hin
      simp [Kind.inputs] at hin
    | const =>
      rw [hk] at hin
      simp [Kind.inputs] at hin

theorem look_eff (m : M) (hi : Inv net s) : Eff net s (look m s) := by
  refine ⟨⟨fun hm => ?_, fun v hv => ?_⟩, rfl, id, fun _ _ _ => rfl⟩
  · have g := hi.good hm
    exact ⟨g.map, g.comb⟩
  · simp only [look] at hv
    split at hv
    · exact hi.seen v hv
    · rename_i hb
      simp only [not_or, ne_eq, not_not, Bool.not_eq_true] at hb
      rcases List.mem_append.1 hv with hv | hv
      · exact hi.seen v hv
      · rw [List.mem_singleton.1 hv]
        exact (hi.good hb.2).right hb.1

theorem fireL_step (hw : net.Wf) (h : Ok net ex) (n : ℕ) (w : V) (pend : List (ℕ × ℕ)) (xs : List (Lis ι))
    (hx : ∀ m k, Lis.stream m k ∈ xs → (net.kind m).inputs[k]? = some n) (s t : St V M) (hp : s.pend = slots xs ++ pend)
    (hi : Inv net s) (hv : s.mixed = false → slots xs ≠ [] → s.val n = w) (he : fireL net ex n w pend xs s = some t) :
    Inv net t ∧ t.pend = pend ∧ (t.mixed = false → s.mixed = false ∧
      ∀ n, (∃ p ∈ pend, (net.kind p.1).inputs[p.2]? = some n) → t.val n = s.val n) := by
  induction xs generalizing s with
  | nil =>
    simp only [fireL, Option.some.injEq] at he
    subst he
    have hp' : s.pend = pend := by simpa [slots] using hp
    refine ⟨⟨fun hm => ?_, hi.seen⟩, rfl, fun hm => ⟨hm, fun _ _ => rfl⟩⟩
    have g := hi.good hm
    exact ⟨fun m src f hk hq => g.map m src f hk (by rw [hp']; exact hq), fun m srcs f hk => by
      obtain ⟨a, b, c⟩ := g.comb m srcs f hk
      exact ⟨fun hq => a (by rw [hp']; exact hq), b, fun k src h1 h2 => c k src h1 (by rw [hp']; exact h2)⟩⟩
  | cons x xs ih =>
    have hx' : ∀ m k, Lis.stream m k ∈ xs → (net.kind m).inputs[k]? = some n := fun m k hm => hx m k (List.mem_cons_of_mem _ hm)
    have wait : slots xs ≠ [] → ∀ r : St V M, r.pend = slots xs ++ pend → Waits net r n := by
      intro hne r hr
      obtain ⟨p, hp⟩ := List.exists_mem_of_ne_nil _ hne
      refine ⟨p, by rw [hr]; exact List.mem_append_left _ hp, ?_⟩
      simp only [slots, List.mem_filterMap] at hp
      obtain ⟨y, hy, hq⟩ := hp
      cases y with
      | stream m k =>
        simp only [Option.some.injEq] at hq
        subst hq
        exact hx' m k hy
      | user i => cases hq
    cases x with
    | stream m k =>
      simp only [fireL, Option.bind_eq_some_iff] at he
      obtain ⟨t1, h1, h2⟩ := he
      have hsl : slots (Lis.stream m k :: xs) = (m, k) :: slots xs := rfl
      obtain ⟨a, b, c⟩ := receive_step hw h m k w n (hx m k (by simp)) { s with pend := slots xs ++ pend } t1 (by
        refine ⟨fun hm => ?_, hi.seen⟩
        have g := hi.good hm
        have e : s.pend = (m, k) :: (slots xs ++ pend) := by rw [hp, hsl]; rfl
        exact ⟨fun m src f hk hq => g.map m src f hk (by rw [e]; exact hq), fun m srcs f hk => by
          obtain ⟨a, b, c⟩ := g.comb m srcs f hk
          exact ⟨fun hq => a (by rw [e]; exact hq), b, fun k src h1 h2 => c k src h1 (by rw [e]; exact h2)⟩⟩) (fun hm => hv hm (by rw [hsl]; simp)) h1
      obtain ⟨a', b', c'⟩ := ih hx' t1 b a (fun hm hne => by
        obtain ⟨d1, d2⟩ := c hm
        rw [d2 n (wait hne _ rfl)]
        exact hv d1 (by rw [hsl]; simp)) h2
      refine ⟨a', b', fun hm => ?_⟩
      obtain ⟨d1, d2⟩ := c' hm
      obtain ⟨f1, f2⟩ := c d1
      refine ⟨f1, fun n' hn' => ?_⟩
      rw [d2 n' hn']
      obtain ⟨p, hp1, hp2⟩ := hn'
      exact f2 n' ⟨p, List.mem_append_right _ hp1, hp2⟩
    | user i =>
      simp only [fireL, Option.bind_eq_some_iff] at he
      obtain ⟨t1, h1, h2⟩ := he
      have hsl : slots (Lis.user i :: xs) = slots xs := rfl
      have i1 : Inv net { s with pend := slots xs ++ pend } := by
        refine ⟨fun hm => ?_, hi.seen⟩
        have g := hi.good hm
        have e : s.pend = slots xs ++ pend := by rw [hp, hsl]
        exact ⟨fun m src f hk hq => g.map m src f hk (by rw [e]; exact hq), fun m srcs f hk => by
          obtain ⟨a, b, c⟩ := g.comb m srcs f hk
          exact ⟨fun hq => a (by rw [e]; exact hq), b, fun k src h1 h2 => c k src h1 (by rw [e]; exact h2)⟩⟩
      have e0 := look_eff (net.react i n w s).mem i1
      have e1 := e0.trans (assigns_eff hw h _ _ t1 e0.inv h1)
      have b : t1.pend = slots xs ++ pend := e1.pend
      have fin : ∀ n', (∃ p ∈ pend, (net.kind p.1).inputs[p.2]? = some n') → t1.mixed = false → t1.val n' = s.val n' := by
        rintro n' ⟨p, hp1, hp2⟩ hm
        exact e1.still hm n' ⟨p, List.mem_append_right _ hp1, hp2⟩
      split at h2
      · cases h2
        refine ⟨⟨fun hm => ?_, e1.inv.seen⟩, rfl, fun hm => ?_⟩
        · simp only [Bool.or_eq_false_iff, Bool.not_eq_false', List.isEmpty_iff] at hm
          have g := e1.inv.good hm.1
          have e : t1.pend = pend := by rw [b, hm.2]; rfl
          exact ⟨fun m src f hk hq => g.map m src f hk (by rw [e]; exact hq), fun m srcs f hk => by
            obtain ⟨a, b, c⟩ := g.comb m srcs f hk
            exact ⟨fun hq => a (by rw [e]; exact hq), b, fun k src h1 h2 => c k src h1 (by rw [e]; exact h2)⟩⟩
        · simp only [Bool.or_eq_false_iff] at hm
          exact ⟨e1.mixed hm.1, fun n' hn' => fin n' hn' hm.1⟩
      · obtain ⟨a', b', c'⟩ := ih hx' t1 b e1.inv (fun hm hne => by
          rw [e1.still hm n (wait hne _ rfl)]
          exact hv (e1.mixed hm) (by rw [hsl]; exact hne)) h2
        refine ⟨a', b', fun hm => ?_⟩
        obtain ⟨d1, d2⟩ := c' hm
        exact ⟨e1.mixed d1, fun n' hn' => (d2 n' hn').trans (fin n' hn' d1)⟩

theorem fire_ok (hw : net.Wf) (h : Ok net ex) : Ok net (fire net ex) := by
  intro n w s t hi hv he
  obtain ⟨a, b, c⟩ := fireL_step hw h n w s.pend (net.lis n) (fun m k hm => (hw.lis n m k).1 hm) (opened net n s) t rfl hi
    (fun hm _ => hv hm) he
  exact ⟨a, b, fun hm => (c hm).1, fun hm => (c hm).2⟩

theorem exec_ok (hw : net.Wf) : ∀ n, Ok net (exec net n)
  | 0 => fun _ _ _ _ _ _ he => by simp [exec] at he
  | n + 1 => fire_ok hw (exec_ok hw n)

theorem start_inv (val : ℕ → V) (hv : Right net.kind val) (m : M) : Inv net (start net val m) := by
  refine ⟨fun _ => ⟨fun m src f hk _ => hv.1 m src f hk, fun m srcs f hk => ?_⟩, fun v hv => by simp [start] at hv⟩
  simp only [start, hk, Kind.inputs, List.length_map, true_and, List.getElem?_map]
  exact ⟨fun _ => hv.2 m srcs f hk, fun k src h _ => by simp [h]⟩

/-- C198 (partial: no stream took another value while a stream that listens to it was still to be told of the value before or was computing
its function, no stream was told while it was computing its function, and no listener raised while streams were to be told): whatever
functions and listeners assign, every stream has the function of the values of its inputs when the assignments have returned, and whenever a
listener was told while no stream was still to be told. -/
theorem C198_functions_partial (net : Net ι V M) (hw : net.Wf) (val : ℕ → V) (hv : Right net.kind val) (m : M) (n : ℕ) (as : List (ℕ × V))
    (s : St V M) (h : assigns net (exec net n) as (start net val m) = some s) :
    (s.mixed = false → Right net.kind s.val) ∧ ∀ v ∈ s.seen, Right net.kind v := by
  have e := assigns_eff hw (exec_ok hw n) as _ s (start_inv val hv m) h
  exact ⟨fun hm => (e.inv.good hm).right e.pend, e.inv.seen⟩

/-! #### Streams with ranks -/

/-- Streams have ranks above those of their inputs; functions assign only value streams whose ranks are not below that of their stream, and
listeners only those with ranks above that of the stream they listen to; listeners do not raise. -/
structure Net.Ranked (net : Net ι V M) (r : ℕ → ℕ) : Prop where
  inputs : ∀ m, ∀ n ∈ (net.kind m).inputs, r n < r m
  acts : ∀ m args s, ∀ a ∈ (net.acts m args s).2, r m ≤ r a.1
  users : ∀ i n w s, (net.react i n w s).raises = false ∧ ∀ a ∈ (net.react i n w s).assigns, r n < r a.1

/-- Places that are to be told listen to streams of ranks below `b`. -/
def Below (net : Net ι V M) (r : ℕ → ℕ) (b : ℕ) (s : St V M) : Prop := ∀ p ∈ s.pend, ∀ n, (net.kind p.1).inputs[p.2]? = some n → r n < b

/-- Streams all of whose inputs have ranks below `b` are not told. -/
structure Calm (net : Net ι V M) (r : ℕ → ℕ) (b : ℕ) (s t : St V M) : Prop where
  mixed : t.mixed = false
  pend : t.pend = s.pend
  vals : ∀ m, (∀ n ∈ (net.kind m).inputs, r n < b) → t.vals m = s.vals m

theorem Calm.trans {r : ℕ → ℕ} {b : ℕ} {q : St V M} (h1 : Calm net r b s t) (h2 : Calm net r b t q) : Calm net r b s q :=
  ⟨h2.mixed, h2.pend.trans h1.pend, fun m hm => (h2.vals m hm).trans (h1.vals m hm)⟩

theorem Calm.mono {r : ℕ → ℕ} {b c : ℕ} (h : Calm net r c s t) (hb : b ≤ c) : Calm net r b s t :=
  ⟨h.mixed, h.pend, fun m hm => h.vals m fun n hn => Nat.lt_of_lt_of_le (hm n hn) hb⟩

theorem Below.mono {r : ℕ → ℕ} {b c : ℕ} (h : Below net r b s) (hb : b ≤ c) : Below net r c s :=
  fun p hp n hn => Nat.lt_of_lt_of_le (h p hp n hn) hb

theorem Below.congr {r : ℕ → ℕ} {b : ℕ} (h : Below net r b s) (e : t.pend = s.pend) : Below net r b t := fun p hp => h p (e ▸ hp)

def CalmEx (net : Net ι V M) (r : ℕ → ℕ) (ex : Exec V M) : Prop :=
  ∀ n w s t, s.mixed = false → Below net r (r n) s → ex n w s = some t → Calm net r (r n) s t

variable {r : ℕ → ℕ}

theorem setVal_calm (n : ℕ) (w : V) (hm : s.mixed = false) (hb : Below net r (r n) s) : (setVal net n w s).mixed = false := by
  simp only [setVal, hm, Bool.false_or, Bool.and_eq_false_iff]
  right
  rw [List.any_eq_false]
  intro p hp hq
  exact absurd (hb p hp n (by simpa using hq)) (Nat.lt_irrefl _)

theorem take_calm (h : CalmEx net r ex) (n : ℕ) (w : V) (s t : St V M) (hm : s.mixed = false) (hb : Below net r (r n) s)
    (he : ex n w (setVal net n w s) = some t) : Calm net r (r n) s t := by
  have c := h n w _ t (setVal_calm n w hm hb) hb he
  exact ⟨c.mixed, c.pend, c.vals⟩

theorem assigns_calm (h : CalmEx net r ex) (b : ℕ) (as : List (ℕ × V)) (ha : ∀ a ∈ as, b ≤ r a.1) (s t : St V M) (hm : s.mixed = false)
    (hb : Below net r b s) (he : assigns net ex as s = some t) : Calm net r b s t := by
  induction as generalizing s with
  | nil =>
    simp only [assigns, Option.some.injEq] at he
    subst he
    exact ⟨hm, rfl, fun _ _ => rfl⟩
  | cons a as ih =>
    simp only [assigns, Option.bind_eq_some_iff] at he
    obtain ⟨t1, h1, h2⟩ := he
    have c : Calm net r b s t1 := by
      unfold assign at h1
      split at h1
      · split at h1
        · exact (take_calm h a.1 a.2 s t1 hm (hb.mono (ha a (by simp))) h1).mono (ha a (by simp))
        · cases h1
          exact ⟨hm, rfl, fun _ _ => rfl⟩
      · cases h1
        exact ⟨hm, rfl, fun _ _ => rfl⟩
    exact c.trans (ih (fun x hx => ha x (by simp [hx])) t1 c.mixed (hb.congr c.pend) h2)

theorem compute_calm (hr : net.Ranked r) (h : CalmEx net r ex) (m k : ℕ) (args : List V) (s t : St V M) (hm : s.mixed = false)
    (hb : Below net r (r m) s) (he : compute net ex m k args s = some t) : Calm net r (r m) s t := by
  simp only [compute, Option.map_eq_some_iff] at he
  obtain ⟨q, h1, rfl⟩ := he
  have hb' : Below net r (r m) { s with mem := (net.acts m args s).1, pend := (m, k) :: s.pend } := by
    intro p hp n hn
    rcases List.mem_cons.1 hp with rfl | hp
    · exact hr.inputs m n (List.mem_of_getElem? hn)
    · exact hb p hp n hn
  have c := assigns_calm h (r m) _ (hr.acts m args s) { s with mem := (net.acts m args s).1, pend := (m, k) :: s.pend } q hm hb' h1
  exact ⟨c.mixed, rfl, c.vals⟩

theorem receive_calm (hr : net.Ranked r) (h : CalmEx net r ex) (m k n : ℕ) (w : V) (hin : (net.kind m).inputs[k]? = some n) (s t : St V M)
    (hm : s.mixed = false) (hb : Below net r (r m) s) (he : receive net ex m k w s = some t) : Calm net r (r n) s t := by
  have hn : n ∈ (net.kind m).inputs := List.mem_of_getElem? hin
  have hlt := hr.inputs m n hn
  unfold receive at he
  split at he
  · rw [Option.bind_eq_some_iff] at he
    obtain ⟨q, h1, h2⟩ := he
    have c := compute_calm hr h m k [w] s q hm hb h1
    refine Calm.mono ?_ (Nat.le_of_lt hlt)
    split at h2
    · exact c.trans (take_calm h m _ q t c.mixed (hb.congr c.pend) h2)
    · cases h2
      exact c
  · rw [Option.bind_eq_some_iff] at he
    obtain ⟨q, h1, h2⟩ := he
    have c := compute_calm hr h m k _ { s with vals := Function.update s.vals m ((s.vals m).set k w) } q hm hb h1
    have hq : q.vals m = (s.vals m).set k w := by
      rw [c.vals m (hr.inputs m)]
      simp
    have hmix : (q.mixed || decide (q.vals m ≠ (s.vals m).set k w)) = false := by simp [c.mixed, hq]
    have c2 := take_calm h m _ { q with mixed := q.mixed || decide (q.vals m ≠ (s.vals m).set k w) } t hmix (hb.congr c.pend) h2
    refine ⟨c2.mixed, c2.pend.trans c.pend, fun m' hm' => ?_⟩
    have hall : ∀ n' ∈ (net.kind m').inputs, r n' < r m := fun n' hn' => Nat.lt_trans (hm' n' hn') hlt
    have hne : m' ≠ m := fun e => by
      subst e
      exact absurd (hm' n hn) (Nat.lt_irrefl _)
    rw [c2.vals m' hall]
    change q.vals m' = _
    rw [c.vals m' hall]
    change Function.update s.vals m _ m' = _
    rw [Function.update_of_ne hne]
  · cases he
    exact ⟨hm, rfl, fun _ _ => rfl⟩

theorem fireL_calm (hr : net.Ranked r) (h : CalmEx net r ex) (n : ℕ) (w : V) (pend : List (ℕ × ℕ))
    (hp : ∀ p ∈ pend, ∀ n', (net.kind p.1).inputs[p.2]? = some n' → r n' < r n) (xs : List (Lis ι))
    (hx : ∀ m k, Lis.stream m k ∈ xs → (net.kind m).inputs[k]? = some n) (s t : St V M) (hm : s.mixed = false)
    (he : fireL net ex n w pend xs s = some t) :
    t.mixed = false ∧ t.pend = pend ∧ ∀ m, (∀ n' ∈ (net.kind m).inputs, r n' < r n) → t.vals m = s.vals m := by
  induction xs generalizing s with
  | nil =>
    simp only [fireL, Option.some.injEq] at he
    subst he
    exact ⟨hm, rfl, fun _ _ => rfl⟩
  | cons x xs ih =>
    have hx' : ∀ m k, Lis.stream m k ∈ xs → (net.kind m).inputs[k]? = some n := fun m k hm => hx m k (List.mem_cons_of_mem _ hm)
    have below : Below net r (r n + 1) { s with pend := slots xs ++ pend } := by
      intro p hq n' hn'
      rcases List.mem_append.1 hq with hq | hq
      · simp only [slots, List.mem_filterMap] at hq
        obtain ⟨y, hy, hz⟩ := hq
        cases y with
        | stream m k =>
          simp only [Option.some.injEq] at hz
          subst hz
          have := hx' m k hy
          rw [this] at hn'
          cases hn'
          exact Nat.lt_succ_self _
        | user i => cases hz
      · exact Nat.lt_succ_of_lt (hp p hq n' hn')
    cases x with
    | stream m k =>
      simp only [fireL, Option.bind_eq_some_iff] at he
      obtain ⟨t1, h1, h2⟩ := he
      have hin := hx m k (by simp)
      have c := receive_calm hr h m k n w hin { s with pend := slots xs ++ pend } t1 hm
        (below.mono (hr.inputs m n (List.mem_of_getElem? hin))) h1
      obtain ⟨d1, d2, d3⟩ := ih hx' t1 c.mixed h2
      exact ⟨d1, d2, fun m' hm' => (d3 m' hm').trans (c.vals m' hm')⟩
    | user i =>
      simp only [fireL, Option.bind_eq_some_iff, (hr.users i n w s).1, Bool.false_eq_true, if_false] at he
      obtain ⟨t1, h1, h2⟩ := he
      have c := assigns_calm h (r n + 1) _ (hr.users i n w s).2 (look (net.react i n w s).mem { s with pend := slots xs ++ pend }) t1 hm below h1
      obtain ⟨d1, d2, d3⟩ := ih hx' t1 c.mixed h2
      exact ⟨d1, d2, fun m' hm' => (d3 m' hm').trans (c.vals m' fun n' hn' => Nat.lt_succ_of_lt (hm' n' hn'))⟩

theorem exec_calm (hw : net.Wf) (hr : net.Ranked r) : ∀ k, CalmEx net r (exec net k)
  | 0 => fun _ _ _ _ _ _ he => by simp [exec] at he
  | k + 1 => by
    intro n w s t hm hb he
    obtain ⟨h1, h2, h3⟩ := fireL_calm hr (exec_calm hw hr k) n w s.pend hb (net.lis n) (fun m k hm => (hw.lis n m k).1 hm)
      { s with pend := slots (net.lis n) ++ s.pend } t hm he
    exact ⟨h1, h2, h3⟩

/-- C198: every stream has the function of the values of its inputs, if streams have ranks, above those of their inputs, such that functions
assign only value streams whose ranks are not below that of their own stream and listeners, which do not raise, only value streams whose
ranks are above that of the stream they listen to. -/
theorem C198_ranked (net : Net ι V M) (hw : net.Wf) (r : ℕ → ℕ) (hr : net.Ranked r) (val : ℕ → V) (hv : Right net.kind val) (m : M)
    (n : ℕ) (as : List (ℕ × V)) (s : St V M) (h : assigns net (exec net n) as (start net val m) = some s) : Right net.kind s.val :=
  (C198_functions_partial net hw val hv m n as s h).1
    (assigns_calm (exec_calm hw hr n) 0 as (fun _ _ => Nat.zero_le _) _ s rfl (fun p hp => by simp [start] at hp) h).mixed

/-! ### Examples -/

/-- 0 and 1 are value streams, 2 is twice 0, 3 the sum of 0 and 1, 4 a value stream, 5 is 4 plus 1. -/
def exKind : ℕ → Kind ℕ
  | 0 => .value
  | 1 => .value
  | 2 => .map 0 (2 * ·)
  | 3 => .combine [0, 1] List.sum
  | 4 => .value
  | 5 => .map 4 (· + 1)
  | _ => .const

def exLis : ℕ → List (Lis ℕ)
  | 0 => [.stream 2 0, .stream 3 0]
  | 1 => [.stream 3 1]
  | 4 => [.stream 5 0]
  | _ => []

def exNet (acts : ℕ → List ℕ → List (ℕ × ℕ)) : Net ℕ ℕ Unit :=
  ⟨exKind, exLis, fun _ _ _ _ => ⟨(), [], false⟩, fun m args _ => ((), acts m args)⟩

theorem exWf (acts : ℕ → List ℕ → List (ℕ × ℕ)) : (exNet acts).Wf where
  lis := fun n m k => by
    have key : ∀ n < 6, ∀ m < 6, ∀ k < 3, (Lis.stream m k ∈ exLis n ↔ (exKind m).inputs[k]? = some n) := by decide
    by_cases hm : m < 6
    · have hlen : (exKind m).inputs.length ≤ 2 := by
        revert m
        decide
      by_cases hk : k < 3
      · by_cases hn : n < 6
        · exact key n hn m hm k hk
        · have h1 : exLis n = [] := by
            match n, hn with
            | n + 6, _ => rfl
          have h2 : ∀ m < 6, ∀ x ∈ (exKind m).inputs, x < 6 := by decide
          refine iff_of_false (by simp [exNet, h1]) fun h => hn (h2 m hm n (List.mem_of_getElem? h))
      · have h2 : ∀ n, Lis.stream m k ∉ exLis n := by
          intro n h
          match n with
          | 0 | 1 | 4 => simp [exLis] at h; omega
          | 2 | 3 | 5 | n + 6 => simp [exLis] at h
        refine iff_of_false (h2 n) fun h => ?_
        have := (List.getElem?_eq_some_iff.1 h).1
        change k < (exKind m).inputs.length at this
        omega
    · have h1 : exKind m = .const := by
        match m, hm with
        | m + 6, _ => rfl
      have h2 : Lis.stream m k ∉ exLis n := by
        intro h
        match n with
        | 0 | 1 | 4 => simp [exLis] at h; omega
        | 2 | 3 | 5 | n + 6 => simp [exLis] at h
      exact iff_of_false h2 (by simp [exNet, h1, Kind.inputs])
  lt := fun m n hn => by
    match m with
    | 0 | 1 | 4 => simp [exNet, exKind, Kind.inputs] at hn
    | 2 | 3 | 5 => simp [exNet, exKind, Kind.inputs] at hn; omega
    | m + 6 => simp [exNet, exKind, Kind.inputs] at hn

theorem exStart (acts : ℕ → List ℕ → List (ℕ × ℕ)) : Right (exNet acts).kind fun n => if n = 5 then 1 else 0 := by
  refine ⟨fun m src f hm => ?_, fun m srcs f hm => ?_⟩
  · match m with
    | 0 | 1 | 3 | 4 => simp [exNet, exKind] at hm
    | 2 | 5 =>
      simp only [exNet, exKind, Kind.map.injEq] at hm
      obtain ⟨rfl, rfl⟩ := hm
      rfl
    | m + 6 => simp [exNet, exKind] at hm
  · match m with
    | 0 | 1 | 2 | 4 | 5 => simp [exNet, exKind] at hm
    | 3 =>
      simp only [exNet, exKind, Kind.combine.injEq] at hm
      obtain ⟨rfl, rfl⟩ := hm
      rfl
    | m + 6 => simp [exNet, exKind] at hm

def exRun (acts : ℕ → List ℕ → List (ℕ × ℕ)) (as : List (ℕ × ℕ)) : Option (List ℕ × Bool) :=
  (assigns (exNet acts) (exec (exNet acts) 7) as (start (exNet acts) (fun n => if n = 5 then 1 else 0) ())).map fun s =>
    ((List.range 6).map s.val, s.mixed)

/-- The functions of 2 and 3 put the sum of their arguments into 4. -/
def exActs : ℕ → List ℕ → List (ℕ × ℕ)
  | 2, l => [(4, l.sum)]
  | 3, l => [(4, l.sum)]
  | _, _ => []

theorem exRanked : (exNet exActs).Ranked id where
  inputs := (exWf exActs).lt
  acts := fun m args s a ha => by
    match m with
    | 2 | 3 =>
      simp only [exNet, exActs, List.mem_singleton] at ha
      subst ha
      simp
    | 0 | 1 | 4 | 5 | m + 6 => simp [exNet, exActs] at ha
  users := fun _ _ _ _ => ⟨rfl, by simp [exNet]⟩

/-- The theorem for functions that assign a stream made later. -/
example : ∃ s, assigns (exNet exActs) (exec (exNet exActs) 7) [(0, 7), (1, 2)] (start (exNet exActs) (fun n => if n = 5 then 1 else 0) ()) = some s ∧
    (List.range 6).map s.val = [7, 2, 14, 9, 9, 10] ∧ Right (exNet exActs).kind s.val := by
  have h : exRun exActs [(0, 7), (1, 2)] = some ([7, 2, 14, 9, 9, 10], false) := by decide +kernel
  obtain ⟨s, h1, h2⟩ := Option.map_eq_some_iff.1 h
  exact ⟨s, h1, (Prod.mk.inj h2).1, C198_ranked _ (exWf _) id exRanked _ (exStart _) () 7 _ s h1⟩

/-- C198: the function of 2 puts 5 into 0 if 0 is 7: 2 is left with twice the value that 0 had before, and so is 3. -/
theorem C198_counterexample_map :
    exRun (fun | 2, [7] => [(0, 5)] | _, _ => []) [(0, 7)] = some ([5, 0, 14, 7, 0, 1], true) := by decide +kernel

/-- C198: the function of the sum 3 of 0 and 1 puts 5 into 1 if 0 is 7 and 1 is not 5: the sum is left with the value 1 had before. -/
theorem C198_counterexample_combine :
    exRun (fun | 3, [7, 0] => [(1, 5)] | _, _ => []) [(0, 7)] = some ([7, 5, 14, 7, 0, 1], true) := by decide +kernel

end Verif.Stream.FnReentrant
