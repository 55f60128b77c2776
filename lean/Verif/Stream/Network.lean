import Mathlib.Logic.Function.Basic
import Mathlib.Data.List.Nodup
import Mathlib.Data.List.Range

/-!
Model of networks of `ValueStream`, `ConstantStream`, `MapStream` and `CombineLatestStream` (`nion/utils/Stream.py`, lines
24-139 and 240-255) with the reference counting of `nion/utils/ReferenceCounting.py`.

Streams are numbered in the order of their creation; a derived stream can only use streams that exist. A value is an
`Option α` (`none` is Python's `None`); `!=` is the negation of equality. Functions given to derived streams are total and
do not touch the network. The listeners of a stream are the live consumers in the order in which they started to listen,
which is the order of creation (and of the index within a `CombineLatestStream`).
-/

namespace Verif.Stream

variable {α : Type}

abbrev Val (α : Type) := Option α

/-- What a stream is made from. -/
inductive Kind (α : Type) where
  /-- Stream.py:42-59 -/
  | value
  /-- Stream.py:242-255 -/
  | const
  /-- Stream.py:62-95 -/
  | map (src : Nat) (f : Val α → Val α)
  /-- Stream.py:98-139; a missing `value_fn` is the tuple function. -/
  | combine (srcs : List Nat) (f : List (Val α) → Val α)

/-- The references a stream holds (Stream.py:70, 106). -/
def Kind.inputs : Kind α → List Nat
  | .map src _ => [src]
  | .combine srcs _ => srcs
  | _ => []

/-- A stream: `vals` is `__values` of `CombineLatestStream`; `refs` and `active` are the fields of `ReferenceCounted`. -/
structure Node (α : Type) where
  kind : Kind α
  value : Val α
  vals : List (Val α)
  refs : Nat
  active : Bool

/-- What happens, in order. -/
inductive Ev (α : Type) where
  /-- `value_stream` of stream `n` fires with `v`. -/
  | fire (n : Nat) (v : Val α)
  /-- The listener with index `k` of derived stream `m` is called with `v`. -/
  | deliver (m k : Nat) (v : Val α)
  /-- Stream `n` fires its last value as it closes (Stream.py:85, 119). -/
  | closing (n : Nat) (v : Val α)
  /-- `close` of stream `n` has run. -/
  | closed (n : Nat)
  /-- The assertion in `remove_ref` (ReferenceCounting.py:39). -/
  | fail (n : Nat)

structure State (α : Type) where
  size : Nat
  node : Nat → Node α
  log : List (Ev α)

def State.init : State α := ⟨0, fun _ => ⟨.const, none, [], 0, false⟩, []⟩

def State.emit (s : State α) (e : Ev α) : State α := { s with log := s.log ++ [e] }

def State.setNode (s : State α) (n : Nat) (nd : Node α) : State α := { s with node := Function.update s.node n nd }

/-- Places where stream `n` is listened to: derived stream and index, in the order in which listening began. -/
def State.listeners (s : State α) (n : Nat) : List (Nat × Nat) :=
  (List.range s.size).flatMap fun m =>
    if (s.node m).active then
      ((List.range (s.node m).kind.inputs.length).filter fun k => (s.node m).kind.inputs[k]? = some n).map (m, ·)
    else []

section

variable [DecidableEq α]

/-- A derived stream receives a value at listener `k`; the second component is the value it fires, if it fires.
Stream.py:75-79 and 129-135. -/
def Node.receive (nd : Node α) (k : Nat) (v : Val α) : Node α × Option (Val α) :=
  match nd.kind with
  | .map _ f =>
    if f v ≠ nd.value then ({ nd with value := f v }, some (f v)) else (nd, none)
  | .combine _ f =>
    let vals := nd.vals.set k v
    ({ nd with vals := vals, value := f vals }, some (f vals))
  | _ => (nd, none)

/-- Call listener `k` of `m` with `v`, and everything that follows from it. Streams form no cycles, so recursion is at most
as deep as there are streams; the first argument bounds it. -/
def State.deliver : Nat → Nat → Nat → Val α → State α → State α
  | 0, _, _, _, s => s
  | fuel + 1, m, k, v, s =>
    let r := (s.node m).receive k v
    let t := (s.emit (.deliver m k v)).setNode m r.1
    match r.2 with
    | none => t
    | some w => ((t.emit (.fire m w)).listeners m).foldl (fun u e => State.deliver fuel e.1 e.2 w u) (t.emit (.fire m w))

/-- `value_stream.fire(w)` of stream `n` (Event.py:103-112). -/
def State.fire (fuel n : Nat) (w : Val α) (s : State α) : State α :=
  ((s.emit (.fire n w)).listeners n).foldl (fun u e => State.deliver fuel e.1 e.2 w u) (s.emit (.fire n w))

/-- Set `ValueStream.value` (Stream.py:55-59). -/
def State.assign (s : State α) (n : Nat) (v : Val α) : State α :=
  match (s.node n).kind with
  | .value => if (s.node n).value ≠ v then (s.setNode n { s.node n with value := v }).fire s.size n v else s
  | _ => s

end

/-- ReferenceCounting.py:31-34. -/
def State.addRef (s : State α) (n : Nat) : State α := s.setNode n { s.node n with refs := (s.node n).refs + 1 }

/-- `remove_ref` (ReferenceCounting.py:37-43) with `about_to_delete` and `close` (Stream.py:31-35, 84-91, 118-127, 249-251).
The stream stops listening before it gives up its references. -/
def State.removeRef : Nat → Nat → State α → State α
  | 0, _, s => s
  | fuel + 1, n, s =>
    if (s.node n).refs = 0 then s.emit (.fail n) else
    let s := s.setNode n { s.node n with refs := (s.node n).refs - 1 }
    if (s.node n).active = true ∧ (s.node n).refs = 0 then
      let s := s.setNode n { s.node n with active := false }
      match (s.node n).kind with
      | .value => s.emit (.closed n)
      | .const => (s.setNode n { s.node n with value := none }).emit (.closed n)
      | .map src _ =>
        let s := State.removeRef fuel src (s.emit (.closing n (s.node n).value))
        (s.setNode n { s.node n with value := none }).emit (.closed n)
      | .combine srcs _ =>
        let s := srcs.foldl (fun s src => State.removeRef fuel src s) (s.emit (.closing n (s.node n).value))
        (s.setNode n { s.node n with value := none, vals := [] }).emit (.closed n)
    else s

/-- A new stream with references taken to its inputs. -/
def State.push (s : State α) (kind : Kind α) (value : Val α) (vals : List (Val α)) : State α :=
  let s := kind.inputs.foldl State.addRef s
  { s with size := s.size + 1, node := Function.update s.node s.size ⟨kind, value, vals, 0, true⟩ }

/-- What a client does. -/
inductive Op (α : Type) where
  | mkValue (v : Val α)
  | mkConst (v : Val α)
  | mkMap (src : Nat) (f : Val α → Val α)
  | mkCombine (srcs : List Nat) (f : List (Val α) → Val α)
  | assign (n : Nat) (v : Val α)
  | addRef (n : Nat)
  | removeRef (n : Nat)

variable [DecidableEq α]

/-- One action of a client. Calls on streams that do not exist, and assignments to streams that are not `ValueStream`s, do
nothing. Creation: Stream.py:44-49, 244-247, 65-82 (`update_value` at creation: the value is `None` before and there are no
listeners) and 101-116 (likewise). -/
def State.step (s : State α) : Op α → State α
  | .mkValue v => s.push .value v []
  | .mkConst v => s.push .const v []
  | .mkMap src f => if src < s.size then s.push (.map src f) (f (s.node src).value) [] else s
  | .mkCombine srcs f =>
    if ∀ src ∈ srcs, src < s.size then
      s.push (.combine srcs f) (f (srcs.map fun i => (s.node i).value)) (srcs.map fun i => (s.node i).value)
    else s
  | .assign n v => if n < s.size then s.assign n v else s
  | .addRef n => if n < s.size then s.addRef n else s
  | .removeRef n => if n < s.size then s.removeRef (n + 1) n else s

def State.run (s : State α) (ops : List (Op α)) : State α := ops.foldl State.step s

end Verif.Stream
