import Verif.Py.Basic

/-!
Model of `nion/utils/Event.py`: one event, its listener tokens, their references and owners, and arbitrary re-entrant
listener functions.

* A listener token is a number, given out in order of `listen` calls.
* A token is alive while it is referenced: by the client (`held`), by the owner table of the event (`owner`), or by the
  local list of a running fire (`pins`). CPython reference counting: the weak reference callback of a token that loses
  its last reference runs at once and removes it from the list of listeners (Event.py:70-75).
* A listener function is an arbitrary interactive program (`Prog`), chosen by `beh` from the function's name and the whole
  state (so that it may depend on everything that happened before), which can use the event again.
* `depth` is the number of nested calls left before Python raises `RecursionError`.
* `trace` records what happened. It is not part of the Python state.

Not modelled: threads (`__weak_listeners_mutex`), tracing and printing of exceptions (Event.py:87-101), reference cycles
(tokens that are collected late by the cycle collector), arguments of the event, and `BaseException`s that are not
`Exception`s.
-/

namespace Verif.Event

open Verif.Py

/-- A listener function's name. -/
scoped notation "Fn" => Nat
/-- A listener token. -/
scoped notation "Tok" => Nat
/-- An owner object. -/
scoped notation "Owner" => Nat

/-- Event.py:103 `fire`, 116 `fire_any`, 131 `fire_all`. -/
inductive Kind where
  | fire | any | all
  deriving DecidableEq, Repr

/-- How a listener function ends: with a value, of which only the truth value matters, or with an exception. -/
inductive Res where
  | ret (truthy : Bool)
  | raise (e : Exc)
  deriving DecidableEq, Repr

/-- What a client or listener function can do with the event. -/
inductive Cmd where
  /-- `listen(fn, owner=…)`; `fn = none` stands for a non-callable; `truthy` is the truth value of the owner object. -/
  | listen (fn : Option Fn) (owner : Option Owner) (truthy : Bool)
  /-- `token.close()`, also the end of a `with` block on the token -/
  | close (t : Tok)
  /-- give up the client's reference to the token -/
  | drop (t : Tok)
  /-- the owner object is destroyed -/
  | ownerGone (o : Owner)
  /-- fire the event -/
  | fire (k : Kind)

/-- The answer to a command: the new token, the value of a fire, or nothing. -/
inductive Reply where
  | tok (t : Tok)
  | val (v : Option Bool)
  | unit

/-- A program using the event. -/
inductive Prog where
  | done (r : Res)
  | act (c : Cmd) (k : Reply → Prog)

/-- What happened; `fid` numbers the fires. -/
inductive Ev where
  | listen (t : Tok)
  | closed (t : Tok)
  | collected (t : Tok)
  | fireBegin (fid : Nat) (k : Kind) (snapshot : List Tok)
  | call (fid : Nat) (t : Tok) (f : Fn)
  | ret (fid : Nat) (t : Tok) (r : Res)
  | fireEnd (fid : Nat) (v : Option Bool)
  deriving DecidableEq, Repr

/-- Event.py:21-31, 53-57: tokens and event fields. -/
structure World where
  /-- next token number -/
  next : Nat
  /-- next fire number -/
  nextFire : Nat
  /-- `EventListener.call`, `none` for the `void` function -/
  fn : Tok → Option Fn
  /-- the client has a reference to the token -/
  held : Tok → Bool
  /-- `Event.__listeners`: the owner whose entry references the token -/
  owner : Tok → Option Owner
  /-- references from lists of running fires -/
  pins : Tok → Nat
  /-- `Event.__weak_listeners` -/
  weak : List Tok
  trace : List Ev

/-- Event.py:53-57 `__init__`. -/
def World.init : World :=
  { next := 0, nextFire := 0, fn := fun _ => none, held := fun _ => false, owner := fun _ => none, pins := fun _ => 0,
    weak := [], trace := [] }

/-- The token is referenced. -/
def World.alive (w : World) (t : Tok) : Bool := w.held t || (w.owner t).isSome || decide (0 < w.pins t)

def World.log (w : World) (e : Ev) : World := { w with trace := w.trace ++ [e] }

/-- Event.py:70-75 `remove_listener`: tokens without references disappear from the list of listeners. -/
def World.collect (w : World) : World :=
  { w with
    weak := w.weak.filter w.alive
    trace := w.trace ++ (w.weak.filter (fun t => !w.alive t)).map Ev.collected }

/-- Event.py:67-85 `listen`. -/
def doListen (w : World) (fn : Option Fn) (owner : Option Owner) (truthy : Bool) : World :=
  let t := w.next
  { w with
    next := t + 1
    fn := Function.update w.fn t fn
    held := Function.update w.held t true
    owner := Function.update w.owner t (if truthy then owner else none)
    weak := w.weak ++ [t]
    trace := w.trace ++ [.listen t] }

/-- Event.py:33-37 `close`. Only existing tokens can be closed. -/
def doClose (w : World) (t : Tok) : World :=
  if t < w.next then { w with fn := Function.update w.fn t none, trace := w.trace ++ [.closed t] } else w

/-- The client gives up its reference. -/
def doDrop (w : World) (t : Tok) : World :=
  World.collect { w with held := Function.update w.held t false }

/-- Event.py:79-82 `owner_gone` for one token. -/
def ownerGoneOne (w : World) (t : Tok) : World :=
  { doClose w t with owner := Function.update w.owner t none }

/-- Event.py:79-82: the weak reference callbacks of a destroyed owner run for all its tokens. -/
def doOwnerGone (w : World) (o : Owner) : World :=
  World.collect (((List.range w.next).filter (fun t => w.owner t = some o)).foldl ownerGoneOne w)

/-- How the loop over the listeners ends. -/
inductive Outcome where
  | finished
  | stopped (b : Bool)
  | exception
  deriving DecidableEq

/-- Event.py:110-112, 123-127, 138-142: the loop over the local list of listeners. `call` is what calling a listener
function does. The listener's `call` attribute is looked up when its turn comes; `void` returns `None`. -/
def loop (call : Fn → World → Res × World) (k : Kind) (fid : Nat) : List Tok → World → Outcome × World
  | [], w => (.finished, w)
  | t :: ts, w =>
    match w.fn t with
    | none => if k = .all then (.stopped false, w) else loop call k fid ts w
    | some f =>
      let rw' := call f (w.log (.call fid t f))
      let w' := rw'.2.log (.ret fid t rw'.1)
      match rw'.1 with
      | .raise _ => (.exception, w')
      | .ret b =>
        match k with
        | .fire => loop call k fid ts w'
        | .any => if b then (.stopped true, w') else loop call k fid ts w'
        | .all => if b then loop call k fid ts w' else (.stopped false, w')

/-- The value of the fire method: `fire` has none; an exception is caught and printed and gives `None`. -/
def Outcome.value : Kind → Outcome → Option Bool
  | .fire, _ => none
  | _, .exception => none
  | _, .stopped b => some b
  | .any, .finished => some false
  | .all, .finished => some true

/-- Event.py:103-114 `fire`, 116-129 `fire_any`, 131-144 `fire_all`. -/
def fireWith (call : Fn → World → Res × World) (k : Kind) (w : World) : Option Bool × World :=
  if w.weak = [] then (none, w)
  else
    let fid := w.nextFire
    let snapshot := w.weak
    let w1 : World :=
      { w with
        nextFire := fid + 1
        pins := fun t => w.pins t + (if t ∈ snapshot then 1 else 0)
        trace := w.trace ++ [.fireBegin fid k snapshot] }
    let r := loop call k fid snapshot w1
    let v := r.1.value k
    let w2 : World :=
      { r.2 with
        pins := fun t => r.2.pins t - (if t ∈ snapshot then 1 else 0)
        trace := r.2.trace ++ [.fireEnd fid v] }
    (v, w2.collect)

/-- One command; `fire` is what firing does. -/
def doCmd (fire : Kind → World → Option Bool × World) (w : World) : Cmd → Reply × World
  | .listen fn owner truthy => (.tok w.next, doListen w fn owner truthy)
  | .close t => (.unit, doClose w t)
  | .drop t => (.unit, doDrop w t)
  | .ownerGone o => (.unit, doOwnerGone w o)
  | .fire k => let r := fire k w; (.val r.1, r.2)

/-- Run a program. -/
def execProg (fire : Kind → World → Option Bool × World) : Prog → World → Res × World
  | .done r, w => (r, w)
  | .act c k, w => let r := doCmd fire w c; execProg fire (k r.1) r.2

/-- Calling a listener function with `depth` nested calls left. -/
def callFn (beh : Fn → World → Prog) : Nat → Fn → World → Res × World
  | 0, _, w => (.raise .recursionError, w)
  | depth + 1, f, w => execProg (fireWith (callFn beh depth)) (beh f w) w

/-- Firing with `depth` nested calls left. -/
def fireEvent (beh : Fn → World → Prog) (depth : Nat) (k : Kind) (w : World) : Option Bool × World :=
  fireWith (callFn beh depth) k w

/-- A client program on a fresh event. -/
def runClient (beh : Fn → World → Prog) (depth : Nat) (p : Prog) : Res × World :=
  execProg (fireEvent beh depth) p World.init

/-- Event.py:59-61 `listener_count`. -/
def listenerCount (w : World) : Nat := w.weak.length

end Verif.Event
