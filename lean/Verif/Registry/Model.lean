import Mathlib.Data.Finset.Basic
import Mathlib.Data.Finset.SDiff
import Mathlib.Data.Finset.Card
import Verif.Py.Basic

/-!
Model of the component registry (`nion/utils/Registry.py`).

Dictionaries are functions; a type without entry in the dictionary of components is the empty set, which is what every
reader of it uses as default. Not modelled: that the manager is a singleton (`Single`), listeners that call the registry while an
event is fired (the event is the last thing every method does, so such calls are calls that follow).
-/

namespace Verif.Registry

open Verif.Py

/-- An event with what it reports. -/
inductive Ev (C T : Type*) where
  | registered (c : C) (ts : Finset T)
  | unregistered (c : C) (ts : Finset T)
  deriving DecidableEq

/-- Registry.py:36-40. -/
structure Reg (C T : Type*) where
  types : C → Option (Finset T)
  byType : T → Finset C
  log : List (Ev C T)

section
variable {C T : Type*} [DecidableEq C] [DecidableEq T]

def Reg.init : Reg C T := ⟨fun _ => none, fun _ => ∅, []⟩

/-- Registry.py:50-51. -/
def Reg.components (s : Reg C T) (t : T) : Finset C := s.byType t

/-- Registry.py:53-60. -/
def Reg.register (s : Reg C T) (c : C) (ts : Finset T) : Reg C T × Except Exc Unit :=
  if ∀ t ∈ ts, c ∉ s.byType t then
    ({ types := Function.update s.types c (some ((s.types c).getD ∅ ∪ ts))
       byType := fun t => if t ∈ ts then insert c (s.byType t) else s.byType t
       log := s.log ++ [.registered c ts] }, .ok ())
  else (s, .error .assertionError)

/-- Registry.py:64-71; `stored` says that `ts` is the set object stored for the component (line 63), which is then emptied
by `difference_update` before the event reports it. -/
def Reg.unregisterTypes (s : Reg C T) (c : C) (ts : Finset T) (stored : Bool) : Reg C T × Except Exc Unit :=
  if ∀ t ∈ ts, c ∈ s.byType t then
    let s1 : Reg C T := { s with byType := fun t => if t ∈ ts then (s.byType t).erase c else s.byType t }
    match s1.types c with
    | none => (s1, .error .keyError)
    | some own =>
      let own' := own \ ts
      ({ types := Function.update s1.types c (if own'.card = 0 then none else some own')
         byType := s1.byType
         log := s1.log ++ [.unregistered c (if stored then own' else ts)] }, .ok ())
  else (s, .error .assertionError)

/-- Registry.py:62-71. -/
def Reg.unregister (s : Reg C T) (c : C) (ts : Option (Finset T)) : Reg C T × Except Exc Unit :=
  match ts with
  | some ts => s.unregisterTypes c ts false
  | none =>
    match s.types c with
    | none => (s, .error .keyError)
    | some own => s.unregisterTypes c own true

/-- The order in which Python iterates over a set of components. -/
structure IterOrder (C : Type*) where
  f : Finset C → List C
  nodup : ∀ s, (f s).Nodup
  mem : ∀ s x, x ∈ f s ↔ x ∈ s

/-- Registry.py:79-98; `prio` is `getattr(component, "priority", 50)`. -/
def Reg.getComponent (s : Reg C T) (ord : IterOrder C) (prio : C → Int) (t : T) : Option C :=
  let components := s.components t
  let sorted := (ord.f components).mergeSort fun a b => decide (prio b ≤ prio a)
  if sorted.length > 0 then (ord.f components)[0]? else none

/-- Registry.py:120-122. -/
def Reg.fireExisting (s : Reg C T) (ord : IterOrder C) (t : T) : Reg C T :=
  { s with log := s.log ++ (ord.f (s.components t)).map fun c => .registered c {t} }

/-- The calls that change something. -/
inductive Op (C T : Type*) where
  | register (c : C) (ts : Finset T)
  | unregister (c : C) (ts : Option (Finset T))

def Reg.step (s : Reg C T) : Op C T → Reg C T × Except Exc Unit
  | .register c ts => s.register c ts
  | .unregister c ts => s.unregister c ts

def Reg.run (s : Reg C T) (ops : List (Op C T)) : Reg C T := ops.foldl (fun s o => (s.step o).1) s

end

end Verif.Registry
