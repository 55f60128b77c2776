import Verif.Py.Basic

/-!
Model of `nion/utils/StructuredModel.py`: `build_model`, `build_value`, `FieldPropertyModel`, `RecordModel`, `ArrayModel`.

Values are trees of atoms, dicts and lists; `none` is Python's `None`. The types `string`, `boolean` and `int` are treated
alike by the code and are one type here. Field models of a record are kept in the order of the schema's fields, which have
distinct names. Items of an array have numbers, `tramp` is the list of the items whose `model_changed_event` the array listens
to (`__model_changed_listeners`, lines 253-258, 294-309); the entry of a plain item stands for `None`. Not modelled: values of
the wrong kind (falsy ones are taken for empty dicts by the code, other ones raise), events other than `model_changed_event`,
`close` (which raises `TypeError` for an array, line 261); `ItemsSequence` is in `Sequence.lean`.
-/

namespace Verif.Structured

open Verif.Py

inductive Val where
  | none
  | atom (n : Nat)
  | dict (d : List (String × Val))
  | list (l : List Val)

def Val.isNone : Val → Bool
  | .none => true
  | _ => false

mutual
/-- Schema descriptions (lines 33-61); `scalar` is string, boolean or int; `double` is what `define_float` gives. -/
inductive Schema where
  | scalar
  | double
  | record (fs : Fields)
  | array (items : Schema)
/-- Fields with name, default and type (lines 49-53). -/
inductive Fields where
  | nil
  | cons (name : String) (default : Val) (type : Schema) (rest : Fields)
end

def Fields.names : Fields → List String
  | .nil => []
  | .cons n _ _ r => n :: r.names

/-- Models: `FieldPropertyModel`, a plain value in an array, `RecordModel`, `ArrayModel`. -/
inductive M where
  | field (v : Val)
  | plain (v : Val)
  | record (ms : List M)
  | array (items : List (Nat × M)) (tramp : List Nat) (next : Nat)

/-- `d or dict()` where a dict is expected. -/
def asDict : Val → Except Exc (List (String × Val))
  | .none => .ok []
  | .dict d => .ok d
  | _ => .error .typeError

/-- `for value in values` (lines 238-246), `None` giving an empty list. -/
def asList : Val → Except Exc (List Val)
  | .none => .ok []
  | .list l => .ok l
  | _ => .error .typeError

/-- `d.get(name)`. -/
def getVal (d : List (String × Val)) (name : String) : Val := (d.lookup name).getD .none

/-- `x if x is not None else y`. -/
def Val.orElse (x y : Val) : Val := if x.isNone then y else x

/-- The items are numbered and all listened to (lines 253-258). -/
def arrayOf (ms : List M) : M := .array ((List.range ms.length).zip ms) (List.range ms.length) ms.length

mutual
/-- StructuredModel.py:64-75 `build_model` and 78-87 `build_value` (`isValue`, no default). In `record`, the entries of the
value precede those of the default (71-72, `dict.update`), `getVal` finds the first. `schema.get` in line 67 (79) raises for the
string "double". -/
def build : Schema → Bool → Val → Val → Except Exc M
  | .scalar, isValue, d, v => .ok (if isValue then .plain v else .field (d.orElse v))
  | .double, _, _, _ => .error .attributeError
  | .record fs, _, d, v =>
    (asDict d).bind fun a => (asDict v).bind fun b => (buildFields fs (b ++ a)).map .record
  | .array s, _, d, v => (asList (v.orElse d)).bind fun vs => (vs.mapM fun x => build s true .none x).map arrayOf
/-- StructuredModel.py:134-139. -/
def buildFields : Fields → List (String × Val) → Except Exc (List M)
  | .nil, _ => .ok []
  | .cons n d s rest, e =>
    (build s false d (getVal e n)).bind fun m => (buildFields rest e).map (m :: ·)
end

mutual
/-- StructuredModel.py:102-105, 182-190, 284-288 `to_dict_value`; a plain value has no such method. -/
def toDict : Schema → M → Except Exc Val
  | .record fs, .record ms => (toDictFields fs ms).map .dict
  | .array s, .array items _ _ => (items.mapM fun p => toDict s p.2).map .list
  | _, .field v => .ok v
  | _, _ => .error .attributeError
def toDictFields : Fields → List M → Except Exc (List (String × Val))
  | .cons n _ s rest, m :: ms =>
    (toDict s m).bind fun v => (toDictFields rest ms).map fun r => if v.isNone then r else (n, v) :: r
  | _, _ => .ok []
end

/-- StructuredModel.py:276-280: `self.items` is adjusted to length `n` with items made by `new`; neither notifications nor
listeners. -/
def adjust (n : Nat) (new : Except Exc M) (items : List (Nat × M)) (next : Nat) : Except Exc (List (Nat × M) × Nat) :=
  if n ≤ items.length then .ok (items.take n, next)
  else new.map fun m => (items ++ (List.range (n - items.length)).map fun (k : Nat) => (next + k, m), next + (n - items.length))

mutual
/-- StructuredModel.py:99-100, 177-180, 275-282 `from_dict_value`. -/
def fromDict : Schema → M → Val → Except Exc M
  | .record fs, .record ms, v =>
    match v with
    | .dict d => (fromDictFields fs ms d).map .record
    | _ => .error .typeError
  | .array s, .array items tramp next, v =>
    match v with
    | .list vs =>
      (adjust vs.length (build s true .none .none) items next).bind fun (items', next') =>
        ((items'.zip vs).mapM fun p => (fromDict s p.1.2 p.2).map fun m => (p.1.1, m)).map fun l => .array l tramp next'
    | _ => .error .typeError
  | _, .field _, v => .ok (.field v)
  | _, _, _ => .error .attributeError
def fromDictFields : Fields → List M → List (String × Val) → Except Exc (List M)
  | .cons n _ s rest, m :: ms, d =>
    (match d.lookup n with
      | some v => fromDict s m v
      | none => .ok m).bind fun m' => (fromDictFields rest ms d).map (m' :: ·)
  | _, ms, _ => .ok ms
end

/-- StructuredModel.py:174-175, 272-273 `copy_from`. -/
def copyFrom (s : Schema) (m other : M) : Except Exc M := (toDict s other).bind fun v => fromDict s m v

/-- StructuredModel.py:170-172, 268-270 `__deepcopy__`. -/
def deepCopy (s : Schema) (m : M) : Except Exc M := (toDict s m).bind fun v => build s false .none v

/-! ### Changes and `model_changed_event` -/

inductive Step where
  | field (k : Nat)
  | item (i : Nat)

inductive Op where
  /-- the value of a field model is assigned; `same` says whether it equals the old one -/
  | assign (v : Val) (same : Bool)
  | insert (i : Int) (m : M)
  | remove (i : Int)

/-- A change of the model at the end of the path: the new model, and how often each model on the path, from the outermost to
the changed one, fires `model_changed_event`. Lines 111-114, 154, 254-258, 294-309; `none` if there is no such model or the
operation raises before anything changes. -/
def change : List Step → Op → M → Option (M × List Nat)
  | [], .assign v same, .field u => if same then some (.field u, [0]) else some (.field v, [1])
  | [], .insert i m, .array items tramp next => some (.array (Py.insert items i (next, m)) (tramp ++ [next]) (next + 1), [1])
  | [], .remove i, .array items tramp next =>
    match Py.del? items i, Py.del? tramp i with
    | some items', some tramp' => some (.array items' tramp' next, [1])
    | some items', none => some (.array items' tramp next, [0])  -- `pop` raises, line 305
    | none, _ => none
  | .field k :: p, op, .record ms =>
    match ms[k]? with
    | some m => (change p op m).map fun r => (.record (ms.set k r.1), r.2.headD 0 :: r.2)
    | none => none
  | .item i :: p, op, .array items tramp next =>
    match items[i]? with
    | some (id, m) => (change p op m).map fun r => (.array (items.set i (id, r.1)) tramp next, r.2.headD 0 * tramp.count id :: r.2)
    | none => none
  | _, _, _ => none

end Verif.Structured
