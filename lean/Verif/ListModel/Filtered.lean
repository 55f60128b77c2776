import Mathlib.Data.List.Sort
import Verif.ListModel.Flattened

/-!
Model of `FilteredListModel` (`nion/utils/ListModel.py:232-640`).

Items are values of a type `α` compared by identity. `content x : C` is the current content of the item `x`; the filter
and the sort key look at the content. The container changes its list with the Python operation and then notifies, naming
the item it inserted or removed. An item announces a change of its content after the change.
Not modelled: the mutex (single thread), listeners changing things during a notification, keys that cannot be compared,
filters or keys that raise, items without `item_changed_event`. If the container holds an item twice, the second insertion is refused
(line 615) and from then on the copy of the source is shorter than the source; the `KeyError` of line 636, which later removals of the
item can meet, is not modelled (theorems about the items exclude such containers).
-/

namespace Verif.ListModel

open Verif.Py Verif.Selection

/-- What a filtered list model tells its observers; `note n l` is a notification sent while `items` is `l`. -/
inductive FEv (α : Type*) where
  | note (n : Notif α) (l : List α)
  | beginChanges
  | endChanges
  | reset
  deriving DecidableEq, Repr

/-- The order in which Python iterates over a set, given here as a list of its elements: any permutation. -/
structure IterOrder (α : Type*) where
  f : List α → List α
  perm : ∀ l, (f l).Perm l

/-- `source` is the container's list, `content` the outside world, the rest the state of ListModel.py:243-268. -/
structure FL (α C K : Type*) where
  source : Option (List α)
  content : α → C
  master : List α
  items : List α
  sorted : Bool
  filter : C → Bool
  key : Option (C → K)
  reverse : Bool
  level : Int
  sels : List Sel
  log : List (FEv α)

/-- What can happen to a filtered list model. -/
inductive LOp (α C K : Type*) where
  | srcInsert (v : α) (i : Int)
  | srcRemove (i : Int)
  | setContainer (c : Option (List α))
  | srcBegin
  | srcEnd
  | srcReset
  | changeContent (v : α) (c : C)
  | setFilter (p : C → Bool)
  | setKey (k : Option (C → K))
  | setReverse (b : Bool)
  | beginChange
  | endChange
  | select (k : Nat) (o : Selection.Op)

/-- ListModel.py:243-268 without container. -/
def FL.init {α C K} (content : α → C) (sels : List Sel) : FL α C K :=
  ⟨none, content, [], [], false, fun _ => true, none, false, 0, sels, []⟩

section
variable {α C K : Type*} [DecidableEq α] [LinearOrder K]

/-- ListModel.py:367-372: the binary search loop; `p y` is `sort_operator(sort_key(y), item_sort_key)`. `fuel` bounds the
number of iterations (each one shrinks `high - low`). -/
def bsearch (p : α → Bool) (l : List α) : Nat → Nat → Nat → Nat
  | 0, low, _ => low
  | fuel + 1, low, high =>
    if low < high then
      match l[(low + high) / 2]? with
      | some y => if p y then bsearch p l fuel ((low + high) / 2 + 1) high else bsearch p l fuel low ((low + high) / 2)
      | none => low
    else low

/-- ListModel.py:363-373 `__find_sorted_index_for_item`; `cmp y x` is `sort_operator(sort_key(y), sort_key(x))`. -/
def findSorted (cmp : α → α → Bool) (x : α) (items : List α) : Nat :=
  bsearch (fun y => cmp y x) items items.length 0 items.length

/-- ListModel.py:375-382 `__find_unsorted_index_for_item`. -/
def findUnsorted (acc : α → Bool) (x : α) : List α → Nat
  | [] => 0
  | y :: ys => if y = x then 0 else (if acc y then 1 else 0) + findUnsorted acc x ys

/-- `filter.matches(x)` -/
def FL.acc (s : FL α C K) (x : α) : Bool := s.filter (s.content x)

/-- `sort_operator(sort_key(y), sort_key(x))` with the operator chosen at ListModel.py:399 and 442. -/
def cmpKey {κ : Type*} [LinearOrder κ] (rev : Bool) (key : α → κ) (y x : α) : Bool :=
  if rev then decide (key x < key y) else decide (key y < key x)

/-- The comparison of the model's sort key, `none` without sort key. -/
def FL.cmp (s : FL α C K) : Option (α → α → Bool) :=
  s.key.map fun k => cmpKey s.reverse fun x => k (s.content x)

/-- ListModel.py:396-406 `__insert_item`; `cmp` is the comparison for the `sort_key` argument. -/
def FL.insertItem (s : FL α C K) (cmp : Option (α → α → Bool)) (x : α) : FL α C K :=
  let pos : Nat := match cmp with
    | some c => findSorted c x s.items
    | none => findUnsorted s.acc x s.master
  { s with
    items := Py.insert s.items pos x
    log := s.log ++ [.beginChanges, .note (.inserted x pos) (Py.insert s.items pos x), .endChanges] }

/-- ListModel.py:408-413 `__remove_item`, called only if the item is in the list. -/
def FL.removeItem (s : FL α C K) (x : α) : FL α C K :=
  let pos := s.items.idxOf x
  { s with
    items := s.items.eraseIdx pos
    log := s.log ++ [.beginChanges, .note (.removed x pos) (s.items.eraseIdx pos), .endChanges] }

/-- ListModel.py:385-394 `__inserted_master_item` (the index argument is not used). -/
def FL.insertedMaster (s : FL α C K) (x : α) : FL α C K :=
  if s.level > 0 then s else if s.acc x then s.insertItem s.cmp x else s

/-- ListModel.py:416-425 `__removed_master_item`. -/
def FL.removedMaster (s : FL α C K) (x : α) : FL α C K :=
  if s.level > 0 then s else if x ∈ s.items then s.removeItem x else s

/-- ListModel.py:428-466 `__updated_master_item`. -/
def FL.updatedMaster (s : FL α C K) (x : α) : FL α C K :=
  if s.level > 0 then s
  else if s.acc x then
    match s.cmp with
    | some c =>
      let before := findSorted c x s.items
      if x ∈ s.items then
        let index := s.items.idxOf x
        if before < index then (s.removedMaster x).insertedMaster x
        else if before > index then (s.removedMaster x).insertedMaster x
        else s
      else s.insertedMaster x
    | none => if x ∈ s.items then s else s.insertedMaster x
  else if x ∈ s.items then s.removedMaster x
  else s

/-- ListModel.py:469-490 `__build_items`. Python's sort is stable, also with `reverse`; so is insertion sort. -/
def FL.build (s : FL α C K) : List α :=
  (match s.key with
    | some k =>
      if s.reverse then s.master.insertionSort fun a b => k (s.content b) ≤ k (s.content a)
      else s.master.insertionSort fun a b => k (s.content a) ≤ k (s.content b)
    | none => s.master).filter s.acc

/-- ListModel.py:528-529: delete at the index and notify. -/
def FL.delAt (s : FL α C K) (k : Nat) (x : α) : FL α C K :=
  { s with items := s.items.eraseIdx k, log := s.log ++ [.note (.removed x k) (s.items.eraseIdx k)] }

/-- ListModel.py:525-530: `i` is the enumeration index, `r` is `items_removed`. -/
def FL.removeLoop (rm : α → Bool) : List α → Nat → Nat → FL α C K → FL α C K
  | [], _, _, s => s
  | x :: xs, i, r, s =>
    if rm x then FL.removeLoop rm xs (i + 1) (r + 1) (s.delAt (i - r) x) else FL.removeLoop rm xs (i + 1) r s

/-- ListModel.py:536-539: pop once per old item, notifying the old items in order. -/
def FL.popLoop : List α → FL α C K → FL α C K
  | [], s => s
  | x :: xs, s =>
    FL.popLoop xs
      { s with
        items := s.items.dropLast
        log := s.log ++ [.note (.removed x (s.items.dropLast.length : Nat)) s.items.dropLast] }

/-- ListModel.py:540-544. -/
def FL.appendLoop : List α → FL α C K → FL α C K
  | [], s => s
  | x :: xs, s =>
    FL.appendLoop xs
      { s with items := s.items ++ [x], log := s.log ++ [.note (.inserted x s.items.length) (s.items ++ [x])] }

def FL.emit (s : FL α C K) (e : FEv α) : FL α C K := { s with log := s.log ++ [e] }

/-- ListModel.py:493-546 `__update_items`. -/
def FL.updateItems (ord : IterOrder α) (s : FL α C K) : FL α C K :=
  if s.level > 0 then s
  else
    let old := s.items
    let new := s.build
    let s1 := s.emit .beginChanges
    let s2 :=
      if s.sorted then
        let cmp := s.cmp.getD (cmpKey s.reverse fun x => new.idxOf x)
        let s2 := FL.removeLoop (fun x => decide (x ∉ new)) old 0 0 s1
        (ord.f (new.filter fun x => x ∉ old)).foldl (fun s x => s.insertItem (some cmp) x) s2
      else FL.appendLoop new (FL.popLoop old s1)
    { s2 with sorted := true }.emit .endChanges

/-- ListModel.py:611-627 `__item_inserted`; the failing assertion changes nothing (the exception ends in `Event.fire`). -/
def FL.itemInserted (sord : SetOrder) (s : FL α C K) (x : α) (i : Int) : FL α C K :=
  if x ∈ s.master then s
  else
    let s := { s with master := Py.insert s.master i x }.insertedMaster x
    { s with sels := s.sels.map fun y => (insertIndex sord y i).sel }

/-- ListModel.py:630-640 `__item_removed`. -/
def FL.itemRemoved (sord : SetOrder) (s : FL α C K) (x : α) (i : Int) : FL α C K :=
  match Py.del? s.master i with
  | some l =>
    let s := { s with master := l }.removedMaster x
    { s with sels := s.sels.map fun y => (removeIndex sord y i).sel }
  | none => s

/-- ListModel.py:572-573. -/
def FL.removeAll (sord : SetOrder) : List α → FL α C K → FL α C K
  | [], s => s
  | x :: xs, s => FL.removeAll sord xs (s.itemRemoved sord x (s.master.length - 1 : Int))

/-- ListModel.py:599-600; an item that is there already fails the assertion of line 615, and the exception leaves the setter. -/
def FL.insertAll (sord : SetOrder) : List α → Nat → FL α C K → FL α C K
  | [], _, s => s
  | x :: xs, i, s => if x ∈ s.master then s else FL.insertAll sord xs (i + 1) (s.itemInserted sord x i)

/-- ListModel.py:556-600 `container` setter. -/
def FL.setContainer (sord : SetOrder) (s : FL α C K) (c : Option (List α)) : FL α C K :=
  let s := FL.removeAll sord (s.source.getD []).reverse s
  FL.insertAll sord (c.getD []) 0 ({ s with source := c, sorted := false }.emit .reset)

/-- One event. `srcBegin`, `srcEnd` and `srcReset` are change events of the container (ListModel.py:582-598). -/
def FL.step (sord : SetOrder) (ord : IterOrder α) (s : FL α C K) : LOp α C K → FL α C K
  | .srcInsert v i =>
    match s.source with
    | some l => { s with source := some (Py.insert l i v) }.itemInserted sord v i
    | none => s
  | .srcRemove i =>
    match s.source with
    | some l =>
      match Py.get? l i, Py.del? l i with
      | some v, some l' => { s with source := some l' }.itemRemoved sord v i
      | _, _ => s
    | none => s
  | .setContainer c => s.setContainer sord c
  | .srcBegin => s.emit .beginChanges
  | .srcEnd => s.emit .endChanges
  | .srcReset => { s with sorted := false }.emit .reset
  | .changeContent v c =>
    let t := { s with content := Function.update s.content v c }
    if v ∈ s.master then t.updatedMaster v else t
  | .setFilter p => ({ s with filter := p, sorted := false }.emit .reset).updateItems ord
  | .setKey k => ({ s with key := k, sorted := false }.emit .reset).updateItems ord
  | .setReverse b => ({ s with reverse := b, sorted := false }.emit .reset).updateItems ord
  | .beginChange => { s with level := s.level + 1 }
  | .endChange =>
    let t := { s with level := s.level - 1 }
    if s.level - 1 = 0 then t.updateItems ord else t
  | .select k o => { s with sels := s.sels.modify k fun x => (Selection.step sord x o).sel }

/-- A history; each event comes with the set iteration order it meets. -/
def FL.run (sord : SetOrder) (s : FL α C K) (ops : List (IterOrder α × LOp α C K)) : FL α C K :=
  ops.foldl (fun s o => s.step sord o.1 o.2) s

end

end Verif.ListModel
