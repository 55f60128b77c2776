import Verif.ListModel.Basic
import Mathlib.Data.List.Basic
import Mathlib.Data.List.Count

/-!
The value of an array field: `ItemsSequence` (`nion/utils/StructuredModel.py:210-232, 290-292`), property C102.

`record.field` is an object made anew at each access which works on the list model. Its methods are those of lines 210-232 and the
ones which `collections.abc.MutableSequence` of the Python library defines by them: `append`, `clear`, `reverse`, `extend`, `pop`,
`remove`, `+=`, `index`, `count`, iteration, `reversed`. These are written out here as in the library. Subscripts are integers (no
slices), comparison of items is decidable equality. Array notifications are those of the list model (lines 294-309).
-/

set_option linter.unusedSectionVars false

namespace Verif.Structured.Sequence

open Verif.Py Verif.ListModel

variable {α : Type} [DecidableEq α]

inductive Ret (α : Type) where
  | unit
  | item (v : α)
  | num (n : ℕ)
  | bool (b : Bool)
  | list (l : List α)
  | exc (e : Exc)
  deriving DecidableEq

/-- What a client can do with the sequence. -/
inductive Op (α : Type) where
  | len
  | get (i : ℤ)
  | set (i : ℤ) (v : α)
  | del (i : ℤ)
  | contains (v : α)
  | insert (i : ℤ) (v : α)
  | append (v : α)
  | extend (vs : List α)
  | pop (i : ℤ)
  | remove (v : α)
  | clear
  | reverse
  | index (v : α) (start : ℤ) (stop : Option ℤ)
  | count (v : α)
  | iter
  | reversed

/-- `__getitem__` (219-220). -/
def getItem (s : LM α) (i : ℤ) : Option α := Py.get? s.items i

/-- `__delitem__` (225-226). -/
def delItem (s : LM α) (i : ℤ) : LM α × Ret α :=
  match removeItem s i with
  | (s', none) => (s', .unit)
  | (s', some e) => (s', .exc e)

/-- `MutableSequence.append`: `self.insert(len(self), value)`. -/
def append (s : LM α) (v : α) : LM α := insertItem s s.items.length v

/-- `MutableSequence.extend` and `+=` for values which are not the array. -/
def extend (s : LM α) (vs : List α) : LM α := vs.foldl append s

/-- `MutableSequence.pop`: `v = self[index]; del self[index]; return v`. -/
def pop (s : LM α) (i : ℤ) : LM α × Ret α :=
  match getItem s i with
  | none => (s, .exc .indexError)
  | some v =>
    match delItem s i with
    | (s', .exc e) => (s', .exc e)
    | (s', _) => (s', .item v)

/-- `MutableSequence.clear`: `pop()` until it raises `IndexError`. -/
def clearLoop : ℕ → LM α → LM α
  | 0, s => s
  | n + 1, s =>
    match pop s (-1) with
    | (s', .exc _) => s'
    | (s', _) => clearLoop n s'

/-- `stop is None or i < stop`. -/
def before (stop : Option ℤ) (i : ℤ) : Bool :=
  match stop with
  | none => true
  | some e => decide (i < e)

/-- The loop of `Sequence.index`. -/
def indexLoop (s : LM α) (v : α) (stop : Option ℤ) : ℕ → ℤ → Option ℤ
  | 0, _ => none
  | n + 1, i =>
    if before stop i then
      match getItem s i with
      | none => none
      | some x => if x = v then some i else indexLoop s v stop n (i + 1)
    else none

/-- `Sequence.index`; `none` is a `ValueError`. -/
def index (s : LM α) (v : α) (start : ℤ) (stop : Option ℤ) : Option ℤ :=
  let start := if start < 0 then max (s.items.length + start) 0 else start
  let stop := stop.map fun e : ℤ => if e < 0 then e + (s.items.length : ℤ) else e
  indexLoop s v stop (s.items.length + 1) start

/-- `Sequence.__iter__`: subscripts from 0 until `IndexError`. -/
def iterLoop (s : LM α) : ℕ → ℤ → List α
  | 0, _ => []
  | n + 1, i =>
    match getItem s i with
    | none => []
    | some x => x :: iterLoop s n (i + 1)

def iter (s : LM α) : List α := iterLoop s (s.items.length + 1) 0

/-- `Sequence.__reversed__`. -/
def reversed (s : LM α) : List α := (List.range s.items.length).reverse.filterMap fun k : ℕ => getItem s (k : ℤ)

/-- `MutableSequence.remove`: `del self[self.index(value)]`. -/
def remove (s : LM α) (v : α) : LM α × Ret α :=
  match index s v 0 none with
  | none => (s, .exc .valueError)
  | some i => delItem s i

/-- `MutableSequence.reverse`: assigns by subscript, which raises (222-223), unless there is nothing to swap. -/
def reverse (s : LM α) : LM α × Ret α := if s.items.length / 2 = 0 then (s, .unit) else (s, .exc .indexError)

/-- A call on the sequence. `__contains__` (228-229) calls `contains` of a list. -/
def call (s : LM α) : Op α → LM α × Ret α
  | .len => (s, .num s.items.length)
  | .get i =>
    match getItem s i with
    | none => (s, .exc .indexError)
    | some v => (s, .item v)
  | .set _ _ => (s, .exc .indexError)
  | .del i => delItem s i
  | .contains _ => (s, .exc .attributeError)
  | .insert i v => (insertItem s i v, .unit)
  | .append v => (append s v, .unit)
  | .extend vs => (extend s vs, .unit)
  | .pop i => pop s i
  | .remove v => remove s v
  | .clear => (clearLoop (s.items.length + 1) s, .unit)
  | .reverse => reverse s
  | .index v a b =>
    match index s v a b with
    | none => (s, .exc .valueError)
    | some i => (s, .num i.toNat)
  | .count v => (s, .num ((iter s).filter (· = v)).length)
  | .iter => (s, .list (iter s))
  | .reversed => (s, .list (reversed s))

/-! ### Specification: Python's `list` -/

/-- A bound of `list.index`: negative ones count from the end. -/
def bound (n : ℕ) (i : ℤ) : ℤ := if i < 0 then max (i + n) 0 else i

def listCall (l : List α) : Op α → List α × Ret α
  | .len => (l, .num l.length)
  | .get i => (l, match Py.get? l i with | none => .exc .indexError | some v => .item v)
  | .set i v => match Py.index? l.length i with | none => (l, .exc .indexError) | some k => (l.set k v, .unit)
  | .del i => match Py.del? l i with | none => (l, .exc .indexError) | some l' => (l', .unit)
  | .contains v => (l, .bool (decide (v ∈ l)))
  | .insert i v => (Py.insert l i v, .unit)
  | .append v => (l ++ [v], .unit)
  | .extend vs => (l ++ vs, .unit)
  | .pop i => match Py.get? l i, Py.del? l i with | some v, some l' => (l', .item v) | _, _ => (l, .exc .indexError)
  | .remove v => if v ∈ l then (l.erase v, .unit) else (l, .exc .valueError)
  | .clear => ([], .unit)
  | .reverse => (l.reverse, .unit)
  | .index v a b =>
    (l, match (List.range l.length).find? (fun k : ℕ =>
        decide (bound l.length a ≤ k ∧ (∀ e ∈ b, (k : ℤ) < bound l.length e) ∧ l[k]? = some v)) with
      | none => .exc .valueError
      | some k => .num k)
  | .count v => (l, .num (l.count v))
  | .iter => (l, .list l)
  | .reversed => (l, .list l.reverse)

/-! ### Lemmas -/

theorem getItem_nat (s : LM α) (k : ℕ) : getItem s k = s.items[k]? := by
  rw [getItem]
  by_cases h : k < s.items.length
  · rw [Py.get?_nat h, List.getElem?_eq_getElem h]
  · rw [Py.get?, Py.index?_nat_none (by omega), List.getElem?_eq_none (by omega)]
    rfl

theorem delItem_spec (s : LM α) (i : ℤ) : (delItem s i).1.items = (listCall s.items (.del i)).1 ∧
    (delItem s i).2 = (listCall s.items (.del i)).2 ∧
    ∃ ns, (delItem s i).1.log = s.log ++ ns ∧ Replays s.items ns (delItem s i).1.items := by
  rcases removeItem_cases s i with ⟨v, l, h1, h2, h3⟩ | ⟨h1, h2⟩
  · simp only [delItem, h3, listCall, h2]
    exact ⟨trivial, trivial, [.removed v i], rfl, .rem h1 h2 (.nil _)⟩
  · have : Py.del? s.items i = none := by rw [Py.del?, h1]; rfl
    simp only [delItem, h2, listCall, this]
    exact ⟨trivial, trivial, [], by simp, .nil _⟩

theorem pop_spec (s : LM α) (i : ℤ) : (pop s i).1.items = (listCall s.items (.pop i)).1 ∧
    (pop s i).2 = (listCall s.items (.pop i)).2 ∧
    ∃ ns, (pop s i).1.log = s.log ++ ns ∧ Replays s.items ns (pop s i).1.items := by
  rcases removeItem_cases s i with ⟨v, l, h1, h2, h3⟩ | ⟨h1, h2⟩
  · simp only [pop, getItem, delItem, h3, listCall, h2, h1]
    exact ⟨trivial, trivial, [.removed v i], rfl, .rem h1 h2 (.nil _)⟩
  · have h3 : Py.get? s.items i = none := by rw [Py.get?, h1]; rfl
    simp only [pop, getItem, listCall, h3]
    exact ⟨trivial, trivial, [], by simp, .nil _⟩

theorem append_items (s : LM α) (v : α) : (append s v).items = s.items ++ [v] := by
  rw [append, insertItem]
  exact Py.insert_length _ _

theorem extend_spec (vs : List α) (s : LM α) : (extend s vs).items = s.items ++ vs ∧
    ∃ ns, (extend s vs).log = s.log ++ ns ∧ Replays s.items ns (extend s vs).items := by
  induction vs generalizing s with
  | nil => exact ⟨by simp [extend], [], by simp [extend], .nil _⟩
  | cons v vs ih =>
    obtain ⟨h1, ns, h2, h3⟩ := ih (append s v)
    refine ⟨?_, .inserted v s.items.length :: ns, ?_, .ins h3⟩
    · change (extend (append s v) vs).items = _
      rw [h1, append_items]
      simp
    · change (extend (append s v) vs).log = _
      rw [h2, append, insertItem]
      simp

theorem clear_spec (n : ℕ) (s : LM α) (h : s.items.length < n) : (clearLoop n s).items = [] ∧
    ∃ ns, (clearLoop n s).log = s.log ++ ns ∧ Replays s.items ns (clearLoop n s).items := by
  induction n generalizing s with
  | zero => omega
  | succ n ih =>
    obtain ⟨h1, h2, ns, h3, h4⟩ := pop_spec s (-1)
    rcases removeItem_cases s (-1) with ⟨v, l, g1, g2, g3⟩ | ⟨g1, g2⟩
    · simp only [listCall, g1, g2] at h1 h2
      have hl : l.length < s.items.length := by
        rw [Py.del?] at g2
        cases hi : Py.index? s.items.length (-1) with
        | none => rw [hi] at g2; cases g2
        | some k =>
          rw [hi] at g2
          cases g2
          have := Py.index?_lt hi
          rw [List.length_eraseIdx_of_lt this]
          omega
      obtain ⟨i1, ms, i2, i3⟩ := ih (pop s (-1)).1 (by rw [h1]; omega)
      have e : clearLoop (n + 1) s = clearLoop n (pop s (-1)).1 := by
        rw [clearLoop]
        split
        · next h => rw [h] at h2; cases h2
        · next h => rw [h]
      rw [e]
      exact ⟨i1, ns ++ ms, by rw [i2, h3, List.append_assoc], h4.append i3⟩
    · have h0 : s.items = [] := by
        by_contra h0
        have := List.length_pos_iff.2 h0
        unfold Py.index? at g1
        split_ifs at g1
        omega
      have : pop s (-1) = (s, .exc .indexError) := by
        have h3 : Py.get? s.items (-1) = none := by rw [Py.get?, g1]; rfl
        simp only [pop, getItem, h3]
      rw [clearLoop, this]
      exact ⟨h0, [], by simp, .nil _⟩

theorem iterLoop_spec (s : LM α) (n k : ℕ) (h : s.items.length < n + k) : iterLoop s n k = s.items.drop k := by
  induction n generalizing k with
  | zero => rw [iterLoop, List.drop_eq_nil_of_le (by omega)]
  | succ n ih =>
    rw [iterLoop, getItem_nat]
    by_cases hk : k < s.items.length
    · rw [List.getElem?_eq_getElem hk]
      simp only
      have := ih (k + 1) (by omega)
      push_cast at this
      rw [this, ← List.drop_eq_getElem_cons hk]
    · rw [List.getElem?_eq_none (by omega), List.drop_eq_nil_of_le (by omega)]

theorem iter_eq (s : LM α) : iter s = s.items := by
  rw [iter]
  have := iterLoop_spec s (s.items.length + 1) 0 (by omega)
  simpa using this

theorem filterMap_range (l : List α) : (List.range l.length).filterMap (fun k => l[k]?) = l := by
  induction l with
  | nil => rfl
  | cons a l ih =>
    rw [List.length_cons, List.range_succ_eq_map, List.filterMap_cons_some (b := a) (by simp), List.filterMap_map]
    congr 1

theorem reversed_eq (s : LM α) : reversed s = s.items.reverse := by
  rw [reversed, List.filterMap_reverse]
  congr 1
  simp only [getItem_nat]
  exact filterMap_range _

/-- The loop finds the first index from `k` on, if any. -/
theorem indexLoop_spec (s : LM α) (v : α) (stop : Option ℤ) (n k : ℕ) (h : s.items.length < n + k) :
    match indexLoop s v stop n k with
    | none => ∀ j : ℕ, k ≤ j → (∀ e ∈ stop, (j : ℤ) < e) → s.items[j]? ≠ some v
    | some i => ∃ j : ℕ, i = j ∧ k ≤ j ∧ (∀ e ∈ stop, (j : ℤ) < e) ∧ s.items[j]? = some v ∧
        ∀ j' : ℕ, k ≤ j' → j' < j → s.items[j']? ≠ some v := by
  induction n generalizing k with
  | zero =>
    simp only [indexLoop]
    intro j hj _
    rw [List.getElem?_eq_none (by omega)]
    simp
  | succ n ih =>
    rw [indexLoop]
    have hstop : before stop k = decide (∀ e ∈ stop, (k : ℤ) < e) := by
      cases stop <;> simp [before]
    rw [hstop]
    by_cases hs : ∀ e ∈ stop, (k : ℤ) < e
    · rw [if_pos (decide_eq_true hs), getItem_nat]
      by_cases hk : k < s.items.length
      · rw [List.getElem?_eq_getElem hk]
        simp only
        by_cases hv : s.items[k] = v
        · rw [if_pos hv]
          exact ⟨k, rfl, le_rfl, hs, by rw [List.getElem?_eq_getElem hk, hv], fun j' h1 h2 => absurd h1 (by omega)⟩
        · rw [if_neg hv]
          have hne : s.items[k]? ≠ some v := by
            rw [List.getElem?_eq_getElem hk]
            exact fun h => hv (Option.some.inj h)
          have := ih (k + 1) (by omega)
          push_cast at this
          cases hl : indexLoop s v stop n ((k : ℤ) + 1) with
          | none =>
            rw [hl] at this
            simp only at this ⊢
            intro j hj he
            by_cases hjk : j = k
            · exact hjk ▸ hne
            · exact this j (by omega) he
          | some i =>
            rw [hl] at this
            simp only at this ⊢
            obtain ⟨j, h1, h2, h3, h4, h5⟩ := this
            refine ⟨j, h1, by omega, h3, h4, fun j' h6 h7 => ?_⟩
            by_cases hjk : j' = k
            · exact hjk ▸ hne
            · exact h5 j' (by omega) h7
      · rw [List.getElem?_eq_none (by omega)]
        simp only
        intro j hj _
        rw [List.getElem?_eq_none (by omega)]
        simp
    · rw [if_neg (by simpa using hs)]
      simp only
      intro j hj he
      exact absurd (fun e h => lt_of_le_of_lt (by omega) (he e h)) hs

theorem index_spec (s : LM α) (v : α) (a : ℤ) (b : Option ℤ) :
    (index s v a b).map Int.toNat = (List.range s.items.length).find? (fun k : ℕ =>
        decide (bound s.items.length a ≤ k ∧ (∀ e ∈ b, (k : ℤ) < bound s.items.length e) ∧ s.items[k]? = some v)) ∧
      ∀ i, index s v a b = some i → 0 ≤ i := by
  obtain ⟨k, hk⟩ : ∃ k : ℕ, bound s.items.length a = k := by
    rw [bound]
    split_ifs with h
    · exact ⟨_, (Int.toNat_of_nonneg (le_max_right _ _)).symm⟩
    · exact ⟨_, (Int.toNat_of_nonneg (by omega)).symm⟩
  have hstart : (if a < 0 then max ((s.items.length : ℤ) + a) 0 else a) = k := by
    rw [← hk, bound, add_comm]
  have hb : ∀ j : ℕ, (∀ e ∈ b.map fun e : ℤ => if e < 0 then e + (s.items.length : ℤ) else e, (j : ℤ) < e) ↔
      ∀ e ∈ b, (j : ℤ) < bound s.items.length e := by
    intro j
    cases b with
    | none => simp
    | some e =>
      simp only [Option.map_some, Option.mem_some_iff, forall_eq', bound]
      split_ifs <;> omega
  rw [hk]
  simp only [index, hstart]
  have := indexLoop_spec s v (b.map fun e : ℤ => if e < 0 then e + (s.items.length : ℤ) else e) (s.items.length + 1) k (by omega)
  cases hl : indexLoop s v (b.map fun e : ℤ => if e < 0 then e + (s.items.length : ℤ) else e) (s.items.length + 1) k with
  | none =>
    rw [hl] at this
    simp only [hb] at this
    refine ⟨?_, by simp⟩
    rw [Option.map_none, eq_comm, List.find?_eq_none]
    intro j hj
    simp only [decide_eq_true_eq, not_and]
    exact fun h1 h2 => this j (by exact_mod_cast h1) h2
  | some i =>
    rw [hl] at this
    simp only [hb] at this
    obtain ⟨j, rfl, h2, h3, h4, h5⟩ := this
    refine ⟨?_, by rintro i ⟨⟩; omega⟩
    rw [Option.map_some, Int.toNat_natCast, eq_comm, List.find?_range_eq_some]
    refine ⟨?_, ?_, ?_⟩
    · simp only [decide_eq_true_eq]
      exact ⟨by exact_mod_cast h2, h3, h4⟩
    · exact List.mem_range.2 (List.getElem?_eq_some_iff.1 h4).1
    · intro j' h6
      simp only [Bool.not_eq_true', decide_eq_false_iff_not, not_and]
      exact fun h7 h8 => h5 j' (by exact_mod_cast h7) h6

theorem find_erase (l : List α) (v : α) :
    match (List.range l.length).find? (fun k : ℕ => decide (l[k]? = some v)) with
    | none => v ∉ l
    | some k => v ∈ l ∧ k < l.length ∧ l.erase v = l.eraseIdx k := by
  split
  · next h =>
    rw [List.find?_eq_none] at h
    intro hv
    obtain ⟨k, hk, rfl⟩ := List.mem_iff_getElem.1 hv
    exact h k (List.mem_range.2 hk) (by simp [List.getElem?_eq_getElem hk])
  · next k h =>
    rw [List.find?_range_eq_some] at h
    obtain ⟨h1, h2, h3⟩ := h
    have hk := List.mem_range.1 h2
    have hv : l[k] = v := by simpa [List.getElem?_eq_getElem hk] using h1
    refine ⟨hv ▸ List.getElem_mem hk, hk, ?_⟩
    have hsplit : l = l.take k ++ v :: l.drop (k + 1) := by
      rw [← hv, ← List.drop_eq_getElem_cons hk, List.take_append_drop]
    have hnot : v ∉ l.take k := by
      intro hm
      obtain ⟨j, hj, he⟩ := List.mem_iff_getElem.1 hm
      rw [List.length_take] at hj
      have := h3 j (by omega)
      rw [List.getElem_take] at he
      simp [List.getElem?_eq_getElem (show j < l.length by omega), he] at this
    rw [List.eraseIdx_eq_take_drop_succ]
    conv_lhs => rw [hsplit]
    rw [List.erase_append_right _ hnot, List.erase_cons_head]

/-- C102 (partial: without assignment by subscript, `in` and `reverse`): the sequence works as a Python list, and what it notifies can be
replayed. -/
theorem C102_call_partial (s : LM α) (op : Op α) (h1 : ∀ i v, op ≠ .set i v) (h2 : ∀ v, op ≠ .contains v) (h3 : op ≠ .reverse) :
    (call s op).1.items = (listCall s.items op).1 ∧ (call s op).2 = (listCall s.items op).2 ∧
      ∃ ns, (call s op).1.log = s.log ++ ns ∧ Replays s.items ns (call s op).1.items := by
  have hrefl : ∃ ns, s.log = s.log ++ ns ∧ Replays s.items ns s.items := ⟨[], by simp, .nil _⟩
  cases op with
  | len => exact ⟨rfl, rfl, hrefl⟩
  | get i =>
    simp only [call, listCall, getItem]
    cases Py.get? s.items i <;> exact ⟨rfl, rfl, hrefl⟩
  | set i v => exact absurd rfl (h1 i v)
  | del i => exact delItem_spec s i
  | contains v => exact absurd rfl (h2 v)
  | insert i v => exact ⟨rfl, rfl, [.inserted v i], rfl, .ins (.nil _)⟩
  | append v => exact ⟨append_items s v, rfl, [.inserted v s.items.length], rfl, .ins (.nil _)⟩
  | extend vs => exact ⟨(extend_spec vs s).1, rfl, (extend_spec vs s).2⟩
  | pop i => exact pop_spec s i
  | remove v =>
    obtain ⟨g1, g2⟩ := index_spec s v 0 none
    have e : (fun k : ℕ => decide (bound s.items.length 0 ≤ k ∧ (∀ e ∈ (none : Option ℤ), (k : ℤ) < bound s.items.length e) ∧
        s.items[k]? = some v)) = fun k : ℕ => decide (s.items[k]? = some v) := by
      funext k
      simp [bound]
    rw [e] at g1
    have g3 := find_erase s.items v
    rw [← g1] at g3
    simp only [call, remove, listCall]
    cases hi : index s v 0 none with
    | none =>
      rw [hi] at g3
      simp only [Option.map_none] at g3
      simp only [if_neg g3]
      exact ⟨trivial, trivial, hrefl⟩
    | some i =>
      have := g2 i hi
      obtain ⟨k, rfl⟩ := Int.eq_ofNat_of_zero_le this
      rw [hi] at g3
      simp only [Option.map_some, Int.toNat_natCast] at g3
      obtain ⟨g4, g5, g6⟩ := g3
      obtain ⟨d1, d2, d3⟩ := delItem_spec s (k : ℤ)
      simp only [listCall, Py.del?_nat g5] at d1 d2
      simp only [if_pos g4, g6]
      exact ⟨d1, d2, d3⟩
  | clear =>
    obtain ⟨g1, g2⟩ := clear_spec (s.items.length + 1) s (by omega)
    exact ⟨g1, rfl, g2⟩
  | reverse => exact absurd rfl h3
  | index v a b =>
    obtain ⟨g1, g2⟩ := index_spec s v a b
    simp only [call, listCall]
    rw [← g1]
    cases index s v a b <;> exact ⟨rfl, rfl, hrefl⟩
  | count v =>
    refine ⟨rfl, ?_, hrefl⟩
    simp only [call, listCall, iter_eq, List.count_eq_length_filter]
    congr 2
  | iter =>
    refine ⟨rfl, ?_, hrefl⟩
    simp only [call, listCall, iter_eq]
  | reversed =>
    refine ⟨rfl, ?_, hrefl⟩
    simp only [call, listCall, reversed_eq]

/-- A history of calls: results and the final state. -/
def run (s : LM α) : List (Op α) → List (Ret α) × LM α
  | [] => ([], s)
  | op :: ops => let (rs, t) := run (call s op).1 ops; ((call s op).2 :: rs, t)

def listRun (l : List α) : List (Op α) → List (Ret α) × List α
  | [] => ([], l)
  | op :: ops => let (rs, t) := listRun (listCall l op).1 ops; ((listCall l op).2 :: rs, t)

/-- The calls which are those of a list. -/
def Op.ok : Op α → Bool
  | .set _ _ => false
  | .contains _ => false
  | .reverse => false
  | _ => true

/-- C102 (partial: without assignment by subscript, `in` and `reverse`): every history of calls has the results it has on a list, ends with
the same items, and an observer can replay the notifications. -/
theorem C102_list_partial (s : LM α) (ops : List (Op α)) (h : ∀ op ∈ ops, op.ok = true) :
    (run s ops).1 = (listRun s.items ops).1 ∧ (run s ops).2.items = (listRun s.items ops).2 ∧
      ∃ ns, (run s ops).2.log = s.log ++ ns ∧ Replays s.items ns (run s ops).2.items := by
  induction ops generalizing s with
  | nil => exact ⟨rfl, rfl, [], by simp [run], .nil _⟩
  | cons op ops ih =>
    have hop := h op List.mem_cons_self
    obtain ⟨h1, h2, ns, h3, h4⟩ := C102_call_partial s op (by rintro i v rfl; cases hop) (by rintro v rfl; cases hop)
      (by rintro rfl; cases hop)
    obtain ⟨i1, i2, ms, i3, i4⟩ := ih (call s op).1 fun o ho => h o (List.mem_cons_of_mem _ ho)
    simp only [run, listRun]
    rw [h1] at i1 i2
    exact ⟨by rw [h2, i1], i2, ns ++ ms, by rw [i3, h3, List.append_assoc], h4.append i4⟩

/-- C102: a call that raises changes and notifies nothing. -/
theorem C102_raises (s : LM α) (op : Op α) (e : Exc) (h : (call s op).2 = .exc e) : (call s op).1 = s := by
  have hdel : ∀ i e, (delItem s i).2 = .exc e → (delItem s i).1 = s := by
    intro i e h
    rcases removeItem_cases s i with ⟨v, l, h1, h2, h3⟩ | ⟨h1, h2⟩
    · simp [delItem, h3] at h
    · simp [delItem, h2]
  cases op with
  | del i => exact hdel i e h
  | pop i =>
    simp only [call, pop] at h ⊢
    cases hg : getItem s i with
    | none => simp
    | some v =>
      rw [hg] at h
      simp only at h ⊢
      have := hdel i
      generalize delItem s i = p at h this
      rcases p with ⟨s', r⟩
      cases r with
      | exc e' => exact this e' rfl
      | unit | item | num | bool | list => cases h
  | remove v =>
    simp only [call, remove] at h ⊢
    cases hg : index s v 0 none with
    | none => simp
    | some i =>
      rw [hg] at h
      exact hdel i e h
  | get i =>
    simp only [call]
    cases getItem s i <;> rfl
  | index v a b =>
    simp only [call]
    cases index s v a b <;> rfl
  | reverse =>
    simp only [call, reverse]
    split_ifs <;> rfl
  | len | set | contains | count | iter | reversed => rfl
  | insert i v => cases h
  | append v => cases h
  | extend vs => cases h
  | clear => cases h

/-- C102, counterexample: assignment by subscript and `in` raise for every sequence, `reverse` for every sequence of two or more items. -/
theorem C102_counterexample (s : LM α) :
    (∀ i v, (call s (.set i v)).2 = .exc .indexError) ∧ (∀ v, (call s (.contains v)).2 = .exc .attributeError) ∧
      (2 ≤ s.items.length → (call s .reverse).2 = .exc .indexError) ∧
      ∃ l : List ℕ, (listCall l (.set 0 5)).2 = .unit ∧ (listCall l (.contains 5)).2 = .bool false ∧ (listCall l .reverse).2 = .unit ∧
        2 ≤ l.length := by
  refine ⟨fun _ _ => rfl, fun _ => rfl, fun h => ?_, [1, 2], by decide⟩
  simp only [call, reverse]
  rw [if_neg (by omega)]

/-- `n` rounds of the loop of `record.field.extend(record.field)`: the two objects are different ones, so `values is self` is false and the
items are read one after the other from the list that grows; `none` if the loop has ended. -/
def extendSelf : ℕ → ℕ → LM α → Option (LM α)
  | 0, _, s => some s
  | n + 1, k, s =>
    match getItem s k with
    | none => none
    | some v => extendSelf n (k + 1) (append s v)

/-- C102, counterexample: extending an array field by itself never ends unless it is empty. -/
theorem C102_counterexample_extend (s : LM α) (h : s.items ≠ []) (n : ℕ) :
    ∃ t, extendSelf n 0 s = some t ∧ t.items.length = s.items.length + n := by
  suffices key : ∀ (n k : ℕ) (s : LM α), k < s.items.length → ∃ t, extendSelf n k s = some t ∧ t.items.length = s.items.length + n from
    key n 0 s (List.length_pos_iff.2 h)
  intro n
  induction n with
  | zero => exact fun k s _ => ⟨s, rfl, rfl⟩
  | succ n ih =>
    intro k s hk
    rw [extendSelf, getItem_nat, List.getElem?_eq_getElem hk]
    obtain ⟨t, h1, h2⟩ := ih (k + 1) (append s s.items[k]) (by rw [append_items]; simp [hk])
    refine ⟨t, h1, ?_⟩
    rw [h2, append_items]
    simp
    omega

example : (run (⟨[1, 2, 3, 2], []⟩ : LM ℕ) [.remove 2, .pop (-1), .insert 9 7, .index 3 (-2) none, .index 3 0 (some 1), .count 7, .reversed,
    .pop 5, .extend [8, 8], .clear, .len]).1 = [.unit, .item 2, .unit, .num 1, .exc .valueError, .num 1, .list [7, 3, 1],
    .exc .indexError, .unit, .unit, .num 0] := by decide

end Verif.Structured.Sequence
