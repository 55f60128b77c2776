import Mathlib.Data.List.InsertIdx
import Mathlib.Tactic.Linarith
import Mathlib.Tactic.SplitIfs

/-!
Python primitives used by all models: exceptions, list indexing, `list.insert`, `del list[i]`, `range`.
These follow the Python language reference, not a file of the repository.
-/

namespace Verif.Py

/-- The exceptions the modelled code can raise. `user n` is an exception raised by client code. -/
inductive Exc where
  | keyError | indexError | valueError | assertionError | attributeError | typeError | recursionError
  | runtimeError | user (n : Nat)
  deriving DecidableEq, Repr

/-- Position used by `list.insert(i, x)` for a list of length `n`: negative indexes count from the end,
everything is clamped to `0 … n`. -/
def insertPos (n : Nat) (i : Int) : Nat :=
  if i < 0 then (i + n).toNat else min i.toNat n

/-- `list.insert(i, x)`. -/
def insert {α} (l : List α) (i : Int) (x : α) : List α :=
  l.insertIdx (insertPos l.length i) x

/-- Position denoted by the subscript `i` in a list of length `n`, `none` for `IndexError`. -/
def index? (n : Nat) (i : Int) : Option Nat :=
  if 0 ≤ i ∧ i < n then some i.toNat
  else if -(n : Int) ≤ i ∧ i < 0 then some (i + n).toNat
  else none

/-- `l[i]`. -/
def get? {α} (l : List α) (i : Int) : Option α := (index? l.length i).bind fun k => l[k]?

/-- `del l[i]` (also the list left by `l.pop(i)`). -/
def del? {α} (l : List α) (i : Int) : Option (List α) := (index? l.length i).map fun k => l.eraseIdx k

/-- `range(lo, hi)` as the list of integers it yields. -/
def range (lo hi : Int) : List Int := (List.range (hi - lo).toNat).map fun (k : Nat) => lo + (k : Int)

theorem mem_range {lo hi x : Int} : x ∈ range lo hi ↔ lo ≤ x ∧ x < hi := by
  simp only [range, List.mem_map, List.mem_range]
  constructor
  · rintro ⟨k, hk, rfl⟩; omega
  · rintro ⟨h1, h2⟩; exact ⟨(x - lo).toNat, by omega, by omega⟩

theorem insertPos_le (n : Nat) (i : Int) : insertPos n i ≤ n := by
  unfold insertPos; split <;> omega

theorem insertPos_nat {n i : Nat} (h : i ≤ n) : insertPos n (i : Int) = i := by
  unfold insertPos; split <;> omega

theorem index?_lt {n : Nat} {i : Int} {k : Nat} (h : index? n i = some k) : k < n := by
  unfold index? at h; split_ifs at h <;> simp at h <;> omega

theorem index?_nat {n i : Nat} (h : i < n) : index? n (i : Int) = some i := by
  unfold index?; rw [if_pos (by omega)]; simp

theorem index?_nat_none {n i : Nat} (h : n ≤ i) : index? n (i : Int) = none := by
  unfold index?; rw [if_neg (by omega), if_neg (by omega)]

theorem insert_nat {α} {l : List α} {i : Nat} (h : i ≤ l.length) (x : α) :
    insert l (i : Int) x = l.insertIdx i x := by
  unfold insert; rw [insertPos_nat h]

theorem del?_nat {α} {l : List α} {i : Nat} (h : i < l.length) :
    del? l (i : Int) = some (l.eraseIdx i) := by
  unfold del?; rw [index?_nat h]; rfl

theorem get?_nat {α} {l : List α} {i : Nat} (h : i < l.length) :
    get? l (i : Int) = some l[i] := by
  unfold get?; rw [index?_nat h]; simp [h]

theorem length_insert {α} (l : List α) (i : Int) (x : α) : (insert l i x).length = l.length + 1 := by
  unfold insert; rw [List.length_insertIdx_of_le_length (insertPos_le _ _)]

theorem insert_length {α} (l : List α) (x : α) : insert l (l.length : Int) x = l ++ [x] := by
  rw [insert_nat (Nat.le_refl _)]; simp

end Verif.Py
