import Mathlib.Data.List.Nodup
import Verif.Py.Basic

/-!
Python dictionaries as association lists in insertion order: assigning to a present key keeps its place, deleting removes
it, a new key goes to the end. These follow the Python language reference, not a file of the repository.
-/

namespace Verif.Py

section
variable {κ β : Type*} [DecidableEq κ]

/-- `d.get(k)` -/
def dget (d : List (κ × β)) (k : κ) : Option β :=
  match d with
  | [] => none
  | (k', v) :: d => if k' = k then some v else dget d k

/-- `d[k] = v` -/
def dset (d : List (κ × β)) (k : κ) (v : β) : List (κ × β) :=
  match d with
  | [] => [(k, v)]
  | (k', v') :: d => if k' = k then (k, v) :: d else (k', v') :: dset d k v

/-- `d.pop(k, None)` -/
def ddel (d : List (κ × β)) (k : κ) : List (κ × β) :=
  match d with
  | [] => []
  | (k', v') :: d => if k' = k then d else (k', v') :: ddel d k

/-- `list(d.keys())` -/
def dkeys (d : List (κ × β)) : List κ := d.map Prod.fst

theorem dget_dset (d : List (κ × β)) (k k' : κ) (v : β) :
    dget (dset d k v) k' = if k = k' then some v else dget d k' := by
  induction d with
  | nil => simp [dset, dget]
  | cons p d ih =>
    obtain ⟨a, b⟩ := p
    simp only [dset]
    by_cases h : a = k
    · subst h
      simp only [if_true, dget]
      split <;> rfl
    · simp only [if_neg h, dget, ih]
      by_cases h1 : a = k'
      · have : ¬ k = k' := fun e => h (h1.trans e.symm)
        simp [h1, this]
      · simp [h1]

theorem dget_eq_none {d : List (κ × β)} {k : κ} : dget d k = none ↔ k ∉ dkeys d := by
  induction d with
  | nil => simp [dget, dkeys]
  | cons p d ih =>
    obtain ⟨a, b⟩ := p
    by_cases h : a = k
    · simp [dget, dkeys, h]
    · simp only [dget, if_neg h, ih, dkeys, List.map_cons, List.mem_cons, not_or]
      exact ⟨fun hh => ⟨fun e => h e.symm, hh⟩, fun hh => hh.2⟩

theorem dget_isSome {d : List (κ × β)} {k : κ} : (dget d k).isSome ↔ k ∈ dkeys d := by
  have := dget_eq_none (d := d) (k := k)
  cases h : dget d k with
  | none => simp [this.1 h]
  | some v => simp; by_contra hn; rw [this.2 hn] at h; cases h

theorem mem_of_dget {d : List (κ × β)} {k : κ} {v : β} (h : dget d k = some v) : (k, v) ∈ d := by
  induction d with
  | nil => simp [dget] at h
  | cons p d ih =>
    obtain ⟨a, b⟩ := p
    simp only [dget] at h
    split at h
    · rename_i e; cases h; simp [e]
    · simp [ih h]

theorem dget_of_mem {d : List (κ × β)} (hn : (dkeys d).Nodup) {k : κ} {v : β} (h : (k, v) ∈ d) : dget d k = some v := by
  induction d with
  | nil => simp at h
  | cons p d ih =>
    obtain ⟨a, b⟩ := p
    simp only [dkeys, List.map_cons, List.nodup_cons] at hn
    rcases List.mem_cons.1 h with e | h
    · cases e; simp [dget]
    · have : a ≠ k := by
        rintro rfl
        exact hn.1 (List.mem_map.2 ⟨(a, v), h, rfl⟩)
      simp only [dget, if_neg this]
      exact ih hn.2 h

theorem mem_iff_dget {d : List (κ × β)} (hn : (dkeys d).Nodup) {k : κ} {v : β} : (k, v) ∈ d ↔ dget d k = some v :=
  ⟨dget_of_mem hn, mem_of_dget⟩

theorem dkeys_dset (d : List (κ × β)) (k : κ) (v : β) :
    dkeys (dset d k v) = if k ∈ dkeys d then dkeys d else dkeys d ++ [k] := by
  induction d with
  | nil => simp [dset, dkeys]
  | cons p d ih =>
    obtain ⟨a, b⟩ := p
    simp only [dset]
    by_cases h : a = k
    · simp [dkeys, h]
    · simp only [dkeys] at ih
      simp only [if_neg h, dkeys, List.map_cons, ih, List.mem_cons]
      by_cases hk : k ∈ List.map Prod.fst d
      · simp [hk]
      · simp [hk, Ne.symm h]

theorem nodup_dset {d : List (κ × β)} (h : (dkeys d).Nodup) (k : κ) (v : β) : (dkeys (dset d k v)).Nodup := by
  rw [dkeys_dset]
  split
  · exact h
  · rename_i hk
    rw [List.nodup_append]
    refine ⟨h, List.nodup_singleton k, ?_⟩
    intro a ha b hb
    rw [List.mem_singleton] at hb
    rintro rfl; subst hb; exact hk ha

theorem ddel_sublist (d : List (κ × β)) (k : κ) : (ddel d k).Sublist d := by
  induction d with
  | nil => exact List.Sublist.slnil
  | cons p d ih =>
    obtain ⟨a, b⟩ := p
    simp only [ddel]
    split
    · exact List.sublist_cons_self _ _
    · exact ih.cons_cons _

theorem nodup_ddel {d : List (κ × β)} (h : (dkeys d).Nodup) (k : κ) : (dkeys (ddel d k)).Nodup :=
  h.sublist ((ddel_sublist d k).map _)

theorem dget_ddel {d : List (κ × β)} (h : (dkeys d).Nodup) (k k' : κ) :
    dget (ddel d k) k' = if k = k' then none else dget d k' := by
  induction d with
  | nil => simp [ddel, dget]
  | cons p d ih =>
    obtain ⟨a, b⟩ := p
    simp only [dkeys, List.map_cons, List.nodup_cons] at h
    simp only [ddel]
    by_cases ha : a = k
    · subst ha
      rw [if_pos rfl]
      by_cases hk : a = k'
      · subst hk; rw [if_pos rfl]; exact dget_eq_none.2 h.1
      · simp [hk, dget]
    · rw [if_neg ha]
      simp only [dget, ih h.2]
      by_cases h1 : a = k'
      · have : ¬ k = k' := fun e => ha (h1.trans e.symm)
        simp [h1, this]
      · simp [h1]

end

end Verif.Py
