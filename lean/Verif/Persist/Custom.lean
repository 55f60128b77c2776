import Verif.Persist.Storage

/-!
Properties with a custom reader and writer (`nion/utils/Persistence.py:63-79, 562-597`).

A custom writer gets the dict that is being written and puts any number of entries into it; `entries v` are the entries it puts for the
value `v` (a writer that removes entries of other properties is not modelled). An ordinary property is the case of at most one entry. When such
a property is assigned, the writer runs on an empty dict and every entry is passed to the storage; if there is none, the storage is told
to clear the property under its name.
-/

namespace Verif.Persist.Custom

open Verif.Py

variable {V : Type}

structure CProp (V : Type) where
  name : String
  entries : V → Dict
  reader : Dict → Option V
  validate : V → V

/-- Lines 77-79. -/
def CProp.writeTo (p : CProp V) (v : V) (d : Dict) : Dict := (p.entries v).foldl (fun d e => dset d e.1 e.2) d

/-- Lines 582-597. -/
def updateStorage (p : CProp V) (v : V) (d : Dict) : Dict :=
  match p.writeTo v [] with
  | [] => dpop d p.name
  | e :: es => (e :: es).foldl (fun d e => dset d e.1 e.2) d

/-- The values of the object's properties and the dict its storage keeps. -/
structure CObj (V : Type) where
  values : List V
  storage : Dict

/-- Lines 644-661 and 616-621 for the property with the number `i`. -/
def CObj.assign (ps : List (CProp V)) (s : CObj V) (i : Nat) (v : V) : CObj V :=
  match ps[i]? with
  | some p => ⟨s.values.set i (p.validate v), updateStorage p (p.validate v) s.storage⟩
  | none => s

def CObj.run (ps : List (CProp V)) (s : CObj V) (ops : List (Nat × V)) : CObj V := ops.foldl (fun s o => s.assign ps o.1 o.2) s

/-- Lines 568-570 of `write_to_dict`: all properties into one dict. -/
def writeAll : List (CProp V) → List V → Dict → Dict
  | p :: ps, v :: vs, d => writeAll ps vs (p.writeTo v d)
  | _, _, d => d

/-- Lines 63-67 for a property that had the value `v`. -/
def CProp.readFrom (p : CProp V) (v : V) (d : Dict) : V :=
  match p.reader d with
  | some w => p.validate w
  | none => v

/-! ### Dicts -/

/-- The keys of a dict are distinct. -/
def Keyed (d : Dict) : Prop := (d.map Prod.fst).Nodup

theorem mem_keys_dset {d : Dict} {k k' : String} {v : J} : k' ∈ (dset d k v).map Prod.fst ↔ k' = k ∨ k' ∈ d.map Prod.fst := by
  induction d with
  | nil => simp [dset]
  | cons e d ih =>
    obtain ⟨a, b⟩ := e
    simp only [dset]
    split
    · rename_i h; subst h; simp
    · simp only [List.map_cons, List.mem_cons, ih]; tauto

theorem keyed_dset {d : Dict} (h : Keyed d) (k : String) (v : J) : Keyed (dset d k v) := by
  induction d with
  | nil => simp [dset, Keyed]
  | cons e d ih =>
    obtain ⟨a, b⟩ := e
    unfold Keyed at h ih ⊢
    rw [List.map_cons, List.nodup_cons] at h
    simp only [dset]
    split
    · rename_i h0; subst h0; rw [List.map_cons, List.nodup_cons]; exact h
    · rename_i h0
      rw [List.map_cons, List.nodup_cons]
      refine ⟨fun hh => ?_, ih h.2⟩
      rcases mem_keys_dset.1 hh with hh | hh
      · exact h0 hh.symm
      · exact h.1 hh

theorem keyed_foldl (es : Dict) {d : Dict} (h : Keyed d) : Keyed (es.foldl (fun d e => dset d e.1 e.2) d) := by
  induction es generalizing d with
  | nil => exact h
  | cons e es ih => exact ih (keyed_dset h _ _)

/-- An entry set later wins. -/
theorem lookup_foldl (es d : Dict) (k : String) :
    (es.foldl (fun d e => dset d e.1 e.2) d).lookup k = (es.reverse.lookup k).or (d.lookup k) := by
  induction es generalizing d with
  | nil => simp
  | cons e es ih =>
    rw [List.foldl_cons, ih, List.reverse_cons, List.lookup_append, Option.or_assoc]
    congr 1
    obtain ⟨a, b⟩ := e
    by_cases h : k = a
    · subst h; simp [lookup_dset_self]
    · rw [lookup_dset_ne _ _ h]
      have : (k == a) = false := by simpa using h
      simp [List.lookup, this]

theorem lookup_eq_some {d : Dict} (h : Keyed d) (k : String) (j : J) : d.lookup k = some j ↔ (k, j) ∈ d := by
  induction d with
  | nil => simp
  | cons e d ih =>
    obtain ⟨a, b⟩ := e
    unfold Keyed at h ih
    rw [List.map_cons, List.nodup_cons] at h
    by_cases hk : k = a
    · subst hk
      simp only [List.lookup, beq_self_eq_true, Option.some.injEq, List.mem_cons, Prod.mk.injEq, true_and]
      constructor
      · intro hh; exact .inl hh.symm
      · rintro (hh | hh)
        · exact hh.symm
        · exact absurd (List.mem_map.2 ⟨_, hh, rfl⟩) h.1
    · have hb : (k == a) = false := by simpa using hk
      simp only [List.lookup, hb, List.mem_cons, Prod.mk.injEq, hk, false_and, false_or]
      exact ih h.2

theorem lookup_reverse {d : Dict} (h : Keyed d) (k : String) : d.reverse.lookup k = d.lookup k := by
  have hr : Keyed d.reverse := by
    unfold Keyed at h ⊢
    rw [List.map_reverse, List.nodup_reverse]; exact h
  refine Option.ext fun j => ?_
  rw [lookup_eq_some hr, lookup_eq_some h, List.mem_reverse]

/-- What a property writes for a value, by key. -/
def CProp.says (p : CProp V) (v : V) (k : String) : Option J := (p.writeTo v []).lookup k

theorem lookup_writeTo (p : CProp V) (v : V) (d : Dict) (k : String) : (p.writeTo v d).lookup k = (p.says v k).or (d.lookup k) := by
  unfold CProp.says CProp.writeTo
  rw [lookup_foldl, lookup_foldl]; simp

theorem lookup_update (p : CProp V) (v : V) (d : Dict) (k : String) :
    (updateStorage p v d).lookup k =
      if p.entries v = [] then (if k = p.name then none else d.lookup k) else (p.says v k).or (d.lookup k) := by
  unfold updateStorage
  have hk : Keyed (p.writeTo v []) := keyed_foldl _ (by simp [Keyed])
  have hnil : p.writeTo v [] = [] ↔ p.entries v = [] := by
    unfold CProp.writeTo
    cases h : p.entries v with
    | nil => simp
    | cons e es =>
      simp only [List.foldl_cons, reduceCtorEq, iff_false]
      intro hh
      have h1 := lookup_foldl es (dset [] e.1 e.2) e.1
      rw [hh, lookup_dset_self] at h1
      simp at h1
  split
  · rename_i h0
    rw [if_pos (hnil.1 h0)]
    split
    · rename_i hkn; subst hkn; exact lookup_dpop_self _ _
    · rename_i hkn; exact lookup_dpop_ne _ hkn
  · rename_i e es h0
    rw [if_neg (fun hh => by rw [hnil.2 hh] at h0; cases h0), lookup_foldl, ← h0, lookup_reverse hk]
    rfl

/-! ### What the storage has -/

/-- The property may write the key. -/
def CProp.Owns (p : CProp V) (k : String) : Prop := ∃ v, p.says v k ≠ none

/-- No two properties write the same key, and none writes the name of another. -/
def Apart (ps : List (CProp V)) : Prop :=
  ∀ (i j : Nat) (p q : CProp V), ps[i]? = some p → ps[j]? = some q → i ≠ j → (∀ k, p.Owns k → ¬ q.Owns k) ∧ ¬ q.Owns p.name

/-- Specification: for every key that a property may write, the storage has what the property writes for its value. -/
def CObj.Sync (ps : List (CProp V)) (s : CObj V) : Prop :=
  ∀ (i : Nat) (p : CProp V) (v : V), ps[i]? = some p → s.values[i]? = some v → ∀ k, p.Owns k → s.storage.lookup k = p.says v k

/-- The new value's entries replace all the entries of the old one. -/
def CProp.Covers (p : CProp V) (old new : V) : Prop :=
  if p.entries new = [] then ∀ k, p.says old k ≠ none → k = p.name else ∀ k, p.says old k ≠ none → p.says new k ≠ none

theorem says_nil {p : CProp V} {v : V} (h : p.entries v = []) (k : String) : p.says v k = none := by
  simp [CProp.says, CProp.writeTo, h]

/-- C128, exactly: an assignment keeps the storage in step if and only if the entries of the new value replace all those of the old one (or
there are none any more and the old one was stored under the property's name). -/
theorem C128_assign_iff_partial (ps : List (CProp V)) (ha : Apart ps) (s : CObj V) (hs : s.Sync ps) (i : Nat) (p : CProp V) (old new : V)
    (hp : ps[i]? = some p) (hv : s.values[i]? = some old) :
    (s.assign ps i new).Sync ps ↔ p.Covers old (p.validate new) := by
  have hlen : i < s.values.length := (List.getElem?_eq_some_iff.1 hv).1
  have hval : (s.values.set i (p.validate new))[i]? = some (p.validate new) := List.getElem?_set_self hlen
  unfold CObj.assign
  rw [hp]
  simp only
  constructor
  · intro h
    have hk := h i p _ hp hval
    unfold CProp.Covers
    split
    · rename_i hn
      intro k hko
      have h1 := hk k ⟨old, hko⟩
      rw [lookup_update, if_pos hn, says_nil hn] at h1
      by_contra hne
      rw [if_neg hne, hs i p old hp hv k ⟨old, hko⟩] at h1
      exact hko h1
    · rename_i hn
      intro k hko hkn
      have h1 := hk k ⟨old, hko⟩
      rw [lookup_update, if_neg hn, hkn, Option.none_or, hs i p old hp hv k ⟨old, hko⟩] at h1
      exact hko h1
  · intro h j q w hq hw k hko
    simp only at hw ⊢
    rw [lookup_update]
    by_cases hij : i = j
    · subst hij
      rw [hp] at hq; cases hq
      rw [hval] at hw; cases hw
      have hso := hs i p old hp hv k hko
      unfold CProp.Covers at h
      split at h
      · rename_i hn
        rw [if_pos hn, says_nil hn]
        split
        · rfl
        · rename_i hne
          rw [hso]
          by_contra hc
          exact hne (h k hc)
      · rename_i hn
        rw [if_neg hn, hso]
        cases hc : p.says (p.validate new) k with
        | some j => rfl
        | none =>
          rw [Option.none_or]
          by_contra hc2
          exact h k hc2 hc
    · rw [List.getElem?_set_ne hij] at hw
      have hso := hs j q w hq hw k hko
      have ho := ha i j p q hp hq hij
      split
      · rw [if_neg (fun hh : k = p.name => ho.2 (by rw [← hh]; exact hko))]; exact hso
      · have : p.says (p.validate new) k = none := by
          by_contra hc
          exact ho.1 k ⟨_, hc⟩ hko
        rw [this, Option.none_or]; exact hso

theorem says_some {p : CProp V} {v : V} (h : p.entries v ≠ []) : ∃ k, p.says v k ≠ none := by
  unfold CProp.says CProp.writeTo
  cases h0 : p.entries v with
  | nil => exact absurd h0 h
  | cons e es =>
    refine ⟨e.1, ?_⟩
    rw [List.foldl_cons, lookup_foldl, lookup_dset_self]
    cases es.reverse.lookup e.1 <;> simp

/-- The property writes the same keys for every value, and at least one. -/
def CProp.Steady (p : CProp V) : Prop := ∀ v w, p.entries v ≠ [] ∧ ∀ k, p.says v k ≠ none → p.says w k ≠ none

/-- The property writes one key or nothing, and the key is its name. -/
def CProp.Plain (p : CProp V) : Prop := ∀ v k, p.says v k ≠ none → k = p.name

/-- C128: after any sequence of assignments the storage has for each property what it writes for its value, if every property always writes
the same keys, or only its name. (Missing: other writers; see `C128_assign_iff_partial`.) -/
theorem C128_storage_partial (ps : List (CProp V)) (ha : Apart ps) (hp : ∀ p ∈ ps, p.Steady ∨ p.Plain) (s : CObj V) (hs : s.Sync ps)
    (hl : s.values.length = ps.length) (ops : List (Nat × V)) : (s.run ps ops).Sync ps := by
  induction ops generalizing s with
  | nil => exact hs
  | cons o ops ih =>
    obtain ⟨i, v⟩ := o
    cases hpi : ps[i]? with
    | none =>
      have e : s.assign ps i v = s := by simp [CObj.assign, hpi]
      have : s.run ps ((i, v) :: ops) = s.run ps ops := by simp [CObj.run, e]
      rw [this]; exact ih s hs hl
    | some p =>
      have hi : i < ps.length := (List.getElem?_eq_some_iff.1 hpi).1
      have hold : s.values[i]? = some (s.values[i]'(by omega)) := List.getElem?_eq_getElem _
      refine ih (s.assign ps i v) ((C128_assign_iff_partial ps ha s hs i p _ v hpi hold).2 ?_) ?_
      · unfold CProp.Covers
        rcases hp p (List.mem_of_getElem? hpi) with h | h
        · rw [if_neg (h (p.validate v) (p.validate v)).1]
          exact (h _ (p.validate v)).2
        · split
          · exact h _
          · rename_i hn
            intro k hk
            obtain ⟨k', hk'⟩ := says_some hn
            rw [h _ k hk, ← h _ k' hk']
            exact hk'
      · simp [CObj.assign, hpi, hl]

/-- C128: what `write_to_dict` writes for a property is in the dict under the property's keys, whatever the other properties write. -/
theorem C128_written_partial (ps : List (CProp V)) (ha : Apart ps) (vs : List V) (d : Dict) (i : Nat) (p : CProp V) (v : V)
    (hp : ps[i]? = some p) (hv : vs[i]? = some v) (k : String) (hk : p.Owns k) (hd : d.lookup k = none) :
    (writeAll ps vs d).lookup k = p.says v k := by
  have others : ∀ (qs : List (CProp V)) (ws : List V) (d : Dict), (∀ q ∈ qs, ¬ q.Owns k) → (writeAll qs ws d).lookup k = d.lookup k := by
    intro qs
    induction qs with
    | nil => intro ws d _; simp [writeAll]
    | cons q qs ih =>
      intro ws d h
      cases ws with
      | nil => simp [writeAll]
      | cons w ws =>
        rw [writeAll, ih ws _ (fun q' hq' => h q' (List.mem_cons_of_mem _ hq')), lookup_writeTo]
        have : q.says w k = none := by
          by_contra hc
          exact h q (by simp) ⟨w, hc⟩
        rw [this, Option.none_or]
  induction ps generalizing vs d i with
  | nil => simp at hp
  | cons q qs ih =>
    cases vs with
    | nil => simp at hv
    | cons w ws =>
      rw [writeAll]
      cases i with
      | zero =>
        simp only [List.getElem?_cons_zero, Option.some.injEq] at hp hv
        subst hp hv
        rw [others qs ws _ (fun q' hq' => ?_), lookup_writeTo, hd, Option.or_none]
        obtain ⟨j, hj⟩ := List.getElem?_of_mem hq'
        exact (ha 0 (j + 1) q q' (by simp) (by simpa using hj) (by omega)).1 k hk
      | succ i =>
        simp only [List.getElem?_cons_succ] at hp hv
        refine ih (fun a b x y hx hy hab => ha (a + 1) (b + 1) x y (by simpa using hx) (by simpa using hy) (by omega)) ws _ i hp hv ?_
        rw [lookup_writeTo, hd, Option.or_none]
        by_contra hc
        exact (ha (i + 1) 0 p q (by simpa using hp) (by simp) (by omega)).1 k hk ⟨w, hc⟩

/-- The reader looks only at keys the property may write, and gives back each value from what was written for it. -/
def CProp.Inverse (p : CProp V) : Prop :=
  ∀ (v : V) (d : Dict), (∀ k, p.Owns k → d.lookup k = p.says v k) → p.reader d = some v

/-- C128: reading back gives the value that was written, both from the dict of `write_to_dict` and from the storage, when the reader inverts the
writer. (`validate` must accept a stored value as it is.) -/
theorem C128_round_trip_partial (ps : List (CProp V)) (ha : Apart ps) (s : CObj V) (hs : s.Sync ps) (i : Nat) (p : CProp V) (v w : V)
    (hp : ps[i]? = some p) (hv : s.values[i]? = some v) (hi : p.Inverse) (hval : p.validate v = v) :
    p.readFrom w (writeAll ps s.values []) = v ∧ p.readFrom w s.storage = v := by
  constructor
  · have := hi v (writeAll ps s.values []) (fun k hk => C128_written_partial ps ha s.values [] i p v hp hv k hk rfl)
    simp [CProp.readFrom, this, hval]
  · have := hi v s.storage (fun k hk => hs i p v hp hv k hk)
    simp [CProp.readFrom, this, hval]

/-! ### Where it fails -/

/-- A size that is written under one key or another depending on its kind. -/
def sizeProp : CProp (Nat ⊕ Nat) :=
  { name := "size", entries := fun v => match v with | .inl n => [("pixels", .num n)] | .inr n => [("microns", .num n)],
    reader := fun d => match d.lookup "pixels" with
      | some (.num n) => some (.inl n)
      | _ => match d.lookup "microns" with | some (.num n) => some (.inr n) | _ => none,
    validate := id }

/-- A writer that writes different keys for different values leaves the entry of the old value in the storage, and reading the object back
from the storage gives the old value; `write_to_dict` and reading that dict gives the new one. -/
theorem C128_counterexample_stale :
    let s : CObj (Nat ⊕ Nat) := ⟨[.inl 5], [("pixels", .num 5)]⟩
    let s' := s.assign [sizeProp] 0 (.inr 7)
    s.Sync [sizeProp] ∧ s'.values = [.inr 7] ∧ sizeProp.readFrom (.inl 0) s'.storage = .inl 5 ∧
      sizeProp.readFrom (.inl 0) (writeAll [sizeProp] s'.values []) = .inr 7 := by
  refine ⟨?_, rfl, rfl, rfl⟩
  intro i p v hp hv k _
  cases i with
  | zero =>
    simp only [List.getElem?_cons_zero, Option.some.injEq] at hp hv
    subst hp hv
    rfl
  | succ i => simp at hp

/-- An optional note that is written under a key other than its name, or not at all. -/
def noteProp : CProp (Option Nat) :=
  { name := "note", entries := fun v => match v with | some n => [("annotation", .num n)] | none => [],
    reader := fun d => match d.lookup "annotation" with | some (.num n) => some (some n) | _ => none,
    validate := id }

/-- A writer that writes nothing for the new value leaves the old entry in the storage if its key is not the name of the property. -/
theorem C128_counterexample_cleared :
    let s : CObj (Option Nat) := ⟨[some 5], [("annotation", .num 5)]⟩
    let s' := s.assign [noteProp] 0 none
    s'.values = [none] ∧ s'.storage = [("annotation", .num 5)] ∧ noteProp.readFrom none s'.storage = some 5 :=
  ⟨rfl, rfl, rfl⟩

/-- Two properties whose writers use the same key: the later one in the order of definition is in the dict of `write_to_dict`, the one
assigned last in the storage. -/
theorem C128_counterexample_shared :
    let p : CProp (Nat ⊕ Nat) := { sizeProp with name := "a" }
    let s : CObj (Nat ⊕ Nat) := ⟨[.inl 1, .inl 2], []⟩
    let s' := (s.assign [p, sizeProp] 1 (.inl 2)).assign [p, sizeProp] 0 (.inl 1)
    s'.storage = [("pixels", .num 1)] ∧ writeAll [p, sizeProp] s'.values [] = [("pixels", .num 2)] :=
  ⟨rfl, rfl⟩

/-! ### A concrete case -/

/-- A position that is written as two entries, and a label under its name. -/
def posProp : CProp (Nat × Nat) :=
  { name := "pos", entries := fun v => [("x", .num v.1), ("y", .num v.2)],
    reader := fun d => match d.lookup "x", d.lookup "y" with | some (.num x), some (.num y) => some (x, y) | _, _ => none,
    validate := id }

def labelProp : CProp (Nat × Nat) :=
  { name := "label", entries := fun v => if v.1 = 0 then [] else [("label", .num v.1)],
    reader := fun d => match d.lookup "label" with | some (.num x) => some (x, 0) | _ => none,
    validate := id }

example (ops : List (Nat × (Nat × Nat))) :
    let ps := [posProp, labelProp]
    let s : CObj (Nat × Nat) := (⟨[(1, 2), (0, 0)], [("uuid", .str "u"), ("x", .num 1), ("y", .num 2)]⟩ : CObj (Nat × Nat)).run ps ops
    s.Sync ps ∧ (∀ v w, s.values[0]? = some v → posProp.readFrom w s.storage = v) := by
  have hpos : ∀ v k, posProp.says v k = if k = "x" then some (.num v.1) else if k = "y" then some (.num v.2) else none := by
    intro v k
    by_cases h1 : k = "x"
    · subst h1; rfl
    · by_cases h2 : k = "y"
      · subst h2; rfl
      · have b1 : (k == "x") = false := by simpa using h1
        have b2 : (k == "y") = false := by simpa using h2
        simp [CProp.says, CProp.writeTo, posProp, dset, List.lookup, h1, h2, b1, b2]
  have hlab : ∀ v k, labelProp.says v k = if k = "label" ∧ v.1 ≠ 0 then some (.num v.1) else none := by
    intro v k
    by_cases h1 : k = "label"
    · subst h1
      by_cases h0 : v.1 = 0
      · simp [CProp.says, CProp.writeTo, labelProp, h0]
      · simp [CProp.says, CProp.writeTo, labelProp, h0, dset]
    · have b1 : (k == "label") = false := by simpa using h1
      by_cases h0 : v.1 = 0
      · simp [CProp.says, CProp.writeTo, labelProp, h0]
      · simp [CProp.says, CProp.writeTo, labelProp, h0, dset, List.lookup, h1, b1]
  have op : ∀ k, posProp.Owns k → k = "x" ∨ k = "y" := by
    rintro k ⟨v, hv⟩
    rw [hpos] at hv
    by_contra hc
    rw [not_or] at hc
    simp [hc.1, hc.2] at hv
  have ol : ∀ k, labelProp.Owns k → k = "label" := by
    rintro k ⟨v, hv⟩
    rw [hlab] at hv
    by_contra hc
    simp [hc] at hv
  have hap : Apart [posProp, labelProp] := by
    intro i j p q hp hq hij
    match i, j, hij with
    | 0, 0, h => exact absurd rfl h
    | 1, 1, h => exact absurd rfl h
    | 0, 1, _ =>
      simp only [List.getElem?_cons_zero, List.getElem?_cons_succ, Option.some.injEq] at hp hq
      subst hp hq
      refine ⟨fun k h1 h2 => ?_, fun h2 => ?_⟩
      · have := ol k h2; subst this; exact absurd (op _ h1) (by decide)
      · exact absurd (ol _ h2) (by decide)
    | 1, 0, _ =>
      simp only [List.getElem?_cons_zero, List.getElem?_cons_succ, Option.some.injEq] at hp hq
      subst hp hq
      refine ⟨fun k h1 h2 => ?_, fun h2 => ?_⟩
      · have := ol k h1; subst this; exact absurd (op _ h2) (by decide)
      · exact absurd (op _ h2) (by decide)
    | i + 2, _, _ => simp at hp
    | 0, j + 2, _ => simp at hq
    | 1, j + 2, _ => simp at hq
  have hrun := C128_storage_partial [posProp, labelProp] hap (by
    intro p hp
    simp only [List.mem_cons, List.not_mem_nil, or_false] at hp
    rcases hp with hp | hp <;> subst hp
    · refine .inl fun v w => ⟨by simp [posProp], fun k hk => ?_⟩
      rw [hpos] at hk ⊢
      split
      · simp
      · split
        · simp
        · rename_i h1 h2; simp [h1, h2] at hk
    · exact .inr fun v k hk => ol k ⟨v, hk⟩)
    ⟨[(1, 2), (0, 0)], [("uuid", .str "u"), ("x", .num 1), ("y", .num 2)]⟩ (by
      intro i p v hp hv k hk
      match i with
      | 0 =>
        simp only [List.getElem?_cons_zero, Option.some.injEq] at hp hv
        subst hp hv
        rcases op k hk with h | h <;> subst h <;> rfl
      | 1 =>
        simp only [List.getElem?_cons_zero, List.getElem?_cons_succ, Option.some.injEq] at hp hv
        subst hp hv
        have := ol k hk; subst this; rfl
      | i + 2 => simp at hp) rfl ops
  refine ⟨hrun, fun v w hv => (C128_round_trip_partial _ hap _ hrun 0 posProp v w rfl hv ?_ rfl).2⟩
  intro v d h
  have hx := h "x" ⟨(0, 0), by rw [hpos]; simp⟩
  have hy := h "y" ⟨(0, 0), by rw [hpos]; simp⟩
  rw [hpos] at hx hy
  simp [posProp, hx, hy]

end Verif.Persist.Custom
