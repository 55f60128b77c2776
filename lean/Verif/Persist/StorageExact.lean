import Verif.Persist.Storage

/-!
C59, exactly: which assignments leave the storage in step with the properties.
-/

namespace Verif.Persist

open Verif.Py

/-- What an operation assigns, if anything: the number, the property and the value as validated. -/
def SOp.assigned {V : Type} (ps : List (SProp V)) : SOp V → Option (Nat × SProp V × V)
  | .assign i v => (ps[i]?).bind fun p => if p.hidden || p.readOnly then none else some (i, p, p.validate v)
  | .setHidden i v => (ps[i]?).map fun p => (i, p, p.validate v)

theorem step_assigned {V : Type} (ps : List (SProp V)) (s : SObj V) (op : SOp V) : s.step ps op = match op.assigned ps with
    | none => s
    | some (i, p, w) => ⟨s.values.set i w, updateStorage p w s.storage⟩ := by
  cases op with
  | assign i v =>
    simp only [SObj.step, SOp.assigned]
    rcases ps[i]? with _ | p
    · rfl
    · rcases hh : p.hidden <;> rcases hr : p.readOnly <;> simp [setProp, hh, hr]
  | setHidden i v =>
    simp only [SObj.step, SOp.assigned]
    rcases ps[i]? with _ | p <;> rfl

theorem assigned_get {V : Type} {ps : List (SProp V)} {op : SOp V} {i : Nat} {p : SProp V} {w : V}
    (h : op.assigned ps = some (i, p, w)) : ps[i]? = some p := by
  cases op with
  | assign j v =>
    simp only [SOp.assigned] at h
    rcases hj : ps[j]? with _ | q
    · rw [hj] at h
      simp at h
    · rw [hj] at h
      simp only [Option.bind_some] at h
      split at h
      · cases h
      · cases h
        exact hj
  | setHidden j v =>
    simp only [SOp.assigned] at h
    rcases hj : ps[j]? with _ | q
    · rw [hj] at h
      simp at h
    · rw [hj] at h
      cases h
      exact hj

theorem updateStorage_none {V : Type} (p : SProp V) (w : V) (d : Dict) (hw : p.write w = none) :
    updateStorage p w d = dpop d p.name := by
  unfold updateStorage writeProp
  rw [hw]
  rfl

theorem updateStorage_some {V : Type} (p : SProp V) (w : V) (d : Dict) {j : J} (hw : p.write w = some j) :
    updateStorage p w d = dset d p.key j := by
  unfold updateStorage writeProp
  rw [hw]
  rfl

/-- The operation does no harm: if it makes a property whose key is not its name write nothing, then the property wrote nothing
before, and its name is not the key of a property that writes something. -/
def SOp.Harmless {V : Type} (ps : List (SProp V)) (s : SObj V) (op : SOp V) : Prop :=
  ∀ (i : Nat) (p : SProp V) (w : V), op.assigned ps = some (i, p, w) → p.write w = none → p.key ≠ p.name →
    (∀ v, s.values[i]? = some v → p.write v = none) ∧
    ∀ (j : Nat) (q : SProp V) (v : V), ps[j]? = some q → s.values[j]? = some v → q.key = p.name → q.write v = none

theorem step_sync_iff {V : Type} {ps : List (SProp V)} (hn : (ps.map (·.key)).Nodup) {s : SObj V} (hs : s.Sync ps)
    (hl : ps.length ≤ s.values.length) (op : SOp V) : (s.step ps op).Sync ps ↔ op.Harmless ps s := by
  rw [step_assigned]
  rcases ha : op.assigned ps with _ | ⟨i, p, w⟩
  · exact ⟨fun _ i p w h => (by rw [ha] at h; cases h), fun _ => hs⟩
  have hp := assigned_get ha
  have hip : i < s.values.length := lt_of_lt_of_le (List.getElem?_eq_some_iff.1 hp).1 hl
  constructor
  · intro h i' p' w' ha' hw hk
    rw [ha] at ha'
    cases ha'
    have hu : updateStorage p w s.storage = dpop s.storage p.name := updateStorage_none p w _ hw
    refine ⟨fun v hv => ?_, fun j q v hq hv hkey => ?_⟩
    · have h1 := h i p w hp (by rw [List.getElem?_set_self hip])
      rw [hw] at h1
      simp only [hu] at h1
      rw [lookup_dpop_ne _ hk] at h1
      rw [← hs i p v hp hv, h1]
    · by_cases hij : i = j
      · subst hij
        rw [hp] at hq
        cases hq
        exact absurd hkey hk
      · have h1 := h j q v hq (by rw [List.getElem?_set_ne hij, hv])
        simp only [hu] at h1
        rw [hkey, lookup_dpop_self] at h1
        exact h1.symm
  · intro hh
    by_cases hv : p.write w = none → p.key = p.name
    · intro j q v hq hv'
      simp only at hv' ⊢
      by_cases hij : i = j
      · subst hij
        rw [hp] at hq
        cases hq
        rw [List.getElem?_set_self hip] at hv'
        cases hv'
        exact lookup_updateStorage_self p _ _ hv
      · rw [List.getElem?_set_ne hij] at hv'
        rw [lookup_updateStorage_ne p _ _ hv (key_ne hn hq hp (Ne.symm hij))]
        exact hs j q v hq hv'
    · obtain ⟨hw, hk⟩ : p.write w = none ∧ p.key ≠ p.name := by
        by_contra hc
        exact hv fun h => by by_contra hk; exact hc ⟨h, hk⟩
      obtain ⟨h1, h2⟩ := hh i p w ha hw hk
      have hu : updateStorage p w s.storage = dpop s.storage p.name := updateStorage_none p w _ hw
      intro j q v hq hv'
      simp only [hu] at hv' ⊢
      by_cases hij : i = j
      · subst hij
        rw [hp] at hq
        cases hq
        rw [List.getElem?_set_self hip] at hv'
        cases hv'
        rw [lookup_dpop_ne _ hk, hw]
        obtain ⟨v0, hv0⟩ : ∃ v0, s.values[i]? = some v0 := ⟨_, List.getElem?_eq_getElem hip⟩
        rw [hs i p v0 hp hv0, h1 v0 hv0]
      · rw [List.getElem?_set_ne hij] at hv'
        by_cases hkey : q.key = p.name
        · rw [hkey, lookup_dpop_self, h2 j q v hq hv' hkey]
        · rw [lookup_dpop_ne _ hkey]
          exact hs j q v hq hv'

theorem step_length {V : Type} (ps : List (SProp V)) (s : SObj V) (op : SOp V) :
    (s.step ps op).values.length = s.values.length := by
  rw [step_assigned]
  rcases op.assigned ps with _ | ⟨i, p, w⟩ <;> simp

/-- C59, exactly: for properties with distinct keys and a storage in step at first, the storage is in step after each of the
assignments of a history just if no assignment makes a property with a key of its own write nothing while it wrote something before,
or while its name is the key of another property that writes something. -/
theorem C59_iff_partial {V : Type} (ps : List (SProp V)) (hn : (ps.map (·.key)).Nodup) (s : SObj V) (hs : s.Sync ps)
    (hl : ps.length ≤ s.values.length) (ops : List (SOp V)) :
    (∀ l, l <+: ops → (s.run ps l).Sync ps) ↔
      ∀ (l : List (SOp V)) (op : SOp V), l ++ [op] <+: ops → op.Harmless ps (s.run ps l) := by
  induction ops generalizing s with
  | nil =>
    refine ⟨fun _ l op h => ?_, fun _ l h => ?_⟩
    · exact absurd (List.prefix_nil.1 h) (by simp)
    · rw [List.prefix_nil.1 h]
      exact hs
  | cons op ops ih =>
    have hrun : ∀ l, s.run ps (op :: l) = (s.step ps op).run ps l := fun _ => rfl
    constructor
    · intro h l o hl'
      have h1 : (s.step ps op).Sync ps := h [op] (by simp)
      rcases l with _ | ⟨a, l⟩
      · simp only [List.nil_append, List.cons_prefix_cons] at hl'
        rw [hl'.1]
        exact (step_sync_iff hn hs hl op).1 h1
      · simp only [List.cons_append, List.cons_prefix_cons] at hl'
        rw [hl'.1, hrun]
        refine (ih (s.step ps op) h1 (by rw [step_length]; exact hl)).1 (fun m hm => ?_) l o hl'.2
        exact h (op :: m) (by simpa using hm)
    · intro h l hl'
      rcases l with _ | ⟨a, l⟩
      · exact hs
      · simp only [List.cons_prefix_cons] at hl'
        rw [hl'.1, hrun]
        have h1 : (s.step ps op).Sync ps := (step_sync_iff hn hs hl op).2 (h [] op (by simp))
        refine (ih (s.step ps op) h1 (by rw [step_length]; exact hl)).2 (fun m o hm => ?_) l hl'.2
        exact h (op :: m) o (by simpa using hm)

/-- The value the storage has for a key after some assignments, and before: what was written last for it, nothing if a property with
that name wrote nothing later. -/
def lastStored {V : Type} (ps : List (SProp V)) (k : String) (j0 : Option J) : List (SOp V) → Option J
  | [] => j0
  | op :: ops => lastStored ps k (match op.assigned ps with
    | none => j0
    | some (_, p, w) => match p.write w with
      | some j => if p.key = k then some j else j0
      | none => if p.name = k then none else j0) ops

/-- C59, what the storage has in every case. -/
theorem C59_exact_partial {V : Type} (ps : List (SProp V)) (s : SObj V) (ops : List (SOp V)) (k : String) :
    (s.run ps ops).storage.lookup k = lastStored ps k (s.storage.lookup k) ops := by
  induction ops generalizing s with
  | nil => rfl
  | cons op ops ih =>
    have hrun : s.run ps (op :: ops) = (s.step ps op).run ps ops := rfl
    rw [hrun, ih, lastStored]
    congr 1
    rw [step_assigned]
    rcases op.assigned ps with _ | ⟨i, p, w⟩
    · rfl
    · rcases hw : p.write w with _ | j
      · simp only [updateStorage_none p w _ hw, hw]
        split
        · next h => rw [← h, lookup_dpop_self]
        · next h => rw [lookup_dpop_ne _ (Ne.symm h)]
      · simp only [updateStorage_some p w _ hw, hw]
        split
        · next h => rw [← h]; exact lookup_dset_self _ _ _
        · next h => exact lookup_dset_ne _ _ (Ne.symm h)

/-- The width is stored as "w": setting it to `None` is harmless as long as it has no value. -/
example : (SOp.assign 1 none).Harmless demoProps ⟨[some 3, none], [("title", .num 3)]⟩ := by
  intro i p w h _ _
  simp [SOp.assigned, demoProps] at h
  obtain ⟨rfl, rfl, rfl⟩ := h
  refine ⟨fun v hv => by simp at hv; subst hv; rfl, fun j q v hq _ hk => ?_⟩
  rcases j with _ | _ | j
  · simp [demoProps] at hq
    subst hq
    simp at hk
  · simp [demoProps] at hq
    subst hq
    simp at hk
  · simp [demoProps] at hq

example : ¬ (SOp.assign 1 none).Harmless demoProps ⟨[some 3, some 4], [("title", .num 3), ("w", .num 4)]⟩ := by
  intro h
  have := (h 1 _ none rfl rfl (by decide)).1 (some 4) rfl
  simp at this

end Verif.Persist
