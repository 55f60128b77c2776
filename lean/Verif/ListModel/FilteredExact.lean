import Verif.ListModel.FilteredLog

/-! C26, exactly when the removals of a full replacement name the right items (`nion/utils/ListModel.py:534-544`). -/

namespace Verif.ListModel

open Verif.Py Verif.Selection

section
set_option linter.unusedSectionVars false

variable {α C K : Type*} [DecidableEq α] [LinearOrder K]

/-- The notifications of the removals. -/
theorem popLoop_strict (xs : List α) (s : FL α C K) (h : xs.length = s.items.length) :
    ∃ ns, FL.popLoop xs s = { s with items := [], log := s.log ++ ns } ∧
      ∀ (rest : List (Notif α × List α)) (l : List α), ReplaysAt true s.items (notes ns ++ rest) l ↔ (s.items = xs.reverse ∧ ReplaysAt true [] rest l) := by
  induction xs generalizing s with
  | nil =>
    have h0 : s.items = [] := List.length_eq_zero_iff.1 (by simpa using h.symm)
    refine ⟨[], ?_, fun rest l => by simp [notes, h0]⟩
    simp only [FL.popLoop, List.append_nil]
    rw [← h0]
  | cons x xs ih =>
    simp only [List.length_cons] at h
    have hne : s.items ≠ [] := by
      intro e
      rw [e] at h
      simp at h
    set t : FL α C K :=
      { s with
        items := s.items.dropLast
        log := s.log ++ [.note (.removed x (s.items.dropLast.length : Nat)) s.items.dropLast] } with ht
    obtain ⟨ns, h1, h2⟩ := ih t (by simp [ht]; omega)
    refine ⟨.note (.removed x (s.items.dropLast.length : Nat)) s.items.dropLast :: ns, ?_, fun rest l => ?_⟩
    · simp only [FL.popLoop]
      rw [← ht, h1]
      simp [ht]
    · have hlast : Py.get? s.items ((s.items.dropLast.length : Nat) : Int) = some (s.items.getLast hne) := by
        rw [Py.get?_nat (by simp; omega), List.getLast_eq_getElem]
        simp
      have hdel : Py.del? s.items ((s.items.dropLast.length : Nat) : Int) = some s.items.dropLast := by
        rw [Py.del?_nat (by simp; omega), List.length_dropLast, List.eraseIdx_length_sub_one]
      have hsplit : s.items = (x :: xs).reverse ↔ s.items.getLast hne = x ∧ s.items.dropLast = xs.reverse := by
        conv_lhs => rw [← List.dropLast_append_getLast hne]
        rw [List.reverse_cons]
        constructor
        · intro e
          obtain ⟨e1, e2⟩ := List.append_inj' e rfl
          simp only [List.cons.injEq, and_true] at e2
          exact ⟨e2, e1⟩
        · rintro ⟨e1, e2⟩
          rw [e1, e2]
      simp only [notes, List.cons_append]
      rw [hsplit]
      constructor
      · intro hr
        cases hr with
        | rem hg hd hr =>
          obtain ⟨e1, e2⟩ := (h2 rest l).1 hr
          have := hg rfl
          rw [hlast] at this
          exact ⟨⟨Option.some.inj this, e1⟩, e2⟩
      · rintro ⟨⟨e1, e2⟩, e3⟩
        refine .rem (fun _ => by rw [hlast, e1]) hdel ((h2 rest l).2 ⟨e2, e3⟩)

theorem updateItems_strict (ord : IterOrder α) (s : FL α C K) (hl : ¬ s.level > 0) (hs : s.sorted = false) :
    ∃ ns, (s.updateItems ord).log = s.log ++ ns ∧ (ReplaysAt true s.items (notes ns) (s.updateItems ord).items ↔ s.items.reverse = s.items) := by
  unfold FL.updateItems
  rw [if_neg hl]
  simp only [hs, Bool.false_eq_true, if_false]
  obtain ⟨ns1, h1, h2⟩ := popLoop_strict s.items (s.emit .beginChanges) rfl
  rw [h1]
  obtain ⟨ns2, g1, g2, -, -⟩ := appendLoop_eq s.build
    { s.emit .beginChanges with items := [], log := (s.emit .beginChanges).log ++ ns1 }
  rw [g1]
  refine ⟨.beginChanges :: ns1 ++ ns2 ++ [.endChanges], by simp [FL.emit], ?_⟩
  have : notes (FEv.beginChanges :: ns1 ++ ns2 ++ [.endChanges]) = notes ns1 ++ notes ns2 := by simp [notes]
  rw [this]
  refine (h2 _ _).trans ?_
  constructor
  · rintro ⟨e, -⟩
    exact e.symm
  · intro e
    refine ⟨e.symm, ?_⟩
    simpa [FL.emit] using g2

/-- C26, exactly: the removals of a full replacement (a new filter, sort key or direction, or the end of a change block after such a change)
name the items at their indexes if and only if the old list reads the same backwards. -/
theorem C26_iff_partial (sord : SetOrder) (ord : IterOrder α) (s : FL α C K) (o : LOp α C K) (ho : FullReplacement s o)
    (hl : o ≠ .endChange → s.level ≤ 0) :
    ∃ ns, (s.step sord ord o).log = s.log ++ ns ∧
      (o = .endChange → s.level ≠ 1 → ns = []) ∧
      ((o = .endChange → s.level = 1) → (ReplaysAt true s.items (notes ns) (s.step sord ord o).items ↔ s.items.reverse = s.items)) := by
  have key : ∀ t : FL α C K, ¬ t.level > 0 → t.log = s.log ++ [.reset] → t.sorted = false → t.items = s.items →
      ∃ ns, (t.updateItems ord).log = s.log ++ ns ∧ (ReplaysAt true s.items (notes ns) (t.updateItems ord).items ↔ s.items.reverse = s.items) := by
    intro t h1 h2 h3 h4
    obtain ⟨ns, g1, g2⟩ := updateItems_strict ord t h1 h3
    refine ⟨.reset :: ns, by rw [g1, h2]; simp, ?_⟩
    rw [h4] at g2
    exact g2
  cases o with
  | setFilter p =>
    obtain ⟨ns, g1, g2⟩ := key ({ s with filter := p, sorted := false }.emit .reset) (by simpa [FL.emit] using hl (by simp)) rfl rfl rfl
    exact ⟨ns, g1, by simp, fun _ => g2⟩
  | setKey k =>
    obtain ⟨ns, g1, g2⟩ := key ({ s with key := k, sorted := false }.emit .reset) (by simpa [FL.emit] using hl (by simp)) rfl rfl rfl
    exact ⟨ns, g1, by simp, fun _ => g2⟩
  | setReverse b =>
    obtain ⟨ns, g1, g2⟩ := key ({ s with reverse := b, sorted := false }.emit .reset) (by simpa [FL.emit] using hl (by simp)) rfl rfl rfl
    exact ⟨ns, g1, by simp, fun _ => g2⟩
  | endChange =>
    by_cases h1 : s.level = 1
    · obtain ⟨ns, g1, g2⟩ := updateItems_strict ord { s with level := s.level - 1 } (by simp only; omega) ho
      refine ⟨ns, ?_, fun _ h => absurd h1 h, fun _ => ?_⟩
      · simp only [FL.step]
        rw [if_pos (by omega)]
        exact g1
      · simp only [FL.step]
        rw [if_pos (by omega)]
        exact g2
    · refine ⟨[], ?_, fun _ _ => rfl, fun h => absurd (h rfl) h1⟩
      simp only [FL.step]
      rw [if_neg (by omega)]
      simp
  | srcInsert v i => exact absurd ho id
  | srcRemove i => exact absurd ho id
  | setContainer c => exact absurd ho id
  | srcBegin => exact absurd ho id
  | srcEnd => exact absurd ho id
  | srcReset => exact absurd ho id
  | changeContent v c => exact absurd ho id
  | beginChange => exact absurd ho id
  | select k o => exact absurd ho id

end

/-- a list that reads the same backwards has at most one item, if all are different -/
example (l : List Nat) (h : l.Nodup) (hr : l.reverse = l) : l.length ≤ 1 := by
  by_contra hlen
  have h0 : 0 < l.length := by omega
  have hl : l.length - 1 < l.length := by omega
  have : l[0] = l[l.length - 1] := by
    have e := List.getElem_reverse (l := l) (i := 0) (by simpa using h0)
    simp only [hr] at e
    simpa using e
  have := (List.Nodup.getElem_inj_iff h).1 this
  omega

example : FullReplacement (⟨some [4], id, [4], [4], true, fun _ => true, none, false, 0, [], []⟩ : FL Nat Nat Nat) (.setFilter fun _ => true) := trivial

end Verif.ListModel
