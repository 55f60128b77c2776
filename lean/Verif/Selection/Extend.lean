import Verif.Selection.Props

/-!
C145: the index that `set`, `add` and `extend` name is selected afterwards (`nion/utils/Selection.py:93-105`, `138-148`, `157-176`).
-/

namespace Verif.Selection

/-- C145, partial: what is missing is `extend(i)` in style multiple when `i` is the anchor and not selected. Exactly then `i` is not selected
afterwards. `set` and `add` always select their index. -/
theorem C145_iff_partial (s : Sel) (i : ℤ) (hs : s.style ≠ .none) :
    i ∈ (set s i).sel.indexes ∧ i ∈ (add s i).sel.indexes ∧
    (i ∈ (extend s i).sel.indexes ↔ ¬ (s.style = .multiple ∧ s.anchor = some i ∧ i ∉ s.indexes)) := by
  have hset : i ∈ (set s i).sel.indexes := by
    have : s.style = .multiple ∨ s.style = .single ∨ s.style = .singleOrNone := by
      cases h : s.style <;> simp_all
    rw [set, if_pos this]
    simp [finish]
  refine ⟨hset, ?_, ?_⟩
  · rw [add]
    by_cases h1 : s.style = .single ∨ s.style = .singleOrNone
    · rwa [if_pos h1]
    · have hm : s.style = .multiple := by cases h : s.style <;> simp_all
      rw [if_neg h1, if_pos hm]
      simp only [finish]
      split_ifs <;> simp
  · by_cases hm : s.style = .multiple
    · obtain ⟨h1, h2, -⟩ := C06_extend_interval s i hm
      cases ha : s.anchor with
      | none => simp [(h2 ha).1 i]
      | some a =>
        by_cases hia : i = a
        · subst hia
          simp [extend, hm, ha, finish]
        · rw [(h1 a ha hia).1 i]
          have : ¬ (some a = some i) := fun e => hia (Option.some.inj e).symm
          simp only [this, false_and, and_false, not_false_iff, iff_true]
          right
          exact ⟨min_le_right a i, le_max_right a i⟩
    · have h2 : s.style = .single ∨ s.style = .singleOrNone := by cases h : s.style <;> simp_all
      rw [extend, if_neg hm, if_pos h2]
      simp [hset, hm]

/-- C145: extending to the anchor does nothing at all. -/
theorem C145_anchor (s : Sel) (i : ℤ) (hm : s.style = .multiple) (ha : s.anchor = some i) : extend s i = ⟨s, 0, .none⟩ := by
  simp [extend, hm, ha, finish]

/-- C145 does not hold: select 5, deselect 5, extend to 5. Nothing is selected, because 5 is still the anchor. -/
theorem C145_counterexample (ord : SetOrder) :
    let s := run (init .multiple) [(ord, .toggle 5), (ord, .toggle 5)]
    s = ⟨∅, some 5, .multiple⟩ ∧ (extend s 5).sel.indexes = ∅ := by
  have hl : ord.list ∅ = [] := by
    rw [List.eq_nil_iff_forall_not_mem]
    intro x hx
    simpa using (ord.mem ∅ x).1 hx
  have : run (init .multiple) [(ord, .toggle 5), (ord, .toggle 5)] = ⟨∅, some 5, .multiple⟩ := by
    simp [run, step, toggle, add, remove, init, updateAnchor, hl, finish]
  intro s
  refine ⟨this, ?_⟩
  rw [show s = _ from this, C145_anchor _ _ rfl rfl]

example : (5 : ℤ) ∈ (extend ⟨{2, 3}, some 3, .multiple⟩ 5).sel.indexes := by
  rw [(C145_iff_partial ⟨{2, 3}, some 3, .multiple⟩ 5 (by decide)).2.2]
  decide

end Verif.Selection
