import Verif.Registry.Props

/-! C29, exactly when the order of the set does not matter (`nion/utils/Registry.py:79-98`), and C30, what `unregister` without types
reports (lines 40-71). -/

namespace Verif.Registry

set_option linter.unusedSectionVars false

variable {C T : Type*} [DecidableEq C] [DecidableEq T]

/-- The order of a set, with one element first. -/
noncomputable def first (c : C) : IterOrder C where
  f s := if c ∈ s then c :: (s.erase c).toList else s.toList
  nodup s := by
    split_ifs
    · exact List.nodup_cons.2 ⟨by simp, Finset.nodup_toList _⟩
    · exact Finset.nodup_toList _
  mem s x := by
    split_ifs with h
    · simp only [List.mem_cons, Finset.mem_toList, Finset.mem_erase]
      constructor
      · rintro (rfl | ⟨-, hx⟩)
        · exact h
        · exact hx
      · intro hx
        by_cases e : x = c
        · exact .inl e
        · exact .inr ⟨e, hx⟩
    · simp

/-- C29, exactly: `get_component` returns a component of highest priority whatever the order in which the set is iterated if and only if all
components of the type have the same priority; otherwise there is an order for which it returns one of the others, any of them. -/
theorem C29_iff_partial (s : Reg C T) (prio : C → Int) (t : T) :
    ((∀ ord c, s.getComponent ord prio t = some c → ∀ b ∈ s.components t, prio b ≤ prio c) ↔
      ∀ a ∈ s.components t, ∀ b ∈ s.components t, prio a = prio b) ∧
    (∀ c ∈ s.components t, ∃ ord, s.getComponent ord prio t = some c) := by
  have hg : ∀ ord : IterOrder C, s.getComponent ord prio t = (ord.f (s.components t))[0]? := by
    intro ord
    unfold Reg.getComponent
    simp only [List.length_mergeSort]
    split
    · rfl
    · rename_i h
      rw [List.getElem?_eq_none (by omega)]
  have hany : ∀ c ∈ s.components t, s.getComponent (first c) prio t = some c := by
    intro c hc
    rw [hg]
    simp [first, hc]
  refine ⟨⟨fun h a ha b hb => le_antisymm ?_ ?_, fun h ord c hc b hb => ?_⟩, fun c hc => ⟨_, hany c hc⟩⟩
  · exact h _ b (hany b hb) a ha
  · exact h _ a (hany a ha) b hb
  · rw [hg] at hc
    exact (h b hb c ((ord.mem _ _).1 (List.mem_of_getElem? hc))).le

/-- two components with the same priority -/
example : let s : Reg Nat Nat := Reg.init.run [.register 1 {0}, .register 2 {0}]
    ∀ ord c, s.getComponent ord (fun _ => 50) 0 = some c → ∀ b ∈ s.components 0, (50 : Int) ≤ 50 :=
  ((C29_iff_partial _ (fun _ => 50) 0).1).2 fun _ _ _ _ => rfl

/-- C30, exactly: a successful `unregister` without types takes away all types of the component and reports none of them, so the types it
reports are those taken away if and only if the component was registered with no types. -/
theorem C30_iff_partial (s : Reg C T) (c : C) (own : Finset T) (ho : s.types c = some own)
    (hk : (s.step (.unregister c none)).2 = .ok ()) :
    (s.step (.unregister c none)).1.types c = none ∧
    (s.step (.unregister c none)).1.log = s.log ++ [.unregistered c ∅] ∧
    ((s.step (.unregister c none)).1.log = s.log ++ [.unregistered c own] ↔ own = ∅) := by
  have hl : (s.step (.unregister c none)).1.log = s.log ++ [.unregistered c ∅] ∧
      (s.step (.unregister c none)).1.types c = none := by
    simp only [Reg.step, Reg.unregister, ho, Reg.unregisterTypes] at hk ⊢
    split at hk
    · rename_i hv
      rw [if_pos hv]
      simp
    · cases hk
  refine ⟨hl.2, hl.1, ?_⟩
  rw [hl.1, List.append_cancel_left_eq]
  constructor
  · intro h
    simp only [List.cons.injEq, Ev.unregistered.injEq, true_and, and_true] at h
    exact h.symm
  · rintro rfl; rfl

example : let s : Reg Nat Nat := Reg.init.run [.register 7 {0, 1}]
    s.types 7 = some {0, 1} ∧ (s.step (.unregister 7 none)).2 = .ok () ∧ (s.step (.unregister 7 none)).1.types 7 = none := by
  intro s
  have h : s.types 7 = some {0, 1} := rfl
  have hk : (s.step (.unregister 7 none)).2 = .ok () := by
    simp only [Reg.step, Reg.unregister, h, Reg.unregisterTypes]
    decide
  exact ⟨h, hk, (C30_iff_partial s 7 _ h hk).1⟩

end Verif.Registry
