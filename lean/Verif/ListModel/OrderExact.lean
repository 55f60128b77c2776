import Verif.ListModel.FilteredProps

/-! C20, exactly which change blocks leave a filtered list without sort key in source order (`nion/utils/ListModel.py:493-546`). -/

namespace Verif.ListModel

open Verif.Py Verif.Selection

section
set_option linter.unusedSectionVars false

variable {α C K : Type*} [DecidableEq α] [LinearOrder K]

theorem sublist_pyInsert (l : List α) (i : Int) (x : α) : l.Sublist (Py.insert l i x) := by
  obtain ⟨pre, post, h1, h2⟩ : ∃ pre post, l = pre ++ post ∧ Py.insert l i x = pre ++ x :: post := by
    refine ⟨l.take (insertPos l.length i), l.drop (insertPos l.length i), (List.take_append_drop _ _).symm, ?_⟩
    unfold Py.insert
    exact insertIdx_take_drop' l _ (by unfold insertPos; split <;> omega) x
  rw [h2]
  conv_lhs => rw [h1]
  exact List.Sublist.append (List.Sublist.refl _) (List.sublist_cons_self _ _)

theorem insertFold_sublist (cmp : α → α → Bool) (xs : List α) (s : FL α C K) :
    s.items.Sublist (xs.foldl (fun s x => s.insertItem (some cmp) x) s).items := by
  induction xs generalizing s with
  | nil => exact List.Sublist.refl _
  | cons x xs ih => exact (sublist_pyInsert s.items _ x).trans (ih (s.insertItem (some cmp) x))

/-- The items that stay keep their order. -/
theorem kept_sublist (ord : IterOrder α) (s : FL α C K) (hl : ¬ s.level > 0) (hso : s.sorted = true) :
    (s.items.filter fun x => x ∈ s.build).Sublist (s.updateItems ord).items := by
  unfold FL.updateItems
  rw [if_neg hl]
  simp only [hso, if_true]
  obtain ⟨ns1, h1, -, -⟩ := removeLoop_eq (fun x => decide (x ∉ s.build)) s.items [] 0 0 (s.emit .beginChanges) rfl rfl
  rw [h1]
  have hkeep : [] ++ s.items.filter (fun x => !decide (x ∉ s.build)) = s.items.filter fun x => x ∈ s.build := by simp
  have := insertFold_sublist (s.cmp.getD (cmpKey s.reverse fun x => s.build.idxOf x)) (ord.f (s.build.filter fun x => x ∉ s.items))
    { s.emit .beginChanges with
      items := [] ++ s.items.filter (fun x => !decide (x ∉ s.build))
      log := (s.emit .beginChanges).log ++ ns1 }
  simp only [hkeep] at this ⊢
  exact this

theorem build_unsorted {s : FL α C K} (hk : s.key = none) : s.build = s.master.filter s.acc := by
  unfold FL.build
  rw [hk]

theorem updateItems_iff (ord : IterOrder α) (s : FL α C K) (hn : s.master.Nodup) (hi : s.items.Nodup) (hl : s.level = 0)
    (hk : s.key = none) (hr : s.reverse = false) (hso : s.sorted = true) :
    (s.updateItems ord).items = s.master.filter s.acc ↔ (s.items.filter fun x => x ∈ s.build).Sublist s.master := by
  have hb := build_unsorted hk
  constructor
  · intro h
    have := kept_sublist ord s (by omega) hso
    rw [h] at this
    exact this.trans List.filter_sublist
  · intro h
    obtain ⟨l, ns, h1, _, _, _, h5⟩ := updateItems_log ord s (by omega)
    obtain ⟨hp, hsort⟩ := h5 hso
    have hbn : s.build.Nodup := by rw [hb]; exact hn.filter _
    have hperm : l.Perm s.build := by
      refine hp.trans (((ord.perm _).append_right _).trans ?_)
      rw [List.perm_ext_iff_of_nodup _ hbn]
      · intro x; simp; tauto
      · rw [List.nodup_append]
        refine ⟨hbn.filter _, hi.filter _, fun a ha b hb' => ?_⟩
        rintro rfl
        simp at ha hb'; exact ha.2 hb'.1
    have hcmp : s.cmp = none := by rw [cmp_eq, ikey_none.2 hk]; rfl
    rw [hcmp, hr] at hsort
    have hsub : (s.items.filter fun x => x ∈ s.build).Sublist s.build := by
      have := h.filter s.acc
      rw [← hb, List.filter_eq_self.2] at this
      · exact this
      · intro x hx
        have := (List.mem_filter.1 hx).2
        rw [hb] at this
        simp at this
        exact this.2
    have hs2 := hsort _ (isCmp_key false fun x => s.build.idxOf x) ((pairwise_idxOf hbn).sublist hsub)
    rw [h1, ← hb]
    refine List.Perm.eq_of_pairwise ?_ hs2 (pairwise_idxOf hbn) hperm
    intro a b ha hb' h1 h2
    simp only [leKey, Bool.false_eq_true, if_false] at h1 h2
    exact (List.idxOf_inj (hperm.mem_iff.1 ha)).1 (le_antisymm h1 h2)

/-- C20, exactly, for the end of a change block: after any history in which no item is inserted that the source has already and the
blocks are balanced, let the last open block end, without sort key and without `sort_reverse`. Then the items are the source items
accepted by the filter, in source order, if and only if the list was to be built anew anyway (after a reset, or a new filter or
sorting) or those of the items listed before that are still accepted source items have in the source the order they had in the
list. -/
theorem C20_iff_partial (sord : SetOrder) (ord : IterOrder α) (content : α → C) (sels : List Sel)
    (ops : List (IterOrder α × LOp α C K)) (ha : (FL.init content sels).AdmAll false sord ops) :
    let s := (FL.init content sels).run sord ops
    s.level = 1 → s.key = none → s.reverse = false →
    ((s.step sord ord .endChange).items = (s.source.getD []).filter (fun x => s.filter (s.content x)) ↔
      s.sorted = false ∨ (s.items.filter fun x => decide (x ∈ s.source.getD []) && s.filter (s.content x)).Sublist (s.source.getD [])) := by
  intro s hl hk hr
  have h : LInv false s := (LInv.init false content sels).run sord ops ha
  have hstep : s.step sord ord .endChange = { s with level := s.level - 1 }.updateItems ord := by
    simp only [FL.step]
    rw [if_pos (by omega)]
  rw [hstep, ← h.src]
  by_cases hso : s.sorted = false
  · simp only [hso, true_or, iff_true]
    rw [← hso]
    obtain ⟨l, ns, h1, _, _, h4, _⟩ := updateItems_log ord { s with level := s.level - 1 } (by simp only; omega)
    rw [h1, (h4 hso).1]
    exact build_unsorted (s := { s with level := s.level - 1 }) hk
  · have hso : s.sorted = true := by simpa using hso
    refine Iff.trans ?_ (show _ ↔ _ from ⟨Or.inr, fun h => h.resolve_left (by simp [hso])⟩)
    refine (updateItems_iff ord { s with level := s.level - 1 } h.nodup h.nodupItems (by simp only; omega) hk hr hso).trans ?_
    rw [build_unsorted (s := { s with level := s.level - 1 }) hk]
    have : (s.items.filter fun x => decide (x ∈ s.master) && s.filter (s.content x)) =
        s.items.filter fun x => decide (x ∈ s.master.filter s.acc) := by
      apply List.filter_congr
      intro x _
      simp [FL.acc]
    rw [this]
    rfl

end

/-- Moving an item that is the only one listed before does no harm; here 1 moves behind 2, but 2 is new in the list. -/
example :
    let s : FL Nat Nat Nat := (FL.init id []).run ascending
      [(idOrder, .beginChange), (idOrder, .setContainer (some [1, 2])), (idOrder, .setFilter fun c => c ≠ 2), (idOrder, .endChange),
       (idOrder, .beginChange), (idOrder, .changeContent 2 5), (idOrder, .srcRemove 0), (idOrder, .srcInsert 1 1), (idOrder, .endChange)]
    s.source = some [2, 1] ∧ s.items = [2, 1] := by decide

end Verif.ListModel
