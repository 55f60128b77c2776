import Verif.Selection.Reentrant

/-!
Assigning `selection_style` after construction (C165).

`selection_style` is a plain attribute (Selection.py:31): assigning it changes nothing else and tells nobody. Histories here are lists
of `RCall` (calls and assignments of the style), carried out one after the other (`plain`).
-/

namespace Verif.Selection

/-- Spec: the number of indexes each style allows. -/
def Fits (s : Sel) : Prop :=
  match s.style with
  | .none => s.indexes = ∅
  | .single => s.indexes.card ≤ 1
  | .singleOrNone => s.indexes.card ≤ 1
  | .multiple => True

/-- Calls after which the size fits whatever was selected before: those that name one index, and for `none` and `single_or_none` those
that clear. -/
def Settles (t : Style) : Op → Prop
  | .clear => t ≠ .single
  | .add _ => True
  | .set _ => True
  | .extend _ => True
  | .addRange r => r ≠ []
  | .setMultiple is => t = .single → is.card = 1
  | .remove _ => t = .none
  | .toggle _ => t = .none
  | _ => False

theorem set_fits (s : Sel) (i : ℤ) : Fits (set s i).sel := by
  unfold Fits
  rw [set_style]
  cases hs : s.style <;> simp [set, hs, clear]

theorem add_fits (s : Sel) (i : ℤ) : Fits (add s i).sel := by
  unfold Fits
  rw [add_style]
  cases hs : s.style <;> simp [add, set, hs, clear]

theorem clear_fits (s : Sel) (h : s.style ≠ .single) : Fits (clear s).sel := by
  unfold Fits
  rw [clear_style]
  cases hs : s.style <;> simp_all [clear]

/-- C165, recovering: whatever is selected and whatever the style was before, after one settling call the size fits the style. -/
theorem C165_settles (ord : SetOrder) (s : Sel) (o : Op) (h : Settles s.style o) : Fits (step ord s o).sel := by
  cases o with
  | clear => exact clear_fits s h
  | add i => exact add_fits s i
  | set i => exact set_fits s i
  | extend i =>
    simp only [step]
    by_cases hm : s.style = .multiple
    · have := step_style ord s (.extend i)
      simp only [step] at this
      unfold Fits; rw [this, hm]; trivial
    · unfold extend
      rw [if_neg hm]
      split
      · exact set_fits s i
      · rename_i h1
        exact clear_fits s (fun e => h1 (Or.inl e))
  | addRange r =>
    simp only [step, addRange_sel]
    rcases List.eq_nil_or_concat r with e | ⟨r', i, e⟩
    · exact absurd e h
    · subst e
      rw [List.concat_eq_append, List.foldl_append]
      exact add_fits _ i
  | setMultiple is =>
    simp only [step]
    by_cases hm : s.style = .multiple
    · have := step_style ord s (.setMultiple is)
      simp only [step] at this
      unfold Fits; rw [this, hm]; trivial
    · unfold setMultiple
      rw [if_neg hm]
      split
      · rename_i h1
        obtain ⟨i, hi⟩ := list_of_card_one ord h1.2
        split
        · exact set_fits s _
        · rename_i e
          rw [list_eq_nil] at e
          rw [e] at h1
          simp at h1
      · rename_i h1
        exact clear_fits s (fun e => h1 ⟨Or.inl e, h e⟩)
  | remove i =>
    have hs : s.style = .none := h
    simp only [step, remove, hs]
    simpa using clear_fits s (by rw [hs]; decide)
  | toggle i =>
    have hs : s.style = .none := h
    simp only [step, toggle]
    split
    · simp only [remove, hs]
      simpa using clear_fits s (by rw [hs]; decide)
    · exact add_fits s i
  | insertIndex k => exact h.elim
  | removeIndex k => exact h.elim
  | setAnchor a => exact h.elim

/-- What a history must respect: a style is assigned only while the size fits it, and a `single` selection is cleared only while nothing
but index 0 is selected. -/
def Respects (s : Sel) : RCall → Prop
  | .style t => Fits { s with style := t }
  | .op _ o => s.style = .single → o.KeepsOne s

def AllRespect : Sel → List RCall → Prop
  | _, [] => True
  | s, c :: cs => Respects s c ∧ AllRespect (c.out s).sel cs

theorem fits_step (s : Sel) (h : Fits s) (c : RCall) : Fits (c.out s).sel ↔ Respects s c := by
  cases c with
  | style t => rfl
  | op ord o =>
    simp only [RCall.out, Respects]
    have hst := step_style ord s o
    unfold Fits at h ⊢
    rw [hst]
    cases hs : s.style with
    | none =>
      rw [hs] at h
      simp [step_none ord s o hs h]
    | multiple => simp
    | singleOrNone =>
      rw [hs] at h
      simp [step_singleOrNone ord s o hs h]
    | single =>
      rw [hs] at h
      simp only [forall_const]
      have hc := C04_single_at_most_one_partial.2 s hs h
      cases o with
      | clear => exact hc
      | setMultiple is =>
        by_cases h1 : is.card = 1
        · simp only [Op.KeepsOne, h1, true_or, iff_true]
          exact step_single ord s (.setMultiple is) hs h1 h
        · simp only [Op.KeepsOne, h1, false_or]
          rw [← hc]
          simp only [step]
          unfold setMultiple
          rw [if_neg (by simp [hs]), if_neg (by simp [h1])]
      | add i => exact iff_of_true (step_single ord s (.add i) hs trivial h) trivial
      | remove i => exact iff_of_true (step_single ord s (.remove i) hs trivial h) trivial
      | addRange r => exact iff_of_true (step_single ord s (.addRange r) hs trivial h) trivial
      | set i => exact iff_of_true (step_single ord s (.set i) hs trivial h) trivial
      | toggle i => exact iff_of_true (step_single ord s (.toggle i) hs trivial h) trivial
      | extend i => exact iff_of_true (step_single ord s (.extend i) hs trivial h) trivial
      | insertIndex k => exact iff_of_true (step_single ord s (.insertIndex k) hs trivial h) trivial
      | removeIndex k => exact iff_of_true (step_single ord s (.removeIndex k) hs trivial h) trivial
      | setAnchor a => exact iff_of_true (step_single ord s (.setAnchor a) hs trivial h) trivial

/-- C165, exactly when: after every call and assignment of a history the size fits the style precisely if styles are assigned only while
the size fits them already and `single` selections are cleared only while nothing but index 0 is selected. -/
theorem C165_iff_partial (cs : List RCall) (s : Sel) (h : Fits s) :
    (∀ n, Fits (plain s (cs.take n))) ↔ AllRespect s cs := by
  induction cs generalizing s with
  | nil => simpa [plain, AllRespect] using h
  | cons c cs ih =>
    have hcons : ∀ n, plain s ((c :: cs).take (n + 1)) = plain (c.out s).sel (cs.take n) := fun n => rfl
    constructor
    · intro hn
      have h1 : Fits (c.out s).sel := by simpa [plain] using hn 1
      exact ⟨(fits_step s h c).1 h1, (ih _ h1).1 fun n => by rw [← hcons]; exact hn (n + 1)⟩
    · rintro ⟨h1, h2⟩ n
      cases n with
      | zero => exact h
      | succ n => rw [hcons]; exact (ih _ ((fits_step s h c).2 h1)).2 h2 n

/-- C165, settled: from anything, after a style is assigned and a settling call is made, the size fits until the next call that does not
respect it. -/
theorem C165_settled_partial (s : Sel) (t : Style) (ord : SetOrder) (o : Op) (h : Settles t o) (cs : List RCall)
    (hcs : AllRespect (plain s [.style t, .op ord o]) cs) : Fits (plain s ([.style t, .op ord o] ++ cs)) := by
  have h1 : Fits (plain s [.style t, .op ord o]) := C165_settles ord { s with style := t } o h
  have := (C165_iff_partial cs _ h1).2 hcs cs.length
  rw [List.take_length] at this
  unfold plain at this ⊢
  rw [List.foldl_append]
  exact this

/-- a style assigned while two indexes are selected, and the call that makes them one -/
example : Fits (plain (init .multiple) ([.op ascending (.add 4), .op ascending (.add 6)] ++ ([.style .single, .op ascending (.extend 6)] ++
    [.op ascending (.insertIndex 2)]))) := by
  have := C165_settled_partial (plain (init .multiple) [.op ascending (.add 4), .op ascending (.add 6)]) .single ascending (.extend 6)
    trivial [.op ascending (.insertIndex 2)] ⟨fun _ => trivial, trivial⟩
  simpa [plain] using this

/-- C165 fails as stated: a selection of 4 and 6 made `single` keeps both and `clear` makes them three; made `none` it still answers two
indexes. -/
theorem C165_counterexample :
    (plain (init .multiple) [.op ascending (.add 4), .op ascending (.add 6), .style .single]).indexes = {4, 6} ∧
    (plain (init .multiple) [.op ascending (.add 4), .op ascending (.add 6), .style .single, .op ascending .clear]).indexes = {0, 4, 6} ∧
    ¬ Fits (plain (init .multiple) [.op ascending (.add 4), .op ascending (.add 6), .style .none]) := by
  refine ⟨by decide, by decide, ?_⟩
  have : (plain (init .multiple) [.op ascending (.add 4), .op ascending (.add 6), .style .none]).indexes = {4, 6} := by decide
  intro h
  have h' : (plain (init .multiple) [.op ascending (.add 4), .op ascending (.add 6), .style .none]).indexes = ∅ := h
  rw [this] at h'
  revert h'
  decide

end Verif.Selection
