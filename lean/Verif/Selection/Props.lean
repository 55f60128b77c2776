import Verif.Selection.Lemmas
import Mathlib.Data.List.Sort
import Mathlib.Data.Finset.Sort

/-! Properties C01-C08 of `IndexedSelection`. -/

namespace Verif.Selection

open Verif.Py

/-- A concrete iteration order (ascending), to instantiate the theorems. -/
def ascending : SetOrder where
  list s := Quot.liftOn s.val (fun l => l.insertionSort (· ≤ ·)) fun _ _ h =>
    (((List.perm_insertionSort _ _).trans h).trans (List.perm_insertionSort _ _).symm).eq_of_pairwise'
      (List.pairwise_insertionSort _ _) (List.pairwise_insertionSort _ _)
  nodup s := by
    obtain ⟨m, hm⟩ := s
    induction m using Quot.inductionOn
    rename_i l
    exact ((List.perm_insertionSort _ l).nodup_iff).2 hm
  mem s i := by
    obtain ⟨m, hm⟩ := s
    induction m using Quot.inductionOn
    rename_i l
    exact (List.perm_insertionSort _ l).mem_iff

/-! ### C01 -/

/-- The calls C01 ranges over. -/
def Op.Changing : Op → Prop
  | .clear | .add _ | .remove _ | .set _ | .setMultiple _ | .toggle _ | .extend _ => True
  | _ => False

theorem finish_ok (old : Finset ℤ) (s : Sel) :
    (finish old s).fires = if (finish old s).sel.indexes = old then 0 else 1 := by
  rw [finish_fires, finish_sel]

theorem clear_fires (s : Sel) : (clear s).fires = if (clear s).sel.indexes = s.indexes then 0 else 1 := by
  unfold clear; split <;> exact finish_ok _ _

theorem set_fires (s : Sel) (i : ℤ) : (set s i).fires = if (set s i).sel.indexes = s.indexes then 0 else 1 := by
  unfold set; split
  · exact finish_ok _ _
  · exact clear_fires s

theorem add_fires (s : Sel) (i : ℤ) : (add s i).fires = if (add s i).sel.indexes = s.indexes then 0 else 1 := by
  unfold add; split
  · exact set_fires s i
  · split
    · simp
    · exact clear_fires s

theorem remove_fires (ord : SetOrder) (s : Sel) (i : ℤ) :
    (remove ord s i).fires = if (remove ord s i).sel.indexes = s.indexes then 0 else 1 := by
  unfold remove; split
  · split
    · simp
    · simp
  · split
    · simp
    · exact clear_fires s

/-- C01: `changed_event` fires exactly once if the set of indexes differs before and after the call, not at all
otherwise; the reindexing calls and the anchor setter never fire. -/
theorem C01_changed_event_exact (ord : SetOrder) (s : Sel) (op : Op) :
    (op.Changing → (step ord s op).fires = if (step ord s op).sel.indexes = s.indexes then 0 else 1) ∧
    (∀ k, (step ord s (.insertIndex k)).fires = 0) ∧ (∀ k, (step ord s (.removeIndex k)).fires = 0) ∧
    (∀ a, (step ord s (.setAnchor a)).fires = 0) := by
  refine ⟨?_, fun _ => rfl, fun _ => rfl, fun _ => rfl⟩
  intro h
  cases op with
  | clear => exact clear_fires s
  | add i => exact add_fires s i
  | remove i => exact remove_fires ord s i
  | set i => exact set_fires s i
  | setMultiple is =>
    simp only [step]; unfold setMultiple; split
    · exact finish_ok _ _
    · split
      · split
        · exact set_fires s _
        · simp
      · exact clear_fires s
  | toggle i =>
    simp only [step]; unfold toggle; split
    · exact remove_fires ord s i
    · exact add_fires s i
  | extend i =>
    simp only [step]; unfold extend; split
    · split
      · split
        · exact finish_ok _ _
        · split <;> exact finish_ok _ _
      · exact finish_ok _ _
    · split
      · exact set_fires s _
      · exact clear_fires s
  | addRange r => exact absurd h id
  | insertIndex k => exact absurd h id
  | removeIndex k => exact absurd h id
  | setAnchor a => exact absurd h id

/-- non-trivial cases: a fire and a non-fire of `toggle`/`add` on a two-element selection -/
example : (step ascending ⟨{1, 2}, some 1, .multiple⟩ (.add 2)).fires = 0 ∧
    (step ascending ⟨{1, 2}, some 1, .multiple⟩ (.toggle 1)).fires = 1 := by
  constructor
  · rw [(C01_changed_event_exact ascending ⟨{1, 2}, some 1, .multiple⟩ (.add 2)).1 trivial]; decide
  · rw [(C01_changed_event_exact ascending ⟨{1, 2}, some 1, .multiple⟩ (.toggle 1)).1 trivial]; decide

theorem addRange_append (s : Sel) (r : List ℤ) (i : ℤ) :
    (addRange s (r ++ [i])).sel = (add (addRange s r).sel i).sel ∧
    (addRange s (r ++ [i])).fires = (addRange s r).fires + (add (addRange s r).sel i).fires := by
  unfold addRange; rw [List.foldl_append]; exact ⟨rfl, rfl⟩

/-- C01 for `add_range`: `changed_event` fires once for each index of the range whose addition makes the set differ. -/
theorem C01_add_range (s : Sel) (r : List ℤ) :
    (addRange s r).fires = ((List.range r.length).filter fun k =>
      (addRange s (r.take (k + 1))).sel.indexes ≠ (addRange s (r.take k)).sel.indexes).length := by
  induction r using List.reverseRecOn with
  | nil => rfl
  | append_singleton r i ih =>
    rw [(addRange_append s r i).2, ih, List.length_append, List.length_singleton, List.range_succ, List.filter_append,
      List.length_append, add_fires]
    congr 1
    · congr 1
      apply List.filter_congr
      intro k hk
      rw [List.mem_range] at hk
      rw [List.take_append_of_le_length (by omega), List.take_append_of_le_length (by omega)]
    · have h1 : (r ++ [i]).take (r.length + 1) = r ++ [i] := by rw [List.take_of_length_le (by simp)]
      rw [List.filter_singleton, h1, List.take_left, (addRange_append s r i).1]
      split <;> simp_all

/-! ### C02 -/

/-- Specification: what each call does to the abstract set, and the exception it raises. -/
def specStep (is : Finset ℤ) : Op → Finset ℤ × Option Exc
  | .clear => (∅, none)
  | .add i => (is ∪ {i}, none)
  | .remove i => if i ∈ is then (is \ {i}, none) else (is, some .keyError)
  | .addRange r => (is ∪ r.toFinset, none)
  | .setMultiple js => (js, none)
  | .set i => ({i}, none)
  | .toggle i => (if i ∈ is then is \ {i} else is ∪ {i}, none)
  | .extend _ => (is, none)
  | .insertIndex k => (is.image fun i => if i < k then i else i + 1, none)
  | .removeIndex k => ((is \ {k}).image fun i => if i > k then i - 1 else i, none)
  | .setAnchor _ => (is, none)

/-- Calls other than `extend` (whose effect depends on the anchor, see C06). -/
def Op.NotExtend : Op → Prop
  | .extend _ => False
  | _ => True

theorem add_multiple (s : Sel) (i : ℤ) (hm : s.style = .multiple) :
    (add s i).sel.indexes = s.indexes ∪ {i} ∧ (add s i).err = none := by
  unfold add
  rw [if_neg (by simp [hm]), if_pos hm]
  refine ⟨?_, rfl⟩
  simp only [finish_sel]
  have : ∀ (t u : Sel), t.indexes = u.indexes → (if s.indexes.card = 0 then t else u).indexes = u.indexes := by
    intro t u h; split
    · exact h
    · rfl
  refine Eq.trans (this _ _ rfl) ?_
  ext x; simp [or_comm]

theorem remove_multiple (ord : SetOrder) (s : Sel) (i : ℤ) (hm : s.style = .multiple) :
    ((remove ord s i).sel.indexes, (remove ord s i).err) =
      if i ∈ s.indexes then (s.indexes \ {i}, none) else (s.indexes, some .keyError) := by
  unfold remove
  simp only [hm, true_or, if_true]
  by_cases hi : i ∈ s.indexes
  · simp only [hi, if_true]
    have : ∀ (b : Bool) (t : Sel), ((if b = true then t else updateAnchor ord t) : Sel).indexes = t.indexes := by
      intro b t; cases b <;> rfl
    rw [Prod.mk.injEq]
    refine ⟨?_, rfl⟩
    rw [finish_sel, this]
    ext x; simp [and_comm]
  · simp [hi]

/-- One call in `multiple` style does to the index set what the specification says. -/
theorem C02_step (ord : SetOrder) (s : Sel) (op : Op) (hm : s.style = .multiple) (hop : op.NotExtend) :
    ((step ord s op).sel.indexes, (step ord s op).err) = specStep s.indexes op := by
  cases op with
  | clear => simp [step, specStep, clear, hm]
  | add i => simp [step, specStep, add_multiple s i hm]
  | remove i => simp only [step, specStep]; exact remove_multiple ord s i hm
  | addRange r =>
    simp only [step, specStep, Prod.mk.injEq]
    constructor
    · rw [addRange_sel]
      induction r generalizing s with
      | nil => simp
      | cons y r ih =>
        simp only [List.foldl_cons]
        rw [ih _ (by rw [add_style, hm]), (add_multiple s y hm).1]
        ext x; simp; tauto
    · unfold addRange
      have : ∀ (r : List ℤ) (o : Out), o.sel.style = .multiple → o.err = none →
          (r.foldl (fun o i => let o' := add o.sel i; (⟨o'.sel, o.fires + o'.fires, o'.err⟩ : Out)) o).err = none := by
        intro r
        induction r with
        | nil => intro o _ h; exact h
        | cons y r ih =>
          intro o ho _
          simp only [List.foldl_cons]
          apply ih
          · show (add o.sel y).sel.style = _
            rw [add_style, ho]
          · exact (add_multiple o.sel y ho).2
      exact this r _ hm rfl
  | setMultiple is => simp [step, specStep, setMultiple, hm]
  | set i => simp [step, specStep, set, hm]
  | toggle i =>
    simp only [step, specStep, toggle]
    by_cases hi : i ∈ s.indexes
    · simp only [hi, if_true]
      have := remove_multiple ord s i hm
      simpa [hi] using this
    · simp only [hi, if_false]
      rw [(add_multiple s i hm).1, (add_multiple s i hm).2]
  | extend i => exact absurd hop id
  | insertIndex k =>
    simp only [step, specStep]
    rw [insertIndex_indexes]; rfl
  | removeIndex k =>
    simp only [step, specStep]
    rw [removeIndex_indexes, Finset.erase_eq]; rfl
  | setAnchor a => rfl

/-- C01 for `add_range` in `multiple` style: one fire for each index of the range that was not selected. -/
theorem C01_add_range_multiple (s : Sel) (r : List ℤ) (hm : s.style = .multiple) :
    (addRange s r).fires = (r.toFinset \ s.indexes).card := by
  induction r using List.reverseRecOn with
  | nil => simp [addRange]
  | append_singleton r i ih =>
    have h : (addRange s r).sel.indexes = s.indexes ∪ r.toFinset :=
      (Prod.mk.inj (C02_step ascending s (.addRange r) hm trivial)).1
    have hs : (addRange s r).sel.style = .multiple := (step_style ascending s (.addRange r)).trans hm
    rw [(addRange_append s r i).2, ih, add_fires, (add_multiple _ i hs).1, h]
    have e : (r ++ [i]).toFinset = insert i r.toFinset := by ext x; simp
    rw [e]
    by_cases hi : i ∈ s.indexes ∪ r.toFinset
    · rw [if_pos (Finset.union_eq_left.2 (Finset.singleton_subset_iff.2 hi)), Nat.add_zero]
      congr 1; ext x
      simp only [Finset.mem_sdiff, Finset.mem_insert]
      rw [Finset.mem_union] at hi
      constructor
      · rintro ⟨h1, h2⟩; exact ⟨.inr h1, h2⟩
      · rintro ⟨rfl | h1, h2⟩
        · exact ⟨hi.resolve_left h2, h2⟩
        · exact ⟨h1, h2⟩
    · rw [if_neg fun h' => hi (Finset.singleton_subset_iff.1 (Finset.union_eq_left.1 h'))]
      rw [Finset.mem_union, not_or] at hi
      rw [Finset.insert_sdiff_of_notMem _ hi.1, Finset.card_insert_of_notMem (by simp [hi.2])]

/-- four indexes added to a selection that has one of them -/
example : (addRange ⟨{1, 2}, some 1, .multiple⟩ [0, 1, 3, 4]).fires = 3 := by
  rw [C01_add_range_multiple _ _ rfl]; decide

/-- C02: every history of calls on a `multiple` selection behaves like the same history on an abstract set. -/
theorem C02_multiple_is_set_algebra (ops : List (SetOrder × Op)) (s : Sel) (hm : s.style = .multiple)
    (hops : ∀ c ∈ ops, c.2.NotExtend) :
    (run s ops).indexes = (ops.map Prod.snd).foldl (fun is op => (specStep is op).1) s.indexes := by
  induction ops generalizing s with
  | nil => rfl
  | cons c ops ih =>
    have h1 := C02_step c.1 s c.2 hm (hops c (by simp))
    have h2 := ih (step c.1 s c.2).sel (by rw [step_style, hm]) (fun d hd => hops d (by simp [hd]))
    simp only [run, List.foldl_cons, List.map_cons] at h2 ⊢
    rw [h2, ← h1]

example : (run (init .multiple) [(ascending, .add 3), (ascending, .addRange [5, 6]), (ascending, .toggle 3),
    (ascending, .remove 9)]).indexes = {5, 6} := by
  rw [C02_multiple_is_set_algebra _ _ rfl (by simp [Op.NotExtend])]
  decide

/-! ### C03, C04 -/

theorem set_card_le (s : Sel) (i : ℤ) (h : s.style ≠ .none) : (set s i).sel.indexes.card ≤ 1 := by
  unfold set
  rw [if_pos]
  · simp
  · cases hs : s.style <;> simp_all

theorem add_card_le (s : Sel) (i : ℤ) (h : s.style = .single ∨ s.style = .singleOrNone) :
    (add s i).sel.indexes.card ≤ 1 := by
  unfold add
  rw [if_pos h]
  exact set_card_le s i (by rcases h with h | h <;> simp [h])

theorem shift_card_le (ord : SetOrder) (s : Sel) (k : ℤ) (h : s.indexes.card ≤ 1) :
    (insertIndex ord s k).sel.indexes.card ≤ 1 ∧ (removeIndex ord s k).sel.indexes.card ≤ 1 := by
  rw [insertIndex_indexes, removeIndex_indexes]
  refine ⟨le_trans Finset.card_image_le h, le_trans Finset.card_image_le (le_trans (Finset.card_erase_le) h)⟩

theorem remove_card_le (ord : SetOrder) (s : Sel) (i : ℤ) (hs : s.style = .singleOrNone ∨ s.style = .single)
    (h : s.indexes.card ≤ 1) : (remove ord s i).sel.indexes.card ≤ 1 := by
  unfold remove
  rcases hs with hs | hs
  · rw [if_pos (Or.inr hs)]
    split
    · rw [finish_sel]
      have : ∀ (b : Bool) (t : Sel), ((if b = true then t else updateAnchor ord t) : Sel).indexes = t.indexes := by
        intro b t; cases b <;> rfl
      rw [this]
      exact le_trans Finset.card_erase_le h
    · exact h
  · simp [hs, h]

theorem addRange_card_le (s : Sel) (r : List ℤ) (hs : s.style = .singleOrNone ∨ s.style = .single)
    (h : s.indexes.card ≤ 1) : (addRange s r).sel.indexes.card ≤ 1 := by
  rw [addRange_sel]
  induction r generalizing s with
  | nil => exact h
  | cons y r ih =>
    simp only [List.foldl_cons]
    apply ih
    · rw [add_style]; exact hs
    · exact add_card_le s y hs.symm

/-- one call with style `none` -/
theorem step_none (ord : SetOrder) (s : Sel) (op : Op) (hs : s.style = .none) (h : s.indexes = ∅) :
    (step ord s op).sel.indexes = ∅ := by
  have hc : (clear s).sel.indexes = ∅ := by simp [clear, hs]
  have hset : ∀ i, (set s i).sel.indexes = ∅ := by intro i; simp [set, hs, hc]
  have hadd : ∀ i, (add s i).sel.indexes = ∅ := by intro i; simp [add, hs, hc]
  have hrem : ∀ i, (remove ord s i).sel.indexes = ∅ := by intro i; simp [remove, hs, hc]
  cases op with
  | clear => exact hc
  | add i => exact hadd i
  | remove i => exact hrem i
  | addRange r =>
    simp only [step, addRange_sel]
    clear hc hset hadd hrem
    induction r generalizing s with
    | nil => exact h
    | cons y r ih =>
      simp only [List.foldl_cons]
      exact ih _ (by rw [add_style, hs]) (by simp [add, hs, clear])
  | setMultiple is => simp [step, setMultiple, hs, hc]
  | set i => exact hset i
  | toggle i => simp only [step, toggle]; split
                · exact hrem i
                · exact hadd i
  | extend i => simp [step, extend, hs, hc]
  | insertIndex k => simp only [step]; rw [insertIndex_indexes, h]; rfl
  | removeIndex k => simp only [step]; rw [removeIndex_indexes, h]; rfl
  | setAnchor a => exact h

/-- one call with style `single_or_none` -/
theorem step_singleOrNone (ord : SetOrder) (s : Sel) (op : Op) (hs : s.style = .singleOrNone)
    (h : s.indexes.card ≤ 1) : (step ord s op).sel.indexes.card ≤ 1 := by
  have hc : (clear s).sel.indexes.card ≤ 1 := by simp [clear, hs]
  cases op with
  | clear => exact hc
  | add i => exact add_card_le s i (Or.inr hs)
  | remove i => exact remove_card_le ord s i (Or.inl hs) h
  | addRange r => exact addRange_card_le s r (Or.inl hs) h
  | setMultiple is =>
    simp only [step]; unfold setMultiple; split
    · rename_i hh; rw [hs] at hh; cases hh
    · split
      · split
        · exact set_card_le s _ (by simp [hs])
        · exact h
      · exact hc
  | set i => exact set_card_le s _ (by simp [hs])
  | toggle i => simp only [step, toggle]; split
                · exact remove_card_le ord s i (Or.inl hs) h
                · exact add_card_le s i (Or.inr hs)
  | extend i =>
    simp only [step]; unfold extend; rw [if_neg (by simp [hs]), if_pos (Or.inr hs)]
    exact set_card_le s _ (by simp [hs])
  | insertIndex k => exact (shift_card_le ord s k h).1
  | removeIndex k => exact (shift_card_le ord s k h).2
  | setAnchor a => exact h

/-- C03: whatever is called, a `none` selection stays empty and a `single_or_none` selection has at most one index. -/
theorem C03_styles_bound_size (ops : List (SetOrder × Op)) :
    (run (init .none) ops).indexes = ∅ ∧ (run (init .singleOrNone) ops).indexes.card ≤ 1 := by
  have key : ∀ (P : Sel → Prop) (s : Sel), P s → (∀ ord s op, P s → P (step ord s op).sel) → P (run s ops) := by
    intro P s h hstep
    induction ops generalizing s with
    | nil => exact h
    | cons c ops ih => exact ih _ (hstep c.1 s c.2 h)
  constructor
  · exact (key (fun s => s.style = .none ∧ s.indexes = ∅) (init .none) ⟨rfl, rfl⟩
      (fun ord s op h => ⟨by rw [step_style, h.1], step_none ord s op h.1 h.2⟩)).2
  · exact (key (fun s => s.style = .singleOrNone ∧ s.indexes.card ≤ 1) (init .singleOrNone) ⟨rfl, by simp [init]⟩
      (fun ord s op h => ⟨by rw [step_style, h.1], step_singleOrNone ord s op h.1 h.2⟩)).2

/-- the bound 1 is reached -/
example : (run (init .singleOrNone) [(ascending, .add 3), (ascending, .insertIndex 1)]).indexes = {4} := by
  simp [run, step, add, set, init, insertIndex_indexes, shiftUp]

/-- C04 is false of the code: `set(5)` followed by `clear()` selects both 0 and 5 (Selection.py:79-81 adds index 0
without dropping the old ones). -/
theorem C04_single_at_most_one_counterexample :
    ¬ ∀ ops : List (SetOrder × Op), (run (init .single) ops).indexes.card ≤ 1 := by
  intro h
  have := h [(ascending, .set 5), (ascending, .clear)]
  revert this
  decide

/-- Calls that do not reach `clear` in a `single` selection. -/
def Op.NoClear : Op → Prop
  | .clear => False
  | .setMultiple is => is.card = 1
  | _ => True

/-- one call with style `single` -/
theorem step_single (ord : SetOrder) (s : Sel) (op : Op) (hs : s.style = .single) (hop : op.NoClear)
    (h : s.indexes.card ≤ 1) : (step ord s op).sel.indexes.card ≤ 1 := by
  cases op with
  | clear => exact absurd hop id
  | add i => exact add_card_le s i (Or.inl hs)
  | remove i => exact remove_card_le ord s i (Or.inr hs) h
  | addRange r => exact addRange_card_le s r (Or.inr hs) h
  | setMultiple is =>
    simp only [step]; unfold setMultiple
    rw [if_neg (by simp [hs]), if_pos ⟨Or.inl hs, hop⟩]
    split
    · exact set_card_le s _ (by simp [hs])
    · exact h
  | set i => exact set_card_le s _ (by simp [hs])
  | toggle i => simp only [step, toggle]; split
                · exact remove_card_le ord s i (Or.inr hs) h
                · exact add_card_le s i (Or.inl hs)
  | extend i =>
    simp only [step]; unfold extend; rw [if_neg (by simp [hs]), if_pos (Or.inl hs)]
    exact set_card_le s _ (by simp [hs])
  | insertIndex k => exact (shift_card_le ord s k h).1
  | removeIndex k => exact (shift_card_le ord s k h).2
  | setAnchor a => exact h

/-- C04, the part that holds: a `single` selection has at most one index as long as `clear` is not called and
`set_multiple` is called with one index only. Missing: histories with `clear` (false, see the counterexample); for
them the second part says exactly when one `clear` keeps the bound. -/
theorem C04_single_at_most_one_partial :
    (∀ ops : List (SetOrder × Op), (∀ c ∈ ops, c.2.NoClear) → (run (init .single) ops).indexes.card ≤ 1) ∧
    (∀ s : Sel, s.style = .single → s.indexes.card ≤ 1 →
      ((clear s).sel.indexes.card ≤ 1 ↔ s.indexes ⊆ {0})) := by
  constructor
  · intro ops
    have : ∀ (ops : List (SetOrder × Op)) (s : Sel), s.style = .single → s.indexes.card ≤ 1 →
        (∀ c ∈ ops, c.2.NoClear) → (run s ops).indexes.card ≤ 1 := by
      intro ops
      induction ops with
      | nil => intro s _ h _; exact h
      | cons c ops ih =>
        intro s hs h hops
        exact ih _ (by rw [step_style, hs]) (step_single c.1 s c.2 hs (hops c (by simp)) h)
          (fun d hd => hops d (by simp [hd]))
    exact this ops _ rfl (by simp [init])
  · intro s hs h
    have hc : (clear s).sel.indexes = insert 0 s.indexes := by simp [clear, hs]
    rw [hc]
    constructor
    · intro hcard x hx
      have := Finset.card_le_one.1 hcard x (by simp [hx]) 0 (by simp)
      simp [this]
    · intro hsub
      have : insert 0 s.indexes = ({0} : Finset ℤ) := by
        ext x; simp only [Finset.mem_insert, Finset.mem_singleton]
        constructor
        · rintro (h | h)
          · exact h
          · simpa using hsub h
        · exact Or.inl
      rw [this]; simp

/-- Calls that keep a `single` selection at one index: those that reach `clear` do if nothing but index 0 is selected. -/
def Op.KeepsOne (s : Sel) : Op → Prop
  | .clear => s.indexes ⊆ {0}
  | .setMultiple is => is.card = 1 ∨ s.indexes ⊆ {0}
  | _ => True

/-- Every call of the history is such a call. -/
def KeepsOne : Sel → List (SetOrder × Op) → Prop
  | _, [] => True
  | s, c :: ops => c.2.KeepsOne s ∧ KeepsOne (step c.1 s c.2).sel ops

/-- C04, exactly when: a `single` selection has at most one index after every call of a history precisely if `clear`, and `set_multiple`
with no or several indexes, are called only while nothing but index 0 is selected. -/
theorem C04_iff_partial (ops : List (SetOrder × Op)) :
    (∀ n, (run (init .single) (ops.take n)).indexes.card ≤ 1) ↔ KeepsOne (init .single) ops := by
  have hstep : ∀ (ord : SetOrder) (s : Sel) (op : Op), s.style = .single → s.indexes.card ≤ 1 →
      ((step ord s op).sel.indexes.card ≤ 1 ↔ op.KeepsOne s) := by
    intro ord s op hs h
    have hc := C04_single_at_most_one_partial.2 s hs h
    cases op with
    | clear => exact hc
    | setMultiple is =>
      by_cases h1 : is.card = 1
      · simp only [Op.KeepsOne, h1, true_or, iff_true]
        exact step_single ord s (.setMultiple is) hs h1 h
      · simp only [Op.KeepsOne, h1, false_or]
        rw [← hc]
        simp only [step]
        unfold setMultiple
        rw [if_neg (by simp [hs]), if_neg (by simp [h1])]
    | add i => exact iff_of_true (step_single ord s (.add i) hs trivial h) trivial
    | remove i => exact iff_of_true (step_single ord s (.remove i) hs trivial h) trivial
    | addRange r => exact iff_of_true (step_single ord s (.addRange r) hs trivial h) trivial
    | set i => exact iff_of_true (step_single ord s (.set i) hs trivial h) trivial
    | toggle i => exact iff_of_true (step_single ord s (.toggle i) hs trivial h) trivial
    | extend i => exact iff_of_true (step_single ord s (.extend i) hs trivial h) trivial
    | insertIndex k => exact iff_of_true (step_single ord s (.insertIndex k) hs trivial h) trivial
    | removeIndex k => exact iff_of_true (step_single ord s (.removeIndex k) hs trivial h) trivial
    | setAnchor a => exact iff_of_true (step_single ord s (.setAnchor a) hs trivial h) trivial
  have : ∀ (ops : List (SetOrder × Op)) (s : Sel), s.style = .single → s.indexes.card ≤ 1 →
      ((∀ n, (run s (ops.take n)).indexes.card ≤ 1) ↔ KeepsOne s ops) := by
    intro ops
    induction ops with
    | nil => intro s _ h; simp [run, KeepsOne, h]
    | cons c ops ih =>
      intro s hs h
      have hs' : (step c.1 s c.2).sel.style = .single := by rw [step_style, hs]
      constructor
      · intro hn
        have h1 : (step c.1 s c.2).sel.indexes.card ≤ 1 := by simpa [run] using hn 1
        refine ⟨(hstep c.1 s c.2 hs h).1 h1, (ih _ hs' h1).1 fun n => ?_⟩
        simpa [run] using hn (n + 1)
      · rintro ⟨h1, h2⟩ n
        cases n with
        | zero => simpa [run] using h
        | succ n => simpa [run] using (ih _ hs' ((hstep c.1 s c.2 hs h).2 h1)).2 h2 n
  exact this ops _ rfl (by simp [init])

example : (run (init .single) [(ascending, .set 5), (ascending, .add 7), (ascending, .remove 7)]).indexes = {7} := by
  decide

/-! ### C05 -/

/-- The items of `xs` (whose first element has position `o`) at the selected positions, in order. -/
def pickFrom {α} (is : Finset ℤ) : ℤ → List α → List α
  | _, [] => []
  | o, x :: xs => if o ∈ is then x :: pickFrom is (o + 1) xs else pickFrom is (o + 1) xs

/-- The selected items of a list. -/
def selectedItems {α} (is : Finset ℤ) (xs : List α) : List α := pickFrom is 0 xs

theorem pickFrom_congr {α} {is js : Finset ℤ} (d : ℤ) (xs : List α) (o : ℤ)
    (h : ∀ i, o ≤ i → i < o + xs.length → (i ∈ is ↔ i + d ∈ js)) :
    pickFrom is o xs = pickFrom js (o + d) xs := by
  induction xs generalizing o with
  | nil => rfl
  | cons x xs ih =>
    have h0 := h o (le_refl _) (by simp)
    have ih' := ih (o + 1) (fun i h1 h2 => h i (by omega) (by simp; omega))
    have e : o + 1 + d = o + d + 1 := by omega
    rw [e] at ih'
    simp only [pickFrom, ih']
    by_cases ho : o ∈ is
    · rw [if_pos ho, if_pos (h0.1 ho)]
    · rw [if_neg ho, if_neg (fun hh => ho (h0.2 hh))]

theorem mem_image_shiftUp (is : Finset ℤ) (k i : ℤ) :
    i ∈ is.image (shiftUp k) ↔ (i < k ∧ i ∈ is) ∨ (k < i ∧ i - 1 ∈ is) := by
  simp only [Finset.mem_image, shiftUp]
  constructor
  · rintro ⟨j, hj, rfl⟩
    split
    · left; exact ⟨by assumption, hj⟩
    · right; refine ⟨by omega, ?_⟩; simpa using hj
  · rintro (⟨h1, h2⟩ | ⟨h1, h2⟩)
    · exact ⟨i, h2, by simp [h1]⟩
    · exact ⟨i - 1, h2, by rw [if_neg (by omega)]; omega⟩

theorem mem_image_shiftDown (is : Finset ℤ) (k i : ℤ) :
    i ∈ (is.erase k).image (shiftDown k) ↔ (i < k ∧ i ∈ is) ∨ (k ≤ i ∧ i + 1 ∈ is) := by
  simp only [Finset.mem_image, Finset.mem_erase, shiftDown]
  constructor
  · rintro ⟨j, ⟨hne, hj⟩, rfl⟩
    split
    · right; refine ⟨by omega, ?_⟩; simpa using hj
    · left; exact ⟨by omega, hj⟩
  · rintro (⟨h1, h2⟩ | ⟨h1, h2⟩)
    · exact ⟨i, ⟨by omega, h2⟩, by rw [if_neg (by omega)]⟩
    · exact ⟨i + 1, ⟨by omega, h2⟩, by rw [if_pos (by omega)]; omega⟩

theorem pickFrom_insertIdx {α} (is : Finset ℤ) (xs : List α) (o : ℤ) (k : Nat) (hk : k ≤ xs.length) (x : α) :
    pickFrom (is.image (shiftUp (o + k))) o (xs.insertIdx k x) = pickFrom is o xs := by
  induction k generalizing xs o with
  | zero =>
    simp only [List.insertIdx_zero, pickFrom]
    rw [if_neg (by rw [mem_image_shiftUp]; simp)]
    symm
    apply pickFrom_congr 1
    intro i h1 h2
    rw [mem_image_shiftUp]
    constructor
    · intro hi; right; exact ⟨by simp; omega, by simpa using hi⟩
    · rintro (⟨h, _⟩ | ⟨_, h⟩)
      · simp at h; omega
      · simpa using h
  | succ k ih =>
    cases xs with
    | nil => simp at hk
    | cons y xs =>
      simp only [List.insertIdx_succ_cons, pickFrom]
      have e : o + ((k + 1 : Nat) : ℤ) = o + 1 + (k : ℤ) := by push_cast; omega
      rw [e, ih xs (o + 1) (by simpa using hk)]
      have : o ∈ is.image (shiftUp (o + 1 + (k : ℤ))) ↔ o ∈ is := by
        rw [mem_image_shiftUp]
        constructor
        · rintro (⟨_, h⟩ | ⟨h, _⟩)
          · exact h
          · omega
        · intro h; left; exact ⟨by omega, h⟩
      simp only [this]

theorem pickFrom_eraseIdx {α} (is : Finset ℤ) (xs : List α) (o : ℤ) (k : Nat) (hk : k < xs.length) :
    pickFrom ((is.erase (o + k)).image (shiftDown (o + k))) o (xs.eraseIdx k) = pickFrom (is.erase (o + k)) o xs := by
  induction k generalizing xs o with
  | zero =>
    cases xs with
    | nil => simp at hk
    | cons y xs =>
      simp only [List.eraseIdx_cons_zero, pickFrom, Nat.cast_zero, add_zero]
      rw [if_neg (by simp)]
      apply pickFrom_congr 1
      intro i h1 h2
      rw [mem_image_shiftDown]
      simp only [Finset.mem_erase]
      constructor
      · rintro (⟨h, _⟩ | ⟨_, h⟩)
        · omega
        · exact ⟨by omega, h⟩
      · rintro ⟨_, h⟩; right; exact ⟨h1, h⟩
  | succ k ih =>
    cases xs with
    | nil => simp at hk
    | cons y xs =>
      simp only [List.eraseIdx_cons_succ, pickFrom]
      have e : o + ((k + 1 : Nat) : ℤ) = o + 1 + (k : ℤ) := by push_cast; omega
      rw [e, ih xs (o + 1) (by simpa using hk)]
      have : o ∈ (is.erase (o + 1 + (k : ℤ))).image (shiftDown (o + 1 + (k : ℤ))) ↔ o ∈ is.erase (o + 1 + (k : ℤ)) := by
        rw [mem_image_shiftDown, Finset.mem_erase]
        constructor
        · rintro (⟨_, h⟩ | ⟨h, _⟩)
          · exact ⟨by omega, h⟩
          · omega
        · rintro ⟨_, h⟩; left; exact ⟨by omega, h⟩
      simp only [this]

/-- C05: after inserting `x` at `k` into the list a selection refers to, `insert_index(k)` selects exactly the same
items (at list level) and `x` is not selected; the anchor stays on its item. -/
theorem C05_insert_index {α} (ord : SetOrder) (s : Sel) (xs : List α) (k : Nat) (hk : k ≤ xs.length) (x : α) :
    selectedItems (insertIndex ord s k).sel.indexes (xs.insertIdx k x) = selectedItems s.indexes xs ∧
    (k : ℤ) ∉ (insertIndex ord s k).sel.indexes ∧
    (∀ i : ℤ, (if i < k then i else i + 1) ∈ (insertIndex ord s k).sel.indexes ↔ i ∈ s.indexes) ∧
    (insertIndex ord s k).sel.anchor = s.anchor.map (fun (a : ℤ) => if a < k then a else a + 1) := by
  rw [insertIndex_indexes]
  refine ⟨?_, ?_, ?_, ?_⟩
  · have := pickFrom_insertIdx s.indexes xs 0 k hk x
    simpa [selectedItems] using this
  · rw [mem_image_shiftUp]; rintro (⟨h, _⟩ | ⟨h, _⟩) <;> omega
  · intro i; rw [mem_image_shiftUp]; split
    · constructor
      · rintro (⟨_, h⟩ | ⟨h, _⟩)
        · exact h
        · omega
      · intro h; left; exact ⟨by assumption, h⟩
    · constructor
      · rintro (⟨h, _⟩ | ⟨_, h⟩)
        · omega
        · simpa using h
      · intro h; right; exact ⟨by omega, by simpa using h⟩
  · unfold insertIndex
    cases s.anchor with
    | none => rfl
    | some a =>
      simp only [Option.map_some]
      by_cases h : (k : ℤ) ≤ a
      · rw [if_pos h, if_neg (by omega)]
      · rw [if_neg h, if_pos (by omega)]

/-- C05: after removing position `k` from the list, `remove_index(k)` selects exactly the same surviving items, and an
anchor on another item stays on it. -/
theorem C05_remove_index {α} (ord : SetOrder) (s : Sel) (xs : List α) (k : Nat) (hk : k < xs.length) :
    selectedItems (removeIndex ord s k).sel.indexes (xs.eraseIdx k) = selectedItems (s.indexes \ {(k : ℤ)}) xs ∧
    (∀ i : ℤ, i ∈ (removeIndex ord s k).sel.indexes ↔ (if i < k then i else i + 1) ∈ s.indexes) ∧
    (∀ a, s.anchor = some a → a ≠ k →
      (removeIndex ord s k).sel.anchor = some (if a < k then a else a - 1)) := by
  rw [removeIndex_indexes]
  refine ⟨?_, ?_, ?_⟩
  · have := pickFrom_eraseIdx s.indexes xs 0 k hk
    rw [← Finset.erase_eq]
    simpa [selectedItems] using this
  · intro i; rw [mem_image_shiftDown]; split
    · constructor
      · rintro (⟨_, h⟩ | ⟨h, _⟩)
        · exact h
        · omega
      · intro h; left; exact ⟨by assumption, h⟩
    · constructor
      · rintro (⟨h, _⟩ | ⟨_, h⟩)
        · omega
        · exact h
      · intro h; right; exact ⟨by omega, h⟩
  · intro a ha hne
    unfold removeIndex
    simp only [ha]
    rw [if_neg (fun h => hne h.symm)]
    by_cases h : (k : ℤ) < a
    · rw [if_pos h, if_neg (by omega)]
    · rw [if_neg h, if_pos (by omega), ha]

/-- C05: `remove_index(k)` undoes `insert_index(k)`, for the index set and the anchor. -/
theorem C05_remove_undoes_insert (o1 o2 : SetOrder) (s : Sel) (k : ℤ) :
    (removeIndex o2 (insertIndex o1 s k).sel k).sel = s := by
  have hi : (removeIndex o2 (insertIndex o1 s k).sel k).sel.indexes = s.indexes := by
    rw [removeIndex_indexes, insertIndex_indexes]
    ext i
    rw [mem_image_shiftDown, mem_image_shiftUp, mem_image_shiftUp]
    constructor
    · rintro (⟨h, ⟨_, h1⟩ | ⟨h1, _⟩⟩ | ⟨h, ⟨h1, _⟩ | ⟨_, h1⟩⟩)
      · exact h1
      · omega
      · omega
      · simpa using h1
    · intro h
      by_cases hk : i < k
      · left; exact ⟨hk, Or.inl ⟨hk, h⟩⟩
      · right; exact ⟨by omega, Or.inr ⟨by omega, by simpa using h⟩⟩
  have ha : (removeIndex o2 (insertIndex o1 s k).sel k).sel.anchor = s.anchor := by
    unfold removeIndex insertIndex
    cases s.anchor with
    | none => rfl
    | some a =>
      simp only
      by_cases h : k ≤ a
      · simp only [if_pos h]
        rw [if_neg (by omega), if_pos (by omega)]; simp
      · simp only [if_neg h]
        rw [if_neg (by omega), if_neg (by omega)]
  have hst : (removeIndex o2 (insertIndex o1 s k).sel k).sel.style = s.style := by
    have h1 := step_style o2 (insertIndex o1 s k).sel (.removeIndex k)
    have h2 := step_style o1 s (.insertIndex k)
    simp only [step] at h1 h2
    rw [h1, h2]
  cases hh : (removeIndex o2 (insertIndex o1 s k).sel k).sel
  rw [hh] at hi ha hst
  cases s
  simp_all

example : selectedItems (insertIndex ascending ⟨{0, 2}, some 2, .multiple⟩ 1).sel.indexes ["a", "x", "b", "c"]
    = ["a", "c"] := by
  exact (C05_insert_index ascending ⟨{0, 2}, some 2, .multiple⟩ ["a", "b", "c"] 1 (by decide) "x").1.trans (by decide)

example : selectedItems (removeIndex ascending ⟨{0, 1, 2}, some 2, .multiple⟩ 1).sel.indexes ["a", "c"] = ["a", "c"] := by
  have := (C05_remove_index ascending ⟨{0, 1, 2}, some 2, .multiple⟩ ["a", "b", "c"] 1 (by decide)).1
  rw [show (["a", "c"] : List String) = (["a", "b", "c"].eraseIdx 1) from rfl]
  refine Eq.trans this ?_
  decide

/-! ### C06 -/

/-- C06: `extend(i)` in `multiple` style. -/
theorem C06_extend_interval (s : Sel) (i : ℤ) (hm : s.style = .multiple) :
    (∀ a, s.anchor = some a → i ≠ a →
      (∀ x, x ∈ (extend s i).sel.indexes ↔ x ∈ s.indexes ∨ (min a i ≤ x ∧ x ≤ max a i)) ∧
      (extend s i).sel.anchor = some a) ∧
    (s.anchor = none →
      (∀ x, x ∈ (extend s i).sel.indexes ↔ x ∈ s.indexes ∨ x = i) ∧ (extend s i).sel.anchor = some i) ∧
    (extend s i).err = none := by
  refine ⟨?_, ?_, ?_⟩
  · intro a ha hne
    unfold extend
    rw [if_pos hm]
    simp only [ha]
    by_cases h : i > a
    · rw [if_pos h]
      refine ⟨?_, by simp [ha]⟩
      intro x
      simp only [finish_sel, mem_addAll, mem_range]
      rw [min_eq_left (by omega), max_eq_right (by omega)]
      constructor <;> (rintro (h | h) <;> [exact Or.inl h; (right; omega)])
    · rw [if_neg h, if_pos (by omega)]
      refine ⟨?_, by simp [ha]⟩
      intro x
      simp only [finish_sel, mem_addAll, mem_range]
      rw [min_eq_right (by omega), max_eq_left (by omega)]
      constructor <;> (rintro (h | h) <;> [exact Or.inl h; (right; omega)])
  · intro ha
    unfold extend
    rw [if_pos hm]
    simp only [ha]
    refine ⟨?_, rfl⟩
    intro x
    simp [or_comm]
  · unfold extend
    rw [if_pos hm]
    split
    · split
      · rfl
      · split <;> rfl
    · rfl

example : (7 : ℤ) ∈ (extend ⟨{5, 20}, some 5, .multiple⟩ 9).sel.indexes ∧
    (10 : ℤ) ∉ (extend ⟨{5, 20}, some 5, .multiple⟩ 9).sel.indexes := by
  have h := ((C06_extend_interval ⟨{5, 20}, some 5, .multiple⟩ 9 rfl).1 5 rfl (by decide)).1
  rw [h, h]; decide

/-! ### C07 -/

/-- Whenever something is selected, the anchor is selected. -/
def AnchorSelected (s : Sel) : Prop := s.indexes.Nonempty → ∃ a, s.anchor = some a ∧ a ∈ s.indexes

/-- C07 is false of the code: `set_multiple({1})`, `add(3)`, `remove(1)` leaves anchor 1 with only 3 selected
(Selection.py:88-91 can only lower the anchor). Any iteration order gives this. -/
theorem C07_anchor_selected_counterexample (ord : SetOrder) :
    ¬ AnchorSelected (run (init .multiple) [(ord, .set 1), (ord, .add 3), (ord, .remove 1)]) := by
  intro h
  have hl : ord.list {3} = [3] := by
    obtain ⟨i, h1, h2⟩ := list_of_card_one ord (is := {3}) (by simp)
    rw [h1]; simp at h2; rw [h2]
  have he : (({3, 1} : Finset ℤ).erase 1) = {3} := by decide
  have hr : run (init .multiple) [(ord, .set 1), (ord, .add 3), (ord, .remove 1)] = ⟨{3}, some 1, .multiple⟩ := by
    simp [run, step, set, add, remove, init, updateAnchor, hl, he]
  rw [hr] at h
  obtain ⟨a, h1, h2⟩ := h (by simp)
  simp at h1 h2
  omega

/-- Calls of a history that keep the anchor selected: anything but assigning an anchor that is not selected, removing (or toggling off) the
anchor while no smaller index is selected and others are, and `remove_index` of the anchor while no smaller index and
not the following one is selected. -/
def Op.KeepsAnchor (s : Sel) : Op → Prop
  | .setAnchor a => s.indexes.Nonempty → ∃ b, a = some b ∧ b ∈ s.indexes
  | .remove i | .toggle i =>
      s.anchor = some i → i ∈ s.indexes → s.style = .multiple →
        (∃ j ∈ s.indexes, j < i) ∨ s.indexes = {i}
  | .removeIndex k =>
      s.anchor = some k → k ∈ s.indexes → (∃ j ∈ s.indexes, j < k) ∨ k + 1 ∈ s.indexes ∨ s.indexes = {k}
  | _ => True

/-- Every call of the history keeps the anchor selected in the state it is made in. -/
def KeepsAnchor : Sel → List (SetOrder × Op) → Prop
  | _, [] => True
  | s, c :: ops => c.2.KeepsAnchor s ∧ KeepsAnchor (step c.1 s c.2).sel ops

theorem anchor_clear (s : Sel) : AnchorSelected (clear s).sel := by
  unfold clear; split
  · intro _; exact ⟨0, rfl, by simp⟩
  · intro h; simp at h

theorem anchor_set (s : Sel) (i : ℤ) : AnchorSelected (set s i).sel := by
  unfold set; split
  · intro _; exact ⟨i, rfl, by simp⟩
  · exact anchor_clear s

theorem anchor_add (s : Sel) (i : ℤ) (h : AnchorSelected s) : AnchorSelected (add s i).sel := by
  unfold add; split
  · exact anchor_set s i
  · split
    · simp only [finish_sel]
      split
      · intro _; exact ⟨i, rfl, by simp⟩
      · rename_i hc
        intro _
        obtain ⟨a, h1, h2⟩ := h (Finset.card_ne_zero.1 hc)
        exact ⟨a, h1, by simp [h2]⟩
    · exact anchor_clear s

theorem anchor_remove (ord : SetOrder) (s : Sel) (i : ℤ) (h : AnchorSelected s)
    (hk : s.anchor = some i → i ∈ s.indexes → s.style = .multiple → (∃ j ∈ s.indexes, j < i) ∨ s.indexes = {i})
    (hone : s.style ≠ .multiple → s.indexes.card ≤ 1) :
    AnchorSelected (remove ord s i).sel := by
  unfold remove
  split
  · split
    · rename_i hst hi
      obtain ⟨a, ha, hmem⟩ := h ⟨i, hi⟩
      simp only [finish_sel, ha]
      by_cases hai : a = i
      · subst hai
        rw [if_neg (by simp)]
        intro hne
        rw [updateAnchor_indexes] at hne ⊢
        have hsingle : ¬ s.indexes = {a} := by
          intro he; rw [he] at hne; simp at hne
        have hmul : s.style = .multiple := by
          by_contra hno
          have := hone hno
          apply hsingle
          obtain ⟨b, hb⟩ := Finset.card_eq_one.1 (le_antisymm this (Finset.card_pos.2 ⟨a, hmem⟩))
          rw [hb] at hmem ⊢; simp at hmem; rw [hmem]
        rcases hk ha hi hmul with ⟨j, hj, hlt⟩ | he
        · rw [updateAnchor_anchor]
          simp only [ha]
          obtain ⟨m, h1, h2, h3, h4⟩ := foldl_minStep_some (ord.list (s.indexes.erase a)) a
          refine ⟨m, h1, ?_⟩
          rcases h2 with rfl | h2
          · have := h4 j (by rw [ord.mem]; simp [hj]; omega)
            omega
          · exact (ord.mem _ _).1 h2
        · exact absurd he hsingle
      · rw [if_pos (by simp [hai, hmem])]
        intro _
        exact ⟨a, by simp [ha], by simp [hai, hmem]⟩
    · exact h
  · split
    · exact h
    · exact anchor_clear s

theorem anchor_step (ord : SetOrder) (s : Sel) (op : Op) (h : AnchorSelected s) (hop : op.KeepsAnchor s)
    (hone : s.style = .singleOrNone → s.indexes.card ≤ 1) : AnchorSelected (step ord s op).sel := by
  have hrem : ∀ i, (s.anchor = some i → i ∈ s.indexes → s.style = .multiple →
      (∃ j ∈ s.indexes, j < i) ∨ s.indexes = {i}) → AnchorSelected (remove ord s i).sel := by
    intro i hk
    by_cases hst : s.style = .single ∨ s.style = .none
    · unfold remove
      rcases hst with hst | hst
      · simpa [hst] using h
      · simpa [hst] using anchor_clear s
    · apply anchor_remove ord s i h hk
      intro hno
      apply hone
      cases hs : s.style <;> simp_all
  cases op with
  | clear => exact anchor_clear s
  | add i => exact anchor_add s i h
  | remove i => exact hrem i hop
  | addRange r =>
    simp only [step, addRange_sel]
    clear hop hone hrem
    induction r generalizing s with
    | nil => exact h
    | cons y r ih => simp only [List.foldl_cons]; exact ih _ (anchor_add s y h)
  | setMultiple is =>
    simp only [step]; unfold setMultiple; split
    · simp only [finish_sel]
      intro hne
      simp only at hne ⊢
      match hl : ord.list is with
      | [] => rw [list_eq_nil] at hl; simp [hl] at hne
      | i :: t => exact ⟨i, rfl, by rw [← ord.mem, hl]; simp⟩
    · split
      · split
        · exact anchor_set s _
        · exact h
      · exact anchor_clear s
  | set i => exact anchor_set s i
  | toggle i =>
    simp only [step, toggle]; split
    · exact hrem i hop
    · exact anchor_add s i h
  | extend i =>
    simp only [step]; unfold extend; split
    · split
      · rename_i a ha
        split
        · intro _; refine ⟨a, ha, ?_⟩; simp [mem_addAll, mem_range]; omega
        · split
          · intro _; refine ⟨a, ha, ?_⟩; simp [mem_addAll, mem_range]; omega
          · exact h
      · intro _; exact ⟨i, rfl, by simp⟩
    · split
      · exact anchor_set s i
      · exact anchor_clear s
  | insertIndex k =>
    simp only [step]
    intro hne
    rw [insertIndex_indexes] at hne ⊢
    obtain ⟨a, ha, hm⟩ := h (by simpa using hne)
    refine ⟨shiftUp k a, ?_, Finset.mem_image_of_mem _ hm⟩
    unfold insertIndex shiftUp
    simp only [ha]
    by_cases hk : k ≤ a
    · rw [if_pos hk, if_neg (by omega)]
    · rw [if_neg hk, if_pos (by omega)]
  | removeIndex k =>
    simp only [step]
    intro hne
    rw [removeIndex_indexes] at hne ⊢
    have hne' : (s.indexes.erase k).Nonempty := by simpa using hne
    obtain ⟨a, ha, hm⟩ := h (hne'.mono (Finset.erase_subset _ _))
    by_cases hka : k = a
    · subst hka
      have hanc : (removeIndex ord s k).sel.anchor = (ord.list s.indexes).foldl minStep (some k) := by
        unfold removeIndex
        simp only [ha, if_pos]
        rw [updateAnchor_anchor, ha]
      rw [hanc]
      obtain ⟨m, h1, h2, h3, h4⟩ := foldl_minStep_some (ord.list s.indexes) k
      refine ⟨m, h1, ?_⟩
      rw [mem_image_shiftDown]
      have hmm : m ∈ s.indexes := by
        rcases h2 with rfl | h2
        · exact hm
        · exact (ord.mem _ _).1 h2
      rcases hop ha hm with ⟨j, hj, hlt⟩ | h5 | h5
      · have := h4 j ((ord.mem _ _).2 hj)
        left; exact ⟨by omega, hmm⟩
      · by_cases hlt : m < k
        · left; exact ⟨hlt, hmm⟩
        · right; have : m = k := by omega
          subst this; exact ⟨le_refl _, h5⟩
      · rw [h5] at hne'; simp at hne'
    · refine ⟨shiftDown k a, ?_, Finset.mem_image_of_mem _ (by simp [hm]; omega)⟩
      unfold removeIndex shiftDown
      simp only [ha]
      rw [if_neg hka]
      by_cases hk : k < a
      · rw [if_pos hk, if_pos (by omega)]
      · rw [if_neg hk, if_neg (by omega), ha]
  | setAnchor a => exact hop

/-- C07, the part that holds: over every history from a fresh selection, of any style, in which the anchor is not
assigned to an index that is not selected and is not removed while it is the smallest of several selected indexes, the anchor is selected whenever
anything is. Missing: those removals (the property is false for them, see the counterexample). -/
theorem C07_anchor_selected_partial (style : Style) (ops : List (SetOrder × Op)) (h : KeepsAnchor (init style) ops) :
    AnchorSelected (run (init style) ops) := by
  have : ∀ (ops : List (SetOrder × Op)) (s : Sel), AnchorSelected s →
      (s.style = .singleOrNone → s.indexes.card ≤ 1) → KeepsAnchor s ops → AnchorSelected (run s ops) := by
    intro ops
    induction ops with
    | nil => intro s h _ _; exact h
    | cons c ops ih =>
      intro s hs hone hk
      exact ih _ (anchor_step c.1 s c.2 hs hk.1 hone)
        (fun hst => by
          rw [step_style] at hst
          exact step_singleOrNone c.1 s c.2 hst (hone hst)) hk.2
  exact this ops _ (by intro hne; simp [init] at hne) (by simp [init]) h

/-- a history meeting the hypothesis: the anchor 5 is removed while 2 is selected, and the anchor moves to 2 -/
example : KeepsAnchor (init .multiple) [(ascending, .set 5), (ascending, .add 2), (ascending, .remove 5)] := by
  refine ⟨trivial, trivial, ?_, trivial⟩
  intro _ _ _
  left; exact ⟨2, by simp [step, set, add, init], by decide⟩

theorem notAnchor_step (ord : SetOrder) (s : Sel) (op : Op) (hop : ¬ op.KeepsAnchor s) :
    ¬ AnchorSelected (step ord s op).sel := by
  have hrem : ∀ i, s.anchor = some i → i ∈ s.indexes → s.style = .multiple → (∀ j ∈ s.indexes, i ≤ j) → s.indexes ≠ {i} →
      ¬ AnchorSelected (remove ord s i).sel := by
    intro i ha hi hst hmin hne hsel
    have hr : (remove ord s i).sel = updateAnchor ord { s with indexes := s.indexes.erase i } := by
      unfold remove
      rw [if_pos (.inl hst), if_pos hi]
      simp [ha, finish_sel]
    rw [hr] at hsel
    obtain ⟨b, hb1, hb2⟩ := hsel (by
      rw [updateAnchor_indexes]
      rw [Finset.nonempty_iff_ne_empty]
      intro he
      rcases Finset.erase_eq_empty_iff s.indexes i |>.1 he with h1 | h1
      · rw [h1] at hi; simp at hi
      · exact hne h1)
    rw [updateAnchor_anchor] at hb1
    simp only [ha] at hb1
    obtain ⟨m, h1, h2, h3, h4⟩ := foldl_minStep_some (ord.list (s.indexes.erase i)) i
    rw [h1] at hb1
    rw [updateAnchor_indexes] at hb2
    have hbm : m = b := by simpa using hb1
    subst hbm
    have hm := Finset.mem_erase.1 hb2
    have := hmin m hm.2
    omega
  cases op with
  | remove i =>
    simp only [Op.KeepsAnchor, Classical.not_imp, not_or, not_exists, not_and, not_lt] at hop
    exact hrem i hop.1 hop.2.1 hop.2.2.1 hop.2.2.2.1 hop.2.2.2.2
  | toggle i =>
    simp only [Op.KeepsAnchor, Classical.not_imp, not_or, not_exists, not_and, not_lt] at hop
    simp only [step, toggle, if_pos hop.2.1]
    exact hrem i hop.1 hop.2.1 hop.2.2.1 hop.2.2.2.1 hop.2.2.2.2
  | removeIndex k =>
    simp only [Op.KeepsAnchor, Classical.not_imp, not_or, not_exists, not_and, not_lt] at hop
    obtain ⟨ha, hm, hmin, hnext, hne⟩ := hop
    intro hsel
    simp only [step] at hsel
    obtain ⟨b, hb1, hb2⟩ := hsel (by
      rw [removeIndex_indexes]
      refine Finset.Nonempty.image ?_ _
      rw [Finset.nonempty_iff_ne_empty]
      intro he
      rcases Finset.erase_eq_empty_iff s.indexes k |>.1 he with h1 | h1
      · rw [h1] at hm; simp at hm
      · exact hne h1)
    have hanc : (removeIndex ord s k).sel.anchor = (ord.list s.indexes).foldl minStep (some k) := by
      unfold removeIndex
      simp only [ha, if_pos]
      rw [updateAnchor_anchor, ha]
    rw [hanc] at hb1
    obtain ⟨m, h1, h2, h3, h4⟩ := foldl_minStep_some (ord.list s.indexes) k
    rw [h1] at hb1
    have hbm : m = b := by simpa using hb1
    subst hbm
    have hmk : m = k := by
      rcases h2 with h2 | h2
      · exact h2
      · have := hmin m ((ord.mem _ _).1 h2)
        omega
    subst hmk
    rw [removeIndex_indexes, mem_image_shiftDown] at hb2
    rcases hb2 with hb2 | hb2
    · omega
    · exact hnext hb2.2
  | setAnchor a => exact hop
  | clear => exact absurd trivial hop
  | add i => exact absurd trivial hop
  | addRange r => exact absurd trivial hop
  | setMultiple is => exact absurd trivial hop
  | set i => exact absurd trivial hop
  | extend i => exact absurd trivial hop
  | insertIndex k => exact absurd trivial hop

/-- C07, exactly when: the anchor is selected after every call of a history (whenever anything is selected) precisely if every call is one
of those described by `Op.KeepsAnchor`. -/
theorem C07_iff_partial (style : Style) (ops : List (SetOrder × Op)) :
    (∀ n, AnchorSelected (run (init style) (ops.take n))) ↔ KeepsAnchor (init style) ops := by
  have : ∀ (ops : List (SetOrder × Op)) (s : Sel), AnchorSelected s → (s.style = .singleOrNone → s.indexes.card ≤ 1) →
      ((∀ n, AnchorSelected (run s (ops.take n))) ↔ KeepsAnchor s ops) := by
    intro ops
    induction ops with
    | nil => intro s h _; simp [run, KeepsAnchor, h]
    | cons c ops ih =>
      intro s hs hone
      have hone' : (step c.1 s c.2).sel.style = .singleOrNone → (step c.1 s c.2).sel.indexes.card ≤ 1 := by
        intro hst
        rw [step_style] at hst
        exact step_singleOrNone c.1 s c.2 hst (hone hst)
      constructor
      · intro h
        have h1 : AnchorSelected (step c.1 s c.2).sel := by simpa [run] using h 1
        refine ⟨not_not.1 fun hno => notAnchor_step c.1 s c.2 hno h1, (ih _ h1 hone').1 fun n => ?_⟩
        simpa [run] using h (n + 1)
      · rintro ⟨h1, h2⟩ n
        have ha := anchor_step c.1 s c.2 hs h1 hone
        cases n with
        | zero => simpa [run] using hs
        | succ n => simpa [run] using (ih _ ha hone').2 h2 n
  exact this ops _ (by intro hne; simp [init] at hne) (by simp [init])

/-! ### C08 -/

/-- C08: `ordered_indexes`, `current_index` and the comparison operators. -/
theorem C08_ordered_indexes (ord : SetOrder) (s : Sel) :
    (orderedIndexes ord s).Nodup ∧ (∀ x, x ∈ orderedIndexes ord s ↔ x ∈ s.indexes) ∧
    (∀ a, s.anchor = some a → a ∈ s.indexes →
      ∃ t, orderedIndexes ord s = a :: t ∧ t.Pairwise (· < ·)) ∧
    ((∀ a, s.anchor = some a → a ∉ s.indexes) → (orderedIndexes ord s).Pairwise (· < ·)) := by
  have hperm : ((ord.list s.indexes).insertionSort (· ≤ ·)).Perm (ord.list s.indexes) := List.perm_insertionSort _ _
  have hnd : ((ord.list s.indexes).insertionSort (· ≤ ·)).Nodup := hperm.nodup_iff.2 (ord.nodup _)
  have hmem : ∀ x, x ∈ (ord.list s.indexes).insertionSort (· ≤ ·) ↔ x ∈ s.indexes := by
    intro x; rw [hperm.mem_iff, ord.mem]
  have hsorted : ((ord.list s.indexes).insertionSort (· ≤ ·)).Pairwise (· < ·) := by
    have h1 := List.pairwise_insertionSort (r := fun (a b : ℤ) => a ≤ b) (ord.list s.indexes)
    have h2 : ((ord.list s.indexes).insertionSort (· ≤ ·)).Pairwise (· ≠ ·) := hnd
    exact (h1.and h2).imp (fun h => lt_of_le_of_ne h.1 h.2)
  have hsel : ∀ a, s.anchor = some a → a ∈ s.indexes →
      orderedIndexes ord s = a :: ((ord.list s.indexes).insertionSort (· ≤ ·)).erase a := by
    intro a ha hm
    unfold orderedIndexes
    simp only [ha]
    rw [if_pos ⟨Finset.card_pos.2 ⟨a, hm⟩, hm⟩]
  have hns : (∀ a, s.anchor = some a → a ∉ s.indexes) →
      orderedIndexes ord s = (ord.list s.indexes).insertionSort (· ≤ ·) := by
    intro hno
    unfold orderedIndexes
    cases ha : s.anchor with
    | none => rfl
    | some a => simp only; rw [if_neg (fun h => hno a ha h.2)]
  by_cases hcase : ∃ a, s.anchor = some a ∧ a ∈ s.indexes
  · obtain ⟨a, ha, hm⟩ := hcase
    have e := hsel a ha hm
    have hp : (a :: ((ord.list s.indexes).insertionSort (· ≤ ·)).erase a).Perm
        ((ord.list s.indexes).insertionSort (· ≤ ·)) := (List.perm_cons_erase ((hmem a).2 hm)).symm
    refine ⟨?_, ?_, ?_, ?_⟩
    · rw [e]; exact hp.nodup_iff.2 hnd
    · intro x; rw [e, hp.mem_iff, hmem]
    · intro b hb hbm
      have : b = a := by rw [ha] at hb; simpa using hb.symm
      subst this
      exact ⟨_, e, hsorted.sublist (List.erase_sublist)⟩
    · intro hno; exact absurd hm (hno a ha)
  · have hno : ∀ a, s.anchor = some a → a ∉ s.indexes := fun a ha hm => hcase ⟨a, ha, hm⟩
    have e := hns hno
    refine ⟨by rw [e]; exact hnd, fun x => by rw [e, hmem], fun a ha hm => absurd hm (hno a ha), fun _ => by rw [e]; exact hsorted⟩

/-- C08: `current_index` is the selected index if exactly one is selected, otherwise `None`. -/
theorem C08_current_index (ord : SetOrder) (s : Sel) (i : ℤ) :
    (currentIndex ord s = some i ↔ s.indexes = {i}) ∧ (currentIndex ord s = none ↔ s.indexes.card ≠ 1) ∧
    (hasSelection s = true ↔ ∃ j, contains s j = true) := by
  refine ⟨?_, ?_, ?_⟩
  · unfold currentIndex
    constructor
    · intro h
      split at h
      · rename_i hc
        obtain ⟨j, h1, h2⟩ := list_of_card_one ord hc
        rw [h1] at h; simp at h; rw [h2, h]
      · simp at h
    · intro h
      have hc : s.indexes.card = 1 := by rw [h]; simp
      rw [if_pos hc]
      obtain ⟨j, h1, h2⟩ := list_of_card_one ord hc
      rw [h1]; rw [h] at h2; simp at h2; simp [h2]
  · unfold currentIndex
    split
    · rename_i hc
      obtain ⟨j, h1, h2⟩ := list_of_card_one ord hc
      simp [h1, hc]
    · simp [*]
  · simp [hasSelection, contains, Finset.card_pos, Finset.Nonempty]

/-- C08: two selections are equal exactly when they have the same indexes and anchor, and `!=` is the negation. -/
theorem C08_eq_ne (s t : Sel) : (eq s t = true ↔ s.indexes = t.indexes ∧ s.anchor = t.anchor) ∧ ne s t = !(eq s t) := by
  constructor
  · simp [eq]
  · unfold eq ne
    by_cases h1 : s.indexes = t.indexes <;> by_cases h2 : s.anchor = t.anchor <;> simp [h1, h2]

/-- a selection with three indexes and anchor 5 in the middle: anchor first -/
example (ord : SetOrder) : ∃ t, orderedIndexes ord ⟨{9, 5, 1}, some 5, .multiple⟩ = 5 :: t ∧ t.Pairwise (· < ·) :=
  (C08_ordered_indexes ord ⟨{9, 5, 1}, some 5, .multiple⟩).2.2.1 5 rfl (by decide)

/-- C81: where each call leaves the anchor, with style multiple: `clear` and an empty `set_multiple` remove it, `set` and `add`
to an empty selection move it to their index, `add` to a non-empty selection keeps it, `remove` of another index keeps a
selected anchor, `set_multiple` makes a member of its argument the anchor, `extend` keeps it or else makes its index the
anchor. -/
theorem C81_anchor (ord : SetOrder) (s : Sel) (hm : s.style = .multiple) :
    (clear s).sel.anchor = .none ∧
    (∀ i, (set s i).sel.anchor = some i) ∧
    (∀ i, (add s i).sel.anchor = if s.indexes = ∅ then some i else s.anchor) ∧
    (∀ i a, s.anchor = some a → a ∈ s.indexes → a ≠ i → (remove ord s i).sel.anchor = some a) ∧
    (setMultiple ord s ∅).sel.anchor = .none ∧
    (∀ is : Finset ℤ, is ≠ ∅ → ∃ a ∈ is, (setMultiple ord s is).sel.anchor = some a) ∧
    (∀ i, (extend s i).sel.anchor = some (s.anchor.getD i)) := by
  refine ⟨?_, ?_, ?_, ?_, ?_, ?_, ?_⟩
  · simp [clear, hm, finish]
  · intro i; simp [set, hm, finish]
  · intro i
    simp only [add, hm, finish]
    by_cases h : s.indexes = ∅ <;> simp [h]
  · intro i a h1 h2 h3
    by_cases hi : i ∈ s.indexes
    · simp [remove, hm, hi, h1, finish, h2, h3]
    · simp [remove, hm, hi, h1]
  · have : ord.list ∅ = [] := by
      cases h : ord.list ∅ with
      | nil => rfl
      | cons x l => have := (ord.mem ∅ x).1 (by simp [h]); simp at this
    simp [setMultiple, hm, finish, this]
  · intro is hne
    obtain ⟨x, hx⟩ := Finset.nonempty_iff_ne_empty.2 hne
    cases h : ord.list is with
    | nil => have := (ord.mem is x).2 hx; simp [h] at this
    | cons y l => exact ⟨y, (ord.mem is y).1 (by simp [h]), by simp [setMultiple, hm, finish, h]⟩
  · intro i
    simp only [extend, hm, if_true]
    cases h : s.anchor with
    | none => simp [finish]
    | some a => simp only; split_ifs <;> simp [finish, h]

/-- C81: hence extending a cleared selection selects just the index. -/
theorem C81_clear_extend (s : Sel) (hm : s.style = .multiple) (i : ℤ) :
    (extend (clear s).sel i).sel = ⟨{i}, some i, .multiple⟩ := by
  simp [clear, hm, finish, extend]

/-- C81: where `remove` of a selected index leaves the anchor. An anchor still selected stays; otherwise it is the smallest of
the old anchor, if any, and the remaining indexes. -/
theorem C81_remove (ord : SetOrder) (s : Sel) (hm : s.style = .multiple) (i : ℤ) (hi : i ∈ s.indexes) (a : ℤ) :
    (remove ord s i).sel.anchor = some a ↔
      (s.anchor = some a ∧ a ∈ s.indexes.erase i) ∨
      ((∀ b, s.anchor = some b → b ∉ s.indexes.erase i) ∧ (s.anchor = some a ∨ a ∈ s.indexes.erase i) ∧
        (∀ b, s.anchor = some b → a ≤ b) ∧ ∀ b ∈ s.indexes.erase i, a ≤ b) := by
  obtain ⟨is, an, st⟩ := s
  simp only at hm hi
  subst hm
  have hperm : ∀ x, x ∈ ord.list (is.erase i) ↔ x ∈ is.erase i := fun x => ord.mem (is.erase i) x
  simp only [remove, true_or, if_true, hi, finish]
  generalize is.erase i = rest at *
  cases an with
  | none =>
    simp only [Bool.false_eq_true, if_false, updateAnchor_anchor, reduceCtorEq, false_and, false_or, false_imp_iff, implies_true, true_and]
    cases hl : ord.list rest with
    | nil =>
      simp only [List.foldl_nil, reduceCtorEq, false_iff, not_and]
      intro h
      rw [← hperm, hl] at h
      simp at h
    | cons x l =>
      simp only [List.foldl_cons, minStep]
      obtain ⟨m, h1, h2, h3, h4⟩ := foldl_minStep_some l x
      rw [h1, Option.some.injEq]
      have hmem : ∀ y, y ∈ rest ↔ y = x ∨ y ∈ l := fun y => by rw [← hperm, hl, List.mem_cons]
      have hmr : m ∈ rest := (hmem m).2 h2
      have hmin : ∀ y ∈ rest, m ≤ y := fun y hy => by
        rcases (hmem y).1 hy with rfl | hy
        · exact h3
        · exact h4 y hy
      constructor
      · rintro rfl
        exact ⟨hmr, hmin⟩
      · rintro ⟨h5, h6⟩
        exact le_antisymm (hmin a h5) (h6 m hmr)
  | some b =>
    by_cases hb : b ∈ rest
    · simp only [hb, decide_true, if_true, Option.some.injEq, forall_eq', not_true_eq_false, false_and, or_false]
      constructor
      · rintro rfl
        exact ⟨rfl, hb⟩
      · exact fun h => h.1
    · simp only [hb, decide_false, Bool.false_eq_true, if_false, updateAnchor_anchor, Option.some.injEq, forall_eq', not_false_eq_true,
        true_and]
      obtain ⟨m, h1, h2, h3, h4⟩ := foldl_minStep_some (ord.list rest) b
      rw [h1, Option.some.injEq]
      have hmin : ∀ y ∈ rest, m ≤ y := fun y hy => h4 y ((hperm y).2 hy)
      rw [hperm] at h2
      constructor
      · rintro rfl
        exact Or.inr ⟨by rcases h2 with h | h; exacts [Or.inl h.symm, Or.inr h], h3, hmin⟩
      · rintro (⟨rfl, h⟩ | ⟨h5, h6, h7⟩)
        · exact absurd h hb
        · rcases h2 with rfl | h2
          · rcases h5 with rfl | h5
            · rfl
            · exact le_antisymm (hmin a h5) h6
          · rcases h5 with rfl | h5
            · exact le_antisymm h3 (h7 m h2)
            · exact le_antisymm (hmin a h5) (h7 m h2)

/-- The anchor 9 removed from {3, 7, 9}, and an index removed without an anchor. -/
example (ord : SetOrder) : (remove ord ⟨{3, 7, 9}, some 9, .multiple⟩ 9).sel.anchor = some 3 ∧
    (remove ord ⟨{3, 7, 9}, .none, .multiple⟩ 3).sel.anchor = some 7 := by
  constructor
  · exact (C81_remove ord _ rfl 9 (by decide) 3).2 (Or.inr (by decide))
  · exact (C81_remove ord _ rfl 3 (by decide) 7).2 (Or.inr (by simp))

/-- A selection {3, 7} with anchor 7, cleared and extended. -/
example : (extend (clear ⟨{3, 7}, some 7, .multiple⟩).sel 5).sel = ⟨{5}, some 5, .multiple⟩ := by decide

end Verif.Selection
