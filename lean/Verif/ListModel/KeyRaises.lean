import Verif.ListModel.FilterRaises

/-!
Sort keys that raise, and keys that cannot be compared (`nion/utils/ListModel.py:232-640`).

`Filtered.lean` leaves out sort keys that raise. Here `bad c` says that the sort key raises for an item with the content `c`, and `odd c`
that the key of such an item raises when it is compared with any key (as `None` does). The binary search (lines 363-373) calls the key
for the item and for the items it meets; `list.sort` (line 481) calls the key for every item and compares every item with some other if
there are two or more. What was done before the exception stays. An exception ends in `Event.fire` if the container or an item caused the
call, and goes to the caller if a setter or `end_change` did. Either way `true` is the second component of the result. Filters do not
raise here.
-/

namespace Verif.ListModel.KeyRaises

open Verif.Py Verif.Selection

/-- A filtered list model, the contents for which its sort key raises, and those whose keys cannot be compared. -/
structure SL (α C K : Type*) where
  fl : FL α C K
  bad : C → Bool
  odd : C → Bool

/-- What can happen: `key k b o` sets a sort key that raises for the contents `b`, gives keys that cannot be compared for the contents `o`,
and `k` otherwise. -/
inductive SOp (α C K : Type*) where
  | key (k : C → K) (b o : C → Bool)
  | op (o : LOp α C K)

section
variable {α C K : Type*} [DecidableEq α] [LinearOrder K]

/-- ListModel.py:367-372: the loop meets an item for which `bad` holds. -/
def probeFails (bad p : α → Bool) (l : List α) : Nat → Nat → Nat → Bool
  | 0, _, _ => false
  | fuel + 1, low, high =>
    if low < high then
      match l[(low + high) / 2]? with
      | some y =>
        bad y || (if p y then probeFails bad p l fuel ((low + high) / 2 + 1) high else probeFails bad p l fuel low ((low + high) / 2))
      | none => false
    else false

def SL.bads (s : SL α C K) (x : α) : Bool := s.bad (s.fl.content x)

def SL.odds (s : SL α C K) (x : α) : Bool := s.odd (s.fl.content x)

/-- ListModel.py:363-373: looking for the place of `x` raises. -/
def SL.findFails (s : SL α C K) (x : α) : Bool :=
  match s.fl.cmp with
  | some c =>
    s.bads x ||
      probeFails (fun y => s.bads y || s.odds y || s.odds x) (fun y => c y x) s.fl.items s.fl.items.length 0 s.fl.items.length
  | none => false

/-- ListModel.py:480-481: sorting the items raises. -/
def SL.sortFails (s : SL α C K) : Bool :=
  s.fl.key.isSome && (s.fl.master.any s.bads || (decide (2 ≤ s.fl.master.length) && s.fl.master.any s.odds))

/-- ListModel.py:385-406. -/
def SL.insertedMaster (s : SL α C K) (x : α) : SL α C K × Bool :=
  if s.fl.level > 0 then (s, false)
  else if s.fl.acc x && s.findFails x then (s, true)
  else ({ s with fl := s.fl.insertedMaster x }, false)

/-- ListModel.py:428-466: an item that has to move is removed first; then its place is looked for again, without it. -/
def SL.updatedMaster (s : SL α C K) (x : α) : SL α C K × Bool :=
  if s.fl.level > 0 then (s, false)
  else if s.fl.acc x && s.findFails x then (s, true)
  else
    match s.fl.cmp with
    | some c =>
      if s.fl.acc x && decide (x ∈ s.fl.items) && decide (findSorted c x s.fl.items ≠ s.fl.items.idxOf x) then
        SL.insertedMaster { s with fl := s.fl.removedMaster x } x
      else ({ s with fl := s.fl.updatedMaster x }, false)
    | none => ({ s with fl := s.fl.updatedMaster x }, false)

/-- ListModel.py:493-546; `__build_items` is called before anything is changed or sent. Later calls of the key do not raise:
`later_ok`. -/
def SL.updateItems (ord : IterOrder α) (s : SL α C K) : SL α C K × Bool :=
  if s.fl.level > 0 then (s, false)
  else if s.sortFails then (s, true)
  else ({ s with fl := s.fl.updateItems ord }, false)

/-- ListModel.py:611-627: the copy of the source changes first, the selections last. -/
def SL.itemInserted (sord : SetOrder) (s : SL α C K) (x : α) (i : Int) : SL α C K × Bool :=
  if x ∈ s.fl.master then (s, true)
  else
    let r := SL.insertedMaster { s with fl := { s.fl with master := Py.insert s.fl.master i x } } x
    if r.2 then r
    else ({ r.1 with fl := { r.1.fl with sels := r.1.fl.sels.map fun y => (insertIndex sord y i).sel } }, false)

/-- ListModel.py:599-600: the loop ends with the first exception. -/
def SL.insertAll (sord : SetOrder) : List α → Nat → SL α C K → SL α C K × Bool
  | [], _, s => (s, false)
  | x :: xs, i, s =>
    let r := s.itemInserted sord x i
    if r.2 then r else SL.insertAll sord xs (i + 1) r.1

/-- One event. -/
def SL.step (sord : SetOrder) (ord : IterOrder α) (s : SL α C K) : SOp α C K → SL α C K × Bool
  | .key k b o => SL.updateItems ord ⟨{ s.fl with key := some k, sorted := false }.emit .reset, b, o⟩
  | .op (.setKey k) => SL.updateItems ord ⟨{ s.fl with key := k, sorted := false }.emit .reset, fun _ => false, fun _ => false⟩
  | .op (.setFilter p) => SL.updateItems ord { s with fl := { s.fl with filter := p, sorted := false }.emit .reset }
  | .op (.setReverse b) => SL.updateItems ord { s with fl := { s.fl with reverse := b, sorted := false }.emit .reset }
  | .op .endChange =>
    let t : SL α C K := { s with fl := { s.fl with level := s.fl.level - 1 } }
    if s.fl.level - 1 = 0 then t.updateItems ord else (t, false)
  | .op (.srcInsert v i) =>
    match s.fl.source with
    | some l => SL.itemInserted sord { s with fl := { s.fl with source := some (Py.insert l i v) } } v i
    | none => (s, false)
  | .op (.changeContent v c) =>
    let t : SL α C K := { s with fl := { s.fl with content := Function.update s.fl.content v c } }
    if v ∈ s.fl.master then t.updatedMaster v else (t, false)
  | .op (.setContainer c) =>
    let f := FL.removeAll sord (s.fl.source.getD []).reverse s.fl
    SL.insertAll sord (c.getD []) 0 { s with fl := { f with source := c, sorted := false }.emit .reset }
  | .op o => ({ s with fl := s.fl.step sord ord o }, false)

/-- A history; the exceptions are dropped. -/
def SL.run (sord : SetOrder) (s : SL α C K) (ops : List (IterOrder α × SOp α C K)) : SL α C K :=
  ops.foldl (fun s o => (s.step sord o.1 o.2).1) s

/-- ListModel.py:243-268: a new model has no sort key. -/
def SL.init (content : α → C) (sels : List Sel) : SL α C K := ⟨FL.init content sels, fun _ => false, fun _ => false⟩

/-- The event with a sort key that does not raise. -/
def SOp.plain : SOp α C K → LOp α C K
  | .key k _ _ => .setKey (some k)
  | .op o => o

/-! ### An event that does not raise is the event of `Filtered.lean` -/

theorem inserted_ok {s : SL α C K} {x : α} (h : (s.insertedMaster x).2 = false) :
    s.insertedMaster x = ({ s with fl := s.fl.insertedMaster x }, false) := by
  unfold SL.insertedMaster at h ⊢
  by_cases hl : s.fl.level > 0
  · rw [if_pos hl]; simp [FL.insertedMaster, hl]
  · rw [if_neg hl] at h ⊢
    split at h
    · cases h
    · rename_i h1; rw [if_neg h1]

theorem inserted_raised {s : SL α C K} {x : α} (h : (s.insertedMaster x).2 = true) : s.insertedMaster x = (s, true) := by
  unfold SL.insertedMaster at h ⊢
  split_ifs at h ⊢ <;> rfl

theorem updated_ok {s : SL α C K} {x : α} (h : (s.updatedMaster x).2 = false) :
    s.updatedMaster x = ({ s with fl := s.fl.updatedMaster x }, false) := by
  unfold SL.updatedMaster at h ⊢
  by_cases hl : s.fl.level > 0
  · rw [if_pos hl]; simp [FL.updatedMaster, hl]
  · rw [if_neg hl] at h ⊢
    by_cases h1 : (s.fl.acc x && s.findFails x) = true
    · rw [if_pos h1] at h; cases h
    · rw [if_neg h1] at h ⊢
      cases hc : s.fl.cmp with
      | none => rfl
      | some c =>
        rw [hc] at h
        simp only at h ⊢
        split at h
        · rename_i h2
          rw [if_pos h2, inserted_ok h]
          simp only [Bool.and_eq_true, decide_eq_true_eq] at h2
          simp only [FL.updatedMaster, if_neg hl, h2.1.1, if_true, hc, h2.1.2]
          rcases lt_or_gt_of_ne h2.2 with h3 | h3
          · rw [if_pos h3]
          · rw [if_neg (by omega), if_pos h3]
        · rename_i h2; rw [if_neg h2]

/-- If it raises, nothing has happened or the item has been removed from the list. -/
theorem updated_raised {s : SL α C K} {x : α} (h : (s.updatedMaster x).2 = true) : s.updatedMaster x = (s, true) ∨
    x ∈ s.fl.items ∧ s.updatedMaster x = ({ s with fl := s.fl.removeItem x }, true) := by
  unfold SL.updatedMaster at h ⊢
  by_cases hl : s.fl.level > 0
  · rw [if_pos hl] at h; cases h
  · rw [if_neg hl] at h ⊢
    by_cases h1 : (s.fl.acc x && s.findFails x) = true
    · rw [if_pos h1]; exact .inl rfl
    · rw [if_neg h1] at h ⊢
      cases hc : s.fl.cmp with
      | none => rw [hc] at h; cases h
      | some c =>
        rw [hc] at h
        simp only at h ⊢
        split at h
        · rename_i h2
          rw [if_pos h2, inserted_raised h]
          simp only [Bool.and_eq_true, decide_eq_true_eq] at h2
          refine .inr ⟨h2.1.2, ?_⟩
          simp only [FL.removedMaster, if_neg hl, h2.1.2, if_true]
        · cases h

theorem update_ok {ord : IterOrder α} {s : SL α C K} (h : (s.updateItems ord).2 = false) :
    s.updateItems ord = ({ s with fl := s.fl.updateItems ord }, false) := by
  unfold SL.updateItems at h ⊢
  split at h
  · rename_i hl; rw [if_pos hl]; simp [FL.updateItems, hl]
  · rename_i hl
    rw [if_neg hl]
    split at h
    · cases h
    · rename_i h1; rw [if_neg h1]

theorem update_raised {ord : IterOrder α} {s : SL α C K} (h : (s.updateItems ord).2 = true) :
    s.updateItems ord = (s, true) := by
  unfold SL.updateItems at h ⊢
  split_ifs at h ⊢ <;> rfl

omit [DecidableEq α] in
theorem probeFails_false {bad p : α → Bool} {l : List α} (h : ∀ y ∈ l, bad y = false) :
    ∀ fuel low high, probeFails bad p l fuel low high = false
  | 0, _, _ => rfl
  | fuel + 1, low, high => by
    rw [probeFails]
    split_ifs with hlt
    · cases hy : l[(low + high) / 2]? with
      | none => rfl
      | some y =>
        simp only [h y (List.mem_of_getElem? hy), Bool.false_or]
        split_ifs
        · exact probeFails_false h fuel _ _
        · exact probeFails_false h fuel _ _
    · rfl

/-- ListModel.py:531-533: after `__build_items` has not raised, looking for the place of a new item among other items of the source does
not raise. -/
theorem later_ok {s t : SL α C K} (h : s.sortFails = false) (hk : t.fl.key = s.fl.key) (hc : t.fl.content = s.fl.content)
    (hb : t.bad = s.bad) (ho : t.odd = s.odd) {x : α} (hx : x ∈ s.fl.master) (hi : ∀ y ∈ t.fl.items, y ∈ s.fl.master)
    (hn : x ∉ t.fl.items) : t.findFails x = false := by
  rw [SL.findFails, FL.cmp, hk]
  rw [SL.sortFails] at h
  cases hs : s.fl.key with
  | none => rfl
  | some k =>
    rw [hs] at h
    simp only [Option.isSome_some, Bool.true_and, Bool.or_eq_false_iff, Bool.and_eq_false_iff, decide_eq_false_iff_not,
      List.any_eq_false, SL.bads, SL.odds, Bool.not_eq_true] at h
    simp only [Option.map_some, SL.bads, SL.odds, hb, ho, hc, h.1 x hx, Bool.false_or]
    refine probeFails_false ?_ _ _ _
    intro y hy
    rcases h.2 with h2 | h2
    · exfalso
      have hyx : y ≠ x := fun e => hn (e ▸ hy)
      have hy := hi y hy
      match hm : s.fl.master with
      | [] => rw [hm] at hx; cases hx
      | [a] =>
        rw [hm, List.mem_singleton] at hx hy
        exact hyx (hy.trans hx.symm)
      | a :: b :: l => rw [hm] at h2; exact h2 (by simp)
    · rw [h.1 y (hi y hy), h2 y (hi y hy), h2 x hx]; rfl

theorem itemInserted_ok {sord : SetOrder} {s : SL α C K} {x : α} {i : Int} (h : (s.itemInserted sord x i).2 = false) :
    s.itemInserted sord x i = ({ s with fl := s.fl.itemInserted sord x i }, false) ∧ x ∉ s.fl.master := by
  unfold SL.itemInserted at h ⊢
  by_cases hx : x ∈ s.fl.master
  · rw [if_pos hx] at h; cases h
  · rw [if_neg hx] at h ⊢
    refine ⟨?_, hx⟩
    simp only at h ⊢
    split at h
    · rename_i h1; rw [h1] at h; cases h
    · rename_i h1
      rw [if_neg h1, inserted_ok (by simpa using h1)]
      simp [FL.itemInserted, hx]

theorem itemInserted_raised {sord : SetOrder} {s : SL α C K} {x : α} {i : Int} (h : (s.itemInserted sord x i).2 = true)
    (hx : x ∉ s.fl.master) :
    s.itemInserted sord x i = ({ s with fl := { s.fl with master := Py.insert s.fl.master i x } }, true) := by
  unfold SL.itemInserted at h ⊢
  rw [if_neg hx] at h ⊢
  simp only at h ⊢
  split at h
  · rename_i h1; rw [if_pos h1, inserted_raised h1]
  · cases h

theorem insertAll_ok {sord : SetOrder} {xs : List α} {i : Nat} {s : SL α C K} (h : (SL.insertAll sord xs i s).2 = false) :
    SL.insertAll sord xs i s = ({ s with fl := FL.insertAll sord xs i s.fl }, false) := by
  induction xs generalizing s i with
  | nil => rfl
  | cons x xs ih =>
    simp only [SL.insertAll] at h ⊢
    split at h
    · rename_i h1; rw [h1] at h; cases h
    · rename_i h1
      obtain ⟨e, hx⟩ := itemInserted_ok (by simpa using h1)
      rw [if_neg h1]
      rw [e] at h ⊢
      rw [ih h]
      simp [FL.insertAll, hx]

/-- An event in which the sort key does not raise does what the event does in `Filtered.lean`. -/
theorem step_ok {sord : SetOrder} {ord : IterOrder α} {s : SL α C K} {o : SOp α C K} (h : (s.step sord ord o).2 = false) :
    (s.step sord ord o).1.fl = s.fl.step sord ord o.plain := by
  cases o with
  | key k b o => simp only [SL.step] at h ⊢; rw [update_ok h]; rfl
  | op o =>
    cases o with
    | setFilter p => simp only [SL.step] at h ⊢; rw [update_ok h]; rfl
    | setKey k => simp only [SL.step] at h ⊢; rw [update_ok h]; rfl
    | setReverse b => simp only [SL.step] at h ⊢; rw [update_ok h]; rfl
    | endChange =>
      simp only [SL.step, SOp.plain, FL.step] at h ⊢
      split at h
      · rename_i h0; rw [if_pos h0, if_pos h0, update_ok h]
      · rename_i h0; rw [if_neg h0, if_neg h0]
    | srcInsert v i =>
      simp only [SL.step, SOp.plain, FL.step] at h ⊢
      cases hs : s.fl.source with
      | none => rfl
      | some l =>
        rw [hs] at h
        simp only at h ⊢
        rw [(itemInserted_ok h).1]
    | changeContent v c =>
      simp only [SL.step, SOp.plain, FL.step] at h ⊢
      split at h
      · rename_i h0; rw [if_pos h0, if_pos h0, updated_ok h]
      · rename_i h0; rw [if_neg h0, if_neg h0]
    | setContainer c =>
      simp only [SL.step, SOp.plain, FL.step, FL.setContainer] at h ⊢
      rw [insertAll_ok h]
    | srcRemove i => rfl
    | srcBegin => rfl
    | srcEnd => rfl
    | srcReset => rfl
    | beginChange => rfl
    | select k o => rfl

/-! ### What observers are told -/

theorem eff_insertAllS (sord : SetOrder) (xs : List α) (i : Nat) (s : SL α C K) :
    Eff true s.fl (SL.insertAll sord xs i s).1.fl := by
  induction xs generalizing s i with
  | nil => exact .refl _ _
  | cons x xs ih =>
    simp only [SL.insertAll]
    cases h : (s.itemInserted sord x i).2 with
    | true =>
      simp only [if_true]
      by_cases hx : x ∈ s.fl.master
      · simp only [SL.itemInserted, hx, if_true]; exact .refl _ _
      · rw [itemInserted_raised h hx]; exact .of_eq rfl rfl
    | false =>
      simp only [Bool.false_eq_true, if_false]
      refine Eff.trans ?_ (ih _ _)
      rw [(itemInserted_ok h).1]
      exact eff_itemInserted sord _ _ _

/-- The container's own begin and end of changes. -/
def SOp.IsSrcBlock (o : SOp α C K) : Prop := o.plain.IsSrcBlock

theorem eff_stepS (sord : SetOrder) (ord : IterOrder α) (s : SL α C K) (o : SOp α C K) (ho : ¬ o.IsSrcBlock) :
    Eff false s.fl (s.step sord ord o).1.fl := by
  by_cases hc : ∃ c, o = .op (.setContainer c)
  · obtain ⟨c, rfl⟩ := hc
    simp only [SL.step]
    refine Eff.weaken ((eff_removeAll sord (s.fl.source.getD []).reverse s.fl).trans (Eff.trans ?_ (eff_insertAllS sord _ _ _)))
    exact eff_reset rfl rfl
  · cases h : (s.step sord ord o).2 with
    | false => rw [step_ok h]; exact (eff_step sord ord s.fl o.plain ho).1
    | true =>
      cases o with
      | key k b o => simp only [SL.step] at h ⊢; rw [update_raised h]; exact eff_reset rfl rfl
      | op o =>
        cases o with
        | setFilter p => simp only [SL.step] at h ⊢; rw [update_raised h]; exact eff_reset rfl rfl
        | setKey k => simp only [SL.step] at h ⊢; rw [update_raised h]; exact eff_reset rfl rfl
        | setReverse b => simp only [SL.step] at h ⊢; rw [update_raised h]; exact eff_reset rfl rfl
        | endChange =>
          simp only [SL.step] at h ⊢
          split at h
          · rename_i h0; rw [if_pos h0, update_raised h]; exact .of_eq rfl rfl
          · cases h
        | srcInsert v i =>
          simp only [SL.step] at h ⊢
          cases hs : s.fl.source with
          | none => rw [hs] at h; cases h
          | some l =>
            rw [hs] at h
            simp only at h ⊢
            by_cases hx : v ∈ s.fl.master
            · simp only [SL.itemInserted, hx, if_true]; exact .of_eq rfl rfl
            · rw [itemInserted_raised h hx]; exact .of_eq rfl rfl
        | changeContent v c =>
          simp only [SL.step] at h ⊢
          split at h
          · rename_i h0
            rw [if_pos h0]
            rcases updated_raised h with e | ⟨hv, e⟩
            · rw [e]; exact .of_eq rfl rfl
            · rw [e]; exact (eff_removeItem (s := { s.fl with content := Function.update s.fl.content v c }) v hv).weaken
          · cases h
        | setContainer c => exact absurd ⟨c, rfl⟩ hc
        | _ => cases h

/-- C137: whatever the sort keys raise, an observer that applies the insert and remove notifications by index has the model's items at every
notification and after every event. -/
theorem C137_observed (sord : SetOrder) (content : α → C) (sels : List Sel) (ops : List (IterOrder α × SOp α C K)) :
    let s := (SL.init content sels).run sord ops
    ReplaysAt false [] (notes s.fl.log) s.fl.items := by
  suffices h : ∀ s : SL α C K, ReplaysAt false [] (notes s.fl.log) s.fl.items →
      ReplaysAt false [] (notes (s.run sord ops).fl.log) (s.run sord ops).fl.items from h _ (.nil _)
  induction ops with
  | nil => exact fun s h => h
  | cons o ops ih =>
    intro s h
    refine ih _ ?_
    obtain ⟨iord, o⟩ := o
    by_cases ho : o.IsSrcBlock
    · cases o with
      | key k b o => exact absurd ho (fun hh => hh)
      | op o =>
        cases o with
        | srcBegin => simpa [SL.step, FL.step, FL.emit, notes] using h
        | srcEnd => simpa [SL.step, FL.step, FL.emit, notes] using h
        | _ => exact absurd ho (fun hh => hh)
    · obtain ⟨ns, h1, h2, _⟩ := eff_stepS sord iord s o ho
      simp only at h1 h2 ⊢
      rw [h1, notes_append]
      exact h.append h2

/-- C137: begin and end of changes stay balanced, with every notification between them, whatever an event raises. -/
theorem C137_balanced (sord : SetOrder) (ord : IterOrder α) (s : SL α C K) (o : SOp α C K) (ho : ¬ o.IsSrcBlock) :
    ∃ ns, (s.step sord ord o).1.fl.log = s.fl.log ++ ns ∧ ∀ d, scan d ns = some d := by
  obtain ⟨ns, h1, _, h3⟩ := eff_stepS sord ord s o ho
  exact ⟨ns, h1, h3⟩

/-- C137, the part that holds: an event in which the sort key raises, other than the assignment of a container and the change of an item,
changes no item and no selection and sends no notification; only `reset` may be sent. -/
theorem C137_unchanged_partial (sord : SetOrder) (ord : IterOrder α) (s : SL α C K) (o : SOp α C K)
    (ho : ∀ c, o ≠ .op (.setContainer c)) (hv : ∀ v c, o ≠ .op (.changeContent v c)) (h : (s.step sord ord o).2 = true) :
    (s.step sord ord o).1.fl.items = s.fl.items ∧ (s.step sord ord o).1.fl.sels = s.fl.sels ∧
    ((s.step sord ord o).1.fl.log = s.fl.log ∨ (s.step sord ord o).1.fl.log = s.fl.log ++ [.reset]) := by
  cases o with
  | key k b o => simp only [SL.step] at h ⊢; rw [update_raised h]; exact ⟨rfl, rfl, .inr rfl⟩
  | op o =>
    cases o with
    | setFilter p => simp only [SL.step] at h ⊢; rw [update_raised h]; exact ⟨rfl, rfl, .inr rfl⟩
    | setKey k => simp only [SL.step] at h ⊢; rw [update_raised h]; exact ⟨rfl, rfl, .inr rfl⟩
    | setReverse b => simp only [SL.step] at h ⊢; rw [update_raised h]; exact ⟨rfl, rfl, .inr rfl⟩
    | endChange =>
      simp only [SL.step] at h ⊢
      split at h
      · rename_i h0; rw [if_pos h0, update_raised h]; exact ⟨rfl, rfl, .inl rfl⟩
      · cases h
    | srcInsert v i =>
      simp only [SL.step] at h ⊢
      cases hs : s.fl.source with
      | none => rw [hs] at h; cases h
      | some l =>
        rw [hs] at h
        simp only at h ⊢
        by_cases hx : v ∈ s.fl.master
        · simp only [SL.itemInserted, hx, if_true]; simp
        · rw [itemInserted_raised h hx]; exact ⟨rfl, rfl, .inl rfl⟩
    | changeContent v c => exact absurd rfl (hv v c)
    | setContainer c => exact absurd rfl (ho c)
    | _ => cases h

/-- C137: if the sort key raises when the content of an item changes, the list and the notifications are as before, or exactly this item is
gone and observers have been told that it is removed. -/
theorem C137_change (sord : SetOrder) (ord : IterOrder α) (s : SL α C K) (v : α) (c : C)
    (h : (s.step sord ord (.op (.changeContent v c))).2 = true) :
    let t := (s.step sord ord (.op (.changeContent v c))).1.fl
    t.sels = s.fl.sels ∧ (t.items = s.fl.items ∧ t.log = s.fl.log ∨
      v ∈ s.fl.items ∧ t.items = s.fl.items.erase v ∧
        notes t.log = notes s.fl.log ++ [(.removed v (s.fl.items.idxOf v), s.fl.items.erase v)]) := by
  simp only [SL.step] at h ⊢
  split at h
  · rename_i h0
    rw [if_pos h0]
    rcases updated_raised h with e | ⟨hv, e⟩
    · rw [e]; exact ⟨rfl, .inl ⟨rfl, rfl⟩⟩
    · rw [e]
      refine ⟨rfl, .inr ⟨hv, ?_, ?_⟩⟩
      · simp only [FL.removeItem]
        rw [List.erase_eq_eraseIdx_of_idxOf rfl]
      · simp only [FL.removeItem, notes_append]
        rw [List.erase_eq_eraseIdx_of_idxOf rfl]
        rfl
  · cases h

/-! ### Recovery -/

/-- The events of a history from the state `s`: no item comes into the container twice, and no assignment of a container raises. -/
def SL.Calm (sord : SetOrder) : SL α C K → List (IterOrder α × SOp α C K) → Prop
  | _, [] => True
  | s, o :: ops =>
    (match o.2 with
      | .op (.srcInsert v _) => ∀ l, s.fl.source = some l → v ∉ l
      | .op (.setContainer c) => (c.getD []).Nodup ∧ (s.step sord o.1 o.2).2 = false
      | _ => True) ∧ SL.Calm sord (s.step sord o.1 o.2).1 ops

theorem update_master (ord : IterOrder α) (s : SL α C K) :
    (s.updateItems ord).1.fl.master = s.fl.master ∧ (s.updateItems ord).1.fl.source = s.fl.source := by
  unfold SL.updateItems
  split
  · exact ⟨rfl, rfl⟩
  · rename_i hl
    split
    · exact ⟨rfl, rfl⟩
    · obtain ⟨l, ns, h1, _⟩ := updateItems_log ord s.fl hl
      simp only [h1, and_self]

/-- The model's copy of the source is the source. -/
def SL.Synced (s : SL α C K) : Prop := s.fl.master = s.fl.source.getD []

theorem synced_step (sord : SetOrder) (ord : IterOrder α) (s : SL α C K) (o : SOp α C K) (h : s.Synced)
    (ha : SL.Calm sord s [(ord, o)]) : (s.step sord ord o).1.Synced := by
  unfold SL.Synced at h ⊢
  have ha := ha.1
  cases o with
  | key k b o => simp only [SL.step]; rw [(update_master _ _).1, (update_master _ _).2]; exact h
  | op o =>
    cases o with
    | setFilter p => simp only [SL.step]; rw [(update_master _ _).1, (update_master _ _).2]; exact h
    | setKey k => simp only [SL.step]; rw [(update_master _ _).1, (update_master _ _).2]; exact h
    | setReverse b => simp only [SL.step]; rw [(update_master _ _).1, (update_master _ _).2]; exact h
    | endChange =>
      simp only [SL.step]
      split
      · rw [(update_master _ _).1, (update_master _ _).2]; exact h
      · exact h
    | srcInsert v i =>
      simp only [SL.step]
      cases hs : s.fl.source with
      | none => simp only; rw [hs] at h; rw [hs]; exact h
      | some l =>
        have hv := ha l hs
        rw [hs] at h
        simp only [Option.getD_some] at h ⊢
        have hx : v ∉ s.fl.master := by rw [h]; exact hv
        cases hr : (SL.itemInserted sord { s with fl := { s.fl with source := some (Py.insert l i v) } } v i).2 with
        | true => rw [itemInserted_raised hr hx]; simp [h]
        | false =>
          rw [(itemInserted_ok hr).1]
          simp only [FL.itemInserted, hx, if_false]
          rw [(sameF_insertedMaster _ _).2, (sameF_insertedMaster _ _).1.source]
          simp [h]
    | srcRemove i =>
      simp only [SL.step, FL.step]
      cases hs : s.fl.source with
      | none => simp only; rw [hs] at h; rw [hs]; exact h
      | some l =>
        rw [hs] at h
        simp only [Option.getD_some] at h
        rcases del?_cases l i with ⟨k, hk, h1, h2, h3⟩ | ⟨h1, h2, h3⟩
        · simp only [h2, h3, FL.itemRemoved, h]
          rw [(sameF_removedMaster _ _).2, (sameF_removedMaster _ _).1.source]
          rfl
        · simp only [h2, h3]; rw [hs]; exact h
    | changeContent v c =>
      simp only [SL.step]
      split
      · cases hr : (SL.updatedMaster { s with fl := { s.fl with content := Function.update s.fl.content v c } } v).2 with
        | true =>
          rcases updated_raised hr with e | ⟨_, e⟩
          · rw [e]; exact h
          · rw [e]; exact h
        | false =>
          rw [updated_ok hr]
          simp only
          rw [(sameF_updatedMaster _ _).2, (sameF_updatedMaster _ _).1.source]
          exact h
      · exact h
    | setContainer c =>
      obtain ⟨hn, hr⟩ := ha
      rw [step_ok hr]
      simp only [SOp.plain, FL.step, FL.setContainer]
      have hm := Raising.removeAll_master sord (s.fl.source.getD []).reverse s.fl (by rw [h]; simp)
      set t : FL α C K := { FL.removeAll sord (s.fl.source.getD []).reverse s.fl with source := c, sorted := false }.emit .reset with ht
      have htm : t.master = [] := hm
      obtain ⟨g1, g2⟩ := Raising.insertAll_master sord (c.getD []) t (by rw [htm]; simpa using hn)
      rw [htm] at g1 g2
      simp only [List.length_nil, List.nil_append] at g1 g2
      rw [g1, g2]
      rfl
    | _ => exact h

theorem synced_run (sord : SetOrder) (ops : List (IterOrder α × SOp α C K)) (s : SL α C K) (h : s.Synced)
    (ha : SL.Calm sord s ops) : (s.run sord ops).Synced := by
  induction ops generalizing s with
  | nil => exact h
  | cons o ops ih => exact ih _ (synced_step sord o.1 s o.2 h ⟨ha.1, trivial⟩) ha.2

theorem update_recovers (ord : IterOrder α) (s : SL α C K) (hl : s.fl.level ≤ 0) (hs : s.fl.sorted = false)
    (hb : ∀ x ∈ s.fl.master, s.bad (s.fl.content x) = false)
    (ho : s.fl.master.length ≤ 1 ∨ ∀ x ∈ s.fl.master, s.odd (s.fl.content x) = false) :
    (s.updateItems ord).2 = false ∧ (s.updateItems ord).1.fl.items = s.fl.build := by
  have hl' : ¬ s.fl.level > 0 := by omega
  have hb' : ¬ s.sortFails = true := by
    have h1 : s.fl.master.any s.bads = false := List.any_eq_false.2 fun x hx => by simp [SL.bads, hb x hx]
    have h2 : (decide (2 ≤ s.fl.master.length) && s.fl.master.any s.odds) = false := by
      rcases ho with ho | ho
      · simp only [Bool.and_eq_false_iff, decide_eq_false_iff_not]
        left
        omega
      · rw [List.any_eq_false.2 fun x hx => by simp [SL.odds, ho x hx], Bool.and_false]
    simp [SL.sortFails, h1, h2]
  have e : s.updateItems ord = ({ s with fl := s.fl.updateItems ord }, false) := by
    unfold SL.updateItems; rw [if_neg hl', if_neg hb']
  rw [e]
  obtain ⟨l, ns, h1, _, _, h4, _⟩ := updateItems_log ord s.fl hl'
  simp only [h1, true_and]
  exact (h4 hs).1

/-- C137, the part that holds: whatever sort keys raised before, outside change blocks a new sort key makes the list right if it raises for
no item of the source, and its keys can be compared (or there is one item): it is accepted, and the items are the source items that the
filter accepts, sorted by it. (Missing: histories in which assigning a container raised, or in which the container got an item twice.) -/
theorem C137_recovers_partial (sord : SetOrder) (ord : IterOrder α) (content : α → C) (sels : List Sel)
    (ops : List (IterOrder α × SOp α C K)) (ha : SL.Calm sord (SL.init content sels) ops) (k : C → K) (b o : C → Bool) :
    let s := (SL.init content sels).run sord ops
    let r := s.step sord ord (.key k b o)
    let src := s.fl.source.getD []
    s.fl.level ≤ 0 → (∀ x ∈ src, b (s.fl.content x) = false) → (src.length ≤ 1 ∨ ∀ x ∈ src, o (s.fl.content x) = false) →
    r.2 = false ∧ Raising.Shows src s.fl.content s.fl.filter (some k) s.fl.reverse r.1.fl.items := by
  intro s r src hl hb ho
  have hsy : s.Synced := synced_run sord ops _ rfl ha
  set t : SL α C K := ⟨{ s.fl with key := some k, sorted := false }.emit .reset, b, o⟩ with ht
  have htm : t.fl.master = src := hsy
  obtain ⟨h1, h2⟩ := update_recovers ord t hl rfl (by rw [htm]; exact hb) (by rw [htm]; exact ho)
  refine ⟨h1, ?_⟩
  show Raising.Shows _ _ _ _ _ (t.updateItems ord).1.fl.items
  rw [h2]
  have := Raising.build_shows t.fl
  rw [htm] at this
  exact this

/-- C137: the model's own copy of the source never goes out of step, whatever sort keys raise. -/
theorem C137_source_partial (sord : SetOrder) (content : α → C) (sels : List Sel) (ops : List (IterOrder α × SOp α C K))
    (ha : SL.Calm sord (SL.init content sels) ops) :
    let s := (SL.init content sels).run sord ops
    s.fl.master = s.fl.source.getD [] := synced_run sord ops _ rfl ha

end

/-! ### Counterexamples and cases -/

/-- the key is the number itself; it raises for 13, and 99 stands for a key such as `None` -/
def key13 : SOp Nat Nat Nat := .key id (fun n => n == 13) (fun n => n == 99)

/-- C137 is false: 4 becomes 13, for which the key raises, and stays. When 1 becomes 10, it is removed; looking for its new place meets 13,
and 1 is in the list no more. -/
theorem C137_counterexample_lost :
    let i : IterOrder Nat := idOrder
    let s : SL Nat Nat Nat := (SL.init id []).run ascending
      [(i, .op (.setContainer (some [1, 2, 3, 4, 5]))), (i, key13), (i, .op (.changeContent 4 13))]
    let r := s.step ascending i (.op (.changeContent 1 10))
    s.fl.items = [1, 2, 3, 4, 5] ∧ r.2 = true ∧ r.1.fl.source = some [1, 2, 3, 4, 5] ∧ r.1.fl.items = [2, 3, 4, 5] ∧
    r.1.fl.acc 1 = true := by decide

/-- C137 is false: the first item without a key that can be compared is shown, the second one is not; then nothing else is. -/
theorem C137_counterexample_none :
    let i : IterOrder Nat := idOrder
    let s : SL Nat Nat Nat := (SL.init (fun _ => 99) []).run ascending
      [(i, .op (.setContainer (some []))), (i, key13), (i, .op (.srcInsert 1 0)), (i, .op (.srcInsert 2 1))]
    s.fl.source = some [1, 2] ∧ s.fl.items = [1] ∧ (s.step ascending i (.op (.changeContent 2 5))).2 = true := by decide

/-- C137 is false: 13 is inserted at the front, the key raises, and the selection is not told; the selected item is 2 afterwards, not 4. -/
theorem C137_counterexample_selection :
    let i : IterOrder Nat := idOrder
    let s : SL Nat Nat Nat := (SL.init id [⟨∅, none, .multiple⟩]).run ascending
      [(i, .op (.setContainer (some [2, 4, 6]))), (i, key13), (i, .op (.select 0 (.set 1)))]
    let r := s.step ascending i (.op (.srcInsert 13 0))
    let t := (r.1.step ascending i (.op (.setKey none))).1
    r.2 = true ∧ (s.fl.sels.map fun x => selectedItems x.indexes s.fl.items) = [[4]] ∧
    t.fl.items = [13, 2, 4, 6] ∧ (t.fl.sels.map fun x => selectedItems x.indexes t.fl.items) = [[2]] := by decide

/-- items with a raising key are not shown, the others are where they belong; another key shows them all -/
example :
    let i : IterOrder Nat := idOrder
    let s : SL Nat Nat Nat := (SL.init id []).run ascending
      [(i, .op (.setContainer (some [4, 2]))), (i, key13), (i, .op (.srcInsert 13 1)), (i, .op (.srcInsert 99 0)),
        (i, .op (.srcInsert 3 0))]
    s.fl.items = [2, 3, 4] ∧ s.fl.source = some [3, 99, 4, 13, 2] ∧
    (s.step ascending i (.key (fun n => 100 - n) (fun n => n == 50) fun _ => false)).1.fl.items = [99, 13, 4, 3, 2] := by decide

end Verif.ListModel.KeyRaises
