import Verif.Persist.Dict

/-!
C59, C60: what a persistent object tells its storage. Model of `__setattr__`, `_set_persistent_property_value`,
`_update_persistent_object_context_property` (`nion/utils/Persistence.py:582-597, 616-621, 644-661`) and of `insert_item`,
`append_item`, `remove_item`, `extend_items` (703-736) of an object whose context leads to a storage (255-284). The storage keeps a
dict (`set_property` sets, `clear_property` deletes the key) and replays the insertions and removals. Not modelled: custom writers,
the context of the items (`Context.lean`), callbacks which raise.
-/

namespace Verif.Persist

open Verif.Py

/-! ### Properties -/

/-- A property as far as assignment is concerned: 21-57. -/
structure SProp (V : Type) extends PropDef V where
  readOnly : Bool
  hidden : Bool
  validate : V → V

/-- The object's values and the dict kept by its storage. -/
structure SObj (V : Type) where
  values : List V
  storage : Dict

inductive SOp (V : Type) where
  /-- `object.name = value`, for the property with this number -/
  | assign (i : Nat) (v : V)
  /-- `_set_persistent_property_value` -/
  | setHidden (i : Nat) (v : V)

/-- Lines 582-597. -/
def updateStorage {V : Type} (p : SProp V) (v : V) (d : Dict) : Dict :=
  match writeProp p.toPropDef v [] with
  | [] => dpop d p.name
  | e :: es => (e :: es).foldl (fun d e => dset d e.1 e.2) d

/-- Lines 616-621 and 654-657 (the property's `set_value`: 49-56). -/
def setProp {V : Type} (p : SProp V) (i : Nat) (v : V) (s : SObj V) : SObj V :=
  ⟨s.values.set i (p.validate v), updateStorage p (p.validate v) s.storage⟩

/-- Lines 644-661; a hidden property is left to ordinary attribute assignment, a read-only one raises `AttributeError`. -/
def SObj.step {V : Type} (ps : List (SProp V)) (s : SObj V) : SOp V → SObj V
  | .assign i v => match ps[i]? with
    | none => s
    | some p => if p.hidden then s else if p.readOnly then s else setProp p i v s
  | .setHidden i v => match ps[i]? with
    | none => s
    | some p => setProp p i v s

def SObj.run {V : Type} (ps : List (SProp V)) (s : SObj V) (ops : List (SOp V)) : SObj V := ops.foldl (SObj.step ps) s

/-- Specification: the storage has for each property what the property writes. -/
def SObj.Sync {V : Type} (ps : List (SProp V)) (s : SObj V) : Prop :=
  ∀ (i : Nat) (p : SProp V) (v : V), ps[i]? = some p → s.values[i]? = some v → s.storage.lookup p.key = p.write v

/-- The last value assigned to the property with the number `i`, as validated. -/
def lastValue {V : Type} (ps : List (SProp V)) (i : Nat) (v0 : V) : List (SOp V) → V
  | [] => v0
  | .assign j v :: ops =>
    lastValue ps i (if j = i then (match ps[j]? with
      | some p => if p.hidden || p.readOnly then v0 else p.validate v
      | none => v0) else v0) ops
  | .setHidden j v :: ops =>
    lastValue ps i (if j = i then (match ps[j]? with
      | some p => p.validate v
      | none => v0) else v0) ops

/-- Wherever `None` is assigned, the property's key is its name. -/
def SOp.NoKey {V : Type} (ps : List (SProp V)) : SOp V → Prop
  | .assign i v | .setHidden i v => ∀ (p : SProp V), ps[i]? = some p → p.write (p.validate v) = none → p.key = p.name

theorem lookup_updateStorage_self {V : Type} (p : SProp V) (v : V) (d : Dict) (h : p.write v = none → p.key = p.name) :
    (updateStorage p v d).lookup p.key = p.write v := by
  unfold updateStorage writeProp
  rcases hw : p.write v with _ | j
  · rw [h hw]
    exact lookup_dpop_self d p.name
  · exact lookup_dset_self d p.key j

theorem lookup_updateStorage_ne {V : Type} (p : SProp V) (v : V) (d : Dict) (h : p.write v = none → p.key = p.name) {k : String}
    (hk : k ≠ p.key) : (updateStorage p v d).lookup k = d.lookup k := by
  unfold updateStorage writeProp
  rcases hw : p.write v with _ | j
  · exact lookup_dpop_ne d (by rw [← h hw]; exact hk)
  · exact lookup_dset_ne d j hk

theorem key_ne {V : Type} {ps : List (SProp V)} (hn : (ps.map (·.key)).Nodup) {i j : Nat} {p q : SProp V} (hi : ps[i]? = some p)
    (hj : ps[j]? = some q) (h : i ≠ j) : p.key ≠ q.key := by
  intro he
  obtain ⟨hi', rfl⟩ := List.getElem?_eq_some_iff.1 hi
  obtain ⟨hj', rfl⟩ := List.getElem?_eq_some_iff.1 hj
  refine h ((List.Nodup.getElem_inj_iff hn (i := i) (j := j) (hi := by simpa using hi') (hj := by simpa using hj')).1 ?_)
  simpa using he

theorem setProp_sync {V : Type} {ps : List (SProp V)} (hn : (ps.map (·.key)).Nodup) {s : SObj V} (hs : s.Sync ps) {i : Nat}
    {p : SProp V} (hp : ps[i]? = some p) {v : V} (hv : p.write (p.validate v) = none → p.key = p.name) :
    (setProp p i v s).Sync ps := by
  intro j q w hq hw
  simp only [setProp] at hw ⊢
  by_cases hij : i = j
  · subst hij
    rw [hp] at hq
    cases hq
    rw [List.getElem?_set_self (by
      by_contra hc
      rw [List.getElem?_eq_none (by simpa using Nat.le_of_not_lt hc)] at hw
      cases hw)] at hw
    cases hw
    exact lookup_updateStorage_self p _ _ hv
  · rw [List.getElem?_set_ne hij] at hw
    rw [lookup_updateStorage_ne p _ _ hv (key_ne hn hq hp (Ne.symm hij))]
    exact hs j q w hq hw

theorem step_sync {V : Type} {ps : List (SProp V)} (hn : (ps.map (·.key)).Nodup) {s : SObj V} (hs : s.Sync ps) (op : SOp V)
    (hop : op.NoKey ps) : (s.step ps op).Sync ps := by
  cases op with
  | assign i v =>
    simp only [SObj.step]
    rcases hp : ps[i]? with _ | p
    · exact hs
    · simp only
      split
      · exact hs
      · split
        · exact hs
        · exact setProp_sync hn hs hp (hop p hp)
  | setHidden i v =>
    simp only [SObj.step]
    rcases hp : ps[i]? with _ | p
    · exact hs
    · exact setProp_sync hn hs hp (hop p hp)

/-- C59: for properties with distinct keys and a storage in step at first (as an attached object has it), after any sequence of
assignments the storage has for each property exactly what is written for its value, nothing for `None`; what it has for other
keys is as before. Missing: `None` for a property with a key of its own (`C59_counterexample`). -/
theorem C59_storage_partial {V : Type} (ps : List (SProp V)) (hn : (ps.map (·.key)).Nodup) (s : SObj V) (hs : s.Sync ps)
    (ops : List (SOp V)) (hops : ∀ op ∈ ops, op.NoKey ps) :
    (s.run ps ops).Sync ps ∧ ∀ k, (∀ p ∈ ps, k ≠ p.key) → (s.run ps ops).storage.lookup k = s.storage.lookup k := by
  induction ops generalizing s with
  | nil => exact ⟨hs, fun _ _ => rfl⟩
  | cons op ops ih =>
    have hop := hops op (by simp)
    obtain ⟨h1, h2⟩ := ih (s.step ps op) (step_sync hn hs op hop) (fun o ho => hops o (by simp [ho]))
    refine ⟨h1, fun k hk => (h2 k hk).trans ?_⟩
    cases op with
    | assign i v =>
      simp only [SObj.step]
      rcases hp : ps[i]? with _ | p
      · rfl
      · simp only
        split
        · rfl
        · split
          · rfl
          · exact lookup_updateStorage_ne p _ _ (hop p hp) (hk p (List.mem_of_getElem? hp))
    | setHidden i v =>
      simp only [SObj.step]
      rcases hp : ps[i]? with _ | p
      · rfl
      · exact lookup_updateStorage_ne p _ _ (hop p hp) (hk p (List.mem_of_getElem? hp))

/-- The values the theorem speaks of: each property has the value assigned last (read-only and hidden properties are not
assigned). -/
theorem C59_values_partial {V : Type} (ps : List (SProp V)) (s : SObj V) (ops : List (SOp V)) (i : Nat) (v : V)
    (hv : s.values[i]? = some v) : (s.run ps ops).values[i]? = some (lastValue ps i v ops) := by
  induction ops generalizing s v with
  | nil => exact hv
  | cons op ops ih =>
    have hset : ∀ (j : Nat) (w : V), (s.values.set j w)[i]? = some (if j = i then w else v) := by
      intro j w
      by_cases h : j = i
      · subst h
        rw [List.getElem?_set_self (List.getElem?_eq_some_iff.1 hv).1, if_pos rfl]
      · rw [List.getElem?_set_ne h, hv, if_neg h]
    cases op with
    | assign j w =>
      refine ih (s.step ps _) _ ?_
      simp only [SObj.step]
      rcases hp : ps[j]? with _ | p
      · simpa using hv
      · simp only
        by_cases hh : p.hidden
        · simpa [hh] using hv
        · by_cases hr : p.readOnly
          · simpa [hh, hr] using hv
          · simpa [hh, hr, setProp] using hset j (p.validate w)
    | setHidden j w =>
      refine ih (s.step ps _) _ ?_
      simp only [SObj.step]
      rcases hp : ps[j]? with _ | p
      · simpa using hv
      · simpa [setProp] using hset j (p.validate w)

/-- Two properties, the second stored as "w"; values are optional numbers. -/
def demoProps : List (SProp (Option Nat)) :=
  [⟨⟨"title", "title", none, fun v => v.map .num, fun _ => none⟩, false, false, id⟩,
   ⟨⟨"width", "w", none, fun v => v.map .num, fun _ => none⟩, false, false, id⟩]

/-- Setting both, then the title to `None`. -/
example : ((⟨[none, none], []⟩ : SObj (Option Nat)).run demoProps [.assign 0 (some 3), .assign 1 (some 4), .assign 0 none]).storage =
    [("w", .num 4)] := by rfl

/-- C59, negative: the width, stored as "w", is set to 4 and then to `None`: the storage still has 4. -/
theorem C59_counterexample :
    let s := (⟨[none, none], []⟩ : SObj (Option Nat)).run demoProps [.assign 1 (some 4), .assign 1 none]
    s.values[1]? = some none ∧ s.storage.lookup "w" = some (.num 4) := by
  exact ⟨rfl, rfl⟩

/-- C59, negative: two properties, the key of the first being the name of the second: clearing the second removes the first from the
storage. -/
theorem C59_counterexample_other :
    let ps : List (SProp (Option Nat)) :=
      [⟨⟨"title", "label", none, fun v => v.map .num, fun _ => none⟩, false, false, id⟩,
       ⟨⟨"label", "l", none, fun v => v.map .num, fun _ => none⟩, false, false, id⟩]
    let s := (⟨[none, none], []⟩ : SObj (Option Nat)).run ps [.assign 0 (some 3), .assign 1 none]
    s.values[0]? = some (some 3) ∧ s.storage.lookup "label" = none := by
  exact ⟨rfl, rfl⟩

/-! ### Relationships -/

variable {α : Type} [DecidableEq α]

/-- What is told to the storage or to the callbacks of a relationship. -/
inductive REv (α : Type) where
  | inserted (name : String) (before : Int) (item : α)
  | removed (name : String) (index : Nat) (item : α)
  deriving DecidableEq

inductive Who where
  | storage | callback
  deriving DecidableEq

/-- The relationships of an object, whether it has a context, and all calls made. -/
structure RObj (α : Type) where
  rels : String → List α
  context : Bool
  log : List (Who × REv α)

inductive ROp (α : Type) where
  | insert (name : String) (before : Int) (item : α)
  | append (name : String) (item : α)
  | remove (name : String) (item : α)
  | extend (name : String) (items : List α)

/-- Lines 703-714 `insert_item`. -/
def RObj.insert (s : RObj α) (name : String) (before : Int) (x : α) : RObj α :=
  { s with
    rels := fun n => if n = name then Py.insert (s.rels name) before x else s.rels n
    log := s.log ++ (if s.context then [(.storage, .inserted name before x)] else []) ++ [(.callback, .inserted name before x)] }

/-- Lines 716-718 `append_item`. -/
def RObj.append (s : RObj α) (name : String) (x : α) : RObj α := s.insert name (s.rels name).length x

/-- Lines 720-731 `remove_item`. -/
def RObj.remove (s : RObj α) (name : String) (x : α) : Except Exc (RObj α) :=
  if x ∈ s.rels name then
    let i := (s.rels name).idxOf x
    .ok { s with
      rels := fun n => if n = name then (s.rels name).erase x else s.rels n
      log := s.log ++ [(.callback, .removed name i x)] ++ (if s.context then [(.storage, .removed name i x)] else []) }
  else .error .valueError

/-- One operation; an exception leaves the object as it is. Lines 733-736: `extend_items`. -/
def RObj.step (s : RObj α) : ROp α → RObj α
  | .insert n i x => s.insert n i x
  | .append n x => s.append n x
  | .remove n x => match s.remove n x with
    | .ok s => s
    | .error _ => s
  | .extend n xs => xs.foldl (fun s x => s.append n x) s

def RObj.run (s : RObj α) (ops : List (ROp α)) : RObj α := ops.foldl RObj.step s

/-- Specification: someone keeping lists by what is told. -/
def replay (r : String → List α) : REv α → String → List α
  | .inserted name i x => fun n => if n = name then Py.insert (r n) i x else r n
  | .removed name i _ => fun n => if n = name then (r n).eraseIdx i else r n

/-- The item told to be removed is the one there. -/
def Truthful (r : String → List α) : List (REv α) → Prop
  | [] => True
  | .inserted n i x :: l => Truthful (replay r (.inserted n i x)) l
  | .removed n i x :: l => (r n)[i]? = some x ∧ Truthful (replay r (.removed n i x)) l

def sent (w : Who) (l : List (Who × REv α)) : List (REv α) := (l.filter fun e => e.1 = w).map (·.2)

omit [DecidableEq α] in
theorem sent_append (w : Who) (l l' : List (Who × REv α)) : sent w (l ++ l') = sent w l ++ sent w l' := by
  simp [sent]

omit [DecidableEq α] in
theorem truthful_append (r : String → List α) (l l' : List (REv α)) :
    Truthful r (l ++ l') ↔ Truthful r l ∧ Truthful (l.foldl replay r) l' := by
  induction l generalizing r with
  | nil => simp [Truthful]
  | cons e l ih =>
    cases e with
    | inserted n i x => exact ih _
    | removed n i x =>
      simp only [List.cons_append, Truthful, List.foldl_cons, ih, and_assoc]

omit [DecidableEq α] in
theorem sent_single (s : Bool) (e : REv α) : sent Who.storage ((if s then [(Who.storage, e)] else []) ++ [(Who.callback, e)]) =
    (if s then [e] else []) ∧ sent Who.callback ((if s then [(Who.storage, e)] else []) ++ [(Who.callback, e)]) = [e] := by
  cases s <;> exact ⟨rfl, rfl⟩

omit [DecidableEq α] in
theorem sent_single' (s : Bool) (e : REv α) : sent Who.storage ([(Who.callback, e)] ++ (if s then [(Who.storage, e)] else [])) =
    (if s then [e] else []) ∧ sent Who.callback ([(Who.callback, e)] ++ (if s then [(Who.storage, e)] else [])) = [e] := by
  cases s <;> exact ⟨rfl, rfl⟩

/-- Listeners `w` started from the lists `r0` and were told all since. -/
def RObj.Follows (r0 : String → List α) (w : Who) (s : RObj α) : Prop :=
  (sent w s.log).foldl replay r0 = s.rels ∧ Truthful r0 (sent w s.log)

omit [DecidableEq α] in
theorem insert_follows {r0 : String → List α} {w : Who} {s : RObj α} (h : s.Follows r0 w) (hw : w = .storage → s.context = true)
    (name : String) (i : Int) (x : α) : (s.insert name i x).Follows r0 w := by
  obtain ⟨h1, h2⟩ := h
  have hlog : sent w (s.insert name i x).log = sent w s.log ++ [.inserted name i x] := by
    simp only [RObj.insert, List.append_assoc]
    rw [sent_append]
    cases w with
    | storage => rw [(sent_single s.context _).1, hw rfl]; rfl
    | callback => rw [(sent_single s.context _).2]
  refine ⟨?_, ?_⟩
  · rw [hlog, List.foldl_append, h1]
    funext n
    by_cases hn : n = name
    · subst hn; simp [replay, RObj.insert]
    · simp [replay, RObj.insert, hn]
  · rw [hlog, truthful_append]
    exact ⟨h2, trivial⟩

theorem remove_follows {r0 : String → List α} {w : Who} {s s' : RObj α} (h : s.Follows r0 w) (hw : w = .storage → s.context = true)
    {name : String} {x : α} (hr : s.remove name x = .ok s') : s'.Follows r0 w := by
  obtain ⟨h1, h2⟩ := h
  unfold RObj.remove at hr
  split at hr
  case isFalse => cases hr
  case isTrue hm =>
    cases hr
    have hlog : sent w (s.log ++ [(Who.callback, REv.removed name ((s.rels name).idxOf x) x)] ++
        (if s.context then [(Who.storage, REv.removed name ((s.rels name).idxOf x) x)] else [])) =
        sent w s.log ++ [.removed name ((s.rels name).idxOf x) x] := by
      rw [List.append_assoc, sent_append]
      cases w with
      | storage => rw [(sent_single' s.context _).1, hw rfl]; rfl
      | callback => rw [(sent_single' s.context _).2]
    refine ⟨?_, ?_⟩
    · show (sent w _).foldl replay r0 = _
      rw [hlog, List.foldl_append, h1]
      funext n
      by_cases hn : n = name
      · subst hn
        simp [replay]
      · simp [replay, hn]
    · show Truthful r0 (sent w _)
      rw [hlog, truthful_append, h1]
      refine ⟨h2, ?_, trivial⟩
      rw [List.getElem?_eq_getElem (List.idxOf_lt_length_of_mem hm), List.getElem_idxOf]

omit [DecidableEq α] in
theorem insert_same {s : RObj α} (hc : s.context = true) (h : sent .storage s.log = sent .callback s.log) (name : String) (i : Int)
    (x : α) : sent .storage (s.insert name i x).log = sent .callback (s.insert name i x).log := by
  have h1 := sent_single s.context (REv.inserted name i x)
  simp only [RObj.insert, List.append_assoc]
  rw [sent_append Who.storage s.log, sent_append Who.callback s.log, h1.1, h1.2, h, hc]
  rfl

theorem remove_same {s s' : RObj α} (hc : s.context = true) (h : sent .storage s.log = sent .callback s.log) {name : String}
    {x : α} (hr : s.remove name x = .ok s') : sent .storage s'.log = sent .callback s'.log ∧ s'.context = s.context := by
  unfold RObj.remove at hr
  split at hr
  case isFalse => cases hr
  case isTrue hm =>
    cases hr
    refine ⟨?_, rfl⟩
    simp only [List.append_assoc]
    rw [sent_append Who.storage s.log, sent_append Who.callback s.log, h]
    rfl

/-- What holds of an object with a context all along. -/
structure RObj.Inv (r0 : String → List α) (s : RObj α) : Prop where
  context : s.context = true
  storage : s.Follows r0 .storage
  callback : s.Follows r0 .callback
  same : sent .storage s.log = sent .callback s.log

omit [DecidableEq α] in
theorem insert_inv {r0 : String → List α} {s : RObj α} (h : s.Inv r0) (name : String) (i : Int) (x : α) :
    (s.insert name i x).Inv r0 :=
  ⟨h.context, insert_follows h.storage (fun _ => h.context) name i x, insert_follows h.callback (fun _ => h.context) name i x,
    insert_same h.context h.same name i x⟩

theorem step_inv' {r0 : String → List α} {s : RObj α} (h : s.Inv r0) (op : ROp α) : (s.step op).Inv r0 := by
  cases op with
  | insert n i x => exact insert_inv h n i x
  | append n x => exact insert_inv h n _ x
  | remove n x =>
    simp only [RObj.step]
    rcases hr : s.remove n x with e | s'
    · exact h
    · have hs := remove_same h.context h.same hr
      exact ⟨hs.2.trans h.context, remove_follows h.storage (fun _ => h.context) hr,
        remove_follows h.callback (fun _ => h.context) hr, hs.1⟩
  | extend n xs =>
    simp only [RObj.step]
    induction xs generalizing s with
    | nil => exact h
    | cons x xs ih => exact ih (s := s.append n x) (insert_inv h n _ x)

/-- C60: after any history of insertions, appends, extensions and removals, who replays what the storage was told, from the lists
at first, has the object's lists; the items told to be removed are the ones at the index told; the callbacks are told the same. -/
theorem C60_replay (r0 : String → List α) (ops : List (ROp α)) :
    let s := (⟨r0, true, []⟩ : RObj α).run ops
    (sent .storage s.log).foldl replay r0 = s.rels ∧ Truthful r0 (sent .storage s.log) ∧
      sent .storage s.log = sent .callback s.log := by
  have key : ∀ (ops : List (ROp α)) (s : RObj α), s.Inv r0 → (s.run ops).Inv r0 := by
    intro ops
    induction ops with
    | nil => exact fun s h => h
    | cons op ops ih => exact fun s h => ih (s.step op) (step_inv' h op)
  have h := key ops ⟨r0, true, []⟩ ⟨rfl, ⟨rfl, trivial⟩, ⟨rfl, trivial⟩, rfl⟩
  exact ⟨h.storage.1, h.storage.2, h.same⟩

/-- Specification of the operations: insertion as `list.insert`, appending at the end, removal of the first equal item. -/
def listStep (r : String → List α) : ROp α → String → List α
  | .insert name i x => fun n => if n = name then Py.insert (r n) i x else r n
  | .append name x => fun n => if n = name then r n ++ [x] else r n
  | .remove name x => fun n => if n = name then (r n).erase x else r n
  | .extend name xs => fun n => if n = name then r n ++ xs else r n

/-- C60: the lists are what the operations say, with or without a context. -/
theorem C60_lists (s : RObj α) (ops : List (ROp α)) : (s.run ops).rels = ops.foldl listStep s.rels := by
  have happ : ∀ (s : RObj α) (name : String) (x : α), (s.append name x).rels = listStep s.rels (.append name x) := by
    intro s name x
    funext n
    by_cases hn : n = name
    · subst hn; simp [RObj.append, RObj.insert, listStep, insert_length]
    · simp [RObj.append, RObj.insert, listStep, hn]
  induction ops generalizing s with
  | nil => rfl
  | cons op ops ih =>
    rw [List.foldl_cons]
    show ((s.step op).run ops).rels = _
    rw [ih (s.step op)]
    congr 1
    cases op with
    | insert name i x =>
      funext n
      by_cases hn : n = name
      · subst hn; simp [RObj.step, RObj.insert, listStep]
      · simp [RObj.step, RObj.insert, listStep, hn]
    | append name x => exact happ s name x
    | remove name x =>
      funext n
      by_cases hm : x ∈ s.rels name
      · by_cases hn : n = name
        · subst hn; simp [RObj.step, RObj.remove, listStep, hm]
        · simp [RObj.step, RObj.remove, listStep, hm, hn]
      · by_cases hn : n = name
        · subst hn; simp [RObj.step, RObj.remove, listStep, hm, List.erase_of_not_mem hm]
        · simp [RObj.step, RObj.remove, listStep, hm, hn]
    | extend name xs =>
      clear ih
      simp only [RObj.step]
      induction xs generalizing s with
      | nil => funext n; simp [listStep]
      | cons x xs ihx =>
        rw [List.foldl_cons, ihx, happ]
        funext n
        by_cases hn : n = name
        · subst hn; simp [listStep]
        · simp [listStep, hn]

/-- C60: removing an item which is not in the list raises and tells nobody. -/
theorem C60_absent (s : RObj α) (name : String) (x : α) :
    (x ∉ s.rels name ↔ s.remove name x = .error .valueError) ∧ (x ∉ s.rels name → s.step (.remove name x) = s) := by
  by_cases h : x ∈ s.rels name <;> simp [RObj.remove, RObj.step, h]

/-- Insertions at the front and behind (index beyond the end), a removal: storage and callbacks get the same. -/
example : let s := (⟨fun _ => [], true, []⟩ : RObj Nat).run [.extend "a" [1, 2], .insert "a" 0 3, .insert "a" 9 4, .remove "a" 1]
    s.rels "a" = [3, 2, 4] ∧ sent .storage s.log =
      [.inserted "a" 0 1, .inserted "a" 1 2, .inserted "a" 0 3, .inserted "a" 9 4, .removed "a" 1 1] := by
  decide

end Verif.Persist
