import Mathlib.Data.List.Induction
import Mathlib.Logic.Function.Basic

/-!
Model of `PropertyChangedEventStream` and `ConcatStream` (`nion/utils/Stream.py`, lines 260-359), property C43.

Python values are `Option V`, `None` being `none`. Source objects and the streams made by the concat function are numbered.
Not modelled: source objects whose truth value is false (the code treats them like `None`; for concat items see
`Verif.Stream.ConcatAgain`), re-entrant changes.
-/

namespace Verif.Stream.PropertyStream

variable {V : Type} [DecidableEq V]

/-- The stream and its source objects. -/
structure State (V : Type) where
  /-- the attributes of the objects -/
  props : Nat → String → Option V
  /-- `__source_object`; the stream listens to this object -/
  source : Option Nat
  value : Option V
  listening : Bool
  /-- the values fired -/
  log : List (Option V)

inductive Act (V : Type) where
  /-- The source stream fires an object or `None`. -/
  | source (o : Option Nat)
  /-- An attribute of an object is set and the object fires its property changed event. -/
  | set (o : Nat) (key : String) (v : Option V)
  | close

/-- Stream.py:305-310 for the observed property. -/
def State.propertyChanged (cmp : Option V → Option V → Bool) (name : String) (s : State V) (o : Nat) : State V :=
  let v := s.props o name
  if cmp v s.value then s else { s with value := v, log := s.log ++ [v] }

/-- Stream.py:280-287. -/
def State.sourceChanged (cmp : Option V → Option V → Bool) (name : String) (s : State V) (o : Option Nat) : State V :=
  match o with
  | none => { s with source := none }
  | some o => State.propertyChanged cmp name { s with source := some o } o

/-- Stream.py:265-289. -/
def State.init (cmp : Option V → Option V → Bool) (name : String) (props : Nat → String → Option V) (o : Option Nat) : State V :=
  State.sourceChanged cmp name ⟨props, none, none, true, []⟩ o

def State.step (cmp : Option V → Option V → Bool) (name : String) (s : State V) : Act V → State V
  | .source o => if s.listening then s.sourceChanged cmp name o else s
  | .set o key v =>
    let s' := { s with props := Function.update s.props o (Function.update (s.props o) key v) }
    if s.listening ∧ s.source = some o ∧ key = name then s'.propertyChanged cmp name o else s'
  | .close => { s with listening := false }

def State.run (cmp : Option V → Option V → Bool) (name : String) (s : State V) (as : List (Act V)) : State V :=
  as.foldl (State.step cmp name) s

/-! ### Specification -/

/-- The source after a history. -/
def sourceAfter (o : Option Nat) : List (Act V) → Option Nat
  | [] => o
  | .source o' :: as => sourceAfter o' as
  | _ :: as => sourceAfter o as

/-- The attributes after a history. -/
def propAfter (x : Option V) (o : Nat) (key : String) : List (Act V) → Option V
  | [] => x
  | .set o' key' v :: as => propAfter (if o' = o ∧ key' = key then v else x) o key as
  | _ :: as => propAfter x o key as

/-- The property values the observer of the current source sees: at each new source object and each set of the property of
the current source. -/
def seen (props : Nat → Option V) (o : Option Nat) (name : String) : List (Act V) → List (Option V)
  | [] => []
  | .source none :: as => seen props none name as
  | .source (some o) :: as => props o :: seen props (some o) name as
  | .set o' key v :: as =>
    if key = name then
      (if o = some o' then [v] else []) ++ seen (Function.update props o' v) o name as
    else seen props o name as
  | .close :: _ => []

/-- The values of a sequence that differ from the one before. -/
def changes (cmp : Option V → Option V → Bool) (x : Option V) : List (Option V) → List (Option V)
  | [] => []
  | y :: l => if cmp y x then changes cmp x l else y :: changes cmp y l

omit [DecidableEq V] in
theorem closed_run (cmp : Option V → Option V → Bool) (name : String) (as : List (Act V)) (s : State V)
    (h : s.listening = false) : (s.run cmp name as).log = s.log ∧ (s.run cmp name as).value = s.value := by
  induction as generalizing s with
  | nil => exact ⟨rfl, rfl⟩
  | cons a as ih =>
    rw [State.run, List.foldl_cons]
    have : (s.step cmp name a).listening = false ∧ (s.step cmp name a).log = s.log ∧ (s.step cmp name a).value = s.value := by
      cases a <;> simp [State.step, h]
    obtain ⟨h1, h2, h3⟩ := this
    have := ih _ h1
    rw [← State.run, this.1, this.2, h2, h3]
    exact ⟨rfl, rfl⟩

omit [DecidableEq V] in
theorem log_run (cmp : Option V → Option V → Bool) (name : String) (as : List (Act V)) (s : State V) (h : s.listening = true) :
    (s.run cmp name as).log = s.log ++ changes cmp s.value (seen (fun o => s.props o name) s.source name as) ∧
    (s.run cmp name as).value =
      (changes cmp s.value (seen (fun o => s.props o name) s.source name as)).getLastD s.value := by
  induction as generalizing s with
  | nil => simp [State.run, seen, changes]
  | cons a as ih =>
    rw [State.run, List.foldl_cons, ← State.run]
    have pc : ∀ (t : State V) (o : Nat), (t.propertyChanged cmp name o).listening = t.listening ∧
        (t.propertyChanged cmp name o).props = t.props ∧ (t.propertyChanged cmp name o).source = t.source := by
      intro t o; unfold State.propertyChanged; simp only; split <;> exact ⟨rfl, rfl, rfl⟩
    have pcs : ∀ (t : State V) (o : Nat), t.listening = true → 
        ((t.propertyChanged cmp name o).run cmp name as).log =
          t.log ++ changes cmp t.value (t.props o name :: seen (fun o => t.props o name) t.source name as) ∧
        ((t.propertyChanged cmp name o).run cmp name as).value =
          (changes cmp t.value (t.props o name :: seen (fun o => t.props o name) t.source name as)).getLastD t.value := by
      intro t o ht
      obtain ⟨h1, h2, h3⟩ := pc t o
      obtain ⟨i1, i2⟩ := ih (t.propertyChanged cmp name o) (by rw [h1, ht])
      rw [i1, i2, h2, h3]
      simp only [State.propertyChanged, changes]
      split
      · exact ⟨rfl, rfl⟩
      · simp only [List.append_assoc, List.singleton_append, List.getLastD_cons, and_self]
    cases a with
    | source o =>
      cases o with
      | none =>
        simp only [State.step, h, if_true, State.sourceChanged, seen]
        have := ih { s with source := none } h
        simp only [h] at this
        exact this
      | some o =>
        simp only [State.step, h, if_true, State.sourceChanged, seen]
        have := pcs { s with source := some o } o h
        simp only [h] at this
        exact this
    | set o key v =>
      have hp : ∀ o', (Function.update s.props o (Function.update (s.props o) key v)) o' name =
          if key = name then Function.update (fun o => s.props o name) o v o' else s.props o' name := by
        intro o'
        by_cases ho : o' = o
        · subst ho
          by_cases hk : key = name
          · subst hk; simp
          · rw [Function.update_self, Function.update_of_ne (Ne.symm hk), if_neg hk]
        · rw [Function.update_of_ne ho, Function.update_of_ne ho, ite_self]
      simp only [State.step, h, true_and, seen]
      by_cases hk : key = name
      · subst hk
        by_cases ho : s.source = some o
        · simp only [ho, and_self, if_true, List.singleton_append]
          have := pcs { s with props := Function.update s.props o (Function.update (s.props o) key v) } o h
          simp only [hp, if_true, Function.update_self, ho, h] at this
          exact this
        · simp only [ho, false_and, if_false, List.nil_append, if_true]
          have := ih { s with props := Function.update s.props o (Function.update (s.props o) key v) } h
          simp only [hp, if_true, h] at this
          exact this
      · simp only [hk, and_false, if_false]
        have := ih { s with props := Function.update s.props o (Function.update (s.props o) key v) } h
        simp only [hp, hk, if_false, h] at this
        exact this
    | close =>
      simp only [State.step, seen, changes, List.append_nil, List.getLastD_nil]
      exact closed_run cmp name as { s with listening := false } rfl

/-- C43: the values fired by a property stream (including the one at construction) are exactly the changes in the sequence
of property values seen by an observer of the current source object, starting from `None`; the value is the last one fired. -/
theorem C43_property_fires (cmp : Option V → Option V → Bool) (name : String) (props : Nat → String → Option V)
    (o : Option Nat) (as : List (Act V)) :
    let s := (State.init cmp name props o).run cmp name as
    s.log = changes cmp none (seen (fun o => props o name) none name (.source o :: as)) ∧
    s.value = s.log.getLastD none := by
  have hi : (State.init cmp name props o).run cmp name as =
      (State.run cmp name ⟨props, none, none, true, []⟩ (.source o :: as)) := by
    simp [State.run, State.step, State.init]
  have := log_run cmp name (.source o :: as) ⟨props, none, none, true, []⟩ rfl
  simp only [List.nil_append] at this
  simp only [hi]
  rw [this.2, this.1]
  exact ⟨rfl, rfl⟩

omit [DecidableEq V] in
theorem changes_last [DecidableEq V] (l : List (Option V)) (x : Option V) :
    (changes (fun a b => decide (a = b)) x l).getLastD x = l.getLastD x := by
  induction l generalizing x with
  | nil => rfl
  | cons y l ih =>
    simp only [changes, decide_eq_true_eq, List.getLastD_cons]
    split
    · rename_i hxy; subst hxy; exact ih y
    · simp only [List.getLastD_cons]; exact ih y

theorem current (name : String) (as : List (Act V)) (s : State V) (o : Nat) (hl : s.listening = true) (hc : .close ∉ as)
    (hv : ∀ o, s.source = some o → s.value = s.props o name) :
    ((s.run (fun a b => decide (a = b)) name as).source = sourceAfter s.source as) ∧
    (∀ o key, (s.run (fun a b => decide (a = b)) name as).props o key = propAfter (s.props o key) o key as) ∧
    (sourceAfter s.source as = some o → (s.run (fun a b => decide (a = b)) name as).value = propAfter (s.props o name) o name as) := by
  induction as generalizing s with
  | nil => exact ⟨rfl, fun _ _ => rfl, fun h => hv o h⟩
  | cons a as ih =>
    rw [State.run, List.foldl_cons, ← State.run]
    have hc' : .close ∉ as := fun h => hc (by simp [h])
    have pc : ∀ (t : State V) (o : Nat), (t.propertyChanged (fun a b => decide (a = b)) name o).listening = t.listening ∧
        (t.propertyChanged (fun a b => decide (a = b)) name o).props = t.props ∧
        (t.propertyChanged (fun a b => decide (a = b)) name o).source = t.source ∧
        (t.propertyChanged (fun a b => decide (a = b)) name o).value = t.props o name := by
      intro t o; unfold State.propertyChanged; simp only [decide_eq_true_eq]; split
      · rename_i h; exact ⟨rfl, rfl, rfl, h.symm⟩
      · exact ⟨rfl, rfl, rfl, rfl⟩
    cases a with
    | source o' =>
      cases o' with
      | none =>
        simp only [State.step, hl, if_true, State.sourceChanged, sourceAfter, propAfter]
        have := ih { s with source := none } hl hc' (by simp)
        simp only [hl] at this
        exact this
      | some o' =>
        simp only [State.step, hl, if_true, State.sourceChanged, sourceAfter, propAfter]
        obtain ⟨h1, h2, h3, h4⟩ := pc { s with source := some o' } o'
        have := ih (State.propertyChanged (fun a b => decide (a = b)) name { s with source := some o' } o') (by rw [h1]; exact hl) hc'
          (by rw [h2, h3, h4]; rintro o ⟨⟩; rfl)
        rw [h2, h3] at this
        simp only [hl] at this
        exact this
    | set o' key v =>
      have hp : ∀ o'' key', (Function.update s.props o' (Function.update (s.props o') key v)) o'' key' =
          if o' = o'' ∧ key = key' then v else s.props o'' key' := by
        intro o'' key'
        by_cases ho : o' = o''
        · subst ho
          by_cases hk : key = key'
          · subst hk; simp
          · rw [Function.update_self, Function.update_of_ne (Ne.symm hk), if_neg (by simp [hk])]
        · rw [Function.update_of_ne (Ne.symm ho), if_neg (by simp [ho])]
      simp only [State.step, hl, true_and, sourceAfter, propAfter]
      by_cases hk : s.source = some o' ∧ key = name
      · rw [if_pos hk]
        obtain ⟨h1, h2, h3, h4⟩ := pc { s with props := Function.update s.props o' (Function.update (s.props o') key v) } o'
        have := ih (State.propertyChanged (fun a b => decide (a = b)) name { s with props := Function.update s.props o' (Function.update (s.props o') key v) } o') (by rw [h1]; exact hl) hc'
          (by rw [h2, h3, h4, hk.1]; rintro o ⟨⟩; rfl)
        rw [h2, h3] at this
        simp only [hp, hl] at this
        exact this
      · rw [if_neg hk]
        have := ih { s with props := Function.update s.props o' (Function.update (s.props o') key v) } hl hc' (by
          intro o'' ho
          simp only at ho ⊢
          rw [hp, if_neg]
          · exact hv o'' ho
          · rintro ⟨rfl, h⟩; exact hk ⟨ho, h⟩)
        simp only [hp, hl] at this
        exact this
    | close => simp at hc

/-- C43, while the source is an object: the value of a property stream is the current value of the named property of the
current source object, after every history of source and property changes before close. -/
theorem C43_property_partial (name : String) (props : Nat → String → Option V) (o : Option Nat) (as : List (Act V))
    (hc : .close ∉ as) (k : Nat) (hk : sourceAfter o as = some k) :
    ((State.init (fun a b => decide (a = b)) name props o).run (fun a b => decide (a = b)) name as).value =
      propAfter (props k name) k name as := by
  have hi : (State.init (fun a b => decide (a = b)) name props o).run (fun a b => decide (a = b)) name as =
      (State.run (fun a b => decide (a = b)) name ⟨props, none, none, true, []⟩ (.source o :: as)) := by
    simp [State.run, State.step, State.init]
  rw [hi]
  exact (current name (.source o :: as) ⟨props, none, none, true, []⟩ k rfl (by simp [hc]) (by simp)).2.2 hk

theorem run_none (cmp : Option V → Option V → Bool) (name : String) (as : List (Act V)) (s : State V) (h : s.source = none)
    (ha : ∀ o, .source (some o) ∉ as) : (s.run cmp name as).value = s.value ∧ (s.run cmp name as).log = s.log := by
  induction as generalizing s with
  | nil => exact ⟨rfl, rfl⟩
  | cons a as ih =>
    rw [State.run, List.foldl_cons, ← State.run]
    have : (s.step cmp name a).source = none ∧ (s.step cmp name a).value = s.value ∧ (s.step cmp name a).log = s.log := by
      cases a with
      | source o =>
        cases o with
        | none =>
          simp only [State.step, State.sourceChanged]
          split
          · exact ⟨rfl, rfl, rfl⟩
          · exact ⟨h, rfl, rfl⟩
        | some o => exact absurd (by simp) (ha o)
      | set o key v => simp [State.step, h]
      | close => exact ⟨h, rfl, rfl⟩
    obtain ⟨h1, h2, h3⟩ := this
    obtain ⟨i1, i2⟩ := ih _ h1 fun o ho => ha o (by simp [ho])
    exact ⟨i1.trans h2, i2.trans h3⟩

/-- C43, exactly what happens when the source becomes `None`: until an object comes the stream fires nothing and its value is what it
was, whatever is done to the former source; with `C43_property_partial` this gives the value after every history. -/
theorem C43_none (cmp : Option V → Option V → Bool) (name : String) (props : Nat → String → Option V) (o : Option Nat)
    (as bs : List (Act V)) (hb : ∀ o, .source (some o) ∉ bs) :
    let s := (State.init cmp name props o).run cmp name as
    let s' := (State.init cmp name props o).run cmp name (as ++ .source none :: bs)
    s'.value = s.value ∧ s'.log = s.log := by
  intro s s'
  have hs : s' = (s.step cmp name (.source none)).run cmp name bs := by
    simp only [s', s, State.run, List.foldl_append, List.foldl_cons]
  by_cases hl : s.listening = true
  · have := run_none cmp name bs (s.step cmp name (.source none)) (by simp [State.step, hl, State.sourceChanged]) hb
    rw [hs, this.1, this.2]
    simp [State.step, hl, State.sourceChanged]
  · have hs2 : s.step cmp name (.source none) = s := by simp [State.step, hl]
    have := closed_run cmp name bs s (by simpa using hl)
    rw [hs, hs2]
    exact ⟨this.2, this.1⟩

/-- C43 is false of the code when the source becomes `None`: the stream keeps the value of the former source, and follows
neither it nor anything else. -/
theorem C43_counterexample :
    let s := (State.init (V := Nat) (fun a b => decide (a = b)) "x" (fun _ _ => some 5) (some 0)).run
      (fun a b => decide (a = b)) "x" [.source none, .set 0 "x" (some 6)]
    s.source = none ∧ s.value = some 5 ∧ s.log = [some 5] := by decide

example : ((State.init (V := Nat) (fun a b => decide (a = b)) "x" (fun o _ => some (10 * o)) (some 1)).run
    (fun a b => decide (a = b)) "x" [.set 1 "y" (some 1), .set 1 "x" (some 11), .set 2 "x" (some 11), .source (some 2),
      .set 1 "x" none, .set 2 "x" (some 22)]).log = [some 10, some 11, some 22] := by decide

end Verif.Stream.PropertyStream

namespace Verif.Stream.Concat

variable {V : Type}

structure State (V : Type) where
  /-- the values of the streams that the concat function may return -/
  vals : Nat → Option V
  /-- their reference counts -/
  refs : Nat → Nat
  /-- `__out_stream` -/
  cur : Option Nat
  value : Option V
  listening : Bool
  log : List (Option V)

inductive Act (V : Type) where
  /-- The input stream fires `None`, or an item for which the concat function returns stream `k`. -/
  | item (k : Option Nat)
  /-- Stream `k` takes and fires a value. -/
  | out (k : Nat) (v : Option V)
  | close

/-- Stream.py:343-359. -/
def State.streamChanged (s : State V) (k : Option Nat) : State V :=
  let s := match s.cur with
    | none => s
    | some j => { s with refs := Function.update s.refs j (s.refs j - 1), cur := none }
  match k with
  | none => { s with value := none, log := s.log ++ [none] }
  | some k =>
    { s with cur := some k, refs := Function.update s.refs k (s.refs k + 1), value := s.vals k, log := s.log ++ [s.vals k] }

/-- Stream.py:316-329. -/
def State.init (vals : Nat → Option V) (refs : Nat → Nat) (k : Option Nat) : State V :=
  State.streamChanged ⟨vals, refs, none, none, true, []⟩ k

def State.step (s : State V) : Act V → State V
  | .item k => if s.listening then s.streamChanged k else s
  | .out k v =>
    let s' := { s with vals := Function.update s.vals k v }
    -- 350-352
    if s.cur = some k then { s' with value := v, log := s'.log ++ [v] } else s'
  -- 331-337
  | .close => if s.listening then { s.streamChanged none with listening := false } else s

def State.run (s : State V) (as : List (Act V)) : State V := as.foldl State.step s

/-! ### Specification -/

/-- The stream of the latest item. -/
def latest (k : Option Nat) : List (Act V) → Option Nat
  | [] => k
  | .item k' :: as => latest k' as
  | .out _ _ :: as => latest k as
  | .close :: _ => none

/-- The value of a stream after a history. -/
def valAfter (x : Option V) (k : Nat) : List (Act V) → Option V
  | [] => x
  | .out k' v :: as => valAfter (if k' = k then v else x) k as
  | _ :: as => valAfter x k as

/-- What a concat stream has to fire. -/
def fires (vals : Nat → Option V) (k : Option Nat) : List (Act V) → List (Option V)
  | [] => []
  | .item k' :: as => k'.bind vals :: fires vals k' as
  | .out j v :: as => (if k = some j then [v] else []) ++ fires (Function.update vals j v) k as
  | .close :: _ => [none]

theorem closed_run (as : List (Act V)) (s : State V) (h : s.listening = false) (hk : s.cur = none) :
    (s.run as).log = s.log ∧ (s.run as).value = s.value ∧ (s.run as).refs = s.refs := by
  induction as generalizing s with
  | nil => exact ⟨rfl, rfl, rfl⟩
  | cons a as ih =>
    rw [State.run, List.foldl_cons, ← State.run]
    cases a with
    | item k => simp only [State.step, h]; exact ih s h hk
    | out k v =>
      simp only [State.step, hk, reduceCtorEq, if_false]
      have := ih { s with vals := Function.update s.vals k v } h hk
      simp only [hk] at this
      exact this
    | close => simp only [State.step, h]; exact ih s h hk

theorem main (ext : Nat → Nat) (as : List (Act V)) (s : State V) (h : s.listening = true) (hv : s.value = s.cur.bind s.vals)
    (hr : ∀ k, s.refs k = ext k + if s.cur = some k then 1 else 0) :
    (s.run as).value = (latest s.cur as).bind (fun k => valAfter (s.vals k) k as) ∧
    (s.run as).log = s.log ++ fires s.vals s.cur as ∧
    ∀ k, (s.run as).refs k = ext k + if latest s.cur as = some k then 1 else 0 := by
  induction as generalizing s with
  | nil => exact ⟨hv, by simp [State.run, fires], hr⟩
  | cons a as ih =>
    rw [State.run, List.foldl_cons, ← State.run]
    have sc : ∀ k', (s.streamChanged k').cur = k' ∧ (s.streamChanged k').vals = s.vals ∧
        (s.streamChanged k').listening = s.listening ∧
        (s.streamChanged k').value = k'.bind s.vals ∧ (s.streamChanged k').log = s.log ++ [k'.bind s.vals] ∧
        ∀ k, (s.streamChanged k').refs k = ext k + if k' = some k then 1 else 0 := by
      intro k'
      have h0 : ∀ k j, s.cur = some j → Function.update s.refs j (s.refs j - 1) k = ext k := by
        intro k j hj
        by_cases hkj : k = j
        · subst hkj; rw [Function.update_self, hr, hj]; simp
        · rw [Function.update_of_ne hkj, hr, hj]; simp [Ne.symm hkj]
      unfold State.streamChanged
      cases hc : s.cur with
      | none =>
        rw [hc] at hr
        cases k' with
        | none => refine ⟨hc, rfl, rfl, rfl, rfl, fun k => by simp [hr]⟩
        | some k' =>
          refine ⟨rfl, rfl, rfl, rfl, rfl, fun k => ?_⟩
          simp only
          by_cases hk : k = k'
          · subst hk; simp [hr]
          · simp [Function.update_of_ne hk, hr, Ne.symm hk]
      | some j =>
        cases k' with
        | none => refine ⟨rfl, rfl, rfl, rfl, rfl, fun k => by simp [h0 k j hc]⟩
        | some k' =>
          refine ⟨rfl, rfl, rfl, rfl, rfl, fun k => ?_⟩
          simp only
          by_cases hk : k = k'
          · subst hk; simp [h0 k j hc]
          · rw [Function.update_of_ne hk, h0 k j hc]; simp [Ne.symm hk]
    cases a with
    | item k' =>
      simp only [State.step, h, if_true]
      obtain ⟨h1, h2, h3, h4, h5, h6⟩ := sc k'
      have := ih (s.streamChanged k') (h3.trans h) (by rw [h4, h1, h2]) (by rw [h1]; exact h6)
      rw [h1, h2, h5] at this
      exact ⟨by simpa [latest, valAfter] using this.1, by simpa [fires] using this.2.1, this.2.2⟩
    | out j v =>
      have hup : ∀ k, Function.update s.vals j v k = if j = k then v else s.vals k := by
        intro k
        by_cases hk : k = j
        · subst hk; simp
        · rw [Function.update_of_ne hk, if_neg (Ne.symm hk)]
      simp only [State.step, latest, valAfter, fires]
      by_cases hk : s.cur = some j
      · rw [if_pos hk, if_pos hk]
        have := ih { s with vals := Function.update s.vals j v, value := v, log := s.log ++ [v] } h (by simp [hk]) hr
        exact ⟨by simpa [hup] using this.1, by simpa using this.2.1, this.2.2⟩
      · rw [if_neg hk, if_neg hk]
        have := ih { s with vals := Function.update s.vals j v } h (by
          simp only
          rw [hv]
          cases hc : s.cur with
          | none => rfl
          | some k =>
            simp only [Option.bind_some, hup]
            rw [if_neg]; rintro rfl; exact hk hc) hr
        exact ⟨by simpa [hup] using this.1, by simpa using this.2.1, this.2.2⟩
    | close =>
      simp only [State.step, h, if_true]
      obtain ⟨h1, h2, h3, h4, h5, h6⟩ := sc none
      obtain ⟨i1, i2, i3⟩ := closed_run as { s.streamChanged none with listening := false } rfl h1
      rw [i1, i2, i3]
      simp only [latest, fires]
      exact ⟨h4, h5, h6⟩

/-- C43: after every history the value of a concat stream is the value of the stream made from the latest item, `None`
without an item and after close; it fires exactly at each new item and at each firing of the current stream; and it holds one
reference to the current stream and none to any other. -/
theorem C43_concat (vals : Nat → Option V) (refs : Nat → Nat) (k : Option Nat) (as : List (Act V)) :
    let s := (State.init vals refs k).run as
    s.value = (latest k as).bind (fun k => valAfter (vals k) k as) ∧
    s.log = fires vals none (.item k :: as) ∧
    ∀ j, s.refs j = refs j + if latest k as = some j then 1 else 0 :=
  main refs (.item k :: as) ⟨vals, refs, none, none, true, []⟩ rfl rfl (by simp)

def demo : State Nat := (State.init (fun k => some (10 * k)) (fun _ => 0) (some 1)).run
  [.out 2 (some 7), .out 1 (some 8), .item (some 2), .out 1 (some 9), .item none, .out 2 (some 3), .item (some 1), .close]

example : demo.log = [some 10, some 8, some 7, none, some 9, none] ∧ demo.refs 1 = 0 ∧ demo.value = none := by decide

end Verif.Stream.Concat
