import Mathlib.Data.List.Induction
import Mathlib.Logic.Function.Basic

/-!
Mapped list models whose container is replaced from a listener of the container (C167).

`ListModel.insert_item` and `remove_item` (ListModel.py:35-42) change the list and then tell the listeners in the order in which they
were attached (Event.py:103-114): a snapshot of the listeners, closed ones do nothing, an exception ends the loop and is printed.
A listener attached before the mapped list model is told earlier, one attached after it is told later; either may assign `container`
(ListModel.py:725-758), also of the model that has not been told yet. The containers are plain `ListModel`s (no change blocks).
The setter takes away one item for each item the old container has *now* (738-739).
-/

namespace Verif.ListModel.MappedReplace

variable {α β : Type}

inductive Note (β : Type) where
  | ins (v : β) (k : ℕ)
  | rem (v : β) (k : ℕ)

/-- `src c` are the items of container number `c`; `listening`: the listeners of the container are attached; `log` are the notifications
of the mapped model, `printed` how many tracebacks have been printed. -/
structure St (α β : Type) where
  src : ℕ → List α
  container : Option ℕ
  listening : Bool
  items : List β
  log : List (Note β)
  printed : ℕ

/-- `list.insert` (for indexes that are not negative). -/
def pyInsert (l : List β) (k : ℕ) (v : β) : List β := l.take k ++ v :: l.drop k

/-- ListModel.py:769-777. -/
def St.inserted (f : α → β) (s : St α β) (x : α) (k : ℕ) : St α β :=
  { s with items := pyInsert s.items k (f x), log := s.log ++ [.ins (f x) k] }

/-- ListModel.py:780-790; the item at an index that is not there raises. -/
def St.removed (s : St α β) (k : ℕ) : St α β × Bool :=
  match s.items[k]? with
  | some v => ({ s with items := s.items.eraseIdx k, log := s.log ++ [.rem v k] }, false)
  | none => (s, true)

/-- ListModel.py:738-739 for `n` items; index `-1` of an empty list raises. -/
def St.takeAway : ℕ → St α β → St α β × Bool
  | 0, s => (s, false)
  | n + 1, s =>
    if s.items = [] then (s, true)
    else
      match s.removed (s.items.length - 1) with
      | (s1, true) => (s1, true)
      | (s1, false) => St.takeAway n s1

/-- ListModel.py:757-758, from index `k`. -/
def St.takeIn (f : α → β) : List α → ℕ → St α β → St α β
  | [], _, s => s
  | x :: l, k, s => St.takeIn f l (k + 1) (s.inserted f x k)

/-- ListModel.py:740-758. -/
def St.attach (f : α → β) (s : St α β) (new : Option ℕ) : St α β :=
  let s1 : St α β := { s with container := new }
  match new with
  | none => s1
  | some c => St.takeIn f (s.src c) 0 { s1 with listening := true }

/-- ListModel.py:725-758, the setter. The listeners are `None` if an assignment has raised before: `close` raises then. -/
def St.setContainer (f : α → β) (s : St α β) (new : Option ℕ) : St α β × Bool :=
  match s.container with
  | none => (s.attach f new, false)
  | some c =>
    if s.listening then
      match St.takeAway (s.src c).length { s with listening := false } with
      | (s1, true) => (s1, true)
      | (s1, false) => (s1.attach f new, false)
    else (s, true)

inductive Op (α : Type) where
  | ins (k : ℕ) (x : α)
  | rem (k : ℕ)

/-- The index is there. -/
def Op.Valid : Op α → List α → Bool
  | .ins k _, l => decide (k ≤ l.length)
  | .rem k, l => decide (k < l.length)

def Op.apply : Op α → List α → List α
  | .ins k x, l => pyInsert l k x
  | .rem k, l => l.eraseIdx k

/-- The mapped model is told. -/
def St.told (f : α → β) (s : St α β) : Op α → St α β × Bool
  | .ins k x => (s.inserted f x k, false)
  | .rem k => s.removed k

/-- What happens: a client assigns the container, or changes the items of container `c`, where the listeners told before and after the
mapped model may assign the container. -/
inductive Act (α : Type) where
  | set (new : Option ℕ)
  | change (c : ℕ) (op : Op α) (early late : Option (Option ℕ))

/-- A listener that assigns the container; an exception ends the loop over the listeners and is printed. -/
def St.listener (f : α → β) (s : St α β) : Option (Option ℕ) → St α β × Bool
  | none => (s, false)
  | some new =>
    match s.setContainer f new with
    | (s1, true) => ({ s1 with printed := s1.printed + 1 }, true)
    | (s1, false) => (s1, false)

/-- The mapped model, if it was listening when the loop began and its listener has not been closed since. -/
def St.turn (f : α → β) (s : St α β) (tell : Bool) (op : Op α) : St α β × Bool :=
  if tell then
    match s.told f op with
    | (s1, true) => ({ s1 with printed := s1.printed + 1 }, true)
    | (s1, false) => (s1, false)
  else (s, false)

/-- The loop over the listeners of container `c` after a change; `heard`: the mapped model was listening to it. -/
def St.fire (f : α → β) (s : St α β) (heard : Bool) (op : Op α) (early late : Option (Option ℕ)) : St α β :=
  match s.listener f early with
  | (s1, true) => s1
  | (s1, false) =>
    match s1.turn f (heard && early.isNone) op with
    | (s2, true) => s2
    | (s2, false) => (s2.listener f late).1

def St.step (f : α → β) (s : St α β) : Act α → St α β
  | .set new => (s.setContainer f new).1
  | .change c op early late =>
    if op.Valid (s.src c) then
      St.fire f { s with src := Function.update s.src c (op.apply (s.src c)) }
        (decide (s.container = some c) && s.listening) op early late
    else s

def St.run (f : α → β) (s : St α β) (as : List (Act α)) : St α β := as.foldl (St.step f) s

def St.init (src : ℕ → List α) : St α β := ⟨src, none, false, [], [], 0⟩

/-! ### Specification -/

/-- The items the mapped model has to have. -/
def St.expected (f : α → β) (s : St α β) : List β :=
  match s.container with
  | none => []
  | some c => (s.src c).map f

/-- Items and listeners as they have to be. -/
def St.Good (f : α → β) (s : St α β) : Prop := s.items = s.expected f ∧ (s.container.isSome → s.listening = true)

/-- Counting alone: the container assigned last, the items of the containers, and how many items the model has too many, `none` if the
model has stopped working. An assignment by a listener that is told of a removal before the model adds one, of an insertion
takes one away, or stops the model if there is none. -/
structure Count (α : Type) where
  src : ℕ → List α
  container : Option ℕ
  extra : Option ℕ

def Count.step (t : Count α) : Act α → Count α
  | .set new => if t.extra.isSome then { t with container := new } else t
  | .change c op early late =>
    if op.Valid (t.src c) then
      let t1 : Count α := { t with src := Function.update t.src c (op.apply (t.src c)) }
      match t.extra with
      | none => t1
      | some e =>
        match early with
        | none => { t1 with container := late.getD t.container }
        | some new =>
          if t.container = some c then
            match op with
            | .rem _ => { t1 with container := late.getD new, extra := some (e + 1) }
            | .ins _ _ => if e = 0 then { t1 with extra := none } else { t1 with container := late.getD new, extra := some (e - 1) }
          else { t1 with container := late.getD new }
    else t

def Count.run (t : Count α) (as : List (Act α)) : Count α := as.foldl Count.step t

/-- A copy kept with the notifications. -/
def replay (l : List β) : Note β → List β
  | .ins v k => pyInsert l k v
  | .rem _ k => l.eraseIdx k

/-! ### Proofs -/

theorem takeAway_eq (n : ℕ) : ∀ (s : St α β), ∃ log, St.takeAway n s =
    if n ≤ s.items.length then ({ s with items := s.items.take (s.items.length - n), log := s.log ++ log }, false)
    else ({ s with items := [], log := s.log ++ log }, true) := by
  induction n with
  | zero => intro s; exact ⟨[], by simp [St.takeAway]⟩
  | succ n ih =>
    intro s
    by_cases h : s.items = []
    · exact ⟨[], by obtain ⟨a, b, c, d, e, f⟩ := s; simp only at h; subst h; simp [St.takeAway]⟩
    · have hpos : 0 < s.items.length := List.length_pos_iff.2 h
      have hlt : s.items.length - 1 < s.items.length := by omega
      have hr : s.removed (s.items.length - 1) = ({ s with items := s.items.eraseIdx (s.items.length - 1), log := s.log ++ [.rem s.items[s.items.length - 1] (s.items.length - 1)] }, false) := by
        simp [St.removed, List.getElem?_eq_getElem hlt]
      obtain ⟨log, hlog⟩ := ih { s with items := s.items.eraseIdx (s.items.length - 1), log := s.log ++ [.rem s.items[s.items.length - 1] (s.items.length - 1)] }
      refine ⟨.rem s.items[s.items.length - 1] (s.items.length - 1) :: log, ?_⟩
      unfold St.takeAway
      rw [if_neg h, hr]
      simp only
      rw [hlog]
      have hlen : (s.items.eraseIdx (s.items.length - 1)).length = s.items.length - 1 := List.length_eraseIdx_of_lt hlt
      have herase : s.items.eraseIdx (s.items.length - 1) = s.items.take (s.items.length - 1) := by
        rw [List.eraseIdx_eq_take_drop_succ, List.drop_of_length_le (by omega), List.append_nil]
      simp only [hlen]
      by_cases hn : n + 1 ≤ s.items.length
      · rw [if_pos hn, if_pos (by omega), herase, List.take_take]
        simp only [List.append_assoc, List.singleton_append, Prod.mk.injEq, and_true]
        congr 2
        omega
      · rw [if_neg hn, if_neg (by omega)]
        simp

theorem takeIn_eq (f : α → β) (l : List α) : ∀ (k : ℕ) (s : St α β) (a b : List β), s.items = a ++ b → a.length = k →
    ∃ log, St.takeIn f l k s = { s with items := a ++ l.map f ++ b, log := s.log ++ log } := by
  induction l with
  | nil => intro k s a b h _; exact ⟨[], by simp [St.takeIn, ← h]⟩
  | cons x l ih =>
    intro k s a b h hk
    have h1 : (s.inserted f x k).items = (a ++ [f x]) ++ b := by
      subst hk
      simp [St.inserted, pyInsert, h]
    obtain ⟨log, hlog⟩ := ih (k + 1) (s.inserted f x k) (a ++ [f x]) b h1 (by simp [hk])
    refine ⟨.ins (f x) k :: log, ?_⟩
    unfold St.takeIn
    rw [hlog]
    simp [St.inserted]

theorem attach_eq (f : α → β) (s : St α β) (new : Option ℕ) : ∃ log, s.attach f new =
    { s with container := new, listening := s.listening || new.isSome,
             items := ({ s with container := new } : St α β).expected f ++ s.items, log := s.log ++ log } := by
  cases new with
  | none => exact ⟨[], by simp [St.attach, St.expected]⟩
  | some c =>
    obtain ⟨log, hlog⟩ := takeIn_eq f (s.src c) 0 { s with container := some c, listening := true } [] s.items rfl rfl
    exact ⟨log, by simp [St.attach, hlog, St.expected]⟩

/-- The state of the count and that of the model fit: the model has the expected items and then `extra` more, or has stopped. -/
def Fit (f : α → β) (s : St α β) (t : Count α) : Prop :=
  s.src = t.src ∧
  match t.extra with
  | some e => s.container = t.container ∧ s.listening = s.container.isSome ∧ ∃ junk, junk.length = e ∧ s.items = s.expected f ++ junk
  | none => s.container.isSome = true ∧ s.listening = false

/-- An assignment of the container to a model that has `d` more or less items than its container has now. -/
theorem setContainer_eq (f : α → β) (s : St α β) (new : Option ℕ) (hl : s.listening = s.container.isSome) :
    ((s.expected f).length ≤ s.items.length → ∃ log, s.setContainer f new =
      ({ s with container := new, listening := new.isSome, log := s.log ++ log,
                items := ({ s with container := new } : St α β).expected f ++ s.items.take (s.items.length - (s.expected f).length) },
        false)) ∧
    (¬ (s.expected f).length ≤ s.items.length → ∃ log, s.setContainer f new =
      ({ s with listening := false, items := [], log := s.log ++ log }, true)) := by
  cases hc : s.container with
  | none =>
    refine ⟨fun _ => ?_, fun h => absurd (by simp [St.expected, hc]) h⟩
    obtain ⟨log, hlog⟩ := attach_eq f s new
    refine ⟨log, ?_⟩
    simp only [St.setContainer, hc, hlog, St.expected]
    simp [hl, hc]
  | some c =>
    obtain ⟨src, cont, lis, items, log0, pr⟩ := s
    simp only at hc hl
    subst hc hl
    have hlen : ((⟨src, some c, true, items, log0, pr⟩ : St α β).expected f).length = (src c).length := by simp [St.expected]
    obtain ⟨log, hlog⟩ := takeAway_eq (src c).length (⟨src, some c, false, items, log0, pr⟩ : St α β)
    simp only [Option.isSome_some] at hlen ⊢
    rw [hlen]
    constructor
    · intro h
      simp only at hlog
      rw [if_pos h] at hlog
      obtain ⟨log2, hlog2⟩ := attach_eq f (⟨src, some c, false, items.take (items.length - (src c).length), log0 ++ log, pr⟩ : St α β) new
      refine ⟨log ++ log2, ?_⟩
      simp only [St.setContainer, if_true, hlog]
      rw [hlog2]
      simp [St.expected]
    · intro h
      simp only at hlog
      rw [if_neg h] at hlog
      refine ⟨log, ?_⟩
      simp only [St.setContainer, if_true, hlog]

/-- Listeners are attached if there is a container, and there are `e` items after the expected ones. -/
def Ex (f : α → β) (s : St α β) (cont : Option ℕ) (e : ℕ) : Prop :=
  s.container = cont ∧ s.listening = cont.isSome ∧ ∃ junk, junk.length = e ∧ s.items = s.expected f ++ junk

def Stopped (s : St α β) : Prop := s.container.isSome = true ∧ s.listening = false

theorem assign_ok (f : α → β) (s : St α β) (new : Option ℕ) (hl : s.listening = s.container.isSome)
    (h : (s.expected f).length ≤ s.items.length) :
    (s.setContainer f new).2 = false ∧ (s.setContainer f new).1.src = s.src ∧
      Ex f (s.setContainer f new).1 new (s.items.length - (s.expected f).length) := by
  obtain ⟨log, e⟩ := (setContainer_eq f s new hl).1 h
  rw [e]
  refine ⟨rfl, rfl, rfl, rfl, s.items.take (s.items.length - (s.expected f).length), by simp, ?_⟩
  simp [St.expected]

theorem assign_fail (f : α → β) (s : St α β) (new : Option ℕ) (hl : s.listening = s.container.isSome)
    (h : ¬ (s.expected f).length ≤ s.items.length) :
    (s.setContainer f new).2 = true ∧ (s.setContainer f new).1.src = s.src ∧ Stopped (s.setContainer f new).1 := by
  obtain ⟨log, e⟩ := (setContainer_eq f s new hl).2 h
  have hc : s.container.isSome = true := by
    cases hc : s.container with
    | none => exact absurd (by simp [St.expected, hc]) h
    | some c => rfl
  rw [e]
  exact ⟨rfl, rfl, hc, rfl⟩

theorem assign_stopped (f : α → β) (s : St α β) (new : Option ℕ) (h : Stopped s) : s.setContainer f new = (s, true) := by
  obtain ⟨h1, h2⟩ := h
  obtain ⟨c, hc⟩ := Option.isSome_iff_exists.1 h1
  simp [St.setContainer, hc, h2]

theorem assign_ex (f : α → β) (s : St α β) (cont new : Option ℕ) (e : ℕ) (h : Ex f s cont e) :
    (s.setContainer f new).2 = false ∧ (s.setContainer f new).1.src = s.src ∧ Ex f (s.setContainer f new).1 new e := by
  obtain ⟨h1, h2, junk, h3, h4⟩ := h
  have hlen : s.items.length = (s.expected f).length + e := by rw [h4, List.length_append, h3]
  have := assign_ok f s new (by rw [h2, h1]) (by omega)
  rwa [hlen, Nat.add_sub_cancel_left] at this

theorem listener_ex (f : α → β) (s : St α β) (cont : Option ℕ) (late : Option (Option ℕ)) (e : ℕ) (h : Ex f s cont e) :
    (s.listener f late).2 = false ∧ (s.listener f late).1.src = s.src ∧ Ex f (s.listener f late).1 (late.getD cont) e := by
  cases late with
  | none => exact ⟨rfl, rfl, h⟩
  | some new =>
    obtain ⟨a1, a2, a3⟩ := assign_ex f s cont new e h
    rcases hr : s.setContainer f new with ⟨s1, b⟩
    rw [hr] at a1 a2 a3
    simp only at a1
    subst a1
    simp only [St.listener, hr]
    exact ⟨trivial, a2, a3⟩

theorem listener_stopped (f : α → β) (s : St α β) (late : Option (Option ℕ)) (h : Stopped s) :
    (s.listener f late).1.src = s.src ∧ Stopped (s.listener f late).1 := by
  cases late with
  | none => exact ⟨rfl, h⟩
  | some new =>
    simp only [St.listener, assign_stopped f s new h]
    exact ⟨trivial, h⟩

theorem pyInsert_append (a b : List β) (k : ℕ) (v : β) (h : k ≤ a.length) : pyInsert (a ++ b) k v = pyInsert a k v ++ b := by
  unfold pyInsert
  rw [List.take_append_of_le_length h, List.drop_append_of_le_length h]
  simp

theorem map_pyInsert (f : α → β) (l : List α) (k : ℕ) (x : α) : (pyInsert l k x).map f = pyInsert (l.map f) k (f x) := by
  simp [pyInsert, List.map_take, List.map_drop]

theorem map_eraseIdx (f : α → β) (l : List α) (k : ℕ) : (l.eraseIdx k).map f = (l.map f).eraseIdx k := by
  rw [List.eraseIdx_eq_take_drop_succ, List.eraseIdx_eq_take_drop_succ, List.map_append, List.map_take, List.map_drop]

/-- The model, told of a change of its container, follows. -/
theorem turn_heard (f : α → β) (s : St α β) (c : ℕ) (op : Op α) (e : ℕ) (h : Ex f s (some c) e) (hv : op.Valid (s.src c) = true) :
    ∃ s2, ({ s with src := Function.update s.src c (op.apply (s.src c)) } : St α β).turn f true op = (s2, false) ∧
      s2.src = Function.update s.src c (op.apply (s.src c)) ∧ Ex f s2 (some c) e := by
  obtain ⟨h1, h2, junk, h3, h4⟩ := h
  have hexp : s.expected f = (s.src c).map f := by simp [St.expected, h1]
  rw [hexp] at h4
  cases op with
  | ins k x =>
    simp only [Op.Valid, decide_eq_true_eq] at hv
    refine ⟨({ s with src := Function.update s.src c ((Op.ins k x).apply (s.src c)) } : St α β).inserted f x k, rfl, rfl, h1, h2, junk, h3, ?_⟩
    simp only [St.inserted, St.expected, h1, Op.apply, Function.update_self]
    rw [h4, pyInsert_append _ _ _ _ (by simpa using hv), map_pyInsert]
  | rem k =>
    simp only [Op.Valid, decide_eq_true_eq] at hv
    have hk : k < s.items.length := by rw [h4]; simp; omega
    have hget : s.items[k]? = some s.items[k] := List.getElem?_eq_getElem hk
    refine ⟨{ s with src := Function.update s.src c ((Op.rem k).apply (s.src c)), items := s.items.eraseIdx k, log := s.log ++ [.rem s.items[k] k] },
      by simp only [St.turn, St.told, St.removed, hget, if_true], rfl, h1, h2, junk, h3, ?_⟩
    simp only [St.expected, h1, Op.apply, Function.update_self]
    rw [h4, List.eraseIdx_append_of_lt_length (by simpa using hv), map_eraseIdx]

theorem fit_iff (f : α → β) (s : St α β) (t : Count α) : Fit f s t ↔ s.src = t.src ∧
    match t.extra with
    | some e => Ex f s t.container e
    | none => Stopped s := by
  unfold Fit Ex Stopped
  cases t.extra with
  | none => rfl
  | some e =>
    simp only
    constructor
    · rintro ⟨h1, h2, h3, h4⟩; exact ⟨h1, h2, by rw [h3, h2], h4⟩
    · rintro ⟨h1, h2, h3, h4⟩; exact ⟨h1, h2, by rw [h3, h2], h4⟩

theorem length_apply_ins (l : List α) (k : ℕ) (x : α) : ((Op.ins k x).apply l).length = l.length + 1 := by
  simp only [Op.apply, pyInsert, List.length_append, List.length_cons, List.length_take, List.length_drop]
  omega

theorem length_apply_rem (l : List α) (k : ℕ) (h : k < l.length) : ((Op.rem k).apply l).length = l.length - 1 := by
  simp [Op.apply, List.length_eraseIdx_of_lt h]

/-- The end of the loop once the early listener has assigned the container and the model is not told. -/
theorem fire_early_ok (f : α → β) (s : St α β) (heard : Bool) (op : Op α) (new : Option ℕ) (late : Option (Option ℕ)) (e : ℕ)
    (h : (s.setContainer f new).2 = false ∧ (s.setContainer f new).1.src = s.src ∧ Ex f (s.setContainer f new).1 new e) :
    (s.fire f heard op (some new) late).src = s.src ∧ Ex f (s.fire f heard op (some new) late) (late.getD new) e := by
  obtain ⟨a1, a2, a3⟩ := h
  rcases hr : s.setContainer f new with ⟨s1, b⟩
  rw [hr] at a1 a2 a3
  simp only at a1 a2 a3
  subst a1
  have := listener_ex f s1 new late e a3
  simp only [St.fire, St.listener, hr, Option.isNone_some, Bool.and_false, St.turn, Bool.false_eq_true, if_false]
  exact ⟨this.2.1.trans a2, this.2.2⟩

theorem fit_step (f : α → β) (s : St α β) (t : Count α) (h : Fit f s t) (a : Act α) : Fit f (s.step f a) (t.step a) := by
  rw [fit_iff] at h ⊢
  obtain ⟨hsrc, h⟩ := h
  obtain ⟨tsrc, tcont, textra⟩ := t
  simp only at hsrc h
  subst hsrc
  cases textra with
  | none =>
    simp only at h
    cases a with
    | set new =>
      simp only [St.step, Count.step, assign_stopped f s new h]
      exact ⟨by simp, h⟩
    | change c op early late =>
      simp only [St.step, Count.step]
      by_cases hv : op.Valid (s.src c) = true
      · simp only [hv, if_true]
        have h' : Stopped ({ s with src := Function.update s.src c (op.apply (s.src c)) } : St α β) := h
        have hheard : (decide (s.container = some c) && s.listening) = false := by rw [h.2, Bool.and_false]
        rw [hheard]
        cases early with
        | some new =>
          simp only [St.fire, St.listener, assign_stopped f _ new h']
          exact ⟨trivial, h'⟩
        | none =>
          simp only [St.fire, St.listener, St.turn, Bool.false_and, Bool.false_eq_true, if_false]
          exact listener_stopped f _ late h'
      · rw [if_neg hv, if_neg hv]
        exact ⟨rfl, h⟩
  | some e =>
    simp only at h
    cases a with
    | set new =>
      obtain ⟨_, a2, a3⟩ := assign_ex f s tcont new e h
      simp only [St.step, Count.step, Option.isSome_some, if_true]
      exact ⟨a2, a3⟩
    | change c op early late =>
      simp only [St.step, Count.step]
      by_cases hv : op.Valid (s.src c) = true
      · simp only [hv, if_true]
        obtain ⟨h1, h2, junk, h3, h4⟩ := id h
        by_cases hc : tcont = some c
        · subst hc
          have hheard : (decide (s.container = some c) && s.listening) = true := by rw [h1, h2]; simp
          rw [hheard]
          cases early with
          | none =>
            obtain ⟨s2, e1, e2, e3⟩ := turn_heard f s c op e h hv
            simp only [St.fire, St.listener, Option.isNone_none, Bool.and_true, e1]
            have := listener_ex f s2 (some c) late e e3
            exact ⟨this.2.1.trans e2, this.2.2⟩
          | some new =>
            simp only [if_true]
            have hexp : (({ s with src := Function.update s.src c (op.apply (s.src c)) } : St α β).expected f).length =
                (op.apply (s.src c)).length := by simp [St.expected, h1]
            have hlen : s.items.length = (s.src c).length + e := by rw [h4]; simp [St.expected, h1, h3]
            have hl' : ({ s with src := Function.update s.src c (op.apply (s.src c)) } : St α β).listening =
                ({ s with src := Function.update s.src c (op.apply (s.src c)) } : St α β).container.isSome := by
              simp only [h1, h2]
            cases op with
            | rem k =>
              have hk : k < (s.src c).length := by simpa [Op.Valid] using hv
              rw [length_apply_rem _ _ hk] at hexp
              have := assign_ok f ({ s with src := Function.update s.src c ((Op.rem k).apply (s.src c)) } : St α β) new hl'
                (by rw [hexp]; simp only; omega)
              rw [hexp] at this
              have he : s.items.length - ((s.src c).length - 1) = e + 1 := by omega
              simp only [he] at this
              exact fire_early_ok f _ true (.rem k) new late (e + 1) this
            | ins k x =>
              rw [length_apply_ins] at hexp
              by_cases h0 : e = 0
              · have := assign_fail f ({ s with src := Function.update s.src c ((Op.ins k x).apply (s.src c)) } : St α β) new hl'
                  (by rw [hexp]; simp only; omega)
                obtain ⟨b1, b2, b3⟩ := this
                rcases hr : ({ s with src := Function.update s.src c ((Op.ins k x).apply (s.src c)) } : St α β).setContainer f new with ⟨s1, b⟩
                rw [hr] at b1 b2 b3
                simp only at b1 b2 b3
                subst b1
                simp only [h0, if_true, St.fire, St.listener, hr]
                exact ⟨b2, b3⟩
              · have := assign_ok f ({ s with src := Function.update s.src c ((Op.ins k x).apply (s.src c)) } : St α β) new hl'
                  (by rw [hexp]; simp only; omega)
                rw [hexp] at this
                have he : s.items.length - ((s.src c).length + 1) = e - 1 := by omega
                simp only [he] at this
                simp only [h0, if_false]
                exact fire_early_ok f _ true (.ins k x) new late (e - 1) this
        · have hheard : (decide (s.container = some c) && s.listening) = false := by rw [h1]; simp [hc]
          rw [hheard]
          have h' : Ex f ({ s with src := Function.update s.src c (op.apply (s.src c)) } : St α β) tcont e := by
            refine ⟨h1, h2, junk, h3, ?_⟩
            rw [h4]
            congr 1
            unfold St.expected
            simp only [h1]
            cases tcont with
            | none => rfl
            | some d =>
              simp only
              rw [Function.update_of_ne (by rintro rfl; exact hc rfl)]
          cases early with
          | none =>
            simp only [St.fire, St.listener, St.turn, Bool.false_and, Bool.false_eq_true, if_false]
            have := listener_ex f _ tcont late e h'
            exact ⟨this.2.1, this.2.2⟩
          | some new =>
            simp only [hc, if_false]
            exact fire_early_ok f _ false op new late e (assign_ex f _ tcont new e h')
      · rw [if_neg hv, if_neg hv]
        exact ⟨rfl, h⟩

theorem fit_run (f : α → β) (as : List (Act α)) : ∀ (s : St α β) (t : Count α), Fit f s t → Fit f (s.run f as) (t.run as) := by
  induction as with
  | nil => intro s t h; exact h
  | cons a as ih => intro s t h; exact ih _ _ (fit_step f s t h a)

theorem fit_init (f : α → β) (src : ℕ → List α) : Fit f (St.init src) ⟨src, none, some 0⟩ :=
  ⟨rfl, rfl, rfl, [], rfl, rfl⟩

/-- C167, exactly when: after any history the mapped model has the mapped items of its container, and follows it, precisely if the count
of surplus items is 0: as many assignments of its container by listeners told of a removal before it as by such listeners told of an
insertion, never more of the latter. -/
theorem C167_iff_partial (f : α → β) (src : ℕ → List α) (as : List (Act α)) :
    ((St.init src).run f as).Good f ↔ (Count.run ⟨src, none, some 0⟩ as).extra = some 0 := by
  have h := fit_run f as _ _ (fit_init f src)
  rw [fit_iff] at h
  obtain ⟨_, h⟩ := h
  cases he : (Count.run ⟨src, none, some 0⟩ as).extra with
  | none =>
    rw [he] at h
    obtain ⟨h1, h2⟩ := h
    constructor
    · intro hg
      have := hg.2 h1
      rw [h2] at this
      cases this
    · intro h; cases h
  | some e =>
    rw [he] at h
    obtain ⟨h1, h2, junk, h3, h4⟩ := h
    constructor
    · intro hg
      have hl := congrArg List.length hg.1
      rw [h4, List.length_append, h3] at hl
      rw [Nat.add_eq_left.1 hl]
    · intro e0
      simp only [Option.some.injEq] at e0
      subst e0
      have hj : junk = [] := List.eq_nil_of_length_eq_zero h3
      subst hj
      exact ⟨by rw [h4, List.append_nil], fun hi => by rw [h2, ← h1]; exact hi⟩

/-- C167, what holds otherwise: as long as the model has not stopped it has the mapped items of its container, in order, and then exactly
the surplus items. -/
theorem C167_surplus_partial (f : α → β) (src : ℕ → List α) (as : List (Act α)) (e : ℕ)
    (he : (Count.run ⟨src, none, some 0⟩ as).extra = some e) :
    ∃ junk, junk.length = e ∧ ((St.init src).run f as).items = ((St.init src).run f as).expected f ++ junk := by
  have h := fit_run f as _ _ (fit_init f src)
  rw [fit_iff, he] at h
  exact h.2.2.2

/-- Listeners that assign the container are told of changes after the model, or of changes of other containers. -/
def Polite : Count α → List (Act α) → Prop
  | _, [] => True
  | t, a :: as => (match a with
      | .set _ => True
      | .change c _ early _ => early = none ∨ t.container ≠ some c) ∧ Polite (t.step a) as

/-- C167, the part that holds: the items are right after every history in which no listener told before the model assigns the model's
container while that container is telling. -/
theorem C167_polite_partial (f : α → β) (src : ℕ → List α) (as : List (Act α)) (h : Polite ⟨src, none, some 0⟩ as) :
    ((St.init src).run f as).Good f := by
  rw [C167_iff_partial]
  have : ∀ (as : List (Act α)) (t : Count α), t.extra = some 0 → Polite t as → (t.run as).extra = some 0 := by
    intro as
    induction as with
    | nil => intro t ht _; exact ht
    | cons a as ih =>
      intro t ht hp
      refine ih _ ?_ hp.2
      have h1 := hp.1
      cases a with
      | set new => simp only [Count.step, ht, Option.isSome_some, if_true]
      | change c op early late =>
        simp only at h1
        simp only [Count.step]
        split
        · rw [ht]
          simp only
          cases early with
          | none => rfl
          | some new =>
            rcases h1 with h1 | h1
            · cases h1
            · simp only [h1, if_false]
        · exact ht
  exact this as _ rfl h

/-! ### Notifications -/

/-- A copy kept with the notifications has the items. -/
def Told (s : St α β) : Prop := s.log.foldl replay [] = s.items

theorem told_inserted (f : α → β) (s : St α β) (h : Told s) (x : α) (k : ℕ) : Told (s.inserted f x k) := by
  unfold Told at h ⊢
  simp [St.inserted, List.foldl_append, h, replay]

theorem told_removed (s : St α β) (h : Told s) (k : ℕ) : Told (s.removed k).1 := by
  unfold St.removed
  split
  · unfold Told at h ⊢
    simp [List.foldl_append, h, replay]
  · exact h

theorem told_takeAway (n : ℕ) : ∀ (s : St α β), Told s → Told (St.takeAway n s).1 := by
  induction n with
  | zero => intro s h; exact h
  | succ n ih =>
    intro s h
    unfold St.takeAway
    split
    · exact h
    · have hr := told_removed s h (s.items.length - 1)
      split
      · rename_i s1 e; rw [e] at hr; exact hr
      · rename_i s1 e; rw [e] at hr; exact ih _ hr

theorem told_takeIn (f : α → β) (l : List α) : ∀ (k : ℕ) (s : St α β), Told s → Told (St.takeIn f l k s) := by
  induction l with
  | nil => intro k s h; exact h
  | cons x l ih => intro k s h; exact ih _ _ (told_inserted f s h x k)

theorem told_attach (f : α → β) (s : St α β) (h : Told s) (new : Option ℕ) : Told (s.attach f new) := by
  cases new with
  | none => exact h
  | some c => exact told_takeIn f _ _ _ h

theorem told_setContainer (f : α → β) (s : St α β) (h : Told s) (new : Option ℕ) : Told (s.setContainer f new).1 := by
  unfold St.setContainer
  split
  · exact told_attach f s h new
  · rename_i c hc
    split
    · have hr := told_takeAway (s.src c).length ({ s with listening := false } : St α β) h
      split
      · rename_i s1 e; rw [e] at hr; exact hr
      · rename_i s1 e; rw [e] at hr; exact told_attach f _ hr new
    · exact h

theorem told_listener (f : α → β) (s : St α β) (h : Told s) (o : Option (Option ℕ)) : Told (s.listener f o).1 := by
  cases o with
  | none => exact h
  | some new =>
    have hr := told_setContainer f s h new
    simp only [St.listener]
    split
    · rename_i s1 e; rw [e] at hr; exact hr
    · rename_i s1 e; rw [e] at hr; exact hr

theorem told_turn (f : α → β) (s : St α β) (h : Told s) (b : Bool) (op : Op α) : Told (s.turn f b op).1 := by
  unfold St.turn
  split
  · have hr : Told (s.told f op).1 := by
      cases op with
      | ins k x => exact told_inserted f s h x k
      | rem k => exact told_removed s h k
    split
    · rename_i s1 e; rw [e] at hr; exact hr
    · rename_i s1 e; rw [e] at hr; exact hr
  · exact h

theorem told_step (f : α → β) (s : St α β) (h : Told s) (a : Act α) : Told (s.step f a) := by
  cases a with
  | set new => exact told_setContainer f s h new
  | change c op early late =>
    simp only [St.step]
    split
    · have h1 := told_listener f ({ s with src := Function.update s.src c (op.apply (s.src c)) } : St α β) h early
      unfold St.fire
      split
      · rename_i s1 e; rw [e] at h1; exact h1
      · rename_i s1 e
        rw [e] at h1
        have h2 := told_turn f s1 h1 ((decide (s.container = some c) && s.listening) && early.isNone) op
        split
        · rename_i s2 e2; rw [e2] at h2; exact h2
        · rename_i s2 e2; rw [e2] at h2; exact told_listener f s2 h2 late
    · exact h

/-- C167, notifications: in every history, with whatever the listeners do, a copy kept with the insert and remove notifications of the
mapped model has its items. -/
theorem C167_replay (f : α → β) (src : ℕ → List α) (as : List (Act α)) :
    ((St.init src).run f as).log.foldl replay [] = ((St.init src).run f as).items := by
  have : ∀ (as : List (Act α)) (s : St α β), Told s → Told (s.run f as) := by
    intro as
    induction as with
    | nil => intro s h; exact h
    | cons a as ih => intro s h; exact ih _ (told_step f s h a)
  exact this as _ rfl

/-! ### Cases -/

/-- container 0 has 1, 2; container 1 has 8; the others are empty -/
def two : ℕ → List ℕ := fun c => if c = 0 then [1, 2] else if c = 1 then [8] else []

/-- a listener told after the model replaces its container on an insertion -/
example : ((St.init two).run (· * 10) [.set (some 0), .change 0 (.ins 1 5) none (some (some 1)), .change 1 (.rem 0) none none]).Good (· * 10) :=
  C167_polite_partial _ _ _ ⟨trivial, Or.inl rfl, Or.inl rfl, trivial⟩

/-- C167 fails for a listener told before the model: replacing the container when told of a removal leaves an item of the old container
in the list for good. -/
theorem C167_counterexample :
    ((St.init two).run (· * 10) [.set (some 0), .change 0 (.rem 1) (some (some 1)) none]).items = [80, 10] ∧
    ((St.init two).run (· * 10) [.set (some 0), .change 0 (.rem 1) (some (some 1)) none]).src 1 = [8] ∧
    ((St.init two).run (· * 10) [.set (some 0), .change 0 (.rem 1) (some (some 1)) none, .set none]).items = [80] := by
  refine ⟨by decide, by decide, by decide⟩

/-- C167 fails for a listener told before the model: replacing the container when told of an insertion raises, the list is empty, the
container stays the old one, is not listened to, and can never be assigned again. -/
theorem C167_counterexample_stops :
    ∃ s, s = (St.init two).run (· * 10) [.set (some 0), .change 0 (.ins 2 3) (some (some 1)) none] ∧
      s.items = [] ∧ s.container = some 0 ∧ s.printed = 1 ∧
      ∀ new, s.setContainer (· * 10) new = (s, true) := by
  refine ⟨_, rfl, by decide, by decide, by decide, ?_⟩
  intro new
  refine assign_stopped _ _ new ⟨by decide, by decide⟩

end Verif.ListModel.MappedReplace
