import Mathlib.Data.List.Nodup
import Mathlib.Data.List.Induction
import Mathlib.Logic.Function.Basic
import Mathlib.Data.Finset.Basic
import Mathlib.Data.Finset.Dedup
import Mathlib.Tactic.Push

/-!
`FilteredListModel` whose container is replaced by a listener of the container (`nion/utils/ListModel.py`, lines 356-420, 551-640), property C170.

The listeners of the container's `item_inserted_event` and `item_removed_event` are told in the order in which they were attached; one told
before the filtered model may assign `container` of the filtered model, as may one told after it. Without sort key, change blocks and
selections; items do not tell of changes. An exception ends the loop over the listeners and is printed (`Event.py:126-141`).
-/

namespace Verif.ListModel.FilteredReplace

variable {α : Type} [DecidableEq α]

/-- `src c` are the items of container number `c`; `master` is `__master_items`, `keys` are the keys of `__item_changed_event_listeners`;
`listening`: the listeners of the container are attached; `printed` is how many tracebacks have been printed. -/
structure St (α : Type) where
  src : ℕ → List α
  container : Option ℕ
  listening : Bool
  master : List α
  keys : Finset α
  items : List α
  printed : ℕ

/-- `list.insert` (for indexes that are not negative). -/
def pyInsert {β : Type} (l : List β) (k : ℕ) (v : β) : List β := l.take k ++ v :: l.drop k

/-- ListModel.py:367-374: how many accepted items are before `x`. -/
def place (acc : α → Bool) (x : α) (l : List α) : ℕ := ((l.takeWhile fun y => y ≠ x).filter acc).length

/-- ListModel.py:610-624, 377-399; the Boolean tells if it raised. -/
def St.inserted (acc : α → Bool) (s : St α) (x : α) (k : ℕ) : St α × Bool :=
  if x ∈ s.master then (s, true)
  else
    let m := pyInsert s.master k x
    ({ s with master := m, keys := insert x s.keys, items := if acc x then pyInsert s.items (place acc x m) x else s.items }, false)

/-- ListModel.py:627-640, 401-420. -/
def St.removed (s : St α) (x : α) (k : ℕ) : St α × Bool :=
  if k < s.master.length then
    let s1 := { s with master := s.master.eraseIdx k }
    if x ∈ s.keys then ({ s1 with keys := s.keys.erase x, items := s.items.erase x }, false) else (s1, true)
  else (s, true)

/-- ListModel.py:569-570, for the items of the container from the end; index `-1` of an empty list raises. -/
def St.takeAway : List α → St α → St α × Bool
  | [], s => (s, false)
  | x :: l, s =>
    if s.master = [] then (s, true)
    else
      match s.removed x (s.master.length - 1) with
      | (s1, true) => (s1, true)
      | (s1, false) => St.takeAway l s1

/-- ListModel.py:597-598, from index `k`. -/
def St.takeIn (acc : α → Bool) : List α → ℕ → St α → St α × Bool
  | [], _, s => (s, false)
  | x :: l, k, s =>
    match s.inserted acc x k with
    | (s1, true) => (s1, true)
    | (s1, false) => St.takeIn acc l (k + 1) s1

/-- ListModel.py:571-598. -/
def St.attach (acc : α → Bool) (s : St α) (new : Option ℕ) : St α × Bool :=
  match new with
  | none => ({ s with container := none }, false)
  | some c => St.takeIn acc (s.src c) 0 { s with container := some c, listening := true }

/-- ListModel.py:553-598, the setter. The listeners are `None` if an assignment has raised before: `close` raises then. -/
def St.setContainer (acc : α → Bool) (s : St α) (new : Option ℕ) : St α × Bool :=
  match s.container with
  | none => s.attach acc new
  | some c =>
    if s.listening then
      match St.takeAway (s.src c).reverse { s with listening := false } with
      | (s1, true) => (s1, true)
      | (s1, false) => s1.attach acc new
    else (s, true)

inductive Op (α : Type) where
  | ins (k : ℕ) (x : α)
  | rem (k : ℕ) (x : α)

/-- The index is there, and items are distinct (611). -/
def Op.Valid : Op α → List α → Bool
  | .ins k x, l => decide (k ≤ l.length) && decide (x ∉ l)
  | .rem k x, l => decide (l[k]? = some x)

def Op.apply : Op α → List α → List α
  | .ins k x, l => pyInsert l k x
  | .rem k _, l => l.eraseIdx k

def St.told (acc : α → Bool) (s : St α) : Op α → St α × Bool
  | .ins k x => s.inserted acc x k
  | .rem k x => s.removed x k

/-- What happens: a client assigns the container, or changes the items of container `c`, where the listeners told before and after the
filtered model may assign the container. -/
inductive Act (α : Type) where
  | set (new : Option ℕ)
  | change (c : ℕ) (op : Op α) (early late : Option (Option ℕ))

def St.print (r : St α × Bool) : St α × Bool := if r.2 then ({ r.1 with printed := r.1.printed + 1 }, true) else r

/-- A listener that assigns the container. -/
def St.listener (acc : α → Bool) (s : St α) : Option (Option ℕ) → St α × Bool
  | none => (s, false)
  | some new => St.print (s.setContainer acc new)

/-- The loop over the listeners of container `c` after a change; `heard`: the filtered model was listening to it. A listener that has been
closed meanwhile is not called. -/
def St.fire (acc : α → Bool) (s : St α) (heard : Bool) (op : Op α) (early late : Option (Option ℕ)) : St α :=
  match s.listener acc early with
  | (s1, true) => s1
  | (s1, false) =>
    match (if heard && early.isNone then St.print (s1.told acc op) else (s1, false)) with
    | (s2, true) => s2
    | (s2, false) => (s2.listener acc late).1

def St.step (acc : α → Bool) (s : St α) : Act α → St α
  | .set new => (s.setContainer acc new).1
  | .change c op early late =>
    if op.Valid (s.src c) then
      St.fire acc { s with src := Function.update s.src c (op.apply (s.src c)) } (decide (s.container = some c) && s.listening) op early late
    else s

def St.run (acc : α → Bool) (s : St α) (as : List (Act α)) : St α := as.foldl (St.step acc) s

def St.init (src : ℕ → List α) : St α := ⟨src, none, false, [], ∅, [], 0⟩

/-! ### Specification -/

def St.source (s : St α) : List α :=
  match s.container with
  | none => []
  | some c => s.src c

/-- The filtered model has the accepted items of its container. -/
def St.Right (acc : α → Bool) (s : St α) : Prop := s.items = s.source.filter acc

/-- No listener told before the filtered model assigns the container during a change of the container followed. -/
def Act.Polite (s : St α) : Act α → Prop
  | .set _ => True
  | .change c _ early _ => early = none ∨ s.container ≠ some c

def AllPolite (acc : α → Bool) : St α → List (Act α) → Prop
  | _, [] => True
  | s, a :: as => a.Polite s ∧ AllPolite acc (s.step acc a) as

/-! ### Proofs -/

/-- Everything inside is as it should be; `src` are lists without duplicates. -/
structure Good (acc : α → Bool) (s : St α) : Prop where
  distinct : ∀ c, (s.src c).Nodup
  master : s.master = s.source
  keys : s.keys = s.source.toFinset
  right : s.items = s.source.filter acc
  listening : s.container.isSome = true → s.listening = true

theorem place_insert (acc : α → Bool) (l : List α) (k : ℕ) (x : α) (hx : x ∉ l) :
    place acc x (pyInsert l k x) = ((l.take k).filter acc).length := by
  have : (pyInsert l k x).takeWhile (fun y => y ≠ x) = l.take k := by
    rw [pyInsert, List.takeWhile_append_of_pos]
    · simp
    · intro y hy
      have := List.mem_of_mem_take hy
      simp only [decide_eq_true_eq]
      rintro rfl
      exact hx this
  rw [place, this]

omit [DecidableEq α] in
theorem filter_insert (acc : α → Bool) (l : List α) (k : ℕ) (x : α) :
    (if acc x then pyInsert (l.filter acc) ((l.take k).filter acc).length x else l.filter acc) = (pyInsert l k x).filter acc := by
  have h : l.filter acc = (l.take k).filter acc ++ (l.drop k).filter acc := by rw [← List.filter_append, List.take_append_drop]
  by_cases hx : acc x
  · rw [if_pos hx, h, pyInsert, pyInsert]
    simp [hx, List.filter_append]
  · rw [if_neg hx, h, pyInsert]
    simp [hx, List.filter_append]

/-- An insertion the model is told of: the items of the master are inserted, with something left over behind. -/
theorem inserted_spec (acc : α → Bool) (s : St α) (l g h : List α) (x : α) (k : ℕ) (hk : k ≤ l.length) (hm : s.master = l ++ g)
    (hi : s.items = l.filter acc ++ h) (hx : x ∉ l ++ g) :
    s.inserted acc x k = ({ s with master := pyInsert l k x ++ g, keys := insert x s.keys, items := (pyInsert l k x).filter acc ++ h }, false) := by
  rw [St.inserted, if_neg (by rw [hm]; exact hx)]
  have e1 : pyInsert s.master k x = pyInsert l k x ++ g := by
    rw [hm, pyInsert, pyInsert, List.take_append_of_le_length hk, List.drop_append_of_le_length hk]
    simp
  have e2 : place acc x (pyInsert s.master k x) = ((l.take k).filter acc).length := by
    rw [place_insert acc _ _ _ (by rw [hm]; exact hx), hm, List.take_append_of_le_length hk]
  have e3 : (if acc x then pyInsert s.items ((l.take k).filter acc).length x else s.items) = (pyInsert l k x).filter acc ++ h := by
    rw [← filter_insert, hi]
    by_cases hax : acc x
    · rw [if_pos hax, if_pos hax]
      have hle : ((l.take k).filter acc).length ≤ (l.filter acc).length := ((List.take_sublist k l).filter acc).length_le
      rw [pyInsert, pyInsert, List.take_append_of_le_length hle, List.drop_append_of_le_length hle]
      simp
    · rw [if_neg hax, if_neg hax]
  rw [e1] at e2
  simp only [e1, e2, e3]

theorem takeIn_spec (acc : α → Bool) (l : List α) : ∀ (p g h : List α) (s : St α), s.master = p ++ g → s.items = p.filter acc ++ h →
    (p ++ l).Nodup → (∀ x ∈ l, x ∉ g) →
    St.takeIn acc l p.length s = ({ s with master := p ++ l ++ g, keys := s.keys ∪ l.toFinset, items := (p ++ l).filter acc ++ h }, false) := by
  induction l with
  | nil =>
    intro p g h s hm hi _ _
    obtain ⟨src, c, li, m, ke, it, pr⟩ := s
    simp only at hm hi
    subst hm hi
    simp [St.takeIn]
  | cons x l ih =>
    intro p g h s hm hi hd hg
    have hx : x ∉ p ++ g := by
      simp only [List.mem_append, not_or]
      refine ⟨fun hp => ?_, hg x List.mem_cons_self⟩
      rw [List.nodup_append] at hd
      exact hd.2.2 x hp x List.mem_cons_self rfl
    rw [St.takeIn, inserted_spec acc s p g h x p.length (le_refl _) hm hi hx]
    have e : pyInsert p p.length x = p ++ [x] := by simp [pyInsert]
    simp only [e]
    have := ih (p ++ [x]) g h { s with master := p ++ [x] ++ g, keys := insert x s.keys, items := (p ++ [x]).filter acc ++ h } rfl rfl
      (by simpa using hd) (fun y hy => hg y (List.mem_cons_of_mem _ hy))
    rw [List.length_append, List.length_singleton] at this
    rw [this]
    have e3 : insert x s.keys ∪ l.toFinset = s.keys ∪ (x :: l).toFinset := by
      ext y; simp only [Finset.mem_union, Finset.mem_insert, List.toFinset_cons]; tauto
    simp [e3]

/-- Taking away: `l` (from the end) is what the container has, `m` the master items. -/
theorem takeAway_spec (l : List α) : ∀ (s : St α), l.length ≤ s.master.length → l.Nodup → (∀ x ∈ l, x ∈ s.keys) →
    St.takeAway l s = ({ s with master := s.master.take (s.master.length - l.length), keys := s.keys \ l.toFinset, items := l.foldl List.erase s.items }, false) := by
  induction l with
  | nil => intro s _ _ _; obtain ⟨src, c, li, m, ke, it, pr⟩ := s; simp [St.takeAway]
  | cons x l ih =>
    intro s hl hd hk
    have hne : s.master ≠ [] := by rintro h; simp [h] at hl
    have hpos : 0 < s.master.length := List.length_pos_iff.2 hne
    rw [St.takeAway, if_neg hne, St.removed, if_pos (by omega), if_pos (hk x List.mem_cons_self)]
    simp only
    simp only [List.nodup_cons] at hd
    simp only [List.length_cons] at hl
    have hlen : (s.master.eraseIdx (s.master.length - 1)).length = s.master.length - 1 := by rw [List.length_eraseIdx_of_lt (by omega)]
    rw [ih { s with master := s.master.eraseIdx (s.master.length - 1), keys := s.keys.erase x, items := s.items.erase x } (by simp only; omega) hd.2
      (fun y hy => Finset.mem_erase.2 ⟨fun e => hd.1 (e ▸ hy), hk y (List.mem_cons_of_mem _ hy)⟩)]
    simp only [hlen]
    have e1 : (s.master.eraseIdx (s.master.length - 1)).take (s.master.length - 1 - l.length) = s.master.take (s.master.length - (l.length + 1)) := by
      have : s.master.eraseIdx (s.master.length - 1) = s.master.take (s.master.length - 1) := by
        rw [List.eraseIdx_eq_take_drop_succ, Nat.sub_add_cancel hpos, List.drop_length, List.append_nil]
      rw [this, List.take_take]
      congr 1
      omega
    have e2 : (s.keys.erase x) \ l.toFinset = s.keys \ (x :: l).toFinset := by
      ext y; simp only [Finset.mem_sdiff, Finset.mem_erase, List.toFinset_cons, Finset.mem_insert, not_or]; tauto
    rw [e1, e2]
    rfl

theorem foldl_erase (l : List α) : ∀ s : List α, l.foldl List.erase s = s.diff l := by
  induction l with
  | nil => intro s; simp
  | cons x l ih => intro s; rw [List.foldl_cons, ih, List.diff_cons]

theorem mem_nodup_diff {l m : List α} (h : m.Nodup) {x : α} : x ∈ m.diff l ↔ x ∈ m ∧ x ∉ l := by
  rw [h.mem_sdiff_iff]

theorem attach_spec (acc : α → Bool) (s : St α) (new : Option ℕ) (hd : ∀ c, (s.src c).Nodup) (hm : s.master = []) (hk : s.keys = ∅) (hi : s.items = []) :
    ∃ s1, s.attach acc new = (s1, false) ∧ Good acc s1 ∧ s1.src = s.src ∧ s1.container = new ∧ s1.printed = s.printed := by
  cases new with
  | none => exact ⟨{ s with container := none }, rfl, ⟨hd, hm, by simp [St.source, hk], by simp [St.source, hi], by simp⟩, rfl, rfl, rfl⟩
  | some c =>
    have := takeIn_spec acc (s.src c) [] [] [] { s with container := some c, listening := true } (by simpa using hm) (by simpa using hi) (by simpa using hd c) (by simp)
    rw [List.length_nil] at this
    exact ⟨_, this, ⟨hd, by simp [St.source], by simp [St.source, hk], by simp [St.source], fun _ => rfl⟩, rfl, rfl, rfl⟩

/-- An assignment of the container when everything is as it should be. -/
theorem set_good (acc : α → Bool) (s : St α) (h : Good acc s) (new : Option ℕ) :
    ∃ s1, s.setContainer acc new = (s1, false) ∧ Good acc s1 ∧ s1.src = s.src ∧ s1.container = new ∧ s1.printed = s.printed := by
  obtain ⟨src, cont, li, m, ke, it, pr⟩ := s
  have hm := h.master
  have hk := h.keys
  have hi := h.right
  cases cont with
  | none => exact attach_spec acc _ new h.distinct hm hk hi
  | some c =>
    have hli : li = true := h.listening rfl
    subst hli
    simp only [St.source] at hm hk hi
    have e := takeAway_spec (src c).reverse (⟨src, some c, false, m, ke, it, pr⟩ : St α) (by simp [hm]) (List.nodup_reverse.2 (h.distinct c)) (by simp [hk])
    simp only [St.setContainer, if_true, e]
    refine attach_spec acc _ new h.distinct (by simp [hm]) (by simp [hk]) ?_
    simp only [foldl_erase, hi]
    rw [List.eq_nil_iff_forall_not_mem]
    intro x hx
    rw [mem_nodup_diff ((h.distinct c).filter _)] at hx
    exact hx.2 (by simpa using List.mem_of_mem_filter hx.1)

theorem apply_nodup (op : Op α) (l : List α) (hv : op.Valid l = true) (hl : l.Nodup) : (op.apply l).Nodup := by
  cases op with
  | ins k x =>
    simp only [Op.Valid, Bool.and_eq_true, decide_eq_true_eq] at hv
    simp only [Op.apply, pyInsert]
    rw [List.nodup_middle, List.take_append_drop]
    exact List.nodup_cons.2 ⟨hv.2, hl⟩
  | rem k x => exact (List.eraseIdx_sublist l k).nodup hl

theorem erase_valid {l : List α} {k : ℕ} {x : α} (hl : l.Nodup) (h : l[k]? = some x) : l.eraseIdx k = l.erase x := by
  obtain ⟨hk, rfl⟩ := List.getElem?_eq_some_iff.1 h
  rw [hl.erase_getElem]

/-- The model is told of a change of the container it follows. -/
theorem told_good (acc : α → Bool) (s : St α) (h : Good acc s) (c : ℕ) (hc : s.container = some c) (op : Op α) (hv : op.Valid (s.src c) = true) :
    ∃ s1, ({ s with src := Function.update s.src c (op.apply (s.src c)) } : St α).told acc op = (s1, false) ∧ Good acc s1 ∧
      s1.src = Function.update s.src c (op.apply (s.src c)) ∧ s1.container = some c ∧ s1.printed = s.printed := by
  have hs : s.source = s.src c := by simp [St.source, hc]
  have hm := h.master
  have hk := h.keys
  have hi := h.right
  have hl := h.listening (by simp [hc])
  rw [hs] at hm hk hi
  have hd : ∀ c', (Function.update s.src c (op.apply (s.src c)) c').Nodup := by
    intro c'
    by_cases e : c' = c
    · subst e; rw [Function.update_self]; exact apply_nodup op _ hv (h.distinct c')
    · rw [Function.update_of_ne e]; exact h.distinct c'
  cases op with
  | ins k x =>
    simp only [Op.Valid, Bool.and_eq_true, decide_eq_true_eq] at hv
    have := inserted_spec acc { s with src := Function.update s.src c ((Op.ins k x).apply (s.src c)) } (s.src c) [] [] x k hv.1 (by simpa using hm) (by simpa using hi)
      (by simpa using hv.2)
    refine ⟨_, this, ⟨hd, ?_, ?_, ?_, fun _ => hl⟩, rfl, hc, rfl⟩
    · simp [St.source, hc, Op.apply]
    · have : (pyInsert (s.src c) k x).toFinset = insert x (s.src c).toFinset := by
        ext y
        have : y ∈ s.src c ↔ y ∈ (s.src c).take k ∨ y ∈ (s.src c).drop k := by rw [← List.mem_append, List.take_append_drop]
        simp only [pyInsert, List.mem_toFinset, List.mem_append, List.mem_cons, Finset.mem_insert, this]
        tauto
      simp only [St.source, hc, Op.apply, Function.update_self, this, hk]
    · simp [St.source, hc, Op.apply]
  | rem k x =>
    simp only [Op.Valid, decide_eq_true_eq] at hv
    obtain ⟨hlt, hget⟩ := List.getElem?_eq_some_iff.1 hv
    have hmem : x ∈ s.src c := hget ▸ List.getElem_mem hlt
    have he := erase_valid (h.distinct c) hv
    refine ⟨{ s with src := Function.update s.src c ((Op.rem k x).apply (s.src c)), master := s.master.eraseIdx k, keys := s.keys.erase x, items := s.items.erase x }, ?_,
      ⟨hd, ?_, ?_, ?_, fun _ => hl⟩, rfl, hc, rfl⟩
    · simp only [St.told, St.removed]
      rw [if_pos (by rw [hm]; exact hlt), if_pos (by rw [hk]; simpa using hmem)]
    · simp [St.source, hc, Op.apply, hm]
    · simp only [St.source, hc, Op.apply, Function.update_self, hk, he]
      ext y
      simp [(h.distinct c).mem_erase_iff]
    · simp only [St.source, hc, Op.apply, Function.update_self, hi, he]
      rw [(h.distinct c).erase_eq_filter, ((h.distinct c).filter _).erase_eq_filter, List.filter_filter, List.filter_filter]
      simp only [Bool.and_comm]

theorem other_good (acc : α → Bool) (s : St α) (h : Good acc s) (c : ℕ) (hc : s.container ≠ some c) (op : Op α) (hv : op.Valid (s.src c) = true) :
    Good acc { s with src := Function.update s.src c (op.apply (s.src c)) } := by
  have hs : ({ s with src := Function.update s.src c (op.apply (s.src c)) } : St α).source = s.source := by
    rw [St.source, St.source]
    cases h' : s.container with
    | none => rfl
    | some c' =>
      simp only
      rw [Function.update_of_ne]
      rintro rfl
      exact hc h'
  refine ⟨fun c' => ?_, by rw [hs]; exact h.master, by rw [hs]; exact h.keys, by rw [hs]; exact h.right, h.listening⟩
  by_cases e : c' = c
  · subst e; simp only [Function.update_self]; exact apply_nodup op _ hv (h.distinct c')
  · simp only [Function.update_of_ne e]; exact h.distinct c'

theorem listener_good (acc : α → Bool) (s : St α) (h : Good acc s) (new : Option (Option ℕ)) :
    ∃ s1, s.listener acc new = (s1, false) ∧ Good acc s1 ∧ s1.src = s.src ∧ s1.container = new.getD s.container ∧ s1.printed = s.printed := by
  cases new with
  | none => exact ⟨s, rfl, h, rfl, rfl, rfl⟩
  | some new =>
    obtain ⟨s1, e, h1⟩ := set_good acc s h new
    exact ⟨s1, by simp [St.listener, St.print, e], h1⟩

/-- The container after a polite action. -/
def lastSet (s : St α) : Act α → Option ℕ
  | .set new => new
  | .change c op early late => if op.Valid (s.src c) then late.getD (early.getD s.container) else s.container

theorem step_good (acc : α → Bool) (s : St α) (h : Good acc s) (a : Act α) (hp : a.Polite s) :
    Good acc (s.step acc a) ∧ (s.step acc a).printed = s.printed ∧ (s.step acc a).container = lastSet s a := by
  cases a with
  | set new =>
    obtain ⟨s1, e, h1, _, h3, h4⟩ := set_good acc s h new
    simp only [St.step, e]
    exact ⟨h1, h4, h3⟩
  | change c op early late =>
    by_cases hv : op.Valid (s.src c) = true
    · simp only [St.step, if_pos hv, St.fire, lastSet]
      by_cases hc : s.container = some c
      · have he : early = none := by rcases hp with hp | hp; exacts [hp, absurd hc hp]
        subst he
        obtain ⟨s1, e1, h1, _, hc1, hpr⟩ := told_good acc s h c hc op hv
        have hl := h.listening (by simp [hc])
        obtain ⟨s2, e2, h2, _, hc2, hpr2⟩ := listener_good acc s1 h1 late
        have hb : (decide (s.container = some c) && s.listening) = true := by simp [hc, hl]
        have he1 : St.listener acc { s with src := Function.update s.src c (op.apply (s.src c)) } none = (_, false) := rfl
        rw [hb]
        simp only [he1, Option.isNone_none, Bool.and_true, if_true, e1, St.print, Bool.false_eq_true, if_false, Option.getD_none, e2]
        exact ⟨h2, hpr2.trans hpr, by rw [hc2, hc1, hc]⟩
      · obtain ⟨s1, e1, h1, _, hc1, hpr1⟩ := listener_good acc _ (other_good acc s h c hc op hv) early
        obtain ⟨s2, e2, h2, _, hc2, hpr2⟩ := listener_good acc s1 h1 late
        have hb : (decide (s.container = some c) && s.listening) = false := by simp [hc]
        rw [hb]
        simp only [e1, Bool.false_and, Bool.false_eq_true, if_false, e2]
        exact ⟨h2, hpr2.trans hpr1, by rw [hc2, hc1]⟩
    · simp only [St.step, if_neg hv, lastSet]; exact ⟨h, trivial, trivial⟩

theorem init_good (acc : α → Bool) (src : ℕ → List α) (hd : ∀ c, (src c).Nodup) : Good acc (St.init src) :=
  ⟨hd, rfl, rfl, rfl, by simp [St.init]⟩

theorem run_good (acc : α → Bool) (as : List (Act α)) : ∀ s : St α, Good acc s → AllPolite acc s as → Good acc (s.run acc as) ∧ (s.run acc as).printed = s.printed := by
  induction as with
  | nil => exact fun s h _ => ⟨h, rfl⟩
  | cons a as ih =>
    intro s h hp
    obtain ⟨h1, h2, _⟩ := step_good acc s h a hp.1
    obtain ⟨h3, h4⟩ := ih _ h1 hp.2
    exact ⟨h3, h4.trans h2⟩

/-- C170, partial: what is missing is assignments by listeners told before the model, during a change of the container it follows. Without,
the items are the accepted ones of the container after any history, no exception is raised, and the container is the one
assigned last. -/
theorem C170_polite_partial (acc : α → Bool) (src : ℕ → List α) (hd : ∀ c, (src c).Nodup) (as : List (Act α)) (hp : AllPolite acc (St.init src) as) :
    ((St.init src).run acc as).Right acc ∧ ((St.init src).run acc as).printed = 0 ∧
    ∀ a, a.Polite ((St.init src).run acc as) → (((St.init src).run acc as).step acc a).container = lastSet ((St.init src).run acc as) a := by
  obtain ⟨h1, h2⟩ := run_good acc as _ (init_good acc src hd) hp
  exact ⟨h1.right, h2, fun a ha => (step_good acc _ h1 a ha).2.2⟩

theorem diff_filter (m l : List α) (h : m.Nodup) : m.diff l = m.filter fun y => y ∉ l := h.sdiff_eq_filter

theorem takeIn_stop (acc : α → Bool) (f : α) (h : List α) (l : List α) : ∀ (p : List α) (s : St α), s.master = p ++ [f] → s.items = p.filter acc ++ h →
    (p ++ l).Nodup →
    ∃ s1, St.takeIn acc l p.length s = (s1, decide (f ∈ l)) ∧ s1.items = (p ++ l.takeWhile fun y => y ≠ f).filter acc ++ h ∧
      s1.container = s.container ∧ s1.printed = s.printed ∧ s1.src = s.src := by
  induction l with
  | nil => intro p s hm hi _; exact ⟨s, by simp [St.takeIn], by simpa using hi, rfl, rfl, rfl⟩
  | cons x l ih =>
    intro p s hm hi hd
    by_cases hx : x = f
    · subst hx
      exact ⟨s, by simp [St.takeIn, St.inserted, hm], by simpa using hi, rfl, rfl, rfl⟩
    · have hxp : x ∉ p ++ [f] := by
        simp only [List.mem_append, List.mem_singleton, not_or]
        refine ⟨fun hp => ?_, hx⟩
        rw [List.nodup_append] at hd
        exact hd.2.2 x hp x List.mem_cons_self rfl
      have e : pyInsert p p.length x = p ++ [x] := by simp [pyInsert]
      obtain ⟨s1, e1, h1, h2, h3, h4⟩ := ih (p ++ [x]) { s with master := p ++ [x] ++ [f], keys := insert x s.keys, items := (p ++ [x]).filter acc ++ h } rfl rfl
        (by simpa using hd)
      rw [List.length_append, List.length_singleton] at e1
      refine ⟨s1, ?_, ?_, h2, h3, h4⟩
      · rw [St.takeIn, inserted_spec acc s p [f] h x p.length (le_refl _) hm hi hxp]
        simp only [e, e1]
        congr 1
        simp [Ne.symm hx]
      · rw [h1]; simp [hx]

/-- C170, a listener told before the model of a removal assigns the container (everything being as it should): exactly what the items are
then. `f` is the first item there was, `L` what the new container has; the item removed stays, and the items of the new
container are missing from `f` on, if it is there. -/
theorem C170_removed (acc : α → Bool) (s : St α) (h : Good acc s) (c k : ℕ) (x : α) (hc : s.container = some c) (hx : (s.src c)[k]? = some x)
    (new : Option ℕ) (f : α) (hf : (s.src c).head? = some f) :
    ∃ s1 L, s1 = s.step acc (.change c (.rem k x) (some new) none) ∧ L = s1.source ∧ s1.container = new ∧
      s1.items = (L.takeWhile fun y => y ≠ f).filter acc ++ [x].filter acc ∧ s1.printed = s.printed + if f ∈ L then 1 else 0 := by
  have hs : s.source = s.src c := by simp [St.source, hc]
  have hd := h.distinct
  have hm := h.master
  have hk := h.keys
  have hi := h.right
  have hl := h.listening (by simp [hc])
  rw [hs] at hm hk hi
  have he := erase_valid (hd c) hx
  obtain ⟨hlt, hget⟩ := List.getElem?_eq_some_iff.1 hx
  have hmem : x ∈ s.src c := hget ▸ List.getElem_mem hlt
  have hd' : ∀ d, (Function.update s.src c ((s.src c).eraseIdx k) d).Nodup := by
    intro d
    by_cases e : d = c
    · subst e; rw [Function.update_self]; exact (List.eraseIdx_sublist _ k).nodup (hd d)
    · rw [Function.update_of_ne e]; exact hd d
  obtain ⟨src, cont, li, m, ke, it, pr⟩ := s
  simp only at hc hl hm hk hi hx he hlt hmem hf hd' hd
  subst hc hl hm hk hi
  have e := takeAway_spec ((src c).eraseIdx k).reverse
    (⟨Function.update src c ((src c).eraseIdx k), some c, false, src c, (src c).toFinset, (src c).filter acc, pr⟩ : St α)
    (by simp only [List.length_reverse]; exact (List.eraseIdx_sublist _ k).length_le) (List.nodup_reverse.2 ((List.eraseIdx_sublist _ k).nodup (hd c)))
    (by
      intro y hy
      rw [List.mem_reverse] at hy
      simpa using (List.eraseIdx_sublist _ k).subset hy)
  have e1 : (src c).take ((src c).length - ((src c).eraseIdx k).reverse.length) = [f] := by
    rw [List.length_reverse, List.length_eraseIdx_of_lt hlt, Nat.sub_sub_self (by omega)]
    cases hsc : src c with
    | nil => simp [hsc] at hf
    | cons y l => simp only [hsc, List.head?_cons, Option.some.injEq] at hf; simp [hf]
  have e2 : ((src c).eraseIdx k).reverse.foldl List.erase ((src c).filter acc) = [x].filter acc := by
    rw [foldl_erase, diff_filter _ _ ((hd c).filter _), List.filter_filter]
    have : ∀ y ∈ src c, ((decide (y ∉ ((src c).eraseIdx k).reverse) && acc y) = true ↔ (decide (y = x) && acc x) = true) := by
      intro y hy
      simp only [List.mem_reverse, he, (hd c).mem_erase_iff]
      by_cases hyx : y = x
      · subst hyx; simp
      · simp [hyx, hy]
    rw [List.filter_congr fun y hy => Bool.eq_iff_iff.2 (this y hy)]
    cases hax : acc x with
    | false => simp [hax]
    | true =>
      simp only [Bool.and_true, List.filter_cons, hax, if_true, List.filter_nil]
      refine List.perm_singleton.1 ((List.perm_ext_iff_of_nodup ((hd c).filter _) (List.nodup_singleton x)).2 fun y => ?_)
      simp only [List.mem_filter, decide_eq_true_eq, List.mem_singleton]
      exact ⟨fun h => h.2, fun h => ⟨h ▸ hmem, h⟩⟩
  simp only [e1, e2] at e
  refine ⟨_, _, rfl, rfl, ?_⟩
  have hv : (Op.rem k x).Valid (src c) = true := by simpa [Op.Valid] using hx
  simp only [St.step, hv, if_true, St.fire, St.listener, St.setContainer, Op.apply, Function.update_self, e]
  cases new with
  | none => simp [St.attach, St.print, St.source]
  | some d =>
    obtain ⟨s1, g1, g2, g3, g4, g5⟩ := takeIn_stop acc f ([x].filter acc) (Function.update src c ((src c).eraseIdx k) d) []
      ⟨Function.update src c ((src c).eraseIdx k), some d, true, [f], (src c).toFinset \ ((src c).eraseIdx k).reverse.toFinset, [x].filter acc, pr⟩ rfl rfl
      (by simpa using hd' d)
    rw [List.length_nil] at g1
    simp only [List.nil_append] at g2
    simp only [St.attach, g1]
    by_cases hfl : f ∈ Function.update src c ((src c).eraseIdx k) d
    · simp only [hfl, decide_true, St.print, if_true]
      simp only [St.source, g3, g5, g4, hfl, if_true, g2]
      exact ⟨trivial, trivial, trivial⟩
    · simp only [hfl, decide_false, St.print, Bool.false_eq_true, if_false, Option.isNone_some, Bool.and_false]
      simp only [St.source, g3, g5, g4, hfl, if_false, g2]
      exact ⟨trivial, trivial, rfl⟩

theorem takeAway_append (l₁ l₂ : List α) : ∀ s : St α, St.takeAway (l₁ ++ l₂) s =
    match St.takeAway l₁ s with | (s1, true) => (s1, true) | (s1, false) => St.takeAway l₂ s1 := by
  induction l₁ with
  | nil => intro s; rfl
  | cons x l₁ ih =>
    intro s
    rw [List.cons_append, St.takeAway, St.takeAway]
    split
    · rfl
    · split
      · rfl
      · exact ih _

/-- C170, a listener told before the model of an insertion assigns the container (everything being as it should): the assignment raises,
whatever the new container is; the old one stays, no longer heard, and the items from the index of the insertion on are gone. -/
theorem C170_inserted (acc : α → Bool) (s : St α) (h : Good acc s) (c k : ℕ) (x : α) (hc : s.container = some c) (hk : k ≤ (s.src c).length) (hx : x ∉ s.src c)
    (new : Option ℕ) (late : Option (Option ℕ)) :
    ∃ s1, s1 = s.step acc (.change c (.ins k x) (some new) late) ∧ s1.container = some c ∧ s1.listening = false ∧
      s1.items = ((s.src c).take k).filter acc ∧ s1.printed = s.printed + 1 ∧ s1.source = pyInsert (s.src c) k x := by
  have hs : s.source = s.src c := by simp [St.source, hc]
  have hd := h.distinct
  have hm := h.master
  have hke := h.keys
  have hi := h.right
  have hl := h.listening (by simp [hc])
  rw [hs] at hm hke hi
  obtain ⟨src, cont, li, m, ke, it, pr⟩ := s
  simp only at hc hl hm hk hi hx hke hd
  subst hc hl hm hke hi
  refine ⟨_, rfl, ?_⟩
  have hv : (Op.ins k x).Valid (src c) = true := by simp [Op.Valid, hk, hx]
  have hrev : (pyInsert (src c) k x).reverse = ((src c).drop k).reverse ++ x :: ((src c).take k).reverse := by simp [pyInsert]
  have e := takeAway_spec ((src c).drop k).reverse
    (⟨Function.update src c (pyInsert (src c) k x), some c, false, src c, (src c).toFinset, (src c).filter acc, pr⟩ : St α)
    (by simp) (List.nodup_reverse.2 ((List.drop_sublist k _).nodup (hd c))) (by
      intro y hy
      rw [List.mem_reverse] at hy
      simpa using List.mem_of_mem_drop hy)
  have e2 : ((src c).drop k).reverse.foldl List.erase ((src c).filter acc) = ((src c).take k).filter acc := by
    rw [foldl_erase, diff_filter _ _ ((hd c).filter _)]
    have hnd := hd c
    rw [← List.take_append_drop k (src c), List.nodup_append] at hnd
    have h1 : (((src c).take k).filter acc).filter (fun y => y ∉ ((src c).drop k).reverse) = ((src c).take k).filter acc :=
      List.filter_eq_self.2 fun y hy => by
        have := List.mem_of_mem_filter hy
        simp only [List.mem_reverse, decide_eq_true_eq]
        exact fun hy' => hnd.2.2 y this y hy' rfl
    have h2 : (((src c).drop k).filter acc).filter (fun y => y ∉ ((src c).drop k).reverse) = [] :=
      List.filter_eq_nil_iff.2 fun y hy => by
        have := List.mem_of_mem_filter hy
        simp [this]
    have h3 : (src c).filter acc = ((src c).take k).filter acc ++ ((src c).drop k).filter acc := by
      rw [← List.filter_append, List.take_append_drop]
    rw [h3, List.filter_append, h1, h2, List.append_nil]
  have e1 : (src c).take ((src c).length - ((src c).drop k).reverse.length) = (src c).take k := by
    rw [List.length_reverse, List.length_drop]; congr 1; omega
  simp only [e1, e2] at e
  have key : ∃ m2, St.takeAway (pyInsert (src c) k x).reverse
      (⟨Function.update src c (pyInsert (src c) k x), some c, false, src c, (src c).toFinset, (src c).filter acc, pr⟩ : St α) =
      (⟨Function.update src c (pyInsert (src c) k x), some c, false, m2, (src c).toFinset \ ((src c).drop k).reverse.toFinset, ((src c).take k).filter acc, pr⟩, true) := by
    rw [hrev, takeAway_append, e]
    simp only [St.takeAway]
    by_cases hnil : (src c).take k = []
    · rw [if_pos hnil]; exact ⟨_, rfl⟩
    · have hpos : 0 < ((src c).take k).length := List.length_pos_iff.2 hnil
      simp only [if_neg hnil, St.removed]
      rw [if_pos (by omega), if_neg (by simp [hx])]
      exact ⟨_, rfl⟩
  obtain ⟨m2, key⟩ := key
  simp only [St.step, hv, if_true, St.fire, St.listener, St.setContainer, Op.apply, Function.update_self, key, St.print]
  simp [St.source]

/-- C170: after that nothing helps: no assignment and no change of a container changes the items or the container. -/
theorem C170_stuck (acc : α → Bool) (s : St α) (c : ℕ) (hc : s.container = some c) (hl : s.listening = false) (as : List (Act α)) :
    (s.run acc as).container = some c ∧ (s.run acc as).items = s.items := by
  have hset : ∀ (s : St α) (new : Option ℕ), s.container = some c → s.listening = false → s.setContainer acc new = (s, true) := by
    intro s new hc hl
    simp [St.setContainer, hc, hl]
  suffices H : ∀ (as : List (Act α)) (s : St α), s.container = some c → s.listening = false → (s.run acc as).container = some c ∧ (s.run acc as).items = s.items from H as s hc hl
  intro as
  induction as with
  | nil => exact fun s hc _ => ⟨hc, rfl⟩
  | cons a as ih =>
    intro s hc hl
    have hstep : (s.step acc a).container = some c ∧ (s.step acc a).listening = false ∧ (s.step acc a).items = s.items := by
      have hlis : ∀ (t : St α) (new : Option (Option ℕ)), t.container = some c → t.listening = false →
          (t.listener acc new).1.container = some c ∧ (t.listener acc new).1.listening = false ∧ (t.listener acc new).1.items = t.items := by
        intro t new h1 h2
        cases new with
        | none => exact ⟨h1, h2, rfl⟩
        | some new => simp [St.listener, hset t new h1 h2, St.print, h1, h2]
      cases a with
      | set new => rw [St.step, hset s new hc hl]; exact ⟨hc, hl, rfl⟩
      | change c' op early late =>
        rw [St.step]
        split
        · simp only [St.fire, hl, Bool.and_false, Bool.false_and, Bool.false_eq_true, if_false]
          have h1 := hlis ⟨Function.update s.src c' (op.apply (s.src c')), s.container, false, s.master, s.keys, s.items, s.printed⟩ early hc rfl
          split
          · rename_i s1 heq
            rw [heq] at h1; exact h1
          · rename_i s1 heq
            rw [heq] at h1
            have h2 := hlis s1 late h1.1 h1.2.1
            exact ⟨h2.1, h2.2.1, h2.2.2.trans h1.2.2⟩
        · exact ⟨hc, hl, rfl⟩
    obtain ⟨h1, h2, h3⟩ := hstep
    obtain ⟨g1, g2⟩ := ih _ h1 h2
    exact ⟨g1, g2.trans h3⟩

/-- C170, exactly when the items are right after a polite history and one assignment by a listener told before the model: in an insertion
if neither the item nor one that follows is accepted; in a removal if what stays by mistake makes up for what is missing, in particular if the
item was not accepted and the first item there was is not in the new container. -/
theorem C170_iff_partial (acc : α → Bool) (src : ℕ → List α) (hd : ∀ c, (src c).Nodup) (as : List (Act α)) (hp : AllPolite acc (St.init src) as)
    (s : St α) (hs : s = (St.init src).run acc as) (c : ℕ) (hc : s.container = some c) (op : Op α) (hv : op.Valid (s.src c) = true) (new : Option ℕ) :
    (s.step acc (.change c op (some new) none)).Right acc ↔
      match op with
      | .ins k x => acc x = false ∧ ∀ y ∈ (s.src c).drop k, acc y = false
      | .rem _ x => ∀ f, (s.src c).head? = some f →
          [x].filter acc = ((s.step acc (.change c op (some new) none)).source.dropWhile fun y => y ≠ f).filter acc := by
  have h := (run_good acc as _ (init_good acc src hd) hp).1
  rw [← hs] at h
  cases op with
  | ins k x =>
    have hv' := hv
    simp only [Op.Valid, Bool.and_eq_true, decide_eq_true_eq] at hv'
    obtain ⟨s1, e1, _, _, h3, _, h5⟩ := C170_inserted acc s h c k x hc hv'.1 hv'.2 new none
    simp only
    rw [← e1, St.Right, h3, h5, pyInsert, List.filter_append, List.self_eq_append_right, List.filter_eq_nil_iff]
    simp only [List.mem_cons, forall_eq_or_imp, Bool.not_eq_true]
  | rem k x =>
    have hv' := hv
    simp only [Op.Valid, decide_eq_true_eq] at hv'
    obtain ⟨f, hf⟩ : ∃ f, (s.src c).head? = some f := by
      cases hsc : s.src c with
      | nil => simp [hsc] at hv'
      | cons y l => exact ⟨y, rfl⟩
    obtain ⟨s1, L, e1, e2, _, h4, _⟩ := C170_removed acc s h c k x hc hv' new f hf
    simp only [hf, Option.some.injEq, forall_eq']
    rw [← e1, St.Right, h4, ← e2]
    conv_lhs => rhs; rw [← List.takeWhile_append_dropWhile (p := fun y => decide (y ≠ f)) (l := L)]
    rw [List.filter_append, List.append_cancel_left_eq]

/-- C170 fails: the container is [1, 2, 3]; a listener told before the model of the removal of 2 makes [7, 8] the container: the model has
[7, 8, 2]. With [1, 7] as the new container the model has [2]. And if it is told of an insertion of 9 at 1, the model has
[1], and will have for ever. -/
theorem C170_counterexample :
    ∃ src : ℕ → List ℕ, src = (fun c => if c = 0 then [1, 2, 3] else if c = 1 then [7, 8] else [1, 7]) ∧
      ((St.init src).run (fun _ => true) [.set (some 0), .change 0 (.rem 1 2) (some (some 1)) none]).items = [7, 8, 2] ∧
      ((St.init src).run (fun _ => true) [.set (some 0), .change 0 (.rem 1 2) (some (some 2)) none]).items = [2] ∧
      ((St.init src).run (fun _ => true) [.set (some 0), .change 0 (.ins 1 9) (some (some 1)) none, .set (some 1), .set none]).items = [1] :=
  ⟨_, rfl, by decide, by decide, by decide⟩

/-- a history that is polite: the container replaced by a listener told after the model -/
example : ((St.init fun c => if c = 0 then [1, 2, 3] else [4, 6, 7]).run (fun n => n % 2 == 0)
    [.set (some 0), .change 0 (.ins 1 8) none none, .change 0 (.rem 2 2) none (some (some 1)), .change 1 (.ins 3 10) none none]).items = [4, 6, 10] := by decide

end Verif.ListModel.FilteredReplace
