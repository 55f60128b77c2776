import Verif.ListModel.Basic
import Verif.Selection.Props
import Mathlib.Tactic.SplitIfs

set_option linter.unusedSectionVars false
set_option linter.unusedSimpArgs false
set_option linter.unusedTactic false
set_option linter.unreachableTactic false

/-!
C181: observers that change the source of a mapped list model while they are told (`nion/utils/ListModel.py:768-790` and 35-42, with
`Event.fire`, `nion/utils/Event.py:103-114`). Observers of the mapped list model, and observers of the source that are told after it, may
insert into and remove from the source, in any way that depends on the whole state, and raise; an exception ends the innermost fire. The
mapped list model has one selection, whose indexes are moved after its observers were told. `none` is a recursion that does not end within
the fuel. Indexes count from the front (see C16 for others).
-/

namespace Verif.ListModel.MappedReentrant

open Verif.Selection

/-- Calls of the source. -/
inductive Call (α : Type) where
  | insert (i : ℕ) (v : α)
  | remove (i : ℕ)
deriving DecidableEq

/-- The items of the source, of the mapped list model, its selection, the memory of the observers. The other fields are not in the code: a
mark for each item of the source; whether the mapped list model is telling its observers, and whether a call was made meanwhile; what the
observers saw when they were called. -/
structure St (α β M : Type) where
  src : List α
  items : List β
  sel : Sel
  mem : M
  marks : List Bool
  telling : Bool
  nested : Bool
  seen : List (List α × List β)

variable {ι α β M : Type}

/-- The function, the order of sets, the observers of the mapped list model, the observers of the source after it, and what an observer that
is told of a call does: the memory, its calls, and whether it raises after them. -/
structure Users (ι α β M : Type) where
  f : α → β
  ord : SetOrder
  own : List ι
  post : List ι
  react : ι → Call α → St α β M → M × List (Call α) × Bool

abbrev Exec (α β M : Type) := Call α → St α β M → Option (St α β M × Bool)

/-- Calls one after the other, up to an exception. -/
def calls (ex : Exec α β M) : List (Call α) → St α β M → Option (St α β M × Bool)
  | [], s => some (s, false)
  | c :: cs, s => (ex c s).bind fun r => if r.2 then some r else calls ex cs r.1

/-- An observer is told of a call; the Boolean says whether it raised. -/
def tell (u : Users ι α β M) (ex : Exec α β M) (c : Call α) (i : ι) (s : St α β M) : Option (St α β M × Bool) :=
  (calls ex (u.react i c s).2.1 { s with mem := (u.react i c s).1, seen := s.seen ++ [(s.src, s.items)] }).map fun r =>
    (r.1, r.2 || (u.react i c s).2.2)

/-- `Event.fire`. -/
def fire (u : Users ι α β M) (ex : Exec α β M) (c : Call α) : List ι → St α β M → Option (St α β M)
  | [], s => some s
  | i :: is, s => (tell u ex c i s).bind fun r => if r.2 then some r.1 else fire u ex c is r.1

def pyInsert {γ : Type} (l : List γ) (i : ℕ) (v : γ) : List γ := l.take i ++ v :: l.drop i

/-- Lines 768-777 `__master_item_inserted`. -/
def inserted (u : Users ι α β M) (ex : Exec α β M) (i : ℕ) (v : α) (s : St α β M) : Option (St α β M × Bool) :=
  (fire u ex (.insert i v) u.own { s with items := pyInsert s.items i (u.f v), telling := true }).map fun t =>
    ({ t with sel := (insertIndex u.ord t.sel i).sel, telling := s.telling }, false)

/-- Lines 780-790 `__master_item_removed`. -/
def removed (u : Users ι α β M) (ex : Exec α β M) (i : ℕ) (s : St α β M) : Option (St α β M × Bool) :=
  if i < s.items.length then
    (fire u ex (.remove i) u.own { s with items := s.items.eraseIdx i, telling := true }).map fun t =>
      ({ t with sel := (removeIndex u.ord t.sel i).sel, telling := s.telling }, false)
  else some (s, true)

/-- The event of the source: the mapped list model and then the other observers. -/
def event (u : Users ι α β M) (ex : Exec α β M) (c : Call α) (r : St α β M × Bool) : Option (St α β M × Bool) :=
  if r.2 then some (r.1, false) else (fire u ex c u.post r.1).map fun t => (t, false)

/-- Lines 35-42, with the nested calls run by `ex`. -/
def body (u : Users ι α β M) (ex : Exec α β M) : Exec α β M
  | .insert i v, s =>
    (inserted u ex i v { s with src := pyInsert s.src i v, marks := pyInsert s.marks i false, nested := s.nested || s.telling }).bind
      (event u ex (.insert i v))
  | .remove i, s =>
    if i < s.src.length then
      (removed u ex i { s with src := s.src.eraseIdx i, marks := s.marks.eraseIdx i, nested := s.nested || s.telling }).bind
        (event u ex (.remove i))
    else some (s, true)

def exec (u : Users ι α β M) : ℕ → Exec α β M
  | 0, _, _ => none
  | n + 1, c, s => body u (exec u n) c s

/-- Calls from outside, whether they raise or not. -/
def run (ex : Exec α β M) : List (Call α) → St α β M → Option (St α β M)
  | [], s => some s
  | c :: cs, s => (ex c s).bind fun r => run ex cs r.1

/-! ### Specification -/

/-- The selection has the indexes of the marked items: the marks go with the items of the source. -/
def St.Right (s : St α β M) : Prop := ∀ k : ℕ, (k : ℤ) ∈ s.sel.indexes ↔ s.marks[k]? = some true

/-- Before anything happens: the mapped items, and the marks of the selected ones. -/
def start (f : α → β) (l : List α) (sel : Sel) (m : M) : St α β M :=
  ⟨l, l.map f, sel, m, (List.range l.length).map fun k : ℕ => decide ((k : ℤ) ∈ sel.indexes), false, false, []⟩

/-! ### Proof -/

/-- The marks as a function. -/
def at' (l : List Bool) (k : ℕ) : Bool := l[k]?.getD false

def ins (i : ℕ) (S : ℕ → Bool) (k : ℕ) : Bool := if k < i then S k else if k = i then false else S (k - 1)

def del (i : ℕ) (S : ℕ → Bool) (k : ℕ) : Bool := if k < i then S k else S (k + 1)

/-- The selection as a function. -/
def has (s : Sel) (k : ℕ) : Bool := decide ((k : ℤ) ∈ s.indexes)

theorem right_iff (s : St α β M) : s.Right ↔ has s.sel = at' s.marks := by
  constructor
  · intro h
    funext k
    have := h k
    unfold has at'
    cases hk : s.marks[k]? with
    | none => simpa [hk] using this
    | some b => cases b <;> simpa [hk] using this
  · intro h k
    have := congrFun h k
    unfold has at' at this
    cases hk : s.marks[k]? with
    | none => simpa [hk] using this
    | some b => cases b <;> simpa [hk] using this

theorem at_insert (l : List Bool) (i : ℕ) : at' (pyInsert l i false) = ins i (at' l) := by
  funext k
  unfold at' ins pyInsert
  by_cases hi : i ≤ l.length
  · rw [List.getElem?_append, List.length_take, Nat.min_eq_left hi]
    split
    · rename_i h1
      rw [List.getElem?_take_of_lt h1]
    · rename_i h1
      split
      · rename_i h2
        simp [h2]
      · rename_i h2
        obtain ⟨d, rfl⟩ : ∃ d, k = i + 1 + d := ⟨k - i - 1, by omega⟩
        rw [show i + 1 + d - i = d + 1 by omega, List.getElem?_cons_succ, List.getElem?_drop, show i + 1 + d - 1 = i + d by omega]
  · rw [List.take_of_length_le (by omega), List.drop_of_length_le (by omega)]
    rw [List.getElem?_append]
    split
    · rw [if_pos (by omega)]
    · have hk : (l[k]?).getD false = false := by rw [List.getElem?_eq_none (by omega)]; rfl
      have hk' : i < k → (l[k - 1]?).getD false = false := fun h => by rw [List.getElem?_eq_none (by omega)]; rfl
      have hz : ([false][k - l.length]?).getD false = false := by
        cases k - l.length <;> simp
      rw [hz]
      split
      · exact hk.symm
      · split
        · rfl
        · exact (hk' (by omega)).symm

theorem at_erase (l : List Bool) (i : ℕ) : at' (l.eraseIdx i) = del i (at' l) := by
  funext k
  unfold at' del
  rw [List.getElem?_eraseIdx]
  split <;> rfl

theorem has_insert (ord : SetOrder) (s : Sel) (i : ℕ) : has (insertIndex ord s i).sel = ins i (has s) := by
  funext k
  unfold has ins
  rw [insertIndex_indexes]
  simp only [Finset.mem_image, shiftUp]
  split
  · rename_i h
    refine decide_eq_decide.2 ⟨?_, fun hk => ⟨k, hk, by rw [if_pos (by omega)]⟩⟩
    rintro ⟨a, ha, hx⟩
    split at hx
    · exact hx ▸ ha
    · omega
  · split
    · rename_i h1 h2
      simp only [decide_eq_false_iff_not]
      rintro ⟨a, ha, hx⟩
      split at hx <;> omega
    · rename_i h1 h2
      refine decide_eq_decide.2 ⟨?_, fun hk => ⟨_, hk, by rw [if_neg (by omega)]; omega⟩⟩
      rintro ⟨a, ha, hx⟩
      split at hx
      · omega
      · rw [show ((k - 1 : ℕ) : ℤ) = a by omega]
        exact ha

theorem has_remove (ord : SetOrder) (s : Sel) (i : ℕ) : has (removeIndex ord s i).sel = del i (has s) := by
  funext k
  have key : (k : ℤ) ∈ (s.indexes.erase i).image (shiftDown i) ↔ if k < i then (k : ℤ) ∈ s.indexes else ((k + 1 : ℕ) : ℤ) ∈ s.indexes := by
    simp only [Finset.mem_image, shiftDown, Finset.mem_erase]
    split
    · rename_i h
      refine ⟨?_, fun hk => ⟨k, ⟨by omega, hk⟩, by rw [if_neg (by omega)]⟩⟩
      rintro ⟨a, ⟨hne, ha⟩, hx⟩
      split at hx
      · omega
      · exact hx ▸ ha
    · rename_i h
      refine ⟨?_, fun hk => ⟨_, ⟨by omega, hk⟩, by rw [if_pos (by omega)]; omega⟩⟩
      rintro ⟨a, ⟨hne, ha⟩, hx⟩
      split at hx
      · rw [show ((k + 1 : ℕ) : ℤ) = a by omega]
        exact ha
      · omega
  unfold has del
  rw [removeIndex_indexes]
  split at key <;> rename_i h <;> simp only [h, if_true, if_false] <;> exact decide_eq_decide.2 key

variable {u : Users ι α β M} {ex : Exec α β M} {s t : St α β M}

structure Inv (u : Users ι α β M) (s : St α β M) : Prop where
  items : s.items = s.src.map u.f
  marks : s.marks.length = s.src.length
  seen : ∀ p ∈ s.seen, p.2 = p.1.map u.f

/-- What running a call does. -/
structure Eff (u : Users ι α β M) (s t : St α β M) : Prop where
  inv : Inv u t
  telling : t.telling = s.telling
  nested : t.nested = false → s.nested = false
  still : s.telling = true → t.nested = false → t.marks = s.marks ∧ t.sel = s.sel
  right : s.telling = false → t.nested = false → s.Right → t.Right

def Ok (u : Users ι α β M) (ex : Exec α β M) : Prop := ∀ c s r, Inv u s → ex c s = some r → Eff u s r.1

theorem Eff.refl (h : Inv u s) : Eff u s s := ⟨h, rfl, id, fun _ _ => ⟨rfl, rfl⟩, fun _ _ h => h⟩

theorem Eff.trans {r : St α β M} (h1 : Eff u s t) (h2 : Eff u t r) : Eff u s r where
  inv := h2.inv
  telling := h2.telling.trans h1.telling
  nested := fun h => h1.nested (h2.nested h)
  still := fun ht hn => by
    obtain ⟨a, b⟩ := h2.still (h1.telling.trans ht) hn
    obtain ⟨c, d⟩ := h1.still ht (h2.nested hn)
    exact ⟨a.trans c, b.trans d⟩
  right := fun ht hn hr => h2.right (h1.telling.trans ht) hn (h1.right ht (h2.nested hn) hr)

theorem calls_eff (h : Ok u ex) (cs : List (Call α)) (s : St α β M) (r : St α β M × Bool) (hi : Inv u s) (he : calls ex cs s = some r) :
    Eff u s r.1 := by
  induction cs generalizing s with
  | nil =>
    simp only [calls, Option.some.injEq] at he
    subst he
    exact .refl hi
  | cons c cs ih =>
    simp only [calls, Option.bind_eq_some_iff] at he
    obtain ⟨q, h1, h2⟩ := he
    have e := h c s q hi h1
    split at h2
    · cases h2
      exact e
    · exact e.trans (ih _ e.inv h2)

theorem tell_eff (h : Ok u ex) (c : Call α) (i : ι) (s : St α β M) (r : St α β M × Bool) (hi : Inv u s) (he : tell u ex c i s = some r) :
    Eff u s r.1 := by
  simp only [tell, Option.map_eq_some_iff] at he
  obtain ⟨q, h1, rfl⟩ := he
  have hs : Inv u { s with mem := (u.react i c s).1, seen := s.seen ++ [(s.src, s.items)] } := by
    refine ⟨hi.1, hi.2, fun p hp => ?_⟩
    rcases List.mem_append.1 hp with hp | hp
    · exact hi.3 p hp
    · rw [List.mem_singleton.1 hp]
      exact hi.1
  have e := calls_eff h _ _ q hs h1
  exact ⟨e.inv, e.telling, e.nested, e.still, e.right⟩

theorem fire_eff (h : Ok u ex) (c : Call α) (is : List ι) (s t : St α β M) (hi : Inv u s) (he : fire u ex c is s = some t) : Eff u s t := by
  induction is generalizing s with
  | nil =>
    simp only [fire, Option.some.injEq] at he
    exact he ▸ .refl hi
  | cons i is ih =>
    simp only [fire, Option.bind_eq_some_iff] at he
    obtain ⟨q, h1, h2⟩ := he
    have e := tell_eff h c i s q hi h1
    split at h2
    · cases h2
      exact e
    · exact e.trans (ih _ e.inv h2)

theorem event_eff (h : Ok u ex) (c : Call α) (q r : St α β M × Bool) (hi : Inv u q.1) (he : event u ex c q = some r) : Eff u q.1 r.1 := by
  unfold event at he
  split at he
  · cases he
    exact .refl hi
  · simp only [Option.map_eq_some_iff] at he
    obtain ⟨t, h1, rfl⟩ := he
    exact fire_eff h c _ _ t hi h1

/-- An outer change with its selection moved afterwards. -/
theorem change_eff {s1 t : St α β M} (g : ℕ → (ℕ → Bool) → ℕ → Bool) (i : ℕ) (sel : Sel → Sel) (m : List Bool) (hm : at' m = g i (at' s.marks))
    (hs : ∀ x, has (sel x) = g i (has x)) (e : Eff u s1 t) (h1 : s1.telling = true) (h2 : s1.nested = (s.nested || s.telling))
    (h3 : s1.marks = m) (h4 : s1.sel = s.sel) : Eff u s { t with sel := sel t.sel, telling := s.telling } := by
  refine ⟨⟨e.inv.1, e.inv.2, e.inv.3⟩, rfl, fun hn => ?_, fun ht hn => ?_, fun ht hn hr => ?_⟩
  · have := e.nested hn
    rw [h2, Bool.or_eq_false_iff] at this
    exact this.1
  · have := e.nested hn
    rw [h2, ht] at this
    simp at this
  · obtain ⟨a, b⟩ := e.still h1 hn
    rw [right_iff] at hr ⊢
    show has (sel t.sel) = at' t.marks
    rw [hs, a, h3, hm, b, h4, hr]

theorem map_insert (f : α → β) (l : List α) (i : ℕ) (v : α) : (pyInsert l i v).map f = pyInsert (l.map f) i (f v) := by
  simp [pyInsert, List.map_take, List.map_drop]

theorem length_insert {γ : Type} (l : List γ) (i : ℕ) (v : γ) : (pyInsert l i v).length = l.length + 1 := by
  simp [pyInsert]
  omega

theorem body_ok (h : Ok u ex) : Ok u (body u ex) := by
  intro c s r hi he
  cases c with
  | insert i v =>
    simp only [body, Option.bind_eq_some_iff] at he
    obtain ⟨q, h1, h2⟩ := he
    have e1 : Eff u s q.1 := by
      simp only [inserted, Option.map_eq_some_iff] at h1
      obtain ⟨t, h1, rfl⟩ := h1
      refine change_eff ins i (fun x => (insertIndex u.ord x i).sel) _ (at_insert s.marks i) (fun x => has_insert u.ord x i)
        (fire_eff h _ _ _ t ?_ h1) rfl rfl rfl rfl
      exact ⟨by simp only [hi.1, map_insert], by simp only [length_insert, hi.2], hi.3⟩
    exact e1.trans (event_eff h _ q r e1.inv h2)
  | remove i =>
    simp only [body] at he
    split at he
    · rename_i hl
      simp only [Option.bind_eq_some_iff] at he
      obtain ⟨q, h1, h2⟩ := he
      have e1 : Eff u s q.1 := by
        simp only [removed] at h1
        rw [if_pos (by simp [hi.1, hl])] at h1
        simp only [Option.map_eq_some_iff] at h1
        obtain ⟨t, h1, rfl⟩ := h1
        refine change_eff del i (fun x => (removeIndex u.ord x i).sel) _ (at_erase s.marks i) (fun x => has_remove u.ord x i)
          (fire_eff h _ _ _ t ?_ h1) rfl rfl rfl rfl
        refine ⟨by simp only [hi.1, List.eraseIdx_map], ?_, hi.3⟩
        simp only [List.length_eraseIdx, hi.2]
      exact e1.trans (event_eff h _ q r e1.inv h2)
    · cases he
      exact .refl hi

theorem exec_ok : ∀ n, Ok u (exec u n)
  | 0 => fun c s r _ he => by simp [exec] at he
  | n + 1 => fun c s r hi he => body_ok (exec_ok n) c s r hi he

theorem run_eff (h : Ok u ex) (cs : List (Call α)) (s t : St α β M) (hi : Inv u s) (he : run ex cs s = some t) : Eff u s t := by
  induction cs generalizing s with
  | nil =>
    simp only [run, Option.some.injEq] at he
    exact he ▸ .refl hi
  | cons c cs ih =>
    simp only [run, Option.bind_eq_some_iff] at he
    obtain ⟨q, h1, h2⟩ := he
    have e := h c s q hi h1
    exact e.trans (ih _ e.inv h2)

theorem start_inv (u : Users ι α β M) (l : List α) (sel : Sel) (m : M) : Inv u (start u.f l sel m) :=
  ⟨rfl, by simp [start], fun p hp => by simp [start] at hp⟩

theorem start_right (f : α → β) (l : List α) (sel : Sel) (m : M) (h : ∀ x ∈ sel.indexes, x < l.length) : (start f l sel m : St α β M).Right := by
  intro k
  show _ ↔ ((List.range l.length).map fun k : ℕ => decide ((k : ℤ) ∈ sel.indexes))[k]? = some true
  rw [List.getElem?_map]
  by_cases hk : k < l.length
  · rw [List.getElem?_range hk]
    simp [start]
  · rw [List.getElem?_eq_none (by simpa using hk)]
    refine ⟨fun hm => ?_, fun hm => by cases hm⟩
    have := h k hm
    omega

/-- C181: whatever the observers of a mapped list model, and those of its source after it, do to the source while they are told, the mapped
list model has the mapped items of its source, whenever an observer is told and when the calls have returned. -/
theorem C181_items (u : Users ι α β M) (n : ℕ) (l : List α) (sel : Sel) (m : M) (cs : List (Call α)) (s : St α β M)
    (h : run (exec u n) cs (start u.f l sel m) = some s) : s.items = s.src.map u.f ∧ ∀ p ∈ s.seen, p.2 = p.1.map u.f :=
  have e := run_eff (exec_ok n) cs _ s (start_inv u l sel m) h
  ⟨e.inv.1, e.inv.3⟩

/-- C181 (partial: no call is made while observers of the mapped list model are told): the selection has the same items selected, whatever
the observers of the source do. -/
theorem C181_selection_partial (u : Users ι α β M) (n : ℕ) (l : List α) (sel : Sel) (hl : ∀ x ∈ sel.indexes, x < l.length) (m : M)
    (cs : List (Call α)) (s : St α β M) (h : run (exec u n) cs (start u.f l sel m) = some s) (hn : s.nested = false) :
    s.marks.length = s.items.length ∧ s.Right := by
  have e := run_eff (exec_ok n) cs _ s (start_inv u l sel m) h
  exact ⟨by rw [e.inv.2, e.inv.1, List.length_map], e.right rfl hn (start_right u.f l sel m hl)⟩

/-! ### Observers that only read -/

/-- The observers of the mapped list model call nothing. -/
def Users.Reads (u : Users ι α β M) : Prop := ∀ i ∈ u.own, ∀ c s, (u.react i c s).2.1 = []

structure Calm (s t : St α β M) : Prop where
  telling : t.telling = s.telling
  nested : t.nested = s.nested

def Quiet (ex : Exec α β M) : Prop := ∀ c s r, s.telling = false → ex c s = some r → Calm s r.1

theorem Calm.trans {r : St α β M} (h1 : Calm s t) (h2 : Calm t r) : Calm s r :=
  ⟨h2.1.trans h1.1, h2.2.trans h1.2⟩

theorem calls_calm (h : Quiet ex) (cs : List (Call α)) (s : St α β M) (r : St α β M × Bool) (ht : s.telling = false)
    (he : calls ex cs s = some r) : Calm s r.1 := by
  induction cs generalizing s with
  | nil =>
    simp only [calls, Option.some.injEq] at he
    subst he
    exact ⟨rfl, rfl⟩
  | cons c cs ih =>
    simp only [calls, Option.bind_eq_some_iff] at he
    obtain ⟨q, h1, h2⟩ := he
    have e := h c s q ht h1
    split at h2
    · cases h2
      exact e
    · exact e.trans (ih _ (e.telling.trans ht) h2)

theorem fire_calm (h : Quiet ex) (c : Call α) (is : List ι) (s t : St α β M) (ht : s.telling = false) (he : fire u ex c is s = some t) :
    Calm s t := by
  induction is generalizing s with
  | nil =>
    simp only [fire, Option.some.injEq] at he
    exact he ▸ ⟨rfl, rfl⟩
  | cons i is ih =>
    simp only [fire, tell, Option.bind_eq_some_iff, Option.map_eq_some_iff] at he
    obtain ⟨q, ⟨q', h1, rfl⟩, h2⟩ := he
    have e := calls_calm h _ _ q' (by exact ht) h1
    split at h2
    · cases h2
      exact ⟨e.telling, e.nested⟩
    · exact Calm.trans (t := q'.1) ⟨e.telling, e.nested⟩ (ih _ (e.telling.trans ht) h2)

theorem fire_reads (c : Call α) (is : List ι) (hr : ∀ i ∈ is, ∀ c s, (u.react i c s).2.1 = []) (s t : St α β M)
    (he : fire u ex c is s = some t) : Calm s t := by
  induction is generalizing s with
  | nil =>
    simp only [fire, Option.some.injEq] at he
    exact he ▸ ⟨rfl, rfl⟩
  | cons i is ih =>
    simp only [fire, tell, hr i (by simp), calls, Option.map_some, Option.bind_some] at he
    split at he
    · cases he
      exact ⟨rfl, rfl⟩
    · have e := ih (fun j hj => hr j (by simp [hj])) _ he
      exact ⟨e.telling, e.nested⟩

theorem event_calm (h : Quiet ex) (c : Call α) (q r : St α β M × Bool) (ht : q.1.telling = false) (he : event u ex c q = some r) : Calm q.1 r.1 := by
  unfold event at he
  split at he
  · cases he
    exact ⟨rfl, rfl⟩
  · simp only [Option.map_eq_some_iff] at he
    obtain ⟨t, h1, rfl⟩ := he
    exact fire_calm h c _ _ t ht h1

theorem exec_quiet (hr : u.Reads) : ∀ n, Quiet (exec u n)
  | 0 => fun c s r _ he => by simp [exec] at he
  | n + 1 => fun c s r ht he => by
    have h := exec_quiet hr n
    cases c with
    | insert i v =>
      simp only [exec, body, inserted, Option.bind_eq_some_iff, Option.map_eq_some_iff] at he
      obtain ⟨q, ⟨t, h1, rfl⟩, h2⟩ := he
      have e1 := fire_reads _ _ hr _ t h1
      have e2 := event_calm h _ _ r (by exact ht) h2
      exact ⟨e2.1, e2.2.trans (e1.2.trans (by simp [ht]))⟩
    | remove i =>
      simp only [exec, body] at he
      split at he
      · simp only [removed, Option.bind_eq_some_iff] at he
        obtain ⟨q, h1, h2⟩ := he
        split at h1
        · simp only [Option.map_eq_some_iff] at h1
          obtain ⟨t, h1, rfl⟩ := h1
          have e1 := fire_reads _ _ hr _ t h1
          have e2 := event_calm h _ _ r (by exact ht) h2
          exact ⟨e2.1, e2.2.trans (e1.2.trans (by simp [ht]))⟩
        · cases h1
          cases h2
          exact ⟨rfl, by simp [ht]⟩
      · cases he
        exact ⟨rfl, rfl⟩

/-- C181 (partial: the observers of the mapped list model call nothing): the selection has the same items selected, whatever the observers
of the source after the mapped list model do. -/
theorem C181_reads_partial (u : Users ι α β M) (hr : u.Reads) (n : ℕ) (l : List α) (sel : Sel) (hl : ∀ x ∈ sel.indexes, x < l.length) (m : M)
    (cs : List (Call α)) (s : St α β M) (h : run (exec u n) cs (start u.f l sel m) = some s) : s.marks.length = s.items.length ∧ s.Right := by
  refine C181_selection_partial u n l sel hl m cs s h ?_
  have key : ∀ (cs : List (Call α)) (s0 : St α β M), s0.telling = false → run (exec u n) cs s0 = some s → s.nested = s0.nested := by
    intro cs
    induction cs with
    | nil =>
      intro s0 _ he
      simp only [run, Option.some.injEq] at he
      rw [he]
    | cons c cs ih =>
      intro s0 ht he
      simp only [run, Option.bind_eq_some_iff] at he
      obtain ⟨q, h1, h2⟩ := he
      have e := exec_quiet hr n c s0 q ht h1
      exact (ih _ (e.1.trans ht) h2).trans e.2
  exact key cs _ rfl h

/-! ### One call within another -/

/-- An observer that makes one call when it is told for the first time. -/
def once (f : α → β) (ord : SetOrder) (c : Call α) : Users Unit α β Bool :=
  ⟨f, ord, [()], [], fun _ _ s => if s.mem then (true, [], false) else (true, [c], false)⟩

/-- When the selection is right after an outer call (of the first index) and an inner one (of the second): which items must not be selected,
or both or none of which neighbours, before. -/
def Fits (S : ℕ → Bool) : Call α → Call α → Prop
  | .insert i _, .insert j _ => i = j ∨ (i < j ∧ S (j - 1) = false) ∨ (j < i ∧ S (i - 1) = false)
  | .insert i _, .remove j => (j ≤ i ∧ S i = false) ∨ (i < j ∧ S (j - 1) = S j)
  | .remove i, .insert j _ => (j < i ∧ S (i - 1) = S i) ∨ (i ≤ j ∧ S j = false)
  | .remove i, .remove j => i = j ∨ (j < i ∧ S i = S (i + 1)) ∨ (i < j ∧ S j = S (j + 1))

def shift : Call α → (ℕ → Bool) → ℕ → Bool
  | .insert i _ => ins i
  | .remove i => del i

theorem ins_ins (S : ℕ → Bool) (i j : ℕ) :
    ins i (ins j S) = ins j (ins i S) ↔ i = j ∨ (i < j ∧ S (j - 1) = false) ∨ (j < i ∧ S (i - 1) = false) := by
  constructor
  · intro h
    rcases Nat.lt_trichotomy i j with hij | hij | hij
    · have := congrFun h j
      simp only [ins, del, Nat.add_sub_cancel] at this
      split_ifs at this <;> first | omega | exact .inr (.inl ⟨hij, (congrArg S (by omega)).trans ((this).trans (by first | rfl | exact congrArg S (by omega)))⟩)
    · exact .inl hij
    · have := congrFun h i
      simp only [ins, del, Nat.add_sub_cancel] at this
      split_ifs at this <;> first | omega | exact .inr (.inr ⟨hij, (congrArg S (by omega)).trans ((this.symm).trans (by first | rfl | exact congrArg S (by omega)))⟩)
  · intro h
    funext k
    rcases h with rfl | ⟨hij, h⟩ | ⟨hij, h⟩
    · rfl
    all_goals
      simp only [ins]
      split_ifs <;> first
        | rfl
        | omega
        | exact congrArg S (by omega)
        | exact (congrArg S (by omega)).trans h
        | exact ((congrArg S (by omega)).trans h).symm

theorem ins_del (S : ℕ → Bool) (i j : ℕ) :
    ins i (del j S) = del j (ins i S) ↔ (j ≤ i ∧ S i = false) ∨ (i < j ∧ S (j - 1) = S j) := by
  constructor
  · intro h
    rcases Nat.lt_or_ge i j with hij | hij
    · have := congrFun h j
      simp only [ins, del, Nat.add_sub_cancel] at this
      split_ifs at this <;> first | omega | exact .inr ⟨hij, (congrArg S (by omega)).trans ((this).trans (by first | rfl | exact congrArg S (by omega)))⟩
    · have := congrFun h i
      simp only [ins, del, Nat.add_sub_cancel] at this
      split_ifs at this <;> first | omega | exact .inl ⟨hij, (congrArg S (by omega)).trans ((this.symm).trans (by first | rfl | exact congrArg S (by omega)))⟩
  · intro h
    funext k
    rcases h with ⟨hij, h⟩ | ⟨hij, h⟩
    all_goals
      simp only [ins, del]
      split_ifs <;> first
        | rfl
        | omega
        | exact congrArg S (by omega)
        | exact (congrArg S (by omega)).trans h
        | exact ((congrArg S (by omega)).trans h).symm
        | exact ((congrArg S (by omega)).trans h).trans (congrArg S (by omega))
        | exact (((congrArg S (by omega)).trans h).trans (congrArg S (by omega))).symm

theorem del_ins (S : ℕ → Bool) (i j : ℕ) :
    del i (ins j S) = ins j (del i S) ↔ (j < i ∧ S (i - 1) = S i) ∨ (i ≤ j ∧ S j = false) := by
  rw [eq_comm, ins_del]
  exact or_comm

theorem del_del (S : ℕ → Bool) (i j : ℕ) :
    del i (del j S) = del j (del i S) ↔ i = j ∨ (j < i ∧ S i = S (i + 1)) ∨ (i < j ∧ S j = S (j + 1)) := by
  constructor
  · intro h
    rcases Nat.lt_trichotomy i j with hij | hij | hij
    · have := congrFun h (j - 1)
      simp only [ins, del, Nat.add_sub_cancel] at this
      split_ifs at this <;> first | omega | exact .inr (.inr ⟨hij, (congrArg S (by omega)).trans ((this.symm).trans (by first | rfl | exact congrArg S (by omega)))⟩)
    · exact .inl hij
    · have := congrFun h (i - 1)
      simp only [ins, del, Nat.add_sub_cancel] at this
      split_ifs at this <;> first | omega | exact .inr (.inl ⟨hij, (congrArg S (by omega)).trans ((this).trans (by first | rfl | exact congrArg S (by omega)))⟩)
  · intro h
    funext k
    rcases h with rfl | ⟨hij, h⟩ | ⟨hij, h⟩
    · rfl
    all_goals
      simp only [del]
      split_ifs <;> first
        | rfl
        | omega
        | exact congrArg S (by omega)
        | exact ((congrArg S (by omega)).trans h).trans (congrArg S (by omega))
        | exact (((congrArg S (by omega)).trans h).trans (congrArg S (by omega))).symm

theorem fits_iff (S : ℕ → Bool) (c d : Call α) : shift c (shift d S) = shift d (shift c S) ↔ Fits S c d := by
  cases c <;> cases d
  · exact ins_ins S _ _
  · exact ins_del S _ _
  · exact del_ins S _ _
  · exact del_del S _ _

/-- The source has the index of a call. -/
def Call.Valid : Call α → List α → Prop
  | .insert _ _, _ => True
  | .remove i, l => i < l.length

def Call.apply : Call α → List α → List α
  | .insert i v, l => pyInsert l i v
  | .remove i, l => l.eraseIdx i

theorem inner (f : α → β) (ord : SetOrder) (d c : Call α) (n : ℕ) (s : St α β Bool) (hi : Inv (once f ord d) s) (hv : c.Valid s.src)
    (hm : s.mem = true) : ∃ t, exec (once f ord d) (n + 1) c s = some (t, false) ∧ t.mem = true ∧ has t.sel = shift c (has s.sel) ∧
      at' t.marks = shift c (at' s.marks) := by
  cases c with
  | insert i v =>
    refine ⟨_, by
      simp only [exec, body, inserted, once, fire, tell, hm, if_true, calls, Option.map_some, Option.bind_some, event, Bool.or_false, Bool.false_eq_true, if_false]
      rfl, ?_, ?_, ?_⟩
    · rfl
    · exact has_insert ord s.sel i
    · exact at_insert s.marks i
  | remove i =>
    have hl : i < s.items.length := by simpa [hi.items] using (show i < s.src.length from hv)
    refine ⟨_, by
      simp only [exec, body, if_pos (show i < s.src.length from hv), removed, if_pos hl, once, fire, tell, hm, if_true, calls, Option.map_some, Option.bind_some, event, Bool.or_false, Bool.false_eq_true, if_false]
      rfl, ?_, ?_, ?_⟩
    · rfl
    · exact has_remove ord s.sel i
    · exact at_erase s.marks i

theorem inner_calls (f : α → β) (ord : SetOrder) (d : Call α) (n : ℕ) (s : St α β Bool) (hi : Inv (once f ord d) s) (hv : d.Valid s.src)
    (hm : s.mem = true) : ∃ t, calls (exec (once f ord d) (n + 1)) [d] s = some (t, false) ∧ has t.sel = shift d (has s.sel) ∧
      at' t.marks = shift d (at' s.marks) := by
  obtain ⟨t, h1, -, h2, h3⟩ := inner f ord d d n s hi hv hm
  exact ⟨t, by simp [calls, h1], h2, h3⟩

theorem fire_once (f : α → β) (ord : SetOrder) (d c : Call α) (ex : Exec α β Bool) (s t : St α β Bool) (hm : s.mem = false)
    (h : calls ex [d] { s with mem := true, seen := s.seen ++ [(s.src, s.items)] } = some (t, false)) :
    fire (once f ord d) ex c (once f ord d).own s = some t := by
  simp only [once, fire, tell, hm, Bool.false_eq_true, if_false, h, Option.map_some, Option.bind_some, Bool.or_false]

/-- C181, exactly, for an observer of the mapped list model that makes one call when it is told of another: the selection is right just if
`Fits` holds for what was selected before. -/
theorem C181_nested_iff (f : α → β) (ord : SetOrder) (c d : Call α) (n : ℕ) (l : List α) (sel : Sel) (hl : ∀ x ∈ sel.indexes, x < l.length)
    (hc : c.Valid l) (hd : d.Valid (c.apply l)) : ∃ s, exec (once f ord d) (n + 2) c (start f l sel false) = some (s, false) ∧
      (s.Right ↔ Fits (fun k => decide ((k : ℤ) ∈ sel.indexes)) c d) := by
  have h0 : has sel = at' (start f l sel false).marks := (right_iff _).1 (start_right f l sel false hl)
  have key : ∀ s : St α β Bool, has s.sel = shift c (shift d (has sel)) → at' s.marks = shift d (shift c (has sel)) →
      (s.Right ↔ Fits (fun k => decide ((k : ℤ) ∈ sel.indexes)) c d) := by
    intro s h1 h2
    rw [right_iff, h1, h2, fits_iff]
    rfl
  cases c with
  | insert i v =>
    obtain ⟨t, h1, h2, h3⟩ := inner_calls f ord d n
      ⟨pyInsert l i v, pyInsert (l.map f) i (f v), sel, true, pyInsert (start f l sel false).marks i false, true, false,
        [(pyInsert l i v, pyInsert (l.map f) i (f v))]⟩
      ⟨(map_insert f l i v).symm, by simp [length_insert, start], by simp [map_insert, once]⟩ hd rfl
    refine ⟨{ t with sel := (insertIndex ord t.sel i).sel, telling := false }, ?_, key _ ?_ ?_⟩
    · have := fire_once f ord d (.insert i v) (exec (once f ord d) (n + 1))
        ⟨pyInsert l i v, pyInsert (l.map f) i (f v), sel, false, pyInsert (start f l sel false).marks i false, true, false, []⟩ t rfl h1
      rw [exec, body, inserted]
      erw [this]
      rfl
    · rw [show _ = (insertIndex ord t.sel i).sel from rfl, has_insert, h2]; rfl
    · rw [show _ = t.marks from rfl, h3, at_insert, ← h0]; rfl
  | remove i =>
    have hi : i < l.length := hc
    obtain ⟨t, h1, h2, h3⟩ := inner_calls f ord d n
      ⟨l.eraseIdx i, (l.map f).eraseIdx i, sel, true, (start f l sel false).marks.eraseIdx i, true, false,
        [(l.eraseIdx i, (l.map f).eraseIdx i)]⟩
      ⟨by simp [List.eraseIdx_map, once], by simp [List.length_eraseIdx, start], by simp [List.eraseIdx_map, once]⟩ hd rfl
    refine ⟨{ t with sel := (removeIndex ord t.sel i).sel, telling := false }, ?_, key _ ?_ ?_⟩
    · have := fire_once f ord d (.remove i) (exec (once f ord d) (n + 1))
        ⟨l.eraseIdx i, (l.map f).eraseIdx i, sel, false, (start f l sel false).marks.eraseIdx i, true, false, []⟩ t rfl h1
      rw [exec, body, if_pos (by exact hi), removed, if_pos (by simpa [start] using hi)]
      erw [this]
      rfl
    · rw [show _ = (removeIndex ord t.sel i).sel from rfl, has_remove, h2]; rfl
    · rw [show _ = t.marks from rfl, h3, at_erase, ← h0]; rfl

/-! ### What observers are told -/

/-- What calls make of a list, in order; `none` if there is no such index. -/
def replay : List (Call α) → List α → Option (List α)
  | [], l => some l
  | .insert i v :: cs, l => replay cs (l.take i ++ v :: l.drop i)
  | .remove i :: cs, l => if i < l.length then replay cs (l.take i ++ l.drop (i + 1)) else none

/-- `i0` is told first by the mapped list model, and only notes what it is told, in a part of the memory the others leave alone. The others do
and raise what they like. -/
structure Users.Noting (u : Users ι α β M) (notes : M → List (Call α)) (i0 : ι) : Prop where
  first : ∃ rest, u.own = i0 :: rest ∧ i0 ∉ rest
  post : i0 ∉ u.post
  note : ∀ c s, (u.react i0 c s).2 = ([], false) ∧ notes (u.react i0 c s).1 = notes s.mem ++ [c]
  others : ∀ i ≠ i0, ∀ c s, notes (u.react i c s).1 = notes s.mem

theorem replay_append (cs ds : List (Call α)) (l : List α) : replay (cs ++ ds) l = (replay cs l).bind (replay ds) := by
  induction cs generalizing l with
  | nil => rfl
  | cons c cs ih =>
    cases c <;> simp only [List.cons_append, replay, ih]
    split <;> rfl

/-- The notes make the source of what it was. -/
def Kept (notes : M → List (Call α)) (l : List α) (s : St α β M) : Prop :=
  replay (notes s.mem) l = some s.src ∧ s.items.length = s.src.length

section
variable {u : Users ι α β M} {ex : Exec α β M} {notes : M → List (Call α)} {l : List α} {i0 : ι}

theorem calls_kept (he : ∀ c s r, Kept notes l s → ex c s = some r → Kept notes l r.1) (cs : List (Call α)) (s : St α β M)
    (r : St α β M × Bool) (hs : Kept notes l s) (h : calls ex cs s = some r) : Kept notes l r.1 := by
  induction cs generalizing s with
  | nil => cases h; exact hs
  | cons c cs ih =>
    simp only [calls, Option.bind_eq_some_iff] at h
    obtain ⟨q, h1, h2⟩ := h
    split at h2
    · cases h2; exact he _ _ _ hs h1
    · exact ih _ (he _ _ _ hs h1) h2

theorem fire_kept (hu : u.Noting notes i0) (he : ∀ c s r, Kept notes l s → ex c s = some r → Kept notes l r.1) (c : Call α) (is : List ι)
    (hi : i0 ∉ is) (s t : St α β M) (hs : Kept notes l s) (h : fire u ex c is s = some t) : Kept notes l t := by
  induction is generalizing s with
  | nil => cases h; exact hs
  | cons i is ih =>
    simp only [fire, tell, Option.bind_eq_some_iff, Option.map_eq_some_iff] at h
    obtain ⟨q, ⟨p, h1, rfl⟩, h2⟩ := h
    have hne : i ≠ i0 := fun e => hi (by simp [e])
    have h0 : Kept notes l { s with mem := (u.react i c s).1, seen := s.seen ++ [(s.src, s.items)] } :=
      ⟨by show replay (notes (u.react i c s).1) l = _; rw [hu.others i hne]; exact hs.1, hs.2⟩
    have hk : Kept notes l p.1 := calls_kept he _ _ _ h0 h1
    split at h2
    · cases h2; exact hk
    · exact ih (fun e => hi (by simp [e])) _ hk h2

/-- The first observer notes the call; then the notes make what the source is already. -/
theorem own_kept (hu : u.Noting notes i0) (he : ∀ c s r, Kept notes l s → ex c s = some r → Kept notes l r.1) (c : Call α) (s t : St α β M)
    (hs : replay (notes s.mem ++ [c]) l = some s.src) (hl : s.items.length = s.src.length) (h : fire u ex c u.own s = some t) :
    Kept notes l t := by
  obtain ⟨rest, hr, hn⟩ := hu.first
  rw [hr] at h
  obtain ⟨e1, e2⟩ := hu.note c s
  simp only [fire, tell, e1, calls, Option.map_some, Option.bind_some, Bool.or_self, Bool.false_eq_true, if_false] at h
  have h0 : Kept notes l { s with mem := (u.react i0 c s).1, seen := s.seen ++ [(s.src, s.items)] } :=
    ⟨by show replay (notes (u.react i0 c s).1) l = _; rw [e2]; exact hs, hl⟩
  exact fire_kept hu he c rest hn _ t h0 h

theorem event_kept (hu : u.Noting notes i0) (he : ∀ c s r, Kept notes l s → ex c s = some r → Kept notes l r.1) (c : Call α)
    (q r : St α β M × Bool) (hq : Kept notes l q.1) (h : event u ex c q = some r) : Kept notes l r.1 := by
  unfold event at h
  split at h
  · cases h; exact hq
  · rw [Option.map_eq_some_iff] at h
    obtain ⟨t, h1, rfl⟩ := h
    exact fire_kept hu he c _ hu.post _ t hq h1

theorem pyInsert_length {γ : Type} (l : List γ) (i : ℕ) (v : γ) : (pyInsert l i v).length = l.length + 1 := by
  simp only [pyInsert, List.length_append, List.length_take, List.length_cons, List.length_drop]
  omega

theorem body_kept (hu : u.Noting notes i0) (he : ∀ c s r, Kept notes l s → ex c s = some r → Kept notes l r.1) (c : Call α) (s : St α β M)
    (r : St α β M × Bool) (hs : Kept notes l s) (h : body u ex c s = some r) : Kept notes l r.1 := by
  cases c with
  | insert i v =>
    simp only [body, inserted, Option.bind_eq_some_iff, Option.map_eq_some_iff] at h
    obtain ⟨q, ⟨t, h1, rfl⟩, h2⟩ := h
    refine event_kept hu he _ _ _ ?_ h2
    have k := own_kept hu he _ _ t (by
      show replay (notes s.mem ++ [.insert i v]) l = some (pyInsert s.src i v)
      rw [replay_append, hs.1]; rfl) (by
      show (pyInsert s.items i (u.f v)).length = (pyInsert s.src i v).length
      rw [pyInsert_length, pyInsert_length, hs.2]) h1
    exact k
  | remove i =>
    simp only [body] at h
    split at h
    · rename_i hi
      rw [Option.bind_eq_some_iff] at h
      obtain ⟨q, h1, h2⟩ := h
      simp only [removed] at h1
      rw [if_pos (by rw [hs.2]; exact hi), Option.map_eq_some_iff] at h1
      obtain ⟨t, h3, rfl⟩ := h1
      refine event_kept hu he _ _ _ ?_ h2
      have k := own_kept hu he _ _ t (by
        show replay (notes s.mem ++ [.remove i]) l = some (s.src.eraseIdx i)
        rw [replay_append, hs.1]
        simp only [Option.bind_some, replay, if_pos hi, List.eraseIdx_eq_take_drop_succ]) (by
        show (s.items.eraseIdx i).length = (s.src.eraseIdx i).length
        rw [List.length_eraseIdx, List.length_eraseIdx, hs.2]) h3
      exact k
    · cases h; exact hs

end

/-- C181: an observer that the mapped list model tells first, and that keeps a list of the items by the insertions and removals it is told of,
has the source, and so the items, after every call, whatever the other observers do or raise. -/
theorem C181_told {u : Users ι α β M} {notes : M → List (Call α)} {i0 : ι} (hu : u.Noting notes i0) (n : ℕ) (l : List α) (sel : Sel) (m : M)
    (hm : notes m = []) (cs : List (Call α)) (s : St α β M) (h : run (exec u n) cs (start u.f l sel m) = some s) :
    replay (notes s.mem) l = some s.src ∧ (replay (notes s.mem) l).map (List.map u.f) = some s.items := by
  have hex : ∀ n c (s : St α β M) r, Kept notes l s → exec u n c s = some r → Kept notes l r.1 := by
    intro n
    induction n with
    | zero => intro c s r _ h; cases h
    | succ n ih => exact fun c s r hs h => body_kept hu ih c s r hs h
  have main : ∀ (cs : List (Call α)) (r : St α β M), Kept notes l r → run (exec u n) cs r = some s → Kept notes l s := by
    intro cs
    induction cs with
    | nil => intro r hr h; cases h; exact hr
    | cons c cs ih =>
      intro r hr h
      simp only [run, Option.bind_eq_some_iff] at h
      obtain ⟨q, h1, h2⟩ := h
      exact ih _ (hex n _ _ _ hr h1) h2
  have k := main cs _ ⟨by show replay (notes m) l = _; rw [hm]; rfl, by simp [start]⟩ h
  refine ⟨k.1, ?_⟩
  rw [k.1, (C181_items u n l sel m cs s h).1]; rfl

/-! ### Examples -/

/-- C181: calls raise just if they remove an item that is not there; what observers do is not seen. -/
theorem C181_raises (u : Users ι α β M) (n : ℕ) (c : Call α) (s : St α β M) (r : St α β M × Bool) (h : exec u n c s = some r) :
    r.2 = true ↔ ∃ i, c = .remove i ∧ s.src.length ≤ i := by
  have ev : ∀ q, event u (exec u (n - 1)) c q = some r → r.2 = false := by
    intro q hq
    unfold event at hq
    split at hq
    · cases hq
      rfl
    · rw [Option.map_eq_some_iff] at hq
      obtain ⟨t, -, rfl⟩ := hq
      rfl
  cases n with
  | zero => simp [exec] at h
  | succ n =>
    cases c with
    | insert i v =>
      simp only [exec, body, Option.bind_eq_some_iff] at h
      obtain ⟨q, -, h2⟩ := h
      simp [ev q h2]
    | remove i =>
      simp only [exec, body] at h
      split at h
      · rename_i hi
        rw [Option.bind_eq_some_iff] at h
        obtain ⟨q, -, h2⟩ := h
        simp [ev q h2, hi]
      · rename_i hi
        cases h
        simp only [true_iff]
        exact ⟨i, rfl, by omega⟩

/-- Observer 1 removes items above 1000 again when it is told of their insertion; 2 puts a hundred times an item below 100 behind it; 3 raises. -/
def exReact : ℕ → Call ℕ → St ℕ ℕ Unit → Unit × List (Call ℕ) × Bool
  | 1, .insert i v, _ => ((), if 1000 < v then [.remove i] else [], false)
  | 2, .insert i v, _ => ((), if v < 100 then [.insert (i + 1) (100 * v)] else [], false)
  | 3, _, _ => ((), [], true)
  | 4, .insert _ _, _ => ((), [.remove 99, .insert 0 7], false)
  | _, _, _ => ((), [], false)

def sel2 : Sel := ⟨{1}, some 1, .multiple⟩

/-- Observers of the source after the mapped list model: all is right, though 3 raises and 1 is not told after it. -/
example : (run (exec ⟨(· + 1), ascending, [3, 1], [1, 2], exReact⟩ 5) [.insert 0 5, .insert 1 2000, .remove 0]
    (start (· + 1) [10, 20] sel2 ())).map (fun s => (s.src, s.items, s.sel.indexes)) =
    some ([500, 10, 20], [501, 11, 21], {2}) := by decide

/-- The exception of a nested call ends the notification: observer 2 is not told. -/
example : (run (exec ⟨id, ascending, [4, 2], [], exReact⟩ 5) [.insert 0 5] (start id [10] sel2 ())).map (fun s => s.items)
    = some [5, 10] := by decide

/-- C181: an observer of the mapped list model that takes the new item out again: the item after it is no longer selected. -/
theorem C181_counterexample_reject :
    (run (exec ⟨id, ascending, [1], [], exReact⟩ 5) [.insert 1 2000] (start id [10, 20, 30] sel2 ())).map
      (fun s => (s.src, s.items, s.sel.indexes)) = some ([10, 20, 30], [10, 20, 30], ∅) := by decide

/-- Observer 0 notes; the memory is what it noted. Observer 1 removes items above 1000, 2 inserts, 3 raises. -/
def exNoting : Users ℕ ℕ ℕ (List (Call ℕ)) :=
  ⟨(· + 1), ascending, [0, 1, 2], [3], fun i c s => if i = 0 then (s.mem ++ [c], [], false) else
    (s.mem, match i, c with
      | 1, .insert i v => if 1000 < v then [.remove i] else []
      | 2, .insert i v => if v < 100 then [.insert (i + 1) (100 * v)] else []
      | _, _ => [], i == 3)⟩

theorem exNoting_noting : exNoting.Noting id 0 :=
  ⟨⟨[1, 2], rfl, by decide⟩, by decide, fun _ _ => ⟨rfl, rfl⟩, fun i hi c s => by simp [exNoting, hi]⟩

example : (run (exec exNoting 9) [.insert 1 2000, .insert 0 30, .remove 2] (start (· + 1) [10, 20] sel2 [])).map (fun s => (s.mem, s.items)) =
    some ([.insert 1 2000, .remove 1, .insert 0 30, .insert 1 3000, .remove 1, .remove 2], [31, 11]) := by decide

/-- C181: an observer that puts an item behind the new one: that item is selected instead of 20. -/
theorem C181_counterexample_behind :
    (run (exec ⟨id, ascending, [2], [], exReact⟩ 5) [.insert 1 5] (start id [10, 20, 30] sel2 ())).map
      (fun s => (s.items, s.sel.indexes)) = some ([10, 5, 500, 20, 30], {2}) := by decide

end Verif.ListModel.MappedReentrant
