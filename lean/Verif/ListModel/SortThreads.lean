import Verif.ListModel.FilteredLemmas

set_option linter.unusedSectionVars false

/-!
C196: a `FilteredListModel` (`nion/utils/ListModel.py:232-640`) whose source is changed, whose filter, sort key and direction are set, and
whose change blocks are opened and closed by several threads: which items it has and in which order (C115 has the items only).

Atomic are: what runs inside `with self._update_mutex` as far as it touches only what the mutex protects, and single reads and writes of an
attribute. The sort key and the direction are assigned under the mutex (lines 313-316, 327-330), the filter and `__items_sorted` by the
setter of the filter are not (342-343); the update reads the filter for each item anew (487). `begin_change` is one step here (C115 has two).
A change of the source is one step with its notification; listeners do not call the model; keys and filters are functions of the item. Not
modelled: selections, `container` being set, items that change.
-/

namespace Verif.ListModel.SortThreads

variable {X T K : Type} [DecidableEq X] [DecidableEq T] [LinearOrder K]

/-- Where a thread is in a call. -/
inductive PC (X : Type) where
  | idle
  /-- the setter of the filter, before line 343 -/
  | filt
  /-- before the mutex of `__update_items`, line 499 -/
  | updA
  /-- `__update_items` holds the mutex, before the test of line 500 -/
  | updC
  /-- `__build_items`: items still to be tested, items accepted -/
  | build (todo acc : List X)
  /-- after the test of line 514: whether the items are said to be sorted; the new items -/
  | commit (inc : Bool) (new : List X)
  deriving DecidableEq

structure St (X T K : Type) where
  master : List X
  items : List X
  filter : X → Bool
  key : Option (X → K)
  rev : Bool
  sorted : Bool
  level : ℤ
  owner : Option T
  pc : T → PC X

inductive Act (X T K : Type) where
  /-- `begin_change` (276) -/
  | beginChange (t : T)
  /-- `end_change` up to the update (280-282) -/
  | endChange (t : T)
  /-- the filter is assigned (342) -/
  | setFilter (t : T) (f : X → Bool)
  /-- `__items_sorted` is cleared for it (343) -/
  | unsort (t : T)
  /-- the sort key is set, up to the update (313-316) -/
  | setKey (t : T) (k : Option (X → K))
  /-- the direction is set, up to the update (327-330) -/
  | setReverse (t : T) (b : Bool)
  /-- the mutex is taken (499) -/
  | acquire (t : T)
  /-- the test (500), the source is copied and sorted (477-481) -/
  | check (t : T)
  /-- one item of the loop of `__build_items` (485-489) -/
  | test (t : T)
  /-- line 514 -/
  | branch (t : T)
  /-- the items are replaced (515-546), the mutex is released -/
  | commit (t : T)
  /-- the source inserts or removes an item (611-640, 385-425) -/
  | insert (t : T) (i : ℤ) (x : X)
  | remove (t : T) (x : X)

def St.go (s : St X T K) (t : T) (p : PC X) : St X T K := { s with pc := Function.update s.pc t p }

/-- Lines 477-481. -/
def St.source (s : St X T K) : List X :=
  match s.key with
  | some k => s.master.insertionSort (leKey s.rev k)
  | none => s.master

/-- Lines 397-403. -/
def St.position (s : St X T K) (x : X) : ℕ :=
  match s.key with
  | some k => findSorted (cmpKey s.rev k) x s.items
  | none => findUnsorted s.filter x s.master

/-- The comparison of lines 515-518 and 399. -/
def St.cmp (s : St X T K) (new : List X) : X → X → Bool :=
  match s.key with
  | some k => cmpKey s.rev k
  | none => cmpKey s.rev fun x => new.idxOf x

/-- Lines 519-533: items that are not in the new ones are removed, new ones are inserted by binary search, in the order of a set. -/
def St.incr (ord : IterOrder X) (s : St X T K) (new : List X) : List X :=
  (ord.f (new.filter fun x => x ∉ s.items)).foldl (fun l x => Py.insert l (findSorted (s.cmp new) x l : ℕ) x)
    (s.items.filter fun x => x ∈ new)

/-- What a schedule can do; `none` if it cannot. -/
def step (ord : IterOrder X) (s : St X T K) : Act X T K → Option (St X T K)
  | .beginChange t =>
    match s.pc t with
    | .idle => some { s with level := s.level + 1 }
    | _ => none
  | .endChange t =>
    match s.pc t with
    | .idle =>
      if s.owner = none then
        if s.level - 1 = 0 then some { s.go t .updC with level := s.level - 1, owner := some t } else some { s with level := s.level - 1 }
      else none
    | _ => none
  | .setFilter t f =>
    match s.pc t with
    | .idle => some { s.go t .filt with filter := f }
    | _ => none
  | .unsort t =>
    match s.pc t with
    | .filt => some { s.go t .updA with sorted := false }
    | _ => none
  | .setKey t k =>
    match s.pc t with
    | .idle => if s.owner = none then some { s.go t .updA with key := k, sorted := false } else none
    | _ => none
  | .setReverse t b =>
    match s.pc t with
    | .idle => if s.owner = none then some { s.go t .updA with rev := b, sorted := false } else none
    | _ => none
  | .acquire t =>
    match s.pc t with
    | .updA => if s.owner = none then some { s.go t .updC with owner := some t } else none
    | _ => none
  | .check t =>
    match s.pc t with
    | .updC => if s.level > 0 then some { s.go t .idle with owner := none } else some (s.go t (.build s.source []))
    | _ => none
  | .test t =>
    match s.pc t with
    | .build (x :: todo) acc => some (s.go t (.build todo (if s.filter x then acc ++ [x] else acc)))
    | _ => none
  | .branch t =>
    match s.pc t with
    | .build [] acc => some (s.go t (.commit s.sorted acc))
    | _ => none
  | .commit t =>
    match s.pc t with
    | .commit inc new => some { s.go t .idle with items := if inc then s.incr ord new else new, sorted := true, owner := none }
    | _ => none
  | .insert t i x =>
    match s.pc t with
    | .idle =>
      if s.owner = none ∧ x ∉ s.master then
        let s' := { s with master := Py.insert s.master i x }
        some (if s.level > 0 then s' else if s.filter x then { s' with items := Py.insert s.items (s'.position x : ℕ) x } else s')
      else none
    | _ => none
  | .remove t x =>
    match s.pc t with
    | .idle =>
      if s.owner = none ∧ x ∈ s.master then
        let s' := { s with master := s.master.erase x }
        some (if s.level > 0 then s' else { s' with items := s.items.erase x })
      else none
    | _ => none

/-- A new model without items. -/
def St.init (key : Option (X → K)) (rev : Bool) (f : X → Bool) : St X T K := ⟨[], [], f, key, rev, false, 0, none, fun _ => .idle⟩

def run (ord : IterOrder X) : St X T K → List (Act X T K) → Option (St X T K)
  | s, [] => some s
  | s, a :: as => (step ord s a).bind fun t => run ord t as

/-! ### Specification -/

/-- The items are those of the source that the filter accepts, each once, sorted if there is a sort key, else in the order of the source. -/
def Right (s : St X T K) : Prop :=
  s.items.Perm (s.master.filter s.filter) ∧
    match s.key with
    | some k => s.items.Pairwise fun a b => if s.rev then k b ≤ k a else k a ≤ k b
    | none => s.items = s.master.filter s.filter

/-- Nobody is inside a call, no change block is open. -/
def Quiet (s : St X T K) : Prop := (∀ t, s.pc t = .idle) ∧ s.level ≤ 0

/-- The sort key is not taken away. -/
def Keyed : Act X T K → Prop
  | .setKey _ none => False
  | _ => True

/-! ### Proof -/

def holds : PC X → Bool
  | .updC | .build _ _ | .commit _ _ => true
  | _ => false

/-- An update is still to come. -/
def Pending (s : St X T K) : Prop := ∃ t, s.pc t = .filt ∨ s.pc t = .updA ∨ s.pc t = .updC

/-- An update is at work. -/
def Working (s : St X T K) : Prop := ∃ t, (∃ todo acc, s.pc t = .build todo acc) ∨ ∃ inc new, s.pc t = .commit inc new

def Members (s : St X T K) (l : List X) : Prop := l.Perm (s.master.filter s.filter)

def Ordered (s : St X T K) (l : List X) : Prop := ∀ k, s.key = some k → l.Pairwise (leKey s.rev k)

structure Inv (s : St X T K) : Prop where
  mutex : ∀ t, holds (s.pc t) = true ↔ s.owner = some t
  key : s.key ≠ none
  master : s.master.Nodup
  items : s.items.Nodup
  sub : s.level > 0 ∨ s.owner ≠ none ∨ ∀ x ∈ s.items, x ∈ s.master
  ord : s.sorted = true → Ordered s s.items
  good : s.level > 0 ∨ Pending s ∨ Working s ∨ (Members s s.items ∧ Ordered s s.items)
  build : ∀ t todo acc, s.pc t = .build todo acc → ∃ done, s.source = done ++ todo ∧ acc.Sublist done ∧
    (Pending s ∨ acc = done.filter s.filter)
  commit : ∀ t inc new, s.pc t = .commit inc new → new.Sublist s.source ∧ (inc = true → Ordered s s.items) ∧ (Pending s ∨ Members s new)

variable {ord : IterOrder X} {s s' : St X T K}

theorem source_perm (s : St X T K) : s.source.Perm s.master := by
  unfold St.source
  cases s.key with
  | none => exact .refl _
  | some k => exact List.perm_insertionSort _ _

theorem source_ordered (s : St X T K) : Ordered s s.source := by
  intro k hk
  unfold St.source
  rw [hk]
  have : Std.Total (leKey s.rev k) := ⟨(isCmp_key s.rev k).total⟩
  have : IsTrans X (leKey s.rev k) := ⟨(isCmp_key s.rev k).trans⟩
  exact List.pairwise_insertionSort (leKey s.rev k) _

theorem holds_unique (h : Inv s) {t u : T} (ht : holds (s.pc t) = true) (hu : holds (s.pc u) = true) : t = u := by
  have h1 := (h.mutex t).1 ht
  have h2 := (h.mutex u).1 hu
  rw [h1] at h2
  exact Option.some.inj h2

/-- Nobody holds the mutex. -/
theorem free (h : Inv s) (ho : s.owner = none) (t : T) : holds (s.pc t) = false := by
  cases hh : holds (s.pc t) with
  | false => rfl
  | true =>
    rw [h.mutex t, ho] at hh
    cases hh

theorem not_working (h : Inv s) (ho : s.owner = none) : ¬ Working s := by
  rintro ⟨t, ⟨a, b, ht⟩ | ⟨a, b, ht⟩⟩ <;> have := free h ho t <;> rw [ht] at this <;> cases this

theorem foldl_insert_perm (cmp : X → X → Bool) (xs l : List X) :
    (xs.foldl (fun l x => Py.insert l (findSorted cmp x l : ℕ) x) l).Perm (xs ++ l) := by
  induction xs generalizing l with
  | nil => exact .refl _
  | cons x xs ih =>
    refine (ih _).trans ?_
    refine ((perm_pyInsert l _ x).append_left xs).trans ?_
    exact List.perm_middle

theorem foldl_insert_sorted {cmp : X → X → Bool} {le : X → X → Prop} (hc : IsCmp cmp le) (xs l : List X) (hl : l.Pairwise le) :
    (xs.foldl (fun l x => Py.insert l (findSorted cmp x l : ℕ) x) l).Pairwise le := by
  induction xs generalizing l with
  | nil => exact hl
  | cons x xs ih => exact ih _ (sorted_insert hc hl x)

theorem incr_perm (s : St X T K) (new : List X) (hi : s.items.Nodup) (hn : new.Nodup) : (s.incr ord new).Perm new := by
  unfold St.incr
  refine (foldl_insert_perm _ _ _).trans (((ord.perm _).append_right _).trans ?_)
  rw [List.perm_ext_iff_of_nodup _ hn]
  · intro x
    simp only [List.mem_append, List.mem_filter, decide_eq_true_eq, decide_not, Bool.not_eq_eq_eq_not, Bool.not_true, decide_eq_false_iff_not]
    constructor
    · rintro (⟨h, _⟩ | ⟨_, h⟩) <;> exact h
    · intro h
      by_cases hx : x ∈ s.items
      · exact .inr ⟨hx, h⟩
      · exact .inl ⟨h, hx⟩
  · rw [List.nodup_append]
    refine ⟨hn.filter _, hi.filter _, fun x hx y hy => ?_⟩
    rintro rfl
    simp only [List.mem_filter, decide_eq_true_eq, decide_not, Bool.not_eq_eq_eq_not, Bool.not_true, decide_eq_false_iff_not] at hx hy
    exact hx.2 hy.1

theorem incr_ordered (s : St X T K) (new : List X) (h : Ordered s s.items) : Ordered s (s.incr ord new) := by
  intro k hk
  unfold St.incr St.cmp
  rw [hk]
  exact foldl_insert_sorted (isCmp_key s.rev k) _ _ ((h k hk).filter _)

theorem go_pc (s : St X T K) (t u : T) (p : PC X) : (s.go t p).pc u = if u = t then p else s.pc u := by
  simp [St.go, Function.update_apply]

/-- Another thread is still pending. -/
theorem pending_go {t : T} {p : PC X} (hpc : s'.pc = (s.go t p).pc) (h : Pending s)
    (ht : (s.pc t ≠ .filt ∧ s.pc t ≠ .updA ∧ s.pc t ≠ .updC) ∨ p = .filt ∨ p = .updA ∨ p = .updC) : Pending s' := by
  obtain ⟨u, hu⟩ := h
  by_cases hut : u = t
  · subst hut
    rcases ht with ⟨h1, h2, h3⟩ | ht
    · rcases hu with hu | hu | hu
      · exact absurd hu h1
      · exact absurd hu h2
      · exact absurd hu h3
    · exact ⟨u, by rw [hpc, go_pc, if_pos rfl]; exact ht⟩
  · exact ⟨u, by rw [hpc, go_pc, if_neg hut]; exact hu⟩

/-- A step after which an update is still to come, that does not touch the items or what they are sorted by. -/
theorem inv_pending (h : Inv s) {t : T} {p : PC X} (hpc : s'.pc = (s.go t p).pc) (hp : p = .filt ∨ p = .updA ∨ p = .updC)
    (hmu : ∀ u, holds (s'.pc u) = true ↔ s'.owner = some u) (hm : s'.master = s.master) (hi : s'.items = s.items) (hk : s'.key = s.key)
    (hr : s'.rev = s.rev) (hs : s'.sorted = true → s.sorted = true)
    (hsub : s'.level > 0 ∨ s'.owner ≠ none ∨ ∀ x ∈ s.items, x ∈ s.master) : Inv s' := by
  have hpend : Pending s' := ⟨t, by rw [hpc, go_pc, if_pos rfl]; exact hp⟩
  have hsrc : s'.source = s.source := by unfold St.source; rw [hk, hm, hr]
  have hord : ∀ l, Ordered s l → Ordered s' l := fun l hl k hk' => by rw [hr]; exact hl k (hk ▸ hk')
  refine ⟨hmu, hk ▸ h.key, hm ▸ h.master, hi ▸ h.items, by rw [hi, hm]; exact hsub, fun h1 => hi ▸ hord _ (h.ord (hs h1)),
    .inr (.inl hpend), fun u todo acc hu => ?_, fun u inc new hu => ?_⟩
  · rw [hpc, go_pc] at hu
    split at hu
    · subst hu; simp at hp
    · obtain ⟨d, h1, h2, _⟩ := h.build u todo acc hu
      exact ⟨d, hsrc ▸ h1, h2, .inl hpend⟩
  · rw [hpc, go_pc] at hu
    split at hu
    · subst hu; simp at hp
    · obtain ⟨h1, h2, _⟩ := h.commit u inc new hu
      exact ⟨hsrc ▸ h1, fun hinc => hi ▸ hord _ (h2 hinc), .inl hpend⟩

theorem mutex_same (h : Inv s) {t : T} {p : PC X} (hpc : s'.pc = (s.go t p).pc) (ho : s'.owner = s.owner) (hh : holds p = holds (s.pc t)) :
    ∀ u, holds (s'.pc u) = true ↔ s'.owner = some u := by
  intro u
  rw [hpc, go_pc, ho]
  split
  · rename_i hut
    subst hut
    rw [hh]
    exact h.mutex u
  · exact h.mutex u

theorem mutex_take (h : Inv s) {t : T} {p : PC X} (hpc : s'.pc = (s.go t p).pc) (hn : s.owner = none) (ho : s'.owner = some t)
    (hh : holds p = true) : ∀ u, holds (s'.pc u) = true ↔ s'.owner = some u := by
  intro u
  rw [hpc, go_pc, ho]
  split
  · rename_i hut
    simp [hh, hut]
  · rename_i hut
    rw [free h hn u]
    simp [Ne.symm hut]

theorem mutex_drop (h : Inv s) {t : T} {p : PC X} (hpc : s'.pc = (s.go t p).pc) (hn : holds (s.pc t) = true) (ho : s'.owner = none)
    (hh : holds p = false) : ∀ u, holds (s'.pc u) = true ↔ s'.owner = some u := by
  intro u
  rw [hpc, go_pc, ho]
  split
  · simp [hh]
  · rename_i hut
    constructor
    · intro hu
      exact absurd (holds_unique h hu hn) hut
    · intro hu; cases hu

/-- The key or the direction is set: an update is to come, the items are not said to be sorted. -/
theorem inv_key (h : Inv s) {t : T} (hpc : s'.pc = (s.go t .updA).pc) (hk : s'.key ≠ none) (ho : s.owner = none) (ho' : s'.owner = none)
    (hm : s'.master = s.master) (hi : s'.items = s.items) (hs : s'.sorted = false) (hl : s'.level = s.level)
    (ht : s.pc t = .idle) : Inv s' := by
  have hpend : Pending s' := ⟨t, by rw [hpc, go_pc, if_pos rfl]; simp⟩
  have hfree : ∀ u, holds (s'.pc u) = false := by
    intro u
    rw [hpc, go_pc]
    split
    · rfl
    · exact free h ho u
  refine ⟨mutex_same h (t := t) hpc (ho'.trans ho.symm) (by rw [ht]; rfl), hk, hm ▸ h.master, hi ▸ h.items, ?_, fun h1 => ?_,
    .inr (.inl hpend), fun u todo acc hu => ?_, fun u inc new hu => ?_⟩
  · have h1 := h.sub
    rw [ho] at h1
    rw [hl, ho', hi, hm]
    exact h1
  · rw [hs] at h1; cases h1
  · have := hfree u; rw [hu] at this; cases this
  · have := hfree u; rw [hu] at this; cases this

/-- Source and items change while nobody holds the mutex. -/
theorem inv_change (h : Inv s) (ho : s.owner = none) (m l : List X) (hm : m.Nodup) (hl : l.Nodup)
    (hsub : s.level > 0 ∨ ∀ x ∈ l, x ∈ m) (hord : Ordered s s.items → Ordered s l)
    (hmem : s.level > 0 ∨ (Members s s.items → l.Perm (m.filter s.filter))) : Inv { s with master := m, items := l } := by
  refine ⟨h.mutex, h.key, hm, hl, ?_, fun h1 => hord (h.ord h1), ?_, fun u todo acc hu => ?_, fun u inc new hu => ?_⟩
  · rcases hsub with h1 | h1
    · exact .inl h1
    · exact .inr (.inr h1)
  · rcases h.good with h1 | h1 | h1 | ⟨h1, h2⟩
    · exact .inl h1
    · exact .inr (.inl h1)
    · exact absurd h1 (not_working h ho)
    · rcases hmem with h3 | h3
      · exact .inl h3
      · exact .inr (.inr (.inr ⟨h3 h1, hord h2⟩))
  · have := free h ho u; rw [hu] at this; cases this
  · have := free h ho u; rw [hu] at this; cases this

theorem inv_step (h : Inv s) (a : Act X T K) (hk : Keyed a) (hs : step ord s a = some s') : Inv s' := by
  cases a with
  | beginChange t =>
    simp only [step] at hs
    split at hs <;> simp only [Option.some.injEq, reduceCtorEq] at hs
    subst hs
    refine ⟨h.mutex, h.key, h.master, h.items, ?_, h.ord, ?_, h.build, h.commit⟩
    · rcases h.sub with h1 | h1
      · exact .inl (by simp only; omega)
      · exact .inr h1
    · rcases h.good with h1 | h1
      · exact .inl (by simp only; omega)
      · exact .inr h1
  | endChange t =>
    simp only [step] at hs
    split at hs <;> try simp only [reduceCtorEq] at hs
    rename_i hp
    split at hs <;> try simp only [reduceCtorEq] at hs
    rename_i ho
    split at hs <;> simp only [Option.some.injEq] at hs
    · rename_i h0
      subst hs
      refine inv_pending h (t := t) (p := .updC) rfl (by simp) (mutex_take h (t := t) (p := .updC) rfl ho rfl rfl) rfl rfl rfl rfl id
        (.inr (.inl (by simp)))
    · rename_i h0
      subst hs
      refine ⟨h.mutex, h.key, h.master, h.items, ?_, h.ord, ?_, h.build, h.commit⟩
      · rcases h.sub with h1 | h1
        · exact .inl (by simp only; omega)
        · exact .inr h1
      · rcases h.good with h1 | h1
        · exact .inl (by simp only; omega)
        · exact .inr h1
  | setFilter t f =>
    simp only [step] at hs
    split at hs <;> simp only [Option.some.injEq, reduceCtorEq] at hs
    rename_i hp
    subst hs
    exact inv_pending h (t := t) (p := .filt) rfl (by simp) (mutex_same h (t := t) (p := .filt) rfl rfl (by rw [hp]; rfl)) rfl rfl rfl rfl id
      h.sub
  | unsort t =>
    simp only [step] at hs
    split at hs <;> simp only [Option.some.injEq, reduceCtorEq] at hs
    rename_i hp
    subst hs
    exact inv_pending h (t := t) (p := .updA) rfl (by simp) (mutex_same h (t := t) (p := .updA) rfl rfl (by rw [hp]; rfl)) rfl rfl rfl rfl
      (by simp) h.sub
  | setKey t k =>
    simp only [step] at hs
    split at hs <;> try simp only [reduceCtorEq] at hs
    rename_i hp
    split at hs <;> simp only [Option.some.injEq, reduceCtorEq] at hs
    rename_i ho
    subst hs
    refine inv_key h (t := t) rfl ?_ ho ho rfl rfl rfl rfl hp
    cases k with
    | none => exact absurd hk id
    | some k => simp
  | setReverse t b =>
    simp only [step] at hs
    split at hs <;> try simp only [reduceCtorEq] at hs
    rename_i hp
    split at hs <;> simp only [Option.some.injEq, reduceCtorEq] at hs
    rename_i ho
    subst hs
    exact inv_key h (t := t) rfl h.key ho ho rfl rfl rfl rfl hp
  | acquire t =>
    simp only [step] at hs
    split at hs <;> try simp only [reduceCtorEq] at hs
    rename_i hp
    split at hs <;> simp only [Option.some.injEq, reduceCtorEq] at hs
    rename_i ho
    subst hs
    exact inv_pending h (t := t) (p := .updC) rfl (by simp) (mutex_take h (t := t) (p := .updC) rfl ho rfl rfl) rfl rfl rfl rfl id
      (.inr (.inl (by simp)))
  | check t =>
    simp only [step] at hs
    split at hs <;> try simp only [reduceCtorEq] at hs
    rename_i hp
    have hold : holds (s.pc t) = true := by rw [hp]; rfl
    have other : ∀ u, u ≠ t → holds (s.pc u) = false := by
      intro u hut
      cases hh : holds (s.pc u) with
      | false => rfl
      | true => exact absurd (holds_unique h hh hold) hut
    split at hs <;> simp only [Option.some.injEq] at hs
    · rename_i hl
      subst hs
      refine ⟨mutex_drop h (t := t) (p := .idle) rfl hold rfl rfl, h.key, h.master, h.items, .inl hl, h.ord, .inl hl,
        fun u todo acc hu => ?_, fun u inc new hu => ?_⟩
      all_goals
        simp only [go_pc] at hu
        split at hu
        · cases hu
        · rename_i hut
          have := other u hut
          rw [hu] at this
          cases this
    · subst hs
      refine ⟨mutex_same h (t := t) (p := .build s.source []) rfl rfl (by rw [hp]; rfl), h.key, h.master, h.items, h.sub, h.ord,
        .inr (.inr (.inl ⟨t, .inl ⟨s.source, [], by simp [go_pc]⟩⟩)), fun u todo acc hu => ?_, fun u inc new hu => ?_⟩
      · simp only [go_pc] at hu
        split at hu
        · cases hu
          exact ⟨[], rfl, .refl _, .inr rfl⟩
        · rename_i hut
          have := other u hut
          rw [hu] at this
          cases this
      · simp only [go_pc] at hu
        split at hu
        · cases hu
        · rename_i hut
          have := other u hut
          rw [hu] at this
          cases this
  | test t =>
    simp only [step] at hs
    split at hs <;> simp only [Option.some.injEq, reduceCtorEq] at hs
    rename_i x todo acc hp
    have hold : holds (s.pc t) = true := by rw [hp]; rfl
    subst hs
    have hpg : Pending s → Pending (s.go t (.build todo (if s.filter x then acc ++ [x] else acc))) := fun hh =>
      pending_go (t := t) rfl hh (.inl (by simp [hp]))
    refine ⟨mutex_same h (t := t) (p := .build todo _) rfl rfl (by rw [hp]; rfl), h.key, h.master, h.items, h.sub, h.ord,
      .inr (.inr (.inl ⟨t, .inl ⟨todo, _, by rw [go_pc, if_pos rfl]⟩⟩)), fun u todo' acc' hu => ?_, fun u inc new hu => ?_⟩
    · rw [go_pc] at hu
      split at hu
      · simp only [PC.build.injEq] at hu
        obtain ⟨rfl, rfl⟩ := hu
        obtain ⟨d, h1, h2, h3⟩ := h.build t _ _ hp
        refine ⟨d ++ [x], by simp only [List.append_assoc, List.cons_append, List.nil_append]; exact h1, ?_, ?_⟩
        · split
          · exact h2.append (.refl _)
          · exact h2.trans (List.sublist_append_left _ _)
        · rcases h3 with h3 | h3
          · exact .inl (hpg h3)
          · refine .inr ?_
            rw [h3]
            show _ = (d ++ [x]).filter s.filter
            by_cases hx : s.filter x <;> simp [hx]
      · rename_i hut
        have : holds (s.pc u) = true := by rw [hu]; rfl
        exact absurd (holds_unique h this hold) hut
    · rw [go_pc] at hu
      split at hu
      · cases hu
      · rename_i hut
        have : holds (s.pc u) = true := by rw [hu]; rfl
        exact absurd (holds_unique h this hold) hut
  | branch t =>
    simp only [step] at hs
    split at hs <;> simp only [Option.some.injEq, reduceCtorEq] at hs
    rename_i acc hp
    have hold : holds (s.pc t) = true := by rw [hp]; rfl
    subst hs
    have hpg : Pending s → Pending (s.go t (.commit s.sorted acc)) := fun hh => pending_go (t := t) rfl hh (.inl (by simp [hp]))
    refine ⟨mutex_same h (t := t) (p := .commit s.sorted acc) rfl rfl (by rw [hp]; rfl), h.key, h.master, h.items, h.sub, h.ord,
      .inr (.inr (.inl ⟨t, .inr ⟨s.sorted, acc, by rw [go_pc, if_pos rfl]⟩⟩)), fun u todo' acc' hu => ?_, fun u inc new hu => ?_⟩
    · rw [go_pc] at hu
      split at hu
      · cases hu
      · rename_i hut
        have : holds (s.pc u) = true := by rw [hu]; rfl
        exact absurd (holds_unique h this hold) hut
    · rw [go_pc] at hu
      split at hu
      · simp only [PC.commit.injEq] at hu
        obtain ⟨rfl, rfl⟩ := hu
        obtain ⟨d, h1, h2, h3⟩ := h.build t _ _ hp
        rw [List.append_nil] at h1
        refine ⟨h1 ▸ h2, h.ord, ?_⟩
        rcases h3 with h3 | h3
        · exact .inl (hpg h3)
        · refine .inr ?_
          rw [h3, ← h1]
          exact (source_perm s).filter _
      · rename_i hut
        have : holds (s.pc u) = true := by rw [hu]; rfl
        exact absurd (holds_unique h this hold) hut
  | commit t =>
    simp only [step] at hs
    split at hs <;> simp only [Option.some.injEq, reduceCtorEq] at hs
    rename_i inc new hp
    have hold : holds (s.pc t) = true := by rw [hp]; rfl
    obtain ⟨h1, h2, h3⟩ := h.commit t inc new hp
    have hsn : s.source.Nodup := (source_perm s).nodup_iff.2 h.master
    have hnn : new.Nodup := h1.nodup hsn
    have hperm : (if inc then s.incr ord new else new).Perm new := by
      split
      · exact incr_perm s new h.items hnn
      · exact .refl _
    have hordered : Ordered s (if inc then s.incr ord new else new) := by
      cases inc with
      | true => exact incr_ordered s new (h2 rfl)
      | false => exact fun k hk => (source_ordered s k hk).sublist h1
    have none_left : ∀ u p, holds p = true → ({ s.go t .idle with
        items := if inc then s.incr ord new else new, sorted := true, owner := none } : St X T K).pc u ≠ p := by
      intro u p hpp hu
      simp only [go_pc] at hu
      split at hu
      · subst hu; cases hpp
      · rename_i hut
        have : holds (s.pc u) = true := by rw [hu]; exact hpp
        exact absurd (holds_unique h this hold) hut
    subst hs
    refine ⟨mutex_drop h (t := t) (p := .idle) rfl hold rfl rfl, h.key, h.master, hperm.nodup_iff.2 hnn, .inr (.inr fun x hx => ?_),
      fun _ => hordered, ?_, fun u todo' acc' hu => absurd hu (none_left u _ rfl), fun u inc' new' hu => absurd hu (none_left u _ rfl)⟩
    · exact (source_perm s).mem_iff.1 (h1.subset (hperm.mem_iff.1 hx))
    · rcases h3 with h3 | h3
      · exact .inr (.inl (pending_go (t := t) rfl h3 (.inl (by simp [hp]))))
      · exact .inr (.inr (.inr ⟨hperm.trans h3, hordered⟩))
  | insert t i x =>
    simp only [step] at hs
    split at hs <;> try simp only [reduceCtorEq] at hs
    split at hs <;> simp only [Option.some.injEq, reduceCtorEq] at hs
    rename_i ho
    obtain ⟨ho, hx⟩ := ho
    have hm : (Py.insert s.master i x).Nodup := (perm_pyInsert _ _ _).nodup_iff.2 (List.nodup_cons.2 ⟨hx, h.master⟩)
    have hmem : ∀ y, y ∈ Py.insert s.master i x ↔ y = x ∨ y ∈ s.master := fun y => by rw [(perm_pyInsert _ _ _).mem_iff, List.mem_cons]
    subst hs
    by_cases hl : s.level > 0
    · rw [if_pos hl]
      exact inv_change h ho _ s.items hm h.items (.inl hl) id (.inl hl)
    rw [if_neg hl]
    have hsub : ∀ y ∈ s.items, y ∈ s.master := by
      rcases h.sub with h1 | h1 | h1
      · exact absurd h1 hl
      · exact absurd ho h1
      · exact h1
    by_cases hf : s.filter x
    · rw [if_pos hf]
      set n := (St.position { s with master := Py.insert s.master i x } x)
      have hn : ∀ k, s.key = some k → n = findSorted (cmpKey s.rev k) x s.items := by
        intro k hk
        simp only [n, St.position, hk]
      have hp : (Py.insert s.items (n : ℕ) x).Perm (x :: s.items) := perm_pyInsert _ _ _
      refine inv_change h ho _ (Py.insert s.items (n : ℕ) x) hm (hp.nodup_iff.2 (List.nodup_cons.2 ⟨fun hx' => hx (hsub x hx'), h.items⟩))
        (.inr fun y hy => ?_) (fun hor k hk => ?_) (.inr fun hmm => ?_)
      · rw [hp.mem_iff, List.mem_cons] at hy
        rw [hmem]
        exact hy.imp id (hsub y)
      · rw [hn k hk]
        exact sorted_insert (isCmp_key s.rev k) (hor k hk) x
      · refine hp.trans ?_
        refine (hmm.cons x).trans (List.Perm.symm ?_)
        refine ((perm_pyInsert _ _ _).filter _).trans ?_
        rw [List.filter_cons_of_pos hf]
    · rw [if_neg hf]
      refine inv_change h ho _ s.items hm h.items (.inr fun y hy => (hmem y).2 (.inr (hsub y hy))) id (.inr fun hmm => ?_)
      refine List.Perm.trans hmm (List.Perm.symm ?_)
      refine ((perm_pyInsert _ _ _).filter _).trans ?_
      rw [List.filter_cons_of_neg hf]
  | remove t x =>
    simp only [step] at hs
    split at hs <;> try simp only [reduceCtorEq] at hs
    split at hs <;> simp only [Option.some.injEq, reduceCtorEq] at hs
    rename_i ho
    obtain ⟨ho, hx⟩ := ho
    subst hs
    by_cases hl : s.level > 0
    · rw [if_pos hl]
      exact inv_change h ho _ s.items (h.master.erase x) h.items (.inl hl) id (.inl hl)
    rw [if_neg hl]
    have hsub : ∀ y ∈ s.items, y ∈ s.master := by
      rcases h.sub with h1 | h1 | h1
      · exact absurd h1 hl
      · exact absurd ho h1
      · exact h1
    refine inv_change h ho _ (s.items.erase x) (h.master.erase x) (h.items.erase x) (.inr fun y hy => ?_)
      (fun hor k hk => (hor k hk).sublist List.erase_sublist) (.inr fun hmm => ?_)
    · rw [h.items.mem_erase_iff] at hy
      rw [h.master.mem_erase_iff]
      exact ⟨hy.1, hsub y hy.2⟩
    · rw [filter_erase_eq h.master]
      exact hmm.erase x

/-- C196 (partial: there always is a sort key): whenever no thread is inside a call and no change block is open, the items are those of the
source that the filter accepts, sorted by the sort key in the direction set. -/
theorem C196_sorted_partial (ord : IterOrder X) (k : X → K) (rev : Bool) (f : X → Bool) (as : List (Act X T K)) (hk : ∀ a ∈ as, Keyed a)
    (s : St X T K) (hs : run ord (St.init (some k) rev f) as = some s) (hq : Quiet s) : Right s := by
  have key : ∀ (as : List (Act X T K)) (r : St X T K), Inv r → (∀ a ∈ as, Keyed a) → run ord r as = some s → Inv s := by
    intro as
    induction as with
    | nil =>
      intro r hr _ he
      simp only [run, Option.some.injEq] at he
      exact he ▸ hr
    | cons a as ih =>
      intro r hr hka he
      simp only [run, Option.bind_eq_some_iff] at he
      obtain ⟨r', h1, h2⟩ := he
      exact ih r' (inv_step hr a (hka a (by simp)) h1) (fun b hb => hka b (by simp [hb])) h2
  have h : Inv s := by
    refine key as _ ?_ hk hs
    refine ⟨fun t => ?_, by simp [St.init], by simp [St.init], by simp [St.init], .inr (.inr (by simp [St.init])), by simp [St.init],
      .inr (.inr (.inr ⟨.refl _, fun k _ => .nil⟩)), fun t a b ht => ?_, fun t a b ht => ?_⟩
    · simp [St.init, holds]
    · simp [St.init] at ht
    · simp [St.init] at ht
  obtain ⟨h1, h2⟩ := hq
  rcases h.good with h3 | ⟨t, h3⟩ | ⟨t, h3⟩ | ⟨h3, h4⟩
  · omega
  · rw [h1 t] at h3
    rcases h3 with h3 | h3 | h3 <;> cases h3
  · rw [h1 t] at h3
    rcases h3 with ⟨_, _, h3⟩ | ⟨_, _, h3⟩ <;> cases h3
  · refine ⟨h3, ?_⟩
    cases hk : s.key with
    | none => exact absurd hk h.key
    | some k => exact h4 k hk

/-! ### Cases -/

def anyOrder : IterOrder ℕ := ⟨id, fun _ => .refl _⟩

/-- Items, source and whether nothing is under way, after a schedule of two threads. -/
def sight (key : Option (ℕ → ℕ)) (as : List (Act ℕ (Fin 2) ℕ)) : Option (List ℕ × List ℕ × Bool) :=
  (run anyOrder (St.init key false fun x => x != 1) as).map fun s =>
    (s.items, s.master, decide (s.pc 0 = .idle) && decide (s.pc 1 = .idle) && decide (s.level ≤ 0))

/-- An update of thread `t` with `n` items in the source, after the mutex is taken. -/
def update (t : Fin 2) (n : ℕ) : List (Act ℕ (Fin 2) ℕ) := .check t :: List.replicate n (.test t) ++ [.branch t, .commit t]

/-- The source has 1, 2, 3, the model 2 and 3; it was updated. -/
def filled : List (Act ℕ (Fin 2) ℕ) :=
  [.insert 1 0 3, .insert 1 0 2, .insert 1 0 1, .beginChange 1, .endChange 1] ++ update 1 3

/-- Thread 0 assigns a filter; thread 1 inserts 9 into the source and calls `mark_changed`; while it updates the items, thread 0 says that
the items are not sorted, then updates them. -/
def race : List (Act ℕ (Fin 2) ℕ) :=
  filled ++ [.setFilter 0 fun _ => true, .insert 1 1 9, .beginChange 1, .endChange 1, .check 1, .test 1, .test 1, .test 1, .test 1, .branch 1,
    .unsort 0, .commit 1, .acquire 0] ++ update 0 4

/-- With a sort key: sorted. -/
example : sight (some fun x => 10 - x) race = some ([9, 3, 2, 1], [1, 9, 2, 3], true) := by decide +kernel

/-- Without sort key: 9 comes before the first item that is accepted after it in the source. -/
example : sight none (filled ++ [.insert 1 1 9]) = some ([9, 2, 3], [1, 9, 2, 3], true) := by decide +kernel

/-- C196: without sort key, the items are not in the order of the source: 9 was inserted at its index by the new filter into items of the
old one, and what the setter said of the order was overwritten by the update of the other thread. -/
theorem C196_counterexample_order : sight none race = some ([1, 2, 9, 3], [1, 9, 2, 3], true) := by decide +kernel

end Verif.ListModel.SortThreads
