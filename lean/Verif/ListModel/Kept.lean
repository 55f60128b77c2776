import Verif.ListModel.BlocksReentrant
import Verif.ListModel.FilteredReentrant
import Verif.ListModel.FlattenedReentrant

set_option linter.unusedSectionVars false
set_option linter.unusedSimpArgs false

/-!
C192: a list kept from the item events of a filtered or flattened list model (`nion/utils/ListModel.py:385-425`, 493-546, 890-916), with
observers that act while they are told. The models are those of C185 (change blocks), C182 (items that change) and C183 (flattened lists).

The observer that keeps a list is one of those of the model, and may act itself, after it has changed its list; its list is part of the
memory of the observers.
-/

namespace Verif.ListModel.Blocks

variable {ι α K M : Type} [DecidableEq α] [LinearOrder K]

theorem erase_last (l : List α) : l.eraseIdx (l.length - 1) = l.dropLast := by
  cases l with
  | nil => rfl
  | cons a l => exact (List.dropLast_eq_eraseIdx (by simp)).symm

theorem insert_end (l : List α) (v : α) : Py.insert l (l.length : ℕ) v = l ++ [v] := by
  exact Py.insert_length l v

/-- What an observer that keeps a list does with it when it is told. -/
def Ev.keep : Ev α → List α → List α
  | .inserted v i, l => Py.insert l i v
  | .removed _ i, l => l.eraseIdx i
  | _, l => l

/-- Whether the event is of an item of the model. -/
def Ev.OfItem : Ev α → Prop
  | .inserted _ _ => True
  | .removed _ _ => True
  | _ => False

/-- Observer `j` keeps the list `copy`; it is told once of every item, and those told before it do nothing then, and
nobody acts when told of the beginning of changes. -/
structure Keeps (u : Users ι α K M) (copy : M → List α) (j : ι) : Prop where
  mine : ∀ e s, copy (u.react j e s).mem = e.keep (copy s.mem)
  other : ∀ i e s, i ≠ j → copy (u.react i e s).mem = copy s.mem
  early : ∀ e : Ev α, e.OfItem → ∃ pre post : List ι, u.obs e = pre ++ j :: post ∧ j ∉ pre ∧ j ∉ post ∧
    ∀ i ∈ pre, ∀ s, (u.react i e s).acts = [] ∧ (u.react i e s).raises = false
  begins : ∀ i ∈ u.obs .beginChanges, ∀ s, (u.react i .beginChanges s).acts = []

variable {u : Users ι α K M} {ex : Exec α M} {s t : St α M} {copy : M → List α} {j : ι}

def Copied (copy : M → List α) (s : St α M) : Prop := copy s.mem = s.items

def CopiesOn (copy : M → List α) (ex : Exec α M) : Prop := ∀ a s r, Copied copy s → ex a s = some r → Copied copy r.1

theorem acts_copied (h : CopiesOn copy ex) (as : List (Act α)) (s : St α M) (r : St α M × Bool) (hi : Copied copy s)
    (he : acts ex as s = some r) : Copied copy r.1 := by
  induction as generalizing s with
  | nil =>
    simp only [acts, Option.some.injEq] at he
    exact he ▸ hi
  | cons a as ih =>
    simp only [acts, Option.bind_eq_some_iff] at he
    obtain ⟨r1, h1, h2⟩ := he
    have e := h a s r1 hi h1
    split at h2
    · cases h2
      exact e
    · exact ih _ e h2

theorem tell_copied (h : CopiesOn copy ex) (e : Ev α) (i : ι) (s : St α M) (r : St α M × Bool)
    (hi : copy (u.react i e s).mem = s.items) (he : tell u ex e i s = some r) : Copied copy r.1 := by
  simp only [tell, Option.map_eq_some_iff] at he
  obtain ⟨r1, h1, rfl⟩ := he
  exact acts_copied h _ (look (u.react i e s).mem s) r1 hi h1

/-- Observers other than `j`, or events of no item. -/
theorem fireL_copied (hk : Keeps u copy j) (h : CopiesOn copy ex) (e : Ev α) (is : List ι) (hj : j ∈ is → ¬ e.OfItem) (s t : St α M)
    (hi : Copied copy s) (he : fireL u ex e is s = some t) : Copied copy t := by
  induction is generalizing s with
  | nil =>
    simp only [fireL, Option.some.injEq] at he
    exact he ▸ hi
  | cons i is ih =>
    simp only [fireL, Option.bind_eq_some_iff] at he
    obtain ⟨r1, h1, h2⟩ := he
    have k : Copied copy r1.1 := by
      refine tell_copied h e i s r1 ?_ h1
      by_cases hij : i = j
      · subst hij
        have : ¬ e.OfItem := hj (by simp)
        rw [hk.mine]
        cases e <;> first | exact hi | exact absurd trivial this
      · rw [hk.other i e s hij]
        exact hi
    split at h2
    · cases h2
      exact k
    · exact ih (fun hm => hj (by simp [hm])) _ k h2

/-- Observers other than `j` that do nothing. -/
theorem fireL_quiet (hk : Keeps u copy j) (e : Ev α) (is rest : List ι) (hj : j ∉ is)
    (hq : ∀ i ∈ is, ∀ s, (u.react i e s).acts = [] ∧ (u.react i e s).raises = false) (s t : St α M)
    (he : fireL u ex e (is ++ rest) s = some t) :
    ∃ s1, copy s1.mem = copy s.mem ∧ s1.items = s.items ∧ fireL u ex e rest s1 = some t := by
  induction is generalizing s with
  | nil => exact ⟨s, rfl, rfl, he⟩
  | cons i is ih =>
    simp only [List.cons_append, fireL, tell, (hq i (by simp) s).1, (hq i (by simp) s).2, acts, Option.map_some, Option.bind_some,
      Bool.or_false, Bool.false_eq_true, if_false] at he
    obtain ⟨s1, h1, h2, h3⟩ := ih (fun hm => hj (by simp [hm])) (fun k hm => hq k (by simp [hm])) _ he
    exact ⟨s1, h1.trans (hk.other i e s fun hij => hj (by simp [hij])), h2, h3⟩

theorem fire_other (hk : Keeps u copy j) (h : CopiesOn copy ex) (e : Ev α) (hn : ¬ e.OfItem) (s t : St α M)
    (hi : Copied copy s) (he : fire u ex e s = some t) : Copied copy t := by
  unfold fire at he
  refine fireL_copied hk h e _ (fun _ => hn) _ t ?_ he
  exact hi

/-- An event of an item, after the change. -/
theorem fire_item (hk : Keeps u copy j) (h : CopiesOn copy ex) (e : Ev α) (ho : e.OfItem) (s t : St α M)
    (hi : e.keep (copy s.mem) = s.items) (he : fire u ex e s = some t) : Copied copy t := by
  obtain ⟨pre, post, h1, h2, h3, h4⟩ := hk.early e ho
  unfold fire at he
  rw [h1] at he
  obtain ⟨s1, g1, g2, g3⟩ := fireL_quiet hk e pre _ h2 h4 _ t he
  simp only [fireL, Option.bind_eq_some_iff] at g3
  obtain ⟨r, f1, f2⟩ := g3
  have k : Copied copy r.1 := by
    refine tell_copied h e j s1 r ?_ f1
    rw [hk.mine, g1, g2]
    exact hi
  split at f2
  · cases f2
    exact k
  · exact fireL_copied hk h e post (fun hm => absurd hm h3) _ t k f2

/-- Nobody acts when told of the beginning of changes. -/
theorem fire_begin (hk : Keeps u copy j) (s t : St α M) (he : fire u ex .beginChanges s = some t) :
    copy t.mem = copy s.mem ∧ t.items = s.items := by
  have key : ∀ (is : List ι) (s t : St α M), (∀ i ∈ is, i ∈ u.obs .beginChanges) → fireL u ex .beginChanges is s = some t →
      copy t.mem = copy s.mem ∧ t.items = s.items := by
    intro is
    induction is with
    | nil =>
      intro s t hm he
      simp only [fireL, Option.some.injEq] at he
      subst he
      exact ⟨rfl, rfl⟩
    | cons i is ih =>
      intro s t hm he
      simp only [fireL, tell, hk.begins i (hm i (by simp)) s, acts, Option.map_some, Option.bind_some] at he
      have hc : copy (u.react i .beginChanges s).mem = copy s.mem := by
        by_cases hij : i = j
        · subst hij
          exact hk.mine _ _
        · exact hk.other _ _ _ hij
      split at he
      · cases he
        exact ⟨hc, rfl⟩
      · have := ih _ t (fun i h => hm i (by simp [h])) he
        exact ⟨this.1.trans hc, this.2⟩
  unfold fire at he
  have := key _ _ t (fun _ h => h) he
  exact this

theorem announce_copied (hk : Keeps u copy j) (h : CopiesOn copy ex) (e : Ev α) (ho : e.OfItem) (s t : St α M)
    (hi : e.keep (copy s.mem) = s.items) (he : announce u ex e s = some t) : Copied copy t := by
  simp only [announce, Option.bind_eq_some_iff] at he
  obtain ⟨t1, h1, t2, h2, h3⟩ := he
  obtain ⟨a, b⟩ := fire_begin hk s t1 h1
  refine fire_other hk h _ (by exact fun hx => hx) t2 t ?_ h3
  refine fire_item hk h e ho t1 t2 ?_ h2
  rw [a, b]
  exact hi

theorem popLoop_copied (hk : Keeps u copy j) (h : CopiesOn copy ex) (vs : List α) (s : St α M) (q : St α M × Bool)
    (hi : Copied copy s) (he : popLoop u ex vs s = some q) : Copied copy q.1 := by
  induction vs generalizing s with
  | nil =>
    simp only [popLoop, Option.some.injEq] at he
    exact he ▸ hi
  | cons v vs ih =>
    unfold popLoop at he
    split at he
    · cases he
      exact hi
    · rw [Option.bind_eq_some_iff] at he
      obtain ⟨t, h1, h2⟩ := he
      refine ih t ?_ h2
      refine fire_item hk h _ (by exact trivial) _ t ?_ h1
      show (copy s.mem).eraseIdx (s.items.length - 1) = s.items.dropLast
      rw [hi, Blocks.erase_last]

theorem appendLoop_copied (hk : Keeps u copy j) (h : CopiesOn copy ex) (vs : List α) (s t : St α M)
    (hi : Copied copy s) (he : appendLoop u ex vs s = some t) : Copied copy t := by
  induction vs generalizing s with
  | nil =>
    simp only [appendLoop, Option.some.injEq] at he
    exact he ▸ hi
  | cons v vs ih =>
    simp only [appendLoop, Option.bind_eq_some_iff] at he
    obtain ⟨t1, h1, h2⟩ := he
    refine ih t1 ?_ h2
    refine fire_item hk h _ (by exact trivial) _ t1 ?_ h1
    show Py.insert (copy s.mem) (s.items.length : ℕ) v = s.items ++ [v]
    rw [hi]
    exact Blocks.insert_end _ _

theorem insertedMaster_copied (hk : Keeps u copy j) (h : CopiesOn copy ex) (v : α) (s t : St α M) (hi : Copied copy s)
    (he : insertedMaster u ex v s = some t) : Copied copy t := by
  unfold insertedMaster at he
  split at he
  · cases he
    exact hi
  split at he
  · refine announce_copied hk h _ (by exact trivial) _ t ?_ he
    show Py.insert (copy s.mem) _ v = _
    rw [hi]
  · cases he
    exact hi

theorem erase_idxOf (l : List α) (v : α) : l.eraseIdx (l.idxOf v) = l.erase v := (List.erase_eq_eraseIdx_of_idxOf rfl).symm

theorem removedMaster_copied (hk : Keeps u copy j) (h : CopiesOn copy ex) (v : α) (s t : St α M) (hi : Copied copy s)
    (he : removedMaster u ex v s = some t) : Copied copy t := by
  unfold removedMaster at he
  split at he
  · cases he
    exact hi
  split at he
  · refine announce_copied hk h _ (by exact trivial) _ t ?_ he
    show (copy s.mem).eraseIdx (s.items.idxOf v) = _
    rw [hi, erase_idxOf]
  · cases he
    exact hi

theorem removeLoop_copied (hk : Keeps u copy j) (h : CopiesOn copy ex) (new vs : List α) (i r : ℕ) (s : St α M) (q : St α M × Bool)
    (hi : Copied copy s) (he : removeLoop u ex new vs i r s = some q) : Copied copy q.1 := by
  induction vs generalizing i r s with
  | nil =>
    simp only [removeLoop, Option.some.injEq] at he
    exact he ▸ hi
  | cons v vs ih =>
    unfold removeLoop at he
    split at he
    · exact ih _ _ _ hi he
    split at he
    · rw [Option.bind_eq_some_iff] at he
      obtain ⟨t, h1, h2⟩ := he
      refine ih _ _ t ?_ h2
      refine fire_item hk h _ (by exact trivial) _ t ?_ h1
      show (copy s.mem).eraseIdx _ = _
      rw [hi]
    · cases he
      exact hi

theorem insertLoop_copied (hk : Keeps u copy j) (h : CopiesOn copy ex) (new vs : List α) (s : St α M) (q : St α M × Bool)
    (hi : Copied copy s) (he : insertLoop u ex new vs s = some q) : Copied copy q.1 := by
  induction vs generalizing s with
  | nil =>
    simp only [insertLoop, Option.some.injEq] at he
    exact he ▸ hi
  | cons v vs ih =>
    unfold insertLoop at he
    split at he
    · cases he
      exact hi
    · rw [Option.bind_eq_some_iff] at he
      obtain ⟨t, h1, h2⟩ := he
      refine ih t ?_ h2
      refine announce_copied hk h _ (by exact trivial) _ t ?_ h1
      show Py.insert (copy s.mem) _ v = _
      rw [hi]

theorem updateItems_copied (hk : Keeps u copy j) (h : CopiesOn copy ex) (s : St α M) (q : St α M × Bool) (hi : Copied copy s)
    (he : updateItems u ex s = some q) : Copied copy q.1 := by
  unfold updateItems at he
  split at he
  · cases he
    exact hi
  rw [Option.bind_eq_some_iff] at he
  obtain ⟨t, h1, h2⟩ := he
  rw [Option.bind_eq_some_iff] at h2
  obtain ⟨r, h2, h3⟩ := h2
  have k1 : Copied copy t := by
    obtain ⟨a, b⟩ := fire_begin hk _ t h1
    exact a.trans (hi.trans b.symm)
  have k2 : Copied copy r.1 := by
    split at h2
    · simp only [incremental, Option.bind_eq_some_iff] at h2
      obtain ⟨p, g1, g2⟩ := h2
      have k := removeLoop_copied hk h _ _ _ _ _ p k1 g1
      split at g2
      · cases g2
        exact k
      · exact insertLoop_copied hk h _ _ _ r k g2
    · simp only [replace, Option.bind_eq_some_iff] at h2
      obtain ⟨p, g1, g2⟩ := h2
      have k := popLoop_copied hk h _ _ p k1 g1
      split at g2
      · cases g2
        exact k
      · rw [Option.map_eq_some_iff] at g2
        obtain ⟨w, g2, rfl⟩ := g2
        exact appendLoop_copied hk h _ _ w k g2
  split at h3
  · cases h3
    exact k2
  · rw [Option.map_eq_some_iff] at h3
    obtain ⟨w, h3, rfl⟩ := h3
    have k3 : Copied copy { r.1 with sorted := true, busy := s.busy } := k2
    exact fire_other hk h _ (by exact fun hx => hx) _ w k3 h3

theorem body_copied (hk : Keeps u copy j) (h : CopiesOn copy ex) : CopiesOn copy (body u ex) := by
  intro a s r hi he
  cases a with
  | insert i v =>
    simp only [body] at he
    split at he
    · cases he
      exact hi
    · rw [Option.bind_eq_some_iff] at he
      obtain ⟨t, h1, h2⟩ := he
      rw [Option.map_eq_some_iff] at h2
      obtain ⟨w, h2, rfl⟩ := h2
      refine fire_other hk h _ (by exact fun hx => hx) t w ?_ h2
      refine insertedMaster_copied hk h v _ t ?_ h1
      exact hi
  | remove i =>
    simp only [body] at he
    split at he
    · rw [Option.bind_eq_some_iff] at he
      obtain ⟨t, h1, h2⟩ := he
      rw [Option.map_eq_some_iff] at h2
      obtain ⟨w, h2, rfl⟩ := h2
      refine fire_other hk h _ (by exact fun hx => hx) t w ?_ h2
      refine removedMaster_copied hk h _ _ t ?_ h1
      exact hi
    · cases he
      exact hi
  | setFilter p =>
    simp only [body, Option.bind_eq_some_iff] at he
    obtain ⟨t, h1, h2⟩ := he
    refine updateItems_copied hk h t r ?_ h2
    refine fire_other hk h _ (by exact fun hx => hx) _ t ?_ h1
    exact hi
  | block as =>
    simp only [body, Option.bind_eq_some_iff] at he
    obtain ⟨p, h1, h2⟩ := he
    have k : Copied copy p.1 := by
      refine acts_copied h as _ p ?_ h1
      exact hi
    split at h2
    · rw [Option.map_eq_some_iff] at h2
      obtain ⟨q, h2, rfl⟩ := h2
      have k3 : Copied copy { p.1 with level := p.1.level - 1 } := k
      exact updateItems_copied hk h _ q k3 h2
    · cases h2
      exact k

theorem exec_copied (hk : Keeps u copy j) (n : ℕ) : CopiesOn copy (exec u n) := by
  induction n with
  | zero => intro a s r _ he; cases he
  | succ n ih => exact body_copied hk ih

/-- C192 (partial: nobody acts when told of the beginning of changes, and the observers told of items before the one that keeps the list
neither act nor raise then): a list kept from the item events is the list of items of a filtered list model with change blocks, whatever
others do when they are told of anything else, or of items after the list is changed, and also where the items are wrong (C185). -/
theorem C192_blocks_partial (u : Users ι α K M) (copy : M → List α) (j : ι) (hk : Keeps u copy j) (n : ℕ) (as : List (Act α))
    (s t : St α M) (hc : copy s.mem = s.items) (h : run (exec u n) as s = some t) : copy t.mem = t.items := by
  induction as generalizing s with
  | nil =>
    simp only [run, Option.some.injEq] at h
    exact h ▸ hc
  | cons a as ih =>
    simp only [run, Option.bind_eq_some_iff] at h
    obtain ⟨r, h1, h2⟩ := h
    exact ih _ (exec_copied hk n a s r hc h1) h2

/-! ### Cases -/

/-- Observer 0 keeps a list; observer 1 inserts 3 when it is told of item 1; observer 2 inserts 4 at the front when told of the beginning
of changes, unless 4 is there; observer 3 inserts 7 at the front when told of the end of changes of a list without 7; observer 4 raises
when told of item 1. -/
def keepReact (i : ℕ) (e : Ev ℕ) (s : St ℕ (List ℕ)) : Reaction ℕ (List ℕ) :=
  match i, e with
  | 0, e => ⟨e.keep s.mem, [], false⟩
  | 1, .inserted 1 _ => ⟨s.mem, [.insert 0 3], false⟩
  | 2, .beginChanges => ⟨s.mem, if 4 ∈ s.src then [] else [.insert 0 4], false⟩
  | 3, .endChanges => ⟨s.mem, if 7 ∈ s.src then [] else [.insert 0 7], false⟩
  | 4, .inserted 1 _ => ⟨s.mem, [], true⟩
  | _, _ => ⟨s.mem, [], false⟩

def keepUsers (is : List ℕ) : Users ℕ ℕ ℕ (List ℕ) := ⟨none, false, ⟨id, fun _ => .refl _⟩, fun _ => is, keepReact⟩

/-- Items and the list kept, after acts on a model of a source. -/
def keepRun (is : List ℕ) (src : List ℕ) (as : List (Act ℕ)) : Option (List ℕ × List ℕ) :=
  (run (exec (keepUsers is) 6) as { start (keepUsers is) src (fun _ => true) src with mem := src }).map fun s => (s.items, s.mem)

theorem keepUsers_keeps : Keeps (keepUsers [0, 1, 3, 4]) id 0 where
  mine := fun e s => by cases e <;> rfl
  other := fun i e s hi => by
    match i, e, hi with
    | 0, _, hi => exact absurd rfl hi
    | 1, .inserted 0 _, _ => rfl
    | 1, .inserted 1 _, _ => rfl
    | 1, .inserted (_ + 2) _, _ => rfl
    | 1, .removed _ _, _ | 1, .beginChanges, _ | 1, .endChanges, _ | 1, .reset, _ | 1, .srcInserted _ _, _ | 1, .srcRemoved _ _, _ => rfl
    | 2, .inserted _ _, _ | 2, .removed _ _, _ | 2, .beginChanges, _ | 2, .endChanges, _ | 2, .reset, _ | 2, .srcInserted _ _, _
    | 2, .srcRemoved _ _, _ => rfl
    | 3, .inserted _ _, _ | 3, .removed _ _, _ | 3, .beginChanges, _ | 3, .endChanges, _ | 3, .reset, _ | 3, .srcInserted _ _, _
    | 3, .srcRemoved _ _, _ => rfl
    | 4, .inserted 0 _, _ => rfl
    | 4, .inserted 1 _, _ => rfl
    | 4, .inserted (_ + 2) _, _ => rfl
    | 4, .removed _ _, _ | 4, .beginChanges, _ | 4, .endChanges, _ | 4, .reset, _ | 4, .srcInserted _ _, _ | 4, .srcRemoved _ _, _ => rfl
    | _ + 5, _, _ => rfl
  early := fun e _ => ⟨[], [1, 3, 4], rfl, by simp, by simp, by simp⟩
  begins := fun i hi s => by
    simp only [keepUsers, List.mem_cons, List.not_mem_nil, or_false] at hi
    rcases hi with rfl | rfl | rfl | rfl <;> rfl

/-- The theorem in a case: observers insert while they are told of items and of the end of changes, and one raises. -/
example : ∃ s, run (exec (keepUsers [0, 1, 3, 4]) 6) [.insert 0 1, .setFilter (· ≠ 5), .block [.remove 0, .insert 0 8]]
    { start (keepUsers [0, 1, 3, 4]) [5] (fun _ => true) [5] with mem := [5] } = some s ∧ s.items = [7, 8, 3, 1] ∧ id s.mem = s.items := by
  have h : keepRun [0, 1, 3, 4] [5] [.insert 0 1, .setFilter (· ≠ 5), .block [.remove 0, .insert 0 8]] =
    some ([7, 8, 3, 1], [7, 8, 3, 1]) := by decide +kernel
  obtain ⟨s, h1, h2⟩ := Option.map_eq_some_iff.1 h
  exact ⟨s, h1, (Prod.mk.inj h2).1, C192_blocks_partial _ id 0 keepUsers_keeps 6 _ _ s (by decide +kernel) h1⟩

/-- C192: an observer told before it inserts into the source. -/
theorem C192_counterexample_before : keepRun [1, 0] [] [.insert 0 1] = some ([3, 1], [1, 3]) := by decide +kernel

/-- C192: an observer inserts into the source when told of the beginning of changes, wherever it stands. -/
theorem C192_counterexample_begin : keepRun [0, 2] [] [.insert 0 1] = some ([4, 1], [1, 4]) := by decide +kernel

/-- C192: an observer told before it raises. -/
theorem C192_counterexample_raises : keepRun [4, 0] [] [.insert 0 1] = some ([1], []) := by decide +kernel

end Verif.ListModel.Blocks

namespace Verif.ListModel.FilteredReentrant

variable {ι α C K M : Type} [DecidableEq α] [LinearOrder K]

/-- What an observer that keeps a list does with it when it is told. -/
def Ev.keep : Ev α → List α → List α
  | .inserted v i, l => Py.insert l i v
  | .removed _ i, l => l.eraseIdx i
  | _, l => l

/-- Whether the event is of an item of the model. -/
def Ev.OfItem : Ev α → Prop
  | .inserted _ _ => True
  | .removed _ _ => True
  | _ => False

/-- Observer `j` keeps the list `copy`; it is told once of every item, and those told before it do nothing then, and
nobody acts when told of the beginning of changes. -/
structure Keeps (u : Users ι α C K M) (copy : M → List α) (j : ι) : Prop where
  mine : ∀ e s, copy (u.react j e s).mem = e.keep (copy s.mem)
  other : ∀ i e s, i ≠ j → copy (u.react i e s).mem = copy s.mem
  early : ∀ e : Ev α, e.OfItem → ∃ pre post : List ι, u.obs e = pre ++ j :: post ∧ j ∉ pre ∧ j ∉ post ∧
    ∀ i ∈ pre, ∀ s, (u.react i e s).acts = [] ∧ (u.react i e s).raises = false
  begins : ∀ i ∈ u.obs .beginChanges, ∀ s, (u.react i .beginChanges s).acts = []

variable {u : Users ι α C K M} {ex : Exec α C K M} {s t : St α C K M} {copy : M → List α} {j : ι}

def Copied (copy : M → List α) (s : St α C K M) : Prop := copy s.mem = s.items

def CopiesOn (copy : M → List α) (ex : Exec α C K M) : Prop := ∀ a s r, Copied copy s → ex a s = some r → Copied copy r.1

theorem acts_copied (h : CopiesOn copy ex) (as : List (Act α C K)) (s : St α C K M) (r : St α C K M × Bool) (hi : Copied copy s)
    (he : acts ex as s = some r) : Copied copy r.1 := by
  induction as generalizing s with
  | nil =>
    simp only [acts, Option.some.injEq] at he
    exact he ▸ hi
  | cons a as ih =>
    simp only [acts, Option.bind_eq_some_iff] at he
    obtain ⟨r1, h1, h2⟩ := he
    have e := h a s r1 hi h1
    split at h2
    · cases h2
      exact e
    · exact ih _ e h2

theorem tell_copied (h : CopiesOn copy ex) (e : Ev α) (i : ι) (s : St α C K M) (r : St α C K M × Bool)
    (hi : copy (u.react i e s).mem = s.items) (he : tell u ex e i s = some r) : Copied copy r.1 := by
  simp only [tell, Option.map_eq_some_iff] at he
  obtain ⟨r1, h1, rfl⟩ := he
  exact acts_copied h _ (look (u.react i e s).mem s) r1 hi h1

/-- Observers other than `j`, or events of no item. -/
theorem fireL_copied (hk : Keeps u copy j) (h : CopiesOn copy ex) (e : Ev α) (is : List ι) (hj : j ∈ is → ¬ e.OfItem) (s t : St α C K M)
    (hi : Copied copy s) (he : fireL u ex e is s = some t) : Copied copy t := by
  induction is generalizing s with
  | nil =>
    simp only [fireL, Option.some.injEq] at he
    exact he ▸ hi
  | cons i is ih =>
    simp only [fireL, Option.bind_eq_some_iff] at he
    obtain ⟨r1, h1, h2⟩ := he
    have k : Copied copy r1.1 := by
      refine tell_copied h e i s r1 ?_ h1
      by_cases hij : i = j
      · subst hij
        have : ¬ e.OfItem := hj (by simp)
        rw [hk.mine]
        cases e <;> first | exact hi | exact absurd trivial this
      · rw [hk.other i e s hij]
        exact hi
    split at h2
    · cases h2
      exact k
    · exact ih (fun hm => hj (by simp [hm])) _ k h2

/-- Observers other than `j` that do nothing. -/
theorem fireL_quiet (hk : Keeps u copy j) (e : Ev α) (is rest : List ι) (hj : j ∉ is)
    (hq : ∀ i ∈ is, ∀ s, (u.react i e s).acts = [] ∧ (u.react i e s).raises = false) (s t : St α C K M)
    (he : fireL u ex e (is ++ rest) s = some t) :
    ∃ s1, copy s1.mem = copy s.mem ∧ s1.items = s.items ∧ fireL u ex e rest s1 = some t := by
  induction is generalizing s with
  | nil => exact ⟨s, rfl, rfl, he⟩
  | cons i is ih =>
    simp only [List.cons_append, fireL, tell, (hq i (by simp) s).1, (hq i (by simp) s).2, acts, Option.map_some, Option.bind_some,
      Bool.or_false, Bool.false_eq_true, if_false] at he
    obtain ⟨s1, h1, h2, h3⟩ := ih (fun hm => hj (by simp [hm])) (fun k hm => hq k (by simp [hm])) _ he
    exact ⟨s1, h1.trans (hk.other i e s fun hij => hj (by simp [hij])), h2, h3⟩

theorem fire_other (hk : Keeps u copy j) (h : CopiesOn copy ex) (e : Ev α) (hn : ¬ e.OfItem) (s t : St α C K M)
    (hi : Copied copy s) (he : fire u ex e s = some t) : Copied copy t := by
  unfold fire at he
  refine fireL_copied hk h e _ (fun _ => hn) _ t ?_ he
  exact hi

/-- An event of an item, after the change. -/
theorem fire_item (hk : Keeps u copy j) (h : CopiesOn copy ex) (e : Ev α) (ho : e.OfItem) (s t : St α C K M)
    (hi : e.keep (copy s.mem) = s.items) (he : fire u ex e s = some t) : Copied copy t := by
  obtain ⟨pre, post, h1, h2, h3, h4⟩ := hk.early e ho
  unfold fire at he
  rw [h1] at he
  obtain ⟨s1, g1, g2, g3⟩ := fireL_quiet hk e pre _ h2 h4 _ t he
  simp only [fireL, Option.bind_eq_some_iff] at g3
  obtain ⟨r, f1, f2⟩ := g3
  have k : Copied copy r.1 := by
    refine tell_copied h e j s1 r ?_ f1
    rw [hk.mine, g1, g2]
    exact hi
  split at f2
  · cases f2
    exact k
  · exact fireL_copied hk h e post (fun hm => absurd hm h3) _ t k f2

/-- Nobody acts when told of the beginning of changes. -/
theorem fire_begin (hk : Keeps u copy j) (s t : St α C K M) (he : fire u ex .beginChanges s = some t) :
    copy t.mem = copy s.mem ∧ t.items = s.items := by
  have key : ∀ (is : List ι) (s t : St α C K M), (∀ i ∈ is, i ∈ u.obs .beginChanges) → fireL u ex .beginChanges is s = some t →
      copy t.mem = copy s.mem ∧ t.items = s.items := by
    intro is
    induction is with
    | nil =>
      intro s t hm he
      simp only [fireL, Option.some.injEq] at he
      subst he
      exact ⟨rfl, rfl⟩
    | cons i is ih =>
      intro s t hm he
      simp only [fireL, tell, hk.begins i (hm i (by simp)) s, acts, Option.map_some, Option.bind_some] at he
      have hc : copy (u.react i .beginChanges s).mem = copy s.mem := by
        by_cases hij : i = j
        · subst hij
          exact hk.mine _ _
        · exact hk.other _ _ _ hij
      split at he
      · cases he
        exact ⟨hc, rfl⟩
      · have := ih _ t (fun i h => hm i (by simp [h])) he
        exact ⟨this.1.trans hc, this.2⟩
  unfold fire at he
  have := key _ _ t (fun _ h => h) he
  exact this

theorem announce_copied (hk : Keeps u copy j) (h : CopiesOn copy ex) (e : Ev α) (ho : e.OfItem) (s t : St α C K M)
    (hi : e.keep (copy s.mem) = s.items) (he : announce u ex e s = some t) : Copied copy t := by
  simp only [announce, Option.bind_eq_some_iff] at he
  obtain ⟨t1, h1, t2, h2, h3⟩ := he
  obtain ⟨a, b⟩ := fire_begin hk s t1 h1
  refine fire_other hk h _ (by exact fun hx => hx) t2 t ?_ h3
  refine fire_item hk h e ho t1 t2 ?_ h2
  rw [a, b]
  exact hi

theorem popLoop_copied (hk : Keeps u copy j) (h : CopiesOn copy ex) (vs : List α) (s : St α C K M) (q : St α C K M × Bool)
    (hi : Copied copy s) (he : popLoop u ex vs s = some q) : Copied copy q.1 := by
  induction vs generalizing s with
  | nil =>
    simp only [popLoop, Option.some.injEq] at he
    exact he ▸ hi
  | cons v vs ih =>
    unfold popLoop at he
    split at he
    · cases he
      exact hi
    · rw [Option.bind_eq_some_iff] at he
      obtain ⟨t, h1, h2⟩ := he
      refine ih t ?_ h2
      refine fire_item hk h _ (by exact trivial) _ t ?_ h1
      show (copy s.mem).eraseIdx (s.items.length - 1) = s.items.dropLast
      rw [hi, Blocks.erase_last]

theorem appendLoop_copied (hk : Keeps u copy j) (h : CopiesOn copy ex) (vs : List α) (s t : St α C K M)
    (hi : Copied copy s) (he : appendLoop u ex vs s = some t) : Copied copy t := by
  induction vs generalizing s with
  | nil =>
    simp only [appendLoop, Option.some.injEq] at he
    exact he ▸ hi
  | cons v vs ih =>
    simp only [appendLoop, Option.bind_eq_some_iff] at he
    obtain ⟨t1, h1, h2⟩ := he
    refine ih t1 ?_ h2
    refine fire_item hk h _ (by exact trivial) _ t1 ?_ h1
    show Py.insert (copy s.mem) (s.items.length : ℕ) v = s.items ++ [v]
    rw [hi]
    exact Blocks.insert_end _ _

theorem insertedMaster_copied (hk : Keeps u copy j) (h : CopiesOn copy ex) (v : α) (s t : St α C K M) (hi : Copied copy s)
    (he : insertedMaster u ex v s = some t) : Copied copy t := by
  unfold insertedMaster at he
  split at he
  · refine announce_copied hk h _ (by exact trivial) _ t ?_ he
    show Py.insert (copy s.mem) _ v = Py.insert s.items _ v
    rw [hi]
  · cases he
    exact hi

theorem removedMaster_copied (hk : Keeps u copy j) (h : CopiesOn copy ex) (v : α) (s t : St α C K M) (hi : Copied copy s)
    (he : removedMaster u ex v s = some t) : Copied copy t := by
  unfold removedMaster at he
  split at he
  · refine announce_copied hk h _ (by exact trivial) _ t ?_ he
    show (copy s.mem).eraseIdx (s.items.idxOf v) = _
    rw [hi, Blocks.erase_idxOf]
  · cases he
    exact hi

theorem updatedMaster_copied (hk : Keeps u copy j) (h : CopiesOn copy ex) (v : α) (s t : St α C K M) (hi : Copied copy s)
    (he : updatedMaster u ex v s = some t) : Copied copy t := by
  unfold updatedMaster at he
  split at he
  · split at he
    · split at he
      · split at he
        · cases he
          exact hi
        · simp only [move, Option.bind_eq_some_iff] at he
          obtain ⟨t1, h1, h2⟩ := he
          have k1 : Copied copy t1 := by
            refine removedMaster_copied hk h v _ t1 ?_ h1
            exact hi
          refine insertedMaster_copied hk h v _ t ?_ h2
          exact k1
      · exact insertedMaster_copied hk h v s t hi he
    · split at he
      · cases he
        exact hi
      · exact insertedMaster_copied hk h v s t hi he
  · exact removedMaster_copied hk h v s t hi he

theorem updateItems_copied (hk : Keeps u copy j) (h : CopiesOn copy ex) (s : St α C K M) (q : St α C K M × Bool) (hi : Copied copy s)
    (he : updateItems u ex s = some q) : Copied copy q.1 := by
  unfold updateItems at he
  split at he
  · split at he
    · rw [Option.bind_eq_some_iff] at he
      obtain ⟨t, h1, h2⟩ := he
      obtain ⟨a, b⟩ := fire_begin hk _ t h1
      split at h2
      · rw [Option.map_eq_some_iff] at h2
        obtain ⟨w, h2, rfl⟩ := h2
        refine fire_other hk h _ (by exact fun hx => hx) _ w ?_ h2
        exact a.trans (hi.trans b.symm)
      · cases h2
    · cases he
  · rw [Option.bind_eq_some_iff] at he
    obtain ⟨r, h2, h3⟩ := he
    have k2 : Copied copy r.1 := by
      simp only [replace, Option.bind_eq_some_iff] at h2
      obtain ⟨t, h1, h2⟩ := h2
      obtain ⟨a, b⟩ := fire_begin hk _ t h1
      have k1 : Copied copy t := a.trans (hi.trans b.symm)
      split at h2
      · cases h2
      rw [Option.bind_eq_some_iff] at h2
      obtain ⟨p, g1, g2⟩ := h2
      have k := popLoop_copied hk h _ _ p k1 g1
      split at g2
      · cases g2
        exact k
      · rw [Option.map_eq_some_iff] at g2
        obtain ⟨w, g2, rfl⟩ := g2
        exact appendLoop_copied hk h _ _ w k g2
    split at h3
    · cases h3
      exact k2
    · rw [Option.map_eq_some_iff] at h3
      obtain ⟨w, h3, rfl⟩ := h3
      have k3 : Copied copy { r.1 with sorted := true, busy := s.busy } := k2
      exact fire_other hk h _ (by exact fun hx => hx) _ w k3 h3

theorem assigned_copied (hk : Keeps u copy j) (h : CopiesOn copy ex) (s : St α C K M) (q : St α C K M × Bool) (hi : Copied copy s)
    (he : assigned u ex s = some q) : Copied copy q.1 := by
  simp only [assigned, Option.bind_eq_some_iff] at he
  obtain ⟨t, h1, h2⟩ := he
  refine updateItems_copied hk h t q ?_ h2
  refine fire_other hk h _ (by exact fun hx => hx) _ t ?_ h1
  exact hi

theorem body_copied (hk : Keeps u copy j) (h : CopiesOn copy ex) : CopiesOn copy (body u ex) := by
  intro a s r hi he
  cases a with
  | insert i v =>
    simp only [body] at he
    split at he
    · cases he
      exact hi
    · rw [Option.bind_eq_some_iff] at he
      obtain ⟨t, h1, h2⟩ := he
      rw [Option.map_eq_some_iff] at h2
      obtain ⟨w, h2, rfl⟩ := h2
      refine fire_other hk h _ (by exact fun hx => hx) t w ?_ h2
      refine insertedMaster_copied hk h v _ t ?_ h1
      exact hi
  | remove i =>
    simp only [body] at he
    split at he
    · rw [Option.bind_eq_some_iff] at he
      obtain ⟨t, h1, h2⟩ := he
      rw [Option.map_eq_some_iff] at h2
      obtain ⟨w, h2, rfl⟩ := h2
      refine fire_other hk h _ (by exact fun hx => hx) t w ?_ h2
      refine removedMaster_copied hk h _ _ t ?_ h1
      exact hi
    · cases he
      exact hi
  | change v c =>
    simp only [body] at he
    split at he
    · rw [Option.map_eq_some_iff] at he
      obtain ⟨w, he, rfl⟩ := he
      refine updatedMaster_copied hk h v _ w ?_ he
      exact hi
    · cases he
      exact hi
  | setFilter p => exact assigned_copied hk h { touch s with filter := p } r hi he
  | setKey k => exact assigned_copied hk h { touch s with key := k } r hi he
  | setReverse b => exact assigned_copied hk h { touch s with reverse := b } r hi he

theorem exec_copied (hk : Keeps u copy j) (n : ℕ) : CopiesOn copy (exec u n) := by
  induction n with
  | zero => intro a s r _ he; cases he
  | succ n ih => exact body_copied hk ih

/-- C192 (partial as `C192_blocks_partial`): the same with items that change their contents, and assignments of sort key and order. -/
theorem C192_changes_partial (u : Users ι α C K M) (copy : M → List α) (j : ι) (hk : Keeps u copy j) (n : ℕ) (as : List (Act α C K))
    (s t : St α C K M) (hc : copy s.mem = s.items) (h : run (exec u n) as s = some t) : copy t.mem = t.items := by
  induction as generalizing s with
  | nil =>
    simp only [run, Option.some.injEq] at h
    exact h ▸ hc
  | cons a as ih =>
    simp only [run, Option.bind_eq_some_iff] at h
    obtain ⟨r, h1, h2⟩ := h
    exact ih _ (exec_copied hk n a s r hc h1) h2

/-! ### Cases -/

/-- Observer 0 keeps a list; observer 1 changes item 5 when it is told that it is removed (as when it is moved). -/
def keepReact (i : ℕ) (e : Ev ℕ) (s : St ℕ ℕ ℕ (List ℕ)) : Reaction ℕ ℕ ℕ (List ℕ) :=
  match i with
  | 0 => ⟨e.keep s.mem, [], false⟩
  | _ => ⟨s.mem, if e = .removed 5 0 then [.change 5 15] else [], false⟩

def keepUsers (is : List ℕ) : Users ℕ ℕ ℕ ℕ (List ℕ) := ⟨fun _ => is, keepReact⟩

def keepRun (is : List ℕ) (as : List (Act ℕ ℕ ℕ)) : Option (List ℕ × List ℕ) :=
  (run (exec (keepUsers is) 8) as (start [5, 10, 20] id (fun _ => true) (some id) false [5, 10, 20])).map fun s => (s.items, s.mem)

theorem keepUsers_keeps : Keeps (keepUsers [0, 1]) id 0 where
  mine := fun e s => by cases e <;> rfl
  other := fun i e s hi => by
    cases i with
    | zero => exact absurd rfl hi
    | succ i => rfl
  early := fun e _ => ⟨[], [1], rfl, by simp, by simp, by simp⟩
  begins := fun i hi s => by
    simp only [keepUsers, List.mem_cons, List.not_mem_nil, or_false] at hi
    rcases hi with rfl | rfl <;> rfl

/-- The theorem in a case where an item is there twice (C182). -/
example : ∃ s, run (exec (keepUsers [0, 1]) 8) [.change 5 30] (start [5, 10, 20] id (fun _ => true) (some id) false [5, 10, 20]) = some s ∧
    s.items = [10, 5, 5, 20] ∧ id s.mem = s.items := by
  have h : keepRun [0, 1] [.change 5 30] = some ([10, 5, 5, 20], [10, 5, 5, 20]) := by decide +kernel
  obtain ⟨s, h1, h2⟩ := Option.map_eq_some_iff.1 h
  exact ⟨s, h1, (Prod.mk.inj h2).1, C192_changes_partial _ id 0 keepUsers_keeps 8 _ _ s (by decide +kernel) h1⟩

/-- C192: told after the observer that changes the item, the list kept has another order than the items. -/
theorem C192_counterexample_changes : keepRun [1, 0] [.change 5 30] = some ([10, 5, 5, 20], [5, 5, 10, 20]) := by decide +kernel

end Verif.ListModel.FilteredReentrant

namespace Verif.ListModel.FlattenedReentrant

variable {ι α β M : Type} [DecidableEq α]

/-- What an observer that keeps a list does with it when it is told. -/
def Ev.keep : Ev α β → List β → List β
  | .inserted v i, l => Py.insert l i v
  | .removed _ i, l => l.eraseIdx i
  | _, l => l

/-- Whether the event is of an item of the model. -/
def Ev.OfItem : Ev α β → Prop
  | .inserted _ _ => True
  | .removed _ _ => True
  | _ => False

/-- Observer `j` keeps the list `copy`; it is told once of every item, and those told before it do nothing then. -/
structure Keeps (u : Users ι α β M) (copy : M → List β) (j : ι) : Prop where
  mine : ∀ e s, copy (u.react j e s).mem = e.keep (copy s.mem)
  other : ∀ i e s, i ≠ j → copy (u.react i e s).mem = copy s.mem
  early : ∀ e : Ev α β, e.OfItem → ∃ pre post : List ι, u.obs e = pre ++ j :: post ∧ j ∉ pre ∧ j ∉ post ∧
    ∀ i ∈ pre, ∀ s, (u.react i e s).acts = [] ∧ (u.react i e s).raises = false

variable {u : Users ι α β M} {ex : Exec α β M} {s t : St α β M} {copy : M → List β} {j : ι}

def Copied (copy : M → List β) (s : St α β M) : Prop := copy s.mem = s.items

def CopiesOn (copy : M → List β) (ex : Exec α β M) : Prop := ∀ a s r, Copied copy s → ex a s = some r → Copied copy r.1

theorem acts_copied (h : CopiesOn copy ex) (as : List (Act α β)) (s : St α β M) (r : St α β M × Bool) (hi : Copied copy s)
    (he : acts ex as s = some r) : Copied copy r.1 := by
  induction as generalizing s with
  | nil =>
    simp only [acts, Option.some.injEq] at he
    exact he ▸ hi
  | cons a as ih =>
    simp only [acts, Option.bind_eq_some_iff] at he
    obtain ⟨r1, h1, h2⟩ := he
    have e := h a s r1 hi h1
    split at h2
    · cases h2
      exact e
    · exact ih _ e h2

theorem tell_copied (h : CopiesOn copy ex) (e : Ev α β) (i : ι) (s : St α β M) (r : St α β M × Bool)
    (hi : copy (u.react i e s).mem = s.items) (he : tell u ex e i s = some r) : Copied copy r.1 := by
  simp only [tell, Option.map_eq_some_iff] at he
  obtain ⟨r1, h1, rfl⟩ := he
  exact acts_copied h _ (look (u.react i e s).mem s) r1 hi h1

/-- Observers other than `j`, or events of no item. -/
theorem fireL_copied (hk : Keeps u copy j) (h : CopiesOn copy ex) (e : Ev α β) (is : List ι) (hj : j ∈ is → ¬ e.OfItem) (s t : St α β M)
    (hi : Copied copy s) (he : fireL u ex e is s = some t) : Copied copy t := by
  induction is generalizing s with
  | nil =>
    simp only [fireL, Option.some.injEq] at he
    exact he ▸ hi
  | cons i is ih =>
    simp only [fireL, Option.bind_eq_some_iff] at he
    obtain ⟨r1, h1, h2⟩ := he
    have k : Copied copy r1.1 := by
      refine tell_copied h e i s r1 ?_ h1
      by_cases hij : i = j
      · subst hij
        have : ¬ e.OfItem := hj (by simp)
        rw [hk.mine]
        cases e <;> first | exact hi | exact absurd trivial this
      · rw [hk.other i e s hij]
        exact hi
    split at h2
    · cases h2
      exact k
    · exact ih (fun hm => hj (by simp [hm])) _ k h2

/-- Observers other than `j` that do nothing. -/
theorem fireL_quiet (hk : Keeps u copy j) (e : Ev α β) (is rest : List ι) (hj : j ∉ is)
    (hq : ∀ i ∈ is, ∀ s, (u.react i e s).acts = [] ∧ (u.react i e s).raises = false) (s t : St α β M)
    (he : fireL u ex e (is ++ rest) s = some t) :
    ∃ s1, copy s1.mem = copy s.mem ∧ s1.items = s.items ∧ fireL u ex e rest s1 = some t := by
  induction is generalizing s with
  | nil => exact ⟨s, rfl, rfl, he⟩
  | cons i is ih =>
    simp only [List.cons_append, fireL, tell, (hq i (by simp) s).1, (hq i (by simp) s).2, acts, Option.map_some, Option.bind_some,
      Bool.or_false, Bool.false_eq_true, if_false] at he
    obtain ⟨s1, h1, h2, h3⟩ := ih (fun hm => hj (by simp [hm])) (fun k hm => hq k (by simp [hm])) _ he
    exact ⟨s1, h1.trans (hk.other i e s fun hij => hj (by simp [hij])), h2, h3⟩

theorem fire_other (hk : Keeps u copy j) (h : CopiesOn copy ex) (e : Ev α β) (hn : ¬ e.OfItem) (s t : St α β M)
    (hi : Copied copy s) (he : fire u ex e s = some t) : Copied copy t := by
  unfold fire at he
  refine fireL_copied hk h e _ (fun _ => hn) _ t ?_ he
  exact hi

/-- An event of an item, after the change. -/
theorem fire_item (hk : Keeps u copy j) (h : CopiesOn copy ex) (e : Ev α β) (ho : e.OfItem) (s t : St α β M)
    (hi : e.keep (copy s.mem) = s.items) (he : fire u ex e s = some t) : Copied copy t := by
  obtain ⟨pre, post, h1, h2, h3, h4⟩ := hk.early e ho
  unfold fire at he
  rw [h1] at he
  obtain ⟨s1, g1, g2, g3⟩ := fireL_quiet hk e pre _ h2 h4 _ t he
  simp only [fireL, Option.bind_eq_some_iff] at g3
  obtain ⟨r, f1, f2⟩ := g3
  have k : Copied copy r.1 := by
    refine tell_copied h e j s1 r ?_ f1
    rw [hk.mine, g1, g2]
    exact hi
  split at f2
  · cases f2
    exact k
  · exact fireL_copied hk h e post (fun hm => absurd hm h3) _ t k f2

theorem childInserted_copied (hk : Keeps u copy j) (h : CopiesOn copy ex) (m : α) (c : β) (i : ℕ) (s t : St α β M) (hi : Copied copy s)
    (he : childInserted u ex m c i s = some t) : Copied copy t := by
  refine fire_item hk h _ (by exact trivial) _ t ?_ he
  show Py.insert (copy s.mem) _ c = Py.insert s.items _ c
  rw [hi]

theorem childRemoved_copied (hk : Keeps u copy j) (h : CopiesOn copy ex) (m : α) (c : β) (i : ℕ) (s : St α β M) (q : St α β M × Bool)
    (hi : Copied copy s) (he : childRemoved u ex m c i s = some q) : Copied copy q.1 := by
  unfold childRemoved at he
  split at he
  · split at he
    · rw [Option.map_eq_some_iff] at he
      obtain ⟨w, he, rfl⟩ := he
      refine fire_item hk h _ (by exact trivial) _ w ?_ he
      show (copy s.mem).eraseIdx _ = s.items.eraseIdx _
      rw [hi]
    · cases he
      exact hi
  · cases he
    exact hi

theorem insertKids_copied (hk : Keeps u copy j) (h : CopiesOn copy ex) (m : α) (n k : ℕ) (s t : St α β M) (hi : Copied copy s)
    (he : insertKids u ex m n k s = some t) : Copied copy t := by
  induction n generalizing k s with
  | zero => cases he
  | succ n ih =>
    unfold insertKids at he
    split at he
    · cases he
      exact hi
    · rw [Option.bind_eq_some_iff] at he
      obtain ⟨t1, h1, h2⟩ := he
      exact ih _ t1 (childInserted_copied hk h m _ _ s t1 hi h1) h2

theorem removeKids_copied (hk : Keeps u copy j) (h : CopiesOn copy ex) (m : α) (cs : List β) (n : ℕ) (s : St α β M) (q : St α β M × Bool)
    (hi : Copied copy s) (he : removeKids u ex m cs n s = some q) : Copied copy q.1 := by
  induction n generalizing s with
  | zero =>
    simp only [removeKids, Option.some.injEq] at he
    exact he ▸ hi
  | succ n ih =>
    unfold removeKids at he
    split at he
    · cases he
      exact hi
    · rw [Option.bind_eq_some_iff] at he
      obtain ⟨r, h1, h2⟩ := he
      have k := childRemoved_copied hk h m _ _ s r hi h1
      split at h2
      · cases h2
        exact k
      · exact ih _ k h2

theorem masterInserted_copied (hk : Keeps u copy j) (h : CopiesOn copy ex) (n : ℕ) (m : α) (i : ℕ) (s : St α β M) (q : St α β M × Bool)
    (hi : Copied copy s) (he : masterInserted u ex n m i s = some q) : Copied copy q.1 := by
  unfold masterInserted at he
  split at he
  · cases he
    exact hi
  · rw [Option.map_eq_some_iff] at he
    obtain ⟨w, he, rfl⟩ := he
    have : Copied copy w := by
      refine insertKids_copied hk h m n 0 _ w ?_ he
      exact hi
    exact this

theorem masterGone_copied (m : α) (i : ℕ) (s : St α β M) (hi : Copied copy s) : Copied copy (masterGone m i s).1 := by
  unfold masterGone
  split_ifs <;> exact hi

theorem masterRemoved_copied (hk : Keeps u copy j) (h : CopiesOn copy ex) (m : α) (i : ℕ) (s : St α β M) (q : St α β M × Bool)
    (hi : Copied copy s) (he : masterRemoved u ex m i s = some q) : Copied copy q.1 := by
  simp only [masterRemoved, Option.map_eq_some_iff] at he
  obtain ⟨r, h1, h2⟩ := he
  have k : Copied copy r.1 := by
    refine removeKids_copied hk h m _ _ _ r ?_ h1
    exact hi
  split at h2
  · rw [← h2]
    exact k
  · rw [← h2]
    exact masterGone_copied m i _ k

theorem others_copied (hk : Keeps u copy j) (h : CopiesOn copy ex) (e : Ev α β) (hn : ¬ e.OfItem) (r q : St α β M × Bool)
    (hi : Copied copy r.1) (he : others u ex e r = some q) : Copied copy q.1 := by
  unfold others at he
  split at he
  · cases he
    exact hi
  · rw [Option.map_eq_some_iff] at he
    obtain ⟨w, he, rfl⟩ := he
    exact fire_other hk h e hn _ w hi he

theorem body_copied (hk : Keeps u copy j) (n : ℕ) (h : CopiesOn copy ex) : CopiesOn copy (body u n ex) := by
  intro a s r hi he
  cases a with
  | insertMaster i m =>
    simp only [body] at he
    split at he
    · cases he
      exact hi
    · rw [Option.bind_eq_some_iff] at he
      obtain ⟨t, h1, h2⟩ := he
      refine others_copied hk h _ (by exact fun hx => hx) t r ?_ h2
      refine masterInserted_copied hk h n m i _ t ?_ h1
      exact hi
  | removeMaster i =>
    simp only [body] at he
    split at he
    · rw [Option.bind_eq_some_iff] at he
      obtain ⟨t, h1, h2⟩ := he
      refine others_copied hk h _ (by exact fun hx => hx) t r ?_ h2
      refine masterRemoved_copied hk h _ i _ t ?_ h1
      exact hi
    · cases he
      exact hi
  | insertChild m i c =>
    simp only [body] at he
    split at he
    · rw [Option.bind_eq_some_iff] at he
      obtain ⟨t, h1, h2⟩ := he
      refine others_copied hk h _ (by exact fun hx => hx) (t, false) r ?_ h2
      split at h1
      · refine childInserted_copied hk h m c i _ t ?_ h1
        exact hi
      · cases h1
        exact hi
    · cases he
      exact hi
  | removeChild m i =>
    simp only [body] at he
    split at he
    · rw [Option.bind_eq_some_iff] at he
      obtain ⟨t, h1, h2⟩ := he
      refine others_copied hk h _ (by exact fun hx => hx) t r ?_ h2
      split at h1
      · refine childRemoved_copied hk h m _ i _ t ?_ h1
        exact hi
      · cases h1
        exact hi
    · cases he
      exact hi

theorem exec_copied (hk : Keeps u copy j) (n : ℕ) : CopiesOn copy (exec u n) := by
  induction n with
  | zero => intro a s r _ he; cases he
  | succ n ih => exact body_copied hk n ih

/-- C192 (partial: the observers told of items before the one that keeps the list neither act nor raise then): a list kept from the item
events is the list of items of a flattened list model, whatever others do, and also where the items are wrong (C183). -/
theorem C192_flattened_partial (u : Users ι α β M) (copy : M → List β) (j : ι) (hk : Keeps u copy j) (n : ℕ) (as : List (Act α β))
    (s t : St α β M) (hc : copy s.mem = s.items) (h : run (exec u n) as s = some t) : copy t.mem = t.items := by
  induction as generalizing s with
  | nil =>
    simp only [run, Option.some.injEq] at h
    exact h ▸ hc
  | cons a as ih =>
    simp only [run, Option.bind_eq_some_iff] at h
    obtain ⟨r, h1, h2⟩ := h
    exact ih _ (exec_copied hk n a s r hc h1) h2

/-! ### Cases -/

/-- Observer 0 keeps a list; observer 1 removes the first master item when it is told of item 10, observer 2 inserts one. -/
def keepReact (i : ℕ) (e : Ev ℕ ℕ) (s : St ℕ ℕ (List ℕ)) : Reaction ℕ ℕ (List ℕ) :=
  match i with
  | 0 => ⟨e.keep s.mem, [], false⟩
  | 1 => ⟨s.mem, if e = .inserted 10 0 then [.removeMaster 0] else [], false⟩
  | _ => ⟨s.mem, if e = .inserted 10 0 then [.insertMaster 0 3] else [], false⟩

def keepUsers (is : List ℕ) : Users ℕ ℕ ℕ (List ℕ) := ⟨fun _ => is, keepReact⟩

def keepRun (is : List ℕ) (as : List (Act ℕ ℕ)) : Option (List ℕ × List ℕ) :=
  (run (exec (keepUsers is) 8) as (start [] (fun m => [10 * m, 10 * m + 1]) [])).map fun s => (s.items, s.mem)

theorem keepUsers_keeps : Keeps (keepUsers [0, 1]) id 0 where
  mine := fun e s => by cases e <;> rfl
  other := fun i e s hi => by
    cases i with
    | zero => exact absurd rfl hi
    | succ i => cases i <;> rfl
  early := fun e _ => ⟨[], [1], rfl, by simp, by simp, by simp⟩

/-- The theorem in a case where the items are wrong (C183): they are those of the list that is kept. -/
example : ∃ s, run (exec (keepUsers [0, 1]) 8) [.insertMaster 0 1, .insertMaster 0 2] (start [] (fun m => [10 * m, 10 * m + 1]) []) = some s ∧
    s.items = [20, 21, 10, 11] ∧ id s.mem = s.items := by
  have h : keepRun [0, 1] [.insertMaster 0 1, .insertMaster 0 2] = some ([20, 21, 10, 11], [20, 21, 10, 11]) := by decide +kernel
  obtain ⟨s, h1, h2⟩ := Option.map_eq_some_iff.1 h
  exact ⟨s, h1, (Prod.mk.inj h2).1, C192_flattened_partial _ id 0 keepUsers_keeps 8 _ _ s rfl h1⟩

/-- C192: in a flattened list model, an observer told before it inserts a master item. -/
theorem C192_counterexample_flattened : keepRun [2, 0] [.insertMaster 0 1] = some ([30, 31, 10, 11], [10, 30, 31, 11]) := by decide +kernel

end Verif.ListModel.FlattenedReentrant
