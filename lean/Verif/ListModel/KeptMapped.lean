import Verif.ListModel.MappedReentrant

/-!
C192 for mapped list models (`nion/utils/ListModel.py:768-790`): a list kept from the item events, with observers that act while they are
told. The model is that of C181. The observer that keeps the list is one of the observers of the mapped list model.
-/

namespace Verif.ListModel.MappedReentrant

variable {ι α β M : Type}

/-- What an observer that keeps a list does with it when it is told: the event names the value of the item. -/
def Call.keep (f : α → β) : Call α → List β → List β
  | .insert i v, l => Py.insert l (i : ℕ) (f v)
  | .remove i, l => l.eraseIdx i

/-- Observer `j` keeps the list `copy`; it is told once of every item of the mapped list model, and those told before it do nothing then. -/
structure Keeps (u : Users ι α β M) (copy : M → List β) (j : ι) : Prop where
  mine : ∀ c s, copy (u.react j c s).1 = c.keep u.f (copy s.mem)
  other : ∀ i c s, i ≠ j → copy (u.react i c s).1 = copy s.mem
  early : ∃ pre post : List ι, u.own = pre ++ j :: post ∧ j ∉ pre ∧ j ∉ post ∧
    ∀ i ∈ pre, ∀ c s, (u.react i c s).2.1 = [] ∧ (u.react i c s).2.2 = false
  post : j ∉ u.post

variable {u : Users ι α β M} {ex : Exec α β M} {copy : M → List β} {j : ι}

def Copied (copy : M → List β) (s : St α β M) : Prop := copy s.mem = s.items

def CopiesOn (copy : M → List β) (ex : Exec α β M) : Prop := ∀ c s r, Copied copy s → ex c s = some r → Copied copy r.1

theorem insertIdx_split {γ : Type} : ∀ (l : List γ) (i : ℕ) (v : γ), i ≤ l.length → l.insertIdx i v = l.take i ++ v :: l.drop i
  | l, 0, v, _ => by simp
  | [], i + 1, v, h => by simp at h
  | x :: l, i + 1, v, h => by
    simp only [List.insertIdx_succ_cons, List.take_succ_cons, List.drop_succ_cons, List.cons_append]
    rw [insertIdx_split l i v (by simpa using h)]

theorem pyInsert_eq {γ : Type} (l : List γ) (i : ℕ) (v : γ) : Py.insert l (i : ℕ) v = pyInsert l i v := by
  by_cases h : i ≤ l.length
  · rw [Py.insert_nat h, insertIdx_split l i v h]
    rfl
  · have e : Py.insertPos l.length (i : ℕ) = l.length := by
      unfold Py.insertPos
      rw [if_neg (by omega)]
      omega
    rw [Py.insert, e, insertIdx_split _ _ _ (Nat.le_refl _), pyInsert, List.take_of_length_le (by omega), List.drop_of_length_le (by omega),
      List.take_of_length_le (by omega), List.drop_of_length_le (by omega)]

theorem calls_copied (h : CopiesOn copy ex) (cs : List (Call α)) (s : St α β M) (r : St α β M × Bool) (hi : Copied copy s)
    (he : calls ex cs s = some r) : Copied copy r.1 := by
  induction cs generalizing s with
  | nil =>
    simp only [calls, Option.some.injEq] at he
    exact he ▸ hi
  | cons a as ih =>
    simp only [calls, Option.bind_eq_some_iff] at he
    obtain ⟨r1, h1, h2⟩ := he
    have e := h a s r1 hi h1
    split at h2
    · cases h2
      exact e
    · exact ih _ e h2

theorem tell_copied (h : CopiesOn copy ex) (c : Call α) (i : ι) (s : St α β M) (r : St α β M × Bool)
    (hi : copy (u.react i c s).1 = s.items) (he : tell u ex c i s = some r) : Copied copy r.1 := by
  simp only [tell, Option.map_eq_some_iff] at he
  obtain ⟨r1, h1, rfl⟩ := he
  refine calls_copied h _ _ r1 ?_ h1
  exact hi

/-- Observers other than `j`. -/
theorem fire_copied (hk : Keeps u copy j) (h : CopiesOn copy ex) (c : Call α) (is : List ι) (hj : j ∉ is) (s t : St α β M)
    (hi : Copied copy s) (he : fire u ex c is s = some t) : Copied copy t := by
  induction is generalizing s with
  | nil =>
    simp only [fire, Option.some.injEq] at he
    exact he ▸ hi
  | cons i is ih =>
    simp only [fire, Option.bind_eq_some_iff] at he
    obtain ⟨r1, h1, h2⟩ := he
    have k : Copied copy r1.1 := by
      refine tell_copied h c i s r1 ?_ h1
      rw [hk.other i c s fun hij => hj (by simp [hij])]
      exact hi
    split at h2
    · cases h2
      exact k
    · exact ih (fun hm => hj (by simp [hm])) _ k h2

/-- Observers other than `j` that do nothing. -/
theorem fire_quiet (hk : Keeps u copy j) (c : Call α) (is rest : List ι) (hj : j ∉ is)
    (hq : ∀ i ∈ is, ∀ c s, (u.react i c s).2.1 = [] ∧ (u.react i c s).2.2 = false) (s t : St α β M)
    (he : fire u ex c (is ++ rest) s = some t) :
    ∃ s1, copy s1.mem = copy s.mem ∧ s1.items = s.items ∧ fire u ex c rest s1 = some t := by
  induction is generalizing s with
  | nil => exact ⟨s, rfl, rfl, he⟩
  | cons i is ih =>
    simp only [List.cons_append, fire, tell, (hq i (by simp) c s).1, (hq i (by simp) c s).2, calls, Option.map_some, Option.bind_some,
      Bool.or_false, Bool.false_eq_true, if_false] at he
    obtain ⟨s1, h1, h2, h3⟩ := ih (fun hm => hj (by simp [hm])) (fun k hm => hq k (by simp [hm])) _ he
    exact ⟨s1, h1.trans (hk.other i c s fun hij => hj (by simp [hij])), h2, h3⟩

/-- The observers of the mapped list model are told, after the change. -/
theorem fire_own (hk : Keeps u copy j) (h : CopiesOn copy ex) (c : Call α) (s t : St α β M) (hi : c.keep u.f (copy s.mem) = s.items)
    (he : fire u ex c u.own s = some t) : Copied copy t := by
  obtain ⟨pre, post, h1, h2, h3, h4⟩ := hk.early
  rw [h1] at he
  obtain ⟨s1, g1, g2, g3⟩ := fire_quiet hk c pre _ h2 h4 _ t he
  simp only [fire, Option.bind_eq_some_iff] at g3
  obtain ⟨r, f1, f2⟩ := g3
  have k : Copied copy r.1 := by
    refine tell_copied h c j s1 r ?_ f1
    rw [hk.mine, g1, g2]
    exact hi
  split at f2
  · cases f2
    exact k
  · exact fire_copied hk h c post h3 _ t k f2

theorem event_copied (hk : Keeps u copy j) (h : CopiesOn copy ex) (c : Call α) (q r : St α β M × Bool) (hq : Copied copy q.1)
    (he : event u ex c q = some r) : Copied copy r.1 := by
  unfold event at he
  split at he
  · cases he
    exact hq
  · rw [Option.map_eq_some_iff] at he
    obtain ⟨t, h1, rfl⟩ := he
    exact fire_copied hk h c u.post hk.post _ t hq h1

theorem body_copied (hk : Keeps u copy j) (h : CopiesOn copy ex) : CopiesOn copy (body u ex) := by
  intro c s r hs he
  cases c with
  | insert i v =>
    simp only [body, Option.bind_eq_some_iff] at he
    obtain ⟨q, h1, h2⟩ := he
    refine event_copied hk h _ q r ?_ h2
    simp only [inserted, Option.map_eq_some_iff] at h1
    obtain ⟨t, h3, rfl⟩ := h1
    refine fire_own hk h (.insert i v) _ t ?_ h3
    simp only [Call.keep, pyInsert_eq]
    rw [show copy s.mem = s.items from hs]
  | remove i =>
    simp only [body] at he
    split at he
    · simp only [Option.bind_eq_some_iff] at he
      obtain ⟨q, h1, h2⟩ := he
      refine event_copied hk h _ q r ?_ h2
      unfold removed at h1
      split at h1
      · rw [Option.map_eq_some_iff] at h1
        obtain ⟨t, h3, rfl⟩ := h1
        refine fire_own hk h (.remove i) _ t ?_ h3
        simp only [Call.keep]
        rw [show copy s.mem = s.items from hs]
      · cases h1
        exact hs
    · cases he
      exact hs

theorem exec_copied (hk : Keeps u copy j) : ∀ n, CopiesOn copy (exec u n)
  | 0 => fun _ _ _ _ he => by simp [exec] at he
  | n + 1 => body_copied hk (exec_copied hk n)

/-- C192 (partial: the observers told of items before the one that keeps the list neither act nor raise then): a list kept from the item
events is the list of items of a mapped list model, whatever the other observers and those of the source do, and so has the values of the
items of the source. -/
theorem C192_mapped_partial (u : Users ι α β M) (copy : M → List β) (j : ι) (hk : Keeps u copy j) (n : ℕ) (l : List α) (sel : Selection.Sel)
    (m : M) (hm : copy m = l.map u.f) (cs : List (Call α)) (t : St α β M) (h : run (exec u n) cs (start u.f l sel m) = some t) :
    copy t.mem = t.items ∧ copy t.mem = t.src.map u.f := by
  have key : ∀ (cs : List (Call α)) (s : St α β M), Copied copy s → run (exec u n) cs s = some t → Copied copy t := by
    intro cs
    induction cs with
    | nil =>
      intro s hs he
      simp only [run, Option.some.injEq] at he
      exact he ▸ hs
    | cons c cs ih =>
      intro s hs he
      simp only [run, Option.bind_eq_some_iff] at he
      obtain ⟨r, h1, h2⟩ := he
      exact ih _ (exec_copied hk n c s r hs h1) h2
  have h1 : copy t.mem = t.items := key cs (start u.f l sel m) hm h
  exact ⟨h1, h1.trans (C181_items u n l sel m cs t h).1⟩

/-! ### Cases -/

/-- Observer 0 keeps a list; observer 1 puts a hundred times an item below 100 behind it; observer 2 inserts 7 before item 5; observer 3
raises when it is told of item 5. -/
def keepReact : ℕ → Call ℕ → St ℕ ℕ (List ℕ) → List ℕ × List (Call ℕ) × Bool
  | 0, c, s => (c.keep (· + 1) s.mem, [], false)
  | 1, .insert i v, s => (s.mem, if v < 100 then [.insert (i + 1) (100 * v)] else [], false)
  | 2, .insert i v, s => (s.mem, if v = 5 then [.insert i 7] else [], false)
  | 3, .insert _ v, s => (s.mem, [], decide (v = 5))
  | _, _, s => (s.mem, [], false)

def keepUsers (own post : List ℕ) : Users ℕ ℕ ℕ (List ℕ) := ⟨(· + 1), Selection.ascending, own, post, keepReact⟩

def keepRun (own post : List ℕ) (cs : List (Call ℕ)) : Option (List ℕ × List ℕ) :=
  (run (exec (keepUsers own post) 6) cs (start (· + 1) [10, 20] ⟨∅, none, .multiple⟩ [11, 21])).map fun s => (s.items, s.mem)

theorem keepUsers_keeps : Keeps (keepUsers [4, 0, 1, 3] [1]) id 0 where
  mine := fun c s => by cases c <;> rfl
  other := fun i c s hi => by
    match i, c with
    | 0, _ => exact absurd rfl hi
    | 1, .insert _ _ => rfl
    | 2, .insert _ _ => rfl
    | 3, .insert _ _ => rfl
    | 1, .remove _ => rfl
    | 2, .remove _ => rfl
    | 3, .remove _ => rfl
    | _ + 4, _ => rfl
  early := ⟨[4], [1, 3], rfl, by simp, by simp, by
    intro i hi c s
    simp only [List.mem_singleton] at hi
    subst hi
    exact ⟨rfl, rfl⟩⟩
  post := by simp [keepUsers]

/-- The theorem with an observer of the mapped list model and one of the source that insert, and one that raises. -/
example : ∃ s, run (exec (keepUsers [4, 0, 1, 3] [1]) 6) [.insert 1 5, .remove 0, .insert 0 8]
      (start (· + 1) [10, 20] ⟨∅, none, .multiple⟩ [11, 21]) = some s ∧
    s.items = [9, 801, 801, 6, 501, 501, 21] ∧ id s.mem = s.items := by
  have h : keepRun [4, 0, 1, 3] [1] [.insert 1 5, .remove 0, .insert 0 8] =
      some ([9, 801, 801, 6, 501, 501, 21], [9, 801, 801, 6, 501, 501, 21]) := by decide +kernel
  obtain ⟨s, h1, h2⟩ := Option.map_eq_some_iff.1 h
  exact ⟨s, h1, (Prod.mk.inj h2).1, (C192_mapped_partial _ id 0 keepUsers_keeps 6 _ _ _ rfl _ s h1).1⟩

/-- C192: in a mapped list model, an observer told before it inserts into the source. -/
theorem C192_counterexample_mapped : keepRun [2, 0] [] [.insert 1 5] = some ([11, 8, 6, 21], [11, 6, 8, 21]) := by decide +kernel

/-- C192: in a mapped list model, an observer told before it raises. -/
theorem C192_counterexample_mapped_raises : keepRun [3, 0] [] [.insert 1 5] = some ([11, 6, 21], [11, 21]) := by decide +kernel

end Verif.ListModel.MappedReentrant
