import Verif.Persist.RecorderTree

/-!
C172: what a recording does after it is finished (`nion/utils/Recorder.py`, lines 57-59, 69-74, 89-95), on the model of C113.

The functions in the log read the recorded objects when the log is applied: line 72 reads the property then, line 95 copies the
inserted object then. `fin` is the state of the recorded objects at that time: not that at the end of the recorded history, but any later one.
-/

namespace Verif.Persist.RecorderTree

open Verif.Py

variable {V : Type}

/-- Two later states in which the objects of `R` are the same, and contain objects of `R` only. -/
def Agree (R : Nat → Prop) (a b : Heap V) : Prop :=
  ∀ o, R o → a.vals o = b.vals o ∧ a.kids o = b.kids o ∧ ∀ l ∈ a.kids o, ∀ c ∈ l, R c

/-- The objects inserted in a history. -/
def Inserted (ops : List (Op V)) (o : Nat) : Prop := ∃ p r, Op.append p r o ∈ ops

/-- The object that a change of a property of the history was of, and the property. -/
def Changed (rec : Nat → Nat → Bool) (root : Nat) : Heap V → List (Op V) → Nat → Nat → Prop
  | _, [], _, _ => False
  | s, op :: ops, o, k => (∃ p v, op = .set p k v ∧ s.walk root p = some o) ∨ Changed rec root (step rec root s op).1 ops o k

/-- Copies in a tree are of objects of `R`. -/
inductive Below (R : Nat → Prop) : Tree V → Prop
  | copy (o : Nat) (h : R o) : Below R (.copy o)
  | node (f : Nat → V) (ks : List (List (Tree V))) (h : ∀ l ∈ ks, ∀ c ∈ l, Below R c) : Below R (.node f ks)

theorem Below.kids {R : Nat → Prop} {a b : Heap V} (h : Agree R a b) {t : Tree V} (ht : Below R t) :
    t.vals a = t.vals b ∧ t.kids a = t.kids b ∧ ∀ l ∈ t.kids a, ∀ c ∈ l, Below R c := by
  cases ht with
  | copy o ho =>
    obtain ⟨h1, h2, h3⟩ := h o ho
    refine ⟨h1, by simp only [Tree.kids, h2], ?_⟩
    intro l hl c hc
    simp only [Tree.kids, List.mem_map] at hl
    obtain ⟨l', hl', rfl⟩ := hl
    obtain ⟨c', hc', rfl⟩ := List.mem_map.1 hc
    exact .copy _ (h3 l' hl' c' hc')
  | node f ks hk => exact ⟨rfl, rfl, hk⟩

theorem modify_congr {R : Nat → Prop} {a b : Heap V} (h : Agree R a b) (g g' : Tree V → Option (Tree V))
    (hg : ∀ u, Below R u → g u = g' u ∧ ∀ v, g u = some v → Below R v) (p : Path) : ∀ t, Below R t →
    t.modify a g p = t.modify b g' p ∧ ∀ v, t.modify a g p = some v → Below R v := by
  induction p with
  | nil => intro t ht; exact hg t ht
  | cons x p ih =>
    obtain ⟨r, i⟩ := x
    intro t ht
    obtain ⟨h1, h2, h3⟩ := ht.kids h
    simp only [Tree.modify, ← h2, ← h1]
    cases hr : (t.kids a)[r]? with
    | none => simp
    | some l =>
      have hl : l ∈ t.kids a := List.mem_of_getElem? hr
      cases hi : l[i]? with
      | none => simp [hi]
      | some c =>
        have hc : c ∈ l := List.mem_of_getElem? hi
        obtain ⟨i1, i2⟩ := ih c (h3 l hl c hc)
        simp only [Option.bind_some, hi, i1, true_and]
        intro v hv
        rw [Option.map_eq_some_iff] at hv
        obtain ⟨c', hc', rfl⟩ := hv
        refine .node _ _ ?_
        intro l' hl' d hd
        rcases List.mem_or_eq_of_mem_set hl' with hl' | rfl
        · exact h3 l' hl' d hd
        · rcases List.mem_or_eq_of_mem_set hd with hd | rfl
          · exact h3 l hl d hd
          · exact i2 d (i1.trans hc')

/-- What an entry of the log reads. -/
def Reads (R : Nat → Prop) (a b : Heap V) : Entry → Prop
  | .set _ o k => a.vals o k = b.vals o k
  | .insert _ _ _ o => R o
  | .remove _ _ _ => True

theorem apply_congr {R : Nat → Prop} {a b : Heap V} (h : Agree R a b) (e : Entry) (he : Reads R a b e) (t : Tree V) (ht : Below R t) :
    e.apply a t = e.apply b t ∧ ∀ v, e.apply a t = some v → Below R v := by
  cases e with
  | set p o k =>
    refine modify_congr h _ _ (fun u hu => ?_) p t ht
    obtain ⟨h1, h2, h3⟩ := hu.kids h
    have he' : a.vals o k = b.vals o k := he
    refine ⟨by rw [h1, h2, he'], fun v hv => ?_⟩
    cases hv
    exact .node _ _ h3
  | insert p r i o =>
    refine modify_congr h _ _ (fun u hu => ?_) p t ht
    obtain ⟨h1, h2, h3⟩ := hu.kids h
    refine ⟨by rw [h1, h2], fun v hv => ?_⟩
    rw [Option.map_eq_some_iff] at hv
    obtain ⟨l, hl, rfl⟩ := hv
    refine .node _ _ fun l' hl' d hd => ?_
    rcases List.mem_or_eq_of_mem_set hl' with hl' | rfl
    · exact h3 l' hl' d hd
    · have : d = .copy o ∨ d ∈ l := by
        simp only [Py.insert] at hd
        exact List.eq_or_mem_of_mem_insertIdx hd
      rcases this with rfl | hd
      · exact .copy _ he
      · exact h3 l (List.mem_of_getElem? hl) d hd
  | remove p r i =>
    refine modify_congr h _ _ (fun u hu => ?_) p t ht
    obtain ⟨h1, h2, h3⟩ := hu.kids h
    refine ⟨by rw [h1, h2], fun v hv => ?_⟩
    rw [Option.bind_eq_some_iff] at hv
    obtain ⟨l, hl, hv⟩ := hv
    split at hv
    · cases hv
      refine .node _ _ fun l' hl' d hd => ?_
      rcases List.mem_or_eq_of_mem_set hl' with hl' | rfl
      · exact h3 l' hl' d hd
      · exact h3 l (List.mem_of_getElem? hl) d (List.mem_of_mem_eraseIdx hd)
    · cases hv

theorem applyAll_congr {R : Nat → Prop} {a b : Heap V} (h : Agree R a b) (es : List Entry) : (∀ e ∈ es, Reads R a b e) → ∀ t, Below R t →
    applyAll a es t = applyAll b es t := by
  induction es with
  | nil => exact fun _ _ _ => rfl
  | cons e es ih =>
    intro he t ht
    obtain ⟨h1, h2⟩ := apply_congr h e (he e List.mem_cons_self) t ht
    simp only [applyAll, ← h1]
    cases hr : e.apply a t with
    | none => rfl
    | some v => exact ih (fun e' he' => he e' (List.mem_cons_of_mem _ he')) v (h2 v hr)

theorem log_entries (rec : Nat → Nat → Bool) (root : Nat) (ops : List (Op V)) : ∀ s : Heap V, ∀ e ∈ (run rec root s ops).2,
    match e with
    | .set p o k => rec o k = true ∧ Changed rec root s ops o k ∧ (p = [] → o = root)
    | .insert _ _ _ o => Inserted ops o
    | .remove _ _ _ => True := by
  induction ops with
  | nil => intro s e he; simp [run] at he
  | cons op ops ih =>
    intro s e he
    simp only [run, List.mem_append] at he
    rcases he with he | he
    · cases op with
      | set p k v =>
        simp only [step] at he
        split at he
        · rename_i o ho
          split at he
          · rename_i hr
            simp only [List.mem_singleton] at he
            subst he
            refine ⟨hr, .inl ⟨p, v, rfl, ho⟩, ?_⟩
            rintro rfl
            simpa [Heap.walk] using ho.symm
          · simp at he
        · simp at he
      | append p r o =>
        simp only [step] at he
        split at he
        · split at he
          · simp only [List.mem_singleton] at he
            subst he
            exact ⟨p, r, List.mem_cons_self⟩
          · simp at he
        · simp at he
      | removeLast p r =>
        simp only [step] at he
        split at he
        · split at he
          · split at he
            · simp at he
            · simp only [List.mem_singleton] at he
              subst he
              trivial
          · simp at he
        · simp at he
      | outside o f ks => simp [step] at he
    · have := ih _ e he
      cases e with
      | set p o k => exact ⟨this.1, .inr this.2.1, this.2.2⟩
      | insert p r i o =>
        obtain ⟨p', r', h'⟩ := this
        exact ⟨p', r', List.mem_cons_of_mem _ h'⟩
      | remove p r i => trivial

/-- C172, partial: what is missing is changes, after the recorder is closed, of recorded properties and of inserted objects (with what they contain). If
two later states of the recorded objects agree in these, applying the recording does the same. `t`: the object it is applied to. -/
theorem C172_same_partial (rec : Nat → Nat → Bool) (root : Nat) (s : Heap V) (ops : List (Op V)) (R : Nat → Prop) (a b : Heap V)
    (hR : Agree R a b) (hi : ∀ o, Inserted ops o → R o) (hc : ∀ o k, Changed rec root s ops o k → rec o k = true → a.vals o k = b.vals o k)
    (t : Tree V) (ht : Below (fun _ => False) t) :
    applyAll a (run rec root s ops).2 t = applyAll b (run rec root s ops).2 t := by
  refine applyAll_congr hR _ (fun e he => ?_) t ?_
  · have := log_entries rec root ops s e he
    cases e with
    | set p o k => exact hc o k this.2.1 this.1
    | insert p r i o => exact hi o this
    | remove p r i => trivial
  · clear hc hi hR
    induction ht with
    | copy o h => exact h.elim
    | node f ks h ih => exact .node f ks ih

/-! ### What is done with the properties of the recorded object itself -/

theorem modify_vals (fin : Heap V) (g : Tree V → Option (Tree V)) (t u : Tree V) (x : Nat × Nat) (p : Path) (h : t.modify fin g (x :: p) = some u) :
    u.vals fin = t.vals fin := by
  obtain ⟨r, i⟩ := x
  simp only [Tree.modify, Option.bind_eq_some_iff, Option.map_eq_some_iff] at h
  obtain ⟨l, _, c, _, d, _, rfl⟩ := h
  rfl

theorem applyAll_vals (fin : Heap V) (root k : Nat) (es : List Entry) : (∀ o k, Entry.set [] o k ∈ es → o = root) → ∀ t u, applyAll fin es t = some u →
    (u.vals fin k = if Entry.set [] root k ∈ es then fin.vals root k else t.vals fin k) := by
  induction es with
  | nil => intro _ t u h; cases h; simp
  | cons e es ih =>
    intro hr t u h
    simp only [applyAll, Option.bind_eq_some_iff] at h
    obtain ⟨v, hv, h⟩ := h
    have := ih (fun o k' hm => hr o k' (List.mem_cons_of_mem _ hm)) v u h
    rw [this]
    by_cases hm : Entry.set [] root k ∈ es
    · rw [if_pos hm, if_pos (List.mem_cons_of_mem _ hm)]
    · rw [if_neg hm]
      cases e with
      | set p o k' =>
        cases p with
        | nil =>
          obtain rfl := hr o k' List.mem_cons_self
          simp only [Entry.apply, Tree.modify, Option.some.injEq] at hv
          subst hv
          by_cases hk : k = k'
          · subst hk; simp [vals_node]
          · rw [if_neg (by simp [hm, hk]), vals_node, Function.update_of_ne hk]
        | cons x p => rw [if_neg (by simp [hm]), modify_vals fin _ t v x p hv]
      | insert p r i o =>
        rw [if_neg (by simp [hm])]
        cases p with
        | nil =>
          simp only [Entry.apply, Tree.modify, Option.map_eq_some_iff] at hv
          obtain ⟨l, _, rfl⟩ := hv
          rfl
        | cons x p => rw [modify_vals fin _ t v x p hv]
      | remove p r i =>
        rw [if_neg (by simp [hm])]
        cases p with
        | nil =>
          simp only [Entry.apply, Tree.modify, Option.bind_eq_some_iff] at hv
          obtain ⟨l, _, hv⟩ := hv
          split at hv
          · cases hv; rfl
          · cases hv
        | cons x p => rw [modify_vals fin _ t v x p hv]

theorem log_sets (rec : Nat → Nat → Bool) (root k : Nat) (ops : List (Op V)) : ∀ s : Heap V,
    Entry.set [] root k ∈ (run rec root s ops).2 ↔ rec root k = true ∧ ∃ v, Op.set [] k v ∈ ops := by
  induction ops with
  | nil => intro s; simp [run]
  | cons op ops ih =>
    intro s
    simp only [run, List.mem_append, ih, List.mem_cons]
    have : Entry.set [] root k ∈ (step rec root s op).2 ↔ rec root k = true ∧ ∃ v, op = Op.set [] k v := by
      cases op with
      | set p k' v =>
        simp only [step]
        split
        · rename_i o ho
          constructor
          · intro h
            split at h
            · rename_i hrec
              simp only [List.mem_singleton, Entry.set.injEq] at h
              obtain ⟨rfl, rfl, rfl⟩ := h
              exact ⟨hrec, v, rfl⟩
            · simp at h
          · rintro ⟨hrec, v', e⟩
            cases e
            simp only [Heap.walk, Option.some.injEq] at ho
            subst ho
            simp [hrec]
        · rename_i ho
          simp only [List.not_mem_nil, false_iff, not_and, not_exists]
          intro _ v' e
          cases e
          simp [Heap.walk] at ho
      | append p r o =>
        simp only [step]
        split
        · split <;> simp
        · simp
      | removeLast p r =>
        simp only [step]
        split
        · split
          · split <;> simp
          · simp
        · simp
      | outside o f ks => simp [step]
    rw [this]
    constructor
    · rintro (⟨h1, v, h2⟩ | ⟨h1, v, h2⟩)
      · exact ⟨h1, v, .inl h2.symm⟩
      · exact ⟨h1, v, .inr h2⟩
    · rintro ⟨h1, v, h2 | h2⟩
      · exact .inl ⟨h1, v, h2.symm⟩
      · exact .inr ⟨h1, v, h2⟩

/-- C172, exactly what happens with the properties of the recorded object itself, partial because of the objects in it: a property that was set while it was
recorded gets the value it has in the recorded object when the recording is applied; the others keep theirs. -/
theorem C172_property_partial (rec : Nat → Nat → Bool) (root : Nat) (s : Heap V) (ops : List (Op V)) (fin : Heap V) (t u : Tree V) (k : Nat)
    (h : applyAll fin (run rec root s ops).2 t = some u) (hrec : rec root k = true) :
    ((∃ v, Op.set [] k v ∈ ops) → u.vals fin k = fin.vals root k) ∧ ((∀ v, Op.set [] k v ∉ ops) → u.vals fin k = t.vals fin k) := by
  have hv := applyAll_vals fin root k _ (fun o k' hm => (log_entries rec root ops s _ hm).2.2 rfl) t u h
  constructor
  · intro hex
    rw [hv, if_pos ((log_sets rec root k ops s).2 ⟨hrec, hex⟩)]
  · intro hno
    rw [hv, if_neg fun hm => by obtain ⟨_, v, hm⟩ := (log_sets rec root k ops s).1 hm; exact hno v hm]

/-- C172, exactly when the value replayed is the one at the end of the recording (`now`): if the recorded object still has it. -/
theorem C172_iff_partial (rec : Nat → Nat → Bool) (root : Nat) (s : Heap V) (ops : List (Op V)) (now fin : Heap V) (_ : now = (run rec root s ops).1)
    (t u : Tree V) (k : Nat) (h : applyAll fin (run rec root s ops).2 t = some u) (hrec : rec root k = true) (hset : ∃ v, Op.set [] k v ∈ ops) :
    u.vals fin k = now.vals root k ↔ fin.vals root k = now.vals root k := by
  rw [(C172_property_partial rec root s ops fin t u k h hrec).1 hset]

/-- C172 fails: property 0 of object 0 is set to 5, then object 1 appended, whose property 0 is 1. After the recorder is closed the property of 0 is set to 9, and that of 1
to 8. The recording, applied to an object equal to what object 0 was, makes the property 9 and appends an object with 8. -/
theorem C172_counterexample :
    ∃ (s fin : Heap Nat) (ops : List (Op Nat)) (u : Tree Nat), s = ⟨fun o _ => o, fun o => if o = 0 then [[]] else []⟩ ∧
      ops = [.set [] 0 5, .append [] 0 1] ∧
      fin = (run (fun _ _ => false) 0 (run (fun _ _ => true) 0 s ops).1 [.set [] 0 9, .set [(0, 0)] 0 8]).1 ∧
      applyAll fin (run (fun _ _ => true) 0 s ops).2 (.node (fun _ => 0) [[]]) = some u ∧
      u.vals fin 0 = 9 ∧ (u.get fin [(0, 0)]).map (fun c => c.vals fin 0) = some 8 :=
  ⟨_, _, _, _, rfl, rfl, rfl, rfl, by decide, by decide⟩

/-- changes after the end that do not matter: another property, another object -/
example : ∃ (s a b : Heap Nat) (ops : List (Op Nat)) (u : Tree Nat), s = ⟨fun o _ => o, fun o => if o = 0 then [[]] else []⟩ ∧ ops = [.set [] 0 5, .append [] 0 1] ∧
    a = (run (fun _ _ => true) 0 s ops).1 ∧ b = (run (fun _ _ => false) 0 a [.set [] 1 9, .append [] 0 2]).1 ∧
    Agree (fun o => o = 1) a b ∧ applyAll b (run (fun _ _ => true) 0 s ops).2 (.node (fun _ => 0) [[]]) = some u ∧
    applyAll a (run (fun _ _ => true) 0 s ops).2 (.node (fun _ => 0) [[]]) = some u ∧ u.vals b 0 = 5 := by
  refine ⟨_, _, _, _, _, rfl, rfl, rfl, rfl, ?_, rfl, rfl, by decide⟩
  rintro o rfl
  exact ⟨rfl, rfl, fun l hl => by simp [run, step, Heap.walk, Heap.setKids] at hl⟩

end Verif.Persist.RecorderTree
