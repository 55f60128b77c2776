import Verif.Stream.Network

/-!
What delivering a value to the listeners of a stream does: every derived stream works off the values delivered to it, and
every value fired by a stream is delivered once to each of its live consumers.
-/

namespace Verif.Stream

variable {α : Type}

/-- The stream an event is about. -/
def Ev.node : Ev α → Nat
  | .fire n _ => n
  | .deliver m _ _ => m
  | .closing n _ => n
  | .closed n => n
  | .fail n => n

/-- Values fired by stream `n` (not counting the firing at close). -/
def firesOf : List (Ev α) → Nat → List (Val α)
  | [], _ => []
  | .fire i v :: l, n => if i = n then v :: firesOf l n else firesOf l n
  | _ :: l, n => firesOf l n

/-- Values delivered to derived stream `m`, with the index of the listener. -/
def delivsOf : List (Ev α) → Nat → List (Nat × Val α)
  | [], _ => []
  | .deliver i k v :: l, m => if i = m then (k, v) :: delivsOf l m else delivsOf l m
  | _ :: l, m => delivsOf l m

/-- Values delivered to listener `k` of derived stream `m`. -/
def delivsAt (l : List (Ev α)) (m k : Nat) : List (Val α) := ((delivsOf l m).filter fun d => d.1 = k).map (·.2)

theorem firesOf_append (a b : List (Ev α)) (n : Nat) : firesOf (a ++ b) n = firesOf a n ++ firesOf b n := by
  induction a with
  | nil => rfl
  | cons e a ih => cases e <;> simp only [List.cons_append, firesOf, ih] <;> split <;> simp

theorem delivsOf_append (a b : List (Ev α)) (n : Nat) : delivsOf (a ++ b) n = delivsOf a n ++ delivsOf b n := by
  induction a with
  | nil => rfl
  | cons e a ih => cases e <;> simp only [List.cons_append, delivsOf, ih] <;> split <;> simp

theorem delivsAt_append (a b : List (Ev α)) (m k : Nat) : delivsAt (a ++ b) m k = delivsAt a m k ++ delivsAt b m k := by
  simp [delivsAt, delivsOf_append]

theorem firesOf_eq_nil {l : List (Ev α)} {n : Nat} (h : ∀ e ∈ l, e.node ≠ n) : firesOf l n = [] := by
  induction l with
  | nil => rfl
  | cons e l ih =>
    have h1 := h e (by simp)
    have h2 := ih fun e he => h e (by simp [he])
    cases e <;> simp_all [firesOf, Ev.node]

theorem delivsOf_eq_nil {l : List (Ev α)} {n : Nat} (h : ∀ e ∈ l, e.node ≠ n) : delivsOf l n = [] := by
  induction l with
  | nil => rfl
  | cons e l ih =>
    have h1 := h e (by simp)
    have h2 := ih fun e he => h e (by simp [he])
    cases e <;> simp_all [delivsOf, Ev.node]

theorem delivsAt_eq_nil {l : List (Ev α)} {n k : Nat} (h : ∀ e ∈ l, e.node ≠ n) : delivsAt l n k = [] := by
  simp [delivsAt, delivsOf_eq_nil h]

/-- Listener `k` of the live stream `m` listens to stream `p`. -/
def Edge (s : State α) (p m k : Nat) : Prop :=
  m < s.size ∧ (s.node m).active = true ∧ (s.node m).kind.inputs[k]? = some p

theorem mem_listeners {s : State α} {n : Nat} {e : Nat × Nat} : e ∈ s.listeners n ↔ Edge s n e.1 e.2 := by
  obtain ⟨m, k⟩ := e
  unfold State.listeners Edge
  rw [List.mem_flatMap]
  constructor
  · rintro ⟨m', hm', he⟩
    split at he
    · rename_i ha
      simp only [List.mem_map, List.mem_filter, List.mem_range, decide_eq_true_eq] at he hm'
      obtain ⟨k', ⟨_, hk'⟩, heq⟩ := he
      cases heq
      exact ⟨hm', ha, hk'⟩
    · simp at he
  · rintro ⟨h1, h2, h3⟩
    simp only at h1 h2 h3
    refine ⟨m, by simpa using h1, ?_⟩
    rw [if_pos h2]
    simp only [List.mem_map, List.mem_filter, List.mem_range, decide_eq_true_eq]
    refine ⟨k, ⟨?_, h3⟩, rfl⟩
    exact (List.getElem?_eq_some_iff.1 h3).1

theorem nodup_listeners (s : State α) (n : Nat) : (s.listeners n).Nodup := by
  unfold State.listeners
  rw [List.nodup_flatMap]
  constructor
  · intro m _
    split
    · exact (List.Nodup.filter _ List.nodup_range).map fun a b h => by simpa using h
    · exact List.nodup_nil
  · refine List.Pairwise.imp ?_ (List.pairwise_lt_range)
    intro a b hab e h1 h2
    simp only at h1 h2
    split at h1
    · split at h2
      · simp only [List.mem_map] at h1 h2
        obtain ⟨_, _, rfl⟩ := h1
        obtain ⟨_, _, h⟩ := h2
        simp at h; omega
      · simp at h2
    · simp at h1

/-- Streams only use streams made before. -/
def Acyclic (s : State α) : Prop := ∀ m < s.size, ∀ p ∈ (s.node m).kind.inputs, p < m

theorem Edge.lt {s : State α} (h : Acyclic s) {p m k : Nat} (he : Edge s p m k) : p < m :=
  h m he.1 p (List.mem_of_getElem? he.2.2)

/-- `t` has the same streams as `s`, possibly with other values. -/
structure SameShape (s t : State α) : Prop where
  size : t.size = s.size
  kind : ∀ i, (t.node i).kind = (s.node i).kind
  active : ∀ i, (t.node i).active = (s.node i).active
  refs : ∀ i, (t.node i).refs = (s.node i).refs

theorem SameShape.rfl' {s : State α} : SameShape s s := ⟨rfl, fun _ => rfl, fun _ => rfl, fun _ => rfl⟩

theorem SameShape.trans {s t u : State α} (h : SameShape s t) (h' : SameShape t u) : SameShape s u :=
  ⟨h'.size.trans h.size, fun i => (h'.kind i).trans (h.kind i), fun i => (h'.active i).trans (h.active i),
    fun i => (h'.refs i).trans (h.refs i)⟩

theorem SameShape.edge {s t : State α} (h : SameShape s t) {p m k : Nat} : Edge t p m k ↔ Edge s p m k := by
  unfold Edge; rw [h.size, h.kind, h.active]

theorem SameShape.acyclic {s t : State α} (h : SameShape s t) (ha : Acyclic s) : Acyclic t := by
  intro m hm p hp; rw [h.kind] at hp; rw [h.size] at hm; exact ha m hm p hp

theorem SameShape.listeners {s t : State α} (h : SameShape s t) (n : Nat) : t.listeners n = s.listeners n := by
  unfold State.listeners; simp only [h.size, h.kind, h.active]

section

variable [DecidableEq α]

/-- A stream after a sequence of deliveries. -/
def Node.feed (nd : Node α) (ds : List (Nat × Val α)) : Node α := ds.foldl (fun nd d => (nd.receive d.1 d.2).1) nd

/-- What a stream fires upon a sequence of deliveries. -/
def Node.outs (nd : Node α) : List (Nat × Val α) → List (Val α)
  | [] => []
  | d :: ds => (nd.receive d.1 d.2).2.toList ++ (nd.receive d.1 d.2).1.outs ds

theorem Node.outs_append (nd : Node α) (a b : List (Nat × Val α)) : nd.outs (a ++ b) = nd.outs a ++ (nd.feed a).outs b := by
  induction a generalizing nd with
  | nil => rfl
  | cons d a ih => simp only [List.cons_append, Node.outs, ih, Node.feed, List.foldl_cons, List.append_assoc]

theorem Node.feed_append (nd : Node α) (a b : List (Nat × Val α)) : nd.feed (a ++ b) = (nd.feed a).feed b := by
  simp [Node.feed]

theorem Node.receive_shape (nd : Node α) (k : Nat) (v : Val α) :
    (nd.receive k v).1.kind = nd.kind ∧ (nd.receive k v).1.active = nd.active ∧ (nd.receive k v).1.refs = nd.refs := by
  unfold Node.receive
  split
  · split <;> simp
  · simp
  · simp

theorem Node.receive_out (nd : Node α) (k : Nat) (v : Val α) :
    (nd.receive k v).1.value = (nd.receive k v).2.getD nd.value := by
  unfold Node.receive
  split
  · split <;> simp
  · simp
  · simp

/-- The effect of delivering `w`, fired by `n`, to the listeners `es`, with the events `l`. -/
structure Delivered (n : Nat) (w : Val α) (es : List (Nat × Nat)) (s s' : State α) (l : List (Ev α)) : Prop where
  shape : SameShape s s'
  log : s'.log = s.log ++ l
  above : ∀ e ∈ l, n < e.node
  node : ∀ m, s'.node m = (s.node m).feed (delivsOf l m)
  fires : ∀ m, firesOf l m = (s.node m).outs (delivsOf l m)
  src : ∀ m k, Edge s n m k → delivsAt l m k = if (m, k) ∈ es then [w] else []
  edge : ∀ p m k, p ≠ n → Edge s p m k → delivsAt l m k = firesOf l p
  only : ∀ m k v, .deliver m k v ∈ l → ∃ p, Edge s p m k
  plain : ∀ e ∈ l, ∀ i, e ≠ .closed i ∧ e ≠ .fail i ∧ ∀ v, e ≠ .closing i v

theorem Delivered.nil (n : Nat) (w : Val α) (s : State α) : Delivered n w [] s s [] where
  shape := .rfl'
  log := by simp
  above := by simp
  node := fun _ => rfl
  fires := fun _ => rfl
  src := by simp [delivsAt, delivsOf]
  edge := by simp [delivsAt, delivsOf, firesOf]
  only := by simp
  plain := by simp

theorem Delivered.append {n : Nat} {w : Val α} {es es' : List (Nat × Nat)} {s t u : State α} {l l' : List (Ev α)}
    (h : Delivered n w es s t l) (h' : Delivered n w es' t u l') (hd : ∀ e ∈ es, e ∉ es') :
    Delivered n w (es ++ es') s u (l ++ l') where
  shape := h.shape.trans h'.shape
  log := by rw [h'.log, h.log, List.append_assoc]
  above := by
    intro e he
    rcases List.mem_append.1 he with he | he
    · exact h.above e he
    · exact h'.above e he
  node := fun m => by rw [h'.node, h.node, delivsOf_append, Node.feed_append]
  fires := fun m => by rw [firesOf_append, h'.fires, h.fires, h.node, delivsOf_append, Node.outs_append]
  src := by
    intro m k he
    rw [delivsAt_append, h.src m k he, h'.src m k (h.shape.edge.2 he)]
    by_cases h1 : (m, k) ∈ es
    · have := hd _ h1
      simp [h1, this]
    · simp [h1]
  edge := by
    intro p m k hp he
    rw [delivsAt_append, firesOf_append, h.edge p m k hp he, h'.edge p m k hp (h.shape.edge.2 he)]
  only := by
    intro m k v he
    rcases List.mem_append.1 he with he | he
    · exact h.only m k v he
    · obtain ⟨p, hp⟩ := h'.only m k v he
      exact ⟨p, h.shape.edge.1 hp⟩
  plain := by
    intro e he
    rcases List.mem_append.1 he with he | he
    · exact h.plain e he
    · exact h'.plain e he

/-- Delivery to one listener has the described effect. -/
def DeliverOk (fuel : Nat) : Prop := ∀ (s : State α) (n m k : Nat) (w : Val α), Acyclic s → Edge s n m k →
  s.size ≤ fuel + m → ∃ l, Delivered n w [(m, k)] s (s.deliver fuel m k w) l

theorem foldl_delivered {fuel : Nat} (ih : DeliverOk (α := α) fuel) (n : Nat) (w : Val α) (es : List (Nat × Nat))
    (s : State α) (ha : Acyclic s) (hn : es.Nodup) (he : ∀ e ∈ es, Edge s n e.1 e.2) (hf : ∀ e ∈ es, s.size ≤ fuel + e.1) :
    ∃ l, Delivered n w es s (es.foldl (fun u e => State.deliver fuel e.1 e.2 w u) s) l := by
  induction es generalizing s with
  | nil => exact ⟨[], .nil n w s⟩
  | cons e es ih2 =>
    obtain ⟨l, hl⟩ := ih s n e.1 e.2 w ha (he e (by simp)) (hf e (by simp))
    simp only [List.nodup_cons] at hn
    obtain ⟨l', hl'⟩ := ih2 (s.deliver fuel e.1 e.2 w) (hl.shape.acyclic ha) hn.2
      (fun e' he' => hl.shape.edge.2 (he e' (by simp [he']))) (fun e' he' => by rw [hl.shape.size]; exact hf e' (by simp [he']))
    refine ⟨l ++ l', ?_⟩
    simpa using hl.append hl' (by simpa using hn.1)

theorem deliverOk (fuel : Nat) : DeliverOk (α := α) fuel := by
  induction fuel with
  | zero =>
    intro s n m k w ha he hf
    have := he.1
    omega
  | succ fuel ih =>
    intro s n m k w ha he hf
    have hnm : n < m := he.lt ha
    have hrs := (s.node m).receive_shape k w
    set t := (s.emit (.deliver m k w)).setNode m ((s.node m).receive k w).1 with ht
    have hts : SameShape s t := by
      refine ⟨rfl, ?_, ?_, ?_⟩ <;> intro i <;> simp only [ht, State.setNode, State.emit] <;> by_cases hi : i = m
      all_goals first
        | (subst hi; simp [hrs])
        | simp [Function.update_of_ne hi]
    have htn : ∀ i, t.node i = if i = m then ((s.node m).receive k w).1 else s.node i := by
      intro i
      simp only [ht, State.setNode, State.emit, Function.update_apply]
    have hat : Acyclic t := hts.acyclic ha
    rw [State.deliver]
    simp only [← ht]
    cases hout : ((s.node m).receive k w).2 with
    | none =>
      refine ⟨[.deliver m k w], hts, rfl, ?_, ?_, ?_, ?_, ?_, ?_, ?_⟩
      · simpa [Ev.node] using hnm
      · intro i
        simp only [delivsOf]
        by_cases hi : m = i
        · subst hi; simp [Node.feed, htn]
        · simp [Node.feed, htn, hi, Ne.symm hi]
      · intro i
        simp only [delivsOf, firesOf]
        by_cases hi : m = i
        · subst hi; simp [Node.outs, hout]
        · simp [Node.outs, hi]
      · intro m' k' he'
        simp only [delivsAt, delivsOf]
        by_cases hm : m = m'
        · subst hm
          by_cases hk : k = k'
          · subst hk; simp
          · simp [hk, Ne.symm hk]
        · simp [hm, Ne.symm hm]
      · intro p m' k' hp he'
        simp only [delivsAt, delivsOf, firesOf]
        by_cases hm : m = m'
        · subst hm
          have hk : k ≠ k' := by
            rintro rfl
            have := he'.2.2; rw [he.2.2] at this
            exact hp (by simpa using this.symm)
          simp [hk]
        · simp [hm]
      · intro m' k' v' hmem
        simp only [List.mem_cons, List.not_mem_nil, or_false, Ev.deliver.injEq] at hmem
        obtain ⟨rfl, rfl, rfl⟩ := hmem
        exact ⟨n, he⟩
      · simp
    | some x =>
      simp only
      have hte : SameShape t (t.emit (.fire m x)) := ⟨rfl, fun _ => rfl, fun _ => rfl, fun _ => rfl⟩
      obtain ⟨l, hl⟩ := foldl_delivered ih m x ((t.emit (.fire m x)).listeners m) (t.emit (.fire m x)) (hte.acyclic hat)
        (nodup_listeners _ _) (fun e he => mem_listeners.1 he) (by
          intro e he'
          have := (mem_listeners.1 he').lt (hte.acyclic hat)
          have h2 : (t.emit (.fire m x)).size = s.size := rfl
          omega)
      have hshape := hts.trans (hte.trans hl.shape)
      have hmd : delivsOf l m = [] := delivsOf_eq_nil fun e he' => by have := hl.above e he'; omega
      have hmf : firesOf l m = [] := firesOf_eq_nil fun e he' => by have := hl.above e he'; omega
      have hedge : ∀ {p m' k'}, Edge (t.emit (.fire m x)) p m' k' ↔ Edge s p m' k' := (hts.trans hte).edge
      refine ⟨.deliver m k w :: .fire m x :: l, hshape, ?_, ?_, ?_, ?_, ?_, ?_, ?_, ?_⟩
      · rw [hl.log]; simp [ht, State.emit, State.setNode]
      · intro e he'
        simp only [List.mem_cons] at he'
        rcases he' with rfl | rfl | he'
        · exact hnm
        · exact hnm
        · have := hl.above e he'; omega
      · intro i
        rw [hl.node]
        simp only [delivsOf]
        by_cases hi : m = i
        · subst hi
          simp [hmd, Node.feed, State.emit, htn]
        · have h2 : (t.emit (.fire m x)).node i = s.node i := by simp [State.emit, htn, Ne.symm hi]
          simp [hi, h2]
      · intro i
        simp only [delivsOf, firesOf]
        by_cases hi : m = i
        · subst hi
          simp [hmd, hmf, Node.outs, hout]
        · have h2 : (t.emit (.fire m x)).node i = s.node i := by simp [State.emit, htn, Ne.symm hi]
          simp only [hi, if_false]
          rw [hl.fires, h2]
      · intro m' k' he'
        by_cases hm : m = m'
        · subst hm
          by_cases hk : k = k'
          · subst hk; simp [delivsAt, delivsOf, hmd]
          · simp [delivsAt, delivsOf, hmd, hk, Ne.symm hk]
        · have h1 : delivsAt (.deliver m k w :: .fire m x :: l) m' k' = delivsAt l m' k' := by simp [delivsAt, delivsOf, hm]
          rw [h1, hl.edge n m' k' (by omega) (hedge.2 he'),
            firesOf_eq_nil fun e he'' => by have := hl.above e he''; omega]
          simp [Ne.symm hm]
      · intro p m' k' hp he'
        by_cases hm : m = m'
        · subst hm
          have hk : k ≠ k' := by
            rintro rfl
            have := he'.2.2; rw [he.2.2] at this
            exact hp (by simpa using this.symm)
          have hpm := he'.lt ha
          rw [firesOf_eq_nil]
          · simp [delivsAt, delivsOf, hmd, hk]
          · intro e he''
            simp only [List.mem_cons] at he''
            rcases he'' with rfl | rfl | he''
            · simp [Ev.node]; omega
            · simp [Ev.node]; omega
            · have := hl.above e he''; omega
        · have h1 : delivsAt (.deliver m k w :: .fire m x :: l) m' k' = delivsAt l m' k' := by simp [delivsAt, delivsOf, hm]
          rw [h1]
          by_cases hpm : m = p
          · subst hpm
            rw [hl.src m' k' (hedge.2 he'), if_pos (mem_listeners.2 (hedge.2 he'))]
            simp [firesOf, hmf]
          · rw [hl.edge p m' k' (Ne.symm hpm) (hedge.2 he')]
            simp [firesOf, hpm]
      · intro m' k' v' hmem
        simp only [List.mem_cons, Ev.deliver.injEq, reduceCtorEq, false_or] at hmem
        rcases hmem with ⟨rfl, rfl, rfl⟩ | hmem
        · exact ⟨n, he⟩
        · obtain ⟨p, hp⟩ := hl.only m' k' v' hmem
          exact ⟨p, hedge.1 hp⟩
      · intro e he'
        simp only [List.mem_cons] at he'
        rcases he' with rfl | rfl | he'
        · simp
        · simp
        · exact hl.plain e he'

/-- The effect of an operation on the values, with the events `l`: every stream but the one that fires first works off what
is delivered to it, and everything fired is delivered once to every live consumer. -/
structure Propagated (root : Nat) (s s' : State α) (l : List (Ev α)) : Prop where
  shape : SameShape s s'
  log : s'.log = s.log ++ l
  node : ∀ m, m ≠ root → s'.node m = (s.node m).feed (delivsOf l m)
  fires : ∀ m, m ≠ root → firesOf l m = (s.node m).outs (delivsOf l m)
  edge : ∀ p m k, Edge s p m k → delivsAt l m k = firesOf l p
  only : ∀ m k v, .deliver m k v ∈ l → ∃ p, Edge s p m k
  rootNode : s'.node root = s.node root
  rootFires : delivsOf l root = []
  plain : ∀ e ∈ l, ∀ i, e ≠ .closed i ∧ e ≠ .fail i ∧ ∀ v, e ≠ .closing i v

theorem fire_propagated (s : State α) (n : Nat) (w : Val α) (ha : Acyclic s) :
    ∃ l, Propagated n s (s.fire s.size n w) l ∧ firesOf l n = [w] := by
  have hse : SameShape s (s.emit (.fire n w)) := ⟨rfl, fun _ => rfl, fun _ => rfl, fun _ => rfl⟩
  obtain ⟨l, hl⟩ := foldl_delivered (deliverOk s.size) n w ((s.emit (.fire n w)).listeners n) (s.emit (.fire n w))
    (hse.acyclic ha) (nodup_listeners _ _) (fun e he => mem_listeners.1 he) (fun e _ => Nat.le_add_right _ _)
  have hnd : delivsOf l n = [] := delivsOf_eq_nil fun e he' => by have := hl.above e he'; omega
  have hnf : firesOf l n = [] := firesOf_eq_nil fun e he' => by have := hl.above e he'; omega
  refine ⟨.fire n w :: l, ⟨hse.trans hl.shape, ?_, ?_, ?_, ?_, ?_, ?_, ?_, ?_⟩, ?_⟩
  · unfold State.fire
    rw [hl.log]; simp [State.emit]
  · intro m _
    unfold State.fire
    rw [hl.node]; rfl
  · intro m hm
    simp only [firesOf, delivsOf]
    rw [if_neg (Ne.symm hm), hl.fires]; rfl
  · intro p m k he
    have he' := hse.edge.2 he
    have h1 : delivsAt (.fire n w :: l) m k = delivsAt l m k := by simp [delivsAt, delivsOf]
    rw [h1]
    by_cases hp : n = p
    · subst hp
      rw [hl.src m k he', if_pos (mem_listeners.2 he')]
      simp [firesOf, hnf]
    · rw [hl.edge p m k (Ne.symm hp) he']
      simp [firesOf, hp]
  · intro m k v hmem
    simp only [List.mem_cons, reduceCtorEq, false_or] at hmem
    obtain ⟨p, hp⟩ := hl.only m k v hmem
    exact ⟨p, hse.edge.1 hp⟩
  · unfold State.fire
    rw [hl.node, hnd]; rfl
  · simpa [delivsOf] using hnd
  · intro e he'
    simp only [List.mem_cons] at he'
    rcases he' with rfl | he'
    · simp
    · exact hl.plain e he'
  · simp [firesOf, hnf]

end

end Verif.Stream
