import Verif.Py.Basic
import Mathlib.Data.List.Basic
import Mathlib.Tactic.Common

set_option linter.unusedSectionVars false

/-!
C109: listeners that assign the stream they listen to. Model of `ValueStream` (`nion/utils/Stream.py:42-59`) with
`Event.fire` (`nion/utils/Event.py`): the value is passed to the listeners one after the other; a listener may assign the stream, which
fires again before the outer fire goes on with the value it was given. A reaction may depend on and change a memory shared by the
listeners, and assigns the values of a list. `none` is a recursion that does not end within the fuel. Not modelled here: listeners that
come, go or raise (`Event/`).
-/

namespace Verif.Stream.Reentrant

/-- The stream's value, the memory of the listeners; for the specification: what the listeners received, and the values the stream has
taken. -/
structure St (ι V M : Type) where
  value : V
  mem : M
  log : List (ι × V)
  hist : List V

variable {ι V M : Type} [DecidableEq ι] [DecidableEq V]

/-- Assignments one after the other. -/
def assigns (assign : V → St ι V M → Option (St ι V M)) : List V → St ι V M → Option (St ι V M)
  | [], s => some s
  | w :: ws, s => (assign w s).bind (assigns assign ws)

/-- `Event.fire`: each listener in turn. -/
def deliver (react : ι → V → M → M × List V) (assign : V → St ι V M → Option (St ι V M)) (v : V) : List ι → St ι V M → Option (St ι V M)
  | [], s => some s
  | i :: is, s =>
    (assigns assign (react i v s.mem).2 { s with mem := (react i v s.mem).1, log := s.log ++ [(i, v)] }).bind
      (deliver react assign v is)

/-- Stream.py:55-59. -/
def assign (react : ι → V → M → M × List V) (ls : List ι) : ℕ → V → St ι V M → Option (St ι V M)
  | 0, _, _ => none
  | n + 1, v, s =>
    if s.value ≠ v then deliver react (assign react ls n) v ls { s with value := v, hist := s.hist ++ [v] } else some s

/-! ### Specification -/

/-- What a listener received, in order. -/
def seen (i : ι) (log : List (ι × V)) : List V := (log.filter fun p => p.1 = i).map Prod.snd

/-- The value of a `MapStream` (Stream.py:62-96) that started with `y` and received these values. -/
def mapped {W : Type} [DecidableEq W] (f : V → W) (y : W) (vs : List V) : W := vs.foldl (fun y v => if f v ≠ y then f v else y) y

/-- The listener never assigns the stream. -/
def Passive (react : ι → V → M → M × List V) (i : ι) : Prop := ∀ v m, (react i v m).2 = []

/-! ### Proof -/

variable {react : ι → V → M → M × List V}

theorem seen_append (i : ι) (l l' : List (ι × V)) : seen i (l ++ l') = seen i l ++ seen i l' := by simp [seen]

theorem seen_self (i : ι) (v : V) : seen i [(i, v)] = [v] := by simp [seen]

theorem seen_ne {i j : ι} (h : j ≠ i) (v : V) : seen i [(j, v)] = [] := by simp [seen, h]

/-- The listener has received all values the stream has taken, the last one being the current. -/
structure Good (i : ι) (s : St ι V M) : Prop where
  seen : seen i s.log = s.hist
  last : s.hist.getLast? = some s.value

theorem assigns_good {i : ι} {asg : V → St ι V M → Option (St ι V M)} (h : ∀ w s s', Good i s → asg w s = some s' → Good i s') :
    ∀ (ws : List V) (s s' : St ι V M), Good i s → assigns asg ws s = some s' → Good i s'
  | [], s, s', hg, he => by
    simp only [assigns, Option.some.injEq] at he
    exact he ▸ hg
  | w :: ws, s, s', hg, he => by
    simp only [assigns] at he
    cases h1 : asg w s with
    | none => rw [h1] at he; cases he
    | some s1 => rw [h1] at he; exact assigns_good h ws s1 s' (h w s s1 hg h1) he

theorem deliver_good {i : ι} {asg : V → St ι V M → Option (St ι V M)} (h : ∀ w s s', Good i s → asg w s = some s' → Good i s') (v : V) :
    ∀ (is : List ι) (s s' : St ι V M), i ∉ is → Good i s → deliver react asg v is s = some s' → Good i s'
  | [], s, s', _, hg, he => by
    simp only [deliver, Option.some.injEq] at he
    exact he ▸ hg
  | j :: is, s, s', hi, hg, he => by
    simp only [List.mem_cons, not_or] at hi
    simp only [deliver] at he
    cases h1 : assigns asg (react j v s.mem).2 { s with mem := (react j v s.mem).1, log := s.log ++ [(j, v)] } with
    | none => rw [h1] at he; cases he
    | some s1 =>
      rw [h1] at he
      have hg' : Good i { s with mem := (react j v s.mem).1, log := s.log ++ [(j, v)] } := by
        refine ⟨?_, hg.last⟩
        rw [seen_append, seen_ne (Ne.symm hi.1), List.append_nil]
        exact hg.seen
      exact deliver_good h v is s1 s' hi.2 (assigns_good h _ _ s1 hg' h1) he

/-- Listeners that do not assign only receive the value. -/
theorem deliver_passive {i : ι} {asg : V → St ι V M → Option (St ι V M)} (v : V) :
    ∀ (pre rest : List ι) (s s' : St ι V M), i ∉ pre → (∀ j ∈ pre, Passive react j) → deliver react asg v (pre ++ rest) s = some s' →
      ∃ s1, seen i s1.log = seen i s.log ∧ s1.hist = s.hist ∧ s1.value = s.value ∧ deliver react asg v rest s1 = some s'
  | [], rest, s, s', _, _, he => ⟨s, rfl, rfl, rfl, he⟩
  | j :: pre, rest, s, s', hi, hp, he => by
    simp only [List.mem_cons, not_or] at hi
    simp only [List.cons_append, deliver, hp j (by simp) v s.mem, assigns, Option.bind_some] at he
    obtain ⟨s1, h1, h2, h3, h4⟩ := deliver_passive v pre rest _ s' hi.2 (fun k hk => hp k (by simp [hk])) he
    refine ⟨s1, ?_, h2, h3, h4⟩
    rw [h1, seen_append, seen_ne (Ne.symm hi.1), List.append_nil]

theorem assign_good {pre post : List ι} {i : ι} (hn : (pre ++ i :: post).Nodup) (hp : ∀ j ∈ pre, Passive react j) :
    ∀ (n : ℕ) (v : V) (s s' : St ι V M), Good i s → assign react (pre ++ i :: post) n v s = some s' → Good i s'
  | 0, v, s, s', _, he => by simp [assign] at he
  | n + 1, v, s, s', hg, he => by
    have hpre : i ∉ pre := fun h => (List.nodup_append.1 hn).2.2 i h i (by simp) rfl
    have hpost : i ∉ post := (List.nodup_cons.1 (List.nodup_append.1 hn).2.1).1
    rw [assign] at he
    split at he
    · obtain ⟨s1, h1, h2, h3, h4⟩ := deliver_passive (i := i) v pre (i :: post) _ s' hpre hp he
      simp only [deliver] at h4
      cases h5 : assigns (assign react (pre ++ i :: post) n) (react i v s1.mem).2
          { s1 with mem := (react i v s1.mem).1, log := s1.log ++ [(i, v)] } with
      | none => rw [h5] at h4; cases h4
      | some s2 =>
        rw [h5] at h4
        have ih := assign_good hn hp n
        refine deliver_good ih v post s2 s' hpost (assigns_good ih _ _ s2 ⟨?_, ?_⟩ h5) h4
        · rw [seen_append, seen_self, h1, h2, hg.seen]
        · rw [h2, h3]; simp
    · simp only [Option.some.injEq] at he
      exact he ▸ hg

/-- C109 (partial: no listener before it assigns the stream): whatever this listener and those after it assign while they are called, when
an assignment returns the listener has received all values the stream has taken, once each and in order; what it received last is the
stream's value. -/
theorem C109_listener_partial (pre post : List ι) (i : ι) (hn : (pre ++ i :: post).Nodup) (hp : ∀ j ∈ pre, Passive react j)
    (n : ℕ) (v v0 : V) (m : M) (vs : List V) (s : St ι V M)
    (h : assigns (assign react (pre ++ i :: post) n) (v :: vs) ⟨v0, m, [], []⟩ = some s) :
    seen i s.log = s.hist ∧ (s.hist = [] ∧ s.value = v0 ∨ (seen i s.log).getLast? = some s.value) := by
  have key : ∀ (ws : List V) (s1 s2 : St ι V M), (Good i s1 ∨ s1.log = [] ∧ s1.hist = [] ∧ s1.value = v0) →
      assigns (assign react (pre ++ i :: post) n) ws s1 = some s2 → (Good i s2 ∨ s2.log = [] ∧ s2.hist = [] ∧ s2.value = v0) := by
    intro ws
    induction ws with
    | nil =>
      intro s1 s2 h1 h2
      simp only [assigns, Option.some.injEq] at h2
      exact h2 ▸ h1
    | cons w ws ih =>
      intro s1 s2 h1 h2
      simp only [assigns] at h2
      cases h3 : assign react (pre ++ i :: post) n w s1 with
      | none => rw [h3] at h2; cases h2
      | some s3 =>
        rw [h3] at h2
        refine ih s3 s2 ?_ h2
        rcases h1 with h1 | ⟨h1, h1', h1''⟩
        · exact .inl (assign_good hn hp n w s1 s3 h1 h3)
        · by_cases hw : s1.value = w
          · cases n with
            | zero => simp [assign] at h3
            | succ n =>
              rw [assign, if_neg (by simpa using hw)] at h3
              simp only [Option.some.injEq] at h3
              subst h3
              exact .inr ⟨h1, h1', h1''⟩
          · -- the first change: as if a state with that history so far
            left
            cases n with
            | zero => simp [assign] at h3
            | succ n =>
              have hpre : i ∉ pre := fun h => (List.nodup_append.1 hn).2.2 i h i (by simp) rfl
              have hpost : i ∉ post := (List.nodup_cons.1 (List.nodup_append.1 hn).2.1).1
              rw [assign, if_pos hw] at h3
              obtain ⟨s4, g1, g2, g3, g4⟩ := deliver_passive (i := i) w pre (i :: post) _ s3 hpre hp h3
              simp only [deliver] at g4
              cases g5 : assigns (assign react (pre ++ i :: post) n) (react i w s4.mem).2
                  { s4 with mem := (react i w s4.mem).1, log := s4.log ++ [(i, w)] } with
              | none => rw [g5] at g4; cases g4
              | some s5 =>
                rw [g5] at g4
                have ih' := assign_good hn hp n
                refine deliver_good ih' w post s5 s3 hpost (assigns_good ih' _ _ s5 ⟨?_, ?_⟩ g5) g4
                · rw [seen_append, seen_self, g1, g2, h1, h1']; rfl
                · rw [g2, g3]; simp
  rcases key (v :: vs) _ s (.inr ⟨rfl, rfl, rfl⟩) h with h1 | ⟨h1, h2, h3⟩
  · exact ⟨h1.seen, .inr (by rw [h1.seen]; exact h1.last)⟩
  · exact ⟨by rw [h1, h2]; rfl, .inl ⟨h2, h3⟩⟩

theorem mapped_eq {W : Type} [DecidableEq W] (f : V → W) (y : W) (vs : List V) (v : V) (h : vs.getLast? = some v) :
    mapped f y vs = f v := by
  obtain ⟨us, rfl⟩ : ∃ us, vs = us ++ [v] := by
    rw [List.getLast?_eq_some_iff] at h
    exact h
  simp only [mapped, List.foldl_append, List.foldl_cons, List.foldl_nil]
  split
  · rfl
  · rename_i h1
    exact (not_not.1 h1).symm

/-- C109 for a map stream over the stream (partial: as before, no listener before it assigns the stream): its value is the function of the
stream's value, whatever the map stream's own listeners (which run while it is called) and the later ones assign. -/
theorem C109_mapped_partial {W : Type} [DecidableEq W] (f : V → W) (pre post : List ι) (i : ι) (hn : (pre ++ i :: post).Nodup)
    (hp : ∀ j ∈ pre, Passive react j) (n : ℕ) (v v0 : V) (m : M) (vs : List V) (s : St ι V M)
    (h : assigns (assign react (pre ++ i :: post) n) (v :: vs) ⟨v0, m, [], []⟩ = some s) :
    mapped f (f v0) (seen i s.log) = f s.value := by
  obtain ⟨h1, ⟨h2, h3⟩ | h2⟩ := C109_listener_partial pre post i hn hp n v v0 m vs s h
  · rw [h1, h2, h3]; rfl
  · exact mapped_eq f _ _ _ h2

/-! ### Examples -/

/-- Three listeners; the second one limits the value to at most ten by assigning ten, the last one rounds odd values up. -/
def exReact : ℕ → ℕ → Unit → Unit × List ℕ
  | 1, v, _ => ((), if 10 < v then [10] else [])
  | 2, v, _ => ((), if v % 2 = 1 then [v + 1] else [])
  | _, _, _ => ((), [])

/-- The first two listeners end with the stream's value; the second is the first that assigns. -/
example : (assigns (assign exReact [0, 1] 5) [3, 12] ⟨0, (), [], []⟩).map (fun s => (s.value, s.log)) =
    some (10, [(0, 3), (1, 3), (0, 12), (1, 12), (0, 10), (1, 10)]) := by decide

example : (assigns (assign exReact [0, 2] 5) [3] ⟨0, (), [], []⟩).map (fun s => (s.value, s.log)) =
    some (4, [(0, 3), (2, 3), (0, 4), (2, 4)]) := by decide

/-- C109 fails for a listener after one that assigns: it receives the new value first and then the old one, and is left with a value that
is not the stream's. -/
theorem C109_counterexample :
    (assigns (assign exReact [0, 1, 3] 5) [12] ⟨0, (), [], []⟩).map (fun s => (s.value, s.hist, seen 3 s.log)) =
      some (10, [12, 10], [10, 12]) := by decide

/-- A map stream made after such a listener is left with the function of the old value. -/
theorem C109_counterexample_mapped :
    (assigns (assign exReact [0, 1, 3] 5) [12] ⟨0, (), [], []⟩).map
      (fun s => (mapped (fun v : ℕ => 2 * v) 0 (seen 3 s.log), 2 * s.value)) = some (24, 20) := by decide

end Verif.Stream.Reentrant
