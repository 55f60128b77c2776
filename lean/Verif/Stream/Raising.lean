import Mathlib.Data.List.Basic
import Mathlib.Data.List.Induction
import Mathlib.Tactic.Common

/-!
C153: functions of map streams that raise. Model of a `ValueStream` with a tree of `MapStream`s on top of it
(`nion/utils/Stream.py:42-96`) and of `Event.fire` (`nion/utils/Event.py:103-114`), which ends at the first listener that raises and
swallows the exception. Values are compared with equality; `None` is one of the values.
-/

namespace Verif.Stream.Raising

/-- A map stream: its function (`none`: it raises), its value, the map streams on top of it in the order in which they were made. -/
inductive MS (V : Type) where
  | mk (fn : V → Option V) (value : V) (kids : List (MS V))

variable {V : Type} [DecidableEq V]

def MS.fn : MS V → V → Option V
  | .mk f _ _ => f

def MS.value : MS V → V
  | .mk _ v _ => v

def MS.kids : MS V → List (MS V)
  | .mk _ _ ks => ks

mutual
/-- Lines 75-79 `update_value`; whether it raises. -/
def deliver (u : V) : MS V → MS V × Bool
  | .mk f v ks =>
    match f u with
    | none => (.mk f v ks, true)
    | some w => if w = v then (.mk f v ks, false) else (.mk f w (fire w ks), false)
/-- Event.py:103-114. -/
def fire (u : V) : List (MS V) → List (MS V)
  | [] => []
  | k :: ks => (deliver u k).1 :: if (deliver u k).2 then ks else fire u ks
end

/-- A value stream and the map streams on top of it. -/
structure VS (V : Type) where
  value : V
  kids : List (MS V)

/-- Lines 55-59. -/
def VS.assign (s : VS V) (u : V) : VS V := if s.value ≠ u then ⟨u, fire u s.kids⟩ else s

/-! ### Specification -/

mutual
/-- The stream and those on top of it have the values their functions give. -/
def Settled (u : V) : MS V → Prop
  | .mk f v ks => f u = some v ∧ SettledAll v ks
def SettledAll (u : V) : List (MS V) → Prop
  | [] => True
  | k :: ks => Settled u k ∧ SettledAll u ks
end

mutual
/-- All functions have a value, computed from `u` upwards. -/
def Defined (u : V) : MS V → Prop
  | .mk f _ ks =>
    match f u with
    | none => False
    | some w => DefinedAll w ks
def DefinedAll (u : V) : List (MS V) → Prop
  | [] => True
  | k :: ks => Defined u k ∧ DefinedAll u ks
end

omit [DecidableEq V] in
theorem settledAll_iff (u : V) (ks : List (MS V)) : SettledAll u ks ↔ ∀ k ∈ ks, Settled u k := by
  induction ks with
  | nil => simp [SettledAll]
  | cons k ks ih => simp [SettledAll, ih]

omit [DecidableEq V] in
theorem definedAll_iff (u : V) (ks : List (MS V)) : DefinedAll u ks ↔ ∀ k ∈ ks, Defined u k := by
  induction ks with
  | nil => simp [DefinedAll]
  | cons k ks ih => simp [DefinedAll, ih]

section
omit [DecidableEq V]

mutual
theorem Settled.defined {u : V} : ∀ {k : MS V}, Settled u k → Defined u k
  | .mk f v ks, h => by
    simp only [Settled] at h
    simp only [Defined, h.1]
    exact SettledAll.defined h.2
theorem SettledAll.defined {u : V} : ∀ {ks : List (MS V)}, SettledAll u ks → DefinedAll u ks
  | [], _ => trivial
  | _ :: _, h => ⟨Settled.defined h.1, SettledAll.defined h.2⟩
end

end

/-! ### Proofs -/

theorem deliver_raises (u : V) (k : MS V) : (deliver u k).2 = true ↔ k.fn u = none := by
  rcases k with ⟨f, v, ks⟩
  simp only [deliver, MS.fn]
  rcases f u with _ | w
  · simp
  · simp only [reduceCtorEq, iff_false, Bool.not_eq_true]
    split_ifs <;> rfl

theorem deliver_fn (u : V) (k : MS V) : (deliver u k).1.fn = k.fn := by
  rcases k with ⟨f, v, ks⟩
  simp only [deliver]
  split
  · rfl
  · split_ifs <;> rfl

theorem deliver_value (u : V) (k : MS V) : (deliver u k).1.value = (k.fn u).getD k.value := by
  rcases k with ⟨f, v, ks⟩
  simp only [deliver, MS.fn, MS.value]
  rcases f u with _ | w
  · rfl
  · simp only [Option.getD_some]
    split_ifs with h
    · exact h.symm
    · rfl

theorem deliver_none (u : V) (k : MS V) (h : k.fn u = none) : (deliver u k).1 = k := by
  rcases k with ⟨f, v, ks⟩
  simp only [MS.fn] at h
  simp only [deliver, h]

mutual
theorem deliver_settled {u u' : V} : ∀ {k : MS V}, Settled u k → (Settled u' (deliver u' k).1 ↔ Defined u' k)
  | .mk f v ks, h => by
    simp only [Settled] at h
    simp only [deliver, Defined]
    rcases hf : f u' with _ | w
    · simp [Settled, hf]
    · simp only
      split_ifs with hw
      · subst hw
        simp only [Settled, hf, true_and]
        exact iff_of_true h.2 (SettledAll.defined h.2)
      · simp only [Settled, hf, true_and]
        exact fire_settled h.2
theorem fire_settled {u u' : V} : ∀ {ks : List (MS V)}, SettledAll u ks → (SettledAll u' (fire u' ks) ↔ DefinedAll u' ks)
  | [], _ => by simp [fire, SettledAll, DefinedAll]
  | k :: ks, h => by
    have hk := deliver_settled (u' := u') h.1
    simp only [fire, SettledAll, DefinedAll, hk]
    by_cases hr : (deliver u' k).2 = true
    · have : ¬ Defined u' k := by
        rcases k with ⟨f, v, ks'⟩
        have := (deliver_raises u' (.mk f v ks')).1 hr
        simp only [MS.fn] at this
        simp [Defined, this]
      simp [this]
    · rw [if_neg hr, fire_settled h.2]
end

/-- Whether the fire reaches a listener: no earlier one raises. -/
def Reached (u : V) (ks : List (MS V)) (i : ℕ) : Prop := ∀ j k, j < i → ks[j]? = some k → k.fn u ≠ none

theorem fire_get (u : V) (ks : List (MS V)) (i : ℕ) (k : MS V) (hk : ks[i]? = some k) :
    (Reached u ks i → (fire u ks)[i]? = some (deliver u k).1) ∧ (¬ Reached u ks i → (fire u ks)[i]? = some k) := by
  induction ks generalizing i with
  | nil => simp at hk
  | cons k0 ks ih =>
    rcases i with _ | i
    · simp only [List.getElem?_cons_zero, Option.some.injEq] at hk
      subst hk
      refine ⟨fun _ => by simp [fire], fun h => absurd ?_ h⟩
      intro j _ hj
      omega
    · simp only [List.getElem?_cons_succ] at hk
      obtain ⟨h1, h2⟩ := ih i hk
      simp only [fire, List.getElem?_cons_succ]
      by_cases hr : (deliver u k0).2 = true
      · rw [if_pos hr]
        have h0 := (deliver_raises u k0).1 hr
        refine ⟨fun h => absurd h0 (h 0 k0 (by omega) rfl), fun _ => hk⟩
      · rw [if_neg hr]
        have h0 : k0.fn u ≠ none := fun h => hr ((deliver_raises u k0).2 h)
        have key : Reached u (k0 :: ks) (i + 1) ↔ Reached u ks i := by
          constructor
          · intro h j k hj hjk
            exact h (j + 1) k (by omega) (by simpa using hjk)
          · intro h j k hj hjk
            rcases j with _ | j
            · simp only [List.getElem?_cons_zero, Option.some.injEq] at hjk
              subst hjk
              exact h0
            · exact h j k (by omega) (by simpa using hjk)
        rw [key]
        exact ⟨h1, h2⟩

/-- C153, exactly (partial: the property asks for this without the condition on other streams): after an assignment to a network that is
consistent, a map stream on the assigned one is consistent, with everything on top of it, exactly if its own functions have values and no
map stream made before it on the same stream raises, or the value it has is the right one anyway. -/
theorem C153_stream_iff_partial (s : VS V) (u : V) (hs : SettledAll s.value s.kids) (i : ℕ) (k : MS V) (hk : s.kids[i]? = some k) :
    ∃ k', (s.assign u).kids[i]? = some k' ∧
      (Settled u k' ↔ Defined u k ∧ (Reached u s.kids i ∨ k.fn u = some k.value)) := by
  have hset := (settledAll_iff _ _).1 hs k (List.mem_of_getElem? hk)
  by_cases hu : s.value = u
  · refine ⟨k, by rw [VS.assign, if_neg (by simpa using hu)]; exact hk, ?_⟩
    rw [hu] at hset
    refine iff_of_true hset ⟨hset.defined, .inr ?_⟩
    rcases k with ⟨f, v, ks⟩
    exact hset.1
  · rw [VS.assign, if_pos hu]
    obtain ⟨h1, h2⟩ := fire_get u s.kids i k hk
    by_cases hr : Reached u s.kids i
    · refine ⟨_, h1 hr, ?_⟩
      rw [deliver_settled hset]
      simp [hr]
    · refine ⟨_, h2 hr, ?_⟩
      simp only [hr, false_or]
      rcases k with ⟨f, v, ks⟩
      simp only [Settled, MS.fn, MS.value] at hset ⊢
      constructor
      · intro h
        exact ⟨Settled.defined (k := .mk f v ks) h, h.1⟩
      · rintro ⟨_, h⟩
        exact ⟨h, hset.2⟩

/-- C153: the whole network is consistent after an assignment exactly if every function has a value. -/
theorem C153_network_iff (s : VS V) (u : V) (hs : SettledAll s.value s.kids) :
    SettledAll u (s.assign u).kids ↔ DefinedAll u s.kids := by
  by_cases hu : s.value = u
  · rw [VS.assign, if_neg (by simpa using hu), ← hu]
    exact iff_of_true hs hs.defined
  · rw [VS.assign, if_pos hu]
    exact fire_settled hs

/-! ### Histories -/

/-- A value can be shown by the map stream at `i`: neither it nor one made before it raises. -/
def Shows (ks : List (MS V)) (i : ℕ) (u : V) : Prop := Reached u ks (i + 1)

theorem fire_length (u : V) (ks : List (MS V)) : (fire u ks).length = ks.length := by
  induction ks with
  | nil => simp [fire]
  | cons k ks ih =>
    simp only [fire, List.length_cons]
    split_ifs
    · rfl
    · rw [ih]

theorem fire_fn (u : V) (ks : List (MS V)) : (fire u ks).map MS.fn = ks.map MS.fn := by
  induction ks with
  | nil => simp [fire]
  | cons k ks ih =>
    simp only [fire, List.map_cons, deliver_fn]
    split_ifs
    · rfl
    · rw [ih]

omit [DecidableEq V] in
theorem reached_congr {ks ks' : List (MS V)} (h : ks.map MS.fn = ks'.map MS.fn) (u : V) (i : ℕ) : Reached u ks i ↔ Reached u ks' i := by
  have key : ∀ {a b : List (MS V)}, a.map MS.fn = b.map MS.fn → Reached u a i → Reached u b i := by
    intro a b hab hr j k hj hjk
    have h1 : (b.map MS.fn)[j]? = some k.fn := by rw [List.getElem?_map, hjk]; rfl
    rw [← hab, List.getElem?_map] at h1
    obtain ⟨k', hk', he⟩ := Option.map_eq_some_iff.1 h1
    rw [← he]
    exact hr j k' hj hk'
  exact ⟨key h, key h.symm⟩

theorem run_fn (us : List V) (s : VS V) : (us.foldl VS.assign s).kids.map MS.fn = s.kids.map MS.fn := by
  induction us generalizing s with
  | nil => rfl
  | cons u us ih =>
    rw [List.foldl_cons, ih]
    unfold VS.assign
    split_ifs
    · exact fire_fn u s.kids
    · rfl

open Classical in
/-- C153, every history of assignments: a map stream shows its function of the last value for which neither it nor a map stream made
before it on the same stream raises. -/
theorem C153_history_partial (s : VS V) (hs : SettledAll s.value s.kids) (us : List V) (i : ℕ) (k : MS V) (hk : s.kids[i]? = some k) :
    ∃ k', (us.foldl VS.assign s).kids[i]? = some k' ∧
      some k'.value = k.fn (((s.value :: us).filter fun u => Shows s.kids i u).getLastD s.value) ∧
      (us.foldl VS.assign s).value = us.getLastD s.value := by
  have h0 : ∀ (j : ℕ) (k : MS V), s.kids[j]? = some k → k.fn s.value = some k.value := by
    intro j k hj
    have := (settledAll_iff _ _).1 hs k (List.mem_of_getElem? hj)
    rcases k with ⟨f, v, ks⟩
    exact this.1
  have hshow0 : Shows s.kids i s.value := by
    intro j k _ hj
    rw [h0 j k hj]
    simp
  induction us using List.reverseRecOn with
  | nil =>
    refine ⟨k, hk, ?_, rfl⟩
    simp only [List.filter_cons, hshow0, decide_true, if_true, List.filter_nil]
    exact (h0 i k hk).symm
  | append_singleton us u ih =>
    obtain ⟨k1, hk1, hv, hval⟩ := ih
    set t := us.foldl VS.assign s with ht
    have hfn : t.kids.map MS.fn = s.kids.map MS.fn := run_fn us s
    have hk1fn : k1.fn = k.fn := by
      have h1 : (t.kids.map MS.fn)[i]? = some k1.fn := by rw [List.getElem?_map, hk1]; rfl
      rw [hfn, List.getElem?_map, hk] at h1
      simpa using h1.symm
    rw [List.foldl_append, ← ht]
    simp only [List.foldl_cons, List.foldl_nil, List.getLastD_concat]
    have hsucc : Shows s.kids i u ↔ Reached u t.kids i ∧ k.fn u ≠ none := by
      rw [Shows, ← reached_congr hfn]
      constructor
      · intro h
        exact ⟨fun j k hj => h j k (by omega), by rw [← hk1fn]; exact h i k1 (by omega) hk1⟩
      · rintro ⟨h1, h2⟩ j k' hj hjk
        rcases Nat.lt_succ_iff_lt_or_eq.1 hj with hj | rfl
        · exact h1 j k' hj hjk
        · rw [hk1] at hjk
          cases hjk
          rw [hk1fn]
          exact h2
    have hlast : ((s.value :: (us ++ [u])).filter fun u => Shows s.kids i u).getLastD s.value =
        if Shows s.kids i u then u else ((s.value :: us).filter fun u => Shows s.kids i u).getLastD s.value := by
      rw [← List.cons_append, List.filter_append]
      by_cases hsu : Shows s.kids i u
      · simp [hsu]
      · simp [hsu]
    rw [hlast]
    by_cases hu : t.value = u
    · refine ⟨k1, by rw [VS.assign, if_neg (by simpa using hu)]; exact hk1, ?_, ?_⟩
      · split_ifs with hsu
        · -- the value was assigned before, and shown
          rw [hv]
          congr 1
          rw [hval] at hu
          rcases List.eq_nil_or_concat us with rfl | ⟨us', w, rfl⟩
          · simp only [List.getLastD_nil] at hu
            subst hu
            simp [hshow0]
          · simp only [List.concat_eq_append, List.getLastD_concat] at hu
            subst hu
            rw [List.concat_eq_append, ← List.cons_append, List.filter_append]
            simp [hsu]
        · exact hv
      · rw [VS.assign, if_neg (by simpa using hu), hu]
    · rw [VS.assign, if_pos hu]
      obtain ⟨h1, h2⟩ := fire_get u t.kids i k1 hk1
      by_cases hr : Reached u t.kids i
      · refine ⟨_, h1 hr, ?_, rfl⟩
        rw [deliver_value, hk1fn]
        by_cases hn : k.fn u = none
        · rw [if_neg (by rw [hsucc]; simp [hn]), hn, Option.getD_none]
          exact hv
        · rw [if_pos (hsucc.2 ⟨hr, hn⟩)]
          obtain ⟨w, hw⟩ := Option.ne_none_iff_exists'.1 hn
          rw [hw]
          rfl
      · refine ⟨_, h2 hr, ?_, rfl⟩
        rw [if_neg (by rw [hsucc]; simp [hr])]
        exact hv

/-! ### Concrete cases -/

/-- A function that raises for 2. -/
def raising : MS ℕ := .mk (fun u => if u = 2 then none else some u) 0 []

def total : MS ℕ := .mk (fun u => some (u + 1)) 1 []

/-- C153, negative: the function of the first map stream raises; the second is not told. The same two, made in the other order, are told. -/
theorem C153_counterexample : SettledAll 0 [raising, total] ∧
    ((VS.mk 0 [raising, total]).assign 2).kids.map MS.value = [0, 1] ∧ ((VS.mk 0 [total, raising]).assign 2).kids.map MS.value = [3, 0] := by
  refine ⟨by simp [SettledAll, Settled, raising, total], ?_, ?_⟩ <;>
    simp [VS.assign, fire, deliver, raising, total, MS.value]

/-- The next value is shown again. -/
example : (([2, 5].foldl VS.assign (VS.mk 0 [raising, total])).kids.map MS.value) = [5, 6] := by
  simp [VS.assign, fire, deliver, raising, total, MS.value]

/-- But a stream further up stays behind for as long as the stream under it has the same value: `half` is 1 for 2 and 3, the streams on it are
not told of 1. -/
example : ([2, 3].foldl VS.assign (VS.mk 0 [.mk (fun u => some (u / 2)) 0 [.mk (fun u => if u = 1 then none else some u) 0 [], total]])).kids.map
    (fun k => (k.value, k.kids.map MS.value)) = [(1, [0, 1])] := by
  simp [VS.assign, fire, deliver, total, MS.value, MS.kids]

end Verif.Stream.Raising
