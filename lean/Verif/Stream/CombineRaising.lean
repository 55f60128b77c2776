import Mathlib.Data.List.Basic
import Mathlib.Data.List.Nodup
import Mathlib.Data.List.Induction
import Mathlib.Logic.Function.Basic
import Mathlib.Tactic.Common

/-!
C173: functions of combined streams that raise. `CombineLatestStream`s (`nion/utils/Stream.py`, lines 98-139) on `ValueStream`s (lines 42-59),
made before the history begins. `Event.fire` (`nion/utils/Event.py:103-114`) ends at the first listener that raises and swallows the exception.

The listeners of a value stream are those of the combined streams in the order in which these were made, and, for one that has the value stream several times
among its inputs, in the order of the inputs (line 114).
-/

namespace Verif.Stream.CombineRaising

/-- A combined stream: the numbers of its inputs, its function (`none`: it raises), `__values` and `__value`. -/
structure Comb (V : Type) where
  ins : List Nat
  fn : List V → Option V
  cached : List V
  value : V

/-- The value streams, the combined streams, and how many tracebacks have been printed. -/
structure St (V : Type) where
  vals : Nat → V
  combs : List (Comb V)
  printed : Nat

variable {V : Type}

/-- Lines 129-135 for input number `j`; whether it raises. -/
def Comb.hit (c : Comb V) (j : Nat) (u : V) : Comb V × Bool :=
  match c.fn (c.cached.set j u) with
  | none => ({ c with cached := c.cached.set j u }, true)
  | some w => ({ c with cached := c.cached.set j u, value := w }, false)

/-- The listeners of one combined stream. -/
def Comb.hits (u : V) : List Nat → Comb V → Comb V × Bool
  | [], c => (c, false)
  | j :: js, c =>
    match c.hit j u with
    | (c1, true) => (c1, true)
    | (c1, false) => Comb.hits u js c1

/-- Which inputs are stream `i`. -/
def Comb.places (c : Comb V) (i : Nat) : List Nat := (List.range c.ins.length).filter fun j => c.ins[j]? = some i

/-- Event.py:103-114, over the listeners of stream `i`. -/
def fire (i : Nat) (u : V) : List (Comb V) → List (Comb V) × Bool
  | [] => ([], false)
  | c :: cs =>
    match Comb.hits u (c.places i) c with
    | (c1, true) => (c1 :: cs, true)
    | (c1, false) => (c1 :: (fire i u cs).1, (fire i u cs).2)

/-- Lines 55-59. -/
def St.assign [DecidableEq V] (s : St V) (i : Nat) (u : V) : St V :=
  if s.vals i = u then s
  else ⟨Function.update s.vals i u, (fire i u s.combs).1, s.printed + if (fire i u s.combs).2 then 1 else 0⟩

def St.run [DecidableEq V] (s : St V) (as : List (Nat × V)) : St V := as.foldl (fun s a => s.assign a.1 a.2) s

/-! ### Specification -/

/-- The stream has the value of its function for the values of its inputs, unless the function raises for these. -/
def Comb.Right (vals : Nat → V) (c : Comb V) : Prop := ∀ w, c.fn (c.ins.map vals) = some w → c.value = w

/-- Its function raises for the values of its inputs. -/
def Comb.Fails (vals : Nat → V) (c : Comb V) : Prop := c.fn (c.ins.map vals) = none

/-- As constructed (107-116): the function did not raise. -/
def Comb.Made (vals : Nat → V) (c : Comb V) : Prop := c.cached = c.ins.map vals ∧ c.fn c.cached = some c.value

/-! ### Proofs -/

theorem mem_places (c : Comb V) (i j : Nat) : j ∈ c.places i ↔ c.ins[j]? = some i := by
  simp only [Comb.places, List.mem_filter, List.mem_range, decide_eq_true_eq, and_iff_right_iff_imp]
  intro h
  obtain ⟨h, _⟩ := List.getElem?_eq_some_iff.1 h
  exact h

theorem hit_same (c : Comb V) (j : Nat) (u : V) : (c.hit j u).1.ins = c.ins ∧ (c.hit j u).1.fn = c.fn ∧ (c.hit j u).1.cached = c.cached.set j u := by
  unfold Comb.hit; split <;> exact ⟨rfl, rfl, rfl⟩

theorem hits_same (u : V) (js : List Nat) : ∀ c : Comb V, (Comb.hits u js c).1.ins = c.ins ∧ (Comb.hits u js c).1.fn = c.fn ∧
    (Comb.hits u js c).1.cached.length = c.cached.length := by
  induction js with
  | nil => exact fun c => ⟨rfl, rfl, rfl⟩
  | cons j js ih =>
    intro c
    obtain ⟨h1, h2, h3⟩ := hit_same c j u
    rw [Comb.hits]
    split
    · rename_i c1 he
      rw [he] at h1 h2 h3
      simp only at h1 h2 h3
      exact ⟨h1, h2, by simp [h3]⟩
    · rename_i c1 he
      rw [he] at h1 h2 h3
      simp only at h1 h2 h3
      obtain ⟨g1, g2, g3⟩ := ih c1
      exact ⟨g1.trans h1, g2.trans h2, by rw [g3, h3]; simp⟩

/-- When no listener of the stream raises. -/
theorem hits_ok (u : V) (js : List Nat) : ∀ (c c' : Comb V), Comb.hits u js c = (c', false) →
    (∀ j, c'.cached[j]? = if j ∈ js ∧ j < c.cached.length then some u else c.cached[j]?) ∧ (js ≠ [] → c'.fn c'.cached = some c'.value) ∧ (js = [] → c' = c) := by
  induction js with
  | nil => intro c c' h; cases h; simp
  | cons j js ih =>
    intro c c' h
    rw [Comb.hits] at h
    split at h
    · cases h
    · rename_i c1 he
      obtain ⟨h1, h2, h3⟩ := hit_same c j u
      rw [he] at h1 h2 h3
      simp only at h1 h2 h3
      obtain ⟨g1, g2, g3⟩ := ih c1 c' h
      have hv : c1.fn c1.cached = some c1.value := by
        unfold Comb.hit at he
        split at he
        · cases he
        · rename_i w hw
          cases he
          exact hw
      refine ⟨fun k => ?_, fun _ => ?_, by simp⟩
      · rw [g1 k, h3, List.length_set, List.getElem?_set]
        by_cases hk : k ∈ js <;> by_cases hkj : j = k <;> by_cases hl : k < c.cached.length <;>
          simp_all [Ne.symm]
      · by_cases hjs : js = []
        · rw [g3 hjs]; exact hv
        · exact g2 hjs

/-- A combined stream with distinct inputs that knows the values of these: its listener, if it has one. -/
theorem hits_distinct (c : Comb V) (hd : c.ins.Nodup) (vals : Nat → V) (hs : c.cached = c.ins.map vals) (i : Nat) (u : V) :
    ∃ c', Comb.hits u (c.places i) c = (c', decide (i ∈ c.ins) && (c.fn (c.ins.map (Function.update vals i u))).isNone) ∧
      c'.cached = c.ins.map (Function.update vals i u) ∧ c'.ins = c.ins ∧ c'.fn = c.fn ∧
      c'.value = if i ∈ c.ins then (c.fn (c.ins.map (Function.update vals i u))).getD c.value else c.value := by
  by_cases hi : i ∈ c.ins
  · obtain ⟨j, hj, hji⟩ := List.mem_iff_getElem.1 hi
    have hp : c.places i = [j] := by
      refine List.perm_singleton.1 ((List.perm_ext_iff_of_nodup (List.nodup_range.filter _) (List.nodup_singleton j)).2 fun k => ?_)
      rw [← Comb.places, mem_places, List.mem_singleton, List.getElem?_eq_some_iff]
      constructor
      · rintro ⟨hk, hki⟩
        exact (hd.getElem_inj_iff (hi := hk) (hj := hj)).1 (hki.trans hji.symm)
      · rintro rfl; exact ⟨hj, hji⟩
    have hset : c.cached.set j u = c.ins.map (Function.update vals i u) := by
      rw [hs]
      apply List.ext_getElem
      · simp
      · intro k h1 h2
        rw [List.getElem_set]
        by_cases hk : j = k
        · subst hk; simp [hji]
        · have hne : c.ins[k]'(by simpa using h2) ≠ i := by
            intro he
            exact hk ((hd.getElem_inj_iff (hi := hj) (hj := by simpa using h2)).1 (hji.trans he.symm))
          simp [hk, Function.update_of_ne hne]
    rw [hp]
    simp only [Comb.hits, Comb.hit, hset, hi, if_true, decide_true, Bool.true_and]
    cases hf : c.fn (c.ins.map (Function.update vals i u)) with
    | none => exact ⟨_, rfl, rfl, rfl, rfl, rfl⟩
    | some w => exact ⟨_, rfl, rfl, rfl, rfl, rfl⟩
  · have hp : c.places i = [] := by
      rw [List.eq_nil_iff_forall_not_mem]
      intro k hk
      rw [mem_places] at hk
      exact hi (List.mem_of_getElem? hk)
    have hmap : c.ins.map (Function.update vals i u) = c.ins.map vals :=
      List.map_congr_left fun k hk => Function.update_of_ne (fun e : k = i => hi (e ▸ hk)) u vals
    rw [hp]
    exact ⟨c, by simp [Comb.hits, hi], by rw [hmap]; exact hs, rfl, rfl, by simp [hi]⟩

variable [DecidableEq V]

/-- Knows the values of its inputs, and has the right value. -/
def Comb.Good (vals : Nat → V) (c : Comb V) : Prop := c.cached = c.ins.map vals ∧ c.Right vals

omit [DecidableEq V] in
theorem Comb.Made.good {vals : Nat → V} {c : Comb V} (h : c.Made vals) : c.Good vals :=
  ⟨h.1, fun w hw => by rw [← h.1, h.2] at hw; exact Option.some.inj hw⟩

omit [DecidableEq V] in
theorem good_hit {c : Comb V} (hd : c.ins.Nodup) {vals : Nat → V} (h : c.Good vals) (i : Nat) (u : V) :
    ∃ c', Comb.hits u (c.places i) c = (c', decide (i ∈ c.ins) && (c.fn (c.ins.map (Function.update vals i u))).isNone) ∧
      c'.Good (Function.update vals i u) ∧ c'.ins = c.ins ∧ c'.fn = c.fn := by
  obtain ⟨c', h1, h2, h3, h4, h5⟩ := hits_distinct c hd vals h.1 i u
  refine ⟨c', h1, ⟨by rw [h2, h3], ?_⟩, h3, h4⟩
  intro w hw
  rw [h3, h4] at hw
  by_cases hi : i ∈ c.ins
  · rw [h5, if_pos hi, hw]; rfl
  · rw [h5, if_neg hi]
    refine h.2 w ?_
    rw [← hw]
    congr 1
    exact List.map_congr_left fun k hk => (Function.update_of_ne (fun e : k = i => hi (e ▸ hk)) u vals).symm

omit [DecidableEq V] in
theorem fire_head (i : Nat) (u : V) (c : Comb V) (cs : List (Comb V)) : (fire i u (c :: cs)).1.head? = some (Comb.hits u (c.places i) c).1 := by
  rw [fire]; split <;> simp_all

/-- C173: the combined stream made first, if its inputs are distinct, is right after every history, whatever functions raise. -/
theorem C173_first (vals : Nat → V) (c : Comb V) (cs : List (Comb V)) (n : Nat) (hc : c.Made vals) (hd : c.ins.Nodup) (as : List (Nat × V)) :
    ∃ c', ((⟨vals, c :: cs, n⟩ : St V).run as).combs.head? = some c' ∧ c'.ins = c.ins ∧ c'.fn = c.fn ∧ c'.Right ((⟨vals, c :: cs, n⟩ : St V).run as).vals := by
  suffices H : ∀ (as : List (Nat × V)) (s : St V) (c : Comb V) (cs : List (Comb V)), s.combs = c :: cs → c.ins.Nodup → c.Good s.vals →
      ∃ c', (s.run as).combs.head? = some c' ∧ c'.ins = c.ins ∧ c'.fn = c.fn ∧ c'.Right (s.run as).vals from
    H as ⟨vals, c :: cs, n⟩ c cs rfl hd hc.good
  intro as
  induction as with
  | nil => exact fun s c cs hs _ h => ⟨c, by simp [St.run, hs], rfl, rfl, h.2⟩
  | cons a as ih =>
    intro s c cs hs hd h
    rw [St.run, List.foldl_cons, ← St.run]
    by_cases hv : s.vals a.1 = a.2
    · rw [St.assign, if_pos hv]; exact ih s c cs hs hd h
    · rw [St.assign, if_neg hv]
      obtain ⟨c1, e1, g1, i1, f1⟩ := good_hit hd h a.1 a.2
      have hh := fire_head a.1 a.2 c cs
      rw [e1] at hh
      simp only at hh
      cases hf : (fire a.1 a.2 s.combs).1 with
      | nil => rw [hs] at hf; rw [hf] at hh; cases hh
      | cons c2 cs2 =>
        rw [hs] at hf
        rw [hf] at hh
        simp only [List.head?_cons, Option.some.injEq] at hh
        subst hh
        obtain ⟨c', k1, k2, k3, k4⟩ := ih ⟨Function.update s.vals a.1 a.2, c2 :: cs2, s.printed + if (fire a.1 a.2 s.combs).2 then 1 else 0⟩ c2 cs2 rfl (i1 ▸ hd) g1
        exact ⟨c', k1, k2.trans i1, k3.trans f1, k4⟩

omit [DecidableEq V] in
/-- What an assignment does to combined streams that are right, with distinct inputs: up to the first whose function raises for the new values, and this one
included, they are right again; the others are not told. -/
theorem fire_good (i : Nat) (u : V) (vals : Nat → V) (cs : List (Comb V)) : (∀ c ∈ cs, c.ins.Nodup ∧ c.Good vals) → ∀ (k : Nat) (c : Comb V), cs[k]? = some c →
    ∃ c', (fire i u cs).1[k]? = some c' ∧ c'.ins = c.ins ∧ c'.fn = c.fn ∧
      ((∃ l d, l < k ∧ cs[l]? = some d ∧ i ∈ d.ins ∧ d.Fails (Function.update vals i u)) → c' = c) ∧
      ((∀ l d, l < k → cs[l]? = some d → i ∈ d.ins → ¬ d.Fails (Function.update vals i u)) → c'.Good (Function.update vals i u)) := by
  induction cs with
  | nil => intro _ k c h; simp at h
  | cons d cs ih =>
    intro hall k c hk
    obtain ⟨hd, hg⟩ := hall d List.mem_cons_self
    obtain ⟨d1, e1, g1, i1, f1⟩ := good_hit hd hg i u
    by_cases hb : i ∈ d.ins ∧ d.Fails (Function.update vals i u)
    · have hbool : (decide (i ∈ d.ins) && (d.fn (d.ins.map (Function.update vals i u))).isNone) = true := by
        have : d.fn (d.ins.map (Function.update vals i u)) = none := hb.2
        simp [hb.1, this]
      have hfire : fire i u (d :: cs) = (d1 :: cs, true) := by rw [fire, e1, hbool]
      rw [hfire]
      cases k with
      | zero =>
        simp only [List.getElem?_cons_zero, Option.some.injEq] at hk
        subst hk
        exact ⟨d1, rfl, i1, f1, by rintro ⟨l, _, h, _⟩; exact absurd h (Nat.not_lt_zero _), fun _ => g1⟩
      | succ k =>
        simp only [List.getElem?_cons_succ] at hk
        exact ⟨c, by simpa using hk, rfl, rfl, fun _ => rfl, fun h => absurd hb.2 (h 0 d (Nat.succ_pos _) rfl hb.1)⟩
    · have hbool : (decide (i ∈ d.ins) && (d.fn (d.ins.map (Function.update vals i u))).isNone) = false := by
        rw [Bool.and_eq_false_iff]
        by_cases hi : i ∈ d.ins
        · right
          cases hf : d.fn (d.ins.map (Function.update vals i u)) with
          | none => exact absurd ⟨hi, hf⟩ hb
          | some w => rfl
        · left; simp [hi]
      have hfire : fire i u (d :: cs) = (d1 :: (fire i u cs).1, (fire i u cs).2) := by rw [fire, e1, hbool]
      rw [hfire]
      cases k with
      | zero =>
        simp only [List.getElem?_cons_zero, Option.some.injEq] at hk
        subst hk
        exact ⟨d1, rfl, i1, f1, by rintro ⟨l, _, h, _⟩; exact absurd h (Nat.not_lt_zero _), fun _ => g1⟩
      | succ k =>
        simp only [List.getElem?_cons_succ] at hk
        obtain ⟨c', k1, k2, k3, k4, k5⟩ := ih (fun c hc => hall c (List.mem_cons_of_mem _ hc)) k c hk
        refine ⟨c', by simpa using k1, k2, k3, ?_, ?_⟩
        · rintro ⟨l, d', hl, hd', hi, hf⟩
          cases l with
          | zero =>
            simp only [List.getElem?_cons_zero, Option.some.injEq] at hd'
            subst hd'
            exact absurd ⟨hi, hf⟩ hb
          | succ l => exact k4 ⟨l, d', Nat.lt_of_succ_lt_succ hl, by simpa using hd', hi, hf⟩
        · intro h
          exact k5 fun l d' hl hd' => h (l + 1) d' (Nat.succ_lt_succ hl) (by simpa using hd')

/-- C173, exactly: the combined streams with distinct inputs being right (`Good`: and knowing the values of their inputs), after an assignment of a new value to stream `i`
stream number `k` is right if it does not have `i` as input, or no stream made before it has `i` as input and a function that raises for the new
values; otherwise only if its old value happens to be right. -/
theorem C173_iff_partial (s : St V) (h : ∀ c ∈ s.combs, c.ins.Nodup ∧ c.Good s.vals) (i : Nat) (u : V) (hu : s.vals i ≠ u) (k : Nat) (c : Comb V)
    (hk : s.combs[k]? = some c) :
    ∃ c', (s.assign i u).combs[k]? = some c' ∧ c'.ins = c.ins ∧ c'.fn = c.fn ∧
      (c'.Right (s.assign i u).vals ↔
        (∀ l d, l < k → s.combs[l]? = some d → i ∈ d.ins → ¬ d.Fails (s.assign i u).vals) ∨ c.Right (s.assign i u).vals) := by
  obtain ⟨c', h1, h2, h3, h4, h5⟩ := fire_good i u s.vals s.combs h k c hk
  have ha : s.assign i u = ⟨Function.update s.vals i u, (fire i u s.combs).1, s.printed + if (fire i u s.combs).2 then 1 else 0⟩ := by
    rw [St.assign, if_neg hu]
  rw [ha]
  refine ⟨c', h1, h2, h3, ?_⟩
  by_cases hex : ∃ l d, l < k ∧ s.combs[l]? = some d ∧ i ∈ d.ins ∧ d.Fails (Function.update s.vals i u)
  · rw [h4 hex]
    constructor
    · exact fun h => .inr h
    · rintro (h | h)
      · obtain ⟨l, d, a1, a2, a3, a4⟩ := hex
        exact absurd a4 (h l d a1 a2 a3)
      · exact h
  · have hno : ∀ l d, l < k → s.combs[l]? = some d → i ∈ d.ins → ¬ d.Fails (Function.update s.vals i u) :=
      fun l d a1 a2 a3 a4 => hex ⟨l, d, a1, a2, a3, a4⟩
    exact ⟨fun _ => .inl hno, fun _ => (h5 hno).2⟩

omit [DecidableEq V] in
/-- Nothing raised: every combined stream has been told. -/
theorem fire_ok (i : Nat) (u : V) (cs : List (Comb V)) : (fire i u cs).2 = false → ∀ (k : Nat) (c : Comb V), cs[k]? = some c →
    ∃ c', Comb.hits u (c.places i) c = (c', false) ∧ (fire i u cs).1[k]? = some c' := by
  induction cs with
  | nil => intro _ k c h; simp at h
  | cons d cs ih =>
    intro hf k c hk
    rw [fire] at hf ⊢
    split at hf
    · cases hf
    · rename_i d1 he
      cases k with
      | zero =>
        simp only [List.getElem?_cons_zero, Option.some.injEq] at hk
        subst hk
        exact ⟨d1, he, rfl⟩
      | succ k =>
        simp only [List.getElem?_cons_succ] at hk
        obtain ⟨c', h1, h2⟩ := ih hf k c hk
        exact ⟨c', h1, by simpa using h2⟩

/-- A stream gets a new value in a history. -/
def Changed : St V → List (Nat × V) → Nat → Prop
  | _, [], _ => False
  | s, a :: as, i => (a.1 = i ∧ s.vals i ≠ a.2) ∨ Changed (s.assign a.1 a.2) as i

theorem printed_le (as : List (Nat × V)) : ∀ s : St V, s.printed ≤ (s.run as).printed := by
  induction as with
  | nil => exact fun s => Nat.le_refl _
  | cons a as ih =>
    intro s
    refine Nat.le_trans ?_ (ih (s.assign a.1 a.2))
    unfold St.assign
    split
    · exact Nat.le_refl _
    · exact Nat.le_add_right _ _

/-- `F`: the inputs whose values are known. -/
theorem run_fresh (k : Nat) : ∀ (as : List (Nat × V)) (s : St V) (c : Comb V) (F : Nat → Prop), s.combs[k]? = some c → c.cached.length = c.ins.length →
    (s.run as).printed = s.printed → (∀ (j i : Nat), c.ins[j]? = some i → F i → c.cached[j]? = some (s.vals i)) →
    ((∀ i ∈ c.ins, F i) → c.ins ≠ [] → c.fn c.cached = some c.value) → c.ins ≠ [] → (∀ i ∈ c.ins, F i ∨ Changed s as i) →
    ∃ c', (s.run as).combs[k]? = some c' ∧ c'.ins = c.ins ∧ c'.fn = c.fn ∧ c.fn (c.ins.map (s.run as).vals) = some c'.value := by
  intro as
  induction as with
  | nil =>
    intro s c F hk hlen _ h1 h2 hne h3
    have hF : ∀ i ∈ c.ins, F i := fun i hi => (h3 i hi).resolve_right id
    refine ⟨c, hk, rfl, rfl, ?_⟩
    have : c.ins.map s.vals = c.cached := by
      apply List.ext_getElem?
      intro j
      rw [List.getElem?_map]
      cases hj : c.ins[j]? with
      | none =>
        rw [List.getElem?_eq_none_iff] at hj
        rw [Option.map_none, eq_comm, List.getElem?_eq_none_iff, hlen]; exact hj
      | some i => rw [Option.map_some, h1 j i hj (hF i (List.mem_of_getElem? hj))]
    simp only [St.run, List.foldl_nil]
    rw [this]
    exact h2 hF hne
  | cons a as ih =>
    intro s c F hk hlen hp h1 h2 hne h3
    obtain ⟨i, u⟩ := a
    have hrun : s.run ((i, u) :: as) = (s.assign i u).run as := rfl
    rw [hrun] at hp ⊢
    by_cases hv : s.vals i = u
    · have ha : s.assign i u = s := by rw [St.assign, if_pos hv]
      rw [ha] at hp ⊢
      refine ih s c F hk hlen hp h1 h2 hne fun i' hi' => ?_
      rcases h3 i' hi' with h | h
      · exact .inl h
      · simp only [Changed, ha] at h
        rcases h with ⟨rfl, h⟩ | h
        · exact absurd hv h
        · exact .inr h
    · have ha : s.assign i u = ⟨Function.update s.vals i u, (fire i u s.combs).1, s.printed + if (fire i u s.combs).2 then 1 else 0⟩ := by
        rw [St.assign, if_neg hv]
      have hfire : (fire i u s.combs).2 = false := by
        have := printed_le as (s.assign i u)
        rw [hp, ha] at this
        cases hf : (fire i u s.combs).2 with
        | false => rfl
        | true => simp only [hf, if_true] at this; omega
      have hpr : (s.assign i u).printed = s.printed := by rw [ha]; simp [hfire]
      obtain ⟨c', e1, e2⟩ := fire_ok i u s.combs hfire k c hk
      obtain ⟨g1, g2, g3⟩ := hits_ok u (c.places i) c c' e1
      obtain ⟨k1, k2, k3⟩ := hits_same u (c.places i) c
      rw [e1] at k1 k2 k3
      simp only at k1 k2 k3
      have hvals : (s.assign i u).vals = Function.update s.vals i u := by rw [ha]
      obtain ⟨c'', r1, r2, r3, r4⟩ := ih (s.assign i u) c' (fun i' => F i' ∨ i' = i) (by rw [ha]; exact e2) (by rw [k3, k1, hlen]) (hp.trans hpr.symm)
        (by
          intro j i' hj hF
          rw [k1] at hj
          rw [g1 j, hvals]
          have hjl : j < c.cached.length := by
            rw [hlen]; exact (List.getElem?_eq_some_iff.1 hj).1
          by_cases hi' : i' = i
          · subst hi'
            rw [if_pos ⟨(mem_places c i' j).2 hj, hjl⟩, Function.update_self]
          · rw [if_neg (by rw [mem_places, hj]; simp [hi']), Function.update_of_ne hi']
            exact h1 j i' hj (hF.resolve_right hi'))
        (by
          intro hF hne'
          by_cases hpl : c.places i = []
          · rw [g3 hpl]
            refine h2 (fun i' hi' => ?_) hne
            rcases hF i' (k1 ▸ hi') with h | rfl
            · exact h
            · obtain ⟨j, hj, hji⟩ := List.mem_iff_getElem.1 hi'
              have : j ∈ c.places i' := (mem_places c i' j).2 (by rw [List.getElem?_eq_getElem hj, hji])
              rw [hpl] at this; cases this
          · exact g2 hpl)
        (by rw [k1]; exact hne)
        (by
          intro i' hi'
          rw [k1] at hi'
          rcases h3 i' hi' with h | h
          · exact .inl (.inl h)
          · simp only [Changed] at h
            rcases h with ⟨rfl, _⟩ | h
            · exact .inl (.inr rfl)
            · exact .inr h)
      exact ⟨c'', r1, r2.trans k1, r3.trans k2, by rw [← k1, ← k2]; exact r4⟩

/-- C173: whatever happened before: if from some time on no function raises and every input of a combined stream (in any positions, also repeated) gets a
new value, the stream has the right value, the one its function gives. -/
theorem C173_recovers (s : St V) (k : Nat) (c : Comb V) (hk : s.combs[k]? = some c) (hlen : c.cached.length = c.ins.length) (hne : c.ins ≠ [])
    (as : List (Nat × V)) (hp : (s.run as).printed = s.printed) (hch : ∀ i ∈ c.ins, Changed s as i) :
    ∃ c', (s.run as).combs[k]? = some c' ∧ c'.ins = c.ins ∧ c'.fn = c.fn ∧ c.fn (c.ins.map (s.run as).vals) = some c'.value := by
  exact run_fresh k as s c (fun _ => False) hk hlen hp (fun _ _ _ h => h.elim) (fun h hne => by
    obtain ⟨i, hi⟩ := List.exists_mem_of_ne_nil _ hne
    exact (h i hi).elim) hne (fun i hi => .inr (hch i hi))

/-- C173, partial: what is missing is functions that raise. If none does in a history, all combined streams with any inputs are right after it. -/
theorem C173_right_partial (s : St V) (h : ∀ c ∈ s.combs, c.Made s.vals ∧ c.ins ≠ []) (as : List (Nat × V)) (hp : (s.run as).printed = s.printed) (k : Nat) (c : Comb V)
    (hk : s.combs[k]? = some c) :
    ∃ c', (s.run as).combs[k]? = some c' ∧ c'.ins = c.ins ∧ c'.fn = c.fn ∧ c.fn (c.ins.map (s.run as).vals) = some c'.value := by
  obtain ⟨⟨h1, h2⟩, hne⟩ := h c (List.mem_of_getElem? hk)
  refine run_fresh k as s c (fun _ => True) hk (by rw [h1, List.length_map]) hp ?_ (fun _ _ => h2) hne (fun _ _ => .inl trivial)
  intro j i hj _
  rw [h1, List.getElem?_map, hj]; rfl

/-- The sum, which raises for 0 as first argument. -/
def div : List Nat → Option Nat
  | 0 :: _ => none
  | l => some l.sum

/-- Raises unless all values are the same. -/
def same : List Nat → Option Nat
  | [a, b] => if a = b then some a else none
  | _ => none

/-- C173 fails: two streams combine stream 0, the function of the first raises for 0: the second keeps the sum for the old value. And a function that does not
raise for any values its inputs ever have: it is called with the value of one input before it knows that of the other, and stays as it is for ever. -/
theorem C173_counterexample :
    (∃ s : St Nat, s = (⟨fun _ => 1, [⟨[0, 1], div, [1, 1], 2⟩, ⟨[1, 0], fun l => some l.sum, [1, 1], 2⟩], 0⟩ : St Nat).run [(0, 0)] ∧
      s.combs.map (fun c => c.value) = [2, 2] ∧ s.combs.map (fun c => c.ins.map s.vals) = [[0, 1], [1, 0]]) ∧
    (∃ s : St Nat, s = (⟨fun _ => 1, [⟨[0, 0], same, [1, 1], 1⟩], 0⟩ : St Nat).run [(0, 5), (0, 6), (0, 7)] ∧
      s.combs.map (fun c => c.value) = [1] ∧ s.combs.map (fun c => c.fn (c.ins.map s.vals)) = [some 7] ∧ s.printed = 3) :=
  ⟨⟨_, rfl, by decide, by decide⟩, ⟨_, rfl, by decide, by decide, by decide⟩⟩

/-- the second stream of the counterexample is right again after both inputs got new values -/
example : ((⟨fun _ => 1, [⟨[0, 1], div, [1, 1], 2⟩, ⟨[1, 0], fun l => some l.sum, [1, 1], 2⟩], 0⟩ : St Nat).run [(0, 0), (0, 3), (1, 4)]).combs.map (fun c => c.value) = [7, 7] := by
  decide

end Verif.Stream.CombineRaising
