import Verif.Stream.NetLemmas
import Mathlib.Algebra.BigOperators.Group.Finset.Basic
import Mathlib.Algebra.BigOperators.Intervals
import Mathlib.Algebra.BigOperators.Group.Finset.Piecewise
import Mathlib.Algebra.Order.BigOperators.Group.Finset

/-!
What giving up references does to a network of streams.
-/

namespace Verif.Stream

variable {α : Type}

/-- Number of places in which live streams use stream `p`. -/
def State.consumers (s : State α) (p : Nat) : Nat :=
  ∑ m ∈ Finset.range s.size, if (s.node m).active then (s.node m).kind.inputs.count p else 0

/-- Number of times stream `n` was closed. -/
def closedCount : List (Ev α) → Nat → Nat
  | [], _ => 0
  | .closed i :: l, n => (if i = n then 1 else 0) + closedCount l n
  | _ :: l, n => closedCount l n

theorem closedCount_append (a b : List (Ev α)) (n : Nat) : closedCount (a ++ b) n = closedCount a n + closedCount b n := by
  induction a with
  | nil => simp [closedCount]
  | cons e a ih => cases e <;> simp [closedCount, ih]; omega

/-- References are exactly those of the client, of the live consumers, and those about to be given up. -/
def Bal (s : State α) (ext pend : Nat → Nat) : Prop :=
  ∀ i < s.size, (s.node i).refs = ext i + s.consumers i + pend i

/-- Stream `i` is the same in both states but for references. -/
def Kept (a b : Node α) : Prop :=
  b.active = a.active ∧ b.value = a.value ∧ b.vals = a.vals ∧ (a.active = true → b.refs = 0 → a.refs = 0)

/-- Stream `i` was closed. -/
def Closed (a b : Node α) : Prop :=
  a.active = true ∧ b.active = false ∧ b.refs = 0 ∧ b.kind = a.kind ∧ (a.kind = .value → b.value = a.value) ∧
    (a.kind ≠ .value → b.value = none) ∧ 0 < a.refs

structure Released (s t : State α) (l : List (Ev α)) : Prop where
  size : t.size = s.size
  log : t.log = s.log ++ l
  kind : ∀ i, (t.node i).kind = (s.node i).kind
  refs : ∀ i, (t.node i).refs ≤ (s.node i).refs
  node : ∀ i, Kept (s.node i) (t.node i) ∧ closedCount l i = 0 ∨ Closed (s.node i) (t.node i) ∧ closedCount l i = 1
  events : ∀ e ∈ l, ∀ i, e ≠ .fail i ∧ (∀ v, e ≠ .fire i v) ∧ ∀ k v, e ≠ .deliver i k v

theorem Released.nil (s : State α) : Released s s [] where
  size := rfl
  log := by simp
  kind := fun _ => rfl
  refs := fun _ => le_refl _
  node := fun _ => .inl ⟨⟨rfl, rfl, rfl, fun _ h => h⟩, rfl⟩
  events := by simp

theorem Released.trans {s t u : State α} {l l' : List (Ev α)} (h : Released s t l) (h' : Released t u l') :
    Released s u (l ++ l') where
  size := h'.size.trans h.size
  log := by rw [h'.log, h.log, List.append_assoc]
  kind := fun i => (h'.kind i).trans (h.kind i)
  refs := fun i => (h'.refs i).trans (h.refs i)
  node := by
    intro i
    rw [closedCount_append]
    have hk := h.kind i
    have hr := h'.refs i
    rcases h.node i with ⟨⟨a1, a2, a3, a4⟩, a5⟩ | ⟨⟨a1, a2, a3, a4⟩, a5⟩
    · rcases h'.node i with ⟨⟨b1, b2, b3, b4⟩, b5⟩ | ⟨⟨b1, b2, b3, b4⟩, b5⟩
      · refine .inl ⟨⟨b1.trans a1, b2.trans a2, b3.trans a3, fun x y => a4 x (b4 (a1.trans x) y)⟩, by omega⟩
      · refine .inr ⟨⟨a1 ▸ b1, b2, b3, ?_⟩, by omega⟩
        rw [hk, a2] at b4
        exact ⟨b4.1, b4.2.1, b4.2.2.1, by have := h.refs i; have := b4.2.2.2; omega⟩
    · rcases h'.node i with ⟨⟨b1, b2, b3, b4⟩, b5⟩ | ⟨⟨b1, b2, b3, b4⟩, b5⟩
      · refine .inr ⟨⟨a1, b1.trans a2, by omega, ?_⟩, by omega⟩
        rw [b2, h'.kind]; exact a4
      · rw [a2] at b1; cases b1
  events := by
    intro e he
    rcases List.mem_append.1 he with he | he
    · exact h.events e he
    · exact h'.events e he

theorem consumers_congr {s t : State α} (hs : t.size = s.size) (hk : ∀ i < s.size, (t.node i).kind = (s.node i).kind)
    (ha : ∀ i < s.size, (t.node i).active = (s.node i).active) (p : Nat) : t.consumers p = s.consumers p := by
  unfold State.consumers
  rw [hs]
  refine Finset.sum_congr rfl fun m hm => ?_
  rw [Finset.mem_range] at hm
  rw [hk m hm, ha m hm]

/-- A live stream that dies takes its uses with it. -/
theorem consumers_drop {s t : State α} {n : Nat} (hn : n < s.size) (hs : t.size = s.size)
    (hk : ∀ i, i ≠ n → (t.node i).kind = (s.node i).kind ∧ (t.node i).active = (s.node i).active)
    (ha : (s.node n).active = true) (ha' : (t.node n).active = false) (p : Nat) :
    s.consumers p = t.consumers p + (s.node n).kind.inputs.count p := by
  unfold State.consumers
  rw [hs, ← Finset.sum_erase_add _ _ (Finset.mem_range.2 hn), ← Finset.sum_erase_add (Finset.range s.size) _ (Finset.mem_range.2 hn)]
  have : ∀ m ∈ (Finset.range s.size).erase n, (if (s.node m).active then (s.node m).kind.inputs.count p else 0) =
      (if (t.node m).active then (t.node m).kind.inputs.count p else 0) := by
    intro m hm
    have h := hk m (Finset.ne_of_mem_erase hm)
    rw [h.1, h.2]
  rw [Finset.sum_congr rfl this]
  simp [ha, ha']

theorem consumers_pos {s : State α} {p m k : Nat} (h : Edge s p m k) : 0 < s.consumers p := by
  unfold State.consumers
  have hle := Finset.single_le_sum (f := fun m => if (s.node m).active then (s.node m).kind.inputs.count p else 0)
    (fun _ _ => Nat.zero_le _) (Finset.mem_range.2 h.1)
  simp only [h.2.1, if_true] at hle
  have : 0 < (s.node m).kind.inputs.count p := List.count_pos_iff.2 (List.mem_of_getElem? h.2.2)
  omega

def ReleaseOk (fuel : Nat) : Prop := ∀ (s : State α) (n : Nat) (ext pend : Nat → Nat), Acyclic s → n < s.size → n < fuel →
  Bal s ext (fun i => pend i + if i = n then 1 else 0) →
  ∃ l, Released s (s.removeRef fuel n) l ∧ Bal (s.removeRef fuel n) ext pend

theorem Released.acyclic {s t : State α} {l : List (Ev α)} (h : Released s t l) (ha : Acyclic s) : Acyclic t := by
  intro m hm p hp; rw [h.kind] at hp; rw [h.size] at hm; exact ha m hm p hp

theorem foldl_released {fuel : Nat} (ih : ReleaseOk (α := α) fuel) (ext : Nat → Nat) (srcs : List Nat) (pend : Nat → Nat)
    (s : State α) (ha : Acyclic s) (hs : ∀ p ∈ srcs, p < s.size ∧ p < fuel)
    (hb : Bal s ext (fun i => pend i + srcs.count i)) :
    ∃ l, Released s (srcs.foldl (fun s src => State.removeRef fuel src s) s) l ∧
      Bal (srcs.foldl (fun s src => State.removeRef fuel src s) s) ext pend := by
  induction srcs generalizing s with
  | nil => exact ⟨[], .nil s, by simpa using hb⟩
  | cons p srcs ih2 =>
    obtain ⟨l, hl, hb1⟩ := ih s p ext (fun i => pend i + srcs.count i) ha (hs p (by simp)).1 (hs p (by simp)).2 (by
      intro i hi
      rw [hb i hi]
      simp only [List.count_cons, beq_iff_eq, eq_comm (a := p)]
      omega)
    obtain ⟨l', hl', hb2⟩ := ih2 (s.removeRef fuel p) (hl.acyclic ha)
      (fun q hq => by rw [hl.size]; exact hs q (by simp [hq])) hb1
    exact ⟨l ++ l', hl.trans hl', hb2⟩

@[simp] theorem setNode_self (s : State α) (n : Nat) (nd : Node α) : (s.setNode n nd).node n = nd := by simp [State.setNode]

theorem setNode_ne (s : State α) {n i : Nat} (nd : Node α) (h : i ≠ n) : (s.setNode n nd).node i = s.node i := by
  simp [State.setNode, h]

/-- The end of `close` of a stream that has become inactive and has given up its references. -/
theorem released_close {s s1 s2 : State α} {n : Nat} {l : List (Ev α)} {nd : Node α} {v : Val α}
    (h1size : s1.size = s.size) (h1log : s1.log = s.log ++ [.closing n v])
    (h1n : s1.node n = { s.node n with refs := 0, active := false })
    (h1i : ∀ i, i ≠ n → s1.node i = s.node i) (ha : (s.node n).active = true) (hpos : 0 < (s.node n).refs)
    (h : Released s1 s2 l) (hnd : nd.kind = (s2.node n).kind ∧ nd.refs = (s2.node n).refs ∧ nd.active = (s2.node n).active ∧
      nd.value = none) (hk : ∀ (h : (s.node n).kind = .value), False) :
    Released s ((s2.setNode n nd).emit (.closed n)) (.closing n v :: l ++ [.closed n]) := by
  have hn : ¬ Closed (s1.node n) (s2.node n) := by
    rintro ⟨h, _⟩; rw [h1n] at h; simp at h
  have hkeep : Kept (s1.node n) (s2.node n) ∧ closedCount l n = 0 := by
    rcases h.node n with h | h
    · exact h
    · exact absurd h.1 hn
  have hrefs : (s2.node n).refs = 0 := by have := h.refs n; rw [h1n] at this; simpa using this
  refine ⟨by show s2.size = s.size; rw [h.size, h1size], ?_, ?_, ?_, ?_, ?_⟩
  · simp [State.emit, State.setNode, h.log, h1log]
  · intro i
    by_cases hi : i = n
    · subst hi
      simp only [State.emit, setNode_self, hnd.1, h.kind, h1n]
    · simp only [State.emit, setNode_ne _ _ hi, h.kind, h1i i hi]
  · intro i
    by_cases hi : i = n
    · subst hi
      simp only [State.emit, setNode_self, hnd.2.1, hrefs]; exact Nat.zero_le _
    · simp only [State.emit, setNode_ne _ _ hi]
      have := h.refs i
      rwa [h1i i hi] at this
  · intro i
    by_cases hi : i = n
    · subst hi
      refine .inr ⟨⟨ha, ?_, ?_, ?_⟩, ?_⟩
      · simp only [State.emit, setNode_self, hnd.2.2.1]
        rw [hkeep.1.1, h1n]
      · simp only [State.emit, setNode_self, hnd.2.1, hrefs]
      · simp only [State.emit, setNode_self]
        refine ⟨?_, fun hh => (hk hh).elim, fun _ => hnd.2.2.2, hpos⟩
        rw [hnd.1, h.kind, h1n]
      · simp [closedCount, closedCount_append, hkeep.2]
    · have := h.node i
      rw [h1i i hi] at this
      simp only [State.emit, setNode_ne _ _ hi, List.cons_append, closedCount, closedCount_append, Ne.symm hi, if_false]
      simpa using this
  · intro e he i
    simp only [List.cons_append, List.mem_cons, List.mem_append, List.not_mem_nil, or_false] at he
    rcases he with rfl | he | rfl
    · simp
    · exact h.events e he i
    · simp

theorem releaseOk (fuel : Nat) : ReleaseOk (α := α) fuel := by
  induction fuel with
  | zero => intro s n ext pend _ _ h; omega
  | succ fuel ih =>
    intro s n ext pend ha hn hf hb
    have hbn := hb n hn
    simp only [if_true] at hbn
    have hpos : (s.node n).refs ≠ 0 := by omega
    rw [State.removeRef]
    rw [if_neg hpos]
    simp only [setNode_self]
    by_cases hc : (s.node n).active = true ∧ (s.node n).refs - 1 = 0
    · rw [if_pos hc]
      have hc0 : (s.node n).refs - 1 = 0 := hc.2
      -- the state in which the stream is inactive
      set s1 := ((s.setNode n { s.node n with refs := (s.node n).refs - 1 }).setNode n
        { ({ s.node n with refs := (s.node n).refs - 1 } : Node α) with active := false }) with hs1
      have h1n : s1.node n = { s.node n with refs := 0, active := false } := by simp [hs1, hc0]
      have h1i : ∀ i, i ≠ n → s1.node i = s.node i := by
        intro i hi; simp [hs1, setNode_ne _ _ hi]
      have h1size : s1.size = s.size := rfl
      have h1log : s1.log = s.log := rfl
      have hcons := consumers_drop (s := s) (t := s1) hn rfl (fun i hi => by rw [h1i i hi]; exact ⟨rfl, rfl⟩) hc.1
        (by rw [h1n])
      have hself : (s.node n).kind.inputs.count n = 0 := by
        rw [List.count_eq_zero]
        intro hx; exact absurd (ha n hn n hx) (by omega)
      have hb1 : Bal s1 ext (fun i => pend i + (s.node n).kind.inputs.count i) := by
        intro i hi
        by_cases hin : i = n
        · subst hin
          have := hcons i
          rw [h1n]; simp only; omega
        · have h2 := hb i hi
          have := hcons i
          rw [h1i i hin]; simp only [hin, if_false] at h2 ⊢; omega
      have hb1e : ∀ v, Bal (s1.emit (.closing n v)) ext (fun i => pend i + (s.node n).kind.inputs.count i) := fun v => hb1
      have ha1 : ∀ v, Acyclic (s1.emit (.closing n v)) := by
        intro v m hm p hp
        have hk : ((s1.emit (.closing n v)).node m).kind = (s.node m).kind := by
          show (s1.node m).kind = _
          by_cases hmn : m = n
          · subst hmn; rw [h1n]
          · rw [h1i m hmn]
        rw [hk] at hp; exact ha m hm p hp
      have hbal : ∀ {s2 : State α} {nd : Node α}, Bal s2 ext pend → nd.kind = (s2.node n).kind → nd.refs = (s2.node n).refs →
          nd.active = (s2.node n).active → Bal ((s2.setNode n nd).emit (.closed n)) ext pend := by
        intro s2 nd h hk hr hact i hi
        have hcc : ((s2.setNode n nd).emit (.closed n)).consumers i = s2.consumers i := by
          refine consumers_congr (s := s2) (t := (s2.setNode n nd).emit (.closed n)) rfl ?_ ?_ i <;> intro j _ <;> by_cases hj : j = n
          · subst hj; simpa [State.emit] using hk
          · simp [State.emit, setNode_ne _ _ hj]
          · subst hj; simpa [State.emit] using hact
          · simp [State.emit, setNode_ne _ _ hj]
        rw [hcc]
        by_cases hj : i = n
        · subst hj
          simp only [State.emit, setNode_self, hr]; exact h i hi
        · simp only [State.emit, setNode_ne _ _ hj]; exact h i hi
      have hconst : ∀ nd : Node α, nd.kind = (s.node n).kind → nd.value = none → nd.refs = 0 → nd.active = false →
          (s.node n).kind = .const → ∃ l, Released s ((s1.setNode n nd).emit (.closed n)) l ∧
            Bal ((s1.setNode n nd).emit (.closed n)) ext pend := by
        intro nd e1 e2 e3 e4 hk
        have hb1' : Bal s1 ext pend := by simpa [hk, Kind.inputs] using hb1
        refine ⟨[.closed n], ⟨rfl, rfl, ?_, ?_, ?_, by simp⟩, hbal hb1' (by rw [h1n, e1]) (by rw [h1n, e3]) (by rw [h1n, e4])⟩
        · intro i
          show ((s1.setNode n nd).node i).kind = _
          by_cases hi : i = n
          · subst hi; rw [setNode_self, e1]
          · rw [setNode_ne _ _ hi, h1i i hi]
        · intro i
          show ((s1.setNode n nd).node i).refs ≤ _
          by_cases hi : i = n
          · subst hi; rw [setNode_self, e3]; exact Nat.zero_le _
          · rw [setNode_ne _ _ hi, h1i i hi]
        · intro i
          show Kept (s.node i) ((s1.setNode n nd).node i) ∧ _ ∨ Closed (s.node i) ((s1.setNode n nd).node i) ∧ _
          by_cases hi : i = n
          · subst hi
            rw [setNode_self]
            exact .inr ⟨⟨hc.1, e4, e3, e1, by simp [hk], fun _ => e2, by omega⟩, by simp [closedCount]⟩
          · refine .inl ⟨?_, by simp [closedCount, Ne.symm hi]⟩
            rw [setNode_ne _ _ hi, h1i i hi]; exact ⟨rfl, rfl, rfl, fun _ h => h⟩
      cases hk : (s.node n).kind with
      | value =>
        refine ⟨[.closed n], ⟨rfl, rfl, ?_, ?_, ?_, by simp⟩, ?_⟩
        · intro i
          show (s1.node i).kind = _
          by_cases hi : i = n
          · subst hi; rw [h1n]
          · rw [h1i i hi]
        · intro i
          show (s1.node i).refs ≤ _
          by_cases hi : i = n
          · subst hi; rw [h1n]; exact Nat.zero_le _
          · rw [h1i i hi]
        · intro i
          show Kept (s.node i) (s1.node i) ∧ _ ∨ Closed (s.node i) (s1.node i) ∧ _
          by_cases hi : i = n
          · subst hi
            refine .inr ⟨⟨hc.1, by rw [h1n], by rw [h1n], by rw [h1n], fun _ => by rw [h1n], fun h => absurd hk h, by omega⟩, by simp [closedCount]⟩
          · refine .inl ⟨?_, by simp [closedCount, Ne.symm hi]⟩
            rw [h1i i hi]; exact ⟨rfl, rfl, rfl, fun _ h => h⟩
        · simp only [hk, Kind.inputs, List.count_nil, Nat.add_zero] at hb1
          exact hb1
      | const =>
        exact hconst _ hk.symm rfl hc0 rfl hk
      | map src f =>
        have hin : (s.node n).kind.inputs = [src] := by rw [hk]; rfl
        have hlt : src < n := ha n hn src (by rw [hin]; simp)
        obtain ⟨l, hl, hbl⟩ := ih (s1.emit (.closing n (s.node n).value)) src ext pend (ha1 _)
          (by show src < s.size; omega) (by omega) (by
            have := hb1e (s.node n).value
            rw [hin] at this
            intro i hi
            rw [this i hi]
            simp [List.count_cons, eq_comm (a := src)])
        refine ⟨.closing n (s.node n).value :: l ++ [.closed n], ?_, ?_⟩
        · exact released_close (s := s) (s1 := s1.emit (.closing n (s.node n).value)) (v := (s.node n).value) rfl rfl h1n h1i
            hc.1 (by omega) hl ⟨rfl, rfl, rfl, rfl⟩ (by simp [hk])
        · exact hbal hbl rfl rfl rfl
      | combine srcs f =>
        have hin : (s.node n).kind.inputs = srcs := by rw [hk]; rfl
        have hlt : ∀ p ∈ srcs, p < n := fun p hp => ha n hn p (by rw [hin]; exact hp)
        obtain ⟨l, hl, hbl⟩ := foldl_released ih ext srcs pend (s1.emit (.closing n (s.node n).value)) (ha1 _)
          (fun p hp => ⟨by have := hlt p hp; show p < s.size; omega, by have := hlt p hp; omega⟩) (by
            have := hb1e (s.node n).value
            rw [hin] at this
            exact this)
        refine ⟨.closing n (s.node n).value :: l ++ [.closed n], ?_, ?_⟩
        · exact released_close (s := s) (s1 := s1.emit (.closing n (s.node n).value)) (v := (s.node n).value) rfl rfl h1n h1i
            hc.1 (by omega) hl ⟨rfl, rfl, rfl, rfl⟩ (by simp [hk])
        · exact hbal hbl rfl rfl rfl
    · rw [if_neg hc]
      refine ⟨[], ⟨rfl, by simp [State.setNode], ?_, ?_, ?_, by simp⟩, ?_⟩
      · intro i
        by_cases hi : i = n
        · subst hi; simp
        · rw [setNode_ne _ _ hi]
      · intro i
        by_cases hi : i = n
        · subst hi; simp
        · rw [setNode_ne _ _ hi]
      · intro i
        refine .inl ⟨?_, rfl⟩
        by_cases hi : i = n
        · subst hi
          simp only [setNode_self]
          exact ⟨rfl, rfl, rfl, fun h1 h2 => absurd ⟨h1, h2⟩ hc⟩
        · rw [setNode_ne _ _ hi]; exact ⟨rfl, rfl, rfl, fun _ h => h⟩
      · intro i hi
        have hcc : (s.setNode n { s.node n with refs := (s.node n).refs - 1 }).consumers i = s.consumers i := by
          refine consumers_congr (s := s) (t := s.setNode n _) rfl ?_ ?_ i <;> intro j _ <;> by_cases hj : j = n
          all_goals first
            | (subst hj; simp)
            | simp [setNode_ne _ _ hj]
        rw [hcc]
        have h2 := hb i hi
        by_cases hin : i = n
        · subst hin; simp only [setNode_self, if_true] at h2 ⊢; omega
        · rw [setNode_ne _ _ hin]; simp only [hin, if_false] at h2; omega

end Verif.Stream
