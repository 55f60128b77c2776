import Verif.Persist.Modified

/-!
C58 when items are replaced or cleared by `set_item` as well (`nion/utils/Persistence.py:679-692`: the old item keeps its
`persistent_object_parent`), on the model of `Modified.lean`.
-/

namespace Verif.Persist

open Verif.Py

/-- `a` is reached from `o` by going from objects to their `persistent_object_parent`. -/
def Heap.Under (h : Heap) (o a : Nat) : Prop := Relation.ReflTransGen (fun x y => h.parent x = some y) o a

/-- Any operation in which an object is put into one place only, and not into one that leads back to it by parents. -/
def HOp.Free (h : Heap) : HOp → Prop
  | .setProp _ => True
  | .setItem _ _ none => True
  | .setItem p _ (some c) => (∀ q, ¬ h.Contains q c) ∧ ¬ h.Under p c
  | .insert p _ _ c => (∀ q, ¬ h.Contains q c) ∧ ¬ h.Under p c
  | .remove p k c => c ∈ h.rels p k

/-- The items that an operation takes out of an object by `set_item`. -/
def HOp.replaced (h : Heap) : HOp → List (Nat × Nat)
  | .setItem p k _ => match h.items p k with
    | some c => [(p, c)]
    | none => []
  | _ => []

/-- Histories of such operations, with the items that were replaced so far and their former places. -/
inductive ReachF : Heap → List (Nat × Nat) → Prop where
  | init : ReachF Heap.init []
  | step {h : Heap} {gone : List (Nat × Nat)} (n t : Nat) (op : HOp) (hr : ReachF h gone) (hg : op.Free h)
      (hn : ∀ l, Chain h.parent op.target l → l.length ≤ n) : ReachF (h.step n t op) (gone ++ op.replaced h)

structure Heap.InvF (h : Heap) (gone : List (Nat × Nat)) : Prop where
  contains_parent : ∀ p c, h.Contains p c → h.parent c = some p
  stale : ∀ p c, h.parent c = some p → h.Contains p c ∨ (p, c) ∈ gone
  item_once : ∀ p k k' c, h.items p k = some c → h.items p k' = some c → k = k'
  item_rel : ∀ p k k' c, h.items p k = some c → c ∉ h.rels p k'
  rel_once : ∀ p k k' c, c ∈ h.rels p k → c ∈ h.rels p k' → k = k'
  nodup : ∀ p k, (h.rels p k).Nodup
  ends : ∀ o, ∃ l, Chain h.parent o l

theorem Heap.invF_init : Heap.init.InvF [] :=
  ⟨by simp [Heap.init, Heap.Contains], by simp [Heap.init], by simp [Heap.init], by simp [Heap.init], by simp [Heap.init],
    by simp [Heap.init], fun o => ⟨[o], .top o rfl⟩⟩

/-- Giving an object another parent, one that does not lead back to it, leaves no cycles. -/
theorem ends_update' {parent : Nat → Option Nat} (h : ∀ o, ∃ l, Chain parent o l) {c p : Nat}
    (hp : ¬ Relation.ReflTransGen (fun x y => parent x = some y) p c) :
    ∀ o, ∃ l, Chain (Function.update parent c (some p)) o l := by
  have hout : ∀ x l, Chain parent x l → c ∉ l → Chain (Function.update parent c (some p)) x l := by
    intro x l hx hcl
    induction hx with
    | top o h =>
      simp only [List.mem_singleton] at hcl
      exact .top o (by rw [Function.update_of_ne (Ne.symm hcl)]; exact h)
    | up o q l h _ ih =>
      simp only [List.mem_cons, not_or] at hcl
      exact .up o q l (by rw [Function.update_of_ne (Ne.symm hcl.1)]; exact h) (ih hcl.2)
  obtain ⟨lp, hlp⟩ := h p
  have hlp' := hout p lp hlp fun hm => hp ((hlp.mem_iff c).1 hm)
  have hself : Chain (Function.update parent c (some p)) c (c :: lp) := .up c p lp (by simp) hlp'
  intro o
  obtain ⟨l, hl⟩ := h o
  induction hl with
  | top o h =>
    by_cases hoc : o = c
    · subst hoc
      exact ⟨_, hself⟩
    · exact ⟨[o], .top o (by rw [Function.update_of_ne hoc]; exact h)⟩
  | up o q l h _ ih =>
    by_cases hoc : o = c
    · subst hoc
      exact ⟨_, hself⟩
    · obtain ⟨l', hl'⟩ := ih
      exact ⟨_, .up o q l' (by rw [Function.update_of_ne hoc]; exact h) hl'⟩

/-- The effect of a step on the counts and times. -/
theorem step_countsF {h : Heap} (op : HOp) (hg : op.Free h) {l : List Nat} (hl : Chain h.parent op.target l)
    (n t : Nat) (hn : l.length ≤ n) (a : Nat) :
    (h.step n t op).count a = h.count a + l.count a ∧ (h.step n t op).time a = if a ∈ l then t else h.time a := by
  cases op with
  | setProp o => exact (bump_chain t n o l h hl hn).2.2.2 a
  | setItem p k v =>
    have := (bump_chain t n p l { h with items := Function.update h.items p (Function.update (h.items p) k v) } hl hn).2.2.2 a
    cases v <;> exact this
  | insert p k i c =>
    exact (bump_chain t n p l
      { h with rels := Function.update h.rels p (Function.update (h.rels p) k (Py.insert (h.rels p k) i c)) } hl hn).2.2.2 a
  | remove p k c =>
    have hc : c ∈ h.rels p k := hg
    simp only [Heap.step, if_pos hc]
    exact (bump_chain t n p l
      { h with rels := Function.update h.rels p (Function.update (h.rels p) k ((h.rels p k).erase c)) } hl hn).2.2.2 a

theorem step_invF {h : Heap} {gone : List (Nat × Nat)} (hi : h.InvF gone) (op : HOp) (hg : op.Free h) {l : List Nat}
    (hl : Chain h.parent op.target l) (n t : Nat) (hn : l.length ≤ n) : (h.step n t op).InvF (gone ++ op.replaced h) := by
  cases op with
  | setProp o =>
    obtain ⟨h1, h2, h3, _⟩ := bump_chain t n o l h hl hn
    simp only [Heap.step, HOp.replaced, List.append_nil]
    exact ⟨fun p c => by rw [Heap.Contains, h1, h2, h3]; exact hi.contains_parent p c,
      fun p c => by rw [Heap.Contains, h1, h2, h3]; exact hi.stale p c, by rw [h1]; exact hi.item_once,
      by rw [h1, h2]; exact hi.item_rel, by rw [h2]; exact hi.rel_once, by rw [h2]; exact hi.nodup, by rw [h3]; exact hi.ends⟩
  | setItem p k v =>
    obtain ⟨h1, h2, h3, _⟩ := bump_chain t n p l
      { h with items := Function.update h.items p (Function.update (h.items p) k v) } hl hn
    simp only at h1 h2 h3
    have hit : ∀ q j x, Function.update h.items p (Function.update (h.items p) k v) q j = some x ↔
        (q = p ∧ j = k ∧ v = some x) ∨ (¬ (q = p ∧ j = k) ∧ h.items q j = some x) := by
      intro q j x
      simp only [Function.update_apply]
      by_cases hq : q = p
      · subst hq
        by_cases hj : j = k
        · subst hj
          simp
        · simp [hj]
      · simp [hq]
    -- an object that was contained is so still, or was replaced
    have hkeep : ∀ q x, h.Contains q x → ((∃ j, Function.update h.items p (Function.update (h.items p) k v) q j = some x) ∨
        ∃ j, x ∈ h.rels q j) ∨ (q, x) ∈ (HOp.setItem p k v).replaced h := by
      rintro q x (⟨j, hj⟩ | hj)
      · by_cases hq : q = p ∧ j = k
        · obtain ⟨rfl, rfl⟩ := hq
          right
          simp [HOp.replaced, hj]
        · exact .inl (.inl ⟨j, (hit q j x).2 (.inr ⟨hq, hj⟩)⟩)
      · exact .inl (.inr hj)
    cases v with
    | none =>
      simp only [Heap.step]
      refine ⟨fun q x => ?_, fun q x hx => ?_, fun q j j' x hj hj' => ?_, fun q j j' x hj => ?_, ?_, ?_, ?_⟩
      · simp only [Heap.Contains, h1, h2, h3, hit]
        rintro (⟨j, ⟨_, _, he⟩ | ⟨_, hj⟩⟩ | hj)
        · cases he
        · exact hi.contains_parent q x (.inl ⟨j, hj⟩)
        · exact hi.contains_parent q x (.inr hj)
      · rw [h3] at hx
        rw [Heap.Contains, h1, h2, List.mem_append]
        rcases hi.stale q x hx with hc | hc
        · rcases hkeep q x hc with hc | hc
          · exact .inl hc
          · exact .inr (.inr hc)
        · exact .inr (.inl hc)
      · rw [h1, hit] at hj hj'
        rcases hj with ⟨_, _, he⟩ | ⟨_, hj⟩
        · cases he
        · rcases hj' with ⟨_, _, he⟩ | ⟨_, hj'⟩
          · cases he
          · exact hi.item_once q j j' x hj hj'
      · rw [h1, hit] at hj
        rw [h2]
        rcases hj with ⟨_, _, he⟩ | ⟨_, hj⟩
        · cases he
        · exact hi.item_rel q j j' x hj
      · rw [h2]; exact hi.rel_once
      · rw [h2]; exact hi.nodup
      · rw [h3]; exact hi.ends
    | some c =>
      obtain ⟨hnc, hw⟩ : (∀ q, ¬ h.Contains q c) ∧ ¬ h.Under p c := hg
      have hni : ∀ q j, h.items q j ≠ some c := fun q j he => hnc q (.inl ⟨j, he⟩)
      have hnr : ∀ q j, c ∉ h.rels q j := fun q j he => hnc q (.inr ⟨j, he⟩)
      simp only [Heap.step]
      refine ⟨fun q x => ?_, fun q x hx => ?_, fun q j j' x hj hj' => ?_, fun q j j' x hj => ?_, ?_, ?_, ?_⟩
      · simp only [Heap.Contains, h1, h2, h3, hit]
        rintro (⟨j, ⟨rfl, _, he⟩ | ⟨_, hj⟩⟩ | ⟨j, hj⟩)
        · cases he
          rw [Function.update_self]
        · rw [Function.update_of_ne (fun he => hni q j (by rw [hj, he]))]
          exact hi.contains_parent q x (.inl ⟨j, hj⟩)
        · rw [Function.update_of_ne (fun he => hnr q j (by rw [← he]; exact hj))]
          exact hi.contains_parent q x (.inr ⟨j, hj⟩)
      · rw [Heap.Contains, h1, h2, List.mem_append]
        simp only [h3] at hx
        by_cases hxc : x = c
        · subst hxc
          rw [Function.update_self] at hx
          cases hx
          exact .inl (.inl ⟨k, (hit p k x).2 (.inl ⟨rfl, rfl, rfl⟩)⟩)
        · rw [Function.update_of_ne hxc] at hx
          rcases hi.stale q x hx with hc | hc
          · rcases hkeep q x hc with hc | hc
            · exact .inl hc
            · exact .inr (.inr hc)
          · exact .inr (.inl hc)
      · rw [h1, hit] at hj hj'
        rcases hj with ⟨rfl, rfl, he⟩ | ⟨_, hj⟩
        · cases he
          rcases hj' with ⟨_, rfl, _⟩ | ⟨_, hj'⟩
          · rfl
          · exact absurd hj' (hni _ _)
        · rcases hj' with ⟨rfl, rfl, he⟩ | ⟨_, hj'⟩
          · cases he
            exact absurd hj (hni _ _)
          · exact hi.item_once q j j' x hj hj'
      · rw [h1, hit] at hj
        rw [h2]
        rcases hj with ⟨rfl, rfl, he⟩ | ⟨_, hj⟩
        · cases he
          exact hnr _ _
        · exact hi.item_rel q j j' x hj
      · rw [h2]; exact hi.rel_once
      · rw [h2]; exact hi.nodup
      · rw [h3]
        exact ends_update' hi.ends hw
  | insert p k i c =>
    obtain ⟨hnc, hw⟩ : (∀ q, ¬ h.Contains q c) ∧ ¬ h.Under p c := hg
    obtain ⟨h1, h2, h3, _⟩ := bump_chain t n p l
      { h with rels := Function.update h.rels p (Function.update (h.rels p) k (Py.insert (h.rels p k) i c)) } hl hn
    simp only at h1 h2 h3
    have hni : ∀ q j, h.items q j ≠ some c := fun q j he => hnc q (.inl ⟨j, he⟩)
    have hnr : ∀ q j, c ∉ h.rels q j := fun q j he => hnc q (.inr ⟨j, he⟩)
    have hrel : ∀ q j x, x ∈ Function.update h.rels p (Function.update (h.rels p) k (Py.insert (h.rels p k) i c)) q j ↔
        (q = p ∧ j = k ∧ x = c) ∨ x ∈ h.rels q j := by
      intro q j x
      simp only [Function.update_apply]
      by_cases hq : q = p
      · subst hq
        by_cases hj : j = k
        · subst hj
          simp [mem_insert]
        · simp [hj]
      · simp [hq]
    simp only [Heap.step, HOp.replaced, List.append_nil]
    refine ⟨fun q x => ?_, fun q x hx => ?_, ?_, fun q j j' x hj hj' => ?_, fun q j j' x hj hj' => ?_, fun q j => ?_, ?_⟩
    · simp only [Heap.Contains, h1, h2, h3, hrel]
      rintro (⟨j, hj⟩ | ⟨j, ⟨rfl, _, rfl⟩ | hj⟩)
      · rw [Function.update_of_ne (fun he => hni q j (by rw [hj, he]))]
        exact hi.contains_parent q x (.inl ⟨j, hj⟩)
      · rw [Function.update_self]
      · rw [Function.update_of_ne (fun he => hnr q j (by rw [← he]; exact hj))]
        exact hi.contains_parent q x (.inr ⟨j, hj⟩)
    · simp only [Heap.Contains, h1, h2, hrel]
      simp only [h3] at hx
      by_cases hxc : x = c
      · subst hxc
        rw [Function.update_self] at hx
        cases hx
        exact .inl (.inr ⟨k, .inl ⟨rfl, rfl, rfl⟩⟩)
      · rw [Function.update_of_ne hxc] at hx
        rcases hi.stale q x hx with (hc | ⟨j, hj⟩) | hc
        · exact .inl (.inl hc)
        · exact .inl (.inr ⟨j, .inr hj⟩)
        · exact .inr hc
    · rw [h1]; exact hi.item_once
    · rw [h1] at hj
      rw [h2, hrel] at hj'
      rcases hj' with ⟨rfl, rfl, rfl⟩ | hj'
      · exact hni _ _ hj
      · exact hi.item_rel q j j' x hj hj'
    · rw [h2, hrel] at hj hj'
      rcases hj with ⟨rfl, rfl, rfl⟩ | hj
      · rcases hj' with ⟨_, rfl, _⟩ | hj'
        · rfl
        · exact absurd hj' (hnr _ _)
      · rcases hj' with ⟨rfl, rfl, rfl⟩ | hj'
        · exact absurd hj (hnr _ _)
        · exact hi.rel_once q j j' x hj hj'
    · rw [h2]
      simp only [Function.update_apply]
      by_cases hq : q = p
      · subst hq
        by_cases hj : j = k
        · subst hj
          simpa using nodup_insert (hi.nodup q j) (hnr q j)
        · simpa [Function.update_of_ne hj] using hi.nodup q j
      · simpa [hq] using hi.nodup q j
    · rw [h3]
      exact ends_update' hi.ends hw
  | remove p k c =>
    have hc : c ∈ h.rels p k := hg
    obtain ⟨h1, h2, h3, _⟩ := bump_chain t n p l
      { h with rels := Function.update h.rels p (Function.update (h.rels p) k ((h.rels p k).erase c)) } hl hn
    simp only at h1 h2 h3
    have hpp : h.parent c = some p := hi.contains_parent p c (.inr ⟨k, hc⟩)
    have hrel : ∀ q j x, x ∈ Function.update h.rels p (Function.update (h.rels p) k ((h.rels p k).erase c)) q j ↔
        x ≠ c ∧ x ∈ h.rels q j := by
      intro q j x
      simp only [Function.update_apply]
      by_cases hq : q = p
      · subst hq
        by_cases hj : j = k
        · subst hj
          simp [(hi.nodup q j).mem_erase_iff]
        · rw [if_pos rfl, Function.update_of_ne hj]
          refine ⟨fun hx => ⟨fun he => ?_, hx⟩, fun hx => hx.2⟩
          subst he
          exact hj (hi.rel_once q j k x hx hc)
      · rw [if_neg hq]
        refine ⟨fun hx => ⟨fun he => ?_, hx⟩, fun hx => hx.2⟩
        subst he
        have := hi.contains_parent q x (.inr ⟨j, hx⟩)
        rw [hpp] at this
        cases this
        exact hq rfl
    simp only [Heap.step, if_pos hc, HOp.replaced, List.append_nil]
    refine ⟨fun q x => ?_, fun q x hx => ?_, ?_, fun q j j' x hj hj' => ?_, fun q j j' x hj hj' => ?_, fun q j => ?_, ?_⟩
    · simp only [Heap.Contains, h1, h2, h3, hrel]
      rintro (⟨j, hj⟩ | ⟨j, hx, hj⟩)
      · have hp' := hi.contains_parent q x (.inl ⟨j, hj⟩)
        rw [Function.update_of_ne]
        · exact hp'
        · rintro rfl
          rw [hpp] at hp'
          cases hp'
          exact hi.item_rel p j k x hj hc
      · rw [Function.update_of_ne hx]
        exact hi.contains_parent q x (.inr ⟨j, hj⟩)
    · simp only [Heap.Contains, h1, h2, hrel]
      simp only [h3] at hx
      by_cases hxc : x = c
      · subst hxc
        rw [Function.update_self] at hx
        cases hx
      · rw [Function.update_of_ne hxc] at hx
        rcases hi.stale q x hx with (hc | ⟨j, hj⟩) | hc
        · exact .inl (.inl hc)
        · exact .inl (.inr ⟨j, hxc, hj⟩)
        · exact .inr hc
    · rw [h1]; exact hi.item_once
    · rw [h1] at hj
      rw [h2, hrel] at hj'
      exact hi.item_rel q j j' x hj hj'.2
    · rw [h2, hrel] at hj hj'
      exact hi.rel_once q j j' x hj.2 hj'.2
    · rw [h2]
      simp only [Function.update_apply]
      by_cases hq : q = p
      · subst hq
        by_cases hj : j = k
        · subst hj
          simpa using (hi.nodup q j).erase c
        · simpa [Function.update_of_ne hj] using hi.nodup q j
      · simpa [hq] using hi.nodup q j
    · rw [h3]
      exact ends_none hi.ends c

theorem rtg_mono {r s : Nat → Nat → Prop} {o a : Nat} (h : Relation.ReflTransGen r o a) (hrs : ∀ x y, r x y → s x y) :
    Relation.ReflTransGen s o a := by
  induction h with
  | refl => exact .refl
  | tail _ hxy ih => exact ih.tail (hrs _ _ hxy)

theorem ReachF.inv {h : Heap} {gone : List (Nat × Nat)} (hr : ReachF h gone) : h.InvF gone := by
  induction hr with
  | init => exact Heap.invF_init
  | step n t op _ hg hn ih =>
    obtain ⟨l, hl⟩ := ih.ends op.target
    exact step_invF ih op hg hl n t (hn l hl)

/-- C58 for histories with items replaced or cleared: an operation counts once for every object that contains the one operated on,
directly or not; an object that is counted besides contains, or is, one out of which an item was taken by `set_item`, an item that
is, or contains, the object operated on or another such item. -/
theorem C58_replaced_partial (h : Heap) (gone : List (Nat × Nat)) (hr : ReachF h gone) (op : HOp) (hg : op.Free h) :
    ∃ N, ∀ n ≥ N, ∀ t a,
      (h.Within op.target a → (h.step n t op).count a = h.count a + 1 ∧ (h.step n t op).time a = t) ∧
      ((h.step n t op).count a = h.count a + 1 ∧ (h.step n t op).time a = t ∨
        (h.step n t op).count a = h.count a ∧ (h.step n t op).time a = h.time a) ∧
      ((h.step n t op).count a ≠ h.count a →
        Relation.ReflTransGen (fun x y => h.Contains y x ∨ (y, x) ∈ gone) op.target a) := by
  have hi := hr.inv
  obtain ⟨l, hl⟩ := hi.ends op.target
  refine ⟨l.length, fun n hn t a => ?_⟩
  obtain ⟨h1, h2⟩ := step_countsF op hg hl n t hn a
  have hin : a ∈ l → (h.step n t op).count a = h.count a + 1 ∧ (h.step n t op).time a = t := by
    intro hm
    rw [h1, h2, List.count_eq_one_of_mem hl.nodup hm, if_pos hm]
    exact ⟨rfl, rfl⟩
  have hout : a ∉ l → (h.step n t op).count a = h.count a ∧ (h.step n t op).time a = h.time a := by
    intro hm
    rw [h1, h2, List.count_eq_zero_of_not_mem hm, if_neg hm]
    exact ⟨rfl, rfl⟩
  refine ⟨fun hw => hin ((hl.mem_iff a).2 (rtg_mono hw fun x y hxy => hi.contains_parent y x hxy)), ?_, fun hne => ?_⟩
  · by_cases hm : a ∈ l
    · exact .inl (hin hm)
    · exact .inr (hout hm)
  · have hm : a ∈ l := by
      by_contra hm
      exact hne (hout hm).1
    exact rtg_mono ((hl.mem_iff a).1 hm) fun x y hxy => hi.stale y x hxy

/-- C58, exactly: an operation counts for just the objects that contain the one operated on, directly or not, if and only if none of
these has a `persistent_object_parent` that does not contain it (any more). -/
theorem C58_iff_partial (h : Heap) (gone : List (Nat × Nat)) (hr : ReachF h gone) (op : HOp) (hg : op.Free h) :
    ∃ N, ∀ n ≥ N, ∀ t,
      (∀ a, (h.step n t op).count a = h.count a + 1 ↔ h.Within op.target a) ↔
        ∀ a p, h.Within op.target a → h.parent a = some p → h.Contains p a := by
  have hi := hr.inv
  obtain ⟨l, hl⟩ := hi.ends op.target
  refine ⟨l.length, fun n hn t => ?_⟩
  have hcount : ∀ a, (h.step n t op).count a = h.count a + 1 ↔
      Relation.ReflTransGen (fun x y => h.parent x = some y) op.target a := by
    intro a
    rw [← hl.mem_iff a, (step_countsF op hg hl n t hn a).1]
    by_cases hm : a ∈ l
    · simp [List.count_eq_one_of_mem hl.nodup hm, hm]
    · simp [List.count_eq_zero_of_not_mem hm, hm]
  constructor
  · intro hall a p hw hp
    have hup : Relation.ReflTransGen (fun x y => h.parent x = some y) op.target p :=
      ((hcount a).1 ((hall a).2 hw)).tail hp
    have hwp : h.Within op.target p := (hall p).1 ((hcount p).2 hup)
    -- the way from the target to `p` by containers goes through `a`
    rcases Relation.ReflTransGen.cases_tail hwp with he | ⟨b, hb, hc⟩
    · -- `p` is the target: the chain of parents would come back to it
      exfalso
      have hn1 : Relation.ReflTransGen (fun x y => h.parent x = some y) p a := by rw [he]; exact (hcount a).1 ((hall a).2 hw)
      obtain ⟨l1, hl1⟩ := hi.ends a
      have hmem : a ∈ l1.tail := by
        cases hl1 with
        | top _ hnone => rw [hp] at hnone; cases hnone
        | up _ q l2 hq hl2 =>
          rw [hp] at hq
          cases hq
          exact (hl2.mem_iff a).2 hn1
      have hnd := hl1.nodup
      cases hl1 with
      | top _ hnone => rw [hp] at hnone; cases hnone
      | up _ q l2 hq hl2 => exact (List.nodup_cons.1 hnd).1 hmem
    · -- `b`, in `p`, is reached from the target, as is `a`, and both have the parent `p`
      have hbp := hi.contains_parent p b hc
      have hb' : Relation.ReflTransGen (fun x y => h.parent x = some y) op.target b :=
        rtg_mono hb fun x y hxy => hi.contains_parent y x hxy
      have ha' : Relation.ReflTransGen (fun x y => h.parent x = some y) op.target a := (hcount a).1 ((hall a).2 hw)
      have hlin : Relation.ReflTransGen (fun x y => h.parent x = some y) a b ∨
          Relation.ReflTransGen (fun x y => h.parent x = some y) b a := by
        refine Relation.ReflTransGen.total_of_right_unique ?_ ha' hb'
        intro x y z hy hz
        rw [hy] at hz
        exact Option.some_inj.1 hz
      have hno : ∀ x y, h.parent x = some p → h.parent y = some p →
          Relation.ReflTransGen (fun x y => h.parent x = some y) x y → x = y := by
        intro x y hx hy hxy
        rcases Relation.ReflTransGen.cases_head hxy with he | ⟨z, hz, hzy⟩
        · exact he
        · exfalso
          rw [hx] at hz
          cases hz
          obtain ⟨l1, hl1⟩ := hi.ends y
          have hnd := hl1.nodup
          cases hl1 with
          | top _ hnone => rw [hy] at hnone; cases hnone
          | up _ q l2 hq hl2 =>
            rw [hy] at hq
            cases hq
            exact (List.nodup_cons.1 hnd).1 ((hl2.mem_iff y).2 hzy)
      have : a = b := by
        rcases hlin with hab | hba
        · exact hno a b hp hbp hab
        · exact (hno b a hbp hp hba).symm
      rw [this]
      exact hc
  · intro hall a
    rw [hcount a]
    refine ⟨fun hr => ?_, fun hw => rtg_mono hw fun x y hxy => hi.contains_parent y x hxy⟩
    induction hr with
    | refl => exact .refl
    | tail _ hxy ih => exact ih.tail (hall _ _ ih hxy)

/-- Replacing the item and changing the new one, on the objects of `demoHeap`. -/
example : let h := (demoHeap.step 5 3 (.setItem 1 0 (some 3))).step 5 4 (.setProp 3)
    (h.count 0, h.count 1, h.count 2, h.count 3) = (4, 3, 0, 1) := by decide

/-- The item 1 of 0 is cleared, then 0 is put into 1: 1 contains 0, 0 contains nothing. -/
def crossed : Heap :=
  ((Heap.init.step 5 1 (.setItem 0 0 (some 1))).step 5 2 (.setItem 0 0 none)).step 5 3 (.insert 1 0 0 0)

theorem crossed_parent : crossed.parent 0 = some 1 ∧ crossed.parent 1 = some 0 := by decide

theorem crossed_bump (t : Nat) : ∀ (n : Nat) (o : Nat) (h : Heap), h.parent 0 = some 1 → h.parent 1 = some 0 → o < 2 →
    (bump t n o h).count 0 + (bump t n o h).count 1 = h.count 0 + h.count 1 + n
  | 0, _, _, _, _, _ => rfl
  | n + 1, o, h, h0, h1, ho => by
    obtain rfl | rfl : o = 0 ∨ o = 1 := by omega
    · rw [bump]
      simp only [h0]
      have := crossed_bump t n 1
        { h with count := Function.update h.count 0 (h.count 0 + 1), time := Function.update h.time 0 t } h0 h1 (by omega)
      rw [this]
      simp
      omega
    · rw [bump]
      simp only [h1]
      have := crossed_bump t n 0
        { h with count := Function.update h.count 1 (h.count 1 + 1), time := Function.update h.time 1 t } h0 h1 (by omega)
      rw [this]
      simp
      omega

/-- C58, negative: an object whose item was taken out is put into that former item. The objects contain each other no more, but each
has the other as its parent: however deep the recursion may go, a change of a property goes through all of it (`RecursionError`). -/
theorem C58_counterexample_recursion :
    crossed.Contains 1 0 ∧ (∀ c, ¬ crossed.Contains 0 c) ∧
    ∀ n t, (crossed.step n t (.setProp 0)).count 0 + (crossed.step n t (.setProp 0)).count 1 =
      crossed.count 0 + crossed.count 1 + n := by
  refine ⟨.inr ⟨0, by decide⟩, fun c hc => ?_, fun n t => crossed_bump t n 0 crossed crossed_parent.1 crossed_parent.2 (by omega)⟩
  have hi : crossed.items 0 = fun _ => none := by
    funext k
    rcases k with _ | k <;> simp [crossed, Heap.step, bump, Heap.init, Function.update]
  have hr : crossed.rels 0 = fun _ => [] := by
    funext k
    simp [crossed, Heap.step, bump, Heap.init, Function.update]
  rcases hc with ⟨k, hk⟩ | ⟨k, hk⟩
  · rw [hi] at hk
    cases hk
  · rw [hr] at hk
    simp at hk

end Verif.Persist
