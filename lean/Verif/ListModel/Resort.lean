import Verif.ListModel.FilteredProps

/-!
C24, exactly: for which positions and keys `FilteredListModel.__updated_master_item` (`nion/utils/ListModel.py:428-466`) re-sorts the list.
The binary search runs over the list with the changed item still at its old place; if it looks at that place it ends there.
-/

namespace Verif.ListModel

open Verif.Py Verif.Selection

/-- The upper end of the range when a binary search for the position `p` looks at `p` (`fuel` as in `bsearch`). -/
def reach (p : Nat) : Nat → Nat → Nat → Nat
  | 0, _, high => high
  | fuel + 1, low, high =>
    if (low + high) / 2 = p then high
    else if (low + high) / 2 < p then reach p fuel ((low + high) / 2 + 1) high
    else reach p fuel low ((low + high) / 2)

theorem reach_le (p : Nat) : ∀ fuel low high, low ≤ p → p < high → reach p fuel low high ≤ high
  | 0, _, _, _, _ => le_refl _
  | fuel + 1, low, high, h, h' => by
    rw [reach]
    split
    · exact le_refl _
    · split
      · exact reach_le p fuel _ _ (by omega) h'
      · exact (reach_le p fuel low _ h (by omega)).trans (by omega)

section
variable {α C K : Type*} [DecidableEq α] [LinearOrder K]

omit [DecidableEq α] in
theorem bsearch_ge (f : α → Bool) (l : List α) : ∀ fuel low high, low ≤ bsearch f l fuel low high
  | 0, _, _ => le_refl _
  | fuel + 1, low, high => by
    rw [bsearch]
    split
    · split
      · split
        · exact le_trans (by omega) (bsearch_ge f l fuel _ _)
        · exact bsearch_ge f l fuel _ _
      · exact le_refl _
    · exact le_refl _

omit [DecidableEq α] in
theorem bsearch_all {f : α → Bool} {l : List α} : ∀ fuel low high, low ≤ high → high ≤ l.length → high - low ≤ fuel →
    (∀ i (h : i < l.length), low ≤ i → i < high → f l[i] = true) → bsearch f l fuel low high = high
  | 0, low, high, h1, _, h3, _ => by rw [bsearch]; omega
  | fuel + 1, low, high, h1, h2, h3, h4 => by
    rw [bsearch]
    split
    · have hm : (low + high) / 2 < l.length := by omega
      rw [List.getElem?_eq_getElem hm]
      simp only
      rw [if_pos (h4 _ hm (by omega) (by omega))]
      exact bsearch_all fuel _ _ (by omega) h2 (by omega) (fun i h a b => h4 i h (by omega) b)
    · omega

omit [DecidableEq α] in
/-- A search in a list of which exactly the items before `q` are small, but for one at `p`. -/
theorem bsearch_hole {f : α → Bool} {l : List α} {p q : Nat} (hp : p < l.length) (hpq : p + 1 < q)
    (hf : ∀ i (h : i < l.length), f l[i] = true ↔ i < q ∧ i ≠ p) :
    ∀ fuel low high, low ≤ p → p < high → high ≤ l.length → q ≤ high → high - low ≤ fuel →
      (bsearch f l fuel low high = p ↔ q ≤ reach p fuel low high)
  | 0, low, high, h1, h2, _, _, h5 => by omega
  | fuel + 1, low, high, h1, h2, h3, h4, h5 => by
    rw [bsearch, reach, if_pos (by omega)]
    have hm : (low + high) / 2 < l.length := by omega
    rw [List.getElem?_eq_getElem hm]
    simp only
    by_cases e : (low + high) / 2 = p
    · have : ¬ f l[(low + high) / 2] = true := by rw [hf]; omega
      rw [if_neg this, if_pos e, e]
      have := bsearch_all (f := f) (l := l) fuel low p h1 (by omega) (by omega) (fun i h a b => (hf i h).2 (by omega))
      simp [this, h4]
    · rw [if_neg e]
      by_cases h : (low + high) / 2 < p
      · rw [if_pos h, if_pos ((hf _ hm).2 (by omega))]
        exact bsearch_hole hp hpq hf fuel _ _ (by omega) h2 h3 h4 (by omega)
      · rw [if_neg h]
        by_cases hq : (low + high) / 2 < q
        · rw [if_pos ((hf _ hm).2 ⟨hq, e⟩)]
          have h6 := bsearch_ge f l fuel ((low + high) / 2 + 1) high
          have h7 := reach_le p fuel low ((low + high) / 2) h1 (by omega)
          constructor
          · intro h8; omega
          · intro h8; omega
        · rw [if_neg (by rw [hf]; omega)]
          exact bsearch_hole hp hpq hf fuel _ _ h1 (by omega) (by omega) (by omega) (by omega)

/-- The item `y` has to come before one with the content `c`. -/
def Passes (s : FL α C K) (k : C → K) (c : C) (y : α) : Prop :=
  if s.reverse then k c < k (s.content y) else k (s.content y) < k c

/-- The item is listed and has to move behind the next one, but not behind the one at which the search for its place has last turned
back before it comes to it. -/
def Stuck (s : FL α C K) (v : α) (c : C) : Prop :=
  ∃ k pre y post, s.key = some k ∧ s.filter c = true ∧ s.items = pre ++ v :: y :: post ∧ Passes s k c y ∧
    ∀ z, s.items[reach pre.length s.items.length 0 s.items.length]? = some z → ¬ Passes s k c z

omit [DecidableEq α] in
theorem passes_iff (s : FL α C K) (k : C → K) (c : C) (v : α) [DecidableEq α] {y : α} (h : y ≠ v) :
    cmpKey s.reverse (fun x => k (Function.update s.content v c x)) y v = true ↔ Passes s k c y := by
  unfold cmpKey Passes
  cases s.reverse <;> simp [Function.update_of_ne h]

omit [DecidableEq α] in
theorem not_passes_self (s : FL α C K) (k : C → K) (c : C) (v : α) [DecidableEq α] :
    ¬ cmpKey s.reverse (fun x => k (Function.update s.content v c x)) v v = true := by
  unfold cmpKey
  cases s.reverse <;> simp

omit [DecidableEq α] in
theorem Passes.of_le {s : FL α C K} {k : C → K} {c : C} {a b : α} (h : leKey s.reverse (fun x => k (s.content x)) a b) (hb : Passes s k c b) :
    Passes s k c a := by
  unfold Passes at *
  unfold leKey at h
  cases hr : s.reverse <;> simp only [hr] at * <;> simp at *
  · exact lt_of_le_of_lt h hb
  · exact lt_of_lt_of_le hb h

theorem findSorted_stuck {s : FL α C K} {v : α} {c : C} {k : C → K} {pre post : List α} {y : α} (hi : s.items.Nodup)
    (hs : s.items.Pairwise (leKey s.reverse fun x => k (s.content x))) (e : s.items = pre ++ v :: y :: post) (hy : Passes s k c y) :
    findSorted (cmpKey s.reverse fun x => k (Function.update s.content v c x)) v s.items = pre.length ↔
      ∀ z, s.items[reach pre.length s.items.length 0 s.items.length]? = some z → ¬ Passes s k c z := by
  classical
  have hlen : s.items.length = pre.length + 2 + post.length := by rw [e]; simp; omega
  have hp : pre.length < s.items.length := by omega
  have hpv : s.items[pre.length] = v := by simp [e]
  have hne : ∀ i (h : i < s.items.length), i ≠ pre.length → s.items[i] ≠ v := by
    intro i h hn he
    rw [← hpv] at he
    exact hn ((List.Nodup.getElem_inj_iff hi).1 he)
  -- `q`: the first behind `v` that does not have to come before it
  obtain ⟨q, hq1, hq2, hq3⟩ : ∃ q, pre.length + 1 < q ∧ q ≤ s.items.length ∧
      ∀ i (h : i < s.items.length), i ≠ pre.length → (Passes s k c s.items[i] ↔ i < q) := by
    have hy' : s.items[pre.length + 1]'(by omega) = y := by simp [e]
    have mono : ∀ i j (hj : j < s.items.length) (hij : i ≤ j), Passes s k c s.items[j] → Passes s k c (s.items[i]'(by omega)) := by
      intro i j hj hij h
      rcases Nat.lt_or_eq_of_le hij with h1 | rfl
      · exact Passes.of_le (List.pairwise_iff_getElem.1 hs i j (by omega) hj h1) h
      · exact h
    by_cases hall : ∀ i (h : i < s.items.length), i ≠ pre.length → Passes s k c s.items[i]
    · exact ⟨s.items.length, by omega, le_refl _, fun i h hn => ⟨fun _ => h, fun _ => hall i h hn⟩⟩
    · have hex : ∃ i, ∃ h : i < s.items.length, i ≠ pre.length ∧ ¬ Passes s k c s.items[i] := by
        push Not at hall; exact hall
      obtain ⟨h1, h2, h3⟩ := Nat.find_spec hex
      have hmin := fun j => Nat.find_min (H := hex) (m := j)
      refine ⟨Nat.find hex, ?_, by omega, ?_⟩
      · by_contra hlt
        exact h3 (mono _ (pre.length + 1) (by omega) (by omega) (by rw [hy']; exact hy))
      · intro i h hn
        constructor
        · intro hP
          by_contra hge
          exact h3 (mono _ i h (by omega) hP)
        · intro hlt
          by_contra hP
          exact hmin i hlt ⟨h, hn, hP⟩
  have hf : ∀ i (h : i < s.items.length),
      (fun x => cmpKey s.reverse (fun x => k (Function.update s.content v c x)) x v) s.items[i] = true ↔ i < q ∧ i ≠ pre.length := by
    intro i h
    by_cases hn : i = pre.length
    · subst hn
      rw [hpv]
      constructor
      · intro hh; exact absurd hh (not_passes_self s k c v)
      · intro hh; exact absurd rfl hh.2
    · rw [passes_iff s k c v (hne i h hn), hq3 i h hn]
      simp [hn]
  rw [findSorted, bsearch_hole hp hq1 hf _ _ _ (by omega) hp (le_refl _) hq2 (by omega)]
  -- the place at which the search turned back lies behind `v`
  have hr : ∀ fuel low high, low ≤ pre.length → pre.length < high → pre.length < reach pre.length fuel low high := by
    intro fuel
    induction fuel with
    | zero => intro low high _ h; exact h
    | succ fuel ih =>
      intro low high h1 h2
      rw [reach]
      split
      · exact h2
      · split
        · exact ih _ _ (by omega) h2
        · exact ih _ _ h1 (by omega)
  have h1 := hr s.items.length 0 s.items.length (by omega) hp
  constructor
  · intro h z hz hP
    obtain ⟨hlt, rfl⟩ := List.getElem?_eq_some_iff.1 hz
    have := (hq3 _ hlt (by omega)).1 hP
    omega
  · intro h
    by_contra hlt
    have h2 : reach pre.length s.items.length 0 s.items.length < s.items.length := by omega
    exact h _ (List.getElem?_eq_getElem h2) ((hq3 _ h2 (by omega)).2 (by omega))

/-- C24, exactly: in a state reached by an admissible history with no change block open, when an item of the source announces new content the
list is again filtered and sorted by the new contents if and only if the item is not stuck. (Partial: items can be stuck,
`C24_item_change_counterexample`.) -/
theorem C24_iff_partial (sord : SetOrder) (ord : IterOrder α) (content : α → C) (sels : List Sel)
    (ops : List (IterOrder α × LOp α C K)) (ha : (FL.init content sels).AdmAll false sord ops) (v : α) (c : C) :
    let s := (FL.init content sels).run sord ops
    let t := s.step sord ord (.changeContent v c)
    s.level = 0 → v ∈ s.source.getD [] →
      ((t.items.Perm ((s.source.getD []).filter fun x => s.filter (t.content x)) ∧
        ∀ k, s.key = some k → t.items.Pairwise fun a b =>
          if s.reverse then k (t.content b) ≤ k (t.content a) else k (t.content a) ≤ k (t.content b)) ↔ ¬ Stuck s v c) := by
  intro s t hl hv
  have h : LInv false s := (LInv.init false content sels).run sord ops ha
  have hm : v ∈ s.master := by rw [h.src]; exact hv
  have et : t = (s.withContent v c).updatedMaster v := if_pos hm
  have hg := h.good hl
  have hwl : ¬ (s.withContent v c).level > 0 := by simp [FL.withContent, hl]
  have hcont : t.content = Function.update s.content v c := by
    have := (sameF_updatedMaster (s.withContent v c) v).1
    rw [et, this.content]; rfl
  have hsorted : ∀ k, s.key = some k → s.items.Pairwise (leKey s.reverse fun x => k (s.content x)) := by
    intro k hk
    have := hg
    unfold FL.Good CorrectFor FL.ikey at this
    rw [hk] at this
    exact this.2
  constructor
  · rintro ⟨-, hpw⟩ ⟨k, pre, y, post, hk, hfc, e, hy, hz⟩
    have hfs := (findSorted_stuck h.nodupItems (hsorted k hk) e hy).2 hz
    have hyv : y ≠ v := by
      rintro rfl
      have := h.nodupItems
      rw [e, List.nodup_append] at this
      exact (List.nodup_cons.1 this.2.1).1 (by simp)
    have hvpre : v ∉ pre := by
      have := h.nodupItems
      rw [e, List.nodup_append] at this
      intro hc
      exact this.2.2 v hc v (by simp) rfl
    have hidx : s.items.idxOf v = pre.length := by rw [e, List.idxOf_append_of_notMem hvpre]; simp
    have hti : t.items = s.items := by
      have hk' : (s.withContent v c).ikey = some fun x => k (Function.update s.content v c x) := by rw [withContent_ikey, hk]; rfl
      have hcmp : (s.withContent v c).cmp = some (cmpKey s.reverse fun x => k (Function.update s.content v c x)) := by
        rw [cmp_eq, hk']; rfl
      have hvm : v ∈ s.items := by rw [e]; simp
      rw [et]
      unfold FL.updatedMaster
      rw [if_neg hwl, if_pos (by rw [withContent_acc_self]; exact hfc), hcmp]
      simp only
      rw [show (s.withContent v c).items = s.items from rfl, if_pos hvm, hfs, hidx, if_neg (by omega), if_neg (by omega)]
      rfl
    have := hpw k hk
    rw [hti, e, List.pairwise_append] at this
    have h1 := (List.pairwise_cons.1 this.2.1).1 y (by simp)
    rw [hcont] at h1
    simp only [Function.update_self, Function.update_of_ne hyv] at h1
    unfold Passes at hy
    cases hr : s.reverse <;> simp only [hr] at h1 hy <;> simp at h1 hy
    · exact absurd hy (not_lt.2 h1)
    · exact absurd hy (not_lt.2 h1)
  · intro hns
    by_cases hset : Settles s v c
    · have := C24_item_change_partial sord ord content sels ops ha v c hl hset
      exact ⟨this.2.2.2.1, this.2.2.2.2⟩
    · -- it has to pass the next item, and it is moved
      unfold Settles at hset
      push Not at hset
      obtain ⟨k, hk, hfc, pre, post, e, z, hz, hnz⟩ := hset
      have hnd := h.nodupItems
      rw [e, List.nodup_append] at hnd
      obtain ⟨y, post', rfl⟩ : ∃ y post', post = y :: post' := by
        cases post with
        | nil => simp at hz
        | cons y p => exact ⟨y, p, rfl⟩
      have hPz : Passes s k c z := by
        unfold Passes
        cases hr : s.reverse <;> simp only [hr] at hnz ⊢ <;> simpa using hnz
      have hPy : Passes s k c y := by
        rcases List.mem_cons.1 hz with rfl | hz'
        · exact hPz
        · have := hsorted k hk
          rw [e, List.pairwise_append] at this
          exact Passes.of_le ((List.pairwise_cons.1 (List.pairwise_cons.1 this.2.1).2).1 z hz') hPz
      have hvm : v ∈ s.items := by rw [e]; simp
      have hvpre : v ∉ pre := fun hc => hnd.2.2 v hc v (by simp) rfl
      have hidx : s.items.idxOf v = pre.length := by rw [e, List.idxOf_append_of_notMem hvpre]; simp
      have hfs : findSorted (cmpKey s.reverse fun x => k (Function.update s.content v c x)) v s.items ≠ pre.length := by
        intro hc
        exact hns ⟨k, pre, y, post', hk, hfc, e, hPy, (findSorted_stuck h.nodupItems (hsorted k hk) e hPy).1 hc⟩
      rcases C24_otherwise_unmoved_partial sord ord content sels ops ha v c hl hv with hok | hun
      · exact hok
      · exfalso
        have hk' : (s.withContent v c).ikey = some fun x => k (Function.update s.content v c x) := by rw [withContent_ikey, hk]; rfl
        have hcmp : (s.withContent v c).cmp = some (cmpKey s.reverse fun x => k (Function.update s.content v c x)) := by
          rw [cmp_eq, hk']; rfl
        have hacc : (s.withContent v c).acc v = true := by rw [withContent_acc_self]; exact hfc
        have emv : t = ((s.withContent v c).removedMaster v).insertedMaster v := by
          rw [et]
          conv_lhs => unfold FL.updatedMaster
          rw [if_neg hwl, if_pos hacc, hcmp]
          simp only
          rw [show (s.withContent v c).items = s.items from rfl, if_pos hvm, hidx]
          rcases Nat.lt_or_gt_of_ne hfs with h1 | h1
          · rw [if_pos h1]
          · rw [if_neg (by omega), if_pos h1]
        have hlog : s.log.length < t.log.length := by
          rw [emv]
          have hs := (sameF_removedMaster (s.withContent v c) v).1
          unfold FL.insertedMaster
          rw [if_neg (by rw [hs.level]; exact hwl), if_pos (by rw [hs.acc]; exact hacc)]
          unfold FL.removedMaster
          rw [if_neg hwl, if_pos (by exact hvm)]
          simp only [FL.insertItem, FL.removeItem, List.length_append]
          rw [show (s.withContent v c).log = s.log from rfl]
          simp
          omega
        have : t.log = s.log := hun.2
        rw [this] at hlog
        exact lt_irrefl _ hlog

/-! ### Cases -/

/-- keys 1, 2, 3: the search for place 1 looks at place 1 at once, so the middle item is stuck whatever it has to pass -/
example : reach 1 3 0 3 = 3 := by decide

/-- the first of three turns back at place 1: it is stuck unless it has to pass that item, and then it is moved -/
example : reach 0 3 0 3 = 1 := by decide

example :
    let s : FL Nat Nat Nat := (FL.init id []).run ascending
      [(idOrder, .setContainer (some [1, 2, 3])), (idOrder, .setKey (some id)), (idOrder, .changeContent 1 10)]
    s.items = [2, 3, 1] := by decide

end

end Verif.ListModel
