import Verif.Persist.Modified

/-!
C105: which storage an object belongs to. Model of `PersistentObjectContext._set_persistent_storage_for_object`,
`_get_persistent_storage_for_object` (`nion/utils/Persistence.py:228-246`) and of the methods which pass a change on to the storage
(249-315: `property_changed`, `item_inserted`, ...). Objects and their parents are those of `Modified.lean`. A parent is a weak
reference (318-328), objects may have gone: `alive`. The table of storages loses the entries of objects which have gone (231-232).
Storages are numbers; all of them are true as conditions.
-/

namespace Verif.Persist

open Verif.Py

/-- The table of storages and the objects which have not gone. -/
structure Stores where
  table : Nat → Option Nat
  alive : Nat → Bool

inductive StOp where
  /-- `_set_persistent_storage_for_object(o, storage)` -/
  | set (o s : Nat)
  /-- `_set_persistent_storage_for_object(o, None)` -/
  | clear (o : Nat)
  /-- the object is collected -/
  | gone (o : Nat)

/-- Lines 228-237. -/
def Stores.step (m : Stores) : StOp → Except Exc Stores
  | .set o s => .ok { m with table := Function.update m.table o (some s) }
  | .clear o =>
    match m.table o with
    | some _ => .ok { m with table := Function.update m.table o none }
    | none => .error .keyError
  | .gone o => .ok ⟨Function.update m.table o none, Function.update m.alive o false⟩

/-- Lines 239-246; `n` bounds the depth of the recursion. `weakref.ref(None)` raises `TypeError`. -/
def storageFor (h : Heap) (m : Stores) : Nat → Nat → Except Exc (Option Nat)
  | 0, _ => .error .recursionError
  | n + 1, o =>
    match m.table o with
    | some s => .ok (some s)
    | none =>
      match h.parent o with
      | some p => if m.alive p then storageFor h m n p else .error .typeError
      | none => .ok none

/-- Lines 249-315: a change of the object is passed on to a storage, the number of which is the result. -/
def passOn (h : Heap) (m : Stores) (n o : Nat) : Except Exc Nat :=
  match storageFor h m n o with
  | .ok (some s) => .ok s
  | .ok none => .error .attributeError
  | .error e => .error e

/-! ### Specification -/

/-- `s` is the storage of the nearest among the object and the objects containing it which has a storage: of `a`, and everything
else that contains `o` and has a storage contains `a` too. -/
def Nearest (h : Heap) (table : Nat → Option Nat) (o s : Nat) : Prop :=
  ∃ a, h.Within o a ∧ table a = some s ∧ ∀ b, h.Within o b → table b ≠ none → h.Within a b

/-! ### Proof -/

theorem storageFor_chain {h : Heap} (hi : h.Inv) {m : Stores} {o : Nat} {l : List Nat} (hc : Chain h.parent o l)
    (ha : ∀ a, h.Within o a → m.alive a = true) {n : Nat} (hn : l.length ≤ n) :
    ∃ r, storageFor h m n o = .ok r ∧ (∀ s, r = some s → Nearest h m.table o s) ∧
      (r = none → ∀ a, h.Within o a → m.table a = none) := by
  induction hc generalizing n with
  | top o hp =>
    obtain ⟨n, rfl⟩ : ∃ k, n = k + 1 := ⟨n - 1, by simp at hn; omega⟩
    have honly : ∀ b, h.Within o b → b = o := by
      intro b hb
      rw [hi.within_iff] at hb
      rcases Relation.ReflTransGen.cases_head hb with h' | ⟨c, h', -⟩
      · exact h'.symm
      · rw [hp] at h'; cases h'
    cases ht : m.table o with
    | some s =>
      refine ⟨some s, by rw [storageFor]; simp only [ht], ?_, by simp⟩
      rintro _ ⟨⟩
      exact ⟨o, .refl, ht, fun b hb _ => hb⟩
    | none =>
      refine ⟨none, by rw [storageFor]; simp only [ht, hp], by simp, ?_⟩
      intro _ a hoa
      rw [honly a hoa, ht]
  | up o p l hp hc ih =>
    obtain ⟨n, rfl⟩ : ∃ k, n = k + 1 := ⟨n - 1, by simp at hn; omega⟩
    have hop : h.Within o p := by rw [hi.within_iff]; exact .single hp
    have hpw : ∀ b, h.Within o b → b = o ∨ h.Within p b := by
      intro b hb
      rw [hi.within_iff] at hb ⊢
      rcases Relation.ReflTransGen.cases_head hb with h' | ⟨c, h', h2⟩
      · exact .inl h'.symm
      · rw [hp] at h'; cases h'; exact .inr h2
    cases ht : m.table o with
    | some s =>
      refine ⟨some s, by rw [storageFor]; simp only [ht], ?_, by simp⟩
      rintro _ ⟨⟩
      exact ⟨o, .refl, ht, fun b hb _ => hb⟩
    | none =>
      obtain ⟨r, h1, h2, h3⟩ := ih (fun a hpa => ha a (hop.trans hpa)) (n := n) (by simp at hn; omega)
      refine ⟨r, ?_, ?_, ?_⟩
      · rw [storageFor]
        simp only [ht, hp, ha p hop, if_true]
        exact h1
      · intro s hs
        obtain ⟨a, ha1, ha2, ha3⟩ := h2 s hs
        refine ⟨a, hop.trans ha1, ha2, fun b hb hne => ?_⟩
        rcases hpw b hb with rfl | hb
        · exact absurd ht hne
        · exact ha3 b hb hne
      · intro hs a hoa
        rcases hpw a hoa with rfl | hb
        · exact ht
        · exact h3 hs a hb

theorem Heap.Inv.antisymm {h : Heap} (hi : h.Inv) {a b : Nat} (h1 : h.Within a b) (h2 : h.Within b a) : a = b := by
  obtain ⟨la, hla⟩ := hi.ends a
  obtain ⟨lb, hlb⟩ := hi.ends b
  rw [hi.within_iff] at h1 h2
  obtain ⟨l1, hl1, hlen1⟩ := hla.suffix b ((hla.mem_iff b).2 h1)
  obtain ⟨l2, hl2, hlen2⟩ := hlb.suffix a ((hlb.mem_iff a).2 h2)
  have e1 := hl1.unique hlb
  have e2 := hl2.unique hla
  subst e1 e2
  cases hla with
  | top _ hp =>
    rcases Relation.ReflTransGen.cases_head h1 with h' | ⟨c, h', -⟩
    · exact h'
    · rw [hp] at h'; cases h'
  | up _ p l hp hc =>
    rcases Relation.ReflTransGen.cases_head h1 with h' | ⟨c, h', h3⟩
    · exact h'
    · rw [hp] at h'
      cases h'
      obtain ⟨l3, hl3, hlen3⟩ := hc.suffix b ((hc.mem_iff b).2 h3)
      have := hl3.unique hlb
      subst this
      simp at hlen2
      omega

/-- The nearest storage is unique. -/
theorem Nearest.unique {h : Heap} (hi : h.Inv) {table : Nat → Option Nat} {o s s' : Nat} (h1 : Nearest h table o s)
    (h2 : Nearest h table o s') : s = s' := by
  obtain ⟨a, ha1, ha2, ha3⟩ := h1
  obtain ⟨b, hb1, hb2, hb3⟩ := h2
  have := hi.antisymm (ha3 b hb1 (by simp [hb2])) (hb3 a ha1 (by simp [ha2]))
  subst this
  rw [ha2] at hb2
  exact Option.some.inj hb2

/-- C105 (partial: items are not replaced, what contains the object has not gone): in any state of the objects, a change of an
object is passed on to the storage of the nearest among it and the objects containing it which has one, and to no other; without
any, an `AttributeError` is raised. -/
theorem C105_nearest_partial (h : Heap) (hr : Reach h) (m : Stores) (o : Nat) (ha : ∀ a, h.Within o a → m.alive a = true) :
    ∃ N, ∀ n ≥ N, (∀ s, passOn h m n o = .ok s ↔ Nearest h m.table o s) ∧
      ((∀ a, h.Within o a → m.table a = none) ↔ passOn h m n o = .error .attributeError) := by
  have hi := hr.inv
  obtain ⟨l, hl⟩ := hi.ends o
  refine ⟨l.length, fun n hn => ?_⟩
  obtain ⟨r, h1, h2, h3⟩ := storageFor_chain hi hl ha hn
  cases r with
  | some s =>
    have hs := h2 s rfl
    have e : passOn h m n o = .ok s := by rw [passOn, h1]
    rw [e]
    refine ⟨fun s' => ⟨fun he => by cases he; exact hs, fun h' => by rw [hs.unique hi h']⟩, fun hall => ?_, by simp⟩
    obtain ⟨a, ha1, ha2, -⟩ := hs
    rw [hall a ha1] at ha2
    cases ha2
  | none =>
    have hs := h3 rfl
    have e : passOn h m n o = .error .attributeError := by rw [passOn, h1]
    rw [e]
    refine ⟨fun s' => ⟨by simp, ?_⟩, fun _ => rfl, fun _ => hs⟩
    rintro ⟨a, ha1, ha2, -⟩
    rw [hs a ha1] at ha2
    cases ha2

theorem step_insert_parent {h : Heap} {n t p k : Nat} {i : Int} {c : Nat} {l : List Nat} (hl : Chain h.parent p l) (hn : l.length ≤ n) :
    (h.step n t (.insert p k i c)).parent = Function.update h.parent c (some p) := by
  have := (bump_chain t n p l { h with rels := Function.update h.rels p (Function.update (h.rels p) k (Py.insert (h.rels p k) i c)) }
    hl hn).2.2.1
  simp only [Heap.step, this]

/-- What contains an object after `c` is put into `p`. -/
theorem within_insert {h h' : Heap} (hi : h.Inv) (hi' : h'.Inv) {c p : Nat} (hc : h.parent c = none) (hw : ¬ h.Within p c)
    (hp : h'.parent = Function.update h.parent c (some p)) (o b : Nat) :
    h'.Within o b ↔ h.Within o b ∨ (h.Within o c ∧ h.Within p b) := by
  have hup : ∀ x y, h.Within x y → h'.Within x y := by
    intro x y hxy
    rw [hi.within_iff] at hxy
    rw [hi'.within_iff]
    have hle : ∀ u v, h.parent u = some v → h'.parent u = some v := by
      intro u v huv
      rw [hp, Function.update_of_ne]
      · exact huv
      · rintro rfl
        rw [hc] at huv
        cases huv
    induction hxy with
    | refl => exact .refl
    | tail _ huv ih => exact ih.tail (hle _ _ huv)
  constructor
  · intro hob
    rw [hi'.within_iff] at hob
    induction hob with
    | refl => exact .inl .refl
    | @tail x y _ hxy ih =>
      rw [hp] at hxy
      by_cases hx : x = c
      · subst hx
        rw [Function.update_self] at hxy
        cases hxy
        rcases ih with ih | ih
        · exact .inr ⟨ih, .refl⟩
        · exact absurd ih.2 hw
      · rw [Function.update_of_ne hx] at hxy
        have hstep : h.Within x y := by rw [hi.within_iff]; exact .single hxy
        rcases ih with ih | ih
        · exact .inl (ih.trans hstep)
        · exact .inr ⟨ih.1, ih.2.trans hstep⟩
  · rintro (hob | ⟨hoc, hpb⟩)
    · exact hup o b hob
    · have hcp : h'.Within c p := by
        rw [hi'.within_iff]
        exact .single (by rw [hp, Function.update_self])
      exact (hup o c hoc).trans (hcp.trans (hup p b hpb))

/-- C105 (partial as above): once `c` is inserted into `p`, changes of all objects in `c` go where changes of `p` went, unless one
of them had a storage. -/
theorem C105_insert_partial (h : Heap) (hr : Reach h) (m : Stores) (p k : Nat) (i : Int) (c o t : Nat)
    (hg : (HOp.insert p k i c).Good h) (ho : h.Within o c) (hnone : ∀ a, h.Within o a → m.table a = none)
    (ha : ∀ a, m.alive a = true) :
    ∃ N, ∀ n ≥ N, ∀ s, passOn (h.step n t (.insert p k i c)) m n o = .ok s ↔ Nearest h m.table p s := by
  have hi := hr.inv
  obtain ⟨hnc, hw⟩ : (∀ q, ¬ h.Contains q c) ∧ ¬ h.Within p c := hg
  obtain ⟨l, hl⟩ := hi.ends p
  have hc : h.parent c = none := by
    rcases hh : h.parent c with _ | q
    · rfl
    · exact absurd ((hi.parent_iff q c).2 hh) (hnc q)
  obtain ⟨lo, hlo⟩ := ends_update hi.ends hc (fun hx => hw ((hi.within_iff p c).2 hx)) o
  refine ⟨max l.length lo.length, fun n hn s => ?_⟩
  have hln : ∀ l', Chain h.parent (HOp.insert p k i c).target l' → l'.length ≤ n := by
    intro l' hl'
    rw [hl'.unique hl]
    omega
  have hr' : Reach (h.step n t (.insert p k i c)) := .step n t _ hr ⟨hnc, hw⟩ hln
  have hi' := hr'.inv
  have hp := step_insert_parent (t := t) (k := k) (i := i) (c := c) hl (hln l hl)
  have hwi := within_insert hi hi' hc hw hp
  have key : Nearest (h.step n t (.insert p k i c)) m.table o s ↔ Nearest h m.table p s := by
    constructor
    · rintro ⟨a, ha1, ha2, ha3⟩
      rcases (hwi o a).1 ha1 with h1 | ⟨-, h1⟩
      · rw [hnone a h1] at ha2
        cases ha2
      · refine ⟨a, h1, ha2, fun b hb hne => ?_⟩
        rcases (hwi a b).1 (ha3 b ((hwi o b).2 (.inr ⟨ho, hb⟩)) hne) with h2 | ⟨h2, -⟩
        · exact h2
        · exact absurd (h1.trans h2) hw
    · rintro ⟨a, ha1, ha2, ha3⟩
      refine ⟨a, (hwi o a).2 (.inr ⟨ho, ha1⟩), ha2, fun b hb hne => ?_⟩
      rcases (hwi o b).1 hb with h1 | ⟨-, h1⟩
      · exact absurd (hnone b h1) hne
      · exact (hwi a b).2 (.inl (ha3 b h1 hne))
  rw [← key]
  obtain ⟨r, h1, h2, h3⟩ := storageFor_chain (n := n) hi' (hp ▸ hlo) (m := m) (fun a _ => ha a) (by omega)
  cases r with
  | some s' =>
    have hs := h2 s' rfl
    rw [passOn, h1]
    exact ⟨fun he => by cases he; exact hs, fun h' => by rw [hs.unique hi' h']⟩
  | none =>
    rw [passOn, h1]
    refine ⟨by simp, ?_⟩
    rintro ⟨a, ha1, ha2, -⟩
    rw [h3 rfl a ha1] at ha2
    cases ha2

/-- C105: setting a storage for an object and looking it up gives that storage; clearing one which is not set raises `KeyError`. -/
theorem C105_own (h : Heap) (m m' : Stores) (n o s : Nat) :
    (m.step (.set o s) = .ok m' → passOn h m' (n + 1) o = .ok s) ∧
      (m.step (.clear o) = .error .keyError ↔ m.table o = none) ∧
      (m.step (.clear o) = .ok m' → ∀ a, m'.table a = if a = o then none else m.table a) := by
  refine ⟨fun h' => ?_, ?_, fun h' => ?_⟩
  · cases h'
    rw [passOn, storageFor]
    simp
  · rw [Stores.step]
    cases m.table o <;> simp
  · rw [Stores.step] at h'
    cases ht : m.table o with
    | none => rw [ht] at h'; cases h'
    | some s' =>
      rw [ht] at h'
      cases h'
      intro a
      simp [Function.update_apply]

/-- Object 0 contains 1 in a relationship, 1 contains 2 as an item; 0 has the storage 7. -/
def demoStores : Stores := ⟨fun o => if o = 0 then some 7 else none, fun _ => true⟩

/-- A change of 2 goes to the storage of 0, and after 1 has its own storage, to that; an object by itself has none. -/
example : passOn demoHeap demoStores 5 2 = .ok 7 ∧
    passOn demoHeap { demoStores with table := Function.update demoStores.table 1 (some 8) } 5 2 = .ok 8 ∧
    passOn demoHeap demoStores 5 3 = .error .attributeError ∧
    passOn (demoHeap.step 5 3 (.insert 2 0 0 3)) demoStores 5 3 = .ok 7 := by
  decide

/-- C105, negative: the item 2 of 1 is replaced by 3: its changes still go to the storage of 0, which does not contain it. -/
theorem C105_counterexample :
    (demoHeap.step 5 3 (.setItem 1 0 (some 3))).items 1 0 = some 3 ∧
      passOn (demoHeap.step 5 3 (.setItem 1 0 (some 3))) demoStores 5 2 = .ok 7 := by
  decide

/-- C105, negative: an object whose container has gone raises `TypeError`, not what an object without a container raises. -/
theorem C105_counterexample_gone : ∃ m, demoStores.step (.gone 1) = .ok m ∧ passOn demoHeap m 5 2 = .error .typeError :=
  ⟨_, rfl, by decide⟩

end Verif.Persist
