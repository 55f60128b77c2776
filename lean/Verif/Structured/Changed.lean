import Verif.Structured.CopyFrom
import Mathlib.Data.List.Nodup

/-!
C52: changes deep inside a structured model fire `model_changed_event` of every enclosing model.
-/

namespace Verif.Structured

open Verif.Py

/-- Every array in the model listens to exactly its items; `al`: in their order. -/
inductive Listens (al : Bool) : M → Prop where
  | field (v : Val) : Listens al (.field v)
  | plain (v : Val) : Listens al (.plain v)
  | record (ms : List M) (h : ∀ m ∈ ms, Listens al m) : Listens al (.record ms)
  | array (items : List (Nat × M)) (tr : List Nat) (next : Nat) (htr : tr.Perm (items.map Prod.fst))
      (hal : al = true → tr = items.map Prod.fst) (hnd : (items.map Prod.fst).Nodup) (hlt : ∀ p ∈ items, p.1 < next)
      (h : ∀ p ∈ items, Listens al p.2) : Listens al (.array items tr next)

/-- Operations which keep the listeners right: insertions insert models which are themselves right; `al`: they are at the end of
the array; otherwise there are no removals. -/
def Op.Ordered (al : Bool) : Op → List (Nat × M) → Prop
  | .insert i m, items => (al = true → insertPos items.length i = items.length) ∧ Listens al m
  | .remove _, _ => al = true
  | .assign _ _, _ => True

/-- The operation is an ordered one for the array at the end of the path. -/
def OrderedAt (al : Bool) : List Step → Op → M → Prop
  | [], op, .array items _ _ => op.Ordered al items
  | [], _, _ => True
  | .field k :: p, op, .record ms => ∀ m, ms[k]? = some m → OrderedAt al p op m
  | .item i :: p, op, .array items _ _ => ∀ q, items[i]? = some q → OrderedAt al p op q.2
  | _, _, _ => True

/-- The operation changes something: everything but the assignment of an equal value. -/
def Op.changes : Op → Bool
  | .assign _ same => !same
  | _ => true

theorem index?_lt {n : Nat} {i : Int} {k : Nat} (h : index? n i = some k) : k < n := by
  unfold index? at h
  split at h
  · cases h; rename_i h; omega
  · split at h
    · cases h; omega
    · cases h

/-- A change at a path fires the event of every model on the path exactly once, or never if nothing changes. -/
theorem fires_all {al : Bool} : ∀ (p : List Step) (op : Op) (m m' : M) (c : List Nat), Listens al m → change p op m = some (m', c) →
    c = List.replicate (p.length + 1) (if op.changes then 1 else 0)
  | [], .assign v same, .field u, m', c, _, h => by
    cases same <;> simp [change] at h <;> simp [h.2.symm, Op.changes]
  | [], .insert i x, .array items tr nx, m', c, _, h => by
    simp [change] at h; simp [h.2.symm, Op.changes]
  | [], .remove i, .array items tr nx, m', c, hl, h => by
    cases hl with
    | array _ _ _ htr hal hnd hlt hm =>
      unfold change at h
      rcases hi : index? items.length i with _ | k
      · simp [del?, hi] at h
      · have hi' : index? tr.length i = some k := by rw [htr.length_eq]; simpa using hi
        simp only [del?, hi, hi', Option.map_some] at h
        cases h
        simp [Op.changes]
  | .field k :: p, op, .record ms, m', c, hl, h => by
    cases hl with
    | record _ hm =>
      simp only [change] at h
      split at h
      · rename_i m hk
        rcases hc : change p op m with _ | ⟨m1, c1⟩
        · rw [hc] at h; cases h
        · rw [hc] at h
          simp only [Option.map_some, Option.some.injEq, Prod.mk.injEq] at h
          have ih := fires_all p op m m1 c1 (hm m (List.mem_of_getElem? hk)) hc
          rw [← h.2, ih]
          simp [List.replicate_succ]
      · cases h
  | .item i :: p, op, .array items tr nx, m', c, hl, h => by
    cases hl with
    | array _ _ _ htr hal hnd hlt hm =>
      simp only [change] at h
      split at h
      · rename_i id m hk
        rcases hc : change p op m with _ | ⟨m1, c1⟩
        · rw [hc] at h; cases h
        · rw [hc] at h
          simp only [Option.map_some, Option.some.injEq, Prod.mk.injEq] at h
          have hmem := List.mem_of_getElem? hk
          have ih := fires_all p op m m1 c1 (hm _ hmem) hc
          have hcount : tr.count id = 1 := by
            rw [htr.count_eq]
            exact List.count_eq_one_of_mem hnd (List.mem_map_of_mem (f := Prod.fst) hmem)
          rw [← h.2, ih, hcount]
          simp [List.replicate_succ]
      · cases h
  | [], .assign _ _, .plain _, _, _, _, h => by simp [change] at h
  | [], .assign _ _, .record _, _, _, _, h => by simp [change] at h
  | [], .assign _ _, .array _ _ _, _, _, _, h => by simp [change] at h
  | [], .insert _ _, .plain _, _, _, _, h => by simp [change] at h
  | [], .insert _ _, .record _, _, _, _, h => by simp [change] at h
  | [], .insert _ _, .field _, _, _, _, h => by simp [change] at h
  | [], .remove _, .plain _, _, _, _, h => by simp [change] at h
  | [], .remove _, .record _, _, _, _, h => by simp [change] at h
  | [], .remove _, .field _, _, _, _, h => by simp [change] at h
  | .field _ :: _, _, .plain _, _, _, _, h => by simp [change] at h
  | .field _ :: _, _, .field _, _, _, _, h => by simp [change] at h
  | .field _ :: _, _, .array _ _ _, _, _, _, h => by simp [change] at h
  | .item _ :: _, _, .plain _, _, _, _, h => by simp [change] at h
  | .item _ :: _, _, .field _, _, _, _, h => by simp [change] at h
  | .item _ :: _, _, .record _, _, _, _, h => by simp [change] at h

theorem map_fst_set (items : List (Nat × M)) (i : Nat) (id : Nat) (m m1 : M) (h : items[i]? = some (id, m)) :
    (items.set i (id, m1)).map Prod.fst = items.map Prod.fst := by
  rw [List.map_set]
  apply List.ext_getElem?
  intro j
  rw [List.getElem?_set]
  split
  · rename_i hij
    subst hij
    split
    · rw [List.getElem?_map, h]; rfl
    · rename_i hj; rw [List.getElem?_eq_none (by omega)]
  · rfl

theorem map_fst_eraseIdx (items : List (Nat × M)) (k : Nat) :
    (items.eraseIdx k).map Prod.fst = (items.map Prod.fst).eraseIdx k := by
  rw [List.eraseIdx_map]

/-- Ordered operations keep the listeners in order. -/
theorem listens_change {al : Bool} : ∀ (p : List Step) (op : Op) (m m' : M) (c : List Nat), Listens al m → OrderedAt al p op m →
    change p op m = some (m', c) → Listens al m'
  | [], .assign v same, .field u, m', c, _, _, h => by
    cases same <;> simp [change] at h <;> rw [← h.1] <;> exact .field _
  | [], .insert i x, .array items tr nx, m', c, hl, ho, h => by
    cases hl with
    | array _ _ _ htr hal hnd hlt hm =>
      simp only [change, Option.some.injEq, Prod.mk.injEq] at h
      rw [← h.1]
      have ho : (al = true → insertPos items.length i = items.length) ∧ Listens al x := ho
      have hperm : (Py.insert items i (nx, x)).Perm ((nx, x) :: items) :=
        List.perm_insertIdx _ _ (by unfold insertPos; split <;> omega)
      have hmem : ∀ q, q ∈ Py.insert items i (nx, x) → q = (nx, x) ∨ q ∈ items := fun q hq => by
        simpa using hperm.mem_iff.1 hq
      have hp2 : ((Py.insert items i (nx, x)).map Prod.fst).Perm (nx :: items.map Prod.fst) := by
        simpa using hperm.map Prod.fst
      refine .array _ _ _ ?_ ?_ ?_ ?_ ?_
      · exact (List.perm_append_comm.trans (htr.cons nx)).trans hp2.symm
      · intro hal'
        have hins : Py.insert items i (nx, x) = items ++ [(nx, x)] := by
          rw [Py.insert, ho.1 hal', List.insertIdx_length_self]
        rw [hins, hal hal']
        simp
      · rw [hp2.nodup_iff, List.nodup_cons]
        refine ⟨fun hin => ?_, hnd⟩
        obtain ⟨q, hq, hqe⟩ := List.mem_map.1 hin
        have := hlt q hq
        omega
      · intro q hq
        rcases hmem q hq with rfl | hq
        · simp
        · have := hlt q hq; omega
      · intro q hq
        rcases hmem q hq with rfl | hq
        exacts [ho.2, hm q hq]
  | [], .remove i, .array items tr nx, m', c, hl, ho, h => by
    cases hl with
    | array _ _ _ htr hal hnd hlt hm =>
      have ho : al = true := ho
      have hal := hal ho
      subst hal
      unfold change at h
      rcases hi : index? items.length i with _ | k
      · simp [del?, hi] at h
      · have hi' : index? (items.map Prod.fst).length i = some k := by simpa using hi
        simp only [del?, hi, hi', Option.map_some, Option.some.injEq, Prod.mk.injEq] at h
        rw [← h.1, ← map_fst_eraseIdx]
        have hsub := List.eraseIdx_sublist items k
        exact .array _ _ _ (.refl _) (fun _ => rfl) (hnd.sublist (hsub.map _)) (fun q hq => hlt q (hsub.subset hq)) (fun q hq => hm q (hsub.subset hq))
  | .field k :: p, op, .record ms, m', c, hl, ho, h => by
    cases hl with
    | record _ hm =>
      simp only [change] at h
      split at h
      · rename_i m hk
        rcases hc : change p op m with _ | ⟨m1, c1⟩
        · rw [hc] at h; cases h
        · rw [hc] at h
          simp only [Option.map_some, Option.some.injEq, Prod.mk.injEq] at h
          have ho : ∀ m, ms[k]? = some m → OrderedAt al p op m := ho
          have ih := listens_change p op m m1 c1 (hm m (List.mem_of_getElem? hk)) (ho m hk) hc
          rw [← h.1]
          refine .record _ fun q hq => ?_
          rcases List.mem_or_eq_of_mem_set hq with hq | rfl
          exacts [hm q hq, ih]
      · cases h
  | .item i :: p, op, .array items tr nx, m', c, hl, ho, h => by
    cases hl with
    | array _ _ _ htr hal hnd hlt hm =>
      simp only [change] at h
      split at h
      · rename_i id m hk
        rcases hc : change p op m with _ | ⟨m1, c1⟩
        · rw [hc] at h; cases h
        · rw [hc] at h
          simp only [Option.map_some, Option.some.injEq, Prod.mk.injEq] at h
          have hmem := List.mem_of_getElem? hk
          have ho : ∀ q, items[i]? = some q → OrderedAt al p op q.2 := ho
          have ih := listens_change p op m m1 c1 (hm _ hmem) (ho _ hk) hc
          rw [← h.1]
          have hfst := map_fst_set items i id m m1 hk
          refine .array _ _ _ (hfst ▸ htr) (fun h => hfst ▸ hal h) (hfst ▸ hnd) (fun q hq => ?_) (fun q hq => ?_)
          · rcases List.mem_or_eq_of_mem_set hq with hq | rfl
            exacts [hlt q hq, hlt (id, m) hmem]
          · rcases List.mem_or_eq_of_mem_set hq with hq | rfl
            exacts [hm q hq, ih]
      · cases h
  | [], .assign _ _, .plain _, _, _, _, _, h => by simp [change] at h
  | [], .assign _ _, .record _, _, _, _, _, h => by simp [change] at h
  | [], .assign _ _, .array _ _ _, _, _, _, _, h => by simp [change] at h
  | [], .insert _ _, .plain _, _, _, _, _, h => by simp [change] at h
  | [], .insert _ _, .record _, _, _, _, _, h => by simp [change] at h
  | [], .insert _ _, .field _, _, _, _, _, h => by simp [change] at h
  | [], .remove _, .plain _, _, _, _, _, h => by simp [change] at h
  | [], .remove _, .record _, _, _, _, _, h => by simp [change] at h
  | [], .remove _, .field _, _, _, _, _, h => by simp [change] at h
  | .field _ :: _, _, .plain _, _, _, _, _, h => by simp [change] at h
  | .field _ :: _, _, .field _, _, _, _, _, h => by simp [change] at h
  | .field _ :: _, _, .array _ _ _, _, _, _, _, h => by simp [change] at h
  | .item _ :: _, _, .plain _, _, _, _, _, h => by simp [change] at h
  | .item _ :: _, _, .field _, _, _, _, _, h => by simp [change] at h
  | .item _ :: _, _, .record _, _, _, _, _, h => by simp [change] at h

/-! ### Built models listen to their items -/

theorem map_fst_zip_range (ms : List M) : ((List.range ms.length).zip ms).map Prod.fst = List.range ms.length :=
  List.map_fst_zip (by simp)

theorem listens_arrayOf (ms : List M) {al : Bool} (h : ∀ m ∈ ms, Listens al m) : Listens al (arrayOf ms) := by
  have hfst := map_fst_zip_range ms
  have := Listens.array (al := al) ((List.range ms.length).zip ms) _ ms.length (.refl _) (fun _ => rfl) (by rw [hfst]; exact List.nodup_range)
    (fun p hp => by simpa using (List.of_mem_zip (a := p.1) (b := p.2) hp).1)
    (fun p hp => h _ (List.of_mem_zip (a := p.1) (b := p.2) hp).2)
  rw [hfst] at this
  exact this

mutual
theorem build_listens {al : Bool} : (s : Schema) → ∀ (b : Bool) (d v : Val) (m : M), build s b d v = .ok m → Listens al m
  | .scalar, b, d, v, m, h => by
    simp only [build, Except.ok.injEq] at h
    subst h
    cases b
    · exact .field _
    · exact .plain _
  | .double, b, d, v, m, h => by simp [build] at h
  | .record fs, b, d, v, m, h => by
    rw [build] at h
    rcases h1 : asDict d with x | a
    · rw [h1] at h; cases h
    rcases h2 : asDict v with x | e
    · rw [h1, h2] at h; cases h
    rcases h3 : buildFields fs (e ++ a) with x | ms
    · rw [h1, h2] at h; simp only [Except.bind, h3, Except.map] at h; cases h
    rw [h1, h2] at h
    simp only [Except.bind, h3, Except.map, Except.ok.injEq] at h
    rw [← h]
    exact .record _ (build_listensFields fs _ ms h3)
  | .array s, b, d, v, m, h => by
    rw [build] at h
    rcases h1 : asList (v.orElse d) with x | l
    · rw [h1] at h; cases h
    rw [h1] at h
    rcases h2 : l.mapM (fun x => build s true .none x) with x | ms
    · simp only [Except.bind, h2, Except.map] at h; cases h
    simp only [Except.bind, h2, Except.map, Except.ok.injEq] at h
    rw [← h]
    have h4 : List.Forall₂ (fun (_ : Val) m => Listens al m) l ms := (forall₂_of_mapM h2).imp fun x m hm => build_listens s true _ x m hm
    exact listens_arrayOf ms (forall₂_right h4)
theorem build_listensFields {al : Bool} : (fs : Fields) → ∀ (e : List (String × Val)) (ms : List M), buildFields fs e = .ok ms →
    ∀ m ∈ ms, Listens al m
  | .nil, e, ms, h => by simp only [buildFields, Except.ok.injEq] at h; subst h; simp
  | .cons n d s rest, e, ms, h => by
    rw [buildFields] at h
    rcases h1 : build s false d (getVal e n) with x | m
    · rw [h1] at h; cases h
    rcases h2 : buildFields rest e with x | ms'
    · rw [h1, h2] at h; cases h
    rw [h1, h2] at h
    simp only [Except.bind, Except.map, Except.ok.injEq] at h
    subst h
    intro q hq
    rcases List.mem_cons.1 hq with rfl | hq
    exacts [build_listens s _ _ _ _ h1, build_listensFields rest e ms' h2 q hq]
end

/-! ### C52 -/

/-- A history of changes, each one right for `al` at the time it happens. -/
inductive History (al : Bool) : M → List (List Step × Op) → M → Prop where
  | nil (m : M) : History al m [] m
  | snoc {m m1 m2 : M} {h : List (List Step × Op)} {p : List Step} {op : Op} {c : List Nat} (hh : History al m h m1)
      (ho : OrderedAt al p op m1) (hc : change p op m1 = some (m2, c)) : History al m (h ++ [(p, op)]) m2

theorem fires {al : Bool} (s : Schema) (d v : Val) (m0 m m' : M) (hist : List (List Step × Op)) (p : List Step) (op : Op)
    (c : List Nat) (hb : build s false d v = .ok m0) (hh : History al m0 hist m) (hc : change p op m = some (m', c)) :
    c = List.replicate (p.length + 1) (if op.changes then 1 else 0) := by
  have h0 : Listens al m0 := build_listens s false d v m0 hb
  have : Listens al m := by
    clear hc hb
    induction hh with
    | nil => exact h0
    | snoc _ ho hc ih => exact listens_change _ _ _ _ _ ih ho hc
  exact fires_all p op m m' c this hc

/-- C52: after building a model and any history of field assignments, removals and insertions at the end of arrays, anywhere
in the model, a change (whatever it is) fires `model_changed_event` of the changed model and of every enclosing model, exactly
once; assigning an equal value fires none. Missing: removals after insertions before other items, and `from_dict_value`
(`C52_counterexample`, `C52_counterexample_from_dict`). -/
theorem C52_fires_partial (s : Schema) (d v : Val) (m0 m m' : M) (hist : List (List Step × Op)) (p : List Step) (op : Op)
    (c : List Nat) (hb : build s false d v = .ok m0) (hh : History true m0 hist m) (hc : change p op m = some (m', c)) :
    c = List.replicate (p.length + 1) (if op.changes then 1 else 0) :=
  fires s d v m0 m m' hist p op c hb hh hc

/-- C52: the same after any history of field assignments and insertions at any place, without removals. -/
theorem C52_fires_insert_partial (s : Schema) (d v : Val) (m0 m m' : M) (hist : List (List Step × Op)) (p : List Step) (op : Op)
    (c : List Nat) (hb : build s false d v = .ok m0) (hh : History false m0 hist m) (hc : change p op m = some (m', c)) :
    c = List.replicate (p.length + 1) (if op.changes then 1 else 0) :=
  fires s d v m0 m m' hist p op c hb hh hc

/-- an array of records with one field -/
def sArr : Schema := .array (.record (.cons "q" .none .scalar .nil))

def item (n : Nat) : M := .record [.field (.atom n)]

/-- The items `a`, `b` with the listeners as built; the record `c` is inserted in front and then removed: the array closes the
listener of `a` instead. -/
def afterInsertRemove : Option M :=
  ((change [] (.insert 0 (item 3)) (arrayOf [item 1, item 2])).bind fun r => change [] (.remove 0) r.1).map Prod.fst

/-- C52, negative: after inserting an item in front and removing it again, a change of the first item does not fire the array's
event (0), though the item's own (1) and the field's (1). -/
theorem C52_counterexample :
    build sArr false .none (.list [.dict [("q", .atom 1)], .dict [("q", .atom 2)]]) = .ok (arrayOf [item 1, item 2]) ∧
      (afterInsertRemove.bind fun m => (change [.item 0, .field 0] (.assign (.atom 9) false) m).map Prod.snd) = some [0, 1, 1] :=
  ⟨rfl, rfl⟩

/-- C52, negative: an item made by `from_dict_value` is not listened to. -/
theorem C52_counterexample_from_dict :
    ∃ m, fromDict sArr (arrayOf []) (.list [.dict [("q", .atom 1)]]) = .ok m ∧
      (change [.item 0, .field 0] (.assign (.atom 9) false) m).map Prod.snd = some [0, 1, 1] :=
  ⟨_, rfl, rfl⟩

/-- C52, negative: an item dropped by `from_dict_value` leaves its listener behind, so that the listener of the wrong item is
closed later: items `a`, `b`; `from_dict_value` with one item; `c` appended; `c` removed; the listener of `b` (which is gone) is
closed instead of that of `c`. The removed item `c` still fires the event of the array it is no longer in. -/
theorem C52_counterexample_stale :
    ∃ m, fromDict sArr (arrayOf [item 1, item 2]) (.list [.dict [("q", .atom 1)]]) = .ok m ∧
      ∃ m1 m2, change [] (.insert 1 (item 3)) m = some (m1, [1]) ∧ change [] (.remove 1) m1 = some (m2, [1]) ∧
        m2 = .array [(0, item 1)] [0, 2] 3 :=
  ⟨_, rfl, _, _, rfl, rfl, rfl⟩

theorem listens_item (al : Bool) (n : Nat) : Listens al (item n) :=
  .record _ fun m hm => by simp at hm; subst hm; exact .field _

/-- Histories as in the theorems: an append followed by a removal, and an insertion in front. -/
example : ∃ m, History true (arrayOf [item 1, item 2]) [([], .insert 2 (item 3)), ([], .remove 0)] m :=
  ⟨_, .snoc (h := [([], .insert 2 (item 3))]) (.snoc (h := []) (.nil _)
    (show (true = true → insertPos 2 2 = 2) ∧ Listens true (item 3) from ⟨fun _ => rfl, listens_item _ 3⟩) rfl)
    (show true = true from rfl) rfl⟩

example : ∃ m, History false (arrayOf [item 1, item 2]) [([], .insert 0 (item 3)), ([.item 1, .field 0], .assign (.atom 5) false)] m :=
  ⟨_, .snoc (h := [([], .insert 0 (item 3))]) (.snoc (h := []) (.nil _)
    (show (false = true → insertPos 2 0 = 2) ∧ Listens false (item 3) from ⟨fun h => by simp at h, listens_item _ 3⟩) rfl)
    (by simp [OrderedAt, Py.insert, insertPos, item]) rfl⟩

/-- A change inside an item of an array of a record: all models on the path fire. -/
example : ∃ m', change [.field 2, .item 1, .field 0] (.assign (.atom 9) false) mClean = some (m', [1, 1, 1, 1]) := ⟨_, rfl⟩

end Verif.Structured
