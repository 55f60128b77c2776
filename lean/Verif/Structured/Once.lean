import Verif.Structured.Changed

/-!
C52 for every history, also those with removals after insertions in front of other items and with `from_dict_value` at any
place (where `C52_counterexample` and `C52_counterexample_from_dict` show that events may be missing): no model ever fires
`model_changed_event` more than once for a change, and the outermost model fires exactly if every array on the way listens to
its item.
-/

namespace Verif.Structured

open Verif.Py

/-- Items and listeners of every array have different numbers, all of them used. -/
inductive Sound : M → Prop where
  | field (v : Val) : Sound (.field v)
  | plain (v : Val) : Sound (.plain v)
  | record (ms : List M) (h : ∀ m ∈ ms, Sound m) : Sound (.record ms)
  | array (items : List (Nat × M)) (tr : List Nat) (next : Nat) (hnd : (items.map Prod.fst).Nodup) (htr : tr.Nodup)
      (hlt : ∀ p ∈ items, p.1 < next) (htl : ∀ k ∈ tr, k < next) (h : ∀ p ∈ items, Sound p.2) : Sound (.array items tr next)

theorem sound_of_listens {al : Bool} : ∀ {m : M}, Listens al m → Sound m := by
  intro m h
  induction h with
  | field v => exact .field v
  | plain v => exact .plain v
  | record ms _ ih => exact .record ms ih
  | array items tr next htr hal hnd hlt _ ih =>
    refine .array items tr next hnd (htr.nodup_iff.2 hnd) hlt (fun k hk => ?_) ih
    obtain ⟨p, hp, rfl⟩ := List.mem_map.1 (htr.mem_iff.1 hk)
    exact hlt p hp

/-- The model at the end of the path is replaced by what `f` makes of it. -/
def update (f : M → Option M) : List Step → M → Option M
  | [], m => f m
  | .field k :: p, .record ms =>
    match ms[k]? with
    | some m => (update f p m).map fun m' => .record (ms.set k m')
    | none => none
  | .item i :: p, .array items tramp next =>
    match items[i]? with
    | some (id, m) => (update f p m).map fun m' => .array (items.set i (id, m')) tramp next
    | none => none
  | _, _ => none

theorem sound_set {items : List (Nat × M)} {tr : List Nat} {next : Nat} {i id : Nat} {m m' : M}
    (h : Sound (.array items tr next)) (hk : items[i]? = some (id, m)) (hm' : Sound m') :
    Sound (.array (items.set i (id, m')) tr next) := by
  cases h with
  | array _ _ _ hnd htr hlt htl hm =>
    have hmem := List.mem_of_getElem? hk
    have hfst := map_fst_set items i id m m' hk
    refine .array _ _ _ (hfst ▸ hnd) htr (fun q hq => ?_) htl (fun q hq => ?_)
    · rcases List.mem_or_eq_of_mem_set hq with hq | rfl
      exacts [hlt q hq, hlt (id, m) hmem]
    · rcases List.mem_or_eq_of_mem_set hq with hq | rfl
      exacts [hm q hq, hm']

theorem sound_update {f : M → Option M} (hf : ∀ m m', Sound m → f m = some m' → Sound m') :
    ∀ (p : List Step) (m m' : M), Sound m → update f p m = some m' → Sound m'
  | [], m, m', hs, h => hf m m' hs h
  | .field k :: p, .record ms, m', hs, h => by
    cases hs with
    | record _ hm =>
      simp only [update] at h
      split at h
      · rename_i x hk
        rcases hc : update f p x with _ | x'
        · rw [hc] at h; cases h
        · rw [hc] at h
          simp only [Option.map_some, Option.some.injEq] at h
          rw [← h]
          refine .record _ fun q hq => ?_
          rcases List.mem_or_eq_of_mem_set hq with hq | rfl
          exacts [hm q hq, sound_update hf p x _ (hm x (List.mem_of_getElem? hk)) hc]
      · cases h
  | .item i :: p, .array items tr nx, m', hs, h => by
    simp only [update] at h
    split at h
    · rename_i id x hk
      rcases hc : update f p x with _ | x'
      · rw [hc] at h; cases h
      · rw [hc] at h
        simp only [Option.map_some, Option.some.injEq] at h
        rw [← h]
        refine sound_set hs hk (sound_update hf p x _ ?_ hc)
        cases hs with
        | array _ _ _ _ _ _ _ hm => exact hm _ (List.mem_of_getElem? hk)
    · cases h
  | .field _ :: _, .plain _, _, _, h => by simp [update] at h
  | .field _ :: _, .field _, _, _, h => by simp [update] at h
  | .field _ :: _, .array _ _ _, _, _, h => by simp [update] at h
  | .item _ :: _, .plain _, _, _, h => by simp [update] at h
  | .item _ :: _, .field _, _, _, h => by simp [update] at h
  | .item _ :: _, .record _, _, _, h => by simp [update] at h

/-- Models that are inserted are themselves sound. -/
def Op.SoundArg : Op → Prop
  | .insert _ m => Sound m
  | _ => True

/-- The model of a change is the one at the end of the path, changed. -/
theorem change_update : ∀ (p : List Step) (op : Op) (m : M),
    (change p op m).map Prod.fst = update (fun x => (change [] op x).map Prod.fst) p m
  | [], op, m => rfl
  | .field k :: p, op, .record ms => by
    simp only [change, update]
    cases hk : ms[k]? with
    | none => rfl
    | some x =>
      simp only [← change_update p op x, Option.map_map]
      rfl
  | .item i :: p, op, .array items tr nx => by
    simp only [change, update]
    cases hk : items[i]? with
    | none => rfl
    | some x =>
      simp only [← change_update p op x.2, Option.map_map]
      rfl
  | .field _ :: _, _, .plain _ => by simp [change, update]
  | .field _ :: _, _, .field _ => by simp [change, update]
  | .field _ :: _, _, .array _ _ _ => by simp [change, update]
  | .item _ :: _, _, .plain _ => by simp [change, update]
  | .item _ :: _, _, .field _ => by simp [change, update]
  | .item _ :: _, _, .record _ => by simp [change, update]

theorem sound_change_here (op : Op) (ho : op.SoundArg) (m m' : M) (hs : Sound m)
    (h : (change [] op m).map Prod.fst = some m') : Sound m' := by
  cases op with
  | assign v same =>
    cases m with
    | field u => cases same <;> simp [change] at h <;> rw [← h] <;> exact .field _
    | plain _ => simp [change] at h
    | record _ => simp [change] at h
    | array _ _ _ => simp [change] at h
  | insert i x =>
    cases m with
    | field u => simp [change] at h
    | plain _ => simp [change] at h
    | record _ => simp [change] at h
    | array items tr nx =>
      simp only [change, Option.map_some, Option.some.injEq] at h
      rw [← h]
      cases hs with
      | array _ _ _ hnd htr hlt htl hm =>
        have hperm : (Py.insert items i (nx, x)).Perm ((nx, x) :: items) :=
          List.perm_insertIdx _ _ (by unfold insertPos; split <;> omega)
        have hmem : ∀ q, q ∈ Py.insert items i (nx, x) → q = (nx, x) ∨ q ∈ items := fun q hq => by
          simpa using hperm.mem_iff.1 hq
        have hp2 : ((Py.insert items i (nx, x)).map Prod.fst).Perm (nx :: items.map Prod.fst) := by
          simpa using hperm.map Prod.fst
        refine .array _ _ _ ?_ ?_ ?_ ?_ ?_
        · rw [hp2.nodup_iff, List.nodup_cons]
          refine ⟨fun hin => ?_, hnd⟩
          obtain ⟨q, hq, hqe⟩ := List.mem_map.1 hin
          have := hlt q hq
          omega
        · rw [(List.perm_append_comm (l₁ := tr) (l₂ := [nx])).nodup_iff]
          exact List.nodup_cons.2 ⟨fun hin => by have := htl _ hin; omega, htr⟩
        · intro q hq
          rcases hmem q hq with rfl | hq
          · simp
          · have := hlt q hq; omega
        · intro k hk
          rcases List.mem_append.1 hk with hk | hk
          · have := htl k hk; omega
          · simp at hk; omega
        · intro q hq
          rcases hmem q hq with rfl | hq
          exacts [ho, hm q hq]
  | remove i =>
    cases m with
    | field u => simp [change] at h
    | plain _ => simp [change] at h
    | record _ => simp [change] at h
    | array items tr nx =>
      cases hs with
      | array _ _ _ hnd htr hlt htl hm =>
        have key : ∀ k tr', List.Sublist tr' tr → Sound (.array (items.eraseIdx k) tr' nx) := fun k tr' htr' => by
          have hsub := List.eraseIdx_sublist items k
          exact .array _ _ _ (hnd.sublist (hsub.map _)) (htr.sublist htr') (fun q hq => hlt q (hsub.subset hq))
            (fun q hq => htl q (htr'.subset hq)) (fun q hq => hm q (hsub.subset hq))
        unfold change at h
        rcases hi : index? items.length i with _ | k
        · simp [del?, hi] at h
        · rcases hj : index? tr.length i with _ | j
          · simp only [del?, hi, hj, Option.map_some, Option.map_none, Option.some.injEq] at h
            rw [← h]
            exact key k tr (.refl _)
          · simp only [del?, hi, hj, Option.map_some, Option.some.injEq] at h
            rw [← h]
            exact key k _ (List.eraseIdx_sublist tr j)

theorem sound_change (p : List Step) (op : Op) (ho : op.SoundArg) (m m' : M) (c : List Nat) (hs : Sound m)
    (h : change p op m = some (m', c)) : Sound m' := by
  have : update (fun x => (change [] op x).map Prod.fst) p m = some m' := by rw [← change_update, h]; rfl
  exact sound_update (sound_change_here op ho) p m m' hs this

/-! ### `from_dict_value` -/

theorem adjust_sound {n : Nat} {new : Except Exc M} {items items' : List (Nat × M)} {next next' : Nat} {tr : List Nat}
    (hnew : ∀ m, new = .ok m → Sound m) (h : adjust n new items next = .ok (items', next')) (hs : Sound (.array items tr next)) :
    Sound (.array items' tr next') := by
  cases hs with
  | array _ _ _ hnd htr hlt htl hm =>
    unfold adjust at h
    split at h
    · simp only [Except.ok.injEq, Prod.mk.injEq] at h
      rw [← h.1, ← h.2]
      have hsub := List.take_sublist n items
      exact .array _ _ _ (hnd.sublist (hsub.map _)) htr (fun q hq => hlt q (hsub.subset hq)) htl (fun q hq => hm q (hsub.subset hq))
    · rcases new with e | m
      · cases h
      · simp only [Except.map, Except.ok.injEq, Prod.mk.injEq] at h
        rw [← h.1, ← h.2]
        have hmem : ∀ q, q ∈ (List.range (n - items.length)).map (fun (k : Nat) => (next + k, m)) →
            next ≤ q.1 ∧ q.1 < next + (n - items.length) ∧ q.2 = m := by
          intro q hq
          obtain ⟨k, hk, rfl⟩ := List.mem_map.1 hq
          have := List.mem_range.1 hk
          exact ⟨by simp, by simp; omega, rfl⟩
        refine .array _ _ _ ?_ htr (fun q hq => ?_) (fun k hk => by have := htl k hk; omega) (fun q hq => ?_)
        · rw [List.map_append, List.nodup_append]
          refine ⟨hnd, ?_, fun a ha b hb => ?_⟩
          · rw [List.map_map]
            exact List.nodup_range.map fun a b hab => by simp at hab; exact hab
          · obtain ⟨q, hq, rfl⟩ := List.mem_map.1 ha
            obtain ⟨r, hr, rfl⟩ := List.mem_map.1 hb
            have := hlt q hq
            have := (hmem r hr).1
            omega
        · rcases List.mem_append.1 hq with hq | hq
          · have := hlt q hq; omega
          · exact (hmem q hq).2.1
        · rcases List.mem_append.1 hq with hq | hq
          · exact hm q hq
          · rw [(hmem q hq).2.2]; exact hnew m rfl

theorem zip_fst_sublist {α β : Type} : ∀ (l : List α) (m : List β), List.Sublist ((l.zip m).map Prod.fst) l
  | [], _ => by simp
  | _ :: _, [] => by simp
  | a :: l, b :: m => by simpa using zip_fst_sublist l m

/-- The items read in keep their numbers. -/
theorem mapM_fst (s : Schema) : ∀ (zs : List ((Nat × M) × Val)) (l : List (Nat × M)),
    (zs.mapM fun p => (fromDict s p.1.2 p.2).map fun m => (p.1.1, m)) = .ok l →
    l.map Prod.fst = zs.map (fun z => z.1.1) ∧
    ∀ q ∈ l, ∃ z ∈ zs, ∃ m, fromDict s z.1.2 z.2 = .ok m ∧ q = (z.1.1, m)
  | [], l, h => by
    simp only [List.mapM_nil] at h
    cases h
    simp
  | z :: zs, l, h => by
    rw [List.mapM_cons] at h
    rcases h1 : fromDict s z.1.2 z.2 with e | m
    · rw [h1] at h; cases h
    · rw [h1] at h
      rcases h2 : (zs.mapM fun p => (fromDict s p.1.2 p.2).map fun m => (p.1.1, m)) with e | l'
      · rw [h2] at h; cases h
      · rw [h2] at h
        cases h
        obtain ⟨h3, h4⟩ := mapM_fst s zs l' h2
        refine ⟨by simp [h3], fun q hq => ?_⟩
        rcases List.mem_cons.1 hq with rfl | hq
        · exact ⟨z, by simp, m, h1, rfl⟩
        · obtain ⟨z', hz', m', h5, h6⟩ := h4 q hq
          exact ⟨z', by simp [hz'], m', h5, h6⟩

mutual
theorem sound_fromDict : (s : Schema) → ∀ (m : M) (v : Val) (m' : M), Sound m → fromDict s m v = .ok m' → Sound m'
  | .record fs, .record ms, v, m', hs, h => by
    cases hs with
    | record _ hm =>
      cases v with
      | dict d =>
        simp only [fromDict] at h
        rcases h1 : fromDictFields fs ms d with e | ms'
        · rw [h1] at h; cases h
        · rw [h1] at h
          simp only [Except.map, Except.ok.injEq] at h
          rw [← h]
          exact .record _ (sound_fromDictFields fs ms d ms' hm h1)
      | none => simp [fromDict] at h
      | atom _ => simp [fromDict] at h
      | list _ => simp [fromDict] at h
  | .array s, .array items tr nx, v, m', hs, h => by
    cases v with
    | list vs =>
      simp only [fromDict] at h
      rcases h1 : adjust vs.length (build s true .none .none) items nx with e | ⟨items', nx'⟩
      · rw [h1] at h; cases h
      · rw [h1] at h
        simp only [Except.bind] at h
        rcases h2 : ((items'.zip vs).mapM fun p => (fromDict s p.1.2 p.2).map fun m => (p.1.1, m)) with e | l
        · rw [h2] at h; cases h
        · rw [h2] at h
          simp only [Except.map, Except.ok.injEq] at h
          rw [← h]
          have hs' := adjust_sound (tr := tr) (fun m hm => sound_of_listens (build_listens (al := true) s _ _ _ m hm)) h1 hs
          cases hs' with
          | array _ _ _ hnd htr hlt htl hm =>
            obtain ⟨h3, h4⟩ := mapM_fst s _ l h2
            have hzip : List.Sublist ((items'.zip vs).map fun z => z.1.1) (items'.map Prod.fst) := by
              have : (items'.zip vs).map (fun z => z.1.1) = ((items'.zip vs).map Prod.fst).map Prod.fst := by simp
              rw [this]
              refine List.Sublist.map _ ?_
              exact zip_fst_sublist _ _
            refine .array _ _ _ (by rw [h3]; exact hnd.sublist hzip) htr (fun q hq => ?_) htl (fun q hq => ?_)
            · obtain ⟨z, hz, m1, h5, rfl⟩ := h4 q hq
              exact hlt z.1 (List.of_mem_zip (a := z.1) (b := z.2) hz).1
            · obtain ⟨z, hz, m1, h5, rfl⟩ := h4 q hq
              exact sound_fromDict s z.1.2 z.2 m1 (hm z.1 (List.of_mem_zip (a := z.1) (b := z.2) hz).1) h5
    | none => simp [fromDict] at h
    | atom _ => simp [fromDict] at h
    | dict _ => simp [fromDict] at h
  | s, .field u, v, m', _, h => by
    cases s <;> simp only [fromDict, Except.ok.injEq] at h <;> rw [← h] <;> exact .field _
  | .scalar, .plain _, v, m', _, h => by simp [fromDict] at h
  | .scalar, .record _, v, m', _, h => by simp [fromDict] at h
  | .scalar, .array _ _ _, v, m', _, h => by simp [fromDict] at h
  | .double, .plain _, v, m', _, h => by simp [fromDict] at h
  | .double, .record _, v, m', _, h => by simp [fromDict] at h
  | .double, .array _ _ _, v, m', _, h => by simp [fromDict] at h
  | .record _, .plain _, v, m', _, h => by simp [fromDict] at h
  | .record _, .array _ _ _, v, m', _, h => by simp [fromDict] at h
  | .array _, .plain _, v, m', _, h => by simp [fromDict] at h
  | .array _, .record _, v, m', _, h => by simp [fromDict] at h
theorem sound_fromDictFields : (fs : Fields) → ∀ (ms : List M) (d : List (String × Val)) (ms' : List M), (∀ m ∈ ms, Sound m) →
    fromDictFields fs ms d = .ok ms' → ∀ m ∈ ms', Sound m
  | .nil, ms, d, ms', hm, h => by simp only [fromDictFields, Except.ok.injEq] at h; subst h; exact hm
  | .cons n dv s rest, [], d, ms', hm, h => by simp only [fromDictFields, Except.ok.injEq] at h; subst h; exact hm
  | .cons n dv s rest, m :: ms, d, ms', hm, h => by
    simp only [fromDictFields] at h
    have key : ∀ m1, Sound m1 → ∀ r, (fromDictFields rest ms d).map (m1 :: ·) = .ok r → ∀ q ∈ r, Sound q := by
      intro m1 hm1 r hr q hq
      rcases h2 : fromDictFields rest ms d with e | l
      · rw [h2] at hr; cases hr
      · rw [h2] at hr
        simp only [Except.map, Except.ok.injEq] at hr
        subst hr
        rcases List.mem_cons.1 hq with rfl | hq
        · exact hm1
        · exact sound_fromDictFields rest ms d l (fun x hx => hm x (by simp [hx])) h2 q hq
    cases hl : d.lookup n with
    | none =>
      rw [hl] at h
      exact key m (hm m (by simp)) ms' h
    | some v =>
      rw [hl] at h
      simp only at h
      rcases h1 : fromDict s m v with e | m1
      · rw [h1] at h; cases h
      · rw [h1] at h
        exact key m1 (sound_fromDict s m v m1 (hm m (by simp)) h1) ms' h
end

/-! ### Every history -/

/-- What may happen to a model: changes and `from_dict_value` (and so `copy_from`) at any place in it. -/
inductive Happening where
  | change (p : List Step) (op : Op)
  | load (p : List Step) (s : Schema) (v : Val)

inductive Past : M → List Happening → M → Prop where
  | nil (m : M) : Past m [] m
  | change {m m1 m2 : M} {h : List Happening} {p : List Step} {op : Op} {c : List Nat} (hh : Past m h m1)
      (ho : op.SoundArg) (hc : change p op m1 = some (m2, c)) : Past m (h ++ [.change p op]) m2
  | load {m m1 m2 : M} {h : List Happening} {p : List Step} {s : Schema} {v : Val} (hh : Past m h m1)
      (hc : update (fun x => (fromDict s x v).toOption) p m1 = some m2) : Past m (h ++ [.load p s v]) m2

theorem sound_past {s : Schema} {d v : Val} {m0 m : M} {hist : List Happening} (hb : build s false d v = .ok m0)
    (hh : Past m0 hist m) : Sound m := by
  have h0 : Sound m0 := sound_of_listens (build_listens (al := true) s false d v m0 hb)
  clear hb
  induction hh with
  | nil => exact h0
  | change _ ho hc ih => exact sound_change _ _ ho _ _ _ ih hc
  | load _ hc ih =>
    refine sound_update (fun x x' hx hl => ?_) _ _ _ ih hc
    cases hf : fromDict ‹_› x ‹_› with
    | error e => rw [hf] at hl; cases hl
    | ok y =>
      rw [hf] at hl
      simp only [Except.toOption, Option.some.injEq] at hl
      subst hl
      exact sound_fromDict _ x _ _ hx hf

/-- Every array on the path listens to its item on the path. -/
def Heard : List Step → M → Prop
  | .field k :: p, .record ms => ∀ m, ms[k]? = some m → Heard p m
  | .item i :: p, .array items tramp _ => ∀ q, items[i]? = some q → q.1 ∈ tramp ∧ Heard p q.2
  | _, _ => True

theorem counts : ∀ (p : List Step) (op : Op) (m m' : M) (c : List Nat), Sound m → change p op m = some (m', c) →
    (∀ n ∈ c, n ≤ 1) ∧ c ≠ [] ∧ (c.headD 0 = 1 ↔ c.getLastD 0 = 1 ∧ Heard p m)
  | [], .assign v same, .field u, m', c, _, h => by
    cases same <;> simp [change] at h <;> rw [← h.2] <;> simp [Heard]
  | [], .insert i x, .array items tr nx, m', c, _, h => by
    simp [change] at h; rw [← h.2]; simp [Heard]
  | [], .remove i, .array items tr nx, m', c, hl, h => by
    unfold change at h
    split at h
    · cases h; simp [Heard]
    · cases h; simp [Heard]
    · cases h
  | .field k :: p, op, .record ms, m', c, hl, h => by
    cases hl with
    | record _ hm =>
      simp only [change] at h
      split at h
      · rename_i m hk
        rcases hc : change p op m with _ | ⟨m1, c1⟩
        · rw [hc] at h; cases h
        · rw [hc] at h
          simp only [Option.map_some, Option.some.injEq, Prod.mk.injEq] at h
          obtain ⟨i1, i2, i3⟩ := counts p op m m1 c1 (hm m (List.mem_of_getElem? hk)) hc
          rw [← h.2]
          obtain ⟨a, l, rfl⟩ : ∃ a l, c1 = a :: l := List.exists_cons_of_ne_nil i2
          refine ⟨fun n hn => ?_, by simp, ?_⟩
          · rcases List.mem_cons.1 hn with rfl | hn
            exacts [i1 _ (by simp), i1 n hn]
          · simp only [List.headD_cons] at i3 ⊢
            rw [i3]
            simp [Heard, hk]
      · cases h
  | .item i :: p, op, .array items tr nx, m', c, hl, h => by
    cases hl with
    | array _ _ _ hnd htr hlt htl hm =>
      simp only [change] at h
      split at h
      · rename_i id m hk
        rcases hc : change p op m with _ | ⟨m1, c1⟩
        · rw [hc] at h; cases h
        · rw [hc] at h
          simp only [Option.map_some, Option.some.injEq, Prod.mk.injEq] at h
          obtain ⟨i1, i2, i3⟩ := counts p op m m1 c1 (hm _ (List.mem_of_getElem? hk)) hc
          rw [← h.2]
          obtain ⟨a, l, rfl⟩ : ∃ a l, c1 = a :: l := List.exists_cons_of_ne_nil i2
          have ha := i1 a (by simp)
          by_cases hin : id ∈ tr
          · have hcount : tr.count id = 1 := List.count_eq_one_of_mem htr hin
            refine ⟨fun n hn => ?_, by simp, ?_⟩
            · rcases List.mem_cons.1 hn with rfl | hn
              · simp [hcount, ha]
              · exact i1 n hn
            · simp only [List.headD_cons, hcount, Nat.mul_one] at i3 ⊢
              rw [i3]
              simp [Heard, hk, hin]
          · have hcount : tr.count id = 0 := List.count_eq_zero_of_not_mem hin
            refine ⟨fun n hn => ?_, by simp, ?_⟩
            · rcases List.mem_cons.1 hn with rfl | hn
              · simp [hcount]
              · exact i1 n hn
            · simp [hcount, Heard, hk, hin]
      · cases h
  | [], .assign _ _, .plain _, _, _, _, h => by simp [change] at h
  | [], .assign _ _, .record _, _, _, _, h => by simp [change] at h
  | [], .assign _ _, .array _ _ _, _, _, _, h => by simp [change] at h
  | [], .insert _ _, .plain _, _, _, _, h => by simp [change] at h
  | [], .insert _ _, .record _, _, _, _, h => by simp [change] at h
  | [], .insert _ _, .field _, _, _, _, h => by simp [change] at h
  | [], .remove _, .plain _, _, _, _, h => by simp [change] at h
  | [], .remove _, .record _, _, _, _, h => by simp [change] at h
  | [], .remove _, .field _, _, _, _, h => by simp [change] at h
  | .field _ :: _, _, .plain _, _, _, _, h => by simp [change] at h
  | .field _ :: _, _, .field _, _, _, _, h => by simp [change] at h
  | .field _ :: _, _, .array _ _ _, _, _, _, h => by simp [change] at h
  | .item _ :: _, _, .plain _, _, _, _, h => by simp [change] at h
  | .item _ :: _, _, .field _, _, _, _, h => by simp [change] at h
  | .item _ :: _, _, .record _, _, _, _, h => by simp [change] at h

/-- C52, every history of changes and `from_dict_value` at any place: no model fires `model_changed_event` more than once for
a change. -/
theorem C52_at_most_once (s : Schema) (d v : Val) (m0 m m' : M) (hist : List Happening) (p : List Step) (op : Op)
    (c : List Nat) (hb : build s false d v = .ok m0) (hh : Past m0 hist m) (hc : change p op m = some (m', c)) :
    ∀ n ∈ c, n ≤ 1 :=
  (counts p op m m' c (sound_past hb hh) hc).1

/-- C52, every history: the outermost model fires exactly if the changed model does and every array on the way listens to its
item. (Missing in general, so that the property fails: the second condition, see the counterexamples.) -/
theorem C52_iff_partial (s : Schema) (d v : Val) (m0 m m' : M) (hist : List Happening) (p : List Step) (op : Op)
    (c : List Nat) (hb : build s false d v = .ok m0) (hh : Past m0 hist m) (hc : change p op m = some (m', c)) :
    c.headD 0 = 1 ↔ c.getLastD 0 = 1 ∧ Heard p m :=
  (counts p op m m' c (sound_past hb hh) hc).2.2

/-- A history with an insertion in front, a removal, and `from_dict_value` adding items: the first item is not heard. -/
example : ∃ m m', Past (arrayOf [item 1, item 2]) [.change [] (.insert 0 (item 3)), .change [] (.remove 0),
    .load [] sArr (.list [.dict [("q", .atom 4)], .dict [("q", .atom 5)], .dict [("q", .atom 6)]])] m ∧
    change [.item 0, .field 0] (.assign (.atom 9) false) m = some (m', [0, 1, 1]) ∧
    ∃ m'', change [.item 1, .field 0] (.assign (.atom 9) false) m = some (m'', [1, 1, 1]) :=
  ⟨_, _, .load (h := [_, _]) (.change (h := [_]) (.change (h := []) (.nil _) (sound_of_listens (listens_item true 3)) rfl)
    trivial rfl) rfl, rfl, _, rfl⟩

end Verif.Structured
