import Verif.Structured.Exactly

/-!
C53, exactly: when `copy_from` succeeds, and when it makes the models equal.
-/

namespace Verif.Structured

open Verif.Py

mutual
/-- The value of a model, `None` for what has no `to_dict_value`. -/
def peek : Schema → M → Val
  | .scalar, .field v => v
  | .record fs, .record ms => .dict (peekFields fs ms)
  | .array s, .array items _ _ => .list (items.map fun p => peek s p.2)
  | _, .field v => v
  | _, _ => .none
def peekFields : Fields → List M → List (String × Val)
  | .cons n _ s rest, m :: ms => entry n (peek s m) (peekFields rest ms)
  | _, _ => []
end

mutual
/-- A value as `to_dict_value` gives it: of the kind of the schema, only scalar fields are missing, no plain values in arrays. -/
def ExactP : Schema → Val → Prop
  | .scalar, _ => True
  | .double, _ => False
  | .record fs, v => ∃ d, v = .dict d ∧ ExactPFields fs d
  | .array s, v => ∃ l, v = .list l ∧ ∀ x ∈ l, s ≠ .scalar ∧ ExactP s x
def ExactPFields : Fields → List (String × Val) → Prop
  | .nil, _ => True
  | .cons n _ s rest, d => ((∀ v, d.lookup n = some v → ExactP s v) ∧ (d.lookup n = none → s = .scalar)) ∧ ExactPFields rest d
end

mutual
theorem peek_of_toDict : (s : Schema) → ∀ (m : M) (v : Val), toDict s m = .ok v → peek s m = v
  | .scalar, m, v, h => by cases m <;> simp_all [toDict, peek]
  | .double, m, v, h => by cases m <;> simp_all [toDict, peek]
  | .record fs, m, v, h => by
    cases m with
    | record ms =>
      rw [toDict] at h
      rcases h1 : toDictFields fs ms with x | e
      · rw [h1] at h; cases h
      rw [h1] at h
      simp only [Except.map, Except.ok.injEq] at h
      rw [peek, peek_of_toDictFields fs ms e h1, h]
    | _ => simp_all [toDict, peek]
  | .array s, m, v, h => by
    cases m with
    | array items tr nx =>
      rw [toDict_array] at h
      rcases h1 : (items.map Prod.snd).mapM (fun m => toDict s m) with x | vs
      · rw [h1] at h; cases h
      rw [h1] at h
      simp only [Except.map, Except.ok.injEq] at h
      subst h
      rw [peek]
      congr 1
      apply List.ext_getElem?
      intro i
      rw [List.getElem?_map]
      cases hi : items[i]? with
      | none =>
        have := mapM_length h1
        rw [List.getElem?_eq_none_iff] at hi
        rw [List.getElem?_eq_none (by simp at this; omega)]
        rfl
      | some p =>
        obtain ⟨y, hy, ht⟩ := mapM_get h1 (i := i) (x := p.2) (by simp [hi])
        rw [hy, Option.map_some, peek_of_toDict s p.2 y ht]
    | _ => simp_all [toDict, peek]
theorem peek_of_toDictFields : (fs : Fields) → ∀ (ms : List M) (e : List (String × Val)), toDictFields fs ms = .ok e →
    peekFields fs ms = e
  | .nil, ms, e, h => by cases ms <;> simp_all [toDictFields, peekFields]
  | .cons n d s rest, ms, e, h => by
    cases ms with
    | nil => simp_all [toDictFields, peekFields]
    | cons m ms =>
      obtain ⟨v, r, h1, h2, rfl⟩ := toDictFields_cons h
      rw [peekFields, peek_of_toDict s m v h1, peek_of_toDictFields rest ms r h2]
end

theorem lookup_peekFields (n : String) : ∀ (fs : Fields) (ms : List M), n ∉ fs.names → (peekFields fs ms).lookup n = none
  | .nil, ms, _ => by cases ms <;> rfl
  | .cons k d s rest, [], _ => rfl
  | .cons k d s rest, m :: ms, hn => by
    simp only [Fields.names, List.mem_cons, not_or] at hn
    rw [peekFields, entry_lookup_ne _ _ hn.1]
    exact lookup_peekFields n rest ms hn.2

mutual
theorem toDict_exactP : (s : Schema) → Distinct s → ∀ (b : Bool) (m : M) (v : Val), WT s b m → toDict s m = .ok v → ExactP s v
  | .scalar, _, b, m, v, _, _ => trivial
  | .double, _, b, m, v, hw, _ => by simp [WT] at hw
  | .record fs, hs, b, m, v, hw, h => by
    rw [WT] at hw
    rw [Distinct] at hs
    obtain ⟨ms, rfl, hw⟩ := hw
    rw [toDict] at h
    rcases h1 : toDictFields fs ms with x | e
    · rw [h1] at h; cases h
    rw [h1] at h
    simp only [Except.map, Except.ok.injEq] at h
    rw [ExactP]
    exact ⟨e, h.symm, toDict_exactPFields fs hs.1 hs.2 ms e hw h1 e fun _ _ => rfl⟩
  | .array s, hs, b, m, v, hw, h => by
    rw [WT] at hw
    rw [Distinct] at hs
    obtain ⟨items, tr, nx, rfl, hw⟩ := hw
    rw [toDict_array] at h
    rcases h1 : (items.map Prod.snd).mapM (fun m => toDict s m) with x | vs
    · rw [h1] at h; cases h
    rw [h1] at h
    simp only [Except.map, Except.ok.injEq] at h
    rw [ExactP]
    refine ⟨vs, h.symm, fun x hx => ?_⟩
    obtain ⟨i, hi⟩ := List.getElem?_of_mem hx
    have hlt : i < (items.map Prod.snd).length := by
      have := (List.getElem?_eq_some_iff.1 hi).1
      have := mapM_length h1
      omega
    have hm := List.getElem?_eq_getElem hlt
    obtain ⟨y, hy, ht⟩ := mapM_get h1 hm
    rw [hi] at hy
    cases hy
    obtain ⟨p, hp, hpe⟩ := List.mem_map.1 (List.mem_of_getElem? hm)
    rw [← hpe] at ht
    refine ⟨?_, toDict_exactP s hs true p.2 x (hw p hp) ht⟩
    rintro rfl
    have := hw p hp
    rw [WT] at this
    obtain ⟨w, hw'⟩ := this
    rw [hw'] at ht
    simp [toDict] at ht
theorem toDict_exactPFields : (fs : Fields) → fs.names.Nodup → DistinctFields fs → ∀ (ms : List M) (e : List (String × Val)),
    WTFields fs ms → toDictFields fs ms = .ok e → ∀ e' : List (String × Val), (∀ n ∈ fs.names, e'.lookup n = e.lookup n) →
    ExactPFields fs e'
  | .nil, _, _, ms, e, _, _, e', _ => by rw [ExactPFields]; trivial
  | .cons n d s rest, hnd, hs, ms, e, hw, he, e', he' => by
    rw [WTFields] at hw
    rw [DistinctFields] at hs
    rw [Fields.names, List.nodup_cons] at hnd
    obtain ⟨m, ms, rfl, hw1, hw2⟩ := hw
    obtain ⟨v, r, h1, h2, rfl⟩ := toDictFields_cons he
    have hnone : r.lookup n = none := lookup_toDictFields n rest ms r hnd.1 h2
    have hn : e'.lookup n = if v.isNone then none else some v := by
      rw [he' n (by simp [Fields.names]), entry_lookup hnone]
    rw [ExactPFields]
    refine ⟨⟨fun w hw => ?_, fun hl => ?_⟩, toDict_exactPFields rest hnd.2 hs.2 ms r hw2 h2 e' fun k hk => by
      rw [he' k (by simp [Fields.names, hk]), entry_lookup_ne v r (by rintro rfl; exact hnd.1 hk)]⟩
    · rw [hn] at hw
      split at hw
      · cases hw
      · cases hw
        exact toDict_exactP s hs.1 false m v hw1 h1
    · rw [hn] at hl
      split at hl
      · rename_i hv
        rw [isNone_iff.1 hv] at h1
        exact scalar_of_none hw1 h1
      · cases hl
end

mutual
theorem fromDict_peek : (s : Schema) → Distinct s → Fresh s → ∀ (b : Bool) (m : M) (x y : Val), WT s b m → (b = false ∨ s ≠ .scalar) →
    peek s m = x → ExactP s y → ∃ m', fromDict s m y = .ok m' ∧ WT s b m' ∧ toDict s m' = .ok (merge s x y)
  | .scalar, _, _, b, m, x, y, hw, hb, hx, hy => by
    have : b = false := by rcases hb with h | h; exacts [h, absurd rfl h]
    subst this
    rw [WT] at hw
    obtain ⟨v, rfl⟩ := hw
    exact ⟨.field y, rfl, ⟨y, rfl⟩, rfl⟩
  | .double, _, _, b, m, x, y, hw, _, _, _ => by simp [WT] at hw
  | .record fs, hs, hf, b, m, x, y, hw, _, hx, hy => by
    rw [WT] at hw
    rw [Distinct] at hs
    rw [ExactP] at hy
    rw [Fresh] at hf
    obtain ⟨ms, rfl, hw⟩ := hw
    obtain ⟨d, rfl, hy⟩ := hy
    rw [peek] at hx
    subst hx
    obtain ⟨ms', h2, h3, h4⟩ := fromDict_peekFields fs hs.1 hs.2 hf ms (peekFields fs ms) d hw rfl hy
    refine ⟨.record ms', by simp only [fromDict, h2, Except.map], by rw [WT]; exact ⟨ms', rfl, h3⟩, ?_⟩
    simp only [toDict, h4 _ (fun n _ => rfl), Except.map, merge, Val.entries]
  | .array s, hs, hf, b, m, x, y, hw, _, hx, hy => by
    rw [WT] at hw
    rw [Distinct] at hs
    rw [ExactP] at hy
    rw [Fresh] at hf
    obtain ⟨items, tr, nx, rfl, hw⟩ := hw
    obtain ⟨vs, rfl, hy⟩ := hy
    rw [peek] at hx
    subst hx
    by_cases hsc : s = .scalar
    · subst hsc
      obtain rfl : vs = [] := by
        by_contra hne
        obtain ⟨v, hv⟩ := List.exists_mem_of_ne_nil _ hne
        exact (hy v hv).1 rfl
      refine ⟨.array [] tr nx, ?_, ?_, ?_⟩
      · simp [fromDict, adjust, Except.bind, Except.map, pure, Except.pure]
      · rw [WT]
        exact ⟨[], tr, nx, rfl, by simp⟩
      · simp [toDict, merge, mergeList, Val.elems, Except.map, pure, Except.pure]
    obtain ⟨m0, h2, h3⟩ := build_expect s .none .none hf.1 true (.inr hsc)
    have h3' : peek s m0 = expect s .none .none := peek_of_toDict s m0 _ h3
    set os : List Val := items.map fun p => peek s p.2 with hosdef
    obtain ⟨items', nx', h4, h5, h6⟩ := adjust_ok (n := vs.length) (items := items) (next := nx) h2
    have hos : os.length = items.length := by rw [hosdef, List.length_map]
    -- the adjusted items
    have hadj : ∀ (i : Nat) (m : M), (items'.map Prod.snd)[i]? = some m → WT s true m ∧
        peek s m = os[i]?.getD (expect s .none .none) := by
      intro i m hm
      have hi : i < vs.length := by
        have := (List.getElem?_eq_some_iff.1 hm).1
        simpa [h5] using this
      rw [h6] at hm
      by_cases hlt : i < items.length
      · rw [List.getElem?_append_left (by simp; omega), List.getElem?_take_of_lt hi] at hm
        rw [List.getElem?_map, Option.map_eq_some_iff] at hm
        obtain ⟨p, hp, rfl⟩ := hm
        refine ⟨hw p (List.mem_of_getElem? hp), ?_⟩
        rw [hosdef, List.getElem?_map, hp]
        rfl
      · rw [List.getElem?_append_right (by simp; omega)] at hm
        have hm0 := List.eq_of_mem_replicate (List.mem_of_getElem? hm)
        subst hm0
        refine ⟨build_WT s true _ _ _ h2, ?_⟩
        rw [List.getElem?_eq_none (by omega)]
        exact h3'
    obtain ⟨l, h7, h8, h9⟩ := mapM_zip s (fun m v m' => WT s true m' ∧ toDict s m' = .ok (merge s (peek s m) v))
      items' vs h5 (fun i m hm v hv => by
        obtain ⟨hwt, htd⟩ := hadj i m hm
        obtain ⟨m', ha, hb, hc⟩ := fromDict_peek s hs hf.2 true m _ v hwt (.inr hsc) rfl (hy v (List.mem_of_getElem? hv)).2
        exact ⟨m', ha, hb, hc⟩)
    have hget : ∀ (i : Nat) (m' : M), (l.map Prod.snd)[i]? = some m' → ∃ m v, (items'.map Prod.snd)[i]? = some m ∧ vs[i]? = some v := by
      intro i m' hm'
      have hi : i < vs.length := by
        have := (List.getElem?_eq_some_iff.1 hm').1
        simpa [h8] using this
      have hi' : i < (items'.map Prod.snd).length := by simpa [h5] using hi
      exact ⟨_, _, List.getElem?_eq_getElem hi', List.getElem?_eq_getElem hi⟩
    refine ⟨.array l tr nx', ?_, ?_, ?_⟩
    · simp only [fromDict, h4, Except.bind, h7]
      rfl
    · rw [WT]
      refine ⟨l, tr, nx', rfl, fun p hp => ?_⟩
      obtain ⟨i, hi⟩ := List.getElem?_of_mem (List.mem_map_of_mem (f := Prod.snd) hp)
      obtain ⟨m, v, hm, hv⟩ := hget i _ hi
      exact (h9 i m v _ hm hv hi).1
    · rw [toDict_array]
      have : (l.map Prod.snd).mapM (fun m => toDict s m) = .ok (mergeList (fun o v => merge s o v) (expect s .none .none) os vs) := by
        apply mapM_of_forall₂
        rw [List.forall₂_iff_get]
        refine ⟨by simp [h8, mergeList_length], fun i hi hi' => ?_⟩
        have hm' : (l.map Prod.snd)[i]? = some ((l.map Prod.snd).get ⟨i, hi⟩) := List.getElem?_eq_getElem hi
        obtain ⟨m, v, hm, hv⟩ := hget i _ hm'
        obtain ⟨_, hd⟩ := h9 i m v _ hm hv hm'
        rw [hd]
        have h10 := mergeList_get (fun o v => merge s o v) (expect s .none .none) os vs i v hv
        have h11 := (hadj i m hm).2
        rw [← h11] at h10
        rw [List.getElem?_eq_getElem hi', Option.some.injEq] at h10
        simp only [List.get_eq_getElem, h10]
      rw [this]
      simp only [Except.map, merge, Val.elems]
theorem fromDict_peekFields : (fs : Fields) → fs.names.Nodup → DistinctFields fs → FreshFields fs → ∀ ms e d, WTFields fs ms →
    peekFields fs ms = e → ExactPFields fs d →
    ∃ ms', fromDictFields fs ms d = .ok ms' ∧ WTFields fs ms' ∧
      ∀ e' : List (String × Val), (∀ n ∈ fs.names, e'.lookup n = e.lookup n) → toDictFields fs ms' = .ok (mergeFields fs e' d)
  | .nil, _, _, _, ms, e, d, hw, _, _ => by
    refine ⟨ms, by simp [fromDictFields], hw, fun e' _ => ?_⟩
    rw [toDictFields, mergeFields]
    intros; simp_all
  | .cons n dv s rest, hnd, hs, hf, ms, e, d, hw, he, hd => by
    rw [WTFields] at hw
    rw [DistinctFields] at hs
    rw [FreshFields] at hf
    rw [ExactPFields] at hd
    rw [Fields.names, List.nodup_cons] at hnd
    obtain ⟨m, ms, rfl, hw1, hw2⟩ := hw
    rw [peekFields] at he
    subst he
    set r := peekFields rest ms with hr0
    set v := peek s m with hv0
    have hnone : r.lookup n = none := lookup_peekFields n rest ms hnd.1
    obtain ⟨ms', h3, h4, h5⟩ := fromDict_peekFields rest hnd.2 hs.2 hf.2 ms r d hw2 rfl hd.2
    have hstep : ∃ m', (∀ w, d.lookup n = some w → fromDict s m w = .ok m' ∧ toDict s m' = .ok (merge s v w)) ∧
        (d.lookup n = none → m' = m ∧ toDict s m' = .ok v) ∧ WT s false m' := by
      cases hl : d.lookup n with
      | none =>
        refine ⟨m, by simp, fun _ => ⟨rfl, ?_⟩, hw1⟩
        obtain rfl := hd.1.2 hl
        rw [WT] at hw1
        obtain ⟨w, rfl⟩ := hw1
        rfl
      | some w =>
        obtain ⟨m', ha, hb, hc⟩ := fromDict_peek s hs.1 hf.1 false m v w hw1 (.inl rfl) rfl (hd.1.1 w hl)
        exact ⟨m', by simpa using ⟨ha, hc⟩, by simp, hb⟩
    obtain ⟨m', h6, h6', h7⟩ := hstep
    refine ⟨m' :: ms', ?_, by rw [WTFields]; exact ⟨m', ms', rfl, h7, h4⟩, fun e' he' => ?_⟩
    · rw [fromDictFields, h3]
      cases hl : d.lookup n with
      | none => rw [(h6' hl).1]; rfl
      | some w => simp only [(h6 w hl).1]; rfl
    · have hr : ∀ k ∈ rest.names, e'.lookup k = r.lookup k := fun k hk => by
        rw [he' k (by simp [Fields.names, hk]), entry_lookup_ne v r (by rintro rfl; exact hnd.1 hk)]
      have hget : getVal e' n = v := by
        rw [getVal, he' n (by simp [Fields.names]), entry_lookup hnone]
        split
        · rename_i hv
          rw [isNone_iff.1 hv]; rfl
        · rfl
      rw [toDictFields, h5 e' hr]
      cases hl : d.lookup n with
      | none => simp only [(h6' hl).2, Except.bind, Except.map, mergeFields, hget, entry, hl]
      | some w => simp only [(h6 w hl).2, Except.bind, Except.map, mergeFields, hget, entry, hl]
end

/-- C53, exactly: `m.copy_from(other)` succeeds if and only if no array of `other` has plain values (whatever the arrays of `m`
have), and then gives the values of `m` updated by those of `other`. (Partial: other models cannot be copied from.) -/
theorem C53_iff_partial (s : Schema) (hs : Distinct s) (hf : Fresh s) (m other : M) (hm : WT s false m) (ho : WT s false other) :
    ((∃ m', copyFrom s m other = .ok m') ↔ Plainless s other) ∧
      ∀ m', copyFrom s m other = .ok m' → WT s false m' ∧ toDict s m' = .ok (merge s (peek s m) (peek s other)) := by
  have h := toDict_iff s false other ho
  simp only [true_or, true_and] at h
  have key : ∀ y, toDict s other = .ok y → ∃ m', copyFrom s m other = .ok m' ∧ WT s false m' ∧
      toDict s m' = .ok (merge s (peek s m) (peek s other)) := by
    intro y hy
    obtain ⟨m', h1, h2, h3⟩ := fromDict_peek s hs hf false m _ y hm (.inl rfl) rfl (toDict_exactP s hs false other y ho hy)
    exact ⟨m', by simp only [copyFrom, hy, Except.bind, h1], h2, by rw [peek_of_toDict s other y hy]; exact h3⟩
  have hok : ∀ m', copyFrom s m other = .ok m' → ∃ y, toDict s other = .ok y := by
    intro m' hm'
    rw [copyFrom] at hm'
    rcases h1 : toDict s other with x | y
    · rw [h1] at hm'; cases hm'
    · exact ⟨y, rfl⟩
  refine ⟨⟨fun ⟨m', hm'⟩ => h.1 (hok m' hm'), fun hp => ?_⟩, fun m' hm' => ?_⟩
  · obtain ⟨y, hy⟩ := h.2 hp
    obtain ⟨m', h1, _⟩ := key y hy
    exact ⟨m', h1⟩
  · obtain ⟨y, hy⟩ := hok m' hm'
    obtain ⟨m'', h1, h2⟩ := key y hy
    rw [hm'] at h1
    cases h1
    exact h2

mutual
/-- What is `None` in the model with value `y` is `None` in the model with value `x`, items of arrays which `x` does not have being
new ones. -/
def Over : Schema → Val → Val → Prop
  | .scalar, _, _ => True
  | .double, _, _ => True
  | .record fs, x, y => OverFields fs x.entries y.entries
  | .array s, x, y => ∀ (i : Nat) (v : Val), y.elems[i]? = some v → Over s (x.elems[i]?.getD (expect s .none .none)) v
def OverFields : Fields → List (String × Val) → List (String × Val) → Prop
  | .nil, _, _ => True
  | .cons n _ s rest, x, y =>
    ((y.lookup n = none → getVal x n = .none) ∧ ∀ v, y.lookup n = some v → Over s (getVal x n) v) ∧ OverFields rest x y
end

theorem lookup_mergeFields (n : String) : ∀ (fs : Fields) (x y : List (String × Val)), n ∉ fs.names →
    (mergeFields fs x y).lookup n = none
  | .nil, _, _, _ => rfl
  | .cons k d s rest, x, y, hn => by
    simp only [Fields.names, List.mem_cons, not_or] at hn
    rw [mergeFields, entry_lookup_ne _ _ hn.1]
    exact lookup_mergeFields n rest x y hn.2

mutual
theorem merge_eq : (s : Schema) → Distinct s → ∀ (b : Bool) (o : M) (x y : Val), WT s b o → toDict s o = .ok y →
    (merge s x y = y ↔ Over s x y)
  | .scalar, _, b, o, x, y, _, _ => by simp [merge, Over]
  | .double, _, b, o, x, y, hw, _ => by simp [WT] at hw
  | .record fs, hs, b, o, x, y, hw, h => by
    rw [WT] at hw
    rw [Distinct] at hs
    obtain ⟨ms, rfl, hw⟩ := hw
    rw [toDict] at h
    rcases h1 : toDictFields fs ms with z | e
    · rw [h1] at h; cases h
    rw [h1] at h
    simp only [Except.map, Except.ok.injEq] at h
    subst h
    rw [merge, Over, Val.dict.injEq]
    exact merge_eqFields fs hs.1 hs.2 ms _ e hw h1 e fun _ _ => rfl
  | .array s, hs, b, o, x, y, hw, h => by
    rw [WT] at hw
    rw [Distinct] at hs
    obtain ⟨items, tr, nx, rfl, hw⟩ := hw
    rw [toDict_array] at h
    rcases h1 : (items.map Prod.snd).mapM (fun m => toDict s m) with z | vs
    · rw [h1] at h; cases h
    rw [h1] at h
    simp only [Except.map, Except.ok.injEq] at h
    subst h
    rw [merge, Over, Val.list.injEq, Val.elems]
    have ih : ∀ (i : Nat) (v : Val), vs[i]? = some v → ∀ x', (merge s x' v = v ↔ Over s x' v) := by
      intro i v hi x'
      have hlt : i < (items.map Prod.snd).length := by
        have := (List.getElem?_eq_some_iff.1 hi).1
        have := mapM_length h1
        omega
      have hm := List.getElem?_eq_getElem hlt
      obtain ⟨y, hy, ht⟩ := mapM_get h1 hm
      rw [hi] at hy
      cases hy
      obtain ⟨p, hp, hpe⟩ := List.mem_map.1 (List.mem_of_getElem? hm)
      rw [← hpe] at ht
      exact merge_eq s hs true p.2 x' v (hw p hp) ht
    constructor
    · intro h i v hi
      have h2 := mergeList_get (fun o v => merge s o v) (expect s .none .none) x.elems vs i v hi
      rw [← ih i v hi]
      rw [h, hi, Option.some.injEq] at h2
      exact h2.symm
    · intro h
      apply List.ext_getElem?
      intro i
      rcases hi : vs[i]? with _ | v
      · rw [List.getElem?_eq_none_iff] at hi ⊢
        rw [mergeList_length]
        exact hi
      · rw [mergeList_get _ _ _ _ i v hi, Option.some.injEq, ih i v hi]
        exact h i v hi
theorem merge_eqFields : (fs : Fields) → fs.names.Nodup → DistinctFields fs → ∀ (ms : List M) (x e : List (String × Val)),
    WTFields fs ms → toDictFields fs ms = .ok e → ∀ e' : List (String × Val), (∀ n ∈ fs.names, e'.lookup n = e.lookup n) →
    (mergeFields fs x e' = e ↔ OverFields fs x e')
  | .nil, _, _, ms, x, e, hw, he, e', _ => by
    rw [WTFields] at hw
    subst hw
    simp only [toDictFields, Except.ok.injEq] at he
    subst he
    simp [mergeFields, OverFields]
  | .cons n d s rest, hnd, hs, ms, x, e, hw, he, e', he' => by
    rw [WTFields] at hw
    rw [DistinctFields] at hs
    rw [Fields.names, List.nodup_cons] at hnd
    obtain ⟨m, ms, rfl, hw1, hw2⟩ := hw
    obtain ⟨v, r, h1, h2, rfl⟩ := toDictFields_cons he
    have hnone : r.lookup n = none := lookup_toDictFields n rest ms r hnd.1 h2
    have hn : e'.lookup n = if v.isNone then none else some v := by
      rw [he' n (by simp [Fields.names]), entry_lookup hnone]
    have ih := merge_eqFields rest hnd.2 hs.2 ms x r hw2 h2 e' fun k hk => by
      rw [he' k (by simp [Fields.names, hk]), entry_lookup_ne v r (by rintro rfl; exact hnd.1 hk)]
    rw [mergeFields, OverFields, ← ih]
    have hsplit : ∀ w, entry n w (mergeFields rest x e') = entry n v r ↔ w = v ∧ mergeFields rest x e' = r := by
      intro w
      constructor
      · exact entry_inj (lookup_mergeFields n rest x e' hnd.1) hnone
      · rintro ⟨rfl, h⟩; rw [h]
    rw [hsplit]
    apply and_congr_left'
    by_cases hv : v = .none
    · subst hv
      rw [hn, if_pos (isNone_iff.2 rfl)]
      simp
    · rw [hn, if_neg (by rwa [isNone_iff])]
      simp only [merge_eq s hs.1 false m (getVal x n) v hw1 h1]
      simp
end

/-- C53, exactly: after `m.copy_from(other)` the models have the same values if and only if what is `None` in `other` is `None` in
`m` (in the items new in `m`: has no default). (Partial: other models keep some of their values.) -/
theorem C53_same_iff_partial (s : Schema) (hs : Distinct s) (hf : Fresh s) (m other m' : M) (hm : WT s false m)
    (ho : WT s false other) (h : copyFrom s m other = .ok m') :
    toDict s m' = toDict s other ↔ Over s (peek s m) (peek s other) := by
  obtain ⟨-, h2⟩ := C53_iff_partial s hs hf m other hm ho
  obtain ⟨-, h3⟩ := h2 m' h
  have hy : ∃ y, toDict s other = .ok y := by
    rw [copyFrom] at h
    rcases h1 : toDict s other with x | y
    · rw [h1] at h; cases h
    · exact ⟨y, rfl⟩
  obtain ⟨y, hy⟩ := hy
  rw [h3, hy, peek_of_toDict s other y hy, Except.ok.injEq]
  exact merge_eq s hs false other _ y ho hy

/-- a record with an array of plain values: copying from an empty one works, the other way round raises -/
example :
    let s : Schema := .record (.cons "l" .none (.array .scalar) (.cons "x" .none .scalar .nil))
    let full : M := .record [.array [(0, .plain (.atom 1))] [0] 1, .field (.atom 7)]
    let empty : M := .record [.array [] [] 0, .field .none]
    Distinct s ∧ Fresh s ∧ WT s false full ∧ WT s false empty ∧ Plainless s empty ∧ ¬ Plainless s full ∧
      copyFrom s full empty = .ok (.record [.array [] [0] 1, .field (.atom 7)]) ∧ copyFrom s empty full = .error .attributeError ∧
      ¬ Over s (peek s full) (peek s empty) := by
  refine ⟨by simp [Distinct, DistinctFields, Fields.names], by simp [Fresh, FreshFields, Fits], by simp [WT, WTFields], by simp [WT, WTFields],
    by simp [Plainless, PlainlessFields], by simp [Plainless, PlainlessFields], rfl, rfl, ?_⟩
  simp [Over, OverFields, peek, peekFields, entry, Val.isNone, Val.entries, List.lookup, getVal]

end Verif.Structured
