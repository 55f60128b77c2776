import Verif.Structured.Values

/-!
C53: `copy_from` and `from_dict_value`. Also: built models have the shape of their schema.
-/

namespace Verif.Structured

open Verif.Py

/-! ### Specification -/

/-- Items of `old` are updated with those of `new`, missing ones are made from `fresh`; the length is that of `new`. -/
def mergeList (f : Val → Val → Val) (fresh : Val) : List Val → List Val → List Val
  | _, [] => []
  | [], v :: vs => f fresh v :: mergeList f fresh [] vs
  | o :: os, v :: vs => f o v :: mergeList f fresh os vs

mutual
/-- The value after `old` has been updated with `new`: fields absent in `new` keep their value. -/
def merge : Schema → Val → Val → Val
  | .scalar, _, new | .double, _, new => new
  | .record fs, old, new => .dict (mergeFields fs old.entries new.entries)
  | .array s, old, new => .list (mergeList (fun o v => merge s o v) (expect s .none .none) old.elems new.elems)
def mergeFields : Fields → List (String × Val) → List (String × Val) → List (String × Val)
  | .nil, _, _ => []
  | .cons n _ s rest, old, new =>
    entry n (match new.lookup n with
      | some v => merge s (getVal old n) v
      | none => getVal old n) (mergeFields rest old new)
end

mutual
/-- The value has exactly the kind of the schema (fields may be missing). -/
def Exact : Schema → Val → Prop
  | .scalar, _ => True
  | .double, _ => False
  | .record fs, v => ∃ d, v = .dict d ∧ ExactFields fs d
  | .array s, v => ∃ l, v = .list l ∧ ∀ x ∈ l, Exact s x
def ExactFields : Fields → List (String × Val) → Prop
  | .nil, _ => True
  | .cons n _ s rest, d => (∀ v, d.lookup n = some v → Exact s v) ∧ ExactFields rest d
end

mutual
/-- An item of every array in the schema can be built without values, no default of a record being in conflict with a default
of one of its fields. -/
def Fresh : Schema → Prop
  | .scalar => True
  | .double => True
  | .record fs => FreshFields fs
  | .array s => Fits s .none .none ∧ Fresh s
def FreshFields : Fields → Prop
  | .nil => True
  | .cons _ _ s rest => Fresh s ∧ FreshFields rest
end

/-! ### Built models have the shape of the schema -/

mutual
theorem build_WT : (s : Schema) → ∀ (b : Bool) (d v : Val) (m : M), build s b d v = .ok m → WT s b m
  | .scalar, b, d, v, m, h => by
    simp only [build, Except.ok.injEq] at h
    subst h
    cases b
    · exact ⟨_, rfl⟩
    · exact ⟨_, rfl⟩
  | .double, b, d, v, m, h => by simp [build] at h
  | .record fs, b, d, v, m, h => by
    rw [build] at h
    rcases h1 : asDict d with x | a
    · rw [h1] at h; cases h
    rcases h2 : asDict v with x | e
    · rw [h1, h2] at h; cases h
    rcases h3 : buildFields fs (e ++ a) with x | ms
    · rw [h1, h2] at h; simp only [Except.bind, h3, Except.map] at h; cases h
    rw [h1, h2] at h
    simp only [Except.bind, h3, Except.map, Except.ok.injEq] at h
    rw [WT]
    exact ⟨ms, h.symm, build_WTFields fs _ ms h3⟩
  | .array s, b, d, v, m, h => by
    rw [build] at h
    rcases h1 : asList (v.orElse d) with x | l
    · rw [h1] at h; cases h
    rw [h1] at h
    rcases h2 : l.mapM (fun x => build s true .none x) with x | ms
    · simp only [Except.bind, h2, Except.map] at h; cases h
    simp only [Except.bind, h2, Except.map, Except.ok.injEq] at h
    rw [WT]
    refine ⟨_, _, _, h.symm, fun p hp => ?_⟩
    have h3 := forall₂_of_mapM h2
    have h4 : List.Forall₂ (fun (_ : Val) m => WT s true m) l ms := h3.imp fun x m hm => build_WT s true _ x m hm
    exact forall₂_right h4 _ (List.of_mem_zip (a := p.1) (b := p.2) hp).2
theorem build_WTFields : (fs : Fields) → ∀ (e : List (String × Val)) (ms : List M), buildFields fs e = .ok ms → WTFields fs ms
  | .nil, e, ms, h => by simp only [buildFields, Except.ok.injEq] at h; rw [WTFields, h]
  | .cons n d s rest, e, ms, h => by
    rw [buildFields] at h
    rcases h1 : build s false d (getVal e n) with x | m
    · rw [h1] at h; cases h
    rcases h2 : buildFields rest e with x | ms'
    · rw [h1, h2] at h; cases h
    rw [h1, h2] at h
    simp only [Except.bind, Except.map, Except.ok.injEq] at h
    rw [WTFields]
    exact ⟨m, ms', h.symm, build_WT s _ _ _ m h1, build_WTFields rest e ms' h2⟩
end

/-! ### `to_dict_value` of a model with the shape of the schema -/

mutual
theorem toDict_exact : (s : Schema) → Deep s → ∀ (b : Bool) (m : M), WT s b m → (b = false ∨ s ≠ .scalar) →
    ∃ v, toDict s m = .ok v ∧ Exact s v
  | .scalar, _, b, m, hw, hb => by
    have : b = false := by rcases hb with h | h; exacts [h, absurd rfl h]
    subst this
    rw [WT] at hw
    obtain ⟨v, rfl⟩ := hw
    exact ⟨v, rfl, trivial⟩
  | .double, _, b, m, hw, _ => by simp [WT] at hw
  | .record fs, hs, b, m, hw, _ => by
    rw [WT] at hw
    rw [Deep] at hs
    obtain ⟨ms, rfl, hw⟩ := hw
    obtain ⟨e, he, hx⟩ := toDict_exactFields fs hs.1 hs.2 ms hw
    exact ⟨.dict e, by simp only [toDict, he, Except.map], by rw [Exact]; exact ⟨e, rfl, hx e fun n _ => rfl⟩⟩
  | .array s, hs, b, m, hw, _ => by
    rw [WT] at hw
    rw [Deep] at hs
    obtain ⟨items, tr, nx, rfl, hw⟩ := hw
    obtain ⟨vs, hvs, hr⟩ := mapM_ex (f := fun m => toDict s m) (items.map Prod.snd) (fun _ v => Exact s v)
      (fun m hm => by
        obtain ⟨p, hp, rfl⟩ := List.mem_map.1 hm
        exact toDict_exact s hs.2 true p.2 (hw p hp) (.inr hs.1))
    exact ⟨.list vs, by rw [toDict_array, hvs]; rfl, by rw [Exact]; exact ⟨vs, rfl, forall₂_right hr⟩⟩
theorem toDict_exactFields : (fs : Fields) → fs.names.Nodup → DeepFields fs → ∀ ms, WTFields fs ms →
    ∃ e, toDictFields fs ms = .ok e ∧ ∀ e' : List (String × Val), (∀ n ∈ fs.names, e'.lookup n = e.lookup n) → ExactFields fs e'
  | .nil, _, _, ms, _ => ⟨[], by simp [toDictFields], fun e' _ => trivial⟩
  | .cons n d s rest, hnd, hs, ms, hw => by
    rw [WTFields] at hw
    rw [DeepFields] at hs
    rw [Fields.names, List.nodup_cons] at hnd
    obtain ⟨m, ms, rfl, hw1, hw2⟩ := hw
    obtain ⟨v, h1, h2⟩ := toDict_exact s hs.1 false m hw1 (.inl rfl)
    obtain ⟨r, h3, h4⟩ := toDict_exactFields rest hnd.2 hs.2 ms hw2
    refine ⟨if v.isNone then r else (n, v) :: r, by simp only [toDictFields, h1, h3, Except.bind, Except.map], fun e' he' => ?_⟩
    have hnone : r.lookup n = none := lookup_toDictFields n rest ms r hnd.1 h3
    rw [ExactFields]
    refine ⟨fun w hw => ?_, h4 e' fun k hk => ?_⟩
    · rw [he' n (by simp [Fields.names])] at hw
      split at hw
      · rw [hnone] at hw; cases hw
      · simp [List.lookup] at hw
        exact hw ▸ h2
    · rw [he' k (by simp [Fields.names, hk])]
      split
      · rfl
      · rw [List.lookup_cons, show (k == n) = false by simpa using fun (h : k = n) => hnd.1 (h ▸ hk)]
end

/-! ### C53 -/

theorem adjust_ok {n : Nat} {m0 : M} {items : List (Nat × M)} {next : Nat} {new : Except Exc M} (h : new = .ok m0) :
    ∃ items' next', adjust n new items next = .ok (items', next') ∧ items'.length = n ∧
      items'.map Prod.snd = (items.map Prod.snd).take n ++ List.replicate (n - items.length) m0 := by
  unfold adjust
  split
  · rename_i hn
    refine ⟨_, _, rfl, by simp [hn], ?_⟩
    rw [Nat.sub_eq_zero_of_le hn]
    simp [List.map_take]
  · rename_i hn
    refine ⟨_, _, by rw [h]; rfl, by simp; omega, ?_⟩
    rw [List.take_of_length_le (by simp; omega)]
    simp [List.map_append, Function.comp_def]

/-- `fromDict` for the zipped items in terms of the models only. -/
theorem mapM_zip (s : Schema) (R : M → Val → M → Prop) : ∀ (items : List (Nat × M)) (vs : List Val), items.length = vs.length →
    (∀ (i : Nat) (m : M), (items.map Prod.snd)[i]? = some m → ∀ v, vs[i]? = some v → ∃ m', fromDict s m v = .ok m' ∧ R m v m') →
    ∃ l : List (Nat × M), ((items.zip vs).mapM fun p => (fromDict s p.1.2 p.2).map fun m => (p.1.1, m)) = .ok l ∧
      l.length = vs.length ∧
      ∀ (i : Nat) (m : M) (v : Val) (m' : M), (items.map Prod.snd)[i]? = some m → vs[i]? = some v → (l.map Prod.snd)[i]? = some m' → R m v m'
  | [], [], _, _ => ⟨[], rfl, rfl, by simp⟩
  | p :: items, v :: vs, hl, h => by
    obtain ⟨m', h1, h2⟩ := h 0 p.2 rfl v rfl
    obtain ⟨l, h3, h4, h5⟩ := mapM_zip s R items vs (by simpa using hl)
      (fun i m hm w hw => h (i + 1) m (by simpa using hm) w (by simpa using hw))
    refine ⟨(p.1, m') :: l, ?_, by simp [h4], fun i m w n hm hw hn => ?_⟩
    · rw [List.zip_cons_cons, List.mapM_cons, h1, h3]; rfl
    · cases i with
      | zero =>
        simp at hm hw hn
        subst hm; subst hw; subst hn
        exact h2
      | succ i => exact h5 i m w n (by simpa using hm) (by simpa using hw) (by simpa using hn)
  | [], _ :: _, hl, _ => by simp at hl
  | _ :: _, [], hl, _ => by simp at hl

theorem mergeList_length (f : Val → Val → Val) (z : Val) : ∀ os vs, (mergeList f z os vs).length = vs.length
  | _, [] => by cases ‹List Val› <;> rfl
  | [], v :: vs => by simp [mergeList, mergeList_length f z [] vs]
  | o :: os, v :: vs => by simp [mergeList, mergeList_length f z os vs]

theorem mergeList_get (f : Val → Val → Val) (z : Val) : ∀ (os vs : List Val) (i : Nat) (v : Val), vs[i]? = some v →
    (mergeList f z os vs)[i]? = some (f (os[i]?.getD z) v)
  | _, [], i, v, h => by simp at h
  | [], w :: vs, 0, v, h => by simp at h; simp [mergeList, h]
  | [], w :: vs, i + 1, v, h => by
    have := mergeList_get f z [] vs i v (by simpa using h)
    simpa [mergeList] using this
  | o :: os, w :: vs, 0, v, h => by simp at h; simp [mergeList, h]
  | o :: os, w :: vs, i + 1, v, h => by
    have := mergeList_get f z os vs i v (by simpa using h)
    simpa [mergeList] using this

theorem mapM_get {α β : Type} {f : α → Except Exc β} {l : List α} {ys : List β} (h : l.mapM f = .ok ys) {i : Nat} {x : α}
    (hx : l[i]? = some x) : ∃ y, ys[i]? = some y ∧ f x = .ok y := by
  replace h := forall₂_of_mapM h
  induction h generalizing i with
  | nil => simp at hx
  | cons h _ ih =>
    cases i with
    | zero => simp at hx; subst hx; exact ⟨_, rfl, h⟩
    | succ i => simpa using ih (by simpa using hx)

theorem mapM_length {α β : Type} {f : α → Except Exc β} {l : List α} {ys : List β} (h : l.mapM f = .ok ys) :
    ys.length = l.length := (forall₂_of_mapM h).length_eq.symm

mutual
theorem fromDict_merge : (s : Schema) → Deep s → Fresh s → ∀ (b : Bool) (m : M) (x y : Val), WT s b m → (b = false ∨ s ≠ .scalar) →
    toDict s m = .ok x → Exact s y → ∃ m', fromDict s m y = .ok m' ∧ WT s b m' ∧ toDict s m' = .ok (merge s x y)
  | .scalar, _, _, b, m, x, y, hw, hb, hx, hy => by
    have : b = false := by rcases hb with h | h; exacts [h, absurd rfl h]
    subst this
    rw [WT] at hw
    obtain ⟨v, rfl⟩ := hw
    exact ⟨.field y, rfl, ⟨y, rfl⟩, rfl⟩
  | .double, _, _, b, m, x, y, hw, _, _, _ => by simp [WT] at hw
  | .record fs, hs, hf, b, m, x, y, hw, _, hx, hy => by
    rw [WT] at hw
    rw [Deep] at hs
    rw [Exact] at hy
    rw [Fresh] at hf
    obtain ⟨ms, rfl, hw⟩ := hw
    obtain ⟨d, rfl, hy⟩ := hy
    rcases h1 : toDictFields fs ms with e | e
    · rw [toDict, h1] at hx; cases hx
    rw [toDict, h1] at hx
    simp only [Except.map, Except.ok.injEq] at hx
    subst hx
    obtain ⟨ms', h2, h3, h4⟩ := fromDict_mergeFields fs hs.1 hs.2 hf ms e d hw h1 hy
    refine ⟨.record ms', by simp only [fromDict, h2, Except.map], by rw [WT]; exact ⟨ms', rfl, h3⟩, ?_⟩
    simp only [toDict, h4 e (fun n _ => rfl), Except.map, merge, Val.entries]
  | .array s, hs, hf, b, m, x, y, hw, _, hx, hy => by
    rw [WT] at hw
    rw [Deep] at hs
    rw [Exact] at hy
    rw [Fresh] at hf
    obtain ⟨items, tr, nx, rfl, hw⟩ := hw
    obtain ⟨vs, rfl, hy⟩ := hy
    rw [toDict_array] at hx
    rcases h1 : (items.map Prod.snd).mapM (fun m => toDict s m) with e | os
    · rw [h1] at hx; cases hx
    rw [h1] at hx
    simp only [Except.map, Except.ok.injEq] at hx
    subst hx
    obtain ⟨m0, h2, h3⟩ := build_expect s .none .none hf.1 true (.inr hs.1)
    obtain ⟨items', nx', h4, h5, h6⟩ := adjust_ok (n := vs.length) (items := items) (next := nx) h2
    have hos : os.length = items.length := by rw [mapM_length h1, List.length_map]
    -- the adjusted items
    have hadj : ∀ (i : Nat) (m : M), (items'.map Prod.snd)[i]? = some m → WT s true m ∧
        toDict s m = .ok (os[i]?.getD (expect s .none .none)) := by
      intro i m hm
      have hi : i < vs.length := by
        have := (List.getElem?_eq_some_iff.1 hm).1
        simpa [h5] using this
      rw [h6] at hm
      by_cases hlt : i < items.length
      · rw [List.getElem?_append_left (by simp; omega), List.getElem?_take_of_lt hi] at hm
        obtain ⟨o, ho, hto⟩ := mapM_get h1 hm
        refine ⟨?_, by rw [ho]; exact hto⟩
        obtain ⟨p, hp, rfl⟩ := List.mem_map.1 (List.mem_of_getElem? hm)
        exact hw p hp
      · rw [List.getElem?_append_right (by simp; omega)] at hm
        have hm0 := List.eq_of_mem_replicate (List.mem_of_getElem? hm)
        subst hm0
        refine ⟨build_WT s true _ _ _ h2, ?_⟩
        rw [List.getElem?_eq_none (by omega)]
        exact h3
    obtain ⟨l, h7, h8, h9⟩ := mapM_zip s (fun m v m' => WT s true m' ∧ ∃ o, toDict s m = .ok o ∧ toDict s m' = .ok (merge s o v))
      items' vs h5 (fun i m hm v hv => by
        obtain ⟨hwt, htd⟩ := hadj i m hm
        obtain ⟨m', ha, hb, hc⟩ := fromDict_merge s hs.2 hf.2 true m _ v hwt (.inr hs.1) htd (hy v (List.mem_of_getElem? hv))
        exact ⟨m', ha, hb, _, htd, hc⟩)
    have hget : ∀ (i : Nat) (m' : M), (l.map Prod.snd)[i]? = some m' → ∃ m v, (items'.map Prod.snd)[i]? = some m ∧ vs[i]? = some v := by
      intro i m' hm'
      have hi : i < vs.length := by
        have := (List.getElem?_eq_some_iff.1 hm').1
        simpa [h8] using this
      have hi' : i < (items'.map Prod.snd).length := by simpa [h5] using hi
      exact ⟨_, _, List.getElem?_eq_getElem hi', List.getElem?_eq_getElem hi⟩
    refine ⟨.array l tr nx', ?_, ?_, ?_⟩
    · simp only [fromDict, h4, Except.bind, h7]
      rfl
    · rw [WT]
      refine ⟨l, tr, nx', rfl, fun p hp => ?_⟩
      obtain ⟨i, hi⟩ := List.getElem?_of_mem (List.mem_map_of_mem (f := Prod.snd) hp)
      obtain ⟨m, v, hm, hv⟩ := hget i _ hi
      exact (h9 i m v _ hm hv hi).1
    · rw [toDict_array]
      have : (l.map Prod.snd).mapM (fun m => toDict s m) = .ok (mergeList (fun o v => merge s o v) (expect s .none .none) os vs) := by
        apply mapM_of_forall₂
        rw [List.forall₂_iff_get]
        refine ⟨by simp [h8, mergeList_length], fun i hi hi' => ?_⟩
        have hm' : (l.map Prod.snd)[i]? = some ((l.map Prod.snd).get ⟨i, hi⟩) := List.getElem?_eq_getElem hi
        obtain ⟨m, v, hm, hv⟩ := hget i _ hm'
        obtain ⟨_, o, ho, hd⟩ := h9 i m v _ hm hv hm'
        rw [hd]
        have h10 := mergeList_get (fun o v => merge s o v) (expect s .none .none) os vs i v hv
        have h11 := (hadj i m hm).2
        rw [ho] at h11
        cases h11
        rw [List.getElem?_eq_getElem hi', Option.some.injEq] at h10
        simp only [List.get_eq_getElem, h10]
      rw [this]
      simp only [Except.map, merge, Val.elems]
theorem fromDict_mergeFields : (fs : Fields) → fs.names.Nodup → DeepFields fs → FreshFields fs → ∀ ms e d, WTFields fs ms →
    toDictFields fs ms = .ok e → ExactFields fs d →
    ∃ ms', fromDictFields fs ms d = .ok ms' ∧ WTFields fs ms' ∧
      ∀ e' : List (String × Val), (∀ n ∈ fs.names, e'.lookup n = e.lookup n) → toDictFields fs ms' = .ok (mergeFields fs e' d)
  | .nil, _, _, _, ms, e, d, hw, _, _ => by
    refine ⟨ms, by simp [fromDictFields], hw, fun e' _ => ?_⟩
    rw [toDictFields, mergeFields]
    intros; simp_all
  | .cons n dv s rest, hnd, hs, hf, ms, e, d, hw, he, hd => by
    rw [WTFields] at hw
    rw [DeepFields] at hs
    rw [FreshFields] at hf
    rw [ExactFields] at hd
    rw [Fields.names, List.nodup_cons] at hnd
    obtain ⟨m, ms, rfl, hw1, hw2⟩ := hw
    rw [toDictFields] at he
    rcases h1 : toDict s m with x | v
    · rw [h1] at he; cases he
    rcases h2 : toDictFields rest ms with x | r
    · rw [h1, h2] at he; cases he
    rw [h1, h2] at he
    simp only [Except.bind, Except.map, Except.ok.injEq] at he
    subst he
    have hnone : r.lookup n = none := lookup_toDictFields n rest ms r hnd.1 h2
    obtain ⟨ms', h3, h4, h5⟩ := fromDict_mergeFields rest hnd.2 hs.2 hf.2 ms r d hw2 h2 hd.2
    have hstep : ∃ m' z, (∀ w, d.lookup n = some w → fromDict s m w = .ok m' ∧ z = merge s v w) ∧
        (d.lookup n = none → m' = m ∧ z = v) ∧ WT s false m' ∧ toDict s m' = .ok z := by
      cases hl : d.lookup n with
      | none => exact ⟨m, v, by simp, by simp, hw1, h1⟩
      | some w =>
        obtain ⟨m', ha, hb, hc⟩ := fromDict_merge s hs.1 hf.1 false m v w hw1 (.inl rfl) h1 (hd.1 w hl)
        exact ⟨m', _, by simpa using ha, by simp, hb, hc⟩
    obtain ⟨m', z, h6, h6', h7, h8⟩ := hstep
    refine ⟨m' :: ms', ?_, by rw [WTFields]; exact ⟨m', ms', rfl, h7, h4⟩, fun e' he' => ?_⟩
    · rw [fromDictFields, h3]
      cases hl : d.lookup n with
      | none => rw [(h6' hl).1]; rfl
      | some w => simp only [(h6 w hl).1]; rfl
    · have hr : ∀ k ∈ rest.names, e'.lookup k = r.lookup k := fun k hk => by
        rw [he' k (by simp [Fields.names, hk])]
        split
        · rfl
        · rw [List.lookup_cons, show (k == n) = false by simpa using fun (h : k = n) => hnd.1 (h ▸ hk)]
      have hget : getVal e' n = v := by
        rw [getVal, he' n (by simp [Fields.names])]
        split
        · rename_i hv
          rw [hnone]
          cases v <;> simp_all [Val.isNone]
        · simp [List.lookup]
      rw [toDictFields, h8, h5 e' hr]
      simp only [Except.bind, Except.map, mergeFields, hget, entry]
      cases hl : d.lookup n with
      | none => simp only [(h6' hl).2]
      | some w => simp only [(h6 w hl).2]
end

/-- C53: `from_dict_value` of a value of the kind of the schema succeeds and gives the old value updated by the new one. Missing:
arrays of plain values (`C53_counterexample`). -/
theorem C53_from_dict_partial (s : Schema) (hs : Deep s) (hf : Fresh s) (m : M) (x y : Val) (hm : WT s false m)
    (hx : toDict s m = .ok x) (hy : Exact s y) :
    ∃ m', fromDict s m y = .ok m' ∧ WT s false m' ∧ toDict s m' = .ok (merge s x y) :=
  fromDict_merge s hs hf false m x y hm (.inl rfl) hx hy

/-- C53: `m.copy_from(other)` gives the values of `m` updated by those of `other`: fields `other` does not have are unchanged. -/
theorem C53_copy_from_partial (s : Schema) (hs : Deep s) (hf : Fresh s) (m other : M) (hm : WT s false m) (ho : WT s false other) :
    ∃ x y m', toDict s m = .ok x ∧ toDict s other = .ok y ∧ copyFrom s m other = .ok m' ∧ WT s false m' ∧
      toDict s m' = .ok (merge s x y) := by
  obtain ⟨x, hx, _⟩ := toDict_exact s hs false m hm (.inl rfl)
  obtain ⟨y, hy, hy'⟩ := toDict_exact s hs false other ho (.inl rfl)
  obtain ⟨m', h1, h2, h3⟩ := C53_from_dict_partial s hs hf m x y hm hx hy'
  exact ⟨x, y, m', hx, hy, by simp only [copyFrom, hy, Except.bind, h1], h2, h3⟩

mutual
/-- No field of the model is `None`. -/
def Full : Schema → M → Prop
  | .scalar, m => ∀ v, m = .field v → v.isNone = false
  | .double, _ => True
  | .record fs, m => ∀ ms, m = .record ms → FullFields fs ms
  | .array s, m => ∀ items tr nx, m = .array items tr nx → ∀ p ∈ items, Full s p.2
def FullFields : Fields → List M → Prop
  | .nil, _ => True
  | .cons _ _ s rest, ms => ∀ m ms', ms = m :: ms' → Full s m ∧ FullFields rest ms'
end

mutual
theorem merge_full : (s : Schema) → Deep s → ∀ (b : Bool) (o : M) (x y : Val), WT s b o → Full s o → toDict s o = .ok y →
    merge s x y = y ∧ y.isNone = false
  | .scalar, _, b, o, x, y, hw, hf, hy => by
    rw [WT] at hw
    rw [Full] at hf
    cases b
    · obtain ⟨v, rfl⟩ := hw
      simp only [toDict, Except.ok.injEq] at hy
      subst hy
      exact ⟨rfl, hf v rfl⟩
    · obtain ⟨v, rfl⟩ := hw
      simp [toDict] at hy
  | .double, _, b, o, x, y, hw, hf, hy => by simp [WT] at hw
  | .record fs, hs, b, o, x, y, hw, hf, hy => by
    rw [WT] at hw
    rw [Deep] at hs
    rw [Full] at hf
    obtain ⟨ms, rfl, hw⟩ := hw
    rcases h1 : toDictFields fs ms with e | e
    · rw [toDict, h1] at hy; cases hy
    rw [toDict, h1] at hy
    simp only [Except.map, Except.ok.injEq] at hy
    subst hy
    refine ⟨?_, rfl⟩
    rw [merge, Val.entries, merge_fullFields fs hs.1 hs.2 ms _ e hw (hf ms rfl) h1 e (fun n _ => rfl)]
  | .array s, hs, b, o, x, y, hw, hf, hy => by
    rw [WT] at hw
    rw [Deep] at hs
    rw [Full] at hf
    obtain ⟨items, tr, nx, rfl, hw⟩ := hw
    have hf := hf items tr nx rfl
    rw [toDict_array] at hy
    rcases h1 : (items.map Prod.snd).mapM (fun m => toDict s m) with e | os
    · rw [h1] at hy; cases hy
    rw [h1] at hy
    simp only [Except.map, Except.ok.injEq] at hy
    subst hy
    refine ⟨?_, rfl⟩
    rw [merge, Val.elems]
    congr 1
    apply List.ext_getElem?
    intro i
    rcases hi : os[i]? with _ | v
    · rw [List.getElem?_eq_none_iff] at hi ⊢
      rw [mergeList_length]
      exact hi
    · rw [mergeList_get _ _ _ _ i v hi]
      have hlen := mapM_length h1
      have hlt : i < (items.map Prod.snd).length := by
        have := (List.getElem?_eq_some_iff.1 hi).1
        omega
      have hm := List.getElem?_eq_getElem hlt
      obtain ⟨v', hv', htd⟩ := mapM_get h1 hm
      rw [hi] at hv'
      cases hv'
      obtain ⟨p, hp, hpe⟩ := List.mem_map.1 (List.mem_of_getElem? hm)
      rw [← hpe] at htd
      rw [(merge_full s hs.2 true p.2 _ v (hw p hp) (hf p hp) htd).1]
theorem merge_fullFields : (fs : Fields) → fs.names.Nodup → DeepFields fs → ∀ ms (x e : List (String × Val)), WTFields fs ms →
    FullFields fs ms → toDictFields fs ms = .ok e →
    ∀ e' : List (String × Val), (∀ n ∈ fs.names, e'.lookup n = e.lookup n) → mergeFields fs x e' = e
  | .nil, _, _, ms, x, e, hw, _, he, e', _ => by
    rw [WTFields] at hw
    subst hw
    simp only [toDictFields, Except.ok.injEq] at he
    subst he
    rfl
  | .cons n dv s rest, hnd, hs, ms, x, e, hw, hf, he, e', he' => by
    rw [WTFields] at hw
    rw [DeepFields] at hs
    rw [FullFields] at hf
    rw [Fields.names, List.nodup_cons] at hnd
    obtain ⟨m, ms, rfl, hw1, hw2⟩ := hw
    have hf := hf m ms rfl
    rw [toDictFields] at he
    rcases h1 : toDict s m with z | v
    · rw [h1] at he; cases he
    rcases h2 : toDictFields rest ms with z | r
    · rw [h1, h2] at he; cases he
    rw [h1, h2] at he
    simp only [Except.bind, Except.map, Except.ok.injEq] at he
    subst he
    have h3 := merge_full s hs.1 false m (getVal x n) v hw1 hf.1 h1
    simp only [h3.2, Bool.false_eq_true, if_false] at he' ⊢
    have h4 : e'.lookup n = some v := by rw [he' n (by simp [Fields.names])]; simp [List.lookup]
    rw [mergeFields, h4]
    simp only [h3.1, entry, h3.2, Bool.false_eq_true, if_false]
    rw [merge_fullFields rest hnd.2 hs.2 ms x r hw2 hf.2 h2 e' fun k hk => by
      rw [he' k (by simp [Fields.names, hk]), List.lookup_cons,
        show (k == n) = false by simpa using fun (h : k = n) => hnd.1 (h ▸ hk)]]
end

/-- C53: if no field of `other` is `None`, `m` has the values of `other` after `m.copy_from(other)`. -/
theorem C53_copy_all_partial (s : Schema) (hs : Deep s) (hf : Fresh s) (m other : M) (hm : WT s false m) (ho : WT s false other)
    (hall : Full s other) :
    ∃ y m', toDict s other = .ok y ∧ copyFrom s m other = .ok m' ∧ toDict s m' = .ok y := by
  obtain ⟨x, y, m', _, hy, h1, _, h2⟩ := C53_copy_from_partial s hs hf m other hm ho
  exact ⟨y, m', hy, h1, by rw [h2, (merge_full s hs false other x y ho hall hy).1]⟩

/-- C53, negative: models with an array of plain values cannot be copied from, nor can `from_dict_value` be used for them. -/
theorem C53_counterexample :
    ∃ m, build (.array .scalar) false .none (.list [.atom 1]) = .ok m ∧
      copyFrom (.array .scalar) m m = .error .attributeError ∧
      fromDict (.array .scalar) m (.list [.atom 2]) = .error .attributeError :=
  ⟨_, rfl, rfl, rfl⟩

def mOther : M := .record [.field .none, .record [.field (.atom 8), .field .none],
  .array [(0, .record [.field .none]), (1, .record [.field (.atom 5)]), (2, .record [.field (.atom 6)])] [0, 1, 2] 3]

example : Fresh sClean ∧ WT sClean false mOther := by
  refine ⟨by simp [Fresh, FreshFields, sClean, Fits, FitsFields, getVal, Val.entries], ?_⟩
  simp [WT, WTFields, sClean, mOther]
  rintro a b (⟨_, rfl⟩ | ⟨_, rfl⟩ | ⟨_, rfl⟩) <;> exact ⟨_, rfl⟩

example : ∃ m', copyFrom sClean mClean mOther = .ok m' ∧ toDict sClean m' = .ok (.dict [("a", .atom 1),
    ("r", .dict [("y", .atom 8), ("z", .atom 2)]), ("l", .list [.dict [("q", .atom 4)], .dict [("q", .atom 5)], .dict [("q", .atom 6)]])]) :=
  ⟨_, rfl, rfl⟩

end Verif.Structured
