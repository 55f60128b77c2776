import Verif.Structured.Once

/-!
C52, the changed model itself: which changes it tells of (`nion/utils/StructuredModel.py:294-309`).
-/

namespace Verif.Structured

open Verif.Py

/-- The model at the end of a path. -/
def modelAt : List Step → M → Option M
  | [], m => some m
  | .field k :: p, .record ms => (ms[k]?).bind (modelAt p)
  | .item i :: p, .array items _ _ => (items[i]?).bind fun q => modelAt p q.2
  | _, _ => none

/-- There is a listener at the position of the item that is removed. -/
def Op.Matched (op : Op) (m : Option M) : Prop :=
  ∀ (i : Int) (items : List (Nat × M)) (tramp : List Nat) (next : Nat), op = .remove i → m = some (.array items tramp next) →
    (index? tramp.length i).isSome

theorem own : ∀ (p : List Step) (op : Op) (m m' : M) (c : List Nat), change p op m = some (m', c) → c ≠ [] ∧
    (c.getLastD 0 = 1 ↔ op.changes = true ∧ op.Matched (modelAt p m))
  | [], .assign v same, .field u, m', c, h => by
    cases same <;> simp [change] at h <;> rw [← h.2] <;> simp [Op.changes, Op.Matched]
  | [], .insert i x, .array items tr nx, m', c, h => by
    simp [change] at h; rw [← h.2]; simp [Op.changes, Op.Matched]
  | [], .remove i, .array items tr nx, m', c, h => by
    unfold change at h
    split at h
    · rename_i _ tr' h1 h2
      cases h
      refine ⟨by simp, iff_of_true rfl ⟨rfl, ?_⟩⟩
      intro i' items' tramp' next' he hm
      cases he
      simp only [modelAt, Option.some.injEq, M.array.injEq] at hm
      obtain ⟨-, rfl, -⟩ := hm
      rcases hx : index? tr.length i with _ | k
      · simp [del?, hx] at h2
      · rfl
    · rename_i h1 h2
      cases h
      refine ⟨by simp, iff_of_false (by simp) fun hc => ?_⟩
      have := hc.2 i items tr nx rfl rfl
      rcases hx : index? tr.length i with _ | k
      · rw [hx] at this; cases this
      · simp [del?, hx] at h2
    · cases h
  | .field k :: p, op, .record ms, m', c, h => by
    simp only [change] at h
    split at h
    · rename_i m hk
      rcases hc : change p op m with _ | ⟨m1, c1⟩
      · rw [hc] at h; cases h
      · rw [hc] at h
        cases h
        obtain ⟨i1, i2⟩ := own p op m m1 c1 hc
        refine ⟨by simp, ?_⟩
        simp only [modelAt, hk, Option.bind_some]
        rw [← i2]
        cases c1 with
        | nil => exact absurd rfl i1
        | cons a l => rfl
    · cases h
  | .item i :: p, op, .array items tr nx, m', c, h => by
    simp only [change] at h
    split at h
    · rename_i id m hk
      rcases hc : change p op m with _ | ⟨m1, c1⟩
      · rw [hc] at h; cases h
      · rw [hc] at h
        cases h
        obtain ⟨i1, i2⟩ := own p op m m1 c1 hc
        refine ⟨by simp, ?_⟩
        simp only [modelAt, hk, Option.bind_some]
        rw [← i2]
        cases c1 with
        | nil => exact absurd rfl i1
        | cons a l => rfl
    · cases h
  | [], .assign _ _, .plain _, _, _, h => by simp [change] at h
  | [], .assign _ _, .record _, _, _, h => by simp [change] at h
  | [], .assign _ _, .array _ _ _, _, _, h => by simp [change] at h
  | [], .insert _ _, .plain _, _, _, h => by simp [change] at h
  | [], .insert _ _, .record _, _, _, h => by simp [change] at h
  | [], .insert _ _, .field _, _, _, h => by simp [change] at h
  | [], .remove _, .plain _, _, _, h => by simp [change] at h
  | [], .remove _, .record _, _, _, h => by simp [change] at h
  | [], .remove _, .field _, _, _, h => by simp [change] at h
  | .field _ :: _, _, .plain _, _, _, h => by simp [change] at h
  | .field _ :: _, _, .field _, _, _, h => by simp [change] at h
  | .field _ :: _, _, .array _ _ _, _, _, h => by simp [change] at h
  | .item _ :: _, _, .plain _, _, _, h => by simp [change] at h
  | .item _ :: _, _, .field _, _, _, h => by simp [change] at h
  | .item _ :: _, _, .record _, _, _, h => by simp [change] at h

/-- C52, exactly, every history of changes and `from_dict_value` at any place: the outermost model fires for a change exactly if it
is one (no assignment of an equal value), every array on the way listens to its item, and, if an item is removed, the array has a
listener at its position. -/
theorem C52_exact_partial (s : Schema) (d v : Val) (m0 m m' : M) (hist : List Happening) (p : List Step) (op : Op) (c : List Nat)
    (hb : build s false d v = .ok m0) (hh : Past m0 hist m) (hc : change p op m = some (m', c)) :
    c.headD 0 = 1 ↔ op.changes = true ∧ op.Matched (modelAt p m) ∧ Heard p m := by
  rw [C52_iff_partial s d v m0 m m' hist p op c hb hh hc, (own p op m m' c hc).2, and_assoc]

/-- C52, negative: after `from_dict_value` with one item for an empty array, the item is removed, but no event is fired (the call
raises `IndexError`). -/
theorem C52_counterexample_removal :
    ∃ m, fromDict sArr (arrayOf []) (.list [.dict [("q", .atom 1)]]) = .ok m ∧
      ∃ t n, change [] (.remove 0) m = some (.array [] t n, [0]) :=
  ⟨_, rfl, _, _, rfl⟩

/-- The removal of the second of two items. -/
example : (change [] (.remove 1) (arrayOf [item 1, item 2])).map Prod.snd = some [1] := rfl

end Verif.Structured
