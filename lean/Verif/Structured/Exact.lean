import Verif.Structured.Values

/-! C54, exactly: `build_model` raises if and only if it comes to a `define_float` (`nion/utils/StructuredModel.py:64-87`). -/

namespace Verif.Structured

mutual
/-- Walking through schema, default `d` and value `v` no `define_float` is met: fields are all visited, the schema of an array once for each
element of its value, or of its default if there is no value. -/
def FloatFree : Schema → Val → Val → Prop
  | .scalar, _, _ => True
  | .double, _, _ => False
  | .record fs, d, v => FloatFreeFields fs (v.entries ++ d.entries)
  | .array s, d, v => ∀ l, v.orElse d = .list l → ∀ x ∈ l, FloatFree s .none x
def FloatFreeFields : Fields → List (String × Val) → Prop
  | .nil, _ => True
  | .cons n d s rest, e => FloatFree s d (getVal e n) ∧ FloatFreeFields rest e
end

theorem mapM_error {α β : Type} {f : α → Except Exc β} (l : List α) (ms : List β) (h : l.mapM f = .ok ms) : ∀ x ∈ l, ∃ y, f x = .ok y := by
  induction l generalizing ms with
  | nil => intro x hx; cases hx
  | cons a l ih =>
    rw [List.mapM_cons] at h
    cases ha : f a with
    | error e => rw [ha] at h; cases h
    | ok y =>
      rw [ha] at h
      cases hl : l.mapM f with
      | error e =>
        simp only [bind, Except.bind] at h
        rw [hl] at h
        cases h
      | ok ys =>
        intro x hx
        rcases List.mem_cons.1 hx with rfl | hx
        · exact ⟨y, ha⟩
        · exact ih ys hl x hx

mutual
theorem build_iff : (s : Schema) → DefaultsOk s → ∀ (b : Bool) (d v : Val), Kind s d → Kind s v →
    ((∃ m, build s b d v = .ok m) ↔ FloatFree s d v)
  | .scalar, _, b, d, v, _, _ => by simp [FloatFree, build]
  | .double, _, b, d, v, _, _ => by simp [FloatFree, build]
  | .record fs, hk, b, d, v, hd, hv => by
    rw [DefaultsOk] at hk
    have ih := buildFields_iff fs hk _ ((kind_entries hv).append (kind_entries hd))
    rw [Kind] at hd hv
    have h1 : asDict d = .ok d.entries := asDict_ok (hd.imp_right fun ⟨a, ha, _⟩ => ⟨a, ha⟩)
    have h2 : asDict v = .ok v.entries := asDict_ok (hv.imp_right fun ⟨a, ha, _⟩ => ⟨a, ha⟩)
    rw [FloatFree, ← ih]
    simp only [build, h1, h2, Except.bind]
    cases buildFields fs (v.entries ++ d.entries) <;> simp [Except.map]
  | .array s, hk, b, d, v, hd, hv => by
    rw [DefaultsOk] at hk
    have hx := kind_orElse hd hv
    rw [Kind] at hx
    rw [FloatFree]
    rcases hx with hx | ⟨l, hx, hl⟩
    · refine ⟨fun _ l e => ?_, fun _ => ⟨arrayOf [], by simp [build, hx, asList, Except.bind, Except.map, pure, Except.pure]⟩⟩
      rw [hx] at e
      cases e
    · have ih : ∀ x ∈ l, ((∃ m, build s true .none x = .ok m) ↔ FloatFree s .none x) := fun x hxl =>
        build_iff s hk true .none x (kind_none s) (hl x hxl)
      rw [hx]
      simp only [build, hx, asList, Except.bind]
      constructor
      · rintro ⟨m, hm⟩ l' e x hxl
        cases e
        cases hmap : l.mapM (fun x => build s true .none x) with
        | error e => rw [hmap] at hm; cases hm
        | ok ms => exact (ih x hxl).1 (mapM_error l ms hmap x hxl)
      · intro h
        obtain ⟨ms, hms, -⟩ := mapM_ex (f := fun x => build s true .none x) l (fun _ _ => True)
          (fun x hxl => ((ih x hxl).2 (h l rfl x hxl)).imp fun m hm => ⟨hm, trivial⟩)
        exact ⟨arrayOf ms, by simp only [hms, Except.map]⟩
theorem buildFields_iff : (fs : Fields) → DefaultsOkFields fs → ∀ e, KindFields fs e →
    ((∃ ms, buildFields fs e = .ok ms) ↔ FloatFreeFields fs e)
  | .nil, _, _, _ => by simp [FloatFreeFields, buildFields]
  | .cons n d s rest, hk, e, he => by
    rw [DefaultsOkFields] at hk
    rw [KindFields] at he
    rw [FloatFreeFields, ← build_iff s hk.2.1 false d _ hk.1 (kind_getVal he.1), ← buildFields_iff rest hk.2.2 e he.2]
    simp only [buildFields]
    cases build s false d (getVal e n) with
    | error x => simp [Except.bind]
    | ok m => cases buildFields rest e <;> simp [Except.bind, Except.map]
end

/-- C54, exactly: with defaults and values of the right kinds, `build_model` succeeds if and only if no `define_float` is met. -/
theorem C54_iff_partial (s : Schema) (hd : DefaultsOk s) (d v : Val) (h1 : Kind s d) (h2 : Kind s v) :
    (∃ m, build s false d v = .ok m) ↔ FloatFree s d v :=
  build_iff s hd false d v h1 h2

/-- an array of floats can be built if it is empty, and only then -/
example : FloatFree (.array .double) .none (.list []) ∧ ¬ FloatFree (.array .double) .none (.list [.none]) := by
  constructor
  · intro l h x hx
    cases h
    cases hx
  · intro h
    exact h [.none] rfl .none (by simp)

end Verif.Structured
