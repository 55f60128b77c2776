import Verif.Geometry.Rect
import Verif.Converter.Integer

/-!
C193: the texts of integer points, sizes and rectangles, `str()` and `format` (`nion/utils/Geometry.py:318-319`, 406-407, 514-515).
`"{}".format(n)` of an integer is that of `"{:d}"` (C72). The text of `repr` is this text after the address of the object.
-/

namespace Verif.Geometry

open Verif.Converter (intStr)

/-- Lines 318-319. -/
def Point.text (p : Point ℤ) : List Char := ['(', 'x', '='] ++ intStr p.x ++ [',', ' ', 'y', '='] ++ intStr p.y ++ [')']

/-- Lines 406-407. -/
def Size.text (s : Size ℤ) : List Char := ['(', 'w', '='] ++ intStr s.width ++ [',', ' ', 'h', '='] ++ intStr s.height ++ [')']

/-- Lines 514-515. -/
def Rect.text (r : Rect ℤ) : List Char := ['(', 'o', '='] ++ r.origin.text ++ [',', ' ', 's', '='] ++ r.size.text ++ [')']

/-! ### Specification -/

/-- Integer points, sizes and rectangles. -/
inductive Thing where
  | point (p : Point ℤ)
  | size (s : Size ℤ)
  | rect (r : Rect ℤ)

/-- What `str` gives. -/
def Thing.str : Thing → List Char
  | .point p => p.text
  | .size s => s.text
  | .rect r => r.text

/-! ### Proof -/

/-- What an integer is followed by tells where it ends. -/
theorem intStr_append (m n : ℤ) (c d : Char) (a b : List Char) (hc : Verif.Converter.isDigit c = false) (hd : Verif.Converter.isDigit d = false)
    (hc' : c ≠ '-') (hd' : d ≠ '-') (h : intStr m ++ c :: a = intStr n ++ d :: b) : m = n ∧ c :: a = d :: b := by
  have hm : ∀ k : ℤ, ∀ x ∈ intStr k, (Verif.Converter.isDigit x || x == '-') = true := by
    intro k x hx
    cases k with
    | ofNat k => simp [(Verif.Converter.natStr_spec k).1 x hx]
    | negSucc k =>
      rcases List.mem_cons.1 hx with rfl | hx
      · decide
      · simp [(Verif.Converter.natStr_spec (k + 1)).1 x hx]
  have key : ∀ (k : ℤ) (e : Char) (l : List Char), Verif.Converter.isDigit e = false → e ≠ '-' →
      (intStr k ++ e :: l).takeWhile (fun x => Verif.Converter.isDigit x || x == '-') = intStr k := by
    intro k e l he he'
    rw [List.takeWhile_append_of_pos (hm k), List.takeWhile_cons_of_neg (by simp [he, he']), List.append_nil]
  have h1 : intStr m = intStr n := by rw [← key m c a hc hc', h, key n d b hd hd']
  refine ⟨Verif.Converter.C72_injective m n h1, ?_⟩
  rw [h1] at h
  exact List.append_cancel_left h

theorem point_append (p q : Point ℤ) (a b : List Char) (h : p.text ++ a = q.text ++ b) : p = q ∧ a = b := by
  simp only [Point.text, List.append_assoc, List.cons_append, List.nil_append, List.cons.injEq, true_and] at h
  obtain ⟨h1, h2⟩ := intStr_append _ _ _ _ _ _ (by decide) (by decide) (by decide) (by decide) h
  simp only [List.cons.injEq, true_and] at h2
  obtain ⟨h3, h4⟩ := intStr_append _ _ _ _ _ _ (by decide) (by decide) (by decide) (by decide) h2
  exact ⟨Point.ext h3 h1, (List.cons.inj h4).2⟩

theorem size_append (p q : Size ℤ) (a b : List Char) (h : p.text ++ a = q.text ++ b) : p = q ∧ a = b := by
  simp only [Size.text, List.append_assoc, List.cons_append, List.nil_append, List.cons.injEq, true_and] at h
  obtain ⟨h1, h2⟩ := intStr_append _ _ _ _ _ _ (by decide) (by decide) (by decide) (by decide) h
  simp only [List.cons.injEq, true_and] at h2
  obtain ⟨h3, h4⟩ := intStr_append _ _ _ _ _ _ (by decide) (by decide) (by decide) (by decide) h2
  exact ⟨Size.ext h3 h1, (List.cons.inj h4).2⟩

theorem rect_append (p q : Rect ℤ) (a b : List Char) (h : p.text ++ a = q.text ++ b) : p = q ∧ a = b := by
  simp only [Rect.text, List.append_assoc] at h
  obtain ⟨h1, h2⟩ := point_append _ _ _ _ (List.append_cancel_left h)
  obtain ⟨h3, h4⟩ := size_append _ _ _ _ (List.append_cancel_left h2)
  exact ⟨Rect.ext h1 h3, List.append_cancel_left h4⟩

/-- C193: two of them have the same text exactly if they are of the same kind and equal, also as a part of a longer text. -/
theorem C193_text (s t : Thing) (a b : List Char) : s.str ++ a = t.str ++ b ↔ s = t ∧ a = b := by
  refine ⟨fun h => ?_, fun h => by rw [h.1, h.2]⟩
  cases s <;> cases t <;> simp only [Thing.str] at h
  case point.point p q =>
    obtain ⟨h1, h2⟩ := point_append _ _ _ _ h
    exact ⟨by rw [h1], h2⟩
  case size.size p q =>
    obtain ⟨h1, h2⟩ := size_append _ _ _ _ h
    exact ⟨by rw [h1], h2⟩
  case rect.rect p q =>
    obtain ⟨h1, h2⟩ := rect_append _ _ _ _ h
    exact ⟨by rw [h1], h2⟩
  all_goals
    simp only [Point.text, Size.text, Rect.text, List.cons_append, List.nil_append, List.cons.injEq] at h
    exact absurd h.2.1 (by decide)

/-! ### Examples -/

example : Rect.text ⟨⟨2, -1⟩, ⟨40, 30⟩⟩ = "(o=(x=-1, y=2), s=(w=30, h=40))".toList := by decide +kernel

end Verif.Geometry
