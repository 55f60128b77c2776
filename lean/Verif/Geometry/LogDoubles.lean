import Verif.Geometry.LabelDoubles
import Verif.Geometry.MapDoubles

/-!
C142: the ticks of `LogTicker` (`nion/utils/Geometry.py:193-261`) for base ten in double precision.

`Geometry/LogTicker.lean` computes with real numbers. Here every operation is followed by rounding to the nearest double. `pw x` is
`math.pow(10, x)` and `ln x` is the natural logarithm; `math.log(x, 10)` is `ln x / ln 10`, rounded. Both library functions are only
assumed to be right to one unit in the last place. Not modelled: the limits (lines 236-238, 251-254), overflow (`LogOverflow.lean`),
subnormal numbers, other bases.
-/

set_option linter.unusedSectionVars false

namespace Verif.Geometry.LogTickerD

open Verif.Converter (fl fl_near fl_zero roundHalfEven roundHalfEven_near)
open Verif.Geometry

/-! ### The model -/

/-- What is asked for (lines 195-197), with the functions of the library. -/
structure ReqD where
  low : ℚ
  high : ℚ
  ticks : ℤ
  pw : ℚ → ℚ
  ln : ℚ → ℚ

/-- `math.log(x, 10)`. -/
def ReqD.log (q : ReqD) (x : ℚ) : ℚ := fl (q.ln x / q.ln 10)

/-- Line 207. -/
def ReqD.range (q : ReqD) : ℚ := |fl (q.high - q.low)|

/-- Line 208. -/
def ReqD.factor (q : ReqD) : ℚ :=
  if fl (((q.ticks : ℚ) - 2) / 10) > q.range ∧ q.range > 0 then q.pw ⌊q.log q.range⌋ else 1

/-- Line 209. -/
def ReqD.min0 (q : ReqD) : ℤ := ⌊fl (q.low / q.factor)⌋

/-- Line 210. -/
def ReqD.max0 (q : ReqD) : ℤ := max ⌈fl (q.high / q.factor)⌉ (q.min0 + 1)

/-- Line 211. -/
def ReqD.precision (q : ReqD) : ℤ := roundHalfEven |q.log q.factor|

/-- Lines 215-216, for a factor of one. -/
def shrink (range : ℚ) : ℕ → ℕ
  | 0 => 0
  | n + 1 => if ((n + 1 : ℕ) : ℚ) > fl (3 / 2 * range) then shrink range n else n + 1

/-- Lines 213-216. -/
def ReqD.numdec (q : ReqD) : ℤ :=
  if q.factor = 1 then (shrink q.range (q.max0 - q.min0).toNat : ℕ) else q.max0 - q.min0

/-- Line 218. -/
def ReqD.division (q : ReqD) : ℤ := max ((q.numdec + 1).fdiv q.ticks) 1

/-- Lines 204-205, for integers. -/
def arangeD (start stop step : ℤ) : List ℤ :=
  (List.range ⌈fl (((stop - start : ℤ) : ℚ) / step)⌉.toNat).map fun (x : ℕ) => start + x * step

/-- Line 219. -/
def ReqD.decades (q : ReqD) : List ℤ := arangeD q.min0 (q.max0 + q.division) q.division

/-- Line 223. -/
def ReqD.numSubs (q : ReqD) : ℚ := if q.range > 0 then fl (q.ticks / fl (q.range / q.division)) else 0

/-- Lines 225-234: `base - 2` is 8, its half 4, its quarter 2; `round(base * 0.5)` is 5. -/
def ReqD.subs (q : ReqD) : List ℤ :=
  if q.factor ≠ 1 then []
  else if q.numSubs ≥ 8 then arangeD 2 10 1
  else if q.numSubs ≥ 4 then arangeD 2 10 2
  else if q.numSubs ≥ 2 then [5]
  else []

/-- Lines 244-246: the values and indices of a decade. -/
def addSub (decade : ℚ) (acc : List ℚ × List ℕ) (sub : ℤ) : List ℚ × List ℕ :=
  let values := acc.1 ++ [fl (sub * decade)]
  (values, acc.2 ++ [values.length - 1])

/-- Lines 241-246. -/
def ReqD.addDecade (q : ReqD) (acc : List ℚ × List ℕ) (start : ℤ) : List ℚ × List ℕ :=
  let decade := q.pw (fl (start * q.factor))
  q.subs.foldl (addSub decade) (acc.1 ++ [decade], acc.2)

/-- Lines 240-246. -/
def ReqD.loop (q : ReqD) : List ℚ × List ℕ := q.decades.foldl q.addDecade ([], [])

/-- Line 249. -/
def ReqD.values (q : ReqD) : List ℚ := q.loop.1.map q.log

/-- Lines 248, 256-257. -/
def ReqD.labels (q : ReqD) : List Label := q.loop.1.map (formatED q.precision)

/-- The indices of the minor ticks. -/
def ReqD.minor (q : ReqD) : List ℕ := q.loop.2

/-! ### What is assumed of the library -/

/-- `math.pow(10, x)` is right to one unit in the last place. -/
def PowAcc (pw : ℚ → ℚ) : Prop := ∀ x : ℚ, |x| ≤ 300 → |(pw x : ℝ) - (10 : ℝ) ^ (x : ℝ)| ≤ (10 : ℝ) ^ (x : ℝ) / 2 ^ 52

/-- The natural logarithm is right to one unit in the last place. -/
def LogAcc (ln : ℚ → ℚ) : Prop := ∀ x : ℚ, 0 < x → |(ln x : ℝ) - Real.log x| ≤ |Real.log x| / 2 ^ 52

/-- Numbers are accurate when they are nearest doubles. -/
theorem nearest_acc {x : ℝ} {q : ℚ} (h : Nearest x q) : |(q : ℝ) - x| ≤ |x| / 2 ^ 52 := by
  by_cases hx : x = 0
  · subst hx
    have := h.2 0 dbl_zero
    simpa using this
  obtain ⟨r, hr1, hr2⟩ : ∃ r : ℚ, |(r : ℝ) - x| < |x| / 2 ^ 60 ∧ |(r : ℝ)| ≤ |x| * (1 + 1 / 2 ^ 60) := by
    obtain ⟨r, h1, h2⟩ := exists_rat_btwn (show x - |x| / 2 ^ 60 < x + |x| / 2 ^ 60 by have := abs_pos.2 hx; linarith [div_pos this (show (0 : ℝ) < 2 ^ 60 by norm_num)])
    have h3 : |(r : ℝ) - x| < |x| / 2 ^ 60 := by rw [abs_lt]; constructor <;> linarith
    refine ⟨r, h3, ?_⟩
    have := abs_sub_abs_le_abs_sub (r : ℝ) x
    linarith
  have h1 := h.2 (fl r) (fl_dbl r)
  have h2 : |((fl r : ℚ) : ℝ) - r| ≤ |(r : ℝ)| / 2 ^ 53 := by exact_mod_cast fl_near r
  have h3 : |((fl r : ℚ) : ℝ) - x| ≤ |((fl r : ℚ) : ℝ) - r| + |(r : ℝ) - x| := abs_sub_le _ _ _
  have := abs_pos.2 hx
  norm_num at hr1 hr2 h2 ⊢
  linarith

theorem exists_pow : ∃ pw, PowAcc pw := by
  choose f hf using fun x : ℚ => exists_nearest ((10 : ℝ) ^ (x : ℝ))
  refine ⟨f, fun x _ => ?_⟩
  have := nearest_acc (hf x)
  rwa [abs_of_pos (Real.rpow_pos_of_pos (by norm_num) _)] at this

theorem exists_log : ∃ ln, LogAcc ln := by
  choose f hf using fun x : ℚ => exists_nearest (Real.log x)
  exact ⟨f, fun x _ => nearest_acc (hf x)⟩

/-! ### The loop -/

variable {q : ReqD}

theorem foldl_addSub (decade : ℚ) (subs : List ℤ) (acc : List ℚ × List ℕ) :
    subs.foldl (addSub decade) acc =
      (acc.1 ++ subs.map (fun s : ℤ => fl ((s : ℚ) * decade)), acc.2 ++ List.range' acc.1.length subs.length) := by
  induction subs generalizing acc with
  | nil => simp
  | cons s subs ih =>
    rw [List.foldl_cons, ih]
    simp [addSub, List.range'_succ]

/-- The values of a decade. -/
def ReqD.group (q : ReqD) (d : ℤ) : List ℚ :=
  q.pw (fl (d * q.factor)) :: q.subs.map fun s : ℤ => fl ((s : ℚ) * q.pw (fl (d * q.factor)))

theorem addDecade_eq (acc : List ℚ × List ℕ) (d : ℤ) :
    q.addDecade acc d = (acc.1 ++ q.group d, acc.2 ++ List.range' (acc.1.length + 1) q.subs.length) := by
  rw [ReqD.addDecade, foldl_addSub]
  simp [ReqD.group]

theorem loop_values (ds : List ℤ) (acc : List ℚ × List ℕ) : (ds.foldl q.addDecade acc).1 = acc.1 ++ ds.flatMap q.group := by
  induction ds generalizing acc with
  | nil => simp
  | cons d ds ih => rw [List.foldl_cons, ih, addDecade_eq]; simp

theorem values_eq : q.loop.1 = q.decades.flatMap q.group := by
  rw [ReqD.loop, loop_values]
  simp

/-- What the ticks stand for: digit and exponent. -/
def ReqD.marks (q : ReqD) : List (ℤ × ℤ) := q.decades.flatMap fun d => (1 :: q.subs).map fun s => (s, d)

theorem division_pos : 1 ≤ q.division := le_max_right _ _

theorem pairwise_arangeD {a b s : ℤ} (hs : 0 < s) : (arangeD a b s).Pairwise (· < ·) := by
  rw [arangeD, List.pairwise_map]
  refine List.pairwise_lt_range.imp ?_
  intro x y h
  have : (x : ℤ) < y := by exact_mod_cast h
  nlinarith

theorem fl_int {z : ℤ} (h : |z| ≤ 2 ^ 53) : fl z = z := fl_of_dbl (dbl_int h)

theorem subs_mem : q.subs ∈ ([[], [5], [2, 4, 6, 8], [2, 3, 4, 5, 6, 7, 8, 9]] : List (List ℤ)) := by
  have h8 : arangeD 2 10 1 = [2, 3, 4, 5, 6, 7, 8, 9] := by
    have : fl (((10 - 2 : ℤ) : ℚ) / (1 : ℤ)) = (8 : ℤ) := by
      rw [show (((10 - 2 : ℤ) : ℚ) / (1 : ℤ)) = ((8 : ℤ) : ℚ) by norm_num, fl_int (by norm_num)]
    rw [arangeD, this, Int.ceil_intCast]
    rfl
  have h4 : arangeD 2 10 2 = [2, 4, 6, 8] := by
    have : fl (((10 - 2 : ℤ) : ℚ) / (2 : ℤ)) = (4 : ℤ) := by
      rw [show (((10 - 2 : ℤ) : ℚ) / (2 : ℤ)) = ((4 : ℤ) : ℚ) by norm_num, fl_int (by norm_num)]
    rw [arangeD, this, Int.ceil_intCast]
    rfl
  rw [ReqD.subs, h8, h4]
  split_ifs <;> simp

theorem subs_spec : q.subs.Pairwise (· < ·) ∧ ∀ s ∈ q.subs, 2 ≤ s ∧ s ≤ 9 := by
  have := subs_mem (q := q)
  generalize q.subs = l at this
  simp only [List.mem_cons, List.not_mem_nil, or_false] at this
  rcases this with rfl | rfl | rfl | rfl <;> decide

/-! ### One tick -/

theorem pow_rel (hp : PowAcc q.pw) {d : ℤ} (hd : |d| ≤ 300) : Rel 2 (q.pw d) (10 ^ d) := by
  have h := hp d (by exact_mod_cast hd)
  refine ⟨zpow_pos (by norm_num) d, ?_⟩
  have e : (10 : ℝ) ^ (((d : ℤ) : ℚ) : ℝ) = 10 ^ d := by
    rw [Rat.cast_intCast, Real.rpow_intCast]
  rw [e] at h
  have h2 : |q.pw d - 10 ^ d| ≤ (10 : ℚ) ^ d / 2 ^ 52 := by
    rw [← Rat.cast_le (K := ℝ)]
    push_cast
    norm_num at h ⊢
    exact h
  refine h2.trans (le_of_eq ?_)
  push_cast
  ring

/-- The value of a tick is near its mark. -/
theorem value_rel (hp : PowAcc q.pw) {d s : ℤ} (hd : |d| ≤ 300) (hs : 1 ≤ s) : Rel 4 (fl (s * q.pw d)) (s * 10 ^ d) := by
  have h1 := pow_rel hp hd
  have hs' : (0 : ℚ) < s := by exact_mod_cast (show (0 : ℤ) < s by omega)
  have h2 := h1.mul_left hs'
  have h3 := (Rel.fl (h2.pos (by norm_num))).trans h2 (by norm_num) (by norm_num)
  exact h3.mono (by norm_num)

/-- The logarithm of a value near another. -/
theorem log_near {K : ℕ} {v y : ℚ} (h : Rel K v y) (hK : K ≤ 1000) : |Real.log v - Real.log y| ≤ 2 * K / 2 ^ 53 := by
  have hv : (0 : ℝ) < v := by exact_mod_cast h.pos hK
  have hy : (0 : ℝ) < y := by exact_mod_cast h.1
  have hK' : (K : ℝ) ≤ 1000 := by exact_mod_cast hK
  have hK0 : (0 : ℝ) ≤ K := Nat.cast_nonneg K
  have h2 : |(v : ℝ) - y| ≤ K / 2 ^ 53 * y := by
    have := (Rat.cast_le (K := ℝ)).2 h.2
    push_cast at this ⊢
    exact this
  have h3 := abs_le.1 h2
  have k1 : (K : ℝ) / 2 ^ 53 ≤ 1 / 4 := by
    rw [div_le_iff₀ (by norm_num)]; norm_num; linarith
  have k0 : (0 : ℝ) ≤ K / 2 ^ 53 := by positivity
  have e : (2 : ℝ) * K / 2 ^ 53 = 2 * (K / 2 ^ 53) := by ring
  rw [e]
  generalize (K : ℝ) / 2 ^ 53 = c at h3 k1 k0
  rw [← Real.log_div hv.ne' hy.ne', abs_le]
  have up : (v : ℝ) / y ≤ 1 + c := by rw [div_le_iff₀ hy]; linarith
  have lo : 1 - c ≤ (v : ℝ) / y := by rw [le_div_iff₀ hy]; linarith
  have hpos : (0 : ℝ) < v / y := div_pos hv hy
  constructor
  · have := Real.one_sub_inv_le_log_of_pos hpos
    have h5 : ((v : ℝ) / y)⁻¹ ≤ 1 + 2 * c := by
      rw [inv_le_iff_one_le_mul₀ hpos]
      nlinarith
    linarith
  · have := Real.log_le_sub_one_of_pos hpos
    linarith

/-- The logarithm to base ten, computed. -/
theorem logD_near (hl : LogAcc q.ln) {v : ℚ} (hv : 0 < v) : |(q.log v : ℝ) - Real.logb 10 v| ≤ |Real.logb 10 v| / 2 ^ 50 := by
  have h10 : (2.2 : ℝ) < Real.log 10 := log_ten
  have a := hl v hv
  have b := hl 10 (by norm_num)
  have c : |((fl (q.ln v / q.ln 10) : ℚ) : ℝ) - (q.ln v : ℝ) / (q.ln 10 : ℝ)| ≤ |(q.ln v : ℝ) / (q.ln 10 : ℝ)| / 2 ^ 53 := by
    have := fl_near (q.ln v / q.ln 10)
    exact_mod_cast this
  rw [ReqD.log]
  generalize (fl (q.ln v / q.ln 10) : ℚ) = r at c
  have e10 : Real.log ((10 : ℚ) : ℝ) = Real.log 10 := by norm_num
  rw [e10, abs_of_pos (show (0 : ℝ) < Real.log 10 by linarith)] at b
  rw [Real.logb]
  generalize Real.log (v : ℝ) = x at a
  generalize Real.log 10 = y at b h10
  generalize ((q.ln v : ℚ) : ℝ) = x' at a c
  generalize ((q.ln 10 : ℚ) : ℝ) = y' at b c
  generalize (r : ℝ) = z at c
  have hy : 0 < y := by linarith
  have b' := abs_le.1 b
  norm_num at a b' c ⊢
  have hy' : 0 < y' := by linarith
  have q1 : |x' / y' - x / y| ≤ |x / y| * (5 / 2 ^ 53) := by
    rw [div_sub_div _ _ hy'.ne' hy.ne', abs_div, abs_div, div_mul_eq_mul_div, div_le_div_iff₀ (by positivity) (by positivity),
      abs_of_pos (mul_pos hy' hy), abs_of_pos hy]
    have e1 : x' * y - y' * x = (x' - x) * y + x * (y - y') := by ring
    have e2 : |x' * y - y' * x| ≤ |x| / 4503599627370496 * y + |x| * (y / 4503599627370496) := by
      rw [e1]
      refine (abs_add_le _ _).trans (add_le_add ?_ ?_)
      · rw [abs_mul, abs_of_pos hy]; exact mul_le_mul_of_nonneg_right a hy.le
      · rw [abs_mul]
        refine mul_le_mul_of_nonneg_left ?_ (abs_nonneg x)
        rw [abs_le]; constructor <;> linarith
    have e3 : |x' * y - y' * x| * y ≤ (|x| / 4503599627370496 * y + |x| * (y / 4503599627370496)) * y :=
      mul_le_mul_of_nonneg_right e2 hy.le
    refine e3.trans ?_
    have e4 : y * (4 / 5) ≤ y' := by linarith
    have e5 : |x| * (5 / 2 ^ 53) * (y * (4 / 5) * y) ≤ |x| * (5 / 2 ^ 53) * (y' * y) := by
      refine mul_le_mul_of_nonneg_left (mul_le_mul_of_nonneg_right e4 hy.le) (by positivity)
    refine le_trans (le_of_eq ?_) e5
    ring
  have q2 : |x' / y'| ≤ |x / y| + |x' / y' - x / y| := by
    have := abs_sub_abs_le_abs_sub (x' / y') (x / y)
    linarith
  have q3 : |z - x / y| ≤ |z - x' / y'| + |x' / y' - x / y| := abs_sub_le _ _ _
  have hn := abs_nonneg (x / y)
  norm_num at q1
  linarith

theorem logb_mark {s d : ℤ} (hs : 1 ≤ s) : Real.logb 10 ((s * 10 ^ d : ℚ) : ℝ) = d + Real.logb 10 s := by
  have hs' : (s : ℝ) ≠ 0 := by exact_mod_cast (show s ≠ 0 by omega)
  push_cast
  rw [Real.logb_mul hs' (zpow_ne_zero _ (by norm_num)), ← Real.rpow_intCast, Real.logb_rpow (by norm_num) (by norm_num)]
  ring

/-- A tick is near its mark. -/
theorem tick_near (hl : LogAcc q.ln) {v : ℚ} {s d : ℤ} (hs : 1 ≤ s) (hs9 : s ≤ 9) (h : Rel 4 v (s * 10 ^ d)) :
    |(q.log v : ℝ) - (d + Real.logb 10 s)| ≤ (|d| + 3) / 2 ^ 50 := by
  have h1 := logD_near (q := q) hl (h.pos (by norm_num))
  have h2 := log_near h (by norm_num)
  have h10 : (2.2 : ℝ) < Real.log 10 := log_ten
  have h3 : |Real.logb 10 v - (d + Real.logb 10 s)| ≤ 1 / 2 ^ 50 := by
    rw [← logb_mark hs, Real.logb, Real.logb, ← sub_div, abs_div, abs_of_pos (show 0 < Real.log 10 by linarith), div_le_iff₀ (by linarith)]
    refine h2.trans ?_
    norm_num
    linarith
  have h4 : 0 ≤ Real.logb 10 s ∧ Real.logb 10 s ≤ 1 := by
    constructor
    · exact Real.logb_nonneg (by norm_num) (by exact_mod_cast hs)
    · rw [Real.logb_le_iff_le_rpow (by norm_num) (by exact_mod_cast (show (0 : ℤ) < s by omega)), Real.rpow_one]
      exact_mod_cast (show s ≤ 10 by omega)
  have h5 : |(d : ℝ) + Real.logb 10 s| ≤ |(d : ℝ)| + 1 := by
    refine (abs_add_le _ _).trans ?_
    rw [abs_of_nonneg h4.1]
    linarith
  have h6 := abs_sub_abs_le_abs_sub (Real.logb 10 v) (d + Real.logb 10 s)
  have h7 : |(q.log v : ℝ) - (d + Real.logb 10 s)| ≤ |(q.log v : ℝ) - Real.logb 10 v| + |Real.logb 10 v - (d + Real.logb 10 s)| := abs_sub_le _ _ _
  push_cast
  norm_num at h1 h3 ⊢
  linarith

/-- The label of a tick. -/
theorem label_mark {v : ℚ} {s d : ℤ} (hs : 1 ≤ s) (hs9 : s ≤ 9) (h : Rel 4 v (s * 10 ^ d)) :
    formatED 0 v = ⟨false, s, 0, some d⟩ := by
  have hv := h.pos (by norm_num)
  obtain ⟨h0, h1⟩ := h
  have hp : (0 : ℚ) < 10 ^ d := zpow_pos (by norm_num) d
  have hs' : (1 : ℚ) ≤ s := by exact_mod_cast hs
  have hs9' : (s : ℚ) ≤ 9 := by exact_mod_cast hs9
  rw [abs_le] at h1
  norm_num at h1
  -- the value in units of the decade
  obtain ⟨m, rfl⟩ : ∃ m, v = m * 10 ^ d := ⟨v / 10 ^ d, by field_simp⟩
  have m1 : (s : ℚ) * (1 - 1 / 1000) ≤ m := by
    refine le_of_mul_le_mul_right ?_ hp
    nlinarith [mul_pos (show (0 : ℚ) < s by linarith) hp]
  have m2 : m ≤ s * (1 + 1 / 1000) := by
    refine le_of_mul_le_mul_right ?_ hp
    nlinarith [mul_pos (show (0 : ℚ) < s by linarith) hp]
  have hm : 0 < m := by nlinarith
  have hneg : decide (m * 10 ^ d < 0) = false := by
    rw [decide_eq_false_iff_not, not_lt]; exact hv.le
  have hr : roundHalfEven m = s := by
    refine round_of_near ?_
    rw [abs_lt]; constructor <;> nlinarith
  rw [formatED]
  simp only [hneg, if_neg hv.ne', abs_of_pos hv]
  by_cases hlow : 1 ≤ m
  · have hlog : Int.log 10 (m * (10 : ℚ) ^ d) = d := by
      apply le_antisymm
      · have : Int.log 10 (m * (10 : ℚ) ^ d) < d + 1 := by
          rw [← Int.lt_zpow_iff_log_lt (by norm_num) hv]
          push_cast
          rw [zpow_add₀ (by norm_num), zpow_one]
          nlinarith
        omega
      · rw [← Int.zpow_le_iff_le_log (by norm_num) hv]
        push_cast
        nlinarith
    have e : m * (10 : ℚ) ^ d * 10 ^ (0 - d) = m := by
      rw [mul_assoc, ← zpow_add₀ (by norm_num)]; simp
    rw [hlog, e, hr, if_neg]
    norm_num
    linarith
  · rw [not_le] at hlow
    have hs1 : s = 1 := by
      by_contra hne
      have : (2 : ℚ) ≤ s := by exact_mod_cast (show (2 : ℤ) ≤ s by omega)
      nlinarith
    subst hs1
    have hlog : Int.log 10 (m * (10 : ℚ) ^ d) = d - 1 := by
      apply le_antisymm
      · have : Int.log 10 (m * (10 : ℚ) ^ d) < d := by
          rw [← Int.lt_zpow_iff_log_lt (by norm_num) hv]
          push_cast
          nlinarith
        omega
      · rw [← Int.zpow_le_iff_le_log (by norm_num) hv]
        push_cast
        rw [zpow_sub₀ (by norm_num), zpow_one]
        push_cast at m1
        nlinarith
    have e : m * (10 : ℚ) ^ d * 10 ^ (0 - (d - 1)) = m * 10 := by
      rw [mul_assoc, ← zpow_add₀ (by norm_num)]; simp
    have hr10 : roundHalfEven (m * 10) = 10 := by
      refine round_of_near ?_
      push_cast at m1 m2 ⊢
      rw [abs_lt]; constructor <;> linarith
    rw [hlog, e, hr10, if_pos (by norm_num)]
    have : roundHalfEven ((10 : ℚ) ^ (0 : ℤ)) = 1 := by rw [zpow_zero]; exact round_of_near (by norm_num)
    rw [this]
    simp

/-! ### All ticks -/

theorem log_one (hl : LogAcc q.ln) : q.log 1 = 0 := by
  have := hl 1 (by norm_num)
  norm_num at this
  rw [ReqD.log, this, zero_div, fl_zero]

theorem precision_zero (hl : LogAcc q.ln) (hf : q.factor = 1) : q.precision = 0 := by
  rw [ReqD.precision, hf, log_one hl, abs_zero]
  exact round_of_near (by norm_num)

theorem group_rel (hp : PowAcc q.pw) (hf : q.factor = 1) {d : ℤ} (hd : |d| ≤ 300) :
    List.Forall₂ (fun (v : ℚ) (m : ℤ × ℤ) => Rel 4 v (m.1 * 10 ^ m.2)) (q.group d) ((1 :: q.subs).map fun s => (s, d)) := by
  have e : fl ((d : ℚ) * q.factor) = d := by
    rw [hf, mul_one, fl_int]
    rw [abs_le] at hd ⊢
    constructor <;> norm_num <;> omega
  rw [ReqD.group, e, List.map_cons]
  refine List.Forall₂.cons ?_ ?_
  · have := (pow_rel hp hd).mono (show 2 ≤ 4 by norm_num)
    simpa using this
  · rw [List.forall₂_map_left_iff, List.forall₂_map_right_iff, List.forall₂_same]
    intro s hs
    exact value_rel hp hd (by have := (subs_spec.2 s hs).1; omega)

theorem forall₂_flatMap {α β γ : Type*} {R : β → γ → Prop} {f : α → List β} {g : α → List γ} {l : List α}
    (h : ∀ a ∈ l, List.Forall₂ R (f a) (g a)) : List.Forall₂ R (l.flatMap f) (l.flatMap g) := by
  induction l with
  | nil => simp
  | cons a l ih =>
    rw [List.flatMap_cons, List.flatMap_cons]
    exact List.rel_append (h a (by simp)) (ih fun b hb => h b (by simp [hb]))

theorem loop_rel (hp : PowAcc q.pw) (hf : q.factor = 1) (hd : ∀ d ∈ q.decades, |d| ≤ 300) :
    List.Forall₂ (fun (v : ℚ) (m : ℤ × ℤ) => Rel 4 v (m.1 * 10 ^ m.2)) q.loop.1 q.marks := by
  rw [values_eq, ReqD.marks]
  exact forall₂_flatMap fun d h => group_rel hp hf (hd d h)

theorem mem_marks {m : ℤ × ℤ} (h : m ∈ q.marks) : 1 ≤ m.1 ∧ m.1 ≤ 9 ∧ m.2 ∈ q.decades := by
  obtain ⟨d, hd, hm⟩ := List.mem_flatMap.1 h
  obtain ⟨s, hs, rfl⟩ := List.mem_map.1 hm
  rcases List.mem_cons.1 hs with rfl | hs
  · exact ⟨le_refl _, by norm_num, hd⟩
  · have := subs_spec.2 s hs
    exact ⟨by simp; omega, by simp; omega, hd⟩

/-- C142: a tick is where its mark is, up to the last places. -/
theorem C142_near_partial (hp : PowAcc q.pw) (hl : LogAcc q.ln) (hf : q.factor = 1) (hd : ∀ d ∈ q.decades, |d| ≤ 300) :
    List.Forall₂ (fun (v : ℚ) (m : ℤ × ℤ) => |(v : ℝ) - (m.2 + Real.logb 10 m.1)| ≤ (|m.2| + 3) / 2 ^ 50) q.values q.marks := by
  rw [ReqD.values, List.forall₂_map_left_iff]
  have h := loop_rel hp hf hd
  rw [List.forall₂_iff_get] at h ⊢
  refine ⟨h.1, fun i h1 h2 => ?_⟩
  have hm := mem_marks (List.get_mem q.marks ⟨i, h2⟩)
  exact tick_near hl hm.1 hm.2.1 (h.2 i h1 h2)

/-- C142: a label is the mark. -/
theorem C142_labels_partial (hp : PowAcc q.pw) (hl : LogAcc q.ln) (hf : q.factor = 1) (hd : ∀ d ∈ q.decades, |d| ≤ 300) :
    q.labels = q.marks.map fun m => (⟨false, m.1, 0, some m.2⟩ : Label) := by
  rw [ReqD.labels, precision_zero hl hf]
  have h := loop_rel hp hf hd
  have hm := fun m h => mem_marks (q := q) (m := m) h
  generalize q.loop.1 = l at h
  generalize q.marks = ms at h hm
  induction h with
  | nil => rfl
  | cons h _ ih =>
    rw [List.map_cons, List.map_cons, ih fun m h => hm m (by simp [h])]
    have := hm _ (List.mem_cons_self ..)
    rw [label_mark this.1 this.2.1 h]

/-- Marks that follow one another are a ninth apart. -/
theorem marks_apart : q.marks.Pairwise fun m n => (10 / 9 : ℚ) * (m.1 * 10 ^ m.2) ≤ n.1 * 10 ^ n.2 := by
  rw [ReqD.marks, List.pairwise_flatMap]
  have hs := subs_spec (q := q)
  constructor
  · intro d _
    have hp : (0 : ℚ) < 10 ^ d := zpow_pos (by norm_num) d
    rw [List.pairwise_map]
    have : (1 :: q.subs).Pairwise (fun s t => s < t ∧ t ≤ 9) := by
      rw [List.pairwise_cons]
      refine ⟨fun t ht => ⟨by have := (hs.2 t ht).1; omega, (hs.2 t ht).2⟩, ?_⟩
      exact hs.1.imp_of_mem fun {s t} _ ht h => ⟨h, (hs.2 t ht).2⟩
    refine this.imp fun {s t} h => ?_
    have h1 : (s : ℚ) + 1 ≤ t := by exact_mod_cast h.1
    have h2 : (t : ℚ) ≤ 9 := by exact_mod_cast h.2
    nlinarith
  · refine (pairwise_arangeD (by have := division_pos (q := q); omega)).imp fun {d e} hde m hm n hn => ?_
    obtain ⟨s, hs', rfl⟩ := List.mem_map.1 hm
    obtain ⟨t, ht, rfl⟩ := List.mem_map.1 hn
    have h1 : s ≤ 9 := by
      rcases List.mem_cons.1 hs' with rfl | h
      · norm_num
      · exact (hs.2 s h).2
    have h2 : 1 ≤ t := by
      rcases List.mem_cons.1 ht with rfl | h
      · norm_num
      · have := (hs.2 t h).1; omega
    have h1' : (s : ℚ) ≤ 9 := by exact_mod_cast h1
    have h2' : (1 : ℚ) ≤ t := by exact_mod_cast h2
    have hp : (0 : ℚ) < 10 ^ d := zpow_pos (by norm_num) d
    have h3 : (10 : ℚ) ^ d * 10 ≤ 10 ^ e := by
      rw [← zpow_add_one₀ (by norm_num)]
      exact zpow_le_zpow_right₀ (by norm_num) hde
    simp only
    nlinarith

theorem logb_gap {x y : ℝ} (hx : 0 < x) (h : 10 / 9 * x ≤ y) : Real.logb 10 x + 1 / 22 ≤ Real.logb 10 y := by
  have h1 : Real.logb 10 (10 / 9 * x) ≤ Real.logb 10 y := Real.logb_le_logb_of_le (by norm_num) (by positivity) h
  rw [Real.logb_mul (by norm_num) hx.ne'] at h1
  have h2 : (1 : ℝ) / 22 ≤ Real.logb 10 (10 / 9) := by
    have : Real.logb 10 10 ≤ Real.logb 10 ((10 / 9) ^ 22) := Real.logb_le_logb_of_le (by norm_num) (by norm_num) (by norm_num)
    rw [Real.logb_self_eq_one (by norm_num), Real.logb_pow] at this
    push_cast at this
    linarith
  linarith

/-- C142: ticks grow from left to right, by at least a thirtieth of a decade. -/
theorem C142_increasing_partial (hp : PowAcc q.pw) (hl : LogAcc q.ln) (hf : q.factor = 1) (hd : ∀ d ∈ q.decades, |d| ≤ 300) :
    q.values.Pairwise fun v w => v + 1 / 30 < w := by
  have hn := C142_near_partial hp hl hf hd
  have ha := marks_apart (q := q)
  rw [List.forall₂_iff_get] at hn
  rw [List.pairwise_iff_getElem] at ha ⊢
  intro i j hi hj hij
  have hi' : i < q.marks.length := hn.1 ▸ hi
  have hj' : j < q.marks.length := hn.1 ▸ hj
  have a := ha i j hi' hj' hij
  have b := hn.2 i hi hi'
  have c := hn.2 j hj hj'
  simp only [List.get_eq_getElem] at b c
  have mi := mem_marks (List.getElem_mem hi')
  have mj := mem_marks (List.getElem_mem hj')
  have di := hd _ mi.2.2
  have dj := hd _ mj.2.2
  generalize q.marks[i] = m at *
  generalize q.marks[j] = n at *
  generalize q.values[i] = v at *
  generalize q.values[j] = w at *
  have g := logb_gap (x := ((m.1 * 10 ^ m.2 : ℚ) : ℝ)) (y := ((n.1 * 10 ^ n.2 : ℚ) : ℝ)) (by
    have : (0 : ℚ) < m.1 * 10 ^ m.2 := mul_pos (by exact_mod_cast (show (0 : ℤ) < m.1 by omega)) (zpow_pos (by norm_num) _)
    exact_mod_cast this) (by
    have := (Rat.cast_le (K := ℝ)).2 a
    push_cast at this ⊢
    exact this)
  rw [logb_mark mi.1, logb_mark mj.1] at g
  have di' : ((|m.2| : ℤ) : ℝ) ≤ 300 := by exact_mod_cast di
  have dj' : ((|n.2| : ℤ) : ℝ) ≤ 300 := by exact_mod_cast dj
  push_cast at di' dj'
  have b' := abs_le.1 b
  have c' := abs_le.1 c
  rw [← Rat.cast_lt (K := ℝ)]
  push_cast at b' c' ⊢
  norm_num at b' c' ⊢
  linarith

/-- C142: no two ticks have the same label. -/
theorem C142_distinct_partial (hp : PowAcc q.pw) (hl : LogAcc q.ln) (hf : q.factor = 1) (hd : ∀ d ∈ q.decades, |d| ≤ 300) :
    q.labels.Nodup := by
  rw [C142_labels_partial hp hl hf hd]
  refine List.Nodup.map ?_ ?_
  · intro m n h
    simp only [Label.mk.injEq, Option.some.injEq, true_and] at h
    exact Prod.ext h.1 h.2
  · have ha := (marks_apart (q := q)).imp_of_mem (S := fun m n => m ≠ n) (fun {m n} hm _ h => by
      rintro rfl
      have : (0 : ℚ) < m.1 * 10 ^ m.2 :=
        mul_pos (by exact_mod_cast (show (0 : ℤ) < m.1 by have := (mem_marks hm).1; omega)) (zpow_pos (by norm_num) _)
      linarith)
    exact ha

/-! ### Minor ticks -/

/-- What the claim says of the minor indices. -/
structure MinorOf (ms : List (ℤ × ℤ)) (minor : List ℕ) : Prop where
  sorted : minor.Pairwise (· < ·)
  mem : ∀ i, i ∈ minor ↔ ∃ m, ms[i]? = some m ∧ m.1 ≠ 1

theorem minor_step {ms : List (ℤ × ℤ)} {minor : List ℕ} (h : MinorOf ms minor) (d : ℤ) :
    MinorOf (ms ++ (1 :: q.subs).map fun s => (s, d)) (minor ++ List.range' (ms.length + 1) q.subs.length) := by
  have hlt : ∀ i ∈ minor, i < ms.length := by
    intro i hi
    obtain ⟨m, hm, -⟩ := (h.mem i).1 hi
    exact (List.getElem?_eq_some_iff.1 hm).1
  constructor
  · rw [List.pairwise_append]
    refine ⟨h.sorted, List.pairwise_lt_range', fun i hi j hj => ?_⟩
    have := hlt i hi
    rw [List.mem_range'_1] at hj
    omega
  · intro i
    rw [List.mem_append, List.mem_range'_1]
    by_cases hi : i < ms.length
    · rw [List.getElem?_append_left hi, h.mem i]
      constructor
      · rintro (h | h)
        · exact h
        · omega
      · exact Or.inl
    · rw [List.getElem?_append_right (by omega)]
      have hn : i ∉ minor := fun h' => hi (hlt i h')
      obtain ⟨j, hj⟩ : ∃ j, j = i - ms.length := ⟨_, rfl⟩
      rw [← hj, List.map_cons]
      cases j with
      | zero =>
        simp only [hn, List.getElem?_cons_zero, Option.some.injEq, false_or]
        constructor
        · intro; omega
        · rintro ⟨m, rfl, h⟩; exact absurd rfl h
      | succ j =>
        rw [List.getElem?_cons_succ, List.getElem?_map]
        constructor
        · rintro (h' | h')
          · exact absurd h' hn
          · have : j < q.subs.length := by omega
            refine ⟨(q.subs[j], d), by rw [List.getElem?_eq_getElem this]; rfl, ?_⟩
            have := (subs_spec (q := q)).2 _ (List.getElem_mem this)
            simp only
            omega
        · rintro ⟨m, hm, -⟩
          obtain ⟨s, hs, -⟩ := Option.map_eq_some_iff.1 hm
          have := (List.getElem?_eq_some_iff.1 hs).1
          right
          omega

theorem minor_loop : MinorOf q.marks q.loop.2 := by
  rw [ReqD.loop, ReqD.marks]
  suffices H : ∀ (ds : List ℤ) (acc : List ℚ × List ℕ) (ms : List (ℤ × ℤ)), acc.1.length = ms.length → MinorOf ms acc.2 →
      MinorOf (ms ++ ds.flatMap fun d => (1 :: q.subs).map fun s => (s, d)) (ds.foldl q.addDecade acc).2 by
    have := H q.decades ([], []) [] rfl ⟨List.Pairwise.nil, by simp⟩
    rwa [List.nil_append] at this
  intro ds
  induction ds with
  | nil => intro acc ms _ h; simpa using h
  | cons d ds ih =>
    intro acc ms hlen h
    rw [List.foldl_cons, List.flatMap_cons, ← List.append_assoc]
    apply ih
    · rw [addDecade_eq]
      simp [ReqD.group, hlen]
    · rw [addDecade_eq, hlen]
      exact minor_step h d

/-- C142: the minor ticks are those whose label does not say one. -/
theorem C142_minor_partial (hp : PowAcc q.pw) (hl : LogAcc q.ln) (hf : q.factor = 1) (hd : ∀ d ∈ q.decades, |d| ≤ 300) :
    q.minor.Pairwise (· < ·) ∧ ∀ i, i ∈ q.minor ↔ ∃ l, q.labels[i]? = some l ∧ l.digits ≠ 1 := by
  have h := minor_loop (q := q)
  refine ⟨h.sorted, fun i => ?_⟩
  rw [ReqD.minor, h.mem i, C142_labels_partial hp hl hf hd, List.getElem?_map]
  constructor
  · rintro ⟨m, hm, h1⟩
    exact ⟨_, by rw [hm]; rfl, h1⟩
  · rintro ⟨l, hl', h1⟩
    obtain ⟨m, hm, rfl⟩ := Option.map_eq_some_iff.1 hl'
    exact ⟨m, hm, h1⟩

/-! ### The ends -/

/-- Dividing small integers does not round across an integer. -/
theorem ceil_div {m s : ℤ} (hs : 0 < s) (h0 : 0 ≤ m) (hm : m ≤ 2 ^ 40) : ⌈fl ((m : ℚ) / s)⌉ = ⌈(m : ℚ) / s⌉ := by
  have hs' : (0 : ℚ) < s := by exact_mod_cast hs
  have hs1 : (1 : ℚ) ≤ s := by exact_mod_cast hs
  have hm' : (m : ℚ) ≤ 2 ^ 40 := by exact_mod_cast hm
  have h0' : (0 : ℚ) ≤ m := by exact_mod_cast h0
  obtain ⟨n, hn⟩ : ∃ n, n = ⌈(m : ℚ) / s⌉ := ⟨_, rfl⟩
  have h1 : (m : ℚ) / s ≤ n := by rw [hn]; exact Int.le_ceil _
  have h2 : (n : ℚ) - 1 < (m : ℚ) / s := by
    have := Int.ceil_lt_add_one ((m : ℚ) / s)
    rw [← hn] at this
    linarith
  have n0 : 0 ≤ n := by rw [hn]; exact Int.ceil_nonneg (by positivity)
  have nm : n ≤ m := by
    rw [hn, Int.ceil_le, div_le_iff₀ hs']
    nlinarith
  rw [← hn, Int.ceil_eq_iff]
  constructor
  · have h3 : ((n : ℚ) - 1) * s < m := by rwa [lt_div_iff₀ hs'] at h2
    have h4 : (n - 1) * s + 1 ≤ m := by
      have : (n - 1) * s < m := by exact_mod_cast h3
      omega
    have h5 : ((n : ℚ) - 1) * s + 1 ≤ m := by exact_mod_cast h4
    have h6 := (abs_le.1 (fl_near ((m : ℚ) / s))).1
    rw [abs_of_nonneg (by positivity)] at h6
    have h7 : (n : ℚ) - 1 + 1 / s ≤ m / s := by
      rw [le_div_iff₀ hs', add_mul, div_mul_cancel₀ _ hs'.ne']
      exact h5
    have h8 : (m : ℚ) / s / 2 ^ 53 < 1 / s := by
      rw [div_div, div_lt_div_iff₀ (by positivity) hs']
      norm_num at hm' ⊢
      nlinarith
    linarith
  · have := fl_mono h1
    rwa [fl_int (by rw [abs_of_nonneg n0]; omega)] at this

theorem mem_arangeD {a b s x : ℤ} (hs : 0 < s) (h0 : a ≤ b) (hm : b - a ≤ 2 ^ 40) (h : x ∈ arangeD a b s) : a ≤ x ∧ x < b := by
  rw [arangeD, ceil_div hs (by omega) hm] at h
  obtain ⟨k, hk, rfl⟩ := List.mem_map.1 h
  rw [List.mem_range] at hk
  have h1 : (k : ℤ) < ⌈((b - a : ℤ) : ℚ) / s⌉ := by omega
  rw [Int.lt_ceil, lt_div_iff₀ (by exact_mod_cast hs)] at h1
  have h2 : (k : ℤ) * s < b - a := by exact_mod_cast h1
  have h3 : 0 ≤ (k : ℤ) * s := by positivity
  omega

/-- The decades go beyond the upper limit. -/
theorem decades_ends (hr : q.max0 + q.division - q.min0 ≤ 2 ^ 40) :
    q.decades.head? = some q.min0 ∧ ∃ d ∈ q.decades, q.max0 ≤ d := by
  have hd := division_pos (q := q)
  have hlt : q.min0 + 1 ≤ q.max0 := le_max_right _ _
  have hs' : (0 : ℚ) < q.division := by exact_mod_cast (show 0 < q.division by omega)
  rw [ReqD.decades, arangeD, ceil_div (by omega) (by omega) hr]
  obtain ⟨n, hn⟩ : ∃ n, n = ⌈((q.max0 + q.division - q.min0 : ℤ) : ℚ) / q.division⌉ := ⟨_, rfl⟩
  have h1 : ((q.max0 + q.division - q.min0 : ℤ) : ℚ) ≤ n * q.division := by
    rw [← div_le_iff₀ hs', hn]
    exact Int.le_ceil _
  have h2 : q.max0 + q.division - q.min0 ≤ n * q.division := by exact_mod_cast h1
  have hn2 : 1 < n := by
    by_contra h
    have : n * q.division ≤ 1 * q.division := mul_le_mul_of_nonneg_right (by omega) (by omega)
    omega
  rw [← hn]
  obtain ⟨k, hk⟩ : ∃ k : ℕ, n = k + 1 := ⟨(n - 1).toNat, by omega⟩
  have e : n.toNat = k + 1 := by omega
  rw [e]
  constructor
  · rw [List.range_succ_eq_map]
    simp
  · refine ⟨q.min0 + k * q.division, List.mem_map.2 ⟨k, by simp, rfl⟩, ?_⟩
    rw [hk] at h2
    nlinarith

theorem ends_min (hf : q.factor = 1) (hl : Dbl q.low) : q.min0 = ⌊q.low⌋ := by
  rw [ReqD.min0, hf, div_one, fl_of_dbl hl]

theorem ends_max (hf : q.factor = 1) (hl : Dbl q.low) (hh : Dbl q.high) : q.max0 = max ⌈q.high⌉ (⌊q.low⌋ + 1) := by
  rw [ReqD.max0, hf, div_one, fl_of_dbl hh, ends_min hf hl]

theorem shrink_le (r : ℚ) (n : ℕ) : shrink r n ≤ n := by
  induction n with
  | zero => exact le_refl _
  | succ n ih =>
    rw [shrink]
    split_ifs
    · omega
    · exact le_refl _

theorem division_le (ht : 1 ≤ q.ticks) : q.division ≤ q.max0 - q.min0 + 1 := by
  have hlt : q.min0 + 1 ≤ q.max0 := le_max_right _ _
  have hn : 0 ≤ q.numdec ∧ q.numdec ≤ q.max0 - q.min0 := by
    rw [ReqD.numdec]
    split_ifs
    · have := shrink_le q.range (q.max0 - q.min0).toNat
      omega
    · omega
  rw [ReqD.division, max_le_iff, Int.fdiv_eq_ediv_of_nonneg _ (by omega)]
  refine ⟨?_, by omega⟩
  have := Int.ediv_le_self q.ticks (show 0 ≤ q.numdec + 1 by omega)
  omega

/-- Limits of at most 10^100 are drawn with exponents that floats have. -/
theorem decades_small (hf : q.factor = 1) (hl : Dbl q.low) (hh : Dbl q.high) (ht : 1 ≤ q.ticks) (h1 : |q.low| ≤ 90) (h2 : |q.high| ≤ 90) :
    q.max0 + q.division - q.min0 ≤ 2 ^ 40 ∧ ∀ d ∈ q.decades, |d| ≤ 300 := by
  rw [abs_le] at h1 h2
  have a1 : -90 ≤ ⌊q.low⌋ := by rw [Int.le_floor]; push_cast; linarith
  have a2 : ⌊q.low⌋ ≤ 90 := by
    have : ((⌊q.low⌋ : ℤ) : ℚ) ≤ 90 := (Int.floor_le _).trans h1.2
    exact_mod_cast this
  have a3 : ⌈q.high⌉ ≤ 90 := by rw [Int.ceil_le]; push_cast; linarith
  have e1 := ends_min hf hl
  have e2 := ends_max hf hl hh
  have hlt : q.min0 + 1 ≤ q.max0 := le_max_right _ _
  have hd := division_le ht
  have hd1 := division_pos (q := q)
  have hmax : q.max0 ≤ 91 := by omega
  have hr : q.max0 + q.division - q.min0 ≤ 2 ^ 40 := by norm_num; omega
  refine ⟨hr, fun d h => ?_⟩
  rw [ReqD.decades] at h
  have := mem_arangeD (by omega) (by omega) hr h
  rw [abs_le]
  omega

/-- C142: for limits up to 10^90 the first tick is at the lower limit or before it and some tick is at the upper limit or after it, up to the
last places. -/
theorem C142_covers_partial (hp : PowAcc q.pw) (hl : LogAcc q.ln) (hf : q.factor = 1) (hlow : Dbl q.low) (hhigh : Dbl q.high)
    (ht : 1 ≤ q.ticks) (h1 : |q.low| ≤ 90) (h2 : |q.high| ≤ 90) :
    (∃ v, q.values.head? = some v ∧ v ≤ q.low + 1 / 2 ^ 40) ∧ ∃ v ∈ q.values, q.high - 1 / 2 ^ 40 ≤ v := by
  obtain ⟨hr, hd⟩ := decades_small hf hlow hhigh ht h1 h2
  obtain ⟨e1, d, hd1, hd2⟩ := decades_ends hr
  have hn := C142_near_partial hp hl hf hd
  have key : ∀ d ∈ q.decades, ∀ v : ℚ, |(v : ℝ) - (((d : ℤ) : ℝ) + Real.logb 10 ((1 : ℤ) : ℝ))| ≤ (((|d| : ℤ) : ℝ) + 3) / 2 ^ 50 →
      |v - d| ≤ 1 / 2 ^ 40 := by
    intro d h v hv
    have h3 := hd d h
    have h3' : ((|d| : ℤ) : ℝ) ≤ 300 := by exact_mod_cast h3
    rw [← Rat.cast_le (K := ℝ)]
    push_cast at h3' hv ⊢
    rw [Real.logb_one, add_zero] at hv
    refine hv.trans ?_
    rw [div_le_iff₀ (by norm_num)]
    norm_num
    linarith
  constructor
  · obtain ⟨ds, hds⟩ : ∃ ds, q.decades = q.min0 :: ds := by
      cases h : q.decades with
      | nil => rw [h] at e1; simp at e1
      | cons a ds => rw [h] at e1; simp only [List.head?_cons, Option.some.injEq] at e1; exact ⟨ds, by rw [e1]⟩
    have hm : ∃ ms, q.marks = (1, q.min0) :: ms := ⟨_, by rw [ReqD.marks, hds]; rfl⟩
    obtain ⟨ms, hm⟩ := hm
    rw [hm] at hn
    cases hv : q.values with
    | nil => rw [hv] at hn; cases hn
    | cons v vs =>
      rw [hv, List.forall₂_cons] at hn
      refine ⟨v, rfl, ?_⟩
      have h3 := key q.min0 (by rw [hds]; simp) v (by
        have := hn.1
        push_cast at this ⊢
        exact this)
      have h4 := (abs_le.1 h3).2
      have h5 : (q.min0 : ℚ) ≤ q.low := by rw [ends_min hf hlow]; exact Int.floor_le _
      linarith
  · have hm : (1, d) ∈ q.marks := List.mem_flatMap.2 ⟨d, hd1, by simp⟩
    rw [List.forall₂_iff_get] at hn
    obtain ⟨i, hi, hi'⟩ := List.mem_iff_getElem.1 hm
    have hi2 : i < q.values.length := hn.1 ▸ hi
    refine ⟨q.values[i], List.getElem_mem _, ?_⟩
    have h3 := key d hd1 q.values[i] (by
      have := hn.2 i hi2 hi
      simp only [List.get_eq_getElem, hi'] at this
      push_cast at this ⊢
      exact this)
    have h4 := (abs_le.1 h3).1
    have h5 : q.high ≤ d := by
      have h6 : ⌈q.high⌉ ≤ d := by rw [ends_max hf hlow hhigh] at hd2; exact (le_max_left _ _).trans hd2
      exact (Int.le_ceil _).trans (by exact_mod_cast h6)
    linarith

/-! ### Not exactly -/

/-- Rounding to a nearest double keeps the order. -/
theorem nearest_ge {x : ℝ} {v r : ℚ} (h : Nearest x v) (hr : (r : ℝ) < x) : fl r ≤ v := by
  by_contra hlt
  rw [not_le] at hlt
  have h1 := h.2 (fl r) (fl_dbl r)
  have h2 : |((fl r : ℚ) : ℝ) - r| ≤ |(v : ℝ) - r| := by exact_mod_cast fl_nearest r v h.1
  have hlt' : (v : ℝ) < ((fl r : ℚ) : ℝ) := by exact_mod_cast hlt
  generalize ((fl r : ℚ) : ℝ) = w at *
  rw [← sq_le_sq] at h1 h2
  nlinarith

theorem nearest_le {x : ℝ} {v r : ℚ} (h : Nearest x v) (hr : x < (r : ℝ)) : v ≤ fl r := by
  by_contra hlt
  rw [not_le] at hlt
  have h1 := h.2 (fl r) (fl_dbl r)
  have h2 : |((fl r : ℚ) : ℝ) - r| ≤ |(v : ℝ) - r| := by exact_mod_cast fl_nearest r v h.1
  have hlt' : ((fl r : ℚ) : ℝ) < (v : ℝ) := by exact_mod_cast hlt
  generalize ((fl r : ℚ) : ℝ) = w at *
  rw [← sq_le_sq] at h1 h2
  nlinarith

theorem log_series {x : ℚ} (hx : 0 < x) (hx1 : x < 1) (n : ℕ) :
    |((∑ i ∈ Finset.range n, x ^ (i + 1) / (i + 1) : ℚ) : ℝ) + Real.log (1 - x)| ≤ ((x ^ (n + 1) / (1 - x) : ℚ) : ℝ) := by
  have := Real.abs_log_sub_add_sum_range_le (x := (x : ℝ)) (by rw [abs_of_pos (by exact_mod_cast hx)]; exact_mod_cast hx1) n
  rw [abs_of_pos (show (0 : ℝ) < x by exact_mod_cast hx)] at this
  push_cast
  exact this

/-- Twenty digits of the logarithm of ten. -/
theorem log_ten_digits : ((2302585092994045684017 / 10 ^ 21 : ℚ) : ℝ) < Real.log 10 ∧ Real.log 10 < ((2302585092994045684019 / 10 ^ 21 : ℚ) : ℝ) := by
  have a := abs_le.1 (log_series (x := 1 / 2) (by norm_num) (by norm_num) 80)
  have b := abs_le.1 (log_series (x := 1 / 5) (by norm_num) (by norm_num) 40)
  have e : Real.log 10 = -3 * Real.log (1 - ((1 / 2 : ℚ) : ℝ)) - Real.log (1 - ((1 / 5 : ℚ) : ℝ)) := by
    have h1 : (1 : ℝ) - ((1 / 2 : ℚ) : ℝ) = 2⁻¹ := by norm_num
    have h2 : (1 : ℝ) - ((1 / 5 : ℚ) : ℝ) = (5 / 4)⁻¹ := by norm_num
    rw [h1, h2, Real.log_inv, Real.log_inv, show (10 : ℝ) = 2 ^ 3 * (5 / 4) by norm_num, Real.log_mul (by norm_num) (by norm_num),
      Real.log_pow]
    push_cast
    ring
  rw [e]
  have c1 : (2302585092994045684017 / 10 ^ 21 : ℚ) < 3 * (∑ i ∈ Finset.range 80, (1 / 2 : ℚ) ^ (i + 1) / (i + 1) - (1 / 2) ^ 81 / (1 - 1 / 2)) +
      (∑ i ∈ Finset.range 40, (1 / 5 : ℚ) ^ (i + 1) / (i + 1) - (1 / 5) ^ 41 / (1 - 1 / 5)) := by decide +kernel
  have c2 : 3 * (∑ i ∈ Finset.range 80, (1 / 2 : ℚ) ^ (i + 1) / (i + 1) + (1 / 2) ^ 81 / (1 - 1 / 2)) +
      (∑ i ∈ Finset.range 40, (1 / 5 : ℚ) ^ (i + 1) / (i + 1) + (1 / 5) ^ 41 / (1 - 1 / 5)) < (2302585092994045684019 / 10 ^ 21 : ℚ) := by
    decide +kernel
  have c1' := (Rat.cast_lt (K := ℝ)).2 c1
  have c2' := (Rat.cast_lt (K := ℝ)).2 c2
  rw [Rat.cast_add, Rat.cast_mul, Rat.cast_sub, Rat.cast_sub] at c1'
  rw [Rat.cast_add, Rat.cast_mul, Rat.cast_add, Rat.cast_add] at c2'
  rw [show ((3 : ℚ) : ℝ) = 3 by norm_num] at c1' c2'
  norm_num at c1' c2' ⊢
  norm_num at a b
  constructor <;> linarith

/-- Logarithms rounded to the nearest double. -/
def LogNearest (ln : ℚ → ℚ) : Prop := ∀ x : ℚ, 0 < x → Nearest (Real.log x) (ln x)

/-- Powers rounded to the nearest double. -/
def PowNearest (pw : ℚ → ℚ) : Prop := ∀ x : ℚ, |x| ≤ 300 → Nearest ((10 : ℝ) ^ (x : ℝ)) (pw x)

theorem LogNearest.acc {ln : ℚ → ℚ} (h : LogNearest ln) : LogAcc ln := fun x hx => nearest_acc (h x hx)

theorem ln_ten {ln : ℚ → ℚ} (h : LogNearest ln) : ln 10 = 5184960683398422 / 2 ^ 51 := by
  have hn := h 10 (by norm_num)
  rw [show Real.log ((10 : ℚ) : ℝ) = Real.log 10 by norm_num] at hn
  have h1 := nearest_ge hn log_ten_digits.1
  have h2 := nearest_le hn log_ten_digits.2
  have e1 : fl (2302585092994045684017 / 10 ^ 21) = 5184960683398422 / 2 ^ 51 := by decide +kernel
  have e2 : fl (2302585092994045684019 / 10 ^ 21) = 5184960683398422 / 2 ^ 51 := by decide +kernel
  rw [e1] at h1
  rw [e2] at h2
  exact le_antisymm h2 h1

theorem ln_thousand {ln : ℚ → ℚ} (h : LogNearest ln) : ln 1000 = 7777441025097632 / 2 ^ 50 := by
  have hn := h 1000 (by norm_num)
  have e : Real.log ((1000 : ℚ) : ℝ) = 3 * Real.log 10 := by
    rw [show ((1000 : ℚ) : ℝ) = 10 ^ 3 by norm_num, Real.log_pow]; norm_num
  rw [e] at hn
  have h1 := nearest_ge (r := 3 * (2302585092994045684017 / 10 ^ 21)) hn (by
    have := log_ten_digits.1
    rw [Rat.cast_mul]
    push_cast at this ⊢
    linarith)
  have h2 := nearest_le (r := 3 * (2302585092994045684019 / 10 ^ 21)) hn (by
    have := log_ten_digits.2
    rw [Rat.cast_mul]
    push_cast at this ⊢
    linarith)
  have e1 : fl (3 * (2302585092994045684017 / 10 ^ 21)) = 7777441025097632 / 2 ^ 50 := by decide +kernel
  have e2 : fl (3 * (2302585092994045684019 / 10 ^ 21)) = 7777441025097632 / 2 ^ 50 := by decide +kernel
  rw [e1] at h1
  rw [e2] at h2
  exact le_antisymm h2 h1

/-- The tick of a thousand is below three. -/
theorem log_thousand (h : LogNearest q.ln) : q.log 1000 < 3 := by
  rw [ReqD.log, ln_ten h, ln_thousand h]
  decide +kernel

theorem pow_exact {pw : ℚ → ℚ} (h : PowNearest pw) {d : ℕ} (hd : d ≤ 15) : pw d = 10 ^ d := by
  have hn := h d (by rw [abs_of_nonneg (Nat.cast_nonneg d)]; exact_mod_cast (show d ≤ 300 by omega))
  have e : (10 : ℝ) ^ (((d : ℕ) : ℚ) : ℝ) = ((10 ^ d : ℚ) : ℝ) := by
    push_cast
    rw [Real.rpow_natCast]
  rw [e] at hn
  have := hn.2 (10 ^ d) ⟨10 ^ d, 0, by
    rw [abs_of_nonneg (by positivity)]
    exact (pow_le_pow_right₀ (by norm_num) hd).trans (by norm_num), by push_cast; simp⟩
  rw [sub_self, abs_zero, abs_nonpos_iff, sub_eq_zero] at this
  exact_mod_cast this

/-- From one to a thousand. -/
def thousand (pw ln : ℚ → ℚ) : ReqD := ⟨0, 3, 5, pw, ln⟩

theorem thousand_factor (pw ln : ℚ → ℚ) : (thousand pw ln).factor = 1 := by
  have h1 : ¬ (fl ((((5 : ℤ) : ℚ) - 2) / 10) > |fl (3 - 0)| ∧ |fl (3 - 0 : ℚ)| > 0) := by decide +kernel
  exact if_neg h1

theorem thousand_decades (pw ln : ℚ → ℚ) : (thousand pw ln).decades = [0, 1, 2, 3] ∧ (thousand pw ln).subs = [] := by
  have hf := thousand_factor pw ln
  have hmin : (thousand pw ln).min0 = 0 := by
    rw [ends_min hf dbl_zero]
    exact Int.floor_zero
  have hmax : (thousand pw ln).max0 = 3 := by
    rw [ends_max hf dbl_zero (dbl_int (z := 3) (by norm_num))]
    show max ⌈(3 : ℚ)⌉ (⌊(0 : ℚ)⌋ + 1) = 3
    norm_num
  have hr : (thousand pw ln).range = 3 := by
    show |fl (3 - 0)| = 3
    decide +kernel
  have hn : (thousand pw ln).numdec = 3 := by
    rw [ReqD.numdec, if_pos hf, hmin, hmax, hr]
    decide +kernel
  have hdiv : (thousand pw ln).division = 1 := by
    rw [ReqD.division, hn]
    rfl
  refine ⟨by rw [ReqD.decades, hmin, hmax, hdiv]; decide +kernel, ?_⟩
  have hs : (thousand pw ln).numSubs < 2 := by
    rw [ReqD.numSubs, hr, hdiv]
    show (if (3 : ℚ) > 0 then fl (((5 : ℤ) : ℚ) / fl (3 / ((1 : ℤ) : ℚ))) else 0) < 2
    decide +kernel
  rw [ReqD.subs, if_neg (by simp [hf]), if_neg (by linarith), if_neg (by linarith), if_neg (by linarith)]

theorem thousand_values {pw ln : ℚ → ℚ} (hp : PowNearest pw) :
    (thousand pw ln).values = [(thousand pw ln).log 1, (thousand pw ln).log 10, (thousand pw ln).log 100, (thousand pw ln).log 1000] := by
  obtain ⟨hd, hs⟩ := thousand_decades pw ln
  have e : ∀ d : ℕ, d ≤ 15 → pw (fl (((d : ℤ) : ℚ) * 1)) = 10 ^ d := fun d h => by
    rw [mul_one, fl_int (by rw [abs_le]; norm_num; omega), Int.cast_natCast]
    exact pow_exact hp h
  have g : ∀ d : ℕ, d ≤ 15 → (thousand pw ln).group d = [10 ^ d] := fun d h => by
    rw [ReqD.group, hs, thousand_factor, List.map_nil]
    exact congrArg (· :: []) (e d h)
  rw [ReqD.values, values_eq, hd]
  have g0 := g 0 (by norm_num)
  have g1 := g 1 (by norm_num)
  have g2 := g 2 (by norm_num)
  have g3 := g 3 (by norm_num)
  norm_num at g0 g1 g2 g3
  simp [g0, g1, g2, g3]

/-- C142: the ticks for 1 to 1000 end before 1000, however accurate the functions of the library are. -/
theorem C142_counterexample {pw ln : ℚ → ℚ} (hp : PowNearest pw) (hl : LogNearest ln) : ∀ v ∈ (thousand pw ln).values, v < 3 := by
  rw [thousand_values hp]
  have h2 : ∀ {x : ℚ} {k : ℕ}, x = 10 ^ k → k ≤ 2 → (thousand pw ln).log x < 3 := by
    intro x k hx hk
    have h := logD_near (q := thousand pw ln) hl.acc (v := x) (by rw [hx]; positivity)
    have e : Real.logb 10 (x : ℝ) = k := by
      rw [hx]
      push_cast
      rw [Real.logb_pow, Real.logb_self_eq_one (by norm_num), mul_one]
    have hk' : (k : ℝ) ≤ 2 := by exact_mod_cast hk
    rw [e, abs_of_nonneg (show (0 : ℝ) ≤ (k : ℝ) from Nat.cast_nonneg k)] at h
    have h' := (abs_le.1 h).2
    rw [← Rat.cast_lt (K := ℝ)]
    norm_num at h' ⊢
    linarith
  intro v hv
  simp only [List.mem_cons, List.not_mem_nil, or_false] at hv
  rcases hv with rfl | rfl | rfl | rfl
  · exact h2 (k := 0) (by norm_num) (by norm_num)
  · exact h2 (k := 1) (by norm_num) (by norm_num)
  · exact h2 (k := 2) (by norm_num) (by norm_num)
  · exact log_thousand (q := thousand pw ln) hl

/-- The functions of the theorems exist. -/
example : ∃ pw ln, PowNearest pw ∧ LogNearest ln := by
  choose f hf using fun x : ℚ => exists_nearest ((10 : ℝ) ^ (x : ℝ))
  choose g hg using fun x : ℚ => exists_nearest (Real.log x)
  exact ⟨f, g, fun x _ => hf x, fun x _ => hg x⟩

/-- The labels for 1 to 1000. -/
example {pw ln : ℚ → ℚ} (hp : PowAcc pw) (hl : LogAcc ln) :
    (thousand pw ln).labels = [⟨false, 1, 0, some 0⟩, ⟨false, 1, 0, some 1⟩, ⟨false, 1, 0, some 2⟩, ⟨false, 1, 0, some 3⟩] := by
  rw [C142_labels_partial (q := thousand pw ln) hp hl (thousand_factor pw ln) (by rw [(thousand_decades pw ln).1]; decide), ReqD.marks,
    (thousand_decades pw ln).1, (thousand_decades pw ln).2]
  rfl

/-- Up to the last places, 1000 is there. -/
example {pw ln : ℚ → ℚ} (hp : PowAcc pw) (hl : LogAcc ln) : ∃ v ∈ (thousand pw ln).values, 3 - 1 / 2 ^ 40 ≤ v :=
  (C142_covers_partial (q := thousand pw ln) hp hl (thousand_factor pw ln) dbl_zero (dbl_int (z := 3) (by norm_num))
    (show (1 : ℤ) ≤ 5 by norm_num) (show |(0 : ℚ)| ≤ 90 by norm_num) (show |(3 : ℚ)| ≤ 90 by norm_num)).2

/-- One decade, with minor ticks. -/
def decade (pw ln : ℚ → ℚ) : ReqD := ⟨0, 1, 5, pw, ln⟩

theorem decade_spec (pw ln : ℚ → ℚ) :
    (decade pw ln).factor = 1 ∧ (decade pw ln).decades = [0, 1] ∧ (decade pw ln).subs = [2, 4, 6, 8] := by
  have hf : (decade pw ln).factor = 1 := by
    have h1 : ¬ (fl ((((5 : ℤ) : ℚ) - 2) / 10) > |fl (1 - 0)| ∧ |fl (1 - 0 : ℚ)| > 0) := by decide +kernel
    exact if_neg h1
  have hmin : (decade pw ln).min0 = 0 := by
    rw [ends_min hf dbl_zero]
    exact Int.floor_zero
  have hmax : (decade pw ln).max0 = 1 := by
    rw [ends_max hf dbl_zero (dbl_int (z := 1) (by norm_num))]
    show max ⌈(1 : ℚ)⌉ (⌊(0 : ℚ)⌋ + 1) = 1
    norm_num
  have hr : (decade pw ln).range = 1 := by
    show |fl (1 - 0)| = 1
    decide +kernel
  have hn : (decade pw ln).numdec = 1 := by
    rw [ReqD.numdec, if_pos hf, hmin, hmax, hr]
    decide +kernel
  have hdiv : (decade pw ln).division = 1 := by
    rw [ReqD.division, hn]
    rfl
  refine ⟨hf, by rw [ReqD.decades, hmin, hmax, hdiv]; decide +kernel, ?_⟩
  have hs : (decade pw ln).numSubs = 5 := by
    rw [ReqD.numSubs, hr, hdiv]
    show (if (1 : ℚ) > 0 then fl (((5 : ℤ) : ℚ) / fl (1 / ((1 : ℤ) : ℚ))) else 0) = 5
    decide +kernel
  rw [ReqD.subs, if_neg (by simp [hf]), hs, if_neg (by norm_num), if_pos (by norm_num)]
  decide +kernel

example {pw ln : ℚ → ℚ} (hp : PowAcc pw) (hl : LogAcc ln) : 3 ∈ (decade pw ln).minor ∧ 5 ∉ (decade pw ln).minor := by
  obtain ⟨hf, hd, hs⟩ := decade_spec pw ln
  have hd' : ∀ d ∈ (decade pw ln).decades, |d| ≤ 300 := by rw [hd]; decide
  have h := (C142_minor_partial (q := decade pw ln) hp hl hf hd').2
  rw [h 3, h 5, C142_labels_partial (q := decade pw ln) hp hl hf hd', ReqD.marks, hd, hs]
  simp

/-- The second tick is above the first by a thirtieth. -/
example {pw ln : ℚ → ℚ} (hp : PowAcc pw) (hl : LogAcc ln) : ∀ (i j : ℕ) (v w : ℚ), i < j → (decade pw ln).values[i]? = some v →
    (decade pw ln).values[j]? = some w → v + 1 / 30 < w := by
  intro i j v w hij hv hw
  obtain ⟨hf, hd, -⟩ := decade_spec pw ln
  obtain ⟨hi, rfl⟩ := List.getElem?_eq_some_iff.1 hv
  obtain ⟨hj, rfl⟩ := List.getElem?_eq_some_iff.1 hw
  exact List.pairwise_iff_getElem.1 (C142_increasing_partial (q := decade pw ln) hp hl hf (by rw [hd]; decide)) i j hi hj hij

end Verif.Geometry.LogTickerD
