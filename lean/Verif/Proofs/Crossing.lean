import Verif.Props.Geometry

/-!
# The crossing of two edges
-/

namespace Wagyu

open Spec

theorem flv_error (q : ℚ) (hq : q ≠ 0) : |flv q - q| ≤ pow2 (ulpExp q) / 2 := by
  have hp := pow2_pos (ulpExp q)
  have h := roundEven_spec (q / pow2 (ulpExp q))
  have : flv q - q = ((roundEven (q / pow2 (ulpExp q)) : ℚ) - q / pow2 (ulpExp q)) * pow2 (ulpExp q) := by
    unfold flv; rw [if_neg hq]; field_simp
  rw [this, abs_mul, abs_of_pos hp]
  calc _ ≤ 1 / 2 * pow2 (ulpExp q) := mul_le_mul_of_nonneg_right h hp.le
    _ = _ := by ring

/-- Rounding error below a power of two. -/
theorem flv_error_le {q : ℚ} {k : ℤ} (hk : -1021 ≤ k) (h : |q| ≤ pow2 k) : |flv q - q| ≤ pow2 (k - 53) := by
  by_cases hq : q = 0
  · subst hq; rw [flv_zero]; simp; exact (pow2_pos _).le
  rcases lt_or_eq_of_le h with h | h
  · refine (flv_error q hq).trans ?_
    have hs := (ilog2_spec q hq).1
    have := pow2_lt_iff.1 (lt_of_le_of_lt hs h)
    have hu : ulpExp q ≤ k - 53 := by unfold ulpExp; omega
    have := pow2_le hu
    have := pow2_pos (ulpExp q)
    linarith
  · have e : flv (pow2 k) = pow2 k := flv_exact (n := 1) (e := k) (by simp) (by
      rw [pow2_53]; norm_num) (by omega)
    have : flv q = q := by
      rcases (abs_eq (pow2_pos k).le).1 h with h | h
      · rw [h, e]
      · rw [h, flv_neg, e]
    rw [this]; simp; exact (pow2_pos _).le

/-- `bottom + t * delta` in floating point stays between the ends. -/
theorem interpolate (b d : ℤ) (t : ℚ) (t0 : 0 ≤ t) (t1 : t ≤ 1) (hb : |b| ≤ 2 ^ 53) (hd : |d| ≤ 2 ^ 53)
    (hbd : |b + d| ≤ 2 ^ 53) :
    ∃ x : ℚ, F64.add (.floatOfInt b) (F64.mul (.fin t) (.floatOfInt d)) = .fin x
      ∧ min (b : ℚ) (b + d) ≤ x ∧ x ≤ max (b : ℚ) (b + d) ∧ x = flv (b + flv (t * d)) := by
  have e1 : F64.floatOfInt b = .fin b := fl_int hb
  have e2 : F64.floatOfInt d = .fin d := fl_int hd
  rw [e1, e2]
  have hdq : |(d : ℚ)| ≤ 2 ^ 53 := by exact_mod_cast hd
  have hbq : |(b : ℚ)| ≤ 2 ^ 53 := by exact_mod_cast hb
  have hbdq : |(b : ℚ) + d| ≤ 2 ^ 53 := by exact_mod_cast hbd
  have htd : |t * (d : ℚ)| ≤ 2 ^ 53 := by
    rw [abs_mul, abs_of_nonneg t0]
    calc t * |(d : ℚ)| ≤ 1 * |(d : ℚ)| := mul_le_mul_of_nonneg_right t1 (abs_nonneg _)
      _ ≤ _ := by linarith
  have m : F64.mul (.fin t) (.fin d) = .fin (flv (t * d)) := fl_fin_of_abs (htd.trans pow2_1023_big)
  rw [m]
  have hm : min 0 (d : ℚ) ≤ flv (t * d) ∧ flv (t * d) ≤ max 0 (d : ℚ) := by
    apply flv_between
    · rcases le_total 0 (d : ℚ) with h | h
      · rw [min_eq_left h]; positivity
      · rw [min_eq_right h]; nlinarith
    · rcases le_total 0 (d : ℚ) with h | h
      · rw [max_eq_right h]; nlinarith
      · rw [max_eq_left h]; nlinarith
    · rcases le_total 0 (d : ℚ) with h | h
      · rw [min_eq_left h, flv_zero]
      · rw [min_eq_right h, flv_int hd]
    · rcases le_total 0 (d : ℚ) with h | h
      · rw [max_eq_right h, flv_int hd]
      · rw [max_eq_left h, flv_zero]
  have fb : flv (b : ℚ) = b := flv_int hb
  have fbd : flv ((b : ℚ) + d) = b + d := by
    have := flv_int hbd
    push_cast at this
    exact this
  have ha : min (b : ℚ) (b + d) ≤ flv (b + flv (t * d)) ∧ flv (b + flv (t * d)) ≤ max (b : ℚ) (b + d) := by
    apply flv_between
    · rcases le_total 0 (d : ℚ) with h | h
      · rw [min_eq_left (by linarith)]; rw [min_eq_left h] at hm; linarith [hm.1]
      · rw [min_eq_right (by linarith)]; rw [min_eq_right h] at hm; linarith [hm.1]
    · rcases le_total 0 (d : ℚ) with h | h
      · rw [max_eq_right (by linarith)]; rw [max_eq_right h] at hm; linarith [hm.2]
      · rw [max_eq_left (by linarith)]; rw [max_eq_left h] at hm; linarith [hm.2]
    · rcases le_total 0 (d : ℚ) with h | h
      · rw [min_eq_left (by linarith), fb]
      · rw [min_eq_right (by linarith), fbd]
    · rcases le_total 0 (d : ℚ) with h | h
      · rw [max_eq_right (by linarith), fbd]
      · rw [max_eq_left (by linarith), fb]
  refine ⟨flv (b + flv (t * d)), ?_, ha.1, ha.2, rfl⟩
  apply fl_fin_of_abs
  refine le_trans ?_ pow2_1023_big
  rw [abs_le] at *
  rcases le_total 0 (d : ℚ) with h | h
  · rw [min_eq_left h, max_eq_right h] at hm
    constructor <;> linarith [hm.1, hm.2]
  · rw [min_eq_right h, max_eq_left h] at hm
    constructor <;> linarith [hm.1, hm.2]

/-- The numerators and the denominator of the exact parameters of the crossing. -/
def crossDen (e f : Edge) : ℤ :=
  (e.top.x - e.bottom.x) * (f.top.y - f.bottom.y) - (f.top.x - f.bottom.x) * (e.top.y - e.bottom.y)
def crossS (e f : Edge) : ℤ :=
  -(e.top.y - e.bottom.y) * (e.bottom.x - f.bottom.x) + (e.top.x - e.bottom.x) * (e.bottom.y - f.bottom.y)
def crossT (e f : Edge) : ℤ :=
  (f.top.x - f.bottom.x) * (e.bottom.y - f.bottom.y) - (f.top.y - f.bottom.y) * (e.bottom.x - f.bottom.x)

theorem and_eq (e f : Edge) : e.and f = if crossDen e f = 0 then none else
    if F64.le (.fin 0) (intDiv (crossS e f) (crossDen e f)) && F64.le (intDiv (crossS e f) (crossDen e f)) (.fin 1)
      && F64.le (.fin 0) (intDiv (crossT e f) (crossDen e f)) && F64.le (intDiv (crossT e f) (crossDen e f)) (.fin 1)
    then some ⟨F64.add (.floatOfInt e.bottom.x) (F64.mul (intDiv (crossT e f) (crossDen e f)) (.floatOfInt (e.top.x - e.bottom.x))),
      F64.add (.floatOfInt e.bottom.y) (F64.mul (intDiv (crossT e f) (crossDen e f)) (.floatOfInt (e.top.y - e.bottom.y)))⟩
    else none := rfl

theorem F64.le_fin (a b : ℚ) : F64.le (.fin a) (.fin b) = true ↔ a ≤ b := by
  simp only [F64.le, F64.lt, F64.eq, Bool.or_eq_true, decide_eq_true_eq]
  exact le_iff_lt_or_eq.symm

theorem le_unit_fin {t : F64} (h0 : F64.le (.fin 0) t = true) (h1 : F64.le t (.fin 1) = true) :
    ∃ q : ℚ, t = .fin q ∧ 0 ≤ q ∧ q ≤ 1 := by
  cases t with
  | fin q => exact ⟨q, rfl, (F64.le_fin _ _).1 h0, (F64.le_fin _ _).1 h1⟩
  | inf b => cases b <;> simp [F64.le, F64.lt, F64.eq] at h0 h1
  | nan => simp [F64.le, F64.lt, F64.eq] at h0

/-- For moderate integers the sign tests on the rounded quotient are exact. -/
theorem unit_test_exact {n d : ℤ} (hd : d ≠ 0) (hn : |n| ≤ 2 ^ 52) (hdb : |d| ≤ 2 ^ 52) :
    (F64.le (.fin 0) (intDiv n d) && F64.le (intDiv n d) (.fin 1)) = true ↔ 0 ≤ (n : ℚ) / d ∧ (n : ℚ) / d ≤ 1 := by
  have hnq : |(n : ℚ)| ≤ 2 ^ 52 := by exact_mod_cast hn
  have hdq : |(d : ℚ)| ≤ 2 ^ 52 := by exact_mod_cast hdb
  have hd0 : (d : ℚ) ≠ 0 := by exact_mod_cast hd
  have e : intDiv n d = .fin (flv ((n : ℚ) / d)) := by
    apply intDiv_finite _ hd
    exact hnq.trans (le_trans (by norm_num) pow2_1023_big)
  rw [e, Bool.and_eq_true, F64.le_fin, F64.le_fin]
  have one : flv 1 = 1 := by simpa using flv_int (n := 1) (by norm_num)
  have small : flv (1 / 2 ^ 52) = 1 / 2 ^ 52 := by
    have := (isDouble_dyadic 1 52 (by norm_num) (by norm_num)).flv_eq
    simpa using this
  have above : flv (1 + 1 / 2 ^ 52) = 1 + 1 / 2 ^ 52 := by
    have := (isDouble_dyadic (2 ^ 52 + 1) 52 (by norm_num) (by norm_num)).flv_eq
    norm_num at this ⊢
    exact this
  have dpos : (0 : ℚ) < |(d : ℚ)| := abs_pos.2 hd0
  constructor
  · rintro ⟨h0, h1⟩
    constructor
    · by_contra hc
      push Not at hc
      -- then n / d ≤ -1 / |d| ≤ -1 / 2 ^ 52
      have hle : (n : ℚ) / d ≤ -(1 / 2 ^ 52) := by
        have hn1 : (1 : ℚ) ≤ |(n : ℚ)| := by
          have : n ≠ 0 := by rintro rfl; simp at hc
          exact_mod_cast Int.one_le_abs this
        have : |(n : ℚ) / d| = -((n : ℚ) / d) := abs_of_neg hc
        rw [abs_div] at this
        have h2 : 1 / 2 ^ 52 ≤ |(n : ℚ)| / |(d : ℚ)| := by
          rw [div_le_div_iff₀ (by norm_num) dpos]
          nlinarith
        linarith
      have := flv_mono hle
      rw [flv_neg, small] at this
      norm_num at this
      linarith
    · by_contra hc
      push Not at hc
      have hle : 1 + 1 / 2 ^ 52 ≤ (n : ℚ) / d := by
        have hnd : (n : ℚ) / d - 1 = ((n - d : ℤ) : ℚ) / d := by
          push_cast; field_simp
        have hpos : 0 < ((n - d : ℤ) : ℚ) / d := by rw [← hnd]; linarith
        have hn1 : (1 : ℚ) ≤ |((n - d : ℤ) : ℚ)| := by
          have : n - d ≠ 0 := by
            intro h; rw [h] at hpos; simp at hpos
          exact_mod_cast Int.one_le_abs this
        have : |((n - d : ℤ) : ℚ) / d| = ((n - d : ℤ) : ℚ) / d := abs_of_pos hpos
        rw [abs_div] at this
        have h2 : 1 / 2 ^ 52 ≤ |((n - d : ℤ) : ℚ)| / |(d : ℚ)| := by
          rw [div_le_div_iff₀ (by norm_num) dpos]
          nlinarith
        linarith
      have := flv_mono hle
      rw [above] at this
      norm_num at this h1
      linarith
  · rintro ⟨h0, h1⟩
    have a := flv_mono h0
    have b := flv_mono h1
    rw [flv_zero] at a
    rw [one] at b
    exact ⟨a, b⟩

theorem exact_params (e f : Edge) (hd : crossDen e f ≠ 0) :
    (∃ r : QPoint, OnSegment (toQ e.bottom) (toQ e.top) r ∧ OnSegment (toQ f.bottom) (toQ f.top) r) ↔
      (0 ≤ (crossS e f : ℚ) / crossDen e f ∧ (crossS e f : ℚ) / crossDen e f ≤ 1)
        ∧ (0 ≤ (crossT e f : ℚ) / crossDen e f ∧ (crossT e f : ℚ) / crossDen e f ≤ 1) := by
  have hd' : (crossDen e f : ℚ) ≠ 0 := by exact_mod_cast hd
  have dd : (crossDen e f : ℚ) = (e.top.x - e.bottom.x) * (f.top.y - f.bottom.y)
      - (f.top.x - f.bottom.x) * (e.top.y - e.bottom.y) := by unfold crossDen; push_cast; ring
  have ss : (crossS e f : ℚ) = -(e.top.y - e.bottom.y) * (e.bottom.x - f.bottom.x)
      + (e.top.x - e.bottom.x) * (e.bottom.y - f.bottom.y) := by unfold crossS; push_cast; ring
  have tt : (crossT e f : ℚ) = (f.top.x - f.bottom.x) * (e.bottom.y - f.bottom.y)
      - (f.top.y - f.bottom.y) * (e.bottom.x - f.bottom.x) := by unfold crossT; push_cast; ring
  constructor
  · rintro ⟨⟨rx, ry⟩, ⟨t, t0, t1, hx, hy⟩, ⟨s, s0, s1, gx, gy⟩⟩
    simp only [toQ] at hx hy gx gy
    have hs : (crossS e f : ℚ) / crossDen e f = s := by
      rw [div_eq_iff hd', ss, dd]
      linear_combination (e.top.y - e.bottom.y : ℚ) * (hx - gx) - (e.top.x - e.bottom.x) * (hy - gy)
    have ht : (crossT e f : ℚ) / crossDen e f = t := by
      rw [div_eq_iff hd', tt, dd]
      linear_combination (f.top.y - f.bottom.y : ℚ) * (hx - gx) - (f.top.x - f.bottom.x) * (hy - gy)
    rw [hs, ht]; exact ⟨⟨s0, s1⟩, ⟨t0, t1⟩⟩
  · rintro ⟨⟨s0, s1⟩, ⟨t0, t1⟩⟩
    refine ⟨(e.bottom.x + (crossT e f : ℚ) / crossDen e f * (e.top.x - e.bottom.x),
      e.bottom.y + (crossT e f : ℚ) / crossDen e f * (e.top.y - e.bottom.y)),
      ⟨(crossT e f : ℚ) / crossDen e f, t0, t1, rfl, rfl⟩, ⟨(crossS e f : ℚ) / crossDen e f, s0, s1, ?_, ?_⟩⟩
    · simp only [toQ]
      field_simp
      rw [ss, tt, dd]; ring
    · simp only [toQ]
      field_simp
      rw [ss, tt, dd]; ring

/-- The common point is unique, so its parameter on the first edge is the exact one. -/
theorem exact_param_unique (e f : Edge) (hd : crossDen e f ≠ 0) (r : QPoint)
    (h1 : OnSegment (toQ e.bottom) (toQ e.top) r) (h2 : OnSegment (toQ f.bottom) (toQ f.top) r) :
    r.1 = e.bottom.x + (crossT e f : ℚ) / crossDen e f * (e.top.x - e.bottom.x)
      ∧ r.2 = e.bottom.y + (crossT e f : ℚ) / crossDen e f * (e.top.y - e.bottom.y) := by
  have hd' : (crossDen e f : ℚ) ≠ 0 := by exact_mod_cast hd
  have dd : (crossDen e f : ℚ) = (e.top.x - e.bottom.x) * (f.top.y - f.bottom.y)
      - (f.top.x - f.bottom.x) * (e.top.y - e.bottom.y) := by unfold crossDen; push_cast; ring
  have tt : (crossT e f : ℚ) = (f.top.x - f.bottom.x) * (e.bottom.y - f.bottom.y)
      - (f.top.y - f.bottom.y) * (e.bottom.x - f.bottom.x) := by unfold crossT; push_cast; ring
  obtain ⟨t, t0, t1, hx, hy⟩ := h1
  obtain ⟨s, s0, s1, gx, gy⟩ := h2
  simp only [toQ] at hx hy gx gy
  have ht : (crossT e f : ℚ) / crossDen e f = t := by
    rw [div_eq_iff hd', tt, dd]
    linear_combination (f.top.y - f.bottom.y : ℚ) * (hx - gx) - (f.top.x - f.bottom.x) * (hy - gy)
  rw [ht]; exact ⟨hx, hy⟩

end Wagyu
