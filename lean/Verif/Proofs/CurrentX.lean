import Verif.Props.Crossing
import Verif.Proofs.Input

/-!
# `get_current_x` stays on the edge
-/

namespace Wagyu

theorem flv_rel {q : ℚ} (hq : q ≠ 0) (h : pow2 (-53) ≤ |q|) : |flv q - q| ≤ |q| * pow2 (-53) := by
  have h1 := flv_error q hq
  obtain ⟨h2, h3⟩ := ilog2_spec q hq
  have h4 : -53 ≤ ilog2 q := by
    by_contra hlt
    have : pow2 (ilog2 q + 1) ≤ pow2 (-53) := pow2_le (by omega)
    linarith
  have h5 : ulpExp q = ilog2 q - 52 := by unfold ulpExp; omega
  rw [h5] at h1
  have h6 : pow2 (ilog2 q - 52) / 2 = pow2 (ilog2 q) * pow2 (-53) := by
    rw [← pow2_add, show ilog2 q + -53 = (ilog2 q - 52) - 1 by ring, pow2_sub (ilog2 q - 52) 1]
    have : pow2 1 = 2 := by rw [pow2_eq]; norm_num
    rw [this]
  rw [h6] at h1
  exact h1.trans (mul_le_mul_of_nonneg_right h2 (pow2_pos _).le)

/-- The product of the rounded slope `d / n` and `k`, with `0 ≤ k < n`, is between 0 and `d`. -/
theorem slope_step {d n k : ℤ} (hd : 0 ≤ d) (hn : n ≤ 2 ^ 53) (hk : 0 ≤ k) (hkn : k < n) :
    0 ≤ flv ((d : ℚ) / n) * k ∧ flv ((d : ℚ) / n) * k ≤ d := by
  have hn0 : (0 : ℚ) < n := by exact_mod_cast (by omega : 0 < n)
  have hk0 : (0 : ℚ) ≤ k := by exact_mod_cast hk
  have hd0 : (0 : ℚ) ≤ d := by exact_mod_cast hd
  have hq : (0 : ℚ) ≤ (d : ℚ) / n := by positivity
  refine ⟨mul_nonneg (flv_nonneg hq) hk0, ?_⟩
  rcases hd.eq_or_lt with rfl | hd1
  · simp [flv_zero]
  have hd1 : (1 : ℚ) ≤ d := by exact_mod_cast hd1
  have hn1 : (n : ℚ) ≤ 2 ^ 53 := by exact_mod_cast hn
  have h53 : pow2 (-53) = 1 / 2 ^ 53 := by rw [pow2_eq, zpow_neg]; norm_num
  have hqpos : (0 : ℚ) < (d : ℚ) / n := by positivity
  have h1 := flv_rel hqpos.ne' (by
    rw [abs_of_pos hqpos, h53]
    rw [div_le_div_iff₀ (by positivity) hn0]
    nlinarith)
  rw [abs_of_pos hqpos, h53] at h1
  have h2 : flv ((d : ℚ) / n) ≤ (d : ℚ) / n * (1 + 1 / 2 ^ 53) := by
    have := (abs_le.1 h1).2
    linarith
  have hkn1 : (k : ℚ) ≤ n - 1 := by exact_mod_cast (by omega : k ≤ n - 1)
  calc flv ((d : ℚ) / n) * k ≤ (d : ℚ) / n * (1 + 1 / 2 ^ 53) * (n - 1) :=
        mul_le_mul h2 hkn1 hk0 (by positivity)
    _ = d * ((1 + 1 / 2 ^ 53) * (n - 1) / n) := by field_simp
    _ ≤ d * 1 := by
        refine mul_le_mul_of_nonneg_left ?_ hd0
        rw [div_le_one hn0]
        have : (n : ℚ) * (1 / 2 ^ 53) ≤ 1 := by rw [mul_one_div, div_le_one (by positivity)]; exact hn1
        nlinarith
    _ = d := mul_one _

theorem Edge.Bounded.bx {e : Edge} {k : ℕ} (h : e.Bounded k) : |e.bottom.x| ≤ 2 ^ k ∧ |e.bottom.y| ≤ 2 ^ k
    ∧ |e.top.x| ≤ 2 ^ k ∧ |e.top.y| ≤ 2 ^ k := h

/-- `d / -n` where `d` has any sign: the product with `-k`. -/
theorem slope_step' {d n k : ℤ} (hn : n ≤ 2 ^ 53) (hk : 0 ≤ k) (hkn : k < n) :
    min 0 (d : ℚ) ≤ flv ((d : ℚ) / (-n : ℤ)) * (-k : ℤ) ∧ flv ((d : ℚ) / (-n : ℤ)) * (-k : ℤ) ≤ max 0 (d : ℚ) := by
  have e : flv ((d : ℚ) / (-n : ℤ)) * (-k : ℤ) = flv ((d : ℚ) / n) * k := by
    push_cast
    rw [div_neg, flv_neg]; ring
  rw [e]
  rcases le_total 0 d with hd | hd
  · obtain ⟨h1, h2⟩ := slope_step hd hn hk hkn
    exact ⟨(min_le_left _ _).trans h1, h2.trans (le_max_right _ _)⟩
  · obtain ⟨h1, h2⟩ := slope_step (d := -d) (by omega) hn hk hkn
    push_cast at h1 h2
    rw [neg_div, flv_neg] at h1 h2
    exact ⟨(min_le_right _ _).trans (by linarith), le_trans (by linarith) (le_max_left _ _)⟩

/-- Within its rows, the current x of a non-horizontal edge is between the x of its end points. -/
theorem getCurrentX_between {e : Edge} {y : Int} (hb : e.Bounded 52)
    (hs : e.slope = intDiv (e.top.x - e.bottom.x) (e.top.y - e.bottom.y)) (h1 : e.top.y ≤ y) (h2 : y ≤ e.bottom.y) :
    ∃ q : ℚ, e.getCurrentX y = .fin q ∧ ((min e.bottom.x e.top.x : ℤ) : ℚ) ≤ q ∧ q ≤ ((max e.bottom.x e.top.x : ℤ) : ℚ) := by
  obtain ⟨bx, by', tx, ty⟩ := hb.bx
  have big := pow2_1023_big
  by_cases hy : y = e.top.y
  · refine ⟨e.top.x, ?_, by exact_mod_cast min_le_right _ _, by exact_mod_cast le_max_right _ _⟩
    unfold Edge.getCurrentX
    rw [if_pos hy]
    exact fl_int (by omega)
  · have htop : e.top.y < y := by omega
    rw [abs_le] at bx by' tx ty
    have hk : y - e.bottom.y = -(e.bottom.y - y) := by ring
    have hdy : e.top.y - e.bottom.y = -(e.bottom.y - e.top.y) := by ring
    obtain ⟨hm1, hm2⟩ := slope_step' (d := e.top.x - e.bottom.x) (n := e.bottom.y - e.top.y) (k := e.bottom.y - y)
      (by omega) (by omega) (by omega)
    have hdx : |(e.top.x - e.bottom.x)| ≤ 2 ^ 53 := by rw [abs_le]; omega
    have hdxq : |((e.top.x - e.bottom.x : ℤ) : ℚ)| ≤ 2 ^ 53 := by exact_mod_cast hdx
    have hslope : e.slope = .fin (flv (((e.top.x - e.bottom.x : ℤ) : ℚ) / ((-(e.bottom.y - e.top.y) : ℤ) : ℚ))) := by
      rw [hs, hdy]
      refine fl_fin_of_abs ?_
      rw [abs_div]
      refine (div_le_self (abs_nonneg _) ?_).trans (hdxq.trans big)
      have : (1 : ℤ) ≤ |(-(e.bottom.y - e.top.y) : ℤ)| := by rw [abs_neg]; exact Int.one_le_abs (by omega)
      exact_mod_cast this
    unfold Edge.getCurrentX
    rw [if_neg hy, hslope, hk]
    have hkf : F64.floatOfInt (-(e.bottom.y - y)) = .fin ((-(e.bottom.y - y) : ℤ) : ℚ) := fl_int (by rw [abs_le]; omega)
    have hbf : F64.floatOfInt e.bottom.x = .fin (e.bottom.x : ℚ) := fl_int (by rw [abs_le]; omega)
    rw [hkf, hbf]
    generalize hp : flv (((e.top.x - e.bottom.x : ℤ) : ℚ) / ((-(e.bottom.y - e.top.y) : ℤ) : ℚ)) * ((-(e.bottom.y - y) : ℤ) : ℚ) = p at hm1 hm2
    have hpabs : |p| ≤ pow2 1023 := by
      refine le_trans (abs_le.2 ⟨?_, ?_⟩) big
      · refine le_trans ?_ hm1
        exact le_min (by norm_num) (by linarith [(abs_le.1 hdxq).1])
      · refine le_trans hm2 ?_
        exact max_le (by norm_num) (by linarith [(abs_le.1 hdxq).2])
    have hmul : F64.mul (.fin (flv (((e.top.x - e.bottom.x : ℤ) : ℚ) / ((-(e.bottom.y - e.top.y) : ℤ) : ℚ)))) (.fin ((-(e.bottom.y - y) : ℤ) : ℚ)) = .fin (flv p) := by
      show fl _ = _
      rw [hp]; exact fl_fin_of_abs hpabs
    rw [hmul]
    have e0 : flv (min 0 ((e.top.x - e.bottom.x : ℤ) : ℚ)) = min 0 ((e.top.x - e.bottom.x : ℤ) : ℚ) := by
      rcases min_choice (0 : ℚ) ((e.top.x - e.bottom.x : ℤ) : ℚ) with h | h <;> rw [h]
      · exact flv_zero
      · exact flv_int hdx
    have e1 : flv (max 0 ((e.top.x - e.bottom.x : ℤ) : ℚ)) = max 0 ((e.top.x - e.bottom.x : ℤ) : ℚ) := by
      rcases max_choice (0 : ℚ) ((e.top.x - e.bottom.x : ℤ) : ℚ) with h | h <;> rw [h]
      · exact flv_zero
      · exact flv_int hdx
    obtain ⟨f1, f2⟩ := flv_between hm1 hm2 e0 e1
    have g1 : ((min e.bottom.x e.top.x : ℤ) : ℚ) ≤ e.bottom.x + flv p := by
      have : ((min e.bottom.x e.top.x : ℤ) : ℚ) = e.bottom.x + min 0 ((e.top.x - e.bottom.x : ℤ) : ℚ) := by
        push_cast; rw [← min_add_add_left]; simp
      linarith
    have g2 : (e.bottom.x : ℚ) + flv p ≤ ((max e.bottom.x e.top.x : ℤ) : ℚ) := by
      have : ((max e.bottom.x e.top.x : ℤ) : ℚ) = e.bottom.x + max 0 ((e.top.x - e.bottom.x : ℤ) : ℚ) := by
        push_cast; rw [← max_add_add_left]; simp
      linarith
    have i1 : flv ((min e.bottom.x e.top.x : ℤ) : ℚ) = ((min e.bottom.x e.top.x : ℤ) : ℚ) := flv_int (by rw [abs_le]; omega)
    have i2 : flv ((max e.bottom.x e.top.x : ℤ) : ℚ) = ((max e.bottom.x e.top.x : ℤ) : ℚ) := flv_int (by rw [abs_le]; omega)
    obtain ⟨j1, j2⟩ := flv_between g1 g2 i1 i2
    refine ⟨_, ?_, j1, j2⟩
    show fl _ = _
    refine fl_fin_of_abs (le_trans (abs_le.2 ⟨?_, ?_⟩) big)
    · have : (-2 ^ 52 : ℚ) ≤ ((min e.bottom.x e.top.x : ℤ) : ℚ) := by exact_mod_cast (by omega : (-2 ^ 52 : ℤ) ≤ min e.bottom.x e.top.x)
      linarith
    · have : ((max e.bottom.x e.top.x : ℤ) : ℚ) ≤ 2 ^ 52 := by exact_mod_cast (by omega : max e.bottom.x e.top.x ≤ (2 ^ 52 : ℤ))
      linarith

/-- Anywhere, the current x of an edge is a number. -/
theorem getCurrentX_number {e : Edge} {y : Int} (hb : e.Bounded 52) (hy : |y| ≤ 2 ^ 52)
    (hs : e.isHorizontal = false → e.slope = intDiv (e.top.x - e.bottom.x) (e.top.y - e.bottom.y))
    (hh : e.isHorizontal = true ↔ e.top.y = e.bottom.y) : e.getCurrentX y ≠ .nan := by
  obtain ⟨bx, by', tx, ty⟩ := hb.bx
  have big := pow2_1023_big
  unfold Edge.getCurrentX
  split
  · rw [F64.floatOfInt, fl_int (by omega)]; nofun
  rename_i hyt
  rw [abs_le] at bx by' tx ty hy
  have hbf : F64.floatOfInt e.bottom.x = .fin (e.bottom.x : ℚ) := fl_int (by rw [abs_le]; omega)
  have hkf : F64.floatOfInt (y - e.bottom.y) = .fin ((y - e.bottom.y : ℤ) : ℚ) := fl_int (by rw [abs_le]; omega)
  rw [hbf, hkf]
  have fin_or : ∀ q : ℚ, fl q ≠ .nan := by intro q; rw [fl_eq]; split <;> [skip; split] <;> nofun
  have addfin : ∀ (b : ℚ) (x : F64), x ≠ .nan → F64.add (.fin b) x ≠ .nan := by
    intro b x hx
    cases x with
    | fin a => exact fin_or _
    | inf n => nofun
    | nan => exact absurd rfl hx
  apply addfin
  cases hi : e.isHorizontal with
  | true =>
    have hne : y - e.bottom.y ≠ 0 := by have := hh.1 hi; omega
    unfold Edge.isHorizontal at hi
    cases hsl : e.slope with
    | fin q => rw [hsl] at hi; cases hi
    | nan => rw [hsl] at hi; cases hi
    | inf n =>
      show (if ((y - e.bottom.y : ℤ) : ℚ) = 0 then F64.nan else _) ≠ _
      rw [if_neg (by exact_mod_cast hne)]; nofun
  | false =>
    rw [hs hi]
    have hne : e.top.y - e.bottom.y ≠ 0 := by intro h; rw [hh.2 (by omega)] at hi; cases hi
    have : intDiv (e.top.x - e.bottom.x) (e.top.y - e.bottom.y) = .fin (flv (((e.top.x - e.bottom.x : ℤ) : ℚ) / ((e.top.y - e.bottom.y : ℤ) : ℚ))) := by
      refine fl_fin_of_abs ?_
      rw [abs_div]
      have h1 : (1 : ℚ) ≤ |((e.top.y - e.bottom.y : ℤ) : ℚ)| := by exact_mod_cast Int.one_le_abs hne
      refine (div_le_self (abs_nonneg _) h1).trans (le_trans ?_ big)
      have : |(e.top.x - e.bottom.x)| ≤ 2 ^ 53 := by rw [abs_le]; omega
      exact_mod_cast this
    rw [this]
    exact fin_or _

end Wagyu
