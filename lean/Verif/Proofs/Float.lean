import Verif.Model.Geom
import Mathlib.Data.Rat.Floor
import Mathlib.Algebra.Order.Field.Power
import Mathlib.Tactic.Linarith
import Mathlib.Tactic.Ring
import Mathlib.Tactic.NormNum
import Mathlib.Tactic.Positivity
import Mathlib.Tactic.FieldSimp

/-!
# Theory of the rounding `fl`
-/

namespace Wagyu

theorem pow2_eq (e : Int) : pow2 e = (2 : ℚ) ^ e := by
  unfold pow2
  split
  · next h =>
    obtain ⟨n, rfl⟩ := Int.eq_ofNat_of_zero_le h
    simp
  · next h =>
    obtain ⟨n, hn⟩ := Int.eq_ofNat_of_zero_le (show 0 ≤ -e by omega)
    have : e = -(n : Int) := by omega
    subst this
    simp

theorem ratfloor_eq (q : ℚ) : Rat.floor q = ⌊q⌋ := rfl

theorem pow2_pos (e : Int) : 0 < pow2 e := by rw [pow2_eq]; positivity

theorem pow2_add (a b : Int) : pow2 (a + b) = pow2 a * pow2 b := by
  simp only [pow2_eq]; exact zpow_add₀ (by norm_num) a b

theorem pow2_le {a b : Int} (h : a ≤ b) : pow2 a ≤ pow2 b := by
  simp only [pow2_eq]; exact zpow_le_zpow_right₀ (by norm_num) h

theorem pow2_lt {a b : Int} (h : a < b) : pow2 a < pow2 b := by
  simp only [pow2_eq]; exact zpow_lt_zpow_right₀ (by norm_num) h

theorem pow2_lt_iff {a b : Int} : pow2 a < pow2 b ↔ a < b := by
  simp only [pow2_eq]; exact zpow_lt_zpow_iff_right₀ (by norm_num)

theorem pow2_nat (n : Nat) : pow2 n = ((2 ^ n : Nat) : ℚ) := by rw [pow2_eq]; simp

theorem pow2_sub (a b : Int) : pow2 (a - b) = pow2 a / pow2 b := by
  simp only [pow2_eq]; exact zpow_sub₀ (by norm_num) a b

/-- `2 ^ ilog2 q ≤ |q| < 2 ^ (ilog2 q + 1)`. -/
theorem ilog2_spec (q : ℚ) (h : q ≠ 0) : pow2 (ilog2 q) ≤ |q| ∧ |q| < pow2 (ilog2 q + 1) := by
  have hn : q.num.natAbs ≠ 0 := by simpa using h
  have hd : q.den ≠ 0 := q.den_nz
  have hdq : (0 : ℚ) < (q.den : ℚ) := by exact_mod_cast Nat.pos_of_ne_zero hd
  have habs : |q| = (q.num.natAbs : ℚ) / (q.den : ℚ) := by
    conv_lhs => rw [← Rat.num_div_den q]
    rw [abs_div, abs_of_pos hdq]
    congr 1
    rw [Nat.cast_natAbs, Int.cast_abs]
  have n1 : pow2 (Nat.log2 q.num.natAbs) ≤ q.num.natAbs := by
    rw [pow2_nat]; exact_mod_cast Nat.log2_self_le hn
  have n2 : (q.num.natAbs : ℚ) < pow2 (Nat.log2 q.num.natAbs + 1) := by
    have : (q.num.natAbs) < 2 ^ (Nat.log2 q.num.natAbs + 1) := Nat.lt_log2_self
    have e : pow2 (Nat.log2 q.num.natAbs + 1) = ((2 ^ (Nat.log2 q.num.natAbs + 1) : Nat) : ℚ) := by
      rw [← pow2_nat]; push_cast; rfl
    rw [e]; exact_mod_cast this
  have d1 : pow2 (Nat.log2 q.den) ≤ q.den := by
    rw [pow2_nat]; exact_mod_cast Nat.log2_self_le hd
  have d2 : (q.den : ℚ) < pow2 (Nat.log2 q.den + 1) := by
    have : (q.den) < 2 ^ (Nat.log2 q.den + 1) := Nat.lt_log2_self
    have e : pow2 (Nat.log2 q.den + 1) = ((2 ^ (Nat.log2 q.den + 1) : Nat) : ℚ) := by
      rw [← pow2_nat]; push_cast; rfl
    rw [e]; exact_mod_cast this
  generalize hk : ((Nat.log2 q.num.natAbs : Int) - (Nat.log2 q.den : Int)) = k
  have hi : ilog2 q = if pow2 k * (q.den : ℚ) ≤ (q.num.natAbs : ℚ) then k else k - 1 := by
    rw [← hk]; rfl
  rw [hi, habs]
  have a1 : (Nat.log2 q.num.natAbs : Int) = k + Nat.log2 q.den := by omega
  rw [a1] at n1 n2
  have hkp := pow2_pos k
  split
  · next hle =>
    refine ⟨by rw [le_div_iff₀ hdq]; exact hle, ?_⟩
    rw [div_lt_iff₀ hdq]
    calc (q.num.natAbs : ℚ) < pow2 (k + Nat.log2 q.den + 1) := n2
      _ = pow2 (k + 1) * pow2 (Nat.log2 q.den) := by rw [← pow2_add]; congr 1; ring
      _ ≤ pow2 (k + 1) * q.den := by
        apply mul_le_mul_of_nonneg_left d1 (le_of_lt (pow2_pos _))
  · next hle =>
    push Not at hle
    refine ⟨?_, by rw [div_lt_iff₀ hdq, show k - 1 + 1 = k by ring]; exact hle⟩
    rw [le_div_iff₀ hdq]
    calc pow2 (k - 1) * q.den ≤ pow2 (k - 1) * pow2 (Nat.log2 q.den + 1) := by
          apply mul_le_mul_of_nonneg_left d2.le (le_of_lt (pow2_pos _))
      _ = pow2 (k + Nat.log2 q.den) := by rw [← pow2_add]; congr 1; ring
      _ ≤ _ := n1

theorem ilog2_unique {q : ℚ} {k : Int} (h : q ≠ 0) (h1 : pow2 k ≤ |q|) (h2 : |q| < pow2 (k + 1)) : ilog2 q = k := by
  have := ilog2_spec q h
  have a := pow2_lt_iff.1 (lt_of_le_of_lt h1 this.2)
  have b := pow2_lt_iff.1 (lt_of_le_of_lt this.1 h2)
  omega

theorem ilog2_mono {a b : ℚ} (ha : a ≠ 0) (h : |a| ≤ |b|) : ilog2 a ≤ ilog2 b := by
  have hb : b ≠ 0 := by
    rintro rfl
    simp at h; exact ha h
  have h1 := ilog2_spec a ha
  have h2 := ilog2_spec b hb
  have := pow2_lt_iff.1 (lt_of_le_of_lt (h1.1.trans h) h2.2)
  omega

/-! ## roundEven -/

theorem roundEven_eq (q : ℚ) : roundEven q = if q - (⌊q⌋ : ℚ) < 1 / 2 then ⌊q⌋
    else if 1 / 2 < q - (⌊q⌋ : ℚ) then ⌊q⌋ + 1 else if ⌊q⌋ % 2 = 0 then ⌊q⌋ else ⌊q⌋ + 1 := by
  unfold roundEven
  rw [ratfloor_eq]

theorem roundEven_spec (q : ℚ) : |(roundEven q : ℚ) - q| ≤ 1 / 2 := by
  have h1 := Int.floor_le q
  have h2 := Int.lt_floor_add_one q
  rw [roundEven_eq]
  split_ifs <;> rw [abs_le] <;> push_cast <;> constructor <;> linarith

theorem roundEven_int (n : ℤ) : roundEven (n : ℚ) = n := by
  rw [roundEven_eq]
  simp

theorem roundEven_mono {a b : ℚ} (h : a ≤ b) : roundEven a ≤ roundEven b := by
  by_contra hc
  push Not at hc
  have ha := abs_le.1 (roundEven_spec a)
  have hb := abs_le.1 (roundEven_spec b)
  have hc' : ((roundEven b : ℚ)) + 1 ≤ roundEven a := by exact_mod_cast hc
  -- then a = b = half-integer
  have hab : a = b := by linarith
  rw [hab] at hc
  exact lt_irrefl _ hc

theorem roundEven_neg (q : ℚ) : roundEven (-q) = -roundEven q := by
  have h1 := Int.floor_le q
  have h2 := Int.lt_floor_add_one q
  have h3 := Int.floor_le (-q)
  have h4 := Int.lt_floor_add_one (-q)
  rcases eq_or_ne q (⌊q⌋ : ℚ) with he | hne
  · rw [he, ← Int.cast_neg, roundEven_int, roundEven_int]
  · have hf : ⌊-q⌋ = -⌊q⌋ - 1 := by
      rw [Int.floor_eq_iff]
      push_cast
      have : (⌊q⌋ : ℚ) < q := lt_of_le_of_ne h1 (Ne.symm hne)
      constructor <;> linarith
    rw [roundEven_eq, roundEven_eq]
    simp only [hf]
    push_cast
    by_cases c1 : q - ⌊q⌋ < 1 / 2
    · rw [if_pos c1, if_neg (by linarith), if_pos (by linarith)]; ring
    · by_cases c2 : 1 / 2 < q - ⌊q⌋
      · rw [if_neg c1, if_pos c2, if_pos (by linarith)]; ring
      · rw [if_neg c1, if_neg c2, if_neg (by linarith), if_neg (by linarith)]
        split <;> split <;> omega

/-! ## Rounding to a double -/

/-- The value `fl` computes before the overflow check. -/
def flv (q : ℚ) : ℚ := if q = 0 then 0 else (roundEven (q / pow2 (ulpExp q)) : ℚ) * pow2 (ulpExp q)

theorem fl_eq (q : ℚ) : fl q = if pow2 1024 ≤ flv q then .inf false else if flv q ≤ -pow2 1024 then .inf true
    else .fin (flv q) := by
  unfold fl flv
  split
  · have := pow2_pos 1024
    rw [if_neg (by linarith), if_neg (by linarith)]
  · rfl

theorem ulpExp_neg (q : ℚ) : ulpExp (-q) = ulpExp q := by
  unfold ulpExp ilog2; simp

theorem flv_neg (q : ℚ) : flv (-q) = -flv q := by
  unfold flv
  by_cases h : q = 0
  · simp [h]
  · rw [if_neg h, if_neg (by simpa using h), ulpExp_neg, neg_div, roundEven_neg]
    push_cast; ring

theorem flv_zero : flv 0 = 0 := by simp [flv]

/-- A multiple of the unit in the last place is not changed. -/
theorem flv_of_int {q : ℚ} (n : ℤ) (h : q = n * pow2 (ulpExp q)) : flv q = q := by
  unfold flv
  split
  · next h0 => exact h0.symm
  · have hp := pow2_pos (ulpExp q)
    have : q / pow2 (ulpExp q) = (n : ℚ) := by
      rw [div_eq_iff hp.ne']; exact h
    rw [this, roundEven_int]; exact h.symm

/-- Multiples of `2 ^ e` with at most 53 bits. -/
theorem flv_exact {q : ℚ} {n : ℤ} {e : ℤ} (h : q = n * pow2 e) (hn : |(n : ℚ)| < pow2 53) (he : -1074 ≤ e) :
    flv q = q := by
  by_cases h0 : q = 0
  · subst h0; exact flv_zero
  have hle : ulpExp q ≤ e := by
    unfold ulpExp
    apply max_le _ he
    have hs := (ilog2_spec q h0).1
    have : |q| < pow2 (53 + e) := by
      rw [h, abs_mul, abs_of_pos (pow2_pos e), pow2_add]
      exact mul_lt_mul_of_pos_right hn (pow2_pos e)
    have := pow2_lt_iff.1 (lt_of_le_of_lt hs this)
    omega
  obtain ⟨k, hk⟩ := Int.eq_ofNat_of_zero_le (show 0 ≤ e - ulpExp q by omega)
  apply flv_of_int (n * 2 ^ k)
  rw [show (pow2 (ulpExp q)) = pow2 e / pow2 (e - ulpExp q) by rw [← pow2_sub]; congr 1; ring, hk, pow2_nat]
  push_cast
  rw [h]
  field_simp

/-- `flv` never leaves an interval whose ends are multiples of the local unit. -/
theorem flv_nonneg {q : ℚ} (h : 0 ≤ q) : 0 ≤ flv q := by
  unfold flv
  split
  · exact le_refl _
  · have hp := pow2_pos (ulpExp q)
    have : roundEven (0 : ℚ) ≤ roundEven (q / pow2 (ulpExp q)) := roundEven_mono (by positivity)
    rw [show (0 : ℚ) = ((0 : ℤ) : ℚ) by simp, roundEven_int] at this
    have : (0 : ℚ) ≤ (roundEven (q / pow2 (ulpExp q)) : ℚ) := by exact_mod_cast this
    positivity

theorem ulpExp_ge (q : ℚ) : -1074 ≤ ulpExp q := le_max_right _ _
theorem ulpExp_ge' (q : ℚ) : ilog2 q - 52 ≤ ulpExp q := le_max_left _ _

theorem flv_le_pow2 {q : ℚ} (hq : 0 < q) : flv q ≤ pow2 (max (ilog2 q + 1) (-1074)) := by
  have hs := (ilog2_spec q hq.ne').2
  rw [abs_of_pos hq] at hs
  have hp := pow2_pos (ulpExp q)
  have hle : ulpExp q ≤ max (ilog2 q + 1) (-1074) := by unfold ulpExp; omega
  obtain ⟨k, hk⟩ := Int.eq_ofNat_of_zero_le (show 0 ≤ max (ilog2 q + 1) (-1074) - ulpExp q by omega)
  have e : pow2 (max (ilog2 q + 1) (-1074)) = ((2 ^ k : ℤ) : ℚ) * pow2 (ulpExp q) := by
    rw [show max (ilog2 q + 1) (-1074) = k + ulpExp q by omega, pow2_add, pow2_nat]; push_cast; rfl
  rw [e]
  unfold flv
  rw [if_neg hq.ne']
  apply mul_le_mul_of_nonneg_right _ hp.le
  have : roundEven (q / pow2 (ulpExp q)) ≤ roundEven ((2 ^ k : ℤ) : ℚ) := by
    apply roundEven_mono
    rw [div_le_iff₀ hp, ← e]
    exact hs.le.trans (pow2_le (le_max_left _ _))
  rw [roundEven_int] at this
  exact_mod_cast this

theorem flv_ge_pow2 {q : ℚ} (hq : 0 < q) (h : -1074 ≤ ilog2 q) : pow2 (ilog2 q) ≤ flv q := by
  have hs := (ilog2_spec q hq.ne').1
  rw [abs_of_pos hq] at hs
  have hp := pow2_pos (ulpExp q)
  have hle : ulpExp q ≤ ilog2 q := by unfold ulpExp; omega
  obtain ⟨k, hk⟩ := Int.eq_ofNat_of_zero_le (show 0 ≤ ilog2 q - ulpExp q by omega)
  have e : pow2 (ilog2 q) = ((2 ^ k : ℤ) : ℚ) * pow2 (ulpExp q) := by
    rw [show ilog2 q = k + ulpExp q by omega, pow2_add, pow2_nat]; push_cast; rfl
  rw [e]
  conv_rhs => unfold flv
  rw [if_neg hq.ne']
  apply mul_le_mul_of_nonneg_right _ hp.le
  have : roundEven ((2 ^ k : ℤ) : ℚ) ≤ roundEven (q / pow2 (ulpExp q)) := by
    apply roundEven_mono
    rw [le_div_iff₀ hp, ← e]
    exact hs
  rw [roundEven_int] at this
  exact_mod_cast this

theorem flv_mono_pos {a b : ℚ} (ha : 0 < a) (h : a ≤ b) : flv a ≤ flv b := by
  have hb : 0 < b := lt_of_lt_of_le ha h
  have hl := ilog2_mono ha.ne' (show |a| ≤ |b| by rwa [abs_of_pos ha, abs_of_pos hb])
  by_cases heq : ulpExp a = ulpExp b
  · unfold flv
    rw [if_neg ha.ne', if_neg hb.ne', heq]
    apply mul_le_mul_of_nonneg_right _ (pow2_pos _).le
    exact_mod_cast roundEven_mono ((div_le_div_iff_of_pos_right (pow2_pos _)).2 h)
  · have h1 : ilog2 a < ilog2 b := by
      rcases lt_or_eq_of_le hl with h | h
      · exact h
      · exact absurd (by unfold ulpExp; rw [h]) heq
    have h2 : -1022 < ilog2 b := by
      by_contra hc
      apply heq
      unfold ulpExp
      rw [max_eq_right (by omega), max_eq_right (by omega)]
    calc flv a ≤ pow2 (max (ilog2 a + 1) (-1074)) := flv_le_pow2 ha
      _ ≤ pow2 (ilog2 b) := pow2_le (by omega)
      _ ≤ flv b := flv_ge_pow2 hb (by omega)

theorem flv_mono {a b : ℚ} (h : a ≤ b) : flv a ≤ flv b := by
  rcases lt_or_ge 0 a with ha | ha
  · exact flv_mono_pos ha h
  · rcases le_or_gt 0 b with hb | hb
    · have : flv a ≤ 0 := by
        have := flv_nonneg (q := -a) (by linarith)
        rw [flv_neg] at this; linarith
      exact this.trans (flv_nonneg hb)
    · have := flv_mono_pos (a := -b) (b := -a) (by linarith) (by linarith)
      rw [flv_neg, flv_neg] at this
      linarith

/-- Rounding keeps inside `[lo, hi]` when the ends are exactly representable. -/
theorem flv_between {q lo hi : ℚ} (h1 : lo ≤ q) (h2 : q ≤ hi) (e1 : flv lo = lo) (e2 : flv hi = hi) :
    lo ≤ flv q ∧ flv q ≤ hi := by
  have a := flv_mono h1
  have b := flv_mono h2
  rw [e1] at a; rw [e2] at b
  exact ⟨a, b⟩

theorem fl_fin_of_abs {q : ℚ} (h : |q| ≤ pow2 1023) : fl q = .fin (flv q) := by
  have e : flv (pow2 1023) = pow2 1023 := flv_exact (n := 1) (e := 1023) (by simp) (by
    rw [show (53 : ℤ) = ((53 : ℕ) : ℤ) by norm_num, pow2_nat]; norm_num) (by norm_num)
  have en : flv (-pow2 1023) = -pow2 1023 := by rw [flv_neg, e]
  have := flv_between (abs_le.1 h).1 (abs_le.1 h).2 en e
  have hlt := pow2_lt (show (1023 : ℤ) < 1024 by norm_num)
  rw [fl_eq, if_neg (by linarith), if_neg (by linarith)]

theorem flv_int {n : ℤ} (h : |n| ≤ 2 ^ 53) : flv (n : ℚ) = n := by
  rcases lt_or_eq_of_le h with h | h
  · apply flv_exact (n := n) (e := 0) (by simp [pow2])
    · rw [show (53 : ℤ) = ((53 : ℕ) : ℤ) by norm_num, pow2_nat]
      exact_mod_cast h
    · norm_num
  · have e : flv (pow2 53) = pow2 53 := flv_exact (n := 1) (e := 53) (by simp) (by
      rw [show (53 : ℤ) = ((53 : ℕ) : ℤ) by norm_num, pow2_nat]; norm_num) (by norm_num)
    have p : pow2 53 = ((2 ^ 53 : ℤ) : ℚ) := by
      rw [show (53 : ℤ) = ((53 : ℕ) : ℤ) by norm_num, pow2_nat]; norm_num
    rw [p] at e
    rcases (abs_eq (by norm_num)).1 h with h | h
    · rw [h]; exact e
    · rw [h, Int.cast_neg, flv_neg, e]

theorem pow2_1023_big : (2 ^ 53 : ℚ) ≤ pow2 1023 := by
  have : (2 ^ 53 : ℚ) = pow2 53 := by
    rw [show (53 : ℤ) = ((53 : ℕ) : ℤ) by norm_num, pow2_nat]; norm_num
  rw [this]; exact pow2_le (by norm_num)

theorem fl_int {n : ℤ} (h : |n| ≤ 2 ^ 53) : fl (n : ℚ) = .fin n := by
  rw [fl_fin_of_abs, flv_int h]
  have : |(n : ℚ)| ≤ 2 ^ 53 := by exact_mod_cast h
  exact this.trans pow2_1023_big

end Wagyu
