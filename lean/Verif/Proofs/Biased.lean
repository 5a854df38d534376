import Verif.Proofs.Float
import Verif.Spec.Double
import Mathlib.Order.Interval.Finset.Basic
import Mathlib.Data.Int.Interval

/-!
# The integer rank of a double
-/

namespace Wagyu

open Spec

theorem pow2_53 : pow2 53 = ((2 ^ 53 : ℤ) : ℚ) := by
  rw [show (53 : ℤ) = ((53 : ℕ) : ℤ) by norm_num, pow2_nat]; norm_num

theorem Spec.IsDouble.abs_lt {q : ℚ} (h : IsDouble q) : |q| < pow2 1024 := by
  obtain ⟨n, e, hn, _, he, rfl⟩ := h
  have hn' : |(n : ℚ)| < pow2 53 := by rw [pow2_53]; exact_mod_cast hn
  rw [abs_mul, ← pow2_eq, abs_of_pos (pow2_pos e), show (1024 : ℤ) = 53 + 971 by norm_num, pow2_add]
  calc |(n : ℚ)| * pow2 e < pow2 53 * pow2 e := mul_lt_mul_of_pos_right hn' (pow2_pos e)
    _ ≤ _ := mul_le_mul_of_nonneg_left (pow2_le he) (pow2_pos _).le

theorem Spec.IsDouble.flv_eq {q : ℚ} (h : IsDouble q) : flv q = q := by
  obtain ⟨n, e, hn, h1, _, hq⟩ := h
  apply flv_exact (n := n) (e := e) (by rw [pow2_eq]; exact hq) _ h1
  rw [pow2_53]; exact_mod_cast hn

theorem Spec.IsDouble.fl_eq {q : ℚ} (h : IsDouble q) : fl q = .fin q := by
  have := _root_.abs_lt.1 h.abs_lt
  rw [Wagyu.fl_eq, h.flv_eq, if_neg (by linarith), if_neg (by linarith)]

theorem Spec.IsDouble.neg {q : ℚ} (h : IsDouble q) : IsDouble (-q) := by
  obtain ⟨n, e, hn, h1, h2, rfl⟩ := h
  exact ⟨-n, e, by rwa [abs_neg], h1, h2, by push_cast; ring⟩

theorem isDouble_zero : IsDouble 0 := ⟨0, 0, by norm_num, by norm_num, by norm_num, by norm_num⟩

/-- The significand of a positive double. -/
theorem Spec.IsDouble.mantissa {q : ℚ} (h : IsDouble q) (hq : 0 < q) :
    ∃ m : ℕ, q = m * pow2 (ulpExp q) ∧ m < 2 ^ 53 ∧ 0 < m ∧ (-1074 < ulpExp q → 2 ^ 52 ≤ m) ∧ ulpExp q ≤ 971 := by
  obtain ⟨n, e, hn, h1, h2, hqe⟩ := id h
  rw [← pow2_eq] at hqe
  have hp := pow2_pos (ulpExp q)
  have hspec := ilog2_spec q hq.ne'
  rw [abs_of_pos hq] at hspec
  have hlt : q < pow2 1024 := by have := h.abs_lt; rwa [abs_of_pos hq] at this
  have hub : ilog2 q < 1024 := pow2_lt_iff.1 (lt_of_le_of_lt hspec.1 hlt)
  have hfl := h.flv_eq
  unfold flv at hfl
  rw [if_neg hq.ne'] at hfl
  obtain ⟨m, hm⟩ : ∃ m : ℕ, roundEven (q / pow2 (ulpExp q)) = m := by
    apply Int.eq_ofNat_of_zero_le
    have : roundEven ((0 : ℤ) : ℚ) ≤ roundEven (q / pow2 (ulpExp q)) := roundEven_mono (by push_cast; positivity)
    rwa [roundEven_int] at this
  rw [hm] at hfl
  push_cast at hfl
  have hmq : (m : ℚ) = q / pow2 (ulpExp q) := by rw [eq_div_iff hp.ne']; exact hfl
  refine ⟨m, hfl.symm, ?_, ?_, ?_, ?_⟩
  · have : (m : ℚ) < pow2 53 := by
      rw [hmq, div_lt_iff₀ hp, ← pow2_add]
      exact lt_of_lt_of_le hspec.2 (pow2_le (by have := ulpExp_ge' q; omega))
    rw [pow2_53] at this
    exact_mod_cast this
  · rcases Nat.eq_zero_or_pos m with h0 | h0
    · subst h0; simp at hfl; linarith
    · exact h0
  · intro hu
    have he : ulpExp q = ilog2 q - 52 := by unfold ulpExp at hu ⊢; omega
    have : pow2 52 ≤ (m : ℚ) := by
      rw [hmq, le_div_iff₀ hp, ← pow2_add, he]
      exact (by rw [show 52 + (ilog2 q - 52) = ilog2 q by ring]; exact hspec.1)
    rw [show (52 : ℤ) = ((52 : ℕ) : ℤ) by norm_num, pow2_nat] at this
    exact_mod_cast this
  · unfold ulpExp; omega

theorem magBits_of {q : ℚ} (hq : 0 < q) {m : ℕ} (h : q = m * pow2 (ulpExp q)) :
    magBits q = (ulpExp q + 1074).toNat * 2 ^ 52 + m := by
  unfold magBits
  rw [if_neg hq.ne', if_neg (not_lt.2 hq.le)]
  have hp := pow2_pos (ulpExp q)
  have : q / pow2 (ulpExp q) = (m : ℚ) := by rw [div_eq_iff hp.ne']; exact h
  simp only
  rw [this]
  have : Rat.floor (m : ℚ) = (m : ℤ) := by
    rw [ratfloor_eq]; simp
  rw [this]; simp

theorem magBits_strictMono {a b : ℚ} (ha : IsDouble a) (hb : IsDouble b) (h0 : 0 ≤ a) (h : a < b) :
    magBits a < magBits b := by
  have hb0 : 0 < b := lt_of_le_of_lt h0 h
  obtain ⟨mb, eb, b1, b2, b3, _⟩ := hb.mantissa hb0
  rw [magBits_of hb0 eb]
  rcases eq_or_lt_of_le h0 with h0 | h0
  · subst h0
    simp [magBits]; omega
  · obtain ⟨ma, ea, a1, a2, a3, _⟩ := ha.mantissa h0
    rw [magBits_of h0 ea]
    have hm := ilog2_mono h0.ne' (show |a| ≤ |b| by rw [abs_of_pos h0, abs_of_pos hb0]; exact h.le)
    have hu : ulpExp a ≤ ulpExp b := by unfold ulpExp; omega
    have ga := ulpExp_ge a
    have gb := ulpExp_ge b
    rcases eq_or_lt_of_le hu with he | hl
    · rw [he]
      rw [ea, eb, he] at h
      have := lt_of_mul_lt_mul_right h (pow2_pos _).le
      have : ma < mb := by exact_mod_cast this
      omega
    · have := b3 (by omega)
      have : (ulpExp a + 1074).toNat + 1 ≤ (ulpExp b + 1074).toNat := by omega
      have := Nat.mul_le_mul_right (2 ^ 52) this
      omega

theorem magBits_lt {q : ℚ} (h : IsDouble q) (h0 : 0 ≤ q) : magBits q < 2047 * 2 ^ 52 := by
  rcases eq_or_lt_of_le h0 with h0 | h0
  · subst h0; simp [magBits]
  · obtain ⟨m, e, a1, _, _, a4⟩ := h.mantissa h0
    rw [magBits_of h0 e]
    have : (ulpExp q + 1074).toNat ≤ 2045 := by omega
    have := Nat.mul_le_mul_right (2 ^ 52) this
    omega

theorem magBits_surj (N : ℕ) (h : N < 2047 * 2 ^ 52) : ∃ q : ℚ, IsDouble q ∧ 0 ≤ q ∧ magBits q = N := by
  rcases Nat.eq_zero_or_pos N with h0 | h0
  · exact ⟨0, isDouble_zero, le_refl _, by simp [magBits, h0]⟩
  -- exponent field and significand
  obtain ⟨E, m, hN, hE, hm1, hm0, hm2⟩ : ∃ E m : ℕ, N = E * 2 ^ 52 + m ∧ E ≤ 2045 ∧ m < 2 ^ 53 ∧ 0 < m
      ∧ (0 < E → 2 ^ 52 ≤ m) := by
    by_cases hc : N < 2 ^ 52
    · exact ⟨0, N, by omega, by omega, by omega, h0, by omega⟩
    · refine ⟨N / 2 ^ 52 - 1, N % 2 ^ 52 + 2 ^ 52, ?_, ?_, ?_, ?_, ?_⟩ <;> omega
  have hp := pow2_pos ((E : ℤ) - 1074)
  have hmq : (0 : ℚ) < m := by exact_mod_cast hm0
  refine ⟨m * pow2 ((E : ℤ) - 1074), ⟨m, (E : ℤ) - 1074, ?_, by omega, by omega, by rw [pow2_eq]; push_cast; rfl⟩,
    by positivity, ?_⟩
  · rw [abs_of_nonneg (by positivity)]; exact_mod_cast hm1
  · have hq : 0 < (m : ℚ) * pow2 ((E : ℤ) - 1074) := by positivity
    have hu : ulpExp ((m : ℚ) * pow2 ((E : ℤ) - 1074)) = (E : ℤ) - 1074 := by
      have hs := ilog2_spec _ hq.ne'
      rw [abs_of_pos hq] at hs
      have h1 : ilog2 ((m : ℚ) * pow2 ((E : ℤ) - 1074)) < 53 + ((E : ℤ) - 1074) := by
        rw [← pow2_lt_iff]
        refine lt_of_le_of_lt hs.1 ?_
        rw [pow2_add, pow2_53]
        exact mul_lt_mul_of_pos_right (by exact_mod_cast hm1) hp
      unfold ulpExp
      rcases Nat.eq_zero_or_pos E with hE0 | hE0
      · omega
      · have h2 : 52 + ((E : ℤ) - 1074) < ilog2 ((m : ℚ) * pow2 ((E : ℤ) - 1074)) + 1 := by
          rw [← pow2_lt_iff]
          refine lt_of_le_of_lt ?_ hs.2
          rw [pow2_add, show (52 : ℤ) = ((52 : ℕ) : ℤ) by norm_num, pow2_nat]
          exact mul_le_mul_of_nonneg_right (by exact_mod_cast hm2 hE0) hp.le
        omega
    rw [magBits_of hq (by rw [hu]), hu, hN]
    congr 2
    omega

theorem magBits_neg (q : ℚ) : magBits (-q) = magBits q := by
  unfold magBits
  rw [ulpExp_neg]
  by_cases h : q = 0
  · simp [h]
  · rw [if_neg h, if_neg (by simpa using h)]
    simp only
    rcases lt_trichotomy q 0 with hq | hq | hq
    · rw [if_pos hq, if_neg (by simp; linarith)]
    · exact absurd hq h
    · rw [if_neg (not_lt.2 hq.le), if_pos (by simpa using hq), neg_neg]

/-- The position of a double in the ordered list of all doubles, zero having position `0`. -/
def rank (q : ℚ) : ℤ := if q < 0 then -(magBits q : ℤ) else magBits q

theorem rank_strictMono {a b : ℚ} (ha : IsDouble a) (hb : IsDouble b) (h : a < b) : rank a < rank b := by
  unfold rank
  by_cases h1 : a < 0
  · rw [if_pos h1]
    by_cases h2 : b < 0
    · rw [if_pos h2, ← magBits_neg a, ← magBits_neg b]
      have := magBits_strictMono hb.neg ha.neg (by linarith) (by linarith)
      omega
    · rw [if_neg h2]
      have := magBits_strictMono isDouble_zero ha.neg (le_refl _) (by linarith)
      rw [magBits_neg] at this
      omega
  · rw [if_neg h1, if_neg (by linarith)]
    have := magBits_strictMono ha hb (by linarith) h
    omega

theorem rank_lt_iff {a b : ℚ} (ha : IsDouble a) (hb : IsDouble b) : rank a < rank b ↔ a < b := by
  refine ⟨fun h => ?_, rank_strictMono ha hb⟩
  by_contra hc
  rcases eq_or_lt_of_le (not_lt.1 hc) with he | hl
  · rw [he] at h; omega
  · have := rank_strictMono hb ha hl; omega

theorem rank_le_iff {a b : ℚ} (ha : IsDouble a) (hb : IsDouble b) : rank a ≤ rank b ↔ a ≤ b := by
  rw [← not_lt, ← not_lt, rank_lt_iff hb ha]

theorem rank_surj (r : ℤ) (h : |r| < 2047 * 2 ^ 52) : ∃ q : ℚ, IsDouble q ∧ rank q = r := by
  rw [abs_lt] at h
  rcases le_or_gt 0 r with h0 | h0
  · obtain ⟨q, a, b, c⟩ := magBits_surj r.toNat (by omega)
    refine ⟨q, a, ?_⟩
    rw [rank, if_neg (not_lt.2 b), c]; omega
  · obtain ⟨q, a, b, c⟩ := magBits_surj (-r).toNat (by omega)
    refine ⟨-q, a.neg, ?_⟩
    have hq : 0 < q := by
      rcases eq_or_lt_of_le b with hb | hb
      · subst hb; simp [magBits] at c; omega
      · exact hb
    rw [rank, if_pos (by linarith), magBits_neg, c]; omega

theorem abs_rank_lt {q : ℚ} (h : IsDouble q) : |rank q| < 2047 * 2 ^ 52 := by
  unfold rank
  rw [abs_lt]
  split
  · have := magBits_lt h.neg (by linarith)
    rw [magBits_neg] at this
    constructor <;> omega
  · have := magBits_lt h (by linarith)
    constructor <;> omega

/-- The number of doubles from `x` (excluded) to `y` (included). -/
theorem ncard_between {x y : ℚ} (hx : IsDouble x) (hy : IsDouble y) (h : x ≤ y) :
    {z | IsDouble z ∧ x < z ∧ z ≤ y}.Finite ∧ ({z | IsDouble z ∧ x < z ∧ z ≤ y}.ncard : ℤ) = rank y - rank x := by
  have hinj : Set.InjOn rank {z | IsDouble z ∧ x < z ∧ z ≤ y} := by
    intro a ha b hb hab
    rcases lt_trichotomy a b with h | h | h
    · have := rank_strictMono ha.1 hb.1 h; omega
    · exact h
    · have := rank_strictMono hb.1 ha.1 h; omega
  have himg : rank '' {z | IsDouble z ∧ x < z ∧ z ≤ y} = Set.Ioc (rank x) (rank y) := by
    ext r
    constructor
    · rintro ⟨z, ⟨h1, h2, h3⟩, rfl⟩
      exact ⟨(rank_lt_iff hx h1).2 h2, (rank_le_iff h1 hy).2 h3⟩
    · rintro ⟨h1, h2⟩
      have bx := abs_lt.1 (abs_rank_lt hx)
      have by' := abs_lt.1 (abs_rank_lt hy)
      obtain ⟨z, hz, rfl⟩ := rank_surj r (by rw [abs_lt]; constructor <;> omega)
      exact ⟨z, ⟨hz, (rank_lt_iff hx hz).1 h1, (rank_le_iff hz hy).1 h2⟩, rfl⟩
  have hfin : {z | IsDouble z ∧ x < z ∧ z ≤ y}.Finite := by
    apply Set.Finite.of_finite_image _ hinj
    rw [himg]; exact Set.finite_Ioc _ _
  refine ⟨hfin, ?_⟩
  rw [← hinj.ncard_image, himg, ← Finset.coe_Ioc, Set.ncard_coe_finset, Int.card_Ioc]
  have := (rank_le_iff hx hy).2 h
  omega

/-! ## The bit pattern -/

theorem biased_nonneg (n : ℕ) (h : n < 2 ^ 63) : doubleToBiased (BitVec.ofNat 64 n) = 2 ^ 63 + n := by
  unfold doubleToBiased
  have hn : n % 2 ^ 64 = n := Nat.mod_eq_of_lt (by omega)
  have h1 : BitVec.ofNat 64 (2 ^ 63) &&& BitVec.ofNat 64 n = 0 := by
    apply BitVec.eq_of_toNat_eq
    rw [BitVec.toNat_and, BitVec.toNat_ofNat, BitVec.toNat_ofNat, hn, show 2 ^ 63 % 2 ^ 64 = 2 ^ 63 by norm_num]
    apply Nat.eq_of_testBit_eq
    intro i
    rw [Nat.testBit_and, Nat.testBit_two_pow]
    by_cases hi : 63 = i
    · subst hi; rw [Nat.testBit_lt_two_pow h]; simp
    · simp [hi]
  simp only
  rw [if_neg (by simpa using h1), BitVec.toNat_or, BitVec.toNat_ofNat, BitVec.toNat_ofNat, hn,
    show 2 ^ 63 % 2 ^ 64 = 2 ^ 63 * 1 by norm_num, ← Nat.two_pow_add_eq_or_of_lt h]
  omega

theorem biased_neg (n : ℕ) (h : n < 2 ^ 63) : doubleToBiased (BitVec.ofNat 64 (2 ^ 63 + n)) = 2 ^ 63 - n := by
  unfold doubleToBiased
  have hn : (2 ^ 63 + n) % 2 ^ 64 = 2 ^ 63 + n := Nat.mod_eq_of_lt (by omega)
  have h1 : BitVec.ofNat 64 (2 ^ 63) &&& BitVec.ofNat 64 (2 ^ 63 + n) ≠ 0 := by
    intro hc
    have := congrArg BitVec.toNat hc
    rw [BitVec.toNat_and, BitVec.toNat_ofNat, BitVec.toNat_ofNat, hn, show 2 ^ 63 % 2 ^ 64 = 2 ^ 63 by norm_num] at this
    have := congrArg (fun k => Nat.testBit k 63) this
    simp only [Nat.testBit_and, Nat.testBit_two_pow_self, Nat.testBit_two_pow_add_eq, Nat.testBit_lt_two_pow h] at this
    simp at this
  simp only
  rw [if_pos h1, show (1 : BitVec 64) = 1#64 from rfl, ← BitVec.neg_eq_not_add, BitVec.toNat_neg, BitVec.toNat_ofNat, hn]
  omega

theorem biased_fin {q : ℚ} (h : IsDouble q) : (doubleToBiased (packDouble (.fin q)) : ℤ) = 2 ^ 63 + rank q := by
  unfold packDouble
  simp only [F64.toDouble, h.fl_eq]
  unfold rank
  by_cases h0 : q < 0
  · rw [if_pos h0, if_pos h0]
    have := magBits_lt h.neg (by linarith)
    rw [magBits_neg] at this
    rw [biased_neg _ (by omega)]
    omega
  · rw [if_neg h0, if_neg h0]
    have := magBits_lt h (by linarith)
    rw [biased_nonneg _ (by omega)]
    omega

theorem almostEqual_iff_rank {x y : ℚ} (hx : IsDouble x) (hy : IsDouble y) :
    areFloatsAlmostEqual (.fin x) (.fin y) = true ↔ |rank x - rank y| ≤ 4 := by
  unfold areFloatsAlmostEqual
  simp only [decide_eq_true_eq]
  rw [biased_fin hx, biased_fin hy, ← Int.natCast_natAbs]
  omega

end Wagyu

namespace Wagyu

open Spec

theorem flv_isDouble {q : ℚ} (h : |flv q| < pow2 1024) : IsDouble (flv q) := by
  by_cases h0 : q = 0
  · subst h0; rw [flv_zero]; exact isDouble_zero
  have hp := pow2_pos (ulpExp q)
  set n := roundEven (q / pow2 (ulpExp q)) with hn
  have hv : flv q = n * pow2 (ulpExp q) := by unfold flv; rw [if_neg h0]
  have hs := ilog2_spec q h0
  have hb : |q / pow2 (ulpExp q)| < pow2 53 := by
    rw [abs_div, abs_of_pos hp, div_lt_iff₀ hp, ← pow2_add]
    exact lt_of_lt_of_le hs.2 (pow2_le (by have := ulpExp_ge' q; omega))
  have hr := roundEven_spec (q / pow2 (ulpExp q))
  have hle : |n| ≤ 2 ^ 53 := by
    have h1 : |(n : ℚ)| < pow2 53 + 1 := by
      have := abs_sub_abs_le_abs_sub (n : ℚ) (q / pow2 (ulpExp q))
      linarith
    rw [pow2_53] at h1
    have : |n| < 2 ^ 53 + 1 := by exact_mod_cast h1
    omega
  have hge := ulpExp_ge q
  by_cases hn0 : n = 0
  · rw [hv, hn0]; simpa using isDouble_zero
  -- the exponent of a non-zero result is small enough
  have key : ∀ k : ℤ, ∀ e : ℤ, k ≠ 0 → |(k : ℚ) * pow2 e| < pow2 1024 → |k| < 2 ^ 53 → -1074 ≤ e →
      (971 < e → ∃ j : ℕ, e = 971 + j) → IsDouble (k * pow2 e) := by
    intro k e hk hlt hk53 he hj
    by_cases h971 : e ≤ 971
    · exact ⟨k, e, hk53, he, h971, by rw [pow2_eq]⟩
    · obtain ⟨j, rfl⟩ := hj (by omega)
      refine ⟨k * 2 ^ j, 971, ?_, by norm_num, le_refl _, ?_⟩
      · have : |((k * 2 ^ j : ℤ) : ℚ)| * pow2 971 < pow2 53 * pow2 971 := by
          rw [← pow2_add]
          refine lt_of_eq_of_lt ?_ hlt
          rw [pow2_add, abs_mul, abs_mul, abs_of_pos (pow2_pos 971), abs_of_pos (pow2_pos j), pow2_nat]
          push_cast
          rw [abs_mul, abs_of_pos (show (0 : ℚ) < 2 ^ j by positivity)]
          ring
        have := lt_of_mul_lt_mul_right this (pow2_pos 971).le
        rw [pow2_53] at this
        exact_mod_cast this
      · rw [pow2_add, pow2_nat, ← pow2_eq]
        push_cast; ring
  rcases lt_or_eq_of_le hle with hlt | heq
  · rw [hv]
    apply key n _ hn0 (by rw [← hv]; exact h) hlt hge
    intro hc
    obtain ⟨j, hj⟩ := Int.eq_ofNat_of_zero_le (show 0 ≤ ulpExp q - 971 by omega)
    exact ⟨j, by omega⟩
  · -- a power of two
    obtain ⟨s, hs1, hs2⟩ : ∃ s : ℤ, |s| = 1 ∧ n = s * 2 ^ 53 := by
      rcases (abs_eq (by norm_num)).1 heq with h | h
      · exact ⟨1, by norm_num, by omega⟩
      · exact ⟨-1, by norm_num, by omega⟩
    have hv' : flv q = (s : ℚ) * pow2 (ulpExp q + 53) := by
      rw [hv, hs2, pow2_add, pow2_53]; push_cast; ring
    rw [hv']
    apply key s _ (by rintro rfl; simp at hs1) (by rw [← hv']; exact h) (by rw [hs1]; norm_num) (by omega)
    intro hc
    obtain ⟨j, hj⟩ := Int.eq_ofNat_of_zero_le (show 0 ≤ ulpExp q + 53 - 971 by omega)
    exact ⟨j, by omega⟩

theorem isDouble_dyadic (n : ℤ) (k : ℕ) (hk : k ≤ 1074) (h : |n| < 2 ^ 53) : IsDouble ((n : ℚ) / 2 ^ k) :=
  ⟨n, -(k : ℤ), h, by omega, by omega, by rw [zpow_neg, zpow_natCast]; rfl⟩

theorem isDouble_dyadic' (n : ℤ) (k : ℕ) (hk : k + 1 ≤ 1074) (h : |n| ≤ 2 ^ 53) : IsDouble ((n : ℚ) / 2 ^ (k + 1)) := by
  rcases lt_or_eq_of_le h with h | h
  · exact isDouble_dyadic n (k + 1) hk h
  · rcases (abs_eq (by norm_num)).1 h with h | h
    · have := isDouble_dyadic (2 ^ 52) k (by omega) (by norm_num)
      rw [h]
      convert this using 1
      push_cast; field_simp; norm_num; ring
    · have := isDouble_dyadic (-(2 ^ 52)) k (by omega) (by norm_num)
      rw [h]
      convert this using 1
      push_cast; field_simp; norm_num; ring

theorem isDouble_int (n : ℤ) (h : |n| < 2 ^ 53) : IsDouble (n : ℚ) := by
  simpa using isDouble_dyadic n 0 (by norm_num) h

/-- Five doubles lie between zero and one half. -/
theorem rank_half {q : ℚ} (h : IsDouble q) (hq : 1 / 2 ≤ q) : 5 ≤ rank q := by
  have d : ∀ k : ℤ, |k| < 2 ^ 53 → IsDouble ((k : ℚ) / 2 ^ 4) := fun k hk => isDouble_dyadic k 4 (by norm_num) hk
  have s : ∀ k : ℤ, 0 ≤ k → k < 8 → rank ((k : ℚ) / 2 ^ 4) + 1 ≤ rank (((k + 1 : ℤ) : ℚ) / 2 ^ 4) := by
    intro k h0 hk
    have h1 : |k| < 2 ^ 53 := by rw [abs_of_nonneg h0]; omega
    have h2 : |k + 1| < 2 ^ 53 := by rw [abs_of_nonneg (by omega)]; omega
    apply rank_strictMono (d k h1) (d (k + 1) h2)
    push_cast; linarith
  have z : rank (((0 : ℤ) : ℚ) / 2 ^ 4) = 0 := by simp [rank, magBits]
  have a0 := s 0 (by norm_num) (by norm_num)
  have a1 := s 1 (by norm_num) (by norm_num)
  have a2 := s 2 (by norm_num) (by norm_num)
  have a3 := s 3 (by norm_num) (by norm_num)
  have a4 := s 4 (by norm_num) (by norm_num)
  have last : rank (((5 : ℤ) : ℚ) / 2 ^ 4) ≤ rank q := by
    rw [rank_le_iff (d 5 (by norm_num)) h]
    push_cast; linarith
  norm_num at a0 a1 a2 a3 a4 z last
  omega

theorem rank_neg (q : ℚ) : rank (-q) = -rank q := by
  unfold rank
  rw [magBits_neg]
  rcases lt_trichotomy q 0 with h | h | h
  · rw [if_neg (by linarith), if_pos h]; ring
  · subst h; simp [magBits]
  · rw [if_pos (by linarith), if_neg (by linarith)]

theorem rank_zero : rank 0 = 0 := by simp [rank, magBits]

theorem almostZero_fin {q : ℚ} (h : IsDouble q) : isFloatAlmostZero (.fin q) = true ↔ |rank q| ≤ 4 := by
  unfold isFloatAlmostZero
  rw [almostEqual_iff_rank h isDouble_zero, rank_zero, sub_zero]

theorem almostEqual_nearHalf_int {n m : ℤ} (hn : |n| ≤ 2 ^ 50) (hm : |m| ≤ 2 ^ 50) (h : n < m) :
    8 ≤ rank m - rank n := by
  have b := abs_le.1 hn
  have b' := abs_le.1 hm
  have d : ∀ k : ℤ, 0 ≤ k → k ≤ 8 → IsDouble (((8 * n + k : ℤ) : ℚ) / 2 ^ 3) := fun k h0 h1 =>
    isDouble_dyadic' _ 2 (by norm_num) (by rw [abs_le]; constructor <;> omega)
  have s : ∀ k : ℤ, 0 ≤ k → k < 8 →
      rank (((8 * n + k : ℤ) : ℚ) / 2 ^ 3) + 1 ≤ rank (((8 * n + (k + 1) : ℤ) : ℚ) / 2 ^ 3) := by
    intro k h0 hk
    apply rank_strictMono (d k h0 (by omega)) (d (k + 1) (by omega) (by omega))
    push_cast; linarith
  have st : ∀ k : ℕ, k ≤ 8 → rank (((8 * n : ℤ) : ℚ) / 2 ^ 3) + k ≤ rank (((8 * n + (k : ℤ) : ℤ) : ℚ) / 2 ^ 3) := by
    intro k
    induction k with
    | zero => intro _; simp
    | succ k ih =>
      intro hk
      have := ih (by omega)
      have := s k (by omega) (by omega)
      push_cast at *
      omega
  have a := st 8 (le_refl _)
  have e0 : (((8 * n : ℤ) : ℚ) / 2 ^ 3) = (n : ℚ) := by push_cast; ring
  have e8 : (((8 * n + ((8 : ℕ) : ℤ) : ℤ) : ℚ) / 2 ^ 3) = ((n + 1 : ℤ) : ℚ) := by push_cast; ring
  rw [e0, e8] at a
  have : rank ((n + 1 : ℤ) : ℚ) ≤ rank (m : ℚ) := by
    rw [rank_le_iff (isDouble_int _ (by rw [abs_lt]; constructor <;> omega))
      (isDouble_int _ (by rw [abs_lt]; constructor <;> omega))]
    exact_mod_cast h
  push_cast at a
  push_cast at this
  omega

end Wagyu
