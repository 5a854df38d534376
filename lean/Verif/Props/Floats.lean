import Verif.Proofs.Biased

/-!
# C17, C18: rounding and approximate equality of floats
-/

namespace Wagyu

open Spec

/-! ## C18 -/

/-- **C18.** `are_floats_almost_equal(x, y)` holds iff at most four doubles are stepped over from `x` to `y`. -/
theorem C18_almost_equal_iff (x y : ℚ) (hx : IsDouble x) (hy : IsDouble y) :
    areFloatsAlmostEqual (.fin x) (.fin y) = true ↔ WithinFourUlps x y := by
  rw [almostEqual_iff_rank hx hy]
  unfold WithinFourUlps doublesBetween
  rcases le_total x y with h | h
  · obtain ⟨a, b⟩ := ncard_between hx hy h
    rw [min_eq_left h, max_eq_right h]
    have := (rank_le_iff hx hy).2 h
    rw [abs_sub_comm, abs_of_nonneg (by omega)]
    constructor
    · intro h; exact ⟨a, by omega⟩
    · rintro ⟨_, h⟩; omega
  · obtain ⟨a, b⟩ := ncard_between hy hx h
    rw [min_eq_right h, max_eq_left h]
    have := (rank_le_iff hy hx).2 h
    rw [abs_of_nonneg (by omega)]
    constructor
    · intro h; exact ⟨a, by omega⟩
    · rintro ⟨_, h⟩; omega

example : IsDouble (1 / 2) ∧ IsDouble 3 :=
  ⟨⟨1, -1, by norm_num, by norm_num, by norm_num, by norm_num⟩, ⟨3, 0, by norm_num, by norm_num, by norm_num, by norm_num⟩⟩

/-- Both sides of the equivalence occur. -/
example : areFloatsAlmostEqual (.fin 1) (.fin (1 + 1 / 2 ^ 50)) = true
    ∧ areFloatsAlmostEqual (.fin 1) (.fin (1 + 5 / 2 ^ 52)) = false := by decide +kernel

/-- `-0.0` and `0.0` have the same rank, so that the model need not tell them apart. -/
theorem biased_neg_zero : doubleToBiased (BitVec.ofNat 64 (2 ^ 63)) = doubleToBiased (BitVec.ofNat 64 0) := by
  rw [show 2 ^ 63 = 2 ^ 63 + 0 by rfl, biased_neg 0 (by norm_num), biased_nonneg 0 (by norm_num)]; rfl

theorem C18_reflexive (x : F64) : areFloatsAlmostEqual x x = true := by simp [areFloatsAlmostEqual]

theorem C18_symmetric (x y : F64) : areFloatsAlmostEqual x y = areFloatsAlmostEqual y x := by
  simp only [areFloatsAlmostEqual]
  congr 1
  apply propext
  omega

/-- **C18.** Integers up to `2 ^ 50` that differ are never almost equal. -/
theorem C18_integers (n m : ℤ) (hn : |n| ≤ 2 ^ 50) (hm : |m| ≤ 2 ^ 50) :
    areFloatsAlmostEqual (.ofInt n) (.ofInt m) = true ↔ n = m := by
  have dn : IsDouble (n : ℚ) := isDouble_int n (lt_of_le_of_lt hn (by norm_num))
  have dm : IsDouble (m : ℚ) := isDouble_int m (lt_of_le_of_lt hm (by norm_num))
  unfold F64.ofInt
  constructor
  · intro h
    rw [almostEqual_iff_rank dn dm] at h
    rcases lt_trichotomy n m with hl | hl | hl
    · have := almostEqual_nearHalf_int hn hm hl
      rw [abs_le] at h; omega
    · exact hl
    · have := almostEqual_nearHalf_int hm hn hl
      rw [abs_le] at h; omega
  · rintro rfl; exact C18_reflexive _

/-- **C18.** The derived tests: exactly one of "less", "almost equal", "greater" holds for finite numbers, and
"greater or equal" is "greater" or "almost equal". -/
theorem C18_trichotomy (x y : ℚ) :
    ((areFloatsLessThan (.fin x) (.fin y) = true ∧ areFloatsGreaterThan (.fin x) (.fin y) = false
        ∧ areFloatsAlmostEqual (.fin x) (.fin y) = false)
      ∨ (areFloatsLessThan (.fin x) (.fin y) = false ∧ areFloatsGreaterThan (.fin x) (.fin y) = true
        ∧ areFloatsAlmostEqual (.fin x) (.fin y) = false)
      ∨ (areFloatsLessThan (.fin x) (.fin y) = false ∧ areFloatsGreaterThan (.fin x) (.fin y) = false
        ∧ areFloatsAlmostEqual (.fin x) (.fin y) = true))
    ∧ (areFloatsGreaterThanOrEqual (.fin x) (.fin y)
        = (areFloatsGreaterThan (.fin x) (.fin y) || areFloatsAlmostEqual (.fin x) (.fin y))) := by
  have hne : areFloatsAlmostEqual (.fin x) (.fin y) = false → x ≠ y := by
    rintro h rfl
    rw [C18_reflexive] at h; cases h
  simp only [areFloatsLessThan, areFloatsGreaterThan, areFloatsGreaterThanOrEqual, F64.lt]
  cases hE : areFloatsAlmostEqual (.fin x) (.fin y) with
  | true => simp
  | false =>
    have := hne hE
    rcases lt_or_gt_of_ne this with h | h
    · simp [h, not_lt.2 h.le]
    · simp [h, not_lt.2 h.le]

/-- The tests decide the order of the two numbers. -/
theorem C18_less_than_sound (x y : ℚ) (h : areFloatsLessThan (.fin x) (.fin y) = true) : x < y := by
  simp only [areFloatsLessThan, F64.lt, Bool.and_eq_true, decide_eq_true_eq] at h
  exact h.2

theorem C18_greater_than_sound (x y : ℚ) (h : areFloatsGreaterThan (.fin x) (.fin y) = true) : y < x := by
  simp only [areFloatsGreaterThan, F64.lt, Bool.and_eq_true, decide_eq_true_eq] at h
  exact h.2

/-- **C18.** An area (half an integer, rounded to a float) is almost zero iff it is zero. -/
theorem C18_almost_zero_area (n : ℤ) : isFloatAlmostZero (intDiv n 2) = true ↔ n = 0 := by
  constructor
  · intro h
    by_contra hn
    have e := fl_eq ((n : ℚ) / ((2 : ℤ) : ℚ))
    unfold intDiv at h
    have half : flv (1 / 2) = 1 / 2 :=
      Spec.IsDouble.flv_eq ⟨1, -1, by norm_num, by norm_num, by norm_num, by norm_num⟩
    have mhalf : flv (-(1 / 2)) = -(1 / 2) := by rw [flv_neg, half]
    rw [e] at h
    split at h
    · revert h; decide +kernel
    · split at h
      · revert h; decide +kernel
      · next h1 h2 =>
        have hd : IsDouble (flv ((n : ℚ) / ((2 : ℤ) : ℚ))) := flv_isDouble (by rw [abs_lt]; constructor <;> linarith)
        rw [almostZero_fin hd, abs_le] at h
        rcases lt_or_gt_of_ne hn with hn | hn
        · have : (n : ℚ) ≤ -1 := by exact_mod_cast (show n ≤ -1 by omega)
          have hm := flv_mono (show (n : ℚ) / ((2 : ℤ) : ℚ) ≤ -(1 / 2) by push_cast; linarith)
          rw [mhalf] at hm
          have := rank_half hd.neg (by linarith)
          rw [rank_neg] at this
          omega
        · have : (1 : ℚ) ≤ n := by exact_mod_cast (show 1 ≤ n by omega)
          have hm := flv_mono (show (1 / 2 : ℚ) ≤ (n : ℚ) / ((2 : ℤ) : ℚ) by push_cast; linarith)
          rw [half] at hm
          have := rank_half hd hm
          omega
  · rintro rfl
    decide +kernel

/-- **C18.** `is_float_almost_zero` of an integer holds iff it is zero. -/
theorem C18_almost_zero_integer (n : ℤ) : isFloatAlmostZero (.floatOfInt n) = true ↔ n = 0 := by
  have h := C18_almost_zero_area (2 * n)
  unfold intDiv at h
  have e : (((2 * n : ℤ) : ℚ) / ((2 : ℤ) : ℚ)) = (n : ℚ) := by push_cast; ring
  rw [e] at h
  rw [F64.floatOfInt, h]
  omega

/-! ## C17 -/

theorem ratRoundHalfUp_iff (q : ℚ) (n : ℤ) : ratRoundHalfUp q = n ↔ IsNearest n q := by
  unfold ratRoundHalfUp IsNearest
  constructor
  · intro h
    split at h
    · next h0 =>
      have h : ⌊q + 1 / 2⌋ = n := h
      have a := Int.floor_le (q + 1 / 2)
      have b := Int.lt_floor_add_one (q + 1 / 2)
      rw [h] at a b
      have hn : (0 : ℚ) ≤ n := by
        have : (0 : ℤ) ≤ n := by rw [← h]; exact Int.floor_nonneg.2 (by linarith)
        exact_mod_cast this
      rcases eq_or_lt_of_le a with he | hl
      · right
        rw [he]
        refine ⟨by rw [show q + 1 / 2 - q = (1 / 2 : ℚ) by ring]; norm_num, ?_⟩
        rw [abs_of_nonneg h0, abs_of_nonneg (by linarith)]; linarith
      · left
        rw [abs_lt]; constructor <;> linarith
    · next h0 =>
      have h0 : q < 0 := not_le.1 h0
      have h : -⌊-q + 1 / 2⌋ = n := h
      have hm : ⌊-q + 1 / 2⌋ = -n := by omega
      have a := Int.floor_le (-q + 1 / 2)
      have b := Int.lt_floor_add_one (-q + 1 / 2)
      rw [hm] at a b
      push_cast at a b
      rcases eq_or_lt_of_le a with he | hl
      · right
        have : (n : ℚ) = q - 1 / 2 := by linarith
        rw [this]
        refine ⟨by rw [show q - 1 / 2 - q = (-(1 / 2) : ℚ) by ring, abs_neg]; norm_num, ?_⟩
        rw [abs_of_neg h0, abs_of_neg (by linarith)]; linarith
      · left
        rw [abs_lt]; constructor <;> linarith
  · intro h
    split
    · next h0 =>
      show ⌊q + 1 / 2⌋ = n
      rw [Int.floor_eq_iff]
      rcases h with h | ⟨h, h'⟩
      · rw [abs_lt] at h
        constructor <;> linarith
      · rcases (abs_eq (by norm_num)).1 h with h | h
        · constructor <;> linarith
        · exfalso
          have hn : (n : ℚ) = q - 1 / 2 := by linarith
          rw [abs_of_nonneg h0] at h'
          rcases abs_cases (n : ℚ) with ⟨h1, h2⟩ | ⟨h1, h2⟩
          · linarith
          · have h3 : q < 1 / 2 := by linarith
            have h4 : (-1 : ℚ) < n := by linarith
            have h5 : (n : ℚ) < 0 := h2
            have : (-1 : ℤ) < n := by exact_mod_cast h4
            have : n < 0 := by exact_mod_cast h5
            omega
    · next h0 =>
      have h0 : q < 0 := not_le.1 h0
      show -⌊-q + 1 / 2⌋ = n
      suffices ⌊-q + 1 / 2⌋ = -n by omega
      rw [Int.floor_eq_iff]
      push_cast
      rcases h with h | ⟨h, h'⟩
      · rw [abs_lt] at h
        constructor <;> linarith
      · rcases (abs_eq (by norm_num)).1 h with h | h
        · exfalso
          have hn : (n : ℚ) = q + 1 / 2 := by linarith
          rw [abs_of_neg h0] at h'
          rcases abs_cases (n : ℚ) with ⟨h1, h2⟩ | ⟨h1, h2⟩
          · have h3 : (n : ℚ) < 1 := by linarith
            have h4 : (0 : ℚ) < n := by linarith
            have : (0 : ℤ) < n := by exact_mod_cast h4
            have : n < 1 := by exact_mod_cast h3
            omega
          · linarith
        · constructor <;> linarith

/-- **C17.** `round_half_up` returns the nearest integer, ties away from zero, for every finite number. -/
theorem C17_round_half_up (q : ℚ) (n : ℤ) : roundHalfUp (.fin q) = some n ↔ IsNearest n q := by
  rw [← ratRoundHalfUp_iff]; simp [roundHalfUp]

example : roundHalfUp (.fin (5 / 2)) = some 3 ∧ roundHalfUp (.fin (-5 / 2)) = some (-3)
    ∧ roundHalfUp (.fin (7 / 3)) = some 2 := by decide +kernel

theorem isNearest_int (n m : ℤ) : IsNearest m (n : ℚ) ↔ m = n := by
  rw [← ratRoundHalfUp_iff, ratRoundHalfUp]
  split
  · show ⌊(n : ℚ) + 1 / 2⌋ = m ↔ _
    have : ⌊(n : ℚ) + 1 / 2⌋ = n := by rw [Int.floor_eq_iff]; constructor <;> linarith
    rw [this]; exact eq_comm
  · show -⌊-(n : ℚ) + 1 / 2⌋ = m ↔ _
    have : ⌊-(n : ℚ) + 1 / 2⌋ = -n := by rw [Int.floor_eq_iff]; push_cast; constructor <;> linarith
    rw [this, neg_neg]; exact eq_comm

theorem isNearest_between {q : ℚ} {n lo hi : ℤ} (h : IsNearest n q) (h1 : (lo : ℚ) ≤ q) (h2 : q ≤ hi) :
    lo ≤ n ∧ n ≤ hi := by
  have hh : |(n : ℚ) - q| ≤ 1 / 2 := by rcases h with h | h <;> [exact h.le; exact h.1.le]
  rw [abs_le] at hh
  constructor
  · have : (lo : ℚ) - 1 < n := by linarith
    have : lo - 1 < n := by exact_mod_cast this
    omega
  · have : (n : ℚ) < hi + 1 := by linarith
    have : n < hi + 1 := by exact_mod_cast this
    omega

/-- A double that is not below `2 ^ 52` in magnitude is an integer. -/
theorem isDouble_big {q : ℚ} (h : IsDouble q) (hq : 2 ^ 52 ≤ |q|) : ∃ n : ℤ, q = n := by
  obtain ⟨n, e, hn, h1, h2, rfl⟩ := h
  rcases le_or_gt 0 e with he | he
  · obtain ⟨k, rfl⟩ := Int.eq_ofNat_of_zero_le he
    exact ⟨n * 2 ^ k, by push_cast; rw [zpow_natCast]⟩
  · exfalso
    have : |(n : ℚ) * 2 ^ e| < 2 ^ 52 := by
      rw [abs_mul, abs_of_pos (show (0 : ℚ) < 2 ^ e by positivity)]
      have a : (2 : ℚ) ^ e ≤ 2 ^ (-1 : ℤ) := zpow_le_zpow_right₀ (by norm_num) (by omega)
      have b : |(n : ℚ)| < 2 ^ 53 := by exact_mod_cast hn
      have c : (0 : ℚ) < 2 ^ e := by positivity
      calc |(n : ℚ)| * 2 ^ e < 2 ^ 53 * 2 ^ e := mul_lt_mul_of_pos_right b c
        _ ≤ 2 ^ 53 * 2 ^ (-1 : ℤ) := mul_le_mul_of_nonneg_left a (by positivity)
        _ = 2 ^ 52 := by norm_num
    linarith

/-- The test of the directed roundings is the 4-ulp test against the half-integer above the floor. -/
theorem nearHalf_iff {q : ℚ} (h : IsDouble q) (hq : |q| < 2 ^ 52) :
    nearHalf q = true ↔ WithinFourUlps q (⌊q⌋ + 1 / 2) := by
  rw [abs_lt] at hq
  have hf1 : -(2 : ℤ) ^ 52 ≤ ⌊q⌋ := by rw [Int.le_floor]; push_cast; linarith
  have hf2 : ⌊q⌋ < (2 : ℤ) ^ 52 := by rw [Int.floor_lt]; push_cast; linarith
  have hd : IsDouble ((⌊q⌋ : ℚ) + 1 / 2) := by
    refine ⟨2 * ⌊q⌋ + 1, -1, ?_, by norm_num, by norm_num, by push_cast; ring⟩
    rw [abs_lt]; constructor <;> omega
  have hi : fl (⌊q⌋ : ℚ) = .fin (⌊q⌋ : ℚ) := by
    apply fl_int
    rw [abs_le]; constructor <;> omega
  have e : nearHalf q = areFloatsAlmostEqual (.fin ((⌊q⌋ : ℚ) + 1 / 2)) (.fin q) := by
    show areFloatsAlmostEqual (F64.add (fl (⌊q⌋ : ℚ)) (.fin (1 / 2))) (.fin q) = _
    rw [hi]
    show areFloatsAlmostEqual (fl ((⌊q⌋ : ℚ) + 1 / 2)) (.fin q) = _
    rw [hd.fl_eq]
  rw [e, C18_symmetric, C18_almost_equal_iff q _ h hd]

/-- **C17.** `round_towards_min` goes down within four ulps of a half-integer and to the nearest integer otherwise. -/
theorem C17_round_towards_min (q : ℚ) (h : IsDouble q) :
    ∃ n, roundTowardsMin (.fin q) = some n
      ∧ (WithinFourUlps q (⌊q⌋ + 1 / 2) → n = ⌊q⌋) ∧ (¬ WithinFourUlps q (⌊q⌋ + 1 / 2) → IsNearest n q) := by
  refine ⟨_, rfl, ?_, ?_⟩ <;> intro hw <;> rcases lt_or_ge |q| (2 ^ 52) with hq | hq
  · rw [if_pos ((nearHalf_iff h hq).2 hw)]; rfl
  · obtain ⟨m, rfl⟩ := isDouble_big h hq
    have a : ratRoundHalfUp (m : ℚ) = m := by rw [ratRoundHalfUp_iff, isNearest_int]
    have b : Rat.floor (m : ℚ) = m := by rw [ratfloor_eq]; simp
    rw [a, b, Int.floor_intCast]; split <;> rfl
  · rw [if_neg (by rw [nearHalf_iff h hq]; exact hw), ← ratRoundHalfUp_iff]
  · obtain ⟨m, rfl⟩ := isDouble_big h hq
    have a : ratRoundHalfUp (m : ℚ) = m := by rw [ratRoundHalfUp_iff, isNearest_int]
    have b : Rat.floor (m : ℚ) = m := by rw [ratfloor_eq]; simp
    rw [a, b, isNearest_int]; split <;> rfl

theorem ratceil_eq (q : ℚ) : Rat.ceil q = ⌈q⌉ := by
  rw [Rat.ceil_eq_neg_floor_neg, ratfloor_eq, Int.floor_neg, neg_neg]

/-- **C17.** `round_towards_max` goes up within four ulps of a half-integer and to the nearest integer otherwise. -/
theorem C17_round_towards_max (q : ℚ) (h : IsDouble q) :
    ∃ n, roundTowardsMax (.fin q) = some n
      ∧ (WithinFourUlps q (⌊q⌋ + 1 / 2) → n = ⌈q⌉) ∧ (¬ WithinFourUlps q (⌊q⌋ + 1 / 2) → IsNearest n q) := by
  refine ⟨_, rfl, ?_, ?_⟩ <;> intro hw <;> rcases lt_or_ge |q| (2 ^ 52) with hq | hq
  · rw [if_pos ((nearHalf_iff h hq).2 hw), ratceil_eq]
  · obtain ⟨m, rfl⟩ := isDouble_big h hq
    have a : ratRoundHalfUp (m : ℚ) = m := by rw [ratRoundHalfUp_iff, isNearest_int]
    have b : Rat.ceil (m : ℚ) = m := by rw [ratceil_eq]; simp
    rw [a, b, Int.ceil_intCast]; split <;> rfl
  · rw [if_neg (by rw [nearHalf_iff h hq]; exact hw), ← ratRoundHalfUp_iff]
  · obtain ⟨m, rfl⟩ := isDouble_big h hq
    have a : ratRoundHalfUp (m : ℚ) = m := by rw [ratRoundHalfUp_iff, isNearest_int]
    have b : Rat.ceil (m : ℚ) = m := by rw [ratceil_eq]; simp
    rw [a, b, isNearest_int]; split <;> rfl

/-- **C17.** Each of the three roundings of a finite number keeps it inside any integer interval that contains it; in
particular (`lo = hi`) integers are unchanged, and the result is one of the two neighbouring integers. -/
theorem C17_keeps_interval (q : ℚ) (lo hi n : ℤ) (h1 : (lo : ℚ) ≤ q) (h2 : q ≤ hi)
    (h : roundHalfUp (.fin q) = some n ∨ roundTowardsMin (.fin q) = some n ∨ roundTowardsMax (.fin q) = some n) :
    lo ≤ n ∧ n ≤ hi := by
  have near := isNearest_between ((ratRoundHalfUp_iff q _).1 rfl) h1 h2
  have fl' : lo ≤ ⌊q⌋ ∧ ⌊q⌋ ≤ hi := by
    refine ⟨Int.le_floor.2 h1, ?_⟩
    have := (Int.floor_le q).trans h2
    exact_mod_cast this
  have ce : lo ≤ ⌈q⌉ ∧ ⌈q⌉ ≤ hi := by
    refine ⟨?_, Int.ceil_le.2 h2⟩
    have := h1.trans (Int.le_ceil q)
    exact_mod_cast this
  rcases h with h | h | h
  · simp only [roundHalfUp, Option.some.injEq] at h
    subst h; exact near
  · simp only [roundTowardsMin, Option.some.injEq] at h
    subst h; split
    · exact fl'
    · exact near
  · simp only [roundTowardsMax, Option.some.injEq] at h
    subst h; split
    · rw [ratceil_eq]; exact ce
    · exact near

/-- Near a half-integer the two directed roundings differ, elsewhere they agree. -/
example : roundTowardsMin (.fin (5 / 2)) = some 2 ∧ roundTowardsMax (.fin (5 / 2)) = some 3
    ∧ roundTowardsMin (.fin (21 / 8)) = some 3 ∧ roundTowardsMax (.fin (19 / 8)) = some 2 := by decide +kernel

end Wagyu
