import Verif.Proofs.CurrentX

/-!
# How far the computed points are from the edges
-/

namespace Wagyu

open Spec

/-- `2 ^ k / 2 ^ 53`. -/
def grain (k : ℕ) : ℚ := pow2 (k - 53)

theorem grain_pos (k : ℕ) : 0 < grain k := pow2_pos _
theorem grain_eq (k : ℕ) : grain k = 2 ^ k / 2 ^ 53 := by
  unfold grain
  rw [pow2_eq, zpow_sub₀ (by norm_num)]
  norm_num

theorem error_grain {q : ℚ} {k : ℕ} (h : |q| ≤ 2 ^ k) : |flv q - q| ≤ grain k := by
  refine flv_error_le (by omega) ?_
  rw [pow2_nat]; exact_mod_cast h

theorem grain_succ (k : ℕ) : grain (k + 1) = 2 * grain k := by rw [grain_eq, grain_eq, pow_succ]; ring

/-- `b + t * d` in floating point. -/
theorem lerp_error {b d : ℤ} {t : ℚ} {k : ℕ} (hk : k ≤ 52) (t0 : 0 ≤ t) (t1 : t ≤ 1) (hb : |b| ≤ 2 ^ k) (hd : |b + d| ≤ 2 ^ k) :
    |flv (b + flv (t * d)) - (b + t * d)| ≤ 3 * grain k ∧ |flv (b + flv (t * d))| ≤ 2 ^ k := by
  have h2 : (2 : ℤ) ^ k ≤ 2 ^ 52 := pow_le_pow_right₀ (by norm_num) hk
  have hd' : |d| ≤ 2 ^ (k + 1) := by rw [pow_succ]; rw [abs_le] at *; constructor <;> omega
  have hdq : |(d : ℚ)| ≤ 2 ^ (k + 1) := by exact_mod_cast hd'
  have hbq : |(b : ℚ)| ≤ 2 ^ k := by exact_mod_cast hb
  have hbdq : |(b : ℚ) + d| ≤ 2 ^ k := by exact_mod_cast hd
  have hd53 : |d| ≤ 2 ^ 53 := by rw [abs_le] at *; constructor <;> omega
  have m1 : min 0 (d : ℚ) ≤ t * d ∧ t * d ≤ max 0 (d : ℚ) := by
    rcases le_total 0 (d : ℚ) with h | h
    · rw [min_eq_left h, max_eq_right h]; constructor <;> nlinarith
    · rw [min_eq_right h, max_eq_left h]; constructor <;> nlinarith
  have e0 : flv (min 0 (d : ℚ)) = min 0 (d : ℚ) := by
    rcases min_choice (0 : ℚ) (d : ℚ) with h | h <;> rw [h]
    · exact flv_zero
    · exact flv_int hd53
  have e1 : flv (max 0 (d : ℚ)) = max 0 (d : ℚ) := by
    rcases max_choice (0 : ℚ) (d : ℚ) with h | h <;> rw [h]
    · exact flv_zero
    · exact flv_int hd53
  obtain ⟨f1, f2⟩ := flv_between m1.1 m1.2 e0 e1
  have td : |t * d| ≤ 2 ^ (k + 1) := by
    rw [abs_mul, abs_of_nonneg t0]
    calc t * |(d : ℚ)| ≤ 1 * |(d : ℚ)| := mul_le_mul_of_nonneg_right t1 (abs_nonneg _)
      _ ≤ _ := by rw [one_mul]; exact hdq
  have r1 := error_grain td
  rw [grain_succ] at r1
  have sum : |(b : ℚ) + flv (t * d)| ≤ 2 ^ k := by
    rw [abs_le] at hbq hbdq ⊢
    rcases le_total 0 (d : ℚ) with h | h
    · rw [min_eq_left h] at f1; rw [max_eq_right h] at f2; constructor <;> linarith
    · rw [min_eq_right h] at f1; rw [max_eq_left h] at f2; constructor <;> linarith
  have r2 := error_grain sum
  constructor
  · rw [abs_le] at r1 r2 ⊢
    constructor <;> linarith
  · have h2k : |((2 : ℤ) ^ k)| ≤ 2 ^ 53 := by rw [abs_of_nonneg (by positivity)]; omega
    have p := flv_int h2k
    have p' : flv (-(2 : ℚ) ^ k) = -2 ^ k := by rw [flv_neg]; push_cast at p; rw [p]
    push_cast at p
    exact abs_le.2 (flv_between (abs_le.1 sum).1 (abs_le.1 sum).2 p' p)

/-- The current x of an edge is near the point of the edge on the row. -/
theorem getCurrentX_error {e : Edge} {y : Int} {k : ℕ} (hk : k ≤ 52) (hb : e.Bounded k)
    (hs : e.slope = intDiv (e.top.x - e.bottom.x) (e.top.y - e.bottom.y)) (h1 : e.top.y ≤ y) (h2 : y ≤ e.bottom.y) :
    ∃ x r : ℚ, e.getCurrentX y = .fin x ∧ OnSegment (toQ e.bottom) (toQ e.top) (r, y) ∧ |x - r| ≤ 5 * grain k := by
  obtain ⟨bx, by', tx, ty⟩ := hb.bx
  have h52 : (2 : ℤ) ^ k ≤ 2 ^ 52 := pow_le_pow_right₀ (by norm_num) hk
  have hg := grain_pos k
  have big := pow2_1023_big
  by_cases hy : y = e.top.y
  · refine ⟨e.top.x, e.top.x, ?_, ⟨1, by norm_num, le_rfl, by simp [toQ], by simp [toQ, hy]⟩, by simp; linarith⟩
    unfold Edge.getCurrentX
    rw [if_pos hy]
    exact fl_int (by omega)
  have htop : e.top.y < y := by omega
  obtain ⟨q, hq, -⟩ := getCurrentX_between (e := e) (y := y) ⟨by omega, by omega, by omega, by omega⟩ hs h1 h2
  rw [abs_le] at bx by' tx ty
  set d : ℤ := e.top.x - e.bottom.x with hd
  set n : ℤ := e.bottom.y - e.top.y with hn
  set j : ℤ := e.bottom.y - y with hj
  have hn1 : (1 : ℚ) ≤ n := by exact_mod_cast (by omega : 1 ≤ n)
  have hn53 : (n : ℚ) ≤ 2 ^ 53 := by exact_mod_cast (by omega : n ≤ 2 ^ 53)
  have hj0 : (0 : ℚ) ≤ j := by exact_mod_cast (by omega : 0 ≤ j)
  have hjn : (j : ℚ) ≤ n := by exact_mod_cast (by omega : j ≤ n)
  have hn0 : (0 : ℚ) < n := by linarith
  have hdk : |d| ≤ 2 ^ (k + 1) := by rw [pow_succ, abs_le]; omega
  have hdq : |(d : ℚ)| ≤ 2 ^ (k + 1) := by exact_mod_cast hdk
  set sl : ℚ := flv ((d : ℚ) / n) with hsl
  -- the rounded slope
  have s1 : |sl * j - d / n * j| ≤ 2 * grain k := by
    rcases eq_or_ne d 0 with h0 | h0
    · rw [hsl, h0]; simp [flv_zero]; linarith
    have habs : (1 : ℚ) ≤ |(d : ℚ)| := by exact_mod_cast Int.one_le_abs h0
    have h53 : pow2 (-53) = 1 / 2 ^ 53 := by rw [pow2_eq, zpow_neg]; norm_num
    have hne : (d : ℚ) / n ≠ 0 := div_ne_zero (by exact_mod_cast h0) hn0.ne'
    have hrel := flv_rel hne (by
      rw [abs_div, abs_of_pos hn0, h53, div_le_div_iff₀ (by positivity) hn0]
      nlinarith)
    rw [← hsl, h53, abs_div, abs_of_pos hn0] at hrel
    rw [← sub_mul, abs_mul, abs_of_nonneg hj0, ← grain_succ]
    calc |sl - d / n| * j ≤ |(d : ℚ)| / n * (1 / 2 ^ 53) * n := mul_le_mul hrel hjn hj0 (by positivity)
      _ = |(d : ℚ)| / 2 ^ 53 := by field_simp
      _ ≤ grain (k + 1) := by rw [grain_eq]; gcongr
  obtain ⟨hm1, hm2⟩ := slope_step' (d := d) (n := n) (k := j) (by omega) (by omega) (by omega)
  have e' : flv ((d : ℚ) / (-n : ℤ)) * (-j : ℤ) = sl * j := by
    push_cast
    rw [div_neg, flv_neg]; ring
  rw [e'] at hm1 hm2
  have hdx : |d| ≤ 2 ^ 53 := by rw [abs_le]; omega
  have e0 : flv (min 0 (d : ℚ)) = min 0 (d : ℚ) := by
    rcases min_choice (0 : ℚ) (d : ℚ) with h | h <;> rw [h]
    · exact flv_zero
    · exact flv_int hdx
  have e1 : flv (max 0 (d : ℚ)) = max 0 (d : ℚ) := by
    rcases max_choice (0 : ℚ) (d : ℚ) with h | h <;> rw [h]
    · exact flv_zero
    · exact flv_int hdx
  obtain ⟨f1, f2⟩ := flv_between hm1 hm2 e0 e1
  have habs : |sl * j| ≤ 2 ^ (k + 1) := by
    have h0 : (0 : ℚ) ≤ 2 ^ (k + 1) := by positivity
    rw [abs_le] at hdq ⊢
    exact ⟨le_trans (le_min (by linarith) hdq.1) hm1, hm2.trans (max_le h0 hdq.2)⟩
  have s2 := error_grain habs
  rw [grain_succ] at s2
  have bq : -(2 : ℚ) ^ k ≤ e.bottom.x ∧ (e.bottom.x : ℚ) ≤ 2 ^ k := ⟨by exact_mod_cast bx.1, by exact_mod_cast bx.2⟩
  have tq : -(2 : ℚ) ^ k ≤ e.bottom.x + d ∧ (e.bottom.x + d : ℚ) ≤ 2 ^ k :=
    ⟨by exact_mod_cast (by omega : -(2 : ℤ) ^ k ≤ e.bottom.x + d), by exact_mod_cast (by omega : e.bottom.x + d ≤ (2 : ℤ) ^ k)⟩
  have sum : |(e.bottom.x : ℚ) + flv (sl * j)| ≤ 2 ^ k := by
    rw [abs_le]
    rcases le_total 0 (d : ℚ) with h | h
    · rw [min_eq_left h] at f1; rw [max_eq_right h] at f2; constructor <;> linarith
    · rw [min_eq_right h] at f1; rw [max_eq_left h] at f2; constructor <;> linarith
  have s3 := error_grain sum
  refine ⟨flv (e.bottom.x + flv (sl * j)), e.bottom.x + d / n * j, ?_, ⟨j / n, by positivity, by rw [div_le_one hn0]; exact hjn, ?_, ?_⟩, ?_⟩
  · have k52 : (2 : ℚ) ^ (k + 1) ≤ 2 ^ 53 := pow_le_pow_right₀ (by norm_num) (by omega)
    have k52' : (2 : ℚ) ^ k ≤ 2 ^ 53 := pow_le_pow_right₀ (by norm_num) (by omega)
    have hslope : e.slope = .fin (flv ((d : ℚ) / ((-n : ℤ) : ℚ))) := by
      rw [hs, show e.top.y - e.bottom.y = -n by omega]
      refine fl_fin_of_abs ?_
      rw [abs_div]
      refine (div_le_self (abs_nonneg _) ?_).trans (hdq.trans (k52.trans big))
      have : (1 : ℤ) ≤ |(-n : ℤ)| := by rw [abs_neg]; exact Int.one_le_abs (by omega)
      exact_mod_cast this
    unfold Edge.getCurrentX
    rw [if_neg hy, hslope, show y - e.bottom.y = -j by omega]
    have hkf : F64.floatOfInt (-j) = .fin ((-j : ℤ) : ℚ) := fl_int (by rw [abs_le]; omega)
    have hbf : F64.floatOfInt e.bottom.x = .fin (e.bottom.x : ℚ) := fl_int (by rw [abs_le]; omega)
    rw [hkf, hbf]
    have hmul : F64.mul (.fin (flv ((d : ℚ) / ((-n : ℤ) : ℚ)))) (.fin ((-j : ℤ) : ℚ)) = .fin (flv (sl * j)) := by
      show fl _ = _
      rw [e']; exact fl_fin_of_abs (habs.trans (k52.trans big))
    rw [hmul]
    show fl _ = _
    exact fl_fin_of_abs (sum.trans (k52'.trans big))
  · simp only [toQ]
    rw [hd]; push_cast
    field_simp
  · simp only [toQ]
    have : (j : ℚ) = e.bottom.y - y := by rw [hj]; push_cast; ring
    have hn' : (n : ℚ) = e.bottom.y - e.top.y := by rw [hn]; push_cast; ring
    rw [show (e.top.y : ℚ) - e.bottom.y = -n by rw [hn']; ring]
    field_simp
    rw [this]; ring
  · rw [abs_le] at s1 s2 s3 ⊢
    constructor <;> linarith

/-- The directed rounding of a double moves it by little more than a half. -/
theorem round_max_error {q : ℚ} {k : ℕ} {n : ℤ} (hk : k ≤ 52) (hq : IsDouble q) (hb : |q| ≤ 2 ^ k) (h : roundTowardsMax (.fin q) = some n) :
    |(n : ℚ) - q| ≤ 1 / 2 + 5 * grain k := by
  have hg := grain_pos k
  obtain ⟨m, hm, h1, h2⟩ := C17_round_towards_max q hq
  rw [h] at hm; cases hm
  by_cases hw : WithinFourUlps q (⌊q⌋ + 1 / 2)
  swap
  · have := h2 hw
    rcases this with h | ⟨h, -⟩
    · linarith
    · linarith
  have hn := h1 hw
  by_contra hgt
  push Not at hgt
  -- then `q` is far from the half-integer: five doubles lie between
  obtain ⟨fin, card⟩ := hw
  set c : ℚ := (⌊q⌋ : ℚ) + 1 / 2 with hc
  have fl1 := Int.floor_le q
  have fl2 := Int.lt_floor_add_one q
  have hne : (⌊q⌋ : ℚ) ≠ q := by
    intro he
    have : ⌈q⌉ = ⌊q⌋ := by rw [← he, Int.ceil_intCast, Int.floor_intCast]
    rw [hn, this, he] at hgt
    simp at hgt
    linarith
  have hlt : (⌊q⌋ : ℚ) < q := lt_of_le_of_ne fl1 hne
  have hceil : ⌈q⌉ = ⌊q⌋ + 1 := by
    rw [Int.ceil_eq_iff]; push_cast; constructor <;> linarith
  rw [hn, hceil] at hgt
  push_cast at hgt
  rw [abs_of_pos (by linarith)] at hgt
  have far : 5 * grain k < c - q := by rw [hc]; linarith
  have hgk : grain k * 2 ^ (53 - k) = 1 := by
    rw [grain_eq, div_mul_eq_mul_div, ← pow_add, show k + (53 - k) = 53 by omega]; norm_num
  have hhalf : grain k * 2 ^ (52 - k) = 1 / 2 := by
    have : (2 : ℚ) ^ (53 - k) = 2 * 2 ^ (52 - k) := by rw [show 53 - k = (52 - k) + 1 by omega, pow_succ]; ring
    rw [this] at hgk
    linarith
  have hcN : ∀ i : ℕ, c - i * grain k = ((2 * ⌊q⌋ + 1) * 2 ^ (52 - k) - i : ℤ) * grain k := by
    intro i
    push_cast
    rw [sub_mul, mul_assoc, mul_comm ((2 : ℚ) ^ (52 - k)), hhalf, hc]
    ring
  have hflo : ⌊q⌋ < (2 : ℤ) ^ k := by
    have : (⌊q⌋ : ℚ) < 2 ^ k := lt_of_lt_of_le hlt (abs_le.1 hb).2
    exact_mod_cast this
  have hcup : c < 2 ^ k := by
    have : (⌊q⌋ : ℚ) + 1 ≤ 2 ^ k := by exact_mod_cast hflo
    rw [hc]; linarith
  have mem : ∀ i : ℕ, i < 5 → c - i * grain k ∈ doublesBetween q c := by
    intro i hi
    have hi' : (i : ℚ) ≤ 5 := by exact_mod_cast hi.le
    have hi0 : (0 : ℚ) ≤ i := by positivity
    have lo : q < c - i * grain k := by nlinarith
    have up : c - i * grain k ≤ c := by nlinarith
    refine ⟨⟨(2 * ⌊q⌋ + 1) * 2 ^ (52 - k) - i, (k : ℤ) - 53, ?_, by omega, by omega, ?_⟩, ?_, ?_⟩
    · have habs : |(((2 * ⌊q⌋ + 1) * 2 ^ (52 - k) - i : ℤ) : ℚ) * grain k| < 2 ^ k := by
        rw [← hcN, abs_lt]
        exact ⟨lt_of_le_of_lt (abs_le.1 hb).1 lo, lt_of_le_of_lt up hcup⟩
      rw [abs_mul, abs_of_pos hg, grain_eq] at habs
      have h2 : (0 : ℚ) < 2 ^ k := by positivity
      have : |(((2 * ⌊q⌋ + 1) * 2 ^ (52 - k) - i : ℤ) : ℚ)| < 2 ^ 53 := by
        rw [mul_div_assoc', div_lt_iff₀ (by positivity)] at habs
        nlinarith
      exact_mod_cast this
    · rw [hcN]
      unfold grain
      rw [pow2_eq]
    · rw [min_eq_left (by linarith)]; exact lo
    · rw [max_eq_right (by linarith)]; exact up
  have sub : ((Finset.range 5).image (fun i : ℕ => c - i * grain k) : Set ℚ) ⊆ doublesBetween q c := by
    intro z hz
    simp only [Finset.coe_image, Finset.coe_range, Set.mem_image, Set.mem_Iio] at hz
    obtain ⟨i, hi, rfl⟩ := hz
    exact mem i hi
  have inj : Function.Injective (fun i : ℕ => c - i * grain k) := by
    intro i j hij
    have : (i : ℚ) * grain k = j * grain k := by simpa using hij
    exact_mod_cast mul_right_cancel₀ hg.ne' this
  have := Set.ncard_le_ncard sub fin
  rw [Set.ncard_coe_finset, Finset.card_image_of_injective _ inj, Finset.card_range] at this
  omega

/-- The rounded crossing of two edges is near the first one. -/
theorem crossing_error {e f : Edge} {q : FPoint} {p : Point} {k : ℕ} (hk : k ≤ 52) (hb : e.Bounded k) (h : e.and f = some q) (hr : q.round = .ok p) :
    ∃ r : QPoint, OnSegment (toQ e.bottom) (toQ e.top) r ∧ |(p.x : ℚ) - r.1| ≤ 1 / 2 + 8 * grain k ∧ |(p.y : ℚ) - r.2| ≤ 1 / 2 + 8 * grain k := by
  have h52 : (2 : ℤ) ^ k ≤ 2 ^ 52 := pow_le_pow_right₀ (by norm_num) hk
  have h52q : (2 : ℚ) ^ k ≤ 2 ^ 52 := pow_le_pow_right₀ (by norm_num) hk
  obtain ⟨bx, by', tx, ty⟩ := hb.bx
  rw [and_eq] at h
  split at h
  · cases h
  split at h
  swap
  · cases h
  next hc =>
  simp only [Bool.and_eq_true] at hc
  obtain ⟨t, ht, t0, t1⟩ := le_unit_fin hc.1.2 hc.2
  rw [ht] at h
  have tx' : |e.bottom.x + (e.top.x - e.bottom.x)| ≤ 2 ^ k := by rw [show e.bottom.x + (e.top.x - e.bottom.x) = e.top.x by ring]; exact tx
  have ty' : |e.bottom.y + (e.top.y - e.bottom.y)| ≤ 2 ^ k := by rw [show e.bottom.y + (e.top.y - e.bottom.y) = e.top.y by ring]; exact ty
  obtain ⟨x, ex, -, -, hx⟩ := interpolate e.bottom.x (e.top.x - e.bottom.x) t t0 t1 (by omega) (by rw [abs_le] at *; omega) (by omega)
  obtain ⟨y, ey, -, -, hy⟩ := interpolate e.bottom.y (e.top.y - e.bottom.y) t t0 t1 (by omega) (by rw [abs_le] at *; omega) (by omega)
  obtain ⟨x1, x2⟩ := lerp_error hk t0 t1 bx tx'
  obtain ⟨y1, y2⟩ := lerp_error hk t0 t1 by' ty'
  rw [ex, ey] at h
  cases h
  rw [← hx] at x1 x2
  rw [← hy] at y1 y2
  have big : (2 : ℚ) ^ 52 < pow2 1024 := by
    have h1 := pow2_1023_big
    have h2 : pow2 1023 ≤ pow2 1024 := pow2_le (by norm_num)
    have h3 : (2 : ℚ) ^ 52 < 2 ^ 53 := by norm_num
    linarith
  have dx : IsDouble x := by rw [hx]; exact flv_isDouble (by rw [← hx]; linarith)
  have dy : IsDouble y := by rw [hy]; exact flv_isDouble (by rw [← hy]; linarith)
  unfold FPoint.round at hr
  dsimp only at hr
  obtain ⟨nx, hnx, -⟩ := C17_round_towards_max x dx
  obtain ⟨ny, hny, -⟩ := C17_round_towards_max y dy
  rw [hnx, hny] at hr
  cases hr
  have k1 := round_max_error hk dx x2 hnx
  have k2 := round_max_error hk dy y2 hny
  refine ⟨((toQ e.bottom).1 + t * ((toQ e.top).1 - (toQ e.bottom).1), (toQ e.bottom).2 + t * ((toQ e.top).2 - (toQ e.bottom).2)), ⟨t, t0, t1, rfl, rfl⟩, ?_, ?_⟩
  · simp only [toQ]
    push_cast at x1
    rw [abs_le] at *
    constructor <;> linarith
  · simp only [toQ]
    push_cast at y1
    rw [abs_le] at *
    constructor <;> linarith

end Wagyu
