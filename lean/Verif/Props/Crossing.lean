import Verif.Proofs.Crossing

/-!
# C29: the crossing of two edges
-/

namespace Wagyu

open Spec

/-- All coordinates of the edge have magnitude at most `2 ^ k`. -/
def Edge.Bounded (e : Edge) (k : ℕ) : Prop :=
  |e.bottom.x| ≤ 2 ^ k ∧ |e.bottom.y| ≤ 2 ^ k ∧ |e.top.x| ≤ 2 ^ k ∧ |e.top.y| ≤ 2 ^ k

/-- The box spanned by the two ends of an edge. -/
def Edge.box (e : Edge) : Box :=
  ⟨⟨min e.bottom.x e.top.x, min e.bottom.y e.top.y⟩, ⟨max e.bottom.x e.top.x, max e.bottom.y e.top.y⟩⟩

/-- **C29.** A crossing computed in floating point is finite and lies in the box of the first edge (coordinates up to
`2 ^ 52`). -/
theorem C29_crossing_in_box (e f : Edge) (p : FPoint) (he : e.Bounded 52) (h : e.and f = some p) :
    ∃ x y : ℚ, p = ⟨.fin x, .fin y⟩
      ∧ (e.box.minimum.x : ℚ) ≤ x ∧ x ≤ e.box.maximum.x ∧ (e.box.minimum.y : ℚ) ≤ y ∧ y ≤ e.box.maximum.y := by
  rw [and_eq] at h
  split at h
  · cases h
  · split at h
    · next hc =>
      simp only [Bool.and_eq_true] at hc
      obtain ⟨t, ht, t0, t1⟩ := le_unit_fin hc.1.2 hc.2
      rw [ht] at h
      obtain ⟨h1, h2, h3, h4⟩ := he
      rw [abs_le] at h1 h2 h3 h4
      obtain ⟨x, ex, x1, x2, _⟩ := interpolate e.bottom.x (e.top.x - e.bottom.x) t t0 t1
        (by rw [abs_le]; constructor <;> omega) (by rw [abs_le]; constructor <;> omega)
        (by rw [abs_le]; constructor <;> omega)
      obtain ⟨y, ey, y1, y2, _⟩ := interpolate e.bottom.y (e.top.y - e.bottom.y) t t0 t1
        (by rw [abs_le]; constructor <;> omega) (by rw [abs_le]; constructor <;> omega)
        (by rw [abs_le]; constructor <;> omega)
      rw [ex, ey] at h
      push_cast at x1 x2 y1 y2
      rw [show (e.bottom.x : ℚ) + (e.top.x - e.bottom.x) = e.top.x by ring] at x1 x2
      rw [show (e.bottom.y : ℚ) + (e.top.y - e.bottom.y) = e.top.y by ring] at y1 y2
      refine ⟨x, y, (Option.some.inj h).symm, ?_, ?_, ?_, ?_⟩ <;> simp only [Edge.box, Int.cast_min, Int.cast_max] <;>
        assumption
    · cases h

/-- **C29.** Rounding such a crossing does not fail, and stays in the box of the first edge. -/
theorem C29_rounded_crossing_in_box (e f : Edge) (p : FPoint) (he : e.Bounded 52) (h : e.and f = some p) :
    ∃ r, p.round = .ok r ∧ InBox e.box r := by
  obtain ⟨x, y, rfl, x1, x2, y1, y2⟩ := C29_crossing_in_box e f p he h
  refine ⟨_, rfl, ?_⟩
  have hx := C17_keeps_interval x _ _ _ x1 x2 (Or.inr (Or.inr rfl))
  have hy := C17_keeps_interval y _ _ _ y1 y2 (Or.inr (Or.inr rfl))
  exact ⟨hx.1, hx.2, hy.1, hy.2⟩

theorem parallel_iff_den (e f : Edge) :
    Parallel ((e.top.x - e.bottom.x : ℤ), (e.top.y - e.bottom.y : ℤ)) ((f.top.x - f.bottom.x : ℤ), (f.top.y - f.bottom.y : ℤ))
      ↔ crossDen e f = 0 := by
  rw [← C33_edges_slopes_equal_iff]
  simp only [areEdgesSlopesEqual, decide_eq_true_eq, crossDen]
  constructor <;> intro h <;> linarith

/-- **C29.** Parallel edges have no crossing. -/
theorem C29_parallel_none (e f : Edge)
    (h : Parallel ((e.top.x - e.bottom.x : ℤ), (e.top.y - e.bottom.y : ℤ))
      ((f.top.x - f.bottom.x : ℤ), (f.top.y - f.bottom.y : ℤ))) : e.and f = none := by
  rw [and_eq, if_pos ((parallel_iff_den e f).1 h)]

theorem cross_bounds (e f : Edge) (he : e.Bounded 24) (hf : f.Bounded 24) :
    |crossDen e f| ≤ 2 ^ 52 ∧ |crossS e f| ≤ 2 ^ 52 ∧ |crossT e f| ≤ 2 ^ 52 := by
  obtain ⟨h1, h2, h3, h4⟩ := he
  obtain ⟨g1, g2, g3, g4⟩ := hf
  rw [abs_le] at h1 h2 h3 h4 g1 g2 g3 g4
  have P : ∀ a b : ℤ, -2 ^ 25 ≤ a → a ≤ 2 ^ 25 → -2 ^ 25 ≤ b → b ≤ 2 ^ 25 → |a * b| ≤ 2 ^ 50 := by
    intro a b a1 a2 b1 b2
    rw [abs_mul]
    have ha : |a| ≤ 2 ^ 25 := abs_le.2 ⟨by omega, a2⟩
    have hb : |b| ≤ 2 ^ 25 := abs_le.2 ⟨by omega, b2⟩
    calc |a| * |b| ≤ 2 ^ 25 * 2 ^ 25 := mul_le_mul ha hb (abs_nonneg b) (by norm_num)
      _ = 2 ^ 50 := by norm_num
  have a1 := abs_le.1 (P (e.top.x - e.bottom.x) (f.top.y - f.bottom.y) (by omega) (by omega) (by omega) (by omega))
  have a2 := abs_le.1 (P (f.top.x - f.bottom.x) (e.top.y - e.bottom.y) (by omega) (by omega) (by omega) (by omega))
  have a3 := abs_le.1 (P (-(e.top.y - e.bottom.y)) (e.bottom.x - f.bottom.x) (by omega) (by omega) (by omega) (by omega))
  have a4 := abs_le.1 (P (e.top.x - e.bottom.x) (e.bottom.y - f.bottom.y) (by omega) (by omega) (by omega) (by omega))
  have a5 := abs_le.1 (P (f.top.x - f.bottom.x) (e.bottom.y - f.bottom.y) (by omega) (by omega) (by omega) (by omega))
  have a6 := abs_le.1 (P (f.top.y - f.bottom.y) (e.bottom.x - f.bottom.x) (by omega) (by omega) (by omega) (by omega))
  unfold crossDen crossS crossT
  simp only [abs_le]
  refine ⟨⟨?_, ?_⟩, ⟨?_, ?_⟩, ⟨?_, ?_⟩⟩ <;> omega

/-- **C29.** For coordinates up to `2 ^ 24` a crossing is found exactly when the two segments are not parallel and have
a common point: the floating point tests never err. -/
theorem C29_found_iff_segments_meet (e f : Edge) (he : e.Bounded 24) (hf : f.Bounded 24) :
    (e.and f).isSome ↔
      ¬ Parallel ((e.top.x - e.bottom.x : ℤ), (e.top.y - e.bottom.y : ℤ))
          ((f.top.x - f.bottom.x : ℤ), (f.top.y - f.bottom.y : ℤ))
        ∧ ∃ r, OnSegment (toQ e.bottom) (toQ e.top) r ∧ OnSegment (toQ f.bottom) (toQ f.top) r := by
  obtain ⟨b1, b2, b3⟩ := cross_bounds e f he hf
  rw [parallel_iff_den, and_eq]
  by_cases hd : crossDen e f = 0
  · simp [hd]
  · rw [if_neg hd]
    have hs := unit_test_exact hd b2 b1
    have ht := unit_test_exact hd b3 b1
    rw [exact_params e f hd, ← hs, ← ht]
    split
    · next h =>
      simp only [Bool.and_eq_true] at h ⊢
      exact ⟨fun _ => ⟨hd, ⟨h.1.1.1, h.1.1.2⟩, h.1.2, h.2⟩, fun _ => rfl⟩
    · next h =>
      simp only [Bool.and_eq_true] at h ⊢
      exact ⟨fun h' => by simp at h', fun h' => absurd ⟨⟨⟨h'.2.1.1, h'.2.1.2⟩, h'.2.2.1⟩, h'.2.2.2⟩ h⟩

/-- **C29.** The computed crossing is within `2 ^ -25` of the exact common point of the segments (coordinates up to
`2 ^ 24`). -/
theorem C29_accuracy (e f : Edge) (he : e.Bounded 24) (hf : f.Bounded 24) (p : FPoint) (h : e.and f = some p)
    (r : QPoint) (h1 : OnSegment (toQ e.bottom) (toQ e.top) r) (h2 : OnSegment (toQ f.bottom) (toQ f.top) r) :
    ∃ x y : ℚ, p = ⟨.fin x, .fin y⟩ ∧ |x - r.1| ≤ 1 / 2 ^ 25 ∧ |y - r.2| ≤ 1 / 2 ^ 25 := by
  obtain ⟨b1, b2, b3⟩ := cross_bounds e f he hf
  have hne : crossDen e f ≠ 0 := by
    intro hd
    rw [and_eq, if_pos hd] at h; cases h
  have hu := (exact_params e f hne).1 ⟨r, h1, h2⟩
  obtain ⟨rx, ry⟩ := exact_param_unique e f hne r h1 h2
  set t := (crossT e f : ℚ) / crossDen e f with htdef
  have hti : intDiv (crossT e f) (crossDen e f) = .fin (flv t) := by
    apply intDiv_finite _ hne
    have : |(crossT e f : ℚ)| ≤ 2 ^ 52 := by exact_mod_cast b3
    exact this.trans (le_trans (by norm_num) pow2_1023_big)
  have one : flv 1 = 1 := by simpa using flv_int (n := 1) (by norm_num)
  have ft := flv_between hu.2.1 hu.2.2 flv_zero one
  rw [and_eq, if_neg hne, hti] at h
  split at h
  · obtain ⟨c1, c2, c3, c4⟩ := he
    rw [abs_le] at c1 c2 c3 c4
    have acc : ∀ b d : ℤ, |b| ≤ 2 ^ 24 → |b + d| ≤ 2 ^ 24 →
        |flv (b + flv (flv t * d)) - (b + t * d)| ≤ 1 / 2 ^ 25 := by
      intro b d hb hbd
      have hd : |d| ≤ 2 ^ 25 := by rw [abs_le] at *; constructor <;> omega
      have hbq : |(b : ℚ)| ≤ 2 ^ 24 := by exact_mod_cast hb
      have hdq : |(d : ℚ)| ≤ 2 ^ 25 := by exact_mod_cast hd
      have p0 : pow2 0 = 1 := by simp [pow2]
      have p25 : pow2 25 = 2 ^ 25 := by
        rw [show (25 : ℤ) = ((25 : ℕ) : ℤ) by norm_num, pow2_nat]; norm_num
      have p26 : pow2 26 = 2 ^ 26 := by
        rw [show (26 : ℤ) = ((26 : ℕ) : ℤ) by norm_num, pow2_nat]; norm_num
      have q53 : pow2 (0 - 53) = 1 / 2 ^ 53 := by rw [pow2_eq]; norm_num
      have q28 : pow2 (25 - 53) = 1 / 2 ^ 28 := by rw [pow2_eq]; norm_num
      have q27 : pow2 (26 - 53) = 1 / 2 ^ 27 := by rw [pow2_eq]; norm_num
      have e1 : |flv t - t| ≤ 1 / 2 ^ 53 := by
        rw [← q53]; apply flv_error_le (by norm_num)
        rw [p0, abs_of_nonneg hu.2.1]; exact hu.2.2
      have m1 : |flv t * d| ≤ 2 ^ 25 := by
        rw [abs_mul, abs_of_nonneg ft.1]
        calc flv t * |(d : ℚ)| ≤ 1 * |(d : ℚ)| := mul_le_mul_of_nonneg_right ft.2 (abs_nonneg _)
          _ ≤ _ := by linarith
      have e2 : |flv (flv t * d) - flv t * d| ≤ 1 / 2 ^ 28 := by
        rw [← q28]; apply flv_error_le (by norm_num)
        rw [p25]; exact m1
      have m2 : |(b : ℚ) + flv (flv t * d)| ≤ 2 ^ 26 := by
        have := abs_add_le (b : ℚ) (flv (flv t * d))
        have h3 : |flv (flv t * d)| ≤ 2 ^ 25 := by
          have f25 : flv (2 ^ 25) = 2 ^ 25 := by
            have := flv_int (n := 2 ^ 25) (by norm_num)
            push_cast at this; exact this
          have := flv_between (abs_le.1 m1).1 (abs_le.1 m1).2 (by rw [flv_neg, f25]) f25
          exact abs_le.2 this
        norm_num at *
        linarith
      have e3 : |flv (b + flv (flv t * d)) - (b + flv (flv t * d))| ≤ 1 / 2 ^ 27 := by
        rw [← q27]; apply flv_error_le (by norm_num)
        rw [p26]; exact m2
      have e4 : |flv t * d - t * d| ≤ 1 / 2 ^ 28 := by
        rw [← sub_mul, abs_mul]
        calc |flv t - t| * |(d : ℚ)| ≤ 1 / 2 ^ 53 * 2 ^ 25 :=
              mul_le_mul e1 hdq (abs_nonneg _) (by norm_num)
          _ = 1 / 2 ^ 28 := by norm_num
      rw [abs_le] at e2 e3 e4 ⊢
      norm_num at *
      constructor <;> linarith
    obtain ⟨x, ex, _, _, hx⟩ := interpolate e.bottom.x (e.top.x - e.bottom.x) (flv t) ft.1 ft.2
      (by rw [abs_le]; constructor <;> omega) (by rw [abs_le]; constructor <;> omega)
      (by rw [abs_le]; constructor <;> omega)
    obtain ⟨y, ey, _, _, hy⟩ := interpolate e.bottom.y (e.top.y - e.bottom.y) (flv t) ft.1 ft.2
      (by rw [abs_le]; constructor <;> omega) (by rw [abs_le]; constructor <;> omega)
      (by rw [abs_le]; constructor <;> omega)
    rw [ex, ey] at h
    refine ⟨x, y, (Option.some.inj h).symm, ?_, ?_⟩
    · rw [hx, rx]
      have := acc e.bottom.x (e.top.x - e.bottom.x) (by rw [abs_le]; constructor <;> omega)
        (by rw [abs_le]; constructor <;> omega)
      push_cast at this ⊢
      exact this
    · rw [hy, ry]
      have := acc e.bottom.y (e.top.y - e.bottom.y) (by rw [abs_le]; constructor <;> omega)
        (by rw [abs_le]; constructor <;> omega)
      push_cast at this ⊢
      exact this
  · cases h

/-- The hypotheses are met and both outcomes occur. -/
example : (Edge.mk' ⟨0, 10⟩ ⟨7, 0⟩).Bounded 24
    ∧ ((Edge.mk' ⟨0, 10⟩ ⟨7, 0⟩).and (Edge.mk' ⟨7, 9⟩ ⟨1, 2⟩)).isSome = true
    ∧ ((Edge.mk' ⟨0, 10⟩ ⟨7, 0⟩).and (Edge.mk' ⟨7, 9⟩ ⟨17, 2⟩)).isSome = false := by
  refine ⟨?_, ?_, ?_⟩
  · unfold Edge.Bounded Edge.mk'; norm_num
  · decide +kernel
  · decide +kernel

end Wagyu
