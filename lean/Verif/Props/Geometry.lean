import Verif.Props.Floats
import Verif.Spec.Plane
import Mathlib.Tactic.LinearCombination

/-!
# C29, C30, C31, C33: edges, boxes, collinearity
-/

namespace Wagyu

open Spec

/-! ## C30 -/

/-- Coordinates for which no float overflows (Python raises `OverflowError` beyond that, edge.py:19-20). -/
def NoOverflow (p q : Point) : Prop := |((p.x - q.x : ℤ) : ℚ)| ≤ pow2 1023

theorem NoOverflow.symm {p q : Point} (h : NoOverflow p q) : NoOverflow q p := by
  unfold NoOverflow at *
  rw [show (q.x - p.x : ℤ) = -(p.x - q.x) by ring, Int.cast_neg, abs_neg]; exact h

theorem intDiv_finite {a b : ℤ} (ha : |(a : ℚ)| ≤ pow2 1023) (hb : b ≠ 0) :
    intDiv a b = .fin (flv ((a : ℚ) / b)) := by
  apply fl_fin_of_abs
  rw [abs_div]
  have : (1 : ℚ) ≤ |(b : ℚ)| := by
    have : 1 ≤ |b| := Int.one_le_abs hb
    exact_mod_cast this
  rw [div_le_iff₀ (by linarith)]
  have h0 := pow2_pos 1023
  nlinarith

/-- **C30.** An edge has the two given end points, the lower one (larger `y`, the axis points down) first. -/
theorem C30_edge_normalised (p q : Point) :
    (Edge.mk' p q).top.y ≤ (Edge.mk' p q).bottom.y
      ∧ (((Edge.mk' p q).bottom = p ∧ (Edge.mk' p q).top = q) ∨ ((Edge.mk' p q).bottom = q ∧ (Edge.mk' p q).top = p)) := by
  unfold Edge.mk'
  by_cases h : p.y < q.y
  · simp [h]; omega
  · simp [h]; omega

/-- **C30.** It is horizontal iff the two `y` are equal. -/
theorem C30_horizontal_iff (p q : Point) (h : NoOverflow p q) : (Edge.mk' p q).isHorizontal = true ↔ p.y = q.y := by
  unfold Edge.isHorizontal Edge.mk'
  by_cases hlt : p.y < q.y
  · simp only [hlt, if_true]
    have : p.y - q.y ≠ 0 := by omega
    rw [if_pos this, intDiv_finite h this]
    simp [F64.isInf]; omega
  · simp only [hlt, if_false]
    by_cases he : q.y - p.y = 0
    · simp [he, F64.isInf]; omega
    · rw [if_pos he, intDiv_finite h.symm he]
      simp [F64.isInf]; omega

/-- **C30.** Reversing a horizontal edge swaps its ends; doing it twice restores the edge. -/
theorem C30_reverse_horizontal (e : Edge) :
    (e.bottom.y = e.top.y → e.reverseHorizontal.top = e.bottom ∧ e.reverseHorizontal.bottom = e.top)
      ∧ e.reverseHorizontal.reverseHorizontal = e
      ∧ e.reverseHorizontal.isHorizontal = e.isHorizontal := by
  obtain ⟨⟨bx, by'⟩, ⟨tx, ty⟩, s⟩ := e
  refine ⟨?_, rfl, rfl⟩
  intro h
  simp only at h
  simp [Edge.reverseHorizontal, h]

/-- **C30.** Building from swapped points gives the same edge when it is not horizontal. -/
theorem C30_swap (p q : Point) (h : p.y ≠ q.y) : Edge.mk' p q = Edge.mk' q p := by
  unfold Edge.mk'
  rcases lt_or_gt_of_ne h with h1 | h1
  · simp [h1, not_lt.2 h1.le]
  · simp [h1, not_lt.2 h1.le]

example : NoOverflow ⟨-5, 3⟩ ⟨7, 1⟩ := by
  unfold NoOverflow
  have := pow2_1023_big
  norm_num
  linarith

/-! ## C31 -/

/-- **C31.** -/
theorem C31_inside_of_refl (a : Box) : a.insideOf a = true := by simp [Box.insideOf]

theorem C31_inside_of_trans (a b c : Box) (h : a.insideOf b = true) (k : b.insideOf c = true) :
    a.insideOf c = true := by
  simp only [Box.insideOf, Bool.and_eq_true, decide_eq_true_eq] at *
  omega

theorem C31_inside_of_antisymm (a b : Box) (h : a.insideOf b = true) (k : b.insideOf a = true) : a = b := by
  obtain ⟨⟨a1, a2⟩, ⟨a3, a4⟩⟩ := a
  obtain ⟨⟨b1, b2⟩, ⟨b3, b4⟩⟩ := b
  simp only [Box.insideOf, Bool.and_eq_true, decide_eq_true_eq] at *
  have : a1 = b1 := by omega
  have : a2 = b2 := by omega
  have : a3 = b3 := by omega
  have : a4 = b4 := by omega
  subst_vars; rfl

/-- **C31.** For a box that contains a point, `inside_of` is inclusion of the sets of points. -/
theorem C31_inside_of_iff (a b : Box) (hne : ∃ p, InBox a p) :
    a.insideOf b = true ↔ ∀ p, InBox a p → InBox b p := by
  simp only [Box.insideOf, Bool.and_eq_true, decide_eq_true_eq]
  obtain ⟨p, hp⟩ := hne
  constructor
  · intro h r hr
    unfold InBox at *
    omega
  · intro h
    have h1 := h a.minimum (by unfold InBox at *; omega)
    have h2 := h a.maximum (by unfold InBox at *; omega)
    unfold InBox at *
    omega

example : InBox ⟨⟨0, 0⟩, ⟨3, 4⟩⟩ ⟨1, 2⟩ := by simp [InBox]

/-! ## C33 -/

/-- **C33.** `are_points_slopes_equal` holds iff the three points lie on one line. -/
theorem C33_points_slopes_equal_iff (p q r : Point) :
    arePointsSlopesEqual p q r = true ↔ Collinear (toQ p) (toQ q) (toQ r) := by
  unfold arePointsSlopesEqual Collinear toQ
  simp only [decide_eq_true_eq]
  constructor
  · intro h
    have h' : ((p.y : ℚ) - q.y) * (q.x - r.x) = (p.x - q.x) * (q.y - r.y) := by exact_mod_cast h
    by_cases hpq : p.x = q.x ∧ p.y = q.y
    · -- the line through q and r, or any line if they coincide too
      by_cases hqr : q.x = r.x ∧ q.y = r.y
      · refine ⟨1, 0, q.x, by simp, ?_, ?_, ?_⟩ <;> simp [hpq.1, hqr.1]
      · refine ⟨q.y - r.y, r.x - q.x, (q.y - r.y) * q.x + (r.x - q.x) * q.y, ?_, ?_, ?_, ?_⟩
        · by_contra hc
          simp only [ne_eq, not_or, not_not] at hc
          apply hqr
          constructor
          · have : (r.x : ℚ) = q.x := by linarith [hc.2]
            exact_mod_cast this.symm
          · have : (q.y : ℚ) = r.y := by linarith [hc.1]
            exact_mod_cast this
        · simp only [hpq.1, hpq.2]
        · rfl
        · ring
    · refine ⟨p.y - q.y, q.x - p.x, (p.y - q.y) * q.x + (q.x - p.x) * q.y, ?_, ?_, ?_, ?_⟩
      · by_contra hc
        simp only [ne_eq, not_or, not_not] at hc
        apply hpq
        constructor
        · have : (p.x : ℚ) = q.x := by linarith [hc.2]
          exact_mod_cast this
        · have : (p.y : ℚ) = q.y := by linarith [hc.1]
          exact_mod_cast this
      · ring
      · rfl
      · linarith
  · rintro ⟨a, b, c, hab, h1, h2, h3⟩
    have e1 : a * ((p.x : ℚ) - q.x) + b * (p.y - q.y) = 0 := by linarith
    have e2 : a * ((q.x : ℚ) - r.x) + b * (q.y - r.y) = 0 := by linarith
    have key : ((p.y : ℚ) - q.y) * (q.x - r.x) = (p.x - q.x) * (q.y - r.y) := by
      rcases hab with ha | hb
      · apply mul_left_cancel₀ ha
        linear_combination ((p.y : ℚ) - q.y) * e2 - (q.y - r.y) * e1
      · apply mul_left_cancel₀ hb
        linear_combination ((q.x : ℚ) - r.x) * e1 - (p.x - q.x) * e2
    exact_mod_cast key

/-- **C33.** `are_edges_slopes_equal` holds iff the edges are parallel. -/
theorem C33_edges_slopes_equal_iff (e f : Edge) :
    areEdgesSlopesEqual e f = true ↔
      Parallel ((e.top.x - e.bottom.x : ℤ), (e.top.y - e.bottom.y : ℤ)) ((f.top.x - f.bottom.x : ℤ), (f.top.y - f.bottom.y : ℤ)) := by
  unfold areEdgesSlopesEqual Parallel
  simp only [decide_eq_true_eq]
  generalize e.top.x - e.bottom.x = a
  generalize e.top.y - e.bottom.y = b
  generalize f.top.x - f.bottom.x = c
  generalize f.top.y - f.bottom.y = d
  constructor
  · intro h
    have h' : (b : ℚ) * c = a * d := by exact_mod_cast h
    by_cases h0 : c = 0 ∧ d = 0
    · exact ⟨0, 1, by simp, by simp [h0.1], by simp [h0.2]⟩
    · by_cases h1 : a = 0 ∧ b = 0
      · exact ⟨1, 0, by simp, by simp [h1.1], by simp [h1.2]⟩
      · by_cases hd : d = 0
        · have hc : (c : ℚ) ≠ 0 := by
            intro hc; exact h0 ⟨by exact_mod_cast hc, hd⟩
          refine ⟨c, -a, Or.inl hc, by ring, ?_⟩
          subst hd
          push_cast at *
          linarith
        · have hd' : (d : ℚ) ≠ 0 := by exact_mod_cast hd
          exact ⟨d, -b, Or.inl hd', by linarith, by ring⟩
  · rintro ⟨s, t, hst, h1, h2⟩
    have key : (b : ℚ) * c = a * d := by
      rcases hst with hs | ht
      · apply mul_left_cancel₀ hs
        linear_combination (c : ℚ) * h2 - d * h1
      · apply mul_left_cancel₀ ht
        linear_combination (b : ℚ) * h1 - a * h2
    exact_mod_cast key

/-- **C33.** For points on one line, `is_point_between_others` holds iff the middle one lies strictly between. -/
theorem C33_between_iff (p q r : Point) (h : Collinear (toQ p) (toQ q) (toQ r)) :
    isPointBetweenOthers p q r = true ↔ StrictlyBetween (toQ p) (toQ q) (toQ r) := by
  rw [← C33_points_slopes_equal_iff] at h
  simp only [arePointsSlopesEqual, decide_eq_true_eq] at h
  have hq : ((p.y : ℚ) - q.y) * (q.x - r.x) = (p.x - q.x) * (q.y - r.y) := by exact_mod_cast h
  obtain ⟨px, py⟩ := p
  obtain ⟨qx, qy⟩ := q
  obtain ⟨rx, ry⟩ := r
  unfold isPointBetweenOthers StrictlyBetween toQ
  simp only [Point.mk.injEq] at *
  by_cases hpr : px = rx
  · -- a vertical line (or `p = r`)
    subst hpr
    simp only [ne_eq, not_true_eq_false, if_false, true_and]
    constructor
    · intro hh
      split at hh
      · cases hh
      · next hne =>
        push Not at hne
        have hyr : py ≠ ry := hne.2.2
        have hx : qx = px := by
          have : (py - ry) * (qx - px) = 0 := by linarith
          rcases mul_eq_zero.1 this with h | h
          · exact absurd (by omega) hyr
          · omega
        subst hx
        have n1 : py ≠ qy := by have := hne.1; simpa using this
        have n2 : qy ≠ ry := by have := hne.2.1; simpa using this
        have hd : ((ry : ℚ) - py) ≠ 0 := by
          have : (ry : ℚ) ≠ py := by exact_mod_cast hyr.symm
          exact sub_ne_zero.2 this
        refine ⟨((qy : ℚ) - py) / (ry - py), ?_, ?_, by ring, by field_simp; ring, ?_⟩
        · simp only [beq_iff_eq, decide_eq_decide] at hh
          by_cases hc : qy > py
          · have := hh.1 hc
            have a : (0 : ℚ) < qy - py := by have : (py : ℚ) < qy := by exact_mod_cast hc
                                             linarith
            have b : (0 : ℚ) < ry - py := by have : (qy : ℚ) < ry := by exact_mod_cast this
                                             linarith
            positivity
          · have hc2 : ¬ qy < ry := fun h => hc (hh.2 h)
            have a : (qy : ℚ) - py < 0 := by have : (qy : ℚ) < py := by exact_mod_cast (show qy < py by omega)
                                             linarith
            have b : (ry : ℚ) - py < 0 := by have : (ry : ℚ) < qy := by exact_mod_cast (show ry < qy by omega)
                                             linarith
            exact div_pos_of_neg_of_neg a b
        · simp only [beq_iff_eq, decide_eq_decide] at hh
          by_cases hc : qy > py
          · have h2 := hh.1 hc
            have a : (qy : ℚ) < ry := by exact_mod_cast h2
            have b : (py : ℚ) < qy := by exact_mod_cast hc
            rw [div_lt_one (by linarith)]; linarith
          · have hc2 : ¬ qy < ry := fun h => hc (hh.2 h)
            have a : (qy : ℚ) < py := by exact_mod_cast (show qy < py by omega)
            have b : (ry : ℚ) < qy := by exact_mod_cast (show ry < qy by omega)
            rw [div_lt_one_of_neg (by linarith)]; linarith
        · simp only [ne_eq, Prod.mk.injEq, true_and]
          exact_mod_cast hyr
    · rintro ⟨t, t0, t1, hx, hy, hne⟩
      simp only [ne_eq, Prod.mk.injEq, true_and] at hne
      have hyr : (py : ℚ) ≠ ry := hne
      have hx' : qx = px := by
        have : (qx : ℚ) = px := by linarith
        exact_mod_cast this
      subst hx'
      simp only [true_and]
      rcases lt_or_gt_of_ne hyr with hlt | hlt
      · have a : (py : ℚ) < qy := by nlinarith
        have b : (qy : ℚ) < ry := by nlinarith
        have a' : py < qy := by exact_mod_cast a
        have b' : qy < ry := by exact_mod_cast b
        rw [if_neg (by omega)]
        simp [a', b']
      · have a : (qy : ℚ) < py := by nlinarith
        have b : (ry : ℚ) < qy := by nlinarith
        have a' : qy < py := by exact_mod_cast a
        have b' : ry < qy := by exact_mod_cast b
        rw [if_neg (by omega)]
        simp [not_lt.2 a'.le, not_lt.2 b'.le]
  · -- not vertical
    have hprq : (px : ℚ) ≠ rx := by exact_mod_cast hpr
    simp only [ne_eq, hpr, not_false_eq_true, if_true]
    constructor
    · intro hh
      split at hh
      · cases hh
      · next hne =>
        push Not at hne
        have hd : ((rx : ℚ) - px) ≠ 0 := sub_ne_zero.2 (Ne.symm hprq)
        -- q is not at either end on the x axis
        have n1 : qx ≠ px := by
          intro hc
          subst hc
          have : (py - qy) * (qx - rx) = 0 := by rw [h]; ring
          rcases mul_eq_zero.1 this with h | h
          · exact hne.1 rfl (by omega)
          · exact hpr (by omega)
        have n2 : qx ≠ rx := by
          intro hc
          subst hc
          have : (px - qx) * (qy - ry) = 0 := by rw [← h]; ring
          rcases mul_eq_zero.1 this with h | h
          · exact hpr (by omega)
          · exact hne.2.1 rfl (by omega)
        refine ⟨((qx : ℚ) - px) / (rx - px), ?_, ?_, by field_simp; ring, ?_, ?_⟩
        · simp only [beq_iff_eq, decide_eq_decide] at hh
          by_cases hc : qx > px
          · have h2 := hh.1 hc
            have a : (px : ℚ) < qx := by exact_mod_cast hc
            have b : (qx : ℚ) < rx := by exact_mod_cast h2
            exact div_pos (by linarith) (by linarith)
          · have hc2 : ¬ qx < rx := fun h => hc (hh.2 h)
            have a : (qx : ℚ) < px := by exact_mod_cast (show qx < px by omega)
            have b : (rx : ℚ) < qx := by exact_mod_cast (show rx < qx by omega)
            exact div_pos_of_neg_of_neg (by linarith) (by linarith)
        · simp only [beq_iff_eq, decide_eq_decide] at hh
          by_cases hc : qx > px
          · have h2 := hh.1 hc
            have a : (px : ℚ) < qx := by exact_mod_cast hc
            have b : (qx : ℚ) < rx := by exact_mod_cast h2
            rw [div_lt_one (by linarith)]; linarith
          · have hc2 : ¬ qx < rx := fun h => hc (hh.2 h)
            have a : (qx : ℚ) < px := by exact_mod_cast (show qx < px by omega)
            have b : (rx : ℚ) < qx := by exact_mod_cast (show rx < qx by omega)
            rw [div_lt_one_of_neg (by linarith)]; linarith
        · field_simp
          linear_combination hq
        · simp only [ne_eq, Prod.mk.injEq, not_and]
          intro hc; exact absurd hc hprq
    · rintro ⟨t, t0, t1, hx, hy, hne⟩
      rcases lt_or_gt_of_ne hprq with hlt | hlt
      · have a : (px : ℚ) < qx := by nlinarith
        have b : (qx : ℚ) < rx := by nlinarith
        have a' : px < qx := by exact_mod_cast a
        have b' : qx < rx := by exact_mod_cast b
        rw [if_neg (by rintro (h | h | h) <;> [omega; omega; exact h.1.elim])]
        simp [a', b']
      · have a : (qx : ℚ) < px := by nlinarith
        have b : (rx : ℚ) < qx := by nlinarith
        have a' : qx < px := by exact_mod_cast a
        have b' : rx < qx := by exact_mod_cast b
        rw [if_neg (by rintro (h | h | h) <;> [omega; omega; exact h.1.elim])]
        simp [not_lt.2 a'.le, not_lt.2 b'.le]

example : Collinear (toQ ⟨0, 0⟩) (toQ ⟨2, 4⟩) (toQ ⟨3, 6⟩) := by
  rw [← C33_points_slopes_equal_iff]; decide

end Wagyu
