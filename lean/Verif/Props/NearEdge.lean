import Verif.Props.RowProvenance
import Verif.Props.Rectilinear
import Verif.Proofs.Accuracy

/-!
# C54: every vertex is near a side of the input
-/

namespace Wagyu

open Spec

/-! ## The edges lie on the sides -/

/-- Three points on one line, the first two distinct: the segment between the outer ones is covered by the other two. -/
theorem segment_split {p q r x : QPoint} (hne : ¬ (p.1 = q.1 ∧ p.2 = q.2)) (h : (p.2 - q.2) * (q.1 - r.1) = (p.1 - q.1) * (q.2 - r.2))
    (hx : OnSegment p r x) : OnSegment p q x ∨ OnSegment q r x := by
  obtain ⟨px, py⟩ := p
  obtain ⟨qx, qy⟩ := q
  obtain ⟨rx, ry⟩ := r
  obtain ⟨x1, x2⟩ := x
  obtain ⟨t, t0, t1, e1, e2⟩ := hx
  dsimp only at *
  obtain ⟨l, hl1, hl2⟩ : ∃ l : ℚ, rx - qx = l * (qx - px) ∧ ry - qy = l * (qy - py) := by
    by_cases hxx : qx - px = 0
    · have hyy : qy - py ≠ 0 := fun hyy => hne ⟨by linarith, by linarith⟩
      refine ⟨(ry - qy) / (qy - py), ?_, by field_simp⟩
      rw [hxx, mul_zero]
      have : (py - qy) * (qx - rx) = 0 := by rw [h, show px - qx = 0 by linarith, zero_mul]
      have := (mul_eq_zero.1 this).resolve_left (fun k => hyy (by linarith))
      linarith
    · refine ⟨(rx - qx) / (qx - px), by field_simp, ?_⟩
      field_simp
      linarith
  have ex : x1 = px + t * (1 + l) * (qx - px) := by rw [e1, show rx = qx + l * (qx - px) by linarith]; ring
  have ey : x2 = py + t * (1 + l) * (qy - py) := by rw [e2, show ry = qy + l * (qy - py) by linarith]; ring
  have back : ∀ u : ℚ, 1 + u * l = t * (1 + l) → x1 = qx + u * (rx - qx) ∧ x2 = qy + u * (ry - qy) := by
    intro u hu
    rw [ex, ey, hl1, hl2, ← hu]
    constructor <;> ring
  by_cases a : t * (1 + l) < 0
  · have l1 : 1 + l < 0 := by
      by_contra k
      exact absurd (mul_nonneg t0 (not_lt.1 k)) (not_le.2 a)
    have l0 : l < 0 := by linarith
    right
    refine ⟨(t * (1 + l) - 1) / l, div_nonneg_of_nonpos (by linarith) l0.le, ?_, back _ ?_⟩
    · rw [div_le_one_of_neg l0]
      nlinarith
    · rw [div_mul_cancel₀ _ l0.ne]; ring
  · by_cases b : t * (1 + l) ≤ 1
    · exact .inl ⟨t * (1 + l), not_lt.1 a, b, ex, ey⟩
    · have l0 : 0 < l := by
        by_contra k
        have := not_lt.1 k
        nlinarith
      right
      refine ⟨(t * (1 + l) - 1) / l, div_nonneg (by linarith) l0.le, ?_, back _ ?_⟩
      · rw [div_le_one l0]
        nlinarith
      · rw [div_mul_cancel₀ _ l0.ne']; ring

/-- The segment is covered by the sides of the ring. -/
def OnSides (ring : LinearRing) (p q : Point) : Prop :=
  p = q ∨ ∀ x : QPoint, OnSegment (toQ p) (toQ q) x → ∃ a b, SideOf ring a b ∧ OnSegment (toQ a) (toQ b) x

theorem onSegment_symm {p q x : QPoint} (h : OnSegment p q x) : OnSegment q p x := by
  obtain ⟨t, t0, t1, e1, e2⟩ := h
  exact ⟨1 - t, by linarith, by linarith, by rw [e1]; ring, by rw [e2]; ring⟩

theorem onSides_rel (ring : LinearRing) : LineRel (OnSides ring) where
  refl _ := .inl rfl
  symm := by
    rintro p q (rfl | h)
    · exact .inl rfl
    · exact .inr fun x hx => h x (onSegment_symm hx)
  coll := by
    rintro p q r hne (rfl | h) h' hr
    · exact absurd rfl hne
    rcases h' with rfl | h'
    · exact .inr h
    refine .inr fun x hx => ?_
    unfold arePointsSlopesEqual at hr
    rw [decide_eq_true_eq] at hr
    have ne' : ¬ ((toQ p).1 = (toQ q).1 ∧ (toQ p).2 = (toQ q).2) := by
      rintro ⟨k1, k2⟩
      simp only [toQ, Int.cast_inj] at k1 k2
      exact point_ne hne ⟨k1, k2⟩
    rcases segment_split ne' (by simp only [toQ]; exact_mod_cast hr) hx with k | k
    · exact h x k
    · exact h' x k

/-- **C14.** Every point of an edge extracted from a ring lies on one of the sides of the ring. -/
theorem C14_on_sides (pts : List Point) (fuel : Nat) (hf : 3 * pts.length + 3 ≤ fuel) (es : List Edge) (he : edgesOf fuel pts = .ok es) :
    ∀ e ∈ es, ∀ x : QPoint, OnSegment (toQ e.bottom) (toQ e.top) x → ∃ a b, SideOf pts a b ∧ OnSegment (toQ a) (toQ b) x := by
  intro e hm
  obtain ⟨es', he', -, h3, -⟩ := C14_edges pts fuel hf
  rw [he] at he'
  cases he'
  exact (edgesOf_sides (onSides_rel pts) hf he (fun a b hab => .inr fun x hx => ⟨a, b, hab, hx⟩) e hm).resolve_left (h3 e hm).2.2.1

example : edgesOf 60 [⟨0, 0⟩, ⟨2, 0⟩, ⟨5, 0⟩, ⟨3, 0⟩, ⟨4, 4⟩, ⟨0, 0⟩]
    = .ok [Edge.mk' ⟨0, 0⟩ ⟨3, 0⟩, Edge.mk' ⟨3, 0⟩ ⟨4, 4⟩, Edge.mk' ⟨4, 4⟩ ⟨0, 0⟩]
    ∧ SideOf [⟨0, 0⟩, ⟨2, 0⟩, ⟨5, 0⟩, ⟨3, 0⟩, ⟨4, 4⟩, ⟨0, 0⟩] ⟨0, 0⟩ ⟨2, 0⟩ := ⟨by decide +kernel, 0, by decide, rfl, rfl⟩

/-! ## The vertices are near the edges -/

/-- The point is less than `1 / 2 + d` away from a side of one of the rings, along both axes. -/
def NearSide (held : List LinearRing) (d : ℚ) (p : Point) : Prop :=
  ∃ ring ∈ held, ∃ a b, SideOf ring a b ∧ ∃ r : QPoint, OnSegment (toQ a) (toQ b) r ∧ |(p.x : ℚ) - r.1| ≤ 1 / 2 + d ∧ |(p.y : ℚ) - r.2| ≤ 1 / 2 + d

section
variable {fuel : Nat} {held : List LinearRing}

theorem HeldEdge.near (hfit : ∀ ring ∈ held, RingFits fuel ring) {e : Edge} (he : HeldEdge fuel held e) {r : QPoint}
    (h : OnSegment (toQ e.bottom) (toQ e.top) r) : ∃ ring ∈ held, ∃ a b, SideOf ring a b ∧ OnSegment (toQ a) (toQ b) r := by
  obtain ⟨ring, hr, es, h1, f, hf, h2⟩ := he
  refine ⟨ring, hr, C14_on_sides ring fuel (hfit ring hr).1 es h1 f hf r ?_⟩
  rcases h2 with rfl | ⟨-, rfl⟩
  · exact h
  · exact onSegment_symm h

theorem half_error {q : ℚ} {n : ℤ} (h : roundHalfUp (.fin q) = some n) : |(n : ℚ) - q| ≤ 1 / 2 := by
  rcases (C17_round_half_up q n).1 h with h | h
  · exact h.le
  · exact h.1.le

theorem RowProvenance.near {p : Point} {k : ℕ} (hk : k ≤ 52) (hfit : ∀ ring ∈ held, RingFits fuel ring)
    (hb : ∀ ring ∈ held, ∀ c ∈ ring, |c.x| ≤ 2 ^ k ∧ |c.y| ≤ 2 ^ k) (h : RowProvenance fuel held p) : NearSide held (2 ^ k / 2 ^ 50) p := by
  have hg : (2 : ℚ) ^ k / 2 ^ 50 = 8 * grain k := by rw [grain_eq]; ring
  have g0 := grain_pos k
  have bounded : ∀ {e}, HeldEdge fuel held e → e.Bounded k := by
    intro e he
    obtain ⟨⟨r, a1, a2⟩, ⟨r', b1, b2⟩, -⟩ := he.origin hfit
    exact ⟨(hb r a1 _ a2).1, (hb r a1 _ a2).2, (hb r' b1 _ b2).1, (hb r' b1 _ b2).2⟩
  suffices ∃ e, HeldEdge fuel held e ∧ ∃ r : QPoint, OnSegment (toQ e.bottom) (toQ e.top) r ∧ |(p.x : ℚ) - r.1| ≤ 1 / 2 + 8 * grain k
      ∧ |(p.y : ℚ) - r.2| ≤ 1 / 2 + 8 * grain k by
    obtain ⟨e, he, r, h1, h2, h3⟩ := this
    obtain ⟨ring, hr, a, b, hab, h4⟩ := he.near hfit h1
    rw [← hg] at h2 h3
    exact ⟨ring, hr, a, b, hab, r, h4, h2, h3⟩
  have self : ∀ z : ℚ, |z - z| ≤ 1 / 2 + 8 * grain k := fun z => by rw [sub_self, abs_zero]; linarith
  cases h with
  | corner e _ he h =>
    refine ⟨e, he, toQ p, ?_, self _, self _⟩
    rcases h with rfl | rfl
    · exact ⟨0, le_rfl, by norm_num, by ring, by ring⟩
    · exact ⟨1, by norm_num, le_rfl, by ring, by ring⟩
  | crossing e f q he hf h1 h2 =>
    obtain ⟨r, h3, h4, h5⟩ := crossing_error hk (bounded he) h1 h2
    exact ⟨e, he, r, h3, h4, h5⟩
  | onEdge e c he hc hy h1 h2 hr =>
    refine ⟨e, he, ?_⟩
    rcases he.slope hfit with ⟨k1, k2⟩ | ⟨-, k1⟩
    · have hy' : p.y = e.top.y := by omega
      refine ⟨toQ e.top, ⟨1, by norm_num, le_rfl, by ring, by ring⟩, ?_, ?_⟩
      · have hx : e.getCurrentX p.y = .ofInt e.top.x := by
          unfold Edge.getCurrentX
          rw [if_pos hy']
          exact fl_int (le_trans (bounded he).2.2.1 (pow_le_pow_right₀ (by norm_num) (by omega)))
        rw [hx] at hr
        have := half_error hr
        simp only [toQ]
        linarith
      · simp only [toQ, hy']; exact self _
    · obtain ⟨x, r, e1, e2, e3⟩ := getCurrentX_error hk (bounded he) k1 h1 h2
      rw [e1] at hr
      refine ⟨_, e2, ?_, self _⟩
      have := half_error hr
      dsimp only
      rw [abs_le] at *
      constructor <;> linarith

end

section
variable {fuel : Nat} {rev : Bool} {cs : List Call} {w w' : Wagyu} {op : OperationKind} {sf cf : FillKind} {s : St} {result : Multipolygon}

/-- **C54.** After any history of calls with coordinates up to `2 ^ k` (`k ≤ 52`), every vertex of a result is at most
`1 / 2 + 2 ^ k / 2 ^ 50` away from a side of a held ring, along both axes, provided no active bound is left over. -/
theorem C54_near_side (hw : ((Wagyu.new rev).calls fuel cs).1 = w) (hfit : ∀ ring ∈ heldRings cs, RingFits fuel ring)
    {k : ℕ} (hk : k ≤ 52) (hb : ∀ ring ∈ heldRings cs, ∀ c ∈ ring, |c.x| ≤ 2 ^ k ∧ |c.y| ≤ 2 ^ k)
    (hend : ∀ s, sweeps w.minimums op sf cf (St.init fuel w.minimums.bounds) = .ok () s → ∀ b, some b ∉ s.abl)
    (hrun : w.execute fuel op sf cf = (w', .ok result)) : ∀ p ∈ result.vertices, NearSide (heldRings cs) (2 ^ k / 2 ^ 50) p :=
  fun p hp => (C53_row_provenance hw hfit hend hrun p hp).near hk hfit hb

/-- **C54.** Unconditionally when no stored bound ends in a horizontal edge. -/
theorem C54_near_side_no_flat_tops (hw : ((Wagyu.new rev).calls fuel cs).1 = w) (hfit : ∀ ring ∈ heldRings cs, RingFits fuel ring)
    {k : ℕ} (hk : k ≤ 52) (hb : ∀ ring ∈ heldRings cs, ∀ c ∈ ring, |c.x| ≤ 2 ^ k ∧ |c.y| ≤ 2 ^ k)
    (hflat : NoFlatTops w.minimums) (hrun : w.execute fuel op sf cf = (w', .ok result)) :
    ∀ p ∈ result.vertices, NearSide (heldRings cs) (2 ^ k / 2 ^ 50) p :=
  fun p hp => (C53_row_provenance_no_flat_tops hw hfit hflat hrun p hp).near hk hfit hb

end

/-- `twoTrianglesHistory` meets the hypotheses of `C54_near_side` with `k = 3`; the point `(9, 9)` would be too far away from the
sides of a small triangle. -/
example : (∀ ring ∈ heldRings twoTrianglesHistory, RingFits 60 ring)
    ∧ (∀ ring ∈ heldRings twoTrianglesHistory, ∀ c ∈ ring, |c.x| ≤ 2 ^ 3 ∧ |c.y| ≤ 2 ^ 3)
    ∧ leftOver twoTrianglesHistory .intersection .evenOdd .evenOdd = some 0
    ∧ (((Wagyu.new false).calls 60 twoTrianglesHistory).1.execute 60 .intersection .evenOdd .evenOdd).2.toOption
      = some [[[⟨3, 1⟩, ⟨1, 3⟩, ⟨1, 1⟩, ⟨3, 1⟩]]]
    ∧ ¬ NearSide [[⟨0, 0⟩, ⟨4, 0⟩, ⟨0, 4⟩, ⟨0, 0⟩]] (2 ^ 3 / 2 ^ 50) ⟨9, 9⟩ := by
  refine ⟨by unfold RingFits; decide +kernel, by decide +kernel, by decide +kernel, twoTrianglesHistory_result, ?_⟩
  rintro ⟨ring, hr, a, b, ⟨k, hk, h1, h2⟩, r, ⟨t, t0, t1, h3, -⟩, h4, -⟩
  obtain rfl := List.mem_singleton.1 hr
  have small : ∀ c : Point, c ∈ ([⟨0, 0⟩, ⟨4, 0⟩, ⟨0, 4⟩, ⟨0, 0⟩] : LinearRing) → (c.x : ℚ) ≤ 4 := by
    intro c hc
    have : c.x ≤ 4 := (by decide : ∀ c ∈ ([⟨0, 0⟩, ⟨4, 0⟩, ⟨0, 4⟩, ⟨0, 0⟩] : LinearRing), c.x ≤ 4) c hc
    exact_mod_cast this
  have ha := small a (List.mem_of_getElem? h1)
  have hb := small b (List.mem_of_getElem? h2)
  have : r.1 ≤ 4 := by
    rw [h3]
    simp only [toQ]
    nlinarith
  have h5 := (abs_le.1 h4).2
  norm_num at h5
  linarith

end Wagyu
