import Verif.Proofs.EdgeLines
import Verif.Props.Provenance
import Verif.Props.Crossing

/-!
# C14, C52: lines of the edges; operations on axis-parallel rings
-/

namespace Wagyu

open Spec

/-- `a` and `b` are the end points of a side of the ring: consecutive points, or the last and the first one. -/
def SideOf (ring : LinearRing) (a b : Point) : Prop :=
  ∃ k, k < ring.length ∧ ring[k]? = some a ∧ ring[(k + 1) % ring.length]? = some b

theorem ringPt_eq {pts : List Point} {k : Nat} (h : k < pts.length) : pts[k]? = some (ringPt pts k) := by
  unfold ringPt
  rw [List.getD_eq_getElem?_getD, List.getElem?_eq_getElem h]
  rfl

/-- All sides are in a relation that only depends on lines; so are all edges. -/
theorem edgesOf_sides {D : Point → Point → Prop} (hD : LineRel D) {pts : List Point} {fuel : Nat} (hf : 3 * pts.length + 3 ≤ fuel)
    {es : List Edge} (he : edgesOf fuel pts = .ok es) (h : ∀ a b, SideOf pts a b → D a b) : ∀ e ∈ es, D e.bottom e.top := by
  by_cases h0 : pts = []
  · subst h0; cases he; simp
  have hl : 0 < pts.length := List.length_pos_iff.2 h0
  refine edgesOf_lines hD hf he (fun k hk => h _ _ ⟨k, by omega, ringPt_eq (by omega), ?_⟩) (h _ _ ⟨pts.length - 1, by omega, ringPt_eq (by omega), ?_⟩)
  · rw [Nat.mod_eq_of_lt hk]; exact ringPt_eq hk
  · rw [show pts.length - 1 + 1 = pts.length by omega, Nat.mod_self]; exact ringPt_eq hl

theorem line_trans {ax ay bx cy px py qx qy rx ry : ℤ} (hne : ¬ (px = qx ∧ py = qy))
    (h1 : (ay - cy) * (bx - px) = (ax - bx) * (cy - py)) (h2 : (ay - cy) * (bx - qx) = (ax - bx) * (cy - qy))
    (h3 : (py - qy) * (qx - rx) = (px - qx) * (qy - ry)) : (ay - cy) * (bx - rx) = (ax - bx) * (cy - ry) := by
  have h4 : (ay - cy) * (px - qx) = (ax - bx) * (py - qy) := by linarith
  have h5 : (px - qx) * ((ay - cy) * (bx - rx) - (ax - bx) * (cy - ry)) = 0 := by
    have e : (px - qx) * ((ay - cy) * (bx - rx) - (ax - bx) * (cy - ry))
        = (px - qx) * ((ay - cy) * (bx - qx) - (ax - bx) * (cy - qy)) + (qx - rx) * ((ay - cy) * (px - qx)) - (ax - bx) * ((px - qx) * (qy - ry)) := by
      ring
    rw [e, h2, h4, ← h3]; ring
  have h6 : (py - qy) * ((ay - cy) * (bx - rx) - (ax - bx) * (cy - ry)) = 0 := by
    have e : (py - qy) * ((ay - cy) * (bx - rx) - (ax - bx) * (cy - ry))
        = (py - qy) * ((ay - cy) * (bx - qx) - (ax - bx) * (cy - qy)) + (ay - cy) * ((py - qy) * (qx - rx)) - (qy - ry) * ((ax - bx) * (py - qy)) := by
      ring
    rw [e, h2, h3, ← h4]; ring
  by_contra hc
  have hc' : (ay - cy) * (bx - rx) - (ax - bx) * (cy - ry) ≠ 0 := fun h => hc (by linarith)
  refine hne ⟨?_, ?_⟩
  · have := (mul_eq_zero.1 h5).resolve_right hc'; linarith
  · have := (mul_eq_zero.1 h6).resolve_right hc'; linarith

theorem point_ne {p q : Point} (h : p ≠ q) : ¬ (p.x = q.x ∧ p.y = q.y) := Point.ne_iff h

/-- On one of the lines of the sides. -/
def OnSide (ring : LinearRing) (p q : Point) : Prop :=
  p = q ∨ ∃ a b, SideOf ring a b ∧ a ≠ b ∧ arePointsSlopesEqual a b p = true ∧ arePointsSlopesEqual a b q = true

theorem onSide_rel (ring : LinearRing) : LineRel (OnSide ring) where
  refl _ := .inl rfl
  symm := by
    rintro p q (rfl | ⟨a, b, h1, h2, h3, h4⟩)
    · exact .inl rfl
    · exact .inr ⟨a, b, h1, h2, h4, h3⟩
  coll := by
    rintro p q r hne (rfl | ⟨a, b, h1, h2, h3, h4⟩) - hr
    · exact absurd rfl hne
    · refine .inr ⟨a, b, h1, h2, h3, ?_⟩
      unfold arePointsSlopesEqual at *
      rw [decide_eq_true_eq] at *
      exact line_trans (point_ne hne) h3 h4 hr

/-- **C14.** Every edge extracted from a ring lies on the line of one of its sides: merging and dropping points makes no new
lines. -/
theorem C14_lines (pts : List Point) (fuel : Nat) (hf : 3 * pts.length + 3 ≤ fuel) (es : List Edge) (he : edgesOf fuel pts = .ok es) :
    ∀ e ∈ es, ∃ a b, SideOf pts a b ∧ a ≠ b ∧ Collinear (toQ a) (toQ b) (toQ e.bottom) ∧ Collinear (toQ a) (toQ b) (toQ e.top) := by
  intro e hm
  obtain ⟨es', he', -, h3, -⟩ := C14_edges pts fuel hf
  rw [he] at he'
  cases he'
  have := edgesOf_sides (onSide_rel pts) hf he (fun a b hab => ?_) e hm
  · rcases this with h | ⟨a, b, h1, h2, h4, h5⟩
    · exact absurd h (h3 e hm).2.2.1
    · exact ⟨a, b, h1, h2, (C33_points_slopes_equal_iff _ _ _).1 h4, (C33_points_slopes_equal_iff _ _ _).1 h5⟩
  · by_cases h : a = b
    · exact .inl h
    · refine .inr ⟨a, b, hab, h, ?_, ?_⟩ <;> unfold arePointsSlopesEqual <;> rw [decide_eq_true_eq] <;> ring

example : edgesOf 60 [⟨0, 0⟩, ⟨2, 0⟩, ⟨5, 0⟩, ⟨3, 0⟩, ⟨4, 4⟩, ⟨0, 0⟩]
    = .ok [Edge.mk' ⟨0, 0⟩ ⟨3, 0⟩, Edge.mk' ⟨3, 0⟩ ⟨4, 4⟩, Edge.mk' ⟨4, 4⟩ ⟨0, 0⟩] := by decide +kernel

/-! ## Axis-parallel rings -/

/-- All sides of the ring are horizontal or vertical. -/
def AxisParallel (ring : LinearRing) : Prop := ∀ a b, SideOf ring a b → a.x = b.x ∨ a.y = b.y

theorem axis_rel : LineRel fun p q : Point => p.x = q.x ∨ p.y = q.y where
  refl _ := .inl rfl
  symm h := h.imp Eq.symm Eq.symm
  coll := by
    intro p q r hne h _ hr
    unfold arePointsSlopesEqual at hr
    rw [decide_eq_true_eq] at hr
    have hne := point_ne hne
    rcases h with h | h
    · have hy : p.y - q.y ≠ 0 := fun hy => hne ⟨h, by linarith⟩
      rw [h, sub_self, zero_mul] at hr
      have := (mul_eq_zero.1 hr).resolve_left hy
      left; rw [h]; linarith
    · have hx : p.x - q.x ≠ 0 := fun hx => hne ⟨by linarith, h⟩
      rw [h, sub_self, zero_mul] at hr
      have := (mul_eq_zero.1 hr.symm).resolve_left hx
      right; rw [h]; linarith

theorem HeldEdge.axis {fuel : Nat} {held : List LinearRing} (hfit : ∀ ring ∈ held, RingFits fuel ring) (hax : ∀ ring ∈ held, AxisParallel ring)
    {e : Edge} (h : HeldEdge fuel held e) : e.bottom.x = e.top.x ∨ e.bottom.y = e.top.y := by
  obtain ⟨ring, hr, es, h1, f, hf, h2⟩ := h
  have := edgesOf_sides axis_rel (hfit ring hr).1 h1 (hax ring hr) f hf
  rcases h2 with rfl | ⟨h4, rfl⟩
  · exact this
  · exact this.imp Eq.symm Eq.symm

theorem HeldEdge.slope {fuel : Nat} {held : List LinearRing} (hfit : ∀ ring ∈ held, RingFits fuel ring)
    {e : Edge} (h : HeldEdge fuel held e) :
    (e.bottom.y = e.top.y ∧ e.slope = .inf false) ∨ (e.bottom.y ≠ e.top.y ∧ e.slope = intDiv (e.top.x - e.bottom.x) (e.top.y - e.bottom.y)) := by
  obtain ⟨ring, hr, es, h1, f, hf, h2⟩ := h
  obtain ⟨es', h1', -, h3, -⟩ := C14_edges ring fuel (hfit ring hr).1
  rw [h1] at h1'
  cases h1'
  obtain ⟨a, b, c, d⟩ := h3 f hf
  have key : (f.bottom.y = f.top.y ∧ f.slope = .inf false) ∨ (f.bottom.y ≠ f.top.y ∧ f.slope = intDiv (f.top.x - f.bottom.x) (f.top.y - f.bottom.y)) := by
    rw [d]
    generalize f.bottom = p
    generalize f.top = q
    unfold Edge.mk'
    dsimp only
    by_cases h : p.y < q.y
    · rw [if_pos h]
      right
      refine ⟨by dsimp only; omega, ?_⟩
      dsimp only
      rw [if_pos (by omega)]
    · rw [if_neg h]
      dsimp only
      by_cases h' : p.y = q.y
      · left; exact ⟨h', by rw [if_neg (by omega)]⟩
      · right; exact ⟨h', by rw [if_pos (by omega)]⟩
  rcases h2 with rfl | ⟨h4, rfl⟩
  · exact key
  · rcases key with ⟨k1, k2⟩ | ⟨k1, k2⟩
    · exact .inl ⟨k1.symm, k2⟩
    · exact absurd h4 k1

/-! ## Rounding of doubles close to an integer -/

theorem isDouble_of_fl {q x : ℚ} (h : fl q = .fin x) : IsDouble x := by
  rw [fl_eq] at h
  split at h
  · cases h
  · next h1 =>
    split at h
    · cases h
    · next h2 =>
      cases h
      exact flv_isDouble (abs_lt.2 ⟨by linarith, by linarith⟩)

theorem isDouble_of_add {a b : F64} {x : ℚ} (h : F64.add a b = .fin x) : IsDouble x := by
  unfold F64.add at h
  split at h
  · exact isDouble_of_fl h
  · cases h
  · cases h
  · split at h <;> cases h
  · cases h
  · cases h

theorem many_doubles {x : ℚ} {n : ℤ} (hn : |n| ≤ 2 ^ 24) (h : |x - n| ≤ 1 / 2 ^ 25) : ¬ WithinFourUlps x (⌊x⌋ + 1 / 2) := by
  rintro ⟨hfin, hcard⟩
  obtain ⟨h1, h2⟩ := abs_le.1 h
  have hd : ∀ k : ℤ, |k| ≤ 16 → IsDouble ((n : ℚ) + k / 2 ^ 4) := by
    intro k hk
    have := isDouble_dyadic (16 * n + k) 4 (by norm_num) (by rw [abs_le] at hn hk; rw [abs_lt]; constructor <;> omega)
    have e : (((16 * n + k : ℤ) : ℚ) / 2 ^ 4) = (n : ℚ) + k / 2 ^ 4 := by push_cast; ring
    rwa [e] at this
  obtain ⟨σ, hσ, hb⟩ : ∃ σ : ℤ, (σ = 1 ∨ σ = -1) ∧ ∀ k : ℤ, 1 ≤ k → k ≤ 5 → (n : ℚ) + ((σ * k : ℤ) : ℚ) / 2 ^ 4 ∈ doublesBetween x (⌊x⌋ + 1 / 2) := by
    rcases lt_or_ge x n with hlt | hge
    · have hf : ⌊x⌋ = n - 1 := by
        rw [Int.floor_eq_iff]; push_cast; constructor <;> linarith
      refine ⟨-1, .inr rfl, fun k k1 k2 => ⟨hd _ (by rw [abs_le]; constructor <;> omega), ?_⟩⟩
      have k1' : (1 : ℚ) ≤ k := by exact_mod_cast k1
      have k2' : (k : ℚ) ≤ 5 := by exact_mod_cast k2
      rw [hf]; push_cast
      constructor
      · rw [min_lt_iff]; right; linarith
      · rw [le_max_iff]; left; linarith
    · have hf : ⌊x⌋ = n := by
        rw [Int.floor_eq_iff]; constructor <;> linarith
      refine ⟨1, .inl rfl, fun k k1 k2 => ⟨hd _ (by rw [abs_le]; constructor <;> omega), ?_⟩⟩
      have k1' : (1 : ℚ) ≤ k := by exact_mod_cast k1
      have k2' : (k : ℚ) ≤ 5 := by exact_mod_cast k2
      rw [hf]; push_cast
      constructor
      · rw [min_lt_iff]; left; linarith
      · rw [le_max_iff]; right; linarith
  let g : Fin 5 → ℚ := fun i => (n : ℚ) + ((σ * ((i : ℕ) + 1 : ℤ) : ℤ) : ℚ) / 2 ^ 4
  have hg : Function.Injective g := by
    intro i j hij
    have : ((σ * ((i : ℕ) + 1 : ℤ) : ℤ) : ℚ) = ((σ * ((j : ℕ) + 1 : ℤ) : ℤ) : ℚ) := by
      simp only [g] at hij
      linarith
    have : σ * ((i : ℕ) + 1 : ℤ) = σ * ((j : ℕ) + 1 : ℤ) := by exact_mod_cast this
    apply Fin.ext
    rcases hσ with rfl | rfl <;> omega
  have hsub : Set.range g ⊆ doublesBetween x (⌊x⌋ + 1 / 2) := by
    rintro _ ⟨i, rfl⟩
    exact hb _ (by omega) (by have := i.2; omega)
  have h5 : (Set.range g).ncard = 5 := by
    rw [Set.ncard_eq_toFinset_card', Set.toFinset_range, Finset.card_image_of_injective _ hg]
    rfl
  have := Set.ncard_le_ncard hsub hfin
  omega

theorem round_near {x : ℚ} {n m : ℤ} (hn : |n| ≤ 2 ^ 24) (h : |x - n| ≤ 1 / 2 ^ 25) (hx : IsDouble x) (hr : roundTowardsMax (.fin x) = some m) :
    m = n := by
  obtain ⟨m', h1, -, h3⟩ := C17_round_towards_max x hx
  rw [hr] at h1
  cases h1
  have h4 : |(m : ℚ) - x| ≤ 1 / 2 := by
    rcases h3 (many_doubles hn h) with h | ⟨h, -⟩
    · exact h.le
    · exact h.le
  have h5 : |((m - n : ℤ) : ℚ)| < 1 := by
    have := abs_add_le ((m : ℚ) - x) (x - n)
    push_cast
    rw [show (m : ℚ) - x + (x - n) = m - n by ring] at this
    linarith
  have h6 : |m - n| < 1 := by exact_mod_cast h5
  have := Int.abs_lt_one_iff.1 h6
  omega

/-! ## Where axis-parallel edges cross -/

theorem crossing_axis {e f : Edge} {q : FPoint} {p : Point} (he : e.Bounded 24) (hf : f.Bounded 24)
    (ae : e.bottom.x = e.top.x ∨ e.bottom.y = e.top.y) (af : f.bottom.x = f.top.x ∨ f.bottom.y = f.top.y)
    (h : e.and f = some q) (hr : q.round = .ok p) :
    (p = ⟨e.bottom.x, f.bottom.y⟩ ∨ p = ⟨f.bottom.x, e.bottom.y⟩) := by
  obtain ⟨hnp, r, r1, r2⟩ := (C29_found_iff_segments_meet e f he hf).1 (by rw [h]; rfl)
  obtain ⟨x, y, rfl, hx, hy⟩ := C29_accuracy e f he hf q h r r1 r2
  rw [parallel_iff_den] at hnp
  have hdx : IsDouble x ∧ IsDouble y := by
    have h' := h
    unfold Edge.and at h'
    dsimp only at h'
    split at h'
    · cases h'
    · split at h'
      · have h' := Option.some.inj h'
        exact ⟨isDouble_of_add (congrArg FPoint.x h'), isDouble_of_add (congrArg FPoint.y h')⟩
      · cases h'
  obtain ⟨t, -, -, t1, t2⟩ := r1
  obtain ⟨u, -, -, u1, u2⟩ := r2
  simp only [toQ] at t1 t2 u1 u2
  obtain ⟨b1, b2, b3, b4⟩ := he
  obtain ⟨c1, c2, c3, c4⟩ := hf
  have fin : ∀ n m : ℤ, |n| ≤ 2 ^ 24 → |m| ≤ 2 ^ 24 → r.1 = n → r.2 = m → p = ⟨n, m⟩ := by
    intro n m hn hm h1 h2
    rw [h1] at hx
    rw [h2] at hy
    unfold FPoint.round at hr
    dsimp only at hr
    split at hr
    · next a b ha hb =>
      have e1 := round_near hn hx hdx.1 ha
      have e2 := round_near hm hy hdx.2 hb
      cases hr
      rw [e1, e2]
    · cases hr
  have key : (e.bottom.x = e.top.x ∧ f.bottom.y = f.top.y) ∨ (e.bottom.y = e.top.y ∧ f.bottom.x = f.top.x) := by
    rcases ae with ae | ae <;> rcases af with af | af
    · exfalso; apply hnp; unfold crossDen; rw [ae, af]; ring
    · exact .inl ⟨ae, af⟩
    · exact .inr ⟨ae, af⟩
    · exfalso; apply hnp; unfold crossDen; rw [ae, af]; ring
  rcases key with ⟨k1, k2⟩ | ⟨k1, k2⟩
  · left
    rw [← k1, sub_self, mul_zero, add_zero] at t1
    rw [← k2, sub_self, mul_zero, add_zero] at u2
    exact fin _ _ (by assumption) (by assumption) t1 u2
  · right
    rw [← k2, sub_self, mul_zero, add_zero] at u1
    rw [← k1, sub_self, mul_zero, add_zero] at t2
    exact fin _ _ (by assumption) (by assumption) u1 t2

/-- **C52.** Operations on axis-parallel rings (coordinates up to `2 ^ 24`), after any history of calls: every vertex of the
result has the column of a corner and the row of a corner of the rings held.  Nothing drifts off this grid. -/
theorem C52_axis_parallel (fuel : Nat) (rev : Bool) (before : List Call) (op : OperationKind) (sf cf : FillKind)
    (w' : Wagyu) (result : Multipolygon) (hfit : ∀ ring ∈ heldRings before, RingFits fuel ring)
    (hax : ∀ ring ∈ heldRings before, AxisParallel ring)
    (hsmall : ∀ ring ∈ heldRings before, ∀ p ∈ ring, |p.x| ≤ 2 ^ 24 ∧ |p.y| ≤ 2 ^ 24)
    (hrun : ((Wagyu.new rev).calls fuel before).1.execute fuel op sf cf = (w', .ok result)) :
    ∀ p ∈ result.vertices, ∃ a b, HeldCorner (heldRings before) a ∧ HeldCorner (heldRings before) b ∧ p = ⟨a.x, b.y⟩ := by
  intro p hp
  have hb : ∀ {e}, HeldEdge fuel (heldRings before) e → e.Bounded 24 := by
    intro e he
    obtain ⟨⟨r1, h1, h2⟩, ⟨r2, h3, h4⟩, -⟩ := he.origin hfit
    exact ⟨(hsmall _ h1 _ h2).1, (hsmall _ h1 _ h2).2, (hsmall _ h3 _ h4).1, (hsmall _ h3 _ h4).2⟩
  rcases C51_provenance fuel rev before op sf cf w' result hfit hrun p hp with ⟨a, b, ha, hb, h⟩ | ⟨e, f, q, he, hf, h1, h2⟩ | ⟨e, c, he, hc, h1, h2⟩
  · exact ⟨a, b, ha, hb, h⟩
  · rcases crossing_axis (hb he) (hb hf) (he.axis hfit hax) (hf.axis hfit hax) h1 h2 with h | h
    · exact ⟨_, _, (he.origin hfit).1, (hf.origin hfit).1, h⟩
    · exact ⟨_, _, (hf.origin hfit).1, (he.origin hfit).1, h⟩
  · have big : ∀ {a}, HeldCorner (heldRings before) a → |a.x| ≤ 2 ^ 52 := fun ⟨r, h3, h4⟩ => ((hfit r h3).2 _ h4).1
    have hpe : ∀ a, HeldCorner (heldRings before) a → p.x = a.x → ∃ a b, HeldCorner (heldRings before) a ∧ HeldCorner (heldRings before) b ∧ p = ⟨a.x, b.y⟩ :=
      fun a ha hx => ⟨a, c, ha, hc, by rw [← hx, ← h1]⟩
    have hbot := (he.origin hfit).1
    have htop := (he.origin hfit).2.1
    unfold Edge.getCurrentX at h2
    split at h2
    · exact hpe _ htop (round_int (big htop) (.inr rfl) h2)
    · next hne =>
      rcases he.slope hfit with ⟨k1, k2⟩ | ⟨k1, k2⟩
      · exfalso
        have h0 : ((p.y - e.bottom.y : ℤ) : ℚ) ≠ 0 := by
          have : p.y - e.bottom.y ≠ 0 := by omega
          exact_mod_cast this
        rw [k2] at h2
        have hfx : F64.floatOfInt e.bottom.x = .fin e.bottom.x := fl_int ((big hbot).trans (by norm_num))
        rw [hfx] at h2
        generalize F64.floatOfInt (p.y - e.bottom.y) = z at h2
        cases z with
        | fin a =>
          unfold F64.mul at h2
          dsimp only at h2
          split at h2 <;> simp [F64.add, roundHalfUp] at h2
        | inf n => simp [F64.mul, F64.add, roundHalfUp] at h2
        | nan => simp [F64.mul, F64.add, roundHalfUp] at h2
      · have k3 := (he.axis hfit hax).resolve_right k1
        rw [k2, ← k3, sub_self] at h2
        have hz : intDiv 0 (e.top.y - e.bottom.y) = .fin 0 := by
          unfold intDiv fl
          simp
        have hfx : F64.floatOfInt e.bottom.x = .fin e.bottom.x := fl_int ((big hbot).trans (by norm_num))
        rw [hz, hfx] at h2
        generalize F64.floatOfInt (p.y - e.bottom.y) = z at h2
        cases z with
        | fin a =>
          have h3 : F64.mul (.fin 0) (.fin a) = .fin 0 := by simp [F64.mul, fl]
          have h4 : F64.add (.fin (e.bottom.x : ℚ)) (.fin 0) = .ofInt e.bottom.x := by
            show fl ((e.bottom.x : ℚ) + 0) = _
            rw [add_zero]
            exact fl_int ((big hbot).trans (by norm_num))
          rw [h3, h4] at h2
          exact hpe _ hbot (round_int (big hbot) (.inl rfl) h2)
        | inf n => simp [F64.mul, F64.add, roundHalfUp] at h2
        | nan => simp [F64.mul, F64.add, roundHalfUp] at h2

/-- A cross of two rectangles, after an operation. -/
def crossHistory : List Call :=
  [.addLinearRing [⟨0, 2⟩, ⟨6, 2⟩, ⟨6, 4⟩, ⟨0, 4⟩, ⟨0, 2⟩] .subject, .execute .union .evenOdd .evenOdd,
    .addPolygon [[⟨2, 0⟩, ⟨4, 0⟩, ⟨4, 6⟩, ⟨3, 6⟩, ⟨2, 6⟩, ⟨2, 0⟩]] .clip]

/-- It meets the hypotheses of `C52_axis_parallel`, and its difference has vertices that are not corners. -/
example : (∀ ring ∈ heldRings crossHistory, RingFits 60 ring) ∧ (∀ ring ∈ heldRings crossHistory, AxisParallel ring)
    ∧ (∀ ring ∈ heldRings crossHistory, ∀ p ∈ ring, |p.x| ≤ 2 ^ 24 ∧ |p.y| ≤ 2 ^ 24)
    ∧ (((Wagyu.new false).calls 60 crossHistory).1.execute 60 .difference .evenOdd .evenOdd).2.toOption
      = some [[[⟨2, 2⟩, ⟨2, 4⟩, ⟨0, 4⟩, ⟨0, 2⟩, ⟨2, 2⟩]], [[⟨6, 4⟩, ⟨4, 4⟩, ⟨4, 2⟩, ⟨6, 2⟩, ⟨6, 4⟩]]]
    ∧ ¬ HeldCorner (heldRings crossHistory) ⟨2, 2⟩ := by
  refine ⟨by unfold RingFits; decide +kernel, ?_, by decide +kernel, by decide +kernel, by unfold HeldCorner; decide +kernel⟩
  have h : ∀ ring ∈ heldRings crossHistory, ∀ k < ring.length, (ringPt ring k).x = (ringPt ring ((k + 1) % ring.length)).x
      ∨ (ringPt ring k).y = (ringPt ring ((k + 1) % ring.length)).y := by decide +kernel
  intro ring hr a b ⟨k, h1, h2, h3⟩
  rw [ringPt_eq h1] at h2
  rw [ringPt_eq (Nat.mod_lt _ (by omega))] at h3
  cases h2
  cases h3
  exact h ring hr k h1

end Wagyu
