import Verif.Proofs.InputMates
import Verif.Proofs.VattiOpen
import Verif.Props.LocalMinima
import Verif.Spec.PlaneWinding

/-!
# The stored bounds wind like the held rings
-/

namespace Wagyu

open Spec

theorem signQ_same {a b u v : ℚ} (h : a * u = b * v) (hu : 0 < u) (hv : 0 < v) : (0 < a ↔ 0 < b) ∧ (a < 0 ↔ b < 0) := by
  refine ⟨⟨fun h1 => ?_, fun h1 => ?_⟩, ⟨fun h1 => ?_, fun h1 => ?_⟩⟩ <;> by_contra hn <;> nlinarith

theorem signQ_opp {a b u v : ℚ} (h : a * u = b * v) (hu : u < 0) (hv : 0 < v) : (0 < a ↔ b < 0) ∧ (a < 0 ↔ 0 < b) := by
  refine ⟨⟨fun h1 => ?_, fun h1 => ?_⟩, ⟨fun h1 => ?_, fun h1 => ?_⟩⟩ <;> by_contra hn <;> nlinarith

theorem crossingAt_addsUp (z : QPoint) : AddsUpOnLines (crossingAt z) := by
  intro p q r h
  have hcol := (C33_points_slopes_equal_iff p q r).2 h
  unfold arePointsSlopesEqual at hcol
  rw [decide_eq_true_eq] at hcol
  obtain ⟨px, py⟩ := p
  obtain ⟨qx, qy⟩ := q
  obtain ⟨rx, ry⟩ := r
  obtain ⟨zx, zy⟩ := z
  simp only at hcol
  have hcol := congrArg (Int.cast : ℤ → ℚ) hcol
  push_cast at hcol
  unfold crossingAt
  simp only
  generalize (px : ℚ) = px at *
  generalize (py : ℚ) = py at *
  generalize (qx : ℚ) = qx at *
  generalize (qy : ℚ) = qy at *
  generalize (rx : ℚ) = rx at *
  generalize (ry : ℚ) = ry at *
  have k1 : ((qx - px) * (zy - py) - (zx - px) * (qy - py)) * (ry - qy)
      = ((rx - qx) * (zy - qy) - (zx - qx) * (ry - qy)) * (qy - py) := by linear_combination -(zy - qy) * hcol
  have k2 : ((qx - px) * (zy - py) - (zx - px) * (qy - py)) * (ry - py)
      = ((rx - px) * (zy - py) - (zx - px) * (ry - py)) * (qy - py) := by linear_combination -(zy - py) * hcol
  have k3 : ((rx - qx) * (zy - qy) - (zx - qx) * (ry - qy)) * (ry - py)
      = ((rx - px) * (zy - py) - (zx - px) * (ry - py)) * (ry - qy) := by linear_combination (zy - ry) * hcol
  generalize (qx - px) * (zy - py) - (zx - px) * (qy - py) = a at *
  generalize (rx - qx) * (zy - qy) - (zx - qx) * (ry - qy) = b at *
  generalize (rx - px) * (zy - py) - (zx - px) * (ry - py) = d at *
  by_cases hp : py ≤ zy <;> by_cases hq : qy ≤ zy <;> by_cases hr : ry ≤ zy
  · have e1 : ¬ zy < py := not_lt.2 hp
    have e2 : ¬ zy < qy := not_lt.2 hq
    have e3 : ¬ zy < ry := not_lt.2 hr
    simp [e1, e2, e3]
  · have e3 : zy < ry := not_le.1 hr
    have := signQ_same k3 (by linarith) (by linarith)
    have e1 : ¬ zy < py := not_lt.2 hp
    have e2 : ¬ zy < qy := not_lt.2 hq
    simp [e1, e2, hp, hq, hr, this.1]
  · have e2 : zy < qy := not_le.1 hq
    have := signQ_opp k1 (by linarith) (by linarith)
    have e1 : ¬ zy < py := not_lt.2 hp
    have e3 : ¬ zy < ry := not_lt.2 hr
    simp only [e1, e2, e3, hp, hq, hr, this.1, true_and, false_and, and_false, if_false]
    split <;> omega
  · have e2 : zy < qy := not_le.1 hq
    have e3 : zy < ry := not_le.1 hr
    have := signQ_same k2 (by linarith) (by linarith)
    have e1 : ¬ zy < py := not_lt.2 hp
    simp [e1, e2, e3, hp, hq, hr, this.1]
  · have e1 : zy < py := not_le.1 hp
    have := signQ_same (show a * (py - ry) = d * (py - qy) by linarith) (by linarith) (by linarith)
    have e2 : ¬ zy < qy := not_lt.2 hq
    have e3 : ¬ zy < ry := not_lt.2 hr
    simp [e1, e2, e3, hp, hq, hr, this.2]
  · have e1 : zy < py := not_le.1 hp
    have e3 : zy < ry := not_le.1 hr
    have := signQ_opp (show a * (qy - ry) = b * (py - qy) by linarith) (by linarith) (by linarith)
    have e2 : ¬ zy < qy := not_lt.2 hq
    simp only [e1, e2, e3, hp, hq, hr, this.2, true_and, false_and, and_false, if_false]
    split <;> omega
  · have e1 : zy < py := not_le.1 hp
    have e2 : zy < qy := not_le.1 hq
    have := signQ_same (show b * (py - ry) = d * (qy - ry) by linarith) (by linarith) (by linarith)
    have e3 : ¬ zy < ry := not_lt.2 hr
    simp [e1, e2, e3, hp, hq, hr, this.2]
  · simp [hp, hq, hr]

/-- The sum of `boundSum` over the bounds of one polygon. -/
def kindSum (c : Point → Point → ℤ) (bounds : Nat → Bound) (ids : List Nat) (k : PolygonKind) : ℤ :=
  (ids.map fun b => if (bounds b).polygonKind = k then boundSum c (bounds b) else 0).sum

theorem kindSum_append (c : Point → Point → ℤ) (bounds : Nat → Bound) (l l' : List Nat) (k : PolygonKind) :
    kindSum c bounds (l ++ l') k = kindSum c bounds l k + kindSum c bounds l' k := by
  unfold kindSum; rw [List.map_append, List.sum_append]

theorem kindSum_congr {c : Point → Point → ℤ} {bounds bounds' : Nat → Bound} {l : List Nat} {k : PolygonKind}
    (h : ∀ b ∈ l, (bounds' b).polygonKind = (bounds b).polygonKind ∧ (bounds' b).windingDelta = (bounds b).windingDelta ∧ (bounds' b).edges = (bounds b).edges) :
    kindSum c bounds' l k = kindSum c bounds l k := by
  unfold kindSum
  congr 1
  refine List.map_congr_left fun b hb => ?_
  obtain ⟨h1, h2, h3⟩ := h b hb
  unfold boundSum
  rw [h1, h2, h3]

theorem kindSum_minima {c : Point → Point → ℤ} {bounds : Nat → Bound} {k k' : PolygonKind} : ∀ {new : List LocalMinimum},
    (∀ b ∈ idsOf new, (bounds b).polygonKind = k') → kindSum c bounds (idsOf new) k = if k' = k then minimaSum c bounds new else 0
  | [], _ => by unfold kindSum minimaSum; simp [idsOf]
  | v :: new, h => by
    have h1 := h v.left (by rw [idsOf_cons]; simp)
    have h2 := h v.right (by rw [idsOf_cons]; simp)
    have ih := kindSum_minima (c := c) (k := k) (new := new) fun b hb => h b (by rw [idsOf_cons]; simp [hb])
    have e1 : kindSum c bounds (idsOf (v :: new)) k = (if k' = k then boundSum c (bounds v.left) else 0) + ((if k' = k then boundSum c (bounds v.right) else 0) + kindSum c bounds (idsOf new) k) := by
      rw [idsOf_cons]
      unfold kindSum
      rw [List.map_cons, List.map_cons, List.sum_cons, List.sum_cons, h1, h2]
    have e2 : minimaSum c bounds (v :: new) = boundSum c (bounds v.left) + boundSum c (bounds v.right) + minimaSum c bounds new := by
      unfold minimaSum; rw [List.map_cons, List.sum_cons]
    rw [e1, e2, ih]
    split <;> omega

/-- The stored bounds of polygon `k` add up to the rings held. -/
def Adds (k : PolygonKind) (held : List LinearRing) (m : Minimums) : Prop :=
  ∀ c, AddsUpOnLines c → kindSum c m.bounds (idsOf m.values) k = (held.map (ringSum c)).sum

theorem addLinearRing_adds {fuel : Nat} {m : Minimums} {ring : LinearRing} {kind k : PolygonKind} {held : List LinearRing} (hm : MatesOk m) (h : Adds k held m)
    (hf : RingFits fuel ring) : Adds k (if kind = k then held ++ [ring] else held) (m.addLinearRing fuel ring kind).1
      ∧ ∃ b, (m.addLinearRing fuel ring kind).2 = .ok b := by
  have hno : ∀ p ∈ ring, ∀ q ∈ ring, NoOverflow p q := fun p hp q hq => noOverflow_of_bounded (hf.2 p hp).1 (hf.2 q hq).1
  have key : ∀ m' b, m.addLinearRing fuel ring kind = (m', .ok b) → (∀ i < m.nb, m'.bounds i = m.bounds i) →
      (∀ new, m'.values = m.values ++ new → ∀ i ∈ idsOf new, (m'.bounds i).polygonKind = kind) → Adds k (if kind = k then held ++ [ring] else held) m' := by
    intro m' b e hold hk c hc
    obtain ⟨new, hv, hs⟩ := C37_sums fuel m m' ring kind hf.1 hno b e
    have hids : idsOf m'.values = idsOf m.values ++ idsOf new := by unfold idsOf; rw [hv, List.flatMap_append]
    rw [hids, kindSum_append, kindSum_minima (hk new hv), hs c hc,
      kindSum_congr (bounds := m.bounds) fun i hi => by rw [hold i (hm.input.lt i hi)]; exact ⟨rfl, rfl, rfl⟩, h c hc]
    split
    · rw [List.map_append, List.sum_append]; simp
    · simp
  obtain ⟨es, -, ⟨-, e⟩ | ⟨-, m', new, e, -, hd⟩⟩ := C15_decomposes fuel m ring kind hf.1 hno
  · rw [e]
    refine ⟨key _ _ e (fun _ _ => rfl) fun new hn i hi => ?_, _, rfl⟩
    have : new = [] := List.append_right_eq_self.1 hn.symm
    rw [this] at hi
    cases hi
  · rw [e]
    refine ⟨key _ _ e hd.old fun new' hn i hi => ?_, _, rfl⟩
    have : new = new' := List.append_cancel_left (hd.values.symm.trans hn)
    subst this
    have := (mem_newIds hd i).1 hi
    exact (hd.kinds i this.1 this.2).1

theorem addPolygonFrom_adds {fuel : Nat} {kind k : PolygonKind} {rings : Polygon} (hp : ∀ ring ∈ rings, RingFits fuel ring) :
    ∀ {r : Bool} {w : Wagyu} {held : List LinearRing}, MatesOk w.minimums → Adds k held w.minimums →
      Adds k (if kind = k then held ++ rings else held) (w.addPolygonFrom fuel r kind rings).1.minimums := by
  induction rings with
  | nil => intro r w held hm h; rw [Wagyu.addPolygonFrom]; simpa using h
  | cons ring rings ih =>
    intro r w held hm h
    have h0 : MatesOk (w.addLinearRing fuel ring kind).1.minimums := addLinearRing_mates hm (hp ring (by simp))
    obtain ⟨h1, b, h2⟩ := addLinearRing_adds (kind := kind) (k := k) hm h (hp ring (by simp))
    have h1 : Adds k (if kind = k then held ++ [ring] else held) (w.addLinearRing fuel ring kind).1.minimums := h1
    have h2 : (w.addLinearRing fuel ring kind).2 = .ok b := h2
    rw [Wagyu.addPolygonFrom]
    revert h0 h1 h2
    generalize w.addLinearRing fuel ring kind = x
    intro h0 h1 h2
    obtain ⟨w', e | b'⟩ := x
    · cases h2
    · have := ih (fun ring hr => hp ring (by simp [hr])) (r := if (b' && !r) = true then true else r) h0 h1
      split at this
      · rw [List.append_assoc] at this
        next hk => rw [if_pos hk]; exact this
      · next hk => rw [if_neg hk]; exact this

theorem Adds.empty (k : PolygonKind) : Adds k [] Minimums.empty := by
  intro c _
  simp [kindSum, idsOf, Minimums.empty]

/-- After any history of calls. -/
theorem calls_adds (fuel : Nat) (k : PolygonKind) : ∀ (cs : List Call) (w : Wagyu) (held heldk : List LinearRing),
    ((∀ ring ∈ held, RingFits fuel ring) → MatesOk w.minimums ∧ Adds k heldk w.minimums) →
    (∀ ring ∈ heldAfter held cs, RingFits fuel ring) → Adds k (heldKindAfter k heldk cs) (w.calls fuel cs).1.minimums := by
  intro cs
  induction cs with
  | nil => intro w held heldk h hp; exact (h hp).2
  | cons c cs ih =>
    intro w held heldk h hp
    rw [Wagyu.calls]
    cases c with
    | addLinearRing ring kind =>
      refine ih _ (held ++ [ring]) _ (fun hh => ?_) hp
      obtain ⟨h1, h2⟩ := h fun r hr => hh r (by simp [hr])
      exact ⟨addLinearRing_mates h1 (hh ring (by simp)), (addLinearRing_adds h1 h2 (hh ring (by simp))).1⟩
    | addPolygon polygon kind =>
      refine ih _ (held ++ polygon) _ (fun hh => ?_) hp
      obtain ⟨h1, h2⟩ := h fun r hr => hh r (by simp [hr])
      exact ⟨addPolygonFrom_mates h1 fun r hr => hh r (by simp [hr]), addPolygonFrom_adds (fun r hr => hh r (by simp [hr])) h1 h2⟩
    | clear =>
      refine ih _ [] _ (fun _ => ?_) hp
      simp only [Wagyu.call, clear_eq]
      exact ⟨MatesOk.empty, Adds.empty k⟩
    | execute op sf cf =>
      refine ih _ held _ (fun hh => ?_) hp
      obtain ⟨h1, h2⟩ := h hh
      obtain ⟨e1, e3, _, e2⟩ := execute_input fuel w op sf cf
      refine ⟨h1.congr e1 e3 e2, fun c hc => ?_⟩
      rw [← h2 c hc]
      show kindSum c _ (idsOf (w.execute fuel op sf cf).1.minimums.values) k = _
      rw [e1]
      exact kindSum_congr fun b _ => ⟨(e2 b).kind, (e2 b).delta, (e2 b).edges⟩

end Wagyu
