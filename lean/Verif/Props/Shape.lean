import Verif.Proofs.EdgesShapeRing
import Verif.Props.LocalMinima
import Verif.Spec.History

/-!
# C59: the edges of a ring are determined by its shape, and determine it
-/

namespace Wagyu

open Spec

/-- The edges of a closed path: from every vertex to the next one, and from the last vertex to the first. -/
def edgesAround (corners : List Point) : List Edge := List.zipWith Edge.mk' corners (corners.rotate 1)

theorem edgesAround_rotate (corners : List Point) (n : Nat) : (edgesAround corners).rotate n = edgesAround (corners.rotate n) := by
  unfold edgesAround
  rw [List.zipWith_rotate_distrib _ _ _ _ (by rw [List.length_rotate]), List.rotate_rotate, List.rotate_rotate, Nat.add_comm]

theorem trace_around (u : List Point) (x : Point) : Trace (x :: u ++ [x]) (edgesAround (x :: u)) := by
  have key : ∀ (u : List Point) (a x : Point), Trace (a :: u ++ [x]) (List.zipWith Edge.mk' (a :: u) (u ++ [x])) := by
    intro u
    induction u with
    | nil => intro a x; exact ⟨rfl, trivial⟩
    | cons b u ih => intro a x; exact ⟨rfl, ih b x⟩
  unfold edgesAround
  rw [List.rotate_cons_succ, List.rotate_zero]
  exact key u x x

theorem edgesAround_length (corners : List Point) : (edgesAround corners).length = corners.length := by
  unfold edgesAround
  rw [List.length_zipWith, List.length_rotate, Nat.min_self]

/-- The neighbours of a vertex are found two places on in every rotation. -/
theorem corner_of_rotation {corners : List Point} (hp : ∀ i e f, (edgesAround corners)[i]? = some e →
      (edgesAround corners)[(i + 1) % (edgesAround corners).length]? = some f → ¬ EdgesParallel e f)
    {a b c : Point} {rest : List Point} (h : corners ~r a :: b :: c :: rest) : ¬ Collinear (toQ a) (toQ b) (toQ c) := by
  obtain ⟨k, hk⟩ := h
  have hr := edgesAround_rotate corners k
  rw [hk] at hr
  have hl : 3 ≤ corners.length := by
    have := congrArg List.length hk
    rw [List.length_rotate] at this
    rw [this]; simp
  have hle := edgesAround_length corners
  have h2 : edgesAround (a :: b :: c :: rest) = Edge.mk' a b :: Edge.mk' b c :: List.zipWith Edge.mk' (c :: rest) (rest ++ [a]) := by
    unfold edgesAround
    rw [List.rotate_cons_succ, List.rotate_zero]
    rfl
  have g0 : (edgesAround corners)[k % (edgesAround corners).length]? = some (Edge.mk' a b) := by
    have := List.getElem?_rotate (l := edgesAround corners) (n := k) (m := 0) (by omega)
    rw [hr, h2] at this
    rw [Nat.zero_add] at this
    rw [← this]; rfl
  have g1 : (edgesAround corners)[(k % (edgesAround corners).length + 1) % (edgesAround corners).length]? = some (Edge.mk' b c) := by
    have := List.getElem?_rotate (l := edgesAround corners) (n := k) (m := 1) (by omega)
    rw [hr, h2] at this
    rw [Nat.mod_add_mod, Nat.add_comm k 1, ← this]; rfl
  intro hc
  refine hp _ _ _ g0 g1 ?_
  exact (slopes_of_joins (joins_mk' a b) (joins_mk' b c)).1 ((C33_points_slopes_equal_iff a b c).2 hc)

/-- **C59.** The edges of a ring are the edges of a closed path that has the same shape as the ring, and on which no vertex is on one
line with the vertices before and after it. -/
theorem C59_around (ring : LinearRing) (fuel : Nat) (hf : 3 * ring.length + 3 ≤ fuel) : ∃ corners, edgesOf fuel ring = .ok (edgesAround corners)
    ∧ SameShape ring corners ∧ corners.length ≠ 1 ∧ corners.length ≠ 2
    ∧ ∀ a b c rest, corners ~r a :: b :: c :: rest → ¬ Collinear (toQ a) (toQ b) (toQ c) := by
  obtain ⟨es, h1, h2, -, -, h5⟩ := C14_edges ring fuel hf
  obtain ⟨vs, hT⟩ := edgesOf_trace ring fuel hf h1
  rcases h2 with rfl | hl
  · refine ⟨[], h1, hT.few (by simp), by simp, by simp, fun a b c rest h => ?_⟩
    have := h.perm.length_eq
    simp at this
  · have hc := hT.closed
    have ht := hT.trace
    match vs, es, ht, hl with
    | x :: y :: vs, e :: es, ht, hl =>
      obtain ⟨u, hu⟩ : ∃ u, y :: vs = u ++ [x] := by
        rcases List.eq_nil_or_concat (y :: vs) with h0 | ⟨u, z, h0⟩
        · cases h0
        · rw [List.concat_eq_append] at h0
          rw [h0, List.head?_cons, ← List.cons_append, List.getLast?_concat, Option.some.injEq] at hc
          exact ⟨u, by rw [h0, hc]⟩
      rw [hu] at ht
      have hz : e :: es = edgesAround (x :: u) := ht.zip_closed
      have hlen := edgesAround_length (x :: u)
      rw [← hz] at hlen
      refine ⟨x :: u, by rw [h1, hz], ?_, by omega, by omega, fun a b c rest h => ?_⟩
      · refine hT.shape.trans ?_
        rw [hu]
        exact (shape_rot (x :: u) [x]).trans (shape_dup [] u)
      · rw [hz] at h5
        exact corner_of_rotation h5 h
    | [x], e :: es, ht, _ => exact ht.elim

theorem cornered_of {corners : List Point} (h2 : corners.length ≠ 2)
    (h : ∀ a b c rest, corners ~r a :: b :: c :: rest → ¬ Collinear (toQ a) (toQ b) (toQ c)) : Cornered corners := by
  intro a b r hr
  match r, hr with
  | [], hr => exact absurd hr.perm.length_eq h2
  | c :: r, hr => exact h a b c r hr

/-- The vertices of a path without straight vertices are determined by the edges. -/
theorem around_inj {c d : List Point} (h : edgesAround c = edgesAround d) (h1 : c.length ≠ 1) (h2 : c.length ≠ 2)
    (h3 : ∀ x y z rest, c ~r x :: y :: z :: rest → ¬ Collinear (toQ x) (toQ y) (toQ z)) : c = d := by
  have hl : c.length = d.length := by rw [← edgesAround_length c, h, edgesAround_length]
  match c, d, hl with
  | [], [], _ => rfl
  | x :: u, y :: v, hl =>
    have hn : 3 ≤ (x :: u).length := by
      simp only [List.length_cons, ne_eq] at h1 h2 ⊢
      omega
    have a1 := (trace_around u x).along
    have a2 := (trace_around v y).along
    rw [← h] at a2
    -- neighbours are not parallel
    have hz : edgesAround (x :: u) = List.zipWith Edge.mk' (x :: u) (u ++ [x]) := by
      unfold edgesAround; rw [List.rotate_cons_succ, List.rotate_zero]
    have hget : ∀ i, (hi : i < (edgesAround (x :: u)).length) → ∃ a b rest, (x :: u) ~r a :: b :: rest ∧ (edgesAround (x :: u))[i] = Edge.mk' a b
        ∧ ∀ (hi' : i + 1 < (edgesAround (x :: u)).length), ∃ c rest', rest = c :: rest' ∧ (edgesAround (x :: u))[i + 1] = Edge.mk' b c := by
      intro i hi
      have hil : i < (x :: u).length := by rw [← edgesAround_length]; exact hi
      have hrl : ((x :: u).rotate i).length = (x :: u).length := List.length_rotate ..
      match hr : (x :: u).rotate i, hrl with
      | a :: b :: c :: rest, _ =>
        have hrot : (x :: u) ~r a :: b :: c :: rest := ⟨i, hr⟩
        have he := edgesAround_rotate (x :: u) i
        rw [hr] at he
        have h2' : edgesAround (a :: b :: c :: rest) = Edge.mk' a b :: Edge.mk' b c :: List.zipWith Edge.mk' (c :: rest) (rest ++ [a]) := by
          unfold edgesAround
          rw [List.rotate_cons_succ, List.rotate_zero]
          rfl
        rw [h2'] at he
        refine ⟨a, b, c :: rest, hrot, ?_, fun hi' => ⟨c, rest, rfl, ?_⟩⟩
        · have := List.getElem?_rotate (l := edgesAround (x :: u)) (n := i) (m := 0) (by omega)
          rw [he, Nat.zero_add, Nat.mod_eq_of_lt hi, List.getElem?_eq_getElem hi] at this
          simpa using this.symm
        · have := List.getElem?_rotate (l := edgesAround (x :: u)) (n := i) (m := 1) (by omega)
          rw [he, Nat.add_comm 1 i, Nat.mod_eq_of_lt hi', List.getElem?_eq_getElem hi'] at this
          simpa using this.symm
      | [], h0 => simp at h0
      | [_], h0 => rw [← h0] at hn; simp at hn
      | [_, _], h0 => rw [← h0] at hn; simp at hn
    have hnp : (edgesAround (x :: u)).IsChain fun e f => ¬ EdgesParallel e f := by
      rw [List.isChain_iff_getElem]
      intro i hi
      obtain ⟨a, b, rest, k1, k2, k3⟩ := hget i (by omega)
      obtain ⟨c, rest', rfl, k4⟩ := k3 hi
      rw [k2, k4]
      intro hp
      exact h3 a b c rest' k1 ((C33_points_slopes_equal_iff a b c).1 ((slopes_of_joins (joins_mk' a b) (joins_mk' b c)).2 hp))
    have hwf : ∀ e ∈ edgesAround (x :: u), e.Wf := by
      intro e he
      obtain ⟨i, hi, rfl⟩ := List.getElem_of_mem he
      obtain ⟨a, b, rest, k1, k2, -⟩ := hget i hi
      rw [k2]
      apply wf_mk'
      rintro rfl
      have hlr := k1.perm.length_eq
      match rest, k1 with
      | [], _ => simp only [List.length_cons, List.length_nil] at hlr hn; omega
      | c :: rest, k1 => exact h3 a a c rest k1 (onLine_same a c)
    have := along_unique (by rw [edgesAround_length]; exact hn) hwf hnp a1 a2
    rw [List.cons_append, List.cons_append, List.cons.injEq] at this
    obtain ⟨rfl, h4⟩ := this
    rw [List.append_cancel_right h4]
  | [], _ :: _, hl => simp at hl
  | _ :: _, [], hl => simp at hl

/-- **C59.** Two rings have the same edges, up to where the list starts, exactly if they have the same shape. -/
theorem C59_shape {ring ring' : LinearRing} {fuel fuel' : Nat} (hf : 3 * ring.length + 3 ≤ fuel) (hf' : 3 * ring'.length + 3 ≤ fuel')
    {es es' : List Edge} (h : edgesOf fuel ring = .ok es) (h' : edgesOf fuel' ring' = .ok es') : SameShape ring ring' ↔ es ~r es' := by
  obtain ⟨c, a1, a2, a3, a4, a5⟩ := C59_around ring fuel hf
  obtain ⟨d, b1, b2, b3, b4, b5⟩ := C59_around ring' fuel' hf'
  rw [h] at a1
  rw [h'] at b1
  cases a1
  cases b1
  constructor
  · intro hs
    have hcd := cornered_unique ((a2.symm.trans hs).trans b2) (cornered_of a4 a5) a3 (cornered_of b4 b5) b3
    obtain ⟨n, hn⟩ := hcd
    exact ⟨n, by rw [edgesAround_rotate, hn]⟩
  · rintro ⟨n, hn⟩
    rw [edgesAround_rotate] at hn
    have hcr : c ~r c.rotate n := ⟨n, rfl⟩
    have hcd := around_inj hn (by rw [List.length_rotate]; exact a3) (by rw [List.length_rotate]; exact a4)
      fun x y z rest hr => a5 x y z rest (hcr.trans hr)
    refine (a2.trans ?_).trans b2.symm
    rw [← hcd, List.rotate_eq_drop_append_take_mod]
    have := shape_rot (c.take (n % c.length)) (c.drop (n % c.length))
    rw [List.take_append_drop] at this
    exact this

/-- **C59.** A ring has no edges exactly if its shape is that of a point: it can be taken back to nothing. -/
theorem C59_nothing {ring : LinearRing} {fuel : Nat} (hf : 3 * ring.length + 3 ≤ fuel) : edgesOf fuel ring = .ok [] ↔ SameShape ring [] := by
  obtain ⟨es, h, -⟩ := C14_edges ring fuel hf
  have := C59_shape hf (fuel' := 3) (ring' := []) (by simp) h (C14_few_points [] 3 (by simp))
  rw [this, h]
  simp

/-- **C59.** `add_linear_ring` answers `False`, and adds nothing, exactly for the rings that have the shape of a point. -/
theorem C59_answer (fuel : Nat) (m : Minimums) (ring : LinearRing) (kind : PolygonKind) (hf : 3 * ring.length + 3 ≤ fuel)
    (ho : ∀ p ∈ ring, ∀ q ∈ ring, NoOverflow p q) :
    (SameShape ring [] → m.addLinearRing fuel ring kind = (m, .ok false))
    ∧ (¬ SameShape ring [] → (m.addLinearRing fuel ring kind).2 = .ok true) := by
  obtain ⟨es, h1, h2⟩ := C15_decomposes fuel m ring kind hf ho
  have h3 := C59_nothing hf
  rw [h1] at h3
  rcases h2 with ⟨rfl, h2⟩ | ⟨hne, m', new, h2, -⟩
  · exact ⟨fun _ => h2, fun h => absurd (h3.1 rfl) h⟩
  · refine ⟨fun h => ?_, fun _ => by rw [h2]⟩
    have := h3.2 h
    cases this
    exact absurd rfl hne

/-! ## Examples -/

/-- A square; the same with another start, a point on a side, and a spike; the square the other way round; and a way to and fro. -/
def shapeSquare : LinearRing := [⟨0, 0⟩, ⟨4, 0⟩, ⟨4, 4⟩, ⟨0, 4⟩]
def shapeSpiked : LinearRing := [⟨4, 4⟩, ⟨2, 4⟩, ⟨0, 4⟩, ⟨-2, 4⟩, ⟨0, 4⟩, ⟨0, 0⟩, ⟨4, 0⟩]
def shapeTurned : LinearRing := [⟨0, 0⟩, ⟨0, 4⟩, ⟨4, 4⟩, ⟨4, 0⟩]
def shapeFlat : LinearRing := [⟨0, 0⟩, ⟨1, 1⟩, ⟨3, 2⟩, ⟨1, 1⟩]

theorem spiked_square : SameShape shapeSpiked shapeSquare := by
  have h1 : SameShape shapeSpiked [⟨4, 4⟩, ⟨0, 4⟩, ⟨-2, 4⟩, ⟨0, 4⟩, ⟨0, 0⟩, ⟨4, 0⟩] := .drop _ _ _ (onLine_iff.2 (by decide))
  have h2 : SameShape [⟨4, 4⟩, ⟨0, 4⟩, ⟨-2, 4⟩, ⟨0, 4⟩, ⟨0, 0⟩, ⟨4, 0⟩] [⟨4, 4⟩, ⟨0, 4⟩, ⟨0, 4⟩, ⟨0, 0⟩, ⟨4, 0⟩] :=
    shape_drop [⟨4, 4⟩] _ (onLine_back _ _)
  have h3 : SameShape [⟨4, 4⟩, ⟨0, 4⟩, ⟨0, 4⟩, ⟨0, 0⟩, ⟨4, 0⟩] [⟨4, 4⟩, ⟨0, 4⟩, ⟨0, 0⟩, ⟨4, 0⟩] := shape_dup [⟨4, 4⟩] _
  exact h1.trans (h2.trans (h3.trans (.rotate [⟨4, 4⟩, ⟨0, 4⟩] [⟨0, 0⟩, ⟨4, 0⟩])))

theorem flat_point : SameShape shapeFlat [] := by
  have h1 : SameShape shapeFlat [⟨0, 0⟩, ⟨1, 1⟩, ⟨1, 1⟩] := SameShape.trans (.rotate [⟨0, 0⟩] [⟨1, 1⟩, ⟨3, 2⟩, ⟨1, 1⟩])
    ((SameShape.drop ⟨1, 1⟩ ⟨3, 2⟩ [⟨1, 1⟩, ⟨0, 0⟩] (onLine_back _ _)).trans (.rotate [⟨1, 1⟩, ⟨1, 1⟩] [⟨0, 0⟩]))
  exact h1.trans ((shape_dup [⟨0, 0⟩] []).trans ((SameShape.drop _ _ [] (onLine_back _ _)).trans (.point _)))

/-- The two squares have the same edges, from different ones on. -/
example : edgesOf 30 shapeSquare = .ok [Edge.mk' ⟨0, 0⟩ ⟨4, 0⟩, Edge.mk' ⟨4, 0⟩ ⟨4, 4⟩, Edge.mk' ⟨4, 4⟩ ⟨0, 4⟩, Edge.mk' ⟨0, 4⟩ ⟨0, 0⟩]
    ∧ edgesOf 30 shapeSpiked = .ok [Edge.mk' ⟨4, 4⟩ ⟨0, 4⟩, Edge.mk' ⟨0, 4⟩ ⟨0, 0⟩, Edge.mk' ⟨0, 0⟩ ⟨4, 0⟩, Edge.mk' ⟨4, 0⟩ ⟨4, 4⟩] := by
  constructor <;> decide +kernel

/-- A square and the same the other way round do not have the same shape. -/
example : ¬ SameShape shapeSquare shapeTurned := by
  intro h
  have h1 : edgesOf 30 shapeSquare = .ok (edgesAround shapeSquare) := by decide +kernel
  have h2 : edgesOf 30 shapeTurned = .ok (edgesAround shapeTurned) := by decide +kernel
  exact absurd ((C59_shape (by decide) (by decide) h1 h2).1 h) (by decide +kernel)

/-- Nor has the square the shape of a point. -/
example : ¬ SameShape shapeSquare [] := fun h => absurd ((C59_nothing (fuel := 30) (by decide)).2 h) (by decide +kernel)

example : (Minimums.empty.addLinearRing 30 shapeFlat .subject).2 = .ok false := by
  rw [(C59_answer 30 _ shapeFlat .subject (by decide) fun p hp q hq => ?_).1 flat_point]
  have key : |p.x - q.x| ≤ 2 ^ 10 := by
    revert hp hq p q
    decide
  unfold NoOverflow
  have h1 : |((p.x - q.x : ℤ) : ℚ)| ≤ 2 ^ 10 := by exact_mod_cast key
  exact h1.trans (by unfold pow2; rw [if_pos (by decide)]; exact_mod_cast Nat.pow_le_pow_right (by decide) (by decide))

end Wagyu
