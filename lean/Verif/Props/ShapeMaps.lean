import Verif.Props.Shape
import Mathlib.Tactic.LinearCombination

/-!
# C61: the edges of a ring move with the ring
-/

namespace Wagyu

open Spec

/-- The map of the plane that takes `x, y` to `a x + b y + e, c x + d y + g`: translations, mirror images, exchange of the axes, turns by
right angles, scaling, shearing. -/
def affine (a b c d e g : Int) (p : Point) : Point := ⟨a * p.x + b * p.y + e, c * p.x + d * p.y + g⟩

theorem onLine_affine {a b c d e g : Int} (h : a * d - b * c ≠ 0) (p q r : Point) :
    Collinear (toQ (affine a b c d e g p)) (toQ (affine a b c d e g q)) (toQ (affine a b c d e g r)) ↔ Collinear (toQ p) (toQ q) (toQ r) := by
  rw [onLine_iff, onLine_iff]
  unfold affine
  simp only
  constructor
  · intro hh
    have : (a * d - b * c) * ((p.y - q.y) * (q.x - r.x) - (p.x - q.x) * (q.y - r.y)) = 0 := by linear_combination hh
    rcases mul_eq_zero.1 this with h1 | h1
    · exact absurd h1 h
    · linarith
  · intro hh
    linear_combination (a * d - b * c) * hh

theorem shape_map {f : Point → Point} (hf : ∀ p q r, Collinear (toQ p) (toQ q) (toQ r) → Collinear (toQ (f p)) (toQ (f q)) (toQ (f r)))
    {l l' : List Point} (h : SameShape l l') : SameShape (l.map f) (l'.map f) := by
  induction h with
  | rotate u v => rw [List.map_append, List.map_append]; exact .rotate _ _
  | drop a b l h =>
    refine .drop _ _ _ ?_
    cases l with
    | nil => exact hf _ _ _ h
    | cons c l => exact hf _ _ _ h
  | point a => exact .point _
  | refl l => exact .refl _
  | symm _ ih => exact ih.symm
  | trans _ _ ih ih' => exact ih.trans ih'

theorem onLine_flip {p q r : Point} (h : Collinear (toQ p) (toQ q) (toQ r)) : Collinear (toQ r) (toQ q) (toQ p) := by
  rw [onLine_iff] at *; linarith

theorem shape_reverse {l l' : List Point} (h : SameShape l l') : SameShape l.reverse l'.reverse := by
  induction h with
  | rotate u v => rw [List.reverse_append, List.reverse_append]; exact .rotate _ _
  | drop a b l h =>
    rw [List.reverse_cons, List.reverse_cons, List.reverse_cons]
    cases l with
    | nil => exact (SameShape.drop b a [] (onLine_back b a)).trans ((SameShape.point b).trans (.symm (.point a)))
    | cons c l =>
      rw [List.reverse_cons, List.append_assoc, List.append_assoc, List.append_assoc]
      refine shape_drop l.reverse [a] ?_
      exact onLine_flip h
  | point a => exact .point _
  | refl l => exact .refl _
  | symm _ ih => exact ih.symm
  | trans _ _ ih ih' => exact ih.trans ih'

/-- Rings with the same straightened path have the same edges, up to where the list starts. -/
theorem edges_of_corners {ring corners : LinearRing} {fuel : Nat} (hf : 3 * ring.length + 3 ≤ fuel) (hs : SameShape ring corners)
    (h1 : corners.length ≠ 1) (h2 : corners.length ≠ 2)
    (h3 : ∀ a b c rest, corners ~r a :: b :: c :: rest → ¬ Collinear (toQ a) (toQ b) (toQ c)) :
    ∃ es, edgesOf fuel ring = .ok es ∧ es ~r edgesAround corners := by
  obtain ⟨d, b1, b2, b3, b4, b5⟩ := C59_around ring fuel hf
  refine ⟨_, b1, ?_⟩
  obtain ⟨n, hn⟩ := cornered_unique (b2.symm.trans hs) (cornered_of b4 b5) b3 (cornered_of h2 h3) h1
  exact ⟨n, by rw [edgesAround_rotate, hn]⟩

/-- **C61.** The edges of the image of a ring, under an affine map that is not degenerate, are those around the image of the vertices
that the edges of the ring go around; the ring has no edges exactly if its image has none. -/
theorem C61_affine (ring : LinearRing) (fuel : Nat) (hf : 3 * ring.length + 3 ≤ fuel) {a b c d e g : Int} (h : a * d - b * c ≠ 0) :
    ∃ corners es, edgesOf fuel ring = .ok (edgesAround corners) ∧ edgesOf fuel (ring.map (affine a b c d e g)) = .ok es
      ∧ es ~r edgesAround (corners.map (affine a b c d e g)) := by
  obtain ⟨corners, h1, h2, h3, h4, h5⟩ := C59_around ring fuel hf
  obtain ⟨es, k1, k2⟩ := edges_of_corners (ring := ring.map (affine a b c d e g)) (corners := corners.map (affine a b c d e g)) (fuel := fuel)
    (by rw [List.length_map]; exact hf) (shape_map (fun p q r => (onLine_affine h p q r).2) h2) (by rw [List.length_map]; exact h3)
    (by rw [List.length_map]; exact h4) (by
      rintro x y z rest ⟨n, hn⟩
      rw [← List.map_rotate] at hn
      match hr : corners.rotate n, hn with
      | p :: q :: r :: t, hn =>
        simp only [List.map_cons, List.cons.injEq] at hn
        obtain ⟨rfl, rfl, rfl, -⟩ := hn
        rw [onLine_affine h]
        exact h5 p q r t ⟨n, hr⟩)
  exact ⟨corners, es, h1, k1, k2⟩

/-- **C61.** The edges of a ring the other way round are those around the same vertices the other way round. -/
theorem C61_reversed (ring : LinearRing) (fuel : Nat) (hf : 3 * ring.length + 3 ≤ fuel) :
    ∃ corners es, edgesOf fuel ring = .ok (edgesAround corners) ∧ edgesOf fuel ring.reverse = .ok es ∧ es ~r edgesAround corners.reverse := by
  obtain ⟨corners, h1, h2, h3, h4, h5⟩ := C59_around ring fuel hf
  obtain ⟨es, k1, k2⟩ := edges_of_corners (ring := ring.reverse) (corners := corners.reverse) (fuel := fuel)
    (by rw [List.length_reverse]; exact hf) (shape_reverse h2) (by rw [List.length_reverse]; exact h3)
    (by rw [List.length_reverse]; exact h4) (by
      intro x y z rest hr hc
      have h6 := List.IsRotated.reverse hr
      rw [List.reverse_reverse] at h6
      refine h5 z y x rest.reverse (h6.trans ?_) (onLine_flip hc)
      simp only [List.reverse_cons, List.append_assoc, List.cons_append, List.nil_append]
      exact List.isRotated_append)
  exact ⟨corners, es, h1, k1, k2⟩

/-- **C61.** Straightening once is enough: the edges of the path around which the edges of a ring go are these edges again. -/
theorem C61_again (ring : LinearRing) (fuel : Nat) (hf : 3 * ring.length + 3 ≤ fuel) : ∃ corners, edgesOf fuel ring = .ok (edgesAround corners)
    ∧ ∀ fuel', 3 * corners.length + 3 ≤ fuel' → ∃ es, edgesOf fuel' corners = .ok es ∧ es ~r edgesAround corners := by
  obtain ⟨corners, h1, h2, h3, h4, h5⟩ := C59_around ring fuel hf
  exact ⟨corners, h1, fun fuel' hf' => edges_of_corners hf' (.refl _) h3 h4 h5⟩

/-! ## Examples -/

/-- Exchange of the axes, of a ring with a spike and a point on a side. -/
example : edgesOf 30 shapeSpiked = .ok (edgesAround [⟨4, 4⟩, ⟨0, 4⟩, ⟨0, 0⟩, ⟨4, 0⟩])
    ∧ edgesOf 30 (shapeSpiked.map (affine 0 1 1 0 10 (-3))) = .ok (edgesAround [⟨14, 1⟩, ⟨14, -3⟩, ⟨10, -3⟩, ⟨10, 1⟩])
    ∧ [⟨4, 4⟩, ⟨0, 4⟩, ⟨0, 0⟩, ⟨4, 0⟩].map (affine 0 1 1 0 10 (-3)) = [⟨14, 1⟩, ⟨14, -3⟩, ⟨10, -3⟩, ⟨10, 1⟩] := by
  refine ⟨?_, ?_, ?_⟩ <;> decide +kernel

example : ∃ es, edgesOf 30 shapeSpiked.reverse = .ok es ∧ es ~r edgesAround [⟨4, 0⟩, ⟨0, 0⟩, ⟨0, 4⟩, ⟨4, 4⟩] :=
  ⟨edgesAround [⟨4, 0⟩, ⟨0, 0⟩, ⟨0, 4⟩, ⟨4, 4⟩], by decide +kernel, by decide +kernel⟩

/-- A map that flattens the plane is no such map: the square loses its edges. -/
example : edgesOf 30 shapeSquare ≠ .ok [] ∧ edgesOf 30 (shapeSquare.map (affine 1 1 1 1 0 0)) = .ok [] := by
  constructor <;> decide +kernel

end Wagyu
