import Verif.Proofs.EdgesRepeatRing
import Verif.Spec.History

/-!
# C58: repeated points of a ring, and the first point given once more at the end, change nothing
-/

namespace Wagyu

open Spec

/-- The two lists of points are two ways to write down the same ring: one becomes the other when points are given twice in a row or
once instead, and when the first point is given once more at the end or not. -/
inductive SameTrace : LinearRing → LinearRing → Prop
  | repeated (before : List Point) (p : Point) (after : List Point) : SameTrace (before ++ p :: after) (before ++ p :: p :: after)
  | closed (p : Point) (rest : List Point) : SameTrace (p :: rest) (p :: rest ++ [p])
  | refl (ring : LinearRing) : SameTrace ring ring
  | symm {ring ring' : LinearRing} : SameTrace ring ring' → SameTrace ring' ring
  | trans {ring ring' ring'' : LinearRing} : SameTrace ring ring' → SameTrace ring' ring'' → SameTrace ring ring''

theorem dup_append (A : List Point) (p : Point) (B : List Point) : Dup A.length (A ++ p :: B) (A ++ p :: p :: B) := by
  refine ⟨by simp; omega, fun j hj hk => ?_, fun j hj hk => ?_⟩
  · unfold ringPt
    rw [List.getD_eq_getElem?_getD, List.getD_eq_getElem?_getD]
    rcases Nat.eq_or_lt_of_le hk with rfl | hk
    · simp
    · rw [List.getElem?_append_left hk, List.getElem?_append_left hk]
  · unfold ringPt
    rw [List.getD_eq_getElem?_getD, List.getD_eq_getElem?_getD, List.getElem?_append_right (by omega), List.getElem?_append_right (by omega),
      show j + 1 - A.length = (j - A.length) + 1 by omega, List.getElem?_cons_succ]

theorem dup_closed (p : Point) (l : List Point) : Dup (p :: l).length (p :: l) (p :: l ++ [p]) := by
  refine ⟨by simp, fun j hj _ => ?_, fun j hj hk => by omega⟩
  unfold ringPt
  rw [List.getD_eq_getElem?_getD, List.getD_eq_getElem?_getD, List.getElem?_append_left hj]

/-- A ring of at most two points has no edges however often they are repeated. -/
theorem edgesOf_short {pts pts' : List Point} (h : ¬ 3 ≤ pts.length) (hs : ∀ x ∈ pts', x ∈ pts) {fuel : Nat}
    (hf : 3 * pts'.length + 3 ≤ fuel) : edgesOf fuel pts' = .ok [] := by
  match pts, h with
  | [], _ => exact edgesOf_two (p := default) (q := default) (fun x hx => by cases hs x hx) hf
  | [p], _ => exact edgesOf_two (p := p) (q := p) (fun x hx => .inl (by simpa using hs x hx)) hf
  | [p, q], _ => exact edgesOf_two (p := p) (q := q) (fun x hx => by simpa using hs x hx) hf
  | _ :: _ :: _ :: _, h => exact absurd (by simp) h

/-- **C58.** The edges of a ring do not depend on how it is written down: repeated points and a repeated first point at the end change
nothing. -/
theorem C58_edges {ring ring' : LinearRing} (h : SameTrace ring ring') {fuel fuel' : Nat} (hf : 3 * ring.length + 3 ≤ fuel)
    (hf' : 3 * ring'.length + 3 ≤ fuel') : edgesOf fuel ring = edgesOf fuel' ring' := by
  induction h generalizing fuel fuel' with
  | repeated A p B =>
    rw [edgesOf_fuel hf (Nat.le_max_left _ (3 * (A ++ p :: p :: B).length + 3)),
      edgesOf_fuel hf' (Nat.le_max_right (3 * (A ++ p :: B).length + 3) _)]
    by_cases hn : 3 ≤ (A ++ p :: B).length
    · refine (edgesOf_dup (dup_append A p B) hn (by simp) (fun h => ?_) (Nat.le_max_right _ _)).symm
      simp at h
    · rw [C14_few_points _ _ (by omega), edgesOf_short hn (fun x hx => by simpa using hx) (Nat.le_max_right _ _)]
  | closed p l =>
    rw [edgesOf_fuel hf (Nat.le_max_left _ (3 * (p :: l ++ [p]).length + 3)),
      edgesOf_fuel hf' (Nat.le_max_right (3 * (p :: l).length + 3) _)]
    by_cases hn : 3 ≤ (p :: l).length
    · refine (edgesOf_dup (dup_closed p l) hn (Nat.le_refl _) (fun _ => ?_) (Nat.le_max_right _ _)).symm
      unfold ringPt
      rw [List.getD_eq_getElem?_getD, List.getElem?_append_right (Nat.le_refl _)]
      simp
    · rw [C14_few_points _ _ (by omega), edgesOf_short hn (fun x hx => by simp at hx ⊢; tauto) (Nat.le_max_right _ _)]
  | refl ring => exact edgesOf_fuel hf hf'
  | symm _ ih => exact (ih hf' hf).symm
  | trans _ _ ih1 ih2 => exact (ih1 hf (Nat.le_refl _)).trans (ih2 (Nat.le_refl _) hf')

/-- The rings that a call adds. -/
def Call.rings : Call → List LinearRing
  | .addLinearRing ring _ => [ring]
  | .addPolygon polygon _ => polygon
  | _ => []

/-- The same call, but for the way the rings are written down. -/
inductive SameCall : Call → Call → Prop
  | ring {ring ring' : LinearRing} (kind : PolygonKind) : SameTrace ring ring' →
      SameCall (.addLinearRing ring kind) (.addLinearRing ring' kind)
  | polygon {polygon polygon' : Polygon} (kind : PolygonKind) : List.Forall₂ SameTrace polygon polygon' →
      SameCall (.addPolygon polygon kind) (.addPolygon polygon' kind)
  | same (c : Call) : SameCall c c

theorem addLinearRing_trace {fuel : Nat} {ring ring' : LinearRing} (h : SameTrace ring ring') (hf : 3 * ring.length + 3 ≤ fuel)
    (hf' : 3 * ring'.length + 3 ≤ fuel) (w : Wagyu) (kind : PolygonKind) : w.addLinearRing fuel ring kind = w.addLinearRing fuel ring' kind := by
  unfold Wagyu.addLinearRing Minimums.addLinearRing
  rw [C58_edges h hf hf']

theorem addPolygonFrom_trace {fuel : Nat} (kind : PolygonKind) {polygon polygon' : Polygon} (h : List.Forall₂ SameTrace polygon polygon') :
    (∀ ring ∈ polygon, 3 * ring.length + 3 ≤ fuel) → (∀ ring ∈ polygon', 3 * ring.length + 3 ≤ fuel) → ∀ (w : Wagyu) (r : Bool),
      w.addPolygonFrom fuel r kind polygon = w.addPolygonFrom fuel r kind polygon' := by
  induction h with
  | nil => intro _ _ w r; rfl
  | cons h _ ih =>
    intro hf hf' w r
    rw [Wagyu.addPolygonFrom, Wagyu.addPolygonFrom, addLinearRing_trace h (hf _ (by simp)) (hf' _ (by simp))]
    split
    · rfl
    · exact ih (fun ring hr => hf ring (by simp [hr])) (fun ring hr => hf' ring (by simp [hr])) _ _

/-- **C58.** Two histories of an object that differ only in the way the rings are written down leave the same object and have the same
replies, those of `intersect`, `unite`, `subtract` and `xor` included. -/
theorem C58_same_history (fuel : Nat) (w : Wagyu) {cs cs' : List Call} (h : List.Forall₂ SameCall cs cs')
    (hf : ∀ c ∈ cs, ∀ ring ∈ c.rings, 3 * ring.length + 3 ≤ fuel) (hf' : ∀ c ∈ cs', ∀ ring ∈ c.rings, 3 * ring.length + 3 ≤ fuel) :
    w.calls fuel cs = w.calls fuel cs' := by
  induction h generalizing w with
  | nil => rfl
  | @cons c c' cs cs' h _ ih =>
    have hc : w.call fuel c = w.call fuel c' := by
      have f1 := hf c (by simp)
      have f2 := hf' c' (by simp)
      cases h with
      | ring kind ht =>
        unfold Wagyu.call
        simp only
        rw [addLinearRing_trace ht (f1 _ (by simp [Call.rings])) (f2 _ (by simp [Call.rings]))]
      | polygon kind ht =>
        unfold Wagyu.call Wagyu.addPolygon
        simp only
        rw [addPolygonFrom_trace kind ht f1 f2]
      | same c => rfl
    rw [Wagyu.calls, Wagyu.calls, hc]
    simp only
    rw [ih _ (fun c hc => hf c (by simp [hc])) (fun c hc => hf' c (by simp [hc]))]

/-! ## Examples -/

/-- A square, with a spike, written down without and with repeated points. -/
def plainRing : LinearRing := [⟨0, 0⟩, ⟨4, 0⟩, ⟨4, 4⟩, ⟨0, 4⟩, ⟨-2, 4⟩, ⟨0, 4⟩]
def stutteringRing : LinearRing := [⟨0, 0⟩, ⟨4, 0⟩, ⟨4, 0⟩, ⟨4, 4⟩, ⟨0, 4⟩, ⟨-2, 4⟩, ⟨0, 4⟩, ⟨0, 0⟩]

theorem plain_stuttering : SameTrace plainRing stutteringRing :=
  (SameTrace.repeated [⟨0, 0⟩] ⟨4, 0⟩ [⟨4, 4⟩, ⟨0, 4⟩, ⟨-2, 4⟩, ⟨0, 4⟩]).trans (.closed ⟨0, 0⟩ _)

example : edgesOf 40 plainRing = .ok [Edge.mk' ⟨0, 0⟩ ⟨4, 0⟩, Edge.mk' ⟨4, 0⟩ ⟨4, 4⟩, Edge.mk' ⟨4, 4⟩ ⟨0, 4⟩, Edge.mk' ⟨0, 4⟩ ⟨0, 0⟩]
    ∧ edgesOf 40 stutteringRing = edgesOf 40 plainRing :=
  ⟨by decide +kernel, (C58_edges plain_stuttering (by decide) (by decide)).symm⟩

example : List.Forall₂ SameCall
      [.addLinearRing plainRing .subject, .addPolygon [[⟨2, 2⟩, ⟨6, 2⟩, ⟨6, 6⟩]] .clip, .execute .intersection .evenOdd .evenOdd]
      [.addLinearRing stutteringRing .subject, .addPolygon [[⟨2, 2⟩, ⟨2, 2⟩, ⟨6, 2⟩, ⟨6, 6⟩]] .clip, .execute .intersection .evenOdd .evenOdd]
    ∧ (((Wagyu.new false).calls 100
        [.addLinearRing stutteringRing .subject, .addPolygon [[⟨2, 2⟩, ⟨2, 2⟩, ⟨6, 2⟩, ⟨6, 6⟩]] .clip]).1.execute 100 .intersection .evenOdd .evenOdd).2
      = .ok [[[⟨4, 4⟩, ⟨2, 2⟩, ⟨4, 2⟩, ⟨4, 4⟩]]] := by
  refine ⟨.cons (.ring _ plain_stuttering) (.cons (.polygon _ (.cons (.repeated [] ⟨2, 2⟩ _) .nil)) (.cons (.same _) .nil)), ?_⟩
  decide +kernel

end Wagyu
