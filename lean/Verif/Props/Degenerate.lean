import Verif.Props.RepeatedPoints
import Verif.Props.Shape

/-!
# C62: rings without shape are ignored
-/

namespace Wagyu

open Spec

/-- The second polygon is the first one without some rings that have the shape of a point. -/
inductive Thinned : Polygon → Polygon → Prop
  | nil : Thinned [] []
  | keep (ring : LinearRing) {polygon thinned : Polygon} : Thinned polygon thinned → Thinned (ring :: polygon) (ring :: thinned)
  | drop {ring : LinearRing} {polygon thinned : Polygon} : SameShape ring [] → Thinned polygon thinned → Thinned (ring :: polygon) thinned

/-- The second history is the first one without some rings that have the shape of a point. -/
inductive Tidied : List Call → List Call → Prop
  | nil : Tidied [] []
  | keep (c : Call) {cs cs' : List Call} : Tidied cs cs' → Tidied (c :: cs) (c :: cs')
  | polygon {polygon thinned : Polygon} (kind : PolygonKind) {cs cs' : List Call} : Thinned polygon thinned → Tidied cs cs' →
      Tidied (.addPolygon polygon kind :: cs) (.addPolygon thinned kind :: cs')
  | dropRing {ring : LinearRing} (kind : PolygonKind) {cs cs' : List Call} : SameShape ring [] → Tidied cs cs' →
      Tidied (.addLinearRing ring kind :: cs) cs'
  | dropPolygon {polygon : Polygon} (kind : PolygonKind) {cs cs' : List Call} : Thinned polygon [] → Tidied cs cs' →
      Tidied (.addPolygon polygon kind :: cs) cs'

/-- `False` is not the answer. -/
def Reply.notFalse : Reply → Bool
  | .added (.ok false) => false
  | _ => true

/-- **C62.** Adding a ring that has the shape of a point answers `False` and changes nothing, whatever its coordinates are. -/
theorem C62_ring (fuel : Nat) (w : Wagyu) {ring : LinearRing} (kind : PolygonKind) (h : SameShape ring []) (hf : 3 * ring.length + 3 ≤ fuel) :
    w.addLinearRing fuel ring kind = (w, .ok false) := by
  unfold Wagyu.addLinearRing Minimums.addLinearRing
  rw [(C59_nothing hf).2 h]

theorem addPolygonFrom_thinned {fuel : Nat} (kind : PolygonKind) {polygon thinned : Polygon} (h : Thinned polygon thinned)
    (hf : ∀ ring ∈ polygon, 3 * ring.length + 3 ≤ fuel) (w : Wagyu) (r : Bool) :
    w.addPolygonFrom fuel r kind polygon = w.addPolygonFrom fuel r kind thinned := by
  induction h generalizing w r with
  | nil => rfl
  | keep ring _ ih =>
    rw [Wagyu.addPolygonFrom, Wagyu.addPolygonFrom]
    split
    · rfl
    · exact ih (fun ring hr => hf ring (by simp [hr])) _ _
  | drop h _ ih =>
    rw [Wagyu.addPolygonFrom, C62_ring fuel w kind h (hf _ (by simp))]
    exact ih (fun ring hr => hf ring (by simp [hr])) _ _

/-- **C62.** Adding a polygon is adding it without its rings that have the shape of a point; the answer is the same. -/
theorem C62_polygon (fuel : Nat) (w : Wagyu) {polygon thinned : Polygon} (kind : PolygonKind) (h : Thinned polygon thinned)
    (hf : ∀ ring ∈ polygon, 3 * ring.length + 3 ≤ fuel) : w.addPolygon fuel polygon kind = w.addPolygon fuel thinned kind :=
  addPolygonFrom_thinned kind h hf w false

/-- **C62.** Leaving out of a history rings that have the shape of a point leaves the same object and changes no reply, but that there may
be fewer answers `False`: every `intersect`, `unite`, `subtract` and `xor` has the same result. -/
theorem C62_history (fuel : Nat) (w : Wagyu) {cs cs' : List Call} (h : Tidied cs cs')
    (hf : ∀ c ∈ cs, ∀ ring ∈ c.rings, 3 * ring.length + 3 ≤ fuel) :
    (w.calls fuel cs).1 = (w.calls fuel cs').1
    ∧ (w.calls fuel cs).2.filter Reply.notFalse = (w.calls fuel cs').2.filter Reply.notFalse := by
  induction h generalizing w with
  | nil => exact ⟨rfl, rfl⟩
  | keep c _ ih =>
    have := ih (w.call fuel c).1 fun c hc => hf c (by simp [hc])
    rw [Wagyu.calls, Wagyu.calls]
    refine ⟨this.1, ?_⟩
    simp only [List.filter_cons, this.2]
  | @polygon polygon thinned kind cs cs' ht _ ih =>
    have hc : w.call fuel (.addPolygon polygon kind) = w.call fuel (.addPolygon thinned kind) := by
      unfold Wagyu.call
      simp only
      rw [C62_polygon fuel w kind ht (hf (.addPolygon polygon kind) (by simp))]
    have := ih (w.call fuel (.addPolygon thinned kind)).1 fun c hc => hf c (by simp [hc])
    rw [Wagyu.calls, Wagyu.calls, hc]
    refine ⟨this.1, ?_⟩
    simp only [List.filter_cons, this.2]
  | @dropRing ring kind cs cs' hs _ ih =>
    have hc : w.call fuel (.addLinearRing ring kind) = (w, .added (.ok false)) := by
      unfold Wagyu.call
      simp only
      rw [C62_ring fuel w kind hs (hf (.addLinearRing ring kind) (by simp) _ (by simp [Call.rings]))]
    have := ih w fun c hc => hf c (by simp [hc])
    rw [Wagyu.calls, hc]
    exact ⟨this.1, this.2⟩
  | @dropPolygon polygon kind cs cs' ht _ ih =>
    have hc : w.call fuel (.addPolygon polygon kind) = (w, .added (.ok false)) := by
      unfold Wagyu.call
      simp only
      rw [C62_polygon fuel w kind ht (hf (.addPolygon polygon kind) (by simp))]
      rfl
    have := ih w fun c hc => hf c (by simp [hc])
    rw [Wagyu.calls, hc]
    exact ⟨this.1, this.2⟩

/-- A ring whose points are on one line has the shape of a point. -/
theorem shape_line : ∀ (ring : LinearRing), (∀ p ∈ ring, ∀ q ∈ ring, ∀ r ∈ ring, Collinear (toQ p) (toQ q) (toQ r)) → SameShape ring []
  | [], _ => .refl _
  | [a], _ => .point a
  | a :: b :: l, h => by
    refine (SameShape.drop a b l (h a (by simp) b (by simp) _ ?_)).trans (shape_line (a :: l) ?_)
    · cases l with
      | nil => simp
      | cons c l => simp
    · intro p hp q hq r hr
      have key : ∀ x ∈ a :: l, x ∈ a :: b :: l := by
        intro x hx
        rcases List.mem_cons.1 hx with rfl | hx
        · simp
        · simp [hx]
      exact h p (key p hp) q (key q hq) r (key r hr)
termination_by ring => ring.length

/-- **C62.** Adding a ring whose points are all on one line answers `False` and changes nothing. -/
theorem C62_line (fuel : Nat) (w : Wagyu) {ring : LinearRing} (kind : PolygonKind)
    (h : ∀ p ∈ ring, ∀ q ∈ ring, ∀ r ∈ ring, Collinear (toQ p) (toQ q) (toQ r)) (hf : 3 * ring.length + 3 ≤ fuel) :
    w.addLinearRing fuel ring kind = (w, .ok false) :=
  C62_ring fuel w kind (shape_line ring h) hf

/-! ## Examples -/

example (w : Wagyu) : w.addLinearRing 40 [⟨0, 0⟩, ⟨2, 4⟩, ⟨1, 2⟩, ⟨3, 6⟩, ⟨-1, -2⟩] .clip = (w, .ok false) :=
  C62_line 40 w .clip (fun p hp q hq r hr => onLine_iff.2 (by revert hr r; revert hq q; revert hp p; decide)) (by decide)


/-- A square and a way to and fro; two squares; a way to and fro alone.  Only the squares matter. -/
def untidyCalls : List Call := [.addPolygon [shapeSquare, shapeFlat] .subject, .addLinearRing shapeFlat .clip,
  .addPolygon [[], [⟨2, 2⟩, ⟨6, 2⟩, ⟨6, 6⟩]] .clip, .addPolygon [shapeFlat, []] .clip]
def tidyCalls : List Call := [.addPolygon [shapeSquare] .subject, .addPolygon [[⟨2, 2⟩, ⟨6, 2⟩, ⟨6, 6⟩]] .clip]

theorem untidy_tidy : Tidied untidyCalls tidyCalls :=
  .polygon _ (.keep _ (.drop flat_point .nil)) (.dropRing _ flat_point (.polygon _ (.drop (.refl _) (.keep _ .nil))
    (.dropPolygon _ (.drop flat_point (.drop (.refl _) .nil)) .nil)))

example : (((Wagyu.new false).calls 100 untidyCalls).1.execute 100 .intersection .evenOdd .evenOdd).2
    = .ok [[[⟨4, 4⟩, ⟨2, 2⟩, ⟨4, 2⟩, ⟨4, 4⟩]]] := by
  rw [(C62_history 100 _ untidy_tidy (by decide)).1]
  decide +kernel

example : ((Wagyu.new false).calls 100 untidyCalls).2.map Reply.notFalse = [true, false, true, false] := by decide +kernel

end Wagyu
