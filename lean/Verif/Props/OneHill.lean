import Verif.Proofs.Convex
import Verif.Props.ShapeMinima

/-!
# C63: where a ring with one local minimum starts does not matter
-/

namespace Wagyu

open Spec Step

theorem starts_of {fuel : Nat} {ring : List Point} (hf : 3 * ring.length + 3 ≤ fuel) (ho : ∀ p ∈ ring, ∀ q ∈ ring, NoOverflow p q) :
    edgesOf fuel ring = .ok [] ∨ ∃ (es : List Edge) (rs : List Step) (bl : List Block), edgesOf fuel ring = .ok es
      ∧ toEdgesStartingOnLocalMaximum es = rs.map Step.e ∧ (rs.map Step.e) ~r es ∧ 3 ≤ rs.length ∧ Cyc rs ∧ (∀ B ∈ bl, B.Good)
      ∧ bl.flatMap Block.steps = rs := by
  obtain ⟨es, h1, h2⟩ := edgesOf_spec ring fuel hf
  rcases h2 with ⟨rfl, _⟩ | ⟨vs, hcv, hl, _, hfb⟩
  · exact .inl h1
  · right
    obtain ⟨ss, e1, e2, e3, e4, e5, e6⟩ := steps_of_along es vs hcv.along (fun e he => (hcv.wf e he).1)
      (fun e he => horizontal_of_wf (hcv.wf e he).1 (ho _ (hcv.wf e he).2.1 _ (hcv.wf e he).2.2)) hcv.np
    have hcyc : Cyc ss := by
      refine ⟨e2, e3, ?_⟩
      intro x hx y hy
      have hx' := e5 x hx
      have hy' := e4 y hy
      refine ⟨?_, ?_⟩
      · have := hcv.closed
        rw [hx', hy'] at this
        simpa using this.symm
      · intro hp
        refine hfb y.e x.e ?_ ?_ (parallel_comm hp)
        · rw [← e1, List.head?_map, Option.mem_def.1 hy]; rfl
        · rw [← e1, List.getLast?_map, Option.mem_def.1 hx]; rfl
    have hsl : 3 ≤ ss.length := by rw [← e1] at hl; simpa using hl
    obtain ⟨rs, r1, r2, r3, r4, r5⟩ := start_spec ss hcyc hsl
    obtain ⟨bl, m', first, last, a1, a2, a3, a4⟩ := addLoop_blocks .subject .empty rs.length rs rs.length [] .empty none none (le_refl _)
      (le_refl _) r3.ok r3.chain (by
        obtain ⟨d, l, rfl, hd⟩ := r4
        intro s hs
        simp only [List.head?_cons, Option.mem_def, Option.some.injEq] at hs
        subst hs
        exact hd) (fun _ => r5) (LInv.nil .subject .empty)
    refine ⟨es, rs, bl, h1, by rw [← e1, r1], ?_, by rw [r2.length_eq]; exact hsl, r3, a3, a4⟩
    rw [← e1, ← r1]
    unfold toEdgesStartingOnLocalMaximum
    rw [if_pos (by rw [List.length_map]; omega)]
    exact C32_is_rotation _ _

/-- A chain of steps goes along its edges. -/
theorem steps_along : ∀ (rs : List Step) (s : Step), (s :: rs).IsChain Linked → (∀ x ∈ s :: rs, x.Ok) →
    ∃ z, Along ((s :: rs).map Step.a ++ [z]) ((s :: rs).map Step.e)
  | [], s, _, ho => ⟨s.b, (ho s (by simp)).joins, trivial⟩
  | t :: rs, s, hc, ho => by
    obtain ⟨h1, h2⟩ := List.isChain_cons_cons.1 hc
    obtain ⟨z, hz⟩ := steps_along rs t h2 fun x hx => ho x (by simp [hx])
    refine ⟨z, ?_, hz⟩
    have := (ho s (by simp)).joins
    rw [h1.1] at this
    exact this

/-- The points of the steps are the vertices of the straightened ring. -/
theorem points_of_steps {rs : List Step} {corners : List Point} (hc : Cyc rs) (hl : 3 ≤ rs.length) (h : rs.map Step.e ~r edgesAround corners) :
    rs.map Step.a ~r corners := by
  obtain ⟨n, hn⟩ := h.symm
  rw [edgesAround_rotate] at hn
  have hlen := congrArg List.length hn
  rw [edgesAround_length, List.length_map] at hlen
  have key : rs.map Step.a = corners.rotate n := by
    match rs, hr : corners.rotate n, hl, hlen with
    | s :: rs, x :: u, hl, hlen =>
      obtain ⟨z, hz⟩ := steps_along rs s hc.chain hc.ok
      have a2 := (trace_around u x).along
      rw [hr] at hn
      rw [hn] at a2
      have hch : ((s :: rs).map Step.e).IsChain fun e f => ¬ EdgesParallel e f := by
        rw [List.isChain_map]
        exact hc.chain.imp fun _ _ h => h.2
      have hwf : ∀ e ∈ (s :: rs).map Step.e, e.Wf := by
        intro e he
        obtain ⟨t, ht, rfl⟩ := List.mem_map.1 he
        exact (hc.ok t ht).wf
      have := along_unique (by rw [List.length_map]; exact hl) hwf hch hz a2
      exact (List.append_inj this (by simp only [List.length_map]; exact hlen.symm)).1
    | s :: rs, [], _, hlen => simp at hlen
  rw [key]
  exact List.IsRotated.symm ⟨n, rfl⟩

/-- **C63.** Two rings of the same shape, with one local minimum: adding one is adding the other. The object afterwards is the same,
whatever point the ring starts at, and whatever points on its sides, repeated points and spikes it has. -/
theorem C63_ring (fuel : Nat) (w : Wagyu) {ring ring' : LinearRing} (kind : PolygonKind) (h : SameShape ring ring') (h1 : OneHill ring)
    (hf : 3 * ring.length + 3 ≤ fuel) (hf' : 3 * ring'.length + 3 ≤ fuel)
    (ho : ∀ p ∈ ring, ∀ q ∈ ring, NoOverflow p q) (ho' : ∀ p ∈ ring', ∀ q ∈ ring', NoOverflow p q) :
    w.addLinearRing fuel ring kind = w.addLinearRing fuel ring' kind := by
  have empty : ∀ {r : LinearRing}, edgesOf fuel r = .ok [] → w.addLinearRing fuel r kind = (w, .ok false) := by
    intro r hr
    unfold Wagyu.addLinearRing Minimums.addLinearRing
    rw [hr]
  rcases starts_of hf ho with e | ⟨es, rs, bl, a1, a2, a3, a4, a5, a6, a7⟩ <;>
    rcases starts_of hf' ho' with e' | ⟨es', rs', bl', b1, b2, b3, b4, b5, b6, b7⟩
  · rw [empty e, empty e']
  · have hr := ((C59_shape hf hf' e b1).1 h).perm.length_eq
    have := b3.perm.length_eq
    rw [List.length_map] at this
    rw [List.length_nil] at hr
    omega
  · have hr := ((C59_shape hf hf' a1 e').1 h).perm.length_eq
    have := a3.perm.length_eq
    rw [List.length_map] at this
    rw [List.length_nil] at hr
    omega
  · have hr := (C59_shape hf hf' a1 b1).1 h
    have hs : rs ~r rs' := steps_rotated a5 b5 (by omega) ((a3.trans hr).trans b3.symm)
    obtain ⟨corners, c1, c2, c3, c4, c5⟩ := C59_around ring fuel hf
    rw [a1] at c1
    cases c1
    have hp := points_of_steps a5 a4 a3
    obtain ⟨p, q, k1, k2, k3⟩ := hill_signs a5 ((h1.corners c2 (cornered_of c4 c5) c3).rotated hp.symm)
    rw [← a7] at k1
    have hbl := hill_block a6 k1 k2 k3
    rw [← a7, ← b7] at hs
    obtain ⟨u, v, rfl, rfl⟩ := blocks_rotated a6 b6 hs
    have huv : u ++ v = v ++ u := by
      rw [List.length_append] at hbl
      cases u with
      | nil => simp
      | cons x u =>
        cases v with
        | nil => simp
        | cons y v => simp only [List.length_cons] at hbl; omega
    rw [← huv, a7] at b7
    rw [← b7, ← a2] at b2
    have ne : ∀ {l : List Edge} {r : List Step}, r.map Step.e ~r l → 3 ≤ r.length → ∃ e l', l = e :: l' := by
      intro l r hr hl
      cases l with
      | nil =>
        have := hr.perm.length_eq
        rw [List.length_map, List.length_nil] at this
        omega
      | cons e l' => exact ⟨e, l', rfl⟩
    obtain ⟨e, l, he⟩ := ne a3 a4
    obtain ⟨e', l', he'⟩ := ne b3 b4
    rw [he'] at b1 b2
    rw [he] at a1 b2
    unfold Wagyu.addLinearRing Minimums.addLinearRing
    rw [b1, a1]
    simp only
    rw [b2]

/-- The same call, but for the way rings with one local minimum are written down. -/
inductive SameHillCall : Call → Call → Prop
  | ring {ring ring' : LinearRing} (kind : PolygonKind) : SameShape ring ring' → OneHill ring →
      SameHillCall (.addLinearRing ring kind) (.addLinearRing ring' kind)
  | polygon {polygon polygon' : Polygon} (kind : PolygonKind) :
      List.Forall₂ (fun ring ring' => SameShape ring ring' ∧ OneHill ring) polygon polygon' →
      SameHillCall (.addPolygon polygon kind) (.addPolygon polygon' kind)
  | same (c : Call) : SameHillCall c c

/-- The coordinates of a ring are close enough to one another for floats, and there is fuel for it. -/
def Fits (fuel : Nat) (ring : LinearRing) : Prop := 3 * ring.length + 3 ≤ fuel ∧ ∀ p ∈ ring, ∀ q ∈ ring, NoOverflow p q

theorem addPolygonFrom_hill {fuel : Nat} (kind : PolygonKind) {polygon polygon' : Polygon}
    (h : List.Forall₂ (fun ring ring' => SameShape ring ring' ∧ OneHill ring) polygon polygon') :
    (∀ ring ∈ polygon, Fits fuel ring) → (∀ ring ∈ polygon', Fits fuel ring) → ∀ (w : Wagyu) (r : Bool),
      w.addPolygonFrom fuel r kind polygon = w.addPolygonFrom fuel r kind polygon' := by
  induction h with
  | nil => intro _ _ w r; rfl
  | @cons a b l l' h _ ih =>
    intro hf hf' w r
    have f1 := hf a (by simp)
    have f2 := hf' b (by simp)
    rw [Wagyu.addPolygonFrom, Wagyu.addPolygonFrom, C63_ring fuel w kind h.1 h.2 f1.1 f2.1 f1.2 f2.2]
    split
    · rfl
    · exact ih (fun ring hr => hf ring (by simp [hr])) (fun ring hr => hf' ring (by simp [hr])) _ _

/-- **C63.** Two histories of an object that differ only in the way rings with one local minimum are written down, as in where they start,
leave the same object and have the same replies, those of `intersect`, `unite`, `subtract` and `xor` included. -/
theorem C63_same_history (fuel : Nat) (w : Wagyu) {cs cs' : List Call} (h : List.Forall₂ SameHillCall cs cs')
    (hf : ∀ c ∈ cs, ∀ ring ∈ c.rings, Fits fuel ring) (hf' : ∀ c ∈ cs', ∀ ring ∈ c.rings, Fits fuel ring) :
    w.calls fuel cs = w.calls fuel cs' := by
  induction h generalizing w with
  | nil => rfl
  | @cons c c' cs cs' h _ ih =>
    have hc : w.call fuel c = w.call fuel c' := by
      have f1 := hf c (by simp)
      have f2 := hf' c' (by simp)
      cases h with
      | ring kind hs h1 =>
        have g1 := f1 _ (List.mem_singleton.2 rfl)
        have g2 := f2 _ (List.mem_singleton.2 rfl)
        unfold Wagyu.call
        simp only
        rw [C63_ring fuel w kind hs h1 g1.1 g2.1 g1.2 g2.2]
      | polygon kind ht =>
        unfold Wagyu.call Wagyu.addPolygon
        simp only
        rw [addPolygonFrom_hill kind ht f1 f2]
      | same c => rfl
    rw [Wagyu.calls, Wagyu.calls, hc]
    simp only
    rw [ih _ (fun c hc => hf c (by simp [hc])) (fun c hc => hf' c (by simp [hc]))]

/-- **C63.** The rings of corners of convex polygons rise once and fall once. -/
theorem C63_convex {ring : List Point} (h : StrictlyConvex ring) : OneHill ring := by
  rcases h with h | h
  · exact hill_of_turns h
  · apply OneHill.reversed
    apply hill_of_turns
    intro p q r hs
    have := h r q p (by simpa using hs.reverse)
    unfold triangleTurn at *
    linarith

/-! ## Examples -/

example : OneHill [⟨0, 0⟩, ⟨5, -1⟩, ⟨8, 3⟩, ⟨4, 7⟩, ⟨-1, 4⟩] := by
  refine C63_convex (.inl fun p q r h => ?_)
  have key : ∀ t ∈ List.sublistsLen 3 ([⟨0, 0⟩, ⟨5, -1⟩, ⟨8, 3⟩, ⟨4, 7⟩, ⟨-1, 4⟩] : List Point),
      0 < triangleTurn (t.getD 0 default) (t.getD 1 default) (t.getD 2 default) := by decide +kernel
  exact key [p, q, r] (List.mem_sublistsLen.2 ⟨h, rfl⟩)

theorem hill_square : OneHill shapeSquare := ⟨[⟨0, 0⟩, ⟨4, 0⟩, ⟨4, 4⟩], [⟨0, 4⟩], .refl _, by decide, by decide⟩

/-- A ring with two local minima is no hill, and its starting point does matter. -/
example : (Minimums.empty.addLinearRing 40 twoTeeth .subject).1.values
    ≠ (Minimums.empty.addLinearRing 40 twoTeethTurned .subject).1.values := by decide +kernel

/-- The squares of the examples of C59, one of which has a spike, with a triangle written down from two of its vertices. -/
def hillCalls : List Call := [.addLinearRing shapeSquare .subject, .addPolygon [[⟨2, 2⟩, ⟨6, 2⟩, ⟨6, 6⟩]] .clip,
  .execute .intersection .evenOdd .evenOdd]
def hillCallsTurned : List Call := [.addLinearRing shapeSpiked .subject, .addPolygon [[⟨6, 6⟩, ⟨2, 2⟩, ⟨6, 2⟩]] .clip,
  .execute .intersection .evenOdd .evenOdd]

theorem hill_calls : (Wagyu.new false).calls 100 hillCalls = (Wagyu.new false).calls 100 hillCallsTurned := by
  refine C63_same_history 100 _ (.cons (.ring _ spiked_square.symm hill_square) (.cons (.polygon _ (.cons ⟨?_, ?_⟩ .nil)) (.cons (.same _) .nil)))
    ?_ ?_
  · exact .rotate [⟨2, 2⟩, ⟨6, 2⟩] [⟨6, 6⟩]
  · exact ⟨[⟨2, 2⟩, ⟨6, 2⟩, ⟨6, 6⟩], [], .refl _, by decide, by decide⟩
  · intro c hc ring hr
    refine ⟨?_, noOverflow_small ?_⟩
    · revert hr ring; revert hc c; decide
    · revert hr ring; revert hc c; decide
  · intro c hc ring hr
    refine ⟨?_, noOverflow_small ?_⟩
    · revert hr ring; revert hc c; decide
    · revert hr ring; revert hc c; decide

example : (((Wagyu.new false).calls 100 (hillCallsTurned.take 2)).1.execute 100 .intersection .evenOdd .evenOdd).2
    = .ok [[[⟨4, 4⟩, ⟨2, 2⟩, ⟨4, 2⟩, ⟨4, 4⟩]]] := by decide +kernel

end Wagyu
