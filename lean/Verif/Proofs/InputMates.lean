import Verif.Proofs.Input

/-!
# The partners of the stored bounds, after any history of calls
-/

namespace Wagyu

open Spec

/-- Two bounds of one polygon with opposite unit winding deltas. -/
structure Opposed (b c : Bound) : Prop where
  unit : b.windingDelta = 1 ∨ b.windingDelta = -1
  kind : c.polygonKind = b.polygonKind
  delta : c.windingDelta = -b.windingDelta

theorem Opposed.congr {b c b' c' : Bound} (h : Opposed b c) (hb : SameInput b' b) (hc : SameInput c' c) : Opposed b' c' := by
  refine ⟨?_, ?_, ?_⟩
  · rw [hb.delta]; exact h.unit
  · rw [hb.kind, hc.kind]; exact h.kind
  · rw [hb.delta, hc.delta]; exact h.delta

structure MatesOk (m : Minimums) : Prop where
  input : InputOk m
  opened : ∀ v ∈ m.values, Opposed (m.bounds v.left) (m.bounds v.right)
  closed : ∀ b ∈ idsOf m.values, ∃ j, j ∈ idsOf m.values ∧ (m.bounds b).maximumBound = some j ∧ (m.bounds j).maximumBound = some b ∧ Opposed (m.bounds b) (m.bounds j)
    ∧ ∃ p, endOf (m.bounds b).edges = some p ∧ endOf (m.bounds j).edges = some p
  steep : ∀ b ∈ idsOf m.values, (m.bounds b).windingDelta = -1 → ∃ e, (m.bounds b).edges.getLast? = some e ∧ e.top.y < e.bottom.y

theorem MatesOk.empty : MatesOk Minimums.empty :=
  ⟨InputOk.empty, by simp [Minimums.empty], by simp [Minimums.empty, idsOf], by simp [Minimums.empty, idsOf]⟩

theorem mem_newIds {m m' : Minimums} {es : List Edge} {kind : PolygonKind} {new : List LocalMinimum} (hd : Decomposes m m' es kind new) (b : Nat) :
    b ∈ idsOf new ↔ m.nb ≤ b ∧ b < m'.nb := by
  have h := hd.ids.mem_iff (a := b)
  rw [List.mem_range'_1] at h
  have := hd.grows
  unfold idsOf
  rw [h]
  omega

theorem MatesOk.add {m m' : Minimums} {es : List Edge} {kind : PolygonKind} {new : List LocalMinimum} (hd : Decomposes m m' es kind new)
    (h : MatesOk m) (h' : InputOk m') : MatesOk m' := by
  have hids : ∀ b, b ∈ idsOf m'.values ↔ b ∈ idsOf m.values ∨ b ∈ idsOf new := by
    intro b
    rw [hd.values]
    unfold idsOf
    rw [List.flatMap_append, List.mem_append]
  have old : ∀ b ∈ idsOf m.values, m'.bounds b = m.bounds b := fun b hb => hd.old b (h.input.lt b hb)
  refine ⟨h', fun v hv => ?_, fun b hb => ?_, fun b hb => ?_⟩
  · rw [hd.values] at hv
    rcases List.mem_append.1 hv with hv | hv
    · rw [old _ (List.mem_flatMap.2 ⟨v, hv, by simp⟩), old _ (List.mem_flatMap.2 ⟨v, hv, by simp⟩)]
      exact h.opened v hv
    · have h1 := (mem_newIds hd v.left).1 (List.mem_flatMap.2 ⟨v, hv, by simp⟩)
      have h2 := (mem_newIds hd v.right).1 (List.mem_flatMap.2 ⟨v, hv, by simp⟩)
      have k1 := hd.kinds _ h1.1 h1.2
      have k2 := hd.kinds _ h2.1 h2.2
      have := (hd.minima v hv).delta
      exact ⟨k1.2, by rw [k1.1, k2.1], by omega⟩
  · rcases (hids b).1 hb with hb | hb
    · obtain ⟨j, h1, h2, h3, h4, h5⟩ := h.closed b hb
      refine ⟨j, (hids j).2 (.inl h1), ?_⟩
      rw [old b hb, old j h1]
      exact ⟨h2, h3, h4, h5⟩
    · have h1 := (mem_newIds hd b).1 hb
      obtain ⟨j, p, j1, j2, j3, j4, j5, j6, j7⟩ := hd.pairs b h1.1 h1.2
      have k1 := hd.kinds _ h1.1 h1.2
      have k2 := hd.kinds _ j1 j2
      exact ⟨j, (hids j).2 (.inr ((mem_newIds hd j).2 ⟨j1, j2⟩)), j3, j4, ⟨k1.2, by rw [k1.1, k2.1], j5⟩, p, j6, j7⟩
  · rcases (hids b).1 hb with hb | hb
    · rw [old b hb]; exact h.steep b hb
    · have h1 := (mem_newIds hd b).1 hb
      exact hd.steep b h1.1 h1.2

theorem MatesOk.congr {m m' : Minimums} (h : MatesOk m) (hv : m'.values = m.values) (hn : m'.nb = m.nb) (hb : ∀ b, SameInput (m'.bounds b) (m.bounds b)) :
    MatesOk m' := by
  refine ⟨h.input.congr hv hn fun b => (hb b).edges, fun v hv' => ?_, fun b hb' => ?_, fun b hb' => ?_⟩
  · rw [hv] at hv'; exact (h.opened v hv').congr (hb _) (hb _)
  · rw [hv] at hb' ⊢
    obtain ⟨j, h1, h2, h3, h4, h5⟩ := h.closed b hb'
    refine ⟨j, h1, ?_, ?_, h4.congr (hb _) (hb _), ?_⟩
    · rw [(hb b).partner]; exact h2
    · rw [(hb j).partner]; exact h3
    · rw [(hb b).edges, (hb j).edges]; exact h5
  · rw [hv] at hb'
    rw [(hb b).edges, (hb b).delta]; exact h.steep b hb'

theorem addLinearRing_mates {fuel : Nat} {m : Minimums} {ring : LinearRing} {kind : PolygonKind} (hm : MatesOk m)
    (hf : RingFits fuel ring) : MatesOk (m.addLinearRing fuel ring kind).1 := by
  have h' := addLinearRing_input (kind := kind) hm.input hf
  obtain ⟨es, -, ⟨-, h⟩ | ⟨-, m', new, h, -, hd⟩⟩ := C15_decomposes fuel m ring kind hf.1 fun p hp q hq => noOverflow_of_bounded (hf.2 p hp).1 (hf.2 q hq).1
  · rw [h]; exact hm
  · rw [h] at h' ⊢; exact hm.add hd h'

theorem addPolygonFrom_mates {fuel : Nat} {r : Bool} {w : Wagyu} {kind : PolygonKind} {rings : Polygon}
    (h : MatesOk w.minimums) (hp : ∀ ring ∈ rings, RingFits fuel ring) :
    MatesOk (w.addPolygonFrom fuel r kind rings).1.minimums := by
  induction rings generalizing r w with
  | nil => exact h
  | cons ring rings ih =>
    have h1 : MatesOk (w.addLinearRing fuel ring kind).1.minimums := addLinearRing_mates h (hp ring (by simp))
    rw [Wagyu.addPolygonFrom]
    revert h1
    generalize w.addLinearRing fuel ring kind = x
    intro h1
    obtain ⟨w', e | b⟩ := x
    · exact h1
    · exact ih h1 fun ring hr => hp ring (by simp [hr])

/-- After any history of calls. -/
theorem calls_mates (fuel : Nat) : ∀ (cs : List Call) (w : Wagyu) (held : List LinearRing),
    ((∀ ring ∈ held, RingFits fuel ring) → MatesOk w.minimums) →
    (∀ ring ∈ heldAfter held cs, RingFits fuel ring) → MatesOk (w.calls fuel cs).1.minimums := by
  intro cs
  induction cs with
  | nil => intro w held h hp; exact h hp
  | cons c cs ih =>
    intro w held h hp
    rw [Wagyu.calls]
    cases c with
    | addLinearRing ring kind =>
      refine ih _ (held ++ [ring]) (fun hh => ?_) hp
      exact addLinearRing_mates (h fun r hr => hh r (by simp [hr])) (hh ring (by simp))
    | addPolygon polygon kind =>
      refine ih _ (held ++ polygon) (fun hh => ?_) hp
      exact addPolygonFrom_mates (h fun r hr => hh r (by simp [hr])) fun r hr => hh r (by simp [hr])
    | clear =>
      refine ih _ [] (fun _ => ?_) hp
      simp only [Wagyu.call, clear_eq]
      exact MatesOk.empty
    | execute op sf cf =>
      refine ih _ held (fun hh => ?_) hp
      obtain ⟨e1, e3, _, e2⟩ := execute_input fuel w op sf cf
      exact (h hh).congr e1 e3 e2

end Wagyu
