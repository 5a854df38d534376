import Verif.Proofs.InputMates

/-!
# Every stored edge is an edge of a held ring
-/

namespace Wagyu

open Spec

/-- Every edge of the stored bounds is an edge of one of the rings, horizontal ones possibly reversed. -/
def EdgesFrom (fuel : Nat) (held : List LinearRing) (m : Minimums) : Prop :=
  ∀ v ∈ m.values, ∀ b, b = v.left ∨ b = v.right → ∀ e ∈ (m.bounds b).edges,
    ∃ ring ∈ held, ∃ es, edgesOf fuel ring = .ok es ∧ ∃ f ∈ es, SameEdge e f

theorem EdgesFrom.mono {fuel : Nat} {held held' : List LinearRing} {m : Minimums} (h : EdgesFrom fuel held m) (hh : held ⊆ held') :
    EdgesFrom fuel held' m := fun v hv b hb e he => by
  obtain ⟨r, hr, h⟩ := h v hv b hb e he
  exact ⟨r, hh hr, h⟩

theorem forall₂_mem_left {α β : Type} {R : α → β → Prop} : ∀ {l : List α} {l' : List β}, List.Forall₂ R l l' → ∀ a ∈ l, ∃ b ∈ l', R a b
  | _, _, .nil, _, h => by cases h
  | _, _, .cons h hs, a, ha => by
    rcases List.mem_cons.1 ha with rfl | ha
    · exact ⟨_, by simp, h⟩
    · obtain ⟨b, hb, hr⟩ := forall₂_mem_left hs a ha
      exact ⟨b, by simp [hb], hr⟩

theorem addLinearRing_from {fuel : Nat} {held : List LinearRing} {m : Minimums} {ring : LinearRing} {kind : PolygonKind} (hm : MatesOk m)
    (he : EdgesFrom fuel held m) (hf : RingFits fuel ring) : EdgesFrom fuel (held ++ [ring]) (m.addLinearRing fuel ring kind).1 := by
  obtain ⟨es, hes, ⟨-, h⟩ | ⟨-, m', new, h, -, hd⟩⟩ := C15_decomposes fuel m ring kind hf.1 fun p hp q hq => noOverflow_of_bounded (hf.2 p hp).1 (hf.2 q hq).1
  · rw [h]; exact he.mono (by simp)
  · rw [h]
    intro v hv b hb e hm'
    dsimp only at hv hm'
    rw [hd.values, List.mem_append] at hv
    rcases hv with hv | hv
    · have : b < m.nb := hm.input.lt b (List.mem_flatMap.2 ⟨v, hv, by rcases hb with rfl | rfl <;> simp⟩)
      rw [hd.old b this] at hm'
      exact he.mono (by simp) v hv b hb e hm'
    · obtain ⟨used, hp, h2⟩ := hd.edges
      have : e ∈ edgesOfMinima m'.bounds new := by
        unfold edgesOfMinima
        rw [List.mem_flatMap]
        refine ⟨v, hv, ?_⟩
        rcases hb with rfl | rfl <;> simp [hm']
      obtain ⟨f, hf, hr⟩ := forall₂_mem_left h2 e this
      exact ⟨ring, by simp, es, hes, f, hp.mem_iff.1 hf, hr⟩

theorem addPolygonFrom_from {fuel : Nat} {r : Bool} {held : List LinearRing} {w : Wagyu} {kind : PolygonKind} {rings : Polygon}
    (hm : MatesOk w.minimums) (h : EdgesFrom fuel held w.minimums) (hp : ∀ ring ∈ rings, RingFits fuel ring) :
    EdgesFrom fuel (held ++ rings) (w.addPolygonFrom fuel r kind rings).1.minimums := by
  induction rings generalizing r w held with
  | nil => exact h.mono (by simp)
  | cons ring rings ih =>
    have h1 : EdgesFrom fuel (held ++ [ring]) (w.addLinearRing fuel ring kind).1.minimums := addLinearRing_from hm h (hp ring (by simp))
    have h2 : MatesOk (w.addLinearRing fuel ring kind).1.minimums := addLinearRing_mates hm (hp ring (by simp))
    rw [Wagyu.addPolygonFrom]
    revert h1 h2
    generalize w.addLinearRing fuel ring kind = x
    intro h1 h2
    obtain ⟨w', e | b⟩ := x
    · exact h1.mono (by simp)
    · rw [show held ++ ring :: rings = (held ++ [ring]) ++ rings by simp]
      exact ih h2 h1 fun ring hr => hp ring (by simp [hr])

/-- After any history of calls. -/
theorem calls_from (fuel : Nat) : ∀ (cs : List Call) (w : Wagyu) (held : List LinearRing),
    ((∀ ring ∈ held, RingFits fuel ring) → MatesOk w.minimums ∧ EdgesFrom fuel held w.minimums) →
    (∀ ring ∈ heldAfter held cs, RingFits fuel ring) → EdgesFrom fuel (heldAfter held cs) (w.calls fuel cs).1.minimums := by
  intro cs
  induction cs with
  | nil => intro w held h hp; exact (h hp).2
  | cons c cs ih =>
    intro w held h hp
    rw [Wagyu.calls]
    cases c with
    | addLinearRing ring kind =>
      refine ih _ (held ++ [ring]) (fun hh => ?_) hp
      obtain ⟨h1, h2⟩ := h fun r hr => hh r (by simp [hr])
      exact ⟨addLinearRing_mates h1 (hh ring (by simp)), addLinearRing_from h1 h2 (hh ring (by simp))⟩
    | addPolygon polygon kind =>
      refine ih _ (held ++ polygon) (fun hh => ?_) hp
      obtain ⟨h1, h2⟩ := h fun r hr => hh r (by simp [hr])
      exact ⟨addPolygonFrom_mates h1 fun r hr => hh r (by simp [hr]), addPolygonFrom_from h1 h2 fun r hr => hh r (by simp [hr])⟩
    | clear =>
      refine ih _ [] (fun _ => ?_) hp
      simp only [Wagyu.call, clear_eq]
      exact ⟨MatesOk.empty, by simp [EdgesFrom, Minimums.empty]⟩
    | execute op sf cf =>
      refine ih _ held (fun hh => ?_) hp
      obtain ⟨e1, e3, _, e2⟩ := execute_input fuel w op sf cf
      obtain ⟨h1, h2⟩ := h hh
      refine ⟨h1.congr e1 e3 e2, fun v hv b hb e he => ?_⟩
      have he' : e ∈ (w.minimums.bounds b).edges := by rw [← (e2 b).edges]; exact he
      have hv' : v ∈ w.minimums.values := by rw [← e1]; exact hv
      exact h2 v hv' b hb e he'

end Wagyu
