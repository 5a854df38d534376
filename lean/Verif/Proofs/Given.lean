import Verif.Proofs.HotLoop
import Verif.Proofs.Visits

/-!
# The state in which the sweeps start
-/

namespace Wagyu

open Spec

/-- A box that contains all points of the rings. -/
def Extent.Holds (F : Extent) (rings : List LinearRing) : Prop := ∀ ring ∈ rings, ∀ p ∈ ring, F.P p

theorem idsOf_perm {l l' : List LocalMinimum} (h : l.Perm l') : (idsOf l).Perm (idsOf l') := h.flatMap_right _

theorem given_of {fuel : Nat} {rev : Bool} {cs : List Call} {F : Extent} {w : Wagyu} (hw : ((Wagyu.new rev).calls fuel cs).1 = w)
    (hfit : ∀ ring ∈ heldRings cs, RingFits fuel ring) (hF : F.Holds (heldRings cs)) :
    Given F (fun b => (w.minimums.bounds b).edges) w.minimums.values := by
  have h1 : InputOk w.minimums := by
    rw [← hw]
    exact calls_input fuel cs (Wagyu.new rev) [] (fun _ => InputOk.empty) hfit
  have h2 : MInv (fun x => F.X x ∧ |x| ≤ 2 ^ 52) (fun y => F.Y y ∧ |y| ≤ 2 ^ 52) w.minimums := by
    rw [← hw]
    refine calls_xy fuel cs (Wagyu.new rev) [] (fun _ => MInv.empty) fun ring hr p hp => ?_
    have a := hF ring hr p hp
    have b := (hfit ring hr).2 p hp
    exact ⟨⟨a.1, b.1⟩, a.2, b.2⟩
  have hids : ∀ b ∈ idsOf w.minimums.values, ∃ v ∈ w.minimums.values, b = v.left ∨ b = v.right := by
    intro b hb
    obtain ⟨v, hv, hb⟩ := List.mem_flatMap.1 hb
    exact ⟨v, hv, by simpa using hb⟩
  refine ⟨fun b hb => ?_, fun m hm => (h1.mins m hm).start, fun m hm => (h1.mins m hm).rises, fun m hm => (h1.mins m hm).horizontal,
    fun b _ e he => ?_, fun b _ e he => ?_, h1.ids⟩
  · obtain ⟨v, hv, rfl | rfl⟩ := hids b hb
    · exact (h1.mins v hv).left
    · exact (h1.mins v hv).right
  · obtain ⟨⟨a, b⟩, c, d⟩ := h2.edges _ e he
    exact ⟨⟨a.1, b.1⟩, c.1, d.1⟩
  · obtain ⟨⟨a, b⟩, c, d⟩ := h2.edges _ e he
    exact ⟨a.2, b.2, c.2, d.2⟩

theorem sum_idsOf (f : Nat → Nat) (l : List LocalMinimum) :
    ((idsOf l).map f).sum = (l.map fun m => f m.left + f m.right).sum := by
  induction l with
  | nil => rfl
  | cons m l ih =>
    rw [idsOf_cons, List.map_cons, List.map_cons, List.map_cons, List.sum_cons, List.sum_cons, List.sum_cons, ih]
    omega

/-- The first scanline of an object (only an upper bound is needed). -/
def topmost (m : Minimums) : Int := (m.scanbeams.getLast?).getD 0

theorem le_topmost (m : Minimums) : ∀ v ∈ m.scanbeams, v ≤ topmost m := by
  intro v hv
  have hs := scanbeams_sorted m
  unfold topmost
  rcases List.eq_nil_or_concat m.scanbeams with h | ⟨l, x, h⟩
  · rw [h] at hv; cases hv
  · simp only [List.concat_eq_append] at h
    rw [h, List.pairwise_append] at hs
    rw [h] at hv ⊢
    simp only [List.getLast?_append, List.getLast?_singleton, Option.some_or, Option.getD_some]
    rcases List.mem_append.1 hv with hv | hv
    · exact hs.2.2 v hv x (by simp)
    · rw [List.mem_singleton.1 hv]

theorem hot_start {F : Extent} {m : Minimums} {fuel : Nat} (hG : Given F (fun b => (m.bounds b).edges) m.values) :
    HotI F (fun b => (m.bounds b).edges) m.values (topmost m) (sortedMinimums m.values)
      { St.init fuel m.bounds with scan := m.scanbeams, abl := [] }
    ∧ Phi (fun b => (m.bounds b).edges) m.values (sortedMinimums m.values) { St.init fuel m.bounds with scan := m.scanbeams, abl := [] }
      = m.values.length + edgeCount m.bounds m.values := by
  have hp := sortedMinimums_perm m.values
  refine ⟨⟨⟨fun _ => rfl, scanbeams_sorted m, le_topmost m, fun v hv => hp.mem_iff.1 hv, ?_, ?_, ?_, ?_⟩, ?_, ?_⟩, ?_⟩
  · exact (idsOf_perm hp).nodup_iff.2 hG.nodup
  · refine (sortedMinimums_order m.values).imp ?_
    rintro a b (h | ⟨h, -⟩) <;> omega
  · intro b hb; cases hb
  · intro p hp; cases hp
  · intro v hv
    exact mem_scanbeams.2 ⟨v, hp.mem_iff.1 hv, rfl⟩
  · intro b hb; cases hb
  · unfold Phi edgeCount
    show m.scanbeams.length + _ = _
    rw [scanbeams_length, ← sum_idsOf (fun b => (m.bounds b).edges.length)]
    congr 2
    refine List.map_congr_left fun b hb => ?_
    unfold wt
    rw [if_pos ((idsOf_perm hp).mem_iff.2 hb)]

theorem tot_buildHotPixels {F : Extent} {m : Minimums} {fuel : Nat} (hG : Given F (fun b => (m.bounds b).edges) m.values) :
    Tot (buildHotPixels m.values m.scanbeams) (St.init fuel m.bounds) fun _ s' => (∀ p ∈ s'.hotPixels, F.P p)
      ∧ s'.hotPixels.Pairwise BelowOrLeft ∧ ∀ b, (s'.bounds b).edges = (m.bounds b).edges := by
  obtain ⟨h0, -⟩ := hot_start (fuel := fuel) hG
  unfold buildHotPixels
  refine Tot.bind (Tot.steady (hm := Steady.modify fun _ _ => rfl) (Post.modify ?_))
  refine Tot.bind ((Tot.loopM (Q := fun _ s' => ∃ Y rest, HotI F (fun b => (m.bounds b).edges) m.values Y rest s')
    (fun st s' => ∃ Y, HotI F (fun b => (m.bounds b).edges) m.values Y st.2 s')
    (fun st s' => Phi (fun b => (m.bounds b).edges) m.values st.2 s') ?_ ⟨_, h0⟩).imp ?_)
  · rintro ⟨y, rest⟩ s1 ⟨Y, hs⟩
    dsimp only at hs ⊢
    refine Tot.bind (Tot.steady (hm := Steady.gets fun _ _ => rfl) (Post.gets ?_))
    refine Tot.ite (fun _ => Tot.pure ⟨Y, rest, hs⟩) fun hne => ?_
    refine Tot.bind ((tot_hotPixelStep hG y hs hne).imp ?_)
    rintro r s2 ⟨-, h2, h3⟩
    exact Tot.pure ⟨⟨r.1, h2⟩, h3⟩
  · rintro _ s1 ⟨Y, rest, hs⟩
    refine tot_sortHotPixels.imp ?_
    rintro _ _ ⟨l, rfl, h1, h2⟩
    exact ⟨fun p hp => hs.hot p ((h2 p).1 hp), h1, hs.edges⟩

end Wagyu
