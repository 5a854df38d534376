import Verif.Props.LocalMinima
import Verif.Proofs.Stored

/-!
# What the sweeps rely on about the stored bounds
-/

namespace Wagyu

open Spec Step

/-- The edges of a bound: each starts where the previous one ended and does not go down, no two consecutive ones are
horizontal. -/
structure Path (es : List Edge) : Prop where
  ne : es ≠ []
  chain : es.IsChain fun e f => e.top = f.bottom ∧ ¬ (e.isHorizontal = true ∧ f.isHorizontal = true)
  le : ∀ e ∈ es, e.top.y ≤ e.bottom.y
  hor : ∀ e ∈ es, e.isHorizontal = true ↔ e.top.y = e.bottom.y
  slope : ∀ e ∈ es, e.isHorizontal = false → e.slope = intDiv (e.top.x - e.bottom.x) (e.top.y - e.bottom.y)

/-- A local minimum with its bounds. -/
structure MinOk (bounds : Nat → Bound) (v : LocalMinimum) : Prop where
  left : Path (bounds v.left).edges
  right : Path (bounds v.right).edges
  start : ∃ p, startOf (bounds v.left).edges = some p ∧ startOf (bounds v.right).edges = some p ∧ p.y = v.y
  rises : ∃ e l, (bounds v.left).edges = e :: l ∧ e.top.y < e.bottom.y
  horizontal : v.hasHorizontal = true ↔ ∃ e l, (bounds v.right).edges = e :: l ∧ e.top.y = e.bottom.y

def idsOf (vs : List LocalMinimum) : List Nat := vs.flatMap fun v => [v.left, v.right]

structure InputOk (m : Minimums) : Prop where
  mins : ∀ v ∈ m.values, MinOk m.bounds v
  ids : (idsOf m.values).Nodup
  lt : ∀ b ∈ idsOf m.values, b < m.nb

theorem path_min {B : Block} (h : B.Good) : Path B.minEdges := by
  have hr := h.rising_min
  have hc : B.dn.IsChain Linked := (List.isChain_append.1 h.chain).1
  refine ⟨hr.nonempty, ?_, hr.rises, ?_, ?_⟩
  · unfold Block.minEdges
    rw [List.isChain_map, List.isChain_reverse]
    refine hc.imp_of_mem_imp fun s t hs ht hst => ⟨hst.1.symm, fun ⟨h1, h2⟩ => ?_⟩
    exact no_hz_hz (h.okDn s hs) (h.okDn t ht) hst ((h.okDn s hs).hor.1 h2) ((h.okDn t ht).hor.1 h1)
  · intro e he
    obtain ⟨s, hs, rfl⟩ := List.mem_map.1 he
    exact (h.okDn s (by simpa using hs)).hor
  · intro e he hh
    obtain ⟨s, hs, rfl⟩ := List.mem_map.1 he
    have hok := h.okDn s (by simpa using hs)
    have hd : s.Dn := by
      rcases s.tri with a | a | a
      · exact a
      · exact absurd a (h.notUp s (by simpa using hs))
      · rw [dnE_horizontal, hok.hz a] at hh; cases hh
    obtain ⟨h1, h2, _⟩ := hok.dn hd
    have h3 := hok.wf.slope
    rw [h1, h2] at h3
    show s.e.slope = intDiv (s.a.x - s.b.x) (s.a.y - s.b.y)
    rw [h3]
    unfold Edge.mk'
    unfold Dn at hd
    rw [if_neg (by omega)]
    simp only
    rw [if_pos (by omega)]

theorem path_max {B : Block} (h : B.Good) : Path B.maxEdges := by
  have hr := h.rising_max
  have hc : B.up.IsChain Linked := (List.isChain_append.1 h.chain).2.1
  refine ⟨hr.nonempty, ?_, hr.rises, ?_, ?_⟩
  · unfold Block.maxEdges
    rw [List.isChain_map]
    refine hc.imp_of_mem_imp fun s t hs ht hst => ⟨hst.1, fun ⟨h1, h2⟩ => ?_⟩
    exact no_hz_hz (h.okUp s hs) (h.okUp t ht) hst ((h.okUp s hs).hor.1 h1) ((h.okUp t ht).hor.1 h2)
  · intro e he
    obtain ⟨s, hs, rfl⟩ := List.mem_map.1 he
    exact (h.okUp s hs).hor.trans eq_comm
  · intro e he hh
    obtain ⟨s, hs, rfl⟩ := List.mem_map.1 he
    have hok := h.okUp s hs
    have hd : s.Up := by
      rcases s.tri with a | a | a
      · exact absurd a (h.notDn s hs)
      · exact a
      · rw [upE_horizontal, hok.hz a] at hh; cases hh
    obtain ⟨h1, h2, _⟩ := hok.up hd
    have h3 := hok.wf.slope
    rw [h1, h2] at h3
    show s.e.slope = intDiv (s.b.x - s.a.x) (s.b.y - s.a.y)
    rw [h3]
    unfold Edge.mk'
    unfold Up at hd
    rw [if_neg (by omega)]
    simp only
    rw [if_pos (by omega)]

theorem minOk_of {kind : PolygonKind} {bounds : Nat → Bound} {id : Nat} {B : Block} {v : LocalMinimum} (h : MinOf kind bounds id B v)
    (hB : B.Good) : MinOk bounds v := by
  obtain ⟨hg, _, _⟩ := h.good hB
  obtain ⟨rfl, ⟨j, hj⟩, ⟨k, hk⟩⟩ := h
  have hp : Path (bounds (B.minimum id).left).edges ∧ Path (bounds (B.minimum id).right).edges := by
    unfold Block.minimum
    split
    · rw [hj, hk]; exact ⟨path_min hB, path_max hB⟩
    · rw [hj, hk]; exact ⟨path_max hB, path_min hB⟩
  refine ⟨hp.1, hp.2, hg.start, hg.leftRises, ⟨fun hh => ?_, ?_⟩⟩
  · obtain ⟨e, l, h1, h2, _⟩ := hg.horizontal hh
    exact ⟨e, l, h1, h2⟩
  · rintro ⟨e, l, h1, h2⟩
    by_contra hn
    obtain ⟨_, _, f, l', _, h3, h4, _⟩ := hg.noHorizontal (by simpa using hn)
    rw [h1] at h3
    cases h3
    omega

theorem MinOk.congr {f g : Nat → Bound} {v : LocalMinimum} (h : MinOk f v) (h1 : (g v.left).edges = (f v.left).edges)
    (h2 : (g v.right).edges = (f v.right).edges) : MinOk g v := by
  obtain ⟨a, b, c, d, e⟩ := h
  exact ⟨by rw [h1]; exact a, by rw [h2]; exact b, by rw [h1, h2]; exact c, by rw [h1]; exact d, by rw [h2]; exact e⟩

theorem InputOk.congr {m m' : Minimums} (h : InputOk m) (hv : m'.values = m.values) (hn : m'.nb = m.nb)
    (he : ∀ b, (m'.bounds b).edges = (m.bounds b).edges) : InputOk m' :=
  ⟨fun v hv' => (h.mins v (hv ▸ hv')).congr (he _) (he _), hv ▸ h.ids, by rw [hv, hn]; exact h.lt⟩

theorem InputOk.empty : InputOk Minimums.empty := ⟨by simp [Minimums.empty], by simp [Minimums.empty, idsOf], by simp [Minimums.empty, idsOf]⟩

/-- A ring the model can add. -/
def RingFits (fuel : Nat) (ring : LinearRing) : Prop :=
  3 * ring.length + 3 ≤ fuel ∧ ∀ p ∈ ring, |p.x| ≤ 2 ^ 52 ∧ |p.y| ≤ 2 ^ 52

theorem noOverflow_of_bounded {p q : Point} (hp : |p.x| ≤ 2 ^ 52) (hq : |q.x| ≤ 2 ^ 52) : NoOverflow p q := by
  unfold NoOverflow
  rw [abs_le] at *
  have h1 : (2 ^ 53 : ℚ) ≤ pow2 1023 := by
    unfold pow2
    rw [if_pos (by decide)]
    have : (2 ^ 53 : ℕ) ≤ 2 ^ (1023 : ℤ).toNat := Nat.pow_le_pow_right (by decide) (by decide)
    exact_mod_cast this
  have h2 : (-2 ^ 53 : ℤ) ≤ p.x - q.x := by omega
  have h3 : p.x - q.x ≤ (2 ^ 53 : ℤ) := by omega
  have h4 : (-2 ^ 53 : ℚ) ≤ ((p.x - q.x : ℤ) : ℚ) := by exact_mod_cast h2
  have h5 : ((p.x - q.x : ℤ) : ℚ) ≤ 2 ^ 53 := by exact_mod_cast h3
  constructor <;> linarith

theorem addLinearRing_input {fuel : Nat} {m : Minimums} {ring : LinearRing} {kind : PolygonKind} (hm : InputOk m)
    (hf : RingFits fuel ring) : InputOk (m.addLinearRing fuel ring kind).1 := by
  rcases addLinearRing_blocks fuel m ring kind hf.1 (fun p hp q hq => noOverflow_of_bounded (hf.2 p hp).1 (hf.2 q hq).1) with
    ⟨_, h2⟩ | ⟨es, ss, bl, m', h1, h2, h3, h4, h5, h6, h7, h8⟩
  · rw [h2]; exact hm
  · rw [h5]
    subst h8
    have hd := (decomposes_of_linked h6 h7 h3 h2).1
    have hids : ∀ b, b ∈ idsOf (bl.mapIdx fun i B => B.minimum (m.nb + 2 * i)) ↔ m.nb ≤ b ∧ b < m'.nb := by
      intro b
      have h := hd.ids.mem_iff (a := b)
      rw [List.mem_range'_1] at h
      have := hd.grows
      unfold idsOf
      rw [h]
      omega
    refine ⟨?_, ?_, ?_⟩
    · intro v hv
      rw [show (m', (Except.ok true : Except Err Bool)).1.values = _ from hd.values] at hv
      rcases List.mem_append.1 hv with hv | hv
      · refine (hm.mins v hv).congr ?_ ?_
        · rw [show (m', (Except.ok true : Except Err Bool)).1.bounds v.left = _ from hd.old _ (hm.lt _ (List.mem_flatMap.2 ⟨v, hv, by simp⟩))]
        · rw [show (m', (Except.ok true : Except Err Bool)).1.bounds v.right = _ from hd.old _ (hm.lt _ (List.mem_flatMap.2 ⟨v, hv, by simp⟩))]
      · obtain ⟨i, hi, rfl⟩ := List.mem_mapIdx.1 hv
        have hg : bl[i]? = some bl[i] := List.getElem?_eq_getElem hi
        exact minOk_of (kind := kind) (id := m.nb + 2 * i) (B := bl[i]) ⟨rfl, ⟨_, h6.min i _ hg⟩, ⟨_, h6.max i _ hg⟩⟩
          (h7 _ (List.getElem_mem hi))
    · show (idsOf m'.values).Nodup
      rw [hd.values, idsOf, List.flatMap_append, List.nodup_append]
      refine ⟨hm.ids, ?_, ?_⟩
      · exact (hd.ids.nodup_iff).2 (List.nodup_range' ..)
      · intro b hb c hc e
        subst e
        have := hm.lt b hb
        have := (hids b).1 hc
        omega
    · intro b hb
      change b ∈ idsOf m'.values at hb
      rw [hd.values, idsOf, List.flatMap_append] at hb
      rcases List.mem_append.1 hb with hb | hb
      · have := hm.lt b hb
        have := hd.grows
        show b < m'.nb
        omega
      · exact ((hids b).1 hb).2

theorem addPolygonFrom_input {fuel : Nat} {r : Bool} {w : Wagyu} {kind : PolygonKind} {rings : Polygon}
    (h : InputOk w.minimums) (hp : ∀ ring ∈ rings, RingFits fuel ring) :
    InputOk (w.addPolygonFrom fuel r kind rings).1.minimums := by
  induction rings generalizing r w with
  | nil => exact h
  | cons ring rings ih =>
    have h1 : InputOk (w.addLinearRing fuel ring kind).1.minimums := addLinearRing_input h (hp ring (by simp))
    rw [Wagyu.addPolygonFrom]
    revert h1
    generalize w.addLinearRing fuel ring kind = x
    intro h1
    obtain ⟨w', e | b⟩ := x
    · exact h1
    · exact ih h1 fun ring hr => hp ring (by simp [hr])

/-- After any history of calls. -/
theorem calls_input (fuel : Nat) : ∀ (cs : List Call) (w : Wagyu) (held : List LinearRing),
    ((∀ ring ∈ held, RingFits fuel ring) → InputOk w.minimums) →
    (∀ ring ∈ heldAfter held cs, RingFits fuel ring) → InputOk (w.calls fuel cs).1.minimums := by
  intro cs
  induction cs with
  | nil => intro w held h hp; exact h hp
  | cons c cs ih =>
    intro w held h hp
    rw [Wagyu.calls]
    cases c with
    | addLinearRing ring kind =>
      refine ih _ (held ++ [ring]) (fun hh => ?_) hp
      exact addLinearRing_input (h fun r hr => hh r (by simp [hr])) (hh ring (by simp))
    | addPolygon polygon kind =>
      refine ih _ (held ++ polygon) (fun hh => ?_) hp
      exact addPolygonFrom_input (h fun r hr => hh r (by simp [hr])) fun r hr => hh r (by simp [hr])
    | clear =>
      refine ih _ [] (fun _ => ?_) hp
      simp only [Wagyu.call, clear_eq]
      exact InputOk.empty
    | execute op sf cf =>
      refine ih _ held (fun hh => ?_) hp
      obtain ⟨e1, e3, _, e2⟩ := execute_input fuel w op sf cf
      exact (h hh).congr e1 e3 fun b => (e2 b).edges

end Wagyu
