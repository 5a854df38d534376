import Verif.Proofs.AddLoop
import Verif.Props.EdgeExtraction
import Verif.Spec.LocalMinima

/-!
# C15, C37: the local minima of a ring
-/

namespace Wagyu

open Spec Step

/-! ## Blocks -/

namespace Block

variable {B : Block}

theorem Good.okDn (h : B.Good) : ∀ s ∈ B.dn, s.Ok := fun s hs => h.ok s (by simp [Block.steps, hs])
theorem Good.okUp (h : B.Good) : ∀ s ∈ B.up, s.Ok := fun s hs => h.ok s (by simp [Block.steps, hs])

theorem Good.rising_min (h : B.Good) : Rising B.minEdges := by
  obtain ⟨d, l, hdl, hd⟩ := h.dn
  have hc : B.dn.IsChain Linked := (List.isChain_append.1 h.chain).1
  refine ⟨by simp [Block.minEdges, hdl], ?_, ?_, ?_⟩
  · unfold Block.minEdges
    rw [List.isChain_map, List.isChain_reverse]
    exact hc.imp fun a b hab => hab.1.symm
  · intro e he
    obtain ⟨s, hs, rfl⟩ := List.mem_map.1 he
    have := h.notUp s (by simpa using hs)
    show s.a.y ≤ s.b.y
    unfold Step.Up at this; omega
  · exact ⟨d.dnE, List.mem_map.2 ⟨d, by rw [hdl]; simp, rfl⟩, hd⟩

theorem Good.rising_max (h : B.Good) : Rising B.maxEdges := by
  obtain ⟨u, hu, hup⟩ := h.up
  have hc : B.up.IsChain Linked := (List.isChain_append.1 h.chain).2.1
  refine ⟨?_, ?_, ?_, ?_⟩
  · intro hn
    rw [Block.maxEdges, List.map_eq_nil_iff] at hn
    rw [hn] at hu; cases hu
  · unfold Block.maxEdges
    rw [List.isChain_map]
    exact hc.imp fun a b hab => hab.1
  · intro e he
    obtain ⟨s, hs, rfl⟩ := List.mem_map.1 he
    have := h.notDn s hs
    show s.b.y ≤ s.a.y
    unfold Step.Dn at this; omega
  · exact ⟨u.upE, List.mem_map.2 ⟨u, hu, rfl⟩, hup⟩

/-- Both bounds start at the same point. -/
theorem Good.start (h : B.Good) : ∃ p, startOf B.minEdges = some p ∧ startOf B.maxEdges = some p ∧ p.y = B.y := by
  obtain ⟨d, l, hdl, hd⟩ := h.dn
  obtain ⟨u, hu, _⟩ := h.up
  cases hr : B.dn.reverse with
  | nil => rw [List.reverse_eq_nil_iff] at hr; rw [hr] at hdl; cases hdl
  | cons s tl =>
    cases hup : B.up with
    | nil => rw [hup] at hu; cases hu
    | cons v l' =>
      have hlink := (List.isChain_append.1 h.chain).2.2 s (by
        rw [← List.reverse_reverse B.dn, hr]; simp) v (by rw [hup]; rfl)
      refine ⟨s.b, ?_, ?_, ?_⟩
      · simp [startOf, Block.minEdges, hr, Step.dnE]
      · simp [startOf, Block.maxEdges, hup, Step.upE, hlink.1]
      · simp [Block.y, Block.minEdges, hr, Step.dnE]

theorem Good.end_min (h : B.Good) (s : Step) (hs : B.steps.head? = some s) : endOf B.minEdges = some s.a := by
  obtain ⟨d, l, hdl, hd⟩ := h.dn
  rw [Block.steps, hdl] at hs
  simp only [List.cons_append, List.head?_cons, Option.some.injEq] at hs
  subst hs
  simp [endOf, Block.minEdges, hdl, Step.dnE]

theorem Good.last_min (h : B.Good) : ∃ e, B.minEdges.getLast? = some e ∧ e.top.y < e.bottom.y := by
  obtain ⟨d, l, hdl, hd⟩ := h.dn
  exact ⟨d.dnE, by simp [Block.minEdges, hdl], hd⟩

theorem Good.end_max (h : B.Good) (s : Step) (hs : B.steps.getLast? = some s) : endOf B.maxEdges = some s.b := by
  obtain ⟨u, hu, _⟩ := h.up
  have hne : B.up ≠ [] := by rintro hn; rw [hn] at hu; cases hu
  rw [Block.steps, List.getLast?_append_of_ne_nil _ hne] at hs
  simp [endOf, Block.maxEdges, List.getLast?_map, hs, Step.upE]

theorem same_dnE {s : Step} (h : s.Ok) (hn : ¬ s.Up) : SameEdge s.dnE s.e := by
  rcases s.tri with a | a | a
  · left
    obtain ⟨h1, h2, _⟩ := h.dn a
    exact Edge.ext' h1.symm h2.symm rfl
  · exact absurd a hn
  · rcases h.joins with ⟨h1, h2⟩ | ⟨h1, h2⟩
    · right
      refine ⟨by rw [h1, h2]; exact a, ?_⟩
      unfold Step.dnE
      rw [h1, h2]
    · left
      exact Edge.ext' h1.symm h2.symm rfl

theorem same_upE {s : Step} (h : s.Ok) (hn : ¬ s.Dn) : SameEdge s.upE s.e := by
  rcases s.tri with a | a | a
  · exact absurd a hn
  · left
    obtain ⟨h1, h2, _⟩ := h.up a
    exact Edge.ext' h1.symm h2.symm rfl
  · rcases h.joins with ⟨h1, h2⟩ | ⟨h1, h2⟩
    · left
      exact Edge.ext' h1.symm h2.symm rfl
    · right
      refine ⟨by rw [h1, h2]; exact a.symm, ?_⟩
      unfold Step.upE
      rw [h1, h2]

theorem forall₂_map_same {f : Step → Edge} : ∀ {l : List Step}, (∀ s ∈ l, SameEdge (f s) s.e) →
    List.Forall₂ SameEdge (l.map f) (l.map Step.e) := by
  intro l
  induction l with
  | nil => intro _; exact List.Forall₂.nil
  | cons s l ih => intro h; exact List.Forall₂.cons (h s (by simp)) (ih fun t ht => h t (by simp [ht]))

theorem Good.same_min (h : B.Good) : List.Forall₂ SameEdge B.minEdges (B.dn.reverse.map Step.e) :=
  forall₂_map_same fun s hs => same_dnE (h.okDn s (by simpa using hs)) (h.notUp s (by simpa using hs))

theorem Good.same_max (h : B.Good) : List.Forall₂ SameEdge B.maxEdges (B.up.map Step.e) :=
  forall₂_map_same fun s hs => same_upE (h.okUp s hs) (h.notDn s hs)

end Block

/-- The bounds of a minimum, in the final state. -/
structure MinOf (kind : PolygonKind) (bounds : Nat → Bound) (id : Nat) (B : Block) (v : LocalMinimum) : Prop where
  v : v = B.minimum id
  min : ∃ j, bounds id = B.minBound kind (some j)
  max : ∃ j, bounds (id + 1) = B.maxBound kind (some j)

theorem F64.not_lt_of_le {a b : F64} (h : F64.le a b = true) : ¬ F64.lt b a = true := by
  unfold F64.le at h
  cases a <;> cases b <;> simp [F64.lt, F64.eq] at h ⊢
  · rcases h with h | h
    · exact h.le
    · exact h.le
  · exact h
  · exact h
  · rename_i x y
    cases x <;> cases y <;> simp_all

theorem MinOf.good {kind : PolygonKind} {bounds : Nat → Bound} {id : Nat} {B : Block} {v : LocalMinimum} (h : MinOf kind bounds id B v)
    (hB : B.Good) : GoodMinimum bounds v ∧ Rising (bounds v.left).edges ∧ Rising (bounds v.right).edges := by
  obtain ⟨rfl, ⟨j, hj⟩, ⟨k, hk⟩⟩ := h
  obtain ⟨p, p1, p2, p3⟩ := hB.start
  cases hl : B.isLeft with
  | true =>
    have hv : B.minimum id = ⟨id, id + 1, B.y, B.hasH⟩ := by simp [Block.minimum, hl]
    rw [hv]
    refine ⟨?_, by simp only [hj]; exact hB.rising_min, by simp only [hk]; exact hB.rising_max⟩
    obtain ⟨s, l, hsl, hsd⟩ := hB.left hl
    refine { start := ⟨p, by simp only [hj]; exact p1, by simp only [hk]; exact p2, p3⟩, delta := ?_, leftSide := ?_, rightSide := ?_, leftRises := ?_, horizontal := ?_, noHorizontal := ?_ }
    · simp only [hj, hk]; rfl
    · simp [hj, Block.minBound, hl]
    · simp [hk, Block.maxBound, hl]
    · exact ⟨s.dnE, l.map Step.dnE, by simp [hj, Block.minBound, Bound.ofEdges, Block.minEdges, hsl], hsd⟩
    · intro hh
      obtain ⟨z, l', h1, h2, h3⟩ := hB.horL hl hh
      exact ⟨z.upE, l'.map Step.upE, by simp [hk, Block.maxBound, Bound.ofEdges, Block.maxEdges, h1], h2.symm, h3⟩
    · intro hh
      obtain ⟨s, l, u, l', h1, h2, h3, h4, h5⟩ := hB.noHL hl hh
      exact ⟨s.dnE, l.map Step.dnE, u.upE, l'.map Step.upE, by simp [hj, Block.minBound, Bound.ofEdges, Block.minEdges, h1],
        by simp [hk, Block.maxBound, Bound.ofEdges, Block.maxEdges, h3], h4, F64.not_lt_of_le h5⟩
  | false =>
    have hv : B.minimum id = ⟨id + 1, id, B.y, B.hasH⟩ := by simp [Block.minimum, hl]
    rw [hv]
    refine ⟨?_, by simp only [hk]; exact hB.rising_max, by simp only [hj]; exact hB.rising_min⟩
    obtain ⟨s, l, hsl, hsd⟩ := hB.right hl
    refine { start := ⟨p, by simp only [hk]; exact p2, by simp only [hj]; exact p1, p3⟩, delta := ?_, leftSide := ?_, rightSide := ?_, leftRises := ?_, horizontal := ?_, noHorizontal := ?_ }
    · simp only [hj, hk]; rfl
    · simp [hk, Block.maxBound, hl]
    · simp [hj, Block.minBound, hl]
    · exact ⟨s.upE, l.map Step.upE, by simp [hk, Block.maxBound, Bound.ofEdges, Block.maxEdges, hsl], hsd⟩
    · intro hh
      obtain ⟨z, l', h1, h2, h3⟩ := hB.horR hl hh
      exact ⟨z.dnE, l'.map Step.dnE, by simp [hj, Block.minBound, Bound.ofEdges, Block.minEdges, h1], h2, h3⟩
    · intro hh
      obtain ⟨s, l, u, l', h1, h2, h3, h4, h5⟩ := hB.noHR hl hh
      refine ⟨u.upE, l'.map Step.upE, s.dnE, l.map Step.dnE, by simp [hk, Block.maxBound, Bound.ofEdges, Block.maxEdges, h3],
        by simp [hj, Block.minBound, Bound.ofEdges, Block.minEdges, h1], h2, ?_⟩
      show ¬ F64.lt u.e.slope s.e.slope = true
      unfold F64.le at h5
      rw [Bool.or_eq_false_iff] at h5
      simp [h5.1]

/-- The edges of the minimum, up to order those of the block. -/
theorem MinOf.edges {kind : PolygonKind} {bounds : Nat → Bound} {id : Nat} {B : Block} {v : LocalMinimum} (h : MinOf kind bounds id B v)
    (hB : B.Good) : ∃ used, used.Perm (B.steps.map Step.e) ∧
      List.Forall₂ SameEdge ((bounds v.left).edges ++ (bounds v.right).edges) used := by
  obtain ⟨rfl, ⟨j, hj⟩, ⟨k, hk⟩⟩ := h
  have hp : (B.dn.reverse.map Step.e ++ B.up.map Step.e).Perm (B.steps.map Step.e) := by
    rw [Block.steps, List.map_append]
    exact ((List.reverse_perm B.dn).map _).append_right _
  cases hl : B.isLeft with
  | true =>
    refine ⟨B.dn.reverse.map Step.e ++ B.up.map Step.e, hp, ?_⟩
    simp only [Block.minimum, hl, if_true, hj, hk]
    exact List.rel_append hB.same_min hB.same_max
  | false =>
    refine ⟨B.up.map Step.e ++ B.dn.reverse.map Step.e, List.perm_append_comm.trans hp, ?_⟩
    simp only [Block.minimum, hl, Bool.false_eq_true, if_false, hj, hk]
    exact List.rel_append hB.same_max hB.same_min

theorem MinOf.sum {kind : PolygonKind} {bounds : Nat → Bound} {id : Nat} {B : Block} {v : LocalMinimum} (h : MinOf kind bounds id B v)
    {c : Point → Point → ℤ} (hc : AddsUpOnLines c) :
    boundSum c (bounds v.left) + boundSum c (bounds v.right) = (B.steps.map fun s => c s.a s.b).sum := by
  obtain ⟨rfl, ⟨j, hj⟩, ⟨k, hk⟩⟩ := h
  have h1 : boundSum c (B.minBound kind (some j)) = (B.dn.map fun s => c s.a s.b).sum := by
    simp only [boundSum, Block.minBound, Bound.ofEdges, Block.minEdges, List.map_map]
    rw [((List.reverse_perm B.dn).map _).sum_eq]
    induction B.dn with
    | nil => rfl
    | cons s l ih =>
      simp only [List.map_cons, List.sum_cons, Function.comp] at ih ⊢
      have := AddsUp.swap hc s.a s.b
      rw [mul_add, ih]
      show -1 * c s.b s.a + _ = _
      omega
  have h2 : boundSum c (B.maxBound kind (some k)) = (B.up.map fun s => c s.a s.b).sum := by
    simp only [boundSum, Block.maxBound, Bound.ofEdges, Block.maxEdges, List.map_map, one_mul]
    rfl
  rw [Block.steps, List.map_append, List.sum_append, ← h1, ← h2]
  cases hl : B.isLeft with
  | true => simp only [Block.minimum, hl, if_true, hj, hk]
  | false => simp only [Block.minimum, hl, Bool.false_eq_true, if_false, hj, hk]; ring

/-- Consecutive blocks meet. -/
theorem blocks_meet {bl : List Block} (hc : (bl.flatMap Block.steps).IsChain Linked) (i : Nat) (B C : Block)
    (hB : bl[i]? = some B) (hC : bl[i + 1]? = some C) (s t : Step) (hs : B.steps.getLast? = some s) (ht : C.steps.head? = some t) :
    s.b = t.a := by
  have hsplit : ∃ pre post, bl = pre ++ B :: C :: post := by
    obtain ⟨hi, rfl⟩ := List.getElem?_eq_some_iff.1 hB
    obtain ⟨hi', rfl⟩ := List.getElem?_eq_some_iff.1 hC
    refine ⟨bl.take i, bl.drop (i + 2), ?_⟩
    conv => lhs; rw [← List.take_append_drop i bl]
    rw [List.drop_eq_getElem_cons hi, List.drop_eq_getElem_cons hi']
  obtain ⟨pre, post, rfl⟩ := hsplit
  rw [List.flatMap_append, List.flatMap_cons, List.flatMap_cons] at hc
  have h1 := (List.isChain_append.1 hc).2.1
  have h2 := (List.isChain_append.1 h1).2.2
  exact (h2 s hs t (by rw [List.head?_append, ht]; rfl)).1

theorem Block.Good.steps_ne {B : Block} (h : B.Good) : B.steps ≠ [] := by
  obtain ⟨d, l, hdl, _⟩ := h.dn
  simp [Block.steps, hdl]

/-- Everything about the final state. -/
theorem decomposes_of_linked {kind : PolygonKind} {m m' : Minimums} {bl : List Block} {es : List Edge} (hL : Linked' kind m bl m')
    (hgood : ∀ B ∈ bl, B.Good) (hcyc : Cyc (bl.flatMap Block.steps)) (hperm : ((bl.flatMap Block.steps).map Step.e).Perm es) :
    Decomposes m m' es kind (bl.mapIdx fun i B => B.minimum (m.nb + 2 * i))
      ∧ ∀ c, AddsUpOnLines c → minimaSum c m'.bounds (bl.mapIdx fun i B => B.minimum (m.nb + 2 * i))
        = ((bl.flatMap Block.steps).map fun s => c s.a s.b).sum := by
  have hnb := hL.nb
  -- every minimum with its block
  have key : ∀ v ∈ bl.mapIdx (fun i B => B.minimum (m.nb + 2 * i)), ∃ id B, B ∈ bl ∧ MinOf kind m'.bounds id B v := by
    intro v hv
    obtain ⟨i, hi, rfl⟩ := List.mem_mapIdx.1 hv
    have hg : bl[i]? = some bl[i] := List.getElem?_eq_getElem hi
    exact ⟨m.nb + 2 * i, bl[i], List.getElem_mem hi, rfl, ⟨_, hL.min i _ hg⟩, ⟨_, hL.max i _ hg⟩⟩
  -- induction over the blocks
  have ind : ∀ (l : List Block) (off : Nat), (∀ i B, l[i]? = some B → MinOf kind m'.bounds (m.nb + 2 * (off + i)) B (B.minimum (m.nb + 2 * (off + i)))) →
      (∀ B ∈ l, B.Good) →
      (((l.mapIdx fun i B => B.minimum (m.nb + 2 * (off + i))).flatMap fun v => [v.left, v.right]).Perm (List.range' (m.nb + 2 * off) (2 * l.length)))
      ∧ (∃ used, used.Perm ((l.flatMap Block.steps).map Step.e)
          ∧ List.Forall₂ SameEdge (edgesOfMinima m'.bounds (l.mapIdx fun i B => B.minimum (m.nb + 2 * (off + i)))) used)
      ∧ ∀ c, AddsUpOnLines c → minimaSum c m'.bounds (l.mapIdx fun i B => B.minimum (m.nb + 2 * (off + i)))
        = ((l.flatMap Block.steps).map fun s => c s.a s.b).sum := by
    intro l
    induction l with
    | nil => intro off _ _; exact ⟨by simp, ⟨[], by simp, List.Forall₂.nil⟩, by simp [minimaSum]⟩
    | cons B l ih =>
      intro off hl hg
      obtain ⟨a1, ⟨used, a2, a3⟩, a4⟩ := ih (off + 1) (by
        intro i C hC
        have := hl (i + 1) C (by simpa using hC)
        rw [show off + 1 + i = off + (i + 1) by omega]; exact this) (fun C hC => hg C (by simp [hC]))
      have hB := hl 0 B rfl
      rw [Nat.add_zero] at hB
      have hidx : (B :: l).mapIdx (fun i B => B.minimum (m.nb + 2 * (off + i)))
          = B.minimum (m.nb + 2 * off) :: l.mapIdx (fun i B => B.minimum (m.nb + 2 * (off + 1 + i))) := by
        rw [List.mapIdx_cons]
        congr 1
        apply List.ext_getElem (by simp)
        intro i _ _
        simp only [List.getElem_mapIdx]
        congr 3
        omega
      rw [hidx]
      refine ⟨?_, ?_, ?_⟩
      · rw [List.flatMap_cons]
        have hr : List.range' (m.nb + 2 * off) (2 * (B :: l).length)
            = (m.nb + 2 * off) :: (m.nb + 2 * off + 1) :: List.range' (m.nb + 2 * (off + 1)) (2 * l.length) := by
          rw [show 2 * (B :: l).length = 2 * l.length + 1 + 1 by simp; omega, List.range'_succ, List.range'_succ]
          congr 2
        rw [hr]
        have h2 : ([(B.minimum (m.nb + 2 * off)).left, (B.minimum (m.nb + 2 * off)).right]).Perm [m.nb + 2 * off, m.nb + 2 * off + 1] := by
          unfold Block.minimum
          split
          · exact List.Perm.refl _
          · exact List.Perm.swap _ _ _
        exact h2.append a1
      · obtain ⟨u0, b1, b2⟩ := hB.edges (hg B (by simp))
        refine ⟨u0 ++ used, ?_, ?_⟩
        · rw [List.flatMap_cons, List.map_append]
          exact b1.append a2
        · unfold edgesOfMinima
          rw [List.flatMap_cons]
          exact List.rel_append b2 a3
      · intro c hc
        have := a4 c hc
        unfold minimaSum at this ⊢
        rw [List.map_cons, List.sum_cons, this, hB.sum hc, List.flatMap_cons, List.map_append, List.sum_append]
  obtain ⟨i1, ⟨used, i2, i3⟩, i4⟩ := ind bl 0 (by
    intro i B hi
    rw [Nat.zero_add]
    exact ⟨rfl, ⟨_, hL.min i B hi⟩, ⟨_, hL.max i B hi⟩⟩) hgood
  simp only [Nat.zero_add, Nat.mul_zero, Nat.add_zero] at i1 i3 i4
  -- the bounds of a given index
  have byIdx : ∀ i, m.nb ≤ i → i < m'.nb → ∃ k B, bl[k]? = some B ∧ (i = m.nb + 2 * k ∨ i = m.nb + 2 * k + 1) := by
    intro i h1 h2
    have hk : (i - m.nb) / 2 < bl.length := by omega
    exact ⟨(i - m.nb) / 2, bl[(i - m.nb) / 2], List.getElem?_eq_getElem hk, by omega⟩
  have hlen : 0 < bl.length := List.length_pos_iff.2 hL.ne
  refine ⟨⟨hL.values, by omega, hL.old, ?_, ⟨used, i2.trans hperm, i3⟩, ?_, ?_, ?_, ?_, ?_⟩, i4⟩
  · rw [show m'.nb - m.nb = 2 * bl.length by omega]; exact i1
  · intro v hv
    obtain ⟨id, B, hB, hm⟩ := key v hv
    exact (hm.good (hgood B hB)).2
  · intro v hv
    obtain ⟨id, B, hB, hm⟩ := key v hv
    exact (hm.good (hgood B hB)).1
  · intro i h1 h2
    obtain ⟨k, B, hB, rfl | rfl⟩ := byIdx i h1 h2
    · rw [hL.min k B hB]; exact ⟨rfl, Or.inr rfl⟩
    · rw [hL.max k B hB]; exact ⟨rfl, Or.inl rfl⟩
  · intro i h1 h2
    -- the maximum at the end of block `k` and the start of block `k'`
    have pair : ∀ k k' B C, bl[k]? = some B → bl[k']? = some C →
        (k' = k + 1 ∨ (k' = 0 ∧ k + 1 = bl.length)) →
        ∃ p, endOf (m'.bounds (m.nb + 2 * k + 1)).edges = some p ∧ endOf (m'.bounds (m.nb + 2 * k')).edges = some p
          ∧ (m'.bounds (m.nb + 2 * k + 1)).maximumBound = some (m.nb + 2 * k')
          ∧ (m'.bounds (m.nb + 2 * k')).maximumBound = some (m.nb + 2 * k + 1)
          ∧ (m'.bounds (m.nb + 2 * k + 1)).windingDelta = 1 ∧ (m'.bounds (m.nb + 2 * k')).windingDelta = -1 := by
      intro k k' B C hB hC hk
      have gB := hgood B (List.mem_of_getElem? hB)
      have gC := hgood C (List.mem_of_getElem? hC)
      obtain ⟨s, hs⟩ : ∃ s, B.steps.getLast? = some s := by
        cases h : B.steps.getLast? with
        | none => rw [List.getLast?_eq_none_iff] at h; exact absurd h gB.steps_ne
        | some s => exact ⟨s, rfl⟩
      obtain ⟨t, ht⟩ : ∃ t, C.steps.head? = some t := by
        cases h : C.steps.head? with
        | none => rw [List.head?_eq_none_iff] at h; exact absurd h gC.steps_ne
        | some s => exact ⟨s, rfl⟩
      have hst : s.b = t.a := by
        rcases hk with rfl | ⟨rfl, hk⟩
        · exact blocks_meet hcyc.chain k B C hB hC s t hs ht
        · refine (hcyc.closes s ?_ t ?_).1
          · have hbl : bl = bl.take k ++ [B] := by
              obtain ⟨hi, rfl⟩ := List.getElem?_eq_some_iff.1 hB
              have := List.take_concat_get' bl k hi
              rw [List.take_of_length_le (i := k + 1) (by omega)] at this
              exact this.symm
            rw [Option.mem_def, hbl, List.flatMap_append, List.flatMap_cons, List.flatMap_nil, List.append_nil,
              List.getLast?_append_of_ne_nil _ gB.steps_ne]
            exact hs
          · cases bl with
            | nil => simp at hC
            | cons C' rest =>
              simp only [List.getElem?_cons_zero, Option.some.injEq] at hC
              subst hC
              rw [Option.mem_def, List.flatMap_cons, List.head?_append, ht]; rfl
      refine ⟨s.b, ?_, ?_, ?_, ?_, ?_, ?_⟩
      · rw [hL.max k B hB]; exact gB.end_max s hs
      · rw [hL.min k' C hC, hst]; exact gC.end_min t ht
      · rw [hL.max k B hB]
        simp only [Block.maxBound, Option.some.injEq]
        rcases hk with rfl | ⟨rfl, hk⟩
        · have : k + 1 < bl.length := by
            by_contra hn
            rw [List.getElem?_eq_none (by omega)] at hC; cases hC
          rw [if_pos this]; omega
        · rw [if_neg (by omega)]; omega
      · rw [hL.min k' C hC]
        simp only [Block.minBound, Option.some.injEq]
        rcases hk with rfl | ⟨rfl, hk⟩
        · rw [if_neg (by omega)]; omega
        · rw [if_pos rfl]; omega
      · rw [hL.max k B hB]; rfl
      · rw [hL.min k' C hC]; rfl
    obtain ⟨k, B, hB, rfl | rfl⟩ := byIdx i h1 h2
    · -- a bound towards a minimum: its partner is in the previous block
      have hkl : k < bl.length := by
        by_contra hn
        rw [List.getElem?_eq_none (by omega)] at hB; cases hB
      by_cases hk : k = 0
      · subst hk
        obtain ⟨p, q1, q2, q3, q4, q5, q6⟩ := pair (bl.length - 1) 0 bl[bl.length - 1] B (List.getElem?_eq_getElem (by omega)) hB
          (Or.inr ⟨rfl, by omega⟩)
        exact ⟨_, p, by omega, by omega, q4, q3, by rw [q5, q6]; rfl, q2, q1⟩
      · obtain ⟨p, q1, q2, q3, q4, q5, q6⟩ := pair (k - 1) k bl[k - 1] B (List.getElem?_eq_getElem (by omega)) hB
          (Or.inl (by omega))
        exact ⟨_, p, by omega, by omega, q4, q3, by rw [q5, q6]; rfl, q2, q1⟩
    · have hkl : k < bl.length := by
        by_contra hn
        rw [List.getElem?_eq_none (by omega)] at hB; cases hB
      by_cases hk : k + 1 < bl.length
      · obtain ⟨p, q1, q2, q3, q4, q5, q6⟩ := pair k (k + 1) B bl[k + 1] hB (List.getElem?_eq_getElem hk) (Or.inl rfl)
        exact ⟨_, p, by omega, by omega, q3, q4, by rw [q5, q6], q1, q2⟩
      · obtain ⟨p, q1, q2, q3, q4, q5, q6⟩ := pair k 0 B bl[0] hB (List.getElem?_eq_getElem hlen) (Or.inr ⟨rfl, by omega⟩)
        exact ⟨_, p, by omega, by omega, q3, q4, by rw [q5, q6], q1, q2⟩
  · intro i h1 h2 h3
    obtain ⟨k, B, hB, rfl | rfl⟩ := byIdx i h1 h2
    · have gB := hgood B (List.mem_of_getElem? hB)
      rw [hL.min k B hB]
      exact gB.last_min
    · rw [hL.max k B hB] at h3
      cases h3

/-- **C15.** `add_linear_ring` never raises.  If the ring has no edges nothing is added and the result is `False`; otherwise
the result is `True` and the added local minima represent the edges of the ring (`Spec.Decomposes`). -/
theorem C15_decomposes (fuel : Nat) (m : Minimums) (ring : List Point) (kind : PolygonKind)
    (hf : 3 * ring.length + 3 ≤ fuel) (ho : ∀ p ∈ ring, ∀ q ∈ ring, NoOverflow p q) :
    ∃ es, edgesOf fuel ring = .ok es
      ∧ ((es = [] ∧ m.addLinearRing fuel ring kind = (m, .ok false))
        ∨ (es ≠ [] ∧ ∃ m' new, m.addLinearRing fuel ring kind = (m', .ok true) ∧ new ≠ [] ∧ Decomposes m m' es kind new)) := by
  rcases addLinearRing_blocks fuel m ring kind hf ho with ⟨h1, h2⟩ | ⟨es, ss, bl, m', h1, h2, h3, h4, h5, h6, h7, h8⟩
  · exact ⟨[], h1, Or.inl ⟨rfl, h2⟩⟩
  · subst h8
    refine ⟨es, h1, Or.inr ⟨?_, m', _, h5, ?_, (decomposes_of_linked h6 h7 h3 h2).1⟩⟩
    · rintro rfl
      have := h2.eq_nil
      rw [List.map_eq_nil_iff] at this
      cases hb : bl with
      | nil => exact h6.ne hb
      | cons B rest =>
        rw [hb, List.flatMap_cons, List.append_eq_nil_iff] at this
        exact (h7 B (by rw [hb]; simp)).steps_ne this.1
    · have := h6.ne
      simpa using this

/-- **C37.** The bounds that `add_linear_ring` stores, each counted with its winding delta, represent the ring: every
quantity of directed segments that adds up along lines has the same sum over them as around the ring. -/
theorem C37_sums (fuel : Nat) (m m' : Minimums) (ring : List Point) (kind : PolygonKind)
    (hf : 3 * ring.length + 3 ≤ fuel) (ho : ∀ p ∈ ring, ∀ q ∈ ring, NoOverflow p q) (b : Bool)
    (h : m.addLinearRing fuel ring kind = (m', .ok b)) :
    ∃ new, m'.values = m.values ++ new ∧ ∀ c, AddsUpOnLines c → minimaSum c m'.bounds new = ringSum c ring := by
  rcases addLinearRing_blocks fuel m ring kind hf ho with ⟨h1, h2⟩ | ⟨es, ss, bl, m'', h1, h2, h3, h4, h5, h6, h7, h8⟩
  · rw [h2] at h
    cases h
    refine ⟨[], by simp, fun c hc => ?_⟩
    rcases C36_sums_preserved ring fuel hf [] h1 c hc with ⟨_, h3⟩ | ⟨vs, h3, _, h4⟩
    · rw [h3]; rfl
    · rcases h3 with ⟨rfl, _⟩ | ⟨h3, _⟩
      · rw [← h4]; rfl
      · obtain ⟨a, rfl⟩ := Along.nil_iff.1 h3
        rw [← h4]; rfl
  · subst h8
    rw [h5] at h
    cases h
    refine ⟨_, h6.values, fun c hc => ?_⟩
    rw [(decomposes_of_linked h6 h7 h3 h2).2 c hc, h4 c hc]

/-- **C37.** In particular: the winding number of the ring around any point is the sum, over the stored bounds, of the
winding delta of a bound times the number of signed crossings of the ray to the right of the point with the bound. -/
theorem C37_winding (fuel : Nat) (m m' : Minimums) (ring : List Point) (kind : PolygonKind)
    (hf : 3 * ring.length + 3 ≤ fuel) (ho : ∀ p ∈ ring, ∀ q ∈ ring, NoOverflow p q) (b : Bool)
    (h : m.addLinearRing fuel ring kind = (m', .ok b)) (z : Point) :
    ∃ new, m'.values = m.values ++ new ∧ minimaSum (crossing z) m'.bounds new = ringSum (crossing z) ring := by
  obtain ⟨new, h1, h2⟩ := C37_sums fuel m m' ring kind hf ho b h
  exact ⟨new, h1, h2 _ (crossing_addsUp z)⟩

instance (p q : Point) : Decidable (NoOverflow p q) := inferInstanceAs (Decidable (_ ≤ _))

/-- A ring with several minima, horizontal edges at a minimum, at a maximum and between, and a horizontal that is reversed. -/
example :
    let ring : List Point := [⟨0, 0⟩, ⟨4, 0⟩, ⟨4, 4⟩, ⟨6, 4⟩, ⟨6, 1⟩, ⟨9, 9⟩, ⟨5, 7⟩, ⟨2, 9⟩, ⟨2, 5⟩, ⟨0, 5⟩]
    (∀ p ∈ ring, ∀ q ∈ ring, NoOverflow p q)
    ∧ (let m' := (Minimums.empty.addLinearRing 33 ring .clip).1
       m'.values.length = 3 ∧ m'.values.map (fun v => v.hasHorizontal) = [true, false, false]
      ∧ m'.values.map (fun v => ((m'.bounds v.left).edges.length, (m'.bounds v.right).edges.length))
        = [(1, 2), (1, 1), (4, 1)]
      ∧ minimaSum (crossing ⟨1, 1⟩) m'.bounds m'.values = 1) := by
  decide +kernel

end Wagyu
