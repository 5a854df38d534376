import Verif.Proofs.AddLoop
import Verif.Props.Sequences

/-!
# The local minima of a ring do not depend on where the ring starts
-/

namespace Wagyu

open Spec Step

/-- As `addLinearRing_blocks`, with the order of the steps. -/
theorem addLinearRing_rotated (fuel : Nat) (m : Minimums) (ring : List Point) (kind : PolygonKind)
    (hf : 3 * ring.length + 3 ≤ fuel) (ho : ∀ p ∈ ring, ∀ q ∈ ring, NoOverflow p q) :
    (edgesOf fuel ring = .ok [] ∧ m.addLinearRing fuel ring kind = (m, .ok false))
    ∨ ∃ (es : List Edge) (ss : List Step) (bl : List Block) (m' : Minimums),
        edgesOf fuel ring = .ok es ∧ (ss.map Step.e) ~r es ∧ 3 ≤ ss.length ∧ Cyc ss
          ∧ m.addLinearRing fuel ring kind = (m', .ok true) ∧ Linked' kind m bl m' ∧ (∀ B ∈ bl, B.Good)
          ∧ bl.flatMap Block.steps = ss := by
  obtain ⟨es, h1, h2⟩ := edgesOf_spec ring fuel hf
  rcases h2 with ⟨rfl, _⟩ | ⟨vs, hcv, hl, _, hfb⟩
  · left
    refine ⟨h1, ?_⟩
    unfold Minimums.addLinearRing
    rw [h1]
  · right
    obtain ⟨ss, e1, e2, e3, e4, e5, e6⟩ := steps_of_along es vs hcv.along (fun e he => (hcv.wf e he).1)
      (fun e he => horizontal_of_wf (hcv.wf e he).1 (ho _ (hcv.wf e he).2.1 _ (hcv.wf e he).2.2)) hcv.np
    have hcyc : Cyc ss := by
      refine ⟨e2, e3, ?_⟩
      intro x hx y hy
      have hx' := e5 x hx
      have hy' := e4 y hy
      refine ⟨?_, ?_⟩
      · have := hcv.closed
        rw [hx', hy'] at this
        simpa using this.symm
      · intro hp
        refine hfb y.e x.e ?_ ?_ (parallel_comm hp)
        · rw [← e1, List.head?_map, Option.mem_def.1 hy]; rfl
        · rw [← e1, List.getLast?_map, Option.mem_def.1 hx]; rfl
    have hsl : 3 ≤ ss.length := by rw [← e1] at hl; simpa using hl
    obtain ⟨rs, r1, r2, r3, r4, r5⟩ := start_spec ss hcyc hsl
    obtain ⟨bl, m', first, last, a1, a2, a3, a4⟩ := addLoop_blocks kind m rs.length rs rs.length [] m none none (le_refl _) (le_refl _)
      r3.ok r3.chain (by
        obtain ⟨d, l, rfl, hd⟩ := r4
        intro s hs
        simp only [List.head?_cons, Option.mem_def, Option.some.injEq] at hs
        subst hs
        exact hd) (fun _ => r5) (LInv.nil kind m)
    rw [List.nil_append] at a2
    have hbl : bl ≠ [] := by
      rintro rfl
      obtain ⟨d, l, rfl, _⟩ := r4
      cases a4
    have hlen : 0 < bl.length := List.length_pos_iff.2 hbl
    have hnb := a2.nb
    have hfirst : first = some m.nb := by rw [a2.first, if_neg hbl]
    have hlast : last = some (m'.nb - 1) := by rw [a2.last, if_neg hbl]
    refine ⟨es, rs, bl, { m' with
        bounds :=
          (upd (upd m'.bounds (m'.nb - 1) { m'.bounds (m'.nb - 1) with maximumBound := some m.nb }) m.nb
            { (upd m'.bounds (m'.nb - 1) { m'.bounds (m'.nb - 1) with maximumBound := some m.nb }) m.nb with
              maximumBound := some (m'.nb - 1) }) },
      h1, ?_, by rw [r2.length_eq]; exact hsl, r3, ?_, ?_, a3, a4⟩
    · rw [← e1, ← r1]
      unfold toEdgesStartingOnLocalMaximum
      rw [if_pos (by rw [List.length_map]; omega)]
      exact C32_is_rotation _ _
    · unfold Minimums.addLinearRing
      rw [h1]
      cases es with
      | nil => simp at hl
      | cons e es =>
        simp only
        rw [← e1, r1]
        simp only [List.length_map]
        rw [a1, hfirst, hlast]
    · refine ⟨hbl, hnb, a2.values, ?_, ?_, ?_⟩
      · intro i B hi
        have hmin := a2.min i B hi
        simp only
        by_cases hi0 : i = 0
        · subst hi0
          simp only [Nat.mul_zero, Nat.add_zero, if_true] at hmin ⊢
          rw [upd_same, upd_other _ _ _ _ (by omega), hmin, hnb]
          rfl
        · rw [upd_other _ _ _ _ (by omega), upd_other _ _ _ _ (by omega), hmin, if_neg hi0, if_neg hi0]
      · intro i B hi
        have hil : i < bl.length := by
          by_contra hn
          rw [List.getElem?_eq_none (by omega)] at hi
          cases hi
        have hmax := a2.max i B hi
        simp only
        rw [upd_other _ _ _ _ (by omega)]
        by_cases hl' : i + 1 < bl.length
        · rw [upd_other _ _ _ _ (by omega), hmax, if_pos hl', if_pos hl']
        · have : m.nb + 2 * i + 1 = m'.nb - 1 := by omega
          rw [← this, upd_same, hmax, if_neg hl', if_neg hl']
          rfl
      · intro i hi
        simp only
        rw [upd_other _ _ _ _ (by omega), upd_other _ _ _ _ (by omega)]
        exact a2.old i hi


/-! ## The steps are determined by the edges -/

theorem step_orient {s t s' t' : Step} (hs : s.Ok) (ht : t.Ok) (hs' : s'.Ok) (ht' : t'.Ok) (h : Linked s t) (h' : Linked s' t') (e1 : s.e = s'.e)
    (e2 : t.e = t'.e) : s = s' ∧ t = t' := by
  have hss : s.a = s'.a ∧ s.b = s'.b := by
    have h1 := hs.joins
    have h2 := hs'.joins
    rw [← e1] at h2
    have key : (s.a = s'.a ∧ s.b = s'.b) ∨ (s.a = s'.b ∧ s.b = s'.a) := by
      rcases h1 with ⟨a1, a2⟩ | ⟨a1, a2⟩ <;> rcases h2 with ⟨b1, b2⟩ | ⟨b1, b2⟩
      · exact Or.inl ⟨a1.symm.trans b1, a2.symm.trans b2⟩
      · exact Or.inr ⟨a1.symm.trans b1, a2.symm.trans b2⟩
      · exact Or.inr ⟨a2.symm.trans b2, a1.symm.trans b1⟩
      · exact Or.inl ⟨a2.symm.trans b2, a1.symm.trans b1⟩
    rcases key with k | ⟨k1, k2⟩
    · exact k
    · exfalso
      -- `t.e` joins both ends of `s.e`
      have h3 := ht.joins
      have h4 := ht'.joins
      rw [← e2, ← h'.1, ← k1] at h4
      rw [← h.1] at h3
      have hne := hs.ne
      apply h.2
      have h5 : Joins t.e s.b s.a := by
        rcases h3 with ⟨a1, a2⟩ | ⟨a1, a2⟩ <;> rcases h4 with ⟨b1, b2⟩ | ⟨b1, b2⟩
        · exact absurd (b1.symm.trans a1) hne
        · exact Or.inl ⟨a1, b2⟩
        · exact Or.inr ⟨b1, a2⟩
        · exact absurd (b2.symm.trans a2) hne
      rw [← slopes_of_joins h1 h5]
      unfold arePointsSlopesEqual
      rw [decide_eq_true_eq]; ring
  refine ⟨by cases s; cases s'; simp only at hss e1; rw [hss.1, hss.2, e1], ?_⟩
  have ha : t.a = t'.a := by rw [← h.1, ← h'.1, hss.2]
  have h3 := ht.joins
  have h4 := ht'.joins
  rw [← e2, ← ha] at h4
  have hb := Joins.unique h3 h4
  cases t; cases t'; simp only at ha hb e2; rw [ha, hb, e2]

theorem steps_unique : ∀ (S T : List Step), (∀ s ∈ S, s.Ok) → (∀ s ∈ T, s.Ok) → S.IsChain Linked → T.IsChain Linked → 2 ≤ S.length →
    S.map Step.e = T.map Step.e → S = T
  | [], _, _, _, _, _, h, _ => by simp at h
  | [_], _, _, _, _, _, h, _ => by simp at h
  | [s, t], T, hS, hT, cS, cT, _, h => by
    match T, h with
    | [s', t'], h =>
      simp only [List.map_cons, List.map_nil, List.cons.injEq, and_true] at h
      obtain ⟨rfl, rfl⟩ := step_orient (hS s (by simp)) (hS t (by simp)) (hT s' (by simp)) (hT t' (by simp)) (List.isChain_cons_cons.1 cS).1
        (List.isChain_cons_cons.1 cT).1 h.1 h.2
      rfl
    | [], h => simp at h
    | [_], h => simp at h
    | _ :: _ :: _ :: _, h => simp at h
  | s :: t :: u :: S, T, hS, hT, cS, cT, _, h => by
    match T, h with
    | s' :: T, h =>
      simp only [List.map_cons, List.cons.injEq] at h
      have ih := steps_unique (t :: u :: S) T (fun x hx => hS x (by simp [hx])) (fun x hx => hT x (by simp [hx])) (List.isChain_cons_cons.1 cS).2
        cT.tail (by simp) (by simp only [List.map_cons]; exact h.2)
      subst ih
      obtain ⟨rfl, -⟩ := step_orient (hS s (by simp)) (hS t (by simp)) (hT s' (by simp)) (hT t (by simp)) (List.isChain_cons_cons.1 cS).1
        (List.isChain_cons_cons.1 cT).1 h.1 rfl
      rfl
    | [], h => simp at h

theorem Cyc.rotated {S : List Step} (h : Cyc S) (n : Nat) : Cyc (S.rotate n) := by
  rw [List.rotate_eq_drop_append_take_mod]
  apply Cyc.rotate
  rw [List.take_append_drop]
  exact h

theorem steps_rotated {S T : List Step} (hS : Cyc S) (hT : Cyc T) (hl : 2 ≤ S.length) (h : S.map Step.e ~r T.map Step.e) : S ~r T := by
  obtain ⟨n, hn⟩ := h
  rw [← List.map_rotate] at hn
  exact ⟨n, steps_unique _ _ (hS.rotated n).ok hT.ok (hS.rotated n).chain hT.chain (by rw [List.length_rotate]; exact hl) hn⟩

/-! ## The blocks are determined by the steps -/

namespace Block

theorem Good.head {B : Block} (h : B.Good) : ∃ d l, B.steps = d :: l ∧ d.Dn := by
  obtain ⟨d, l, h1, h2⟩ := h.dn
  exact ⟨d, l ++ B.up, by rw [Block.steps, h1]; rfl, h2⟩

/-- A block ends where the next descent begins. -/
theorem Good.no_dn {B : Block} (h : B.Good) {x y : List Step} {d : Step} (hB : B.steps = x ++ d :: y) (hd : d.Dn) : ∀ s ∈ x, ¬ s.Up := by
  unfold Block.steps at hB
  rcases List.append_eq_append_iff.1 hB with ⟨a, h1, h2⟩ | ⟨a, h1, h2⟩
  · exact absurd hd (h.notDn d (by rw [h2]; simp))
  · exact fun s hs => h.notUp s (by rw [h1]; simp [hs])

theorem Good.steps_inj {B C : Block} (hB : B.Good) (hC : C.Good) (h : B.steps = C.steps) : B = C := by
  have key : ∀ {B C : Block}, B.Good → C.Good → ∀ {s : Step} {a : List Step}, C.dn = B.dn ++ s :: a → B.up = s :: a ++ C.up → False := by
    intro B C hB hC s a h1 h2
    -- `s :: a` is flat, so it is one horizontal step
    have hz : ∀ t ∈ s :: a, t.Hz := by
      intro t ht
      have n1 := hC.notUp t (by rw [h1]; exact List.mem_append_right _ ht)
      have n2 := hB.notDn t (by rw [h2]; exact List.mem_append_left _ ht)
      unfold Step.Up at n1; unfold Step.Dn at n2; unfold Step.Hz; omega
    have ha : a = [] := by
      cases a with
      | nil => rfl
      | cons t a =>
        exfalso
        have hc : B.steps.IsChain Linked := hB.chain
        unfold Block.steps at hc
        rw [h2] at hc
        have h3 := (List.isChain_append.1 hc).2.1
        rw [List.cons_append, List.cons_append, List.isChain_cons_cons] at h3
        exact no_hz_hz (hB.ok s (by rw [Block.steps, h2]; simp)) (hB.ok t (by rw [Block.steps, h2]; simp)) h3.1 (hz s (by simp)) (hz t (by simp))
    subst ha
    have hs := hz s (by simp)
    -- the step is on the left in one block and on the right in the other
    have bl : B.isLeft = true := by
      cases hb : B.isLeft with
      | true => rfl
      | false =>
        obtain ⟨u, l, k1, k2⟩ := hB.right hb
        rw [h2] at k1
        simp only [List.cons_append, List.cons.injEq] at k1
        rw [← k1.1] at k2
        unfold Step.Up at k2; unfold Step.Hz at hs; omega
    have cl : C.isLeft = false := by
      cases hc : C.isLeft with
      | false => rfl
      | true =>
        obtain ⟨u, l, k1, k2⟩ := hC.left hc
        rw [h1] at k1
        simp only [List.reverse_append, List.reverse_cons, List.reverse_nil, List.nil_append, List.cons_append, List.cons.injEq] at k1
        rw [← k1.1] at k2
        unfold Step.Dn at k2; unfold Step.Hz at hs; omega
    have bh : B.hasH = true := by
      cases hb : B.hasH with
      | true => rfl
      | false =>
        obtain ⟨_, _, u, l, -, -, k1, k2, -⟩ := hB.noHL bl hb
        rw [h2] at k1
        simp only [List.cons_append, List.cons.injEq] at k1
        rw [← k1.1] at k2
        unfold Step.Up at k2; unfold Step.Hz at hs; omega
    have ch : C.hasH = true := by
      cases hc : C.hasH with
      | true => rfl
      | false =>
        obtain ⟨u, l, _, _, k1, k2, -, -, -⟩ := hC.noHR cl hc
        rw [h1] at k1
        simp only [List.reverse_append, List.reverse_cons, List.reverse_nil, List.nil_append, List.cons_append, List.cons.injEq] at k1
        rw [← k1.1] at k2
        unfold Step.Dn at k2; unfold Step.Hz at hs; omega
    obtain ⟨x, l, k1, -, k2⟩ := hB.horL bl bh
    obtain ⟨z, l', k3, -, k4⟩ := hC.horR cl ch
    rw [h2] at k1
    rw [h1] at k3
    simp only [List.reverse_append, List.reverse_cons, List.reverse_nil, List.nil_append, List.cons_append, List.cons.injEq] at k1 k3
    rw [← k1.1] at k2
    rw [← k3.1] at k4
    omega
  have hsplit : B.dn = C.dn ∧ B.up = C.up := by
    unfold Block.steps at h
    rcases List.append_eq_append_iff.1 h with ⟨a, h1, h2⟩ | ⟨a, h1, h2⟩
    · cases a with
      | nil => exact ⟨by simpa using h1.symm, by simpa using h2⟩
      | cons s a => exact (key hB hC h1 h2).elim
    · cases a with
      | nil => exact ⟨by simpa using h1, by simpa using h2.symm⟩
      | cons s a => exact (key hC hB h1 h2).elim
  obtain ⟨h1, h2⟩ := hsplit
  have side : ∀ {B C : Block}, B.Good → C.Good → B.dn = C.dn → B.up = C.up → B.isLeft = true → C.isLeft = true := by
    intro B C hB hC h1 h2 b
    by_contra c
    rw [Bool.not_eq_true] at c
    obtain ⟨s, l, k1, k2⟩ := hB.left b
    obtain ⟨u, l', k3, k4⟩ := hC.right c
    have bh : B.hasH = false := by
      by_contra hh
      rw [Bool.not_eq_false] at hh
      obtain ⟨x, r, k5, k6, -⟩ := hB.horL b hh
      rw [h2, k3, List.cons.injEq] at k5
      rw [← k5.1] at k6
      unfold Step.Up at k4; unfold Step.Hz at k6; omega
    have ch : C.hasH = false := by
      by_contra hh
      rw [Bool.not_eq_false] at hh
      obtain ⟨x, r, k5, k6, -⟩ := hC.horR c hh
      rw [← h1, k1, List.cons.injEq] at k5
      rw [← k5.1] at k6
      unfold Step.Dn at k2; unfold Step.Hz at k6; omega
    obtain ⟨s1, l1, u1, l2, m1, -, m2, -, m3⟩ := hB.noHL b bh
    obtain ⟨s3, l3, u3, l4, n1, -, n2, -, n3⟩ := hC.noHR c ch
    rw [h1, n1, List.cons.injEq] at m1
    rw [h2, n2, List.cons.injEq] at m2
    rw [m1.1, m2.1, m3] at n3
    cases n3
  have hleft : B.isLeft = C.isLeft := by
    rw [Bool.eq_iff_iff]
    exact ⟨side hB hC h1 h2, side hC hB h1.symm h2.symm⟩
  have flat : ∀ {B C : Block}, B.Good → C.Good → B.dn = C.dn → B.up = C.up → B.isLeft = C.isLeft → B.hasH = true → C.hasH = true := by
    intro B C hB hC h1 h2 hs hh
    by_contra hn
    rw [Bool.not_eq_true] at hn
    cases b : B.isLeft with
    | true =>
      obtain ⟨x, r, k5, k6, -⟩ := hB.horL b hh
      obtain ⟨_, _, u, l, -, -, k7, k8, -⟩ := hC.noHL (hs ▸ b) hn
      rw [h2, k7, List.cons.injEq] at k5
      rw [← k5.1] at k6
      unfold Step.Up at k8; unfold Step.Hz at k6; omega
    | false =>
      obtain ⟨x, r, k5, k6, -⟩ := hB.horR b hh
      obtain ⟨u, l, _, _, k7, k8, -, -, -⟩ := hC.noHR (hs ▸ b) hn
      rw [h1, k7, List.cons.injEq] at k5
      rw [← k5.1] at k6
      unfold Step.Dn at k8; unfold Step.Hz at k6; omega
  have hflat : B.hasH = C.hasH := by
    rw [Bool.eq_iff_iff]
    exact ⟨flat hB hC h1 h2 hleft, flat hC hB h1.symm h2.symm hleft.symm⟩
  cases B; cases C
  simp only at h1 h2 hflat hleft
  rw [h1, h2, hflat, hleft]

end Block


theorem Block.Good.has_up {B : Block} (h : B.Good) : ∃ s ∈ B.steps, s.Up := by
  obtain ⟨u, h1, h2⟩ := h.up
  exact ⟨u, by simp [Block.steps, h1], h2⟩

theorem flat_head {bl : List Block} (hg : ∀ B ∈ bl, B.Good) {d : Step} {l : List Step} (h : bl.flatMap Block.steps = d :: l) : d.Dn := by
  cases bl with
  | nil => cases h
  | cons B bl =>
    obtain ⟨e, r, h1, h2⟩ := (hg B (by simp)).head
    rw [List.flatMap_cons, h1, List.cons_append, List.cons.injEq] at h
    rw [← h.1]; exact h2

theorem blocks_unique : ∀ (bl bl' : List Block), (∀ B ∈ bl, B.Good) → (∀ B ∈ bl', B.Good) →
    bl.flatMap Block.steps = bl'.flatMap Block.steps → bl = bl'
  | [], [], _, _, _ => rfl
  | [], C :: _, _, h', h => by
    obtain ⟨e, r, h1, -⟩ := (h' C (by simp)).head
    rw [List.flatMap_cons, h1] at h; cases h
  | B :: _, [], h', _, h => by
    obtain ⟨e, r, h1, -⟩ := (h' B (by simp)).head
    rw [List.flatMap_cons, h1] at h; cases h
  | B :: bl, C :: bl', hg, hg', h => by
    rw [List.flatMap_cons, List.flatMap_cons] at h
    have hB := hg B (by simp)
    have hC := hg' C (by simp)
    have key : B.steps = C.steps ∧ bl.flatMap Block.steps = bl'.flatMap Block.steps := by
      rcases List.append_eq_append_iff.1 h with ⟨a, h1, h2⟩ | ⟨a, h1, h2⟩
      · cases a with
        | nil => exact ⟨by simpa using h1.symm, by simpa using h2⟩
        | cons d y =>
          exfalso
          have hd : d.Dn := flat_head (fun B hB => hg B (by simp [hB])) h2
          obtain ⟨u, hu, hup⟩ := hB.has_up
          exact hC.no_dn h1 hd u hu hup
      · cases a with
        | nil => exact ⟨by simpa using h1, by simpa using h2.symm⟩
        | cons d y =>
          exfalso
          have hd : d.Dn := flat_head (fun B hB => hg' B (by simp [hB])) h2
          obtain ⟨u, hu, hup⟩ := hC.has_up
          exact hB.no_dn h1 hd u hu hup
    rw [hB.steps_inj hC key.1, blocks_unique bl bl' (fun B hB => hg B (by simp [hB])) (fun B hB => hg' B (by simp [hB])) key.2]

theorem flat_cut : ∀ (bl : List Block) (u v : List Step), bl.flatMap Block.steps = u ++ v →
    (∃ p q, bl = p ++ q ∧ p.flatMap Block.steps = u ∧ q.flatMap Block.steps = v)
    ∨ ∃ p B q x y, bl = p ++ B :: q ∧ B.steps = x ++ y ∧ x ≠ [] ∧ y ≠ [] ∧ u = p.flatMap Block.steps ++ x ∧ v = y ++ q.flatMap Block.steps
  | [], u, v, h => by
    rw [List.flatMap_nil] at h
    obtain ⟨rfl, rfl⟩ := List.append_eq_nil_iff.1 h.symm
    exact Or.inl ⟨[], [], rfl, rfl, rfl⟩
  | B :: bl, u, v, h => by
    rw [List.flatMap_cons] at h
    rcases List.append_eq_append_iff.1 h with ⟨a, h1, h2⟩ | ⟨a, h1, h2⟩
    · rcases flat_cut bl a v h2 with ⟨p, q, k1, k2, k3⟩ | ⟨p, C, q, x, y, k1, k2, k3, k4, k5, k6⟩
      · exact Or.inl ⟨B :: p, q, by rw [k1]; rfl, by rw [List.flatMap_cons, k2, h1], k3⟩
      · exact Or.inr ⟨B :: p, C, q, x, y, by rw [k1]; rfl, k2, k3, k4, by rw [List.flatMap_cons, h1, k5, List.append_assoc], k6⟩
    · by_cases hu : u = []
      · subst hu
        exact Or.inl ⟨[], B :: bl, rfl, rfl, by rw [List.flatMap_cons, h]; rfl⟩
      by_cases ha : a = []
      · subst ha
        exact Or.inl ⟨[B], bl, rfl, by simpa using h1, by simpa using h2.symm⟩
      exact Or.inr ⟨[], B, bl, u, a, rfl, h1, hu, ha, rfl, h2⟩

theorem blocks_rotated {bl bl' : List Block} (hg : ∀ B ∈ bl, B.Good) (hg' : ∀ B ∈ bl', B.Good)
    (h : bl.flatMap Block.steps ~r bl'.flatMap Block.steps) : ∃ p q, bl = p ++ q ∧ bl' = q ++ p := by
  obtain ⟨n, hn⟩ := h
  rw [List.rotate_eq_drop_append_take_mod] at hn
  generalize hS : bl.flatMap Block.steps = S at hn
  generalize n % S.length = k at hn
  rw [← List.take_append_drop k S] at hS
  generalize S.take k = u at *
  generalize S.drop k = v at *
  rcases flat_cut bl u v hS with ⟨p, q, k1, k2, k3⟩ | ⟨p, B, q, x, y, k1, k2, k3, k4, k5, k6⟩
  · refine ⟨p, q, k1, (blocks_unique _ _ (fun B hB => hg B ?_) hg' ?_).symm⟩
    · rw [k1]; rw [List.mem_append] at hB ⊢; exact hB.symm
    · rw [List.flatMap_append, k2, k3, hn]
  · exfalso
    have hB := hg B (by rw [k1]; simp)
    obtain ⟨d, y', rfl⟩ : ∃ d y', y = d :: y' := by cases y with
      | nil => exact absurd rfl k4
      | cons d y' => exact ⟨d, y', rfl⟩
    have hd : d.Dn := flat_head hg' (by rw [← hn, k6]; rfl)
    have hx := hB.no_dn k2 hd
    obtain ⟨e, x', rfl⟩ : ∃ e x', x = e :: x' := by cases x with
      | nil => exact absurd rfl k3
      | cons e x' => exact ⟨e, x', rfl⟩
    have he : e.Dn := by
      obtain ⟨f, l, h1, h2⟩ := hB.head
      rw [k2, List.cons_append, List.cons.injEq] at h1
      rw [h1.1]; exact h2
    rcases List.eq_nil_or_concat bl' with rfl | ⟨r, C, rfl⟩
    · rw [k6] at hn; simp at hn
    · rw [List.concat_eq_append] at hn hg'
      have hC := hg' C (by simp)
      obtain ⟨w, hw, hup⟩ := hC.has_up
      rw [List.flatMap_append, List.flatMap_singleton, k5, ← List.append_assoc] at hn
      rcases List.append_eq_append_iff.1 hn with ⟨a, h1, h2⟩ | ⟨a, h1, h2⟩
      · exact hx w (by rw [h2]; simp [hw]) hup
      · rw [h2] at hw
        rcases List.mem_append.1 hw with hw | hw
        · exact hC.no_dn h2 he w hw hup
        · exact hx w hw hup

end Wagyu
