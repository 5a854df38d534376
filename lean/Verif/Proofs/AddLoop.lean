import Verif.Proofs.Blocks
import Mathlib.Data.List.TakeWhile

/-!
# The loop of `add_linear_ring`
-/

namespace Wagyu

open Spec Step

/-- The state after the blocks `bl` have been added to `m0`. -/
structure LInv (kind : PolygonKind) (m0 : Minimums) (bl : List Block) (m : Minimums) (first last : Option Nat) : Prop where
  nb : m.nb = m0.nb + 2 * bl.length
  values : m.values = m0.values ++ bl.mapIdx fun i B => B.minimum (m0.nb + 2 * i)
  min : ∀ i B, bl[i]? = some B →
    m.bounds (m0.nb + 2 * i) = B.minBound kind (if i = 0 then none else some (m0.nb + 2 * i - 1))
  max : ∀ i B, bl[i]? = some B →
    m.bounds (m0.nb + 2 * i + 1) = B.maxBound kind (if i + 1 < bl.length then some (m0.nb + 2 * i + 2) else none)
  old : ∀ i < m0.nb, m.bounds i = m0.bounds i
  first : first = if bl = [] then none else some m0.nb
  last : last = if bl = [] then none else some (m.nb - 1)

theorem LInv.nil (kind : PolygonKind) (m0 : Minimums) : LInv kind m0 [] m0 none none :=
  ⟨by simp, by simp, by simp, by simp, fun _ _ => rfl, by simp, by simp⟩

/-- Adding one block keeps the invariant. -/
theorem LInv.snoc {kind : PolygonKind} {m0 : Minimums} {bl : List Block} {m : Minimums} {first last : Option Nat}
    (h : LInv kind m0 bl m first last) (B : Block) :
    LInv kind m0 (bl ++ [B])
      { bounds :=
          (match (generalizing := false) last with
            | none => upd (upd m.bounds m.nb (B.minBound kind last)) (m.nb + 1) (B.maxBound kind none)
            | some p => upd (upd (upd m.bounds m.nb (B.minBound kind last)) (m.nb + 1) (B.maxBound kind none)) p
                { upd (upd m.bounds m.nb (B.minBound kind last)) (m.nb + 1) (B.maxBound kind none) p with maximumBound := some m.nb })
        nb := m.nb + 2
        values := m.values ++ [B.minimum m.nb] }
      (match (generalizing := false) last with | none => some m.nb | some _ => first) (some (m.nb + 1)) := by
  have hnb := h.nb
  by_cases hb : bl = []
  · subst hb
    have hl : last = none := by rw [h.last]; simp
    subst hl
    simp only [List.length_nil, Nat.mul_zero, Nat.add_zero] at hnb
    refine ⟨by simp [hnb], by rw [h.values]; simp [hnb], ?_, ?_, ?_, ?_, ?_⟩
    · intro i B' hi
      match i, hi with
      | 0, hi =>
        simp only [List.nil_append, List.getElem?_cons_zero, Option.some.injEq] at hi
        subst hi
        simp only [Nat.mul_zero, Nat.add_zero, if_true]
        rw [upd_other _ _ _ _ (by omega), hnb, upd_same]
    · intro i B' hi
      match i, hi with
      | 0, hi =>
        simp only [List.nil_append, List.getElem?_cons_zero, Option.some.injEq] at hi
        subst hi
        simp [hnb, upd]
    · intro i hi
      simp only
      rw [upd_other _ _ _ _ (by omega), upd_other _ _ _ _ (by omega)]
      exact h.old i hi
    · simp [hnb]
    · simp
  · have hlen : 0 < bl.length := List.length_pos_iff.2 hb
    have hl : last = some (m.nb - 1) := by rw [h.last, if_neg hb]
    subst hl
    simp only
    refine ⟨by simp only [List.length_append, List.length_singleton]; omega, ?_, ?_, ?_, ?_, ?_, ?_⟩
    · rw [h.values, List.append_assoc, List.mapIdx_append]
      simp [hnb]
    · intro i B' hi
      simp only
      by_cases hib : i < bl.length
      · rw [List.getElem?_append_left hib] at hi
        rw [upd_other _ _ _ _ (by omega), upd_other _ _ _ _ (by omega), upd_other _ _ _ _ (by omega)]
        exact h.min i B' hi
      · have hie : i = bl.length := by
          by_contra hne
          rw [List.getElem?_eq_none (by simp; omega)] at hi
          cases hi
        subst hie
        simp at hi
        subst hi
        rw [upd_other _ _ _ _ (by omega), upd_other _ _ _ _ (by omega), ← hnb, upd_same, if_neg (by omega)]
    · intro i B' hi
      simp only
      by_cases hib : i < bl.length
      · rw [List.getElem?_append_left hib] at hi
        have hmax := h.max i B' hi
        rw [if_pos (by simp; omega)]
        by_cases hil : i + 1 < bl.length
        · rw [upd_other _ _ _ _ (by omega), upd_other _ _ _ _ (by omega), upd_other _ _ _ _ (by omega), hmax, if_pos hil]
        · have : m0.nb + 2 * i + 1 = m.nb - 1 := by omega
          rw [← this, upd_same, upd_other _ _ _ _ (by omega), upd_other _ _ _ _ (by omega), hmax]
          simp only [Block.maxBound, Bound.mk.injEq, true_and]
          congr 1
          omega
      · have hie : i = bl.length := by
          by_contra hne
          rw [List.getElem?_eq_none (by simp; omega)] at hi
          cases hi
        subst hie
        simp at hi
        subst hi
        rw [upd_other _ _ _ _ (by omega), ← hnb, upd_same, if_neg (by simp)]
    · intro i hi
      simp only
      rw [upd_other _ _ _ _ (by omega), upd_other _ _ _ _ (by omega), upd_other _ _ _ _ (by omega)]
      exact h.old i hi
    · rw [h.first, if_neg hb, if_neg (by simp)]
    · rw [if_neg (by simp)]; rfl

/-- The loop turns all the steps into blocks. -/
theorem addLoop_blocks (kind : PolygonKind) (m0 : Minimums) : ∀ (n : Nat) (ss : List Step) (fuel : Nat) (bl : List Block) (m : Minimums)
    (first last : Option Nat), ss.length ≤ n → ss.length ≤ fuel → (∀ s ∈ ss, s.Ok) → ss.IsChain Linked → (∀ s ∈ ss.head?, s.Dn) →
    (ss ≠ [] → CtxU ss.reverse) → LInv kind m0 bl m first last →
    ∃ (new : List Block) (m' : Minimums) (first' last' : Option Nat),
      addLoop kind fuel (ss.map Step.e) first last m = (m', .ok (first', last'))
        ∧ LInv kind m0 (bl ++ new) m' first' last' ∧ (∀ B ∈ new, B.Good) ∧ new.flatMap Block.steps = ss := by
  intro n
  induction n with
  | zero =>
    intro ss fuel bl m first last hn hf hok hc hh hctx hinv
    have : ss = [] := List.length_eq_zero_iff.1 (by omega)
    subst this
    refine ⟨[], m, first, last, ?_, by simpa using hinv, by simp, by simp⟩
    cases fuel <;> rfl
  | succ n ih =>
    intro ss fuel bl m first last hn hf hok hc hh hctx hinv
    cases ss with
    | nil =>
      refine ⟨[], m, first, last, ?_, by simpa using hinv, by simp, by simp⟩
      cases fuel <;> rfl
    | cons d l =>
      have hd : d.Dn := hh d (by simp)
      -- the descent
      have hl1 : ∀ s ∈ l.takeWhile notUp, ¬ s.Up := by
        intro s hs
        have := List.mem_takeWhile_imp hs
        simpa [notUp] using this
      have hctx' := hctx (by simp)
      obtain ⟨u, l', hu', hu⟩ : ∃ u l', l.dropWhile notUp = u :: l' ∧ u.Up := by
        cases hdw : l.dropWhile notUp with
        | nil =>
          exfalso
          have hall : ∀ s ∈ d :: l, ¬ s.Up := by
            intro s hs
            rcases List.mem_cons.1 hs with rfl | hs
            · unfold Step.Dn at hd; unfold Step.Up; omega
            · have := List.dropWhile_eq_nil_iff.1 hdw s hs
              simpa [notUp] using this
          cases hr : (d :: l).reverse with
          | nil => simp at hr
          | cons x r =>
            rw [hr] at hctx'
            have hmem : ∀ y ∈ x :: r, y ∈ d :: l := by
              intro y hy; rw [← hr] at hy; exact List.mem_reverse.1 hy
            rcases hctx' with hx | ⟨_, v, r', rfl, hv⟩
            · exact hall x (hmem x (by simp)) hx
            · exact hall v (hmem v (by simp)) hv
        | cons u l' =>
          refine ⟨u, l', rfl, ?_⟩
          have := List.head?_dropWhile_not (p := notUp) l
          rw [hdw] at this
          simp at this
          simpa [notUp] using this
      have hl2 : ∀ s ∈ l'.takeWhile notDn, ¬ s.Dn := by
        intro s hs
        have := List.mem_takeWhile_imp hs
        simpa [notDn] using this
      have hrest : ∀ s ∈ (l'.dropWhile notDn).head?, s.Dn := by
        intro s hs
        have := List.head?_dropWhile_not (p := notDn) l'
        rw [Option.mem_def] at hs
        rw [hs] at this
        simpa [notDn] using this
      have hsplit : d :: l = d :: l.takeWhile notUp ++ (u :: l'.takeWhile notDn ++ l'.dropWhile notDn) := by
        rw [List.cons_append, List.cons_append, List.takeWhile_append_dropWhile, ← hu', List.takeWhile_append_dropWhile]
      generalize l.takeWhile notUp = l1 at *
      generalize l'.takeWhile notDn = l2 at *
      generalize l'.dropWhile notDn = rest at *
      rw [hsplit] at hok hc hctx' hn hf ⊢
      obtain ⟨fuel, rfl⟩ : ∃ f, fuel = f + 1 := ⟨fuel - 1, by simp at hf; omega⟩
      obtain ⟨B, hB, hBs, hstep⟩ := block_step kind fuel d l1 u l2 rest hok hc hd hl1 hu hl2 hrest first last m
      have := ih rest fuel (bl ++ [B]) _ _ _ (by simp at hn ⊢; omega) (by simp at hf ⊢; omega)
        (fun s hs => hok s (by simp [hs]))
        (by
          rw [← List.append_assoc] at hc
          exact (List.isChain_append.1 hc).2.1)
        hrest
        (by
          intro hne
          rw [← List.append_assoc, List.reverse_append] at hctx'
          cases hr : rest.reverse with
          | nil => simp at hr; exact absurd hr hne
          | cons x r =>
            rw [hr] at hctx'
            rcases hctx' with hx | ⟨hx, v, r', hv, hvu⟩
            · exact Or.inl hx
            · right
              refine ⟨hx, ?_⟩
              cases r with
              | nil =>
                exfalso
                have : rest = [x] := by rw [← List.reverse_reverse rest, hr]; rfl
                have := hrest x (by rw [this]; rfl)
                unfold Step.Dn at this; unfold Step.Hz at hx; omega
              | cons y r =>
                obtain ⟨rfl, _⟩ := List.cons.inj hv
                exact ⟨y, r, rfl, hvu⟩)
        (hinv.snoc B)
      obtain ⟨new, m', f', l'', e1, e2, e3, e4⟩ := this
      refine ⟨B :: new, m', f', l'', ?_, by simpa using e2, ?_, ?_⟩
      · rw [hstep]; exact e1
      · intro B' hB'
        rcases List.mem_cons.1 hB' with rfl | h
        · exact hB
        · exact e3 B' h
      · rw [List.flatMap_cons, e4, hBs]; simp

/-! ## The whole of `add_linear_ring` -/

/-- The final state: every new bound is linked to the one it meets at its maximum. -/
structure Linked' (kind : PolygonKind) (m0 : Minimums) (bl : List Block) (m : Minimums) : Prop where
  ne : bl ≠ []
  nb : m.nb = m0.nb + 2 * bl.length
  values : m.values = m0.values ++ bl.mapIdx fun i B => B.minimum (m0.nb + 2 * i)
  min : ∀ i B, bl[i]? = some B →
    m.bounds (m0.nb + 2 * i) = B.minBound kind (some (if i = 0 then m0.nb + 2 * bl.length - 1 else m0.nb + 2 * i - 1))
  max : ∀ i B, bl[i]? = some B →
    m.bounds (m0.nb + 2 * i + 1) = B.maxBound kind (some (if i + 1 < bl.length then m0.nb + 2 * i + 2 else m0.nb))
  old : ∀ i < m0.nb, m.bounds i = m0.bounds i

/-- The steps of a closed chain of edges. -/
theorem steps_of_along : ∀ (es : List Edge) (vs : List Point), Along vs es → (∀ e ∈ es, e.Wf) →
    (∀ e ∈ es, e.isHorizontal = true ↔ e.bottom.y = e.top.y) → es.IsChain (fun e f => ¬ EdgesParallel e f) →
    ∃ ss : List Step, ss.map Step.e = es ∧ (∀ s ∈ ss, s.Ok) ∧ ss.IsChain Linked
      ∧ (∀ s ∈ ss.head?, vs.head? = some s.a) ∧ (∀ s ∈ ss.getLast?, vs.getLast? = some s.b)
      ∧ ∀ c, pathSum c vs = (ss.map fun s => c s.a s.b).sum := by
  intro es
  induction es with
  | nil =>
    intro vs h _ _ _
    obtain ⟨a, rfl⟩ := Along.nil_iff.1 h
    exact ⟨[], rfl, by simp, List.isChain_nil, by simp, by simp, by simp [pathSum]⟩
  | cons e es ih =>
    intro vs h hw hh hp
    match vs, h with
    | a :: vs, h =>
      obtain ⟨b, vs', rfl, h1, h2⟩ := Along.cons_iff.1 h
      obtain ⟨ss, e1, e2, e3, e4, e5, e6⟩ := ih _ h2 (fun f hf => hw f (by simp [hf])) (fun f hf => hh f (by simp [hf]))
        (by cases es with
          | nil => exact List.isChain_nil
          | cons f es => exact (List.isChain_cons_cons.1 hp).2)
      have hew := hw e (by simp)
      have heh := hh e (by simp)
      refine ⟨⟨a, b, e⟩ :: ss, by simp [e1], ?_, ?_, ?_, ?_, ?_⟩
      · intro s hs
        rcases List.mem_cons.1 hs with rfl | hs
        · refine ⟨h1, hew, ?_⟩
          show e.isHorizontal = true ↔ a.y = b.y
          rw [heh]
          rcases h1 with ⟨f1, f2⟩ | ⟨f1, f2⟩ <;> rw [f1, f2]
          exact eq_comm
        · exact e2 s hs
      · cases ss with
        | nil => exact List.isChain_singleton _
        | cons t ss =>
          refine List.isChain_cons_cons.2 ⟨⟨?_, ?_⟩, e3⟩
          · have := e4 t (by simp)
            simpa using this
          · rw [List.map_cons] at e1
            rw [← e1] at hp
            exact (List.isChain_cons_cons.1 hp).1
      · intro s hs
        simp only [List.head?_cons, Option.mem_def, Option.some.injEq] at hs
        subst hs
        rfl
      · intro s hs
        cases ss with
        | nil =>
          simp only [List.map_nil] at e1
          subst e1
          obtain ⟨z, hz⟩ := Along.nil_iff.1 h2
          obtain ⟨rfl, rfl⟩ := List.cons.inj hz
          simp only [List.getLast?_singleton, Option.mem_def, Option.some.injEq] at hs
          subst hs
          simp
        | cons t ss =>
          have := e5 s (by simpa using hs)
          simpa using this
      · intro c
        simp only [pathSum, List.map_cons, List.sum_cons]
        rw [e6 c]

theorem horizontal_of_wf {e : Edge} (h : e.Wf) (ho : NoOverflow e.bottom e.top) : e.isHorizontal = true ↔ e.bottom.y = e.top.y := by
  have : e.isHorizontal = (Edge.mk' e.bottom e.top).isHorizontal := by
    unfold Edge.isHorizontal; rw [h.slope]
  rw [this]
  exact C30_horizontal_iff _ _ ho

/-- `add_linear_ring` either adds nothing, the ring having no edges, or cuts all its steps into blocks. -/
theorem addLinearRing_blocks (fuel : Nat) (m : Minimums) (ring : List Point) (kind : PolygonKind)
    (hf : 3 * ring.length + 3 ≤ fuel) (ho : ∀ p ∈ ring, ∀ q ∈ ring, NoOverflow p q) :
    (edgesOf fuel ring = .ok [] ∧ m.addLinearRing fuel ring kind = (m, .ok false))
    ∨ ∃ (es : List Edge) (ss : List Step) (bl : List Block) (m' : Minimums),
        edgesOf fuel ring = .ok es ∧ (ss.map Step.e).Perm es ∧ Cyc ss
          ∧ (∀ c, AddsUpOnLines c → (ss.map fun s => c s.a s.b).sum = ringSum c ring)
          ∧ m.addLinearRing fuel ring kind = (m', .ok true) ∧ Linked' kind m bl m' ∧ (∀ B ∈ bl, B.Good)
          ∧ bl.flatMap Block.steps = ss := by
  obtain ⟨es, h1, h2⟩ := edgesOf_spec ring fuel hf
  rcases h2 with ⟨rfl, _⟩ | ⟨vs, hcv, hl, _, hfb⟩
  · left
    refine ⟨h1, ?_⟩
    unfold Minimums.addLinearRing
    rw [h1]
  · right
    obtain ⟨ss, e1, e2, e3, e4, e5, e6⟩ := steps_of_along es vs hcv.along (fun e he => (hcv.wf e he).1)
      (fun e he => horizontal_of_wf (hcv.wf e he).1 (ho _ (hcv.wf e he).2.1 _ (hcv.wf e he).2.2)) hcv.np
    have hcyc : Cyc ss := by
      refine ⟨e2, e3, ?_⟩
      intro x hx y hy
      have hx' := e5 x hx
      have hy' := e4 y hy
      refine ⟨?_, ?_⟩
      · have := hcv.closed
        rw [hx', hy'] at this
        simpa using this.symm
      · intro hp
        refine hfb y.e x.e ?_ ?_ (parallel_comm hp)
        · rw [← e1, List.head?_map, Option.mem_def.1 hy]; rfl
        · rw [← e1, List.getLast?_map, Option.mem_def.1 hx]; rfl
    have hsl : 3 ≤ ss.length := by rw [← e1] at hl; simpa using hl
    obtain ⟨rs, r1, r2, r3, r4, r5⟩ := start_spec ss hcyc hsl
    obtain ⟨bl, m', first, last, a1, a2, a3, a4⟩ := addLoop_blocks kind m rs.length rs rs.length [] m none none (le_refl _) (le_refl _)
      r3.ok r3.chain (by
        obtain ⟨d, l, rfl, hd⟩ := r4
        intro s hs
        simp only [List.head?_cons, Option.mem_def, Option.some.injEq] at hs
        subst hs
        exact hd) (fun _ => r5) (LInv.nil kind m)
    rw [List.nil_append] at a2
    have hbl : bl ≠ [] := by
      rintro rfl
      obtain ⟨d, l, rfl, _⟩ := r4
      cases a4
    have hlen : 0 < bl.length := List.length_pos_iff.2 hbl
    have hnb := a2.nb
    have hfirst : first = some m.nb := by rw [a2.first, if_neg hbl]
    have hlast : last = some (m'.nb - 1) := by rw [a2.last, if_neg hbl]
    refine ⟨es, rs, bl, { m' with
        bounds :=
          (upd (upd m'.bounds (m'.nb - 1) { m'.bounds (m'.nb - 1) with maximumBound := some m.nb }) m.nb
            { (upd m'.bounds (m'.nb - 1) { m'.bounds (m'.nb - 1) with maximumBound := some m.nb }) m.nb with
              maximumBound := some (m'.nb - 1) }) },
      h1, ?_, r3, ?_, ?_, ?_, a3, a4⟩
    · rw [← e1]; exact r2.map _
    · intro c hc
      rw [(r2.map _).sum_eq, ← e6 c, hcv.sum c hc]
    · unfold Minimums.addLinearRing
      rw [h1]
      cases es with
      | nil => simp at hl
      | cons e es =>
        simp only
        rw [← e1, r1]
        simp only [List.length_map]
        rw [a1, hfirst, hlast]
    · refine ⟨hbl, hnb, a2.values, ?_, ?_, ?_⟩
      · intro i B hi
        have hmin := a2.min i B hi
        simp only
        by_cases hi0 : i = 0
        · subst hi0
          simp only [Nat.mul_zero, Nat.add_zero, if_true] at hmin ⊢
          rw [upd_same, upd_other _ _ _ _ (by omega), hmin, hnb]
          rfl
        · rw [upd_other _ _ _ _ (by omega), upd_other _ _ _ _ (by omega), hmin, if_neg hi0, if_neg hi0]
      · intro i B hi
        have hil : i < bl.length := by
          by_contra hn
          rw [List.getElem?_eq_none (by omega)] at hi
          cases hi
        have hmax := a2.max i B hi
        simp only
        rw [upd_other _ _ _ _ (by omega)]
        by_cases hl' : i + 1 < bl.length
        · rw [upd_other _ _ _ _ (by omega), hmax, if_pos hl', if_pos hl']
        · have : m.nb + 2 * i + 1 = m'.nb - 1 := by omega
          rw [← this, upd_same, hmax, if_neg hl', if_neg hl']
          rfl
      · intro i hi
        simp only
        rw [upd_other _ _ _ _ (by omega), upd_other _ _ _ _ (by omega)]
        exact a2.old i hi

end Wagyu
