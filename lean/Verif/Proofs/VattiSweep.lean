import Verif.Proofs.VattiHorizontal
import Verif.Proofs.Visits

/-!
# The second sweep: the invariant of the scanlines
-/

namespace Wagyu

open Spec

/-- What holds at every moment, at scanline `y`, with the minima `rest` still to come. -/
structure VMid (E : Nat → List Edge) (A : List LocalMinimum) (y : Int) (rest : List LocalMinimum) (s : St) : Prop where
  hw : HW s
  edges : ∀ b, (s.bounds b).edges = E b
  sorted : s.scan.Pairwise (· ≤ ·)
  below : ∀ v ∈ s.scan, v ≤ y
  row : ∀ v ∈ s.scan, |v| ≤ 2 ^ 52
  sub : ∀ m ∈ rest, m ∈ A
  nd : (idsOf rest).Nodup
  order : rest.Pairwise MinOrder
  act : ∀ b, some b ∈ s.abl → b ∈ idsOf A ∧ b ∉ idsOf rest
  idx : ∀ b, some b ∈ s.abl → (s.bounds b).nxtIdx = (s.bounds b).curIdx + 1
  restScan : ∀ m ∈ rest, m.y = y ∨ m.y ∈ s.scan
  span : ∀ b, some b ∈ s.abl → ∀ e f, (s.bounds b).currentEdge? = some e → (s.bounds b).nextEdge? = some f →
    e.top.y = y ∨ e.top.y ∈ s.scan
  tops : ∀ b, some b ∈ s.abl → ∀ e, (s.bounds b).currentEdge? = some e → e.isHorizontal = false → y ≤ e.top.y ∨ e.top.y ∈ s.scan

/-- The vertex of the bound on the scanline, if any, does not start a horizontal. -/
def PDone (y : Int) (s : St) (b : Nat) : Prop := ∀ e f, (s.bounds b).currentEdge? = some e → (s.bounds b).nextEdge? = some f →
  e.top.y = y → f.isHorizontal = false

/-- The bound has no vertex on the scanline any more. -/
def TDone (y : Int) (s : St) (b : Nat) : Prop := ∀ e f, (s.bounds b).currentEdge? = some e → (s.bounds b).nextEdge? = some f →
  e.top.y ≠ y

/-- Between two steps. -/
structure VI (E : Nat → List Edge) (A : List LocalMinimum) (y : Int) (rest : List LocalMinimum) (s : St) : Prop
    extends VMid E A y rest s where
  later : ∀ m ∈ rest, m.y ≠ y
  done : ∀ b, some b ∈ s.abl → TDone y s b

section
variable {F : Extent} {E : Nat → List Edge} {A : List LocalMinimum} {y : Int} {rest : List LocalMinimum} {s : St}

theorem VMid.fewer {s' : St} (h : VMid E A y rest s) (k : Fewer s s') : VMid E A y rest s' where
  hw := k.hw
  edges b := (k.bound b).edges.trans (h.edges b)
  sorted := k.scan ▸ h.sorted
  below := k.scan ▸ h.below
  row := k.scan ▸ h.row
  sub := h.sub
  nd := h.nd
  order := h.order
  act b hb := h.act b (k.active hb)
  idx b hb := by rw [(k.bound b).nxtIdx, (k.bound b).curIdx]; exact h.idx b (k.active hb)
  restScan := k.scan ▸ h.restScan
  span b hb e f he hf := by
    rw [(k.bound b).edge] at he
    rw [(k.bound b).next] at hf
    rw [k.scan]; exact h.span b (k.active hb) e f he hf
  tops b hb e he := by
    rw [(k.bound b).edge] at he
    rw [k.scan]; exact h.tops b (k.active hb) e he

theorem PDone.same {s' : St} {b : Nat} (h : PDone y s b) (k : SamePlace (s.bounds b) (s'.bounds b)) : PDone y s' b := by
  intro e f he hf
  rw [k.edge] at he
  rw [k.next] at hf
  exact h e f he hf
theorem TDone.same {s' : St} {b : Nat} (h : TDone y s b) (k : SamePlace (s.bounds b) (s'.bounds b)) : TDone y s' b := by
  intro e f he hf
  rw [k.edge] at he
  rw [k.next] at hf
  exact h e f he hf

theorem VMid.edge (h : VMid E A y rest s) {b : Nat} {e : Edge} (he : (s.bounds b).currentEdge? = some e) : e ∈ E b := by
  have := List.mem_of_getElem? he
  rw [h.edges] at this
  exact this
theorem VMid.next (h : VMid E A y rest s) {b : Nat} {e : Edge} (he : (s.bounds b).nextEdge? = some e) : e ∈ E b := by
  have := List.mem_of_getElem? he
  rw [h.edges] at this
  exact this

/-- The current x of bounds changes. -/
theorem VMid.xmoved {s' : St} (h : VMid E A y rest s) (k : XMoved s s') : VMid E A y rest s' := by
  have hc := k.cur
  obtain ⟨f, rfl, hf⟩ := k
  have hr : ∀ b, (f b).ring = (s.bounds b).ring := fun b => by obtain ⟨x, p, e⟩ := hf b; rw [e]
  have hn : ∀ b, (f b).nxtIdx = (s.bounds b).nxtIdx := fun b => by obtain ⟨x, p, e⟩ := hf b; rw [e]; rfl
  have hn' : ∀ b, (f b).nextEdge? = (s.bounds b).nextEdge? := fun b => by obtain ⟨x, p, e⟩ := hf b; rw [e]; rfl
  refine ⟨⟨h.hw.rings, h.hw.bottom, ⟨h.hw.forest.1, h.hw.forest.2, h.hw.forest.3⟩, h.hw.par, h.hw.rank,
    fun b r hb hbr => h.hw.held b r hb (by rw [← hr]; exact hbr), h.hw.once⟩,
    fun b => (hc b).2.2.trans (h.edges b), h.sorted, h.below, h.row, h.sub, h.nd, h.order, h.act, fun b hb => ?_, h.restScan, ?_, ?_⟩
  · rw [(hc b).2.1]
    exact (hn b).trans (h.idx b hb)
  · intro b hb e g he hg
    rw [(hc b).1] at he
    exact h.span b hb e g he ((hn' b).symm.trans hg)
  · intro b hb e he
    rw [(hc b).1] at he
    exact h.tops b hb e he

theorem XMoved.phi {s' : St} (k : XMoved s s') : Phi E A rest s' = Phi E A rest s := (k.quietly (F := ⟨0, 0, 0, 0⟩)).phi
theorem XMoved.left {s' : St} (k : XMoved s s') : Left E A s' = Left E A s := (k.quietly (F := ⟨0, 0, 0, 0⟩)).left
theorem XMoved.abl {s' : St} (k : XMoved s s') : s'.abl = s.abl := by obtain ⟨f, rfl, -⟩ := k; rfl
theorem XMoved.next {s' : St} (k : XMoved s s') (b : Nat) : (s'.bounds b).nextEdge? = (s.bounds b).nextEdge? := by
  obtain ⟨f, rfl, hf⟩ := k
  obtain ⟨x, p, e⟩ := hf b
  show (f b).nextEdge? = _
  rw [e]; rfl
theorem PDone.xmoved {s' : St} {b : Nat} (h : PDone y s b) (k : XMoved s s') : PDone y s' b := by
  intro e f he hf
  rw [(k.cur b).1] at he
  rw [k.next] at hf
  exact h e f he hf

/-! ## The next edge -/

theorem nxtIdx_setNxt (bd : Bound) {v : Nat} (hv : v ≤ bd.edges.length) : (bd.setNxt v).nxtIdx = v := by
  unfold Bound.setNxt Bound.nxtIdx
  dsimp only
  by_cases h : v < bd.edges.length
  · rw [if_pos h]
  · rw [if_neg h]; dsimp only; omega


theorem ok_toNextEdgeV (hG : Given F E A) (hF : ∀ v, F.Y v → |v| ≤ 2 ^ 52) (hs : VMid E A y rest s) {b : Nat} (hb : some b ∈ s.abl) {e f : Edge}
    (he : (s.bounds b).currentEdge? = some e) (hf : (s.bounds b).nextEdge? = some f) (hor : f.isHorizontal = true → e.top.y = y) :
    Ok (toNextEdge b) s fun _ s' => VMid E A y rest s' ∧ s'.abl = s.abl ∧ Phi E A rest s' ≤ Phi E A rest s
      ∧ Left E A s' < Left E A s ∧ (∀ c, c ≠ b → s'.bounds c = s.bounds c)
      ∧ PDone y s' b ∧ (f.isHorizontal = false → TDone y s' b) := by
  obtain ⟨hbA, hbr⟩ := hs.act b hb
  have hi := hs.idx b hb
  have hEl := hs.edges b
  have hPath := hG.path b hbA
  have hfe : (s.bounds b).edges[(s.bounds b).curIdx + 1]? = some f := by rw [← hi]; exact hf
  have hlt := (List.getElem?_eq_some_iff.1 hfe).1
  have hfE := hs.next hf
  have hstep := hPath.step (i := (s.bounds b).curIdx) (by rw [← hEl]; exact he) (by rw [← hEl]; exact hfe)
  have htopy : e.top.y ≤ y := by
    rcases hs.span b hb e f he hf with h | h
    · exact le_of_eq h
    · exact hs.below _ h
  have hfle := hPath.le f hfE
  have hfb : f.bottom.y = e.top.y := by rw [hstep.1]
  have hfrow : |f.top.y| ≤ 2 ^ 52 := hF _ (hG.inF b hbA f hfE).2.2
  refine Post.run (run_toNextEdge_next hfe) ?_
  generalize hB : ({ s.bounds b with cur := some ((s.bounds b).curIdx + 1), nxt := (if (s.bounds b).nxtIdx + 1 < (s.bounds b).edges.length then some ((s.bounds b).nxtIdx + 1) else none), currentX := F64.ofInt f.bottom.x } : Bound) = B
  have Be : B.edges = E b := by rw [← hB]; exact hEl
  have Bc : B.curIdx = (s.bounds b).curIdx + 1 := by rw [← hB]; rfl
  have Bcur : B.currentEdge? = some f := by
    show B.edges[B.curIdx]? = _
    rw [Bc, Be, ← hEl]; exact hfe
  have Bn : B.nxtIdx = B.curIdx + 1 := by
    rw [Bc, ← hB]
    have := nxtIdx_setNxt { s.bounds b with cur := some ((s.bounds b).curIdx + 1), currentX := F64.ofInt f.bottom.x } (v := (s.bounds b).nxtIdx + 1)
      (by show (s.bounds b).nxtIdx + 1 ≤ (s.bounds b).edges.length; omega)
    rw [hi] at this
    rw [hi]
    exact this
  have Br : B.ring = (s.bounds b).ring := by rw [← hB]
  clear hB
  have hcur : ∀ c, (upd s.bounds b B c).curIdx = if c = b then (s.bounds b).curIdx + 1 else (s.bounds c).curIdx := by
    intro c
    by_cases h : c = b
    · subst h; rw [Wagyu.upd_same, if_pos rfl, Bc]
    · rw [Wagyu.upd_other _ _ _ _ h, if_neg h]
  generalize hsc : (if f.isHorizontal then s.scan else insortUnique s.scan f.top.y) = scan'
  have hmem : ∀ v ∈ scan', v = f.top.y ∨ v ∈ s.scan := by
    intro v hv
    rw [← hsc] at hv
    split at hv
    · exact Or.inr hv
    · exact (C11_mem _ _ _ hs.sorted).1 hv
  have hold : ∀ v ∈ s.scan, v ∈ scan' := by
    intro v hv
    rw [← hsc]
    split
    · exact hv
    · exact (C11_mem _ _ _ hs.sorted).2 (Or.inr hv)
  have hft : f.top.y = y ∨ f.top.y ∈ scan' := by
    by_cases hh : f.isHorizontal = true
    · left
      have := (hPath.hor f hfE).1 hh
      have := hor hh
      omega
    · right
      rw [← hsc, if_neg hh]
      exact (C11_mem _ _ _ hs.sorted).2 (Or.inl rfl)
  have hfnh : f.isHorizontal = false → f.top.y < f.bottom.y := by
    intro hn
    have : f.top.y ≠ f.bottom.y := fun h => by rw [(hPath.hor f hfE).2 h] at hn; cases hn
    omega
  refine ⟨⟨⟨hs.hw.rings, hs.hw.bottom, ⟨hs.hw.forest.1, hs.hw.forest.2, hs.hw.forest.3⟩, hs.hw.par, hs.hw.rank,
    fun c r hc hcr => ?_, hs.hw.once⟩, fun c => ?_, ?_, ?_, ?_, hs.sub, hs.nd, hs.order, hs.act, ?_, ?_, ?_, ?_⟩, rfl, ?_, ?_,
    fun c hc => Wagyu.upd_other _ _ _ _ hc, ?_, ?_⟩
  · change Bound.ring (upd s.bounds b B c) = some r at hcr
    by_cases h : c = b
    · subst h; rw [Wagyu.upd_same, Br] at hcr; exact hs.hw.held c r hc hcr
    · rw [Wagyu.upd_other _ _ _ _ h] at hcr; exact hs.hw.held c r hc hcr
  · show (upd _ _ _ c : Bound).edges = _
    by_cases h : c = b
    · subst h; rw [Wagyu.upd_same]; exact Be
    · rw [Wagyu.upd_other _ _ _ _ h]; exact hs.edges c
  · show scan'.Pairwise _
    rw [← hsc]
    split
    · exact hs.sorted
    · exact C11_sorted _ _ hs.sorted
  · intro v hv
    rcases hmem v hv with rfl | h
    · omega
    · exact hs.below v h
  · intro v hv
    rcases hmem v hv with rfl | h
    · exact hfrow
    · exact hs.row v h
  · intro c hc
    show Bound.nxtIdx (upd _ _ _ c) = Bound.curIdx (upd _ _ _ c) + 1
    by_cases h : c = b
    · subst h; rw [Wagyu.upd_same]; exact Bn
    · rw [Wagyu.upd_other _ _ _ _ h]; exact hs.idx c hc
  · intro m hm
    exact (hs.restScan m hm).imp id (hold _)
  · intro c hc g g' hg hg'
    change Bound.currentEdge? (upd s.bounds b B c) = some g at hg
    change Bound.nextEdge? (upd s.bounds b B c) = some g' at hg'
    show _ ∨ g.top.y ∈ scan'
    by_cases h : c = b
    · subst h
      rw [Wagyu.upd_same, Bcur] at hg
      cases hg
      exact hft
    · rw [Wagyu.upd_other _ _ _ _ h] at hg hg'
      exact (hs.span c hc g g' hg hg').imp id (hold _)
  · intro c hc g hg hgh
    change Bound.currentEdge? (upd s.bounds b B c) = some g at hg
    show _ ∨ g.top.y ∈ scan'
    by_cases h : c = b
    · subst h
      rw [Wagyu.upd_same, Bcur] at hg
      cases hg
      exact hft.imp (fun h => h.ge) id
    · rw [Wagyu.upd_other _ _ _ _ h] at hg
      exact (hs.tops c hc g hg hgh).imp id (hold _)
  · have hlen : scan'.length ≤ s.scan.length + 1 := by
      rw [← hsc]
      have := insort_length s.scan f.top.y
      split <;> omega
    unfold Phi
    have : ((idsOf A).map (wt E rest { s with bounds := upd s.bounds b B, scan := scan' })).sum + 1 ≤ ((idsOf A).map (wt E rest s)).sum := by
      refine sum_step (b := b) (fun c _ => ?_) hbA (c := 1) ?_
      · unfold wt
        split
        · exact Nat.le_refl _
        · dsimp only
          rw [hcur]
          split
          · next h => subst h; omega
          · exact Nat.le_refl _
      · unfold wt
        rw [if_neg hbr, if_neg hbr]
        dsimp only
        rw [hcur, if_pos rfl]
        rw [hEl] at hlt
        omega
    show scan'.length + _ ≤ _
    omega
  · unfold Left
    refine Nat.lt_of_succ_le (sum_step (b := b) (fun c _ => ?_) hbA (c := 1) ?_)
    · dsimp only
      rw [hcur]
      split
      · next h => subst h; omega
      · exact Nat.le_refl _
    · dsimp only
      rw [hcur, if_pos rfl]
      rw [hEl] at hlt
      omega
  · intro g g' hg hg' hgy
    rw [show (St.bounds _ b) = upd s.bounds b _ b from rfl, Wagyu.upd_same] at hg hg'
    rw [Bcur] at hg
    cases hg
    by_contra hh
    by_cases hfh : f.isHorizontal = true
    · have hnx : (E b)[(s.bounds b).curIdx + 1 + 1]? = some g' := by
        have : B.edges[B.nxtIdx]? = some g' := hg'
        rwa [Be, Bn, Bc] at this
      exact (hPath.step (by rw [← hEl]; exact hfe) hnx).2 ⟨hfh, by simpa using hh⟩
    · have := hfnh (by simpa using hfh)
      omega
  · intro hn g g' hg hg'
    rw [show (St.bounds _ b) = upd s.bounds b _ b from rfl, Wagyu.upd_same] at hg hg'
    rw [Bcur] at hg
    cases hg
    have := hfnh hn
    omega

end

end Wagyu
