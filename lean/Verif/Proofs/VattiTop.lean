import Verif.Proofs.VattiOpen

/-!
# The second sweep: the top of a scanbeam
-/

namespace Wagyu

open Spec

section
variable {F : Extent} {E : Nat → List Edge} {A : List LocalMinimum} {y : Int} {rest : List LocalMinimum} {s : St}
variable (op : OperationKind) (sf cf : FillKind)

theorem filterMap_filter_some (l : List (Option Nat)) : (l.filter Option.isSome).filterMap id = l.filterMap id := by
  induction l with
  | nil => rfl
  | cons a l ih => cases a <;> simp_all

theorem VMid.abl (h : VMid E A y rest s) {l : List (Option Nat)} (hl : (l.filterMap id).Subperm (s.abl.filterMap id)) :
    VMid E A y rest { s with abl := l } := by
  have hm : ∀ b, some b ∈ l → some b ∈ s.abl := fun b hb => mem_actives.1 (hl.subset (mem_actives.2 hb))
  exact ⟨h.hw.actives hl, h.edges, h.sorted, h.below, h.row, h.sub, h.nd, h.order, fun b hb => h.act b (hm b hb), fun b hb => h.idx b (hm b hb),
    h.restScan, fun b hb => h.span b (hm b hb), fun b hb => h.tops b (hm b hb)⟩

theorem VMid.filter (h : VMid E A y rest s) : VMid E A y rest { s with abl := s.abl.filter Option.isSome } :=
  h.abl (by rw [filterMap_filter_some])

/-- What has been done for the active bounds before position `bi`. -/
structure VTop (E : Nat → List Edge) (A : List LocalMinimum) (y : Int) (rest : List LocalMinimum) (c : Nat) (bi : Nat) (s : St) : Prop where
  mid : VMid E A y rest s
  phi : Phi E A rest s ≤ c
  pos : ∀ j b, j < bi → s.abl[j]? = some (some b) → PDone y s b

theorem tot_isIntermediate {b : Nat} {Q : Bool → St → Prop} (h : ∀ r, (r = true → ∃ e f, (s.bounds b).currentEdge? = some e ∧ (s.bounds b).nextEdge? = some f ∧ e.top.y = y) →
    (r = false → TDone y s b) → Q r s) : Tot (isIntermediate b y) s Q := by
  unfold isIntermediate
  refine Tot.bind (Tot.getBound (Tot.ite (fun hlt => Tot.bind (Tot.currentEdge fun e he => Tot.pure (h _ (fun hr => ?_) fun hr => ?_))) fun hlt => Tot.pure (h _ nofun fun _ => ?_)))
  · exact ⟨e, _, he, List.getElem?_eq_getElem hlt, of_decide_eq_true hr⟩
  · intro e' f he' hf
    rw [he] at he'; cases he'
    exact of_decide_eq_false hr
  · intro e f he hf
    exact absurd (List.getElem?_eq_some_iff.1 hf).1 hlt

theorem TDone.pdone {b : Nat} (h : TDone y s b) : PDone y s b := fun e f he hf hy => absurd hy (h e f he hf)

theorem Tot.nextEdge {b : Nat} {Q : Edge → St → Prop} (h : ∀ e, (s.bounds b).nextEdge? = some e → Q e s) :
    Tot (Wagyu.nextEdge b) s Q := by
  unfold Wagyu.nextEdge
  exact Tot.bind (Tot.getBound (Tot.orIndex h))

theorem VTop.fewer {c bi : Nat} {s' : St} (h : VTop E A y rest c bi s) (k : Fewer s s') {bi' : Nat}
    (hp : ∀ j b, j < bi' → s'.abl[j]? = some (some b) → j < bi ∧ s.abl[j]? = some (some b)) : VTop E A y rest c bi' s' :=
  ⟨h.mid.fewer k, k.phi ▸ h.phi, fun j b hj hb => (h.pos j b (hp j b hj hb).1 (hp j b hj hb).2).same (k.bound b)⟩

theorem VTop.grown {c bi : Nat} {s' : St} (h : VTop E A y rest c bi s) (k : Grown s s') : VTop E A y rest c bi s' :=
  h.fewer k.exch.fewer fun j b hj hb => ⟨hj, by rw [k.still.abl] at hb; exact hb⟩

theorem tot_topLoop (hG : Given F E A) (hF : ∀ v, F.Y v → |v| ≤ 2 ^ 52) (hs : VMid E A y rest s) :
    Tot (topOfScanbeamLoop op sf cf y) s fun _ s' => VTop E A y rest (Phi E A rest s) s'.abl.length s' := by
  unfold topOfScanbeamLoop
  refine Tot.loopM (fun bi s' => VTop E A y rest (Phi E A rest s) bi s') (fun bi s' => actives s' + (s'.abl.length - bi)) ?_ ⟨hs, Nat.le_refl _, nofun⟩
  intro bi s1 hI
  refine Tot.bind (Tot.ablLen (Tot.ite (fun hlt => ?_) fun hlt => Tot.pure ?_))
  · refine Tot.bind (Tot.ablGet fun o ho => ?_)
    cases o with
    | none =>
      refine Tot.pure ⟨⟨hI.mid, hI.phi, fun j c hj hc => ?_⟩, by omega⟩
      by_cases h : j = bi
      · subst h; rw [ho] at hc; cases hc
      · exact hI.pos j c (by omega) hc
    | some b =>
      have hb : some b ∈ s1.abl := List.mem_of_getElem? ho
      dsimp only
      refine Tot.bind (Tot.steady (hm := by steady) (HW.reader (hm := by pres) fun mx => ?_))
      cases mx with
      | some mi =>
        refine Tot.bind ((tot_doMaxima op sf cf hI.mid.hw mi ho).imp ?_)
        rintro r s2 ⟨k1, k2, k3, k4⟩
        refine Tot.pure ⟨hI.fewer k1 k4, ?_⟩
        have := k1.len
        omega
      | none =>
        dsimp only
        refine Tot.bind (Tot.imp (Q := fun r s' => s' = s1 ∧ (r = true → ∃ e f, (s1.bounds b).currentEdge? = some e ∧ (s1.bounds b).nextEdge? = some f
          ∧ e.top.y = y ∧ f.isHorizontal = true) ∧ (r = false → PDone y s1 b)) ?_ ?_)
        · refine Tot.bind (tot_isIntermediate fun r h1 h2 => Tot.ite (fun hr => ?_) fun hr => Tot.pure ⟨rfl, nofun, fun _ => (h2 (by simpa using hr)).pdone⟩)
          obtain ⟨e, f, he, hf, hy⟩ := h1 hr
          refine Tot.bind (Tot.nextEdge fun f' hf' => Tot.pure ⟨rfl, fun hh => ⟨e, f', he, hf', hy, hh⟩, fun hh e' f'' _ hf'' _ => ?_⟩)
          rw [hf'] at hf''; cases hf''
          exact hh
        · rintro promote _ ⟨rfl, p1, p2⟩
          rename_i s2
          have last : ∀ s3, VTop E A y rest (Phi E A rest s) bi s3 → s3.abl = s2.abl → PDone y s3 b →
              VTop E A y rest (Phi E A rest s) (bi + 1) s3 ∧ actives s3 + (s3.abl.length - (bi + 1)) < actives s2 + (s2.abl.length - bi) := by
            intro s3 h3 ha hp
            refine ⟨⟨h3.mid, h3.phi, fun j c hj hc => ?_⟩, ?_⟩
            · by_cases h : j = bi
              · subst h; rw [ha, ho] at hc; cases hc; exact hp
              · exact h3.pos j c (by omega) hc
            · unfold actives
              rw [ha]
              omega
          refine Tot.ite (fun hp => ?_) fun hp => ?_
          · obtain ⟨e, f, he, hf, hy, hh⟩ := p1 hp
            have fin : ∀ s3, Grown s2 s3 → Tot (do
                toNextEdge b
                let __do_lift ← getBound b
                if __do_lift.ring.isSome = true then do
                    let e ← currentEdge b
                    addPointToRing b e.bottom
                    pure (Sum.inl (bi + 1))
                  else pure (Sum.inl (bi + 1))) s3 fun r s' =>
                match (r : Nat ⊕ Unit) with
                | .inl y_1 => VTop E A y rest (Phi E A rest s) y_1 s' ∧ actives s' + (s'.abl.length - y_1) < actives s2 + (s2.abl.length - bi)
                | .inr b => VTop E A y rest (Phi E A rest s) s'.abl.length s' := by
              intro s3 k
              have h3 := hI.grown k
              have hb3 := k.active hb
              refine Tot.bind ((Tot.steady (ok_toNextEdgeV hG hF h3.mid hb3 (e := e) (f := f) ?_ ?_ fun _ => hy)).imp ?_)
              · rw [(k.still.bound b).edge]; exact he
              · rw [(k.still.bound b).next]; exact hf
              rintro _ s4 ⟨a1, a2, a3, a4, a5, a6, -⟩
              have h4 : VTop E A y rest (Phi E A rest s) bi s4 := by
                refine ⟨a1, a3.trans h3.phi, fun j c hj hc => ?_⟩
                by_cases hcb : c = b
                · subst hcb; exact a6
                · rw [a2] at hc
                  have := h3.pos j c hj hc
                  unfold PDone at this ⊢
                  rw [a5 c hcb]; exact this
              refine Tot.bind (Tot.getBound (Tot.ite (fun _ => ?_) fun _ => Tot.pure (last s4 h4 (a2.trans k.still.abl) a6)))
              refine Tot.bind (Tot.currentEdge fun g _ => ?_)
              refine Tot.bind ((tot_addPointToRing a1.hw (by rw [a2]; exact hb3) _).imp fun _ s5 k5 => Tot.pure ?_)
              exact last s5 (h4.grown k5) (k5.still.abl.trans (a2.trans k.still.abl)) (a6.same (k5.still.bound b))
            refine Tot.bind (Tot.getBound (Tot.ite (fun _ => ?_) fun _ => (fin s2 (Grown.refl hI.mid.hw)).imp (by rintro (_ | _) _ h <;> exact h)))
            refine Tot.bind (Tot.currentEdge fun g _ => ?_)
            exact Tot.bind ((tot_insertHotPixelsInPath hI.mid.hw hb _ _).imp fun _ s3 k => (fin s3 k).imp (by rintro (_ | _) _ h <;> exact h))
          · refine Tot.bind (Tot.currentEdge fun g _ => ?_)
            refine Tot.bind (Tot.modBound (Tot.pure ?_))
            have hx : XMoved s2 { s2 with bounds := upd s2.bounds b { s2.bounds b with currentX := g.getCurrentX y } } := xmoved_x
            exact last _ ⟨hI.mid.xmoved hx, hx.phi ▸ hI.phi, fun j c hj hc => (hI.pos j c hj hc).xmoved hx⟩ rfl ((p2 (by simpa using hp)).xmoved hx)
  · exact ⟨hI.mid, hI.phi, fun j c hj hc => hI.pos j c (by omega) hc⟩

/-- Nothing on the scanline starts a horizontal any more. -/
structure VPd (E : Nat → List Edge) (A : List LocalMinimum) (y : Int) (rest : List LocalMinimum) (c : Nat) (s : St) : Prop where
  mid : VMid E A y rest s
  phi : Phi E A rest s ≤ c
  all : ∀ b, some b ∈ s.abl → PDone y s b

theorem VTop.all {c : Nat} (h : VTop E A y rest c s.abl.length s) : VPd E A y rest c { s with abl := s.abl.filter Option.isSome } := by
  refine ⟨h.mid.filter, h.phi, fun b hb => ?_⟩
  obtain ⟨j, hj⟩ := List.mem_iff_getElem?.1 (List.mem_filter.1 hb).1
  exact h.pos j b (List.getElem?_eq_some_iff.1 hj).1 hj

theorem tot_insertHorizontal (hG : Given F E A) (hF : ∀ v, F.Y v → |v| ≤ 2 ^ 52) {c : Nat} : ∀ (rest : List LocalMinimum) (s : St),
    VPd E A y rest c s → Tot (insertHorizontalLocalMinima op sf cf y rest) s fun r s' => VPd E A y r c s'
      ∧ ∀ m ∈ r, m.y = y → m.hasHorizontal = false
  | [], s, hs => by
    rw [insertHorizontalLocalMinima]
    exact Tot.pure ⟨hs, by simp⟩
  | m :: rest, s, hs => by
    rw [insertHorizontalLocalMinima]
    refine Tot.ite (fun h => ?_) fun h => Tot.pure ⟨hs, fun m' hm' hy => ?_⟩
    · rw [← M.assoc]
      refine Tot.bind ((tot_openMinimum op sf cf hG hF hs.mid h.1).imp ?_)
      rintro _ s1 ⟨a1, a2, a3⟩
      refine tot_insertHorizontal hG hF rest s1 ⟨a1, a2.trans hs.phi, fun b hb => ?_⟩
      rcases a3 b hb with ⟨h1, h2⟩ | ⟨h1, -⟩
      · exact (hs.all b h1).same h2
      · exact h1
    · have key : ∀ m' ∈ m :: rest, m.y = y ∨ m'.y ≠ y := by
        intro m' hm'
        by_cases hmy : m.y = y
        · exact Or.inl hmy
        · right
          have hle : m.y ≤ y := (hs.mid.restScan m (by simp)).elim (fun h => le_of_eq h) fun h => hs.mid.below _ h
          rcases List.mem_cons.1 hm' with rfl | hm'
          · exact hmy
          · have := (List.pairwise_cons.1 hs.mid.order).1 m' hm'
            unfold MinOrder at this
            omega
      by_contra hh
      have hh : m'.hasHorizontal = true := by simpa using hh
      have hmy : m.y = y := (key m' hm').resolve_right (fun h => h hy)
      rcases List.mem_cons.1 hm' with rfl | hm'
      · exact h ⟨hmy, hh⟩
      · rcases (List.pairwise_cons.1 hs.mid.order).1 m' hm' with h1 | ⟨-, h2⟩
        · omega
        · exact h ⟨hmy, h2 hh⟩

theorem tot_processHorizontals (hG : Given F E A) (hF : ∀ v, F.Y v → |v| ≤ 2 ^ 52) {c : Nat} (hs : VPd E A y rest c s) :
    Tot (processHorizontals op sf cf y) s fun _ s' => VPd E A y rest c s' := by
  unfold processHorizontals
  refine Tot.bind ((Tot.loopM (Q := fun _ s' => VPd E A y rest c s') (fun _ s' => VPd E A y rest c s')
    (fun i s' => Left E A s' + actives s' + (s'.abl.length - i)) ?_ hs).imp fun _ s1 h1 => ?_)
  · intro i s1 hI
    refine Tot.bind (Tot.ablLen (Tot.ite (fun hlt => ?_) fun hlt => Tot.pure hI))
    refine Tot.bind (Tot.ablGet fun o ho => ?_)
    cases o with
    | none => exact Tot.pure ⟨hI, by omega⟩
    | some b =>
      have hb : some b ∈ s1.abl := List.mem_of_getElem? ho
      refine Tot.bind (Tot.currentEdge fun e he => Tot.ite (fun hh => ?_) fun hh => Tot.pure ⟨hI, by omega⟩)
      have hbA := (hI.mid.act b hb).1
      refine Tot.bind ((tot_processHorizontal op sf cf hI.mid.hw y ho
        (Q := fun s' => VPd E A y rest c s' ∧ Left E A s' + actives s' < Left E A s1 + actives s1 ∧ s'.abl.length = s1.abl.length) ?_ ?_).imp ?_)
      · intro s2 k hn
        have h2 : VMid E A y rest s2 := hI.mid.fewer k.fewer
        have hb2 := k.active hb
        have he2 : (s2.bounds b).currentEdge? = some e := by rw [(k.bound b).edge]; exact he
        have hf2 := List.getElem?_eq_getElem hn
        have hnh : (s2.bounds b).edges[(s2.bounds b).nxtIdx].isHorizontal = false := by
          by_contra hx
          refine ((hG.path b hbA).step (i := (s2.bounds b).curIdx) (e := e) (f := (s2.bounds b).edges[(s2.bounds b).nxtIdx]) ?_ ?_).2 ⟨hh, by simpa using hx⟩
          · rw [← h2.edges]; exact he2
          · rw [← h2.edges, ← h2.idx b hb2]; exact hf2
        refine (Tot.steady (ok_toNextEdgeV hG hF h2 hb2 he2 hf2 (fun hx => by rw [hnh] at hx; cases hx))).imp ?_
        rintro _ s3 ⟨a1, a2, a3, a4, a5, a6, -⟩
        refine ⟨⟨a1, (a3.trans (le_of_eq k.fewer.phi)).trans hI.phi, fun d hd => ?_⟩, ?_, ?_⟩
        · by_cases hdb : d = b
          · subst hdb; exact a6
          · have := hI.all d (k.fewer.active (by rw [← a2]; exact hd))
            have := this.same (k.bound d)
            unfold PDone at this ⊢
            rw [a5 d hdb]; exact this
        · have e1 : actives s3 = actives s2 := by unfold actives; rw [a2]
          have e2 := k.fewer.count
          have e3 : Left E A s2 = Left E A s1 := k.fewer.left
          omega
        · rw [a2]; exact k.fewer.len
      · intro s2 k hlt
        refine ⟨⟨hI.mid.fewer k, k.phi ▸ hI.phi, fun d hd => (hI.all d (k.active hd)).same (k.bound d)⟩, ?_, k.len⟩
        have e3 : Left E A s2 = Left E A s1 := k.left
        omega
      · rintro r s2 ⟨hr, h1, h2, h3⟩
        exact Tot.pure ⟨h1, by omega⟩
  · refine Tot.modify (fun _ _ => rfl) ⟨h1.mid.filter, h1.phi, fun b hb => h1.all b (List.mem_filter.1 hb).1⟩

theorem tot_promote (hG : Given F E A) (hF : ∀ v, F.Y v → |v| ≤ 2 ^ 52) {c : Nat} : ∀ (l : List (Option Nat)) (s : St),
    VPd E A y rest c s → (∀ b, some b ∈ l → some b ∈ s.abl) → (∀ b, some b ∈ s.abl → TDone y s b ∨ some b ∈ l) →
    Tot (promoteIntermediate y l) s fun _ s' => VPd E A y rest c s' ∧ ∀ b, some b ∈ s'.abl → TDone y s' b
  | [], s, hs, _, hd => by
    rw [promoteIntermediate]
    exact Tot.pure ⟨hs, fun b hb => (hd b hb).resolve_right (by simp)⟩
  | o :: l, s, hs, hl, hd => by
    rw [promoteIntermediate]
    refine Tot.bind (Tot.deref fun b hb => ?_)
    subst hb
    have hb : some b ∈ s.abl := hl b (by simp)
    refine Tot.bind (tot_isIntermediate fun r h1 h2 => Tot.ite (fun hr => ?_) fun hr => ?_)
    · obtain ⟨e, f, he, hf, hy⟩ := h1 hr
      have fin : ∀ s2, Grown s s2 → Tot (do
          toNextEdge b
          promoteIntermediate y l) s2 fun _ s' => VPd E A y rest c s' ∧ ∀ b, some b ∈ s'.abl → TDone y s' b := by
        intro s2 k
        have hb2 := k.active hb
        have m2 := hs.mid.fewer k.exch.fewer
        have hnh : f.isHorizontal = false := hs.all b hb e f he hf hy
        refine Tot.bind ((Tot.steady (ok_toNextEdgeV hG hF m2 hb2 (e := e) (f := f) ?_ ?_ fun _ => hy)).imp ?_)
        · rw [(k.still.bound b).edge]; exact he
        · rw [(k.still.bound b).next]; exact hf
        rintro _ s3 ⟨a1, a2, a3, a4, a5, a6, a7⟩
        have hact : ∀ d, some d ∈ s3.abl → some d ∈ s.abl := fun d hd => by rw [a2, k.still.abl] at hd; exact hd
        refine tot_promote hG hF l s3 ⟨a1, (a3.trans (le_of_eq k.exch.fewer.phi)).trans hs.phi, fun d hd => ?_⟩ (fun d hd => ?_) fun d hd' => ?_
        · by_cases hdb : d = b
          · subst hdb; exact a6
          · have := (hs.all d (hact d hd)).same (k.still.bound d)
            unfold PDone at this ⊢
            rw [a5 d hdb]; exact this
        · rw [a2]; exact k.active (hl d (by simp [hd]))
        · by_cases hdb : d = b
          · subst hdb; exact Or.inl (a7 hnh)
          · refine (hd d (hact d hd')).imp (fun h => ?_) fun h => ?_
            · have := h.same (k.still.bound d)
              unfold TDone at this ⊢
              rw [a5 d hdb]; exact this
            · rcases List.mem_cons.1 h with h | h
              · cases h; exact absurd rfl hdb
              · exact h
      refine Tot.bind (Tot.getBound (Tot.ite (fun _ => ?_) fun _ => fin s (Grown.refl hs.mid.hw)))
      refine Tot.bind (Tot.currentEdge fun g _ => ?_)
      exact Tot.bind ((tot_addPointToRing hs.mid.hw hb _).imp fun _ s3 k => fin s3 k)
    · refine tot_promote hG hF l s hs (fun d hd => hl d (by simp [hd])) fun d hd' => ?_
      rcases hd d hd' with h | h
      · exact Or.inl h
      · rcases List.mem_cons.1 h with h | h
        · cases h; exact Or.inl (h2 (by simpa using hr))
        · exact Or.inr h

theorem tot_topOfScanbeam (hG : Given F E A) (hF : ∀ v, F.Y v → |v| ≤ 2 ^ 52) (hs : VMid E A y rest s) :
    Tot (processEdgesAtTopOfScanbeam op sf cf y rest) s fun r s' => VPd E A y r (Phi E A rest s) s'
      ∧ (∀ b, some b ∈ s'.abl → TDone y s' b) ∧ ∀ m ∈ r, m.y = y → m.hasHorizontal = false := by
  unfold processEdgesAtTopOfScanbeam
  refine Tot.bind ((tot_topLoop op sf cf hG hF hs).imp fun _ s1 h1 => Tot.bind (Tot.modify (fun _ _ => rfl) ?_))
  refine Tot.bind ((tot_insertHorizontal op sf cf hG hF rest _ h1.all).imp ?_)
  rintro r s2 ⟨h2, h2'⟩
  refine Tot.bind ((tot_processHorizontals op sf cf hG hF h2).imp fun _ s3 h3 => ?_)
  refine Tot.bind (Tot.gets (fun _ _ => rfl) ?_)
  refine Tot.bind ((tot_promote hG hF s3.abl s3 h3 (fun _ h => h) fun _ h => Or.inr h).imp ?_)
  rintro _ s4 ⟨h4, h4'⟩
  exact Tot.pure ⟨h4, h4', h2'⟩

theorem tot_insertLocalMinima (hG : Given F E A) (hF : ∀ v, F.Y v → |v| ≤ 2 ^ 52) {c : Nat} : ∀ (rest : List LocalMinimum) (s : St),
    VMid E A y rest s → Phi E A rest s ≤ c → (∀ b, some b ∈ s.abl → TDone y s b) → (∀ m ∈ rest, m.y = y → m.hasHorizontal = false) →
    Tot (insertLocalMinima op sf cf y rest) s fun r s' => VI E A y r s' ∧ Phi E A r s' ≤ c
  | [], s, hs, hp, ht, _ => by
    rw [insertLocalMinima]
    exact Tot.pure ⟨⟨hs, by simp, ht⟩, hp⟩
  | m :: rest, s, hs, hp, ht, hh => by
    rw [insertLocalMinima]
    refine Tot.ite (fun h => ?_) fun h => Tot.pure ⟨⟨hs, fun m' hm' hy => ?_, ht⟩, hp⟩
    · rw [← M.assoc]
      refine Tot.bind ((tot_openMinimum op sf cf hG hF hs h).imp ?_)
      rintro _ s1 ⟨a1, a2, a3⟩
      refine tot_insertLocalMinima hG hF rest s1 a1 (a2.trans hp) (fun b hb => ?_) fun v hv => hh v (by simp [hv])
      rcases a3 b hb with ⟨h1, h2⟩ | ⟨-, h1⟩
      · exact (ht b h1).same h2
      · exact h1 (hh m (by simp) h)
    · have hle : m.y ≤ y := (hs.restScan m (by simp)).elim (fun h => le_of_eq h) fun h => hs.below _ h
      rcases List.mem_cons.1 hm' with rfl | hm'
      · exact h hy
      · have := (List.pairwise_cons.1 hs.order).1 m' hm'
        unfold MinOrder at this
        omega

theorem VI.pop {Y : Int} (hs : VI E A Y rest s) {v : Int} (hv : s.scan.getLast? = some v) :
    v ≤ Y ∧ |v| ≤ 2 ^ 52 ∧ VMid E A v rest { s with scan := s.scan.dropLast }
      ∧ Phi E A rest { s with scan := s.scan.dropLast } < Phi E A rest s := by
  obtain ⟨l, hl⟩ : ∃ l, s.scan = l ++ [v] := by
    rw [List.getLast?_eq_some_iff] at hv
    exact hv
  have hd : s.scan.dropLast = l := by rw [hl]; simp
  have hsort := hs.sorted
  rw [hl, List.pairwise_append] at hsort
  have hle : ∀ x ∈ l, x ≤ v := fun x hx => hsort.2.2 x hx v (by simp)
  have hmem : ∀ x ∈ s.scan, x = v ∨ x ∈ l := by
    intro x hx
    rw [hl] at hx
    simp at hx
    tauto
  have hvm : v ∈ s.scan := by rw [hl]; simp
  refine ⟨hs.below v hvm, hs.row v hvm, ⟨hs.hw.scanned _, hs.edges, ?_, ?_, ?_, hs.sub, hs.nd, hs.order, hs.act, hs.idx, ?_, ?_, ?_⟩, ?_⟩
  · show s.scan.dropLast.Pairwise _; rw [hd]; exact hsort.1
  · show ∀ x ∈ s.scan.dropLast, _; rw [hd]; exact hle
  · show ∀ x ∈ s.scan.dropLast, _; rw [hd]; exact fun x hx => hs.row x (by rw [hl]; simp [hx])
  · show ∀ m ∈ rest, m.y = v ∨ m.y ∈ s.scan.dropLast
    rw [hd]
    exact fun m hm => hmem _ ((hs.restScan m hm).resolve_left (hs.later m hm))
  · intro b hb e f he hf
    show (_ ∨ e.top.y ∈ s.scan.dropLast)
    rw [hd]
    exact hmem _ ((hs.span b hb e f he hf).resolve_left (hs.done b hb e f he hf))
  · intro b hb e he hh
    show (_ ∨ e.top.y ∈ s.scan.dropLast)
    rw [hd]
    rcases hs.tops b hb e he hh with h | h
    · exact .inl (le_trans (hs.below v hvm) h)
    · exact (hmem _ h).imp (fun h => h.ge) id
  · unfold Phi wt
    show s.scan.dropLast.length + _ < _
    rw [hd, hl]
    simp only [List.length_append, List.length_singleton]
    omega

theorem tot_vattiStep (hG : Given F E A) (hF : ∀ v, F.Y v → |v| ≤ 2 ^ 52) {Y : Int} (y₀ : Int) (hs : VI E A Y rest s) (hne : ¬ (s.scan = [] ∧ rest = [])) :
    Tot (vattiStep op sf cf y₀ rest) s fun r s' => r.1 ≤ Y ∧ VI E A r.1 r.2 s' ∧ Phi E A r.2 s' < Phi E A rest s := by
  have hne' : s.scan ≠ [] := by
    intro h
    apply hne
    refine ⟨h, ?_⟩
    cases rest with
    | nil => rfl
    | cons m l =>
      have := (hs.restScan m (by simp)).resolve_left (hs.later m (by simp))
      rw [h] at this
      cases this
  obtain ⟨v, hv⟩ : ∃ v, s.scan.getLast? = some v := ⟨_, List.getLast?_eq_some_getLast hne'⟩
  obtain ⟨h1, h1', h2, h3⟩ := hs.pop hv
  unfold vattiStep
  refine Tot.bind (Tot.steady (Q := fun r s' => r = v ∧ s' = { s with scan := s.scan.dropLast }) ?_ |>.imp ?_)
  · unfold popScan
    refine Post.bind (Post.gets ?_)
    rw [hv]
    exact Post.bind (Post.modify (Post.pure ⟨rfl, rfl⟩))
  rintro _ _ ⟨rfl, rfl⟩
  refine Tot.bind ((tot_processIntersections op sf cf hG h1' h2).imp ?_)
  rintro _ s2 ⟨a1, a2⟩
  refine Tot.bind ((tot_updateHot s2 _).imp ?_)
  rintro _ _ ⟨c, rfl⟩
  refine Tot.bind ((tot_topOfScanbeam op sf cf hG hF (a1.curHot c)).imp ?_)
  rintro rest' s3 ⟨b1, b2, b3⟩
  refine Tot.bind ((tot_insertLocalMinima op sf cf hG hF rest' s3 b1.mid b1.phi b2 b3).imp ?_)
  rintro rest'' s4 ⟨c1, c2⟩
  refine Tot.pure ⟨h1, c1, ?_⟩
  have : Phi E A rest { s2 with curHot := c } = Phi E A rest s2 := rfl
  dsimp only
  omega

end

end Wagyu
