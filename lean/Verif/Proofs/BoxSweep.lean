import Verif.Proofs.KeepBox
import Verif.Proofs.SweepFairStep
import Verif.Proofs.Given

/-!
# Vertices of the sweep when no bound is left without its partner: current edges reach over the scanline
-/

namespace Wagyu

open Spec

section
variable {V : Point → Prop} {Es : Edge → Prop} {Y : Int → Prop} {X : F64 → Prop} {T : Nat → Prop} {A rest : List LocalMinimum}
  {op : OperationKind} {sf cf : FillKind} {s0 s : St} {y : Int}

theorem bx_topBody (hR : VRule V Es Y) (hX : XRule V Es X y) {bi : Nat} (hs : BX V Es Y X T A s)
    (hN : ∀ b, some b ∈ s.abl → ∀ e, (s.bounds b).currentEdge? = some e → X (e.getCurrentX y)) :
    Ok (topBody op sf cf y bi) s fun _ s' => BX V Es Y X T A s' := by
  unfold topBody
  refine Post.bind (Post.gets (Post.ite (fun hlt => ?_) fun _ => Post.pure hs))
  refine Post.bind (Ok.ablGet fun o ho => ?_)
  cases o with
  | none => exact Post.pure hs
  | some b =>
    dsimp only
    refine Post.bind (Post.imp (Q := fun r s' => s = s') ?_ ?_)
    · refine Post.bind (Ok.look fun r _ => Post.ite (fun _ => ?_) fun _ => Post.pure rfl)
      refine Post.bind (Post.getBound (Post.bind (Post.gets (Post.ite (fun _ => Post.pure rfl) fun hl => ?_))))
      refine Post.bind (Ok.look fun o _ => Post.bind (Ok.look fun m _ => Post.bind (Ok.look fun e _ => Post.ite (fun _ => Post.pure rfl) fun _ => ?_)))
      refine Post.bind (Ok.look fun r _ => Post.ite (fun _ => Post.pure rfl) fun _ => Post.pure rfl)
    · rintro r _ rfl
      cases r with
      | some mi =>
        dsimp only
        exact Post.bind (((bk_doMaxima hR).run s hs).imp fun _ s2 h => Post.pure h.1)
      | none =>
        dsimp only
        refine Post.bind (Post.imp (Q := fun r s' => s = s') ?_ ?_)
        · refine Post.bind (Ok.look fun r _ => Post.ite (fun _ => ?_) fun _ => Post.pure rfl)
          exact Post.bind (Ok.look fun r _ => Post.pure rfl)
        · rintro promote _ rfl
          refine Post.ite (fun _ => ?_) fun _ => ?_
          · refine (Keep.run (P := fun _ => True) ?_ s hs).imp fun _ _ h => h.1
            keep
          · refine Post.bind (Ok.currentEdge fun e he => ?_)
            have := hN b (List.mem_of_getElem? ho) e he
            refine Post.bind (((bk_setX this).run s hs).imp fun _ s2 h => Post.pure h.1)

/-- The current edge of every active bound reaches over the row. -/
theorem Walk.reach (hw : Walk y s0 A rest s) (hsp : Span y s) (b : Nat) (hb : some b ∈ s.abl) (e : Edge) (he : (s.bounds b).currentEdge? = some e) :
    e.top.y ≤ y ∧ y ≤ e.bottom.y :=
  ⟨hsp b (mem_act.2 hb) e he, hw.low b (mem_act.2 hb) e he⟩

theorem bx_topLoop' (hR : VRule V Es Y) (hX : XRule V Es X y) (hM : Mated s0 A)
    (hN : ∀ {e : Edge}, Es e → e.top.y ≤ y → y ≤ e.bottom.y → X (e.getCurrentX y)) (hw : Walk y s0 A rest s) (hsp : Span y s) (hs : BX V Es Y X T A s) :
    Ok (topOfScanbeamLoop op sf cf y) s fun _ s' => BX V Es Y X T A s' := by
  rw [topOfScanbeamLoop_eq]
  refine (Post.loopM (fun _ s' => Walk y s0 A rest s' ∧ Span y s' ∧ BX V Es Y X T A s') (Q := fun _ s' => Walk y s0 A rest s' ∧ Span y s' ∧ BX V Es Y X T A s') ?_
    (fun _ _ _ => trivial) ⟨hw, hsp, hs⟩).imp fun _ _ h => h.2.2
  rintro bi s1 ⟨w1, p1, h1⟩
  refine Post.imp ((walk_topBody (op := op) (sf := sf) (cf := cf) (bi := bi) hM w1 (Drops.refl _ _) id).and (bx_topBody (bi := bi) hR hX h1 fun b hb e he => ?_)) ?_
  · obtain ⟨k1, k2⟩ := w1.reach p1 b hb e he
    exact hN (h1.edges b e (List.mem_of_getElem? he)) k1 k2
  · rintro (_ | _) _ ⟨⟨a, -, b⟩, c⟩ <;> exact ⟨a, b p1, c⟩

/-- One scanline, no bound being left without its partner at its beginning. -/
theorem bs_fairStep (hR : VRule V Es Y) {XR : Int → F64 → Prop} (hX : ∀ y, Y y → XRule V Es (XR y) y) (hM : Mated s0 A)
    (hN : ∀ y, Y y → ∀ {e : Edge}, Es e → e.top.y ≤ y → y ≤ e.bottom.y → XR y (e.getCurrentX y)) {Y₀ : Int}
    (hw : Walk Y₀ s0 A rest s) (hbelow : ∀ v ∈ s.scan, v ≤ Y₀) (hne : s.scan ≠ []) (hsort : s.scan.Pairwise (· ≤ ·)) (hg : Fair op sf cf s0 rest s)
    (hs : BS V Es Y A s) :
    Ok (vattiStep op sf cf y rest) s fun r s' => BS V Es Y A s' ∧ Y r.1 := by
  unfold vattiStep
  refine Post.bind (Post.imp ((bs_popScan hs (.inr hne)).and (ok_popScan hbelow hne hsort)) ?_)
  rintro y' s1 ⟨⟨h1, hy1, ha1, hb1⟩, hle, hmax⟩
  have haa : act s1 = act s := by unfold act; rw [ha1]
  have w1 := (hw.lower hle).sameAct haa hb1
  have sp1 : Span y' s1 := by
    intro b hb e he
    rw [haa] at hb
    rw [hb1] at he
    exact hmax _ (hg.ahead b hb e he)
  refine Post.bind (Post.imp ((bx_processIntersections (X := XR y') hR h1 fun b hb e he => ?_).and
    (w1.stay (m := processIntersections y' op sf cf) (Q := fun _ s' => Walk y' s0 A rest s' ∧ Slots s1 s') fun _ _ w k => ⟨w, k⟩)) ?_)
  · obtain ⟨k1, k2⟩ := w1.reach sp1 b hb e he
    exact hN y' hy1 (h1.edges b e (List.mem_of_getElem? he)) k1 k2
  rintro _ s2 ⟨h2, w2, k2⟩
  have sp2 : Span y' s2 := sp1.sub (fun b => k2.act.mem_iff.1) k2.edge
  refine Post.bind (((bk_updateHot.run s2 h2).and (Ok.pres (R := Bare) inferInstance)).imp ?_)
  rintro _ s3 ⟨⟨h3, -⟩, b3⟩
  have ha3 : act s3 = act s2 := by unfold act; rw [b3.1]
  have w3 := w2.sameAct ha3 b3.2.2
  have sp3 : Span y' s3 := sp2.sub (fun b hb => ha3 ▸ hb) fun b => by rw [b3.2.2]
  unfold processEdgesAtTopOfScanbeam
  refine Post.bind (Post.bind ((bx_topLoop' hR (hX y' hy1) hM (hN y' hy1) w3 sp3 h3).imp fun _ s4 h4 => ?_))
  refine (bx_afterTop hR (hX y' hy1) w3.sub h4).imp ?_
  rintro r s5 ⟨h5, T', h6⟩
  refine Post.bind ((bx_insertLocalMinima hR (hX y' hy1) r _ s5 (fun m hm => w3.sub m (h5.mem hm)) h6).imp ?_)
  rintro r' s6 ⟨h7, T'', h8⟩
  exact Post.pure ⟨h8.still, hy1⟩

/-- The second sweep: the vertices are as they should be, or some bound is left without its partner at the end. -/
theorem bs_fairVatti {F : Extent} {lo hi : Int} (hG : Given F (fun b => (s0.bounds b).edges) A) (hF : ∀ v, F.Y v → |v| ≤ 2 ^ 52)
    (hM : Mated s0 A) (hO : Opens s0 A) (hnan : ∀ y, InR lo hi y → ∀ b ∈ idsOf A, ∀ e ∈ (s0.bounds b).edges, e.getCurrentX y ≠ .nan)
    (hR : VRule V Es Y) {XR : Int → F64 → Prop} (hX : ∀ y, Y y → XRule V Es (XR y) y)
    (hN : ∀ y, Y y → ∀ {e : Edge}, Es e → e.top.y ≤ y → y ≤ e.bottom.y → XR y (e.getCurrentX y))
    {y0 : Int} {rest0 : List LocalMinimum} {s1 : St} (hr : RowInv lo hi s1) (hy : InR lo hi y0 ∨ s1.scan ≠ [] ∨ rest0 = [])
    (hs : Walks s0 A rest0 s1) (ho : rest0.Pairwise MinOrder) (hg : Fair op sf cf s0 rest0 s1) (hb : BS V Es Y A s1)
    (h : Passes (vattiStep op sf cf) y0 rest0 s1 y rest s) : BS V Es Y A s ∨ Orphan s0 A rest s := by
  induction h with
  | start => exact .inl hb
  | next hp hne e ih =>
    have k := fair_passes hG hF hM hO hnan hr hy hs ho (.inl hg) hp
    have k' := fair_passes hG hF hM hO hnan k.2.2.2.1 k.2.2.2.2.1 k.1 k.2.1 k.2.2.1 (Passes.next Passes.start hne e)
    rcases k.2.2.1 with hf | horph
    · rcases ih with hb | horph
      · obtain ⟨Y₀, w, v⟩ := k.1
        exact .inl ((bs_fairStep hR hX hM hN w v.below (v.scan_ne hne) v.sorted hf hb).elim e).1
      · exact .inr (k'.2.2.2.2.2.1 horph)
    · exact .inr (k'.2.2.2.2.2.1 horph)

/-! ## Hot pixels -/

variable {F : Extent} {E : Nat → List Edge}

theorem HotI.wf {Y₀ : Int} (h : HotI F E A Y₀ rest s) (k : Nat) : HotI F E A Y₀ rest (s.wf k) :=
  ⟨⟨h.edges, h.sorted, h.below, h.sub, h.nd, h.desc, h.act, h.hot⟩, h.restScan, h.span⟩
theorem HotI.of_wf {Y₀ : Int} {k : Nat} (h : HotI F E A Y₀ rest (s.wf k)) : HotI F E A Y₀ rest s := h.wf s.fuel

theorem bs_fairHotStep (hR : VRule V Es Y) {XR : Int → F64 → Prop} (hX : ∀ y, Y y → XRule V Es (XR y) y)
    (hN : ∀ y, Y y → ∀ {e : Edge}, Es e → e.top.y ≤ y → y ≤ e.bottom.y → XR y (e.getCurrentX y)) {Y₀ : Int} (hh : HotI F E A Y₀ rest s)
    (hne : ¬ (s.scan = [] ∧ rest = [])) (hs : BS V Es Y A s) :
    Ok (hotPixelStep y rest) s fun r s' => BS V Es Y A s' ∧ Y r.1 := by
  have hne' : s.scan ≠ [] := by
    intro h
    apply hne
    refine ⟨h, ?_⟩
    cases rest with
    | nil => rfl
    | cons m l =>
      have := hh.restScan m (by simp)
      rw [h] at this
      cases this
  obtain ⟨v, hv⟩ : ∃ v, s.scan.getLast? = some v := ⟨_, List.getLast?_eq_some_getLast hne'⟩
  obtain ⟨-, hmid, -⟩ := hh.pop hv
  unfold hotPixelStep
  refine Post.bind (Post.imp ((bs_popScan hs (.inr hne')).and (Q' := fun r _ => r = v) ?_) ?_)
  · unfold popScan
    refine Post.bind (Post.gets ?_)
    rw [hv]
    exact Post.bind (Post.modify (Post.pure rfl))
  rintro y s1 ⟨⟨h1, hy1, ha, hb⟩, rfl⟩
  refine Post.bind ((bx_hotIntersections (X := XR y) hR h1 fun b hbb e he => ?_).imp fun _ s2 h2 => ?_)
  · rw [ha] at hbb
    rw [hb] at he
    obtain ⟨k1, k2, -⟩ := hmid.span b hbb e he
    exact hN y hy1 (hs.edges b e (List.mem_of_getElem? he)) k1 k2
  refine Post.bind ((bx_insertLmHot hR (hX y hy1) rest _ s2 hh.sub h2).imp ?_)
  rintro r s3 ⟨h3, T', h4⟩
  refine Post.bind (((bk_hotTop hR (hX y hy1)).run s3 h4).imp ?_)
  rintro _ s4 ⟨h5, -⟩
  exact Post.pure ⟨h5.still, hy1⟩

/-- The first sweep. -/
theorem bs_fairHot {m : Minimums} {fuel : Nat} (hG : Given F (fun b => (m.bounds b).edges) m.values) (hR : VRule V Es Y) {XR : Int → F64 → Prop} (hX : ∀ y, Y y → XRule V Es (XR y) y)
    (hN : ∀ y, Y y → ∀ {e : Edge}, Es e → e.top.y ≤ y → y ≤ e.bottom.y → XR y (e.getCurrentX y))
    (hs : BS V Es Y m.values (St.init fuel m.bounds)) (hscan : ∀ y ∈ m.scanbeams, Y y) :
    Ok (buildHotPixels m.values m.scanbeams) (St.init fuel m.bounds) fun _ s' => BS V Es Y m.values s' := by
  obtain ⟨h0, -⟩ := hot_start (fuel := fuel) hG
  unfold buildHotPixels
  refine Post.bind (Post.modify (Post.bind ?_))
  refine Post.loopM (fun x s => BS V Es Y m.values s ∧ ∃ Y₀, HotI F (fun b => (m.bounds b).edges) m.values Y₀ x.2 s) ?_ (fun _ _ _ => trivial) ⟨hs.start hscan, _, h0⟩
  rintro ⟨y, l⟩ s ⟨hs, Y₀, hh⟩
  refine Post.bind (Post.gets (Post.ite (fun _ => bs_sortHotPixels hs) fun hne => ?_))
  refine Post.bind (Post.imp ((bs_fairHotStep hR hX hN hh hne hs).and (Ok.intro (Q := fun r s' => HotI F (fun b => (m.bounds b).edges) m.values r.1 r.2 s') fun r s' e => ?_)) ?_)
  · obtain ⟨k, -, h, -⟩ := (tot_hotPixelStep hG y hh hne).done e
    exact h.of_wf
  · rintro r s' ⟨h1, h2⟩
    exact Post.pure ⟨h1.1, _, h2⟩

end

end Wagyu
