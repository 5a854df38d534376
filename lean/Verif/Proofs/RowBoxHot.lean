import Verif.Proofs.RowBox

/-!
# The hot pixels on a scanline, when every current edge reaches over it
-/

namespace Wagyu

open Spec

section
variable {α β : Type} {V : Point → Prop} {Es : Edge → Prop} {Y : Int → Prop} {X : F64 → Prop} {T : Nat → Prop} {A rest : List LocalMinimum}
  {op : OperationKind} {sf cf : FillKind} {s0 s : St} {y : Int} {P : α → Prop}

theorem bk_rowPass {b : Nat} {i : Nat} {f : F64 → F64 → Bool} (hX : XRule V (fun _ => False) X y) :
    Keep (BX V Es Y X T A) (horizontalPass b y i f) fun _ => True := by
  unfold horizontalPass
  refine Keep.bind bk_ablGet fun o ho => ?_
  split
  · exact Keep.pure trivial
  · have hT := ho _ rfl
    keep

/-- Only the hot pixels change. -/
def Spotted (s s' : St) : Prop := s'.bounds = s.bounds ∧ s'.abl = s.abl
instance : Preo Spotted where
  refl _ := ⟨rfl, rfl⟩
  trans h k := ⟨k.1.trans h.1, k.2.trans h.2⟩
instance (p : Point) : Pres Spotted (addHotPixel p) := ⟨fun _ => ⟨rfl, rfl⟩⟩
theorem Spotted.parked {s s' : St} (h : Spotted s s') : Parked s s' := fun b => by rw [h.1]; exact ⟨rfl, rfl⟩

theorem spotted_pass {b : Nat} {i : Nat} {f : F64 → F64 → Bool} : Ok (horizontalPass b y i f) s fun _ s' => Spotted s s' := by
  unfold horizontalPass
  refine Post.bind (Ok.ablGet fun o _ => ?_)
  cases o with
  | none => exact Post.pure (Preo.refl _)
  | some nb =>
    dsimp only
    refine Post.bind (Post.getBound (Post.bind (Post.getBound (Post.ite (fun _ => Post.pure (Preo.refl _)) fun _ => ?_))))
    refine Post.bind (Ok.currentEdge fun e _ => Post.ite (fun _ => ?_) fun _ => Post.pure (Preo.refl _))
    refine Post.bind ?_
    unfold roundHalfUpM
    split
    · exact Post.pure (Post.bind (Post.modify (Post.pure ⟨rfl, rfl⟩)))
    · trivial

theorem by_pass {b : Nat} {i : Nat} {f : F64 → F64 → Bool} (hX : RowRule V Es X y) (hs : BY V Es Y X T A y s) :
    Ok (horizontalPass b y i f) s fun _ s' => BY V Es Y X T A y s' ∧ Spotted s s' :=
  Post.imp (((bk_rowPass hX.round).run s hs.toBX).and spotted_pass) fun _ _ ⟨h, p⟩ => ⟨hs.park h.1 p.parked, p⟩

theorem by_swap {i j : Nat} (hs : BY V Es Y X T A y s) :
    Ok (ablSwap i j) s fun _ s' => BY V Es Y X T A y s' ∧ s'.bounds = s.bounds ∧ s'.abl[j]? = s.abl[i]? := by
  refine Post.imp ((bk_ablSwap.run s hs.toBX).and ok_ablSwap) ?_
  rintro _ s' ⟨h, a, b, ha, hb, rfl⟩
  refine ⟨hs.park h.1 fun _ => ⟨rfl, rfl⟩, rfl, ?_⟩
  dsimp only
  rw [swap_get ha hb, if_pos rfl, ha]

theorem by_horizontalsAtTop {i b : Nat} (hX : RowRule V Es X y) (hs : BY V Es Y X T A y s) (hb : s.abl[i]? = some (some b))
    (ht : ∀ e, (s.bounds b).currentEdge? = some e → e.top.y = y) :
    Ok (horizontalsAtTopScanbeam y i) s fun r s' => BY V Es Y X T A y s' ∧ s'.abl[r.1]? = some (some b) ∧ Parked s s' := by
  unfold horizontalsAtTopScanbeam
  refine Post.bind (Ok.ablGet fun o ho => ?_)
  rw [hb] at ho; cases ho
  refine Post.bind (Post.deref (fun b' hb' => ?_) fun h => by cases h)
  cases hb'
  refine Post.bind (Ok.currentEdge fun e he => ?_)
  have hx := hX.stop (hs.edges b e (List.mem_of_getElem? he)) (ht e he)
  refine Post.bind (Post.imp (Post.and (hs.run (bk_setX hx) (Parked.mod fun _ => ⟨rfl, rfl⟩)) (Post.modBound (Q := fun _ s' => s'.abl = s.abl ∧ Parked s s') ⟨rfl, ?_⟩)) ?_)
  · exact (Parked.mod (b := b) (f := fun bd => { bd with currentX := .ofInt e.top.x }) fun _ => ⟨rfl, rfl⟩).pres s
  rintro _ s1 ⟨⟨h1, -⟩, a1, p1⟩
  rw [← a1] at hb
  have step : ∀ (bi ni : Nat) (f : F64 → F64 → Bool) (s2 : St) {σ τ : Type} (fin : σ) (nxt : τ) (Q : τ ⊕ σ → St → Prop), BY V Es Y X T A y s2 → s2.abl[bi]? = some (some b) → Parked s s2 →
      (∀ s', BY V Es Y X T A y s' → s'.abl[bi]? = some (some b) → Parked s s' → Q (.inr fin) s') →
      (∀ s', BY V Es Y X T A y s' → s'.abl[ni]? = some (some b) → Parked s s' → Q (.inl nxt) s') →
      Ok (do if ← horizontalPass b y ni f then pure (.inr fin) else
               ablSwap bi ni
               pure (.inl nxt) : M (τ ⊕ σ)) s2 Q := by
    intro bi ni f s2 σ τ fin nxt Q h2 hb2 p2 k1 k2
    refine Post.bind ((by_pass hX h2).imp ?_)
    rintro r s3 ⟨h3, q3⟩
    have hb3 : s3.abl[bi]? = some (some b) := by rw [q3.2]; exact hb2
    have p3 : Parked s s3 := Preo.trans p2 q3.parked
    refine Post.ite (fun _ => Post.pure (k1 s3 h3 hb3 p3)) fun _ => ?_
    refine Post.bind ((by_swap h3).imp ?_)
    rintro _ s4 ⟨h4, c4, d4⟩
    exact Post.pure (k2 s4 h4 (by rw [d4]; exact hb3) (Preo.trans p3 fun c => by rw [c4]; exact ⟨rfl, rfl⟩))
  refine Post.ite (fun _ => ?_) fun _ => ?_
  · refine Post.bind (Post.gets ?_)
    refine Post.forElseN (fun _ (st : Nat × Bool × Nat) s' => BY V Es Y X T A y s' ∧ s'.abl[st.1]? = some (some b) ∧ Parked s s') ?_ ?_ _ _ _ ⟨h1, hb, p1⟩
    · rintro k ⟨bi, shifted, ni⟩ s2 ⟨h2, hb2, p2⟩
      exact step bi ni _ s2 _ _ _ h2 hb2 p2 (fun s' a b c => ⟨a, b, c⟩) fun s' a b c => ⟨a, b, c⟩
    · rintro ⟨bi, shifted, ni⟩ s2 h2
      exact Post.pure h2
  · refine Post.forElseN (fun _ (st : Nat × Nat) s' => BY V Es Y X T A y s' ∧ s'.abl[st.1]? = some (some b) ∧ Parked s s') ?_ ?_ _ _ _ ⟨h1, hb, p1⟩
    · rintro k ⟨bi, q⟩ s2 ⟨h2, hb2, p2⟩
      exact step bi _ _ s2 _ _ _ h2 hb2 p2 (fun s' a b c => ⟨a, b, c⟩) fun s' a b c => ⟨a, b, c⟩
    · rintro ⟨bi, q⟩ s2 h2
      exact Post.pure h2

instance SameAbl.next (b : Nat) : Pres SameAbl (toNextEdge b) := by
  unfold toNextEdge
  refine Pres.bind (SameAbl.mod _ _) fun _ => Pres.bind inferInstance fun _ => ?_
  refine Pres.ite' ?_ inferInstance
  refine Pres.bind (SameAbl.mod _ _) fun _ => Pres.bind inferInstance fun _ => Pres.bind (SameAbl.mod _ _) fun _ => ?_
  exact Pres.ite' inferInstance inferInstance

theorem by_hotPixelAdvance {b i : Nat} (hR : VRule V Es Y) (hX : RowRule V Es X y) (hs : BY V Es Y X T A y s) (hb : s.abl[i]? = some (some b)) :
    Ok (hotPixelAdvance y b i) s fun _ s' => BY V Es Y X T A y s' := by
  unfold hotPixelAdvance
  refine Post.loopM (fun (st : Nat × Bool) s' => BY V Es Y X T A y s' ∧ s'.abl[st.1]? = some (some b)) ?_ (fun _ _ _ => trivial) ⟨hs, hb⟩
  rintro ⟨ci, shifted⟩ s1 ⟨h1, hb1⟩
  refine Post.bind (Post.getBound (Post.ite (fun _ => ?_) fun _ => Post.pure h1))
  refine Post.bind (Ok.currentEdge fun e he => Post.ite (fun hty => ?_) fun _ => Post.pure h1)
  refine Post.bind (Post.imp (Post.and (h1.run (bk_addHotPixel (hR.top (h1.edges b e (List.mem_of_getElem? he)))) ⟨fun _ _ => ⟨rfl, rfl⟩⟩)
    (Ok.pres (R := Spotted) inferInstance)) ?_)
  rintro _ s2 ⟨⟨h2, -⟩, q2⟩
  have hb2 : s2.abl[ci]? = some (some b) := by rw [q2.2]; exact hb1
  have ht2 : ∀ f, (s2.bounds b).currentEdge? = some f → f.top.y = y := by
    intro f hf
    rw [q2.1, he] at hf; cases hf; exact hty
  refine Post.bind (Post.imp (Q := fun r s' => BY V Es Y X T A y s' ∧ s'.abl[r.1]? = some (some b) ∧ Parked s2 s')
    (Post.ite (fun _ => by_horizontalsAtTop hX h2 hb2 ht2) fun _ => Post.pure ⟨h2, hb2, Preo.refl _⟩) ?_)
  rintro ⟨ci', sh'⟩ s3 ⟨h3, hb3, p3⟩
  dsimp only
  refine Post.bind (Post.imp (Post.and (by_toNextEdge hR hX h3 (h3.act b (List.mem_of_getElem? hb3)) fun f hf => ht2 f (by rw [← p3.edge]; exact hf))
    (Ok.pres (R := SameAbl) inferInstance)) ?_)
  rintro _ s4 ⟨h4, a4⟩
  exact Post.pure ⟨h4, by rw [show s4.abl = s3.abl from a4]; exact hb3⟩

theorem by_hotTop (hR : VRule V Es Y) (hX : RowRule V Es X y) (hs : BY V Es Y X T A y s) :
    Ok (processHotPixelEdgesAtTopOfScanbeam y) s fun _ s' => BY V Es Y X T A y s' := by
  unfold processHotPixelEdgesAtTopOfScanbeam
  refine Post.bind (Post.imp (Post.loopM (Q := fun _ s' => BY V Es Y X T A y s') (fun _ s' => BY V Es Y X T A y s') ?_ (fun _ _ _ => trivial) hs) fun _ s1 h1 =>
    (h1.run bk_ablFilter ⟨fun _ _ => ⟨rfl, rfl⟩⟩).imp fun _ _ h => h.1)
  rintro i s1 h1
  refine Post.bind (Post.gets (Post.ite (fun _ => ?_) fun _ => Post.pure h1))
  refine Post.bind (Ok.ablGet fun o ho => ?_)
  cases o with
  | none => exact Post.pure h1
  | some b =>
    dsimp only
    refine Post.bind ((by_hotPixelAdvance hR hX h1 ho).imp ?_)
    rintro ⟨ci, sh⟩ s2 h2
    dsimp only
    refine Post.bind (Post.getBound (Post.ite (fun _ => ?_) fun _ => Post.pure h2))
    exact Post.bind ((h2.run (bk_ablSet TN.none) ⟨fun _ _ => ⟨rfl, rfl⟩⟩).imp fun _ _ h => Post.pure h.1)

theorem by_insertLmHot (hR : VRule V Es Y) (hX : RowRule V Es X y) :
    ∀ (l : List LocalMinimum) (T : Nat → Prop) (s : St), (∀ m ∈ l, m ∈ A) → BY V Es Y X T A y s →
      Ok (insertLocalMinimaHotPixel y l) s fun r s' => r <:+ l ∧ ∃ T', BY V Es Y X T' A y s'
  | [], T, s, _, hs => ⟨List.suffix_rfl, T, hs⟩
  | m :: l, T, s, hl, hs => by
    rw [insertLocalMinimaHotPixel]
    refine Post.ite (fun hy => ?_) fun _ => Post.pure ⟨List.suffix_rfl, T, hs⟩
    refine Post.bind (Post.getBound (Post.bind (Post.orIndex (fun e he => ?_) fun _ => trivial)))
    have he := hs.edges _ e (List.mem_of_head? he)
    refine Post.bind (Post.imp (hs.run (bk_addHotPixel (hR.bot he)) ⟨fun _ _ => ⟨rfl, rfl⟩⟩) ?_)
    rintro _ s3 ⟨h3, -⟩
    have side : ∀ (b : Nat) (T : Nat → Prop) (s : St) {β : Type} (k : M β) (Q : β → St → Prop), BY V Es Y X T A y s → OpenAt y (s.bounds b) →
        (∀ s', BY V Es Y X (fun c => T c ∨ c = b) A y s' → Ok k s' Q) →
        Ok (do
          modBound b fun bd => (bd.setCur 0).setNxt 1
          let le ← currentEdge b
          modBound b fun bd => { bd with currentX := .ofInt le.bottom.x }
          k) s Q := by
      intro b T s β k Q hs ho hk
      have hb := ho.path.ne
      obtain ⟨e0, l, hel⟩ := List.exists_cons_of_ne_nil hb
      refine Post.bind (Post.modBound (Post.bind (Ok.currentEdge fun e he => Post.bind (Post.modBound (hk _ ?_)))))
      change Bound.currentEdge? (upd _ _ _ b) = _ at he
      rw [Wagyu.upd_same, (currentEdge_zero hel).1] at he
      cases he
      have hy : e0.bottom.y = y := ho.head e0 (by rw [hel]; rfl)
      have hE : Es e0 := hs.edges b e0 (by rw [hel]; simp)
      have hx := hX.start hE hy
      refine hs.renew (fun c hc => by rw [upd_ne _ _ hc]; exact upd_ne _ _ hc) ?_ ?_ ⟨?_, fun e he => ?_⟩
      · simp only [Wagyu.upd_same]; rfl
      · simp only [Wagyu.upd_same]; exact hx
      · simp only [Wagyu.upd_same]; exact ho.path
      · simp only [Wagyu.upd_same] at he
        change ((Bound.setCur (s.bounds b) 0).setNxt 1).currentEdge? = some e at he
        rw [(currentEdge_zero hel).1] at he
        cases he
        exact ⟨hy ▸ ho.path.le _ (by rw [hel]; simp), hy.ge⟩
    have hm := hl m (by simp)
    refine side m.left T s3 _ _ h3 (hy ▸ (h3.init m hm).1) fun s4 h4 => side m.right _ s4 _ _ h4 (hy ▸ (h4.init m hm).2) fun s5 h5 => ?_
    refine Post.bind (Post.imp (h5.run (bk_insertBoundIntoAbl (by simp) (by simp)) inferInstance) ?_)
    rintro _ s6 ⟨h6, -⟩
    have fin : ∀ (T' : Nat → Prop) s', BY V Es Y X T' A y s' → Ok (insertLocalMinimaHotPixel y l) s' fun r s' => r <:+ m :: l ∧ ∃ T', BY V Es Y X T' A y s' :=
      fun T' s' h' => (by_insertLmHot hR hX l T' s' (fun m hm => hl m (by simp [hm])) h').imp fun r s'' ⟨a, b⟩ => ⟨a.trans (List.suffix_cons _ _), b⟩
    have right : ∀ (T' : Nat → Prop) s', BY V Es Y X T' A y s' → Ok (do
        let re ← currentEdge m.right
        if re.isHorizontal then pure () else insertScan re.top.y
        insertLocalMinimaHotPixel y l) s' fun r s' => r <:+ m :: l ∧ ∃ T', BY V Es Y X T' A y s' := by
      intro T' s' h'
      refine Post.bind (Ok.currentEdge fun re hre => ?_)
      split
      · exact fin _ _ h'
      · refine Post.bind (Post.imp (h'.run (bk_insertScan (hR.row (h'.edges _ re (List.mem_of_getElem? hre)))) inferInstance) ?_)
        rintro _ s9 ⟨h9, -⟩
        exact fin _ _ h9
    refine Post.bind (Ok.currentEdge fun le hle => ?_)
    split
    · exact right _ _ h6
    · refine Post.bind (Post.imp (h6.run (bk_insertScan (hR.row (h6.edges _ le (List.mem_of_getElem? hle)))) inferInstance) ?_)
      rintro _ s8 ⟨h8, -⟩
      exact right _ _ h8

/-! ## A step and the sweep -/

instance Parked.hotIntersections (y : Int) : Pres Parked (processHotPixelIntersections y) := by
  unfold processHotPixelIntersections
  refine Pres.bind ?_ fun _ => Pres.bind ?_ fun _ => Pres.bind ?_ fun _ => ?_
  · have : Pres Slots (updateCurrentX y) := inferInstance
    refine ⟨fun s b => ⟨(this.pres s).edges b, ?_⟩⟩
    unfold Bound.curIdx
    rw [(this.pres s).cur b, (this.pres s).edges b]
  · infer_instance
  · pres
    exact ⟨fun _ _ => ⟨rfl, rfl⟩⟩
  · exact ⟨fun _ _ => ⟨rfl, rfl⟩⟩

variable {F : Extent} {E : Nat → List Edge}

theorem by_fairHotStep (hG : Given F E A) (hR : VRule V Es Y) {XR : Int → F64 → Prop} (hX : ∀ y, Y y → RowRule V Es (XR y) y) {Y₀ : Int}
    (hh : HotI F E A Y₀ rest s) (hne : ¬ (s.scan = [] ∧ rest = [])) (hs : BSO V Es Y A s) :
    Ok (hotPixelStep y rest) s fun r s' => BSO V Es Y A s' ∧ Y r.1 := by
  have hne' : s.scan ≠ [] := by
    intro h
    apply hne
    refine ⟨h, ?_⟩
    cases rest with
    | nil => rfl
    | cons m l =>
      have := hh.restScan m (by simp)
      rw [h] at this
      cases this
  obtain ⟨v, hv⟩ : ∃ v, s.scan.getLast? = some v := ⟨_, List.getLast?_eq_some_getLast hne'⟩
  obtain ⟨-, hmid, -⟩ := hh.pop hv
  unfold hotPixelStep
  refine Post.bind (Post.imp ((bs_popScan hs.toBS (.inr hne')).and (Q' := fun r _ => r = v) ?_) ?_)
  · unfold popScan
    refine Post.bind (Post.gets ?_)
    rw [hv]
    exact Post.bind (Post.modify (Post.pure rfl))
  rintro y s1 ⟨⟨h1, hy1, ha, hb⟩, rfl⟩
  have hR' := hX y hy1
  have hspan : ∀ b, some b ∈ s1.abl → ∀ e, (s1.bounds b).currentEdge? = some e → e.top.y ≤ y ∧ y ≤ e.bottom.y := by
    intro b hbb e he
    rw [ha] at hbb
    rw [hb] at he
    obtain ⟨k1, k2, -⟩ := hmid.span b hbb e he
    exact ⟨k1, k2⟩
  refine Post.bind (Post.imp ((bx_hotIntersections (X := XR y) hR h1 fun b hbb e he => ?_).and
    (Ok.pres (m := processHotPixelIntersections y) (R := Parked) inferInstance)) ?_)
  · obtain ⟨k1, k2⟩ := hspan b hbb e he
    exact hR'.on (h1.edges b e (List.mem_of_getElem? he)) k1 k2
  rintro _ s2 ⟨h2, p2⟩
  have h2' : BY V Es Y (XR y) (fun b => some b ∈ s1.abl) A y s2 := by
    refine ⟨h2, fun b hbb => OnEdge.parked ⟨?_, hspan b hbb⟩ p2, fun m hm => ⟨OpenAt.edges (by rw [hb]; exact (hs.init m hm).1) (p2 _).1, OpenAt.edges (by rw [hb]; exact (hs.init m hm).2) (p2 _).1⟩⟩
    rw [hb, hh.edges b]
    rw [ha] at hbb
    exact hG.path b (hh.act b hbb).1
  refine Post.bind ((by_insertLmHot hR hR' rest _ s2 hh.sub h2').imp ?_)
  rintro r s3 ⟨h3, T', h4⟩
  exact Post.bind ((by_hotTop hR hR' h4).imp fun _ s4 h5 => Post.pure ⟨h5.between, hy1⟩)

theorem BSO.start (hs : BSO V Es Y A s) {scan : List Int} (h : ∀ y ∈ scan, Y y) {cur : Option Nat} {abl : List (Option Nat)} :
    BSO V Es Y A { s with scan := scan, abl := abl, curHot := cur } := ⟨hs.toBS.start h, hs.init⟩

theorem by_sortHotPixels (hs : BSO V Es Y A s) : Ok sortHotPixels s fun _ s' => BSO V Es Y A s' := by
  refine Post.imp ((bs_sortHotPixels hs.toBS).and (Ok.intro (Q := fun _ s' => s'.bounds = s.bounds) fun _ s' h => ?_)) fun _ s' ⟨h, k⟩ =>
    ⟨h, fun m hm => by rw [k]; exact hs.init m hm⟩
  unfold sortHotPixels at h
  simp only [bind, M.bind, gets] at h
  cases hq : quicksort hotPixelsCompare s.fuel s.hotPixels with
  | none => rw [hq] at h; cases h
  | some r => rw [hq] at h; cases h; rfl

/-- The first sweep. -/
theorem by_fairHot {m : Minimums} {fuel : Nat} (hG : Given F (fun b => (m.bounds b).edges) m.values) (hR : VRule V Es Y) {XR : Int → F64 → Prop}
    (hX : ∀ y, Y y → RowRule V Es (XR y) y) (hs : BSO V Es Y m.values (St.init fuel m.bounds)) (hscan : ∀ y ∈ m.scanbeams, Y y) :
    Ok (buildHotPixels m.values m.scanbeams) (St.init fuel m.bounds) fun _ s' => BSO V Es Y m.values s' := by
  obtain ⟨h0, -⟩ := hot_start (fuel := fuel) hG
  unfold buildHotPixels
  refine Post.bind (Post.modify (Post.bind ?_))
  refine Post.loopM (fun x s => BSO V Es Y m.values s ∧ ∃ Y₀, HotI F (fun b => (m.bounds b).edges) m.values Y₀ x.2 s) ?_ (fun _ _ _ => trivial) ⟨hs.start hscan, _, h0⟩
  rintro ⟨y, l⟩ s ⟨hs, Y₀, hh⟩
  refine Post.bind (Post.gets (Post.ite (fun _ => by_sortHotPixels hs) fun hne => ?_))
  refine Post.bind (Post.imp ((by_fairHotStep hG hR hX hh hne hs).and (Ok.intro (Q := fun r s' => HotI F (fun b => (m.bounds b).edges) m.values r.1 r.2 s') fun r s' e => ?_)) ?_)
  · obtain ⟨k, -, h, -⟩ := (tot_hotPixelStep hG y hh hne).done e
    exact h.of_wf
  · rintro r s' ⟨h1, h2⟩
    exact Post.pure ⟨h1.1, _, h2⟩

end

end Wagyu
