import Verif.Proofs.VattiSweep

/-!
# The second sweep: crossings and new local minima
-/

namespace Wagyu

open Spec

section
variable {F : Extent} {E : Nat → List Edge} {A : List LocalMinimum} {y : Int} {rest : List LocalMinimum} {s : St}
variable (op : OperationKind) (sf cf : FillKind)

instance Steady.buildGo (l : List (Nat × Nat)) (acc : List IntersectNode) : Steady (buildIntersectList.go l acc) := by
  induction l generalizing acc with
  | nil => unfold buildIntersectList.go; steady
  | cons q l ih => unfold buildIntersectList.go; have := ih; steady

theorem buildGo_ok (P : Nat → Prop) : ∀ (l : List (Nat × Nat)) (acc : List IntersectNode), (∀ q ∈ l, P q.1 ∧ P q.2) →
    (∀ x ∈ acc, P x.first ∧ P x.second) →
    Ok (buildIntersectList.go l acc) s fun r s' => s' = s ∧ ∀ x ∈ r, P x.first ∧ P x.second
  | [], acc, _, ha => by unfold buildIntersectList.go; exact Post.pure ⟨rfl, ha⟩
  | q :: l, acc, hl, ha => by
    unfold buildIntersectList.go
    refine Post.bind (HW.reader fun p => ?_)
    refine buildGo_ok P l _ (fun q hq => hl q (by simp [hq])) fun x hx => ?_
    rcases List.mem_append.1 hx with h | h
    · exact ha x h
    · obtain rfl := List.mem_singleton.1 h
      exact hl q (by simp)

theorem swaps_mem : ∀ {l : List Nat} {ss r}, AdjSwaps l ss r → ∀ q ∈ ss, q.1 ∈ l ∧ q.2 ∈ l := by
  intro l ss r h
  induction h with
  | refl => simp
  | @step p s a b ss r h ih =>
    intro q hq
    rcases List.mem_cons.1 hq with rfl | hq
    · simp
    · have := ih q hq
      simp only [List.mem_append, List.mem_cons] at this ⊢
      tauto

theorem tot_processIntersections (hG : Given F E A) (hy : |y| ≤ 2 ^ 52) (hs : VMid E A y rest s) :
    Tot (processIntersections y op sf cf) s fun _ s' => VMid E A y rest s' ∧ Phi E A rest s' = Phi E A rest s := by
  unfold processIntersections
  refine Tot.bind (Tot.gets (fun _ _ => rfl) (Tot.ite (fun _ => Tot.pure ⟨hs, rfl⟩) fun _ => ?_))
  refine Tot.bind ((Tot.steady (post_updateCurrentX (fun _ x => x ≠ .nan) ?_)).imp ?_)
  · intro b hb e he
    have hbA := (hs.act b hb).1
    have heE := hs.edge he
    exact getCurrentX_number (hG.bounded b hbA e heE) hy ((hG.path b hbA).slope e heE) ((hG.path b hbA).hor e heE)
  rintro _ s1 ⟨hm, hx⟩
  have h1 := hs.xmoved hm
  unfold buildIntersectList
  refine Tot.bind (Tot.bind ((tot_sortActive fun b hb => hx b (hm.abl ▸ hb)).imp ?_))
  rintro ⟨sorted, swaps⟩ _ ⟨rfl, hperm, hsw, -⟩
  rename_i s2
  refine (Tot.steady (buildGo_ok (fun b => some b ∈ s2.abl) swaps [] (fun q hq => ?_) (by simp))).imp ?_
  · have := swaps_mem hsw q hq
    rw [mem_actives, mem_actives] at this
    exact this
  rintro l _ ⟨rfl, hl⟩
  refine Tot.ite (fun _ => Tot.pure ⟨h1, hm.phi⟩) fun _ => ?_
  refine Tot.bind (Tot.gets (fun _ _ => rfl) ?_)
  refine (tot_processIntersectList op sf cf _ _ _ h1.hw fun x hx => hl x ((pySorted_perm' _ _).mem_iff.1 hx)).imp ?_
  intro _ s3 k
  exact ⟨h1.fewer k.fewer, k.fewer.phi.trans hm.phi⟩

theorem HW.curHot (h : HW s) (c : Option Nat) : HW { s with curHot := c } :=
  ⟨h.1, h.2, ⟨h.3.1, h.3.2, h.3.3⟩, h.4, h.5, h.6, h.7⟩
theorem VMid.curHot (h : VMid E A y rest s) (c : Option Nat) : VMid E A y rest { s with curHot := c } :=
  ⟨h.1.curHot c, h.2, h.3, h.4, h.5, h.6, h.7, h.8, h.9, h.10, h.11, h.12, h.13⟩

/-- The current hot pixel index as it is read. -/
def hotIdx (n : Nat) (c : Option Nat) : Nat :=
  match c with
  | none => n
  | some i => if i ≥ n then n else i

theorem currentHotPixelIndex_eq : currentHotPixelIndex = gets fun s => hotIdx s.hotPixels.length s.curHot := rfl

theorem tot_updateHot (s : St) (y : Int) : Tot (updateCurrentHotPixelIndex y) s fun _ s' => ∃ c, s' = { s with curHot := c } := by
  unfold updateCurrentHotPixelIndex
  rw [currentHotPixelIndex_eq]
  refine Tot.loopM (fun _ s' => ∃ c, s' = { s with curHot := c })
    (fun _ s' => s'.hotPixels.length - hotIdx s'.hotPixels.length s'.curHot) ?_ ⟨s.curHot, rfl⟩
  rintro _ _ ⟨c, rfl⟩
  refine Tot.bind (Tot.gets (fun _ _ => rfl) ?_)
  dsimp only
  generalize hi : hotIdx s.hotPixels.length c = i
  refine Tot.bind (Tot.steady (hotPixelAt_ok fun p hp => ?_))
  refine Tot.ite (fun _ => ?_) fun _ => Tot.pure ⟨c, rfl⟩
  have hlt : i < s.hotPixels.length := (List.getElem?_eq_some_iff.1 hp).1
  refine Tot.bind (Tot.modify (fun _ _ => rfl) (Tot.pure ⟨⟨_, rfl⟩, ?_⟩))
  dsimp only
  by_cases h : i + 1 < s.hotPixels.length
  · rw [if_pos h]
    unfold hotIdx
    dsimp only
    rw [if_neg (by omega)]
    omega
  · rw [if_neg h]
    unfold hotIdx
    dsimp only
    omega

/-! ## New local minima -/

instance Steady.initializeBound (b : Nat) (side : EdgeSide) : Steady (initializeBound b side) := by unfold Wagyu.initializeBound; steady
instance Steady.initializeMinimum (m : LocalMinimum) : Steady (initializeMinimum m) := by unfold Wagyu.initializeMinimum; steady

theorem initializeBound_run {b : Nat} {side : EdgeSide} {e : Edge} {l : List Edge} (hE : (s.bounds b).edges = e :: l) :
    Ok (initializeBound b side) s fun _ s' => ∃ B : Bound, s' = { s with bounds := upd s.bounds b B } ∧ B.edges = e :: l ∧ B.curIdx = 0
      ∧ B.nxtIdx = 1 ∧ B.currentEdge? = some e ∧ B.ring = none := by
  obtain ⟨c1, c2⟩ := currentEdge_zero hE
  unfold initializeBound
  refine Post.bind (Post.getBound ?_)
  rw [if_neg (by rw [hE]; simp)]
  refine Post.bind (Post.modBound ?_)
  refine Post.bind ?_
  unfold currentEdge
  refine Post.bind (Post.getBound ?_)
  dsimp only
  rw [Wagyu.upd_same, c1]
  refine Post.orIndex (fun e0 he0 => ?_) nofun
  cases he0
  refine Post.modBound ⟨_, by dsimp only; rw [upd_upd], ?_, ?_, ?_, ?_, rfl⟩
  · rw [Wagyu.upd_same]; exact hE
  · rw [Wagyu.upd_same]; exact c2
  · rw [Wagyu.upd_same]
    refine nxtIdx_setNxt ((s.bounds b).setCur 0) ?_
    show 1 ≤ (s.bounds b).edges.length
    rw [hE]; simp
  · rw [Wagyu.upd_same]; exact c1

theorem tot_setWindingCount (h : HW s) (i : Nat) : Tot (setWindingCount i sf cf) s fun _ s' => Grown s s' := by
  have hr : ∀ (k : PolygonKind) (l : List (Option Nat)) (acc : List Nat), Steady (findSameKind k l acc) ∧ Pres Eq (findSameKind k l acc) := by
    intro k l
    induction l with
    | nil => intro acc; unfold findSameKind; exact ⟨by steady, by pres⟩
    | cons a l ih =>
      intro acc
      have h1 := fun acc => (ih acc).1
      have h2 := fun acc => (ih acc).2
      unfold findSameKind
      exact ⟨by steady, by pres⟩
  unfold setWindingCount
  refine Tot.bind (Tot.ablGet fun o ho => Tot.bind (Tot.deref fun b hb => Tot.bind (Tot.getBound (Tot.ite (fun _ => ?_) fun _ => ?_))))
  · exact tot_modBound' (Grown.refl h) (fun _ => ⟨rfl, rfl, rfl, rfl, rfl⟩) (fun _ => rfl)
  · refine Tot.bind (Tot.gets (fun _ _ => rfl) (Tot.bind (Tot.steady (hm := (hr _ _ _).1) (HW.reader (hm := (hr _ _ _).2) fun r => ?_))))
    dsimp only
    refine Tot.bind (Tot.steady (hm := by steady) (HW.reader (hm := by pres) fun w => ?_))
    refine Tot.bind (Tot.gets (fun _ _ => rfl) ?_)
    exact tot_modBound' (Grown.refl h) (fun _ => ⟨rfl, rfl, rfl, rfl, rfl⟩) (fun _ => rfl)

theorem HW.insert (h : HW s) {l r i : Nat} {f : Nat → Bound} (hl : some l ∉ s.abl) (hr : some r ∉ s.abl) (hne : l ≠ r)
    (fl : (f l).ring = none) (fr : (f r).ring = none) (fo : ∀ b, b ≠ l → b ≠ r → (f b).ring = (s.bounds b).ring) :
    HW { s with bounds := f, abl := s.abl.take i ++ some l :: some r :: s.abl.drop i } := by
  refine ⟨h.1, h.2, ⟨h.3.1, h.3.2, h.3.3⟩, h.4, h.5, fun b g hb hg => ?_, ?_⟩
  · change (f b).ring = some g at hg
    have h1 : b ≠ l := by rintro rfl; rw [fl] at hg; cases hg
    have h2 : b ≠ r := by rintro rfl; rw [fr] at hg; cases hg
    rw [fo b h1 h2] at hg
    refine h.held b g ?_ hg
    rcases List.mem_append.1 hb with hb | hb
    · exact List.mem_of_mem_take hb
    · simp only [List.mem_cons, Option.some.injEq] at hb
      rcases hb with hb | hb | hb
      · exact absurd hb h1
      · exact absurd hb h2
      · exact List.mem_of_mem_drop hb
  · have hp : (s.abl.take i ++ some l :: some r :: s.abl.drop i).Perm (some l :: some r :: s.abl) := by
      refine (List.perm_middle.trans (List.Perm.cons _ (List.perm_middle.trans (List.Perm.cons _ ?_))))
      rw [List.take_append_drop]
    refine (hp.filterMap id).nodup_iff.2 ?_
    show (l :: r :: s.abl.filterMap id).Nodup
    rw [List.nodup_cons, List.nodup_cons, List.mem_cons, mem_actives, mem_actives]
    exact ⟨fun h => h.elim hne hl, hr, h.once⟩

theorem HW.scanned (h : HW s) (l : List Int) : HW { s with scan := l } := ⟨h.1, h.2, ⟨h.3.1, h.3.2, h.3.3⟩, h.4, h.5, h.6, h.7⟩

set_option maxHeartbeats 1600000 in
/-- A local minimum on the scanline is taken up. -/
theorem tot_openMinimum (hG : Given F E A) (hF : ∀ v, F.Y v → |v| ≤ 2 ^ 52) {m : LocalMinimum} (hs : VMid E A y (m :: rest) s) (hy : m.y = y) :
    Tot (do
      initializeMinimum m
      insertLmLeftAndRightBound op sf cf m.left m.right) s fun _ s' => VMid E A y rest s' ∧ Phi E A rest s' ≤ Phi E A (m :: rest) s
      ∧ ∀ b, some b ∈ s'.abl → (some b ∈ s.abl ∧ SamePlace (s.bounds b) (s'.bounds b))
        ∨ (PDone y s' b ∧ (m.hasHorizontal = false → TDone y s' b)) := by
  have hmA := hs.sub m (by simp)
  obtain ⟨p, sl, sr, hpy⟩ := hG.start m hmA
  obtain ⟨el, ll, hel, hrise⟩ := hG.rises m hmA
  obtain ⟨er, lr, her⟩ : ∃ e l, E m.right = e :: l := by
    cases h : E m.right with
    | nil => exact absurd h (hG.path _ (mem_idsOf_right hmA)).ne
    | cons e l => exact ⟨e, l, rfl⟩
  have hpl : el.bottom = p := by rw [hel] at sl; exact Option.some.inj sl
  have hpr : er.bottom = p := by rw [her] at sr; exact Option.some.inj sr
  have inl := hG.inF _ (mem_idsOf_left hmA) el (by rw [hel]; simp)
  have inr := hG.inF _ (mem_idsOf_right hmA) er (by rw [her]; simp)
  have ler := (hG.path _ (mem_idsOf_right hmA)).le er (by rw [her]; simp)
  have hor := (hG.path _ (mem_idsOf_right hmA)).hor er (by rw [her]; simp)
  have hol := (hG.path _ (mem_idsOf_left hmA)).hor el (by rw [hel]; simp)
  have hhor : m.hasHorizontal = true ↔ er.isHorizontal = true := by
    rw [hG.horizontal m hmA, hor]
    constructor
    · rintro ⟨e, l, h1, h2⟩
      rw [her] at h1; cases h1; exact h2
    · intro h; exact ⟨er, lr, her, h⟩
  have hnd := hs.nd
  rw [idsOf_cons, List.nodup_cons, List.nodup_cons] at hnd
  obtain ⟨hnl, hnr, hnd⟩ := hnd
  have hne : m.left ≠ m.right := fun h => hnl (by rw [h]; simp)
  have hnl' : m.left ∉ idsOf rest := fun h => hnl (by simp [h])
  have hla : some m.left ∉ s.abl := fun h => (hs.act _ h).2 (by rw [idsOf_cons]; simp)
  have hra : some m.right ∉ s.abl := fun h => (hs.act _ h).2 (by rw [idsOf_cons]; simp)
  have hlb : el.bottom.y = y := by have := congrArg Point.y hpl; omega
  have hrb : er.bottom.y = y := by have := congrArg Point.y hpr; omega
  unfold initializeMinimum insertLmLeftAndRightBound
  refine Tot.bind (Tot.bind (Tot.steady (initializeBound_run (by rw [hs.edges, hel])) |>.imp ?_))
  rintro _ _ ⟨L, rfl, Le, L0, L1, Lc, Lr⟩
  refine (Tot.steady (initializeBound_run (e := er) (l := lr) ?_) |>.imp ?_)
  · dsimp only; rw [Wagyu.upd_other _ _ _ _ hne.symm, hs.edges, her]
  rintro _ _ ⟨R, rfl, Re, R0, R1, Rc, Rr⟩
  dsimp only
  have bl : upd (upd s.bounds m.left L) m.right R m.left = L := by
    rw [Wagyu.upd_other _ _ _ _ hne, Wagyu.upd_same]
  have br : upd (upd s.bounds m.left L) m.right R m.right = R := Wagyu.upd_same ..
  have bo : ∀ b, b ≠ m.left → b ≠ m.right → upd (upd s.bounds m.left L) m.right R b = s.bounds b := by
    intro b h1 h2
    rw [Wagyu.upd_other _ _ _ _ h2, Wagyu.upd_other _ _ _ _ h1]
  generalize hB : upd (upd s.bounds m.left L) m.right R = B at bl br bo
  clear hB
  refine Tot.bind (Tot.steady (insertBoundIntoAbl_ok _ m.left m.right) |>.imp ?_)
  rintro i _ ⟨-, rfl⟩
  dsimp only
  have hab : ∀ b, some b ∈ s.abl.take i ++ some m.left :: some m.right :: s.abl.drop i ↔ b = m.left ∨ b = m.right ∨ some b ∈ s.abl := by
    intro b
    rw [List.mem_append, List.mem_cons, List.mem_cons, Option.some.injEq, Option.some.injEq]
    conv_rhs => rw [← List.take_append_drop i s.abl, List.mem_append]
    tauto
  have hw2 : HW { s with bounds := B, abl := s.abl.take i ++ some m.left :: some m.right :: s.abl.drop i } :=
    hs.hw.insert hla hra hne (by rw [bl]; exact Lr) (by rw [br]; exact Rr) fun b h1 h2 => by rw [bo b h1 h2]
  generalize hs2 : ({ s with bounds := B, abl := s.abl.take i ++ some m.left :: some m.right :: s.abl.drop i } : St) = s2 at hw2
  have b2 : s2.bounds = B := by rw [← hs2]
  have a2 : ∀ b, some b ∈ s2.abl ↔ b = m.left ∨ b = m.right ∨ some b ∈ s.abl := by intro b; rw [← hs2]; exact hab b
  have sc2 : s2.scan = s.scan := by rw [← hs2]
  have fin : ∀ s3, Grown s2 s3 → Tot (do
      let le ← currentEdge m.left
      insertScan le.top.y
      let re ← currentEdge m.right
      if re.isHorizontal then pure () else insertScan re.top.y) s3 fun _ s' => VMid E A y rest s' ∧ Phi E A rest s' ≤ Phi E A (m :: rest) s
      ∧ ∀ b, some b ∈ s'.abl → (some b ∈ s.abl ∧ SamePlace (s.bounds b) (s'.bounds b))
        ∨ (PDone y s' b ∧ (m.hasHorizontal = false → TDone y s' b)) := by
    intro s3 k
    have scan3 : s3.scan = s.scan := k.still.scan.trans sc2
    have a3 : ∀ b, some b ∈ s3.abl ↔ b = m.left ∨ b = m.right ∨ some b ∈ s.abl := by intro b; rw [k.still.abl]; exact a2 b
    have pl : SamePlace L (s3.bounds m.left) := by have := k.still.bound m.left; rwa [b2, bl] at this
    have pr : SamePlace R (s3.bounds m.right) := by have := k.still.bound m.right; rwa [b2, br] at this
    have po : ∀ b, b ≠ m.left → b ≠ m.right → SamePlace (s.bounds b) (s3.bounds b) := by
      intro b h1 h2
      have := k.still.bound b
      rwa [b2, bo b h1 h2] at this
    have key : ∀ scan', scan' = (if er.isHorizontal then insortUnique s.scan el.top.y
          else insortUnique (insortUnique s.scan el.top.y) er.top.y) →
        VMid E A y rest { s3 with scan := scan' } ∧ Phi E A rest { s3 with scan := scan' } ≤ Phi E A (m :: rest) s
        ∧ ∀ b, some b ∈ s3.abl → (some b ∈ s.abl ∧ SamePlace (s.bounds b) (s3.bounds b))
          ∨ (PDone y { s3 with scan := scan' } b ∧ (m.hasHorizontal = false → TDone y { s3 with scan := scan' } b)) := by
      intro scan' hscan
      have hly : el.top.y ≤ y := by omega
      have hry : er.top.y ≤ y := by omega
      have sc1 := C11_sorted _ el.top.y hs.sorted
      have hmem : ∀ x, x ∈ scan' → x = el.top.y ∨ x = er.top.y ∨ x ∈ s.scan := by
        intro x hx
        rw [hscan] at hx
        split at hx
        · rcases (C11_mem _ _ _ hs.sorted).1 hx with h | h <;> tauto
        · rcases (C11_mem _ _ _ sc1).1 hx with h | h
          · tauto
          · rcases (C11_mem _ _ _ hs.sorted).1 h with h | h <;> tauto
      have hold1 : ∀ x, x ∈ s.scan ∨ x = el.top.y → x ∈ scan' := by
        intro x hx
        rw [hscan]
        split
        · exact (C11_mem _ _ _ hs.sorted).2 hx.symm
        · exact (C11_mem _ _ _ sc1).2 (Or.inr ((C11_mem _ _ _ hs.sorted).2 hx.symm))
      have hold : ∀ x, x ∈ s.scan → x ∈ scan' := fun x hx => hold1 x (Or.inl hx)
      have hrm : er.top.y = y ∨ er.top.y ∈ scan' := by
        by_cases hh : er.isHorizontal = true
        · left; have := hor.1 hh; omega
        · right
          rw [hscan, if_neg hh]
          exact (C11_mem _ _ _ sc1).2 (Or.inl rfl)
      have cases3 : ∀ b, some b ∈ s3.abl → b = m.left ∨ (b ≠ m.left ∧ b = m.right) ∨ (b ≠ m.left ∧ b ≠ m.right ∧ some b ∈ s.abl) := by
        intro b hb
        have h0 := (a3 b).1 hb
        by_cases h1 : b = m.left
        · exact Or.inl h1
        · by_cases h2 : b = m.right
          · exact Or.inr (Or.inl ⟨h1, h2⟩)
          · exact Or.inr (Or.inr ⟨h1, h2, by tauto⟩)
      refine ⟨⟨k.hw.scanned _, ?_, ?_, ?_, ?_, ?_, hnd, (List.pairwise_cons.1 hs.order).2, ?_, ?_, ?_, ?_, ?_⟩, ?_, ?_⟩
      · intro b
        show (s3.bounds b).edges = E b
        by_cases h1 : b = m.left
        · subst h1; rw [pl.edges, Le, hel]
        · by_cases h2 : b = m.right
          · subst h2; rw [pr.edges, Re, her]
          · rw [(po b h1 h2).edges]; exact hs.edges b
      · show scan'.Pairwise _
        rw [hscan]
        split
        · exact sc1
        · exact C11_sorted _ _ sc1
      · intro v hv
        rcases hmem v hv with rfl | rfl | h
        · exact hly
        · exact hry
        · exact hs.below v h
      · intro v hv
        rcases hmem v hv with rfl | rfl | h
        · exact hF _ inl.2.2
        · exact hF _ inr.2.2
        · exact hs.row v h
      · intro v hv; exact hs.sub v (by simp [hv])
      · intro b hb
        rcases cases3 b hb with h | ⟨-, h⟩ | ⟨h1, h2, h⟩
        · subst h; exact ⟨mem_idsOf_left hmA, hnl'⟩
        · subst h; exact ⟨mem_idsOf_right hmA, hnr⟩
        · have := hs.act b h
          refine ⟨this.1, fun hh => this.2 ?_⟩
          rw [idsOf_cons]; simp [hh]
      · intro b hb
        show (s3.bounds b).nxtIdx = (s3.bounds b).curIdx + 1
        rcases cases3 b hb with h | ⟨-, h⟩ | ⟨h1, h2, h⟩
        · subst h; rw [pl.nxtIdx, pl.curIdx, L0, L1]
        · subst h; rw [pr.nxtIdx, pr.curIdx, R0, R1]
        · rw [(po b h1 h2).nxtIdx, (po b h1 h2).curIdx]; exact hs.idx b h
      · intro v hv
        exact (hs.restScan v (by simp [hv])).imp id (hold _)
      · intro b hb e f he hf
        change (s3.bounds b).currentEdge? = some e at he
        change (s3.bounds b).nextEdge? = some f at hf
        show _ ∨ e.top.y ∈ scan'
        rcases cases3 b hb with h | ⟨-, h⟩ | ⟨h1, h2, h⟩
        · subst h; rw [pl.edge, Lc] at he; cases he; exact Or.inr (hold1 _ (Or.inr rfl))
        · subst h; rw [pr.edge, Rc] at he; cases he; exact hrm
        · rw [(po b h1 h2).edge] at he
          rw [(po b h1 h2).next] at hf
          exact (hs.span b h e f he hf).imp id (hold _)
      · intro b hb e he hh
        change (s3.bounds b).currentEdge? = some e at he
        show _ ∨ e.top.y ∈ scan'
        rcases cases3 b hb with h | ⟨-, h⟩ | ⟨h1, h2, h⟩
        · subst h; rw [pl.edge, Lc] at he; cases he; exact Or.inr (hold1 _ (Or.inr rfl))
        · subst h; rw [pr.edge, Rc] at he; cases he; exact hrm.imp (fun h => h.ge) id
        · rw [(po b h1 h2).edge] at he
          exact (hs.tops b h e he hh).imp id (hold _)
      · have hlen : scan'.length ≤ s.scan.length + 2 := by
          rw [hscan]
          have h1 := insort_length s.scan el.top.y
          have h2 := insort_length (insortUnique s.scan el.top.y) er.top.y
          split <;> omega
        have hsum : ((idsOf A).map (wt E rest { s3 with scan := scan' })).sum + 2 ≤ ((idsOf A).map (wt E (m :: rest) s)).sum := by
          refine sum_step2 (b := m.left) (c := m.right) (fun b hb => ?_) (mem_idsOf_left hmA) (mem_idsOf_right hmA) hne ?_ ?_
          · unfold wt
            rw [idsOf_cons]
            by_cases h1 : b = m.left
            · subst h1; rw [if_pos (by simp : m.left ∈ m.left :: m.right :: idsOf rest)]; split <;> omega
            · by_cases h2 : b = m.right
              · subst h2; rw [if_pos (by simp : m.right ∈ m.left :: m.right :: idsOf rest)]; split <;> omega
              · have e1 : (s3.bounds b).curIdx = (s.bounds b).curIdx := (po b h1 h2).curIdx
                simp only [List.mem_cons, h1, h2, false_or]
                show (if _ then _ else (E b).length - 1 - (s3.bounds b).curIdx) ≤ _
                rw [e1]
          · unfold wt
            rw [idsOf_cons, if_neg hnl', if_pos (by simp)]
            have := List.length_pos_of_ne_nil (hG.path _ (mem_idsOf_left hmA)).ne
            omega
          · unfold wt
            rw [idsOf_cons, if_neg hnr, if_pos (by simp)]
            have := List.length_pos_of_ne_nil (hG.path _ (mem_idsOf_right hmA)).ne
            omega
        unfold Phi
        show scan'.length + _ ≤ _
        omega
      · intro b hb
        rcases cases3 b hb with h | ⟨-, h⟩ | ⟨h1, h2, h⟩
        · subst h
          right
          have ht : ∀ e, (s3.bounds m.left).currentEdge? = some e → e.top.y ≠ y := by
            intro e he
            rw [pl.edge, Lc] at he; cases he; omega
          exact ⟨fun e f he hf hy => absurd hy (ht e he), fun _ e f he hf => ht e he⟩
        · subst h
          right
          refine ⟨fun e f he hf hy => ?_, fun hn e f he hf => ?_⟩
          · change (s3.bounds m.right).currentEdge? = some e at he
            change (s3.bounds m.right).nextEdge? = some f at hf
            rw [pr.edge, Rc] at he; cases he
            have hh : er.isHorizontal = true := hor.2 (by omega)
            by_contra hfh
            rw [pr.next] at hf
            refine ((hG.path _ (mem_idsOf_right hmA)).step (i := 0) (by rw [her]; rfl) ?_).2 ⟨hh, by simpa using hfh⟩
            have hf' : R.edges[R.nxtIdx]? = some f := hf
            rwa [R1, Re, ← her] at hf'
          · change (s3.bounds m.right).currentEdge? = some e at he
            rw [pr.edge, Rc] at he; cases he
            have : ¬ er.isHorizontal = true := fun h => by rw [hhor.2 h] at hn; cases hn
            rw [hor] at this
            omega
        · exact Or.inl ⟨h, po b h1 h2⟩
    refine Tot.bind (Tot.currentEdge fun e he => ?_)
    rw [pl.edge, Lc] at he; cases he
    refine Tot.bind (Tot.modify (fun _ _ => rfl) ?_)
    refine Tot.bind (Tot.currentEdge fun e he => ?_)
    dsimp only at he
    rw [pr.edge, Rc] at he; cases he
    refine Tot.ite (fun hh => Tot.pure ?_) fun hh => Tot.modify (fun _ _ => rfl) ?_
    · rw [scan3]
      exact key _ (by rw [if_pos hh])
    · dsimp only
      rw [scan3]
      exact key _ (by rw [if_neg hh])
  have g0 := Grown.refl hw2
  refine Tot.bind ((tot_setWindingCount sf cf hw2 i).imp fun _ s3 g3 => ?_)
  refine Tot.bind (Tot.getBound ?_)
  refine Tot.bound' g3 (fun _ => ⟨rfl, rfl, rfl, rfl, rfl⟩) (fun _ => rfl) fun s4 g4 => ?_
  refine Tot.bind (Tot.getBound (Tot.ite (fun _ => ?_) fun _ => fin s4 g4))
  refine Tot.bind (Tot.currentEdge fun e he => ?_)
  refine Tot.bind ((tot_addLocalMinimumPoint g4.hw (g4.active ((a2 _).2 (Or.inl rfl))) (g4.active ((a2 _).2 (Or.inr (Or.inl rfl)))) _).imp fun _ s5 g5 => fin s5 (g4.trans g5))

end

end Wagyu
