import Verif.Proofs.SweepBase
import Verif.Proofs.Prims
import Verif.Proofs.SweepPrims
import Verif.Proofs.SweepOpen

/-!
# The sweep that records hot pixels
-/

namespace Wagyu

open Spec

/-- The part of the invariant that holds at every moment, at scanline `y`, with the minima `rest` still to come. -/
structure HotCore (F : Extent) (E : Nat → List Edge) (A : List LocalMinimum) (y : Int) (rest : List LocalMinimum) (s : St) : Prop where
  edges : ∀ b, (s.bounds b).edges = E b
  sorted : s.scan.Pairwise (· ≤ ·)
  below : ∀ v ∈ s.scan, v ≤ y
  sub : ∀ m ∈ rest, m ∈ A
  nd : (idsOf rest).Nodup
  desc : rest.Pairwise fun a b => b.y ≤ a.y
  act : ∀ b, some b ∈ s.abl → b ∈ idsOf A ∧ b ∉ idsOf rest
  hot : ∀ p ∈ s.hotPixels, F.P p

/-- Within a step: the current edge of every active bound reaches from `y` or below to `y` or to a row still to be
visited. -/
structure HotMid (F : Extent) (E : Nat → List Edge) (A : List LocalMinimum) (y : Int) (rest : List LocalMinimum) (s : St) : Prop
    extends HotCore F E A y rest s where
  restScan : ∀ m ∈ rest, m.y = y ∨ m.y ∈ s.scan
  span : ∀ b, some b ∈ s.abl → ∀ e, (s.bounds b).currentEdge? = some e →
    e.top.y ≤ y ∧ y ≤ e.bottom.y ∧ (e.top.y = y ∨ e.top.y ∈ s.scan)

/-- Between two steps, all edges that end at `Y` are done with. -/
structure HotI (F : Extent) (E : Nat → List Edge) (A : List LocalMinimum) (Y : Int) (rest : List LocalMinimum) (s : St) : Prop
    extends HotCore F E A Y rest s where
  restScan : ∀ m ∈ rest, m.y ∈ s.scan
  span : ∀ b, some b ∈ s.abl → ∀ e, (s.bounds b).currentEdge? = some e →
    e.top.y < Y ∧ Y ≤ e.bottom.y ∧ e.top.y ∈ s.scan

/-- A number within the box. -/
def XOk (F : Extent) (x : F64) : Prop := ∃ q : ℚ, x = .fin q ∧ (F.xlo : ℚ) ≤ q ∧ q ≤ F.xhi

/-- The current x of the active bounds is within the box. -/
def CX (F : Extent) (s : St) : Prop := ∀ b, some b ∈ s.abl → XOk F (s.bounds b).currentX

/-- The bound is done with the edges that end at `y`. -/
def TopOk (y : Int) (s : St) (b : Nat) : Prop := ∀ e, (s.bounds b).currentEdge? = some e → e.top.y < y

/-- What is still to be done with a bound. -/
def wt (E : Nat → List Edge) (rest : List LocalMinimum) (s : St) (b : Nat) : Nat :=
  if b ∈ idsOf rest then (E b).length else (E b).length - 1 - (s.bounds b).curIdx

/-- Rows visited and edges to be taken up. -/
def Phi (E : Nat → List Edge) (A rest : List LocalMinimum) (s : St) : Nat :=
  s.scan.length + ((idsOf A).map (wt E rest s)).sum

/-- Edges left. -/
def Left (E : Nat → List Edge) (A : List LocalMinimum) (s : St) : Nat :=
  ((idsOf A).map fun b => (E b).length - (s.bounds b).curIdx).sum

section
variable {F : Extent} {E : Nat → List Edge} {A : List LocalMinimum} {y : Int} {rest : List LocalMinimum} {s : St}

theorem XOk.ofInt {F : Extent} {x : Int} (h : F.X x) : XOk F (.ofInt x) :=
  ⟨x, rfl, by exact_mod_cast h.1, by exact_mod_cast h.2⟩

theorem XOk.round {F : Extent} {x : F64} (h : XOk F x) {n : Int} (hn : roundHalfUp x = some n) : F.X n := by
  obtain ⟨q, rfl, h1, h2⟩ := h
  exact C17_keeps_interval q _ _ _ h1 h2 (Or.inl hn)

theorem HotCore.edge (hs : HotCore F E A y rest s) {b : Nat} {e : Edge} (he : (s.bounds b).currentEdge? = some e) : e ∈ E b := by
  have := List.mem_of_getElem? he
  rw [hs.edges] at this
  exact this

/-! ### Frames -/

/-- Only current x and position of bounds change. -/
def XMoved (s s' : St) : Prop := ∃ f : Nat → Bound, s' = { s with bounds := f }
  ∧ ∀ b, ∃ x p, f b = { s.bounds b with currentX := x, position := p }

theorem XMoved.refl (s : St) : XMoved s s := ⟨s.bounds, rfl, fun b => ⟨(s.bounds b).currentX, (s.bounds b).position, rfl⟩⟩
theorem XMoved.trans {a b c : St} (h : XMoved a b) (k : XMoved b c) : XMoved a c := by
  obtain ⟨f, rfl, hf⟩ := h
  obtain ⟨g, rfl, hg⟩ := k
  refine ⟨g, rfl, fun i => ?_⟩
  obtain ⟨x, p, e⟩ := hf i
  obtain ⟨x', p', e'⟩ := hg i
  refine ⟨x', p', ?_⟩
  rw [e']
  show { f i with currentX := x', position := p' } = _
  rw [e]

theorem xmoved_upd {s : St} {b : Nat} {x : F64} {p : Nat} :
    XMoved s { s with bounds := (upd s.bounds b { s.bounds b with currentX := x, position := p }) } := by
  refine ⟨_, rfl, fun i => ?_⟩
  by_cases e : i = b
  · subst e; exact ⟨x, p, by rw [Wagyu.upd_same]⟩
  · exact ⟨(s.bounds i).currentX, (s.bounds i).position, by rw [Wagyu.upd_other _ _ _ _ e]⟩

theorem XMoved.cur {s s' : St} (h : XMoved s s') (b : Nat) : (s'.bounds b).currentEdge? = (s.bounds b).currentEdge?
    ∧ (s'.bounds b).curIdx = (s.bounds b).curIdx ∧ (s'.bounds b).edges = (s.bounds b).edges := by
  obtain ⟨f, rfl, hf⟩ := h
  obtain ⟨x, p, e⟩ := hf b
  show (f b).currentEdge? = _ ∧ (f b).curIdx = _ ∧ (f b).edges = _
  rw [e]
  exact ⟨rfl, rfl, rfl⟩

/-- The state looks the same to the invariant, with possibly fewer active bounds and more hot pixels in the box. -/
structure Quietly (F : Extent) (s s' : St) : Prop where
  edges : ∀ b, (s'.bounds b).edges = (s.bounds b).edges
  cur : ∀ b, (s'.bounds b).curIdx = (s.bounds b).curIdx
  scan : s'.scan = s.scan
  abl : ∀ b, some b ∈ s'.abl → some b ∈ s.abl
  hot : (∀ p ∈ s.hotPixels, F.P p) → ∀ p ∈ s'.hotPixels, F.P p

theorem Quietly.edge {s s' : St} (h : Quietly F s s') (b : Nat) : (s'.bounds b).currentEdge? = (s.bounds b).currentEdge? := by
  unfold Bound.currentEdge?
  rw [h.edges, h.cur]

theorem Quietly.refl (F : Extent) (s : St) : Quietly F s s := ⟨fun _ => rfl, fun _ => rfl, rfl, fun _ h => h, fun h => h⟩
theorem Quietly.trans {a b c : St} (h : Quietly F a b) (k : Quietly F b c) : Quietly F a c :=
  ⟨fun i => (k.edges i).trans (h.edges i), fun i => (k.cur i).trans (h.cur i), k.scan.trans h.scan,
    fun i hi => h.abl i (k.abl i hi), fun hh => k.hot (h.hot hh)⟩

theorem XMoved.quietly {s s' : St} (h : XMoved s s') : Quietly F s s' := by
  refine ⟨fun b => (h.cur b).2.2, fun b => (h.cur b).2.1, ?_, ?_, ?_⟩ <;> obtain ⟨f, rfl, hf⟩ := h
  · rfl
  · exact fun b hb => hb
  · exact fun hh => hh

theorem HotCore.quiet {s' : St} (hs : HotCore F E A y rest s) (h : Quietly F s s') : HotCore F E A y rest s' where
  edges b := by rw [h.edges]; exact hs.edges b
  sorted := by rw [h.scan]; exact hs.sorted
  below := by rw [h.scan]; exact hs.below
  sub := hs.sub
  nd := hs.nd
  desc := hs.desc
  act b hb := hs.act b (h.abl b hb)
  hot := h.hot hs.hot

theorem HotMid.quiet {s' : St} (hs : HotMid F E A y rest s) (h : Quietly F s s') : HotMid F E A y rest s' where
  toHotCore := hs.toHotCore.quiet h
  restScan := by rw [h.scan]; exact hs.restScan
  span b hb e he := by
    rw [h.edge] at he
    rw [h.scan]
    exact hs.span b (h.abl b hb) e he

theorem TopOk.quiet {s' : St} {b : Nat} (hb : TopOk y s b) (h : Quietly F s s') : TopOk y s' b := by
  intro e he
  rw [h.edge] at he
  exact hb e he

theorem Quietly.phi {s' : St} (h : Quietly F s s') : Phi E A rest s' = Phi E A rest s := by
  unfold Phi wt
  simp only [h.scan, h.cur]

theorem Quietly.left {s' : St} (h : Quietly F s s') : Left E A s' = Left E A s := by
  unfold Left
  simp only [h.cur]

theorem quietly_hot {p : Point} (hp : F.P p) : Quietly F s { s with hotPixels := s.hotPixels ++ [p] } :=
  ⟨fun _ => rfl, fun _ => rfl, rfl, fun _ h => h, fun h q hq => by
    rcases List.mem_append.1 hq with hq | hq
    · exact h q hq
    · rw [List.mem_singleton.1 hq]; exact hp⟩

theorem quietly_abl {l : List (Option Nat)} (h : ∀ b, some b ∈ l → some b ∈ s.abl) : Quietly F s { s with abl := l } :=
  ⟨fun _ => rfl, fun _ => rfl, rfl, h, fun h => h⟩

/-! ### Updating the current x -/

theorem xmoved_x {s : St} {b : Nat} {x : F64} : XMoved s { s with bounds := (upd s.bounds b { s.bounds b with currentX := x }) } :=
  xmoved_upd (p := (s.bounds b).position)

theorem post_updateCurrentX (P : Nat → F64 → Prop)
    (hP : ∀ b, some b ∈ s.abl → ∀ e, (s.bounds b).currentEdge? = some e → P b (e.getCurrentX y)) :
    Ok (updateCurrentX y) s fun _ s' => XMoved s s' ∧ ∀ b, some b ∈ s.abl → P b (s'.bounds b).currentX := by
  unfold updateCurrentX
  refine Post.bind (Post.gets ?_)
  refine Post.forElseN (fun k i s' => k + i = s.abl.length ∧ XMoved s s'
    ∧ ∀ j b, j < i → s.abl[j]? = some (some b) → P b (s'.bounds b).currentX) ?_ ?_ _ _ _ ⟨by omega, XMoved.refl s, ?_⟩
  · rintro k i s1 ⟨h1, h2, h3⟩
    refine Post.bind (Post.deref (fun b hb => ?_) fun _ => trivial)
    have hi : s.abl[i]? = some (some b) := by
      rw [List.getD_eq_getElem?_getD, List.getElem?_eq_getElem (by omega), Option.getD_some] at hb
      rw [List.getElem?_eq_getElem (by omega), hb]
    refine Post.bind (Post.modBound ?_)
    have m1 : XMoved s1 { s1 with bounds := (upd s1.bounds b { s1.bounds b with position := i }) } :=
      xmoved_upd (x := (s1.bounds b).currentX)
    refine Post.bind ?_
    unfold currentEdge
    refine Post.bind (Post.getBound ?_)
    refine Post.orIndex (fun e he => ?_) fun _ => trivial
    rw [(m1.cur b).1, (h2.cur b).1] at he
    refine Post.bind (Post.modBound ?_)
    refine Post.pure ?_
    refine ⟨by omega, (h2.trans m1).trans xmoved_x, ?_⟩
    intro j c hj hc
    by_cases hcb : c = b
    · subst hcb
      show P c (Bound.currentX (upd _ c _ c))
      rw [Wagyu.upd_same]
      exact hP c (List.mem_of_getElem? hi) e he
    · show P c (Bound.currentX (upd (upd _ b _) b _ c))
      rw [Wagyu.upd_other _ _ _ _ hcb, Wagyu.upd_other _ _ _ _ hcb]
      refine h3 j c ?_ hc
      by_contra hji
      have : j = i := by omega
      subst this
      rw [hi] at hc
      cases hc
      exact hcb rfl
  · rintro i s1 ⟨h1, h2, h3⟩
    refine Post.pure ⟨h2, fun b hb => ?_⟩
    obtain ⟨j, hj⟩ := List.mem_iff_getElem?.1 hb
    have := (List.getElem?_eq_some_iff.1 hj).1
    exact h3 j b (by omega) hj
  · intro j b hj; omega

/-! ### Crossings -/

theorem tot_hotIntersections (hG : Given F E A) (hs : HotMid F E A y rest s) :
    Tot (processHotPixelIntersections y) s fun _ s' => HotMid F E A y rest s' ∧ CX F s'
      ∧ Phi E A rest s' = Phi E A rest s := by
  unfold processHotPixelIntersections
  refine Tot.bind ((Tot.steady (post_updateCurrentX (fun _ x => XOk F x) ?_)).imp ?_)
  · intro b hb e he
    obtain ⟨h1, h2, -⟩ := hs.span b hb e he
    have hbA := (hs.act b hb).1
    have heE := hs.edge he
    obtain ⟨⟨⟨x1, x2⟩, -⟩, ⟨x3, x4⟩, -⟩ := hG.inF b hbA e heE
    by_cases hh : e.isHorizontal = true
    · have := ((hG.path b hbA).hor e heE).1 hh
      have hy : y = e.top.y := by omega
      obtain ⟨bx, by', tx, ty⟩ := (hG.bounded b hbA e heE).bx
      refine ⟨e.top.x, ?_, by exact_mod_cast x3, by exact_mod_cast x4⟩
      unfold Edge.getCurrentX
      rw [if_pos hy]
      exact fl_int (by omega)
    · obtain ⟨q, hq, q1, q2⟩ := getCurrentX_between (hG.bounded b hbA e heE)
        ((hG.path b hbA).slope e heE (by simpa using hh)) h1 h2
      refine ⟨q, hq, le_trans ?_ q1, q2.trans ?_⟩
      · exact_mod_cast le_min x1 x3
      · exact_mod_cast max_le x2 x4
  rintro _ s1 ⟨hm, hx⟩
  have h1 := hs.quiet hm.quietly
  have hx1 : CX F s1 := fun b hb => hx b (hm.quietly (F := F).abl b hb)
  refine Tot.bind ((tot_sortActive fun b hb => ?_).imp ?_)
  · obtain ⟨q, hq, -⟩ := hx1 b hb
    rw [hq]; nofun
  rintro ⟨sorted, swaps⟩ s2 ⟨rfl, hperm, hsw, -⟩
  dsimp only
  have hmem : ∀ b, b ∈ s2.abl.filterMap id ↔ some b ∈ s2.abl := by
    intro b
    simp [List.mem_filterMap]
  have hpairs : ∀ q ∈ swaps, some q.1 ∈ s2.abl ∧ some q.2 ∈ s2.abl := by
    have : ∀ {l : List Nat} {ss r}, AdjSwaps l ss r → ∀ q ∈ ss, q.1 ∈ l ∧ q.2 ∈ l := by
      intro l ss r h
      induction h with
      | refl => simp
      | @step p s a b ss r h ih =>
        intro q hq
        rcases List.mem_cons.1 hq with rfl | hq
        · simp
        · have := ih q hq
          simp only [List.mem_append, List.mem_cons] at this ⊢
          tauto
    intro q hq
    have := this hsw q hq
    rw [hmem, hmem] at this
    exact this
  refine Tot.bind ((Tot.forList (fun s' => Quietly F s2 s' ∧ (∀ b, (s'.bounds b).currentX = (s2.bounds b).currentX))
    (fun q s3 hq hs3 => ?_) ⟨Quietly.refl F s2, fun _ => rfl⟩).imp ?_)
  · obtain ⟨hq3, hx3⟩ := hs3
    refine Tot.bind (Tot.steady ?_)
    unfold crossingOf currentEdge
    refine Post.bind (Post.bind (Post.getBound (Post.orIndex (fun e he => ?_) fun _ => trivial)))
    refine Post.bind (Post.bind (Post.getBound (Post.orIndex (fun f hf => ?_) fun _ => trivial)))
    split
    · trivial
    next p hp =>
    refine Post.pure ?_
    rw [hq3.edge] at he
    have hb := (h1.act _ (hpairs q hq).1).1
    have heE := h1.edge he
    obtain ⟨r, hr, hbox⟩ := C29_rounded_crossing_in_box e f p (hG.bounded _ hb e heE) hp
    rw [hr]
    refine Tot.bind (Tot.steady (m := liftE (.ok r)) (hm := Steady.pure r) ?_)
    refine Post.pure (Tot.steady ?_)
    refine Post.modify ⟨hq3.trans (quietly_hot ?_), hx3⟩
    obtain ⟨⟨⟨x1, x2⟩, y1, y2⟩, ⟨x3, x4⟩, y3, y4⟩ := hG.inF _ hb e heE
    obtain ⟨b1, b2, b3, b4⟩ := hbox
    simp only [Edge.box] at b1 b2 b3 b4
    refine ⟨⟨?_, ?_⟩, ?_, ?_⟩ <;> omega
  · rintro _ s3 ⟨hq3, hx3⟩
    refine Tot.steady (hm := Steady.modify fun _ _ => rfl) (Post.modify ?_)
    have hsub : ∀ b, some b ∈ sorted.map some → some b ∈ s2.abl := by
      intro b hb
      simp only [List.mem_map, Option.some.injEq, exists_eq_right] at hb
      exact (hmem b).1 (hperm.mem_iff.1 hb)
    have hQ : Quietly F s2 { s3 with abl := sorted.map some } :=
      ⟨hq3.edges, hq3.cur, hq3.scan, hsub, hq3.hot⟩
    refine ⟨h1.quiet hQ, fun b hb => ?_, ?_⟩
    · show XOk F (s3.bounds b).currentX
      rw [hx3]
      exact hx1 b (hsub b hb)
    · rw [hQ.phi, hm.quietly (F := F).phi]

/-! ### New local minima -/

/-- Taking up the first edge of a bound. -/
theorem currentEdge_zero {bd : Bound} {e : Edge} {l : List Edge} (h : bd.edges = e :: l) :
    ((bd.setCur 0).setNxt 1).currentEdge? = some e ∧ ((bd.setCur 0).setNxt 1).curIdx = 0 := by
  have : (bd.setCur 0).curIdx = 0 := by
    unfold Bound.setCur Bound.curIdx
    rw [if_pos (by rw [h]; simp)]
  refine ⟨?_, this⟩
  show bd.edges[(bd.setCur 0).curIdx]? = some e
  rw [this, h]; rfl

theorem HotMid.insertScan (hs : HotMid F E A y rest s) {v : Int} (hv : v ≤ y) :
    HotMid F E A y rest { s with scan := insortUnique s.scan v } := by
  have hm : ∀ x, x ∈ s.scan → x ∈ insortUnique s.scan v := fun x hx => (C11_mem _ _ _ hs.sorted).2 (Or.inr hx)
  refine ⟨⟨hs.edges, C11_sorted _ _ hs.sorted, ?_, hs.sub, hs.nd, hs.desc, hs.act, hs.hot⟩, ?_, ?_⟩
  · intro x hx
    rcases (C11_mem _ _ _ hs.sorted).1 hx with rfl | hx
    · exact hv
    · exact hs.below x hx
  · intro m hm'
    exact (hs.restScan m hm').imp id (hm _)
  · intro b hb e he
    obtain ⟨h1, h2, h3⟩ := hs.span b hb e he
    exact ⟨h1, h2, h3.imp id (hm _)⟩

theorem phi_insertScan {v : Int} : Phi E A rest { s with scan := insortUnique s.scan v } ≤ Phi E A rest s + 1 := by
  have := insort_length s.scan v
  unfold Phi
  show (insortUnique s.scan v).length + ((idsOf A).map (wt E rest s)).sum ≤ _
  omega

theorem ok_insertMinimaHot (hG : Given F E A) : ∀ (rest : List LocalMinimum) (s : St), HotMid F E A y rest s → CX F s →
    Ok (insertLocalMinimaHotPixel y rest) s fun rest' s' => HotMid F E A y rest' s' ∧ CX F s'
      ∧ (∀ m ∈ rest', m.y ≠ y) ∧ Phi E A rest' s' ≤ Phi E A rest s
  | [], s, hs, hx => Post.pure ⟨hs, hx, by simp, Nat.le_refl _⟩
  | m :: rest, s, hs, hx => by
    rw [insertLocalMinimaHotPixel]
    refine Post.ite (fun hy => ?_) fun hy => ?_
    rotate_left
    · refine Post.pure ⟨hs, hx, ?_, Nat.le_refl _⟩
      have hle : m.y < y := by
        rcases hs.restScan m (by simp) with h | h
        · exact absurd h hy
        · have := hs.below _ h; omega
      intro v hv
      rcases List.mem_cons.1 hv with rfl | hv
      · omega
      · have := (List.pairwise_cons.1 hs.desc).1 v hv
        omega
    have hmA := hs.sub m (by simp)
    obtain ⟨p, sl, sr, hpy⟩ := hG.start m hmA
    obtain ⟨el, ll, hel, hrise⟩ := hG.rises m hmA
    obtain ⟨er, lr, her⟩ : ∃ e l, E m.right = e :: l := by
      cases h : E m.right with
      | nil => exact absurd h (hG.path _ (mem_idsOf_right hmA)).ne
      | cons e l => exact ⟨e, l, rfl⟩
    have hpl : el.bottom = p := by rw [hel] at sl; exact Option.some.inj sl
    have hpr : er.bottom = p := by rw [her] at sr; exact Option.some.inj sr
    have inl := hG.inF _ (mem_idsOf_left hmA) el (by rw [hel]; simp)
    have inr := hG.inF _ (mem_idsOf_right hmA) er (by rw [her]; simp)
    have ler := (hG.path _ (mem_idsOf_right hmA)).le er (by rw [her]; simp)
    have hor := (hG.path _ (mem_idsOf_right hmA)).hor er (by rw [her]; simp)
    have hol := (hG.path _ (mem_idsOf_left hmA)).hor el (by rw [hel]; simp)
    have hnd := hs.nd
    rw [idsOf_cons, List.nodup_cons, List.nodup_cons] at hnd
    obtain ⟨hnl, hnr, hnd⟩ := hnd
    have hne : m.left ≠ m.right := fun h => hnl (by rw [h]; simp)
    have hnl' : m.left ∉ idsOf rest := fun h => hnl (by simp [h])
    refine Post.bind (Post.getBound ?_)
    rw [hs.edges, hel]
    refine Post.bind (Post.orIndex (fun e0 he0 => ?_) nofun)
    cases he0
    refine Post.bind (Post.modify ?_)
    refine Post.bind (Post.modBound ?_)
    dsimp only
    obtain ⟨cl, cl0⟩ := currentEdge_zero (bd := s.bounds m.left) (by rw [hs.edges, hel])
    refine Post.bind ?_
    unfold currentEdge
    refine Post.bind (Post.getBound ?_)
    dsimp only
    rw [Wagyu.upd_same, cl]
    refine Post.orIndex (fun e0 he0 => ?_) nofun
    cases he0
    refine Post.bind (Post.modBound ?_)
    dsimp only
    rw [Wagyu.upd_same, upd_upd]
    refine Post.bind (Post.modBound ?_)
    dsimp only
    rw [Wagyu.upd_other _ _ _ _ hne.symm]
    obtain ⟨cr, cr0⟩ := currentEdge_zero (bd := s.bounds m.right) (by rw [hs.edges, her])
    refine Post.bind ?_
    refine Post.bind (Post.getBound ?_)
    dsimp only
    rw [Wagyu.upd_same, cr]
    refine Post.orIndex (fun e0 he0 => ?_) nofun
    cases he0
    refine Post.bind (Post.modBound ?_)
    dsimp only
    rw [Wagyu.upd_same, upd_upd]
    -- the state before the bounds become active
    generalize hL : ({ (s.bounds m.left).setCur 0 |>.setNxt 1 with currentX := F64.ofInt el.bottom.x } : Bound) = L
    generalize hR : ({ (s.bounds m.right).setCur 0 |>.setNxt 1 with currentX := F64.ofInt er.bottom.x } : Bound) = R
    have Le : L.edges = E m.left := by rw [← hL]; exact hs.edges _
    have Lc : L.currentEdge? = some el := by rw [← hL]; exact cl
    have L0 : L.curIdx = 0 := by rw [← hL]; exact cl0
    have Lx : L.currentX = .ofInt el.bottom.x := by rw [← hL]
    have Re : R.edges = E m.right := by rw [← hR]; exact hs.edges _
    have Rc : R.currentEdge? = some er := by rw [← hR]; exact cr
    have R0 : R.curIdx = 0 := by rw [← hR]; exact cr0
    have Rx : R.currentX = .ofInt er.bottom.x := by rw [← hR]
    clear hL hR cl cl0 cr cr0
    refine Post.bind ((insertBoundIntoAbl_ok _ m.left m.right).imp ?_)
    rintro i s1 ⟨-, rfl⟩
    dsimp only
    have bl : upd (upd s.bounds m.left L) m.right R m.left = L := by
      rw [Wagyu.upd_other _ _ _ _ hne, Wagyu.upd_same]
    have br : upd (upd s.bounds m.left L) m.right R m.right = R := Wagyu.upd_same ..
    have bo : ∀ b, b ≠ m.left → b ≠ m.right → upd (upd s.bounds m.left L) m.right R b = s.bounds b := by
      intro b h1 h2
      rw [Wagyu.upd_other _ _ _ _ h2, Wagyu.upd_other _ _ _ _ h1]
    generalize hB : upd (upd s.bounds m.left L) m.right R = B at bl br bo
    clear hB
    refine Post.bind (Post.bind (Post.getBound ?_))
    dsimp only
    rw [bl, Lc]
    refine Post.orIndex (fun e0 he0 => ?_) nofun
    cases he0
    have hlnh : el.isHorizontal ≠ true := by rw [Ne, hol]; omega
    rw [if_neg hlnh]
    refine Post.bind (Post.modify ?_)
    refine Post.bind (Post.bind (Post.getBound ?_))
    dsimp only
    rw [br, Rc]
    refine Post.orIndex (fun e0 he0 => ?_) nofun
    cases he0
    -- all conditions about the new state, whatever becomes of the scanbeams
    have key : ∀ scan', scan' = (if er.isHorizontal then insortUnique s.scan el.top.y
          else insortUnique (insortUnique s.scan el.top.y) er.top.y) →
        HotMid F E A y rest { s with hotPixels := s.hotPixels ++ [el.bottom], bounds := B, abl := s.abl.take i ++ some m.left :: some m.right :: s.abl.drop i, scan := scan' }
        ∧ CX F { s with hotPixels := s.hotPixels ++ [el.bottom], bounds := B, abl := s.abl.take i ++ some m.left :: some m.right :: s.abl.drop i, scan := scan' }
        ∧ Phi E A rest { s with hotPixels := s.hotPixels ++ [el.bottom], bounds := B, abl := s.abl.take i ++ some m.left :: some m.right :: s.abl.drop i, scan := scan' } ≤ Phi E A (m :: rest) s := by
      intro scan' hscan
      have hly : el.top.y ≤ y := by have := congrArg Point.y hpl; omega
      have hry : er.top.y ≤ y := by have := congrArg Point.y hpr; omega
      have hlb : el.bottom.y = y := by have := congrArg Point.y hpl; omega
      have hrb : er.bottom.y = y := by have := congrArg Point.y hpr; omega
      have sc1 := C11_sorted _ el.top.y hs.sorted
      have hmem : ∀ x, x ∈ scan' → x = el.top.y ∨ x = er.top.y ∨ x ∈ s.scan := by
        intro x hx
        rw [hscan] at hx
        split at hx
        · rcases (C11_mem _ _ _ hs.sorted).1 hx with h | h <;> tauto
        · rcases (C11_mem _ _ _ sc1).1 hx with h | h
          · tauto
          · rcases (C11_mem _ _ _ hs.sorted).1 h with h | h <;> tauto
      have hold : ∀ x, x ∈ s.scan → x ∈ scan' := by
        intro x hx
        rw [hscan]
        split
        · exact (C11_mem _ _ _ hs.sorted).2 (Or.inr hx)
        · exact (C11_mem _ _ _ sc1).2 (Or.inr ((C11_mem _ _ _ hs.sorted).2 (Or.inr hx)))
      have hl' : el.top.y ∈ scan' := by
        rw [hscan]
        split
        · exact (C11_mem _ _ _ hs.sorted).2 (Or.inl rfl)
        · exact (C11_mem _ _ _ sc1).2 (Or.inr ((C11_mem _ _ _ hs.sorted).2 (Or.inl rfl)))
      have hr' : er.top.y = y ∨ er.top.y ∈ scan' := by
        rw [hscan]
        split
        · next h => left; rw [hor] at h; omega
        · right; exact (C11_mem _ _ _ sc1).2 (Or.inl rfl)
      have habl : ∀ b, some b ∈ s.abl.take i ++ some m.left :: some m.right :: s.abl.drop i →
          b = m.left ∨ b = m.right ∨ some b ∈ s.abl := by
        intro b hb
        simp only [List.mem_append, List.mem_cons, Option.some.injEq] at hb
        rcases hb with h | h | h | h
        · exact Or.inr (Or.inr (List.mem_of_mem_take h))
        · exact Or.inl h
        · exact Or.inr (Or.inl h)
        · exact Or.inr (Or.inr (List.mem_of_mem_drop h))
      have hbo : ∀ b, some b ∈ s.abl → B b = s.bounds b := by
        intro b hb
        have := (hs.act b hb).2
        rw [idsOf_cons] at this
        simp only [List.mem_cons, not_or] at this
        exact bo b this.1 this.2.1
      refine ⟨⟨⟨?_, ?_, ?_, ?_, hnd, ?_, ?_, ?_⟩, ?_, ?_⟩, ?_, ?_⟩
      · intro b
        show (B b).edges = E b
        by_cases h1 : b = m.left
        · rw [h1, bl, Le]
        · by_cases h2 : b = m.right
          · rw [h2, br, Re]
          · rw [bo b h1 h2]; exact hs.edges b
      · show scan'.Pairwise _
        rw [hscan]
        split
        · exact sc1
        · exact C11_sorted _ _ sc1
      · intro v hv
        rcases hmem v hv with rfl | rfl | h
        · exact hly
        · exact hry
        · exact hs.below v h
      · exact fun v hv => hs.sub v (by simp [hv])
      · exact (List.pairwise_cons.1 hs.desc).2
      · intro b hb
        rcases habl b hb with rfl | rfl | h
        · exact ⟨mem_idsOf_left hmA, hnl'⟩
        · exact ⟨mem_idsOf_right hmA, hnr⟩
        · obtain ⟨h1, h2⟩ := hs.act b h
          rw [idsOf_cons] at h2
          simp only [List.mem_cons, not_or] at h2
          exact ⟨h1, h2.2.2⟩
      · intro q hq
        rcases List.mem_append.1 hq with hq | hq
        · exact hs.hot q hq
        · rw [List.mem_singleton.1 hq]; exact inl.1
      · intro v hv
        exact (hs.restScan v (by simp [hv])).imp id (hold _)
      · intro b hb e he
        change (B b).currentEdge? = some e at he
        show _ ∧ _ ∧ (_ ∨ e.top.y ∈ scan')
        rcases habl b hb with rfl | rfl | h
        · rw [bl, Lc] at he; cases he
          exact ⟨hly, by omega, Or.inr hl'⟩
        · rw [br, Rc] at he; cases he
          exact ⟨hry, by omega, hr'⟩
        · rw [hbo b h] at he
          obtain ⟨h1, h2, h3⟩ := hs.span b h e he
          exact ⟨h1, h2, h3.imp id (hold _)⟩
      · intro b hb
        show XOk F (B b).currentX
        rcases habl b hb with rfl | rfl | h
        · rw [bl, Lx]; exact XOk.ofInt inl.1.1
        · rw [br, Rx]; exact XOk.ofInt inr.1.1
        · rw [hbo b h]; exact hx b h
      · have hlen : scan'.length ≤ s.scan.length + 2 := by
          rw [hscan]
          have h1 := insort_length s.scan el.top.y
          have h2 := insort_length (insortUnique s.scan el.top.y) er.top.y
          split <;> omega
        unfold Phi
        show scan'.length + _ ≤ _
        have hsum : ((idsOf A).map (wt E rest { s with hotPixels := s.hotPixels ++ [el.bottom], bounds := B, abl := s.abl.take i ++ some m.left :: some m.right :: s.abl.drop i, scan := scan' })).sum + 2
            ≤ ((idsOf A).map (wt E (m :: rest) s)).sum := by
          refine sum_step2 (b := m.left) (c := m.right) ?_ (mem_idsOf_left hmA) (mem_idsOf_right hmA) hne ?_ ?_
          · intro b _
            unfold wt
            rw [idsOf_cons]
            simp only [List.mem_cons]
            by_cases h1 : b = m.left
            · subst h1
              rw [if_pos (Or.inl rfl)]
              split
              · exact Nat.le_refl _
              · omega
            · by_cases h2 : b = m.right
              · subst h2
                rw [if_pos (Or.inr (Or.inl rfl))]
                split
                · exact Nat.le_refl _
                · omega
              · rw [bo b h1 h2]
                simp only [h1, h2, false_or]
                exact Nat.le_refl _
          · unfold wt
            rw [if_neg hnl', if_pos (by rw [idsOf_cons]; simp)]
            dsimp only
            rw [bl, L0, hel]
            simp
          · unfold wt
            rw [if_neg hnr, if_pos (by rw [idsOf_cons]; simp)]
            dsimp only
            rw [br, R0, her]
            simp
        omega
    have fin : ∀ scan' , scan' = (if er.isHorizontal then insortUnique s.scan el.top.y
          else insortUnique (insortUnique s.scan el.top.y) er.top.y) →
        Ok (insertLocalMinimaHotPixel y rest) { s with hotPixels := s.hotPixels ++ [el.bottom], bounds := B, abl := s.abl.take i ++ some m.left :: some m.right :: s.abl.drop i, scan := scan' } fun rest' s' =>
          HotMid F E A y rest' s' ∧ CX F s' ∧ (∀ m ∈ rest', m.y ≠ y) ∧ Phi E A rest' s' ≤ Phi E A (m :: rest) s := by
      intro scan' hscan
      obtain ⟨k1, k2, k3⟩ := key scan' hscan
      refine (ok_insertMinimaHot hG rest _ k1 k2).imp ?_
      rintro rest' s' ⟨a, b, c, d⟩
      exact ⟨a, b, c, d.trans k3⟩
    split
    · next h => exact fin _ (by rw [if_pos h])
    · next h => exact Post.bind (Post.modify (fin _ (by rw [if_neg h])))

/-! ### Advancing bounds -/

theorem swap_get {l : List (Option Nat)} {i j : Nat} {a b : Option Nat} (ha : l[i]? = some a) (hb : l[j]? = some b) (k : Nat) :
    ((l.set i b).set j a)[k]? = if k = j then some a else if k = i then some b else l[k]? := by
  have h1 := (List.getElem?_eq_some_iff.1 ha).1
  have h2 := (List.getElem?_eq_some_iff.1 hb).1
  by_cases hj : k = j
  · subst hj
    rw [if_pos rfl, List.getElem?_set_self (by simpa using h2)]
  · rw [if_neg hj, List.getElem?_set_ne (Ne.symm hj)]
    by_cases hi : k = i
    · subst hi
      rw [if_pos rfl, List.getElem?_set_self h1]
    · rw [if_neg hi, List.getElem?_set_ne (Ne.symm hi)]

theorem swap_mem {l : List (Option Nat)} {i j : Nat} {a b : Option Nat} (ha : l[i]? = some a) (hb : l[j]? = some b) {x : Option Nat}
    (h : x ∈ (l.set i b).set j a) : x ∈ l := by
  obtain ⟨k, hk⟩ := List.mem_iff_getElem?.1 h
  rw [swap_get ha hb] at hk
  split at hk
  · cases hk; exact List.mem_of_getElem? ha
  · split at hk
    · cases hk; exact List.mem_of_getElem? hb
    · exact List.mem_of_getElem? hk

theorem ok_ablGet {i : Nat} : Ok (ablGet i) s fun a s' => s' = s ∧ s.abl[i]? = some a := by
  unfold ablGet
  refine Ok.intro fun a s' h => ?_
  split at h
  · next h1 => cases h; exact ⟨rfl, h1⟩
  · cases h

theorem ok_ablSwap {i j : Nat} : Ok (ablSwap i j) s fun _ s' => ∃ a b, s.abl[i]? = some a ∧ s.abl[j]? = some b
    ∧ s' = { s with abl := (s.abl.set i b).set j a } := by
  unfold ablSwap
  refine Post.bind (ok_ablGet.imp ?_)
  rintro a _ ⟨rfl, ha⟩
  refine Post.bind (ok_ablGet.imp ?_)
  rintro b _ ⟨rfl, hb⟩
  exact Post.bind (Post.modify (Post.modify ⟨a, b, ha, hb, rfl⟩))

theorem ok_toNextEdgeHot (hG : Given F E A) (hs : HotMid F E A y rest s) {b : Nat} (hb : b ∈ idsOf A) (hbr : b ∉ idsOf rest) {e : Edge}
    (he : (s.bounds b).currentEdge? = some e) (hty : e.top.y = y) :
    Ok (toNextEdge b) s fun _ s' => HotMid F E A y rest s' ∧ (CX F s → CX F s') ∧ s'.abl = s.abl
      ∧ Phi E A rest s' ≤ Phi E A rest s ∧ Left E A s' < Left E A s ∧ (∀ c, c ≠ b → s'.bounds c = s.bounds c)
      ∧ (e.isHorizontal = true → TopOk y s' b) := by
  have hlt : (s.bounds b).curIdx < (s.bounds b).edges.length := (List.getElem?_eq_some_iff.1 he).1
  have hEl : (s.bounds b).edges = E b := hs.edges b
  by_cases hlast : (s.bounds b).curIdx + 1 = (s.bounds b).edges.length
  · refine Post.run (run_toNextEdge_last hlast) ?_
    have hcur : ∀ c, (upd s.bounds b { s.bounds b with cur := none } c).curIdx = if c = b then (E b).length else (s.bounds c).curIdx := by
      intro c
      by_cases h : c = b
      · subst h; rw [Wagyu.upd_same, if_pos rfl, ← hEl]; rfl
      · rw [Wagyu.upd_other _ _ _ _ h, if_neg h]
    have hnone : (upd s.bounds b { s.bounds b with cur := none } b).currentEdge? = none := by
      rw [Wagyu.upd_same]
      show (s.bounds b).edges[(s.bounds b).edges.length]? = none
      simp
    refine ⟨⟨⟨?_, hs.sorted, hs.below, hs.sub, hs.nd, hs.desc, hs.act, hs.hot⟩, hs.restScan, ?_⟩, ?_, rfl, ?_, ?_, ?_, ?_⟩
    · intro c
      show (upd _ _ _ c : Bound).edges = _
      by_cases h : c = b
      · subst h; rw [Wagyu.upd_same]; exact hEl
      · rw [Wagyu.upd_other _ _ _ _ h]; exact hs.edges c
    · intro c hc f hf
      by_cases h : c = b
      · subst h
        rw [show (St.bounds _ c) = upd s.bounds c _ c from rfl, hnone] at hf
        cases hf
      · rw [show (St.bounds _ c) = upd s.bounds b _ c from rfl, Wagyu.upd_other _ _ _ _ h] at hf
        exact hs.span c hc f hf
    · intro hx c hc
      show XOk F (Bound.currentX (upd _ _ _ c))
      by_cases h : c = b
      · subst h; rw [Wagyu.upd_same]; exact hx c hc
      · rw [Wagyu.upd_other _ _ _ _ h]; exact hx c hc
    · unfold Phi
      refine Nat.add_le_add_left (sum_mono fun c _ => ?_) _
      unfold wt
      split
      · exact Nat.le_refl _
      · dsimp only
        rw [hcur]
        split
        · next h => subst h; omega
        · exact Nat.le_refl _
    · unfold Left
      refine Nat.lt_of_succ_le (sum_step (b := b) (fun c _ => ?_) hb (c := 1) ?_)
      · dsimp only
        rw [hcur]
        split
        · next h => subst h; omega
        · exact Nat.le_refl _
      · dsimp only
        rw [hcur, if_pos rfl]
        rw [hEl] at hlt
        omega
    · intro c hc
      exact Wagyu.upd_other _ _ _ _ hc
    · intro _ f hf
      rw [show (St.bounds _ b) = upd s.bounds b _ b from rfl, hnone] at hf
      cases hf
  · have hlt' : (s.bounds b).curIdx + 1 < (s.bounds b).edges.length := by omega
    obtain ⟨f, hf⟩ : ∃ f, (s.bounds b).edges[(s.bounds b).curIdx + 1]? = some f := ⟨_, List.getElem?_eq_getElem hlt'⟩
    refine Post.run (run_toNextEdge_next hf) ?_
    have hPath := hG.path b hb
    obtain ⟨hst, hhh⟩ := hPath.step (i := (s.bounds b).curIdx) (e := e) (f := f) (by rw [← hEl]; exact he) (by rw [← hEl]; exact hf)
    have hfE : f ∈ E b := by rw [← hEl]; exact List.mem_of_getElem? hf
    have hfle := hPath.le f hfE
    have hfb : f.bottom.y = y := by rw [← hst]; exact hty
    generalize hB : ({ s.bounds b with
        cur := some ((s.bounds b).curIdx + 1)
        nxt := (if (s.bounds b).nxtIdx + 1 < (s.bounds b).edges.length then some ((s.bounds b).nxtIdx + 1) else none)
        currentX := .ofInt f.bottom.x } : Bound) = B
    have Be : B.edges = E b := by rw [← hB]; exact hEl
    have Bc : B.currentEdge? = some f := by rw [← hB]; exact hf
    have B0 : B.curIdx = (s.bounds b).curIdx + 1 := by rw [← hB]; rfl
    have Bx : B.currentX = .ofInt f.bottom.x := by rw [← hB]
    clear hB
    generalize hsc : (if f.isHorizontal = true then s.scan else insortUnique s.scan f.top.y) = scan'
    have hmem : ∀ x, x ∈ scan' → x = f.top.y ∨ x ∈ s.scan := by
      intro x hx
      rw [← hsc] at hx
      split at hx
      · exact Or.inr hx
      · exact (C11_mem _ _ _ hs.sorted).1 hx
    have hold : ∀ x, x ∈ s.scan → x ∈ scan' := by
      intro x hx
      rw [← hsc]
      split
      · exact hx
      · exact (C11_mem _ _ _ hs.sorted).2 (Or.inr hx)
    have hft : f.top.y = y ∨ f.top.y ∈ scan' := by
      rw [← hsc]
      split
      · next h => left; have := (hPath.hor f hfE).1 h; omega
      · exact Or.inr ((C11_mem _ _ _ hs.sorted).2 (Or.inl rfl))
    have hcur : ∀ c, (upd s.bounds b B c).curIdx = if c = b then (s.bounds b).curIdx + 1 else (s.bounds c).curIdx := by
      intro c
      by_cases h : c = b
      · subst h; rw [Wagyu.upd_same, if_pos rfl, B0]
      · rw [Wagyu.upd_other _ _ _ _ h, if_neg h]
    refine ⟨⟨⟨?_, ?_, ?_, hs.sub, hs.nd, hs.desc, hs.act, hs.hot⟩, ?_, ?_⟩, ?_, rfl, ?_, ?_, ?_, ?_⟩
    · intro c
      show (upd _ _ _ c : Bound).edges = _
      by_cases h : c = b
      · subst h; rw [Wagyu.upd_same]; exact Be
      · rw [Wagyu.upd_other _ _ _ _ h]; exact hs.edges c
    · show scan'.Pairwise _
      rw [← hsc]
      split
      · exact hs.sorted
      · exact C11_sorted _ _ hs.sorted
    · intro v hv
      rcases hmem v hv with rfl | h
      · omega
      · exact hs.below v h
    · intro m hm
      exact (hs.restScan m hm).imp id (hold _)
    · intro c hc g hg
      show _ ∧ _ ∧ (_ ∨ g.top.y ∈ scan')
      by_cases h : c = b
      · subst h
        rw [show (St.bounds _ c) = upd s.bounds c _ c from rfl, Wagyu.upd_same, Bc] at hg
        cases hg
        exact ⟨by omega, by omega, hft⟩
      · rw [show (St.bounds _ c) = upd s.bounds b _ c from rfl, Wagyu.upd_other _ _ _ _ h] at hg
        obtain ⟨h1, h2, h3⟩ := hs.span c hc g hg
        exact ⟨h1, h2, h3.imp id (hold _)⟩
    · intro hx c hc
      show XOk F (Bound.currentX (upd _ _ _ c))
      by_cases h : c = b
      · subst h; rw [Wagyu.upd_same, Bx]; exact XOk.ofInt (hG.inF c hb f hfE).1.1
      · rw [Wagyu.upd_other _ _ _ _ h]; exact hx c hc
    · have hlen : scan'.length ≤ s.scan.length + 1 := by
        rw [← hsc]
        have := insort_length s.scan f.top.y
        split <;> omega
      unfold Phi
      have : ((idsOf A).map (wt E rest { s with bounds := upd s.bounds b B, scan := scan' })).sum + 1 ≤ ((idsOf A).map (wt E rest s)).sum := by
        refine sum_step (b := b) (fun c _ => ?_) hb (c := 1) ?_
        · unfold wt
          split
          · exact Nat.le_refl _
          · dsimp only
            rw [hcur]
            split
            · next h => subst h; omega
            · exact Nat.le_refl _
        · unfold wt
          rw [if_neg hbr, if_neg hbr]
          dsimp only
          rw [hcur, if_pos rfl]
          rw [hEl] at hlt'
          omega
      show scan'.length + _ ≤ _
      omega
    · unfold Left
      refine Nat.lt_of_succ_le (sum_step (b := b) (fun c _ => ?_) hb (c := 1) ?_)
      · dsimp only
        rw [hcur]
        split
        · next h => subst h; omega
        · exact Nat.le_refl _
      · dsimp only
        rw [hcur, if_pos rfl]
        rw [hEl] at hlt
        omega
    · intro c hc
      exact Wagyu.upd_other _ _ _ _ hc
    · intro hh g hg
      rw [show (St.bounds _ b) = upd s.bounds b _ b from rfl, Wagyu.upd_same, Bc] at hg
      cases hg
      have hn : ¬ f.isHorizontal = true := fun h => hhh ⟨hh, h⟩
      have : f.top.y ≠ f.bottom.y := fun h => hn ((hPath.hor f hfE).2 h)
      omega

end

end Wagyu
