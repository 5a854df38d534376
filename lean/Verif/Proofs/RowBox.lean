import Verif.Proofs.BoxSweep

/-!
# The vertices on a scanline, when every current edge reaches over it

As `BX`, and the current edges of the bounds in `T` reach over the row `y`; a bound takes up an edge only on the row where the
edge starts.
-/

namespace Wagyu

open Spec

/-- The current edge reaches over the row. -/
structure OnEdge (y : Int) (bd : Bound) : Prop where
  path : Wagyu.Path bd.edges
  reach : ∀ e, bd.currentEdge? = some e → e.top.y ≤ y ∧ y ≤ e.bottom.y

/-- The bound starts on the row. -/
structure OpenAt (y : Int) (bd : Bound) : Prop where
  path : Wagyu.Path bd.edges
  head : ∀ e, bd.edges.head? = some e → e.bottom.y = y

/-- What the current x of a bound satisfies on the row `y`, where an edge starts or ends or is reached. -/
structure RowRule (V : Point → Prop) (Es : Edge → Prop) (X : F64 → Prop) (y : Int) : Prop where
  start : ∀ {e : Edge}, Es e → e.bottom.y = y → X (.ofInt e.bottom.x)
  start' : ∀ {e : Edge}, Es e → e.bottom.y = y → X (.floatOfInt e.bottom.x)
  stop : ∀ {e : Edge}, Es e → e.top.y = y → X (.ofInt e.top.x)
  on : ∀ {e : Edge}, Es e → e.top.y ≤ y → y ≤ e.bottom.y → X (e.getCurrentX y)
  round : XRule V (fun _ => False) X y

/-- Bounds stay on their edges. -/
def Parked (s s' : St) : Prop := ∀ b, (s'.bounds b).edges = (s.bounds b).edges ∧ (s'.bounds b).curIdx = (s.bounds b).curIdx

instance : Preo Parked where
  refl _ _ := ⟨rfl, rfl⟩
  trans h k b := ⟨(k b).1.trans (h b).1, (k b).2.trans (h b).2⟩

theorem Parked.edge {s s' : St} (h : Parked s s') (b : Nat) : (s'.bounds b).currentEdge? = (s.bounds b).currentEdge? := by
  unfold Bound.currentEdge?; rw [(h b).1, (h b).2]

theorem Put.parked {s s' : St} (h : Put s s') : Parked s s' := fun b => ⟨(h b).edges, (h b).curIdx⟩
instance Parked.of_put {α : Type} (m : M α) [h : Pres Put m] : Pres Parked m := ⟨fun s => (h.pres s).parked⟩
theorem Parked.mod {b : Nat} {f : Bound → Bound} (h : ∀ bd, (f bd).edges = bd.edges ∧ (f bd).curIdx = bd.curIdx) : Pres Parked (modBound b f) := by
  refine ⟨fun s c => ?_⟩
  show Bound.edges (upd _ _ _ c) = _ ∧ Bound.curIdx (upd _ _ _ c) = _
  by_cases e : c = b
  · subst e; rw [Wagyu.upd_same]; exact h _
  · rw [upd_ne _ _ e]; exact ⟨rfl, rfl⟩

theorem OnEdge.parked {s s' : St} {y : Int} {b : Nat} (h : OnEdge y (s.bounds b)) (k : Parked s s') : OnEdge y (s'.bounds b) :=
  ⟨by rw [(k b).1]; exact h.path, fun e he => h.reach e (by rw [← k.edge]; exact he)⟩
theorem OpenAt.edges {b c : Bound} {y : Int} (h : OpenAt y b) (k : c.edges = b.edges) : OpenAt y c :=
  ⟨by rw [k]; exact h.path, by rw [k]; exact h.head⟩

theorem curIdx_setCur_lt {bd : Bound} {v : Nat} (h : (bd.setCur v).curIdx < bd.edges.length) : (bd.setCur v).curIdx = v := by
  by_cases hv : v < bd.edges.length
  · simp [Bound.setCur, Bound.curIdx, hv]
  · simp [Bound.setCur, Bound.curIdx, hv] at h

structure BY (V : Point → Prop) (Es : Edge → Prop) (Y : Int → Prop) (X : F64 → Prop) (T : Nat → Prop) (A : List LocalMinimum) (y : Int) (s : St) : Prop
    extends BX V Es Y X T A s where
  on : ∀ b, T b → OnEdge y (s.bounds b)
  init : ∀ m ∈ A, OpenAt m.y (s.bounds m.left) ∧ OpenAt m.y (s.bounds m.right)

section
variable {α β : Type} {V : Point → Prop} {Es : Edge → Prop} {Y : Int → Prop} {X : F64 → Prop} {T : Nat → Prop} {A rest : List LocalMinimum}
  {op : OperationKind} {sf cf : FillKind} {s0 s : St} {y : Int} {P : α → Prop}

theorem BY.park {s' : St} (h : BY V Es Y X T A y s) (k : BX V Es Y X T A s') (p : Parked s s') : BY V Es Y X T A y s' :=
  ⟨k, fun b hb => (h.on b hb).parked p, fun m hm => ⟨(h.init m hm).1.edges (p _).1, (h.init m hm).2.edges (p _).1⟩⟩

/-- A statement that leaves the bounds on their edges. -/
theorem BY.run {m : M α} (hs : BY V Es Y X T A y s) (hk : Keep (BX V Es Y X T A) m P) (hp : Pres Parked m) : Ok m s fun a s' => BY V Es Y X T A y s' ∧ P a :=
  Post.imp ((hk.run s hs.toBX).and (Ok.pres (R := Parked) hp)) fun _ _ ⟨h, p⟩ => ⟨hs.park h.1 p, h.2⟩

theorem by_toNextEdge (hR : VRule V Es Y) (hX : RowRule V Es X y) {b : Nat} (hs : BY V Es Y X T A y s) (hb : T b)
    (ht : ∀ e, (s.bounds b).currentEdge? = some e → e.top.y = y) : Ok (toNextEdge b) s fun _ s' => BY V Es Y X T A y s' := by
  obtain ⟨path, -⟩ := hs.on b hb
  unfold toNextEdge
  refine Post.bind (Post.modBound (Post.bind (Post.getBound ?_)))
  dsimp only
  rw [Wagyu.upd_same]
  have hi : ((s.bounds b).setCur ((s.bounds b).curIdx + 1)).edges = (s.bounds b).edges := rfl
  have base : BX V Es Y X T A { s with bounds := upd s.bounds b ((s.bounds b).setCur ((s.bounds b).curIdx + 1)) } := by
    have := ((bk_modBound (V := V) (Es := Es) (Y := Y) (X := X) (T := T) (A := A) (b := b) (f := fun bd => bd.setCur (bd.curIdx + 1)) fun _ => ⟨rfl, rfl⟩).run s hs.toBX)
    exact this.1
  have hinit : ∀ m ∈ A, OpenAt m.y ((upd s.bounds b ((s.bounds b).setCur ((s.bounds b).curIdx + 1))) m.left) ∧ OpenAt m.y ((upd s.bounds b ((s.bounds b).setCur ((s.bounds b).curIdx + 1))) m.right) :=
    fun m hm => by
      have k : ∀ c, (upd s.bounds b ((s.bounds b).setCur ((s.bounds b).curIdx + 1)) c).edges = (s.bounds c).edges := fun c => edges_upd (f := s.bounds) (v := Bound.setCur (s.bounds b) ((s.bounds b).curIdx + 1)) rfl c
      exact ⟨(hs.init m hm).1.edges (k _), (hs.init m hm).2.edges (k _)⟩
  have hon : (∀ e, ((s.bounds b).setCur ((s.bounds b).curIdx + 1)).currentEdge? = some e → e.top.y ≤ y ∧ y ≤ e.bottom.y) →
      BY V Es Y X T A y { s with bounds := upd s.bounds b ((s.bounds b).setCur ((s.bounds b).curIdx + 1)) } := by
    intro h
    refine ⟨base, fun c hc => ?_, hinit⟩
    show OnEdge y (upd _ _ _ c)
    by_cases e : c = b
    · subst e; rw [Wagyu.upd_same]; exact ⟨path, h⟩
    · rw [upd_ne _ _ e]; exact hs.on c hc
  refine Post.ite (fun hlt => ?_) fun hge => Post.pure (hon fun e he => ?_)
  · have hc : ((s.bounds b).setCur ((s.bounds b).curIdx + 1)).curIdx = (s.bounds b).curIdx + 1 := curIdx_setCur_lt hlt
    rw [hc, hi] at hlt
    have hcur : (s.bounds b).currentEdge? = some (s.bounds b).edges[(s.bounds b).curIdx] := List.getElem?_eq_getElem (by omega)
    have hst := path.step hcur (List.getElem?_eq_getElem hlt)
    have hy := ht _ hcur
    rw [hst.1] at hy
    have key : ∀ e, ((s.bounds b).setCur ((s.bounds b).curIdx + 1)).currentEdge? = some e → e.bottom.y = y ∧ e.top.y ≤ y := by
      intro e he
      unfold Bound.currentEdge? at he
      rw [hc, hi, List.getElem?_eq_getElem hlt] at he
      cases he
      exact ⟨hy, hy ▸ path.le _ (List.getElem_mem hlt)⟩
    have h1 := hon fun e he => ⟨(key e he).2, (key e he).1.ge⟩
    refine Post.bind (Post.imp (h1.run (P := fun _ => True) (m := modBound b fun bd => bd.setNxt (bd.nxtIdx + 1)) (by keep) (Parked.mod fun _ => ⟨rfl, rfl⟩) |>.and
      (Ok.pres (R := Parked) (Parked.mod fun _ => ⟨rfl, rfl⟩))) ?_)
    rintro _ s2 ⟨⟨h2, -⟩, p2⟩
    refine Post.bind (Ok.currentEdge fun e he => ?_)
    have hE : Es e := h2.edges b e (List.mem_of_getElem? he)
    rw [p2.edge] at he
    change Bound.currentEdge? (upd _ _ _ b) = _ at he
    rw [Wagyu.upd_same] at he
    have hx := hX.start hE (key e he).1
    refine Post.bind (Post.imp (h2.run (bk_setX hx) (Parked.mod fun _ => ⟨rfl, rfl⟩)) ?_)
    rintro _ s3 ⟨h3, -⟩
    refine Post.ite (fun _ => Post.pure h3) fun _ => ?_
    exact (h3.run (bk_insertScan (hR.row hE)) inferInstance).imp fun _ _ h => h.1
  · exact absurd (List.getElem?_eq_some_iff.1 he).1 hge

/-! ## Horizontal edges -/

theorem BY.flat (hs : BY V Es Y X T A y s) {b : Nat} (hb : T b) {e : Edge} (he : (s.bounds b).currentEdge? = some e) (hh : e.isHorizontal = true) : e.top.y = y := by
  have h := (hs.on b hb).reach e he
  have := ((hs.on b hb).path.hor e (List.mem_of_getElem? he)).1 hh
  omega

theorem by_finishHorizontal (hR : VRule V Es Y) (hX : RowRule V Es X y) {b i : Nat} (hs : BY V Es Y X T A y s) (hb : T b)
    (ht : ∀ e, (s.bounds b).currentEdge? = some e → e.top.y = y) : Ok (finishHorizontal b i) s fun _ s' => BY V Es Y X T A y s' := by
  have fin : ∀ s2, BY V Es Y X T A y s2 → Parked s s2 → Ok (do
      let bd ← getBound b
      if bd.nxtIdx < bd.edges.length then toNextEdge b else ablSet i none : M Unit) s2 fun _ s' => BY V Es Y X T A y s' := by
    intro s2 h2 p2
    refine Post.bind (Post.getBound (Post.ite (fun _ => ?_) fun _ => ?_))
    · exact by_toNextEdge hR hX h2 hb fun e he => ht e (by rw [← p2.edge]; exact he)
    · exact (h2.run (bk_ablSet TN.none) inferInstance).imp fun _ _ h => h.1
  unfold finishHorizontal
  refine Post.bind (Post.getBound (Post.ite (fun _ => ?_) fun _ => fin s hs (Preo.refl _)))
  refine Post.bind (Ok.currentEdge fun e he => Post.bind (Post.imp ((hs.run (P := fun _ => True) (m := addPointToRing b e.top)
    (bk_addPointToRing (hR.top (hs.edges b e (List.mem_of_getElem? he)))) (Parked.of_put _ (h := Put.of_still inferInstance))).and (Ok.pres (R := Parked) (Parked.of_put _ (h := Put.of_still inferInstance)))) ?_))
  rintro _ s2 ⟨⟨h2, -⟩, p2⟩
  exact fin s2 h2 p2

instance Put.passRight (b : Nat) (stop : Point → M Bool) [h : ∀ p, Pres Put (stop p)] (len k i : Nat) : Pres Put (passHotPixelsRight b stop len k i) := by
  induction k generalizing i with
  | zero => exact ⟨fun s _ => SamePlace.refl _⟩
  | succ k ih =>
    rw [passHotPixelsRight]
    have := fun p => (Put.of_still inferInstance : Pres Put (addPointToRing b p))
    have := fun i => ih i
    pres
instance Put.passLeft (b : Nat) (stop : Point → M Bool) [h : ∀ p, Pres Put (stop p)] (i : Nat) : Pres Put (passHotPixelsLeft b stop i) := by
  induction i with
  | zero => exact ⟨fun s _ => SamePlace.refl _⟩
  | succ k ih =>
    rw [passHotPixelsLeft]
    have := fun p => (Put.of_still inferInstance : Pres Put (addPointToRing b p))
    pres
instance Put.addPointToRing (b : Nat) (p : Point) : Pres Put (addPointToRing b p) := Put.of_still inferInstance

theorem by_lr {i b : Nat} {e0 : Edge} (hR : VRule V Es Y) (hX : RowRule V Es X y) (hs : BY V Es Y X T A y s) (hb : s.abl[i]? = some (some b))
    (he0 : (s.bounds b).currentEdge? = some e0) (hh : e0.isHorizontal = true) :
    Ok (processHorizontalLeftToRight op sf cf y i) s fun _ s' => BY V Es Y X T A y s' := by
  have hX0 := hX.round
  have hT : T b := hs.act b (List.mem_of_getElem? hb)
  have ht := hs.flat hT he0 hh
  unfold processHorizontalLeftToRight
  refine Post.bind (Ok.ablGet fun o ho => Post.bind (Post.deref (fun c hc => ?_) fun _ => trivial))
  obtain rfl : c = b := by rw [hb, hc] at ho; simpa using ho.symm
  refine Post.bind (Ok.look fun pr _ => ?_)
  dsimp only
  refine Post.bind (Post.gets (Post.bind (Ok.look fun cur _ => Post.bind (Ok.look fun e _ => Post.bind (Ok.look fun hp0 _ => Post.bind (Post.gets ?_))))))
  refine Post.bind (Post.imp ((hs.run (P := fun _ => True) (Keep.forElse (fun _ => True) trivial (fun st _ => ?_) fun _ _ => Keep.pure trivial) ?_).and (Ok.pres (R := Parked) ?_)) ?_)
  · refine Keep.bind bk_ablGet fun o _ => ?_
    split
    · exact Keep.pure trivial
    · next ho =>
      have hT := ho _ rfl
      refine Keep.bind (P := fun _ => True) (bk_passRight fun p => by keep) fun hp _ => ?_
      keep
  · exact Parked.of_put _ (h := by pres; exact Put.passRight (h := fun p => by pres) _ _ _ _ _)
  · exact Parked.of_put _ (h := by pres; exact Put.passRight (h := fun p => by pres) _ _ _ _ _)
  rintro r s1 ⟨⟨h1, -⟩, p1⟩
  have fin : ∀ s2 k, BY V Es Y X T A y s2 → Parked s s2 → Ok (finishHorizontal c k) s2 fun _ s' => BY V Es Y X T A y s' := fun s2 k h2 p2 =>
    by_finishHorizontal hR hX h2 hT fun e he => by rw [p2.edge, he0] at he; cases he; exact ht
  split
  · exact Post.pure h1
  · refine Post.bind (Post.getBound (Post.ite (fun _ => ?_) fun _ => Post.bind ((fin s1 _ h1 p1).imp fun _ _ h => Post.pure h)))
    refine Post.bind (Post.imp ((h1.run (P := fun _ => True) (bk_passRight fun p => by keep) (Parked.of_put _ (h := Put.passRight (h := fun p => by pres) _ _ _ _ _))).and
      (Ok.pres (R := Parked) (Parked.of_put _ (h := Put.passRight (h := fun p => by pres) _ _ _ _ _)))) ?_)
    rintro _ s2 ⟨⟨h2, -⟩, p2⟩
    exact Post.bind ((fin s2 _ h2 (Preo.trans p1 p2)).imp fun _ _ h => Post.pure h)

theorem by_rl {i b : Nat} {e0 : Edge} (hR : VRule V Es Y) (hX : RowRule V Es X y) (hs : BY V Es Y X T A y s) (hb : s.abl[i]? = some (some b))
    (he0 : (s.bounds b).currentEdge? = some e0) (hh : e0.isHorizontal = true) :
    Ok (processHorizontalRightToLeft op sf cf y i) s fun _ s' => BY V Es Y X T A y s' := by
  have hX0 := hX.round
  have hT : T b := hs.act b (List.mem_of_getElem? hb)
  have ht := hs.flat hT he0 hh
  unfold processHorizontalRightToLeft
  refine Post.bind (Ok.ablGet fun o ho => Post.bind (Post.deref (fun c hc => ?_) fun _ => trivial))
  obtain rfl : c = b := by rw [hb, hc] at ho; simpa using ho.symm
  refine Post.bind (Ok.look fun pr _ => ?_)
  dsimp only
  refine Post.bind (Post.gets (Post.bind (Ok.look fun cur _ => Post.bind (Ok.look fun e _ => Post.bind (Ok.look fun hp0 _ => ?_)))))
  refine Post.bind (Post.imp ((hs.run (P := fun _ => True) (Keep.forElse (fun _ => True) trivial (fun st _ => ?_) fun _ _ => Keep.pure trivial) ?_).and (Ok.pres (R := Parked) ?_)) ?_)
  · refine Keep.bind bk_ablGet fun o _ => ?_
    split
    · exact Keep.pure trivial
    · next ho =>
      have hT := ho _ rfl
      refine Keep.bind (P := fun _ => True) (bk_passLeft fun p => by keep) fun hp _ => ?_
      keep
  · exact Parked.of_put _ (h := by pres; exact Put.passLeft (h := fun p => by pres) _ _ _)
  · exact Parked.of_put _ (h := by pres; exact Put.passLeft (h := fun p => by pres) _ _ _)
  rintro r s1 ⟨⟨h1, -⟩, p1⟩
  have fin : ∀ s2 k, BY V Es Y X T A y s2 → Parked s s2 → Ok (finishHorizontal c k) s2 fun _ s' => BY V Es Y X T A y s' := fun s2 k h2 p2 =>
    by_finishHorizontal hR hX h2 hT fun e he => by rw [p2.edge, he0] at he; cases he; exact ht
  split
  · exact Post.pure h1
  · refine Post.bind (Post.getBound (Post.ite (fun _ => ?_) fun _ => Post.bind ((fin s1 _ h1 p1).imp fun _ _ h => Post.pure h)))
    refine Post.bind (Post.imp ((h1.run (P := fun _ => True) (bk_passLeft fun p => by keep) (Parked.of_put _ (h := Put.passLeft (h := fun p => by pres) _ _ _))).and
      (Ok.pres (R := Parked) (Parked.of_put _ (h := Put.passLeft (h := fun p => by pres) _ _ _)))) ?_)
    rintro _ s2 ⟨⟨h2, -⟩, p2⟩
    exact Post.bind ((fin s2 _ h2 (Preo.trans p1 p2)).imp fun _ _ h => Post.pure h)

theorem by_processHorizontals (hR : VRule V Es Y) (hX : RowRule V Es X y) (hs : BY V Es Y X T A y s) :
    Ok (processHorizontals op sf cf y) s fun _ s' => BY V Es Y X T A y s' := by
  unfold processHorizontals
  refine Post.bind (Post.imp (Post.loopM (Q := fun _ s' => BY V Es Y X T A y s') (fun _ s' => BY V Es Y X T A y s') ?_ (fun _ _ _ => trivial) hs) fun _ s1 h1 =>
    (h1.run bk_ablFilter ⟨fun _ _ => ⟨rfl, rfl⟩⟩).imp fun _ _ h => h.1)
  rintro i s1 h1
  refine Post.bind (Post.gets (Post.ite (fun _ => ?_) fun _ => Post.pure h1))
  refine Post.bind (Ok.ablGet fun o ho => ?_)
  cases o with
  | none => exact Post.pure h1
  | some b =>
    dsimp only
    refine Post.bind (Ok.currentEdge fun e he => Post.ite (fun hh => ?_) fun hh => Post.pure h1)
    refine Post.bind (Post.imp (Q := fun _ s' => BY V Es Y X T A y s') ?_ fun _ _ h => Post.pure h)
    unfold processHorizontal
    refine Post.bind (Ok.look fun o _ => Post.bind (Ok.look fun c _ => Post.bind (Ok.look fun e _ => ?_)))
    exact Post.ite (fun _ => by_lr hR hX h1 ho he hh) fun _ => by_rl hR hX h1 ho he hh

/-! ## The top of a scanline -/

theorem Ok.isIntermediate {b : Nat} {Q : Bool → St → Prop}
    (k : ∀ r, (r = true → ∀ e, (s.bounds b).currentEdge? = some e → e.top.y = y) → Q r s) : Ok (isIntermediate b y) s Q := by
  unfold Wagyu.isIntermediate
  refine Post.bind (Post.getBound (Post.ite (fun _ => Post.bind (Ok.currentEdge fun e he => Post.pure (k _ fun h e' he' => ?_))) fun _ => Post.pure (k _ nofun)))
  rw [he] at he'; cases he'
  exact of_decide_eq_true h

theorem by_promote (hR : VRule V Es Y) (hX : RowRule V Es X y) : ∀ (l : List (Option Nat)) (s : St), (∀ b, some b ∈ l → T b) → BY V Es Y X T A y s →
    Ok (promoteIntermediate y l) s fun _ s' => BY V Es Y X T A y s'
  | [], s, _, hs => by rw [promoteIntermediate]; exact Post.pure hs
  | o :: l, s, hl, hs => by
    rw [promoteIntermediate]
    refine Post.bind (Post.deref (fun b hb => ?_) fun _ => trivial)
    subst hb
    have hT := hl b (by simp)
    have go : ∀ s1, BY V Es Y X T A y s1 → Ok (promoteIntermediate y l) s1 fun _ s' => BY V Es Y X T A y s' :=
      fun s1 h1 => by_promote hR hX l s1 (fun b hb => hl b (by simp [hb])) h1
    refine Post.bind (Ok.isIntermediate fun r hr => Post.ite (fun h => ?_) fun _ => go s hs)
    have fin : ∀ s2, BY V Es Y X T A y s2 → Parked s s2 → Ok (do
        toNextEdge b
        promoteIntermediate y l : M Unit) s2 fun _ s' => BY V Es Y X T A y s' := fun s2 h2 p2 =>
      Post.bind ((by_toNextEdge hR hX h2 hT fun e he => hr h e (by rw [← p2.edge]; exact he)).imp fun _ s3 h3 => go s3 h3)
    refine Post.bind (Post.getBound (Post.ite (fun _ => ?_) fun _ => fin s hs (Preo.refl _)))
    refine Post.bind (Ok.currentEdge fun e he => Post.bind (Post.imp ((hs.run (P := fun _ => True) (m := addPointToRing b e.top)
      (bk_addPointToRing (hR.top (hs.edges b e (List.mem_of_getElem? he)))) inferInstance).and (Ok.pres (R := Parked) inferInstance)) ?_))
    rintro _ s2 ⟨⟨h2, -⟩, p2⟩
    exact fin s2 h2 p2

theorem by_topBody (hR : VRule V Es Y) (hX : RowRule V Es X y) {bi : Nat} (hs : BY V Es Y X T A y s) :
    Ok (topBody op sf cf y bi) s fun _ s' => BY V Es Y X T A y s' := by
  unfold topBody
  refine Post.bind (Post.gets (Post.ite (fun hlt => ?_) fun _ => Post.pure hs))
  refine Post.bind (Ok.ablGet fun o ho => ?_)
  cases o with
  | none => exact Post.pure hs
  | some b =>
    have hT : T b := hs.act b (List.mem_of_getElem? ho)
    dsimp only
    refine Post.bind (Post.imp (Q := fun r s' => s = s') ?_ ?_)
    · refine Post.bind (Ok.look fun r _ => Post.ite (fun _ => ?_) fun _ => Post.pure rfl)
      refine Post.bind (Post.getBound (Post.bind (Post.gets (Post.ite (fun _ => Post.pure rfl) fun hl => ?_))))
      refine Post.bind (Ok.look fun o _ => Post.bind (Ok.look fun m _ => Post.bind (Ok.look fun e _ => Post.ite (fun _ => Post.pure rfl) fun _ => ?_)))
      refine Post.bind (Ok.look fun r _ => Post.ite (fun _ => Post.pure rfl) fun _ => Post.pure rfl)
    · rintro r _ rfl
      cases r with
      | some mi =>
        dsimp only
        exact Post.bind ((hs.run (bk_doMaxima hR) inferInstance).imp fun _ s2 h => Post.pure h.1)
      | none =>
        dsimp only
        refine Post.bind (Post.imp (Q := fun r s' => s = s' ∧ (r = true → ∀ e, (s.bounds b).currentEdge? = some e → e.top.y = y)) ?_ ?_)
        · refine Post.bind (Ok.isIntermediate fun r hr => Post.ite (fun h => ?_) fun _ => Post.pure ⟨rfl, nofun⟩)
          exact Post.bind (Ok.look fun _ _ => Post.pure ⟨rfl, fun _ => hr h⟩)
        · rintro promote _ ⟨rfl, hp⟩
          refine Post.ite (fun h => ?_) fun _ => ?_
          · have fin : ∀ s2, BY V Es Y X T A y s2 → Parked s s2 → Ok (do
                toNextEdge b
                let __do_lift ← getBound b
                if __do_lift.ring.isSome = true then do
                    let e ← currentEdge b
                    addPointToRing b e.bottom
                    pure (Sum.inl (bi + 1))
                  else pure (Sum.inl (bi + 1)) : M (Nat ⊕ Unit)) s2 (fun _ s' => BY V Es Y X T A y s') := by
              intro s2 h2 p2
              refine Post.bind ((by_toNextEdge hR hX h2 hT fun e he => hp h e (by rw [← p2.edge]; exact he)).imp fun _ s3 h3 => ?_)
              refine Post.bind (Post.getBound (Post.ite (fun _ => ?_) fun _ => Post.pure h3))
              refine Post.bind (Ok.currentEdge fun e he => Post.bind (Post.imp (h3.run (P := fun _ => True) (m := addPointToRing b e.bottom)
                (bk_addPointToRing (hR.bot (h3.edges b e (List.mem_of_getElem? he)))) inferInstance) fun _ s4 h4 => Post.pure h4.1))
            refine Post.bind (Post.getBound (Post.ite (fun _ => ?_) fun _ => fin s hs (Preo.refl _)))
            have hq : ∀ p, Pres Parked (insertHotPixelsInPath b p false) := fun p => Parked.of_put _ (h := Put.of_still inferInstance)
            refine Post.bind (Ok.currentEdge fun e he => Post.bind (Post.imp ((hs.run (P := fun _ => True) bk_insertHot (hq _)).and (Ok.pres (R := Parked) (hq _))) ?_))
            rintro _ s2 ⟨⟨h2, -⟩, p2⟩
            exact fin s2 h2 p2
          · refine Post.bind (Ok.currentEdge fun e he => ?_)
            have := (hs.on b hT).reach e he
            have := hX.on (hs.edges b e (List.mem_of_getElem? he)) this.1 this.2
            exact Post.bind ((hs.run (bk_setX this) (Parked.mod fun _ => ⟨rfl, rfl⟩)).imp fun _ s2 h => Post.pure h.1)

theorem by_topLoop (hR : VRule V Es Y) (hX : RowRule V Es X y) (hs : BY V Es Y X T A y s) :
    Ok (topOfScanbeamLoop op sf cf y) s fun _ s' => BY V Es Y X T A y s' := by
  rw [topOfScanbeamLoop_eq]
  refine Post.loopM (fun _ s' => BY V Es Y X T A y s') ?_ (fun _ _ _ => trivial) hs
  intro bi s1 h1
  exact (by_topBody hR hX h1).imp fun r _ h => by rcases r with _ | _ <;> exact h

/-! ## New bounds -/

/-- A bound takes up an edge that reaches over the row. -/
theorem BY.renew {f : Nat → Bound} {b : Nat} (hs : BY V Es Y X T A y s) (hf : ∀ c, c ≠ b → f c = s.bounds c) (he : (f b).edges = (s.bounds b).edges)
    (hx : X (f b).currentX) (hon : OnEdge y (f b)) : BY V Es Y X (fun c => T c ∨ c = b) A y { s with bounds := f } := by
  have hE : ∀ c, (f c).edges = (s.bounds c).edges := by
    intro c
    by_cases h : c = b
    · subst h; exact he
    · rw [hf c h]
  obtain ⟨n, g⟩ := hs.heap
  refine ⟨⟨⟨n, g.nn, g.nodes, g.rings, g.all⟩, fun c e h => hs.edges c e (by rw [← hE]; exact h), hs.scan, hs.hot, fun c hc => .inl (hs.act c hc), fun c hc => ?_,
    fun m hm => ?_⟩, fun c hc => ?_, fun m hm => ⟨(hs.init m hm).1.edges (hE _), (hs.init m hm).2.edges (hE _)⟩⟩
  · show X (f c).currentX
    by_cases h : c = b
    · subst h; exact hx
    · rw [hf c h]; exact hs.cx c (hc.resolve_right h)
  · show (f _).edges ≠ [] ∧ (f _).edges ≠ []
    rw [hE, hE]; exact hs.full m hm
  · show OnEdge y (f c)
    by_cases h : c = b
    · subst h; exact hon
    · rw [hf c h]; exact hs.on c (hc.resolve_right h)

theorem by_initializeBound {b : Nat} {sd : EdgeSide} (hX : RowRule V Es X y) (hs : BY V Es Y X T A y s) (ho : OpenAt y (s.bounds b)) :
    Ok (initializeBound b sd) s fun _ s' => BY V Es Y X (fun c => T c ∨ c = b) A y s' := by
  have hb := ho.path.ne
  obtain ⟨e0, l, hel⟩ := List.exists_cons_of_ne_nil hb
  unfold initializeBound
  refine Post.bind (Post.getBound (Post.ite (fun h => absurd h hb) fun _ => Post.bind (Post.modBound (Post.bind (Ok.currentEdge fun e he => Post.modBound ?_)))))
  change Bound.currentEdge? (upd _ _ _ b) = _ at he
  rw [Wagyu.upd_same, (currentEdge_zero hel).1] at he
  cases he
  have hy : e0.bottom.y = y := ho.head e0 (by rw [hel]; rfl)
  have hE : Es e0 := hs.edges b e0 (by rw [hel]; simp)
  have hx := hX.start' hE hy
  refine hs.renew (fun c hc => by rw [upd_ne _ _ hc]; exact upd_ne _ _ hc) ?_ ?_ ⟨?_, fun e he => ?_⟩
  · simp only [Wagyu.upd_same]; rfl
  · simp only [Wagyu.upd_same]; exact hx
  · simp only [Wagyu.upd_same]; exact ho.path
  · simp only [Wagyu.upd_same] at he
    change ((Bound.setCur (s.bounds b) 0).setNxt 1).currentEdge? = some e at he
    rw [(currentEdge_zero hel).1] at he
    cases he
    exact ⟨hy ▸ ho.path.le _ (by rw [hel]; simp), hy.ge⟩

theorem by_initializeMinimum {m : LocalMinimum} (hX : RowRule V Es X y) (hs : BY V Es Y X T A y s) (hm : m ∈ A) (hy : m.y = y) :
    Ok (initializeMinimum m) s fun _ s' => BY V Es Y X (fun c => T c ∨ c = m.left ∨ c = m.right) A y s' := by
  unfold initializeMinimum
  refine Post.bind ((by_initializeBound hX hs (hy ▸ (hs.init m hm).1)).imp fun _ s1 h1 => ?_)
  refine (by_initializeBound hX h1 (hy ▸ (h1.init m hm).2)).imp fun _ s2 h2 => ?_
  have : (fun c => (T c ∨ c = m.left) ∨ c = m.right) = fun c => T c ∨ c = m.left ∨ c = m.right := by
    funext c; exact propext or_assoc
  rw [this] at h2
  exact h2

theorem by_insertHorizontalLocalMinima (hR : VRule V Es Y) (hX : RowRule V Es X y) :
    ∀ (l : List LocalMinimum) (T : Nat → Prop) (s : St), (∀ m ∈ l, m ∈ A) → BY V Es Y X T A y s →
      Ok (insertHorizontalLocalMinima op sf cf y l) s fun r s' => r <:+ l ∧ ∃ T', BY V Es Y X T' A y s'
  | [], T, s, _, hs => ⟨List.suffix_rfl, T, hs⟩
  | m :: l, T, s, hl, hs => by
    rw [insertHorizontalLocalMinima]
    refine Post.ite (fun h => ?_) fun _ => Post.pure ⟨List.suffix_rfl, T, hs⟩
    refine Post.bind ((by_initializeMinimum hX hs (hl m (by simp)) h.1).imp fun _ s1 h1 => ?_)
    refine Post.bind ((h1.run (bk_insertLm hR (by simp) (by simp)) inferInstance).imp ?_)
    rintro _ s2 ⟨h2, -⟩
    refine (by_insertHorizontalLocalMinima hR hX l _ s2 (fun m hm => hl m (by simp [hm])) h2).imp ?_
    rintro r s3 ⟨h3, h4⟩
    exact ⟨h3.trans (List.suffix_cons _ _), h4⟩
theorem by_insertLocalMinima (hR : VRule V Es Y) (hX : RowRule V Es X y) :
    ∀ (l : List LocalMinimum) (T : Nat → Prop) (s : St), (∀ m ∈ l, m ∈ A) → BY V Es Y X T A y s →
      Ok (insertLocalMinima op sf cf y l) s fun r s' => r <:+ l ∧ ∃ T', BY V Es Y X T' A y s'
  | [], T, s, _, hs => ⟨List.suffix_rfl, T, hs⟩
  | m :: l, T, s, hl, hs => by
    rw [insertLocalMinima]
    refine Post.ite (fun h => ?_) fun _ => Post.pure ⟨List.suffix_rfl, T, hs⟩
    refine Post.bind ((by_initializeMinimum hX hs (hl m (by simp)) h).imp fun _ s1 h1 => ?_)
    refine Post.bind ((h1.run (bk_insertLm hR (by simp) (by simp)) inferInstance).imp ?_)
    rintro _ s2 ⟨h2, -⟩
    refine (by_insertLocalMinima hR hX l _ s2 (fun m hm => hl m (by simp [hm])) h2).imp ?_
    rintro r s3 ⟨h3, h4⟩
    exact ⟨h3.trans (List.suffix_cons _ _), h4⟩

/-! ## A scanline -/

/-- Between two scanlines. -/
structure BSO (V : Point → Prop) (Es : Edge → Prop) (Y : Int → Prop) (A : List LocalMinimum) (s : St) : Prop extends BS V Es Y A s where
  init : ∀ m ∈ A, OpenAt m.y (s.bounds m.left) ∧ OpenAt m.y (s.bounds m.right)

theorem BY.between (h : BY V Es Y X T A y s) : BSO V Es Y A s := ⟨h.still, h.init⟩

theorem by_afterTop (hR : VRule V Es Y) (hX : RowRule V Es X y) {l : List LocalMinimum} (hl : ∀ m ∈ l, m ∈ A) (hs : BY V Es Y X T A y s) :
    Ok (do
      ablFilter
      let r ← insertHorizontalLocalMinima op sf cf y l
      processHorizontals op sf cf y
      promoteIntermediate y (← gets St.abl)
      pure r) s fun r s' => r <:+ l ∧ ∃ T', BY V Es Y X T' A y s' := by
  refine Post.bind ((hs.run bk_ablFilter ⟨fun _ _ => ⟨rfl, rfl⟩⟩).imp ?_)
  rintro _ s1 ⟨h1, -⟩
  refine Post.bind ((by_insertHorizontalLocalMinima hR hX l _ s1 hl h1).imp ?_)
  rintro r s2 ⟨h2, T', h3⟩
  refine Post.bind ((by_processHorizontals hR hX h3).imp fun _ s3 h4 => ?_)
  exact Post.bind (Post.gets (Post.bind ((by_promote hR hX _ s3 h4.act h4).imp fun _ s4 h5 => ⟨h2, T', h5⟩)))

/-- One scanline, no bound being left without its partner at its beginning. -/
theorem by_vattiStep (hR : VRule V Es Y) {XR : Int → F64 → Prop} (hX : ∀ y, Y y → RowRule V Es (XR y) y) (hM : Mated s0 A) {Y₀ : Int}
    (hw : Walk Y₀ s0 A rest s) (hbelow : ∀ v ∈ s.scan, v ≤ Y₀) (hne : s.scan ≠ []) (hsort : s.scan.Pairwise (· ≤ ·)) (hg : Fair op sf cf s0 rest s)
    (hs : BSO V Es Y A s) :
    Ok (vattiStep op sf cf y rest) s fun r s' => BSO V Es Y A s' ∧ Y r.1 := by
  unfold vattiStep
  refine Post.bind (Post.imp ((bs_popScan hs.toBS (.inr hne)).and (ok_popScan hbelow hne hsort)) ?_)
  rintro y' s1 ⟨⟨h1, hy1, ha1, hb1⟩, hle, hmax⟩
  have haa : act s1 = act s := by unfold act; rw [ha1]
  have w1 := (hw.lower hle).sameAct haa hb1
  have sp1 : Span y' s1 := by
    intro b hb e he
    rw [haa] at hb
    rw [hb1] at he
    exact hmax _ (hg.ahead b hb e he)
  have hR' := hX y' hy1
  refine Post.bind (Post.imp ((bx_processIntersections (X := XR y') hR h1 fun b hb e he => ?_).and
    (Ok.pres (m := processIntersections y' op sf cf) (R := Slots) inferInstance)) ?_)
  · obtain ⟨k1, k2⟩ := w1.reach sp1 b hb e he
    exact hR'.on (h1.edges b e (List.mem_of_getElem? he)) k1 k2
  rintro _ s2 ⟨h2, k2⟩
  have h2' : BY V Es Y (XR y') (fun b => some b ∈ s1.abl) A y' s2 := by
    refine ⟨h2, fun b hb => ⟨?_, fun e he => ?_⟩, fun m hm => ⟨OpenAt.edges (by rw [hb1]; exact (hs.init m hm).1) (k2.edges _), ?_⟩⟩
    · rw [k2.edges, w1.static.edges]; exact hM.path b (w1.act b (mem_act.2 hb)).1
    · rw [k2.edge] at he; exact w1.reach sp1 b hb e he
    · exact OpenAt.edges (by rw [hb1]; exact (hs.init m hm).2) (k2.edges _)
  refine Post.bind ((h2'.run (P := fun _ => True) (m := updateCurrentHotPixelIndex y') bk_updateHot ?_).imp ?_)
  · refine ⟨fun s => ?_⟩
    have := (inferInstance : Pres Bare (updateCurrentHotPixelIndex y')).pres s
    intro b
    rw [this.2.2]
    exact ⟨rfl, rfl⟩
  rintro _ s3 ⟨h3, -⟩
  unfold processEdgesAtTopOfScanbeam
  refine Post.bind (Post.bind ((by_topLoop hR hR' h3).imp fun _ s4 h4 => ?_))
  refine (by_afterTop hR hR' hw.sub h4).imp ?_
  rintro r s5 ⟨h5, T', h6⟩
  refine Post.bind ((by_insertLocalMinima hR hR' r _ s5 (fun m hm => hw.sub m (h5.mem hm)) h6).imp ?_)
  rintro r' s6 ⟨h7, T'', h8⟩
  exact Post.pure ⟨h8.between, hy1⟩

/-- The second sweep. -/
theorem by_fairVatti {F : Extent} {lo hi : Int} (hG : Given F (fun b => (s0.bounds b).edges) A) (hF : ∀ v, F.Y v → |v| ≤ 2 ^ 52)
    (hM : Mated s0 A) (hO : Opens s0 A) (hnan : ∀ y, InR lo hi y → ∀ b ∈ idsOf A, ∀ e ∈ (s0.bounds b).edges, e.getCurrentX y ≠ .nan)
    (hR : VRule V Es Y) {XR : Int → F64 → Prop} (hX : ∀ y, Y y → RowRule V Es (XR y) y)
    {y0 : Int} {rest0 : List LocalMinimum} {s1 : St} (hr : RowInv lo hi s1) (hy : InR lo hi y0 ∨ s1.scan ≠ [] ∨ rest0 = [])
    (hs : Walks s0 A rest0 s1) (ho : rest0.Pairwise MinOrder) (hg : Fair op sf cf s0 rest0 s1) (hb : BSO V Es Y A s1)
    (h : Passes (vattiStep op sf cf) y0 rest0 s1 y rest s) : BSO V Es Y A s ∨ Orphan s0 A rest s := by
  induction h with
  | start => exact .inl hb
  | next hp hne e ih =>
    have k := fair_passes hG hF hM hO hnan hr hy hs ho (.inl hg) hp
    have k' := fair_passes hG hF hM hO hnan k.2.2.2.1 k.2.2.2.2.1 k.1 k.2.1 k.2.2.1 (Passes.next Passes.start hne e)
    rcases k.2.2.1 with hf | horph
    · rcases ih with hb | horph
      · obtain ⟨Y₀, w, v⟩ := k.1
        exact .inl ((by_vattiStep hR hX hM w v.below (v.scan_ne hne) v.sorted hf hb).elim e).1
      · exact .inr (k'.2.2.2.2.2.1 horph)
    · exact .inr (k'.2.2.2.2.2.1 horph)

end

end Wagyu
