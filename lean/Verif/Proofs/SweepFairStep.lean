import Verif.Proofs.SweepFairFlat
import Verif.Proofs.SweepRunStep
import Verif.Proofs.HotQuiet
import Verif.Proofs.VattiTop
import Verif.Proofs.FuelSweep

/-!
# A scanline when bounds may end in horizontal edges
-/

namespace Wagyu

open Spec

theorem SameAbl.of_still {α : Type} {m : M α} (h : Pres Still m) : Pres SameAbl m := ⟨fun s => (h.pres s).abl⟩
theorem SameAbl.mod (b : Nat) (f : Bound → Bound) : Pres SameAbl (modBound b f) := ⟨fun _ => rfl⟩
instance SameAbl.i1 (y : Int) : Pres SameAbl (insertScan y) := ⟨fun _ => rfl⟩
instance SameAbl.i2 (p : Point) (a b : Nat) : Pres SameAbl (addLocalMinimumPoint p a b) := SameAbl.of_still inferInstance
instance SameAbl.i3 (i : Nat) (sf cf : FillKind) : Pres SameAbl (setWindingCount i sf cf) := by
  unfold setWindingCount
  refine Pres.bind inferInstance fun _ => Pres.bind inferInstance fun _ => Pres.bind inferInstance fun _ => Pres.ite' (SameAbl.mod _ _) ?_
  refine Pres.bind inferInstance fun _ => Pres.bind inferInstance fun _ => ?_
  refine Pres.bind ?_ fun _ => Pres.bind inferInstance fun _ => SameAbl.mod _ _
  split <;> pres

instance Quiet.insHor (op : OperationKind) (sf cf : FillKind) (y : Int) (l : List LocalMinimum) : Quiet (insertHorizontalLocalMinima op sf cf y l) := by
  induction l with
  | nil => rw [insertHorizontalLocalMinima]; quiet
  | cons m l ih => rw [insertHorizontalLocalMinima]; quiet
instance Quiet.insLm (op : OperationKind) (sf cf : FillKind) (y : Int) (l : List LocalMinimum) : Quiet (insertLocalMinima op sf cf y l) := by
  induction l with
  | nil => rw [insertLocalMinima]; quiet
  | cons m l ih => rw [insertLocalMinima]; quiet
instance Quiet.promoteInt (y : Int) (l : List (Option Nat)) : Quiet (promoteIntermediate y l) := by
  induction l with
  | nil => rw [promoteIntermediate]; quiet
  | cons m l ih => rw [promoteIntermediate]; quiet
theorem Quiet.passR {b : Nat} {stop : Point → M Bool} (h : ∀ p, Quiet (stop p)) (len n i : Nat) : Quiet (passHotPixelsRight b stop len n i) := inferInstance
theorem Quiet.passL {b : Nat} {stop : Point → M Bool} (h : ∀ p, Quiet (stop p)) (i : Nat) : Quiet (passHotPixelsLeft b stop i) := inferInstance
instance Quiet.finishHorizontal (b bi : Nat) : Quiet (finishHorizontal b bi) := by unfold Wagyu.finishHorizontal; quiet
instance Quiet.ltr (op : OperationKind) (sf cf : FillKind) (y : Int) (i : Nat) : Quiet (processHorizontalLeftToRight op sf cf y i) := by
  unfold processHorizontalLeftToRight; quiet
  all_goals exact Quiet.passR (fun p => by quiet) _ _ _
instance Quiet.rtl (op : OperationKind) (sf cf : FillKind) (y : Int) (i : Nat) : Quiet (processHorizontalRightToLeft op sf cf y i) := by
  unfold processHorizontalRightToLeft; quiet
  all_goals exact Quiet.passL (fun p => by quiet) _
instance Quiet.horizontal (op : OperationKind) (sf cf : FillKind) (y : Int) (i : Nat) : Quiet (processHorizontal op sf cf y i) := by
  unfold processHorizontal; quiet
instance Quiet.horizontals (op : OperationKind) (sf cf : FillKind) (y : Int) : Quiet (processHorizontals op sf cf y) := by
  unfold processHorizontals; quiet

/-- A bound goes up. -/
theorem Path.down {es : List Edge} (h : Path es) : ∀ {i j : Nat} {e f : Edge}, i < j → es[i]? = some e → es[j]? = some f → f.bottom.y ≤ e.top.y := by
  intro i j
  induction j with
  | zero => intro e f hij; omega
  | succ j ih =>
    intro e f hij he hf
    have hlt := (List.getElem?_eq_some_iff.1 hf).1
    obtain ⟨g, hg⟩ : ∃ g, es[j]? = some g := ⟨_, List.getElem?_eq_getElem (by omega)⟩
    have h1 := (h.step hg hf).1
    by_cases e' : i = j
    · subst e'
      rw [he] at hg; cases hg
      rw [h1]
    · have h2 := ih (by omega) he hg
      have h3 := h.le g (List.mem_of_getElem? hg)
      rw [← h1]; omega

/-- The last edge of a bound is this one or starts where this one ends or above. -/
theorem Path.last {es : List Edge} (h : Path es) {i : Nat} {g l : Edge} (hg : es[i]? = some g) (hl : es.getLast? = some l) :
    (l = g ∧ i + 1 = es.length) ∨ (l.bottom.y ≤ g.top.y ∧ i + 1 < es.length) := by
  rw [List.getLast?_eq_getElem?] at hl
  have h1 := (List.getElem?_eq_some_iff.1 hg).1
  by_cases e : i + 1 = es.length
  · refine .inl ⟨?_, e⟩
    have : es.length - 1 = i := by omega
    rw [this, hg] at hl
    exact (Option.some.inj hl).symm
  · exact .inr ⟨h.down (by omega) hg hl, by omega⟩

/-- The bounds of a local minimum start on its row; the left one does not start with a horizontal edge. -/
def Opens (s0 : St) (A : List LocalMinimum) : Prop :=
  ∀ m ∈ A, ∃ e l e' l', (s0.bounds m.left).edges = e :: l ∧ (s0.bounds m.right).edges = e' :: l' ∧ e.bottom.y = m.y ∧ e'.bottom.y = m.y
    ∧ e.isHorizontal = false ∧ (m.hasHorizontal = true ↔ e'.isHorizontal = true)

section
variable {op : OperationKind} {sf cf : FillKind} {s0 : St} {A rest : List LocalMinimum} {s : St} {α β : Type} {y : Int} {g : Prop}

/-- A local minimum is inserted. -/
structure LmOpened (y : Int) (op : OperationKind) (sf cf : FillKind) (s0 : St) (A rest : List LocalMinimum) (s : St) (m : LocalMinimum) (s' : St) : Prop where
  walk : Walk y s0 A rest s'
  mem : ∀ b, b ∈ act s' ↔ b = m.left ∨ b = m.right ∨ b ∈ act s
  full : Full s → Full s'
  other : ∀ b, b ≠ m.left → b ≠ m.right → SamePlace (s.bounds b) (s'.bounds b)
  left : (s'.bounds m.left).currentEdge? = (s0.bounds m.left).edges.head?
  right : (s'.bounds m.right).currentEdge? = (s0.bounds m.right).edges.head?
  cur : ∀ b, b = m.left ∨ b = m.right → (s'.bounds b).curIdx = 0 ∧ (s'.bounds b).nxtIdx = 1
  reach : Reached op sf cf s → Reached op sf cf s'

theorem fair_open {m : LocalMinimum} (hM : Mated s0 A) (hO : Opens s0 A) (hy : y ≤ m.y) (hs : Walk y s0 A (m :: rest) s) :
    Ok (do initializeMinimum m
           insertLmLeftAndRightBound op sf cf m.left m.right : M Unit) s fun _ s' => LmOpened y op sf cf s0 A rest s m s' := by
  have hmA := hs.sub m (by simp)
  obtain ⟨hne, hp, el, er⟩ := hM.opened m hmA
  have hl : m.left ∉ act s := fun h => (hs.act _ h).2 (by rw [idsOf_cons]; simp)
  have hr : m.right ∉ act s := fun h => (hs.act _ h).2 (by rw [idsOf_cons]; simp)
  have hnd := hs.nd
  rw [idsOf_cons, List.nodup_cons, List.nodup_cons] at hnd
  obtain ⟨hnl, hnr, hnd⟩ := hnd
  have hp' := hs.static.partners hp
  obtain ⟨e, l, hel⟩ := List.exists_cons_of_ne_nil el
  obtain ⟨e', l', her⟩ := List.exists_cons_of_ne_nil er
  rw [← hs.static.edges] at el er
  have key : Ok (do initializeMinimum m
                    insertLmLeftAndRightBound op sf cf m.left m.right : M Unit) s fun _ s' =>
      (∃ i, s'.abl = s.abl.take i ++ some m.left :: some m.right :: s.abl.drop i) ∧
      (∀ b, b ≠ m.left → b ≠ m.right → SamePlace (s.bounds b) (s'.bounds b)) ∧
      (s'.bounds m.left).currentEdge? = some e ∧ (s'.bounds m.right).currentEdge? = some e' ∧
      (∀ b, b = m.left ∨ b = m.right → (s'.bounds b).curIdx = 0 ∧ (s'.bounds b).nxtIdx = 1) := by
    unfold initializeMinimum
    refine Post.bind (Post.bind ((initializeBound_run ((hs.static.edges _).trans hel)).imp ?_))
    rintro _ _ ⟨L, rfl, Le, L0, L1, Lc, Lr⟩
    refine (initializeBound_run (e := e') (l := l') ?_).imp ?_
    · dsimp only; rw [Wagyu.upd_other _ _ _ _ hne.symm, hs.static.edges, her]
    rintro _ _ ⟨R, rfl, Re, R0, R1, Rc, Rr⟩
    dsimp only
    generalize hs2 : ({ s with bounds := upd (upd s.bounds m.left L) m.right R } : St) = s2
    have a2 : s2.abl = s.abl := by rw [← hs2]
    have bl : s2.bounds m.left = L := by rw [← hs2]; show upd _ _ _ _ = _; rw [Wagyu.upd_other _ _ _ _ hne, Wagyu.upd_same]
    have br : s2.bounds m.right = R := by rw [← hs2]; exact Wagyu.upd_same ..
    have bo : ∀ b, b ≠ m.left → b ≠ m.right → s2.bounds b = s.bounds b := by
      intro b h1 h2
      rw [← hs2]; show upd _ _ _ _ = _
      rw [Wagyu.upd_other _ _ _ _ h2, Wagyu.upd_other _ _ _ _ h1]
    clear hs2
    have hab : Ok (insertLmLeftAndRightBound op sf cf m.left m.right) s2 fun _ s' => ∃ i, s'.abl = s.abl.take i ++ some m.left :: some m.right :: s.abl.drop i := by
      unfold insertLmLeftAndRightBound
      refine Post.bind ((insertBoundIntoAbl_ok _ m.left m.right).imp ?_)
      rintro i _ ⟨-, rfl⟩
      refine (Ok.pres (R := SameAbl) ?_).imp fun _ s' h => ⟨i, ?_⟩
      · refine Pres.bind inferInstance fun _ => Pres.bind inferInstance fun _ => Pres.bind (SameAbl.mod _ _) fun _ => ?_
        pres
      · have : s'.abl = s2.abl.take i ++ some m.left :: some m.right :: s2.abl.drop i := h
        rw [this, a2]
    refine (hab.and (Ok.pres (R := Put) inferInstance)).imp ?_
    rintro _ s' ⟨h1, hp⟩
    refine ⟨h1, fun b h1 h2 => ?_, ?_, ?_, ?_⟩
    · have := hp b; rw [bo b h1 h2] at this; exact this
    · rw [(hp _).edge, bl, Lc]
    · rw [(hp _).edge, br, Rc]
    · rintro b (rfl | rfl)
      · rw [(hp _).curIdx, (hp _).nxtIdx, bl]; exact ⟨L0, L1⟩
      · rw [(hp _).curIdx, (hp _).nxtIdx, br]; exact ⟨R0, R1⟩
  have hrun : Ok (do initializeMinimum m
                     insertLmLeftAndRightBound op sf cf m.left m.right : M Unit) s fun _ s' => Reached op sf cf s → Reached op sf cf s' := by
    by_cases hg : Reached op sf cf s
    · refine Post.imp (minimum_inv (reached_inv hg) hne hl hr el er hp').run ?_
      rintro _ s' ⟨e, -⟩ -
      exact .step hg (.minimum m hne hl hr el er hp' e)
    · exact Ok.intro fun _ _ _ h => absurd h hg
  have hin : Ok (do initializeMinimum m
                    insertLmLeftAndRightBound op sf cf m.left m.right : M Unit) s fun _ s' => InputKept s s' :=
    Ok.pres (R := InputKept) (Pres.bind inferInstance fun _ => inferInstance)
  refine ((key.and hrun).and hin).imp ?_
  rintro _ s' ⟨⟨⟨⟨i, ha⟩, ho, h1, h2, h3⟩, hr'⟩, hst⟩
  have hab : ∀ b, some b ∈ s'.abl ↔ b = m.left ∨ b = m.right ∨ some b ∈ s.abl := by
    intro b
    rw [ha, List.mem_append, List.mem_cons, List.mem_cons, Option.some.injEq, Option.some.injEq]
    conv_rhs => rw [← List.take_append_drop i s.abl, List.mem_append]
    tauto
  have hab' : ∀ b, b ∈ act s' ↔ b = m.left ∨ b = m.right ∨ b ∈ act s := by intro b; rw [mem_act, mem_act]; exact hab b
  refine ⟨⟨hs.static.trans hst.static, fun v hv => hs.sub v (by simp [hv]), hnd, fun b hb => ?_, ?_, fun b hb => ?_, fun b hb f hf => ?_, fun c hc hn hr => ?_, fun b hb => ?_⟩, hab', fun hf => ?_, ho, by rw [h1, hel]; rfl, by rw [h2, her]; rfl, h3, hr'⟩
  · rw [hab'] at hb
    rcases hb with rfl | rfl | hb
    · exact ⟨mem_idsOf_left hmA, fun h => hnl (by simp [h])⟩
    · exact ⟨mem_idsOf_right hmA, hnr⟩
    · have := hs.act b hb
      rw [idsOf_cons] at this
      exact ⟨this.1, fun h => this.2 (by simp [h])⟩
  · have hn : (act s).Nodup := hs.nodup
    have e1 : act s' = (s.abl.take i).filterMap id ++ m.left :: m.right :: (s.abl.drop i).filterMap id := by
      unfold act; rw [ha, List.filterMap_append]; rfl
    have e2 : act s = (s.abl.take i).filterMap id ++ (s.abl.drop i).filterMap id := by
      unfold act; rw [← List.filterMap_append, List.take_append_drop]
    have hperm : (act s').Perm (m.left :: m.right :: act s) := by
      rw [e1, e2]
      exact (List.perm_middle.trans ((List.perm_middle).cons _))
    rw [hperm.nodup_iff, List.nodup_cons, List.nodup_cons]
    exact ⟨by rw [List.mem_cons]; exact fun h => h.elim hne hl, hr, hn⟩
  · by_cases h1 : b = m.left ∨ b = m.right
    · rw [(h3 b h1).1, (h3 b h1).2]
    · have := ho b (fun h => h1 (.inl h)) fun h => h1 (.inr h)
      rw [this.nxtIdx, this.curIdx]
      rw [hab'] at hb
      exact hs.idx b ((hb.resolve_left fun h => h1 (.inl h)).resolve_left fun h => h1 (.inr h))
  · obtain ⟨e1, l1, e2, l2, g1, g2, g3, g4, -⟩ := hO m hmA
    rw [hel] at g1; rw [her] at g2
    obtain ⟨rfl, -⟩ := List.cons_eq_cons.1 g1
    obtain ⟨rfl, -⟩ := List.cons_eq_cons.1 g2
    by_cases e3 : b = m.left
    · rw [e3, h1] at hf; rw [← Option.some.inj hf]; omega
    · by_cases e4 : b = m.right
      · rw [e4, h2] at hf; rw [← Option.some.inj hf]; omega
      · rw [(ho b e3 e4).edge] at hf
        rw [hab'] at hb
        exact hs.low b ((hb.resolve_left e3).resolve_left e4) f hf
  · rw [hab'] at hn
    refine hs.gone c hc (fun h => hn (.inr (.inr h))) ?_
    rw [idsOf_cons, List.mem_cons, List.mem_cons]
    tauto
  · by_cases h1 : b = m.left ∨ b = m.right
    · rw [(h3 b h1).1, (hst.static b).2.2.2, hs.static.edges]
      rcases h1 with rfl | rfl
      · rw [hel]; simp
      · rw [her]; simp
    · have := ho b (fun h => h1 (.inl h)) fun h => h1 (.inr h)
      rw [this.curIdx, this.edges]
      rw [hab'] at hb
      exact hs.inside b ((hb.resolve_left fun h => h1 (.inl h)).resolve_left fun h => h1 (.inr h))
  · unfold Full at *
    rw [ha, List.mem_append, List.mem_cons, List.mem_cons]
    rintro (h | h | h | h)
    · exact hf (List.mem_of_mem_take h)
    · cases h
    · cases h
    · exact hf (List.mem_of_mem_drop h)

theorem LmOpened.orphan {m : LocalMinimum} {s' : St} (h : LmOpened y op sf cf s0 A rest s m s') (k : Orphan s0 A (m :: rest) s) : Orphan s0 A rest s' := by
  obtain ⟨b, v, k1, k2, k3, k4, k5, k6, k7⟩ := k
  rw [idsOf_cons] at k5 k6
  simp only [List.mem_cons, not_or] at k5 k6
  refine ⟨b, v, k1, k2, k3, ?_, k5.2.2, ?_, k7⟩
  · rw [h.mem]; rintro (h | h | h)
    exacts [k5.1 h, k5.2.1 h, k4 h]
  · rw [h.mem]; tauto

/-- The partner of every bound that is active or still to come is active or still to come. -/
def Paired' (s0 : St) (rest : List LocalMinimum) (s : St) : Prop :=
  ∀ b, (b ∈ act s ∨ b ∈ idsOf rest) → ∀ m, (s0.bounds b).maximumBound = some m → m ∈ act s ∨ m ∈ idsOf rest

theorem Paired'.one (h : Paired' s0 rest s) : Paired s0 rest s := fun b hb => h b (.inl hb)

theorem Paired'.drops {s' : St} (hM : Mated s0 A) (hw : Walk y s0 A rest s) (h : Paired' s0 rest s) (k : Drops s0 s s') : Paired' s0 rest s' ∨ Orphan s0 A rest s' := by
  by_cases hp : Paired' s0 rest s'
  · exact .inl hp
  · right
    unfold Paired' at hp
    push Not at hp
    obtain ⟨b, hb, m, h1, h2, h3⟩ := hp
    have hbs : b ∈ act s ∨ b ∈ idsOf rest := hb.imp (k.sub b) id
    have hbA : b ∈ idsOf A := by
      rcases hbs with h | h
      · exact (hw.act b h).1
      · obtain ⟨v, hv, e⟩ := List.mem_flatMap.1 h
        exact List.mem_flatMap.2 ⟨v, hw.sub v hv, e⟩
    have hm : m ∈ act s := (h b hbs m h1).resolve_right h3
    have h4 := hM.back hbA h1
    have hmA := (hw.act m hm).1
    rcases k.gone m hm h2 with ⟨m', k1, k2, k3⟩ | k1
    · rw [h4] at k2; cases k2
      rcases hb with hb | hb
      · exact absurd hb k3
      · exact absurd hb (hw.act _ k1).2
    · exact ⟨m, b, hmA, h4, hM.oneFlat m hmA b h4 k1, h2, h3, hb, k1⟩

/-- A bound without its partner is not among paired bounds. -/
theorem Orphan.not_paired (hM : Mated s0 A) (h : Orphan s0 A rest s) : ¬ Paired' s0 rest s := by
  obtain ⟨b, m, h1, h2, h3, h4, h5, h6, -⟩ := h
  intro hp
  exact (hp m h6 b (hM.back h1 h2)).elim h4 h5

theorem LmOpened.ids {m : LocalMinimum} {s' : St} (h : LmOpened y op sf cf s0 A rest s m s') (b : Nat) :
    (b ∈ act s' ∨ b ∈ idsOf rest) ↔ (b ∈ act s ∨ b ∈ idsOf (m :: rest)) := by
  rw [h.mem, idsOf_cons]
  simp only [List.mem_cons]
  tauto

theorem LmOpened.paired {m : LocalMinimum} {s' : St} (h : LmOpened y op sf cf s0 A rest s m s') (k : Paired' s0 (m :: rest) s) : Paired' s0 rest s' := by
  intro b hb v hv
  rw [h.ids] at hb ⊢
  exact k b hb v hv

theorem LmOpened.seen {m : LocalMinimum} {s' : St} (hM : Mated s0 A) (hO : Opens s0 A) (hm : m ∈ A) (hy : m.y = y) (h : LmOpened y op sf cf s0 A rest s m s') (b : Nat)
    (hb : b = m.left ∨ b = m.right) : Seen s0 y s' b ∧ (m.hasHorizontal = false → Steeped s' b) := by
  obtain ⟨e, l, e', l', h1, h2, h3, h4, h5, h6⟩ := hO m hm
  have hpl := hM.path _ (mem_idsOf_left hm)
  have hpr := hM.path _ (mem_idsOf_right hm)
  have hl := h.left
  have hr := h.right
  rw [h1] at hl
  rw [h2] at hr
  rcases hb with rfl | rfl
  · have key : ∀ f, (s'.bounds m.left).currentEdge? = some f → f = e := fun f hf => by rw [hl] at hf; simpa using hf.symm
    refine ⟨Seen.fresh hpl fun f hf => ?_, fun _ f hf => ?_⟩
    · rw [key f hf, h1]; exact ⟨h5, h3.trans hy, by simp⟩
    · rw [key f hf]; exact h5
  · have key : ∀ f, (s'.bounds m.right).currentEdge? = some f → f = e' := fun f hf => by rw [hr] at hf; simpa using hf.symm
    refine ⟨⟨⟨fun f hf hh => ?_, fun f f' hf hf' ht => ?_⟩, fun ht => ?_, fun f hf => ?_⟩, fun hh f hf => ?_⟩
    · rw [key f hf]; omega
    · have := key f hf; subst this
      have hh := (hpr.hor f (by rw [h2]; simp)).2 (by omega)
      have h0 : (s0.bounds m.right).edges[0]? = some f := by rw [h2]; rfl
      have h1' : (s0.bounds m.right).edges[0 + 1]? = some f' := by
        unfold Bound.nextEdge? at hf'
        rw [(h.cur _ (.inr rfl)).2, h.walk.static.edges] at hf'
        exact hf'
      have := (hpr.step h0 h1').2
      by_contra hx
      exact this ⟨hh, by simpa using hx⟩
    · exfalso
      obtain ⟨⟨-, f, hf, hfy⟩, hst⟩ := ht
      have h7 := hst f hf
      rw [key f hf] at hfy h7
      have := (hpr.hor e' (by rw [h2]; simp)).2 (by omega)
      rw [h7] at this; cases this
    · rw [key f hf]
      have := hpr.le e' (by rw [h2]; simp)
      omega
    · rw [key f hf]
      by_contra hx
      rw [h6.2 (by simpa using hx)] at hh
      cases hh

/-- All local minima with a horizontal edge on the scanline. -/
theorem fair_insertHorizontal (hM : Mated s0 A) (hO : Opens s0 A) : ∀ (rest : List LocalMinimum) (s : St), Walk y s0 A rest s → rest.Pairwise MinOrder → Full s →
    (g → Reached op sf cf s ∧ (∀ b ∈ act s, Seen s0 y s b) ∧ Paired' s0 rest s) →
    Ok (insertHorizontalLocalMinima op sf cf y rest) s fun r s' => Walk y s0 A r s' ∧ r.Pairwise MinOrder ∧ Full s' ∧
      (∀ m, r.head? = some m → m.y = y → m.hasHorizontal = false) ∧ (Orphan s0 A rest s → Orphan s0 A r s') ∧
      (g → Reached op sf cf s' ∧ (∀ b ∈ act s', Seen s0 y s' b) ∧ Paired' s0 r s')
  | [], s, hs, ho, hf, hg => by
    rw [insertHorizontalLocalMinima]
    exact Post.pure ⟨hs, ho, hf, nofun, id, hg⟩
  | m :: rest, s, hs, ho, hf, hg => by
    rw [insertHorizontalLocalMinima]
    refine Post.ite (fun h => ?_) fun h => Post.pure ⟨hs, ho, hf, fun v hv hy => ?_, id, hg⟩
    · rw [← M.assoc]
      refine Post.bind ((fair_open (op := op) (sf := sf) (cf := cf) (y := y) hM hO (by omega) hs).imp fun _ s1 h1 => ?_)
      refine Post.imp (fair_insertHorizontal hM hO rest s1 h1.walk (List.pairwise_cons.1 ho).2 (h1.full hf) fun hgg => ?_) fun r s' h' => ?_
      · obtain ⟨g1, g2, g3⟩ := hg hgg
        refine ⟨h1.reach g1, fun b hb => ?_, h1.paired g3⟩
        by_cases hb' : b = m.left ∨ b = m.right
        · exact (h1.seen hM hO (hs.sub m (by simp)) h.1 b hb').1
        · exact (g2 b ((((h1.mem b).1 hb).resolve_left fun h => hb' (.inl h)).resolve_left fun h => hb' (.inr h))).same
            (h1.other b (fun h => hb' (.inl h)) fun h => hb' (.inr h))
      · exact ⟨h'.1, h'.2.1, h'.2.2.1, h'.2.2.2.1, fun k => h'.2.2.2.2.1 (h1.orphan k), h'.2.2.2.2.2⟩
    · simp only [List.head?_cons, Option.some.injEq] at hv
      subst hv
      by_contra hx
      exact h ⟨hy, by simpa using hx⟩

/-- The other local minima on the scanline. -/
theorem fair_insertMinima (hM : Mated s0 A) (hO : Opens s0 A) : ∀ (rest : List LocalMinimum) (s : St), Walk y s0 A rest s → rest.Pairwise MinOrder → Full s →
    (∀ m, rest.head? = some m → m.y = y → m.hasHorizontal = false) →
    (g → Reached op sf cf s ∧ (∀ b ∈ act s, Seen s0 y s b ∧ Steeped s b) ∧ Paired' s0 rest s) →
    Ok (insertLocalMinima op sf cf y rest) s fun r s' => Walk y s0 A r s' ∧ r.Pairwise MinOrder ∧ Full s' ∧
      (Orphan s0 A rest s → Orphan s0 A r s') ∧ (g → Reached op sf cf s' ∧ (∀ b ∈ act s', Seen s0 y s' b ∧ Steeped s' b) ∧ Paired' s0 r s')
  | [], s, hs, ho, hf, _, hg => by
    rw [insertLocalMinima]
    exact Post.pure ⟨hs, ho, hf, id, hg⟩
  | m :: rest, s, hs, ho, hf, hh, hg => by
    rw [insertLocalMinima]
    refine Post.ite (fun h => ?_) fun h => Post.pure ⟨hs, ho, hf, id, hg⟩
    rw [← M.assoc]
    refine Post.bind ((fair_open (op := op) (sf := sf) (cf := cf) (y := y) hM hO (by omega) hs).imp fun _ s1 h1 => ?_)
    have hmh := hh m rfl h
    refine Post.imp (fair_insertMinima hM hO rest s1 h1.walk (List.pairwise_cons.1 ho).2 (h1.full hf) (fun v hv hy => ?_) fun hgg => ?_) fun r s' h' => ?_
    · have := (List.pairwise_cons.1 ho).1 v (List.mem_of_mem_head? hv)
      unfold MinOrder at this
      by_contra hx
      rcases this with this | this
      · omega
      · rw [this.2 (by simpa using hx)] at hmh; cases hmh
    · obtain ⟨g1, g2, g3⟩ := hg hgg
      refine ⟨h1.reach g1, fun b hb => ?_, h1.paired g3⟩
      by_cases hb' : b = m.left ∨ b = m.right
      · exact ⟨(h1.seen hM hO (hs.sub m (by simp)) h b hb').1, (h1.seen hM hO (hs.sub m (by simp)) h b hb').2 hmh⟩
      · have k := h1.other b (fun h => hb' (.inl h)) fun h => hb' (.inr h)
        rw [k.steeped]
        refine (fun h => ⟨h.1.same k, h.2⟩) (g2 b ?_)
        exact ((((h1.mem b).1 hb).resolve_left fun h => hb' (.inl h)).resolve_left fun h => hb' (.inr h))
    · exact ⟨h'.1, h'.2.1, h'.2.2.1, fun k => h'.2.2.2.1 (h1.orphan k), h'.2.2.2.2⟩

/-- Bounds with a vertex on the scanline go on to their next edge. -/
theorem fair_promote (hM : Mated s0 A) (rest : List LocalMinimum) : ∀ (l : List (Option Nat)) (s : St), Walk y s0 A rest s → (∀ o ∈ l, o ∈ s.abl) →
    (g → Reached op sf cf s ∧ (∀ b ∈ act s, Seen s0 y s b) ∧ ∀ b ∈ act s, Steeped s b) →
    Ok (promoteIntermediate y l) s fun _ s' => Walk y s0 A rest s' ∧ s'.abl = s.abl ∧
      (g → Reached op sf cf s' ∧ (∀ b ∈ act s', Seen s0 y s' b) ∧ ∀ b ∈ act s', Steeped s' b)
  | [], s, hs, _, hg => by
    rw [promoteIntermediate]
    exact Post.pure ⟨hs, rfl, hg⟩
  | o :: l, s, hs, hl, hg => by
    rw [promoteIntermediate]
    refine Post.bind (Post.deref (fun b hb => ?_) fun _ => trivial)
    subst hb
    have hbs : some b ∈ s.abl := hl _ (by simp)
    have go : ∀ s1, Walk y s0 A rest s1 → s1.abl = s.abl → (g → Reached op sf cf s1 ∧ (∀ b ∈ act s1, Seen s0 y s1 b) ∧ ∀ b ∈ act s1, Steeped s1 b) →
        Ok (promoteIntermediate y l) s1 fun _ s' => Walk y s0 A rest s' ∧ s'.abl = s.abl ∧
          (g → Reached op sf cf s' ∧ (∀ b ∈ act s', Seen s0 y s' b) ∧ ∀ b ∈ act s', Steeped s' b) := by
      intro s1 h1 a1 g1
      refine (fair_promote hM rest l s1 h1 (fun o ho => ?_) g1).imp fun _ s' h => ⟨h.1, h.2.1.trans a1, h.2.2⟩
      rw [a1]; exact hl o (by simp [ho])
    refine Post.bind (Post.imp (Q := fun r s' => s = s' ∧ (r = true → ∃ e, (s.bounds b).currentEdge? = some e ∧ e.top.y = y ∧ (s.bounds b).nxtIdx < (s.bounds b).edges.length)) ?_ ?_)
    · unfold isIntermediate
      refine Post.bind (Post.getBound (Post.ite (fun hlt => Post.bind (Ok.currentEdge fun e he => Post.pure ⟨rfl, fun h => ⟨e, he, ?_, hlt⟩⟩)) fun _ => Post.pure ⟨rfl, nofun⟩))
      exact of_decide_eq_true h
    · rintro r _ ⟨rfl, hr⟩
      refine Post.ite (fun h => ?_) fun _ => go s hs rfl hg
      obtain ⟨e, he, hey, hlt⟩ := hr h
      have fin : ∀ s2, Walk y s0 A rest s2 → (g → Reached op sf cf s2) → Still s s2 → Ok (do
          toNextEdge b
          promoteIntermediate y l : M Unit) s2 fun _ s' => Walk y s0 A rest s' ∧ s'.abl = s.abl ∧
            (g → Reached op sf cf s' ∧ (∀ b ∈ act s', Seen s0 y s' b) ∧ ∀ b ∈ act s', Steeped s' b) := by
        intro s2 w2 r2 k2
        have hb2 : b ∈ act s2 := by rw [mem_act, k2.abl]; exact hbs
        have hl2 : (s2.bounds b).nxtIdx < (s2.bounds b).edges.length := by rw [(k2.bound b).nxtIdx, (k2.bound b).edges]; exact hlt
        have hr : Ok (toNextEdge b) s2 fun _ s' => g → Reached op sf cf s' := by
          by_cases hg : g
          · exact Ok.only ((w2.run (r2 hg)).next hb2 hl2 fun s3 h3 _ _ _ _ _ => h3.reached)
          · exact Ok.intro fun _ _ _ h => absurd h hg
        have hbot : ∀ f, (s2.bounds b).nextEdge? = some f → y ≤ f.bottom.y := by
          intro f hf
          rw [w2.next_bottom hM hb2 (by rw [(k2.bound b).edge]; exact he) hf, hey]
        refine Post.bind (Post.imp (hr.and (w2.next (Q := fun _ s3 => Walk y s0 A rest s3 ∧ s3.abl = s2.abl ∧ (∀ c, c ≠ b → s3.bounds c = s2.bounds c) ∧ (s3.bounds b).edges = (s2.bounds b).edges
            ∧ (s3.bounds b).currentEdge? = (s2.bounds b).nextEdge? ∧ (s3.bounds b).curIdx = (s2.bounds b).curIdx + 1) hb2 hl2 hbot fun s3 w3 k1 k2 k3 k4 k5 =>
          ⟨w3, k1, k2, k3, k4, k5⟩)) ?_)
        rintro _ s3 ⟨hr3, w3, k1, k2', k3, k4, k5⟩
        refine go s3 w3 (k1.trans k2.abl) fun hgg => ?_
        obtain ⟨g1, g2, g3⟩ := hg hgg
        have hba : b ∈ act s := mem_act.2 hbs
        have hact : act s3 = act s := by unfold act; rw [k1, k2.abl]
        have hpath := hM.path b (hs.act b hba).1
        have key : ∀ f, (s3.bounds b).currentEdge? = some f → f.isHorizontal = false ∧ f.bottom.y = y ∧ f ∈ (s0.bounds b).edges := by
          intro f hf
          rw [k4, (k2.bound b).next] at hf
          have hst := (g2 b hba).looked.2 e f he hf hey
          have hf' : (s0.bounds b).edges[(s.bounds b).curIdx + 1]? = some f := by rw [← hs.static.edges, ← hs.idx b hba]; exact hf
          have he' : (s0.bounds b).edges[(s.bounds b).curIdx]? = some e := by rw [← hs.static.edges]; exact he
          refine ⟨hst, ?_, List.mem_of_getElem? hf'⟩
          rw [← (hpath.step he' hf').1, hey]
        have same : ∀ c, c ≠ b → SamePlace (s.bounds c) (s3.bounds c) := fun c hc => by rw [k2' c hc]; exact k2.bound c
        rw [hact]
        refine ⟨hr3 hgg, fun c hc => ?_, fun c hc => ?_⟩
        · by_cases hcb : c = b
          · subst hcb
            exact Seen.fresh hpath key
          · exact (g2 c hc).same (same c hcb)
        · by_cases hcb : c = b
          · subst hcb
            exact fun f hf => (key f hf).1
          · rw [(same c hcb).steeped]; exact g3 c hc
      refine Post.bind (Post.getBound (Post.ite (fun _ => ?_) fun _ => fin s hs (fun h => (hg h).1) (Preo.refl _)))
      refine Post.bind (Ok.look fun e _ => Post.bind ?_)
      refine Ok.intro fun _ s2 e2 => ?_
      have q1 : Same s s2 := by have := (inferInstance : Pres Same (addPointToRing b e.top)).pres s; rw [e2] at this; exact this
      have q2 : Still s s2 := by have := (inferInstance : Pres Still (addPointToRing b e.top)).pres s; rw [e2] at this; exact this
      exact fin s2 (hs.slots q2.slots q1.static) (fun h => q1.reached (hg h).1) q2

theorem Walk.sameAct {s' : St} (h : Walk y s0 A rest s) (ha : Wagyu.act s' = Wagyu.act s) (hb : s'.bounds = s.bounds) : Walk y s0 A rest s' :=
  h.sub' hb (fun c hc => ha ▸ hc) (ha ▸ h.nodup) fun c hc hn => absurd (ha.symm ▸ hc) hn

theorem Orphan.sameAct {s' : St} (h : Orphan s0 A rest s) (ha : act s' = act s) : Orphan s0 A rest s' := by unfold Orphan at *; rw [ha]; exact h
theorem Paired'.sameAct {s' : St} (h : Paired' s0 rest s) (ha : act s' = act s) : Paired' s0 rest s' := by unfold Paired' at *; rw [ha]; exact h

/-- The state as long as no bound has ended without its partner. -/
structure FairMid (op : OperationKind) (sf cf : FillKind) (s0 : St) (rest : List LocalMinimum) (s : St) : Prop where
  reached : Reached op sf cf s
  steep : ∀ b ∈ act s, Steeped s b
  paired : Paired' s0 rest s
  full : Full s

/-- The state between two scanlines as long as no bound has ended without its partner. -/
structure Fair (op : OperationKind) (sf cf : FillKind) (s0 : St) (rest : List LocalMinimum) (s : St) : Prop
    extends FairMid op sf cf s0 rest s where
  ahead : ∀ b ∈ act s, ∀ e, (s.bounds b).currentEdge? = some e → e.top.y ∈ s.scan

/-- The end of a bound. -/
theorem Mated.last_row (hM : Mated s0 A) {b m : Nat} (hb : b ∈ idsOf A) (hm : (s0.bounds b).maximumBound = some m) {e : Edge}
    (he : (s0.bounds b).edges.getLast? = some e) : ∃ l, (s0.bounds m).edges.getLast? = some l ∧ l.top.y = e.top.y := by
  have := hM.meet b hb m hm
  unfold endOf at this
  rw [he] at this
  cases hl : (s0.bounds m).edges.getLast? with
  | none => rw [hl] at this; cases this
  | some l =>
    rw [hl] at this
    refine ⟨l, rfl, ?_⟩
    have : l.top = e.top := Option.some.inj this
    rw [this]

theorem Walk.top_last {b : Nat} (h : Walk y s0 A rest s) (hb : b ∈ Wagyu.act s) (ht : AtTop y s b) : ∃ e, (s.bounds b).currentEdge? = some e ∧ e.top.y = y
    ∧ (s0.bounds b).edges.getLast? = some e := by
  obtain ⟨h1, e, he, hy⟩ := ht
  refine ⟨e, he, hy, ?_⟩
  have := h.idx b hb
  rw [List.getLast?_eq_getElem?, ← h.static.edges b]
  have : (s.bounds b).edges.length - 1 = (s.bounds b).curIdx := by omega
  rw [this]; exact he

theorem Mated.mem (hM : Mated s0 A) {b m : Nat} (hb : b ∈ idsOf A) (hm : (s0.bounds b).maximumBound = some m) : m ∈ idsOf A := by
  obtain ⟨m', h0, h1, -, -⟩ := hM.closed b hb
  rw [h1] at hm; cases hm
  exact h0

/-- A bound still to come does not reach below its local minimum. -/
theorem Opens.row (hO : Opens s0 A) (hM : Mated s0 A) {m : Nat} {v : LocalMinimum} (hv : v ∈ A) (hm : m = v.left ∨ m = v.right) {l : Edge}
    (hl : (s0.bounds m).edges.getLast? = some l) : l.bottom.y ≤ v.y := by
  obtain ⟨e, es, e', es', h1, h2, h3, h4, -⟩ := hO v hv
  have hp : Path (s0.bounds m).edges := hM.path m (by rcases hm with rfl | rfl; exacts [mem_idsOf_left hv, mem_idsOf_right hv])
  obtain ⟨f, hf, hfy⟩ : ∃ f, (s0.bounds m).edges[0]? = some f ∧ f.bottom.y = v.y := by
    rcases hm with rfl | rfl
    · exact ⟨e, by rw [h1]; rfl, h3⟩
    · exact ⟨e', by rw [h2]; rfl, h4⟩
  have := hp.le f (List.mem_of_getElem? hf)
  rcases hp.last hf hl with ⟨h, -⟩ | ⟨h, -⟩
  · rw [h]; omega
  · omega

theorem mem_rest {m : Nat} (h : m ∈ idsOf rest) : ∃ v ∈ rest, m = v.left ∨ m = v.right := by
  obtain ⟨v, hv, e⟩ := List.mem_flatMap.1 h
  exact ⟨v, hv, by simpa using e⟩

/-- If a bound ends on the scanline and has not been closed with its partner, that one ends in a horizontal edge. -/
theorem Walk.mate_flat (hM : Mated s0 A) (hO : Opens s0 A) (w : Walk y s0 A rest s) (sp : Span y s) (hrest : ∀ m ∈ rest, m.y ≤ y) (hp : Paired' s0 rest s)
    {b m : Nat} (hb : b ∈ Wagyu.act s) (ht : TopS y s b) (hm : (s0.bounds b).maximumBound = some m) (hno : m ∈ Wagyu.act s → ¬ TopS y s m) : FlatTop s0 m := by
  obtain ⟨e, he, hy, hlast⟩ := w.top_last hb ht.1
  have hbA := (w.act b hb).1
  obtain ⟨l, hl, hly⟩ := hM.last_row hbA hm hlast
  have hpm := hM.path m (hM.mem hbA hm)
  have hlm := List.mem_of_getLast? hl
  have hle := hpm.le l hlm
  have close : l.bottom.y ≤ y → FlatTop s0 m := fun h => ⟨l, hl, (hpm.hor l hlm).2 (by omega)⟩
  rcases hp b (.inl hb) m hm with ha | ha
  · have hin := w.inside m ha
    obtain ⟨g, hg⟩ : ∃ g, (s.bounds m).currentEdge? = some g := ⟨_, List.getElem?_eq_getElem hin⟩
    have hg' : (s0.bounds m).edges[(s.bounds m).curIdx]? = some g := by rw [← w.static.edges]; exact hg
    rcases hpm.last hg' hl with ⟨h, hi⟩ | ⟨h, -⟩
    · subst h
      have hat : AtTop y s m := ⟨by rw [w.idx m ha, w.static.edges]; exact hi, l, hg, by omega⟩
      by_contra hx
      refine hno ha ⟨hat, fun f hf => ?_⟩
      rw [hg] at hf; cases hf
      by_contra hh
      exact hx ⟨l, hl, by simpa using hh⟩
    · exact close (h.trans (sp m ha g hg))
  · obtain ⟨v, hv, hmv⟩ := mem_rest ha
    exact close ((hO.row hM (w.sub v hv) hmv hl).trans (hrest v hv))

/-- At the end of a scanline no current edge ends there. -/
theorem FairMid.ahead (hM : Mated s0 A) (hO : Opens s0 A) (w : Walk y s0 A rest s) (hv : VI (fun b => (s0.bounds b).edges) A y rest s)
    (h : FairMid op sf cf s0 rest s) (hs : ∀ b ∈ act s, Seen s0 y s b) : Fair op sf cf s0 rest s := by
  refine ⟨h, fun b hb e he => ?_⟩
  have hbA := (w.act b hb).1
  have hle := (hs b hb).span e he
  refine (hv.tops b (mem_act.1 hb) e he (h.steep b hb e he)).resolve_left fun hge => ?_
  have hey : e.top.y = y := by omega
  by_cases hn : (s.bounds b).nxtIdx < (s.bounds b).edges.length
  · exact hv.done b (mem_act.1 hb) e _ he (List.getElem?_eq_getElem hn) hey
  · have hin := w.inside b hb
    have hidx := w.idx b hb
    have hat : AtTop y s b := ⟨by omega, e, he, hey⟩
    obtain ⟨m, -, hm, -, -⟩ := hM.closed b hbA
    obtain ⟨l, hl, hh⟩ := (hs b hb).flat ⟨hat, h.steep b hb⟩ m hm
    obtain ⟨e', he', hy', hlast⟩ := w.top_last hb hat
    obtain ⟨l', hl', hly⟩ := hM.last_row hbA hm hlast
    rw [hl] at hl'; cases hl'
    have hpm := hM.path m (hM.mem hbA hm)
    have hlm := List.mem_of_getLast? hl
    have hlh := (hpm.hor l hlm).1 hh
    rcases h.paired b (.inl hb) m hm with ha | ha
    · have hinm := w.inside m ha
      obtain ⟨g, hg⟩ : ∃ g, (s.bounds m).currentEdge? = some g := ⟨_, List.getElem?_eq_getElem hinm⟩
      have hg' : (s0.bounds m).edges[(s.bounds m).curIdx]? = some g := by rw [← w.static.edges]; exact hg
      rcases hpm.last hg' hl with ⟨h', -⟩ | ⟨h', hi⟩
      · subst h'
        have := h.steep m ha l hg
        rw [hh] at this; cases this
      · have h1 := (hs m ha).span g hg
        have hnm : (s.bounds m).nxtIdx < (s.bounds m).edges.length := by rw [w.idx m ha, w.static.edges]; exact hi
        have h2 := hv.done m (mem_act.1 ha) g _ hg (List.getElem?_eq_getElem hnm)
        omega
    · obtain ⟨v, hv', hmv⟩ := mem_rest ha
      have h1 := hO.row hM (w.sub v hv') hmv hl
      have h2 := (hv.restScan v hv').resolve_left (hv.later v hv')
      have h3 := hv.below _ h2
      have h4 := hv.later v hv'
      omega

theorem fair_topOfScanbeam (hM : Mated s0 A) (hO : Opens s0 A) (hs : Walk y s0 A rest s) (ho : rest.Pairwise MinOrder) (hrest : ∀ m ∈ rest, m.y ≤ y)
    (hg : (FairMid op sf cf s0 rest s ∧ Span y s) ∨ Orphan s0 A rest s) :
    Ok (processEdgesAtTopOfScanbeam op sf cf y rest) s fun r s' => Walk y s0 A r s' ∧ r.Pairwise MinOrder ∧ Full s' ∧
      (∀ m, r.head? = some m → m.y = y → m.hasHorizontal = false) ∧ ((FairMid op sf cf s0 r s' ∧ ∀ b ∈ act s', Seen s0 y s' b) ∨ Orphan s0 A r s') ∧ (Orphan s0 A rest s → Orphan s0 A r s') := by
  unfold processEdgesAtTopOfScanbeam
  have htop : Ok (topOfScanbeamLoop op sf cf y) s fun _ s' => FairMid op sf cf s0 rest s → Reached op sf cf s' ∧ (∀ b ∈ act s', Looked y s' b)
      ∧ ∀ b ∈ act s', ∀ m, (s0.bounds b).maximumBound = some m → m ∈ act s' → ¬ (TopS y s' b ∧ TopS y s' m) := by
    by_cases h : FairMid op sf cf s0 rest s
    · exact Ok.only ((fair_topLoop (y := y) hM (hs.run h.reached) h.steep).imp fun _ s' h' _ => ⟨h'.1.reached, h'.2⟩)
    · exact Ok.intro fun _ _ _ h' => absurd h' h
  refine Post.bind (Post.imp ((walk_topLoop hM hs).and htop) ?_)
  rintro _ s1 ⟨⟨w1, d1, p1⟩, r1⟩
  have g1 : (Reached op sf cf s1 ∧ (∀ b ∈ act s1, Seen s0 y s1 b) ∧ Paired' s0 rest s1) ∨ Orphan s0 A rest s1 := by
    rcases hg with h | h
    · obtain ⟨h, hsp⟩ := h
      refine (h.paired.drops hM hs d1).imp (fun k => ⟨(r1 h).1, fun b hb => ⟨(r1 h).2.1 b hb, fun ht m hm => ?_, fun e he => p1 hsp b hb e he⟩, k⟩) id
      exact w1.mate_flat hM hO (p1 hsp) hrest k hb ht hm fun hma ht' => (r1 h).2.2 b hb m hm hma ⟨ht, ht'⟩
    · exact .inr (h.drops hM d1)
  have q1 : Orphan s0 A rest s → Orphan s0 A rest s1 := (·.drops hM d1)
  clear r1 d1 p1 htop hg
  unfold ablFilter
  have ha : act { s1 with abl := s1.abl.filter Option.isSome } = act s1 := filterMap_filter_some _
  refine Post.bind (Post.modify ?_)
  have w2 := w1.sameAct ha rfl
  have f2 : Full { s1 with abl := s1.abl.filter Option.isSome } := by
    intro h
    have := (List.mem_filter.1 h).2
    simp at this
  have g2 : (Reached op sf cf { s1 with abl := s1.abl.filter Option.isSome } ∧ (∀ b ∈ act { s1 with abl := s1.abl.filter Option.isSome }, Seen s0 y { s1 with abl := s1.abl.filter Option.isSome } b)
      ∧ Paired' s0 rest { s1 with abl := s1.abl.filter Option.isSome }) ∨ Orphan s0 A rest { s1 with abl := s1.abl.filter Option.isSome } := by
    refine g1.imp (fun h => ⟨.step h.1 (.quiet ha rfl fun b _ => ⟨rfl, rfl, rfl, rfl, rfl, rfl⟩), ?_, h.2.2.sameAct ha⟩) (·.sameAct ha)
    rw [ha]; exact fun b hb => (h.2.1 b hb).eq rfl
  have q2 : Orphan s0 A rest s → Orphan s0 A rest { s1 with abl := s1.abl.filter Option.isSome } := fun h => (q1 h).sameAct ha
  clear g1 w1 q1 ha
  generalize ({ s1 with abl := s1.abl.filter Option.isSome } : St) = s2 at *
  refine Post.bind (Post.imp (fair_insertHorizontal (op := op) (sf := sf) (cf := cf) (y := y)
    (g := Reached op sf cf s2 ∧ (∀ b ∈ act s2, Seen s0 y s2 b) ∧ Paired' s0 rest s2) hM hO rest s2 w2 ho f2 id) ?_)
  rintro r s3 ⟨w3, o3, f3, hd3, or3, g3⟩
  have g3 : (Reached op sf cf s3 ∧ (∀ b ∈ act s3, Seen s0 y s3 b) ∧ Paired' s0 r s3) ∨ Orphan s0 A r s3 := g2.imp g3 or3
  clear g2
  refine Post.bind (Post.imp (fair_horizontals (op := op) (sf := sf) (cf := cf) (y := y)
    (g := Reached op sf cf s3 ∧ (∀ b ∈ act s3, Seen s0 y s3 b) ∧ Paired' s0 r s3) hM w3 (fun h => h.2.2.one) fun h => ⟨h.1, h.2.1⟩) ?_)
  rintro _ s4 ⟨w4, f4, d4, g4⟩
  have g4 : (Reached op sf cf s4 ∧ (∀ c ∈ act s4, Seen s0 y s4 c) ∧ (∀ c ∈ act s4, Steeped s4 c) ∧ Paired' s0 r s4) ∨ Orphan s0 A r s4 := by
    rcases g3 with h | h
    · rcases g4 h with h' | h'
      · exact (h.2.2.drops hM w3 d4).imp (fun k => ⟨h'.1, h'.2.1, h'.2.2.1, k⟩) id
      · exact .inr h'
    · exact .inr (h.drops hM d4)
  clear g3
  refine Post.bind (Post.gets (Post.bind (Post.imp (fair_promote (op := op) (sf := sf) (cf := cf) (y := y)
    (g := Reached op sf cf s4 ∧ (∀ c ∈ act s4, Seen s0 y s4 c) ∧ (∀ c ∈ act s4, Steeped s4 c) ∧ Paired' s0 r s4) hM r s4.abl s4 w4 (fun _ h => h) fun h => ⟨h.1, h.2.1, h.2.2.1⟩) ?_)))
  rintro _ s5 ⟨w5, a5, g5⟩
  have ha5 : act s5 = act s4 := by unfold act; rw [a5]
  have f5 : Full s5 := by unfold Full; rw [a5]; exact f4
  refine Post.pure ⟨w5, o3, f5, hd3, ?_⟩
  exact ⟨g4.imp (fun h => ⟨⟨(g5 h).1, (g5 h).2.2, h.2.2.2.sameAct ha5, f5⟩, (g5 h).2.1⟩) (·.sameAct ha5), fun h => ((or3 (q2 h)).drops hM d4).sameAct ha5⟩

theorem ok_popScan {Y : Int} (hY : ∀ v ∈ s.scan, v ≤ Y) (hne : s.scan ≠ []) (hsort : s.scan.Pairwise (· ≤ ·)) :
    Ok (popScan y) s fun r _ => r ≤ Y ∧ ∀ v ∈ s.scan, v ≤ r := by
  unfold popScan
  refine Post.bind (Post.gets ?_)
  split
  · next h => exact absurd (List.getLast?_eq_none_iff.1 h) hne
  · next v hv =>
    refine Post.bind (Post.modify (Post.pure ⟨hY v (List.mem_of_getLast? hv), fun x hx => ?_⟩))
    obtain ⟨l, hl⟩ : ∃ l, s.scan = l ++ [v] := ⟨_, (List.dropLast_append_getLast? v hv).symm⟩
    rw [hl] at hx hsort
    rcases List.mem_append.1 hx with hx | hx
    · exact (List.pairwise_append.1 hsort).2.2 x hx v (by simp)
    · simp at hx; omega

/-- One scanline. -/
theorem fair_step {lo hi : Int} (hM : Mated s0 A) (hO : Opens s0 A) (hX : ∀ y, InR lo hi y → ∀ b ∈ idsOf A, ∀ e ∈ (s0.bounds b).edges, e.getCurrentX y ≠ .nan)
    (hr : RowInv lo hi s) (hy : InR lo hi y ∨ s.scan ≠ []) {Y : Int} (hs : Walk Y s0 A rest s) (hY : ∀ v ∈ s.scan, v ≤ Y) (hne : s.scan ≠ [])
    (hsort : s.scan.Pairwise (· ≤ ·)) (hrest : ∀ m ∈ rest, m.y ∈ s.scan) (ho : rest.Pairwise MinOrder) (hg : Fair op sf cf s0 rest s ∨ Orphan s0 A rest s) :
    Ok (vattiStep op sf cf y rest) s fun r s' => Walk r.1 s0 A r.2 s' ∧ r.2.Pairwise MinOrder ∧ ((FairMid op sf cf s0 r.2 s' ∧ ∀ b ∈ act s', Seen s0 r.1 s' b) ∨ Orphan s0 A r.2 s') ∧ (Orphan s0 A rest s → Orphan s0 A r.2 s') := by
  unfold vattiStep
  refine Post.bind (Post.imp (((sk_popScan hr hy).and (Ok.pres (R := Bare) inferInstance)).and (ok_popScan hY hne hsort)) ?_)
  rintro y' s1 ⟨⟨⟨-, hy'⟩, b1⟩, hle, hmax⟩
  have ha1 : act s1 = act s := by unfold act; rw [b1.1]
  have w1 := (hs.lower hle).sameAct ha1 b1.2.2
  have g1 : (FairMid op sf cf s0 rest s1 ∧ Span y' s1) ∨ Orphan s0 A rest s1 := by
    refine hg.imp (fun h => ⟨⟨.step h.reached (.quiet ha1 b1.2.1 fun b _ => by rw [b1.2.2]; exact ⟨rfl, rfl, rfl, rfl, rfl, rfl⟩), ?_, h.paired.sameAct ha1, ?_⟩, ?_⟩) (·.sameAct ha1)
    · rw [ha1]; exact fun b hb => (h.steep b hb).eq (by rw [b1.2.2])
    · unfold Full; rw [b1.1]; exact h.full
    · intro b hb e he
      rw [ha1] at hb
      rw [b1.2.2] at he
      exact hmax _ (h.ahead b hb e he)
  clear hg
  have hmeet : Ok (processIntersections y' op sf cf) s1 fun _ s' => FairMid op sf cf s0 rest s1 → Reached op sf cf s' ∧ Full s' := by
    by_cases h : FairMid op sf cf s0 rest s1
    · exact Ok.only ((run_intersections (hX y' hy') (w1.run h.reached) h.full).imp fun _ s' h' _ => ⟨h'.1.reached, h'.2⟩)
    · exact Ok.intro fun _ _ _ h' => absurd h' h
  refine Post.bind (Post.imp (hmeet.and (w1.stay (m := processIntersections y' op sf cf) (Q := fun _ s' => Walk y' s0 A rest s' ∧ Slots s1 s') fun _ _ w k => ⟨w, k⟩)) ?_)
  rintro _ s2 ⟨r2, w2, k2⟩
  have g2 : (FairMid op sf cf s0 rest s2 ∧ Span y' s2) ∨ Orphan s0 A rest s2 := by
    rcases g1 with ⟨h, hsp⟩ | h
    · refine (h.paired.drops hM w1 k2.drops).imp (fun k => ⟨⟨(r2 h).1, fun b hb => ?_, k, (r2 h).2⟩, hsp.sub (fun b => k2.act.mem_iff.1) k2.edge⟩) id
      intro e he
      rw [k2.edge] at he
      exact h.steep b (k2.act.mem_iff.1 hb) e he
    · exact .inr (h.drops hM k2.drops)
  clear g1
  refine Post.bind ((Ok.pres (R := Bare) inferInstance).imp fun _ s3 b3 => ?_)
  have ha3 : act s3 = act s2 := by unfold act; rw [b3.1]
  have w3 := w2.sameAct ha3 b3.2.2
  have g3 : (FairMid op sf cf s0 rest s3 ∧ Span y' s3) ∨ Orphan s0 A rest s3 := by
    refine g2.imp (fun ⟨h, hsp⟩ => ⟨⟨.step h.reached (.quiet ha3 b3.2.1 fun b _ => by rw [b3.2.2]; exact ⟨rfl, rfl, rfl, rfl, rfl, rfl⟩), ?_, h.paired.sameAct ha3, ?_⟩, hsp.sub (fun b hb => ha3 ▸ hb) fun b => by rw [b3.2.2]⟩) (·.sameAct ha3)
    · rw [ha3]; exact fun b hb => (h.steep b hb).eq (by rw [b3.2.2])
    · unfold Full; rw [b3.1]; exact h.full
  clear g2
  refine Post.bind (Post.imp (fair_topOfScanbeam hM hO w3 ho (fun m hm => hmax _ (hrest m hm)) g3) ?_)
  rintro r s4 ⟨w4, o4, f4, hd4, g4, q4⟩
  refine Post.bind (Post.imp (fair_insertMinima (op := op) (sf := sf) (cf := cf) (y := y') (g := FairMid op sf cf s0 r s4 ∧ ∀ b ∈ act s4, Seen s0 y' s4 b) hM hO r s4 w4 o4 f4 hd4
    fun h => ⟨h.1.reached, fun b hb => ⟨h.2 b hb, h.1.steep b hb⟩, h.1.paired⟩) ?_)
  rintro r' s5 ⟨w5, o5, f5, or5, g5⟩
  exact Post.pure ⟨w5, o5, g4.imp (fun h => ⟨⟨(g5 h).1, fun b hb => ((g5 h).2.1 b hb).2, (g5 h).2.2, f5⟩, fun b hb => ((g5 h).2.1 b hb).1⟩) or5, fun h => or5 (q4 (((h.sameAct ha1).drops hM k2.drops).sameAct ha3))⟩

/-- What holds at the end of every scanline, whose row is `Y`. -/
def Walks (s0 : St) (A rest : List LocalMinimum) (s : St) : Prop :=
  ∃ Y, Walk Y s0 A rest s ∧ VI (fun b => (s0.bounds b).edges) A Y rest s

theorem Tot.done {m : M α} [hu : Up m m] {Q : α → St → Prop} {a : α} {s' : St} (h : Tot m s Q) (e : m s = .ok a s') : ∃ k, Q a (s'.wf k) := by
  obtain ⟨N, h⟩ := h
  have hk := (hu.up s (max N s.fuel) (le_max_right _ _)).resolve_left (by rw [e]; exact id)
  rw [e] at hk
  rcases h with ⟨b, t, h1, h2⟩ | ⟨er, t, -, h2⟩
  · rw [h1 _ (le_max_left _ _)] at hk
    injection hk with hab hst
    subst hab
    refine ⟨t.fuel, ?_⟩
    have : s'.wf t.fuel = t := by
      have : (s'.wf (max N s.fuel)).wf t.fuel = (t.wf (max N s.fuel)).wf t.fuel := by rw [hst]
      exact this
    rw [this]; exact h2
  · rw [h2 _ (le_max_left _ _)] at hk
    cases hk

theorem VI.wf {E : Nat → List Edge} {Y : Int} (h : VI E A Y rest s) (k : Nat) : VI E A Y rest (s.wf k) :=
  ⟨⟨h.hw.wf k, h.edges, h.sorted, h.below, h.row, h.sub, h.nd, h.order, h.act, h.idx, h.restScan, h.span, h.tops⟩, h.later, h.done⟩
theorem VI.of_wf {E : Nat → List Edge} {Y : Int} {k : Nat} (h : VI E A Y rest (s.wf k)) : VI E A Y rest s := h.wf s.fuel

theorem VI.scan_ne {E : Nat → List Edge} {Y : Int} (h : VI E A Y rest s) (hne : ¬ (s.scan = [] ∧ rest = [])) : s.scan ≠ [] := by
  intro hs
  apply hne
  refine ⟨hs, ?_⟩
  cases rest with
  | nil => rfl
  | cons m l =>
    have := (h.restScan m (by simp)).resolve_left (h.later m (by simp))
    rw [hs] at this
    cases this

/-- The state at the end of every scanline. -/
theorem fair_passes {F : Extent} {lo hi : Int} (hG : Given F (fun b => (s0.bounds b).edges) A) (hF : ∀ v, F.Y v → |v| ≤ 2 ^ 52)
    (hM : Mated s0 A) (hO : Opens s0 A) (hX : ∀ y, InR lo hi y → ∀ b ∈ idsOf A, ∀ e ∈ (s0.bounds b).edges, e.getCurrentX y ≠ .nan)
    {y0 : Int} {rest0 : List LocalMinimum} {s1 : St} (hr : RowInv lo hi s1) (hy : InR lo hi y0 ∨ s1.scan ≠ [] ∨ rest0 = [])
    (hs : Walks s0 A rest0 s1) (ho : rest0.Pairwise MinOrder) (hg : Fair op sf cf s0 rest0 s1 ∨ Orphan s0 A rest0 s1) (h : Passes (vattiStep op sf cf) y0 rest0 s1 y rest s) :
    Walks s0 A rest s ∧ rest.Pairwise MinOrder ∧ (Fair op sf cf s0 rest s ∨ Orphan s0 A rest s) ∧ RowInv lo hi s ∧ (InR lo hi y ∨ s.scan ≠ [] ∨ rest = [])
    ∧ (Orphan s0 A rest0 s1 → Orphan s0 A rest s)
    ∧ ((y = y0 ∧ rest = rest0 ∧ s = s1) ∨ (Walk y s0 A rest s ∧ VI (fun b => (s0.bounds b).edges) A y rest s)) := by
  induction h with
  | start => exact ⟨hs, ho, hg, hr, hy, id, .inl ⟨rfl, rfl, rfl⟩⟩
  | next hp hne e ih =>
    obtain ⟨⟨Y, i1, iv⟩, i2, i3, i4, i5, i6, -⟩ := ih
    have i5' : InR lo hi _ ∨ _ ≠ [] := i5.elim .inl fun h => h.elim .inr fun h => .inr fun h' => hne ⟨h', h⟩
    have k0 := (fair_step hM hO hX i4 i5' i1 iv.below (iv.scan_ne hne) iv.sorted (fun m hm => (iv.restScan m hm).resolve_left (iv.later m hm)) i2 i3).elim e
    have k := (sk_vattiStep (op := op) (sf := sf) (cf := cf) i4 i5').elim e
    have kv := (tot_vattiStep op sf cf hG hF _ iv hne).done e
    obtain ⟨j, -, kv, -⟩ := kv
    have kv := kv.of_wf
    exact ⟨⟨_, k0.1, kv⟩, k0.2.1, k0.2.2.1.imp (fun h => h.1.ahead hM hO k0.1 kv h.2) id, k.1, .inl k.2, fun h => k0.2.2.2 (i6 h), .inr ⟨k0.1, kv⟩⟩

/-- As long as no bound has ended without its partner, the only `RuntimeError` is about lines that do not intersect. -/
theorem fair_errors {lo hi : Int} (hM : Mated s0 A) (hX : ∀ y, InR lo hi y → ∀ b ∈ idsOf A, ∀ e ∈ (s0.bounds b).edges, e.getCurrentX y ≠ .nan)
    (hr : RowInv lo hi s) (hy : InR lo hi y ∨ s.scan ≠ []) {Y : Int} (hs : Walk Y s0 A rest s) (hg : Fair op sf cf s0 rest s) :
    Post (vattiStep op sf cf y rest) s (fun _ _ => True) OnlyCross := by
  have quietly : ∀ {α : Type} {m : M α} [Quiet m] {s : St}, Post m s (fun _ _ => True) OnlyCross := fun {α m q s} =>
    (Ok.quiet (Ok.intro (Q := fun _ _ => True) fun _ _ _ => trivial)).only
  unfold vattiStep
  refine Post.bind (((Ok.quiet (sk_popScan hr hy)).only.and (Ok.pres (R := Bare) inferInstance)).imp ?_)
  rintro y' s1 ⟨⟨-, hy'⟩, b1⟩
  have ha1 : act s1 = act s := by unfold act; rw [b1.1]
  have w1 := hs.sameAct ha1 b1.2.2
  have r1 : Reached op sf cf s1 := .step hg.reached (.quiet ha1 b1.2.1 fun b _ => by rw [b1.2.2]; exact ⟨rfl, rfl, rfl, rfl, rfl, rfl⟩)
  have f1 : Full s1 := by unfold Full; rw [b1.1]; exact hg.full
  refine Post.bind (((run_intersections (hX y' hy') (w1.run r1) f1).and
    (w1.stay (m := processIntersections y' op sf cf) (Q := fun _ s' => Walk Y s0 A rest s' ∧ Slots s1 s') fun _ _ w k => ⟨w, k⟩)).imp ?_)
  rintro _ s2 ⟨⟨r2, f2⟩, w2, k2⟩
  refine Post.bind (((Ok.quiet (Ok.pres (R := Bare) inferInstance)).only).imp fun _ s3 b3 => ?_)
  have r3 := r2.bare b3.1 b3.2.1 b3.2.2
  have st3 : ∀ b ∈ act s3, Steeped s3 b := by
    have ha3 : act s3 = act s2 := by unfold act; rw [b3.1]
    intro b hb e he
    rw [b3.2.2, k2.edge, b1.2.2] at he
    rw [ha3, k2.act.mem_iff, ha1] at hb
    exact hg.steep b hb e he
  refine Post.bind (Post.imp (Q := fun _ _ => True) ?_ fun r s4 _ => Post.bind (Post.imp quietly fun _ _ _ => Post.pure trivial))
  unfold processEdgesAtTopOfScanbeam
  refine Post.bind (Post.imp (fair_topLoop (y := y') hM r3 st3) fun _ s4 _ => ?_)
  have : Quiet (do
    ablFilter
    let minimums ← insertHorizontalLocalMinima op sf cf y' rest
    processHorizontals op sf cf y'
    let abl ← gets St.abl
    promoteIntermediate y' abl
    pure minimums : M (List LocalMinimum)) := by quiet
  exact quietly

end

end Wagyu
