import Verif.Proofs.SweepInsert

/-!
# Inserting a local minimum keeps the invariant
-/

namespace Wagyu

open Spec

section
variable {op : OperationKind} {sf cf : FillKind} {w : Wind}

theorem Wind.add_cancel (w : Wind) {a b : Bound} (hk : b.polygonKind = a.polygonKind) (hd : b.windingDelta = -a.windingDelta) :
    (w.add a).add b = w := by
  funext k
  simp only [Wind.add, hk, hd]
  split <;> omega

theorem largerAbs_swap {x d : Int} (hd : d = 1 ∨ d = -1) : largerAbs (x + d) (x + d + -d) = largerAbs x (x + d) := by
  unfold largerAbs
  rw [show x + d + -d = x by omega]
  rcases hd with rfl | rfl <;> split <;> split <;> omega

/-- The right bound of a local minimum has the same counts as the left one. -/
theorem WOk.partner {a b : Bound} (ha : WOk sf cf w a) (hk : b.polygonKind = a.polygonKind)
    (hd : b.windingDelta = -a.windingDelta) (hw : b.windingCount = a.windingCount)
    (ho : b.oppositeWindingCount = a.oppositeWindingCount) : WOk sf cf (w.add a) b := by
  have hown : (w.add a) a.polygonKind = w a.polygonKind + a.windingDelta := by simp [Wind.add]
  have hoth : (w.add a) (otherKind a.polygonKind) = w (otherKind a.polygonKind) := by
    simp [Wind.add, otherKind_ne]
  refine ⟨?_, ?_, ?_, ?_, ?_⟩
  · rw [hd]; rcases ha.unit with e | e <;> rw [e] <;> decide
  · rw [hk, hw, hown, hd]
    intro h
    rw [ha.own h, largerAbs_swap ha.unit]
  · rw [hk, hw]; exact ha.ownEvenOdd
  · rw [hk, ho, hoth]; exact ha.other
  · rw [hk, ho, hoth]; exact ha.otherEvenOdd

theorem COk.partner {a b : Bound} (ha : COk op sf cf w a) (hk : b.polygonKind = a.polygonKind)
    (hd : b.windingDelta = -a.windingDelta) (hr : b.ring.isSome = a.ring.isSome) : COk op sf cf (w.add a) b := by
  unfold COk at *
  rw [hr, ha, Wind.add_cancel w hk hd]
  exact ne_comm

/-- The counterpart: two neighbours of one polygon with opposite deltas agree on carrying a ring. -/
theorem COk.agree {a b : Bound} (ha : COk op sf cf w a) (hb : COk op sf cf (w.add a) b) (hk : b.polygonKind = a.polygonKind)
    (hd : b.windingDelta = -a.windingDelta) : b.ring.isSome = a.ring.isSome := by
  unfold COk at *
  rw [Wind.add_cancel w hk hd] at hb
  rw [Bool.eq_iff_iff, ha, hb]
  exact ne_comm

theorem findInsertIndex_ok (s : St) (l : Nat) : ∀ (bs : List (Option Nat)) (i : Nat),
    Ok (findInsertIndex l bs i) s fun q s' => s' = s ∧ i ≤ q ∧ q ≤ i + bs.length
  | [], i => ⟨rfl, by simp⟩
  | b :: rest, i => by
    rw [findInsertIndex]
    refine Post.bind (Post.deref (fun r _ => ?_) fun _ => trivial)
    refine Post.bind (Ok.intro fun c s' hc => ?_)
    have : s' = s := by
      have hp : Pres Eq (boundInsertLocation l r) := inferInstance
      have := hp.pres s
      rw [hc] at this
      exact this.symm
    subst this
    refine Post.ite (fun _ => ⟨rfl, by simp⟩) fun _ => ?_
    refine (findInsertIndex_ok s' l rest (i + 1)).imp ?_
    rintro q s'' ⟨h1, h2, h3⟩
    exact ⟨h1, by omega, by simp only [List.length_cons]; omega⟩

theorem insertBoundIntoAbl_ok (s : St) (l r : Nat) : Ok (insertBoundIntoAbl l r) s fun i s' =>
    i ≤ s.abl.length ∧ s' = { s with abl := s.abl.take i ++ some l :: some r :: s.abl.drop i } := by
  unfold insertBoundIntoAbl
  refine Post.bind (Post.gets (Post.bind ((findInsertIndex_ok s l s.abl 0).imp ?_)))
  rintro i s' ⟨rfl, -, h⟩
  exact Post.bind (Post.modify (Post.pure ⟨by omega, rfl⟩))

/-- What never changes of a bound. -/
def Static (s s' : St) : Prop := ∀ c, (s'.bounds c).polygonKind = (s.bounds c).polygonKind
  ∧ (s'.bounds c).windingDelta = (s.bounds c).windingDelta ∧ (s'.bounds c).maximumBound = (s.bounds c).maximumBound
  ∧ (s'.bounds c).edges = (s.bounds c).edges

theorem Static.refl (s : St) : Static s s := fun _ => ⟨rfl, rfl, rfl, rfl⟩
theorem Static.trans {a b c : St} (h : Static a b) (h' : Static b c) : Static a c := fun x =>
  ⟨(h' x).1.trans (h x).1, (h' x).2.1.trans (h x).2.1, (h' x).2.2.1.trans (h x).2.2.1, (h' x).2.2.2.trans (h x).2.2.2⟩
theorem Frame.static {s s' : St} (h : Frame s s') : Static s s' := fun c =>
  ⟨congrArg Core.polygonKind (h.core c), congrArg Core.windingDelta (h.core c), congrArg Core.maximumBound (h.core c),
    congrArg Core.edges (h.core c)⟩

/-- Nothing that matters changes: the invariant stays. -/
theorem SInv.same {s s' : St} (h : SInv op sf cf s) (hs : Same s s') : SInv op sf cf s' := by
  have hact : act s' = act s := by unfold act; rw [hs.abl]
  refine ⟨by rw [hact]; exact h.nodup, ?_, ?_⟩
  · rw [hact]
    refine allOk_congr _ _ (fun c _ => ?_) h.ok
    have := hs.core c
    exact ⟨core_kind this, core_delta this, core_wc this, core_owc this, by rw [core_ring this]⟩
  · have := h.ends
    unfold HotEnds at *
    simp only [hact, hs.nr, fun c => core_ring (hs.core c), fun c => core_side (hs.core c)]
    exact this

instance (y : Int) : Pres Same (insertScan y) := ⟨fun _ => ⟨rfl, rfl, fun _ => rfl⟩⟩

/-- Two bounds without ring but with the right counts put next to each other into the active bounds; a ring is opened
if they are on the border of the result. -/
theorem insert_inv {s t s' : St} {l r i : Nat} (hi : SInv op sf cf s)
    (habl : t.abl = s.abl.take i ++ some l :: some r :: s.abl.drop i) (hnr : t.nr = s.nr)
    (hl : l ∉ act s) (hr : r ∉ act s) (hlr : l ≠ r)
    (hrest : ∀ c, c ≠ l → c ≠ r → core (t.bounds c) = core (s.bounds c))
    (hrl : (t.bounds l).ring = none) (hrr : (t.bounds r).ring = none)
    (hwl : WOk sf cf (addAll (fun _ => 0) (((s.abl.take i).filterMap id).map s.bounds)) (t.bounds l))
    (hk : (t.bounds r).polygonKind = (t.bounds l).polygonKind) (hd : (t.bounds r).windingDelta = -(t.bounds l).windingDelta)
    (hw : (t.bounds r).windingCount = (t.bounds l).windingCount)
    (ho : (t.bounds r).oppositeWindingCount = (t.bounds l).oppositeWindingCount)
    (hs : if (t.bounds l).isContributing op sf cf then Opened t s' l r else s' = t) : SInv op sf cf s' := by
  set pre := (s.abl.take i).filterMap id with hpre
  set post := (s.abl.drop i).filterMap id with hpost
  have hacts : act s = pre ++ post := by
    unfold act
    conv_lhs => rw [← List.take_append_drop i s.abl]
    rw [List.filterMap_append]
  have hactt : act t = pre ++ l :: r :: post := by
    unfold act
    rw [habl, List.filterMap_append, List.filterMap_cons_some (b := l) (by rfl), List.filterMap_cons_some (b := r) (by rfl)]
  have hnd : (act t).Nodup := by
    rw [hactt]
    have h1 := hi.nodup
    rw [hacts] at h1 hl hr
    have hp : (pre ++ l :: r :: post).Perm (l :: r :: (pre ++ post)) :=
      (List.perm_middle).trans (List.Perm.cons _ List.perm_middle)
    rw [hp.nodup_iff, List.nodup_cons, List.nodup_cons]
    exact ⟨by simp only [List.mem_cons, not_or]; exact ⟨hlr, hl⟩, hr, h1⟩
  have hmem : ∀ c, c ∈ pre ∨ c ∈ post → c ≠ l ∧ c ≠ r := by
    intro c hc
    have : c ∈ act s := by rw [hacts]; exact List.mem_append.2 hc
    exact ⟨by rintro rfl; exact hl this, by rintro rfl; exact hr this⟩
  -- the invariant on rings before the opening
  have hE : HotEnds t := by
    have hE := hi.ends
    intro c hc q hq
    have hc' : c ≠ l ∧ c ≠ r := ⟨by rintro rfl; (rw [hrl] at hq; cases hq), by rintro rfl; (rw [hrr] at hq; cases hq)⟩
    have hin : ∀ d, d ∈ act t → d ≠ l → d ≠ r → d ∈ act s := by
      intro d hd h1 h2
      rw [hactt] at hd; rw [hacts]
      simp only [List.mem_append, List.mem_cons] at hd ⊢
      tauto
    have hout : ∀ d, d ∈ act s → d ∈ act t := by
      intro d hd
      rw [hacts] at hd; rw [hactt]
      simp only [List.mem_append, List.mem_cons] at hd ⊢
      tauto
    have hcs := hin c hc hc'.1 hc'.2
    have hcore := hrest c hc'.1 hc'.2
    obtain ⟨h1, d, h2, h3, h4, h5, h6⟩ := hE c hcs q (by rw [← core_ring hcore]; exact hq)
    have hd' : d ≠ l ∧ d ≠ r := ⟨by rintro rfl; exact hl h2, by rintro rfl; exact hr h2⟩
    have hcored := hrest d hd'.1 hd'.2
    refine ⟨by rw [hnr]; exact h1, d, hout d h2, h3, by rw [core_ring hcored]; exact h4,
      by rw [core_side hcored, core_side hcore]; exact h5, fun e he her => ?_⟩
    have he' : e ≠ l ∧ e ≠ r := ⟨by rintro rfl; (rw [hrl] at her; cases her), by rintro rfl; (rw [hrr] at her; cases her)⟩
    exact h6 e (hin e he he'.1 he'.2) (by rw [← core_ring (hrest e he'.1 he'.2)]; exact her)
  have hok := hi.ok
  rw [hacts, List.map_append, allOk_append] at hok
  -- whatever happens to `l` and `r`
  have fin : ∀ u : St, u.abl = t.abl → Frame t u → (∀ c, c ≠ l → c ≠ r → core (u.bounds c) = core (t.bounds c)) →
      ((u.bounds l).ring.isSome = (t.bounds l).isContributing op sf cf) →
      ((u.bounds r).ring.isSome = (t.bounds l).isContributing op sf cf) →
      AllOk op sf cf (fun _ => 0) ((act u).map u.bounds) := by
    intro u hu hf hur hul huright
    have hcl := hf.core l
    have hcr := hf.core r
    have ekl : (u.bounds l).polygonKind = (t.bounds l).polygonKind := congrArg Core.polygonKind hcl
    have ekr : (u.bounds r).polygonKind = (t.bounds r).polygonKind := congrArg Core.polygonKind hcr
    have edl : (u.bounds l).windingDelta = (t.bounds l).windingDelta := congrArg Core.windingDelta hcl
    have edr : (u.bounds r).windingDelta = (t.bounds r).windingDelta := congrArg Core.windingDelta hcr
    have ewl : (u.bounds l).windingCount = (t.bounds l).windingCount := congrArg Core.windingCount hcl
    have ewr : (u.bounds r).windingCount = (t.bounds r).windingCount := congrArg Core.windingCount hcr
    have eol : (u.bounds l).oppositeWindingCount = (t.bounds l).oppositeWindingCount := congrArg Core.oppositeWindingCount hcl
    have eor : (u.bounds r).oppositeWindingCount = (t.bounds r).oppositeWindingCount := congrArg Core.oppositeWindingCount hcr
    have hactu : act u = pre ++ l :: r :: post := by rw [← hactt]; unfold act; rw [hu]
    rw [hactu, List.map_append, List.map_cons, List.map_cons, allOk_append]
    have hcongr : ∀ c, c ∈ pre ∨ c ∈ post → (u.bounds c).polygonKind = (s.bounds c).polygonKind
        ∧ (u.bounds c).windingDelta = (s.bounds c).windingDelta ∧ (u.bounds c).windingCount = (s.bounds c).windingCount
        ∧ (u.bounds c).oppositeWindingCount = (s.bounds c).oppositeWindingCount
        ∧ (u.bounds c).ring.isSome = (s.bounds c).ring.isSome := by
      intro c hc
      obtain ⟨h1, h2⟩ := hmem c hc
      have := (hur c h1 h2).trans (hrest c h1 h2)
      exact ⟨core_kind this, core_delta this, core_wc this, core_owc this, by rw [core_ring this]⟩
    refine ⟨allOk_congr pre _ (fun c hc => hcongr c (Or.inl hc)) hok.1, ?_⟩
    rw [addAll_congr (f := s.bounds) pre _ fun c hc => ⟨(hcongr c (Or.inl hc)).1, (hcongr c (Or.inl hc)).2.1⟩]
    have hok2 := hok.2
    generalize addAll (fun _ => 0) (pre.map s.bounds) = w at *
    have wl : WOk sf cf w (u.bounds l) := wok_congr ekl edl ewl eol hwl
    have cl : COk op sf cf w (u.bounds l) := by
      unfold COk
      rw [hul, hwl.contributing, Wind.add_congr w ekl edl]
    have hk' : (u.bounds r).polygonKind = (u.bounds l).polygonKind := by rw [ekr, ekl, hk]
    have hd' : (u.bounds r).windingDelta = -(u.bounds l).windingDelta := by rw [edr, edl, hd]
    refine ⟨wl, cl, wl.partner hk' hd' (by rw [ewr, ewl, hw]) (by rw [eor, eol, ho]), cl.partner hk' hd' (by rw [hul, huright]), ?_⟩
    rw [Wind.add_cancel w hk' hd']
    exact allOk_congr post _ (fun c hc => hcongr c (Or.inr hc)) hok2
  have hmemt : l ∈ act t ∧ r ∈ act t := by rw [hactt]; simp
  split at hs
  · next hc =>
    have hact' : act s' = act t := by unfold act; rw [hs.frame.abl]
    refine ⟨by rw [hact']; exact hnd, fin s' hs.frame.abl hs.frame hs.rest (by rw [hs.fst, hc]; rfl) (by rw [hs.snd, hc]; rfl), ?_⟩
    exact HotEnds.rstep hE rfl rfl (fun _ => ⟨rfl, rfl⟩) (.opened hrl hrr hs) hlr hmemt.1 hmemt.2
  · next hc =>
    subst hs
    have hc : (s'.bounds l).isContributing op sf cf = false := by simpa using hc
    exact ⟨hnd, fin s' rfl (Frame.refl _) (fun _ _ _ => rfl) (by rw [hrl, hc]; rfl) (by rw [hrr, hc]; rfl), hE⟩

theorem insertLm_inv {s : St} {l r : Nat} (hi : SInv op sf cf s) (hl : l ∉ act s) (hr : r ∉ act s) (hlr : l ≠ r)
    (hrl : (s.bounds l).ring = none) (hrr : (s.bounds r).ring = none)
    (hu : (s.bounds l).windingDelta = 1 ∨ (s.bounds l).windingDelta = -1)
    (hk : (s.bounds r).polygonKind = (s.bounds l).polygonKind) (hd : (s.bounds r).windingDelta = -(s.bounds l).windingDelta) :
    Ok (insertLmLeftAndRightBound op sf cf l r) s fun _ s' => SInv op sf cf s' ∧ s.nr ≤ s'.nr ∧ Static s s'
      ∧ ∃ i, i ≤ s.abl.length ∧ s'.abl = s.abl.take i ++ some l :: some r :: s.abl.drop i := by
  unfold insertLmLeftAndRightBound
  refine Post.bind ((insertBoundIntoAbl_ok s l r).imp ?_)
  rintro i s1 ⟨hil, rfl⟩
  have hlen : (s.abl.take i).length = i := by simp; omega
  have htake : (s.abl.take i ++ some l :: some r :: s.abl.drop i).take i = s.abl.take i := by
    rw [List.take_append_of_le_length (by omega)]; simp
  have hget : (s.abl.take i ++ some l :: some r :: s.abl.drop i)[i]? = some (some l) := by
    rw [List.getElem?_append_right (by omega), hlen]; simp
  have hok := hi.ok
  unfold act at hok
  rw [← List.take_append_drop i s.abl, List.filterMap_append, List.map_append, allOk_append] at hok
  refine Post.bind ((setWindingCount_ok (op := op) (sf := sf) (cf := cf) { s with abl := s.abl.take i ++ some l :: some r :: s.abl.drop i } i l hget (by show AllOk op sf cf _ _; dsimp only; first | exact hok.1 | (rw [htake]; exact hok.1)) hu).imp ?_)
  rintro _ s2 ⟨wc, owc, rfl, hw⟩
  rw [htake] at hw
  refine Post.bind (Post.getBound (Post.bind (Post.modBound ?_)))
  dsimp only
  obtain ⟨t, ht⟩ : ∃ t : St, t = { s with
      abl := s.abl.take i ++ some l :: some r :: s.abl.drop i
      bounds := upd (upd s.bounds l { s.bounds l with windingCount := wc, oppositeWindingCount := owc }) r
        { s.bounds r with windingCount := wc, oppositeWindingCount := owc } } := ⟨_, rfl⟩
  have e : ∀ P : St → Prop, P t → P { s with
      abl := s.abl.take i ++ some l :: some r :: s.abl.drop i
      bounds := upd (upd s.bounds l { s.bounds l with windingCount := wc, oppositeWindingCount := owc }) r
        { upd s.bounds l { s.bounds l with windingCount := wc, oppositeWindingCount := owc } r with
          windingCount := (upd s.bounds l { s.bounds l with windingCount := wc, oppositeWindingCount := owc } l).windingCount
          oppositeWindingCount := (upd s.bounds l { s.bounds l with windingCount := wc, oppositeWindingCount := owc } l).oppositeWindingCount } } := by
    intro P hP
    rw [upd_same, upd_ne _ _ hlr.symm, ← ht]
    exact hP
  refine e (fun x => Post _ x _ _) ?_
  have hl' : t.bounds l = { s.bounds l with windingCount := wc, oppositeWindingCount := owc } := by
    rw [ht]; show upd _ _ _ _ = _; rw [upd_ne _ _ hlr, upd_same]
  have hr' : t.bounds r = { s.bounds r with windingCount := wc, oppositeWindingCount := owc } := by
    rw [ht]; show upd _ _ _ _ = _; rw [upd_same]
  have hc' : ∀ c, c ≠ l → c ≠ r → t.bounds c = s.bounds c := by
    intro c h1 h2
    rw [ht]; show upd _ _ _ _ = _; rw [upd_ne _ _ h2, upd_ne _ _ h1]
  have hst : Static s t := by
    intro c
    by_cases h1 : c = l
    · subst h1; rw [hl']; exact ⟨rfl, rfl, rfl, rfl⟩
    · by_cases h2 : c = r
      · subst h2; rw [hr']; exact ⟨rfl, rfl, rfl, rfl⟩
      · rw [hc' c h1 h2]; exact ⟨rfl, rfl, rfl, rfl⟩
  have habl : t.abl = s.abl.take i ++ some l :: some r :: s.abl.drop i := by rw [ht]
  have hnr : t.nr = s.nr := by rw [ht]
  have inv : ∀ s', (if (t.bounds l).isContributing op sf cf then Opened t s' l r else s' = t) → SInv op sf cf s' := fun s' h =>
    insert_inv hi habl hnr hl hr hlr (fun c h1 h2 => by rw [hc' c h1 h2]) (by rw [hl']; exact hrl) (by rw [hr']; exact hrr)
      (by rw [hl']; exact hw) (by rw [hr', hl']; exact hk) (by rw [hr', hl']; exact hd) (by rw [hr', hl']) (by rw [hr', hl']) h
  clear ht e
  refine Post.bind (Post.getBound ?_)
  have tail : ∀ s', SInv op sf cf s' → s.nr ≤ s'.nr → Static s s' → s'.abl = t.abl →
      Ok (do
        let le ← currentEdge l
        insertScan le.top.y
        let re ← currentEdge r
        if re.isHorizontal then pure () else insertScan re.top.y) s' fun _ s' => SInv op sf cf s' ∧ s.nr ≤ s'.nr ∧ Static s s'
      ∧ ∃ i, i ≤ s.abl.length ∧ s'.abl = s.abl.take i ++ some l :: some r :: s.abl.drop i := by
    intro s' h1 h2 h3 h4
    have hp : Pres Same (do
        let le ← currentEdge l
        insertScan le.top.y
        let re ← currentEdge r
        if re.isHorizontal then pure () else insertScan re.top.y) := by pres
    refine (Post.of_pres hp).mono (fun _ s'' hs => ?_) fun _ _ _ => trivial
    exact ⟨h1.same hs, by rw [hs.nr]; exact h2, h3.trans hs.frame.static, i, hil, by rw [hs.abl, h4, habl]⟩
  refine Post.ite (fun hc => ?_) fun hc => ?_
  · refine Ok.same fun e s1 hs1 => ?_
    refine Post.bind ((addLocalMinimumPoint_ok s1 e.bottom hlr ?_ ?_).imp fun _ s2 ho => ?_)
    · rw [core_ring (hs1.core l), hl']; exact hrl
    · rw [core_ring (hs1.core r), hr']; exact hrr
    have ho' : Opened t s2 l r := by
      obtain ⟨a1, a2, a3, a4, a5, a6⟩ := ho
      exact ⟨hs1.frame.trans a1, by rw [a2, hs1.nr], by rw [a3, hs1.nr], by rw [a4, hs1.nr], a5,
        fun c h1 h2 => (a6 c h1 h2).trans (hs1.core c)⟩
    exact tail s2 (inv s2 (by rw [if_pos hc]; exact ho')) (by rw [← hnr]; exact ho'.frame.nr) (hst.trans ho'.frame.static) ho'.frame.abl
  · exact tail t (inv t (by rw [if_neg hc])) hnr.ge hst rfl

end

end Wagyu
