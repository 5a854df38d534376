import Verif.Proofs.SweepFairTop

/-!
# Horizontal edges when bounds may end in horizontal edges
-/

namespace Wagyu

open Spec

/-- A bound has ended, in a horizontal edge, without its partner, which still has to end in an edge that is not horizontal. -/
def Orphan (s0 : St) (A rest : List LocalMinimum) (s : St) : Prop :=
  ∃ b m, b ∈ idsOf A ∧ (s0.bounds b).maximumBound = some m ∧ ¬ FlatTop s0 m ∧ b ∉ act s ∧ b ∉ idsOf rest ∧ (m ∈ act s ∨ m ∈ idsOf rest) ∧ FlatTop s0 b

/-- The partner of every active bound is active or still to come. -/
def Paired (s0 : St) (rest : List LocalMinimum) (s : St) : Prop :=
  ∀ b ∈ act s, ∀ m, (s0.bounds b).maximumBound = some m → m ∈ act s ∨ m ∈ idsOf rest

/-- A horizontal current edge is on the scanline, and the bound is not about to start a horizontal edge; if it ends here, its
partner ends in a horizontal edge; the current edge does not end below the scanline. -/
structure Seen (s0 : St) (y : Int) (s : St) (b : Nat) : Prop where
  looked : Looked y s b
  flat : TopS y s b → ∀ m, (s0.bounds b).maximumBound = some m → FlatTop s0 m
  span : ∀ e, (s.bounds b).currentEdge? = some e → e.top.y ≤ y

theorem Seen.same {s0 s s' : St} {y : Int} {b : Nat} (h : Seen s0 y s b) (k : SamePlace (s.bounds b) (s'.bounds b)) : Seen s0 y s' b := by
  refine ⟨h.looked.same k, ?_, ?_⟩
  · rw [k.topS]; exact h.flat
  · rw [k.edge]; exact h.span
theorem Seen.eq {s0 s s' : St} {y : Int} {b : Nat} (h : Seen s0 y s b) (k : s'.bounds b = s.bounds b) : Seen s0 y s' b := by
  refine ⟨h.looked.eq k, ?_, ?_⟩
  · have := h.flat; unfold TopS AtTop Steeped at *; rw [k]; exact this
  · rw [k]; exact h.span
/-- A bound on an edge that starts on the scanline and is not horizontal. -/
theorem Seen.fresh {s0 s : St} {y : Int} {b : Nat} {es : List Edge} (hpath : Path es)
    (key : ∀ f, (s.bounds b).currentEdge? = some f → f.isHorizontal = false ∧ f.bottom.y = y ∧ f ∈ es) : Seen s0 y s b := by
  refine ⟨⟨fun f hf hf' => ?_, fun f f' hf hf' hy' => ?_⟩, fun ht => ?_, fun f hf => ?_⟩
  · rw [(key f hf).1] at hf'; cases hf'
  · obtain ⟨l1, l2, l3⟩ := key f hf
    exfalso
    have := (hpath.hor f l3).2 (by rw [hy', l2])
    rw [l1] at this; cases this
  · obtain ⟨⟨-, f, hf, hfy⟩, -⟩ := ht
    obtain ⟨l1, l2, l3⟩ := key f hf
    exfalso
    have := (hpath.hor f l3).2 (by rw [hfy, l2])
    rw [l1] at this; cases this
  · obtain ⟨l1, l2, l3⟩ := key f hf
    have := hpath.le f l3
    omega

/-- A bound has ended on a horizontal edge, and its partner has not. -/
def Dropped (s0 s s' : St) : Prop :=
  ∃ b ∈ act s, b ∉ act s' ∧ FlatTop s0 b ∧ ∀ m, (s0.bounds b).maximumBound = some m → m ∈ act s → m ∈ act s'

section
variable {op : OperationKind} {sf cf : FillKind} {s0 : St} {A rest : List LocalMinimum} {s : St} {α β : Type} {y : Int} {g : Prop}

theorem Orphan.drops {s' : St} (hM : Mated s0 A) (h : Orphan s0 A rest s) (k : Drops s0 s s') : Orphan s0 A rest s' := by
  obtain ⟨b, m, h1, h2, h3, h4, h5, h6, h7⟩ := h
  refine ⟨b, m, h1, h2, h3, fun hb => h4 (k.sub b hb), h5, ?_, h7⟩
  rcases h6 with h6 | h6
  · by_cases hm : m ∈ act s'
    · exact .inl hm
    · rcases k.gone m h6 hm with ⟨m', k1, k2, -⟩ | k1
      · rw [hM.back h1 h2] at k2; cases k2
        exact absurd k1 h4
      · exact absurd k1 h3
  · exact .inr h6

theorem Paired.drops {s' : St} (hM : Mated s0 A) (hw : Walk y s0 A rest s) (h : Paired s0 rest s) (k : Drops s0 s s') : Paired s0 rest s' ∨ Orphan s0 A rest s' := by
  by_cases hp : Paired s0 rest s'
  · exact .inl hp
  · right
    unfold Paired at hp
    push Not at hp
    obtain ⟨b, hb, m, h1, h2, h3⟩ := hp
    have hbs := k.sub b hb
    have hbA := (hw.act b hbs).1
    have hm : m ∈ act s := (h b hbs m h1).resolve_right h3
    have h4 := hM.back hbA h1
    have hmA := (hw.act m hm).1
    rcases k.gone m hm h2 with ⟨m', -, k2, k3⟩ | k1
    · rw [h4] at k2; cases k2; exact absurd hb k3
    · exact ⟨m, b, hmA, h4, hM.oneFlat m hmA b h4 k1, h2, h3, .inl hb, k1⟩

theorem Dropped.orphan {s' : St} (hM : Mated s0 A) (hw : Walk y s0 A rest s) (h : Paired s0 rest s) (k : Dropped s0 s s') : Orphan s0 A rest s' := by
  obtain ⟨b, h1, h2, h3, h4⟩ := k
  obtain ⟨hbA, hbr⟩ := hw.act b h1
  obtain ⟨m, -, m1, m2, -⟩ := hM.closed b hbA
  exact ⟨b, m, hbA, m1, hM.oneFlat b hbA m m1 h3, h2, hbr, (h b h1 m m1).imp (h4 m m1) id, h3⟩

/-- While the bound `b`, at position `bi`, moves along its horizontal edge. -/
structure Flow (y : Int) (g : Prop) (op : OperationKind) (sf cf : FillKind) (s0 : St) (A rest : List LocalMinimum) (s : St) (b bi : Nat) (s' : St) : Prop where
  walk : Walk y s0 A rest s'
  reach : g → Reached op sf cf s'
  put : Put s s'
  perm : (act s').Perm (act s)
  pos : s'.abl[bi]? = some (some b)

theorem Same.static {s s' : St} (k : Same s s') : Static s s' := fun b => ⟨core_kind (k.core b), core_delta (k.core b), core_max (k.core b), core_edges (k.core b)⟩

theorem Same.reached {s' : St} (k : Same s s') (h : Reached op sf cf s) : Reached op sf cf s' :=
  .step h (.quiet (by unfold act; rw [k.abl]) k.nr fun b _ =>
    ⟨core_kind (k.core b), core_delta (k.core b), core_wc (k.core b), core_owc (k.core b), core_ring (k.core b), core_side (k.core b)⟩)

theorem Flow.add {m : M α} [h1 : Pres Same m] [h2 : Pres Still m] {Q : α → St → Prop} {b bi : Nat} {s1 : St} (h : Flow y g op sf cf s0 A rest s b bi s1)
    (k : ∀ a s2, Flow y g op sf cf s0 A rest s b bi s2 → s2.abl = s1.abl → Q a s2) : Ok m s1 Q := by
  refine Ok.intro fun a s2 e => ?_
  have hs : Same s1 s2 := by have := h1.pres s1; rw [e] at this; exact this
  have hp : Still s1 s2 := by have := h2.pres s1; rw [e] at this; exact this
  refine k a s2 ⟨h.walk.slots hp.slots hs.static, fun hg => hs.reached (h.reach hg), Preo.trans h.put hp.bound, hp.slots.act.trans h.perm, ?_⟩ hp.abl
  rw [hp.abl]; exact h.pos

theorem Flow.passRight {b bi c len n i : Nat} {stop : Point → M Bool} (h1 : ∀ p, Pres Same (stop p)) (h2 : ∀ p, Pres Still (stop p)) {s1 : St}
    {Q : Nat → St → Prop} (h : Flow y g op sf cf s0 A rest s b bi s1) (k : ∀ a s2, Flow y g op sf cf s0 A rest s b bi s2 → s2.abl = s1.abl → Q a s2) :
    Ok (passHotPixelsRight c stop len n i) s1 Q := h.add k
theorem Flow.passLeft {b bi c i : Nat} {stop : Point → M Bool} (h1 : ∀ p, Pres Same (stop p)) (h2 : ∀ p, Pres Still (stop p)) {s1 : St}
    {Q : Nat → St → Prop} (h : Flow y g op sf cf s0 A rest s b bi s1) (k : ∀ a s2, Flow y g op sf cf s0 A rest s b bi s2 → s2.abl = s1.abl → Q a s2) :
    Ok (passHotPixelsLeft c stop i) s1 Q := h.add k

theorem Walk.cross {s1 : St} {p : Point} {i j a c : Nat} (h : Walk y s0 A rest s1) (hr : g → Reached op sf cf s1) (hadj : Adjacent s1 i j a c) {Q : Unit → St → Prop}
    (k : ∀ s2, Walk y s0 A rest s2 → (g → Reached op sf cf s2) → Put s1 s2 → (Wagyu.act s2).Perm (Wagyu.act s1) → s2.abl = (s1.abl.set i (some c)).set j (some a) → Q () s2) :
    Ok (intersectBounds p op sf cf a c) s1 fun _ s2 => Ok (ablSwap i j) s2 Q := by
  refine Ok.intro fun _ s2 e2 => Ok.intro fun _ s3 e3 => ?_
  have a1 := (Walk.stay (m := intersectBounds p op sf cf a c) (Q := fun _ s' => Walk y s0 A rest s' ∧ Slots s1 s') h fun _ _ w k => ⟨w, k⟩).elim e2
  have a2 := (Walk.stay (m := ablSwap i j) (Q := fun _ s' => Walk y s0 A rest s' ∧ Slots s2 s') a1.1 fun _ _ w k => ⟨w, k⟩).elim e3
  have p1 : Put s1 s2 := (Ok.pres (m := intersectBounds p op sf cf a c) (R := Put) inferInstance).elim e2
  have p2 : Put s2 s3 := (Ok.pres (m := ablSwap i j) (R := Put) inferInstance).elim e3
  have hab := ((ok_abl_crossing (op := op) (sf := sf) (cf := cf) (s := s1) (p := p) (a := a) (b := c) (i := i) (j := j)).elim e2).elim e3
  obtain ⟨-, -, x, z, l3, l4, l5⟩ := hab
  rw [hadj.fst] at l3; cases l3
  rw [hadj.snd] at l4; cases l4
  exact k s3 a2.1 (fun hg => (((crossing_event (p := p) (hr hg) hadj).elim e2).elim e3).1) (Preo.trans p1 p2) (a2.2.act.trans a1.2.act) l5

/-- Two partners end. -/
theorem close_reached {s1 : St} {i j a b : Nat} (h : Reached op sf cf s1) (hadj : Adjacent s1 i j a b ∨ Adjacent s1 j i b a) (hp : Partners s1 a b) :
    (∀ p s3, ((s1.bounds a).ring.isSome ∧ (s1.bounds b).ring.isSome) → addLocalMaximumPoint p a b s1 = .ok () s3 →
      Reached op sf cf { s3 with abl := (s3.abl.set j none).set i none })
    ∧ (¬ ((s1.bounds a).ring.isSome ∧ (s1.bounds b).ring.isSome) → Reached op sf cf { s1 with abl := (s1.abl.set j none).set i none }) := by
  have hne : i ≠ j := by rcases hadj with h | h <;> have := h.lt <;> omega
  refine ⟨fun p s3 hc hr => ?_, fun hc => ?_⟩
  · refine .step h (.maximum p i j a b hadj hp ?_)
    show (if (s1.bounds a).ring.isSome = true ∧ (s1.bounds b).ring.isSome = true then _ else _ : M Unit) s1 = _
    rw [if_pos hc, run_bind, hr, List.set_comm _ _ hne.symm]
    rfl
  · refine .step h (.maximum default i j a b hadj hp ?_)
    show (if (s1.bounds a).ring.isSome = true ∧ (s1.bounds b).ring.isSome = true then _ else _ : M Unit) s1 = _
    rw [if_neg hc, List.set_comm _ _ hne.symm]
    rfl

theorem Flow.close {b c bi ni : Nat} {s1 : St} (h : Flow y g op sf cf s0 A rest s b bi s1) (hn : s1.abl[ni]? = some (some c)) (hne : ni ≠ bi)
    (hadj : Adjacent s1 bi ni b c ∨ Adjacent s1 ni bi c b) (h1 : (s0.bounds b).maximumBound = some c)
    (h2 : (s0.bounds c).maximumBound = some b) (hp : Partners s0 b c) (t1 : Topped y s0 b) (t2 : Topped y s0 c) {x : β} {Q : β → St → Prop}
    (k : ∀ s2, Walk y s0 A rest s2 → (g → Reached op sf cf s2) → Drops s0 s s2 → Put s s2 → b ∉ act s2 → s2.abl = (s1.abl.set ni none).set bi none → Q x s2) :
    Ok (do
      let __do_lift ← getBound b
      let __do_lift_1 ← getBound c
      if __do_lift.ring.isSome = true ∧ __do_lift_1.ring.isSome = true then do
          let e ← currentEdge b
          addLocalMaximumPoint e.top b c
          ablSet ni none
          ablSet bi none
          pure x
        else do
          ablSet ni none
          ablSet bi none
          pure x : M β) s1 Q := by
  have fin : ∀ s3, Flow y False op sf cf s0 A rest s b bi s3 → s3.abl = s1.abl → (g → Reached op sf cf { s3 with abl := (s3.abl.set ni none).set bi none }) → Ok (do
      ablSet ni none
      ablSet bi none
      pure x : M β) s3 Q := by
    intro s3 h3 a3 hr
    obtain ⟨w, d⟩ := h3.walk.pair (by rw [a3]; exact hn) h3.pos hne h2 h1 t2 t1
    refine Post.bind (Post.modify (Post.bind (Post.modify (Post.pure (k _ w hr ?_ ?_ ?_ ?_)))))
    · exact Drops.trans ⟨fun c hc => h3.perm.mem_iff.1 hc, fun c hc hn => absurd (h3.perm.mem_iff.2 hc) hn⟩ d
    · exact h3.put
    · intro hb
      rw [mem_act] at hb
      have hb : some b ∈ (s3.abl.set ni none).set bi none := hb
      have hp3 : (s3.abl.set ni none)[bi]? = some (some b) := by rw [List.getElem?_set_ne hne]; exact h3.pos
      exact ((mem_set_none (nodup_set_none h3.walk.nodup ni) hp3 b).1 hb).2 rfl
    · show (s3.abl.set ni none).set bi none = _
      rw [a3]
  have hp1 := h.walk.static.partners hp
  refine Post.bind (Post.getBound (Post.bind (Post.getBound (Post.ite (fun hc => ?_) fun hc => ?_))))
  · refine Post.bind (Ok.look fun e _ => Post.bind (Ok.intro fun _ s3 e3 => ?_))
    have hk : Still s1 s3 := (Ok.pres (m := addLocalMaximumPoint e.top b c) (R := Still) inferInstance).elim e3
    have hw := (Walk.stay (m := addLocalMaximumPoint e.top b c) (Q := fun _ s' => Walk y s0 A rest s' ∧ Slots s1 s') h.walk fun _ _ w k => ⟨w, k⟩).elim e3
    exact fin s3 ⟨hw.1, nofun, Preo.trans h.put hk.bound, hw.2.act.trans h.perm, by rw [hk.abl]; exact h.pos⟩ hk.abl fun hg => (close_reached (h.reach hg) hadj hp1).1 _ _ hc e3
  · exact fin s1 ⟨h.walk, nofun, h.put, h.perm, h.pos⟩ rfl fun hg => (close_reached (h.reach hg) hadj hp1).2 hc

theorem Flow.drops {b bi : Nat} {s1 : St} (h : Flow y g op sf cf s0 A rest s b bi s1) : Drops s0 s s1 :=
  ⟨fun _ hc => h.perm.mem_iff.1 hc, fun _ hc hn => absurd (h.perm.mem_iff.2 hc) hn⟩

/-- At the end of the horizontal edge. -/
structure FlatEnd (g : Prop) (op : OperationKind) (sf cf : FillKind) (s0 : St) (y : Int) (s : St) (b : Nat) (e : Edge) (s' : St) : Prop where
  reach : g → Reached op sf cf s'
  other : ∀ c, c ≠ b → SamePlace (s.bounds c) (s'.bounds c)
  steep : Steeped s' b
  seen : e.bottom.y = y → Seen s0 y s' b

theorem Flow.finish (hM : Mated s0 A) {b bi : Nat} {s1 : St} {e : Edge} (h : Flow y g op sf cf s0 A rest s b bi s1) (he : (s.bounds b).currentEdge? = some e)
    (hh : e.isHorizontal = true) :
    Ok (finishHorizontal b bi) s1 fun _ s' => Walk y s0 A rest s' ∧ Drops s0 s s' ∧ ((s'.abl = s1.abl ∧ FlatEnd g op sf cf s0 y s b e s') ∨ Dropped s0 s s') := by
  unfold finishHorizontal
  have fin : ∀ s2, Flow y g op sf cf s0 A rest s b bi s2 → s2.abl = s1.abl → Ok (do
      let bd ← getBound b
      if bd.nxtIdx < bd.edges.length then toNextEdge b else ablSet bi none : M Unit) s2 fun _ s' => Walk y s0 A rest s' ∧ Drops s0 s s'
        ∧ ((s'.abl = s1.abl ∧ FlatEnd g op sf cf s0 y s b e s') ∨ Dropped s0 s s') := by
    intro s2 h2 a2
    have hb2 : b ∈ act s2 := mem_act.2 (List.mem_of_getElem? h2.pos)
    have hbA := (h2.walk.act b hb2).1
    have hpath := hM.path b hbA
    have he2 : (s2.bounds b).currentEdge? = some e := by rw [(h2.put b).edge]; exact he
    refine Post.bind (Post.getBound (Post.ite (fun hl => ?_) fun hl => Post.modify ?_))
    · have hr : Ok (toNextEdge b) s2 fun _ s' => g → Reached op sf cf s' := by
        by_cases hg : g
        · exact Ok.only ((h2.walk.run (h2.reach hg)).next hb2 hl fun s3 h3 _ _ _ _ _ => h3.reached)
        · exact Ok.intro fun _ _ _ h => absurd h hg
      have hbot : ∀ f, (s2.bounds b).nextEdge? = some f → y ≤ f.bottom.y := by
        intro f hf
        rw [h2.walk.next_bottom hM hb2 he2 hf, (hpath.hor e (List.mem_of_getElem? (by rw [← h2.walk.static.edges]; exact he2))).1 hh]
        exact h2.walk.low b hb2 e he2
      refine Post.imp (hr.and (h2.walk.next (Q := fun _ s3 => Walk y s0 A rest s3 ∧ s3.abl = s2.abl ∧ (∀ c, c ≠ b → s3.bounds c = s2.bounds c) ∧ (s3.bounds b).edges = (s2.bounds b).edges
          ∧ (s3.bounds b).currentEdge? = (s2.bounds b).nextEdge? ∧ (s3.bounds b).curIdx = (s2.bounds b).curIdx + 1) hb2 hl hbot fun s3 w3 k1 k2 k3 k4 k5 =>
        ⟨w3, k1, k2, k3, k4, k5⟩)) ?_
      rintro _ s3 ⟨hr3, w3, k1, k2, k3, k4, k5⟩
      refine ⟨w3, h2.drops.trans ⟨fun c hc => by rw [mem_act, k1] at hc; exact mem_act.2 hc, fun c hc hn => absurd (by rw [mem_act, k1]; exact mem_act.1 hc) hn⟩,
        .inl ⟨k1.trans a2, hr3, fun c hc => by rw [k2 c hc]; exact h2.put c, ?_, ?_⟩⟩
      · intro f hf
        rw [k4] at hf
        have := (hpath.step (i := (s2.bounds b).curIdx) (e := e) (f := f) (by rw [← h2.walk.static.edges]; exact he2)
          (by rw [← h2.walk.static.edges, ← h2.walk.idx b hb2]; exact hf)).2
        by_contra hx
        exact this ⟨hh, by simpa using hx⟩
      · intro hy
        have key : ∀ f, (s3.bounds b).currentEdge? = some f → f.isHorizontal = false ∧ f.bottom.y = y ∧ f ∈ (s0.bounds b).edges := by
          intro f hf
          rw [k4] at hf
          have hf' : (s0.bounds b).edges[(s2.bounds b).curIdx + 1]? = some f := by rw [← h2.walk.static.edges, ← h2.walk.idx b hb2]; exact hf
          have he' : (s0.bounds b).edges[(s2.bounds b).curIdx]? = some e := by rw [← h2.walk.static.edges]; exact he2
          have := hpath.step he' hf'
          refine ⟨by by_contra hx; exact this.2 ⟨hh, by simpa using hx⟩, ?_, List.mem_of_getElem? hf'⟩
          have hh' := (hpath.hor e (List.mem_of_getElem? he')).1 hh
          rw [← this.1, hh', hy]
        exact Seen.fresh hpath key
    · have hcur := (List.getElem?_eq_some_iff.1 he2).1
      have hidx := h2.walk.idx b hb2
      have hflat : FlatTop s0 b := by
        refine ⟨e, ?_, hh⟩
        rw [List.getLast?_eq_getElem?, ← h2.walk.static.edges b]
        have : (s2.bounds b).edges.length - 1 = (s2.bounds b).curIdx := by omega
        rw [this]; exact he2
      obtain ⟨w, d, hmem⟩ := h2.walk.alone h2.pos hflat (h2.walk.topped hb2 he2 hl (by
        rw [(hpath.hor e (List.mem_of_getElem? (by rw [← h2.walk.static.edges]; exact he2))).1 hh]; exact h2.walk.low b hb2 e he2))
      refine ⟨w, h2.drops.trans d, .inr ⟨b, h2.perm.mem_iff.1 hb2, fun hb => ((hmem b).1 hb).2 rfl, hflat, fun m hm hma => (hmem m).2 ⟨h2.perm.mem_iff.2 hma, ?_⟩⟩⟩
      exact (hM.ne hbA hm).symm
  refine Post.bind (Post.getBound (Post.ite (fun _ => ?_) fun _ => fin s1 h rfl))
  exact Post.bind (Ok.look fun e _ => Post.bind (h.add fun _ s2 h2 a2 => fin s2 h2 a2))

theorem Ok.partner {b : Nat} {Q : Bool × Nat → St → Prop}
    (k : ∀ r n, (r = true → n ≠ s.abl.length → s.abl[n]? = some (s.bounds b).maximumBound) → (r = true → AtTop y s b) → Q (r, n) s) : Ok (horizontalPartner b y) s Q := by
  unfold horizontalPartner
  refine Post.bind (Ok.isMaxima fun r hr => Post.bind (Post.gets (Post.ite (fun h => ?_) fun _ => Post.pure (k _ _ nofun nofun))))
  exact Post.bind (Post.getBound (Post.pure (k _ _ (fun _ hn => findIdentity_get hn) fun _ => hr.1 h)))

/-- What is known after a horizontal edge of a bound has been passed: the positions before `r` need not be looked at. -/
def FlatOut (g : Prop) (op : OperationKind) (sf cf : FillKind) (s0 : St) (A rest : List LocalMinimum) (y : Int) (s : St) (r : Nat) (s' : St) : Prop :=
  Walk y s0 A rest s' ∧ Drops s0 s s' ∧ (g → (Reached op sf cf s' ∧ (∀ c ∈ act s', Seen s0 y s' c) ∧ ∀ k c, k < r → s'.abl[k]? = some (some c) → Steeped s' c) ∨ Dropped s0 s s')

set_option maxHeartbeats 1600000 in
theorem fair_ltr (hM : Mated s0 A) {b boundIdx : Nat} {e0 : Edge} (hs : Walk y s0 A rest s) (hb : s.abl[boundIdx]? = some (some b))
    (he0 : (s.bounds b).currentEdge? = some e0) (hh : e0.isHorizontal = true)
    (hg : g → Reached op sf cf s ∧ (∀ c ∈ act s, Seen s0 y s c) ∧ ∀ k c, k < boundIdx → s.abl[k]? = some (some c) → Steeped s c) :
    Ok (processHorizontalLeftToRight op sf cf y boundIdx) s (FlatOut g op sf cf s0 A rest y s) := by
  unfold processHorizontalLeftToRight
  refine Post.bind (Ok.ablGet fun o ho => Post.bind (Post.deref (fun c hc => ?_) fun _ => trivial))
  obtain rfl : c = b := by rw [hb, hc] at ho; simpa using ho.symm
  have hcA := (hs.act c (mem_act.2 (List.mem_of_getElem? hb))).1
  obtain ⟨mb, -, m1, m2, m3⟩ := hM.closed c hcA
  refine Post.bind (Ok.partner fun isMax maxIdx hmax hat => ?_)
  have ht : isMax = true → Topped y s0 c := fun h => hs.at_top (mem_act.2 (List.mem_of_getElem? hb)) (hat h)
  rw [(hs.static c).2.2.1, m1] at hmax
  dsimp only
  refine Post.bind (Post.gets (Post.bind (Ok.look fun cur _ => Post.bind (Ok.look fun e _ => Post.bind (Ok.look fun hp0 _ => Post.bind (Post.gets ?_))))))
  refine Post.bind (Post.imp (Q := fun r s' => match r with
    | .inl v => Walk y s0 A rest s' ∧ (g → Reached op sf cf s') ∧ Drops s0 s s' ∧ Put s s' ∧ c ∉ act s' ∧ (∀ k, k < boundIdx → s'.abl[k]? = s.abl[k]?)
        ∧ (v = boundIdx ∨ v = boundIdx + 1 ∧ s'.abl[boundIdx]? = some none)
    | .inr (bi, _, shifted) => Flow y g op sf cf s0 A rest s c bi s' ∧ (∀ k, k < boundIdx → s'.abl[k]? = s.abl[k]?) ∧ (shifted = false → bi = boundIdx)) ?_ ?_)
  · refine Post.forElse (fun (st : Nat × Nat × Bool × Nat) s' => Flow y g op sf cf s0 A rest s c st.1 s' ∧ st.1 < st.2.2.2 ∧
      (∀ k, st.1 < k → k < st.2.2.2 → s'.abl[k]? = some none) ∧ (∀ k, st.2.2.2 ≤ k → s'.abl[k]? = s.abl[k]?) ∧ (∀ k, k < boundIdx → s'.abl[k]? = s.abl[k]?) ∧ boundIdx ≤ st.1
      ∧ (st.2.2.1 = false → st.1 = boundIdx)) ?_ ?_ _ _ _
      ⟨⟨hs, fun h => (hg h).1, Preo.refl _, .refl _, hb⟩, Nat.lt_succ_self _, fun k h1 h2 => absurd h2 (by dsimp only at h1 ⊢; omega), fun _ _ => rfl, fun _ _ => rfl, Nat.le_refl _, fun _ => rfl⟩
    · rintro ⟨bi, hp, shifted, ni⟩ s1 ⟨h1, h2, h3, h4, h5, h6, h7⟩
      dsimp only at h1 h2 h3 h4 h6 h7 ⊢
      refine Post.bind (Ok.ablGet fun o ho => ?_)
      cases o with
      | none =>
        refine Post.pure ⟨h1, by dsimp only; omega, fun k l1 l2 => ?_, fun k l => h4 k (by dsimp only at l; omega), h5, h6, h7⟩
        dsimp only at l1 l2
        by_cases e : k = ni
        · subst e; exact ho
        · exact h3 k l1 (by omega)
      | some nb =>
        dsimp only
        refine Post.bind (Flow.passRight (fun p => by pres) (fun p => by pres) h1 fun hp s2 h12 a2 => ?_)
        refine Post.bind (Post.getBound (Post.bind (Ok.look fun e _ => ?_)))
        refine Post.ite (fun _ => Post.pure ⟨h12, by rw [a2]; exact h5, h7⟩) fun _ => Post.bind (Ok.look fun ends _ => Post.ite (fun _ => Post.pure ⟨h12, by rw [a2]; exact h5, h7⟩) fun _ => ?_)
        have fin : ∀ s3, Flow y g op sf cf s0 A rest s c bi s3 → s3.abl = s1.abl → Ok (if (isMax && decide (ni = maxIdx)) = true then (do
              let __do_lift ← getBound c
              let __do_lift_1 ← getBound nb
              if __do_lift.ring.isSome = true ∧ __do_lift_1.ring.isSome = true then do
                  let e ← currentEdge c
                  addLocalMaximumPoint e.top c nb
                  ablSet maxIdx none
                  ablSet bi none
                  pure (Sum.inr (Sum.inl (if shifted then boundIdx else boundIdx + 1)))
                else do
                  ablSet maxIdx none
                  ablSet bi none
                  pure (Sum.inr (Sum.inl (if shifted then boundIdx else boundIdx + 1))))
            else do
              let __do_lift ← getBound nb
              let r ← roundHalfUpM __do_lift.currentX
              intersectBounds { x := r, y := y } op sf cf c nb
              ablSwap bi ni
              pure (Sum.inl (ni, hp, true, ni + 1)) : M ((Nat × Nat × Bool × Nat) ⊕ (Nat ⊕ (Nat × Nat × Bool)))) s3
            (fun r s' => match r with
              | .inl st => Flow y g op sf cf s0 A rest s c st.1 s' ∧ st.1 < st.2.2.2 ∧
                (∀ k, st.1 < k → k < st.2.2.2 → s'.abl[k]? = some none) ∧ (∀ k, st.2.2.2 ≤ k → s'.abl[k]? = s.abl[k]?) ∧ (∀ k, k < boundIdx → s'.abl[k]? = s.abl[k]?) ∧ boundIdx ≤ st.1
                ∧ (st.2.2.1 = false → st.1 = boundIdx)
              | .inr r => match r with
                | .inl v => Walk y s0 A rest s' ∧ (g → Reached op sf cf s') ∧ Drops s0 s s' ∧ Put s s' ∧ c ∉ act s' ∧ (∀ k, k < boundIdx → s'.abl[k]? = s.abl[k]?)
                    ∧ (v = boundIdx ∨ v = boundIdx + 1 ∧ s'.abl[boundIdx]? = some none)
                | .inr (bi, _, shifted) => Flow y g op sf cf s0 A rest s c bi s' ∧ (∀ k, k < boundIdx → s'.abl[k]? = s.abl[k]?) ∧ (shifted = false → bi = boundIdx)) := by
          intro s3 h13 a3
          have hadj : Adjacent s3 bi ni c nb := ⟨h2, h13.pos, by rw [a3]; exact ho, by rw [a3]; exact h3⟩
          refine Post.ite (fun hmi => ?_) fun _ => ?_
          · simp only [Bool.and_eq_true, decide_eq_true_eq] at hmi
            obtain ⟨hm, rfl⟩ := hmi
            obtain rfl : nb = mb := by
              have l1 := h4 ni (Nat.le_refl _)
              rw [ho] at l1
              have l2 := hmax hm (by have := (List.getElem?_eq_some_iff.1 l1.symm).1; omega)
              rw [← l1] at l2
              simpa using l2
            refine Flow.close h13 hadj.snd (by omega) (.inl hadj) m1 m2 m3 (ht hm) ((ht hm).mate hM hcA m1) fun s4 w4 r4 d4 p4 b4 a4 => ?_
            refine ⟨w4, r4, d4, p4, b4, fun k hk => ?_, ?_⟩
            · rw [a4, List.getElem?_set_ne (by omega), List.getElem?_set_ne (by omega), a3]; exact h5 k hk
            · cases hsh : shifted with
              | true => exact .inl rfl
              | false =>
                refine .inr ⟨rfl, ?_⟩
                rw [a4, ← h7 hsh, List.getElem?_set_self (by rw [List.length_set]; exact (List.getElem?_eq_some_iff.1 h13.pos).1)]
          · refine Post.bind (Post.getBound (Post.bind (Ok.look fun r _ => Post.bind ((Walk.cross (Q := fun _ s4 => Flow y g op sf cf s0 A rest s c ni s4 ∧ s4.abl = (s3.abl.set bi (some nb)).set ni (some c)) h13.walk h13.reach hadj fun s4 w4 r4 p4 q4 a4 => ?_).imp fun _ s' h => Post.bind (h.imp ?_)))))
            · refine ⟨⟨w4, r4, Preo.trans h13.put p4, q4.trans h13.perm, ?_⟩, a4⟩
              rw [a4, List.getElem?_set_self (by rw [List.length_set]; exact (List.getElem?_eq_some_iff.1 hadj.snd).1)]
            · rintro _ s4 ⟨f4, a4⟩
              refine Post.pure ⟨f4, Nat.lt_succ_self _, fun k l1 l2 => absurd l2 (by dsimp only at l1 ⊢; omega), fun k l => ?_, fun k l => ?_, by dsimp only; omega, nofun⟩
              · dsimp only at l
                rw [a4, List.getElem?_set_ne (by omega), List.getElem?_set_ne (by omega), a3]; exact h4 k (by omega)
              · rw [a4, List.getElem?_set_ne (by omega), List.getElem?_set_ne (by omega), a3]; exact h5 k l
        refine Post.bind (Post.getBound (Post.ite (fun _ => ?_) fun _ => ?_))
        · refine Post.bind (Ok.look fun r _ => Post.bind (h12.add fun _ s3 h13 a3 => ?_))
          exact Post.imp (fin s3 h13 (a3.trans a2)) (by rintro (_ | _ | _) _ h <;> exact h)
        · exact Post.imp (fin s2 h12 a2) (by rintro (_ | _ | _) _ h <;> exact h)
    · rintro ⟨bi, hp, shifted, ni⟩ s1 ⟨h1, -, -, -, h5, -, h7⟩
      exact Post.pure ⟨h1, h5, h7⟩
  · rintro (v | ⟨bi, hp, shifted⟩) s1 hv
    · obtain ⟨w, r, d, p, n, l, hvv⟩ := hv
      refine Post.pure ⟨w, d, fun hgg => .inl ⟨r hgg, fun x hx => ((hg hgg).2.1 x (d.sub x hx)).same (p x), fun k x hk hx => ?_⟩⟩
      rw [(p x).steeped]
      have hk' : k < boundIdx := by
        rcases hvv with rfl | ⟨rfl, h0⟩
        · exact hk
        · by_contra hge
          obtain rfl : k = boundIdx := by omega
          rw [h0] at hx; cases hx
      exact (hg hgg).2.2 k x hk' (by rw [← l k hk']; exact hx)
    · dsimp only at hv ⊢
      obtain ⟨hv, hl, hsh⟩ := hv
      have fin : ∀ s2, Flow y g op sf cf s0 A rest s c bi s2 → s2.abl = s1.abl → Ok (do
          finishHorizontal c bi
          pure (if shifted = true then boundIdx else boundIdx + 1) : M Nat) s2 (FlatOut g op sf cf s0 A rest y s) := by
        intro s2 h2 a2
        refine Post.bind (Post.imp (h2.finish (y := y) hM he0 hh) fun _ s3 h => Post.pure ⟨h.1, h.2.1, fun hgg => ?_⟩)
        obtain ⟨w3, d3, h3⟩ := h
        refine h3.imp (fun h3 => ?_) id
        obtain ⟨a3, f3⟩ := h3
        refine ⟨f3.reach hgg, fun x hx => ?_, fun k x hk hx => ?_⟩
        · by_cases hxc : x = c
          · subst hxc; exact f3.seen (((hg hgg).2.1 x (mem_act.2 (List.mem_of_getElem? hb))).looked.1 e0 he0 hh)
          · exact ((hg hgg).2.1 x (d3.sub x hx)).same (f3.other x hxc)
        · by_cases hxc : x = c
          · subst hxc; exact f3.steep
          · rw [(f3.other x hxc).steeped]
            have hk' : k < boundIdx := by
              cases hs' : shifted with
              | true => rw [hs'] at hk; simpa using hk
              | false =>
                rw [hs'] at hk
                simp only [Bool.false_eq_true, if_false] at hk
                by_contra hge
                obtain rfl : k = boundIdx := by omega
                rw [a3, ← hsh hs', h2.pos] at hx; cases hx
                exact hxc rfl
            refine (hg hgg).2.2 k x hk' ?_
            rw [← hl k hk', ← a2, ← a3]; exact hx
      refine Post.bind (Post.getBound (Post.ite (fun _ => ?_) fun _ => fin s1 hv rfl))
      exact Post.bind (Flow.passRight (fun p => by pres) (fun p => by pres) hv fun hp s2 h2 a2 => fin s2 h2 a2)

set_option maxHeartbeats 1600000 in
theorem fair_rtl (hM : Mated s0 A) {b boundIdx : Nat} {e0 : Edge} (hs : Walk y s0 A rest s) (hb : s.abl[boundIdx]? = some (some b))
    (he0 : (s.bounds b).currentEdge? = some e0) (hh : e0.isHorizontal = true)
    (hg : g → Reached op sf cf s ∧ (∀ c ∈ act s, Seen s0 y s c) ∧ ∀ k c, k < boundIdx → s.abl[k]? = some (some c) → Steeped s c) :
    Ok (processHorizontalRightToLeft op sf cf y boundIdx) s (FlatOut g op sf cf s0 A rest y s) := by
  unfold processHorizontalRightToLeft
  refine Post.bind (Ok.ablGet fun o ho => Post.bind (Post.deref (fun c hc => ?_) fun _ => trivial))
  obtain rfl : c = b := by rw [hb, hc] at ho; simpa using ho.symm
  have hcA := (hs.act c (mem_act.2 (List.mem_of_getElem? hb))).1
  obtain ⟨mb, -, m1, m2, m3⟩ := hM.closed c hcA
  refine Post.bind (Ok.partner fun isMax maxIdx hmax hat => ?_)
  have ht : isMax = true → Topped y s0 c := fun h => hs.at_top (mem_act.2 (List.mem_of_getElem? hb)) (hat h)
  rw [(hs.static c).2.2.1, m1] at hmax
  dsimp only
  have low : ∀ s' : St, Drops s0 s s' → (act s').Nodup → (∀ k, boundIdx < k → s'.abl[k]? = s.abl[k]?) → ∀ k x, k < boundIdx + 1 → s'.abl[k]? = some (some x) → x ≠ c → 
      ∃ j, j < boundIdx ∧ s.abl[j]? = some (some x) := by
    intro s' d n l k x hk hx hxc
    obtain ⟨j, hj⟩ := List.mem_iff_getElem?.1 (mem_act.1 (d.sub x (mem_act.2 (List.mem_of_getElem? hx))))
    refine ⟨j, ?_, hj⟩
    rcases Nat.lt_trichotomy j boundIdx with h | h | h
    · exact h
    · subst h; rw [hb] at hj; cases hj; exact absurd rfl hxc
    · have := nodup_pos n hx ((l j h).trans hj)
      omega
  refine Post.bind (Post.gets (Post.bind (Ok.look fun cur _ => Post.bind (Ok.look fun e _ => Post.bind (Ok.look fun hp0 _ => ?_)))))
  refine Post.bind (Post.imp (Q := fun r s' => match r with
    | .inl () => Walk y s0 A rest s' ∧ (g → Reached op sf cf s') ∧ Drops s0 s s' ∧ Put s s' ∧ c ∉ act s' ∧ (∀ k, boundIdx < k → s'.abl[k]? = s.abl[k]?)
    | .inr (bi, _) => Flow y g op sf cf s0 A rest s c bi s' ∧ (∀ k, boundIdx < k → s'.abl[k]? = s.abl[k]?)) ?_ ?_)
  · refine Post.forElseN (fun n (st : Nat × Nat × Nat) s' => Flow y g op sf cf s0 A rest s c st.1 s' ∧ n + st.2.2 = boundIdx ∧ n ≤ st.1 ∧
      (∀ k, n ≤ k → k < st.1 → s'.abl[k]? = some none) ∧ (∀ k, k < n → s'.abl[k]? = s.abl[k]?) ∧ (∀ k, boundIdx < k → s'.abl[k]? = s.abl[k]?) ∧ st.1 ≤ boundIdx) ?_ ?_ _ _ _
      ⟨⟨hs, fun h => (hg h).1, Preo.refl _, .refl _, hb⟩, rfl, Nat.le_refl _, fun k h1 h2 => absurd h2 (by dsimp only at h1 ⊢; omega), fun _ _ => rfl, fun _ _ => rfl, Nat.le_refl _⟩
    · rintro n ⟨bi, hp, j⟩ s1 ⟨h1, h0, h2, h3, h4, h5, h6⟩
      dsimp only at h0 h1 h2 h3 h4 h6 ⊢
      obtain rfl : n = boundIdx - 1 - j := by omega
      generalize hpi : boundIdx - 1 - j = pi at *
      refine Post.bind (Ok.ablGet fun o ho => ?_)
      cases o with
      | none =>
        refine Post.pure ⟨h1, by dsimp only; omega, by dsimp only; omega, fun k l1 l2 => ?_, fun k l => h4 k (by omega), h5, h6⟩
        dsimp only at l1 l2
        by_cases e : k = pi
        · subst e; exact ho
        · exact h3 k (by omega) l2
      | some nb =>
        dsimp only
        refine Post.bind (Flow.passLeft (fun p => by pres) (fun p => by pres) h1 fun hp s2 h12 a2 => ?_)
        refine Post.bind (Post.getBound (Post.bind (Ok.look fun e _ => ?_)))
        refine Post.ite (fun _ => Post.pure ⟨h12, by rw [a2]; exact h5⟩) fun _ => Post.bind (Ok.look fun ends _ => Post.ite (fun _ => Post.pure ⟨h12, by rw [a2]; exact h5⟩) fun _ => ?_)
        have fin : ∀ s3, Flow y g op sf cf s0 A rest s c bi s3 → s3.abl = s1.abl → Ok (if (isMax && decide (pi = maxIdx)) = true then (do
              let __do_lift ← getBound c
              let __do_lift_1 ← getBound nb
              if __do_lift.ring.isSome = true ∧ __do_lift_1.ring.isSome = true then do
                  let e ← currentEdge c
                  addLocalMaximumPoint e.top c nb
                  ablSet pi none
                  ablSet bi none
                  pure (Sum.inr (Sum.inl ()))
                else do
                  ablSet pi none
                  ablSet bi none
                  pure (Sum.inr (Sum.inl ())))
            else do
              let __do_lift ← getBound nb
              let r ← roundHalfUpM __do_lift.currentX
              intersectBounds { x := r, y := y } op sf cf nb c
              ablSwap pi bi
              pure (Sum.inl (pi, hp, j + 1)) : M ((Nat × Nat × Nat) ⊕ (Unit ⊕ (Nat × Nat)))) s3
            (fun r s' => match r with
              | .inl st => Flow y g op sf cf s0 A rest s c st.1 s' ∧ pi + st.2.2 = boundIdx ∧ pi ≤ st.1 ∧
                (∀ k, pi ≤ k → k < st.1 → s'.abl[k]? = some none) ∧ (∀ k, k < pi → s'.abl[k]? = s.abl[k]?) ∧ (∀ k, boundIdx < k → s'.abl[k]? = s.abl[k]?) ∧ st.1 ≤ boundIdx
              | .inr r => match r with
                | .inl () => Walk y s0 A rest s' ∧ (g → Reached op sf cf s') ∧ Drops s0 s s' ∧ Put s s' ∧ c ∉ act s' ∧ (∀ k, boundIdx < k → s'.abl[k]? = s.abl[k]?)
                | .inr (bi, _) => Flow y g op sf cf s0 A rest s c bi s' ∧ (∀ k, boundIdx < k → s'.abl[k]? = s.abl[k]?)) := by
          intro s3 h13 a3
          have hadj : Adjacent s3 pi bi nb c := ⟨by omega, by rw [a3]; exact ho, h13.pos, fun k l1 l2 => by rw [a3]; exact h3 k (by omega) l2⟩
          refine Post.ite (fun hmi => ?_) fun _ => ?_
          · simp only [Bool.and_eq_true, decide_eq_true_eq] at hmi
            obtain ⟨hm, hmi⟩ := hmi
            obtain rfl : nb = mb := by
              have l1 := h4 pi (by omega)
              rw [ho] at l1
              have l2 := hmax hm (by have := (List.getElem?_eq_some_iff.1 l1.symm).1; omega)
              rw [← hmi, ← l1] at l2
              simpa using l2
            refine Flow.close h13 hadj.fst (by omega) (.inr hadj) m1 m2 m3 (ht hm) ((ht hm).mate hM hcA m1) fun s4 w4 r4 d4 p4 b4 a4 => ?_
            refine ⟨w4, r4, d4, p4, b4, fun k hk => ?_⟩
            rw [a4, List.getElem?_set_ne (by omega), List.getElem?_set_ne (by omega), a3]; exact h5 k hk
          · refine Post.bind (Post.getBound (Post.bind (Ok.look fun r _ => Post.bind ((Walk.cross (Q := fun _ s4 => Flow y g op sf cf s0 A rest s c pi s4 ∧ s4.abl = (s3.abl.set pi (some c)).set bi (some nb)) h13.walk h13.reach hadj fun s4 w4 r4 p4 q4 a4 => ?_).imp fun _ s' h => Post.bind (h.imp ?_)))))
            · refine ⟨⟨w4, r4, Preo.trans h13.put p4, q4.trans h13.perm, ?_⟩, a4⟩
              rw [a4, List.getElem?_set_ne (by omega), List.getElem?_set_self (List.getElem?_eq_some_iff.1 hadj.fst).1]
            · rintro _ s4 ⟨f4, a4⟩
              refine Post.pure ⟨f4, by dsimp only; omega, Nat.le_refl _, fun k l1 l2 => absurd l2 (by dsimp only at l1 ⊢; omega), fun k l => ?_, fun k l => ?_, by dsimp only; omega⟩
              · rw [a4, List.getElem?_set_ne (by omega), List.getElem?_set_ne (by omega), a3]; exact h4 k (by omega)
              · rw [a4, List.getElem?_set_ne (by omega), List.getElem?_set_ne (by omega), a3]; exact h5 k l
        refine Post.bind (Post.getBound (Post.ite (fun _ => ?_) fun _ => ?_))
        · refine Post.bind (Ok.look fun r _ => Post.bind (h12.add fun _ s3 h13 a3 => ?_))
          exact Post.imp (fin s3 h13 (a3.trans a2)) (by rintro (_ | _ | _) _ h <;> exact h)
        · exact Post.imp (fin s2 h12 a2) (by rintro (_ | _ | _) _ h <;> exact h)
    · rintro ⟨bi, hp, j⟩ s1 ⟨h1, -, -, -, -, h5, -⟩
      exact Post.pure ⟨h1, h5⟩
  · rintro (v | ⟨bi, hp⟩) s1 hv
    · obtain ⟨w, r, d, p, n, l⟩ := hv
      refine Post.pure ⟨w, d, fun hgg => .inl ⟨r hgg, fun x hx => ((hg hgg).2.1 x (d.sub x hx)).same (p x), fun k x hk hx => ?_⟩⟩
      rw [(p x).steeped]
      obtain ⟨j, j1, j2⟩ := low s1 d w.nodup l k x hk hx fun h => n (h ▸ mem_act.2 (List.mem_of_getElem? hx))
      exact (hg hgg).2.2 j x j1 j2
    · dsimp only at hv ⊢
      obtain ⟨hv, hl⟩ := hv
      have fin : ∀ s2, Flow y g op sf cf s0 A rest s c bi s2 → s2.abl = s1.abl → Ok (do
          finishHorizontal c bi
          pure (boundIdx + 1) : M Nat) s2 (FlatOut g op sf cf s0 A rest y s) := by
        intro s2 h2 a2
        refine Post.bind (Post.imp (h2.finish (y := y) hM he0 hh) fun _ s3 h => Post.pure ⟨h.1, h.2.1, fun hgg => ?_⟩)
        obtain ⟨w3, d3, h3⟩ := h
        refine h3.imp (fun h3 => ?_) id
        obtain ⟨a3, f3⟩ := h3
        refine ⟨f3.reach hgg, fun x hx => ?_, fun k x hk hx => ?_⟩
        · by_cases hxc : x = c
          · subst hxc; exact f3.seen (((hg hgg).2.1 x (mem_act.2 (List.mem_of_getElem? hb))).looked.1 e0 he0 hh)
          · exact ((hg hgg).2.1 x (d3.sub x hx)).same (f3.other x hxc)
        · by_cases hxc : x = c
          · subst hxc; exact f3.steep
          · rw [(f3.other x hxc).steeped]
            obtain ⟨j, j1, j2⟩ := low s3 d3 w3.nodup (fun k hk => by rw [a3, a2]; exact hl k hk) k x hk hx hxc
            exact (hg hgg).2.2 j x j1 j2
      refine Post.bind (Post.getBound (Post.ite (fun _ => ?_) fun _ => fin s1 hv rfl))
      exact Post.bind (Flow.passLeft (fun p => by pres) (fun p => by pres) hv fun hp s2 h2 a2 => fin s2 h2 a2)

theorem fair_horizontal (hM : Mated s0 A) {b boundIdx : Nat} {e0 : Edge} (hs : Walk y s0 A rest s) (hb : s.abl[boundIdx]? = some (some b))
    (he0 : (s.bounds b).currentEdge? = some e0) (hh : e0.isHorizontal = true)
    (hg : g → Reached op sf cf s ∧ (∀ c ∈ act s, Seen s0 y s c) ∧ ∀ k c, k < boundIdx → s.abl[k]? = some (some c) → Steeped s c) :
    Ok (processHorizontal op sf cf y boundIdx) s (FlatOut g op sf cf s0 A rest y s) := by
  unfold processHorizontal
  refine Post.bind (Ok.look fun o _ => Post.bind (Ok.look fun c _ => Post.bind (Ok.look fun e _ => ?_)))
  exact Post.ite (fun _ => fair_ltr hM hs hb he0 hh hg) fun _ => fair_rtl hM hs hb he0 hh hg

/-- All horizontal edges of a scanline. -/
theorem fair_horizontals (hM : Mated s0 A) (hs : Walk y s0 A rest s) (hp : g → Paired s0 rest s) (hg : g → Reached op sf cf s ∧ ∀ c ∈ act s, Seen s0 y s c) :
    Ok (processHorizontals op sf cf y) s fun _ s' => Walk y s0 A rest s' ∧ Full s' ∧ Drops s0 s s' ∧
      (g → (Reached op sf cf s' ∧ (∀ c ∈ act s', Seen s0 y s' c) ∧ (∀ c ∈ act s', Steeped s' c) ∧ Paired s0 rest s') ∨ Orphan s0 A rest s') := by
  unfold processHorizontals
  refine Post.bind (Post.imp (Q := fun _ s' => Walk y s0 A rest s' ∧ Drops s0 s s' ∧
      (g → (Reached op sf cf s' ∧ (∀ c ∈ act s', Seen s0 y s' c) ∧ (∀ c ∈ act s', Steeped s' c) ∧ Paired s0 rest s') ∨ Orphan s0 A rest s')) ?_ fun _ s1 h => ?_)
  · refine Post.loopM (Q := fun _ s' => Walk y s0 A rest s' ∧ Drops s0 s s' ∧
      (g → (Reached op sf cf s' ∧ (∀ c ∈ act s', Seen s0 y s' c) ∧ (∀ c ∈ act s', Steeped s' c) ∧ Paired s0 rest s') ∨ Orphan s0 A rest s'))
      (fun i s' => Walk y s0 A rest s' ∧ Drops s0 s s' ∧ (g → (Reached op sf cf s' ∧ (∀ c ∈ act s', Seen s0 y s' c) ∧ (∀ k c, k < i → s'.abl[k]? = some (some c) → Steeped s' c)
        ∧ Paired s0 rest s') ∨ Orphan s0 A rest s')) ?_ (fun _ _ _ => trivial) ⟨hs, Drops.refl _ _, fun h => .inl ⟨(hg h).1, (hg h).2, nofun, hp h⟩⟩
    rintro i s1 ⟨w1, d1, g1⟩
    refine Post.bind (Post.gets (Post.ite (fun _ => ?_) fun hge => Post.pure ⟨w1, d1, fun h => (g1 h).imp (fun ⟨a1, a2, a3, a4⟩ => ⟨a1, a2, fun c hc => ?_, a4⟩) id⟩))
    swap
    · obtain ⟨k, hk⟩ := List.mem_iff_getElem?.1 (mem_act.1 hc)
      exact a3 k c (by have := (List.getElem?_eq_some_iff.1 hk).1; omega) hk
    refine Post.bind (Ok.ablGet fun o ho => ?_)
    cases o with
    | none =>
      refine Post.pure ⟨w1, d1, fun h => (g1 h).imp (fun ⟨a1, a2, a3, a4⟩ => ⟨a1, a2, fun k c hk hc => ?_, a4⟩) id⟩
      by_cases e : k = i
      · subst e; rw [ho] at hc; cases hc
      · exact a3 k c (by omega) hc
    | some b =>
      dsimp only
      refine Post.bind (Ok.currentEdge fun e he => Post.ite (fun hh => ?_) fun hh => Post.pure ⟨w1, d1, fun h => (g1 h).imp (fun ⟨a1, a2, a3, a4⟩ => ⟨a1, a2, fun k c hk hc => ?_, a4⟩) id⟩)
      swap
      · by_cases e' : k = i
        · subst e'; rw [ho] at hc; cases hc
          intro f hf
          rw [he] at hf; cases hf
          simpa using hh
        · exact a3 k c (by omega) hc
      refine Post.bind (Post.imp (fair_horizontal (op := op) (sf := sf) (cf := cf) (y := y)
        (g := Reached op sf cf s1 ∧ (∀ c ∈ act s1, Seen s0 y s1 c) ∧ (∀ k c, k < i → s1.abl[k]? = some (some c) → Steeped s1 c) ∧ Paired s0 rest s1)
        hM w1 ho he hh fun h => ⟨h.1, h.2.1, h.2.2.1⟩) fun r s2 h => Post.pure ⟨h.1, d1.trans h.2.1, fun hgg => ?_⟩)
      obtain ⟨w2, d2, h2⟩ := h
      rcases g1 hgg with hh1 | hh1
      · rcases h2 hh1 with ⟨a1, a2, a3⟩ | hd
        · exact (Paired.drops hM w1 hh1.2.2.2 d2).imp (fun hp => ⟨a1, a2, a3, hp⟩) id
        · exact .inr (hd.orphan hM w1 hh1.2.2.2)
      · exact .inr (hh1.drops hM d2)
  · obtain ⟨w1, d1, g1⟩ := h
    unfold ablFilter
    have ha : act { s1 with abl := s1.abl.filter Option.isSome } = act s1 := filterMap_filter_some _
    refine Post.modify ⟨w1.sub' rfl (fun c hc => ha ▸ hc) (ha ▸ w1.nodup) fun c hc hn => absurd (ha.symm ▸ hc) hn, ?_, d1.trans ⟨fun c hc => ha ▸ hc, fun c hc hn => absurd (ha ▸ hc) hn⟩, fun h => ?_⟩
    · intro h
      have := (List.mem_filter.1 h).2
      simp at this
    · rcases g1 h with ⟨a1, a2, a3, a4⟩ | ho
      · refine .inl ⟨.step a1 (.quiet ha rfl fun b _ => ⟨rfl, rfl, rfl, rfl, rfl, rfl⟩), ?_, ?_, ?_⟩
        · rw [ha]; exact fun c hc => (a2 c hc).eq rfl
        · rw [ha]; exact a3
        · unfold Paired; rw [ha]; exact a4
      · right; unfold Orphan; rw [ha]; exact ho

end

end Wagyu
