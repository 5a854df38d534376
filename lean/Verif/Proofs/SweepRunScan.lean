import Verif.Proofs.SweepRunTop

/-!
# The top of a scanbeam is a sequence of events
-/

namespace Wagyu

open Spec

section
variable {op : OperationKind} {sf cf : FillKind} {s0 : St} {A rest : List LocalMinimum} {s : St} {α β : Type} {y : Int}

/-- No bound before position `bi` has reached the top together with its partner. -/
structure TopRun (op : OperationKind) (sf cf : FillKind) (s0 : St) (A rest : List LocalMinimum) (y : Int) (bi : Nat) (s : St) : Prop where
  run : Run op sf cf s0 A rest s
  pos : ∀ k c m, k < bi → s.abl[k]? = some (some c) → (s0.bounds c).maximumBound = some m → m ∈ act s → ¬ (AtTop y s c ∧ AtTop y s m)

theorem findIdentity_get {v : Option Nat} {l : List (Option Nat)} (h : findIdentity v l ≠ l.length) : l[findIdentity v l]? = some v := by
  unfold findIdentity at *
  have hlt : l.findIdx (fun x => decide (x = v)) < l.length := by
    have := List.findIdx_le_length (xs := l) (p := fun x => decide (x = v))
    omega
  rw [List.getElem?_eq_getElem hlt]
  have := List.findIdx_getElem (w := hlt)
  simpa using this

theorem TopRun.still {bi : Nat} {s' : St} (h : TopRun op sf cf s0 A rest y bi s) (h' : Run op sf cf s0 A rest s') (ha : s'.abl = s.abl) (hp : Put s s') :
    TopRun op sf cf s0 A rest y bi s' := by
  refine ⟨h', fun k c m hk hc hm hma => ?_⟩
  rw [AtTop.put hp, AtTop.put hp]
  rw [mem_act, ha, ← mem_act] at hma
  rw [ha] at hc
  exact h.pos k c m hk hc hm hma

theorem TopRun.snoc {bi b : Nat} (h : TopRun op sf cf s0 A rest y bi s) (hb : s.abl[bi]? = some (some b))
    (hn : ∀ m, (s0.bounds b).maximumBound = some m → m ∈ act s → ¬ (AtTop y s b ∧ AtTop y s m)) : TopRun op sf cf s0 A rest y (bi + 1) s := by
  refine ⟨h.run, fun k c m hk hc hm hma => ?_⟩
  by_cases e : k = bi
  · subst e
    rw [hb] at hc; cases hc
    exact hn m hm hma
  · exact h.pos k c m (by omega) hc hm hma

theorem run_topLoop (hM : Mates s0 A) (hs : Run op sf cf s0 A rest s) :
    Post (topOfScanbeamLoop op sf cf y) s (fun _ s' => Run op sf cf s0 A rest s') OnlyCross := by
  unfold topOfScanbeamLoop
  refine Post.loopM (Q := fun _ s' => Run op sf cf s0 A rest s') (fun bi s' => TopRun op sf cf s0 A rest y bi s') ?_ (fun _ _ _ => only_fuel) ⟨hs, nofun⟩
  intro bi s1 hI
  refine Post.bind (Post.gets (Post.ite (fun hlt => ?_) fun _ => Post.pure hI.run))
  refine Post.bind (Post.ablGet fun o ho => ?_)
  cases o with
  | none =>
    refine Post.pure ⟨hI.run, fun k c m hk hc hm hma => ?_⟩
    by_cases e : k = bi
    · subst e; rw [ho] at hc; cases hc
    · exact hI.pos k c m (by omega) hc hm hma
  | some b =>
    have hb : b ∈ act s1 := mem_act.2 (List.mem_of_getElem? ho)
    obtain ⟨mb, m1, m2, m3⟩ := hM.closed b (hI.run.act b hb).1
    have hmb : (s1.bounds b).maximumBound = some mb := by rw [(hI.run.static b).2.2.1]; exact m1
    dsimp only
    refine Post.bind (Post.imp (Q := fun r s' => s' = s1 ∧ (r = none → ¬ (AtTop y s1 b ∧ mb ∈ act s1 ∧ AtTop y s1 mb))
      ∧ ∀ mi, r = some mi → mi = s1.abl.length ∨ (s1.abl[mi]? = some (some mb) ∧ AtTop y s1 b ∧ AtTop y s1 mb)) ?_ ?_)
    · refine Post.bind (Post.isMaxima fun r hr => Post.ite (fun hrt => ?_) fun hrf => Post.pure ⟨rfl, fun _ h => hrf (hr.2 h.1), nofun⟩)
      have hb' := hr.1 hrt
      refine Post.bind (Post.getBound (Post.bind (Post.gets ?_)))
      rw [hmb]
      refine Post.ite (fun hl => Post.pure ⟨rfl, nofun, fun mi h => Or.inl (by cases h; exact hl)⟩) fun hl => ?_
      have hg := findIdentity_get hl
      refine Post.bind (Post.ablGet fun o ho' => ?_)
      rw [hg] at ho'
      cases ho'
      refine Post.bind (Post.deref (fun m hm => ?_) fun h => by cases h)
      cases hm
      have hma : mb ∈ act s1 := mem_act.2 (List.mem_of_getElem? hg)
      refine Post.bind (Post.currentEdge fun e he => Post.ite (fun hh => Post.pure ⟨rfl, fun _ h => ?_, nofun⟩) fun _ => ?_)
      · obtain ⟨-, -, h1, e', h2, -⟩ := h
        have := hI.run.steep hM hma he h1
        rw [hh] at this; cases this
      · refine Post.bind (Post.isMaxima fun r' hr' => Post.ite (fun h => Post.pure ⟨rfl, nofun, ?_⟩) fun h => Post.pure ⟨rfl, fun _ h' => h (hr'.2 h'.2.2), nofun⟩)
        rintro mi ⟨⟩
        exact Or.inr ⟨hg, hb', hr'.1 h⟩
    · rintro r _ ⟨rfl, h1, h2⟩
      rename_i s2
      cases r with
      | some mi =>
        dsimp only
        rcases h2 mi rfl with rfl | ⟨hg, hb', hm'⟩
        · exact Post.bind (doMaxima_alone bi)
        · have hma : mb ∈ act s2 := mem_act.2 (List.mem_of_getElem? hg)
          have hlt : bi < mi := by
            rcases Nat.lt_trichotomy bi mi with h | h | h
            · exact h
            · subst h
              rw [ho] at hg; cases hg
              exact absurd rfl m3.ne
            · exact absurd ⟨hm', hb'⟩ (hI.pos mi mb b h hg m2 hb)
          refine Post.bind ((((doMaxima_ok hI.run.reached ho hg hlt (hI.run.static.partners m3)).only.and (doMaxima_place mi bi hlt)).and
            (Ok.pres (R := Put) inferInstance)).imp ?_)
          rintro r s3 ⟨⟨⟨r1, r2⟩, r3, r4⟩, r5⟩
          refine Post.pure ⟨⟨r1, hI.run.static.trans r2, hI.run.sub, hI.run.nd, fun c hc => hI.run.act c (r4 c hc), fun c hc => ?_⟩, fun k c m hk hc hm hma => ?_⟩
          · rw [(r5 c).nxtIdx, (r5 c).curIdx]; exact hI.run.idx c (r4 c hc)
          · obtain ⟨k1, k2⟩ := r3 k c hk hc
            rw [AtTop.put r5, AtTop.put r5]
            exact hI.pos k c m k1 k2 hm (r4 m hma)
      | none =>
        dsimp only
        have hno := h1 rfl
        refine Post.bind (Post.imp (Q := fun r s' => s' = s2 ∧ (r = true → (s2.bounds b).nxtIdx < (s2.bounds b).edges.length
          ∧ ∃ f, (s2.bounds b).nextEdge? = some f ∧ f.isHorizontal = true)) ?_ ?_)
        · unfold isIntermediate
          refine Post.bind (Post.bind (Post.getBound (Post.ite (fun hlt => Post.bind (Post.currentEdge fun e he => Post.pure ?_)) fun hlt => Post.pure ?_)))
          · exact Post.ite (fun _ => Post.bind (Post.nextEdge fun f hf => Post.pure ⟨rfl, fun h => ⟨hlt, f, hf, h⟩⟩)) fun _ => Post.pure ⟨rfl, nofun⟩
          · exact Post.ite (fun h => by cases h) fun _ => Post.pure ⟨rfl, nofun⟩
        · rintro promote _ ⟨rfl, hp⟩
          rename_i s3
          refine Post.ite (fun hpt => ?_) fun _ => ?_
          · obtain ⟨hlt, f, hf, hfh⟩ := hp hpt
            have fin : ∀ s4, Run op sf cf s0 A rest s4 → Still s3 s4 → Post (do
                toNextEdge b
                let __do_lift ← getBound b
                if __do_lift.ring.isSome = true then do
                    let e ← currentEdge b
                    addPointToRing b e.bottom
                    pure (Sum.inl (bi + 1))
                  else pure (Sum.inl (bi + 1))) s4 (fun r s' =>
                match (r : Nat ⊕ Unit) with
                | .inl y_1 => TopRun op sf cf s0 A rest y y_1 s'
                | .inr b => Run op sf cf s0 A rest s') OnlyCross := by
              intro s4 h4 k4
              have hb4 : b ∈ act s4 := by rw [mem_act, k4.abl, ← mem_act]; exact hb
              refine Post.bind (h4.next hb4 (by rw [(k4.bound b).nxtIdx, (k4.bound b).edges]; exact hlt) ?_)
              intro s5 h5 ha5 hc5 he5 hn5
              have hnt : ¬ AtTop y s5 b := by
                rintro ⟨t1, e, t2, -⟩
                have hb5 : b ∈ act s5 := by rw [mem_act, ha5, ← mem_act]; exact hb4
                have := h5.steep hM hb5 t2 t1
                rw [hn5, (k4.bound b).next, hf] at t2
                cases t2
                rw [hfh] at this; cases this
              have h6 : TopRun op sf cf s0 A rest y (bi + 1) s5 := by
                refine TopRun.snoc ⟨h5, fun k c m hk hc hm hma => ?_⟩ (by rw [ha5, k4.abl]; exact ho) fun _ _ _ h => hnt h.1
                rintro ⟨t1, t2⟩
                have hcb : c ≠ b := fun e => hnt (e ▸ t1)
                have hmb' : m ≠ b := fun e => hnt (e ▸ t2)
                rw [ha5, k4.abl] at hc
                rw [mem_act, ha5, k4.abl, ← mem_act] at hma
                refine hI.pos k c m hk hc hm hma ⟨(AtTop.put k4.bound).1 ?_, (AtTop.put k4.bound).1 ?_⟩
                · unfold AtTop at t1 ⊢; rw [hc5 c hcb] at t1; exact t1
                · unfold AtTop at t2 ⊢; rw [hc5 m hmb'] at t2; exact t2
              refine Post.bind (Post.getBound (Post.ite (fun _ => ?_) fun _ => Post.pure h6))
              refine Post.bind (Post.currentEdge fun e he => Post.bind (h5.add fun _ s7 h7 k7 k7' => Post.pure ?_))
              exact h6.still h7 k7'.abl k7'.bound
            refine Post.bind (Post.getBound (Post.ite (fun _ => ?_) fun _ => ?_))
            · refine Post.bind (Post.currentEdge fun e he => Post.bind (hI.run.add fun _ s4 h4 _ k4 => ?_))
              exact (fin s4 h4 k4).imp (by rintro (_ | _) _ h <;> exact h)
            · exact (fin s3 hI.run (Preo.refl _)).imp (by rintro (_ | _) _ h <;> exact h)
          · refine Post.bind (Post.currentEdge fun e he => Post.bind (Post.modBound (Post.pure ?_)))
            have hx : ∀ c, core (upd s3.bounds b { s3.bounds b with currentX := e.getCurrentX y } c) = core (s3.bounds c)
                ∧ (upd s3.bounds b { s3.bounds b with currentX := e.getCurrentX y } c).nxtIdx = (s3.bounds c).nxtIdx
                ∧ (upd s3.bounds b { s3.bounds b with currentX := e.getCurrentX y } c).curIdx = (s3.bounds c).curIdx
                ∧ (upd s3.bounds b { s3.bounds b with currentX := e.getCurrentX y } c).edges = (s3.bounds c).edges := by
              intro c
              by_cases h : c = b
              · subst h; rw [Wagyu.upd_same]; exact ⟨rfl, rfl, rfl, rfl⟩
              · rw [upd_ne _ _ h]; exact ⟨rfl, rfl, rfl, rfl⟩
            have ht : ∀ c, AtTop y { s3 with bounds := upd s3.bounds b { s3.bounds b with currentX := e.getCurrentX y } } c ↔ AtTop y s3 c := by
              intro c
              unfold AtTop Bound.currentEdge?
              show (Bound.nxtIdx (upd _ _ _ c) = List.length (Bound.edges (upd _ _ _ c)) ∧ ∃ e, (Bound.edges (upd _ _ _ c))[Bound.curIdx (upd _ _ _ c)]? = some e ∧ _) ↔ _
              rw [(hx c).2.1, (hx c).2.2.1, (hx c).2.2.2]
            refine TopRun.snoc ⟨hI.run.quiet rfl rfl (fun c => (hx c).1) fun c hc => ?_, fun k c m hk hc hm hma => ?_⟩ ho fun m hm hma h => ?_
            · show Bound.nxtIdx (upd _ _ _ c) = Bound.curIdx (upd _ _ _ c) + 1
              rw [(hx c).2.1, (hx c).2.2.1]; exact hI.run.idx c hc
            · rw [ht, ht]
              exact hI.pos k c m hk hc hm hma
            · rw [ht, ht] at h
              rw [m1] at hm; cases hm
              exact hno ⟨h.1, hma, h.2⟩

end

end Wagyu
