import Verif.Proofs.HeapInv

/-!
# Adding points keeps the heaps in order
-/

namespace Wagyu

open Spec

theorem Tot.reader {α : Type} {m : M α} [Steady m] [hm : Pres Eq m] {s : St} {Q : α → St → Prop} (h : ∀ a, Q a s) : Tot m s Q :=
  Tot.steady (HW.reader h)

section
variable {s : St}

theorem tot_hotPixelSetLR (h : HW s) {b : Nat} (hb : some b ∈ s.abl) (y x z : Int) (i j : Nat) (e : Bool) :
    Tot (hotPixelSetLeftToRight y x z b i j e) s fun _ s' => Grown s s' := by
  unfold hotPixelSetLeftToRight
  refine Tot.bind (Tot.reader fun e1 => Tot.bind (Tot.reader fun m => Tot.bind (Tot.reader fun e2 => Tot.bind (Tot.reader fun n => ?_))))
  refine Tot.forElse (Q := fun _ s' => Grown s s') (fun _ s' => Grown s s') (fun i s1 hg => ?_) (fun _ _ hg => Tot.pure hg) _ _ _ (Grown.refl h)
  refine Tot.bind (Tot.reader fun hp => ?_)
  refine Tot.ite (fun _ => Tot.pure hg) fun _ => Tot.ite (fun _ => Tot.pure hg) fun _ => Tot.ite (fun _ => Tot.pure hg) fun _ => ?_
  exact Tot.bind ((tot_pushPoint hg.hw (hg.active hb) hp).imp fun _ s2 h2 => Tot.pure (hg.trans h2))

theorem tot_hotPixelSetRL (h : HW s) {b : Nat} (hb : some b ∈ s.abl) (y x z : Int) (i j : Nat) (e : Bool) :
    Tot (hotPixelSetRightToLeft y x z b i j e) s fun _ s' => Grown s s' := by
  unfold hotPixelSetRightToLeft
  refine Tot.bind (Tot.reader fun e1 => Tot.bind (Tot.reader fun m => Tot.bind (Tot.reader fun e2 => Tot.bind (Tot.reader fun n => ?_))))
  refine Tot.forElse (Q := fun _ s' => Grown s s') (fun _ s' => Grown s s') (fun i s1 hg => ?_) (fun _ _ hg => Tot.pure hg) _ _ _ (Grown.refl h)
  refine Tot.bind (Tot.reader fun hp => ?_)
  refine Tot.ite (fun _ => Tot.pure hg) fun _ => Tot.ite (fun _ => Tot.pure hg) fun _ => Tot.ite (fun _ => Tot.pure hg) fun _ => ?_
  exact Tot.bind ((tot_pushPoint hg.hw (hg.active hb) hp).imp fun _ s2 h2 => Tot.pure (hg.trans h2))

instance Steady.hotPixelBackUp (y : Int) (n : Nat) : Steady (hotPixelBackUp y n) := by
  induction n with
  | zero => unfold Wagyu.hotPixelBackUp; steady
  | succ n ih => unfold Wagyu.hotPixelBackUp; steady
instance Steady.hotPixelRowEnd (y : Int) (len n i : Nat) : Steady (hotPixelRowEnd y len n i) := by
  induction n generalizing i with
  | zero => unfold Wagyu.hotPixelRowEnd; steady
  | succ n ih => unfold Wagyu.hotPixelRowEnd; have := fun i => ih i; steady

theorem hotPixelAt_ok {i : Nat} {Q : Point → St → Prop} (h : ∀ p, s.hotPixels[i]? = some p → Q p s) : Ok (hotPixelAt i) s Q := by
  refine Ok.intro fun a s' he => ?_
  unfold hotPixelAt at he
  split at he
  · next hp => cases he; exact h _ hp
  · cases he

theorem hotPixelRowEnd_ok (y : Int) (len : Nat) : ∀ (n i : Nat), i + n = len →
    Ok (hotPixelRowEnd y len n i) s fun r s' => s' = s ∧ i ≤ r ∧ r ≤ len
  | 0, i, hi => Post.pure ⟨rfl, by omega, by omega⟩
  | n + 1, i, hi => by
    unfold hotPixelRowEnd
    refine Post.bind (hotPixelAt_ok fun hp _ => ?_)
    refine Post.ite (fun _ => Post.pure ⟨rfl, by omega, by omega⟩) fun _ => ?_
    exact (hotPixelRowEnd_ok y len n (i + 1) (by omega)).imp fun _ _ h => ⟨h.1, by omega, h.2.2⟩

theorem hotPixelRowEnd_next {y : Int} {len n i : Nat} (hi : i + n = len) (hn : 0 < n) (hy : ∀ p, s.hotPixels[i]? = some p → p.y = y) :
    Ok (hotPixelRowEnd y len n i) s fun r s' => s' = s ∧ i < r ∧ r ≤ len := by
  obtain ⟨n, rfl⟩ : ∃ m, n = m + 1 := ⟨n - 1, by omega⟩
  unfold hotPixelRowEnd
  refine Post.bind (hotPixelAt_ok fun hp hh => ?_)
  refine Post.ite (fun hne => absurd (hy hp hh) hne) fun _ => ?_
  exact (hotPixelRowEnd_ok y len n (i + 1) (by omega)).imp fun _ _ h => ⟨h.1, by omega, h.2.2⟩

theorem Grown.modBound {s s' : St} (h : HW s) {b : Nat} {f : Bound → Bound} (hf : ∀ bd, SamePlace bd (f bd))
    (hr : ∀ r, some b ∈ s.abl → (f (s.bounds b)).ring = some r → r < s.nr)
    (he : s' = { s with bounds := upd s.bounds b (f (s.bounds b)) }) : Grown s s' := by
  subst he
  refine ⟨⟨h.rings, h.bottom, ⟨h.forest.1, h.forest.2, h.forest.3⟩, h.par, h.rank, fun c r hc h1 => ?_, h.once⟩,
    ⟨rfl, rfl, rfl, rfl, fun c => ?_⟩⟩
  · have h2 : (Bound.ring (upd s.bounds b (f (s.bounds b)) c)) = some r := h1
    by_cases hcb : c = b
    · subst hcb; rw [Wagyu.upd_same] at h2; exact hr r hc h2
    · rw [upd_ne _ _ hcb] at h2; exact h.held c r hc h2
  · show SamePlace _ (upd _ _ _ c)
    by_cases hcb : c = b
    · subst hcb; rw [Wagyu.upd_same]; exact hf _
    · rw [upd_ne _ _ hcb]; exact SamePlace.refl _

/-- A change of a bound that keeps its place and its ring. -/
theorem Grown.modBound' {s s' : St} (h : HW s) {b : Nat} {f : Bound → Bound} (hf : ∀ bd, SamePlace bd (f bd))
    (hr : ∀ bd, (f bd).ring = bd.ring)
    (he : s' = { s with bounds := upd s.bounds b (f (s.bounds b)) }) : Grown s s' :=
  Grown.modBound h hf (fun r hb h1 => h.held b r hb (by rw [← hr]; exact h1)) he

theorem tot_modBound {s₀ : St} (h : Grown s₀ s) {b : Nat} {f : Bound → Bound} (hf : ∀ bd, SamePlace bd (f bd))
    (hr : ∀ r, some b ∈ s.abl → (f (s.bounds b)).ring = some r → r < s.nr) : Tot (modBound b f) s fun _ s' => Grown s₀ s' :=
  Tot.modBound (h.trans (Grown.modBound h.hw hf hr rfl))

theorem tot_modBound' {s₀ : St} (h : Grown s₀ s) {b : Nat} {f : Bound → Bound} (hf : ∀ bd, SamePlace bd (f bd))
    (hr : ∀ bd, (f bd).ring = bd.ring) : Tot (modBound b f) s fun _ s' => Grown s₀ s' :=
  Tot.modBound (h.trans (Grown.modBound' h.hw hf hr rfl))

theorem Tot.bound {α : Type} {m : Unit → M α} {Q : α → St → Prop} {s₀ : St} (h : Grown s₀ s) {b : Nat} {f : Bound → Bound} (hf : ∀ bd, SamePlace bd (f bd))
    (hr : ∀ r, some b ∈ s.abl → (f (s.bounds b)).ring = some r → r < s.nr) (hm : ∀ s', Grown s₀ s' → Tot (m ()) s' Q) :
    Tot (Wagyu.modBound b f >>= m) s Q :=
  Tot.bind ((tot_modBound h hf hr).imp fun _ s' hg => hm s' hg)

theorem Tot.bound' {α : Type} {m : Unit → M α} {Q : α → St → Prop} {s₀ : St} (h : Grown s₀ s) {b : Nat} {f : Bound → Bound} (hf : ∀ bd, SamePlace bd (f bd))
    (hr : ∀ bd, (f bd).ring = bd.ring) (hm : ∀ s', Grown s₀ s' → Tot (m ()) s' Q) :
    Tot (Wagyu.modBound b f >>= m) s Q :=
  Tot.bind ((tot_modBound' h hf hr).imp fun _ s' hg => hm s' hg)

theorem tot_insertHotPixelsInPath (h : HW s) {b : Nat} (hb : some b ∈ s.abl) (p : Point) (e : Bool) :
    Tot (insertHotPixelsInPath b p e) s fun _ s' => Grown s s' := by
  unfold insertHotPixelsInPath
  refine Tot.bind (Tot.getBound ?_)
  refine Tot.ite (fun _ => Tot.pure (Grown.refl h)) fun _ => ?_
  refine Tot.bind (Tot.reader fun cur => Tot.bind (Tot.reader fun index => Tot.bind (Tot.gets (fun _ _ => rfl) ?_)))
  refine Tot.bind ((Tot.loopN (Q := fun _ s' => Grown s s') (fun n i s' => Grown s s' ∧ n = s.hotPixels.length - i) (fun n i s1 hI => ?_)
    ⟨Grown.refl h, rfl⟩).imp ?_)
  · obtain ⟨hg, hn⟩ := hI
    refine Tot.ite (fun hlt => ?_) fun _ => Tot.pure hg
    refine Tot.bind (Tot.steady (hotPixelAt_ok fun hp hhp => ?_))
    refine Tot.ite (fun _ => Tot.pure ⟨_, ?_, hg, rfl⟩) fun _ => Tot.ite (fun _ => Tot.pure hg) fun _ => ?_
    · omega
    refine Tot.bind (Tot.steady ((hotPixelRowEnd_next (by omega) (by omega) fun p hp' => ?_).imp ?_))
    · rw [hhp] at hp'; rw [Option.some.inj hp']
    · rintro r s2 ⟨rfl, h1, h2⟩
      refine Tot.ite (fun _ => ?_) fun _ => ?_
      · refine Tot.bind ((tot_hotPixelSetRL hg.hw (hg.active hb) _ _ _ _ _ _).imp fun _ s3 h3 => Tot.pure ⟨_, ?_, hg.trans h3, rfl⟩)
        omega
      · refine Tot.bind ((tot_hotPixelSetLR hg.hw (hg.active hb) _ _ _ _ _ _).imp fun _ s3 h3 => Tot.pure ⟨_, ?_, hg.trans h3, rfl⟩)
        omega
  · intro _ s1 hg
    exact tot_modBound' hg (fun _ => ⟨rfl, rfl, rfl, rfl, rfl⟩) (fun _ => rfl)

theorem tot_addPointToRing (h : HW s) {b : Nat} (hb : some b ∈ s.abl) (p : Point) :
    Tot (addPointToRing b p) s fun _ s' => Grown s s' := by
  unfold addPointToRing
  refine Tot.bind (Tot.getBound (Tot.ite (fun _ => Tot.raise ⟨by decide, by decide⟩) fun _ => ?_))
  refine Tot.bind ((tot_insertHotPixelsInPath h hb p false).imp fun _ s1 hg => ?_)
  exact (tot_pushPoint hg.hw (hg.active hb) p).imp fun _ s2 h2 => hg.trans h2

/-- The last position of a bound. -/
theorem lastIndexOf_spec {b i : Nat} {l : List (Option Nat)} (h : lastIndexOf b l = some i) : l[i]? = some (some b) := by
  unfold lastIndexOf at h
  split at h
  · cases h
  · next k hk =>
    cases h
    rw [List.findIdx?_eq_some_iff_getElem] at hk
    obtain ⟨hlt, h1, -⟩ := hk
    simp only [decide_eq_true_eq] at h1
    rw [List.getElem_reverse] at h1
    rw [List.length_reverse] at hlt
    rw [List.getElem?_eq_getElem (by omega), h1]

theorem holeStateScan_ok : ∀ (l : List (Option Nat)) (t : Option Nat),
    Ok (holeStateScan l t) s fun r s' => s' = s ∧ ∀ c, r = some c → some c ∈ l ∨ t = some c
  | [], t => Post.pure ⟨rfl, fun c hc => Or.inr hc⟩
  | none :: l, t => by
    rw [holeStateScan]
    exact (holeStateScan_ok l t).imp fun _ _ h => ⟨h.1, fun c hc => (h.2 c hc).imp (List.mem_cons_of_mem _) id⟩
  | some d :: l, t => by
    rw [holeStateScan]
    have hup : ∀ t', (∀ c, t' = some c → c = d ∨ t = some c) → Ok (holeStateScan l t') s fun r s' => s' = s ∧ ∀ c, r = some c → some c ∈ some d :: l ∨ t = some c := by
      intro t' ht
      refine (holeStateScan_ok l t').imp fun _ _ h => ⟨h.1, fun c hc => ?_⟩
      rcases h.2 c hc with h1 | h1
      · exact Or.inl (List.mem_cons_of_mem _ h1)
      · rcases ht c h1 with h2 | h2
        · exact Or.inl (by rw [h2]; simp)
        · exact Or.inr h2
    refine Post.bind (Post.getBound ?_)
    split
    · exact hup _ fun c hc => Or.inr hc
    · split
      · exact hup _ fun c hc => Or.inl (Option.some.inj hc).symm
      · refine Post.bind (Post.getBound (Post.ite (fun _ => hup _ nofun) fun _ => hup _ fun c hc => Or.inr hc))

instance Steady.holeStateScan (l : List (Option Nat)) (t : Option Nat) : Steady (holeStateScan l t) := by
  induction l generalizing t with
  | nil => unfold Wagyu.holeStateScan; steady
  | cons o l ih =>
    have := fun t => ih t
    cases o <;> (rw [Wagyu.holeStateScan]; steady)

instance Steady.setHoleState (b : Nat) : Steady (setHoleState b) := by
  unfold Wagyu.setHoleState
  have : Steady (Wagyu.gets St.abl) := Steady.gets fun _ _ => rfl
  have := fun r => (Steady.modify fun _ _ => rfl : Steady (Wagyu.modify fun s => { s with children := s.children ++ [some r] }))
  refine Steady.bind inferInstance fun _ => ?_
  split
  · exact Steady.raise ⟨by decide, by decide⟩
  · steady

instance Steady.addFirstPoint (b : Nat) (p : Point) : Steady (addFirstPoint b p) := by
  unfold Wagyu.addFirstPoint; steady

/-- A new ring with one node. -/
theorem HW.opened {s' : St} (h : HW s) {b : Nat} {pt : Point} (hi : Inv (fun _ => False) s') (hst : Still s s')
    (hnn : s'.nn = s.nn + 1) (hnr : s'.nr = s.nr + 1)
    (hnodes : s'.nodes = upd s.nodes s.nn { x := pt.x, y := pt.y, prev := some s.nn, next := some s.nn, ring := some s.nr })
    (ho : ∀ k, k ≠ s.nr → (s'.rings k).node = (s.rings k).node ∧ (s'.rings k).parent = (s.rings k).parent ∧ (s'.rings k).bottomNode = (s.rings k).bottomNode)
    (hn : (s'.rings s.nr).node = some s.nn) (hbt : (s'.rings s.nr).bottomNode = none)
    (hp : ∀ p, (s'.rings s.nr).parent = some p → p < s.nr)
    (hb : ∀ c, c ≠ b → (s'.bounds c).ring = (s.bounds c).ring) (hb' : (s'.bounds b).ring = some s.nr) : HW s' := by
  obtain ⟨L, hL⟩ := h.rings
  have hLn : L s.nr = [] := by
    by_contra hne
    have := (hL.cycle _ hne).1
    omega
  refine ⟨?_, fun r => ?_, hi, fun r p hrp => ?_, ?_, fun c r h1 h2 => ?_, by rw [hst.abl]; exact h.once⟩
  · obtain ⟨L', hL', -⟩ := RingsOf.replace (s' := s') hL (r := s.nr) (l := [s.nn]) (fun _ => False) (fun _ => False.elim)
      (by omega) (by omega) (by rw [isCycle_single, hnodes]; constructor <;> rw [Wagyu.upd_same]) (by omega)
      (fun i => by
        rw [hLn, hnn, List.mem_singleton]
        constructor
        · intro h1; exact Or.inr (Or.inr (by omega))
        · rintro (h1 | ⟨_, hk, -⟩ | h1)
          · cases h1
          · exact hk.elim
          · omega)
      (fun i hi => by rw [List.mem_singleton.1 hi, hnodes, Wagyu.upd_same])
      (fun i hi _ => by rw [hnodes, upd_ne _ _ (by simpa using hi)])
      hn (fun k hk _ => (ho k hk).1)
    exact ⟨L', hL'⟩
  · by_cases hr : r = s.nr
    · rw [hr]; exact hbt
    · rw [(ho r hr).2.2]; exact h.bottom r
  · by_cases hr : r = s.nr
    · subst hr; have := hp p hrp; omega
    · rw [(ho r hr).2.1] at hrp; have := h.par r p hrp; omega
  · obtain ⟨f, hf⟩ := h.rank
    refine ⟨fun r => if r = s.nr then (match (s'.rings s.nr).parent with | none => 0 | some p => f p + 1) else f r, fun r p hrp => ?_⟩
    by_cases hr : r = s.nr
    · subst hr
      have := hp p hrp
      simp only [if_true, hrp]
      rw [if_neg (by omega)]
      exact Nat.lt_succ_self _
    · rw [(ho r hr).2.1] at hrp
      have := h.par r p hrp
      simp only [if_neg hr, if_neg (show p ≠ s.nr by omega)]
      exact hf r p hrp
  · by_cases hc : c = b
    · subst hc; rw [hb'] at h2; cases h2; omega
    · rw [hb c hc] at h2
      have := h.held c r (by rw [← hst.abl]; exact h1) h2
      omega

theorem mem_take_ne {l : List (Option Nat)} (hn : (l.filterMap id).Nodup) {b i t : Nat} (hi : l[i]? = some (some b))
    (ht : some t ∈ l.take i) : t ≠ b := by
  rintro rfl
  have h1 : l = l.take i ++ some t :: l.drop (i + 1) := by
    have hlt : i < l.length := by
      by_contra hc
      rw [List.getElem?_eq_none (by omega)] at hi; cases hi
    have h2 : l[i] = some t := by rw [List.getElem?_eq_getElem hlt] at hi; exact Option.some.inj hi
    rw [← h2, ← List.drop_eq_getElem_cons hlt, List.take_append_drop]
  rw [h1, List.filterMap_append, List.filterMap_cons] at hn
  simp only [id_eq] at hn
  rw [List.nodup_append] at hn
  exact hn.2.2 t (List.mem_filterMap.2 ⟨_, ht, rfl⟩) t (by simp) rfl

theorem run_createPointNode_none (r : Option Nat) (p : Point) (s : St) : createPointNode r p none s = .ok s.nn { s with
    nodes := upd s.nodes s.nn { x := p.x, y := p.y, prev := some s.nn, next := some s.nn, ring := r }, nn := s.nn + 1, allNodes := s.allNodes ++ [s.nn] } := rfl

theorem tot_addFirstPoint (h : HW s) {b : Nat} (p : Point) :
    Tot (addFirstPoint b p) s fun _ s' => Grown s s' := by
  refine Tot.grown h (Tot.steady ?_)
  unfold addFirstPoint
  refine Post.bind (Post.run (rfl : createRing s = .ok s.nr _) (Post.bind (Post.modBound ?_)))
  refine Post.bind (Post.run (run_createPointNode_none _ _ _) ?_)
  refine Post.bind (Post.modRing (Post.bind ?_))
  unfold setHoleState
  refine Post.bind (Post.gets ?_)
  dsimp only
  split
  · exact Post.raise trivial
  next i hi =>
  refine Post.bind ((holeStateScan_ok _ _).imp ?_)
  rintro temp s1 ⟨rfl, htemp⟩
  refine Post.bind (Post.getBound ?_)
  dsimp only
  rw [Wagyu.upd_same]
  refine Post.bind (Post.deref (fun r hr => ?_) fun _ => trivial)
  obtain rfl : s.nr = r := Option.some.inj hr
  split
  · refine Post.bind (Post.modRing (Post.modify (Post.modBound ?_)))
    intro hi hst
    refine h.opened (b := b) (pt := p) hi hst rfl rfl rfl (fun k hk => ?_) ?_ ?_ ?_ (fun c hc => ?_) ?_
    · simp only [upd_ne _ _ hk, and_self]
    · simp only [Wagyu.upd_same]
    · simp only [Wagyu.upd_same]; rfl
    · simp only [Wagyu.upd_same]; nofun
    · simp only [upd_ne _ _ hc]
    · simp only [Wagyu.upd_same]
  · next t =>
    have htb : t ≠ b := by
      rcases htemp t rfl with h1 | h1
      · exact mem_take_ne h.once (lastIndexOf_spec hi) (List.mem_reverse.1 h1)
      · cases h1
    have hta : some t ∈ s.abl := by
      rcases htemp t rfl with h1 | h1
      · exact List.mem_of_mem_take (List.mem_reverse.1 h1)
      · cases h1
    refine Post.bind (Post.getBound ?_)
    dsimp only
    rw [upd_ne _ _ htb]
    refine Post.bind (Post.deref (fun tr htr => ?_) fun _ => trivial)
    have hlt := h.held t tr hta htr
    refine Post.bind (Post.modRing (Post.modRing (Post.modBound ?_)))
    intro hi hst
    refine h.opened (b := b) (pt := p) hi hst rfl rfl rfl (fun k hk => ?_) ?_ ?_ ?_ (fun c hc => ?_) ?_
    · dsimp only
      by_cases hk2 : k = tr
      · subst hk2; simp only [Wagyu.upd_same, upd_ne _ _ hk, and_self]
      · simp only [upd_ne _ _ hk2, upd_ne _ _ hk, and_self]
    · simp only [upd_ne _ _ (show s.nr ≠ tr by omega), Wagyu.upd_same]
    · simp only [upd_ne _ _ (show s.nr ≠ tr by omega), Wagyu.upd_same]; rfl
    · simp only [upd_ne _ _ (show s.nr ≠ tr by omega), Wagyu.upd_same]; rintro p ⟨⟩; exact hlt
    · simp only [upd_ne _ _ hc]
    · simp only [Wagyu.upd_same]

theorem tot_addPoint (h : HW s) {b : Nat} (hb : some b ∈ s.abl) (p : Point) :
    Tot (addPoint b p) s fun _ s' => Grown s s' := by
  unfold addPoint
  exact Tot.bind (Tot.getBound (Tot.ite (fun _ => tot_addFirstPoint h p) fun _ => tot_addPointToRing h hb p))

theorem tot_addLocalMinimumPoint (h : HW s) {a b : Nat} (ha : some a ∈ s.abl) (hb : some b ∈ s.abl) (p : Point) :
    Tot (addLocalMinimumPoint p a b) s fun _ s' => Grown s s' := by
  unfold addLocalMinimumPoint
  refine Tot.bind (Tot.reader fun se => Tot.bind (Q' := _) ?_)
  have hfw : ∀ Q : Bool → St → Prop, (∀ v, Q v s) → Tot (do
      if se.isHorizontal = true then pure true
      else
        let fe ← currentEdge a
        let se ← currentEdge b
        pure (F64.lt se.slope fe.slope) : M Bool) s Q := fun Q hQ =>
    Tot.ite (fun _ => Tot.pure (hQ _)) fun _ => Tot.bind (Tot.reader fun _ => Tot.bind (Tot.reader fun _ => Tot.pure (hQ _)))
  refine hfw _ fun v => Tot.ite (fun _ => ?_) fun _ => ?_
  · refine Tot.bind ((tot_addPoint h ha p).imp fun _ s1 hg => Tot.bind (Tot.getBound ?_))
    refine Tot.bound hg (fun _ => ⟨rfl, rfl, rfl, rfl, rfl⟩) (fun r _ hr => hg.hw.held a r (hg.active ha) hr) fun s2 hg2 => ?_
    refine Tot.bound' hg2 (fun _ => ⟨rfl, rfl, rfl, rfl, rfl⟩) (fun _ => rfl) fun s3 hg3 => ?_
    exact tot_modBound' hg3 (fun _ => ⟨rfl, rfl, rfl, rfl, rfl⟩) fun _ => rfl
  · refine Tot.bind ((tot_addPoint h hb p).imp fun _ s1 hg => Tot.bind (Tot.getBound ?_))
    refine Tot.bound hg (fun _ => ⟨rfl, rfl, rfl, rfl, rfl⟩) (fun r _ hr => hg.hw.held b r (hg.active hb) hr) fun s2 hg2 => ?_
    refine Tot.bound' hg2 (fun _ => ⟨rfl, rfl, rfl, rfl, rfl⟩) (fun _ => rfl) fun s3 hg3 => ?_
    exact tot_modBound' hg3 (fun _ => ⟨rfl, rfl, rfl, rfl, rfl⟩) fun _ => rfl

end

end Wagyu
