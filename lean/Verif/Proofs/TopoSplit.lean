import Verif.Proofs.TopoDrop

/-!
# Splitting a ring at two nodes
-/

namespace Wagyu

open Spec

section
variable {s s' : St} {L L' : Nat → List Nat} {E : Err → Prop}

theorem ends_updatePoints {r a : Nat} {t : List Nat} (hr : (s.rings r).node = some a) (hl : IsCycle s.nodes (a :: t)) :
    Ends E (updatePoints r) s fun _ s' => s' = { s with nodes := withRing (a :: t) (some r) s.nodes } :=
  Ends.run (t.length + 1) (fun k hk => by
    have := updatePoints_run (s := s.wf k) hr hl (by show t.length < k; omega)
    rw [this]; rfl) rfl

theorem withRing_loc (l : List Nat) (r : Option Nat) (h : Nat → Node) (i : Nat) : locOf (withRing l r h) i = locOf h i := by
  unfold withRing locOf
  by_cases e : i ∈ l <;> simp [e]

theorem ends_recalculate {r a : Nat} {t : List Nat} (hr : (s.rings r).node = some a) (hl : IsCycle s.nodes (a :: t)) :
    Ends E (recalculateStats r) s fun _ s' => ∃ g, s' = { s with rings := upd s.rings r g } ∧ StatsOf s.nodes (a :: t) g
      ∧ g.resetStats = (s.rings r).resetStats := by
  unfold recalculateStats
  refine Ends.bind (Ends.getRing ?_)
  rw [hr]
  refine Ends.bind ((ends_nodeStats hl).imp ?_)
  rintro ⟨ar, sz, bx⟩ s ⟨rfl, h1, h2, h3⟩
  simp only at h1 h2 h3
  subst h1 h2
  exact Ends.modRing ⟨_, rfl, ⟨rfl, rfl, rfl, h3⟩, rfl⟩

/-- The ring `r` is split into the lists `A`, which it keeps, and `B`, which a new ring gets. -/
structure Halved (s : St) (L : Nat → List Nat) (r : Nat) (A B : List Nat) (s' : St) (L' : Nat → List Nat) : Prop where
  step : TStep s L s' L'
  rot : (A ++ B) ~r L r
  lists : L' = upd (upd L r A) s.nr B
  nr : s'.nr = s.nr + 1
  less : weight L' s'.nr < weight L s.nr
  statsA : StatsOf s.nodes A (s'.rings r)
  statsB : StatsOf s.nodes B (s'.rings s.nr)
  keep : (s'.rings r).parent = (s.rings r).parent ∧ (s'.rings r).children = (s.rings r).children ∧ (s'.rings r).corrected = (s.rings r).corrected
  fresh : (s'.rings s.nr).parent = none ∧ (s'.rings s.nr).children = [] ∧ (s'.rings s.nr).corrected = false
  others : ∀ k, k ≠ r → k ≠ s.nr → s'.rings k = s.rings k
  sib : s'.children = s.children

/-- The state after the split. -/
theorem halved_of (h : TI s L) {r : Nat} {a b : Nat} {P Q : List Nat} (hr : r < s.nr) (hrot : ((a :: P) ++ (b :: Q)) ~r L r)
    {g g' : Ring} {h' : Nat → Node} (hA : IsCycle h' (a :: P)) (hB : IsCycle h' (b :: Q)) (hl : OnlyLinksOf (a :: P ++ b :: Q) s.nodes h')
    (hg : StatsOf s.nodes (a :: P) g) (hg' : StatsOf s.nodes (b :: Q) g') (hgn : g.node = some a) (hgn' : g'.node = some b)
    (hgr : { g with node := (s.rings r).node }.resetStats = (s.rings r).resetStats) (hgr' : { g' with node := none }.resetStats = Ring.fresh.resetStats)
    (hs' : s' = { s with nodes := withRing (b :: Q) (some s.nr) h', rings := upd (upd s.rings r g) s.nr g', nr := s.nr + 1 }) :
    Halved s L r (a :: P) (b :: Q) s' (upd (upd L r (a :: P)) s.nr (b :: Q)) := by
  have hne : s.nr ≠ r := by omega
  have hnodes : s'.nodes = withRing (b :: Q) (some s.nr) h' := by rw [hs']
  have hloc : ∀ i, locOf s'.nodes i = locOf s.nodes i := by
    intro i; rw [hnodes, withRing_loc]; unfold locOf; rw [(hl.1 i).1, (hl.1 i).2.1]
  have r1 : s'.rings r = g := by rw [hs']; simp only; rw [Wagyu.upd_ne _ _ (Ne.symm hne), Wagyu.upd_same]
  have r2 : s'.rings s.nr = g' := by rw [hs']; simp only; rw [Wagyu.upd_same]
  have r3 : ∀ k, k ≠ r → k ≠ s.nr → s'.rings k = s.rings k := fun k h1 h2 => by
    rw [hs']; simp only; rw [Wagyu.upd_ne _ _ h2, Wagyu.upd_ne _ _ h1]
  have hnr : s'.nr = s.nr + 1 := by rw [hs']
  have e1 : (upd (upd L r (a :: P)) s.nr (b :: Q)) r = a :: P := by rw [Wagyu.upd_ne _ _ (Ne.symm hne), Wagyu.upd_same]
  have e2 : (upd (upd L r (a :: P)) s.nr (b :: Q)) s.nr = b :: Q := Wagyu.upd_same _ _ _
  have c1 : g.corrected = (s.rings r).corrected := by have h := congrArg Ring.corrected hgr; exact h
  have c2 : g'.corrected = Ring.fresh.corrected := by have h := congrArg Ring.corrected hgr'; exact h
  have c3 : g.parent = (s.rings r).parent := by have h := congrArg Ring.parent hgr; exact h
  have c4 : g'.parent = Ring.fresh.parent := by have h := congrArg Ring.parent hgr'; exact h
  have c5 : g.children = (s.rings r).children := by have h := congrArg Ring.children hgr; exact h
  have c6 : g'.children = Ring.fresh.children := by have h := congrArg Ring.children hgr'; exact h
  have hcyc : IsCycle s.nodes (L r) := by
    refine (h.own.cycle r ?_).2
    intro e
    rw [e] at hrot
    have := hrot.perm.length_eq
    simp at this
  have hnd : (a :: P ++ b :: Q).Nodup := hrot.perm.nodup_iff.2 hcyc.nodup
  have hdis : ∀ i ∈ a :: P, i ∉ b :: Q := fun i hi hi' => (List.nodup_append.1 hnd).2.2 i hi i hi' rfl
  have hless : weight (upd (upd L r (a :: P)) s.nr (b :: Q)) s'.nr < weight L s.nr := by
    rw [hnr, weight_succ, e2]
    have h1 : weight (upd (upd L r (a :: P)) s.nr (b :: Q)) s.nr = weight (upd L r (a :: P)) s.nr :=
      weight_congr fun k hk => by rw [Wagyu.upd_ne _ _ (by omega)]
    have h2 := weight_upd (L := L) hr (a :: P)
    have h3 := hrot.perm.length_eq
    unfold nwt at *
    simp only [List.length_append, List.length_cons] at *
    omega
  refine ⟨?_, hrot, rfl, hnr, hless, by rw [r1]; exact hg, by rw [r2]; exact hg', by rw [r1]; exact ⟨c3, c5, c1⟩, by rw [r2]; exact ⟨c4, c6, c2⟩, r3, by rw [hs']⟩
  refine TStep.update h (fun k => k = r ∨ k = s.nr) _ (by rw [hs']) (by omega) (by rw [hs']) hloc (fun k hk => ?_) (fun k hk => ?_) (fun i hi => ?_)
    ?_ ?_ ?_ ?_ ?_ ?_ ?_ hless.le
  · rw [Wagyu.upd_ne _ _ (fun e => hk (Or.inr e)), Wagyu.upd_ne _ _ (fun e => hk (Or.inl e))]
  · rw [r3 k (fun e => hk (Or.inl e)) (fun e => hk (Or.inr e))]; exact Alike.refl _
  · have hi' : i ∉ a :: P ++ b :: Q := fun hm => hi r (Or.inl rfl) (hrot.mem_iff.1 hm)
    rw [hnodes]; unfold withRing
    rw [if_neg (fun hm => hi' (List.mem_append_right _ hm))]
    exact hl.2 i hi'
  · rintro d (rfl | rfl)
    · rw [r1, e1]; exact hgn
    · rw [r2, e2]; exact hgn'
  · rintro d (rfl | rfl) -
    · rw [e1, hnodes]; exact ⟨by omega, isCycle_withRing hA⟩
    · rw [e2, hnodes]; exact ⟨by omega, isCycle_withRing hB⟩
  · rintro d (rfl | rfl) i hi
    · rw [e1] at hi
      have hir := hrot.mem_iff.1 (List.mem_append_left (b :: Q) hi)
      refine ⟨⟨d, Or.inl rfl, hir⟩, ?_⟩
      rw [hnodes]; unfold withRing
      rw [if_neg (hdis i hi), (hl.1 i).2.2]
      exact (h.own.own d i hir).2
    · rw [e2] at hi
      refine ⟨⟨r, Or.inl rfl, hrot.mem_iff.1 (List.mem_append_right _ hi)⟩, ?_⟩
      rw [hnodes]; unfold withRing
      rw [if_pos hi]
  · rintro d (rfl | rfl) i hi k hk
    · rw [hnodes] at hk; unfold withRing at hk
      by_cases hq : i ∈ b :: Q
      · rw [if_pos hq] at hk
        cases Option.some.inj hk
        exact ⟨Or.inr rfl, by rw [e2]; exact hq⟩
      · rw [if_neg hq, (hl.1 i).2.2, (h.own.own d i hi).2] at hk
        cases Option.some.inj hk
        refine ⟨Or.inl rfl, ?_⟩
        rw [e1]
        exact (List.mem_append.1 (hrot.mem_iff.2 hi)).resolve_right hq
    · rw [h.own.big (Nat.le_refl _)] at hi; cases hi
  · rintro d (rfl | rfl) -
    · rw [r1, e1]; exact hg
    · rw [r2, e2]; exact hg'
  · rintro d (rfl | rfl) hc
    · rw [r1, c1] at hc; exact hc
    · rw [r2, c2] at hc; cases hc
  · rintro d (rfl | rfl) hne
    · rw [e1] at hne; cases hne
    · rw [e2] at hne; cases hne

/-- `correct_self_intersection` at two nodes of a ring. -/
theorem ends_correctSelfIntersection (h : TI s L) {r a b : Nat} (hab : a ≠ b) (ha : a ∈ L r) (hb : b ∈ L r) :
    Ends E (correctSelfIntersection a b) s fun o s' => o = some s.nr ∧ ∃ P Q L', ((a :: P) ++ (b :: Q)) ~r L r
      ∧ (Halved s L r (a :: P) (b :: Q) s' L' ∨ Halved s L r (b :: Q) (a :: P) s' L') := by
  obtain ⟨t, hc, hrot⟩ := cycle_rot (h.own.cyc ha) ha
  have hbt : b ∈ t := by
    have := hrot.mem_iff.2 hb
    simpa [Ne.symm hab] using this
  obtain ⟨P, Q, rfl⟩ := List.append_of_mem hbt
  obtain ⟨third, fourth, e1, e2, hA, hB, hl⟩ := isCycle_cut (P := P) (Q := Q) hc
  have hra := (h.own.own r a ha).2
  have hrb := (h.own.own r b hb).2
  unfold correctSelfIntersection
  refine Ends.bind (Ends.getNode (Ends.bind (Ends.getNode ?_)))
  rw [hra, hrb, if_neg (by simp)]
  refine Ends.bind (Ends.prevOf e1 (Ends.bind (Ends.prevOf e2 ?_)))
  refine Ends.bind (Ends.setPrev (Ends.bind (Ends.setNext (Ends.bind (Ends.setPrev (Ends.bind (Ends.setNext ?_)))))))
  refine Ends.bind (Ends.createRing ?_)
  have hcut := cut_def s.nodes a b third fourth
  unfold putNext putPrev at hcut
  dsimp only
  rw [← hcut]
  have hpts : ∀ l, pointsOf (cut s.nodes a b third fourth) l = pointsOf s.nodes l := fun l =>
    pointsOf_congr (fun i => by unfold locOf; rw [(hl.1 i).1, (hl.1 i).2.1]) l
  refine Ends.bind ((ends_nodeStats (by exact hA)).imp ?_)
  rintro ⟨fa, fs, fb⟩ _ ⟨rfl, f1, f2, f3⟩
  refine Ends.bind ((ends_nodeStats (by exact hB)).imp ?_)
  rintro ⟨sa, ss, sb⟩ _ ⟨rfl, g1, g2, g3⟩
  dsimp only at f1 f2 f3 g1 g2 g3
  rw [hpts] at f1 f3 g1 g3
  subst f1 f2 g1 g2
  refine Ends.bind (Ends.deref rfl ?_)
  have hr := h.own.lt ha
  have hne : s.nr ≠ r := by omega
  refine Ends.ite (fun hlt => ?_) fun hlt => ?_
  · refine Ends.bind (Ends.setRingNode (Ends.bind (Ends.modRing (Ends.bind (Ends.setRingNode (Ends.bind (Ends.modRing ?_)))))))
    dsimp only
    refine Ends.bind ((ends_updatePoints (a := b) (t := Q) (by simp [Wagyu.upd_same]) hB).imp ?_)
    rintro _ _ rfl
    refine Ends.pure ⟨rfl, P, Q, _, hrot, Or.inl (halved_of (g := { s.rings r with node := some a, area := intDiv (area2 (pointsOf s.nodes (a :: P))) 2, size := (a :: P).length, box := fb, isHole := F64.le (intDiv (area2 (pointsOf s.nodes (a :: P))) 2) (.fin 0) })
      (g' := { Ring.fresh with node := some b, area := intDiv (area2 (pointsOf s.nodes (b :: Q))) 2, size := (b :: Q).length, box := sb, isHole := F64.le (intDiv (area2 (pointsOf s.nodes (b :: Q))) 2) (.fin 0) }) h hr hrot hA hB hl ⟨rfl, rfl, rfl, f3⟩ ⟨rfl, rfl, rfl, g3⟩ rfl rfl ?_ ?_ ?_)⟩
    rotate_left 2
    · congr 1
      funext k
      by_cases k1 : k = s.nr
      · subst k1; simp [upd, hne]
      · by_cases k2 : k = r
        · subst k2; simp [upd, k1]
        · simp [Wagyu.upd_ne _ _ k1, Wagyu.upd_ne _ _ k2]
    · rfl
    · rfl
  · have hrot' : ((b :: Q) ++ (a :: P)) ~r L r := List.isRotated_append.trans hrot
    have hl' : OnlyLinksOf (b :: Q ++ a :: P) s.nodes (cut s.nodes a b third fourth) :=
      ⟨hl.1, fun i hi => hl.2 i fun hm => hi (List.mem_append.2 (List.mem_append.1 hm).symm)⟩
    refine Ends.bind (Ends.setRingNode (Ends.bind (Ends.modRing (Ends.bind (Ends.setRingNode (Ends.bind (Ends.modRing ?_)))))))
    dsimp only
    refine Ends.bind ((ends_updatePoints (a := a) (t := P) (by simp [Wagyu.upd_same]) hA).imp ?_)
    rintro _ _ rfl
    refine Ends.pure ⟨rfl, P, Q, _, hrot, Or.inr (halved_of (g := { s.rings r with node := some b, area := intDiv (area2 (pointsOf s.nodes (b :: Q))) 2, size := (b :: Q).length, box := sb, isHole := F64.le (intDiv (area2 (pointsOf s.nodes (b :: Q))) 2) (.fin 0) })
      (g' := { Ring.fresh with node := some a, area := intDiv (area2 (pointsOf s.nodes (a :: P))) 2, size := (a :: P).length, box := fb, isHole := F64.le (intDiv (area2 (pointsOf s.nodes (a :: P))) 2) (.fin 0) }) h hr hrot' hB hA hl' ⟨rfl, rfl, rfl, g3⟩ ⟨rfl, rfl, rfl, f3⟩ rfl rfl ?_ ?_ ?_)⟩
    rotate_left 2
    · congr 1
      funext k
      by_cases k1 : k = s.nr
      · subst k1; simp [upd, hne]
      · by_cases k2 : k = r
        · subst k2; simp [upd, k1]
        · simp [Wagyu.upd_ne _ _ k1, Wagyu.upd_ne _ _ k2]
    · rfl
    · rfl

end

end Wagyu
