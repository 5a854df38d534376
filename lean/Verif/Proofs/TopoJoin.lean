import Verif.Proofs.TopoCollinear

/-!
# Collinear edges of two rings
-/

namespace Wagyu

open Spec

section
variable {s s' : St} {L L' : Nat → List Nat} {E : Err → Prop}

/-- The rings `u` and `o` lose nodes, and `u` gets what is left. -/
theorem step_join (h : TI s L) {u o : Nat} (huo : u ≠ o) (hu : u < s.nr) (ho : o < s.nr) {dead live : List Nat}
    (hperm : (dead ++ live).Perm (L u ++ L o)) (hLo : L o ≠ []) (hd : dead ≠ [])
    (hout : ∀ i, i ∉ dead → i ∉ live → s'.nodes i = s.nodes i) (hdead : ∀ i ∈ dead, (s'.nodes i).ring = none)
    (hlive : ∀ i ∈ live, (s'.nodes i).ring = some u) (hloc : ∀ i, locOf s'.nodes i = locOf s.nodes i)
    (hl : live ≠ [] → IsCycle s'.nodes live ∧ StatsOf s.nodes live (s'.rings u))
    (hnn : s'.nn = s.nn) (hnr : s'.nr = s.nr) (hall : s'.allNodes = s.allNodes)
    (hf : ∀ k, k ≠ u → k ≠ o → Alike (s'.rings k) (s.rings k))
    (hnu : (s'.rings u).node = live.head?) (hno : (s'.rings o).node = none)
    (hco : ∀ k, (s'.rings k).corrected = (s.rings k).corrected)
    (hbu : live = [] → Statless (s'.rings u)) (hbo : Statless (s'.rings o)) :
    TStep s L s' (upd (upd L u live) o []) ∧ weight (upd (upd L u live) o []) s'.nr < weight L s.nr := by
  have hmem : ∀ i, (i ∈ L u ∨ i ∈ L o) ↔ i ∈ dead ∨ i ∈ live := fun i => by rw [← List.mem_append, ← hperm.mem_iff, List.mem_append]
  have e1 : upd (upd L u live) o [] u = live := by rw [Wagyu.upd_ne _ _ huo, Wagyu.upd_same]
  have e2 : upd (upd L u live) o [] o = [] := Wagyu.upd_same _ _ _
  have hless : weight (upd (upd L u live) o []) s'.nr < weight L s.nr := by
    rw [hnr]
    have k1 := weight_upd (L := L) hu live
    have k2 := weight_upd (L := upd L u live) ho []
    rw [Wagyu.upd_ne _ _ (Ne.symm huo)] at k2
    have k3 := hperm.length_eq
    have k4 := List.length_pos_iff.2 hd
    have k5 := List.length_pos_iff.2 hLo
    unfold nwt at *
    simp only [List.length_append, List.length_nil] at *
    omega
  refine ⟨TStep.update h (fun k => k = u ∨ k = o) _ hnn hnr.ge hall hloc (fun k hk => ?_)
    (fun k hk => hf k (fun e => hk (Or.inl e)) (fun e => hk (Or.inr e))) (fun i hi => ?_) ?_ ?_ ?_ ?_ ?_ ?_ ?_ hless.le, hless⟩
  · rw [Wagyu.upd_ne _ _ (fun e => hk (Or.inr e)), Wagyu.upd_ne _ _ (fun e => hk (Or.inl e))]
  · have : ¬ (i ∈ L u ∨ i ∈ L o) := by
      rintro (e | e)
      · exact hi u (Or.inl rfl) e
      · exact hi o (Or.inr rfl) e
    rw [hmem] at this
    exact hout i (fun e => this (Or.inl e)) (fun e => this (Or.inr e))
  · rintro d (rfl | rfl)
    · rw [e1]; exact hnu
    · rw [e2]; exact hno
  · rintro d (rfl | rfl) hne
    · rw [e1] at hne ⊢; exact ⟨by omega, (hl hne).1⟩
    · rw [e2] at hne; exact absurd rfl hne
  · rintro d (rfl | rfl) i hi
    · rw [e1] at hi
      refine ⟨?_, hlive i hi⟩
      rcases (hmem i).2 (Or.inr hi) with e | e
      · exact ⟨_, Or.inl rfl, e⟩
      · exact ⟨_, Or.inr rfl, e⟩
    · rw [e2] at hi; cases hi
  · intro e he i hi k hk
    have : i ∈ dead ∨ i ∈ live := (hmem i).1 (by rcases he with rfl | rfl; exacts [Or.inl hi, Or.inr hi])
    rcases this with q | q
    · rw [hdead i q] at hk; cases hk
    · rw [hlive i q] at hk
      cases Option.some.inj hk
      exact ⟨Or.inl rfl, by rw [e1]; exact q⟩
  · rintro d (rfl | rfl) hne
    · rw [e1] at hne ⊢; exact (hl hne).2
    · rw [e2] at hne; exact absurd rfl hne
  · rintro d - hc; rw [← hco]; exact hc
  · rintro d (rfl | rfl) hne
    · rw [e1] at hne; exact hbu hne
    · exact hbo

/-- A ring in two parts. -/
theorem two_parts {l : List Nat} {h : Nat → Node} (hc : IsCycle h l) {x y : Nat} (hx : x ∈ l) (hy : y ∈ l) :
    ∃ t R, IsCycle h (x :: t ++ R) ∧ (x :: t ++ R) ~r l ∧ R.headD x = y := by
  obtain ⟨t, h1, h2⟩ := cycle_rot hc hx
  by_cases e : y = x
  · exact ⟨t, [], by simpa using h1, by simpa using h2, e.symm⟩
  · have : y ∈ t := by
      have := h2.mem_iff.2 hy
      simpa [e] using this
    obtain ⟨p, q, rfl⟩ := List.append_of_mem this
    exact ⟨p, y :: q, h1, h2, rfl⟩

theorem ringSize_known {r : Nat} (h : (s.rings r).area.isNan = false) : Ends E (ringSize r) s fun n s' => s' = s ∧ n = (s.rings r).size := by
  unfold ringSize
  refine Ends.bind (Ends.getRing ?_)
  rw [if_neg (by rw [h]; simp)]
  refine Ends.bind (Ends.getRing ?_)
  exact Ends.pure ⟨rfl, rfl⟩

/-- The end of `process_collinear_edges_different_rings`. -/
theorem ends_union (h : TI s L) {u o : Nat} (huo : u ≠ o) (hu : u < s.nr) (ho : o < s.nr) {dead : List Nat} {c : Nat} {t : List Nat}
    (hperm : (dead ++ c :: t).Perm (L u ++ L o)) (hLo : L o ≠ []) (hd : dead ≠ []) {h' : Nat → Node} (ht : Trim dead (c :: t) s.nodes h')
    (hc : IsCycle h' (c :: t)) :
    Ends E (do
      setRingNode u (some c)
      updatePoints u
      recalculateStats u
      if (← ringSize u) < 3 then removeRingAndPointsKeepChildren u
      removeRingKeepChildren o) { s with nodes := h' } fun _ s' => ∃ L', TStep s L s' L' ∧ weight L' s'.nr < weight L s.nr := by
  have hnd : (dead ++ c :: t).Nodup := by
    refine hperm.nodup_iff.2 (List.nodup_append.2 ⟨?_, (h.own.cycle o hLo).2.nodup, fun i hi j hj e => ?_⟩)
    · by_cases e : L u = []
      · rw [e]; simp
      · exact (h.own.cycle u e).2.nodup
    · subst e; exact huo (h.own.dist hi hj)
  have hdis : ∀ i ∈ dead, i ∉ c :: t := fun i hi hi' => (List.nodup_append.1 hnd).2.2 i hi i hi' rfl
  refine Ends.bind (Ends.setRingNode ?_)
  dsimp only
  refine Ends.bind ((ends_updatePoints (r := u) (a := c) (t := t) (by simp [Wagyu.upd_same]) hc).imp ?_)
  rintro _ s2 rfl
  dsimp only
  refine Ends.bind ((ends_recalculate (r := u) (a := c) (t := t) (by simp [Wagyu.upd_same]) (isCycle_withRing hc)).imp ?_)
  rintro _ s3 ⟨g, rfl, hg, hg'⟩
  dsimp only at hg hg' ⊢
  have hgn := congrArg Ring.node hg'
  have hgc := congrArg Ring.corrected hg'
  simp only [Wagyu.upd_same, Ring.resetStats] at hgn hgc
  have hst : StatsOf s.nodes (c :: t) g := hg.congr fun i => by rw [withRing_loc]; exact ht.loc i
  refine Ends.bind ((ringSize_known ?_).imp ?_)
  · simp only [Wagyu.upd_same]; exact hst.notNan
  rintro n s3 ⟨rfl, -⟩
  refine Ends.ite (fun _ => ?_) fun _ => ?_
  · refine Ends.bind ((ends_removeRingAndPoints' u (l := c :: t) (by simp only [Wagyu.upd_same]; exact hgn) (fun _ => isCycle_withRing hc)).imp ?_)
    rintro _ s4 hg4
    refine (ends_removeRing s4 o).imp fun _ s5 hg5 => ?_
    have hg4 : Gone u _ s4 := hg4
    have n1 := hg4.nn
    have n2 := hg4.nr
    have n3 := hg4.allNodes
    have n4 := hg4.nodes
    dsimp only at n1 n2 n3 n4
    have hn5 : s5.nodes = discard (c :: t) (withRing (c :: t) (some u) h') := hg5.nodes.trans n4
    refine ⟨_, step_join h (dead := dead ++ c :: t) (live := []) huo hu ho (by simpa using hperm) hLo (by simp [hd]) (fun i hi _ => ?_) (fun i hi => ?_)
      (fun i hi => by cases hi) (fun i => ?_) (fun e => absurd rfl e) (hg5.nn.trans n1) (hg5.nr.trans n2) (hg5.allNodes.trans n3) (fun k k1 k2 => ?_) ?_ ?_ (fun k => ?_) ?_ ?_⟩
    · have i1 : i ∉ dead := fun e => hi (by simp [e])
      have i2 : i ∉ c :: t := fun e => hi (by simp only [List.mem_append]; exact Or.inr e)
      rw [hn5]; unfold discard withRing
      rw [if_neg i2, if_neg i2]; exact ht.out i i1 i2
    · rw [hn5]; unfold discard withRing
      rcases List.mem_append.1 hi with q | q
      · rw [if_neg (hdis i q), if_neg (hdis i q)]; exact ht.dead i q
      · rw [if_pos q]
    · rw [hn5, discard_loc, withRing_loc]; exact ht.loc i
    · have b := hg4.same k1
      simp only [Wagyu.upd_ne _ _ k1] at b
      exact (hg5.same k2).trans b
    · rw [hg5.node, if_neg huo, hg4.node, if_pos rfl]; rfl
    · rw [hg5.node, if_pos rfl]
    · rw [hg5.corrected, hg4.corrected]
      by_cases k1 : k = u
      · subst k1; simp only [Wagyu.upd_same]; exact hgc
      · simp only [Wagyu.upd_ne _ _ k1]
    · exact fun _ => Statless.congr hg4.statless (hg5.same huo)
    · exact hg5.statless
  · refine (ends_removeRing _ o).imp fun _ s5 hg5 => ?_
    have n1 := hg5.nn
    have n2 := hg5.nr
    have n3 := hg5.allNodes
    have n4 := hg5.nodes
    dsimp only at n1 n2 n3 n4
    refine ⟨_, step_join h (dead := dead) (live := c :: t) huo hu ho hperm hLo hd (fun i i1 i2 => ?_) (fun i hi => ?_)
      (fun i hi => ?_) (fun i => ?_) (fun e => ⟨?_, ?_⟩) n1 n2 n3 (fun k k1 k2 => ?_) ?_ ?_ (fun k => ?_) ?_ ?_⟩
    · rw [n4]; unfold withRing
      rw [if_neg i2]; exact ht.out i i1 i2
    · rw [n4]; unfold withRing
      rw [if_neg (hdis i hi)]; exact ht.dead i hi
    · rw [n4]; unfold withRing
      rw [if_pos hi]
    · rw [n4, withRing_loc]; exact ht.loc i
    · rw [n4]; exact isCycle_withRing hc
    · obtain ⟨kids, ch, rfl⟩ := hg5
      simp only [if_neg huo, Wagyu.upd_same]
      exact ⟨hst.area, hst.size, hst.hole, hst.box⟩
    · have a := hg5.same k2
      simp only [Wagyu.upd_ne _ _ k1] at a
      exact a
    · rw [hg5.node, if_neg huo]; simp only [Wagyu.upd_same]; exact hgn
    · rw [hg5.node, if_pos rfl]
    · rw [hg5.corrected]
      by_cases k1 : k = u
      · subst k1; simp only [Wagyu.upd_same]; exact hgc
      · simp only [Wagyu.upd_ne _ _ k1]
    · nofun
    · exact hg5.statless

/-- `process_collinear_edges_different_rings`. -/
theorem ends_differentRings (h : TI s L) {r q a b : Nat} (hrq : r ≠ q) (ha : a ∈ L r) (hb : b ∈ L q) (nba : NB s a) (nbb : NB s b) :
    Ends E (processCollinearEdgesDifferentRings a b) s fun _ s' => ∃ L', TStep s L s' L' ∧ weight L' s'.nr < weight L s.nr := by
  have hra := (h.own.own r a ha).2
  have hrb := (h.own.own q b hb).2
  unfold processCollinearEdgesDifferentRings
  refine Ends.bind (Ends.getNode (Ends.bind (Ends.deref hra (Ends.bind (Ends.getNode (Ends.bind (Ends.deref hrb ?_)))))))
  refine Ends.bind ((ends_ringArea h.own r).imp ?_)
  rintro fa s1 ⟨-, hr1⟩
  have st1 := hr1.step h
  refine Ends.bind ((ends_ringArea st1.ti.own q).imp ?_)
  rintro sa s2 ⟨-, hr2⟩
  have st := st1.trans (hr2.step st1.ti)
  have hnodes : s2.nodes = s.nodes := hr2.only.nodes.trans hr1.only.nodes
  have nba2 : NB s2 a := ⟨by rw [hnodes]; exact nba.next, by rw [hnodes]; exact nba.prev⟩
  have nbb2 : NB s2 b := ⟨by rw [hnodes]; exact nbb.next, by rw [hnodes]; exact nbb.prev⟩
  suffices hs : Ends E (do
      let (s1, e1, s2, e2) ← findStartAndEndOfCollinearEdges a b
      let (pt1, _) ← fixCollinearPath s1 e1 s2 e2
      match pt1 with
      | none =>
        removeRingKeepChildren r
        removeRingKeepChildren q
      | some pt1 =>
        let unionRing := if F64.lt sa.abs fa.abs then r else q
        let outsider := if F64.lt sa.abs fa.abs then q else r
        setRingNode unionRing (some pt1)
        updatePoints unionRing
        recalculateStats unionRing
        if (← ringSize unionRing) < 3 then removeRingAndPointsKeepChildren unionRing
        removeRingKeepChildren outsider) s2 fun _ s' => ∃ L', TStep s2 L s' L' ∧ weight L' s'.nr < weight L s2.nr by
    refine hs.imp ?_
    rintro _ s3 ⟨L', h1, h2⟩
    exact ⟨L', st.trans h1, Nat.lt_of_lt_of_le h2 st.wle⟩
  have h2 := st.ti
  clear hr1 hr2 st1
  refine Ends.bind ((ends_findStart_diff h2.own hrq ha hb nba2 nbb2).imp ?_)
  rintro ⟨x1, y1, x2, y2⟩ s3 ⟨rfl, m1, m2, m3, m4⟩
  dsimp only at m1 m2 m3 m4
  obtain ⟨t1, R1, c1, rot1, rfl⟩ := two_parts (h2.own.cyc ha) m1 m2
  obtain ⟨t2, R2, c2, rot2, rfl⟩ := two_parts (h2.own.cyc hb) m3 m4
  refine Ends.bind ((ends_fixCollinearPath_diff c1 c2 ?_).imp ?_)
  · intro i hi hi'
    exact hrq (h2.own.dist (rot1.mem_iff.1 hi) (rot2.mem_iff.1 hi'))
  rintro ⟨pt1, pt2⟩ s4 ⟨h', rfl, ht, hcyc, hp⟩
  dsimp only at hp
  subst hp
  have hperm : ((x1 :: t1 ++ x2 :: t2) ++ (R1 ++ R2)).Perm (L r ++ L q) := by
    refine List.Perm.trans ?_ (rot1.perm.append rot2.perm)
    rw [List.append_assoc, List.append_assoc]
    refine List.Perm.append_left _ ?_
    rw [← List.append_assoc, ← List.append_assoc]
    exact List.perm_append_comm.append_right _
  have hr := h2.own.lt ha
  have hq := h2.own.lt hb
  cases hl : R1 ++ R2 with
  | nil =>
    simp only [List.head?_nil]
    refine Ends.bind ((ends_removeRing _ r).imp fun _ s4 hg4 => ?_)
    refine (ends_removeRing s4 q).imp fun _ s5 hg5 => ?_
    have n1 := hg4.nn
    have n2 := hg4.nr
    have n3 := hg4.allNodes
    have n4 := hg4.nodes
    dsimp only at n1 n2 n3 n4
    have hn5 : s5.nodes = h' := hg5.nodes.trans n4
    rw [hl] at ht hperm
    refine ⟨_, step_join h2 (dead := x1 :: t1 ++ x2 :: t2) (live := []) hrq hr hq hperm (List.ne_nil_of_mem hb) (by simp) (fun i hi _ => ?_) (fun i hi => ?_)
      (fun i hi => by cases hi) (fun i => ?_) (fun e => absurd rfl e) (hg5.nn.trans n1) (hg5.nr.trans n2) (hg5.allNodes.trans n3) (fun k k1 k2 => ?_) ?_ ?_ (fun k => ?_) ?_ ?_⟩
    · rw [hn5]; exact ht.out i hi (by simp)
    · rw [hn5]; exact ht.dead i hi
    · rw [hn5]; exact ht.loc i
    · exact (hg5.same k2).trans (hg4.same k1)
    · rw [hg5.node, if_neg hrq, hg4.node, if_pos rfl]; rfl
    · rw [hg5.node, if_pos rfl]
    · rw [hg5.corrected, hg4.corrected]
    · exact fun _ => Statless.congr hg4.statless (hg5.same hrq)
    · exact hg5.statless
  | cons c t =>
    rw [hl] at ht hperm hcyc
    simp only [List.head?_cons]
    have hc := hcyc (by simp)
    by_cases hlt : F64.lt sa.abs fa.abs = true
    · simp only [hlt, if_true]
      exact ends_union h2 hrq hr hq hperm (List.ne_nil_of_mem hb) (by simp) ht hc
    · simp only [hlt, if_false, Bool.false_eq_true]
      exact ends_union h2 (Ne.symm hrq) hq hr (hperm.trans List.perm_append_comm) (List.ne_nil_of_mem ha) (by simp) ht hc

end

end Wagyu
