import Verif.Proofs.TopoJoin

/-!
# Repeated points and collinear edges, run by run
-/

namespace Wagyu

open Spec

section
variable {s s' : St} {L L' : Nat → List Nat} {E : Err → Prop}

theorem ends_hasCollinearEdge {a b : Nat} :
    Ends E (hasCollinearEdge a b) s fun c s' => s' = s ∧ (c = true → ∀ x y z w, (s.nodes a).next = some x → (s.nodes b).prev = some y →
      (s.nodes b).next = some z → (s.nodes a).prev = some w → locOf s.nodes x = locOf s.nodes y ∨ locOf s.nodes z = locOf s.nodes w) := by
  unfold hasCollinearEdge
  refine Ends.bind (Ends.getNode (Ends.bind (Ends.getNode ?_)))
  refine Ends.bind ((ends_nodesEq _ _).imp ?_)
  rintro c s1 ⟨rfl, h1⟩
  refine Ends.ite (fun e => Ends.pure ⟨rfl, fun _ x y z w hx hy _ _ => .inl ?_⟩) fun e => ?_
  · have := h1 x y hx hy
    rw [e] at this
    exact of_decide_eq_true this.symm
  · refine (ends_nodesEq _ _).imp ?_
    rintro d s2 ⟨rfl, h2⟩
    refine ⟨rfl, fun hd x y z w _ _ hz hw => .inr ?_⟩
    have := h2 z w hz hw
    rw [hd] at this
    exact of_decide_eq_true this.symm

theorem ends_processCollinearEdges (h : TI s L) {a b : Nat} (hab : a ≠ b) (ha : a < s.nn) (hb : b < s.nn) (hloc : locOf s.nodes a = locOf s.nodes b) :
    Ends E (processCollinearEdges a b) s fun c s' => ∃ L', TStep s L s' L' ∧ (c = true → weight L' s'.nr < weight L s.nr) := by
  unfold processCollinearEdges
  refine Ends.bind (Ends.getNode (Ends.bind (Ends.getNode ?_)))
  refine Ends.ite (fun _ => Ends.pure ⟨L, TStep.refl h, by rintro ⟨⟩⟩) fun e => ?_
  simp only [not_or] at e
  refine Ends.bind ((ends_removeDuplicatePoints h hab ha hb e.1 e.2 hloc).imp ?_)
  rintro c s1 ⟨L1, st, h1, h2⟩
  refine Ends.ite (fun hc => Ends.pure ⟨L1, st, fun _ => h1 hc⟩) fun hc => ?_
  have hc : c = false := by simpa using hc
  obtain ⟨hra, hrb, nba, nbb⟩ := h2 hc
  obtain ⟨r, hr⟩ := Option.ne_none_iff_exists'.1 hra
  obtain ⟨q, hq⟩ := Option.ne_none_iff_exists'.1 hrb
  have hma : a ∈ L1 r := st.ti.own.mem (by rw [st.nn]; exact ha) hr
  have hmb : b ∈ L1 q := st.ti.own.mem (by rw [st.nn]; exact hb) hq
  have hloc1 : locOf s1.nodes a = locOf s1.nodes b := by rw [st.loc, st.loc, hloc]
  refine Ends.bind (ends_hasCollinearEdge.imp ?_)
  rintro d s2 ⟨rfl, hd⟩
  refine Ends.bind (Ends.getNode (Ends.bind (Ends.getNode ?_)))
  rw [hr, hq]
  refine Ends.ite (fun _ => ?_) fun e3 => ?_
  · refine Ends.ite (fun e => ?_) fun e => Ends.pure ⟨L1, st, by rintro ⟨⟩⟩
    obtain rfl : r = q := by simpa using e
    refine Ends.bind ((ends_correctSelfIntersection st.ti hab hma hmb).imp ?_)
    rintro o s3 ⟨-, P, Q, L3, -, hh⟩
    refine Ends.pure ⟨L3, ?_⟩
    rcases hh with hh | hh
    · exact ⟨st.trans hh.step, fun _ => lt_of_lt_of_le hh.less st.wle⟩
    · exact ⟨st.trans hh.step, fun _ => lt_of_lt_of_le hh.less st.wle⟩
  · have hdt : d = true := by simpa using e3
    refine Ends.ite (fun e => ?_) fun e => ?_
    · obtain rfl : r = q := by simpa using e
      have hcol := hd hdt
      have ex : ∀ i ∈ L1 r, (∃ x, (s2.nodes i).next = some x) ∧ ∃ y, (s2.nodes i).prev = some y := by
        intro i hi
        obtain ⟨t, hcy, -⟩ := cycle_rot (st.ti.own.cyc hi) hi
        refine ⟨?_, ⟨_, ((isCycle_iff (by simp)).1 hcy).2.2.2⟩⟩
        cases t with
        | nil => exact ⟨_, ((isCycle_iff (by simp)).1 hcy).2.2.1⟩
        | cons x t => exact ⟨_, (List.isChain_cons_cons.1 ((isCycle_iff (by simp)).1 hcy).2.1).1.1⟩
      obtain ⟨⟨x, hx⟩, ⟨w, hw⟩⟩ := ex a hma
      obtain ⟨⟨z, hz⟩, ⟨y, hy⟩⟩ := ex b hmb
      refine Ends.bind ((ends_sameRing st.ti hab hma hmb hloc1 nba nbb ?_).imp ?_)
      · rcases hcol x y z w hx hy hz hw with e | e
        · exact .inl ⟨x, y, hx, hy, e⟩
        · exact .inr ⟨z, w, hz, hw, e⟩
      · rintro _ s3 ⟨L3, st3, hw3⟩
        exact Ends.pure ⟨L3, st.trans st3, fun _ => lt_of_lt_of_le hw3 st.wle⟩
    · refine Ends.bind ((ends_differentRings st.ti (fun e' => e (by rw [e'])) hma hmb nba nbb).imp ?_)
      rintro _ s3 ⟨L3, st3, hw3⟩
      exact Ends.pure ⟨L3, st.trans st3, fun _ => lt_of_lt_of_le hw3 st.wle⟩

/-- One run of nodes at the same location. -/
theorem ends_correctCollinearRepeats {s0 : St} {L0 : Nat → List Nat} {nodes : List Nat} {start stop : Nat}
    (hlt : ∀ i ∈ nodes, i < s0.nn) (hstop : stop ≤ nodes.length)
    (heq : ∀ i ∈ (nodes.take stop).drop start, ∀ j ∈ (nodes.take stop).drop start, locOf s0.nodes i = locOf s0.nodes j)
    (h : TStep s0 L0 s L) :
    Ends E (correctCollinearRepeats nodes start stop) s fun _ s' => ∃ L', TStep s0 L0 s' L' := by
  unfold correctCollinearRepeats
  refine Ends.forList (fun s => ∃ L', TStep s0 L0 s L') ?_ ⟨L, h⟩
  rintro a s hmem ⟨L, h⟩
  have ha : a ∈ nodes := List.mem_of_mem_take (List.mem_of_mem_drop hmem)
  refine Ends.bind (Ends.getNode ?_)
  refine Ends.ite (fun _ => Ends.pure ⟨L, h⟩) fun _ => ?_
  refine Ends.loopN (fun n other s => start ≤ other ∧ ∃ L', TStep s0 L0 s L' ∧ n = weight L' s.nr * (stop + 1) + (stop - other)) ?_
    ⟨Nat.le_refl _, L, h, rfl⟩
  rintro n other s ⟨hle, L, h, rfl⟩
  refine Ends.ite (fun hlt' => ?_) fun _ => Ends.pure ⟨L, h⟩
  refine Ends.bind (Ends.getNode ?_)
  refine Ends.ite (fun _ => Ends.pure ⟨L, h⟩) fun _ => ?_
  refine Ends.bind (Ends.getNode ?_)
  refine Ends.ite (fun _ => Ends.pure ⟨_, ?_, by omega, L, h, rfl⟩) fun e => ?_
  · omega
  simp only [not_or] at e
  have ho : nodes.getD other 0 = nodes[other]'(by omega) := by simp [List.getD, show other < nodes.length by omega]
  have hmo : nodes.getD other 0 ∈ (nodes.take stop).drop start := by
    rw [ho, List.mem_iff_getElem]
    exact ⟨other - start, by simp; omega, by simp [show start + (other - start) = other by omega]⟩
  have hmo' : nodes.getD other 0 ∈ nodes := List.mem_of_mem_take (List.mem_of_mem_drop hmo)
  refine Ends.bind ((ends_processCollinearEdges h.ti e.2 (by rw [h.nn]; exact hlt _ ha) (by rw [h.nn]; exact hlt _ hmo')
    (by rw [h.loc, h.loc]; exact heq _ hmem _ hmo)).imp ?_)
  rintro c s1 ⟨L1, st, hw⟩
  refine Ends.ite (fun hc => Ends.pure ⟨_, ?_, Nat.le_refl _, L1, h.trans st, rfl⟩) fun hc => Ends.pure ⟨_, ?_, by omega, L1, h.trans st, rfl⟩
  · have := hw hc
    have h3 : weight L1 s1.nr * (stop + 1) + (stop + 1) ≤ weight L s.nr * (stop + 1) := by
      rw [← Nat.succ_mul]; exact Nat.mul_le_mul_right _ this
    omega
  · have h3 : weight L1 s1.nr * (stop + 1) ≤ weight L s.nr * (stop + 1) := Nat.mul_le_mul_right _ st.wle
    omega

/-- The scan over runs. -/
theorem ends_forRuns {nodes : List Nat} {process : Nat → Nat → M Unit} {loc : Nat → Point} {I : St → Prop}
    (hI : ∀ s, I s → ∀ i ∈ nodes, locOf s.nodes i = loc i)
    (hp : ∀ start stop s, stop ≤ nodes.length →
      (∀ i ∈ (nodes.take stop).drop start, ∀ j ∈ (nodes.take stop).drop start, loc i = loc j) → I s →
      Ends E (process start stop) s fun _ s' => I s') (h : I s) :
    Ends E (forRuns nodes process) s fun _ s' => I s' := by
  unfold forRuns
  refine Ends.loopN (fun n (x : Nat × Nat × Nat) s => I s ∧ n = nodes.length + 1 - x.2.2 ∧
    (nodes.length ≤ x.2.2 ∨ x.2.2 = x.2.1 + 1 ∧ x.1 ≤ x.2.1 ∧
      ∃ p, ∀ i ∈ (nodes.take (x.2.1 + 1)).drop (x.2.1 - x.1), loc i = p)) ?_ (x := (0, 0, 1)) (n := nodes.length + 1 - 1) ⟨h, rfl, ?_⟩
  swap
  · rcases nodes with _ | ⟨a, l⟩
    · exact .inl (by simp)
    · refine .inr ⟨rfl, Nat.le_refl _, loc a, fun i hi => ?_⟩
      have : i = a := by simpa using hi
      rw [this]
  rintro n ⟨count, prev, index⟩ s ⟨hs, rfl, hor⟩
  dsimp only at hor ⊢
  cases hb : nodes[index]? with
  | none => exact Ends.pure hs
  | some b =>
    have hlt : index < nodes.length := (List.getElem?_eq_some_iff.1 hb).1
    have hbe : nodes[index] = b := (List.getElem?_eq_some_iff.1 hb).2
    obtain hor | ⟨rfl, hcp, p, hrun⟩ := hor
    · exact absurd hlt (by omega)
    have hpe : nodes.getD prev 0 = nodes[prev] := by simp [List.getD, show prev < nodes.length by omega]
    dsimp only
    refine Ends.bind (Ends.pointOf (Ends.bind (Ends.pointOf ?_)))
    have hmb : b ∈ nodes := hbe ▸ List.getElem_mem hlt
    have hmp : nodes[prev] ∈ nodes := List.getElem_mem _
    rw [hpe, hI s hs _ hmp, hI s hs _ hmb]
    have hpp : loc nodes[prev] = p := hrun _ (by
      rw [List.mem_iff_getElem]
      exact ⟨count, by simp; omega, by simp [show prev - count + count = prev by omega]⟩)
    refine Ends.ite (fun e => ?_) fun e => ?_
    · have hrun' : ∀ i ∈ (nodes.take (prev + 1 + 1)).drop (prev + 1 - (count + 1)), loc i = p := by
        intro i hi
        rw [List.take_add_one, hb] at hi
        rw [show prev + 1 - (count + 1) = prev - count by omega] at hi
        rw [List.drop_append_of_le_length (by simp; omega)] at hi
        rcases List.mem_append.1 hi with hi | hi
        · exact hrun i hi
        · obtain rfl : i = b := by simpa using hi
          rw [← e, hpp]
      refine Ends.ite (fun e2 => Ends.pure ⟨_, ?_, hs, rfl, .inr ⟨rfl, by dsimp only; omega, p, hrun'⟩⟩) fun e2 => ?_
      · dsimp only; omega
      refine Ends.bind ((hp _ _ s (by omega) ?_ hs).imp ?_)
      · intro i hi j hj
        rw [show prev + 1 + 1 - (count + 1 + 1) = prev + 1 - (count + 1) by omega] at hi hj
        rw [hrun' i hi, hrun' j hj]
      · rintro _ s1 h1
        exact Ends.pure ⟨_, by dsimp only; omega, h1, rfl, .inl (by dsimp only; omega)⟩
    · have hnew : ∃ p, ∀ i ∈ (nodes.take (prev + 1 + 1)).drop (prev + 1 - 0), loc i = p := by
        refine ⟨loc b, fun i hi => ?_⟩
        rw [List.take_add_one, hb, List.drop_append_of_le_length (by simp; omega), List.drop_eq_nil_of_le (by simp)] at hi
        obtain rfl : i = b := by simpa using hi
        rfl
      refine Ends.ite (fun e2 => Ends.pure ⟨_, ?_, hs, rfl, .inr ⟨rfl, by dsimp only; omega, hnew⟩⟩) fun e2 => ?_
      · dsimp only; omega
      refine Ends.bind ((hp _ _ s (by omega) ?_ hs).imp ?_)
      · intro i hi j hj
        rw [show prev + 1 - (count + 1) = prev - count by omega] at hi hj
        rw [hrun i hi, hrun j hj]
      · rintro _ s1 h1
        exact Ends.pure ⟨_, by dsimp only; omega, h1, rfl, .inr ⟨rfl, by dsimp only; omega, hnew⟩⟩

theorem ends_correctCollinearEdges (h : TI s L) (hall : ∀ i ∈ s.allNodes, i < s.nn) :
    Ends E correctCollinearEdges s fun _ s' => ∃ L', TStep s L s' L' := by
  unfold correctCollinearEdges
  refine Ends.bind (Ends.gets (fun _ _ => rfl) ?_)
  refine Ends.ite (fun _ => Ends.pure ⟨L, TStep.refl h⟩) fun _ => ?_
  refine ends_forRuns (loc := locOf s.nodes) (I := fun s' => ∃ L', TStep s L s' L') ?_ ?_ ⟨L, TStep.refl h⟩
  · rintro s1 ⟨L1, h1⟩ i -
    exact h1.loc i
  · rintro start stop s1 hst heq ⟨L1, h1⟩
    exact ends_correctCollinearRepeats hall hst heq h1

end

end Wagyu
