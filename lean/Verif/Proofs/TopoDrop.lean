import Verif.Proofs.TopoStep

/-!
# Removing duplicate points
-/

namespace Wagyu

open Spec

section
variable {s s' : St} {L L' : Nat → List Nat} {E : Err → Prop}

theorem excise_comm {h : Nat → Node} {a o b : Nat} (ha : o ≠ a) (hb : o ≠ b) :
    upd (putNext (putPrev h b (some a)) a (some b)) o { putNext (putPrev h b (some a)) a (some b) o with prev := none, next := none, ring := none }
      = excise h a o b := by
  funext i
  unfold excise
  by_cases e : i = o
  · subst e
    rw [Wagyu.upd_same, Wagyu.upd_same, putNext_ne _ _ _ _ ha, putPrev_ne _ _ _ _ hb]
  · rw [Wagyu.upd_ne _ _ e, Wagyu.upd_ne _ _ e]
    unfold putNext putPrev upd
    by_cases e1 : i = a <;> by_cases e2 : i = b <;> simp [e1, e2]
    all_goals (by_cases e3 : a = b <;> simp_all)

theorem excise_eq {h : Nat → Node} {a o b : Nat} (ha : o ≠ a) (hb : o ≠ b) :
    upd (putPrev (putNext h a (some b)) b (some a)) o { putPrev (putNext h a (some b)) b (some a) o with prev := none, next := none, ring := none }
      = excise h a o b := by
  unfold excise
  rw [putPrev_ne _ _ _ _ hb, putNext_ne _ _ _ _ ha]

/-- What follows the unlinking in `dropNeighbour`. -/
theorem ends_setFirst {r node o : Nat} (hr : (s.nodes node).ring = some r) {Q : Unit → St → Prop}
    (hQ : Q () { s with rings := exciseRings s.rings r o node }) :
    Ends E (do
      let r ← deref (← getNode node).ring
      if (← getRing r).node = some o then setRingNode r (some node)) s Q := by
  refine Ends.bind (Ends.getNode (Ends.bind (Ends.deref hr (Ends.bind (Ends.getRing ?_)))))
  unfold exciseRings at hQ
  refine Ends.ite (fun e => ?_) fun e => ?_
  · rw [if_pos e] at hQ; exact Ends.setRingNode hQ
  · rw [if_neg e] at hQ; exact Ends.pure hQ

/-- Only nodes located at `p` are dropped. -/
structure Fade (p : Point) (s : St) (L : Nat → List Nat) (s' : St) (L' : Nat → List Nat) : Prop where
  step : TStep s L s' L'
  ring : ∀ i, (s'.nodes i).ring = (s.nodes i).ring ∨ (s'.nodes i).ring = none
  next : ∀ i, (s'.nodes i).ring ≠ none → ∀ x, (s.nodes i).next = some x → locOf s.nodes x ≠ p → (s'.nodes i).next = some x
  prev : ∀ i, (s'.nodes i).ring ≠ none → ∀ x, (s.nodes i).prev = some x → locOf s.nodes x ≠ p → (s'.nodes i).prev = some x
  less : s' = s ∧ L' = L ∨ weight L' s'.nr < weight L s.nr

theorem Fade.refl (p : Point) (h : TI s L) : Fade p s L s L :=
  ⟨TStep.refl h, fun _ => Or.inl rfl, fun _ _ _ h _ => h, fun _ _ _ h _ => h, Or.inl ⟨rfl, rfl⟩⟩

theorem Fade.still {p : Point} (h : Fade p s L s' L') {i : Nat} (hi : (s'.nodes i).ring ≠ none) : (s'.nodes i).ring = (s.nodes i).ring :=
  (h.ring i).resolve_right hi

theorem Fade.trans {p : Point} {s'' : St} {L'' : Nat → List Nat} (h : Fade p s L s' L') (k : Fade p s' L' s'' L'') : Fade p s L s'' L'' := by
  have keep : ∀ i, (s''.nodes i).ring ≠ none → (s'.nodes i).ring ≠ none := fun i hi => by rw [← k.still hi]; exact hi
  refine ⟨h.step.trans k.step, fun i => ?_, fun i hi x hx hp => ?_, fun i hi x hx hp => ?_, ?_⟩
  · rcases k.ring i with e | e
    · rw [e]; exact h.ring i
    · exact Or.inr e
  · exact k.next i hi x (h.next i (keep i hi) x hx hp) (by rw [h.step.loc]; exact hp)
  · exact k.prev i hi x (h.prev i (keep i hi) x hx hp) (by rw [h.step.loc]; exact hp)
  · rcases h.less with ⟨rfl, rfl⟩ | e
    · exact k.less
    · exact Or.inr (Nat.lt_of_le_of_lt k.step.wle e)

theorem ends_dropNeighbour (h : TI s L) {r node o : Nat} (fwd : Bool) (hn : node ∈ L r) (hne : o ≠ node)
    (hadj : (if fwd then (s.nodes node).next else (s.nodes node).prev) = some o) (heq : locOf s.nodes o = locOf s.nodes node) :
    Ends E (dropNeighbour node o fwd) s fun _ s' => ∃ L', Fade (locOf s.nodes node) s L s' L' ∧ weight L' s'.nr < weight L s.nr
      ∧ (s'.nodes node).ring = (s.nodes node).ring := by
  obtain ⟨t, hc, hrot⟩ := cycle_rot (h.own.cyc hn) hn
  have hring := (h.own.own r node hn).2
  -- the list without the dropped node
  obtain ⟨P, hP, hPc, hnodeP, hends, hPa⟩ : ∃ (P : List Nat) (hP : P ≠ []), (P ++ [o]) ~r (node :: t) ∧ node ∈ P
      ∧ (if fwd then P.getLast hP = node else P.head hP = node)
      ∧ area2 (pointsOf s.nodes P) = area2 (pointsOf s.nodes (P ++ [o])) := by
    cases fwd with
    | true =>
      simp only [if_true] at hadj ⊢
      cases t with
      | nil =>
        have := ((isCycle_iff (by simp)).1 hc).2.2.1
        simp only [List.head_cons, List.getLast_singleton] at this
        rw [hadj] at this
        exact absurd (Option.some.inj this) hne
      | cons o' rest =>
        have hl : Link s.nodes node o' := (List.isChain_cons_cons.1 ((isCycle_iff (by simp)).1 hc).2.1).1
        have : o' = o := Option.some.inj (hl.1.symm.trans hadj)
        subst this
        have hr2 : (rest ++ [node] ++ [o']) ~r (node :: o' :: rest) := by
          have := List.isRotated_append (l := rest) (l' := [node, o'])
          simpa using this
        refine ⟨rest ++ [node], by simp, hr2, by simp, by simp, ?_⟩
        rw [area2_rot (pointsOf_rot hr2)]
        have hr3 : (rest ++ [node]) ~r (node :: rest) := by simpa using List.isRotated_append (l := rest) (l' := [node])
        rw [area2_rot (pointsOf_rot hr3)]
        simp only [pointsOf, List.map_cons]
        rw [heq, area2_dup]
    | false =>
      simp only [Bool.false_eq_true, if_false] at hadj ⊢
      rcases List.eq_nil_or_concat t with rfl | ⟨rest, o', rfl⟩
      · have := ((isCycle_iff (by simp)).1 hc).2.2.2
        simp only [List.head_cons, List.getLast_singleton] at this
        rw [hadj] at this
        exact absurd (Option.some.inj this) hne
      · simp only [List.concat_eq_append] at hc hrot ⊢
        have hl := ((isCycle_iff (by simp)).1 hc).2.2.2
        rw [List.head_cons, List.getLast_cons (by simp), List.getLast_append_of_ne_nil _ (by simp), List.getLast_singleton, hadj] at hl
        have : o = o' := Option.some.inj hl
        subst this
        refine ⟨node :: rest, by simp, List.IsRotated.refl _, by simp, by simp, ?_⟩
        have hr2 : (node :: rest ++ [o]) ~r (o :: node :: rest) := by simpa using List.isRotated_append (l := node :: rest) (l' := [o])
        rw [area2_rot (pointsOf_rot hr2)]
        simp only [pointsOf, List.map_cons]
        rw [heq, area2_dup]
  have hrot' := hPc.trans hrot
  have hcyc : IsCycle s.nodes (P ++ [o]) := by
    obtain ⟨n, hn⟩ := hPc.symm
    rw [← hn]; exact isCycle_rotate hc n
  obtain ⟨l1, l2, -, -⟩ := excise_cycle hP hcyc
  have hoP : o ∉ P := fun hm => (List.nodup_append.1 hcyc.nodup).2.2 o hm o (by simp) rfl
  have hol : o ≠ P.getLast hP := fun e => hoP (e ▸ List.getLast_mem hP)
  have hoh : o ≠ P.head hP := fun e => hoP (e ▸ List.head_mem hP)
  have fin : Ends E (do
      let r ← deref (← getNode node).ring
      if (← getRing r).node = some o then setRingNode r (some node))
      { s with nodes := excise s.nodes (P.getLast hP) o (P.head hP) } fun _ s' => ∃ L', Fade (locOf s.nodes node) s L s' L' ∧ weight L' s'.nr < weight L s.nr
      ∧ (s'.nodes node).ring = (s.nodes node).ring := by
    refine ends_setFirst (r := r) (by rw [excise_ring, if_neg (Ne.symm hne)]; exact hring) ?_
    obtain ⟨l, h1, h2, h3⟩ := step_excise h hP hrot' hnodeP hPa heq rfl
    refine ⟨_, ⟨h1, fun i => ?_, fun i hi x hx hp => ?_, fun i hi x hx hp => ?_, Or.inr h3⟩, h3, ?_⟩
    · show (excise s.nodes _ o _ i).ring = _ ∨ (excise s.nodes _ o _ i).ring = _
      rw [excise_ring]; split <;> simp
    · have hio : i ≠ o := fun e => hi (by show (excise s.nodes _ o _ i).ring = _; rw [excise_ring, if_pos e])
      show (excise s.nodes _ o _ i).next = _
      unfold excise
      rw [Wagyu.upd_ne _ _ hio]
      links
      split
      · next e =>
        subst e
        rw [l1.1] at hx
        exact absurd (by rw [← Option.some.inj hx]; exact heq) hp
      · exact hx
    · have hio : i ≠ o := fun e => hi (by show (excise s.nodes _ o _ i).ring = _; rw [excise_ring, if_pos e])
      show (excise s.nodes _ o _ i).prev = _
      unfold excise
      rw [Wagyu.upd_ne _ _ hio]
      links
      split
      · next e =>
        subst e
        rw [l2.2] at hx
        exact absurd (by rw [← Option.some.inj hx]; exact heq) hp
      · exact hx
    · show (excise s.nodes _ o _ node).ring = _
      rw [excise_ring, if_neg (Ne.symm hne)]
  unfold dropNeighbour
  refine Ends.bind (Ends.getNode ?_)
  cases fwd with
  | true =>
    simp only [if_true] at hends ⊢
    rw [l2.1]
    refine Ends.bind (Ends.setNext (Ends.bind (Ends.deref rfl (Ends.bind (Ends.setPrev (Ends.bind (Ends.modNode ?_)))))))
    have e := excise_eq (h := s.nodes) hol hoh
    rw [hends] at e fin
    unfold putPrev putNext at e
    rw [e]
    exact fin
  | false =>
    simp only [Bool.false_eq_true, if_false] at hends ⊢
    rw [l1.2]
    refine Ends.bind (Ends.setPrev (Ends.bind (Ends.deref rfl (Ends.bind (Ends.setNext (Ends.bind (Ends.modNode ?_)))))))
    have e := excise_comm (h := s.nodes) hol hoh
    rw [hends] at e fin
    unfold putPrev putNext at e
    rw [e]
    exact fin

/-- The neighbour of a node. -/
def side (fwd : Bool) (nd : Node) : Option Nat := if fwd then nd.next else nd.prev

theorem Own.side (h : Own s L) {r node : Nat} (hn : node ∈ L r) (fwd : Bool) : ∃ x ∈ L r, side fwd (s.nodes node) = some x := by
  obtain ⟨t, hc, hrot⟩ := cycle_rot (h.cyc hn) hn
  cases fwd with
  | true =>
    cases t with
    | nil => exact ⟨node, hn, ((isCycle_iff (by simp)).1 hc).2.2.1⟩
    | cons x t => exact ⟨x, hrot.mem_iff.1 (by simp), (List.isChain_cons_cons.1 ((isCycle_iff (by simp)).1 hc).2.1).1.1⟩
  | false =>
    have := ((isCycle_iff (by simp)).1 hc).2.2.2
    exact ⟨_, hrot.mem_iff.1 (List.getLast_mem (by simp)), this⟩

theorem ends_dropSame (h : TI s L) {r node : Nat} (fwd : Bool) (hr : (s.nodes node).ring = some r) (hnn : node < s.nn) :
    Ends E (dropSame node fwd) s fun _ s' => ∃ L', Fade (locOf s.nodes node) s L s' L' ∧ (s'.nodes node).ring = some r
      ∧ ∃ x, side fwd (s'.nodes node) = some x ∧ (x = node ∨ locOf s.nodes x ≠ locOf s.nodes node) := by
  unfold dropSame
  refine Ends.loopN (I := fun n _ s' => ∃ L', Fade (locOf s.nodes node) s L s' L' ∧ (s'.nodes node).ring = some r ∧ n = weight L' s'.nr) ?_
    ⟨L, Fade.refl _ h, hr, rfl⟩
  rintro n ⟨⟩ s1 ⟨L1, h1, h2, rfl⟩
  have hmem : node ∈ L1 r := h1.step.ti.own.mem (by rw [h1.step.nn]; exact hnn) h2
  obtain ⟨x, hx, hside⟩ := h1.step.ti.own.side hmem fwd
  refine Ends.bind (Ends.getNode ?_)
  show Ends E (do
    if (← nodesEq (side fwd (s1.nodes node)) (some node)) && decide (side fwd (s1.nodes node) ≠ some node) then
      let outsider ← deref (side fwd (s1.nodes node))
      dropNeighbour node outsider fwd
      pure (Sum.inl () : Unit ⊕ Unit)
    else pure (Sum.inr ())) s1 _
  rw [hside]
  refine Ends.bind (Ends.nodesEq ?_)
  refine Ends.ite (fun e => ?_) fun e => ?_
  · simp only [Bool.and_eq_true, decide_eq_true_eq, ne_eq, Option.some.injEq] at e
    refine Ends.bind (Ends.deref rfl (Ends.bind ((ends_dropNeighbour h1.step.ti fwd hmem e.2 hside e.1).imp ?_)))
    rintro _ s2 ⟨L2, h3, h4, h5⟩
    rw [h1.step.loc] at h3
    exact Ends.pure ⟨_, h4, L2, h1.trans h3, h5.trans h2, rfl⟩
  · simp only [Bool.and_eq_true, decide_eq_true_eq, ne_eq, Option.some.injEq] at e
    refine Ends.pure ⟨L1, h1, h2, x, hside, ?_⟩
    rw [h1.step.loc, h1.step.loc] at e
    by_cases e' : x = node
    · exact Or.inl e'
    · exact Or.inr fun e'' => e ⟨e'', e'⟩

/-! ## Removing a ring -/

/-- The rings in `D` exchange nodes or lose some. -/
theorem TStep.update (h : TI s L) (D : Nat → Prop) (L' : Nat → List Nat) (hnn : s'.nn = s.nn) (hnr : s.nr ≤ s'.nr)
    (hall : s'.allNodes = s.allNodes) (hloc : ∀ i, locOf s'.nodes i = locOf s.nodes i)
    (hL : ∀ r, ¬ D r → L' r = L r)
    (hf : ∀ r, ¬ D r → Alike (s'.rings r) (s.rings r))
    (hout : ∀ i, (∀ d, D d → i ∉ L d) → s'.nodes i = s.nodes i)
    (hh : ∀ d, D d → (s'.rings d).node = (L' d).head?)
    (hc : ∀ d, D d → L' d ≠ [] → d < s'.nr ∧ IsCycle s'.nodes (L' d))
    (hown : ∀ d, D d → ∀ i ∈ L' d, (∃ e, D e ∧ i ∈ L e) ∧ (s'.nodes i).ring = some d)
    (hk : ∀ e, D e → ∀ i ∈ L e, ∀ r, (s'.nodes i).ring = some r → D r ∧ i ∈ L' r)
    (hso : ∀ d, D d → L' d ≠ [] → StatsOf s.nodes (L' d) (s'.rings d))
    (hco : ∀ d, D d → (s'.rings d).corrected = true → (s.rings d).corrected = true)
    (hbl : ∀ d, D d → L' d = [] → Statless (s'.rings d))
    (hw : weight L' s'.nr ≤ weight L s.nr) : TStep s L s' L' := by
  refine ⟨⟨h.own.update D L' hnn hnr hL (fun r hr => (hf r hr).1) hout hh hc hown hk, fun r hr hn => ?_, fun r hr => ?_⟩, hnn, hnr, hall, hloc,
    fun r hr => ?_, hw⟩
  · rw [pointsOf_congr hloc]
    by_cases hd : D r
    · exact ⟨(hso r hd hr).area, (hso r hd hr).hole, (hso r hd hr).box, (hso r hd hr).size.ge⟩
    · have hf := hf r hd
      rw [hL r hd] at hr ⊢
      rw [hf.area] at hn ⊢
      rw [hf.hole, hf.box, hf.size]
      exact h.sound r hr hn
  · by_cases hd : D r
    · exact hbl r hd hr
    · rw [hL r hd] at hr
      exact (h.blank r hr).congr (hf r hd)
  · by_cases hd : D r
    · exact hco r hd hr
    · rw [← (hf r hd).mark]; exact hr

theorem Gone.same {o : Nat} (h : Gone o s s') {r : Nat} (hr : r ≠ o) : Alike (s'.rings r) (s.rings r) := by
  obtain ⟨k, c, rfl⟩ := h
  simp only [if_neg hr]
  exact ⟨rfl, rfl, rfl, rfl, rfl, rfl⟩

theorem GonePts.step {r : Nat} (h : TI s L) (hr : L r ≠ []) (hg : GonePts r (L r) s s') :
    TStep s L s' (upd L r []) ∧ weight (upd L r []) s'.nr < weight L s.nr := by
  have hg' : Gone r { s with nodes := discard (L r) s.nodes } s' := hg
  have hn : s'.nodes = discard (L r) s.nodes := hg'.nodes
  have h1 := hg'.nn
  have h2 := hg'.nr
  have h3 := hg'.allNodes
  dsimp only at h1 h2 h3
  have hw := weight_upd (L := L) (h.own.cycle r hr).1 []
  have := nwt_pos hr
  have hw' : weight (upd L r []) s'.nr < weight L s.nr := by
    rw [h2]; have : nwt [] = 0 := rfl; omega
  refine ⟨⟨⟨hg.own h.own, fun k hk hnan => ?_, fun k hk => ?_⟩, h1, h2.ge, h3, fun i => by rw [hn]; exact discard_loc _ _ _, fun k hk => ?_, hw'.le⟩, hw'⟩
  · by_cases e : k = r
    · subst e; rw [Wagyu.upd_same] at hk; exact absurd rfl hk
    · rw [Wagyu.upd_ne _ _ e] at hk ⊢
      have e1 := (hg'.same e).area
      have e2 := (hg'.same e).hole
      have e3 := (hg'.same e).box
      have e4 := (hg'.same e).size
      dsimp only at e1 e2 e3 e4
      rw [e1] at hnan
      rw [e1, e2, e3, e4, hn, pointsOf_congr (discard_loc _ _)]
      exact h.sound k hk hnan
  · by_cases e : k = r
    · subst e; exact hg'.statless
    · rw [Wagyu.upd_ne _ _ e] at hk
      exact (h.blank k hk).congr (hg'.same e)
  · rw [hg'.corrected] at hk; exact hk

theorem step_removeRingAndPoints (h : TI s L) {r : Nat} (hr : L r ≠ []) :
    Ends E (removeRingAndPointsKeepChildren r) s fun _ s' => TStep s L s' (upd L r []) ∧ weight (upd L r []) s'.nr < weight L s.nr :=
  (ends_removeRingAndPoints h.own r).imp fun _ _ hg => hg.step h hr

/-! ## `remove_duplicate_points` -/

/-- The neighbours of the node are at other locations. -/
structure NB (s : St) (i : Nat) : Prop where
  next : ∀ x, (s.nodes i).next = some x → locOf s.nodes x ≠ locOf s.nodes i
  prev : ∀ x, (s.nodes i).prev = some x → locOf s.nodes x ≠ locOf s.nodes i

theorem Own.link (h : Own s L) {i j r : Nat} (hi : i ∈ L r) : (s.nodes i).next = some j ↔ j ∈ L r ∧ (s.nodes j).prev = some i := by
  obtain ⟨t, hc, hrot⟩ := cycle_rot (h.cyc hi) hi
  obtain ⟨hnd, hseg, hcl⟩ := (isCycle_iff (by simp)).1 hc
  have fwd : ∀ k ∈ L r, ∀ j, (s.nodes k).next = some j → j ∈ L r ∧ (s.nodes j).prev = some k := by
    intro k hk j hj
    obtain ⟨t, hc, hrot⟩ := cycle_rot (h.cyc hk) hk
    obtain ⟨hnd, hseg, hcl⟩ := (isCycle_iff (by simp)).1 hc
    cases t with
    | nil =>
      have e := hcl.1
      simp only [List.head_cons, List.getLast_singleton] at e hcl
      rw [e] at hj
      cases Option.some.inj hj
      exact ⟨hk, hcl.2⟩
    | cons x t =>
      have hl := (List.isChain_cons_cons.1 hseg).1
      rw [hl.1] at hj
      cases Option.some.inj hj
      exact ⟨hrot.mem_iff.1 (by simp), hl.2⟩
  refine ⟨fun hj => fwd i hi j hj, ?_⟩
  rintro ⟨hj, hp⟩
  -- the predecessor of `j`
  obtain ⟨t, hc, hrot⟩ := cycle_rot (h.cyc hj) hj
  obtain ⟨hnd, hseg, hcl⟩ := (isCycle_iff (by simp)).1 hc
  rw [List.head_cons] at hcl
  have : (j :: t).getLast (by simp) = i := Option.some.inj (hcl.2.symm.trans hp)
  rw [← this]; exact hcl.1

theorem Own.only (h : Own s L) {i r : Nat} (hi : i ∈ L r) (he : (s.nodes i).next = some i) : L r = [i] := by
  obtain ⟨t, hc, hrot⟩ := cycle_rot (h.cyc hi) hi
  cases t with
  | nil =>
    have := hrot.perm
    exact List.perm_singleton.1 this.symm
  | cons x t =>
    have hl := (List.isChain_cons_cons.1 ((isCycle_iff (by simp)).1 hc).2.1).1
    rw [hl.1] at he
    cases Option.some.inj he
    have := hc.nodup
    simp at this

theorem Fade.sub {p : Point} (h : Fade p s L s' L') (hL : Own s L) {r i : Nat} (hi : i ∈ L' r) : i ∈ L r := by
  obtain ⟨h1, h2⟩ := h.step.ti.own.own r i hi
  exact hL.mem (by rw [← h.step.nn]; exact h1) (by rw [← h.still (by rw [h2]; simp)]; exact h2)

theorem Fade.nb {p : Point} (h : Fade p s L s' L') {i : Nat} (hL : Own s L) (hi : i < s.nn) (hr : (s'.nodes i).ring ≠ none) (hp : locOf s.nodes i = p)
    (hn : NB s i) : NB s' i := by
  obtain ⟨r, hr'⟩ := Option.ne_none_iff_exists'.1 hr
  have hm : i ∈ L r := hL.mem hi (by rw [← h.still hr]; exact hr')
  constructor
  · intro x hx
    obtain ⟨y, hy, hy'⟩ := hL.side hm true
    have h1 := hn.next y hy'
    have := h.next i hr y hy' (by rw [← hp]; exact h1)
    rw [this] at hx
    cases Option.some.inj hx
    rw [h.step.loc, h.step.loc]; exact h1
  · intro x hx
    obtain ⟨y, hy, hy'⟩ := hL.side hm false
    have h1 := hn.prev y hy'
    have := h.prev i hr y hy' (by rw [← hp]; exact h1)
    rw [this] at hx
    cases Option.some.inj hx
    rw [h.step.loc, h.step.loc]; exact h1

/-- Dropping the neighbours on both sides. -/
theorem ends_dropBoth (h : TI s L) {r node : Nat} (hr : (s.nodes node).ring = some r) (hnn : node < s.nn) {α : Type} {Q : α → St → Prop}
    {f : M α} :
    (∀ s' L', Fade (locOf s.nodes node) s L s' L' → (s'.nodes node).ring = some r → ((s'.nodes node).next ≠ some node → NB s' node) → Ends E f s' Q) →
    Ends E (do dropSame node true; dropSame node false; f) s Q := by
  intro hf
  refine Ends.bind ((ends_dropSame h true hr hnn).imp ?_)
  rintro _ s1 ⟨L1, h1, h2, x, hx, hx'⟩
  refine Ends.bind ((ends_dropSame h1.step.ti false h2 (by rw [h1.step.nn]; exact hnn)).imp ?_)
  rintro _ s2 ⟨L2, h3, h4, y, hy, hy'⟩
  rw [h1.step.loc, h1.step.loc] at hy'
  rw [h1.step.loc] at h3
  have h5 := h1.trans h3
  refine hf s2 L2 h5 h4 fun hne => ?_
  have hm : node ∈ L2 r := h5.step.ti.own.mem (by rw [h5.step.nn]; exact hnn) h4
  have hxn : locOf s.nodes x ≠ locOf s.nodes node := by
    rcases hx' with e | e
    · -- a ring of one node
      subst e
      exfalso
      have hm1 : x ∈ L1 r := h1.step.ti.own.mem (by rw [h1.step.nn]; exact hnn) h2
      have hxx : (s1.nodes x).next = some x := hx
      have hone := h1.step.ti.own.only hm1 hxx
      obtain ⟨z, hz, hz'⟩ := h5.step.ti.own.side hm true
      have := h3.sub h1.step.ti.own hz
      rw [hone, List.mem_singleton] at this
      subst this
      exact hne hz'
    · exact e
  have hyn : locOf s.nodes y ≠ locOf s.nodes node := by
    rcases hy' with e | e
    · subst e
      exact absurd ((h5.step.ti.own.link hm).2 ⟨hm, hy⟩) hne
    · exact e
  constructor
  · intro z hz
    have := h3.next node (by rw [h4]; simp) x hx (by rw [h1.step.loc]; exact hxn)
    rw [hz] at this
    cases Option.some.inj this
    rw [h5.step.loc, h5.step.loc]; exact hxn
  · intro z hz
    have := hz.symm.trans hy
    cases Option.some.inj this
    rw [h5.step.loc, h5.step.loc]; exact hyn

theorem ends_removeDuplicatePoints (h : TI s L) {a b : Nat} (hab : a ≠ b) (ha : a < s.nn) (hb : b < s.nn) (hra : (s.nodes a).ring ≠ none)
    (hrb : (s.nodes b).ring ≠ none) (hloc : locOf s.nodes a = locOf s.nodes b) :
    Ends E (removeDuplicatePoints a b) s fun c s' => ∃ L', TStep s L s' L' ∧ (c = true → weight L' s'.nr < weight L s.nr)
      ∧ (c = false → (s'.nodes a).ring ≠ none ∧ (s'.nodes b).ring ≠ none ∧ NB s' a ∧ NB s' b) := by
  obtain ⟨r, hr⟩ := Option.ne_none_iff_exists'.1 hra
  obtain ⟨q, hq⟩ := Option.ne_none_iff_exists'.1 hrb
  have hma : a ∈ L r := h.own.mem ha hr
  have hmb : b ∈ L q := h.own.mem hb hq
  unfold removeDuplicatePoints
  refine Ends.bind (Ends.getNode (Ends.bind (Ends.getNode ?_)))
  refine Ends.ite (fun e => ?_) fun e1 => Ends.ite (fun e => ?_) fun e2 => ?_
  · refine Ends.bind ((ends_dropNeighbour h true hma (Ne.symm hab) e.2 hloc.symm).imp ?_)
    rintro _ s' ⟨L', h1, h2, -⟩
    exact Ends.pure ⟨L', h1.step, fun _ => h2, fun e => by cases e⟩
  · have hqr : q = r := Option.some.inj (hq.symm.trans (e.1.symm.trans hr))
    subst hqr
    refine Ends.bind ((ends_dropNeighbour h false hma (Ne.symm hab) ((h.own.link hmb).1 e.2).2 hloc.symm).imp ?_)
    rintro _ s' ⟨L', h1, h2, -⟩
    exact Ends.pure ⟨L', h1.step, fun _ => h2, fun e => by cases e⟩
  · refine ends_dropBoth h hr ha ?_
    intro s1 L1 h1 h2 h3
    have hma1 : a ∈ L1 r := h1.step.ti.own.mem (by rw [h1.step.nn]; exact ha) h2
    refine Ends.bind (Ends.getNode ?_)
    refine Ends.ite (fun e => ?_) fun e => ?_
    · refine Ends.bind (Ends.deref h2 (Ends.bind ((step_removeRingAndPoints h1.step.ti (List.ne_nil_of_mem hma1)).imp ?_)))
      rintro _ s2 ⟨h4, h5⟩
      exact Ends.pure ⟨_, h1.step.trans h4, fun _ => Nat.lt_of_lt_of_le h5 h1.step.wle, fun e => by cases e⟩
    · have nba := h3 e
      refine Ends.bind (Ends.getNode ?_)
      refine Ends.ite (fun e => ?_) fun e => ?_
      · refine Ends.pure ⟨L1, h1.step, fun _ => ?_, fun e => by cases e⟩
        rcases h1.less with ⟨rfl, -⟩ | h
        · exact absurd e hrb
        · exact h
      · have hq1 : (s1.nodes b).ring = some q := by rw [h1.still e]; exact hq
        have hb1 : b < s1.nn := by rw [h1.step.nn]; exact hb
        have ha1 : a < s1.nn := by rw [h1.step.nn]; exact ha
        refine ends_dropBoth h1.step.ti hq1 hb1 ?_
        intro s2 L2 k1 k2 k3
        have hmb2 : b ∈ L2 q := k1.step.ti.own.mem (by rw [k1.step.nn]; exact hb1) k2
        have hst := h1.step.trans k1.step
        refine Ends.bind (Ends.getNode ?_)
        refine Ends.ite (fun e => ?_) fun e => ?_
        · refine Ends.bind (Ends.deref k2 (Ends.bind ((step_removeRingAndPoints k1.step.ti (List.ne_nil_of_mem hmb2)).imp ?_)))
          rintro _ s3 ⟨h4, h5⟩
          exact Ends.pure ⟨_, hst.trans h4, fun _ => Nat.lt_of_lt_of_le h5 hst.wle, fun e => by cases e⟩
        · refine Ends.bind (Ends.getNode (Ends.pure ⟨L2, hst, fun e' => ?_, fun e' => ?_⟩))
          · simp only [decide_eq_true_eq] at e'
            rcases k1.less with ⟨rfl, -⟩ | h
            · rw [h2] at e'; cases e'
            · exact Nat.lt_of_lt_of_le h h1.step.wle
          · simp only [decide_eq_false_iff_not] at e'
            refine ⟨e', by rw [k2]; simp, k1.nb h1.step.ti.own ha1 e' ?_ nba, k3 e⟩
            rw [h1.step.loc, h1.step.loc]; exact hloc

end

end Wagyu
