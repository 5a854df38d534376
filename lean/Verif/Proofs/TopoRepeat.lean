import Verif.Proofs.TopoSelf
import Verif.Proofs.Output

/-!
# Repeated points of a ring
-/

namespace Wagyu

open Spec

section
variable {s s' : St} {L L' : Nat → List Nat} {E : Err → Prop}

/-- Whether the list may be cut here: no location occurs on both sides. -/
def CutAt (loc : Nat → Point) (nodes : List Nat) (m : Nat) : Prop := ∀ i ∈ nodes.take m, ∀ j ∈ nodes.drop m, loc i ≠ loc j

/-- The scan over runs with an accumulator. -/
theorem ends_scan {nodes : List Nat} {loc : Nat → Point} {f : List Nat → Nat → Nat → M (List Nat)} {J : Nat → List Nat → St → Prop}
    (hloc : ∀ m acc s, J m acc s → ∀ i ∈ nodes, locOf s.nodes i = loc i)
    (hsort : ∀ m (h : m + 1 < nodes.length), loc nodes[m] ≠ loc nodes[m + 1] → CutAt loc nodes (m + 1))
    (hone : ∀ m acc s, m < nodes.length → CutAt loc nodes m → J m acc s → J (m + 1) acc s)
    (hrun : ∀ start stop acc s, start ≤ stop → stop ≤ nodes.length → CutAt loc nodes start →
      (∀ i ∈ (nodes.take stop).drop start, ∀ j ∈ (nodes.take stop).drop start, loc i = loc j) → J start acc s →
      Ends E (f acc start stop) s fun acc' s' => J stop acc' s') (h : J 0 [] s) :
    Ends E (loopM (fun (st : Nat × Nat × Nat × List Nat) => do
      let (count, prev, index, acc) := st
      match nodes[index]? with
      | none => pure (.inr acc)
      | some b =>
        let p ← pointOf (nodes.getD prev 0)
        let q ← pointOf b
        if p = q then
          let count := count + 1
          let prev := prev + 1
          let index := index + 1
          if index < nodes.length then pure (.inl (count, prev, index, acc))
          else
            let prev := prev + 1
            let acc ← f acc (prev - (count + 1)) prev
            pure (.inl (0, prev, index, acc))
        else
          let prev := prev + 1
          let index := index + 1
          if count = 0 then pure (.inl (0, prev, index, acc))
          else
            let acc ← f acc (prev - (count + 1)) prev
            pure (.inl (0, prev, index, acc))) (0, 0, 1, [])) s fun acc s' => J nodes.length acc s' := by
  refine Ends.loopN (fun n (x : Nat × Nat × Nat × List Nat) s => n = nodes.length + 1 - x.2.2.1 ∧
    (nodes.length ≤ x.2.2.1 ∧ J nodes.length x.2.2.2 s ∨ x.2.2.1 = x.2.1 + 1 ∧ x.2.1 < nodes.length ∧ (x.2.2.1 = nodes.length → x.1 = 0) ∧ x.1 ≤ x.2.1 ∧
      J (x.2.1 - x.1) x.2.2.2 s ∧ CutAt loc nodes (x.2.1 - x.1) ∧
      ∃ p, ∀ i ∈ (nodes.take (x.2.1 + 1)).drop (x.2.1 - x.1), loc i = p)) ?_ (x := (0, 0, 1, [])) (n := nodes.length + 1 - 1) ⟨rfl, ?_⟩
  swap
  · rcases nodes with _ | ⟨a, l⟩
    · exact .inl ⟨by simp, h⟩
    · refine .inr ⟨rfl, by simp, fun _ => rfl, Nat.le_refl _, h, ?_, loc a, fun i hi => ?_⟩
      · intro i hi
        simp at hi
      have : i = a := by simpa using hi
      rw [this]
  rintro n ⟨count, prev, index, acc⟩ s ⟨rfl, hor⟩
  dsimp only at hor ⊢
  cases hb : nodes[index]? with
  | none =>
    refine Ends.pure ?_
    rcases hor with ⟨-, hJ⟩ | ⟨rfl, hlt, hz, hcp, hJ, hcut, -⟩
    · exact hJ
    · have hge : nodes.length ≤ prev + 1 := by simpa using hb
      obtain rfl := hz (by omega)
      have := hone _ _ _ hlt hcut hJ
      rw [show nodes.length = prev - 0 + 1 by omega]
      exact this
  | some b =>
    have hlt : index < nodes.length := (List.getElem?_eq_some_iff.1 hb).1
    have hbe : nodes[index] = b := (List.getElem?_eq_some_iff.1 hb).2
    obtain ⟨hor, -⟩ | ⟨rfl, -, -, hcp, hJ, hcut, p, hrun'⟩ := hor
    · exact absurd hlt (by omega)
    have hpe : nodes.getD prev 0 = nodes[prev] := by simp [List.getD, show prev < nodes.length by omega]
    dsimp only
    refine Ends.bind (Ends.pointOf (Ends.bind (Ends.pointOf ?_)))
    have hmb : b ∈ nodes := hbe ▸ List.getElem_mem hlt
    have hmp : nodes[prev] ∈ nodes := List.getElem_mem _
    rw [hpe, hloc _ _ s hJ _ hmp, hloc _ _ s hJ _ hmb]
    have hpp : loc nodes[prev] = p := hrun' _ (by
      rw [List.mem_iff_getElem]
      exact ⟨count, by simp; omega, by simp [show prev - count + count = prev by omega]⟩)
    refine Ends.ite (fun e => ?_) fun e => ?_
    · have hrun2 : ∀ i ∈ (nodes.take (prev + 1 + 1)).drop (prev + 1 - (count + 1)), loc i = p := by
        intro i hi
        rw [List.take_add_one, hb] at hi
        rw [show prev + 1 - (count + 1) = prev - count by omega] at hi
        rw [List.drop_append_of_le_length (by simp; omega)] at hi
        rcases List.mem_append.1 hi with hi | hi
        · exact hrun' i hi
        · obtain rfl : i = b := by simpa using hi
          rw [← e, hpp]
      have e3 : prev + 1 - (count + 1) = prev - count := by omega
      refine Ends.ite (fun e2 => Ends.pure ⟨_, ?_, rfl, .inr ⟨rfl, by dsimp only; omega, fun h => ?_, by dsimp only; omega, ?_, ?_, p, hrun2⟩⟩) fun e2 => ?_
      · dsimp only; omega
      · dsimp only at h; omega
      · dsimp only; rw [e3]; exact hJ
      · dsimp only; rw [e3]; exact hcut
      refine Ends.bind ((hrun _ _ acc s (by omega) (by omega) ?_ ?_ ?_).imp ?_)
      · rw [show prev + 1 + 1 - (count + 1 + 1) = prev - count by omega]; exact hcut
      · intro i hi j hj
        rw [show prev + 1 + 1 - (count + 1 + 1) = prev + 1 - (count + 1) by omega] at hi hj
        rw [hrun2 i hi, hrun2 j hj]
      · rw [show prev + 1 + 1 - (count + 1 + 1) = prev - count by omega]; exact hJ
      · rintro acc1 s1 h1
        refine Ends.pure ⟨_, by dsimp only; omega, rfl, .inl ⟨by dsimp only; omega, ?_⟩⟩
        rw [show nodes.length = prev + 1 + 1 by omega]; exact h1
    · have hnew : ∃ p, ∀ i ∈ (nodes.take (prev + 1 + 1)).drop (prev + 1 - 0), loc i = p := by
        refine ⟨loc b, fun i hi => ?_⟩
        rw [List.take_add_one, hb, List.drop_append_of_le_length (by simp; omega), List.drop_eq_nil_of_le (by simp)] at hi
        obtain rfl : i = b := by simpa using hi
        rfl
      have hc2 : CutAt loc nodes (prev + 1) := hsort prev hlt (by rw [hbe]; exact e)
      refine Ends.ite (fun e2 => Ends.pure ⟨_, ?_, rfl, .inr ⟨rfl, by dsimp only; omega, fun _ => rfl, by dsimp only; omega, ?_, hc2, hnew⟩⟩) fun e2 => ?_
      · dsimp only; omega
      · subst e2
        exact hone prev _ _ (by omega) hcut hJ
      refine Ends.bind ((hrun _ _ acc s (by omega) (by omega) ?_ ?_ ?_).imp ?_)
      · rw [show prev + 1 - (count + 1) = prev - count by omega]; exact hcut
      · intro i hi j hj
        rw [show prev + 1 - (count + 1) = prev - count by omega] at hi hj
        rw [hrun' i hi, hrun' j hj]
      · rw [show prev + 1 - (count + 1) = prev - count by omega]; exact hJ
      · rintro acc1 s1 h1
        exact Ends.pure ⟨_, by dsimp only; omega, rfl, .inr ⟨rfl, by dsimp only; omega, fun _ => rfl, by dsimp only; omega, h1, hc2, hnew⟩⟩

/-- The order of `sorted_nodes`. -/
def keyLe (a b : Point) : Prop := -a.y < -b.y ∨ (-a.y = -b.y ∧ a.x ≤ b.x)

theorem keyLe.antisymm {a b : Point} (h : keyLe a b) (k : keyLe b a) : a = b := by
  obtain ⟨ax, ay⟩ := a
  obtain ⟨bx, bY⟩ := b
  unfold keyLe at h k
  dsimp only at h k
  have h1 : ax = bx := by omega
  have h2 : ay = bY := by omega
  rw [h1, h2]

theorem keyLe.trans {a b c : Point} (h : keyLe a b) (k : keyLe b c) : keyLe a c := by
  unfold keyLe at *; omega
theorem keyLe.refl (a : Point) : keyLe a a := by unfold keyLe; omega

theorem ends_nodesFrom {a : Nat} {t : List Nat} (h : IsCycle s.nodes (a :: t)) : Ends E (nodesFrom a) s fun l s' => s' = s ∧ l = a :: t :=
  Ends.run (t.length + 1) (fun k hk => nodesFrom_run (s := s.wf k) h (by dsimp only [St.wf]; omega)) ⟨rfl, rfl⟩

theorem ends_sortedNodes (h : TI s L) {r : Nat} (hr : L r ≠ []) :
    Ends E (sortedNodes r) s fun nodes s' => s' = s ∧ nodes.Perm (L r)
      ∧ ∀ m (h : m + 1 < nodes.length), locOf s.nodes nodes[m] ≠ locOf s.nodes nodes[m + 1] → CutAt (locOf s.nodes) nodes (m + 1) := by
  unfold sortedNodes
  obtain ⟨a, t, e⟩ := List.exists_cons_of_ne_nil hr
  have hh : (s.rings r).node = some a := by rw [h.own.head r, e]; rfl
  refine Ends.bind (Ends.getRing (Ends.bind (Ends.deref hh ?_)))
  have hc := (h.own.cycle r hr).2
  rw [e] at hc
  refine Ends.bind ((ends_nodesFrom hc).imp ?_)
  rintro l s1 ⟨rfl, rfl⟩
  refine Ends.bind (Ends.run (a := (a :: t).map fun i => (i, locOf s1.nodes i)) (s' := s1) 0 (fun k _ => mapM'_run fun i _ => rfl) ?_)
  refine Ends.pure ⟨rfl, ?_, ?_⟩
  · have := (pySorted_perm (fun (a b : Nat × Point) =>
      decide (-a.2.y < -b.2.y) || (decide (-a.2.y = -b.2.y) && decide (a.2.x < b.2.x))) ((a :: t).map fun i => (i, locOf s1.nodes i))).map Prod.fst
    rw [List.map_map] at this
    rw [e]
    refine this.trans ?_
    have h2 : (Prod.fst ∘ fun i => (i, locOf s1.nodes i)) = (id : Nat → Nat) := rfl
    rw [h2, List.map_id]
  · have hp := pySorted_pairwise (lt := fun (a b : Nat × Point) =>
      decide (-a.2.y < -b.2.y) || (decide (-a.2.y = -b.2.y) && decide (a.2.x < b.2.x))) (R := fun a b => keyLe a.2 b.2)
      (fun a b h => by
        unfold keyLe
        simp only [Bool.or_eq_true, Bool.and_eq_true, decide_eq_true_eq] at h
        omega)
      (fun a b h => by
        unfold keyLe
        simp only [Bool.or_eq_false_iff, Bool.and_eq_false_iff, decide_eq_false_iff_not] at h
        omega)
      (fun a b c h k => h.trans k) ((a :: t).map fun i => (i, locOf s1.nodes i))
    have hall : ∀ q ∈ pySorted (fun (a b : Nat × Point) =>
        decide (-a.2.y < -b.2.y) || (decide (-a.2.y = -b.2.y) && decide (a.2.x < b.2.x))) ((a :: t).map fun i => (i, locOf s1.nodes i)),
        q.2 = locOf s1.nodes q.1 := by
      intro q hq
      have := (pySorted_perm _ _).mem_iff.1 hq
      obtain ⟨i, -, rfl⟩ := List.mem_map.1 this
      rfl
    generalize pySorted (fun (a b : Nat × Point) =>
      decide (-a.2.y < -b.2.y) || (decide (-a.2.y = -b.2.y) && decide (a.2.x < b.2.x))) ((a :: t).map fun i => (i, locOf s1.nodes i)) = ks at hp hall
    have hpl : (ks.map Prod.fst).Pairwise fun i j => keyLe (locOf s1.nodes i) (locOf s1.nodes j) := by
      rw [List.pairwise_map]
      refine hp.imp_of_mem fun {p q} hp' hq' h => ?_
      rw [← hall p hp', ← hall q hq']; exact h
    generalize ks.map Prod.fst = nodes at hpl
    intro m hm hne i hi j hj heq
    obtain ⟨x, hx, rfl⟩ := List.mem_iff_getElem.1 hi
    obtain ⟨y, hy, rfl⟩ := List.mem_iff_getElem.1 hj
    simp only [List.length_take, List.length_drop] at hx hy
    simp only [List.getElem_take, List.getElem_drop] at heq
    have hle : ∀ u v (hu : u < nodes.length) (hv : v < nodes.length), u ≤ v → keyLe (locOf s1.nodes nodes[u]) (locOf s1.nodes nodes[v]) := by
      intro u v hu hv huv
      rcases Nat.lt_or_eq_of_le huv with h | rfl
      · exact List.pairwise_iff_getElem.1 hpl u v hu hv h
      · exact keyLe.refl _
    have k1 := hle x m (by omega) (by omega) (by omega)
    have k2 := hle m (m + 1) (by omega) (by omega) (by omega)
    have k3 := hle (m + 1) (m + 1 + y) (by omega) (by omega) (by omega)
    rw [← heq] at k3
    exact hne (k2.antisymm (k3.trans k1))

/-- `find_and_correct_repeated_points`: afterwards no ring made of the nodes of this one visits a point twice. -/
theorem ends_findAndCorrect (h : TI s L) {r : Nat} (hr : L r ≠ []) :
    Ends E (findAndCorrectRepeatedPoints r) s fun acc s' => ∃ L', Splits r s L s' L' ∧ RingsMade s s' acc
      ∧ ∀ i ∈ L r, ∀ j ∈ L r, i ≠ j → locOf s.nodes i = locOf s.nodes j → Apart L' i j := by
  unfold findAndCorrectRepeatedPoints
  refine Ends.bind ((ends_sortedNodes h hr).imp ?_)
  rintro nodes s1 ⟨rfl, hperm, hsort⟩
  have hnd : nodes.Nodup := hperm.nodup_iff.2 (h.own.cycle r hr).2.nodup
  refine (ends_scan (E := E) (f := fun acc a b => correctRepeatedPoints acc nodes a b) (loc := locOf s1.nodes) (J := fun m acc s' => ∃ L', Splits r s1 L s' L' ∧ RingsMade s1 s' acc
    ∧ ∀ i ∈ nodes.take m, ∀ j ∈ nodes.take m, i ≠ j → locOf s1.nodes i = locOf s1.nodes j → Apart L' i j) ?_ hsort ?_ ?_
    ⟨L, Splits.refl h, ?_, ?_⟩).imp ?_
  · rintro m acc s ⟨L', h1, -⟩ i -
    exact h1.step.loc i
  · rintro m acc s hm hcut ⟨L', h1, h2, h3⟩
    refine ⟨L', h1, h2, fun i hi j hj hij hloc => ?_⟩
    rw [List.take_add_one, List.getElem?_eq_getElem hm] at hi hj
    have hmd : nodes[m] ∈ nodes.drop m := List.mem_iff_getElem.2 ⟨0, by simp; omega, by simp⟩
    rcases List.mem_append.1 hi with hi | hi
    · rcases List.mem_append.1 hj with hj | hj
      · exact h3 i hi j hj hij hloc
      · obtain rfl : j = nodes[m] := by simpa using hj
        exact absurd hloc (hcut i hi _ hmd)
    · obtain rfl : i = nodes[m] := by simpa using hi
      rcases List.mem_append.1 hj with hj | hj
      · exact absurd hloc.symm (hcut j hj _ hmd)
      · obtain rfl : j = nodes[m] := by simpa using hj
        exact absurd rfl hij
  · rintro start stop acc s hss hst hcut hrun ⟨L', h1, h2, h3⟩
    unfold correctRepeatedPoints
    have hsub : ((nodes.take stop).drop start).Sublist nodes := (List.drop_sublist _ _).trans (List.take_sublist _ _)
    refine (ends_pairs h ((nodes.take stop).drop start) (hnd.sublist hsub) (fun b hb => hperm.mem_iff.1 (hsub.subset hb)) hrun acc s L' h1 h2).imp ?_
    rintro acc1 s2 ⟨L2, k1, k2, k3, k4⟩
    refine ⟨L2, k1, k2, fun i hi j hj hij hloc => ?_⟩
    have hsplit : nodes.take stop = nodes.take start ++ (nodes.take stop).drop start := by
      conv_lhs => rw [← List.take_append_drop start (nodes.take stop)]
      rw [List.take_take, Nat.min_eq_left hss]
    have hdr : ∀ x ∈ (nodes.take stop).drop start, x ∈ nodes.drop start := fun x hx => by
      rw [List.drop_take] at hx
      exact List.mem_of_mem_take hx
    rw [hsplit] at hi hj
    rcases List.mem_append.1 hi with hi | hi
    · rcases List.mem_append.1 hj with hj | hj
      · exact k4 i j (h3 i hi j hj hij hloc)
      · exact absurd hloc (hcut i hi _ (hdr j hj))
    · rcases List.mem_append.1 hj with hj | hj
      · exact absurd hloc.symm (hcut j hj _ (hdr i hi))
      · haveI : Std.Symm (Apart L2) := ⟨fun _ _ h => h.symm⟩
        exact k3.forall hi hj hij
  · show [] = _
    simp
  · simp
  · rintro acc s2 ⟨L2, k1, k2, k3⟩
    refine ⟨L2, k1, k2, fun i hi j hj hij hloc => k3 i ?_ j ?_ hij hloc⟩
    · rw [List.take_length]; exact hperm.mem_iff.2 hi
    · rw [List.take_length]; exact hperm.mem_iff.2 hj

/-! ## All rings -/

/-- What the correction of self-intersections does to the rings. -/
structure Cleaned (s : St) (L : Nat → List Nat) (s' : St) (L' : Nat → List Nat) : Prop where
  ti : TI s' L'
  nn : s'.nn = s.nn
  nr : s.nr ≤ s'.nr
  all : s'.allNodes = s.allNodes
  loc : ∀ i, locOf s'.nodes i = locOf s.nodes i
  wle : weight L' s'.nr ≤ weight L s.nr
  kept : ∀ i k, i ∈ L k → ∃ k', i ∈ L' k'
  sep : ∀ i j, Apart L i j → Apart L' i j
  total : ∀ c, edgeTotal c s'.nodes L' s'.nr = edgeTotal c s.nodes L s.nr

theorem Cleaned.refl (h : TI s L) : Cleaned s L s L :=
  ⟨h, rfl, Nat.le_refl _, rfl, fun _ => rfl, Nat.le_refl _, fun _ k h => ⟨k, h⟩, fun _ _ h => h, fun _ => rfl⟩
theorem Cleaned.trans {s'' : St} {L'' : Nat → List Nat} (h : Cleaned s L s' L') (k : Cleaned s' L' s'' L'') : Cleaned s L s'' L'' :=
  ⟨k.ti, k.nn.trans h.nn, h.nr.trans k.nr, k.all.trans h.all, fun i => (k.loc i).trans (h.loc i), k.wle.trans h.wle,
    fun i q hi => let ⟨p, hp⟩ := h.kept i q hi; k.kept i p hp, fun i j hij => k.sep i j (h.sep i j hij), fun c => (k.total c).trans (h.total c)⟩

theorem Splits.cleaned {r : Nat} (h : Splits r s L s' L') (hs : TI s L) : Cleaned s L s' L' := by
  refine ⟨h.step.ti, h.step.nn, h.step.nr, h.step.all, h.step.loc, h.step.wle, fun i k hi => ?_, h.sep, h.total⟩
  by_cases e : k = r
  · subst e; exact h.kept i hi
  · exact ⟨k, by rw [(h.others k (hs.own.lt hi) e).1]; exact hi⟩

theorem OnlyStats.cleaned (h : OnlyStats s s') (hs : TI s' L) : Cleaned s L s' L :=
  ⟨hs, h.nn, h.nr.ge, h.allNodes, fun i => by rw [h.nodes], by rw [h.nr], fun i k hi => ⟨k, hi⟩, fun _ _ h => h, fun c => by rw [h.nodes, h.nr]⟩

/-- No point is visited twice. -/
def Once (s : St) (l : List Nat) : Prop := (pointsOf s.nodes l).Nodup

theorem once_of {l : List Nat} (hl : l.Nodup) (h : ∀ i ∈ l, ∀ j ∈ l, i ≠ j → locOf s.nodes i ≠ locOf s.nodes j) : Once s l :=
  List.Nodup.map_on (fun i hi j hj e => by by_contra hc; exact h i hi j hj hc e) hl

theorem Once.congr {l : List Nat} (h : Once s l) (hloc : ∀ i, locOf s'.nodes i = locOf s.nodes i) : Once s' l := by
  unfold Once at *
  rw [pointsOf_congr hloc]; exact h

/-- The invariant does not depend on marks, parents and children. -/
theorem TI.marks (h : TI s L) {s' : St} (hn : s'.nodes = s.nodes) (hnn : s'.nn = s.nn) (hnr : s'.nr = s.nr)
    (e : ∀ k, Alike (s'.rings k) { s.rings k with corrected := (s'.rings k).corrected }) : TI s' L := by
  refine ⟨?_, fun k hk ha => ?_, fun k hk => ?_⟩
  · have e1 : (fun r => (s'.rings r).node) = fun r => (s.rings r).node := funext fun k => (e k).node
    show Owned _ _ (fun r => (s'.rings r).node) _ _
    rw [e1, hn, hnn, hnr]
    exact h.own
  · rw [(e k).area] at ha ⊢
    rw [(e k).hole, (e k).box, (e k).size, hn]
    exact h.sound k hk ha
  · refine Statless.congr (h := { s.rings k with corrected := (s'.rings k).corrected }) ?_ (e k)
    have := h.blank k hk
    unfold Statless Ring.resetStats at this ⊢
    conv_rhs => rw [← this]

theorem TI.corrected (h : TI s L) {r : Nat} {b : Bool} {s' : St} (hs : s' = { s with rings := upd s.rings r { s.rings r with corrected := b } }) : TI s' L := by
  refine h.marks (by rw [hs]) (by rw [hs]) (by rw [hs]) fun k => ?_
  rw [hs]
  dsimp only
  by_cases e : k = r
  · subst e; rw [Wagyu.upd_same]; exact Alike.refl _
  · rw [Wagyu.upd_ne _ _ e]; exact Alike.refl _

theorem ends_correctRing (h : TI s L) {r : Nat} (hc : (s.rings r).corrected = false) :
    Ends E (correctRingSelfIntersections r false) s fun _ s' => ∃ L', Cleaned s L s' L' ∧ (∀ k < s.nr, k ≠ r → L' k = L k ∧ s'.rings k = s.rings k)
      ∧ ∀ k, k = r ∨ s.nr ≤ k → Once s' (L' k) := by
  unfold correctRingSelfIntersections
  refine Ends.bind (Ends.getRing ?_)
  rw [hc, Bool.false_or]
  refine Ends.ite (fun e => Ends.pure ⟨L, Cleaned.refl h, fun _ _ _ => ⟨rfl, rfl⟩, fun k hk => ?_⟩) fun e => ?_
  · have : L k = [] := by
      by_contra hne
      rcases hk with rfl | hk
      · rw [h.own.head k] at e
        simp [hne] at e
      · have := (h.own.cycle k hne).1
        omega
    rw [this]; exact List.nodup_nil
  · have hne : L r ≠ [] := by
      intro hne
      rw [h.own.head r, hne] at e
      simp at e
    refine Ends.bind ((ends_findAndCorrect h hne).imp ?_)
    rintro acc s1 ⟨L1, h1, -, h2⟩
    rw [if_neg (by simp)]
    refine Ends.bind (Ends.modRing (Ends.pure ?_))
    have hr := (h.own.cycle r hne).1
    set s2 : St := { s1 with rings := upd s1.rings r { s1.rings r with corrected := true } } with hs2
    have hti : TI s2 L1 := h1.step.ti.corrected hs2
    refine ⟨L1, ?_, fun k hk hkr => ?_, fun k hk => ?_⟩
    · have := h1.cleaned h
      exact ⟨hti, this.nn, this.nr, this.all, this.loc, this.wle, this.kept, this.sep, this.total⟩
    · refine ⟨(h1.others k hk hkr).1, ?_⟩
      rw [← (h1.others k hk hkr).2, hs2]
      dsimp only
      rw [Wagyu.upd_ne _ _ hkr]
    · refine once_of ?_ fun i hi j hj hij hl => ?_
      · by_cases e : L1 k = []
        · rw [e]; exact List.nodup_nil
        · exact (h1.step.ti.own.cycle k e).2.nodup
      · refine h2 i (h1.fewer k hk i hi) j (h1.fewer k hk j hj) hij ?_ k hi hj
        rw [← h1.step.loc, ← h1.step.loc]; exact hl

theorem ends_ringKeys (h : TI s L) :
    Ends E ringKeys s fun keys s' => (OnlyStats s s' ∧ TI s' L) ∧ keys.map Prod.fst = List.range s.nr := by
  unfold ringKeys
  refine Ends.bind (Ends.gets (fun _ _ => rfl) ?_)
  refine ends_mapM' (fun s' => OnlyStats s s' ∧ TI s' L) Prod.fst (List.range s.nr) s ?_ ⟨Preo.refl s, h⟩
  rintro r hr s1 ⟨h1, h2⟩
  refine Ends.bind (Ends.getRing ?_)
  refine Ends.ite (fun _ => ?_) fun _ => Ends.pure ⟨⟨h1, h2⟩, rfl⟩
  refine Ends.bind ((ends_ringArea h2.own r).imp ?_)
  rintro a s2 ⟨-, h3⟩
  exact Ends.pure ⟨⟨Preo.trans h1 h3.only, (h3.step h2).ti⟩, rfl⟩

theorem ends_sortedRings (h : TI s L) :
    Ends E sortedRings s fun l s' => (OnlyStats s s' ∧ TI s' L) ∧ l.Perm (List.range s.nr) := by
  unfold sortedRings
  refine Ends.bind ((ends_ringKeys h).imp ?_)
  rintro keys s1 ⟨h1, h2⟩
  refine Ends.pure ⟨h1, ?_⟩
  rw [← h2]
  exact (pySorted_perm _ _).map _

/-- `correct_self_intersections(False)`. -/
theorem ends_correctSelfIntersections (h : TI s L) (hc : ∀ r, (s.rings r).corrected = false) :
    Ends E (correctSelfIntersections false) s fun _ s' => ∃ L', Cleaned s L s' L' ∧ ∀ k, Once s' (L' k) := by
  unfold correctSelfIntersections
  refine Ends.bind ((ends_sortedRings h).imp ?_)
  rintro rings s1 ⟨⟨h1, h2⟩, hperm⟩
  have go : ∀ (rest : List Nat) (acc : Bool) (s2 : St) (L2 : Nat → List Nat), rest.Nodup → Cleaned s L s2 L2 → (∀ k ∈ rest, k < s2.nr ∧ (s2.rings k).corrected = false) →
      (∀ k, k ∉ rest → Once s2 (L2 k)) → Ends E (correctSelfIntersections.go false rest acc) s2 fun _ s' => ∃ L', Cleaned s L s' L' ∧ ∀ k, Once s' (L' k) := by
    intro rest
    induction rest with
    | nil =>
      intro acc s2 L2 _ k1 _ k3
      rw [correctSelfIntersections.go]
      exact Ends.pure ⟨L2, k1, fun k => k3 k (by simp)⟩
    | cons r rest ih =>
      intro acc s2 L2 hnd k1 k2 k3
      obtain ⟨n1, n2⟩ := List.nodup_cons.1 hnd
      rw [correctSelfIntersections.go]
      refine Ends.bind ((ends_correctRing k1.ti (k2 r (by simp)).2).imp ?_)
      rintro b s3 ⟨L3, c1, c2, c3⟩
      refine ih _ s3 L3 n2 (k1.trans c1) (fun k hk => ?_) fun k hk => ?_
      · obtain ⟨a1, a2⟩ := k2 k (by simp [hk])
        have hkr : k ≠ r := fun e => n1 (e ▸ hk)
        exact ⟨lt_of_lt_of_le a1 c1.nr, by rw [(c2 k a1 hkr).2]; exact a2⟩
      · by_cases e : k = r ∨ s2.nr ≤ k
        · exact c3 k e
        · push Not at e
          rw [(c2 k e.2 e.1).1]
          exact (k3 k (by simp [e.1, hk])).congr c1.loc
  refine go rings false s1 L (hperm.nodup_iff.2 List.nodup_range) (h1.cleaned h2) (fun k hk => ?_) fun k hk => ?_
  · have := hperm.mem_iff.1 hk
    rw [h1.nr, h1.corrected]
    exact ⟨List.mem_range.1 this, hc k⟩
  · have : L k = [] := by
      by_contra hne
      have := (h.own.cycle k hne).1
      exact hk (hperm.mem_iff.2 (List.mem_range.2 this))
    rw [this]; exact List.nodup_nil

end

end Wagyu
