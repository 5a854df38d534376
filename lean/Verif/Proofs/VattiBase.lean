import Verif.Proofs.HeapJoin
import Verif.Proofs.HotSweep
import Mathlib.Data.List.Perm.Subperm

/-!
# Moving and removing active bounds
-/

namespace Wagyu

open Spec

/-- Active bounds are exchanged, points are added. -/
structure Exch (s s' : St) : Prop where
  hw : HW s'
  scan : s'.scan = s.scan
  hot : s'.hotPixels = s.hotPixels
  cur : s'.curHot = s.curHot
  bound : ∀ b, SamePlace (s.bounds b) (s'.bounds b)
  perm : s'.abl.Perm s.abl

/-- Active bounds are exchanged and removed, points are added. -/
structure Fewer (s s' : St) : Prop where
  hw : HW s'
  scan : s'.scan = s.scan
  hot : s'.hotPixels = s.hotPixels
  cur : s'.curHot = s.curHot
  bound : ∀ b, SamePlace (s.bounds b) (s'.bounds b)
  len : s'.abl.length = s.abl.length
  sub : (s'.abl.filterMap id).Subperm (s.abl.filterMap id)

/-- The number of active bounds. -/
def actives (s : St) : Nat := (s.abl.filterMap id).length

theorem mem_actives {l : List (Option Nat)} {b : Nat} : b ∈ l.filterMap id ↔ some b ∈ l := by simp [List.mem_filterMap]

theorem Exch.refl {s : St} (h : HW s) : Exch s s := ⟨h, rfl, rfl, rfl, fun _ => SamePlace.refl _, List.Perm.refl _⟩
theorem Exch.trans {a b c : St} (h : Exch a b) (k : Exch b c) : Exch a c :=
  ⟨k.hw, k.scan.trans h.scan, k.hot.trans h.hot, k.cur.trans h.cur, fun i => (h.bound i).trans (k.bound i), k.perm.trans h.perm⟩
theorem Grown.exch {s s' : St} (h : Grown s s') : Exch s s' :=
  ⟨h.hw, h.still.scan, h.still.hot, h.still.cur, h.still.bound, by rw [h.still.abl]⟩
theorem Exch.active {s s' : St} (h : Exch s s') {b : Nat} (hb : some b ∈ s.abl) : some b ∈ s'.abl := h.perm.mem_iff.2 hb
theorem Exch.add {a b c : St} (h : Exch a b) (k : Grown b c) : Exch a c := h.trans k.exch

theorem Exch.fewer {s s' : St} (h : Exch s s') : Fewer s s' :=
  ⟨h.hw, h.scan, h.hot, h.cur, h.bound, h.perm.length_eq, (h.perm.filterMap _).subperm⟩
theorem Fewer.trans {a b c : St} (h : Fewer a b) (k : Fewer b c) : Fewer a c :=
  ⟨k.hw, k.scan.trans h.scan, k.hot.trans h.hot, k.cur.trans h.cur, fun i => (h.bound i).trans (k.bound i), k.len.trans h.len, k.sub.trans h.sub⟩
theorem Fewer.active {s s' : St} (h : Fewer s s') {b : Nat} (hb : some b ∈ s'.abl) : some b ∈ s.abl :=
  mem_actives.1 (h.sub.subset (mem_actives.2 hb))
theorem Fewer.count {s s' : St} (h : Fewer s s') : actives s' ≤ actives s := h.sub.length_le
theorem Fewer.left {E : Nat → List Edge} {A : List LocalMinimum} {s s' : St} (h : Fewer s s') : Left E A s' = Left E A s := by
  unfold Left; simp only [fun b => (h.bound b).curIdx]
theorem Fewer.phi {E : Nat → List Edge} {A rest : List LocalMinimum} {s s' : St} (h : Fewer s s') : Phi E A rest s' = Phi E A rest s := by
  unfold Phi wt; simp only [h.scan, fun b => (h.bound b).curIdx]

/-- Other active bounds, the same rings. -/
theorem HW.actives {s : St} (h : HW s) {l : List (Option Nat)} (hl : (l.filterMap id).Subperm (s.abl.filterMap id)) : HW { s with abl := l } :=
  ⟨h.rings, h.bottom, ⟨h.forest.1, h.forest.2, h.forest.3⟩, h.par, h.rank,
    fun b r hb hr => h.held b r (mem_actives.1 (hl.subset (mem_actives.2 hb))) hr,
    let ⟨_, hp, hs⟩ := hl; hp.nodup_iff.1 (h.once.sublist hs)⟩

theorem swap_perm {l : List (Option Nat)} {i j : Nat} {a b : Option Nat} (ha : l[i]? = some a) (hb : l[j]? = some b) :
    ((l.set i b).set j a).Perm l := by
  obtain ⟨h1, rfl⟩ := List.getElem?_eq_some_iff.1 ha
  obtain ⟨h2, rfl⟩ := List.getElem?_eq_some_iff.1 hb
  exact List.set_set_perm h1 h2

theorem Exch.swap {s : St} (h : HW s) {i j : Nat} {a b : Option Nat} (ha : s.abl[i]? = some a) (hb : s.abl[j]? = some b) :
    Exch s { s with abl := (s.abl.set i b).set j a } :=
  ⟨h.actives ((swap_perm ha hb).filterMap _).subperm, rfl, rfl, rfl, fun _ => SamePlace.refl _, swap_perm ha hb⟩

theorem set_none_sublist (l : List (Option Nat)) (i : Nat) : ((l.set i none).filterMap id).Sublist (l.filterMap id) := by
  induction l generalizing i with
  | nil => exact List.Sublist.refl _
  | cons a l ih =>
    cases i with
    | zero =>
      cases a with
      | none => simp
      | some a => simp
    | succ i =>
      cases a with
      | none => simpa using ih i
      | some a => simpa using ih i

theorem set_none_length {l : List (Option Nat)} {i b : Nat} (h : l[i]? = some (some b)) :
    ((l.set i none).filterMap id).length + 1 = (l.filterMap id).length := by
  induction l generalizing i with
  | nil => cases h
  | cons a l ih =>
    cases i with
    | zero => simp at h; subst h; simp
    | succ i =>
      have := ih (i := i) (by simpa using h)
      cases a with
      | none => simpa using this
      | some a => simp at this ⊢; omega

theorem Fewer.drop {s : St} (h : HW s) (i : Nat) : Fewer s { s with abl := s.abl.set i none } :=
  ⟨h.actives (set_none_sublist _ _).subperm, rfl, rfl, rfl, fun _ => SamePlace.refl _, by simp, (set_none_sublist _ _).subperm⟩

theorem Tot.ablGet {i : Nat} {s : St} {Q : Option Nat → St → Prop} (h : ∀ a, s.abl[i]? = some a → Q a s) : Tot (ablGet i) s Q :=
  (Tot.steady ok_ablGet).imp (by rintro a _ ⟨rfl, ha⟩; exact h a ha)
theorem Tot.ablSet {i : Nat} {v : Option Nat} {s : St} {Q : Unit → St → Prop} (h : Q () { s with abl := s.abl.set i v }) : Tot (ablSet i v) s Q :=
  Tot.modify (fun _ _ => rfl) h
theorem Tot.ablLen {s : St} {Q : Nat → St → Prop} (h : Q s.abl.length s) : Tot (Wagyu.gets fun s => s.abl.length) s Q := Tot.gets (fun _ _ => rfl) h

theorem Tot.ablSwap {i j : Nat} {s : St} {Q : Unit → St → Prop}
    (h : ∀ a b, s.abl[i]? = some a → s.abl[j]? = some b → Q () { s with abl := (s.abl.set i b).set j a }) : Tot (ablSwap i j) s Q :=
  (Tot.steady ok_ablSwap).imp (by rintro _ _ ⟨a, b, ha, hb, rfl⟩; exact h a b ha hb)

section
variable {s : St} (op : OperationKind) (sf cf : FillKind)

/-! ## Crossings -/

theorem crossingPosition_reader (n : IntersectNode) : Pres Eq (crossingPosition n) := by unfold crossingPosition; pres

instance Steady.crossingPosition (n : IntersectNode) : Steady (crossingPosition n) := by unfold Wagyu.crossingPosition; steady
instance Steady.findFeasible (l : List IntersectNode) (k : Nat) : Steady (findFeasible l k) := by
  induction l generalizing k with
  | nil => unfold Wagyu.findFeasible; steady
  | cons n l ih => unfold Wagyu.findFeasible; have := ih; steady

theorem findFeasible_ok : ∀ (l : List IntersectNode) (k : Nat),
    Ok (findFeasible l k) s fun r s' => s' = s ∧ k ≤ r.1 ∧ r.1 < k + l.length
  | [], k => trivial
  | n :: l, k => by
    rw [findFeasible]
    refine Post.bind (HW.reader (hm := crossingPosition_reader n) fun r => ?_)
    dsimp only
    refine Post.ite (fun _ => Post.pure ⟨rfl, by simp⟩) fun _ => ?_
    refine (findFeasible_ok l (k + 1)).imp ?_
    rintro r s' ⟨h1, h2, h3⟩
    simp only [List.length_cons]
    exact ⟨h1, by omega, by omega⟩

theorem tot_processIntersectList : ∀ (n : Nat) (l : List IntersectNode) (s : St), HW s →
    (∀ x ∈ l, some x.first ∈ s.abl ∧ some x.second ∈ s.abl) →
    Tot (processIntersectList op sf cf n l) s fun _ s' => Exch s s'
  | 0, _, s, h, _ => Tot.pure (Exch.refl h)
  | _ + 1, [], s, h, _ => Tot.pure (Exch.refl h)
  | n + 1, node :: rest, s, h, hl => by
    rw [processIntersectList]
    refine Tot.bind (Tot.steady (HW.reader (hm := crossingPosition_reader node) fun r => ?_))
    dsimp only
    have main : ∀ (node : IntersectNode) (rest : List IntersectNode) (i : Nat),
        (∀ x ∈ node :: rest, some x.first ∈ s.abl ∧ some x.second ∈ s.abl) →
        Tot (do
          let p ← liftE node.point.round
          intersectBounds p op sf cf node.first node.second
          ablSwap i (i + 1)
          processIntersectList op sf cf n rest) s fun _ s' => Exch s s' := by
      intro node rest i hl
      refine Tot.bind (Tot.reader fun p => ?_)
      have hn := hl node (by simp)
      refine Tot.bind ((tot_intersectBounds h hn.1 hn.2 p op sf cf).imp fun _ s1 h1 => ?_)
      refine Tot.bind (Tot.ablSwap fun a b ha hb => ?_)
      have h2 := h1.exch.trans (Exch.swap h1.hw ha hb)
      exact (tot_processIntersectList n rest _ h2.hw fun x hx =>
        ⟨h2.active (hl x (by simp [hx])).1, h2.active (hl x (by simp [hx])).2⟩).imp fun _ _ h3 => h2.trans h3
    refine Tot.bind (Tot.ite (fun _ => Tot.pure (main node rest r.1 hl)) fun _ => ?_)
    refine Tot.bind (Tot.steady ((findFeasible_ok rest 0).imp ?_))
    rintro ⟨k, j⟩ _ ⟨rfl, -, hk⟩
    refine Tot.pure (main _ _ _ ?_)
    have hk : k < rest.length := by simpa using hk
    have hget : rest.getD k default = rest[k] := by rw [List.getD_eq_getElem?_getD, List.getElem?_eq_getElem hk]; rfl
    intro x hx
    rcases List.mem_cons.1 hx with rfl | hx
    · dsimp only; rw [hget]; exact hl _ (List.mem_cons_of_mem _ (List.getElem_mem hk))
    · rcases List.mem_or_eq_of_mem_set hx with h1 | rfl
      · exact hl x (by simp [h1])
      · exact hl x (by simp)

/-! ## Maxima -/

theorem tot_maximaLoop (h : HW s) (maxIdx : Nat) {boundIdx b : Nat} (hb : s.abl[boundIdx]? = some (some b)) :
    Tot (maximaLoop op sf cf maxIdx boundIdx) s fun r s' => Exch s s' ∧ s'.abl[r.1]? = some (some b)
      ∧ boundIdx ≤ r.1 ∧ (r.2 = false → r.1 = boundIdx) ∧ ∀ j, j < boundIdx → s'.abl[j]? = s.abl[j]? := by
  unfold maximaLoop
  refine Tot.loopM (fun (st : Nat × Nat × Bool) s' => Exch s s' ∧ s'.abl[st.1]? = some (some b)
      ∧ boundIdx ≤ st.1 ∧ (st.2.2 = false → st.1 = boundIdx) ∧ (∀ j, j < boundIdx → s'.abl[j]? = s.abl[j]?) ∧ st.1 < st.2.1)
    (fun st s' => s'.abl.length - st.2.1) ?_ ⟨Exch.refl h, hb, Nat.le_refl _, fun _ => rfl, fun _ _ => rfl, Nat.lt_succ_self _⟩
  rintro ⟨bi, ni, skipped⟩ s1 ⟨h1, h2, h3, h4, h5, h6⟩
  dsimp only at h2 h3 h4 h6 ⊢
  refine Tot.bind (Tot.ablLen (Tot.ite (fun hlt => ?_) fun _ => Tot.pure ⟨h1, h2, h3, h4, h5⟩))
  refine Tot.bind (Tot.ablGet fun a ha => ?_)
  cases a with
  | none => exact Tot.pure ⟨⟨h1, h2, h3, h4, h5, by dsimp only; omega⟩, by dsimp only; omega⟩
  | some nb =>
    dsimp only
    refine Tot.bind (Tot.ablGet fun o ho => Tot.bind (Tot.deref fun c hc => Tot.bind (Tot.currentEdge fun e he => ?_)))
    obtain rfl : c = b := by rw [h2, hc] at ho; simpa using ho.symm
    refine Tot.bind ((tot_intersectBounds h1.hw (List.mem_of_getElem? h2) (List.mem_of_getElem? ha) _ op sf cf).imp fun _ s2 k => ?_)
    have hab : s2.abl = s1.abl := k.still.abl
    refine Tot.bind (Tot.ablSwap fun x z hx hz => Tot.pure ⟨⟨(h1.add k).trans (Exch.swap k.hw hx hz), ?_, ?_, nofun, ?_, ?_⟩, ?_⟩)
    · rw [hab, h2] at hx; cases hx
      dsimp only
      rw [swap_get (by rw [hab]; exact h2) hz, if_pos rfl]
    · dsimp only; omega
    · intro j hj
      dsimp only
      rw [swap_get hx hz, if_neg (by omega), if_neg (by omega), hab]; exact h5 j hj
    · dsimp only; omega
    · dsimp only; rw [List.length_set, List.length_set, hab]; omega

theorem tot_doMaxima (h : HW s) (maxIdx : Nat) {boundIdx b : Nat} (hb : s.abl[boundIdx]? = some (some b)) :
    Tot (doMaxima op sf cf boundIdx maxIdx) s fun r s' => Fewer s s' ∧ actives s' < actives s ∧ boundIdx ≤ r
      ∧ ∀ j c, j < r → s'.abl[j]? = some (some c) → j < boundIdx ∧ s.abl[j]? = some (some c) := by
  unfold doMaxima
  refine Tot.bind ((tot_maximaLoop op sf cf h maxIdx hb).imp ?_)
  rintro ⟨bi, skipped⟩ s1 ⟨h1, h2, h3, h4, h5⟩
  dsimp only at h2 h3 h4 ⊢
  refine Tot.bind (Tot.ablGet fun o ho => Tot.bind (Tot.deref fun c hc => ?_))
  obtain rfl : c = b := by rw [h2, hc] at ho; simpa using ho.symm
  refine Tot.bind (Tot.ablGet fun o' ho' => Tot.bind (Tot.deref fun m hm => ?_))
  subst hm
  refine Tot.bind (Tot.getBound (Tot.bind (Tot.getBound ?_)))
  have fin : ∀ s2, Grown s1 s2 → Tot (do
      ablSet bi none
      ablSet maxIdx none
      pure (if skipped then boundIdx else boundIdx + 1) : M Nat) s2 fun r s' => Fewer s s' ∧ actives s' < actives s ∧ boundIdx ≤ r
      ∧ ∀ j c, j < r → s'.abl[j]? = some (some c) → j < boundIdx ∧ s.abl[j]? = some (some c) := by
    intro s2 k
    have hab : s2.abl = s1.abl := k.still.abl
    have f1 := (h1.add k).fewer
    have f2 := Fewer.drop f1.hw bi
    have f3 := Fewer.drop f2.hw maxIdx
    refine Tot.bind (Tot.ablSet (Tot.bind (Tot.ablSet (Tot.pure ⟨f1.trans (f2.trans f3), ?_, ?_, ?_⟩))))
    · have a1 := f1.count
      have a2 := set_none_length (l := s2.abl) (i := bi) (b := c) (by rw [hab]; exact h2)
      have a3 := f3.count
      unfold actives at a1 a3 ⊢
      dsimp only at a3 ⊢
      omega
    · split <;> omega
    · intro j d hj hd
      dsimp only at hd
      rw [List.getElem?_set] at hd
      split at hd
      · split at hd <;> cases hd
      rw [List.getElem?_set] at hd
      split at hd
      · split at hd <;> cases hd
      next hne =>
      have hjb : j < boundIdx := by
        cases skipped with
        | true => simpa using hj
        | false => have := h4 rfl; have : j < boundIdx + 1 := by simpa using hj
                   omega
      exact ⟨hjb, by rw [← h5 j hjb, ← hab]; exact hd⟩
  refine Tot.ite (fun _ => ?_) fun _ => Tot.ite (fun _ => ?_) fun _ => ?_
  · refine Tot.bind (Tot.currentEdge fun e he => ?_)
    refine Tot.bind ((tot_addLocalMaximumPoint h1.hw (List.mem_of_getElem? h2) (List.mem_of_getElem? ho') _).imp fun _ s2 k => fin s2 k)
  · exact Tot.bind (Tot.raise ⟨by decide, by decide⟩)
  · exact fin s1 (Grown.refl h1.hw)

end

end Wagyu
