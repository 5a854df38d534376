import Verif.Proofs.KeepRings

/-!
# References to nodes stay valid: the correction of the topology and the construction of the result
-/

namespace Wagyu

section
variable {V : Point → Prop} {n : Nat}

theorem keep_ringHasArea {r : Nat} : Keep (HInv V n) (ringHasArea r) fun _ => True := by unfold ringHasArea; keep
macro_rules | `(tactic| keep1) => `(tactic| with_reducible exact keep_ringHasArea)
theorem keep_forChildren {p : Option Nat} {body : Nat → M Unit} (h : ∀ c, Keep (HInv V n) (body c) fun _ => True) :
    Keep (HInv V n) (forChildren p body) fun _ => True := by
  unfold forChildren
  refine Keep.loopM (fun _ => True) trivial fun i _ => Keep.bind keep_childrenOf fun cs _ => ?_
  split
  · keep
  · keep
  · exact Keep.bind (h _) fun _ _ => Keep.pure trivial
theorem keep_reassignChildrenIfNecessary {r : Nat} {p : Option Nat} {l : List Nat} :
    Keep (HInv V n) (reassignChildrenIfNecessary r p l) fun _ => True := by
  unfold reassignChildrenIfNecessary
  exact keep_forChildren fun c => by keep
macro_rules | `(tactic| keep1) => `(tactic| with_reducible exact keep_reassignChildrenIfNecessary)
theorem keep_anyChild {p : Nat → M Bool} (h : ∀ c, Keep (HInv V n) (p c) fun _ => True) :
    ∀ {l : List (Option Nat)}, Keep (HInv V n) (anyChild p l) fun _ => True
  | [] => Keep.pure trivial
  | none :: l => by rw [anyChild]; exact keep_anyChild h
  | some c :: l => by
    rw [anyChild]
    refine Keep.bind (h c) fun _ _ => Keep.ite (fun _ => Keep.pure trivial) fun _ => keep_anyChild h
theorem keep_findParentInTree : ∀ {f r q : Nat}, Keep (HInv V n) (findParentInTree f r q) fun _ => True
  | 0, _, _ => Keep.raise
  | f + 1, r, q => by
    rw [findParentInTree]
    refine Keep.bind keep_getRing fun _ _ => Keep.bind (keep_anyChild fun c => Keep.bind keep_getRing fun _ _ => keep_anyChild fun g => keep_findParentInTree) fun _ _ => ?_
    keep
macro_rules | `(tactic| keep1) => `(tactic| with_reducible exact keep_findParentInTree)
macro_rules | `(tactic| keep1) => `(tactic| with_reducible exact keep_anyChild fun _ => keep_findParentInTree)
theorem keep_sortByArea {l : List Nat} : Keep (HInv V n) (sortByArea l) fun _ => True := by
  unfold sortByArea
  refine Keep.bind (Keep.mapM' (Q := fun _ => True) fun _ _ => ?_) fun _ _ => Keep.pure trivial
  keep
macro_rules | `(tactic| keep1) => `(tactic| with_reducible exact keep_sortByArea)
theorem keep_findAmongPrevious {r o : Nat} {b : Bool} {l : List Nat} :
    ∀ {d : List Nat}, Keep (HInv V n) (findAmongPrevious r o b l d) fun _ => True
  | [] => Keep.pure trivial
  | p :: d => by
    have ih := @keep_findAmongPrevious r o b l d
    rw [findAmongPrevious]
    refine Keep.bind (P := fun _ => True) (Keep.gets fun _ _ => trivial) fun _ _ => ?_
    refine Keep.bind keep_getRing fun _ _ => Keep.bind keep_getRing fun _ _ => Keep.ite (fun _ => ih) fun _ => ?_
    refine Keep.bind (P := fun _ => True) (by keep) fun _ _ => Keep.ite (fun _ => Keep.pure trivial) fun _ => ih
macro_rules | `(tactic| keep1) => `(tactic| with_reducible exact keep_findAmongPrevious)
theorem keep_assignNewRingParentsLoop {o : Nat} {b : Bool} {l : List Nat} :
    ∀ {r d : List Nat}, Keep (HInv V n) (assignNewRingParentsLoop o b l d r) fun _ => True
  | [], _ => by rw [assignNewRingParentsLoop]; exact Keep.pure trivial
  | p :: r, d => by
    have ih := fun {d : List Nat} => @keep_assignNewRingParentsLoop o b l r d
    rw [assignNewRingParentsLoop]
    refine Keep.bind (P := fun _ => True) (Keep.gets fun _ _ => trivial) fun _ _ => ?_
    repeat' (first | exact ih | keep_step)
macro_rules | `(tactic| keep1) => `(tactic| with_reducible exact keep_assignNewRingParentsLoop)
theorem keep_assignNewRingParents {o : Nat} {l : List Nat} : Keep (HInv V n) (assignNewRingParents o l) fun _ => True := by
  unfold assignNewRingParents
  refine Keep.bind (Keep.filterM' fun _ _ => keep_ringHasArea) fun l _ => ?_
  keep
macro_rules | `(tactic| keep1) => `(tactic| with_reducible exact keep_assignNewRingParents)

theorem keep_correctSelfIntersection {i j : Nat} (hi : i < n) (hj : j < n) :
    Keep (HInv V n) (correctSelfIntersection i j) fun _ => True := by
  unfold correctSelfIntersection
  keep
macro_rules | `(tactic| keep1) => `(tactic| with_reducible apply keep_correctSelfIntersection <;> keepside)

theorem lt_getD {l : List Nat} (h : ∀ i ∈ l, i < n) {k : Nat} {b : Nat} (hb : l[k]? = some b) (i : Nat) : l.getD i 0 < n := by
  have h0 : 0 < n := (Nat.zero_le b).trans_lt (h b (List.mem_of_getElem? hb))
  rw [List.getD_eq_getElem?_getD]
  cases e : l[i]? with
  | none => exact h0
  | some c => exact h c (List.mem_of_getElem? e)

theorem keep_forPairs_inner {σ : Type} {S : σ → Prop} {body : Nat → Nat → σ → M σ} {i : Nat} (hi : i < n)
    (hb : ∀ i j a, i < n → j < n → S a → Keep (HInv V n) (body i j a) S) :
    ∀ {l : List Nat} {a : σ}, (∀ i ∈ l, i < n) → S a → Keep (HInv V n) (forPairs.inner body i l a) S
  | [], a, _, ha => Keep.pure ha
  | j :: l, a, hl, ha => by
    rw [forPairs.inner]
    have hj : j < n := hl j (by simp)
    refine Keep.bind (P := S) (Keep.bind (keep_getNode hj) fun _ _ => Keep.ite (fun _ => Keep.pure ha) fun _ => hb i j a hi hj ha) fun a' ha' => ?_
    exact keep_forPairs_inner hi hb (fun k hk => hl k (by simp [hk])) ha'
theorem keep_forPairs {σ : Type} {S : σ → Prop} {body : Nat → Nat → σ → M σ}
    (hb : ∀ i j a, i < n → j < n → S a → Keep (HInv V n) (body i j a) S) :
    ∀ {l : List Nat} {a : σ}, (∀ i ∈ l, i < n) → S a → Keep (HInv V n) (forPairs body l a) S
  | [], a, _, ha => Keep.pure ha
  | j :: l, a, hl, ha => by
    rw [forPairs]
    have hj : j < n := hl j (by simp)
    have hl' : ∀ k ∈ l, k < n := fun k hk => hl k (by simp [hk])
    refine Keep.bind (P := S) (Keep.bind (keep_getNode hj) fun _ _ => Keep.ite (fun _ => Keep.pure ha) fun _ => keep_forPairs_inner hj hb hl' ha) fun a' ha' => ?_
    exact keep_forPairs hb hl' ha'

theorem lt_slice {l : List Nat} (h : ∀ i ∈ l, i < n) (a b : Nat) : ∀ i ∈ (l.take b).drop a, i < n :=
  fun i hi => h i (List.mem_of_mem_take (List.mem_of_mem_drop hi))

theorem keep_correctRepeatedPoints {acc nodes : List Nat} {a b : Nat} (h : ∀ i ∈ nodes, i < n) :
    Keep (HInv V n) (correctRepeatedPoints acc nodes a b) fun _ => True := by
  unfold correctRepeatedPoints
  refine keep_forPairs (fun i j a hi hj _ => ?_) (lt_slice h _ _) trivial
  keep
macro_rules | `(tactic| keep1) => `(tactic| with_reducible apply keep_correctRepeatedPoints <;> keepside)

theorem sortedInsert_perm' {α : Type} (lt : α → α → Bool) (a : α) : ∀ l : List α, (sortedInsert lt a l).Perm (a :: l)
  | [] => List.Perm.refl _
  | b :: l => by
    unfold sortedInsert
    split
    · exact ((sortedInsert_perm' lt a l).cons b).trans (List.Perm.swap a b l)
    · exact List.Perm.refl _
theorem pySorted_perm' {α : Type} (lt : α → α → Bool) (l : List α) : (pySorted lt l).Perm l := by
  induction l with
  | nil => exact List.Perm.refl _
  | cons a l ih => exact (sortedInsert_perm' lt a _).trans (ih.cons a)
theorem mem_fst_pySorted {α β : Type} {lt : α × β → α × β → Bool} {l : List (α × β)} {P : α → Prop} (h : ∀ p ∈ l, P p.1) :
    ∀ i ∈ (pySorted lt l).map Prod.fst, P i := by
  intro i hi
  obtain ⟨p, hp, rfl⟩ := List.mem_map.1 hi
  exact h p ((pySorted_perm' _ _).mem_iff.1 hp)

theorem keep_sortedNodes {r : Nat} : Keep (HInv V n) (sortedNodes r) fun l => ∀ i ∈ l, i < n := by
  unfold sortedNodes
  refine Keep.bind keep_getRing fun g hg => Keep.bind Keep.deref fun i hi => Keep.bind (keep_nodesFrom (hg.1 i hi)) fun l hl => ?_
  refine Keep.bind (Keep.mapM' (Q := fun p => p.1 < n) fun k hk => ?_) fun l hl => Keep.pure (mem_fst_pySorted hl)
  have := hl k hk
  keep
macro_rules | `(tactic| keep1) => `(tactic| with_reducible exact keep_sortedNodes)

theorem keep_findAndCorrectRepeatedPoints {r : Nat} : Keep (HInv V n) (findAndCorrectRepeatedPoints r) fun _ => True := by
  unfold findAndCorrectRepeatedPoints
  refine Keep.bind keep_sortedNodes fun nodes hn => Keep.loopM (fun _ => True) trivial ?_
  rintro ⟨count, prev, index, acc⟩ _
  dsimp only
  split
  · exact Keep.pure trivial
  · next b e =>
    have h1 := lt_getD hn e
    have h2 := hn b (List.mem_of_getElem? e)
    refine Keep.bind (keep_pointOf (h1 _)) fun _ _ => Keep.bind (keep_pointOf h2) fun _ _ => ?_
    keep
macro_rules | `(tactic| keep1) => `(tactic| with_reducible exact keep_findAndCorrectRepeatedPoints)
theorem keep_correctRingSelfIntersections {r : Nat} {b : Bool} :
    Keep (HInv V n) (correctRingSelfIntersections r b) fun _ => True := by
  unfold correctRingSelfIntersections; keep
macro_rules | `(tactic| keep1) => `(tactic| with_reducible exact keep_correctRingSelfIntersections)
theorem keep_ringKeys : Keep (HInv V n) ringKeys fun _ => True := by
  unfold ringKeys
  refine Keep.bind (P := fun _ => True) (Keep.gets fun _ _ => trivial) fun _ _ => ?_
  refine Keep.triv (Keep.mapM' (Q := fun _ => True) fun k hk => ?_)
  keep
macro_rules | `(tactic| keep1) => `(tactic| with_reducible exact keep_ringKeys)
theorem keep_sortedRings : Keep (HInv V n) sortedRings fun _ => True := by unfold sortedRings; keep
macro_rules | `(tactic| keep1) => `(tactic| with_reducible exact keep_sortedRings)
theorem keep_reversedSortedRings : Keep (HInv V n) reversedSortedRings fun _ => True := by unfold reversedSortedRings; keep
macro_rules | `(tactic| keep1) => `(tactic| with_reducible exact keep_reversedSortedRings)
theorem keep_correctSelfIntersections_go {b : Bool} :
    ∀ {l : List Nat} {a : Bool}, Keep (HInv V n) (correctSelfIntersections.go b l a) fun _ => True
  | [], a => Keep.pure trivial
  | r :: l, a => by
    rw [correctSelfIntersections.go]
    exact Keep.bind keep_correctRingSelfIntersections fun _ _ => keep_correctSelfIntersections_go
theorem keep_correctSelfIntersections {b : Bool} : Keep (HInv V n) (correctSelfIntersections b) fun _ => True := by
  unfold correctSelfIntersections
  exact Keep.bind keep_sortedRings fun _ _ => keep_correctSelfIntersections_go
macro_rules | `(tactic| keep1) => `(tactic| with_reducible exact keep_correctSelfIntersections)
theorem keep_correctOrientations : Keep (HInv V n) correctOrientations fun _ => True := by
  unfold correctOrientations
  refine Keep.bind (P := fun _ => True) (Keep.gets fun _ _ => trivial) fun _ _ => Keep.forList fun r _ => ?_
  refine Keep.bind keep_getRing fun g _ => ?_
  split
  · keep
  · refine Keep.bind keep_recalculateStats fun _ _ => Keep.bind keep_ringSize fun _ _ => Keep.ite (fun _ => ?_) fun _ => ?_
    · keep
    · refine Keep.bind keep_ringDepth fun _ _ => Keep.bind keep_ringIsHole fun _ _ => Keep.ite (fun _ => ?_) fun _ => Keep.pure trivial
      refine Keep.bind keep_getRing fun g hg => Keep.bind Keep.deref fun i hi => ?_
      have := hg.1 i hi
      keep
macro_rules | `(tactic| keep1) => `(tactic| with_reducible exact keep_correctOrientations)
theorem keep_dropNeighbour {i j : Nat} {b : Bool} (hi : i < n) (hj : j < n) :
    Keep (HInv V n) (dropNeighbour i j b) fun _ => True := by
  unfold dropNeighbour
  refine Keep.bind (keep_getNode hj) fun o ho => ?_
  obtain ⟨_, h1, h2⟩ := ho
  refine Keep.ite (fun _ => ?_) fun _ => ?_ <;> keep
macro_rules | `(tactic| keep1) => `(tactic| with_reducible apply keep_dropNeighbour <;> keepside)
theorem keep_dropSame {i : Nat} {b : Bool} (hi : i < n) : Keep (HInv V n) (dropSame i b) fun _ => True := by
  unfold dropSame
  refine Keep.loopM (fun _ => True) trivial fun _ _ => Keep.bind (keep_getNode hi) fun nd hnd => ?_
  have h : VN n (if b then nd.next else nd.prev) := by
    split
    · exact hnd.2.1
    · exact hnd.2.2
  refine Keep.bind (keep_nodesEq h (VN.some hi)) fun _ _ => Keep.ite (fun _ => ?_) fun _ => Keep.pure trivial
  refine Keep.bind Keep.deref fun k hk => ?_
  have := h k hk
  keep
macro_rules | `(tactic| keep1) => `(tactic| with_reducible apply keep_dropSame <;> keepside)
theorem keep_removeDuplicatePoints {i j : Nat} (hi : i < n) (hj : j < n) :
    Keep (HInv V n) (removeDuplicatePoints i j) fun _ => True := by
  unfold removeDuplicatePoints; keep
macro_rules | `(tactic| keep1) => `(tactic| with_reducible apply keep_removeDuplicatePoints <;> keepside)
theorem keep_processCollinearEdgesDifferentRings {i j : Nat} (hi : i < n) (hj : j < n) :
    Keep (HInv V n) (processCollinearEdgesDifferentRings i j) fun _ => True := by
  unfold processCollinearEdgesDifferentRings
  refine Keep.bind (keep_getNode hi) fun _ _ => Keep.bind Keep.deref fun _ _ => ?_
  refine Keep.bind (keep_getNode hj) fun _ _ => Keep.bind Keep.deref fun _ _ => ?_
  refine Keep.bind keep_ringArea fun _ _ => Keep.bind keep_ringArea fun _ _ => ?_
  refine Keep.bind (keep_findStartAndEnd hi hj) fun r hr => ?_
  obtain ⟨s1, e1, s2, e2⟩ := r
  obtain ⟨h1, h2, h3, h4⟩ := hr
  refine Keep.bind (keep_fixCollinearPath h1 h2 h3 h4) fun r hr => ?_
  obtain ⟨p1, p2⟩ := r
  obtain ⟨g1, g2⟩ := hr
  dsimp only at g1 g2 ⊢
  split
  · keep
  · have := g1.lt
    keep
macro_rules | `(tactic| keep1) => `(tactic| with_reducible apply keep_processCollinearEdgesDifferentRings <;> keepside)
theorem keep_processCollinearEdgesSameRing {i j : Nat} (hi : i < n) (hj : j < n) :
    Keep (HInv V n) (processCollinearEdgesSameRing i j) fun _ => True := by
  unfold processCollinearEdgesSameRing
  refine Keep.bind (keep_getNode hi) fun _ _ => Keep.bind Keep.deref fun _ _ => ?_
  refine Keep.bind (keep_findStartAndEnd hi hj) fun r hr => ?_
  obtain ⟨s1, e1, s2, e2⟩ := r
  obtain ⟨h1, h2, h3, h4⟩ := hr
  refine Keep.bind (keep_fixCollinearPath h1 h2 h3 h4) fun r hr => ?_
  obtain ⟨p1, p2⟩ := r
  obtain ⟨g1, g2⟩ := hr
  dsimp only at g1 g2 ⊢
  split
  · keep
  · have := g1.lt
    keep
  · have := g1.lt
    have := g2.lt
    keep
macro_rules | `(tactic| keep1) => `(tactic| with_reducible apply keep_processCollinearEdgesSameRing <;> keepside)
theorem keep_processCollinearEdges {i j : Nat} (hi : i < n) (hj : j < n) :
    Keep (HInv V n) (processCollinearEdges i j) fun _ => True := by
  unfold processCollinearEdges; keep
macro_rules | `(tactic| keep1) => `(tactic| with_reducible apply keep_processCollinearEdges <;> keepside)

theorem keep_forRuns {nodes : List Nat} {process : Nat → Nat → M Unit} (hn : ∀ i ∈ nodes, i < n)
    (hp : ∀ a b, Keep (HInv V n) (process a b) fun _ => True) : Keep (HInv V n) (forRuns nodes process) fun _ => True := by
  unfold forRuns
  refine Keep.loopM (fun _ => True) trivial ?_
  rintro ⟨count, prev, index⟩ _
  dsimp only
  split
  · exact Keep.pure trivial
  · next b e =>
    have h1 := lt_getD hn e
    have h2 := hn b (List.mem_of_getElem? e)
    refine Keep.bind (keep_pointOf (h1 _)) fun _ _ => Keep.bind (keep_pointOf h2) fun _ _ => ?_
    repeat' (first | exact hp _ _ | keep_step | intro _ _)
theorem keep_correctCollinearRepeats {nodes : List Nat} {a b : Nat} (hn : ∀ i ∈ nodes, i < n) :
    Keep (HInv V n) (correctCollinearRepeats nodes a b) fun _ => True := by
  unfold correctCollinearRepeats
  refine Keep.forList fun i hi => ?_
  have hi' := lt_slice hn _ _ i hi
  have hm : i ∈ nodes := List.mem_of_mem_take (List.mem_of_mem_drop hi)
  obtain ⟨k, hk⟩ := List.mem_iff_getElem?.1 hm
  have h1 := lt_getD hn hk
  refine Keep.bind (keep_getNode hi') fun _ _ => Keep.ite (fun _ => Keep.pure trivial) fun _ => ?_
  refine Keep.loopM (fun _ => True) trivial fun x _ => Keep.ite (fun _ => ?_) fun _ => Keep.pure trivial
  refine Keep.bind (keep_getNode hi') fun _ _ => Keep.ite (fun _ => Keep.pure trivial) fun _ => ?_
  refine Keep.bind (keep_getNode (h1 _)) fun _ _ => Keep.ite (fun _ => Keep.pure trivial) fun _ => ?_
  refine Keep.bind (keep_processCollinearEdges hi' (h1 _)) fun _ _ => ?_
  keep
theorem keep_allNodes : Keep (HInv V n) (gets St.allNodes) fun l => ∀ i ∈ l, i < n := Keep.gets fun _ hs => hs.all
theorem keep_correctCollinearEdges : Keep (HInv V n) correctCollinearEdges fun _ => True := by
  unfold correctCollinearEdges
  refine Keep.bind keep_allNodes fun nodes hn => Keep.ite (fun _ => Keep.pure trivial) fun _ => ?_
  exact keep_forRuns hn fun _ _ => keep_correctCollinearRepeats hn
macro_rules | `(tactic| keep1) => `(tactic| with_reducible exact keep_correctCollinearEdges)
theorem keep_findContaining {r : Nat} : ∀ {l : List Nat}, Keep (HInv V n) (findContaining r l) fun _ => True
  | [] => Keep.pure trivial
  | q :: l => by
    have ih := @keep_findContaining r l
    rw [findContaining]
    repeat' (first | exact ih | keep_step)
macro_rules | `(tactic| keep1) => `(tactic| with_reducible exact keep_findContaining)
theorem keep_correctTreeLoop : ∀ {r l : List Nat}, Keep (HInv V n) (correctTreeLoop l r) fun _ => True
  | [], _ => by rw [correctTreeLoop]; exact Keep.pure trivial
  | q :: r, l => by
    have ih := fun {l : List Nat} => @keep_correctTreeLoop r l
    rw [correctTreeLoop]
    repeat' (first | exact ih | keep_step | intro _ _)
theorem keep_correctTree : Keep (HInv V n) correctTree fun _ => True := by
  unfold correctTree
  exact Keep.bind keep_reversedSortedRings fun _ _ => keep_correctTreeLoop
macro_rules | `(tactic| keep1) => `(tactic| with_reducible exact keep_correctTree)

/-! ## Chained rings -/

theorem keep_samePoint {i j : Nat} (hi : i < n) (hj : j < n) : Keep (HInv V n) (samePoint i j) fun _ => True := by
  unfold samePoint; keep
macro_rules | `(tactic| keep1) => `(tactic| with_reducible apply keep_samePoint <;> keepside)

def PairsOk (n : Nat) (l : List (Nat × Nat)) : Prop := ∀ p ∈ l, p.1 < n ∧ p.2 < n
def MapOk (n : Nat) (cm : ConnectionMap) : Prop := ∀ r, PairsOk n (cm r)
def ItemsOk (n : Nat) (l : List LoopItem) : Prop := ∀ p ∈ l, p.2.1 < n ∧ p.2.2 < n

theorem PairsOk.nil : PairsOk n [] := by intro p hp; cases hp
theorem PairsOk.cons {a b : Nat} {l : List (Nat × Nat)} (ha : a < n) (hb : b < n) (h : PairsOk n l) : PairsOk n ((a, b) :: l) := by
  intro p hp
  rcases List.mem_cons.1 hp with rfl | hp
  · exact ⟨ha, hb⟩
  · exact h p hp
theorem PairsOk.append {k l : List (Nat × Nat)} (h1 : PairsOk n k) (h2 : PairsOk n l) : PairsOk n (k ++ l) := by
  intro p hp
  rcases List.mem_append.1 hp with hp | hp
  · exact h1 p hp
  · exact h2 p hp
theorem PairsOk.snoc {a b : Nat} {l : List (Nat × Nat)} (ha : a < n) (hb : b < n) (h : PairsOk n l) : PairsOk n (l ++ [(a, b)]) :=
  h.append (PairsOk.nil.cons ha hb)
theorem PairsOk.uncons {a b : Nat} {l : List (Nat × Nat)} (h : PairsOk n ((a, b) :: l)) : a < n ∧ b < n ∧ PairsOk n l :=
  ⟨(h (a, b) (by simp)).1, (h (a, b) (by simp)).2, fun p hp => h p (by simp [hp])⟩
theorem ItemsOk.nil : ItemsOk n [] := by intro p hp; cases hp
theorem ItemsOk.cons {r a b : Nat} {l : List LoopItem} (ha : a < n) (hb : b < n) (h : ItemsOk n l) : ItemsOk n ((r, a, b) :: l) := by
  intro p hp
  rcases List.mem_cons.1 hp with rfl | hp
  · exact ⟨ha, hb⟩
  · exact h p hp
theorem ItemsOk.append {k l : List LoopItem} (h1 : ItemsOk n k) (h2 : ItemsOk n l) : ItemsOk n (k ++ l) := by
  intro p hp
  rcases List.mem_append.1 hp with hp | hp
  · exact h1 p hp
  · exact h2 p hp
theorem ItemsOk.uncons {r a b : Nat} {l : List LoopItem} (h : ItemsOk n ((r, a, b) :: l)) : a < n ∧ b < n ∧ ItemsOk n l :=
  ⟨(h (r, a, b) (by simp)).1, (h (r, a, b) (by simp)).2, fun p hp => h p (by simp [hp])⟩
theorem MapOk.upd {cm : ConnectionMap} (h : MapOk n cm) {r : Nat} {l : List (Nat × Nat)} (hl : PairsOk n l) : MapOk n (upd cm r l) := by
  intro q
  by_cases e : q = r
  · subst e; rw [upd_same]; exact hl
  · rw [upd_ne _ _ e]; exact h q

theorem keep_directConnection {p : Option Nat} {o s a b : Nat} (ha : a < n) (hb : b < n) :
    ∀ {l k : List (Nat × Nat)}, PairsOk n l → PairsOk n k → Keep (HInv V n) (directConnection p o s a b l k)
      fun r => match r with | .inl q => q.1 < n ∧ q.2 < n | .inr l => PairsOk n l
  | [], k, _, hk => Keep.pure hk
  | (x, y) :: l, k, hl, hk => by
    obtain ⟨hx, hy, hl'⟩ := hl.uncons
    have ih := fun {k : List (Nat × Nat)} => @keep_directConnection p o s a b ha hb l k hl'
    rw [directConnection]
    refine Keep.bind (keep_getNode hx) fun _ _ => Keep.bind (keep_getNode hy) fun _ _ => ?_
    dsimp only
    split
    · refine Keep.bind (P := fun _ => True) (by keep) fun _ _ => Keep.ite (fun _ => ih hk) fun _ => ?_
      refine Keep.bind (P := fun _ => True) (by keep) fun _ _ => ?_
      refine Keep.bind (keep_samePoint hb hy) fun _ _ => Keep.bind (keep_samePoint ha hy) fun _ _ => ?_
      exact Keep.ite (fun _ => Keep.pure ⟨hx, hy⟩) fun _ => ih (hk.snoc hx hy)
    · exact ih hk

theorem keep_chainRing {p : Option Nat} {a : Nat} (ha : a < n) : Keep (HInv V n) (chainRing p a) fun _ => True := by
  unfold chainRing; keep
macro_rules | `(tactic| keep1) => `(tactic| with_reducible apply keep_chainRing <;> keepside)

def LoopOk (n : Nat) (r : Bool × ConnectionMap × List LoopItem × List Nat) : Prop := MapOk n r.2.1 ∧ ItemsOk n r.2.2.1

theorem keep_chain {f : Nat} {p : Option Nat} {o s a b : Nat} (hb : b < n) 
    (ih : ∀ {cm : ConnectionMap} {il : List LoopItem} {p : Option Nat} {o s : Nat} {vi : List Nat} {a b : Nat}, a < n → b < n →
      MapOk n cm → ItemsOk n il → Keep (HInv V n) (findIntersectLoop f cm il p o s vi a b) (LoopOk n)) (ha : a < n) :
    ∀ {l : List (Nat × Nat)} {cm : ConnectionMap} {il : List LoopItem} {vi : List Nat}, PairsOk n l → MapOk n cm → ItemsOk n il →
      Keep (HInv V n) (findIntersectLoop.chain f p o s a b l cm il vi) (LoopOk n)
  | [], cm, il, vi, _, hc, hi => by rw [findIntersectLoop.chain, chainFrom]; exact Keep.pure ⟨hc, hi⟩
  | (x, y) :: l, cm, il, vi, hl, hc, hi => by
    obtain ⟨hx, hy, hl'⟩ := hl.uncons
    have go := fun {cm : ConnectionMap} {il : List LoopItem} {vi : List Nat} => @keep_chain f p o s a b hb ih ha l cm il vi hl'
    rw [findIntersectLoop.chain, chainFrom]
    refine Keep.bind (keep_getNode hy) fun _ _ => ?_
    dsimp only
    split
    · exact go hc hi
    · refine Keep.ite (fun _ => go hc hi) fun _ => Keep.bind (keep_chainRing hy) fun _ _ => ?_
      split
      · exact go hc hi
      · refine Keep.bind (keep_samePoint hb hy) fun _ _ => Keep.ite (fun _ => go hc hi) fun _ => ?_
        refine Keep.bind (ih ha hy hc hi) ?_
        rintro ⟨found, cm', il', vi'⟩ ⟨h1, h2⟩
        exact Keep.ite (fun _ => Keep.pure ⟨h1, h2.cons hx hy⟩) fun _ => go h1 h2

theorem keep_findIntersectLoop : ∀ {f : Nat} {cm : ConnectionMap} {il : List LoopItem} {p : Option Nat} {o s : Nat} {vi : List Nat}
    {a b : Nat}, a < n → b < n → MapOk n cm → ItemsOk n il → Keep (HInv V n) (findIntersectLoop f cm il p o s vi a b) (LoopOk n)
  | 0, _, _, _, _, _, _, _, _, _, _, _, _ => by rw [findIntersectLoop]; exact Keep.raise
  | f + 1, cm, il, p, o, s, vi, a, b, ha, hb, hc, hi => by
    rw [findIntersectLoop]
    refine Keep.bind (keep_directConnection ha hb (hc s) PairsOk.nil) fun r hr => ?_
    split
    · exact Keep.pure ⟨hc, hi.cons hr.1 hr.2⟩
    · exact keep_chain hb keep_findIntersectLoop ha hr (hc.upd hr) hi

theorem keep_directPair {o s a : Nat} (ha : a < n) :
    ∀ {l k : List (Nat × Nat)} {f : Bool}, PairsOk n l → PairsOk n k → Keep (HInv V n) (directPair o s a l k f)
      fun r => (∀ it, r.2.1 = some it → it.2.1 < n ∧ it.2.2 < n) ∧ PairsOk n r.2.2
  | [], k, f, _, hk => Keep.pure ⟨nofun, hk⟩
  | (x, y) :: l, k, f, hl, hk => by
    obtain ⟨hx, hy, hl'⟩ := hl.uncons
    have ih := fun {k : List (Nat × Nat)} {f : Bool} => @keep_directPair o s a ha l k f hl'
    rw [directPair]
    refine Keep.bind (keep_getNode hx) fun _ _ => Keep.bind (keep_getNode hy) fun _ _ => ?_
    refine Keep.ite (fun _ => ih hk) fun _ => Keep.ite (fun _ => ?_) fun _ => ih (hk.snoc hx hy)
    refine Keep.bind (keep_samePoint ha hy) fun _ _ => Keep.ite (fun _ => ih (hk.snoc hx hy)) fun _ => ?_
    refine Keep.pure ⟨?_, hk.append (hl'.cons hx hy)⟩
    rintro it ⟨⟩
    exact ⟨hx, hy⟩

theorem keep_chainPairs {p : Option Nat} {o s a : Nat} (ha : a < n) :
    ∀ {l : List (Nat × Nat)} {cm : ConnectionMap} {il : List LoopItem} {vi : List Nat}, PairsOk n l → MapOk n cm → ItemsOk n il →
      Keep (HInv V n) (chainPairs p o s a l cm il vi) fun r => MapOk n r.2.1 ∧ ItemsOk n r.2.2
  | [], cm, il, vi, _, hc, hi => Keep.pure ⟨hc, hi⟩
  | (x, y) :: l, cm, il, vi, hl, hc, hi => by
    obtain ⟨hx, hy, hl'⟩ := hl.uncons
    have go := fun {cm : ConnectionMap} {il : List LoopItem} {vi : List Nat} => @keep_chainPairs p o s a ha l cm il vi hl'
    rw [chainPairs]
    refine Keep.bind (keep_getNode hy) fun _ _ => Keep.ite (fun _ => go hc hi) fun _ => ?_
    refine Keep.bind (keep_samePoint ha hy) fun _ _ => Keep.ite (fun _ => go hc hi) fun _ => ?_
    refine Keep.bind (keep_chainRing hy) fun _ _ => ?_
    split
    · exact go hc hi
    · refine Keep.bind (P := fun _ => True) (Keep.gets fun _ _ => trivial) fun _ _ => ?_
      refine Keep.bind (keep_findIntersectLoop ha hy hc hi) ?_
      rintro ⟨found, cm', il', vi'⟩ ⟨h1, h2⟩
      exact Keep.ite (fun _ => Keep.pure ⟨h1, h2.cons hx hy⟩) fun _ => go h1 h2

theorem keep_chooseOrigin {o a b : Nat} (ha : a < n) (hb : b < n) :
    ∀ {l d : List LoopItem}, ItemsOk n l → ItemsOk n d → Keep (HInv V n) (chooseOrigin o a b d l)
      fun r => ItemsOk n r.1 ∧ ∀ q, r.2 = some q → q.2.1 < n ∧ q.2.2 < n
  | [], d, _, hd => by rw [chooseOrigin]; exact Keep.pure ⟨hd, nofun⟩
  | (r, x, y) :: l, d, hl, hd => by
    obtain ⟨hx, hy, hl'⟩ := hl.uncons
    rw [chooseOrigin]
    refine Keep.bind keep_ringIsHole fun _ _ => Keep.ite (fun _ => ?_) fun _ => ?_
    · exact keep_chooseOrigin ha hb hl' (hd.append (ItemsOk.nil.cons hx hy))
    · refine Keep.pure ⟨hd.append (hl'.cons ha hb), ?_⟩
      rintro q ⟨⟩
      exact ⟨hx, hy⟩

theorem keep_switchNext {a b : Nat} (ha : a < n) (hb : b < n) : Keep (HInv V n) (switchNext a b) fun _ => True := by
  unfold switchNext
  refine Keep.bind (keep_getNode ha) fun x hx => Keep.bind (keep_getNode hb) fun y hy => ?_
  have h1 := hx.2.1
  have h2 := hy.2.1
  keep
macro_rules | `(tactic| keep1) => `(tactic| with_reducible apply keep_switchNext <;> keepside)

theorem keep_movedPairs : ∀ {l : List (Nat × Nat)}, PairsOk n l → Keep (HInv V n) (movedPairs l) (ItemsOk n)
  | [], _ => Keep.pure ItemsOk.nil
  | (x, y) :: l, hl => by
    obtain ⟨hx, hy, hl'⟩ := hl.uncons
    have ih := keep_movedPairs hl'
    rw [movedPairs]
    refine Keep.bind (keep_getNode hx) fun _ _ => Keep.bind (keep_getNode hy) fun _ _ => ?_
    dsimp only
    split
    · refine Keep.ite (fun _ => ih) fun _ => Keep.bind (P := fun _ => True) (by keep) fun _ _ => ?_
      refine Keep.bind ih fun t ht => Keep.pure ?_
      split
      · exact ht.cons hx hy
      · exact ht
    · exact ih

theorem keep_originPairs {o : Nat} : ∀ {l : List (Nat × Nat)}, PairsOk n l →
    Keep (HInv V n) (originPairs o l) fun r => PairsOk n r.1 ∧ ItemsOk n r.2
  | [], _ => Keep.pure ⟨PairsOk.nil, ItemsOk.nil⟩
  | (x, y) :: l, hl => by
    obtain ⟨hx, hy, hl'⟩ := hl.uncons
    have ih := @keep_originPairs o l hl'
    rw [originPairs]
    refine Keep.bind (keep_getNode hx) fun _ _ => Keep.bind (keep_getNode hy) fun _ _ => ?_
    dsimp only
    split
    · refine Keep.ite (fun _ => ih) fun _ => Keep.bind (P := fun _ => True) (by keep) fun _ _ => ?_
      refine Keep.bind ih ?_
      rintro ⟨k, m⟩ ⟨h1, h2⟩
      refine Keep.ite (fun _ => Keep.pure ⟨h1, ?_⟩) fun _ => Keep.pure ⟨?_, h2⟩ <;> dsimp only <;> split
      · exact h2.cons hx hy
      · exact h2
      · exact h1.cons hx hy
      · exact h1
    · exact ih

theorem keep_clearLoopPairs : ∀ {l : List LoopItem} {cm : ConnectionMap}, MapOk n cm →
    Keep (HInv V n) (clearLoopPairs l cm) fun r => MapOk n r.1 ∧ ItemsOk n r.2
  | [], cm, hc => Keep.pure ⟨hc, ItemsOk.nil⟩
  | (r, _, _) :: l, cm, hc => by
    rw [clearLoopPairs]
    refine Keep.bind (keep_movedPairs (hc r)) fun m hm => Keep.bind (keep_clearLoopPairs (hc.upd PairsOk.nil)) ?_
    rintro ⟨cm', m'⟩ ⟨h1, h2⟩
    exact Keep.pure ⟨h1, hm.append h2⟩

theorem mapOk_foldl : ∀ {l : List (Nat × Nat × Nat)} {cm : ConnectionMap}, ItemsOk n l → MapOk n cm →
    MapOk n (l.foldl (fun cm it => upd cm it.1 (cm it.1 ++ [(it.2.1, it.2.2)])) cm)
  | [], cm, _, hc => hc
  | (r, x, y) :: l, cm, hl, hc => by
    obtain ⟨hx, hy, hl'⟩ := ItemsOk.uncons hl
    rw [List.foldl_cons]
    exact mapOk_foldl hl' (hc.upd ((hc r).snoc hx hy))

theorem keep_mergeLoop {cm : ConnectionMap} {il : List LoopItem} {o : Nat} {p : Option Nat} {a b : Nat} (hc : MapOk n cm)
    (hi : ItemsOk n il) (ha : a < n) (hb : b < n) : Keep (HInv V n) (mergeLoop cm il o p a b) (MapOk n) := by
  have tail : Keep (HInv V n) (do
      let (cm, moved) ← clearLoopPairs il cm
      let (kept, moved') ← originPairs o (cm o)
      let cm := upd cm o kept
      pure ((moved ++ moved').foldl (fun cm it => upd cm it.1 (cm it.1 ++ [(it.2.1, it.2.2)])) cm)) (MapOk n) := by
    refine Keep.bind (keep_clearLoopPairs hc) ?_
    rintro ⟨cm', m⟩ ⟨h1, h2⟩
    refine Keep.bind (keep_originPairs (h1 o)) ?_
    rintro ⟨k, m'⟩ ⟨h3, h4⟩
    exact Keep.pure (mapOk_foldl (h2.append h4) (h1.upd h3))
  unfold mergeLoop
  refine Keep.bind keep_ringIsHole fun _ _ => Keep.bind (keep_switchNext ha hb) fun _ _ => ?_
  refine Keep.bind (Keep.forList fun it hit => keep_switchNext (hi it hit).1 (hi it hit).2) fun _ _ => ?_
  refine Keep.bind keep_createRing fun _ _ => Keep.bind (keep_modRing fun _ h1 h2 => ⟨h1, h2⟩) fun _ _ => ?_
  refine Keep.bind (keep_nodeStats ha) fun _ _ => Keep.bind (keep_nodeStats hb) fun _ _ => ?_
  have fc : ∀ {q : Option Nat} {r : Nat}, Keep (HInv V n) (forChildren q fun c => do
      if ← ringInsideOf c r then reassignAsChild c (some r)) fun _ => True := keep_forChildren fun c => by keep
  have fl : ∀ {h : Bool}, Keep (HInv V n) (forList il fun it => do
      modRing it.1 fun g => { g with bottomNode := none }
      if h then replaceRing it.1 (some o)
      else replaceRing it.1 (← getRing o).parent) fun _ => True := Keep.forList fun it _ => by keep
  repeat' (first | exact tail | exact fc | exact fl | keep_step | intro _ _)

theorem keep_processSingleIntersection {i j : Nat} {cm : ConnectionMap} (hi : i < n) (hj : j < n) (hc : MapOk n cm) :
    Keep (HInv V n) (processSingleIntersection i j cm) (MapOk n) := by
  unfold processSingleIntersection
  refine Keep.bind (keep_getNode hi) fun _ _ => Keep.bind (keep_getNode hj) fun _ _ => Keep.ite (fun _ => Keep.pure hc) fun _ => ?_
  refine Keep.bind Keep.deref fun _ _ => Keep.bind Keep.deref fun _ _ => ?_
  refine Keep.bind keep_ringIsHole fun _ _ => Keep.bind keep_ringIsHole fun _ _ => Keep.ite (fun _ => Keep.pure hc) fun _ => ?_
  refine Keep.bind (P := fun t : Nat × Option Nat × Nat × Nat × Nat => t.2.2.2.1 < n ∧ t.2.2.2.2 < n) (by keep) ?_
  rintro ⟨o, p, s, o1, o2⟩ ⟨h1, h2⟩
  dsimp only at h1 h2 ⊢
  refine Keep.bind keep_getRing fun _ _ => Keep.ite (fun _ => Keep.pure hc) fun _ => ?_
  refine Keep.bind (keep_directPair h1 (hc s) PairsOk.nil) ?_
  rintro ⟨f, it, k⟩ ⟨h3, h4⟩
  dsimp only at h3 h4 ⊢
  refine Keep.bind (P := fun t : Bool × ConnectionMap × List LoopItem => MapOk n t.2.1 ∧ ItemsOk n t.2.2) ?_ ?_
  · split
    · next it =>
      exact Keep.pure ⟨hc.upd h4, ItemsOk.nil.cons (h3 _ rfl).1 (h3 _ rfl).2⟩
    · refine Keep.bind (keep_chainPairs h2 h4 (hc.upd h4) ItemsOk.nil) ?_
      rintro ⟨f', cm', il⟩ ⟨h5, h6⟩
      exact Keep.pure ⟨h5, h6⟩
  rintro ⟨f', cm', il⟩ ⟨h5, h6⟩
  dsimp only at h5 h6 ⊢
  refine Keep.ite (fun _ => ?_) fun _ => Keep.ite (fun _ => ?_) fun _ => ?_
  · have h7 := h5.upd (r := o) ((h5 o).snoc h1 h2)
    exact Keep.pure (h7.upd ((h7 s).snoc h2 h1))
  · refine Keep.bind (P := fun _ => True) ?_ fun _ _ => Keep.ite (fun _ => Keep.pure h5) fun _ => Keep.pure (h5.upd ((h5 o).snoc h1 h2))
    refine Keep.bind (Keep.mapM' (Q := fun _ => True) fun q hq => ?_) fun _ _ => Keep.pure trivial
    have := (h5 o q hq).2
    keep
  · refine Keep.bind (P := fun t : List LoopItem × Nat × Option Nat × Nat × Nat => ItemsOk n t.1 ∧ t.2.2.2.1 < n ∧ t.2.2.2.2 < n) ?_ ?_
    · refine Keep.bind keep_ringIsHole fun _ _ => Keep.ite (fun _ => ?_) fun _ => Keep.pure ⟨h6, h1, h2⟩
      refine Keep.bind (keep_chooseOrigin h1 h2 h6 ItemsOk.nil) fun r hr => ?_
      split
      · exact Keep.pure ⟨hr.1, (hr.2 _ rfl).1, (hr.2 _ rfl).2⟩
      · exact Keep.pure ⟨hr.1, h1, h2⟩
    rintro ⟨il', o', p', a, b⟩ ⟨h7, h8, h9⟩
    exact keep_mergeLoop h5 h7 h8 h9

theorem keep_correctChainedRepeats {nodes : List Nat} {a b : Nat} {cm : ConnectionMap} (h : ∀ i ∈ nodes, i < n) (hc : MapOk n cm) :
    Keep (HInv V n) (correctChainedRepeats nodes a b cm) (MapOk n) := by
  unfold correctChainedRepeats
  exact keep_forPairs (fun i j a hi hj ha => keep_processSingleIntersection hi hj ha) (lt_slice h _ _) hc

theorem keep_correctChainedRings : Keep (HInv V n) correctChainedRings fun _ => True := by
  unfold correctChainedRings
  refine Keep.bind keep_allNodes fun nodes hn => Keep.ite (fun _ => Keep.pure trivial) fun _ => ?_
  refine Keep.loopM (fun st => MapOk n st.2.2.2) (fun _ => PairsOk.nil) ?_
  rintro ⟨count, prev, index, cm⟩ hc
  dsimp only at hc ⊢
  split
  · exact Keep.pure trivial
  · next b e =>
    have h1 := lt_getD hn e
    have h2 := hn b (List.mem_of_getElem? e)
    refine Keep.bind (keep_pointOf (h1 _)) fun _ _ => Keep.bind (keep_pointOf h2) fun _ _ => ?_
    refine Keep.ite (fun _ => Keep.ite (fun _ => Keep.pure hc) fun _ => ?_) fun _ => Keep.ite (fun _ => Keep.pure hc) fun _ => ?_
    · exact Keep.bind (keep_correctChainedRepeats hn hc) fun _ h => Keep.pure h
    · exact Keep.bind (keep_correctChainedRepeats hn hc) fun _ h => Keep.pure h
macro_rules | `(tactic| keep1) => `(tactic| with_reducible exact keep_correctChainedRings)

theorem keep_sortAllNodes : Keep (HInv V n) sortAllNodes fun _ => True := by
  unfold sortAllNodes
  refine Keep.bind keep_allNodes fun nodes hn => ?_
  refine Keep.bind (Keep.mapM' (Q := fun p : Nat × Point × Nat => p.1 < n) fun k hk => ?_) fun l hl => ?_
  · have := hn k hk
    keep
  · exact Keep.modify fun s hs => ⟨hs.nn, hs.nodes, hs.rings, mem_fst_pySorted hl⟩
macro_rules | `(tactic| keep1) => `(tactic| with_reducible exact keep_sortAllNodes)

theorem keep_correctTopology : Keep (HInv V n) correctTopology fun _ => True := by
  unfold correctTopology
  refine Keep.bind keep_sortAllNodes fun _ _ => Keep.bind keep_correctOrientations fun _ _ => ?_
  refine Keep.bind keep_correctCollinearEdges fun _ _ => Keep.bind keep_correctSelfIntersections fun _ _ => ?_
  refine Keep.bind keep_correctTree fun _ _ => Keep.loopM (fun _ => True) trivial fun _ _ => ?_
  keep

/-! ## The result -/

theorem keep_pointNodeToLinearRing {o : Option Nat} {b : Bool} (ho : VN n o) :
    Keep (HInv V n) (pointNodeToLinearRing o b) fun l => ∀ p ∈ l, V p := by
  unfold pointNodeToLinearRing
  refine Keep.bind Keep.deref fun i hi => ?_
  have hi' := ho i hi
  refine Keep.bind (P := fun l => ∀ i ∈ l, i < n) ?_ fun l hl => Keep.bind (Keep.mapM' fun k hk => keep_pointOf (hl k hk)) fun ps hps => ?_
  · split
    · exact keep_nodesFrom hi'
    · exact keep_nodesBackFrom hi'
  refine Keep.bind (keep_pointOf hi') fun p hp => Keep.pure ?_
  intro q hq
  rcases List.mem_append.1 hq with hq | hq
  · exact hps q hq
  · rw [List.mem_singleton.1 hq]; exact hp
theorem keep_ringToLinearRing {r : Nat} {b : Bool} : Keep (HInv V n) (ringToLinearRing r b) fun l => ∀ p ∈ l, V p := by
  unfold ringToLinearRing
  exact Keep.bind keep_getRing fun g hg => keep_pointNodeToLinearRing hg.1

theorem keep_ringsToPolygons {b : Bool} : ∀ {f : Nat} {l : List (Option Nat)},
    Keep (HInv V n) (ringsToPolygons b f l) fun mp => ∀ poly ∈ mp, ∀ lr ∈ poly, ∀ p ∈ lr, V p
  | 0, _ => Keep.raise
  | f + 1, l => by
    rw [ringsToPolygons]
    refine Keep.bind (Keep.mapM' (Q := fun mp : Multipolygon => ∀ poly ∈ mp, ∀ lr ∈ poly, ∀ p ∈ lr, V p) fun o _ => ?_) fun ps hps => Keep.pure ?_
    · split
      · exact Keep.pure (by simp)
      · refine Keep.bind keep_ringToLinearRing fun e he => Keep.bind keep_getRing fun g _ => ?_
        refine Keep.bind (Keep.mapM' fun c _ => keep_ringToLinearRing) fun hs hhs => ?_
        refine Keep.bind (Keep.mapM' (Q := fun mp : Multipolygon => ∀ poly ∈ mp, ∀ lr ∈ poly, ∀ p ∈ lr, V p) fun c _ => Keep.bind keep_getRing fun _ _ => keep_ringsToPolygons) fun rs hrs => Keep.pure ?_
        intro poly hp
        rcases List.mem_cons.1 hp with rfl | hp
        · intro lr hlr
          rcases List.mem_cons.1 hlr with rfl | hlr
          · exact he
          · exact hhs lr hlr
        · obtain ⟨m, hm, hp⟩ := List.mem_flatten.1 hp
          exact hrs m hm poly hp
    · intro poly hp
      obtain ⟨m, hm, hp⟩ := List.mem_flatten.1 hp
      exact hps m hm poly hp

theorem keep_buildResult {b : Bool} :
    Keep (HInv V n) (buildResult b) fun mp => ∀ poly ∈ mp, ∀ lr ∈ poly, ∀ p ∈ lr, V p := by
  unfold buildResult
  refine Keep.bind (P := fun _ => True) (Keep.gets fun _ _ => trivial) fun _ _ => ?_
  exact Keep.bind (P := fun _ => True) (Keep.gets fun _ _ => trivial) fun _ _ => keep_ringsToPolygons

end

end Wagyu
