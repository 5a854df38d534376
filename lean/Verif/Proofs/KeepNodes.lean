import Verif.Proofs.Keep

/-!
# References to nodes stay valid: point_node.py and ring.py
-/

namespace Wagyu

section
variable {V : Point → Prop} {n : Nat}

theorem keep_forNodes {start : Nat} {body : Nat → M Unit} (h : start < n)
    (hb : ∀ i, i < n → Keep (HInv V n) (body i) fun _ => True) : Keep (HInv V n) (forNodes start body) fun _ => True := by
  unfold forNodes
  refine Keep.loopM (fun i => i < n) h fun i hi => ?_
  refine Keep.bind (hb i hi) fun _ _ => ?_
  keep

theorem keep_nodesFrom {start : Nat} (h : start < n) : Keep (HInv V n) (nodesFrom start) fun l => ∀ i ∈ l, i < n := by
  unfold nodesFrom
  refine Keep.loopM (fun st => st.1 < n ∧ ∀ i ∈ st.2, i < n) ⟨h, by simp⟩ fun st hst => ?_
  obtain ⟨h1, h2⟩ := hst
  have h3 : ∀ i ∈ st.1 :: st.2, i < n := by simpa using ⟨h1, h2⟩
  keep
theorem keep_nodesBackFrom {start : Nat} (h : start < n) : Keep (HInv V n) (nodesBackFrom start) fun l => ∀ i ∈ l, i < n := by
  unfold nodesBackFrom
  refine Keep.loopM (fun st => st.1 < n ∧ ∀ i ∈ st.2, i < n) ⟨h, by simp⟩ fun st hst => ?_
  obtain ⟨h1, h2⟩ := hst
  have h3 : ∀ i ∈ st.1 :: st.2, i < n := by simpa using ⟨h1, h2⟩
  keep
macro_rules | `(tactic| keep1) => `(tactic| with_reducible apply keep_nodesFrom <;> keepside)
macro_rules | `(tactic| keep1) => `(tactic| with_reducible apply keep_nodesBackFrom <;> keepside)

theorem keep_nodeStats {start : Nat} (h : start < n) : Keep (HInv V n) (nodeStats start) fun _ => True := by
  unfold nodeStats
  refine Keep.bind (keep_pointOf h) fun p _ => ?_
  refine Keep.bind (Keep.loopM (Q := fun _ => True) (fun c => c.1 < n) h fun c hc => ?_) fun _ _ => ?_ <;> keep
macro_rules | `(tactic| keep1) => `(tactic| with_reducible apply keep_nodeStats <;> keepside)

theorem keep_getPointsSlope {i j : Nat} (hi : i < n) (hj : j < n) : Keep (HInv V n) (getPointsSlope i j) fun _ => True := by
  unfold getPointsSlope; keep
macro_rules | `(tactic| keep1) => `(tactic| with_reducible apply keep_getPointsSlope <;> keepside)

theorem keep_skipSame {step : Nat → M Nat} {i : Nat} (hi : i < n)
    (hs : ∀ i, i < n → Keep (HInv V n) (step i) fun j => j < n) : Keep (HInv V n) (skipSame step i) fun j => j < n := by
  unfold skipSame
  refine Keep.bind (hs i hi) fun a ha => Keep.loopM (fun j => j < n) ha fun j hj => ?_
  refine Keep.bind (keep_pointOf hj) fun _ _ => Keep.bind (keep_pointOf hi) fun _ _ => Keep.ite (fun _ => ?_) (fun _ => ?_)
  · exact Keep.bind (hs j hj) fun _ h => Keep.pure h
  · keep
macro_rules | `(tactic| keep1) => `(tactic| (with_reducible refine keep_skipSame ?_ fun i hi => ?_; first | exact keep_nextOf ‹_› | exact keep_prevOf ‹_› | keepside))

theorem keep_skipNext {i : Nat} (hi : i < n) : Keep (HInv V n) (skipSame nextOf i) fun j => j < n :=
  keep_skipSame hi fun _ h => keep_nextOf h
theorem keep_skipPrev {i : Nat} (hi : i < n) : Keep (HInv V n) (skipSame prevOf i) fun j => j < n :=
  keep_skipSame hi fun _ h => keep_prevOf h
macro_rules | `(tactic| keep1) => `(tactic| with_reducible apply keep_skipNext <;> keepside)
macro_rules | `(tactic| keep1) => `(tactic| with_reducible apply keep_skipPrev <;> keepside)

theorem keep_isBottomTo {i j : Nat} (hi : i < n) (hj : j < n) : Keep (HInv V n) (isBottomTo i j) fun _ => True := by
  unfold isBottomTo; keep
macro_rules | `(tactic| keep1) => `(tactic| with_reducible apply keep_isBottomTo <;> keepside)

theorem keep_bottomNodeOf {i : Nat} (hi : i < n) : Keep (HInv V n) (bottomNodeOf i) fun j => j < n := by
  unfold bottomNodeOf
  refine Keep.bind (keep_nextOf hi) fun c hc => ?_
  refine Keep.bind (P := fun st : Nat × Nat × Option Nat => st.1 < n ∧ st.2.1 < n ∧ VN n st.2.2) (Keep.loopM (fun st => st.1 < n ∧ st.2.1 < n ∧ VN n st.2.2) ⟨hi, hc, VN.none⟩ ?_) ?_
  · rintro ⟨node, cursor, dups⟩ ⟨h1, h2, h3⟩
    dsimp only at h1 h2 h3 ⊢
    refine Keep.ite (fun _ => Keep.pure ⟨h1, h2, h3⟩) fun _ => ?_
    refine Keep.bind (keep_getNode h2) fun c' _ => Keep.bind (keep_getNode h1) fun _ _ => ?_
    refine Keep.bind (keep_nextOf h2) fun d hd => Keep.pure ?_
    have := VN.some h2
    have := @VN.none n
    dsimp only
    split_ifs <;> exact ⟨by assumption, hd, by assumption⟩
  · rintro ⟨node, cursor, dups⟩ ⟨h1, h2, h3⟩
    dsimp only at h1 h2 h3 ⊢
    split
    · exact Keep.pure h1
    · next d =>
      refine Keep.loopM (fun st => st.1 < n ∧ st.2 < n) ⟨h1, h3.lt⟩ ?_
      rintro ⟨a, b⟩ ⟨ha, hb⟩
      dsimp only at ha hb ⊢
      refine Keep.ite (fun _ => Keep.pure ha) fun _ => ?_
      refine Keep.bind (P := fun k => k < n) (by keep) fun a' ha' => ?_
      refine Keep.bind (keep_nextOf hb) fun c hc => ?_
      refine Keep.bind (P := fun k => k < n) (Keep.loopM (fun k => k < n) hc fun k hk => ?_) fun k hk => Keep.pure ⟨ha', hk⟩
      keep
macro_rules | `(tactic| keep1) => `(tactic| with_reducible apply keep_bottomNodeOf <;> keepside)

theorem keep_reverseNodes {i : Nat} (hi : i < n) : Keep (HInv V n) (reverseNodes i) fun _ => True :=
  keep_forNodes hi fun _ _ => keep_modNode fun _ => ⟨rfl, rfl, fun h1 h2 => ⟨h2, h1⟩⟩
macro_rules | `(tactic| keep1) => `(tactic| with_reducible apply keep_reverseNodes <;> keepside)

theorem keep_placeBefore {i j : Nat} (hi : i < n) (hj : j < n) : Keep (HInv V n) (placeBefore i j) fun _ => True := by
  unfold placeBefore
  refine Keep.bind (keep_getNode hj) fun o ho => ?_
  refine Keep.bind (keep_modNode fun _ => ⟨rfl, rfl, fun _ _ => ⟨VN.some hj, ho.2.2⟩⟩) fun _ _ => ?_
  keep
macro_rules | `(tactic| keep1) => `(tactic| with_reducible apply keep_placeBefore <;> keepside)

theorem keep_pip {px py : F64} {det : Point → Point → F64} {i : Nat} (hi : i < n) :
    Keep (HInv V n) (pointInPolygonWith px py det i) fun _ => True := by
  unfold pointInPolygonWith
  refine Keep.loopM (fun c => c.1 < n) hi fun c hc => ?_
  keep
theorem keep_pointInPolygon {p : Point} {i : Nat} (hi : i < n) : Keep (HInv V n) (pointInPolygon p i) fun _ => True := keep_pip hi
theorem keep_fpointInPolygon {p : FPoint} {i : Nat} (hi : i < n) : Keep (HInv V n) (fpointInPolygon p i) fun _ => True := keep_pip hi
macro_rules | `(tactic| keep1) => `(tactic| with_reducible apply keep_pointInPolygon <;> keepside)
macro_rules | `(tactic| keep1) => `(tactic| with_reducible apply keep_fpointInPolygon <;> keepside)

theorem keep_pointsCentroid {i : Nat} (hi : i < n) : Keep (HInv V n) (pointsCentroid i) fun _ => True := by
  unfold pointsCentroid; keep
macro_rules | `(tactic| keep1) => `(tactic| with_reducible apply keep_pointsCentroid <;> keepside)

theorem keep_hasCollinearEdge {i j : Nat} (hi : i < n) (hj : j < n) : Keep (HInv V n) (hasCollinearEdge i j) fun _ => True := by
  unfold hasCollinearEdge
  refine Keep.bind (keep_getNode hi) fun a ha => Keep.bind (keep_getNode hj) fun b hb => ?_
  refine Keep.bind (keep_nodesEq ha.2.1 hb.2.2) fun _ _ => Keep.ite (fun _ => Keep.pure trivial) fun _ => ?_
  exact keep_nodesEq hb.2.1 ha.2.2
macro_rules | `(tactic| keep1) => `(tactic| with_reducible apply keep_hasCollinearEdge <;> keepside)

theorem keep_collinearSearch {a b : Nat} (ha : a < n) (hb : b < n) :
    Keep (HInv V n) (collinearSearch a b) fun r => r.1 < n ∧ r.2 < n := by
  unfold collinearSearch
  refine Keep.loopM (fun st => st.1 < n ∧ st.2.1 < n) ⟨ha, hb⟩ ?_
  rintro ⟨back, forward, first⟩ ⟨h1, h2⟩
  dsimp only at h1 h2 ⊢
  refine Keep.bind (P := fun k => k < n) (Keep.loopM (fun k => k < n) h1 fun k hk => ?_) fun k hk => ?_
  · refine Keep.bind (keep_getNode hk) fun p hp => Keep.bind (keep_nodesEq hp.2.2 (VN.some hk)) fun _ _ => Keep.ite (fun _ => ?_) fun _ => Keep.pure hk
    refine Keep.bind Keep.deref fun q hq => ?_
    have := hp.2.2 q hq
    keep
  refine Keep.ite (fun _ => ?_) fun _ => ?_
  · refine Keep.bind (keep_prevOf hk) fun _ h => Keep.bind (keep_nextOf h2) fun _ h' => Keep.pure ⟨h, h'⟩
  refine Keep.bind (P := fun k => k < n) (Keep.loopM (fun k => k < n) h2 fun k hk => ?_) fun l hl => ?_
  · refine Keep.bind (keep_getNode hk) fun p hp => Keep.bind (keep_nodesEq hp.2.1 (VN.some hk)) fun _ _ => Keep.ite (fun _ => ?_) fun _ => Keep.pure hk
    refine Keep.bind Keep.deref fun q hq => ?_
    have := hp.2.1 q hq
    keep
  refine Keep.ite (fun _ => Keep.pure ⟨hk, hl⟩) fun _ => Keep.ite (fun _ => ?_) fun _ => ?_
  · refine Keep.bind (keep_prevOf hk) fun _ h => Keep.bind (keep_nextOf hl) fun _ h' => Keep.pure ⟨h, h'⟩
  · refine Keep.bind (keep_prevOf hk) fun _ h => Keep.bind (keep_nextOf hl) fun _ h' => ?_
    refine Keep.bind (keep_pointOf h) fun _ _ => Keep.bind (keep_pointOf h') fun _ _ => Keep.ite (fun _ => Keep.pure ⟨h, h'⟩) fun _ => Keep.pure ⟨h, h'⟩

theorem keep_advanceRepeats {same : Bool} {step : Node → Option Nat} {stop i : Nat} (hi : i < n)
    (hs : ∀ nd : Node, VN n nd.next → VN n nd.prev → VN n (step nd)) :
    Keep (HInv V n) (advanceRepeats same step stop i) fun j => j < n := by
  unfold advanceRepeats
  refine Keep.loopM (fun k => k < n) hi fun k hk => ?_
  refine Keep.bind (keep_getNode hk) fun p hp => Keep.bind (keep_nodesEq (VN.some hk) (hs p hp.2.1 hp.2.2)) fun _ _ => Keep.ite (fun _ => ?_) fun _ => Keep.pure hk
  exact Keep.bind Keep.deref fun q hq => Keep.pure (hs p hp.2.1 hp.2.2 q hq)

theorem keep_findStartAndEnd {a b : Nat} (ha : a < n) (hb : b < n) :
    Keep (HInv V n) (findStartAndEndOfCollinearEdges a b) fun r => r.1 < n ∧ r.2.1 < n ∧ r.2.2.1 < n ∧ r.2.2.2 < n := by
  unfold findStartAndEndOfCollinearEdges
  refine Keep.bind (keep_getNode ha) fun _ _ => Keep.bind (keep_getNode hb) fun _ _ => ?_
  refine Keep.bind (keep_collinearSearch ha hb) fun r hr => ?_
  refine Keep.bind (keep_nextOf hr.1) fun x hx => Keep.bind (keep_advanceRepeats hx fun _ h _ => h) fun sa hsa => ?_
  refine Keep.bind (keep_prevOf hr.2) fun y hy => Keep.bind (keep_advanceRepeats hy fun _ _ h => h) fun eb heb => ?_
  refine Keep.bind (keep_collinearSearch hb ha) fun r hr => ?_
  refine Keep.bind (keep_nextOf hr.1) fun x hx => Keep.bind (keep_advanceRepeats hx fun _ h _ => h) fun sb hsb => ?_
  refine Keep.bind (keep_prevOf hr.2) fun y hy => Keep.bind (keep_advanceRepeats hy fun _ _ h => h) fun ea hea => ?_
  exact Keep.pure ⟨hsa, hea, hsb, heb⟩

theorem keep_unlinkNode {i : Nat} (hi : i < n) : Keep (HInv V n) (unlinkNode i) fun _ => True := by
  unfold unlinkNode; keep
macro_rules | `(tactic| keep1) => `(tactic| with_reducible apply keep_unlinkNode <;> keepside)

theorem keep_unlinkUntil {i stop : Nat} (hi : i < n) : Keep (HInv V n) (unlinkUntil i stop) fun _ => True := by
  unfold unlinkUntil
  refine Keep.loopM (fun o => VN n o) (VN.some hi) fun o ho => Keep.ite (fun _ => Keep.pure trivial) fun _ => ?_
  refine Keep.bind Keep.deref fun k hk => ?_
  have hk' := ho k hk
  refine Keep.bind (keep_unlinkNode hk') fun _ _ => Keep.bind (keep_getNode hk') fun nd hnd => Keep.pure hnd.2.1
theorem keep_unlinkDo {i stop : Nat} (hi : i < n) : Keep (HInv V n) (unlinkDo i stop) fun _ => True := by
  unfold unlinkDo
  refine Keep.loopM (fun o => o < n) hi fun o ho => ?_
  refine Keep.bind (keep_unlinkNode ho) fun _ _ => Keep.bind (keep_getNode ho) fun nd hnd => ?_
  obtain ⟨_, h1, _⟩ := hnd
  split
  · exact Keep.pure trivial
  · next i e => exact Keep.ite (fun _ => Keep.pure trivial) fun _ => Keep.pure (h1 _ e)
macro_rules | `(tactic| keep1) => `(tactic| with_reducible apply keep_unlinkUntil <;> keepside)
macro_rules | `(tactic| keep1) => `(tactic| with_reducible apply keep_unlinkDo <;> keepside)

theorem keep_fixCollinearPath {s1 e1 s2 e2 : Nat} (h1 : s1 < n) (h2 : e1 < n) (h3 : s2 < n) (h4 : e2 < n) :
    Keep (HInv V n) (fixCollinearPath s1 e1 s2 e2) fun r => VN n r.1 ∧ VN n r.2 := by
  unfold fixCollinearPath
  refine Keep.ite (fun _ => ?_) fun _ => Keep.ite (fun _ => ?_) fun _ => Keep.ite (fun _ => ?_) fun _ => ?_
  · refine Keep.bind (P := fun _ => True) (Keep.loopM (fun o => VN n o) (VN.some h1) fun o ho => ?_) fun _ _ => Keep.pure ⟨VN.none, VN.none⟩
    split
    · exact Keep.pure trivial
    · next k =>
      refine Keep.bind (keep_unlinkNode ho.lt) fun _ _ => Keep.bind (keep_getNode ho.lt) fun nd hnd => Keep.pure hnd.2.1
  · keep
  · keep
  · refine Keep.bind (keep_getNode h1) fun a ha => Keep.bind (keep_getNode h3) fun b hb => ?_
    refine Keep.bind (keep_unlinkDo h1) fun _ _ => Keep.bind (keep_unlinkDo h3) fun _ _ => ?_
    have a1 := ha.2.2
    have b1 := hb.2.2
    refine Keep.ite (fun _ => Keep.pure ⟨VN.none, VN.none⟩) fun _ => Keep.ite (fun _ => ?_) fun _ => Keep.ite (fun _ => ?_) fun _ => ?_ <;> keep

end

end Wagyu
