import Verif.Proofs.KeepNodes

/-!
# References to nodes stay valid: rings and the forest
-/

namespace Wagyu

section
variable {V : Point → Prop} {n : Nat}

theorem keep_recalculateStats {r : Nat} : Keep (HInv V n) (recalculateStats r) fun _ => True := by
  unfold recalculateStats
  refine Keep.bind keep_getRing fun g hg => ?_
  obtain ⟨h1, h2⟩ := hg
  split
  · keep
  · next i e =>
    have : i < n := h1 i e
    keep
macro_rules | `(tactic| keep1) => `(tactic| with_reducible exact keep_recalculateStats)
theorem keep_ringArea {r : Nat} : Keep (HInv V n) (ringArea r) fun _ => True := by unfold ringArea; keep
macro_rules | `(tactic| keep1) => `(tactic| with_reducible exact keep_ringArea)
theorem keep_ringIsHole {r : Nat} : Keep (HInv V n) (ringIsHole r) fun _ => True := by unfold ringIsHole; keep
macro_rules | `(tactic| keep1) => `(tactic| with_reducible exact keep_ringIsHole)
theorem keep_ringSize {r : Nat} : Keep (HInv V n) (ringSize r) fun _ => True := by unfold ringSize; keep
macro_rules | `(tactic| keep1) => `(tactic| with_reducible exact keep_ringSize)
theorem keep_ringDepth {r : Nat} : Keep (HInv V n) (ringDepth r) fun _ => True := by
  unfold ringDepth
  refine Keep.bind keep_getRing fun g hg => Keep.loopM (fun _ => True) trivial fun x _ => ?_
  keep
macro_rules | `(tactic| keep1) => `(tactic| with_reducible exact keep_ringDepth)
theorem keep_isDescendantOf {r q : Nat} : Keep (HInv V n) (isDescendantOf r q) fun _ => True := by
  unfold isDescendantOf
  refine Keep.bind keep_getRing fun g hg => Keep.loopM (fun _ => True) trivial fun x _ => ?_
  keep
macro_rules | `(tactic| keep1) => `(tactic| with_reducible exact keep_isDescendantOf)
theorem keep_setStats {r : Nat} {st : F64 × Nat × Box} : Keep (HInv V n) (setStats r st) fun _ => True :=
  keep_modRing fun _ h1 h2 => ⟨h1, h2⟩
macro_rules | `(tactic| keep1) => `(tactic| with_reducible exact keep_setStats)
theorem keep_updatePoints {r : Nat} : Keep (HInv V n) (updatePoints r) fun _ => True := by
  unfold updatePoints
  refine Keep.bind keep_getRing fun g hg => Keep.bind Keep.deref fun i hi => ?_
  exact keep_forNodes (hg.1 i hi) fun _ _ => keep_setNodeRing
macro_rules | `(tactic| keep1) => `(tactic| with_reducible exact keep_updatePoints)
theorem keep_isConvex {i : Nat} (hi : i < n) : Keep (HInv V n) (isConvex i) fun _ => True := by unfold isConvex; keep
macro_rules | `(tactic| keep1) => `(tactic| with_reducible apply keep_isConvex <;> keepside)
theorem keep_insideOrOutsideSpecial {i j : Nat} (hi : i < n) (hj : j < n) :
    Keep (HInv V n) (insideOrOutsideSpecial i j) fun _ => True := by
  unfold insideOrOutsideSpecial
  refine Keep.loopM (fun k => k < n) hi fun k hk => ?_
  keep
macro_rules | `(tactic| keep1) => `(tactic| with_reducible apply keep_insideOrOutsideSpecial <;> keepside)
theorem keep_ringInsideOf {r q : Nat} : Keep (HInv V n) (ringInsideOf r q) fun _ => True := by
  unfold ringInsideOf
  refine Keep.bind keep_getRing fun g _ => Keep.bind keep_getRing fun o _ => Keep.ite (fun _ => Keep.pure trivial) fun _ => ?_
  refine Keep.bind keep_ringArea fun _ _ => Keep.bind keep_ringArea fun _ _ => Keep.ite (fun _ => Keep.pure trivial) fun _ => ?_
  refine Keep.bind keep_getRing fun g hg => Keep.bind Keep.deref fun i hi => Keep.bind (keep_nextOf (hg.1 i hi)) fun a ha => ?_
  refine Keep.bind keep_getRing fun g hg => Keep.bind Keep.deref fun i hi => Keep.bind (keep_nextOf (hg.1 i hi)) fun b hb => ?_
  refine Keep.bind (P := fun _ => True) (Keep.loopM (fun k => k < n) ha fun k hk => ?_) fun _ _ => ?_
  · keep
  · keep
macro_rules | `(tactic| keep1) => `(tactic| with_reducible exact keep_ringInsideOf)

theorem keep_fillBottom {r : Nat} : Keep (HInv V n) (do
    let g ← getRing r
    match g.bottomNode with
    | some b => pure b
    | none =>
      let b ← bottomNodeOf (← deref g.node)
      modRing r fun g => { g with bottomNode := some b }
      pure b) fun b => b < n := by
  refine Keep.bind keep_getRing fun g hg => ?_
  obtain ⟨h1, h2⟩ := hg
  split
  · next e => exact Keep.pure (h2 _ e)
  · refine Keep.bind Keep.deref fun i hi => Keep.bind (keep_bottomNodeOf (h1 i hi)) fun b hb => ?_
    exact Keep.bind (keep_modRing fun g h _ => ⟨h, VN.some hb⟩) fun _ _ => Keep.pure hb
theorem keep_getLowermostRing {r q : Nat} : Keep (HInv V n) (getLowermostRing r q) fun _ => True := by
  unfold getLowermostRing
  refine Keep.bind keep_fillBottom fun b hb => Keep.bind keep_fillBottom fun c hc => ?_
  keep
macro_rules | `(tactic| keep1) => `(tactic| with_reducible exact keep_getLowermostRing)

theorem keep_childrenOf {p : Option Nat} : Keep (HInv V n) (childrenOf p) fun _ => True := by
  unfold childrenOf; split <;> keep
macro_rules | `(tactic| keep1) => `(tactic| with_reducible exact keep_childrenOf)
theorem keep_modChildren {p : Option Nat} {f : List (Option Nat) → List (Option Nat)} :
    Keep (HInv V n) (modChildren p f) fun _ => True := by
  unfold modChildren
  split
  · exact Keep.modify fun s hs => ⟨hs.nn, hs.nodes, hs.rings, hs.all⟩
  · keep
macro_rules | `(tactic| keep1) => `(tactic| with_reducible exact keep_modChildren)
theorem keep_createRing : Keep (HInv V n) createRing fun _ => True := by
  constructor
  intro s hs
  refine ⟨⟨hs.nn, hs.nodes, ?_, hs.all⟩, trivial⟩
  intro j
  show VN n (upd s.rings _ _ j).node ∧ VN n (upd s.rings _ _ j).bottomNode
  by_cases e : j = s.nr
  · subst e
    rw [upd_same]
    exact ⟨VN.none, VN.none⟩
  · rw [upd_ne _ _ e]
    exact hs.rings j
macro_rules | `(tactic| keep1) => `(tactic| with_reducible exact keep_createRing)
theorem keep_sameOrientation {r : Nat} {p : Option Nat} : Keep (HInv V n) (sameOrientation r p) fun _ => True := by
  unfold sameOrientation; keep
macro_rules | `(tactic| keep1) => `(tactic| with_reducible exact keep_sameOrientation)
theorem keep_assignAsChild {r : Nat} {p : Option Nat} : Keep (HInv V n) (assignAsChild r p) fun _ => True := by
  unfold assignAsChild; keep
macro_rules | `(tactic| keep1) => `(tactic| with_reducible exact keep_assignAsChild)
theorem keep_assignAsSibling {r p : Nat} : Keep (HInv V n) (assignAsSibling r p) fun _ => True := by
  unfold assignAsSibling; keep
macro_rules | `(tactic| keep1) => `(tactic| with_reducible exact keep_assignAsSibling)
theorem keep_reassignAsChild {r : Nat} {p : Option Nat} : Keep (HInv V n) (reassignAsChild r p) fun _ => True := by
  unfold reassignAsChild; keep
macro_rules | `(tactic| keep1) => `(tactic| with_reducible exact keep_reassignAsChild)
theorem keep_replaceRing {r : Nat} {p : Option Nat} : Keep (HInv V n) (replaceRing r p) fun _ => True := by
  unfold replaceRing
  refine Keep.ite (fun _ => Keep.raise) fun _ => Keep.bind keep_getRing fun g _ => ?_
  refine Keep.bind (P := fun _ => True) (Keep.forElse (fun _ => True) trivial (fun x _ => ?_) fun _ _ => Keep.pure trivial) fun _ _ => ?_
  · keep
  · refine Keep.bind keep_getRing fun g _ => Keep.bind keep_modChildren fun _ _ => ?_
    exact keep_modRing fun g _ h => ⟨VN.none, h⟩
macro_rules | `(tactic| keep1) => `(tactic| with_reducible exact keep_replaceRing)
theorem keep_removeRing : ∀ {f r : Nat} {c p : Bool}, Keep (HInv V n) (removeRing f r c p) fun _ => True
  | 0, _, _, _ => Keep.raise
  | f + 1, r, c, p => by
    have ih := fun {r : Nat} {c p : Bool} => @keep_removeRing f r c p
    rw [removeRing]
    refine Keep.bind keep_getRing fun g _ => ?_
    refine Keep.bind (P := fun _ => True) (Keep.forElse (fun _ => True) trivial (fun x _ => ?_) fun _ _ => Keep.pure trivial) fun _ _ => ?_
    · refine Keep.bind keep_getRing fun g _ => ?_
      split
      · keep
      · refine Keep.ite (fun _ => Keep.bind ih fun _ _ => ?_) fun _ => ?_ <;> keep
    · have : Keep (HInv V n) (modRing r fun g => { g with node := none }.resetStats) fun _ => True :=
        keep_modRing fun g _ h => ⟨VN.none, h⟩
      refine Keep.ite (fun _ => Keep.bind keep_getRing fun _ _ => Keep.bind keep_modChildren fun _ _ => this) fun _ => this
theorem keep_detachNodes {r : Nat} : Keep (HInv V n) (detachNodes r) fun _ => True := by
  unfold detachNodes
  refine Keep.bind keep_getRing fun g hg => ?_
  obtain ⟨h1, _⟩ := hg
  split
  · keep
  · next i e =>
    have hi := h1 i e
    refine Keep.bind (keep_prevOf hi) fun p hp => Keep.bind (keep_setNext VN.none) fun _ _ => ?_
    refine Keep.loopM (fun o => VN n o) (VN.some hi) fun o ho => ?_
    split
    · exact Keep.pure trivial
    · next k =>
      refine Keep.bind (keep_getNode ho.lt) fun nd hnd => ?_
      refine Keep.bind (keep_modNode fun _ => ⟨rfl, rfl, fun _ _ => ⟨VN.none, VN.none⟩⟩) fun _ _ => ?_
      exact Keep.pure hnd.2.1
theorem keep_removeRingAndPoints : ∀ {f r : Nat} {c p : Bool}, Keep (HInv V n) (removeRingAndPoints f r c p) fun _ => True
  | 0, _, _, _ => Keep.raise
  | f + 1, r, c, p => by
    have ih := fun {r : Nat} {c p : Bool} => @keep_removeRingAndPoints f r c p
    rw [removeRingAndPoints]
    refine Keep.bind keep_getRing fun g _ => ?_
    refine Keep.bind (P := fun _ => True) (Keep.forElse (fun _ => True) trivial (fun x _ => ?_) fun _ _ => Keep.pure trivial) fun _ _ => ?_
    · refine Keep.bind keep_getRing fun g _ => ?_
      split
      · keep
      · refine Keep.ite (fun _ => Keep.bind ih fun _ _ => ?_) fun _ => ?_ <;> keep
    · have : Keep (HInv V n) (do
          detachNodes r
          modRing r fun g => { g with node := none }.resetStats) fun _ => True :=
        Keep.bind keep_detachNodes fun _ _ => keep_modRing fun g _ h => ⟨VN.none, h⟩
      refine Keep.ite (fun _ => Keep.bind keep_getRing fun _ _ => Keep.bind keep_modChildren fun _ _ => this) fun _ => this
theorem keep_removeRingKeepChildren {r : Nat} : Keep (HInv V n) (removeRingKeepChildren r) fun _ => True :=
  Keep.bind (P := fun _ => True) (Keep.gets fun _ _ => trivial) fun _ _ => keep_removeRing
theorem keep_removeRingAndPointsKeepChildren {r : Nat} : Keep (HInv V n) (removeRingAndPointsKeepChildren r) fun _ => True :=
  Keep.bind (P := fun _ => True) (Keep.gets fun _ _ => trivial) fun _ _ => keep_removeRingAndPoints
macro_rules | `(tactic| keep1) => `(tactic| with_reducible exact keep_removeRingKeepChildren)
macro_rules | `(tactic| keep1) => `(tactic| with_reducible exact keep_removeRingAndPointsKeepChildren)

end

end Wagyu
