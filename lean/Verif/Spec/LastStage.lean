import Verif.Model.Topology

/-!
# The last stage of the topology correction, with a given merge of rings

The programs `processSingleIntersection`, `correctChainedRepeats`, `correctChainedRings` of the model, word for word, with
the merge of the rings along a loop as a parameter: with `mergeLoop` they are the programs of the model
(`processWith_merge`, …).  With `mergeSimple` they stop when a loop of touching rings passes through a ring twice.
-/

namespace Wagyu.Spec

open Wagyu

/-- ring_manager.py:1684-1871 `process_single_intersection`, with `merge` in place of the merge of the rings along
the loop that was found (ring_manager.py:1780-1871). -/
def processWith (merge : ConnectionMap → List LoopItem → Nat → Option Nat → Nat → Nat → M ConnectionMap)
    (opJ opK : Nat) (cm : ConnectionMap) : M ConnectionMap := do
  let ringJ := (← getNode opJ).ring
  let ringK := (← getNode opK).ring
  if ringJ = ringK then pure cm
  else
    let ringJ ← deref ringJ
    let ringK ← deref ringK
    let hj ← ringIsHole ringJ
    let hk ← ringIsHole ringK
    if !hj && !hk then pure cm
    else
      let (ringOrigin, ringParent, ringSearch, o1, o2) ← (do
        if !hj then pure (ringJ, some ringJ, ringK, opJ, opK)
        else if !hk then pure (ringK, some ringK, ringJ, opK, opJ)
        else pure (ringJ, (← getRing ringJ).parent, ringK, opJ, opK)
        : M (Nat × Option Nat × Nat × Nat × Nat))
      if ringParent ≠ (← getRing ringSearch).parent then pure cm
      else
        let (found, item, kept) ← directPair ringOrigin ringSearch o1 (cm ringSearch) [] false
        let cm := upd cm ringSearch kept
        let (found, cm, iList) ← (do
          match item with
          | some it => pure (found, cm, [it])
          | none =>
            let (f, cm, iList) ← chainPairs ringParent ringOrigin ringSearch o2 kept cm [] [ringSearch]
            pure (found || f, cm, iList) : M (Bool × ConnectionMap × List LoopItem))
        if !found then
          let cm := upd cm ringOrigin (cm ringOrigin ++ [(o1, o2)])
          pure (upd cm ringSearch (cm ringSearch ++ [(o2, o1)]))
        else if iList.isEmpty then
          let present ← (do
            let pairs := cm ringOrigin
            let rings ← mapM' (fun (p : Nat × Nat) => do pure (← getNode p.2).ring) pairs
            pure (rings.contains (some ringSearch)) : M Bool)
          if present then pure cm else pure (upd cm ringOrigin (cm ringOrigin ++ [(o1, o2)]))
        else
          let (iList, ringOrigin, ringParent, o1, o2) ← (do
            if ← ringIsHole ringOrigin then
              match ← chooseOrigin ringOrigin o1 o2 [] iList with
              | (iList, some (r, p1, p2)) => pure (iList, r, some r, p1, p2)
              | (iList, none) => pure (iList, ringOrigin, ringParent, o1, o2)
            else pure (iList, ringOrigin, ringParent, o1, o2)
            : M (List LoopItem × Nat × Option Nat × Nat × Nat))
          merge cm iList ringOrigin ringParent o1 o2

/-- ring_manager.py:414-428 `correct_chained_repeats`, with `merge`. -/
def chainedRepeatsWith (merge : ConnectionMap → List LoopItem → Nat → Option Nat → Nat → Nat → M ConnectionMap)
    (nodes : List Nat) (start stop : Nat) (cm : ConnectionMap) : M ConnectionMap :=
  forPairs (fun node next cm => processWith merge node next cm) ((nodes.take stop).drop start) cm

/-- ring_manager.py:430-463 `correct_chained_rings`, with `merge`. -/
def chainedRingsWith (merge : ConnectionMap → List LoopItem → Nat → Option Nat → Nat → Nat → M ConnectionMap) : M Unit := do
  let nodes ← gets St.allNodes
  if nodes.length < 2 then pure ()
  else
    loopM (fun (st : Nat × Nat × Nat × ConnectionMap) => do
      let (count, prev, index, cm) := st
      match nodes[index]? with
      | none => pure (.inr ())
      | some b =>
        let p ← pointOf (nodes.getD prev 0)
        let q ← pointOf b
        if p = q then
          let count := count + 1
          let prev := prev + 1
          let index := index + 1
          if index < nodes.length then pure (.inl (count, prev, index, cm))
          else
            let prev := prev + 1
            let cm ← chainedRepeatsWith merge nodes (prev - (count + 1)) prev cm
            pure (.inl (0, prev, index, cm))
        else
          let prev := prev + 1
          let index := index + 1
          if count = 0 then pure (.inl (0, prev, index, cm))
          else
            let cm ← chainedRepeatsWith merge nodes (prev - (count + 1)) prev cm
            pure (.inl (0, prev, index, cm))) (0, 0, 1, fun _ => [])

/-- ring_manager.py:599-606, the last stage of `correct_topology`, with `merge`. -/
def lastStageWith (merge : ConnectionMap → List LoopItem → Nat → Option Nat → Nat → Nat → M ConnectionMap) : M Unit :=
  loopM (fun (_ : Unit) => do
    chainedRingsWith merge
    if ← correctSelfIntersections true then pure (.inl ()) else pure (.inr ())) ()

/-- The merge of the rings along a loop, provided that the rings of the loop are distinct. -/
def mergeSimple (cm : ConnectionMap) (iList : List LoopItem) (ringOrigin : Nat) (ringParent : Option Nat) (op1 op2 : Nat) : M ConnectionMap :=
  if (ringOrigin :: iList.map Prod.fst).Nodup then mergeLoop cm iList ringOrigin ringParent op1 op2
  else raise (.runtime "a loop of touching rings passes through a ring twice")

theorem processWith_merge : processWith mergeLoop = processSingleIntersection := rfl
theorem chainedRepeatsWith_merge : chainedRepeatsWith mergeLoop = correctChainedRepeats := rfl
theorem chainedRingsWith_merge : chainedRingsWith mergeLoop = correctChainedRings := rfl

end Wagyu.Spec
