import Verif.Proofs.Switch
import Verif.Proofs.Post

/-!
# Statements of the last stage that leave the point nodes alone
-/

namespace Wagyu

open Spec

/-- The point nodes are the same; a ring may lose its point nodes. -/
structure Calm (s s' : St) : Prop where
  nodes : s'.nodes = s.nodes
  nn : s'.nn = s.nn
  all : s'.allNodes = s.allNodes
  node : ∀ r, (s'.rings r).node = (s.rings r).node ∨ (s'.rings r).node = none

instance : Preo Calm where
  refl _ := ⟨rfl, rfl, rfl, fun _ => .inl rfl⟩
  trans h k := ⟨k.nodes.trans h.nodes, k.nn.trans h.nn, k.all.trans h.all, fun r => by
    rcases k.node r with e | e
    · rw [e]; exact h.node r
    · exact .inr e⟩

theorem calm_modRing {i : Nat} {f : Ring → Ring} (h : ∀ g, (f g).node = g.node ∨ (f g).node = none) : Pres Calm (modRing i f) := by
  refine ⟨fun s => ⟨rfl, rfl, rfl, fun r => ?_⟩⟩
  show (upd s.rings i (f (s.rings i)) r).node = _ ∨ (upd s.rings i (f (s.rings i)) r).node = none
  by_cases e : r = i
  · subst e; rw [Wagyu.upd_same]; exact h _
  · rw [Wagyu.upd_ne _ _ e]; exact .inl rfl

instance cm01 (p : Option Nat) (f : List (Option Nat) → List (Option Nat)) : Pres Calm (modChildren p f) := by
  cases p with
  | none => exact ⟨fun s => ⟨rfl, rfl, rfl, fun _ => .inl rfl⟩⟩
  | some p => exact calm_modRing (f := fun g => { g with children := f g.children }) fun _ => .inl rfl
instance cm02 (r : Nat) (p : Option Nat) : Pres Calm (setRingParent r p) := calm_modRing fun _ => .inl rfl
instance cm03 (i k : Nat) : Pres Calm (modRing i fun g => { g with children := g.children.set k none }) := calm_modRing fun _ => .inl rfl
instance cm04 (i : Nat) (v : Option Nat) : Pres Calm (modRing i fun g => { g with bottomNode := v }) := calm_modRing fun _ => .inl rfl
instance cm05 (i : Nat) (v : Bool) : Pres Calm (modRing i fun g => { g with corrected := v }) := calm_modRing fun _ => .inl rfl
instance cm06 (i : Nat) (v : F64 × Nat × Box) : Pres Calm (setStats i v) := calm_modRing fun _ => .inl rfl
instance cm07 : Pres Calm createRing := by
  refine ⟨fun s => ⟨rfl, rfl, rfl, fun r => ?_⟩⟩
  show (upd s.rings s.nr _ r).node = _ ∨ (upd s.rings s.nr _ r).node = none
  by_cases e : r = s.nr
  · subst e; rw [Wagyu.upd_same]; exact .inr rfl
  · rw [Wagyu.upd_ne _ _ e]; exact .inl rfl
instance cm08 (r : Nat) : Pres Calm (recalculateStats r) := by
  unfold recalculateStats; pres
  all_goals exact calm_modRing fun _ => .inl rfl
instance cm10 (r : Nat) : Pres Calm (ringArea r) := by unfold ringArea; pres
instance cm11 (r : Nat) : Pres Calm (ringIsHole r) := by unfold ringIsHole; pres
instance cm12 (r : Nat) : Pres Calm (ringSize r) := by unfold ringSize; pres
instance cm13 (r : Nat) (p : Option Nat) : Pres Calm (replaceRing r p) := by
  unfold replaceRing; pres
  all_goals first | exact calm_modRing fun _ => .inl rfl | exact calm_modRing fun _ => .inr rfl

instance cm20 (n : Nat) : Pres Calm (isConvex n) := by unfold isConvex; pres
instance cm21 (a b : Nat) : Pres Calm (insideOrOutsideSpecial a b) := by unfold insideOrOutsideSpecial; pres
instance cm22 (a b : Nat) : Pres Calm (ringInsideOf a b) := by unfold ringInsideOf; pres
instance cm23 (r : Nat) (p : Option Nat) : Pres Calm (sameOrientation r p) := by unfold sameOrientation; pres
instance cm24 (r : Nat) : Pres Calm (ringHasArea r) := by unfold ringHasArea; pres
instance cm25 (l : List Nat) : Pres Calm (sortByArea l) := by
  unfold sortByArea
  exact Pres.bind (Pres.mapM' (fun _ => by pres) _) fun _ => by pres
instance cm26 : Pres Calm ringKeys := by
  unfold ringKeys
  exact Pres.bind inferInstance fun _ => Pres.mapM' (fun _ => by pres) _
instance cm27 : Pres Calm sortedRings := by unfold sortedRings; pres
instance cm30 (a b : Nat) : Pres Calm (samePoint a b) := by unfold samePoint; pres
instance cm31 (rp : Option Nat) (a b c d : Nat) (l k : List (Nat × Nat)) : Pres Calm (directConnection rp a b c d l k) := by
  induction l generalizing k with
  | nil => rw [directConnection]; pres
  | cons p l ih => obtain ⟨x, y⟩ := p; rw [directConnection]; pres
instance cm32 (rp : Option Nat) (a : Nat) : Pres Calm (chainRing rp a) := by unfold chainRing; pres
theorem cm33c (fuel : Nat) (rp : Option Nat) (a b : Nat) (d e : Nat)
    (ih : ∀ (cm : ConnectionMap) (il : List LoopItem) (rp : Option Nat) (a b : Nat) (v : List Nat) (c d : Nat),
    Pres Calm (findIntersectLoop fuel cm il rp a b v c d)) (l : List (Nat × Nat)) : ∀ (cm : ConnectionMap) (il : List LoopItem) (v : List Nat),
    Pres Calm (findIntersectLoop.chain fuel rp a b d e l cm il v) := by
  induction l with
  | nil => intro cm il v; rw [findIntersectLoop.chain, chainFrom]; pres
  | cons p l ihl => obtain ⟨x, y⟩ := p; intro cm il v; rw [findIntersectLoop.chain, chainFrom]; pres
instance cm33 (n : Nat) (cm : ConnectionMap) (il : List LoopItem) (rp : Option Nat) (a b : Nat) (v : List Nat) (c d : Nat) :
    Pres Calm (findIntersectLoop n cm il rp a b v c d) := by
  induction n generalizing cm il rp a b v c d with
  | zero => rw [findIntersectLoop]; pres
  | succ n ih =>
    rw [findIntersectLoop]
    refine Pres.bind inferInstance fun r => ?_
    split
    · pres
    · exact cm33c n _ _ _ _ _ ih _ _ _ _
instance cm34 (a b c : Nat) (l k : List (Nat × Nat)) (f : Bool) : Pres Calm (directPair a b c l k f) := by
  induction l generalizing k f with
  | nil => rw [directPair]; pres
  | cons p l ih => obtain ⟨x, y⟩ := p; rw [directPair]; pres
instance cm35 (rp : Option Nat) (a b c : Nat) (l : List (Nat × Nat)) (cm : ConnectionMap) (il : List LoopItem) (v : List Nat) :
    Pres Calm (chainPairs rp a b c l cm il v) := by
  induction l generalizing cm il v with
  | nil => rw [chainPairs]; pres
  | cons p l ih => obtain ⟨x, y⟩ := p; rw [chainPairs]; pres
instance cm36 (a b c : Nat) (d l : List LoopItem) : Pres Calm (chooseOrigin a b c d l) := by
  induction l generalizing d with
  | nil => rw [chooseOrigin]; pres
  | cons p l ih => obtain ⟨x, y, z⟩ := p; rw [chooseOrigin]; pres
instance cm37 (l : List (Nat × Nat)) : Pres Calm (movedPairs l) := by
  induction l with
  | nil => rw [movedPairs]; pres
  | cons p l ih => obtain ⟨x, y⟩ := p; rw [movedPairs]; pres
instance cm38 (r : Nat) (l : List (Nat × Nat)) : Pres Calm (originPairs r l) := by
  induction l with
  | nil => rw [originPairs]; pres
  | cons p l ih => obtain ⟨x, y⟩ := p; rw [originPairs]; pres
instance cm39 (l : List LoopItem) (cm : ConnectionMap) : Pres Calm (clearLoopPairs l cm) := by
  induction l generalizing cm with
  | nil => rw [clearLoopPairs]; pres
  | cons p l ih => obtain ⟨x, y, z⟩ := p; rw [clearLoopPairs]; pres
instance cm40 (r : Nat) (p : Option Nat) : Pres Calm (assignAsChild r p) := by unfold assignAsChild; pres
instance cm41 (r p : Nat) : Pres Calm (assignAsSibling r p) := by unfold assignAsSibling; pres
instance cm42 (r : Nat) (p : Option Nat) : Pres Calm (reassignAsChild r p) := by unfold reassignAsChild; pres
instance cm42c (p : Option Nat) : Pres Calm (childrenOf p) := by unfold childrenOf; pres
theorem calm_forChildren (p : Option Nat) {body : Nat → M Unit} (h : ∀ c, Pres Calm (body c)) : Pres Calm (forChildren p body) := by
  unfold Wagyu.forChildren; pres
instance cm43 (r : Nat) (p : Option Nat) (l : List Nat) : Pres Calm (reassignChildrenIfNecessary r p l) :=
  calm_forChildren _ fun _ => by pres
instance cm44 (n r p : Nat) : Pres Calm (findParentInTree n r p) := by
  induction n generalizing r p with
  | zero => exact Pres.raise _
  | succ n ih =>
    rw [findParentInTree]
    refine Pres.bind inferInstance fun _ => Pres.bind (Pres.anyChild (fun _ => Pres.bind inferInstance fun _ =>
      Pres.anyChild (fun _ => ih _ _) _) _) fun _ => by pres
instance cm45 (n r : Nat) (l : List (Option Nat)) : Pres Calm (anyChild (fun c => findParentInTree n r c) l) :=
  Pres.anyChild (fun _ => inferInstance) _
instance cm46 (a b : Nat) (c : Bool) (l k : List Nat) : Pres Calm (findAmongPrevious a b c l k) := by
  induction k with
  | nil => rw [findAmongPrevious]; pres
  | cons x k ih => rw [findAmongPrevious]; pres
instance cm47 (a : Nat) (c : Bool) (l k m : List Nat) : Pres Calm (assignNewRingParentsLoop a c l k m) := by
  induction m generalizing k with
  | nil => rw [assignNewRingParentsLoop]; pres
  | cons x m ih => rw [assignNewRingParentsLoop]; pres
instance cm48 (a : Nat) (l : List Nat) : Pres Calm (assignNewRingParents a l) := by
  unfold assignNewRingParents
  have := Pres.filterM' (R := Calm) (p := ringHasArea) (fun _ => inferInstance) l
  pres

end Wagyu
