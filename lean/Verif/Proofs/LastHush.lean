import Verif.Proofs.Switch
import Verif.Proofs.Post

/-!
# Statements of the last stage that leave the heaps alone

Once the statistics of all rings are known, reading them changes nothing; assigning parents changes the forest only.
-/

namespace Wagyu

open Spec

/-- Only the forest is changed. -/
structure OnlyTree (s s' : St) : Prop where
  nodes : s'.nodes = s.nodes
  nn : s'.nn = s.nn
  nr : s'.nr = s.nr
  all : s'.allNodes = s.allNodes
  rings : ∀ r, Alike (s'.rings r) (s.rings r)

instance : Preo OnlyTree where
  refl _ := ⟨rfl, rfl, rfl, rfl, fun _ => Alike.refl _⟩
  trans h k := ⟨k.nodes.trans h.nodes, k.nn.trans h.nn, k.nr.trans h.nr, k.all.trans h.all, fun r => (k.rings r).trans (h.rings r)⟩

section
variable {s s' : St} {L : Nat → List Nat}

theorem OnlyTree.ti (h : OnlyTree s s') (hs : TI s L) : TI s' L := by
  refine hs.marks h.nodes h.nn h.nr fun k => ?_
  have := h.rings k
  exact ⟨this.node, this.area, this.hole, rfl, this.size, this.box⟩

theorem OnlyTree.known (h : OnlyTree s s') (hs : Known s L) : Known s' L := fun r hr => by
  rw [(h.rings r).area]; exact hs r hr

end

/-- The same, when the statistics are known. -/
def Hush (s s' : St) : Prop := ∀ L, TI s L → Known s L → OnlyTree s s'

instance : Preo Hush where
  refl s _ _ _ := Preo.refl s
  trans h k L h1 h2 := Preo.trans (h L h1 h2) (k L ((h L h1 h2).ti h1) ((h L h1 h2).known h2))

theorem OnlyTree.hush {α : Type} {m : M α} (h : Pres OnlyTree m) : Pres Hush m := ⟨fun s _ _ _ => h.pres s⟩

instance ot01 (p : Option Nat) (f : List (Option Nat) → List (Option Nat)) : Pres OnlyTree (modChildren p f) := by
  cases p with
  | none => exact ⟨fun s => ⟨rfl, rfl, rfl, rfl, fun _ => Alike.refl _⟩⟩
  | some p =>
    refine ⟨fun s => ⟨rfl, rfl, rfl, rfl, fun r => ?_⟩⟩
    show Alike (upd s.rings p { s.rings p with children := f (s.rings p).children } r) _
    by_cases e : r = p
    · subst e; rw [Wagyu.upd_same]; exact ⟨rfl, rfl, rfl, rfl, rfl, rfl⟩
    · rw [Wagyu.upd_ne _ _ e]; exact Alike.refl _
instance ot02 (r : Nat) (p : Option Nat) : Pres OnlyTree (setRingParent r p) := by
  refine ⟨fun s => ⟨rfl, rfl, rfl, rfl, fun k => ?_⟩⟩
  show Alike (upd s.rings r { s.rings r with parent := p } k) _
  by_cases e : k = r
  · subst e; rw [Wagyu.upd_same]; exact ⟨rfl, rfl, rfl, rfl, rfl, rfl⟩
  · rw [Wagyu.upd_ne _ _ e]; exact Alike.refl _
instance ot03 (i k : Nat) : Pres OnlyTree (modRing i fun g => { g with children := g.children.set k none }) :=
  ⟨fun s => (ot01 (some i) fun l => l.set k none).pres s⟩
instance ot04 (i : Nat) (v : Option Nat) : Pres OnlyTree (modRing i fun g => { g with bottomNode := v }) := by
  refine ⟨fun s => ⟨rfl, rfl, rfl, rfl, fun k => ?_⟩⟩
  show Alike (upd s.rings i { s.rings i with bottomNode := v } k) _
  by_cases e : k = i
  · subst e; rw [Wagyu.upd_same]; exact ⟨rfl, rfl, rfl, rfl, rfl, rfl⟩
  · rw [Wagyu.upd_ne _ _ e]; exact Alike.refl _

instance hu01 (p : Option Nat) (f : List (Option Nat) → List (Option Nat)) : Pres Hush (modChildren p f) := OnlyTree.hush inferInstance
instance hu02 (r : Nat) (p : Option Nat) : Pres Hush (setRingParent r p) := OnlyTree.hush inferInstance
instance hu03 (i k : Nat) : Pres Hush (modRing i fun g => { g with children := g.children.set k none }) := OnlyTree.hush inferInstance
instance hu04 (i : Nat) (v : Option Nat) : Pres Hush (modRing i fun g => { g with bottomNode := v }) := OnlyTree.hush inferInstance

theorem hush_readStats {α : Type} (r : Nat) (f : Ring → α) : Pres Hush (do
      if (← getRing r).area.isNan then recalculateStats r
      pure (f (← getRing r))) := by
  constructor
  intro s L h hk
  rw [run_bind, show getRing r s = .ok (s.rings r) s from rfl]
  dsimp only
  by_cases hn : (s.rings r).area.isNan = true
  · rw [if_pos hn, run_bind]
    have hl : L r = [] := by
      by_contra e
      rw [hk r e] at hn
      cases hn
    have hnode : (s.rings r).node = none := by rw [h.own.head r, hl]; rfl
    have e : recalculateStats r s = .ok () s := by
      unfold recalculateStats
      rw [run_bind, show getRing r s = .ok (s.rings r) s from rfl]
      dsimp only
      rw [hnode]; rfl
    rw [e]
    exact Preo.refl s
  · rw [if_neg hn]
    exact Preo.refl s

instance hu10 (r : Nat) : Pres Hush (ringArea r) := hush_readStats r Ring.area
instance hu11 (r : Nat) : Pres Hush (ringIsHole r) := hush_readStats r Ring.isHole
instance hu12 (r : Nat) : Pres Hush (ringSize r) := hush_readStats r Ring.size

instance hu20 (n : Nat) : Pres Hush (isConvex n) := by unfold isConvex; pres
instance hu21 (a b : Nat) : Pres Hush (insideOrOutsideSpecial a b) := by unfold insideOrOutsideSpecial; pres
instance hu22 (a b : Nat) : Pres Hush (ringInsideOf a b) := by unfold ringInsideOf; pres
instance hu23 (r : Nat) (p : Option Nat) : Pres Hush (sameOrientation r p) := by unfold sameOrientation; pres
instance hu24 (r : Nat) : Pres Hush (ringHasArea r) := by unfold ringHasArea; pres
instance hu25 (l : List Nat) : Pres Hush (sortByArea l) := by
  unfold sortByArea
  exact Pres.bind (Pres.mapM' (fun _ => by pres) _) fun _ => by pres
instance hu26 : Pres Hush ringKeys := by
  unfold ringKeys
  exact Pres.bind inferInstance fun _ => Pres.mapM' (fun _ => by pres) _
instance hu27 : Pres Hush sortedRings := by unfold sortedRings; pres
instance hu30 (a b : Nat) : Pres Hush (samePoint a b) := by unfold samePoint; pres
instance hu31 (rp : Option Nat) (a b c d : Nat) (l k : List (Nat × Nat)) : Pres Hush (directConnection rp a b c d l k) := by
  induction l generalizing k with
  | nil => rw [directConnection]; pres
  | cons p l ih => obtain ⟨x, y⟩ := p; rw [directConnection]; pres
instance hu32 (rp : Option Nat) (a : Nat) : Pres Hush (chainRing rp a) := by unfold chainRing; pres
theorem hu33c (fuel : Nat) (rp : Option Nat) (a b : Nat) (d e : Nat)
    (ih : ∀ (cm : ConnectionMap) (il : List LoopItem) (rp : Option Nat) (a b : Nat) (v : List Nat) (c d : Nat),
    Pres Hush (findIntersectLoop fuel cm il rp a b v c d)) (l : List (Nat × Nat)) : ∀ (cm : ConnectionMap) (il : List LoopItem) (v : List Nat),
    Pres Hush (findIntersectLoop.chain fuel rp a b d e l cm il v) := by
  induction l with
  | nil => intro cm il v; rw [findIntersectLoop.chain, chainFrom]; pres
  | cons p l ihl => obtain ⟨x, y⟩ := p; intro cm il v; rw [findIntersectLoop.chain, chainFrom]; pres
instance hu33 (n : Nat) (cm : ConnectionMap) (il : List LoopItem) (rp : Option Nat) (a b : Nat) (v : List Nat) (c d : Nat) :
    Pres Hush (findIntersectLoop n cm il rp a b v c d) := by
  induction n generalizing cm il rp a b v c d with
  | zero => rw [findIntersectLoop]; pres
  | succ n ih =>
    rw [findIntersectLoop]
    refine Pres.bind inferInstance fun r => ?_
    split
    · pres
    · exact hu33c n _ _ _ _ _ ih _ _ _ _
instance hu34 (a b c : Nat) (l k : List (Nat × Nat)) (f : Bool) : Pres Hush (directPair a b c l k f) := by
  induction l generalizing k f with
  | nil => rw [directPair]; pres
  | cons p l ih => obtain ⟨x, y⟩ := p; rw [directPair]; pres
instance hu35 (rp : Option Nat) (a b c : Nat) (l : List (Nat × Nat)) (cm : ConnectionMap) (il : List LoopItem) (v : List Nat) :
    Pres Hush (chainPairs rp a b c l cm il v) := by
  induction l generalizing cm il v with
  | nil => rw [chainPairs]; pres
  | cons p l ih => obtain ⟨x, y⟩ := p; rw [chainPairs]; pres
instance hu36 (a b c : Nat) (d l : List LoopItem) : Pres Hush (chooseOrigin a b c d l) := by
  induction l generalizing d with
  | nil => rw [chooseOrigin]; pres
  | cons p l ih => obtain ⟨x, y, z⟩ := p; rw [chooseOrigin]; pres
instance hu37 (l : List (Nat × Nat)) : Pres Hush (movedPairs l) := by
  induction l with
  | nil => rw [movedPairs]; pres
  | cons p l ih => obtain ⟨x, y⟩ := p; rw [movedPairs]; pres
instance hu38 (r : Nat) (l : List (Nat × Nat)) : Pres Hush (originPairs r l) := by
  induction l with
  | nil => rw [originPairs]; pres
  | cons p l ih => obtain ⟨x, y⟩ := p; rw [originPairs]; pres
instance hu39 (l : List LoopItem) (cm : ConnectionMap) : Pres Hush (clearLoopPairs l cm) := by
  induction l generalizing cm with
  | nil => rw [clearLoopPairs]; pres
  | cons p l ih => obtain ⟨x, y, z⟩ := p; rw [clearLoopPairs]; pres
instance hu40 (r : Nat) (p : Option Nat) : Pres Hush (assignAsChild r p) := by unfold assignAsChild; pres
instance hu41 (r p : Nat) : Pres Hush (assignAsSibling r p) := by unfold assignAsSibling; pres
instance hu42 (r : Nat) (p : Option Nat) : Pres Hush (reassignAsChild r p) := by unfold reassignAsChild; pres
instance hu42c (p : Option Nat) : Pres Hush (childrenOf p) := by unfold childrenOf; pres
theorem hush_forChildren (p : Option Nat) {body : Nat → M Unit} (h : ∀ c, Pres Hush (body c)) : Pres Hush (forChildren p body) := by
  unfold Wagyu.forChildren; pres
instance hu43 (r : Nat) (p : Option Nat) (l : List Nat) : Pres Hush (reassignChildrenIfNecessary r p l) :=
  hush_forChildren _ fun _ => by pres
instance hu44 (n r p : Nat) : Pres Hush (findParentInTree n r p) := by
  induction n generalizing r p with
  | zero => exact Pres.raise _
  | succ n ih =>
    rw [findParentInTree]
    refine Pres.bind inferInstance fun _ => Pres.bind (Pres.anyChild (fun _ => Pres.bind inferInstance fun _ =>
      Pres.anyChild (fun _ => ih _ _) _) _) fun _ => by pres
instance hu45 (n r : Nat) (l : List (Option Nat)) : Pres Hush (anyChild (fun c => findParentInTree n r c) l) :=
  Pres.anyChild (fun _ => inferInstance) _
instance hu46 (a b : Nat) (c : Bool) (l k : List Nat) : Pres Hush (findAmongPrevious a b c l k) := by
  induction k with
  | nil => rw [findAmongPrevious]; pres
  | cons x k ih => rw [findAmongPrevious]; pres
instance hu47 (a : Nat) (c : Bool) (l k m : List Nat) : Pres Hush (assignNewRingParentsLoop a c l k m) := by
  induction m generalizing k with
  | nil => rw [assignNewRingParentsLoop]; pres
  | cons x m ih => rw [assignNewRingParentsLoop]; pres
instance hu48 (a : Nat) (l : List Nat) : Pres Hush (assignNewRingParents a l) := by
  unfold assignNewRingParents
  have := Pres.filterM' (R := Hush) (p := ringHasArea) (fun _ => inferInstance) l
  pres

/-- After a statement of this kind. -/
theorem Ok.hush {α : Type} {m : M α} (hm : Pres Hush m) {s : St} {L : Nat → List Nat} (h : TI s L) (hk : Known s L) : Ok m s fun _ s' => OnlyTree s s' :=
  (Post.of_pres (R := Hush) hm).mono (fun _ _ hs => hs L h hk) fun _ _ _ => trivial

end Wagyu
