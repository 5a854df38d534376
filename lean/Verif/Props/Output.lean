import Verif.Proofs.Unfold

/-!
# C02, C03, C24: the result

`buildResult` is the last step of every operation (wagyu.py:96).
-/

namespace Wagyu

open Spec

/-! ## C02 -/

/-- **C02.** Whatever was added and executed before, when an operation returns, every polygon of the result has an exterior
and every linear ring of the result has at least two points, the first and the last of which are equal. -/
theorem C02_closed (fuel : Nat) (w w' : Wagyu) (op : OperationKind) (sf cf : FillKind) (result : Multipolygon)
    (h : w.execute fuel op sf cf = (w', .ok result)) :
    ∀ polygon ∈ result, polygon ≠ [] ∧ ∀ ring ∈ polygon, 2 ≤ ring.length ∧ ring.head? = ring.getLast? := by
  unfold Wagyu.execute at h
  split at h
  · cases h; simp
  · have key : Ok (runOperation w.minimums w.reverseOutput op sf cf) (St.init fuel w.minimums.bounds) fun mp _ =>
        ∀ polygon ∈ mp, polygon ≠ [] ∧ ∀ ring ∈ polygon, Closed ring := by
      have any : ∀ {α : Type} (m : M α) (s : St) (Q : St → Prop), (∀ s', Q s') → Ok m s fun _ s' => Q s' :=
        fun m s Q hQ => Ok.intro fun _ s' _ => hQ s'
      refine Post.bind (any _ _ _ fun s1 => ?_)
      refine Post.bind (any _ _ _ fun s2 => ?_)
      refine Post.bind (any _ _ _ fun s3 => ?_)
      exact Post.bind (Post.gets (Post.bind (Post.gets (ringsToPolygons_closed _ _ _ _))))
    split at h
    · next a s e => cases h; exact key.elim e
    · cases h

/-! ## C24 -/

mutual
theorem ids_depths (d : Nat) : ∀ t : Tree, (t.depths d).map Prod.fst = t.ids
  | .mk i cs => by simp [Tree.depths, Tree.ids, idsOf_depths (d + 1) cs]
theorem idsOf_depths (d : Nat) : ∀ ts : List Tree, (depthsOf d ts).map Prod.fst = idsOf ts
  | [] => rfl
  | t :: ts => by simp [depthsOf, idsOf, ids_depths d t, idsOf_depths d ts]
end

/-- The children of the rings in a list, as recorded. -/
def recordedChildren (rings : Nat → Ring) (i : Nat) : List Nat := (rings i).children.filterMap id

theorem recorded_root {rings : Nat → Ring} {t : Tree} (h : Recorded rings t) : ∃ cs, t = .mk t.root cs
    ∧ recordedChildren rings t.root = cs.map Tree.root ∧ RecordedAll rings cs := by
  obtain ⟨i, cs⟩ := t
  rw [Recorded] at h
  exact ⟨cs, rfl, h.1, h.2⟩

mutual
/-- The polygons as a list of the exteriors at even depth, each followed by its children. -/
theorem asExterior_perm {α : Type} {rings : Nat → Ring} (f : Nat → α) (d : Nat) (hd : d % 2 = 0) : ∀ t : Tree, Recorded rings t →
    List.Perm (t.asExterior f) (((t.depths d).filter fun p => p.2 % 2 = 0).map fun p =>
      f p.1 :: (recordedChildren rings p.1).map f)
  | .mk i cs, h => by
    rw [Recorded] at h
    rw [Tree.asExterior, Tree.depths, List.filter_cons_of_pos (by simpa using hd), List.map_cons]
    refine List.Perm.trans (List.Perm.of_eq ?_) (List.Perm.cons _ (insideHoles_perm f (d + 1) (by omega) cs h.2))
    rw [recordedChildren, h.1, List.map_map]; rfl
theorem asHole_perm {α : Type} {rings : Nat → Ring} (f : Nat → α) (d : Nat) (hd : d % 2 = 1) : ∀ t : Tree, Recorded rings t →
    List.Perm (t.asHole f) (((t.depths d).filter fun p => p.2 % 2 = 0).map fun p =>
      f p.1 :: (recordedChildren rings p.1).map f)
  | .mk i cs, h => by
    rw [Recorded] at h
    rw [Tree.asHole, Tree.depths, List.filter_cons_of_neg (by simp; omega)]
    exact polygonsOf_perm f (d + 1) (by omega) cs h.2
theorem insideHoles_perm {α : Type} {rings : Nat → Ring} (f : Nat → α) (d : Nat) (hd : d % 2 = 1) : ∀ ts : List Tree,
    RecordedAll rings ts → List.Perm (insideHoles f ts) (((depthsOf d ts).filter fun p => p.2 % 2 = 0).map fun p =>
      f p.1 :: (recordedChildren rings p.1).map f)
  | [], _ => by simp [insideHoles, depthsOf]
  | t :: ts, h => by
    rw [RecordedAll] at h
    rw [insideHoles, depthsOf, List.filter_append, List.map_append]
    exact List.Perm.append (asHole_perm f d hd t h.1) (insideHoles_perm f d hd ts h.2)
theorem polygonsOf_perm {α : Type} {rings : Nat → Ring} (f : Nat → α) (d : Nat) (hd : d % 2 = 0) : ∀ ts : List Tree,
    RecordedAll rings ts → List.Perm (polygonsOf f ts) (((depthsOf d ts).filter fun p => p.2 % 2 = 0).map fun p =>
      f p.1 :: (recordedChildren rings p.1).map f)
  | [], _ => by simp [polygonsOf, depthsOf]
  | t :: ts, h => by
    rw [RecordedAll] at h
    rw [polygonsOf, depthsOf, List.filter_append, List.map_append]
    exact List.Perm.append (asExterior_perm f d hd t h.1) (polygonsOf_perm f d hd ts h.2)
end

mutual
theorem asExterior_flatten {α : Type} (f : Nat → α) : ∀ t : Tree, List.Perm (t.asExterior f).flatten (t.ids.map f)
  | .mk i cs => by
    rw [Tree.asExterior, Tree.ids, List.flatten_cons, List.map_cons, List.cons_append]
    exact (holes_flatten f cs).cons _
theorem holes_flatten {α : Type} (f : Nat → α) : ∀ ts : List Tree,
    List.Perm ((ts.map fun t => f t.root) ++ (insideHoles f ts).flatten) ((idsOf ts).map f)
  | [] => by simp [insideHoles, idsOf]
  | .mk i cs :: ts => by
    rw [List.map_cons, insideHoles, idsOf, List.map_append, List.flatten_append, Tree.root, Tree.ids, Tree.asHole, List.map_cons,
      List.cons_append, List.cons_append]
    refine List.Perm.cons _ ?_
    refine List.Perm.trans (l₂ := (polygonsOf f cs).flatten ++ ((ts.map fun t => f t.root) ++ (insideHoles f ts).flatten)) ?_
      ((polygons_flatten f cs).append (holes_flatten f ts))
    rw [← List.append_assoc, ← List.append_assoc]
    exact (List.perm_append_comm).append_right _
theorem polygons_flatten {α : Type} (f : Nat → α) : ∀ ts : List Tree, List.Perm (polygonsOf f ts).flatten ((idsOf ts).map f)
  | [] => by simp [polygonsOf, idsOf]
  | t :: ts => by
    rw [polygonsOf, idsOf, List.flatten_append, List.map_append]
    exact (asExterior_flatten f t).append (polygons_flatten f ts)
end

/-- The rings held by the ring manager form the forest `trees` (their children lists may also hold `None`s), and the nodes
of each ring of the forest form a circular doubly linked list, `lists i`, that starts at the node of the ring.  The other
two conditions say that the traversals do not run out of steps (see DESIGN.md). -/
structure Forest (s : St) (trees : List Tree) (lists : Nat → List Nat) : Prop where
  roots : s.children.filterMap id = trees.map Tree.root
  recorded : RecordedAll s.rings trees
  cycles : ∀ i ∈ idsOf trees, IsCycle s.nodes (lists i)
  first : ∀ i ∈ idsOf trees, (s.rings i).node = (lists i).head?
  height : heightOf trees < s.fuel
  length : ∀ i ∈ idsOf trees, (lists i).length ≤ s.fuel

theorem Forest.buildResult {s : St} {trees : List Tree} {lists : Nat → List Nat} (h : Forest s trees lists) (rev : Bool) :
    buildResult rev s = .ok (polygonsOf (closedRing s.nodes lists rev) trees) s := by
  unfold Wagyu.buildResult
  simp only [run_bind, run_gets]
  exact ringsToPolygons_run rev s.fuel s.children trees h.roots h.recorded
    (fun i hi => ⟨h.cycles i hi, h.first i hi, h.length i hi⟩) h.height

/-- **C24.** For any forest of rings, building the result

* leaves the state as it is and returns, recursively, for every tree the polygon made of its root and, in order, of the
  roots of its subtrees, followed by the polygons made of the grandchildren (`polygonsOf`);
* yields exactly one polygon for every ring at even depth, with that ring first and its recorded children, in order, as
  holes;
* contains every ring of the forest exactly once. -/
theorem C24_forest (s : St) (trees : List Tree) (lists : Nat → List Nat) (rev : Bool) (h : Forest s trees lists) :
    ∃ result, buildResult rev s = .ok result s
      ∧ result = polygonsOf (closedRing s.nodes lists rev) trees
      ∧ List.Perm result (((depthsOf 0 trees).filter fun p => p.2 % 2 = 0).map fun p =>
          closedRing s.nodes lists rev p.1 :: ((s.rings p.1).children.filterMap id).map (closedRing s.nodes lists rev))
      ∧ List.Perm result.flatten ((idsOf trees).map (closedRing s.nodes lists rev)) :=
  ⟨_, h.buildResult rev, rfl, polygonsOf_perm _ 0 rfl trees h.recorded, polygons_flatten _ trees⟩

/-- **C24.** Whatever was added and executed before, when an operation on a non-empty object returns, there is a forest
`trees` of rings, as recorded by the ring manager in the state `s` in which the operation ended, such that

* no ring occurs twice in the forest, the roots are the rings of the top level and have no recorded parent, and the depth of a ring in the
  forest is its number of recorded ancestors;
* the result is, recursively, for every tree the polygon made of its root and, in order, of the roots of its subtrees,
  followed by the polygons made of the grandchildren;
* there is exactly one polygon for every ring at even depth, with that ring first and its children, in order, as holes, and
  every ring of the forest occurs exactly once in the result. -/
theorem C24_execute (fuel : Nat) (w w' : Wagyu) (op : OperationKind) (sf cf : FillKind) (result : Multipolygon)
    (hne : w.minimums.values ≠ []) (h : w.execute fuel op sf cf = (w', .ok result)) :
    ∃ (s : St) (trees : List Tree) (linear : Nat → List Point),
      runOperation w.minimums w.reverseOutput op sf cf (St.init fuel w.minimums.bounds) = .ok result s
      ∧ s.children.filterMap id = trees.map Tree.root ∧ RecordedAll s.rings trees
      ∧ (∀ i ∈ idsOf trees, ringToLinearRing i w.reverseOutput s = .ok (linear i) s)
      ∧ (idsOf trees).Nodup
      ∧ (∀ p ∈ depthsOf 0 trees, HasDepth (fun i => (s.rings i).parent) p.1 p.2)
      ∧ result = polygonsOf linear trees
      ∧ List.Perm result (((depthsOf 0 trees).filter fun p => p.2 % 2 = 0).map fun p =>
          linear p.1 :: ((s.rings p.1).children.filterMap id).map linear)
      ∧ List.Perm result.flatten ((idsOf trees).map linear) := by
  unfold Wagyu.execute at h
  rw [if_neg hne] at h
  have hcon := C34_execute fuel w.minimums w.reverseOutput op sf cf
  split at h
  · next a s e =>
    cases h
    rw [e] at hcon
    have hinv : Inv none' s := (consistent_iff s).1 hcon
    -- the last step
    have hlast : ∃ s3, buildResult w.reverseOutput s3 = .ok result s := by
      unfold runOperation at e
      rw [run_bind] at e
      split at e
      · rw [run_bind] at e
        split at e
        · rw [run_bind] at e
          split at e
          · exact ⟨_, e⟩
          · cases e
        · cases e
      · cases e
    obtain ⟨s3, e3⟩ := hlast
    unfold buildResult at e3
    simp only [run_bind, run_gets] at e3
    obtain ⟨hs, trees, t1, t2, t3, t4⟩ := ringsToPolygons_inv w.reverseOutput s3.fuel s3.children e3
    subst hs
    have hd : ∀ c ∈ trees.map Tree.root, HasDepth (fun i => (s.rings i).parent) c 0 := fun c hc => by
      rw [← t1] at hc
      exact parent_of_listed hinv (p := none) hc
    have hn : (trees.map Tree.root).Nodup := by rw [← t1]; exact nodup_listed hinv none
    refine ⟨s, trees, linearOf w.reverseOutput s, e, t1, t2, t3, ?_, forest_depth hinv 0 trees t2 hd, t4, ?_, ?_⟩
    · rw [← idsOf_depths 0]; exact forest_nodup hinv 0 trees t2 hd hn
    · rw [t4]; exact polygonsOf_perm _ 0 rfl trees t2
    · rw [t4]; exact polygons_flatten _ trees
  · cases h

/-! ## C03 -/

mutual
theorem asExterior_map {α β : Type} (f : Nat → α) (g : α → β) : ∀ t : Tree, t.asExterior (g ∘ f) = (t.asExterior f).map (·.map g)
  | .mk i cs => by simp [Tree.asExterior, insideHoles_map f g cs]
theorem asHole_map {α β : Type} (f : Nat → α) (g : α → β) : ∀ t : Tree, t.asHole (g ∘ f) = (t.asHole f).map (·.map g)
  | .mk i cs => by simp [Tree.asHole, polygonsOf_map f g cs]
theorem insideHoles_map {α β : Type} (f : Nat → α) (g : α → β) : ∀ ts : List Tree,
    insideHoles (g ∘ f) ts = (insideHoles f ts).map (·.map g)
  | [] => rfl
  | t :: ts => by rw [insideHoles, insideHoles, List.map_append, asHole_map f g t, insideHoles_map f g ts]
theorem polygonsOf_map {α β : Type} (f : Nat → α) (g : α → β) : ∀ ts : List Tree,
    polygonsOf (g ∘ f) ts = (polygonsOf f ts).map (·.map g)
  | [] => rfl
  | t :: ts => by rw [polygonsOf, polygonsOf, List.map_append, asExterior_map f g t, polygonsOf_map f g ts]
end

theorem closedRing_reverse (h : Nat → Node) (lists : Nat → List Nat) :
    closedRing h lists true = List.reverse ∘ closedRing h lists false := by
  funext i
  simp only [closedRing, Function.comp]
  cases pointsOf h (lists i) with
  | nil => rfl
  | cons p t => simp

/-- **C03.** For any forest of rings the result with `reverse_output=True` is the one with `reverse_output=False`, with the
points of every linear ring listed in the opposite order. -/
theorem C03_reverse (s : St) (trees : List Tree) (lists : Nat → List Nat) (h : Forest s trees lists) :
    ∃ result : Multipolygon, buildResult false s = .ok result s
      ∧ buildResult true s = .ok (result.map fun polygon => polygon.map List.reverse) s := by
  refine ⟨_, h.buildResult false, ?_⟩
  rw [h.buildResult true, closedRing_reverse, polygonsOf_map]

/-! ## A concrete forest

An exterior (ring 0) with a hole (ring 1) that contains another exterior (ring 2), and a second root (ring 3); between the
roots and among the children there are `None`s. -/

/-- Triangles `(0, 1, 2)`, `(3, 4, 5)`, `(6, 7, 8)`, `(9, 10, 11)`. -/
def forestState : St :=
  { St.init 20 fun _ => default with
    nodes := fun i => { x := i, y := i * i, prev := some (if i % 3 = 0 then i + 2 else i - 1)
                        next := some (if i % 3 = 2 then i - 2 else i + 1), ring := some (i / 3) }
    nn := 12
    rings := fun i => { Ring.fresh with
      node := some (3 * i)
      children := if i = 0 then [none, some 1] else if i = 1 then [some 2, none] else [] }
    nr := 4
    children := [some 0, none, some 3] }

/-- The forest. -/
def forestTrees : List Tree := [.mk 0 [.mk 1 [.mk 2 []]], .mk 3 []]

/-- The node lists. -/
def forestLists (i : Nat) : List Nat := [3 * i, 3 * i + 1, 3 * i + 2]

theorem forestState_forest : Forest forestState forestTrees forestLists where
  roots := rfl
  recorded := by simp [forestTrees, RecordedAll, Recorded, forestState, Tree.root]
  cycles := by
    intro i hi
    simp [forestTrees, idsOf, Tree.ids] at hi
    rcases hi with rfl | rfl | rfl | rfl <;> exact ⟨by decide, by simp [forestState, Link]⟩
  first := by intro i _; rfl
  height := by decide
  length := by intro i _; simp [forestLists, forestState, St.init]

example := C24_forest forestState forestTrees forestLists false forestState_forest
example := C03_reverse forestState forestTrees forestLists forestState_forest

example : buildResult false forestState = .ok
    [[[⟨0, 0⟩, ⟨2, 4⟩, ⟨1, 1⟩, ⟨0, 0⟩], [⟨3, 9⟩, ⟨5, 25⟩, ⟨4, 16⟩, ⟨3, 9⟩]], [[⟨6, 36⟩, ⟨8, 64⟩, ⟨7, 49⟩, ⟨6, 36⟩]],
      [[⟨9, 81⟩, ⟨11, 121⟩, ⟨10, 100⟩, ⟨9, 81⟩]]] forestState := by
  rw [forestState_forest.buildResult]; rfl

/-! ## A whole operation -/

/-- Two overlapping triangles. -/
def twoTriangles : Wagyu :=
  (((Wagyu.new false).addLinearRing 50 [⟨0, 0⟩, ⟨4, 0⟩, ⟨0, 4⟩, ⟨0, 0⟩] .subject).1.addLinearRing 50
    [⟨1, 1⟩, ⟨5, 1⟩, ⟨1, 5⟩, ⟨1, 1⟩] .clip).1

theorem twoTriangles_intersect : (twoTriangles.execute 60 .intersection .evenOdd .evenOdd).2.toOption
    = some [[[⟨3, 1⟩, ⟨1, 3⟩, ⟨1, 1⟩, ⟨3, 1⟩]]] := by decide +kernel

/-- Their intersection satisfies the hypotheses of `C24_execute` and `C02_closed`. -/
example : ∃ w' result, twoTriangles.minimums.values ≠ [] ∧ twoTriangles.execute 60 .intersection .evenOdd .evenOdd = (w', .ok result)
    ∧ result ≠ [] := by
  have h := twoTriangles_intersect
  cases e : twoTriangles.execute 60 .intersection .evenOdd .evenOdd with
  | mk w' r =>
    rw [e] at h
    cases r with
    | error e => cases h
    | ok result =>
      refine ⟨w', result, by decide +kernel, rfl, ?_⟩
      simp [Except.toOption] at h
      simp [h]

end Wagyu
