import Verif.Proofs.ForestTopo

/-!
# C34: the forest of rings
-/

namespace Wagyu

open Spec

/-- The children lists and the parents of the rings of a state, as in `Spec.ListedOnce`, and only existing rings are
listed. -/
def Consistent (s : St) : Prop :=
  ListedOnce s.children (fun i => (s.rings i).children) (fun i => (s.rings i).parent)
    ∧ ∀ i p, some i ∈ childrenIn s.children (fun i => (s.rings i).children) p → i < s.nr

/-- The list of children of `p` (the top level for `none`). -/
abbrev listed (s : St) (p : Option Nat) : List (Option Nat) := childrenIn s.children (fun i => (s.rings i).children) p

/-- The lists and the parents are the same. -/
def SameForest (s s' : St) : Prop :=
  (∀ p, listed s' p = listed s p) ∧ ∀ i, (s'.rings i).parent = (s.rings i).parent

theorem consistent_iff (s : St) : Consistent s ↔ Inv none' s := by
  constructor
  · intro h
    refine ⟨fun p i => ?_, fun p i hi => h.2 i p (List.count_pos_iff.1 hi), fun r hr => hr.elim⟩
    by_cases hc : some i ∈ kids s p
    · obtain ⟨h1, h2⟩ := h.1 i p hc
      rw [if_pos h1]; exact Nat.le_of_eq h2
    · rw [cnt, List.count_eq_zero_of_not_mem hc]; exact Nat.zero_le _
  · intro h
    refine ⟨fun i p hi => ?_, fun i p hi => h.bound p i (List.count_pos_iff.2 hi)⟩
    have h1 : 0 < cnt s p i := List.count_pos_iff.2 hi
    have h2 := h.once p i
    by_cases hp : (s.rings i).parent = p
    · rw [if_pos hp] at h2
      exact ⟨hp, Nat.le_antisymm h2 h1⟩
    · rw [if_neg hp] at h2; omega

instance : Preo SameForest where
  refl _ := ⟨fun _ => rfl, fun _ => rfl⟩
  trans h1 h2 := ⟨fun p => (h2.1 p).trans (h1.1 p), fun i => (h2.2 i).trans (h1.2 i)⟩
instance : Prims SameForest where
  node _ _ _ _ _ := ⟨fun p => by cases p <;> rfl, fun _ => rfl⟩
  ring _ _ _ h1 h2 := ⟨fun p => by
    cases p with
    | none => rfl
    | some q => simp only [listed, childrenIn, upd]; split <;> simp_all, fun i => by simp only [upd]; split <;> simp_all⟩
  sort _ _ := ⟨fun p => by cases p <;> rfl, fun _ => rfl⟩

/-- The number of rings is the same. -/
def SameCount (s s' : St) : Prop := s'.nr = s.nr
instance : Preo SameCount where
  refl _ := rfl
  trans h1 h2 := Eq.trans h2 h1
instance : Prims SameCount where
  node _ _ _ _ _ := rfl
  ring _ _ _ _ _ := rfl
  sort _ _ := rfl

/-- **C34.** Executing any operation on any geometry keeps the forest consistent, up to the moment the result is built:
whatever the state of the bounds, a ring that is listed is listed once and only by its parent (also when an exception is
raised on the way). -/
theorem C34_execute (fuel : Nat) (m : Minimums) (rev : Bool) (op : OperationKind) (sf cf : FillKind) :
    Consistent (runOperation m rev op sf cf (St.init fuel m.bounds)).state := by
  rw [consistent_iff]
  have h0 : J none' 0 (St.init fuel m.bounds) := by
    refine ⟨⟨fun p i => ?_, fun p i hi => ?_, fun r hr => hr.elim⟩, Nat.zero_le _⟩
    · cases p <;> simp [cnt, kids, childrenIn, St.init, Ring.fresh]
    · cases p <;> simp [cnt, kids, childrenIn, St.init, Ring.fresh] at hi
  have hb : ∀ (n : Nat) (l : List (Option Nat)), Pres F0 (ringsToPolygons rev n l) := by
    have h1 : ∀ i, Pres F0 (ringToLinearRing i rev) := by
      intro i
      unfold ringToLinearRing pointNodeToLinearRing
      refine Pres.bind inferInstance fun _ => Pres.bind inferInstance fun _ => Pres.bind (by pres) fun _ =>
        Pres.bind (Pres.mapM' (fun _ => inferInstance) _) fun _ => by pres
    intro n
    induction n with
    | zero => intro l; rw [ringsToPolygons]; pres
    | succ n ih =>
      intro l
      rw [ringsToPolygons]
      refine Pres.bind (Pres.mapM' (fun o => ?_) _) fun _ => by pres
      split
      · pres
      · refine Pres.bind (h1 _) fun _ => Pres.bind inferInstance fun _ => Pres.bind (Pres.mapM' (fun _ => h1 _) _) fun _ =>
          Pres.bind (Pres.mapM' (fun _ => Pres.bind inferInstance fun _ => ih _) _) fun _ => by pres
  have hr : Pres F0 (runOperation m rev op sf cf) := by
    unfold runOperation buildResult
    have := hb
    pres
  exact (hr.pres _ 0 h0).1

/-- **C34.** Re-parenting (`reassign_as_child`) an existing ring of a consistent forest either raises and leaves the forest
as it is, or the ring is listed once under the new parent, which it records, and nowhere else; no other ring moves; the
forest stays consistent. -/
theorem C34_reassign (s : St) (r : Nat) (p : Option Nat) (h : Consistent s) (hr : r < s.nr) :
    match reassignAsChild r p s with
    | .err _ s' => SameForest s s'
    | .ok _ s' => Consistent s'
        ∧ (s'.rings r).parent = p ∧ (listed s' p).count (some r) = 1 ∧ (∀ q, q ≠ p → some r ∉ listed s' q)
        ∧ ∀ i, i ≠ r → (s'.rings i).parent = (s.rings i).parent
            ∧ ∀ q, (listed s' q).count (some i) = (listed s q).count (some i) := by
  rw [consistent_iff] at h
  suffices hs : Post (reassignAsChild r p) s (fun _ s' => Consistent s'
        ∧ (s'.rings r).parent = p ∧ (listed s' p).count (some r) = 1 ∧ (∀ q, q ≠ p → some r ∉ listed s' q)
        ∧ ∀ i, i ≠ r → (s'.rings i).parent = (s.rings i).parent
            ∧ ∀ q, (listed s' q).count (some i) = (listed s q).count (some i)) (fun _ s' => SameForest s s') by
    unfold Post at hs
    cases hm : reassignAsChild r p s with
    | ok a s' => rw [hm] at hs; exact hs
    | err e s' => rw [hm] at hs; exact hs
  unfold Wagyu.reassignAsChild
  have hso := ((Post.of_pres (s := s) (inferInstance : Pres SameForest (sameOrientation r p))).and
    ((Post.of_pres (s := s) (inferInstance : Pres (FR none') (sameOrientation r p))).mono (fun _ _ h => h) fun _ _ _ => trivial))
  have hso := hso.and ((Post.of_pres (s := s) (inferInstance : Pres SameCount (sameOrientation r p))).mono (fun _ _ h => h)
    fun _ _ _ => trivial)
  refine Post.bind (hso.imp fun b s1 h1 => ?_)
  obtain ⟨⟨hsame, hfr⟩, hn⟩ := h1
  refine Post.ite (fun _ => Post.raise hsame) fun _ => ?_
  refine Post.bind (Post.getRing (Post.bind (Post.modChildren (Post.bind (Post.modChildren (Post.setRingParent ?_))))))
  have hJ := (hfr 0 ⟨h, Nat.zero_le _⟩).unlist (X := none') (r := r) (by have : s1.nr = s.nr := hn; omega)
  have hJ' := hJ.assign (X := none') (p := p) (f := setToChildren r) id (count_set r · _)
  have hk : ∀ q, listed s1 q = listed s q := hsame.1
  generalize hold : (s1.rings r).parent = old at hJ hJ' ⊢
  generalize hs' : setPar (setKids (setKids s1 old (removeFromChildren r)) p (setToChildren r)) r p = s' at hJ' ⊢
  have hpar : ∀ i, (s'.rings i).parent = if i = r then p else (s.rings i).parent := fun i => by
    rw [← hs', parent_setPar, parent_setKids, parent_setKids, hsame.2]
  have hkid : ∀ q, listed s' q = if q = p then setToChildren r (kids (setKids s1 old (removeFromChildren r)) q)
      else kids (setKids s1 old (removeFromChildren r)) q := fun q => by
    show kids s' q = _
    rw [← hs', kids_setPar, kids_setKids]
  have hcon := (consistent_iff s').2 hJ'.1
  have hmem : some r ∈ listed s' p := by
    rw [hkid, if_pos rfl]
    exact List.count_pos_iff.1 (by rw [count_set, if_pos rfl]; omega)
  refine ⟨hcon, by rw [hpar, if_pos rfl], (hcon.1 r p hmem).2, fun q hq hm => hq ?_, fun i hi => ⟨by rw [hpar, if_neg hi], fun q => ?_⟩⟩
  · have : (s'.rings r).parent = q := (hcon.1 r q hm).1
    rw [hpar, if_pos rfl] at this
    exact this.symm
  · rw [hkid]
    have h2 : (kids (setKids s1 old (removeFromChildren r)) q).count (some i) = (listed s q).count (some i) := by
      rw [kids_setKids]
      split
      · rw [count_remove, if_neg hi]; show (listed s1 q).count _ = _; rw [hk]
      · show (listed s1 q).count _ = _; rw [hk]
    split
    · rw [count_set, if_neg hi]; exact h2
    · exact h2

/-- **C34.** Re-parenting a ring under a ring of the same orientation (both holes or both not), or a hole under the top
level, is refused with a `RuntimeError` and changes nothing; any other is not refused.  The areas have been computed. -/
theorem C34_refused (s : St) (r : Nat) (p : Option Nat) (hr : (s.rings r).area ≠ .nan) (hp : ∀ q, p = some q → (s.rings q).area ≠ .nan)
    (allowed : Bool)
    (hall : allowed = match p with
      | none => !(s.rings r).isHole
      | some q => (s.rings r).isHole != (s.rings q).isHole) :
    if allowed then ∃ s', reassignAsChild r p s = .ok () s'
    else reassignAsChild r p s = .err (.runtime "Trying to re-assign a child that is the same orientation as the parent") s := by
  have hole : ∀ i, (s.rings i).area ≠ .nan → ringIsHole i s = .ok (s.rings i).isHole s := by
    intro i hi
    unfold ringIsHole
    have : (s.rings i).area.isNan = false := by
      cases h : (s.rings i).area <;> simp_all [F64.isNan]
    simp [run_bind, getRing, run_gets, this]
    rfl
  have hso : sameOrientation r p s = .ok (!allowed) s := by
    subst hall
    cases p with
    | none => simp [sameOrientation, hole r hr]
    | some q =>
      simp [sameOrientation, run_bind, hole r hr, hole q (hp q rfl)]
      show Res.ok _ _ = _
      cases (s.rings r).isHole <;> cases (s.rings q).isHole <;> rfl
  unfold reassignAsChild
  rw [run_bind, hso]
  cases allowed with
  | true => exact ⟨_, by simp [run_bind, getRing, run_gets, modChildren_run, setRingParent, modRing, modify]; rfl⟩
  | false => rfl

/-- **C34.** Assigning (`assign_as_child`) an existing ring that is not listed anywhere in a consistent forest either raises
and leaves the forest as it is, or lists it once under the given parent, which it records; no other ring moves. -/
theorem C34_assign (s : St) (r : Nat) (p : Option Nat) (h : Consistent s) (hr : r < s.nr) (hu : ∀ q, some r ∉ listed s q) :
    match assignAsChild r p s with
    | .err _ s' => SameForest s s'
    | .ok _ s' => Consistent s'
        ∧ (s'.rings r).parent = p ∧ (listed s' p).count (some r) = 1 ∧ (∀ q, q ≠ p → some r ∉ listed s' q)
        ∧ ∀ i, i ≠ r → (s'.rings i).parent = (s.rings i).parent
            ∧ ∀ q, (listed s' q).count (some i) = (listed s q).count (some i) := by
  rw [consistent_iff] at h
  suffices hs : Post (assignAsChild r p) s (fun _ s' => Consistent s'
        ∧ (s'.rings r).parent = p ∧ (listed s' p).count (some r) = 1 ∧ (∀ q, q ≠ p → some r ∉ listed s' q)
        ∧ ∀ i, i ≠ r → (s'.rings i).parent = (s.rings i).parent
            ∧ ∀ q, (listed s' q).count (some i) = (listed s q).count (some i)) (fun _ s' => SameForest s s') by
    unfold Post at hs
    cases hm : assignAsChild r p s with
    | ok a s' => rw [hm] at hs; exact hs
    | err e s' => rw [hm] at hs; exact hs
  unfold Wagyu.assignAsChild
  have hso := ((Post.of_pres (s := s) (inferInstance : Pres SameForest (sameOrientation r p))).and
    ((Post.of_pres (s := s) (inferInstance : Pres SameCount (sameOrientation r p))).mono (fun _ _ h => h) fun _ _ _ => trivial))
  refine Post.bind (hso.imp fun b s1 h1 => ?_)
  obtain ⟨hsame, hn⟩ := h1
  refine Post.ite (fun _ => Post.raise hsame) fun _ => ?_
  refine Post.bind (Post.modChildren (Post.setRingParent ?_))
  have hk : ∀ q, kids s1 q = kids s q := hsame.1
  have hJ : J (fun i => none' i ∨ i = r) 0 s1 := by
    refine (FR.same hn hsame.2 hk : FR (fun i => none' i ∨ i = r) s s1) 0 ⟨⟨h.once, h.bound, fun i hi => ?_⟩, Nat.zero_le _⟩
    rcases hi with hi | hi
    · exact hi.elim
    · subst hi; exact ⟨hr, fun q => List.count_eq_zero_of_not_mem (hu q)⟩
  have hJ' := hJ.assign (X := none') (p := p) (f := setToChildren r) id (count_set r · _)
  generalize hs' : setPar (setKids s1 p (setToChildren r)) r p = s' at hJ' ⊢
  have hpar : ∀ i, (s'.rings i).parent = if i = r then p else (s.rings i).parent := fun i => by
    rw [← hs', parent_setPar, parent_setKids, hsame.2]
  have hkid : ∀ q, listed s' q = if q = p then setToChildren r (kids s q) else kids s q := fun q => by
    show kids s' q = _
    rw [← hs', kids_setPar, kids_setKids, hk]
  have hcon := (consistent_iff s').2 hJ'.1
  have hmem : some r ∈ listed s' p := by
    rw [hkid, if_pos rfl]
    exact List.count_pos_iff.1 (by rw [count_set, if_pos rfl]; omega)
  refine ⟨hcon, by rw [hpar, if_pos rfl], (hcon.1 r p hmem).2, fun q hq hm => hq ?_, fun i hi => ⟨by rw [hpar, if_neg hi], fun q => ?_⟩⟩
  · have : (s'.rings r).parent = q := (hcon.1 r q hm).1
    rw [hpar, if_pos rfl] at this
    exact this.symm
  · rw [hkid]
    split
    · rw [count_set, if_neg hi]; rfl
    · rfl

/-- **C34.** Replacing (`replace_ring`) an existing ring `r`, which is not its own child, of a consistent forest by another
ring (or by the top level) succeeds; afterwards its children are listed once under the replacement, which they record, `r` is
listed nowhere and has no children and no points, no other ring moves, and the forest is consistent. -/
theorem C34_replace (s : St) (r : Nat) (p : Option Nat) (h : Consistent s) (hr : r < s.nr) (hself : some r ∉ listed s (some r))
    (hp : p ≠ some r) :
    ∃ s', replaceRing r p s = .ok () s' ∧ Consistent s' ∧ (s'.rings r).node = none
      ∧ (∀ q, some r ∉ listed s' q) ∧ (∀ i, some i ∉ listed s' (some r))
      ∧ (∀ i, some i ∈ listed s (some r) → (s'.rings i).parent = p ∧ (listed s' p).count (some i) = 1)
      ∧ ∀ i, i ≠ r → some i ∉ listed s (some r) → (s'.rings i).parent = (s.rings i).parent
          ∧ ∀ q, (listed s' q).count (some i) = (listed s q).count (some i) := by
  rw [consistent_iff] at h
  suffices hs : Post (replaceRing r p) s (fun _ s' => Consistent s' ∧ (s'.rings r).node = none
      ∧ (∀ q, some r ∉ listed s' q) ∧ (∀ i, some i ∉ listed s' (some r))
      ∧ (∀ i, some i ∈ listed s (some r) → (s'.rings i).parent = p ∧ (listed s' p).count (some i) = 1)
      ∧ ∀ i, i ≠ r → some i ∉ listed s (some r) → (s'.rings i).parent = (s.rings i).parent
          ∧ ∀ q, (listed s' q).count (some i) = (listed s q).count (some i)) (fun _ _ => False) by
    unfold Post at hs
    cases hm : replaceRing r p s with
    | ok a s' => rw [hm] at hs; exact ⟨s', rfl, hs⟩
    | err e s' => rw [hm] at hs; exact hs.elim
  unfold replaceRing
  refine Post.ite (fun hc => absurd hc hp) fun _ => ?_
  refine Post.bind (Post.getRing ?_)
  refine Post.bind ((replaceLoop_post hp (⟨h, Nat.le_refl _⟩ : J none' s.nr s)).imp fun _ s1 h1 => ?_)
  obtain ⟨⟨hI, hn⟩, hM⟩ := h1
  have hmv : ∀ i, some i ∈ (s.rings r).children.take (s.rings r).children.length ↔ some i ∈ listed s (some r) := fun i => by
    rw [List.take_length]; rfl
  refine Post.bind (Post.getRing (Post.bind (Post.modChildren (Post.modRing ?_))))
  have hJ := J.unlist (X := none') (n := s.nr) ⟨hI, hn⟩ (Nat.lt_of_lt_of_le hr hn)
  generalize hs2 : setKids s1 (s1.rings r).parent (removeFromChildren r) = s2 at hJ ⊢
  generalize hs' : ({ s2 with rings := upd s2.rings r ({ s2.rings r with node := none }.resetStats) } : St) = s'
  have hk2 : ∀ q, listed s' q = kids s2 q := by
    intro q
    rw [← hs']
    cases q with
    | none => rfl
    | some q =>
      simp only [listed, kids, childrenIn, upd]
      split
      · next hq => rw [hq]; rfl
      · rfl
  have hp2 : ∀ i, (s'.rings i).parent = (s1.rings i).parent := by
    intro i
    have : (s2.rings i).parent = (s1.rings i).parent := by rw [← hs2, parent_setKids]
    rw [← this, ← hs']
    simp only [upd]
    split
    · next hq => rw [hq]; rfl
    · rfl
  have hJ' : Inv (fun i => none' i ∨ i = r) s' := by
    refine ((FR.same ?_ ?_ hk2 : FR (fun i => none' i ∨ i = r) s2 s') s.nr hJ).1
    · rw [← hs']
    · intro i; rw [hp2, ← hs2, parent_setKids]
  have hcon := (consistent_iff s').2 ⟨hJ'.once, hJ'.bound, fun i hi => hi.elim⟩
  have hcnt : ∀ q i, i ≠ r → (listed s' q).count (some i) = cnt s1 q i := by
    intro q i hi
    rw [hk2, ← hs2, kids_setKids]
    split
    · rw [count_remove, if_neg hi]; rfl
    · rfl
  have hunl : ∀ q, some r ∉ listed s' q := fun q hm => by
    have := (hJ'.free r (Or.inr rfl)).2 q
    have h2 : 0 < cnt s' q r := List.count_pos_iff.2 hm
    omega
  refine ⟨hcon, by rw [← hs']; simp [upd, Ring.resetStats], hunl, fun i hm => ?_, fun i hi => ?_, fun i hir hi => ⟨?_, fun q => ?_⟩⟩
  · have hir : i ≠ r := fun he => hunl (some r) (he ▸ hm)
    have h2 := List.count_pos_iff.2 hm
    rw [hcnt _ i hir, hM.cnt] at h2
    simp only [hmv] at h2
    by_cases hc : some i ∈ listed s (some r)
    · rw [if_pos hc, if_neg (Ne.symm hp)] at h2; omega
    · rw [if_neg hc] at h2
      exact hc (List.count_pos_iff.1 h2)
  · have hir : i ≠ r := fun he => hself (he ▸ hi)
    rw [hp2, hM.par, hcnt _ i hir, hM.cnt]
    simp only [hmv, hi, if_true, and_self]
  · rw [hp2, hM.par]; simp only [hmv, hi, if_false]
  · rw [hcnt _ i hir, hM.cnt]; simp only [hmv, hi, if_false]; rfl

/-- After the first `i` slots of the list of `r` are cleared. -/
structure Cleared (s : St) (r i : Nat) (s' : St) : Prop where
  nr : s'.nr = s.nr
  par : ∀ j, (s'.rings j).parent = (s.rings j).parent
  kids : ∀ q, kids s' q = if q = some r then List.replicate i none ++ (s.rings r).children.drop i else kids s q

theorem clearLoop_post {r : Nat} {s : St} {E : Err → St → Prop} (rec : Nat → M Unit) :
    Post (forElse (s.rings r).children.length (fun (i : Nat) => do
      match (← getRing r).children.getD i none with
      | none => pure (.inl (i + 1))
      | some c =>
        if false = true then rec c
        modRing r fun g => { g with children := g.children.set i none }
        pure (.inl (i + 1))) (fun _ => pure ()) (0 : Nat)) s
      (fun (_ : Unit) s' => Cleared s r (s.rings r).children.length s') E := by
  refine Post.forElseN (Q := fun (_ : Unit) s' => Cleared s r (s.rings r).children.length s')
    (fun k (i : Nat) s' => Cleared s r i s' ∧ i + k = (s.rings r).children.length)
    (fun k i s' hs' => ?_) (fun i s' hs' => Post.pure (by have := hs'.2; rw [Nat.add_zero] at this; rw [← this]; exact hs'.1))
    _ _ _ ⟨⟨rfl, fun _ => rfl, fun q => ?_⟩, by simp⟩
  · obtain ⟨hC, hik⟩ := hs'
    refine Post.bind (Post.getRing ?_)
    have hr : (s'.rings r).children = List.replicate i none ++ (s.rings r).children.drop i := by
      have := hC.kids (some r)
      rw [if_pos rfl] at this; exact this
    have hlt : i < (s.rings r).children.length := by omega
    have hd : (s.rings r).children.drop i = (s.rings r).children[i] :: (s.rings r).children.drop (i + 1) :=
      List.drop_eq_getElem_cons hlt
    have hset : (List.replicate i none ++ (s.rings r).children.drop i).set i none
        = List.replicate (i + 1) none ++ (s.rings r).children.drop (i + 1) := by
      rw [List.set_append_right _ _ (by simp), hd]
      simp [List.replicate_succ']
      rw [hd]; rfl
    have hget : (s'.rings r).children.getD i none = (s.rings r).children[i] := by
      rw [hr, List.getD_eq_getElem?_getD, List.getElem?_append_right (by simp), hd]; simp [hlt]
    rw [hget]
    split
    · next hc =>
      refine Post.pure ⟨⟨hC.nr, hC.par, fun q => ?_⟩, by omega⟩
      rw [hC.kids]
      split
      · rw [hd, hc, List.replicate_succ', List.append_assoc]; rfl
      · rfl
    · next c hc =>
      refine Post.bind (Post.modRing (Post.pure ⟨?_, by omega⟩))
      show Cleared s r (i + 1) (setKids s' (some r) fun l => l.set i none)
      refine ⟨by rw [nr_setKids, hC.nr], fun j => by rw [parent_setKids, hC.par], fun q => ?_⟩
      rw [kids_setKids, hC.kids]
      split
      · exact hset
      · rfl
  · split
    · next h => rw [h]; simp [Wagyu.kids, childrenIn]
    · rfl

/-- The statement about removing a ring. -/
def RemovedFrom (s : St) (r : Nat) (s' : St) : Prop :=
  Consistent s' ∧ (s'.rings r).node = none
    ∧ (∀ q, some r ∉ listed s' q) ∧ (∀ i, some i ∉ listed s' (some r))
    ∧ (∀ i, (s'.rings i).parent = (s.rings i).parent)
    ∧ ∀ i, i ≠ r → ∀ q, q ≠ some r → (listed s' q).count (some i) = (listed s q).count (some i)

theorem removed_of {s s1 s2 s' : St} {r : Nat} (h : Inv none' s) (hr : r < s.nr)
    (h1 : Cleared s r (s.rings r).children.length s1) (h2 : s2 = setKids s1 (s1.rings r).parent (removeFromChildren r))
    (h3 : SameForest s2 s') (hn : s'.nr = s2.nr) (hnode : (s'.rings r).node = none) : RemovedFrom s r s' := by
  have hk1 : ∀ q, kids s1 q = if q = some r then List.replicate (s.rings r).children.length none else kids s q := fun q => by
    rw [h1.kids, List.drop_length, List.append_nil]
  have hI1 : J none' s.nr s1 := (FR.less h1.nr h1.par fun q i => by
    unfold cnt; rw [hk1]
    split
    · rw [List.count_replicate]; simp
    · exact Nat.le_refl _ : FR none' s s1) s.nr ⟨h, Nat.le_refl _⟩
  have hJ : J (fun i => none' i ∨ i = r) s.nr s2 := h2 ▸ hI1.unlist (by rw [h1.nr]; exact hr)
  have hJ' : Inv (fun i => none' i ∨ i = r) s' := ((FR.same hn h3.2 h3.1 : FR (fun i => none' i ∨ i = r) s2 s') s.nr hJ).1
  have hpar : ∀ i, (s'.rings i).parent = (s.rings i).parent := fun i => by rw [h3.2, h2, parent_setKids, h1.par]
  have hk : ∀ q, listed s' q = if q = (s1.rings r).parent then removeFromChildren r (kids s1 q) else kids s1 q := fun q => by
    rw [h3.1]; show kids s2 q = _; rw [h2, kids_setKids]
  have hcon := (consistent_iff s').2 ⟨hJ'.once, hJ'.bound, fun i hi => hi.elim⟩
  have hunl : ∀ q, some r ∉ listed s' q := fun q hm => by
    have := (hJ'.free r (Or.inr rfl)).2 q
    have h2 : 0 < cnt s' q r := List.count_pos_iff.2 hm
    omega
  refine ⟨hcon, hnode, hunl, fun i hm => ?_, hpar, fun i hi q hq => ?_⟩
  · have hir : i ≠ r := fun he => hunl (some r) (he ▸ hm)
    have hc := List.count_pos_iff.2 hm
    rw [hk] at hc
    have : (kids s1 (some r)).count (some i) = 0 := by rw [hk1, if_pos rfl, List.count_replicate]; simp
    split at hc
    · rw [count_remove, if_neg hir] at hc; omega
    · omega
  · rw [hk]
    split
    · rw [count_remove, if_neg hi, hk1, if_neg hq]; rfl
    · rw [hk1, if_neg hq]; rfl

/-- **C34.** Removing (`remove_ring(ring, False)`, the only way it is called) an existing ring of a consistent forest
succeeds; afterwards the ring is listed nowhere, lists nothing and has no points; the lists of all other rings are the same up
to the removed ring; the forest is consistent. -/
theorem C34_remove (s : St) (r : Nat) (h : Consistent s) (hr : r < s.nr) (hf : 0 < s.fuel) :
    ∃ s', removeRingKeepChildren r s = .ok () s' ∧ RemovedFrom s r s' := by
  rw [consistent_iff] at h
  suffices hs : Post (removeRingKeepChildren r) s (fun _ s' => RemovedFrom s r s') (fun _ _ => False) by
    unfold Post at hs
    cases hm : removeRingKeepChildren r s with
    | ok a s' => rw [hm] at hs; exact ⟨s', rfl, hs⟩
    | err e s' => rw [hm] at hs; exact hs.elim
  unfold removeRingKeepChildren
  obtain ⟨n, hn⟩ : ∃ n, s.fuel = n + 1 := ⟨s.fuel - 1, by omega⟩
  refine Post.bind (Post.gets ?_)
  rw [hn, removeRing]
  refine Post.bind (Post.getRing ?_)
  refine Post.bind ((clearLoop_post (fun c => removeRing n c true false)).imp fun _ s1 h1 => ?_)
  refine Post.bind (Post.getRing (Post.bind (Post.modChildren (Post.modRing ?_))))
  refine removed_of h hr h1 rfl (Prims.ring (R := SameForest) _ _ _ rfl rfl) rfl ?_
  simp [upd, Ring.resetStats]

/-- **C34.** The same for `remove_ring_and_points(ring, False)`, when it returns. -/
theorem C34_remove_points (s s' : St) (r : Nat) (h : Consistent s) (hr : r < s.nr)
    (he : removeRingAndPointsKeepChildren r s = .ok () s') : RemovedFrom s r s' := by
  rw [consistent_iff] at h
  suffices hs : Ok (removeRingAndPointsKeepChildren r) s (fun _ s' => RemovedFrom s r s') from hs.elim he
  unfold removeRingAndPointsKeepChildren
  refine Post.bind (Post.gets ?_)
  generalize s.fuel = n
  cases n with
  | zero => exact trivial
  | succ n =>
  rw [removeRingAndPoints]
  refine Post.bind (Post.getRing ?_)
  refine Post.bind ((clearLoop_post (fun c => removeRingAndPoints n c true false)).imp fun _ s1 h1 => ?_)
  refine Post.bind (Post.getRing (Post.bind (Post.modChildren ?_)))
  generalize hs2 : setKids s1 (s1.rings r).parent (removeFromChildren r) = s2
  have hd := ((Post.of_pres (s := s2) (inferInstance : Pres SameForest (detachNodes r))).and
    ((Post.of_pres (s := s2) (inferInstance : Pres SameCount (detachNodes r))).mono (fun _ _ h => h) fun _ _ _ => trivial))
  refine Post.bind (hd.mono (fun _ s3 h3 => Post.modRing ?_) fun _ _ _ => trivial)
  refine removed_of h hr h1 hs2.symm (Preo.trans h3.1 (Prims.ring (R := SameForest) _ _ _ rfl rfl)) h3.2 ?_
  simp [upd, Ring.resetStats]

/-! Concrete cases: ring 1 is a hole of ring 0; ring 2, at the top level, has the same orientation as ring 0. -/

/-- A forest. -/
def threeRings : St :=
  { St.init 10 (fun _ => default) with
    nr := 3
    children := [some 0, none, some 2]
    rings := fun i =>
      if i = 0 then { Ring.fresh with children := [none, some 1], area := .fin 5 }
      else if i = 1 then { Ring.fresh with parent := some 0, area := .fin (-1), isHole := true }
      else { Ring.fresh with area := .fin 2 } }

theorem threeRings_consistent : Consistent threeRings := by
  have key : ∀ i p, some i ∈ listed threeRings p → (threeRings.rings i).parent = p ∧ (listed threeRings p).count (some i) = 1
      ∧ i < 3 := by
    intro i p hi
    match p with
    | none =>
      have : i = 0 ∨ i = 2 := by simpa [listed, childrenIn, threeRings] using hi
      rcases this with rfl | rfl <;> exact ⟨rfl, by decide, by decide⟩
    | some 0 =>
      have : i = 1 := by simpa [listed, childrenIn, threeRings] using hi
      subst this; exact ⟨rfl, by decide, by decide⟩
    | some 1 => simp [listed, childrenIn, threeRings, Ring.fresh] at hi
    | some (q + 2) => simp [listed, childrenIn, threeRings, Ring.fresh] at hi
  exact ⟨fun i p hi => ⟨(key i p hi).1, (key i p hi).2.1⟩, fun i p hi => (key i p hi).2.2⟩

example : match reassignAsChild 1 (some 2) threeRings with
    | .err _ s' => SameForest threeRings s'
    | .ok _ s' => Consistent s' ∧ (s'.rings 1).parent = some 2 ∧ (listed s' (some 2)).count (some 1) = 1
        ∧ (∀ q, q ≠ some 2 → some 1 ∉ listed s' q)
        ∧ ∀ i, i ≠ 1 → (s'.rings i).parent = (threeRings.rings i).parent
            ∧ ∀ q, (listed s' q).count (some i) = (listed threeRings q).count (some i) :=
  C34_reassign threeRings 1 (some 2) threeRings_consistent (by decide)

example : ∃ s', reassignAsChild 1 (some 2) threeRings = .ok () s' :=
  C34_refused threeRings 1 (some 2) (by decide) (fun q hq => by cases hq; decide) true rfl

example : reassignAsChild 2 (some 0) threeRings
    = .err (.runtime "Trying to re-assign a child that is the same orientation as the parent") threeRings :=
  C34_refused threeRings 2 (some 0) (by decide) (fun q hq => by cases hq; decide) false rfl

example : ∃ s', replaceRing 0 (some 2) threeRings = .ok () s' ∧ Consistent s' := by
  obtain ⟨s', h1, h2, _⟩ := C34_replace threeRings 0 (some 2) threeRings_consistent (by decide) (by decide) (by decide)
  exact ⟨s', h1, h2⟩

example : ∃ s', removeRingKeepChildren 0 threeRings = .ok () s' ∧ RemovedFrom threeRings 0 s' :=
  C34_remove threeRings 0 threeRings_consistent (by decide) (by decide)

/-- The ring of the hole is not listed any more when its parent is removed. -/
example : ∃ s', removeRingKeepChildren 0 threeRings = .ok () s' ∧ ∀ i, some i ∉ listed s' (some 0) := by
  obtain ⟨s', h1, h2⟩ := C34_remove threeRings 0 threeRings_consistent (by decide) (by decide)
  exact ⟨s', h1, h2.2.2.2.1⟩

example : match assignAsChild 3 (some 1) { threeRings with nr := 4 } with
    | .err _ s' => SameForest { threeRings with nr := 4 } s'
    | .ok _ s' => (listed s' (some 1)).count (some 3) = 1 := by
  have hc : Consistent { threeRings with nr := 4 } :=
    ⟨threeRings_consistent.1, fun i p hi => Nat.lt_succ_of_lt (threeRings_consistent.2 i p hi)⟩
  have := C34_assign { threeRings with nr := 4 } 3 (some 1) hc (by decide) fun q hq => by
    exact absurd (threeRings_consistent.2 3 q hq) (by decide)
  revert this
  cases assignAsChild 3 (some 1) { threeRings with nr := 4 } with
  | ok a s' => exact fun h => h.2.2.1
  | err e s' => exact id

end Wagyu
