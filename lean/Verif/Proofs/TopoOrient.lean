import Verif.Proofs.TopoInv
import Verif.Spec.Depth
import Verif.Proofs.ForestTopo
import Verif.Props.PointNodes

/-!
# Sorting the nodes, orienting the rings
-/

namespace Wagyu

open Spec

section
variable {s : St} {L : Nat → List Nat} {E : Err → Prop}

theorem Ends.forListRest {α : Type} {f : α → M Unit} (I : List α → St → Prop)
    (h : ∀ x rest s, I (x :: rest) s → Ends E (f x) s (fun _ s' => I rest s')) :
    ∀ (l : List α) (s : St), I l s → Ends E (Wagyu.forList l f) s (fun _ s' => I [] s')
  | [], _, hs => Ends.pure hs
  | a :: l, s, hs => by
    rw [Wagyu.forList]
    exact Ends.bind ((h a l s hs).imp fun _ s' hs' => Ends.forListRest I h l s' hs')

theorem ends_mapM' {α β : Type} {f : α → M β} (I : St → Prop) (g : β → α) : ∀ (l : List α) (s : St),
    (∀ a ∈ l, ∀ s, I s → Ends E (f a) s fun b s' => I s' ∧ g b = a) → I s →
    Ends E (mapM' f l) s fun bs s' => I s' ∧ bs.map g = l
  | [], s, _, hs => Ends.pure ⟨hs, rfl⟩
  | a :: l, s, h, hs => by
    rw [mapM']
    refine Ends.bind ((h a (by simp) s hs).imp ?_)
    rintro b s' ⟨h1, h2⟩
    refine Ends.bind ((ends_mapM' I g l s' (fun x hx => h x (by simp [hx])) h1).imp ?_)
    rintro bs s'' ⟨h3, h4⟩
    exact Ends.pure ⟨h3, by simp [h2, h4]⟩

theorem AtDepth.unique {parent : Nat → Option Nat} {r m n : Nat} (h : AtDepth parent r m) (h' : AtDepth parent r n) : m = n := by
  induction h generalizing n with
  | root h =>
    cases h' with
    | root => rfl
    | child h' _ => rw [h] at h'; cases h'
  | child h _ ih =>
    cases h' with
    | root h' => rw [h] at h'; cases h'
    | child h' hp' => rw [h] at h'; cases h'; rw [ih hp']

theorem depth_exists {h : Nat → Nat} (hh : ∀ r p, (s.rings r).parent = some p → h p < h r) (r : Nat) :
    ∃ d, AtDepth (fun r => (s.rings r).parent) r d := by
  have ex : ∀ n r, h r ≤ n → ∃ d, AtDepth (fun r => (s.rings r).parent) r d := by
    intro n
    induction n with
    | zero =>
      intro r hr
      cases hp : (s.rings r).parent with
      | none => exact ⟨0, .root hp⟩
      | some p => have := hh r p hp; omega
    | succ n ih =>
      intro r hr
      cases hp : (s.rings r).parent with
      | none => exact ⟨0, .root hp⟩
      | some p =>
        have := hh r p hp
        obtain ⟨d, hd⟩ := ih p (by omega)
        exact ⟨d + 1, .child hp hd⟩
  exact ex _ r (Nat.le_refl _)

theorem ends_ringDepth {h : Nat → Nat} (hh : ∀ r p, (s.rings r).parent = some p → h p < h r) (r : Nat) :
    Ends E (ringDepth r) s fun d s' => s' = s ∧ AtDepth (fun r => (s.rings r).parent) r d := by
  obtain ⟨d, hd⟩ := depth_exists hh r
  unfold ringDepth
  refine Ends.bind (Ends.getRing ?_)
  refine Ends.loopN (fun n (c : Option Nat × Nat) s' => s' = s ∧ c.2 + n = d ∧ match c.1 with
      | none => n = 0
      | some c => ∃ m, n = m + 1 ∧ AtDepth (fun r => (s.rings r).parent) c m) (fun n c s1 hI => ?_) (n := d) ⟨rfl, by simp, ?_⟩
  · obtain ⟨rfl, hn, hm⟩ := hI
    obtain ⟨c, e⟩ := c
    cases c with
    | none => simp only at hm hn; exact Ends.pure ⟨rfl, by rw [hm] at hn; rw [show e = d from hn]; exact hd⟩
    | some c =>
      obtain ⟨m, rfl, hm⟩ := hm
      refine Ends.bind (Ends.getRing (Ends.pure ⟨m, by omega, rfl, by simp only at hn ⊢; omega, ?_⟩))
      cases hm with
      | root hp => simp only [hp]
      | child hp hm' => simp only [hp]; exact ⟨_, rfl, hm'⟩
  · cases hd with
    | root hp => simp only [hp]
    | child hp hm' => simp only [hp]; exact ⟨_, rfl, hm'⟩

/-! ## Sorting -/

theorem ends_sortAllNodes {h : Nat → Nat} (hh : ∀ r p, (s.rings r).parent = some p → h p < h r)
    (hlab : ∀ i ∈ s.allNodes, ∃ r, (s.nodes i).ring = some r) :
    Ends E sortAllNodes s fun _ s' => ∃ l, s' = { s with allNodes := l } ∧ l.Perm s.allNodes := by
  unfold sortAllNodes
  refine Ends.bind (Ends.gets (fun _ _ => rfl) (Ends.bind ((ends_mapM' (E := E) (fun s' => s' = s) Prod.fst s.allNodes s ?_ rfl).imp ?_)))
  · rintro i hi s rfl
    obtain ⟨r, hr⟩ := hlab i hi
    refine Ends.bind (Ends.pointOf (Ends.bind (Ends.getNode (Ends.bind (Ends.deref hr (Ends.bind ((ends_ringDepth hh r).imp ?_)))))))
    rintro d s ⟨rfl, -⟩
    exact Ends.pure ⟨rfl, rfl⟩
  · rintro bs s' ⟨rfl, h2⟩
    refine Ends.modify (fun _ _ => rfl) ⟨_, rfl, ?_⟩
    have := (pySorted_perm nodeLt bs).map Prod.fst
    rw [h2] at this
    exact this

/-! ## Orienting -/

/-- A circular list the other way round, from the same node. -/
def flip : List Nat → List Nat
  | [] => []
  | a :: t => a :: t.reverse

theorem flip_perm (l : List Nat) : (flip l).Perm l := by
  cases l with
  | nil => exact List.Perm.refl _
  | cons a t => exact (List.reverse_perm t).cons a

theorem area2_flip (h : Nat → Node) (l : List Nat) : area2 (pointsOf h (flip l)) = - area2 (pointsOf h l) := by
  cases l with
  | nil => rfl
  | cons a t =>
    rw [← C20_area_reverse, ← C20_area_rotation (pointsOf h (a :: t)).reverse (pointsOf h t).length]
    congr 1
    have : (pointsOf h (a :: t)).reverse = (pointsOf h t).reverse ++ [locOf h a] := by simp [pointsOf]
    rw [this, show (pointsOf h t).length = (pointsOf h t).reverse.length by simp, List.rotate_append_length_eq]
    simp [flip, pointsOf]

theorem ends_reverseNodes {a : Nat} {t : List Nat} (hl : IsCycle s.nodes (a :: t)) :
    Ends E (reverseNodes a) s fun _ s' => s' = { s with nodes := swapLinks (a :: t) s.nodes } :=
  Ends.run (t.length + 1) (fun k hk => reverseNodes_run (s := s.wf k) hl (by show t.length < k; omega)) rfl

/-- What becomes of a ring at depth `d` with the nodes `l`. -/
def oriented (nodes : Nat → Node) (d : Nat) (l : List Nat) : List Nat :=
  if l.length < 3 then [] else if isOdd d ≠ decide (area2 (pointsOf nodes l) ≤ 0) then flip l else l

/-- The frame of the correction of orientations. -/
structure Turned (s s' : St) : Prop where
  nn : s'.nn = s.nn
  nr : s'.nr = s.nr
  all : s'.allNodes = s.allNodes
  loc : ∀ i, locOf s'.nodes i = locOf s.nodes i
  par : ∀ r, (s'.rings r).parent = (s.rings r).parent
  mark : ∀ r, (s'.rings r).corrected = (s.rings r).corrected

theorem Turned.refl (s : St) : Turned s s := ⟨rfl, rfl, rfl, fun _ => rfl, fun _ => rfl, fun _ => rfl⟩
theorem Turned.trans {a b c : St} (h : Turned a b) (k : Turned b c) : Turned a c :=
  ⟨k.nn.trans h.nn, k.nr.trans h.nr, k.all.trans h.all, fun i => (k.loc i).trans (h.loc i), fun i => (k.par i).trans (h.par i),
    fun i => (k.mark i).trans (h.mark i)⟩

theorem OnlyStats.turned {s s' : St} (h : OnlyStats s s') : Turned s s' :=
  ⟨h.nn, h.nr, h.allNodes, fun i => by rw [h.nodes], h.parent, h.corrected⟩

theorem pointsOf_congr {h h' : Nat → Node} (e : ∀ i, locOf h' i = locOf h i) (l : List Nat) : pointsOf h' l = pointsOf h l :=
  List.map_congr_left fun i _ => e i

theorem discard_loc (l : List Nat) (h : Nat → Node) (i : Nat) : locOf (discard l h) i = locOf h i := by
  simp only [discard, locOf]
  split <;> rfl

theorem StatsOf.hole_iff {h : Nat → Node} {l : List Nat} {g : Ring} (hs : StatsOf h l g) :
    g.isHole = decide (area2 (pointsOf h l) ≤ 0) := by
  rw [hs.hole, hs.area, Bool.eq_iff_iff, (C20_area_sign _).2]; simp

theorem StatsOf.notNan {h : Nat → Node} {l : List Nat} {g : Ring} (hs : StatsOf h l g) : g.area.isNan = false := by
  rw [hs.area, intDiv]
  unfold fl
  split
  · rfl
  · simp only
    split
    · rfl
    · split <;> rfl

/-- One ring. -/
structure TurnedRing (s : St) (L : Nat → List Nat) (r d : Nat) (s' : St) : Prop where
  frame : Turned s s'
  own : Own s' (upd L r (oriented s.nodes d (L r)))
  keep : ∀ k, k ≠ r → { s'.rings k with children := (s.rings k).children } = s.rings k
  stats : oriented s.nodes d (L r) ≠ [] → StatsOf s'.nodes (oriented s.nodes d (L r)) (s'.rings r)
  blank : oriented s.nodes d (L r) = [] → L r = [] ∧ s'.rings r = s.rings r ∨ (s'.rings r).resetStats = s'.rings r

/-- The body of the loop. -/
def orientRing (r : Nat) : M Unit := do
  match (← getRing r).node with
  | none => pure ()
  | some _ =>
    recalculateStats r
    if (← ringSize r) < 3 then removeRingAndPointsKeepChildren r
    else
      let d ← ringDepth r
      let h ← ringIsHole r
      if isOdd d ≠ h then
        let n ← deref (← getRing r).node
        reverseNodes n
        recalculateStats r

theorem ends_orientRing {h : Nat → Nat} (hh : ∀ r p, (s.rings r).parent = some p → h p < h r) (hL : Own s L) {r d : Nat}
    (hd : AtDepth (fun r => (s.rings r).parent) r d) : Ends E (orientRing r) s fun _ s' => TurnedRing s L r d s' := by
  have same : ∀ {l}, l = L r → upd L r l = L := by rintro l rfl; funext k; unfold upd; split <;> simp_all
  unfold orientRing
  refine Ends.bind (Ends.getRing ?_)
  have hn : (s.rings r).node = (L r).head? := hL.head r
  rw [hn]
  cases hl : L r with
  | nil =>
    have ho : oriented s.nodes d (L r) = [] := by rw [hl]; rfl
    exact Ends.pure ⟨Turned.refl s, by rw [ho, same hl.symm]; exact hL, fun _ _ => rfl, fun e => absurd ho e, fun _ => Or.inl ⟨hl, rfl⟩⟩
  | cons a t =>
    have hne : L r ≠ [] := by rw [hl]; simp
    have hc := (hL.cycle r hne).2
    refine Ends.bind ((ends_recalculateStats hL r).imp ?_)
    rintro _ s1 ⟨h1, h2, h3, -⟩
    have hs1 := h3 hne
    have hL1 := h1.own hL
    refine Ends.bind ((ends_ringSize hL1 r).imp ?_)
    rintro _ s2 ⟨rfl, h4⟩
    obtain rfl := h4.known hs1.notNan
    have hk : ∀ k, k ≠ r → { s2.rings k with children := (s.rings k).children } = s.rings k := fun k hk => by rw [h2 k hk]
    refine Ends.ite (fun hsz => ?_) fun hsz => ?_
    · rw [hs1.size] at hsz
      have ho : oriented s.nodes d (L r) = [] := by unfold oriented; rw [if_pos hsz]
      refine (ends_removeRingAndPoints hL1 r).imp fun _ s3 h5 => ⟨?_, by rw [ho]; exact h5.own hL1, fun k hk' => ?_, fun e => absurd ho e, fun _ => Or.inr ?_⟩
      · have g5 : Gone r { s2 with nodes := discard (L r) s2.nodes } s3 := h5
        refine h1.turned.trans ⟨g5.nn, g5.nr, g5.allNodes, fun i => by rw [g5.nodes]; exact discard_loc _ _ _, g5.parent, g5.corrected⟩
      · have g5 : Gone r { s2 with nodes := discard (L r) s2.nodes } s3 := h5
        have := g5.other hk'
        dsimp only at this
        rw [← h2 k hk', ← this]
      · have g5 : Gone r { s2 with nodes := discard (L r) s2.nodes } s3 := h5
        exact g5.statless
    · rw [hs1.size] at hsz
      refine Ends.bind ((ends_ringDepth (fun r p hp => hh r p (by rw [← h1.parent]; exact hp)) r).imp ?_)
      rintro d' s3 ⟨rfl, hd'⟩
      have hpar : (fun r => (s3.rings r).parent) = fun r => (s.rings r).parent := funext h1.parent
      rw [hpar] at hd'
      obtain rfl := AtDepth.unique hd' hd
      refine Ends.bind ((ends_ringIsHole hL1 r).imp ?_)
      rintro _ s4 ⟨rfl, h6⟩
      obtain rfl := h6.known hs1.notNan
      rw [hs1.hole_iff]
      refine Ends.ite (fun hor => ?_) fun hor => ?_
      · have ho : oriented s.nodes d' (L r) = flip (L r) := by unfold oriented; rw [if_neg hsz, if_pos hor]
        have hcyc := (hL1.cycle r hne).2
        rw [hl] at hcyc
        have hn4 : (s4.rings r).node = some a := by rw [h1.node, hn, hl]; rfl
        refine Ends.bind (Ends.getRing (Ends.bind (Ends.deref hn4 (Ends.bind ((ends_reverseNodes hcyc).imp ?_)))))
        rintro _ s5 rfl
        have hol := onlyLinksOf_swapLinks (a :: t) s4.nodes
        have hloc : ∀ i, locOf (swapLinks (a :: t) s4.nodes) i = locOf s4.nodes i := fun i => by
          unfold locOf; rw [(hol.1 i).1, (hol.1 i).2.1]
        have hL5 : Own { s4 with nodes := swapLinks (a :: t) s4.nodes } (upd L r (flip (L r))) := by
          refine hL1.update (· = r) _ rfl (Nat.le_refl _) (fun k hk => Wagyu.upd_ne _ _ hk) (fun _ _ => rfl) (fun i hi => ?_) ?_ ?_ ?_ ?_
          · have := hi r rfl
            rw [hl] at this
            exact hol.2 i this
          · rintro _ rfl; rw [Wagyu.upd_same, hl]; exact hn4
          · rintro _ rfl -
            rw [Wagyu.upd_same]
            refine ⟨(hL1.cycle _ hne).1, ?_⟩
            rw [hl]; exact isCycle_swapLinks hcyc
          · rintro _ rfl i hi
            rw [Wagyu.upd_same, (flip_perm _).mem_iff] at hi
            exact ⟨⟨_, rfl, hi⟩, by show (swapLinks (a :: t) s4.nodes i).ring = _; rw [(hol.1 i).2.2]; exact (hL1.own _ i hi).2⟩
          · rintro _ rfl i hi k hk
            have : (swapLinks (a :: t) s4.nodes i).ring = some k := hk
            rw [(hol.1 i).2.2, (hL1.own _ i hi).2] at this
            cases this
            exact ⟨rfl, by rw [Wagyu.upd_same, (flip_perm _).mem_iff]; exact hi⟩
        refine (ends_recalculateStats hL5 r).imp ?_
        rintro _ s6 ⟨h7, h8, h9, -⟩
        refine ⟨?_, by rw [ho]; exact h7.own hL5, fun k hk' => ?_, fun e => ?_, fun e => ?_⟩
        · have e1 : Turned s4 { s4 with nodes := swapLinks (a :: t) s4.nodes } := ⟨rfl, rfl, rfl, hloc, fun _ => rfl, fun _ => rfl⟩
          exact h1.turned.trans (e1.trans h7.turned)
        · rw [h8 k hk']; exact hk k hk'
        · rw [ho] at e ⊢
          rw [h7.nodes]
          have := h9 (by rw [Wagyu.upd_same]; exact e)
          rw [Wagyu.upd_same] at this
          exact this
        · rw [ho] at e
          exact absurd (List.eq_nil_of_length_eq_zero (by rw [← (flip_perm (L r)).length_eq, e]; rfl)) hne
      · have ho : oriented s.nodes d' (L r) = L r := by unfold oriented; rw [if_neg hsz, if_neg hor]
        exact Ends.pure ⟨h1.turned, by rw [ho, same rfl]; exact hL1, hk, fun _ => by rw [ho, h1.nodes]; exact hs1, fun e => absurd (ho.symm.trans e) hne⟩

/-- What `correct_orientations` does. -/
structure Orients (s : St) (L : Nat → List Nat) (s' : St) (L' : Nat → List Nat) : Prop where
  frame : Turned s s'
  own : Own s' L'
  lists : ∀ r d, AtDepth (fun r => (s.rings r).parent) r d → L' r = oriented s.nodes d (L r)
  stats : ∀ r, L' r ≠ [] → StatsOf s'.nodes (L' r) (s'.rings r)
  blank : (∀ r, (s.rings r).resetStats = s.rings r) → ∀ r, L' r = [] → (s'.rings r).resetStats = s'.rings r

theorem ends_correctOrientations {h : Nat → Nat} (hh : ∀ r p, (s.rings r).parent = some p → h p < h r) (hL : Own s L) :
    Ends E correctOrientations s fun _ s' => ∃ L', Orients s L s' L' := by
  unfold correctOrientations
  refine Ends.bind (Ends.gets (fun _ _ => rfl) ?_)
  refine (Ends.forListRest (E := E) (f := orientRing) (fun rest s' => ∃ L', Turned s s' ∧ Own s' L' ∧ rest.Nodup
      ∧ (∀ r, r ∈ rest → L' r = L r)
      ∧ (∀ r, r ∉ rest → ∀ d, AtDepth (fun r => (s.rings r).parent) r d → L' r = oriented s.nodes d (L r))
      ∧ (∀ r, r ∉ rest → L' r ≠ [] → StatsOf s'.nodes (L' r) (s'.rings r))
      ∧ ((∀ r, (s.rings r).resetStats = s.rings r) → ∀ r, r ∈ rest ∨ L' r = [] → (s'.rings r).resetStats = s'.rings r)) ?_ (List.range s.nr) s ?_).imp ?_
  · rintro r rest s1 ⟨L1, h1, h2, h3, h4, h5, h6, h7⟩
    have hpar : (fun r => (s1.rings r).parent) = fun r => (s.rings r).parent := funext h1.par
    obtain ⟨d, hd⟩ := depth_exists hh r
    have hh1 : ∀ r p, (s1.rings r).parent = some p → h p < h r := fun r p hp => hh r p (by rw [← h1.par]; exact hp)
    refine (ends_orientRing hh1 h2 (r := r) (d := d) (by rw [hpar]; exact hd)).imp ?_
    rintro _ s2 ⟨k1, k2, k3, k4, k5⟩
    have hor : oriented s1.nodes d (L1 r) = oriented s.nodes d (L r) := by
      rw [h4 r (by simp)]
      unfold oriented
      rw [pointsOf_congr h1.loc]
    rw [hor] at k2 k4 k5
    obtain ⟨hr, hnd⟩ := List.nodup_cons.1 h3
    refine ⟨upd L1 r (oriented s.nodes d (L r)), h1.trans k1, k2, hnd, fun k hk => ?_, fun k hk d' hd' => ?_, fun k hk hne => ?_, fun hb k hk => ?_⟩
    · have : k ≠ r := fun e => hr (e ▸ hk)
      rw [Wagyu.upd_ne _ _ this]
      exact h4 k (by simp [hk])
    · by_cases e : k = r
      · subst e; rw [Wagyu.upd_same, AtDepth.unique hd' hd]
      · rw [Wagyu.upd_ne _ _ e]; exact h5 k (by simp [e, hk]) d' hd'
    · by_cases e : k = r
      · subst e; rw [Wagyu.upd_same] at hne ⊢; exact k4 hne
      · rw [Wagyu.upd_ne _ _ e] at hne ⊢
        have a1 := h6 k (by simp [e, hk]) hne
        have a2 := k3 k e
        have a3 : pointsOf s2.nodes (L1 k) = pointsOf s1.nodes (L1 k) := pointsOf_congr k1.loc _
        have b1 := congrArg Ring.area a2
        have b2 := congrArg Ring.size a2
        have b3 := congrArg Ring.isHole a2
        have b4 := congrArg Ring.box a2
        dsimp only at b1 b2 b3 b4
        exact ⟨by rw [a3, b1]; exact a1.area, by rw [b2]; exact a1.size, by rw [b3, b1]; exact a1.hole, by rw [a3, b4]; exact a1.box⟩
    · by_cases e : k = r
      · subst e
        rw [Wagyu.upd_same] at hk
        rcases k5 (hk.resolve_left hr) with ⟨e1, e2⟩ | e1
        · rw [e2]; exact h7 hb k (Or.inl (by simp))
        · exact e1
      · rw [Wagyu.upd_ne _ _ e] at hk
        have a1 := h7 hb k (hk.imp (fun e => by simp [e]) id)
        rw [← k3 k e] at a1
        have b1 := congrArg Ring.area a1
        have b2 := congrArg Ring.size a1
        have b3 := congrArg Ring.isHole a1
        have b4 := congrArg Ring.box a1
        unfold Ring.resetStats at b1 b2 b3 b4 ⊢
        dsimp only at b1 b2 b3 b4
        rw [b1, b2, b3, b4]
  · refine ⟨L, Turned.refl s, hL, List.nodup_range, fun _ _ => rfl, fun r hr d _ => ?_, fun r hr hne => ?_, fun hb r _ => hb r⟩
    · have : L r = [] := hL.big (by simpa using hr)
      rw [this]; rfl
    · exact absurd (hL.big (by simpa using hr)) hne
  · rintro _ s' ⟨L', h1, h2, -, -, h5, h6, h7⟩
    exact ⟨L', h1, h2, fun r d hd => h5 r (by simp) d hd, fun r hr => h6 r (by simp) hr, fun hb r hr => h7 hb r (Or.inr hr)⟩

end

end Wagyu
