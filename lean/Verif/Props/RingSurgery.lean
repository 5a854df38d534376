import Verif.Proofs.Append
import Verif.Props.PointNodes

/-!
# C22, C23: joining two rings at a local maximum, cutting a ring at a repeated point
-/

namespace Wagyu

open Spec

/-! ## Comparing rounded areas -/

theorem intDiv_abs (n : ℤ) : (intDiv n 2).abs = intDiv |n| 2 := by
  unfold intDiv
  have b := pow2_pos 1024
  rcases le_or_gt 0 n with h | h
  · rw [abs_of_nonneg h, fl_eq]
    have hq : (0 : ℚ) ≤ (n : ℚ) / ((2 : ℤ) : ℚ) := by
      have : (0 : ℚ) ≤ n := by exact_mod_cast h
      positivity
    have hv := flv_nonneg hq
    have c2 : ¬ flv ((n : ℚ) / ((2 : ℤ) : ℚ)) ≤ -pow2 1024 := by linarith
    rw [if_neg c2]
    split
    · rfl
    · simp only [F64.abs]; rw [if_neg (not_lt.2 hv)]
  · have hq : (n : ℚ) / ((2 : ℤ) : ℚ) = -(((|n| : ℤ) : ℚ) / ((2 : ℤ) : ℚ)) := by
      rw [abs_of_neg h]; push_cast; ring
    have hq0 : (0 : ℚ) ≤ ((|n| : ℤ) : ℚ) / ((2 : ℤ) : ℚ) := by positivity
    rw [hq, fl_eq, fl_eq, flv_neg]
    have hv := flv_nonneg hq0
    set v := flv (((|n| : ℤ) : ℚ) / ((2 : ℤ) : ℚ))
    have c1 : ¬ pow2 1024 ≤ -v := by linarith
    have c3 : ¬ v ≤ -pow2 1024 := by linarith
    rw [if_neg c1, if_neg c3]
    by_cases c2 : pow2 1024 ≤ v
    · rw [if_pos c2, if_pos (by linarith)]; rfl
    · rw [if_neg c2, if_neg (by linarith)]
      simp only [F64.abs]
      rcases hv.eq_or_lt with h0 | h0
      · rw [← h0]; simp
      · rw [if_pos (by linarith)]; simp

theorem intDiv_mono {m n : ℤ} (hm : 0 ≤ m) (h : m ≤ n) : F64.lt (intDiv n 2) (intDiv m 2) = false := by
  unfold intDiv
  have hq : (m : ℚ) / ((2 : ℤ) : ℚ) ≤ (n : ℚ) / ((2 : ℤ) : ℚ) := by
    have : (m : ℚ) ≤ n := by exact_mod_cast h
    push_cast; linarith
  have hq0 : (0 : ℚ) ≤ (m : ℚ) / ((2 : ℤ) : ℚ) := by
    have : (0 : ℚ) ≤ m := by exact_mod_cast hm
    positivity
  have hv := flv_mono hq
  have hv0 := flv_nonneg hq0
  have b := pow2_pos 1024
  rw [fl_eq, fl_eq, if_neg (c := flv ((m : ℚ) / ((2 : ℤ) : ℚ)) ≤ -pow2 1024) (by linarith),
    if_neg (c := flv ((n : ℚ) / ((2 : ℤ) : ℚ)) ≤ -pow2 1024) (by linarith)]
  split
  · split <;> rfl
  · split
    · exfalso; linarith
    · simp only [F64.lt]; exact decide_eq_false (not_lt.2 hv)

/-- If a computed area is smaller in absolute value, so is the exact one. -/
theorem lt_of_rounded {m n : ℤ} (h : F64.lt (intDiv m 2).abs (intDiv n 2).abs = true) : |m| < |n| := by
  by_contra hc
  rw [intDiv_abs, intDiv_abs, intDiv_mono (abs_nonneg n) (not_lt.1 hc)] at h
  exact Bool.noConfusion h

theorem le_of_not_rounded {m n : ℤ} (hm : |m| ≤ 2 ^ 53) (hn : |n| ≤ 2 ^ 53)
    (h : F64.lt (intDiv m 2).abs (intDiv n 2).abs = false) : |n| ≤ |m| := by
  rw [intDiv_abs, intDiv_abs, C20_area_exact |m| (by simpa using hm), C20_area_exact |n| (by simpa using hn)] at h
  simp only [F64.lt, decide_eq_false_iff_not, not_lt] at h
  have : (|n| : ℚ) ≤ (|m| : ℚ) := by push_cast at h; linarith
  exact_mod_cast this

theorem lt_asymm' (a b : F64) (h : F64.lt a b = true) : F64.lt b a = false := by
  cases a with
  | fin x => cases b with
    | fin y => simp [F64.lt] at h ⊢; exact h.le
    | inf n => cases n <;> simp_all [F64.lt]
    | nan => simp [F64.lt] at h
  | inf n => cases b with
    | fin y => cases n <;> simp_all [F64.lt]
    | inf m => cases n <;> cases m <;> simp_all [F64.lt]
    | nan => cases n <;> simp_all [F64.lt]
  | nan => simp [F64.lt] at h

/-! ## C22 -/

/-- **C22.** When `append_ring` joins the rings `f` (nodes `a, t`) and `g` (nodes `b, u`) of two bounds, one of them is kept:
its nodes are those of both rings, joined according to the sides of the bounds, all of them marked as belonging to it; the
other ring has no nodes any more; no node is moved and no other node or ring of nodes is touched. -/
theorem C22_append (s s' : St) (first second f g a b : Nat) (t u : List Nat)
    (hbf : (s.bounds first).ring = some f) (hbg : (s.bounds second).ring = some g) (hfg : f ≠ g)
    (hf : (s.rings f).node = some a) (hg : (s.rings g).node = some b)
    (ca : IsCycle s.nodes (a :: t)) (cb : IsCycle s.nodes (b :: u)) (hd : ∀ i ∈ a :: t, i ∉ b :: u)
    (hfuel : (a :: t).length + (b :: u).length ≤ s.fuel) (hrun : appendRing first second s = .ok () s') :
    ∃ keep remove L,
      ((keep = f ∧ remove = g ∧ L = joinedNodes (s.bounds first).side (s.bounds second).side (a :: t) (b :: u))
        ∨ (keep = g ∧ remove = f ∧ L = joinedNodes (s.bounds second).side (s.bounds first).side (b :: u) (a :: t)))
      ∧ IsCycle s'.nodes L ∧ (s'.rings keep).node = L.head? ∧ (s'.rings remove).node = none
      ∧ (∀ i ∈ L, (s'.nodes i).ring = some keep)
      ∧ (∀ i, locOf s'.nodes i = locOf s.nodes i) ∧ (∀ i, i ∉ L → s'.nodes i = s.nodes i)
      ∧ (∀ k, k ≠ keep → k ≠ remove → (s'.rings k).node = (s.rings k).node) := by
  -- the part after the choice of the ring to be kept
  have main : ∀ (s₀ : St) (kb rb k r a b : Nat) (t u : List Nat), (∃ q, s₀ = { s with rings := q }) →
      k ≠ r → (s₀.rings k).node = some a → (s₀.rings r).node = some b → IsCycle s.nodes (a :: t) → IsCycle s.nodes (b :: u) →
      (∀ i ∈ a :: t, i ∉ b :: u) → (a :: t).length + (b :: u).length ≤ s.fuel →
      Ok (do
        let ks := (← getBound kb).side
        let rs := (← getBound rb).side
        joinNodes k r ks rs
        modRing k fun g => { g with bottomNode := none }
        let keepIsHole := isOdd (← ringDepth k)
        let removeIsHole := isOdd (← ringDepth r)
        modRing r fun g => { g with node := none, bottomNode := none }
        if keepIsHole ≠ removeIsHole then
          let p := (← getRing k).parent
          replaceRing r p
        else replaceRing r (some k)
        updatePoints k
        modBound rb fun bd => { bd with ring := none }
        modBound kb fun bd => { bd with ring := none }
        let abl ← gets St.abl
        reattach r k kb abl : M Unit) s₀ fun _ s' =>
          let L := joinedNodes (s.bounds kb).side (s.bounds rb).side (a :: t) (b :: u)
          IsCycle s'.nodes L ∧ (s'.rings k).node = L.head? ∧ (s'.rings r).node = none
          ∧ (∀ i ∈ L, (s'.nodes i).ring = some k)
          ∧ (∀ i, locOf s'.nodes i = locOf s.nodes i) ∧ (∀ i, i ∉ L → s'.nodes i = s.nodes i)
          ∧ (∀ j, j ≠ k → j ≠ r → (s'.rings j).node = (s₀.rings j).node) := by
    rintro s₀ kb rb k r a b t u ⟨q, rfl⟩ hkr hk hr ca cb hd hfuel
    refine Post.bind (Post.getBound (Post.bind (Post.getBound (Post.bind ?_))))
    obtain ⟨h', run, hcyc, hol, hhead⟩ := joinNodes_run (s := { s with rings := q }) (s.bounds kb).side (s.bounds rb).side
      hk hr ca cb hd (by simp at hfuel ⊢; omega)
    refine Post.run run ?_
    set L := joinedNodes (s.bounds kb).side (s.bounds rb).side (a :: t) (b :: u) with hL
    set q1 : Nat → Ring := if (s.bounds kb).side = .left then upd q k { q k with node := L.head? } else q with hq1
    have hq1k : (q1 k).node = L.head? := by
      rw [hq1]
      by_cases e : (s.bounds kb).side = .left
      · rw [if_pos e, upd_same]
      · rw [if_neg e, hhead (by cases h : (s.bounds kb).side <;> simp_all)]; exact hk
    have hq1o : ∀ j, j ≠ k → (q1 j).node = (q j).node := fun j hj => by
      rw [hq1]
      split
      · rw [upd_ne _ _ hj]
      · rfl
    refine Post.bind (Post.modRing (Post.bind ?_))
    refine (Post.of_pres (R := Eq) (Pres.ringDepth k)).mono ?_ fun _ _ _ => trivial
    rintro d1 _ rfl
    refine Post.bind ((Post.of_pres (R := Eq) (Pres.ringDepth r)).mono ?_ fun _ _ _ => trivial)
    rintro d2 _ rfl
    refine Post.bind (Post.modRing ?_)
    -- replaceRing, in both cases
    set q2 : Nat → Ring := upd (upd q1 k { q1 k with bottomNode := none }) r
      { upd q1 k { q1 k with bottomNode := none } r with node := none, bottomNode := none } with hq2
    have hq2k : (q2 k).node = L.head? := by rw [hq2, upd_ne _ _ hkr, upd_same]; exact hq1k
    have hq2o : ∀ j, j ≠ k → j ≠ r → (q2 j).node = (q j).node := fun j h1 h2 => by
      rw [hq2, upd_ne _ _ h2, upd_ne _ _ h1]; exact hq1o j h1
    have hrep : ∀ p, Ok (replaceRing r p) { s with nodes := h', rings := q2 } fun _ s₂ => ∃ q3 ch,
        s₂ = { s with nodes := h', rings := q3, children := ch } ∧ (q3 k).node = L.head? ∧ (q3 r).node = none
          ∧ ∀ j, j ≠ k → j ≠ r → (q3 j).node = (q j).node := fun p => by
      refine (replaceRing_node r p _).imp ?_
      rintro _ s₂ ⟨⟨q3, ch, rfl, h3⟩, h4⟩
      exact ⟨q3, ch, rfl, (h3 k hkr).trans hq2k, h4, fun j h1 h2 => (h3 j h2).trans (hq2o j h1 h2)⟩
    suffices htail : ∀ (_ : Unit) s₂, (∃ q3 ch,
        s₂ = { s with nodes := h', rings := q3, children := ch } ∧ (q3 k).node = L.head? ∧ (q3 r).node = none
          ∧ ∀ j, j ≠ k → j ≠ r → (q3 j).node = (q j).node) → Ok (do
        updatePoints k
        modBound rb fun bd => { bd with ring := none }
        modBound kb fun bd => { bd with ring := none }
        let abl ← gets St.abl
        reattach r k kb abl : M Unit) s₂ fun _ s' => IsCycle s'.nodes L ∧ (s'.rings k).node = L.head? ∧ (s'.rings r).node = none
          ∧ (∀ i ∈ L, (s'.nodes i).ring = some k)
          ∧ (∀ i, locOf s'.nodes i = locOf s.nodes i) ∧ (∀ i, i ∉ L → s'.nodes i = s.nodes i)
          ∧ (∀ j, j ≠ k → j ≠ r → (s'.rings j).node = (q j).node) from
      Post.ite (fun _ => Post.bind (Post.getRing (Post.bind ((hrep _).imp htail)))) fun _ => Post.bind ((hrep _).imp htail)
    rintro _ s₂ ⟨q3, ch, rfl, hk3, hr3, ho3⟩
    obtain ⟨c, L', hLc⟩ : ∃ c L', L = c :: L' := by
      cases hc : L with
      | nil => rw [hc] at hcyc; exact hcyc.elim
      | cons c L' => exact ⟨c, L', rfl⟩
    have hlen : L.length = (a :: t).length + (b :: u).length := by
      rw [hL]; unfold joinedNodes
      split <;> split <;> simp <;> omega
    have hup := updatePoints_run (s := { s with nodes := h', rings := q3, children := ch }) (r := k) (a := c) (t := L')
      (by show (q3 k).node = _; rw [hk3, hLc]; rfl) (hLc ▸ hcyc)
      (by rw [hLc] at hlen; simp at hlen hfuel ⊢; omega)
    refine Post.bind (Post.run hup ?_)
    refine Post.bind (Post.modBound (Post.bind (Post.modBound (Post.bind (Post.gets ?_)))))
    refine (reattach_frame _ _ _ _ _).imp ?_
    rintro _ s₃ ⟨bs, rfl⟩
    refine ⟨isCycle_withRing hcyc, hk3, hr3, ?_, ?_, ?_, ho3⟩
    · intro i hi
      show (withRing (c :: L') (some k) h' i).ring = _
      rw [← hLc]; unfold withRing; rw [if_pos hi]
    · intro i
      show locOf (withRing (c :: L') (some k) h') i = _
      have := hol.1 i
      unfold locOf withRing; split <;> (rw [this.1, this.2.1])
    · intro i hi
      show withRing (c :: L') (some k) h' i = _
      rw [← hLc]; unfold withRing; rw [if_neg hi]; exact hol.2 i hi
  have hpost : Ok (appendRing first second) s fun _ s' => ∃ keep remove L,
      ((keep = f ∧ remove = g ∧ L = joinedNodes (s.bounds first).side (s.bounds second).side (a :: t) (b :: u))
        ∨ (keep = g ∧ remove = f ∧ L = joinedNodes (s.bounds second).side (s.bounds first).side (b :: u) (a :: t)))
      ∧ IsCycle s'.nodes L ∧ (s'.rings keep).node = L.head? ∧ (s'.rings remove).node = none
      ∧ (∀ i ∈ L, (s'.nodes i).ring = some keep)
      ∧ (∀ i, locOf s'.nodes i = locOf s.nodes i) ∧ (∀ i, i ∉ L → s'.nodes i = s.nodes i)
      ∧ (∀ k, k ≠ keep → k ≠ remove → (s'.rings k).node = (s.rings k).node) := by
    unfold appendRing
    refine Post.bind (Post.getBound (Post.bind (Post.deref ?_ fun _ => trivial)))
    rintro f' hf'
    obtain rfl : f = f' := by rw [hbf] at hf'; exact Option.some.inj hf'
    refine Post.bind (Post.getBound (Post.bind (Post.deref ?_ fun _ => trivial)))
    rintro g' hg'
    obtain rfl : g = g' := by rw [hbg] at hg'; exact Option.some.inj hg'
    refine Post.bind ((chooseKeep_ok first second f g s).imp ?_)
    rintro ⟨k, r, kb, rb⟩ s₀ ⟨⟨bt, rfl⟩, hc⟩
    rcases hc with hc | hc
    · obtain ⟨rfl, rfl, rfl, rfl⟩ : k = f ∧ r = g ∧ kb = first ∧ rb = second := by simpa using hc
      refine (main { s with rings := fun r => { s.rings r with bottomNode := bt r } } kb rb k r a b t u ⟨_, rfl⟩ hfg hf hg ca cb hd hfuel).imp ?_
      rintro _ s₁ h
      exact ⟨k, r, _, Or.inl ⟨rfl, rfl, rfl⟩, h⟩
    · obtain ⟨rfl, rfl, rfl, rfl⟩ : k = g ∧ r = f ∧ kb = second ∧ rb = first := by simpa using hc
      refine (main { s with rings := fun r => { s.rings r with bottomNode := bt r } } kb rb k r b a u t ⟨_, rfl⟩ hfg.symm hg hf cb ca (fun i hi hj => hd i hj hi) (by omega)).imp ?_
      rintro _ s₁ h
      exact ⟨k, r, _, Or.inr ⟨rfl, rfl, rfl⟩, h⟩
  exact hpost.elim hrun

/-! ## C23 -/

/-- The record of a ring agrees with the circular list `l` of point nodes. -/
structure DescribesRing (g : Ring) (h : Nat → Node) (l : List Nat) : Prop where
  node : g.node = l.head?
  area : g.area = intDiv (area2 (pointsOf h l)) 2
  size : g.size = l.length
  box : IsTightBox g.box (pointsOf h l)
  isHole : g.isHole = decide (area2 (pointsOf h l) ≤ 0)

/-- **C23.** Correcting a self-intersection at two nodes `a` and `b` of the ring `a, P, b, Q` yields the two rings `a, P`
and `b, Q`: one stays the original ring `r`, the other is the new ring, their records describe them, all other nodes and
rings are as before, and the ring that stays has the larger absolute area. -/
theorem C23_split (s : St) (r a b : Nat) (P Q : List Nat) (hl : IsCycle s.nodes (a :: P ++ b :: Q))
    (hr : ∀ i ∈ a :: P ++ b :: Q, (s.nodes i).ring = some r) (hf : (a :: P ++ b :: Q).length ≤ s.fuel) (hnr : r < s.nr) :
    ∃ s' kept moved, correctSelfIntersection a b s = .ok (some s.nr) s'
      ∧ ((kept, moved) = (a :: P, b :: Q) ∨ (kept, moved) = (b :: Q, a :: P))
      ∧ IsCycle s'.nodes kept ∧ IsCycle s'.nodes moved
      ∧ DescribesRing (s'.rings r) s'.nodes kept ∧ DescribesRing (s'.rings s.nr) s'.nodes moved
      ∧ (∀ i ∈ kept, (s'.nodes i).ring = some r) ∧ (∀ i ∈ moved, (s'.nodes i).ring = some s.nr)
      ∧ (∀ i, locOf s'.nodes i = locOf s.nodes i) ∧ (∀ i, i ∉ a :: P ++ b :: Q → s'.nodes i = s.nodes i)
      ∧ (∀ k, k ≠ r → k ≠ s.nr → s'.rings k = s.rings k) ∧ s'.nr = s.nr + 1 ∧ s'.children = s.children
      ∧ F64.lt (s'.rings r).area.abs (s'.rings s.nr).area.abs = false
      ∧ (|area2 (pointsOf s.nodes (a :: P))| ≤ 2 ^ 53 → |area2 (pointsOf s.nodes (b :: Q))| ≤ 2 ^ 53 →
          |area2 (pointsOf s.nodes moved)| ≤ |area2 (pointsOf s.nodes kept)|) := by
  obtain ⟨third, fourth, e3, e4, c1, c2, hol⟩ := isCycle_cut hl
  set h' := cut s.nodes a b third fourth with hh'
  have hra := hr a (by simp)
  have hrb := hr b (by simp)
  have hlenP : P.length < s.fuel := by simp at hf; omega
  have hlenQ : Q.length < s.fuel := by simp at hf; omega
  have hlink : ∀ i, (h' i).ring = (s.nodes i).ring := fun i => (hol.1 i).2.2
  have hloc : ∀ i, locOf h' i = locOf s.nodes i := fun i => by
    unfold locOf; rw [(hol.1 i).1, (hol.1 i).2.1]
  have hpts : ∀ l, pointsOf h' l = pointsOf s.nodes l := fun l => by
    unfold pointsOf; exact List.map_congr_left fun i _ => hloc i
  -- the state after the cut and the creation of the new ring
  set s1 : St := { s with nodes := h', rings := upd s.rings s.nr Ring.fresh, nr := s.nr + 1 } with hs1
  obtain ⟨bx1, st1, tb1⟩ := stats_spec (s := s1) (a := a) (t := P) c1 hlenP
  obtain ⟨bx2, st2, tb2⟩ := stats_spec (s := s1) (a := b) (t := Q) c2 hlenQ
  have key : correctSelfIntersection a b s =
      (do
        let ring ← deref (some r)
        if F64.lt (intDiv (area2 (pointsOf s1.nodes (b :: Q))) 2).abs (intDiv (area2 (pointsOf s1.nodes (a :: P))) 2).abs then
          setRingNode ring (some a)
          setStats ring (intDiv (area2 (pointsOf s1.nodes (a :: P))) 2, (a :: P).length, bx1)
          setRingNode s.nr (some b)
          setStats s.nr (intDiv (area2 (pointsOf s1.nodes (b :: Q))) 2, (b :: Q).length, bx2)
        else
          setRingNode ring (some b)
          setStats ring (intDiv (area2 (pointsOf s1.nodes (b :: Q))) 2, (b :: Q).length, bx2)
          setRingNode s.nr (some a)
          setStats s.nr (intDiv (area2 (pointsOf s1.nodes (a :: P))) 2, (a :: P).length, bx1)
        updatePoints s.nr
        pure (some s.nr) : M (Option Nat)) s1 := by
    unfold correctSelfIntersection
    simp only [run_bind, run_getNode, hra, hrb, ne_eq, not_true_eq_false, if_false, run_prevOf e3, run_prevOf e4,
      run_setNext, run_setPrev]
    have : createRing { s with nodes := h' } = .ok s.nr s1 := rfl
    simp only [← cut_def, ← hh', this, st1, st2, run_bind]
  have hne : s.nr ≠ r := by omega
  have hdis : ∀ i ∈ a :: P, i ∉ b :: Q := fun i hi hj => (List.nodup_append.1 hl.nodup).2.2 i hi i hj rfl
  have isHole_eq : ∀ l, F64.le (intDiv (area2 l) 2) (.fin 0) = decide (area2 l ≤ 0) := fun l => by
    rw [Bool.eq_iff_iff, decide_eq_true_eq]; exact (C20_area_sign _).2
  -- locations are not changed by marking
  have hwl : ∀ l i, locOf (withRing l (some s.nr) h') i = locOf s.nodes i := fun l i => by
    rw [← hloc]; unfold locOf withRing; split <;> rfl
  have hwp : ∀ l k, pointsOf (withRing l (some s.nr) h') k = pointsOf s.nodes k := fun l k => by
    unfold pointsOf; exact List.map_congr_left fun i _ => hwl l i
  by_cases hc : F64.lt (intDiv (area2 (pointsOf s1.nodes (b :: Q))) 2).abs (intDiv (area2 (pointsOf s1.nodes (a :: P))) 2).abs = true
  · set R := upd (upd (upd (upd (upd s.rings s.nr Ring.fresh) r { s.rings r with node := some a }) r
        { s.rings r with
          node := some a, area := intDiv (area2 (pointsOf s1.nodes (a :: P))) 2, size := (a :: P).length, box := bx1
          isHole := F64.le (intDiv (area2 (pointsOf s1.nodes (a :: P))) 2) (.fin 0) }) s.nr
        { Ring.fresh with node := some b }) s.nr
        { Ring.fresh with
          node := some b, area := intDiv (area2 (pointsOf s1.nodes (b :: Q))) 2, size := (b :: Q).length, box := bx2
          isHole := F64.le (intDiv (area2 (pointsOf s1.nodes (b :: Q))) 2) (.fin 0) } with hR
    have hRr : R r = { s.rings r with
          node := some a, area := intDiv (area2 (pointsOf s1.nodes (a :: P))) 2, size := (a :: P).length, box := bx1
          isHole := F64.le (intDiv (area2 (pointsOf s1.nodes (a :: P))) 2) (.fin 0) } := by
      rw [hR, upd_ne _ _ hne.symm, upd_ne _ _ hne.symm, upd_same]
    have hRn : R s.nr = { Ring.fresh with
          node := some b, area := intDiv (area2 (pointsOf s1.nodes (b :: Q))) 2, size := (b :: Q).length, box := bx2
          isHole := F64.le (intDiv (area2 (pointsOf s1.nodes (b :: Q))) 2) (.fin 0) } := by rw [hR, upd_same]
    have hRo : ∀ k, k ≠ r → k ≠ s.nr → R k = s.rings k := fun k h1 h2 => by
      rw [hR, upd_ne _ _ h2, upd_ne _ _ h2, upd_ne _ _ h1, upd_ne _ _ h1, upd_ne _ _ h2]
    refine ⟨{ s1 with rings := R, nodes := withRing (b :: Q) (some s.nr) h' }, a :: P, b :: Q, ?_, Or.inl rfl,
      isCycle_withRing c1, isCycle_withRing c2, ?_, ?_, ?_, ?_, fun i => hwl _ i, ?_, hRo, rfl, rfl, ?_, ?_⟩
    · rw [key]
      simp only [run_bind, run_deref_some, hc, if_true, setRingNode, setStats, run_modRing]
      have e : ({ s1 with rings := R } : St) = { s with nodes := h', rings := R, nr := s.nr + 1 } := rfl
      have := updatePoints_run (s := { s1 with rings := R }) (r := s.nr) (a := b) (t := Q) (by show (R s.nr).node = _; rw [hRn]) c2 hlenQ
      simp only [hs1, upd_same, upd_ne _ _ hne.symm, upd_ne _ _ hne] at this ⊢
      rw [this]; rfl
    · show DescribesRing (R r) _ _
      rw [hRr]
      exact ⟨rfl, by rw [hwp, ← hpts], rfl, by rw [hwp, ← hpts]; exact tb1, by rw [hwp, ← hpts]; exact isHole_eq _⟩
    · show DescribesRing (R s.nr) _ _
      rw [hRn]
      exact ⟨rfl, by rw [hwp, ← hpts], rfl, by rw [hwp, ← hpts]; exact tb2, by rw [hwp, ← hpts]; exact isHole_eq _⟩
    · intro i hi
      show (withRing (b :: Q) (some s.nr) h' i).ring = _
      unfold withRing; rw [if_neg (hdis i hi), hlink]; exact hr i (List.mem_append_left _ hi)
    · intro i hi
      show (withRing (b :: Q) (some s.nr) h' i).ring = _
      unfold withRing; rw [if_pos hi]
    · intro i hi
      show withRing (b :: Q) (some s.nr) h' i = _
      unfold withRing; rw [if_neg (fun h => hi (List.mem_append_right _ h))]; exact hol.2 i hi
    · show F64.lt (R r).area.abs (R s.nr).area.abs = false
      rw [hRr, hRn]; exact lt_asymm' _ _ hc
    · intro _ _
      have := lt_of_rounded hc
      rw [hpts, hpts] at this; exact this.le
  · set R := upd (upd (upd (upd (upd s.rings s.nr Ring.fresh) r { s.rings r with node := some b }) r
        { s.rings r with
          node := some b, area := intDiv (area2 (pointsOf s1.nodes (b :: Q))) 2, size := (b :: Q).length, box := bx2
          isHole := F64.le (intDiv (area2 (pointsOf s1.nodes (b :: Q))) 2) (.fin 0) }) s.nr
        { Ring.fresh with node := some a }) s.nr
        { Ring.fresh with
          node := some a, area := intDiv (area2 (pointsOf s1.nodes (a :: P))) 2, size := (a :: P).length, box := bx1
          isHole := F64.le (intDiv (area2 (pointsOf s1.nodes (a :: P))) 2) (.fin 0) } with hR
    have hRr : R r = { s.rings r with
          node := some b, area := intDiv (area2 (pointsOf s1.nodes (b :: Q))) 2, size := (b :: Q).length, box := bx2
          isHole := F64.le (intDiv (area2 (pointsOf s1.nodes (b :: Q))) 2) (.fin 0) } := by
      rw [hR, upd_ne _ _ hne.symm, upd_ne _ _ hne.symm, upd_same]
    have hRn : R s.nr = { Ring.fresh with
          node := some a, area := intDiv (area2 (pointsOf s1.nodes (a :: P))) 2, size := (a :: P).length, box := bx1
          isHole := F64.le (intDiv (area2 (pointsOf s1.nodes (a :: P))) 2) (.fin 0) } := by rw [hR, upd_same]
    have hRo : ∀ k, k ≠ r → k ≠ s.nr → R k = s.rings k := fun k h1 h2 => by
      rw [hR, upd_ne _ _ h2, upd_ne _ _ h2, upd_ne _ _ h1, upd_ne _ _ h1, upd_ne _ _ h2]
    refine ⟨{ s1 with rings := R, nodes := withRing (a :: P) (some s.nr) h' }, b :: Q, a :: P, ?_, Or.inr rfl,
      isCycle_withRing c2, isCycle_withRing c1, ?_, ?_, ?_, ?_, fun i => hwl _ i, ?_, hRo, rfl, rfl, ?_, ?_⟩
    · rw [key]
      simp only [run_bind, run_deref_some, hc, setRingNode, setStats, Bool.false_eq_true, if_false, run_modRing]
      have := updatePoints_run (s := { s1 with rings := R }) (r := s.nr) (a := a) (t := P) (by show (R s.nr).node = _; rw [hRn]) c1 hlenP
      simp only [hs1, upd_same, upd_ne _ _ hne.symm, upd_ne _ _ hne] at this ⊢
      rw [this]; rfl
    · show DescribesRing (R r) _ _
      rw [hRr]
      exact ⟨rfl, by rw [hwp, ← hpts], rfl, by rw [hwp, ← hpts]; exact tb2, by rw [hwp, ← hpts]; exact isHole_eq _⟩
    · show DescribesRing (R s.nr) _ _
      rw [hRn]
      exact ⟨rfl, by rw [hwp, ← hpts], rfl, by rw [hwp, ← hpts]; exact tb1, by rw [hwp, ← hpts]; exact isHole_eq _⟩
    · intro i hi
      show (withRing (a :: P) (some s.nr) h' i).ring = _
      unfold withRing; rw [if_neg (fun h => hdis i h hi), hlink]; exact hr i (List.mem_append_right _ hi)
    · intro i hi
      show (withRing (a :: P) (some s.nr) h' i).ring = _
      unfold withRing; rw [if_pos hi]
    · intro i hi
      show withRing (a :: P) (some s.nr) h' i = _
      unfold withRing; rw [if_neg (fun h => hi (List.mem_append_left _ h))]; exact hol.2 i hi
    · show F64.lt (R r).area.abs (R s.nr).area.abs = false
      rw [hRr, hRn]; exact Bool.not_eq_true _ ▸ hc
    · intro h1 h2
      rw [Bool.not_eq_true] at hc
      rw [hpts, hpts] at hc
      exact le_of_not_rounded h2 h1 hc

/-- **C23.** Nodes of different rings are left alone. -/
theorem C23_other_rings (s : St) (a b : Nat) (h : (s.nodes a).ring ≠ (s.nodes b).ring) :
    correctSelfIntersection a b s = .ok none s := by
  unfold correctSelfIntersection
  simp only [run_bind, run_getNode, ne_eq, h, not_false_eq_true, if_true]; rfl

/-! ## Concrete cases -/

section Examples

/-- A figure of eight through `(0, 0)` in the nodes 0 to 5: a triangle of area 8 and one of area 2; they belong to ring 0.
The nodes 6 and 7 form another ring, number 1. -/
private def eight : Nat → Node
  | 0 => ⟨0, 0, some 5, some 1, some 0⟩
  | 1 => ⟨4, 0, some 0, some 2, some 0⟩
  | 2 => ⟨4, 4, some 1, some 3, some 0⟩
  | 3 => ⟨0, 0, some 2, some 4, some 0⟩
  | 4 => ⟨-2, 0, some 3, some 5, some 0⟩
  | 5 => ⟨-2, -2, some 4, some 0, some 0⟩
  | 6 => ⟨9, 9, some 7, some 7, some 1⟩
  | 7 => ⟨9, 5, some 6, some 6, some 1⟩
  | _ => ⟨0, 0, none, none, none⟩

private def eightState : St := { (default : St) with
  nodes := eight, nn := 8, nr := 2, fuel := 20
  rings := fun r => { Ring.fresh with node := if r = 0 then some 0 else if r = 1 then some 6 else none }
  bounds := fun b => { (default : Bound) with
    ring := if b = 0 then some 0 else some 1, side := if b = 0 then .left else .right }
  children := [some 0, some 1]
  abl := [some 0, some 1, some 2] }

private theorem eight_cycle : IsCycle eightState.nodes ([0, 1, 2] ++ [3, 4, 5]) := by
  refine ⟨by decide, ?_⟩
  simp [eightState, eight, Link]

private theorem pair_cycle : IsCycle eightState.nodes [6, 7] := by
  refine ⟨by decide, ?_⟩
  simp [eightState, eight, Link]

/-- The hypotheses of C23 hold: the figure of eight is cut into its two triangles. -/
example := C23_split eightState 0 0 3 [1, 2] [4, 5] eight_cycle (by decide) (by decide) (by decide)

/-- The larger triangle stays ring 0. -/
example : (match correctSelfIntersection 0 3 eightState with
    | .ok (some r) s => ((s.rings 0).node, r, (s.rings r).node, (s.nodes 2).next, (s.nodes 5).next)
    | _ => default) = (some 0, 2, some 3, some 0, some 3) := by decide +kernel

private def Res.isOk {α : Type} : Res α → Bool
  | .ok _ _ => true
  | .err _ _ => false

/-- The hypotheses of C22 hold: the two rings are joined. -/
example : ∃ s', appendRing 0 1 eightState = .ok () s' := by
  have : Res.isOk (appendRing 0 1 eightState) = true := by decide +kernel
  cases h : appendRing 0 1 eightState with
  | ok u s' => exact ⟨s', rfl⟩
  | err e s' => rw [h] at this; exact Bool.noConfusion this

example (s' : St) (h : appendRing 0 1 eightState = .ok () s') :=
  C22_append eightState s' 0 1 0 1 0 6 [1, 2, 3, 4, 5] [7] rfl rfl (by decide) rfl rfl eight_cycle pair_cycle (by decide) (by decide) h

example : joinedNodes .left .right [0, 1, 2] [6, 7] = [6, 7, 0, 1, 2] := rfl
example : joinedNodes .right .right [0, 1, 2] [6, 7] = [0, 1, 2, 7, 6] := rfl

end Examples

end Wagyu
