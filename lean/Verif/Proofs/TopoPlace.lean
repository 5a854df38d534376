import Verif.Proofs.TopoTree

/-!
# `correct_tree`: the loop
-/

namespace Wagyu

open Spec

section
variable {s s' : St} {L L' : Nat → List Nat} {E : Err → Prop}

/-- The ring `k` has a place: it is an outer ring at the top level, or lies in a ring of `B` of the other orientation. -/
structure Seated (s : St) (L : Nat → List Nat) (k : Nat) (B : List Nat) : Prop where
  area : area2 (pointsOf s.nodes (L k)) ≠ 0
  mark : (s.rings k).corrected = true
  top : (s.rings k).parent = none → (s.rings k).isHole = false
  sub : ∀ p, (s.rings k).parent = some p → p ∈ B ∧ L p ≠ [] ∧ (s.rings k).isHole ≠ (s.rings p).isHole
    ∧ VertexInside (pointsOf s.nodes (L k)) (pointsOf s.nodes (L p))

/-- All the rings of the list (latest first) have a place. -/
def Placed (s : St) (L : Nat → List Nat) : List Nat → Prop
  | [] => True
  | k :: B => Placed s L B ∧ (L k ≠ [] → Seated s L k B)

theorem Placed.congr {B : List Nat} (h : Placed s L B) (hloc : ∀ i, locOf s'.nodes i = locOf s.nodes i)
    (hL : ∀ k ∈ B, L' k = L k) (ha : ∀ k ∈ B, Alike (s'.rings k) (s.rings k)) (hp : ∀ k ∈ B, (s'.rings k).parent = (s.rings k).parent) :
    Placed s' L' B := by
  induction B with
  | nil => trivial
  | cons k B ih =>
    have hB : ∀ {q}, q ∈ B → q ∈ k :: B := fun h => List.mem_cons_of_mem _ h
    refine ⟨ih h.1 (fun q hq => hL q (hB hq)) (fun q hq => ha q (hB hq)) fun q hq => hp q (hB hq), fun hk => ?_⟩
    have h0 : k ∈ k :: B := List.mem_cons_self
    rw [hL k h0] at hk
    obtain ⟨h1, h2, h3, h4⟩ := h.2 hk
    refine ⟨by rw [hL k h0, pointsOf_congr hloc]; exact h1, by rw [(ha k h0).mark]; exact h2, fun e => ?_, fun p e => ?_⟩
    · rw [hp k h0] at e; rw [(ha k h0).hole]; exact h3 e
    · rw [hp k h0] at e
      obtain ⟨g1, g2, g3, g4⟩ := h4 p e
      refine ⟨g1, by rw [hL p (hB g1)]; exact g2, by rw [(ha k h0).hole, (ha p (hB g1)).hole]; exact g3, ?_⟩
      rw [hL k h0, hL p (hB g1), pointsOf_congr hloc, pointsOf_congr hloc]; exact g4

/-- What `correct_tree` does to the rings: some without area disappear. -/
structure Pruned (s : St) (L : Nat → List Nat) (s' : St) (L' : Nat → List Nat) : Prop where
  nn : s'.nn = s.nn
  nr : s'.nr = s.nr
  all : s'.allNodes = s.allNodes
  loc : ∀ i, locOf s'.nodes i = locOf s.nodes i
  kept : ∀ k, L' k = L k ∨ L' k = [] ∧ area2 (pointsOf s.nodes (L k)) = 0

theorem Pruned.refl : Pruned s L s L := ⟨rfl, rfl, rfl, fun _ => rfl, fun _ => Or.inl rfl⟩
theorem Pruned.trans {s'' : St} {L'' : Nat → List Nat} (h : Pruned s L s' L') (k : Pruned s' L' s'' L'') : Pruned s L s'' L'' := by
  refine ⟨k.nn.trans h.nn, k.nr.trans h.nr, k.all.trans h.all, fun i => (k.loc i).trans (h.loc i), fun q => ?_⟩
  rcases k.kept q with e | ⟨e1, e2⟩
  · rw [e]; exact h.kept q
  · rcases h.kept q with e' | ⟨e', e3⟩
    · rw [e', pointsOf_congr h.loc] at e2; exact Or.inr ⟨e1, e2⟩
    · exact Or.inr ⟨e1, e3⟩

theorem area2_short {l : List Point} (h : l.length < 3) : area2 l = 0 := by
  match l, h with
  | [], _ => rfl
  | [p], _ => simp [area2, ringSum, pathSum, cross]; ring
  | [p, q], _ => simp [area2, ringSum, pathSum, cross]; ring

theorem ends_degenerate (h : TI s L) (hk : Known s L) {r : Nat} (hr : L r ≠ []) :
    Ends E (do
      let size ← ringSize r
      if size < 3 then pure true else pure (isFloatAlmostZero (← ringArea r)) : M Bool) s
      fun b s' => s' = s ∧ (b = true ↔ area2 (pointsOf s.nodes (L r)) = 0) := by
  obtain ⟨q1, q2, q3, q4⟩ := h.sound r hr (hk r hr)
  refine Ends.bind ((ends_size h hk r).imp ?_)
  rintro n s ⟨rfl, rfl⟩
  refine Ends.ite (fun e => Ends.pure ⟨rfl, ?_⟩) fun e => ?_
  · refine ⟨fun _ => area2_short ?_, fun _ => rfl⟩
    have : (pointsOf s.nodes (L r)).length = (L r).length := by simp [pointsOf]
    omega
  · refine Ends.bind ((ends_area h hk r).imp ?_)
    rintro a s ⟨rfl, rfl⟩
    refine Ends.pure ⟨rfl, ?_⟩
    rw [q1, C18_almost_zero_area]

theorem ends_correctTreeLoop : ∀ (rest before : List Nat) (s : St) (L : Nat → List Nat), TI s L → Known s L → Placed s L before →
    (before ++ rest).Nodup →
    Ends Unplaced (correctTreeLoop before rest) s fun _ s' => ∃ L', TI s' L' ∧ Known s' L' ∧ Placed s' L' (rest.reverse ++ before) ∧ Pruned s L s' L'
  | [], before, s, L, h, hk, hp, _ => by
    rw [correctTreeLoop]
    exact Ends.pure ⟨L, h, hk, hp, Pruned.refl⟩
  | ring :: rest, before, s, L, h, hk, hp, hnd => by
    have hnb : ring ∉ before := fun hm => (List.nodup_append.1 hnd).2.2 ring hm ring (by simp) rfl
    have hnd' : (ring :: before ++ rest).Nodup := by
      refine (List.Perm.nodup_iff ?_).1 hnd
      exact List.perm_middle
    have next : ∀ (s1 : St) (L1 : Nat → List Nat), TI s1 L1 → Known s1 L1 → Placed s1 L1 (ring :: before) → Pruned s L s1 L1 →
        Ends Unplaced (correctTreeLoop (ring :: before) rest) s1 fun _ s' => ∃ L', TI s' L' ∧ Known s' L' ∧ Placed s' L' ((ring :: rest).reverse ++ before) ∧ Pruned s L s' L' := by
      intro s1 L1 h1 k1 p1 g1
      refine (ends_correctTreeLoop rest (ring :: before) s1 L1 h1 k1 p1 hnd').imp ?_
      rintro _ s' ⟨L', a, b, c, d⟩
      exact ⟨L', a, b, by simpa using c, g1.trans d⟩
    have ne : ∀ {k}, k ∈ before → k ≠ ring := fun hk e => hnb (e ▸ hk)
    rw [correctTreeLoop]
    refine Ends.bind (Ends.getRing (Ends.ite (fun e => ?_) fun e => ?_))
    swap
    · refine next s L h hk ⟨hp, fun hr => ?_⟩ Pruned.refl
      rw [h.own.head ring] at e
      obtain ⟨a, t, hl⟩ := List.exists_cons_of_ne_nil hr
      rw [hl] at e; simp at e
    have hr : L ring ≠ [] := by
      intro hl
      rw [h.own.head ring, hl] at e
      simp at e
    rw [← M.assoc]
    refine Ends.bind ((ends_degenerate h hk hr).imp ?_)
    rintro b s ⟨rfl, hb⟩
    refine Ends.ite (fun eb => ?_) fun e => ?_
    · -- the ring is removed
      refine Ends.bind ((ends_removeRingAndPoints h.own ring).imp ?_)
      rintro _ s1 hg
      have hst := (hg.step h hr).1
      have hg' : Gone ring { s with nodes := discard (L ring) s.nodes } s1 := hg
      have hL : ∀ k, k ≠ ring → upd L ring [] k = L k := fun k hk => Wagyu.upd_ne _ _ hk
      refine next s1 _ hst.ti (fun k hk' => ?_) ⟨hp.congr hst.loc (fun k hk => hL k (ne hk)) (fun k hk => hg'.same (ne hk)) fun k hk => ?_, fun hne => ?_⟩
        ⟨hst.nn, hg'.nr, hst.all, hst.loc, fun k => ?_⟩
      · by_cases e' : k = ring
        · subst e'; rw [Wagyu.upd_same] at hk'; exact absurd rfl hk'
        · rw [hL k e'] at hk'; rw [(hg'.same e').area]; exact hk k hk'
      · rw [hg'.parent]
      · rw [Wagyu.upd_same] at hne; exact absurd rfl hne
      · by_cases e' : k = ring
        · subst e'; rw [Wagyu.upd_same]; exact Or.inr ⟨rfl, hb.1 eb⟩
        · exact Or.inl (hL k e')
    · have ha : area2 (pointsOf s.nodes (L ring)) ≠ 0 := fun q => e (hb.2 q)
      refine Ends.bind (Ends.modRing ?_)
      generalize hs1 : ({ s with rings := upd s.rings ring { s.rings ring with corrected := true } } : St) = s1
      have h1 : TI s1 L := h.corrected hs1.symm
      have hn1 : s1.nodes = s.nodes := by rw [← hs1]
      have hother : ∀ k, k ≠ ring → s1.rings k = s.rings k := fun k hk => by rw [← hs1]; exact Wagyu.upd_ne _ _ hk
      have hself : s1.rings ring = { s.rings ring with corrected := true } := by rw [← hs1]; exact Wagyu.upd_same _ _ _
      have k1 : Known s1 L := by
        intro k hk'
        by_cases e' : k = ring
        · subst e'; rw [hself]; exact hk _ hk'
        · rw [hother k e']; exact hk k hk'
      have p1 : Placed s1 L before := hp.congr (fun i => by rw [hn1]) (fun _ _ => rfl) (fun k hk => by rw [hother k (ne hk)]; exact Alike.refl _)
        fun k hk => by rw [hother k (ne hk)]
      have g1 : Pruned s L s1 L := by rw [← hs1]; exact ⟨rfl, rfl, rfl, fun _ => rfl, fun _ => Or.inl rfl⟩
      rw [← hn1] at ha
      have fin : ∀ (p : Option Nat) (s2 : St), (p = none → (s1.rings ring).isHole = false)
          → (∀ q, p = some q → q ∈ before ∧ L q ≠ [] ∧ (s1.rings ring).isHole ≠ (s1.rings q).isHole ∧ VertexInside (pointsOf s1.nodes (L ring)) (pointsOf s1.nodes (L q)))
          → Hung ring p s1 s2 → Ends Unplaced (correctTreeLoop (ring :: before) rest) s2 fun _ s' => ∃ L', TI s' L' ∧ Known s' L' ∧ Placed s' L' ((ring :: rest).reverse ++ before) ∧ Pruned s L s' L' := by
        intro p s2 q1 q2 hh
        have e2 := hh.nodes
        refine next s2 L (hh.ti h1) (fun k hk' => by rw [(hh.alike k).area]; exact k1 k hk') ⟨p1.congr (fun i => by rw [e2]) (fun _ _ => rfl) (fun k _ => hh.alike k) fun k hk => ?_, fun _ => ?_⟩
          (g1.trans ⟨hh.nn, hh.nr, hh.allNodes, fun i => by rw [e2], fun _ => Or.inl rfl⟩)
        · rw [hh.parent, if_neg (ne hk)]
        · have hpar := hh.parent ring
          rw [if_pos rfl] at hpar
          refine ⟨by rw [e2]; exact ha, by rw [(hh.alike ring).mark, hself], fun e' => ?_, fun q e' => ?_⟩
          · rw [(hh.alike ring).hole]; exact q1 (hpar.symm.trans e')
          · rw [(hh.alike ring).hole, (hh.alike q).hole, e2]; exact q2 q (hpar.symm.trans e')
      refine Ends.bind ((ends_findContaining h1 k1 hr ha before).imp ?_)
      rintro o s1' ⟨rfl, ho⟩
      cases o with
      | some q =>
        refine Ends.bind ((ends_reassign h1 k1 hr (ho q rfl).2.2.1).imp ?_)
        rintro _ s2 hh
        exact fin (some q) s2 nofun ho hh
      | none =>
        refine Ends.bind ((ends_isHole h1 k1 ring).imp ?_)
        rintro b s1' ⟨rfl, rfl⟩
        refine Ends.ite (fun e => Ends.bind (Ends.raise (Or.inr rfl))) fun e => ?_
        refine Ends.bind ((ends_reassign h1 k1 hr (p := none) (by simpa using e)).imp ?_)
        rintro _ s2 hh
        exact fin none s2 (fun _ => by simpa using e) nofun hh

theorem ends_correctTree (h : TI s L) :
    Ends Unplaced correctTree s fun _ s' => ∃ L' order, TI s' L' ∧ Known s' L' ∧ Pruned s L s' L' ∧ order.Perm (List.range s'.nr) ∧ Placed s' L' order := by
  unfold correctTree
  refine Ends.bind ((ends_reversedSortedRings h).imp ?_)
  rintro l s1 ⟨⟨h1, h2, h3⟩, h4⟩
  have hnd : ([] ++ l).Nodup := h4.nodup_iff.2 List.nodup_range
  refine (ends_correctTreeLoop l [] s1 L h2 h3 trivial hnd).imp ?_
  rintro _ s' ⟨L', a, b, c, d⟩
  refine ⟨L', l.reverse, a, b, Pruned.trans ⟨h1.nn, h1.nr, h1.allNodes, fun i => by rw [h1.nodes], fun _ => Or.inl rfl⟩ d, ?_, by simpa using c⟩
  rw [d.nr, h1.nr]
  exact (List.reverse_perm l).trans h4

end

theorem Placed.seat {s : St} {L : Nat → List Nat} {l : List Nat} (h : Placed s L l) {r : Nat} (hr : r ∈ l) (hL : L r ≠ []) :
    ∃ A B, l = A ++ r :: B ∧ Seated s L r B := by
  induction l with
  | nil => cases hr
  | cons k B ih =>
    by_cases e : r = k
    · subst e; exact ⟨[], B, rfl, h.2 hL⟩
    · obtain ⟨A, B', rfl, h'⟩ := ih h.1 (by simpa [e] using hr)
      exact ⟨k :: A, B', rfl, h'⟩

theorem Placed.rank {s : St} {L : Nat → List Nat} {l : List Nat} (h : Placed s L l) (hn : l.Nodup) {r p : Nat} (hr : r ∈ l) (hL : L r ≠ [])
    (hp : (s.rings r).parent = some p) : l.idxOf r < l.idxOf p := by
  obtain ⟨A, B, rfl, h'⟩ := h.seat hr hL
  have hpB := (h'.sub p hp).1
  obtain ⟨-, h2, h3⟩ := List.nodup_append.1 hn
  have hrA : r ∉ A := fun hm => h3 r hm r (by simp) rfl
  have hpA : p ∉ A := fun hm => h3 p hm p (by simp [hpB]) rfl
  have hne : p ≠ r := fun e => (List.nodup_cons.1 h2).1 (e ▸ hpB)
  rw [List.idxOf_append_of_notMem hrA, List.idxOf_append_of_notMem hpA, List.idxOf_cons_self, List.idxOf_cons_ne _ (Ne.symm hne)]
  omega

theorem TI.hole {s : St} {L : Nat → List Nat} (h : TI s L) (hk : Known s L) {r : Nat} (hr : L r ≠ []) :
    (s.rings r).isHole = decide (area2 (pointsOf s.nodes (L r)) ≤ 0) := by
  obtain ⟨h1, h2, -⟩ := h.sound r hr (hk r hr)
  rw [h2, h1, Bool.eq_iff_iff, (C20_area_sign _).2]; simp

end Wagyu
