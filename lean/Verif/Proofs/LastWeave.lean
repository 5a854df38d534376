import Verif.Proofs.LastPairs

/-!
# `process_single_intersection`: the merge
-/

namespace Wagyu

open Spec

section
variable {s s' : St} {L L' : Nat → List Nat}

/-- The state after the exchanges, with the two rings `O` and `new` set up. -/
structure Wired (s : St) (H : Nat → Node) (O x y : Nat) (X Y : List Nat) (s' : St) : Prop where
  nodes : s'.nodes = H
  nn : s'.nn = s.nn
  all : s'.allNodes = s.allNodes
  nr : s'.nr = s.nr + 1
  ro : (s'.rings O).node = some x ∧ StatsOf s.nodes (x :: X) (s'.rings O) ∧ (s'.rings O).corrected = false
  rn : (s'.rings s.nr).node = some y ∧ StatsOf s.nodes (y :: Y) (s'.rings s.nr) ∧ (s'.rings s.nr).corrected = false
  others : ∀ k, k ≠ O → k ≠ s.nr → s'.rings k = s.rings k

/-- The nodes of the rings after the merge. -/
def woven (L : Nat → List Nat) (l : List Nat) (O new : Nat) (A B : List Nat) : Nat → List Nat := fun k =>
  if k = O then A else if k = new then B else if k ∈ l then [] else L k

theorem sum_woven {O : Nat} {l : List Nat} {n : Nat} {A B : List Nat} (hO : O < n) (hl : ∀ r ∈ l, r < n) (hnd : l.Nodup) (hOl : O ∉ l) (f : List Nat → ℤ) (h0 : f [] = 0)
    (hf : f A + f B = f (L O) + (l.map fun r => f (L r)).sum) :
    ∑ r ∈ Finset.range (n + 1), f (woven L l O n A B r) = ∑ r ∈ Finset.range n, f (L r) := by
  have hne : n ≠ O := by omega
  rw [Finset.sum_range_succ]
  have e1 : woven L l O n A B n = B := by unfold woven; rw [if_neg hne, if_pos rfl]
  have e2 : woven L l O n A B O = A := by unfold woven; rw [if_pos rfl]
  rw [e1, ← Finset.add_sum_erase _ _ (Finset.mem_range.2 hO), ← Finset.add_sum_erase _ (fun r => f (L r)) (Finset.mem_range.2 hO), e2]
  have hsub : l.toFinset ⊆ (Finset.range n).erase O := by
    intro r hr
    have hr' := List.mem_toFinset.1 hr
    exact Finset.mem_erase.2 ⟨fun e => hOl (e ▸ hr'), Finset.mem_range.2 (hl r hr')⟩
  rw [← Finset.sum_sdiff hsub, ← Finset.sum_sdiff (f := fun r => f (L r)) hsub]
  have e3 : ∑ r ∈ l.toFinset, f (woven L l O n A B r) = 0 := by
    refine Finset.sum_eq_zero fun r hr => ?_
    have hr' := List.mem_toFinset.1 hr
    have h1 : r ≠ O := fun e => hOl (e ▸ hr')
    have h2 : r ≠ n := by have := hl r hr'; omega
    unfold woven
    rw [if_neg h1, if_neg h2, if_pos hr', h0]
  have e4 : ∑ r ∈ ((Finset.range n).erase O) \ l.toFinset, f (woven L l O n A B r) = ∑ r ∈ ((Finset.range n).erase O) \ l.toFinset, f (L r) := by
    refine Finset.sum_congr rfl fun r hr => ?_
    obtain ⟨h1, h2⟩ := Finset.mem_sdiff.1 hr
    obtain ⟨h3, h4⟩ := Finset.mem_erase.1 h1
    have h5 : r ≠ n := by have := Finset.mem_range.1 h4; omega
    have h6 : r ∉ l := fun h => h2 (List.mem_toFinset.2 h)
    unfold woven
    rw [if_neg h3, if_neg h5, if_neg h6]
  have e5 : ∑ r ∈ l.toFinset, f (L r) = (l.map fun r => f (L r)).sum := by
    rw [List.sum_toFinset _ hnd]
  rw [e3, e4, e5]
  linarith

set_option maxHeartbeats 1600000 in
/-- The heaps after the merge. -/
theorem woven_ti (h : LI s L) {O x y : Nat} {l : List Nat} {X Y : List Nat} {H : Nat → Node} {s1 s2 : St}
    (hloc : ∀ i, locOf H i = locOf s.nodes i) (hOl : O ∉ l) (hO : L O ≠ []) (hl : ∀ r ∈ l, L r ≠ []) (hnd : l.Nodup)
    (hout : ∀ i, (∀ r, r = O ∨ r ∈ l → i ∉ L r) → H i = s.nodes i)
    (hX : IsCycle H (x :: X)) (hY : IsCycle H (y :: Y))
    (hm : ∀ i, i ∈ (x :: X) ++ (y :: Y) ↔ ∃ r, (r = O ∨ r ∈ l) ∧ i ∈ L r) (hdis : ∀ i ∈ x :: X, i ∉ y :: Y)
    (hsum : ∀ c, ringSum c (pointsOf s.nodes (x :: X)) + ringSum c (pointsOf s.nodes (y :: Y))
          = ringSum c (pointsOf s.nodes (L O)) + (l.map fun r => ringSum c (pointsOf s.nodes (L r))).sum)
    (h1 : Wired s (withRing (y :: Y) (some s.nr) (withRing (x :: X) (some O) H)) O x y X Y s1) (h2 : Emptied l s1 s2) :
    LI s2 (woven L l O s.nr (x :: X) (y :: Y)) ∧ Relinked s L s2 (woven L l O s.nr (x :: X) (y :: Y)) := by
  have hOn := (h.ti.own.cycle O hO).1
  have hne : s.nr ≠ O := by omega
  have hln : ∀ r ∈ l, r < s.nr := fun r hr => (h.ti.own.cycle r (hl r hr)).1
  have hnl : s.nr ∉ l := fun e => absurd (hln _ e) (by omega)
  have hnodes : s2.nodes = withRing (y :: Y) (some s.nr) (withRing (x :: X) (some O) H) := h2.nodes.trans h1.nodes
  have hloc2 : ∀ i, locOf s2.nodes i = locOf s.nodes i := fun i => by rw [hnodes, withRing_loc, withRing_loc, hloc]
  have ringX : ∀ i ∈ x :: X, (s2.nodes i).ring = some O := by
    intro i hi
    rw [hnodes]
    unfold withRing
    rw [if_neg (hdis i hi), if_pos hi]
  have ringY : ∀ i ∈ y :: Y, (s2.nodes i).ring = some s.nr := by
    intro i hi
    rw [hnodes]
    unfold withRing
    rw [if_pos hi]
  have nodeOut : ∀ i, (∀ r, r = O ∨ r ∈ l → i ∉ L r) → s2.nodes i = s.nodes i := by
    intro i hi
    have h1 : i ∉ (x :: X) ++ (y :: Y) := fun hc => by
      obtain ⟨r, hr, hir⟩ := (hm i).1 hc
      exact hi r hr hir
    rw [List.mem_append, not_or] at h1
    rw [hnodes]
    unfold withRing
    rw [if_neg h1.2, if_neg h1.1, hout i hi]
  have eO : woven L l O s.nr (x :: X) (y :: Y) O = x :: X := by unfold woven; rw [if_pos rfl]
  have eN : woven L l O s.nr (x :: X) (y :: Y) s.nr = y :: Y := by unfold woven; rw [if_neg hne, if_pos rfl]
  have eL : ∀ r ∈ l, woven L l O s.nr (x :: X) (y :: Y) r = [] := by
    intro r hr
    unfold woven
    have a1 : r ≠ O := fun e => hOl (e ▸ hr)
    have a2 : r ≠ s.nr := fun e => hnl (e ▸ hr)
    rw [if_neg a1, if_neg a2, if_pos hr]
  have eR : ∀ r, r ≠ O → r ≠ s.nr → r ∉ l → woven L l O s.nr (x :: X) (y :: Y) r = L r := by
    intro r a1 a2 a3
    unfold woven
    rw [if_neg a1, if_neg a2, if_neg a3]
  have aO : Alike (s2.rings O) (s1.rings O) := h2.same O hOl
  have aN : Alike (s2.rings s.nr) (s1.rings s.nr) := h2.same _ hnl
  have aR : ∀ r, r ≠ O → r ≠ s.nr → r ∉ l → Alike (s2.rings r) (s.rings r) := fun r a1 a2 a3 => by
    rw [← h1.others r a1 a2]; exact h2.same r a3
  have cX : IsCycle s2.nodes (x :: X) := by rw [hnodes]; exact isCycle_withRing (isCycle_withRing hX)
  have cY : IsCycle s2.nodes (y :: Y) := by rw [hnodes]; exact isCycle_withRing (isCycle_withRing hY)
  have hti : TI s2 (woven L l O s.nr (x :: X) (y :: Y)) := by
    refine h.ti.update (fun r => r = O ∨ r = s.nr ∨ r ∈ l) _ (h2.nn.trans h1.nn) (by rw [h2.nr, h1.nr]; omega) hloc2 (fun r hr => ?_) (fun r hr => ?_)
      (fun i hi => nodeOut i fun r hr => hi r (by tauto)) ?_ ?_ ?_ ?_ ?_ ?_
    · push Not at hr; exact eR r hr.1 hr.2.1 hr.2.2
    · push Not at hr; exact aR r hr.1 hr.2.1 hr.2.2
    · rintro r (rfl | rfl | hr)
      · rw [eO, aO.node, h1.ro.1]; rfl
      · rw [eN, aN.node, h1.rn.1]; rfl
      · rw [eL r hr, (h2.gone r hr).1]; rfl
    · rintro r (rfl | rfl | hr) hn
      · rw [eO]; exact ⟨by rw [h2.nr, h1.nr]; omega, cX⟩
      · rw [eN]; exact ⟨by rw [h2.nr, h1.nr]; omega, cY⟩
      · exact absurd (eL r hr) hn
    · have key : ∀ i, i ∈ (x :: X) ++ (y :: Y) → ∃ e, (e = O ∨ e = s.nr ∨ e ∈ l) ∧ i ∈ L e := fun i hi => by
        obtain ⟨r, hr, hir⟩ := (hm i).1 hi
        exact ⟨r, by tauto, hir⟩
      rintro r (rfl | rfl | hr) i hi
      · rw [eO] at hi; exact ⟨key i (List.mem_append_left _ hi), ringX i hi⟩
      · rw [eN] at hi; exact ⟨key i (List.mem_append_right _ hi), ringY i hi⟩
      · rw [eL r hr] at hi; cases hi
    · intro e he i hi r hr
      have hin : i ∈ (x :: X) ++ (y :: Y) := by
        refine (hm i).2 ⟨e, ?_, hi⟩
        rcases he with he | he | he
        · exact Or.inl he
        · exact absurd (h.ti.own.lt hi) (by omega)
        · exact Or.inr he
      rcases List.mem_append.1 hin with hi | hi
      · rw [ringX i hi] at hr
        obtain rfl := Option.some.inj hr
        exact ⟨Or.inl rfl, by rw [eO]; exact hi⟩
      · rw [ringY i hi] at hr
        obtain rfl := Option.some.inj hr
        exact ⟨Or.inr (Or.inl rfl), by rw [eN]; exact hi⟩
    · rintro r (rfl | rfl | hr) hn
      · rw [eO]; exact h1.ro.2.1.alike aO
      · rw [eN]; exact h1.rn.2.1.alike aN
      · exact absurd (eL r hr) hn
    · rintro r (rfl | rfl | hr) hn
      · rw [eO] at hn; cases hn
      · rw [eN] at hn; cases hn
      · exact (h2.gone r hr).2
  refine ⟨⟨hti, fun r hr => ?_, fun r hr => ?_⟩, h2.nn.trans h1.nn, by rw [h2.nr, h1.nr]; omega, h2.all.trans h1.all, hloc2, fun i k hi => ?_, fun i k hi => ?_, fun c => ?_⟩
  · by_cases e1 : r = O
    · subst e1; exact (h1.ro.2.1.alike aO).notNan
    · by_cases e2 : r = s.nr
      · subst e2; exact (h1.rn.2.1.alike aN).notNan
      · by_cases e3 : r ∈ l
        · exact absurd (eL r e3) hr
        · rw [eR r e1 e2 e3] at hr
          rw [(aR r e1 e2 e3).area]; exact h.known r hr
  · by_cases e1 : r = O
    · subst e1; rw [aO.mark, h1.ro.2.2] at hr; cases hr
    · by_cases e2 : r = s.nr
      · subst e2; rw [aN.mark, h1.rn.2.2] at hr; cases hr
      · by_cases e3 : r ∈ l
        · rw [eL r e3]; exact List.nodup_nil
        · rw [eR r e1 e2 e3]
          exact (h.once r (by rw [← (aR r e1 e2 e3).mark]; exact hr)).congr hloc2
  · by_cases e1 : k = O ∨ k ∈ l
    · rcases List.mem_append.1 ((hm i).2 ⟨k, e1, hi⟩) with h3 | h3
      · exact ⟨O, by rw [eO]; exact h3⟩
      · exact ⟨s.nr, by rw [eN]; exact h3⟩
    · push Not at e1
      exact ⟨k, by rw [eR k e1.1 (by have := h.ti.own.lt hi; omega) e1.2]; exact hi⟩
  · by_cases e1 : k = O
    · subst e1; rw [eO] at hi
      obtain ⟨r, -, hr⟩ := (hm i).1 (List.mem_append_left _ hi)
      exact ⟨r, hr⟩
    · by_cases e2 : k = s.nr
      · subst e2; rw [eN] at hi
        obtain ⟨r, -, hr⟩ := (hm i).1 (List.mem_append_right _ hi)
        exact ⟨r, hr⟩
      · by_cases e3 : k ∈ l
        · rw [eL k e3] at hi; cases hi
        · rw [eR k e1 e2 e3] at hi; exact ⟨k, hi⟩
  · unfold edgeTotal
    have hp : ∀ l, pointsOf s2.nodes l = pointsOf s.nodes l := fun l => pointsOf_congr hloc2 l
    simp only [hp]
    rw [h2.nr, h1.nr]
    exact sum_woven (L := L) hOn hln hnd hOl (fun l => ringSum c (pointsOf s.nodes l)) rfl (hsum c)

/-- The connections after the merge. -/
theorem woven_joints {O : Nat} {l : List Nat} {A B : List Nat} {cm cm1 : ConnectionMap} {kept : List (Nat × Nat)} {m : List (Nat × Nat × Nat)} {s2 : St}
    (h : TI s L) (hti : TI s2 (woven L l O s.nr A B)) (hr : Relinked s L s2 (woven L l O s.nr A B)) (hcm : Joints s L cm)
    (c1 : ∀ r, r ∉ l → cm1 r = cm r) (c2 : ∀ r ∈ l, cm1 r = []) (k1 : ∀ p ∈ kept, p ∈ cm1 O ∧ (s2.nodes p.1).ring = some O)
    (k2 : ∀ x ∈ m, (∃ r, x.2 ∈ cm r) ∧ (s2.nodes x.2.1).ring = some x.1) :
    Joints s2 (woven L l O s.nr A B) (m.foldl (fun cm it => upd cm it.1 (cm it.1 ++ [(it.2.1, it.2.2)])) (upd cm1 O kept)) := by
  have put : ∀ (r : Nat) (p : Nat × Nat), (∃ q, p ∈ cm q) → (s2.nodes p.1).ring = some r →
      p.1 ∈ woven L l O s.nr A B r ∧ p.2 < s2.nn ∧ locOf s2.nodes p.1 = locOf s2.nodes p.2 := by
    rintro r p ⟨q, hq⟩ hr1
    obtain ⟨j1, j2, j3⟩ := hcm q p hq
    refine ⟨hti.own.kept p.1 ?_ r hr1, by rw [hr.nn]; exact j2, by rw [hr.loc, hr.loc]; exact j3⟩
    rw [hr.nn]; exact (h.own.own q p.1 j1).1
  intro r p hp
  rcases mem_moved _ _ _ _ hp with hp | hp
  · by_cases e : r = O
    · subst e
      rw [Wagyu.upd_same] at hp
      obtain ⟨g1, g2⟩ := k1 p hp
      refine put r p ⟨r, ?_⟩ g2
      by_cases e' : r ∈ l
      · rw [c2 r e'] at g1; cases g1
      · rw [← c1 r e']; exact g1
    · rw [Wagyu.upd_ne _ _ e] at hp
      by_cases e' : r ∈ l
      · rw [c2 r e'] at hp; cases hp
      · rw [c1 r e'] at hp
        obtain ⟨j1, j2, j3⟩ := hcm r p hp
        have hrn : r ≠ s.nr := by have := h.own.lt j1; omega
        refine ⟨?_, by rw [hr.nn]; exact j2, by rw [hr.loc, hr.loc]; exact j3⟩
        unfold woven
        rw [if_neg e, if_neg hrn, if_neg e']
        exact j1
  · exact put r p (k2 _ hp).1 (k2 _ hp).2

end

end Wagyu
