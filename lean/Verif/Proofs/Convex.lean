import Verif.Proofs.OneHill

/-!
# Convex rings rise once and fall once
-/

namespace Wagyu
open Spec

theorem no_valley : ∀ (l : List Point), (∀ a b c, [a, b, c].Sublist l → ¬ (b.y < a.y ∧ b.y < c.y)) →
    ∃ u d, l = u ++ d ∧ u.Pairwise (fun p q => p.y ≤ q.y) ∧ d.Pairwise (fun p q => q.y ≤ p.y)
  | [], _ => ⟨[], [], rfl, .nil, .nil⟩
  | x :: l, h => by
    obtain ⟨u, d, rfl, h1, h2⟩ := no_valley l fun a b c hs => h a b c (hs.trans (List.sublist_cons_self x l))
    cases u with
    | nil =>
      cases d with
      | nil => exact ⟨[x], [], rfl, List.pairwise_singleton _ _, .nil⟩
      | cons y d =>
        by_cases hxy : x.y ≤ y.y
        · exact ⟨[x], y :: d, rfl, List.pairwise_singleton _ _, h2⟩
        · refine ⟨[], x :: y :: d, rfl, .nil, List.pairwise_cons.2 ⟨?_, h2⟩⟩
          intro z hz
          rcases List.mem_cons.1 hz with rfl | hz
          · omega
          · have := (List.pairwise_cons.1 h2).1 z hz
            omega
    | cons y u =>
      obtain ⟨g1, g2⟩ := List.pairwise_cons.1 h1
      by_cases hxy : x.y ≤ y.y
      · refine ⟨x :: y :: u, d, rfl, List.pairwise_cons.2 ⟨?_, h1⟩, h2⟩
        intro z hz
        rcases List.mem_cons.1 hz with rfl | hz
        · omega
        · have := g1 z hz
          omega
      · have low : ∀ c ∈ u ++ d, c.y ≤ y.y := by
          intro c hc
          by_contra hn
          refine h x y c ?_ ⟨by omega, by omega⟩
          exact List.cons_sublist_cons.2 (List.cons_sublist_cons.2 (List.singleton_sublist.2 hc))
        refine ⟨[], x :: (y :: u ++ d), rfl, .nil, List.pairwise_cons.2 ⟨?_, List.pairwise_append.2 ⟨?_, h2, ?_⟩⟩⟩
        · intro z hz
          rcases List.mem_cons.1 hz with rfl | hz
          · omega
          · have := low z hz
            omega
        · refine List.pairwise_cons.2 ⟨fun z hz => low z (by simp [hz]), ?_⟩
          refine g2.imp_of_mem ?_
          intro a b ha hb _
          have h3 := g1 a ha
          have h4 := low b (by simp [hb])
          omega
        · intro a ha b hb
          have h4 := low b (by simp [hb])
          rcases List.mem_cons.1 ha with rfl | ha
          · exact h4
          · have h3 := g1 a ha
            omega

theorem turn_cycle (p q r : Point) : triangleTurn q r p = triangleTurn p q r := by unfold triangleTurn; ring

theorem convex_split {x y : List Point} (h : ∀ p q r, [p, q, r].Sublist (x ++ y) → 0 < triangleTurn p q r) :
    ∀ p q r, [p, q, r].Sublist (y ++ x) → 0 < triangleTurn p q r := by
  intro p q r hs
  obtain ⟨s, t, he, h1, h2⟩ := List.sublist_append_iff.1 hs
  have h3 := h2.append h1
  rcases s with _ | ⟨s1, _ | ⟨s2, _ | ⟨s3, _ | ⟨s4, s⟩⟩⟩⟩ <;> simp at he
  · subst he; exact h _ _ _ (by simpa using h3)
  · obtain ⟨rfl, rfl⟩ := he
    have := h _ _ _ h3
    rwa [turn_cycle] at this
  · obtain ⟨rfl, rfl, rfl⟩ := he
    have := h _ _ _ h3
    rwa [← turn_cycle] at this
  · obtain ⟨rfl, rfl, rfl, rfl⟩ := he
    exact h _ _ _ (by simpa using h3)

theorem hill_of_turns {ring : List Point} (h : ∀ p q r, [p, q, r].Sublist ring → 0 < triangleTurn p q r) : OneHill ring := by
  by_cases hn : ring = []
  · subst hn; exact ⟨[], [], .refl _, .nil, .nil⟩
  obtain ⟨o, ho, hmin⟩ : ∃ o ∈ ring, ∀ p ∈ ring, o.y ≤ p.y := by
    have hne : ring.toFinset.Nonempty := by
      obtain ⟨a, ha⟩ := List.exists_mem_of_ne_nil _ hn
      exact ⟨a, List.mem_toFinset.2 ha⟩
    obtain ⟨o, h1, h2⟩ := Finset.exists_min_image ring.toFinset Point.y hne
    exact ⟨o, List.mem_toFinset.1 h1, fun p hp => h2 p (List.mem_toFinset.2 hp)⟩
  obtain ⟨x, y, rfl⟩ := List.append_of_mem ho
  have h' := convex_split h
  refine OneHill.rotated (l := o :: y ++ x) ?_ List.isRotated_append
  rw [List.cons_append] at h' ⊢
  have key : ∀ a b c, [a, b, c].Sublist (o :: (y ++ x)) → ¬ (b.y < a.y ∧ b.y < c.y) := by
    intro a b c hs ⟨hba, hbc⟩
    have mem : ∀ p ∈ o :: (y ++ x), o.y ≤ p.y := by
      intro p hp
      apply hmin
      simp only [List.mem_cons, List.mem_append] at hp ⊢
      tauto
    have hob := mem b (hs.subset (by simp))
    -- `a` is not `o`
    have hs' : [a, b, c].Sublist (y ++ x) := by
      cases hs with
      | cons _ hs => exact hs
      | cons_cons _ hs => omega
    have t1 := h' o a b (List.cons_sublist_cons.2 ((List.Sublist.refl _ : [a, b].Sublist [a, b]).trans (.trans (by simp) hs')))
    have t2 := h' o b c (List.cons_sublist_cons.2 (.trans (by simp) hs'))
    have t3 := h' o a c (List.cons_sublist_cons.2 (.trans (by simp) hs'))
    have t4 := h' a b c (hs'.cons _)
    unfold triangleTurn at *
    have e : (((a.x - o.x) * (c.y - o.y) - (a.y - o.y) * (c.x - o.x))) * (b.y - o.y)
      = ((b.x - o.x) * (c.y - o.y) - (b.y - o.y) * (c.x - o.x)) * (a.y - o.y)
        + ((a.x - o.x) * (b.y - o.y) - (a.y - o.y) * (b.x - o.x)) * (c.y - o.y) := by ring
    have s : (b.x - a.x) * (c.y - a.y) - (b.y - a.y) * (c.x - a.x) =
      ((a.x - o.x) * (b.y - o.y) - (a.y - o.y) * (b.x - o.x)) + ((b.x - o.x) * (c.y - o.y) - (b.y - o.y) * (c.x - o.x))
       - ((a.x - o.x) * (c.y - o.y) - (a.y - o.y) * (c.x - o.x)) := by ring
    rw [s] at t4
    generalize (a.x - o.x) * (b.y - o.y) - (a.y - o.y) * (b.x - o.x) = A at *
    generalize (b.x - o.x) * (c.y - o.y) - (b.y - o.y) * (c.x - o.x) = B at *
    generalize (a.x - o.x) * (c.y - o.y) - (a.y - o.y) * (c.x - o.x) = C at *
    have k1 : B * (b.y - o.y) < B * (a.y - o.y) := mul_lt_mul_of_pos_left (by omega) t2
    have k2 : A * (b.y - o.y) < A * (c.y - o.y) := mul_lt_mul_of_pos_left (by omega) t1
    have k3 : C * (b.y - o.y) ≤ (A + B) * (b.y - o.y) := mul_le_mul_of_nonneg_right (by omega) (by omega)
    rw [add_mul] at k3
    omega
  obtain ⟨u, d, he, h1, h2⟩ := no_valley _ key
  exact ⟨u, d, by rw [he], h1, h2⟩

theorem OneHill.reversed {l : List Point} (h : OneHill l.reverse) : OneHill l := by
  obtain ⟨u, d, h1, h2, h3⟩ := h
  have := h1.reverse
  rw [List.reverse_reverse, List.reverse_append] at this
  exact ⟨d.reverse, u.reverse, this, List.pairwise_reverse.2 h3, List.pairwise_reverse.2 h2⟩

end Wagyu
