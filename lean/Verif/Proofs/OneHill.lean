import Verif.Proofs.ShapeMinima
import Verif.Props.Shape
import Verif.Spec.OneHill
import Verif.Props.RepeatedPoints

/-!
# A ring that rises once and falls once has one local minimum
-/

namespace Wagyu

open Spec Step

theorem OneHill.rotated {l l' : List Point} (h : OneHill l) (hr : l ~r l') : OneHill l' := by
  obtain ⟨u, d, h1, h2, h3⟩ := h
  exact ⟨u, d, hr.symm.trans h1, h2, h3⟩

theorem OneHill.sublist {l l' : List Point} (h : OneHill l) (hs : l'.Sublist l) : OneHill l' := by
  obtain ⟨u, d, h1, h2, h3⟩ := h
  obtain ⟨x, y, rfl, hk⟩ := rotated_split h1
  obtain ⟨x', y', rfl, hx, hy⟩ := List.sublist_append_iff.1 hs
  have hk' : (y' ++ x').Sublist (u ++ d) := by rw [hk]; exact hy.append hx
  obtain ⟨u', d', he, hu, hd⟩ := List.sublist_append_iff.1 hk'
  exact ⟨u', d', by rw [← he]; exact List.isRotated_append, h2.sublist hu, h3.sublist hd⟩

theorem OneHill.red {s t : Cycle Point} (h : ∃ l : List Point, (l : Cycle Point) = s ∧ OneHill l) (hr : Red s t) :
    ∃ l : List Point, (l : Cycle Point) = t ∧ OneHill l := by
  obtain ⟨l, h1, h2⟩ := h
  cases hr with
  | drop a b r _ => exact ⟨_, rfl, (h2.rotated (Cycle.coe_eq_coe.1 h1)).sublist (by simp)⟩
  | point a => exact ⟨_, rfl, (h2.rotated (Cycle.coe_eq_coe.1 h1)).sublist (by simp)⟩

/-- Straightening a ring keeps it a hill. -/
theorem OneHill.corners {l l' : List Point} (h : OneHill l) (hs : SameShape l l') (hc : Cornered l') (hl : l'.length ≠ 1) : OneHill l' := by
  obtain ⟨d, h1, h2⟩ := meet_of_shape hs
  rw [stays (fun _ => red_cornered hc hl) h2] at h1
  have : ∃ k : List Point, (k : Cycle Point) = (l' : Cycle Point) ∧ OneHill k := by
    revert h1
    generalize (l' : Cycle Point) = t
    intro h1
    induction h1 with
    | refl => exact ⟨l, rfl, h⟩
    | tail _ h ih => exact OneHill.red ih h
  obtain ⟨k, k1, k2⟩ := this
  exact k2.rotated (Cycle.coe_eq_coe.1 k1)

/-- In a rising part of a chain only the last step can go the other way. -/
theorem half_up : ∀ (P : List Step), P.IsChain Linked → (P.map Step.a).Pairwise (fun p q => p.y ≤ q.y) →
    ∃ P1 P2, P = P1 ++ P2 ∧ (∀ s ∈ P1, ¬ s.Up) ∧ ∀ s ∈ P2, ¬ s.Dn
  | [], _, _ => ⟨[], [], rfl, by simp, by simp⟩
  | [s], _, _ => by
    by_cases h : s.Up
    · exact ⟨[], [s], rfl, by simp, by simp; unfold Step.Dn; unfold Step.Up at h; omega⟩
    · exact ⟨[s], [], rfl, by simpa using h, by simp⟩
  | s :: t :: P, hc, hp => by
    obtain ⟨h1, h2⟩ := List.isChain_cons_cons.1 hc
    rw [List.map_cons, List.pairwise_cons] at hp
    obtain ⟨P1, P2, e, a1, a2⟩ := half_up (t :: P) h2 hp.2
    refine ⟨s :: P1, P2, by rw [e]; rfl, ?_, a2⟩
    intro x hx
    rcases List.mem_cons.1 hx with rfl | hx
    · have := hp.1 t.a (by simp)
      unfold Step.Up
      rw [h1.1]; omega
    · exact a1 x hx

theorem half_down : ∀ (P : List Step), P.IsChain Linked → (P.map Step.a).Pairwise (fun p q => q.y ≤ p.y) →
    ∃ P1 P2, P = P1 ++ P2 ∧ (∀ s ∈ P1, ¬ s.Dn) ∧ ∀ s ∈ P2, ¬ s.Up
  | [], _, _ => ⟨[], [], rfl, by simp, by simp⟩
  | [s], _, _ => by
    by_cases h : s.Dn
    · exact ⟨[], [s], rfl, by simp, by simp; unfold Step.Up; unfold Step.Dn at h; omega⟩
    · exact ⟨[s], [], rfl, by simpa using h, by simp⟩
  | s :: t :: P, hc, hp => by
    obtain ⟨h1, h2⟩ := List.isChain_cons_cons.1 hc
    rw [List.map_cons, List.pairwise_cons] at hp
    obtain ⟨P1, P2, e, a1, a2⟩ := half_down (t :: P) h2 hp.2
    refine ⟨s :: P1, P2, by rw [e]; rfl, ?_, a2⟩
    intro x hx
    rcases List.mem_cons.1 hx with rfl | hx
    · have := hp.1 t.a (by simp)
      unfold Step.Dn
      rw [h1.1]; omega
    · exact a1 x hx

/-- A closed chain on a hill goes one way and then the other way. -/
theorem hill_signs {S : List Step} (hS : Cyc S) (h : OneHill (S.map Step.a)) :
    ∃ p q, S ~r p ++ q ∧ (∀ s ∈ p, ¬ s.Up) ∧ ∀ s ∈ q, ¬ s.Dn := by
  obtain ⟨u, d, ⟨n, hn⟩, h2, h3⟩ := h
  rw [← List.map_rotate] at hn
  obtain ⟨P, Q, e, rfl, rfl⟩ := List.map_eq_append_iff.1 hn
  have hc := (hS.rotated n).chain
  rw [e] at hc
  obtain ⟨c1, c2, -⟩ := List.isChain_append.1 hc
  obtain ⟨P1, P2, rfl, a1, a2⟩ := half_up P c1 h2
  obtain ⟨Q1, Q2, rfl, b1, b2⟩ := half_down Q c2 h3
  refine ⟨Q2 ++ P1, P2 ++ Q1, ?_, ?_, ?_⟩
  · have hr : S ~r (P1 ++ P2 ++ Q1) ++ Q2 := ⟨n, by rw [e]; simp⟩
    refine hr.trans ?_
    have : Q2 ++ P1 ++ (P2 ++ Q1) = Q2 ++ (P1 ++ P2 ++ Q1) := by simp
    rw [this]
    exact List.isRotated_append
  · intro s hs
    rcases List.mem_append.1 hs with hs | hs
    · exact b2 s hs
    · exact a1 s hs
  · intro s hs
    rcases List.mem_append.1 hs with hs | hs
    · exact a2 s hs
    · exact b1 s hs

theorem split_four {α : Type} {x y : List α} {a b c d : α} (h : [a, b, c, d] = x ++ y) :
    (x = [] ∧ y = [a, b, c, d]) ∨ (x = [a] ∧ y = [b, c, d]) ∨ (x = [a, b] ∧ y = [c, d]) ∨ (x = [a, b, c] ∧ y = [d])
      ∨ (x = [a, b, c, d] ∧ y = []) := by
  rcases x with _ | ⟨x1, _ | ⟨x2, _ | ⟨x3, _ | ⟨x4, _ | ⟨x5, x⟩⟩⟩⟩⟩ <;> simp at h <;> simp [h]

theorem Block.Good.pair {B : Block} (h : B.Good) : ∃ d u, [d, u].Sublist B.steps ∧ d.Dn ∧ u.Up := by
  obtain ⟨d, l, h1, h2⟩ := h.head
  obtain ⟨u, h3, h4⟩ := h.has_up
  refine ⟨d, u, ?_, h2, h4⟩
  rw [h1] at h3 ⊢
  rcases List.mem_cons.1 h3 with rfl | h3
  · unfold Step.Dn at h2; unfold Step.Up at h4; omega
  · exact List.cons_sublist_cons.2 (List.singleton_sublist.2 h3)

/-- So there is only one block. -/
theorem hill_block {bl : List Block} (hg : ∀ B ∈ bl, B.Good) {p q : List Step} (h : bl.flatMap Block.steps ~r p ++ q) (hp : ∀ s ∈ p, ¬ s.Up)
    (hq : ∀ s ∈ q, ¬ s.Dn) : bl.length ≤ 1 := by
  match bl, hg, h with
  | [], _, _ => simp
  | [_], _, _ => simp
  | B :: C :: r, hg, h =>
    exfalso
    obtain ⟨d1, u1, s1, hd1, hu1⟩ := (hg B (by simp)).pair
    obtain ⟨d2, u2, s2, hd2, hu2⟩ := (hg C (by simp)).pair
    have hs : [d1, u1, d2, u2].Sublist ((B :: C :: r).flatMap Block.steps) := by
      rw [List.flatMap_cons, List.flatMap_cons]
      exact s1.append (s2.trans (List.sublist_append_left _ _))
    obtain ⟨n, hn⟩ := h
    rw [List.rotate_eq_drop_append_take_mod] at hn
    rw [← List.take_append_drop (n % ((B :: C :: r).flatMap Block.steps).length) ((B :: C :: r).flatMap Block.steps)] at hs
    obtain ⟨x, y, he, hx, hy⟩ := List.sublist_append_iff.1 hs
    have hk := hy.append hx
    rw [hn] at hk
    obtain ⟨p', q', he', hp', hq'⟩ := List.sublist_append_iff.1 hk
    have np : ∀ s ∈ p', ¬ s.Up := fun s h => hp s (hp'.subset h)
    have nq : ∀ s ∈ q', ¬ s.Dn := fun s h => hq s (hq'.subset h)
    rcases split_four he with ⟨rfl, rfl⟩ | ⟨rfl, rfl⟩ | ⟨rfl, rfl⟩ | ⟨rfl, rfl⟩ | ⟨rfl, rfl⟩ <;>
      rcases split_four (show _ = p' ++ q' from he') with ⟨rfl, rfl⟩ | ⟨rfl, rfl⟩ | ⟨rfl, rfl⟩ | ⟨rfl, rfl⟩ | ⟨rfl, rfl⟩ <;>
      (have n1 := np u1
       have n2 := np u2
       have n3 := nq d1
       have n4 := nq d2
       simp [hu1, hu2, hd1, hd2] at n1 n2 n3 n4)

end Wagyu
