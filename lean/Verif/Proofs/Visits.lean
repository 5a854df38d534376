import Verif.Spec.Scanlines
import Verif.Proofs.SweepBase
import Verif.Proofs.TwoRun

/-!
# Loops over scanlines
-/

namespace Wagyu

open Spec

theorem visits_of {step : Int → List LocalMinimum → M (Int × List LocalMinimum)} (J : Int → List LocalMinimum → St → Prop)
    (μ : List LocalMinimum → St → Nat)
    (h : ∀ y Y rest s, J Y rest s → ¬ (s.scan = [] ∧ rest = []) →
      Tot (step y rest) s fun r s' => r.1 ≤ Y ∧ J r.1 r.2 s' ∧ μ r.2 s' < μ rest s) :
    ∀ (c : Nat) (y Y : Int) (rest : List LocalMinimum) (s : St), μ rest s ≤ c → J Y rest s →
      ∃ ys : List Int, ys.length ≤ μ rest s ∧ ys.Pairwise (· ≥ ·) ∧ (∀ v ∈ ys, v ≤ Y) ∧ ∃ N : Nat,
        (∃ (s' : St) (Y' : Int), J Y' [] s' ∧ ∀ k, N ≤ k → Visits step y rest (s.wf k) ys (.ok () (s'.wf k)))
        ∨ ∃ (e : Err) (s' : St), e.Real ∧ ∀ k, N ≤ k → Visits step y rest (s.wf k) ys (.err e (s'.wf k)) := by
  intro c
  induction c with
  | zero =>
    intro y Y rest s hc hJ
    by_cases hd : s.scan = [] ∧ rest = []
    · obtain ⟨hd, rfl⟩ := hd
      exact ⟨[], by simp, List.Pairwise.nil, by simp, 0, Or.inl ⟨s, Y, hJ, fun k _ => .done hd⟩⟩
    · obtain ⟨N, ⟨a, s', h2, h3, h4, h5⟩ | ⟨e, s', h2, h3⟩⟩ := h y Y rest s hJ hd
      · omega
      · exact ⟨[], by simp, List.Pairwise.nil, by simp, N, Or.inr ⟨e, s', h2, fun k hk => .stop hd (h3 k hk)⟩⟩
  | succ c ih =>
    intro y Y rest s hc hJ
    by_cases hd : s.scan = [] ∧ rest = []
    · obtain ⟨hd, rfl⟩ := hd
      exact ⟨[], by simp, List.Pairwise.nil, by simp, 0, Or.inl ⟨s, Y, hJ, fun k _ => .done hd⟩⟩
    · obtain ⟨N, ⟨⟨y', rest'⟩, s', h2, h3, h4, h5⟩ | ⟨e, s', h2, h3⟩⟩ := h y Y rest s hJ hd
      · dsimp only at h3 h4 h5
        obtain ⟨ys, a1, a2, a3, N', a4⟩ := ih y' y' rest' s' (by omega) h4
        refine ⟨y' :: ys, by simp only [List.length_cons]; omega, List.pairwise_cons.2 ⟨fun v hv => a3 v hv, a2⟩, ?_, max N N', ?_⟩
        · intro v hv
          rcases List.mem_cons.1 hv with rfl | hv
          · exact h3
          · exact (a3 v hv).trans h3
        · rcases a4 with ⟨s2, Y2, b0, b1⟩ | ⟨e, s2, b1, b2⟩
          · exact Or.inl ⟨s2, Y2, b0, fun k hk => .next hd (h2 k (le_trans (le_max_left _ _) hk)) (b1 k (le_trans (le_max_right _ _) hk))⟩
          · exact Or.inr ⟨e, s2, b1, fun k hk => .next hd (h2 k (le_trans (le_max_left _ _) hk)) (b2 k (le_trans (le_max_right _ _) hk))⟩
      · exact ⟨[], by simp, List.Pairwise.nil, by simp, N, Or.inr ⟨e, s', h2, fun k hk => .stop hd (h3 k hk)⟩⟩

/-! ## Sorting -/

theorem sortedInsert_mem {α : Type} {lt : α → α → Bool} {x y : α} {l : List α} (h : y ∈ sortedInsert lt x l) : y = x ∨ y ∈ l := by
  induction l with
  | nil => simpa [sortedInsert] using h
  | cons a l ih =>
    unfold sortedInsert at h
    split at h
    · rcases List.mem_cons.1 h with rfl | h
      · simp
      · rcases ih h with rfl | h <;> simp [*]
    · simpa using h

theorem pySorted_pairwise {α : Type} {lt : α → α → Bool} {R : α → α → Prop} (h1 : ∀ a b, lt a b = true → R a b)
    (h2 : ∀ a b, lt b a = false → R a b) (ht : ∀ a b c, R a b → R b c → R a c) (l : List α) : (pySorted lt l).Pairwise R := by
  have ins : ∀ (x : α) (l : List α), l.Pairwise R → (sortedInsert lt x l).Pairwise R := by
    intro x l
    induction l with
    | nil => intro _; simp [sortedInsert]
    | cons a l ih =>
      intro h
      obtain ⟨p1, p2⟩ := List.pairwise_cons.1 h
      unfold sortedInsert
      split
      · next hlt =>
        refine List.pairwise_cons.2 ⟨fun b hb => ?_, ih p2⟩
        rcases sortedInsert_mem hb with rfl | hb
        · exact h1 _ _ hlt
        · exact p1 b hb
      · next hlt =>
        have hxa := h2 x a (by simpa using hlt)
        refine List.pairwise_cons.2 ⟨fun b hb => ?_, h⟩
        rcases List.mem_cons.1 hb with rfl | hb
        · exact hxa
        · exact ht _ _ _ hxa (p1 b hb)
  induction l with
  | nil => exact List.Pairwise.nil
  | cons a l ih => exact ins a _ ih

/-- Lower rows first, in a row the minima with a horizontal edge first. -/
def MinOrder (a b : LocalMinimum) : Prop := b.y < a.y ∨ (a.y = b.y ∧ (b.hasHorizontal = true → a.hasHorizontal = true))

theorem sortedMinimums_order (l : List LocalMinimum) : (sortedMinimums l).Pairwise MinOrder := by
  refine pySorted_pairwise ?_ ?_ ?_ l
  · intro a b h
    simp only [LocalMinimum.lt, Bool.or_eq_true, Bool.and_eq_true, decide_eq_true_eq, Bool.not_eq_true'] at h
    unfold MinOrder
    rcases h with h | ⟨h1, h2, h3⟩
    · exact Or.inl h
    · exact Or.inr ⟨h1.symm, fun _ => h3⟩
  · intro a b h
    simp only [LocalMinimum.lt, Bool.or_eq_false_iff, Bool.and_eq_false_iff, decide_eq_false_iff_not, Bool.not_eq_false'] at h
    unfold MinOrder
    obtain ⟨h1, h2⟩ := h
    rcases h2 with h2 | h2 | h2
    · left; omega
    · by_cases e : a.y = b.y
      · exact Or.inr ⟨e, fun _ => h2⟩
      · left; omega
    · by_cases e : a.y = b.y
      · exact Or.inr ⟨e, fun h => by rw [h2] at h; cases h⟩
      · left; omega
  · intro a b c
    unfold MinOrder
    rintro (h | ⟨h, h'⟩) (k | ⟨k, k'⟩)
    · left; omega
    · left; omega
    · left; omega
    · exact Or.inr ⟨by omega, fun h => h' (k' h)⟩

theorem sortedMinimums_perm (l : List LocalMinimum) : (sortedMinimums l).Perm l := pySorted_perm' _ _

theorem scanbeams_sorted (m : Minimums) : m.scanbeams.Pairwise (· ≤ ·) := by
  refine pySorted_pairwise ?_ ?_ ?_ _
  · intro a b h; have := of_decide_eq_true h; omega
  · intro a b h; have := of_decide_eq_false h; omega
  · intro a b c; omega

theorem mem_scanbeams {m : Minimums} {y : Int} : y ∈ m.scanbeams ↔ ∃ v ∈ m.values, v.y = y := by
  unfold Minimums.scanbeams
  rw [(pySorted_perm' _ _).mem_iff, List.mem_map]

theorem scanbeams_length (m : Minimums) : m.scanbeams.length = m.values.length := by
  unfold Minimums.scanbeams
  rw [(pySorted_perm' _ _).length_eq, List.length_map]

end Wagyu
