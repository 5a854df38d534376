import Verif.Model.Seq
import Verif.Spec.Swaps
import Mathlib.Data.List.Basic
import Mathlib.Data.List.Nodup
import Mathlib.Data.List.Perm.Basic
import Mathlib.Tactic.Linarith

/-!
# bubble_sort.py
-/

namespace Wagyu

open Spec

section
variable {α : Type}

theorem before_nil (x y : α) : ¬ Before [] x y := by simp [Before]

theorem before_cons (a : α) (l : List α) (x y : α) : Before (a :: l) x y ↔ (x = a ∧ y ∈ l) ∨ Before l x y := by
  constructor
  · intro h
    unfold Before at h ⊢
    cases h with
    | cons _ h => exact Or.inr h
    | cons_cons _ h => exact Or.inl ⟨rfl, List.singleton_sublist.1 h⟩
  · rintro (⟨rfl, h⟩ | h)
    · exact (List.singleton_sublist.2 h).cons_cons _
    · exact List.Sublist.cons _ h

theorem before_append (p q : List α) (x y : α) :
    Before (p ++ q) x y ↔ Before p x y ∨ (x ∈ p ∧ y ∈ q) ∨ Before q x y := by
  induction p with
  | nil => simp [before_nil]
  | cons a p ih =>
    simp only [List.cons_append, before_cons, ih, List.mem_append, List.mem_cons]
    tauto

theorem Spec.Before.mem_left {l : List α} {x y : α} (h : Before l x y) : x ∈ l := h.subset (by simp)
theorem Spec.Before.mem_right {l : List α} {x y : α} (h : Before l x y) : y ∈ l := h.subset (by simp)

theorem before_asymm {l : List α} (hl : l.Nodup) {x y : α} (h : Before l x y) : ¬ Before l y x := by
  induction l with
  | nil => exact absurd h (before_nil _ _)
  | cons a l ih =>
    rw [List.nodup_cons] at hl
    rw [before_cons] at h ⊢
    rintro (⟨rfl, h2⟩ | h2)
    · rcases h with ⟨rfl, h⟩ | h
      · exact hl.1 h
      · exact hl.1 (Spec.Before.mem_right h)
    · rcases h with ⟨rfl, h⟩ | h
      · exact hl.1 (Spec.Before.mem_right h2)
      · exact ih hl.2 h h2

theorem before_irrefl {l : List α} (hl : l.Nodup) (x : α) : ¬ Before l x x := fun h => before_asymm hl h h

theorem before_total {l : List α} {x y : α} (hx : x ∈ l) (hy : y ∈ l) (hne : x ≠ y) : Before l x y ∨ Before l y x := by
  induction l with
  | nil => cases hx
  | cons a l ih =>
    simp only [before_cons]
    rcases List.mem_cons.1 hx with hx | hx <;> rcases List.mem_cons.1 hy with hy | hy
    · exact absurd (hx.trans hy.symm) hne
    · exact Or.inl (Or.inl ⟨hx, hy⟩)
    · exact Or.inr (Or.inl ⟨hy, hx⟩)
    · rcases ih hx hy with h | h
      · exact Or.inl (Or.inr h)
      · exact Or.inr (Or.inr h)

/-- Exchanging two neighbours changes their relative order only. -/
theorem before_swap (p s : List α) (a b x y : α) (hne : (p ++ a :: b :: s).Nodup) :
    Before (p ++ b :: a :: s) x y ↔ (Before (p ++ a :: b :: s) x y ∧ ¬ (x = a ∧ y = b)) ∨ (x = b ∧ y = a) := by
  have hab : a ≠ b := by
    have := (List.nodup_append.1 hne).2.1
    simp only [List.nodup_cons, List.mem_cons, not_or] at this
    exact this.1.1
  have hp : ∀ z ∈ p, z ≠ a ∧ z ≠ b := by
    intro z hz
    have := (List.nodup_append.1 hne).2.2 z hz
    exact ⟨this a (by simp), this b (by simp)⟩
  have hs : a ∉ s ∧ b ∉ s := by
    have := (List.nodup_append.1 hne).2.1
    simp only [List.nodup_cons, List.mem_cons, not_or] at this
    exact ⟨this.1.2, this.2.1⟩
  simp only [before_append, before_cons, List.mem_cons]
  constructor
  · rintro (h | ⟨h1, h2⟩ | ⟨rfl, h⟩ | ⟨rfl, h⟩ | h)
    · exact Or.inl ⟨Or.inl h, fun h' => (hp x (Spec.Before.mem_left h)).1 h'.1⟩
    · exact Or.inl ⟨Or.inr (Or.inl ⟨h1, by tauto⟩), fun h' => (hp x h1).1 h'.1⟩
    · rcases h with rfl | h
      · exact Or.inr ⟨rfl, rfl⟩
      · exact Or.inl ⟨Or.inr (Or.inr (Or.inr (Or.inl ⟨rfl, h⟩))), fun h' => hab h'.1.symm⟩
    · exact Or.inl ⟨Or.inr (Or.inr (Or.inl ⟨rfl, Or.inr h⟩)), fun h' => hs.2 (h'.2 ▸ h)⟩
    · exact Or.inl ⟨Or.inr (Or.inr (Or.inr (Or.inr h))), fun h' => hs.1 (h'.1 ▸ (Spec.Before.mem_left h))⟩
  · rintro (⟨h | ⟨h1, h2⟩ | ⟨rfl, h⟩ | ⟨rfl, h⟩ | h, hn⟩ | ⟨rfl, rfl⟩)
    · exact Or.inl h
    · exact Or.inr (Or.inl ⟨h1, by tauto⟩)
    · rcases h with rfl | h
      · exact absurd ⟨rfl, rfl⟩ hn
      · exact Or.inr (Or.inr (Or.inr (Or.inl ⟨rfl, h⟩)))
    · exact Or.inr (Or.inr (Or.inl ⟨rfl, Or.inr h⟩))
    · exact Or.inr (Or.inr (Or.inr (Or.inr h)))
    · exact Or.inr (Or.inr (Or.inl ⟨rfl, Or.inl rfl⟩))

theorem perm_swap_at (p s : List α) (a b : α) : (p ++ b :: a :: s).Perm (p ++ a :: b :: s) :=
  List.Perm.append_left p (List.Perm.swap a b s)

theorem Spec.AdjSwaps.perm {l r : List α} {ss : List (α × α)} (h : AdjSwaps l ss r) : r.Perm l := by
  induction h with
  | refl => exact List.Perm.refl _
  | step _ ih => exact ih.trans (perm_swap_at _ _ _ _)

theorem Spec.AdjSwaps.trans {l m r : List α} {ss tt : List (α × α)} (h : AdjSwaps l ss m) (h' : AdjSwaps m tt r) :
    AdjSwaps l (ss ++ tt) r := by
  induction h with
  | refl => exact h'
  | step _ ih => exact AdjSwaps.step (ih h')

theorem Spec.AdjSwaps.cons {l r : List α} {ss : List (α × α)} (h : AdjSwaps l ss r) (c : α) : AdjSwaps (c :: l) ss (c :: r) := by
  induction h with
  | refl => exact AdjSwaps.refl _
  | @step p s a b ss r _ ih => exact AdjSwaps.step (p := c :: p) ih

/-- In a run of exchanges of pairs that are decreasing in an asymmetric order, every pair is exchanged at most once, and
exactly the pairs whose order differs between the two ends are exchanged. -/
theorem Spec.AdjSwaps.spec (lt : α → α → Prop) (has : ∀ a b, lt a b → ¬ lt b a) {l r : List α} {ss : List (α × α)}
    (h : AdjSwaps l ss r) (hl : l.Nodup) (hlt : ∀ q ∈ ss, lt q.2 q.1) :
    ss.Nodup ∧ ∀ x y, (x, y) ∈ ss ↔ Before l x y ∧ Before r y x := by
  induction h with
  | refl l =>
    refine ⟨List.nodup_nil, fun x y => ?_⟩
    simp only [List.not_mem_nil, false_iff, not_and]
    exact fun h => before_asymm hl h
  | @step p s a b ss r h ih =>
    have hl' : (p ++ b :: a :: s).Nodup := (perm_swap_at p s a b).nodup_iff.2 hl
    obtain ⟨ih1, ih2⟩ := ih hl' (fun q hq => hlt q (List.mem_cons_of_mem _ hq))
    have hba : lt b a := hlt (a, b) (by simp)
    have hab : a ≠ b := by rintro rfl; exact has _ _ hba hba
    have hr : r.Nodup := h.perm.nodup_iff.2 hl'
    have nba : (b, a) ∉ ss := fun hm => has _ _ hba (hlt (b, a) (List.mem_cons_of_mem _ hm))
    have bl : Before (p ++ a :: b :: s) a b := by
      rw [before_append, before_cons]; exact Or.inr (Or.inr (Or.inl ⟨rfl, by simp⟩))
    have bl' : Before (p ++ b :: a :: s) b a := by
      rw [before_append, before_cons]; exact Or.inr (Or.inr (Or.inl ⟨rfl, by simp⟩))
    have nab : (a, b) ∉ ss := fun hm => before_asymm hl' ((ih2 a b).1 hm).1 bl'
    have br : Before r b a := by
      rcases before_total (h.perm.mem_iff.2 (show a ∈ _ by simp)) (h.perm.mem_iff.2 (show b ∈ _ by simp)) hab with h1 | h1
      · exact absurd ((ih2 b a).2 ⟨bl', h1⟩) nba
      · exact h1
    refine ⟨List.nodup_cons.2 ⟨nab, ih1⟩, fun x y => ?_⟩
    rw [List.mem_cons, ih2, before_swap p s a b x y hl]
    constructor
    · rintro (h1 | ⟨⟨h1, h2⟩ | ⟨rfl, rfl⟩, h3⟩)
      · cases h1; exact ⟨bl, br⟩
      · exact ⟨h1, h3⟩
      · exact absurd h3 (before_asymm hr br)
    · rintro ⟨h1, h2⟩
      by_cases hxy : x = a ∧ y = b
      · left; rw [hxy.1, hxy.2]
      · exact Or.inr ⟨Or.inl ⟨h1, hxy⟩, h2⟩

/-! ## Termination -/

variable (lt : α → α → Prop) [DecidableRel lt]

/-- The number of inversions. -/
def inversions : List α → Nat
  | [] => 0
  | a :: l => l.countP (fun b => decide (lt b a)) + inversions l

theorem inversions_swap (has : ∀ a b, lt a b → ¬ lt b a) (p s : List α) (a b : α) (h : lt b a) :
    inversions lt (p ++ b :: a :: s) + 1 = inversions lt (p ++ a :: b :: s) := by
  induction p with
  | nil =>
    simp only [List.nil_append, inversions, List.countP_cons, h, has b a h, decide_true, decide_false, if_true]
    simp
    omega
  | cons c p ih =>
    simp only [List.cons_append, inversions]
    have := (perm_swap_at p s a b).countP_eq (fun x => decide (lt x c))
    omega

theorem Spec.AdjSwaps.inversions (has : ∀ a b, lt a b → ¬ lt b a) {l r : List α} {ss : List (α × α)}
    (h : AdjSwaps l ss r) (hlt : ∀ q ∈ ss, lt q.2 q.1) :
    Wagyu.inversions lt r + ss.length = Wagyu.inversions lt l := by
  induction h with
  | refl => rfl
  | @step p s a b ss r h ih =>
    have := ih (fun q hq => hlt q (List.mem_cons_of_mem _ hq))
    have h2 := inversions_swap lt has p s a b (hlt (a, b) (by simp))
    simp only [List.length_cons]
    omega

end

section
variable {α : Type} (cmp : α → α → Bool)

theorem bubblePass_swaps (a : α) (l : List α) :
    AdjSwaps (a :: l) (bubblePass cmp a l).2 (bubblePass cmp a l).1 ∧ ∀ q ∈ (bubblePass cmp a l).2, cmp q.1 q.2 = false := by
  induction l generalizing a with
  | nil => exact ⟨AdjSwaps.refl _, by simp [bubblePass]⟩
  | cons b l ih =>
    rw [bubblePass]
    split
    · obtain ⟨h1, h2⟩ := ih b
      exact ⟨h1.cons a, h2⟩
    · next h =>
      obtain ⟨h1, h2⟩ := ih a
      refine ⟨AdjSwaps.step (p := []) (h1.cons b), ?_⟩
      intro q hq
      rcases List.mem_cons.1 hq with rfl | hq
      · simpa using h
      · exact h2 q hq

theorem bubblePass_nil (a : α) (l : List α) (h : (bubblePass cmp a l).2 = []) :
    (bubblePass cmp a l).1 = a :: l ∧ (a :: l).IsChain (fun x y => cmp x y = true) := by
  induction l generalizing a with
  | nil => exact ⟨rfl, by simp⟩
  | cons b l ih =>
    rw [bubblePass] at h ⊢
    split
    · next hc =>
      rw [if_pos hc] at h
      obtain ⟨h1, h2⟩ := ih b h
      dsimp only
      rw [h1]
      exact ⟨rfl, List.isChain_cons_cons.2 ⟨hc, h2⟩⟩
    · next hc => rw [if_neg hc] at h; simp at h

theorem bubblePassL_swaps (l : List α) :
    AdjSwaps l (bubblePassL cmp l).2 (bubblePassL cmp l).1 ∧ ∀ q ∈ (bubblePassL cmp l).2, cmp q.1 q.2 = false := by
  cases l with
  | nil => exact ⟨AdjSwaps.refl _, by simp [bubblePassL]⟩
  | cons a l => exact bubblePass_swaps cmp a l

theorem bubblePassL_nil (l : List α) (h : (bubblePassL cmp l).2 = []) :
    (bubblePassL cmp l).1 = l ∧ l.IsChain (fun x y => cmp x y = true) := by
  cases l with
  | nil => exact ⟨rfl, List.IsChain.nil⟩
  | cons a l => exact bubblePass_nil cmp a l h

theorem bubbleSort_spec (fuel : Nat) (l r : List α) (ss : List (α × α)) (h : bubbleSort cmp fuel l = some (r, ss)) :
    AdjSwaps l ss r ∧ (∀ q ∈ ss, cmp q.1 q.2 = false) ∧ r.IsChain (fun x y => cmp x y = true) := by
  induction fuel generalizing l r ss with
  | zero => cases h
  | succ n ih =>
    rw [bubbleSort] at h
    dsimp only at h
    split at h
    · next he =>
      rw [List.isEmpty_iff] at he
      obtain ⟨h1, h2⟩ := bubblePassL_nil cmp l he
      cases h
      rw [h1]
      exact ⟨AdjSwaps.refl _, by simp, h2⟩
    · split at h
      · cases h
      · next r' s' hb =>
        obtain ⟨i1, i2, i3⟩ := ih _ _ _ hb
        obtain ⟨p1, p2⟩ := bubblePassL_swaps cmp l
        cases h
        refine ⟨p1.trans i1, ?_, i3⟩
        intro q hq
        rcases List.mem_append.1 hq with h | h
        · exact p2 q h
        · exact i2 q h

theorem bubbleSort_terminates (lt : α → α → Prop) [DecidableRel lt] (has : ∀ a b, lt a b → ¬ lt b a)
    (fuel : Nat) (l : List α) (hcmp : ∀ a ∈ l, ∀ b ∈ l, cmp a b = false → lt b a) (hf : inversions lt l < fuel) :
    ∃ r ss, bubbleSort cmp fuel l = some (r, ss) := by
  induction fuel generalizing l with
  | zero => omega
  | succ n ih =>
    rw [bubbleSort]
    dsimp only
    split
    · exact ⟨_, _, rfl⟩
    · next he =>
      obtain ⟨p1, p2⟩ := bubblePassL_swaps cmp l
      have hmem : ∀ q ∈ (bubblePassL cmp l).2, q.1 ∈ l ∧ q.2 ∈ l := by
        have : ∀ {l : List α} {ss r}, AdjSwaps l ss r → ∀ q ∈ ss, q.1 ∈ l ∧ q.2 ∈ l := by
          intro l ss r h
          induction h with
          | refl => simp
          | @step p s a b ss r h ih =>
            intro q hq
            rcases List.mem_cons.1 hq with rfl | hq
            · simp
            · have := ih q hq
              simp only [List.mem_append, List.mem_cons] at this ⊢
              tauto
        exact this p1
      have hlt : ∀ q ∈ (bubblePassL cmp l).2, lt q.2 q.1 :=
        fun q hq => hcmp _ (hmem q hq).1 _ (hmem q hq).2 (p2 q hq)
      have hinv := p1.inversions lt has hlt
      have hpos : 0 < (bubblePassL cmp l).2.length := by
        rw [List.length_pos_iff]
        intro h; rw [h] at he; simp at he
      obtain ⟨r, ss, hr⟩ := ih (bubblePassL cmp l).1
        (fun a ha b hb => hcmp a (p1.perm.mem_iff.1 ha) b (p1.perm.mem_iff.1 hb)) (by omega)
      rw [hr]
      exact ⟨_, _, rfl⟩

end

end Wagyu
