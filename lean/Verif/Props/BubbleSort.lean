import Verif.Proofs.Bubble
import Verif.Model.Sweep
import Mathlib.Tactic.Linarith
import Mathlib.Data.Rat.Floor

/-!
# C09: `bubble_sort` is a terminating adjacent-swap sort
-/

namespace Wagyu

open Spec

/-- **C09.** When `bubble_sort` returns, the calls of `on_swap` it made are exactly the exchanges of neighbours (left one
first) that turn the given list into the result, every exchanged pair was rejected by the comparator, the result is a
permutation of the given list, and no neighbours in it are rejected.  (The given list is not changed: the function
sorts a copy, bubble_sort.py:10.) -/
theorem C09_result {α : Type} (cmp : α → α → Bool) (fuel : Nat) (l r : List α) (ss : List (α × α))
    (h : bubbleSort cmp fuel l = some (r, ss)) :
    AdjSwaps l ss r ∧ (∀ a b, (a, b) ∈ ss → cmp a b = false) ∧ r.Perm l ∧ r.IsChain (fun a b => cmp a b = true) := by
  obtain ⟨h1, h2, h3⟩ := bubbleSort_spec cmp fuel l r ss h
  exact ⟨h1, fun a b hab => h2 _ hab, h1.perm, h3⟩

theorem inversions_le {α : Type} (lt : α → α → Prop) [DecidableRel lt] (l : List α) :
    inversions lt l ≤ l.length * l.length := by
  induction l with
  | nil => simp [inversions]
  | cons a l ih =>
    have := List.countP_le_length (p := fun b => decide (lt b a)) (l := l)
    simp only [inversions, List.length_cons]
    nlinarith

/-- **C09.** `bubble_sort` terminates, within `n ^ 2 + 1` passes, whenever every rejected pair is decreasing in some strict
order. -/
theorem C09_terminates {α : Type} (cmp : α → α → Bool) (lt : α → α → Prop) (has : ∀ a b, lt a b → ¬ lt b a) (l : List α)
    (hcmp : ∀ a ∈ l, ∀ b ∈ l, cmp a b = false → lt b a) (fuel : Nat) (hf : l.length * l.length < fuel) :
    ∃ r ss, bubbleSort cmp fuel l = some (r, ss) := by
  classical
  exact bubbleSort_terminates cmp lt has fuel l hcmp (lt_of_le_of_lt (inversions_le lt l) hf)

/-- **C09.** Then, for a list of distinct elements, every pair is exchanged at most once, and exactly the pairs are exchanged
whose order differs between the given list and the result. -/
theorem C09_exchanged_pairs {α : Type} (cmp : α → α → Bool) (lt : α → α → Prop) (has : ∀ a b, lt a b → ¬ lt b a)
    (l r : List α) (ss : List (α × α)) (hl : l.Nodup) (hcmp : ∀ a ∈ l, ∀ b ∈ l, cmp a b = false → lt b a) (fuel : Nat)
    (h : bubbleSort cmp fuel l = some (r, ss)) :
    ss.Nodup ∧ (∀ a b, (a, b) ∈ ss → (b, a) ∉ ss) ∧ ∀ a b, (a, b) ∈ ss ↔ Before l a b ∧ Before r b a := by
  obtain ⟨h1, h2, _⟩ := bubbleSort_spec cmp fuel l r ss h
  have hlt : ∀ q ∈ ss, lt q.2 q.1 := by
    intro q hq
    have hm : q.1 ∈ l ∧ q.2 ∈ l := by
      have : ∀ {l : List α} {ss r}, AdjSwaps l ss r → ∀ q ∈ ss, q.1 ∈ l ∧ q.2 ∈ l := by
        intro l ss r h
        induction h with
        | refl => simp
        | @step p s a b ss r h ih =>
          intro q hq
          rcases List.mem_cons.1 hq with rfl | hq
          · simp
          · have := ih q hq
            simp only [List.mem_append, List.mem_cons] at this ⊢
            tauto
      exact this h1 q hq
    exact hcmp _ hm.1 _ hm.2 (h2 q hq)
  obtain ⟨n, hs⟩ := h1.spec lt has hl hlt
  exact ⟨n, fun a b hab hba => has _ _ (hlt _ hab) (hlt _ hba), hs⟩

/-! ## The comparator of the sweep -/

theorem F64.lt_asymm (a b : F64) : F64.lt a b = true → ¬ F64.lt b a = true := by
  cases a <;> cases b <;> simp [F64.lt]
  · exact fun h => le_of_lt h
  · rename_i n m; cases n <;> cases m <;> simp

theorem F64.lt_of_not_le {a b : F64} (ha : a ≠ .nan) (hb : b ≠ .nan) (h : F64.le a b = false) : F64.lt b a = true := by
  cases a with
  | nan => exact absurd rfl ha
  | fin a =>
    cases b with
    | nan => exact absurd rfl hb
    | fin b =>
      simp only [F64.le, F64.lt, F64.eq, Bool.or_eq_false_iff, decide_eq_false_iff_not, decide_eq_true_eq] at h ⊢
      rcases lt_trichotomy a b with h' | h' | h'
      · exact absurd h' h.1
      · exact absurd h' h.2
      · exact h'
    | inf n => cases n <;> simp [F64.le, F64.lt, F64.eq] at h ⊢
  | inf n =>
    cases b with
    | nan => exact absurd rfl hb
    | fin b => cases n <;> simp [F64.le, F64.lt, F64.eq] at h ⊢
    | inf m => cases n <;> cases m <;> simp [F64.le, F64.lt, F64.eq] at h ⊢

theorem intersectionCompare_false (bounds : Nat → Bound) (ids : List Nat)
    (hx : ∀ i ∈ ids, (bounds i).currentX ≠ .nan) :
    ∀ a ∈ ids, ∀ b ∈ ids, intersectionCompare bounds a b = false →
      F64.lt (bounds b).currentX (bounds a).currentX = true := by
  intro a ha b hb h
  simp only [intersectionCompare, Bool.or_eq_false_iff] at h
  exact F64.lt_of_not_le (hx a ha) (hx b hb) h.1

/-- **C09.** Sorting any distinct active bounds by their current x terminates; it exchanges exactly the pairs whose order
changes, each once, and only when the left one is strictly right of the right one. -/
theorem C09_sweep (bounds : Nat → Bound) (ids : List Nat) (hids : ids.Nodup)
    (hx : ∀ i ∈ ids, (bounds i).currentX ≠ .nan) (fuel : Nat) (hf : ids.length * ids.length < fuel) :
    ∃ r ss, bubbleSort (intersectionCompare bounds) fuel ids = some (r, ss)
      ∧ AdjSwaps ids ss r ∧ r.Perm ids ∧ ss.Nodup
      ∧ (∀ a b, (a, b) ∈ ss ↔ Before ids a b ∧ Before r b a)
      ∧ ∀ a b, (a, b) ∈ ss → F64.lt (bounds b).currentX (bounds a).currentX = true := by
  have hc := intersectionCompare_false bounds ids hx
  have has : ∀ a b : Nat, F64.lt (bounds a).currentX (bounds b).currentX = true →
      ¬ F64.lt (bounds b).currentX (bounds a).currentX = true := fun a b => F64.lt_asymm _ _
  obtain ⟨r, ss, h⟩ := C09_terminates (intersectionCompare bounds)
    (fun a b => F64.lt (bounds a).currentX (bounds b).currentX = true) has ids hc fuel hf
  obtain ⟨h1, h2, h3, _⟩ := C09_result _ _ _ _ _ h
  obtain ⟨h4, _, h5⟩ := C09_exchanged_pairs _ _ has ids r ss hids hc fuel h
  refine ⟨r, ss, h, h1, h3, h4, h5, ?_⟩
  intro a b hab
  have hm := (h5 a b).1 hab
  exact hc a hm.1.mem_left b hm.1.mem_right (h2 a b hab)

/-- Three bounds in decreasing order are exchanged pairwise. -/
example : bubbleSort (fun a b : Nat => decide (a ≤ b)) 10 [3, 2, 1] = some ([1, 2, 3], [(3, 2), (3, 1), (2, 1)]) := by
  decide +kernel

/-- The hypotheses of `C09_sweep` for three bounds meeting in one point. -/
example :
    let bounds : Nat → Bound := fun i => { (default : Bound) with
      edges := [Edge.mk' ⟨(i : Int), 10⟩ ⟨20 - 3 * i, 0⟩], cur := some 0, currentX := .fin (20 - 3 * i) }
    [0, 1, 2].Nodup ∧ (∀ i ∈ [0, 1, 2], (bounds i).currentX ≠ .nan)
      ∧ (bubbleSort (intersectionCompare bounds) 10 [0, 1, 2]).isSome = true
      ∧ intersectionCompare bounds 0 1 = false := by
  decide +kernel

end Wagyu
