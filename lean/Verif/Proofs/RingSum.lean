import Verif.Proofs.Chain
import Mathlib.Data.List.Rotate

/-!
# Sums around a ring
-/

namespace Wagyu

open Spec

variable {c : Point → Point → ℤ}

theorem pathSum_append (c : Point → Point → ℤ) (x : Point) (r : List Point) :
    ∀ l : List Point, pathSum c (l ++ x :: r) = pathSum c (l ++ [x]) + pathSum c (x :: r)
  | [] => by simp [pathSum]
  | [a] => by simp [pathSum]
  | a :: b :: l => by
    have := pathSum_append c x r (b :: l)
    simp only [List.cons_append, pathSum] at this ⊢
    rw [this]; ring

theorem ringSum_append_comm (c : Point → Point → ℤ) (l₁ l₂ : List Point) : ringSum c (l₁ ++ l₂) = ringSum c (l₂ ++ l₁) := by
  cases l₁ with
  | nil => simp
  | cons a l₁ =>
    cases l₂ with
    | nil => simp
    | cons b l₂ =>
      have e1 : ringSum c (a :: l₁ ++ b :: l₂) = pathSum c ((a :: l₁) ++ b :: (l₂ ++ [a])) := by simp [ringSum]
      have e2 : ringSum c (b :: l₂ ++ a :: l₁) = pathSum c ((b :: l₂) ++ a :: (l₁ ++ [b])) := by simp [ringSum]
      rw [e1, e2, pathSum_append c b (l₂ ++ [a]) (a :: l₁), pathSum_append c a (l₁ ++ [b]) (b :: l₂)]
      simp only [List.cons_append]
      ring

theorem ringSum_rotate (c : Point → Point → ℤ) (l : List Point) (k : Nat) : ringSum c (l.rotate k) = ringSum c l := by
  rw [List.rotate_eq_drop_append_take_mod, ringSum_append_comm, List.take_append_drop]

/-- Splitting a ring at a point where it passes twice. -/
theorem ringSum_split (c : Point → Point → ℤ) (p : Point) (l₁ l₂ : List Point) :
    ringSum c (p :: l₁ ++ p :: l₂) = ringSum c (p :: l₁) + ringSum c (p :: l₂) := by
  have e : ringSum c (p :: l₁ ++ p :: l₂) = pathSum c ((p :: l₁) ++ p :: (l₂ ++ [p])) := by simp [ringSum]
  rw [e, pathSum_append]; rfl

theorem ringSum_reverse (hc : ∀ p q, c p q = -c q p) (l : List Point) : ringSum c l.reverse = -ringSum c l := by
  have hp : ∀ vs : List Point, pathSum c vs.reverse = -pathSum c vs := by
    intro vs
    induction vs with
    | nil => rfl
    | cons a vs ih =>
      cases vs with
      | nil => rfl
      | cons b vs =>
        rw [List.reverse_cons, pathSum_append_singleton c a _ b (by simp), ih]
        simp only [pathSum]
        have := hc a b
        omega
  cases l with
  | nil => rfl
  | cons a t =>
    rw [List.reverse_cons, ringSum_append_comm]
    show pathSum c (a :: t.reverse ++ [a]) = -pathSum c (a :: t ++ [a])
    rw [← hp]; simp

/-- Terms that differ by a potential have the same sum around a ring. -/
theorem ringSum_potential {c d : Point → Point → ℤ} (φ : Point → ℤ) (h : ∀ p q, c p q = d p q + (φ p - φ q)) (l : List Point) :
    ringSum c l = ringSum d l := by
  have hp : ∀ (vs : List Point) (a b : Point), vs.head? = some a → vs.getLast? = some b →
      pathSum c vs = pathSum d vs + (φ a - φ b) := by
    intro vs
    induction vs with
    | nil => intro a b h; cases h
    | cons x vs ih =>
      intro a b h1 h2
      simp at h1; subst h1
      cases vs with
      | nil => simp at h2; subst h2; simp [pathSum]
      | cons y vs =>
        have := ih y b (by simp) (by simpa using h2)
        simp only [pathSum, this, h]; ring
  cases l with
  | nil => rfl
  | cons a t =>
    show pathSum c (a :: t ++ [a]) = pathSum d (a :: t ++ [a])
    rw [hp _ a a (by simp) (by rw [List.getLast?_concat])]; ring

theorem ringSum_congr {c d : Point → Point → ℤ} (h : ∀ p q, c p q = d p q) (l : List Point) : ringSum c l = ringSum d l :=
  ringSum_potential (fun _ => 0) (by simpa using h) l

theorem pathSum_neg (c : Point → Point → ℤ) : ∀ l : List Point, pathSum (fun p q => -c p q) l = -pathSum c l
  | [] => rfl
  | [_] => rfl
  | a :: b :: l => by simp only [pathSum, pathSum_neg c (b :: l)]; ring

theorem ringSum_neg (c : Point → Point → ℤ) (l : List Point) : ringSum (fun p q => -c p q) l = -ringSum c l := by
  cases l with
  | nil => rfl
  | cons a t => exact pathSum_neg c _

/-- The sum around a ring, taken over the steps into each of its points. -/
theorem pathSum_last_cons (c : Point → Point → ℤ) (l : List Point) (p : Point) :
    pathSum c (p :: (l ++ [p])) = ringSum c (l ++ [p]) := by
  rw [ringSum_append_comm]; rfl

end Wagyu
