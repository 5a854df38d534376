import Verif.Spec.Shape
import Verif.Proofs.Chain
import Mathlib.Data.List.Cycle
import Mathlib.Logic.Relation
import Mathlib.Tactic.LinearCombination

/-!
# A shape has only one ring from which no point can be left out
-/

namespace Wagyu

open Spec

theorem onLine_iff {a b c : Point} : Collinear (toQ a) (toQ b) (toQ c) ↔ (a.y - b.y) * (b.x - c.x) = (a.x - b.x) * (b.y - c.y) := by
  rw [← C33_points_slopes_equal_iff]
  unfold arePointsSlopesEqual
  rw [decide_eq_true_eq]

theorem onLine_join {a b c d : Point} (h1 : Collinear (toQ a) (toQ b) (toQ c)) (h2 : Collinear (toQ b) (toQ c) (toQ d)) (hbc : b ≠ c) :
    Collinear (toQ a) (toQ c) (toQ d) ∧ Collinear (toQ a) (toQ b) (toQ d) := by
  rw [onLine_iff] at *
  have hu : b.x - c.x ≠ 0 ∨ b.y - c.y ≠ 0 := by
    by_contra hn
    push Not at hn
    apply hbc
    cases b; cases c
    simp only [Point.mk.injEq] at hn ⊢
    omega
  have key : (a.y - b.y) * (c.x - d.x) = (a.x - b.x) * (c.y - d.y) := by
    rcases hu with hu | hu
    · apply mul_left_cancel₀ hu
      linear_combination (c.x - d.x) * h1 + (a.x - b.x) * h2
    · apply mul_left_cancel₀ hu
      linear_combination (c.y - d.y) * h1 + (a.y - b.y) * h2
  rw [onLine_iff]
  constructor
  · linear_combination key + h2
  · linear_combination key + h1

/-- One point is left out. -/
inductive Red : Cycle Point → Cycle Point → Prop
  | drop (a b : Point) (l : List Point) : Collinear (toQ a) (toQ b) (toQ (l.headD a)) →
      Red ((a :: b :: l : List Point) : Cycle Point) ((a :: l : List Point) : Cycle Point)
  | point (a : Point) : Red (([a] : List Point) : Cycle Point) (([] : List Point) : Cycle Point)

theorem rotated_split {l l' : List Point} (h : l ~r l') : ∃ u v, l = u ++ v ∧ l' = v ++ u := by
  obtain ⟨n, hn, rfl⟩ := List.isRotated_iff_mod.1 h
  exact ⟨l.take n, l.drop n, (List.take_append_drop n l).symm, List.rotate_eq_drop_append_take hn⟩

theorem cyc_rot (u v : List Point) : ((u ++ v : List Point) : Cycle Point) = ((v ++ u : List Point) : Cycle Point) :=
  Cycle.coe_eq_coe.2 List.isRotated_append

/-- Two neighbouring points are left out. -/
theorem red_next {a b : Point} {l m : List Point} {x : Point} (h1 : Collinear (toQ a) (toQ b) (toQ (l.headD a)))
    (h2 : Collinear (toQ b) (toQ x) (toQ (m.headD b))) (he : b :: l ++ [a] = b :: x :: m) (hl : l ≠ []) :
    ∃ d, Relation.ReflGen Red ((a :: l : List Point) : Cycle Point) d ∧ Relation.ReflGen Red ((b :: m : List Point) : Cycle Point) d := by
  obtain ⟨c, l, rfl⟩ := List.exists_cons_of_ne_nil hl
  simp only [List.cons_append, List.cons.injEq, true_and] at he
  obtain ⟨rfl, rfl⟩ := he
  have hm : (l ++ [a]).headD b = l.headD a := by cases l <;> rfl
  rw [hm] at h2
  simp only [List.headD_cons] at h1
  have e : ((b :: (l ++ [a]) : List Point) : Cycle Point) = ((a :: b :: l : List Point) : Cycle Point) :=
    cyc_rot (b :: l) [a]
  rw [e]
  by_cases hbc : b = c
  · subst hbc
    exact ⟨_, .refl, .refl⟩
  · obtain ⟨h3, h4⟩ := onLine_join h1 h2 hbc
    exact ⟨_, .single (.drop a c l h3), .single (.drop a b l h4)⟩

theorem red_diamond (s s1 s2 : Cycle Point) (h1 : Red s s1) (h2 : Red s s2) :
    ∃ d, Relation.ReflGen Red s1 d ∧ Relation.ReflTransGen Red s2 d := by
  cases h1 with
  | point a =>
    generalize hs : (([a] : List Point) : Cycle Point) = s at h2
    cases h2 with
    | point a' => exact ⟨_, .refl, .refl⟩
    | drop a' b' l' h' =>
      have := (Cycle.coe_eq_coe.1 hs).perm.length_eq
      simp at this
  | drop a b l h =>
    generalize hs : ((a :: b :: l : List Point) : Cycle Point) = s at h2
    cases h2 with
    | point a' =>
      have := (Cycle.coe_eq_coe.1 hs).perm.length_eq
      simp at this
    | drop a' b' l' h' =>
      obtain ⟨u, v, e1, e2⟩ := rotated_split (Cycle.coe_eq_coe.1 hs)
      match l, l' with
      | [], [] => exact ⟨_, .single (.point a), .single (.point a')⟩
      | [], x :: l' =>
        have := (Cycle.coe_eq_coe.1 hs).perm.length_eq
        simp at this
      | x :: l, [] =>
        have := (Cycle.coe_eq_coe.1 hs).perm.length_eq
        simp at this
      | x :: l, x' :: l' =>
      generalize hL : x :: l = L at *
      generalize hL' : x' :: l' = L' at *
      have hne : L ≠ [] := by rw [← hL]; simp
      have hne' : L' ≠ [] := by rw [← hL']; simp
      match u, v with
      | [], v =>
        rw [List.nil_append] at e1
        rw [List.append_nil] at e2
        rw [← e1] at e2
        cases e2
        exact ⟨_, .refl, .refl⟩
      | u, [] =>
        rw [List.nil_append] at e2
        rw [List.append_nil] at e1
        rw [← e2] at e1
        cases e1
        exact ⟨_, .refl, .refl⟩
      | [y], v =>
        simp only [List.cons_append, List.nil_append, List.cons.injEq] at e1
        obtain ⟨rfl, e1⟩ := e1
        rw [← e1] at e2
        rw [List.cons_append, List.cons.injEq] at e2
        obtain ⟨rfl, e2⟩ := e2
        obtain ⟨d, k1, k2⟩ := red_next (x := b') h h' (by rw [List.cons_append, e2]) hne
        exact ⟨d, k1, k2.to_reflTransGen⟩
      | u, [y] =>
        simp only [List.cons_append, List.nil_append, List.cons.injEq] at e2
        obtain ⟨rfl, e2⟩ := e2
        rw [← e2] at e1
        rw [List.cons_append, List.cons.injEq] at e1
        obtain ⟨rfl, e1⟩ := e1
        obtain ⟨d, k1, k2⟩ := red_next (x := b) h' h (by rw [List.cons_append, e1]) hne'
        exact ⟨d, k2, k1.to_reflTransGen⟩
      | y :: z :: u, y' :: z' :: v =>
        simp only [List.cons_append, List.cons.injEq] at e1 e2
        obtain ⟨rfl, rfl, rfl⟩ := e1
        obtain ⟨rfl, rfl, rfl⟩ := e2
        refine ⟨((a :: (u ++ a' :: v) : List Point) : Cycle Point), .single ?_, .single ?_⟩
        · have e : ((a :: (u ++ a' :: b' :: v) : List Point) : Cycle Point) = ((a' :: b' :: (v ++ a :: u) : List Point) : Cycle Point) :=
            cyc_rot (a :: u) (a' :: b' :: v)
          have e' : ((a :: (u ++ a' :: v) : List Point) : Cycle Point) = ((a' :: (v ++ a :: u) : List Point) : Cycle Point) :=
            cyc_rot (a :: u) (a' :: v)
          rw [e, e']
          refine .drop a' b' _ ?_
          have : (v ++ a :: u).headD a' = (v ++ a :: b :: u).headD a' := by cases v <;> rfl
          rw [this]; exact h'
        · have e : ((a' :: (v ++ a :: b :: u) : List Point) : Cycle Point) = ((a :: b :: (u ++ a' :: v) : List Point) : Cycle Point) :=
            cyc_rot (a' :: v) (a :: b :: u)
          rw [e]
          refine .drop a b _ ?_
          have : (u ++ a' :: v).headD a = (u ++ a' :: b' :: v).headD a := by cases u <;> rfl
          rw [this]; exact h

/-- Both become the same ring. -/
abbrev Meet : Cycle Point → Cycle Point → Prop := Relation.Join (Relation.ReflTransGen Red)

theorem meet_equiv : Equivalence Meet := Relation.equivalence_join_reflTransGen red_diamond

theorem meet_of_shape {l l' : List Point} (h : SameShape l l') : Meet (l : Cycle Point) (l' : Cycle Point) := by
  induction h with
  | rotate u v => rw [cyc_rot]; exact meet_equiv.refl _
  | drop a b l h => exact ⟨_, .single (.drop a b l h), .refl⟩
  | point a => exact ⟨_, .single (.point a), .refl⟩
  | refl l => exact meet_equiv.refl _
  | symm _ ih => exact meet_equiv.symm ih
  | trans _ _ ih1 ih2 => exact meet_equiv.trans ih1 ih2

/-- No point of the ring is on one line with the points before and after it. -/
def Cornered (l : List Point) : Prop := ∀ a b r, l ~r a :: b :: r → ¬ Collinear (toQ a) (toQ b) (toQ (r.headD a))

theorem red_cornered {l : List Point} (hc : Cornered l) (hl : l.length ≠ 1) {s : Cycle Point} (h : Red (l : Cycle Point) s) : False := by
  generalize hs : (l : Cycle Point) = t at h
  cases h with
  | drop a b r hd => exact hc a b r (Cycle.coe_eq_coe.1 hs) hd
  | point a => have := (Cycle.coe_eq_coe.1 hs).perm.length_eq; simp at this; exact hl this

theorem stays {s t : Cycle Point} (hs : ∀ u, ¬ Red s u) (h : Relation.ReflTransGen Red s t) : t = s := by
  induction h with
  | refl => rfl
  | tail _ h ih => subst ih; exact absurd h (hs _)

theorem cornered_unique {l l' : List Point} (h : SameShape l l') (hc : Cornered l) (hl : l.length ≠ 1) (hc' : Cornered l') (hl' : l'.length ≠ 1) :
    l ~r l' := by
  obtain ⟨d, h1, h2⟩ := meet_of_shape h
  have e1 := stays (fun _ => red_cornered hc hl) h1
  have e2 := stays (fun _ => red_cornered hc' hl') h2
  exact Cycle.coe_eq_coe.1 (e1.symm.trans e2)

end Wagyu
