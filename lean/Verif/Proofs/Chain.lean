import Verif.Props.Geometry
import Verif.Spec.Chain
import Mathlib.Data.List.Chain
import Mathlib.Tactic.LinearCombination
import Mathlib.Tactic.Ring

/-!
# Chains of edges
-/

namespace Wagyu

open Spec

/-- An edge as `Edge.__init__` builds it: not degenerate, normalised, with the slope of its end points. -/
structure Edge.Wf (e : Edge) : Prop where
  ne : e.bottom ≠ e.top
  le : e.top.y ≤ e.bottom.y
  slope : e.slope = (Edge.mk' e.bottom e.top).slope

theorem joins_mk' (p q : Point) : Joins (Edge.mk' p q) p q := (C30_edge_normalised p q).2

theorem Joins.symm {e : Edge} {a b : Point} (h : Joins e a b) : Joins e b a := Or.symm h

theorem slope_mk' (b t : Point) (h : t.y ≤ b.y) :
    Edge.mk' b t = { bottom := b, top := t, slope := if t.y - b.y ≠ 0 then intDiv (t.x - b.x) (t.y - b.y) else .inf false } := by
  unfold Edge.mk'
  rw [if_neg (by omega)]

theorem wf_mk' {p q : Point} (h : p ≠ q) : (Edge.mk' p q).Wf := by
  obtain ⟨h1, h2⟩ := C30_edge_normalised p q
  refine ⟨?_, h1, ?_⟩
  · rcases h2 with ⟨e1, e2⟩ | ⟨e1, e2⟩ <;> rw [e1, e2]
    · exact h
    · exact h.symm
  · rcases h2 with ⟨e1, e2⟩ | ⟨e1, e2⟩
    · rw [e1, e2]
    · rw [e1, e2]
      have : p.y ≤ q.y := by rw [e1, e2] at h1; exact h1
      rcases eq_or_lt_of_le this with he | hlt
      · rw [slope_mk' q p this, slope_mk' p q (le_of_eq he.symm)]
        simp [he]
      · rw [C30_swap p q (by omega)]

theorem Joins.ne {e : Edge} {a b : Point} (h : Joins e a b) (hw : e.Wf) : a ≠ b := by
  rcases h with ⟨e1, e2⟩ | ⟨e1, e2⟩
  · rw [← e1, ← e2]; exact hw.ne
  · rw [← e1, ← e2]; exact hw.ne.symm

/-- The other end of an edge. -/
theorem Joins.unique {e : Edge} {a b c : Point} (h : Joins e a b) (h' : Joins e a c) : b = c := by
  rcases h with ⟨e1, e2⟩ | ⟨e1, e2⟩ <;> rcases h' with ⟨f1, f2⟩ | ⟨f1, f2⟩
  · rw [← e2, ← f2]
  · rw [← e2, ← f1, f2, e1]
  · rw [← e1, ← f2, f1, e2]
  · rw [← e1, ← f1]

/-! ## Parallel edges -/

theorem parallel_comm {e f : Edge} (h : EdgesParallel e f) : EdgesParallel f e := by
  unfold EdgesParallel at *; linarith

theorem areEdgesSlopesEqual_iff (e f : Edge) : areEdgesSlopesEqual e f = true ↔ EdgesParallel e f := by
  unfold areEdgesSlopesEqual EdgesParallel
  rw [decide_eq_true_eq]
  constructor <;> intro h <;> linarith

theorem parallel_trans {e f g : Edge} (hf : f.Wf) (h1 : EdgesParallel e f) (h2 : EdgesParallel f g) : EdgesParallel e g := by
  unfold EdgesParallel at *
  by_cases hy : f.top.y - f.bottom.y = 0
  · have hx : f.top.x - f.bottom.x ≠ 0 := by
      intro hx
      apply hf.ne
      rcases hb : f.bottom with ⟨bx, by'⟩
      rcases ht : f.top with ⟨tx, ty⟩
      rw [hb, ht] at hx hy
      simp only at hx hy
      congr 1 <;> omega
    apply mul_left_cancel₀ hx
    rw [hy] at h1 h2
    have e1 : (e.top.y - e.bottom.y) * (f.top.x - f.bottom.x) = 0 := by linarith
    have e2 : (f.top.x - f.bottom.x) * (g.top.y - g.bottom.y) = 0 := by linarith
    linear_combination (e.top.x - e.bottom.x) * e2 - (g.top.x - g.bottom.x) * e1
  · apply mul_left_cancel₀ hy
    linear_combination (g.top.y - g.bottom.y) * h1 + (e.top.y - e.bottom.y) * h2

theorem slopes_of_joins {e f : Edge} {a b c : Point} (h1 : Joins e a b) (h2 : Joins f b c) :
    arePointsSlopesEqual a b c = true ↔ EdgesParallel e f := by
  unfold arePointsSlopesEqual EdgesParallel
  rw [decide_eq_true_eq]
  rcases h1 with ⟨e1, e2⟩ | ⟨e1, e2⟩ <;> rcases h2 with ⟨f1, f2⟩ | ⟨f1, f2⟩ <;> rw [e1, e2, f1, f2] <;>
    constructor <;> intro h <;> linarith

theorem wf_of_parallel {e e' : Edge} (hw : e.Wf) (hp : EdgesParallel e e') (hne : e'.bottom ≠ e'.top)
    (hle : e'.top.y ≤ e'.bottom.y) (hs : e'.slope = e.slope) : e'.Wf := by
  refine ⟨hne, hle, ?_⟩
  rw [hs, hw.slope, slope_mk' _ _ hw.le, slope_mk' _ _ hle]
  have nz : ∀ g : Edge, g.bottom ≠ g.top → g.top.y - g.bottom.y = 0 → g.top.x - g.bottom.x ≠ 0 := by
    intro g hg hy hx
    apply hg
    rcases hb : g.bottom with ⟨bx, by'⟩
    rcases ht : g.top with ⟨tx, ty⟩
    rw [hb, ht] at hx hy
    simp only at hx hy
    congr 1 <;> omega
  unfold EdgesParallel at hp
  simp only
  by_cases hy : e.top.y - e.bottom.y = 0
  · have hx := nz e hw.ne hy
    rw [hy, zero_mul] at hp
    have hy' : e'.top.y - e'.bottom.y = 0 := by
      rcases mul_eq_zero.1 hp with h | h
      · exact absurd h hx
      · exact h
    rw [if_neg (by simpa using hy), if_neg (by simpa using hy')]
  · have hy' : e'.top.y - e'.bottom.y ≠ 0 := by
      intro hy'
      have hx' := nz e' hne hy'
      rw [hy', mul_zero] at hp
      rcases mul_eq_zero.1 hp.symm with h | h
      · exact hy h
      · exact hx' h
    rw [if_pos hy, if_pos hy']
    unfold intDiv
    congr 1
    have q1 : ((e.top.y - e.bottom.y : ℤ) : ℚ) ≠ 0 := by exact_mod_cast hy
    have q2 : ((e'.top.y - e'.bottom.y : ℤ) : ℚ) ≠ 0 := by exact_mod_cast hy'
    rw [div_eq_div_iff q1 q2]
    have : ((e.top.x - e.bottom.x : ℤ) : ℚ) * ((e'.top.y - e'.bottom.y : ℤ) : ℚ)
        = ((e.top.y - e.bottom.y : ℤ) : ℚ) * ((e'.top.x - e'.bottom.x : ℤ) : ℚ) := by exact_mod_cast hp
    linarith

/-! ## Sums -/

section
variable {c : Point → Point → ℤ}

theorem AddsUp.self (hc : AddsUpOnLines c) (p : Point) : c p p = 0 := by
  have := hc p p p ((C33_points_slopes_equal_iff p p p).1 (by simp [arePointsSlopesEqual]))
  omega

theorem AddsUp.tri (hc : AddsUpOnLines c) {p q r : Point} (h : arePointsSlopesEqual p q r = true) :
    c p q + c q r = c p r := hc p q r ((C33_points_slopes_equal_iff p q r).1 h)

theorem AddsUp.swap (hc : AddsUpOnLines c) (p q : Point) : c p q = -c q p := by
  have h : arePointsSlopesEqual p q p = true := by
    unfold arePointsSlopesEqual
    rw [decide_eq_true_eq]; ring
  have := AddsUp.tri hc h
  have := AddsUp.self hc p
  omega

theorem pathSum_append_singleton (c : Point → Point → ℤ) (x : Point) :
    ∀ (vs : List Point) (y : Point), vs.getLast? = some y → pathSum c (vs ++ [x]) = pathSum c vs + c y x := by
  intro vs
  induction vs with
  | nil => intro y h; cases h
  | cons a vs ih =>
    intro y h
    cases vs with
    | nil =>
      simp only [List.getLast?_singleton, Option.some.injEq] at h
      subst h
      simp [pathSum]
    | cons b vs =>
      have := ih y (by simpa using h)
      simp only [List.cons_append, pathSum] at this ⊢
      rw [this]; ring

theorem pathSum_reverse (hc : AddsUpOnLines c) : ∀ vs : List Point, pathSum c vs.reverse = -pathSum c vs := by
  intro vs
  induction vs with
  | nil => rfl
  | cons a vs ih =>
    cases vs with
    | nil => rfl
    | cons b vs =>
      rw [List.reverse_cons, pathSum_append_singleton c a _ b (by simp), ih]
      simp only [pathSum]
      have := AddsUp.swap hc a b
      omega

end

/-! ## Walks -/

theorem Along.ne_nil {vs : List Point} {es : List Edge} (h : Along vs es) : vs ≠ [] := by
  rintro rfl; cases es <;> exact h

theorem Along.cons_iff {a : Point} {vs : List Point} {e : Edge} {es : List Edge} :
    Along (a :: vs) (e :: es) ↔ ∃ b vs', vs = b :: vs' ∧ Joins e a b ∧ Along (b :: vs') es := by
  cases vs with
  | nil => simp [Along]
  | cons b vs => simp [Along]

theorem Along.nil_iff {vs : List Point} : Along vs [] ↔ ∃ a, vs = [a] := by
  match vs with
  | [] => simp [Along]
  | [a] => simp [Along]
  | a :: b :: vs => simp [Along]

/-- Adding an edge at the end. -/
theorem Along.snoc : ∀ {es : List Edge} {vs : List Point} {y x : Point} {e : Edge}, Along vs es → vs.getLast? = some y →
    Joins e y x → Along (vs ++ [x]) (es ++ [e]) := by
  intro es
  induction es with
  | nil =>
    intro vs y x e h hy hj
    obtain ⟨a, rfl⟩ := Along.nil_iff.1 h
    simp only [List.getLast?_singleton, Option.some.injEq] at hy
    subst hy
    exact ⟨hj, trivial⟩
  | cons e' es ih =>
    intro vs y x e h hy hj
    match vs with
    | [] => exact absurd h (by simp [Along])
    | a :: vs =>
      obtain ⟨b, vs', rfl, h1, h2⟩ := Along.cons_iff.1 h
      have := ih h2 (by simpa using hy) hj
      exact ⟨h1, this⟩

theorem Along.reverse : ∀ {es : List Edge} {vs : List Point}, Along vs es → Along vs.reverse es.reverse := by
  intro es
  induction es with
  | nil =>
    intro vs h
    obtain ⟨a, rfl⟩ := Along.nil_iff.1 h
    trivial
  | cons e es ih =>
    intro vs h
    match vs with
    | [] => exact absurd h (by simp [Along])
    | a :: vs =>
      obtain ⟨b, vs', rfl, h1, h2⟩ := Along.cons_iff.1 h
      have := Along.snoc (ih h2) (y := b) (by simp) h1.symm
      rw [← List.reverse_cons, ← List.reverse_cons] at this
      exact this

/-- Taking the last edge off. -/
theorem Along.unsnoc : ∀ {es : List Edge} {vs : List Point} {e : Edge}, Along vs (es ++ [e]) →
    ∃ ws y x, vs = ws ++ [x] ∧ ws.getLast? = some y ∧ Along ws es ∧ Joins e y x := by
  intro es
  induction es with
  | nil =>
    intro vs e h
    match vs with
    | [] => exact absurd h (by simp [Along])
    | a :: vs =>
      obtain ⟨b, vs', rfl, h1, h2⟩ := Along.cons_iff.1 h
      obtain ⟨x, hx⟩ := Along.nil_iff.1 h2
      obtain ⟨rfl, rfl⟩ := List.cons.inj hx
      exact ⟨[a], a, b, rfl, rfl, trivial, h1⟩
  | cons e' es ih =>
    intro vs e h
    match vs with
    | [] => exact absurd h (by simp [Along])
    | a :: vs =>
      obtain ⟨b, vs', rfl, h1, h2⟩ := Along.cons_iff.1 h
      obtain ⟨ws, y, x, h3, h4, h5, h6⟩ := ih h2
      cases ws with
      | nil => cases h4
      | cons w ws =>
        rw [List.cons_append] at h3
        obtain ⟨rfl, rfl⟩ := List.cons.inj h3
        exact ⟨a :: b :: ws, y, x, rfl, by simpa using h4, ⟨h1, h5⟩, h6⟩

end Wagyu
