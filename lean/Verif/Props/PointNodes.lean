import Verif.Proofs.Inside
import Verif.Model.Ring

/-!
# C19, C20, C21: rings of point nodes
-/

namespace Wagyu

open Spec

/-! ## C19 -/

/-- **C19.** `point_in_polygon` of an integer point: the answer is ON exactly if the point lies on a side of the ring, and
otherwise it is INSIDE exactly if the winding number of the ring around the point is odd; nothing is changed. -/
theorem C19_point_in_polygon (s : St) (a : Nat) (t : List Nat) (hl : IsCycle s.nodes (a :: t)) (hf : t.length < s.fuel)
    (z : Point) :
    ∃ r, pointInPolygon z a s = .ok r s ∧ (r = .on ↔ OnRing z (pointsOf s.nodes (a :: t)))
      ∧ (¬ OnRing z (pointsOf s.nodes (a :: t)) → (r = .inside ↔ Odd (windingNumber z (pointsOf s.nodes (a :: t))))
          ∧ (r = .outside ↔ Even (windingNumber z (pointsOf s.nodes (a :: t))))) := by
  refine ⟨_, pointInPolygon_run hl hf z, ?_⟩
  have hpts : pointsOf s.nodes (a :: t ++ [a]) = locOf s.nodes a :: pointsOf s.nodes t ++ [locOf s.nodes a] := by
    simp [pointsOf]
  have hpts' : pointsOf s.nodes (a :: t) = locOf s.nodes a :: pointsOf s.nodes t := by simp [pointsOf]
  rw [hpts, hpts', onRing_iff, ← pipPath_none _ false]
  have hon : ∀ o, pipResult o = .on ↔ o = none := by
    intro o; match o with
    | none => simp [pipResult]
    | some true => simp [pipResult]
    | some false => simp [pipResult]
  refine ⟨hon _, ?_⟩
  intro h
  obtain ⟨r, hr⟩ := Option.ne_none_iff_exists'.1 h
  have hno : ¬ OnRing z (locOf s.nodes a :: pointsOf s.nodes t) := by
    rw [onRing_iff, ← pipPath_none _ false]; exact h
  rw [windingNumber_crossing' hno]
  have hz : z ∉ locOf s.nodes a :: pointsOf s.nodes t ++ [locOf s.nodes a] := by
    intro hm
    exact hno (mem_onRing (by simpa [or_comm, or_assoc] using hm))
  have := pipPath_some _ false r hz hr
  rw [hr]
  simp only [Bool.false_eq_true, if_false, add_zero] at this
  have e : pathSum (crossing' z) (locOf s.nodes a :: pointsOf s.nodes t ++ [locOf s.nodes a])
      = ringSum (crossing' z) (locOf s.nodes a :: pointsOf s.nodes t) := rfl
  rw [e] at this
  rw [← this, ← Int.not_odd_iff_even, ← this]
  cases r <;> simp [pipResult]

theorem onRing_append {z : Point} (P Q : List Point) : OnRing z (P ++ Q) → OnRing z (Q ++ P) := by
  cases P with
  | nil => simp
  | cons p P =>
    cases Q with
    | nil => simp
    | cons q Q =>
      rintro ⟨x, y, hxy, hs⟩
      refine ⟨x, y, ?_, hs⟩
      -- a step of one path is a step of the other
      have key : ∀ (A B : List Point) (m : Point), [x, y] <:+: A ++ m :: B → [x, y] <:+: A ++ [m] ∨ [x, y] <:+: m :: B := by
        intro A
        induction A with
        | nil => intro B m h; exact Or.inr h
        | cons u A ih =>
          intro B m h
          cases A with
          | nil =>
            rw [List.singleton_append, List.infix_cons_iff] at h
            rcases h with h | h
            · left
              obtain ⟨w, hw⟩ := h
              simp at hw
              exact ⟨[], [], by simp [hw.1, hw.2.1]⟩
            · exact Or.inr h
          | cons v A =>
            rw [List.cons_append, List.infix_cons_iff] at h
            rcases h with h | h
            · left
              obtain ⟨w, hw⟩ := h
              simp at hw
              exact ⟨[], A ++ [m], by simp [hw.1, hw.2.1]⟩
            · rcases ih B m h with h | h
              · left; exact h.trans (List.infix_cons (List.infix_refl _))
              · exact Or.inr h
      have e : (p :: P ++ q :: Q) ++ [p] = (p :: P) ++ q :: (Q ++ [p]) := by simp
      have e' : (q :: Q ++ p :: P) ++ [q] = (q :: Q) ++ p :: (P ++ [q]) := by simp
      have hxy' : [x, y] <:+: (p :: P) ++ q :: (Q ++ [p]) := by rw [← e]; exact hxy
      show [x, y] <:+: (q :: Q ++ p :: P) ++ [q]
      rw [e']
      rcases key _ _ _ hxy' with h | h
      · exact h.trans ⟨q :: Q, [], by simp⟩
      · exact h.trans ⟨[], P ++ [q], by simp⟩

/-- **C19.** The answer does not depend on the node from which the ring is traversed. -/
theorem C19_any_start (s : St) (l₁ l₂ : List Nat) (a b : Nat) (hl : IsCycle s.nodes (a :: l₁ ++ b :: l₂))
    (hf : (a :: l₁ ++ b :: l₂).length ≤ s.fuel) (z : Point) : pointInPolygon z a s = pointInPolygon z b s := by
  have hl' : IsCycle s.nodes (b :: l₂ ++ a :: l₁) := isCycle_append_comm hl
  have hlen : (l₁ ++ b :: l₂).length < s.fuel := by simp at hf ⊢; omega
  have hlen' : (l₂ ++ a :: l₁).length < s.fuel := by simp at hf ⊢; omega
  obtain ⟨r, h1, h2, h3⟩ := C19_point_in_polygon s a (l₁ ++ b :: l₂) hl hlen z
  obtain ⟨r', h1', h2', h3'⟩ := C19_point_in_polygon s b (l₂ ++ a :: l₁) hl' hlen' z
  have e1 : pointsOf s.nodes (a :: (l₁ ++ b :: l₂)) = pointsOf s.nodes (a :: l₁) ++ pointsOf s.nodes (b :: l₂) := by
    simp [pointsOf]
  have e2 : pointsOf s.nodes (b :: (l₂ ++ a :: l₁)) = pointsOf s.nodes (b :: l₂) ++ pointsOf s.nodes (a :: l₁) := by
    simp [pointsOf]
  have hw : windingNumber z (pointsOf s.nodes (a :: (l₁ ++ b :: l₂))) = windingNumber z (pointsOf s.nodes (b :: (l₂ ++ a :: l₁))) := by
    rw [e1, e2]; exact ringSum_append_comm _ _ _
  have hon : ∀ (P Q : List Point), OnRing z (P ++ Q) → OnRing z (Q ++ P) := onRing_append
  have hoo : OnRing z (pointsOf s.nodes (a :: (l₁ ++ b :: l₂))) ↔ OnRing z (pointsOf s.nodes (b :: (l₂ ++ a :: l₁))) := by
    rw [e1, e2]; exact ⟨hon _ _, hon _ _⟩
  rw [h1, h1']
  congr 1
  by_cases ho : OnRing z (pointsOf s.nodes (a :: (l₁ ++ b :: l₂)))
  · rw [h2.2 ho, h2'.2 (hoo.1 ho)]
  · have i1 := (h3 ho).1
    have i2 := (h3' (fun h => ho (hoo.2 h))).1
    rw [hw, ← i2] at i1
    have n1 : r ≠ .on := fun h => ho (h2.1 h)
    have n2 : r' ≠ .on := fun h => ho (hoo.2 (h2'.1 h))
    cases r <;> cases r' <;> simp_all

/-! ## C20 -/

/-- **C20.** `stats`: the number of nodes, their tight bounding box, and half the shoelace sum, correctly rounded to a
double; nothing is changed. -/
theorem C20_stats (s : St) (a : Nat) (t : List Nat) (hl : IsCycle s.nodes (a :: t)) (hf : t.length < s.fuel) :
    ∃ box, nodeStats a s = .ok (intDiv (area2 (pointsOf s.nodes (a :: t))) 2, (a :: t).length, box) s
      ∧ IsTightBox box (pointsOf s.nodes (a :: t)) :=
  stats_spec hl hf

/-- **C20.** The reported area is exact when twice the area is at most `2 ^ 53`. -/
theorem C20_area_exact (n : ℤ) (h : |n| ≤ 2 ^ 53) : intDiv n 2 = .fin ((n : ℚ) / 2) := by
  have hd : IsDouble ((n : ℚ) / 2 ^ (0 + 1)) := isDouble_dyadic' n 0 (by norm_num) h
  have := hd.fl_eq
  simpa [intDiv] using this

/-- **C20.** The sign of the reported area is always right, so that `is_hole` (area not positive) is decided exactly. -/
theorem C20_area_sign (n : ℤ) : (F64.lt (.fin 0) (intDiv n 2) = true ↔ 0 < n) ∧ (F64.le (intDiv n 2) (.fin 0) = true ↔ n ≤ 0) := by
  have h0 := C18_almost_zero_area n
  have key : (0 < n → F64.lt (.fin 0) (intDiv n 2) = true ∧ F64.le (intDiv n 2) (.fin 0) = false)
      ∧ (n ≤ 0 → F64.lt (.fin 0) (intDiv n 2) = false ∧ F64.le (intDiv n 2) (.fin 0) = true) := by
    have hne : n ≠ 0 → ∀ q, intDiv n 2 = .fin q → q ≠ 0 := by
      intro hn q hq hq0
      rw [hq, hq0] at h0
      exact hn (h0.1 (C18_reflexive _))
    have e := fl_eq ((n : ℚ) / ((2 : ℤ) : ℚ))
    have b := pow2_pos 1024
    constructor
    · intro hn
      have hn' : (0 : ℚ) < n := by exact_mod_cast hn
      have hq : (0 : ℚ) ≤ (n : ℚ) / ((2 : ℤ) : ℚ) := by push_cast; linarith
      have hv : 0 ≤ flv ((n : ℚ) / ((2 : ℤ) : ℚ)) := flv_nonneg hq
      have hne' := hne hn.ne'
      unfold intDiv at hne' ⊢
      rw [e] at hne' ⊢
      by_cases c1 : pow2 1024 ≤ flv ((n : ℚ) / ((2 : ℤ) : ℚ))
      · rw [if_pos c1]; exact ⟨rfl, rfl⟩
      · have c2 : ¬ flv ((n : ℚ) / ((2 : ℤ) : ℚ)) ≤ -pow2 1024 := by linarith
        rw [if_neg c1, if_neg c2] at hne' ⊢
        have : 0 < flv ((n : ℚ) / ((2 : ℤ) : ℚ)) := lt_of_le_of_ne hv (Ne.symm (hne' _ rfl))
        rw [Int.cast_ofNat] at this ⊢
        simp [F64.lt, F64.le, F64.eq, this, this.le, this.ne']
    · intro hn
      have hv : flv ((n : ℚ) / ((2 : ℤ) : ℚ)) ≤ 0 := by
        have hn' : (n : ℚ) ≤ 0 := by exact_mod_cast hn
        have hq : (n : ℚ) / ((2 : ℤ) : ℚ) ≤ 0 := by push_cast; linarith
        have : flv ((n : ℚ) / ((2 : ℤ) : ℚ)) ≤ flv 0 := flv_mono hq
        rwa [flv_zero] at this
      unfold intDiv
      rw [e]
      have c1 : ¬ pow2 1024 ≤ flv ((n : ℚ) / ((2 : ℤ) : ℚ)) := by linarith
      rw [if_neg c1]
      split
      · exact ⟨rfl, rfl⟩
      · simp only [F64.lt, F64.le, F64.eq, decide_eq_false_iff_not, not_lt, Bool.or_eq_true, decide_eq_true_eq]
        exact ⟨hv, lt_or_eq_of_le hv⟩
  rcases lt_or_ge 0 n with h | h
  · have := key.1 h
    simp [this, h, h.not_ge]
  · have := key.2 h
    simp [this, h, h.not_gt]

/-- **C20.** The shoelace sum does not depend on where the ring starts. -/
theorem C20_area_rotation (pts : List Point) (k : Nat) : area2 (pts.rotate k) = area2 pts := by
  unfold area2; rw [ringSum_rotate]

/-- **C20.** Reversing a ring negates its area. -/
theorem C20_area_reverse (pts : List Point) : area2 pts.reverse = -area2 pts := by
  unfold area2; rw [ringSum_reverse]; intro p q; unfold cross; ring

/-- **C20.** The area is additive when a ring is cut at two visits of the same location. -/
theorem C20_area_split (p : Point) (l₁ l₂ : List Point) : area2 (p :: l₁ ++ p :: l₂) = area2 (p :: l₁) + area2 (p :: l₂) := by
  unfold area2; rw [ringSum_split]; ring

/-- **C20.** The statistics stored in a ring by `recalculate_stats`. -/
theorem C20_recalculate (s : St) (r a : Nat) (t : List Nat) (hl : IsCycle s.nodes (a :: t)) (hf : t.length < s.fuel)
    (hr : (s.rings r).node = some a) :
    ∃ box, IsTightBox box (pointsOf s.nodes (a :: t)) ∧
      recalculateStats r s = .ok () { s with rings := upd s.rings r { s.rings r with
        area := intDiv (area2 (pointsOf s.nodes (a :: t))) 2
        size := (a :: t).length
        box
        isHole := decide (area2 (pointsOf s.nodes (a :: t)) ≤ 0) } } := by
  obtain ⟨box, h1, h2⟩ := stats_spec hl hf
  refine ⟨box, h2, ?_⟩
  unfold recalculateStats
  simp only [run_bind, run_getRing, hr, h1, run_modRing]
  have : F64.le (intDiv (area2 (pointsOf s.nodes (a :: t))) 2) (.fin 0) = decide (area2 (pointsOf s.nodes (a :: t)) ≤ 0) := by
    rw [Bool.eq_iff_iff, decide_eq_true_eq]; exact (C20_area_sign _).2
  rw [this]

/-! ## C21 -/

/-- **C21.** Iterating over a ring yields its nodes once each, in order; iterating backwards, in the opposite order. -/
theorem C21_iterate (s : St) (a : Nat) (t : List Nat) (hl : IsCycle s.nodes (a :: t)) (hf : t.length < s.fuel) :
    nodesFrom a s = .ok (a :: t) s ∧ nodesBackFrom a s = .ok (a :: t.reverse) s :=
  ⟨nodesFrom_run hl hf, nodesBackFrom_run hl hf⟩

/-- **C21.** `reverse` reverses the order of the ring of the node and changes nothing else. -/
theorem C21_reverse (s : St) (a : Nat) (t : List Nat) (hl : IsCycle s.nodes (a :: t)) (hf : t.length < s.fuel) :
    ∃ h', reverseNodes a s = .ok () { s with nodes := h' } ∧ IsCycle h' (a :: t.reverse) ∧ OnlyLinksOf (a :: t) s.nodes h' :=
  ⟨_, reverseNodes_run hl hf, isCycle_swapLinks hl, onlyLinksOf_swapLinks _ _⟩

/-- **C21.** `place_before` inserts one node right before another and changes nothing else. -/
theorem C21_place_before (s : St) (new b : Nat) (t : List Nat) (hl : IsCycle s.nodes (b :: t)) (hn : new ∉ b :: t) :
    ∃ h', placeBefore new b s = .ok () { s with nodes := h' } ∧ IsCycle h' (b :: t ++ [new])
      ∧ OnlyLinksOf (b :: t ++ [new]) s.nodes h' := by
  obtain ⟨last, h1, h2, h3⟩ := isCycle_placed hl hn
  exact ⟨_, placeBefore_run h1, h2, h3⟩

/-- **C21.** Whatever changes only the links of some nodes leaves the rings without these nodes as they were. -/
theorem C21_other_rings (l k : List Nat) (h h' : Nat → Node) (hf : OnlyLinksOf l h h') (hk : IsCycle h k)
    (hd : ∀ i ∈ k, i ∉ l) : IsCycle h' k ∧ pointsOf h' k = pointsOf h k := by
  refine ⟨onlyLinksOf_cycle hf hk hd, ?_⟩
  unfold pointsOf locOf
  apply List.map_congr_left
  intro i _
  rw [(hf.1 i).1, (hf.1 i).2.1]

/-! ## Concrete cases: the hypotheses are met, and the results are the expected ones -/

section Examples

/-- A square with corners `(0, 0), (4, 0), (4, 4), (0, 4)` in the nodes 0 to 3. -/
private def square : Nat → Node
  | 0 => ⟨0, 0, some 3, some 1, none⟩
  | 1 => ⟨4, 0, some 0, some 2, none⟩
  | 2 => ⟨4, 4, some 1, some 3, none⟩
  | 3 => ⟨0, 4, some 2, some 0, none⟩
  | _ => ⟨9, 9, none, none, none⟩

private def squareState : St := { (default : St) with nodes := square, nn := 5, fuel := 10 }

private theorem square_cycle : IsCycle squareState.nodes [0, 1, 2, 3] := by
  refine ⟨by decide, ?_⟩
  simp [squareState, square, Link]

example : (match pointInPolygon ⟨1, 2⟩ 0 squareState with | .ok r _ => r | .err _ _ => .outside) = .inside := by decide +kernel
example : (match pointInPolygon ⟨4, 2⟩ 2 squareState with | .ok r _ => r | .err _ _ => .outside) = .on := by decide +kernel
example : (match pointInPolygon ⟨5, 2⟩ 0 squareState with | .ok r _ => r | .err _ _ => .inside) = .outside := by decide +kernel
example : windingNumber ⟨1, 2⟩ (pointsOf square [0, 1, 2, 3]) = 1 ∨ windingNumber ⟨1, 2⟩ (pointsOf square [0, 1, 2, 3]) = -1 := by
  decide +kernel

/-- The hypotheses of C19, C20 and C21 hold of the square. -/
example : ∃ box, nodeStats 0 squareState = .ok (intDiv (area2 (pointsOf squareState.nodes [0, 1, 2, 3])) 2, 4, box) squareState
    ∧ IsTightBox box (pointsOf squareState.nodes [0, 1, 2, 3]) := C20_stats squareState 0 [1, 2, 3] square_cycle (by decide)

example : area2 (pointsOf square [0, 1, 2, 3]) = -32 := by decide +kernel
example : area2 (pointsOf square [3, 2, 1, 0]) = 32 := by decide +kernel

example : ∃ h', placeBefore 4 2 squareState = .ok () { squareState with nodes := h' } ∧ IsCycle h' [2, 3, 0, 1, 4]
    ∧ OnlyLinksOf [2, 3, 0, 1, 4] squareState.nodes h' :=
  C21_place_before squareState 4 2 [3, 0, 1] (isCycle_append_comm (l₁ := [0, 1]) (l₂ := [2, 3]) square_cycle) (by decide)

example : ∃ h', reverseNodes 0 squareState = .ok () { squareState with nodes := h' } ∧ IsCycle h' [0, 3, 2, 1]
    ∧ OnlyLinksOf [0, 1, 2, 3] squareState.nodes h' := C21_reverse squareState 0 [1, 2, 3] square_cycle (by decide)

end Examples

end Wagyu
