import Verif.Proofs.EdgesClose

/-!
# C14, C36: the edges of a linear ring
-/

namespace Wagyu

open Spec

/-- **C14.** `LinearRing.edges` always returns (within `3 n + 3` iterations, without any exception).  Either there are no
edges, or at least three.  The end points of the edges are points of the ring; no edge is degenerate, every edge is what
`Edge` builds from its end points (lower end first, slope from the end points); the edges form a closed chain; and no two
consecutive ones, the last and the first included, are parallel. -/
theorem C14_edges (pts : List Point) (fuel : Nat) (hf : 3 * pts.length + 3 ≤ fuel) :
    ∃ es, edgesOf fuel pts = .ok es
      ∧ (es = [] ∨ 3 ≤ es.length)
      ∧ (∀ e ∈ es, e.bottom ∈ pts ∧ e.top ∈ pts ∧ e.bottom ≠ e.top ∧ e = Edge.mk' e.bottom e.top)
      ∧ (∃ vs, ClosedAlong vs es)
      ∧ (∀ i e f, es[i]? = some e → es[(i + 1) % es.length]? = some f → ¬ EdgesParallel e f) := by
  obtain ⟨es, h1, h2⟩ := edgesOf_spec pts fuel hf
  refine ⟨es, h1, ?_⟩
  rcases h2 with ⟨rfl, _⟩ | ⟨vs, hc, hl, _, hfb⟩
  · exact ⟨Or.inl rfl, by simp, ⟨[], Or.inl ⟨rfl, rfl⟩⟩, by simp⟩
  · refine ⟨Or.inr hl, ?_, ⟨vs, Or.inr ⟨hc.along, hc.closed⟩⟩, ?_⟩
    · intro e he
      obtain ⟨w, b, t⟩ := hc.wf e he
      refine ⟨b, t, w.ne, ?_⟩
      have := w.slope
      rw [slope_mk' _ _ w.le] at this ⊢
      cases e
      simp only at this ⊢
      rw [this]
    · intro i e f he hf'
      by_cases hi : i + 1 < es.length
      · rw [Nat.mod_eq_of_lt hi] at hf'
        have hnp := List.isChain_iff_getElem.1 hc.np i hi
        rw [List.getElem?_eq_getElem hi] at hf'
        rw [List.getElem?_eq_getElem (by omega)] at he
        simp only [Option.some.injEq] at he hf'
        rw [← he, ← hf']
        exact hnp
      · have hil : i < es.length := by
          by_contra hn
          rw [List.getElem?_eq_none (by omega)] at he
          cases he
        have hie : i + 1 = es.length := by omega
        rw [hie, Nat.mod_self] at hf'
        intro hp
        refine hfb f e ?_ ?_ (parallel_comm hp)
        · rw [List.head?_eq_getElem?]; exact hf'
        · rw [List.getLast?_eq_getElem?, ← hie]; exact he

/-- **C14.** Fewer than three points give no edges. -/
theorem C14_few_points (pts : List Point) (fuel : Nat) (h : pts.length < 3) : edgesOf fuel pts = .ok [] := by
  match pts, h with
  | [], _ => rfl
  | [_], _ => rfl
  | [_, _], _ => rfl
  | _ :: _ :: _ :: _, h => simp at h; omega

/-! ## C36 -/

/-- The vertices of a chain whose consecutive edges are not parallel are determined by the edges. -/
theorem along_unique {es : List Edge} (hl : 3 ≤ es.length) (hw : ∀ e ∈ es, e.Wf)
    (np : es.IsChain fun e f => ¬ EdgesParallel e f) {vs ws : List Point} (h1 : Along vs es) (h2 : Along ws es) : vs = ws := by
  have key : ∀ (es : List Edge) (vs ws : List Point), Along vs es → Along ws es → vs.head? = ws.head? → vs = ws := by
    intro es
    induction es with
    | nil =>
      intro vs ws h1 h2 h
      obtain ⟨a, rfl⟩ := Along.nil_iff.1 h1
      obtain ⟨b, rfl⟩ := Along.nil_iff.1 h2
      simpa using h
    | cons e es ih =>
      intro vs ws h1 h2 h
      match vs, ws, h1, h2 with
      | a :: vs, b :: ws, h1, h2 =>
        obtain ⟨x, vs', rfl, j1, k1⟩ := Along.cons_iff.1 h1
        obtain ⟨y, ws', rfl, j2, k2⟩ := Along.cons_iff.1 h2
        have hab : a = b := by simpa using h
        subst hab
        have hxy := Joins.unique j1 j2
        subst hxy
        rw [ih _ _ k1 k2 rfl]
  match es, hl with
  | e :: f :: es, _ =>
    apply key _ vs ws h1 h2
    match vs, ws, h1, h2 with
    | a :: vs, b :: ws, h1, h2 =>
      obtain ⟨x, vs', rfl, j1, k1⟩ := Along.cons_iff.1 h1
      obtain ⟨y, ws', rfl, j2, k2⟩ := Along.cons_iff.1 h2
      obtain ⟨x', vs'', rfl, j1', k1'⟩ := Along.cons_iff.1 k1
      obtain ⟨y', ws'', rfl, j2', k2'⟩ := Along.cons_iff.1 k2
      simp only [List.head?_cons, Option.some.injEq]
      by_contra hab
      have hcase : a = y ∧ x = b := by
        rcases j1 with ⟨e1, e2⟩ | ⟨e1, e2⟩ <;> rcases j2 with ⟨f1, f2⟩ | ⟨f1, f2⟩
        · exact absurd (e1.symm.trans f1) hab
        · exact ⟨e1.symm.trans f1, e2.symm.trans f2⟩
        · exact ⟨e2.symm.trans f2, e1.symm.trans f1⟩
        · exact absurd (e2.symm.trans f2) hab
      obtain ⟨rfl, rfl⟩ := hcase
      -- now `f` joins `x`, `x'` and also `a`, `y'`
      have hfx : Joins f x a := by
        have hxa : x ≠ a := fun h => hab h.symm
        rcases j1' with ⟨e1, e2⟩ | ⟨e1, e2⟩ <;> rcases j2' with ⟨f1, f2⟩ | ⟨f1, f2⟩
        · exact absurd (e1.symm.trans f1) hxa
        · exact Or.inl ⟨e1, f2⟩
        · exact Or.inr ⟨f1, e2⟩
        · exact absurd (e2.symm.trans f2) hxa
      have := (List.isChain_cons_cons.1 np).1
      apply this
      rw [← slopes_of_joins j1 hfx]
      unfold arePointsSlopesEqual
      rw [decide_eq_true_eq]; ring

theorem ringSum_few {c : Point → Point → ℤ} (hc : AddsUpOnLines c) (pts : List Point) (h : pts.length < 3) : ringSum c pts = 0 := by
  match pts, h with
  | [], _ => rfl
  | [a], _ => simp [ringSum, pathSum, AddsUp.self hc]
  | [a, b], _ =>
    have := AddsUp.swap hc a b
    simp [ringSum, pathSum]
    omega
  | _ :: _ :: _ :: _, h => simp at h; omega

/-- **C36.** Whatever quantity of directed segments adds up along lines: its sum around the chain of edges that
`LinearRing.edges` returns is its sum around the ring. -/
theorem C36_sums_preserved (pts : List Point) (fuel : Nat) (hf : 3 * pts.length + 3 ≤ fuel) (es : List Edge)
    (h : edgesOf fuel pts = .ok es) (c : Point → Point → ℤ) (hc : AddsUpOnLines c) :
    (es = [] ∧ ringSum c pts = 0)
      ∨ ∃ vs, ClosedAlong vs es ∧ (∀ ws, Along ws es → ws = vs) ∧ pathSum c vs = ringSum c pts := by
  obtain ⟨es', h1, h2⟩ := edgesOf_spec pts fuel hf
  rw [h] at h1
  cases h1
  rcases h2 with ⟨rfl, h0⟩ | ⟨vs, hcv, hl, _, hfb⟩
  · left
    refine ⟨rfl, ?_⟩
    by_cases hl : 3 ≤ pts.length
    · exact h0 hl c hc
    · exact ringSum_few hc pts (by omega)
  · right
    exact ⟨vs, Or.inr ⟨hcv.along, hcv.closed⟩,
      fun ws hws => along_unique hl (fun e he => (hcv.wf e he).1) hcv.np hws hcv.along, (hcv.sum c hc).symm⟩

theorem cross_addsUp : AddsUpOnLines cross := by
  intro p q r h
  have := (C33_points_slopes_equal_iff p q r).2 h
  unfold arePointsSlopesEqual at this
  rw [decide_eq_true_eq] at this
  unfold cross
  linarith

/-- **C36.** Twice the signed area of the chain of edges is twice the signed area of the ring. -/
theorem C36_area_preserved (pts : List Point) (fuel : Nat) (hf : 3 * pts.length + 3 ≤ fuel) (es : List Edge)
    (h : edgesOf fuel pts = .ok es) :
    (es = [] ∧ ringSum cross pts = 0) ∨ ∃ vs, ClosedAlong vs es ∧ pathSum cross vs = ringSum cross pts := by
  rcases C36_sums_preserved pts fuel hf es h cross cross_addsUp with h | ⟨vs, h1, _, h2⟩
  · exact Or.inl h
  · exact Or.inr ⟨vs, h1, h2⟩

theorem sign_same {a b u v : ℤ} (h : a * u = b * v) (hu : 0 < u) (hv : 0 < v) : (0 < a ↔ 0 < b) ∧ (a < 0 ↔ b < 0) := by
  refine ⟨⟨fun h1 => ?_, fun h1 => ?_⟩, ⟨fun h1 => ?_, fun h1 => ?_⟩⟩ <;> by_contra hn <;> nlinarith

theorem sign_opp {a b u v : ℤ} (h : a * u = b * v) (hu : u < 0) (hv : 0 < v) : (0 < a ↔ b < 0) ∧ (a < 0 ↔ 0 < b) := by
  refine ⟨⟨fun h1 => ?_, fun h1 => ?_⟩, ⟨fun h1 => ?_, fun h1 => ?_⟩⟩ <;> by_contra hn <;> nlinarith

/-- The sign of the side of a line on which a point lies, in terms of integers. -/
theorem crossing_addsUp (z : Point) : AddsUpOnLines (crossing z) := by
  intro p q r h
  have hcol := (C33_points_slopes_equal_iff p q r).2 h
  unfold arePointsSlopesEqual at hcol
  rw [decide_eq_true_eq] at hcol
  obtain ⟨px, py⟩ := p
  obtain ⟨qx, qy⟩ := q
  obtain ⟨rx, ry⟩ := r
  obtain ⟨zx, zy⟩ := z
  simp only at hcol
  unfold crossing
  simp only
  -- the three determinants are proportional to the differences of the `y`
  have k1 : ((qx - px) * (zy - py) - (zx - px) * (qy - py)) * (ry - qy)
      = ((rx - qx) * (zy - qy) - (zx - qx) * (ry - qy)) * (qy - py) := by linear_combination -(zy - qy) * hcol
  have k2 : ((qx - px) * (zy - py) - (zx - px) * (qy - py)) * (ry - py)
      = ((rx - px) * (zy - py) - (zx - px) * (ry - py)) * (qy - py) := by linear_combination -(zy - py) * hcol
  have k3 : ((rx - qx) * (zy - qy) - (zx - qx) * (ry - qy)) * (ry - py)
      = ((rx - px) * (zy - py) - (zx - px) * (ry - py)) * (ry - qy) := by linear_combination (zy - ry) * hcol
  generalize (qx - px) * (zy - py) - (zx - px) * (qy - py) = a at *
  generalize (rx - qx) * (zy - qy) - (zx - qx) * (ry - qy) = b at *
  generalize (rx - px) * (zy - py) - (zx - px) * (ry - py) = d at *
  by_cases hp : py ≤ zy <;> by_cases hq : qy ≤ zy <;> by_cases hr : ry ≤ zy
  · have e1 : ¬ zy < py := by omega
    have e2 : ¬ zy < qy := by omega
    have e3 : ¬ zy < ry := by omega
    simp [e1, e2, e3]
  · have := sign_same k3 (by omega) (by omega)
    have e1 : ¬ zy < py := by omega
    have e2 : ¬ zy < qy := by omega
    simp [e1, e2, hp, hq, hr, this.1]
  · have := sign_opp k1 (by omega) (by omega)
    have e1 : ¬ zy < py := by omega
    have e2 : zy < qy := by omega
    have e3 : ¬ zy < ry := by omega
    simp only [e1, e2, e3, hp, hq, hr, this.1, true_and, false_and, and_false, if_false]
    split <;> omega
  · have := sign_same k2 (by omega) (by omega)
    have e1 : ¬ zy < py := by omega
    have e2 : zy < qy := by omega
    have e3 : zy < ry := by omega
    simp [e1, e2, e3, hp, hq, hr, this.1]
  · have := sign_same (show a * (py - ry) = d * (py - qy) by linarith) (by omega) (by omega)
    have e1 : zy < py := by omega
    have e2 : ¬ zy < qy := by omega
    have e3 : ¬ zy < ry := by omega
    simp [e1, e2, e3, hp, hq, hr, this.2]
  · have := sign_opp (show a * (qy - ry) = b * (py - qy) by linarith) (by omega) (by omega)
    have e1 : zy < py := by omega
    have e2 : ¬ zy < qy := by omega
    have e3 : zy < ry := by omega
    simp only [e1, e2, e3, hp, hq, hr, this.2, true_and, false_and, and_false, if_false]
    split <;> omega
  · have := sign_same (show b * (py - ry) = d * (qy - ry) by linarith) (by omega) (by omega)
    have e1 : zy < py := by omega
    have e2 : zy < qy := by omega
    have e3 : ¬ zy < ry := by omega
    simp [e1, e2, e3, hp, hq, hr, this.2]
  · simp [hp, hq, hr]

/-- **C36.** The winding number of the chain of edges around any point is that of the ring. -/
theorem C36_winding_preserved (pts : List Point) (fuel : Nat) (hf : 3 * pts.length + 3 ≤ fuel) (es : List Edge)
    (h : edgesOf fuel pts = .ok es) (z : Point) :
    (es = [] ∧ ringSum (crossing z) pts = 0)
      ∨ ∃ vs, ClosedAlong vs es ∧ pathSum (crossing z) vs = ringSum (crossing z) pts := by
  rcases C36_sums_preserved pts fuel hf es h (crossing z) (crossing_addsUp z) with h | ⟨vs, h1, _, h2⟩
  · exact Or.inl h
  · exact Or.inr ⟨vs, h1, h2⟩

/-- A square with a spike, a repeated point and collinear points: four edges remain. -/
example :
    let ring : List Point := [⟨0, 0⟩, ⟨2, 0⟩, ⟨4, 0⟩, ⟨4, 0⟩, ⟨4, 4⟩, ⟨9, 4⟩, ⟨0, 4⟩, ⟨0, 2⟩]
    (match edgesOf 27 ring with | .ok es => es.map (fun e => (e.bottom, e.top)) | .error _ => [])
      = [(⟨0, 0⟩, ⟨4, 0⟩), (⟨4, 4⟩, ⟨4, 0⟩), (⟨4, 4⟩, ⟨0, 4⟩), (⟨0, 4⟩, ⟨0, 0⟩)]
    ∧ ringSum cross ring = 32 ∧ ringSum (crossing ⟨1, 1⟩) ring = 1 := by
  decide +kernel

end Wagyu
