import Verif.Proofs.Edges

/-!
# `LinearRing.edges`: start, end and the whole function
-/

namespace Wagyu

open Spec

theorem edgesLoop_spec {pts : List Point} : ∀ (fuel : Nat) {w : List Point} {i r : Nat} {s : EdgesState}, EInv pts w i r s →
    s.measure pts < fuel → ∃ acc b, edgesLoop pts fuel s = .ok (acc.reverse, b) ∧ EFin pts acc ∧ (b = false → acc = []) := by
  intro fuel
  induction fuel with
  | zero => intro w i r s _ h; omega
  | succ fuel ih =>
    intro w i r s h hf
    rw [edgesLoop]
    rcases edgesStep_spec h with ⟨s', e1, e2⟩ | ⟨e1, e2⟩ | ⟨s', w', i', r', e1, e2, e3⟩
    · rw [e1]; exact ⟨s'.acc, true, rfl, e2, by simp⟩
    · rw [e1]; exact ⟨[], false, rfl, e2, by simp⟩
    · rw [e1]; exact ih e2 (by omega)

/-! ## The start -/

theorem pyGet_all {pts : List Point} {p0 : Point} (h : ∀ p ∈ pts, p = p0) (i : Int) : pyGet pts i = none ∨ pyGet pts i = some p0 := by
  unfold pyGet
  have key : ∀ k : Nat, pts[k]? = none ∨ pts[k]? = some p0 := by
    intro k
    cases hk : pts[k]? with
    | none => exact Or.inl rfl
    | some p => exact Or.inr (by rw [h p (List.mem_of_getElem? hk)])
  split
  · exact key _
  · split
    · exact key _
    · exact Or.inl rfl

theorem edgesSkip_none {pts : List Point} {p0 : Point} (h : ∀ p ∈ pts, p = p0) :
    ∀ (fuel : Nat) (ri : Int), edgesSkip pts p0 fuel ri p0 = none := by
  intro fuel
  induction fuel with
  | zero => intro ri; rfl
  | succ fuel ih =>
    intro ri
    rw [edgesSkip, if_pos rfl]
    rcases pyGet_all h (ri - 1) with e | e
    · rw [e]
    · rw [e]; exact ih _

theorem edgesSkip_some {pts : List Point} {p0 : Point} :
    ∀ (fuel r : Nat), r < pts.length → r < fuel → (∃ k, k ≤ r ∧ ringPt pts k ≠ p0) →
      ∃ r' : Nat, edgesSkip pts p0 fuel (r : Int) (ringPt pts r) = some ((r' : Int), ringPt pts r') ∧ r' ≤ r
        ∧ ringPt pts r' ≠ p0 ∧ ∀ j, r' < j → j ≤ r → ringPt pts j = p0 := by
  intro fuel
  induction fuel with
  | zero => intro r _ h; omega
  | succ fuel ih =>
    intro r hr hf hex
    rw [edgesSkip]
    by_cases hp : ringPt pts r = p0
    · rw [if_pos hp]
      obtain ⟨k, hk, hk'⟩ := hex
      have hkr : k ≠ r := by rintro rfl; exact hk' hp
      have hg : pyGet pts ((r : Int) - 1) = some (ringPt pts (r - 1)) := by
        have := ptAt_nat (pts := pts) (k := r - 1) (by omega)
        rw [show (r : Int) - 1 = ((r - 1 : Nat) : Int) by omega]
        unfold ptAt at this
        split at this
        · next p hp => rw [hp]; cases this; rfl
        · cases this
      rw [hg]
      simp only
      rw [show (r : Int) - 1 = ((r - 1 : Nat) : Int) by omega]
      obtain ⟨r', e1, e2, e3, e4⟩ := ih (r - 1) (by omega) (by omega) ⟨k, by omega, hk'⟩
      refine ⟨r', e1, by omega, e3, fun j h1 h2 => ?_⟩
      by_cases hj : j = r
      · rw [hj, hp]
      · exact e4 j h1 (by omega)
    · rw [if_neg hp]
      exact ⟨r, rfl, Nat.le_refl _, hp, fun j h1 h2 => by omega⟩

/-! ## The end: merging the first and the last edge -/

/-- The edges found, in order, along `vs`. -/
structure CInv (pts : List Point) (vs : List Point) (l : List Edge) : Prop where
  along : Along vs l
  closed : vs.head? = vs.getLast?
  wf : ∀ e ∈ l, e.Wf ∧ e.bottom ∈ pts ∧ e.top ∈ pts
  np : l.IsChain fun e f => ¬ EdgesParallel e f
  sum : ∀ c, AddsUpOnLines c → ringSum c pts = pathSum c vs

/-- A closed chain of edges of which consecutive ones are not parallel has at least three of them. -/
theorem CInv.length {pts vs : List Point} {l : List Edge} (h : CInv pts vs l) : l = [] ∨ 3 ≤ l.length := by
  match l, h with
  | [], _ => exact Or.inl rfl
  | [e], h =>
    exfalso
    have ha := h.along
    have hc := h.closed
    match vs, ha with
    | a :: vs, ha =>
      obtain ⟨b, vs', rfl, j1, j2⟩ := Along.cons_iff.1 ha
      obtain ⟨x, hx⟩ := Along.nil_iff.1 j2
      obtain ⟨rfl, rfl⟩ := List.cons.inj hx
      simp at hc
      exact Joins.ne j1 (h.wf e (by simp)).1 hc
  | [e, f], h =>
    exfalso
    have ha := h.along
    have hc := h.closed
    match vs, ha with
    | a :: vs, ha =>
      obtain ⟨b, vs', rfl, j1, j2⟩ := Along.cons_iff.1 ha
      obtain ⟨d, vs'', rfl, j3, j4⟩ := Along.cons_iff.1 j2
      obtain ⟨x, hx⟩ := Along.nil_iff.1 j4
      obtain ⟨rfl, rfl⟩ := List.cons.inj hx
      simp at hc
      subst hc
      have := h.np
      simp only [List.isChain_cons_cons, List.isChain_singleton, and_true] at this
      apply this
      rw [← slopes_of_joins j1 j3]
      unfold arePointsSlopesEqual
      rw [decide_eq_true_eq]; ring
  | e :: f :: g :: l, _ => right; simp

theorem wf_ends {e : Edge} {a b : Point} (h : Joins e a b) {pts : List Point} (hb : e.bottom ∈ pts) (ht : e.top ∈ pts) :
    a ∈ pts ∧ b ∈ pts := by
  rcases h with ⟨e1, e2⟩ | ⟨e1, e2⟩
  · rw [← e1, ← e2]; exact ⟨hb, ht⟩
  · rw [← e1, ← e2]; exact ⟨ht, hb⟩

/-- Of two collinear points seen from `o` in the same vertical direction, `is_point_between_others` finds the nearer. -/
theorem between_le (ox oy px py qx qy : ℤ) (hop : ¬ (ox = px ∧ oy = py)) (hoq : ¬ (ox = qx ∧ oy = qy))
    (hpq : ¬ (px = qx ∧ py = qy)) (hcr : (px - ox) * (qy - oy) = (py - oy) * (qx - ox)) (h1 : oy ≤ py) (h2 : oy ≤ qy) :
    (isPointBetweenOthers ⟨ox, oy⟩ ⟨px, py⟩ ⟨qx, qy⟩ = true → py ≤ qy)
      ∧ (isPointBetweenOthers ⟨ox, oy⟩ ⟨px, py⟩ ⟨qx, qy⟩ = false → qy ≤ py) := by
  unfold isPointBetweenOthers
  simp only [Point.mk.injEq]
  rw [if_neg (by tauto)]
  by_cases hx : ox = qx
  · subst hx
    have hy : oy < qy := by
      rcases eq_or_lt_of_le h2 with h | h
      · exact absurd ⟨rfl, h⟩ hoq
      · exact h
    have hpx : px - ox = 0 := by
      rw [sub_self, mul_zero] at hcr
      rcases mul_eq_zero.1 hcr with h | h
      · exact h
      · omega
    have hpy : py > oy := by
      rcases eq_or_lt_of_le h1 with h | h
      · exact absurd ⟨by omega, h⟩ hop
      · exact h
    simp [hpy]
    omega
  · rw [if_pos (by simpa using hx)]
    have hdx : qx - ox ≠ 0 := by omega
    by_cases hy : qy = oy
    · subst hy
      have : py - qy = 0 := by
        rw [sub_self, mul_zero] at hcr
        rcases mul_eq_zero.1 hcr.symm with h | h
        · exact h
        · exact absurd h hdx
      constructor <;> intro _ <;> omega
    · have hqy : oy < qy := lt_of_le_of_ne h2 (fun h => hy h.symm)
      have hpx : px ≠ ox := by
        intro h
        subst h
        rw [sub_self, zero_mul] at hcr
        rcases mul_eq_zero.1 hcr.symm with h | h
        · exact hop ⟨rfl, by omega⟩
        · exact hdx h
      have hpy : oy < py := by
        rcases eq_or_lt_of_le h1 with h | h
        · exfalso
          rw [← h, sub_self, zero_mul] at hcr
          rcases mul_eq_zero.1 hcr with h | h <;> omega
        · exact h
      have e1 : 0 < py - oy := by omega
      have e2 : 0 < qy - oy := by omega
      rcases lt_or_gt_of_ne hpx with hlt | hgt
      · have e3 : qx - ox < 0 := by
          by_contra hn
          have : 0 < qx - ox := by omega
          nlinarith
        have hd : decide (px > ox) = false := by simp; omega
        rw [hd]
        simp only [beq_iff_eq, beq_eq_false_iff_ne, ne_eq]
        constructor
        · intro h
          have h : ¬ px < qx := by simpa using h.symm
          by_contra hn
          nlinarith
        · intro h
          have h : px < qx := by
            by_contra hn; apply h; simp [hn]
          by_contra hn
          nlinarith
      · have e3 : 0 < qx - ox := by
          by_contra hn
          have : qx - ox < 0 := by omega
          nlinarith
        have hd : decide (px > ox) = true := by simp; omega
        rw [hd]
        simp only [beq_iff_eq, beq_eq_false_iff_ne, ne_eq]
        constructor
        · intro h
          have h : px < qx := by simpa using h.symm
          by_contra hn
          nlinarith
        · intro h
          have h : ¬ px < qx := by
            intro hn; apply h; simp [hn]
          by_contra hn
          nlinarith

theorem Point.ne_iff {p q : Point} (h : p ≠ q) : ¬ (p.x = q.x ∧ p.y = q.y) := by
  rintro ⟨h1, h2⟩
  apply h
  cases p; cases q
  simp only at h1 h2
  rw [h1, h2]

theorem between_ge (ox oy px py qx qy : ℤ) (hop : ¬ (ox = px ∧ oy = py)) (hoq : ¬ (ox = qx ∧ oy = qy))
    (hpq : ¬ (px = qx ∧ py = qy)) (hcr : (px - ox) * (qy - oy) = (py - oy) * (qx - ox)) (h1 : py ≤ oy) (h2 : qy ≤ oy) :
    (isPointBetweenOthers ⟨ox, oy⟩ ⟨px, py⟩ ⟨qx, qy⟩ = true → qy ≤ py)
      ∧ (isPointBetweenOthers ⟨ox, oy⟩ ⟨px, py⟩ ⟨qx, qy⟩ = false → py ≤ qy) := by
  by_cases hx : ox = qx
  · unfold isPointBetweenOthers
    simp only [Point.mk.injEq]
    rw [if_neg (by tauto)]
    subst hx
    have hpx : px - ox = 0 := by
      rw [sub_self, mul_zero] at hcr
      rcases mul_eq_zero.1 hcr with h | h
      · exact h
      · exact absurd ⟨rfl, by omega⟩ hoq
    have hpy : ¬ py > oy := by omega
    simp [hpy]
    omega
  · have := between_le ox (-oy) px (-py) qx (-qy) (by omega) (by omega) (by omega) (by linarith) (by omega) (by omega)
    have he : isPointBetweenOthers ⟨ox, oy⟩ ⟨px, py⟩ ⟨qx, qy⟩ = isPointBetweenOthers ⟨ox, -oy⟩ ⟨px, -py⟩ ⟨qx, -qy⟩ := by
      unfold isPointBetweenOthers
      simp only [Point.mk.injEq, neg_inj]
      rw [if_pos (show ox ≠ qx from hx), if_pos (show ox ≠ qx from hx)]
    rw [← he] at this
    exact ⟨fun h => by have := this.1 h; omega, fun h => by have := this.2 h; omega⟩

/-- What one iteration does to the first edge `f` from `q0` to `q1` and the last edge `b` from `qk` to `q0`. -/
theorem closeStep_cases {f b : Edge} {mid : List Edge} {q0 q1 qk : Point} (hf : f.Wf) (hb : b.Wf) (jf : Joins f q0 q1)
    (jb : Joins b qk q0) :
    (closeStep f mid b = none ∧ ¬ EdgesParallel f b)
    ∨ (EdgesParallel f b ∧ closeStep f mid b = some mid ∧ q1 = qk)
    ∨ (EdgesParallel f b ∧ ∃ g, g.Wf ∧ Joins g qk q1 ∧ EdgesParallel f g ∧
        (closeStep f mid b = some (g :: mid) ∨ closeStep f mid b = some (mid ++ [g]))) := by
  unfold closeStep
  by_cases hp : EdgesParallel f b
  swap
  · left
    have : areEdgesSlopesEqual f b = false := by
      rw [Bool.eq_false_iff]; intro hh; exact hp ((areEdgesSlopesEqual_iff f b).1 hh)
    simp [this, hp]
  right
  rw [(areEdgesSlopesEqual_iff f b).2 hp]
  simp only [if_true]
  have hfn := hf.ne; have hbn := hb.ne
  have hfl := hf.le; have hbl := hb.le
  by_cases h1 : f.bottom = b.top
  · rw [if_pos h1]
    by_cases h2 : f.top = b.bottom
    · rw [if_pos h2]
      left
      refine ⟨hp, rfl, ?_⟩
      have : Joins f q0 qk := by
        rcases jb with ⟨e1, e2⟩ | ⟨e1, e2⟩
        · left; exact ⟨by rw [h1, e2], by rw [h2, e1]⟩
        · right; exact ⟨by rw [h1, e2], by rw [h2, e1]⟩
      exact Joins.unique jf this
    · rw [if_neg h2]
      right
      have hq : f.bottom = q0 ∧ f.top = q1 ∧ b.bottom = qk ∧ b.top = q0 := by
        rcases jf with ⟨e1, e2⟩ | ⟨e1, e2⟩ <;> rcases jb with ⟨f1, f2⟩ | ⟨f1, f2⟩
        · exact ⟨e1, e2, f1, f2⟩
        · exfalso; apply hbn; rw [f1, ← h1, e1]
        · exfalso; apply hfn; rw [h1, f2, e2]
        · exfalso; apply h2; rw [e2, f1]
      obtain ⟨e1, e2, e3, e4⟩ := hq
      have hpar : EdgesParallel f { f with bottom := b.bottom } := by
        unfold EdgesParallel at hp ⊢
        simp only
        rw [h1] at hp ⊢
        linarith
      refine ⟨hp, { f with bottom := b.bottom }, ?_, Or.inl ⟨e3, e2⟩, hpar, Or.inl rfl⟩
      exact wf_of_parallel hf hpar (fun h => h2 h.symm) (by simp only; rw [h1] at hfl; omega) rfl
  · rw [if_neg h1]
    by_cases h2 : f.top = b.bottom
    · rw [if_pos h2]
      right
      have hq : f.top = q0 ∧ f.bottom = q1 ∧ b.top = qk ∧ b.bottom = q0 := by
        rcases jf with ⟨e1, e2⟩ | ⟨e1, e2⟩ <;> rcases jb with ⟨f1, f2⟩ | ⟨f1, f2⟩
        · exfalso; apply h1; rw [e1, f2]
        · exfalso; apply hfn; rw [e1, h2, f1]
        · exfalso; apply hbn; rw [← h2, e2, f2]
        · exact ⟨e2, e1, f2, f1⟩
      obtain ⟨e1, e2, e3, e4⟩ := hq
      have hpar : EdgesParallel f { f with top := b.top } := by
        unfold EdgesParallel at hp ⊢
        simp only
        rw [h2] at hp ⊢
        linarith
      refine ⟨hp, { f with top := b.top }, ?_, Or.inr ⟨e2, e3⟩, hpar, Or.inl rfl⟩
      exact wf_of_parallel hf hpar h1 (by simp only; rw [h2] at hfl; omega) rfl
    · rw [if_neg h2]
      by_cases h3 : f.top = b.top ∧ f.bottom = b.bottom
      · rw [if_pos h3]
        left
        refine ⟨hp, rfl, ?_⟩
        have : Joins f q0 qk := by
          rcases jb with ⟨e1, e2⟩ | ⟨e1, e2⟩
          · right; exact ⟨by rw [h3.2, e1], by rw [h3.1, e2]⟩
          · left; exact ⟨by rw [h3.2, e1], by rw [h3.1, e2]⟩
        exact Joins.unique jf this
      · rw [if_neg h3]
        by_cases h4 : f.top = b.top
        · rw [if_pos h4]
          right
          have h5 : f.bottom ≠ b.bottom := fun h => h3 ⟨h4, h⟩
          have hq : f.top = q0 ∧ f.bottom = q1 ∧ b.bottom = qk ∧ b.top = q0 := by
            rcases jf with ⟨e1, e2⟩ | ⟨e1, e2⟩ <;> rcases jb with ⟨f1, f2⟩ | ⟨f1, f2⟩
            · exfalso; apply h1; rw [e1, f2]
            · exfalso; apply h5; rw [e1, f1]
            · exact ⟨e2, e1, f1, f2⟩
            · exfalso; apply h2; rw [e2, f1]
          obtain ⟨e1, e2, e3, e4⟩ := hq
          have hpar : EdgesParallel f { b with top := f.bottom } := by
            unfold EdgesParallel at hp ⊢
            simp only
            rw [h4] at hp ⊢
            linarith
          have hpar2 : EdgesParallel f { f with top := b.bottom } := by
            unfold EdgesParallel at hp ⊢
            simp only
            rw [h4] at hp ⊢
            linarith
          -- which of the two is longer
          have hlong : (isPointBetweenOthers f.top f.bottom b.bottom = true → f.bottom.y ≤ b.bottom.y)
              ∧ (isPointBetweenOthers f.top f.bottom b.bottom = false → b.bottom.y ≤ f.bottom.y) := by
            refine between_le f.top.x f.top.y f.bottom.x f.bottom.y b.bottom.x b.bottom.y (Point.ne_iff hfn.symm)
              (by rw [h4]; exact Point.ne_iff hbn.symm) (Point.ne_iff h5) ?_ hfl (by rw [h4]; exact hbl)
            unfold EdgesParallel at hp
            rw [h4] at hp ⊢
            linarith
          by_cases hbt : isPointBetweenOthers f.top f.bottom b.bottom = true
          · rw [if_pos hbt]
            refine ⟨hp, { b with top := f.bottom }, ?_, Or.inl ⟨e3, e2⟩, hpar, Or.inr rfl⟩
            refine wf_of_parallel hb ?_ (fun h => h5 h.symm) (hlong.1 hbt) rfl
            exact parallel_trans hf (parallel_comm hp) hpar
          · rw [if_neg hbt]
            refine ⟨hp, { f with top := b.bottom }, ?_, Or.inr ⟨e2, e3⟩, hpar2, Or.inl rfl⟩
            exact wf_of_parallel hf hpar2 h5 (hlong.2 (by simpa using hbt)) rfl
        · rw [if_neg h4]
          by_cases h5 : f.bottom = b.bottom
          · rw [if_pos h5]
            right
            have hq : f.bottom = q0 ∧ f.top = q1 ∧ b.top = qk ∧ b.bottom = q0 := by
              rcases jf with ⟨e1, e2⟩ | ⟨e1, e2⟩ <;> rcases jb with ⟨f1, f2⟩ | ⟨f1, f2⟩
              · exfalso; apply h1; rw [e1, f2]
              · exact ⟨e1, e2, f2, f1⟩
              · exfalso; apply h4; rw [e2, f2]
              · exfalso; apply h2; rw [e2, f1]
            obtain ⟨e1, e2, e3, e4⟩ := hq
            have hpar : EdgesParallel f { b with bottom := f.top } := by
              unfold EdgesParallel at hp ⊢
              simp only
              rw [h5] at hp ⊢
              linarith
            have hpar2 : EdgesParallel f { f with bottom := b.top } := by
              unfold EdgesParallel at hp ⊢
              simp only
              rw [h5] at hp ⊢
              linarith
            have hlong : (isPointBetweenOthers f.bottom f.top b.top = true → b.top.y ≤ f.top.y)
                ∧ (isPointBetweenOthers f.bottom f.top b.top = false → f.top.y ≤ b.top.y) := by
              refine between_ge f.bottom.x f.bottom.y f.top.x f.top.y b.top.x b.top.y (Point.ne_iff hfn)
                (by rw [h5]; exact Point.ne_iff hbn) (Point.ne_iff h4) ?_ hfl (by rw [h5]; exact hbl)
              unfold EdgesParallel at hp
              rw [h5] at hp ⊢
              linarith
            by_cases hbt : isPointBetweenOthers f.bottom f.top b.top = true
            · rw [if_pos hbt]
              refine ⟨hp, { b with bottom := f.top }, ?_, Or.inr ⟨e2, e3⟩, hpar, Or.inr rfl⟩
              refine wf_of_parallel hb ?_ h4 (hlong.1 hbt) rfl
              exact parallel_trans hf (parallel_comm hp) hpar
            · rw [if_neg hbt]
              refine ⟨hp, { f with bottom := b.top }, ?_, Or.inl ⟨e3, e2⟩, hpar2, Or.inl rfl⟩
              exact wf_of_parallel hf hpar2 (fun h => h4 h.symm) (hlong.2 (by simpa using hbt)) rfl
          · exfalso
            rcases jf with ⟨e1, e2⟩ | ⟨e1, e2⟩ <;> rcases jb with ⟨f1, f2⟩ | ⟨f1, f2⟩
            · apply h1; rw [e1, f2]
            · apply h5; rw [e1, f1]
            · apply h4; rw [e2, f2]
            · apply h2; rw [e2, f1]

/-- The loop `while modified`. -/
theorem closeLoop_spec {pts : List Point} : ∀ (n : Nat) (l : List Edge) (vs : List Point), l.length ≤ n → CInv pts vs l →
    closeLoop n l = [] ∧ (∀ c, AddsUpOnLines c → ringSum c pts = 0)
    ∨ ∃ vs', CInv pts vs' (closeLoop n l) ∧ ∀ f b, (closeLoop n l).head? = some f → (closeLoop n l).getLast? = some b →
        ¬ EdgesParallel f b := by
  intro n
  induction n with
  | zero =>
    intro l vs hl h
    have : l = [] := List.length_eq_zero_iff.1 (by omega)
    subst this
    left
    refine ⟨rfl, fun c hc => ?_⟩
    obtain ⟨a, rfl⟩ := Along.nil_iff.1 h.along
    rw [h.sum c hc]; rfl
  | succ n ih =>
    intro l vs hl h
    rw [closeLoop.eq_def]
    simp only
    by_cases hlt : l.length < 3
    · rw [if_pos hlt]
      left
      rcases h.length with rfl | h3
      · refine ⟨rfl, fun c hc => ?_⟩
        obtain ⟨a, rfl⟩ := Along.nil_iff.1 h.along
        rw [h.sum c hc]; rfl
      · omega
    · rw [if_neg hlt]
      match l, hl, h, hlt with
      | f :: rest, hl, h, hlt =>
        simp only
        rcases List.eq_nil_or_concat rest with rfl | ⟨mid, b, rfl⟩
        · simp at hlt
        rw [List.concat_eq_append] at *
        rw [List.getLast?_concat, List.dropLast_concat]
        simp only
        have hal := h.along
        match vs, hal with
        | q0 :: vs, hal =>
          obtain ⟨q1, u0, rfl, jf, hal2⟩ := Along.cons_iff.1 hal
          obtain ⟨u, qk, x, hu, hul, hmid, jb⟩ := Along.unsnoc hal2
          have hx : x = q0 := by
            have := h.closed
            rw [hu, ← List.cons_append, List.getLast?_concat] at this
            simpa using this.symm
          subst hx
          have huh : u.head? = some q1 := by
            cases u with
            | nil => cases hul
            | cons a u => rw [List.cons_append] at hu; simp [(List.cons.inj hu).1]
          have hfw := h.wf f (by simp)
          have hbw := h.wf b (by simp)
          have hmw : ∀ e ∈ mid, e.Wf ∧ e.bottom ∈ pts ∧ e.top ∈ pts := fun e he => h.wf e (by simp [he])
          have hnp := h.np
          have hmnp : mid.IsChain fun e f => ¬ EdgesParallel e f := by
            have := hnp.tail
            simp only [List.tail_cons] at this
            exact (List.isChain_append.1 this).1
          have hsum : ∀ c, AddsUpOnLines c → ringSum c pts = c x q1 + pathSum c u + c qk x := by
            intro c hc
            rw [h.sum c hc, hu]
            cases u with
            | nil => cases hul
            | cons a u =>
              have ha : a = q1 := by simpa using huh
              subst ha
              have := pathSum_append_singleton c x (a :: u) qk hul
              simp only [List.cons_append, pathSum] at this ⊢
              rw [this]; ring
          rcases closeStep_cases (mid := mid) hfw.1 hbw.1 jf jb with ⟨e1, e2⟩ | ⟨e0, e1, e2⟩ | ⟨e0, g, g1, g2, g3, g4⟩
          · right
            rw [e1]
            simp only
            refine ⟨_, h, ?_⟩
            intro f' b' hf' hb'
            simp only [List.head?_cons, Option.some.injEq] at hf'
            rw [← List.cons_append, List.getLast?_concat] at hb'
            simp only [Option.some.injEq] at hb'
            subst hf'; subst hb'
            exact e2
          · rw [e1]
            simp only
            refine ih mid u (by simp at hl; omega) ⟨hmid, ?_, hmw, hmnp, fun c hc => ?_⟩
            · rw [huh, hul, e2]
            · rw [hsum c hc, e2, AddsUp.swap hc x qk]; ring
          · have hcol : arePointsSlopesEqual qk x q1 = true := (slopes_of_joins jb jf).2 (parallel_comm e0)
            have hgm : g.bottom ∈ pts ∧ g.top ∈ pts := by
              have hk := (wf_ends jb hbw.2.1 hbw.2.2).1
              have h1 := (wf_ends jf hfw.2.1 hfw.2.2).2
              rcases g2 with ⟨e1, e2⟩ | ⟨e1, e2⟩ <;> rw [e1, e2] <;> simp [hk, h1]
            rcases g4 with g4 | g4
            · rw [g4]
              simp only
              refine ih (g :: mid) (qk :: u) (by simp at hl ⊢; omega) ⟨?_, ?_, ?_, ?_, fun c hc => ?_⟩
              · cases u with
                | nil => cases hul
                | cons a u =>
                  have ha : a = q1 := by simpa using huh
                  subst ha
                  exact ⟨g2, hmid⟩
              · rw [List.getLast?_cons, hul]; rfl
              · intro e he
                rcases List.mem_cons.1 he with rfl | he
                · exact ⟨g1, hgm⟩
                · exact hmw e he
              · cases mid with
                | nil => simp
                | cons m mid =>
                  rw [List.isChain_cons_cons]
                  refine ⟨fun hh => ?_, hmnp⟩
                  have := (List.isChain_cons_cons.1 hnp).1
                  exact this (parallel_trans g1 g3 hh)
              · rw [hsum c hc]
                cases u with
                | nil => cases hul
                | cons a u =>
                  have ha : a = q1 := by simpa using huh
                  subst ha
                  have := AddsUp.tri hc hcol
                  simp only [pathSum]
                  linarith
            · rw [g4]
              simp only
              refine ih (mid ++ [g]) (u ++ [q1]) (by simp at hl ⊢; omega) ⟨?_, ?_, ?_, ?_, fun c hc => ?_⟩
              · exact Along.snoc hmid hul g2
              · rw [List.getLast?_concat]
                cases u with
                | nil => cases hul
                | cons a u => simpa using huh
              · intro e he
                rcases List.mem_append.1 he with he | he
                · exact hmw e he
                · rw [List.mem_singleton] at he
                  subst he
                  exact ⟨g1, hgm⟩
              · rw [List.isChain_append]
                refine ⟨hmnp, by simp, ?_⟩
                intro m hm g' hg' hh
                simp only [List.head?_cons, Option.mem_def, Option.some.injEq] at hg'
                subst hg'
                have hb := List.isChain_append.1 (show ((f :: mid) ++ [b]).IsChain _ from hnp)
                refine hb.2.2 m ?_ b rfl ?_
                · rw [Option.mem_def] at hm ⊢
                  rw [List.getLast?_cons, hm]; rfl
                · have h1 := parallel_trans g1 hh (parallel_comm g3)
                  exact parallel_trans hfw.1 h1 e0
              · rw [hsum c hc, pathSum_append_singleton c q1 u qk hul]
                have := AddsUp.tri hc hcol
                linarith

/-- What `LinearRing.edges` returns. -/
theorem edgesOf_spec (pts : List Point) (fuel : Nat) (hf : 3 * pts.length + 3 ≤ fuel) :
    ∃ es, edgesOf fuel pts = .ok es
      ∧ ((es = [] ∧ ((3 ≤ pts.length) → ∀ c, AddsUpOnLines c → ringSum c pts = 0))
        ∨ ∃ vs, CInv pts vs es ∧ 3 ≤ es.length ∧ 3 ≤ pts.length ∧
            ∀ f b, es.head? = some f → es.getLast? = some b → ¬ EdgesParallel f b) := by
  match pts, hf with
  | [], _ => exact ⟨[], rfl, Or.inl ⟨rfl, fun h => by simp at h⟩⟩
  | [_], _ => exact ⟨[], rfl, Or.inl ⟨rfl, fun h => by simp at h⟩⟩
  | [_, _], _ => exact ⟨[], rfl, Or.inl ⟨rfl, fun h => by simp at h⟩⟩
  | p0 :: p1 :: p2 :: rest, hf =>
    generalize hpts : p0 :: p1 :: p2 :: rest = pts at *
    have hn : 3 ≤ pts.length := by rw [← hpts]; simp
    have hp0 : ringPt pts 0 = p0 := by rw [← hpts]; rfl
    have hp1 : ringPt pts 1 = p1 := by rw [← hpts]; rfl
    have hlast : pts.getLastD p0 = ringPt pts (pts.length - 1) := by
      unfold ringPt
      rw [List.getD_eq_getElem?_getD, ← List.getLast?_eq_getElem?, List.getLastD_eq_getLast?]
      cases h : pts.getLast? with
      | none => rw [List.getLast?_eq_none_iff] at h; rw [h] at hn; simp at hn
      | some x => rfl
    have heq : edgesOf fuel pts = match edgesSkip pts p0 (2 * pts.length + 1) ((pts.length : Int) - 1) (pts.getLastD p0) with
      | none => .ok []
      | some (ri, pt1) =>
        match edgesLoop pts fuel
          { acc := [], index := 1, ri := ri, lri := ri + 1, pt1 := pt1, pt2 := p0, pt3 := p1,
            front := none, back := none } with
        | .error e => .error e
        | .ok (result, true) => .ok (closeLoop result.length result)
        | .ok (result, false) => .ok result := by
      rw [← hpts]; rfl
    rw [heq]
    have hri : (pts.length : Int) - 1 = ((pts.length - 1 : Nat) : Int) := by omega
    by_cases hall : ∃ k, k ≤ pts.length - 1 ∧ ringPt pts k ≠ p0
    · obtain ⟨r, e1, e2, e3, e4⟩ := edgesSkip_some (p0 := p0) (2 * pts.length + 1) (pts.length - 1) (by omega) (by omega) hall
      rw [hri, hlast, e1]
      simp only
      have hr1 : 1 ≤ r := by
        rcases Nat.eq_zero_or_pos r with h | h
        · subst h; exact absurd hp0 e3
        · exact h
      have hinv : EInv pts [p0] 1 r (EdgesState.mk [] 1 (r : Int) ((r : Int) + 1) (ringPt pts r) p0 p1 none none) := by
        refine ⟨rfl, rfl, rfl, by omega, by omega, by omega, e3, ringPt_mem (by omega), ?_, ?_, by simp, by simp, trivial,
          rfl, fun _ => rfl, by simp, ?_, ?_, ?_⟩
        · simp only; rw [← hp0]; exact ringPt_mem (by omega)
        · simp only; rw [← hp1]; exact ringPt_mem (by omega)
        · intro _; exact ⟨hp1, Or.inr hp0.symm⟩
        · intro hh; omega
        · intro c hc f hf
          simp only [List.getLast?_singleton, Option.some.injEq] at hf
          subst hf
          rw [ringSum_eq c (by rw [← hpts]; simp), if_pos (by omega), ← stepSum_append (i := 0) (j := r) (by omega) e2,
            stepSum_bot c pts (i := 0) (j := r) (by omega), hp0, zero_add, hp1]
          have hzero : stepSum c pts r (pts.length - 1) + c (ringPt pts (pts.length - 1)) p0 = c (ringPt pts r) p0 := by
            rcases Nat.eq_or_lt_of_le e2 with h | h
            · rw [h, stepSum_self, zero_add]
            · rw [stepSum_bot c pts h, e4 (r + 1) (by omega) (by omega), e4 (pts.length - 1) (by omega) (by omega), AddsUp.self hc]
              have := stepSum_const hc (pts := pts) (p := p0) (pts.length - 1 - (r + 1)) (r + 1) (fun k h1 h2 => e4 k (by omega) (by omega))
              rw [show r + 1 + (pts.length - 1 - (r + 1)) = pts.length - 1 by omega] at this
              rw [this]; ring
          simp only [pathSum]
          linarith
      obtain ⟨acc, b, l1, l2, l3⟩ := edgesLoop_spec fuel hinv (by
        unfold EdgesState.measure
        simp only [List.length_nil]
        omega)
      rw [l1]
      rcases l2 with ⟨rfl, h0⟩ | ⟨w, w1, w2, w3, w4, w5⟩
      · refine ⟨[], ?_, Or.inl ⟨rfl, fun _ => h0⟩⟩
        cases b <;> rfl
      · have hinv : CInv pts w.reverse acc.reverse := by
          refine ⟨Along.reverse w1, by simp [w2], by simpa using w3, ?_, fun c hc => by rw [pathSum_reverse hc]; exact w5 c hc⟩
          rw [List.isChain_reverse]
          exact w4.imp fun a b h hh => h (parallel_comm hh)
        cases b with
        | false =>
          have := l3 rfl
          subst this
          refine ⟨[], rfl, Or.inl ⟨rfl, fun _ c hc => ?_⟩⟩
          obtain ⟨a, ha⟩ := Along.nil_iff.1 w1
          rw [w5 c hc, ha]; rfl
        | true =>
          simp only
          refine ⟨_, rfl, ?_⟩
          rcases closeLoop_spec _ _ _ (Nat.le_refl _) hinv with ⟨c1, c2⟩ | ⟨vs', c1, c2⟩
          · exact Or.inl ⟨c1, fun _ => c2⟩
          · rcases c1.length with h | h
            · refine Or.inl ⟨h, fun _ c hc => ?_⟩
              have := c1.along
              rw [h] at this
              obtain ⟨a, ha⟩ := Along.nil_iff.1 this
              rw [c1.sum c hc, ha]; rfl
            · exact Or.inr ⟨vs', c1, h, hn, c2⟩
    · push Not at hall
      have hmem : ∀ p ∈ pts, p = p0 := by
        intro p hp
        obtain ⟨k, hk, rfl⟩ := List.getElem_of_mem hp
        have := hall k (by omega)
        unfold ringPt at this
        rw [List.getD_eq_getElem?_getD, List.getElem?_eq_getElem hk] at this
        exact this
      rw [hlast, hall (pts.length - 1) (by omega), edgesSkip_none hmem]
      refine ⟨[], rfl, Or.inl ⟨rfl, fun _ c hc => ?_⟩⟩
      rw [ringSum_eq c (by rw [← hpts]; simp), hall _ (Nat.le_refl _), hp0, AddsUp.self hc]
      have := stepSum_const hc (pts := pts) (p := p0) (pts.length - 1) 0 (fun k _ h2 => hall k (by omega))
      rw [zero_add] at this
      rw [this]; rfl

end Wagyu
