import Verif.Proofs.EdgesRepeat
import Verif.Props.EdgeExtraction

/-!
# `LinearRing.edges` and a point that is repeated: the whole function
-/

namespace Wagyu

open Spec

theorem edgesLoop_add {pts : List Point} : ∀ (f d : Nat) {s : EdgesState} {x : List Edge × Bool},
    edgesLoop pts f s = .ok x → edgesLoop pts (f + d) s = .ok x := by
  intro f
  induction f with
  | zero => intro d s x h; cases h
  | succ f ih =>
    intro d s x h
    rw [Nat.add_right_comm, edgesLoop]
    rw [edgesLoop] at h
    cases hs : edgesStep pts s with
    | error e => rw [hs] at h; cases h
    | ok y =>
      rw [hs] at h
      cases y with
      | next t => exact ih d h
      | brk t => exact h
      | ret l => exact h

/-- Where the main loop starts. -/
def startState (pts : List Point) (r : Nat) : EdgesState :=
  EdgesState.mk [] 1 (r : Int) ((r : Int) + 1) (ringPt pts r) (ringPt pts 0) (ringPt pts 1) none none

theorem edgesOf_eq {pts : List Point} (hn : 3 ≤ pts.length) (fuel : Nat) :
    edgesOf fuel pts = match edgesSkip pts (ringPt pts 0) (2 * pts.length + 1) ((pts.length - 1 : Nat) : Int) (ringPt pts (pts.length - 1)) with
      | none => .ok []
      | some (ri, pt1) =>
        match edgesLoop pts fuel
          { acc := [], index := 1, ri := ri, lri := ri + 1, pt1 := pt1, pt2 := ringPt pts 0, pt3 := ringPt pts 1,
            front := none, back := none } with
        | .error e => .error e
        | .ok (result, true) => .ok (closeLoop result.length result)
        | .ok (result, false) => .ok result := by
  match pts, hn with
  | p0 :: p1 :: p2 :: rest, hn =>
    have hlast : (p0 :: p1 :: p2 :: rest).getLastD p0 = ringPt (p0 :: p1 :: p2 :: rest) ((p0 :: p1 :: p2 :: rest).length - 1) := by
      unfold ringPt
      rw [List.getD_eq_getElem?_getD, ← List.getLast?_eq_getElem?, List.getLastD_eq_getLast?]
      cases h : (p0 :: p1 :: p2 :: rest).getLast? with
      | none => rw [List.getLast?_eq_none_iff] at h; cases h
      | some x => rfl
    rw [← hlast, show (((p0 :: p1 :: p2 :: rest).length - 1 : Nat) : Int) = ((p0 :: p1 :: p2 :: rest).length : Int) - 1 by simp]
    rfl

/-- The invariant at the start, without the sums. -/
theorem edges_start_inv {pts : List Point} (hn : 3 ≤ pts.length) {r : Nat} (e2 : r ≤ pts.length - 1) (e3 : ringPt pts r ≠ ringPt pts 0)
    (e4 : ∀ j, r < j → j ≤ pts.length - 1 → ringPt pts j = ringPt pts 0) : 1 ≤ r ∧ EInv pts [ringPt pts 0] 1 r (startState pts r) := by
  have hr1 : 1 ≤ r := by
    rcases Nat.eq_zero_or_pos r with h | h
    · subst h; exact absurd rfl e3
    · exact h
  refine ⟨hr1, rfl, rfl, rfl, by omega, by omega, by omega, e3, ringPt_mem (by omega), ringPt_mem (by omega), ringPt_mem (by omega), by simp [startState], by simp [startState], trivial,
    rfl, fun _ => rfl, by simp [startState], fun _ => ⟨rfl, Or.inr rfl⟩, fun hh => by omega, ?_⟩
  intro c hc f hf
  simp only [List.getLast?_singleton, Option.some.injEq] at hf
  subst hf
  have hne : pts ≠ [] := by rintro rfl; simp at hn
  rw [ringSum_eq c hne, if_pos (by omega), ← stepSum_append (i := 0) (j := r) (by omega) e2,
    stepSum_bot c pts (i := 0) (j := r) (by omega), zero_add]
  have hzero : stepSum c pts r (pts.length - 1) + c (ringPt pts (pts.length - 1)) (ringPt pts 0) = c (ringPt pts r) (ringPt pts 0) := by
    rcases Nat.eq_or_lt_of_le e2 with h | h
    · rw [h, stepSum_self, zero_add]
    · rw [stepSum_bot c pts h, e4 (r + 1) (by omega) (by omega), e4 (pts.length - 1) (by omega) (by omega), AddsUp.self hc]
      have := stepSum_const hc (pts := pts) (p := ringPt pts 0) (pts.length - 1 - (r + 1)) (r + 1) (fun k h1 h2 => e4 k (by omega) (by omega))
      rw [show r + 1 + (pts.length - 1 - (r + 1)) = pts.length - 1 by omega] at this
      rw [this]; ring
  simp only [pathSum, startState]
  linarith

theorem edgesOf_add {pts : List Point} {f d : Nat} {es : List Edge} (h : edgesOf f pts = .ok es) : edgesOf (f + d) pts = .ok es := by
  by_cases hn : 3 ≤ pts.length
  · rw [edgesOf_eq hn] at h ⊢
    revert h
    cases edgesSkip pts (ringPt pts 0) (2 * pts.length + 1) ((pts.length - 1 : Nat) : Int) (ringPt pts (pts.length - 1)) with
    | none => exact id
    | some x =>
      obtain ⟨ri, p⟩ := x
      simp only
      intro h
      split at h
      · cases h
      · next hl => rw [edgesLoop_add f d hl]; exact h
      · next hl => rw [edgesLoop_add f d hl]; exact h
  · rw [C14_few_points pts _ (by omega)] at h ⊢
    exact h

/-- With enough fuel the result does not depend on it. -/
theorem edgesOf_fuel {pts : List Point} {f f' : Nat} (h : 3 * pts.length + 3 ≤ f) (h' : 3 * pts.length + 3 ≤ f') :
    edgesOf f pts = edgesOf f' pts := by
  obtain ⟨es, h1, -⟩ := C14_edges pts (3 * pts.length + 3) (Nat.le_refl _)
  have h2 := edgesOf_add (d := f - (3 * pts.length + 3)) h1
  have h3 := edgesOf_add (d := f' - (3 * pts.length + 3)) h1
  rw [show 3 * pts.length + 3 + (f - (3 * pts.length + 3)) = f by omega] at h2
  rw [show 3 * pts.length + 3 + (f' - (3 * pts.length + 3)) = f' by omega] at h3
  rw [h2, h3]

/-- Two different points make no edges. -/
theorem edgesOf_two {pts : List Point} {p q : Point} (h : ∀ x ∈ pts, x = p ∨ x = q) {fuel : Nat} (hf : 3 * pts.length + 3 ≤ fuel) :
    edgesOf fuel pts = .ok [] := by
  obtain ⟨es, h1, h2, h3, -, h4⟩ := C14_edges pts fuel hf
  rcases h2 with rfl | hl
  · exact h1
  · exfalso
    match es, hl with
    | e :: f :: g :: rest, _ =>
      apply h4 0 e f rfl (by simp)
      obtain ⟨a1, a2, a3, -⟩ := h3 e (by simp)
      obtain ⟨b1, b2, b3, -⟩ := h3 f (by simp)
      unfold EdgesParallel
      rcases h _ a1 with ha | ha <;> rcases h _ a2 with hb | hb <;> rcases h _ b1 with hc | hc <;> rcases h _ b2 with hd | hd <;>
        first
        | exact absurd (ha.trans hb.symm) a3
        | exact absurd (hc.trans hd.symm) b3
        | (rw [ha, hb, hc, hd]; ring)

/-- The edges of a ring one of whose points is repeated, and of a ring whose first point comes also at the end. -/
theorem edgesOf_dup {k : Nat} {pts pts' : List Point} (D : Dup k pts pts') (hn : 3 ≤ pts.length) (hk : k ≤ pts.length)
    (hend : k = pts.length → ringPt pts' k = ringPt pts 0) {fuel : Nat} (hf : 3 * pts'.length + 3 ≤ fuel) :
    edgesOf fuel pts' = edgesOf fuel pts := by
  have hlen := D.len
  have h0 : ringPt pts' 0 = ringPt pts 0 := D.low 0 (by omega) (by omega)
  by_cases hall : ∃ j, j ≤ pts.length - 1 ∧ ringPt pts j ≠ ringPt pts 0
  · obtain ⟨r, e1, e2, e3, e4⟩ := edgesSkip_some (p0 := ringPt pts 0) (2 * pts.length + 1) (pts.length - 1) (by omega) (by omega) hall
    obtain ⟨hr1, hinv⟩ := edges_start_inv hn e2 e3 e4
    obtain ⟨b, hb, hb'⟩ : ∃ b, (r < k ∧ b = r ∨ r = k ∧ b = k + 1 ∨ k < r ∧ b = r + 1)
        ∧ ((r < k ∧ b = r) ∨ (r = k ∧ (b = k ∨ b = k + 1)) ∨ (k < r ∧ b = r + 1)) := by
      rcases Nat.lt_trichotomy r k with h1 | h1 | h1
      · exact ⟨r, by omega, by omega⟩
      · exact ⟨k + 1, by omega, by omega⟩
      · exact ⟨r + 1, by omega, by omega⟩
    have hpb := D.pt (show r < pts.length by omega) hb'
    obtain ⟨r', g1, g2, g3, g4⟩ := edgesSkip_some (p0 := ringPt pts' 0) (pts := pts') (2 * pts'.length + 1) (pts'.length - 1) (by omega) (by omega)
      ⟨b, by omega, by rw [hpb.2, h0]; exact e3⟩
    have hr' : r' = b := by
      rcases Nat.lt_trichotomy r' b with h1 | h1 | h1
      · exact absurd (by rw [← hpb.2, g4 b h1 (by omega), h0]) e3
      · exact h1
      · exfalso
        apply g3
        rw [h0]
        by_cases hle : r' ≤ k
        · by_cases hlt : r' < pts.length
          · rw [D.low r' hlt hle]; exact e4 r' (by omega) (by omega)
          · have : r' = k := by omega
            rw [this]; exact hend (by omega)
        · rw [show r' = (r' - 1) + 1 by omega, D.high (r' - 1) (by omega) (by omega)]
          exact e4 _ (by omega) (by omega)
    subst hr'
    have E := edgesOf_eq hn fuel
    rw [e1] at E
    simp only at E
    have E' := edgesOf_eq (show 3 ≤ pts'.length by omega) fuel
    rw [g1] at E'
    simp only at E'
    change _ = (match edgesLoop pts fuel (startState pts r) with
        | .error e => Except.error e
        | .ok (result, true) => Except.ok (closeLoop result.length result)
        | .ok (result, false) => Except.ok result) at E
    change _ = (match edgesLoop pts' fuel (startState pts' r') with
        | .error e => Except.error e
        | .ok (result, true) => Except.ok (closeLoop result.length result)
        | .ok (result, false) => Except.ok result) at E'
    obtain ⟨es, hes, -⟩ := C14_edges pts fuel (by omega)
    obtain ⟨es', hes', -⟩ := C14_edges pts' fuel hf
    rw [E, E']
    rw [hes] at E
    rw [hes'] at E'
    cases hl : edgesLoop pts fuel (startState pts r) with
    | error e => rw [hl] at E; cases E
    | ok x =>
    obtain ⟨acc, fl⟩ := x
    cases hl' : edgesLoop pts' fuel (startState pts' r') with
    | error e => rw [hl'] at E'; cases E'
    | ok x =>
    obtain ⟨acc', fl'⟩ := x
    have key : ∃ fl2, LoopEnds pts' (startState pts' r') acc fl2 ∧ (fl2 = fl ∨ acc = []) := by
      by_cases hk0 : k = 0
      · subst hk0
        have h1 : ringPt pts' 1 = ringPt pts 0 := D.high 0 (by omega) (by omega)
        have h2 : ringPt pts' 2 = ringPt pts 1 := D.high 1 (by omega) (by omega)
        have T : Twin 0 1 r 2 r' (startState pts r) (EdgesState.mk [] 2 (r' : Int) ((r' : Int) + 1) (ringPt pts' r') (ringPt pts' 0) (ringPt pts' 2) none none) :=
          ⟨rfl, hpb.2, h0, h2, rfl, rfl, rfl, rfl, rfl, rfl, rfl, rfl, hb', by omega⟩
        obtain ⟨fl2, f1, f2⟩ := loop_twin D fuel hinv T hl
        refine ⟨fl2, ends_of_step (y := .next _) ?_ f1, f2⟩
        unfold edgesStep startState
        simp only
        rw [if_pos (by rw [h0, h1]), if_neg (by omega)]
        unfold edgesAdvance
        simp only
        rw [if_neg (by omega)]
        have := ptAt_nat (pts := pts') (k := 2) (by omega)
        rw [show (1 : Int) + 1 = ((2 : Nat) : Int) by norm_num, this]
        rfl
      · have h1 : ringPt pts' 1 = ringPt pts 1 := D.low 1 (by omega) (by omega)
        exact loop_twin D fuel hinv (s' := startState pts' r') (a := 1)
          ⟨rfl, hpb.2, h0, h1, rfl, rfl, rfl, rfl, rfl, rfl, rfl, rfl, hb', by omega⟩ hl
    obtain ⟨fl2, ⟨f', hf'⟩, hfl⟩ := key
    have m1 := edgesLoop_add f' fuel hf'
    have m2 := edgesLoop_add fuel f' hl'
    rw [Nat.add_comm, m2] at m1
    simp only [Except.ok.injEq, Prod.mk.injEq] at m1
    obtain ⟨rfl, rfl⟩ := m1
    rcases hfl with rfl | rfl
    · rfl
    · cases fl <;> cases fl' <;> rfl
  · push Not at hall
    have hall' : ∀ x ∈ pts', x = ringPt pts 0 := by
      intro x hx
      obtain ⟨j, hj, rfl⟩ := List.getElem_of_mem hx
      have : ringPt pts' j = ringPt pts 0 := by
        by_cases hle : j ≤ k
        · by_cases hlt : j < pts.length
          · rw [D.low j hlt hle]; exact hall j (by omega)
          · have : j = k := by omega
            rw [this]; exact hend (by omega)
        · rw [show j = (j - 1) + 1 by omega, D.high (j - 1) (by omega) (by omega)]
          exact hall _ (by omega)
      unfold ringPt at this
      rw [List.getD_eq_getElem?_getD, List.getElem?_eq_getElem hj] at this
      exact this
    have hallS : ∀ x ∈ pts, x = ringPt pts 0 := by
      intro x hx
      obtain ⟨j, hj, rfl⟩ := List.getElem_of_mem hx
      have := hall j (by omega)
      unfold ringPt at this
      rw [List.getD_eq_getElem?_getD, List.getElem?_eq_getElem hj] at this
      exact this
    rw [edgesOf_two (p := ringPt pts 0) (q := ringPt pts 0) (fun x hx => .inl (hall' x hx)) hf,
      edgesOf_two (p := ringPt pts 0) (q := ringPt pts 0) (fun x hx => .inl (hallS x hx)) (by omega)]

end Wagyu
