import Verif.Proofs.TopoMarks
import Verif.Proofs.Visits
import Verif.Spec.Totals

/-!
# Self-intersections
-/

namespace Wagyu

open Spec

section
variable {s s' : St} {L L' : Nat → List Nat} {E : Err → Prop}

/-- No ring contains both nodes. -/
def Apart (L : Nat → List Nat) (i j : Nat) : Prop := ∀ k, i ∈ L k → j ∉ L k

theorem Apart.symm {i j : Nat} (h : Apart L i j) : Apart L j i := fun k h1 h2 => h k h2 h1

theorem ringSum_rot (c : Point → Point → ℤ) {l l' : List Point} (h : l ~r l') : ringSum c l = ringSum c l' := by
  obtain ⟨n, rfl⟩ := h
  exact (ringSum_rotate c l n).symm

theorem edgeTotal_congr {c : Point → Point → ℤ} {nodes nodes' : Nat → Node} {m : Nat} (h : ∀ i, locOf nodes' i = locOf nodes i)
    (hL : ∀ r < m, L' r = L r) : edgeTotal c nodes' L' m = edgeTotal c nodes L m := by
  refine Finset.sum_congr rfl fun r hr => ?_
  rw [hL r (Finset.mem_range.1 hr), pointsOf_congr h]

/-- What splitting the ring `r` and the new rings does. -/
structure Splits (r : Nat) (s : St) (L : Nat → List Nat) (s' : St) (L' : Nat → List Nat) : Prop where
  step : TStep s L s' L'
  others : ∀ k < s.nr, k ≠ r → L' k = L k ∧ s'.rings k = s.rings k
  fewer : ∀ k, k = r ∨ s.nr ≤ k → ∀ i ∈ L' k, i ∈ L r
  kept : ∀ i ∈ L r, ∃ k, i ∈ L' k
  total : ∀ c, edgeTotal c s'.nodes L' s'.nr = edgeTotal c s.nodes L s.nr
  sep : ∀ i j, Apart L i j → Apart L' i j
  areas : (∀ q, L q ≠ [] → (s.rings q).area.isNan = false) → ∀ q, L' q ≠ [] → (s'.rings q).area.isNan = false

theorem Splits.refl {r : Nat} (h : TI s L) : Splits r s L s L where
  step := TStep.refl h
  others _ _ _ := ⟨rfl, rfl⟩
  fewer k hk i hi := by
    rcases hk with rfl | hk
    · exact hi
    · exact absurd (h.own.lt hi) (by omega)
  kept i hi := ⟨r, hi⟩
  total _ := rfl
  sep _ _ h := h
  areas h := h

/-- One more split. -/
theorem Splits.halved {r q : Nat} {s0 : St} {L0 : Nat → List Nat} (h : Splits r s0 L0 s L) {a b : Nat} {P Q : List Nat} (hr : r < s0.nr)
    (hq : q = r ∨ s0.nr ≤ q) (hqn : q < s.nr) (hloc : locOf s.nodes a = locOf s.nodes b)
    (hh : Halved s L q (a :: P) (b :: Q) s' L') : Splits r s0 L0 s' L' := by
  have hnr := h.step.nr
  have hL := hh.lists
  have hnq : s.nr ≠ q := by omega
  have ea : L' q = a :: P := by rw [hL, Wagyu.upd_ne _ _ (Ne.symm hnq), Wagyu.upd_same]
  have eb : L' s.nr = b :: Q := by rw [hL, Wagyu.upd_same]
  have eo : ∀ k, k ≠ q → k ≠ s.nr → L' k = L k := fun k h1 h2 => by rw [hL, Wagyu.upd_ne _ _ h2, Wagyu.upd_ne _ _ h1]
  have hmem : ∀ i, i ∈ L q ↔ i ∈ a :: P ∨ i ∈ b :: Q := fun i => by rw [← hh.rot.mem_iff, List.mem_append]
  refine ⟨h.step.trans hh.step, fun k hk hkr => ?_, fun k hk i hi => ?_, fun i hi => ?_, fun c => ?_, fun i j hij k h1 h2 => ?_, fun hkn k hk => ?_⟩
  · have h1 : k ≠ q := by omega
    have h2 : k ≠ s.nr := by omega
    rw [eo k h1 h2, hh.others k h1 h2]
    exact h.others k hk hkr
  · have hsub : i ∈ L q → i ∈ L0 r := h.fewer q hq i
    by_cases e1 : k = q
    · subst e1; rw [ea] at hi; exact hsub ((hmem i).2 (.inl hi))
    · by_cases e2 : k = s.nr
      · subst e2; rw [eb] at hi; exact hsub ((hmem i).2 (.inr hi))
      · rw [eo k e1 e2] at hi; exact h.fewer k hk i hi
  · obtain ⟨k, hk⟩ := h.kept i hi
    by_cases e1 : k = q
    · subst e1
      rcases (hmem i).1 hk with hk | hk
      · exact ⟨k, by rw [ea]; exact hk⟩
      · exact ⟨s.nr, by rw [eb]; exact hk⟩
    · refine ⟨k, ?_⟩
      rw [eo k e1 (fun e => ?_)]
      · exact hk
      · have := h.step.ti.own.lt hk
        omega
  · rw [← h.total c, hh.nr]
    have hp : ∀ l, pointsOf s'.nodes l = pointsOf s.nodes l := fun l => pointsOf_congr hh.step.loc l
    unfold edgeTotal
    rw [Finset.sum_range_succ, ← Finset.add_sum_erase _ _ (Finset.mem_range.2 hqn), ← Finset.add_sum_erase _ (fun x => ringSum c (pointsOf s.nodes (L x))) (Finset.mem_range.2 hqn)]
    rw [ea, eb, hp, hp, ← ringSum_rot c (pointsOf_rot (h := s.nodes) hh.rot)]
    have hsum : ∑ x ∈ (Finset.range s.nr).erase q, ringSum c (pointsOf s'.nodes (L' x)) = ∑ x ∈ (Finset.range s.nr).erase q, ringSum c (pointsOf s.nodes (L x)) := by
      refine Finset.sum_congr rfl fun x hx => ?_
      obtain ⟨h1, h2⟩ := Finset.mem_erase.1 hx
      rw [hp, eo x h1 (by have := Finset.mem_range.1 h2; omega)]
    rw [hsum]
    have hsplit : ringSum c (pointsOf s.nodes (a :: P ++ b :: Q)) = ringSum c (pointsOf s.nodes (a :: P)) + ringSum c (pointsOf s.nodes (b :: Q)) := by
      unfold pointsOf
      rw [List.map_append, List.map_cons, List.map_cons, ← hloc, ringSum_split]
    rw [hsplit]; ring
  · have hs := h.sep i j hij
    by_cases e1 : k = q
    · subst e1; rw [ea] at h1 h2; exact hs k ((hmem i).2 (.inl h1)) ((hmem j).2 (.inl h2))
    · by_cases e2 : k = s.nr
      · subst e2; rw [eb] at h1 h2; exact hs q ((hmem i).2 (.inr h1)) ((hmem j).2 (.inr h2))
      · rw [eo k e1 e2] at h1 h2; exact hs k h1 h2
  · by_cases e1 : k = q
    · subst e1; exact hh.statsA.notNan
    · by_cases e2 : k = s.nr
      · subst e2; exact hh.statsB.notNan
      · rw [eo k e1 e2] at hk
        rw [hh.others k e1 e2]
        exact h.areas hkn k hk

/-- The ring of a node of the ring that was split. -/
theorem Splits.where {r q i : Nat} {s0 : St} {L0 : Nat → List Nat} (h : Splits r s0 L0 s L) (hs0 : TI s0 L0) (hi : i ∈ L0 r) (hq : i ∈ L q) :
    q = r ∨ s0.nr ≤ q := by
  by_contra hc
  push Not at hc
  have := (h.others q hc.2 hc.1).1
  rw [this] at hq
  exact hc.1 (hs0.own.dist hq hi)

/-! ## Pairs of nodes -/

theorem sep_halved {q : Nat} {a b : Nat} {P Q : List Nat} (h : TI s L) (hqn : q < s.nr) (hh : Halved s L q (a :: P) (b :: Q) s' L') :
    Apart L' a b ∧ ∀ i j, Apart L i j → Apart L' i j := by
  have hL := hh.lists
  have hnq : s.nr ≠ q := by omega
  have ea : L' q = a :: P := by rw [hL, Wagyu.upd_ne _ _ (Ne.symm hnq), Wagyu.upd_same]
  have eb : L' s.nr = b :: Q := by rw [hL, Wagyu.upd_same]
  have eo : ∀ k, k ≠ q → k ≠ s.nr → L' k = L k := fun k h1 h2 => by rw [hL, Wagyu.upd_ne _ _ h2, Wagyu.upd_ne _ _ h1]
  have hmem : ∀ i, i ∈ L q ↔ i ∈ a :: P ∨ i ∈ b :: Q := fun i => by rw [← hh.rot.mem_iff, List.mem_append]
  refine ⟨fun k h1 h2 => hnq ?_, fun i j hs k h1 h2 => ?_⟩
  · have e1 : k = q := hh.step.ti.own.dist h1 (by rw [ea]; simp)
    have e2 : k = s.nr := hh.step.ti.own.dist h2 (by rw [eb]; simp)
    rw [← e1, ← e2]
  · by_cases e1 : k = q
    · subst e1; rw [ea] at h1 h2; exact hs k ((hmem i).2 (.inl h1)) ((hmem j).2 (.inl h2))
    · by_cases e2 : k = s.nr
      · subst e2; rw [eb] at h1 h2; exact hs q ((hmem i).2 (.inr h1)) ((hmem j).2 (.inr h2))
      · rw [eo k e1 e2] at h1 h2; exact hs k h1 h2

/-- The rings created so far. -/
def RingsMade (s0 s : St) (acc : List Nat) : Prop := acc = List.range' s0.nr (s.nr - s0.nr)

theorem RingsMade.snoc {s0 : St} {acc : List Nat} (h : RingsMade s0 s acc) (hle : s0.nr ≤ s.nr) (hnr : s'.nr = s.nr + 1) : RingsMade s0 s' (acc ++ [s.nr]) := by
  unfold RingsMade at *
  rw [h, hnr, show s.nr + 1 - s0.nr = (s.nr - s0.nr) + 1 by omega, List.range'_1_concat]
  simp; omega

/-- One pair. -/
theorem ends_pair {r : Nat} {s0 : St} {L0 : Nat → List Nat} (hs0 : TI s0 L0) {a b : Nat} (hab : a ≠ b) (ha : a ∈ L0 r) (hb : b ∈ L0 r)
    (hloc : locOf s0.nodes a = locOf s0.nodes b) {acc : List Nat} (h : Splits r s0 L0 s L) (hacc : RingsMade s0 s acc) :
    Ends E (do
      match ← correctSelfIntersection a b with
      | none => pure acc
      | some r => pure (acc ++ [r])) s fun acc' s' => ∃ L', Splits r s0 L0 s' L' ∧ RingsMade s0 s' acc' ∧ Apart L' a b ∧ ∀ i j, Apart L i j → Apart L' i j := by
  obtain ⟨q, hq⟩ := h.kept a ha
  obtain ⟨p, hp⟩ := h.kept b hb
  have hr := hs0.own.lt ha
  by_cases e : p = q
  · subst e
    refine Ends.bind ((ends_correctSelfIntersection h.step.ti hab hq hp).imp ?_)
    rintro o s1 ⟨rfl, P, Q, L1, hrot, hh⟩
    have hloc1 : locOf s.nodes a = locOf s.nodes b := by rw [h.step.loc, h.step.loc, hloc]
    have hw := h.where hs0 ha hq
    have hpn := h.step.ti.own.lt hq
    refine Ends.pure ?_
    rcases hh with hh | hh
    · obtain ⟨k1, k2⟩ := sep_halved h.step.ti hpn hh
      exact ⟨L1, h.halved hr hw hpn hloc1 hh, hacc.snoc h.step.nr hh.nr, k1, k2⟩
    · obtain ⟨k1, k2⟩ := sep_halved h.step.ti hpn hh
      exact ⟨L1, h.halved hr hw hpn hloc1.symm hh, hacc.snoc h.step.nr hh.nr, k1.symm, k2⟩
  · have e1 := (h.step.ti.own.own q a hq).2
    have e2 := (h.step.ti.own.own p b hp).2
    unfold correctSelfIntersection
    rw [bind_assoc']
    refine Ends.bind (Ends.getNode ?_)
    rw [bind_assoc']
    refine Ends.bind (Ends.getNode ?_)
    rw [e1, e2, if_pos (fun he => e (Option.some.inj he).symm)]
    refine Ends.bind (Ends.pure ?_)
    refine Ends.pure ⟨L, h, hacc, fun k h1 h2 => e ?_, fun _ _ h => h⟩
    rw [← h.step.ti.own.dist h2 hp, ← h.step.ti.own.dist h1 hq]

theorem ends_inner {r : Nat} {s0 : St} {L0 : Nat → List Nat} (hs0 : TI s0 L0) {a : Nat} (ha : a ∈ L0 r) : ∀ (rest : List Nat),
    (∀ b ∈ rest, a ≠ b ∧ b ∈ L0 r ∧ locOf s0.nodes a = locOf s0.nodes b) → ∀ (acc : List Nat) (s : St) (L : Nat → List Nat), Splits r s0 L0 s L → RingsMade s0 s acc →
    Ends E (forPairs.inner (fun node next acc => do
      match ← correctSelfIntersection node next with
      | none => pure acc
      | some r => pure (acc ++ [r])) a rest acc) s fun acc' s' => ∃ L', Splits r s0 L0 s' L' ∧ RingsMade s0 s' acc' ∧ (∀ b ∈ rest, Apart L' a b) ∧ ∀ i j, Apart L i j → Apart L' i j
  | [], _, acc, s, L, h, hacc => by
    rw [forPairs.inner]
    exact Ends.pure ⟨L, h, hacc, by simp, fun _ _ h => h⟩
  | b :: rest, hb, acc, s, L, h, hacc => by
    rw [forPairs.inner]
    obtain ⟨b1, b2, b3⟩ := hb b (by simp)
    obtain ⟨p, hp⟩ := h.kept b b2
    refine Ends.bind (Ends.bind (Ends.getNode ?_))
    rw [(h.step.ti.own.own p b hp).2, if_neg (by simp)]
    refine (ends_pair hs0 b1 ha b2 b3 h hacc).imp ?_
    rintro acc1 s1 ⟨L1, h1, hacc1, k1, k2⟩
    refine (ends_inner hs0 ha rest (fun x hx => hb x (by simp [hx])) acc1 s1 L1 h1 hacc1).imp ?_
    rintro acc2 s2 ⟨L2, h2, hacc2, k3, k4⟩
    refine ⟨L2, h2, hacc2, fun x hx => ?_, fun i j hij => k4 i j (k2 i j hij)⟩
    rcases List.mem_cons.1 hx with rfl | hx
    · exact k4 _ _ k1
    · exact k3 x hx

theorem ends_pairs {r : Nat} {s0 : St} {L0 : Nat → List Nat} (hs0 : TI s0 L0) : ∀ (l : List Nat), l.Nodup →
    (∀ b ∈ l, b ∈ L0 r) → (∀ a ∈ l, ∀ b ∈ l, locOf s0.nodes a = locOf s0.nodes b) → ∀ (acc : List Nat) (s : St) (L : Nat → List Nat), Splits r s0 L0 s L → RingsMade s0 s acc →
    Ends E (forPairs (fun node next acc => do
      match ← correctSelfIntersection node next with
      | none => pure acc
      | some r => pure (acc ++ [r])) l acc) s fun acc' s' => ∃ L', Splits r s0 L0 s' L' ∧ RingsMade s0 s' acc' ∧ l.Pairwise (Apart L') ∧ ∀ i j, Apart L i j → Apart L' i j
  | [], _, _, _, acc, s, L, h, hacc => by
    rw [forPairs]
    exact Ends.pure ⟨L, h, hacc, by simp, fun _ _ h => h⟩
  | a :: l, hnd, hm, hl, acc, s, L, h, hacc => by
    rw [forPairs]
    obtain ⟨n1, n2⟩ := List.nodup_cons.1 hnd
    obtain ⟨p, hp⟩ := h.kept a (hm a (by simp))
    refine Ends.bind (Ends.bind (Ends.getNode ?_))
    rw [(h.step.ti.own.own p a hp).2, if_neg (by simp)]
    refine (ends_inner hs0 (hm a (by simp)) l (fun b hb => ⟨fun e => n1 (e ▸ hb), hm b (by simp [hb]), hl a (by simp) b (by simp [hb])⟩) acc s L h hacc).imp ?_
    rintro acc1 s1 ⟨L1, h1, hacc1, k1, k2⟩
    refine (ends_pairs hs0 l n2 (fun b hb => hm b (by simp [hb])) (fun x hx y hy => hl x (by simp [hx]) y (by simp [hy])) acc1 s1 L1 h1 hacc1).imp ?_
    rintro acc2 s2 ⟨L2, h2, hacc2, k3, k4⟩
    exact ⟨L2, h2, hacc2, List.pairwise_cons.2 ⟨fun b hb => k4 _ _ (k1 b hb), k3⟩, fun i j hij => k4 i j (k2 i j hij)⟩

end

end Wagyu
