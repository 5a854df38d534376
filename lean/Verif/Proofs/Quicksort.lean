import Verif.Model.Sweep
import Mathlib.Data.List.Basic
import Mathlib.Data.List.Perm.Basic
import Mathlib.Tactic.Linarith

/-!
# The quicksort of utils.py:105-132
-/

namespace Wagyu

section
variable {α : Type} [Inhabited α]

/-- Element at a position. -/
local notation "g" => fun (l : List α) (j : Nat) => List.getD l j default

theorem getD_set_eq (l : List α) (i : Nat) (v : α) (h : i < l.length) : (l.set i v).getD i default = v := by
  simp [List.getD_eq_getElem?_getD, List.getElem?_set_self h]

theorem getD_set_ne (l : List α) (i j : Nat) (v : α) (h : i ≠ j) : (l.set i v).getD j default = l.getD j default := by
  simp [List.getD_eq_getElem?_getD, List.getElem?_set_ne h]

variable [DecidableEq α]

theorem count_set_add (l : List α) (i : Nat) (v a : α) (h : i < l.length) :
    (l.set i v).count a + (if l.getD i default = a then 1 else 0) = l.count a + (if v = a then 1 else 0) := by
  induction l generalizing i with
  | nil => simp at h
  | cons b l ih =>
    cases i with
    | zero =>
      simp only [List.set_cons_zero, List.getD_cons_zero, List.count_cons, beq_iff_eq]
      omega
    | succ i =>
      have := ih i (by simpa using h)
      simp only [List.set_cons_succ, List.getD_cons_succ, List.count_cons, beq_iff_eq]
      omega

omit [DecidableEq α] in
theorem qsPartition_spec' (cmp : α → α → Bool) (pivot : α) [DecidableEq α] (low high : Nat) (orig : List α) :
    ∀ (d : Nat) (seq : List α) (index : Nat) (element : α), low ≤ index → index + d ≤ high → high < seq.length →
      (d ≠ 0 → seq.getD index default = element) →
      (∀ j, j < low ∨ high < j → seq.getD j default = orig.getD j default) →
      (∀ j, low ≤ j → j < index → cmp pivot (seq.getD j default) = true) →
      (∀ j, index + d < j → j ≤ high → cmp pivot (seq.getD j default) = false) →
      ∃ seq' p, qsPartition cmp pivot d seq index element = (seq', p) ∧ seq'.length = seq.length
        ∧ low ≤ p ∧ p ≤ high
        ∧ (seq'.set p pivot).Perm (seq.set (index + d) pivot)
        ∧ (∀ j, j < low ∨ high < j → seq'.getD j default = orig.getD j default)
        ∧ (∀ j, low ≤ j → j < p → cmp pivot (seq'.getD j default) = true)
        ∧ (∀ j, p < j → j ≤ high → cmp pivot (seq'.getD j default) = false) := by
  intro d
  induction d with
  | zero =>
    intro seq index element h1 h2 h3 h4 h5 h6 h7
    refine ⟨seq, index, rfl, rfl, h1, by omega, List.Perm.refl _, h5, h6, ?_⟩
    intro j hj; exact h7 j (by omega)
  | succ d ih =>
    intro seq index element h1 h2 h3 h4 h5 h6 h7
    have h4 := h4 (by omega)
    rw [qsPartition]
    split
    · next hc =>
      have := ih seq (index + 1) (seq.getD (index + 1) default) (by omega) (by omega) h3 (fun _ => rfl) h5
        (by
          intro j hj1 hj2
          rcases Nat.lt_or_ge j index with h | h
          · exact h6 j hj1 h
          · have : j = index := by omega
            subst this; rw [h4]; exact hc)
        (by intro j hj; exact h7 j (by omega))
      rwa [show index + 1 + d = index + (d + 1) by omega] at this
    · next hc =>
      have hc : cmp pivot element = false := by simpa using hc
      dsimp only
      set P := index + (d + 1) with hP
      set s1 := seq.set P element with hs1
      set e' := s1.getD (P - 1) default with he'
      set s2 := s1.set index e' with hs2
      have l1 : s1.length = seq.length := by rw [hs1, List.length_set]
      have l2 : s2.length = seq.length := by rw [hs2, List.length_set, l1]
      obtain ⟨seq', p, e1, e2, e3, e4, e5, e6, e7, e8⟩ := ih s2 index e' h1 (by omega) (by omega)
        (fun hd => by rw [hs2]; exact getD_set_eq _ _ _ (by omega))
        (by
          intro j hj
          rw [hs2, getD_set_ne _ _ _ _ (by omega), hs1, getD_set_ne _ _ _ _ (by omega)]
          exact h5 j hj)
        (by
          intro j hj1 hj2
          rw [hs2, getD_set_ne _ _ _ _ (by omega), hs1, getD_set_ne _ _ _ _ (by omega)]
          exact h6 j hj1 hj2)
        (by
          intro j hj1 hj2
          rw [hs2, getD_set_ne _ _ _ _ (by omega)]
          rcases Nat.lt_or_ge P j with h | h
          · rw [hs1, getD_set_ne _ _ _ _ (by omega)]
            exact h7 j h hj2
          · have : j = P := by omega
            subst this
            rw [hs1, getD_set_eq _ _ _ (by omega)]; exact hc)
      refine ⟨seq', p, e1, by omega, e3, e4, e5.trans ?_, e6, e7, e8⟩
      rw [List.perm_iff_count]
      intro a
      have c1 := count_set_add seq P element a (by omega)
      have c2 := count_set_add s1 index e' a (by omega)
      have c3 := count_set_add s2 (index + d) pivot a (by omega)
      have c4 := count_set_add seq P pivot a (by omega)
      rw [← hs1] at c1
      rw [← hs2] at c2
      have v1 : s1.getD index default = element := by
        rw [hs1, getD_set_ne _ _ _ _ (by omega)]; exact h4
      have v2 : s2.getD (index + d) default = e' := by
        rcases Nat.eq_zero_or_pos d with h | h
        · rw [h, Nat.add_zero, hs2, getD_set_eq _ _ _ (by omega)]
        · rw [hs2, getD_set_ne _ _ _ _ (by omega), he']
          congr 1
      rw [v1] at c2
      rw [v2] at c3
      omega

end

/-- A segment of positions. -/
abbrev Seg := Nat × Nat

/-- `a` is inside `b` or disjoint from it. -/
def Seg.Below (a b : Seg) : Prop := (b.1 ≤ a.1 ∧ a.2 ≤ b.2) ∨ a.2 < b.1 ∨ b.2 < a.1

def Seg.Has (a : Seg) (i : Nat) : Prop := a.1 ≤ i ∧ i ≤ a.2

/-- The iterations a segment may cost. -/
def Seg.cost (a : Seg) : Nat := 3 ^ (a.2 + 1 - a.1)

def queueCost (q : List Seg) : Nat := (q.map Seg.cost).sum

section
variable {α : Type} [Inhabited α] [DecidableEq α]

/-- `le` is the order by which `cmp` partitions. -/
structure SortSpec (cmp : α → α → Bool) (le : α → α → Prop) : Prop where
  cmp_iff : ∀ p e, cmp p e = true ↔ le e p
  total : ∀ a b, le a b ∨ le b a
  trans : ∀ a b c, le a b → le b c → le a c

theorem qsLoop_spec (cmp : α → α → Bool) (le : α → α → Prop) (H : SortSpec cmp le) :
    ∀ (fuel : Nat) (seq : List α) (q : List Seg), queueCost q ≤ fuel →
      (∀ a ∈ q, a.1 ≤ a.2 ∧ a.2 < seq.length) → q.Pairwise Seg.Below →
      (∀ i j, i < j → j < seq.length → (∃ a ∈ q, a.Has i ∧ a.Has j) ∨ le (seq.getD i default) (seq.getD j default)) →
      ∃ r, qsLoop cmp fuel seq q = some r ∧ r.Perm seq
        ∧ (∀ i j, i < j → j < r.length → le (r.getD i default) (r.getD j default)) := by
  intro fuel
  induction fuel with
  | zero =>
    intro seq q h1 h2 h3 h4
    cases q with
    | nil =>
      refine ⟨seq, rfl, List.Perm.refl _, fun i j hi hj => ?_⟩
      rcases h4 i j hi hj with ⟨a, ha, _⟩ | h
      · cases ha
      · exact h
    | cons a q =>
      exfalso
      simp only [queueCost, List.map_cons, List.sum_cons, Seg.cost] at h1
      have : 0 < 3 ^ (a.2 + 1 - a.1) := Nat.pow_pos (by omega)
      omega
  | succ fuel ih =>
    intro seq q h1 h2 h3 h4
    cases q with
    | nil =>
      refine ⟨seq, by rw [qsLoop], List.Perm.refl _, fun i j hi hj => ?_⟩
      rcases h4 i j hi hj with ⟨a, ha, _⟩ | h
      · cases ha
      · exact h
    | cons a q =>
      obtain ⟨low, high⟩ := a
      have hlh := h2 (low, high) (by simp)
      dsimp only at hlh
      rw [qsLoop]
      dsimp only
      set pivot := seq.getD high default with hpiv
      obtain ⟨s1, p, e1, e2, e3, e4, e5, e6, e7, e8⟩ := qsPartition_spec' cmp pivot low high seq (high - low) seq low
        (seq.getD low default) le_rfl (by omega) hlh.2 (fun _ => rfl) (fun _ _ => rfl)
        (fun j h h' => absurd h' (by omega)) (fun j h h' => absurd h' (by omega))
      rw [e1]
      dsimp only
      rw [show low + (high - low) = high by omega] at e5
      have hself : seq.set high pivot = seq := by
        rw [hpiv, List.getD_eq_getElem?_getD, List.getElem?_eq_getElem hlh.2]
        simp
      rw [hself] at e5
      set s2 := s1.set p pivot with hs2
      have l2 : s2.length = seq.length := by rw [hs2, List.length_set, e2]
      -- the new contents
      have out : ∀ j, j < low ∨ high < j → s2.getD j default = seq.getD j default := by
        intro j hj
        rw [hs2, getD_set_ne _ _ _ _ (by omega)]; exact e6 j hj
      have left : ∀ j, low ≤ j → j < p → le (s2.getD j default) pivot := by
        intro j hj1 hj2
        rw [hs2, getD_set_ne _ _ _ _ (by omega)]
        exact (H.cmp_iff _ _).1 (e7 j hj1 hj2)
      have mid : s2.getD p default = pivot := by rw [hs2]; exact getD_set_eq _ _ _ (by omega)
      have right : ∀ j, p < j → j ≤ high → le pivot (s2.getD j default) := by
        intro j hj1 hj2
        rw [hs2, getD_set_ne _ _ _ _ (by omega)]
        have := e8 j hj1 hj2
        rcases H.total pivot (s1.getD j default) with h | h
        · exact h
        · rw [(H.cmp_iff _ _).2 h] at this; cases this
      -- the contents of the segment are a permutation of the old ones
      have seg : ∀ i, low ≤ i → i ≤ high → ∃ i', low ≤ i' ∧ i' ≤ high ∧ s2.getD i default = seq.getD i' default := by
        have key : ∀ l : List α, l.length = seq.length →
            l = l.take low ++ ((l.drop low).take (high + 1 - low) ++ l.drop (high + 1)) := by
          intro l hl
          have h5 : l.drop (high + 1) = (l.drop low).drop (high + 1 - low) := by
            rw [List.drop_drop]; congr 1; omega
          rw [h5, List.take_append_drop, List.take_append_drop]
        have hA : s2.take low = seq.take low := by
          apply List.ext_getElem?
          intro i
          simp only [List.getElem?_take]
          split
          · next h =>
            have := out i (Or.inl h)
            rwa [List.getD_eq_getElem?_getD, List.getD_eq_getElem?_getD, List.getElem?_eq_getElem (by omega),
              List.getElem?_eq_getElem (by omega), Option.getD_some, Option.getD_some,
              ← Option.some_inj, ← List.getElem?_eq_getElem, ← List.getElem?_eq_getElem] at this
          · rfl
        have hC : s2.drop (high + 1) = seq.drop (high + 1) := by
          apply List.ext_getElem?
          intro i
          simp only [List.getElem?_drop]
          rcases Nat.lt_or_ge (high + 1 + i) seq.length with h | h
          · have := out (high + 1 + i) (Or.inr (by omega))
            rwa [List.getD_eq_getElem?_getD, List.getD_eq_getElem?_getD, List.getElem?_eq_getElem (by omega),
              List.getElem?_eq_getElem (by omega), Option.getD_some, Option.getD_some,
              ← Option.some_inj, ← List.getElem?_eq_getElem, ← List.getElem?_eq_getElem] at this
          · rw [List.getElem?_eq_none (by omega), List.getElem?_eq_none (by omega)]
        have hperm := e5
        rw [key s2 l2, key seq rfl, hA, hC] at hperm
        have hB := (List.perm_append_right_iff _).1 ((List.perm_append_left_iff _).1 hperm)
        intro i hi1 hi2
        have hm : s2.getD i default ∈ (s2.drop low).take (high + 1 - low) := by
          rw [List.mem_iff_getElem?]
          refine ⟨i - low, ?_⟩
          rw [List.getElem?_take, if_pos (by omega), List.getElem?_drop, show low + (i - low) = i by omega,
            List.getD_eq_getElem?_getD, List.getElem?_eq_getElem (by omega), Option.getD_some]
        have hm' := hB.mem_iff.1 hm
        obtain ⟨k, hk⟩ := List.mem_iff_getElem?.1 hm'
        rw [List.getElem?_take] at hk
        split at hk
        · rw [List.getElem?_drop] at hk
          refine ⟨low + k, by omega, by omega, ?_⟩
          rw [List.getD_eq_getElem?_getD (l := seq), hk, Option.getD_some]
        · cases hk
      -- the new queue
      have hq3 := List.pairwise_cons.1 h3
      generalize hQ : (if high - p > 1 then (p + 1, high) ::
          (if p - low > high - p then (low, p - 1) :: q
           else if p - low > 1 then (low, p - 1) :: (p + 1, high) :: q else q)
        else (if p - low > high - p then (low, p - 1) :: q
           else if p - low > 1 then (low, p - 1) :: (p + 1, high) :: q else q)) = Q
      have hlow : ∀ a ∈ Q, (a = (low, p - 1) ∧ p - low ≥ 1) ∨ (a = (p + 1, high) ∧ high - p > 1) ∨ a ∈ q := by
        rw [← hQ]
        split_ifs <;> intro a ha <;> (try simp only [List.mem_cons] at ha)
        · rcases ha with ha | ha | ha
          · exact Or.inr (Or.inl ⟨ha, by omega⟩)
          · exact Or.inl ⟨ha, by omega⟩
          · exact Or.inr (Or.inr ha)
        · rcases ha with ha | ha | ha | ha
          · exact Or.inr (Or.inl ⟨ha, by omega⟩)
          · exact Or.inl ⟨ha, by omega⟩
          · exact Or.inr (Or.inl ⟨ha, by omega⟩)
          · exact Or.inr (Or.inr ha)
        · rcases ha with ha | ha
          · exact Or.inr (Or.inl ⟨ha, by omega⟩)
          · exact Or.inr (Or.inr ha)
        · rcases ha with ha | ha
          · exact Or.inl ⟨ha, by omega⟩
          · exact Or.inr (Or.inr ha)
        · rcases ha with ha | ha | ha
          · exact Or.inl ⟨ha, by omega⟩
          · exact Or.inr (Or.inl ⟨ha, by omega⟩)
          · exact Or.inr (Or.inr ha)
        · exact Or.inr (Or.inr ha)
      have hqQ : ∀ a ∈ q, a ∈ Q := by
        intro a ha
        rw [← hQ]
        split_ifs <;> simp [ha]
      have hinL : p - low > 1 → (low, p - 1) ∈ Q := by
        intro h
        rw [← hQ]
        split_ifs <;> simp
      have hinH : high - p > 1 → (p + 1, high) ∈ Q := by
        intro h
        rw [← hQ, if_pos h]
        simp
      have hsub : ∀ a ∈ q, Seg.Below (low, high) a := hq3.1
      have hbel : ∀ b : Seg, low ≤ b.1 → b.2 ≤ high → ∀ a ∈ q, Seg.Below b a := by
        intro b hb1 hb2 a ha
        have := hsub a ha
        unfold Seg.Below at this ⊢
        dsimp only at this
        omega
      have hpw : Q.Pairwise Seg.Below := by
        have hL : ∀ a ∈ q, Seg.Below (low, p - 1) a := hbel _ le_rfl (by dsimp only; omega)
        have hH : ∀ a ∈ q, Seg.Below (p + 1, high) a := hbel _ (by dsimp only; omega) le_rfl
        have hLH : 1 ≤ p - low → Seg.Below (low, p - 1) (p + 1, high) := by
          intro h
          unfold Seg.Below; dsimp only; omega
        have hHL : 1 ≤ p - low → Seg.Below (p + 1, high) (low, p - 1) := by
          intro h
          unfold Seg.Below; dsimp only; omega
        have hHH : Seg.Below (p + 1, high) (p + 1, high) := by unfold Seg.Below; dsimp only; omega
        rw [← hQ]
        split_ifs <;> simp only [List.pairwise_cons, List.mem_cons, hq3.2, and_true] <;> (try trivial)
        all_goals first
          | exact hH
          | exact hL
          | (exfalso; omega)
          | (refine ⟨?_, hL⟩
             rintro a (rfl | ha)
             · exact hHL (by omega)
             · exact hH a ha)
          | (refine ⟨?_, ?_, hH⟩
             · rintro a (rfl | rfl | ha)
               · exact hHL (by omega)
               · exact hHH
               · exact hH a ha
             · rintro a (rfl | ha)
               · exact hLH (by omega)
               · exact hL a ha)
      have hcost : queueCost Q ≤ fuel := by
        have hp3 : ∀ n, 0 < 3 ^ n := fun n => Nat.pow_pos (by omega)
        have h1' : 3 ^ (high + 1 - low) + queueCost q ≤ fuel + 1 := by
          simpa [queueCost, Seg.cost] using h1
        have hm : ∃ m, high + 1 - low = m + 1 ∧ p - low ≤ m ∧ high - p ≤ m := ⟨high - low, by omega, by omega, by omega⟩
        obtain ⟨m, hm1, hm2, hm3⟩ := hm
        have cL : Seg.cost (low, p - 1) ≤ 3 ^ m ∨ p - low = 0 := by
          by_cases h : p - low = 0
          · exact Or.inr h
          · left; unfold Seg.cost; dsimp only
            exact Nat.pow_le_pow_right (by omega) (by omega)
        have cH : Seg.cost (p + 1, high) ≤ 3 ^ m := by
          unfold Seg.cost; dsimp only
          exact Nat.pow_le_pow_right (by omega) (by omega)
        have cLs : p - low ≤ high - p → 1 < p - low → Seg.cost (low, p - 1) < 3 ^ m := by
          intro h h'
          unfold Seg.cost; dsimp only
          exact Nat.pow_lt_pow_right (by omega) (by omega)
        rw [hm1, Nat.pow_succ] at h1'
        have hpm := hp3 m
        rw [← hQ]
        split_ifs <;> simp only [queueCost, List.map_cons, List.sum_cons] at h1' ⊢
        · omega
        · have := cLs (by omega) (by omega); omega
        · omega
        · omega
        · have := cLs (by omega) (by omega); omega
        · omega
      obtain ⟨r, r1, r2, r3⟩ := ih s2 Q hcost
        (by
          intro a ha
          rw [l2]
          rcases hlow a ha with ⟨rfl, h⟩ | ⟨rfl, h⟩ | h
          · dsimp only; omega
          · dsimp only; omega
          · exact h2 a (List.mem_cons_of_mem _ h))
        hpw
        (by
          intro i j hij hj
          rw [l2] at hj
          -- a pair with a position outside of the segment
          have far : ∀ i' j', i' < j' → j' < seq.length → ¬ ((low ≤ i' ∧ i' ≤ high) ∧ (low ≤ j' ∧ j' ≤ high)) →
              (∃ a ∈ q, a.Has i' ∧ a.Has j') ∨ le (seq.getD i' default) (seq.getD j' default) := by
            intro i' j' hij' hj' hn
            rcases h4 i' j' hij' hj' with ⟨a, ha, hi, hj⟩ | h
            · rcases List.mem_cons.1 ha with rfl | ha
              · exact absurd ⟨hi, hj⟩ hn
              · exact Or.inl ⟨a, ha, hi, hj⟩
            · exact Or.inr h
          by_cases hi' : low ≤ i ∧ i ≤ high
          · by_cases hj' : low ≤ j ∧ j ≤ high
            · rcases Nat.lt_trichotomy i p with hip | hip | hip
              · rcases Nat.lt_trichotomy j p with hjp | hjp | hjp
                · left
                  refine ⟨(low, p - 1), hinL (by omega), ?_, ?_⟩ <;> unfold Seg.Has <;> dsimp only <;> omega
                · right; subst hjp; rw [mid]; exact left i hi'.1 hip
                · right; exact H.trans _ _ _ (left i hi'.1 hip) (right j hjp hj'.2)
              · right; subst hip; rw [mid]; exact right j hij hj'.2
              · left
                refine ⟨(p + 1, high), hinH (by omega), ?_, ?_⟩ <;> unfold Seg.Has <;> dsimp only <;> omega
            · obtain ⟨i', hi1, hi2, hi3⟩ := seg i hi'.1 hi'.2
              rcases far i' j (by omega) hj (by tauto) with ⟨a, ha, h5, h6⟩ | h
              · left
                refine ⟨a, hqQ a ha, ?_, h6⟩
                have := hsub a ha
                unfold Seg.Below at this
                unfold Seg.Has at h5 h6 ⊢
                dsimp only at this
                omega
              · right; rw [hi3, out j (by omega)]; exact h
          · by_cases hj' : low ≤ j ∧ j ≤ high
            · obtain ⟨j', hj1, hj2, hj3⟩ := seg j hj'.1 hj'.2
              rcases far i j' (by omega) (by omega) (by tauto) with ⟨a, ha, h5, h6⟩ | h
              · left
                refine ⟨a, hqQ a ha, h5, ?_⟩
                have := hsub a ha
                unfold Seg.Below at this
                unfold Seg.Has at h5 h6 ⊢
                dsimp only at this
                omega
              · right; rw [hj3, out i (by omega)]; exact h
            · rcases far i j hij hj (by tauto) with ⟨a, ha, h5, h6⟩ | h
              · exact Or.inl ⟨a, hqQ a ha, h5, h6⟩
              · right; rw [out i (by omega), out j (by omega)]; exact h)
      exact ⟨r, r1, r2.trans e5, r3⟩

theorem quicksort_spec (cmp : α → α → Bool) (le : α → α → Prop) (H : SortSpec cmp le) (fuel : Nat) (seq : List α)
    (hf : 3 ^ seq.length ≤ fuel) :
    ∃ r, quicksort cmp fuel seq = some r ∧ r.Perm seq ∧ r.Pairwise le := by
  have conv : ∀ r : List α, (∀ i j, i < j → j < r.length → le (r.getD i default) (r.getD j default)) → r.Pairwise le := by
    intro r h
    rw [List.pairwise_iff_getElem]
    intro i j hi hj hij
    have := h i j hij hj
    rwa [List.getD_eq_getElem?_getD, List.getD_eq_getElem?_getD, List.getElem?_eq_getElem hi,
      List.getElem?_eq_getElem hj] at this
  unfold quicksort
  split
  · next h =>
    refine ⟨seq, rfl, List.Perm.refl _, conv _ (fun i j h1 h2 => by omega)⟩
  · next h =>
    obtain ⟨r, h1, h2, h3⟩ := qsLoop_spec cmp le H fuel seq [(0, seq.length - 1)]
      (by
        simp only [queueCost, List.map_cons, List.map_nil, List.sum_cons, List.sum_nil, Seg.cost]
        rw [show seq.length - 1 + 1 - 0 = seq.length by omega]
        omega)
      (by intro a ha; simp at ha; subst ha; dsimp only; omega)
      (by simp)
      (by
        intro i j hij hj
        left
        refine ⟨_, List.mem_singleton.2 rfl, ?_, ?_⟩ <;> unfold Seg.Has <;> dsimp only <;> omega)
    exact ⟨r, h1, h2, conv r h3⟩

omit [DecidableEq α] in
/-- With more fuel the result is the same. -/
theorem qsLoop_mono (cmp : α → α → Bool) : ∀ (n : Nat) (seq : List α) (q : List Seg) (r : List α),
    qsLoop cmp n seq q = some r → ∀ m, n ≤ m → qsLoop cmp m seq q = some r := by
  intro n
  induction n with
  | zero =>
    intro seq q r h m _
    cases q with
    | nil => cases m <;> simpa [qsLoop] using h
    | cons a q => simp [qsLoop] at h
  | succ n ih =>
    intro seq q r h m hm
    cases q with
    | nil => cases m <;> simpa [qsLoop] using h
    | cons a q =>
      obtain ⟨m, rfl⟩ : ∃ k, m = k + 1 := ⟨m - 1, by omega⟩
      rw [qsLoop] at h ⊢
      exact ih _ _ _ h m (by omega)

end

end Wagyu
