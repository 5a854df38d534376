import Verif.Proofs.LastHush
import Verif.Proofs.FuelTopology

/-!
# The exchanges of a merge
-/

namespace Wagyu

open Spec

/-- From a statement about enough fuel to one about the given fuel. -/
theorem Ok.of_ends {α : Type} {E : Err → Prop} {m : M α} [hu : Up m m] {s : St} {Q : α → St → Prop} (h : Ends E m s Q) :
    Ok m s fun a s' => ∃ f, Q a (s'.wf f) := by
  refine Ok.intro fun a s1 e => ?_
  have h1 : ∀ k, s.fuel ≤ k → m (s.wf k) = .ok a (s1.wf k) := by
    intro k hk
    have := hu.up s k hk
    rw [e] at this
    rcases this with h2 | h2
    · exact absurd h2 (by simp [Res.Out])
    · exact h2
  obtain ⟨N, ⟨b, s', h2, h3⟩ | ⟨b, s', -, h2⟩⟩ := h
  · have e1 := h1 (max s.fuel N) (le_max_left _ _)
    rw [h2 (max s.fuel N) (le_max_right _ _)] at e1
    obtain ⟨rfl, e2⟩ := (Res.ok.injEq _ _ _ _).mp e1
    refine ⟨s'.fuel, ?_⟩
    have : s' = s1.wf s'.fuel := by
      have := congrArg (fun t => St.wf t s'.fuel) e2
      exact this
    rw [← this]; exact h3
  · have e1 := h1 (max s.fuel N) (le_max_left _ _)
    rw [h2 (max s.fuel N) (le_max_right _ _)] at e1
    cases e1

section
variable {L : Nat → List Nat}

theorem forall₂_of_chain {α : Type} {R : α → α → Prop} : ∀ (l : List α) (x z : α), (x :: l ++ [z]).IsChain R → List.Forall₂ R (x :: l) (l ++ [z])
  | [], x, z, h => by
    have : R x z := by simpa using h
    exact .cons this .nil
  | y :: l, x, z, h => by
    rw [List.cons_append, List.cons_append, List.isChain_cons_cons] at h
    exact .cons h.1 (forall₂_of_chain l y z h.2)

/-- The nodes of the connections of a loop are different. -/
theorem ends_nodup_aux {l l' : List Hop} (h : List.Forall₂ (Follows L) l l') (hn : (l'.map Prod.fst).Nodup)
    (hd : ∀ r ∈ l'.map Prod.fst, ∀ r' ∈ l'.map Prod.fst, r ≠ r' → ∀ i ∈ L r, i ∉ L r') :
    (l.map (fun x => x.2.2) ++ l'.map fun x => x.2.1).Nodup ∧ ∀ i ∈ l.map (fun x => x.2.2) ++ l'.map (fun x => x.2.1), ∃ r ∈ l'.map Prod.fst, i ∈ L r := by
  induction h with
  | nil => simp
  | @cons x y l l' hxy _ ih =>
    obtain ⟨f1, f2, f3⟩ := hxy
    rw [List.map_cons, List.nodup_cons] at hn
    obtain ⟨k1, k2⟩ := ih hn.2 (fun r hr r' hr' => hd r (by simp at hr ⊢; tauto) r' (by simp at hr' ⊢; tauto))
    have hp : ((x :: l).map (fun x => x.2.2) ++ (y :: l').map fun x => x.2.1).Perm (x.2.2 :: y.2.1 :: (l.map (fun x => x.2.2) ++ l'.map fun x => x.2.1)) := by
      simp only [List.map_cons, List.cons_append]
      exact List.perm_middle.cons _
    have out : ∀ i ∈ L y.1, i ∉ l.map (fun x => x.2.2) ++ l'.map fun x => x.2.1 := by
      intro i hi hm
      obtain ⟨r, hr, hir⟩ := k2 i hm
      have hne : y.1 ≠ r := fun e => hn.1 (e ▸ hr)
      exact hd y.1 (by simp) r (by simp only [List.map_cons, List.mem_cons]; exact Or.inr hr) hne i hi hir
    refine ⟨hp.nodup_iff.2 ?_, fun i hi => ?_⟩
    · refine List.nodup_cons.2 ⟨?_, List.nodup_cons.2 ⟨out _ f2, k1⟩⟩
      rw [List.mem_cons, not_or]
      exact ⟨Ne.symm f3, out _ f1⟩
    · have := hp.mem_iff.1 hi
      simp only [List.mem_cons] at this
      rcases this with rfl | rfl | h
      · exact ⟨y.1, by simp, f1⟩
      · exact ⟨y.1, by simp, f2⟩
      · obtain ⟨r, hr, hir⟩ := k2 i h
        exact ⟨r, by simp only [List.map_cons, List.mem_cons]; exact Or.inr hr, hir⟩

theorem ends_nodup {first : Hop} {items : List Hop} (hloop : Cycle.Chain (Follows L) (↑(first :: items) : Cycle Hop))
    (hn : ((first :: items).map Prod.fst).Nodup)
    (hd : ∀ r ∈ (first :: items).map Prod.fst, ∀ r' ∈ (first :: items).map Prod.fst, r ≠ r' → ∀ i ∈ L r, i ∉ L r') :
    (endsOf (pairsOf (first :: items))).Nodup ∧ ∀ i ∈ endsOf (pairsOf (first :: items)), ∃ r ∈ (first :: items).map Prod.fst, i ∈ L r := by
  rw [Cycle.chain_coe_cons] at hloop
  have hf := forall₂_of_chain items first first hloop
  have hp : (items ++ [first]).Perm (first :: items) := List.perm_append_singleton _ _
  have hp' := hp.map Prod.fst
  obtain ⟨k1, k2⟩ := ends_nodup_aux hf (hp'.nodup_iff.2 hn) (fun r hr r' hr' => hd r (hp'.mem_iff.1 hr) r' (hp'.mem_iff.1 hr'))
  have hq : (endsOf (pairsOf (first :: items))).Perm ((first :: items).map (fun x => x.2.2) ++ (items ++ [first]).map fun x => x.2.1) := by
    unfold endsOf pairsOf
    rw [List.map_map, List.map_map]
    exact List.perm_append_comm.trans (List.Perm.append_left _ (hp.symm.map _))
  exact ⟨hq.nodup_iff.2 k1, fun i hi => let ⟨r, hr, h⟩ := k2 i (hq.mem_iff.1 hi); ⟨r, hp'.mem_iff.1 hr, h⟩⟩

end

/-- The successors stay in the set. -/
def ClosedUnder (h : Nat → Node) (S : Nat → Prop) : Prop := ∀ x, S x → ∀ u, (h x).next = some u → S u

theorem ClosedUnder.sw {h : Nat → Node} {S : Nat → Prop} (hc : ClosedUnder h S) {a b : Nat} (ha : S a) (hb : S b) : ClosedUnder (sw h a b) S := by
  intro x hx u hu
  have e : (Wagyu.sw h a b x).next = if x = a then (h b).next else if x = b then (h a).next else (h x).next := rfl
  rw [e] at hu
  split at hu
  · exact hc b hb u hu
  · split at hu
    · exact hc a ha u hu
    · exact hc x hx u hu

theorem ClosedUnder.out {h : Nat → Node} {S : Nat → Prop} (hc : ClosedUnder h S) {a b : Nat} (ha : S a) (hb : S b) {i : Nat} (hi : ¬ S i) : Wagyu.sw h a b i = h i := by
  have h1 : i ≠ a := fun e => hi (e ▸ ha)
  have h2 : i ≠ b := fun e => hi (e ▸ hb)
  have h3 : (h b).next ≠ some i := fun e => hi (hc b hb i e)
  have h4 : (h a).next ≠ some i := fun e => hi (hc a ha i e)
  unfold Wagyu.sw
  rw [if_neg h1, if_neg h2, if_neg h3, if_neg h4]

theorem ClosedUnder.swAll : ∀ (ps : List (Nat × Nat)) {h : Nat → Node} {S : Nat → Prop}, ClosedUnder h S → (∀ x ∈ endsOf ps, S x) → ∀ {i : Nat}, ¬ S i → swAll h ps i = h i
  | [], _, _, _, _, _, _ => rfl
  | p :: ps, h, S, hc, hS, i, hi => by
    have h1 : S p.1 := hS _ (by simp [endsOf])
    have h2 : S p.2 := hS _ (by simp [endsOf])
    have : Wagyu.swAll (Wagyu.sw h p.1 p.2) ps i = Wagyu.sw h p.1 p.2 i := ClosedUnder.swAll ps (hc.sw h1 h2) (fun x hx => hS x (by simp [endsOf] at hx ⊢; tauto)) hi
    exact this.trans (hc.out h1 h2 hi)

theorem run_switchAll : ∀ (l : List Hop) {s : St} {S : Nat → Prop}, Distinct s.nodes S → (∀ x ∈ endsOf (pairsOf l), S x) → (endsOf (pairsOf l)).Nodup →
    forList l (fun it => switchNext it.2.1 it.2.2) s = .ok () { s with nodes := swAll s.nodes (pairsOf l) }
  | [], s, _, _, _, _ => rfl
  | it :: l, s, S, hd, hS, hn => by
    have hp : (endsOf (pairsOf (it :: l))).Perm (it.2.1 :: it.2.2 :: endsOf (pairsOf l)) := by
      unfold endsOf pairsOf
      simp only [List.map_cons, List.cons_append]
      exact (List.perm_middle).cons _
    have hn' := hp.nodup_iff.1 hn
    simp only [List.nodup_cons, List.mem_cons, not_or] at hn'
    have hS' : ∀ x ∈ it.2.1 :: it.2.2 :: endsOf (pairsOf l), S x := fun x hx => hS x (hp.mem_iff.2 hx)
    have s1 := hS' it.2.1 (by simp)
    have s2 := hS' it.2.2 (by simp)
    obtain ⟨u, hu⟩ := hd.1 _ s1
    obtain ⟨v, hv⟩ := hd.1 _ s2
    rw [forList, run_bind, run_switchNext hn'.1.1 hu hv]
    dsimp only
    rw [run_switchAll l (S := S) (hd.sw s1 s2 hn'.1.1) (fun x hx => hS' x (by simp [hx])) hn'.2.2]
    rfl

end Wagyu
