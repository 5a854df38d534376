import Mathlib.Data.Fintype.Pigeonhole
import Verif.Proofs.Net
import Verif.Proofs.Walks
import Verif.Proofs.Output

/-!
# From every point node of the set one gets around
-/

namespace Wagyu

open Spec

section
variable {U : Nat → Prop} {n : Nat} {s : St}

theorem Net.cycle (h : Net U n s) {a : Nat} (ha : U a) : ∃ t, IsCycle s.nodes (a :: t) ∧ ∀ i ∈ a :: t, U i := by
  let x : Nat → Nat := fun k => (fun i => ((s.nodes i).next.getD 0))^[k] a
  have x0 : x 0 = a := rfl
  have step : ∀ k, x (k + 1) = (s.nodes (x k)).next.getD 0 := fun k => Function.iterate_succ_apply' _ _ _
  have hU : ∀ k, U (x k) := by
    intro k
    induction k with
    | zero => exact ha
    | succ k ih =>
      obtain ⟨j, h1, h2⟩ := h.fwd _ ih
      rw [step, h2.1]; exact h1
  have hL : ∀ k, Link s.nodes (x k) (x (k + 1)) := by
    intro k
    obtain ⟨j, h1, h2⟩ := h.fwd _ (hU k)
    rw [step, h2.1]; exact h2
  have back : ∀ i j, x (i + 1) = x (j + 1) → x i = x j := by
    intro i j e
    have h1 := (hL i).2
    rw [e, (hL j).2] at h1
    exact (Option.some.inj h1).symm
  have down : ∀ i d, x i = x (i + d) → x d = a := by
    intro i
    induction i with
    | zero => intro d e; rw [Nat.zero_add, x0] at e; exact e.symm
    | succ i ih =>
      intro d e
      refine ih d (back _ _ ?_)
      rw [e]; congr 1; omega
  have ex : ∃ k, 0 < k ∧ x k = a := by
    have hn : ¬ Function.Injective (fun k : Fin (n + 1) => (⟨x k, h.lt _ (hU k)⟩ : Fin n)) := by
      intro hi
      have := Fintype.card_le_of_injective _ hi
      simp at this
    rw [Function.not_injective_iff] at hn
    obtain ⟨i, j, e, ne⟩ := hn
    have e : x i = x j := by simpa using e
    rcases Nat.lt_or_gt_of_ne (fun hh => ne (Fin.ext hh)) with hlt | hlt
    · exact ⟨j - i, by omega, down i (j - i) (by rw [e]; congr 1; omega)⟩
    · exact ⟨i - j, by omega, down j (i - j) (by rw [← e]; congr 1; omega)⟩
  classical
  obtain ⟨hk, hka⟩ := Nat.find_spec ex
  have least : ∀ m, 0 < m → x m = a → Nat.find ex ≤ m := fun m h1 h2 => Nat.find_min' ex ⟨h1, h2⟩
  generalize Nat.find ex = k at hk hka least
  obtain ⟨k, rfl⟩ : ∃ m, k = m + 1 := ⟨k - 1, by omega⟩
  refine ⟨(List.range k).map fun i => x (i + 1), ⟨?_, ?_⟩, ?_⟩
  · have e : a :: ((List.range k).map fun i => x (i + 1)) = (List.range (k + 1)).map x := by
      rw [List.range_succ_eq_map, List.map_cons, List.map_map]; rfl
    rw [e]
    refine List.Nodup.map_on ?_ List.nodup_range
    intro i hi j hj e
    rw [List.mem_range] at hi hj
    by_contra ne
    rcases Nat.lt_or_gt_of_ne ne with hlt | hlt
    · have := least (j - i) (by omega) (down i (j - i) (by rw [e]; congr 1; omega)); omega
    · have := least (i - j) (by omega) (down j (i - j) (by rw [← e]; congr 1; omega)); omega
  · have e : a :: ((List.range k).map fun i => x (i + 1)) ++ [a] = (List.range (k + 2)).map x := by
      rw [List.range_succ, List.map_append, List.range_succ_eq_map, List.map_cons, List.map_map, List.map_singleton, hka]; rfl
    rw [e, List.isChain_iff_getElem]
    intro i hi
    simp only [List.getElem_map, List.getElem_range]
    exact hL i
  · intro i hi
    rcases List.mem_cons.1 hi with rfl | hi
    · exact ha
    · obtain ⟨m, -, rfl⟩ := List.mem_map.1 hi
      exact hU _

end

/-- Too small a bound on the number of iterations. -/
theorem walk_short {σ β : Type} {f : Nat × σ → M ((Nat × σ) ⊕ β)} {R : Nat → Nat → Prop} {start : Nat} {g : Nat → σ → σ} {s : St}
    (hf : ∀ c c' acc, R c c' → c' ≠ start → f (c, acc) s = .ok (.inl (c', g c acc)) s) :
    ∀ (k : Nat) (c : Nat) (acc : σ) (l : List Nat), (c :: l).IsChain R → start ∉ l → k ≤ l.length → iter k f (c, acc) s = .err .fuel s
  | 0, _, _, _, _, _, _ => rfl
  | k + 1, c, acc, [], _, _, hk => by simp at hk
  | k + 1, c, acc, d :: l, hc, hs, hk => by
    rw [List.isChain_cons_cons] at hc
    rw [iter, run_bind, hf c d acc hc.1 (fun e => hs (by simp [e]))]
    exact walk_short hf k d _ l hc.2 (fun h => hs (by simp [h])) (by simpa using hk)

theorem nodesFrom_short {s : St} {a : Nat} {t : List Nat} (hl : IsCycle s.nodes (a :: t)) (hf : s.fuel ≤ t.length) :
    nodesFrom a s = .err .fuel s := by
  unfold nodesFrom
  rw [run_loopM]
  refine walk_short (R := Link s.nodes) (start := a) (g := fun i acc => i :: acc) ?_ _ _ _ t ?_ (List.nodup_cons.1 hl.1).1 hf
  · intro c c' acc hc hn
    simp only [run_bind, run_nextOf hc.1]
    rw [if_neg hn]; rfl
  · exact (List.isChain_append.1 hl.2).1

theorem nodesBackFrom_short {s : St} {a : Nat} {t : List Nat} (hl : IsCycle s.nodes (a :: t)) (hf : s.fuel ≤ t.length) :
    nodesBackFrom a s = .err .fuel s := by
  unfold nodesBackFrom
  rw [run_loopM]
  refine walk_short (R := fun x y => Link s.nodes y x) (start := a) (g := fun i acc => i :: acc) ?_ _ _ _ t.reverse ?_ ?_ (by simpa using hf)
  · intro c c' acc hc hn
    simp only [run_bind, run_prevOf hc.2]
    rw [if_neg hn]; rfl
  · exact (List.isChain_append.1 (chain_prev hl)).1
  · simpa using (List.nodup_cons.1 hl.1).1

/-! ## The result -/

/-- The same outcome, with `f` applied to the value; nothing is written. -/
def Turns {α : Type} (f : α → α) (m m' : M α) (s : St) : Prop :=
  (∃ a, m s = .ok a s ∧ m' s = .ok (f a) s) ∨ ∃ e, m s = .err e s ∧ m' s = .err e s

section
variable {U : Nat → Prop} {n : Nat} {s : St}

theorem Turns.bind {α β : Type} {f : α → α} {g : β → β} {m m' : M α} {k k' : α → M β} (h : Turns f m m' s)
    (hk : ∀ a, Turns g (k a) (k' (f a)) s) : Turns g (m >>= k) (m' >>= k') s := by
  unfold Turns
  rw [run_bind, run_bind]
  rcases h with ⟨a, h1, h2⟩ | ⟨e, h1, h2⟩
  · rw [h1, h2]; exact hk a
  · rw [h1, h2]; exact .inr ⟨e, rfl, rfl⟩

theorem Turns.same {α β : Type} {g : β → β} {m : M α} [hm : Pres Eq m] {k k' : α → M β}
    (hk : ∀ a, m s = .ok a s → Turns g (k a) (k' a) s) : Turns g (m >>= k) (m >>= k') s := by
  unfold Turns
  have := hm.pres s
  rw [run_bind, run_bind]
  cases hr : m s with
  | ok a s' => rw [hr] at this; cases this; exact hk a hr
  | err e s' => rw [hr] at this; cases this; exact .inr ⟨e, rfl, rfl⟩

theorem Turns.pure {α : Type} {f : α → α} {a b : α} (h : b = f a) : Turns f (Pure.pure a : M α) (Pure.pure b) s :=
  .inl ⟨a, rfl, by rw [h]; rfl⟩

theorem Turns.mapM' {α β : Type} {f : β → β} {k k' : α → M β} (h : ∀ a, Turns f (k a) (k' a) s) :
    ∀ l : List α, Turns (List.map f) (mapM' k l) (mapM' k' l) s
  | [] => .inl ⟨[], rfl, rfl⟩
  | a :: l => by
    rw [Wagyu.mapM', Wagyu.mapM']
    exact Turns.bind (h a) fun b => Turns.bind (Turns.mapM' h l) fun r => Turns.pure rfl

theorem turns_linearRing (h : Net U n s) {o : Option Nat} (ho : ∀ i, o = some i → U i) :
    Turns List.reverse (pointNodeToLinearRing o false) (pointNodeToLinearRing o true) s := by
  unfold pointNodeToLinearRing
  cases o with
  | none => exact .inr ⟨_, rfl, rfl⟩
  | some a =>
    obtain ⟨t, ht, -⟩ := h.cycle (ho a rfl)
    unfold Turns
    simp only [run_bind, run_deref_some]
    by_cases hf : t.length < s.fuel
    · left
      simp only [Bool.false_eq_true, if_false, if_true, nodesBackFrom_run ht hf, nodesFrom_run ht hf, mapM'_run fun i _ => run_pointOf i s, run_pointOf]
      refine ⟨_, rfl, ?_⟩
      simp [run_pure]
    · right
      simp only [Bool.false_eq_true, if_false, if_true, nodesBackFrom_short ht (by omega), nodesFrom_short ht (by omega)]
      exact ⟨_, rfl, rfl⟩

theorem turns_ring (h : Net U n s) (r : Nat) : Turns List.reverse (ringToLinearRing r false) (ringToLinearRing r true) s := by
  unfold ringToLinearRing
  refine Turns.same fun g hg => turns_linearRing h fun i hi => h.root r i ?_
  cases hg; exact hi

theorem turns_polygons (h : Net U n s) : ∀ (fuel : Nat) (l : List (Option Nat)),
    Turns (List.map (List.map List.reverse)) (ringsToPolygons false fuel l) (ringsToPolygons true fuel l) s
  | 0, _ => .inr ⟨_, rfl, rfl⟩
  | fuel + 1, l => by
    rw [ringsToPolygons, ringsToPolygons]
    refine Turns.bind (Turns.mapM' (f := List.map (List.map List.reverse)) (fun o => ?_) l) fun parts => Turns.pure ?_
    · cases o with
      | none => exact Turns.pure rfl
      | some r =>
        refine Turns.bind (turns_ring h r) fun ext => Turns.same fun g _ => ?_
        refine Turns.bind (Turns.mapM' (fun c => turns_ring h c) _) fun holes => ?_
        refine Turns.bind (Turns.mapM' (f := List.map (List.map List.reverse)) (fun c => Turns.same fun g _ => turns_polygons h fuel _) _) fun rest => ?_
        refine Turns.pure ?_
        simp [List.map_flatten]
    · rw [List.map_flatten]

theorem turns_result (h : Net U n s) : Turns (List.map (List.map List.reverse)) (buildResult false) (buildResult true) s := by
  unfold buildResult
  exact Turns.same fun _ _ => Turns.same fun _ _ => turns_polygons h _ _

end

end Wagyu
