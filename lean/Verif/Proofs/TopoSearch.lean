import Verif.Proofs.TopoPath

/-!
# Searching for the ends of a collinear path
-/

namespace Wagyu

open Spec

section
variable {s s' : St} {L L' : Nat → List Nat} {E : Err → Prop}

/-- `w 0, ..., w n` are linked. -/
def Trail (h : Nat → Node) (w : Nat → Nat) (n : Nat) : Prop := ∀ k < n, Link h (w k) (w (k + 1))

theorem Trail.next {h : Nat → Node} {w : Nat → Nat} {n k : Nat} (ht : Trail h w n) (hk : k < n) : (h (w k)).next = some (w (k + 1)) := (ht k hk).1
theorem Trail.prev {h : Nat → Node} {w : Nat → Nat} {n k : Nat} (ht : Trail h w n) (h0 : 0 < k) (hk : k ≤ n) : (h (w k)).prev = some (w (k - 1)) := by
  obtain ⟨k, rfl⟩ : ∃ j, k = j + 1 := ⟨k - 1, by omega⟩
  exact (ht k (by omega)).2

theorem trail_of_cycle {h : Nat → Node} {c : Nat} {t : List Nat} (hc : IsCycle h (c :: t)) :
    ∃ w : Nat → Nat, Trail h w (t.length + 1) ∧ (∀ k (hk : k < (c :: t).length), w k = (c :: t)[k]) ∧ w (t.length + 1) = c := by
  obtain ⟨hnd, hch⟩ := hc
  refine ⟨fun k => (c :: t ++ [c]).getD k 0, fun k hk => ?_, fun k hk => ?_, ?_⟩
  · have := List.isChain_iff_getElem.1 hch k (by simp; omega)
    simp only [List.getD_eq_getElem?_getD]
    rw [List.getElem?_eq_getElem (by simp; omega), List.getElem?_eq_getElem (by simp; omega)]
    exact this
  · simp only [List.getD_eq_getElem?_getD]
    rw [List.getElem?_append_left hk, List.getElem?_eq_getElem hk]; rfl
  · simp

theorem ends_nodesEq (o1 o2 : Option Nat) :
    Ends E (nodesEq o1 o2) s fun b s' => s' = s ∧ ∀ x y, o1 = some x → o2 = some y → b = decide (locOf s.nodes x = locOf s.nodes y) := by
  cases o1 with
  | none =>
    cases o2 with
    | none => exact Ends.pure ⟨rfl, fun x y h => by cases h⟩
    | some y => exact Ends.pure ⟨rfl, fun x y h => by cases h⟩
  | some x =>
    cases o2 with
    | none => exact Ends.pure ⟨rfl, fun x y _ h => by cases h⟩
    | some y => exact Ends.nodesEq ⟨rfl, by rintro _ _ ⟨⟩ ⟨⟩; rfl⟩

/-- The loop of lines 261-264. -/
theorem ends_searchBack {w : Nat → Nat} {n lo hi forward a : Nat} (ht : Trail s.nodes w n) (hhi : hi ≤ n) (hlo : lo ≤ hi)
    (hstop : w lo = forward ∨ w lo = a) (hgo : lo = hi → w lo = forward) (hmid : ∀ k, lo < k → k ≤ hi → w k ≠ forward) :
    Ends E (loopM (fun back => do
      let p ← getNode back
      if (← nodesEq p.prev (some back)) && decide (back ≠ forward) then
        let back ← deref p.prev
        if back = a then pure (.inr back) else pure (.inl back)
      else pure (.inr back)) (w hi)) s fun x s' => s' = s ∧ ∃ k, lo ≤ k ∧ k ≤ hi ∧ x = w k
        ∧ (k = lo ∨ locOf s.nodes (w (k - 1)) ≠ locOf s.nodes (w k) ∨ w k = a)
        ∧ (lo < hi → locOf s.nodes (w (hi - 1)) ≠ locOf s.nodes (w hi) → k = hi) := by
  refine Ends.loopN (fun m x s1 => s1 = s ∧ ∃ k, k ≤ hi ∧ x = w k ∧ m = k ∧ (lo < k ∨ k = lo ∧ w lo = forward)
    ∧ (lo < hi → locOf s.nodes (w (hi - 1)) ≠ locOf s.nodes (w hi) → k = hi)) ?_
    (n := hi) ⟨rfl, hi, Nat.le_refl _, rfl, rfl, ?_, fun _ _ => rfl⟩
  · rintro k x s1 ⟨rfl, _, h1, rfl, rfl, h2, h3⟩
    refine Ends.bind (Ends.getNode (Ends.bind ((ends_nodesEq _ _).imp ?_)))
    rintro b s1 ⟨rfl, hb⟩
    rcases h2 with h2 | ⟨rfl, h2⟩
    · have hprev := ht.prev (k := k) (by omega) (by omega)
      have hb' := hb _ _ hprev rfl
      refine Ends.ite (fun e => ?_) fun e => ?_
      · rw [hb'] at e
        simp only [Bool.and_eq_true, decide_eq_true_eq] at e
        refine Ends.bind (Ends.deref hprev ?_)
        have hk : lo < hi → locOf s1.nodes (w (hi - 1)) ≠ locOf s1.nodes (w hi) → k - 1 = hi := by
          intro g1 g2
          have := h3 g1 g2
          subst this
          exact absurd e.1 g2
        refine Ends.ite (fun ea => ?_) fun ea => ?_
        · exact Ends.pure ⟨rfl, k - 1, by omega, by omega, rfl, Or.inr (Or.inr ea), hk⟩
        · refine Ends.pure ⟨k - 1, by omega, rfl, k - 1, by omega, rfl, rfl, ?_, hk⟩
          by_cases hl : lo < k - 1
          · exact Or.inl hl
          · have : k - 1 = lo := by omega
            rw [this] at ea
            exact Or.inr ⟨this, hstop.resolve_right ea⟩
      · refine Ends.pure ⟨rfl, k, by omega, h1, rfl, Or.inr (Or.inl ?_), h3⟩
        rw [hb'] at e
        simp only [Bool.and_eq_true, decide_eq_true_eq, not_and] at e
        exact fun e' => e e' (hmid k h2 h1)
    · refine Ends.ite (fun e => ?_) fun e => ?_
      · simp [h2] at e
      · exact Ends.pure ⟨rfl, k, Nat.le_refl _, h1, rfl, Or.inl rfl, h3⟩
  · by_cases e : lo = hi
    · exact Or.inr ⟨e.symm, hgo e⟩
    · exact Or.inl (by omega)

/-- The loop of lines 269-272. -/
theorem ends_searchForward {w : Nat → Nat} {n lo hi back b : Nat} (ht : Trail s.nodes w n) (hhi : hi ≤ n) (hlo : lo ≤ hi)
    (hstop : w hi = back ∨ w hi = b) (hgo : lo = hi → w hi = back) (hmid : ∀ k, lo ≤ k → k < hi → w k ≠ back) :
    Ends E (loopM (fun forward => do
      let p ← getNode forward
      if (← nodesEq p.next (some forward)) && decide (back ≠ forward) then
        let forward ← deref p.next
        if forward = b then pure (.inr forward) else pure (.inl forward)
      else pure (.inr forward)) (w lo)) s fun x s' => s' = s ∧ ∃ k, lo ≤ k ∧ k ≤ hi ∧ x = w k
        ∧ (k = hi ∨ locOf s.nodes (w (k + 1)) ≠ locOf s.nodes (w k) ∨ w k = b)
        ∧ (lo < hi → locOf s.nodes (w (lo + 1)) ≠ locOf s.nodes (w lo) → k = lo) := by
  refine Ends.loopN (fun m x s1 => s1 = s ∧ ∃ k, lo ≤ k ∧ x = w k ∧ m = hi - k ∧ (k < hi ∨ k = hi ∧ w hi = back)
    ∧ (lo < hi → locOf s.nodes (w (lo + 1)) ≠ locOf s.nodes (w lo) → k = lo)) ?_
    (n := hi - lo) ⟨rfl, lo, Nat.le_refl _, rfl, rfl, ?_, fun _ _ => rfl⟩
  · rintro m x s1 ⟨rfl, k, h1, rfl, rfl, h2, h3⟩
    refine Ends.bind (Ends.getNode (Ends.bind ((ends_nodesEq _ _).imp ?_)))
    rintro c s1 ⟨rfl, hb⟩
    rcases h2 with h2 | ⟨rfl, h2⟩
    · have hnext := ht.next (k := k) (by omega)
      have hb' := hb _ _ hnext rfl
      refine Ends.ite (fun e => ?_) fun e => ?_
      · rw [hb'] at e
        simp only [Bool.and_eq_true, decide_eq_true_eq] at e
        refine Ends.bind (Ends.deref hnext ?_)
        have hk : lo < hi → locOf s1.nodes (w (lo + 1)) ≠ locOf s1.nodes (w lo) → k + 1 = lo := by
          intro g1 g2
          have := h3 g1 g2
          subst this
          exact absurd e.1 g2
        refine Ends.ite (fun ea => ?_) fun ea => ?_
        · exact Ends.pure ⟨rfl, k + 1, by omega, by omega, rfl, Or.inr (Or.inr ea), hk⟩
        · refine Ends.pure ⟨hi - (k + 1), by omega, rfl, k + 1, by omega, rfl, rfl, ?_, hk⟩
          by_cases hl : k + 1 < hi
          · exact Or.inl hl
          · have : k + 1 = hi := by omega
            rw [this] at ea
            exact Or.inr ⟨this, hstop.resolve_right ea⟩
      · refine Ends.pure ⟨rfl, k, h1, by omega, rfl, Or.inr (Or.inl ?_), h3⟩
        rw [hb'] at e
        simp only [Bool.and_eq_true, decide_eq_true_eq, not_and] at e
        exact fun e' => e e' (Ne.symm (hmid k h1 h2))
    · refine Ends.ite (fun e => ?_) fun e => ?_
      · simp [h2] at e
      · exact Ends.pure ⟨rfl, k, h1, Nat.le_refl _, rfl, Or.inl rfl, h3⟩
  · by_cases e : lo = hi
    · exact Or.inr ⟨e, hgo e⟩
    · exact Or.inl (by omega)

/-- The search on one ring: from `w n = a` backward and from `w 0 = b` forwards. -/
theorem ends_collinearSearch_same {w : Nat → Nat} {n a b : Nat} (ht : Trail s.nodes w n) (h0 : w 0 = b) (hn : w n = a) (hn0 : 0 < n)
    (hinj : ∀ k l, k ≤ n → l ≤ n → w k = w l → k = l) (hloc : locOf s.nodes a = locOf s.nodes b)
    (nba : locOf s.nodes (w (n - 1)) ≠ locOf s.nodes a) (nbb : locOf s.nodes (w 1) ≠ locOf s.nodes b) :
    Ends E (collinearSearch a b) s fun p s' => s' = s ∧ ∃ i j, i ≤ j ∧ (i = 0 ∧ j = n ∨ 0 < i ∧ j < n)
      ∧ (locOf s.nodes (w (n - 1)) = locOf s.nodes (w 1) → 0 < i) ∧ (s.nodes p.1).next = some (w j) ∧ (s.nodes p.2).prev = some (w i) := by
  have hn2 : 2 ≤ n := by
    by_contra hc
    have : n = 1 := by omega
    subst this
    rw [hn] at nbb
    exact nbb hloc
  unfold collinearSearch
  refine Ends.loopN (fun m (x : Nat × Nat × Bool) s1 => s1 = s ∧ ∃ i j, i ≤ j ∧ m = j - i ∧ x.1 = w j ∧ x.2.1 = w i
    ∧ (x.2.2 = true ∧ i = 0 ∧ j = n ∨ x.2.2 = false ∧ 0 < i ∧ j < n)) ?_ (n := n) ⟨rfl, 0, n, by omega, rfl, hn.symm, h0.symm, Or.inl ⟨rfl, rfl, rfl⟩⟩
  rintro m ⟨back, forward, first⟩ s1 ⟨rfl, i, j, hij, rfl, hx, hy, hcase⟩
  dsimp only at hx hy hcase ⊢
  subst hx hy
  have hj0 : 0 < j := by rcases hcase with ⟨-, -, e⟩ | ⟨-, e, -⟩ <;> omega
  have hjn : j ≤ n := by rcases hcase with ⟨-, -, e⟩ | ⟨-, -, e⟩ <;> omega
  refine Ends.bind ((ends_searchBack (w := w) (lo := i) (hi := j) ht hjn hij (Or.inl rfl) (fun _ => rfl) ?_).imp ?_)
  · intro k k1 k2 e
    have := hinj k i (by omega) (by omega) e
    omega
  rintro _ s1 ⟨rfl, j', h1, h2, rfl, h3, h4⟩
  have hj' : first = true ∧ i = 0 ∧ j' = n ∨ first = false ∧ 0 < i ∧ j' < n := by
    rcases hcase with ⟨f, e1, e2⟩ | ⟨f, e1, e2⟩
    · subst e1 e2
      exact Or.inl ⟨f, rfl, h4 (by omega) (by rw [hn]; exact nba)⟩
    · exact Or.inr ⟨f, e1, by omega⟩
  have hj0' : 0 < j' := by rcases hj' with ⟨-, -, e⟩ | ⟨-, e, -⟩ <;> omega
  refine Ends.ite (fun e => ?_) fun e => ?_
  · have := hinj j' i (by omega) (by omega) e
    subst this
    have hlt : j' < n := by rcases hj' with ⟨-, -, e⟩ | ⟨-, -, e⟩ <;> omega
    refine Ends.bind (Ends.prevOf (ht.prev hj0' (by omega)) (Ends.bind (Ends.nextOf (ht.next hlt) (Ends.pure ?_))))
    refine ⟨rfl, j', j', Nat.le_refl _, Or.inr ⟨hj0', hlt⟩, fun _ => hj0', ?_, ?_⟩
    · have := ht.next (k := j' - 1) (by omega)
      rw [show j' - 1 + 1 = j' by omega] at this
      exact this
    · exact ht.prev (k := j' + 1) (by omega) (by omega)
  have hne : i ≠ j' := fun e' => e (by rw [e'])
  refine Ends.bind ((ends_searchForward (w := w) (lo := i) (hi := j') (back := w j') ht (by omega) h1 (Or.inl rfl) (fun _ => rfl) ?_).imp ?_)
  · intro k k1 k2 e
    have := hinj k j' (by omega) (by omega) e
    omega
  rintro _ s1 ⟨rfl, i', g1, g2, rfl, g3, g4⟩
  have hi' : first = true ∧ i' = 0 ∧ j' = n ∨ first = false ∧ 0 < i' ∧ j' < n := by
    rcases hj' with ⟨f, e1, e2⟩ | ⟨f, e1, e2⟩
    · subst e1
      exact Or.inl ⟨f, g4 (by omega) (by rw [h0]; exact nbb), e2⟩
    · exact Or.inr ⟨f, by omega, e2⟩
  have hnotend : ¬ ((!first && (decide (w j' = a) || decide (w i' = b))) = true) := by
    rcases hi' with ⟨f, -, -⟩ | ⟨f, e1, e2⟩
    · simp [f]
    · have q1 : w j' ≠ a := fun e => by have := hinj j' n (by omega) (by omega) (e.trans hn.symm); omega
      have q2 : w i' ≠ b := fun e => by have := hinj i' 0 (by omega) (by omega) (e.trans h0.symm); omega
      simp [q1, q2]
  rw [if_neg hnotend]
  refine Ends.ite (fun e => ?_) fun e => ?_
  · have := hinj j' i' (by omega) (by omega) e
    subst this
    have hlt : j' < n := by rcases hi' with ⟨-, e, e'⟩ | ⟨-, -, e'⟩ <;> omega
    refine Ends.bind (Ends.prevOf (ht.prev hj0' (by omega)) (Ends.bind (Ends.nextOf (ht.next hlt) (Ends.pure ?_))))
    refine ⟨rfl, j', j', Nat.le_refl _, Or.inr ⟨hj0', hlt⟩, fun _ => hj0', ?_, ?_⟩
    · have := ht.next (k := j' - 1) (by omega)
      rw [show j' - 1 + 1 = j' by omega] at this
      exact this
    · exact ht.prev (k := j' + 1) (by omega) (by omega)
  · have hne' : i' ≠ j' := fun e' => e (by rw [e'])
    have hlt : i' < j' := by omega
    refine Ends.bind (Ends.prevOf (ht.prev hj0' (by omega)) (Ends.bind (Ends.nextOf (ht.next (by omega)) ?_)))
    refine Ends.bind (Ends.pointOf (Ends.bind (Ends.pointOf ?_)))
    refine Ends.ite (fun ep => ?_) fun ep => ?_
    · refine Ends.pure ⟨rfl, i', j', by omega, ?_, ?_, ?_, ?_⟩
      · rcases hi' with ⟨-, e1, e2⟩ | ⟨-, e1, e2⟩
        · exact Or.inl ⟨e1, e2⟩
        · exact Or.inr ⟨e1, e2⟩
      · intro hl
        rcases hi' with ⟨-, e1, e2⟩ | ⟨-, e1, e2⟩
        · subst e1 e2; exact absurd hl ep
        · exact e1
      · have := ht.next (k := j' - 1) (by omega)
        rw [show j' - 1 + 1 = j' by omega] at this
        exact this
      · exact ht.prev (k := i' + 1) (by omega) (by omega)
    · -- the locations agree, so the search goes on
      have hgap : i' + 1 ≠ j' := by
        intro e'
        have hl : locOf s1.nodes (w (i' + 1)) ≠ locOf s1.nodes (w i') := by
          rcases g3 with g | g | g
          · exact absurd g hne'
          · exact g
          · have := hinj i' 0 (by omega) (by omega) (g.trans h0.symm)
            subst this
            rw [h0]; exact nbb
        apply ep
        show locOf s1.nodes (w (j' - 1)) ≠ locOf s1.nodes (w (i' + 1))
        rw [← e', show i' + 1 - 1 = i' by omega]
        exact Ne.symm hl
      exact Ends.pure ⟨j' - 1 - (i' + 1), by omega, rfl, i' + 1, j' - 1, by omega, rfl, rfl, rfl, Or.inr ⟨rfl, by omega, by omega⟩⟩

/-- The search on two rings, with the nodes `u` and `v` in their order. -/
theorem ends_collinearSearch_diff {u v : Nat → Nat} {n m a b : Nat} (hu : Trail s.nodes u n) (hv : Trail s.nodes v m)
    (hu0 : u 0 = a) (hun : u n = a) (hv0 : v 0 = b) (hvm : v m = b) (hn0 : 0 < n) (hm0 : 0 < m)
    (hdis : ∀ k l, k ≤ n → l ≤ m → u k ≠ v l)
    (nba : locOf s.nodes (u (n - 1)) ≠ locOf s.nodes a) (nbb : locOf s.nodes (v 1) ≠ locOf s.nodes b) :
    Ends E (collinearSearch a b) s fun p s' => s' = s ∧ (∃ j ≤ n, p.1 = u j) ∧ ∃ i ≤ m, p.2 = v i := by
  have hn2 : 2 ≤ n := by
    by_contra hc
    have : n = 1 := by omega
    subst this
    exact nba (by rw [hu0])
  have hm2 : 2 ≤ m := by
    by_contra hc
    have : m = 1 := by omega
    subst this
    exact nbb (by rw [hvm])
  unfold collinearSearch
  refine Ends.loopN (fun c (x : Nat × Nat × Bool) s1 => s1 = s ∧ ∃ j i, 1 ≤ j ∧ j ≤ n ∧ i < m ∧ x.1 = u j ∧ x.2.1 = v i
    ∧ (x.2.2 = true ∧ j = n ∧ i = 0 ∧ c = n + 1 ∨ x.2.2 = false ∧ (j = n ∨ i = 0) ∧ c = 0 ∨ x.2.2 = false ∧ j < n ∧ 0 < i ∧ c = j)) ?_ (n := n + 1)
    ⟨rfl, n, 0, by omega, by omega, by omega, hun.symm, hv0.symm, Or.inl ⟨rfl, rfl, rfl, rfl⟩⟩
  rintro c ⟨back, forward, first⟩ s1 ⟨rfl, j, i, hj1, hjn, him, hx, hy, hcase⟩
  dsimp only at hx hy hcase ⊢
  subst hx hy
  refine Ends.bind ((ends_searchBack (w := u) (lo := 0) (hi := j) (a := a) hu hjn (by omega) (Or.inr hu0) (fun e => by omega) ?_).imp ?_)
  · intro k k1 k2; exact hdis k i (by omega) (by omega)
  rintro _ s1 ⟨rfl, j', h1, h2, rfl, h3, h4⟩
  have hstuck : j = n → j' = n := by
    rintro rfl
    exact h4 (by omega) (by rw [hun]; exact nba)
  rw [if_neg (hdis j' i (by omega) (by omega))]
  refine Ends.bind ((ends_searchForward (w := v) (lo := i) (hi := m) (back := u j') (b := b) hv (Nat.le_refl _) (by omega) (Or.inr hvm) (fun e => by omega) ?_).imp ?_)
  · intro k k1 k2; exact Ne.symm (hdis j' k (by omega) (by omega))
  rintro _ s1 ⟨rfl, i', g1, g2, rfl, g3, g4⟩
  have hstuck' : i = 0 → i' = 0 := by
    rintro rfl
    exact g4 (by omega) (by rw [hv0]; exact nbb)
  refine Ends.ite (fun e => ?_) fun e => ?_
  · exact Ends.pure ⟨rfl, ⟨j', by omega, rfl⟩, ⟨i', g2, rfl⟩⟩
  rw [if_neg (hdis j' i' (by omega) (by omega))]
  have hpos : 0 < j' ∧ i' < m ∧ (first = true ∧ j' = n ∧ i' = 0 ∧ c = n + 1 ∨ first = false ∧ j' < n ∧ 0 < i' ∧ c = j) := by
    rcases hcase with ⟨f, e1, e2, e3⟩ | ⟨f, e1, e2⟩ | ⟨f, e1, e2, e3⟩
    · have q1 := hstuck e1
      have q2 := hstuck' e2
      exact ⟨by omega, by omega, Or.inl ⟨f, q1, q2, e3⟩⟩
    · exfalso
      apply e
      rcases e1 with e1 | e1
      · rw [hstuck e1, hun]; simp [f]
      · rw [hstuck' e1, hv0]; simp [f]
    · have q1 : j' ≠ 0 := fun q => e (by rw [q, hu0]; simp [f])
      have q2 : i' ≠ m := fun q => e (by rw [q, hvm]; simp [f])
      exact ⟨by omega, by omega, Or.inr ⟨f, by omega, by omega, e3⟩⟩
  obtain ⟨p1, p2, p3⟩ := hpos
  refine Ends.bind (Ends.prevOf (hu.prev p1 (by omega)) (Ends.bind (Ends.nextOf (hv.next p2) ?_)))
  refine Ends.bind (Ends.pointOf (Ends.bind (Ends.pointOf ?_)))
  refine Ends.ite (fun ep => ?_) fun ep => ?_
  · exact Ends.pure ⟨rfl, ⟨j' - 1, by omega, rfl⟩, ⟨i' + 1, p2, rfl⟩⟩
  · have q1 : u (j' - 1) = u (if j' = 1 then n else j' - 1) := by
      split
      · next q => rw [q, hun]; exact hu0
      · rfl
    have q2 : v (i' + 1) = v (if i' + 1 = m then 0 else i' + 1) := by
      split
      · next q => rw [q, hv0]; exact hvm
      · rfl
    by_cases k1 : j' = 1 ∨ i' + 1 = m
    · refine Ends.pure ⟨0, by omega, rfl, if j' = 1 then n else j' - 1, if i' + 1 = m then 0 else i' + 1, ?_, ?_, ?_, q1, q2, Or.inr (Or.inl ⟨rfl, ?_, rfl⟩)⟩
      · split <;> omega
      · split <;> omega
      · split <;> omega
      · rcases k1 with k1 | k1
        · exact Or.inl (by rw [if_pos k1])
        · exact Or.inr (by rw [if_pos k1])
    · have k2 : j' ≠ 1 := fun e => k1 (Or.inl e)
      have k3 : i' + 1 ≠ m := fun e => k1 (Or.inr e)
      exact Ends.pure ⟨j' - 1, by omega, rfl, j' - 1, i' + 1, by omega, by omega, by omega, rfl, rfl, Or.inr (Or.inr ⟨rfl, by omega, by omega, rfl⟩)⟩

theorem ends_advanceRepeats_same (step : Node → Option Nat) (stop start : Nat) :
    Ends E (advanceRepeats true step stop start) s fun x s' => s' = s ∧ x = start := by
  unfold advanceRepeats
  refine Ends.loopN (fun _ x s1 => s1 = s ∧ x = start) ?_ (n := 0) ⟨rfl, rfl⟩
  rintro _ x s1 ⟨rfl, rfl⟩
  refine Ends.bind (Ends.getNode (Ends.bind ((ends_nodesEq _ _).imp ?_)))
  rintro b s1 ⟨rfl, -⟩
  exact Ends.pure ⟨rfl, rfl⟩

theorem ends_advanceRepeats_next {w : Nat → Nat} {n k stop : Nat} (ht : Trail s.nodes w n) (hw : w n = stop) (hk : k ≤ n) :
    Ends E (advanceRepeats false Node.next stop (w k)) s fun x s' => s' = s ∧ ∃ k ≤ n, x = w k := by
  unfold advanceRepeats
  refine Ends.loopN (fun m x s1 => s1 = s ∧ ∃ k ≤ n, m = n - k ∧ x = w k) ?_ (n := n - k) ⟨rfl, k, hk, rfl, rfl⟩
  rintro _ x s1 ⟨rfl, k, hk, rfl, rfl⟩
  refine Ends.bind (Ends.getNode (Ends.bind ((ends_nodesEq _ _).imp ?_)))
  rintro b s1 ⟨rfl, -⟩
  refine Ends.ite (fun e => ?_) fun _ => Ends.pure ⟨rfl, k, hk, rfl⟩
  simp only [Bool.and_eq_true, decide_eq_true_eq] at e
  have hkn : k ≠ n := fun e' => e.2 (by rw [e', hw])
  refine Ends.bind (Ends.deref (ht.next (by omega)) (Ends.pure ?_))
  exact ⟨n - (k + 1), by omega, rfl, k + 1, by omega, rfl, rfl⟩

theorem ends_advanceRepeats_prev {w : Nat → Nat} {n k stop : Nat} (ht : Trail s.nodes w n) (hw : w 0 = stop) (hk : k ≤ n) :
    Ends E (advanceRepeats false Node.prev stop (w k)) s fun x s' => s' = s ∧ ∃ k ≤ n, x = w k := by
  unfold advanceRepeats
  refine Ends.loopN (fun m x s1 => s1 = s ∧ ∃ k ≤ n, m = k ∧ x = w k) ?_ (n := k) ⟨rfl, k, hk, rfl, rfl⟩
  rintro m x s1 ⟨rfl, k, hk, rfl, rfl⟩
  refine Ends.bind (Ends.getNode (Ends.bind ((ends_nodesEq _ _).imp ?_)))
  rintro b s1 ⟨rfl, -⟩
  refine Ends.ite (fun e => ?_) fun _ => Ends.pure ⟨rfl, m, hk, rfl⟩
  simp only [Bool.and_eq_true, decide_eq_true_eq] at e
  have hkn : m ≠ 0 := fun e' => e.2 (by rw [e', hw])
  refine Ends.bind (Ends.deref (ht.prev (by omega) hk) (Ends.pure ?_))
  exact ⟨m - 1, by omega, rfl, m - 1, by omega, rfl, rfl⟩

end

end Wagyu
