import Verif.Proofs.Tot
import Verif.Proofs.Append

/-!
# Termination of the walks over point nodes and rings
-/

namespace Wagyu

open Spec

section
variable {α β σ : Type} {s : St}

theorem Tot.run {m : M α} {Q : α → St → Prop} {a : α} {s' : St} (N : Nat)
    (h : ∀ k, N ≤ k → m (s.wf k) = .ok a (s'.wf k)) (hQ : Q a s') : Tot m s Q := ⟨N, Or.inl ⟨a, s', h, hQ⟩⟩

/-- `Tot.loopM` with the measure carried by the invariant. -/
theorem Tot.loopN {Q : β → St → Prop} {f : σ → M (σ ⊕ β)} (I : Nat → σ → St → Prop)
    (h : ∀ n x s, I n x s → Tot (f x) s (fun r s' => match r with | .inl y => ∃ m < n, I m y s' | .inr b => Q b s'))
    {n : Nat} {x : σ} (hx : I n x s) : Tot (Wagyu.loopM f x) s Q := by
  classical
  refine Tot.loopM (fun x s => ∃ n, I n x s) (fun x s => if h : ∃ n, I n x s then Nat.find h else 0) ?_ ⟨n, hx⟩
  intro x s hx
  refine (h _ x s (Nat.find_spec hx)).imp ?_
  rintro (y | b) s' hr
  · obtain ⟨m, hm, hI⟩ := hr
    have he : ∃ n, I n y s' := ⟨m, hI⟩
    refine ⟨he, ?_⟩
    rw [dif_pos he, dif_pos hx]
    exact Nat.lt_of_le_of_lt (Nat.find_min' he hI) hm
  · exact hr

theorem Tot.getNode {i : Nat} {Q : Node → St → Prop} (h : Q (s.nodes i) s) : Tot (getNode i) s Q := Tot.steady (Post.getNode h)
theorem Tot.getRing {i : Nat} {Q : Ring → St → Prop} (h : Q (s.rings i) s) : Tot (getRing i) s Q := Tot.steady (Post.getRing h)
theorem Tot.getBound {i : Nat} {Q : Bound → St → Prop} (h : Q (s.bounds i) s) : Tot (getBound i) s Q := Tot.steady (Post.getBound h)
theorem Tot.pointOf {i : Nat} {Q : Point → St → Prop} (h : Q (locOf s.nodes i) s) : Tot (pointOf i) s Q :=
  Tot.steady (Post.run (run_pointOf _ _) h)
theorem Tot.nextOf {i j : Nat} {Q : Nat → St → Prop} (hj : (s.nodes i).next = some j) (h : Q j s) : Tot (nextOf i) s Q :=
  Tot.steady (Post.run (run_nextOf hj) h)
theorem Tot.prevOf {i j : Nat} {Q : Nat → St → Prop} (hj : (s.nodes i).prev = some j) (h : Q j s) : Tot (prevOf i) s Q :=
  Tot.steady (Post.run (run_prevOf hj) h)
theorem Tot.modRing {i : Nat} {f : Ring → Ring} {Q : Unit → St → Prop}
    (h : Q () { s with rings := upd s.rings i (f (s.rings i)) }) : Tot (modRing i f) s Q := Tot.steady (Post.modRing h)
theorem Tot.modBound {i : Nat} {f : Bound → Bound} {Q : Unit → St → Prop}
    (h : Q () { s with bounds := upd s.bounds i (f (s.bounds i)) }) : Tot (modBound i f) s Q := Tot.steady (Post.modBound h)
theorem Tot.gets {f : St → α} {Q : α → St → Prop} (hf : ∀ s k, f (s.wf k) = f s) (h : Q (f s) s) : Tot (gets f) s Q :=
  Tot.steady (hm := Steady.gets hf) (Post.gets h)
theorem Tot.modify {f : St → St} {Q : Unit → St → Prop} (hf : ∀ s k, f (s.wf k) = (f s).wf k) (h : Q () (f s)) : Tot (modify f) s Q :=
  Tot.steady (hm := Steady.modify hf) (Post.modify h)
theorem Tot.deref {o : Option α} {Q : α → St → Prop} (h : ∀ a, o = some a → Q a s) : Tot (deref o) s Q :=
  Tot.steady (Post.deref h fun _ => trivial)
theorem Tot.orIndex {o : Option α} {Q : α → St → Prop} (h : ∀ a, o = some a → Q a s) : Tot (orIndex o) s Q :=
  Tot.steady (Post.orIndex h fun _ => trivial)
theorem Tot.currentEdge {b : Nat} {Q : Edge → St → Prop} (h : ∀ e, (s.bounds b).currentEdge? = some e → Q e s) :
    Tot (currentEdge b) s Q := by
  unfold Wagyu.currentEdge
  exact Tot.bind (Tot.getBound (Tot.orIndex h))

/-! ## Walking around a circular list -/

theorem tot_skipSame {step : Nat → M Nat} {R : Nat → Nat → Prop} (hstep : ∀ i j, R i j → ∀ k, step i (s.wf k) = .ok j (s.wf k))
    {self : Nat} {l : List Nat} (hl : (self :: l ++ [self]).IsChain R) :
    Tot (skipSame step self) s fun _ s' => s' = s := by
  unfold skipSame
  have : ∀ first l, (first :: l).IsChain R → (first :: l).getLast (by simp) = self →
      Tot (loopM (fun node => do
        let p ← pointOf node
        let q ← pointOf self
        if p = q ∧ node ≠ self then
          let node ← step node
          pure (.inl node)
        else pure (.inr node)) first) s fun (_ : Nat) s' => s' = s := by
    intro first l hl hlast
    refine Tot.loopN (fun n node s' => s' = s ∧ ∃ l, l.length = n ∧ (node :: l).IsChain R ∧ (node :: l).getLast (by simp) = self)
      ?_ ⟨rfl, l, rfl, hl, hlast⟩
    rintro n node s' ⟨rfl, l, hn, hc, hla⟩
    refine Tot.bind (Tot.pointOf ?_)
    refine Tot.bind (Tot.pointOf ?_)
    refine Tot.ite (fun hne => ?_) fun _ => Tot.pure rfl
    cases l with
    | nil => exact absurd hla hne.2
    | cons b l =>
      rw [List.isChain_cons_cons] at hc
      refine Tot.bind (Tot.run 0 (fun k _ => hstep _ _ hc.1 k) (Tot.pure ?_))
      exact ⟨l.length, by simp at hn; omega, rfl, l, rfl, hc.2, by simpa using hla⟩
  cases l with
  | nil =>
    have h1 : R self self := by simpa using hl
    exact Tot.bind (Tot.run 0 (fun k _ => hstep _ _ h1 k) (this self [] (by simp) rfl))
  | cons b l =>
    rw [List.cons_append, List.cons_append, List.isChain_cons_cons] at hl
    exact Tot.bind (Tot.run 0 (fun k _ => hstep _ _ hl.1 k) (this b (l ++ [self]) hl.2 (by simp)))

theorem tot_skipNext {a : Nat} {t : List Nat} (hl : IsCycle s.nodes (a :: t)) :
    Tot (skipSame nextOf a) s fun _ s' => s' = s :=
  tot_skipSame (R := Link s.nodes) (fun _ _ h _ => run_nextOf h.1) hl.2

theorem tot_skipPrev {a : Nat} {t : List Nat} (hl : IsCycle s.nodes (a :: t)) :
    Tot (skipSame prevOf a) s fun _ s' => s' = s :=
  tot_skipSame (R := fun x y => Link s.nodes y x) (fun _ _ h _ => run_prevOf h.2) (chain_prev hl)

theorem tot_nodeStats {a : Nat} {t : List Nat} (hl : IsCycle s.nodes (a :: t)) :
    Tot (nodeStats a) s fun _ s' => s' = s :=
  Tot.run (a := let st : Stats := (a :: t).foldl (fun (st : Stats) i => Stats.step st (prevLoc s.nodes i) (locOf s.nodes i)) { area2 := 0, size := 0, box := ⟨locOf s.nodes a, locOf s.nodes a⟩ }
      (intDiv st.area2 2, st.size, st.box))
    (t.length + 1) (fun k hk => nodeStats_run (s := s.wf k) hl (by show t.length < k; omega)) rfl

instance Steady.getPointsSlope (l r : Nat) : Steady (getPointsSlope l r) := by unfold Wagyu.getPointsSlope; steady

theorem tot_isBottomTo {a b : Nat} {t u : List Nat} (ha : IsCycle s.nodes (a :: t)) (hb : IsCycle s.nodes (b :: u)) :
    Tot (isBottomTo a b) s fun _ s' => s' = s := by
  have slope : ∀ l r s, Ok (getPointsSlope l r) s fun _ s' => s' = s := fun l r s => by
    unfold getPointsSlope
    exact Post.bind (Post.run (run_pointOf _ _) (Post.bind (Post.run (run_pointOf _ _) (Post.pure rfl))))
  unfold isBottomTo
  refine Tot.bind ((tot_skipPrev ha).imp ?_)
  rintro _ s rfl
  refine Tot.bind ((Tot.steady (slope _ _ _)).imp ?_)
  rintro _ s rfl
  refine Tot.bind ((tot_skipNext ha).imp ?_)
  rintro _ s rfl
  refine Tot.bind ((Tot.steady (slope _ _ _)).imp ?_)
  rintro _ s rfl
  refine Tot.bind ((tot_skipPrev hb).imp ?_)
  rintro _ s rfl
  refine Tot.bind ((Tot.steady (slope _ _ _)).imp ?_)
  rintro _ s rfl
  refine Tot.bind ((tot_skipNext hb).imp ?_)
  rintro _ s rfl
  refine Tot.bind ((Tot.steady (slope _ _ _)).imp ?_)
  rintro _ s rfl
  refine Tot.ite (fun _ => ?_) fun _ => Tot.pure rfl
  refine Tot.bind ((tot_nodeStats ha).imp ?_)
  rintro ⟨_, _, _⟩ s rfl
  exact Tot.pure rfl

/-- The cycle starting at one of its nodes. -/
theorem cycle_from {h : Nat → Node} {l : List Nat} (hl : IsCycle h l) {i : Nat} (hi : i ∈ l) :
    ∃ t, IsCycle h (i :: t) ∧ (i :: t).Perm l := by
  obtain ⟨p, q, rfl⟩ := List.append_of_mem hi
  exact ⟨q ++ p, by simpa using isCycle_append_comm hl, by simpa using List.perm_append_comm (l₁ := i :: q) (l₂ := p)⟩

/-- The node after one that is followed by `post` in a cycle. -/
theorem next_in {h : Nat → Node} {a c : Nat} {pre post : List Nat} (hl : IsCycle h (a :: pre ++ c :: post)) :
    (h c).next = some (post.head?.getD a) := by
  have h2 : (c :: post ++ (a :: pre) ++ [c]).IsChain (Link h) := by
    have := isCycle_append_comm hl
    exact this.2
  cases post with
  | nil =>
    simp only [List.cons_append, List.nil_append] at h2
    exact (List.isChain_cons_cons.1 h2).1.1
  | cons d post =>
    simp only [List.cons_append] at h2
    exact (List.isChain_cons_cons.1 h2).1.1

theorem next_first {h : Nat → Node} {a : Nat} {t : List Nat} (hl : IsCycle h (a :: t)) : (h a).next = some (t.head?.getD a) := by
  have h2 := hl.2
  cases t with
  | nil => exact (List.isChain_cons_cons.1 h2).1.1
  | cons d post => exact (List.isChain_cons_cons.1 h2).1.1

theorem countP_step {l : List Nat} {p q : Nat → Bool} (h : ∀ i ∈ l, q i = true → p i = true) {a : Nat} (ha : a ∈ l)
    (hp : p a = true) (hq : q a = false) : l.countP q + 1 ≤ l.countP p := by
  induction l with
  | nil => cases ha
  | cons b l ih =>
    rw [List.countP_cons, List.countP_cons]
    rcases List.mem_cons.1 ha with rfl | ha
    · have : l.countP q ≤ l.countP p := List.countP_mono_left fun i hi => h i (by simp [hi])
      simp [hp, hq]; omega
    · have := ih (fun i hi => h i (by simp [hi])) ha
      have hb := h b (by simp)
      by_cases hqb : q b = true
      · simp [hqb, hb hqb]; omega
      · simp [hqb]; split <;> omega

theorem tot_bottomNodeOf {a : Nat} {t : List Nat} (hl : IsCycle s.nodes (a :: t)) :
    Tot (bottomNodeOf a) s fun r s' => s' = s ∧ r ∈ a :: t := by
  set L := a :: t with hL
  set h := s.nodes with hh
  let better : Nat → Nat → Bool := fun n i => decide ((h i).y > (h n).y) || (decide ((h i).y = (h n).y) && decide ((h i).x < (h n).x))
  have hbet : ∀ {n c : Nat}, c ∈ L → better n c = true → L.countP (better c) + 1 ≤ L.countP (better n) := by
    intro n c hc hb
    refine countP_step (fun i _ hi => ?_) hc hb ?_
    · simp only [better, Bool.or_eq_true, Bool.and_eq_true, decide_eq_true_eq] at hb hi ⊢
      omega
    · simp [better]
  unfold bottomNodeOf
  refine Tot.bind (Tot.nextOf (next_first hl) ?_)
  refine Tot.bind ((Tot.loopN (Q := fun r s' => s' = s ∧ r.2.1 = r.1 ∧ ∃ t', IsCycle h (r.1 :: t') ∧ (r.1 :: t').Perm L
      ∧ ∀ d, r.2.2 = some d → ∃ t'', t' = d :: t'' ∧ locOf h d = locOf h r.1)
    (fun n (st : Nat × Nat × Option Nat) s' => s' = s ∧ ∃ pre post, IsCycle h (st.1 :: pre ++ post) ∧ (st.1 :: pre ++ post).Perm L
      ∧ st.2.1 = post.head?.getD st.1 ∧ (∀ d, st.2.2 = some d → ∃ pre', pre = d :: pre' ∧ locOf h d = locOf h st.1)
      ∧ n = L.countP (better st.1) * (L.length + 1) + post.length) (x := (a, t.head?.getD a, none)) ?_
      ⟨rfl, [], t, hl, List.Perm.refl _, rfl, (fun d hd => by cases hd), rfl⟩).imp ?_)
  · rintro n ⟨node, cursor, dups⟩ s1 ⟨hs1, pre, post, hc, hp, hcur, hd, hn⟩
    subst s1
    dsimp only at hc hp hcur hd hn ⊢
    refine Tot.ite (fun he => ?_) fun he => ?_
    · refine Tot.pure ⟨rfl, he, ?_⟩
      cases post with
      | nil => exact ⟨pre, by simpa using hc, by simpa using hp, hd⟩
      | cons c post =>
        exfalso
        simp only [List.head?_cons, Option.getD_some] at hcur
        have := hc.nodup
        rw [← he, hcur] at this
        simp at this
    · cases post with
      | nil => exact absurd hcur he
      | cons c post =>
        obtain rfl : cursor = c := hcur
        have hcL : cursor ∈ L := hp.mem_iff.1 (by simp)
        have hnext := next_in (a := node) hc
        refine Tot.bind (Tot.getNode (Tot.bind (Tot.getNode ?_)))
        -- the case of a better node
        have hnew : better node cursor = true → Tot (do
            let cursor' ← nextOf cursor
            pure (.inl (cursor, cursor', none)) : M ((Nat × Nat × Option Nat) ⊕ (Nat × Nat × Option Nat))) s
            (fun r s' => match r with
              | .inl y => ∃ m < n, s' = s ∧ ∃ pre post, IsCycle h (y.1 :: pre ++ post) ∧ (y.1 :: pre ++ post).Perm L
                ∧ y.2.1 = post.head?.getD y.1 ∧ (∀ d, y.2.2 = some d → ∃ pre', pre = d :: pre' ∧ locOf h d = locOf h y.1)
                ∧ m = L.countP (better y.1) * (L.length + 1) + post.length
              | .inr r => s' = s ∧ r.2.1 = r.1 ∧ ∃ t', IsCycle h (r.1 :: t') ∧ (r.1 :: t').Perm L
                ∧ ∀ d, r.2.2 = some d → ∃ t'', t' = d :: t'' ∧ locOf h d = locOf h r.1) := by
          intro hb
          refine Tot.bind (Tot.nextOf hnext (Tot.pure ?_))
          refine ⟨_, ?_, rfl, [], post ++ node :: pre, ?_, ?_, ?_, nofun, rfl⟩
          · have h1 := hbet hcL hb
            have h2 := hp.length_eq
            simp only [List.length_cons, List.length_append] at h2
            rw [hn]
            simp only [List.length_append, List.length_cons]
            generalize L.countP (better cursor) = p at h1
            generalize L.countP (better node) = q at h1
            have : (p + 1) * (L.length + 1) ≤ q * (L.length + 1) := Nat.mul_le_mul_right _ h1
            rw [Nat.add_mul] at this
            omega
          · simpa using isCycle_append_comm hc
          · refine (List.Perm.trans ?_ hp)
            simpa using List.perm_append_comm (l₁ := cursor :: post) (l₂ := node :: pre)
          · cases post <;> rfl
        -- the other case
        have hold : ∀ dups', (∀ d, dups' = some d → ∃ pre', pre ++ [cursor] = d :: pre' ∧ locOf h d = locOf h node) → Tot (do
            let cursor' ← nextOf cursor
            pure (.inl (node, cursor', dups')) : M ((Nat × Nat × Option Nat) ⊕ (Nat × Nat × Option Nat))) s
            (fun r s' => match r with
              | .inl y => ∃ m < n, s' = s ∧ ∃ pre post, IsCycle h (y.1 :: pre ++ post) ∧ (y.1 :: pre ++ post).Perm L
                ∧ y.2.1 = post.head?.getD y.1 ∧ (∀ d, y.2.2 = some d → ∃ pre', pre = d :: pre' ∧ locOf h d = locOf h y.1)
                ∧ m = L.countP (better y.1) * (L.length + 1) + post.length
              | .inr r => s' = s ∧ r.2.1 = r.1 ∧ ∃ t', IsCycle h (r.1 :: t') ∧ (r.1 :: t').Perm L
                ∧ ∀ d, r.2.2 = some d → ∃ t'', t' = d :: t'' ∧ locOf h d = locOf h r.1) := by
          intro dups' hd'
          refine Tot.bind (Tot.nextOf hnext (Tot.pure ?_))
          refine ⟨_, ?_, rfl, pre ++ [cursor], post, by simpa using hc, by simpa using hp, rfl, hd', rfl⟩
          rw [hn]
          simp
        have hsame : ∀ d, dups = some d → ∃ pre', pre ++ [cursor] = d :: pre' ∧ locOf h d = locOf h node := by
          intro d hdd
          obtain ⟨pre', rfl, he⟩ := hd d hdd
          exact ⟨pre' ++ [cursor], rfl, he⟩
        split
        · next h1 => refine (hnew ?_).imp (by rintro (_ | _) _ h <;> exact h); exact (by simp only [better, Bool.or_eq_true, Bool.and_eq_true, decide_eq_true_eq]; exact Or.inl h1)
        · split
          · next h1 h2 =>
            split
            · next h3 => refine (hnew ?_).imp (by rintro (_ | _) _ h <;> exact h); exact (by simp only [better, Bool.or_eq_true, Bool.and_eq_true, decide_eq_true_eq]; exact Or.inr ⟨h2.1, h3⟩)
            · next h3 =>
              split
              · next h4 =>
                refine (hold (some cursor) fun d hd' => ?_).imp (by rintro (_ | _) _ h <;> exact h)
                obtain rfl := Option.some.inj hd'
                cases pre with
                | nil => exact ⟨[], rfl, by unfold locOf; rw [h2.1, show (h cursor).x = (h node).x by have := h2.2; simp only [not_lt] at h3; exact Int.le_antisymm this h3]⟩
                | cons d pre =>
                  exfalso
                  have h5 : (h d).prev = some node := by
                    have := hc.2
                    simp only [List.cons_append] at this
                    exact (List.isChain_cons_cons.1 this).1.2
                  have h6 : (h d).prev = (h cursor).prev := by rw [h5]; exact h4.2.symm
                  -- both are the successors of `node`
                  have h7 : (h node).next = some d := by
                    have := hc.2
                    simp only [List.cons_append] at this
                    exact (List.isChain_cons_cons.1 this).1.1
                  have h8 : (h node).next = some cursor := by
                    obtain ⟨p, q, hpq⟩ : ∃ p q, node :: d :: pre ++ cursor :: post = p ++ q :: cursor :: post := by
                      refine ⟨(node :: d :: pre).dropLast, (node :: d :: pre).getLast (by simp), ?_⟩
                      conv_lhs => rw [← List.dropLast_append_getLast (l := node :: d :: pre) (by simp)]
                      simp
                    have hch : (node :: d :: pre ++ cursor :: post).IsChain (Link h) := ((isCycle_iff (by simp)).1 hc).2.1
                    rw [hpq, List.isChain_append] at hch
                    have := (List.isChain_cons_cons.1 hch.2.1).1
                    have hq : q = node := by
                      have := this.2
                      rw [h4.2] at this
                      exact (Option.some.inj this).symm
                    rw [← hq]; exact this.1
                  rw [h7] at h8
                  have := hc.nodup
                  obtain rfl := Option.some.inj h8
                  simp at this
              · exact (hold dups hsame).imp (by rintro (_ | _) _ h <;> exact h)
          · exact (hold dups hsame).imp (by rintro (_ | _) _ h <;> exact h)
  · rintro ⟨node, cursor, dups⟩ s1 ⟨hs1, hcn, t', hc, hp, hd⟩
    subst s1
    dsimp only at hcn hc hp hd ⊢
    subst hcn
    have hnL : cursor ∈ L := hp.mem_iff.1 (by simp)
    cases dups with
    | none => exact Tot.pure ⟨rfl, hnL⟩
    | some d =>
      obtain ⟨t'', rfl, hloc⟩ := hd d rfl
      refine Tot.loopN (fun n (st : Nat × Nat) s' => s' = s ∧ locOf h st.1 = locOf h cursor ∧ st.1 ∈ L ∧ ∃ pre post,
        IsCycle h (cursor :: pre ++ post) ∧ (cursor :: pre ++ post).Perm L ∧ st.2 = post.head?.getD cursor
        ∧ locOf h st.2 = locOf h cursor ∧ n = post.length) ?_ ⟨rfl, rfl, hnL, [], d :: t'', hc, hp, rfl, hloc, rfl⟩
      rintro n ⟨node, dups⟩ s1 ⟨hs1, hln, hnodeL, pre, post, hc', hp', hdu, hld, hn⟩
      subst s1
      dsimp only at hln hnodeL hdu hld ⊢
      refine Tot.ite (fun _ => Tot.pure ⟨rfl, hnodeL⟩) fun hne => ?_
      cases post with
      | nil => exact absurd hdu hne
      | cons c post =>
        obtain rfl : dups = c := hdu
        have hdL : dups ∈ L := hp'.mem_iff.1 (by simp)
        obtain ⟨v, hv, -⟩ := cycle_from hc' (i := dups) (by simp)
        have hrest : ∀ node', locOf h node' = locOf h cursor → node' ∈ L → Tot (do
            let dups ← nextOf dups
            let dups ← loopM (fun dups => do
              let p ← pointOf dups
              let q ← pointOf node'
              if p ≠ q then
                let dups ← nextOf dups
                pure (.inl dups)
              else pure (.inr dups)) dups
            pure (.inl (node', dups)) : M ((Nat × Nat) ⊕ Nat)) s (fun r s' => match r with
              | .inl y => ∃ m < n, s' = s ∧ locOf h y.1 = locOf h cursor ∧ y.1 ∈ L ∧ ∃ pre post,
                IsCycle h (cursor :: pre ++ post) ∧ (cursor :: pre ++ post).Perm L ∧ y.2 = post.head?.getD cursor
                ∧ locOf h y.2 = locOf h cursor ∧ m = post.length
              | .inr r => s' = s ∧ r ∈ L) := by
          intro node' hln' hnL'
          refine Tot.bind (Tot.nextOf (next_in (a := cursor) hc') ?_)
          refine Tot.bind ((Tot.loopN (Q := fun d s' => s' = s ∧ ∃ pre post, IsCycle h (cursor :: pre ++ post) ∧ (cursor :: pre ++ post).Perm L
              ∧ d = post.head?.getD cursor ∧ locOf h d = locOf h cursor ∧ post.length < n)
            (fun m d s' => s' = s ∧ ∃ pre post, IsCycle h (cursor :: pre ++ post) ∧ (cursor :: pre ++ post).Perm L
              ∧ d = post.head?.getD cursor ∧ m = post.length ∧ m < n) ?_
            ⟨rfl, pre ++ [dups], post, by simpa using hc', by simpa using hp', rfl, rfl, by rw [hn]; simp⟩).imp ?_)
          · rintro m d s1 ⟨hs1, pre2, post2, hc2, hp2, hd2, hm, hmn⟩
            subst s1
            refine Tot.bind (Tot.pointOf (Tot.bind (Tot.pointOf ?_)))
            refine Tot.ite (fun hne2 => ?_) fun hne2 => ?_
            · cases post2 with
              | nil =>
                exfalso
                rw [hd2] at hne2
                exact hne2 hln'.symm
              | cons e post2 =>
                obtain rfl : d = e := hd2
                refine Tot.bind (Tot.nextOf (next_in (a := cursor) hc2) (Tot.pure ?_))
                have : post2.length < m := by rw [hm]; simp
                exact ⟨post2.length, this, rfl, pre2 ++ [d], post2, by simpa using hc2, by simpa using hp2, rfl, rfl, by omega⟩
            · exact Tot.pure ⟨rfl, pre2, post2, hc2, hp2, hd2, (not_not.1 hne2).trans hln', by omega⟩
          · rintro d s1 ⟨hs1, pre2, post2, hc2, hp2, hd2, hl2, hlt⟩
            subst s1
            exact Tot.pure ⟨_, hlt, rfl, hln', hnL', pre2, post2, hc2, hp2, hd2, hl2, rfl⟩
        refine Tot.bind (Q' := _) (Tot.bind ((tot_isBottomTo (a := cursor) hc' hv).imp ?_))
        rintro b s1 hs1
        subst s1
        refine Tot.ite (fun _ => Tot.pure ((hrest node hln hnodeL).imp (by rintro (_ | _) _ h <;> exact h))) fun _ => Tot.pure ((hrest dups hld hdL).imp (by rintro (_ | _) _ h <;> exact h))

end

end Wagyu
