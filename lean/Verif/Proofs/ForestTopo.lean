import Verif.Proofs.ForestInv

/-!
# The forest invariant through the sweep and the topology correction
-/

namespace Wagyu

section
variable {X : Nat → Prop}

theorem FR.step {α β : Type} {m : M α} {f : α → M β} {n : Nat} {s : St} {Q : β → St → Prop} {E : Err → St → Prop}
    (h : Pres (FR X) m) (hs : J X n s) (hE : ∀ s, J X n s → ∀ e, E e s) (hf : ∀ a s', J X n s' → Post (f a) s' Q E) :
    Post (m >>= f) s Q E :=
  Post.bind ((FR.post h hs).mono (fun a s' h' => hf a s' h') fun e s' h' => hE s' h' e)

/-! ## The sweep -/

theorem setHoleState_post {n r b : Nat} {s : St} (hb : (s.bounds b).ring = some r) (h : J (fun i => X i ∨ i = r) n s) (hX : ¬ X r) :
    Post (setHoleState b) s (fun _ s' => J X n s') (fun _ s' => J X n s') := by
  have hw : J X n s := h.mono fun _ => Or.inl
  unfold setHoleState
  refine Post.bind (Post.gets ?_)
  split
  · exact Post.raise hw
  · have hc : ∀ l : List (Option Nat), ∀ i : Nat, (l ++ [some r]).count (some i)
        = if i = r then l.count (some i) + 1 else l.count (some i) := by
      intro l i
      rw [List.count_append]
      by_cases hi : i = r
      · subst hi; simp
      · simp [hi, Ne.symm hi]
    refine Post.bind ((Post.of_pres (s := s) (inferInstance : Pres Eq (holeStateScan _ _))).mono (fun t s' he => ?_) fun _ s' he => he ▸ hw)
    subst he
    refine Post.bind (Post.getBound (Post.bind (Post.deref (fun r' hr' => ?_) fun he => by rw [hb] at he; cases he)))
    rw [hb] at hr'; cases hr'
    split
    · exact Post.bind (Post.setRingParent (Post.modify (h.assign (p := none) (f := fun l => l ++ [some r]) hX fun i => hc _ _)))
    · refine Post.bind (Post.getBound (Post.bind (Post.deref (fun q hq => ?_) fun he => hw)))
      refine Post.bind (Post.setRingParent (Post.modRing ?_))
      have := h.assign (p := some q) (f := fun l => l ++ [some r]) hX fun i => hc _ _
      exact (FR.same (s' := setKids (setPar s r (some q)) (some q) fun l => l ++ [some r]) (by rw [nr_setPar, nr_setKids, nr_setKids, nr_setPar])
        (fun i => by rw [parent_setPar, parent_setKids, parent_setKids, parent_setPar])
        (fun p => by rw [kids_setPar, kids_setKids, kids_setKids, kids_setPar]) : FR X _ _) n this

/-- Nothing of the forest changes. -/
theorem FR.quiet {s s' : St} (hn : s'.nr = s.nr) (hr : s'.rings = s.rings) (hc : s'.children = s.children) : FR X s s' :=
  FR.same hn (fun i => by rw [hr]) fun p => by cases p <;> simp [kids, Spec.childrenIn, hr, hc]

instance fi20 (r : Option Nat) (p : Point) (b : Option Nat) : Pres (FR X) (createPointNode r p b) := by
  unfold createPointNode
  refine Pres.bind inferInstance fun i => Pres.bind ⟨fun s => FR.quiet rfl rfl rfl⟩ fun _ => ?_
  have : Pres (FR X) (modify fun s => { s with allNodes := s.allNodes ++ [i] }) := ⟨fun s => Prims.sort s _⟩
  pres
instance fi21 (b : Nat) (f : Bound → Bound) : Pres (FR X) (modBound b f) := ⟨fun s => FR.quiet rfl rfl rfl⟩

/-- The bounds stay as they are. -/
def BSame (s s' : St) : Prop := s'.bounds = s.bounds
instance : Preo BSame where
  refl _ := rfl
  trans h1 h2 := Eq.trans h2 h1
instance : Prims BSame where
  node _ _ _ _ _ := rfl
  ring _ _ _ _ _ := rfl
  sort _ _ := rfl
instance bs1 (r : Option Nat) (p : Point) (b : Option Nat) : Pres BSame (createPointNode r p b) := by
  unfold createPointNode
  refine Pres.bind inferInstance fun i => Pres.bind ⟨fun s => rfl⟩ fun _ => ?_
  have : Pres BSame (modify fun s => { s with allNodes := s.allNodes ++ [i] }) := ⟨fun s => Prims.sort s _⟩
  pres

theorem FR.postB {α : Type} {m : M α} (h : Pres (FR X) m) (hb : Pres BSame m) {n : Nat} {s : St} (hs : J X n s) :
    Post m s (fun _ s' => J X n s' ∧ s'.bounds = s.bounds) (fun _ s' => J X n s') :=
  (FR.post h hs).and ((Post.of_pres (s := s) hb).mono (fun _ _ h => h) fun _ _ _ => trivial)

instance fi22 (b : Nat) (p : Point) : Pres (FR X) (addFirstPoint b p) := by
  refine FR.of_post fun n s h => ?_
  unfold addFirstPoint
  refine Post.bind (Post.createRing h fun s1 hn hb1 h1 hX => ?_)
  refine Post.bind (Post.modBound ?_)
  have h2 := (FR.quiet rfl rfl rfl : FR (fun r => X r ∨ r = s.nr) s1
    { s1 with bounds := upd s1.bounds b { s1.bounds b with ring := some s.nr } }) n h1
  refine Post.bind ((FR.postB inferInstance inferInstance h2).mono (fun i s3 h3 => ?_) fun _ _ h => h.mono fun _ => Or.inl)
  refine Post.bind ((FR.postB inferInstance inferInstance h3.1).mono (fun _ s4 h4 => ?_) fun _ _ h => h.mono fun _ => Or.inl)
  refine Post.bind (Post.imp (setHoleState_post (r := s.nr) ?_ h4.1 hX) fun _ s5 h5 => FR.post inferInstance h5)
  rw [h4.2, h3.2]; simp [upd]

instance fiSweep : SweepPrims (FR X) where
  bound s _ _ _ := FR.quiet rfl rfl rfl
  misc s _ _ _ _ := FR.quiet rfl rfl rfl
  createPoint r p b := inferInstance
  firstPoint b p := inferInstance
  replace r p := inferInstance

/-! ## Self intersections -/

theorem correctSelfIntersection_post {n a b : Nat} {s : St} (h : J X n s) :
    Post (correctSelfIntersection a b) s
      (fun o s' => match o with
        | none => J X n s'
        | some r => ¬ X r ∧ J (fun i => X i ∨ i = r) n s') (fun _ s' => J X n s') := by
  unfold correctSelfIntersection
  refine Post.bind (Post.getNode (Post.bind (Post.getNode ?_)))
  refine Post.ite (fun _ => Post.pure h) fun _ => ?_
  refine FR.step inferInstance h (fun s h _ => h) fun _ s h => ?_
  refine FR.step inferInstance h (fun s h _ => h) fun _ s h => ?_
  refine FR.step inferInstance h (fun s h _ => h) fun _ s h => ?_
  refine FR.step inferInstance h (fun s h _ => h) fun _ s h => ?_
  refine FR.step inferInstance h (fun s h _ => h) fun _ s h => ?_
  refine FR.step inferInstance h (fun s h _ => h) fun _ s h => ?_
  refine Post.bind (Post.createRing h fun s1 _ _ h1 hX => ?_)
  have hw : ∀ s', J (fun i => X i ∨ i = s.nr) n s' → J X n s' := fun s' h => h.mono fun _ => Or.inl
  refine FR.step (X := fun i => X i ∨ i = s.nr) inferInstance h1 (fun s h _ => hw s h) fun _ s2 h => ?_
  refine FR.step (X := fun i => X i ∨ i = s.nr) inferInstance h (fun s h _ => hw s h) fun _ s2 h => ?_
  refine FR.step (X := fun i => X i ∨ i = s.nr) inferInstance h (fun s h _ => hw s h) fun _ s2 h => ?_
  have tail : ∀ s', J (fun i => X i ∨ i = s.nr) n s' → Post (do updatePoints s.nr; pure (some s.nr) : M (Option Nat)) s'
      (fun o s' => match o with
        | none => J X n s'
        | some r => ¬ X r ∧ J (fun i => X i ∨ i = r) n s') (fun _ s' => J X n s') := fun s' h =>
    FR.step (X := fun i => X i ∨ i = s.nr) inferInstance h (fun s h _ => hw s h) fun _ s2 h => Post.pure ⟨hX, h⟩
  refine Post.ite (fun _ => ?_) fun _ => ?_
  all_goals
    refine FR.step (X := fun i => X i ∨ i = s.nr) inferInstance h (fun s h _ => hw s h) fun _ s2 h => ?_
    refine FR.step (X := fun i => X i ∨ i = s.nr) inferInstance h (fun s h _ => hw s h) fun _ s2 h => ?_
    refine FR.step (X := fun i => X i ∨ i = s.nr) inferInstance h (fun s h _ => hw s h) fun _ s2 h => ?_
    refine FR.step (X := fun i => X i ∨ i = s.nr) inferInstance h (fun s h _ => hw s h) fun _ s2 h => ?_
    exact tail _ h

/-- The new rings are not listed anywhere. -/
def NewRings (n : Nat) (acc : List Nat) (s : St) : Prop := acc.Nodup ∧ J (· ∈ acc) n s

theorem NewRings.weak {n : Nat} {acc : List Nat} {s : St} (h : NewRings n acc s) : J (fun _ => False) n s :=
  h.2.mono fun _ => False.elim

def none' : Nat → Prop := fun _ => False

theorem NewRings.step {α β : Type} {m : M α} {f : α → M β} {n : Nat} {acc : List Nat} {s : St} {Q : β → St → Prop}
    (h : ∀ X, Pres (FR X) m) (hs : NewRings n acc s)
    (hf : ∀ a s', NewRings n acc s' → Post (f a) s' Q (fun _ s' => J none' n s')) :
    Post (m >>= f) s Q (fun _ s' => J none' n s') :=
  Post.bind ((FR.post (h _) hs.2).mono (fun a s' h' => hf a s' ⟨hs.1, h'⟩) fun e s' h' => h'.mono fun _ => False.elim)

theorem splitPair_post {n a b : Nat} {acc : List Nat} {s : St} (h : NewRings n acc s) :
    Post (do
      match ← correctSelfIntersection a b with
      | none => pure acc
      | some r => pure (acc ++ [r]) : M (List Nat)) s (fun acc s' => NewRings n acc s') (fun _ s' => J none' n s') := by
  refine Post.bind ((correctSelfIntersection_post h.2).mono (fun o s' ho => ?_) fun _ _ h => h.mono fun _ => False.elim)
  cases o with
  | none => exact Post.pure ⟨h.1, ho⟩
  | some r =>
    refine Post.pure ⟨?_, ho.2.mono fun i hi => by simpa [or_comm] using hi⟩
    rw [List.nodup_append]
    exact ⟨h.1, by simp, fun a ha b hb he => ho.1 (by rw [List.mem_singleton] at hb; rw [← hb, ← he]; exact ha)⟩

theorem correctRepeatedPoints_post {n : Nat} {nodes acc : List Nat} {a b : Nat} {s : St} (h : NewRings n acc s) :
    Post (correctRepeatedPoints acc nodes a b) s (fun acc s' => NewRings n acc s') (fun _ s' => J none' n s') := by
  unfold correctRepeatedPoints
  generalize (nodes.take b).drop a = l
  have inner : ∀ (node : Nat) (l acc : List Nat) (s : St), NewRings n acc s →
      Post (forPairs.inner (fun node next acc => do
        match ← correctSelfIntersection node next with
        | none => pure acc
        | some r => pure (acc ++ [r])) node l acc) s (fun acc s' => NewRings n acc s') (fun _ s' => J none' n s') := by
    intro node l
    induction l with
    | nil => intro acc s h; exact Post.pure h
    | cons c l ih =>
      intro acc s h
      rw [forPairs.inner]
      refine Post.bind (Post.imp (Q := fun acc s' => NewRings n acc s') ?_ fun acc s' h' => ih acc s' h')
      refine Post.bind (Post.getNode ?_)
      exact Post.ite (fun _ => Post.pure h) fun _ => splitPair_post h
  induction l generalizing acc s with
  | nil => exact Post.pure h
  | cons c l ih =>
    rw [forPairs]
    refine Post.bind (Post.imp (Q := fun acc s' => NewRings n acc s') ?_ fun acc s' h' => ih h')
    refine Post.bind (Post.getNode ?_)
    exact Post.ite (fun _ => Post.pure h) fun _ => inner _ _ _ _ h

theorem findAndCorrect_post {n r : Nat} {s : St} (h : J none' n s) :
    Post (findAndCorrectRepeatedPoints r) s (fun acc s' => NewRings n acc s') (fun _ s' => J none' n s') := by
  unfold findAndCorrectRepeatedPoints
  refine FR.step (X := none') inferInstance h (fun s h _ => h) fun nodes s h => ?_
  refine Post.loopM (fun st s' => NewRings n st.2.2.2 s') (fun st s hs => ?_) (fun _ _ h => h.weak)
    (x := (0, 0, 1, [])) ⟨by simp, h.mono fun i hi => by simp at hi⟩
  obtain ⟨count, prev, index, acc⟩ := st
  simp only at hs ⊢
  split
  · exact Post.pure hs
  · refine NewRings.step (fun X => inferInstance) hs fun p s hs => ?_
    refine NewRings.step (fun X => inferInstance) hs fun q s hs => ?_
    refine Post.ite (fun _ => ?_) fun _ => ?_
    · refine Post.ite (fun _ => Post.pure hs) fun _ => ?_
      exact Post.bind ((correctRepeatedPoints_post hs).imp fun _ s' h' => Post.pure h')
    · refine Post.ite (fun _ => Post.pure hs) fun _ => ?_
      exact Post.bind ((correctRepeatedPoints_post hs).imp fun _ s' h' => Post.pure h')

/-! ## Parents of the new rings -/

/-- What a search for a parent guarantees: `ring` is listed if the search succeeds, and still is not otherwise. -/
def Found (X : Nat → Prop) (n ring : Nat) (b : Bool) (s : St) : Prop :=
  if b = true then J X n s else J (fun i => X i ∨ i = ring) n s

theorem anyChild_post {n ring : Nat} {p : Nat → M Bool}
    (hp : ∀ c s, J (fun i => X i ∨ i = ring) n s → Post (p c) s (Found X n ring) (fun _ s' => J X n s'))
    (l : List (Option Nat)) : ∀ s, J (fun i => X i ∨ i = ring) n s →
    Post (anyChild p l) s (Found X n ring) (fun _ s' => J X n s') := by
  induction l with
  | nil => intro s h; exact Post.pure (by simpa [Found] using h)
  | cons c l ih =>
    intro s h
    cases c with
    | none => rw [anyChild]; exact ih s h
    | some c =>
      rw [anyChild]
      refine Post.bind ((hp c s h).imp fun b s' hb => ?_)
      cases b with
      | true => exact Post.pure hb
      | false => exact ih s' (by simpa [Found] using hb)

theorem findParentInTree_post {n ring : Nat} (hX : ¬ X ring) (k : Nat) : ∀ (q : Nat) (s : St), J (fun i => X i ∨ i = ring) n s →
    Post (findParentInTree k ring q) s (Found X n ring) (fun _ s' => J X n s') := by
  induction k with
  | zero => intro q s h; exact Post.raise (h.mono fun _ => Or.inl)
  | succ k ih =>
    intro q s h
    rw [findParentInTree]
    refine Post.bind (Post.getRing ?_)
    refine Post.bind ((anyChild_post (X := X) (n := n) (ring := ring) ?_ _ s h).imp fun b s' hb => ?_)
    · intro c s h
      exact Post.bind (Post.getRing (anyChild_post (fun g s h => ih g s h) _ s h))
    · refine Post.ite (fun hbt => Post.pure (by simpa [Found, hbt] using hb)) fun hbf => ?_
      have hb' : J (fun i => X i ∨ i = ring) n s' := by simpa [Found, hbf] using hb
      refine FR.step (X := fun i => X i ∨ i = ring) inferInstance hb' (fun s h _ => h.mono fun _ => Or.inl) fun b s'' h'' => ?_
      refine Post.ite (fun _ => ?_) fun _ => Post.pure (by simpa [Found] using h'')
      refine Post.bind ((Post.reassignAsChild (h''.mono fun _ => Or.inl) (h''.1.free ring (Or.inr rfl)).1 hX).imp fun _ s3 h3 => ?_)
      exact Post.pure (by simpa [Found] using h3)

theorem findAmongPrevious_post {n ring original : Nat} {same : Bool} {newRings : List Nat} (hX : ¬ X ring) (l : List Nat) :
    ∀ (s : St), J (fun i => X i ∨ i = ring) n s →
    Post (findAmongPrevious ring original same newRings l) s (Found X n ring) (fun _ s' => J X n s') := by
  induction l with
  | nil => intro s h; exact Post.pure (by simpa [Found] using h)
  | cons prev l ih =>
    intro s h
    rw [findAmongPrevious]
    refine Post.bind (Post.gets (Post.bind (Post.getRing (Post.bind (Post.getRing ?_)))))
    refine Post.ite (fun _ => ih s h) fun _ => ?_
    refine Post.bind (Post.imp (Q := Found X n ring) ?_ fun b s' hb => ?_)
    · refine Post.ite (fun _ => ?_) fun _ => ?_
      · refine Post.bind ((anyChild_post (fun c s h => findParentInTree_post hX _ c s h) _ s h).imp fun b s' hb => ?_)
        refine Post.ite (fun hbt => ?_) fun hbf => Post.pure (by simpa [Found, hbf] using hb)
        have hb' : J X n s' := by simpa [Found, hbt] using hb
        exact FR.step inferInstance hb' (fun s h _ => h) fun _ s'' h'' => Post.pure (by simpa [Found] using h'')
      · refine Post.bind ((findParentInTree_post hX _ prev s h).imp fun b s' hb => ?_)
        refine Post.ite (fun hbt => ?_) fun hbf => Post.pure (by simpa [Found, hbf] using hb)
        have hb' : J X n s' := by simpa [Found, hbt] using hb
        refine Post.bind (Post.getRing ?_)
        exact FR.step inferInstance hb' (fun s h _ => h) fun _ s'' h'' => Post.pure (by simpa [Found] using h'')
    · exact Post.ite (fun hbt => Post.pure (by simpa [Found, hbt] using hb)) fun hbf => ih s' (by simpa [Found, hbf] using hb)

theorem NewRings.cons {n r : Nat} {l : List Nat} {s : St} (h : NewRings n (r :: l) s) :
    r ∉ l ∧ J (fun i => i ∈ l ∨ i = r) n s := by
  have := List.nodup_cons.1 h.1
  exact ⟨this.1, h.2.mono fun i hi => by simpa [or_comm] using hi⟩

theorem J.none {n : Nat} {s : St} (h : J X n s) : J none' n s := h.mono fun _ => False.elim

theorem assignLoop_post {n original : Nat} {pos : Bool} {newRings : List Nat} (l : List Nat) : ∀ (done : List Nat) (s : St),
    NewRings n l s → Post (assignNewRingParentsLoop original pos newRings done l) s (fun _ s' => J none' n s') (fun _ s' => J none' n s') := by
  induction l with
  | nil => intro done s h; rw [assignNewRingParentsLoop]; exact Post.pure h.weak
  | cons ring l ih =>
    intro done s h
    rw [assignNewRingParentsLoop]
    refine Post.bind (Post.gets ?_)
    refine NewRings.step (fun X => inferInstance) h fun area s h => ?_
    obtain ⟨hm, hJ⟩ := h.cons
    have hnd : l.Nodup := (List.nodup_cons.1 h.1).2
    have htail : ∀ s', J (· ∈ l) n s' → Post (assignNewRingParentsLoop original pos newRings (done ++ [ring]) l) s'
      (fun _ s' => J none' n s') (fun _ s' => J none' n s') := fun s' h' => ih _ s' ⟨hnd, h'⟩
    have hE : ∀ s, J (· ∈ l) n s → ∀ _ : Err, J none' n s := fun s h _ => h.none
    refine Post.bind ((findAmongPrevious_post hm done s hJ).mono (fun b s' hb => ?_) fun e s h => h.none)
    refine Post.ite (fun hbt => ?_) fun hbf => ?_
    · exact Post.bind (Post.pure (htail s' (by simpa [Found, hbt] using hb)))
    · have hb' : J (fun i => i ∈ l ∨ i = ring) n s' := by simpa [Found, hbf] using hb
      refine Post.ite (fun _ => ?_) fun _ => ?_
      · refine Post.bind (Post.getRing ?_)
        refine Post.bind ((anyChild_post (fun c s h => findParentInTree_post hm _ c s h) _ s' hb').mono (fun b s2 hb2 => ?_)
          fun e s h => h.none)
        refine Post.ite (fun hbt => ?_) fun hbf => ?_
        · have h2 : J (· ∈ l) n s2 := by simpa [Found, hbt] using hb2
          exact FR.step inferInstance h2 hE fun _ s3 h3 => htail s3 h3
        · have h2 : J (fun i => i ∈ l ∨ i = ring) n s2 := by simpa [Found, hbf] using hb2
          refine Post.bind (Post.getRing ?_)
          refine Post.bind ((Post.assignAsChild h2 hm).mono (fun _ s3 h3 => ?_) fun e s h => h.none)
          exact FR.step inferInstance h3 hE fun _ s4 h4 => htail s4 h4
      · refine Post.bind ((findParentInTree_post hm _ _ s' hb').mono (fun b s2 hb2 => ?_) fun e s h => h.none)
        refine Post.ite (fun hbt => ?_) fun hbf => ?_
        · have h2 : J (· ∈ l) n s2 := by simpa [Found, hbt] using hb2
          refine Post.bind (Post.getRing ?_)
          exact FR.step inferInstance h2 hE fun _ s3 h3 => htail s3 h3
        · have h2 : J (fun i => i ∈ l ∨ i = ring) n s2 := by simpa [Found, hbf] using hb2
          exact Post.bind (Post.raise h2.none)

theorem filterM'_post {R : St → St → Prop} [Preo R] {α : Type} {p : α → M Bool} (hp : ∀ a, Pres R (p a)) (l : List α) (s : St) :
    Post (filterM' p l) s (fun l' s' => l'.Sublist l ∧ R s s') (fun _ s' => R s s') := by
  induction l generalizing s with
  | nil => exact Post.pure ⟨List.Sublist.refl _, Preo.refl _⟩
  | cons a l ih =>
    rw [filterM']
    refine Post.bind ((Post.of_pres (s := s) (hp a)).imp fun b s' hb => ?_)
    refine Post.bind ((ih s').mono (fun l' s'' h => ?_) fun _ s'' h => Preo.trans hb h)
    refine Post.pure ⟨?_, Preo.trans hb h.2⟩
    split
    · exact h.1.cons_cons a
    · exact h.1.cons a

theorem mapM'_post {R : St → St → Prop} [Preo R] {α β : Type} {f : α → M β} (g : β → α) (hf : ∀ a s, Post (f a) s (fun b s' => g b = a ∧ R s s') (fun _ s' => R s s'))
    (l : List α) (s : St) : Post (mapM' f l) s (fun l' s' => l'.map g = l ∧ R s s') (fun _ s' => R s s') := by
  induction l generalizing s with
  | nil => exact Post.pure ⟨rfl, Preo.refl _⟩
  | cons a l ih =>
    rw [mapM']
    refine Post.bind ((hf a s).imp fun b s' hb => ?_)
    refine Post.bind ((ih s').mono (fun l' s'' h => ?_) fun _ s'' h => Preo.trans hb.2 h)
    exact Post.pure ⟨by rw [List.map_cons, hb.1, h.1], Preo.trans hb.2 h.2⟩

theorem pySorted_perm {α : Type} (lt : α → α → Bool) (l : List α) : (pySorted lt l).Perm l := by
  have ins : ∀ (a : α) (l : List α), (sortedInsert lt a l).Perm (a :: l) := by
    intro a l
    induction l with
    | nil => simp [sortedInsert]
    | cons b l ih =>
      rw [sortedInsert]
      split
      · exact (List.Perm.cons b ih).trans (List.Perm.swap a b l)
      · exact List.Perm.refl _
  induction l with
  | nil => exact List.Perm.refl _
  | cons a l ih => exact (ins a _).trans (List.Perm.cons a ih)

theorem sortByArea_post (l : List Nat) (s : St) :
    Post (sortByArea l) s (fun l' s' => l'.Perm l ∧ FR X s s') (fun _ s' => FR X s s') := by
  unfold sortByArea
  refine Post.bind ((mapM'_post (R := FR X) Prod.fst (fun a s => ?_) l s).imp fun l' s' h => Post.pure ⟨?_, h.2⟩)
  · refine Post.bind ((Post.of_pres (s := s) (inferInstance : Pres (FR X) (ringArea a))).imp fun _ s' h => Post.pure ⟨rfl, h⟩)
  · rw [← h.1]
    exact (pySorted_perm _ l').map _

theorem assignNewRingParents_post {n original : Nat} {l : List Nat} {s : St} (h : NewRings n l s) :
    Post (assignNewRingParents original l) s (fun _ s' => J none' n s') (fun _ s' => J none' n s') := by
  unfold assignNewRingParents
  refine Post.bind ((filterM'_post (R := FR (· ∈ l)) (p := ringHasArea) (fun a => inferInstance) l s).mono (fun l' s' h' => ?_)
    fun _ s' h' => (h' n h.2).none)
  have h1 : NewRings n l' s' := ⟨h.1.sublist h'.1, (h'.2 n h.2).mono fun i hi => h'.1.subset hi⟩
  clear h h'
  split
  · exact Post.pure h1.weak
  · next r =>
    refine NewRings.step (fun X => inferInstance) h1 fun _ s h => ?_
    refine NewRings.step (fun X => inferInstance) h fun _ s h => ?_
    have hJ : J (fun i => none' i ∨ i = r) n s := h.2.mono fun i hi => by simpa [none'] using hi
    have hE : ∀ s, J none' n s → ∀ _ : Err, J none' n s := fun s h _ => h
    refine Post.ite (fun _ => ?_) fun _ => ?_
    · refine Post.bind (Post.getRing (Post.bind ((Post.assignAsChild hJ id).imp fun _ s h => ?_)))
      exact FR.post inferInstance h
    · refine Post.bind ((Post.assignAsChild hJ id).imp fun _ s h => ?_)
      exact Post.bind (Post.getRing (FR.post inferInstance h))
  · refine NewRings.step (fun X => inferInstance) h1 fun _ s h => ?_
    refine Post.bind ((sortByArea_post (X := (· ∈ l')) l' s).mono (fun l2 s2 h2 => ?_) fun _ s2 h2 => (h2 n h.2).none)
    exact assignLoop_post l2 _ s2 ⟨h2.1.nodup_iff.2 h.1, (h2.2 n h.2).mono fun i hi => h2.1.mem_iff.1 hi⟩

/-! ## The rest of the topology correction -/

abbrev F0 := FR none'

instance ft01 (r : Nat) (b : Bool) : Pres F0 (correctRingSelfIntersections r b) := by
  refine FR.of_post fun n s h => ?_
  unfold correctRingSelfIntersections
  refine Post.bind (Post.getRing (Post.ite (fun _ => Post.pure h) fun _ => ?_))
  refine Post.bind ((findAndCorrect_post h).imp fun l s h => ?_)
  have htail : ∀ s, J none' n s → Post (do modRing r fun g => { g with corrected := true }; pure true : M Bool) s
      (fun _ s' => J none' n s') (fun _ s' => J none' n s') := fun s h => FR.post (by pres) h
  refine Post.ite (fun _ => ?_) fun _ => htail s h.weak
  exact Post.bind ((assignNewRingParents_post h).imp fun _ s h => htail s h)

instance ft02 (a b : Nat) : Pres (FR X) (correctSelfIntersection a b) := by unfold correctSelfIntersection; pres
instance ft03 (c : Bool) (l : List Nat) (b : Bool) : Pres F0 (correctSelfIntersections.go c l b) := by
  induction l generalizing b with
  | nil => rw [correctSelfIntersections.go]; pres
  | cons a l ih => rw [correctSelfIntersections.go]; pres
instance ft04 (b : Bool) : Pres F0 (correctSelfIntersections b) := by unfold correctSelfIntersections; pres
instance ft05 : Pres (FR X) correctOrientations := by unfold correctOrientations; pres
instance ft06 (a b : Nat) : Pres (FR X) (removeDuplicatePoints a b) := by unfold removeDuplicatePoints; pres
instance ft07 (a b : Nat) : Pres (FR X) (processCollinearEdgesDifferentRings a b) := by unfold processCollinearEdgesDifferentRings; pres
instance ft08 (a b : Nat) : Pres (FR X) (processCollinearEdgesSameRing a b) := by unfold processCollinearEdgesSameRing; pres
instance ft09 (a b : Nat) : Pres (FR X) (processCollinearEdges a b) := by unfold processCollinearEdges; pres
instance ft10 (l : List Nat) (a b : Nat) : Pres (FR X) (correctCollinearRepeats l a b) := by unfold correctCollinearRepeats; pres
instance ft11 : Pres (FR X) correctCollinearEdges := by
  unfold correctCollinearEdges
  have := fun l => Pres.forRunsP (R := FR X) l (f := fun a b => correctCollinearRepeats l a b) fun _ _ => inferInstance
  pres

theorem reversedSortedRings_post (s : St) :
    Post reversedSortedRings s (fun l s' => (∀ r ∈ l, r < s.nr) ∧ F0 s s') (fun _ s' => F0 s s') := by
  unfold reversedSortedRings ringKeys
  refine Post.bind (Post.bind (Post.gets ?_))
  refine (mapM'_post (R := F0) Prod.fst (fun a s => ?_) (List.range s.nr) s).imp fun l' s' h => Post.pure ⟨fun r hr => ?_, h.2⟩
  · refine Post.bind (Post.getRing (Post.ite (fun _ => ?_) fun _ => Post.pure ⟨rfl, Preo.refl _⟩))
    exact Post.bind ((Post.of_pres (s := s) (inferInstance : Pres F0 (ringArea a))).imp fun _ s' h => Post.pure ⟨rfl, h⟩)
  · have : r ∈ l'.map Prod.fst := ((pySorted_perm _ l').map Prod.fst).mem_iff.1 hr
    rw [h.1] at this
    exact List.mem_range.1 this

theorem correctTreeLoop_post {n : Nat} (l : List Nat) : ∀ (before : List Nat) (s : St), (∀ r ∈ l, r < n) → J none' n s →
    Post (correctTreeLoop before l) s (fun _ s' => J none' n s') (fun _ s' => J none' n s') := by
  induction l with
  | nil => intro before s _ h; exact Post.pure h
  | cons r l ih =>
    intro before s hl h
    have htail : ∀ s, J none' n s → Post (correctTreeLoop (r :: before) l) s (fun _ s' => J none' n s') (fun _ s' => J none' n s') :=
      fun s h => ih _ s (fun i hi => hl i (by simp [hi])) h
    have hre : ∀ s p, J none' n s → Post (reassignAsChild r p) s (fun _ s' => J none' n s') (fun _ s' => J none' n s') :=
      fun s p h => Post.reassignAsChild h (Nat.lt_of_lt_of_le (hl r (by simp)) h.2) id
    have hE : ∀ s, J none' n s → ∀ _ : Err, J none' n s := fun s h _ => h
    rw [correctTreeLoop]
    refine Post.bind (Post.getRing (Post.ite (fun _ => ?_) fun _ => htail s h))
    refine FR.step inferInstance h hE fun _ s h => ?_
    refine FR.step (by pres) h hE fun _ s h => ?_
    refine Post.ite (fun _ => FR.step inferInstance h hE fun _ s h => htail s h) fun _ => ?_
    refine FR.step inferInstance h hE fun _ s h => ?_
    refine FR.step inferInstance h hE fun o s h => ?_
    split
    · exact Post.bind ((hre s _ h).imp fun _ s h => htail s h)
    · refine FR.step inferInstance h hE fun _ s h => ?_
      exact Post.ite (fun _ => Post.bind (Post.raise h)) fun _ => Post.bind ((hre s _ h).imp fun _ s h => htail s h)

instance ft12 : Pres F0 correctTree := by
  refine FR.of_post fun n s h => ?_
  unfold correctTree
  refine Post.bind ((reversedSortedRings_post s).mono (fun l s' hl => ?_) fun _ s' h' => h' n h)
  have h1 : J none' s.nr s' := hl.2 _ ⟨h.1, Nat.le_refl _⟩
  exact (correctTreeLoop_post l [] s' hl.1 h1).mono (fun _ _ h' => ⟨h'.1, Nat.le_trans h.2 h'.2⟩) (fun _ _ h' => ⟨h'.1, Nat.le_trans h.2 h'.2⟩)

instance ft13 (cm : ConnectionMap) (il : List LoopItem) (r : Nat) (rp : Option Nat) (a b : Nat) : Pres F0 (mergeLoop cm il r rp a b) := by
  refine FR.of_post fun n s h => ?_
  have hE : ∀ s, J none' n s → ∀ _ : Err, J none' n s := fun s h _ => h
  unfold mergeLoop
  refine FR.step inferInstance h hE fun hole s h => ?_
  refine FR.step inferInstance h hE fun _ s h => ?_
  refine FR.step (Pres.forList (fun _ => inferInstance) _) h hE fun _ s h => ?_
  refine Post.bind (Post.createRing h fun s1 _ _ h1 hX => ?_)
  generalize s.nr = new at h1 hX ⊢
  have hE1 : ∀ s, J (fun i => none' i ∨ i = new) n s → ∀ _ : Err, J none' n s := fun s h _ => h.none
  refine FR.step inferInstance h1 hE1 fun _ s h => ?_
  refine FR.step inferInstance h hE1 fun st1 s h => ?_
  refine FR.step inferInstance h hE1 fun st2 s h => ?_
  have end' : ∀ s, J none' n s → Post (do
      let (cm, moved) ← clearLoopPairs il cm
      let (kept, moved') ← originPairs r (cm r)
      let cm := upd cm r kept
      pure ((moved ++ moved').foldl (fun cm it => upd cm it.1 (cm it.1 ++ [(it.2.1, it.2.2)])) cm) : M ConnectionMap) s
      (fun _ s' => J none' n s') (fun _ s' => J none' n s') := fun s h => FR.post (by pres) h
  have tail : ∀ s, J (fun i => none' i ∨ i = new) n s → Post (do
      updatePoints r
      updatePoints new
      modRing r fun g => { g with bottomNode := none }
      forList il fun it => do
        modRing it.1 fun g => { g with bottomNode := none }
        if hole then replaceRing it.1 (some r)
        else replaceRing it.1 (← getRing r).parent
      if hole then
        assignAsChild new (some r)
        let p ← deref rp
        forChildren (some p) fun c => do
          if ← ringInsideOf c new then reassignAsChild c (some new)
      else
        assignAsSibling new r
        forChildren (some r) fun c => do
          if ← ringInsideOf c new then reassignAsChild c (some new)
      let (cm, moved) ← clearLoopPairs il cm
      let (kept, moved') ← originPairs r (cm r)
      let cm := upd cm r kept
      pure ((moved ++ moved').foldl (fun cm it => upd cm it.1 (cm it.1 ++ [(it.2.1, it.2.2)])) cm) : M ConnectionMap) s
      (fun _ s' => J none' n s') (fun _ s' => J none' n s') := by
    intro s h
    refine FR.step inferInstance h hE1 fun _ s h => ?_
    refine FR.step inferInstance h hE1 fun _ s h => ?_
    refine FR.step inferInstance h hE1 fun _ s h => ?_
    refine FR.step (Pres.forList (fun _ => by pres) _) h hE1 fun _ s h => ?_
    refine Post.ite (fun _ => ?_) fun _ => ?_
    · refine Post.bind ((Post.assignAsChild h hX).imp fun _ s h => ?_)
      refine FR.step inferInstance h hE fun p s h => ?_
      exact FR.step (insideReassign _ _) h hE fun _ s h => end' s h
    · refine Post.bind ((Post.assignAsSibling h hX).imp fun _ s h => ?_)
      exact FR.step (insideReassign _ _) h hE fun _ s h => end' s h
  refine Post.ite (fun _ => ?_) fun _ => ?_
  all_goals
    refine FR.step inferInstance h hE1 fun _ s h => ?_
    refine FR.step inferInstance h hE1 fun _ s h => ?_
    refine FR.step inferInstance h hE1 fun _ s h => ?_
    refine FR.step inferInstance h hE1 fun _ s h => ?_
    exact tail s h

instance ft14 (a b : Nat) (cm : ConnectionMap) : Pres F0 (processSingleIntersection a b cm) := by
  unfold processSingleIntersection
  have := fun l => Pres.mapM' (R := F0) (f := fun (p : Nat × Nat) => do pure (← getNode p.2).ring) (fun _ => by pres) l
  pres
instance ft15 (l : List Nat) (a b : Nat) (cm : ConnectionMap) : Pres F0 (correctChainedRepeats l a b cm) :=
  Pres.forPairsP (fun _ _ _ => inferInstance) _ _
instance ft16 : Pres F0 correctChainedRings := by unfold correctChainedRings; pres
instance ft17 : Pres F0 correctTopology := by unfold correctTopology; pres

end

end Wagyu
