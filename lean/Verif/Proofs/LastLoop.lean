import Verif.Proofs.LastSelf
import Verif.Spec.LastStage

/-!
# The last stage
-/

namespace Wagyu

open Spec

/-! ## When the rings of the loops are distinct, nothing changes -/

/-- When `g` succeeds, `m` does the same. -/
def Narrows {α : Type} (g m : M α) : Prop := ∀ s a s', g s = .ok a s' → m s = .ok a s'

theorem Narrows.refl {α : Type} (m : M α) : Narrows m m := fun _ _ _ h => h
theorem Narrows.bind {α β : Type} {g m : M α} {f k : α → M β} (h : Narrows g m) (h' : ∀ a, Narrows (f a) (k a)) : Narrows (g >>= f) (m >>= k) := by
  intro s b s' e
  rw [run_bind] at e ⊢
  cases hg : g s with
  | ok a s1 => rw [hg] at e; rw [h s a s1 hg]; exact h' a s1 b s' e
  | err x s1 => rw [hg] at e; cases e
theorem Narrows.ite {α : Type} {c : Prop} [Decidable c] {g m f k : M α} (h : Narrows g m) (h' : Narrows f k) : Narrows (if c then g else f) (if c then m else k) := by
  split
  · exact h
  · exact h'
theorem Narrows.iter {σ α : Type} {f k : σ → M (σ ⊕ α)} (h : ∀ x, Narrows (f x) (k x)) : ∀ (n : Nat) (x : σ), Narrows (iter n f x) (iter n k x)
  | 0, _ => Narrows.refl _
  | n + 1, x => by
    rw [Wagyu.iter, Wagyu.iter]
    refine Narrows.bind (h x) fun r => ?_
    cases r with
    | inl y => exact Narrows.iter h n y
    | inr a => exact Narrows.refl _
theorem Narrows.loopM {σ α : Type} {f k : σ → M (σ ⊕ α)} (h : ∀ x, Narrows (f x) (k x)) (x : σ) : Narrows (loopM f x) (loopM k x) := fun s a s' e =>
  Narrows.iter h s.fuel x s a s' e
theorem Narrows.inner {σ : Type} {f k : Nat → Nat → σ → M σ} (h : ∀ a b c, Narrows (f a b c) (k a b c)) (a : Nat) : ∀ (l : List Nat) (acc : σ),
    Narrows (forPairs.inner f a l acc) (forPairs.inner k a l acc)
  | [], _ => Narrows.refl _
  | b :: l, acc => by
    rw [forPairs.inner, forPairs.inner]
    exact Narrows.bind (Narrows.bind (Narrows.refl _) fun _ => Narrows.ite (Narrows.refl _) (h _ _ _)) fun _ => Narrows.inner h a l _
theorem Narrows.forPairs {σ : Type} {f k : Nat → Nat → σ → M σ} (h : ∀ a b c, Narrows (f a b c) (k a b c)) : ∀ (l : List Nat) (acc : σ),
    Narrows (forPairs f l acc) (forPairs k l acc)
  | [], _ => Narrows.refl _
  | b :: l, acc => by
    rw [Wagyu.forPairs, Wagyu.forPairs]
    exact Narrows.bind (Narrows.bind (Narrows.refl _) fun _ => Narrows.ite (Narrows.refl _) (Narrows.inner h _ _ _)) fun _ => Narrows.forPairs h l _

theorem narrows_merge (cm : ConnectionMap) (l : List LoopItem) (O : Nat) (p : Option Nat) (a b : Nat) : Narrows (mergeSimple cm l O p a b) (mergeLoop cm l O p a b) := by
  intro s x s' e
  unfold mergeSimple at e
  split at e
  · exact e
  · cases e
theorem narrows_process (a b : Nat) (cm : ConnectionMap) : Narrows (processWith mergeSimple a b cm) (processSingleIntersection a b cm) := by
  rw [← processWith_merge]
  unfold processWith
  repeat' first
    | with_reducible exact Narrows.refl _
    | exact narrows_merge _ _ _ _ _ _
    | (refine Narrows.bind ?_ fun _ => ?_)
    | (refine Narrows.ite ?_ ?_)
theorem narrows_chained : Narrows (chainedRingsWith mergeSimple) correctChainedRings := by
  rw [← chainedRingsWith_merge]
  unfold chainedRingsWith
  have key : ∀ n i j cm, Narrows (chainedRepeatsWith mergeSimple n i j cm) (chainedRepeatsWith mergeLoop n i j cm) := fun n i j cm =>
    Narrows.forPairs (fun a b c => narrows_process a b c) _ _
  refine Narrows.bind (Narrows.refl _) fun _ => Narrows.ite (Narrows.refl _) (Narrows.loopM (fun x => ?_) _)
  obtain ⟨i, j, k, cm⟩ := x
  dsimp only
  split
  · exact Narrows.refl _
  · repeat' first
      | with_reducible exact Narrows.refl _
      | exact key _ _ _ _
      | (refine Narrows.bind ?_ fun _ => ?_)
      | (refine Narrows.ite ?_ ?_)

/-! ## One pair of nodes -/

section
variable {s s' : St} {L L' : Nat → List Nat}

/-- The invariant, with the connections. -/
def Linked (s0 : St) (L0 : Nat → List Nat) (cm : ConnectionMap) (s : St) : Prop := ∃ L, LI s L ∧ Relinked s0 L0 s L ∧ Joints s L cm

theorem ok_mergeSimple (h : LI s L) {O a b : Nat} {l : List LoopItem} {cm : ConnectionMap} (hl : Round s L (O, a, b) l) (hcm : Joints s L cm) (rp : Option Nat) :
    Ok (mergeSimple cm l O rp a b) s fun cm' s' => Linked s L cm' s' := by
  unfold mergeSimple
  exact Post.ite (fun hn => ok_mergeLoop h (hl.loop hn) hcm rp) fun _ => trivial

set_option maxHeartbeats 1600000 in
theorem ok_process (h : LI s L) {j k : Nat} (hj : j < s.nn) (hk : k < s.nn) (hloc : locOf s.nodes j = locOf s.nodes k) {cm : ConnectionMap} (hcm : Joints s L cm) :
    Ok (processWith mergeSimple j k cm) s fun cm' s' => Linked s L cm' s' := by
  have done : ∀ {cm}, Joints s L cm → Linked s L cm s := fun hcm => ⟨L, h, Relinked.refl s L, hcm⟩
  unfold processWith
  refine Post.bind (Post.getNode (Post.bind (Post.getNode ?_)))
  dsimp only
  refine Post.ite (fun _ => Post.pure (done hcm)) fun hne => ?_
  refine Post.bind (Post.deref (fun rj ej => ?_) fun _ => trivial)
  refine Post.bind (Post.deref (fun rk ek => ?_) fun _ => trivial)
  have mj : j ∈ L rj := h.ti.own.kept j hj rj ej
  have mk : k ∈ L rk := h.ti.own.kept k hk rk ek
  have hr : rj ≠ rk := fun e => hne (by rw [ej, ek, e])
  refine Post.bind ((still_hole h.ti h.known rj).imp ?_)
  rintro bj _ rfl
  refine Post.bind ((still_hole h.ti h.known rk).imp ?_)
  rintro bk _ rfl
  refine Post.ite (fun _ => Post.pure (done hcm)) fun _ => ?_
  have pick : Ok (do
        if !bj then pure (rj, some rj, rk, j, k)
        else if !bk then pure (rk, some rk, rj, k, j)
        else pure (rj, (← getRing rj).parent, rk, j, k) : M (Nat × Option Nat × Nat × Nat × Nat)) s fun res s' => s = s' ∧ res.2.2.2.1 ∈ L res.1 ∧ res.2.2.2.2 ∈ L res.2.2.1
          ∧ locOf s.nodes res.2.2.2.1 = locOf s.nodes res.2.2.2.2 ∧ res.2.2.2.1 < s.nn ∧ res.2.2.2.2 < s.nn := by
    refine Post.ite (fun _ => Post.pure ⟨rfl, mj, mk, hloc, hj, hk⟩) fun _ => Post.ite (fun _ => Post.pure ⟨rfl, mk, mj, hloc.symm, hk, hj⟩) fun _ => ?_
    exact Post.bind (Post.getRing (Post.pure ⟨rfl, mj, mk, hloc, hj, hk⟩))
  refine Post.bind (pick.imp ?_)
  rintro ⟨O, rp, R, o1, o2⟩ _ ⟨rfl, h1, h2, hl, n1, n2⟩
  dsimp only at h1 h2 hl n1 n2 ⊢
  refine Post.bind (Post.getRing ?_)
  refine Post.ite (fun _ => Post.pure (done hcm)) fun _ => ?_
  refine Post.bind ((ok_directPair h.ti (O := O) (R := R) (o1 := o1) o2 hl.symm (cm R) [] false (fun p hp => hcm.at hp) (by simp)).imp ?_)
  rintro ⟨found, item, kept⟩ _ ⟨rfl, hkept, hitem⟩
  dsimp only at hkept hitem ⊢
  have hcm1 : Joints s L (upd cm R kept) := hcm.put hkept
  have search : Ok (do
          match item with
          | some it => pure (found, upd cm R kept, [it])
          | none =>
            let (f, cm, iList) ← chainPairs rp O R o2 kept (upd cm R kept) [] [R]
            pure (found || f, cm, iList) : M (Bool × ConnectionMap × List LoopItem)) s fun res s' => s = s' ∧ Joints s L res.2.1 ∧ (res.2.2 ≠ [] → Legs s L O o2 o2 R res.2.2) := by
    cases item with
    | some it => exact Post.pure ⟨rfl, hcm1, fun _ => hitem it rfl⟩
    | none =>
      refine Post.bind ((ok_chainPairs h.ti h.known rp kept (upd cm R kept) [] [R] hkept hcm1 (by simp)).imp ?_)
      rintro ⟨f, cm2, il⟩ _ ⟨rfl, q1, q2, q3⟩
      dsimp only at q1 q2 q3
      refine Post.pure ⟨rfl, q1, fun hne => ?_⟩
      cases f with
      | false => exact absurd (q3 rfl) hne
      | true =>
        obtain ⟨pre, p1, p2, -⟩ := q2 rfl
        rw [List.append_nil] at p1
        show Legs s L O o2 o2 R il
        rw [p1]; exact p2
  refine Post.bind (search.imp ?_)
  rintro ⟨f, cm2, il⟩ _ ⟨rfl, hcm2, hlegs⟩
  dsimp only at hcm2 hlegs ⊢
  have j1 : JointAt s L O (o1, o2) := ⟨h1, n2, hl⟩
  have j2 : JointAt s L R (o2, o1) := ⟨h2, n1, hl.symm⟩
  have snoc : ∀ {cm : ConnectionMap} {r : Nat} {p : Nat × Nat}, Joints s L cm → JointAt s L r p → Joints s L (upd cm r (cm r ++ [p])) := fun hc hp =>
    hc.put fun q hq => (List.mem_append.1 hq).elim hc.at fun e => by rw [List.mem_singleton.1 e]; exact hp
  refine Post.ite (fun _ => Post.pure (done (snoc (snoc hcm2 j1) j2))) fun _ => ?_
  refine Post.ite (fun _ => ?_) fun hil => ?_
  · have look : Ok (do
            let pairs := cm2 O
            let rings ← mapM' (fun (p : Nat × Nat) => do pure (← getNode p.2).ring) pairs
            pure (rings.contains (some R)) : M Bool) s fun _ s' => s = s' := by
      have : ∀ l : List (Nat × Nat), Ok (mapM' (fun (p : Nat × Nat) => do pure (← getNode p.2).ring) l) s fun _ s' => s = s' := by
        intro l
        induction l with
        | nil => exact Post.pure rfl
        | cons p l ih =>
          rw [mapM']
          refine Post.bind (Post.bind (Post.getNode (Post.pure ?_)))
          refine Post.bind (ih.imp ?_)
          rintro _ _ rfl
          exact Post.pure rfl
      refine Post.bind ((this _).imp ?_)
      rintro _ _ rfl
      exact Post.pure rfl
    refine Post.bind (look.imp ?_)
    rintro p _ rfl
    exact Post.ite (fun _ => Post.pure (done hcm2)) fun _ => Post.pure (done (snoc hcm2 j1))
  · have hne' : il ≠ [] := fun e => hil (by rw [e]; rfl)
    have hround := (hlegs hne').loop h1 h2 hl
    have choose : Ok (do
            if ← ringIsHole O then
              match ← chooseOrigin O o1 o2 [] il with
              | (iList, some (r, p1, p2)) => pure (iList, r, some r, p1, p2)
              | (iList, none) => pure (iList, O, rp, o1, o2)
            else pure (il, O, rp, o1, o2)
            : M (List LoopItem × Nat × Option Nat × Nat × Nat)) s fun res s' => s = s' ∧ Round s L (res.2.1, res.2.2.2.1, res.2.2.2.2) res.1 := by
      refine Post.bind ((still_hole h.ti h.known O).imp ?_)
      rintro b _ rfl
      refine Post.ite (fun _ => ?_) fun _ => Post.pure ⟨rfl, hround⟩
      refine Post.bind ((ok_chooseOrigin h.ti h.known [] il hround).imp ?_)
      rintro ⟨l, _ | ⟨r, p1, p2⟩⟩ _ ⟨rfl, hx⟩
      · exact Post.pure ⟨rfl, hx⟩
      · exact Post.pure ⟨rfl, hx⟩
    refine Post.bind (choose.imp ?_)
    rintro ⟨l, O', rp', a, b⟩ _ ⟨rfl, hx⟩
    exact ok_mergeSimple h hx hcm2 rp'

/-! ## All pairs of nodes at a point -/

theorem ok_processIn {s0 : St} {L0 : Nat → List Nat} {cm : ConnectionMap} (h : Linked s0 L0 cm s) {j k : Nat} (hj : j < s0.nn) (hk : k < s0.nn)
    (hloc : locOf s0.nodes j = locOf s0.nodes k) : Ok (processWith mergeSimple j k cm) s fun cm' s' => Linked s0 L0 cm' s' := by
  obtain ⟨L, h1, h2, h3⟩ := h
  refine (ok_process h1 (by rw [h2.nn]; exact hj) (by rw [h2.nn]; exact hk) (by rw [h2.loc, h2.loc]; exact hloc) h3).imp ?_
  rintro cm' s' ⟨L', k1, k2, k3⟩
  exact ⟨L', k1, h2.trans k2, k3⟩

theorem ok_inner {s0 : St} {L0 : Nat → List Nat} {a : Nat} (ha : a < s0.nn) : ∀ (l : List Nat), (∀ b ∈ l, b < s0.nn ∧ locOf s0.nodes a = locOf s0.nodes b) →
    ∀ (cm : ConnectionMap) (s : St), Linked s0 L0 cm s →
    Ok (forPairs.inner (fun node next cm => processWith mergeSimple node next cm) a l cm) s fun cm' s' => Linked s0 L0 cm' s'
  | [], _, cm, s, h => by rw [forPairs.inner]; exact Post.pure h
  | b :: l, hl, cm, s, h => by
    rw [forPairs.inner]
    have hr : ∀ b ∈ l, b < s0.nn ∧ locOf s0.nodes a = locOf s0.nodes b := fun x hx => hl x (List.mem_cons_of_mem _ hx)
    refine Post.bind (Post.bind (Post.getNode ?_))
    refine Post.ite (fun _ => Post.pure (ok_inner ha l hr cm s h)) fun _ => ?_
    exact (ok_processIn h ha (hl b (by simp)).1 (hl b (by simp)).2).imp fun cm' s' h' => ok_inner ha l hr cm' s' h'

theorem ok_pairs {s0 : St} {L0 : Nat → List Nat} : ∀ (l : List Nat), (∀ b ∈ l, b < s0.nn) → (∀ a ∈ l, ∀ b ∈ l, locOf s0.nodes a = locOf s0.nodes b) →
    ∀ (cm : ConnectionMap) (s : St), Linked s0 L0 cm s →
    Ok (forPairs (fun node next cm => processWith mergeSimple node next cm) l cm) s fun cm' s' => Linked s0 L0 cm' s'
  | [], _, _, cm, s, h => by rw [forPairs]; exact Post.pure h
  | a :: l, hn, hl, cm, s, h => by
    rw [forPairs]
    have h1 : ∀ b ∈ l, b < s0.nn := fun b hb => hn b (List.mem_cons_of_mem _ hb)
    have h2 : ∀ a ∈ l, ∀ b ∈ l, locOf s0.nodes a = locOf s0.nodes b := fun x hx y hy => hl x (List.mem_cons_of_mem _ hx) y (List.mem_cons_of_mem _ hy)
    refine Post.bind (Post.bind (Post.getNode ?_))
    refine Post.ite (fun _ => Post.pure (ok_pairs l h1 h2 cm s h)) fun _ => ?_
    exact (ok_inner (hn a (by simp)) l (fun b hb => ⟨h1 b hb, hl a (by simp) b (by simp [hb])⟩) cm s h).imp fun cm' s' h' => ok_pairs l h1 h2 cm' s' h'

theorem mem_slice {l : List Nat} {i j x : Nat} (h : x ∈ (l.take j).drop i) : ∃ k, i ≤ k ∧ k < j ∧ l[k]? = some x := by
  obtain ⟨n, hn⟩ := List.mem_iff_getElem?.1 h
  rw [List.getElem?_drop] at hn
  refine ⟨i + n, by omega, ?_⟩
  rw [List.getElem?_take] at hn
  split at hn
  · exact ⟨by assumption, hn⟩
  · cases hn

theorem ok_slice {s0 : St} {L0 : Nat → List Nat} {nodes : List Nat} (hn : ∀ i ∈ nodes, i < s0.nn) {i j : Nat} {p : Point}
    (hl : ∀ k, i ≤ k → k < j → ∀ x, nodes[k]? = some x → locOf s0.nodes x = p) {cm : ConnectionMap} (h : Linked s0 L0 cm s) :
    Ok (chainedRepeatsWith mergeSimple nodes i j cm) s fun cm' s' => Linked s0 L0 cm' s' := by
  unfold chainedRepeatsWith
  refine ok_pairs _ (fun b hb => ?_) (fun a ha b hb => ?_) cm s h
  · obtain ⟨k, -, -, hk⟩ := mem_slice hb
    exact hn b (List.mem_of_getElem? hk)
  · obtain ⟨k, k1, k2, k3⟩ := mem_slice ha
    obtain ⟨q, q1, q2, q3⟩ := mem_slice hb
    rw [hl k k1 k2 a k3, hl q q1 q2 b q3]

/-! ## The scan over all nodes -/

theorem Post.readPoint {i : Nat} {Q : Point → St → Prop} {E : Err → St → Prop} (h : Q (locOf s.nodes i) s) : Post (pointOf i) s Q E := h

set_option maxHeartbeats 1600000 in
theorem ok_chained {s0 : St} {L0 : Nat → List Nat} (h : LI s L) (hr : Relinked s0 L0 s L) (hall : ∀ i ∈ s.allNodes, i < s.nn) :
    Ok (chainedRingsWith mergeSimple) s fun _ s' => ∃ L', LI s' L' ∧ Relinked s0 L0 s' L' := by
  unfold chainedRingsWith
  refine Post.bind (Post.gets ?_)
  refine Post.ite (fun _ => Post.pure ⟨L, h, hr⟩) fun hlen => ?_
  have hall0 : ∀ i ∈ s.allNodes, i < s0.nn := fun i hi => by rw [← hr.nn]; exact hall i hi
  set nodes := s.allNodes with hnodes
  let Same (i j : Nat) (p : Point) : Prop := ∀ k, i ≤ k → k < j → ∀ x, nodes[k]? = some x → locOf s0.nodes x = p
  refine Post.loopM (fun (st : Nat × Nat × Nat × ConnectionMap) s1 => Linked s0 L0 st.2.2.2 s1 ∧ (nodes.length ≤ st.2.2.1
      ∨ st.2.2.1 = st.2.1 + 1 ∧ st.1 ≤ st.2.1 ∧ Same (st.2.1 - st.1) (st.2.1 + 1) (locOf s0.nodes (nodes.getD st.2.1 0)))) ?_ (fun _ _ _ => trivial) ⟨⟨L, h, hr, fun r p hp => by cases hp⟩, Or.inr ⟨rfl, Nat.le_refl _, ?_⟩⟩
  · rintro ⟨count, prev, index, cm⟩ s1 ⟨hk, hi⟩
    dsimp only at hk hi ⊢
    have hloc : ∀ i, locOf s1.nodes i = locOf s0.nodes i := by obtain ⟨L1, -, h2, -⟩ := hk; exact h2.loc
    cases hb : nodes[index]? with
    | none =>
      obtain ⟨L1, h1, h2, -⟩ := hk
      exact Post.pure ⟨L1, h1, h2⟩
    | some b =>
      have hlt : index < nodes.length := by
        by_contra hc
        rw [List.getElem?_eq_none (by omega)] at hb; cases hb
      obtain ⟨rfl, hc, hs⟩ := hi.resolve_left (by omega)
      dsimp only
      refine Post.bind (Post.readPoint (Post.bind (Post.readPoint ?_)))
      have hgb : nodes.getD (prev + 1) 0 = b := by rw [List.getD_eq_getElem?_getD, hb]; rfl
      refine Post.ite (fun e => ?_) fun _ => ?_
      · have e' : locOf s0.nodes (nodes.getD prev 0) = locOf s0.nodes b := by rw [← hloc, ← hloc]; exact e
        have hs' : Same (prev - count) (prev + 1 + 1) (locOf s0.nodes b) := by
          intro k k1 k2 x hx
          by_cases ek : k < prev + 1
          · rw [hs k k1 ek x hx, e']
          · have : k = prev + 1 := by omega
            subst this
            rw [hb] at hx; cases hx; rfl
        refine Post.ite (fun _ => Post.pure ⟨hk, Or.inr ⟨rfl, Nat.succ_le_succ hc, ?_⟩⟩) fun hend => ?_
        · dsimp only
          rw [hgb, show prev + 1 - (count + 1) = prev - count by omega]
          exact hs'
        · refine Post.bind ((ok_slice hall0 (p := locOf s0.nodes b) ?_ hk).imp fun cm' s' h' => Post.pure ⟨h', Or.inl (by dsimp only; omega)⟩)
          rw [show prev + 1 + 1 - (count + 1 + 1) = prev - count by omega]
          exact hs'
      · have one : Same (prev + 1 - 0) (prev + 1 + 1) (locOf s0.nodes (nodes.getD (prev + 1) 0)) := by
          intro k k1 k2 x hx
          have : k = prev + 1 := by omega
          subst this
          rw [hgb]; rw [hb] at hx; cases hx; rfl
        refine Post.ite (fun _ => Post.pure ⟨hk, Or.inr ⟨rfl, Nat.zero_le _, one⟩⟩) fun _ => ?_
        refine Post.bind ((ok_slice hall0 (p := locOf s0.nodes (nodes.getD prev 0)) ?_ hk).imp fun cm' s' h' => Post.pure ⟨h', Or.inr ⟨rfl, Nat.zero_le _, one⟩⟩)
        rw [show prev + 1 - (count + 1) = prev - count by omega]
        exact hs
  · intro k k1 k2 x hx
    dsimp only at k2 ⊢
    have : k = 0 := by omega
    subst this
    rw [List.getD_eq_getElem?_getD, hx]; rfl

/-- The last stage. -/
theorem ok_lastStage (h : LI s L) (hall : ∀ i ∈ s.allNodes, i < s.nn) :
    Ok (lastStageWith mergeSimple) s fun _ s' => ∃ L', LI s' L' ∧ Relinked s L s' L' ∧ ∀ k, Once s' (L' k) := by
  unfold lastStageWith
  refine Post.loopM (fun _ s1 => ∃ L1, LI s1 L1 ∧ Relinked s L s1 L1) ?_ (fun _ _ _ => trivial) ⟨L, h, Relinked.refl s L⟩
  rintro _ s1 ⟨L1, h1, h2⟩
  refine Post.bind ((ok_chained h1 h2 (by rw [h2.all, h2.nn]; exact hall)).imp ?_)
  rintro _ s2 ⟨L2, k1, k2⟩
  refine Post.bind ((ok_correctSelfTrue k1).imp ?_)
  rintro b s3 ⟨L3, q1, q2, q3⟩
  refine Post.ite (fun _ => Post.pure ⟨L3, q1, k2.trans q2⟩) fun hb => Post.pure ⟨L3, q1, k2.trans q2, q3 (by simpa using hb)⟩

end

end Wagyu
