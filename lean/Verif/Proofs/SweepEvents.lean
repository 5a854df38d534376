import Verif.Proofs.SweepInv

/-!
# The events of the sweep keep the invariant
-/

namespace Wagyu

open Spec

/-! ## Lists with removed entries -/

theorem split_two {l : List (Option Nat)} {i j : Nat} {x y : Option Nat} (hij : i < j) (hi : l[i]? = some x)
    (hj : l[j]? = some y) (hn : ∀ k, i < k → k < j → l[k]? = some none) :
    ∃ P N Q, l = P ++ x :: (N ++ y :: Q) ∧ P.length = i ∧ i + 1 + N.length = j ∧ N.filterMap id = [] := by
  obtain ⟨hi', ei⟩ := List.getElem?_eq_some_iff.1 hi
  obtain ⟨hj', ej⟩ := List.getElem?_eq_some_iff.1 hj
  refine ⟨l.take i, (l.drop (i + 1)).take (j - i - 1), l.drop (j + 1), ?_, ?_, ?_, ?_⟩
  · have e1 : l.drop i = x :: l.drop (i + 1) := by rw [List.drop_eq_getElem_cons hi', ei]
    have e2 : (l.drop (i + 1)).drop (j - i - 1) = y :: l.drop (j + 1) := by
      rw [List.drop_drop, show i + 1 + (j - i - 1) = j by omega, List.drop_eq_getElem_cons hj', ej]
    rw [← e2, List.take_append_drop, ← e1, List.take_append_drop]
  · simp; omega
  · simp; omega
  · rw [List.filterMap_eq_nil_iff]
    intro a ha
    obtain ⟨k, hk⟩ := List.mem_iff_getElem?.1 ha
    rw [List.getElem?_take] at hk
    split at hk
    · rw [List.getElem?_drop] at hk
      rw [hn (i + 1 + k) (by omega) (by omega)] at hk
      rw [← Option.some.inj hk]; rfl
    · cases hk

theorem set_set_mid (P N Q : List (Option Nat)) (x y u v : Option Nat) (i j : Nat) (hi : P.length = i)
    (hj : i + 1 + N.length = j) :
    ((P ++ x :: (N ++ y :: Q)).set i u).set j v = P ++ u :: (N ++ v :: Q) := by
  subst hi
  subst hj
  rw [List.set_append_right _ _ (le_refl _)]
  simp only [Nat.sub_self, List.set_cons_zero]
  rw [List.set_append_right _ _ (by omega)]
  rw [show P.length + 1 + N.length - P.length = N.length + 1 by omega, List.set_cons_succ,
    List.set_append_right _ _ (le_refl _)]
  simp

theorem filterMap_two {P N Q : List (Option Nat)} (hN : N.filterMap id = []) (a b : Nat) :
    (P ++ some a :: (N ++ some b :: Q)).filterMap id = P.filterMap id ++ a :: b :: Q.filterMap id := by
  rw [List.filterMap_append, List.filterMap_cons_some (b := a) (by rfl), List.filterMap_append, hN,
    List.filterMap_cons_some (b := b) (by rfl)]
  rfl

section
variable {op : OperationKind} {sf cf : FillKind}

/-! ## Crossings -/

/-- The order of the active bounds is only used for the winding numbers. -/
theorem HotEnds.perm {s s' : St} (h : HotEnds s) (hb : s'.bounds = s.bounds) (hn : s'.nr = s.nr) (hp : ∀ c, c ∈ act s' ↔ c ∈ act s) :
    HotEnds s' := by
  unfold HotEnds at *
  simp only [hp, hb, hn]
  exact h

theorem crossing_allOk {s s' : St} {pre post : List Nat} {a b : Nat} (hact : act s = pre ++ a :: b :: post)
    (hi : SInv op sf cf s) (hab : a ≠ b) (hst : RStep (crossedWinding s sf cf a b) s' a b)
    (hout : ((s'.bounds a).ring.isSome, (s'.bounds b).ring.isSome) = crossedOut s op sf cf a b) :
    AllOk op sf cf (fun _ => 0) ((pre ++ b :: a :: post).map s'.bounds) := by
  have hnd := hi.nodup
  have hok := hi.ok
  rw [hact] at hnd hok
  have hf := hst.frame
  have hcw := crossedWinding_core s sf cf hab
  -- the fields of all bounds
  have hk : ∀ c, (s'.bounds c).polygonKind = (s.bounds c).polygonKind := by
    intro c
    have h1 : (s'.bounds c).polygonKind = _ := congrArg Core.polygonKind (hf.core c)
    have h2 := congrArg Core.polygonKind (hcw c)
    rw [h1]
    refine Eq.trans h2 ?_
    split
    · next e => subst e; rfl
    · split
      · next e => subst e; rfl
      · rfl
  have hd : ∀ c, (s'.bounds c).windingDelta = (s.bounds c).windingDelta := by
    intro c
    have h1 : (s'.bounds c).windingDelta = _ := congrArg Core.windingDelta (hf.core c)
    have h2 := congrArg Core.windingDelta (hcw c)
    rw [h1]
    refine Eq.trans h2 ?_
    split
    · next e => subst e; rfl
    · split
      · next e => subst e; rfl
      · rfl
  have hwa : (s'.bounds a).windingCount = (crossWinding (s.bounds a) (s.bounds b) sf cf).1 := by
    have h1 : (s'.bounds a).windingCount = _ := congrArg Core.windingCount (hf.core a)
    have h2 := congrArg Core.windingCount (hcw a)
    rw [if_pos rfl] at h2
    exact h1.trans h2
  have hoa : (s'.bounds a).oppositeWindingCount = (crossWinding (s.bounds a) (s.bounds b) sf cf).2.1 := by
    have h1 : (s'.bounds a).oppositeWindingCount = _ := congrArg Core.oppositeWindingCount (hf.core a)
    have h2 := congrArg Core.oppositeWindingCount (hcw a)
    rw [if_pos rfl] at h2
    exact h1.trans h2
  have hwb : (s'.bounds b).windingCount = (crossWinding (s.bounds a) (s.bounds b) sf cf).2.2.1 := by
    have h1 : (s'.bounds b).windingCount = _ := congrArg Core.windingCount (hf.core b)
    have h2 := congrArg Core.windingCount (hcw b)
    rw [if_neg hab.symm, if_pos rfl] at h2
    exact h1.trans h2
  have hob : (s'.bounds b).oppositeWindingCount = (crossWinding (s.bounds a) (s.bounds b) sf cf).2.2.2 := by
    have h1 : (s'.bounds b).oppositeWindingCount = _ := congrArg Core.oppositeWindingCount (hf.core b)
    have h2 := congrArg Core.oppositeWindingCount (hcw b)
    rw [if_neg hab.symm, if_pos rfl] at h2
    exact h1.trans h2
  have hrest : ∀ c, c ≠ a → c ≠ b → (s'.bounds c).polygonKind = (s.bounds c).polygonKind
      ∧ (s'.bounds c).windingDelta = (s.bounds c).windingDelta ∧ (s'.bounds c).windingCount = (s.bounds c).windingCount
      ∧ (s'.bounds c).oppositeWindingCount = (s.bounds c).oppositeWindingCount
      ∧ (s'.bounds c).ring.isSome = (s.bounds c).ring.isSome := by
    intro c h1 h2
    have hc := hcw c
    rw [if_neg h1, if_neg h2] at hc
    have e1 : (s'.bounds c).windingCount = _ := congrArg Core.windingCount (hf.core c)
    have e2 : (s'.bounds c).oppositeWindingCount = _ := congrArg Core.oppositeWindingCount (hf.core c)
    refine ⟨hk c, hd c, e1.trans (congrArg Core.windingCount hc), e2.trans (congrArg Core.oppositeWindingCount hc), ?_⟩
    rw [hst.isSome c h1 h2, core_ring hc]
  rw [List.map_append, allOk_append, List.map_cons, List.map_cons] at hok ⊢
  obtain ⟨ok1, wa, ca, wb, cb, ok2⟩ := hok
  have hpre : ∀ c ∈ pre, c ≠ a ∧ c ≠ b := by
    intro c hc
    have := (List.nodup_append.1 hnd).2.2 c hc
    exact ⟨this a (by simp), this b (by simp)⟩
  have hpost : ∀ c ∈ post, c ≠ a ∧ c ≠ b := by
    intro c hc
    have h1 := (List.nodup_append.1 hnd).2.1
    rw [List.nodup_cons, List.nodup_cons] at h1
    exact ⟨by rintro rfl; exact h1.1 (by simp [hc]), by rintro rfl; exact h1.2.1 hc⟩
  have ok1' := allOk_congr pre _ (fun c hc => hrest c (hpre c hc).1 (hpre c hc).2) ok1
  refine ⟨ok1', ?_⟩
  rw [addAll_congr (f := s.bounds) pre _ fun c _ => ⟨hk c, hd c⟩]
  generalize addAll (fun _ => 0) (pre.map s.bounds) = w at *
  have hw := cross_wok wa wb (hk a) (hd a) (hk b) (hd b) (a' := s'.bounds a) (b' := s'.bounds b) (by
    rw [hwa, hoa, hwb, hob])
  have hc := cross_con ca cb (hk a) (hd a) (hk b) (hd b) (a' := s'.bounds a) (b' := s'.bounds b) hw.1 hw.2 (by
    rw [hout, hwa, hoa, hwb, hob]; rfl)
  refine ⟨hw.1, hc.1, hw.2, hc.2, ?_⟩
  rw [Wind.add_congr _ (hk a) (hd a), Wind.add_congr w (hk b) (hd b), Wind.add_comm]
  exact allOk_congr post _ (fun c hc => hrest c (hpost c hc).1 (hpost c hc).2) ok2

/-- Crossing two neighbours and exchanging them keeps the invariant, and what never changes of bounds. -/
theorem crossing_inv {s : St} {p : Point} {i j a b : Nat} (hi : SInv op sf cf s) (hij : i < j)
    (ha : s.abl[i]? = some (some a)) (hb : s.abl[j]? = some (some b)) (hn : ∀ k, i < k → k < j → s.abl[k]? = some none) :
    Ok (intersectBounds p op sf cf a b) s fun _ s1 => s1.abl = s.abl ∧ Ok (ablSwap i j) s1 fun _ s' =>
      SInv op sf cf s' ∧ s'.abl = (s.abl.set i (some b)).set j (some a) ∧ s.nr ≤ s'.nr
        ∧ ∀ c, (s'.bounds c).polygonKind = (s.bounds c).polygonKind ∧ (s'.bounds c).windingDelta = (s.bounds c).windingDelta
          ∧ (s'.bounds c).maximumBound = (s.bounds c).maximumBound ∧ (s'.bounds c).edges = (s.bounds c).edges := by
  obtain ⟨P, N, Q, hl, hP, hN, hNn⟩ := split_two hij ha hb hn
  have hact : act s = P.filterMap id ++ a :: b :: Q.filterMap id := by
    unfold act; rw [hl]; exact filterMap_two hNn a b
  have hnd := hi.nodup
  rw [hact] at hnd
  have hab : a ≠ b := by
    have := (List.nodup_append.1 hnd).2.1
    rw [List.nodup_cons] at this
    rintro rfl; exact this.1 (by simp)
  refine (intersectBounds_ok s p op sf cf hab).imp ?_
  rintro _ s1 ⟨hst, hout⟩
  have hf := hst.frame
  have habl : s1.abl = s.abl := hf.abl
  refine ⟨habl, ?_⟩
  unfold ablSwap
  have hg : ∀ (k : Nat) (v : Option Nat), s.abl[k]? = some v → ablGet k s1 = .ok v s1 := by
    intro k v h; unfold ablGet; rw [habl, h]
  refine Post.bind (Post.run (hg i _ ha) (Post.bind (Post.run (hg j _ hb) ?_)))
  refine Post.bind (Post.modify (Post.modify ?_))
  show SInv op sf cf { s1 with abl := (s1.abl.set i (some b)).set j (some a) } ∧ _
  have hset : (s1.abl.set i (some b)).set j (some a) = P ++ some b :: (N ++ some a :: Q) := by
    rw [habl, hl, set_set_mid P N Q _ _ _ _ i j hP hN]
  rw [hset]
  have hact' : act { s1 with abl := P ++ some b :: (N ++ some a :: Q) } = P.filterMap id ++ b :: a :: Q.filterMap id := by
    exact filterMap_two hNn b a
  have hact1 : act s1 = act s := by unfold act; rw [habl]
  have hnr : s.nr ≤ s1.nr := hf.nr
  refine ⟨⟨?_, ?_, ?_⟩, ?_, hnr, fun c => ?_⟩
  · rw [hact']
    exact (List.Perm.append_left _ (List.Perm.swap b a _)).nodup_iff.1 hnd
  · rw [hact']
    have := crossing_allOk hact hi hab hst hout
    exact this
  · have hE : HotEnds s1 := by
      refine HotEnds.rstep (t := crossedWinding s sf cf a b) hi.ends rfl rfl (fun c => ?_) hst hab (by rw [hact]; simp) (by rw [hact]; simp)
      have := crossedWinding_core s sf cf hab c
      constructor
      · refine (congrArg Core.ring this).trans ?_
        split
        · next e => subst e; rfl
        · split
          · next e => subst e; rfl
          · rfl
      · refine (congrArg Core.side this).trans ?_
        split
        · next e => subst e; rfl
        · split
          · next e => subst e; rfl
          · rfl
    refine hE.perm rfl rfl fun c => ?_
    rw [hact', hact1, hact]
    simp only [List.mem_append, List.mem_cons]; tauto
  · show P ++ _ = _
    rw [← hset, habl]
  · have hcw := crossedWinding_core s sf cf hab c
    have hc := hf.core c
    have key : ∀ {β : Type} (g : Core → β), (∀ x : Core, ∀ r sd, g { x with ring := r, side := sd } = g x) →
        (∀ x : Core, ∀ r sd, g { x with windingCount := r, oppositeWindingCount := sd } = g x) →
        g (core (s1.bounds c)) = g (core (s.bounds c)) := by
      intro β g h1 h2
      rw [hc, h1, hcw]
      split
      · next e => subst e; rw [h2]
      · split
        · next e => subst e; rw [h2]
        · rfl
    exact ⟨key Core.polygonKind (fun _ _ _ => rfl) (fun _ _ _ => rfl), key Core.windingDelta (fun _ _ _ => rfl) (fun _ _ _ => rfl),
      key Core.maximumBound (fun _ _ _ => rfl) (fun _ _ _ => rfl), key Core.edges (fun _ _ _ => rfl) (fun _ _ _ => rfl)⟩

end

end Wagyu
