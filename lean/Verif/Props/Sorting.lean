import Verif.Spec.Sorting
import Verif.Model.Wagyu
import Verif.Proofs.KeepTopology
import Verif.Props.Floats
import Verif.Proofs.Post

/-!
# C56: what is sorted is sorted by a consistent order, except crossings
-/

namespace Wagyu

open Spec

section
variable {α : Type} {lt : α → α → Bool} {P : α → Prop}

theorem level_self (h : StrictWeak P lt) {a : α} (ha : P a) : level lt a a = true := by
  unfold level; rw [h.irrefl a ha]; rfl

/-- Lists sorted alike are equal. -/
theorem sorted_unique (h : StrictWeak P lt) : ∀ (l l' : List α), (∀ a ∈ l, P a) → (∀ a ∈ l', P a) →
    l.Pairwise (fun a b => lt b a = false) → l'.Pairwise (fun a b => lt b a = false) →
    (∀ a, P a → l.filter (level lt a) = l'.filter (level lt a)) → l = l' := by
  intro l
  induction l with
  | nil =>
    intro l' _ h2 _ _ hf
    cases l' with
    | nil => rfl
    | cons a t =>
      have := hf a (h2 a (List.mem_cons_self ..))
      rw [List.filter_cons, level_self h (h2 a (List.mem_cons_self ..)), if_pos rfl] at this
      cases this
  | cons x l ih =>
    intro l' h1 h2 s1 s2 hf
    have px := h1 x (List.mem_cons_self ..)
    cases l' with
    | nil =>
      have := hf x px
      rw [List.filter_cons, level_self h px, if_pos rfl] at this
      cases this
    | cons y l' =>
      have py := h2 y (List.mem_cons_self ..)
      have mx : x ∈ y :: l' := by
        have : x ∈ (x :: l).filter (level lt x) := List.mem_filter.2 ⟨List.mem_cons_self .., level_self h px⟩
        rw [hf x px] at this
        exact (List.mem_filter.1 this).1
      have my : y ∈ x :: l := by
        have : y ∈ (y :: l').filter (level lt y) := List.mem_filter.2 ⟨List.mem_cons_self .., level_self h py⟩
        rw [← hf y py] at this
        exact (List.mem_filter.1 this).1
      have a1 : lt x y = false := by
        rcases List.mem_cons.1 mx with rfl | mx
        · exact h.irrefl _ px
        · exact (List.pairwise_cons.1 s2).1 x mx
      have a2 : lt y x = false := by
        rcases List.mem_cons.1 my with rfl | my
        · exact h.irrefl _ py
        · exact (List.pairwise_cons.1 s1).1 y my
      have lxy : level lt x y = true := by unfold level; rw [a1, a2]; rfl
      have e := hf x px
      rw [List.filter_cons, level_self h px, if_pos rfl, List.filter_cons, lxy, if_pos rfl] at e
      obtain ⟨rfl, -⟩ := List.cons.inj e
      congr 1
      refine ih l' (fun a ha => h1 a (List.mem_cons_of_mem _ ha)) (fun a ha => h2 a (List.mem_cons_of_mem _ ha))
        (List.pairwise_cons.1 s1).2 (List.pairwise_cons.1 s2).2 fun a ha => ?_
      have := hf a ha
      rw [List.filter_cons, List.filter_cons] at this
      split at this
      · exact (List.cons.inj this).2
      · exact this

theorem sortedInsert_mem_iff {x a : α} {l : List α} : a ∈ sortedInsert lt x l ↔ a = x ∨ a ∈ l := by
  induction l with
  | nil => simp [sortedInsert]
  | cons y l ih =>
    unfold sortedInsert
    split
    · rw [List.mem_cons, ih, List.mem_cons]; tauto
    · rw [List.mem_cons]

theorem sortedInsert_keeps (h : StrictWeak P lt) {x : α} {l : List α} (px : P x) (hl : ∀ a ∈ l, P a) (hs : l.Pairwise fun a b => lt b a = false) :
    (sortedInsert lt x l).Pairwise fun a b => lt b a = false := by
  induction l with
  | nil => simp [sortedInsert]
  | cons y l ih =>
    have py := hl y (List.mem_cons_self ..)
    obtain ⟨s1, s2⟩ := List.pairwise_cons.1 hs
    have hl' : ∀ a ∈ l, P a := fun a ha => hl a (List.mem_cons_of_mem _ ha)
    unfold sortedInsert
    split
    · next hyx =>
      refine List.pairwise_cons.2 ⟨fun a ha => ?_, ih hl' s2⟩
      rcases sortedInsert_mem_iff.1 ha with rfl | ha
      · by_contra hc
        have := h.trans _ _ _ py px py hyx (by simpa using hc)
        rw [h.irrefl y py] at this
        cases this
      · exact s1 a ha
    · next hyx =>
      have hyx : lt y x = false := by simpa using hyx
      refine List.pairwise_cons.2 ⟨fun a ha => ?_, hs⟩
      rcases List.mem_cons.1 ha with rfl | ha
      · exact hyx
      · by_contra hc
        have hax : lt a x = true := by simpa using hc
        have pa := hl' a ha
        have hay := s1 a ha
        by_cases hya : lt y a = true
        · have := h.trans _ _ _ py pa px hya hax
          rw [hyx] at this; cases this
        · have hya : lt y a = false := by simpa using hya
          by_cases hxy : lt x y = true
          · have := h.trans _ _ _ pa px py hax hxy
            rw [hay] at this; cases this
          · have hxy : lt x y = false := by simpa using hxy
            have := (h.levels _ _ _ pa py px hay hya hyx hxy).1
            rw [hax] at this; cases this

theorem sortedInsert_filter (h : StrictWeak P lt) {x a : α} {l : List α} (pa : P a) (px : P x) (hl : ∀ b ∈ l, P b) :
    (sortedInsert lt x l).filter (level lt a) = (x :: l).filter (level lt a) := by
  induction l with
  | nil => rfl
  | cons y l ih =>
    have py := hl y (List.mem_cons_self ..)
    unfold sortedInsert
    split
    · next hyx =>
      rw [List.filter_cons, ih fun b hb => hl b (List.mem_cons_of_mem _ hb)]
      simp only [List.filter_cons]
      by_cases h1 : level lt a x = true
      · by_cases h2 : level lt a y = true
        · exfalso
          unfold level at h1 h2
          simp only [Bool.and_eq_true, Bool.not_eq_true'] at h1 h2
          have := (h.levels _ _ _ py pa px h2.2 h2.1 h1.1 h1.2).1
          rw [hyx] at this; cases this
        · simp only [Bool.not_eq_true] at h2
          simp [h1, h2]
      · simp only [Bool.not_eq_true] at h1
        simp [h1]
    · rfl

/-- **C56.** For a strict weak order there is one stable way to sort, whatever the algorithm, and it is what the model's `sorted`
computes. -/
theorem C56_sorted_unique (h : StrictWeak P lt) (l l' : List α) (hl : ∀ a ∈ l, P a) : StableSort lt l l' ↔ l' = pySorted lt l := by
  have key : ∀ l : List α, (∀ a ∈ l, P a) → (pySorted lt l).Pairwise (fun a b => lt b a = false)
      ∧ ∀ a, P a → (pySorted lt l).filter (level lt a) = l.filter (level lt a) := by
    intro l
    induction l with
    | nil => exact fun _ => ⟨.nil, fun _ _ => rfl⟩
    | cons x l ih =>
      intro hl
      have hl' : ∀ a ∈ l, P a := fun a ha => hl a (List.mem_cons_of_mem _ ha)
      have px := hl x (List.mem_cons_self ..)
      have hs : ∀ a ∈ pySorted lt l, P a := fun a ha => hl' a ((pySorted_perm' lt l).mem_iff.1 ha)
      obtain ⟨h1, h2⟩ := ih hl'
      refine ⟨sortedInsert_keeps h px hs h1, fun a pa => ?_⟩
      show (sortedInsert lt x (pySorted lt l)).filter _ = _
      rw [sortedInsert_filter h pa px hs, List.filter_cons, List.filter_cons, h2 a pa]
  obtain ⟨k1, k2⟩ := key l hl
  constructor
  · intro hs
    have hl' : ∀ a ∈ l', P a := fun a ha => hl a (hs.perm.mem_iff.1 ha)
    refine sorted_unique h _ _ hl' (fun a ha => hl a ((pySorted_perm' lt l).mem_iff.1 ha)) hs.sorted k1 fun a pa => ?_
    rw [k2 a pa]
    by_cases hm : ∃ b ∈ l, level lt a b = true
    · obtain ⟨b, hb, hab⟩ := hm
      have pb := hl b hb
      have : ∀ c, P c → level lt a c = level lt b c := by
        intro c pc
        unfold level at hab ⊢
        simp only [Bool.and_eq_true, Bool.not_eq_true'] at hab
        rw [Bool.eq_iff_iff]
        simp only [Bool.and_eq_true, Bool.not_eq_true']
        constructor
        · intro hc; exact h.levels _ _ _ pb pa pc hab.2 hab.1 hc.1 hc.2
        · intro hc; exact h.levels _ _ _ pa pb pc hab.1 hab.2 hc.1 hc.2
      have e : ∀ m : List α, (∀ c ∈ m, P c) → m.filter (level lt a) = m.filter (level lt b) := fun m hm =>
        List.filter_congr fun c hc => this c (hm c hc)
      rw [e l' hl', e l hl, hs.stable b hb]
    · push Not at hm
      have e : ∀ m : List α, (∀ c ∈ m, c ∈ l) → m.filter (level lt a) = [] := fun m hm' =>
        List.filter_eq_nil_iff.2 fun c hc => hm c (hm' c hc)
      rw [e l' fun c hc => hs.perm.mem_iff.1 hc, e l fun c hc => hc]
  · rintro rfl
    exact ⟨pySorted_perm' _ _, k1, fun a ha => k2 a (hl a ha)⟩

/-- The opposite comparison, for `sorted(..., reverse=True)`, which is stable too. -/
theorem StrictWeak.flip (h : StrictWeak P lt) : StrictWeak P fun a b => lt b a where
  irrefl := h.irrefl
  trans a b c pa pb pc h1 h2 := h.trans c b a pc pb pa h2 h1
  levels a b c pa pb pc h1 h2 h3 h4 := h.levels a b c pa pb pc h2 h1 h4 h3 |>.symm

end

/-- **C56.** `LocalMinimum.__lt__`. -/
theorem C56_local_minimum : StrictWeak (fun _ => True) LocalMinimum.lt := by
  constructor
  · intro a _
    unfold LocalMinimum.lt
    cases a.hasHorizontal <;> simp
  · intro a b c _ _ _
    unfold LocalMinimum.lt
    cases a.hasHorizontal <;> cases b.hasHorizontal <;> cases c.hasHorizontal <;> simp <;> omega
  · intro a b c _ _ _
    unfold LocalMinimum.lt
    cases a.hasHorizontal <;> cases b.hasHorizontal <;> cases c.hasHorizontal <;> simp <;> omega

/-- **C56.** `node_key`, by which the nodes of a ring are sorted. -/
theorem C56_node_key : StrictWeak (fun _ => True) fun (a b : Nat × Point) =>
    decide (-a.2.y < -b.2.y) || (decide (-a.2.y = -b.2.y) && decide (a.2.x < b.2.x)) := by
  constructor
  · intro a _; simp
  · intro a b c _ _ _; simp; omega
  · intro a b c _ _ _; simp; omega

/-- **C56.** `PointNode.__lt__`, by which all nodes are sorted. -/
theorem C56_point_node : StrictWeak (fun _ => True) nodeLt := by
  have key : ∀ a b, nodeLt a b = true ↔ b.2.1.y < a.2.1.y ∨ b.2.1.y = a.2.1.y ∧ (b.2.1.x > a.2.1.x ∨ b.2.1.x = a.2.1.x ∧ b.2.2 < a.2.2) := by
    intro a b
    unfold nodeLt
    split
    · simp; omega
    · split
      · simp; omega
      · simp; omega
  have key' : ∀ a b, nodeLt a b = false ↔ ¬ (b.2.1.y < a.2.1.y ∨ b.2.1.y = a.2.1.y ∧ (b.2.1.x > a.2.1.x ∨ b.2.1.x = a.2.1.x ∧ b.2.2 < a.2.2)) := by
    intro a b; rw [← key, Bool.not_eq_true]
  constructor
  · intro a _; rw [key']; omega
  · intro a b c _ _ _; rw [key, key, key]; omega
  · intro a b c _ _ _; simp only [key']; omega

/-- **C56.** `Ring.__lt__`, by which rings are sorted; the area of a ring with nodes is not nan. -/
theorem C56_ring : StrictWeak (fun k : Nat × Bool × F64 => k.2.1 = true → k.2.2 ≠ .nan) ringLt := by
  have key : StrictWeak (fun x : F64 => x ≠ .nan) F64.lt := by
    constructor
    · rintro (q | _ | _) h
      · simp [F64.lt]
      · simp [F64.lt]
      · exact absurd rfl h
    · rintro (a | a | _) (b | b | _) (c | c | _) ha hb hc <;> simp_all [F64.lt]
      · exact fun h1 h2 => h1.trans h2
    · rintro (a | a | _) (b | b | _) (c | c | _) ha hb hc <;> simp_all [F64.lt]
      · intro h1 h2 h3 h4
        exact ⟨h3.trans h1, h2.trans h4⟩
  constructor
  · rintro ⟨i, n, x⟩ h
    unfold ringLt
    cases n
    · simp
    · simpa using key.irrefl x (h rfl)
  · rintro ⟨i, n, x⟩ ⟨i', n', x'⟩ ⟨i'', n'', x''⟩ h h' h''
    unfold ringLt
    cases n <;> cases n' <;> cases n'' <;> simp
    exact key.trans _ _ _ (h rfl) (h' rfl) (h'' rfl)
  · rintro ⟨i, n, x⟩ ⟨i', n', x'⟩ ⟨i'', n'', x''⟩ h h' h''
    unfold ringLt
    cases n <;> cases n' <;> cases n'' <;> simp
    exact key.levels _ _ _ (h rfl) (h' rfl) (h'' rfl)

theorem fl_ne_nan (q : ℚ) : fl q ≠ .nan := by
  unfold fl
  split
  · simp
  · dsimp only
    split
    · simp
    · split <;> simp

theorem nodeStats_ne_nan (n : Nat) (s : St) : Ok (nodeStats n) s fun x _ => x.1 ≠ .nan := by
  unfold nodeStats
  refine Post.bind (Ok.intro fun p s1 _ => ?_)
  refine Post.bind (Ok.intro fun st s2 _ => ?_)
  exact Post.pure (fl_ne_nan _)

theorem ringArea_ne_nan (r : Nat) (s : St) (h : (s.rings r).node.isSome = true) : Ok (ringArea r) s fun a _ => a ≠ .nan := by
  unfold ringArea
  refine Post.bind (Post.getRing ?_)
  have fin : ∀ s', (s'.rings r).area ≠ .nan → Post (do pure (← getRing r).area : M F64) s' (fun a _ => a ≠ .nan) fun _ _ => True :=
    fun s' h => Post.bind (Post.getRing (Post.pure h))
  by_cases hn : (s.rings r).area.isNan = true
  · rw [if_pos hn]
    refine Post.bind ?_
    unfold recalculateStats
    refine Post.bind (Post.getRing ?_)
    obtain ⟨n, hn⟩ := Option.isSome_iff_exists.1 h
    rw [hn]
    refine Post.bind (Post.imp (nodeStats_ne_nan n s) ?_)
    rintro ⟨area, size, box⟩ s1 ha
    refine Post.modRing (fin _ ?_)
    simpa [upd] using ha
  · rw [if_neg hn]
    refine fin s fun e => hn ?_
    rw [e]; rfl

/-- **C56.** The keys by which rings are sorted are as `C56_ring` requires, in every state. -/
theorem C56_ring_keys (s s' : St) (keys : List (Nat × Bool × F64)) (h : ringKeys s = .ok keys s') :
    ∀ k ∈ keys, k.2.1 = true → k.2.2 ≠ .nan := by
  have : Ok ringKeys s fun keys _ => ∀ k ∈ keys, k.2.1 = true → k.2.2 ≠ .nan := by
    unfold ringKeys
    refine Post.bind (Post.gets ?_)
    generalize List.range s.nr = l
    clear h
    induction l generalizing s with
    | nil => exact Post.pure (by simp)
    | cons r l ih =>
      rw [mapM']
      refine Post.bind (Post.imp (Q := fun k _ => k.2.1 = true → k.2.2 ≠ .nan) ?_ fun k s1 hk => Post.bind (Post.imp (ih s1) fun ks s2 hks => Post.pure ?_))
      · refine Post.bind (Post.getRing (Post.ite (fun hn => ?_) fun _ => Post.pure (by simp)))
        refine Post.bind (Post.imp (ringArea_ne_nan r s hn) fun a s1 ha => Post.pure fun _ => ?_)
        cases a <;> simp_all [F64.abs]
      · intro k' hk'
        rcases List.mem_cons.1 hk' with rfl | hk'
        · exact hk
        · exact hks _ hk'
  exact this.elim h

/-- **C56.** `IntersectNode.__lt__`, by which crossings are sorted, is not consistent: three crossings can each come before the next
one, in a circle, so that whatever `sorted` returns for them is not in order. -/
theorem C56_crossings_in_a_circle : ∃ (bounds : Nat → Bound) (a b c : IntersectNode),
    IntersectNode.lt bounds a b = true ∧ IntersectNode.lt bounds b c = true ∧ IntersectNode.lt bounds c a = true
      ∧ ∀ l : List IntersectNode, l.Perm [a, b, c] → ¬ l.Pairwise fun x y => IntersectNode.lt bounds y x = false := by
  let bounds : Nat → Bound := fun i => { (default : Bound) with oppositeWindingCount := i }
  let a : IntersectNode := ⟨0, 0, ⟨.fin 0, .fin 1⟩⟩
  let b : IntersectNode := ⟨0, 1, ⟨.fin 0, .fin (1 + 4 / 2 ^ 52)⟩⟩
  let c : IntersectNode := ⟨1, 1, ⟨.fin 0, .fin (1 + 8 / 2 ^ 52)⟩⟩
  have h1 : IntersectNode.lt bounds a b = true := by decide +kernel
  have h2 : IntersectNode.lt bounds b c = true := by decide +kernel
  have h3 : IntersectNode.lt bounds c a = true := by decide +kernel
  refine ⟨bounds, a, b, c, h1, h2, h3, fun l hl hp => ?_⟩
  have ma : a ∈ l := hl.mem_iff.2 (by simp)
  have mb : b ∈ l := hl.mem_iff.2 (by simp)
  have mc : c ∈ l := hl.mem_iff.2 (by simp)
  cases l with
  | nil => cases ma
  | cons x t =>
    have hx := (List.pairwise_cons.1 hp).1
    have : x = a ∨ x = b ∨ x = c := by simpa using hl.mem_iff.1 (List.mem_cons_self ..)
    have ab : a ≠ b := by decide +kernel
    have bc : b ≠ c := by decide +kernel
    have ca : c ≠ a := by decide +kernel
    rcases this with rfl | rfl | rfl
    · have := hx c ((List.mem_cons.1 mc).resolve_left ca)
      rw [h3] at this; cases this
    · have := hx a ((List.mem_cons.1 ma).resolve_left ab)
      rw [h1] at this; cases this
    · have := hx b ((List.mem_cons.1 mb).resolve_left bc)
      rw [h2] at this; cases this

/-- A case of `C56_sorted_unique`: minima with the same y. -/
example : pySortedRev LocalMinimum.lt [⟨0, 1, 3, false⟩, ⟨2, 3, 5, false⟩, ⟨4, 5, 3, true⟩, ⟨6, 7, 3, false⟩]
    = [⟨2, 3, 5, false⟩, ⟨4, 5, 3, true⟩, ⟨0, 1, 3, false⟩, ⟨6, 7, 3, false⟩] := by decide

end Wagyu
