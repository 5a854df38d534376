import Verif.Proofs.Stats
import Verif.Proofs.Walks
import Verif.Model.Topology

/-!
# Cutting a circular list in two, joining two circular lists, and marking the nodes of a list
-/

namespace Wagyu

open Spec

/-! ## Marking -/

/-- The heap with the nodes in `l` attached to the ring `r`. -/
def withRing (l : List Nat) (r : Option Nat) (h : Nat → Node) : Nat → Node :=
  fun i => if i ∈ l then { h i with ring := r } else h i

theorem withRing_next (l : List Nat) (r : Option Nat) (h : Nat → Node) (i : Nat) : (withRing l r h i).next = (h i).next := by
  unfold withRing; split <;> rfl
theorem withRing_prev (l : List Nat) (r : Option Nat) (h : Nat → Node) (i : Nat) : (withRing l r h i).prev = (h i).prev := by
  unfold withRing; split <;> rfl

theorem withRing_cons {l : List Nat} {r : Option Nat} {h : Nat → Node} {c : Nat} :
    putRing (withRing l r h) c r = withRing (c :: l) r h := by
  funext i
  unfold putRing upd withRing
  by_cases e : i = c
  · subst e; by_cases hi : i ∈ l <;> simp [hi]
  · simp [e]

theorem withRing_congr {l l' : List Nat} {r : Option Nat} {h : Nat → Node} (e : ∀ i, i ∈ l ↔ i ∈ l') :
    withRing l r h = withRing l' r h := by
  funext i; unfold withRing; simp [e]

theorem isCycle_withRing {l k : List Nat} {r : Option Nat} {h : Nat → Node} (hk : IsCycle h k) : IsCycle (withRing l r h) k :=
  IsCycle_congr hk fun i _ => ⟨withRing_next _ _ _ _, withRing_prev _ _ _ _⟩

theorem mark_iter (s : St) (a r : Nat) : ∀ (l : List Nat) (c n : Nat) (vis : List Nat),
    (c :: l ++ [a]).IsChain (Link s.nodes) → a ∉ l → l.length < n →
    iter n (fun cursor => do
      setNodeRing cursor (some r)
      let cursor ← nextOf cursor
      if cursor = a then pure (.inr ()) else pure (.inl cursor)) c { s with nodes := withRing vis (some r) s.nodes }
      = .ok () { s with nodes := withRing (c :: l ++ vis) (some r) s.nodes } := by
  intro l
  induction l with
  | nil =>
    intro c n vis hc _ hn
    obtain ⟨n, rfl⟩ : ∃ m, n = m + 1 := ⟨n - 1, by simp at hn; omega⟩
    have : Link s.nodes c a := by simpa using hc
    rw [iter_inr (b := ()) (s' := { s with nodes := withRing (c :: vis) (some r) s.nodes })]
    · rfl
    · simp only [run_bind, run_setNodeRing, withRing_cons]
      rw [run_nextOf (j := a) (by rw [withRing_next]; exact this.1)]
      simp [run_pure]
  | cons d l ih =>
    intro c n vis hc ha hn
    obtain ⟨n, rfl⟩ : ∃ m, n = m + 1 := ⟨n - 1, by simp at hn; omega⟩
    rw [List.cons_append, List.cons_append, List.isChain_cons_cons] at hc
    have hda : d ≠ a := fun e => ha (by simp [e])
    rw [iter_inl (y := d) (s' := { s with nodes := withRing (c :: vis) (some r) s.nodes })]
    · rw [ih d n (c :: vis) (by simpa using hc.2) (fun e => ha (by simp [e])) (by simp at hn ⊢; omega)]
      congr 2
      exact withRing_congr (by intro i; simp; tauto)
    · simp only [run_bind, run_setNodeRing, withRing_cons]
      rw [run_nextOf (j := d) (by rw [withRing_next]; exact hc.1.1)]
      simp [run_pure, hda]

theorem updatePoints_run {s : St} {r a : Nat} {t : List Nat} (hr : (s.rings r).node = some a)
    (hl : IsCycle s.nodes (a :: t)) (hf : t.length < s.fuel) :
    updatePoints r s = .ok () { s with nodes := withRing (a :: t) (some r) s.nodes } := by
  unfold updatePoints forNodes
  simp only [run_bind, run_getRing, hr, run_deref_some, run_loopM]
  have h0 : s = { s with nodes := withRing [] (some r) s.nodes } := by
    have : withRing [] (some r) s.nodes = s.nodes := by funext i; simp [withRing]
    rw [this]
  have := mark_iter s a r t a s.fuel [] hl.2 (List.nodup_cons.1 hl.1).1 hf
  rw [← h0] at this
  rw [this]; simp

/-! ## Cutting -/

/-- The heap after the links before `first` and before `second` are exchanged. -/
def cut (h : Nat → Node) (first second third fourth : Nat) : Nat → Node :=
  putNext (putPrev (putNext (putPrev h first (some fourth)) fourth (some first)) second (some third)) third (some second)

theorem cut_def (h : Nat → Node) (first second third fourth : Nat) : cut h first second third fourth =
    putNext (putPrev (putNext (putPrev h first (some fourth)) fourth (some first)) second (some third)) third (some second) := rfl

theorem isCycle_cut {h : Nat → Node} {a b : Nat} {P Q : List Nat} (hl : IsCycle h (a :: P ++ b :: Q)) :
    ∃ third fourth, (h a).prev = some third ∧ (h b).prev = some fourth
      ∧ IsCycle (cut h a b third fourth) (a :: P) ∧ IsCycle (cut h a b third fourth) (b :: Q)
      ∧ OnlyLinksOf (a :: P ++ b :: Q) h (cut h a b third fourth) := by
  obtain ⟨hnd, hch, hclose⟩ := (isCycle_iff (by simp)).1 hl
  rw [List.isChain_append] at hch
  obtain ⟨hP, hQ, hmid⟩ := hch
  have hndP := (List.nodup_append.1 hnd).1
  have hndQ := (List.nodup_append.1 hnd).2.1
  have hdis : ∀ i ∈ a :: P, ∀ j ∈ b :: Q, i ≠ j := (List.nodup_append.1 hnd).2.2
  have hPl : (a :: P).getLast (by simp) ∈ a :: P := List.getLast_mem _
  have hQl : (b :: Q).getLast (by simp) ∈ b :: Q := List.getLast_mem _
  set fourth := (a :: P).getLast (by simp) with hfourth
  set third := (b :: Q).getLast (by simp) with hthird
  have hmid' : Link h fourth b := hmid fourth (by rw [List.getLast?_eq_getLast_of_ne_nil (by simp)]; rfl) b (by simp)
  have hclose' : Link h third a := by
    rw [List.getLast_append_of_ne_nil _ (by simp)] at hclose; exact hclose
  have hab : a ≠ b := hdis a (by simp) b (by simp)
  have h34 : fourth ≠ third := hdis _ hPl _ hQl
  refine ⟨third, fourth, hclose'.2, hmid'.2, ?_, ?_, ?_, ?_⟩
  · rw [isCycle_iff (by simp)]
    refine ⟨hndP, seg_congr hP ?_ ?_, ?_⟩
    · intro i hi
      have h1 : i ≠ fourth := ne_getLast_of_dropLast (by simp) hndP hi
      have h2 : i ≠ third := hdis i (List.mem_of_mem_dropLast hi) _ hQl
      unfold cut; links; simp [h1, h2]
    · intro i hi
      have h1 : i ≠ a := ne_head_of_tail (l := a :: P) (by simp) hndP hi
      have h2 : i ≠ b := hdis i (List.mem_of_mem_tail hi) b (by simp)
      unfold cut; links; simp [h1, h2]
    · show Link _ fourth a
      constructor
      · unfold cut; links; simp [h34]
      · unfold cut; links; simp [hab]
  · rw [isCycle_iff (by simp)]
    refine ⟨hndQ, seg_congr hQ ?_ ?_, ?_⟩
    · intro i hi
      have h1 : i ≠ third := ne_getLast_of_dropLast (by simp) hndQ hi
      have h2 : i ≠ fourth := (hdis _ hPl i (List.mem_of_mem_dropLast hi)).symm
      unfold cut; links; simp [h1, h2]
    · intro i hi
      have h1 : i ≠ b := ne_head_of_tail (l := b :: Q) (by simp) hndQ hi
      have h2 : i ≠ a := (hdis a (by simp) i (List.mem_of_mem_tail hi)).symm
      unfold cut; links; simp [h1, h2]
    · show Link _ third b
      constructor
      · unfold cut; links; simp
      · unfold cut; links; simp
  · intro i; unfold cut; links; simp
  · intro i hi
    have h1 : i ≠ a := fun e => hi (by simp [e])
    have h2 : i ≠ b := fun e => hi (by simp [e])
    have h3 : i ≠ third := fun e => hi (by rw [e]; exact List.mem_append_right _ hQl)
    have h4 : i ≠ fourth := fun e => hi (by rw [e]; exact List.mem_append_left _ hPl)
    unfold cut; rw [putNext_ne _ _ _ _ h3, putPrev_ne _ _ _ _ h2, putNext_ne _ _ _ _ h4, putPrev_ne _ _ _ _ h1]

/-! ## Joining -/

/-- The heap after the ends of two lists are linked: the last node `pl` of the first to the first node `qf` of the second,
and the last node `ql` of the second to the first node `pf` of the first. -/
theorem isCycle_joined {h h' : Nat → Node} {P Q : List Nat} (hP : P ≠ []) (hQ : Q ≠ []) (hn : (P ++ Q).Nodup)
    (h1 : P.IsChain (Link h)) (h2 : Q.IsChain (Link h))
    (e1 : ∀ i, (h' i).next = if i = P.getLast hP then some (Q.head hQ) else if i = Q.getLast hQ then some (P.head hP) else (h i).next)
    (e2 : ∀ i, (h' i).prev = if i = Q.head hQ then some (P.getLast hP) else if i = P.head hP then some (Q.getLast hQ) else (h i).prev) :
    IsCycle h' (P ++ Q) := by
  have hndP := (List.nodup_append.1 hn).1
  have hndQ := (List.nodup_append.1 hn).2.1
  have hdis : ∀ i ∈ P, ∀ j ∈ Q, i ≠ j := (List.nodup_append.1 hn).2.2
  have hPl := List.getLast_mem hP
  have hQl := List.getLast_mem hQ
  have hPf := List.head_mem hP
  have hQf := List.head_mem hQ
  refine isCycle_append hP hQ hn (seg_congr h1 ?_ ?_) (seg_congr h2 ?_ ?_) ?_ ?_
  · intro i hi
    have a1 := ne_getLast_of_dropLast hP hndP hi
    have a2 := hdis i (List.mem_of_mem_dropLast hi) _ hQl
    rw [e1]; simp [a1, a2]
  · intro i hi
    have a1 := ne_head_of_tail hP hndP hi
    have a2 := hdis i (List.mem_of_mem_tail hi) _ hQf
    rw [e2]; simp [a1, a2]
  · intro i hi
    have a1 := ne_getLast_of_dropLast hQ hndQ hi
    have a2 := (hdis _ hPl i (List.mem_of_mem_dropLast hi)).symm
    rw [e1]; simp [a1, a2]
  · intro i hi
    have a1 := ne_head_of_tail hQ hndQ hi
    have a2 := (hdis _ hPf i (List.mem_of_mem_tail hi)).symm
    rw [e2]; simp [a1, a2]
  · constructor
    · rw [e1]; simp
    · rw [e2]; simp
  · constructor
    · rw [e1]; simp [(hdis _ hPl _ hQl).symm]
    · rw [e2]; simp [hdis _ hPf _ hQf]

end Wagyu
