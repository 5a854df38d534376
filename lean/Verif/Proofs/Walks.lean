import Verif.Proofs.Run
import Verif.Model.PointNode

/-!
# Iterating, reversing and inserting into a circular list (point_node.py)
-/

namespace Wagyu

open Spec

theorem chain_prev {h : Nat → Node} {a : Nat} {t : List Nat} (hl : IsCycle h (a :: t)) :
    (a :: t.reverse ++ [a]).IsChain fun x y => Link h y x := by
  have := hl.2
  rw [← List.isChain_reverse] at this
  simpa using this

theorem nodesFrom_run {s : St} {a : Nat} {t : List Nat} (hl : IsCycle s.nodes (a :: t)) (hf : t.length < s.fuel) :
    nodesFrom a s = .ok (a :: t) s := by
  unfold nodesFrom
  rw [run_loopM, walk (R := Link s.nodes) (start := a) (g := fun i acc => i :: acc) (fin := List.reverse) (l := t)]
  · congr 1
    have : ∀ (l acc : List Nat), l.foldl (fun acc i => i :: acc) acc = l.reverse ++ acc := by
      intro l
      induction l with
      | nil => simp
      | cons b l ih => intro acc; simp [ih]
    rw [this]; simp
  · intro c c' acc hc
    simp only [run_bind, run_nextOf hc.1]
    by_cases e : c' = a
    · rw [if_pos e, if_pos e]; rfl
    · rw [if_neg e, if_neg e]; rfl
  · exact hl.2
  · exact (List.nodup_cons.1 hl.1).1
  · exact hf

theorem nodesBackFrom_run {s : St} {a : Nat} {t : List Nat} (hl : IsCycle s.nodes (a :: t)) (hf : t.length < s.fuel) :
    nodesBackFrom a s = .ok (a :: t.reverse) s := by
  unfold nodesBackFrom
  rw [run_loopM, walk (R := fun x y => Link s.nodes y x) (start := a) (g := fun i acc => i :: acc) (fin := List.reverse) (l := t.reverse)]
  · congr 1
    have : ∀ (l acc : List Nat), l.foldl (fun acc i => i :: acc) acc = l.reverse ++ acc := by
      intro l
      induction l with
      | nil => simp
      | cons b l ih => intro acc; simp [ih]
    rw [this]; simp
  · intro c c' acc hc
    simp only [run_bind, run_prevOf hc.2]
    by_cases e : c' = a
    · rw [if_pos e, if_pos e]; rfl
    · rw [if_neg e, if_neg e]; rfl
  · exact chain_prev hl
  · simpa using (List.nodup_cons.1 hl.1).1
  · simpa using hf

/-! ## Reversing -/

/-- The heap with the links of the nodes in `l` exchanged. -/
def swapLinks (l : List Nat) (h : Nat → Node) : Nat → Node :=
  fun i => if i ∈ l then { h i with next := (h i).prev, prev := (h i).next } else h i

theorem swapLinks_cons {l : List Nat} {h : Nat → Node} {c : Nat} (hc : c ∉ l) :
    upd (swapLinks l h) c { swapLinks l h c with next := (swapLinks l h c).prev, prev := (swapLinks l h c).next }
      = swapLinks (c :: l) h := by
  funext i
  unfold upd swapLinks
  by_cases e : i = c
  · subst e; simp [hc]
  · simp [e]

theorem swapLinks_congr {l l' : List Nat} {h : Nat → Node} (e : ∀ i, i ∈ l ↔ i ∈ l') : swapLinks l h = swapLinks l' h := by
  funext i; unfold swapLinks; simp [e]

theorem reverse_iter (s : St) (a : Nat) :
    ∀ (l : List Nat) (c n : Nat) (vis : List Nat), (c :: l ++ [a]).IsChain (fun x y => Link s.nodes y x) → a ∉ l →
      (c :: l).Nodup → (∀ i ∈ vis, i ∉ c :: l) → l.length < n →
      iter n (fun cursor => do
        (fun i => modNode i fun n => { n with next := n.prev, prev := n.next }) cursor
        let cursor ← nextOf cursor
        if cursor = a then pure (.inr ()) else pure (.inl cursor)) c { s with nodes := swapLinks vis s.nodes }
      = .ok () { s with nodes := swapLinks (c :: l ++ vis) s.nodes } := by
  intro l
  induction l with
  | nil =>
    intro c n vis hc _ _ hv hn
    obtain ⟨n, rfl⟩ : ∃ m, n = m + 1 := ⟨n - 1, by simp at hn; omega⟩
    have hl : Link s.nodes a c := by simpa using hc
    have hcv : c ∉ vis := fun e => hv c e (by simp)
    apply iter_inr
    simp only [run_bind, run_modNode, swapLinks_cons hcv]
    rw [run_nextOf (j := a) (by simp [swapLinks, hl.2])]
    simp [run_pure]
  | cons d l ih =>
    intro c n vis hc ha hnd hv hn
    obtain ⟨n, rfl⟩ : ∃ m, n = m + 1 := ⟨n - 1, by simp at hn; omega⟩
    rw [List.cons_append, List.cons_append, List.isChain_cons_cons] at hc
    have hda : d ≠ a := fun e => ha (by simp [e])
    have hcv : c ∉ vis := fun e => hv c e (by simp)
    rw [iter_inl (y := d) (s' := { s with nodes := swapLinks (c :: vis) s.nodes })]
    · rw [ih d n (c :: vis) (by simpa using hc.2) (fun e => ha (by simp [e])) (List.nodup_cons.1 hnd).2 ?_ (by simp at hn ⊢; omega)]
      · congr 2
        exact swapLinks_congr (by intro i; simp; tauto)
      · intro i hi
        rcases List.mem_cons.1 hi with rfl | hi
        · exact (List.nodup_cons.1 hnd).1
        · intro h; exact hv i hi (List.mem_cons_of_mem _ h)
    · simp only [run_bind, run_modNode, swapLinks_cons hcv]
      rw [run_nextOf (j := d) (by simp [swapLinks, hc.1.2])]
      simp [run_pure, hda]

theorem reverseNodes_run {s : St} {a : Nat} {t : List Nat} (hl : IsCycle s.nodes (a :: t)) (hf : t.length < s.fuel) :
    reverseNodes a s = .ok () { s with nodes := swapLinks (a :: t) s.nodes } := by
  unfold reverseNodes forNodes
  rw [run_loopM]
  have h0 : s = { s with nodes := swapLinks [] s.nodes } := by
    have : swapLinks [] s.nodes = s.nodes := by funext i; simp [swapLinks]
    rw [this]
  have := reverse_iter s a t.reverse a s.fuel [] (chain_prev hl) (by simpa using (List.nodup_cons.1 hl.1).1)
    (by have := hl.1; simpa using this) (by simp) (by simpa using hf)
  rw [← h0] at this
  rw [this]
  congr 2
  exact swapLinks_congr (by simp)

theorem isCycle_swapLinks {h : Nat → Node} {a : Nat} {t : List Nat} (hl : IsCycle h (a :: t)) :
    IsCycle (swapLinks (a :: t) h) (a :: t.reverse) := by
  refine ⟨by have := hl.1; simpa using this, (chain_prev hl).imp_of_mem_imp ?_⟩
  intro x y hx hy hxy
  have hx' : x ∈ a :: t := by simpa [or_comm, or_assoc] using hx
  have hy' : y ∈ a :: t := by simpa [or_comm, or_assoc] using hy
  exact ⟨by simp only [swapLinks, if_pos hx']; exact hxy.2, by simp only [swapLinks, if_pos hy']; exact hxy.1⟩

theorem onlyLinksOf_swapLinks (l : List Nat) (h : Nat → Node) : OnlyLinksOf l h (swapLinks l h) := by
  refine ⟨fun i => ?_, fun i hi => by simp [swapLinks, hi]⟩
  unfold swapLinks; split <;> simp

/-! ## Inserting -/

/-- The heap after `new.place_before(b)` where `last` is the predecessor of `b`. -/
def placed (h : Nat → Node) (new b last : Nat) : Nat → Node :=
  putPrev (putNext (putPrev (putNext h new (some b)) new (some last)) last (some new)) b (some new)

theorem placeBefore_run {s : St} {new b last : Nat} (hb : (s.nodes b).prev = some last) :
    placeBefore new b s = .ok () { s with nodes := placed s.nodes new b last } := by
  have e : putPrev (putNext s.nodes new (some b)) new (some last)
      = upd s.nodes new { s.nodes new with next := some b, prev := some last } := by
    funext i; unfold putPrev putNext upd; split <;> simp_all
  unfold placeBefore
  simp only [run_bind, run_getNode, run_modNode, hb]
  rw [run_prevOf (j := last) (by simp [upd])]
  simp only [run_setNext, run_setPrev, placed, e]

theorem isCycle_placed {h : Nat → Node} {new b : Nat} {t : List Nat} (hl : IsCycle h (b :: t)) (hn : new ∉ b :: t) :
    ∃ last, (h b).prev = some last ∧ IsCycle (placed h new b last) (b :: t ++ [new])
      ∧ OnlyLinksOf (b :: t ++ [new]) h (placed h new b last) := by
  have hc := (isCycle_iff (by simp)).1 hl
  obtain ⟨hnd, hseg, hclose⟩ := hc
  have hlm : (b :: t).getLast (by simp) ∈ b :: t := List.getLast_mem _
  set last := (b :: t).getLast (by simp) with hlast
  have hnb : new ≠ b := fun e => hn (by simp [e])
  have hnl : new ≠ last := fun e => hn (e ▸ hlm)
  refine ⟨last, hclose.2, ?_, ?_, ?_⟩
  · refine isCycle_append (by simp) (by simp) ?_ (seg_congr hseg ?_ ?_) (by simp) ?_ ?_
    · rw [List.nodup_append]
      exact ⟨hnd, by simp, by rintro x hx y hy rfl; simp at hy; subst hy; exact hn hx⟩
    · intro i hi
      have h1 : i ≠ last := ne_getLast_of_dropLast (by simp) hnd hi
      have h2 : i ≠ new := by rintro rfl; exact hn (List.mem_of_mem_dropLast hi)
      unfold placed; links; simp [h1, h2]
    · intro i hi
      have h1 : i ≠ b := ne_head_of_tail (l := b :: t) (by simp) hnd hi
      have h2 : i ≠ new := by rintro rfl; exact hn (List.mem_of_mem_tail hi)
      unfold placed; links; simp [h1, h2]
    · show Link _ last new
      constructor
      · unfold placed; links; simp [hnl.symm]
      · unfold placed; links; simp [hnb, hnl]
    · show Link _ new b
      constructor
      · unfold placed; links; simp [hnb, hnl]
      · unfold placed; links; simp
  · intro i; unfold placed; links; simp
  · intro i hi
    have h1 : i ≠ new := fun e => hi (by simp [e])
    have h2 : i ≠ b := fun e => hi (by simp [e])
    have h3 : i ≠ last := fun e => hi (by rw [e]; exact List.mem_append_left _ hlm)
    unfold placed; rw [putPrev_ne _ _ _ _ h2, putNext_ne _ _ _ _ h3, putPrev_ne _ _ _ _ h1, putNext_ne _ _ _ _ h1]

end Wagyu
