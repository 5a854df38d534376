import Verif.Proofs.Post
import Verif.Proofs.Surgery

/-!
# append_ring (ring_manager.py:199-273)
-/

namespace Wagyu

open Spec


/-! ## joinNodes -/

theorem joinNodes_run {s : St} {k r a b : Nat} {t u : List Nat} (ks rs : EdgeSide)
    (hk : (s.rings k).node = some a) (hr : (s.rings r).node = some b)
    (h1 : IsCycle s.nodes (a :: t)) (h2 : IsCycle s.nodes (b :: u)) (hd : ∀ i ∈ a :: t, i ∉ b :: u)
    (hf : (b :: u).length ≤ s.fuel) :
    ∃ h', joinNodes k r ks rs s = .ok () { s with
        nodes := h'
        rings := if ks = .left then upd s.rings k { s.rings k with node := (joinedNodes ks rs (a :: t) (b :: u)).head? }
          else s.rings }
      ∧ IsCycle h' (joinedNodes ks rs (a :: t) (b :: u))
      ∧ OnlyLinksOf (joinedNodes ks rs (a :: t) (b :: u)) s.nodes h'
      ∧ (ks = .right → (joinedNodes ks rs (a :: t) (b :: u)).head? = some a) := by
  have hlu : u.length < s.fuel := by simp at hf; omega
  obtain ⟨nd1, ch1, cl1⟩ := (isCycle_iff (by simp)).1 h1
  obtain ⟨nd2, ch2, cl2⟩ := (isCycle_iff (by simp)).1 h2
  have ha1 : (a :: t).head (by simp) = a := rfl
  have hb1 : (b :: u).head (by simp) = b := rfl
  set p1 := (a :: t).getLast (by simp) with hp1
  set p2 := (b :: u).getLast (by simp) with hp2
  have mp1 : p1 ∈ a :: t := List.getLast_mem _
  have mp2 : p2 ∈ b :: u := List.getLast_mem _
  have hpa : (s.nodes a).prev = some p1 := cl1.2
  have hpb : (s.nodes b).prev = some p2 := cl2.2
  have hnd : ∀ X Y : List Nat, X.Nodup → Y.Nodup → (∀ i ∈ X, i ∉ Y) → (X ++ Y).Nodup := fun X Y hX hY h => by
    rw [List.nodup_append]; exact ⟨hX, hY, fun i hi j hj e => h i hi (e ▸ hj)⟩
  have hdis : ∀ i ∈ b :: u, i ∉ a :: t := fun i hi hj => hd i hj hi
  -- after reversing the removed ring
  set g := swapLinks (b :: u) s.nodes with hg
  have g1 : (a :: t).IsChain (Link g) := seg_congr ch1
    (fun i hi => by have := hd i (List.mem_of_mem_dropLast hi); simp [hg, swapLinks, this])
    (fun i hi => by have := hd i (List.mem_of_mem_tail hi); simp [hg, swapLinks, this])
  have g2 : (b :: u).reverse.IsChain (Link g) := by
    rw [List.isChain_reverse]
    refine ch2.imp_of_mem_imp ?_
    intro x y hx hy hxy
    exact ⟨by simp only [hg, swapLinks, if_pos hy]; exact hxy.2, by simp only [hg, swapLinks, if_pos hx]; exact hxy.1⟩
  have golo := onlyLinksOf_swapLinks (b :: u) s.nodes
  have hrh : (b :: u).reverse.head (by simp) = p2 := by rw [List.head_reverse]
  have hrl : (b :: u).reverse.getLast (by simp) = b := by rw [List.getLast_reverse]; rfl
  have hrnd : (b :: u).reverse.Nodup := List.nodup_reverse.2 nd2
  have e1 : a ≠ b := fun e => hd a (by simp) (by simp [e])
  have e2 : p1 ≠ p2 := fun e => hd _ mp1 (e ▸ mp2)
  have e3 : a ≠ p2 := fun e => hd a (by simp) (e ▸ mp2)
  have e4 : p1 ≠ b := fun e => hd _ mp1 (by simp [e])
  unfold joinNodes
  cases ks <;> cases rs <;>
    simp only [run_bind, run_getRing, hk, hr, run_deref_some, run_prevOf hpa, run_prevOf hpb, run_setNext, run_setPrev,
      if_true, reduceCtorEq, if_false, reverseNodes_run h2 hlu, setRingNode, run_modRing, joinedNodes]
  · -- left, left
    refine ⟨putPrev (putNext (putPrev (putNext g b (some a)) a (some b)) p1 (some p2)) p2 (some p1), ?_, ?_, ?_, by simp⟩
    rotate_left
    · refine isCycle_joined (h := g) (P := (b :: u).reverse) (Q := a :: t) (by simp) (by simp) (hnd _ _ hrnd nd1 (fun i hi => hdis i (List.mem_reverse.1 hi))) g2 g1 ?_ ?_
      · intro i; rw [hrl, hrh]; links
        simp only [ha1, ← hp1]
        by_cases c1 : i = b
        · subst c1; simp [e4.symm]
        · simp [c1]
      · intro i; rw [hrl, hrh]; links
        simp only [ha1, ← hp1]
        by_cases c1 : i = a
        · subst c1; simp [e3]
        · simp [c1]
    · refine ⟨fun i => ?_, fun i hi => ?_⟩
      · have := golo.1 i; links; exact this
      · have i1 : i ∉ a :: t := fun h => hi (List.mem_append_right _ h)
        have i2 : i ∉ b :: u := fun h => hi (List.mem_append_left _ (List.mem_reverse.2 h))
        have n1 : i ≠ a := fun e => i1 (by simp [e])
        have n2 : i ≠ b := fun e => i2 (by simp [e])
        have n3 : i ≠ p1 := fun e => i1 (e ▸ mp1)
        have n4 : i ≠ p2 := fun e => i2 (e ▸ mp2)
        rw [putPrev_ne _ _ _ _ n4, putNext_ne _ _ _ _ n3, putPrev_ne _ _ _ _ n1, putNext_ne _ _ _ _ n2]
        exact golo.2 i i2
    · have : ((b :: u).reverse ++ a :: t).head? = some p2 := by
        rw [List.head?_append_of_ne_nil _ (by simp), List.head?_reverse, List.getLast?_eq_getLast_of_ne_nil (by simp)]
      rw [this]
  · -- left, right
    refine ⟨putNext (putPrev (putPrev (putNext s.nodes p2 (some a)) a (some p2)) b (some p1)) p1 (some b), ?_, ?_, ?_, by simp⟩
    rotate_left
    · refine isCycle_joined (h := s.nodes) (P := b :: u) (Q := a :: t) (by simp) (by simp) (hnd _ _ nd2 nd1 hdis) ch2 ch1 ?_ ?_
      · intro i; links
        simp only [ha1, hb1, ← hp1, ← hp2]
        by_cases c1 : i = p2
        · subst c1; simp [e2.symm]
        · simp [c1]
      · intro i; links
        simp only [ha1, hb1, ← hp1, ← hp2]
        by_cases c1 : i = a
        · subst c1; simp [e1]
        · simp [c1]
    · refine ⟨fun i => ?_, fun i hi => ?_⟩
      · links; simp
      · have i1 : i ∉ a :: t := fun h => hi (List.mem_append_right _ h)
        have i2 : i ∉ b :: u := fun h => hi (List.mem_append_left _ h)
        have n1 : i ≠ a := fun e => i1 (by simp [e])
        have n2 : i ≠ b := fun e => i2 (by simp [e])
        have n3 : i ≠ p1 := fun e => i1 (e ▸ mp1)
        have n4 : i ≠ p2 := fun e => i2 (e ▸ mp2)
        rw [putNext_ne _ _ _ _ n3, putPrev_ne _ _ _ _ n2, putPrev_ne _ _ _ _ n1, putNext_ne _ _ _ _ n4]
    · rfl
  · -- right, left
    refine ⟨_, rfl, ?_, ?_, by simp⟩
    · refine isCycle_joined (h := s.nodes) (P := a :: t) (Q := b :: u) (by simp) (by simp) (hnd _ _ nd1 nd2 hd) ch1 ch2 ?_ ?_
      · intro i; links
        simp only [ha1, hb1, ← hp1, ← hp2]
        by_cases c1 : i = p2
        · subst c1; simp [e2.symm]
        · simp [c1]
      · intro i; links
        simp only [ha1, hb1, ← hp1, ← hp2]
        by_cases c1 : i = a
        · subst c1; simp [e1]
        · simp [c1]
    · refine ⟨fun i => ?_, fun i hi => ?_⟩
      · links; simp
      · have i1 : i ∉ a :: t := fun h => hi (List.mem_append_left _ h)
        have i2 : i ∉ b :: u := fun h => hi (List.mem_append_right _ h)
        have n1 : i ≠ a := fun e => i1 (by simp [e])
        have n2 : i ≠ b := fun e => i2 (by simp [e])
        have n3 : i ≠ p1 := fun e => i1 (e ▸ mp1)
        have n4 : i ≠ p2 := fun e => i2 (e ▸ mp2)
        rw [putNext_ne _ _ _ _ n4, putPrev_ne _ _ _ _ n1, putPrev_ne _ _ _ _ n2, putNext_ne _ _ _ _ n3]
  · -- right, right
    refine ⟨_, rfl, ?_, ?_, by simp⟩
    · refine isCycle_joined (h := g) (P := a :: t) (Q := (b :: u).reverse) (by simp) (by simp) (hnd _ _ nd1 hrnd (fun i hi h => hd i hi (List.mem_reverse.1 h))) g1 g2 ?_ ?_
      · intro i; rw [hrl, hrh]; links
        simp only [ha1, ← hp1]
        by_cases c1 : i = b
        · subst c1; simp [e4.symm]
        · simp [c1, hg]
      · intro i; rw [hrl, hrh]; links
        simp only [ha1, ← hp1]
        by_cases c1 : i = a
        · subst c1; simp [e3]
        · simp [c1, hg]
    · refine ⟨fun i => ?_, fun i hi => ?_⟩
      · have := golo.1 i; links; exact this
      · have i1 : i ∉ a :: t := fun h => hi (List.mem_append_left _ h)
        have i2 : i ∉ b :: u := fun h => hi (List.mem_append_right _ (List.mem_reverse.2 h))
        have n1 : i ≠ a := fun e => i1 (by simp [e])
        have n2 : i ≠ b := fun e => i2 (by simp [e])
        have n3 : i ≠ p1 := fun e => i1 (e ▸ mp1)
        have n4 : i ≠ p2 := fun e => i2 (e ▸ mp2)
        rw [putPrev_ne _ _ _ _ n1, putNext_ne _ _ _ _ n2, putPrev_ne _ _ _ _ n4, putNext_ne _ _ _ _ n3]
        exact golo.2 i i2

/-! ## Frames -/

/-- Only `bottom_node`s of rings are changed. -/
def OnlyBottoms (s s' : St) : Prop :=
  ∃ f : Nat → Option Nat, s' = { s with rings := fun r => { s.rings r with bottomNode := f r } }

instance : Preo OnlyBottoms where
  refl s := ⟨fun r => (s.rings r).bottomNode, rfl⟩
  trans := by rintro a b c ⟨f, rfl⟩ ⟨g, rfl⟩; exact ⟨g, rfl⟩

instance (r : Nat) (v : Option Nat) : Pres OnlyBottoms (modRing r fun g => { g with bottomNode := v }) := by
  constructor
  intro s
  refine ⟨fun k => if k = r then v else (s.rings k).bottomNode, ?_⟩
  show ({ s with rings := upd s.rings r { s.rings r with bottomNode := v } } : St) = _
  congr 1
  funext k
  unfold upd
  by_cases e : k = r
  · subst e; simp
  · simp [e]

instance (a b : Nat) : Pres OnlyBottoms (getLowermostRing a b) := by unfold getLowermostRing; pres

/-- Only the forest is changed, and the ring `o` may lose its nodes. -/
def OnlyForest (o : Nat) (s s' : St) : Prop :=
  ∃ rings children, s' = { s with rings := rings, children := children } ∧ ∀ k, k ≠ o → (rings k).node = (s.rings k).node

instance (o : Nat) : Preo (OnlyForest o) where
  refl s := ⟨s.rings, s.children, rfl, fun _ _ => rfl⟩
  trans := by
    rintro a b c ⟨r, ch, rfl, h⟩ ⟨r', ch', rfl, h'⟩
    exact ⟨r', ch', rfl, fun k hk => (h' k hk).trans (h k hk)⟩

theorem onlyForest_modRing (o r : Nat) (f : Ring → Ring) (hf : r ≠ o → ∀ g, (f g).node = g.node) :
    Pres (OnlyForest o) (modRing r f) := by
  constructor
  intro s
  refine ⟨upd s.rings r (f (s.rings r)), s.children, rfl, fun k hk => ?_⟩
  unfold upd
  by_cases e : k = r
  · subst e; simp [hf hk]
  · simp [e]

theorem onlyForest_modChildren (o : Nat) (p : Option Nat) (f : List (Option Nat) → List (Option Nat)) :
    Pres (OnlyForest o) (modChildren p f) := by
  cases p with
  | none => exact ⟨fun s => ⟨s.rings, f s.children, rfl, fun _ _ => rfl⟩⟩
  | some p => exact onlyForest_modRing o p (fun g => { g with children := f g.children }) fun _ _ => rfl

instance (o : Nat) (p : Option Nat) (f : List (Option Nat) → List (Option Nat)) : Pres (OnlyForest o) (modChildren p f) :=
  onlyForest_modChildren o p f
instance (o r : Nat) (p : Option Nat) : Pres (OnlyForest o) (setRingParent r p) := onlyForest_modRing o r _ fun _ _ => rfl

theorem replaceRing_frame (o : Nat) (p : Option Nat) : Pres (OnlyForest o) (replaceRing o p) := by
  unfold replaceRing
  refine Pres.ite' (Pres.raise _) (Pres.bind inferInstance fun g => ?_)
  refine Pres.bind (Pres.forElse (fun i => ?_) (fun _ => Pres.pure _) _ _) fun _ => ?_
  · split
    · exact Pres.pure _
    · refine Pres.bind inferInstance fun _ => Pres.bind inferInstance fun _ => Pres.bind (onlyForest_modRing o o _ fun _ _ => rfl) fun _ => Pres.pure _
  · exact Pres.bind inferInstance fun _ => Pres.bind inferInstance fun _ => onlyForest_modRing o o _ fun h => absurd rfl h

theorem replaceRing_node (o : Nat) (p : Option Nat) (s : St) :
    Ok (replaceRing o p) s fun _ s' => OnlyForest o s s' ∧ (s'.rings o).node = none := by
  refine Post.and ((Post.of_pres (replaceRing_frame o p)).mono (fun _ _ h => h) fun _ _ _ => trivial) ?_
  unfold replaceRing
  refine Post.ite (fun _ => trivial) fun _ => Post.bind (Post.getRing (Post.bind ?_))
  refine (Post.of_pres (R := fun _ _ => True) (Pres.mk fun _ => trivial)).mono ?_ fun _ _ _ => trivial
  intro _ s' _
  refine Post.bind (Post.getRing (Post.bind ?_))
  refine (Post.of_pres (R := fun _ _ => True) (Pres.mk fun _ => trivial)).mono ?_ fun _ _ _ => trivial
  intro _ s'' _
  refine Post.modRing ?_
  simp [upd, Ring.resetStats]

theorem reattach_frame (r k kb : Nat) : ∀ (l : List (Option Nat)) (s : St),
    Ok (reattach r k kb l) s fun _ s' => ∃ bounds, s' = { s with bounds := bounds }
  | [], s => ⟨s.bounds, rfl⟩
  | none :: rest, s => by unfold reattach; exact reattach_frame r k kb rest s
  | some b :: rest, s => by
    unfold reattach
    refine Post.bind (Post.getBound (Post.ite (fun _ => ?_) fun _ => reattach_frame r k kb rest s))
    exact Post.bind (Post.getBound (Post.modBound ⟨_, rfl⟩))

theorem chooseKeep_ok (first second f g : Nat) (s : St) :
    Ok (chooseKeep first second f g) s fun r s' => OnlyBottoms s s' ∧ (r = (f, g, first, second) ∨ r = (g, f, second, first)) := by
  refine Post.and ?_ ?_
  · have : Pres OnlyBottoms (chooseKeep first second f g) := by unfold chooseKeep; pres
    exact (Post.of_pres this).mono (fun _ _ h => h) fun _ _ _ => trivial
  · unfold chooseKeep
    have any : ∀ {α : Type} (m : M α) (Q : α → St → Prop) (s : St), (∀ a s, Q a s) → Ok m s Q := fun m Q s h =>
      Ok.intro fun a s' _ => h a s'
    refine Post.bind (any _ _ _ fun b s => Post.ite (fun _ => Or.inr rfl) fun _ => ?_)
    refine Post.bind (any _ _ _ fun b s => Post.ite (fun _ => Or.inl rfl) fun _ => ?_)
    exact Post.bind (any _ _ _ fun b s => Post.ite (fun _ => Or.inl rfl) fun _ => Or.inr rfl)

end Wagyu
