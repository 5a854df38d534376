import Verif.Proofs.HeapAdd

/-!
# Joining rings keeps the heaps in order
-/

namespace Wagyu

open Spec

theorem Tot.and' {α : Type} {s : St} {Q : α → St → Prop} {m : M α} {Q' : α → St → Prop} (N : Nat) (h : Tot m s Q) (h' : ∀ k, N ≤ k → Ok m (s.wf k) Q')
    (hQ : ∀ a s k, Q' a (s.wf k) → Q' a s) : Tot m s fun a s' => Q a s' ∧ Q' a s' := by
  obtain ⟨N', ⟨a, s', h2, h3⟩ | ⟨e, s', h2, h3⟩⟩ := h
  · exact ⟨max N N', Or.inl ⟨a, s', fun k hk => h2 k (by omega), h3, hQ _ _ (max N N') ((h' _ (by omega)).elim (h2 _ (by omega)))⟩⟩
  · exact ⟨N', Or.inr ⟨e, s', h2, h3⟩⟩

/-- The fuel of the state reached does not matter. -/
theorem Tot.fuel {α : Type} {s : St} {Q : α → St → Prop} {m : M α} (h : Tot m s Q) (hQ : ∀ a s k, Q a s → Q a (s.wf k)) :
    Tot m s fun a s' => Q a s' ∧ s'.fuel = s.fuel := by
  obtain ⟨N, ⟨a, s', h2, h3⟩ | h⟩ := h
  · exact ⟨N, Or.inl ⟨a, s'.wf s.fuel, fun k hk => h2 k hk, hQ _ _ _ h3, rfl⟩⟩
  · exact ⟨N, Or.inr h⟩

section
variable {s : St}

theorem tot_isDescendantOf {h : Nat → Nat} (hh : ∀ r p, (s.rings r).parent = some p → h p < h r) (r o : Nat) :
    Tot (isDescendantOf r o) s fun b s' => s' = s ∧ (b = true ↔ Ancestor (parentIn s) r o) := by
  unfold isDescendantOf
  refine Tot.bind (Tot.getRing ?_)
  have hanc : ∀ r, Ancestor (parentIn s) r o ↔ (∃ c, (s.rings r).parent = some c ∧ (c = o ∨ Ancestor (parentIn s) c o)) := by
    intro r
    constructor
    · rintro (h1 | ⟨h1, h2⟩)
      · exact ⟨o, h1, Or.inl rfl⟩
      · exact ⟨_, h1, Or.inr h2⟩
    · rintro ⟨c, h1, rfl | h2⟩
      · exact .parent h1
      · exact .further h1 h2
  refine Tot.loopN (fun n (c : Option Nat) s' => s' = s ∧ n = (match c with | none => 0 | some c => h c + 1)
    ∧ (Ancestor (parentIn s) r o ↔ ∃ c', c = some c' ∧ (c' = o ∨ Ancestor (parentIn s) c' o))) (fun n c s1 hI => ?_) ⟨rfl, rfl, hanc r⟩
  obtain ⟨rfl, hn, hiff⟩ := hI
  cases c with
  | none => exact Tot.pure ⟨rfl, by rw [hiff]; simp⟩
  | some c =>
    refine Tot.ite (fun hc => Tot.pure ⟨rfl, by rw [hiff]; simp [hc]⟩) fun hc => Tot.bind (Tot.getRing (Tot.pure ?_))
    refine ⟨_, ?_, rfl, rfl, ?_⟩
    · cases hp : (s1.rings c).parent with
      | none => simp only [hn]; omega
      | some p => simp only [hn]; have := hh c p hp; omega
    · rw [hiff]
      constructor
      · rintro ⟨c', h1, h2⟩
        obtain rfl := Option.some.inj h1
        exact (hanc c).1 (h2.resolve_left hc)
      · intro h1
        exact ⟨c, rfl, Or.inr ((hanc c).2 h1)⟩

theorem tot_ringDepth {h : Nat → Nat} (hh : ∀ r p, (s.rings r).parent = some p → h p < h r) (r : Nat) :
    Tot (ringDepth r) s fun _ s' => s' = s := by
  unfold ringDepth
  refine Tot.bind (Tot.getRing ?_)
  refine Tot.loopN (fun n (c : Option Nat × Nat) s' => s' = s ∧ n = (match c.1 with | none => 0 | some c => h c + 1)) (fun n c s1 hI => ?_) ⟨rfl, rfl⟩
  obtain ⟨rfl, hn⟩ := hI
  obtain ⟨c, d⟩ := c
  cases c with
  | none => exact Tot.pure rfl
  | some c =>
    refine Tot.bind (Tot.getRing (Tot.pure ⟨_, ?_, rfl, rfl⟩))
    cases hp : (s1.rings c).parent with
    | none => simp only [hn]; omega
    | some p => simp only [hn]; have := hh c p hp; omega

theorem not_ancestor_both {h : Nat → Nat} (hh : ∀ r p, (s.rings r).parent = some p → h p < h r) {r a : Nat}
    (h1 : Ancestor (parentIn s) r a) : h a < h r := by
  induction h1 with
  | parent h1 => exact hh _ _ h1
  | further h1 _ ih => exact Nat.lt_trans ih (hh _ _ h1)

/-- Only the `bottom_node`s of `r` and `o` are changed. -/
def BottomsOf (r o : Nat) (s s' : St) : Prop :=
  ∃ f : Nat → Option Nat, s' = { s with rings := fun k => { s.rings k with bottomNode := f k } }
    ∧ ∀ k, k ≠ r → k ≠ o → f k = (s.rings k).bottomNode

theorem BottomsOf.refl (r o : Nat) (s : St) : BottomsOf r o s s := ⟨fun k => (s.rings k).bottomNode, rfl, fun _ _ _ => rfl⟩
theorem BottomsOf.symm {r o : Nat} {s s' : St} (h : BottomsOf r o s s') : BottomsOf o r s s' := by
  obtain ⟨f, h1, h2⟩ := h
  exact ⟨f, h1, fun k a b => h2 k b a⟩

theorem tot_getLowermostRing {L : Nat → List Nat} (hL : RingsOf s L) (hb : ∀ r, (s.rings r).bottomNode = none) {r o : Nat} (hne : r ≠ o) :
    Tot (getLowermostRing r o) s fun _ s' => BottomsOf r o s s' := by
  unfold getLowermostRing
  refine Tot.bind (Q' := _) (Tot.bind (Tot.getRing ?_))
  rw [hb r]
  refine Tot.bind (Tot.deref fun a ha => ?_)
  rw [hL.head r] at ha
  obtain ⟨t, ht⟩ : ∃ t, L r = a :: t := by cases hl : L r with
    | nil => rw [hl] at ha; cases ha
    | cons c t => rw [hl] at ha; cases ha; exact ⟨t, rfl⟩
  have hc := (hL.cycle r (by rw [ht]; simp)).2
  rw [ht] at hc
  refine Tot.bind ((tot_bottomNodeOf hc).imp ?_)
  rintro x s1 ⟨rfl, hx⟩
  refine Tot.bind (Tot.modRing (Tot.pure ?_))
  refine Tot.bind (Q' := _) (Tot.bind (Tot.getRing ?_))
  dsimp only
  rw [upd_ne _ _ hne.symm, hb o]
  refine Tot.bind (Tot.deref fun a' ha' => ?_)
  rw [hL.head o] at ha'
  obtain ⟨t', ht'⟩ : ∃ t, L o = a' :: t := by cases hl : L o with
    | nil => rw [hl] at ha'; cases ha'
    | cons c t => rw [hl] at ha'; cases ha'; exact ⟨t, rfl⟩
  have hc' := (hL.cycle o (by rw [ht']; simp)).2
  rw [ht'] at hc'
  refine Tot.bind ((tot_bottomNodeOf (s := { s1 with rings := upd s1.rings r { s1.rings r with bottomNode := some x } }) hc').imp ?_)
  rintro x' s2 ⟨rfl, hx'⟩
  refine Tot.bind (Tot.modRing (Tot.pure ?_))
  dsimp only
  set s3 : St := { s1 with rings := upd (upd s1.rings r { s1.rings r with bottomNode := some x }) o { upd s1.rings r { s1.rings r with bottomNode := some x } o with bottomNode := some x' } } with hs3
  have hB : BottomsOf r o s1 s3 := by
    refine ⟨fun k => (s3.rings k).bottomNode, ?_, fun k h1 h2 => ?_⟩
    · rw [hs3]
      congr 1
      funext k
      dsimp only
      by_cases h2 : k = o
      · subst h2; simp only [Wagyu.upd_same, upd_ne _ _ hne.symm]
      · by_cases h1 : k = r
        · subst h1; simp only [upd_ne _ _ h2, Wagyu.upd_same]
        · simp only [upd_ne _ _ h2, upd_ne _ _ h1]
    · rw [hs3]; simp only [upd_ne _ _ h2, upd_ne _ _ h1]
  refine Tot.bind (Tot.getNode (Tot.bind (Tot.getNode ?_)))
  refine Tot.ite (fun _ => Tot.pure hB) fun _ => Tot.ite (fun _ => Tot.pure hB) fun _ => Tot.ite (fun _ => Tot.pure hB) fun _ => Tot.ite (fun _ => Tot.pure hB) fun _ => ?_
  refine Tot.ite (fun _ => Tot.pure hB) fun _ => Tot.ite (fun _ => Tot.pure hB) fun _ => ?_
  obtain ⟨u, hu, -⟩ := cycle_from hc hx
  obtain ⟨u', hu', -⟩ := cycle_from hc' hx'
  refine Tot.bind ((tot_isBottomTo (s := s3) hu hu').imp ?_)
  rintro b s4 hs4
  subst s4
  exact Tot.ite (fun _ => Tot.pure hB) fun _ => Tot.pure hB

theorem tot_chooseKeep (h : HW s) {f g : Nat} (hne : f ≠ g) (a b : Nat) :
    Tot (chooseKeep a b f g) s fun q s' => BottomsOf f g s s'
      ∧ (q = (f, g, a, b) ∧ ¬ Ancestor (parentIn s) f g ∨ q = (g, f, b, a) ∧ ¬ Ancestor (parentIn s) g f) := by
  obtain ⟨L, hL⟩ := h.rings
  obtain ⟨rk, hrk⟩ := h.rank
  unfold chooseKeep
  refine Tot.bind ((tot_isDescendantOf hrk f g).imp ?_)
  rintro d1 s1 ⟨hs1, hd1⟩
  subst s1
  refine Tot.ite (fun hd => Tot.pure ⟨.refl _ _ _, Or.inr ⟨rfl, fun hx => ?_⟩⟩) fun hd => ?_
  · have h1 := not_ancestor_both hrk (hd1.1 hd)
    have h2 := not_ancestor_both hrk hx
    omega
  refine Tot.bind ((tot_isDescendantOf hrk g f).imp ?_)
  rintro d2 s1 ⟨hs1, hd2⟩
  subst s1
  refine Tot.ite (fun hd' => Tot.pure ⟨.refl _ _ _, Or.inl ⟨rfl, fun hx => ?_⟩⟩) fun hd' => ?_
  · exact hd (hd1.2 hx)
  refine Tot.bind ((tot_getLowermostRing hL h.bottom hne).imp ?_)
  rintro w s1 hB
  exact Tot.ite (fun _ => Tot.pure ⟨hB, Or.inl ⟨rfl, fun hx => hd (hd1.2 hx)⟩⟩) fun _ => Tot.pure ⟨hB, Or.inr ⟨rfl, fun hx => hd' (hd2.2 hx)⟩⟩

theorem mem_joined {ks rs : EdgeSide} {K R : List Nat} {i : Nat} : i ∈ joinedNodes ks rs K R ↔ i ∈ K ∨ i ∈ R := by
  unfold joinedNodes
  split <;> split <;> simp [or_comm]

theorem joined_length {ks rs : EdgeSide} {K R : List Nat} : (joinedNodes ks rs K R).length = K.length + R.length := by
  unfold joinedNodes
  split <;> split <;> simp <;> omega

theorem tot_joinNodes {L : Nat → List Nat} (hL : RingsOf s L) {k r : Nat} (hne : k ≠ r) (ks rs : EdgeSide) :
    Tot (joinNodes k r ks rs) s fun _ s' => ∃ h' rings', s' = { s with nodes := h', rings := rings' }
      ∧ IsCycle h' (joinedNodes ks rs (L k) (L r)) ∧ OnlyLinksOf (joinedNodes ks rs (L k) (L r)) s.nodes h'
      ∧ (rings' k).node = (joinedNodes ks rs (L k) (L r)).head?
      ∧ (∀ j, j ≠ k → rings' j = s.rings j) ∧ ∃ n, rings' k = { s.rings k with node := n } := by
  cases hk : L k with
  | nil =>
    unfold joinNodes
    refine Tot.bind (Tot.getRing ?_)
    rw [hL.head k, hk]
    exact Tot.bind (Tot.deref nofun)
  | cons a t =>
  have hka : (s.rings k).node = some a := by rw [hL.head k, hk]; rfl
  have ca := (hL.cycle k (by rw [hk]; simp)).2
  rw [hk] at ca
  obtain ⟨last, hlast⟩ : ∃ last, (s.nodes a).prev = some last := by
    obtain ⟨-, -, hc⟩ := (isCycle_iff (by simp)).1 ca
    exact ⟨_, hc.2⟩
  cases hr : L r with
  | nil =>
    unfold joinNodes
    refine Tot.bind (Tot.getRing (Tot.bind (Tot.deref fun a' ha' => ?_)))
    rw [hka] at ha'; obtain rfl := Option.some.inj ha'
    refine Tot.bind (Tot.prevOf hlast (Tot.bind (Tot.getRing ?_)))
    rw [hL.head r, hr]
    exact Tot.bind (Tot.deref nofun)
  | cons b u =>
  have hrb : (s.rings r).node = some b := by rw [hL.head r, hr]; rfl
  have cb := (hL.cycle r (by rw [hr]; simp)).2
  rw [hr] at cb
  have hd : ∀ i ∈ a :: t, i ∉ b :: u := fun i hi hj => hne (HW.dist hL (hk ▸ hi) (hr ▸ hj))
  obtain ⟨last', hlast'⟩ : ∃ last, (s.nodes b).prev = some last := by
    obtain ⟨-, -, hc⟩ := (isCycle_iff (by simp)).1 cb
    exact ⟨_, hc.2⟩
  have any : Tot (joinNodes k r ks rs) s fun _ _ => True := by
    unfold joinNodes
    refine Tot.bind (Tot.getRing (Tot.bind (Tot.deref fun a' ha' => ?_)))
    rw [hka] at ha'; obtain rfl := Option.some.inj ha'
    refine Tot.bind (Tot.prevOf hlast (Tot.bind (Tot.getRing (Tot.bind (Tot.deref fun b' hb' => ?_)))))
    rw [hrb] at hb'; obtain rfl := Option.some.inj hb'
    refine Tot.bind (Tot.prevOf hlast' ?_)
    have hrev : ∀ {m : Unit → M Unit}, (∀ x, Steady (m x)) → Tot (reverseNodes b >>= m) s fun _ _ => True := by
      intro m hm
      refine Tot.bind (Tot.run (a := ()) (s' := { s with nodes := swapLinks (b :: u) s.nodes }) (u.length + 1) (fun k hk => ?_) (Tot.steady' (hm _)))
      exact reverseNodes_run (s := s.wf k) cb (by show u.length < k; omega)
    refine Tot.ite (fun _ => Tot.ite (fun _ => ?_) fun _ => ?_) fun _ => Tot.ite (fun _ => ?_) fun _ => ?_
    · exact hrev fun _ => by steady
    · exact Tot.steady' (by steady)
    · exact hrev fun _ => by steady
    · exact Tot.steady' (by steady)
  refine ((any.and' (b :: u).length (Q' := fun _ s' => ∃ h' rings', s'.nodes = h' ∧ s'.rings = rings' ∧ (∃ k, s' = { s with nodes := h', rings := rings', fuel := k })
      ∧ IsCycle h' (joinedNodes ks rs (a :: t) (b :: u)) ∧ OnlyLinksOf (joinedNodes ks rs (a :: t) (b :: u)) s.nodes h'
      ∧ (rings' k).node = (joinedNodes ks rs (a :: t) (b :: u)).head?
      ∧ (∀ j, j ≠ k → rings' j = s.rings j) ∧ ∃ n, rings' k = { s.rings k with node := n }) (fun n hn => ?_) ?_).fuel ?_).imp ?_
  · obtain ⟨h', hrun, h1, h2, h3⟩ := joinNodes_run (s := s.wf n) ks rs hka hrb ca cb hd hn
    refine Post.run hrun ⟨_, _, rfl, rfl, ⟨n, rfl⟩, h1, h2, ?_, fun j hj => ?_, ?_⟩
    · dsimp only
      by_cases hks : ks = .left
      · rw [if_pos hks, Wagyu.upd_same]
      · rw [if_neg hks, h3 (by cases ks; exacts [absurd rfl hks, rfl])]; exact hka
    · dsimp only
      by_cases hks : ks = .left
      · rw [if_pos hks, upd_ne _ _ hj]; rfl
      · rw [if_neg hks]; rfl
    · dsimp only
      by_cases hks : ks = .left
      · exact ⟨_, by rw [if_pos hks, Wagyu.upd_same]; rfl⟩
      · exact ⟨(s.rings k).node, by rw [if_neg hks]; rfl⟩
  · rintro _ s1 m ⟨h', r', e1, e2, ⟨n, e3⟩, rest⟩
    refine ⟨h', r', e1, e2, ⟨s1.fuel, ?_⟩, rest⟩
    have := congrArg (fun x : St => x.wf s1.fuel) e3
    exact this
  · rintro _ s1 m ⟨-, h', r', e1, e2, ⟨n, e3⟩, rest⟩
    refine ⟨trivial, h', r', e1, e2, ⟨m, ?_⟩, rest⟩
    exact congrArg (fun x : St => x.wf m) e3
  · rintro _ s1 ⟨⟨-, h', r', e1, e2, ⟨n, e3⟩, rest⟩, hfu⟩
    refine ⟨h', r', ?_, rest⟩
    have : n = s.fuel := by rw [← hfu, e3]
    subst this
    exact e3
/-! ## replace_ring -/

instance Steady.replaceRing (r : Nat) (p : Option Nat) : Steady (replaceRing r p) := by
  unfold Wagyu.replaceRing
  refine Steady.ite' (Steady.raise ⟨by decide, by decide⟩) ?_
  steady

/-- The `bottom_node`s stay. -/
def BotSame (s s' : St) : Prop := ∀ j, (s'.rings j).bottomNode = (s.rings j).bottomNode
instance : Preo BotSame where
  refl _ _ := rfl
  trans h k j := (k j).trans (h j)
theorem botSame_modRing (r : Nat) (f : Ring → Ring) (hf : ∀ g, (f g).bottomNode = g.bottomNode) : Pres BotSame (modRing r f) := by
  refine ⟨fun s j => ?_⟩
  show Ring.bottomNode (upd _ _ _ j) = _
  by_cases h : j = r
  · subst h; rw [Wagyu.upd_same]; exact hf _
  · rw [upd_ne _ _ h]
instance (p : Option Nat) (f : List (Option Nat) → List (Option Nat)) : Pres BotSame (modChildren p f) := by
  cases p with
  | none => exact ⟨fun s j => rfl⟩
  | some p => exact botSame_modRing p (fun g => { g with children := f g.children }) fun _ => rfl
instance (r : Nat) (p : Option Nat) : Pres BotSame (setRingParent r p) := botSame_modRing r _ fun _ => rfl
theorem botSame_replaceRing (o : Nat) (p : Option Nat) : Pres BotSame (replaceRing o p) := by
  unfold replaceRing
  refine Pres.ite' (Pres.raise _) (Pres.bind inferInstance fun g => ?_)
  refine Pres.bind (Pres.forElse (fun i => ?_) (fun _ => Pres.pure _) _ _) fun _ => ?_
  · split
    · exact Pres.pure _
    · refine Pres.bind inferInstance fun _ => Pres.bind inferInstance fun _ => Pres.bind (botSame_modRing o _ fun _ => rfl) fun _ => Pres.pure _
  · exact Pres.bind inferInstance fun _ => Pres.bind inferInstance fun _ => botSame_modRing o _ fun _ => rfl

theorem replaceRing_parents (r : Nat) (p : Option Nat) (hi : Inv (fun _ => False) s) :
    Ok (replaceRing r p) s fun _ s' => p ≠ some r ∧ ∀ j, (s'.rings j).parent = if some j ∈ (s.rings r).children then p else (s.rings j).parent := by
  unfold replaceRing
  refine Post.ite (fun _ => trivial) fun hp => Post.bind (Post.getRing (Post.bind ?_))
  refine Post.imp (replaceLoop_post (X := fun _ => False) (n := 0) hp ⟨hi, Nat.zero_le _⟩) ?_
  rintro _ s1 ⟨-, hM⟩
  have hpar := hM.par
  rw [List.take_length] at hpar
  refine Post.bind (Post.getRing (Post.bind (Post.modChildren (Post.modRing ⟨hp, fun j => ?_⟩))))
  rw [← hpar j]
  show Ring.parent (upd _ _ _ j) = _
  by_cases h : j = r
  · subst h; rw [Wagyu.upd_same]; exact parent_setKids s1 _ _ j
  · rw [upd_ne _ _ h]; exact parent_setKids s1 _ _ j

/-! ## append_ring -/

instance Steady.reattach (r k kb : Nat) (l : List (Option Nat)) : Steady (reattach r k kb l) := by
  induction l with
  | nil => unfold Wagyu.reattach; steady
  | cons o l ih => cases o <;> (unfold Wagyu.reattach; steady)

theorem reattach_held (r k kb : Nat) : ∀ (l : List (Option Nat)) (s : St),
    Ok (reattach r k kb l) s fun _ s' => ∃ bounds, s' = { s with bounds := bounds }
      ∧ ∀ c, (bounds c).ring = (s.bounds c).ring ∨ (bounds c).ring = some k
  | [], s => ⟨s.bounds, rfl, fun _ => Or.inl rfl⟩
  | none :: rest, s => by unfold reattach; exact reattach_held r k kb rest s
  | some b :: rest, s => by
    unfold reattach
    refine Post.bind (Post.getBound (Post.ite (fun _ => ?_) fun _ => reattach_held r k kb rest s))
    refine Post.bind (Post.getBound (Post.modBound ⟨_, rfl, fun c => ?_⟩))
    by_cases hc : c = b
    · subst hc; rw [Wagyu.upd_same]; exact Or.inr rfl
    · rw [upd_ne _ _ hc]; exact Or.inl rfl

theorem tot_appendRing (h : HW s) {a b f g : Nat} (hf : (s.bounds a).ring = some f) (hg : (s.bounds b).ring = some g)
    (ha : some a ∈ s.abl) (hb : some b ∈ s.abl) (hne : f ≠ g) :
    Tot (appendRing a b) s fun _ s' => Grown s s' := by
  refine Tot.grown h ?_
  obtain ⟨L, hL⟩ := h.rings
  obtain ⟨rk, hrk⟩ := h.rank
  have hfn := h.held a f ha hf
  have hgn := h.held b g hb hg
  -- the part after the choice of the ring to be kept
  have main : ∀ (s₀ : St) (k r kb rb : Nat), BottomsOf k r s s₀ → k ≠ r → k < s.nr → ¬ Ancestor (parentIn s) k r → Tot (do
        let ks := (← getBound kb).side
        let rs := (← getBound rb).side
        joinNodes k r ks rs
        modRing k fun g => { g with bottomNode := none }
        let keepIsHole := isOdd (← ringDepth k)
        let removeIsHole := isOdd (← ringDepth r)
        modRing r fun g => { g with node := none, bottomNode := none }
        if keepIsHole ≠ removeIsHole then
          let p := (← getRing k).parent
          replaceRing r p
        else replaceRing r (some k)
        updatePoints k
        modBound rb fun bd => { bd with ring := none }
        modBound kb fun bd => { bd with ring := none }
        let abl ← gets St.abl
        reattach r k kb abl : M Unit) s₀ fun _ s' => Inv (fun _ => False) s' → Still s s' → HW s' := by
    rintro s₀ k r kb rb ⟨bt, rfl, hbt⟩ hkr hkn hanc
    refine Tot.bind (Tot.getBound (Tot.bind (Tot.getBound (Tot.bind ?_))))
    refine (tot_joinNodes (s := { s with rings := fun k => { s.rings k with bottomNode := bt k } }) (L := L) hL hkr _ _).imp ?_
    rintro _ s1 ⟨nodes1, rings1, rfl, hcyc, hol, hhead, hother, n1, hkeep⟩
    set J := joinedNodes (s.bounds kb).side (s.bounds rb).side (L k) (L r) with hJ
    have hpar1 : ∀ j, (rings1 j).parent = (s.rings j).parent := fun j => by
      by_cases hj : j = k
      · rw [hj, hkeep]
      · rw [hother j hj]
    have hch1 : ∀ j, (rings1 j).children = (s.rings j).children := fun j => by
      by_cases hj : j = k
      · rw [hj, hkeep]
      · rw [hother j hj]
    refine Tot.bind (Tot.modRing ?_)
    dsimp only
    have hrk2 : ∀ j p, (Ring.parent (upd rings1 k { rings1 k with bottomNode := none } j)) = some p → rk p < rk j := fun j p hjp => by
      apply hrk
      rw [← hpar1]
      by_cases hj : j = k
      · subst hj; rw [Wagyu.upd_same] at hjp; exact hjp
      · rw [upd_ne _ _ hj] at hjp; exact hjp
    refine Tot.bind ((tot_ringDepth (s := { s with nodes := nodes1, rings := upd rings1 k { rings1 k with bottomNode := none } }) hrk2 k).imp ?_)
    rintro d1 s2 rfl
    refine Tot.bind ((tot_ringDepth (s := { s with nodes := nodes1, rings := upd rings1 k { rings1 k with bottomNode := none } }) hrk2 r).imp ?_)
    rintro d2 s2 rfl
    refine Tot.bind (Tot.modRing ?_)
    dsimp only
    rw [upd_ne _ _ hkr.symm]
    set rings2 := upd (upd rings1 k { rings1 k with bottomNode := none }) r { rings1 r with node := none, bottomNode := none } with hr2
    set s2 : St := { s with nodes := nodes1, rings := rings2 } with hs2
    have hpar2 : ∀ j, (rings2 j).parent = (s.rings j).parent := fun j => by
      rw [hr2, ← hpar1 j]
      by_cases hj : j = r
      · subst hj; rw [Wagyu.upd_same]
      · rw [upd_ne _ _ hj]
        by_cases hj : j = k
        · subst hj; rw [Wagyu.upd_same]
        · rw [upd_ne _ _ hj]
    have hch2 : ∀ j, (rings2 j).children = (s.rings j).children := fun j => by
      rw [hr2, ← hch1 j]
      by_cases hj : j = r
      · subst hj; rw [Wagyu.upd_same]
      · rw [upd_ne _ _ hj]
        by_cases hj : j = k
        · subst hj; rw [Wagyu.upd_same]
        · rw [upd_ne _ _ hj]
    have hbot2 : ∀ j, (rings2 j).bottomNode = none := fun j => by
      rw [hr2]
      by_cases hj : j = r
      · subst hj; rw [Wagyu.upd_same]
      · rw [upd_ne _ _ hj]
        by_cases hj' : j = k
        · subst hj'; rw [Wagyu.upd_same]
        · rw [upd_ne _ _ hj', hother j hj']
          show bt j = none
          rw [hbt j hj' hj]; exact h.bottom j
    have hnode2 : ∀ j, j ≠ k → j ≠ r → (rings2 j).node = (s.rings j).node := fun j h1 h2 => by
      rw [hr2, upd_ne _ _ h2, upd_ne _ _ h1, hother j h1]
    have hnodek : (rings2 k).node = J.head? := by rw [hr2, upd_ne _ _ hkr, Wagyu.upd_same]; exact hhead
    have hinv2 : Inv (fun _ => False) s2 := (FR.same (X := fun _ => False) (s := s) (s' := s2) rfl hpar2
      (fun p => by cases p with | none => rfl | some p => exact hch2 p) 0 ⟨h.forest, Nat.zero_le _⟩).1
    -- the children of the removed ring have it as their parent
    have hchild : ∀ j, some j ∈ (rings2 r).children → (s.rings j).parent = some r := fun j hj => by
      have h1 := hinv2.once (some r) j
      have h2 : 0 < cnt s2 (some r) j := List.count_pos_iff.2 hj
      by_contra hc
      rw [if_neg (by rw [show (s2.rings j).parent = (s.rings j).parent from hpar2 j]; exact hc)] at h1
      omega
    have tail : ∀ p, (∀ q, p = some q → q < s.nr ∧ ¬ Ancestor (parentIn s) q r) → Tot (replaceRing r p >>= fun _ => do
        updatePoints k
        modBound rb fun bd => { bd with ring := none }
        modBound kb fun bd => { bd with ring := none }
        let abl ← gets St.abl
        reattach r k kb abl : M Unit) s2 fun _ s' => Inv (fun _ => False) s' → Still s s' → HW s' := by
      intro p hp
      refine Tot.bind (Tot.steady ((((replaceRing_node r p s2).and (replaceRing_parents r p hinv2)).and ((Post.of_pres (s := s2) (botSame_replaceRing r p)).mono (fun _ _ h => h) fun _ _ _ => trivial)).imp ?_))
      rintro _ s3 ⟨⟨⟨⟨rings3, ch3, rfl, hnode3⟩, hr3⟩, hpr, hpar3⟩, hbot3⟩
      dsimp only at hr3 hpar3
      have hnk3 : (rings3 k).node = J.head? := (hnode3 k hkr).trans hnodek
      have hJne : J ≠ [] := hcyc.ne_nil
      obtain ⟨c, J', hc⟩ : ∃ c J', J = c :: J' := List.exists_cons_of_ne_nil hJne
      refine Tot.bind (Tot.run (a := ()) (s' := { s with nodes := withRing J (some k) nodes1, rings := rings3, children := ch3 }) (J.length + 1) (fun n hn => ?_) ?_)
      · have := updatePoints_run (s := St.wf { s with nodes := nodes1, rings := rings3, children := ch3 } n) (r := k) (a := c) (t := J')
          (by show (rings3 k).node = _; rw [hnk3, hc]; rfl) (hc ▸ hcyc) (by rw [hc] at hn; show J'.length < n; simp at hn; omega)
        rw [hc]
        exact this
      refine Tot.bind (Tot.modBound (Tot.bind (Tot.modBound (Tot.bind (Tot.gets (fun _ _ => rfl) ?_)))))
      refine (Tot.steady (reattach_held _ _ _ _ _)).imp ?_
      rintro _ s4 ⟨bounds4, rfl, hring4⟩ hi hst
      have hring : ∀ c q, (bounds4 c).ring = some q → (s.bounds c).ring = some q ∨ q = k := fun c q hcq => by
        rcases hring4 c with h1 | h1
        · rw [hcq] at h1
          left
          dsimp only at h1
          by_cases hck : c = kb
          · subst hck; rw [Wagyu.upd_same] at h1; cases h1
          · rw [upd_ne _ _ hck] at h1
            by_cases hcr : c = rb
            · subst hcr; rw [Wagyu.upd_same] at h1; cases h1
            · rw [upd_ne _ _ hcr] at h1; exact h1.symm
        · rw [hcq] at h1; exact Or.inr (Option.some.inj h1)
      refine ⟨?_, fun j => (hbot3 j).trans (hbot2 j), hi, fun j q hjq => ?_, ?_, fun c q h1 h2 => ?_, h.once⟩
      · obtain ⟨L', hL', -⟩ := RingsOf.replace (s' := { s with nodes := withRing J (some k) nodes1, rings := rings3, children := ch3, bounds := bounds4 }) hL (r := k) (l := J) (fun j => j = r)
          (fun j hj => ⟨hj ▸ hkr.symm, by rw [hj]; exact hr3⟩) hkn (Nat.le_refl _) (isCycle_withRing hcyc) (Nat.le_refl _)
          (fun i => by
            rw [hJ, mem_joined]
            constructor
            · rintro (h1 | h1)
              · exact Or.inl h1
              · exact Or.inr (Or.inl ⟨r, rfl, h1⟩)
            · rintro (h1 | ⟨_, rfl, h1⟩ | ⟨h1, h2⟩)
              · exact Or.inl h1
              · exact Or.inr h1
              · dsimp only at h2; omega)
          (fun i hi => by show (withRing J (some k) nodes1 i).ring = _; unfold withRing; rw [if_pos hi])
          (fun i hi _ => by show withRing J (some k) nodes1 i = _; unfold withRing; rw [if_neg hi]; exact hol.2 i hi)
          hnk3 (fun j h1 h2 => (hnode3 j h2).trans (hnode2 j h1 h2))
        exact ⟨L', hL'⟩
      · have h1 := hpar3 j
        rw [hpar2 j] at h1
        change (rings3 j).parent = some q at hjq
        rw [h1] at hjq
        split at hjq
        · exact (hp q hjq).1
        · exact h.par j q hjq
      · -- the new rank
        classical
        have hlow : ∀ j, (if Ancestor (parentIn s) j r then (1 : Nat) else 0) ≤ 1 := fun j => by split <;> omega
        refine ⟨fun j => rk j + (if Ancestor (parentIn s) j r then (match p with | none => 0 | some q => rk q + 1) else 0), fun j q hjq => ?_⟩
        have h1 := hpar3 j
        rw [hpar2 j] at h1
        change (rings3 j).parent = some q at hjq
        rw [h1] at hjq
        dsimp only
        split at hjq
        · next hj =>
          subst hjq
          rw [if_neg (hp q rfl).2, if_pos (Ancestor.parent (hchild j hj))]
          dsimp only; omega
        · have h2 := hrk j q hjq
          by_cases hq : Ancestor (parentIn s) q r
          · rw [if_pos hq, if_pos (Ancestor.further hjq hq)]; omega
          · rw [if_neg hq]; omega
      · rcases hring c q h2 with h3 | h3
        · exact h.held c q h1 h3
        · rw [h3]; exact hkn
    refine Tot.ite (fun _ => Tot.bind (Tot.getRing (tail _ fun q hq => ?_))) fun _ => tail _ fun q hq => ?_
    · change (rings2 k).parent = some q at hq
      rw [hpar2 k] at hq
      exact ⟨h.par k q hq, fun hx => hanc (Ancestor.further hq hx)⟩
    · obtain rfl := Option.some.inj hq
      exact ⟨hkn, hanc⟩
  unfold appendRing
  refine Tot.bind (Tot.getBound (Tot.bind (Tot.deref fun f' hf' => ?_)))
  obtain rfl : f = f' := by rw [hf] at hf'; exact Option.some.inj hf'
  refine Tot.bind (Tot.getBound (Tot.bind (Tot.deref fun g' hg' => ?_)))
  obtain rfl : g = g' := by rw [hg] at hg'; exact Option.some.inj hg'
  refine Tot.bind ((tot_chooseKeep h hne a b).imp ?_)
  rintro ⟨k, r, kb, rb⟩ s₀ ⟨hB, ⟨hq, hanc⟩ | ⟨hq, hanc⟩⟩
  · obtain ⟨rfl, rfl, rfl, rfl⟩ : k = f ∧ r = g ∧ kb = a ∧ rb = b := by simpa using hq
    exact main s₀ k r kb rb hB hne hfn hanc
  · obtain ⟨rfl, rfl, rfl, rfl⟩ : k = g ∧ r = f ∧ kb = b ∧ rb = a := by simpa using hq
    exact main s₀ k r kb rb hB.symm hne.symm hgn hanc

theorem tot_addLocalMaximumPoint (h : HW s) {a b : Nat} (ha : some a ∈ s.abl) (hb : some b ∈ s.abl) (p : Point) :
    Tot (addLocalMaximumPoint p a b) s fun _ s' => Grown s s' := by
  unfold addLocalMaximumPoint
  refine Tot.bind ((tot_insertHotPixelsInPath h hb p false).imp fun _ s1 hg1 => ?_)
  refine Tot.bind ((tot_addPoint hg1.hw (hg1.active ha) p).imp fun _ s2 hg2 => ?_)
  have hg2 := hg1.trans hg2
  refine Tot.bind (Tot.getBound (Tot.bind (Tot.getBound ?_)))
  refine Tot.ite (fun _ => ?_) fun hne => ?_
  · exact Tot.bound hg2 (fun _ => ⟨rfl, rfl, rfl, rfl, rfl⟩) nofun fun s3 hg3 => tot_modBound hg3 (fun _ => ⟨rfl, rfl, rfl, rfl, rfl⟩) nofun
  · refine Tot.bind (Tot.deref fun f hf => Tot.bind (Tot.deref fun g hg => ?_))
    have hfg : f ≠ g := fun e => hne (by rw [hf, hg, e])
    refine Tot.ite (fun _ => ?_) fun _ => ?_
    · exact (tot_appendRing hg2.hw hf hg (hg2.active ha) (hg2.active hb) hfg).imp fun _ _ h3 => hg2.trans h3
    · exact (tot_appendRing hg2.hw hg hf (hg2.active hb) (hg2.active ha) hfg.symm).imp fun _ _ h3 => hg2.trans h3

theorem tot_swapRings (h : HW s) {a b : Nat} (ha : some a ∈ s.abl) (hb : some b ∈ s.abl) :
    Tot (swapRings a b) s fun _ s' => Grown s s' := by
  unfold swapRings
  refine Tot.bind (Tot.getBound (Tot.bind (Tot.getBound ?_)))
  refine Tot.bind (Tot.modBound (Tot.bind (Tot.modBound (Tot.bind (Tot.modBound (Tot.modBound ?_))))))
  dsimp only
  set B := upd _ b _ with hB
  have key : ∀ c, SamePlace (s.bounds c) (B c) ∧ ((B c).ring = (s.bounds a).ring ∨ (B c).ring = (s.bounds b).ring ∨ (B c).ring = (s.bounds c).ring) := by
    intro c
    rw [hB]
    by_cases hcb : c = b
    · subst hcb
      rw [Wagyu.upd_same]
      by_cases hca : c = a
      · subst hca; simp only [Wagyu.upd_same]; exact ⟨⟨rfl, rfl, rfl, rfl, rfl⟩, by simp⟩
      · simp only [Wagyu.upd_same, upd_ne _ _ hca]; exact ⟨⟨rfl, rfl, rfl, rfl, rfl⟩, by simp⟩
    · rw [upd_ne _ _ hcb]
      by_cases hca : c = a
      · subst hca; simp only [Wagyu.upd_same, upd_ne _ _ hcb]; exact ⟨⟨rfl, rfl, rfl, rfl, rfl⟩, by simp⟩
      · simp only [upd_ne _ _ hca, upd_ne _ _ hcb]; exact ⟨SamePlace.refl _, by simp⟩
  refine ⟨⟨h.rings, h.bottom, ⟨h.forest.1, h.forest.2, h.forest.3⟩, h.par, h.rank, fun c r hc h1 => ?_, h.once⟩, ⟨rfl, rfl, rfl, rfl, fun c => (key c).1⟩⟩
  change (B c).ring = some r at h1
  rcases (key c).2 with h2 | h2 | h2 <;> rw [h2] at h1
  · exact h.held a r ha h1
  · exact h.held b r hb h1
  · exact h.held c r hc h1

theorem tot_intersectBounds (h : HW s) {a b : Nat} (ha : some a ∈ s.abl) (hb : some b ∈ s.abl) (p : Point) (op : OperationKind) (sf cf : FillKind) :
    Tot (intersectBounds p op sf cf a b) s fun _ s' => Grown s s' := by
  unfold intersectBounds
  refine Tot.bind (Tot.getBound (Tot.bind (Tot.getBound ?_)))
  refine Tot.bound' (Grown.refl h) (fun _ => ⟨rfl, rfl, rfl, rfl, rfl⟩) (fun _ => rfl) fun s1 h1 => ?_
  refine Tot.bound' h1 (fun _ => ⟨rfl, rfl, rfl, rfl, rfl⟩) (fun _ => rfl) fun s2 h2 => ?_
  have swap : ∀ {s3}, Grown s s3 → Tot (swapRings a b) s3 fun _ s' => Grown s s' := fun h3 =>
    (tot_swapRings h3.hw (h3.active ha) (h3.active hb)).imp fun _ _ h4 => h3.trans h4
  have mini : Tot (addLocalMinimumPoint p a b) s2 fun _ s' => Grown s s' :=
    (tot_addLocalMinimumPoint h2.hw (h2.active ha) (h2.active hb) p).imp fun _ _ h4 => h2.trans h4
  refine Tot.ite (fun _ => ?_) fun _ => Tot.ite (fun _ => ?_) fun _ => Tot.ite (fun _ => ?_) fun _ => Tot.ite (fun _ => ?_) fun _ => Tot.pure h2
  · refine Tot.ite (fun _ => (tot_addLocalMaximumPoint h2.hw (h2.active ha) (h2.active hb) p).imp fun _ _ h4 => h2.trans h4) fun _ => ?_
    refine Tot.bind ((tot_addPoint h2.hw (h2.active ha) p).imp fun _ s3 h3 => ?_)
    have h3 := h2.trans h3
    refine Tot.bind ((tot_addPoint h3.hw (h3.active hb) p).imp fun _ s4 h4 => ?_)
    exact swap (h3.trans h4)
  · refine Tot.ite (fun _ => ?_) fun _ => Tot.pure h2
    refine Tot.bind ((tot_addPoint h2.hw (h2.active ha) p).imp fun _ s3 h3 => ?_)
    exact Tot.bound' (h2.trans h3) (fun _ => ⟨rfl, rfl, rfl, rfl, rfl⟩) (fun _ => rfl) fun s4 h4 => swap h4
  · refine Tot.ite (fun _ => ?_) fun _ => Tot.pure h2
    refine Tot.bound' h2 (fun _ => ⟨rfl, rfl, rfl, rfl, rfl⟩) (fun _ => rfl) fun s3 h3 => ?_
    exact Tot.bind ((tot_addPoint h3.hw (h3.active hb) p).imp fun _ s4 h4 => swap (h3.trans h4))
  · refine Tot.ite (fun _ => mini) fun _ => Tot.ite (fun _ => Tot.ite (fun _ => mini) fun _ => Tot.pure h2) fun _ => ?_
    exact Tot.bound' h2 (fun _ => ⟨rfl, rfl, rfl, rfl, rfl⟩) (fun _ => rfl) fun s3 h3 => tot_modBound' h3 (fun _ => ⟨rfl, rfl, rfl, rfl, rfl⟩) (fun _ => rfl)

end

end Wagyu
