import Verif.Proofs.LastSwap

/-!
# Merging the rings along a loop
-/

namespace Wagyu

open Spec

theorem St.eq_of_wf {s s' : St} {f : Nat} (h : s'.wf f = s) (hf : s'.fuel = s.fuel) : s' = s := by
  have e : (s'.wf f).wf s'.fuel = s.wf s'.fuel := by rw [h]
  rw [hf] at e
  have e1 : (s'.wf f).wf s.fuel = s'.wf s'.fuel := by rw [hf]; rfl
  exact (e1.symm.trans e : s'.wf s'.fuel = s.wf s.fuel)

theorem Ok.of_ends' {α : Type} {E : Err → Prop} {m : M α} [hu : Up m m] {s : St} {Q : α → St → Prop} (h : Ends E m s Q) :
    Ok m s fun a s' => s'.fuel = s.fuel ∧ ∃ f, Q a (s'.wf f) := by
  refine Ok.intro fun a s1 e => ⟨?_, (Ok.of_ends h).elim e⟩
  have := hu.keep s
  rw [e] at this
  exact this

/-- The invariant of the last stage. -/
structure LI (s : St) (L : Nat → List Nat) : Prop where
  ti : TI s L
  known : Known s L
  once : ∀ r, (s.rings r).corrected = true → Once s (L r)

/-- The edges are distributed anew over the rings. -/
structure Relinked (s : St) (L : Nat → List Nat) (s' : St) (L' : Nat → List Nat) : Prop where
  nn : s'.nn = s.nn
  nr : s.nr ≤ s'.nr
  all : s'.allNodes = s.allNodes
  loc : ∀ i, locOf s'.nodes i = locOf s.nodes i
  kept : ∀ i k, i ∈ L k → ∃ k', i ∈ L' k'
  back : ∀ i k, i ∈ L' k → ∃ k', i ∈ L k'
  total : ∀ c, edgeTotal c s'.nodes L' s'.nr = edgeTotal c s.nodes L s.nr

section
variable {s s' : St} {L L' : Nat → List Nat}

theorem Relinked.refl (s : St) (L : Nat → List Nat) : Relinked s L s L :=
  ⟨rfl, Nat.le_refl _, rfl, fun _ => rfl, fun _ k h => ⟨k, h⟩, fun _ k h => ⟨k, h⟩, fun _ => rfl⟩
theorem Relinked.trans {s'' : St} {L'' : Nat → List Nat} (h : Relinked s L s' L') (k : Relinked s' L' s'' L'') : Relinked s L s'' L'' :=
  ⟨k.nn.trans h.nn, h.nr.trans k.nr, k.all.trans h.all, fun i => (k.loc i).trans (h.loc i),
    fun i q hi => let ⟨p, hp⟩ := h.kept i q hi; k.kept i p hp, fun i q hi => let ⟨p, hp⟩ := k.back i q hi; h.back i p hp, fun c => (k.total c).trans (h.total c)⟩
theorem OnlyTree.relinked (h : OnlyTree s s') : Relinked s L s' L :=
  ⟨h.nn, h.nr.ge, h.all, fun i => by rw [h.nodes], fun _ k h => ⟨k, h⟩, fun _ k h => ⟨k, h⟩, fun c => by rw [h.nodes, h.nr]⟩
theorem OnlyTree.li (h : OnlyTree s s') (hs : LI s L) : LI s' L :=
  ⟨h.ti hs.ti, h.known hs.known, fun r hr => (hs.once r (by rw [← (h.rings r).mark]; exact hr)).congr fun i => by rw [h.nodes]⟩

theorem StatsOf.alike {nodes : Nat → Node} {l : List Nat} {g g' : Ring} (h : StatsOf nodes l g) (a : Alike g' g) : StatsOf nodes l g' :=
  ⟨by rw [a.area]; exact h.area, by rw [a.size]; exact h.size, by rw [a.hole, a.area]; exact h.hole, by rw [a.box]; exact h.box⟩

/-- The rings in `D` exchange nodes. -/
theorem TI.update (h : TI s L) (D : Nat → Prop) (L' : Nat → List Nat) (hnn : s'.nn = s.nn) (hnr : s.nr ≤ s'.nr)
    (hloc : ∀ i, locOf s'.nodes i = locOf s.nodes i)
    (hL : ∀ r, ¬ D r → L' r = L r)
    (hf : ∀ r, ¬ D r → Alike (s'.rings r) (s.rings r))
    (hout : ∀ i, (∀ d, D d → i ∉ L d) → s'.nodes i = s.nodes i)
    (hh : ∀ d, D d → (s'.rings d).node = (L' d).head?)
    (hc : ∀ d, D d → L' d ≠ [] → d < s'.nr ∧ IsCycle s'.nodes (L' d))
    (hown : ∀ d, D d → ∀ i ∈ L' d, (∃ e, D e ∧ i ∈ L e) ∧ (s'.nodes i).ring = some d)
    (hk : ∀ e, D e → ∀ i ∈ L e, ∀ r, (s'.nodes i).ring = some r → D r ∧ i ∈ L' r)
    (hso : ∀ d, D d → L' d ≠ [] → StatsOf s.nodes (L' d) (s'.rings d))
    (hbl : ∀ d, D d → L' d = [] → Statless (s'.rings d)) : TI s' L' := by
  refine ⟨h.own.update D L' hnn hnr hL (fun r hr => (hf r hr).1) hout hh hc hown hk, fun r hr hn => ?_, fun r hr => ?_⟩
  · rw [pointsOf_congr hloc]
    by_cases hd : D r
    · exact ⟨(hso r hd hr).area, (hso r hd hr).hole, (hso r hd hr).box, (hso r hd hr).size.ge⟩
    · have hf := hf r hd
      rw [hL r hd] at hr ⊢
      rw [hf.area] at hn ⊢
      rw [hf.hole, hf.box, hf.size]
      exact h.sound r hr hn
  · by_cases hd : D r
    · exact hbl r hd hr
    · rw [hL r hd] at hr
      exact (h.blank r hr).congr (hf r hd)

/-! ## Replacing rings -/

/-- The rings of `l` have been emptied. -/
structure Emptied (l : List Nat) (s s' : St) : Prop where
  nodes : s'.nodes = s.nodes
  nn : s'.nn = s.nn
  nr : s'.nr = s.nr
  all : s'.allNodes = s.allNodes
  same : ∀ r, r ∉ l → Alike (s'.rings r) (s.rings r)
  gone : ∀ r ∈ l, (s'.rings r).node = none ∧ Statless (s'.rings r)

theorem OnlyTree.emptied {l : List Nat} {s1 : St} (h : OnlyTree s s1) (k : Emptied l s1 s') : Emptied l s s' :=
  ⟨k.nodes.trans h.nodes, k.nn.trans h.nn, k.nr.trans h.nr, k.all.trans h.all, fun r hr => (k.same r hr).trans (h.rings r), k.gone⟩

theorem ok_replaceRing (r : Nat) (p : Option Nat) : Ok (replaceRing r p) s fun _ s' => Emptied [r] s s' := by
  unfold replaceRing
  refine Post.ite (fun _ => trivial) fun _ => ?_
  refine Post.bind (Post.getRing ?_)
  refine Post.bind ((Post.of_pres (R := OnlyTree) (Pres.forElse (fun i => ?_) (fun _ => by pres) _ _)).mono ?_ fun _ _ _ => trivial)
  · pres
  · intro _ s1 h1
    refine Post.bind (Post.getRing ?_)
    refine Post.bind ((Post.of_pres (R := OnlyTree) (ot01 _ _)).mono ?_ fun _ _ _ => trivial)
    intro _ s2 h2
    refine Post.modRing ((Preo.trans h1 h2).emptied ⟨rfl, rfl, rfl, rfl, fun k hk => ?_, fun k hk => ?_⟩)
    · dsimp only
      rw [Wagyu.upd_ne _ _ (fun e => hk (by simp [e]))]; exact Alike.refl _
    · rw [List.mem_singleton.1 hk]
      dsimp only
      rw [Wagyu.upd_same]
      exact ⟨rfl, rfl⟩

theorem Emptied.trans {l l' : List Nat} {s1 : St} (h : Emptied l s s1) (k : Emptied l' s1 s') : Emptied (l ++ l') s s' := by
  refine ⟨k.nodes.trans h.nodes, k.nn.trans h.nn, k.nr.trans h.nr, k.all.trans h.all, fun r hr => ?_, fun r hr => ?_⟩
  · rw [List.mem_append, not_or] at hr
    exact (k.same r hr.2).trans (h.same r hr.1)
  · by_cases e : r ∈ l'
    · exact k.gone r e
    · obtain ⟨g1, g2⟩ := h.gone r ((List.mem_append.1 hr).resolve_right e)
      exact ⟨(k.same r e).node.trans g1, g2.congr (k.same r e)⟩

theorem ok_replaceAll {f : LoopItem → M Unit} (hf : ∀ it s, Ok (f it) s fun _ s' => Emptied [it.1] s s') :
    ∀ (l : List LoopItem) (s : St), Ok (forList l f) s fun _ s' => Emptied (l.map Prod.fst) s s'
  | [], s => Post.pure ⟨rfl, rfl, rfl, rfl, fun _ _ => Alike.refl _, by simp⟩
  | it :: l, s => by
    rw [forList]
    refine Post.bind ((hf it s).imp fun _ s1 h1 => (ok_replaceAll hf l s1).imp fun _ s2 h2 => ?_)
    have := h1.trans h2
    simpa using this

/-! ## The loop -/

/-- The items form a loop, up to the order. -/
structure LoopOf (s : St) (L : Nat → List Nat) (first : Hop) (iList : List Hop) : Prop where
  ex : ∃ items, iList.Perm items ∧ items ≠ [] ∧ Cycle.Chain (Follows L) (↑(first :: items) : Cycle Hop)
    ∧ ((first :: items).map Prod.fst).Nodup ∧ ∀ it ∈ first :: items, locOf s.nodes it.2.1 = locOf s.nodes it.2.2

theorem chain_mem {L : Nat → List Nat} {first : Hop} {items : List Hop} (hloop : Cycle.Chain (Follows L) (↑(first :: items) : Cycle Hop)) :
    ∀ it ∈ first :: items, it.2.1 ∈ L it.1 := by
  rw [Cycle.chain_coe_cons] at hloop
  have hf := forall₂_of_chain items first first hloop
  have : ∀ {l l' : List Hop}, List.Forall₂ (Follows L) l l' → ∀ it ∈ l', it.2.1 ∈ L it.1 := by
    intro l l' h
    induction h with
    | nil => simp
    | cons h _ ih =>
      intro it hit
      rcases List.mem_cons.1 hit with rfl | hit
      · exact h.2.1
      · exact ih it hit
  intro it hit
  exact this hf it ((List.perm_append_singleton _ _).mem_iff.2 hit)

/-- What the exchanges of successors do. -/
theorem run_exchanges (h : TI s L) {O a b : Nat} {iList : List Hop} (hl : LoopOf s L (O, a, b) iList) :
    ∃ H : Nat → Node, (∀ {β : Type} (k : Unit → M β), (do
        switchNext a b
        forList iList fun it => switchNext it.2.1 it.2.2
        k () : M β) s = k () { s with nodes := H })
      ∧ (∀ i, locOf H i = locOf s.nodes i) ∧ (∀ i, (H i).ring = (s.nodes i).ring) ∧ O ∉ iList.map Prod.fst ∧ L O ≠ [] ∧ (∀ r ∈ iList.map Prod.fst, L r ≠ [])
      ∧ (iList.map Prod.fst).Nodup
      ∧ (∀ i, (∀ r, r = O ∨ r ∈ iList.map Prod.fst → i ∉ L r) → H i = s.nodes i)
      ∧ ∃ C D, IsCycle H (a :: C) ∧ IsCycle H (b :: D)
        ∧ (∀ i, i ∈ (a :: C) ++ (b :: D) ↔ ∃ r, (r = O ∨ r ∈ iList.map Prod.fst) ∧ i ∈ L r) ∧ (∀ i ∈ a :: C, i ∉ b :: D)
        ∧ ∀ c, ringSum c (pointsOf s.nodes (a :: C)) + ringSum c (pointsOf s.nodes (b :: D))
          = ringSum c (pointsOf s.nodes (L O)) + (iList.map fun it => ringSum c (pointsOf s.nodes (L it.1))).sum := by
  obtain ⟨items, hp, hne, hloop, hn, hloc⟩ := hl.ex
  have hfst := hp.map Prod.fst
  have hmem : ∀ r, (r = O ∨ r ∈ iList.map Prod.fst) ↔ r ∈ ((O, a, b) :: items).map Prod.fst := by
    intro r; rw [hfst.mem_iff]; simp
  have hd : ∀ r ∈ ((O, a, b) :: items).map Prod.fst, ∀ r' ∈ ((O, a, b) :: items).map Prod.fst, r ≠ r' → ∀ i ∈ L r, i ∉ L r' :=
    fun r _ r' _ hrr i h1 h2 => hrr (h.own.dist h1 h2)
  have hin := chain_mem hloop
  have hc : ∀ it ∈ (O, a, b) :: items, IsCycle s.nodes (L it.1) := fun it hit => h.own.cyc (hin it hit)
  obtain ⟨e1, e2⟩ := ends_nodup hloop hn hd
  let S : Nat → Prop := fun i => ∃ r, r ∈ ((O, a, b) :: items).map Prod.fst ∧ i ∈ L r
  have hS : ∀ i ∈ endsOf (pairsOf ((O, a, b) :: items)), S i := fun i hi => let ⟨r, h1, h2⟩ := e2 i hi; ⟨r, h1, h2⟩
  have hdist : Distinct s.nodes S := by
    refine ⟨fun x ⟨r, _, hx⟩ => isCycle_next (h.own.cyc hx) hx, fun x y ⟨r, _, hx⟩ ⟨r', _, hy⟩ hxy => ?_⟩
    obtain ⟨u, hu⟩ := isCycle_next (h.own.cyc hx) hx
    have h1 := ((h.own.link hx).1 hu).2
    have h2 := ((h.own.link hy).1 (hxy ▸ hu)).2
    exact Option.some.inj (h1.symm.trans h2)
  have hcl : ClosedUnder s.nodes S := by
    rintro x ⟨r, hr, hx⟩ u hu
    exact ⟨r, hr, ((h.own.link hx).1 hu).1⟩
  have hp' : (pairsOf ((O, a, b) :: iList)).Perm (pairsOf ((O, a, b) :: items)) := (hp.cons _).map _
  have hpe : (endsOf (pairsOf ((O, a, b) :: iList))).Perm (endsOf (pairsOf ((O, a, b) :: items))) := (hp'.map _).append (hp'.map _)
  have heq : swAll s.nodes (pairsOf ((O, a, b) :: iList)) = swAll s.nodes (pairsOf ((O, a, b) :: items)) :=
    swAll_perm hp' hdist (fun x hx => hS x (hpe.mem_iff.1 hx)) (hpe.nodup_iff.2 e1)
  have hrun := run_switchAll ((O, a, b) :: iList) hdist (fun x hx => hS x (hpe.mem_iff.1 hx)) (hpe.nodup_iff.2 e1)
  obtain ⟨C, D, c1, c2, c3, c4, c5, -, c7⟩ := sw_loop hne hloop hloc hc hn hd
  obtain ⟨C', r1, r2⟩ := cycle_rot c1 c3
  obtain ⟨D', r3, r4⟩ := cycle_rot c2 c4
  dsimp only at r1 r2 r3 r4
  refine ⟨swAll s.nodes (pairsOf ((O, a, b) :: items)), fun k => ?_, swAll_loc _, swAll_ring _, ?_, ?_, fun r hr => ?_, ?_, fun i hi => ?_,
    C', D', r1, r3, fun i => ?_, fun i h1 h2 => ?_, fun c => ?_⟩
  · rw [← heq]
    rw [forList] at hrun
    have e : (do
        switchNext a b
        forList iList fun it => switchNext it.2.1 it.2.2
        k ()) = (switchNext a b >>= fun _ => forList iList fun it => switchNext it.2.1 it.2.2) >>= k := (bind_assoc' _ _ _).symm
    rw [e, run_bind, hrun]
  · have := (List.nodup_cons.1 (by simpa using hn : (O :: items.map Prod.fst).Nodup)).1
    exact fun hm => this (hfst.mem_iff.1 hm)
  · exact List.ne_nil_of_mem (hin (O, a, b) (by simp))
  · have := (hmem r).1 (Or.inr hr)
    obtain ⟨it, hit, rfl⟩ := List.mem_map.1 this
    exact List.ne_nil_of_mem (hin it hit)
  · exact hfst.nodup_iff.2 (List.nodup_cons.1 (by simpa using hn : (O :: items.map Prod.fst).Nodup)).2
  · refine ClosedUnder.swAll _ hcl hS ?_
    rintro ⟨r, hr, hir⟩
    exact hi r ((hmem r).2 hr) hir
  · rw [List.mem_append, r2.mem_iff, r4.mem_iff, ← List.mem_append, c5.mem_iff, List.mem_flatten]
    constructor
    · rintro ⟨l, hl, hi⟩
      obtain ⟨it, hit, rfl⟩ := List.mem_map.1 hl
      exact ⟨it.1, (hmem _).2 (List.mem_map_of_mem hit), hi⟩
    · rintro ⟨r, hr, hi⟩
      obtain ⟨it, hit, rfl⟩ := List.mem_map.1 ((hmem r).1 hr)
      exact ⟨_, List.mem_map_of_mem hit, hi⟩
  · have hnd : (C ++ D).Nodup := by
      refine c5.nodup_iff.2 (List.nodup_flatten.2 ⟨fun l hl => ?_, ?_⟩)
      · obtain ⟨it, hit, rfl⟩ := List.mem_map.1 hl
        exact (hc it hit).nodup
      · rw [List.pairwise_map]
        have : (((O, a, b) :: items).map Prod.fst).Pairwise (· ≠ ·) := hn
        rw [List.pairwise_map] at this
        refine this.imp_of_mem fun {x y} hx hy hxy => ?_
        exact fun i h1 h2 => hxy (h.own.dist h1 h2)
    exact (List.nodup_append.1 hnd).2.2 i (r2.mem_iff.1 h1) i (r4.mem_iff.1 h2) rfl
  · have := c7 c
    rw [List.map_cons, List.sum_cons] at this
    rw [ringSum_rot c (pointsOf_rot (h := s.nodes) r2), ringSum_rot c (pointsOf_rot (h := s.nodes) r4)]
    unfold pointsOf
    rw [this]
    congr 1
    exact ((hp.map _).sum_eq).symm

end

end Wagyu
