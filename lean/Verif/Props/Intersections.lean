import Verif.Proofs.Quiet
import Verif.Props.BubbleSort
import Mathlib.Data.List.Chain

/-!
# C08: crossings are processed in a feasible order
-/

namespace Wagyu

open Spec

/-! ## Specification -/

/-- What is done for one crossing: its point is rounded and the two bounds are crossed (ring_manager.py:1675-1680). -/
def crossOne (op : OperationKind) (sf cf : FillKind) (n : IntersectNode) : M Unit := do
  let p ← liftE n.point.round
  intersectBounds p op sf cf n.first n.second

/-- `Processed s ns r`: starting in `s`, the crossings `ns` are processed one after the other, with outcome `r`.  At the
moment a crossing is processed its first bound is immediately left of its second one in the list of active bounds;
afterwards the two are exchanged.  The only exceptions are those of processing a crossing itself. -/
inductive Processed (op : OperationKind) (sf cf : FillKind) : St → List IntersectNode → Res Unit → Prop
  | done (s : St) : Processed op sf cf s [] (.ok () s)
  | fail {s s' : St} {n : IntersectNode} {ns : List IntersectNode} {p q : List (Option Nat)} {e : Err} :
      s.abl = p ++ some n.first :: some n.second :: q → crossOne op sf cf n s = .err e s' →
      Processed op sf cf s (n :: ns) (.err e s')
  | step {s s' : St} {n : IntersectNode} {ns : List IntersectNode} {p q : List (Option Nat)} {r : Res Unit} :
      s.abl = p ++ some n.first :: some n.second :: q → crossOne op sf cf n s = .ok () s' →
      Processed op sf cf { s' with abl := p ++ some n.second :: some n.first :: q } ns r →
      Processed op sf cf s (n :: ns) r

/-- The two bounds of a crossing. -/
def IntersectNode.pair (n : IntersectNode) : Nat × Nat := (n.first, n.second)

/-! ## Lists -/

theorem before_trans {α : Type} {l : List α} (hl : l.Nodup) {x y z : α} (h1 : Before l x y) (h2 : Before l y z) :
    Before l x z := by
  induction l with
  | nil => exact absurd h1 (before_nil _ _)
  | cons a l ih =>
    rw [List.nodup_cons] at hl
    rw [before_cons] at h1 h2 ⊢
    rcases h1 with ⟨rfl, h1⟩ | h1
    · rcases h2 with ⟨rfl, h2⟩ | h2
      · exact absurd h1 hl.1
      · exact Or.inl ⟨rfl, h2.mem_right⟩
    · rcases h2 with ⟨rfl, h2⟩ | h2
      · exact absurd h1.mem_right hl.1
      · exact Or.inr (ih hl.2 h1 h2)

/-- If some pair is to be exchanged then some pair of neighbours is. -/
theorem exists_adjacent {α : Type} {l r : List α} (hl : l.Nodup) (hr : r.Perm l) {x y : α} (h : Before l x y)
    (h' : Before r y x) : ∃ p a b s, l = p ++ a :: b :: s ∧ Before r b a := by
  by_contra hn
  push Not at hn
  have hrn : r.Nodup := hr.nodup_iff.2 hl
  have chain : l.IsChain (Before r) := by
    rw [List.isChain_iff_forall_rel_of_append_cons_cons]
    intro a b p s he
    subst he
    have hab : a ≠ b := by
      have := (List.nodup_append.1 hl).2.1
      simp only [List.nodup_cons, List.mem_cons, not_or] at this
      exact this.1.1
    rcases before_total (hr.mem_iff.2 (show a ∈ _ by simp)) (hr.mem_iff.2 (show b ∈ _ by simp)) hab with h | h
    · exact h
    · exact absurd h (hn p a b s rfl)
  have : IsTrans α (Before r) := ⟨fun _ _ _ h1 h2 => before_trans hrn h1 h2⟩
  have pw := List.isChain_iff_pairwise.1 chain
  have := (List.pairwise_iff_forall_sublist.1 pw) h
  exact before_asymm hrn this h'

/-- If no pair is to be exchanged the lists are equal. -/
theorem eq_of_no_inversion {α : Type} {l r : List α} (hl : l.Nodup) (hr : r.Perm l)
    (h : ∀ x y, Before l x y → ¬ Before r y x) : l = r := by
  have hrn : r.Nodup := hr.nodup_iff.2 hl
  have pl : l.Pairwise (Before r) := by
    rw [List.pairwise_iff_forall_sublist]
    intro a b hab
    have hne : a ≠ b := by rintro rfl; exact before_irrefl hl a hab
    rcases before_total (hr.mem_iff.2 (Spec.Before.mem_left hab)) (hr.mem_iff.2 (Spec.Before.mem_right hab)) hne with h1 | h1
    · exact h1
    · exact absurd h1 (h a b hab)
  have pr : r.Pairwise (Before r) := List.pairwise_iff_forall_sublist.2 fun h => h
  exact (List.Perm.eq_of_pairwise (fun a b _ _ h1 h2 => absurd h2 (before_asymm hrn h1)) pl pr hr.symm)

theorem exists_split {l : List Nat} (hl : l.Nodup) {a b : Nat} (h : Before l a b) :
    ∃ p c q, l = p ++ a :: c :: q ∧ a ∉ p ∧ b ∉ p ∧ (c = b ↔ ∃ p' s, l = p' ++ a :: b :: s) := by
  have ha : a ∈ l := h.mem_left
  obtain ⟨p, q, rfl⟩ := List.append_of_mem ha
  have hnd := List.nodup_append.1 hl
  have hap : a ∉ p := fun hm => hnd.2.2 a hm a (by simp) rfl
  have haq : a ∉ q := (List.nodup_cons.1 hnd.2.1).1
  have hbq : b ∈ q := by
    rw [before_append, before_cons] at h
    rcases h with h | ⟨h, _⟩ | ⟨_, h⟩ | h
    · exact absurd h.mem_left hap
    · exact absurd h hap
    · exact h
    · exact absurd h.mem_left haq
  have hbp : b ∉ p := fun hm => hnd.2.2 b hm b (by simp [hbq]) rfl
  cases q with
  | nil => cases hbq
  | cons c q =>
    refine ⟨p, c, q, rfl, hap, hbp, ?_⟩
    constructor
    · rintro rfl; exact ⟨p, q, rfl⟩
    · rintro ⟨p', s, he⟩
      have hnd2 : (p' ++ a :: b :: s).Nodup := he ▸ hl
      have hap' : a ∉ p' := fun hm => (List.nodup_append.1 hnd2).2.2 a hm a (by simp) rfl
      have key : ∀ (u v : List Nat) (x y : List Nat), a ∉ u → a ∉ v → u ++ a :: x = v ++ a :: y → x = y := by
        intro u
        induction u with
        | nil =>
          intro v x y _ hv h
          cases v with
          | nil => simpa using h
          | cons w v => simp at h; exact absurd (by simp [h.1]) hv
        | cons w u ih =>
          intro v x y hu hv h
          cases v with
          | nil => simp at h; exact absurd (by simp [h.1]) hu
          | cons w' v =>
            simp at h
            exact ih v x y (fun hm => hu (List.mem_cons_of_mem _ hm)) (fun hm => hv (List.mem_cons_of_mem _ hm)) h.2
      have := key p p' _ _ hap hap' he
      exact (List.cons.inj this).1

theorem crossingPosition_eq (s : St) (ids : List Nat) (hs : s.abl = ids.map some) (n : IntersectNode) {p q : List Nat}
    {c : Nat} (h : ids = p ++ n.first :: c :: q) (h1 : n.first ∉ p) (h2 : n.second ∉ p) :
    crossingPosition n s = .ok (p.length, n.hasBound (some c)) s := by
  have hidx : s.abl.findIdx n.hasBound = p.length := by
    rw [hs, h]
    have : ∀ p : List Nat, n.first ∉ p → n.second ∉ p →
        ((p ++ n.first :: c :: q).map some).findIdx n.hasBound = p.length := by
      intro p
      induction p with
      | nil => intro _ _; simp [List.findIdx_cons, IntersectNode.hasBound]
      | cons x p ih =>
        intro h1 h2
        simp only [List.mem_cons, not_or] at h1 h2
        have hx : n.hasBound (some x) = false := by
          simp only [IntersectNode.hasBound, Option.some.injEq, Bool.or_eq_false_iff, decide_eq_false_iff_not]
          exact ⟨fun h => h1.1 h.symm, fun h => h2.1 h.symm⟩
        simp only [List.cons_append, List.map_cons, List.findIdx_cons, hx, cond_false]
        rw [ih h1.2 h2.2]; rfl
    exact this p h1 h2
  have hget : s.abl[p.length + 1]? = some (some c) := by
    rw [hs, h]; simp
  simp [crossingPosition, gets, bind, M.bind, ablGet, hidx, hget, pure, M.pure]

theorem hasBound_some (n : IntersectNode) (c : Nat) (h : c ≠ n.first) : n.hasBound (some c) = decide (c = n.second) := by
  simp [IntersectNode.hasBound, h]

/-- `ns` are crossings of pairs still to be exchanged on the way from `ids` to `r`. -/
def Pending (ids r : List Nat) (ns : List IntersectNode) : Prop :=
  (ns.map IntersectNode.pair).Nodup ∧ ∀ x y, (x, y) ∈ ns.map IntersectNode.pair ↔ Before ids x y ∧ Before r y x

theorem position_of_pending {s : St} {ids : List Nat} (hs : s.abl = ids.map some) (hl : ids.Nodup) (n : IntersectNode)
    (hb : Before ids n.first n.second) :
    ∃ p c q, ids = p ++ n.first :: c :: q ∧ crossingPosition n s = .ok (p.length, decide (c = n.second)) s
      ∧ (c = n.second ↔ ∃ p' s, ids = p' ++ n.first :: n.second :: s) := by
  obtain ⟨p, c, q, h, h1, h2, h3⟩ := exists_split hl hb
  have hc : c ≠ n.first := by
    rw [h] at hl
    have := (List.nodup_append.1 hl).2.1
    simp only [List.nodup_cons, List.mem_cons, not_or] at this
    exact fun hh => this.1.1 hh.symm
  refine ⟨p, c, q, h, ?_, h3⟩
  rw [crossingPosition_eq s ids hs n h h1 h2, hasBound_some n c hc]

theorem findFeasible_spec {s : St} {ids : List Nat} (hs : s.abl = ids.map some) (hl : ids.Nodup) :
    ∀ (ns : List IntersectNode) (k : Nat), (∀ n ∈ ns, Before ids n.first n.second) →
      (∃ n ∈ ns, ∃ p q, ids = p ++ n.first :: n.second :: q) →
      ∃ j n p q, ns[j]? = some n ∧ ids = p ++ n.first :: n.second :: q ∧ findFeasible ns k s = .ok (k + j, p.length) s := by
  intro ns
  induction ns with
  | nil => rintro k _ ⟨n, hn, _⟩; cases hn
  | cons n ns ih =>
    intro k hb hex
    obtain ⟨p, c, q, h1, h2, h3⟩ := position_of_pending hs hl n (hb n (by simp))
    by_cases hc : c = n.second
    · refine ⟨0, n, p, q, rfl, by rw [h1, hc], ?_⟩
      simp [findFeasible, bind, M.bind, h2, hc, pure, M.pure]
    · have hex' : ∃ n ∈ ns, ∃ p q, ids = p ++ n.first :: n.second :: q := by
        obtain ⟨m, hm, hp⟩ := hex
        rcases List.mem_cons.1 hm with rfl | hm
        · exact absurd (h3.2 hp) hc
        · exact ⟨m, hm, hp⟩
      obtain ⟨j, m, p', q', e1, e2, e3⟩ := ih (k + 1) (fun n hn => hb n (List.mem_cons_of_mem _ hn)) hex'
      refine ⟨j + 1, m, p', q', by simpa using e1, e2, ?_⟩
      rw [findFeasible]
      simp only [bind, M.bind, h2, hc, decide_false, Bool.false_eq_true, if_false]
      rw [e3, show k + 1 + j = k + (j + 1) by omega]

theorem ablSwap_eq (s : St) (p q : List (Option Nat)) (a b : Option Nat) (hs : s.abl = p ++ a :: b :: q) :
    ablSwap p.length (p.length + 1) s = .ok () { s with abl := p ++ b :: a :: q } := by
  have h1 : s.abl[p.length]? = some a := by rw [hs]; simp
  have h2 : s.abl[p.length + 1]? = some b := by rw [hs]; simp
  simp only [ablSwap, bind, M.bind, ablGet, h1, h2, ablSet, modify]
  congr 2
  rw [hs]
  simp

/-- Processing one feasible crossing and exchanging its bounds leaves the others pending. -/
theorem Pending.step {p q r : List Nat} {a b : Nat} {n : IntersectNode} {ns ns' : List IntersectNode}
    (hl : (p ++ a :: b :: q).Nodup) (hr : r.Perm (p ++ a :: b :: q)) (hn : n.pair = (a, b))
    (hp : (n :: ns').Perm ns) (h : Pending (p ++ a :: b :: q) r ns) : Pending (p ++ b :: a :: q) r ns' := by
  obtain ⟨h1, h2⟩ := h
  have hperm := hp.map IntersectNode.pair
  have hnd := hperm.nodup_iff.2 h1
  rw [List.map_cons, List.nodup_cons, hn] at hnd
  have hrn : r.Nodup := hr.nodup_iff.2 hl
  have hin : Before (p ++ a :: b :: q) a b ∧ Before r b a := (h2 a b).1 (hperm.mem_iff.1 (by simp [hn]))
  refine ⟨hnd.2, fun x y => ?_⟩
  rw [before_swap p q a b x y hl]
  have hmem : (x, y) ∈ ns'.map IntersectNode.pair ↔ (x, y) ∈ ns.map IntersectNode.pair ∧ (x, y) ≠ (a, b) := by
    rw [← hperm.mem_iff, List.map_cons, List.mem_cons, hn]
    constructor
    · intro h
      refine ⟨Or.inr h, ?_⟩
      rintro he
      rw [he] at h
      exact hnd.1 h
    · rintro ⟨h | h, hne⟩
      · exact absurd h hne
      · exact h
  rw [hmem, h2]
  constructor
  · rintro ⟨⟨h3, h4⟩, h5⟩
    exact ⟨Or.inl ⟨h3, fun h => h5 (by rw [h.1, h.2])⟩, h4⟩
  · rintro ⟨⟨h3, h4⟩ | ⟨rfl, rfl⟩, h5⟩
    · exact ⟨⟨h3, h5⟩, fun h => h4 ⟨(Prod.mk.inj h).1, (Prod.mk.inj h).2⟩⟩
    · exact absurd hin.2 (before_asymm hrn h5)

theorem perm_set_getD {α : Type} [Inhabited α] (x : α) :
    ∀ (l : List α) (k : Nat) (n : α), l[k]? = some n → (n :: l.set k x).Perm (x :: l) := by
  intro l
  induction l with
  | nil => intro k n h; simp at h
  | cons a l ih =>
    intro k n h
    cases k with
    | zero =>
      simp at h
      subst h
      exact List.Perm.swap _ _ _
    | succ k =>
      have := ih k n (by simpa using h)
      rw [List.set_cons_succ]
      exact (List.Perm.swap _ _ _).trans ((this.cons a).trans (List.Perm.swap _ _ _))

theorem processIntersectList_spec (op : OperationKind) (sf cf : FillKind) (r : List Nat) :
    ∀ (ns : List IntersectNode) (ids : List Nat) (s : St), s.abl = ids.map some → ids.Nodup → r.Perm ids →
      Pending ids r ns →
      ∃ order : List IntersectNode, order.Perm ns
        ∧ Processed op sf cf s order (processIntersectList op sf cf ns.length ns s)
        ∧ ∀ s', processIntersectList op sf cf ns.length ns s = .ok () s' → s'.abl = r.map some := by
  intro ns
  generalize hlen : ns.length = len
  induction len generalizing ns with
  | zero =>
    intro ids s hs hl hr hp
    have : ns = [] := List.length_eq_zero_iff.1 hlen
    subst this
    have he : ids = r := eq_of_no_inversion hl hr fun x y h1 h2 => by
      have := (hp.2 x y).2 ⟨h1, h2⟩
      simp at this
    refine ⟨[], List.Perm.refl _, Processed.done s, ?_⟩
    intro s' h
    cases h
    rw [hs, he]
  | succ len ih =>
    intro ids s hs hl hr hp
    match ns, hlen with
    | node :: rest, hlen =>
      have hlen' : rest.length = len := by simpa using hlen
      have hbef : ∀ n ∈ node :: rest, Before ids n.first n.second := fun n hn =>
        ((hp.2 n.first n.second).1 (List.mem_map.2 ⟨n, hn, rfl⟩)).1
      have hfirst := (hp.2 node.first node.second).1 (List.mem_map.2 ⟨node, by simp, rfl⟩)
      obtain ⟨p0, a0, b0, q0, hadj, hadjr⟩ := exists_adjacent hl hr hfirst.1 hfirst.2
      obtain ⟨p, c, q, h1, h2, h3⟩ := position_of_pending hs hl node (hbef node (by simp))
      -- the crossing that is processed
      have chosen : ∃ n ns' p q, (n :: ns').Perm (node :: rest) ∧ ids = p ++ n.first :: n.second :: q ∧
          ∀ k : IntersectNode → List IntersectNode → Nat → M Unit, (do
            let (i, adjacent) ← crossingPosition node
            let (node, rest, i) ← (do
              if adjacent then pure (node, rest, i)
              else
                let (k, j) ← findFeasible rest 0
                pure (rest.getD k default, rest.set k node, j) : M (IntersectNode × List IntersectNode × Nat))
            k node rest i : M Unit) s = k n ns' p.length s := by
        by_cases hc : c = node.second
        · refine ⟨node, rest, p, q, List.Perm.refl _, by rw [h1, hc], fun k => ?_⟩
          simp [bind, M.bind, h2, hc, pure, M.pure]
        · have hex : ∃ n ∈ rest, ∃ p q, ids = p ++ n.first :: n.second :: q := by
            have hm : (a0, b0) ∈ (node :: rest).map IntersectNode.pair := by
              rw [hp.2]
              refine ⟨?_, hadjr⟩
              rw [hadj, before_append, before_cons]
              exact Or.inr (Or.inr (Or.inl ⟨rfl, by simp⟩))
            obtain ⟨n, hn, hn'⟩ := List.mem_map.1 hm
            have e : n.first = a0 ∧ n.second = b0 := by simpa [IntersectNode.pair] using hn'
            rcases List.mem_cons.1 hn with rfl | hn
            · exact absurd (h3.2 ⟨p0, q0, by rw [e.1, e.2]; exact hadj⟩) hc
            · exact ⟨n, hn, p0, q0, by rw [e.1, e.2]; exact hadj⟩
          obtain ⟨j, n, p', q', e1, e2, e3⟩ := findFeasible_spec hs hl rest 0
            (fun n hn => hbef n (List.mem_cons_of_mem _ hn)) hex
          refine ⟨n, rest.set j node, p', q', perm_set_getD node rest j n e1, e2, fun k => ?_⟩
          have hg : rest.getD j default = n := by rw [List.getD_eq_getElem?_getD, e1]; rfl
          simp [bind, M.bind, h2, hc, pure, M.pure, e3, -List.getD_eq_getElem?_getD, hg]
      obtain ⟨n, ns', p, q, hperm, hids, hrun⟩ := chosen
      have hpl : ns'.length = len := by
        have := hperm.length_eq
        simp at this
        omega
      have heq : processIntersectList op sf cf (len + 1) (node :: rest) s
          = M.bind (crossOne op sf cf n) (fun _ => do
              ablSwap p.length (p.length + 1)
              processIntersectList op sf cf len ns') s := by
        rw [processIntersectList]
        refine (hrun (fun node rest i => do
          let p ← liftE node.point.round
          intersectBounds p op sf cf node.first node.second
          ablSwap i (i + 1)
          processIntersectList op sf cf len rest)).trans ?_
        unfold crossOne
        simp only [bind]
        cases hround : (liftE n.point.round : M Point) s with
        | ok v t => simp [M.bind, hround]
        | err e t => simp [M.bind, hround]
      have habl : s.abl = (p.map some) ++ some n.first :: some n.second :: q.map some := by rw [hs, hids]; simp
      have : Pres SameAbl (crossOne op sf cf n) := by unfold crossOne; pres
      have hsame := (inferInstance : Pres SameAbl (crossOne op sf cf n)).pres s
      rw [heq]
      unfold M.bind
      cases hone : crossOne op sf cf n s with
      | err e t =>
        refine ⟨n :: ns', hperm, Processed.fail habl hone, ?_⟩
        intro s' h; cases h
      | ok u t =>
        cases u
        rw [hone] at hsame
        have habl' : t.abl = (p.map some) ++ some n.first :: some n.second :: q.map some := by
          have : t.abl = s.abl := hsame
          rw [this, habl]
        have hsw := ablSwap_eq t _ _ _ _ habl'
        rw [List.length_map] at hsw
        have hpend : Pending (p ++ n.second :: n.first :: q) r ns' :=
          Pending.step (hids ▸ hl) (hids ▸ hr) rfl hperm (hids ▸ hp)
        obtain ⟨order, o1, o2, o3⟩ := ih ns' hpl (p ++ n.second :: n.first :: q)
          { t with abl := p.map some ++ some n.second :: some n.first :: q.map some } (by simp)
          ((perm_swap_at p q n.first n.second).nodup_iff.2 (hids ▸ hl))
          ((hids ▸ hr : r.Perm (p ++ n.first :: n.second :: q)).trans (perm_swap_at p q n.first n.second).symm) hpend
        have hgo : (do
            ablSwap p.length (p.length + 1)
            processIntersectList op sf cf len ns' : M Unit) t
            = processIntersectList op sf cf len ns' { t with abl := p.map some ++ some n.second :: some n.first :: q.map some } := by
          simp [bind, M.bind, hsw]
        refine ⟨n :: order, (o1.cons n).trans hperm, ?_, ?_⟩
        · refine Processed.step habl hone ?_
          rw [← hgo] at o2
          exact o2
        · intro s' h
          exact o3 s' (hgo.symm.trans h)

/-- Nothing at all changes. -/
def SameSt (a b : St) : Prop := b = a

instance : Preo SameSt := ⟨fun _ => rfl, fun h1 h2 => by unfold SameSt at *; rw [h2, h1]⟩

theorem buildIntersectList_pairs (s s' : St) (cs : List IntersectNode) (hh : buildIntersectList s = .ok cs s') :
    s' = s ∧ ∃ r ss, bubbleSort (intersectionCompare s.bounds) s.fuel (s.abl.filterMap id) = some (r, ss)
      ∧ cs.map IntersectNode.pair = ss := by
  have go : ∀ (l : List (Nat × Nat)) (acc cs : List IntersectNode) (t : St), buildIntersectList.go l acc s = .ok cs t →
      t = s ∧ cs.map IntersectNode.pair = acc.map IntersectNode.pair ++ l := by
    intro l
    induction l with
    | nil => intro acc cs t h; cases h; simp
    | cons q l ih =>
      obtain ⟨a, b⟩ := q
      intro acc cs t h
      rw [buildIntersectList.go] at h
      simp only [bind, M.bind] at h
      have hp := (inferInstance : Pres SameSt (crossingOf a b)).pres s
      cases hc : crossingOf a b s with
      | err e u => rw [hc] at h; cases h
      | ok p u =>
        rw [hc] at h hp
        have : u = s := hp
        subst this
        obtain ⟨h1, h2⟩ := ih _ _ _ h
        refine ⟨h1, ?_⟩
        rw [h2]
        simp [IntersectNode.pair]
  have h : (match bubbleSort (intersectionCompare s.bounds) s.fuel (s.abl.filterMap id) with
      | none => Res.err Err.fuel s
      | some r => buildIntersectList.go r.2 [] s) = .ok cs s' := by
    rw [← hh]
    unfold buildIntersectList sortActive
    simp only [bind, M.bind, gets]
    cases bubbleSort (intersectionCompare s.bounds) s.fuel (s.abl.filterMap id) <;> rfl
  cases hb : bubbleSort (intersectionCompare s.bounds) s.fuel (s.abl.filterMap id) with
  | none => rw [hb] at h; cases h
  | some rs =>
    obtain ⟨r, ss⟩ := rs
    rw [hb] at h
    obtain ⟨h1, h2⟩ := go _ _ _ _ h
    exact ⟨h1, r, ss, rfl, by simpa using h2⟩

/-- The RuntimeError "Could not properly correct intersection order" does not come out of processing crossings. -/
theorem Processed.quiet {op : OperationKind} {sf cf : FillKind} {s : St} {ns : List IntersectNode} {r : Res Unit}
    (h : Processed op sf cf s ns r) : ∀ msg s', r ≠ .err (.runtime msg) s' := by
  induction h with
  | done s => intro msg s' h; cases h
  | @fail s s' n ns p q e h1 h2 =>
    intro msg t h
    cases h
    have : Quiet (crossOne op sf cf n) := by unfold crossOne; quiet
    exact this.quiet _ _ _ h2
  | step h1 h2 h3 ih => exact ih

/-! ## The theorems -/

/-- Given distinct active bounds whose current x is known, whenever the crossings of a scanbeam have been found they are
pending with respect to the order found. -/
theorem pending_of_built (s s' : St) (ids : List Nat) (cs : List IntersectNode) (hs : s.abl = ids.map some)
    (hl : ids.Nodup) (hx : ∀ i ∈ ids, (s.bounds i).currentX ≠ .nan) (hb : buildIntersectList s = .ok cs s') :
    s' = s ∧ ∃ r ss, bubbleSort (intersectionCompare s.bounds) s.fuel ids = some (r, ss) ∧ r.Perm ids
      ∧ Pending ids r cs := by
  obtain ⟨h1, r, ss, h2, h3⟩ := buildIntersectList_pairs s s' cs hb
  have hids : s.abl.filterMap id = ids := by rw [hs]; simp [List.filterMap_map]
  rw [hids] at h2
  have hc := intersectionCompare_false s.bounds ids hx
  have has : ∀ a b : Nat, F64.lt (s.bounds a).currentX (s.bounds b).currentX = true →
      ¬ F64.lt (s.bounds b).currentX (s.bounds a).currentX = true := fun a b => F64.lt_asymm _ _
  obtain ⟨_, _, hp, _⟩ := C09_result _ _ _ _ _ h2
  obtain ⟨h4, _, h5⟩ := C09_exchanged_pairs _ _ has ids r ss hl hc s.fuel h2
  exact ⟨h1, r, ss, h2, hp, by rw [h3]; exact h4, by rw [h3]; exact h5⟩

/-- **C08.** Let the active bounds `ids` be distinct, with known current x, and let `crossings` be the crossings found on
the scanbeam.  In whatever order `nodes` those crossings are handed to `process_intersect_list`, it processes each of them
exactly once, in some order in which every crossing is, at its turn, between two bounds that are adjacent in the list of
active bounds, the first on the left; it raises nothing but what processing a crossing itself raises; and, when it
returns, the active bounds are in the order computed when the crossings were found. -/
theorem C08_processed_once (op : OperationKind) (sf cf : FillKind) (s s' : St) (ids : List Nat)
    (crossings nodes : List IntersectNode) (hs : s.abl = ids.map some) (hl : ids.Nodup)
    (hx : ∀ i ∈ ids, (s.bounds i).currentX ≠ .nan) (hb : buildIntersectList s = .ok crossings s')
    (hn : nodes.Perm crossings) :
    s' = s ∧ ∃ order : List IntersectNode, order.Perm crossings
      ∧ Processed op sf cf s order (processIntersectList op sf cf nodes.length nodes s)
      ∧ ∀ t, processIntersectList op sf cf nodes.length nodes s = .ok () t →
          ∃ sorted swaps, bubbleSort (intersectionCompare s.bounds) s.fuel ids = some (sorted, swaps)
            ∧ t.abl = sorted.map some := by
  obtain ⟨h1, r, ss, h2, h3, h4⟩ := pending_of_built s s' ids crossings hs hl hx hb
  have hp : Pending ids r nodes :=
    ⟨(hn.map _).nodup_iff.2 h4.1, fun x y => by rw [(hn.map IntersectNode.pair).mem_iff]; exact h4.2 x y⟩
  obtain ⟨order, o1, o2, o3⟩ := processIntersectList_spec op sf cf r nodes ids s hs hl h3 hp
  exact ⟨h1, order, o1.trans hn, o2, fun t ht => ⟨r, ss, h2, o3 t ht⟩⟩

/-- **C08.** In particular 'Could not properly correct intersection order' (or any other `RuntimeError`) is never raised,
whatever the order of the crossings. -/
theorem C08_no_order_error (op : OperationKind) (sf cf : FillKind) (s s' : St) (ids : List Nat)
    (crossings nodes : List IntersectNode) (hs : s.abl = ids.map some) (hl : ids.Nodup)
    (hx : ∀ i ∈ ids, (s.bounds i).currentX ≠ .nan) (hb : buildIntersectList s = .ok crossings s')
    (hn : nodes.Perm crossings) (msg : String) (t : St) :
    processIntersectList op sf cf nodes.length nodes s ≠ .err (.runtime msg) t := by
  obtain ⟨_, order, _, h, _⟩ := C08_processed_once op sf cf s s' ids crossings nodes hs hl hx hb hn
  exact h.quiet msg t

/-- Three bounds meeting pairwise: the hypotheses hold, three crossings are found, and handing them over in an infeasible
order works. -/
def c08Example : St :=
  { (default : St) with
    bounds := fun i => { (default : Bound) with
      edges := [Edge.mk' ⟨(i : Int) * 10, 100⟩ ⟨100 - 10 * i * i, 0⟩], cur := some 0
      currentX := .fin (100 - 10 * i * i) }
    abl := [some 0, some 1, some 2], fuel := 100 }

example :
    c08Example.abl = [0, 1, 2].map some ∧ (∀ i ∈ [0, 1, 2], (c08Example.bounds i).currentX ≠ .nan)
    ∧ (match buildIntersectList c08Example with
      | .ok cs _ => decide (cs.map IntersectNode.pair = [(0, 1), (0, 2), (1, 2)])
          && (match processIntersectList .union .evenOdd .evenOdd 3
                [cs.getD 1 default, cs.getD 2 default, cs.getD 0 default] c08Example with
              | .ok _ t => decide (t.abl = [some 2, some 1, some 0])
              | .err _ _ => false)
      | .err _ _ => false) = true := by
  decide +kernel

end Wagyu
