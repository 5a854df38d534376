import Verif.Proofs.TopoOrient
import Mathlib.Data.List.Rotate

/-!
# Steps of the topology correction on the heaps
-/

namespace Wagyu

open Spec

/-- A cached area is the area of the ring, and then the box is the box of the ring; the size may be out of date, but is not too small. -/
def Sound (s : St) (L : Nat → List Nat) : Prop :=
  ∀ r, L r ≠ [] → (s.rings r).area.isNan = false →
    (s.rings r).area = intDiv (area2 (pointsOf s.nodes (L r))) 2 ∧ (s.rings r).isHole = F64.le (s.rings r).area (.fin 0)
      ∧ IsTightBox (s.rings r).box (pointsOf s.nodes (L r)) ∧ (L r).length ≤ (s.rings r).size

/-- No statistics are cached. -/
def Statless (g : Ring) : Prop := g.resetStats = g

/-- The rings have the same first node, statistics and mark. -/
structure Alike (g h : Ring) : Prop where
  node : g.node = h.node
  area : g.area = h.area
  hole : g.isHole = h.isHole
  mark : g.corrected = h.corrected
  size : g.size = h.size
  box : g.box = h.box

theorem Alike.refl (g : Ring) : Alike g g := ⟨rfl, rfl, rfl, rfl, rfl, rfl⟩
theorem Alike.of_eq {g h : Ring} (e : g = h) : Alike g h := e ▸ Alike.refl g
theorem Alike.trans {g h k : Ring} (a : Alike g h) (b : Alike h k) : Alike g k :=
  ⟨a.node.trans b.node, a.area.trans b.area, a.hole.trans b.hole, a.mark.trans b.mark, a.size.trans b.size, a.box.trans b.box⟩
theorem Statless.congr {g h : Ring} (hb : Statless h) (a : Alike g h) : Statless g := by
  have h1 := a.area
  have h2 := a.size
  have h3 := a.hole
  have h4 := a.box
  unfold Statless at hb ⊢
  rw [← congrArg Ring.area hb] at h1
  rw [← congrArg Ring.size hb] at h2
  rw [← congrArg Ring.isHole hb] at h3
  rw [← congrArg Ring.box hb] at h4
  cases g
  simp only [Ring.resetStats] at h1 h2 h3 h4 ⊢
  rw [h1, h2, h3, h4]
theorem Statless.nan {g : Ring} (hb : Statless g) : g.area = .nan := by rw [← congrArg Ring.area hb]; rfl

/-- The invariant of the topology correction. -/
structure TI (s : St) (L : Nat → List Nat) : Prop where
  own : Own s L
  sound : Sound s L
  blank : ∀ r, L r = [] → Statless (s.rings r)

/-- The frame of the topology correction. -/
structure TStep (s : St) (L : Nat → List Nat) (s' : St) (L' : Nat → List Nat) : Prop where
  ti : TI s' L'
  nn : s'.nn = s.nn
  nr : s.nr ≤ s'.nr
  all : s'.allNodes = s.allNodes
  loc : ∀ i, locOf s'.nodes i = locOf s.nodes i
  cor : ∀ r, (s'.rings r).corrected = true → (s.rings r).corrected = true
  wle : weight L' s'.nr ≤ weight L s.nr

section
variable {s s' : St} {L L' : Nat → List Nat} {E : Err → Prop}

theorem TStep.refl (h : TI s L) : TStep s L s L := ⟨h, rfl, Nat.le_refl _, rfl, fun _ => rfl, fun _ h => h, Nat.le_refl _⟩
theorem TStep.trans {s'' : St} {L'' : Nat → List Nat} (h : TStep s L s' L') (k : TStep s' L' s'' L'') : TStep s L s'' L'' :=
  ⟨k.ti, k.nn.trans h.nn, h.nr.trans k.nr, k.all.trans h.all, fun i => (k.loc i).trans (h.loc i), fun r hr => h.cor r (k.cor r hr),
    k.wle.trans h.wle⟩

theorem OnlyStats.step (h : OnlyStats s s') (hs : TI s L)
    (hso : ∀ r, s'.rings r = s.rings r ∨ L r ≠ [] ∧ StatsOf s.nodes (L r) (s'.rings r)) :
    TStep s L s' L := by
  refine ⟨⟨h.own hs.own, fun r hr hn => ?_, fun r hr => ?_⟩, h.nn, h.nr.ge, h.allNodes, fun i => by rw [h.nodes], fun r hr => by rw [← h.corrected]; exact hr, by rw [h.nr]⟩
  · rw [h.nodes]
    rcases hso r with h1 | h1
    · rw [h1] at hn ⊢
      exact hs.sound r hr hn
    · exact ⟨h1.2.area, h1.2.hole, h1.2.box, h1.2.size.ge⟩
  · rcases hso r with h1 | h1
    · rw [h1]; exact hs.blank r hr
    · exact absurd hr h1.1

theorem StatsRead.step {r : Nat} (h : StatsRead s L r s') (hs : TI s L) : TStep s L s' L := by
  refine h.only.step hs fun k => ?_
  by_cases e : k = r
  · subst e
    cases hn : (s.rings k).area.isNan with
    | false => rw [h.known hn]; exact Or.inl rfl
    | true =>
      by_cases hk : L k = []
      · rw [h.blank hk]; exact Or.inl rfl
      · exact Or.inr ⟨hk, h.filled hn hk⟩
  · rw [h.other k e]; exact Or.inl rfl

theorem StatsRead.area {r : Nat} (h : StatsRead s L r s') (hs : TI s L) (hr : L r ≠ []) :
    (s'.rings r).area = intDiv (area2 (pointsOf s.nodes (L r))) 2 ∧ (s'.rings r).isHole = decide (area2 (pointsOf s.nodes (L r)) ≤ 0) := by
  have key : (s'.rings r).area = intDiv (area2 (pointsOf s.nodes (L r))) 2 ∧ (s'.rings r).isHole = F64.le (s'.rings r).area (.fin 0)
      ∧ IsTightBox (s'.rings r).box (pointsOf s.nodes (L r)) ∧ (L r).length ≤ (s'.rings r).size := by
    cases hn : (s.rings r).area.isNan with
    | false => rw [h.known hn]; exact hs.sound r hr hn
    | true => exact ⟨(h.filled hn hr).area, (h.filled hn hr).hole, (h.filled hn hr).box, (h.filled hn hr).size.ge⟩
  refine ⟨key.1, ?_⟩
  rw [key.2.1, key.1, Bool.eq_iff_iff, (C20_area_sign _).2]; simp

theorem step_recalculateStats (h : TI s L) (r : Nat) :
    Ends E (recalculateStats r) s fun _ s' => TStep s L s' L ∧ OnlyStats s s' ∧ (L r ≠ [] → StatsOf s.nodes (L r) (s'.rings r)) := by
  refine (ends_recalculateStats h.own r).imp ?_
  rintro _ s' ⟨h1, h2, h3, h4⟩
  refine ⟨h1.step h fun k => ?_, h1, h3⟩
  by_cases e : k = r
  · subst e
    by_cases hk : L k = []
    · rw [h4 hk]; exact Or.inl rfl
    · exact Or.inr ⟨hk, h3 hk⟩
  · rw [h2 k e]; exact Or.inl rfl

/-! ## Lists of rings -/

theorem cycle_rot {h : Nat → Node} {l : List Nat} (hl : IsCycle h l) {i : Nat} (hi : i ∈ l) :
    ∃ t, IsCycle h (i :: t) ∧ (i :: t) ~r l := by
  obtain ⟨p, q, rfl⟩ := List.append_of_mem hi
  refine ⟨q ++ p, by simpa using isCycle_append_comm hl, ?_⟩
  have := List.isRotated_append (l := i :: q) (l' := p)
  simpa using this

theorem area2_rot {l l' : List Point} (h : l ~r l') : area2 l = area2 l' := by
  obtain ⟨n, rfl⟩ := h
  exact (C20_area_rotation l n).symm

theorem pointsOf_rot {h : Nat → Node} {l l' : List Nat} (e : l ~r l') : pointsOf h l ~r pointsOf h l' := e.map _

theorem area2_dup (p : Point) (l : List Point) : area2 (p :: p :: l) = area2 (p :: l) := by
  have := C20_area_split p [] l
  rw [List.cons_append, List.nil_append] at this
  rw [this]
  have : area2 [p] = 0 := by simp [area2, ringSum, pathSum, cross]; ring
  omega

/-- A segment is closed by linking its ends. -/
theorem isCycle_close {h h' : Nat → Node} {P : List Nat} (hP : P ≠ []) (hn : P.Nodup) (hc : P.IsChain (Link h))
    (e1 : ∀ i ∈ P, i ≠ P.getLast hP → (h' i).next = (h i).next) (e2 : ∀ i ∈ P, i ≠ P.head hP → (h' i).prev = (h i).prev)
    (e3 : (h' (P.getLast hP)).next = some (P.head hP)) (e4 : (h' (P.head hP)).prev = some (P.getLast hP)) : IsCycle h' P := by
  rw [isCycle_iff hP]
  refine ⟨hn, seg_congr hc (fun i hi => ?_) (fun i hi => ?_), e3, e4⟩
  · exact e1 i (List.mem_of_mem_dropLast hi) (ne_getLast_of_dropLast hP hn hi)
  · exact e2 i (List.mem_of_mem_tail hi) (ne_head_of_tail hP hn hi)

theorem isCycle_seg {h : Nat → Node} {l : List Nat} (hl : IsCycle h l) : l.IsChain (Link h) := by
  cases l with
  | nil => exact List.IsChain.nil
  | cons a t => exact ((isCycle_iff (by simp)).1 hl).2.1

/-- The ring of a labelled node. -/
theorem Own.mem (h : Own s L) {i r : Nat} (hi : i < s.nn) (hr : (s.nodes i).ring = some r) : i ∈ L r := h.kept i hi r hr

theorem nwt_pos {l : List Nat} (h : l ≠ []) : 0 < nwt l := by
  have := List.length_pos_iff.2 h
  unfold nwt; omega

theorem _root_.Wagyu.Spec.IsTightBox.same {b : Box} {l l' : List Point} (h : IsTightBox b l) (e : ∀ p, p ∈ l' ↔ p ∈ l) : IsTightBox b l' := by
  refine ⟨fun p hp => h.contains p ((e p).1 hp), ?_, ?_, ?_, ?_⟩
  · obtain ⟨p, h1, h2⟩ := h.left; exact ⟨p, (e p).2 h1, h2⟩
  · obtain ⟨p, h1, h2⟩ := h.right; exact ⟨p, (e p).2 h1, h2⟩
  · obtain ⟨p, h1, h2⟩ := h.top; exact ⟨p, (e p).2 h1, h2⟩
  · obtain ⟨p, h1, h2⟩ := h.bottom; exact ⟨p, (e p).2 h1, h2⟩

/-! ## Dropping one node -/

/-- The heap after the node `o` between `a` and `b` is dropped. -/
def excise (h : Nat → Node) (a o b : Nat) : Nat → Node :=
  upd (putPrev (putNext h a (some b)) b (some a)) o { h o with prev := none, next := none, ring := none }

theorem excise_cycle {h : Nat → Node} {P : List Nat} {o : Nat} (hP : P ≠ []) (hl : IsCycle h (P ++ [o])) :
    Link h (P.getLast hP) o ∧ Link h o (P.head hP) ∧ IsCycle (excise h (P.getLast hP) o (P.head hP)) P
      ∧ ∀ i, i ∉ P ++ [o] → excise h (P.getLast hP) o (P.head hP) i = h i := by
  obtain ⟨hnd, hseg, hclose⟩ := (isCycle_iff (by simp)).1 hl
  obtain ⟨hndP, -, hdis⟩ := List.nodup_append.1 hnd
  rw [List.isChain_append] at hseg
  obtain ⟨hs1, -, hs2⟩ := hseg
  have hoP : o ∉ P := fun hm => hdis o hm o (by simp) rfl
  have l1 : Link h (P.getLast hP) o := hs2 _ (by rw [List.getLast?_eq_getLast_of_ne_nil hP]; rfl) o (by simp)
  have l2 : Link h o (P.head hP) := by
    rw [List.getLast_append_of_ne_nil _ (by simp), List.head_append_of_ne_nil hP] at hclose
    exact hclose
  have hol : o ≠ P.getLast hP := fun e => hoP (e ▸ List.getLast_mem hP)
  have hoh : o ≠ P.head hP := fun e => hoP (e ▸ List.head_mem hP)
  refine ⟨l1, l2, ?_, ?_⟩
  · refine isCycle_close hP hndP hs1 (fun i hi hne => ?_) (fun i hi hne => ?_) ?_ ?_
    · have : i ≠ o := fun e => hoP (e ▸ hi)
      unfold excise; rw [Wagyu.upd_ne _ _ this]; links; rw [if_neg hne]
    · have : i ≠ o := fun e => hoP (e ▸ hi)
      unfold excise; rw [Wagyu.upd_ne _ _ this]; links; rw [if_neg hne]
    · unfold excise; rw [Wagyu.upd_ne _ _ (Ne.symm hol)]; links; simp
    · unfold excise; rw [Wagyu.upd_ne _ _ (Ne.symm hoh)]; links; simp
  · intro i hi
    have h1 : i ≠ o := fun e => hi (by simp [e])
    have h2 : i ≠ P.head hP := fun e => hi (by rw [e]; simp)
    have h3 : i ≠ P.getLast hP := fun e => hi (by rw [e]; simp)
    unfold excise
    rw [Wagyu.upd_ne _ _ h1, putPrev_ne _ _ _ _ h2, putNext_ne _ _ _ _ h3]

theorem excise_ring (h : Nat → Node) (a o b i : Nat) : (excise h a o b i).ring = if i = o then none else (h i).ring := by
  unfold excise
  by_cases e : i = o
  · subst e; rw [Wagyu.upd_same, if_pos rfl]
  · rw [Wagyu.upd_ne _ _ e, if_neg e]; links

theorem excise_loc (h : Nat → Node) (a o b i : Nat) : locOf (excise h a o b) i = locOf h i := by
  unfold excise locOf
  by_cases e : i = o
  · subst e; rw [Wagyu.upd_same]
  · rw [Wagyu.upd_ne _ _ e]; links

/-- The rings after that. -/
def exciseRings (rings : Nat → Ring) (r o node : Nat) : Nat → Ring :=
  if (rings r).node = some o then upd rings r { rings r with node := some node } else rings

/-- The end of `dropNeighbour`: the ring `r` had the nodes `P` and `o`, and gets the node `node` if it had `o`. -/
theorem step_excise (h : TI s L) {r node o : Nat} {P : List Nat} (hP : P ≠ []) (hrot : (P ++ [o]) ~r L r) (hnode : node ∈ P)
    (hloc : area2 (pointsOf s.nodes P) = area2 (pointsOf s.nodes (P ++ [o]))) (heq : locOf s.nodes o = locOf s.nodes node)
    {s' : St} (hs' : s' = { s with nodes := excise s.nodes (P.getLast hP) o (P.head hP), rings := exciseRings s.rings r o node }) :
    ∃ l, TStep s L s' (upd L r l) ∧ l ~r P ∧ weight (upd L r l) s'.nr < weight L s.nr := by
  have hor : o ∈ L r := hrot.mem_iff.1 (by simp)
  have hPr : ∀ i ∈ P, i ∈ L r := fun i hi => hrot.mem_iff.1 (by simp [hi])
  have hlt := h.own.lt hor
  have hcyc : IsCycle s.nodes (P ++ [o]) := by
    obtain ⟨n, hn⟩ := hrot.symm
    rw [← hn]; exact isCycle_rotate (h.own.cyc hor) n
  obtain ⟨-, -, hc, hout⟩ := excise_cycle hP hcyc
  have hnd := hcyc.nodup
  have hoP : o ∉ P := fun hm => (List.nodup_append.1 hnd).2.2 o hm o (by simp) rfl
  have hhead : (s.rings r).node = (L r).head? := h.own.head r
  -- the head of the new list
  obtain ⟨hd, hhdP, hnew⟩ : ∃ hd ∈ P, (s'.rings r).node = some hd := by
    by_cases e : (s.rings r).node = some o
    · refine ⟨node, hnode, ?_⟩
      rw [hs']; simp [exciseRings, e, Wagyu.upd_same]
    · cases hl : L r with
      | nil => rw [hl] at hor; cases hor
      | cons a t =>
        rw [hl] at hhead
        have ha : a ∈ P ++ [o] := hrot.mem_iff.2 (by rw [hl]; simp)
        have hao : a ≠ o := fun e' => e (by rw [hhead, e']; rfl)
        refine ⟨a, by simpa [hao] using ha, ?_⟩
        rw [hs']; simp only [exciseRings, if_neg e]; exact hhead
  obtain ⟨t, ht, hrt⟩ := cycle_rot hc hhdP
  have hothers : ∀ k, k ≠ r → s'.rings k = s.rings k := by
    intro k hk
    rw [hs']
    simp only [exciseRings]
    split
    · exact Wagyu.upd_ne _ _ hk
    · rfl
  have hsame : (s'.rings r).area = (s.rings r).area ∧ (s'.rings r).isHole = (s.rings r).isHole ∧ (s'.rings r).corrected = (s.rings r).corrected
      ∧ (s'.rings r).box = (s.rings r).box ∧ (s'.rings r).size = (s.rings r).size := by
    rw [hs']
    simp only [exciseRings]
    split
    · rw [Wagyu.upd_same]; exact ⟨rfl, rfl, rfl, rfl, rfl⟩
    · exact ⟨rfl, rfl, rfl, rfl, rfl⟩
  have hnodes : s'.nodes = excise s.nodes (P.getLast hP) o (P.head hP) := by rw [hs']
  have hnr : s'.nr = s.nr := by rw [hs']
  have hnn : s'.nn = s.nn := by rw [hs']
  have hlen : (hd :: t).length + 1 = (L r).length := by
    rw [← hrot.perm.length_eq, hrt.perm.length_eq]; simp
  have hw := weight_upd (L := L) hlt (hd :: t)
  have hw' : nwt (hd :: t) + 2 = nwt (L r) := by unfold nwt; simp at hlen ⊢; omega
  refine ⟨hd :: t, ⟨⟨?_, ?_, ?_⟩, hnn, hnr.ge, by rw [hs'], fun i => by rw [hnodes]; exact excise_loc _ _ _ _ _, fun k => ?_, by rw [hnr]; omega⟩, hrt, by rw [hnr]; omega⟩
  · refine h.own.update (· = r) _ hnn hnr.ge (fun k hk => Wagyu.upd_ne _ _ hk) (fun k hk => by rw [hothers k hk]) (fun i hi => ?_) ?_ ?_ ?_ ?_
    · rw [hnodes]
      exact hout i fun hm => hi r rfl (hrot.mem_iff.1 hm)
    · rintro _ rfl; rw [Wagyu.upd_same, hnew]; rfl
    · rintro _ rfl -
      rw [Wagyu.upd_same, hnr, hnodes]; exact ⟨hlt, ht⟩
    · rintro _ rfl i hi
      rw [Wagyu.upd_same] at hi
      have hiP := hrt.mem_iff.1 hi
      refine ⟨⟨_, rfl, hPr i hiP⟩, ?_⟩
      rw [hnodes, excise_ring, if_neg (show i ≠ o from fun e => hoP (e ▸ hiP))]
      exact (h.own.own _ i (hPr i hiP)).2
    · rintro _ rfl i hi k hk
      rw [hnodes, excise_ring] at hk
      split at hk
      · cases hk
      · next hio =>
        rw [(h.own.own _ i hi).2] at hk
        cases hk
        refine ⟨rfl, ?_⟩
        rw [Wagyu.upd_same, hrt.mem_iff]
        have := hrot.mem_iff.2 hi
        simpa [hio] using this
  · intro k hk hn
    by_cases e : k = r
    · subst e
      rw [Wagyu.upd_same] at hk ⊢
      rw [hsame.1] at hn
      rw [hsame.1, hsame.2.1, hsame.2.2.2.1, hsame.2.2.2.2, hnodes, pointsOf_congr (excise_loc _ _ _ _), area2_rot (pointsOf_rot hrt), hloc, area2_rot (pointsOf_rot hrot)]
      obtain ⟨q1, q2, q3, q4⟩ := h.sound k (List.ne_nil_of_mem hor) hn
      refine ⟨q1, q2, q3.same fun p => ?_, by omega⟩
      rw [(pointsOf_rot hrt).mem_iff, ← (pointsOf_rot hrot).mem_iff]
      simp only [pointsOf, List.map_append, List.map_cons, List.map_nil, List.mem_append, List.mem_singleton]
      constructor
      · exact Or.inl
      · rintro (q | rfl)
        · exact q
        · rw [heq]; exact List.mem_map_of_mem hnode
    · rw [Wagyu.upd_ne _ _ e] at hk ⊢
      rw [hothers k e] at hn ⊢
      rw [hnodes, pointsOf_congr (excise_loc _ _ _ _)]
      exact h.sound k hk hn
  · intro k hk
    by_cases e : k = r
    · subst e
      rw [Wagyu.upd_same] at hk; cases hk
    · rw [Wagyu.upd_ne _ _ e] at hk
      rw [hothers k e]; exact h.blank k hk
  · by_cases e : k = r
    · subst e; rw [hsame.2.2.1]; exact id
    · rw [hothers k e]; exact id

end

end Wagyu
