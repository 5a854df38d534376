import Verif.Proofs.Still
import Verif.Proofs.ForestTopo
import Verif.Proofs.TotSort
import Verif.Spec.OwnRings

/-!
# The heaps during the sweep
-/

namespace Wagyu

open Spec

/-- The recorded parents. -/
def parentIn (s : St) : Nat → Option Nat := fun r => (s.rings r).parent

/-- The nodes are distributed over the rings. -/
abbrev RingsOf (s : St) (L : Nat → List Nat) : Prop := Distributed s.nodes s.nn (fun r => (s.rings r).node) s.nr L

/-- The invariant of the heaps between two statements of the sweep. -/
structure HW (s : St) : Prop where
  rings : ∃ L, RingsOf s L
  bottom : ∀ r, (s.rings r).bottomNode = none
  forest : Inv (fun _ => False) s
  par : ∀ r p, (s.rings r).parent = some p → p < s.nr
  rank : ∃ h : Nat → Nat, ∀ r p, (s.rings r).parent = some p → h p < h r
  held : ∀ b r, some b ∈ s.abl → (s.bounds b).ring = some r → r < s.nr
  once : (s.abl.filterMap id).Nodup

/-- The invariant, and only points have been added. -/
structure Grown (s s' : St) : Prop where
  hw : HW s'
  still : Still s s'

theorem Grown.trans {a b c : St} (h : Grown a b) (k : Grown b c) : Grown a c := ⟨k.hw, Preo.trans h.still k.still⟩
theorem Grown.refl {s : St} (h : HW s) : Grown s s := ⟨h, Preo.refl s⟩
theorem Grown.active {s s' : St} (h : Grown s s') {b : Nat} (hb : some b ∈ s.abl) : some b ∈ s'.abl := by rw [h.still.abl]; exact hb

theorem HW.wf {s : St} (h : HW s) (k : Nat) : HW (s.wf k) := ⟨h.1, h.2, ⟨h.3.1, h.3.2, h.3.3⟩, h.4, h.5, h.6, h.7⟩

theorem HW.dist {s : St} {L : Nat → List Nat} (h : RingsOf s L) {i r r' : Nat} (h1 : i ∈ L r) (h2 : i ∈ L r') : r = r' := by
  have a := (h.own r i h1).2
  have b := (h.own r' i h2).2
  exact Option.some.inj (a.symm.trans b)

/-- One ring gets a new list, of its own nodes, nodes of emptied rings and new nodes. -/
theorem RingsOf.replace {s s' : St} {L : Nat → List Nat} (h : RingsOf s L) {r : Nat} {l : List Nat} (D : Nat → Prop)
    (hD : ∀ k, D k → k ≠ r ∧ (s'.rings k).node = none)
    (hr : r < s'.nr) (hnr : s.nr ≤ s'.nr) (hc : IsCycle s'.nodes l) (hnn : s.nn ≤ s'.nn)
    (hl : ∀ i, i ∈ l ↔ i ∈ L r ∨ (∃ k, D k ∧ i ∈ L k) ∨ s.nn ≤ i ∧ i < s'.nn)
    (hown : ∀ i ∈ l, (s'.nodes i).ring = some r)
    (hout : ∀ i, i ∉ l → i < s.nn → s'.nodes i = s.nodes i)
    (hh : (s'.rings r).node = l.head?) (ho : ∀ k, k ≠ r → ¬ D k → (s'.rings k).node = (s.rings k).node) :
    ∃ L', RingsOf s' L' ∧ L' r = l ∧ ∀ k, k ≠ r → ¬ D k → L' k = L k := by
  classical
  refine ⟨fun k => if k = r then l else if D k then [] else L k, ⟨fun k => ?_, fun k hk => ?_, fun k i hi => ?_, fun i hi => ?_⟩, by simp, fun k h1 h2 => by simp [h1, h2]⟩
  · by_cases hkr : k = r
    · subst hkr; rw [if_pos rfl]; exact hh
    · rw [if_neg hkr]
      by_cases hd : D k
      · rw [if_pos hd]; exact (hD k hd).2
      · rw [if_neg hd]; exact (ho k hkr hd).trans (h.head k)
  · by_cases hkr : k = r
    · subst hkr; rw [if_pos rfl]; exact ⟨hr, hc⟩
    · rw [if_neg hkr] at hk ⊢
      by_cases hd : D k
      · rw [if_pos hd] at hk; exact absurd rfl hk
      · rw [if_neg hd] at hk ⊢
        obtain ⟨h1, h2⟩ := h.cycle k hk
        refine ⟨by omega, IsCycle_congr h2 fun i hi => ?_⟩
        have hil : i ∉ l := by
          rw [hl]
          rintro (h3 | ⟨k', hk', h3⟩ | h3)
          · exact hkr (HW.dist h hi h3)
          · exact hd (HW.dist h hi h3 ▸ hk')
          · have := (h.own k i hi).1; omega
        rw [hout i hil (h.own k i hi).1]
        exact ⟨rfl, rfl⟩
  · by_cases hkr : k = r
    · subst hkr
      rw [if_pos rfl] at hi
      refine ⟨?_, hown i hi⟩
      rcases (hl i).1 hi with h3 | ⟨k', hk', h3⟩ | h3
      · have := (h.own _ i h3).1; omega
      · have := (h.own _ i h3).1; omega
      · exact h3.2
    · rw [if_neg hkr] at hi
      by_cases hd : D k
      · rw [if_pos hd] at hi; cases hi
      · rw [if_neg hd] at hi
        have hil : i ∉ l := by
          rw [hl]
          rintro (h3 | ⟨k', hk', h3⟩ | h3)
          · exact hkr (HW.dist h hi h3)
          · exact hd (HW.dist h hi h3 ▸ hk')
          · have := (h.own k i hi).1; omega
        obtain ⟨h1, h2⟩ := h.own k i hi
        rw [hout i hil h1]
        exact ⟨by omega, h2⟩
  · by_cases hil : i ∈ l
    · exact ⟨r, by simpa using hil⟩
    · have hlt : i < s.nn := by
        by_contra hc
        exact hil ((hl i).2 (Or.inr (Or.inr ⟨by omega, hi⟩)))
      obtain ⟨k, hk⟩ := h.all i hlt
      refine ⟨k, ?_⟩
      have h1 : k ≠ r := fun e => hil ((hl i).2 (Or.inl (e ▸ hk)))
      have h2 : ¬ D k := fun e => hil ((hl i).2 (Or.inr (Or.inl ⟨k, e, hk⟩)))
      simpa [h1, h2] using hk

/-! ## A new node -/

/-- The new node at the end of a ring, or alone. -/
theorem createPointNode_cycle {s : St} {L : Nat → List Nat} (h : RingsOf s L) (r : Nat) (p : Point) :
    Ok (createPointNode (some r) p (L r).head?) s fun i s' => i = s.nn ∧ s'.nn = s.nn + 1 ∧ s'.rings = s.rings ∧ s'.nr = s.nr
      ∧ s'.bounds = s.bounds ∧ s'.abl = s.abl ∧ IsCycle s'.nodes (L r ++ [s.nn])
      ∧ (∀ i ∈ L r ++ [s.nn], (s'.nodes i).ring = some r) ∧ ∀ i, i ∉ L r ++ [s.nn] → s'.nodes i = s.nodes i := by
  unfold createPointNode
  refine Post.bind (Post.gets (Post.bind (Post.modify ?_)))
  have hnew : ∀ k, s.nn ∉ L k := fun k hk => by have := (h.own k _ hk).1; omega
  cases hL : L r with
  | nil =>
    refine Post.bind (Post.modify (Post.pure ⟨rfl, rfl, rfl, rfl, rfl, rfl, ?_, ?_, ?_⟩))
    · rw [List.nil_append, isCycle_single]
      refine ⟨?_, ?_⟩ <;> (dsimp only; rw [Wagyu.upd_same])
    · intro i hi
      obtain rfl : i = s.nn := by simpa using hi
      dsimp only; rw [Wagyu.upd_same]
    · intro i hi
      have : i ≠ s.nn := by simpa using hi
      dsimp only; rw [upd_ne _ _ this]
  | cons a t =>
    have hc := (h.cycle r (by rw [hL]; simp)).2
    rw [hL] at hc
    have hn : s.nn ∉ a :: t := hL ▸ hnew r
    set n1 := upd s.nodes s.nn { x := p.x, y := p.y, prev := some s.nn, next := some s.nn, ring := some r } with hn1
    have hout : ∀ i, i ≠ s.nn → n1 i = s.nodes i := fun i hi => by rw [hn1, upd_ne _ _ hi]
    have hc1 : IsCycle n1 (a :: t) := IsCycle_congr hc fun i hi => by
      rw [hout i (fun e => hn (e ▸ hi))]; exact ⟨rfl, rfl⟩
    obtain ⟨last, hlast, hcyc, hol⟩ := isCycle_placed hc1 hn
    dsimp only
    refine Post.bind (Post.run (placeBefore_run (s := { s with nodes := n1, nn := s.nn + 1 }) hlast) ?_)
    refine Post.bind (Post.modify (Post.pure ⟨rfl, rfl, rfl, rfl, rfl, rfl, hcyc, ?_, ?_⟩))
    · intro i hi
      show (placed n1 s.nn a last i).ring = _
      rw [(hol.1 i).2.2]
      rcases List.mem_append.1 hi with hi | hi
      · rw [hout i (fun e => hn (e ▸ hi))]
        exact (h.own r i (hL ▸ hi)).2
      · obtain rfl : i = s.nn := by simpa using hi
        rw [hn1, Wagyu.upd_same]
    · intro i hi
      show placed n1 s.nn a last i = _
      rw [hol.2 i hi]
      exact hout i fun e => hi (by simp [e])

instance Steady.createPointNode (r : Option Nat) (p : Point) (b : Option Nat) : Steady (createPointNode r p b) := by
  unfold Wagyu.createPointNode
  have h1 : Steady (Wagyu.gets St.nn) := Steady.gets fun _ _ => rfl
  refine Steady.bind h1 fun i => Steady.bind (Steady.modify fun _ _ => rfl) fun _ => ?_
  have : Steady (Wagyu.modify fun s => { s with allNodes := s.allNodes ++ [i] }) := Steady.modify fun _ _ => rfl
  cases b with
  | none => steady
  | some b =>
    have : Steady (placeBefore i b) := by unfold placeBefore; steady
    steady

instance Steady.pushPoint (b : Nat) (p : Point) : Steady (pushPoint b p) := by unfold Wagyu.pushPoint; steady
instance Steady.hotPixelSetLeftToRight (y a z : Int) (b i j : Nat) (e : Bool) : Steady (hotPixelSetLeftToRight y a z b i j e) := by
  unfold Wagyu.hotPixelSetLeftToRight; steady
instance Steady.hotPixelSetRightToLeft (y a z : Int) (b i j : Nat) (e : Bool) : Steady (hotPixelSetRightToLeft y a z b i j e) := by
  unfold Wagyu.hotPixelSetRightToLeft; steady

/-- Add the frames to the rest of the invariant. -/
theorem Tot.grown {α : Type} {m : M α} {s : St} (h : HW s) [h1 : Pres (FR fun _ => False) m] [Pres Still m]
    (ht : Tot m s fun _ s' => Inv (fun _ => False) s' → Still s s' → HW s') : Tot m s fun _ => Grown s := by
  refine ((ht.and_pres h1 ?_).still).imp ?_
  · intro s s' k hf n hs
    obtain ⟨⟨a, b, c⟩, d⟩ := hs
    obtain ⟨⟨a', b', c'⟩, d'⟩ := hf n ⟨⟨a, b, c⟩, d⟩
    exact ⟨⟨a', b', c'⟩, d'⟩
  · rintro _ s' ⟨⟨h2, h3⟩, h4⟩
    exact ⟨h2 (h3 0 ⟨h.forest, Nat.zero_le _⟩).1 h4, h4⟩

theorem HW.reader {α : Type} {m : M α} [hm : Pres Eq m] {s : St} {Q : α → St → Prop} (h : ∀ a, Q a s) : Ok m s Q :=
  (Post.of_pres (s := s) hm).mono (fun a _ he => he ▸ h a) fun _ _ _ => trivial

/-- Nodes are added to a ring. -/
theorem HW.added {s s' : St} (h : HW s) (hr : ∃ L, RingsOf s' L) (hi : Inv (fun _ => False) s') (hst : Still s s')
    (hp : ∀ r, (s'.rings r).parent = (s.rings r).parent) (hb : ∀ r, (s'.rings r).bottomNode = (s.rings r).bottomNode)
    (hn : s'.nr = s.nr) (hbd : ∀ b, (s'.bounds b).ring = (s.bounds b).ring) : HW s' := by
  refine ⟨hr, fun r => (hb r).trans (h.bottom r), hi, fun r p hrp => ?_, ?_, fun b r h1 h2 => ?_, by rw [hst.abl]; exact h.once⟩
  · rw [hn]; exact h.par r p (by rw [← hp]; exact hrp)
  · obtain ⟨f, hf⟩ := h.rank
    exact ⟨f, fun r p hrp => hf r p (by rw [← hp]; exact hrp)⟩
  · rw [hn]; exact h.held b r (by rw [← hst.abl]; exact h1) (by rw [← hbd]; exact h2)

theorem tot_pushPoint {s : St} (h : HW s) {b : Nat} (hb : some b ∈ s.abl) (p : Point) :
    Tot (pushPoint b p) s fun _ s' => Grown s s' := by
  refine Tot.grown h (Tot.steady ?_)
  obtain ⟨L, hL⟩ := h.rings
  unfold pushPoint
  refine Post.bind (Post.getBound (Post.bind (Post.deref (fun r hr => ?_) fun _ => trivial)))
  have hrn := h.held b r hb hr
  refine Post.bind (Post.getRing ?_)
  rw [hL.head r]
  have tail : ∀ (front same : Bool), (front = false → L r ≠ []) → Ok (if same = true then pure () else do
      let new ← createPointNode (some r) p (L r).head?
      if front = true then setRingNode r (some new) else pure () : M Unit) s
      fun _ s' => Inv (fun _ => False) s' → Still s s' → HW s' := by
    intro front same hne
    refine Post.ite (fun _ => Post.pure fun _ _ => h) fun _ => ?_
    refine Post.bind ((createPointNode_cycle hL r p).imp ?_)
    rintro i s1 ⟨rfl, hnn, hrings, hnr, hbd, habl, hc, hown, hout⟩
    refine Post.ite (fun hf => Post.modRing fun hi hst => ?_) fun hf => Post.pure fun hi hst => ?_
    · refine h.added ?_ hi hst (fun k => ?_) (fun k => ?_) hnr (fun b => by show (s1.bounds b).ring = _; rw [hbd])
      · obtain ⟨L', hL', -⟩ := RingsOf.replace (s' := { s1 with rings := upd s1.rings r { s1.rings r with node := some s.nn } })
          hL (r := r) (l := s.nn :: L r) (fun _ => False) (fun _ => False.elim) (by show r < s1.nr; omega) (by show s.nr ≤ s1.nr; omega)
          (by simpa using isCycle_append_comm hc) (by show s.nn ≤ s1.nn; omega)
          (fun i => by
            show _ ↔ _ ∨ _ ∨ _ ∧ i < s1.nn
            rw [hnn, List.mem_cons]
            constructor
            · rintro (h1 | h1)
              · exact Or.inr (Or.inr (by omega))
              · exact Or.inl h1
            · rintro (h1 | ⟨k, hk, -⟩ | h1)
              · exact Or.inr h1
              · exact hk.elim
              · exact Or.inl (by omega))
          (fun i hi => hown i (by rcases List.mem_cons.1 hi with h1 | h1 <;> simp [h1]))
          (fun i hi _ => hout i (by rw [List.mem_append]; rintro (h1 | h1) <;> exact hi (by simp_all)))
          (by show (upd s1.rings r _ r).node = _; rw [Wagyu.upd_same]; rfl)
          (fun k hk _ => by show (upd s1.rings r _ k).node = _; rw [upd_ne _ _ hk, hrings])
        exact ⟨L', hL'⟩
      · show (upd s1.rings r _ k).parent = _
        by_cases hk : k = r
        · subst hk; rw [Wagyu.upd_same, hrings]
        · rw [upd_ne _ _ hk, hrings]
      · show (upd s1.rings r _ k).bottomNode = _
        by_cases hk : k = r
        · subst hk; rw [Wagyu.upd_same, hrings]
        · rw [upd_ne _ _ hk, hrings]
    · have hne := hne (by simpa using hf)
      refine h.added ?_ hi hst (fun k => by rw [hrings]) (fun k => by rw [hrings]) hnr (fun b => by rw [hbd])
      obtain ⟨L', hL', -⟩ := RingsOf.replace (s' := s1) hL (r := r) (l := L r ++ [s.nn]) (fun _ => False) (fun _ => False.elim)
        (by omega) (by omega) hc (by omega)
        (fun i => by
          rw [hnn, List.mem_append, List.mem_singleton]
          constructor
          · rintro (h1 | h1)
            · exact Or.inl h1
            · exact Or.inr (Or.inr (by omega))
          · rintro (h1 | ⟨k, hk, -⟩ | h1)
            · exact Or.inl h1
            · exact hk.elim
            · exact Or.inr (by omega))
        hown (fun i hi _ => hout i hi)
        (by rw [hrings, hL.head r, List.head?_append_of_ne_nil _ hne])
        (fun k hk _ => by rw [hrings])
      exact ⟨L', hL'⟩
  by_cases hside : (s.bounds b).side = .left
  · rw [hside]
    refine Post.bind (HW.reader (hm := by pres) fun last => Post.bind (HW.reader (hm := by pres) fun same => ?_))
    exact tail true same nofun
  · have hs2 : decide ((s.bounds b).side = .left) = false := by simpa using hside
    rw [hs2]
    refine Post.bind (Post.bind (Post.deref (fun n hn => ?_) fun _ => trivial))
    refine Post.bind (Post.getNode (Post.pure (Post.bind (HW.reader (hm := by pres) fun same => ?_))))
    exact tail false same fun _ he => by rw [he] at hn; cases hn

end Wagyu
