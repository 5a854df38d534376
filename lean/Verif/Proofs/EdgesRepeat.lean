import Verif.Proofs.EdgesClose

/-!
# `LinearRing.edges` and a point that is repeated

The main loop on a ring one of whose points is repeated follows the main loop on the ring itself.
-/

namespace Wagyu

open Spec

/-- `pts'` is `pts` with the point number `k` repeated; with one more point at the end when `k` is the length. -/
structure Dup (k : Nat) (pts pts' : List Point) : Prop where
  len : pts'.length = pts.length + 1
  low : ∀ j, j < pts.length → j ≤ k → ringPt pts' j = ringPt pts j
  high : ∀ j, j < pts.length → k ≤ j → ringPt pts' (j + 1) = ringPt pts j

/-- Both loops are at the same point. -/
structure Twin (k i r a b : Nat) (s s' : EdgesState) : Prop where
  acc : s'.acc = s.acc
  pt1 : s'.pt1 = s.pt1
  pt2 : s'.pt2 = s.pt2
  pt3 : s'.pt3 = s.pt3
  front : s'.front = s.front
  back : s'.back = s.back
  si : s.index = i
  sr : s.ri = r
  sl : s.lri = r + 1
  si' : s'.index = a
  sr' : s'.ri = b
  sl' : s'.lri = b + 1
  hb : (r < k ∧ b = r) ∨ (r = k ∧ (b = k ∨ b = k + 1)) ∨ (k < r ∧ b = r + 1)
  ha : (i = r + 1 ∧ a = b + 1) ∨ (i ≤ r ∧ i ≤ k ∧ a = i) ∨ (i ≤ r ∧ k < i ∧ a = i + 1)

/-- The loop ends with this result. -/
def LoopEnds (pts : List Point) (s : EdgesState) (acc : List Edge) (fl : Bool) : Prop := ∃ f, edgesLoop pts f s = .ok (acc, fl)

/-- The loop ends with this result after the iteration. -/
def After (pts : List Point) (y : EdgesStep) (acc : List Edge) (fl : Bool) : Prop :=
  match y with
  | .next t => LoopEnds pts t acc fl
  | .brk t => acc = t.acc.reverse ∧ fl = true
  | .ret l => acc = l.reverse ∧ fl = false

theorem ends_of_step {pts : List Point} {s : EdgesState} {y : EdgesStep} {acc : List Edge} {fl : Bool}
    (h : edgesStep pts s = .ok y) (h' : After pts y acc fl) : LoopEnds pts s acc fl := by
  cases y with
  | next t =>
    obtain ⟨f, hf⟩ := h'
    exact ⟨f + 1, by rw [edgesLoop, h]; exact hf⟩
  | brk t =>
    obtain ⟨rfl, rfl⟩ := h'
    exact ⟨1, by rw [edgesLoop, h]⟩
  | ret l =>
    obtain ⟨rfl, rfl⟩ := h'
    exact ⟨1, by rw [edgesLoop, h]⟩

theorem Dup.pt {k : Nat} {pts pts' : List Point} (D : Dup k pts pts') {r b : Nat} (hr : r < pts.length)
    (hb : (r < k ∧ b = r) ∨ (r = k ∧ (b = k ∨ b = k + 1)) ∨ (k < r ∧ b = r + 1)) :
    b < pts'.length ∧ ringPt pts' b = ringPt pts r := by
  have := D.len
  rcases hb with ⟨h, rfl⟩ | ⟨rfl, rfl | rfl⟩ | ⟨h, rfl⟩
  · exact ⟨by omega, D.low _ hr (by omega)⟩
  · exact ⟨by omega, D.low _ hr (by omega)⟩
  · exact ⟨by omega, D.high _ hr (by omega)⟩
  · exact ⟨by omega, D.high _ hr (by omega)⟩

theorem advance_twin {k i r a b : Nat} {pts pts' : List Point} (D : Dup k pts pts') {s s' : EdgesState} (T : Twin k i r a b s s')
    (hi : i ≤ r) (hr : r < pts.length) (h2 : s.pt2 = ringPt pts i) (hfr : s.acc ≠ [] → ∃ p, s.front = some p) :
    (∃ t t' a', edgesAdvance pts s = .ok (.next t) ∧ Twin k (i + 1) r a' b t t'
        ∧ ∀ acc fl, LoopEnds pts' t' acc fl → ∃ y, edgesAdvance pts' s' = .ok y ∧ After pts' y acc fl)
      ∨ ∃ t, edgesAdvance pts s = .ok (.brk t) ∧ t.acc = [] ∧ ∃ y, edgesAdvance pts' s' = .ok y ∧ After pts' y [] true := by
  obtain ⟨acc, p1, p2, p3, fr, bk, ei, er, el, ei', er', el', hb, ha⟩ := T
  obtain ⟨sacc0, sindex, sri, slri, spt10, spt20, spt30, sfront0, sback0⟩ := s
  obtain ⟨sacc, sindex', sri', slri', spt1, spt2, spt3, sfront, sback⟩ := s'
  dsimp only at acc p1 p2 p3 fr bk ei er el ei' er' el' h2 hfr
  subst acc p1 p2 p3 fr bk ei er el ei' er' el'
  have hlen := D.len
  -- the last step, from `c` to the end or to the next point
  have fin : ∀ c : Nat, i = r → c = b → ∀ q : Point,
      (∃ t t' a', edgesAdvance pts ⟨sacc, i, r, r + 1, spt1, spt2, spt3, sfront, sback⟩ = .ok (.next t) ∧ Twin k (i + 1) r a' b t t'
        ∧ edgesAdvance pts' ⟨sacc, c, b, b + 1, spt1, spt2, q, sfront, sback⟩ = .ok (.next t'))
      ∨ ∃ t t', edgesAdvance pts ⟨sacc, i, r, r + 1, spt1, spt2, spt3, sfront, sback⟩ = .ok (.brk t) ∧ t.acc = []
        ∧ edgesAdvance pts' ⟨sacc, c, b, b + 1, spt1, spt2, q, sfront, sback⟩ = .ok (.brk t') ∧ t'.acc = [] := by
    intro c hir hc q
    subst hir hc
    unfold edgesAdvance
    simp only [if_true]
    by_cases hacc : sacc = []
    · right
      rw [if_pos hacc, if_pos hacc]
      exact ⟨_, _, rfl, hacc, rfl, hacc⟩
    · left
      obtain ⟨p, hp⟩ := hfr hacc
      rw [if_neg hacc, if_neg hacc, hp]
      refine ⟨_, _, c + 1, rfl, ?_, rfl⟩
      exact ⟨rfl, rfl, rfl, rfl, rfl, rfl, by simp, rfl, rfl, by simp, rfl, rfl, hb, .inl ⟨rfl, rfl⟩⟩
  -- a step to a point, not the last one
  have mid : ∀ c : Nat, c < b → ∀ q : Point,
      edgesAdvance pts' ⟨sacc, c, b, b + 1, spt1, spt2, q, sfront, sback⟩
        = .ok (.next ⟨sacc, (c + 1 : Nat), b, b + 1, spt1, spt2, ringPt pts' (c + 1), sfront, sback⟩) := by
    intro c hc q
    have hb' : b < pts'.length := (D.pt hr hb).1
    unfold edgesAdvance
    simp only
    rw [if_neg (by omega), show (c : Int) + 1 = ((c + 1 : Nat) : Int) by omega, ptAt_nat (by omega)]
  have midS : i < r → edgesAdvance pts ⟨sacc, i, r, r + 1, spt1, spt2, spt3, sfront, sback⟩
        = .ok (.next ⟨sacc, (i + 1 : Nat), r, r + 1, spt1, spt2, ringPt pts (i + 1), sfront, sback⟩) := by
    intro hc
    unfold edgesAdvance
    simp only
    rw [if_neg (by omega), show (i : Int) + 1 = ((i + 1 : Nat) : Int) by omega, ptAt_nat (by omega)]
  -- the step over the repeated point
  have dup : ∀ c : Nat, c ≤ b → edgesStep pts' ⟨sacc, c, b, b + 1, spt1, spt2, spt2, sfront, sback⟩
      = edgesAdvance pts' ⟨sacc, c, b, b + 1, spt1, spt2, spt2, sfront, sback⟩ := by
    intro c hc
    unfold edgesStep
    rw [if_pos rfl, if_neg (by simp only; omega)]
  by_cases hir : i = r
  · -- both are at the end, or `pts'` has still the repeated point
    by_cases hab : a = b
    · rcases fin a hir hab spt3 with ⟨t, t', a', e1, e2, e3⟩ | ⟨t, t', e1, e2, e3, e4⟩
      · exact .inl ⟨t, t', a', e1, e2, fun acc fl hE => ⟨_, e3, hE⟩⟩
      · exact .inr ⟨t, e1, e2, _, e3, by rw [e4]; rfl, rfl⟩
    · have hik : i = k ∧ a = k ∧ b = k + 1 := by omega
      obtain ⟨h1, h3, h4⟩ := hik
      have hq : ringPt pts' (a + 1) = spt2 := by rw [h2, h3, ← h1]; exact D.high i (by omega) (by omega)
      have em := mid a (by omega) spt3
      rw [hq] at em
      rcases fin (a + 1) hir (by omega) spt2 with ⟨t, t', a', e1, e2, e3⟩ | ⟨t, t', e1, e2, e3, e4⟩
      · refine .inl ⟨t, t', a', e1, e2, fun acc fl hE => ⟨_, em, ?_⟩⟩
        exact ends_of_step (y := .next t') (by rw [dup _ (by omega)]; exact e3) hE
      · refine .inr ⟨t, e1, e2, _, em, ?_⟩
        exact ends_of_step (y := .brk t') (by rw [dup _ (by omega)]; exact e3) ⟨by rw [e4]; rfl, rfl⟩
  · have hlt : i < r := by omega
    left
    refine ⟨_, ⟨sacc, ((if i + 1 ≤ k then i + 1 else i + 2 : Nat) : Int), b, b + 1, spt1, spt2, ringPt pts (i + 1), sfront, sback⟩, if i + 1 ≤ k then i + 1 else i + 2,
      midS hlt, ⟨rfl, rfl, rfl, rfl, rfl, rfl, rfl, rfl, rfl, rfl, rfl, rfl, hb, ?_⟩, ?_⟩
    · split <;> omega
    · intro acc fl hE
      by_cases hk : i + 1 ≤ k
      · rw [if_pos hk] at hE
        have hai : a = i := by omega
        subst hai
        refine ⟨_, mid a (by omega) spt3, ?_⟩
        rw [D.low _ (by omega) hk]
        exact hE
      · rw [if_neg hk] at hE
        by_cases hik : i = k
        · have hai : a = i := by omega
          subst hai
          have hq : ringPt pts' (a + 1) = spt2 := by rw [h2]; exact D.high a (by omega) (by omega)
          have em := mid a (by omega) spt3
          rw [hq] at em
          refine ⟨_, em, ends_of_step (by rw [dup _ (by omega)]; exact mid (a + 1) (by omega) spt2) ?_⟩
          rw [D.high (a + 1) (by omega) (by omega)]
          exact hE
        · have hai : a = i + 1 := by omega
          subst hai
          refine ⟨_, mid (i + 1) (by omega) spt3, ?_⟩
          rw [D.high (i + 1) (by omega) (by omega)]
          exact hE

theorem collinear_back (p q : Point) : arePointsSlopesEqual p q p = true := by
  unfold arePointsSlopesEqual
  rw [decide_eq_true_eq]; ring

/-- The loop on the ring with the repeated point ends as the loop on the ring does. -/
theorem loop_twin {k : Nat} {pts pts' : List Point} (D : Dup k pts pts') : ∀ (f : Nat) {w : List Point} {i r : Nat} {s : EdgesState},
    EInv pts w i r s → ∀ {a b : Nat} {s' : EdgesState}, Twin k i r a b s s' → ∀ {acc : List Edge} {fl : Bool},
    edgesLoop pts f s = .ok (acc, fl) → ∃ fl', LoopEnds pts' s' acc fl' ∧ (fl' = fl ∨ acc = []) := by
  intro f
  induction f with
  | zero => intro w i r s _ a b s' _ acc fl hf; cases hf
  | succ f ih =>
    intro w i r s h a b s' T acc fl hf
    have hlen := D.len
    obtain ⟨wl, hwl⟩ : ∃ f, w.getLast? = some f := by
      have := h.whead
      cases w with
      | nil => cases this
      | cons a w => exact ⟨_, List.getLast?_eq_some_getLast (by simp)⟩
    have step : ∀ y, edgesStep pts s = .ok y → After pts y acc fl := by
      intro y hy
      rw [edgesLoop, hy] at hf
      cases y with
      | next t => exact ⟨f, hf⟩
      | brk t => cases hf; exact ⟨rfl, rfl⟩
      | ret l => cases hf; exact ⟨rfl, rfl⟩
    have nxt : ∀ t, edgesStep pts s = .ok (.next t) → ∀ (i' r' a' b' : Nat) (t' : EdgesState), Twin k i' r' a' b' t t' →
        ∃ fl', LoopEnds pts' t' acc fl' ∧ (fl' = fl ∨ acc = []) := by
      intro t ht i' r' a' b' t' T'
      rcases edgesStep_spec h with ⟨u, e1, e2⟩ | ⟨e1, e2⟩ | ⟨u, w'', i'', r'', e1, e2, e3⟩
      · rw [ht] at e1; cases e1
      · rw [ht] at e1; cases e1
      · rw [ht] at e1
        cases e1
        have hi : i'' = i' := by have := e2.idx; have := T'.si; omega
        have hr : r'' = r' := by have := e2.ri; have := T'.sr; omega
        subst hi hr
        rw [edgesLoop, ht] at hf
        exact ih e2 T' hf
    have hb := T.hb
    have ha := T.ha
    have hrn := h.rn
    have hi1 := h.i1
    have hi2 := h.i2
    have hend : s.index = s.lri ↔ i = r + 1 := by rw [T.si, T.sl]; omega
    have hend' : s'.index = s'.lri ↔ i = r + 1 := by rw [T.si', T.sl']; omega
    have hfr : s.acc ≠ [] → ∃ p, s.front = some p := fun hn => ⟨wl, by rw [(h.cons hn).2.2.1, hwl]⟩
    have hpt' := D.pt hrn hb
    by_cases h23 : s.pt2 = s.pt3
    · -- the third point is the second one
      have h23' : s'.pt2 = s'.pt3 := by rw [T.pt2, T.pt3, h23]
      by_cases hir : i = r + 1
      · have e : edgesStep pts s = .ok (.brk s) := by unfold edgesStep; rw [if_pos h23, if_pos (hend.2 hir)]
        obtain ⟨e1, e2⟩ := step _ e
        refine ⟨true, ends_of_step (y := .brk s') ?_ ⟨by rw [T.acc]; exact e1, rfl⟩, .inl e2.symm⟩
        unfold edgesStep; rw [if_pos h23', if_pos (hend'.2 hir)]
      · have e : edgesStep pts s = edgesAdvance pts s := by unfold edgesStep; rw [if_pos h23, if_neg (by rw [hend]; exact hir)]
        have e' : edgesStep pts' s' = edgesAdvance pts' s' := by unfold edgesStep; rw [if_pos h23', if_neg (by rw [hend']; exact hir)]
        rcases advance_twin D T (by omega) hrn (by rw [(h.at3 (by omega)).1, h23]) hfr with ⟨t, t', a', e1, e2, e3⟩ | ⟨t, e1, e2, y, e3, e4⟩
        · obtain ⟨fl', f1, f2⟩ := nxt t (by rw [e, e1]) _ _ _ _ t' e2
          obtain ⟨y, f3, f4⟩ := e3 _ _ f1
          exact ⟨fl', ends_of_step (by rw [e', f3]) f4, f2⟩
        · obtain ⟨f1, f2⟩ := step _ (by rw [e, e1])
          rw [e2] at f1
          rw [f1]
          exact ⟨true, ends_of_step (by rw [e', e3]) e4, .inr rfl⟩
    · have h23' : ¬ s'.pt2 = s'.pt3 := by rw [T.pt2, T.pt3]; exact h23
      by_cases hcol : arePointsSlopesEqual s.pt1 s.pt2 s.pt3 = true
      · have hcol' : arePointsSlopesEqual s'.pt1 s'.pt2 s'.pt3 = true := by rw [T.pt1, T.pt2, T.pt3]; exact hcol
        cases hacc : s.acc with
        | nil =>
          have hacc' : s'.acc = [] := by rw [T.acc, hacc]
          have hir : i < r + 1 := by
            by_contra hn
            rcases h.atl (by omega) with ⟨_, h1⟩ | ⟨h1, _⟩
            · exact h23 h1
            · exact h1 hacc
          obtain ⟨hp3, hp3'⟩ := h.at3 hir
          have hp3'' : s.pt3 ≠ ringPt pts (i - 1) := by
            rcases hp3' with e | e
            · exact e
            · rw [← e]; exact fun hh => h23 hh.symm
          have hp1 := h.emp hacc
          have hp1' : ringPt pts' b = s.pt1 := by rw [hpt'.2, hp1]
          -- one iteration of both
          have stepS : ∀ o, edgesBack pts s.pt1 (i : Int) (2 * pts.length + 1 + 1) (r : Int) = .ok o →
              edgesStep pts s = match o with
                | none => .ok (.ret [])
                | some ri => match ptAt pts ri with
                  | .error e => .error e
                  | .ok p => .ok (.next { s with acc := [], pt1 := p, pt2 := s.pt1, ri := ri, lri := ri + 1 }) := by
            intro o ho
            unfold edgesStep
            rw [if_neg h23, if_pos hcol]
            simp only
            rw [hacc]
            simp only [List.tail_nil]
            rw [h.idx, h.ri, ho]
            cases o <;> rfl
          have stepS' : ∀ o, edgesBack pts' s.pt1 (a : Int) (2 * pts'.length + 1 + 1) (b : Int) = .ok o →
              edgesStep pts' s' = match o with
                | none => .ok (.ret [])
                | some ri => match ptAt pts' ri with
                  | .error e => .error e
                  | .ok p => .ok (.next { s' with acc := [], pt1 := p, pt2 := s.pt1, ri := ri, lri := ri + 1 }) := by
            intro o ho
            unfold edgesStep
            rw [if_neg h23', if_pos hcol']
            simp only
            rw [hacc']
            simp only [List.tail_nil]
            rw [T.si', T.sr', T.pt1, ho]
            cases o <;> rfl
          by_cases hlt : i < r
          · have hab : a < b := by omega
            have back' := edgesBack_spec (pts := pts') (pt2 := s.pt1) (i := a) (2 * pts'.length + 1) b hpt'.1 hab (by omega)
            rcases edgesBack_spec (pts := pts) (pt2 := s.pt1) (i := i) (2 * pts.length + 1) r hrn hlt (by omega) with
              ⟨e1, e2⟩ | ⟨r', e1, e2, e3, e4, e5⟩
            · -- nothing but the first point is left
              obtain ⟨f1, f2⟩ := step _ (stepS _ e1)
              subst f1
              rcases back' with ⟨g1, g2⟩ | ⟨b', g1, g2, g3, g4, g5⟩
              · exact ⟨false, ends_of_step (stepS' _ g1) ⟨rfl, rfl⟩, .inr rfl⟩
              · have hb' : i = k ∧ a = k ∧ b' = k + 1 := by
                  by_contra hn
                  apply g4
                  by_cases hk : b' ≤ k
                  · rw [D.low b' (by omega) hk]; exact e2 b' (by omega) (by omega)
                  · rw [show b' = (b' - 1) + 1 by omega, D.high (b' - 1) (by omega) (by omega)]
                    exact e2 _ (by omega) (by omega)
                obtain ⟨h1, h2, h3⟩ := hb'
                have hq : ringPt pts' b' = s.pt3 := by rw [h3, D.high k (by omega) (by omega), ← h1, hp3]
                have hne : s.pt3 ≠ s.pt1 := by rw [← hq]; exact g4
                have g1' := stepS' _ g1
                simp only at g1'
                rw [ptAt_nat (by omega), hq] at g1'
                refine ⟨false, ends_of_step g1' (ends_of_step (y := .ret []) ?_ ⟨rfl, rfl⟩), .inr rfl⟩
                unfold edgesStep
                simp only
                rw [if_neg (by rw [T.pt3]; exact hne.symm), T.pt3, if_pos (collinear_back _ _)]
                simp only [List.tail_nil]
                have : edgesBack pts' s.pt3 s'.index (2 * pts'.length + 2) (b' : Int) = .ok none := by
                  rw [edgesBack, ptAt_nat (by omega), hq]
                  simp only [if_true]
                  rw [if_pos (by rw [T.si']; omega)]
                rw [this]
            · -- back to `r'`
              have hr' : r' < r := by
                rcases Nat.lt_or_ge r' r with h1 | h1
                · exact h1
                · have : r' = r := by omega
                  rw [this] at e4
                  exact absurd hp1 e4
              have em := stepS _ e1
              simp only at em
              rw [ptAt_nat (by omega)] at em
              -- where it is now
              obtain ⟨b0, hb0, hb0'⟩ : ∃ b0, (r' < k ∧ b0 = r' ∨ r' = k ∧ b0 = k + 1 ∨ k < r' ∧ b0 = r' + 1)
                  ∧ ((r' < k ∧ b0 = r') ∨ (r' = k ∧ (b0 = k ∨ b0 = k + 1)) ∨ (k < r' ∧ b0 = r' + 1)) := by
                rcases Nat.lt_trichotomy r' k with h1 | h1 | h1
                · exact ⟨r', by omega, by omega⟩
                · exact ⟨k + 1, by omega, by omega⟩
                · exact ⟨r' + 1, by omega, by omega⟩
              have hpb := D.pt (show r' < pts.length by omega) hb0'
              have hback : edgesBack pts' s.pt1 (a : Int) (2 * pts'.length + 1 + 1) (b : Int) = .ok (some (b0 : Int)) := by
                rcases back' with ⟨g1, g2⟩ | ⟨b', g1, g2, g3, g4, g5⟩
                · exact absurd (by rw [← hpb.2]; exact g2 b0 (by omega) (by omega)) e4
                · have : b' = b0 := by
                    rcases Nat.lt_trichotomy b' b0 with h1 | h1 | h1
                    · exact absurd (by rw [← hpb.2]; exact g5 b0 (by omega) (by omega)) e4
                    · exact h1
                    · exfalso
                      apply g4
                      by_cases hk : b' ≤ k
                      · rw [D.low b' (by omega) hk]; exact e5 b' (by omega) (by omega)
                      · rw [show b' = (b' - 1) + 1 by omega, D.high (b' - 1) (by omega) (by omega)]
                        exact e5 _ (by omega) (by omega)
                  rw [g1, this]
              have em' := stepS' _ hback
              simp only at em'
              rw [ptAt_nat hpb.1, hpb.2] at em'
              obtain ⟨fl', f1, f2⟩ := nxt _ em i r' a b0
                { s' with acc := [], pt1 := ringPt pts r', pt2 := s.pt1, ri := (b0 : Int), lri := (b0 : Int) + 1 }
                ⟨rfl, rfl, rfl, T.pt3, T.front, T.back, T.si, rfl, rfl, T.si', rfl, rfl, hb0', by omega⟩
              exact ⟨fl', ends_of_step em' f1, f2⟩
          · have hir' : i = r := by omega
            have h13 : s.pt1 = s.pt3 := by rw [← hp1, ← hir', hp3]
            have back1 : edgesBack pts s.pt1 (i : Int) (2 * pts.length + 1 + 1) (r : Int) = .ok (some ((r - 1 : Nat) : Int)) := by
              rw [edgesBack, ptAt_nat hrn]
              simp only [hp1, if_true]
              rw [if_neg (by omega), show (r : Int) - 1 = ((r - 1 : Nat) : Int) by omega]
              apply edgesBack_stop (by omega)
              rw [h13, ← hir']
              exact hp3''.symm
            have em := stepS _ back1
            simp only at em
            rw [ptAt_nat (by omega)] at em
            by_cases hab : a = b
            · have hb0' : (r - 1 < k ∧ b - 1 = r - 1) ∨ (r - 1 = k ∧ (b - 1 = k ∨ b - 1 = k + 1)) ∨ (k < r - 1 ∧ b - 1 = (r - 1) + 1) := by
                omega
              have hpb := D.pt (show r - 1 < pts.length by omega) hb0'
              have hback : edgesBack pts' s.pt1 (a : Int) (2 * pts'.length + 1 + 1) (b : Int) = .ok (some ((b - 1 : Nat) : Int)) := by
                rw [edgesBack, ptAt_nat hpt'.1]
                simp only [hp1', if_true]
                rw [if_neg (by omega), show (b : Int) - 1 = ((b - 1 : Nat) : Int) by omega]
                apply edgesBack_stop (by omega)
                rw [hpb.2, h13, ← hir']
                exact hp3''.symm
              have em' := stepS' _ hback
              simp only at em'
              rw [ptAt_nat hpb.1, hpb.2] at em'
              obtain ⟨fl', f1, f2⟩ := nxt _ em i (r - 1) a (b - 1)
                { s' with acc := [], pt1 := ringPt pts (r - 1), pt2 := s.pt1, ri := ((b - 1 : Nat) : Int), lri := ((b - 1 : Nat) : Int) + 1 }
                ⟨rfl, rfl, rfl, T.pt3, T.front, T.back, T.si, rfl, rfl, T.si', rfl, rfl, hb0', by omega⟩
              exact ⟨fl', ends_of_step em' f1, f2⟩
            · -- the ring has no edges
              have hab' : a + 1 = b := by omega
              have hback : edgesBack pts' s.pt1 (a : Int) (2 * pts'.length + 1 + 1) (b : Int) = .ok none := by
                rw [edgesBack, ptAt_nat hpt'.1]
                simp only [hp1', if_true]
                rw [if_pos (by omega)]
              have hE := step _ em
              have : acc = [] := by
                obtain ⟨f', hf'⟩ := hE
                cases f' with
                | zero => cases hf'
                | succ f' =>
                  rw [edgesLoop] at hf'
                  unfold edgesStep at hf'
                  simp only at hf'
                  rw [if_pos h13, if_pos (by rw [h.idx]; omega)] at hf'
                  cases hf'
                  rfl
              subst this
              exact ⟨false, ends_of_step (stepS' _ hback) ⟨rfl, rfl⟩, .inr rfl⟩
        | cons e0 rest =>
          have hne : s.acc ≠ [] := by rw [hacc]; simp
          obtain ⟨c1, c2, c3, c4⟩ := h.cons hne
          have hacc' : s'.acc = e0 :: rest := by rw [T.acc, hacc]
          cases hrest : rest with
          | nil =>
            subst hrest
            have hpr : ringPt pts r ≠ s.pt1 := by
              have hal := h.along
              rw [hacc] at hal
              match w, hal with
              | x :: w, hal =>
                obtain ⟨y, w', rfl, j1, j2⟩ := Along.cons_iff.1 hal
                obtain ⟨z, hz⟩ := Along.nil_iff.1 j2
                obtain ⟨rfl, rfl⟩ := List.cons.inj hz
                intro hh
                apply c4
                have hy : y = s.pt1 := by simpa using c1
                simp [hh, hy]
            have em : edgesStep pts s = .ok (.next { s with acc := [], pt1 := ringPt pts r, pt2 := s.pt1, ri := (r : Int), lri := (r : Int) + 1 }) := by
              unfold edgesStep
              rw [if_neg h23, if_pos hcol]
              simp only
              rw [hacc]
              simp only [List.tail_cons]
              rw [h.ri, show 2 * pts.length + 2 = (2 * pts.length + 1) + 1 from rfl, edgesBack_stop hrn hpr]
              simp only
              rw [ptAt_nat hrn]
            have em' : edgesStep pts' s' = .ok (.next { s' with acc := [], pt1 := ringPt pts r, pt2 := s.pt1, ri := (b : Int), lri := (b : Int) + 1 }) := by
              unfold edgesStep
              rw [if_neg h23', if_pos hcol']
              simp only
              rw [hacc']
              simp only [List.tail_cons]
              rw [T.sr', T.pt1, show 2 * pts'.length + 2 = (2 * pts'.length + 1) + 1 from rfl,
                edgesBack_stop hpt'.1 (by rw [hpt'.2]; exact hpr)]
              simp only
              rw [ptAt_nat hpt'.1, hpt'.2]
            obtain ⟨fl', f1, f2⟩ := nxt _ em i r a b
              { s' with acc := [], pt1 := ringPt pts r, pt2 := s.pt1, ri := (b : Int), lri := (b : Int) + 1 }
              ⟨rfl, rfl, rfl, T.pt3, T.front, T.back, T.si, rfl, rfl, T.si', rfl, rfl, hb, ha⟩
            exact ⟨fl', ends_of_step em' f1, f2⟩
          | cons e rest' =>
            subst hrest
            obtain ⟨x, hx⟩ : ∃ x, x = if s.pt1.x = e.top.x ∧ s.pt1.y = e.top.y then e.bottom else e.top := ⟨_, rfl⟩
            have em : edgesStep pts s = .ok (.next { s with acc := e :: rest', pt1 := x, pt2 := s.pt1, back := some x }) := by
              unfold edgesStep
              rw [if_neg h23, if_pos hcol]
              simp only
              rw [hacc]
              simp only [List.tail_cons]
              rw [c2, hx]
            have em' : edgesStep pts' s' = .ok (.next { s' with acc := e :: rest', pt1 := x, pt2 := s.pt1, back := some x }) := by
              unfold edgesStep
              rw [if_neg h23', if_pos hcol']
              simp only
              rw [hacc']
              simp only [List.tail_cons]
              rw [T.back, T.pt1, c2, hx]
            obtain ⟨fl', f1, f2⟩ := nxt _ em i r a b { s' with acc := e :: rest', pt1 := x, pt2 := s.pt1, back := some x }
              ⟨rfl, rfl, rfl, T.pt3, T.front, rfl, T.si, T.sr, T.sl, T.si', T.sr', T.sl', hb, ha⟩
            exact ⟨fl', ends_of_step em' f1, f2⟩
      · -- a new edge
        have hcol' : ¬ arePointsSlopesEqual s'.pt1 s'.pt2 s'.pt3 = true := by rw [T.pt1, T.pt2, T.pt3]; exact hcol
        by_cases hir : i = r + 1
        · have e : edgesStep pts s = .ok (.brk { s with front := if s.acc = [] then some s.pt2 else s.front, acc := Edge.mk' s.pt2 s.pt3 :: s.acc, back := some s.pt2 }) := by
            unfold edgesStep
            rw [if_neg h23, if_neg hcol]
            simp only
            rw [if_pos (hend.2 hir)]
          have e' : edgesStep pts' s' = .ok (.brk { s' with front := if s'.acc = [] then some s'.pt2 else s'.front, acc := Edge.mk' s'.pt2 s'.pt3 :: s'.acc, back := some s'.pt2 }) := by
            unfold edgesStep
            rw [if_neg h23', if_neg hcol']
            simp only
            rw [if_pos (hend'.2 hir)]
          obtain ⟨e1, e2⟩ := step _ e
          refine ⟨true, ends_of_step e' ⟨?_, rfl⟩, .inl e2.symm⟩
          simp only
          rw [T.acc, T.pt2, T.pt3]
          exact e1
        · let t : EdgesState := { s with front := if s.acc = [] then some s.pt2 else s.front, acc := Edge.mk' s.pt2 s.pt3 :: s.acc, back := some s.pt2, pt1 := s.pt2, pt2 := s.pt3 }
          let t' : EdgesState := { s' with front := if s'.acc = [] then some s'.pt2 else s'.front, acc := Edge.mk' s'.pt2 s'.pt3 :: s'.acc, back := some s'.pt2, pt1 := s'.pt2, pt2 := s'.pt3 }
          have e : edgesStep pts s = edgesAdvance pts t := by
            unfold edgesStep
            rw [if_neg h23, if_neg hcol]
            simp only
            rw [if_neg (by rw [hend]; exact hir)]
          have e' : edgesStep pts' s' = edgesAdvance pts' t' := by
            unfold edgesStep
            rw [if_neg h23', if_neg hcol']
            simp only
            rw [if_neg (by rw [hend']; exact hir)]
          have T' : Twin k i r a b t t' := by
            refine ⟨?_, T.pt2, T.pt3, T.pt3, ?_, ?_, T.si, T.sr, T.sl, T.si', T.sr', T.sl', hb, ha⟩
            · show _ :: _ = _ :: _
              rw [T.acc, T.pt2, T.pt3]
            · show (if s'.acc = [] then some s'.pt2 else s'.front) = if s.acc = [] then some s.pt2 else s.front
              rw [T.acc, T.pt2, T.front]
            · show some _ = some _
              rw [T.pt2]
          have hfr' : t.acc ≠ [] → ∃ p, t.front = some p := by
            intro _
            by_cases hacc : s.acc = []
            · exact ⟨s.pt2, if_pos hacc⟩
            · obtain ⟨p, hp⟩ := hfr hacc
              exact ⟨p, (if_neg hacc).trans hp⟩
          rcases advance_twin D T' (by omega) hrn (h.at3 (by omega)).1.symm hfr' with ⟨u, u', a', e1, e2, e3⟩ | ⟨u, e1, e2, y, e3, e4⟩
          · obtain ⟨fl', f1, f2⟩ := nxt u (by rw [e, e1]) _ _ _ _ u' e2
            obtain ⟨y, f3, f4⟩ := e3 _ _ f1
            exact ⟨fl', ends_of_step (by rw [e', f3]) f4, f2⟩
          · obtain ⟨f1, f2⟩ := step _ (by rw [e, e1])
            rw [e2] at f1
            rw [f1]
            exact ⟨true, ends_of_step (by rw [e', e3]) e4, .inr rfl⟩

end Wagyu
