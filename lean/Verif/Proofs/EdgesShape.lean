import Verif.Proofs.EdgesRepeatRing
import Verif.Proofs.ShapeUnique

/-!
# The edges of a ring have the shape of the ring: the main loop
-/

namespace Wagyu

open Spec

/-! ## Tools -/

theorem shape_rot (u v : List Point) : SameShape (u ++ v) (v ++ u) := .rotate u v

theorem shape_drop {a b : Point} (u v : List Point) (h : Collinear (toQ a) (toQ b) (toQ ((v ++ u).headD a))) :
    SameShape (u ++ a :: b :: v) (u ++ a :: v) :=
  (shape_rot u (a :: b :: v)).trans ((SameShape.drop a b (v ++ u) h).trans (shape_rot (a :: v) u))

theorem onLine_same (a c : Point) : Collinear (toQ a) (toQ a) (toQ c) := by rw [onLine_iff]; ring

theorem onLine_back (a b : Point) : Collinear (toQ a) (toQ b) (toQ a) := by rw [onLine_iff]; ring

theorem shape_dup {a : Point} (u v : List Point) : SameShape (u ++ a :: a :: v) (u ++ a :: v) := shape_drop u v (onLine_same _ _)

theorem shape_run {p : Point} : ∀ (x v : List Point), (∀ q ∈ x, q = p) → SameShape (p :: x ++ v) (p :: v)
  | [], v, _ => .refl _
  | q :: x, v, h => by
    have : q = p := h q (by simp)
    subst this
    exact (shape_dup [] (x ++ v)).trans (shape_run x v fun q hq => h q (by simp [hq]))

/-- The points number `i` to `r`. -/
def seg (pts : List Point) (i r : Nat) : List Point := (pts.take (r + 1)).drop i

theorem seg_cons {pts : List Point} {i r : Nat} (h : i ≤ r) (hr : r < pts.length) : seg pts i r = ringPt pts i :: seg pts (i + 1) r := by
  unfold seg ringPt
  rw [List.drop_eq_getElem_cons (by rw [List.length_take]; omega), List.getElem_take, List.getD_eq_getElem?_getD, List.getElem?_eq_getElem (by omega)]
  rfl

theorem seg_nil {pts : List Point} {r : Nat} : seg pts (r + 1) r = [] := by
  unfold seg
  rw [List.drop_eq_nil_iff, List.length_take]
  omega

theorem seg_split {pts : List Point} {i m r : Nat} (h : i ≤ m + 1) (hm : m ≤ r) (hr : r < pts.length) :
    seg pts i r = seg pts i m ++ seg pts (m + 1) r := by
  obtain ⟨d, hd⟩ : ∃ d, m + 1 = i + d := ⟨m + 1 - i, by omega⟩
  induction d generalizing i with
  | zero =>
    have : i = m + 1 := by omega
    subst this
    rw [seg_nil, List.nil_append]
  | succ d ih =>
    rw [seg_cons (by omega) hr, seg_cons (i := i) (r := m) (by omega) (by omega), List.cons_append, ih (by omega) (by omega)]

theorem seg_all {pts : List Point} {p : Point} {i r : Nat} (hr : r < pts.length) (h : ∀ k, i ≤ k → k ≤ r → ringPt pts k = p) (hi : i ≤ r + 1) :
    ∀ q ∈ seg pts i r, q = p := by
  obtain ⟨d, hd⟩ : ∃ d, r + 1 = i + d := ⟨r + 1 - i, by omega⟩
  induction d generalizing i with
  | zero =>
    have : i = r + 1 := by omega
    subst this
    rw [seg_nil]; simp
  | succ d ih =>
    rw [seg_cons (by omega) hr]
    intro q hq
    rcases List.mem_cons.1 hq with rfl | hq
    · exact h i (Nat.le_refl _) (by omega)
    · exact ih (fun k h1 h2 => h k (by omega) h2) (by omega) (by omega) q hq

theorem seg_full {pts : List Point} (h : pts ≠ []) : seg pts 0 (pts.length - 1) = pts := by
  unfold seg
  have : 0 < pts.length := List.length_pos_of_ne_nil h
  rw [List.drop_zero, List.take_of_length_le (by omega)]

/-- The edges, the last one first, that were made along `w`, the last vertex first. -/
def Back : List Point → List Edge → Prop
  | [_], [] => True
  | a :: b :: w, e :: acc => e = Edge.mk' b a ∧ Back (b :: w) acc
  | _, _ => False

theorem Back.along : ∀ {w : List Point} {acc : List Edge}, Back w acc → Along w acc
  | [_], [], _ => trivial
  | _ :: _ :: _, _ :: _, h => ⟨h.1 ▸ (joins_mk' _ _).symm, h.2.along⟩
  | [], [], h => h.elim
  | [], _ :: _, h => h.elim
  | [_], _ :: _, h => h.elim
  | _ :: _ :: _, [], h => h.elim

theorem along_head_unique : ∀ {es : List Edge} {vs ws : List Point}, Along vs es → Along ws es → vs.head? = ws.head? → vs = ws := by
  intro es
  induction es with
  | nil =>
    intro vs ws h1 h2 h
    obtain ⟨a, rfl⟩ := Along.nil_iff.1 h1
    obtain ⟨b, rfl⟩ := Along.nil_iff.1 h2
    simpa using h
  | cons e es ih =>
    intro vs ws h1 h2 h
    match vs, ws, h1, h2 with
    | a :: vs, b :: ws, h1, h2 =>
      obtain ⟨x, vs', rfl, j1, k1⟩ := Along.cons_iff.1 h1
      obtain ⟨y, ws', rfl, j2, k2⟩ := Along.cons_iff.1 h2
      have hab : a = b := by simpa using h
      subst hab
      have hxy := Joins.unique j1 j2
      subst hxy
      rw [ih k1 k2 rfl]

/-- The invariant. -/
structure Sh (pts w : List Point) (i r : Nat) (acc : List Edge) : Prop where
  back : Back w acc
  shape : SameShape pts (w.reverse ++ seg pts i r)

/-- At the end. -/
def FShape (pts : List Point) (acc : List Edge) : Prop := ∃ w, Back w acc ∧ w.head? = w.getLast? ∧ SameShape pts w.reverse

theorem FShape.of_nil {pts : List Point} (h : SameShape pts []) : FShape pts [] :=
  ⟨[default], trivial, rfl, h.trans (SameShape.point _).symm⟩

def StepShape (pts : List Point) : EdgesStep → Prop
  | .next t => ∀ w' i' r', EInv pts w' i' r' t → Sh pts w' i' r' t.acc
  | .brk t => FShape pts t.acc
  | .ret l => FShape pts l

theorem Sh.next {pts w : List Point} {i r : Nat} {t : EdgesState} (h : Sh pts w i r t.acc) (hw : w.head? = some t.pt2) (hi : t.index = i) (hr : t.ri = r) :
    StepShape pts (.next t) := by
  intro w' i' r' h'
  have e1 : w' = w := along_head_unique h'.along h.back.along (by rw [h'.whead, hw])
  have e2 : i' = i := by have := h'.idx; omega
  have e3 : r' = r := by have := h'.ri; omega
  subst e1 e2 e3
  exact h

theorem advance_cases {pts : List Point} {s : EdgesState} {y : EdgesStep} (h : edgesAdvance pts s = .ok y) :
    (∃ t, y = .next t ∧ t.acc = s.acc ∧ t.pt2 = s.pt2 ∧ t.index = s.index + 1 ∧ t.ri = s.ri)
      ∨ ∃ t, y = .brk t ∧ t.acc = s.acc ∧ s.acc = [] ∧ s.index + 1 = s.lri := by
  unfold edgesAdvance at h
  simp only at h
  split at h
  · next hl =>
    split at h
    · next ha => cases h; exact .inr ⟨_, rfl, rfl, ha, hl⟩
    · split at h
      · cases h; exact .inl ⟨_, rfl, rfl, rfl, rfl, rfl⟩
      · cases h
  · split at h
    · cases h; exact .inl ⟨_, rfl, rfl, rfl, rfl, rfl⟩
    · cases h

theorem reverse_last {w : List Point} {a : Point} (h : w.head? = some a) : ∃ w0, w = a :: w0 ∧ w.reverse = w0.reverse ++ [a] := by
  cases w with
  | nil => cases h
  | cons x w =>
    simp only [List.head?_cons, Option.some.injEq] at h
    subst h
    exact ⟨w, rfl, by simp⟩

theorem step_shape {pts w : List Point} {i r : Nat} {s : EdgesState} (h : EInv pts w i r s) (S : Sh pts w i r s.acc) {y : EdgesStep}
    (hy : edgesStep pts s = .ok y) : StepShape pts y := by
  have hrn := h.rn
  have hi1 := h.i1
  have hi2 := h.i2
  have hend : s.index = s.lri ↔ i = r + 1 := by rw [h.idx, h.lri]; omega
  obtain ⟨w0, hw0, hwr⟩ := reverse_last h.whead
  unfold edgesStep at hy
  by_cases h23 : s.pt2 = s.pt3
  · rw [if_pos h23] at hy
    by_cases hir : i = r + 1
    · rw [if_pos (hend.2 hir)] at hy
      cases hy
      have hS := S.shape
      rw [hir, seg_nil, List.append_nil] at hS
      rcases h.atl hir with ⟨ha, -⟩ | ⟨ha, hf⟩
      · refine ⟨w, S.back, ?_, hS⟩
        have := S.back.along
        rw [ha] at this
        obtain ⟨a, rfl⟩ := Along.nil_iff.1 this
        rfl
      · exact ⟨w, S.back, by rw [h.whead, ← (h.cons ha).2.2.1, hf, h23], hS⟩
    · rw [if_neg (by rw [hend]; exact hir)] at hy
      have hp := (h.at3 (by omega)).1
      rcases advance_cases hy with ⟨t, rfl, e1, e2, e3, e4⟩ | ⟨t, rfl, e1, e2, e3⟩
      · refine Sh.next (w := w) (i := i + 1) (r := r) ⟨by rw [e1]; exact S.back, ?_⟩ (by rw [e2]; exact h.whead) (by rw [e3, h.idx]; rfl) (by rw [e4, h.ri])
        refine S.shape.trans ?_
        rw [seg_cons (by omega) hrn, hp, ← h23, hwr, List.append_assoc, List.append_assoc]
        exact shape_dup _ _
      · exfalso
        have : i = r := by rw [h.idx, h.lri] at e3; omega
        apply h.ne
        rw [← h.emp e2, ← this, hp, h23]
  · rw [if_neg h23] at hy
    by_cases hcol : arePointsSlopesEqual s.pt1 s.pt2 s.pt3 = true
    · have hline := (C33_points_slopes_equal_iff _ _ _).1 hcol
      rw [if_pos hcol] at hy
      simp only at hy
      cases hacc : s.acc with
      | nil =>
        have hir : i ≤ r := by
          by_contra hn
          rcases h.atl (by omega) with ⟨_, h1⟩ | ⟨h1, _⟩
          · exact h23 h1
          · exact h1 hacc
        obtain ⟨hp3, hp3'⟩ := h.at3 (by omega)
        have hp1 := h.emp hacc
        have hw : w = [s.pt2] := by
          have := S.back.along
          rw [hacc] at this
          obtain ⟨a, ha⟩ := Along.nil_iff.1 this
          rw [ha] at hw0
          rw [ha, (List.cons.inj hw0).1]
        have hS := S.shape
        rw [hw, List.reverse_singleton] at hS
        -- the points after `m` are all the first point
        have back : ∀ m, i ≤ m + 1 → m < r → (∀ k, m < k → k ≤ r → ringPt pts k = s.pt1) → SameShape pts (s.pt1 :: seg pts i m) := by
          intro m hm hmr hall
          refine hS.trans ?_
          rw [seg_split hm (by omega) hrn, seg_cons (i := m + 1) (by omega) hrn, hall (m + 1) (by omega) (by omega)]
          have hrun := seg_all hrn (fun k h1 h2 => hall k (by omega) h2) (show m + 1 + 1 ≤ r + 1 by omega)
          generalize hrest : seg pts (m + 1 + 1) r = run at hrun
          have e1 : SameShape ([s.pt2] ++ (seg pts i m ++ s.pt1 :: run)) (s.pt1 :: run ++ ([s.pt2] ++ seg pts i m)) := by
            rw [← List.append_assoc]; exact shape_rot _ _
          refine e1.trans ((shape_run _ _ hrun).trans (SameShape.drop _ _ _ ?_))
          have hd : (seg pts i m).headD s.pt1 = s.pt3 := by
            by_cases him : i ≤ m
            · rw [seg_cons him (by omega), List.headD_cons, hp3]
            · have : i = m + 1 := by omega
              rw [this, seg_nil, List.headD_nil, ← hp3, this, hall (m + 1) (by omega) (by omega)]
          show Collinear _ _ (toQ ((seg pts i m).headD s.pt1))
          rw [hd]; exact hline
        rw [hacc] at hy
        simp only [List.tail_nil] at hy
        rw [h.idx, h.ri] at hy
        by_cases hlt : i < r
        · rcases edgesBack_spec (pts := pts) (pt2 := s.pt1) (i := i) (2 * pts.length + 1) r hrn hlt (by omega) with
            ⟨e1, e2⟩ | ⟨r', e1, e2, e3, e4, e5⟩
          · rw [e1] at hy
            cases hy
            refine FShape.of_nil ((back i (by omega) hlt e2).trans ?_)
            rw [seg_cons (Nat.le_refl _) (by omega), seg_nil]
            exact (SameShape.drop _ _ [] (onLine_back _ _)).trans (.point _)
          · rw [e1] at hy
            simp only at hy
            rw [ptAt_nat (by omega)] at hy
            cases hy
            have hr' : r' < r := by
              rcases Nat.lt_or_ge r' r with h1 | h1
              · exact h1
              · have : r' = r := by omega
                rw [this] at e4
                exact absurd hp1 e4
            exact Sh.next (w := [s.pt1]) (i := i) (r := r') ⟨trivial, back r' (by omega) hr' e5⟩ rfl rfl rfl
        · have hir' : i = r := by omega
          have hp3'' : s.pt3 ≠ ringPt pts (i - 1) := by
            rcases hp3' with e | e
            · exact e
            · rw [← e]; exact fun hh => h23 hh.symm
          have h13 : s.pt1 = s.pt3 := by rw [← hp1, ← hir', hp3]
          have back1 : edgesBack pts s.pt1 (i : Int) (2 * pts.length + 2) (r : Int) = .ok (some ((r - 1 : Nat) : Int)) := by
            rw [edgesBack, ptAt_nat hrn]
            simp only [hp1, if_true]
            rw [if_neg (by omega), show (r : Int) - 1 = ((r - 1 : Nat) : Int) by omega]
            apply edgesBack_stop (by omega)
            rw [h13, ← hir']
            exact hp3''.symm
          rw [back1] at hy
          simp only at hy
          rw [ptAt_nat (by omega)] at hy
          cases hy
          refine Sh.next (w := [s.pt1]) (i := i) (r := r - 1) ⟨trivial, back (r - 1) (by omega) (by omega) fun k h1 h2 => ?_⟩ rfl rfl rfl
          rw [show k = r by omega, hp1]
      | cons e0 rest =>
        have hne : s.acc ≠ [] := by rw [hacc]; simp
        obtain ⟨c1, c2, c3, c4⟩ := h.cons hne
        obtain ⟨w1, hw1, hB⟩ : ∃ w1, w = s.pt2 :: s.pt1 :: w1 ∧ Back (s.pt1 :: w1) rest := by
          have hB := S.back
          rw [hacc] at hB
          rw [hw0] at c1 hB
          match w0, c1, hB with
          | a :: w1, c1, hB =>
            simp only [List.tail_cons, List.head?_cons, Option.some.injEq] at c1
            subst c1
            exact ⟨w1, hw0, hB.2⟩
        have hS : SameShape pts ((s.pt1 :: w1).reverse ++ seg pts i r) := by
          refine S.shape.trans ?_
          rw [hw1]
          simp only [List.reverse_cons, List.append_assoc, List.cons_append, List.nil_append]
          refine shape_drop _ _ ?_
          have hd : (seg pts i r ++ w1.reverse).headD s.pt1 = s.pt3 := by
            by_cases hir : i ≤ r
            · rw [seg_cons hir hrn, List.cons_append, List.headD_cons, (h.at3 (by omega)).1]
            · have hir : i = r + 1 := by omega
              rw [hir, seg_nil, List.nil_append]
              rcases h.atl hir with ⟨h1, _⟩ | ⟨_, h1⟩
              · exact absurd h1 hne
              · rw [c3, hw1, List.getLast?_cons_cons, ← List.head?_reverse, List.reverse_cons] at h1
                cases hr : w1.reverse with
                | nil => rw [hr] at h1; simpa using h1
                | cons x l => rw [hr] at h1; simpa using h1
          rw [hd]; exact hline
        rw [hacc] at hy
        simp only [List.tail_cons] at hy
        cases rest with
        | nil =>
          simp only at hy
          have hpr : ringPt pts r ≠ s.pt1 := by
            have hal := hB.along
            obtain ⟨z, hz⟩ := Along.nil_iff.1 hal
            rw [hw1, (List.cons.inj hz).2] at c4
            intro hh
            apply c4
            simp [hh]
          rw [h.ri, show 2 * pts.length + 2 = (2 * pts.length + 1) + 1 from rfl, edgesBack_stop hrn hpr] at hy
          simp only at hy
          rw [ptAt_nat hrn] at hy
          cases hy
          exact Sh.next (w := s.pt1 :: w1) (i := i) (r := r) ⟨hB, hS⟩ rfl h.idx rfl
        | cons e rest' =>
          simp only at hy
          rw [c2] at hy
          simp only at hy
          cases hy
          exact Sh.next (w := s.pt1 :: w1) (i := i) (r := r) ⟨hB, hS⟩ rfl h.idx h.ri
    · rw [if_neg hcol] at hy
      simp only at hy
      have hB : Back (s.pt3 :: w) (Edge.mk' s.pt2 s.pt3 :: s.acc) := by
        rw [hw0]
        exact ⟨rfl, by rw [← hw0]; exact S.back⟩
      by_cases hir : i = r + 1
      · rw [if_pos (hend.2 hir)] at hy
        cases hy
        have hS := S.shape
        rw [hir, seg_nil, List.append_nil] at hS
        rcases h.atl hir with ⟨_, h1⟩ | ⟨h1, h2⟩
        · exact absurd h1 h23
        · have hl : w.getLast? = some s.pt3 := by rw [← (h.cons h1).2.2.1, h2]
          refine ⟨s.pt3 :: w, hB, ?_, hS.trans ?_⟩
          · rw [List.getLast?_cons, hl]; rfl
          · rw [← List.head?_reverse] at hl
            rw [List.reverse_cons]
            cases hr : w.reverse with
            | nil => rw [hr] at hl; cases hl
            | cons x l =>
              rw [hr] at hl
              simp only [List.head?_cons, Option.some.injEq] at hl
              subst hl
              exact ((shape_rot (s.pt3 :: l) [s.pt3]).trans (shape_dup [] l)).symm
      · rw [if_neg (by rw [hend]; exact hir)] at hy
        have hp := (h.at3 (by omega)).1
        rcases advance_cases hy with ⟨t, rfl, e1, e2, e3, e4⟩ | ⟨t, rfl, e1, e2, e3⟩
        · refine Sh.next (w := s.pt3 :: w) (i := i + 1) (r := r) ⟨by rw [e1]; exact hB, ?_⟩ (by rw [e2]; rfl) (by rw [e3]; simp only; rw [h.idx]; rfl) (by rw [e4]; exact h.ri)
          have hS := S.shape
          rw [seg_cons (by omega) hrn, hp] at hS
          simpa using hS
        · cases e2

theorem loop_shape {pts : List Point} : ∀ (fuel : Nat) {w : List Point} {i r : Nat} {s : EdgesState}, EInv pts w i r s → Sh pts w i r s.acc →
    ∀ {acc : List Edge} {fl : Bool}, edgesLoop pts fuel s = .ok (acc, fl) → FShape pts acc.reverse := by
  intro fuel
  induction fuel with
  | zero => intro w i r s _ _ acc fl h; cases h
  | succ fuel ih =>
    intro w i r s h S acc fl hl
    rw [edgesLoop] at hl
    rcases edgesStep_spec h with ⟨t, e1, _⟩ | ⟨e1, _⟩ | ⟨t, w', i', r', e1, e2, _⟩
    · have := step_shape h S e1
      rw [e1] at hl
      cases hl
      rw [List.reverse_reverse]; exact this
    · have := step_shape h S e1
      rw [e1] at hl
      cases hl
      rw [List.reverse_reverse]; exact this
    · have := step_shape h S e1
      rw [e1] at hl
      exact ih e2 (this _ _ _ e2) hl

end Wagyu
