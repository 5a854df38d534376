import Verif.Proofs.Chain
import Verif.Model.LinearRing
import Mathlib.Algebra.BigOperators.Intervals
import Mathlib.Algebra.BigOperators.Group.Finset.Basic

/-!
# `LinearRing.edges`: the main loop
-/

namespace Wagyu

open Spec

/-- The points by their number. -/
def ringPt (pts : List Point) (k : Nat) : Point := pts.getD k default

theorem ringPt_mem {pts : List Point} {k : Nat} (h : k < pts.length) : ringPt pts k ∈ pts := by
  unfold ringPt
  rw [List.getD_eq_getElem?_getD, List.getElem?_eq_getElem h]
  exact List.getElem_mem h

theorem ptAt_nat {pts : List Point} {k : Nat} (h : k < pts.length) : ptAt pts (k : Int) = .ok (ringPt pts k) := by
  unfold ptAt pyGet ringPt
  simp [h]

/-- The sum of `c` over the steps from the `i`-th to the `j`-th point. -/
def stepSum (c : Point → Point → ℤ) (pts : List Point) (i j : Nat) : ℤ :=
  ∑ k ∈ Finset.Ico i j, c (ringPt pts k) (ringPt pts (k + 1))

theorem stepSum_self (c : Point → Point → ℤ) (pts : List Point) (i : Nat) : stepSum c pts i i = 0 := by simp [stepSum]

theorem stepSum_bot (c : Point → Point → ℤ) (pts : List Point) {i j : Nat} (h : i < j) :
    stepSum c pts i j = c (ringPt pts i) (ringPt pts (i + 1)) + stepSum c pts (i + 1) j :=
  Finset.sum_eq_sum_Ico_succ_bot h _

theorem stepSum_top (c : Point → Point → ℤ) (pts : List Point) {i j : Nat} (h : i ≤ j) :
    stepSum c pts i (j + 1) = stepSum c pts i j + c (ringPt pts j) (ringPt pts (j + 1)) :=
  Finset.sum_Ico_succ_top h _

theorem stepSum_append {c : Point → Point → ℤ} {pts : List Point} {i j k : Nat} (h1 : i ≤ j) (h2 : j ≤ k) :
    stepSum c pts i j + stepSum c pts j k = stepSum c pts i k := Finset.sum_Ico_consecutive _ h1 h2

/-- A run of equal points contributes nothing. -/
theorem stepSum_const {c : Point → Point → ℤ} (hc : AddsUpOnLines c) {pts : List Point} {p : Point} :
    ∀ (d i : Nat), (∀ k, i ≤ k → k ≤ i + d → ringPt pts k = p) → stepSum c pts i (i + d) = 0 := by
  intro d
  induction d with
  | zero => intro i _; exact stepSum_self c pts i
  | succ d ih =>
    intro i h
    rw [← Nat.add_assoc, stepSum_top c pts (by omega), ih i (fun k h1 h2 => h k h1 (by omega)),
      h (i + d) (by omega) (by omega), h (i + d + 1) (by omega) (by omega), AddsUp.self hc]
    rfl

theorem ringSum_eq (c : Point → Point → ℤ) {pts : List Point} (h : pts ≠ []) :
    ringSum c pts = stepSum c pts 0 (pts.length - 1) + c (ringPt pts (pts.length - 1)) (ringPt pts 0) := by
  have key : ∀ (l : List Point) (a b : Point), pathSum c (a :: l ++ [b])
      = stepSum c (a :: l) 0 l.length + c (ringPt (a :: l) l.length) b := by
    intro l
    induction l with
    | nil => intro a b; simp [pathSum, stepSum, ringPt]
    | cons x l ih =>
      intro a b
      have := ih x b
      simp only [List.cons_append, pathSum] at this ⊢
      rw [this, List.length_cons, stepSum_bot c _ (by omega : 0 < l.length + 1)]
      have e1 : stepSum c (a :: x :: l) (0 + 1) (l.length + 1) = stepSum c (x :: l) 0 l.length := by
        unfold stepSum
        rw [Finset.sum_Ico_add' (fun k => c (ringPt (a :: x :: l) k) (ringPt (a :: x :: l) (k + 1))) 0 l.length 1 |>.symm]
        rfl
      rw [e1]
      have e2 : ringPt (a :: x :: l) (l.length + 1) = ringPt (x :: l) l.length := rfl
      rw [e2]
      have e3 : ringPt (a :: x :: l) 0 = a := rfl
      have e4 : ringPt (a :: x :: l) (0 + 1) = x := rfl
      rw [e3, e4]; ring
  cases pts with
  | nil => exact absurd rfl h
  | cons a l =>
    rw [ringSum, key]
    rfl

/-! ## The invariant -/

/-- The invariant of the main loop; `w` are the vertices of the edges found, the last one first, `i` the index of the
third point and `r` the reversed index. -/
structure EInv (pts : List Point) (w : List Point) (i r : Nat) (s : EdgesState) : Prop where
  idx : s.index = i
  ri : s.ri = r
  lri : s.lri = r + 1
  i1 : 1 ≤ i
  i2 : i ≤ r + 1
  rn : r < pts.length
  ne : s.pt1 ≠ s.pt2
  m1 : s.pt1 ∈ pts
  m2 : s.pt2 ∈ pts
  m3 : s.pt3 ∈ pts
  wf : ∀ e ∈ s.acc, e.Wf ∧ e.bottom ∈ pts ∧ e.top ∈ pts
  np : s.acc.IsChain fun e f => ¬ EdgesParallel e f
  along : Along w s.acc
  whead : w.head? = some s.pt2
  emp : s.acc = [] → ringPt pts r = s.pt1
  cons : s.acc ≠ [] → w.tail.head? = some s.pt1 ∧ s.back = some s.pt1 ∧ s.front = w.getLast? ∧ w.getLast? ≠ some (ringPt pts r)
  at3 : i < r + 1 → ringPt pts i = s.pt3 ∧ (s.pt3 ≠ ringPt pts (i - 1) ∨ s.pt2 = ringPt pts (i - 1))
  atl : i = r + 1 → (s.acc = [] ∧ s.pt2 = s.pt3) ∨ (s.acc ≠ [] ∧ s.front = some s.pt3)
  sum : ∀ c, AddsUpOnLines c → ∀ f, w.getLast? = some f →
    ringSum c pts = -pathSum c w + c s.pt2 s.pt3 + if i < r + 1 then stepSum c pts i r + c (ringPt pts r) f else 0

/-- What is known when the loop is left: the edges found, the last one first, along `w`. -/
def EFin (pts : List Point) (acc : List Edge) : Prop :=
  (acc = [] ∧ ∀ c, AddsUpOnLines c → ringSum c pts = 0)
  ∨ ∃ w, Along w acc ∧ w.head? = w.getLast? ∧ (∀ e ∈ acc, e.Wf ∧ e.bottom ∈ pts ∧ e.top ∈ pts)
      ∧ (acc.IsChain fun e f => ¬ EdgesParallel e f) ∧ ∀ c, AddsUpOnLines c → ringSum c pts = -pathSum c w

/-- The measure that decreases. -/
def EdgesState.measure (pts : List Point) (s : EdgesState) : Nat :=
  2 * (pts.length + 1 - s.index.toNat) + s.acc.length + s.ri.toNat

/-! ## The inner loop -/

theorem edgesBack_stop {pts : List Point} {pt2 : Point} {index : Int} {fuel r : Nat} (hr : r < pts.length)
    (h : ringPt pts r ≠ pt2) : edgesBack pts pt2 index (fuel + 1) (r : Int) = .ok (some r) := by
  unfold edgesBack
  rw [ptAt_nat hr]
  simp [h]

theorem edgesBack_spec {pts : List Point} {pt2 : Point} {i : Nat} :
    ∀ (fuel r : Nat), r < pts.length → i < r → r - i ≤ fuel →
      (edgesBack pts pt2 (i : Int) (fuel + 1) (r : Int) = .ok none ∧ ∀ k, i < k → k ≤ r → ringPt pts k = pt2)
      ∨ ∃ r' : Nat, edgesBack pts pt2 (i : Int) (fuel + 1) (r : Int) = .ok (some (r' : Int)) ∧ i < r' ∧ r' ≤ r
          ∧ ringPt pts r' ≠ pt2 ∧ ∀ k, r' < k → k ≤ r → ringPt pts k = pt2 := by
  intro fuel
  induction fuel with
  | zero => intro r _ h1 h2; omega
  | succ fuel ih =>
    intro r hr h1 h2
    by_cases hp : ringPt pts r = pt2
    · have hstep : edgesBack pts pt2 (i : Int) (fuel + 1 + 1) (r : Int)
          = if (i : Int) = (r : Int) - 1 then .ok none else edgesBack pts pt2 (i : Int) (fuel + 1) ((r - 1 : Nat) : Int) := by
        rw [edgesBack, ptAt_nat hr]
        simp only [hp, if_true]
        rw [show ((r - 1 : Nat) : Int) = (r : Int) - 1 by omega]
      rw [hstep]
      by_cases hi : (i : Int) = (r : Int) - 1
      · left
        rw [if_pos hi]
        refine ⟨rfl, fun k k1 k2 => ?_⟩
        have : k = r := by omega
        rw [this, hp]
      · rw [if_neg hi]
        rcases ih (r - 1) (by omega) (by omega) (by omega) with ⟨e1, e2⟩ | ⟨r', e1, e2, e3, e4, e5⟩
        · left
          refine ⟨e1, fun k k1 k2 => ?_⟩
          by_cases hk : k = r
          · rw [hk, hp]
          · exact e2 k k1 (by omega)
        · right
          refine ⟨r', e1, e2, by omega, e4, fun k k1 k2 => ?_⟩
          by_cases hk : k = r
          · rw [hk, hp]
          · exact e5 k k1 (by omega)
    · right
      refine ⟨r, edgesBack_stop hr hp, h1, Nat.le_refl _, hp, fun k k1 k2 => by omega⟩

/-! ## Going on to the next point -/

/-- `index += 1` and so on, when the second point is the one with number `i`. -/
theorem edgesAdvance_spec {pts : List Point} {w : List Point} {i r : Nat} {s : EdgesState}
    (idx : s.index = i) (ri : s.ri = r) (lri : s.lri = r + 1) (i1 : 1 ≤ i) (i2 : i < r + 1) (rn : r < pts.length)
    (ne : s.pt1 ≠ s.pt2) (m1 : s.pt1 ∈ pts) (m2 : s.pt2 ∈ pts)
    (wf : ∀ e ∈ s.acc, e.Wf ∧ e.bottom ∈ pts ∧ e.top ∈ pts) (np : s.acc.IsChain fun e f => ¬ EdgesParallel e f)
    (along : Along w s.acc) (whead : w.head? = some s.pt2) (emp : s.acc = [] → ringPt pts r = s.pt1)
    (cons : s.acc ≠ [] → w.tail.head? = some s.pt1 ∧ s.back = some s.pt1 ∧ s.front = w.getLast? ∧ w.getLast? ≠ some (ringPt pts r))
    (hp : s.pt2 = ringPt pts i) (mf : ∀ f, w.getLast? = some f → f ∈ pts)
    (sum : ∀ c, AddsUpOnLines c → ∀ f, w.getLast? = some f →
      ringSum c pts = -pathSum c w + stepSum c pts i r + c (ringPt pts r) f) :
    (∃ s', edgesAdvance pts s = .ok (.brk s') ∧ EFin pts s'.acc)
    ∨ ∃ s', edgesAdvance pts s = .ok (.next s') ∧ EInv pts w (i + 1) r s' ∧ s'.acc = s.acc ∧ s'.ri = s.ri
        ∧ s'.index = s.index + 1 := by
  obtain ⟨wl, hwl⟩ : ∃ f, w.getLast? = some f := by
    cases w with
    | nil => cases whead
    | cons a w => exact ⟨_, List.getLast?_eq_some_getLast (by simp)⟩
  unfold edgesAdvance
  simp only
  by_cases hl : s.index + 1 = s.lri
  · have hir : i = r := by rw [idx, lri] at hl; omega
    subst hir
    rw [if_pos hl]
    by_cases ha : s.acc = []
    · left
      rw [if_pos ha]
      refine ⟨_, rfl, Or.inl ⟨ha, fun c hc => ?_⟩⟩
      rw [ha] at along
      obtain ⟨a, rfl⟩ := Along.nil_iff.1 along
      simp only [List.head?_cons, Option.some.injEq] at whead
      subst whead
      have := sum c hc s.pt2 rfl
      rw [this, stepSum_self, hp, AddsUp.self hc]
      rfl
    · right
      rw [if_neg ha]
      have h := cons ha
      rw [h.2.2.1, hwl]
      simp only
      refine ⟨_, rfl, ⟨by simp only; rw [idx]; rfl, ri, lri, by omega, by omega, rn, ne, m1, m2, mf wl hwl, wf, np, along, whead, emp, ?_, ?_, ?_, ?_⟩,
        rfl, rfl, rfl⟩
      · intro _; exact ⟨h.1, h.2.1, hwl.symm, h.2.2.2⟩
      · intro hh; omega
      · intro _; right; exact ⟨ha, rfl⟩
      · intro c hc f hf
        rw [hwl] at hf
        cases hf
        have := sum c hc wl hwl
        rw [this, stepSum_self, if_neg (by omega), hp]
        ring
  · have hir : i + 1 < r + 1 := by rw [idx, lri] at hl; omega
    rw [if_neg hl]
    right
    have e1 : ptAt pts (s.index + 1) = .ok (ringPt pts (i + 1)) := by
      rw [idx]
      have := ptAt_nat (pts := pts) (k := i + 1) (by omega)
      rwa [Nat.cast_add] at this
    rw [e1]
    refine ⟨_, rfl, ⟨by simp only; rw [idx]; rfl, ri, lri, by omega, by omega, rn, ne, m1, m2, ringPt_mem (by omega), wf, np, along, whead, emp, cons, ?_, ?_, ?_⟩,
      rfl, rfl, rfl⟩
    · intro _; exact ⟨rfl, Or.inr hp⟩
    · intro hh; omega
    · intro c hc f hf
      rw [sum c hc f hf, if_pos hir, stepSum_bot c pts (by omega : i < r), hp]
      ring

/-! ## One iteration -/

theorem edgesStep_spec {pts : List Point} {w : List Point} {i r : Nat} {s : EdgesState} (h : EInv pts w i r s) :
    (∃ s', edgesStep pts s = .ok (.brk s') ∧ EFin pts s'.acc)
    ∨ (edgesStep pts s = .ok (.ret []) ∧ EFin pts [])
    ∨ ∃ s' w' i' r', edgesStep pts s = .ok (.next s') ∧ EInv pts w' i' r' s' ∧ s'.measure pts < s.measure pts := by
  obtain ⟨wl, hwl⟩ : ∃ f, w.getLast? = some f := by
    have := h.whead
    cases w with
    | nil => cases this
    | cons a w => exact ⟨_, List.getLast?_eq_some_getLast (by simp)⟩
  have mf : ∀ (w : List Point) (es : List Edge), Along w es → (∀ e ∈ es, e.Wf ∧ e.bottom ∈ pts ∧ e.top ∈ pts) →
      ∀ x, w.head? = some x → x ∈ pts → ∀ f, w.getLast? = some f → f ∈ pts := by
    intro w es
    induction es generalizing w with
    | nil =>
      intro ha _ x hx hm f hf
      obtain ⟨a, rfl⟩ := Along.nil_iff.1 ha
      simp at hx hf
      subst hx; subst hf; exact hm
    | cons e es ih =>
      intro ha hw x hx hm f hf
      match w with
      | [] => cases hx
      | a :: w =>
        obtain ⟨b, w', rfl, h1, h2⟩ := Along.cons_iff.1 ha
        have hb : b ∈ pts := by
          have := hw e (by simp)
          rcases h1 with ⟨e1, e2⟩ | ⟨e1, e2⟩
          · rw [← e2]; exact this.2.2
          · rw [← e1]; exact this.2.1
        exact ih (b :: w') h2 (fun e he => hw e (List.mem_cons_of_mem _ he)) b rfl hb f (by simpa using hf)
  have hmf := mf w s.acc h.along h.wf s.pt2 h.whead h.m2
  unfold edgesStep
  by_cases h23 : s.pt2 = s.pt3
  · rw [if_pos h23]
    by_cases hl : s.index = s.lri
    · rw [if_pos hl]
      have hir : i = r + 1 := by
        have := h.idx; have := h.lri; omega
      left
      refine ⟨s, rfl, ?_⟩
      have hs := h.sum
      rcases h.atl hir with ⟨ha, _⟩ | ⟨ha, hf⟩
      · left
        refine ⟨ha, fun c hc => ?_⟩
        have hal := h.along
        rw [ha] at hal
        obtain ⟨a, rfl⟩ := Along.nil_iff.1 hal
        rw [hs c hc a rfl, if_neg (by omega), h23, AddsUp.self hc]
        rfl
      · right
        refine ⟨w, h.along, ?_, h.wf, h.np, fun c hc => ?_⟩
        · rw [h.whead, ← (h.cons ha).2.2.1, hf, h23]
        · rw [hs c hc wl hwl, if_neg (by omega), h23, AddsUp.self hc]
          ring
    · rw [if_neg hl]
      have hir : i < r + 1 := by
        have := h.idx; have := h.lri; have := h.i2; omega
      have hp := (h.at3 hir).1
      rcases edgesAdvance_spec h.idx h.ri h.lri h.i1 hir h.rn h.ne h.m1 h.m2 h.wf h.np h.along h.whead h.emp h.cons
          (by rw [hp, h23]) hmf (fun c hc f hf => by
            rw [h.sum c hc f hf, if_pos hir, h23, AddsUp.self hc]; ring) with ⟨s', e1, e2⟩ | ⟨s', e1, e2, e3, e4, e5⟩
      · exact Or.inl ⟨s', e1, e2⟩
      · refine Or.inr (Or.inr ⟨s', w, i + 1, r, e1, e2, ?_⟩)
        have := h.i2; have := h.rn
        unfold EdgesState.measure
        rw [e3, e4, e5, h.idx]
        omega
  · rw [if_neg h23]
    have at3 : i < r + 1 → ringPt pts i = s.pt3 ∧ s.pt3 ≠ ringPt pts (i - 1) := by
      intro hir
      obtain ⟨e1, e2⟩ := h.at3 hir
      refine ⟨e1, ?_⟩
      rcases e2 with e2 | e2
      · exact e2
      · rw [← e2]; exact fun hh => h23 hh.symm
    by_cases hcol : arePointsSlopesEqual s.pt1 s.pt2 s.pt3 = true
    · rw [if_pos hcol]
      simp only
      cases hacc : s.acc with
      | nil =>
        have hir : i < r + 1 := by
          by_contra hn
          have : i = r + 1 := by have := h.i2; omega
          rcases h.atl this with ⟨_, h1⟩ | ⟨h1, _⟩
          · exact h23 h1
          · exact h1 hacc
        obtain ⟨hp3, hp3'⟩ := at3 hir
        have hp1 := h.emp hacc
        have hal := h.along
        rw [hacc] at hal
        obtain ⟨a, rfl⟩ := Along.nil_iff.1 hal
        have ha2 : a = s.pt2 := by simpa using h.whead
        subst ha2
        have hsum : ∀ c, AddsUpOnLines c → ringSum c pts = c s.pt1 s.pt3 + stepSum c pts i r := by
          intro c hc
          rw [h.sum c hc s.pt2 rfl, if_pos hir, hp1, ← AddsUp.tri hc hcol]
          simp only [pathSum]; ring
        simp only [List.tail_nil]
        rw [h.idx, h.ri]
        by_cases hlt : i < r
        · rcases edgesBack_spec (pts := pts) (pt2 := s.pt1) (i := i) (2 * pts.length + 1) r h.rn hlt
            (by have := h.rn; omega) with ⟨e1, e2⟩ | ⟨r', e1, e2, e3, e4, e5⟩
          · right; left
            rw [e1]
            refine ⟨rfl, Or.inl ⟨rfl, fun c hc => ?_⟩⟩
            rw [hsum c hc, stepSum_bot c pts hlt, hp3, e2 (i + 1) (by omega) (by omega)]
            have := stepSum_const hc (pts := pts) (p := s.pt1) (r - (i + 1)) (i + 1) (fun k h1 h2 => e2 k (by omega) (by omega))
            rw [show i + 1 + (r - (i + 1)) = r by omega] at this
            rw [this, AddsUp.swap hc]; ring
          · right; right
            rw [e1]
            simp only
            have hr' : r' < r := by
              rcases Nat.lt_or_ge r' r with h1 | h1
              · exact h1
              · have : r' = r := by omega
                rw [this] at e4
                exact absurd hp1 e4
            have hrn : r' < pts.length := by have := h.rn; omega
            rw [ptAt_nat hrn]
            refine ⟨_, [s.pt1], i, r', rfl, ⟨rfl, rfl, rfl, h.i1, by omega, hrn, e4, ringPt_mem hrn, h.m1, h.m3,
              by simp, by simp, trivial, rfl, fun _ => rfl, by simp, ?_, ?_, ?_⟩, ?_⟩
            · intro _; exact ⟨hp3, Or.inl hp3'⟩
            · intro hh; omega
            · intro c hc f hf
              simp only [List.getLast?_singleton, Option.some.injEq] at hf
              subst hf
              rw [hsum c hc, if_pos (by omega)]
              have h1 := stepSum_append (c := c) (pts := pts) (i := i) (j := r' + 1) (k := r) (by omega) (by omega)
              have h2 := stepSum_top c pts (i := i) (j := r') (by omega)
              have h3 := stepSum_const hc (pts := pts) (p := s.pt1) (r - (r' + 1)) (r' + 1) (fun k h1 h2 => e5 k (by omega) (by omega))
              rw [show r' + 1 + (r - (r' + 1)) = r by omega] at h3
              rw [e5 (r' + 1) (by omega) (by omega)] at h2
              rw [← h1, h2, h3]
              simp only [pathSum]; ring
            · unfold EdgesState.measure
              rw [hacc, h.ri, h.idx]
              simp only [List.length_nil]
              omega
        · have hir' : i = r := by omega
          subst hir'
          have hb : edgesBack pts s.pt1 (i : Int) (2 * pts.length + 2) (i : Int) = .ok (some ((i - 1 : Nat) : Int)) := by
            rw [edgesBack, ptAt_nat h.rn]
            simp only [hp1, if_true]
            have hi1 := h.i1
            rw [if_neg (by omega), show (i : Int) - 1 = ((i - 1 : Nat) : Int) by omega]
            apply edgesBack_stop (by have := h.rn; omega)
            rw [← hp1, hp3]
            exact fun hh => hp3' hh.symm
          rw [hb]
          simp only
          have hrn : i - 1 < pts.length := by have := h.rn; omega
          rw [ptAt_nat hrn]
          have hi1 := h.i1
          have h13 : s.pt1 = s.pt3 := by rw [← hp1, hp3]
          right; right
          refine ⟨_, [s.pt1], i, i - 1, rfl, ⟨rfl, rfl, by simp only, h.i1, by omega, hrn, ?_, ringPt_mem hrn, h.m1, h.m3,
              by simp, by simp, trivial, rfl, fun _ => rfl, by simp, ?_, ?_, ?_⟩, ?_⟩
          · simp only; rw [h13]; exact fun hh => hp3' hh.symm
          · intro hh; omega
          · intro _; left; exact ⟨rfl, h13⟩
          · intro c hc f hf
            rw [hsum c hc, stepSum_self, if_neg (by omega), h13, AddsUp.self hc]
            simp [pathSum]
          · unfold EdgesState.measure
            rw [hacc, h.ri, h.idx]
            simp only [List.length_nil]
            omega
      | cons e0 rest =>
        have hne : s.acc ≠ [] := by rw [hacc]; simp
        obtain ⟨c1, c2, c3, c4⟩ := h.cons hne
        have hal := h.along
        rw [hacc] at hal
        match w, hal with
        | a :: w, hal =>
          obtain ⟨b, w', rfl, j1, j2⟩ := Along.cons_iff.1 hal
          have ha2 : a = s.pt2 := by simpa using h.whead
          have hb1 : b = s.pt1 := by simpa using c1
          subst ha2; subst hb1
          have hsum : ∀ c, AddsUpOnLines c → ∀ f, (s.pt1 :: w').getLast? = some f →
              ringSum c pts = -pathSum c (s.pt1 :: w') + c s.pt1 s.pt3
                + if i < r + 1 then stepSum c pts i r + c (ringPt pts r) f else 0 := by
            intro c hc f hf
            rw [h.sum c hc f (by simpa using hf), ← AddsUp.tri hc hcol, AddsUp.swap hc s.pt1 s.pt2]
            simp only [pathSum]; ring
          simp only [List.tail_cons]
          cases hrest : rest with
          | nil =>
            rw [hrest] at j2
            obtain ⟨x, hx⟩ := Along.nil_iff.1 j2
            obtain ⟨_, rfl⟩ := List.cons.inj hx
            have hpr : ringPt pts r ≠ s.pt1 := by
              intro hh
              apply c4
              simp [hh]
            simp only
            rw [h.ri, show 2 * pts.length + 2 = (2 * pts.length + 1) + 1 from rfl, edgesBack_stop h.rn hpr]
            simp only
            rw [ptAt_nat h.rn]
            right; right
            refine ⟨_, [s.pt1], i, r, rfl, ⟨h.idx, rfl, rfl, h.i1, h.i2, h.rn, hpr, ringPt_mem h.rn, h.m1, h.m3,
              by simp, by simp, trivial, rfl, fun _ => rfl, by simp, ?_, ?_, ?_⟩, ?_⟩
            · intro hir; exact ⟨(at3 hir).1, Or.inl (at3 hir).2⟩
            · intro hir
              left
              refine ⟨rfl, ?_⟩
              rcases h.atl hir with ⟨h1, _⟩ | ⟨_, h1⟩
              · exact absurd h1 hne
              · rw [h1] at c3
                simp at c3
                exact c3.symm
            · intro c hc f hf
              exact hsum c hc f hf
            · unfold EdgesState.measure
              rw [hacc, h.ri, hrest]
              simp
          | cons e rest' =>
            rw [hrest] at j2
            obtain ⟨x, w'', rfl, j3, j4⟩ := Along.cons_iff.1 j2
            simp only [c2]
            have hew : e.Wf := (h.wf e (by rw [hacc, hrest]; simp)).1
            have hx : (if s.pt1.x = e.top.x ∧ s.pt1.y = e.top.y then e.bottom else e.top) = x := by
              rcases j3 with ⟨f1, f2⟩ | ⟨f1, f2⟩
              · rw [if_neg, f2]
                rintro ⟨g1, g2⟩
                apply hew.ne
                rw [f1]
                rcases hb : s.pt1 with ⟨bx, by'⟩
                rcases ht : e.top with ⟨tx, ty⟩
                rw [hb, ht] at g1 g2
                simp only at g1 g2
                rw [g1, g2]
              · rw [if_pos (by rw [f2]; exact ⟨rfl, rfl⟩), f1]
            rw [hx]
            right; right
            have hmx : x ∈ pts := by
              have := h.wf e (by rw [hacc, hrest]; simp)
              rcases j3 with ⟨f1, f2⟩ | ⟨f1, f2⟩
              · rw [← f2]; exact this.2.2
              · rw [← f1]; exact this.2.1
            refine ⟨_, s.pt1 :: x :: w'', i, r, rfl, ⟨h.idx, h.ri, h.lri, h.i1, h.i2, h.rn, ?_, hmx, h.m1, h.m3,
              ?_, ?_, ⟨j3, j4⟩, rfl, by simp, ?_, ?_, ?_, ?_⟩, ?_⟩
            · exact (Joins.ne j3 hew).symm
            · intro e' he'
              exact h.wf e' (by rw [hacc, hrest]; exact List.mem_cons_of_mem _ he')
            · have := h.np
              rw [hacc, hrest] at this
              exact this.tail
            · intro _
              refine ⟨rfl, rfl, ?_, ?_⟩
              · simp only; rw [c3]; simp
              · intro hh; apply c4; rw [← hh]; simp
            · intro hir; exact ⟨(at3 hir).1, Or.inl (at3 hir).2⟩
            · intro hir
              right
              refine ⟨by simp, ?_⟩
              rcases h.atl hir with ⟨h1, _⟩ | ⟨_, h1⟩
              · exact absurd h1 hne
              · exact h1
            · intro c hc f hf
              exact hsum c hc f hf
            · unfold EdgesState.measure
              rw [hacc, hrest]
              simp
    · rw [if_neg hcol]
      simp only
      have hjn := joins_mk' s.pt2 s.pt3
      have hwn : (Edge.mk' s.pt2 s.pt3).Wf := wf_mk' h23
      have hal' : Along (s.pt3 :: w) (Edge.mk' s.pt2 s.pt3 :: s.acc) := by
        have := h.whead
        cases w with
        | nil => cases this
        | cons a w =>
          have ha2 : a = s.pt2 := by simpa using this
          subst ha2
          exact ⟨hjn.symm, h.along⟩
      have hwf' : ∀ e ∈ Edge.mk' s.pt2 s.pt3 :: s.acc, e.Wf ∧ e.bottom ∈ pts ∧ e.top ∈ pts := by
        intro e he
        rcases List.mem_cons.1 he with rfl | he
        · refine ⟨hwn, ?_⟩
          rcases hjn with ⟨e1, e2⟩ | ⟨e1, e2⟩ <;> rw [e1, e2]
          · exact ⟨h.m2, h.m3⟩
          · exact ⟨h.m3, h.m2⟩
        · exact h.wf e he
      have hnp' : (Edge.mk' s.pt2 s.pt3 :: s.acc).IsChain fun e f => ¬ EdgesParallel e f := by
        cases hacc : s.acc with
        | nil => simp
        | cons e0 rest =>
          have hn := h.np
          rw [hacc] at hn
          rw [List.isChain_cons_cons]
          refine ⟨?_, hn⟩
          have hal := h.along
          rw [hacc] at hal
          have c1 := (h.cons (by rw [hacc]; simp)).1
          match w, hal with
          | a :: w, hal =>
            obtain ⟨b, w', rfl, j1, j2⟩ := Along.cons_iff.1 hal
            have ha2 : a = s.pt2 := by simpa using h.whead
            have hb1 : b = s.pt1 := by simpa using c1
            subst ha2; subst hb1
            intro hpar
            exact hcol ((slopes_of_joins j1.symm hjn).2 (parallel_comm hpar))
      have hsum' : ∀ c, AddsUpOnLines c → -pathSum c (s.pt3 :: w) = -pathSum c w + c s.pt2 s.pt3 := by
        intro c hc
        have := h.whead
        cases w with
        | nil => cases this
        | cons a w =>
          have ha2 : a = s.pt2 := by simpa using this
          subst ha2
          rw [AddsUp.swap hc s.pt2 s.pt3]
          simp only [pathSum]; ring
      have hlast : (s.pt3 :: w).getLast? = some wl := by
        rw [List.getLast?_cons, hwl]; rfl
      by_cases hl : s.index = s.lri
      · rw [if_pos hl]
        left
        have hir : i = r + 1 := by
          have := h.idx; have := h.lri; omega
        refine ⟨_, rfl, Or.inr ⟨s.pt3 :: w, hal', ?_, hwf', hnp', fun c hc => ?_⟩⟩
        · rcases h.atl hir with ⟨_, h1⟩ | ⟨h1, h2⟩
          · exact absurd h1 h23
          · rw [hlast, ← hwl, ← (h.cons h1).2.2.1, h2]; rfl
        · rw [hsum' c hc, h.sum c hc wl hwl, if_neg (by omega)]; ring
      · rw [if_neg hl]
        have hir : i < r + 1 := by
          have := h.idx; have := h.lri; have := h.i2; omega
        obtain ⟨hp3, hp3'⟩ := at3 hir
        have hfr : (if s.acc = [] then some s.pt2 else s.front) = some wl ∧ wl ≠ ringPt pts r := by
          by_cases ha : s.acc = []
          · have hal := h.along
            rw [ha] at hal
            obtain ⟨a, rfl⟩ := Along.nil_iff.1 hal
            have ha2 : a = s.pt2 := by simpa using h.whead
            subst ha2
            simp only [List.getLast?_singleton, Option.some.injEq] at hwl
            rw [if_pos ha, ← hwl]
            exact ⟨rfl, by rw [h.emp ha]; exact h.ne.symm⟩
          · rw [if_neg ha]
            obtain ⟨c1, c2, c3, c4⟩ := h.cons ha
            exact ⟨by rw [c3, hwl], fun hh => c4 (by rw [hwl, hh])⟩
        rcases edgesAdvance_spec (pts := pts) (w := s.pt3 :: w) (i := i) (r := r)
          (s := { s with front := if s.acc = [] then some s.pt2 else s.front, acc := Edge.mk' s.pt2 s.pt3 :: s.acc,
                          back := some s.pt2, pt1 := s.pt2, pt2 := s.pt3 })
          h.idx h.ri h.lri h.i1 hir h.rn h23 h.m2 h.m3 hwf' hnp' hal' rfl (by simp)
          (fun _ => ⟨by simpa using h.whead, rfl, by simp only; rw [hfr.1, hlast], by rw [hlast]; simpa using hfr.2⟩) hp3.symm
          (fun f hf => by rw [hlast] at hf; cases hf; exact hmf wl hwl)
          (fun c hc f hf => by
            rw [hlast] at hf; cases hf
            rw [hsum' c hc, h.sum c hc wl hwl, if_pos hir]; ring) with ⟨s', e1, e2⟩ | ⟨s', e1, e2, e3, e4, e5⟩
        · exact Or.inl ⟨s', e1, e2⟩
        · refine Or.inr (Or.inr ⟨s', _, i + 1, r, e1, e2, ?_⟩)
          have := h.i2; have := h.rn
          unfold EdgesState.measure
          rw [e3, e4, e5]
          simp only [List.length_cons]
          rw [h.idx]
          omega

end Wagyu
