import Verif.Proofs.EdgesClose

/-!
# The edges extracted from a ring lie on the lines of its sides
-/

namespace Wagyu

open Spec

/-- A relation between points that only depends on the line they span. -/
structure LineRel (D : Point → Point → Prop) : Prop where
  refl : ∀ p, D p p
  symm : ∀ {p q}, D p q → D q p
  coll : ∀ {p q r}, p ≠ q → D p q → D q r → arePointsSlopesEqual p q r = true → D p r

/-- The state in which the first loop starts. -/
theorem edgesStart_inv {pts : List Point} {p0 p1 : Point} {r : Nat} (hn : 3 ≤ pts.length) (hp0 : ringPt pts 0 = p0) (hp1 : ringPt pts 1 = p1)
    (e2 : r ≤ pts.length - 1) (e3 : ringPt pts r ≠ p0) (e4 : ∀ j, r < j → j ≤ pts.length - 1 → ringPt pts j = p0) :
    EInv pts [p0] 1 r (EdgesState.mk [] 1 (r : Int) ((r : Int) + 1) (ringPt pts r) p0 p1 none none) := by
  have hr1 : 1 ≤ r := by
    rcases Nat.eq_zero_or_pos r with h | h
    · subst h; exact absurd hp0 e3
    · exact h
  refine ⟨rfl, rfl, rfl, by omega, by omega, by omega, e3, ringPt_mem (by omega), ?_, ?_, by simp, by simp, trivial,
    rfl, fun _ => rfl, by simp, ?_, ?_, ?_⟩
  · simp only; rw [← hp0]; exact ringPt_mem (by omega)
  · simp only; rw [← hp1]; exact ringPt_mem (by omega)
  · intro _; exact ⟨hp1, Or.inr hp0.symm⟩
  · intro hh; omega
  · intro c hc f hf
    simp only [List.getLast?_singleton, Option.some.injEq] at hf
    subst hf
    rw [ringSum_eq c (by rintro rfl; simp at hn), if_pos (by omega), ← stepSum_append (i := 0) (j := r) (by omega) e2,
      stepSum_bot c pts (i := 0) (j := r) (by omega), hp0, zero_add, hp1]
    have hzero : stepSum c pts r (pts.length - 1) + c (ringPt pts (pts.length - 1)) p0 = c (ringPt pts r) p0 := by
      rcases Nat.eq_or_lt_of_le e2 with h | h
      · rw [h, stepSum_self, zero_add]
      · rw [stepSum_bot c pts h, e4 (r + 1) (by omega) (by omega), e4 (pts.length - 1) (by omega) (by omega), AddsUp.self hc]
        have := stepSum_const hc (pts := pts) (p := p0) (pts.length - 1 - (r + 1)) (r + 1) (fun k h1 h2 => e4 k (by omega) (by omega))
        rw [show r + 1 + (pts.length - 1 - (r + 1)) = pts.length - 1 by omega] at this
        rw [this]; ring
    simp only [pathSum]
    linarith

section
variable {D : Point → Point → Prop} (hD : LineRel D)
include hD
set_option linter.unusedSectionVars false

theorem LineRel.joins {e : Edge} {a b : Point} (h : Joins e a b) (h' : D a b) : D e.bottom e.top := by
  rcases h with ⟨e1, e2⟩ | ⟨e1, e2⟩ <;> rw [e1, e2]
  · exact h'
  · exact hD.symm h'

theorem LineRel.of_joins {e : Edge} {a b : Point} (h : Joins e a b) (h' : D e.bottom e.top) : D a b := by
  rcases h with ⟨e1, e2⟩ | ⟨e1, e2⟩
  · rw [← e1, ← e2]; exact h'
  · rw [← e1, ← e2]; exact hD.symm h'

/-! ## The second loop -/

theorem LineRel.merge {e f : Edge} {a o b : Point} (h1 : Joins e a o) (h2 : Joins f o b) (he : D e.bottom e.top) (hne : e.bottom ≠ e.top)
    (hf : D f.bottom f.top) (hp : areEdgesSlopesEqual e f = true) : D a b := by
  refine hD.coll ?_ (hD.of_joins h1 he) (q := o) (hD.of_joins h2 hf) ((slopes_of_joins h1 h2).2 ?_)
  · rcases h1 with ⟨e1, e2⟩ | ⟨e1, e2⟩
    · rw [← e1, ← e2]; exact hne
    · rw [← e1, ← e2]; exact hne.symm
  · unfold areEdgesSlopesEqual at hp
    rw [decide_eq_true_eq] at hp
    unfold EdgesParallel
    linarith

theorem closeStep_lines {f b : Edge} {mid l : List Edge} (h : ∀ e ∈ f :: (mid ++ [b]), D e.bottom e.top ∧ e.bottom ≠ e.top)
    (hl : closeStep f mid b = some l) : ∀ e ∈ l, D e.bottom e.top ∧ e.bottom ≠ e.top := by
  have hf := h f (by simp)
  have hm : ∀ e ∈ mid, D e.bottom e.top ∧ e.bottom ≠ e.top := fun e he => h e (by simp [he])
  have hc : ∀ g : Edge, D g.bottom g.top → g.bottom ≠ g.top → ∀ e ∈ g :: mid, D e.bottom e.top ∧ e.bottom ≠ e.top := by
    intro g h1 h2 e he
    rcases List.mem_cons.1 he with rfl | he
    · exact ⟨h1, h2⟩
    · exact hm e he
  have hc' : ∀ g : Edge, D g.bottom g.top → g.bottom ≠ g.top → ∀ e ∈ mid ++ [g], D e.bottom e.top ∧ e.bottom ≠ e.top := by
    intro g h1 h2 e he
    refine hc g h1 h2 e ?_
    simp only [List.mem_append, List.mem_cons, List.not_mem_nil, or_false] at he ⊢
    exact he.symm
  unfold closeStep at hl
  split at hl
  · next hp =>
    have mg : ∀ a o c, Joins f a o → Joins b o c → D a c := fun a o c j1 j2 => hD.merge j1 j2 hf.1 hf.2 (h b (by simp)).1 hp
    split at hl
    · next h1 =>
      split at hl
      · cases hl; exact hm
      · next h2 =>
        cases hl
        exact hc _ (hD.symm (mg f.top f.bottom b.bottom (.inr ⟨rfl, rfl⟩) (.inr ⟨rfl, h1.symm⟩))) (fun h => h2 h.symm)
    · next h1 =>
      split at hl
      · next h2 =>
        cases hl
        exact hc _ (mg f.bottom f.top b.top (.inl ⟨rfl, rfl⟩) (.inl ⟨h2.symm, rfl⟩)) h1
      · next h2 =>
        split at hl
        · cases hl; exact hm
        · next h3 =>
          split at hl
          · next h4 =>
            have h5 : f.bottom ≠ b.bottom := fun h => h3 ⟨h4, h⟩
            have h6 := mg f.bottom f.top b.bottom (.inl ⟨rfl, rfl⟩) (.inr ⟨rfl, h4.symm⟩)
            split at hl
            · cases hl; exact hc' _ (hD.symm h6) h5.symm
            · cases hl; exact hc _ h6 h5
          · next h4 =>
            split at hl
            · next h5 =>
              have h6 := mg f.top f.bottom b.top (.inr ⟨rfl, rfl⟩) (.inl ⟨h5.symm, rfl⟩)
              split at hl
              · cases hl; exact hc' _ h6 h4
              · cases hl; exact hc _ (hD.symm h6) (Ne.symm h4)
            · cases hl
  · cases hl

theorem closeLoop_lines : ∀ (n : Nat) (l : List Edge), (∀ e ∈ l, D e.bottom e.top ∧ e.bottom ≠ e.top) →
    ∀ e ∈ closeLoop n l, D e.bottom e.top ∧ e.bottom ≠ e.top := by
  intro n
  induction n with
  | zero => intro l h; exact h
  | succ n ih =>
    intro l h
    rw [closeLoop.eq_def]
    simp only
    split
    · exact h
    · split
      · exact h
      · next _ f rest _ =>
        split
        · exact h
        · next b hb =>
          split
          · exact h
          · next l' hl =>
            refine ih l' (closeStep_lines hD (f := f) (b := b) (mid := rest.dropLast) ?_ hl)
            rw [List.dropLast_append_getLast? b hb]
            exact h

/-! ## The first loop -/

/-- What the lines of the points in hand are; `r` is the reversed index. -/
structure LnInv (D : Point → Point → Prop) (pts : List Point) (r : Nat) (s : EdgesState) : Prop where
  d12 : D s.pt1 s.pt2
  d23 : D s.pt2 s.pt3
  acc : ∀ e ∈ s.acc, D e.bottom e.top
  front : s.acc ≠ [] → ∀ f, s.front = some f → D (ringPt pts r) f

/-- What one iteration leaves. -/
def StepLines (D : Point → Point → Prop) (pts : List Point) : EdgesStep → Prop
  | .next s' => LnInv D pts s'.ri.toNat s'
  | .brk s' => ∀ e ∈ s'.acc, D e.bottom e.top
  | .ret l => ∀ e ∈ l, D e.bottom e.top

theorem edgesAdvance_lines {pts : List Point} {i r : Nat} {s s' : EdgesState} (hp : ∀ k, k + 1 < pts.length → D (ringPt pts k) (ringPt pts (k + 1)))
    (idx : s.index = i) (lri : s.lri = r + 1) (rn : r < pts.length) (i2 : i < r + 1) (h2 : s.pt2 = ringPt pts i)
    (h : LnInv D pts r s) (hr : edgesAdvance pts s = .ok (.next s')) : LnInv D pts r s' ∧ s'.ri = s.ri := by
  unfold edgesAdvance at hr
  dsimp only at hr
  split at hr
  · next hl =>
    split at hr
    · cases hr
    · next ha =>
      split at hr
      · next f hf =>
        cases hr
        have : i = r := by omega
        subst this
        refine ⟨⟨h.d12, ?_, h.acc, h.front⟩, rfl⟩
        show D s.pt2 f
        rw [h2]
        exact h.front ha f hf
      · cases hr
  · next hl =>
    have e1 : ptAt pts (s.index + 1) = .ok (ringPt pts (i + 1)) := by
      rw [idx]
      exact ptAt_nat (pts := pts) (k := i + 1) (by omega)
    rw [e1] at hr
    cases hr
    refine ⟨⟨h.d12, ?_, h.acc, h.front⟩, rfl⟩
    show D s.pt2 (ringPt pts (i + 1))
    rw [h2]
    exact hp i (by omega)

theorem edgesAdvance_brk {pts : List Point} {s s' : EdgesState} (hr : edgesAdvance pts s = .ok (.brk s')) : s'.acc = s.acc := by
  unfold edgesAdvance at hr
  dsimp only at hr
  split at hr
  · split at hr
    · cases hr; rfl
    · split at hr <;> cases hr
  · split at hr <;> cases hr


theorem edgesBack_lines {pts : List Point} {p : Point} {index : Int} : ∀ (fuel : Nat) (ri ri' : Int),
    edgesBack pts p index fuel ri = .ok (some ri') → ri' = ri ∨ (ri' < ri ∧ ptAt pts (ri' + 1) = .ok p) := by
  intro fuel
  induction fuel with
  | zero => intro ri ri' h; cases h
  | succ fuel ih =>
    intro ri ri' h
    rw [edgesBack] at h
    split at h
    · cases h
    · next q hq =>
      split at h
      · next hqp =>
        subst hqp
        split at h
        · cases h
        · rcases ih _ _ h with rfl | ⟨h1, h2⟩
          · right; exact ⟨by omega, by rw [show ri - 1 + 1 = ri by omega]; exact hq⟩
          · right; exact ⟨by omega, h2⟩
      · cases h; exact .inl rfl

theorem edgesStep_lines {pts w : List Point} {i r : Nat} {s : EdgesState} {res : EdgesStep}
    (hp : ∀ k, k + 1 < pts.length → D (ringPt pts k) (ringPt pts (k + 1)))
    (h : EInv pts w i r s) (d : LnInv D pts r s) (hr : edgesStep pts s = .ok res) :
    StepLines D pts res := by
  have hri : s.ri.toNat = r := by rw [h.ri]; rfl
  have spec := edgesStep_spec h
  have adv : ∀ s1 : EdgesState, s1.index = i → s1.lri = r + 1 → i < r + 1 → s1.pt2 = ringPt pts i → s1.ri = r → LnInv D pts r s1 →
      edgesAdvance pts s1 = .ok res → StepLines D pts res := by
    intro s1 e1 e2 e3 e4 e5 d1 hr
    cases res with
    | next s' =>
      obtain ⟨h1, h2⟩ := edgesAdvance_lines hD hp e1 e2 h.rn e3 e4 d1 hr
      show LnInv D pts s'.ri.toNat s'
      rw [h2, e5]
      exact h1
    | brk s' =>
      have := edgesAdvance_brk hD hr
      show ∀ e ∈ s'.acc, D e.bottom e.top
      rw [this]; exact d1.acc
    | ret l =>
      exfalso
      unfold edgesAdvance at hr
      dsimp only at hr
      split at hr
      · split at hr
        · cases hr
        · split at hr <;> cases hr
      · split at hr <;> cases hr
  have hlt : ¬ s.index = s.lri → i < r + 1 := by
    intro hl
    have := h.idx; have := h.lri; have := h.i2; omega
  unfold edgesStep at hr
  split at hr
  · next h23 =>
    split at hr
    · cases hr; exact d.acc
    · next hl => exact adv s h.idx h.lri (hlt hl) (by rw [(h.at3 (hlt hl)).1, h23]) h.ri d hr
  · next h23 =>
    split at hr
    · next hcol =>
      have d13 : D s.pt1 s.pt3 := hD.coll h.ne d.d12 d.d23 hcol
      dsimp only at hr
      split at hr
      · next e acc hacc =>
        obtain ⟨e0, hacc'⟩ : ∃ e0, s.acc = e0 :: e :: acc := by
          cases hs : s.acc with
          | nil => rw [hs] at hacc; cases hacc
          | cons a l => rw [hs] at hacc; exact ⟨a, by rw [← hacc]; rfl⟩
        have hne : s.acc ≠ [] := by rw [hacc']; simp
        obtain ⟨c1, c2, -, -⟩ := h.cons hne
        have hal := h.along
        rw [hacc'] at hal
        match w, hal with
        | a :: b :: w', hal =>
          obtain ⟨b', w1, hb, j1, j2⟩ := Along.cons_iff.1 hal
          obtain ⟨rfl, rfl⟩ := List.cons.inj hb
          obtain ⟨x, w2, rfl, j3, j4⟩ := Along.cons_iff.1 j2
          have hb1 : b = s.pt1 := by simpa using c1
          subst hb1
          rw [c2] at hr
          cases hr
          refine ⟨?_, d13, fun e' he' => d.acc e' (by rw [hacc']; exact List.mem_cons_of_mem _ he'), fun _ f hf => ?_⟩
          · have de := d.acc e (by rw [hacc']; simp)
            dsimp only
            split
            · next hc =>
              have : s.pt1 = e.top := by
                have key : ∀ a b : Point, a.x = b.x → a.y = b.y → a = b := by
                  rintro ⟨_, _⟩ ⟨_, _⟩ h1 h2
                  simp only at h1 h2
                  rw [h1, h2]
                exact key _ _ hc.1 hc.2
              rw [this]; exact de
            · next hc =>
              have : s.pt1 = e.bottom := by
                rcases j3 with ⟨f1, f2⟩ | ⟨f1, f2⟩
                · exact f1.symm
                · exact absurd (by rw [f2]; exact ⟨rfl, rfl⟩) hc
              rw [this]; exact hD.symm de
          · dsimp only
            rw [hri]
            exact d.front hne f hf
      · next hacc =>
        split at hr
        · cases hr
        · cases hr; intro e he; cases he
        · next ri' hb =>
          split at hr
          · cases hr
          · next q hq =>
            cases hr
            have key : D q s.pt1 := by
              rcases edgesBack_lines hD _ _ _ hb with rfl | ⟨h1, h2⟩
              · have hq' : q = ringPt pts r := by
                  rw [h.ri, ptAt_nat h.rn] at hq
                  cases hq; rfl
                rw [hq']
                cases hs : s.acc with
                | nil => rw [h.emp hs]; exact hD.refl _
                | cons e0 l =>
                  rw [hs] at hacc
                  simp only [List.tail_cons] at hacc
                  subst hacc
                  have hne : s.acc ≠ [] := by rw [hs]; simp
                  obtain ⟨c1, c2, c3, -⟩ := h.cons hne
                  refine d.front hne _ ?_
                  rw [c3]
                  have hal := h.along
                  rw [hs] at hal
                  match w, hal with
                  | a :: w', hal =>
                    obtain ⟨b', w1, rfl, j1, j2⟩ := Along.cons_iff.1 hal
                    obtain ⟨x, hx⟩ := Along.nil_iff.1 j2
                    obtain ⟨rfl, rfl⟩ := List.cons.inj hx
                    simpa using c1
              · rcases spec with ⟨s', e1, -⟩ | ⟨e1, -⟩ | ⟨s', w', i', r', e1, e2, -⟩
                · exfalso
                  unfold edgesStep at e1
                  rw [if_neg h23, if_pos hcol] at e1
                  simp only [hacc, hb, hq] at e1
                  cases e1
                · exfalso
                  unfold edgesStep at e1
                  rw [if_neg h23, if_pos hcol] at e1
                  simp only [hacc, hb, hq] at e1
                  cases e1
                · unfold edgesStep at e1
                  rw [if_neg h23, if_pos hcol] at e1
                  simp only [hacc, hb, hq] at e1
                  cases e1
                  have h3 := e2.ri
                  dsimp only at h3
                  subst h3
                  have h4 := h.ri
                  have h5 := h.rn
                  have h6 : r' + 1 < pts.length := by omega
                  rw [ptAt_nat (by omega)] at hq
                  have h7 := ptAt_nat h6
                  rw [Nat.cast_add, Nat.cast_one, h2] at h7
                  have h8 : s.pt1 = ringPt pts (r' + 1) := Except.ok.inj h7
                  have h9 : ringPt pts r' = q := Except.ok.inj hq
                  rw [h8, ← h9]
                  exact hp r' h6
            exact ⟨key, d13, by simp, by simp⟩
    · next hcol =>
      dsimp only at hr
      have dn := hD.joins (joins_mk' s.pt2 s.pt3) d.d23
      have hacc : ∀ e ∈ Edge.mk' s.pt2 s.pt3 :: s.acc, D e.bottom e.top := by
        intro e he
        rcases List.mem_cons.1 he with rfl | he
        · exact dn
        · exact d.acc e he
      split at hr
      · cases hr; exact hacc
      · next hl =>
        refine adv _ ?_ ?_ (hlt hl) ?_ ?_ ?_ hr
        · exact h.idx
        · exact h.lri
        · exact (h.at3 (hlt hl)).1.symm
        · exact h.ri
        · refine ⟨d.d23, hD.refl _, hacc, fun _ f hf => ?_⟩
          dsimp only at hf
          split at hf
          · next ha =>
            cases hf
            rw [h.emp ha]; exact d.d12
          · next ha => exact d.front ha f hf

theorem edgesLoop_lines {pts : List Point} (hp : ∀ k, k + 1 < pts.length → D (ringPt pts k) (ringPt pts (k + 1))) :
    ∀ (fuel : Nat) {w : List Point} {i r : Nat} {s : EdgesState} {l : List Edge} {b : Bool}, EInv pts w i r s → LnInv D pts r s →
      edgesLoop pts fuel s = .ok (l, b) → ∀ e ∈ l, D e.bottom e.top := by
  intro fuel
  induction fuel with
  | zero => intro w i r s l b _ _ h; cases h
  | succ fuel ih =>
    intro w i r s l b h d hl
    rw [edgesLoop] at hl
    rcases edgesStep_spec h with ⟨s', e1, e2⟩ | ⟨e1, e2⟩ | ⟨s', w', i', r', e1, e2, e3⟩
    · have := edgesStep_lines hD hp h d e1
      have this : ∀ e ∈ s'.acc, D e.bottom e.top := this
      rw [e1] at hl; cases hl
      simpa using this
    · rw [e1] at hl; cases hl; simp
    · have := edgesStep_lines hD hp h d e1
      rw [e1] at hl
      have this : LnInv D pts s'.ri.toNat s' := this
      dsimp only at hl
      rw [e2.ri] at this
      exact ih e2 this hl

theorem edgesOf_lines {pts : List Point} {fuel : Nat} (hf : 3 * pts.length + 3 ≤ fuel) {es : List Edge} (he : edgesOf fuel pts = .ok es)
    (hp : ∀ k, k + 1 < pts.length → D (ringPt pts k) (ringPt pts (k + 1))) (hc : D (ringPt pts (pts.length - 1)) (ringPt pts 0)) :
    ∀ e ∈ es, D e.bottom e.top := by
  match pts, hf with
  | [], _ => cases he; simp
  | [_], _ => cases he; simp
  | [_, _], _ => cases he; simp
  | p0 :: p1 :: p2 :: rest, hf =>
    generalize hpts : p0 :: p1 :: p2 :: rest = pts at *
    have hn : 3 ≤ pts.length := by rw [← hpts]; simp
    have hp0 : ringPt pts 0 = p0 := by rw [← hpts]; rfl
    have hp1 : ringPt pts 1 = p1 := by rw [← hpts]; rfl
    have hlast : pts.getLastD p0 = ringPt pts (pts.length - 1) := by
      unfold ringPt
      rw [List.getD_eq_getElem?_getD, ← List.getLast?_eq_getElem?, List.getLastD_eq_getLast?]
      cases h : pts.getLast? with
      | none => rw [List.getLast?_eq_none_iff] at h; rw [h] at hn; simp at hn
      | some x => rfl
    have heq : edgesOf fuel pts = match edgesSkip pts p0 (2 * pts.length + 1) ((pts.length : Int) - 1) (pts.getLastD p0) with
      | none => .ok []
      | some (ri, pt1) =>
        match edgesLoop pts fuel
          { acc := [], index := 1, ri := ri, lri := ri + 1, pt1 := pt1, pt2 := p0, pt3 := p1,
            front := none, back := none } with
        | .error e => .error e
        | .ok (result, true) => .ok (closeLoop result.length result)
        | .ok (result, false) => .ok result := by
      rw [← hpts]; rfl
    rw [heq] at he
    have hri : (pts.length : Int) - 1 = ((pts.length - 1 : Nat) : Int) := by omega
    by_cases hall : ∃ k, k ≤ pts.length - 1 ∧ ringPt pts k ≠ p0
    · obtain ⟨r, e1, e2, e3, e4⟩ := edgesSkip_some (p0 := p0) (2 * pts.length + 1) (pts.length - 1) (by omega) (by omega) hall
      rw [hri, hlast, e1] at he
      simp only at he
      have hinv := edgesStart_inv hn hp0 hp1 e2 e3 e4
      have d0 : LnInv D pts r (EdgesState.mk [] 1 (r : Int) ((r : Int) + 1) (ringPt pts r) p0 p1 none none) := by
        refine ⟨?_, ?_, by simp, by simp⟩
        · show D (ringPt pts r) p0
          rcases Nat.eq_or_lt_of_le e2 with h | h
          · rw [h, ← hp0]; exact hc
          · have := hp r (by omega)
            rwa [e4 (r + 1) (by omega) (by omega)] at this
        · show D p0 p1
          rw [← hp0, ← hp1]; exact hp 0 (by omega)
      obtain ⟨acc, b, l1, l2, l3⟩ := edgesLoop_spec fuel hinv (by
        unfold EdgesState.measure
        simp only [List.length_nil]
        omega)
      have hl := edgesLoop_lines hD hp fuel hinv d0 l1
      rw [l1] at he
      cases b with
      | false => cases he; exact hl
      | true =>
        cases he
        have hw : ∀ e ∈ acc.reverse, D e.bottom e.top ∧ e.bottom ≠ e.top := by
          intro e he
          refine ⟨hl e he, ?_⟩
          rcases l2 with ⟨rfl, -⟩ | ⟨w, -, -, w3, -⟩
          · simp at he
          · exact (w3 e (by simpa using he)).1.ne
        exact fun e he => (closeLoop_lines hD _ _ hw e he).1
    · rw [not_exists] at hall
      have hall : ∀ p ∈ pts, p = p0 := by
        intro p hp
        obtain ⟨k, hk, rfl⟩ := List.getElem_of_mem hp
        have := hall k
        by_contra hne
        refine this ⟨by omega, ?_⟩
        unfold ringPt
        rw [List.getD_eq_getElem?_getD, List.getElem?_eq_getElem hk]
        exact hne
      have : pts.getLastD p0 = p0 := by rw [hlast]; exact hall _ (ringPt_mem (by omega))
      rw [this, edgesSkip_none hall] at he
      cases he; simp

end

end Wagyu
