import Verif.Proofs.EdgesShape

/-!
# The edges of a ring have the shape of the ring: start, end and the whole function
-/

namespace Wagyu

open Spec

/-! ## Edges along vertices -/

/-- The edges that were made along `vs`. -/
def Trace : List Point → List Edge → Prop
  | [_], [] => True
  | a :: b :: vs, e :: es => e = Edge.mk' a b ∧ Trace (b :: vs) es
  | _, _ => False

theorem Trace.nil_iff {vs : List Point} : Trace vs [] ↔ ∃ a, vs = [a] := by
  match vs with
  | [] => simp [Trace]
  | [a] => simp [Trace]
  | a :: b :: vs => simp [Trace]

theorem Trace.cons_iff {vs : List Point} {a : Point} {e : Edge} {es : List Edge} :
    Trace (a :: vs) (e :: es) ↔ ∃ b vs', vs = b :: vs' ∧ e = Edge.mk' a b ∧ Trace (b :: vs') es := by
  match vs with
  | [] => simp [Trace]
  | b :: vs => simp [Trace]

theorem Trace.along : ∀ {vs : List Point} {es : List Edge}, Trace vs es → Along vs es
  | [_], [], _ => trivial
  | _ :: _ :: _, _ :: _, h => ⟨h.1 ▸ joins_mk' _ _, h.2.along⟩
  | [], [], h => h.elim
  | [], _ :: _, h => h.elim
  | [_], _ :: _, h => h.elim
  | _ :: _ :: _, [], h => h.elim

theorem Trace.snoc : ∀ {es : List Edge} {vs : List Point} {a : Point} (b : Point), Trace vs es → vs.getLast? = some a →
    Trace (vs ++ [b]) (es ++ [Edge.mk' a b]) := by
  intro es
  induction es with
  | nil =>
    intro vs a b h ha
    obtain ⟨x, rfl⟩ := Trace.nil_iff.1 h
    simp only [List.getLast?_singleton, Option.some.injEq] at ha
    subst ha
    exact ⟨rfl, trivial⟩
  | cons e es ih =>
    intro vs a b h ha
    match vs, h with
    | x :: y :: vs, h =>
      refine ⟨h.1, ih b h.2 ?_⟩
      rw [List.getLast?_cons_cons] at ha
      exact ha

theorem Trace.unsnoc : ∀ {es : List Edge} {vs : List Point} {e : Edge}, Trace vs (es ++ [e]) →
    ∃ ws a b, vs = ws ++ [b] ∧ ws.getLast? = some a ∧ Trace ws es ∧ e = Edge.mk' a b := by
  intro es
  induction es with
  | nil =>
    intro vs e h
    match vs, h with
    | [a, b], h => exact ⟨[a], a, b, rfl, rfl, trivial, h.1⟩
    | _ :: _ :: _ :: _, h => exact h.2.elim
    | [_], h => exact h.elim
    | [], h => exact h.elim
  | cons f es ih =>
    intro vs e h
    match vs, h with
    | x :: y :: vs, h =>
      obtain ⟨ws, a, b, h1, h2, h3, h4⟩ := ih h.2
      cases ws with
      | nil => cases h2
      | cons w ws =>
        rw [List.cons_append, List.cons.injEq] at h1
        obtain ⟨rfl, rfl⟩ := h1
        exact ⟨x :: y :: ws, a, b, rfl, by rw [List.getLast?_cons_cons]; exact h2, ⟨h.1, h3⟩, h4⟩
    | [_], h => exact h.elim
    | [], h => exact h.elim

theorem Back.trace : ∀ {acc : List Edge} {w : List Point}, Back w acc → Trace w.reverse acc.reverse := by
  intro acc
  induction acc with
  | nil =>
    intro w h
    match w, h with
    | [a], _ => trivial
  | cons e acc ih =>
    intro w h
    match w, h with
    | a :: b :: w, h =>
      rw [List.reverse_cons (as := b :: w), List.reverse_cons (as := acc), h.1]
      exact (ih h.2).snoc a (by rw [List.getLast?_reverse]; rfl)

theorem Trace.zip : ∀ {vs : List Point} {es : List Edge}, Trace vs es → es = List.zipWith Edge.mk' vs vs.tail
  | [_], [], _ => rfl
  | a :: b :: vs, _ :: _, h => by
    have := h.2.zip
    rw [List.tail_cons, List.zipWith_cons_cons, h.1, this]; rfl
  | [], [], h => h.elim
  | [], _ :: _, h => h.elim
  | [_], _ :: _, h => h.elim
  | _ :: _ :: _, [], h => h.elim

theorem Trace.zip_closed {x : Point} {u : List Point} {es : List Edge} (h : Trace (x :: u ++ [x]) es) :
    es = List.zipWith Edge.mk' (x :: u) ((x :: u).rotate 1) := by
  have := h.zip
  rw [this, List.cons_append, List.tail_cons, List.rotate_cons_succ, List.rotate_zero]
  have h2 := List.zipWith_append (f := Edge.mk') (l₁ := x :: u) (l₁' := [x]) (l₂ := u ++ [x]) (l₂' := []) (by simp)
  rw [List.append_nil, List.zipWith_nil_right, List.append_nil] at h2
  exact h2

/-! ## Joining the last edge with the first one -/

theorem exact_of_joins {g : Edge} {a b : Point} (hw : g.Wf) (h : Joins g a b) (hy : a.y ≠ b.y) : g = Edge.mk' a b := by
  have hm := joins_mk' a b
  have hl := (C30_edge_normalised a b).1
  have hg := hw.le
  have hs := hw.slope
  obtain ⟨gb, gt, gs⟩ := g
  simp only at hs hg
  have hab : gb = (Edge.mk' a b).bottom ∧ gt = (Edge.mk' a b).top := by
    rcases h with ⟨e1, e2⟩ | ⟨e1, e2⟩ <;> rcases hm with ⟨f1, f2⟩ | ⟨f1, f2⟩ <;> simp only at e1 e2 <;> subst e1 e2
    · exact ⟨f1.symm, f2.symm⟩
    · rw [f1, f2] at hl; omega
    · rw [f1, f2] at hl; omega
    · exact ⟨f1.symm, f2.symm⟩
  have hab' : a ≠ b := by rintro rfl; exact hy rfl
  have hsm := (wf_mk' hab').slope
  rw [← hab.1, ← hab.2, ← hs] at hsm
  cases h2 : Edge.mk' a b with
  | mk x y z => rw [h2] at hab hsm; simp only at hab hsm; rw [hab.1, hab.2, hsm]

theorem closeStep_exact {mid : List Edge} {q0 q1 qk : Point} (h1 : q0 ≠ q1) (hk : qk ≠ q0) :
    closeStep (Edge.mk' q0 q1) mid (Edge.mk' qk q0) = none
    ∨ (closeStep (Edge.mk' q0 q1) mid (Edge.mk' qk q0) = some mid ∧ q1 = qk)
    ∨ (q1 ≠ qk ∧ Collinear (toQ qk) (toQ q0) (toQ q1)
        ∧ (closeStep (Edge.mk' q0 q1) mid (Edge.mk' qk q0) = some (Edge.mk' qk q1 :: mid)
          ∨ closeStep (Edge.mk' q0 q1) mid (Edge.mk' qk q0) = some (mid ++ [Edge.mk' qk q1]))) := by
  rcases closeStep_cases (mid := mid) (wf_mk' h1) (wf_mk' hk) (joins_mk' q0 q1) (joins_mk' qk q0) with ⟨e, -⟩ | ⟨-, e1, e2⟩ | ⟨hp, g, g1, g2, -, g4⟩
  · exact Or.inl e
  · exact Or.inr (Or.inl ⟨e1, e2⟩)
  · right; right
    have hne : q1 ≠ qk := by
      rintro rfl
      rcases g2 with ⟨a1, a2⟩ | ⟨a1, a2⟩ <;> exact g1.ne (a1.trans a2.symm)
    have hcol := (slopes_of_joins (joins_mk' qk q0) (joins_mk' q0 q1)).2 (parallel_comm hp)
    refine ⟨hne, C33_points_slopes_equal_iff .. |>.1 hcol, ?_⟩
    by_cases hy : qk.y = q1.y
    · have hq : q0.y = qk.y := by
        unfold arePointsSlopesEqual at hcol
        rw [decide_eq_true_eq, ← hy] at hcol
        by_contra hq
        have h3 : (qk.y - q0.y) * (qk.x - q1.x) = 0 := by linarith
        rcases mul_eq_zero.1 h3 with h3 | h3
        · exact hq (by omega)
        · exact hne (by cases q1; cases qk; simp only [Point.mk.injEq] at *; omega)
      left
      have m1 : Edge.mk' q0 q1 = ⟨q0, q1, .inf false⟩ := by rw [slope_mk' _ _ (by omega), if_neg (by omega)]
      have m2 : Edge.mk' qk q0 = ⟨qk, q0, .inf false⟩ := by rw [slope_mk' _ _ (by omega), if_neg (by omega)]
      have m3 : Edge.mk' qk q1 = ⟨qk, q1, .inf false⟩ := by rw [slope_mk' _ _ (by omega), if_neg (by omega)]
      have hs : areEdgesSlopesEqual (Edge.mk' q0 q1) (Edge.mk' qk q0) = true := (areEdgesSlopesEqual_iff _ _).2 hp
      unfold closeStep
      rw [hs, m1, m2, m3, if_pos rfl]
      simp only
      rw [if_pos trivial, if_neg hne]
    · rw [exact_of_joins g1 g2 hy] at g4
      exact g4

/-- A closed trace of the shape of `pts`. -/
structure TInv (pts vs : List Point) (es : List Edge) : Prop where
  trace : Trace vs es
  closed : vs.head? = vs.getLast?
  ne : ∀ e ∈ es, e.bottom ≠ e.top
  shape : SameShape pts vs

theorem TInv.few {pts vs : List Point} {es : List Edge} (h : TInv pts vs es) (hl : es.length < 3) : SameShape pts [] := by
  refine h.shape.trans (SameShape.trans ?_ (.point default)) |>.trans (.refl _)
  have key : ∀ x : Point, SameShape [x] [default] := fun x => (SameShape.point x).trans (SameShape.point default).symm
  have hc := h.closed
  match es, vs, h.trace, hl with
  | [], [x], _, _ => exact key x
  | [e], [x, y], _, _ =>
    simp only [List.head?_cons, List.getLast?_cons_cons, List.getLast?_singleton, Option.some.injEq] at hc
    subst hc
    exact (SameShape.drop _ _ [] (onLine_same _ _)).trans (key _)
  | [e, f], [x, y, z], _, _ =>
    simp only [List.head?_cons, List.getLast?_cons_cons, List.getLast?_singleton, Option.some.injEq] at hc
    subst hc
    exact (SameShape.drop _ _ [x] (onLine_back _ _)).trans ((SameShape.drop _ _ [] (onLine_same _ _)).trans (key _))
  | [e], [x], t, _ => exact t.elim
  | [e], x :: y :: z :: w, t, _ => exact t.2.elim
  | [e, f], [x, y], t, _ => exact t.2.elim
  | [e, f], [x], t, _ => exact t.elim
  | [e, f], x :: y :: z :: w :: v, t, _ => exact t.2.2.elim
  | [], x :: y :: w, t, _ => exact t.elim
  | [], [], t, _ => exact t.elim
  | [_], [], t, _ => exact t.elim
  | [_, _], [], t, _ => exact t.elim
  | _ :: _ :: _ :: _, _, _, hl => simp at hl; omega

theorem TInv.nil {pts : List Point} (h : SameShape pts []) : TInv pts [default] [] :=
  ⟨trivial, rfl, by simp, h.trans (SameShape.point _).symm⟩

theorem mk'_ne {a b : Point} (h : (Edge.mk' a b).bottom ≠ (Edge.mk' a b).top) : a ≠ b := by
  rintro rfl
  rcases joins_mk' a a with ⟨e1, e2⟩ | ⟨e1, e2⟩ <;> exact h (e1.trans e2.symm)

theorem closeLoop_shape {pts : List Point} : ∀ (n : Nat) (l : List Edge) (vs : List Point), l.length ≤ n → TInv pts vs l →
    ∃ vs', TInv pts vs' (closeLoop n l) := by
  intro n
  induction n with
  | zero =>
    intro l vs hl h
    have : l = [] := List.length_eq_zero_iff.1 (by omega)
    subst this
    exact ⟨_, TInv.nil (h.few (by simp))⟩
  | succ n ih =>
    intro l vs hl h
    rw [closeLoop.eq_def]
    simp only
    by_cases hlt : l.length < 3
    · rw [if_pos hlt]
      exact ⟨_, h⟩
    · rw [if_neg hlt]
      match l, hl, h, hlt with
      | f :: rest, hl, h, hlt =>
        simp only
        rcases List.eq_nil_or_concat rest with rfl | ⟨mid, b, rfl⟩
        · simp at hlt
        rw [List.concat_eq_append] at *
        rw [List.getLast?_concat, List.dropLast_concat]
        simp only
        have hal := h.trace
        match vs, hal with
        | q0 :: vs, hal =>
          obtain ⟨q1, u0, rfl, rfl, hal2⟩ := Trace.cons_iff.1 hal
          obtain ⟨u, qk, x, hu, hul, hmid, rfl⟩ := Trace.unsnoc hal2
          have hx : x = q0 := by
            have := h.closed
            rw [hu, ← List.cons_append, List.getLast?_concat] at this
            simpa using this.symm
          subst hx
          cases u with
          | nil => cases hul
          | cons a u =>
          obtain rfl : q1 = a := by rw [List.cons_append] at hu; exact (List.cons.inj hu).1
          have hf := mk'_ne (h.ne (Edge.mk' x q1) (by simp))
          have hb := mk'_ne (h.ne (Edge.mk' qk x) (by simp))
          have hmn : ∀ e ∈ mid, e.bottom ≠ e.top := fun e he => h.ne e (by simp [he])
          have hS := h.shape
          rw [hu] at hS
          obtain ⟨u', hu'⟩ : ∃ u', q1 :: u = u' ++ [qk] := by
            rcases List.eq_nil_or_concat (q1 :: u) with h0 | ⟨u', y, h0⟩
            · cases h0
            · rw [List.concat_eq_append] at h0
              rw [h0, List.getLast?_concat, Option.some.injEq] at hul
              exact ⟨u', by rw [h0, hul]⟩
          -- without the end that was repeated
          have hR : SameShape pts (qk :: x :: u') := by
            refine hS.trans ?_
            rw [hu']
            have := (shape_rot (x :: (u' ++ [qk])) [x]).trans (shape_dup [] (u' ++ [qk]))
            refine this.trans ?_
            exact shape_rot (x :: u') [qk]
          rcases closeStep_exact (mid := mid) hf hb with e1 | ⟨e1, rfl⟩ | ⟨hne, hcol, g4⟩
          · rw [e1]
            exact ⟨_, h⟩
          · rw [e1]
            simp only
            refine ih mid (q1 :: u) (by simp at hl; omega) ⟨hmid, hul.symm, hmn, ?_⟩
            refine hS.trans ?_
            have h1 : SameShape (x :: (q1 :: u ++ [x])) (x :: (q1 :: u)) := by
              have := (shape_rot (x :: (q1 :: u)) [x]).trans (shape_dup [] (q1 :: u))
              exact this
            refine h1.trans ?_
            rw [hu']
            refine (shape_rot [x] (u' ++ [q1])).trans ?_
            rw [List.append_assoc]
            refine shape_drop u' [] ?_
            rw [List.nil_append]
            cases u' with
            | nil => exact onLine_back _ _
            | cons y u' =>
              rw [List.cons_append, List.cons.injEq] at hu'
              rw [List.headD_cons, ← hu'.1]
              exact onLine_back _ _
          · have hgn : (Edge.mk' qk q1).bottom ≠ (Edge.mk' qk q1).top := (wf_mk' hne.symm).ne
            obtain ⟨u'', rfl⟩ : ∃ u'', u' = q1 :: u'' := by
              cases u' with
              | nil => rw [List.nil_append, List.cons.injEq] at hu'; exact absurd hu'.1 hne
              | cons y u' => rw [List.cons_append, List.cons.injEq] at hu'; exact ⟨u', by rw [hu'.1]⟩
            have hR2 : SameShape pts (qk :: q1 :: u'') := hR.trans (SameShape.drop qk x (q1 :: u'') hcol)
            rcases g4 with g4 | g4 <;> rw [g4] <;> simp only
            · refine ih _ (qk :: q1 :: u) (by simp at hl ⊢; omega) ⟨⟨rfl, hmid⟩, ?_, ?_, ?_⟩
              · rw [List.getLast?_cons_cons, hul]; rfl
              · intro e he
                rcases List.mem_cons.1 he with rfl | he
                · exact hgn
                · exact hmn e he
              · refine hR2.trans ?_
                rw [hu']
                have := (shape_rot (qk :: q1 :: u'') [qk]).trans (shape_dup [] (q1 :: u''))
                exact this.symm
            · refine ih _ (q1 :: u ++ [q1]) (by simp at hl ⊢; omega) ⟨hmid.snoc q1 hul, ?_, ?_, ?_⟩
              · rw [List.getLast?_concat]; rfl
              · intro e he
                rcases List.mem_append.1 he with he | he
                · exact hmn e he
                · rw [List.mem_singleton] at he; subst he; exact hgn
              · refine hR2.trans ?_
                rw [hu']
                have h1 : SameShape (q1 :: u'' ++ [qk] ++ [q1]) (q1 :: (u'' ++ [qk])) :=
                  (shape_rot (q1 :: u'' ++ [qk]) [q1]).trans (shape_dup [] (u'' ++ [qk]))
                exact (shape_rot [qk] (q1 :: u'')).trans h1.symm

/-! ## The whole function -/

theorem shape_all {pts : List Point} {p : Point} (h : ∀ q ∈ pts, q = p) : SameShape pts [] := by
  cases pts with
  | nil => exact .refl _
  | cons a x =>
    have : a = p := h a (by simp)
    subst this
    have := shape_run x [] fun q hq => h q (by simp [hq])
    rw [List.append_nil] at this
    exact this.trans (.point a)

theorem shape_short {pts : List Point} (h : pts.length < 3) : SameShape pts [] := by
  match pts, h with
  | [], _ => exact .refl _
  | [a], _ => exact .point a
  | [a, b], _ => exact (SameShape.drop a b [] (onLine_back a b)).trans (.point a)
  | _ :: _ :: _ :: _, h => simp at h; omega

theorem start_shape {pts : List Point} (hn : 3 ≤ pts.length) {r : Nat} (hr1 : 1 ≤ r) (e2 : r ≤ pts.length - 1)
    (e4 : ∀ j, r < j → j ≤ pts.length - 1 → ringPt pts j = ringPt pts 0) : Sh pts [ringPt pts 0] 1 r [] := by
  refine ⟨trivial, ?_⟩
  have hne : pts ≠ [] := by rintro rfl; simp at hn
  have h1 : pts = ringPt pts 0 :: seg pts 1 r ++ seg pts (r + 1) (pts.length - 1) := by
    conv_lhs => rw [← seg_full hne, seg_cons (by omega) (by omega), seg_split (i := 0 + 1) (m := r) (by omega) e2 (by omega)]
    rfl
  have h2 : ∀ q ∈ seg pts (r + 1) (pts.length - 1), q = ringPt pts 0 := seg_all (by omega) (fun k h3 h4 => e4 k (by omega) h4) (by omega)
  rw [List.reverse_singleton, List.singleton_append]
  generalize ringPt pts 0 = p at *
  generalize seg pts (r + 1) (pts.length - 1) = t at *
  generalize seg pts 1 r = u at *
  rw [h1]
  refine (shape_rot (p :: u) t).trans ?_
  refine SameShape.trans ?_ (SameShape.trans (shape_run t u h2) (.refl _))
  -- the run before the point is the run after it
  have : t ++ p :: u = p :: t ++ u := by
    clear h1 e4 hne hn hr1 e2
    induction t with
    | nil => rfl
    | cons a t ih =>
      have ha : a = p := h2 a (by simp)
      subst ha
      rw [List.cons_append, ih fun q hq => h2 q (by simp [hq])]
      rfl
  rw [this]
  exact .refl _

theorem ringPt_all {pts : List Point} (h : ∀ k, k ≤ pts.length - 1 → ringPt pts k = ringPt pts 0) : ∀ q ∈ pts, q = ringPt pts 0 := by
  intro q hq
  obtain ⟨k, hk, rfl⟩ := List.getElem_of_mem hq
  rw [← h k (by omega)]
  unfold ringPt
  rw [List.getD_eq_getElem?_getD, List.getElem?_eq_getElem hk]; rfl

/-- What `LinearRing.edges` returns was made along a closed path of the shape of the ring. -/
theorem edgesOf_trace (pts : List Point) (fuel : Nat) (hf : 3 * pts.length + 3 ≤ fuel) {es : List Edge} (h : edgesOf fuel pts = .ok es) :
    ∃ vs, TInv pts vs es := by
  have hnes : ∀ e ∈ es, e.bottom ≠ e.top := by
    obtain ⟨es', h1, -, h3, -⟩ := C14_edges pts fuel hf
    rw [h] at h1
    cases h1
    exact fun e he => (h3 e he).2.2.1
  by_cases hn : 3 ≤ pts.length
  swap
  · rw [C14_few_points pts _ (by omega)] at h
    cases h
    exact ⟨_, TInv.nil (shape_short (by omega))⟩
  rw [edgesOf_eq hn] at h
  by_cases hall : ∃ k, k ≤ pts.length - 1 ∧ ringPt pts k ≠ ringPt pts 0
  · obtain ⟨r, e1, e2, e3, e4⟩ := edgesSkip_some (p0 := ringPt pts 0) (2 * pts.length + 1) (pts.length - 1) (by omega) (by omega) hall
    obtain ⟨hr1, hinv⟩ := edges_start_inv hn e2 e3 e4
    rw [e1] at h
    simp only at h
    have hsh := start_shape hn hr1 e2 e4
    change (match edgesLoop pts fuel (startState pts r) with
      | Except.error e => Except.error e
      | Except.ok (result, true) => Except.ok (closeLoop result.length result)
      | Except.ok (result, false) => Except.ok result) = _ at h
    split at h
    · cases h
    · next result hl =>
      cases h
      obtain ⟨w, h1, h2, h3⟩ := loop_shape fuel hinv hsh hl
      obtain ⟨acc, b, l1, l2, l3⟩ := edgesLoop_spec fuel hinv (by
        unfold EdgesState.measure startState
        simp only [List.length_nil]
        omega)
      rw [l1] at hl
      simp only [Except.ok.injEq, Prod.mk.injEq] at hl
      obtain ⟨rfl, -⟩ := hl
      have hacc : ∀ e ∈ acc.reverse, e.bottom ≠ e.top := by
        rcases l2 with ⟨rfl, -⟩ | ⟨-, -, -, k3, -⟩
        · simp
        · exact fun e he => (k3 e (by simpa using he)).1.ne
      have := h1.trace
      rw [List.reverse_reverse] at this
      exact closeLoop_shape _ _ _ (Nat.le_refl _) ⟨this, by simp [h2], hacc, h3⟩
    · next result hl =>
      cases h
      obtain ⟨w, h1, h2, h3⟩ := loop_shape fuel hinv hsh hl
      have := h1.trace
      rw [List.reverse_reverse] at this
      exact ⟨w.reverse, this, by simp [h2], hnes, h3⟩
  · have hsame : ∀ k, k ≤ pts.length - 1 → ringPt pts k = ringPt pts 0 := by
      intro k hk
      by_contra hh
      exact hall ⟨k, hk, hh⟩
    have ha := ringPt_all hsame
    have hnone := edgesSkip_none ha (2 * pts.length + 1) ((pts.length - 1 : Nat) : Int)
    rw [hsame _ (Nat.le_refl _), hnone] at h
    cases h
    exact ⟨_, TInv.nil (shape_all ha)⟩

end Wagyu
