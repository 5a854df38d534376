import Verif.Proofs.RingSteps

/-!
# What `intersect_bounds` does to the bounds
-/

namespace Wagyu

open Spec

theorem Closed2.of_same {s s1 s' : St} {a b : Nat} (h : Same s s1) (h' : Closed2 s1 s' a b) : Closed2 s s' a b := by
  obtain ⟨h1, h2, h3, h4, h5⟩ := h'
  refine ⟨h.frame.trans h1, h2.trans h.nr, h3, h4, ?_⟩
  have hr : ∀ c, (s1.bounds c).ring = (s.bounds c).ring := fun c => core_ring (h.core c)
  have hs : ∀ c, (s1.bounds c).side = (s.bounds c).side := fun c => core_side (h.core c)
  simp only [h.core, hr, hs, h.abl] at h5
  exact h5

theorem addLocalMaximumPoint_ok (s : St) (p : Point) {a b : Nat} (hab : a ≠ b) (ha : (s.bounds a).ring.isSome)
    (hb : (s.bounds b).ring.isSome) : Ok (addLocalMaximumPoint p a b) s fun _ s' => Closed2 s s' a b := by
  unfold addLocalMaximumPoint
  refine Ok.same fun _ s1 hs1 => ?_
  have ha1 : (s1.bounds a).ring = (s.bounds a).ring := core_ring (hs1.core a)
  refine Post.bind ((addPoint_same (by rw [ha1]; exact ha)).imp fun _ s2 hs2 => ?_)
  have hs := hs1.trans hs2
  have ha2 : (s2.bounds a).ring = (s.bounds a).ring := core_ring (hs.core a)
  have hb2 : (s2.bounds b).ring = (s.bounds b).ring := core_ring (hs.core b)
  refine Post.bind (Post.getBound (Post.bind (Post.getBound ?_)))
  refine Post.ite (fun e => ?_) fun e => ?_
  · refine Post.bind (Post.modBound (Post.modBound ?_))
    refine Closed2.of_same hs ?_
    have hc : ∀ c, core (upd (upd s2.bounds a { s2.bounds a with ring := none }) b
        { upd s2.bounds a { s2.bounds a with ring := none } b with ring := none } c)
        = if c = a ∨ c = b then { core (s2.bounds c) with ring := none } else core (s2.bounds c) := by
      intro c
      simp only [upd]
      by_cases e : c = b
      · subst e; simp [hab.symm, core]
      · by_cases e' : c = a
        · subst e'; simp [hab, core]
        · simp [e, e']
    refine ⟨⟨rfl, le_refl _, fun c => ?_⟩, rfl, ?_, ?_, Or.inl ⟨e, fun c h1 h2 => ?_⟩⟩
    · have := hc c
      split at this
      · exact frame_core (sd := (s2.bounds c).side) this
      · exact frame_core (r := (s2.bounds c).ring) (sd := (s2.bounds c).side) this
    · have := hc a
      rw [if_pos (Or.inl rfl)] at this
      exact congrArg Core.ring this
    · have := hc b
      rw [if_pos (Or.inr rfl)] at this
      exact congrArg Core.ring this
    · have := hc c
      rw [if_neg (by push Not; exact ⟨h1, h2⟩)] at this
      exact this
  · obtain ⟨ra, era⟩ := Option.isSome_iff_exists.1 (ha2 ▸ ha)
    obtain ⟨rb, erb⟩ := Option.isSome_iff_exists.1 (hb2 ▸ hb)
    have hne : ra ≠ rb := by rintro rfl; exact e (era.trans erb.symm)
    rw [era, erb]
    refine Post.bind (Post.pure (Post.bind (Post.pure ?_)))
    have swap : ∀ s', Closed2 s2 s' b a → Closed2 s2 s' a b := by
      rintro s' ⟨h1, h2, h3, h4, h5⟩
      refine ⟨h1, h2, h4, h3, ?_⟩
      rcases h5 with ⟨h, h'⟩ | ⟨k, r, keep, remove, hk, hr, hn, hkr, h⟩
      · exact Or.inl ⟨h.symm, fun c h1 h2 => h' c h2 h1⟩
      · refine Or.inr ⟨k, r, keep, remove, hk, hr, hn, hkr.symm, ?_⟩
        rcases h with ⟨d, h1, h2, h3, h4, h5, h6, h7⟩ | ⟨h1, h2⟩
        · exact Or.inl ⟨d, h1, h3, h2, h4, h5, h6, fun c h1 h2 => h7 c h2 h1⟩
        · exact Or.inr ⟨fun d hd h h' => h1 d hd h' h, fun c h h' => h2 c h' h⟩
    refine Post.ite (fun _ => ?_) fun _ => ?_
    · exact (appendRing_ok s2 hab era erb hne).imp fun _ s' h => Closed2.of_same hs h
    · exact (appendRing_ok s2 hab.symm erb era hne.symm).imp fun _ s' h => Closed2.of_same hs (swap s' h)

/-- What a crossing, an opening or a closing does to rings and sides. -/
inductive RStep (s s' : St) (a b : Nat) : Prop
  | same : Same s s' → RStep s s' a b
  | sides : Frame s s' → s'.nr = s.nr → (s.bounds a).ring = none → (s.bounds b).ring = none →
      (∀ c, (s'.bounds c).ring = (s.bounds c).ring) →
      (∀ c, c ≠ a → c ≠ b → core (s'.bounds c) = core (s.bounds c)) → RStep s s' a b
  | exch : Exchanged s s' a b → RStep s s' a b
  | opened : (s.bounds a).ring = none → (s.bounds b).ring = none → Opened s s' a b → RStep s s' a b
  | closed : (s.bounds a).ring.isSome → (s.bounds b).ring.isSome → Closed2 s s' a b → RStep s s' a b

theorem RStep.frame {s s' : St} {a b : Nat} (h : RStep s s' a b) : Frame s s' := by
  cases h with
  | same h => exact h.frame
  | sides h => exact h
  | exch h => exact h.frame
  | opened _ _ h => exact h.frame
  | closed _ _ h => exact h.frame

theorem RStep.isSome {s s' : St} {a b : Nat} (h : RStep s s' a b) (c : Nat) (ha : c ≠ a) (hb : c ≠ b) :
    (s'.bounds c).ring.isSome = (s.bounds c).ring.isSome := by
  cases h with
  | same h => rw [core_ring (h.core c)]
  | sides _ _ _ _ h _ => rw [h c]
  | exch h => rw [core_ring (h.rest c ha hb)]
  | opened _ _ h => rw [core_ring (h.rest c ha hb)]
  | closed _ _ h =>
    rcases h.rest with ⟨_, h⟩ | ⟨k, r, keep, remove, _, _, _, _, ⟨d, _, _, _, h4, h5, _, h7⟩ | ⟨_, h⟩⟩
    · rw [core_ring (h c ha hb)]
    · by_cases e : c = d
      · rw [e, h4, h5]; rfl
      · rw [core_ring (h7 c ha hb e)]
    · rw [core_ring (h c ha hb)]

theorem Exchanged.of_same {s s1 s' : St} {a b : Nat} (h : Same s s1) (h' : Exchanged s1 s' a b) : Exchanged s s' a b := by
  obtain ⟨h1, h2, h3, h4, h5, h6, h7⟩ := h'
  have hr : ∀ c, (s1.bounds c).ring = (s.bounds c).ring := fun c => core_ring (h.core c)
  have hs : ∀ c, (s1.bounds c).side = (s.bounds c).side := fun c => core_side (h.core c)
  simp only [h.core, hr, hs] at h3 h4 h5 h6 h7
  exact ⟨h.frame.trans h1, h2.trans h.nr, h3, h4, h5, h6, h7⟩

/-- The state after the winding counts have been updated. -/
def crossedWinding (s : St) (sf cf : FillKind) (a b : Nat) : St :=
  let q := crossWinding (s.bounds a) (s.bounds b) sf cf
  let f1 := upd s.bounds a { s.bounds a with windingCount := q.1, oppositeWindingCount := q.2.1 }
  { s with bounds := upd f1 b { f1 b with windingCount := q.2.2.1, oppositeWindingCount := q.2.2.2 } }

theorem crossedWinding_core (s : St) (sf cf : FillKind) {a b : Nat} (hab : a ≠ b) (c : Nat) :
    core ((crossedWinding s sf cf a b).bounds c)
      = if c = a then { core (s.bounds a) with
          windingCount := (crossWinding (s.bounds a) (s.bounds b) sf cf).1
          oppositeWindingCount := (crossWinding (s.bounds a) (s.bounds b) sf cf).2.1 }
        else if c = b then { core (s.bounds b) with
          windingCount := (crossWinding (s.bounds a) (s.bounds b) sf cf).2.2.1
          oppositeWindingCount := (crossWinding (s.bounds a) (s.bounds b) sf cf).2.2.2 }
        else core (s.bounds c) := by
  simp only [crossedWinding, upd]
  by_cases e : c = b
  · subst e; simp [hab.symm, core]
  · by_cases e' : c = a
    · subst e'; simp [hab, core]
    · simp [e, e']

/-- Which of the two bounds carry a ring afterwards, computed as in the code. -/
def crossedOut (s : St) (op : OperationKind) (sf cf : FillKind) (a b : Nat) : Bool × Bool :=
  let f := s.bounds a
  let g := s.bounds b
  let q := crossWinding f g sf cf
  crossOut op f.polygonKind g.polygonKind (normWinding (f.fillKind sf cf) q.1) (normWinding (g.fillKind sf cf) q.2.2.1)
    (normWinding (f.oppositeFillKind sf cf) q.2.1) (normWinding (g.oppositeFillKind sf cf) q.2.2.2)
    f.ring.isSome g.ring.isSome

theorem intersectBounds_ok (s : St) (p : Point) (op : OperationKind) (sf cf : FillKind) {a b : Nat} (hab : a ≠ b) :
    Ok (intersectBounds p op sf cf a b) s fun _ s' => RStep (crossedWinding s sf cf a b) s' a b
      ∧ ((s'.bounds a).ring.isSome, (s'.bounds b).ring.isSome) = crossedOut s op sf cf a b := by
  unfold intersectBounds
  refine Post.bind (Post.getBound (Post.bind (Post.getBound ?_)))
  dsimp only
  have hcr := crossedWinding_core s sf cf hab
  obtain ⟨t, ht⟩ : ∃ t, t = crossedWinding s sf cf a b := ⟨_, rfl⟩
  rw [← ht] at hcr ⊢
  unfold crossedWinding at ht
  unfold crossedOut crossOut
  revert hcr ht
  dsimp only
  generalize crossWinding (s.bounds a) (s.bounds b) sf cf = q
  obtain ⟨fwc, fowc, swc, sowc⟩ := q
  intro hcr ht
  dsimp only at hcr ⊢
  refine Post.bind (Post.modBound (Post.bind (Post.modBound ?_)))
  dsimp only at ht ⊢
  rw [← ht]
  have hra : (t.bounds a).ring = (s.bounds a).ring := by
    have := congrArg Core.ring (hcr a); rw [if_pos rfl] at this; exact this
  have hrb : (t.bounds b).ring = (s.bounds b).ring := by
    have := congrArg Core.ring (hcr b); rw [if_neg hab.symm, if_pos rfl] at this; exact this
  rw [← hra, ← hrb]
  generalize (s.bounds a).polygonKind = fk
  generalize (s.bounds b).polygonKind = sk
  generalize normWinding ((s.bounds a).fillKind sf cf) fwc = fw
  generalize normWinding ((s.bounds b).fillKind sf cf) swc = sw
  generalize normWinding ((s.bounds a).oppositeFillKind sf cf) fowc = fo
  generalize normWinding ((s.bounds b).oppositeFillKind sf cf) sowc = so
  refine Post.ite (fun hc => ?_) fun hc => ?_
  · rw [if_pos hc]
    rw [Bool.and_eq_true] at hc
    refine Post.ite (fun h1 => ?_) fun h1 => ?_
    · rw [if_pos h1]
      refine (addLocalMaximumPoint_ok t p hab hc.1 hc.2).imp fun _ s' h => ⟨.closed hc.1 hc.2 h, ?_⟩
      rw [h.fst, h.snd]; rfl
    · rw [if_neg h1]
      refine Post.bind ((addPoint_same hc.1).imp fun _ s2 hs2 => ?_)
      refine Post.bind ((addPoint_same (by rw [core_ring (hs2.core b)]; exact hc.2)).imp fun _ s3 hs3 => ?_)
      refine (swapRings_ok s3 hab).imp fun _ s' h => ?_
      have h := h.of_same (hs2.trans hs3)
      refine ⟨.exch h, ?_⟩
      rw [h.fst, h.snd, hc.1, hc.2]
  · rw [if_neg hc]
    refine Post.ite (fun h1 => ?_) fun h1 => ?_
    · rw [if_pos h1]
      have h2 : (t.bounds b).ring.isSome = false := by
        cases hh : (t.bounds b).ring.isSome
        · rfl
        · rw [h1, hh] at hc; simp at hc
      refine Post.ite (fun h3 => ?_) fun h3 => ?_
      · rw [if_pos h3]
        refine Post.bind ((addPoint_same h1).imp fun _ s2 hs2 => ?_)
        refine Ok.same fun _ s3 hs3 => ?_
        refine (swapRings_ok s3 hab).imp fun _ s' h => ?_
        have h := h.of_same (hs2.trans hs3)
        refine ⟨.exch h, ?_⟩
        rw [h.fst, h.snd, h1, h2]
      · rw [if_neg h3]
        refine Post.pure ⟨.same (Preo.refl _), ?_⟩
        rw [h1, h2]
    · rw [if_neg h1]
      have h1 : (t.bounds a).ring.isSome = false := by simpa using h1
      refine Post.ite (fun h2 => ?_) fun h2 => ?_
      · rw [if_pos h2]
        refine Post.ite (fun h3 => ?_) fun h3 => ?_
        · rw [if_pos h3]
          refine Ok.same fun _ s2 hs2 => ?_
          refine Post.bind ((addPoint_same (by rw [core_ring (hs2.core b)]; exact h2)).imp fun _ s3 hs3 => ?_)
          refine (swapRings_ok s3 hab).imp fun _ s' h => ?_
          have h := h.of_same (hs2.trans hs3)
          refine ⟨.exch h, ?_⟩
          rw [h.fst, h.snd, h1, h2]
        · rw [if_neg h3]
          refine Post.pure ⟨.same (Preo.refl _), ?_⟩
          rw [h1, h2]
      · rw [if_neg h2]
        have h2 : (t.bounds b).ring.isSome = false := by simpa using h2
        have na : (t.bounds a).ring = none := by simpa using h1
        have nb : (t.bounds b).ring = none := by simpa using h2
        refine Post.ite (fun h3 => ?_) fun h3 => ?_
        · rw [if_pos h3]
          refine Post.ite (fun h4 => ?_) fun h4 => ?_
          · rw [if_pos h4]
            refine (addLocalMinimumPoint_ok t p hab na nb).imp fun _ s' h => ⟨.opened na nb h, ?_⟩
            rw [h.fst, h.snd]; rfl
          · rw [if_neg h4]
            refine Post.ite (fun h5 => ?_) fun h5 => ?_
            · rw [if_pos h5]
              refine Post.ite (fun h6 => ?_) fun h6 => ?_
              · rw [if_pos h6]
                refine (addLocalMinimumPoint_ok t p hab na nb).imp fun _ s' h => ⟨.opened na nb h, ?_⟩
                rw [h.fst, h.snd]; rfl
              · rw [if_neg h6]
                refine Post.pure ⟨.same (Preo.refl _), ?_⟩
                rw [h1, h2]
            · rw [if_neg h5]
              refine Post.bind (Post.modBound (Post.modBound ?_))
              have hc4 : ∀ c, core (upd (upd t.bounds a { t.bounds a with side := (s.bounds b).side }) b
                  { upd t.bounds a { t.bounds a with side := (s.bounds b).side } b with side := (s.bounds a).side } c)
                  = if c = a then { core (t.bounds a) with side := (s.bounds b).side }
                    else if c = b then { core (t.bounds b) with side := (s.bounds a).side } else core (t.bounds c) := by
                intro c
                simp only [upd]
                by_cases e : c = b
                · subst e; simp [hab.symm, core]
                · by_cases e' : c = a
                  · subst e'; simp [hab, core]
                  · simp [e, e']
              have hr4 : ∀ c, (upd (upd t.bounds a { t.bounds a with side := (s.bounds b).side }) b
                  { upd t.bounds a { t.bounds a with side := (s.bounds b).side } b with side := (s.bounds a).side } c).ring
                  = (t.bounds c).ring := by
                intro c
                have := congrArg Core.ring (hc4 c)
                split at this
                · next e => subst e; exact this
                · split at this
                  · next e => subst e; exact this
                  · exact this
              refine ⟨.sides ⟨rfl, le_refl _, fun c => ?_⟩ rfl na nb hr4 fun c e1 e2 => ?_, ?_⟩
              · have := hc4 c
                split at this
                · next e => subst e; exact frame_core (r := (t.bounds c).ring) this
                · split at this
                  · next e => subst e; exact frame_core (r := (t.bounds c).ring) this
                  · exact frame_core (r := (t.bounds c).ring) (sd := (t.bounds c).side) this
              · have := hc4 c
                rw [if_neg e1, if_neg e2] at this
                exact this
              · show ((upd _ _ _ a : Bound).ring.isSome, (upd _ _ _ b : Bound).ring.isSome) = _
                rw [hr4, hr4, na, nb]; rfl
        · rw [if_neg h3]
          refine Post.pure ⟨.same (Preo.refl _), ?_⟩
          rw [h1, h2]

end Wagyu
