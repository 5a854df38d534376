import Verif.Proofs.Via
import Verif.Proofs.TwoRun
import Verif.Spec.Winding

/-!
# Exchanging subject and clip
-/

namespace Wagyu

open Spec

/-- The bound as part of the other polygon. -/
def Bound.relabel (b : Bound) : Bound := { b with polygonKind := otherKind b.polygonKind }

def swapCfg (op : OperationKind) (sf cf : FillKind) : Cfg where
  κ := otherKind
  I _ _ := True
  op := op
  op' := op
  sf := sf
  sf' := cf
  cf := cf
  cf' := sf
  copy _ _ := trivial
  zero _ := trivial

theorem swapCfg_φ {op : OperationKind} {sf cf : FillKind} (b : Bound) : (swapCfg op sf cf).φ b = b.relabel := rfl

theorem other_eq (k l : PolygonKind) : (otherKind k = otherKind l) = (k = l) := by cases k <;> cases l <;> simp [otherKind]

theorem relabel_fill (b : Bound) (sf cf : FillKind) : b.relabel.fillKind cf sf = b.fillKind sf cf := by
  unfold Bound.fillKind Bound.relabel; cases b.polygonKind <;> rfl
theorem relabel_oppositeFill (b : Bound) (sf cf : FillKind) : b.relabel.oppositeFillKind cf sf = b.oppositeFillKind sf cf := by
  unfold Bound.oppositeFillKind Bound.relabel; cases b.polygonKind <;> rfl
theorem relabel_evenOdd (b : Bound) (sf cf : FillKind) : b.relabel.isEvenOddFillKind cf sf = b.isEvenOddFillKind sf cf := by
  unfold Bound.isEvenOddFillKind Bound.relabel; cases b.polygonKind <;> rfl
theorem relabel_evenOddAlt (b : Bound) (sf cf : FillKind) : b.relabel.isEvenOddAltFillKind cf sf = b.isEvenOddAltFillKind sf cf := by
  unfold Bound.isEvenOddAltFillKind Bound.relabel; cases b.polygonKind <;> rfl
theorem relabel_contributes (b : Bound) {op : OperationKind} (sf cf : FillKind) (h : op ≠ .difference) :
    b.relabel.isContributing op cf sf = b.isContributing op sf cf := by
  unfold Bound.isContributing
  rw [relabel_fill, relabel_oppositeFill]
  cases op with
  | difference => exact (h rfl).elim
  | _ => rfl
theorem relabel_cross (f s : Bound) (sf cf : FillKind) : crossWinding f.relabel s.relabel cf sf = crossWinding f s sf cf := by
  unfold crossWinding
  rw [relabel_evenOdd, relabel_evenOdd]
  have e : (f.relabel.polygonKind = s.relabel.polygonKind) = (f.polygonKind = s.polygonKind) := other_eq _ _
  by_cases h : f.polygonKind = s.polygonKind
  · rw [if_pos h, if_pos (e ▸ h)]; rfl
  · rw [if_neg h, if_neg (e ▸ h)]; rfl
theorem starts_other {op : OperationKind} (k l : PolygonKind) (a b : Int) (h : op ≠ .difference) : crossStarts op k a b = crossStarts op l a b := by
  cases op with
  | difference => exact (h rfl).elim
  | _ => rfl

section
variable {op : OperationKind} {sf cf : FillKind}

theorem via_findSameKind (k : PolygonKind) (l : List (Option Nat)) (acc : List Nat) :
    Via (swapCfg op sf cf) (findSameKind k l acc) (findSameKind (otherKind k) l acc) := by
  induction l generalizing acc with
  | nil => exact Via.ret _
  | cons b l ih =>
    rw [findSameKind, findSameKind]
    refine Via.bind inferInstance fun i => Via.getBound fun b _ => Via.ite (other_eq _ _) (Via.ret _) (ih _)

theorem swap_wind (i : Nat) : Via (swapCfg op sf cf) (setWindingCount i sf cf) (setWindingCount i cf sf) := by
  unfold setWindingCount
  refine Via.bind (by via) fun o => Via.bind (by via) fun b => Via.getBound fun bd _ => Via.ite rfl ?_ ?_
  · exact Via.modBound fun b _ => ⟨rfl, trivial⟩
  · refine Via.bind (by via) fun abl => Via.bind (via_findSameKind _ _ _) fun r => ?_
    obtain ⟨prev, between⟩ := r
    dsimp only
    rw [swapCfg_φ, relabel_evenOdd, relabel_evenOddAlt]
    refine Via.bind ?_ fun q => ?_
    · cases prev with
      | none => exact Via.ret _
      | some p => exact Via.getBound fun pd _ => Via.ite rfl (Via.ret _) (Via.ret _)
    · obtain ⟨wc, owc⟩ := q
      exact Via.getBounds fun bs _ => Via.modBound fun b _ => ⟨rfl, trivial⟩

theorem swap_meet (hop : op ≠ .difference) (p : Point) (a b : Nat) :
    Via (swapCfg op sf cf) (intersectBounds p op sf cf a b) (intersectBounds p op cf sf a b) := by
  unfold intersectBounds
  refine Via.getBound fun f _ => Via.getBound fun s _ => ?_
  simp only [swapCfg_φ, relabel_cross, relabel_fill, relabel_oppositeFill]
  rw [starts_other f.relabel.polygonKind f.polygonKind _ _ hop]
  have e : (f.relabel.polygonKind ≠ s.relabel.polygonKind) = (f.polygonKind ≠ s.polygonKind) := by
    show (¬ otherKind _ = otherKind _) = _
    rw [other_eq]
  simp only [e]
  refine Via.bind (Via.modBound fun b _ => ⟨rfl, trivial⟩) fun _ => Via.bind (Via.modBound fun b _ => ⟨rfl, trivial⟩) fun _ => ?_
  have h1 : f.relabel.ring = f.ring := rfl
  have h2 : s.relabel.ring = s.ring := rfl
  have h3 : f.relabel.side = f.side := rfl
  have h4 : s.relabel.side = s.side := rfl
  rw [h1, h2, h3, h4]
  via

instance swap_good [h : Fact (op ≠ .difference)] : (swapCfg op sf cf).Good where
  wind := swap_wind
  meet := swap_meet h.out
  contributes b _ := relabel_contributes b sf cf h.out

end

/-! ## Objects that hold the same rings, as the other polygon -/

theorem SameIn.link {x y : Bound} (h : SameIn y x) {o : Option Nat} :
    SameIn { y with maximumBound := o } { x with maximumBound := o } := by
  refine ⟨h.edges, fun hn => ?_⟩
  obtain ⟨h1, h2, h3, _⟩ := h.full hn
  exact ⟨h1, h2, h3, rfl⟩

theorem in_upd {f g : Nat → Bound} (h : ∀ b, SameIn (g b) (f b).relabel) {i : Nat} {x y : Bound} (hx : SameIn y x.relabel) (b : Nat) :
    SameIn (upd g i y b) (upd f i x b).relabel := by
  by_cases e : b = i
  · subst e; rw [upd_same, upd_same]; exact hx
  · rw [upd_ne _ _ e, upd_ne _ _ e]; exact h b

structure MSwap (m m' : Minimums) : Prop where
  values : m'.values = m.values
  nb : m'.nb = m.nb
  input : ∀ b, SameIn (m'.bounds b) (m.bounds b).relabel

theorem addLoop_swap (kind : PolygonKind) (fuel : Nat) (edges : List Edge) (first last : Option Nat) (m m' : Minimums) (h : MSwap m m') :
    (addLoop (otherKind kind) fuel edges first last m').2 = (addLoop kind fuel edges first last m).2
      ∧ MSwap (addLoop kind fuel edges first last m).1 (addLoop (otherKind kind) fuel edges first last m').1 := by
  induction fuel generalizing edges first last m m' with
  | zero => cases edges <;> exact ⟨rfl, h⟩
  | succ fuel ih =>
    unfold addLoop
    cases edges with
    | nil => exact ⟨rfl, h⟩
    | cons e es =>
      simp only
      split
      · exact ⟨rfl, h⟩
      · split
        · exact ⟨rfl, h⟩
        · split
          · split
            · exact ⟨rfl, h⟩
            · rw [h.nb]
              refine ih _ _ _ _ _ ⟨?_, rfl, fun b => ?_⟩
              · simp only [h.values]
              · have hB : ∀ (p q p' q' : Bound), p' = p.relabel → q' = q.relabel → ∀ b,
                    SameIn (upd (upd m'.bounds m.nb p') (m.nb + 1) q' b) (upd (upd m.bounds m.nb p) (m.nb + 1) q b).relabel := by
                  rintro p q _ _ rfl rfl
                  exact in_upd (in_upd h.input (SameInput.refl _).weak) (SameInput.refl _).weak
                simp only
                split
                · refine hB _ _ _ _ ?_ ?_ b <;> rfl
                · refine in_upd (hB _ _ _ _ ?_ ?_) (SameIn.link (hB _ _ _ _ ?_ ?_ _)) b <;> rfl
          · exact ⟨rfl, h⟩

theorem addLinearRing_swap (fuel : Nat) (m m' : Minimums) (ring : List Point) (kind : PolygonKind) (h : MSwap m m') :
    (m'.addLinearRing fuel ring (otherKind kind)).2 = (m.addLinearRing fuel ring kind).2
      ∧ MSwap (m.addLinearRing fuel ring kind).1 (m'.addLinearRing fuel ring (otherKind kind)).1 := by
  unfold Minimums.addLinearRing
  split
  · exact ⟨rfl, h⟩
  · exact ⟨rfl, h⟩
  · next e es he =>
    dsimp only
    obtain ⟨h1, h2⟩ := addLoop_swap kind (toEdgesStartingOnLocalMaximum (e :: es)).length
      (toEdgesStartingOnLocalMaximum (e :: es)) none none m m' h
    revert h1 h2
    generalize addLoop kind (toEdgesStartingOnLocalMaximum (e :: es)).length
      (toEdgesStartingOnLocalMaximum (e :: es)) none none m = r
    generalize addLoop (otherKind kind) (toEdgesStartingOnLocalMaximum (e :: es)).length
      (toEdgesStartingOnLocalMaximum (e :: es)) none none m' = r'
    intro h1 h2
    obtain ⟨n, r⟩ := r
    obtain ⟨n', r'⟩ := r'
    dsimp only at h1 h2
    subst h1
    rcases r' with e | ⟨f | f, l | l⟩
    · exact ⟨rfl, h2⟩
    · exact ⟨rfl, h2⟩
    · exact ⟨rfl, h2⟩
    · exact ⟨rfl, h2⟩
    · refine ⟨rfl, h2.values, h2.nb, fun b => ?_⟩
      exact in_upd (in_upd h2.input (SameIn.link (h2.input _))) (SameIn.link (in_upd h2.input (SameIn.link (h2.input _)) _)) b

structure WSwap (w w' : Wagyu) : Prop where
  min : MSwap w.minimums w'.minimums
  rev : w'.reverseOutput = w.reverseOutput
  edges : HasEdges w.minimums

theorem WSwap.polygon (fuel : Nat) (kind : PolygonKind) : ∀ (rings : Polygon) (w w' : Wagyu) (r : Bool), WSwap w w' →
    (w'.addPolygonFrom fuel r (otherKind kind) rings).2 = (w.addPolygonFrom fuel r kind rings).2
      ∧ WSwap (w.addPolygonFrom fuel r kind rings).1 (w'.addPolygonFrom fuel r (otherKind kind) rings).1 := by
  intro rings
  induction rings with
  | nil => intro w w' r h; exact ⟨rfl, h⟩
  | cons ring rings ih =>
    intro w w' r h
    have h1 := addLinearRing_swap fuel _ _ ring kind h.min
    have h2 := addLinearRing_edges fuel _ ring kind h.edges
    rw [Wagyu.addPolygonFrom, Wagyu.addPolygonFrom]
    unfold Wagyu.addLinearRing
    revert h1 h2
    generalize w.minimums.addLinearRing fuel ring kind = x
    generalize w'.minimums.addLinearRing fuel ring (otherKind kind) = x'
    intro h1 h2
    obtain ⟨m, x⟩ := x
    obtain ⟨m', x'⟩ := x'
    obtain ⟨h1, h3⟩ := h1
    dsimp only at h1 h2 h3
    subst h1
    rcases x' with e | b
    · exact ⟨rfl, h3, h.rev, h2⟩
    · exact ih _ _ _ ⟨h3, h.rev, h2⟩

theorem WSwap.execute (fuel : Nat) (w w' : Wagyu) {op : OperationKind} (hop : op ≠ .difference) (sf cf : FillKind) (h : WSwap w w') :
    (w'.execute fuel op cf sf).2 = (w.execute fuel op sf cf).2 := by
  unfold Wagyu.execute
  rw [h.min.values]
  split
  · rfl
  · have : Fact (op ≠ .difference) := ⟨hop⟩
    have via : runOperation w.minimums w.reverseOutput op cf sf ((St.init fuel w.minimums.bounds).via (swapCfg op sf cf))
        = (runOperation w.minimums w.reverseOutput op sf cf (St.init fuel w.minimums.bounds)).via (swapCfg op sf cf) := ((Via.runOperation (c := swapCfg op sf cf) w.minimums w.reverseOutput).sim (St.init fuel w.minimums.bounds) fun _ => trivial).1
    have key := two_runOperation (m := w.minimums) (m' := w'.minimums) (rev := w.reverseOutput) (op := op) (sf := cf) (cf := sf)
      (s := (St.init fuel w.minimums.bounds).via (swapCfg op sf cf)) (t := St.init fuel w'.minimums.bounds) h.min.values
      (fun v hv => (h.edges v hv).2.2) rfl h.min.input rfl
    rw [h.rev]
    unfold Two at key
    rw [via] at key
    revert key
    generalize runOperation w.minimums w.reverseOutput op sf cf (St.init fuel w.minimums.bounds) = x
    generalize runOperation w'.minimums w.reverseOutput op cf sf (St.init fuel w'.minimums.bounds) = y
    intro key
    cases x <;> cases y
    · exact congrArg Except.ok (Eq.symm key)
    · exact key.elim
    · exact key.elim
    · exact congrArg Except.error (Eq.symm key)

theorem WSwap.executed (fuel : Nat) (w w' : Wagyu) (op op' : OperationKind) (sf cf sf' cf' : FillKind) (h : WSwap w w') :
    WSwap (w.execute fuel op sf cf).1 (w'.execute fuel op' sf' cf').1 := by
  obtain ⟨h1, h2, h3, h4⟩ := execute_input fuel w op sf cf
  obtain ⟨i1, i2, i3, i4⟩ := execute_input fuel w' op' sf' cf'
  refine ⟨⟨i1.trans (h.min.values.trans h1.symm), i2.trans (h.min.nb.trans h2.symm), fun b => (h.min.input b).change (i4 b) ?_⟩,
    i3.trans (h.rev.trans h3.symm), fun v hv => ?_⟩
  · obtain ⟨j1, j2, j3, j4⟩ := h4 b
    exact ⟨j1, j2, congrArg otherKind j3, j4⟩
  · rw [h1] at hv
    rw [h2, (h4 _).edges, (h4 _).edges]
    exact h.edges v hv

end Wagyu
