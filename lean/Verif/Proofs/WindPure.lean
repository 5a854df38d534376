import Verif.Spec.Winding
import Verif.Model.Sweep
import Mathlib.Algebra.Group.Basic
import Mathlib.Algebra.Order.Ring.Int
import Mathlib.Data.List.Induction

/-!
# Winding counts along a list of bounds
-/

namespace Wagyu

open Spec

/-- Winding numbers of both polygons. -/
abbrev Wind := PolygonKind → Int

/-- The winding numbers right of `b`, `w` being those left of it. -/
def Wind.add (w : Wind) (b : Bound) : Wind := fun k => if b.polygonKind = k then w k + b.windingDelta else w k

/-- The result right of the winding numbers `w`. -/
def res (op : OperationKind) (sf cf : FillKind) (w : Wind) : Bool :=
  combine op (filled sf (w .subject)) (filled cf (w .clip))

structure WOk (sf cf : FillKind) (w : Wind) (b : Bound) : Prop where
  unit : b.windingDelta = 1 ∨ b.windingDelta = -1
  own : fillOf sf cf b.polygonKind ≠ .evenOdd →
    b.windingCount = largerAbs (w b.polygonKind) (w b.polygonKind + b.windingDelta)
  ownEvenOdd : fillOf sf cf b.polygonKind = .evenOdd → b.windingCount = 1 ∨ b.windingCount = -1
  other : fillOf sf cf (otherKind b.polygonKind) ≠ .evenOdd →
    b.oppositeWindingCount = w (otherKind b.polygonKind)
  otherEvenOdd : fillOf sf cf (otherKind b.polygonKind) = .evenOdd →
    b.oppositeWindingCount = w (otherKind b.polygonKind) % 2

def COk (op : OperationKind) (sf cf : FillKind) (w : Wind) (b : Bound) : Prop :=
  b.ring.isSome = true ↔ res op sf cf w ≠ res op sf cf (w.add b)

/-- Both hold for all bounds of a list. -/
def AllOk (op : OperationKind) (sf cf : FillKind) : Wind → List Bound → Prop
  | _, [] => True
  | w, b :: bs => WOk sf cf w b ∧ COk op sf cf w b ∧ AllOk op sf cf (w.add b) bs

def addAll (w : Wind) (bs : List Bound) : Wind := bs.foldl Wind.add w

section
variable {op : OperationKind} {sf cf : FillKind} {w : Wind}

theorem allOk_append (as bs : List Bound) :
    AllOk op sf cf w (as ++ bs) ↔ AllOk op sf cf w as ∧ AllOk op sf cf (addAll w as) bs := by
  induction as generalizing w with
  | nil => simp [AllOk, addAll]
  | cons a as ih => simp [AllOk, addAll, ih, and_assoc]

theorem addAll_apply (bs : List Bound) (k : PolygonKind) : addAll w bs k = w k + windingAfter bs k := by
  induction bs generalizing w with
  | nil => simp [addAll, windingAfter]
  | cons b bs ih =>
    show addAll (w.add b) bs k = _
    rw [ih]
    by_cases h : b.polygonKind = k <;> simp [Wind.add, windingAfter, h, add_assoc]

theorem addAll_zero (bs : List Bound) : addAll (fun _ => 0) bs = windingAfter bs := by
  funext k; rw [addAll_apply]; simp

theorem windingAfter_append (as bs : List Bound) (k : PolygonKind) :
    windingAfter (as ++ bs) k = windingAfter as k + windingAfter bs k := by
  simp [windingAfter]

theorem windingAfter_snoc (as : List Bound) (b : Bound) : windingAfter (as ++ [b]) = (Wind.add (windingAfter as) b) := by
  funext k
  by_cases h : b.polygonKind = k <;> simp [Wind.add, windingAfter, h]

theorem inResult_eq (bs : List Bound) : inResult op sf cf bs = res op sf cf (windingAfter bs) := rfl

theorem WOk.iff (before : List Bound) (b : Bound) :
    WOk sf cf (windingAfter before) b ↔ (b.windingDelta = 1 ∨ b.windingDelta = -1) ∧ WindingRight sf cf before b := by
  have hs : windingAfter (before ++ [b]) b.polygonKind = windingAfter before b.polygonKind + b.windingDelta := by
    rw [windingAfter_snoc]; simp [Wind.add]
  constructor
  · intro h
    exact ⟨h.unit, fun ho => by rw [h.own ho, hs], h.ownEvenOdd, h.other, h.otherEvenOdd⟩
  · rintro ⟨hu, h⟩
    exact ⟨hu, fun ho => by rw [h.own ho, hs], h.ownEvenOdd, h.other, h.otherEvenOdd⟩

theorem COk.iff (before : List Bound) (b : Bound) :
    COk op sf cf (windingAfter before) b ↔ OutputRight op sf cf before b := by
  unfold COk OutputRight
  rw [inResult_eq, inResult_eq, windingAfter_snoc]

theorem allOk_iff (bs : List Bound) : AllOk op sf cf (fun _ => 0) bs ↔
    ∀ pre b post, bs = pre ++ b :: post →
      (b.windingDelta = 1 ∨ b.windingDelta = -1) ∧ WindingRight sf cf pre b ∧ OutputRight op sf cf pre b := by
  constructor
  · rintro h pre b post rfl
    rw [allOk_append, addAll_zero] at h
    obtain ⟨-, h1, h2, -⟩ := h
    have := (WOk.iff pre b).1 h1
    exact ⟨this.1, this.2, (COk.iff pre b).1 h2⟩
  · intro h
    induction bs using List.reverseRecOn with
    | nil => trivial
    | append_singleton as b ih =>
      rw [allOk_append, addAll_zero]
      refine ⟨ih fun pre c post e => h pre c (post ++ [b]) (by simp [e]), ?_⟩
      obtain ⟨h1, h2, h3⟩ := h as b [] rfl
      exact ⟨(WOk.iff as b).2 ⟨h1, h2⟩, (COk.iff as b).2 h3, trivial⟩

/-! ## What the tests of the code mean -/

theorem fillKind_eq (b : Bound) : b.fillKind sf cf = fillOf sf cf b.polygonKind := by
  cases h : b.polygonKind <;> simp [Bound.fillKind, h, fillOf]
theorem oppositeFillKind_eq (b : Bound) : b.oppositeFillKind sf cf = fillOf sf cf (otherKind b.polygonKind) := by
  cases h : b.polygonKind <;> simp [Bound.oppositeFillKind, h, fillOf, otherKind]
theorem evenOdd_eq (b : Bound) : b.isEvenOddFillKind sf cf = decide (fillOf sf cf b.polygonKind = .evenOdd) := by
  cases h : b.polygonKind <;> simp [Bound.isEvenOddFillKind, h, fillOf] <;> congr
theorem evenOddAlt_eq (b : Bound) :
    b.isEvenOddAltFillKind sf cf = decide (fillOf sf cf (otherKind b.polygonKind) = .evenOdd) := by
  cases h : b.polygonKind <;> simp [Bound.isEvenOddAltFillKind, h, fillOf, otherKind] <;> congr

/-- Does the bound separate inside from outside of its own polygon? -/
def Sep (sf cf : FillKind) (w : Wind) (b : Bound) : Prop :=
  filled (fillOf sf cf b.polygonKind) (w b.polygonKind)
    ≠ filled (fillOf sf cf b.polygonKind) (w b.polygonKind + b.windingDelta)

theorem WOk.sep {b : Bound} (h : WOk sf cf w b) :
    (normWinding (b.fillKind sf cf) b.windingCount = 1) ↔ Sep sf cf w b := by
  have hu := h.unit
  unfold Sep
  rw [fillKind_eq]
  cases hf : fillOf sf cf b.polygonKind with
  | evenOdd =>
    have := h.ownEvenOdd hf
    simp only [normWinding, filled, ne_eq, decide_eq_decide]
    omega
  | nonZero | positive | negative =>
    have := h.own (by simp [hf])
    rw [this]
    simp only [normWinding, filled, ne_eq, largerAbs, decide_eq_decide]
    split <;> omega

theorem WOk.zeroOrOne {b : Bound} (h : WOk sf cf w b) :
    zeroOrOne (normWinding (b.fillKind sf cf) b.windingCount) = true
      ↔ normWinding (b.fillKind sf cf) b.windingCount = 1 := by
  have hu := h.unit
  rw [fillKind_eq]
  simp only [Wagyu.zeroOrOne, Bool.or_eq_true, decide_eq_true_eq]
  cases hf : fillOf sf cf b.polygonKind with
  | evenOdd =>
    have := h.ownEvenOdd hf
    simp only [normWinding]
    omega
  | nonZero | positive | negative =>
    have := h.own (by simp [hf])
    rw [this]
    simp only [normWinding, largerAbs]
    split <;> omega

theorem WOk.inside {b : Bound} (h : WOk sf cf w b) :
    normWinding (b.oppositeFillKind sf cf) b.oppositeWindingCount > 0
      ↔ filled (fillOf sf cf (otherKind b.polygonKind)) (w (otherKind b.polygonKind)) = true := by
  rw [oppositeFillKind_eq]
  cases hf : fillOf sf cf (otherKind b.polygonKind) with
  | evenOdd =>
    have := h.otherEvenOdd hf
    simp only [normWinding, filled, decide_eq_true_eq]
    omega
  | nonZero | positive | negative =>
    have := h.other (by simp [hf])
    rw [this]
    simp only [normWinding, filled, decide_eq_true_eq]
    try omega

/-- Does being inside the other polygon, or not, make a change of a polygon of kind `k` a change of the result? -/
def sens (op : OperationKind) (k : PolygonKind) (ins : Bool) : Bool :=
  match op with
  | .intersection => ins
  | .union => !ins
  | .difference => if k = .subject then !ins else ins
  | .xor => true

theorem contributing_iff {b : Bound} (h : fillOf sf cf b.polygonKind = .evenOdd → b.windingCount = 1 ∨ b.windingCount = -1) :
    b.isContributing op sf cf = true ↔ normWinding (b.fillKind sf cf) b.windingCount = 1
      ∧ sens op b.polygonKind (decide (normWinding (b.oppositeFillKind sf cf) b.oppositeWindingCount > 0)) = true := by
  have kin : ∀ (f2 : FillKind) (o : Int), Bound.insideOpposite f2 o = decide (normWinding f2 o > 0) := by
    intro f2 o
    rw [Bool.eq_iff_iff, decide_eq_true_eq]
    cases f2 <;> simp only [Bound.insideOpposite, normWinding, decide_eq_true_eq] <;> omega
  have kout : ∀ (f2 : FillKind) (o : Int), Bound.outsideOpposite f2 o = !decide (normWinding f2 o > 0) := by
    intro f2 o
    rw [Bool.eq_iff_iff, Bool.not_eq_true', decide_eq_false_iff_not]
    cases f2 <;> simp only [Bound.outsideOpposite, normWinding, decide_eq_true_eq] <;> omega
  unfold Bound.isContributing
  rw [← fillKind_eq] at h
  simp only [kin, kout]
  generalize hi : decide (normWinding (b.oppositeFillKind sf cf) b.oppositeWindingCount > 0) = ins
  clear hi
  change (if (_ : Bool) = false then false else sens op b.polygonKind ins) = true ↔ _
  cases hf : b.fillKind sf cf with
  | evenOdd =>
    have := h hf
    have h1 : normWinding .evenOdd b.windingCount = 1 := by simp only [normWinding]; omega
    simp [h1]
  | nonZero | positive | negative =>
    simp only [normWinding, decide_eq_false_iff_not]
    split
    · simp only [Bool.false_eq_true, false_iff, not_and]; intro h'; omega
    · simp only [iff_and_self]; intro _; omega

theorem res_ne_iff {b : Bound} :
    res op sf cf w ≠ res op sf cf (w.add b) ↔ Sep sf cf w b
      ∧ sens op b.polygonKind (filled (fillOf sf cf (otherKind b.polygonKind)) (w (otherKind b.polygonKind))) = true := by
  unfold res Wind.add Sep
  cases hk : b.polygonKind <;> simp only [fillOf, otherKind, reduceCtorEq, if_true, if_false]
  · generalize filled sf (w .subject) = x
    generalize filled sf (w .subject + b.windingDelta) = x'
    generalize filled cf (w .clip) = y
    cases op <;> revert x x' y <;> decide
  · generalize filled sf (w .subject) = x
    generalize filled cf (w .clip + b.windingDelta) = x'
    generalize filled cf (w .clip) = y
    cases op <;> revert x x' y <;> decide

theorem WOk.insideB {b : Bound} (h : WOk sf cf w b) :
    decide (normWinding (b.oppositeFillKind sf cf) b.oppositeWindingCount > 0)
      = filled (fillOf sf cf (otherKind b.polygonKind)) (w (otherKind b.polygonKind)) := by
  rw [Bool.eq_iff_iff, decide_eq_true_eq]
  exact h.inside

theorem WOk.contributing {b : Bound} (h : WOk sf cf w b) :
    b.isContributing op sf cf = true ↔ res op sf cf w ≠ res op sf cf (w.add b) := by
  rw [contributing_iff h.ownEvenOdd, res_ne_iff, h.sep, h.insideB]

/-! ## Crossings -/

theorem Wind.add_comm (w : Wind) (a b : Bound) : (w.add a).add b = (w.add b).add a := by
  funext k
  simp only [Wind.add]
  split <;> split <;> omega

theorem Wind.add_congr (w : Wind) {a b : Bound} (hk : a.polygonKind = b.polygonKind) (hd : a.windingDelta = b.windingDelta) :
    w.add a = w.add b := by
  funext k; simp only [Wind.add, hk, hd]

theorem cross_wok {a b a' b' : Bound} (ha : WOk sf cf w a) (hb : WOk sf cf (w.add a) b)
    (ka : a'.polygonKind = a.polygonKind) (da : a'.windingDelta = a.windingDelta)
    (kb : b'.polygonKind = b.polygonKind) (db : b'.windingDelta = b.windingDelta)
    (h : (a'.windingCount, a'.oppositeWindingCount, b'.windingCount, b'.oppositeWindingCount) = crossWinding a b sf cf) :
    WOk sf cf w b' ∧ WOk sf cf (w.add b') a' := by
  rw [Wind.add_congr w kb db]
  unfold crossWinding at h
  rw [evenOdd_eq, evenOdd_eq] at h
  have ua := ha.unit
  have ub := hb.unit
  by_cases hk : a.polygonKind = b.polygonKind
  · have hko : b.polygonKind ≠ otherKind b.polygonKind := by cases b.polygonKind <;> simp [otherKind]
    have a1 := ha.own; have a2 := ha.ownEvenOdd; have a3 := ha.other; have a4 := ha.otherEvenOdd
    have b1 := hb.own; have b2 := hb.ownEvenOdd; have b3 := hb.other; have b4 := hb.otherEvenOdd
    simp only [Wind.add, hk, hko, if_true, if_false] at a1 a2 a3 a4 b1 b2 b3 b4 h
    by_cases he : fillOf sf cf b.polygonKind = .evenOdd
    · simp only [he, decide_true, if_true, Prod.mk.injEq] at h
      obtain ⟨h1, h2, h3, h4⟩ := h
      constructor
      · exact ⟨by rw [db]; exact ub, by rw [kb]; exact fun hn => absurd he hn, by rw [kb, h3]; exact a2,
          by rw [kb, h4]; exact b3, by rw [kb, h4]; exact b4⟩
      · refine ⟨by rw [da]; exact ua, by rw [ka, hk]; exact fun hn => absurd he hn, by rw [ka, hk, h1]; exact b2, ?_, ?_⟩
        · rw [ka, hk, h2]; simp only [Wind.add, hko, if_false]; exact a3
        · rw [ka, hk, h2]; simp only [Wind.add, hko, if_false]; exact a4
    · simp only [he, decide_false, Bool.false_eq_true, if_false, Prod.mk.injEq] at h
      obtain ⟨h1, h2, h3, h4⟩ := h
      have a1 := a1 he
      have b1 := b1 he
      constructor
      · refine ⟨by rw [db]; exact ub, fun _ => ?_, by rw [kb]; exact fun hn => absurd hn he,
          by rw [kb, h4]; exact b3, by rw [kb, h4]; exact b4⟩
        rw [kb, db, h3]
        clear a2 a3 a4 b2 b3 b4 h1 h2 h3 h4
        unfold largerAbs at *
        split at b1 <;> split <;> split <;> omega
      · refine ⟨by rw [da]; exact ua, fun _ => ?_, by rw [ka, hk]; exact fun hn => absurd hn he, ?_, ?_⟩
        · rw [ka, da, h1]
          simp only [hk, Wind.add, if_true]
          clear a2 a3 a4 b2 b3 b4 h1 h2 h3 h4
          unfold largerAbs at *
          split at a1 <;> split <;> split <;> omega
        · rw [ka, hk, h2]; simp only [Wind.add, hko, if_false]; exact a3
        · rw [ka, hk, h2]; simp only [Wind.add, hko, if_false]; exact a4
  · have e1 : a.polygonKind = otherKind b.polygonKind := by
      revert hk; cases a.polygonKind <;> cases b.polygonKind <;> simp [otherKind]
    have e2 : b.polygonKind = otherKind a.polygonKind := by
      revert hk; cases a.polygonKind <;> cases b.polygonKind <;> simp [otherKind]
    have hk' : ¬ b.polygonKind = a.polygonKind := fun e => hk e.symm
    have a1 := ha.own; have a2 := ha.ownEvenOdd; have a3 := ha.other; have a4 := ha.otherEvenOdd
    have b1 := hb.own; have b2 := hb.ownEvenOdd; have b3 := hb.other; have b4 := hb.otherEvenOdd
    rw [← e2] at a3 a4
    rw [← e1] at b3 b4
    simp only [Wind.add, hk, if_true, if_false, Prod.mk.injEq] at b1 b2 b3 b4 h
    obtain ⟨h1, h2, h3, h4⟩ := h
    constructor
    · refine ⟨by rw [db]; exact ub, by rw [kb, db, h3]; exact b1, by rw [kb, h3]; exact b2, ?_, ?_⟩
      · rw [kb, ← e1, h4]
        intro hn
        simp only [hn, decide_false, Bool.not_false, if_true]
        have := b3 hn
        omega
      · rw [kb, ← e1, h4]
        intro hn
        simp only [hn, decide_true, Bool.not_true, Bool.false_eq_true, if_false]
        have := b4 hn
        split <;> omega
    · refine ⟨by rw [da]; exact ua, ?_, by rw [ka, h1]; exact a2, ?_, ?_⟩
      · rw [ka, da, h1]; simp only [Wind.add, hk', if_false]; exact a1
      · rw [ka, ← e2, h2]
        intro hn
        simp only [hn, decide_false, Bool.not_false, if_true, Wind.add]
        have := a3 hn
        omega
      · rw [ka, ← e2, h2]
        intro hn
        simp only [hn, decide_true, Bool.not_true, Bool.false_eq_true, if_false, Wind.add, if_true]
        have := a4 hn
        split <;> omega

/-- ring_manager.py:1160-1251: which of the two bounds carry an output ring after the crossing; `fw`, `sw`, `fo`, `so`
are the normalised counts. -/
def crossOut (op : OperationKind) (fk sk : PolygonKind) (fw sw fo so : Int) (fc sc : Bool) : Bool × Bool :=
  if fc && sc then
    if !zeroOrOne fw || !zeroOrOne sw || (decide (fk ≠ sk) && decide (op ≠ .xor)) then (false, false) else (true, true)
  else if fc then (if zeroOrOne sw then (false, true) else (true, false))
  else if sc then (if zeroOrOne fw then (true, false) else (false, true))
  else if zeroOrOne fw && zeroOrOne sw then
    if fk ≠ sk then (true, true)
    else if fw = 1 ∧ sw = 1 then (if crossStarts op fk fo so then (true, true) else (false, false))
    else (false, false)
  else (false, false)

theorem crossStarts_eq (k : PolygonKind) {fo so : Int} (h : fo > 0 ↔ so > 0) :
    crossStarts op k fo so = sens op k (decide (so > 0)) := by
  have e1 : decide (fo > 0) = decide (so > 0) := by rw [decide_eq_decide]; exact h
  have e2 : decide (fo ≤ 0) = !decide (so > 0) := by
    rw [Bool.eq_iff_iff, Bool.not_eq_true', decide_eq_true_eq, decide_eq_false_iff_not]; omega
  have e3 : decide (so ≤ 0) = !decide (so > 0) := by
    rw [Bool.eq_iff_iff, Bool.not_eq_true', decide_eq_true_eq, decide_eq_false_iff_not]; omega
  unfold crossStarts sens
  rw [e1, e2, e3]
  generalize decide (so > 0) = x
  cases op <;> cases k <;> cases x <;> rfl

def crossOutB (op : OperationKind) (diff zf zs st fc sc : Bool) : Bool × Bool :=
  if fc && sc then (if !zf || !zs || (diff && decide (op ≠ .xor)) then (false, false) else (true, true))
  else if fc then (if zs then (false, true) else (true, false))
  else if sc then (if zf then (true, false) else (false, true))
  else if zf && zs then (if diff then (true, true) else if st then (true, true) else (false, false))
  else (false, false)

theorem crossOut_eq {fk sk : PolygonKind} {fw sw fo so : Int} {fc sc : Bool} (h1 : zeroOrOne fw = true ↔ fw = 1)
    (h2 : zeroOrOne sw = true ↔ sw = 1) :
    crossOut op fk sk fw sw fo so fc sc
      = crossOutB op (decide (fk ≠ sk)) (zeroOrOne fw) (zeroOrOne sw) (crossStarts op fk fo so) fc sc := by
  unfold crossOut crossOutB
  simp only [← h1, ← h2]
  generalize zeroOrOne fw = zf
  generalize zeroOrOne sw = zs
  generalize crossStarts op fk fo so = st
  by_cases hk : fk = sk <;> simp only [hk, ne_eq, not_true_eq_false, not_false_eq_true, decide_true, decide_false] <;>
    cases zf <;> cases zs <;> simp

theorem Sep.congr {b b' : Bound} (hk : b'.polygonKind = b.polygonKind) (hd : b'.windingDelta = b.windingDelta) :
    Sep sf cf w b' ↔ Sep sf cf w b := by unfold Sep; rw [hk, hd]

theorem cross_con {a b a' b' : Bound} (ca : COk op sf cf w a) (cb : COk op sf cf (w.add a) b)
    (ka : a'.polygonKind = a.polygonKind) (da : a'.windingDelta = a.windingDelta)
    (kb : b'.polygonKind = b.polygonKind) (db : b'.windingDelta = b.windingDelta)
    (hb : WOk sf cf w b') (ha : WOk sf cf (w.add b') a')
    (h : (a'.ring.isSome, b'.ring.isSome) = crossOut op a.polygonKind b.polygonKind
      (normWinding (a.fillKind sf cf) a'.windingCount) (normWinding (b.fillKind sf cf) b'.windingCount)
      (normWinding (a.oppositeFillKind sf cf) a'.oppositeWindingCount)
      (normWinding (b.oppositeFillKind sf cf) b'.oppositeWindingCount) a.ring.isSome b.ring.isSome) :
    COk op sf cf w b' ∧ COk op sf cf (w.add b') a' := by
  have fa : a.fillKind sf cf = a'.fillKind sf cf := by simp [fillKind_eq, ka]
  have fb : b.fillKind sf cf = b'.fillKind sf cf := by simp [fillKind_eq, kb]
  have oa : a.oppositeFillKind sf cf = a'.oppositeFillKind sf cf := by simp [oppositeFillKind_eq, ka]
  have ob : b.oppositeFillKind sf cf = b'.oppositeFillKind sf cf := by simp [oppositeFillKind_eq, kb]
  rw [fa, fb, oa, ob] at h
  have za := ha.zeroOrOne
  have zb := hb.zeroOrOne
  have sa := ha.sep
  have sb := hb.sep
  have ia := ha.insideB
  have ib := hb.insideB
  rw [crossOut_eq za zb] at h
  rw [sa, Sep.congr ka da, Wind.add_congr w kb db] at za
  rw [sb, Sep.congr kb db] at zb
  rw [ka, Wind.add_congr w kb db] at ia
  rw [kb] at ib
  unfold COk at ca cb ⊢
  rw [res_ne_iff] at ca cb ⊢
  rw [res_ne_iff, Sep.congr ka da, Sep.congr kb db, ka, kb, Wind.add_congr w kb db]
  generalize hzf : zeroOrOne (normWinding (a'.fillKind sf cf) a'.windingCount) = zf at h za
  generalize hzs : zeroOrOne (normWinding (b'.fillKind sf cf) b'.windingCount) = zs at h zb
  generalize a'.ring.isSome = fc' at h ⊢
  generalize b'.ring.isSome = sc' at h ⊢
  generalize a.ring.isSome = fc at h ca
  generalize b.ring.isSome = sc at h cb
  by_cases hk : a.polygonKind = b.polygonKind
  · have hko : b.polygonKind ≠ otherKind b.polygonKind := by cases b.polygonKind <;> simp [otherKind]
    have e : (w.add b) (otherKind a.polygonKind) = w (otherKind b.polygonKind) := by simp [Wind.add, hk, hko]
    have e' : (w.add a) (otherKind b.polygonKind) = w (otherKind b.polygonKind) := by simp [Wind.add, hk, hko]
    rw [e, hk] at ia
    rw [hk, crossStarts_eq b.polygonKind (by
      rw [← decide_eq_true_eq (p := _ > (0 : Int)), ← decide_eq_true_eq (p := normWinding (b'.oppositeFillKind sf cf) _ > (0 : Int)),
        ia, ib]), ib] at h
    simp only [ne_eq, not_true_eq_false, decide_false] at h
    rw [e, hk]
    rw [hk] at ca
    rw [e'] at cb
    generalize sens op b.polygonKind _ = sn at h ca cb ⊢
    unfold Sep at ca cb za zb ⊢
    simp only [Wind.add, hk, if_true] at ca cb za zb ⊢
    have e3 : w b.polygonKind + b.windingDelta + a.windingDelta = w b.polygonKind + a.windingDelta + b.windingDelta := by omega
    rw [e3] at za ⊢
    generalize filled _ (w b.polygonKind) = p at ca zb ⊢
    generalize filled _ (w b.polygonKind + a.windingDelta) = q at ca cb
    generalize filled _ (w b.polygonKind + b.windingDelta) = t at za zb ⊢
    generalize filled _ (w b.polygonKind + a.windingDelta + b.windingDelta) = r at za cb ⊢
    clear hzf hzs sa sb ia ib ha hb e e' e3 hko fa fb oa ob
    revert ca cb za zb h
    cases op <;> revert fc sc fc' sc' zf zs sn p q r t <;> decide
  · have e1 : a.polygonKind = otherKind b.polygonKind := by
      revert hk; cases a.polygonKind <;> cases b.polygonKind <;> simp [otherKind]
    have e2 : b.polygonKind = otherKind a.polygonKind := by
      revert hk; cases a.polygonKind <;> cases b.polygonKind <;> simp [otherKind]
    have hk' : ¬ b.polygonKind = a.polygonKind := fun e => hk e.symm
    unfold Sep at ca cb za zb ⊢
    rw [← e2] at ca ⊢
    rw [← e1] at cb ⊢
    simp only [Wind.add, hk, hk', if_true, if_false] at ca cb za zb ⊢
    generalize filled _ (w a.polygonKind) = x at ca cb za zb ⊢
    generalize filled _ (w a.polygonKind + a.windingDelta) = x' at ca cb za zb ⊢
    generalize filled _ (w b.polygonKind) = y at ca cb za zb ⊢
    generalize filled _ (w b.polygonKind + b.windingDelta) = y' at ca cb za zb ⊢
    have hd : decide (a.polygonKind ≠ b.polygonKind) = true := by simp [hk]
    rw [hd] at h
    generalize crossStarts _ _ _ _ = st at h
    clear hzf hzs sa sb ia ib ha hb e1 e2 hd fa fb oa ob
    generalize a.polygonKind = k1 at *
    generalize b.polygonKind = k2 at *
    revert ca cb za zb h
    cases k1 <;> cases k2 <;> (try exact absurd rfl hk) <;> clear hk hk' <;> cases op <;>
      revert fc sc fc' sc' zf zs x x' y y' st <;> decide

end

end Wagyu
