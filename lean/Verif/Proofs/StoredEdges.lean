import Verif.Proofs.InputEdges
import Verif.Proofs.Stored

/-!
# What holds of the edges of the held rings holds of the stored edges
-/

namespace Wagyu

open Spec

/-- All stored edges satisfy `Q`. -/
structure QInv (Q : Edge → Prop) (m : Minimums) : Prop where
  edges : ∀ b, ∀ e ∈ (m.bounds b).edges, Q e

/-- `Q` does not depend on the direction of horizontal edges. -/
class HFlip (Q : Edge → Prop) : Prop where
  turn : ∀ e, Q e → e.isHorizontal = true → Q e.reverseHorizontal

section
variable {Q : Edge → Prop} [HFlip Q]
set_option linter.unusedSectionVars false

theorem q_fixTail {e : Edge} {l : List Edge} (h : ∀ x ∈ l, Q x) : ∀ x ∈ fixHorizontalsTail e l, Q x := by
  induction l generalizing e with
  | nil => exact h
  | cons a l ih =>
    rw [fixHorizontalsTail]
    intro x hx
    rcases List.mem_cons.1 hx with rfl | hx
    · split
      · exact HFlip.turn _ (h a (by simp)) (by simp_all)
      · exact h a (by simp)
    · exact ih (fun x hx => h x (by simp [hx])) x hx

theorem q_fix {l : List Edge} (h : ∀ x ∈ l, Q x) : ∀ x ∈ fixHorizontals l, Q x := by
  unfold fixHorizontals
  split
  · next a b l =>
    dsimp only
    intro x hx
    rcases List.mem_cons.1 hx with rfl | hx
    · split
      · exact HFlip.turn _ (h a (by simp)) (by simp_all)
      · exact h a (by simp)
    · exact q_fixTail (fun x hx => h x (List.mem_cons_of_mem _ hx)) x hx
  · exact h

theorem q_leading {l : List Edge} (h : ∀ x ∈ l, Q x) :
    (∀ x ∈ (leadingHorizontals l).1, Q x) ∧ ∀ x ∈ (leadingHorizontals l).2, Q x := by
  induction l with
  | nil => exact ⟨h, h⟩
  | cons a l ih =>
    obtain ⟨i1, i2⟩ := ih fun x hx => h x (by simp [hx])
    rw [leadingHorizontals]
    split
    · refine ⟨?_, i2⟩
      intro x hx
      rcases List.mem_cons.1 hx with rfl | hx
      · exact HFlip.turn _ (h a (by simp)) (by simp_all)
      · exact i1 x hx
    · exact ⟨by simp, h⟩

theorem q_move {l r : List Edge} (h : ∀ x ∈ l, Q x) (h' : ∀ x ∈ r, Q x) :
    (∀ x ∈ (moveHorizontals l r).1, Q x) ∧ ∀ x ∈ (moveHorizontals l r).2, Q x := by
  obtain ⟨i1, i2⟩ := q_leading h
  unfold moveHorizontals
  dsimp only
  split
  · refine ⟨i2, fun x hx => ?_⟩
    rcases List.mem_append.1 (mem_rotate hx) with hx | hx
    · exact h' x hx
    · exact i1 x (by simpa using hx)
  · exact ⟨h, h'⟩

theorem q_maxSplit {e : Edge} {b : Bool} {l : List Edge} (h : ∀ x ∈ l, Q x) :
    (∀ x ∈ (towardsMaxSplit e b l).1, Q x) ∧ ∀ x ∈ (towardsMaxSplit e b l).2, Q x := by
  induction l generalizing e b with
  | nil => exact ⟨h, h⟩
  | cons a l ih =>
    have ih := fun (e : Edge) (b : Bool) => @ih e b fun x hx => h x (by simp [hx])
    have step : ∀ (e : Edge) (b : Bool), (∀ x ∈ a :: (towardsMaxSplit e b l).1, Q x) := fun e b x hx => by
      rcases List.mem_cons.1 hx with rfl | hx
      · exact h x (by simp)
      · exact (ih e b).1 x hx
    rw [towardsMaxSplit]
    dsimp only
    split_ifs
    · exact ⟨by simp, h⟩
    · exact ⟨by simp, h⟩
    · exact ⟨step _ _, (ih _ _).2⟩
    · exact ⟨step _ _, (ih _ _).2⟩

theorem q_minSplit {e : Edge} {b : Bool} {l : List Edge} (h : ∀ x ∈ l, Q x) :
    (∀ x ∈ (towardsMinSplit e b l).1, Q x) ∧ ∀ x ∈ (towardsMinSplit e b l).2, Q x := by
  induction l generalizing e b with
  | nil => exact ⟨h, h⟩
  | cons a l ih =>
    have ih := fun (e : Edge) (b : Bool) => @ih e b fun x hx => h x (by simp [hx])
    have ha : Q (if a.isHorizontal then a.reverseHorizontal else a) := by
      split
      · exact HFlip.turn _ (h a (by simp)) (by simp_all)
      · exact h a (by simp)
    rw [towardsMinSplit]
    dsimp only
    generalize (if a.isHorizontal = true then a.reverseHorizontal else a) = a' at ha
    have step : ∀ (e : Edge) (b : Bool), (∀ x ∈ a' :: (towardsMinSplit e b l).1, Q x) := fun e b x hx => by
      rcases List.mem_cons.1 hx with rfl | hx
      · exact ha
      · exact (ih e b).1 x hx
    split_ifs
    · exact ⟨by simp, h⟩
    · exact ⟨by simp, h⟩
    · exact ⟨step _ _, (ih _ _).2⟩
    · exact ⟨step _ _, (ih _ _).2⟩

theorem q_towardsMax {l a b : List Edge} (h : ∀ x ∈ l, Q x) (he : createBoundTowardsMaximum l = some (a, b)) :
    (∀ x ∈ a, Q x) ∧ ∀ x ∈ b, Q x := by
  cases l with
  | nil => cases he
  | cons c l =>
    rw [createBoundTowardsMaximum] at he
    obtain ⟨i1, i2⟩ := q_maxSplit (e := c) (b := false) fun x hx => h x (List.mem_cons_of_mem _ hx)
    cases he
    refine ⟨?_, i2⟩
    intro x hx
    rcases List.mem_cons.1 hx with rfl | hx
    · exact h x (by simp)
    · exact i1 x hx

theorem q_towardsMin {l a b : List Edge} (h : ∀ x ∈ l, Q x) (he : createBoundTowardsMinimum l = some (a, b)) :
    (∀ x ∈ a, Q x) ∧ ∀ x ∈ b, Q x := by
  cases l with
  | nil => cases he
  | cons c l =>
    rw [createBoundTowardsMinimum] at he
    dsimp only at he
    have hc : Q (if c.isHorizontal then c.reverseHorizontal else c) := by
      split
      · exact HFlip.turn _ (h c (by simp)) (by simp_all)
      · exact h c (by simp)
    generalize (if c.isHorizontal = true then c.reverseHorizontal else c) = c' at hc he
    obtain ⟨i1, i2⟩ := q_minSplit (e := c') (b := false) fun x hx => h x (List.mem_cons_of_mem _ hx)
    cases he
    refine ⟨?_, i2⟩
    intro x hx
    rw [List.mem_reverse] at hx
    rcases List.mem_cons.1 hx with rfl | hx
    · exact hc
    · exact i1 x hx

theorem q_upd {f : Nat → Bound} (hm : ∀ b, ∀ e ∈ (f b).edges, Q e) {i : Nat} {b : Bound} (hb : ∀ e ∈ b.edges, Q e) :
    ∀ j, ∀ e ∈ (upd f i b j).edges, Q e := by
  intro j e he
  by_cases hj : j = i
  · subst hj; rw [upd_same] at he; exact hb e he
  · rw [upd_other _ _ _ _ hj] at he; exact hm j e he

theorem q_pair {a b : List Edge} (ha : ∀ x ∈ a, Q x) (hb : ∀ x ∈ b, Q x) (c d : Bool) :
    (∀ x ∈ (if c = true then if d = true then moveHorizontals a b
        else ((moveHorizontals b a).2, (moveHorizontals b a).1) else (a, b)).1, Q x)
      ∧ ∀ x ∈ (if c = true then if d = true then moveHorizontals a b
        else ((moveHorizontals b a).2, (moveHorizontals b a).1) else (a, b)).2, Q x := by
  split_ifs
  · exact q_move ha hb
  · exact (q_move hb ha).symm
  · exact ⟨ha, hb⟩

theorem addLoop_q (kind : PolygonKind) (fuel : Nat) (edges : List Edge) (first last : Option Nat) (m : Minimums)
    (hm : QInv Q m) (he : ∀ e ∈ edges, Q e) : QInv Q (addLoop kind fuel edges first last m).1 := by
  induction fuel generalizing edges first last m with
  | zero => cases edges <;> exact hm
  | succ fuel ih =>
    unfold addLoop
    cases edges with
    | nil => exact hm
    | cons e es =>
      simp only
      split
      · exact hm
      · next minE e1 h1 =>
        obtain ⟨a1, a2⟩ := q_towardsMin he h1
        split
        · exact hm
        · next maxE e2 h2 =>
          obtain ⟨b1, b2⟩ := q_towardsMax a2 h2
          split
          · split
            · exact hm
            · next minFront tail hcons =>
              have hx := fun c d => q_pair (q_fix a1) (q_fix b1) c d
              have hc : ∀ x ∈ minFront :: tail, Q x := by rw [← hcons]; exact (hx _ _).1
              apply ih _ _ _ _ _ b2
              constructor
              · simp only
                split
                · refine q_upd (q_upd hm.edges ?_) ?_
                  · exact (hx _ _).1
                  · exact (hx _ _).2
                · have hB : ∀ (p q : Bound), (∀ e ∈ p.edges, Q e) → (∀ e ∈ q.edges, Q e) →
                      ∀ b, ∀ e ∈ (upd (upd m.bounds m.nb p) (m.nb + 1) q b).edges, Q e := fun p q hp hq =>
                    q_upd (q_upd hm.edges hp) hq
                  refine q_upd (hB _ _ ?_ ?_) ?_
                  · exact (hx _ _).1
                  · exact (hx _ _).2
                  · refine hB _ _ ?_ ?_ _
                    · exact (hx _ _).1
                    · exact (hx _ _).2
          · exact hm



theorem addLinearRing_q {fuel : Nat} {m : Minimums} {ring : List Point} {kind : PolygonKind} (hm : QInv Q m)
    (hp : ∀ es, edgesOf fuel ring = .ok es → ∀ e ∈ es, Q e) : QInv Q (m.addLinearRing fuel ring kind).1 := by
  unfold Minimums.addLinearRing
  split
  · exact hm
  · exact hm
  · next e es h =>
    have he := hp _ h
    have h1 := addLoop_q kind (toEdgesStartingOnLocalMaximum (e :: es)).length
      (toEdgesStartingOnLocalMaximum (e :: es)) none none m hm (by
        intro x hx
        unfold toEdgesStartingOnLocalMaximum at hx
        split at hx
        · exact he x (mem_rotate hx)
        · exact he x hx)
    dsimp only
    revert h1
    generalize addLoop kind (toEdgesStartingOnLocalMaximum (e :: es)).length
      (toEdgesStartingOnLocalMaximum (e :: es)) none none m = r
    intro h1
    split
    · exact h1
    · refine ⟨?_⟩
      refine q_upd (q_upd h1.edges ?_) ?_
      · exact h1.edges _
      · refine q_upd h1.edges ?_ _
        exact h1.edges _
    · exact h1

theorem addPolygonFrom_q {fuel : Nat} {r : Bool} {w : Wagyu} {kind : PolygonKind} {rings : Polygon}
    (h : QInv Q w.minimums) (hp : ∀ ring ∈ rings, ∀ es, edgesOf fuel ring = .ok es → ∀ e ∈ es, Q e) :
    QInv Q (w.addPolygonFrom fuel r kind rings).1.minimums := by
  induction rings generalizing r w with
  | nil => exact h
  | cons ring rings ih =>
    have h1 : QInv Q (w.addLinearRing fuel ring kind).1.minimums := addLinearRing_q h (hp ring (by simp))
    rw [Wagyu.addPolygonFrom]
    revert h1
    generalize w.addLinearRing fuel ring kind = x
    intro h1
    obtain ⟨w', e | b⟩ := x
    · exact h1
    · exact ih h1 fun ring hr => hp ring (by simp [hr])

/-- After any history of calls. -/
theorem calls_q (fuel : Nat) : ∀ (cs : List Call) (w : Wagyu) (held : List LinearRing),
    ((∀ ring ∈ held, ∀ es, edgesOf fuel ring = .ok es → ∀ e ∈ es, Q e) → QInv Q w.minimums) →
    (∀ ring ∈ heldAfter held cs, ∀ es, edgesOf fuel ring = .ok es → ∀ e ∈ es, Q e) → QInv Q (w.calls fuel cs).1.minimums := by
  intro cs
  induction cs with
  | nil => intro w held h hp; exact h hp
  | cons c cs ih =>
    intro w held h hp
    rw [Wagyu.calls]
    cases c with
    | addLinearRing ring kind =>
      refine ih _ (held ++ [ring]) (fun hh => ?_) hp
      exact addLinearRing_q (h fun r hr => hh r (by simp [hr])) (hh ring (by simp))
    | addPolygon polygon kind =>
      refine ih _ (held ++ polygon) (fun hh => ?_) hp
      exact addPolygonFrom_q (h fun r hr => hh r (by simp [hr])) fun r hr => hh r (by simp [hr])
    | clear =>
      refine ih _ [] (fun _ => ?_) hp
      simp only [Wagyu.call, clear_eq]
      exact ⟨by simp [Minimums.empty, Bound.ofEdges]⟩
    | execute op sf cf =>
      refine ih _ held (fun hh => ?_) hp
      obtain ⟨h1⟩ := h hh
      obtain ⟨e1, _, _, e2⟩ := execute_input fuel w op sf cf
      refine ⟨fun b e he => ?_⟩
      refine h1 b e ?_
      have := (e2 b).edges
      simp only [Wagyu.call] at he
      rwa [this] at he

end

end Wagyu
