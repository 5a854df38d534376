import Verif.Proofs.SweepEvents

/-!
# Inserting the two bounds of a local minimum
-/

namespace Wagyu

open Spec

section
variable {op : OperationKind} {sf cf : FillKind}

theorem oppositeOver_plain (o : Int) (l : List Int) : oppositeOver false o l = o + l.sum := by
  unfold oppositeOver
  induction l generalizing o with
  | nil => simp
  | cons a l ih => rw [List.foldl_cons, ih]; simp [Int.add_assoc]

theorem oppositeOver_parity (w : Int) (l : List Int) (h : ∀ d ∈ l, d = 1 ∨ d = -1) :
    oppositeOver true (w % 2) l = (w + l.sum) % 2 := by
  unfold oppositeOver
  induction l generalizing w with
  | nil => simp
  | cons a l ih =>
    have ha := h a (by simp)
    have e : (if (true : Bool) = true then (if w % 2 = 0 then (1 : Int) else 0) else w % 2 + a) = (w + a) % 2 := by
      rw [if_pos rfl]; split <;> omega
    rw [List.foldl_cons, e, ih (w + a) fun d hd => h d (by simp [hd])]
    simp [Int.add_assoc]

theorem windingFrom_eq {L dp d : Int} (hp : dp = 1 ∨ dp = -1) (hd : d = 1 ∨ d = -1) :
    windingFrom (largerAbs L (L + dp)) dp d = largerAbs (L + dp) (L + dp + d) := by
  unfold windingFrom largerAbs
  rcases hp with rfl | rfl <;> rcases hd with rfl | rfl <;> simp only [mul_one, mul_neg, one_mul, neg_mul, neg_neg] <;>
    repeat' split <;> omega

/-- The winding numbers after bounds of the other kind. -/
theorem addAll_others {k : PolygonKind} {w : Wind} (bs : List Bound) (h : ∀ b ∈ bs, b.polygonKind ≠ k) :
    addAll w bs k = w k ∧ addAll w bs (otherKind k) = w (otherKind k) + (bs.map fun b => b.windingDelta).sum := by
  rw [addAll_apply, addAll_apply]
  constructor
  · have : (bs.filter fun b => decide (b.polygonKind = k)) = [] := by
      rw [List.filter_eq_nil_iff]; intro b hb; simp [h b hb]
    simp [windingAfter, this]
  · have : (bs.filter fun b => decide (b.polygonKind = otherKind k)) = bs := by
      rw [List.filter_eq_self]
      intro b hb
      have := h b hb
      revert this
      cases b.polygonKind <;> cases k <;> simp [otherKind]
    simp [windingAfter, this]

theorem other_fill {k : PolygonKind} {b : Bound} (h : b.polygonKind = k) :
    b.isEvenOddAltFillKind sf cf = decide (fillOf sf cf (otherKind k) = .evenOdd) := by
  rw [evenOddAlt_eq, h]

theorem otherKind_ne (k : PolygonKind) : k ≠ otherKind k := by cases k <;> simp [otherKind]

/-- The opposite winding count is right. -/
theorem owc_ok {k : PolygonKind} {w : Wind} {o : Int} (bs : List Bound) (h : ∀ b ∈ bs, b.polygonKind ≠ k)
    (hu : ∀ b ∈ bs, b.windingDelta = 1 ∨ b.windingDelta = -1)
    (h1 : fillOf sf cf (otherKind k) ≠ .evenOdd → o = w (otherKind k))
    (h2 : fillOf sf cf (otherKind k) = .evenOdd → o = w (otherKind k) % 2) (b : Bound) (hb : b.polygonKind = k) :
    (fillOf sf cf (otherKind k) ≠ .evenOdd →
      oppositeOver (b.isEvenOddAltFillKind sf cf) o (bs.map fun b => b.windingDelta) = addAll w bs (otherKind k))
    ∧ (fillOf sf cf (otherKind k) = .evenOdd →
      oppositeOver (b.isEvenOddAltFillKind sf cf) o (bs.map fun b => b.windingDelta) = addAll w bs (otherKind k) % 2) := by
  rw [(addAll_others bs h).2, other_fill hb]
  constructor
  · intro hf
    simp only [hf, decide_false]
    rw [oppositeOver_plain, h1 hf]
  · intro hf
    simp only [hf, decide_true]
    rw [h2 hf, oppositeOver_parity]
    intro d hd
    obtain ⟨b, hb, rfl⟩ := List.mem_map.1 hd
    exact hu b hb

theorem allOk_unit {w : Wind} : ∀ (bs : List Bound), AllOk op sf cf w bs → ∀ b ∈ bs, b.windingDelta = 1 ∨ b.windingDelta = -1 := by
  intro bs
  induction bs generalizing w with
  | nil => intro _ b hb; cases hb
  | cons a bs ih =>
    rintro ⟨h1, -, h3⟩ b hb
    rcases List.mem_cons.1 hb with rfl | hb
    · exact h1.unit
    · exact ih h3 b hb

/-! ## `set_winding_count` -/

theorem findSameKind_ok (s : St) (k : PolygonKind) : ∀ (l : List (Option Nat)) (btw : List Nat),
    Ok (findSameKind k l btw) s fun q s' => s' = s ∧ ∃ ws : List Nat, (∀ c ∈ ws, (s.bounds c).polygonKind ≠ k)
      ∧ q.2 = ws.reverse ++ btw
      ∧ ((q.1 = none ∧ l = ws.map some) ∨ ∃ p rest, q.1 = some p ∧ (s.bounds p).polygonKind = k ∧ l = ws.map some ++ some p :: rest)
  | [], btw => ⟨rfl, [], by simp, rfl, Or.inl ⟨rfl, rfl⟩⟩
  | b :: rest, btw => by
    rw [findSameKind]
    refine Post.bind (Post.deref (fun i hi => ?_) fun _ => trivial)
    subst hi
    refine Post.bind (Post.getBound ?_)
    refine Post.ite (fun h => ?_) fun h => ?_
    · exact Post.pure ⟨rfl, [], by simp, rfl, Or.inr ⟨i, rest, rfl, h, rfl⟩⟩
    · refine (findSameKind_ok s k rest (i :: btw)).imp ?_
      rintro ⟨q1, q2⟩ s' ⟨h1, ws, h2, h3, h4⟩
      refine ⟨h1, i :: ws, ?_, ?_, ?_⟩
      · intro c hc
        rcases List.mem_cons.1 hc with rfl | hc
        · exact h
        · exact h2 c hc
      · rw [h3]; simp
      · rcases h4 with ⟨e1, e2⟩ | ⟨p, rest', e1, e2, e3⟩
        · exact Or.inl ⟨e1, by rw [e2]; rfl⟩
        · exact Or.inr ⟨p, rest', e1, e2, by rw [e3]; rfl⟩

theorem setWindingCount_ok (s : St) (i b : Nat) (hb : s.abl[i]? = some (some b))
    (hok : AllOk op sf cf (fun _ => 0) (((s.abl.take i).filterMap id).map s.bounds))
    (hd : (s.bounds b).windingDelta = 1 ∨ (s.bounds b).windingDelta = -1) :
    Ok (setWindingCount i sf cf) s fun _ s' => ∃ wc owc : Int,
      s' = { s with bounds := upd s.bounds b { s.bounds b with windingCount := wc, oppositeWindingCount := owc } }
      ∧ WOk sf cf (addAll (fun _ => 0) (((s.abl.take i).filterMap id).map s.bounds))
          { s.bounds b with windingCount := wc, oppositeWindingCount := owc } := by
  unfold setWindingCount
  have hg : ablGet i s = .ok (some b) s := by unfold ablGet; rw [hb]
  refine Post.bind (Post.run hg (Post.bind (Post.pure (Post.bind (Post.getBound ?_)))))
  refine Post.ite (fun hi => ?_) fun hi => ?_
  · subst hi
    refine Post.modBound ⟨_, _, rfl, ?_⟩
    refine ⟨hd, fun _ => ?_, fun _ => hd, fun _ => rfl, fun _ => rfl⟩
    show _ = largerAbs 0 (0 + (s.bounds b).windingDelta)
    unfold largerAbs
    rcases hd with e | e <;> simp [e]
  · refine Post.bind (Post.gets (Post.bind ((findSameKind_ok s _ _ _).imp ?_)))
    rintro ⟨prev, between⟩ s1 ⟨rfl, ws, hws, hbt, hcase⟩
    simp only [List.append_nil] at hbt
    have hbk : ∀ x ∈ between.map s1.bounds, x.polygonKind ≠ (s1.bounds b).polygonKind := by
      intro x hx
      obtain ⟨c, hc, rfl⟩ := List.mem_map.1 hx
      rw [hbt] at hc
      exact hws c (List.mem_reverse.1 hc)
    have hmap : (between.map fun i => (s1.bounds i).windingDelta) = (between.map s1.bounds).map fun b => b.windingDelta := by
      simp
    rcases hcase with ⟨e, hl⟩ | ⟨p, rest, e, hpk, hl⟩
    · have hpre : (s1.abl.take i).filterMap id = between := by
        have := congrArg List.reverse hl
        rw [List.reverse_reverse, ← List.map_reverse] at this
        rw [this, hbt]; simp [List.filterMap_map]
      rw [hpre] at hok ⊢
      dsimp only at e
      subst e
      refine Post.bind (Post.pure (Post.bind (Post.gets (Post.modBound ⟨_, _, rfl, ?_⟩))))
      have ho := owc_ok (w := fun _ => 0) (sf := sf) (cf := cf) (o := 0) (between.map s1.bounds) hbk (allOk_unit _ hok)
        (fun _ => rfl) (fun _ => rfl) (s1.bounds b) rfl
      rw [← hmap] at ho
      refine ⟨hd, fun _ => ?_, fun _ => hd, fun h => ho.1 h, fun h => ho.2 h⟩
      show _ = largerAbs (addAll _ _ (s1.bounds b).polygonKind) (addAll _ _ (s1.bounds b).polygonKind + (s1.bounds b).windingDelta)
      rw [(addAll_others _ hbk).1]
      unfold largerAbs
      rcases hd with e | e <;> simp [e]
    · have hpre : (s1.abl.take i).filterMap id = rest.reverse.filterMap id ++ p :: between := by
        have := congrArg List.reverse hl
        rw [List.reverse_reverse, List.reverse_append, List.reverse_cons, ← List.map_reverse] at this
        rw [this, hbt]
        simp only [List.filterMap_append, List.append_assoc, List.singleton_append, List.cons_append, List.filterMap_cons, id]
        simp [List.filterMap_map]
      rw [hpre, List.map_append, List.map_cons, allOk_append] at hok
      obtain ⟨-, hwp, -, hrest⟩ := hok
      rw [hpre, List.map_append, List.map_cons]
      have hadd : addAll (fun _ => 0) ((rest.reverse.filterMap id).map s1.bounds ++ s1.bounds p :: between.map s1.bounds)
          = addAll ((addAll (fun _ => 0) ((rest.reverse.filterMap id).map s1.bounds)).add (s1.bounds p)) (between.map s1.bounds) := by
        unfold addAll; rw [List.foldl_append, List.foldl_cons]
      rw [hadd]
      generalize addAll (fun _ => 0) ((rest.reverse.filterMap id).map s1.bounds) = w at *
      have hu := allOk_unit _ hrest
      have hwk : (w.add (s1.bounds p)) (s1.bounds b).polygonKind = w (s1.bounds b).polygonKind + (s1.bounds p).windingDelta := by
        simp [Wind.add, hpk]
      have hwo : (w.add (s1.bounds p)) (otherKind (s1.bounds b).polygonKind) = w (otherKind (s1.bounds b).polygonKind) := by
        simp [Wind.add, hpk, otherKind_ne]
      have ho := owc_ok (w := w.add (s1.bounds p)) (sf := sf) (cf := cf) (o := (s1.bounds p).oppositeWindingCount)
        (between.map s1.bounds) hbk hu
        (fun h => by rw [hwo, ← hpk]; exact hwp.other (by rw [hpk]; exact h))
        (fun h => by rw [hwo, ← hpk]; exact hwp.otherEvenOdd (by rw [hpk]; exact h)) (s1.bounds b) rfl
      rw [← hmap] at ho
      dsimp only at e
      subst e
      have hk := (addAll_others (w := w.add (s1.bounds p)) _ hbk).1
      rw [hwk] at hk
      dsimp only
      refine Post.bind (Post.bind (Post.getBound ?_))
      refine Post.ite (fun he => ?_) fun he => ?_
      · refine Post.pure (Post.bind (Post.gets (Post.modBound ⟨_, _, rfl, ?_⟩)))
        rw [evenOdd_eq, decide_eq_true_eq] at he
        exact ⟨hd, fun h => absurd he h, fun _ => hd, fun h => ho.1 h, fun h => ho.2 h⟩
      · refine Post.pure (Post.bind (Post.gets (Post.modBound ⟨_, _, rfl, ?_⟩)))
        rw [evenOdd_eq, decide_eq_true_eq] at he
        refine ⟨hd, fun _ => ?_, fun h => absurd h he, fun h => ho.1 h, fun h => ho.2 h⟩
        show _ = largerAbs (addAll _ _ (s1.bounds b).polygonKind) (addAll _ _ (s1.bounds b).polygonKind + (s1.bounds b).windingDelta)
        rw [hk, ← windingFrom_eq hwp.unit hd, ← hpk, ← hwp.own (by rw [hpk]; exact he)]

end

end Wagyu
