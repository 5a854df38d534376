import Verif.Proofs.SweepReach
import Verif.Proofs.Quiet

/-!
# `do_maxima` is a sequence of events
-/

namespace Wagyu

open Spec

/-- Not a `RuntimeError`. -/
def NotRuntime (e : Err) (_ : St) : Prop := ∀ msg, e ≠ .runtime msg

theorem Ok.quiet {α : Type} {m : M α} {s : St} {Q : α → St → Prop} [hq : Quiet m] (h : Ok m s Q) : Post m s Q NotRuntime := by
  unfold Ok at h
  unfold Post at *
  cases hm : m s with
  | ok a s' => rw [hm] at h; exact h
  | err e s' =>
    intro msg he
    subst he
    exact hq.quiet _ _ _ hm

theorem Ok.pres {α : Type} {R : St → St → Prop} {m : M α} {s : St} (h : Pres R m) : Ok m s fun _ s' => R s s' :=
  (Post.of_pres h).mono (fun _ _ h => h) fun _ _ _ => trivial

instance (i : Nat) : Quiet (ablGet i) := ⟨fun s msg s' h => by unfold ablGet at h; split at h <;> cases h⟩
instance (i j : Nat) : Quiet (ablSwap i j) := by unfold ablSwap ablSet; quiet

section
variable {op : OperationKind} {sf cf : FillKind}

/-- Crossing as an event, with everything that is needed afterwards. -/
theorem crossing_event {s : St} {p : Point} {i j a b : Nat} (hi : Reached op sf cf s) (h : Adjacent s i j a b) :
    Ok (intersectBounds p op sf cf a b) s fun _ s1 => Ok (ablSwap i j) s1 fun _ s' =>
      Reached op sf cf s' ∧ Static s s' ∧ s'.abl = (s.abl.set i (some b)).set j (some a) := by
  refine (crossing_inv (p := p) (reached_inv hi) h.lt h.fst h.snd h.between).run.imp ?_
  rintro _ s1 ⟨hr, -, h1⟩
  refine h1.run.imp ?_
  rintro _ s2 ⟨hr2, -, h3, -, h4⟩
  refine ⟨.step hi (.crossing p i j a b h ?_), h4, h3⟩
  rw [run_bind, hr]
  exact hr2

structure MaxInv (op : OperationKind) (sf cf : FillKind) (s0 : St) (b m maxIdx : Nat) (st : Nat × Nat × Bool) (s : St) : Prop where
  reached : Reached op sf cf s
  static : Static s0 s
  fst : s.abl[st.1]? = some (some b)
  snd : s.abl[maxIdx]? = some (some m)
  lt : st.1 < st.2.1
  le : st.2.1 ≤ maxIdx
  between : ∀ k, st.1 < k → k < st.2.1 → s.abl[k]? = some none

theorem maximaLoop_ok {s : St} {b m maxIdx bi : Nat} (hi : Reached op sf cf s) (hb : s.abl[bi]? = some (some b))
    (hm : s.abl[maxIdx]? = some (some m)) (hlt : bi < maxIdx) :
    Post (maximaLoop op sf cf maxIdx bi) s (fun q s' => Reached op sf cf s' ∧ Static s s' ∧ Adjacent s' q.1 maxIdx b m) NotRuntime := by
  unfold maximaLoop
  refine Post.loopM (MaxInv op sf cf s b m maxIdx) ?_ (fun _ _ _ => by intro msg; simp)
    (x := (bi, bi + 1, false)) ⟨hi, Static.refl _, hb, hm, by simp, hlt, fun k h1 h2 => by simp at h1 h2; omega⟩
  rintro ⟨bi, ni, skipped⟩ s1 ⟨h1, h2, h3, h4, h5, h6, h7⟩
  dsimp only at h3 h5 h6 h7 ⊢
  refine Post.bind (Post.gets ?_)
  have hlen : maxIdx < s1.abl.length := (List.getElem?_eq_some_iff.1 h4).1
  refine Post.ite (fun hc => ?_) fun hc => ?_
  · have hni : ni < maxIdx := by omega
    obtain ⟨v, hv⟩ : ∃ v, s1.abl[ni]? = some v := ⟨s1.abl[ni]'hc.1, List.getElem?_eq_getElem hc.1⟩
    refine Post.bind (Post.run (s' := s1) (a := v) (by unfold ablGet; rw [hv]) ?_)
    cases v with
    | none =>
      refine Post.pure ⟨h1, h2, h3, h4, by simp; omega, hni, fun k k1 k2 => ?_⟩
      simp only at k1 k2
      rcases Nat.lt_or_ge k ni with h | h
      · exact h7 k k1 h
      · rw [show k = ni by omega]; exact hv
    | some nb =>
      dsimp only
      refine Post.bind (Post.run (s' := s1) (a := some b) (by unfold ablGet; rw [h3]) ?_)
      refine Post.bind (Post.pure ?_)
      refine Post.bind (Post.imp (Q := fun _ s' => s' = s1) (Ok.quiet ?_) ?_)
      · exact (Ok.pres (R := Eq) inferInstance).imp fun _ _ h => h.symm
      rintro e s2 rfl
      have hadj : Adjacent s2 bi ni b nb := ⟨h5, h3, hv, h7⟩
      refine Post.bind ((Ok.quiet (crossing_event h1 hadj)).imp fun _ s3 h8 => ?_)
      refine Post.bind ((Ok.quiet h8).imp ?_)
      rintro _ s4 ⟨r1, r2, r3⟩
      have hl1 : bi < s2.abl.length := (List.getElem?_eq_some_iff.1 h3).1
      refine Post.pure ⟨r1, h2.trans r2, ?_, ?_, by simp, hni, fun k k1 k2 => ?_⟩
      · show s4.abl[ni]? = _
        rw [r3, List.getElem?_set_self (by simp; exact hc.1)]
      · rw [r3, List.getElem?_set_ne (by omega), List.getElem?_set_ne (by omega)]; exact h4
      · simp only at k1 k2; omega
  · obtain rfl : ni = maxIdx := by omega
    exact Post.pure ⟨h1, h2, h5, h3, h4, h7⟩

theorem doMaxima_ok {s : St} {b m maxIdx bi : Nat} (hi : Reached op sf cf s) (hb : s.abl[bi]? = some (some b))
    (hm : s.abl[maxIdx]? = some (some m)) (hlt : bi < maxIdx) (hp : Partners s b m) :
    Post (doMaxima op sf cf bi maxIdx) s (fun _ s' => Reached op sf cf s' ∧ Static s s') NotRuntime := by
  unfold doMaxima
  refine Post.bind ((maximaLoop_ok hi hb hm hlt).imp ?_)
  rintro ⟨bi', skipped⟩ s1 ⟨h1, h2, h3⟩
  have hp1 : Partners s1 b m := by
    refine ⟨?_, ?_, ?_⟩
    · rw [(h2 b).2.1]; exact hp.unit
    · rw [(h2 b).1, (h2 m).1]; exact hp.kind
    · rw [(h2 b).2.1, (h2 m).2.1]; exact hp.delta
  dsimp only at h3 ⊢
  refine Post.bind (Post.run (s' := s1) (a := some b) (by unfold ablGet; rw [h3.fst]) (Post.bind (Post.pure ?_)))
  refine Post.bind (Post.run (s' := s1) (a := some m) (by unfold ablGet; rw [h3.snd]) (Post.bind (Post.pure ?_)))
  refine Post.bind (Post.getBound (Post.bind (Post.getBound ?_)))
  have agree := adjacent_agree (reached_inv h1) h3 hp1.kind hp1.delta
  have fin : ∀ p, Ok (do if (← getBound b).ring.isSome ∧ (← getBound m).ring.isSome then addLocalMaximumPoint p b m
                         ablSet bi' none
                         ablSet maxIdx none : M Unit) s1 fun _ s' => Reached op sf cf s' ∧ Static s s' := by
    intro p
    refine (close_inv (p := p) (reached_inv h1) (Or.inl h3) hp1).run.imp ?_
    rintro _ s' ⟨e, -, -, h4, -⟩
    exact ⟨.step h1 (.maximum p bi' maxIdx b m (Or.inl h3) hp1 e), h2.trans h4⟩
  refine Post.ite (fun hc => ?_) fun hc => ?_
  · refine Post.bind (Post.imp (Q := fun _ s' => s' = s1) (Ok.quiet ?_) ?_)
    · exact (Ok.pres (R := Eq) inferInstance).imp fun _ _ h => h.symm
    rintro e s2 rfl
    refine Post.bind ((Ok.quiet (Ok.run (Q := fun _ _ => True) (Ok.intro fun _ _ _ => trivial))).imp ?_)
    rintro _ s3 ⟨hr, -⟩
    refine Post.bind (Post.modify (Post.bind (Post.modify (Post.pure ((fin e.top).elim (a := ()) ?_)))))
    show (if (s2.bounds b).ring.isSome = true ∧ (s2.bounds m).ring.isSome = true then _ else _ : M Unit) s2 = _
    rw [if_pos hc, run_bind, hr]
    rfl
  · refine Post.ite (fun hc' => ?_) fun hc' => ?_
    · exfalso
      rw [agree, or_self] at hc'
      rw [agree, and_self] at hc
      exact hc hc'
    · refine Post.bind (Post.modify (Post.bind (Post.modify (Post.pure ((fin default).elim (a := ()) ?_)))))
      show (if (s1.bounds b).ring.isSome = true ∧ (s1.bounds m).ring.isSome = true then _ else _ : M Unit) s1 = _
      rw [if_neg hc]
      rfl

end

end Wagyu
