import Verif.Proofs.LastSearch

/-!
# `correct_self_intersections(True)`
-/

namespace Wagyu

open Spec

section
variable {s s' : St} {L L' : Nat → List Nat}

theorem LI.unfuel {f : Nat} (h : LI (s.wf f) L) : LI s L := ⟨⟨h.ti.own, h.ti.sound, h.ti.blank⟩, h.known, h.once⟩
theorem Relinked.unfuel {f : Nat} (h : Relinked s L (s'.wf f) L') : Relinked s L s' L' := ⟨h.nn, h.nr, h.all, h.loc, h.kept, h.back, h.total⟩

theorem Splits.relinked {r : Nat} (h : Splits r s L s' L') (hs : TI s L) : Relinked s L s' L' := by
  refine ⟨h.step.nn, h.step.nr, h.step.all, h.step.loc, fun i k hi => ?_, fun i k hi => ?_, h.total⟩
  · by_cases e : k = r
    · subst e; exact h.kept i hi
    · exact ⟨k, by rw [(h.others k (hs.own.lt hi) e).1]; exact hi⟩
  · by_cases e : k = r ∨ s.nr ≤ k
    · exact ⟨r, h.fewer k e i hi⟩
    · push Not at e
      exact ⟨k, by rw [← (h.others k e.2 e.1).1]; exact hi⟩

theorem ok_findAndCorrect (h : LI s L) {r : Nat} (hne : L r ≠ []) :
    Ok (findAndCorrectRepeatedPoints r) s fun _ s' => ∃ L', LI s' L' ∧ Relinked s L s' L' ∧ Once s' (L' r) := by
  refine Post.imp (Ok.of_ends' (E := fun _ => False) (ends_findAndCorrect h.ti hne)) ?_
  rintro acc s1 ⟨-, f, L1, h1, -, h2⟩
  have ho : ∀ k, k = r ∨ s.nr ≤ k → Once (s1.wf f) (L1 k) := fun k hk => by
    refine once_of ?_ fun i hi j hj hij hl => ?_
    · by_cases e : L1 k = []
      · rw [e]; exact List.nodup_nil
      · exact (h1.step.ti.own.cycle k e).2.nodup
    · refine h2 i (h1.fewer k hk i hi) j (h1.fewer k hk j hj) hij ?_ k hi hj
      rw [← h1.step.loc, ← h1.step.loc]; exact hl
  refine ⟨L1, LI.unfuel (f := f) ⟨h1.step.ti, fun k hk => h1.areas h.known k hk, fun k hk => ?_⟩, (h1.relinked h.ti).unfuel, ho r (.inl rfl)⟩
  by_cases e : k = r ∨ s.nr ≤ k
  · exact ho k e
  · push Not at e
    obtain ⟨e1, e2⟩ := h1.others k e.2 e.1
    rw [e1]
    exact (h.once k (by rw [← e2]; exact hk)).congr h1.step.loc

theorem ok_correctRing (h : LI s L) (r : Nat) :
    Ok (correctRingSelfIntersections r true) s fun b s' => (∃ L', LI s' L' ∧ Relinked s L s' L') ∧ (b = false → s = s' ∧ Once s (L r)) := by
  unfold correctRingSelfIntersections
  refine Post.bind (Post.getRing ?_)
  refine Post.ite (fun e => Post.pure ⟨⟨L, h, Relinked.refl s L⟩, fun _ => ⟨rfl, ?_⟩⟩) fun e => ?_
  · rw [Bool.or_eq_true] at e
    rcases e with e | e
    · exact h.once r e
    · rw [h.ti.own.head r] at e
      have : L r = [] := by simpa using e
      rw [this]; exact List.nodup_nil
  · have hne : L r ≠ [] := by
      intro hne
      rw [h.ti.own.head r, hne] at e
      simp at e
    refine Post.bind ((ok_findAndCorrect h hne).imp ?_)
    rintro acc s1 ⟨L1, h1, h2, h3⟩
    rw [if_pos rfl]
    refine Post.bind ((Ok.hush (inferInstance : Pres Hush (assignNewRingParents r acc)) h1.ti h1.known).imp fun _ s2 k => ?_)
    refine Post.bind (Post.modRing (Post.pure ⟨⟨L1, ?_, ?_⟩, by simp⟩))
    · have k2 := k.li h1
      refine ⟨k2.ti.corrected rfl, fun q hq => ?_, fun q hq => ?_⟩
      · dsimp only
        by_cases e : q = r
        · subst e; rw [Wagyu.upd_same]; exact k2.known q hq
        · rw [Wagyu.upd_ne _ _ e]; exact k2.known q hq
      · dsimp only at hq
        by_cases e : q = r
        · subst e; exact h3.congr fun i => by dsimp only; rw [k.nodes]
        · rw [Wagyu.upd_ne _ _ e] at hq
          exact (k2.once q hq).congr fun i => rfl
    · have := h2.trans (k.relinked (L := L1))
      exact ⟨this.nn, this.nr, this.all, this.loc, this.kept, this.back, this.total⟩

theorem ok_correctSelfTrue (h : LI s L) :
    Ok (correctSelfIntersections true) s fun b s' => ∃ L', LI s' L' ∧ Relinked s L s' L' ∧ (b = false → ∀ k, Once s' (L' k)) := by
  unfold correctSelfIntersections
  have go : ∀ (rest : List Nat) (acc : Bool) (s1 : St) (L1 : Nat → List Nat), LI s1 L1 → Relinked s L s1 L1 →
      (acc = false → ∀ k, k ∉ rest → Once s1 (L1 k)) →
      Ok (correctSelfIntersections.go true rest acc) s1 fun b s' => ∃ L', LI s' L' ∧ Relinked s L s' L' ∧ (b = false → ∀ k, Once s' (L' k)) := by
    intro rest
    induction rest with
    | nil =>
      intro acc s1 L1 h1 h2 h3
      rw [correctSelfIntersections.go]
      exact Post.pure ⟨L1, h1, h2, fun e k => h3 e k (by simp)⟩
    | cons r rest ih =>
      intro acc s1 L1 h1 h2 h3
      rw [correctSelfIntersections.go]
      refine Post.bind ((ok_correctRing h1 r).imp ?_)
      rintro b s2 ⟨⟨L2, k1, k2⟩, k3⟩
      cases b with
      | true => exact ih _ s2 L2 k1 (h2.trans k2) (by simp)
      | false =>
        obtain ⟨rfl, k4⟩ := k3 rfl
        refine ih _ s1 L1 h1 h2 fun e k hk => ?_
        by_cases hkr : k = r
        · subst hkr; exact k4
        · exact h3 (by simpa using e) k (by simp [hk, hkr])
  refine Post.bind (Post.imp (Post.and (Ok.hush (inferInstance : Pres Hush sortedRings) h.ti h.known) (Ok.of_ends (E := fun _ => False) (ends_sortedRings h.ti))) ?_)
  rintro rings s1 ⟨h1, f, -, hperm⟩
  refine go rings false s1 L (h1.li h) h1.relinked fun _ k hk => ?_
  have : L k = [] := by
    by_contra hne
    exact hk (hperm.mem_iff.2 (List.mem_range.2 (h.ti.own.cycle k hne).1))
  rw [this]; exact List.nodup_nil

end

end Wagyu
