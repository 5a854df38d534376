import Verif.Proofs.SweepRunMeet
import Verif.Proofs.KeepVatti
import Verif.Spec.Scanlines

/-!
# A scanline is a sequence of events
-/

namespace Wagyu

open Spec

instance (y : Int) : Quiet (popScan y) := by unfold popScan; quiet
instance (i : Nat) : Quiet (setCurrentHotPixelIndex i) := by unfold setCurrentHotPixelIndex; quiet
instance (y : Int) : Quiet (updateCurrentHotPixelIndex y) := by unfold updateCurrentHotPixelIndex; quiet

section
variable {op : OperationKind} {sf cf : FillKind} {s0 : St} {A rest : List LocalMinimum} {s : St} {α β : Type} {y : Int}

theorem Run.bare {s' : St} (h : Run op sf cf s0 A rest s) (h1 : s'.abl = s.abl) (h2 : s'.nr = s.nr) (h3 : s'.bounds = s.bounds) :
    Run op sf cf s0 A rest s' :=
  h.quiet (by unfold Wagyu.act; rw [h1]) h2 (fun b => by rw [h3]) fun b hb => by rw [h3]; exact h.idx b hb

/-- Only what the sweep does not read about bounds. -/
def Bare (s s' : St) : Prop := s'.abl = s.abl ∧ s'.nr = s.nr ∧ s'.bounds = s.bounds

instance : Preo Bare where
  refl _ := ⟨rfl, rfl, rfl⟩
  trans h k := ⟨k.1.trans h.1, k.2.1.trans h.2.1, k.2.2.trans h.2.2⟩

instance Bare.i1 (y : Int) : Pres Bare (popScan y) := by
  unfold popScan
  refine Pres.bind ⟨fun _ => Preo.refl _⟩ fun _ => ?_
  split
  · pres
  · exact Pres.bind ⟨fun _ => ⟨rfl, rfl, rfl⟩⟩ fun _ => inferInstance

instance Bare.i2 (y : Int) : Pres Bare (updateCurrentHotPixelIndex y) := by
  have : ∀ i, Pres Bare (setCurrentHotPixelIndex i) := fun i => ⟨fun _ => ⟨rfl, rfl, rfl⟩⟩
  unfold updateCurrentHotPixelIndex; pres

/-- One scanline. -/
theorem run_step {lo hi : Int} (hM : Mates s0 A) (hX : ∀ y, InR lo hi y → ∀ b ∈ idsOf A, ∀ e ∈ (s0.bounds b).edges, e.getCurrentX y ≠ .nan)
    (hr : RowInv lo hi s) (hy : InR lo hi y ∨ s.scan ≠ []) (hs : Run op sf cf s0 A rest s) (hf : Full s) :
    Post (vattiStep op sf cf y rest) s (fun r s' => Run op sf cf s0 A r.2 s' ∧ Full s') OnlyCross := by
  unfold vattiStep
  refine Post.bind (((Ok.quiet (sk_popScan hr hy)).only.and (Ok.pres (R := Bare) inferInstance)).imp ?_)
  rintro y' s1 ⟨⟨-, hy'⟩, b1⟩
  have r1 := hs.bare b1.1 b1.2.1 b1.2.2
  have f1 : Full s1 := by unfold Full; rw [b1.1]; exact hf
  refine Post.bind ((run_intersections (hX y' hy') r1 f1).imp fun _ s2 h2 => ?_)
  refine Post.bind ((Ok.quiet (Ok.pres (R := Bare) inferInstance)).only.imp fun _ s3 b3 => ?_)
  have r3 := h2.1.bare b3.1 b3.2.1 b3.2.2
  refine Post.bind ((run_topOfScanbeam hM r3).imp fun r s4 h4 => ?_)
  exact Post.bind ((run_insertMinima hM r s4 h4.1 h4.2).imp fun r' s5 h5 => Post.pure h5)

/-- The state at the end of every scanline. -/
theorem run_passes {lo hi : Int} (hM : Mates s0 A) (hX : ∀ y, InR lo hi y → ∀ b ∈ idsOf A, ∀ e ∈ (s0.bounds b).edges, e.getCurrentX y ≠ .nan)
    {y0 : Int} {rest0 : List LocalMinimum} {s1 : St} (hr : RowInv lo hi s1) (hy : InR lo hi y0 ∨ s1.scan ≠ [] ∨ rest0 = [])
    (hs : Run op sf cf s0 A rest0 s1) (hf : Full s1) (h : Passes (vattiStep op sf cf) y0 rest0 s1 y rest s) :
    Run op sf cf s0 A rest s ∧ Full s ∧ RowInv lo hi s ∧ (InR lo hi y ∨ s.scan ≠ [] ∨ rest = []) := by
  induction h with
  | start => exact ⟨hs, hf, hr, hy⟩
  | next hp hne e ih =>
    obtain ⟨i1, i2, i3, i4⟩ := ih
    have i4' : InR lo hi _ ∨ _ ≠ [] := i4.elim .inl fun h => h.elim .inr fun h => .inr fun h' => hne ⟨h', h⟩
    have := (run_step hM hX i3 i4' i1 i2).ok e
    have k := (sk_vattiStep (op := op) (sf := sf) (cf := cf) i3 i4').elim e
    exact ⟨this.1, this.2, k.1, .inl k.2⟩

end

end Wagyu
