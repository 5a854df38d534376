import Verif.Proofs.Given
import Verif.Proofs.VisitsLoop
import Verif.Props.Extent

/-!
# C12 and the first half of C13: the sweep that records hot pixels
-/

namespace Wagyu

open Spec

/-- The exception is one the real program can raise, not one that stands for a loop that did not end within the
model's bound on the number of steps. -/
theorem real_iff (e : Err) : e.Real ↔ e ≠ .fuel ∧ e ≠ .recursion := Iff.rfl

/-- **C12.** After any history of calls, recording the hot pixels for the rings the object holds (coordinates up to
`2 ^ 52`) ends, and when it raises no exception every hot pixel lies in every box `[xlo, xhi] × [ylo, yhi]` that
contains all points of those rings. -/
theorem C12_hot_pixels_in_box (fuel₀ : Nat) (rev : Bool) (cs : List Call) (w : Wagyu) (xlo xhi ylo yhi : Int)
    (hw : ((Wagyu.new rev).calls fuel₀ cs).1 = w) (hfit : ∀ ring ∈ heldRings cs, RingFits fuel₀ ring)
    (hbox : ∀ ring ∈ heldRings cs, ∀ p ∈ ring, (xlo ≤ p.x ∧ p.x ≤ xhi) ∧ ylo ≤ p.y ∧ p.y ≤ yhi) :
    ∃ N, ∀ fuel, N ≤ fuel →
      match buildHotPixels w.minimums.values w.minimums.scanbeams (St.init fuel w.minimums.bounds) with
      | .ok _ s => ∀ p ∈ s.hotPixels, (xlo ≤ p.x ∧ p.x ≤ xhi) ∧ ylo ≤ p.y ∧ p.y ≤ yhi
      | .err e _ => e ≠ .fuel ∧ e ≠ .recursion := by
  have hG := given_of (F := ⟨xlo, xhi, ylo, yhi⟩) hw hfit hbox
  obtain ⟨N, ⟨a, s', h1, h2⟩ | ⟨e, s', h1, h2⟩⟩ := tot_buildHotPixels (fuel := 0) hG
  · refine ⟨N, fun k hk => ?_⟩
    have h1 := h1 k hk
    change buildHotPixels _ _ (St.init k w.minimums.bounds) = _ at h1
    rw [h1]
    exact h2.1
  · refine ⟨N, fun k hk => ?_⟩
    have h2 := h2 k hk
    change buildHotPixels _ _ (St.init k w.minimums.bounds) = _ at h2
    rw [h2]
    exact h1

theorem two_values_le {F : Extent} {m : Minimums} (hG : Given F (fun b => (m.bounds b).edges) m.values) :
    2 * m.values.length ≤ edgeCount m.bounds m.values := by
  have : ∀ l : List LocalMinimum, (∀ v ∈ l, v ∈ m.values) → 2 * l.length ≤ edgeCount m.bounds l := by
    intro l
    induction l with
    | nil => intro _; exact Nat.zero_le _
    | cons v l ih =>
      intro h
      have hv := h v (by simp)
      have := ih fun u hu => h u (by simp [hu])
      have h1 := List.length_pos_of_ne_nil (hG.path v.left (mem_idsOf_left hv)).ne
      have h2 := List.length_pos_of_ne_nil (hG.path v.right (mem_idsOf_right hv)).ne
      unfold edgeCount at this ⊢
      simp only [List.map_cons, List.sum_cons, List.length_cons]
      omega
  exact this _ fun _ h => h

/-- **C13**, first sweep.  After any history of calls, the loop that records the hot pixels visits finitely many scanlines `ys`
in non-increasing y, at most one and a half times as many as there are edges, and then ends, for all large enough bounds
`fuel` on the number of steps of the model's loops (so with the same scanlines for each of them); recording the hot
pixels consists of this loop and a sort, which ends, too. -/
theorem C13_hot_pixel_sweep (fuel₀ : Nat) (rev : Bool) (cs : List Call) (w : Wagyu)
    (hw : ((Wagyu.new rev).calls fuel₀ cs).1 = w) (hfit : ∀ ring ∈ heldRings cs, RingFits fuel₀ ring) :
    ∃ (N : Nat) (ys : List Int), ys.Pairwise (· ≥ ·) ∧ 2 * ys.length ≤ 3 * edgeCount w.minimums.bounds w.minimums.values
      ∧ ∀ fuel, N ≤ fuel → ∃ r,
        Visits hotPixelStep 0 (sortedMinimums w.minimums.values)
          { St.init fuel w.minimums.bounds with scan := w.minimums.scanbeams, abl := [] } ys r
        ∧ (∀ e s, r = .err e s → e ≠ .fuel ∧ e ≠ .recursion)
        ∧ buildHotPixels w.minimums.values w.minimums.scanbeams (St.init fuel w.minimums.bounds)
          = (match r with | .ok _ s => sortHotPixels s | .err e s => .err e s)
        ∧ ∀ e s, buildHotPixels w.minimums.values w.minimums.scanbeams (St.init fuel w.minimums.bounds) = .err e s →
          e ≠ .fuel ∧ e ≠ .recursion := by
  have hG := given_of (F := ⟨-2 ^ 52, 2 ^ 52, -2 ^ 52, 2 ^ 52⟩) hw hfit fun ring hr p hp => by
    obtain ⟨h1, h2⟩ := (hfit ring hr).2 p hp
    exact ⟨abs_le.1 h1, abs_le.1 h2⟩
  obtain ⟨h0, hphi⟩ := hot_start (fuel := 0) hG
  have h2 := two_values_le hG
  obtain ⟨ys, a1, a2, -, N, a3⟩ := visits_of (step := hotPixelStep) (fun Y rest s => HotI _ _ _ Y rest s) (fun rest s => Phi _ _ rest s)
    (fun y Y rest s hJ hne => tot_hotPixelStep hG y hJ hne) _ 0 _ _ _ (Nat.le_refl _) h0
  have a1' : ys.length ≤ w.minimums.values.length + edgeCount w.minimums.bounds w.minimums.values := hphi ▸ a1
  obtain ⟨N', a4⟩ := tot_buildHotPixels (fuel := 0) hG
  refine ⟨max (max N N') (ys.length + 1), ys, a2, by omega, fun k hk => ?_⟩
  have hk1 : N ≤ k := by omega
  have hk2 : N' ≤ k := by omega
  obtain ⟨r, hr, hreal⟩ : ∃ r, Visits hotPixelStep 0 (sortedMinimums w.minimums.values)
      { St.init k w.minimums.bounds with scan := w.minimums.scanbeams, abl := [] } ys r
      ∧ ∀ e s, r = .err e s → e ≠ .fuel ∧ e ≠ .recursion := by
    rcases a3 with ⟨s', Y', -, b⟩ | ⟨e, s', b1, b2⟩
    · exact ⟨_, b k hk1, nofun⟩
    · refine ⟨_, b2 k hk1, ?_⟩
      rintro e s ⟨⟩
      exact b1
  refine ⟨r, hr, hreal, ?_, ?_⟩
  · unfold buildHotPixels
    rw [run_bind, run_modify]
    dsimp only
    rw [run_bind]
    have := visits_iter hr k (by omega)
    unfold loopM
    dsimp only [St.init] at this ⊢
    rw [this]
    cases r <;> rfl
  · intro e s he
    rcases a4 with ⟨a, s', b1, b2⟩ | ⟨e', s', b1, b2⟩
    · have b1 := b1 k hk2
      change buildHotPixels _ _ (St.init k w.minimums.bounds) = _ at b1
      rw [b1] at he; cases he
    · have b2 := b2 k hk2
      change buildHotPixels _ _ (St.init k w.minimums.bounds) = _ at b2
      rw [b2] at he; cases he
      exact b1

/-- Two overlapping triangles, after other calls: the hypotheses hold, and there are hot pixels. -/
example : (∀ ring ∈ heldRings twoTrianglesHistory, RingFits 60 ring)
    ∧ (∀ ring ∈ heldRings twoTrianglesHistory, ∀ p ∈ ring, ((0 : Int) ≤ p.x ∧ p.x ≤ 5) ∧ (0 : Int) ≤ p.y ∧ p.y ≤ 5)
    ∧ (match buildHotPixels ((Wagyu.new false).calls 60 twoTrianglesHistory).1.minimums.values
          ((Wagyu.new false).calls 60 twoTrianglesHistory).1.minimums.scanbeams
          (St.init 60 ((Wagyu.new false).calls 60 twoTrianglesHistory).1.minimums.bounds) with
      | .ok _ s => decide (s.hotPixels = [⟨1, 5⟩, ⟨0, 4⟩, ⟨1, 3⟩, ⟨1, 1⟩, ⟨3, 1⟩, ⟨5, 1⟩, ⟨0, 0⟩, ⟨4, 0⟩])
      | .err _ _ => false) = true := by
  unfold RingFits
  refine ⟨?_, ?_, ?_⟩ <;> decide +kernel

end Wagyu
