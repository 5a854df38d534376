import Verif.Proofs.Tot
import Verif.Props.BubbleSort
import Verif.Props.HotPixelSort

/-!
# The sorts of the sweeps terminate
-/

namespace Wagyu

theorem Steady.liftE {α : Type} {x : Except Err α} (h : ∀ e, x = .error e → e.Real) : Steady (liftE x) := by
  cases x with
  | ok a => exact Steady.pure a
  | error e => exact Steady.raise (h e rfl)

theorem round_real {p : FPoint} : ∀ e, p.round = .error e → e.Real := by
  intro e h
  unfold FPoint.round at h
  split at h
  · cases h
  · cases h; exact ⟨nofun, nofun⟩

theorem getMinX_real {g : Edge} {y : Int} : ∀ e, g.getMinX y = .error e → e.Real := by
  intro e h
  have arith : Err.Real .arithmetic := ⟨nofun, nofun⟩
  have hm : ∀ v, (match roundTowardsMin v with | some n => Except.ok n | none => .error Err.arithmetic : Except Err Int) = .error e → e.Real := by
    intro v hv
    split at hv
    · cases hv
    · cases hv; exact arith
  unfold Edge.getMinX at h
  simp only at h
  split at h
  · cases h
  · split at h
    · split at h
      · cases h
      · exact hm _ h
    · split at h
      · cases h
      · exact hm _ h

theorem getMaxX_real {g : Edge} {y : Int} : ∀ e, g.getMaxX y = .error e → e.Real := by
  intro e h
  have arith : Err.Real .arithmetic := ⟨nofun, nofun⟩
  have hm : ∀ v, (match roundTowardsMax v with | some n => Except.ok n | none => .error Err.arithmetic : Except Err Int) = .error e → e.Real := by
    intro v hv
    split at hv
    · cases hv
    · cases hv; exact arith
  unfold Edge.getMaxX at h
  simp only at h
  split at h
  · cases h
  · split at h
    · split at h
      · cases h
      · exact hm _ h
    · split at h
      · cases h
      · exact hm _ h

instance (p : FPoint) : Steady (liftE p.round) := Steady.liftE round_real
instance (g : Edge) (y : Int) : Steady (liftE (g.getMinX y)) := Steady.liftE getMinX_real
instance (g : Edge) (y : Int) : Steady (liftE (g.getMaxX y)) := Steady.liftE getMaxX_real

theorem bubbleSort_mono {α : Type} (cmp : α → α → Bool) : ∀ (n : Nat) (l : List α) (r : List α × List (α × α)),
    bubbleSort cmp n l = some r → ∀ m, n ≤ m → bubbleSort cmp m l = some r := by
  intro n
  induction n with
  | zero => intro l r h; cases h
  | succ n ih =>
    intro l r h m hm
    obtain ⟨m, rfl⟩ : ∃ k, m = k + 1 := ⟨m - 1, by omega⟩
    rw [bubbleSort] at h ⊢
    revert h
    generalize bubblePassL cmp l = x
    intro h
    dsimp only at h ⊢
    split
    · next hs => rw [if_pos hs] at h; exact h
    · next hs =>
      rw [if_neg hs] at h
      cases hb : bubbleSort cmp n x.1 with
      | none => rw [hb] at h; cases h
      | some y =>
        rw [hb] at h
        rw [ih _ _ hb m (by omega)]
        exact h

/-- Sorting the active bounds, none of which has a current x that is not a number. -/
theorem tot_sortActive {s : St} (hx : ∀ b, some b ∈ s.abl → (s.bounds b).currentX ≠ .nan) :
    Tot sortActive s fun r s' => s' = s ∧ r.1.Perm (s.abl.filterMap id)
      ∧ Spec.AdjSwaps (s.abl.filterMap id) r.2 r.1
      ∧ (∀ a b, (a, b) ∈ r.2 → F64.lt (s.bounds b).currentX (s.bounds a).currentX = true) := by
  have hx' : ∀ i ∈ s.abl.filterMap id, (s.bounds i).currentX ≠ .nan := by
    intro i hi
    obtain ⟨a, ha, e⟩ := List.mem_filterMap.1 hi
    exact hx i (by simpa using e ▸ ha)
  have hc := intersectionCompare_false s.bounds _ hx'
  have has : ∀ a b : Nat, F64.lt (s.bounds a).currentX (s.bounds b).currentX = true →
      ¬ F64.lt (s.bounds b).currentX (s.bounds a).currentX = true := fun a b => F64.lt_asymm _ _
  obtain ⟨r, ss, h⟩ := C09_terminates (intersectionCompare s.bounds)
    (fun a b => F64.lt (s.bounds a).currentX (s.bounds b).currentX = true) has _ hc _ (Nat.lt_succ_self _)
  obtain ⟨h1, h2, h3, _⟩ := C09_result _ _ _ _ _ h
  have hm : ∀ {l : List Nat} {ss r}, Spec.AdjSwaps l ss r → ∀ q ∈ ss, q.1 ∈ l ∧ q.2 ∈ l := by
    intro l ss r h
    induction h with
    | refl => simp
    | @step p s a b ss r h ih =>
      intro q hq
      rcases List.mem_cons.1 hq with rfl | hq
      · simp
      · have := ih q hq
        simp only [List.mem_append, List.mem_cons] at this ⊢
        tauto
  refine ⟨((s.abl.filterMap id).length * (s.abl.filterMap id).length).succ, Or.inl ⟨(r, ss), s, fun k hk => ?_, rfl, h3, h1, fun a b hab => ?_⟩⟩
  rotate_left
  · have := hm h1 _ hab
    exact hc _ this.1 _ this.2 (h2 a b hab)
  · have e := bubbleSort_mono _ _ _ _ h k hk
    show (match bubbleSort (intersectionCompare s.bounds) k (s.abl.filterMap id) with
      | none => raise Err.fuel | some r => pure r : M _) (s.wf k) = _
    rw [e]
    rfl

theorem tot_sortHotPixels {s : St} : Tot sortHotPixels s fun _ s' => ∃ l, s' = { s with hotPixels := l }
    ∧ l.Pairwise BelowOrLeft ∧ ∀ p, p ∈ l ↔ p ∈ s.hotPixels := by
  obtain ⟨l, h1, h2, _, h4⟩ := C10_sorted (s.wf (3 ^ s.hotPixels.length)) (Nat.le_refl _)
  refine ⟨3 ^ s.hotPixels.length, Or.inl ⟨(), { s with hotPixels := l }, fun k hk => ?_, l, rfl, h2, h4⟩⟩
  have hq : ∃ r, quicksort hotPixelsCompare (3 ^ s.hotPixels.length) s.hotPixels = some r ∧ groupKeys r = l := by
    change (match quicksort hotPixelsCompare (3 ^ s.hotPixels.length) s.hotPixels with
      | none => raise Err.fuel | some l => modify fun s => { s with hotPixels := groupKeys l } : M Unit) _ = _ at h1
    cases hq : quicksort hotPixelsCompare (3 ^ s.hotPixels.length) s.hotPixels with
    | none => rw [hq] at h1; cases h1
    | some r =>
      rw [hq] at h1
      have : groupKeys r = l := congrArg (fun x => match x with | Res.ok _ s => s.hotPixels | Res.err _ s => s.hotPixels) h1
      exact ⟨r, rfl, this⟩
  obtain ⟨r, hr, rfl⟩ := hq
  have hr' : quicksort hotPixelsCompare k s.hotPixels = some r := by
    unfold quicksort at hr ⊢
    split
    · next hl => rw [if_pos hl] at hr; exact hr
    · next hl => rw [if_neg hl] at hr; exact qsLoop_mono _ _ _ _ _ hr _ hk
  show (match quicksort hotPixelsCompare k s.hotPixels with
      | none => raise Err.fuel | some l => modify fun s => { s with hotPixels := groupKeys l } : M Unit) (s.wf k) = _
  rw [hr']
  rfl

end Wagyu
