import Verif.Proofs.Quicksort

/-!
# C10: the hot pixels end up sorted without duplicates
-/

namespace Wagyu

/-- The order of the hot pixels: from the bottom (large `y`) up, and from left to right. -/
def BelowOrLeft (a b : Point) : Prop := b.y < a.y ∨ (a.y = b.y ∧ a.x < b.x)

theorem hotPixels_sortSpec : SortSpec hotPixelsCompare (fun a b => BelowOrLeft a b ∨ a = b) where
  cmp_iff := by
    intro p e
    obtain ⟨px, py⟩ := p
    obtain ⟨ex, ey⟩ := e
    simp only [hotPixelsCompare, BelowOrLeft, Bool.or_eq_true, Bool.and_eq_true, decide_eq_true_eq, Point.mk.injEq]
    omega
  total := by
    intro a b
    obtain ⟨ax, ay⟩ := a
    obtain ⟨bx, by'⟩ := b
    simp only [BelowOrLeft, Point.mk.injEq]
    omega
  trans := by
    intro a b c
    obtain ⟨ax, ay⟩ := a
    obtain ⟨bx, by'⟩ := b
    obtain ⟨cx, cy⟩ := c
    simp only [BelowOrLeft, Point.mk.injEq]
    omega

section
variable {α : Type} [DecidableEq α]

theorem mem_groupKeys (l : List α) : ∀ x, x ∈ groupKeys l ↔ x ∈ l := by
  fun_induction groupKeys l with
  | case1 => simp
  | case2 a => simp
  | case3 b l ih => intro x; rw [ih]; simp
  | case4 a b l h ih => intro x; simp only [List.mem_cons, ih]

theorem groupKeys_pairwise (lt : α → α → Prop) (htr : ∀ a b c, lt a b → lt b c → lt a c) (l : List α)
    (h : l.Pairwise fun a b => lt a b ∨ a = b) : (groupKeys l).Pairwise lt := by
  fun_induction groupKeys l with
  | case1 => exact List.Pairwise.nil
  | case2 a => simp
  | case3 b l ih =>
    apply ih
    exact (List.pairwise_cons.1 h).2
  | case4 a b l hab ih =>
    rw [List.pairwise_cons] at h
    rw [List.pairwise_cons]
    refine ⟨?_, ih h.2⟩
    have hlt : lt a b := by
      rcases h.1 b (by simp) with h | h
      · exact h
      · exact absurd h hab
    intro x hx
    rw [mem_groupKeys] at hx
    rcases List.mem_cons.1 hx with rfl | hx
    · exact hlt
    · rcases (List.pairwise_cons.1 h.2).1 x hx with h' | rfl
      · exact htr _ _ _ hlt h'
      · exact hlt

end

/-- **C10.** Sorting the recorded hot pixels terminates, changes nothing but the list of hot pixels, and leaves them
ordered strictly by descending `y` and then ascending `x` - hence without duplicates - with exactly the recorded points. -/
theorem C10_sorted (s : St) (hf : 3 ^ s.hotPixels.length ≤ s.fuel) :
    ∃ l, sortHotPixels s = .ok () { s with hotPixels := l } ∧ l.Pairwise BelowOrLeft ∧ l.Nodup
      ∧ ∀ p, p ∈ l ↔ p ∈ s.hotPixels := by
  obtain ⟨r, h1, h2, h3⟩ := quicksort_spec hotPixelsCompare _ hotPixels_sortSpec s.fuel s.hotPixels hf
  have hp := groupKeys_pairwise BelowOrLeft (by
    intro a b c
    obtain ⟨ax, ay⟩ := a
    obtain ⟨bx, by'⟩ := b
    obtain ⟨cx, cy⟩ := c
    simp only [BelowOrLeft]
    omega) r h3
  refine ⟨groupKeys r, ?_, hp, ?_, ?_⟩
  · simp [sortHotPixels, gets, bind, M.bind, modify, h1]
  · apply hp.imp
    rintro a b h rfl
    simp only [BelowOrLeft] at h
    omega
  · intro p; rw [mem_groupKeys]; exact h2.mem_iff

/-- **C10.** Whenever the sort returns at all, its result is as described: no assumption on the steps available. -/
theorem C10_sorted_of_returns (s s' : St) (h : sortHotPixels s = .ok () s') :
    s'.hotPixels.Pairwise BelowOrLeft ∧ s'.hotPixels.Nodup ∧ ∀ p, p ∈ s'.hotPixels ↔ p ∈ s.hotPixels := by
  obtain ⟨l, h1, h2, h3, h4⟩ := C10_sorted { s with fuel := max s.fuel (3 ^ s.hotPixels.length) } (le_max_right _ _)
  have hq : ∃ r, quicksort hotPixelsCompare s.fuel s.hotPixels = some r := by
    cases hq : quicksort hotPixelsCompare s.fuel s.hotPixels with
    | none => simp [sortHotPixels, gets, bind, M.bind, hq, raise] at h
    | some r => exact ⟨r, rfl⟩
  obtain ⟨r, hr⟩ := hq
  have hr' : quicksort hotPixelsCompare (max s.fuel (3 ^ s.hotPixels.length)) s.hotPixels = some r := by
    unfold quicksort at hr ⊢
    split
    · next hl => rw [if_pos hl] at hr; exact hr
    · next hl => rw [if_neg hl] at hr; exact qsLoop_mono _ _ _ _ _ hr _ (le_max_left _ _)
  have e1 : s'.hotPixels = groupKeys r := by
    simp [sortHotPixels, gets, bind, M.bind, modify, hr] at h
    rw [← h]
  have e2 : l = groupKeys r := by
    simp [sortHotPixels, gets, bind, M.bind, modify, hr'] at h1
    exact h1.symm
  rw [e1, ← e2]
  exact ⟨h2, h3, h4⟩

/-- A list with repetitions that needs sorting, and enough fuel for it. -/
example : quicksort hotPixelsCompare 20 [⟨1, 1⟩, ⟨5, 7⟩, ⟨1, 1⟩, ⟨0, 7⟩, ⟨5, 7⟩, ⟨2, 3⟩]
    = some [⟨0, 7⟩, ⟨5, 7⟩, ⟨5, 7⟩, ⟨2, 3⟩, ⟨1, 1⟩, ⟨1, 1⟩] ∧ groupKeys [1, 1, 2, 2, 2, 3] = [1, 2, 3] := by
  decide +kernel

end Wagyu
