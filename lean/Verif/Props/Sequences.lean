import Verif.Model.Sweep
import Mathlib.Data.List.Rotate
import Mathlib.Data.List.Sort
import Mathlib.Tactic.Linarith
import Mathlib.Tactic.Ring

/-!
# C32, C11: `rotate_sequence` and `insort_unique`
-/

namespace Wagyu

/-! ## C32 -/

theorem pyClamp_le (n : Nat) (i : Int) (h : i.natAbs < n) : pyClamp n i ≤ n := by
  unfold pyClamp; split <;> omega

theorem rotateSequence_eq {α : Type} (l : List α) (i : Int) (h : i.natAbs < l.length) :
    rotateSequence l i = l.rotate (i % l.length).toNat := by
  unfold rotateSequence
  split
  · next hi =>
    have hle := pyClamp_le l.length i hi.2
    rw [← List.rotate_eq_drop_append_take hle]
    congr 1
    unfold pyClamp
    split
    · rw [Int.emod_eq_of_lt (by omega) (by omega)]; omega
    · have := Int.add_emod_right i l.length
      rw [← this, Int.emod_eq_of_lt (by omega) (by omega)]
  · next hi =>
    have : i = 0 := by omega
    subst this
    simp

/-- **C32.** For an index of magnitude below the length, the element at position `j` of the result is the element at
position `j + index`, counted cyclically. -/
theorem C32_rotates {α : Type} (l : List α) (i : Int) (h : i.natAbs < l.length) (j : Nat) (hj : j < l.length) :
    (rotateSequence l i)[j]? = l[((j + i) % l.length).toNat]? := by
  rw [rotateSequence_eq l i h, List.getElem?_rotate hj]
  congr 1
  have hpos : (0 : ℤ) < l.length := by omega
  have h0 := Int.emod_nonneg i hpos.ne'
  have h1 := Int.emod_nonneg (j + i) hpos.ne'
  zify
  rw [Int.toNat_of_nonneg h0, Int.toNat_of_nonneg h1, Int.add_emod_emod]

/-- **C32.** For any other index the sequence is returned unchanged. -/
theorem C32_out_of_range {α : Type} (l : List α) (i : Int) (h : l.length ≤ i.natAbs) : rotateSequence l i = l := by
  unfold rotateSequence
  rw [if_neg (by omega)]

/-- **C32.** The result is a cyclic rotation of the argument, for every index. -/
theorem C32_is_rotation {α : Type} (l : List α) (i : Int) : rotateSequence l i ~r l := by
  by_cases h : i.natAbs < l.length
  · rw [rotateSequence_eq l i h]
    exact (List.IsRotated.symm ⟨_, rfl⟩)
  · rw [C32_out_of_range l i (by omega)]

/-- **C32.** Rotating by `k` and then by `-k` restores the sequence. -/
theorem C32_restore {α : Type} (l : List α) (k : Int) : rotateSequence (rotateSequence l k) (-k) = l := by
  by_cases h : k.natAbs < l.length
  · have hl : (rotateSequence l k).length = l.length := by rw [rotateSequence_eq l k h, List.length_rotate]
    rw [rotateSequence_eq _ (-k) (by rw [hl]; omega), hl, rotateSequence_eq l k h, List.rotate_rotate]
    have hpos : (0 : ℤ) < l.length := by omega
    have h0 := Int.emod_nonneg k hpos.ne'
    have h1 := Int.emod_nonneg (-k) hpos.ne'
    have hd : (l.length : ℤ) ∣ (k % l.length) + ((-k) % l.length) := by
      apply Int.dvd_of_emod_eq_zero
      rw [← Int.add_emod]; simp
    have : l.length ∣ (k % l.length).toNat + ((-k) % l.length).toNat := by
      zify
      rw [Int.toNat_of_nonneg h0, Int.toNat_of_nonneg h1]
      exact hd
    obtain ⟨c, hc⟩ := this
    rw [hc, List.rotate_length_mul]
  · rw [C32_out_of_range l k (by omega), C32_out_of_range l (-k) (by omega)]

example : rotateSequence [10, 20, 30, 40] 1 = [20, 30, 40, 10] ∧ rotateSequence [10, 20, 30, 40] (-1) = [40, 10, 20, 30]
    ∧ rotateSequence [10, 20, 30, 40] 4 = [10, 20, 30, 40] := by decide

/-! ## C11 -/

theorem bisectLeft_spec (l : List Int) (x : Int) (hl : l.Pairwise (· ≤ ·)) :
    ∀ (fuel lo hi : Nat), hi - lo ≤ fuel → lo ≤ hi → hi ≤ l.length →
      (∀ j < lo, l.getD j 0 < x) → (∀ j, hi ≤ j → j < l.length → x ≤ l.getD j 0) →
      ∃ r, bisectLeft l x fuel lo hi = r ∧ r ≤ l.length ∧ (∀ j < r, l.getD j 0 < x)
        ∧ (∀ j, r ≤ j → j < l.length → x ≤ l.getD j 0) := by
  have mono : ∀ i j, i ≤ j → j < l.length → l.getD i 0 ≤ l.getD j 0 := by
    intro i j hij hj
    rcases Nat.eq_or_lt_of_le hij with rfl | hlt
    · exact le_refl _
    · have := List.pairwise_iff_getElem.1 hl i j (by omega) hj hlt
      simpa [List.getD_eq_getElem?_getD, List.getElem?_eq_getElem hj, List.getElem?_eq_getElem (show i < l.length by omega)] using this
  intro fuel
  induction fuel with
  | zero =>
    intro lo hi h1 h2 h3 h4 h5
    have : lo = hi := by omega
    subst this
    exact ⟨lo, rfl, h3, h4, h5⟩
  | succ n ih =>
    intro lo hi h1 h2 h3 h4 h5
    rw [bisectLeft]
    split
    · next hlt =>
      dsimp only
      split
      · next hm =>
        apply ih _ _ (by omega) (by omega) h3 _ h5
        intro j hj
        exact lt_of_le_of_lt (mono j _ (by omega) (by omega)) hm
      · next hm =>
        apply ih _ _ (by omega) (by omega) (by omega) h4
        intro j h6 h7
        exact le_trans (not_lt.1 hm) (mono _ j h6 h7)
    · have : lo = hi := by omega
      subst this
      exact ⟨lo, rfl, h3, h4, h5⟩

theorem insortUnique_cases (l : List Int) (v : Int) (hl : l.Pairwise (· ≤ ·)) :
    (v ∈ l ∧ insortUnique l v = l)
      ∨ (v ∉ l ∧ ∃ a b, l = a ++ b ∧ insortUnique l v = a ++ v :: b ∧ (∀ x ∈ a, x < v) ∧ ∀ x ∈ b, v < x) := by
  obtain ⟨r, hr, h1, h2, h3⟩ := bisectLeft_spec l v hl l.length 0 l.length (by omega) (by omega) le_rfl
    (fun _ h => absurd h (Nat.not_lt_zero _)) (fun j h h' => absurd h' (by omega))
  have ha : ∀ x ∈ l.take r, x < v := by
    intro x hx
    obtain ⟨j, hj, rfl⟩ := List.getElem_of_mem hx
    rw [List.length_take] at hj
    have := h2 j (by omega)
    rw [List.getElem_take]
    rwa [List.getD_eq_getElem?_getD, List.getElem?_eq_getElem (by omega)] at this
  have hb : ∀ x ∈ l.drop r, v ≤ x := by
    intro x hx
    obtain ⟨j, hj, rfl⟩ := List.getElem_of_mem hx
    rw [List.length_drop] at hj
    have := h3 (r + j) (by omega) (by omega)
    rw [List.getElem_drop]
    rwa [List.getD_eq_getElem?_getD, List.getElem?_eq_getElem (by omega)] at this
  have hsplit : l = l.take r ++ l.drop r := (List.take_append_drop r l).symm
  have hm : ∀ x, x ∈ l ↔ x ∈ l.take r ∨ x ∈ l.drop r := by
    intro x; rw [← List.mem_append, ← hsplit]
  unfold insortUnique
  simp only [hr]
  split
  · next hc =>
    right
    have hb' : ∀ x ∈ l.drop r, v < x := by
      rcases hc with hc | hc
      · rw [hc, List.drop_length]; simp
      · intro x hx
        rcases lt_or_ge r l.length with hlt | hge
        · rw [List.getD_eq_getElem?_getD, List.getElem?_eq_getElem hlt, Option.getD_some] at hc
          rw [List.drop_eq_getElem_cons hlt] at hx
          rcases List.mem_cons.1 hx with rfl | hx
          · exact hc
          · have hp := hl
            rw [hsplit, List.drop_eq_getElem_cons hlt] at hp
            exact lt_of_lt_of_le hc ((List.pairwise_cons.1 (List.pairwise_append.1 hp).2.1).1 x hx)
        · rw [List.drop_eq_nil_of_le hge] at hx; cases hx
    refine ⟨?_, _, _, hsplit, rfl, ha, hb'⟩
    intro hv
    rcases (hm v).1 hv with h | h
    · exact lt_irrefl _ (ha v h)
    · exact lt_irrefl _ (hb' v h)
  · next hc =>
    left
    refine ⟨?_, rfl⟩
    simp only [not_or, not_lt] at hc
    have hlt : r < l.length := by omega
    have hge := h3 r le_rfl hlt
    have heq : v = l.getD r 0 := le_antisymm hge hc.2
    rw [heq, List.getD_eq_getElem?_getD, List.getElem?_eq_getElem hlt]
    exact List.getElem_mem hlt

/-- **C11.** Inserting keeps the queue sorted. -/
theorem C11_sorted (l : List Int) (v : Int) (hl : l.Pairwise (· ≤ ·)) : (insortUnique l v).Pairwise (· ≤ ·) := by
  rcases insortUnique_cases l v hl with ⟨_, h⟩ | ⟨_, a, b, rfl, h, ha, hb⟩
  · rwa [h]
  · rw [h]
    rw [List.pairwise_append] at hl ⊢
    refine ⟨hl.1, List.pairwise_cons.2 ⟨fun x hx => (hb x hx).le, hl.2.1⟩, ?_⟩
    intro x hx y hy
    rcases List.mem_cons.1 hy with rfl | hy
    · exact (ha x hx).le
    · exact hl.2.2 x hx y hy

/-- **C11.** A queue without duplicates stays so. -/
theorem C11_strictly_sorted (l : List Int) (v : Int) (hl : l.Pairwise (· < ·)) : (insortUnique l v).Pairwise (· < ·) := by
  rcases insortUnique_cases l v (hl.imp le_of_lt) with ⟨_, h⟩ | ⟨_, a, b, rfl, h, ha, hb⟩
  · rwa [h]
  · rw [h]
    rw [List.pairwise_append] at hl ⊢
    refine ⟨hl.1, List.pairwise_cons.2 ⟨hb, hl.2.1⟩, ?_⟩
    intro x hx y hy
    rcases List.mem_cons.1 hy with rfl | hy
    · exact ha x hx
    · exact hl.2.2 x hx y hy

/-- **C11.** A coordinate that is already queued changes nothing; a new one is added, and nothing else. -/
theorem C11_adds_only (l : List Int) (v : Int) (hl : l.Pairwise (· ≤ ·)) :
    (v ∈ l → insortUnique l v = l) ∧ (v ∉ l → (insortUnique l v).Perm (v :: l)) := by
  rcases insortUnique_cases l v hl with ⟨hv, h⟩ | ⟨hv, a, b, rfl, h, _, _⟩
  · exact ⟨fun _ => h, fun h' => absurd hv h'⟩
  · refine ⟨fun h' => absurd h' hv, fun _ => ?_⟩
    rw [h]
    exact List.perm_middle

theorem C11_mem (l : List Int) (v x : Int) (hl : l.Pairwise (· ≤ ·)) : x ∈ insortUnique l v ↔ x = v ∨ x ∈ l := by
  rcases insortUnique_cases l v hl with ⟨hv, h⟩ | ⟨_, a, b, rfl, h, _, _⟩
  · rw [h]; constructor
    · exact Or.inr
    · rintro (rfl | h') <;> assumption
  · rw [h]; simp only [List.mem_append, List.mem_cons]; tauto

/-- **C11.** The scanline taken next, the last of the queue, is the largest one pending. -/
theorem C11_next_is_largest (l : List Int) (v m : Int) (hl : l.Pairwise (· ≤ ·))
    (hm : (insortUnique l v).getLast? = some m) : (m = v ∨ m ∈ l) ∧ v ≤ m ∧ ∀ x ∈ l, x ≤ m := by
  have hs := C11_sorted l v hl
  have hmem := List.mem_of_getLast? hm
  obtain ⟨a, ha⟩ := List.getLast?_eq_some_iff.1 hm
  have hmax : ∀ x ∈ insortUnique l v, x ≤ m := by
    intro x hx
    rw [ha] at hs hx
    rcases List.mem_append.1 hx with h | h
    · exact (List.pairwise_append.1 hs).2.2 x h m (by simp)
    · simp at h; exact h.le
  refine ⟨(C11_mem l v m hl).1 hmem, hmax v ((C11_mem l v v hl).2 (Or.inl rfl)), ?_⟩
  intro x hx
  exact hmax x ((C11_mem l v x hl).2 (Or.inr hx))

example : insortUnique [1, 4, 4, 9] 6 = [1, 4, 4, 6, 9] ∧ insortUnique [1, 4, 4, 9] 4 = [1, 4, 4, 9]
    ∧ insortUnique [1, 4, 4, 9] 12 = [1, 4, 4, 9, 12] ∧ [1, 4, 4, 9].Pairwise (· ≤ ·) := by decide

end Wagyu
