import Verif.Proofs.ShapeMinima
import Verif.Props.Shape
import Verif.Spec.Renamed

/-!
# C60: the local minima of a ring depend only on its shape
-/

namespace Wagyu

open Spec Step

/-- The place in `q ++ p` of what is at `j` in `p ++ q`. -/
def turnedIndex (a b j : Nat) : Nat := if j < a then j + b else j - a

/-- The number of a bound when the blocks `p ++ q` have become `q ++ p`. -/
def turnedName (nb nb' a b i : Nat) : Nat := nb' + 2 * turnedIndex a b ((i - nb) / 2) + (i - nb) % 2

theorem turnedName_even (nb nb' a b j : Nat) : turnedName nb nb' a b (nb + 2 * j) = nb' + 2 * turnedIndex a b j := by
  unfold turnedName
  rw [show (nb + 2 * j - nb) / 2 = j by omega, show (nb + 2 * j - nb) % 2 = 0 by omega]; rfl

theorem turnedName_odd (nb nb' a b j : Nat) : turnedName nb nb' a b (nb + 2 * j + 1) = nb' + 2 * turnedIndex a b j + 1 := by
  unfold turnedName
  rw [show (nb + 2 * j + 1 - nb) / 2 = j by omega, show (nb + 2 * j + 1 - nb) % 2 = 1 by omega]

theorem turnedIndex_get {α : Type} (p q : List α) (j : Nat) (h : j < (p ++ q).length) :
    (q ++ p)[turnedIndex p.length q.length j]? = (p ++ q)[j]? := by
  unfold turnedIndex
  rw [List.length_append] at h
  by_cases hj : j < p.length
  · rw [if_pos hj, List.getElem?_append_right (by omega), List.getElem?_append_left hj]
    congr 1; omega
  · rw [if_neg hj, List.getElem?_append_left (by omega), List.getElem?_append_right (by omega)]

theorem minimum_renamed (B : Block) (nb nb' a b j : Nat) :
    renamedMinimum (turnedName nb nb' a b) (B.minimum (nb + 2 * j)) = B.minimum (nb' + 2 * turnedIndex a b j) := by
  unfold Block.minimum renamedMinimum
  split <;> simp only [turnedName_even, turnedName_odd]

theorem minima_turned (p q : List Block) (nb nb' : Nat) :
    ((p ++ q).mapIdx fun i B => B.minimum (nb + 2 * i)).map (renamedMinimum (turnedName nb nb' p.length q.length))
      ~r (q ++ p).mapIdx fun i B => B.minimum (nb' + 2 * i) := by
  have h : ((p ++ q).mapIdx fun i B => B.minimum (nb + 2 * i)).map (renamedMinimum (turnedName nb nb' p.length q.length))
      = (p.mapIdx fun i B => B.minimum (nb' + 2 * (i + q.length))) ++ q.mapIdx fun i B => B.minimum (nb' + 2 * i) := by
    apply List.ext_getElem
    · simp
    · intro i h1 h2
      rw [List.getElem_map, List.getElem_mapIdx, minimum_renamed]
      simp only [List.length_map, List.length_mapIdx, List.length_append] at h1
      unfold turnedIndex
      by_cases hi : i < p.length
      · rw [if_pos hi, List.getElem_append_left hi, List.getElem_append_left (by simpa using hi), List.getElem_mapIdx]
      · rw [if_neg hi, List.getElem_append_right (by omega), List.getElem_append_right (by rw [List.length_mapIdx]; omega),
          List.getElem_mapIdx]
        simp only [List.length_mapIdx]
  rw [h, List.mapIdx_append]
  exact List.isRotated_append

theorem added_turned {kind : PolygonKind} {m m' n n' : Minimums} {p q : List Block} (h : Linked' kind m (p ++ q) m') (h' : Linked' kind n (q ++ p) n') :
    SameAdded m m' n n' (turnedName m.nb n.nb p.length q.length) := by
  have hl := h.nb
  have hl' := h'.nb
  rw [List.length_append] at hl hl'
  have hin : ∀ j, j < p.length + q.length → turnedIndex p.length q.length j < p.length + q.length := by
    intro j hj
    unfold turnedIndex
    split <;> omega
  refine ⟨⟨_, _, h.values, h'.values, minima_turned p q m.nb n.nb⟩, ⟨2 * (p.length + q.length), hl, by omega⟩, ?_, ?_, ?_, h.old, h'.old⟩
  · intro i h1 h2
    have := hin ((i - m.nb) / 2) (by omega)
    unfold turnedName
    omega
  · intro i j h1 h2 h3 h4 hij
    unfold turnedName turnedIndex at hij
    split at hij <;> split at hij <;> omega
  · intro i h1 h2
    obtain ⟨j, hj⟩ : ∃ j, i = m.nb + 2 * j ∨ i = m.nb + 2 * j + 1 := ⟨(i - m.nb) / 2, by omega⟩
    have hjl : j < (p ++ q).length := by rw [List.length_append]; omega
    obtain ⟨B, hB⟩ : ∃ B, (p ++ q)[j]? = some B := ⟨_, List.getElem?_eq_getElem hjl⟩
    have hB' := turnedIndex_get p q j hjl
    rw [hB] at hB'
    rw [List.length_append] at hjl
    rcases hj with rfl | rfl
    · rw [turnedName_even, h'.min _ B hB', h.min _ B hB]
      unfold renamedBound Block.minBound
      simp only [Option.map_some, List.length_append]
      congr 2
      have h3 : (if j = 0 then m.nb + 2 * (p.length + q.length) - 1 else m.nb + 2 * j - 1)
          = m.nb + 2 * (if j = 0 then p.length + q.length - 1 else j - 1) + 1 := by split <;> omega
      rw [h3, turnedName_odd]
      unfold turnedIndex
      split <;> split <;> split <;> (try split) <;> omega
    · rw [turnedName_odd, h'.max _ B hB', h.max _ B hB]
      unfold renamedBound Block.maxBound
      simp only [Option.map_some, List.length_append]
      congr 2
      have h3 : (if j + 1 < p.length + q.length then m.nb + 2 * j + 2 else m.nb)
          = m.nb + 2 * (if j + 1 < p.length + q.length then j + 1 else 0) := by split <;> omega
      rw [h3, turnedName_even]
      unfold turnedIndex
      split <;> split <;> split <;> (try split) <;> omega

/-- **C60.** Two rings of the same shape, added to any two lists of local minima, get the same answer, and lead to the same local minima
in the same circular order, with the same bounds and the same partners, only under other names. -/
theorem C60_minima (fuel fuel' : Nat) (m n : Minimums) (ring ring' : LinearRing) (kind : PolygonKind) (h : SameShape ring ring')
    (hf : 3 * ring.length + 3 ≤ fuel) (hf' : 3 * ring'.length + 3 ≤ fuel')
    (ho : ∀ p ∈ ring, ∀ q ∈ ring, NoOverflow p q) (ho' : ∀ p ∈ ring', ∀ q ∈ ring', NoOverflow p q) :
    ∃ m' n' answer name, m.addLinearRing fuel ring kind = (m', .ok answer) ∧ n.addLinearRing fuel' ring' kind = (n', .ok answer)
      ∧ SameAdded m m' n n' name := by
  have none : SameAdded m m n n id :=
    ⟨⟨[], [], by simp, by simp, .refl _⟩, ⟨0, rfl, rfl⟩, fun i h1 h2 => by omega, fun i j h1 h2 => by omega, fun i h1 h2 => by omega,
      fun _ _ => rfl, fun _ _ => rfl⟩
  rcases addLinearRing_rotated fuel m ring kind hf ho with ⟨h1, h2⟩ | ⟨es, ss, bl, m', h1, h2, h3, h4, h5, h6, h7, h8⟩ <;>
    rcases addLinearRing_rotated fuel' n ring' kind hf' ho' with ⟨k1, k2⟩ | ⟨es', ss', bl', n', k1, k2, k3, k4, k5, k6, k7, k8⟩ <;>
      have hr := (C59_shape hf hf' h1 k1).1 h
  · exact ⟨m, n, false, id, h2, k2, none⟩
  · have e1 := hr.perm.length_eq
    have e2 := k2.perm.length_eq
    rw [List.length_map] at e2
    rw [List.length_nil] at e1
    omega
  · have e1 := hr.perm.length_eq
    have e2 := h2.perm.length_eq
    rw [List.length_map] at e2
    rw [List.length_nil] at e1
    omega
  · have hs : ss ~r ss' := steps_rotated h4 k4 (by omega) ((h2.trans hr).trans k2.symm)
    rw [← h8, ← k8] at hs
    obtain ⟨p, q, rfl, rfl⟩ := blocks_rotated h7 k7 hs
    exact ⟨m', n', true, _, h5, k5, added_turned h6 k6⟩

/-! ## Examples -/

/-- A ring with two local minima, and the same ring from another point on, with a point on a side and a spike. -/
def twoTeeth : LinearRing := [⟨0, 0⟩, ⟨2, 6⟩, ⟨4, 2⟩, ⟨6, 8⟩, ⟨8, 0⟩]
def twoTeethTurned : LinearRing := [⟨8, 0⟩, ⟨9, 0⟩, ⟨0, 0⟩, ⟨2, 6⟩, ⟨4, 2⟩, ⟨6, 8⟩, ⟨7, 4⟩]

theorem turned_teeth : SameShape twoTeethTurned twoTeeth := by
  have h1 : SameShape twoTeethTurned [⟨8, 0⟩, ⟨0, 0⟩, ⟨2, 6⟩, ⟨4, 2⟩, ⟨6, 8⟩, ⟨7, 4⟩] := .drop _ _ _ (onLine_iff.2 (by decide))
  have h2 : SameShape [⟨8, 0⟩, ⟨0, 0⟩, ⟨2, 6⟩, ⟨4, 2⟩, ⟨6, 8⟩, ⟨7, 4⟩] [⟨8, 0⟩, ⟨0, 0⟩, ⟨2, 6⟩, ⟨4, 2⟩, ⟨6, 8⟩] :=
    shape_drop [⟨8, 0⟩, ⟨0, 0⟩, ⟨2, 6⟩, ⟨4, 2⟩] [] (onLine_iff.2 (by decide))
  exact h1.trans (h2.trans (.rotate [⟨8, 0⟩] [⟨0, 0⟩, ⟨2, 6⟩, ⟨4, 2⟩, ⟨6, 8⟩]))

theorem noOverflow_small {ring : LinearRing} (h : ∀ p ∈ ring, ∀ q ∈ ring, |p.x - q.x| ≤ 2 ^ 10) : ∀ p ∈ ring, ∀ q ∈ ring, NoOverflow p q := by
  intro p hp q hq
  unfold NoOverflow
  have h1 : |((p.x - q.x : ℤ) : ℚ)| ≤ 2 ^ 10 := by exact_mod_cast h p hp q hq
  refine h1.trans ?_
  unfold pow2
  rw [if_pos (by decide)]
  exact_mod_cast Nat.pow_le_pow_right (by decide) (by decide)

/-- The two minima come in different orders. -/
example : (Minimums.empty.addLinearRing 40 twoTeeth .subject).1.values.map LocalMinimum.y = [8, 6]
    ∧ (Minimums.empty.addLinearRing 40 twoTeethTurned .subject).1.values.map LocalMinimum.y = [6, 8] := by
  constructor <;> decide +kernel

example : ∃ m' n' answer name, Minimums.empty.addLinearRing 40 twoTeeth .subject = (m', .ok answer)
    ∧ Minimums.empty.addLinearRing 40 twoTeethTurned .subject = (n', .ok answer) ∧ SameAdded Minimums.empty m' Minimums.empty n' name :=
  C60_minima 40 40 _ _ _ _ .subject turned_teeth.symm (by decide) (by decide) (noOverflow_small (by decide)) (noOverflow_small (by decide))

end Wagyu
