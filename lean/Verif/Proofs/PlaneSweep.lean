import Verif.Proofs.PlaneInput
import Verif.Proofs.SweepFairStep

/-!
# The active bounds wind like the held rings
-/

namespace Wagyu

open Spec

section
variable {s0 : St} {A rest : List LocalMinimum} {s : St} {y : Int} {z : QPoint} {v : ℚ} {c : Point → Point → ℤ}

theorem crossingAt_above {p q : Point} (hp : (p.y : ℚ) ≤ z.2) (hq : (q.y : ℚ) ≤ z.2) : crossingAt z p q = 0 := by
  unfold crossingAt
  rw [if_neg fun h => absurd h.2.1 (not_lt.2 hq), if_neg fun h => absurd h.2.1 (not_lt.2 hp)]

theorem crossingAt_below {p q : Point} (hp : z.2 < (p.y : ℚ)) (hq : z.2 < (q.y : ℚ)) : crossingAt z p q = 0 := by
  unfold crossingAt
  rw [if_neg fun h => absurd h.1 (not_le.2 hp), if_neg fun h => absurd h.1 (not_le.2 hq)]

/-- A quantity of directed segments that vanishes on segments that do not meet the row. -/
structure OnRow (v : ℚ) (c : Point → Point → ℤ) : Prop where
  above : ∀ p q : Point, (p.y : ℚ) ≤ v → (q.y : ℚ) ≤ v → c p q = 0
  below : ∀ p q : Point, v < (p.y : ℚ) → v < (q.y : ℚ) → c p q = 0

theorem crossingAt_onRow (z : QPoint) : OnRow z.2 (crossingAt z) := ⟨fun _ _ => crossingAt_above, fun _ _ => crossingAt_below⟩

/-- How a step crosses the row. -/
def rowCrossing (v : ℚ) (p q : Point) : ℤ := (if v < (q.y : ℚ) then 1 else 0) - if v < (p.y : ℚ) then 1 else 0

theorem rowCrossing_onRow (v : ℚ) : OnRow v (rowCrossing v) :=
  ⟨fun p q hp hq => by unfold rowCrossing; rw [if_neg (not_lt.2 hp), if_neg (not_lt.2 hq)]; rfl,
   fun p q hp hq => by unfold rowCrossing; rw [if_pos hp, if_pos hq]; rfl⟩

theorem rowCrossing_addsUp (v : ℚ) : AddsUpOnLines (rowCrossing v) := by intro p q r _; unfold rowCrossing; omega

theorem pathSum_row (v : ℚ) : ∀ (a : Point) (l : List Point) (b : Point), pathSum (rowCrossing v) (a :: l ++ [b]) = rowCrossing v a b
  | a, [], b => by simp [pathSum]
  | a, c :: l, b => by
    have := pathSum_row v c l b
    rw [List.cons_append, List.cons_append, pathSum, ← List.cons_append, this]
    unfold rowCrossing; omega

theorem ringSum_row (v : ℚ) (ring : List Point) : ringSum (rowCrossing v) ring = 0 := by
  cases ring with
  | nil => rfl
  | cons a l => rw [ringSum, pathSum_row]; unfold rowCrossing; omega

theorem sum_eq_single {l : List Edge} {g : Edge → ℤ} {i : Nat} {e : Edge} (hi : l[i]? = some e)
    (h : ∀ j f, l[j]? = some f → j ≠ i → g f = 0) : (l.map g).sum = g e := by
  induction l generalizing i with
  | nil => simp at hi
  | cons a l ih =>
    rw [List.map_cons, List.sum_cons]
    cases i with
    | zero =>
      simp only [List.getElem?_cons_zero, Option.some.injEq] at hi
      subst hi
      have : (l.map g).sum = 0 := by
        refine List.sum_eq_zero fun x hx => ?_
        obtain ⟨f, hf, rfl⟩ := List.mem_map.1 hx
        obtain ⟨j, hj⟩ := List.mem_iff_getElem?.1 hf
        exact h (j + 1) f (by simpa using hj) (by omega)
      omega
    | succ i =>
      rw [ih (by simpa using hi) fun j f hf hj => h (j + 1) f (by simpa using hf) (by omega), h 0 a rfl (by omega)]
      omega

/-- The current edge of an active bound is the only edge of it that meets the rows between the scanline and the next one. -/
theorem Walk.current_only (hc : OnRow v c) (hM : Mated s0 A) (hw : Walk y s0 A rest s) (hV : VI (fun b => (s0.bounds b).edges) A y rest s)
    (hz : v < y) (hscan : ∀ u ∈ s.scan, (u : ℚ) ≤ v) {b : Nat} (hb : b ∈ Wagyu.act s) {e : Edge} (he : (s.bounds b).currentEdge? = some e) :
    boundSum (c) (s0.bounds b) = (s0.bounds b).windingDelta * c e.bottom e.top := by
  have hpath := hM.path b (hw.act b hb).1
  have he' : (s0.bounds b).edges[(s.bounds b).curIdx]? = some e := by rw [← hw.static.edges]; exact he
  unfold boundSum
  congr 1
  refine sum_eq_single (g := fun e => c e.bottom e.top) he' fun j f hf hj => ?_
  have hfle := hpath.le f (List.mem_of_getElem? hf)
  rcases Nat.lt_or_gt_of_ne hj with hj | hj
  · have h1 := hpath.down hj hf he'
    have h2 := hw.low b hb e he
    have h3 : (y : ℚ) ≤ f.top.y := by exact_mod_cast h2.trans h1
    have h4 : (y : ℚ) ≤ f.bottom.y := by exact_mod_cast (h2.trans h1).trans hfle
    exact hc.below _ _ (lt_of_lt_of_le hz h4) (lt_of_lt_of_le hz h3)
  · have h1 := hpath.down hj he' hf
    have hlt := (List.getElem?_eq_some_iff.1 hf).1
    obtain ⟨n, hn⟩ : ∃ n, (s.bounds b).nextEdge? = some n := by
      refine ⟨(s.bounds b).edges[(s.bounds b).curIdx + 1]'(by rw [hw.static.edges]; omega), ?_⟩
      unfold Bound.nextEdge?
      rw [hw.idx b hb]
      exact List.getElem?_eq_getElem _
    have h2 := (hV.span b (mem_act.1 hb) e n he hn).resolve_left (hV.done b (mem_act.1 hb) e n he hn)
    have h3 : (f.bottom.y : ℚ) ≤ v := le_trans (by exact_mod_cast h1) (hscan _ h2)
    exact hc.above _ _ h3 (le_trans (by exact_mod_cast hfle) h3)

theorem Walk.ended_none (hc : OnRow v c) (hM : Mated s0 A) (hw : Walk y s0 A rest s) (hz : v < y) {b : Nat} (hb : b ∈ idsOf A) (hn : b ∉ Wagyu.act s) (hr : b ∉ idsOf rest) :
    boundSum (c) (s0.bounds b) = 0 := by
  have hpath := hM.path b hb
  have ht := hw.gone b hb hn hr
  have hl := List.getLast?_eq_some_getLast hpath.ne
  have ht := ht _ hl
  rw [List.getLast?_eq_getElem?] at hl
  generalize (s0.bounds b).edges.getLast hpath.ne = e at *
  unfold boundSum
  rw [List.sum_eq_zero, mul_zero]
  intro x hx
  obtain ⟨f, hf, rfl⟩ := List.mem_map.1 hx
  obtain ⟨j, hj⟩ := List.mem_iff_getElem?.1 hf
  have hfle := hpath.le f hf
  have h1 : y ≤ f.top.y := by
    by_cases hje : j = (s0.bounds b).edges.length - 1
    · subst hje; rw [hl] at hj; rw [← Option.some.inj hj]; exact ht
    · have := (List.getElem?_eq_some_iff.1 hj).1
      have h1 := hpath.down (by omega) hj hl
      have := hpath.le e (List.mem_of_getElem? hl)
      omega
  have h3 : (y : ℚ) ≤ f.top.y := by exact_mod_cast h1
  have h4 : (y : ℚ) ≤ f.bottom.y := by exact_mod_cast h1.trans hfle
  exact hc.below _ _ (lt_of_lt_of_le hz h4) (lt_of_lt_of_le hz h3)

theorem Walk.pending_none (hc : OnRow v c) (hM : Mated s0 A) (hO : Opens s0 A) (hsub : ∀ m ∈ rest, m ∈ A) (hrest : ∀ m ∈ rest, (m.y : ℚ) ≤ v) {b : Nat} (hb : b ∈ idsOf rest) :
    boundSum (c) (s0.bounds b) = 0 := by
  obtain ⟨m, hm, hb⟩ := List.mem_flatMap.1 hb
  have hmz := hrest m hm
  have hmA := hsub m hm
  have hbA : b ∈ idsOf A := List.mem_flatMap.2 ⟨m, hmA, hb⟩
  have hb : b = m.left ∨ b = m.right := by simpa using hb
  have hpath := hM.path b hbA
  obtain ⟨e, l, e', l', h1, h2, h3, h4, -⟩ := hO m hmA
  obtain ⟨g, hg, hgy⟩ : ∃ g, (s0.bounds b).edges[0]? = some g ∧ g.bottom.y = m.y := by
    rcases hb with rfl | rfl
    · exact ⟨e, by rw [h1]; rfl, h3⟩
    · exact ⟨e', by rw [h2]; rfl, h4⟩
  unfold boundSum
  rw [List.sum_eq_zero, mul_zero]
  intro x hx
  obtain ⟨f, hf, rfl⟩ := List.mem_map.1 hx
  obtain ⟨j, hj⟩ := List.mem_iff_getElem?.1 hf
  have hfle := hpath.le f hf
  have h1 : f.bottom.y ≤ m.y := by
    by_cases hje : j = 0
    · subst hje; rw [hg] at hj; rw [← Option.some.inj hj]; omega
    · have h1 := hpath.down (Nat.pos_of_ne_zero hje) hg hj
      have := hpath.le g (List.mem_of_getElem? hg)
      omega
  have h3 : (f.bottom.y : ℚ) ≤ v := le_trans (by exact_mod_cast h1) hmz
  exact hc.above _ _ h3 (le_trans (by exact_mod_cast hfle) h3)

theorem sum_sub_perm {l l' : List Nat} {g : Nat → ℤ} (hl : l.Nodup) (hl' : l'.Nodup) (hs : ∀ b ∈ l', b ∈ l) (h : ∀ b ∈ l, b ∉ l' → g b = 0) :
    (l.map g).sum = (l'.map g).sum := by
  have hp : (l.filter (· ∈ l')).Perm l' := by
    rw [List.perm_ext_iff_of_nodup (hl.filter _) hl']
    intro b
    simp only [List.mem_filter, decide_eq_true_eq]
    exact ⟨fun h => h.2, fun h => ⟨hs b h, h⟩⟩
  rw [← (hp.map g).sum_eq]
  clear hp hs hl hl'
  induction l with
  | nil => rfl
  | cons a l ih =>
    rw [List.map_cons, List.sum_cons, ih fun b hb hn => h b (by simp [hb]) hn]
    by_cases ha : a ∈ l'
    · rw [List.filter_cons_of_pos (by simpa using ha), List.map_cons, List.sum_cons]
    · rw [List.filter_cons_of_neg (by simpa using ha), h a (by simp) ha, zero_add]

/-- `c` of the current edge of a bound. -/
def curSum (c : Point → Point → ℤ) (b : Bound) : ℤ := match b.currentEdge? with
  | none => 0
  | some e => c e.bottom e.top

theorem Walk.winds (hc : OnRow v c) (hM : Mated s0 A) (hO : Opens s0 A) (hA : (idsOf A).Nodup) (hw : Walk y s0 A rest s) (hV : VI (fun b => (s0.bounds b).edges) A y rest s)
    (hz : v < y) (hscan : ∀ u ∈ s.scan, (u : ℚ) ≤ v) (k : PolygonKind) :
    kindSum (c) s0.bounds (idsOf A) k
      = ((Wagyu.act s).map fun b => if (s.bounds b).polygonKind = k then (s.bounds b).windingDelta * curSum c (s.bounds b) else 0).sum := by
  unfold kindSum
  rw [sum_sub_perm hA hw.nodup (fun b hb => (hw.act b hb).1) fun b hb hn => ?_]
  · congr 1
    refine List.map_congr_left fun b hb => ?_
    rw [(hw.static b).1, (hw.static b).2.1]
    split
    · have he : (s.bounds b).currentEdge? = some ((s.bounds b).edges[(s.bounds b).curIdx]'(hw.inside b hb)) := List.getElem?_eq_getElem _
      rw [hw.current_only hc hM hV hz hscan hb he]
      unfold curSum
      rw [he]
    · rfl
  · split
    · by_cases hr : b ∈ idsOf rest
      · refine Walk.pending_none hc hM hO hw.sub (fun m hm => hscan _ ?_) hr
        exact (hV.restScan m hm).resolve_left (hV.later m hm)
      · exact hw.ended_none hc hM hz hb hn hr
    · rfl

end

end Wagyu
