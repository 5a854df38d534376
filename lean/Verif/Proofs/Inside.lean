import Verif.Proofs.Stats
import Verif.Props.Floats
import Mathlib.Tactic.Positivity
import Mathlib.Algebra.Ring.Int.Parity

/-!
# Points inside of rings (point_node.py:166-203)
-/

namespace Wagyu

open Spec

theorem fl_idem (q : ℚ) : (fl q).toDouble = fl q := by
  rw [fl_eq]
  split
  · rfl
  · split
    · rfl
    · rename_i h1 h2
      have : IsDouble (flv q) := flv_isDouble (by rw [abs_lt]; constructor <;> linarith)
      simp only [F64.toDouble, this.fl_eq]

theorem almostZero_ofInt (n : ℤ) : isFloatAlmostZero (.ofInt n) = true ↔ n = 0 := by
  rw [← C18_almost_zero_integer n]
  unfold isFloatAlmostZero areFloatsAlmostEqual packDouble F64.floatOfInt F64.ofInt
  rw [fl_idem]
  rfl

/-- Twice the signed area of the triangle. -/
def det (z p q : Point) : ℤ := (p.x - z.x) * (q.y - z.y) - (q.x - z.x) * (p.y - z.y)

theorem onSegment_iff (p q z : Point) :
    OnSegment (toQ p) (toQ q) (toQ z) ↔
      det z p q = 0 ∧ (z.x - p.x) * (z.x - q.x) ≤ 0 ∧ (z.y - p.y) * (z.y - q.y) ≤ 0 := by
  simp only [OnSegment, toQ]
  constructor
  · rintro ⟨t, t0, t1, hx, hy⟩
    have hx' : (z.x - p.x : ℚ) = t * (q.x - p.x) := by linarith
    have hx'' : (z.x - q.x : ℚ) = -((1 - t) * (q.x - p.x)) := by linarith
    have hy' : (z.y - p.y : ℚ) = t * (q.y - p.y) := by linarith
    have hy'' : (z.y - q.y : ℚ) = -((1 - t) * (q.y - p.y)) := by linarith
    refine ⟨?_, ?_, ?_⟩
    · have : ((det z p q : ℤ) : ℚ) = 0 := by
        unfold det; push_cast
        have a1 : (p.x - z.x : ℚ) = -(t * (q.x - p.x)) := by linarith
        have a2 : (q.y - z.y : ℚ) = (1 - t) * (q.y - p.y) := by linarith
        have a3 : (q.x - z.x : ℚ) = (1 - t) * (q.x - p.x) := by linarith
        have a4 : (p.y - z.y : ℚ) = -(t * (q.y - p.y)) := by linarith
        rw [a1, a2, a3, a4]; ring
      exact_mod_cast this
    · have : (((z.x - p.x) * (z.x - q.x) : ℤ) : ℚ) ≤ 0 := by
        push_cast
        rw [hx', hx'']
        have : 0 ≤ t * (1 - t) * ((q.x - p.x : ℚ)) ^ 2 := mul_nonneg (mul_nonneg t0 (by linarith)) (sq_nonneg _)
        nlinarith
      exact_mod_cast this
    · have : (((z.y - p.y) * (z.y - q.y) : ℤ) : ℚ) ≤ 0 := by
        push_cast
        rw [hy', hy'']
        have : 0 ≤ t * (1 - t) * ((q.y - p.y : ℚ)) ^ 2 := mul_nonneg (mul_nonneg t0 (by linarith)) (sq_nonneg _)
        nlinarith
      exact_mod_cast this
  · rintro ⟨hd, hx, hy⟩
    have hd' : ((p.x - z.x : ℚ)) * (q.y - z.y) - (q.x - z.x) * (p.y - z.y) = 0 := by
      have : ((det z p q : ℤ) : ℚ) = 0 := by rw [hd]; rfl
      unfold det at this; push_cast at this; exact this
    have hx' : ((z.x - p.x : ℚ)) * (z.x - q.x) ≤ 0 := by exact_mod_cast hx
    have hy' : ((z.y - p.y : ℚ)) * (z.y - q.y) ≤ 0 := by exact_mod_cast hy
    have key : ∀ a b c : ℚ, (c - a) * (c - b) ≤ 0 → a ≠ b → 0 ≤ (c - a) / (b - a) ∧ (c - a) / (b - a) ≤ 1 := by
      intro a b c h hab
      rcases lt_or_gt_of_ne hab with h1 | h1
      · have : 0 < b - a := by linarith
        rw [div_le_one this, le_div_iff₀ this]
        constructor <;> nlinarith
      · have : b - a < 0 := by linarith
        rw [div_le_one_of_neg this, le_div_iff_of_neg this]
        constructor <;> nlinarith
    by_cases h1 : (p.x : ℚ) = q.x
    · by_cases h2 : (p.y : ℚ) = q.y
      · refine ⟨0, le_refl _, by norm_num, ?_, ?_⟩
        · rw [h1] at hx'
          have : (z.x - q.x : ℚ) = 0 := by nlinarith
          rw [h1]; linarith
        · rw [h2] at hy'
          have : (z.y - q.y : ℚ) = 0 := by nlinarith
          rw [h2]; linarith
      · obtain ⟨k1, k2⟩ := key p.y q.y z.y hy' h2
        have h2' : (q.y - p.y : ℚ) ≠ 0 := sub_ne_zero.2 (Ne.symm h2)
        refine ⟨_, k1, k2, ?_, ?_⟩
        · rw [h1] at hx'
          have : (z.x - q.x : ℚ) = 0 := by nlinarith
          rw [h1]; linarith
        · rw [div_mul_cancel₀ _ h2']; ring
    · obtain ⟨k1, k2⟩ := key p.x q.x z.x hx' h1
      have h1' : (q.x - p.x : ℚ) ≠ 0 := sub_ne_zero.2 (Ne.symm h1)
      refine ⟨_, k1, k2, ?_, ?_⟩
      · rw [div_mul_cancel₀ _ h1']; ring
      · have : (z.y - p.y : ℚ) * (q.x - p.x) = (z.x - p.x) * (q.y - p.y) := by linarith
        field_simp
        linarith

/-- The iteration of the loop, on integers. -/
def pipInt (z p q : Point) : Option Bool :=
  if q.y = z.y ∧ (q.x = z.x ∨ (p.y = z.y ∧ (z.x < q.x ↔ p.x < z.x))) then none
  else if (p.y < z.y ↔ q.y < z.y) then some false
  else if z.x ≤ p.x ∧ z.x < q.x then some true
  else if z.x ≤ p.x ∨ z.x < q.x then
    if det z p q = 0 then none else some (decide (0 < det z p q ↔ q.y > p.y))
  else some false

theorem pipStep_eq (z p q : Point) : pipStep (.ofInt z.x) (.ofInt z.y) (detInt z) p q = pipInt z p q := by
  have hlt : ∀ a b : ℤ, F64.lt (.ofInt a) (.ofInt b) = decide (a < b) := by
    intro a b; simp [F64.lt, F64.ofInt]
  have heq : ∀ a b : ℤ, F64.eq (.ofInt a) (.ofInt b) = decide (a = b) := by
    intro a b; simp [F64.eq, F64.ofInt]
  have hle : ∀ a b : ℤ, F64.le (.ofInt a) (.ofInt b) = decide (a ≤ b) := by
    intro a b; simp only [F64.le, hlt, heq, ← Bool.decide_or]
    congr 1; apply propext; omega
  have hz : isFloatAlmostZero (detInt z p q) = decide (det z p q = 0) := by
    rw [Bool.eq_iff_iff, decide_eq_true_eq]; exact almostZero_ofInt _
  have hp : F64.lt (.fin 0) (detInt z p q) = decide (0 < det z p q) := hlt 0 (det z p q)
  unfold pipStep pipInt
  simp only [hlt, heq, hle, hz, hp]
  by_cases c1 : q.y = z.y ∧ (q.x = z.x ∨ (p.y = z.y ∧ (z.x < q.x ↔ p.x < z.x)))
  · rw [if_pos c1, if_pos]
    obtain ⟨h1, h2⟩ := c1
    rcases h2 with h2 | ⟨h2, h3⟩
    · simp [h1, h2]
    · simp [h1, h2, h3]
  · rw [if_neg c1, if_neg]
    swap
    · intro h
      apply c1
      simp only [Bool.and_eq_true, decide_eq_true_eq, Bool.or_eq_true, beq_iff_eq, decide_eq_decide] at h
      exact h
    by_cases c2 : p.y < z.y ↔ q.y < z.y
    · rw [if_pos c2, if_neg]
      simp [c2]
    · rw [if_neg c2, if_pos (by simpa [bne_iff_ne, decide_eq_decide] using c2)]
      by_cases c3 : z.x ≤ p.x
      · by_cases c4 : z.x < q.x
        · simp [c3, c4]
        · by_cases c5 : det z p q = 0
          · simp [c3, c4, c5]
          · simp only [c3, c4, c5, decide_true, if_true, decide_false, and_false, if_false, true_or, Bool.false_eq_true]
            congr 1
            rw [Bool.eq_iff_iff]; simp
      · by_cases c4 : z.x < q.x
        · by_cases c5 : det z p q = 0
          · simp [c3, c4, c5]
          · simp only [c3, c4, c5, decide_true, if_true, decide_false, false_and, if_false, or_true, Bool.false_eq_true]
            congr 1
            rw [Bool.eq_iff_iff]; simp
        · simp [c3, c4]

theorem pipInt_none {z p q : Point} (h : pipInt z p q = none) : OnSegment (toQ p) (toQ q) (toQ z) := by
  rw [onSegment_iff]
  unfold pipInt at h
  unfold det at *
  split at h
  · rename_i c
    obtain ⟨h1, h2⟩ := c
    rcases h2 with h2 | ⟨h2, h3⟩
    · refine ⟨by rw [h1, h2]; ring, by rw [h2]; simp, by rw [h1]; simp⟩
    · refine ⟨by rw [h1, h2]; ring, ?_, by rw [h1]; simp⟩
      by_cases h4 : z.x < q.x
      · have := h3.1 h4; nlinarith
      · have : ¬ p.x < z.x := fun h => h4 (h3.2 h)
        nlinarith
  · split at h
    · cases h
    · rename_i c1 c2
      split at h
      · cases h
      · split at h
        · split at h
          · rename_i c3 c4 c5
            refine ⟨c5, ?_, ?_⟩
            · rcases c4 with c4 | c4
              · have : ¬ z.x < q.x := fun h => c3 ⟨c4, h⟩
                nlinarith
              · have : ¬ z.x ≤ p.x := fun h => c3 ⟨h, c4⟩
                nlinarith
            · by_cases c6 : p.y < z.y
              · have : ¬ q.y < z.y := fun h => c2 ⟨fun _ => h, fun _ => c6⟩
                nlinarith
              · have : q.y < z.y := by by_contra h; exact c2 ⟨fun h' => absurd h' c6, fun h' => absurd h' h⟩
                nlinarith
          · cases h
        · cases h

theorem pipInt_of_onSegment {z p q : Point} (h : OnSegment (toQ p) (toQ q) (toQ z)) (hz : z ≠ p) : pipInt z p q = none := by
  rw [onSegment_iff] at h
  obtain ⟨hd, hx, hy⟩ := h
  have hz' : z.x ≠ p.x ∨ z.y ≠ p.y := by
    by_contra hc; push Not at hc
    exact hz (by cases z; cases p; simp_all)
  unfold pipInt
  split
  · rfl
  · rename_i c1
    by_cases hqy : q.y = z.y
    · exfalso
      apply c1
      refine ⟨hqy, ?_⟩
      by_cases hqx : q.x = z.x
      · exact Or.inl hqx
      · right
        have hpy : p.y = z.y := by
          unfold det at hd
          rw [hqy] at hd
          have : (q.x - z.x) * (p.y - z.y) = 0 := by linarith
          rcases mul_eq_zero.1 this with h | h <;> omega
        refine ⟨hpy, ?_⟩
        have hxp : z.x ≠ p.x := by rcases hz' with h | h <;> omega
        constructor
        · intro h; by_contra hc
          have : 0 < (z.x - p.x) * (z.x - q.x) := mul_pos_of_neg_of_neg (by omega) (by omega)
          omega
        · intro h; by_contra hc
          have : 0 < (z.x - p.x) * (z.x - q.x) := mul_pos (by omega) (by omega)
          omega
    · by_cases hpy : p.y = z.y
      · exfalso
        unfold det at hd
        rw [hpy] at hd
        have : (p.x - z.x) * (q.y - z.y) = 0 := by linarith
        rcases mul_eq_zero.1 this with h | h <;> omega
      · have hyy : ¬ (p.y < z.y ↔ q.y < z.y) := by
          intro hc
          by_cases h : p.y < z.y
          · have := hc.1 h
            have : 0 < (z.y - p.y) * (z.y - q.y) := mul_pos (by omega) (by omega)
            omega
          · have : ¬ q.y < z.y := fun h' => h (hc.2 h')
            have : 0 < (z.y - p.y) * (z.y - q.y) := mul_pos_of_neg_of_neg (by omega) (by omega)
            omega
        rw [if_neg hyy]
        have c3 : ¬ (z.x ≤ p.x ∧ z.x < q.x) := by
          rintro ⟨h1, h2⟩
          rcases eq_or_lt_of_le h1 with h1 | h1
          · unfold det at hd
            have e : p.x - z.x = 0 := by omega
            have : (q.x - z.x) * (p.y - z.y) = 0 := by rw [e] at hd; linarith
            rcases mul_eq_zero.1 this with h | h <;> omega
          · have : 0 < (z.x - p.x) * (z.x - q.x) := mul_pos_of_neg_of_neg (by omega) (by omega)
            omega
        rw [if_neg c3]
        have c4 : z.x ≤ p.x ∨ z.x < q.x := by
          by_contra hc; push Not at hc
          rcases eq_or_lt_of_le hc.2 with h2 | h2
          · unfold det at hd
            have e : q.x - z.x = 0 := by omega
            have : (p.x - z.x) * (q.y - z.y) = 0 := by rw [e] at hd; linarith
            rcases mul_eq_zero.1 this with h | h <;> omega
          · have : 0 < (z.x - p.x) * (z.x - q.x) := mul_pos (by omega) (by omega)
            omega
        simp [c4]

/-- `crossing` with the other half-open rule. -/
def crossing' (z p q : Point) : ℤ :=
  if p.y < z.y ∧ z.y ≤ q.y ∧ 0 < det z p q then 1
  else if q.y < z.y ∧ z.y ≤ p.y ∧ det z p q < 0 then -1
  else 0

theorem pipInt_some {z p q : Point} {b : Bool} (hz : z ≠ p) (h : pipInt z p q = some b) : b = true ↔ crossing' z p q ≠ 0 := by
  have hsign : crossing' z p q ≠ 0 ↔ (p.y < z.y ∧ z.y ≤ q.y ∧ 0 < det z p q) ∨ (q.y < z.y ∧ z.y ≤ p.y ∧ det z p q < 0) := by
    unfold crossing'
    split
    · simp_all
    · split
      · simp_all
      · simp_all
  rw [hsign]
  unfold pipInt at h
  split at h
  · cases h
  · rename_i c1
    split at h
    · rename_i c2
      cases h
      constructor
      · intro h; cases h
      · rintro (h | h) <;> omega
    · rename_i c2
      split at h
      · rename_i c3
        cases h
        simp only [true_iff]
        obtain ⟨h1, h2⟩ := c3
        unfold det
        by_cases c4 : p.y < z.y
        · left
          have : ¬ q.y < z.y := fun h => c2 ⟨fun _ => h, fun _ => c4⟩
          refine ⟨c4, by omega, ?_⟩
          have a1 : 0 ≤ (p.x - z.x) * (q.y - z.y) := mul_nonneg (by omega) (by omega)
          have a2 : (q.x - z.x) * (p.y - z.y) < 0 := mul_neg_of_pos_of_neg (by omega) (by omega)
          omega
        · right
          have : q.y < z.y := by by_contra h; exact c2 ⟨fun h' => absurd h' c4, fun h' => absurd h' h⟩
          refine ⟨this, by omega, ?_⟩
          have a1 : (p.x - z.x) * (q.y - z.y) ≤ 0 := mul_nonpos_of_nonneg_of_nonpos (by omega) (by omega)
          have a2 : 0 ≤ (q.x - z.x) * (p.y - z.y) := mul_nonneg (by omega) (by omega)
          rcases eq_or_lt_of_le a1 with a1 | a1
          · rcases eq_or_lt_of_le a2 with a2 | a2
            · exfalso
              rcases mul_eq_zero.1 a1 with e | e
              · rcases mul_eq_zero.1 a2.symm with e' | e'
                · omega
                · exact hz (by cases z; cases p; simp only [Point.mk.injEq]; constructor <;> simp at e e' <;> omega)
              · omega
            · omega
          · omega
      · rename_i c3
        split at h
        · rename_i c4
          split at h
          · cases h
          · rename_i c5
            cases h
            rw [decide_eq_true_eq]
            omega
        · rename_i c4
          cases h
          simp only [Bool.false_eq_true, false_iff]
          push Not at c4
          unfold det
          rintro (⟨h1, h2, h3⟩ | ⟨h1, h2, h3⟩)
          · have a1 : (p.x - z.x) * (q.y - z.y) ≤ 0 := mul_nonpos_of_nonpos_of_nonneg (by omega) (by omega)
            have a2 : 0 ≤ (q.x - z.x) * (p.y - z.y) := mul_nonneg_of_nonpos_of_nonpos (by omega) (by omega)
            omega
          · have a1 : 0 ≤ (p.x - z.x) * (q.y - z.y) := mul_nonneg_of_nonpos_of_nonpos (by omega) (by omega)
            have a2 : (q.x - z.x) * (p.y - z.y) ≤ 0 := mul_nonpos_of_nonpos_of_nonneg (by omega) (by omega)
            omega

theorem crossing_potential {z p q : Point} (h : ¬ OnSegment (toQ p) (toQ q) (toQ z)) :
    crossing z p q = crossing' z p q
      + ((if p.y = z.y ∧ z.x < p.x then 1 else 0) - (if q.y = z.y ∧ z.x < q.x then 1 else 0)) := by
  rw [onSegment_iff] at h
  have hD : (q.x - p.x) * (z.y - p.y) - (z.x - p.x) * (q.y - p.y) = det z p q := by unfold det; ring
  unfold crossing crossing'
  rw [hD]
  have sgn : ∀ a b : ℤ, 0 < b → ((0 < a * b ↔ 0 < a) ∧ (a * b < 0 ↔ a < 0)) := by
    intro a b hb
    exact ⟨⟨fun h => by by_contra hc; nlinarith, fun h => mul_pos h hb⟩, ⟨fun h => by by_contra hc; nlinarith, fun h => by nlinarith⟩⟩
  by_cases hq : q.y = z.y
  · have e : det z p q = (q.x - z.x) * (z.y - p.y) := by unfold det; rw [hq]; ring
    by_cases hp : p.y = z.y
    · have hx : ¬ (z.x - p.x) * (z.x - q.x) ≤ 0 := fun hx => h ⟨by rw [e, hp]; ring, hx, by rw [hp]; simp⟩
      have : z.x < p.x ↔ z.x < q.x := by
        constructor
        · intro h1; by_contra h2; exact hx (by nlinarith)
        · intro h1; by_contra h2; exact hx (by nlinarith)
      rw [hp, hq]
      simp only [lt_irrefl, false_and, and_false, if_false, true_and, this]
      omega
    · rcases lt_or_gt_of_ne hp with hp' | hp'
      · obtain ⟨s1, s2⟩ := sgn (q.x - z.x) (z.y - p.y) (by omega)
        rw [← e] at s1 s2
        split_ifs <;> omega
      · obtain ⟨s1, s2⟩ := sgn (-(q.x - z.x)) (p.y - z.y) (by omega)
        rw [show -(q.x - z.x) * (p.y - z.y) = det z p q by rw [e]; ring] at s1 s2
        split_ifs <;> omega
  · by_cases hp : p.y = z.y
    · have e : det z p q = (p.x - z.x) * (q.y - z.y) := by unfold det; rw [hp]; ring
      rcases lt_or_gt_of_ne hq with hq' | hq'
      · obtain ⟨s1, s2⟩ := sgn (-(p.x - z.x)) (z.y - q.y) (by omega)
        rw [show -(p.x - z.x) * (z.y - q.y) = det z p q by rw [e]; ring] at s1 s2
        split_ifs <;> omega
      · obtain ⟨s1, s2⟩ := sgn (p.x - z.x) (q.y - z.y) (by omega)
        rw [← e] at s1 s2
        split_ifs <;> omega
    · split_ifs <;> omega

/-! ## The loop -/

/-- The loop over the steps of a path: `none` is `return ON`. -/
def pipPath (z : Point) : List Point → Bool → Option Bool
  | p :: q :: r, inside =>
    match pipInt z p q with
    | none => none
    | some t => pipPath z (q :: r) (if t then !inside else inside)
  | _, inside => some inside

/-- The result of the loop. -/
def pipResult : Option Bool → PointInPolygonResult
  | none => .on
  | some true => .inside
  | some false => .outside

theorem pip_run {s : St} {z : Point} {a : Nat} : ∀ (l : List Nat) (c n : Nat) (inside : Bool),
    (c :: l ++ [a]).IsChain (Link s.nodes) → a ∉ l → l.length < n →
    iter n (fun (c : Nat × Bool) => do
      let op ← pointOf c.1
      let nextId ← nextOf c.1
      let next ← pointOf nextId
      match pipStep (.ofInt z.x) (.ofInt z.y) (detInt z) op next with
      | none => pure (.inr .on)
      | some t =>
        let inside := if t then !c.2 else c.2
        if nextId = a then pure (.inr (if inside then .inside else .outside))
        else pure (.inl (nextId, inside))) (c, inside) s
    = .ok (pipResult (pipPath z (pointsOf s.nodes (c :: l ++ [a])) inside)) s := by
  intro l
  induction l with
  | nil =>
    intro c n inside hc _ hn
    obtain ⟨n, rfl⟩ : ∃ m, n = m + 1 := ⟨n - 1, by simp at hn; omega⟩
    have hl : Link s.nodes c a := by simpa using hc
    simp only [pointsOf, List.cons_append, List.nil_append, List.map_cons, List.map_nil, pipPath]
    cases hp : pipInt z (locOf s.nodes c) (locOf s.nodes a) with
    | none =>
      apply iter_inr
      simp only [run_bind, run_pointOf, run_nextOf hl.1, pipStep_eq, hp, run_pure, pipResult]
    | some t =>
      apply iter_inr
      simp only [run_bind, run_pointOf, run_nextOf hl.1, pipStep_eq, hp, if_true, run_pure]
      cases h : (if t = true then !inside else inside) <;> simp [pipResult]
  | cons d l ih =>
    intro c n inside hc ha hn
    obtain ⟨n, rfl⟩ : ∃ m, n = m + 1 := ⟨n - 1, by simp at hn; omega⟩
    rw [List.cons_append, List.cons_append, List.isChain_cons_cons] at hc
    have hda : d ≠ a := fun e => ha (by simp [e])
    simp only [pointsOf, List.cons_append, List.map_cons, pipPath]
    cases hp : pipInt z (locOf s.nodes c) (locOf s.nodes d) with
    | none =>
      apply iter_inr
      simp only [run_bind, run_pointOf, run_nextOf hc.1.1, pipStep_eq, hp, run_pure, pipResult]
    | some t =>
      rw [iter_inl (y := (d, if t = true then !inside else inside)) (s' := s)]
      · rw [ih d n _ (by simpa using hc.2) (fun e => ha (by simp [e])) (by simp at hn ⊢; omega)]
        rfl
      · simp only [run_bind, run_pointOf, run_nextOf hc.1.1, pipStep_eq, hp, hda, if_false, run_pure]

theorem pipPath_none {z : Point} : ∀ (vs : List Point) (b : Bool),
    pipPath z vs b = none ↔ ∃ p q, [p, q] <:+: vs ∧ pipInt z p q = none
  | [], b => by simp [pipPath]
  | [x], b => by
    simp only [pipPath, reduceCtorEq, false_iff]
    rintro ⟨p, q, ⟨l, r, h⟩, -⟩
    have := congrArg List.length h
    simp at this; omega
  | x :: y :: vs, b => by
    have key : ∀ p q, [p, q] <:+: x :: y :: vs ↔ (p = x ∧ q = y) ∨ [p, q] <:+: y :: vs := by
      intro p q
      rw [List.infix_cons_iff]
      simp [List.cons_prefix_cons]
    simp only [pipPath]
    cases hp : pipInt z x y with
    | none =>
      simp only [true_iff]
      exact ⟨x, y, (key x y).2 (Or.inl ⟨rfl, rfl⟩), hp⟩
    | some t =>
      simp only
      rw [pipPath_none (y :: vs)]
      constructor
      · rintro ⟨p, q, h1, h2⟩; exact ⟨p, q, (key p q).2 (Or.inr h1), h2⟩
      · rintro ⟨p, q, h1, h2⟩
        rcases (key p q).1 h1 with ⟨rfl, rfl⟩ | h
        · rw [hp] at h2; cases h2
        · exact ⟨p, q, h, h2⟩

theorem pipPath_some {z : Point} : ∀ (vs : List Point) (b r : Bool), z ∉ vs → pipPath z vs b = some r →
    (r = true ↔ Odd (pathSum (crossing' z) vs + if b then 1 else 0))
  | [], b, r, _, h => by
    simp only [pipPath, Option.some.injEq] at h; subst h
    cases b <;> simp [pathSum]
  | [x], b, r, _, h => by
    simp only [pipPath, Option.some.injEq] at h; subst h
    cases b <;> simp [pathSum]
  | x :: y :: vs, b, r, hz, h => by
    simp only [pipPath] at h
    cases hp : pipInt z x y with
    | none => rw [hp] at h; cases h
    | some t =>
      rw [hp] at h
      have ih := pipPath_some (y :: vs) _ r (fun e => hz (by simp at e ⊢; tauto)) h
      have ht := pipInt_some (fun e => hz (by simp [e])) hp
      rw [ih, pathSum]
      have h3 : crossing' z x y = 1 ∨ crossing' z x y = -1 ∨ crossing' z x y = 0 := by unfold crossing'; split_ifs <;> simp
      generalize crossing' z x y = k at *
      generalize pathSum (crossing' z) (y :: vs) = w
      simp only [Int.odd_iff]
      cases t <;> cases b <;> simp at ht ⊢ <;> omega

theorem onRing_iff {z a : Point} {t : List Point} :
    OnRing z (a :: t) ↔ ∃ p q, [p, q] <:+: a :: t ++ [a] ∧ pipInt z p q = none := by
  constructor
  · rintro ⟨p, q, h1, h2⟩
    by_cases hz : z = p
    · -- the step into `p`
      obtain ⟨l, r, h⟩ := h1
      have hstep : ∃ o, [o, p] <:+: a :: t ++ [a] := by
        rcases List.eq_nil_or_concat l with rfl | ⟨l', o, rfl⟩
        · -- `p` is the first point, and also the last one
          have hpa : p = a := by simp at h; exact h.1
          have hr : ∃ m o, a :: t ++ [a] = m ++ [o, a] := by
            rcases List.eq_nil_or_concat t with rfl | ⟨t', o, rfl⟩
            · exact ⟨[], a, by simp⟩
            · exact ⟨a :: t', o, by simp⟩
          obtain ⟨m, o, hm⟩ := hr
          exact ⟨o, m, [], by rw [hm, hpa]; simp⟩
        · exact ⟨o, l', q :: r, by rw [← h]; simp⟩
      obtain ⟨o, ho⟩ := hstep
      refine ⟨o, p, ho, ?_⟩
      unfold pipInt
      rw [if_pos]; rw [hz]; exact ⟨rfl, Or.inl rfl⟩
    · exact ⟨p, q, h1, pipInt_of_onSegment h2 hz⟩
  · rintro ⟨p, q, h1, h2⟩; exact ⟨p, q, h1, pipInt_none h2⟩

theorem mem_onRing {z : Point} {l : List Point} (h : z ∈ l) : OnRing z l := by
  cases l with
  | nil => cases h
  | cons a t =>
    obtain ⟨l1, l2, e⟩ := List.append_of_mem h
    have : ∃ q, [z, q] <:+: a :: t ++ [a] := by
      cases l2 with
      | nil => exact ⟨a, l1, [], by rw [e]; simp⟩
      | cons b l2 => exact ⟨b, l1, l2 ++ [a], by rw [e]; simp⟩
    obtain ⟨q, hq⟩ := this
    exact ⟨z, q, hq, 0, le_refl _, by norm_num, by simp, by simp⟩

theorem windingNumber_crossing' {z : Point} {l : List Point} (h : ¬ OnRing z l) : windingNumber z l = ringSum (crossing' z) l := by
  cases l with
  | nil => rfl
  | cons a t =>
    have hp : ∀ (vs : List Point) (x y : Point), vs <:+: a :: t ++ [a] → vs.head? = some x → vs.getLast? = some y →
        pathSum (crossing z) vs = pathSum (crossing' z) vs
          + ((if x.y = z.y ∧ z.x < x.x then 1 else 0) - (if y.y = z.y ∧ z.x < y.x then 1 else 0)) := by
      intro vs
      induction vs with
      | nil => intro x y _ h; cases h
      | cons b vs ih =>
        intro x y hi h1 h2
        simp at h1; subst h1
        cases vs with
        | nil => simp at h2; subst h2; simp [pathSum]
        | cons c vs =>
          have hi' : c :: vs <:+: a :: t ++ [a] := (List.infix_cons (List.infix_refl _)).trans hi
          have hbc : [b, c] <:+: a :: t ++ [a] := (List.IsPrefix.isInfix ⟨vs, by simp⟩).trans hi
          have := ih c y hi' (by simp) (by simpa using h2)
          simp only [pathSum]
          rw [this, crossing_potential (fun ho => h ⟨b, c, hbc, ho⟩)]
          ring
    show pathSum _ (a :: t ++ [a]) = pathSum _ (a :: t ++ [a])
    rw [hp _ a a (List.infix_refl _) (by simp) (by rw [List.getLast?_concat])]
    ring

theorem pointInPolygon_run {s : St} {a : Nat} {t : List Nat} (hl : IsCycle s.nodes (a :: t)) (hf : t.length < s.fuel) (z : Point) :
    pointInPolygon z a s = .ok (pipResult (pipPath z (pointsOf s.nodes (a :: t ++ [a])) false)) s := by
  unfold pointInPolygon pointInPolygonWith
  rw [run_loopM]
  exact pip_run t a s.fuel false hl.2 (List.nodup_cons.1 hl.1).1 hf

end Wagyu
