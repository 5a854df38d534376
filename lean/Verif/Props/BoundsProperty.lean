import Verif.Model.BoundsProperty
import Mathlib.Algebra.Order.Group.Int

/-!
# C05: `Wagyu.bounds` is not an observation
-/

namespace Wagyu

/-- The bounds of the minima, in the order they are read. -/
def boundsInOrder (minimums : List (List EdgeRef × List EdgeRef)) : List (List EdgeRef) :=
  minimums.flatMap fun m => [m.1, m.2]

theorem foldl_readBound (minimums : List (List EdgeRef × List EdgeRef)) (s : BoundsState) :
    minimums.foldl (fun s m => readBound m.2 (readBound m.1 s)) s = (boundsInOrder minimums).foldl (fun s l => readBound l s) s := by
  induction minimums generalizing s with
  | nil => rfl
  | cons m rest ih => simp only [List.foldl_cons, ih]; rfl

@[simp] theorem setX_other {c : Nat → Point} {i j : Nat} {v : Int} (h : j ≠ i) : setX c i v j = c j := by simp [setX, upd, h]
@[simp] theorem setY_other {c : Nat → Point} {i j : Nat} {v : Int} (h : j ≠ i) : setY c i v j = c j := by simp [setY, upd, h]
@[simp] theorem setX_same {c : Nat → Point} {i : Nat} {v : Int} : setX c i v i = ⟨v, (c i).y⟩ := by simp [setX, upd]
@[simp] theorem setY_same {c : Nat → Point} {i : Nat} {v : Int} : setY c i v i = ⟨(c i).x, v⟩ := by simp [setY, upd]

theorem widenX_other {a b i : Nat} (ha : i ≠ a) (hb : i ≠ b) : ∀ (l : List EdgeRef) (c : Nat → Point), widenX a b l c i = c i
  | [], _ => rfl
  | e :: l, c => by rw [widenX, widenX_other ha hb l]; simp [ha, hb]

theorem widenX_le {a b : Nat} (h : a ≠ b) : ∀ (l : List EdgeRef) (c : Nat → Point), (widenX a b l c a).x ≤ (c a).x
  | [], _ => le_refl _
  | e :: l, c => by
    rw [widenX]
    refine (widenX_le h l _).trans ?_
    simp [h]

theorem readBound_set {l : List EdgeRef} {s : BoundsState} (h : s.firstSet = true) :
    (readBound l s).minimum = s.minimum ∧ (readBound l s).maximum = s.maximum ∧ (readBound l s).firstSet = true
      ∧ (∀ i, i ≠ s.minimum → i ≠ s.maximum → (readBound l s).cells i = s.cells i)
      ∧ (s.minimum ≠ s.maximum → ((readBound l s).cells s.minimum).x ≤ (s.cells s.minimum).x) := by
  unfold readBound
  split
  · rw [h]
    refine ⟨rfl, rfl, rfl, fun i h1 h2 => ?_, fun hne => ?_⟩
    · simp only [if_true]
      rw [widenX_other h1 h2]
      simp [h1, h2]
    · simp only [if_true]
      refine (widenX_le hne _ _).trans ?_
      simp [hne]
  · exact ⟨rfl, rfl, h, fun _ _ _ => rfl, fun _ => le_refl _⟩

theorem foldl_set {s : BoundsState} (h : s.firstSet = true) (ls : List (List EdgeRef)) :
    (ls.foldl (fun s l => readBound l s) s).minimum = s.minimum ∧ (ls.foldl (fun s l => readBound l s) s).maximum = s.maximum
      ∧ (∀ i, i ≠ s.minimum → i ≠ s.maximum → (ls.foldl (fun s l => readBound l s) s).cells i = s.cells i)
      ∧ (s.minimum ≠ s.maximum → ((ls.foldl (fun s l => readBound l s) s).cells s.minimum).x ≤ (s.cells s.minimum).x) := by
  induction ls generalizing s with
  | nil => exact ⟨rfl, rfl, fun _ _ _ => rfl, fun _ => le_refl _⟩
  | cons l ls ih =>
    obtain ⟨h1, h2, h3, h4, h5⟩ := readBound_set (l := l) h
    obtain ⟨i1, i2, i3, i4⟩ := ih h3
    rw [List.foldl_cons]
    refine ⟨i1.trans h1, i2.trans h2, fun i hi hj => ?_, fun hne => ?_⟩
    · rw [i3 i (by rwa [h1]) (by rwa [h2])]; exact h4 i hi hj
    · have := i4 (by rwa [h1, h2])
      rw [h1] at this
      exact this.trans (h5 hne)

/-- **C05** (what the contract asks for does hold of an object without geometry): the box is `((0, 0), (0, 0))`, made of new
points, and no existing point is changed. -/
theorem C05_empty (cells : Nat → Point) (fresh : Nat) :
    ∃ a b cells', readBounds cells fresh [] = (a, b, cells') ∧ fresh ≤ a ∧ fresh ≤ b ∧ a ≠ b ∧ cells' a = ⟨0, 0⟩ ∧ cells' b = ⟨0, 0⟩
      ∧ ∀ i < fresh, cells' i = cells i :=
  ⟨fresh, fresh + 1, _, rfl, le_refl _, Nat.le_succ _, by omega, by simp [upd], by simp [upd], fun i hi => by
    simp [upd, Nat.ne_of_lt hi, Nat.ne_of_lt (Nat.lt_succ_of_lt hi)]⟩

private theorem upd2_lt {cells : Nat → Point} {fresh i : Nat} (h : i < fresh) :
    upd (upd cells fresh ⟨0, 0⟩) (fresh + 1) ⟨0, 0⟩ i = cells i := by
  simp [upd, Nat.ne_of_lt h, Nat.ne_of_lt (Nat.lt_succ_of_lt h)]

/-- **C05.** When there is geometry, the box returned is not made of new points: it is made of the top of the first edge and
the bottom of the last edge of the first bound read (the left bound of the first local minimum), and reading it changes no
other point. -/
theorem C05_box_aliases_geometry (cells : Nat → Point) (fresh : Nat) (first second : List EdgeRef)
    (rest : List (List EdgeRef × List EdgeRef)) (e el : EdgeRef) (he : first.head? = some e) (hel : first.getLast? = some el) :
    (readBounds cells fresh ((first, second) :: rest)).1 = e.top
      ∧ (readBounds cells fresh ((first, second) :: rest)).2.1 = el.bottom
      ∧ ∀ i < fresh, i ≠ e.top → i ≠ el.bottom → (readBounds cells fresh ((first, second) :: rest)).2.2 i = cells i := by
  unfold readBounds
  simp only [foldl_readBound, boundsInOrder, List.foldl_cons]
  have hs : (readBound first ⟨upd (upd cells fresh ⟨0, 0⟩) (fresh + 1) ⟨0, 0⟩, fresh, fresh + 1, false⟩)
      = ⟨widenX e.top el.bottom first (upd (upd cells fresh ⟨0, 0⟩) (fresh + 1) ⟨0, 0⟩), e.top, el.bottom, true⟩ := by
    unfold readBound; rw [he, hel]; rfl
  rw [hs]
  obtain ⟨a1, a2, a3, a4, _⟩ := readBound_set (l := second)
    (s := ⟨widenX e.top el.bottom first (upd (upd cells fresh ⟨0, 0⟩) (fresh + 1) ⟨0, 0⟩), e.top, el.bottom, true⟩) rfl
  obtain ⟨b1, b2, b3, _⟩ := foldl_set a3 (rest.flatMap fun m => [m.1, m.2])
  refine ⟨b1.trans a1, b2.trans a2, fun i hi h1 h2 => ?_⟩
  rw [b3 i (by rw [a1]; exact h1) (by rw [a2]; exact h2), a4 i h1 h2]
  show widenX _ _ _ _ i = _
  rw [widenX_other h1 h2, upd2_lt hi]

/-- **C05 fails.** Whenever the first edge read leans to the right, i.e. its top has the larger `x`, and the bound is not one
in which the top of the first edge and the bottom of the last are the same point, reading `bounds` moves the top of the edge
— a point of the stored geometry and of the caller's ring — to the left. -/
theorem C05_moves_point (cells : Nat → Point) (fresh : Nat) (first second : List EdgeRef)
    (rest : List (List EdgeRef × List EdgeRef)) (e el : EdgeRef) (he : first.head? = some e) (hel : first.getLast? = some el)
    (hb : e.bottom < fresh) (ht : e.top < fresh) (hne : e.top ≠ el.bottom) (hx : (cells e.bottom).x < (cells e.top).x) :
    ((readBounds cells fresh ((first, second) :: rest)).2.2 e.top).x < (cells e.top).x := by
  have hneq : e.bottom ≠ e.top := by intro h; rw [h] at hx; exact lt_irrefl _ hx
  unfold readBounds
  simp only [foldl_readBound, boundsInOrder, List.foldl_cons]
  have hs : (readBound first ⟨upd (upd cells fresh ⟨0, 0⟩) (fresh + 1) ⟨0, 0⟩, fresh, fresh + 1, false⟩)
      = ⟨widenX e.top el.bottom first (upd (upd cells fresh ⟨0, 0⟩) (fresh + 1) ⟨0, 0⟩), e.top, el.bottom, true⟩ := by
    unfold readBound; rw [he, hel]; rfl
  rw [hs]
  obtain ⟨a1, a2, a3, _, a5⟩ := readBound_set (l := second)
    (s := ⟨widenX e.top el.bottom first (upd (upd cells fresh ⟨0, 0⟩) (fresh + 1) ⟨0, 0⟩), e.top, el.bottom, true⟩) rfl
  have h1 := (foldl_set a3 (rest.flatMap fun m => [m.1, m.2])).2.2.2 (by rw [a1, a2]; exact hne)
  rw [a1] at h1
  refine lt_of_le_of_lt (h1.trans (a5 hne)) ?_
  show (widenX e.top el.bottom first _ e.top).x < _
  cases first with
  | nil => simp at he
  | cons e' l =>
    simp only [List.head?_cons, Option.some.injEq] at he
    subst he
    rw [widenX]
    refine lt_of_le_of_lt (widenX_le hne l _) ?_
    simp [hne, upd2_lt hb, upd2_lt ht, hx]

/-! ## Two triangles

The points of the caller are the cells 0, 1 and 2. -/

/-- The points of the edges of a bound. -/
def deref2 (cells : Nat → Point) (l : List EdgeRef) : List (Point × Point) := l.map fun e => (cells e.bottom, cells e.top)

/-- The cells of a ring of three points. -/
def triangleCells (a b c : Point) : Nat → Point := fun i => if i = 0 then a else if i = 1 then b else if i = 2 then c else ⟨0, 0⟩

/-- The geometry stored for the ring `(0, 0), (6, 1), (3, 5)`: one minimum, whose left bound (1) has one edge and whose right
bound (0) two; the references below hold these points. -/
example :
    let w := ((Wagyu.new false).addLinearRing 100 [⟨0, 0⟩, ⟨6, 1⟩, ⟨3, 5⟩] .subject).1
    w.minimums.values.map (fun m => (m.left, m.right)) = [(1, 0)]
      ∧ (w.minimums.bounds 1).edges.map (fun e => (e.bottom, e.top)) = deref2 (triangleCells ⟨0, 0⟩ ⟨6, 1⟩ ⟨3, 5⟩) [⟨2, 0⟩]
      ∧ (w.minimums.bounds 0).edges.map (fun e => (e.bottom, e.top))
        = deref2 (triangleCells ⟨0, 0⟩ ⟨6, 1⟩ ⟨3, 5⟩) [⟨2, 1⟩, ⟨1, 0⟩] := by decide +kernel

/-- **C05 fails** (a witness of the changed geometry): reading `bounds` of the triangle `(0, 0), (6, 1), (3, 5)` turns the
caller's third point into `(6, 5)`, and both edges that end there with it. -/
theorem C05_corrupts_triangle :
    let r := readBounds (triangleCells ⟨0, 0⟩ ⟨6, 1⟩ ⟨3, 5⟩) 3 [([⟨2, 0⟩], [⟨2, 1⟩, ⟨1, 0⟩])]
    r.2.2 2 = ⟨6, 5⟩ := by decide +kernel

/-- The geometry stored for the ring `(0, 1), (6, 0), (3, 5)`. -/
example :
    let w := ((Wagyu.new false).addLinearRing 100 [⟨0, 1⟩, ⟨6, 0⟩, ⟨3, 5⟩] .subject).1
    w.minimums.values.map (fun m => (m.left, m.right)) = [(1, 0)]
      ∧ (w.minimums.bounds 1).edges.map (fun e => (e.bottom, e.top))
        = deref2 (triangleCells ⟨0, 1⟩ ⟨6, 0⟩ ⟨3, 5⟩) [⟨2, 0⟩, ⟨0, 1⟩]
      ∧ (w.minimums.bounds 0).edges.map (fun e => (e.bottom, e.top))
        = deref2 (triangleCells ⟨0, 1⟩ ⟨6, 0⟩ ⟨3, 5⟩) [⟨2, 1⟩] := by decide +kernel

/-- **C05 fails** (a witness of a wrong box): the box returned for the triangle `(0, 1), (6, 0), (3, 5)` is the single point
`(3, 5)`, because both its corners are the same object. -/
theorem C05_wrong_box :
    let r := readBounds (triangleCells ⟨0, 1⟩ ⟨6, 0⟩ ⟨3, 5⟩) 3 [([⟨2, 0⟩, ⟨0, 1⟩], [⟨2, 1⟩])]
    r.1 = r.2.1 ∧ r.2.2 r.1 = ⟨3, 5⟩ := by decide +kernel

/-- The hypotheses of `C05_moves_point` are met by the geometry stored for the triangle `(5, 0), (1, 9), (9, 1)`. -/
example :
    let w := ((Wagyu.new false).addLinearRing 100 [⟨5, 0⟩, ⟨1, 9⟩, ⟨9, 1⟩] .subject).1
    w.minimums.values.map (fun m => (m.left, m.right)) = [(0, 1)]
      ∧ (w.minimums.bounds 0).edges.map (fun e => (e.bottom, e.top))
        = deref2 (triangleCells ⟨5, 0⟩ ⟨1, 9⟩ ⟨9, 1⟩) [⟨1, 0⟩]
      ∧ (w.minimums.bounds 1).edges.map (fun e => (e.bottom, e.top))
        = deref2 (triangleCells ⟨5, 0⟩ ⟨1, 9⟩ ⟨9, 1⟩) [⟨1, 2⟩, ⟨2, 0⟩] := by decide +kernel
example := C05_moves_point (triangleCells ⟨5, 0⟩ ⟨1, 9⟩ ⟨9, 1⟩) 3 [⟨1, 0⟩] [⟨1, 2⟩, ⟨2, 0⟩] [] ⟨1, 0⟩ ⟨1, 0⟩ rfl rfl
  (by decide) (by decide) (by decide) (by decide)
example := C05_box_aliases_geometry (triangleCells ⟨5, 0⟩ ⟨1, 9⟩ ⟨9, 1⟩) 3 [⟨1, 0⟩] [⟨1, 2⟩, ⟨2, 0⟩] [] ⟨1, 0⟩ ⟨1, 0⟩ rfl rfl

end Wagyu
