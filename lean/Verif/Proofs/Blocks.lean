import Verif.Proofs.Rotate
import Verif.Proofs.AddRing

/-!
# One iteration of `add_linear_ring`: the two bounds of a local minimum
-/

namespace Wagyu

open Spec Step

namespace Step

/-- The edge of a step, walked forwards from `bottom` to `top`. -/
def upE (s : Step) : Edge := { s.e with bottom := s.a, top := s.b }

/-- The edge of a step, walked backwards from `bottom` to `top`. -/
def dnE (s : Step) : Edge := { s.e with bottom := s.b, top := s.a }

def flip (s : Step) : Step := ⟨s.b, s.a, s.oriented⟩

/-- A step of a bound: it does not go down. -/
structure Rise (s : Step) : Prop where
  joins : Joins s.e s.a s.b
  ne : s.a ≠ s.b
  hor : s.e.isHorizontal = true → s.a.y = s.b.y
  non : s.e.isHorizontal = false → s.e.bottom = s.a ∧ s.e.top = s.b

end Step

theorem Edge.ext' {e f : Edge} (h1 : e.bottom = f.bottom) (h2 : e.top = f.top) (h3 : e.slope = f.slope) : e = f := by
  cases e; cases f; simp_all

theorem reverse_eq {e : Edge} {a b : Point} (h : e.bottom = a ∧ e.top = b) (hy : a.y = b.y) :
    e.reverseHorizontal = { e with bottom := b, top := a } := by
  obtain ⟨rfl, rfl⟩ := h
  obtain ⟨h1, h2⟩ := (C30_reverse_horizontal e).1 hy
  exact Edge.ext' h2 h1 rfl

theorem Rise.fix {s : Step} (h : s.Rise) (q : Point) (hq : q = s.a) :
    (if (s.e.isHorizontal && decide (q ≠ s.e.bottom)) = true then s.e.reverseHorizontal else s.e) = s.upE := by
  subst hq
  cases hh : s.e.isHorizontal with
  | false =>
    obtain ⟨h1, h2⟩ := h.non hh
    simp only [Bool.false_and, Bool.false_eq_true, if_false]
    exact Edge.ext' h1 h2 rfl
  | true =>
    rcases h.joins with ⟨h1, h2⟩ | ⟨h1, h2⟩
    · simp only [h1, ne_eq, not_true, decide_false, Bool.and_false, Bool.false_eq_true, if_false]
      exact Edge.ext' h1 h2 rfl
    · have : s.a ≠ s.e.bottom := by rw [h1]; exact h.ne
      simp only [this, ne_eq, not_false_eq_true, decide_true, Bool.and_self, if_true]
      rw [reverse_eq ⟨h1, h2⟩ (h.hor hh).symm]; rfl

theorem fixTail_spec : ∀ (us : List Step) (p : Edge), (∀ s ∈ us, s.Rise) → us.IsChain (fun s t => s.b = t.a) →
    (∀ s ∈ us.head?, p.top = s.a) → fixHorizontalsTail p (us.map Step.e) = us.map Step.upE := by
  intro us
  induction us with
  | nil => intros; rfl
  | cons s us ih =>
    intro p hr hc hp
    simp only [List.map_cons, fixHorizontalsTail]
    rw [Rise.fix (hr s (by simp)) p.top (hp s (by simp))]
    congr 1
    apply ih
    · exact fun t ht => hr t (by simp [ht])
    · exact hc.tail
    · intro t ht
      cases us with
      | nil => simp at ht
      | cons t' us =>
        simp only [List.head?_cons, Option.mem_def, Option.some.injEq] at ht
        subst ht
        exact (List.isChain_cons_cons.1 hc).1

theorem fix_spec (us : List Step) (hr : ∀ s ∈ us, s.Rise) (hc : us.IsChain (fun s t => s.b = t.a))
    (hh : ∀ s l, us = s :: l → s.e.isHorizontal = true → ∃ t l', l = t :: l' ∧ t.e.isHorizontal = false) :
    fixHorizontals (us.map Step.e) = us.map Step.upE := by
  match us with
  | [] => rfl
  | [s] =>
    have : s.e.isHorizontal = false := by
      cases hs : s.e.isHorizontal with
      | false => rfl
      | true => obtain ⟨t, l', h, _⟩ := hh s [] rfl hs; cases h
    obtain ⟨h1, h2⟩ := (hr s (by simp)).non this
    simp only [List.map_cons, List.map_nil, fixHorizontals]
    congr 1
    exact Edge.ext' h1 h2 rfl
  | s :: t :: l =>
    obtain ⟨hl, hc'⟩ := List.isChain_cons_cons.1 hc
    have hs := hr s (by simp)
    have ht := hr t (by simp)
    have e1 : (if (s.e.isHorizontal && decide (s.e.top ≠ t.e.bottom)) = true then s.e.reverseHorizontal else s.e) = s.upE := by
      cases hsh : s.e.isHorizontal with
      | false =>
        obtain ⟨h1, h2⟩ := hs.non hsh
        simp only [Bool.false_and, Bool.false_eq_true, if_false]
        exact Edge.ext' h1 h2 rfl
      | true =>
        obtain ⟨t', l', he, hth⟩ := hh s (t :: l) rfl hsh
        obtain ⟨rfl, rfl⟩ := List.cons.inj he
        obtain ⟨b1, b2⟩ := ht.non hth
        rcases hs.joins with ⟨h1, h2⟩ | ⟨h1, h2⟩
        · have : s.e.top = t.e.bottom := by rw [h2, b1, hl]
          simp only [this, ne_eq, not_true, decide_false, Bool.and_false, Bool.false_eq_true, if_false]
          exact Edge.ext' h1 h2 rfl
        · have : s.e.top ≠ t.e.bottom := by rw [h2, b1, ← hl]; exact hs.ne
          simp only [this, ne_eq, not_false_eq_true, decide_true, Bool.and_self, if_true]
          rw [reverse_eq ⟨h1, h2⟩ (hs.hor hsh).symm]; rfl
    have e2 := fixTail_spec (t :: l) s.upE (fun x hx => hr x (List.mem_cons_of_mem _ hx)) hc' (by
      intro x hx
      simp only [List.head?_cons, Option.mem_def, Option.some.injEq] at hx
      subst hx
      exact hl)
    simp only [List.map_cons] at e2 ⊢
    unfold fixHorizontals
    simp only
    rw [e1, e2]

theorem Step.Ok.rise_up {s : Step} (h : s.Ok) (hd : ¬ s.Dn) : s.Rise := by
  refine ⟨h.joins, h.ne, h.hor.1, ?_⟩
  intro hh
  rcases s.tri with a | a | a
  · exact absurd a hd
  · exact ⟨(h.up a).1, (h.up a).2.1⟩
  · rw [h.hz a] at hh; cases hh

theorem Step.Ok.rise_flip {s : Step} (h : s.Ok) (hd : ¬ s.Up) : s.flip.Rise := by
  have ho : s.flip.e.isHorizontal = s.e.isHorizontal := s.oriented_horizontal
  refine ⟨Or.symm h.oriented_joins, h.ne.symm, ?_, ?_⟩
  · rw [ho]; exact fun hh => (h.hor.1 hh).symm
  · rw [ho]
    intro hh
    have : s.flip.e = s.e := by unfold Step.flip Step.oriented; simp [hh]
    rw [this]
    rcases s.tri with a | a | a
    · exact ⟨(h.dn a).1, (h.dn a).2.1⟩
    · exact absurd a hd
    · rw [h.hz a] at hh; cases hh

theorem flip_upE (s : Step) : s.flip.upE = s.dnE := by
  unfold Step.flip Step.upE Step.dnE Step.oriented
  split <;> rfl

/-! ## The block -/

/-- The steps that become the two bounds of a local minimum, and what is recorded about them: `dn` goes down to the
minimum, `up` goes up from it. -/
structure Block where
  dn : List Step
  up : List Step
  isLeft : Bool
  hasH : Bool

namespace Block

def minEdges (B : Block) : List Edge := B.dn.reverse.map Step.dnE
def maxEdges (B : Block) : List Edge := B.up.map Step.upE
def steps (B : Block) : List Step := B.dn ++ B.up
def y (B : Block) : Int := (B.minEdges.headD default).bottom.y

def minBound (B : Block) (kind : PolygonKind) (partner : Option Nat) : Bound :=
  { Bound.ofEdges B.minEdges with
    maximumBound := partner
    polygonKind := kind
    side := if B.isLeft then .left else .right
    windingDelta := -1 }

def maxBound (B : Block) (kind : PolygonKind) (partner : Option Nat) : Bound :=
  { Bound.ofEdges B.maxEdges with
    maximumBound := partner
    polygonKind := kind
    side := if B.isLeft then .right else .left
    windingDelta := 1 }

def minimum (B : Block) (idMin : Nat) : LocalMinimum :=
  if B.isLeft then ⟨idMin, idMin + 1, B.y, B.hasH⟩ else ⟨idMin + 1, idMin, B.y, B.hasH⟩

/-- What holds of the blocks `add_linear_ring` makes. -/
structure Good (B : Block) : Prop where
  ok : ∀ s ∈ B.steps, s.Ok
  chain : B.steps.IsChain Linked
  dn : ∃ d l, B.dn = d :: l ∧ d.Dn
  notUp : ∀ s ∈ B.dn, ¬ s.Up
  notDn : ∀ s ∈ B.up, ¬ s.Dn
  up : ∃ u ∈ B.up, u.Up
  left : B.isLeft = true → ∃ s l, B.dn.reverse = s :: l ∧ s.Dn
  right : B.isLeft = false → ∃ u l, B.up = u :: l ∧ u.Up
  horL : B.isLeft = true → B.hasH = true → ∃ h l, B.up = h :: l ∧ h.Hz ∧ h.a.x < h.b.x
  horR : B.isLeft = false → B.hasH = true → ∃ h l, B.dn.reverse = h :: l ∧ h.Hz ∧ h.b.x < h.a.x
  noHL : B.isLeft = true → B.hasH = false →
    ∃ s l u l', B.dn.reverse = s :: l ∧ s.Dn ∧ B.up = u :: l' ∧ u.Up ∧ F64.le u.e.slope s.e.slope = true
  noHR : B.isLeft = false → B.hasH = false →
    ∃ s l u l', B.dn.reverse = s :: l ∧ s.Dn ∧ B.up = u :: l' ∧ u.Up ∧ F64.le u.e.slope s.e.slope = false

end Block

theorem leadingHorizontals_one (h n : Edge) (l : List Edge) (hh : h.isHorizontal = true) (hn : n.isHorizontal = false) :
    leadingHorizontals (h :: n :: l) = ([h.reverseHorizontal], n :: l) := by
  simp [leadingHorizontals, hh, hn]

theorem leadingHorizontals_none (n : Edge) (l : List Edge) (hn : n.isHorizontal = false) :
    leadingHorizontals (n :: l) = ([], n :: l) := by
  simp [leadingHorizontals, hn]

theorem upE_horizontal (s : Step) : s.upE.isHorizontal = s.e.isHorizontal := rfl
theorem dnE_horizontal (s : Step) : s.dnE.isHorizontal = s.e.isHorizontal := rfl

theorem isChain_flip {S : List Step} (h : S.IsChain Linked) : (S.reverse.map Step.flip).IsChain (fun s t => s.b = t.a) := by
  rw [List.isChain_map, List.isChain_reverse]
  exact h.imp fun a b hab => hab.1.symm

/-- One iteration of the loop of `add_linear_ring`, in terms of what its parts compute. -/
theorem addLoop_iter (kind : PolygonKind) (fuel : Nat) (edges minE0 edges1 maxE0 edges2 M X : List Edge) (maxI minI : Nat) (hasH isLeft : Bool)
    (f : Edge) (mt maxE : List Edge) (first last : Option Nat) (m : Minimums) (hne : ∃ e es, edges = e :: es)
    (c1 : createBoundTowardsMinimum edges = some (minE0, edges1)) (c2 : createBoundTowardsMaximum edges1 = some (maxE0, edges2))
    (f1 : fixHorizontals minE0 = M) (f2 : fixHorizontals maxE0 = X)
    (i1 : toFirstNonHorizontalIndex X = some maxI) (i2 : toFirstNonHorizontalIndex M = some minI)
    (hh : (decide (maxI > 0) || decide (minI > 0)) = hasH)
    (hl : (if hasH = true then decide ((X.getD maxI default).bottom.x > (M.getD minI default).bottom.x)
      else F64.le (X.getD maxI default).slope (M.getD minI default).slope) = isLeft)
    (hm : (if hasH = true then
        if isLeft = true then moveHorizontals M X else ((moveHorizontals X M).2, (moveHorizontals X M).1)
      else (M, X)) = (f :: mt, maxE)) :
    addLoop kind (fuel + 1) edges first last m =
      addLoop kind fuel edges2 (match last with | none => some m.nb | some _ => first) (some (m.nb + 1))
        { bounds :=
            (match last with
              | none => upd (upd m.bounds m.nb
                  { Bound.ofEdges (f :: mt) with maximumBound := last, polygonKind := kind, side := if isLeft then .left else .right, windingDelta := -1 })
                  (m.nb + 1) { Bound.ofEdges maxE with polygonKind := kind, side := if isLeft then .right else .left, windingDelta := 1 }
              | some l => upd (upd (upd m.bounds m.nb
                  { Bound.ofEdges (f :: mt) with maximumBound := last, polygonKind := kind, side := if isLeft then .left else .right, windingDelta := -1 })
                  (m.nb + 1) { Bound.ofEdges maxE with polygonKind := kind, side := if isLeft then .right else .left, windingDelta := 1 }) l
                  { upd (upd m.bounds m.nb
                  { Bound.ofEdges (f :: mt) with maximumBound := last, polygonKind := kind, side := if isLeft then .left else .right, windingDelta := -1 })
                  (m.nb + 1) { Bound.ofEdges maxE with polygonKind := kind, side := if isLeft then .right else .left, windingDelta := 1 } l with maximumBound := some m.nb })
          nb := m.nb + 2
          values := m.values ++ [if isLeft then ⟨m.nb, m.nb + 1, f.bottom.y, hasH⟩ else ⟨m.nb + 1, m.nb, f.bottom.y, hasH⟩] } := by
  obtain ⟨e, es, rfl⟩ := hne
  conv => lhs; unfold addLoop
  simp only [c1, c2, f1, f2, i1, i2, hh, hl, hm]
  cases last <;> rfl

/-- One iteration of the loop of `add_linear_ring`. -/
theorem block_step (kind : PolygonKind) (fuel : Nat) (d : Step) (l1 : List Step) (u : Step) (l2 rest : List Step)
    (hok : ∀ s ∈ d :: l1 ++ (u :: l2 ++ rest), s.Ok) (hc : (d :: l1 ++ (u :: l2 ++ rest)).IsChain Linked)
    (hd : d.Dn) (h1 : ∀ s ∈ l1, ¬ s.Up) (hu : u.Up) (h2 : ∀ s ∈ l2, ¬ s.Dn)
    (hrest : ∀ s ∈ rest.head?, s.Dn) (first last : Option Nat) (m : Minimums) :
    ∃ B : Block, B.Good ∧ B.steps = d :: l1 ++ u :: l2 ∧
      addLoop kind (fuel + 1) ((d :: l1 ++ (u :: l2 ++ rest)).map Step.e) first last m
        = addLoop kind fuel (rest.map Step.e) (match last with | none => some m.nb | some _ => first) (some (m.nb + 1))
            { bounds :=
                (match last with
                  | none => upd (upd m.bounds m.nb (B.minBound kind last)) (m.nb + 1) (B.maxBound kind none)
                  | some p => upd (upd (upd m.bounds m.nb (B.minBound kind last)) (m.nb + 1) (B.maxBound kind none)) p
                      { upd (upd m.bounds m.nb (B.minBound kind last)) (m.nb + 1) (B.maxBound kind none) p with maximumBound := some m.nb })
              nb := m.nb + 2
              values := m.values ++ [B.minimum m.nb] } := by
  have okd : d.Ok := hok d (by simp)
  have oku : u.Ok := hok u (by simp)
  have ok1 : ∀ s ∈ l1, s.Ok := fun s hs => hok s (by simp [hs])
  have ok2 : ∀ s ∈ l2, s.Ok := fun s hs => hok s (by simp [hs])
  have cS1 : (d :: l1).IsChain Linked := (List.isChain_append.1 hc).1
  have cS2r : (u :: l2 ++ rest).IsChain Linked := (List.isChain_append.1 hc).2.1
  have cS2 : (u :: l2).IsChain Linked := (List.isChain_append.1 cS2r).1
  have cB : (d :: l1 ++ u :: l2).IsChain Linked := by
    rw [← List.append_assoc] at hc
    exact (List.isChain_append.1 hc).1
  have okB : ∀ s ∈ d :: l1 ++ u :: l2, s.Ok := by
    intro s hs
    apply hok
    simp only [List.mem_append, List.mem_cons] at hs ⊢
    tauto
  -- the splits
  have t1 : (l1 ++ (u :: l2 ++ rest)).takeWhile notUp = l1 := by
    rw [List.takeWhile_append_of_pos (by intro s hs; simp [notUp, h1 s hs])]
    simp [notUp, hu]
  have t2 : (l1 ++ (u :: l2 ++ rest)).dropWhile notUp = u :: l2 ++ rest := by
    rw [List.dropWhile_append_of_pos (by intro s hs; simp [notUp, h1 s hs])]
    simp [notUp, hu]
  have t3 : (l2 ++ rest).takeWhile notDn = l2 := by
    rw [List.takeWhile_append_of_pos (by intro s hs; simp [notDn, h2 s hs])]
    cases rest with
    | nil => simp
    | cons r rest => simp [notDn, hrest r (by simp)]
  have t4 : (l2 ++ rest).dropWhile notDn = rest := by
    rw [List.dropWhile_append_of_pos (by intro s hs; simp [notDn, h2 s hs])]
    cases rest with
    | nil => simp
    | cons r rest => simp [notDn, hrest r (by simp)]
  have c1 : createBoundTowardsMinimum ((d :: l1 ++ (u :: l2 ++ rest)).map Step.e)
      = some (((d :: l1).map Step.oriented).reverse, (u :: l2 ++ rest).map Step.e) := by
    have := towardsMinSplit_spec (l1 ++ (u :: l2 ++ rest)) d false okd
      (fun t ht => hok t (by simp only [List.mem_append, List.mem_cons] at ht ⊢; tauto)) hc (Or.inl hd)
    rw [t1, t2] at this
    rw [List.cons_append, List.map_cons]
    unfold createBoundTowardsMinimum
    have ho : (if d.e.isHorizontal = true then d.e.reverseHorizontal else d.e) = d.oriented := rfl
    simp only [ho, this, List.map_cons]
  have c2 : createBoundTowardsMaximum ((u :: l2 ++ rest).map Step.e) = some ((u :: l2).map Step.e, rest.map Step.e) := by
    have := towardsMaxSplit_spec (l2 ++ rest) u false oku
      (fun t ht => hok t (by simp only [List.mem_append, List.mem_cons] at ht ⊢; tauto)) cS2r (Or.inl hu)
    rw [t3, t4] at this
    rw [List.cons_append, List.map_cons]
    unfold createBoundTowardsMaximum
    simp only [this, List.map_cons]
  -- the last step down, `s`, possibly a horizontal after another step down
  obtain ⟨s, tl, hsr⟩ : ∃ s tl, (d :: l1).reverse = s :: tl := by
    cases hr : (d :: l1).reverse with
    | nil => simp at hr
    | cons s tl => exact ⟨s, tl, rfl⟩
  have hS1 : d :: l1 = tl.reverse ++ [s] := by
    rw [← List.reverse_reverse (d :: l1), hsr]; simp
  have hnu : ∀ x ∈ d :: l1, ¬ x.Up := by
    intro x hx
    rcases List.mem_cons.1 hx with rfl | hx
    · unfold Step.Dn at hd; unfold Step.Up; omega
    · exact h1 x hx
  have hnd : ∀ x ∈ u :: l2, ¬ x.Dn := by
    intro x hx
    rcases List.mem_cons.1 hx with rfl | hx
    · unfold Step.Up at hu; unfold Step.Dn; omega
    · exact h2 x hx
  have oks : s.Ok := hok s (by
    have : s ∈ d :: l1 := by rw [hS1]; simp
    simp only [List.mem_append]; exact Or.inl this)
  have lsu : Linked s u := by
    rw [hS1, List.append_assoc] at cB
    exact (List.isChain_cons_cons.1 (List.isChain_append.1 cB).2.1).1
  -- a horizontal last step comes after a step down
  have hzprev : s.Hz → ∃ v tl', tl = v :: tl' ∧ v.Dn ∧ Linked v s ∧ v.Ok := by
    intro hz
    cases tl with
    | nil =>
      simp only [List.reverse_nil, List.nil_append, List.cons.injEq] at hS1
      obtain ⟨rfl, _⟩ := hS1
      unfold Step.Hz at hz; unfold Step.Dn at hd; omega
    | cons v tl' =>
      have hv : v ∈ d :: l1 := by rw [hS1]; simp
      have okv : v.Ok := hok v (by simp only [List.mem_append]; exact Or.inl hv)
      have lvs : Linked v s := by
        rw [hS1] at cS1
        simp only [List.reverse_cons, List.append_assoc] at cS1
        exact (List.isChain_cons_cons.1 (List.isChain_append.1 cS1).2.1).1
      refine ⟨v, tl', rfl, ?_, lvs, okv⟩
      rcases v.tri with a | a | a
      · exact a
      · exact absurd a (hnu v hv)
      · exact absurd hz (fun hz => no_hz_hz okv oks lvs a hz)
  have hsdn : ¬ s.Hz → s.Dn := by
    intro hz
    have : s ∈ d :: l1 := by rw [hS1]; simp
    rcases s.tri with a | a | a
    exacts [a, absurd a (hnu s this), absurd a hz]
  -- the fixed horizontals
  have f1 : fixHorizontals ((d :: l1).map Step.oriented).reverse = (d :: l1).reverse.map Step.dnE := by
    have e1 : ((d :: l1).map Step.oriented).reverse = ((d :: l1).reverse.map Step.flip).map Step.e := by
      rw [← List.map_reverse, List.map_map]; rfl
    rw [e1, fix_spec]
    · rw [List.map_map]
      apply List.map_congr_left
      intro x _
      exact flip_upE x
    · intro x hx
      obtain ⟨z, hz, rfl⟩ := List.mem_map.1 hx
      rw [List.mem_reverse] at hz
      exact (hok z (by simp only [List.mem_append]; exact Or.inl hz)).rise_flip (hnu z hz)
    · exact isChain_flip cS1
    · intro x l hxl hxh
      rw [hsr, List.map_cons] at hxl
      obtain ⟨rfl, rfl⟩ := List.cons.inj hxl
      have : s.Hz := oks.hor.1 (by rw [← s.oriented_horizontal]; exact hxh)
      obtain ⟨v, tl', rfl, hv, _, okv⟩ := hzprev this
      exact ⟨v.flip, tl'.map Step.flip, rfl, (v.oriented_horizontal).trans (okv.dn hv).2.2⟩
  have f2 : fixHorizontals ((u :: l2).map Step.e) = (u :: l2).map Step.upE := by
    apply fix_spec
    · intro x hx
      exact (hok x (by simp only [List.mem_append]; exact Or.inr (Or.inl hx))).rise_up (hnd x hx)
    · exact cS2.imp fun a b hab => hab.1
    · intro x l hxl hxh
      obtain ⟨rfl, rfl⟩ := List.cons.inj hxl
      rw [(oku.up hu).2.2] at hxh; cases hxh
  have hmx : toFirstNonHorizontalIndex ((u :: l2).map Step.upE) = some 0 := by
    unfold toFirstNonHorizontalIndex
    simp [List.findIdx?_cons, upE_horizontal, (oku.up hu).2.2]
  have hmapne : ∃ e es, (d :: l1 ++ (u :: l2 ++ rest)).map Step.e = e :: es := ⟨_, _, rfl⟩
  by_cases hz : s.Hz
  · -- the minimum has a horizontal
    obtain ⟨v, tl', rfl, hv, lvs, okv⟩ := hzprev hz
    have hmn : toFirstNonHorizontalIndex ((d :: l1).reverse.map Step.dnE) = some 1 := by
      unfold toFirstNonHorizontalIndex
      rw [hsr]
      simp [List.findIdx?_cons, dnE_horizontal, oks.hz hz, (okv.dn hv).2.2]
    have hx1 : (((u :: l2).map Step.upE).getD 0 default).bottom.x = s.b.x := by
      simp only [List.map_cons, List.getD_cons_zero]
      show u.a.x = _
      rw [lsu.1]
    have hx2 : (((d :: l1).reverse.map Step.dnE).getD 1 default).bottom.x = s.a.x := by
      rw [hsr]
      simp only [List.map_cons, List.getD_cons_succ, List.getD_cons_zero]
      show v.b.x = _
      rw [lvs.1]
    by_cases hx : s.b.x > s.a.x
    · -- it moves to the bound going up
      refine ⟨⟨(v :: tl').reverse, s :: u :: l2, true, true⟩, ?_, ?_, ?_⟩
      · refine { ok := ?_, chain := ?_, dn := ?_, notUp := ?_, notDn := ?_, up := ?_, left := ?_, right := ?_, horL := ?_, horR := ?_, noHL := ?_, noHR := ?_ }
        · intro x hx
          apply okB
          rw [hS1]
          simp only [Block.steps, List.mem_append, List.mem_reverse, List.mem_cons] at hx ⊢
          tauto
        · have := cB
          rw [hS1, List.append_assoc] at this
          exact this
        · cases hr : (v :: tl').reverse with
          | nil => simp at hr
          | cons d' l' =>
            rw [hr, List.cons_append] at hS1
            obtain ⟨rfl, _⟩ := List.cons.inj hS1
            exact ⟨d, l', rfl, hd⟩
        · intro x hx
          apply hnu
          rw [hS1]
          simp only [List.mem_append]; exact Or.inl hx
        · intro x hx
          rcases List.mem_cons.1 hx with rfl | hx
          · unfold Step.Hz at hz; unfold Step.Dn; omega
          · exact hnd x hx
        · exact ⟨u, by simp, hu⟩
        · exact fun _ => ⟨v, tl', by simp, hv⟩
        · intro h; cases h
        · exact fun _ _ => ⟨s, u :: l2, rfl, hz, hx⟩
        · intro h; cases h
        · intro _ h; cases h
        · intro h; cases h
      · show (v :: tl').reverse ++ s :: u :: l2 = _
        rw [hS1]; simp
      · rw [addLoop_iter kind fuel _ _ _ _ _ _ _ 0 1 true true v.dnE (tl'.map Step.dnE) ((s :: u :: l2).map Step.upE) first last m hmapne c1 c2 f1 f2 hmx hmn
          (by simp) (by rw [if_pos rfl, hx1, hx2]; simp [hx])
          (by
            rw [if_pos rfl, if_pos rfl, hsr]
            unfold moveHorizontals
            have hl := leadingHorizontals_one s.dnE v.dnE (tl'.map Step.dnE) (oks.hz hz) (okv.dn hv).2.2
            simp only [List.map_cons] at hl ⊢
            rw [hl]
            simp only [List.length_singleton, ne_eq, one_ne_zero, not_false_eq_true, if_true, List.reverse_singleton]
            have hrev : s.dnE.reverseHorizontal = s.upE := by
              rw [reverse_eq (a := s.b) (b := s.a) ⟨rfl, rfl⟩ hz.symm]; rfl
            rw [hrev]
            congr 1
            unfold rotateSequence
            rw [if_pos (by simp)]
            have : pyClamp (u.upE :: l2.map Step.upE ++ [s.upE]).length (-((1 : Nat) : Int)) = (u.upE :: l2.map Step.upE).length := by
              unfold pyClamp
              simp
            rw [this, List.drop_left, List.take_left]
            rfl)]
        have hB1 : Block.minEdges ⟨(v :: tl').reverse, s :: u :: l2, true, true⟩ = v.dnE :: tl'.map Step.dnE := by
          simp [Block.minEdges]
        simp only [Block.minBound, Block.maxBound, Block.minimum, Block.y, hB1, List.headD_cons]
        rfl
    · have hx' : s.b.x < s.a.x := by
        rcases lt_trichotomy s.b.x s.a.x with h | h | h
        · exact h
        · exfalso
          apply oks.ne
          unfold Step.Hz at hz
          cases ha : s.a; cases hb : s.b
          rw [ha, hb] at hz h
          simp only at hz h
          rw [hz, h]
        · exact absurd h hx
      refine ⟨⟨d :: l1, u :: l2, false, true⟩, ?_, rfl, ?_⟩
      · refine { ok := okB, chain := cB, dn := ⟨d, l1, rfl, hd⟩, notUp := hnu, notDn := hnd, up := ⟨u, by simp, hu⟩, left := ?_, right := ?_, horL := ?_, horR := ?_, noHL := ?_, noHR := ?_ }
        · intro h; cases h
        · exact fun _ => ⟨u, l2, rfl, hu⟩
        · intro h; cases h
        · exact fun _ _ => ⟨s, _, hsr, hz, hx'⟩
        · intro h; cases h
        · intro _ h; cases h
      · rw [addLoop_iter kind fuel _ _ _ _ _ _ _ 0 1 true false s.dnE ((v :: tl').map Step.dnE) ((u :: l2).map Step.upE) first last m hmapne c1 c2 f1 f2 hmx hmn
          (by simp) (by rw [if_pos rfl, hx1, hx2]; simp; omega)
          (by
            rw [if_pos rfl]
            have hl := leadingHorizontals_none u.upE (l2.map Step.upE) (oku.up hu).2.2
            have hm : moveHorizontals ((u :: l2).map Step.upE) ((d :: l1).reverse.map Step.dnE)
                = ((u :: l2).map Step.upE, (d :: l1).reverse.map Step.dnE) := by
              unfold moveHorizontals
              simp only [List.map_cons] at hl ⊢
              rw [hl]
              simp
            rw [hm, hsr]
            simp)]
        have hB1 : Block.minEdges ⟨d :: l1, u :: l2, false, true⟩ = s.dnE :: (v :: tl').map Step.dnE := by
          simp only [Block.minEdges, hsr, List.map_cons]
        simp only [Block.minBound, Block.maxBound, Block.minimum, Block.y, hB1, List.headD_cons]
        rfl
  · -- no horizontal
    have hsd := hsdn hz
    have hmn : toFirstNonHorizontalIndex ((d :: l1).reverse.map Step.dnE) = some 0 := by
      unfold toFirstNonHorizontalIndex
      rw [hsr]
      simp [List.findIdx?_cons, dnE_horizontal, (oks.dn hsd).2.2]
    have hs1 : (((u :: l2).map Step.upE).getD 0 default).slope = u.e.slope := rfl
    have hs2 : (((d :: l1).reverse.map Step.dnE).getD 0 default).slope = s.e.slope := by
      rw [hsr]; rfl
    refine ⟨⟨d :: l1, u :: l2, F64.le u.e.slope s.e.slope, false⟩, ?_, rfl, ?_⟩
    · refine { ok := okB, chain := cB, dn := ⟨d, l1, rfl, hd⟩, notUp := hnu, notDn := hnd, up := ⟨u, by simp, hu⟩, left := ?_, right := ?_, horL := ?_, horR := ?_, noHL := ?_, noHR := ?_ }
      · exact fun _ => ⟨s, tl, hsr, hsd⟩
      · exact fun _ => ⟨u, l2, rfl, hu⟩
      · intro _ h; cases h
      · intro _ h; cases h
      · exact fun h _ => ⟨s, tl, u, l2, hsr, hsd, rfl, hu, h⟩
      · exact fun h _ => ⟨s, tl, u, l2, hsr, hsd, rfl, hu, h⟩
    · rw [addLoop_iter kind fuel _ _ _ _ _ _ _ 0 0 false (F64.le u.e.slope s.e.slope) s.dnE (tl.map Step.dnE) ((u :: l2).map Step.upE) first last m hmapne c1 c2 f1 f2 hmx hmn
          (by simp) (by simp only [Bool.false_eq_true, if_false]; rw [hs1, hs2]) (by simp only [Bool.false_eq_true, if_false]; rw [hsr]; rfl)]
      have hB1 : Block.minEdges ⟨d :: l1, u :: l2, F64.le u.e.slope s.e.slope, false⟩ = s.dnE :: tl.map Step.dnE := by
        simp only [Block.minEdges, hsr, List.map_cons]
      simp only [Block.minBound, Block.maxBound, Block.minimum, Block.y, hB1, List.headD_cons]
      rfl

end Wagyu
