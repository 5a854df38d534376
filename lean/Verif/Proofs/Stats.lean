import Verif.Proofs.Walks
import Verif.Proofs.RingSum
import Verif.Spec.Rings

/-!
# The statistics of a ring (point_node.py:91-111)
-/

namespace Wagyu

open Spec

/-- The predecessor read by `stats`. -/
def prevLoc (h : Nat → Node) (i : Nat) : Point := locOf h ((h i).prev.getD 0)

theorem nodeStats_run {s : St} {a : Nat} {t : List Nat} (hl : IsCycle s.nodes (a :: t)) (hf : t.length < s.fuel) :
    nodeStats a s =
      (let st := (a :: t).foldl (fun st i => Stats.step st (prevLoc s.nodes i) (locOf s.nodes i))
        { area2 := 0, size := 0, box := ⟨locOf s.nodes a, locOf s.nodes a⟩ }
      .ok (intDiv st.area2 2, st.size, st.box) s) := by
  unfold nodeStats
  simp only [run_bind, run_pointOf]
  rw [run_loopM, walk (R := fun x y => Link s.nodes x y ∧ ∃ p, (s.nodes x).prev = some p) (start := a)
    (g := fun i st => Stats.step st (prevLoc s.nodes i) (locOf s.nodes i)) (fin := id) (l := t)]
  · rfl
  · rintro c c' acc ⟨hc, p, hp⟩
    simp only [run_bind, run_pointOf, run_prevOf hp, run_nextOf hc.1]
    by_cases e : c' = a
    · rw [if_pos e, if_pos e]; simp [run_pure, prevLoc, hp]
    · rw [if_neg e, if_neg e]; simp [run_pure, prevLoc, hp]
  · refine hl.2.imp_of_mem_imp ?_
    intro x y hx _ hxy
    refine ⟨hxy, ?_⟩
    have hx' : x ∈ a :: t := by simpa [or_comm, or_assoc] using hx
    have : ∀ x ∈ a :: t, ∃ p, (s.nodes x).prev = some p := by
      have hb := hl.2
      intro x hx
      obtain ⟨l1, l2, hl12⟩ := List.append_of_mem hx
      have hc := isCycle_append_comm (l₁ := l1) (l₂ := x :: l2) (hl12 ▸ hl)
      obtain ⟨-, -, hh⟩ := (isCycle_iff (by simp)).1 hc
      exact ⟨_, hh.2⟩
    exact this x hx'
  · exact (List.nodup_cons.1 hl.1).1
  · exact hf

theorem stats_fold {h : Nat → Node} : ∀ (l : List Nat) (p : Nat) (st : Stats), (p :: l).IsChain (Link h) →
    let r := l.foldl (fun st i => Stats.step st (prevLoc h i) (locOf h i)) st
    r.area2 = st.area2 + pathSum (fun q p => (q.x + p.x) * (q.y - p.y)) (pointsOf h (p :: l))
    ∧ r.size = st.size + l.length := by
  intro l
  induction l with
  | nil => intro p st _; simp [pointsOf, pathSum]
  | cons i l ih =>
    intro p st hc
    rw [List.isChain_cons_cons] at hc
    obtain ⟨h1, h2⟩ := ih i (Stats.step st (prevLoc h i) (locOf h i)) hc.2
    have hp : prevLoc h i = locOf h p := by simp [prevLoc, hc.1.2]
    refine ⟨?_, ?_⟩
    · simp only [List.foldl_cons]
      rw [h1]
      simp only [pointsOf, List.map_cons, pathSum, Stats.step, hp]
      ring
    · simp only [List.foldl_cons, List.length_cons]
      rw [h2]
      simp only [Stats.step]
      ring

theorem boxOf_fold (f : Nat → Point) (g : Nat → Point) : ∀ (l : List Nat) (st : Stats) (seen : List Point),
    IsTightBox st.box seen → IsTightBox (l.foldl (fun st i => Stats.step st (g i) (f i)) st).box (seen ++ l.map f) := by
  intro l
  induction l with
  | nil => intro st seen h; simpa using h
  | cons i l ih =>
    intro st seen h
    rw [List.foldl_cons, List.map_cons, ← List.singleton_append, ← List.append_assoc]
    refine ih _ _ ?_
    obtain ⟨hc, ⟨p1, hp1, e1⟩, ⟨p2, hp2, e2⟩, ⟨p3, hp3, e3⟩, ⟨p4, hp4, e4⟩⟩ := h
    have m1 := hc p1 hp1
    have m3 := hc p3 hp3
    simp only [InBox] at m1 m3
    have mem : ∀ {q}, q ∈ seen → q ∈ seen ++ [f i] := fun h => List.mem_append_left _ h
    have mi : f i ∈ seen ++ [f i] := by simp
    constructor
    · intro p hp
      rcases List.mem_append.1 hp with hp | hp
      · have := hc p hp
        simp only [InBox, Stats.step] at this ⊢
        refine ⟨?_, ?_, ?_, ?_⟩ <;> (repeat (first | split | omega))
      · simp at hp; subst hp
        simp only [InBox, Stats.step]
        refine ⟨?_, ?_, ?_, ?_⟩ <;> (repeat (first | split | omega))
    · simp only [Stats.step]
      split
      · exact ⟨p1, mem hp1, e1⟩
      · split
        · exact ⟨f i, mi, rfl⟩
        · exact ⟨p1, mem hp1, e1⟩
    · simp only [Stats.step]
      split
      · exact ⟨f i, mi, rfl⟩
      · exact ⟨p2, mem hp2, e2⟩
    · simp only [Stats.step]
      split
      · exact ⟨p3, mem hp3, e3⟩
      · split
        · exact ⟨f i, mi, rfl⟩
        · exact ⟨p3, mem hp3, e3⟩
    · simp only [Stats.step]
      split
      · exact ⟨f i, mi, rfl⟩
      · exact ⟨p4, mem hp4, e4⟩

theorem ringSum_shoelace (pts : List Point) :
    ringSum (fun q p => (q.x + p.x) * (q.y - p.y)) pts = area2 pts := by
  unfold area2
  rw [← ringSum_neg]
  exact ringSum_potential (fun p => p.x * p.y) (by intro p q; unfold cross; ring) pts

theorem stats_spec {s : St} {a : Nat} {t : List Nat} (hl : IsCycle s.nodes (a :: t)) (hf : t.length < s.fuel) :
    ∃ box, nodeStats a s = .ok (intDiv (area2 (pointsOf s.nodes (a :: t))) 2, (a :: t).length, box) s
      ∧ IsTightBox box (pointsOf s.nodes (a :: t)) := by
  rw [nodeStats_run hl hf]
  refine ⟨((a :: t).foldl (fun st i => Stats.step st (prevLoc s.nodes i) (locOf s.nodes i))
    { area2 := 0, size := 0, box := ⟨locOf s.nodes a, locOf s.nodes a⟩ }).box, ?_, ?_⟩
  rotate_left
  · have := boxOf_fold (locOf s.nodes) (prevLoc s.nodes) (a :: t)
      { area2 := 0, size := 0, box := ⟨locOf s.nodes a, locOf s.nodes a⟩ } [locOf s.nodes a]
      ⟨by simp [InBox], by simp, by simp, by simp, by simp⟩
    have e : ∀ p, p ∈ [locOf s.nodes a] ++ (a :: t).map (locOf s.nodes) ↔ p ∈ (a :: t).map (locOf s.nodes) := by simp
    exact ⟨fun p hp => this.contains p ((e p).2 hp), by obtain ⟨p, h1, h2⟩ := this.left; exact ⟨p, (e p).1 h1, h2⟩,
      by obtain ⟨p, h1, h2⟩ := this.right; exact ⟨p, (e p).1 h1, h2⟩,
      by obtain ⟨p, h1, h2⟩ := this.top; exact ⟨p, (e p).1 h1, h2⟩,
      by obtain ⟨p, h1, h2⟩ := this.bottom; exact ⟨p, (e p).1 h1, h2⟩⟩
  · obtain ⟨hn, hseg, hclose⟩ := (isCycle_iff (by simp)).1 hl
    have hchain : ((a :: t).getLast (by simp) :: a :: t).IsChain (Link s.nodes) := by
      rw [List.isChain_cons_cons]; exact ⟨hclose, hseg⟩
    obtain ⟨h1, h2⟩ := stats_fold (a :: t) _ { area2 := 0, size := 0, box := ⟨locOf s.nodes a, locOf s.nodes a⟩ } hchain
    simp only
    rw [h1, h2]
    have e : pointsOf s.nodes ((a :: t).getLast (by simp) :: a :: t)
        = locOf s.nodes ((a :: t).getLast (by simp)) :: ((pointsOf s.nodes (a :: t).dropLast) ++ [locOf s.nodes ((a :: t).getLast (by simp))]) := by
      conv_lhs => rw [pointsOf, List.map_cons]
      congr 1
      conv_lhs => rw [← List.dropLast_append_getLast (l := a :: t) (by simp)]
      simp [pointsOf]
    rw [e, pathSum_last_cons]
    have e' : pointsOf s.nodes (a :: t).dropLast ++ [locOf s.nodes ((a :: t).getLast (by simp))] = pointsOf s.nodes (a :: t) := by
      conv_rhs => rw [← List.dropLast_append_getLast (l := a :: t) (by simp)]
      simp [pointsOf]
    rw [e', ringSum_shoelace]
    simp

end Wagyu
