import Verif.Proofs.TotSort
import Verif.Proofs.CurrentX
import Verif.Props.Sequences

/-!
# Common parts of the termination proofs of the two sweeps
-/

namespace Wagyu

open Spec

/-! ## The input -/

/-- A box. -/
structure Extent where
  xlo : Int
  xhi : Int
  ylo : Int
  yhi : Int

def Extent.X (F : Extent) (x : Int) : Prop := F.xlo ≤ x ∧ x ≤ F.xhi
def Extent.Y (F : Extent) (y : Int) : Prop := F.ylo ≤ y ∧ y ≤ F.yhi
def Extent.P (F : Extent) (p : Point) : Prop := F.X p.x ∧ F.Y p.y

/-- `A`: the local minima, `E b`: the edges of bound `b`, all within `F`. -/
structure Given (F : Extent) (E : Nat → List Edge) (A : List LocalMinimum) : Prop where
  path : ∀ b ∈ idsOf A, Path (E b)
  start : ∀ m ∈ A, ∃ p, startOf (E m.left) = some p ∧ startOf (E m.right) = some p ∧ p.y = m.y
  rises : ∀ m ∈ A, ∃ e l, E m.left = e :: l ∧ e.top.y < e.bottom.y
  horizontal : ∀ m ∈ A, m.hasHorizontal = true ↔ ∃ e l, E m.right = e :: l ∧ e.top.y = e.bottom.y
  inF : ∀ b ∈ idsOf A, ∀ e ∈ E b, F.P e.bottom ∧ F.P e.top
  bounded : ∀ b ∈ idsOf A, ∀ e ∈ E b, e.Bounded 52
  nodup : (idsOf A).Nodup

theorem mem_idsOf_left {m : LocalMinimum} {A : List LocalMinimum} (h : m ∈ A) : m.left ∈ idsOf A :=
  List.mem_flatMap.2 ⟨m, h, by simp⟩
theorem mem_idsOf_right {m : LocalMinimum} {A : List LocalMinimum} (h : m ∈ A) : m.right ∈ idsOf A :=
  List.mem_flatMap.2 ⟨m, h, by simp⟩
theorem idsOf_cons (m : LocalMinimum) (l : List LocalMinimum) : idsOf (m :: l) = m.left :: m.right :: idsOf l := rfl

/-- Consecutive edges of a path. -/
theorem Path.step {es : List Edge} (h : Path es) {i : Nat} {e f : Edge} (he : es[i]? = some e) (hf : es[i + 1]? = some f) :
    e.top = f.bottom ∧ ¬ (e.isHorizontal = true ∧ f.isHorizontal = true) := by
  have hc := h.chain
  rw [List.isChain_iff_getElem] at hc
  obtain ⟨hi, he⟩ := List.getElem?_eq_some_iff.1 he
  obtain ⟨hj, hf⟩ := List.getElem?_eq_some_iff.1 hf
  subst he hf
  exact hc i hj

/-! ## Sums -/

theorem sum_step {α : Type} {l : List α} {f g : α → Nat} (h : ∀ x ∈ l, g x ≤ f x) {b : α} (hb : b ∈ l) {c : Nat}
    (hc : g b + c ≤ f b) : (l.map g).sum + c ≤ (l.map f).sum := by
  induction l with
  | nil => cases hb
  | cons a l ih =>
    have hle : (l.map g).sum ≤ (l.map f).sum := by
      clear ih hb
      induction l with
      | nil => exact Nat.le_refl _
      | cons d l ih =>
        have := ih fun x hx => h x (by simp only [List.mem_cons] at hx ⊢; tauto)
        have := h d (by simp)
        simp only [List.map_cons, List.sum_cons]
        omega
    simp only [List.map_cons, List.sum_cons]
    rcases List.mem_cons.1 hb with rfl | hb
    · omega
    · have := ih (fun x hx => h x (by simp [hx])) hb
      have := h a (by simp)
      omega

theorem sum_mono {α : Type} {l : List α} {f g : α → Nat} (h : ∀ x ∈ l, g x ≤ f x) : (l.map g).sum ≤ (l.map f).sum := by
  induction l with
  | nil => exact Nat.le_refl _
  | cons d l ih =>
    have := ih fun x hx => h x (by simp [hx])
    have := h d (by simp)
    simp only [List.map_cons, List.sum_cons]
    omega

theorem sum_step2 {α : Type} [DecidableEq α] {l : List α} {f g : α → Nat} (h : ∀ x ∈ l, g x ≤ f x) {b c : α} (hb : b ∈ l) (hc : c ∈ l)
    (hne : b ≠ c) (h1 : g b + 1 ≤ f b) (h2 : g c + 1 ≤ f c) : (l.map g).sum + 2 ≤ (l.map f).sum := by
  let k : α → Nat := fun x => if x = b then g x else f x
  have e1 : (l.map k).sum + 1 ≤ (l.map f).sum := by
    refine sum_step (b := b) (fun x hx => ?_) hb ?_
    · show (if x = b then g x else f x) ≤ f x
      split
      · exact h x hx
      · exact Nat.le_refl _
    · show (if b = b then g b else f b) + 1 ≤ f b
      rw [if_pos rfl]; exact h1
  have e2 : (l.map g).sum + 1 ≤ (l.map k).sum := by
    refine sum_step (b := c) (fun x hx => ?_) hc ?_
    · show g x ≤ (if x = b then g x else f x)
      split
      · exact Nat.le_refl _
      · exact h x hx
    · show g c + 1 ≤ (if c = b then g c else f c)
      rw [if_neg (Ne.symm hne)]; exact h2
  omega

/-! ## Scanbeams -/

theorem insort_length (l : List Int) (v : Int) : (insortUnique l v).length ≤ l.length + 1 := by
  unfold insortUnique
  simp only
  split
  · simp only [List.length_append, List.length_cons, List.length_take, List.length_drop]
    omega
  · omega

/-! ## `to_next_edge` -/

theorem upd_upd (f : Nat → Bound) (b : Nat) (x y : Bound) : upd (upd f b x) b y = upd f b y := by
  funext i
  unfold upd
  split <;> rfl

theorem run_toNextEdge_last {b : Nat} {s : St} (hcur : (s.bounds b).curIdx + 1 = (s.bounds b).edges.length) :
    toNextEdge b s = .ok () { s with bounds := (upd s.bounds b { s.bounds b with cur := none }) } := by
  have hs : (s.bounds b).setCur ((s.bounds b).curIdx + 1) = { s.bounds b with cur := none } := by
    unfold Bound.setCur
    rw [if_neg (by omega)]
  unfold toNextEdge
  rw [run_bind]
  simp only [modBound, modify, hs]
  rw [run_bind]
  simp only [getBound, gets, Wagyu.upd_same]
  rw [if_neg (by show ¬ (s.bounds b).edges.length < (s.bounds b).edges.length; omega)]
  rfl

theorem run_toNextEdge_next {b : Nat} {s : St} {e : Edge} (he : (s.bounds b).edges[(s.bounds b).curIdx + 1]? = some e) :
    toNextEdge b s = .ok () { s with
      bounds := (upd s.bounds b { s.bounds b with
        cur := some ((s.bounds b).curIdx + 1)
        nxt := (if (s.bounds b).nxtIdx + 1 < (s.bounds b).edges.length then some ((s.bounds b).nxtIdx + 1) else none)
        currentX := .ofInt e.bottom.x })
      scan := (if e.isHorizontal then s.scan else insortUnique s.scan e.top.y) } := by
  have hlt : (s.bounds b).curIdx + 1 < (s.bounds b).edges.length := (List.getElem?_eq_some_iff.1 he).1
  have hs : (s.bounds b).setCur ((s.bounds b).curIdx + 1) = { s.bounds b with cur := some ((s.bounds b).curIdx + 1) } := by
    unfold Bound.setCur
    rw [if_pos hlt]
  unfold toNextEdge
  rw [run_bind, run_modBound]
  dsimp only
  rw [hs, run_bind, run_getBound]
  dsimp only
  rw [Wagyu.upd_same]
  rw [show Bound.curIdx { s.bounds b with cur := some ((s.bounds b).curIdx + 1) } = (s.bounds b).curIdx + 1 from rfl]
  rw [if_pos hlt, run_bind, run_modBound]
  dsimp only
  rw [Wagyu.upd_same, upd_upd, run_bind]
  unfold currentEdge
  rw [run_bind, run_getBound]
  dsimp only
  rw [Wagyu.upd_same]
  rw [show Bound.currentEdge? (Bound.setNxt { s.bounds b with cur := some ((s.bounds b).curIdx + 1) } _) = some e from he]
  unfold orIndex
  dsimp only
  rw [run_bind, run_modBound]
  dsimp only
  rw [Wagyu.upd_same, upd_upd]
  split <;> rfl

end Wagyu
