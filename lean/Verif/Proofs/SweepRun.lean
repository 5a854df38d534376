import Verif.Proofs.SweepMaxima
import Verif.Proofs.VattiStart
import Verif.Props.Intersections

/-!
# The whole sweep is a sequence of events, if no bound ends in a horizontal edge
-/

namespace Wagyu

open Spec

/-- The only `RuntimeError` is the one about lines that do not intersect. -/
def OnlyCross (e : Err) (_ : St) : Prop := ∀ msg, e = .runtime msg → msg = "Trying to find intersection of lines that do not intersect"

theorem Post.only {α : Type} {m : M α} {s : St} {Q : α → St → Prop} (h : Post m s Q NotRuntime) : Post m s Q OnlyCross :=
  h.mono (fun _ _ h => h) fun _ _ h msg e => absurd e (h msg)

theorem only_fuel {s : St} : OnlyCross .fuel s := nofun

/-- What is known about the bounds before the sweep: the two bounds of a local minimum and the two of a local maximum are
partners, and the last edge of no bound is horizontal. -/
structure Mates (s0 : St) (A : List LocalMinimum) : Prop where
  opened : ∀ v ∈ A, v.left ≠ v.right ∧ Partners s0 v.left v.right ∧ (s0.bounds v.left).edges ≠ [] ∧ (s0.bounds v.right).edges ≠ []
  closed : ∀ b ∈ idsOf A, ∃ m, (s0.bounds b).maximumBound = some m ∧ (s0.bounds m).maximumBound = some b ∧ Partners s0 b m
  steep : ∀ b ∈ idsOf A, ∀ e, (s0.bounds b).edges.getLast? = some e → e.isHorizontal = false

/-- What holds at every moment. -/
structure Run (op : OperationKind) (sf cf : FillKind) (s0 : St) (A rest : List LocalMinimum) (s : St) : Prop where
  reached : Reached op sf cf s
  static : Static s0 s
  sub : ∀ m ∈ rest, m ∈ A
  nd : (idsOf rest).Nodup
  act : ∀ b ∈ act s, b ∈ idsOf A ∧ b ∉ idsOf rest
  idx : ∀ b ∈ Wagyu.act s, (s.bounds b).nxtIdx = (s.bounds b).curIdx + 1

/-- Every bound stays where it is. -/
def Put (s s' : St) : Prop := ∀ b, SamePlace (s.bounds b) (s'.bounds b)

instance : Preo Put where
  refl _ _ := SamePlace.refl _
  trans h k b := (h b).trans (k b)

theorem Put.of_still {α : Type} {m : M α} (h : Pres Still m) : Pres Put m := ⟨fun s => (h.pres s).bound⟩

instance Put.i1 (i : Nat) (v : Option Nat) : Pres Put (ablSet i v) := ⟨fun _ _ => SamePlace.refl _⟩
instance Put.i2 (i j : Nat) : Pres Put (ablSwap i j) := by unfold ablSwap; pres
instance Put.i3 (p : Point) (op : OperationKind) (sf cf : FillKind) (a b : Nat) : Pres Put (intersectBounds p op sf cf a b) :=
  Put.of_still inferInstance
instance Put.i4 (p : Point) (a b : Nat) : Pres Put (addLocalMaximumPoint p a b) := Put.of_still inferInstance
instance Put.i5 (op : OperationKind) (sf cf : FillKind) (m i : Nat) : Pres Put (maximaLoop op sf cf m i) := by unfold maximaLoop; pres
instance Put.i6 (op : OperationKind) (sf cf : FillKind) (m i : Nat) : Pres Put (doMaxima op sf cf m i) := by unfold doMaxima; pres
instance Put.i7 (y : Int) : Pres Put (insertScan y) := ⟨fun _ _ => SamePlace.refl _⟩
instance Put.i8 (p : Point) (a b : Nat) : Pres Put (addLocalMinimumPoint p a b) := Put.of_still inferInstance
theorem Put.modBound {b : Nat} {f : Bound → Bound} (h : ∀ bd, SamePlace bd (f bd)) : Pres Put (modBound b f) := Put.of_still (Still.modBound h)

instance Put.i10 (a b : Nat) : Pres Put (insertBoundIntoAbl a b) := by
  unfold insertBoundIntoAbl
  exact Pres.bind inferInstance fun _ => Pres.bind inferInstance fun _ => Pres.bind ⟨fun _ _ => SamePlace.refl _⟩ fun _ => inferInstance

instance Put.i11 (i : Nat) (sf cf : FillKind) : Pres Put (setWindingCount i sf cf) := by
  unfold setWindingCount
  refine Pres.bind inferInstance fun _ => Pres.bind inferInstance fun _ => Pres.bind inferInstance fun _ => Pres.ite' (Put.modBound fun _ => ⟨rfl, rfl, rfl, rfl, rfl⟩) ?_
  refine Pres.bind inferInstance fun _ => Pres.bind inferInstance fun _ => ?_
  refine Pres.bind ?_ fun _ => Pres.bind inferInstance fun _ => Put.modBound fun _ => ⟨rfl, rfl, rfl, rfl, rfl⟩
  split <;> pres

instance Put.i12 (op : OperationKind) (sf cf : FillKind) (a b : Nat) : Pres Put (insertLmLeftAndRightBound op sf cf a b) := by
  unfold insertLmLeftAndRightBound
  refine Pres.bind inferInstance fun _ => Pres.bind inferInstance fun _ => Pres.bind inferInstance fun _ => ?_
  refine Pres.bind (Put.modBound fun _ => ⟨rfl, rfl, rfl, rfl, rfl⟩) fun _ => ?_
  pres

section
variable {op : OperationKind} {sf cf : FillKind} {s0 : St} {A rest : List LocalMinimum} {s : St} {α β : Type}

/-- A quiet step. -/
theorem Run.quiet {s' : St} (h : Run op sf cf s0 A rest s) (ha : Wagyu.act s' = Wagyu.act s) (hn : s'.nr = s.nr)
    (hc : ∀ b, core (s'.bounds b) = core (s.bounds b))
    (hi : ∀ b ∈ Wagyu.act s, (s'.bounds b).nxtIdx = (s'.bounds b).curIdx + 1) : Run op sf cf s0 A rest s' where
  reached := .step h.reached (.quiet ha hn fun b _ => ⟨core_kind (hc b), core_delta (hc b), core_wc (hc b), core_owc (hc b), core_ring (hc b), core_side (hc b)⟩)
  static := h.static.trans fun b => ⟨core_kind (hc b), core_delta (hc b), core_max (hc b), core_edges (hc b)⟩
  sub := h.sub
  nd := h.nd
  act b hb := h.act b (ha ▸ hb)
  idx b hb := hi b (ha ▸ hb)

theorem Run.still {s' : St} (h : Run op sf cf s0 A rest s) (k : Same s s') (k' : Put s s') : Run op sf cf s0 A rest s' :=
  h.quiet (by unfold Wagyu.act; rw [k.abl]) k.nr k.core fun b hb => by rw [(k' b).nxtIdx, (k' b).curIdx]; exact h.idx b hb

/-- A statement that only adds points. -/
theorem Run.add {m : M α} [h1 : Pres Same m] [h2 : Pres Still m] [h3 : Quiet m] {Q : α → St → Prop} (h : Run op sf cf s0 A rest s)
    (k : ∀ a s', Run op sf cf s0 A rest s' → Same s s' → Still s s' → Q a s') : Post m s Q OnlyCross := by
  refine Post.only (Ok.quiet (Ok.intro fun a s' e => ?_))
  have hs := Same.of h1 e
  have hp : Still s s' := by have := h2.pres s; rw [e] at this; exact this
  exact k a s' (h.still hs hp.bound) hs hp

/-- A statement that only reads. -/
theorem Post.look {m : M α} [h1 : Pres Eq m] [h3 : Quiet m] {Q : α → St → Prop}
    (k : ∀ a, m s = .ok a s → Q a s) : Post m s Q OnlyCross := by
  refine Post.only (Ok.quiet (Ok.intro fun a s' e => ?_))
  have : s = s' := by have := h1.pres s; rw [e] at this; exact this
  subst this
  exact k a e

theorem mem_act {b : Nat} : b ∈ act s ↔ some b ∈ s.abl := by unfold act; simp

theorem Run.crossed {s' : St} {i j a b : Nat} (h : Run op sf cf s0 A rest s) (hadj : Adjacent s i j a b) (hr : Reached op sf cf s') (hst : Static s s')
    (hp : Put s s') (ha : s'.abl = (s.abl.set i (some b)).set j (some a)) : Run op sf cf s0 A rest s' := by
  have hm : ∀ c ∈ Wagyu.act s', c ∈ Wagyu.act s := by
    intro c hc
    rw [mem_act] at hc ⊢
    rw [ha] at hc
    rcases List.mem_or_eq_of_mem_set hc with hc | hc
    · rcases List.mem_or_eq_of_mem_set hc with hc | hc
      · exact hc
      · cases hc; exact List.mem_of_getElem? hadj.snd
    · cases hc; exact List.mem_of_getElem? hadj.fst
  exact ⟨hr, h.static.trans hst, h.sub, h.nd, fun c hc => h.act c (hm c hc), fun c hc => by rw [(hp c).nxtIdx, (hp c).curIdx]; exact h.idx c (hm c hc)⟩

/-- Two adjacent bounds cross. -/
theorem Run.cross {p : Point} {i j a b : Nat} {Q : Unit → St → Prop} (h : Run op sf cf s0 A rest s) (hadj : Adjacent s i j a b)
    (k : ∀ s', Run op sf cf s0 A rest s' → Put s s' → s'.abl = (s.abl.set i (some b)).set j (some a) → Q () s') :
    Post (intersectBounds p op sf cf a b) s (fun _ s1 => Post (ablSwap i j) s1 Q OnlyCross) OnlyCross := by
  refine ((Ok.quiet (crossing_event (p := p) h.reached hadj)).only.and (Ok.pres (R := Put) inferInstance)).imp ?_
  rintro _ s1 ⟨h1, p1⟩
  refine ((Ok.quiet h1).only.and (Ok.pres (R := Put) inferInstance)).imp ?_
  rintro _ s2 ⟨⟨r1, r2, r3⟩, p2⟩
  exact k s2 (h.crossed hadj r1 r2 (Preo.trans p1 p2) r3) (Preo.trans p1 p2) r3

end

end Wagyu
