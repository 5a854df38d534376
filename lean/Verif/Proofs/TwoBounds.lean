import Verif.Proofs.Two

/-!
# Two runs: the attributes of bounds
-/

namespace Wagyu

/-- Equal but for the attributes the search for hot pixels does not use. -/
def KHot (_ : Nat) (x y : Bound) : Prop :=
  ∃ lp k r wc owc sd, y = { x with lastPoint := lp, position := k, ring := r, windingCount := wc, oppositeWindingCount := owc, side := sd }

/-- Equal but for the position, and for the last point unless `W`. -/
def KFull (W : Nat → Option Nat → Prop) (b : Nat) (x y : Bound) : Prop :=
  ∃ lp k, y = { x with lastPoint := lp, position := k } ∧ (W b x.ring → lp = x.lastPoint)

/-- What both have in common. -/
class Live (K : Nat → Bound → Bound → Prop) : Prop where
  hot : ∀ b x y, K b x y → KHot b x y
  upd : ∀ b x y c n v, K b x y → K b { x with cur := c, nxt := n, currentX := v } { y with cur := c, nxt := n, currentX := v }
  pos : ∀ b x y k, K b x y → K b { x with position := k } { y with position := k }

instance : Live KHot where
  hot _ _ _ h := h
  upd := by rintro b x y c n v ⟨_, _, _, _, _, _, rfl⟩; exact ⟨_, _, _, _, _, _, rfl⟩
  pos := by rintro b x y k ⟨_, _, _, _, _, _, rfl⟩; exact ⟨_, _, _, _, _, _, rfl⟩

instance {W : Nat → Option Nat → Prop} : Live (KFull W) where
  hot := by rintro b x y ⟨_, _, rfl, _⟩; exact ⟨_, _, _, _, _, _, rfl⟩
  upd := by rintro b x y c n v ⟨_, _, rfl, h⟩; exact ⟨_, _, rfl, h⟩
  pos := by rintro b x y k ⟨_, _, rfl, h⟩; exact ⟨_, _, rfl, h⟩

syntax "rel1" : tactic
syntax "relside" : tactic
syntax "relread" : tactic
syntax "relwrite" : tactic
syntax "rel_step" : tactic
macro_rules | `(tactic| relside) => `(tactic| first
  | assumption
  | trivial
  | (apply_assumption; assumption)
  | (apply_assumption; rfl)
  | (simp_all [DOpt]; done)
  | grind [DOpt])
macro_rules | `(tactic| rel_step) => `(tactic| first
  | exact Rel.raise
  | (with_reducible apply Rel.ite <;> intro _)
  | ((with_reducible refine Rel.pure ?_); first | trivial | relside)
  | ((with_reducible refine Rel.getBind ?_ ?_ ?_); (focus relside); (focus relread); intro _)
  | rel1
  | ((with_reducible apply Rel.bind); (focus rel1); intro _ _)
  | (with_reducible refine Rel.bind (P := fun _ => True) ?_ ?_)
  | (with_reducible refine Rel.loopM (fun _ => True) trivial fun _ _ => ?_)
  | (with_reducible refine Rel.forElse (fun _ => True) trivial (fun _ _ => ?_) fun _ _ => ?_)
  | (with_reducible refine Rel.forList fun _ _ => ?_)
  | split)
macro "rel" : tactic => `(tactic| repeat' (first | rel_step | (intro _ _)))

theorem readHot {K : Nat → Bound → Bound → Prop} [hK : Live K] {b : Nat} {α : Type} {F : Bound → α}
    (h : ∀ x lp k r wc owc sd, F x = F { x with lastPoint := lp, position := k, ring := r, windingCount := wc, oppositeWindingCount := owc, side := sd }) :
    ∀ x y, K b x y → F x = F y := by
  intro x y hk
  obtain ⟨_, _, _, _, _, _, rfl⟩ := Live.hot _ _ _ hk
  exact h ..
theorem readFull {W : Nat → Option Nat → Prop} {b : Nat} {α : Type} {F : Bound → α}
    (h : ∀ x lp k, F x = F { x with lastPoint := lp, position := k }) : ∀ x y, KFull W b x y → F x = F y := by
  rintro x y ⟨_, _, rfl, _⟩
  exact h ..
macro_rules | `(tactic| relread) => `(tactic| ((with_reducible refine readFull ?_); intro _ _ _; rfl))
macro_rules | `(tactic| relread) => `(tactic| ((with_reducible refine readHot ?_); intro _ _ _ _ _ _ _; rfl))
macro_rules | `(tactic| rel1) => `(tactic| with_reducible exact Rel.blind)
macro_rules | `(tactic| rel1) => `(tactic| with_reducible exact Rel.liftE)
macro_rules | `(tactic| rel1) => `(tactic| with_reducible exact Rel.deref)
macro_rules | `(tactic| rel1) => `(tactic| with_reducible exact Rel.orIndex)
macro_rules | `(tactic| rel1) => `(tactic| (with_reducible exact Rel.gets (P := fun _ => True) (fun _ _ => rfl) fun _ _ => trivial))

set_option linter.unusedSectionVars false

section
variable {K : Nat → Bound → Bound → Prop} [hK : Live K] {D : Nat → Prop}

theorem rl_gets_abl : Rel K D (gets St.abl) fun l => ∀ b, some b ∈ l → D b := Rel.gets (fun _ _ => rfl) fun _ h => h
macro_rules | `(tactic| rel1) => `(tactic| with_reducible exact rl_gets_abl)
theorem rl_ablGet {i : Nat} : Rel K D (ablGet i) fun o => DOpt D o := by
  refine ⟨fun s t hs => ?_⟩
  unfold Two ablGet
  rw [hs.field (f := St.abl) fun _ _ => rfl]
  cases h : s.abl[i]? with
  | none => rfl
  | some v =>
    refine ⟨rfl, fun b hb => ?_, hs⟩
    subst hb
    exact hs.abl b (List.mem_of_getElem? h)
macro_rules | `(tactic| rel1) => `(tactic| with_reducible exact rl_ablGet)
theorem rl_ablSet {i : Nat} {v : Option Nat} (h : DOpt D v) : Rel K D (ablSet i v) fun _ => True :=
  Rel.setAbl (f := fun l => l.set i v) fun l hl b hb => by
    rcases List.mem_or_eq_of_mem_set hb with hb | hb
    · exact hl b hb
    · exact h b hb.symm
theorem DOpt.none : DOpt D none := nofun
macro_rules | `(tactic| rel1) => `(tactic| with_reducible exact rl_ablSet DOpt.none)
macro_rules | `(tactic| rel1) => `(tactic| with_reducible exact rl_ablSet (by assumption))
theorem rl_ablFilter : Rel K D ablFilter fun _ => True :=
  Rel.setAbl (f := fun l => l.filter Option.isSome) fun _ hl b hb => hl b (List.mem_of_mem_filter hb)
macro_rules | `(tactic| rel1) => `(tactic| with_reducible exact rl_ablFilter)
theorem rl_ablSwap {i j : Nat} : Rel K D (ablSwap i j) fun _ => True := by unfold ablSwap; rel
macro_rules | `(tactic| rel1) => `(tactic| with_reducible exact rl_ablSwap)

theorem rl_currentEdge {b : Nat} (hb : D b) : Rel K D (currentEdge b) fun _ => True := by
  unfold currentEdge
  refine Rel.getBind hb (by relread) fun _ => Rel.orIndex.triv
theorem rl_nextEdge {b : Nat} (hb : D b) : Rel K D (nextEdge b) fun _ => True := by
  unfold nextEdge
  refine Rel.getBind hb (by relread) fun _ => Rel.orIndex.triv
macro_rules | `(tactic| rel1) => `(tactic| ((with_reducible apply rl_currentEdge); relside))
macro_rules | `(tactic| rel1) => `(tactic| ((with_reducible apply rl_nextEdge); relside))

theorem rl_isIntermediate {b : Nat} {y : Int} (hb : D b) : Rel K D (isIntermediate b y) fun _ => True := by unfold isIntermediate; rel
theorem rl_isMaxima {b : Nat} {y : Int} (hb : D b) : Rel K D (isMaxima b y) fun _ => True := by unfold isMaxima; rel
macro_rules | `(tactic| rel1) => `(tactic| ((with_reducible apply rl_isIntermediate); relside))
macro_rules | `(tactic| rel1) => `(tactic| ((with_reducible apply rl_isMaxima); relside))

theorem rl_modSeq {b : Nat} {f : Bound → Bound} (hb : D b) (c n : Bound → Option Nat) (v : Bound → F64)
    (hf : ∀ x, f x = { x with cur := c x, nxt := n x, currentX := v x })
    (hr : ∀ x y, KHot b x y → c x = c y ∧ n x = n y ∧ v x = v y) : Rel K D (modBound b f) fun _ => True := by
  refine Rel.modBound hb (fun x y h => ?_) fun x => ?_
  · obtain ⟨h1, h2, h3⟩ := hr x y (Live.hot _ _ _ h)
    rw [hf, hf, h1, h2, h3]
    exact Live.upd _ _ _ _ _ _ h
  · rw [hf]; exact ⟨rfl, rfl, rfl, rfl⟩

theorem rl_setCur {b : Nat} (hb : D b) : Rel K D (modBound b fun bd => bd.setCur (bd.curIdx + 1)) fun _ => True :=
  rl_modSeq hb (fun x => (x.setCur (x.curIdx + 1)).cur) (fun x => x.nxt) (fun x => x.currentX) (fun _ => rfl) (by
    rintro x y ⟨_, _, _, _, _, _, rfl⟩; exact ⟨rfl, rfl, rfl⟩)
theorem rl_setNxt {b : Nat} (hb : D b) : Rel K D (modBound b fun bd => bd.setNxt (bd.nxtIdx + 1)) fun _ => True :=
  rl_modSeq hb (fun x => x.cur) (fun x => (x.setNxt (x.nxtIdx + 1)).nxt) (fun x => x.currentX) (fun _ => rfl) (by
    rintro x y ⟨_, _, _, _, _, _, rfl⟩; exact ⟨rfl, rfl, rfl⟩)
theorem rl_setX {b : Nat} {v : F64} (hb : D b) : Rel K D (modBound b fun bd => { bd with currentX := v }) fun _ => True :=
  rl_modSeq hb (fun x => x.cur) (fun x => x.nxt) (fun _ => v) (fun _ => rfl) (by
    rintro x y ⟨_, _, _, _, _, _, rfl⟩; exact ⟨rfl, rfl, rfl⟩)
theorem rl_setPos {b : Nat} {k : Nat} (hb : D b) : Rel K D (modBound b fun bd => { bd with position := k }) fun _ => True :=
  Rel.modBound hb (fun _ _ h => Live.pos _ _ _ _ h) fun _ => ⟨rfl, rfl, rfl, rfl⟩
macro_rules | `(tactic| rel1) => `(tactic| ((with_reducible apply rl_setCur); relside))
macro_rules | `(tactic| rel1) => `(tactic| ((with_reducible apply rl_setNxt); relside))
macro_rules | `(tactic| rel1) => `(tactic| ((with_reducible apply rl_setX); relside))
macro_rules | `(tactic| rel1) => `(tactic| ((with_reducible apply rl_setPos); relside))

theorem rl_toNextEdge {b : Nat} (hb : D b) : Rel K D (toNextEdge b) fun _ => True := by unfold toNextEdge; rel
macro_rules | `(tactic| rel1) => `(tactic| ((with_reducible apply rl_toNextEdge); relside))
theorem rl_boundInsertLocation {a b : Nat} (ha : D a) (hb : D b) : Rel K D (boundInsertLocation a b) fun _ => True := by
  unfold boundInsertLocation; rel
macro_rules | `(tactic| rel1) => `(tactic| ((with_reducible apply rl_boundInsertLocation) <;> relside))
theorem rl_findInsertIndex {a : Nat} (ha : D a) {l : List (Option Nat)} {i : Nat} (hl : ∀ b, some b ∈ l → D b) :
    Rel K D (findInsertIndex a l i) fun _ => True := by
  induction l generalizing i with
  | nil => exact Rel.pure trivial
  | cons o l ih =>
    have := @ih (i + 1) fun b hb => hl b (by simp [hb])
    rw [findInsertIndex]
    refine Rel.bind Rel.deref fun c hc => ?_
    have hc : D c := hl c (by simp [hc])
    rel
    exact this
theorem rl_insertBoundIntoAbl {a b : Nat} (ha : D a) (hb : D b) : Rel K D (insertBoundIntoAbl a b) fun _ => True := by
  unfold insertBoundIntoAbl
  refine Rel.bind rl_gets_abl fun l hl => Rel.bind (rl_findInsertIndex ha hl) fun i _ => Rel.bind (P := fun _ => True)
    (Rel.setAbl (f := fun l => l.take i ++ some a :: some b :: l.drop i) ?_) fun _ _ => Rel.pure trivial
  intro l hl c hc
  rcases List.mem_append.1 hc with hc | hc
  · exact hl c (List.mem_of_mem_take hc)
  · rcases List.mem_cons.1 hc with hc | hc
    · cases hc; exact ha
    · rcases List.mem_cons.1 hc with hc | hc
      · cases hc; exact hb
      · exact hl c (List.mem_of_mem_drop hc)
macro_rules | `(tactic| rel1) => `(tactic| ((with_reducible apply rl_insertBoundIntoAbl) <;> relside))

theorem rl_updateCurrentX {y : Int} : Rel K D (updateCurrentX y) fun _ => True := by
  unfold updateCurrentX
  refine Rel.bind rl_gets_abl fun l hl => Rel.forElse (fun _ => True) trivial (fun i _ => ?_) fun _ _ => Rel.pure trivial
  refine Rel.bind Rel.deref fun b hb => ?_
  have hb : D b := hl b (by
    rw [List.getD_eq_getElem?_getD] at hb
    cases h : l[i]? with
    | none => rw [h] at hb; cases hb
    | some v =>
      rw [h] at hb
      exact hb ▸ List.mem_of_getElem? h)
  rel
macro_rules | `(tactic| rel1) => `(tactic| with_reducible exact rl_updateCurrentX)

theorem rl_crossingOf {a b : Nat} (ha : D a) (hb : D b) : Rel K D (crossingOf a b) fun _ => True := by unfold crossingOf; rel
macro_rules | `(tactic| rel1) => `(tactic| ((with_reducible apply rl_crossingOf) <;> relside))

end

end Wagyu
