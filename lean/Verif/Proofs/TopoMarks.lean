import Verif.Proofs.SweepPrims
import Verif.Proofs.TopoRuns

/-!
# The sweeps mark no ring as corrected and cache no statistics
-/

namespace Wagyu

/-- No statistics are cached and the ring is not marked as corrected. -/
structure Blank (g : Ring) : Prop where
  stats : g.resetStats = g
  mark : g.corrected = false

/-- Blank rings stay blank. -/
def Unmarked (s s' : St) : Prop := ∀ r, Blank (s.rings r) → Blank (s'.rings r)

instance : Preo Unmarked where
  refl _ _ h := h
  trans h k r hr := k r (h r hr)

theorem Blank.congr {g h : Ring} (hb : Blank h) (hc : g.corrected = h.corrected) (hs : SameStats g h) : Blank g := by
  refine ⟨?_, hc.trans hb.mark⟩
  rcases hs with ⟨h1, h2, h3, h4⟩ | hs
  · have hb := hb.stats
    rw [← congrArg Ring.area hb] at h1
    rw [← congrArg Ring.size hb] at h2
    rw [← congrArg Ring.isHole hb] at h3
    rw [← congrArg Ring.box hb] at h4
    cases g
    simp only [Ring.resetStats] at h1 h2 h3 h4 ⊢
    rw [h1, h2, h3, h4]
  · exact hs

theorem Unmarked.of_eq {s s' : St} (h : s'.rings = s.rings) : Unmarked s s' := fun r hr => by rw [h]; exact hr
theorem Unmarked.upd {s s' : St} {i : Nat} {g : Ring} (hs : s'.rings = Wagyu.upd s.rings i g)
    (h : g.corrected = (s.rings i).corrected ∧ SameStats g (s.rings i) ∨ Blank g) : Unmarked s s' := fun r hr => by
  rw [hs]
  by_cases e : r = i
  · subst e
    rw [Wagyu.upd_same]
    rcases h with ⟨h1, h2⟩ | h
    · exact hr.congr h1 h2
    · exact h
  · rwa [Wagyu.upd_ne _ _ e]

instance um00 : Prims0 Unmarked where
  node0 _ _ _ _ _ := .of_eq rfl
  ring0 _ _ _ _ _ h k := .upd rfl (.inl ⟨h, k⟩)
  sort0 _ _ := .of_eq rfl

instance um01 (p : Option Nat) (f : List (Option Nat) → List (Option Nat)) : Pres Unmarked (modChildren p f) := by
  unfold modChildren
  split
  · exact ⟨fun _ => .of_eq rfl⟩
  · exact ⟨fun _ => .upd rfl (.inl ⟨rfl, .rfl' rfl rfl rfl rfl⟩)⟩
instance um02 (i : Nat) (f : List (Option Nat) → List (Option Nat)) : Pres Unmarked (modRing i fun g => { g with children := f g.children }) :=
  ⟨fun _ => .upd rfl (.inl ⟨rfl, .rfl' rfl rfl rfl rfl⟩)⟩
instance um03 (i : Nat) (k : Nat) : Pres Unmarked (modRing i fun g => { g with children := g.children.set k none }) :=
  ⟨fun _ => .upd rfl (.inl ⟨rfl, .rfl' rfl rfl rfl rfl⟩)⟩
instance um04 (i : Nat) (p : Option Nat) : Pres Unmarked (setRingParent i p) := ⟨fun _ => .upd rfl (.inl ⟨rfl, .rfl' rfl rfl rfl rfl⟩)⟩
instance um05 : Pres Unmarked createRing := ⟨fun _ => .upd rfl (.inr ⟨rfl, rfl⟩)⟩

instance um06 (r : Option Nat) (p : Point) (b : Option Nat) : Pres Unmarked (createPointNode r p b) := by
  unfold createPointNode
  refine Pres.bind inferInstance fun _ => Pres.bind ⟨fun _ => .of_eq rfl⟩ fun _ => ?_
  cases b with
  | none => exact Pres.bind ⟨fun _ => .of_eq rfl⟩ fun _ => inferInstance
  | some b => exact Pres.bind inferInstance fun _ => Pres.bind ⟨fun _ => .of_eq rfl⟩ fun _ => inferInstance

instance um07 (b : Nat) : Pres Unmarked (setHoleState b) := by
  unfold setHoleState
  refine Pres.bind inferInstance fun _ => ?_
  split
  · infer_instance
  · refine Pres.bind inferInstance fun _ => Pres.bind inferInstance fun _ => Pres.bind inferInstance fun _ => ?_
    split
    · exact Pres.bind inferInstance fun _ => ⟨fun _ => .of_eq rfl⟩
    · exact Pres.bind inferInstance fun _ => Pres.bind inferInstance fun _ => Pres.bind inferInstance fun _ =>
        ⟨fun _ => .upd rfl (.inl ⟨rfl, .rfl' rfl rfl rfl rfl⟩)⟩

instance : SweepPrims Unmarked where
  bound _ _ _ _ := .of_eq rfl
  misc _ _ _ _ _ := .of_eq rfl
  createPoint r p b := inferInstance
  firstPoint b p := by
    unfold addFirstPoint
    refine Pres.bind inferInstance fun _ => Pres.bind ⟨fun _ => .of_eq rfl⟩ fun _ => Pres.bind inferInstance fun _ =>
      Pres.bind inferInstance fun _ => Pres.bind inferInstance fun _ => ⟨fun _ => .of_eq rfl⟩
  replace r p := by unfold replaceRing; pres

end Wagyu
