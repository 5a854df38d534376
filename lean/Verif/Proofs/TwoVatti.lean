import Verif.Proofs.TwoHot

/-!
# Two runs: the sweep that builds the output rings

The last point of a bound is read only when the bound belongs to a ring; then it is the same in both runs.
-/

namespace Wagyu

/-- Equal but for the position, and for the last point unless the bound belongs to a ring or is in `L`. -/
abbrev KL (L : Nat → Prop) : Nat → Bound → Bound → Prop := KFull fun b r => r ≠ none ∨ L b

section
variable {α β : Type} {W : Nat → Option Nat → Prop} {L : Nat → Prop} {D : Nat → Prop} {Q : β → Prop} {s t : St}

theorem Sim.weaken {K K' : Nat → Bound → Bound → Prop} (hs : Sim K D s t) (h : ∀ b, D b → K b (s.bounds b) (t.bounds b) → K' b (s.bounds b) (t.bounds b)) :
    Sim K' D s t := ⟨hs.rest, hs.input, fun b hb => h b hb (hs.live b hb), hs.abl⟩

theorem KFull.weaken {W' : Nat → Option Nat → Prop} {b : Nat} {x y : Bound} (h : KFull W b x y) (hw : W' b x.ring → W b x.ring) : KFull W' b x y := by
  obtain ⟨lp, k, e, h⟩ := h
  exact ⟨lp, k, e, fun hx => h (hw hx)⟩

theorem Sim.know (hs : Sim (KL L) D s t) {b : Nat} (hr : (s.bounds b).ring ≠ none) : Sim (KL fun c => L c ∨ c = b) D s t :=
  hs.weaken fun c _ h => h.weaken fun hw => by
    rcases hw with hw | hw | hw
    · exact Or.inl hw
    · exact Or.inr hw
    · subst hw; exact Or.inl hr
theorem Sim.forget {L' : Nat → Prop} (hs : Sim (KL L') D s t) (hl : ∀ b, L b → L' b) : Sim (KL L) D s t :=
  hs.weaken fun c _ h => h.weaken fun hw => hw.imp id (hl c)

theorem Rel.forget {m : M α} {P : α → Prop} {L' : Nat → Prop} (h : Rel (KL L') D m P) (hl : ∀ b, L b → L' b)
    (hs : Sim (KL L') D s t) : Two m m s t fun a b s t => a = b ∧ P a ∧ Sim (KL L) D s t :=
  (h.run s t hs).mono fun _ _ _ _ ⟨h1, h2, h3⟩ => ⟨h1, h2, h3.forget hl⟩

/-- Reading a bound: its last point is known to be the same if it belongs to a ring. -/
theorem Rel.getKnow {b : Nat} {F : Bound → M β} (hb : D b) (h : ∀ x y, KL L b x y → F x = F y)
    (h0 : ∀ x, x.ring = none → Rel (KL L) D (F x) Q) (h1 : ∀ x, x.ring ≠ none → Rel (KL fun c => L c ∨ c = b) D (F x) Q) :
    Rel (KL L) D (getBound b >>= F) Q := by
  refine ⟨fun s t hs => Two.bind (Two.getBound ?_)⟩
  rw [← h _ _ (hs.live b hb)]
  by_cases hr : (s.bounds b).ring = none
  · exact (h0 _ hr).run s t hs
  · exact (h1 _ hr).forget (fun _ h => Or.inl h) (hs.know hr)

/-- Reading all bounds. -/
theorem Rel.getsBounds {K : Nat → Bound → Bound → Prop} {F : (Nat → Bound) → M β}
    (h : ∀ f g, (∀ b, SameIn (g b) (f b)) → (∀ b, D b → K b (f b) (g b)) → F f = F g) (hf : ∀ f, Rel K D (F f) Q) :
    Rel K D (Wagyu.gets St.bounds >>= F) Q := by
  refine ⟨fun s t hs => Two.bind ?_⟩
  show Two (F s.bounds) (F t.bounds) s t _
  rw [← h _ _ hs.input hs.live]
  exact (hf _).run s t hs

theorem rl_modPlain {b : Nat} {f : Bound → Bound} (hb : D b)
    (h : ∀ x lp k, f { x with lastPoint := lp, position := k } = { f x with lastPoint := lp, position := k })
    (hr : ∀ x, (f x).ring = x.ring) (hl : ∀ x, (f x).lastPoint = x.lastPoint) (hi : ∀ x, SameInput (f x) x) :
    Rel (KFull W) D (modBound b f) fun _ => True := by
  refine Rel.modBound hb ?_ hi
  rintro x y ⟨lp, k, rfl, hw⟩
  exact ⟨lp, k, h _ _ _, fun hx => by rw [hl]; rw [hr] at hx; exact hw hx⟩
theorem rl_modNone {b : Nat} {f : Bound → Bound} (hb : D b)
    (h : ∀ x lp k, f { x with lastPoint := lp, position := k } = { f x with lastPoint := lp, position := k })
    (hr : ∀ x, (f x).ring = none) (hl : ∀ x, (f x).lastPoint = x.lastPoint) (hi : ∀ x, SameInput (f x) x) :
    Rel (KL L) D (modBound b f) fun _ => True := by
  refine Rel.modBound hb ?_ hi
  rintro x y ⟨lp, k, rfl, hw⟩
  exact ⟨lp, k, h _ _ _, fun hx => by
    rw [hl]; rw [hr] at hx; exact hw (Or.inr (hx.resolve_left fun h => h rfl))⟩
theorem rl_modLast {b : Nat} {f : Bound → Bound} (hb : D b)
    (h : ∀ x lp k, f { x with lastPoint := lp, position := k } = { f x with position := k }) (hi : ∀ x, SameInput (f x) x) :
    Rel (KFull W) D (modBound b f) fun _ => True := by
  refine Rel.modBound hb ?_ hi
  rintro x y ⟨lp, k, rfl, hw⟩
  exact ⟨(f x).lastPoint, k, h _ _ _, fun _ => rfl⟩
theorem rl_modKnown {b : Nat} {f : Bound → Bound} (hb : D b) (hL : L b)
    (h : ∀ x lp k, f { x with lastPoint := lp, position := k } = { f x with lastPoint := lp, position := k })
    (hl : ∀ x, (f x).lastPoint = x.lastPoint) (hi : ∀ x, SameInput (f x) x) :
    Rel (KL L) D (modBound b f) fun _ => True := by
  refine Rel.modBound hb ?_ hi
  rintro x y ⟨lp, k, rfl, hw⟩
  exact ⟨lp, k, h _ _ _, fun _ => by rw [hl]; exact hw (Or.inr hL)⟩

macro "refls" : tactic => `(tactic| first | ((intro _ _ _); rfl) | (intro _; rfl) | ((intro _); exact ⟨rfl, rfl, rfl, rfl⟩))
macro_rules | `(tactic| rel1) => `(tactic| ((with_reducible refine rl_modKnown ?_ ?_ ?_ ?_ ?_); (focus relside); (focus relside); all_goals refls))
macro_rules | `(tactic| rel1) => `(tactic| ((with_reducible refine rl_modLast ?_ ?_ ?_); (focus relside); all_goals refls))
macro_rules | `(tactic| rel1) => `(tactic| ((with_reducible refine rl_modNone ?_ ?_ ?_ ?_ ?_); (focus relside); all_goals refls))
macro_rules | `(tactic| rel1) => `(tactic| ((with_reducible refine rl_modPlain ?_ ?_ ?_ ?_ ?_); (focus relside); all_goals refls))

/-! ## Points -/

theorem rl_pushPoint {b : Nat} {p : Point} (hb : D b) : Rel (KFull W) D (pushPoint b p) fun _ => True := by
  unfold pushPoint; rel
macro_rules | `(tactic| rel1) => `(tactic| ((with_reducible apply rl_pushPoint); relside))
theorem rl_setLR {y a c : Int} {b i j : Nat} {e : Bool} (hb : D b) : Rel (KFull W) D (hotPixelSetLeftToRight y a c b i j e) fun _ => True := by
  unfold hotPixelSetLeftToRight; rel
theorem rl_setRL {y a c : Int} {b i j : Nat} {e : Bool} (hb : D b) : Rel (KFull W) D (hotPixelSetRightToLeft y a c b i j e) fun _ => True := by
  unfold hotPixelSetRightToLeft; rel
macro_rules | `(tactic| rel1) => `(tactic| ((with_reducible apply rl_setLR); relside))
macro_rules | `(tactic| rel1) => `(tactic| ((with_reducible apply rl_setRL); relside))

theorem rl_insertHotPixelsInPath {b : Nat} {p : Point} {e : Bool} (hb : D b) (hL : L b) :
    Rel (KL L) D (insertHotPixelsInPath b p e) fun _ => True := by
  unfold insertHotPixelsInPath
  refine Rel.getBind hb ?_ fun x => ?_
  · rintro x y ⟨lp, k, rfl, hw⟩
    rw [hw (Or.inr hL)]
  · rel
macro_rules | `(tactic| rel1) => `(tactic| ((with_reducible apply rl_insertHotPixelsInPath) <;> relside))

theorem rl_addPointToRing {b : Nat} {p : Point} (hb : D b) : Rel (KL L) D (addPointToRing b p) fun _ => True := by
  unfold addPointToRing
  refine Rel.getKnow hb (by relread) (fun x hx => ?_) fun x hx => ?_
  · rw [if_pos hx]; exact Rel.raise
  · rw [if_neg hx]; rel
macro_rules | `(tactic| rel1) => `(tactic| ((with_reducible apply rl_addPointToRing); relside))

theorem rl_appendChild {K : Nat → Bound → Bound → Prop} {r : Nat} :
    Rel K D (modify fun s => { s with children := s.children ++ [some r] }) fun _ => True := by
  refine ⟨fun s t hs => ⟨rfl, trivial, ?_, hs.input, hs.live, hs.abl⟩⟩
  show ({ t with children := t.children ++ [some r] } : St) = _
  conv => lhs; rw [hs.rest]
  rfl
macro_rules | `(tactic| rel1) => `(tactic| with_reducible exact rl_appendChild)

theorem rl_holeStateScan {l : List (Option Nat)} {o : Option Nat} (hl : ∀ b, some b ∈ l → D b) (ho : DOpt D o) :
    Rel (KFull W) D (holeStateScan l o) fun r => DOpt D r := by
  induction l generalizing o with
  | nil => exact Rel.pure ho
  | cons c l ih =>
    have hl' : ∀ b, some b ∈ l → D b := fun b hb => hl b (by simp [hb])
    cases c with
    | none => exact ih hl' ho
    | some c =>
      have hc : D c := hl c (by simp)
      rw [holeStateScan]
      refine Rel.getBind hc (by relread) fun x => ?_
      split
      · exact ih hl' ho
      · split
        · exact ih hl' fun b hb => by cases hb; exact hc
        · next t =>
          have ht : D t := ho t rfl
          refine Rel.getBind ht (by relread) fun y => ?_
          split
          · exact ih hl' DOpt.none
          · exact ih hl' ho
theorem rl_setHoleState {b : Nat} (hb : D b) : Rel (KFull W) D (setHoleState b) fun _ => True := by
  unfold setHoleState
  refine Rel.bind rl_gets_abl fun l hl => ?_
  split
  · exact Rel.raise
  · next i _ =>
    refine Rel.bind (rl_holeStateScan (fun b hb => hl b (List.mem_of_mem_take (List.mem_reverse.1 hb))) DOpt.none) fun o ho => ?_
    refine Rel.getBind hb (by relread) fun x => Rel.bind Rel.deref fun r _ => ?_
    split
    · rel
    · next t =>
      have ht : D t := ho t rfl
      rel
theorem rl_addFirstPoint {b : Nat} {p : Point} (hb : D b) : Rel (KL L) D (addFirstPoint b p) fun _ => True := by
  refine ⟨fun s t hs => ?_⟩
  unfold addFirstPoint
  refine Two.bind ((Rel.blind (K := KL L) (D := D)).two hs fun r s t _ hs => Two.bind (Two.modBound ?_))
  have h1 : Sim (KFull fun c r => c ≠ b ∧ (r ≠ none ∨ L c)) D { s with bounds := upd s.bounds b { s.bounds b with ring := some r } }
      { t with bounds := upd t.bounds b { t.bounds b with ring := some r } } := by
    refine Sim.upd (hs.weaken fun c _ h => h.weaken fun h => h.2) (fun hb => ?_) ⟨rfl, rfl, rfl, rfl⟩ ⟨rfl, rfl, rfl, rfl⟩
    obtain ⟨lp, k, e, _⟩ := hs.live b hb
    rw [e]
    exact ⟨lp, k, rfl, fun h => (h.1 rfl).elim⟩
  refine Two.bind (Rel.blind.two h1 fun n s t _ hs => Two.bind (Rel.blind.two hs fun _ s t _ hs => ?_))
  refine Two.bind ((rl_setHoleState hb).two hs fun _ s t _ hs => Two.modBound ⟨rfl, trivial, ?_⟩)
  refine ⟨?_, ?_, ?_, hs.abl⟩
  · show ({ t with bounds := _ } : St) = _
    conv => lhs; rw [hs.rest]
    rfl
  · intro c
    show SameIn (upd t.bounds b _ c) (upd s.bounds b _ c)
    by_cases e : c = b
    · subst e
      rw [upd_same, upd_same]
      exact (hs.input c).change ⟨rfl, rfl, rfl, rfl⟩ ⟨rfl, rfl, rfl, rfl⟩
    · rw [upd_ne _ _ e, upd_ne _ _ e]
      exact hs.input c
  · intro c hc
    show KL L c (upd s.bounds b _ c) (upd t.bounds b _ c)
    obtain ⟨lp, k, h, hw⟩ := hs.live c hc
    by_cases e : c = b
    · subst e
      rw [upd_same, upd_same, h]
      exact ⟨p, k, rfl, fun _ => rfl⟩
    · rw [upd_ne _ _ e, upd_ne _ _ e]
      exact ⟨lp, k, h, fun h => hw ⟨e, h⟩⟩
macro_rules | `(tactic| rel1) => `(tactic| ((with_reducible apply rl_addFirstPoint); relside))
theorem rl_addPoint {b : Nat} {p : Point} (hb : D b) : Rel (KL L) D (addPoint b p) fun _ => True := by
  unfold addPoint; rel
macro_rules | `(tactic| rel1) => `(tactic| ((with_reducible apply rl_addPoint); relside))
theorem rl_addLocalMinimumPoint {p : Point} {a b : Nat} (ha : D a) (hb : D b) :
    Rel (KL L) D (addLocalMinimumPoint p a b) fun _ => True := by
  unfold addLocalMinimumPoint; rel
macro_rules | `(tactic| rel1) => `(tactic| ((with_reducible apply rl_addLocalMinimumPoint) <;> relside))

theorem rl_chooseKeep {a b r r' : Nat} (ha : D a) (hb : D b) : Rel (KL L) D (chooseKeep a b r r') fun x => D x.2.2.1 ∧ D x.2.2.2 := by
  unfold chooseKeep; rel
theorem rl_reattach {r k b : Nat} {l : List (Option Nat)} (hb : D b) (hl : ∀ b, some b ∈ l → D b) :
    Rel (KL L) D (reattach r k b l) fun _ => True := by
  induction l generalizing L with
  | nil => exact Rel.pure trivial
  | cons c l ih =>
    have ih := fun L => @ih L fun b hb => hl b (by simp [hb])
    cases c with
    | none => exact ih L
    | some c =>
      have hc : D c := hl c (by simp)
      rw [reattach]
      refine Rel.getKnow hc (by relread) (fun x hx => ?_) fun x hx => ?_
      · rw [if_neg (by rw [hx]; simp)]
        exact ih L
      · split
        · rel
        · exact ih _
theorem rl_appendRing {a b : Nat} (ha : D a) (hb : D b) : Rel (KL L) D (appendRing a b) fun _ => True := by
  unfold appendRing
  refine Rel.getBind ha (by relread) fun _ => Rel.bind Rel.deref fun _ _ => ?_
  refine Rel.getBind hb (by relread) fun _ => Rel.bind Rel.deref fun _ _ => ?_
  refine Rel.bind (rl_chooseKeep ha hb) fun x hx => ?_
  obtain ⟨k, r, kb, rb⟩ := x
  obtain ⟨hk, hr⟩ := hx
  dsimp only at hk hr ⊢
  rel
  all_goals exact rl_reattach hk (by assumption)
macro_rules | `(tactic| rel1) => `(tactic| ((with_reducible apply rl_appendRing) <;> relside))
theorem rl_addLocalMaximumPoint {p : Point} {a b : Nat} (ha : D a) (hb : D b) (hL : L b) :
    Rel (KL L) D (addLocalMaximumPoint p a b) fun _ => True := by
  unfold addLocalMaximumPoint; rel
macro_rules | `(tactic| rel1) => `(tactic| ((with_reducible apply rl_addLocalMaximumPoint) <;> relside))
theorem rl_swapRings {a b : Nat} (ha : D a) (hb : D b) (hL : L a) (hL' : L b) : Rel (KL L) D (swapRings a b) fun _ => True := by
  unfold swapRings; rel
macro_rules | `(tactic| rel1) => `(tactic| ((with_reducible apply rl_swapRings) <;> relside))

theorem rl_know {b : Nat} {m : M Unit} {f : Bound → Bound} {F : Unit → M β} (hm : m = modBound b f)
    (h : ∀ x lp k, f { x with lastPoint := lp, position := k } = { f x with position := k }) (hi : ∀ x, SameInput (f x) x)
    (hF : Rel (KL fun c => L c ∨ c = b) D (F ()) Q) : Rel (KL L) D (m >>= F) Q := by
  subst hm
  refine ⟨fun s t hs => Two.bind (Two.modBound ?_)⟩
  refine hF.forget (fun _ h => Or.inl h) ?_
  refine ⟨?_, ?_, ?_, hs.abl⟩
  · show ({ t with bounds := _ } : St) = _
    conv => lhs; rw [hs.rest]
    rfl
  · intro c
    show SameIn (upd t.bounds b _ c) (upd s.bounds b _ c)
    by_cases e : c = b
    · subst e
      rw [upd_same, upd_same]
      exact (hs.input c).change (hi _) (hi _)
    · rw [upd_ne _ _ e, upd_ne _ _ e]
      exact hs.input c
  · intro c hc
    show KL (fun c => L c ∨ c = b) c (upd s.bounds b _ c) (upd t.bounds b _ c)
    obtain ⟨lp, k, h', hw⟩ := hs.live c hc
    by_cases e : c = b
    · subst e
      rw [upd_same, upd_same, h']
      exact ⟨(f (s.bounds c)).lastPoint, k, h _ _ _, fun _ => rfl⟩
    · rw [upd_ne _ _ e, upd_ne _ _ e]
      exact ⟨lp, k, h', fun h => hw (h.imp id fun h => h.resolve_right e)⟩

theorem rl_intersectBounds {p : Point} {op : OperationKind} {sf cf : FillKind} {a b : Nat} (ha : D a) (hb : D b) :
    Rel (KL L) D (intersectBounds p op sf cf a b) fun _ => True := by
  unfold intersectBounds
  refine Rel.getKnow ha (by relread) (fun x hx => ?_) fun x hx => ?_
  all_goals refine Rel.getKnow hb (by relread) (fun y hy => ?_) fun y hy => ?_
  all_goals 
    dsimp only
    refine Rel.bind (P := fun _ => True) (by rel) fun _ _ => Rel.bind (P := fun _ => True) (by rel) fun _ _ => ?_
  · simp only [hx, hy, Option.isSome_none, Bool.false_and, Bool.false_eq_true, if_false]
    rel
  · rw [← Option.isSome_iff_ne_none] at hy
    simp only [hx, hy, Option.isSome_none, Bool.false_and, Bool.false_eq_true, if_false, if_true]
    refine Rel.ite (fun _ => rl_know rfl (fun _ _ _ => rfl) (fun _ => ⟨rfl, rfl, rfl, rfl⟩) ?_) fun _ => Rel.pure trivial
    rel
  · rw [← Option.isSome_iff_ne_none] at hx
    simp only [hx, hy, Option.isSome_none, Bool.and_false, Bool.false_eq_true, if_false, if_true]
    refine Rel.ite (fun _ => Rel.bind (P := fun _ => True) (by rel) fun _ _ => 
      rl_know rfl (fun _ _ _ => rfl) (fun _ => ⟨rfl, rfl, rfl, rfl⟩) ?_) fun _ => Rel.pure trivial
    rel
  · rw [← Option.isSome_iff_ne_none] at hx hy
    simp only [hx, hy, Bool.and_self, if_true]
    rel
macro_rules | `(tactic| rel1) => `(tactic| ((with_reducible apply rl_intersectBounds) <;> relside))

/-! ## Crossings -/

theorem rl_findSameKind {k : PolygonKind} {l : List (Option Nat)} {m : List Nat} (hl : ∀ b, some b ∈ l → D b)
    (hm : ∀ b ∈ m, D b) : Rel (KFull W) D (findSameKind k l m) fun r => DOpt D r.1 ∧ ∀ b ∈ r.2, D b := by
  induction l generalizing m with
  | nil => exact Rel.pure ⟨DOpt.none, hm⟩
  | cons c l ih =>
    have ih := fun m hm => @ih m (fun b hb => hl b (by simp [hb])) hm
    rw [findSameKind]
    refine Rel.bind Rel.deref fun i hi => ?_
    have hi : D i := hl i (by simp [hi])
    refine Rel.getBind hi (by relread) fun x => Rel.ite (fun _ => Rel.pure ⟨?_, hm⟩) fun _ => ih _ ?_
    · intro b hb
      cases hb
      exact hi
    · intro b hb
      rcases List.mem_cons.1 hb with rfl | hb
      · exact hi
      · exact hm b hb
theorem rl_setWindingCount {i : Nat} {sf cf : FillKind} : Rel (KFull W) D (setWindingCount i sf cf) fun _ => True := by
  unfold setWindingCount
  refine Rel.bind rl_ablGet fun o ho => Rel.bind Rel.deref fun b hb => ?_
  have hb : D b := ho b hb
  refine Rel.getBind hb (by relread) fun x => Rel.ite (fun _ => by rel) fun _ => ?_
  refine Rel.bind rl_gets_abl fun l hl => Rel.bind (rl_findSameKind (fun b hb => hl b (List.mem_of_mem_take (List.mem_reverse.1 hb)))
    fun b hb => by cases hb) fun r hr => ?_
  obtain ⟨prev, between⟩ := r
  obtain ⟨hr, hd⟩ := hr
  dsimp only at hr hd ⊢
  refine Rel.bind (P := fun _ => True) ?_ fun q _ => ?_
  · split
    · exact Rel.pure trivial
    · next p =>
      have hp : D p := hr p rfl
      rel
  · obtain ⟨wc, owc⟩ := q
    dsimp only
    refine Rel.getsBounds (fun f g _ h => ?_) fun f => by rel
    have : (between.map fun i => (f i).windingDelta) = between.map fun i => (g i).windingDelta := by
      refine List.map_congr_left fun i hi => ?_
      obtain ⟨lp, k, e, _⟩ := h i (hd i hi)
      rw [e]
    rw [this]
macro_rules | `(tactic| rel1) => `(tactic| with_reducible exact rl_setWindingCount)

def DNode (D : Nat → Prop) (n : IntersectNode) : Prop := D n.first ∧ D n.second

theorem rl_buildIntersectList : Rel (KFull W) D buildIntersectList fun l => ∀ n ∈ l, DNode D n := by
  unfold buildIntersectList
  refine Rel.bind rl_sortActive fun r hr => ?_
  obtain ⟨_, swaps⟩ := r
  dsimp only at hr ⊢
  replace hr := hr.2
  have key : ∀ (l : List (Nat × Nat)) (acc : List IntersectNode), (∀ p ∈ l, D p.1 ∧ D p.2) → (∀ n ∈ acc, DNode D n) →
      Rel (KFull W) D (buildIntersectList.go l acc) fun l => ∀ n ∈ l, DNode D n := by
    intro l
    induction l with
    | nil => intro acc _ ha; exact Rel.pure ha
    | cons p l ih =>
      intro acc hl ha
      have hp := hl p (by simp)
      rw [buildIntersectList.go]
      refine Rel.bind (rl_crossingOf hp.1 hp.2) fun q _ => ih _ (fun p h => hl p (by simp [h])) fun n hn => ?_
      rcases List.mem_append.1 hn with hn | hn
      · exact ha n hn
      · rw [List.mem_singleton] at hn
        subst hn
        exact hp
  exact key swaps [] hr (by simp)

theorem rl_findFeasible {K : Nat → Bound → Bound → Prop} {l : List IntersectNode} {k : Nat} :
    Rel K D (findFeasible l k) fun r => k ≤ r.1 ∧ r.1 < k + l.length := by
  induction l generalizing k with
  | nil => exact Rel.raise
  | cons n l ih =>
    rw [findFeasible]
    refine Rel.bind (P := fun _ => True) Rel.blind fun r _ => ?_
    obtain ⟨i, adj⟩ := r
    refine Rel.ite (fun _ => Rel.pure ⟨le_refl _, by simp⟩) fun _ => (@ih (k + 1)).mono fun r hr => ?_
    rw [List.length_cons]
    omega
theorem rl_processIntersectList {op : OperationKind} {sf cf : FillKind} {n : Nat} {l : List IntersectNode} (hl : ∀ n ∈ l, DNode D n) :
    Rel (KL L) D (processIntersectList op sf cf n l) fun _ => True := by
  induction n generalizing l with
  | zero => exact Rel.pure trivial
  | succ n ih =>
    cases l with
    | nil => exact Rel.pure trivial
    | cons node rest =>
      rw [processIntersectList]
      refine Rel.bind (P := fun _ => True) Rel.blind fun r _ => ?_
      obtain ⟨i, adj⟩ := r
      dsimp only
      refine Rel.bind (P := fun r => DNode D r.1 ∧ ∀ n ∈ r.2.1, DNode D n) ?_ fun r hr => ?_
      · refine Rel.ite (fun _ => Rel.pure ⟨hl _ (by simp), fun n hn => hl n (by simp [hn])⟩) fun _ => ?_
        refine Rel.bind rl_findFeasible fun r hr => Rel.pure ?_
        obtain ⟨k, j⟩ := r
        have hk : k < rest.length := by simpa using hr.2
        refine ⟨hl _ ?_, fun n hn => ?_⟩
        · rw [List.getD_eq_getElem?_getD, List.getElem?_eq_getElem hk]
          simp
        · rcases List.mem_or_eq_of_mem_set hn with hn | hn
          · exact hl n (by simp [hn])
          · subst hn
            exact hl _ (by simp)
      · obtain ⟨node, rest, i⟩ := r
        obtain ⟨h1, h2⟩ := hr
        have d1 := h1.1
        have d2 := h1.2
        dsimp only at *
        refine Rel.bind Rel.liftE fun p _ => Rel.bind (rl_intersectBounds d1 d2) fun _ _ => Rel.bind rl_ablSwap fun _ _ => ih h2

theorem rl_processIntersections {op : OperationKind} {sf cf : FillKind} {y : Int} :
    Rel (KL L) D (processIntersections y op sf cf) fun _ => True := by
  unfold processIntersections
  refine Rel.bind rl_gets_abl fun l hl => Rel.ite (fun _ => Rel.pure trivial) fun _ => ?_
  refine Rel.bind rl_updateCurrentX fun _ _ => Rel.bind rl_buildIntersectList fun cs hcs => Rel.ite (fun _ => Rel.pure trivial) fun _ => ?_
  refine Rel.getsBounds (fun f g _ h => ?_) fun f => ?_
  · have : pySorted (IntersectNode.lt f) cs = pySorted (IntersectNode.lt g) cs := by
      refine pySorted_congr (P := DNode D) (fun a b ha hb => ?_) hcs
      have owc : ∀ b, D b → (g b).oppositeWindingCount = (f b).oppositeWindingCount := by
        intro b hb
        obtain ⟨_, _, e, _⟩ := h b hb
        rw [e]
      unfold IntersectNode.lt
      rw [owc _ ha.1, owc _ ha.2, owc _ hb.1, owc _ hb.2]
    rw [this]
  · exact rl_processIntersectList fun n hn => hcs n ((pySorted_perm' _ _).mem_iff.1 hn)
macro_rules | `(tactic| rel1) => `(tactic| with_reducible exact rl_processIntersections)

/-! ## Maxima -/

theorem rl_maximaLoop {op : OperationKind} {sf cf : FillKind} {i j : Nat} : Rel (KL L) D (maximaLoop op sf cf i j) fun _ => True := by
  unfold maximaLoop; rel
macro_rules | `(tactic| rel1) => `(tactic| with_reducible exact rl_maximaLoop)
theorem rl_doMaxima {op : OperationKind} {sf cf : FillKind} {i j : Nat} : Rel (KL L) D (doMaxima op sf cf i j) fun _ => True := by
  unfold doMaxima
  refine Rel.bind rl_maximaLoop fun r _ => ?_
  obtain ⟨bi, skipped⟩ := r
  dsimp only
  refine Rel.bind rl_ablGet fun o ho => Rel.bind Rel.deref fun b hb => Rel.bind rl_ablGet fun o' ho' => Rel.bind Rel.deref fun m hm => ?_
  have hb : D b := ho b hb
  have hm : D m := ho' m hm
  refine Rel.getBind hb (by relread) fun x => Rel.getKnow hm (by relread) (fun y hy => ?_) fun y hy => ?_
  · simp only [hy, Option.isSome_none, Bool.false_eq_true, and_false, if_false, or_false]
    rel
  · rel
macro_rules | `(tactic| rel1) => `(tactic| with_reducible exact rl_doMaxima)

/-! ## Horizontals -/

theorem rl_passRight {b : Nat} {stop : Point → M Bool} {len n i : Nat} (hb : D b) (hs : ∀ p, Rel (KL L) D (stop p) fun _ => True) :
    Rel (KL L) D (passHotPixelsRight b stop len n i) fun _ => True := by
  induction n generalizing i with
  | zero => exact Rel.pure trivial
  | succ n ih =>
    rw [passHotPixelsRight]
    refine Rel.bind (P := fun _ => True) Rel.blind fun p _ => Rel.bind (hs p) fun _ _ => Rel.ite (fun _ => Rel.pure trivial) fun _ => ?_
    have := fun i => @ih i
    rel
    all_goals exact this _
theorem rl_passLeft {b : Nat} {stop : Point → M Bool} {i : Nat} (hb : D b) (hs : ∀ p, Rel (KL L) D (stop p) fun _ => True) :
    Rel (KL L) D (passHotPixelsLeft b stop i) fun _ => True := by
  induction i with
  | zero => exact Rel.pure trivial
  | succ n ih =>
    rw [passHotPixelsLeft]
    refine Rel.bind (P := fun _ => True) Rel.blind fun p _ => Rel.bind (hs p) fun _ _ => Rel.ite (fun _ => Rel.pure trivial) fun _ => ?_
    rel
    all_goals exact ih
theorem rl_finishHorizontal {b i : Nat} (hb : D b) : Rel (KL L) D (finishHorizontal b i) fun _ => True := by
  unfold finishHorizontal; rel
macro_rules | `(tactic| rel1) => `(tactic| ((with_reducible apply rl_finishHorizontal); relside))
theorem rl_horizontalEnds {b : Nat} {x : F64} (hb : D b) : Rel (KFull W) D (horizontalEnds b x) fun _ => True := by
  unfold horizontalEnds; rel
macro_rules | `(tactic| rel1) => `(tactic| ((with_reducible apply rl_horizontalEnds); relside))
theorem rl_horizontalPartner {b : Nat} {y : Int} (hb : D b) : Rel (KFull W) D (horizontalPartner b y) fun _ => True := by
  unfold horizontalPartner; rel
macro_rules | `(tactic| rel1) => `(tactic| ((with_reducible apply rl_horizontalPartner); relside))

theorem rl_maxPair {b nb : Nat} {A : Prop} [Decidable A] {m : M β} (hb : D b) (hnb : D nb) (hm : ∀ L, Rel (KL L) D m Q) :
    Rel (KL L) D (do
      let y ← getBound nb
      if A ∧ y.ring.isSome = true then do
        let e ← currentEdge b
        addLocalMaximumPoint e.top b nb
        m
      else m) Q := by
  refine Rel.getKnow hnb (by relread) (fun y hy => ?_) fun y hy => ?_
  · rw [if_neg (by rw [hy]; simp)]
    exact hm L
  · refine Rel.ite (fun _ => ?_) fun _ => hm _
    exact Rel.bind (rl_currentEdge hb) fun e _ => Rel.bind (rl_addLocalMaximumPoint hb hnb (Or.inr rfl)) fun _ _ => hm _
macro_rules | `(tactic| rel_step) => `(tactic| ((with_reducible refine rl_maxPair ?_ ?_ ?_); (focus relside); (focus relside); intro _))
macro_rules | `(tactic| rel1) => `(tactic| ((with_reducible refine rl_passRight ?_ ?_); (focus relside); (intro _; rel; done)))
macro_rules | `(tactic| rel1) => `(tactic| ((with_reducible refine rl_passLeft ?_ ?_); (focus relside); (intro _; rel; done)))

theorem rl_leftToRight {op : OperationKind} {sf cf : FillKind} {y : Int} {i : Nat} :
    Rel (KL L) D (processHorizontalLeftToRight op sf cf y i) fun _ => True := by
  unfold processHorizontalLeftToRight
  refine Rel.bind rl_ablGet fun o ho => Rel.bind Rel.deref fun b hb => ?_
  have hb : D b := ho b hb
  refine Rel.bind (rl_horizontalPartner hb) fun r _ => ?_
  obtain ⟨isMax, maxIdx⟩ := r
  dsimp only
  refine Rel.bind (P := fun _ => True) (Rel.gets (fun _ _ => rfl) fun _ _ => trivial) fun len _ => ?_
  refine Rel.bind (P := fun _ => True) Rel.blind fun cur _ => Rel.bind (rl_currentEdge hb) fun e _ => ?_
  refine Rel.bind (P := fun _ => True) Rel.blind fun hp0 _ => ?_
  refine Rel.bind (P := fun _ => True) (Rel.gets (fun _ _ => rfl) fun _ _ => trivial) fun n _ => ?_
  refine Rel.bind (P := fun _ => True) (Rel.forElse (fun _ => True) trivial (fun st _ => ?_) fun _ _ => Rel.pure trivial) fun r _ => ?_
  · obtain ⟨bi, hp, shifted, ni⟩ := st
    dsimp only
    refine Rel.bind rl_ablGet fun o ho => ?_
    split
    · exact Rel.pure trivial
    · next nb =>
      have hnb : D nb := ho nb rfl
      refine Rel.bind (rl_passRight hb fun p => by rel) fun hp _ => ?_
      refine Rel.getBind hnb (by relread) fun x => Rel.bind (rl_currentEdge hb) fun e _ => Rel.ite (fun _ => Rel.pure trivial) fun _ => ?_
      refine Rel.bind (rl_horizontalEnds hb) fun _ _ => Rel.ite (fun _ => Rel.pure trivial) fun _ => ?_
      rel
  · split
    · exact Rel.pure trivial
    · rel
macro_rules | `(tactic| rel1) => `(tactic| with_reducible exact rl_leftToRight)

theorem rl_rightToLeft {op : OperationKind} {sf cf : FillKind} {y : Int} {i : Nat} :
    Rel (KL L) D (processHorizontalRightToLeft op sf cf y i) fun _ => True := by
  unfold processHorizontalRightToLeft
  refine Rel.bind rl_ablGet fun o ho => Rel.bind Rel.deref fun b hb => ?_
  have hb : D b := ho b hb
  refine Rel.bind (rl_horizontalPartner hb) fun r _ => ?_
  obtain ⟨isMax, maxIdx⟩ := r
  dsimp only
  refine Rel.bind (P := fun _ => True) (Rel.gets (fun _ _ => rfl) fun _ _ => trivial) fun len _ => ?_
  refine Rel.bind (P := fun _ => True) Rel.blind fun cur _ => Rel.bind (rl_currentEdge hb) fun e _ => ?_
  refine Rel.bind (P := fun _ => True) Rel.blind fun hp0 _ => ?_
  refine Rel.bind (P := fun _ => True) (Rel.forElse (fun _ => True) trivial (fun st _ => ?_) fun _ _ => Rel.pure trivial) fun r _ => ?_
  · obtain ⟨bi, hp, k⟩ := st
    dsimp only
    refine Rel.bind rl_ablGet fun o ho => ?_
    split
    · exact Rel.pure trivial
    · next nb =>
      have hnb : D nb := ho nb rfl
      refine Rel.bind (rl_passLeft hb fun p => by rel) fun hp _ => ?_
      refine Rel.getBind hnb (by relread) fun x => Rel.bind (rl_currentEdge hb) fun e _ => Rel.ite (fun _ => Rel.pure trivial) fun _ => ?_
      refine Rel.bind (rl_horizontalEnds hb) fun _ _ => Rel.ite (fun _ => Rel.pure trivial) fun _ => ?_
      rel
  · split
    · exact Rel.pure trivial
    · rel
macro_rules | `(tactic| rel1) => `(tactic| with_reducible exact rl_rightToLeft)
theorem rl_processHorizontal {op : OperationKind} {sf cf : FillKind} {y : Int} {i : Nat} :
    Rel (KL L) D (processHorizontal op sf cf y i) fun _ => True := by
  unfold processHorizontal; rel
macro_rules | `(tactic| rel1) => `(tactic| with_reducible exact rl_processHorizontal)
theorem rl_processHorizontals {op : OperationKind} {sf cf : FillKind} {y : Int} :
    Rel (KL L) D (processHorizontals op sf cf y) fun _ => True := by
  unfold processHorizontals; rel
macro_rules | `(tactic| rel1) => `(tactic| with_reducible exact rl_processHorizontals)

/-! ## The top of a scanbeam -/

theorem rl_topOfScanbeamLoop {op : OperationKind} {sf cf : FillKind} {y : Int} :
    Rel (KL L) D (topOfScanbeamLoop op sf cf y) fun _ => True := by
  unfold topOfScanbeamLoop
  refine Rel.loopM (fun _ => True) trivial fun bi _ => ?_
  refine Rel.bind (P := fun _ => True) (Rel.gets (fun _ _ => rfl) fun _ _ => trivial) fun len _ => Rel.ite (fun _ => ?_) fun _ => Rel.pure trivial
  refine Rel.bind rl_ablGet fun o ho => ?_
  split
  · exact Rel.pure trivial
  · next b =>
    have hb : D b := ho b rfl
    dsimp only
    refine Rel.bind (P := fun _ => True) (by rel) fun mx _ => ?_
    split
    · rel
    · refine Rel.bind (P := fun _ => True) (by rel) fun pr _ => Rel.ite (fun _ => ?_) fun _ => by rel
      refine Rel.getKnow hb (by relread) (fun x hx => ?_) fun x hx => ?_
      · rw [if_neg (by rw [hx]; simp)]
        rel
      · rel
macro_rules | `(tactic| rel1) => `(tactic| with_reducible exact rl_topOfScanbeamLoop)

theorem rl_promoteIntermediate {y : Int} {l : List (Option Nat)} (hl : ∀ b, some b ∈ l → D b) :
    Rel (KL L) D (promoteIntermediate y l) fun _ => True := by
  induction l with
  | nil => exact Rel.pure trivial
  | cons o l ih =>
    have ih := ih fun b hb => hl b (by simp [hb])
    rw [promoteIntermediate]
    refine Rel.bind Rel.deref fun b hb => ?_
    have hb : D b := hl b (by simp [hb])
    rel
    all_goals exact ih

end

end Wagyu
