import Verif.Proofs.AddRing
import Verif.Proofs.SweepPrims
import Verif.Props.EdgeExtraction
import Verif.Spec.History

/-!
# What the stored bounds and minima are made of
-/

namespace Wagyu

/-- Coordinates satisfying `X` and `Y`. -/
def InXY (X Y : Int → Prop) (p : Point) : Prop := X p.x ∧ Y p.y

def EdgeXY (X Y : Int → Prop) (e : Edge) : Prop := InXY X Y e.bottom ∧ InXY X Y e.top

section
variable {X Y : Int → Prop}

theorem EdgeXY.reverse {e : Edge} (h : EdgeXY X Y e) : EdgeXY X Y e.reverseHorizontal :=
  ⟨⟨h.2.1, h.1.2⟩, ⟨h.1.1, h.2.2⟩⟩

theorem xy_fixTail {e : Edge} {l : List Edge} (h : ∀ x ∈ l, EdgeXY X Y x) : ∀ x ∈ fixHorizontalsTail e l, EdgeXY X Y x := by
  induction l generalizing e with
  | nil => exact h
  | cons a l ih =>
    rw [fixHorizontalsTail]
    intro x hx
    rcases List.mem_cons.1 hx with rfl | hx
    · split
      · exact (h a (by simp)).reverse
      · exact h a (by simp)
    · exact ih (fun x hx => h x (by simp [hx])) x hx

theorem xy_fix {l : List Edge} (h : ∀ x ∈ l, EdgeXY X Y x) : ∀ x ∈ fixHorizontals l, EdgeXY X Y x := by
  unfold fixHorizontals
  split
  · next a b l =>
    dsimp only
    intro x hx
    rcases List.mem_cons.1 hx with rfl | hx
    · split
      · exact (h a (by simp)).reverse
      · exact h a (by simp)
    · exact xy_fixTail (fun x hx => h x (List.mem_cons_of_mem _ hx)) x hx
  · exact h

theorem xy_leading {l : List Edge} (h : ∀ x ∈ l, EdgeXY X Y x) :
    (∀ x ∈ (leadingHorizontals l).1, EdgeXY X Y x) ∧ ∀ x ∈ (leadingHorizontals l).2, EdgeXY X Y x := by
  induction l with
  | nil => exact ⟨h, h⟩
  | cons a l ih =>
    obtain ⟨i1, i2⟩ := ih fun x hx => h x (by simp [hx])
    rw [leadingHorizontals]
    split
    · refine ⟨?_, i2⟩
      intro x hx
      rcases List.mem_cons.1 hx with rfl | hx
      · exact (h a (by simp)).reverse
      · exact i1 x hx
    · exact ⟨by simp, h⟩

theorem mem_rotate {α : Type} {l : List α} {i : Int} {x : α} (h : x ∈ rotateSequence l i) : x ∈ l := by
  unfold rotateSequence at h
  split at h
  · rcases List.mem_append.1 h with h | h
    · exact List.mem_of_mem_drop h
    · exact List.mem_of_mem_take h
  · exact h

theorem xy_move {l r : List Edge} (h : ∀ x ∈ l, EdgeXY X Y x) (h' : ∀ x ∈ r, EdgeXY X Y x) :
    (∀ x ∈ (moveHorizontals l r).1, EdgeXY X Y x) ∧ ∀ x ∈ (moveHorizontals l r).2, EdgeXY X Y x := by
  obtain ⟨i1, i2⟩ := xy_leading h
  unfold moveHorizontals
  dsimp only
  split
  · refine ⟨i2, fun x hx => ?_⟩
    rcases List.mem_append.1 (mem_rotate hx) with hx | hx
    · exact h' x hx
    · exact i1 x (by simpa using hx)
  · exact ⟨h, h'⟩

theorem xy_maxSplit {e : Edge} {b : Bool} {l : List Edge} (h : ∀ x ∈ l, EdgeXY X Y x) :
    (∀ x ∈ (towardsMaxSplit e b l).1, EdgeXY X Y x) ∧ ∀ x ∈ (towardsMaxSplit e b l).2, EdgeXY X Y x := by
  induction l generalizing e b with
  | nil => exact ⟨h, h⟩
  | cons a l ih =>
    have ih := fun (e : Edge) (b : Bool) => @ih e b fun x hx => h x (by simp [hx])
    have step : ∀ (e : Edge) (b : Bool), (∀ x ∈ a :: (towardsMaxSplit e b l).1, EdgeXY X Y x) := fun e b x hx => by
      rcases List.mem_cons.1 hx with rfl | hx
      · exact h x (by simp)
      · exact (ih e b).1 x hx
    rw [towardsMaxSplit]
    dsimp only
    split_ifs
    · exact ⟨by simp, h⟩
    · exact ⟨by simp, h⟩
    · exact ⟨step _ _, (ih _ _).2⟩
    · exact ⟨step _ _, (ih _ _).2⟩

theorem xy_minSplit {e : Edge} {b : Bool} {l : List Edge} (h : ∀ x ∈ l, EdgeXY X Y x) :
    (∀ x ∈ (towardsMinSplit e b l).1, EdgeXY X Y x) ∧ ∀ x ∈ (towardsMinSplit e b l).2, EdgeXY X Y x := by
  induction l generalizing e b with
  | nil => exact ⟨h, h⟩
  | cons a l ih =>
    have ih := fun (e : Edge) (b : Bool) => @ih e b fun x hx => h x (by simp [hx])
    have ha : EdgeXY X Y (if a.isHorizontal then a.reverseHorizontal else a) := by
      split
      · exact (h a (by simp)).reverse
      · exact h a (by simp)
    rw [towardsMinSplit]
    dsimp only
    generalize (if a.isHorizontal = true then a.reverseHorizontal else a) = a' at ha
    have step : ∀ (e : Edge) (b : Bool), (∀ x ∈ a' :: (towardsMinSplit e b l).1, EdgeXY X Y x) := fun e b x hx => by
      rcases List.mem_cons.1 hx with rfl | hx
      · exact ha
      · exact (ih e b).1 x hx
    split_ifs
    · exact ⟨by simp, h⟩
    · exact ⟨by simp, h⟩
    · exact ⟨step _ _, (ih _ _).2⟩
    · exact ⟨step _ _, (ih _ _).2⟩

theorem xy_towardsMax {l a b : List Edge} (h : ∀ x ∈ l, EdgeXY X Y x) (he : createBoundTowardsMaximum l = some (a, b)) :
    (∀ x ∈ a, EdgeXY X Y x) ∧ ∀ x ∈ b, EdgeXY X Y x := by
  cases l with
  | nil => cases he
  | cons c l =>
    rw [createBoundTowardsMaximum] at he
    obtain ⟨i1, i2⟩ := xy_maxSplit (e := c) (b := false) fun x hx => h x (List.mem_cons_of_mem _ hx)
    cases he
    refine ⟨?_, i2⟩
    intro x hx
    rcases List.mem_cons.1 hx with rfl | hx
    · exact h x (by simp)
    · exact i1 x hx

theorem xy_towardsMin {l a b : List Edge} (h : ∀ x ∈ l, EdgeXY X Y x) (he : createBoundTowardsMinimum l = some (a, b)) :
    (∀ x ∈ a, EdgeXY X Y x) ∧ ∀ x ∈ b, EdgeXY X Y x := by
  cases l with
  | nil => cases he
  | cons c l =>
    rw [createBoundTowardsMinimum] at he
    dsimp only at he
    have hc : EdgeXY X Y (if c.isHorizontal then c.reverseHorizontal else c) := by
      split
      · exact (h c (by simp)).reverse
      · exact h c (by simp)
    generalize (if c.isHorizontal = true then c.reverseHorizontal else c) = c' at hc he
    obtain ⟨i1, i2⟩ := xy_minSplit (e := c') (b := false) fun x hx => h x (List.mem_cons_of_mem _ hx)
    cases he
    refine ⟨?_, i2⟩
    intro x hx
    rw [List.mem_reverse] at hx
    rcases List.mem_cons.1 hx with rfl | hx
    · exact hc
    · exact i1 x hx

/-- The coordinates of all bounds and minima. -/
structure MInv (X Y : Int → Prop) (m : Minimums) : Prop where
  edges : ∀ b, ∀ e ∈ (m.bounds b).edges, EdgeXY X Y e
  mins : ∀ v ∈ m.values, Y v.y

theorem xy_upd {f : Nat → Bound} (hm : ∀ b, ∀ e ∈ (f b).edges, EdgeXY X Y e) {i : Nat} {b : Bound} (hb : ∀ e ∈ b.edges, EdgeXY X Y e) :
    ∀ j, ∀ e ∈ (upd f i b j).edges, EdgeXY X Y e := by
  intro j e he
  by_cases hj : j = i
  · subst hj; rw [upd_same] at he; exact hb e he
  · rw [upd_other _ _ _ _ hj] at he; exact hm j e he

theorem xy_pair {a b : List Edge} (ha : ∀ x ∈ a, EdgeXY X Y x) (hb : ∀ x ∈ b, EdgeXY X Y x) (c d : Bool) :
    (∀ x ∈ (if c = true then if d = true then moveHorizontals a b
        else ((moveHorizontals b a).2, (moveHorizontals b a).1) else (a, b)).1, EdgeXY X Y x)
      ∧ ∀ x ∈ (if c = true then if d = true then moveHorizontals a b
        else ((moveHorizontals b a).2, (moveHorizontals b a).1) else (a, b)).2, EdgeXY X Y x := by
  split_ifs
  · exact xy_move ha hb
  · exact (xy_move hb ha).symm
  · exact ⟨ha, hb⟩

theorem addLoop_xy (kind : PolygonKind) (fuel : Nat) (edges : List Edge) (first last : Option Nat) (m : Minimums)
    (hm : MInv X Y m) (he : ∀ e ∈ edges, EdgeXY X Y e) : MInv X Y (addLoop kind fuel edges first last m).1 := by
  induction fuel generalizing edges first last m with
  | zero => cases edges <;> exact hm
  | succ fuel ih =>
    unfold addLoop
    cases edges with
    | nil => exact hm
    | cons e es =>
      simp only
      split
      · exact hm
      · next minE e1 h1 =>
        obtain ⟨a1, a2⟩ := xy_towardsMin he h1
        split
        · exact hm
        · next maxE e2 h2 =>
          obtain ⟨b1, b2⟩ := xy_towardsMax a2 h2
          split
          · split
            · exact hm
            · next minFront tail hcons =>
              have hx := fun c d => xy_pair (xy_fix a1) (xy_fix b1) c d
              have hc : ∀ x ∈ minFront :: tail, EdgeXY X Y x := by rw [← hcons]; exact (hx _ _).1
              apply ih _ _ _ _ _ b2
              constructor
              · simp only
                split
                · refine xy_upd (xy_upd hm.edges ?_) ?_
                  · exact (hx _ _).1
                  · exact (hx _ _).2
                · have hB : ∀ (p q : Bound), (∀ e ∈ p.edges, EdgeXY X Y e) → (∀ e ∈ q.edges, EdgeXY X Y e) →
                      ∀ b, ∀ e ∈ (upd (upd m.bounds m.nb p) (m.nb + 1) q b).edges, EdgeXY X Y e := fun p q hp hq =>
                    xy_upd (xy_upd hm.edges hp) hq
                  refine xy_upd (hB _ _ ?_ ?_) ?_
                  · exact (hx _ _).1
                  · exact (hx _ _).2
                  · refine hB _ _ ?_ ?_ _
                    · exact (hx _ _).1
                    · exact (hx _ _).2
              · intro v hv
                rcases List.mem_append.1 hv with hv | hv
                · exact hm.mins v hv
                · simp only [List.mem_singleton] at hv
                  subst hv
                  have := (hc _ (List.mem_cons_self)).1.2
                  split <;> split <;> exact this
          · exact hm

theorem edgesLoop_mono (pts : List Point) : ∀ (fuel : Nat) (s : EdgesState) (r : List Edge × Bool),
    edgesLoop pts fuel s = .ok r → ∀ fuel', fuel ≤ fuel' → edgesLoop pts fuel' s = .ok r := by
  intro fuel
  induction fuel with
  | zero => intro s r h; cases h
  | succ fuel ih =>
    intro s r h fuel' hf
    obtain ⟨f', rfl⟩ : ∃ f', fuel' = f' + 1 := ⟨fuel' - 1, by omega⟩
    rw [edgesLoop] at h ⊢
    cases h1 : edgesStep pts s with
    | error e => rw [h1] at h; cases h
    | ok o =>
      rw [h1] at h
      cases o with
      | next s' => exact ih _ _ h f' (by omega)
      | brk s' => exact h
      | ret a => exact h

theorem edgesOf_mono {pts : List Point} {fuel : Nat} {es : List Edge} (h : edgesOf fuel pts = .ok es) {fuel' : Nat}
    (hf : fuel ≤ fuel') : edgesOf fuel' pts = .ok es := by
  unfold edgesOf at h ⊢
  split at h
  · simp only at h ⊢
    split at h
    · exact h
    · split at h
      · cases h
      · next h1 => rw [edgesLoop_mono _ _ _ _ h1 _ hf]; exact h
      · next h1 => rw [edgesLoop_mono _ _ _ _ h1 _ hf]; exact h
  · exact h

theorem edgesOf_xy {pts : List Point} {fuel : Nat} {es : List Edge} (h : edgesOf fuel pts = .ok es) (hp : ∀ p ∈ pts, InXY X Y p) :
    ∀ e ∈ es, EdgeXY X Y e := by
  obtain ⟨es', h1, _, h2, _⟩ := C14_edges pts (max fuel (3 * pts.length + 3)) (le_max_right _ _)
  rw [edgesOf_mono h (le_max_left _ _)] at h1
  cases h1
  intro e he
  obtain ⟨a, b, _⟩ := h2 e he
  exact ⟨hp _ a, hp _ b⟩

theorem addLinearRing_xy {fuel : Nat} {m : Minimums} {ring : List Point} {kind : PolygonKind} (hm : MInv X Y m)
    (hp : ∀ p ∈ ring, InXY X Y p) : MInv X Y (m.addLinearRing fuel ring kind).1 := by
  unfold Minimums.addLinearRing
  split
  · exact hm
  · exact hm
  · next e es h =>
    have he := edgesOf_xy h hp
    have h1 := addLoop_xy kind (toEdgesStartingOnLocalMaximum (e :: es)).length
      (toEdgesStartingOnLocalMaximum (e :: es)) none none m hm (by
        intro x hx
        unfold toEdgesStartingOnLocalMaximum at hx
        split at hx
        · exact he x (mem_rotate hx)
        · exact he x hx)
    dsimp only
    revert h1
    generalize addLoop kind (toEdgesStartingOnLocalMaximum (e :: es)).length
      (toEdgesStartingOnLocalMaximum (e :: es)) none none m = r
    intro h1
    split
    · exact h1
    · refine ⟨?_, h1.mins⟩
      refine xy_upd (xy_upd h1.edges ?_) ?_
      · exact h1.edges _
      · refine xy_upd h1.edges ?_ _
        exact h1.edges _
    · exact h1

end

/-! ## Operations do not change the input -/

/-- Every bound is the same part of the input. -/
def InputKept (s s' : St) : Prop := ∀ b, SameInput (s'.bounds b) (s.bounds b)

theorem SameInput.refl (b : Bound) : SameInput b b := ⟨rfl, rfl, rfl, rfl⟩
theorem SameInput.trans {a b c : Bound} (h : SameInput a b) (k : SameInput b c) : SameInput a c :=
  ⟨h.edges.trans k.edges, h.delta.trans k.delta, h.kind.trans k.kind, h.partner.trans k.partner⟩

instance : Preo InputKept where
  refl _ _ := SameInput.refl _
  trans h k b := (k b).trans (h b)

theorem InputKept.of_eq {s s' : St} (h : s'.bounds = s.bounds) : InputKept s s' := fun b => by rw [h]; exact SameInput.refl _

instance : ForestPrims InputKept where
  node _ _ _ _ _ := .of_eq rfl
  ring _ _ _ _ _ := .of_eq rfl
  sort _ _ := .of_eq rfl
  parent _ _ := ⟨fun _ => .of_eq rfl⟩
  children p f := by
    unfold modChildren
    split <;> exact ⟨fun _ => .of_eq rfl⟩
  create := ⟨fun _ => .of_eq rfl⟩

theorem InputKept.upd {s : St} {i : Nat} {b : Bound} (h : SameInput b (s.bounds i)) : InputKept s { s with bounds := upd s.bounds i b } := by
  intro c
  show SameInput (Wagyu.upd s.bounds i b c) (s.bounds c)
  by_cases e : c = i
  · subst e; rw [upd_same]; exact h
  · rw [upd_other _ _ _ _ e]; exact SameInput.refl _

instance : Pres InputKept (setHoleState b) := by
  unfold setHoleState
  refine Pres.bind inferInstance fun _ => ?_
  split
  · infer_instance
  · refine Pres.bind inferInstance fun _ => Pres.bind inferInstance fun _ => Pres.bind inferInstance fun _ => ?_
    split
    · exact Pres.bind inferInstance fun _ => ⟨fun _ => .of_eq rfl⟩
    · exact Pres.bind inferInstance fun _ => Pres.bind inferInstance fun _ => Pres.bind inferInstance fun _ =>
        ⟨fun _ => .of_eq rfl⟩

instance : SweepPrims InputKept where
  bound _ _ _ h := .upd h
  misc _ _ _ _ _ := .of_eq rfl
  createPoint r p b := by
    unfold createPointNode
    refine Pres.bind inferInstance fun _ => Pres.bind ⟨fun _ => .of_eq rfl⟩ fun _ => ?_
    cases b with
    | none => exact Pres.bind ⟨fun _ => .of_eq rfl⟩ fun _ => inferInstance
    | some b => exact Pres.bind inferInstance fun _ => Pres.bind ⟨fun _ => .of_eq rfl⟩ fun _ => inferInstance
  firstPoint b p := by
    unfold addFirstPoint
    refine Pres.bind inferInstance fun _ => Pres.bind ⟨fun _ => .upd ⟨rfl, rfl, rfl, rfl⟩⟩ fun _ => Pres.bind ?_ fun _ =>
      Pres.bind inferInstance fun _ => Pres.bind inferInstance fun _ => ⟨fun _ => .upd ⟨rfl, rfl, rfl, rfl⟩⟩
    unfold createPointNode
    exact Pres.bind inferInstance fun _ => Pres.bind ⟨fun _ => .of_eq rfl⟩ fun _ => Pres.bind ⟨fun _ => .of_eq rfl⟩ fun _ => inferInstance
  replace r p := inferInstance

instance InputKept.ringsToPolygons (rev : Bool) (n : Nat) (l : List (Option Nat)) : Pres InputKept (ringsToPolygons rev n l) := by
  have h1 : ∀ i, Pres InputKept (ringToLinearRing i rev) := by
    intro i
    unfold ringToLinearRing pointNodeToLinearRing
    refine Pres.bind inferInstance fun _ => Pres.bind inferInstance fun _ => Pres.bind (by pres) fun _ =>
      Pres.bind (Pres.mapM' (fun _ => inferInstance) _) fun _ => by pres
  induction n generalizing l with
  | zero => rw [Wagyu.ringsToPolygons]; pres
  | succ n ih =>
    rw [Wagyu.ringsToPolygons]
    refine Pres.bind (Pres.mapM' (fun o => ?_) _) fun _ => by pres
    split
    · pres
    · refine Pres.bind (h1 _) fun _ => Pres.bind inferInstance fun _ => Pres.bind (Pres.mapM' (fun _ => h1 _) _) fun _ =>
        Pres.bind (Pres.mapM' (fun _ => Pres.bind inferInstance fun _ => ih _) _) fun _ => by pres

theorem InputKept.runOperation (m : Minimums) (rev : Bool) (op : OperationKind) (sf cf : FillKind) :
    Pres InputKept (runOperation m rev op sf cf) := by
  unfold Wagyu.runOperation buildResult
  pres

/-- An operation, whatever its outcome, changes neither the list of minima nor the input kept in the bounds. -/
theorem execute_input (fuel : Nat) (w : Wagyu) (op : OperationKind) (sf cf : FillKind) :
    (w.execute fuel op sf cf).1.minimums.values = w.minimums.values
      ∧ (w.execute fuel op sf cf).1.minimums.nb = w.minimums.nb
      ∧ (w.execute fuel op sf cf).1.reverseOutput = w.reverseOutput
      ∧ ∀ b, SameInput ((w.execute fuel op sf cf).1.minimums.bounds b) (w.minimums.bounds b) := by
  have h := (InputKept.runOperation w.minimums w.reverseOutput op sf cf).pres (St.init fuel w.minimums.bounds)
  unfold Wagyu.execute
  split
  · exact ⟨rfl, rfl, rfl, fun _ => SameInput.refl _⟩
  · split
    · next a s e => rw [e] at h; exact ⟨rfl, rfl, rfl, h⟩
    · next a s e => rw [e] at h; exact ⟨rfl, rfl, rfl, h⟩

/-! ## Histories -/

section
variable {X Y : Int → Prop}

theorem MInv.empty : MInv X Y Minimums.empty := ⟨by simp [Minimums.empty, Bound.ofEdges], by simp [Minimums.empty]⟩

theorem addPolygonFrom_xy {fuel : Nat} {r : Bool} {w : Wagyu} {kind : PolygonKind} {rings : Polygon}
    (h : MInv X Y w.minimums) (hp : ∀ ring ∈ rings, ∀ p ∈ ring, InXY X Y p) :
    MInv X Y (w.addPolygonFrom fuel r kind rings).1.minimums := by
  induction rings generalizing r w with
  | nil => exact h
  | cons ring rings ih =>
    have h1 : MInv X Y (w.addLinearRing fuel ring kind).1.minimums := addLinearRing_xy h (hp ring (by simp))
    rw [Wagyu.addPolygonFrom]
    revert h1
    generalize w.addLinearRing fuel ring kind = x
    intro h1
    obtain ⟨w', e | b⟩ := x
    · exact h1
    · exact ih h1 fun ring hr => hp ring (by simp [hr])

theorem popLoop_nil {α : Type} : ∀ (n : Nat) (l : List α), l.length < n → popLoop n l = []
  | 0, l, h => by omega
  | n + 1, l, h => by
    rw [popLoop]
    cases hl : l with
    | nil => rfl
    | cons a k =>
      have : pyGet (a :: k) (-1) ≠ none := by simp [pyGet]
      split
      · contradiction
      · apply popLoop_nil
        rw [hl] at h
        simp only [List.length_cons] at h
        rw [List.length_eraseIdx]
        simp only [List.length_cons]
        split <;> omega

theorem clear_eq (w : Wagyu) : w.clear = { w with minimums := Minimums.empty } := by
  unfold Wagyu.clear
  rw [popLoop_nil _ _ (Nat.lt_succ_self _)]
  rfl

/-- After any history of calls, all that is stored comes from the rings held. -/
theorem calls_xy (fuel : Nat) : ∀ (cs : List Call) (w : Wagyu) (held : List LinearRing),
    ((∀ ring ∈ held, ∀ p ∈ ring, InXY X Y p) → MInv X Y w.minimums) →
    (∀ ring ∈ heldAfter held cs, ∀ p ∈ ring, InXY X Y p) → MInv X Y (w.calls fuel cs).1.minimums := by
  intro cs
  induction cs with
  | nil => intro w held h hp; exact h hp
  | cons c cs ih =>
    intro w held h hp
    rw [Wagyu.calls]
    cases c with
    | addLinearRing ring kind =>
      refine ih _ (held ++ [ring]) (fun hh => ?_) hp
      exact addLinearRing_xy (h fun r hr => hh r (by simp [hr])) (hh ring (by simp))
    | addPolygon polygon kind =>
      refine ih _ (held ++ polygon) (fun hh => ?_) hp
      exact addPolygonFrom_xy (h fun r hr => hh r (by simp [hr])) fun r hr => hh r (by simp [hr])
    | clear =>
      refine ih _ [] (fun _ => ?_) hp
      simp only [Wagyu.call, clear_eq]
      exact MInv.empty
    | execute op sf cf =>
      refine ih _ held (fun hh => ?_) hp
      obtain ⟨h1, h2⟩ := h hh
      obtain ⟨e1, _, _, e2⟩ := execute_input fuel w op sf cf
      refine ⟨fun b e he => ?_, fun v hv => ?_⟩
      · refine h1 b e ?_
        have := (e2 b).edges
        simp only [Wagyu.call] at he
        rwa [this] at he
      · refine h2 v ?_
        simp only [Wagyu.call] at hv
        rwa [e1] at hv

end

end Wagyu
