import Verif.Proofs.KeepVatti
import Verif.Proofs.HotSweep
import Verif.Proofs.Visits

/-!
# Where the points of the output come from

`BX V Es Y X T A`: references to nodes are valid; all nodes and hot pixels satisfy `V`, all edges `Es`, all scanbeams `Y`;
the active bounds are among `T`, and the current x of the bounds in `T` satisfies `X`.
-/

namespace Wagyu

/-- What the rows and the points made of edges satisfy. -/
structure VRule (V : Point → Prop) (Es : Edge → Prop) (Y : Int → Prop) : Prop where
  bot : ∀ {e : Edge}, Es e → V e.bottom
  top : ∀ {e : Edge}, Es e → V e.top
  row : ∀ {e : Edge}, Es e → Y e.top.y
  meet : ∀ {e f : Edge} {p : FPoint} {q : Point}, Es e → Es f → e.and f = some p → p.round = .ok q → V q

/-- What the current x of a bound satisfies on the row `y`. -/
structure XRule (V : Point → Prop) (Es : Edge → Prop) (X : F64 → Prop) (y : Int) : Prop where
  start : ∀ {e : Edge}, Es e → X (.ofInt e.bottom.x)
  start' : ∀ {e : Edge}, Es e → X (.floatOfInt e.bottom.x)
  stop : ∀ {e : Edge}, Es e → X (.ofInt e.top.x)
  round : ∀ {x : F64} {r : Int}, X x → roundHalfUp x = some r → V ⟨r, y⟩

theorem XRule.round' {V : Point → Prop} {Es : Edge → Prop} {X : F64 → Prop} {y r : Int} {x : F64} {c : Prop} (h : XRule V Es X y)
    (hr : roundHalfUp x = some r) (hx : c ∧ X x) : V ⟨r, y⟩ := h.round hx.2 hr

structure BX (V : Point → Prop) (Es : Edge → Prop) (Y : Int → Prop) (X : F64 → Prop) (T : Nat → Prop) (A : List LocalMinimum) (s : St) : Prop where
  heap : HV V s
  edges : ∀ b, ∀ e ∈ (s.bounds b).edges, Es e
  scan : ∀ y ∈ s.scan, Y y
  hot : ∀ p ∈ s.hotPixels, V p
  act : ∀ b, some b ∈ s.abl → T b
  cx : ∀ b, T b → X (s.bounds b).currentX
  full : ∀ m ∈ A, (s.bounds m.left).edges ≠ [] ∧ (s.bounds m.right).edges ≠ []

/-- What statements on nodes and rings only leave alone. -/
structure XFrame (s s' : St) : Prop where
  edges : ∀ b, (s'.bounds b).edges = (s.bounds b).edges
  cx : ∀ b, (s'.bounds b).currentX = (s.bounds b).currentX
  scan : s'.scan = s.scan
  hot : s'.hotPixels = s.hotPixels
  abl : s'.abl = s.abl

instance : Preo XFrame where
  refl _ := ⟨fun _ => rfl, fun _ => rfl, rfl, rfl, rfl⟩
  trans h k := ⟨fun b => (k.edges b).trans (h.edges b), fun b => (k.cx b).trans (h.cx b), k.scan.trans h.scan, k.hot.trans h.hot, k.abl.trans h.abl⟩

theorem cx_upd {f : Nat → Bound} {i : Nat} {v : Bound} (h : v.currentX = (f i).currentX) (b : Nat) :
    (upd f i v b).currentX = (f b).currentX := by
  by_cases e : b = i
  · subst e; rw [upd_same, h]
  · rw [upd_ne _ _ e]

instance : OutPrims XFrame where
  heap _ _ _ _ _ _ := ⟨fun _ => rfl, fun _ => rfl, rfl, rfl, rfl⟩
  last s b lp := ⟨fun c => by exact edges_upd (v := { s.bounds b with lastPoint := lp }) rfl c,
    fun c => by exact cx_upd (v := { s.bounds b with lastPoint := lp }) rfl c, rfl, rfl, rfl⟩
  newRing _ _ _ := ⟨fun _ => rfl, fun _ => rfl, rfl, rfl, rfl⟩
  bound s b r lp sd := ⟨fun c => by exact edges_upd (v := { s.bounds b with ring := r, lastPoint := lp, side := sd }) rfl c,
    fun c => by exact cx_upd (v := { s.bounds b with ring := r, lastPoint := lp, side := sd }) rfl c, rfl, rfl, rfl⟩

section
variable {α β : Type} {V : Point → Prop} {Es : Edge → Prop} {Y : Int → Prop} {X : F64 → Prop} {T : Nat → Prop} {A : List LocalMinimum} {P : α → Prop} {y0 : Int}

theorem BX.lift {m : M α} (h : Keep (HV V) m P) (hp : Pres XFrame m) : Keep (BX V Es Y X T A) m P := by
  constructor
  intro s hs
  have h1 := h.run s hs.heap
  have h2 := hp.pres s
  unfold Ok Post at *
  revert h1 h2
  cases m s with
  | err e s' => intro _ _; trivial
  | ok a s' =>
    rintro ⟨h1, h1'⟩ (h2 : XFrame s s')
    refine ⟨⟨h1, fun b e he => hs.edges b e ?_, fun y hy => hs.scan y ?_, fun p hp => hs.hot p ?_, fun b hb => hs.act b ?_, fun b hb => ?_, fun m hm => ?_⟩, h1'⟩
    · rw [← h2.edges b]; exact he
    · rw [← h2.scan]; exact hy
    · rw [← h2.hot]; exact hp
    · rw [← h2.abl]; exact hb
    · rw [h2.cx]; exact hs.cx b hb
    · rw [h2.edges, h2.edges]; exact hs.full m hm

theorem BX.lift' {m : M α} (h : ∀ n, Keep (HInv V n) m P) (hp : Pres XFrame m) : Keep (BX V Es Y X T A) m P :=
  BX.lift (Keep.toHV h) hp

theorem bk_pushPoint {b : Nat} {p : Point} (hp : V p) : Keep (BX V Es Y X T A) (pushPoint b p) fun _ => True :=
  BX.lift (Grow.keep fun _ => grow_pushPoint hp) inferInstance
macro_rules | `(tactic| keep1) => `(tactic| with_reducible apply bk_pushPoint <;> keepside)

/-! ## Primitives -/

theorem bk_getBound {b : Nat} : Keep (BX V Es Y X T A) (getBound b) fun bd => (∀ e ∈ bd.edges, Es e) ∧ (T b → X bd.currentX) :=
  ⟨fun _ hs => ⟨hs, hs.edges b, hs.cx b⟩⟩
macro_rules | `(tactic| keep1) => `(tactic| with_reducible exact bk_getBound)
theorem bk_getX {b : Nat} (hT : T b) : Keep (BX V Es Y X T A) (getBound b) fun bd => (∀ e ∈ bd.edges, Es e) ∧ X bd.currentX :=
  ⟨fun _ hs => ⟨hs, hs.edges b, hs.cx b hT⟩⟩
macro_rules | `(tactic| keep1) => `(tactic| with_reducible exact bk_getX (by assumption))
theorem bk_currentEdge {b : Nat} : Keep (BX V Es Y X T A) (currentEdge b) Es := by
  unfold currentEdge
  refine Keep.bind bk_getBound fun bd h => Keep.mono Keep.orIndex fun e he => h.1 e ?_
  exact List.mem_of_getElem? he
macro_rules | `(tactic| keep1) => `(tactic| with_reducible exact bk_currentEdge)
theorem bk_nextEdge {b : Nat} : Keep (BX V Es Y X T A) (nextEdge b) Es := by
  unfold nextEdge
  refine Keep.bind bk_getBound fun bd h => Keep.mono Keep.orIndex fun e he => h.1 e ?_
  exact List.mem_of_getElem? he
macro_rules | `(tactic| keep1) => `(tactic| with_reducible exact bk_nextEdge)
theorem bk_modX {b : Nat} {f : Bound → Bound} (h : ∀ bd, (f bd).edges = bd.edges) (hx : ∀ bd, X bd.currentX ∨ ¬ T b → X (f bd).currentX ∨ ¬ T b) :
    Keep (BX V Es Y X T A) (modBound b f) fun _ => True := by
  refine Keep.modify fun s hs => ⟨?_, ?_, hs.scan, hs.hot, hs.act, ?_, ?_⟩
  · obtain ⟨n, h⟩ := hs.heap
    exact ⟨n, h.nn, h.nodes, h.rings, h.all⟩
  · intro c e he
    refine hs.edges c e ?_
    rw [← edges_upd (v := f (s.bounds b)) (h _) c]
    exact he
  · intro c hc
    show X (upd s.bounds b (f (s.bounds b)) c).currentX
    by_cases e : c = b
    · subst e
      rw [upd_same]
      exact (hx _ (.inl (hs.cx c hc))).resolve_right fun h => h hc
    · rw [upd_ne _ _ e]; exact hs.cx c hc
  · intro m hm
    show (upd s.bounds b (f (s.bounds b)) m.left).edges ≠ [] ∧ (upd s.bounds b (f (s.bounds b)) m.right).edges ≠ []
    rw [edges_upd (h _), edges_upd (h _)]
    exact hs.full m hm
theorem bk_modBound {b : Nat} {f : Bound → Bound} (h : ∀ bd, (f bd).edges = bd.edges ∧ (f bd).currentX = bd.currentX) :
    Keep (BX V Es Y X T A) (modBound b f) fun _ => True :=
  bk_modX (fun bd => (h bd).1) fun bd hb => by rw [(h bd).2]; exact hb
macro_rules | `(tactic| keep1) => `(tactic| ((with_reducible refine bk_modBound ?_); intro _; exact ⟨rfl, rfl⟩))
theorem bk_setX {b : Nat} {x : F64} (h : X x) : Keep (BX V Es Y X T A) (modBound b fun bd => { bd with currentX := x }) fun _ => True :=
  bk_modX (fun _ => rfl) fun _ _ => .inl h
macro_rules | `(tactic| keep1) => `(tactic| with_reducible apply bk_setX <;> keepside)
theorem bk_insertScan {y : Int} (hy : Y y) : Keep (BX V Es Y X T A) (insertScan y) fun _ => True := by
  refine Keep.modify fun s hs => ⟨?_, hs.edges, ?_, hs.hot, hs.act, hs.cx, hs.full⟩
  · obtain ⟨n, h⟩ := hs.heap
    exact ⟨n, h.nn, h.nodes, h.rings, h.all⟩
  · intro z hz
    change z ∈ insortUnique s.scan y at hz
    unfold insortUnique at hz
    dsimp only at hz
    split at hz
    · rcases List.mem_append.1 hz with hz | hz
      · exact hs.scan z (List.mem_of_mem_take hz)
      · rcases List.mem_cons.1 hz with rfl | hz
        · exact hy
        · exact hs.scan z (List.mem_of_mem_drop hz)
    · exact hs.scan z hz
macro_rules | `(tactic| keep1) => `(tactic| with_reducible apply bk_insertScan <;> keepside)
theorem bk_addHotPixel {p : Point} (hy : V p) : Keep (BX V Es Y X T A) (addHotPixel p) fun _ => True := by
  refine Keep.modify fun s hs => ⟨?_, hs.edges, hs.scan, ?_, hs.act, hs.cx, hs.full⟩
  · obtain ⟨n, h⟩ := hs.heap
    exact ⟨n, h.nn, h.nodes, h.rings, h.all⟩
  · intro z hz
    rcases List.mem_append.1 hz with hz | hz
    · exact hs.hot z hz
    · simp only [List.mem_singleton] at hz; subst hz; exact hy
macro_rules | `(tactic| keep1) => `(tactic| with_reducible apply bk_addHotPixel <;> keepside)
theorem bk_hotPixelAt {i : Nat} : Keep (BX V Es Y X T A) (hotPixelAt i) V := by
  constructor
  intro s hs
  unfold hotPixelAt Ok Post
  dsimp only
  cases h : s.hotPixels[i]? with
  | none => trivial
  | some p => exact ⟨hs, hs.hot p (List.mem_of_getElem? h)⟩
macro_rules | `(tactic| keep1) => `(tactic| with_reducible exact bk_hotPixelAt)

/-- A place in the active bound list holds none of the bounds, or one in `T`. -/
def TN (T : Nat → Prop) (o : Option Nat) : Prop := ∀ b, o = some b → T b

theorem bk_ablGet {i : Nat} : Keep (BX V Es Y X T A) (ablGet i) (TN T) := by
  constructor
  intro s hs
  unfold ablGet Ok Post
  dsimp only
  cases h : s.abl[i]? with
  | none => trivial
  | some p => exact ⟨hs, fun b hb => hs.act b (List.mem_of_getElem? (hb ▸ h))⟩
macro_rules | `(tactic| keep1) => `(tactic| with_reducible exact bk_ablGet)
theorem BX.misc {s : St} {cur : Option Nat} {abl : List (Option Nat)} (hs : BX V Es Y X T A s) (ha : ∀ b, some b ∈ abl → T b) :
    BX V Es Y X T A { s with curHot := cur, abl := abl } := by
  obtain ⟨n, h⟩ := hs.heap
  exact ⟨⟨n, h.nn, h.nodes, h.rings, h.all⟩, hs.edges, hs.scan, hs.hot, ha, hs.cx, hs.full⟩
theorem bk_ablSet {i : Nat} {v : Option Nat} (hv : TN T v) : Keep (BX V Es Y X T A) (ablSet i v) fun _ => True :=
  Keep.modify fun _ hs => hs.misc fun b hb => by
    rcases List.mem_or_eq_of_mem_set hb with hb | hb
    · exact hs.act b hb
    · exact hv b hb.symm
theorem TN.none : TN T none := nofun
macro_rules | `(tactic| keep1) => `(tactic| with_reducible exact bk_ablSet TN.none)
theorem bk_ablSwap {i j : Nat} : Keep (BX V Es Y X T A) (ablSwap i j) fun _ => True := by
  unfold ablSwap
  exact Keep.bind bk_ablGet fun a ha => Keep.bind bk_ablGet fun b hb => Keep.bind (bk_ablSet hb) fun _ _ => bk_ablSet ha
macro_rules | `(tactic| keep1) => `(tactic| with_reducible exact bk_ablSwap)
theorem bk_ablFilter : Keep (BX V Es Y X T A) ablFilter fun _ => True :=
  Keep.modify fun _ hs => hs.misc fun b hb => hs.act b (List.mem_filter.1 hb).1
macro_rules | `(tactic| keep1) => `(tactic| with_reducible exact bk_ablFilter)
theorem bk_setCur {i : Nat} : Keep (BX V Es Y X T A) (setCurrentHotPixelIndex i) fun _ => True := Keep.modify fun _ hs => hs.misc hs.act
macro_rules | `(tactic| keep1) => `(tactic| with_reducible exact bk_setCur)
theorem bk_curHot : Keep (BX V Es Y X T A) currentHotPixelIndex fun _ => True := Keep.gets fun _ _ => trivial
macro_rules | `(tactic| keep1) => `(tactic| with_reducible exact bk_curHot)
theorem bk_round {x : F64} : Keep (BX V Es Y X T A) (roundHalfUpM x) fun r => roundHalfUp x = some r := by
  unfold roundHalfUpM
  split
  · next h => exact Keep.pure h
  · exact Keep.raise
macro_rules | `(tactic| keep1) => `(tactic| with_reducible exact bk_round)

macro_rules | `(tactic| keepside) => `(tactic| first
  | exact VRule.top (by assumption) (by assumption)
  | exact VRule.bot (by assumption) (by assumption)
  | exact VRule.row (by assumption) (by assumption)
  | exact XRule.start (by assumption) (by assumption)
  | exact XRule.start' (by assumption) (by assumption)
  | exact XRule.stop (by assumption) (by assumption)
  | exact XRule.round' (by assumption) (by assumption) (by assumption))

/-! ## Bounds -/

theorem bk_isIntermediate {b : Nat} {y : Int} : Keep (BX V Es Y X T A) (isIntermediate b y) fun _ => True := by unfold isIntermediate; keep
macro_rules | `(tactic| keep1) => `(tactic| with_reducible exact bk_isIntermediate)
theorem bk_isMaxima {b : Nat} {y : Int} : Keep (BX V Es Y X T A) (isMaxima b y) fun _ => True := by unfold isMaxima; keep
macro_rules | `(tactic| keep1) => `(tactic| with_reducible exact bk_isMaxima)
theorem bk_toNextEdge (hR : VRule V Es Y) (hX : XRule V Es X y0) {b : Nat} : Keep (BX V Es Y X T A) (toNextEdge b) fun _ => True := by unfold toNextEdge; keep
macro_rules | `(tactic| keep1) => `(tactic| with_reducible exact bk_toNextEdge (by assumption) (by assumption))
theorem bk_boundInsertLocation {a b : Nat} : Keep (BX V Es Y X T A) (boundInsertLocation a b) fun _ => True := by unfold boundInsertLocation; keep
macro_rules | `(tactic| keep1) => `(tactic| with_reducible exact bk_boundInsertLocation)
theorem bk_findInsertIndex {a : Nat} {l : List (Option Nat)} {i : Nat} : Keep (BX V Es Y X T A) (findInsertIndex a l i) fun _ => True := by
  induction l generalizing i with
  | nil => exact Keep.pure trivial
  | cons o l ih => rw [findInsertIndex]; keep; exact ih
macro_rules | `(tactic| keep1) => `(tactic| with_reducible exact bk_findInsertIndex)
theorem bk_findSameKind {k : PolygonKind} {l : List (Option Nat)} {i : List Nat} : Keep (BX V Es Y X T A) (findSameKind k l i) fun _ => True := by
  induction l generalizing i with
  | nil => exact Keep.pure trivial
  | cons o l ih => rw [findSameKind]; keep; exact ih
macro_rules | `(tactic| keep1) => `(tactic| with_reducible exact bk_findSameKind)
theorem bk_setWindingCount {i : Nat} {sf cf : FillKind} : Keep (BX V Es Y X T A) (setWindingCount i sf cf) fun _ => True := by unfold setWindingCount; keep
macro_rules | `(tactic| keep1) => `(tactic| with_reducible exact bk_setWindingCount)
/-! ## Points of rings -/

theorem bk_setLR {y a b : Int} {c i j : Nat} {e : Bool} : Keep (BX V Es Y X T A) (hotPixelSetLeftToRight y a b c i j e) fun _ => True := by
  unfold hotPixelSetLeftToRight; keep
macro_rules | `(tactic| keep1) => `(tactic| with_reducible exact bk_setLR)
theorem bk_setRL {y a b : Int} {c i j : Nat} {e : Bool} : Keep (BX V Es Y X T A) (hotPixelSetRightToLeft y a b c i j e) fun _ => True := by
  unfold hotPixelSetRightToLeft; keep
macro_rules | `(tactic| keep1) => `(tactic| with_reducible exact bk_setRL)
theorem bk_backUp {y : Int} {i : Nat} : Keep (BX V Es Y X T A) (hotPixelBackUp y i) fun _ => True := by
  induction i with
  | zero => exact Keep.pure trivial
  | succ i ih => rw [hotPixelBackUp]; keep; exact ih
macro_rules | `(tactic| keep1) => `(tactic| with_reducible exact bk_backUp)
theorem bk_rowEnd {y : Int} {len k i : Nat} : Keep (BX V Es Y X T A) (hotPixelRowEnd y len k i) fun _ => True := by
  induction k generalizing i with
  | zero => exact Keep.pure trivial
  | succ k ih => rw [hotPixelRowEnd]; keep; exact ih
macro_rules | `(tactic| keep1) => `(tactic| with_reducible exact bk_rowEnd)
theorem bk_insertHot {b : Nat} {p : Point} {e : Bool} : Keep (BX V Es Y X T A) (insertHotPixelsInPath b p e) fun _ => True := by
  unfold insertHotPixelsInPath; keep
macro_rules | `(tactic| keep1) => `(tactic| with_reducible exact bk_insertHot)
theorem bk_addPointToRing {b : Nat} {p : Point} (hp : V p) : Keep (BX V Es Y X T A) (addPointToRing b p) fun _ => True := by
  unfold addPointToRing; keep
macro_rules | `(tactic| keep1) => `(tactic| with_reducible apply bk_addPointToRing <;> keepside)

theorem bk_modRing {r : Nat} {f : Ring → Ring} (hf : ∀ g, ((f g).node = g.node ∨ (f g).node = none)
      ∧ ((f g).bottomNode = g.bottomNode ∨ (f g).bottomNode = none)) : Keep (BX V Es Y X T A) (modRing r f) fun _ => True := by
  refine BX.lift' (fun _ => keep_modRing fun g h1 h2 => ?_) inferInstance
  obtain ⟨a, b⟩ := hf g
  constructor
  · rcases a with a | a <;> rw [a]
    · exact h1
    · exact VN.none
  · rcases b with a | a <;> rw [a]
    · exact h2
    · exact VN.none
macro_rules | `(tactic| keep1) => `(tactic| ((with_reducible refine bk_modRing ?_); intro _; first | exact ⟨Or.inl rfl, Or.inl rfl⟩ | exact ⟨Or.inr rfl, Or.inl rfl⟩ | exact ⟨Or.inl rfl, Or.inr rfl⟩ | exact ⟨Or.inr rfl, Or.inr rfl⟩))
theorem bk_setRingParent {r : Nat} {v : Option Nat} : Keep (BX V Es Y X T A) (setRingParent r v) fun _ => True :=
  BX.lift' (fun _ => keep_setRingParent) inferInstance
macro_rules | `(tactic| keep1) => `(tactic| with_reducible exact bk_setRingParent)
theorem bk_getRing {r : Nat} : Keep (BX V Es Y X T A) (getRing r) fun _ => True := Keep.gets fun _ _ => trivial
macro_rules | `(tactic| keep1) => `(tactic| with_reducible exact bk_getRing)
theorem bk_holeStateScan {l : List (Option Nat)} {t : Option Nat} : Keep (BX V Es Y X T A) (holeStateScan l t) fun _ => True := by
  induction l generalizing t with
  | nil => exact Keep.pure trivial
  | cons o l ih =>
    cases o <;> rw [holeStateScan]
    · exact ih
    · keep <;> exact ih
macro_rules | `(tactic| keep1) => `(tactic| with_reducible exact bk_holeStateScan)
theorem bk_setHoleState {b : Nat} : Keep (BX V Es Y X T A) (setHoleState b) fun _ => True := by
  unfold setHoleState
  refine Keep.bind (P := fun _ => True) (by keep) fun _ _ => ?_
  split
  · keep
  · refine Keep.bind bk_holeStateScan fun _ _ => Keep.bind bk_getBound fun _ _ => Keep.bind Keep.deref fun _ _ => ?_
    split
    · refine Keep.bind bk_setRingParent fun _ _ => Keep.modify fun s hs => ?_
      obtain ⟨n, h⟩ := hs.heap
      exact ⟨⟨n, h.nn, h.nodes, h.rings, h.all⟩, hs.edges, hs.scan, hs.hot, hs.act, hs.cx, hs.full⟩
    · keep
macro_rules | `(tactic| keep1) => `(tactic| with_reducible exact bk_setHoleState)

theorem bk_newPoint {r : Nat} {p : Point} (hp : V p) : Keep (BX V Es Y X T A) (do
    let n ← createPointNode (some r) p none
    setRingNode r (some n)) fun _ => True := by
  refine BX.lift (Grow.keep fun n s hs => ?_) (by pres)
  refine Post.bind ((createPointNode_ok hs hp VN.none).imp fun i s' ⟨h1, h2⟩ => ?_)
  subst h2
  exact ((keep_setRingNode (VN.some (by omega))).run s' h1).imp fun _ _ h => ⟨_, h.1⟩
theorem bk_createRing : Keep (BX V Es Y X T A) createRing fun _ => True := BX.lift' (fun _ => keep_createRing) inferInstance
theorem bk_addFirstPoint {b : Nat} {p : Point} (hp : V p) : Keep (BX V Es Y X T A) (addFirstPoint b p) fun _ => True := by
  unfold addFirstPoint
  refine Keep.bind bk_createRing fun r _ => Keep.bind (P := fun _ => True) (by keep) fun _ _ => ?_
  have := Keep.bind (f := fun _ => do setHoleState b; modBound b fun bd => { bd with lastPoint := p }) (Q := fun _ => True)
    (bk_newPoint (Es := Es) (Y := Y) (X := X) (T := T) (A := A) (r := r) hp) fun _ _ => by keep
  rw [M.assoc] at this
  exact this
macro_rules | `(tactic| keep1) => `(tactic| with_reducible apply bk_addFirstPoint <;> keepside)
theorem bk_addPoint {b : Nat} {p : Point} (hp : V p) : Keep (BX V Es Y X T A) (addPoint b p) fun _ => True := by
  unfold addPoint; keep
macro_rules | `(tactic| keep1) => `(tactic| with_reducible apply bk_addPoint <;> keepside)
theorem bk_addLocalMinimumPoint {a b : Nat} {p : Point} (hp : V p) : Keep (BX V Es Y X T A) (addLocalMinimumPoint p a b) fun _ => True := by
  unfold addLocalMinimumPoint; keep
macro_rules | `(tactic| keep1) => `(tactic| with_reducible apply bk_addLocalMinimumPoint <;> keepside)

theorem bk_chooseKeep {a b c d : Nat} : Keep (BX V Es Y X T A) (chooseKeep a b c d) fun _ => True :=
  BX.lift' (fun _ => keep_chooseKeep) inferInstance
macro_rules | `(tactic| keep1) => `(tactic| with_reducible exact bk_chooseKeep)
theorem bk_joinNodes {a b : Nat} {c d : EdgeSide} : Keep (BX V Es Y X T A) (joinNodes a b c d) fun _ => True :=
  BX.lift' (fun _ => keep_joinNodes) inferInstance
macro_rules | `(tactic| keep1) => `(tactic| with_reducible exact bk_joinNodes)
theorem bk_ringDepth {r : Nat} : Keep (BX V Es Y X T A) (ringDepth r) fun _ => True := BX.lift' (fun _ => keep_ringDepth) inferInstance
macro_rules | `(tactic| keep1) => `(tactic| with_reducible exact bk_ringDepth)
theorem bk_replaceRing {r : Nat} {v : Option Nat} : Keep (BX V Es Y X T A) (replaceRing r v) fun _ => True :=
  BX.lift' (fun _ => keep_replaceRing) inferInstance
macro_rules | `(tactic| keep1) => `(tactic| with_reducible exact bk_replaceRing)
theorem bk_updatePoints {r : Nat} : Keep (BX V Es Y X T A) (updatePoints r) fun _ => True := BX.lift' (fun _ => keep_updatePoints) inferInstance
macro_rules | `(tactic| keep1) => `(tactic| with_reducible exact bk_updatePoints)
theorem bk_reattach {a b c : Nat} {l : List (Option Nat)} : Keep (BX V Es Y X T A) (reattach a b c l) fun _ => True := by
  induction l with
  | nil => exact Keep.pure trivial
  | cons o l ih =>
    cases o <;> rw [reattach]
    · exact ih
    · keep; exact ih
macro_rules | `(tactic| keep1) => `(tactic| with_reducible exact bk_reattach)
theorem bk_appendRing {a b : Nat} : Keep (BX V Es Y X T A) (appendRing a b) fun _ => True := by
  unfold appendRing; keep
macro_rules | `(tactic| keep1) => `(tactic| with_reducible exact bk_appendRing)
theorem bk_addLocalMaximumPoint {a b : Nat} {p : Point} (hp : V p) : Keep (BX V Es Y X T A) (addLocalMaximumPoint p a b) fun _ => True := by
  unfold addLocalMaximumPoint; keep
macro_rules | `(tactic| keep1) => `(tactic| with_reducible apply bk_addLocalMaximumPoint <;> keepside)

/-! ## Crossings -/

theorem bk_swapRings {a b : Nat} : Keep (BX V Es Y X T A) (swapRings a b) fun _ => True := by
  unfold swapRings; keep
macro_rules | `(tactic| keep1) => `(tactic| with_reducible exact bk_swapRings)
theorem bk_intersectBounds {op : OperationKind} {sf cf : FillKind} {a b : Nat} {p : Point} (hp : V p) :
    Keep (BX V Es Y X T A) (intersectBounds p op sf cf a b) fun _ => True := by
  unfold intersectBounds
  refine Keep.bind bk_getBound fun _ _ => Keep.bind bk_getBound fun _ _ => ?_
  dsimp only
  keep
macro_rules | `(tactic| keep1) => `(tactic| with_reducible apply bk_intersectBounds <;> keepside)
theorem bk_sortActive : Keep (BX V Es Y X T A) sortActive fun _ => True := by unfold sortActive; keep
macro_rules | `(tactic| keep1) => `(tactic| with_reducible exact bk_sortActive)


/-- A crossing whose rounding is where points may be. -/
def PV (V : Point → Prop) (p : FPoint) : Prop := ∀ q, p.round = .ok q → V q

theorem bk_crossingOf (hR : VRule V Es Y) {a b : Nat} : Keep (BX V Es Y X T A) (crossingOf a b) (PV V) := by
  unfold crossingOf
  refine Keep.bind bk_currentEdge fun e he => Keep.bind bk_currentEdge fun f hf => ?_
  split
  · exact Keep.raise
  · next p hp => exact Keep.pure fun q hq => hR.meet he hf hp hq
macro_rules | `(tactic| keep1) => `(tactic| with_reducible exact bk_crossingOf (by assumption))

theorem bk_buildGo (hR : VRule V Es Y) {l : List (Nat × Nat)} {acc : List IntersectNode} (h : ∀ x ∈ acc, PV V x.point) :
    Keep (BX V Es Y X T A) (buildIntersectList.go l acc) fun r => ∀ x ∈ r, PV V x.point := by
  induction l generalizing acc with
  | nil => exact Keep.pure h
  | cons a l ih =>
    rw [buildIntersectList.go]
    refine Keep.bind (bk_crossingOf hR) fun p hp => ih ?_
    intro x hx
    rcases List.mem_append.1 hx with hx | hx
    · exact h x hx
    · simp only [List.mem_singleton] at hx; subst hx; exact hp
theorem bk_buildIntersectList (hR : VRule V Es Y) : Keep (BX V Es Y X T A) buildIntersectList fun r => ∀ x ∈ r, PV V x.point := by
  unfold buildIntersectList
  refine Keep.bind bk_sortActive fun r _ => ?_
  exact bk_buildGo hR (by simp)
theorem bk_crossingPosition {x : IntersectNode} : Keep (BX V Es Y X T A) (crossingPosition x) fun _ => True := by unfold crossingPosition; keep
macro_rules | `(tactic| keep1) => `(tactic| with_reducible exact bk_crossingPosition)
theorem bk_findFeasible {l : List IntersectNode} {k : Nat} : Keep (BX V Es Y X T A) (findFeasible l k) fun r => k ≤ r.1 ∧ r.1 < k + l.length := by
  induction l generalizing k with
  | nil => exact Keep.raise
  | cons a l ih =>
    rw [findFeasible]
    refine Keep.bind bk_crossingPosition fun _ _ => ?_
    dsimp only
    refine Keep.ite (fun _ => Keep.pure ⟨by simp, by simp⟩) fun _ => Keep.mono ih fun r hr => ?_
    simp only [List.length_cons]
    omega
theorem bk_processIntersectList {op : OperationKind} {sf cf : FillKind} {k : Nat} {l : List IntersectNode}
    (h : ∀ x ∈ l, PV V x.point) : Keep (BX V Es Y X T A) (processIntersectList op sf cf k l) fun _ => True := by
  induction k generalizing l with
  | zero => cases l <;> exact Keep.pure trivial
  | succ k ih =>
    cases l with
    | nil => exact Keep.pure trivial
    | cons a l =>
      rw [processIntersectList]
      refine Keep.bind bk_crossingPosition fun pos _ => ?_
      dsimp only
      refine Keep.bind (P := fun (r : IntersectNode × List IntersectNode × Nat) => PV V r.1.point ∧ ∀ x ∈ r.2.1, PV V x.point) ?_ fun r hr => ?_
      · refine Keep.ite (fun _ => Keep.pure ⟨h a (by simp), fun x hx => h x (by simp [hx])⟩) fun _ => ?_
        refine Keep.bind bk_findFeasible fun kj hkj => ?_
        refine Keep.pure ⟨?_, ?_⟩
        · dsimp only
          rw [List.getD_eq_getElem?_getD, List.getElem?_eq_getElem (by omega : kj.1 < l.length), Option.getD_some]
          exact h _ (List.mem_cons_of_mem _ (List.getElem_mem _))
        · intro x hx
          rcases List.mem_or_eq_of_mem_set hx with hx | rfl
          · exact h x (by simp [hx])
          · exact h x (by simp)
      · refine Keep.bind Keep.liftE fun q hq => Keep.bind (bk_intersectBounds (hr.1 q hq)) fun _ _ => Keep.bind bk_ablSwap fun _ _ => ?_
        exact ih hr.2

theorem bk_maximaLoop (hR : VRule V Es Y) {op : OperationKind} {sf cf : FillKind} {a b : Nat} : Keep (BX V Es Y X T A) (maximaLoop op sf cf a b) fun _ => True := by
  unfold maximaLoop; keep
macro_rules | `(tactic| keep1) => `(tactic| with_reducible exact bk_maximaLoop (by assumption))
theorem bk_doMaxima (hR : VRule V Es Y) {op : OperationKind} {sf cf : FillKind} {a b : Nat} : Keep (BX V Es Y X T A) (doMaxima op sf cf a b) fun _ => True := by
  unfold doMaxima
  refine Keep.bind (bk_maximaLoop hR) fun _ _ => ?_
  dsimp only
  keep
macro_rules | `(tactic| keep1) => `(tactic| with_reducible exact bk_doMaxima (by assumption))

theorem bk_hotPixelFind {p : Point → Bool} {len k i : Nat} : Keep (BX V Es Y X T A) (hotPixelFind p len k i) fun _ => True := by
  induction k generalizing i with
  | zero => exact Keep.pure trivial
  | succ k ih => rw [hotPixelFind]; keep; exact ih
macro_rules | `(tactic| keep1) => `(tactic| with_reducible exact bk_hotPixelFind)
theorem bk_passRight {b : Nat} {stop : Point → M Bool} {len k i : Nat} (h : ∀ p, Keep (BX V Es Y X T A) (stop p) fun _ => True) :
    Keep (BX V Es Y X T A) (passHotPixelsRight b stop len k i) fun _ => True := by
  induction k generalizing i with
  | zero => exact Keep.pure trivial
  | succ k ih =>
    rw [passHotPixelsRight]
    refine Keep.bind bk_hotPixelAt fun p hp => Keep.bind (h p) fun _ _ => Keep.ite (fun _ => by keep) fun _ => ?_
    refine Keep.bind bk_getBound fun _ _ => Keep.ite (fun _ => ?_) fun _ => ih
    exact Keep.bind (bk_addPointToRing hp) fun _ _ => ih
theorem bk_passLeft {b : Nat} {stop : Point → M Bool} {i : Nat} (h : ∀ p, Keep (BX V Es Y X T A) (stop p) fun _ => True) :
    Keep (BX V Es Y X T A) (passHotPixelsLeft b stop i) fun _ => True := by
  induction i with
  | zero => exact Keep.pure trivial
  | succ k ih =>
    rw [passHotPixelsLeft]
    refine Keep.bind bk_hotPixelAt fun p hp => Keep.bind (h p) fun _ _ => Keep.ite (fun _ => by keep) fun _ => ?_
    refine Keep.bind bk_getBound fun _ _ => Keep.ite (fun _ => ?_) fun _ => ih
    exact Keep.bind (bk_addPointToRing hp) fun _ _ => ih
macro_rules | `(tactic| keep1) => `(tactic| with_reducible refine bk_passRight fun _ => ?_)
macro_rules | `(tactic| keep1) => `(tactic| with_reducible refine bk_passLeft fun _ => ?_)
theorem bk_finishHorizontal (hR : VRule V Es Y) (hX : XRule V Es X y0) {b i : Nat} : Keep (BX V Es Y X T A) (finishHorizontal b i) fun _ => True := by unfold finishHorizontal; keep
macro_rules | `(tactic| keep1) => `(tactic| with_reducible exact bk_finishHorizontal (by assumption) (by assumption))
theorem bk_horizontalEnds {b : Nat} {x : F64} : Keep (BX V Es Y X T A) (horizontalEnds b x) fun _ => True := by unfold horizontalEnds; keep
macro_rules | `(tactic| keep1) => `(tactic| with_reducible exact bk_horizontalEnds)
theorem bk_horizontalPartner {b : Nat} {y : Int} : Keep (BX V Es Y X T A) (horizontalPartner b y) fun _ => True := by unfold horizontalPartner; keep
macro_rules | `(tactic| keep1) => `(tactic| with_reducible exact bk_horizontalPartner)

theorem bk_lr {op : OperationKind} {sf cf : FillKind} {y : Int} {i : Nat} (hR : VRule V Es Y) (hX : XRule V Es X y) :
    Keep (BX V Es Y X T A) (processHorizontalLeftToRight op sf cf y i) fun _ => True := by
  unfold processHorizontalLeftToRight
  refine Keep.bind bk_ablGet fun _ _ => Keep.bind Keep.deref fun b _ => Keep.bind bk_horizontalPartner fun pr _ => ?_
  dsimp only
  refine Keep.bind (P := fun _ => True) (by keep) fun _ _ => Keep.bind bk_curHot fun _ _ => Keep.bind bk_currentEdge fun _ _ => ?_
  refine Keep.bind bk_hotPixelFind fun _ _ => Keep.bind (P := fun _ => True) (by keep) fun _ _ => ?_
  refine Keep.bind (P := fun _ => True) (Keep.forElse (fun _ => True) trivial (fun st _ => ?_) fun _ _ => Keep.pure trivial) fun r _ => ?_
  · refine Keep.bind bk_ablGet fun o _ => ?_
    split
    · exact Keep.pure trivial
    · next ho =>
      have hT := ho _ rfl
      refine Keep.bind (P := fun _ => True) (bk_passRight fun p => by keep) fun hp _ => ?_
      keep
  · split
    · keep
    · refine Keep.bind bk_getBound fun _ _ => Keep.ite (fun _ => ?_) fun _ => by keep
      refine Keep.bind (P := fun _ => True) (bk_passRight fun p => by keep) fun hp _ => ?_
      keep
theorem bk_rl {op : OperationKind} {sf cf : FillKind} {y : Int} {i : Nat} (hR : VRule V Es Y) (hX : XRule V Es X y) :
    Keep (BX V Es Y X T A) (processHorizontalRightToLeft op sf cf y i) fun _ => True := by
  unfold processHorizontalRightToLeft
  refine Keep.bind bk_ablGet fun _ _ => Keep.bind Keep.deref fun b _ => Keep.bind bk_horizontalPartner fun pr _ => ?_
  dsimp only
  refine Keep.bind (P := fun _ => True) (by keep) fun _ _ => Keep.bind bk_curHot fun _ _ => Keep.bind bk_currentEdge fun _ _ => ?_
  refine Keep.bind bk_hotPixelFind fun _ _ => ?_
  refine Keep.bind (P := fun _ => True) (Keep.forElse (fun _ => True) trivial (fun st _ => ?_) fun _ _ => Keep.pure trivial) fun r _ => ?_
  · refine Keep.bind bk_ablGet fun o _ => ?_
    split
    · exact Keep.pure trivial
    · next ho =>
      have hT := ho _ rfl
      refine Keep.bind (P := fun _ => True) (bk_passLeft fun p => by keep) fun hp _ => ?_
      keep
  · split
    · keep
    · refine Keep.bind bk_getBound fun _ _ => Keep.ite (fun _ => ?_) fun _ => by keep
      refine Keep.bind (P := fun _ => True) (bk_passLeft fun p => by keep) fun hp _ => ?_
      keep
macro_rules | `(tactic| keep1) => `(tactic| with_reducible exact bk_lr (by assumption) (by assumption))
macro_rules | `(tactic| keep1) => `(tactic| with_reducible exact bk_rl (by assumption) (by assumption))
theorem bk_processHorizontal {op : OperationKind} {sf cf : FillKind} {y : Int} {i : Nat} (hR : VRule V Es Y) (hX : XRule V Es X y) :
    Keep (BX V Es Y X T A) (processHorizontal op sf cf y i) fun _ => True := by
  unfold processHorizontal; keep
macro_rules | `(tactic| keep1) => `(tactic| with_reducible exact bk_processHorizontal (by assumption) (by assumption))
theorem bk_processHorizontals {op : OperationKind} {sf cf : FillKind} {y : Int} (hR : VRule V Es Y) (hX : XRule V Es X y) :
    Keep (BX V Es Y X T A) (processHorizontals op sf cf y) fun _ => True := by
  unfold processHorizontals; keep
theorem bk_topLoop {y : Int} (hR : VRule V Es Y) (hX : XRule V Es X y) (hN : ∀ {e : Edge}, Es e → X (e.getCurrentX y)) {op : OperationKind} {sf cf : FillKind} :
    Keep (BX V Es Y X T A) (topOfScanbeamLoop op sf cf y) fun _ => True := by
  unfold topOfScanbeamLoop; keep
theorem bk_promote (hR : VRule V Es Y) (hX : XRule V Es X y0) {y : Int} {l : List (Option Nat)} : Keep (BX V Es Y X T A) (promoteIntermediate y l) fun _ => True := by
  induction l with
  | nil => exact Keep.pure trivial
  | cons o l ih => rw [promoteIntermediate]; keep <;> exact ih

/-! ## New bounds -/

theorem BX.more {T' : Nat → Prop} {s : St} (hs : BX V Es Y X T A s) (h : ∀ b, T b → T' b) (h' : ∀ b, T' b → T b ∨ X (s.bounds b).currentX) :
    BX V Es Y X T' A s :=
  ⟨hs.heap, hs.edges, hs.scan, hs.hot, fun b hb => h b (hs.act b hb), fun b hb => (h' b hb).elim (hs.cx b) id, hs.full⟩

theorem bx_initializeBound {b : Nat} {sd : EdgeSide} {s : St} (hX : XRule V Es X y0) (hs : BX V Es Y X T A s) (hb : (s.bounds b).edges ≠ []) :
    Ok (initializeBound b sd) s fun _ s' => BX V Es Y X (fun c => T c ∨ c = b) A s' := by
  unfold initializeBound
  refine Post.bind (Post.getBound (Post.ite (fun h => absurd h hb) fun _ => ?_))
  refine Post.bind (Post.imp (Keep.run (bk_modBound (f := fun bd => (bd.setCur 0).setNxt 1) fun _ => ⟨rfl, rfl⟩) s hs) ?_)
  rintro _ s1 ⟨h1, -⟩
  refine Post.bind ((Keep.run bk_currentEdge s1 h1).imp ?_)
  rintro e s2 ⟨h2, he⟩
  refine Post.imp (Post.and (Keep.run (bk_modX (f := fun bd => { bd with currentX := .floatOfInt e.bottom.x, windingCount := 0, oppositeWindingCount := 0, side := sd, ring := none }) (fun _ => rfl) fun _ _ => .inl (hX.start' he)) s2 h2) (Post.modBound (Q := fun _ s' => X (s'.bounds b).currentX) ?_)) ?_
  · show X (upd s2.bounds b _ b).currentX
    rw [upd_same]
    exact hX.start' he
  · rintro _ s3 ⟨⟨h3, -⟩, h4⟩
    exact h3.more (fun _ => .inl) fun c hc => hc.imp id fun (h : c = b) => h ▸ h4
theorem bx_initializeMinimum {m : LocalMinimum} {s : St} (hX : XRule V Es X y0) (hs : BX V Es Y X T A s) (hm : m ∈ A) :
    Ok (initializeMinimum m) s fun _ s' => BX V Es Y X (fun c => T c ∨ c = m.left ∨ c = m.right) A s' := by
  unfold initializeMinimum
  refine Post.bind ((bx_initializeBound hX hs (hs.full m hm).1).imp fun _ s1 h1 => ?_)
  refine (bx_initializeBound hX h1 (h1.full m hm).2).imp fun _ s2 h2 => ?_
  exact h2.more (fun c hc => by tauto) fun c hc => by tauto

theorem bk_insertBoundIntoAbl {a b : Nat} (ha : T a) (hb : T b) : Keep (BX V Es Y X T A) (insertBoundIntoAbl a b) fun _ => True := by
  unfold insertBoundIntoAbl
  refine Keep.bind (P := fun _ => True) (by keep) fun _ _ => Keep.bind bk_findInsertIndex fun _ _ => ?_
  refine Keep.bind (Keep.modify fun s hs => hs.misc fun c hc => ?_) fun _ _ => Keep.pure trivial
  simp only [List.mem_append, List.mem_cons, Option.some.injEq] at hc
  rcases hc with hc | rfl | rfl | hc
  · exact hs.act c (List.mem_of_mem_take hc)
  · exact ha
  · exact hb
  · exact hs.act c (List.mem_of_mem_drop hc)
theorem bk_insertLm (hR : VRule V Es Y) {op : OperationKind} {sf cf : FillKind} {a b : Nat} (ha : T a) (hb : T b) :
    Keep (BX V Es Y X T A) (insertLmLeftAndRightBound op sf cf a b) fun _ => True := by
  unfold insertLmLeftAndRightBound
  refine Keep.bind (bk_insertBoundIntoAbl ha hb) fun _ _ => ?_
  keep

theorem bx_insertHorizontalLocalMinima (hR : VRule V Es Y) (hX : XRule V Es X y0) {op : OperationKind} {sf cf : FillKind} {y : Int} :
    ∀ (l : List LocalMinimum) (T : Nat → Prop) (s : St), (∀ m ∈ l, m ∈ A) → BX V Es Y X T A s →
      Ok (insertHorizontalLocalMinima op sf cf y l) s fun r s' => r <:+ l ∧ ∃ T', BX V Es Y X T' A s'
  | [], T, s, _, hs => ⟨List.suffix_rfl, T, hs⟩
  | m :: l, T, s, hl, hs => by
    rw [insertHorizontalLocalMinima]
    refine Post.ite (fun _ => ?_) fun _ => Post.pure ⟨List.suffix_rfl, T, hs⟩
    refine Post.bind ((bx_initializeMinimum hX hs (hl m (by simp))).imp fun _ s1 h1 => ?_)
    refine Post.bind ((Keep.run (bk_insertLm hR (by simp) (by simp)) s1 h1).imp ?_)
    rintro _ s2 ⟨h2, -⟩
    refine (bx_insertHorizontalLocalMinima hR hX l _ s2 (fun m hm => hl m (by simp [hm])) h2).imp ?_
    rintro r s3 ⟨h3, h4⟩
    exact ⟨h3.trans (List.suffix_cons _ _), h4⟩
theorem bx_insertLocalMinima (hR : VRule V Es Y) (hX : XRule V Es X y0) {op : OperationKind} {sf cf : FillKind} {y : Int} :
    ∀ (l : List LocalMinimum) (T : Nat → Prop) (s : St), (∀ m ∈ l, m ∈ A) → BX V Es Y X T A s →
      Ok (insertLocalMinima op sf cf y l) s fun r s' => r <:+ l ∧ ∃ T', BX V Es Y X T' A s'
  | [], T, s, _, hs => ⟨List.suffix_rfl, T, hs⟩
  | m :: l, T, s, hl, hs => by
    rw [insertLocalMinima]
    refine Post.ite (fun _ => ?_) fun _ => Post.pure ⟨List.suffix_rfl, T, hs⟩
    refine Post.bind ((bx_initializeMinimum hX hs (hl m (by simp))).imp fun _ s1 h1 => ?_)
    refine Post.bind ((Keep.run (bk_insertLm hR (by simp) (by simp)) s1 h1).imp ?_)
    rintro _ s2 ⟨h2, -⟩
    refine (bx_insertLocalMinima hR hX l _ s2 (fun m hm => hl m (by simp [hm])) h2).imp ?_
    rintro r s3 ⟨h3, h4⟩
    exact ⟨h3.trans (List.suffix_cons _ _), h4⟩

/-! ## A scanline -/

/-- Between two scanlines: nothing is known about the current x. -/
structure BS (V : Point → Prop) (Es : Edge → Prop) (Y : Int → Prop) (A : List LocalMinimum) (s : St) : Prop where
  heap : HV V s
  edges : ∀ b, ∀ e ∈ (s.bounds b).edges, Es e
  scan : ∀ y ∈ s.scan, Y y
  hot : ∀ p ∈ s.hotPixels, V p
  full : ∀ m ∈ A, (s.bounds m.left).edges ≠ [] ∧ (s.bounds m.right).edges ≠ []

theorem BX.still {s : St} (h : BX V Es Y X T A s) : BS V Es Y A s := ⟨h.heap, h.edges, h.scan, h.hot, h.full⟩

theorem bx_updateCurrentX {s : St} {y : Int} (hs : BS V Es Y A s)
    (hN : ∀ b, some b ∈ s.abl → ∀ e, (s.bounds b).currentEdge? = some e → X (e.getCurrentX y)) :
    Ok (updateCurrentX y) s fun _ s' => BX V Es Y X (fun b => some b ∈ s.abl) A s' := by
  refine (post_updateCurrentX (fun _ => X) hN).imp ?_
  rintro _ s1 ⟨h1, h2⟩
  have hE := fun b => (h1.cur b).2.2
  obtain ⟨f, rfl, hf⟩ := h1
  obtain ⟨n, g⟩ := hs.heap
  refine ⟨⟨n, g.nn, g.nodes, g.rings, g.all⟩, fun b e he => hs.edges b e ?_, hs.scan, hs.hot, fun b hb => hb, h2, fun m hm => ?_⟩
  · rw [← hE]; exact he
  · rw [hE, hE]; exact hs.full m hm

theorem bx_processIntersections {s : St} {y : Int} {op : OperationKind} {sf cf : FillKind} (hR : VRule V Es Y) (hs : BS V Es Y A s)
    (hN : ∀ b, some b ∈ s.abl → ∀ e, (s.bounds b).currentEdge? = some e → X (e.getCurrentX y)) :
    Ok (processIntersections y op sf cf) s fun _ s' => BX V Es Y X (fun b => some b ∈ s.abl) A s' := by
  unfold processIntersections
  refine Post.bind (Post.gets (Post.ite (fun h => ?_) fun _ => ?_))
  · refine Post.pure ⟨hs.heap, hs.edges, hs.scan, hs.hot, fun b hb => hb, fun b hb => ?_, hs.full⟩
    rw [h] at hb; cases hb
  · refine Post.bind ((bx_updateCurrentX hs hN).imp fun _ s1 h1 => ?_)
    refine (Keep.run (P := fun _ => True) ?_ s1 h1).imp fun _ _ h => h.1
    refine Keep.bind (bk_buildIntersectList hR) fun l hl => Keep.ite (fun _ => by keep) fun _ => Keep.bind (P := fun _ => True) (by keep) fun _ _ => ?_
    refine bk_processIntersectList fun x hx => hl x ?_
    exact (pySorted_perm' _ _).mem_iff.1 hx

theorem bk_updateHot {y : Int} : Keep (BX V Es Y X T A) (updateCurrentHotPixelIndex y) fun _ => True := by
  unfold updateCurrentHotPixelIndex; keep

theorem bs_popScan {y : Int} {s : St} (hs : BS V Es Y A s) (hy : Y y ∨ s.scan ≠ []) :
    Ok (popScan y) s fun y s' => BS V Es Y A s' ∧ Y y ∧ s'.abl = s.abl ∧ s'.bounds = s.bounds := by
  unfold popScan
  refine Post.bind (Post.gets ?_)
  split
  · next h =>
    rw [List.getLast?_eq_none_iff] at h
    exact ⟨hs, hy.resolve_right fun h' => h' h, rfl, rfl⟩
  · next v hv =>
    refine Post.bind (Post.modify ⟨?_, hs.scan v (List.mem_of_getLast? hv), rfl, rfl⟩)
    obtain ⟨n, h⟩ := hs.heap
    exact ⟨⟨n, h.nn, h.nodes, h.rings, h.all⟩, hs.edges, fun y hy => hs.scan y (List.dropLast_subset _ hy), hs.hot, hs.full⟩

/-- The tail of a scanline, once the current x is known. -/
theorem bx_afterTop (hR : VRule V Es Y) {y : Int} (hX : XRule V Es X y) {op : OperationKind} {sf cf : FillKind} {l : List LocalMinimum} {s : St}
    (hl : ∀ m ∈ l, m ∈ A) (hs : BX V Es Y X T A s) :
    Ok (do
      ablFilter
      let r ← insertHorizontalLocalMinima op sf cf y l
      processHorizontals op sf cf y
      promoteIntermediate y (← gets St.abl)
      pure r) s fun r s' => r <:+ l ∧ ∃ T', BX V Es Y X T' A s' := by
  refine Post.bind ((bk_ablFilter.run s hs).imp ?_)
  rintro _ s1 ⟨h1, -⟩
  refine Post.bind ((bx_insertHorizontalLocalMinima hR hX l _ s1 hl h1).imp ?_)
  rintro r s2 ⟨h2, T', h3⟩
  refine Post.bind (((bk_processHorizontals hR hX).run s2 h3).imp ?_)
  rintro _ s3 ⟨h4, -⟩
  refine Post.bind (Post.gets (Post.bind (((bk_promote hR hX).run s3 h4).imp ?_)))
  rintro _ s4 ⟨h5, -⟩
  exact ⟨h2, T', h5⟩

theorem bs_vattiStep (hR : VRule V Es Y) {XR : Int → F64 → Prop} (hX : ∀ y, Y y → XRule V Es (XR y) y)
    (hN : ∀ y, Y y → ∀ {e : Edge}, Es e → XR y (e.getCurrentX y)) {op : OperationKind} {sf cf : FillKind} {y : Int} {l : List LocalMinimum} {s : St}
    (hs : BS V Es Y A s) (hl : ∀ m ∈ l, m ∈ A) (hy : Y y ∨ s.scan ≠ []) :
    Ok (vattiStep op sf cf y l) s fun r s' => BS V Es Y A s' ∧ Y r.1 ∧ r.2 <:+ l := by
  unfold vattiStep
  refine Post.bind ((bs_popScan hs hy).imp ?_)
  rintro y s1 ⟨h1, hy1, -, -⟩
  refine Post.bind ((bx_processIntersections (X := XR y) hR h1 fun b _ e he => hN y hy1 (h1.edges b e (List.mem_of_getElem? he))).imp fun _ s2 h2 => ?_)
  refine Post.bind ((bk_updateHot.run s2 h2).imp ?_)
  rintro _ s3 ⟨h3, -⟩
  unfold processEdgesAtTopOfScanbeam
  refine Post.bind (Post.bind (((bk_topLoop hR (hX y hy1) (hN y hy1)).run s3 h3).imp ?_))
  rintro _ s4 ⟨h4, -⟩
  refine (bx_afterTop hR (hX y hy1) hl h4).imp ?_
  rintro r s5 ⟨h5, T', h6⟩
  refine Post.bind ((bx_insertLocalMinima hR (hX y hy1) r _ s5 (fun m hm => hl m (h5.mem hm)) h6).imp ?_)
  rintro r' s6 ⟨h7, T'', h8⟩
  exact Post.pure ⟨h8.still, hy1, h7.trans h5⟩

theorem BS.start {s : St} (hs : BS V Es Y A s) {scan : List Int} (h : ∀ y ∈ scan, Y y) {cur : Option Nat} {abl : List (Option Nat)} :
    BS V Es Y A { s with scan := scan, abl := abl, curHot := cur } := by
  obtain ⟨n, g⟩ := hs.heap
  exact ⟨⟨n, g.nn, g.nodes, g.rings, g.all⟩, hs.edges, h, hs.hot, hs.full⟩

theorem bs_executeVatti (hR : VRule V Es Y) {XR : Int → F64 → Prop} (hX : ∀ y, Y y → XRule V Es (XR y) y)
    (hN : ∀ y, Y y → ∀ {e : Edge}, Es e → XR y (e.getCurrentX y)) {op : OperationKind} {sf cf : FillKind} {ms : List LocalMinimum} {scan : List Int} {s : St}
    (hs : BS V Es Y A s) (hl : ∀ m ∈ ms, m ∈ A) (h : ∀ y ∈ scan, Y y) (hne : ms ≠ [] → scan ≠ []) :
    Ok (executeVatti op sf cf ms scan) s fun _ s' => BS V Es Y A s' := by
  unfold executeVatti
  refine Post.bind (Post.modify (Post.bind (Post.modify ?_)))
  refine Post.loopM (fun x s => BS V Es Y A s ∧ (∀ m ∈ x.2, m ∈ A) ∧ (Y x.1 ∨ s.scan ≠ [] ∨ x.2 = [])) ?_ (fun _ _ _ => trivial)
    ⟨hs.start h, fun m hm => hl m ((sortedMinimums_perm _).mem_iff.1 hm), ?_⟩
  · rintro ⟨y, l⟩ s ⟨hs, hl, hy⟩
    refine Post.bind (Post.gets ?_)
    split
    · exact hs
    · next hc =>
      refine Post.bind ((bs_vattiStep hR hX hN hs hl ?_).imp fun r s' ⟨h1, h2, h3⟩ => ⟨h1, fun m hm => hl m (h3.mem hm), Or.inl h2⟩)
      simp only at hc hy ⊢
      tauto
  · right
    by_cases e : ms = []
    · subst e; right; rfl
    · left; exact hne e

/-! ## Hot pixels -/

theorem bx_insertLmHot (hR : VRule V Es Y) (hX : XRule V Es X y0) {y : Int} :
    ∀ (l : List LocalMinimum) (T : Nat → Prop) (s : St), (∀ m ∈ l, m ∈ A) → BX V Es Y X T A s →
      Ok (insertLocalMinimaHotPixel y l) s fun r s' => r <:+ l ∧ ∃ T', BX V Es Y X T' A s'
  | [], T, s, _, hs => ⟨List.suffix_rfl, T, hs⟩
  | m :: l, T, s, hl, hs => by
    rw [insertLocalMinimaHotPixel]
    refine Post.ite (fun _ => ?_) fun _ => Post.pure ⟨List.suffix_rfl, T, hs⟩
    refine Post.bind ((bk_getBound.run s hs).imp ?_)
    rintro bd s1 ⟨h1, hbd, -⟩
    refine Post.bind (((Keep.orIndex (o := bd.edges.head?)).run s1 h1).imp ?_)
    rintro e s2 ⟨h2, he⟩
    have he := hbd e (List.mem_of_head? he)
    refine Post.bind (((bk_addHotPixel (hR.bot he)).run s2 h2).imp ?_)
    rintro _ s3 ⟨h3, -⟩
    have side : ∀ (b : Nat) (T : Nat → Prop) (s : St) {β : Type} (k : M β) (Q : β → St → Prop), BX V Es Y X T A s →
        (∀ s', BX V Es Y X (fun c => T c ∨ c = b) A s' → Ok k s' Q) →
        Ok (do
          modBound b fun bd => (bd.setCur 0).setNxt 1
          let le ← currentEdge b
          modBound b fun bd => { bd with currentX := .ofInt le.bottom.x }
          k) s Q := by
      intro b T s β k Q hs hk
      refine Post.bind (Post.imp (Keep.run (bk_modBound (f := fun bd => (bd.setCur 0).setNxt 1) fun _ => ⟨rfl, rfl⟩) s hs) ?_)
      rintro _ s1 ⟨h1, -⟩
      refine Post.bind ((Keep.run bk_currentEdge s1 h1).imp ?_)
      rintro e s2 ⟨h2, he⟩
      refine Post.bind (Post.imp (Post.and (Keep.run (bk_setX (hX.start he)) s2 h2)
        (Post.modBound (Q := fun _ s' => X (s'.bounds b).currentX) ?_)) ?_)
      · show X (upd s2.bounds b _ b).currentX
        rw [upd_same]
        exact hX.start he
      · rintro _ s3 ⟨⟨h3, -⟩, h4⟩
        exact hk s3 (h3.more (fun _ => .inl) fun c hc => hc.imp id fun (h : c = b) => h ▸ h4)
    refine side m.left T s3 _ _ h3 fun s4 h4 => side m.right _ s4 _ _ h4 fun s5 h5 => ?_
    refine Post.bind (((bk_insertBoundIntoAbl (by simp) (by simp)).run s5 h5).imp ?_)
    rintro _ s6 ⟨h6, -⟩
    refine Post.bind ((bk_currentEdge.run s6 h6).imp ?_)
    rintro le s7 ⟨h7, hle⟩
    have fin : ∀ (T' : Nat → Prop) s', BX V Es Y X T' A s' → Ok (insertLocalMinimaHotPixel y l) s' fun r s' => r <:+ m :: l ∧ ∃ T', BX V Es Y X T' A s' :=
      fun T' s' h' => (bx_insertLmHot hR hX l T' s' (fun m hm => hl m (by simp [hm])) h').imp fun r s'' ⟨a, b⟩ => ⟨a.trans (List.suffix_cons _ _), b⟩
    have right : ∀ (T' : Nat → Prop) s', BX V Es Y X T' A s' → Ok (do
        let re ← currentEdge m.right
        if re.isHorizontal then pure () else insertScan re.top.y
        insertLocalMinimaHotPixel y l) s' fun r s' => r <:+ m :: l ∧ ∃ T', BX V Es Y X T' A s' := by
      intro T' s' h'
      refine Post.bind ((bk_currentEdge.run s' h').imp ?_)
      rintro re s8 ⟨h8, hre⟩
      split
      · exact fin _ _ h8
      · refine Post.bind (((bk_insertScan (hR.row hre)).run s8 h8).imp ?_)
        rintro _ s9 ⟨h9, -⟩
        exact fin _ _ h9
    split
    · exact right _ _ h7
    · refine Post.bind (((bk_insertScan (hR.row hle)).run s7 h7).imp ?_)
      rintro _ s8 ⟨h8, -⟩
      exact right _ _ h8

theorem bk_horizontalPass {b : Nat} {y : Int} {i : Nat} {f : F64 → F64 → Bool} (hX : XRule V Es X y) :
    Keep (BX V Es Y X T A) (horizontalPass b y i f) fun _ => True := by
  unfold horizontalPass
  refine Keep.bind bk_ablGet fun o ho => ?_
  split
  · exact Keep.pure trivial
  · have hT := ho _ rfl
    keep
macro_rules | `(tactic| keep1) => `(tactic| with_reducible exact bk_horizontalPass (by assumption))
theorem bk_horizontalsAtTop {y : Int} {i : Nat} (hX : XRule V Es X y) :
    Keep (BX V Es Y X T A) (horizontalsAtTopScanbeam y i) fun _ => True := by unfold horizontalsAtTopScanbeam; keep
macro_rules | `(tactic| keep1) => `(tactic| with_reducible exact bk_horizontalsAtTop (by assumption))
theorem bk_advance (hR : VRule V Es Y) {y : Int} {b i : Nat} (hX : XRule V Es X y) :
    Keep (BX V Es Y X T A) (hotPixelAdvance y b i) fun _ => True := by unfold hotPixelAdvance; keep
macro_rules | `(tactic| keep1) => `(tactic| with_reducible exact bk_advance (by assumption) (by assumption))
theorem bk_hotTop (hR : VRule V Es Y) {y : Int} (hX : XRule V Es X y) :
    Keep (BX V Es Y X T A) (processHotPixelEdgesAtTopOfScanbeam y) fun _ => True := by unfold processHotPixelEdgesAtTopOfScanbeam; keep

theorem bk_sortActive' : Keep (BX V Es Y X T A) sortActive fun r => ∀ b ∈ r.1, T b := by
  unfold sortActive
  constructor
  intro s hs
  refine Post.bind (Post.gets (Post.bind (Post.gets (Post.bind (Post.gets ?_)))))
  split
  · trivial
  · next r hr =>
    refine Post.pure ⟨hs, fun b hb => ?_⟩
    obtain ⟨h1, -, -⟩ := bubbleSort_spec (intersectionCompare s.bounds) _ _ _ _ hr
    have := h1.perm.mem_iff.1 hb
    simp only [List.mem_filterMap, id] at this
    obtain ⟨o, h2, rfl⟩ := this
    exact hs.act b h2

theorem bx_hotIntersections {s : St} {y : Int} (hR : VRule V Es Y) (hs : BS V Es Y A s)
    (hN : ∀ b, some b ∈ s.abl → ∀ e, (s.bounds b).currentEdge? = some e → X (e.getCurrentX y)) :
    Ok (processHotPixelIntersections y) s fun _ s' => BX V Es Y X (fun b => some b ∈ s.abl) A s' := by
  unfold processHotPixelIntersections
  refine Post.bind ((bx_updateCurrentX hs hN).imp fun _ s1 h1 => ?_)
  refine (Keep.run (P := fun _ => True) ?_ s1 h1).imp fun _ _ h => h.1
  refine Keep.bind bk_sortActive' fun r hr => ?_
  dsimp only
  refine Keep.bind (Keep.forList fun lr _ => ?_) fun _ _ => Keep.modify fun s hs => hs.misc fun b hb => ?_
  · exact Keep.bind (bk_crossingOf hR) fun p hp => Keep.bind Keep.liftE fun q hq => bk_addHotPixel (hp q hq)
  · simp only [List.mem_map, Option.some.injEq, exists_eq_right] at hb
    exact hr b hb

theorem bs_hotStep (hR : VRule V Es Y) {XR : Int → F64 → Prop} (hX : ∀ y, Y y → XRule V Es (XR y) y)
    (hN : ∀ y, Y y → ∀ {e : Edge}, Es e → XR y (e.getCurrentX y)) {y : Int} {l : List LocalMinimum} {s : St}
    (hs : BS V Es Y A s) (hl : ∀ m ∈ l, m ∈ A) (hy : Y y ∨ s.scan ≠ []) :
    Ok (hotPixelStep y l) s fun r s' => BS V Es Y A s' ∧ Y r.1 ∧ r.2 <:+ l := by
  unfold hotPixelStep
  refine Post.bind ((bs_popScan hs hy).imp ?_)
  rintro y s1 ⟨h1, hy1, -, -⟩
  refine Post.bind ((bx_hotIntersections (X := XR y) hR h1 fun b _ e he => hN y hy1 (h1.edges b e (List.mem_of_getElem? he))).imp fun _ s2 h2 => ?_)
  refine Post.bind ((bx_insertLmHot hR (hX y hy1) l _ s2 hl h2).imp ?_)
  rintro r s3 ⟨h3, T', h4⟩
  refine Post.bind (((bk_hotTop hR (hX y hy1)).run s3 h4).imp ?_)
  rintro _ s4 ⟨h5, -⟩
  exact Post.pure ⟨h5.still, hy1, h3⟩

theorem bs_sortHotPixels {s : St} (hs : BS V Es Y A s) : Ok sortHotPixels s fun _ s' => BS V Es Y A s' := by
  refine Ok.intro fun a s' h => ?_
  have hm := (C10_sorted_of_returns s s' h).2.2
  obtain ⟨l, hl⟩ : ∃ l, s' = { s with hotPixels := l } := by
    unfold sortHotPixels at h
    simp only [bind, M.bind, gets] at h
    cases hq : quicksort hotPixelsCompare s.fuel s.hotPixels with
    | none => rw [hq] at h; cases h
    | some r => rw [hq] at h; cases h; exact ⟨_, rfl⟩
  subst hl
  obtain ⟨n, h⟩ := hs.heap
  exact ⟨⟨n, h.nn, h.nodes, h.rings, h.all⟩, hs.edges, hs.scan, fun p hp => hs.hot p ((hm p).1 hp), hs.full⟩

theorem bs_buildHotPixels (hR : VRule V Es Y) {XR : Int → F64 → Prop} (hX : ∀ y, Y y → XRule V Es (XR y) y)
    (hN : ∀ y, Y y → ∀ {e : Edge}, Es e → XR y (e.getCurrentX y)) {ms : List LocalMinimum} {scan : List Int} {s : St}
    (hs : BS V Es Y A s) (hl : ∀ m ∈ ms, m ∈ A) (h : ∀ y ∈ scan, Y y) (hne : ms ≠ [] → scan ≠ []) :
    Ok (buildHotPixels ms scan) s fun _ s' => BS V Es Y A s' := by
  unfold buildHotPixels
  refine Post.bind (Post.modify (Post.bind ?_))
  refine Post.loopM (fun x s => BS V Es Y A s ∧ (∀ m ∈ x.2, m ∈ A) ∧ (Y x.1 ∨ s.scan ≠ [] ∨ x.2 = [])) ?_ (fun _ _ _ => trivial)
    ⟨hs.start h, fun m hm => hl m ((sortedMinimums_perm _).mem_iff.1 hm), ?_⟩
  · rintro ⟨y, l⟩ s ⟨hs, hl, hy⟩
    refine Post.bind (Post.gets ?_)
    split
    · exact bs_sortHotPixels hs
    · next hc =>
      refine Post.bind ((bs_hotStep hR hX hN hs hl ?_).imp fun r s' ⟨h1, h2, h3⟩ => ⟨h1, fun m hm => hl m (h3.mem hm), Or.inl h2⟩)
      simp only at hc hy ⊢
      tauto
  · right
    by_cases e : ms = []
    · subst e; right; rfl
    · left; exact hne e

end

end Wagyu
