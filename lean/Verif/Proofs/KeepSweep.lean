import Verif.Proofs.KeepTopology
import Verif.Proofs.PresOut
import Verif.Props.Crossing

/-!
# The sweeps stay between two rows

`RowInv lo hi`: references to nodes are valid; all nodes, hot pixels, scanbeams and edges lie between the rows `lo` and `hi`.
-/

namespace Wagyu

/-- Between two rows. -/
def InR (lo hi y : Int) : Prop := lo ≤ y ∧ y ≤ hi

structure EOk (lo hi : Int) (e : Edge) : Prop where
  bot : InR lo hi e.bottom.y
  top : InR lo hi e.top.y
  bnd : e.Bounded 52

def HV (V : Point → Prop) (s : St) : Prop := ∃ n, HInv V n s

structure RowInv (lo hi : Int) (s : St) : Prop where
  heap : HV (fun p => InR lo hi p.y) s
  edges : ∀ b, ∀ e ∈ (s.bounds b).edges, EOk lo hi e
  scan : ∀ y ∈ s.scan, InR lo hi y
  hot : ∀ p ∈ s.hotPixels, InR lo hi p.y

/-! ## Statements on nodes and rings only -/

/-- What such statements leave alone. -/
structure SFrame (s s' : St) : Prop where
  edges : ∀ b, (s'.bounds b).edges = (s.bounds b).edges
  scan : s'.scan = s.scan
  hot : s'.hotPixels = s.hotPixels

instance : Preo SFrame where
  refl _ := ⟨fun _ => rfl, rfl, rfl⟩
  trans h k := ⟨fun b => (k.edges b).trans (h.edges b), k.scan.trans h.scan, k.hot.trans h.hot⟩

theorem edges_upd {f : Nat → Bound} {i : Nat} {v : Bound} (h : v.edges = (f i).edges) (b : Nat) :
    (upd f i v b).edges = (f b).edges := by
  by_cases e : b = i
  · subst e; rw [upd_same, h]
  · rw [upd_ne _ _ e]

instance : OutPrims SFrame where
  heap _ _ _ _ _ _ := ⟨fun _ => rfl, rfl, rfl⟩
  last s b lp := ⟨fun c => by exact edges_upd (v := { s.bounds b with lastPoint := lp }) rfl c, rfl, rfl⟩
  newRing _ _ _ := ⟨fun _ => rfl, rfl, rfl⟩
  bound s b r lp sd := ⟨fun c => by exact edges_upd (v := { s.bounds b with ring := r, lastPoint := lp, side := sd }) rfl c, rfl, rfl⟩

section
variable {α β : Type} {V : Point → Prop} {n : Nat} {lo hi : Int} {P : α → Prop}

theorem Keep.lift {m : M α} (h : Keep (HV fun p => InR lo hi p.y) m P) (hp : Pres SFrame m) : Keep (RowInv lo hi) m P := by
  constructor
  intro s hs
  have h1 := h.run s hs.heap
  have h2 := hp.pres s
  unfold Ok Post at *
  revert h1 h2
  cases m s with
  | err e s' => intro _ _; trivial
  | ok a s' =>
    rintro ⟨h1, h1'⟩ h2
    refine ⟨⟨h1, fun b e he => hs.edges b e ?_, fun y hy => hs.scan y ?_, fun p hp => hs.hot p ?_⟩, h1'⟩
    · rw [← h2.edges b]; exact he
    · rw [← h2.scan]; exact hy
    · rw [← h2.hot]; exact hp

theorem Keep.toHV {m : M α} (h : ∀ n, Keep (HInv V n) m P) : Keep (HV V) m P := by
  constructor
  rintro s ⟨n, hs⟩
  exact ((h n).run s hs).imp fun a s' ⟨h1, h2⟩ => ⟨⟨n, h1⟩, h2⟩

theorem Keep.lift' {m : M α} (h : ∀ n, Keep (HInv (fun p => InR lo hi p.y) n) m P) (hp : Pres SFrame m) : Keep (RowInv lo hi) m P :=
  (Keep.toHV h).lift hp

theorem M.assoc {γ : Type} (m : M α) (f : α → M β) (g : β → M γ) : m >>= f >>= g = m >>= fun a => f a >>= g := by
  funext s
  show M.bind (M.bind m f) g s = M.bind m (fun a => M.bind (f a) g) s
  unfold M.bind
  cases m s <;> rfl

/-! ## New nodes -/

theorem createPointNode_ok {s : St} {r : Option Nat} {p : Point} {b : Option Nat} (hs : HInv V n s) (hp : V p) (hb : VN n b) :
    Ok (createPointNode r p b) s fun i s' => HInv V (n + 1) s' ∧ i = n := by
  have mono : ∀ {o}, VN n o → VN (n + 1) o := fun h j hj => Nat.lt_succ_of_lt (h j hj)
  unfold createPointNode
  refine Post.bind (Post.gets ?_)
  refine Post.bind (Post.modify ?_)
  rw [hs.nn]
  have h1 : HInv V (n + 1) { s with
      nodes := upd s.nodes n { x := p.x, y := p.y, prev := some n, next := some n, ring := r }, nn := n + 1 } := by
    refine ⟨rfl, ?_, fun j => ⟨mono (hs.rings j).1, mono (hs.rings j).2⟩, fun i hi => Nat.lt_succ_of_lt (hs.all i hi)⟩
    intro i hi
    by_cases e : i = n
    · subst e
      show V ⟨(upd s.nodes i _ i).x, (upd s.nodes i _ i).y⟩ ∧ VN _ (upd s.nodes i _ i).next ∧ VN _ (upd s.nodes i _ i).prev
      rw [upd_same]
      exact ⟨hp, VN.some (by omega), VN.some (by omega)⟩
    · show V ⟨(upd s.nodes n _ i).x, (upd s.nodes n _ i).y⟩ ∧ VN _ (upd s.nodes n _ i).next ∧ VN _ (upd s.nodes n _ i).prev
      rw [upd_ne _ _ e]
      obtain ⟨a, b, c⟩ := hs.nodes i (by omega)
      exact ⟨a, mono b, mono c⟩
  have h2 : Keep (HInv V (n + 1)) (do
      match b with
      | none => pure ()
      | some b => placeBefore n b
      modify fun s => { s with allNodes := s.allNodes ++ [n] }
      pure n : M Nat) fun i => i = n := by
    have h3 : Keep (HInv V (n + 1)) (do
        modify fun s => { s with allNodes := s.allNodes ++ [n] }
        pure n : M Nat) fun i => i = n := by
      refine Keep.bind (P := fun _ => True) (Keep.modify fun s hs => ?_) fun _ _ => Keep.pure rfl
      refine ⟨hs.nn, hs.nodes, hs.rings, ?_⟩
      intro i hi
      rcases List.mem_append.1 hi with hi | hi
      · exact hs.all i hi
      · simp only [List.mem_singleton] at hi; omega
    cases b with
    | none => exact h3
    | some b => exact Keep.bind (keep_placeBefore (by omega) (mono hb).lt) fun _ _ => h3
  exact h2.run _ h1

/-- A statement that may add nodes. -/
def Grow (V : Point → Prop) (n : Nat) (m : M α) : Prop := ∀ s, HInv V n s → Ok m s fun _ s' => HV V s'

theorem Grow.bind {m : M α} {f : α → M β} (h : Keep (HInv V n) m P) (hf : ∀ a, P a → Grow V n (f a)) : Grow V n (m >>= f) :=
  fun s hs => Post.bind ((h.run s hs).imp fun a s' ⟨h1, h2⟩ => hf a h2 s' h1)
theorem Grow.of_keep {m : M α} (h : Keep (HInv V n) m P) : Grow V n m :=
  fun s hs => (h.run s hs).imp fun _ _ ⟨h1, _⟩ => ⟨n, h1⟩
theorem Grow.keep {m : M α} (h : ∀ n, Grow V n m) : Keep (HV V) m fun _ => True := by
  constructor
  rintro s ⟨n, hs⟩
  exact (h n s hs).imp fun _ _ h => ⟨h, trivial⟩

theorem keep_getBound_heap {b : Nat} : Keep (HInv V n) (getBound b) fun _ => True := Keep.gets fun _ _ => trivial
macro_rules | `(tactic| keep1) => `(tactic| with_reducible exact keep_getBound_heap)

theorem grow_pushPoint {b : Nat} {p : Point} (hp : V p) : Grow V n (pushPoint b p) := by
  unfold pushPoint
  refine Grow.bind (keep_getBound_heap) fun bd _ => Grow.bind (P := fun _ => True) Keep.deref.triv fun r _ => ?_
  refine Grow.bind keep_getRing fun g hg => ?_
  dsimp only
  refine Grow.bind (P := fun o => VN n o) ?_ fun last hl => ?_
  · refine Keep.ite (fun _ => Keep.pure hg.1) fun _ => Keep.bind Keep.deref fun i hi => ?_
    exact Keep.bind (keep_getNode (hg.1 i hi)) fun nd hnd => Keep.pure hnd.2.2
  refine Grow.bind (P := fun _ => True) ?_ fun same _ => ?_
  · cases last with
    | none => exact Keep.pure trivial
    | some i => have := hl.lt; keep
  split
  · exact Grow.of_keep (Keep.pure (P := fun _ => True) trivial)
  · intro s hs
    refine Post.bind ((createPointNode_ok hs hp hg.1).imp fun i s' ⟨h1, h2⟩ => ?_)
    subst h2
    split
    · exact ((keep_setRingNode (VN.some (by omega))).run s' h1).imp fun _ _ h => ⟨_, h.1⟩
    · exact ⟨_, h1⟩

theorem sk_pushPoint {b : Nat} {p : Point} (hp : InR lo hi p.y) : Keep (RowInv lo hi) (pushPoint b p) fun _ => True :=
  (Grow.keep fun _ => grow_pushPoint (V := fun p => InR lo hi p.y) hp).lift inferInstance
macro_rules | `(tactic| keep1) => `(tactic| with_reducible apply sk_pushPoint <;> keepside)

/-! ## Primitives -/

theorem sk_getBound {b : Nat} : Keep (RowInv lo hi) (getBound b) fun bd => ∀ e ∈ bd.edges, EOk lo hi e := ⟨fun _ hs => ⟨hs, hs.edges b⟩⟩
macro_rules | `(tactic| keep1) => `(tactic| with_reducible exact sk_getBound)
theorem sk_currentEdge {b : Nat} : Keep (RowInv lo hi) (currentEdge b) (EOk lo hi) := by
  unfold currentEdge
  refine Keep.bind sk_getBound fun bd h => Keep.mono Keep.orIndex fun e he => h e ?_
  exact List.mem_of_getElem? he
macro_rules | `(tactic| keep1) => `(tactic| with_reducible exact sk_currentEdge)
theorem sk_nextEdge {b : Nat} : Keep (RowInv lo hi) (nextEdge b) (EOk lo hi) := by
  unfold nextEdge
  refine Keep.bind sk_getBound fun bd h => Keep.mono Keep.orIndex fun e he => h e ?_
  exact List.mem_of_getElem? he
macro_rules | `(tactic| keep1) => `(tactic| with_reducible exact sk_nextEdge)
theorem sk_modBound {b : Nat} {f : Bound → Bound} (h : ∀ bd, (f bd).edges = bd.edges) : Keep (RowInv lo hi) (modBound b f) fun _ => True := by
  refine Keep.modify fun s hs => ⟨?_, ?_, hs.scan, hs.hot⟩
  · obtain ⟨n, h⟩ := hs.heap
    exact ⟨n, h.nn, h.nodes, h.rings, h.all⟩
  · intro c e he
    refine hs.edges c e ?_
    rw [← edges_upd (v := f (s.bounds b)) (h _) c]
    exact he
macro_rules | `(tactic| keep1) => `(tactic| ((with_reducible refine sk_modBound ?_); intro _; rfl))
theorem sk_insertScan {y : Int} (hy : InR lo hi y) : Keep (RowInv lo hi) (insertScan y) fun _ => True := by
  refine Keep.modify fun s hs => ⟨?_, hs.edges, ?_, hs.hot⟩
  · obtain ⟨n, h⟩ := hs.heap
    exact ⟨n, h.nn, h.nodes, h.rings, h.all⟩
  · intro z hz
    change z ∈ insortUnique s.scan y at hz
    unfold insortUnique at hz
    dsimp only at hz
    split at hz
    · rcases List.mem_append.1 hz with hz | hz
      · exact hs.scan z (List.mem_of_mem_take hz)
      · rcases List.mem_cons.1 hz with rfl | hz
        · exact hy
        · exact hs.scan z (List.mem_of_mem_drop hz)
    · exact hs.scan z hz
macro_rules | `(tactic| keep1) => `(tactic| with_reducible apply sk_insertScan <;> keepside)
theorem sk_addHotPixel {p : Point} (hy : InR lo hi p.y) : Keep (RowInv lo hi) (addHotPixel p) fun _ => True := by
  refine Keep.modify fun s hs => ⟨?_, hs.edges, hs.scan, ?_⟩
  · obtain ⟨n, h⟩ := hs.heap
    exact ⟨n, h.nn, h.nodes, h.rings, h.all⟩
  · intro z hz
    rcases List.mem_append.1 hz with hz | hz
    · exact hs.hot z hz
    · simp only [List.mem_singleton] at hz; subst hz; exact hy
macro_rules | `(tactic| keep1) => `(tactic| with_reducible apply sk_addHotPixel <;> keepside)
theorem sk_hotPixelAt {i : Nat} : Keep (RowInv lo hi) (hotPixelAt i) fun p => InR lo hi p.y := by
  constructor
  intro s hs
  unfold hotPixelAt Ok Post
  dsimp only
  cases h : s.hotPixels[i]? with
  | none => trivial
  | some p => exact ⟨hs, hs.hot p (List.mem_of_getElem? h)⟩
macro_rules | `(tactic| keep1) => `(tactic| with_reducible exact sk_hotPixelAt)

theorem sk_ablGet {i : Nat} : Keep (RowInv lo hi) (ablGet i) fun _ => True := by
  constructor
  intro s hs
  unfold ablGet Ok Post
  dsimp only
  cases h : s.abl[i]? with
  | none => trivial
  | some p => exact ⟨hs, trivial⟩
macro_rules | `(tactic| keep1) => `(tactic| with_reducible exact sk_ablGet)
theorem RowInv.misc {s : St} {cur : Option Nat} {abl : List (Option Nat)} (hs : RowInv lo hi s) : RowInv lo hi { s with curHot := cur, abl := abl } := by
  obtain ⟨n, h⟩ := hs.heap
  exact ⟨⟨n, h.nn, h.nodes, h.rings, h.all⟩, hs.edges, hs.scan, hs.hot⟩
theorem sk_ablSet {i : Nat} {v : Option Nat} : Keep (RowInv lo hi) (ablSet i v) fun _ => True := Keep.modify fun _ hs => hs.misc
macro_rules | `(tactic| keep1) => `(tactic| with_reducible exact sk_ablSet)
theorem sk_ablSwap {i j : Nat} : Keep (RowInv lo hi) (ablSwap i j) fun _ => True := by unfold ablSwap; keep
macro_rules | `(tactic| keep1) => `(tactic| with_reducible exact sk_ablSwap)
theorem sk_ablFilter : Keep (RowInv lo hi) ablFilter fun _ => True := Keep.modify fun _ hs => hs.misc
macro_rules | `(tactic| keep1) => `(tactic| with_reducible exact sk_ablFilter)
theorem sk_setCur {i : Nat} : Keep (RowInv lo hi) (setCurrentHotPixelIndex i) fun _ => True := Keep.modify fun _ hs => hs.misc
macro_rules | `(tactic| keep1) => `(tactic| with_reducible exact sk_setCur)
theorem sk_curHot : Keep (RowInv lo hi) currentHotPixelIndex fun _ => True := Keep.gets fun _ _ => trivial
macro_rules | `(tactic| keep1) => `(tactic| with_reducible exact sk_curHot)
theorem sk_round {x : F64} : Keep (RowInv lo hi) (roundHalfUpM x) fun _ => True := by unfold roundHalfUpM; keep
macro_rules | `(tactic| keep1) => `(tactic| with_reducible exact sk_round)

macro_rules | `(tactic| keepside) => `(tactic| first
  | exact EOk.top (by assumption)
  | exact EOk.bot (by assumption))
macro_rules | `(tactic| keep_step) => `(tactic| with_reducible refine Keep.loopM (fun _ => True) trivial fun _ _ => ?_)
macro_rules | `(tactic| keep_step) => `(tactic| with_reducible refine Keep.forElse (fun _ => True) trivial (fun _ _ => ?_) fun _ _ => ?_)
macro_rules | `(tactic| keep_step) => `(tactic| with_reducible refine Keep.forList fun _ _ => ?_)

/-! ## Bounds -/

theorem sk_isIntermediate {b : Nat} {y : Int} : Keep (RowInv lo hi) (isIntermediate b y) fun _ => True := by unfold isIntermediate; keep
macro_rules | `(tactic| keep1) => `(tactic| with_reducible exact sk_isIntermediate)
theorem sk_isMaxima {b : Nat} {y : Int} : Keep (RowInv lo hi) (isMaxima b y) fun _ => True := by unfold isMaxima; keep
macro_rules | `(tactic| keep1) => `(tactic| with_reducible exact sk_isMaxima)
theorem edges_setCur {b : Bound} {v : Nat} : (b.setCur v).edges = b.edges := rfl
theorem edges_setNxt {b : Bound} {v : Nat} : (b.setNxt v).edges = b.edges := rfl
theorem sk_toNextEdge {b : Nat} : Keep (RowInv lo hi) (toNextEdge b) fun _ => True := by unfold toNextEdge; keep
macro_rules | `(tactic| keep1) => `(tactic| with_reducible exact sk_toNextEdge)
theorem sk_boundInsertLocation {a b : Nat} : Keep (RowInv lo hi) (boundInsertLocation a b) fun _ => True := by unfold boundInsertLocation; keep
macro_rules | `(tactic| keep1) => `(tactic| with_reducible exact sk_boundInsertLocation)
theorem sk_findInsertIndex {a : Nat} {l : List (Option Nat)} {i : Nat} : Keep (RowInv lo hi) (findInsertIndex a l i) fun _ => True := by
  induction l generalizing i with
  | nil => exact Keep.pure trivial
  | cons o l ih => rw [findInsertIndex]; keep; exact ih
macro_rules | `(tactic| keep1) => `(tactic| with_reducible exact sk_findInsertIndex)
theorem sk_insertBoundIntoAbl {a b : Nat} : Keep (RowInv lo hi) (insertBoundIntoAbl a b) fun _ => True := by
  unfold insertBoundIntoAbl
  refine Keep.bind (P := fun _ => True) (by keep) fun _ _ => Keep.bind sk_findInsertIndex fun _ _ => ?_
  exact Keep.bind (Keep.modify fun _ hs => hs.misc) fun _ _ => Keep.pure trivial
macro_rules | `(tactic| keep1) => `(tactic| with_reducible exact sk_insertBoundIntoAbl)
theorem sk_findSameKind {k : PolygonKind} {l : List (Option Nat)} {i : List Nat} : Keep (RowInv lo hi) (findSameKind k l i) fun _ => True := by
  induction l generalizing i with
  | nil => exact Keep.pure trivial
  | cons o l ih => rw [findSameKind]; keep; exact ih
macro_rules | `(tactic| keep1) => `(tactic| with_reducible exact sk_findSameKind)
theorem sk_setWindingCount {i : Nat} {sf cf : FillKind} : Keep (RowInv lo hi) (setWindingCount i sf cf) fun _ => True := by unfold setWindingCount; keep
macro_rules | `(tactic| keep1) => `(tactic| with_reducible exact sk_setWindingCount)
theorem sk_initializeBound {i : Nat} {sd : EdgeSide} : Keep (RowInv lo hi) (initializeBound i sd) fun _ => True := by unfold initializeBound; keep
macro_rules | `(tactic| keep1) => `(tactic| with_reducible exact sk_initializeBound)
theorem sk_initializeMinimum {m : LocalMinimum} : Keep (RowInv lo hi) (initializeMinimum m) fun _ => True := by unfold initializeMinimum; keep
macro_rules | `(tactic| keep1) => `(tactic| with_reducible exact sk_initializeMinimum)
theorem sk_updateCurrentX {y : Int} : Keep (RowInv lo hi) (updateCurrentX y) fun _ => True := by unfold updateCurrentX; keep
macro_rules | `(tactic| keep1) => `(tactic| with_reducible exact sk_updateCurrentX)

/-! ## Points of rings -/

theorem sk_setLR {y a b : Int} {c i j : Nat} {e : Bool} : Keep (RowInv lo hi) (hotPixelSetLeftToRight y a b c i j e) fun _ => True := by
  unfold hotPixelSetLeftToRight; keep
macro_rules | `(tactic| keep1) => `(tactic| with_reducible exact sk_setLR)
theorem sk_setRL {y a b : Int} {c i j : Nat} {e : Bool} : Keep (RowInv lo hi) (hotPixelSetRightToLeft y a b c i j e) fun _ => True := by
  unfold hotPixelSetRightToLeft; keep
macro_rules | `(tactic| keep1) => `(tactic| with_reducible exact sk_setRL)
theorem sk_backUp {y : Int} {i : Nat} : Keep (RowInv lo hi) (hotPixelBackUp y i) fun _ => True := by
  induction i with
  | zero => exact Keep.pure trivial
  | succ i ih => rw [hotPixelBackUp]; keep; exact ih
macro_rules | `(tactic| keep1) => `(tactic| with_reducible exact sk_backUp)
theorem sk_rowEnd {y : Int} {len k i : Nat} : Keep (RowInv lo hi) (hotPixelRowEnd y len k i) fun _ => True := by
  induction k generalizing i with
  | zero => exact Keep.pure trivial
  | succ k ih => rw [hotPixelRowEnd]; keep; exact ih
macro_rules | `(tactic| keep1) => `(tactic| with_reducible exact sk_rowEnd)
theorem sk_insertHot {b : Nat} {p : Point} {e : Bool} : Keep (RowInv lo hi) (insertHotPixelsInPath b p e) fun _ => True := by
  unfold insertHotPixelsInPath; keep
macro_rules | `(tactic| keep1) => `(tactic| with_reducible exact sk_insertHot)
theorem sk_addPointToRing {b : Nat} {p : Point} (hp : InR lo hi p.y) : Keep (RowInv lo hi) (addPointToRing b p) fun _ => True := by
  unfold addPointToRing; keep
macro_rules | `(tactic| keep1) => `(tactic| with_reducible apply sk_addPointToRing <;> keepside)

theorem sk_modRing {r : Nat} {f : Ring → Ring} (hf : ∀ g, ((f g).node = g.node ∨ (f g).node = none)
      ∧ ((f g).bottomNode = g.bottomNode ∨ (f g).bottomNode = none)) : Keep (RowInv lo hi) (modRing r f) fun _ => True := by
  refine Keep.lift' (fun _ => keep_modRing fun g h1 h2 => ?_) inferInstance
  obtain ⟨a, b⟩ := hf g
  constructor
  · rcases a with a | a <;> rw [a]
    · exact h1
    · exact VN.none
  · rcases b with a | a <;> rw [a]
    · exact h2
    · exact VN.none
macro_rules | `(tactic| keep1) => `(tactic| ((with_reducible refine sk_modRing ?_); intro _; first | exact ⟨Or.inl rfl, Or.inl rfl⟩ | exact ⟨Or.inr rfl, Or.inl rfl⟩ | exact ⟨Or.inl rfl, Or.inr rfl⟩ | exact ⟨Or.inr rfl, Or.inr rfl⟩))
theorem sk_setRingParent {r : Nat} {v : Option Nat} : Keep (RowInv lo hi) (setRingParent r v) fun _ => True :=
  Keep.lift' (fun _ => keep_setRingParent) inferInstance
macro_rules | `(tactic| keep1) => `(tactic| with_reducible exact sk_setRingParent)
theorem sk_getRing {r : Nat} : Keep (RowInv lo hi) (getRing r) fun _ => True := Keep.gets fun _ _ => trivial
macro_rules | `(tactic| keep1) => `(tactic| with_reducible exact sk_getRing)
theorem sk_holeStateScan {l : List (Option Nat)} {t : Option Nat} : Keep (RowInv lo hi) (holeStateScan l t) fun _ => True := by
  induction l generalizing t with
  | nil => exact Keep.pure trivial
  | cons o l ih =>
    cases o <;> rw [holeStateScan]
    · exact ih
    · keep <;> exact ih
macro_rules | `(tactic| keep1) => `(tactic| with_reducible exact sk_holeStateScan)
theorem sk_setHoleState {b : Nat} : Keep (RowInv lo hi) (setHoleState b) fun _ => True := by
  unfold setHoleState
  refine Keep.bind (P := fun _ => True) (by keep) fun _ _ => ?_
  split
  · keep
  · refine Keep.bind sk_holeStateScan fun _ _ => Keep.bind sk_getBound fun _ _ => Keep.bind Keep.deref fun _ _ => ?_
    split
    · refine Keep.bind sk_setRingParent fun _ _ => Keep.modify fun s hs => ?_
      obtain ⟨n, h⟩ := hs.heap
      exact ⟨⟨n, h.nn, h.nodes, h.rings, h.all⟩, hs.edges, hs.scan, hs.hot⟩
    · keep
macro_rules | `(tactic| keep1) => `(tactic| with_reducible exact sk_setHoleState)

theorem sk_newPoint {r : Nat} {p : Point} (hp : InR lo hi p.y) : Keep (RowInv lo hi) (do
    let n ← createPointNode (some r) p none
    setRingNode r (some n)) fun _ => True := by
  refine Keep.lift (Grow.keep fun n s hs => ?_) (by pres)
  refine Post.bind ((createPointNode_ok hs hp VN.none).imp fun i s' ⟨h1, h2⟩ => ?_)
  subst h2
  exact ((keep_setRingNode (VN.some (by omega))).run s' h1).imp fun _ _ h => ⟨_, h.1⟩
theorem sk_createRing : Keep (RowInv lo hi) createRing fun _ => True := Keep.lift' (fun _ => keep_createRing) inferInstance
theorem sk_addFirstPoint {b : Nat} {p : Point} (hp : InR lo hi p.y) : Keep (RowInv lo hi) (addFirstPoint b p) fun _ => True := by
  unfold addFirstPoint
  refine Keep.bind sk_createRing fun r _ => Keep.bind (P := fun _ => True) (by keep) fun _ _ => ?_
  have := Keep.bind (f := fun _ => do setHoleState b; modBound b fun bd => { bd with lastPoint := p }) (Q := fun _ => True)
    (sk_newPoint (r := r) hp) fun _ _ => by keep
  rw [M.assoc] at this
  exact this
macro_rules | `(tactic| keep1) => `(tactic| with_reducible apply sk_addFirstPoint <;> keepside)
theorem sk_addPoint {b : Nat} {p : Point} (hp : InR lo hi p.y) : Keep (RowInv lo hi) (addPoint b p) fun _ => True := by
  unfold addPoint; keep
macro_rules | `(tactic| keep1) => `(tactic| with_reducible apply sk_addPoint <;> keepside)
theorem sk_addLocalMinimumPoint {a b : Nat} {p : Point} (hp : InR lo hi p.y) : Keep (RowInv lo hi) (addLocalMinimumPoint p a b) fun _ => True := by
  unfold addLocalMinimumPoint; keep
macro_rules | `(tactic| keep1) => `(tactic| with_reducible apply sk_addLocalMinimumPoint <;> keepside)

theorem keep_chooseKeep {V : Point → Prop} {n a b c d : Nat} : Keep (HInv V n) (chooseKeep a b c d) fun _ => True := by
  unfold chooseKeep; keep
theorem sk_chooseKeep {a b c d : Nat} : Keep (RowInv lo hi) (chooseKeep a b c d) fun _ => True :=
  Keep.lift' (fun _ => keep_chooseKeep) inferInstance
macro_rules | `(tactic| keep1) => `(tactic| with_reducible exact sk_chooseKeep)
theorem keep_joinNodes {V : Point → Prop} {n a b : Nat} {c d : EdgeSide} : Keep (HInv V n) (joinNodes a b c d) fun _ => True := by
  unfold joinNodes
  refine Keep.bind keep_getRing fun g hg => Keep.bind Keep.deref fun i hi => ?_
  have hi := hg.1 i hi
  refine Keep.bind (keep_prevOf hi) fun i' hi' => ?_
  refine Keep.bind keep_getRing fun g hg => Keep.bind Keep.deref fun j hj => ?_
  have hj := hg.1 j hj
  keep
theorem sk_joinNodes {a b : Nat} {c d : EdgeSide} : Keep (RowInv lo hi) (joinNodes a b c d) fun _ => True :=
  Keep.lift' (fun _ => keep_joinNodes) inferInstance
macro_rules | `(tactic| keep1) => `(tactic| with_reducible exact sk_joinNodes)
theorem sk_ringDepth {r : Nat} : Keep (RowInv lo hi) (ringDepth r) fun _ => True := Keep.lift' (fun _ => keep_ringDepth) inferInstance
macro_rules | `(tactic| keep1) => `(tactic| with_reducible exact sk_ringDepth)
theorem sk_replaceRing {r : Nat} {v : Option Nat} : Keep (RowInv lo hi) (replaceRing r v) fun _ => True :=
  Keep.lift' (fun _ => keep_replaceRing) inferInstance
macro_rules | `(tactic| keep1) => `(tactic| with_reducible exact sk_replaceRing)
theorem sk_updatePoints {r : Nat} : Keep (RowInv lo hi) (updatePoints r) fun _ => True := Keep.lift' (fun _ => keep_updatePoints) inferInstance
macro_rules | `(tactic| keep1) => `(tactic| with_reducible exact sk_updatePoints)
theorem sk_reattach {a b c : Nat} {l : List (Option Nat)} : Keep (RowInv lo hi) (reattach a b c l) fun _ => True := by
  induction l with
  | nil => exact Keep.pure trivial
  | cons o l ih =>
    cases o <;> rw [reattach]
    · exact ih
    · keep; exact ih
macro_rules | `(tactic| keep1) => `(tactic| with_reducible exact sk_reattach)
theorem sk_appendRing {a b : Nat} : Keep (RowInv lo hi) (appendRing a b) fun _ => True := by
  unfold appendRing; keep
macro_rules | `(tactic| keep1) => `(tactic| with_reducible exact sk_appendRing)
theorem sk_addLocalMaximumPoint {a b : Nat} {p : Point} (hp : InR lo hi p.y) : Keep (RowInv lo hi) (addLocalMaximumPoint p a b) fun _ => True := by
  unfold addLocalMaximumPoint; keep
macro_rules | `(tactic| keep1) => `(tactic| with_reducible apply sk_addLocalMaximumPoint <;> keepside)

/-! ## Crossings -/

theorem sk_swapRings {a b : Nat} : Keep (RowInv lo hi) (swapRings a b) fun _ => True := by
  unfold swapRings; keep
macro_rules | `(tactic| keep1) => `(tactic| with_reducible exact sk_swapRings)
theorem sk_intersectBounds {op : OperationKind} {sf cf : FillKind} {a b : Nat} {p : Point} (hp : InR lo hi p.y) :
    Keep (RowInv lo hi) (intersectBounds p op sf cf a b) fun _ => True := by
  unfold intersectBounds
  refine Keep.bind sk_getBound fun _ _ => Keep.bind sk_getBound fun _ _ => ?_
  dsimp only
  keep
macro_rules | `(tactic| keep1) => `(tactic| with_reducible apply sk_intersectBounds <;> keepside)
theorem sk_sortActive : Keep (RowInv lo hi) sortActive fun _ => True := by unfold sortActive; keep
macro_rules | `(tactic| keep1) => `(tactic| with_reducible exact sk_sortActive)

/-- A crossing whose rounding lies between the rows. -/
def POk (lo hi : Int) (p : FPoint) : Prop := ∀ q, p.round = .ok q → InR lo hi q.y

theorem sk_crossingOf {a b : Nat} : Keep (RowInv lo hi) (crossingOf a b) (POk lo hi) := by
  unfold crossingOf
  refine Keep.bind sk_currentEdge fun e he => Keep.bind sk_currentEdge fun f _ => ?_
  split
  · exact Keep.raise
  · next p hp =>
    refine Keep.pure fun q hq => ?_
    obtain ⟨r, h1, h2⟩ := C29_rounded_crossing_in_box e f p he.bnd hp
    rw [h1] at hq
    cases hq
    obtain ⟨_, _, h3, h4⟩ := h2
    have := he.bot
    have := he.top
    simp only [Edge.box] at h3 h4
    unfold InR at *
    omega
macro_rules | `(tactic| keep1) => `(tactic| with_reducible exact sk_crossingOf)

theorem sk_buildGo {l : List (Nat × Nat)} {acc : List IntersectNode} (h : ∀ x ∈ acc, POk lo hi x.point) :
    Keep (RowInv lo hi) (buildIntersectList.go l acc) fun r => ∀ x ∈ r, POk lo hi x.point := by
  induction l generalizing acc with
  | nil => exact Keep.pure h
  | cons a l ih =>
    rw [buildIntersectList.go]
    refine Keep.bind sk_crossingOf fun p hp => ih ?_
    intro x hx
    rcases List.mem_append.1 hx with hx | hx
    · exact h x hx
    · simp only [List.mem_singleton] at hx; subst hx; exact hp
theorem sk_buildIntersectList : Keep (RowInv lo hi) buildIntersectList fun r => ∀ x ∈ r, POk lo hi x.point := by
  unfold buildIntersectList
  refine Keep.bind sk_sortActive fun r _ => ?_
  exact sk_buildGo (by simp)
theorem sk_crossingPosition {x : IntersectNode} : Keep (RowInv lo hi) (crossingPosition x) fun _ => True := by unfold crossingPosition; keep
macro_rules | `(tactic| keep1) => `(tactic| with_reducible exact sk_crossingPosition)
theorem sk_findFeasible {l : List IntersectNode} {k : Nat} : Keep (RowInv lo hi) (findFeasible l k) fun r => k ≤ r.1 ∧ r.1 < k + l.length := by
  induction l generalizing k with
  | nil => exact Keep.raise
  | cons a l ih =>
    rw [findFeasible]
    refine Keep.bind sk_crossingPosition fun _ _ => ?_
    dsimp only
    refine Keep.ite (fun _ => Keep.pure ⟨by simp, by simp⟩) fun _ => Keep.mono ih fun r hr => ?_
    simp only [List.length_cons]
    omega
theorem sk_processIntersectList {op : OperationKind} {sf cf : FillKind} {k : Nat} {l : List IntersectNode}
    (h : ∀ x ∈ l, POk lo hi x.point) : Keep (RowInv lo hi) (processIntersectList op sf cf k l) fun _ => True := by
  induction k generalizing l with
  | zero => cases l <;> exact Keep.pure trivial
  | succ k ih =>
    cases l with
    | nil => exact Keep.pure trivial
    | cons a l =>
      rw [processIntersectList]
      refine Keep.bind sk_crossingPosition fun pos _ => ?_
      dsimp only
      refine Keep.bind (P := fun (r : IntersectNode × List IntersectNode × Nat) => POk lo hi r.1.point ∧ ∀ x ∈ r.2.1, POk lo hi x.point) ?_ fun r hr => ?_
      · refine Keep.ite (fun _ => Keep.pure ⟨h a (by simp), fun x hx => h x (by simp [hx])⟩) fun _ => ?_
        refine Keep.bind sk_findFeasible fun kj hkj => ?_
        refine Keep.pure ⟨?_, ?_⟩
        · dsimp only
          rw [List.getD_eq_getElem?_getD, List.getElem?_eq_getElem (by omega : kj.1 < l.length), Option.getD_some]
          exact h _ (List.mem_cons_of_mem _ (List.getElem_mem _))
        · intro x hx
          rcases List.mem_or_eq_of_mem_set hx with hx | rfl
          · exact h x (by simp [hx])
          · exact h x (by simp)
      · refine Keep.bind Keep.liftE fun q hq => Keep.bind (sk_intersectBounds (hr.1 q hq)) fun _ _ => Keep.bind sk_ablSwap fun _ _ => ?_
        exact ih hr.2
theorem sk_processIntersections {op : OperationKind} {sf cf : FillKind} {y : Int} : Keep (RowInv lo hi) (processIntersections y op sf cf) fun _ => True := by
  unfold processIntersections
  refine Keep.bind (P := fun _ => True) (by keep) fun _ _ => Keep.ite (fun _ => by keep) fun _ => Keep.bind sk_updateCurrentX fun _ _ => ?_
  refine Keep.bind sk_buildIntersectList fun l hl => Keep.ite (fun _ => by keep) fun _ => Keep.bind (P := fun _ => True) (by keep) fun _ _ => ?_
  refine sk_processIntersectList fun x hx => hl x ?_
  exact (pySorted_perm' _ _).mem_iff.1 hx
macro_rules | `(tactic| keep1) => `(tactic| with_reducible exact sk_processIntersections)

end

end Wagyu
