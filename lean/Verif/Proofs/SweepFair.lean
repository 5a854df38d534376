import Verif.Proofs.SweepRunStep
import Verif.Spec.LocalMinima

/-!
# The active bounds and their partners, also when bounds end in horizontal edges
-/

namespace Wagyu

open Spec

/-- The bound ends in a horizontal edge. -/
def FlatTop (s0 : St) (b : Nat) : Prop := ∃ e, (s0.bounds b).edges.getLast? = some e ∧ e.isHorizontal = true

/-- What is known about the bounds before the sweep. -/
structure Mated (s0 : St) (A : List LocalMinimum) : Prop where
  opened : ∀ v ∈ A, v.left ≠ v.right ∧ Partners s0 v.left v.right ∧ (s0.bounds v.left).edges ≠ [] ∧ (s0.bounds v.right).edges ≠ []
  closed : ∀ b ∈ idsOf A, ∃ m, m ∈ idsOf A ∧ (s0.bounds b).maximumBound = some m ∧ (s0.bounds m).maximumBound = some b ∧ Partners s0 b m
  oneFlat : ∀ b ∈ idsOf A, ∀ m, (s0.bounds b).maximumBound = some m → FlatTop s0 b → ¬ FlatTop s0 m
  path : ∀ b ∈ idsOf A, Path (s0.bounds b).edges
  meet : ∀ b ∈ idsOf A, ∀ m, (s0.bounds b).maximumBound = some m → endOf (s0.bounds m).edges = endOf (s0.bounds b).edges

/-- The bound does not go above the row `y`. -/
def Topped (y : Int) (s0 : St) (b : Nat) : Prop := ∀ e, (s0.bounds b).edges.getLast? = some e → y ≤ e.top.y

/-- What holds at every moment of the sweep. -/
structure Walk (y : Int) (s0 : St) (A rest : List LocalMinimum) (s : St) : Prop where
  static : Static s0 s
  sub : ∀ m ∈ rest, m ∈ A
  nd : (idsOf rest).Nodup
  act : ∀ b ∈ act s, b ∈ idsOf A ∧ b ∉ idsOf rest
  nodup : (Wagyu.act s).Nodup
  idx : ∀ b ∈ Wagyu.act s, (s.bounds b).nxtIdx = (s.bounds b).curIdx + 1
  low : ∀ b ∈ Wagyu.act s, ∀ e, (s.bounds b).currentEdge? = some e → y ≤ e.bottom.y
  gone : ∀ c ∈ idsOf A, c ∉ Wagyu.act s → c ∉ idsOf rest → Topped y s0 c
  inside : ∀ b ∈ Wagyu.act s, (s.bounds b).curIdx < (s.bounds b).edges.length

/-- Active bounds are only exchanged and stay where they are. -/
structure Slots (s s' : St) : Prop where
  act : (act s').Perm (act s)
  edges : ∀ b, (s'.bounds b).edges = (s.bounds b).edges
  cur : ∀ b, (s'.bounds b).cur = (s.bounds b).cur
  nxt : ∀ b, (s'.bounds b).nxt = (s.bounds b).nxt

instance : Preo Slots where
  refl _ := ⟨.refl _, fun _ => rfl, fun _ => rfl, fun _ => rfl⟩
  trans h k := ⟨k.1.trans h.1, fun b => (k.2 b).trans (h.2 b), fun b => (k.3 b).trans (h.3 b), fun b => (k.4 b).trans (h.4 b)⟩

/-- Active bounds disappear together with their partner, or on a horizontal last edge. -/
structure Drops (s0 s s' : St) : Prop where
  sub : ∀ c ∈ act s', c ∈ act s
  gone : ∀ c ∈ act s, c ∉ act s' → (∃ m ∈ act s, (s0.bounds c).maximumBound = some m ∧ m ∉ act s') ∨ FlatTop s0 c

theorem Drops.refl (s0 s : St) : Drops s0 s s := ⟨fun _ h => h, fun _ h k => absurd h k⟩
theorem Drops.trans {s0 s s1 s2 : St} (h : Drops s0 s s1) (k : Drops s0 s1 s2) : Drops s0 s s2 := by
  refine ⟨fun c hc => h.sub c (k.sub c hc), fun c hc hn => ?_⟩
  by_cases h1 : c ∈ act s1
  · rcases k.gone c h1 hn with ⟨m, h2, h3, h4⟩ | h2
    · exact .inl ⟨m, h.sub m h2, h3, h4⟩
    · exact .inr h2
  · rcases h.gone c hc h1 with ⟨m, h2, h3, h4⟩ | h2
    · exact .inl ⟨m, h2, h3, fun h5 => h4 (k.sub m h5)⟩
    · exact .inr h2

theorem Slots.drops {s0 s s' : St} (h : Slots s s') : Drops s0 s s' :=
  ⟨fun _ hc => h.act.mem_iff.1 hc, fun _ hc hn => absurd (h.act.mem_iff.2 hc) hn⟩

theorem Slots.curIdx {s s' : St} (h : Slots s s') (b : Nat) : (s'.bounds b).curIdx = (s.bounds b).curIdx := by
  unfold Bound.curIdx; rw [h.cur, h.edges]
theorem Slots.nxtIdx {s s' : St} (h : Slots s s') (b : Nat) : (s'.bounds b).nxtIdx = (s.bounds b).nxtIdx := by
  unfold Bound.nxtIdx; rw [h.nxt, h.edges]
theorem Slots.edge {s s' : St} (h : Slots s s') (b : Nat) : (s'.bounds b).currentEdge? = (s.bounds b).currentEdge? := by
  unfold Bound.currentEdge?; rw [h.curIdx, h.edges]
theorem Slots.next {s s' : St} (h : Slots s s') (b : Nat) : (s'.bounds b).nextEdge? = (s.bounds b).nextEdge? := by
  unfold Bound.nextEdge?; rw [h.nxtIdx, h.edges]

theorem Slots.of_put {s s' : St} (h : s'.abl = s.abl) (k : Put s s') : Slots s s' :=
  ⟨by unfold Wagyu.act; rw [h], fun b => (k b).edges, fun b => (k b).cur, fun b => (k b).nxt⟩
theorem Still.slots {s s' : St} (h : Still s s') : Slots s s' := .of_put h.abl h.bound
theorem Slots.of_still {α : Type} {m : M α} (h : Pres Still m) : Pres Slots m := ⟨fun s => (h.pres s).slots⟩

theorem set_set_perm {α : Type} {l : List α} {i j : Nat} {a b : α} (hi : l[i]? = some a) (hj : l[j]? = some b) :
    ((l.set i b).set j a).Perm l := by
  obtain ⟨hi', rfl⟩ := List.getElem?_eq_some_iff.1 hi
  obtain ⟨hj', rfl⟩ := List.getElem?_eq_some_iff.1 hj
  exact List.set_set_perm hi' hj'

theorem Slots.swap {s : St} {i j : Nat} {a b : Option Nat} (hi : s.abl[i]? = some a) (hj : s.abl[j]? = some b) :
    Slots s { s with abl := (s.abl.set i b).set j a } :=
  ⟨(set_set_perm hi hj).filterMap _, fun _ => rfl, fun _ => rfl, fun _ => rfl⟩

instance Slots.i1 (i j : Nat) : Pres Slots (ablSwap i j) := by
  refine ⟨fun s => ?_⟩
  unfold ablSwap
  simp only [bind, M.bind, ablGet]
  cases hi : s.abl[i]? with
  | none => exact Preo.refl _
  | some a =>
    dsimp only
    cases hj : s.abl[j]? with
    | none => exact Preo.refl _
    | some b =>
      dsimp only
      exact Slots.swap hi hj

instance Slots.i2 (p : Point) (op : OperationKind) (sf cf : FillKind) (a b : Nat) : Pres Slots (intersectBounds p op sf cf a b) := Slots.of_still inferInstance
instance Slots.i3 (p : Point) (a b : Nat) : Pres Slots (addLocalMaximumPoint p a b) := Slots.of_still inferInstance
instance Slots.i4 (b : Nat) (p : Point) : Pres Slots (addPointToRing b p) := Slots.of_still inferInstance
instance Slots.i5 (b : Nat) (p : Point) (e : Bool) : Pres Slots (insertHotPixelsInPath b p e) := Slots.of_still inferInstance
instance Slots.i6 : Pres Slots ablFilter := ⟨fun s => ⟨.of_eq (filterMap_filter_some s.abl), fun _ => rfl, fun _ => rfl, fun _ => rfl⟩⟩
instance Slots.i7 (y : Int) : Pres Slots (insertScan y) := ⟨fun _ => ⟨.refl _, fun _ => rfl, fun _ => rfl, fun _ => rfl⟩⟩
theorem Slots.mod {b : Nat} {f : Bound → Bound} (h1 : ∀ bd, (f bd).edges = bd.edges) (h2 : ∀ bd, (f bd).cur = bd.cur) (h3 : ∀ bd, (f bd).nxt = bd.nxt) :
    Pres Slots (modBound b f) := by
  have key : ∀ (s : St) c, (upd s.bounds b (f (s.bounds b)) c).edges = (s.bounds c).edges ∧ (upd s.bounds b (f (s.bounds b)) c).cur = (s.bounds c).cur
      ∧ (upd s.bounds b (f (s.bounds b)) c).nxt = (s.bounds c).nxt := by
    intro s c
    by_cases hc : c = b
    · subst hc; rw [Wagyu.upd_same]; exact ⟨h1 _, h2 _, h3 _⟩
    · rw [upd_ne _ _ hc]; exact ⟨rfl, rfl, rfl⟩
  exact ⟨fun s => ⟨.refl _, fun c => (key s c).1, fun c => (key s c).2.1, fun c => (key s c).2.2⟩⟩
instance Slots.i8 (op : OperationKind) (sf cf : FillKind) (m i : Nat) : Pres Slots (maximaLoop op sf cf m i) := by unfold maximaLoop; pres
instance Slots.i9 (y : Int) : Pres Slots (updateCurrentX y) := by
  unfold updateCurrentX
  refine Pres.bind ⟨fun _ => Preo.refl _⟩ fun abl => Pres.forElse (fun i => ?_) (fun _ => inferInstance) _ _
  refine Pres.bind inferInstance fun b => Pres.bind (Slots.mod (fun _ => rfl) (fun _ => rfl) fun _ => rfl) fun _ => ?_
  refine Pres.bind inferInstance fun e => Pres.bind (Slots.mod (fun _ => rfl) (fun _ => rfl) fun _ => rfl) fun _ => inferInstance
instance Slots.i10 (op : OperationKind) (sf cf : FillKind) (n : Nat) (l : List IntersectNode) : Pres Slots (processIntersectList op sf cf n l) := by
  induction n generalizing l with
  | zero => unfold processIntersectList; pres
  | succ n ih => 
    cases l with
    | nil => unfold processIntersectList; pres
    | cons a l => have := fun l => ih l; unfold processIntersectList; pres
instance Slots.i11 (y : Int) (op : OperationKind) (sf cf : FillKind) : Pres Slots (processIntersections y op sf cf) := by
  unfold processIntersections; pres

section
variable {op : OperationKind} {sf cf : FillKind} {s0 : St} {A rest : List LocalMinimum} {s : St} {α β : Type} {y : Int}

theorem InputKept.static {s s' : St} (h : InputKept s s') : Static s s' := fun b => ⟨(h b).kind, (h b).delta, (h b).partner, (h b).edges⟩

theorem Walk.slots {s' : St} (h : Walk y s0 A rest s) (k : Slots s s') (k' : Static s s') : Walk y s0 A rest s' where
  static := h.static.trans k'
  sub := h.sub
  nd := h.nd
  act b hb := h.act b (k.act.mem_iff.1 hb)
  nodup := k.act.nodup_iff.2 h.nodup
  idx b hb := by rw [k.nxtIdx, k.curIdx]; exact h.idx b (k.act.mem_iff.1 hb)
  low b hb e he := by rw [k.edge] at he; exact h.low b (k.act.mem_iff.1 hb) e he
  gone c hc hn hr := h.gone c hc (fun h' => hn (k.act.mem_iff.2 h')) hr
  inside b hb := by rw [k.curIdx, k.edges]; exact h.inside b (k.act.mem_iff.1 hb)

theorem Topped.le {y' : Int} {b : Nat} (h : Topped y s0 b) (k : y' ≤ y) : Topped y' s0 b := fun e he => k.trans (h e he)

/-- Both partners end at the same point. -/
theorem Topped.mate (hM : Mated s0 A) {b m : Nat} (h : Topped y s0 b) (hb : b ∈ idsOf A) (hm : (s0.bounds b).maximumBound = some m) : Topped y s0 m := by
  intro e he
  have := hM.meet b hb m hm
  unfold endOf at this
  rw [he] at this
  cases hl : (s0.bounds b).edges.getLast? with
  | none => rw [hl] at this; cases this
  | some f =>
    rw [hl] at this
    have := Option.some.inj this
    rw [this]
    exact h f hl

theorem Walk.lower {y' : Int} (h : Walk y s0 A rest s) (k : y' ≤ y) : Walk y' s0 A rest s :=
  ⟨h.static, h.sub, h.nd, h.act, h.nodup, h.idx, fun b hb e he => k.trans (h.low b hb e he), fun c hc hn hr => (h.gone c hc hn hr).le k, h.inside⟩

/-- On its last edge, which ends on the row `y`. -/
theorem Walk.topped {b : Nat} (h : Walk y s0 A rest s) (hb : b ∈ Wagyu.act s) {e : Edge} (he : (s.bounds b).currentEdge? = some e)
    (hl : ¬ (s.bounds b).nxtIdx < (s.bounds b).edges.length) (hy : y ≤ e.top.y) : Topped y s0 b := by
  intro f hf
  rw [List.getLast?_eq_getElem?, ← h.static.edges b] at hf
  have hlt := (List.getElem?_eq_some_iff.1 he).1
  have := h.idx b hb
  have : (s.bounds b).edges.length - 1 = (s.bounds b).curIdx := by omega
  rw [this] at hf
  have he : (s.bounds b).edges[(s.bounds b).curIdx]? = some e := he
  rw [he] at hf
  rw [← Option.some.inj hf]; exact hy
theorem Walk.run (h : Walk y s0 A rest s) (h' : Reached op sf cf s) : Run op sf cf s0 A rest s :=
  ⟨h', h.static, h.sub, h.nd, h.act, h.idx⟩

/-- A statement that only exchanges active bounds. -/
theorem Walk.stay {m : M α} [h1 : Pres Slots m] [h2 : Pres InputKept m] {Q : α → St → Prop} (h : Walk y s0 A rest s)
    (k : ∀ a s', Walk y s0 A rest s' → Slots s s' → Q a s') : Ok m s Q := by
  refine Ok.intro fun a s' e => ?_
  have hs : Slots s s' := by have := h1.pres s; rw [e] at this; exact this
  have hp : InputKept s s' := by have := h2.pres s; rw [e] at this; exact this
  exact k a s' (h.slots hs hp.static) hs

theorem Ok.look {m : M α} [h1 : Pres Eq m] {Q : α → St → Prop} (k : ∀ a, m s = .ok a s → Q a s) : Ok m s Q := by
  refine Ok.intro fun a s' e => ?_
  have : s = s' := by have := h1.pres s; rw [e] at this; exact this
  subst this
  exact k a e

theorem Ok.only {m : M α} {Q : α → St → Prop} {E : Err → St → Prop} (h : Post m s Q E) : Ok m s Q := h.mono (fun _ _ h => h) fun _ _ _ => trivial

/-- A bound goes to its next edge. -/
theorem Walk.next {b : Nat} {Q : Unit → St → Prop} (h : Walk y s0 A rest s) (hb : b ∈ Wagyu.act s) (hn : (s.bounds b).nxtIdx < (s.bounds b).edges.length)
    (hy : ∀ f, (s.bounds b).nextEdge? = some f → y ≤ f.bottom.y)
    (k : ∀ s', Walk y s0 A rest s' → s'.abl = s.abl → (∀ c, c ≠ b → s'.bounds c = s.bounds c) → (s'.bounds b).edges = (s.bounds b).edges →
      (s'.bounds b).currentEdge? = (s.bounds b).nextEdge? → (s'.bounds b).curIdx = (s.bounds b).curIdx + 1 → Q () s') : Ok (toNextEdge b) s Q := by
  have hi := h.idx b hb
  have hlt : (s.bounds b).curIdx + 1 < (s.bounds b).edges.length := by omega
  refine Post.run (run_toNextEdge_next (List.getElem?_eq_getElem hlt)) ?_
  generalize (s.bounds b).edges[(s.bounds b).curIdx + 1] = f
  generalize hB : ({ s.bounds b with cur := some ((s.bounds b).curIdx + 1), nxt := (if (s.bounds b).nxtIdx + 1 < (s.bounds b).edges.length then some ((s.bounds b).nxtIdx + 1) else none), currentX := F64.ofInt f.bottom.x } : Bound) = B
  have Be : B.edges = (s.bounds b).edges := by rw [← hB]
  have Bc : B.curIdx = (s.bounds b).curIdx + 1 := by rw [← hB]; rfl
  have Bn : B.nxtIdx = B.curIdx + 1 := by
    rw [Bc, ← hB]
    have := nxtIdx_setNxt { s.bounds b with cur := some ((s.bounds b).curIdx + 1), currentX := F64.ofInt f.bottom.x } (v := (s.bounds b).nxtIdx + 1)
      (by show (s.bounds b).nxtIdx + 1 ≤ (s.bounds b).edges.length; omega)
    rw [hi] at this
    rw [hi]
    exact this
  have Bco : core B = core (s.bounds b) := by rw [← hB]; rfl
  have hco : ∀ c, core (upd s.bounds b B c) = core (s.bounds c) := by
    intro c
    by_cases e : c = b
    · subst e; rw [Wagyu.upd_same]; exact Bco
    · rw [upd_ne _ _ e]
  refine k _ ⟨h.static.trans fun c => ⟨core_kind (hco c), core_delta (hco c), core_max (hco c), core_edges (hco c)⟩, h.sub, h.nd, h.act, h.nodup, fun c hc => ?_, fun c hc e he => ?_, h.gone, fun c hc => ?_⟩
    rfl (fun c hc => upd_ne _ _ hc) ?_ ?_ ?_
  · show Bound.nxtIdx (upd _ _ _ c) = Bound.curIdx (upd _ _ _ c) + 1
    by_cases e : c = b
    · subst e; rw [Wagyu.upd_same]; exact Bn
    · rw [upd_ne _ _ e]; exact h.idx c hc
  · have he : Bound.currentEdge? (upd _ _ _ c) = some e := he
    by_cases e' : c = b
    · subst e'
      rw [Wagyu.upd_same] at he
      refine hy e ?_
      unfold Bound.currentEdge? at he
      rw [Bc, Be] at he
      unfold Bound.nextEdge?
      rw [hi]; exact he
    · rw [upd_ne _ _ e'] at he; exact h.low c hc e he
  · show Bound.curIdx (upd _ _ _ c) < (Bound.edges (upd _ _ _ c)).length
    by_cases e : c = b
    · subst e; rw [Wagyu.upd_same, Bc, Be]; exact hlt
    · rw [upd_ne _ _ e]; exact h.inside c hc
  · show Bound.edges (upd _ _ _ b) = _
    rw [Wagyu.upd_same]; exact Be
  · show Bound.currentEdge? (upd _ _ _ b) = _
    rw [Wagyu.upd_same]
    unfold Bound.currentEdge? Bound.nextEdge?
    rw [Bc, Be, hi]
  · show Bound.curIdx (upd _ _ _ b) = _
    rw [Wagyu.upd_same, Bc]

/-! ## Removing bounds -/

theorem mem_set_none {l : List (Option Nat)} (hnd : (l.filterMap id).Nodup) {i c : Nat} (hi : l[i]? = some (some c)) (x : Nat) :
    some x ∈ l.set i none ↔ some x ∈ l ∧ x ≠ c := by
  obtain ⟨hlt, hc⟩ := List.getElem?_eq_some_iff.1 hi
  have hl : l = l.take i ++ some c :: l.drop (i + 1) := by
    rw [← hc, List.getElem_cons_drop, List.take_append_drop]
  have hs : l.set i none = l.take i ++ none :: l.drop (i + 1) := by
    rw [List.set_eq_take_append_cons_drop, if_pos hlt]
  rw [hl, List.filterMap_append, List.filterMap_cons, List.nodup_append] at hnd
  simp only [id, List.nodup_cons] at hnd
  obtain ⟨-, ⟨h1, -⟩, h2⟩ := hnd
  rw [hs]
  conv_rhs => rw [hl]
  simp only [List.mem_append, List.mem_cons, Option.some.injEq, reduceCtorEq, false_or]
  have h1' : some c ∉ l.drop (i + 1) := fun h => h1 (by simpa using h)
  have h2' : some c ∉ l.take i := fun h => h2 c (by simpa using h) c (by simp) rfl
  constructor
  · rintro (h | h)
    · exact ⟨.inl h, fun e => h2' (e ▸ h)⟩
    · exact ⟨.inr (.inr h), fun e => h1' (e ▸ h)⟩
  · rintro ⟨h | h | h, h'⟩
    · exact .inl h
    · exact absurd h h'
    · exact .inr h

theorem nodup_set_none {l : List (Option Nat)} (hnd : (l.filterMap id).Nodup) (i : Nat) : ((l.set i none).filterMap id).Nodup := by
  refine hnd.sublist ?_
  induction l generalizing i with
  | nil => simp
  | cons o l ih =>
    cases i with
    | zero =>
      cases o with
      | none => simp
      | some c => simpa using List.sublist_cons_self c _
    | succ i =>
      cases o with
      | none => simpa using ih (by simpa using hnd) i
      | some c => simpa using ih (by simp at hnd; simpa using hnd.2) i

theorem Walk.sub' {s' : St} (h : Walk y s0 A rest s) (hb : s'.bounds = s.bounds) (hm : ∀ c ∈ Wagyu.act s', c ∈ Wagyu.act s) (hn : (Wagyu.act s').Nodup)
    (hg : ∀ c ∈ Wagyu.act s, c ∉ Wagyu.act s' → Topped y s0 c) : Walk y s0 A rest s' :=
  ⟨by have := h.static; intro b; rw [hb]; exact this b, h.sub, h.nd, fun b hb' => h.act b (hm b hb'), hn, fun b hb' => by rw [hb]; exact h.idx b (hm b hb'),
    fun b hb' e he => by rw [hb] at he; exact h.low b (hm b hb') e he,
    fun c hc hn hr => by
      by_cases hca : c ∈ Wagyu.act s
      · exact hg c hca hn
      · exact h.gone c hc hca hr,
    fun b hb' => by rw [hb]; exact h.inside b (hm b hb')⟩

/-- A pair of partners ends. -/
theorem Walk.pair {i j c m : Nat} (h : Walk y s0 A rest s) (hi : s.abl[i]? = some (some c)) (hj : s.abl[j]? = some (some m)) (hij : i ≠ j)
    (h1 : (s0.bounds c).maximumBound = some m) (h2 : (s0.bounds m).maximumBound = some c) (t1 : Topped y s0 c) (t2 : Topped y s0 m) :
    Walk y s0 A rest { s with abl := (s.abl.set i none).set j none } ∧ Drops s0 s { s with abl := (s.abl.set i none).set j none } := by
  have hn := h.nodup
  have hn1 := nodup_set_none hn i
  have hn2 := nodup_set_none hn1 j
  have hj' : (s.abl.set i none)[j]? = some (some m) := by rw [List.getElem?_set_ne hij]; exact hj
  have hm : ∀ x, x ∈ Wagyu.act { s with abl := (s.abl.set i none).set j none } ↔ (x ∈ Wagyu.act s ∧ x ≠ c) ∧ x ≠ m := by
    intro x
    rw [mem_act, mem_act]
    show some x ∈ (s.abl.set i none).set j none ↔ _
    rw [mem_set_none hn1 hj', mem_set_none hn hi]
  have hgo : ∀ x ∈ Wagyu.act s, x ∉ Wagyu.act { s with abl := (s.abl.set i none).set j none } → Topped y s0 x := by
    intro x hx hx'
    rw [hm] at hx'
    by_cases e : x = c
    · rw [e]; exact t1
    · have e' : x = m := by by_contra e'; exact hx' ⟨⟨hx, e⟩, e'⟩
      rw [e']; exact t2
  refine ⟨h.sub' rfl (fun x hx => ((hm x).1 hx).1.1) hn2 hgo, fun x hx => ((hm x).1 hx).1.1, fun x hx hx' => .inl ?_⟩
  rw [hm] at hx'
  by_cases e : x = c
  · subst e
    exact ⟨m, mem_act.2 (List.mem_of_getElem? hj), h1, fun h => ((hm m).1 h).2 rfl⟩
  · have e' : x = m := by by_contra e'; exact hx' ⟨⟨hx, e⟩, e'⟩
    subst e'
    exact ⟨c, mem_act.2 (List.mem_of_getElem? hi), h2, fun h => ((hm c).1 h).1.2 rfl⟩

/-- A bound ends alone. -/
theorem Walk.alone {i c : Nat} (h : Walk y s0 A rest s) (hi : s.abl[i]? = some (some c)) (hf : FlatTop s0 c) (ht : Topped y s0 c) :
    Walk y s0 A rest { s with abl := s.abl.set i none } ∧ Drops s0 s { s with abl := s.abl.set i none }
    ∧ ∀ x, x ∈ Wagyu.act { s with abl := s.abl.set i none } ↔ x ∈ Wagyu.act s ∧ x ≠ c := by
  have hm : ∀ x, x ∈ Wagyu.act { s with abl := s.abl.set i none } ↔ x ∈ Wagyu.act s ∧ x ≠ c := by
    intro x
    rw [mem_act, mem_act]
    exact mem_set_none h.nodup hi x
  refine ⟨h.sub' rfl (fun x hx => ((hm x).1 hx).1) (nodup_set_none h.nodup i) ?_, ⟨fun x hx => ((hm x).1 hx).1, fun x hx hx' => .inr ?_⟩, hm⟩
  · intro x hx hx'
    rw [hm] at hx'
    have : x = c := by by_contra e; exact hx' ⟨hx, e⟩
    exact this ▸ ht
  · rw [hm] at hx'
    have : x = c := by by_contra e; exact hx' ⟨hx, e⟩
    exact this ▸ hf

end

end Wagyu
