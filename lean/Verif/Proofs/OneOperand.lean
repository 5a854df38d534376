import Verif.Proofs.Idle
import Verif.Proofs.TwoRun
import Verif.Spec.PlaneWinding

/-!
# Operations on one polygon only
-/

namespace Wagyu

/-- Two operations on an object that holds only subject rings. -/
def soloCfg (op op' : OperationKind) (sf cf cf' : FillKind) : Cfg where
  κ := id
  I k o := k = .subject ∧ o = 0
  op := op
  op' := op'
  sf := sf
  sf' := sf
  cf := cf
  cf' := cf'
  copy h h' := ⟨h.1, h'.2⟩
  zero h := ⟨h.1, rfl⟩

section
variable {op op' : OperationKind} {sf cf cf' : FillKind}

theorem soloCfg_φ (b : Bound) : (soloCfg op op' sf cf cf').φ b = b := rfl

theorem via_found {c : Cfg} {l : List (Option Nat)} {β : Type} {F F' : Option Nat × List Nat → M β} {k : PolygonKind}
    (hk : ∀ {k' o}, c.I k' o → k' = k) (hκ : c.κ k = k) (h : ∀ o, Via c (F (o, [])) (F' (o, []))) :
    Via c (findSameKind k l [] >>= F) (findSameKind k l [] >>= F') := by
  cases l with
  | nil => exact h none
  | cons b l =>
    rw [findSameKind, M.assoc, M.assoc]
    refine Via.bind inferInstance fun i => ?_
    rw [M.assoc, M.assoc]
    refine Via.getBound fun bd hb => ?_
    have h1 : bd.polygonKind = k := hk hb
    have h2 : (c.φ bd).polygonKind = k := by show c.κ bd.polygonKind = k; rw [h1, hκ]
    rw [if_pos h1, if_pos h2]
    exact h (some i)

theorem Via.retBind {c : Cfg} {α β : Type} {a : α} {f f' : α → M β} (h : Via c (f a) (f' a)) :
    Via c ((Pure.pure a : M α) >>= f) ((Pure.pure a : M α) >>= f') := h

theorem solo_wind (i : Nat) : Via (soloCfg op op' sf cf cf') (setWindingCount i sf cf) (setWindingCount i sf cf') := by
  unfold setWindingCount
  refine Via.bind (by via) fun o => Via.bind (by via) fun b => Via.getBound fun bd hb => Via.ite rfl ?_ ?_
  · exact Via.modBound fun b h => ⟨rfl, h.1, rfl⟩
  · refine Via.bind (by via) fun abl => ?_
    rw [soloCfg_φ, hb.1]
    refine via_found (fun h => h.1) rfl fun prev => ?_
    have e : bd.isEvenOddFillKind sf cf' = bd.isEvenOddFillKind sf cf := by
      unfold Bound.isEvenOddFillKind
      rw [if_pos hb.1, if_pos hb.1]
    rw [e]
    cases prev with
    | none => exact Via.retBind (Via.getBounds fun bs _ => Via.modBound fun b h => ⟨rfl, h.1, rfl⟩)
    | some p =>
      dsimp only
      rw [M.assoc, M.assoc]
      refine Via.getBound fun pd ho => ?_
      rw [soloCfg_φ, ho.2]
      split
      · exact Via.retBind (Via.getBounds fun bs _ => Via.modBound fun b h => ⟨rfl, h.1, rfl⟩)
      · exact Via.retBind (Via.getBounds fun bs _ => Via.modBound fun b h => ⟨rfl, h.1, rfl⟩)

theorem solo_starts {op : OperationKind} (h : op ≠ .intersection) (f : FillKind) :
    crossStarts op .subject (normWinding f 0) (normWinding f 0) = true := by
  cases op with
  | intersection => exact (h rfl).elim
  | _ => cases f <;> rfl

theorem solo_contributes {op : OperationKind} (h : op ≠ .intersection) (b : Bound) (hb : b.polygonKind = .subject ∧ b.oppositeWindingCount = 0) :
    b.isContributing op sf cf = b.isContributing .xor sf cf' := by
  unfold Bound.isContributing Bound.fillKind Bound.oppositeFillKind
  rw [if_pos hb.1, if_pos hb.1, if_pos hb.1, hb.2]
  cases op with
  | intersection => exact (h rfl).elim
  | xor => rfl
  | _ => simp only [if_pos hb.1]; cases cf <;> rfl

theorem solo_meet (h : op ≠ .intersection) (h' : op' ≠ .intersection) (p : Point) (a b : Nat) :
    Via (soloCfg op op' sf cf cf') (intersectBounds p op sf cf a b) (intersectBounds p op' sf cf' a b) := by
  unfold intersectBounds
  refine Via.getBound fun f hf => Via.getBound fun s hs => ?_
  rw [soloCfg_φ, soloCfg_φ]
  have hc : crossWinding f s sf cf' = crossWinding f s sf cf := by
    unfold crossWinding Bound.isEvenOddFillKind
    rw [if_pos (hf.1.trans hs.1.symm), if_pos (hf.1.trans hs.1.symm), if_pos hf.1, if_pos hf.1]
  have hz : (crossWinding f s sf cf).2.1 = 0 ∧ (crossWinding f s sf cf).2.2.2 = 0 := by
    unfold crossWinding
    rw [if_pos (hf.1.trans hs.1.symm)]
    split <;> exact ⟨hf.2, hs.2⟩
  rw [hc]
  revert hz
  generalize crossWinding f s sf cf = q
  obtain ⟨fwc, fowc, swc, sowc⟩ := q
  rintro ⟨h1, h2⟩
  dsimp only at h1 h2 ⊢
  subst h1 h2
  have e1 : ∀ (b : Bound) (g : FillKind), b.polygonKind = .subject → b.fillKind sf g = sf := fun b g h => by unfold Bound.fillKind; rw [if_pos h]
  have e2 : ∀ (b : Bound) (g : FillKind), b.polygonKind = .subject → b.oppositeFillKind sf g = g := fun b g h => by unfold Bound.oppositeFillKind; rw [if_pos h]
  rw [e1 f cf hf.1, e1 f cf' hf.1, e1 s cf hs.1, e1 s cf' hs.1, e2 f cf hf.1, e2 f cf' hf.1, e2 s cf hs.1, e2 s cf' hs.1, hf.1, hs.1]
  simp only [ne_eq, not_true_eq_false, decide_false, Bool.false_and, Bool.or_false, if_false, solo_starts h, solo_starts h']
  refine Via.bind (Via.modBound fun b h => ⟨rfl, h.1, rfl⟩) fun _ => Via.bind (Via.modBound fun b h => ⟨rfl, h.1, rfl⟩) fun _ => ?_
  via

theorem solo_good (h : op ≠ .intersection) (h' : op' ≠ .intersection) : (soloCfg op op' sf cf cf').Good where
  wind := solo_wind
  meet := solo_meet h h'
  contributes b hb := (solo_contributes (cf' := cf') h' b hb).trans (solo_contributes (cf' := cf') h b hb).symm

end

/-! ## Nothing to correct -/

/-- No rings. -/
structure Nought (s : St) : Prop where
  nr : s.nr = 0
  nodes : s.allNodes = []
  children : s.children = []

/-- Without rings `m` returns `a`, if it returns, and makes none. -/
def Noughts {α : Type} (m : M α) (a : α) : Prop := ∀ s, Nought s → match m s with
  | .ok r s' => r = a ∧ Nought s'
  | .err e _ => e = .fuel ∨ e = .recursion

theorem Noughts.pure {α : Type} (a : α) : Noughts (Pure.pure a : M α) a := fun _ h => ⟨rfl, h⟩

theorem Noughts.bind {α β : Type} {m : M α} {a : α} {f : α → M β} {b : β} (h : Noughts m a) (h' : Noughts (f a) b) : Noughts (m >>= f) b := by
  intro s hs
  have := h s hs
  show match (match m s with | .ok a s => f a s | .err e s => .err e s : Res β) with
    | .ok r s' => r = b ∧ Nought s'
    | .err e _ => e = .fuel ∨ e = .recursion
  revert this
  cases m s with
  | ok r s' => rintro ⟨rfl, hs'⟩; exact h' s' hs'
  | err e s' => exact fun h => h

theorem noughts_sortAllNodes : Noughts sortAllNodes () := by
  rintro s ⟨h1, h2, h3⟩
  have : sortAllNodes s = .ok () { s with allNodes := (pySorted nodeLt []).map Prod.fst } := by
    cases s; subst h2; rfl
  rw [this]
  exact ⟨rfl, h1, rfl, h3⟩

theorem noughts_orientations : Noughts correctOrientations () := by
  rintro s ⟨h1, h2, h3⟩
  have : correctOrientations s = .ok () s := by cases s; subst h1; rfl
  rw [this]; exact ⟨rfl, h1, h2, h3⟩

theorem noughts_collinear : Noughts correctCollinearEdges () := by
  rintro s ⟨h1, h2, h3⟩
  have : correctCollinearEdges s = .ok () s := by cases s; subst h2; rfl
  rw [this]; exact ⟨rfl, h1, h2, h3⟩

theorem noughts_chained : Noughts correctChainedRings () := by
  rintro s ⟨h1, h2, h3⟩
  have : correctChainedRings s = .ok () s := by cases s; subst h2; rfl
  rw [this]; exact ⟨rfl, h1, h2, h3⟩

theorem noughts_self (b : Bool) : Noughts (correctSelfIntersections b) false := by
  rintro s ⟨h1, h2, h3⟩
  have : correctSelfIntersections b s = .ok false s := by cases s; subst h1; rfl
  rw [this]; exact ⟨rfl, h1, h2, h3⟩

theorem noughts_tree : Noughts correctTree () := by
  rintro s ⟨h1, h2, h3⟩
  have : correctTree s = .ok () s := by cases s; subst h1; rfl
  rw [this]; exact ⟨rfl, h1, h2, h3⟩

theorem noughts_topology : Noughts correctTopology () := by
  unfold correctTopology
  refine noughts_sortAllNodes.bind <| noughts_orientations.bind <| noughts_collinear.bind <| (noughts_self false).bind <| noughts_tree.bind ?_
  intro s hs
  unfold loopM
  cases s.fuel with
  | zero => exact Or.inl rfl
  | succ n =>
    rw [iter]
    have := Noughts.bind (f := fun b : Bool => if b = true then (Pure.pure (.inl ()) : M (Unit ⊕ Unit)) else Pure.pure (.inr ())) (b := .inr ())
      (noughts_chained.bind (f := fun _ => correctSelfIntersections true) (noughts_self true)) (Noughts.pure _)
    rw [M.assoc] at this
    refine Noughts.bind this ?_ s hs
    exact Noughts.pure ()

theorem noughts_build (rev : Bool) : Noughts (buildResult rev) [] := by
  rintro s ⟨h1, h2, h3⟩
  unfold buildResult
  have e : (gets St.children >>= fun children => gets St.fuel >>= fun fuel => ringsToPolygons rev fuel children : M Multipolygon) s
      = ringsToPolygons rev s.fuel s.children s := rfl
  rw [e, h3]
  cases s.fuel with
  | zero => exact Or.inr rfl
  | succ n => exact ⟨rfl, h1, h2, h3⟩

/-! ## Objects that hold rings of one polygon only -/

/-- All bounds that are in use belong to polygon `k`. -/
def OnlyKind (k : PolygonKind) (m : Minimums) : Prop := ∀ b, (m.bounds b).edges ≠ [] → (m.bounds b).polygonKind = k

theorem only_upd {k : PolygonKind} {f : Nat → Bound} (h : ∀ b, (f b).edges ≠ [] → (f b).polygonKind = k) {i : Nat} {x : Bound}
    (hx : x.edges ≠ [] → x.polygonKind = k) (b : Nat) : (upd f i x b).edges ≠ [] → (upd f i x b).polygonKind = k := by
  by_cases e : b = i
  · subst e; rw [upd_same]; exact hx
  · rw [upd_ne _ _ e]; exact h b

theorem only_link {k : PolygonKind} {x : Bound} {o : Option Nat} (h : x.edges ≠ [] → x.polygonKind = k) :
    ({ x with maximumBound := o } : Bound).edges ≠ [] → ({ x with maximumBound := o } : Bound).polygonKind = k := h

theorem addLoop_only (kind : PolygonKind) (fuel : Nat) (edges : List Edge) (first last : Option Nat) (m : Minimums) (h : OnlyKind kind m) :
    OnlyKind kind (addLoop kind fuel edges first last m).1 := by
  induction fuel generalizing edges first last m with
  | zero => cases edges <;> exact h
  | succ fuel ih =>
    unfold addLoop
    cases edges with
    | nil => exact h
    | cons e es =>
      simp only
      split
      · exact h
      · split
        · exact h
        · split
          · split
            · exact h
            · refine ih _ _ _ _ fun b => ?_
              have hB : ∀ (p q : Bound), p.polygonKind = kind → q.polygonKind = kind → ∀ b,
                  (upd (upd m.bounds m.nb p) (m.nb + 1) q b).edges ≠ [] → (upd (upd m.bounds m.nb p) (m.nb + 1) q b).polygonKind = kind :=
                fun p q hp hq => only_upd (only_upd h fun _ => hp) fun _ => hq
              simp only
              split
              · refine hB _ _ ?_ ?_ b <;> rfl
              · refine only_upd (hB _ _ ?_ ?_) (only_link (hB _ _ ?_ ?_ _)) b <;> rfl
          · exact h

theorem addLinearRing_only (fuel : Nat) (m : Minimums) (ring : List Point) (kind : PolygonKind) (h : OnlyKind kind m) :
    OnlyKind kind (m.addLinearRing fuel ring kind).1 := by
  unfold Minimums.addLinearRing
  split
  · exact h
  · exact h
  · next e es he =>
    dsimp only
    have h1 := addLoop_only kind (toEdgesStartingOnLocalMaximum (e :: es)).length (toEdgesStartingOnLocalMaximum (e :: es)) none none m h
    revert h1
    generalize addLoop kind (toEdgesStartingOnLocalMaximum (e :: es)).length (toEdgesStartingOnLocalMaximum (e :: es)) none none m = r
    intro h1
    obtain ⟨n, r⟩ := r
    rcases r with e | ⟨f | f, l | l⟩
    · exact h1
    · exact h1
    · exact h1
    · exact h1
    · exact fun b => only_upd (only_upd h1 (only_link (h1 _))) (only_link (only_upd h1 (only_link (h1 _)) _)) b

theorem addPolygonFrom_only (fuel : Nat) (kind : PolygonKind) : ∀ (rings : Polygon) (w : Wagyu) (r : Bool), OnlyKind kind w.minimums →
    OnlyKind kind (w.addPolygonFrom fuel r kind rings).1.minimums := by
  intro rings
  induction rings with
  | nil => intro w r h; exact h
  | cons ring rings ih =>
    intro w r h
    have h1 := addLinearRing_only fuel _ ring kind h
    rw [Wagyu.addPolygonFrom]
    unfold Wagyu.addLinearRing
    revert h1
    generalize w.minimums.addLinearRing fuel ring kind = x
    intro h1
    obtain ⟨m, x⟩ := x
    rcases x with e | b
    · exact h1
    · exact ih _ _ h1

theorem execute_only (fuel : Nat) (w : Wagyu) (op : OperationKind) (sf cf : FillKind) {k : PolygonKind} (h : OnlyKind k w.minimums) :
    OnlyKind k (w.execute fuel op sf cf).1.minimums := by
  obtain ⟨_, _, _, h4⟩ := execute_input fuel w op sf cf
  intro b hb
  rw [(h4 b).edges] at hb
  rw [(h4 b).kind]
  exact h b hb

open Spec in
theorem calls_only (fuel : Nat) (k : PolygonKind) : ∀ (cs : List Call) (w : Wagyu) (held : List LinearRing),
    (held = [] → OnlyKind k w.minimums) → heldKindAfter (otherKind k) held cs = [] → OnlyKind k (w.calls fuel cs).1.minimums := by
  intro cs
  induction cs with
  | nil => intro w held h hc; exact h hc
  | cons c cs ih =>
    intro w held h hc
    cases c with
    | addLinearRing ring kind =>
      rw [heldKindAfter] at hc
      refine ih _ _ (fun he => ?_) hc
      by_cases e : kind = otherKind k
      · rw [if_pos e] at he; simp at he
      · rw [if_neg e] at he
        obtain rfl : kind = k := by revert e; cases kind <;> cases k <;> simp [otherKind]
        exact addLinearRing_only fuel _ ring kind (h he)
    | addPolygon polygon kind =>
      rw [heldKindAfter] at hc
      refine ih _ _ (fun he => ?_) hc
      by_cases e : kind = otherKind k
      · rw [if_pos e] at he
        obtain ⟨hh, rfl⟩ : held = [] ∧ polygon = [] := List.append_eq_nil_iff.1 he
        exact h hh
      · rw [if_neg e] at he
        obtain rfl : kind = k := by revert e; cases kind <;> cases k <;> simp [otherKind]
        exact addPolygonFrom_only fuel kind polygon w false (h he)
    | clear =>
      refine ih _ _ (fun _ => ?_) hc
      show OnlyKind k w.clear.minimums
      rw [clear_eq]
      exact fun b hb => (hb rfl).elim
    | execute op sf cf => exact ih _ _ (fun he => execute_only fuel w op sf cf (h he)) hc

/-- The bounds as belonging to polygon `k`, and cleared. -/
def cleanHeap (k : PolygonKind) (f : Nat → Bound) (b : Nat) : Bound :=
  { f b with polygonKind := k, oppositeWindingCount := 0, ring := none }

/-- What the caller sees. -/
def Res.reply {α : Type} : Res α → Except Err α
  | .ok a _ => .ok a
  | .err e _ => .error e

theorem execute_clean (fuel : Nat) (w : Wagyu) (op : OperationKind) (sf cf : FillKind) {k : PolygonKind} (he : HasEdges w.minimums)
    (h : OnlyKind k w.minimums) (hv : w.minimums.values ≠ []) :
    (w.execute fuel op sf cf).2 = (runOperation w.minimums w.reverseOutput op sf cf (St.init fuel (cleanHeap k w.minimums.bounds))).reply := by
  unfold Wagyu.execute
  rw [if_neg hv]
  have key := two_runOperation (m := w.minimums) (m' := w.minimums) (rev := w.reverseOutput) (op := op) (sf := sf) (cf := cf)
    (s := St.init fuel w.minimums.bounds) (t := St.init fuel (cleanHeap k w.minimums.bounds)) rfl
    (fun v hv => (he v hv).2.2) rfl (fun b => ⟨rfl, fun hn => ⟨rfl, rfl, (h b hn).symm, rfl⟩⟩) rfl
  unfold Two at key
  revert key
  generalize runOperation w.minimums w.reverseOutput op sf cf (St.init fuel w.minimums.bounds) = x
  generalize runOperation w.minimums w.reverseOutput op sf cf (St.init fuel (cleanHeap k w.minimums.bounds)) = y
  intro key
  cases x <;> cases y
  · exact congrArg Except.ok key
  · exact key.elim
  · exact key.elim
  · exact congrArg Except.error key

/-- Union, difference and symmetric difference of the subject with nothing are one operation, and the fill kind of nothing does not matter. -/
theorem execute_solo (fuel : Nat) (w : Wagyu) {op op' : OperationKind} (sf cf cf' : FillKind) (he : HasEdges w.minimums)
    (h : OnlyKind .subject w.minimums) (ho : op ≠ .intersection) (ho' : op' ≠ .intersection) :
    (w.execute fuel op sf cf).2 = (w.execute fuel op' sf cf').2 := by
  by_cases hv : w.minimums.values = []
  · unfold Wagyu.execute; rw [if_pos hv, if_pos hv]
  · rw [execute_clean fuel w op sf cf he h hv, execute_clean fuel w op' sf cf' he h hv]
    have := solo_good (op := op) (op' := op') (sf := sf) (cf := cf) (cf' := cf') ho ho'
    have via := ((Via.runOperation (c := soloCfg op op' sf cf cf') w.minimums w.reverseOutput).sim
      (St.init fuel (cleanHeap .subject w.minimums.bounds)) fun _ => ⟨rfl, rfl⟩).1
    have e : ∀ s : St, s.via (soloCfg op op' sf cf cf') = s := fun s => rfl
    rw [e] at via
    have via : runOperation w.minimums w.reverseOutput op' sf cf' (St.init fuel (cleanHeap .subject w.minimums.bounds))
      = (runOperation w.minimums w.reverseOutput op sf cf (St.init fuel (cleanHeap .subject w.minimums.bounds))).via (soloCfg op op' sf cf cf') := via
    rw [via]
    generalize runOperation w.minimums w.reverseOutput op sf cf (St.init fuel (cleanHeap .subject w.minimums.bounds)) = x
    cases x <;> rfl

theorem bind_cases {α β : Type} {m : M α} {f : α → M β} {s : St} {P : Res β → Prop} (h : ∀ a s', m s = .ok a s' → P (f a s'))
    (h' : ∀ e s', m s = .err e s' → P (.err e s')) : P ((m >>= f) s) := by
  show P (match m s with | .ok a s => f a s | .err e s => .err e s)
  cases e : m s with
  | ok a s' => exact h a s' e
  | err e' s' => exact h' e' s' e

theorem run_dark {k : PolygonKind} {op : OperationKind} {sf cf : FillKind} [Dark k op sf cf] (m : Minimums) (rev : Bool) (s : St) (h : Unlit k s) :
    match runOperation m rev op sf cf s with
    | .ok r _ => r = []
    | .err e _ => e ≠ .runtime "DoMaxima error" := by
  have h1 : Idle k (do buildHotPixels m.values m.scanbeams; executeVatti op sf cf m.values m.scanbeams) := by idle
  have h1 := h1.idle s h
  have e : runOperation m rev op sf cf
      = (do buildHotPixels m.values m.scanbeams; executeVatti op sf cf m.values m.scanbeams) >>= fun _ => (do correctTopology; buildResult rev) := by
    rw [M.assoc]; rfl
  rw [e]
  refine bind_cases (P := fun x : Res Multipolygon => match x with
    | .ok r _ => r = []
    | .err e _ => e ≠ .runtime "DoMaxima error") (fun a s' e => ?_) (fun e' s' e => ?_)
  · rw [e] at h1
    have hu : Unlit k s' := h1
    have := (noughts_topology.bind (f := fun _ => buildResult rev) (noughts_build rev)) s' ⟨hu.nr, hu.nodes, hu.children⟩
    revert this
    generalize (correctTopology >>= fun _ => buildResult rev : M Multipolygon) s' = x
    cases x with
    | ok r s => exact fun h => h.1
    | err e s => rintro (rfl | rfl) <;> exact fun h => by cases h
  · rw [e] at h1
    exact h1

/-- When nothing of polygon `k` alone belongs to the boundary of the result, the result is empty. -/
theorem execute_dark (fuel : Nat) (w : Wagyu) {op : OperationKind} {sf cf : FillKind} {k : PolygonKind} [Dark k op sf cf] (he : HasEdges w.minimums)
    (h : OnlyKind k w.minimums) : match (w.execute fuel op sf cf).2 with
    | .ok r => r = []
    | .error e => e ≠ .runtime "DoMaxima error" := by
  by_cases hv : w.minimums.values = []
  · unfold Wagyu.execute; rw [if_pos hv]
  · rw [execute_clean fuel w op sf cf he h hv]
    have := run_dark (k := k) (op := op) (sf := sf) (cf := cf) w.minimums w.reverseOutput (St.init fuel (cleanHeap k w.minimums.bounds))
      ⟨fun i => ⟨rfl, rfl, rfl⟩, rfl, rfl, rfl⟩
    revert this
    generalize runOperation w.minimums w.reverseOutput op sf cf (St.init fuel (cleanHeap k w.minimums.bounds)) = x
    cases x <;> exact fun h => h

/-! ## Nothing in common with nothing -/

instance dark_intersection (k : PolygonKind) (sf cf : FillKind) : Dark k .intersection sf cf where
  contributes b hk ho := by
    have e : ∀ f, Bound.insideOpposite f 0 = false := by intro f; cases f <;> rfl
    unfold Bound.isContributing
    simp only [ho, e, ite_self]
  starts f := by cases f <;> rfl

instance dark_difference (sf cf : FillKind) : Dark .clip .difference sf cf where
  contributes b hk ho := by
    have e : ∀ f, Bound.insideOpposite f 0 = false := by intro f; cases f <;> rfl
    unfold Bound.isContributing
    simp only [ho, hk, e, reduceCtorEq, if_false, ite_self]
  starts f := by cases f <;> rfl

end Wagyu
