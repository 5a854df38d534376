import Verif.Model.Equality
import Verif.Props.Rectilinear
import Verif.Props.EmptyOperand
import Verif.Props.Api
import Verif.Props.Independence

/-!
# C57: what comparing two `Wagyu` objects says
-/

namespace Wagyu

open Spec

/-! ## What is compared -/

theorem listEq_forall₂ {α β : Type} {eq : α → β → Bool} : ∀ {l : List α} {l' : List β}, listEq eq l l' = true →
    List.Forall₂ (fun a b => eq a b = true) l l'
  | [], [], _ => .nil
  | [], _ :: _, h => by simp [listEq] at h
  | _ :: _, [], h => by simp [listEq] at h
  | a :: l, b :: l', h => by
    simp only [listEq, Bool.and_eq_true] at h
    exact .cons h.1 (listEq_forall₂ h.2)

theorem listEq_self {α : Type} {eq : α → α → Bool} : ∀ {l : List α}, (∀ a ∈ l, eq a a = true) → listEq eq l l = true
  | [], _ => rfl
  | a :: l, h => by
    rw [listEq, h a (by simp), listEq_self fun b hb => h b (by simp [hb])]; rfl

/-! ## How the minima and bounds of an object are laid out -/

/-- Minimum `k` has the bounds `2 k` and `2 k + 1`, the first one made towards the minimum, the second one from it. -/
structure Laid (m : Minimums) : Prop where
  nb : m.nb = 2 * m.values.length
  ids : ∀ k v, m.values[k]? = some v → (v.left = 2 * k ∧ v.right = 2 * k + 1) ∨ (v.left = 2 * k + 1 ∧ v.right = 2 * k)
  down : ∀ k < m.values.length, (m.bounds (2 * k)).windingDelta = -1
  up : ∀ k < m.values.length, (m.bounds (2 * k + 1)).windingDelta = 1
  free : ∀ b, m.nb ≤ b → SameInput (m.bounds b) (Bound.ofEdges [])

theorem Laid.empty : Laid Minimums.empty :=
  ⟨rfl, by simp [Minimums.empty], by simp [Minimums.empty], by simp [Minimums.empty], fun _ _ => SameInput.refl _⟩

theorem Laid.congr {m m' : Minimums} (h : Laid m) (hv : m'.values = m.values) (hn : m'.nb = m.nb)
    (hs : ∀ b, (m'.bounds b).windingDelta = (m.bounds b).windingDelta) (hf : ∀ b, m.nb ≤ b → SameInput (m'.bounds b) (m.bounds b)) :
    Laid m' :=
  ⟨by rw [hv, hn]; exact h.nb, by rw [hv]; exact h.ids, fun k hk => by rw [hs]; exact h.down k (hv ▸ hk),
    fun k hk => by rw [hs]; exact h.up k (hv ▸ hk), fun b hb => (hf b (hn ▸ hb)).trans (h.free b (hn ▸ hb))⟩

theorem delta_link {f : Nat → Bound} {i : Nat} {o : Option Nat} (b : Nat) :
    (upd f i { f i with maximumBound := o } b).windingDelta = (f b).windingDelta := by
  by_cases e : b = i
  · subst e; rw [upd_same]
  · rw [upd_ne _ _ e]

theorem laid_add {m : Minimums} (h : Laid m) {p q : Bound} (hp : p.windingDelta = -1) (hq : q.windingDelta = 1) {f : Nat → Bound}
    (hf : ∀ b, (f b).windingDelta = (upd (upd m.bounds m.nb p) (m.nb + 1) q b).windingDelta)
    (hfree : ∀ b, m.nb + 2 ≤ b → f b = m.bounds b) {v : LocalMinimum}
    (hv : (v.left = m.nb ∧ v.right = m.nb + 1) ∨ (v.left = m.nb + 1 ∧ v.right = m.nb)) :
    Laid { bounds := f, nb := m.nb + 2, values := m.values ++ [v] } := by
  have hnb := h.nb
  have keep : ∀ i < m.nb, (f i).windingDelta = (m.bounds i).windingDelta := fun i hi => by
    rw [hf, upd_ne _ _ (by omega), upd_ne _ _ (by omega)]
  have h1 : (f m.nb).windingDelta = -1 := by rw [hf, upd_ne _ _ (by omega), upd_same]; exact hp
  have h2 : (f (m.nb + 1)).windingDelta = 1 := by rw [hf, upd_same]; exact hq
  refine ⟨?_, ?_, ?_, ?_, ?_⟩
  · show m.nb + 2 = 2 * (m.values ++ [v]).length
    rw [List.length_append]; simp; omega
  · intro k u hu
    change (m.values ++ [v])[k]? = some u at hu
    by_cases hk : k < m.values.length
    · rw [List.getElem?_append_left hk] at hu
      exact h.ids k u hu
    · rw [List.getElem?_append_right (by omega)] at hu
      have hk' : k = m.values.length := by
        by_contra hne
        rw [List.getElem?_eq_none (by simp; omega)] at hu
        cases hu
      subst hk'
      simp at hu
      subst hu
      rw [hnb] at hv
      exact hv
  · intro k hk
    change k < (m.values ++ [v]).length at hk
    rw [List.length_append, List.length_singleton] at hk
    show (f (2 * k)).windingDelta = -1
    by_cases hk' : k < m.values.length
    · rw [keep _ (by omega)]; exact h.down k hk'
    · rw [show 2 * k = m.nb by omega]; exact h1
  · intro k hk
    change k < (m.values ++ [v]).length at hk
    rw [List.length_append, List.length_singleton] at hk
    show (f (2 * k + 1)).windingDelta = 1
    by_cases hk' : k < m.values.length
    · rw [keep _ (by omega)]; exact h.up k hk'
    · rw [show 2 * k + 1 = m.nb + 1 by omega]; exact h2
  · intro b hb
    change m.nb + 2 ≤ b at hb
    show SameInput (f b) _
    rw [hfree b hb]
    exact h.free b (by omega)

/-- Nothing has been written to the bounds by an operation. -/
def Untouched (m : Minimums) : Prop := ∀ b, (m.bounds b).ring = none ∧ (m.bounds b).currentX = .fin 0

theorem untouched_upd {f : Nat → Bound} (h : ∀ b, (f b).ring = none ∧ (f b).currentX = .fin 0) {i : Nat} {x : Bound}
    (hx : x.ring = none ∧ x.currentX = .fin 0) (b : Nat) : (upd f i x b).ring = none ∧ (upd f i x b).currentX = .fin 0 := by
  by_cases e : b = i
  · subst e; rw [upd_same]; exact hx
  · rw [upd_ne _ _ e]; exact h b

theorem addLoop_laid (kind : PolygonKind) (fuel : Nat) (edges : List Edge) (first last : Option Nat) (m : Minimums) (h : Laid m)
    (hl : ∀ i ∈ first, i < m.nb) (hl' : ∀ i ∈ last, i < m.nb) :
    Laid (addLoop kind fuel edges first last m).1
      ∧ ∀ r, (addLoop kind fuel edges first last m).2 = .ok r →
        (∀ i ∈ r.1, i < (addLoop kind fuel edges first last m).1.nb) ∧ ∀ i ∈ r.2, i < (addLoop kind fuel edges first last m).1.nb := by
  induction fuel generalizing edges first last m with
  | zero => cases edges <;> exact ⟨h, fun r hr => by cases hr; try exact ⟨hl, hl'⟩⟩
  | succ fuel ih =>
    unfold addLoop
    cases edges with
    | nil => exact ⟨h, fun r hr => by cases hr; exact ⟨hl, hl'⟩⟩
    | cons e es =>
      simp only
      split
      · exact ⟨h, fun r hr => by cases hr⟩
      · split
        · exact ⟨h, fun r hr => by cases hr⟩
        · split
          · split
            · exact ⟨h, fun r hr => by cases hr⟩
            · cases last with
              | none =>
                refine ih _ _ _ _ (laid_add h ?_ ?_ (fun b => rfl) ?_ ?_) ?_ ?_
                · rfl
                · rfl
                · intro b hb
                  rw [upd_ne _ _ (by omega), upd_ne _ _ (by omega)]
                · exact sides_either _ _ _ _ _
                · intro i hi; cases hi; show _ < m.nb + 2; omega
                · intro i hi; cases hi; show _ < m.nb + 2; omega
              | some l =>
                have hlt := hl' l rfl
                refine ih _ _ _ _ (laid_add h ?_ ?_ (fun b => delta_link b) ?_ ?_) ?_ ?_
                · rfl
                · rfl
                · intro b hb
                  dsimp only
                  rw [upd_ne _ _ (by omega), upd_ne _ _ (by omega), upd_ne _ _ (by omega)]
                · exact sides_either _ _ _ _ _
                · intro i hi; have := hl i hi; show _ < m.nb + 2; omega
                · intro i hi; cases hi; show _ < m.nb + 2; omega
          · exact ⟨h, fun r hr => by cases hr⟩

theorem addLinearRing_laid (fuel : Nat) (m : Minimums) (ring : List Point) (kind : PolygonKind) (h : Laid m) :
    Laid (m.addLinearRing fuel ring kind).1 := by
  unfold Minimums.addLinearRing
  split
  · exact h
  · exact h
  · next e es he =>
    dsimp only
    obtain ⟨h1, h2⟩ := addLoop_laid kind (toEdgesStartingOnLocalMaximum (e :: es)).length
      (toEdgesStartingOnLocalMaximum (e :: es)) none none m h (by simp) (by simp)
    revert h1 h2
    generalize addLoop kind (toEdgesStartingOnLocalMaximum (e :: es)).length
      (toEdgesStartingOnLocalMaximum (e :: es)) none none m = r
    intro h1 h2
    obtain ⟨n, r⟩ := r
    rcases r with e | ⟨f | f, l | l⟩
    · exact h1
    · exact h1
    · exact h1
    · exact h1
    · obtain ⟨h3, h4⟩ := h2 _ rfl
      dsimp only at h1
      have hf : f < n.nb := h3 f rfl
      have hl : l < n.nb := h4 l rfl
      refine h1.congr rfl rfl (fun b => ?_) fun b hb => ?_
      · show (upd (α := Bound) _ _ _ _).windingDelta = _
        rw [delta_link, delta_link]
      · show SameInput (upd (α := Bound) _ _ _ _) _
        change n.nb ≤ b at hb
        rw [upd_ne _ _ (by omega), upd_ne _ _ (by omega)]
        exact SameInput.refl _

theorem addLoop_untouched (kind : PolygonKind) (fuel : Nat) (edges : List Edge) (first last : Option Nat) (m : Minimums) (h : Untouched m) :
    Untouched (addLoop kind fuel edges first last m).1 := by
  induction fuel generalizing edges first last m with
  | zero => cases edges <;> exact h
  | succ fuel ih =>
    unfold addLoop
    cases edges with
    | nil => exact h
    | cons e es =>
      simp only
      split
      · exact h
      · split
        · exact h
        · split
          · split
            · exact h
            · apply ih
              cases last with
              | none =>
                intro b
                refine untouched_upd (untouched_upd h ?_) ?_ b
                · exact ⟨rfl, rfl⟩
                · exact ⟨rfl, rfl⟩
              | some l =>
                have h2 : ∀ (p q : Bound), (p.ring = none ∧ p.currentX = .fin 0) → (q.ring = none ∧ q.currentX = .fin 0) → ∀ b,
                    (upd (upd m.bounds m.nb p) (m.nb + 1) q b).ring = none ∧ (upd (upd m.bounds m.nb p) (m.nb + 1) q b).currentX = .fin 0 :=
                  fun p q hp hq => untouched_upd (untouched_upd h hp) hq
                intro b
                refine untouched_upd (h2 _ _ ?_ ?_) ?_ b
                · exact ⟨rfl, rfl⟩
                · exact ⟨rfl, rfl⟩
                · exact h2 _ _ ⟨rfl, rfl⟩ ⟨rfl, rfl⟩ l
          · exact h

theorem addLinearRing_untouched (fuel : Nat) (m : Minimums) (ring : List Point) (kind : PolygonKind) (h : Untouched m) :
    Untouched (m.addLinearRing fuel ring kind).1 := by
  unfold Minimums.addLinearRing
  split
  · exact h
  · exact h
  · next e es he =>
    dsimp only
    have h1 := addLoop_untouched kind (toEdgesStartingOnLocalMaximum (e :: es)).length
      (toEdgesStartingOnLocalMaximum (e :: es)) none none m h
    revert h1
    generalize addLoop kind (toEdgesStartingOnLocalMaximum (e :: es)).length
      (toEdgesStartingOnLocalMaximum (e :: es)) none none m = r
    intro h1
    obtain ⟨n, r⟩ := r
    rcases r with e | ⟨f | f, l | l⟩
    · exact h1
    · exact h1
    · exact h1
    · exact h1
    · have h2 := untouched_upd (i := l) (x := { n.bounds l with maximumBound := some f }) h1 (h1 l)
      exact fun b => untouched_upd (x := { upd n.bounds l { n.bounds l with maximumBound := some f } f with maximumBound := some l }) h2 (h2 f) b

theorem addPolygonFrom_keeps (fuel : Nat) (kind : PolygonKind) (P : Minimums → Prop)
    (hP : ∀ m ring, P m → P (m.addLinearRing fuel ring kind).1) : ∀ (rings : Polygon) (w : Wagyu) (r : Bool), P w.minimums →
    P (w.addPolygonFrom fuel r kind rings).1.minimums := by
  intro rings
  induction rings with
  | nil => intro w r h; exact h
  | cons ring rings ih =>
    intro w r h
    have h1 : P (w.addLinearRing fuel ring kind).1.minimums := hP _ _ h
    rw [Wagyu.addPolygonFrom]
    revert h1
    generalize w.addLinearRing fuel ring kind = x
    intro h1
    obtain ⟨w', e | b⟩ := x
    · exact h1
    · exact ih _ _ h1

theorem calls_laid (fuel : Nat) : ∀ (cs : List Call) (w : Wagyu), Laid w.minimums → Laid (w.calls fuel cs).1.minimums := by
  intro cs
  induction cs with
  | nil => intro w h; exact h
  | cons c cs ih =>
    intro w h
    rw [Wagyu.calls]
    refine ih _ ?_
    cases c with
    | addLinearRing ring kind => exact addLinearRing_laid fuel _ ring kind h
    | addPolygon polygon kind => exact addPolygonFrom_keeps fuel kind Laid (fun m ring => addLinearRing_laid fuel m ring kind) polygon w false h
    | clear => simp only [Wagyu.call, clear_eq]; exact Laid.empty
    | execute op sf cf =>
      obtain ⟨e1, e2, _, e3⟩ := execute_input fuel w op sf cf
      exact h.congr e1 e2 (fun b => (e3 b).delta) fun b _ => e3 b

/-! ## Objects that compare equal -/

/-- The partners of the bounds (the bounds that end where they end) have the same places in both objects. -/
def SamePartners (w w' : Wagyu) : Prop :=
  ∀ v ∈ w.minimums.values, ∀ b, b = v.left ∨ b = v.right → (w.minimums.bounds b).maximumBound = (w'.minimums.bounds b).maximumBound

theorem edge_of_ends {fuel : Nat} {held held' : List LinearRing} (hfit : ∀ ring ∈ held, RingFits fuel ring)
    (hfit' : ∀ ring ∈ held', RingFits fuel ring) {e f : Edge} (he : HeldEdge fuel held e) (hf : HeldEdge fuel held' f)
    (h : e.eq f = true) : e = f := by
  unfold Edge.eq at h
  simp only [Bool.and_eq_true, decide_eq_true_eq] at h
  obtain ⟨h1, h2⟩ := h
  have hs : e.slope = f.slope := by
    rcases he.slope hfit with ⟨a, b⟩ | ⟨a, b⟩ <;> rcases hf.slope hfit' with ⟨c, d⟩ | ⟨c, d⟩
    · rw [b, d]
    · rw [h1, h2] at a; exact absurd a c
    · rw [← h1, ← h2] at c; exact absurd c a
    · rw [b, d, h1, h2]
  obtain ⟨b, t, s⟩ := e
  obtain ⟨b', t', s'⟩ := f
  simp only at h1 h2 hs
  rw [h1, h2, hs]

theorem edges_of_ends {P Q : Edge → Prop} (hPQ : ∀ e f, P e → Q f → e.eq f = true → e = f) : ∀ {l l' : List Edge},
    (∀ e ∈ l, P e) → (∀ e ∈ l', Q e) → listEq Edge.eq l l' = true → l = l'
  | [], [], _, _, _ => rfl
  | [], _ :: _, _, _, h => by simp [listEq] at h
  | _ :: _, [], _, _, h => by simp [listEq] at h
  | e :: l, f :: l', hl, hl', h => by
    simp only [listEq, Bool.and_eq_true] at h
    rw [hPQ e f (hl e (by simp)) (hl' f (by simp)) h.1,
      edges_of_ends hPQ (fun a ha => hl a (by simp [ha])) (fun a ha => hl' a (by simp [ha])) h.2]

/-- **C57.** Two objects that compare equal, and whose bounds have the same partners, cannot be told apart: every later call has the
same reply.  The two objects may have been made, and used, in different ways. -/
theorem C57_equal_objects (ringEq : Nat → Nat → Bool) (fuel : Nat) (rev rev' : Bool) (cs cs' after : List Call)
    (hfit : ∀ ring ∈ heldRings cs, RingFits fuel ring) (hfit' : ∀ ring ∈ heldRings cs', RingFits fuel ring)
    (heq : ((Wagyu.new rev).calls fuel cs).1.eq ringEq ((Wagyu.new rev').calls fuel cs').1 = true)
    (hp : SamePartners ((Wagyu.new rev).calls fuel cs).1 ((Wagyu.new rev').calls fuel cs').1) :
    (((Wagyu.new rev).calls fuel cs).1.calls fuel after).2 = (((Wagyu.new rev').calls fuel cs').1.calls fuel after).2 := by
  have hL := calls_laid fuel cs (Wagyu.new rev) Laid.empty
  have hL' := calls_laid fuel cs' (Wagyu.new rev') Laid.empty
  have hF := calls_from fuel cs (Wagyu.new rev) [] (fun _ => ⟨MatesOk.empty, by simp [EdgesFrom, Wagyu.new, Minimums.empty]⟩) hfit
  have hF' := calls_from fuel cs' (Wagyu.new rev') [] (fun _ => ⟨MatesOk.empty, by simp [EdgesFrom, Wagyu.new, Minimums.empty]⟩) hfit'
  have hE := calls_edges_new fuel rev cs
  revert hL hL' hF hF' hE heq hp
  generalize ((Wagyu.new rev).calls fuel cs).1 = w
  generalize ((Wagyu.new rev').calls fuel cs').1 = w'
  intro heq hp hL hL' hF hF' hE
  unfold Wagyu.eq Minimums.eq at heq
  simp only [Bool.and_eq_true, decide_eq_true_eq] at heq
  obtain ⟨heq, hrev⟩ := heq
  have hall := listEq_forall₂ heq
  have hlen : w.minimums.values.length = w'.minimums.values.length := hall.length_eq
  have hnb : w'.minimums.nb = w.minimums.nb := by rw [hL.nb, hL'.nb, hlen]
  have hat : ∀ (k : Nat) (v v' : LocalMinimum), w.minimums.values[k]? = some v → w'.minimums.values[k]? = some v' →
      LocalMinimum.eq ringEq w.minimums.bounds w'.minimums.bounds v v' = true := by
    intro k v v' h1 h2
    obtain ⟨i1, rfl⟩ := List.getElem?_eq_some_iff.1 h1
    obtain ⟨i2, rfl⟩ := List.getElem?_eq_some_iff.1 h2
    exact (List.forall₂_iff_get.1 hall).2 k i1 i2
  have hvb : ∀ (k : Nat) (v v' : LocalMinimum), w.minimums.values[k]? = some v → w'.minimums.values[k]? = some v' → v' = v
      ∧ SameInput (w'.minimums.bounds v.left) (w.minimums.bounds v.left) ∧ SameInput (w'.minimums.bounds v.right) (w.minimums.bounds v.right) := by
    intro k v v' h1 h2
    have hv := List.mem_of_getElem? h1
    have hv' := List.mem_of_getElem? h2
    have hk : k < w.minimums.values.length := (List.getElem?_eq_some_iff.1 h1).1
    have := hat k v v' h1 h2
    unfold LocalMinimum.eq at this
    simp only [Bool.and_eq_true, decide_eq_true_eq] at this
    obtain ⟨⟨⟨hl, hr⟩, hy⟩, hh⟩ := this
    unfold Bound.eq at hl hr
    simp only [Bool.and_eq_true, decide_eq_true_eq] at hl hr
    obtain ⟨⟨⟨⟨⟨⟨⟨⟨⟨⟨⟨l1, -⟩, -⟩, -⟩, -⟩, -⟩, -⟩, -⟩, -⟩, l2⟩, l3⟩, -⟩ := hl
    obtain ⟨⟨⟨⟨⟨⟨⟨⟨⟨⟨⟨r1, -⟩, -⟩, -⟩, -⟩, -⟩, -⟩, -⟩, -⟩, r2⟩, r3⟩, -⟩ := hr
    have d1 := hL.down k hk
    have d2 := hL.up k hk
    have d3 := hL'.down k (hlen ▸ hk)
    have d4 := hL'.up k (hlen ▸ hk)
    have hid : v'.left = v.left ∧ v'.right = v.right := by
      rcases hL.ids k v h1 with ⟨a, b⟩ | ⟨a, b⟩ <;> rcases hL'.ids k v' h2 with ⟨c, d⟩ | ⟨c, d⟩
      · exact ⟨by omega, by omega⟩
      · rw [a, c, d1, d4] at l2; omega
      · rw [a, c, d2, d3] at l2; omega
      · exact ⟨by omega, by omega⟩
    rw [hid.1] at l1 l2 l3
    rw [hid.2] at r1 r2 r3
    have ee : ∀ b, b = v.left ∨ b = v.right → listEq Edge.eq (w.minimums.bounds b).edges (w'.minimums.bounds b).edges = true →
        (w'.minimums.bounds b).edges = (w.minimums.bounds b).edges := fun b hb h =>
      (edges_of_ends (P := HeldEdge fuel (heldAfter [] cs)) (Q := HeldEdge fuel (heldAfter [] cs'))
        (fun e f he hf => edge_of_ends hfit hfit' he hf) (hF v hv b hb)
        (hF' v' hv' b (by rw [hid.1, hid.2]; exact hb)) h).symm
    refine ⟨?_, ⟨ee _ (.inl rfl) l1, l2.symm, l3.symm, (hp v hv _ (.inl rfl)).symm⟩, ⟨ee _ (.inr rfl) r1, r2.symm, r3.symm, (hp v hv _ (.inr rfl)).symm⟩⟩
    obtain ⟨a, b, c, d⟩ := v
    obtain ⟨a', b', c', d'⟩ := v'
    obtain ⟨h3, h4⟩ := hid
    simp only at h3 h4 hy hh
    rw [h3, h4, hy, hh]
  refine ((WSim.calls fuel after w w' ⟨⟨?_, hnb, fun b => ?_⟩, hrev.symm, hE⟩).1).symm
  · refine List.ext_getElem? fun k => ?_
    by_cases hk : k < w.minimums.values.length
    · have h1 := List.getElem?_eq_getElem hk
      have h2 := List.getElem?_eq_getElem (hlen ▸ hk)
      rw [h1, h2, (hvb k _ _ h1 h2).1]
    · rw [List.getElem?_eq_none (by omega), List.getElem?_eq_none (by omega)]
  · by_cases hb : b < w.minimums.nb
    · have hk : b / 2 < w.minimums.values.length := by have := hL.nb; omega
      have h1 := List.getElem?_eq_getElem hk
      have h2 := List.getElem?_eq_getElem (hlen ▸ hk)
      obtain ⟨-, h3, h4⟩ := hvb _ _ _ h1 h2
      have := hL.ids _ _ h1
      have hor : b = w.minimums.values[b / 2].left ∨ b = w.minimums.values[b / 2].right := by omega
      rcases hor with h | h <;> rw [h]
      · exact h3
      · exact h4
    · have h1 := hL.free b (by omega)
      obtain ⟨a1, a2, a3, a4⟩ := hL'.free b (by omega)
      obtain ⟨b1, b2, b3, b4⟩ := h1
      exact ⟨a1.trans b1.symm, a2.trans b2.symm, a3.trans b3.symm, a4.trans b4.symm⟩

/-! ## Objects with the same geometry -/

/-- The call is no operation. -/
def Call.isExecute : Call → Bool
  | .execute .. => true
  | _ => false

theorem calls_of_additions (fuel : Nat) (rev : Bool) : ∀ (cs acc : List Call) (w : Wagyu), (∀ c ∈ cs, c.isExecute = false) →
    ((Wagyu.new rev).calls fuel acc).1 = w →
    (w.calls fuel cs).1 = ((Wagyu.new rev).calls fuel (additionsAfter acc cs)).1 := by
  intro cs
  induction cs with
  | nil => intro acc w _ h; exact h.symm
  | cons c cs ih =>
    intro acc w hc h
    rw [Wagyu.calls]
    cases c with
    | addLinearRing ring kind =>
      refine ih _ _ (fun c h => hc c (by simp [h])) ?_
      rw [calls_append, h]; rfl
    | addPolygon polygon kind =>
      refine ih _ _ (fun c h => hc c (by simp [h])) ?_
      rw [calls_append, h]; rfl
    | clear =>
      refine ih _ _ (fun c h => hc c (by simp [h])) ?_
      show Wagyu.new rev = w.clear
      rw [clear_eq_new, ← h, Wagyu.calls_reverseOutput]; rfl
    | execute op sf cf => exact absurd (hc (.execute op sf cf) (by simp)) (by simp [Call.isExecute])

theorem calls_untouched (fuel : Nat) : ∀ (cs : List Call) (w : Wagyu), (∀ c ∈ cs, c.isExecute = false) → Untouched w.minimums →
    Untouched (w.calls fuel cs).1.minimums := by
  intro cs
  induction cs with
  | nil => intro w _ h; exact h
  | cons c cs ih =>
    intro w hc h
    rw [Wagyu.calls]
    refine ih _ (fun c h => hc c (by simp [h])) ?_
    cases c with
    | addLinearRing ring kind => exact addLinearRing_untouched fuel _ ring kind h
    | addPolygon polygon kind =>
      exact addPolygonFrom_keeps fuel kind Untouched (fun m ring => addLinearRing_untouched fuel m ring kind) polygon w false h
    | clear => simp only [Wagyu.call, clear_eq]; exact fun b => ⟨rfl, rfl⟩
    | execute op sf cf => exact absurd (hc (.execute op sf cf) (by simp)) (by simp [Call.isExecute])

/-- **C57.** Two objects to which the same geometry was added (since their last `clear()`), and on which no operation was run, compare
equal. -/
theorem C57_same_geometry (ringEq : Nat → Nat → Bool) (fuel : Nat) (rev : Bool) (cs cs' : List Call)
    (hc : ∀ c ∈ cs, c.isExecute = false) (hc' : ∀ c ∈ cs', c.isExecute = false) (h : additions cs = additions cs') :
    ((Wagyu.new rev).calls fuel cs).1.eq ringEq ((Wagyu.new rev).calls fuel cs').1 = true := by
  have e1 := calls_of_additions fuel rev cs [] _ hc rfl
  have e2 := calls_of_additions fuel rev cs' [] _ hc' rfl
  have e : ((Wagyu.new rev).calls fuel cs').1 = ((Wagyu.new rev).calls fuel cs).1 := by
    change (Wagyu.calls fuel (Wagyu.new rev) cs).1 = _ at e1
    change (Wagyu.calls fuel (Wagyu.new rev) cs').1 = _ at e2
    unfold additions at h
    rw [e1, e2, h]
  rw [e]
  have hU := calls_untouched fuel cs (Wagyu.new rev) hc fun b => ⟨rfl, rfl⟩
  revert hU
  generalize ((Wagyu.new rev).calls fuel cs).1 = w
  intro hU
  have hb : ∀ b, (w.minimums.bounds b).eq ringEq (w.minimums.bounds b) = true := by
    intro b
    obtain ⟨h1, h2⟩ := hU b
    unfold Bound.eq
    rw [listEq_self fun e _ => by simp [Edge.eq], h1, h2]
    simp [maybeRingEq, F64.eq]
  unfold Wagyu.eq Minimums.eq
  rw [listEq_self fun v _ => by unfold LocalMinimum.eq; rw [hb, hb]; simp]
  simp

/-! ## Objects that compare equal and behave differently -/

theorem listEq_mono {α β : Type} {eq eq' : α → β → Bool} (h : ∀ a b, eq a b = true → eq' a b = true) : ∀ {l : List α} {l' : List β},
    listEq eq l l' = true → listEq eq' l l' = true
  | [], [], _ => rfl
  | [], _ :: _, h => by simp [listEq] at h
  | _ :: _, [], h => by simp [listEq] at h
  | a :: l, b :: l', hh => by
    simp only [listEq, Bool.and_eq_true] at hh ⊢
    exact ⟨h a b hh.1, listEq_mono h hh.2⟩

theorem wagyuEq_mono {w w' : Wagyu} {eq ringEq : Nat → Nat → Bool} (hm : ∀ r r', eq r r' = true → ringEq r r' = true)
    (h : w.eq eq w' = true) : w.eq ringEq w' = true := by
  have hb : ∀ a b : Bound, a.eq eq b = true → a.eq ringEq b = true := by
    intro a b hab
    unfold Bound.eq at hab ⊢
    simp only [Bool.and_eq_true] at hab ⊢
    obtain ⟨⟨⟨⟨⟨⟨⟨⟨⟨⟨⟨a1, a2⟩, a3⟩, a4⟩, a5⟩, a6⟩, a7⟩, a8⟩, a9⟩, a10⟩, a11⟩, a12⟩ := hab
    refine ⟨⟨⟨⟨⟨⟨⟨⟨⟨⟨⟨a1, a2⟩, a3⟩, a4⟩, ?_⟩, a6⟩, a7⟩, a8⟩, a9⟩, a10⟩, a11⟩, a12⟩
    revert a5
    unfold maybeRingEq
    cases a.ring <;> cases b.ring <;> simp
    exact hm _ _
  unfold Wagyu.eq Minimums.eq at h ⊢
  simp only [Bool.and_eq_true] at h ⊢
  refine ⟨listEq_mono (fun a b hab => ?_) h.1, h.2⟩
  unfold LocalMinimum.eq at hab ⊢
  simp only [Bool.and_eq_true] at hab ⊢
  exact ⟨⟨⟨hb _ _ hab.1.1.1, hb _ _ hab.1.1.2⟩, hab.1.2⟩, hab.2⟩

/-- Two triangles with a common corner, added as one ring that passes the corner twice. -/
def asOneRing : List Call :=
  [.addLinearRing [⟨10, 0⟩, ⟨16, 4⟩, ⟨0, 4⟩, ⟨10, 0⟩, ⟨20, 4⟩, ⟨3, 8⟩, ⟨10, 0⟩] .subject]

/-- The same triangles, added as two rings. -/
def asTwoRings : List Call :=
  [.addLinearRing [⟨10, 0⟩, ⟨16, 4⟩, ⟨0, 4⟩, ⟨10, 0⟩] .subject, .addLinearRing [⟨10, 0⟩, ⟨20, 4⟩, ⟨3, 8⟩, ⟨10, 0⟩] .subject]

/-- **C57.** Equal objects can return different results: the partners of bounds are not compared. -/
theorem C57_equal_but_different (ringEq : Nat → Nat → Bool) :
    ((Wagyu.new false).calls 60 asOneRing).1.eq ringEq ((Wagyu.new false).calls 60 asTwoRings).1 = true
      ∧ ∃ result result', (((Wagyu.new false).calls 60 asOneRing).1.unite 60).2 = .ok result
        ∧ (((Wagyu.new false).calls 60 asTwoRings).1.unite 60).2 = .ok result' ∧ result ≠ result' := by
  refine ⟨wagyuEq_mono (eq := fun _ _ => false) (fun _ _ h => by cases h) (by decide +kernel), ?_⟩
  have h : ∃ result, (((Wagyu.new false).calls 60 asOneRing).1.unite 60).2.toOption = some result
        ∧ ∃ result', (((Wagyu.new false).calls 60 asTwoRings).1.unite 60).2.toOption = some result' ∧ result ≠ result' := by
    refine ⟨[[[⟨10, 0⟩, ⟨20, 4⟩, ⟨3, 8⟩, ⟨7, 4⟩, ⟨16, 4⟩, ⟨10, 0⟩]], [[⟨10, 0⟩, ⟨7, 4⟩, ⟨0, 4⟩, ⟨10, 0⟩]]], by decide +kernel, [[[⟨10, 0⟩, ⟨7, 4⟩, ⟨0, 4⟩, ⟨10, 0⟩]], [[⟨10, 0⟩, ⟨20, 4⟩, ⟨3, 8⟩, ⟨7, 4⟩, ⟨16, 4⟩, ⟨10, 0⟩]]], by decide +kernel, by decide⟩
  obtain ⟨a, h1, b, h2, h3⟩ := h
  refine ⟨a, b, ?_, ?_, h3⟩
  · revert h1
    generalize (((Wagyu.new false).calls 60 asOneRing).1.unite 60).2 = x
    cases x <;> simp [Except.toOption]
  · revert h2
    generalize (((Wagyu.new false).calls 60 asTwoRings).1.unite 60).2 = x
    cases x <;> simp [Except.toOption]

/-- The two triangles, added as one polygon of two rings. -/
def asPolygon : List Call := [.addPolygon [[⟨10, 0⟩, ⟨16, 4⟩, ⟨0, 4⟩, ⟨10, 0⟩], [⟨10, 0⟩, ⟨20, 4⟩, ⟨3, 8⟩, ⟨10, 0⟩]] .subject]

/-- A case of `C57_equal_objects`: different calls, the same bounds and partners, a result. -/
example : (∀ ring ∈ heldRings asTwoRings, RingFits 60 ring) ∧ (∀ ring ∈ heldRings asPolygon, RingFits 60 ring)
    ∧ ((Wagyu.new false).calls 60 asTwoRings).1.eq (fun _ _ => false) ((Wagyu.new false).calls 60 asPolygon).1 = true
    ∧ SamePartners ((Wagyu.new false).calls 60 asTwoRings).1 ((Wagyu.new false).calls 60 asPolygon).1
    ∧ ((((Wagyu.new false).calls 60 asPolygon).1.unite 60).2.toOption.map List.length) = some 2 := by
  unfold RingFits SamePartners
  refine ⟨by decide +kernel, by decide +kernel, by decide +kernel, ?_, by decide +kernel⟩
  have h : ∀ v ∈ ((Wagyu.new false).calls 60 asTwoRings).1.minimums.values,
      (((Wagyu.new false).calls 60 asTwoRings).1.minimums.bounds v.left).maximumBound
          = (((Wagyu.new false).calls 60 asPolygon).1.minimums.bounds v.left).maximumBound
        ∧ (((Wagyu.new false).calls 60 asTwoRings).1.minimums.bounds v.right).maximumBound
          = (((Wagyu.new false).calls 60 asPolygon).1.minimums.bounds v.right).maximumBound := by decide +kernel
  rintro v hv b (rfl | rfl)
  · exact (h v hv).1
  · exact (h v hv).2

/-- A case of `C57_same_geometry`. -/
example : additions (asOneRing ++ .clear :: asPolygon) = additions asPolygon := rfl

/-- **C57.** Operations can be observed by comparing: an object on which an operation was run need not equal one with the same geometry
(although, by C04, the two cannot be told apart by their results). -/
theorem C57_operations_show (ringEq : Nat → Nat → Bool) :
    let w := ((Wagyu.new false).calls 60 asPolygon).1
    w.eq ringEq w = true ∧ (w.unite 60).1.eq ringEq w = false ∧ w.eq ringEq (w.unite 60).1 = false := by
  intro w
  have h : ∀ a b : Wagyu, a.eq (fun _ _ => true) b = false → a.eq ringEq b = false := by
    intro a b hab
    by_contra hc
    rw [Bool.not_eq_false] at hc
    have : a.eq (fun _ _ => true) b = true := wagyuEq_mono (fun _ _ _ => rfl) hc
    rw [this] at hab
    cases hab
  exact ⟨wagyuEq_mono (fun _ _ h => by cases h) (show w.eq (fun _ _ => false) w = true by decide +kernel),
    h _ _ (by decide +kernel), h _ _ (by decide +kernel)⟩

end Wagyu
