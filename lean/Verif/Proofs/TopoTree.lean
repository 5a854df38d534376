import Verif.Proofs.TopoRepeat
import Verif.Spec.Nesting

/-!
# `correct_tree`
-/

namespace Wagyu

open Spec

section
variable {s s' : St} {L L' : Nat → List Nat} {E : Err → Prop}

/-! ## Once round a ring -/

theorem ends_round {σ B : Type} {h0 : Nat → Node} {a : Nat} {t : List Nat} (hc : IsCycle h0 (a :: t)) (pos : σ → Nat) (J : List Nat → σ → St → Prop)
    {Q : B → St → Prop} {f : σ → M (σ ⊕ B)}
    (step : ∀ pre x s j, J pre x s → pos x ∈ a :: t → pre <+: a :: t → pos x ∉ pre → Link h0 (pos x) j →
      Ends E (f x) s fun r s' => match r with
        | .inl y => J (pre ++ [pos x]) y s' ∧ pos y = j ∧ j ≠ a
        | .inr b => (j = a → ∀ i ∈ a :: t, i ∈ pre ++ [pos x]) → Q b s')
    {x : σ} (hx : pos x = a) (hJ : J [] x s) : Ends E (loopM f x) s Q := by
  obtain ⟨hnd, hseg, hclose⟩ := (isCycle_iff (by simp)).1 hc
  refine Ends.loopN (E := E) (fun n x s => ∃ pre suf, J pre x s ∧ a :: t = pre ++ pos x :: suf ∧ n = suf.length) ?_
    (n := t.length) ⟨[], t, hJ, by rw [hx]; rfl, rfl⟩
  rintro n x s ⟨pre, suf, h1, h2, rfl⟩
  have hm : pos x ∈ a :: t := by rw [h2]; simp
  have hnp : pos x ∉ pre := by
    rw [h2] at hnd
    intro hp
    exact (List.nodup_append.1 hnd).2.2 _ hp _ (by simp) rfl
  cases suf with
  | nil =>
    have hl : Link h0 (pos x) a := by
      have e1 : (a :: t).getLast (by simp) = pos x := by simp [h2]
      rw [e1] at hclose
      exact hclose
    refine (step pre x s a h1 hm ⟨[pos x], by rw [h2]⟩ hnp hl).imp ?_
    rintro (y | b) s' h
    · exact absurd rfl h.2.2
    · exact h fun _ i hi => by rw [h2] at hi; exact hi
  | cons j suf =>
    have hl : Link h0 (pos x) j := by
      rw [h2, List.isChain_append] at hseg
      exact (List.isChain_cons_cons.1 hseg.2.1).1
    have hja : j ≠ a := by
      intro e
      cases pre with
      | nil =>
        rw [List.nil_append] at h2
        have : a = pos x := (List.cons.inj h2).1
        rw [← this, e] at h2
        rw [h2] at hnd
        simp at hnd
      | cons b pre =>
        have : a = b := (List.cons.inj h2).1
        rw [h2, ← this, e] at hnd
        simp at hnd
    refine (step pre x s j h1 hm ⟨pos x :: j :: suf, by rw [h2]⟩ hnp hl).imp ?_
    rintro (y | b) s' h
    · exact ⟨suf.length, by simp, pre ++ [pos x], suf, h.1, by rw [h.2.1, h2]; simp, rfl⟩
    · exact h fun e => absurd e hja

theorem ends_pipWith (px py : F64) (det : Point → Point → F64) {a : Nat} {t : List Nat} (hc : IsCycle s.nodes (a :: t)) :
    Ends E (pointInPolygonWith px py det a) s fun _ s' => s' = s := by
  unfold pointInPolygonWith
  refine ends_round hc Prod.fst (fun _ _ s' => s' = s) ?_ rfl rfl
  rintro pre ⟨i, b⟩ s j rfl hi - - hl
  dsimp only at hi hl ⊢
  refine Ends.bind (Ends.pointOf (Ends.bind (Ends.nextOf hl.1 (Ends.bind (Ends.pointOf ?_)))))
  cases pipStep px py det _ _ with
  | none => exact Ends.pure fun _ => rfl
  | some t' =>
    refine Ends.ite (fun _ => Ends.pure fun _ => rfl) fun hja => Ends.pure ⟨rfl, rfl, hja⟩

theorem onRing_rot {z : Point} {l l' : List Point} (h : l ~r l') : OnRing z l ↔ OnRing z l' := by
  obtain ⟨n, rfl⟩ := h
  rw [List.rotate_eq_drop_append_take_mod]
  constructor
  · intro h
    refine onRing_append _ _ ?_
    rwa [List.take_append_drop]
  · intro h
    have := onRing_append _ _ h
    rwa [List.take_append_drop] at this

theorem winding_rot {z : Point} {l l' : List Point} (h : l ~r l') : windingNumber z l = windingNumber z l' := by
  obtain ⟨n, rfl⟩ := h
  exact (ringSum_rotate _ l n).symm

theorem ends_pointInPolygon (z : Point) {a : Nat} {l : List Nat} (hc : IsCycle s.nodes l) (ha : a ∈ l) :
    Ends E (pointInPolygon z a) s fun r s' => s' = s ∧ (r = .on ↔ OnRing z (pointsOf s.nodes l))
      ∧ (r = .inside → ¬ OnRing z (pointsOf s.nodes l) ∧ Odd (windingNumber z (pointsOf s.nodes l))) := by
  obtain ⟨t, ht, hrot⟩ := cycle_rot hc ha
  have hr := pointsOf_rot (h := s.nodes) hrot
  refine Ends.run (s' := s) (a := pipResult (pipPath z (pointsOf s.nodes (a :: t ++ [a])) false)) (t.length + 1) (fun k hk => pointInPolygon_run (s := s.wf k) ht (by show t.length < k; omega) z) ⟨rfl, ?_⟩
  obtain ⟨r, h1, h2, h3⟩ := C19_point_in_polygon (s.wf (t.length + 1)) a t ht (Nat.lt_succ_self _) z
  rw [pointInPolygon_run (s := s.wf (t.length + 1)) ht (Nat.lt_succ_self _) z] at h1
  obtain ⟨rfl, -⟩ := (Res.ok.injEq _ _ _ _).mp h1
  rw [← onRing_rot hr, ← winding_rot hr]
  refine ⟨h2, fun e => ?_⟩
  have hno : ¬ OnRing z (pointsOf s.nodes (a :: t)) := by
    intro ho
    have := e.symm.trans (h2.2 ho)
    cases this
  exact ⟨hno, (h3 hno).1.1 e⟩

/-- The statistics of all rings are known. -/
def Known (s : St) (L : Nat → List Nat) : Prop := ∀ r, L r ≠ [] → (s.rings r).area.isNan = false

theorem StatsRead.same {r : Nat} (h : StatsRead s L r s') (hk : Known s L) : s' = s := by
  by_cases e : L r = []
  · exact h.blank e
  · exact h.known (hk r e)

theorem ends_area (h : TI s L) (hk : Known s L) (r : Nat) : Ends E (ringArea r) s fun a s' => s' = s ∧ a = (s.rings r).area :=
  (ends_ringArea h.own r).imp fun _ _ h1 => by obtain rfl := h1.2.same hk; exact ⟨rfl, h1.1⟩
theorem ends_isHole (h : TI s L) (hk : Known s L) (r : Nat) : Ends E (ringIsHole r) s fun a s' => s' = s ∧ a = (s.rings r).isHole :=
  (ends_ringIsHole h.own r).imp fun _ _ h1 => by obtain rfl := h1.2.same hk; exact ⟨rfl, h1.1⟩
theorem ends_size (h : TI s L) (hk : Known s L) (r : Nat) : Ends E (ringSize r) s fun a s' => s' = s ∧ a = (s.rings r).size :=
  (ends_ringSize h.own r).imp fun _ _ h1 => by obtain rfl := h1.2.same hk; exact ⟨rfl, h1.1⟩

theorem isCycle_next {h : Nat → Node} {l : List Nat} (hc : IsCycle h l) {i : Nat} (hi : i ∈ l) : ∃ x, (h i).next = some x := by
  obtain ⟨t, hc', -⟩ := cycle_rot hc hi
  obtain ⟨-, hseg, hcl⟩ := (isCycle_iff (by simp)).1 hc'
  cases t with
  | nil => exact ⟨_, hcl.1⟩
  | cons b t => exact ⟨b, (List.isChain_cons_cons.1 hseg).1.1⟩

theorem isCycle_prev {h : Nat → Node} {l : List Nat} (hc : IsCycle h l) {i : Nat} (hi : i ∈ l) : ∃ x, (h i).prev = some x := by
  obtain ⟨t, hc', -⟩ := cycle_rot hc hi
  obtain ⟨-, hseg, hcl⟩ := (isCycle_iff (by simp)).1 hc'
  exact ⟨_, hcl.2⟩

theorem ends_isConvex (h : TI s L) (hk : Known s L) {r i : Nat} (hi : i ∈ L r) : Ends E (isConvex i) s fun _ s' => s' = s := by
  obtain ⟨t, hc, -⟩ := cycle_rot (h.own.cyc hi) hi
  obtain ⟨x, hx⟩ : ∃ x, (s.nodes i).next = some x := isCycle_next (h.own.cyc hi) hi
  obtain ⟨y, hy⟩ : ∃ y, (s.nodes i).prev = some y := isCycle_prev (h.own.cyc hi) hi
  unfold isConvex
  refine Ends.bind (Ends.getNode (Ends.bind (Ends.deref (h.own.own r i hi).2 (Ends.bind ((ends_area h hk r).imp ?_)))))
  rintro a s ⟨rfl, -⟩
  exact Ends.bind (Ends.prevOf hy (Ends.bind (Ends.pointOf (Ends.bind (Ends.nextOf hx (Ends.bind (Ends.pointOf (Ends.bind (Ends.pointOf (Ends.pure rfl))))))))))

theorem ends_centroid (h : TI s L) {r i : Nat} (hi : i ∈ L r) : Ends E (pointsCentroid i) s fun _ s' => s' = s := by
  obtain ⟨x, hx⟩ : ∃ x, (s.nodes i).next = some x := isCycle_next (h.own.cyc hi) hi
  obtain ⟨y, hy⟩ : ∃ y, (s.nodes i).prev = some y := isCycle_prev (h.own.cyc hi) hi
  unfold pointsCentroid
  exact Ends.bind (Ends.prevOf hy (Ends.bind (Ends.pointOf (Ends.bind (Ends.nextOf hx (Ends.bind (Ends.pointOf (Ends.bind (Ends.pointOf (Ends.pure rfl))))))))))

/-- The exceptions of the placement of rings. -/
def Unplaced (e : Err) : Prop :=
  e = .runtime "Could not find a point within the polygon to test" ∨ e = .runtime "Could not properly place hole to a parent"

theorem ends_special (h : TI s L) (hk : Known s L) {r o a b : Nat} (ha : a ∈ L r) (hb : b ∈ L o) :
    Ends Unplaced (insideOrOutsideSpecial a b) s fun _ s' => s' = s := by
  obtain ⟨t, hc, hrot⟩ := cycle_rot (h.own.cyc ha) ha
  obtain ⟨t', hc', -⟩ := cycle_rot (h.own.cyc hb) hb
  unfold insideOrOutsideSpecial
  refine ends_round hc id (fun _ _ s' => s' = s) ?_ rfl rfl
  rintro pre i s j rfl hi - - hl
  dsimp only [id] at hi hl ⊢
  have hir : i ∈ L r := hrot.mem_iff.1 hi
  have fin : ∀ found : Option PointInPolygonResult, Ends Unplaced (match found with
      | some r => pure (.inr r)
      | none => do
        let cursor ← nextOf i
        if cursor = a then raise (.runtime "Could not find a point within the polygon to test")
        else pure (.inl cursor) : M (Nat ⊕ PointInPolygonResult)) s fun r s' => match r with
        | .inl y => s' = s ∧ y = j ∧ j ≠ a
        | .inr _ => (j = a → ∀ i_1 ∈ a :: t, i_1 ∈ pre ++ [i]) → s' = s := by
    rintro (_ | r)
    · refine Ends.bind (Ends.nextOf hl.1 (Ends.ite (fun _ => Ends.raise (Or.inl rfl)) fun e => Ends.pure ⟨rfl, rfl, e⟩))
    · exact Ends.pure fun _ => rfl
  have inner : Ends Unplaced (do
      if ← isConvex i then
        let centroid ← pointsCentroid i
        if (← fpointInPolygon centroid a) = .inside then
          let r ← fpointInPolygon centroid b
          pure (some r)
        else pure none
      else pure none : M (Option PointInPolygonResult)) s fun _ s' => s' = s := by
    refine Ends.bind ((ends_isConvex h hk hir).imp ?_)
    rintro c s rfl
    refine Ends.ite (fun _ => ?_) fun _ => Ends.pure rfl
    refine Ends.bind ((ends_centroid h hir).imp ?_)
    rintro p s rfl
    refine Ends.bind ((ends_pipWith _ _ _ hc).imp ?_)
    rintro q s rfl
    refine Ends.ite (fun _ => ?_) fun _ => Ends.pure rfl
    refine Ends.bind ((ends_pipWith _ _ _ hc').imp ?_)
    rintro q s rfl
    exact Ends.pure rfl
  refine Ends.bind (inner.imp ?_)
  rintro found s rfl
  exact (fin found).imp (by rintro (_ | _) _ h <;> exact h)

theorem box_inside {b c : Box} {l l' : List Point} (h : IsTightBox b l) (h' : IsTightBox c l') (hin : b.insideOf c = true) :
    (∀ p ∈ l, ∃ q ∈ l', q.x ≤ p.x) ∧ (∀ p ∈ l, ∃ q ∈ l', p.x ≤ q.x) ∧ (∀ p ∈ l, ∃ q ∈ l', q.y ≤ p.y) ∧ ∀ p ∈ l, ∃ q ∈ l', p.y ≤ q.y := by
  simp only [Box.insideOf, Bool.and_eq_true, decide_eq_true_eq] at hin
  obtain ⟨⟨⟨h1, h2⟩, h3⟩, h4⟩ := hin
  refine ⟨fun p hp => ?_, fun p hp => ?_, fun p hp => ?_, fun p hp => ?_⟩
  · obtain ⟨q, a1, a2⟩ := h'.left; have := h.contains p hp; unfold InBox at this; exact ⟨q, a1, by omega⟩
  · obtain ⟨q, a1, a2⟩ := h'.right; have := h.contains p hp; unfold InBox at this; exact ⟨q, a1, by omega⟩
  · obtain ⟨q, a1, a2⟩ := h'.top; have := h.contains p hp; unfold InBox at this; exact ⟨q, a1, by omega⟩
  · obtain ⟨q, a1, a2⟩ := h'.bottom; have := h.contains p hp; unfold InBox at this; exact ⟨q, a1, by omega⟩

/-- A ring all of whose vertices are at one point has no area. -/
theorem area2_const {l : List Point} {z : Point} (h : ∀ p ∈ l, p = z) : area2 l = 0 := by
  have hp : ∀ l : List Point, (∀ p ∈ l, p = z) → pathSum cross l = 0 := by
    intro l
    induction l with
    | nil => intro _; rfl
    | cons a l ih =>
      intro h
      cases l with
      | nil => rfl
      | cons b l =>
        rw [pathSum, ih fun p hp => h p (by simp [hp]), h a (by simp), h b (by simp)]
        unfold cross; ring
  cases l with
  | nil => rfl
  | cons a t =>
    have := hp (a :: t ++ [a]) fun p hp => by
      rw [List.mem_append, List.mem_singleton] at hp
      rcases hp with hp | rfl
      · exact h p hp
      · exact h _ (by simp)
    show -pathSum cross (a :: t ++ [a]) = 0
    rw [this]; rfl

theorem ends_ringInsideOf (h : TI s L) (hk : Known s L) {r o : Nat} (hr : L r ≠ []) (ha : area2 (pointsOf s.nodes (L r)) ≠ 0) :
    Ends Unplaced (ringInsideOf r o) s fun b s' => s' = s ∧ (b = true → L o ≠ [] ∧ VertexInside (pointsOf s.nodes (L r)) (pointsOf s.nodes (L o))) := by
  have hb := (h.sound r hr (hk r hr)).2.2.1
  unfold ringInsideOf
  refine Ends.bind (Ends.getRing (Ends.bind (Ends.getRing ?_)))
  refine Ends.ite (fun _ => Ends.pure ⟨rfl, fun e => by cases e⟩) fun hin => ?_
  rw [Bool.not_eq_true, Bool.not_eq_false'] at hin
  by_cases ho : L o = []
  · exfalso
    have hz := congrArg Ring.box (h.blank o ho)
    rw [← hz] at hin
    simp only [Ring.resetStats, Box.insideOf, Bool.and_eq_true] at hin
    obtain ⟨⟨⟨h1, h2⟩, h3⟩, h4⟩ := hin
    have h1 := of_decide_eq_true h1
    have h2 := of_decide_eq_true h2
    have h3 := of_decide_eq_true h3
    have h4 := of_decide_eq_true h4
    refine ha (area2_const (z := ⟨0, 0⟩) fun p hp => ?_)
    have := hb.contains p hp
    unfold InBox at this
    obtain ⟨x, y⟩ := p
    simp only [Point.mk.injEq] at *
    omega
  have hbo := (h.sound o ho (hk o ho)).2.2.1
  obtain ⟨b1, b2, b3, b4⟩ := box_inside hb hbo hin
  refine Ends.bind ((ends_area h hk o).imp ?_)
  rintro oa s ⟨rfl, -⟩
  refine Ends.bind ((ends_area h hk r).imp ?_)
  rintro ra s ⟨rfl, -⟩
  refine Ends.ite (fun _ => Ends.pure ⟨rfl, fun e => by cases e⟩) fun _ => ?_
  obtain ⟨n, t, hl⟩ := List.exists_cons_of_ne_nil hr
  obtain ⟨n', t', hl'⟩ := List.exists_cons_of_ne_nil ho
  have hn : (s.rings r).node = some n := by rw [h.own.head r, hl]; rfl
  have hn' : (s.rings o).node = some n' := by rw [h.own.head o, hl']; rfl
  have hnr : n ∈ L r := by rw [hl]; simp
  have hno : n' ∈ L o := by rw [hl']; simp
  obtain ⟨x, hx⟩ : ∃ x, (s.nodes n).next = some x := isCycle_next (h.own.cyc hnr) hnr
  obtain ⟨y, hy⟩ : ∃ y, (s.nodes n').next = some y := isCycle_next (h.own.cyc hno) hno
  have hxr : x ∈ L r := ((h.own.link hnr).1 hx).1
  have hyo : y ∈ L o := ((h.own.link hno).1 hy).1
  refine Ends.bind (Ends.getRing (Ends.bind (Ends.deref hn (Ends.bind (Ends.nextOf hx ?_)))))
  refine Ends.bind (Ends.getRing (Ends.bind (Ends.deref hn' (Ends.bind (Ends.nextOf hy ?_)))))
  obtain ⟨u, hc, hrot⟩ := cycle_rot (h.own.cyc hxr) hxr
  refine Ends.bind ((ends_round (E := Unplaced) hc id (fun pre _ s' => s' = s ∧ ∀ i ∈ pre, OnRing (locOf s.nodes i) (pointsOf s.nodes (L o)))
    (Q := fun res s' => s' = s ∧ match res with
      | some true => ∃ p ∈ pointsOf s.nodes (L r), ¬ OnRing p (pointsOf s.nodes (L o)) ∧ Odd (windingNumber p (pointsOf s.nodes (L o)))
      | some false => True
      | none => ∀ p ∈ pointsOf s.nodes (L r), OnRing p (pointsOf s.nodes (L o))) ?_ rfl ⟨rfl, by simp⟩).imp ?_)
  · rintro pre i s j ⟨rfl, hpre⟩ hi - - hlk
    dsimp only [id] at hi hlk ⊢
    have hir : i ∈ L r := hrot.mem_iff.1 hi
    refine Ends.bind (Ends.pointOf (Ends.bind ((ends_pointInPolygon _ (h.own.cyc hno) hyo).imp ?_)))
    rintro res s ⟨rfl, e1, e2⟩
    refine Ends.ite (fun e => Ends.pure fun _ => ⟨rfl, ?_⟩) fun e => ?_
    · by_cases e3 : res = .inside
      · subst e3
        exact ⟨_, List.mem_map_of_mem hir, e2 rfl⟩
      · simp [e3]
    · have hon : OnRing (locOf s.nodes i) (pointsOf s.nodes (L o)) := e1.1 (not_not.1 e)
      have hall : ∀ k ∈ pre ++ [i], OnRing (locOf s.nodes k) (pointsOf s.nodes (L o)) := by
        intro k hk
        rcases List.mem_append.1 hk with q | q
        · exact hpre k q
        · rw [List.mem_singleton.1 q]; exact hon
      refine Ends.bind (Ends.nextOf hlk.1 (Ends.ite (fun e => Ends.pure fun hfull => ⟨rfl, fun p hp => ?_⟩) fun e => Ends.pure ⟨⟨rfl, hall⟩, rfl, e⟩))
      obtain ⟨k, hk, rfl⟩ := List.mem_map.1 hp
      exact hall k (hfull e k (hrot.mem_iff.2 hk))
  · rintro (_ | b) s ⟨rfl, hres⟩
    · refine Ends.bind ((ends_special h hk hxr hyo).imp ?_)
      rintro res s rfl
      exact Ends.pure ⟨rfl, fun _ => ⟨ho, b1, b2, b3, b4, Or.inr hres⟩⟩
    · refine Ends.pure ⟨rfl, ?_⟩
      rintro rfl
      exact ⟨ho, b1, b2, b3, b4, Or.inl hres⟩

/-! ## The order of the rings -/

theorem StatsRead.notNan {r : Nat} (h : StatsRead s L r s') (k : Nat) (hk : (s.rings k).area.isNan = false) : (s'.rings k).area.isNan = false := by
  by_cases e : k = r
  · subst e; rw [h.known hk]; exact hk
  · rw [h.other k e]; exact hk

theorem ends_ringKeys_known (h : TI s L) :
    Ends E ringKeys s fun keys s' => (OnlyStats s s' ∧ TI s' L ∧ Known s' L) ∧ keys.map Prod.fst = List.range s.nr := by
  unfold ringKeys
  refine Ends.bind (Ends.gets (fun _ _ => rfl) ?_)
  have go : ∀ (l : List Nat) (s1 : St), TI s1 L → Ends E (mapM' (fun r => do
      if (← getRing r).node.isSome then
        let a ← ringArea r
        pure (r, true, a.abs)
      else pure (r, false, .nan)) l) s1 fun keys s' => (OnlyStats s1 s' ∧ TI s' L ∧ (∀ k, (s1.rings k).area.isNan = false → (s'.rings k).area.isNan = false)
        ∧ ∀ k ∈ l, L k ≠ [] → (s'.rings k).area.isNan = false) ∧ keys.map Prod.fst = l := by
    intro l
    induction l with
    | nil => intro s1 h1; rw [mapM']; exact Ends.pure ⟨⟨Preo.refl _, h1, fun _ h => h, by simp⟩, rfl⟩
    | cons r l ih =>
      intro s1 h1
      rw [mapM']
      refine Ends.bind (Ends.imp (Q := fun b s2 => b.1 = r ∧ OnlyStats s1 s2 ∧ TI s2 L ∧ (∀ k, (s1.rings k).area.isNan = false → (s2.rings k).area.isNan = false)
        ∧ (L r ≠ [] → (s2.rings r).area.isNan = false)) ?_ ?_)
      · refine Ends.bind (Ends.getRing (Ends.ite (fun e => ?_) fun e => ?_))
        · refine Ends.bind ((ends_ringArea h1.own r).imp ?_)
          rintro a s2 ⟨-, h2⟩
          refine Ends.pure ⟨rfl, h2.only, (h2.step h1).ti, h2.notNan, fun hr => ?_⟩
          cases hn : (s1.rings r).area.isNan with
          | false => exact h2.notNan r hn
          | true => exact (h2.filled hn hr).notNan
        · refine Ends.pure ⟨rfl, Preo.refl _, h1, fun _ h => h, fun hr => ?_⟩
          rw [h1.own.head r] at e
          cases hl : L r with
          | nil => exact absurd hl hr
          | cons a t => rw [hl] at e; simp at e
      · rintro b s2 ⟨rfl, h2, h3, h4, h5⟩
        refine Ends.bind ((ih s2 h3).imp ?_)
        rintro keys s3 ⟨⟨k1, k2, k3, k4⟩, k5⟩
        refine Ends.pure ⟨⟨Preo.trans h2 k1, k2, fun k hk => k3 k (h4 k hk), fun k hk hne => ?_⟩, by simp [k5]⟩
        rcases List.mem_cons.1 hk with rfl | hk
        · exact k3 _ (h5 hne)
        · exact k4 k hk hne
  refine (go (List.range s.nr) s h).imp ?_
  rintro keys s' ⟨⟨h1, h2, -, h4⟩, h5⟩
  exact ⟨⟨h1, h2, fun k hk => h4 k (List.mem_range.2 (h.own.cycle k hk).1) hk⟩, h5⟩

theorem ends_reversedSortedRings (h : TI s L) :
    Ends E reversedSortedRings s fun l s' => (OnlyStats s s' ∧ TI s' L ∧ Known s' L) ∧ l.Perm (List.range s.nr) := by
  unfold reversedSortedRings
  refine Ends.bind ((ends_ringKeys_known h).imp ?_)
  rintro keys s1 ⟨h1, h2⟩
  refine Ends.pure ⟨h1, ?_⟩
  rw [← h2]
  exact (pySorted_perm _ _).map _

/-! ## Parents -/

theorem ends_modChildren (p : Option Nat) (f : List (Option Nat) → List (Option Nat)) : Ends E (modChildren p f) s fun _ s' => OnlyKids s s' := by
  cases p with
  | none => exact Ends.modify (fun _ _ => rfl) ⟨fun k => (s.rings k).children, f s.children, rfl⟩
  | some p =>
    have := (onlyKids_modRing p f).pres s
    exact Ends.modRing (f := fun g => { g with children := f g.children }) this

/-- The ring `r` gets the parent `p`. -/
def Hung (r : Nat) (p : Option Nat) (s s' : St) : Prop :=
  ∃ (kids : Nat → List (Option Nat)) (children : List (Option Nat)),
    s' = { s with rings := fun k => { s.rings k with children := kids k, parent := if k = r then p else (s.rings k).parent }, children := children }

theorem ends_reassign (h : TI s L) (hk : Known s L) {r : Nat} {p : Option Nat} (hr : L r ≠ [])
    (hp : match p with | none => (s.rings r).isHole = false | some q => (s.rings r).isHole ≠ (s.rings q).isHole) :
    Ends E (reassignAsChild r p) s fun _ s' => Hung r p s s' := by
  unfold reassignAsChild
  have hs : Ends E (sameOrientation r p) s fun b s' => s' = s ∧ b = false := by
    unfold sameOrientation
    cases p with
    | none =>
      refine (ends_isHole h hk r).imp ?_
      rintro b s ⟨rfl, rfl⟩
      exact ⟨rfl, hp⟩
    | some q =>
      refine Ends.bind ((ends_isHole h hk r).imp ?_)
      rintro b s ⟨rfl, rfl⟩
      refine Ends.bind ((ends_isHole h hk q).imp ?_)
      rintro b s ⟨rfl, rfl⟩
      exact Ends.pure ⟨rfl, by simpa using hp⟩
  refine Ends.bind (hs.imp ?_)
  rintro b s ⟨rfl, rfl⟩
  refine Ends.ite (fun e => by cases e) fun _ => ?_
  refine Ends.bind (Ends.getRing (Ends.bind ((ends_modChildren _ _).imp fun _ s1 h1 => Ends.bind ((ends_modChildren _ _).imp fun _ s2 h2 => ?_))))
  obtain ⟨kids, ch, rfl⟩ : OnlyKids s s2 := Preo.trans h1 h2
  refine Ends.modRing ⟨kids, ch, ?_⟩
  congr 1
  funext k
  by_cases e : k = r
  · subst e; rw [Wagyu.upd_same, if_pos rfl]
  · rw [Wagyu.upd_ne _ _ e, if_neg e]

section
variable {r : Nat} {p : Option Nat}
theorem Hung.ti (h : Hung r p s s') (hs : TI s L) : TI s' L := by
  obtain ⟨kids, ch, rfl⟩ := h
  exact hs.marks rfl rfl rfl fun k => ⟨rfl, rfl, rfl, rfl, rfl, rfl⟩
theorem Hung.alike (h : Hung r p s s') (k : Nat) : Alike (s'.rings k) (s.rings k) := by
  obtain ⟨kids, ch, rfl⟩ := h
  exact ⟨rfl, rfl, rfl, rfl, rfl, rfl⟩
theorem Hung.parent (h : Hung r p s s') (k : Nat) : (s'.rings k).parent = if k = r then p else (s.rings k).parent := by
  obtain ⟨kids, ch, rfl⟩ := h; rfl
theorem Hung.nodes (h : Hung r p s s') : s'.nodes = s.nodes := by obtain ⟨kids, ch, rfl⟩ := h; rfl
theorem Hung.nn (h : Hung r p s s') : s'.nn = s.nn := by obtain ⟨kids, ch, rfl⟩ := h; rfl
theorem Hung.nr (h : Hung r p s s') : s'.nr = s.nr := by obtain ⟨kids, ch, rfl⟩ := h; rfl
theorem Hung.allNodes (h : Hung r p s s') : s'.allNodes = s.allNodes := by obtain ⟨kids, ch, rfl⟩ := h; rfl
end

theorem ends_findContaining (h : TI s L) (hk : Known s L) {r : Nat} (hr : L r ≠ []) (ha : area2 (pointsOf s.nodes (L r)) ≠ 0) (before : List Nat) :
    Ends Unplaced (findContaining r before) s fun o s' => s' = s ∧ ∀ q, o = some q → q ∈ before ∧ L q ≠ [] ∧ (s.rings r).isHole ≠ (s.rings q).isHole
      ∧ VertexInside (pointsOf s.nodes (L r)) (pointsOf s.nodes (L q)) := by
  induction before with
  | nil => rw [findContaining]; exact Ends.pure ⟨rfl, nofun⟩
  | cons q rest ih =>
    have ih' : Ends Unplaced (findContaining r rest) s fun o s' => s' = s ∧ ∀ x, o = some x → x ∈ q :: rest ∧ L x ≠ [] ∧ (s.rings r).isHole ≠ (s.rings x).isHole
        ∧ VertexInside (pointsOf s.nodes (L r)) (pointsOf s.nodes (L x)) :=
      ih.imp fun o s' h1 => ⟨h1.1, fun x hx => ⟨List.mem_cons_of_mem _ (h1.2 x hx).1, (h1.2 x hx).2⟩⟩
    rw [findContaining]
    refine Ends.bind ((ends_isHole h hk r).imp ?_)
    rintro b s ⟨rfl, rfl⟩
    refine Ends.bind ((ends_isHole h hk q).imp ?_)
    rintro b s ⟨rfl, rfl⟩
    refine Ends.ite (fun _ => ih') fun hne => ?_
    refine Ends.bind ((ends_ringInsideOf h hk hr ha).imp ?_)
    rintro b s ⟨rfl, hb⟩
    refine Ends.ite (fun e => Ends.pure ⟨rfl, ?_⟩) fun _ => ih'
    rintro x ⟨⟩
    exact ⟨by simp, (hb e).1, hne, (hb e).2⟩

end

end Wagyu
