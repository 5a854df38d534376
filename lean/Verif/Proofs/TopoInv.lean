import Verif.Proofs.Ends
import Verif.Proofs.Surgery
import Verif.Spec.OwnRings

/-!
# The heaps during the topology correction
-/

namespace Wagyu

open Spec

/-- Every ring is a closed list of the nodes that record it. -/
abbrev Own (s : St) (L : Nat → List Nat) : Prop := Owned s.nodes s.nn (fun r => (s.rings r).node) s.nr L

section
variable {s s' : St} {L : Nat → List Nat}

theorem Own.wf (h : Own s L) (k : Nat) : Own (s.wf k) L := h

theorem Own.dist (h : Own s L) {i r r' : Nat} (h1 : i ∈ L r) (h2 : i ∈ L r') : r = r' :=
  Option.some.inj ((h.own r i h1).2.symm.trans (h.own r' i h2).2)

theorem Own.big (h : Own s L) {r : Nat} (hr : s.nr ≤ r) : L r = [] := by
  by_contra e
  have := (h.cycle r e).1
  omega

theorem Own.lt (h : Own s L) {r i : Nat} (hi : i ∈ L r) : r < s.nr := (h.cycle r (List.ne_nil_of_mem hi)).1

theorem Own.cyc (h : Own s L) {r i : Nat} (hi : i ∈ L r) : IsCycle s.nodes (L r) := (h.cycle r (List.ne_nil_of_mem hi)).2

/-- The rings in `D` exchange nodes or lose some. -/
theorem Own.update (h : Own s L) (D : Nat → Prop) (L' : Nat → List Nat) (hnn : s'.nn = s.nn) (hnr : s.nr ≤ s'.nr)
    (hL : ∀ r, ¬ D r → L' r = L r) (hf : ∀ r, ¬ D r → (s'.rings r).node = (s.rings r).node)
    (hout : ∀ i, (∀ d, D d → i ∉ L d) → s'.nodes i = s.nodes i)
    (hh : ∀ d, D d → (s'.rings d).node = (L' d).head?)
    (hc : ∀ d, D d → L' d ≠ [] → d < s'.nr ∧ IsCycle s'.nodes (L' d))
    (hown : ∀ d, D d → ∀ i ∈ L' d, (∃ e, D e ∧ i ∈ L e) ∧ (s'.nodes i).ring = some d)
    (hk : ∀ e, D e → ∀ i ∈ L e, ∀ r, (s'.nodes i).ring = some r → D r ∧ i ∈ L' r) : Own s' L' := by
  have keep : ∀ r, ¬ D r → ∀ i ∈ L r, s'.nodes i = s.nodes i := fun r hr i hi =>
    hout i fun d hd hid => hr (h.dist hi hid ▸ hd)
  refine ⟨fun r => ?_, fun r hr => ?_, fun r i hi => ?_, fun i hi r hr => ?_⟩
  · by_cases hd : D r
    · exact hh r hd
    · show (s'.rings r).node = _
      rw [hf r hd, hL r hd]; exact h.head r
  · by_cases hd : D r
    · exact hc r hd hr
    · rw [hL r hd] at hr ⊢
      obtain ⟨h1, h2⟩ := h.cycle r hr
      exact ⟨by omega, IsCycle_congr h2 fun i hi => by rw [keep r hd i hi]; exact ⟨rfl, rfl⟩⟩
  · by_cases hd : D r
    · obtain ⟨⟨e, he, hie⟩, h2⟩ := hown r hd i hi
      exact ⟨hnn ▸ (h.own e i hie).1, h2⟩
    · rw [hL r hd] at hi
      obtain ⟨h1, h2⟩ := h.own r i hi
      exact ⟨hnn ▸ h1, by rw [keep r hd i hi]; exact h2⟩
  · by_cases hd : ∃ e, D e ∧ i ∈ L e
    · obtain ⟨e, he, hie⟩ := hd
      exact (hk e he i hie r hr).2
    · have hsame := hout i fun d hdd hid => hd ⟨d, hdd, hid⟩
      rw [hsame] at hr
      have hir := h.kept i (hnn ▸ hi) r hr
      have : ¬ D r := fun hdr => hd ⟨r, hdr, hir⟩
      rw [hL r this]; exact hir

end

/-! ## The measure -/

/-- What a ring weighs. -/
def nwt (l : List Nat) : Nat := 2 * l.length - 1

/-- Splitting a ring, joining two rings with the loss of a node, and dropping nodes make this smaller. -/
def weight (L : Nat → List Nat) (m : Nat) : Nat := ((List.range m).map fun r => nwt (L r)).sum

theorem weight_succ (L : Nat → List Nat) (m : Nat) : weight L (m + 1) = weight L m + nwt (L m) := by
  unfold weight; rw [List.range_succ]; simp

theorem weight_congr {L L' : Nat → List Nat} {m : Nat} (h : ∀ r < m, nwt (L' r) = nwt (L r)) : weight L' m = weight L m := by
  induction m with
  | zero => rfl
  | succ m ih => rw [weight_succ, weight_succ, ih fun r hr => h r (by omega), h m (by omega)]

theorem weight_upd {L : Nat → List Nat} {m r : Nat} (hr : r < m) (l : List Nat) :
    weight (upd L r l) m + nwt (L r) = weight L m + nwt l := by
  induction m with
  | zero => omega
  | succ m ih =>
    rw [weight_succ, weight_succ]
    by_cases e : r = m
    · subst e
      rw [Wagyu.upd_same, weight_congr (L := L) fun k hk => by rw [Wagyu.upd_ne _ _ (by omega)]]
      omega
    · rw [Wagyu.upd_ne _ _ (Ne.symm e)]
      have := ih (by omega)
      omega

/-! ## Statistics -/

/-- Only cached statistics are changed. -/
def OnlyStats (s s' : St) : Prop :=
  ∃ g : Nat → Ring, s' = { s with rings := g } ∧ ∀ r, (g r).resetStats = (s.rings r).resetStats

instance : Preo OnlyStats where
  refl s := ⟨s.rings, rfl, fun _ => rfl⟩
  trans := by rintro a b c ⟨g, rfl, h⟩ ⟨g', rfl, h'⟩; exact ⟨g', rfl, fun r => (h' r).trans (h r)⟩

theorem OnlyStats.node {s s' : St} (h : OnlyStats s s') (r : Nat) : (s'.rings r).node = (s.rings r).node := by
  obtain ⟨g, rfl, h⟩ := h
  have := congrArg Ring.node (h r)
  exact this
theorem OnlyStats.parent {s s' : St} (h : OnlyStats s s') (r : Nat) : (s'.rings r).parent = (s.rings r).parent := by
  obtain ⟨g, rfl, h⟩ := h
  have := congrArg Ring.parent (h r)
  exact this
theorem OnlyStats.corrected {s s' : St} (h : OnlyStats s s') (r : Nat) : (s'.rings r).corrected = (s.rings r).corrected := by
  obtain ⟨g, rfl, h⟩ := h
  have := congrArg Ring.corrected (h r)
  exact this

theorem OnlyStats.nodes {s s' : St} (h : OnlyStats s s') : s'.nodes = s.nodes := by obtain ⟨g, rfl, h⟩ := h; rfl
theorem OnlyStats.nn {s s' : St} (h : OnlyStats s s') : s'.nn = s.nn := by obtain ⟨g, rfl, h⟩ := h; rfl
theorem OnlyStats.nr {s s' : St} (h : OnlyStats s s') : s'.nr = s.nr := by obtain ⟨g, rfl, h⟩ := h; rfl
theorem OnlyStats.allNodes {s s' : St} (h : OnlyStats s s') : s'.allNodes = s.allNodes := by obtain ⟨g, rfl, h⟩ := h; rfl

theorem OnlyStats.own {s s' : St} {L : Nat → List Nat} (h : OnlyStats s s') (hL : Own s L) : Own s' L := by
  have e : (fun r => (s'.rings r).node) = fun r => (s.rings r).node := funext h.node
  show Owned _ _ (fun r => (s'.rings r).node) _ _
  rw [e, h.nodes, h.nn, h.nr]; exact hL

/-- The statistics of a ring with the nodes `l`. -/
structure StatsOf (nodes : Nat → Node) (l : List Nat) (g : Ring) : Prop where
  area : g.area = intDiv (area2 (pointsOf nodes l)) 2
  size : g.size = l.length
  hole : g.isHole = F64.le g.area (.fin 0)
  box : IsTightBox g.box (pointsOf nodes l)

section
variable {s : St} {L : Nat → List Nat} {E : Err → Prop}

theorem ends_nodeStats {a : Nat} {t : List Nat} (hl : IsCycle s.nodes (a :: t)) :
    Ends E (nodeStats a) s fun st s' => s' = s ∧ st.1 = intDiv (area2 (pointsOf s.nodes (a :: t))) 2
      ∧ st.2.1 = (a :: t).length ∧ IsTightBox st.2.2 (pointsOf s.nodes (a :: t)) := by
  obtain ⟨box, h1, h2⟩ := stats_spec (s := s.wf (t.length + 1)) hl (Nat.lt_succ_self _)
  refine Ends.run (s' := s) (a := (_, _, box)) (t.length + 1) (fun k hk => ?_) ⟨rfl, rfl, rfl, h2⟩
  have e1 := nodeStats_run (s := s.wf (t.length + 1)) hl (Nat.lt_succ_self _)
  have e2 := nodeStats_run (s := s.wf k) hl (by show t.length < k; omega)
  rw [e1] at h1
  rw [e2]
  have := (Res.ok.injEq _ _ _ _).mp h1
  simp only at this ⊢
  rw [show (s.wf k).nodes = (s.wf (t.length + 1)).nodes from rfl, this.1]
  rfl

theorem ends_recalculateStats (h : Own s L) (r : Nat) :
    Ends E (recalculateStats r) s fun _ s' => OnlyStats s s' ∧ (∀ k, k ≠ r → s'.rings k = s.rings k)
      ∧ (L r ≠ [] → StatsOf s.nodes (L r) (s'.rings r)) ∧ (L r = [] → s' = s) := by
  unfold recalculateStats
  refine Ends.bind (Ends.getRing ?_)
  have hh : (s.rings r).node = (L r).head? := h.head r
  rw [hh]
  cases hl : L r with
  | nil => exact Ends.pure ⟨Preo.refl s, fun _ _ => rfl, fun e => absurd rfl e, fun _ => rfl⟩
  | cons a t =>
    have hc := (h.cycle r (by rw [hl]; simp)).2
    rw [hl] at hc
    refine Ends.bind ((ends_nodeStats hc).imp ?_)
    rintro ⟨ar, sz, bx⟩ s ⟨rfl, h1, h2, h3⟩
    simp only at h1 h2 h3
    subst h1 h2
    refine Ends.modRing ⟨⟨_, rfl, fun k => ?_⟩, fun k hk => ?_, fun _ => ?_, fun e => by cases e⟩
    · by_cases e : k = r
      · subst e; rw [Wagyu.upd_same]; rfl
      · rw [Wagyu.upd_ne _ _ e]
    · exact Wagyu.upd_ne _ _ hk
    · simp only [Wagyu.upd_same]
      exact ⟨rfl, rfl, rfl, h3⟩

/-- Reading a statistic fills the cache of a ring whose area is not known. -/
structure StatsRead (s : St) (L : Nat → List Nat) (r : Nat) (s' : St) : Prop where
  only : OnlyStats s s'
  other : ∀ k, k ≠ r → s'.rings k = s.rings k
  known : (s.rings r).area.isNan = false → s' = s
  filled : (s.rings r).area.isNan = true → L r ≠ [] → StatsOf s.nodes (L r) (s'.rings r)
  blank : L r = [] → s' = s

theorem ends_readStats {α : Type} (h : Own s L) (r : Nat) (f : Ring → α) :
    Ends E (do
      if (← getRing r).area.isNan then recalculateStats r
      pure (f (← getRing r))) s fun a s' => a = f (s'.rings r) ∧ StatsRead s L r s' := by
  refine Ends.bind (Ends.getRing ?_)
  have fin : ∀ s', StatsRead s L r s' → Ends E (do pure (f (← getRing r))) s' fun a s' => a = f (s'.rings r) ∧ StatsRead s L r s' :=
    fun s' hs' => Ends.bind (Ends.getRing (Ends.pure ⟨rfl, hs'⟩))
  refine Ends.ite (fun hn => ?_) fun hn => ?_
  · refine Ends.bind ((ends_recalculateStats h r).imp fun _ s' h1 => fin s' ?_)
    exact ⟨h1.1, h1.2.1, fun hk => (by rw [hk] at hn; cases hn), fun _ => h1.2.2.1, h1.2.2.2⟩
  · exact fin s ⟨Preo.refl s, fun _ _ => rfl, fun _ => rfl, fun e => absurd e hn, fun _ => rfl⟩

theorem ends_ringArea (h : Own s L) (r : Nat) :
    Ends E (ringArea r) s fun a s' => a = (s'.rings r).area ∧ StatsRead s L r s' := ends_readStats h r Ring.area
theorem ends_ringIsHole (h : Own s L) (r : Nat) :
    Ends E (ringIsHole r) s fun a s' => a = (s'.rings r).isHole ∧ StatsRead s L r s' := ends_readStats h r Ring.isHole
theorem ends_ringSize (h : Own s L) (r : Nat) :
    Ends E (ringSize r) s fun a s' => a = (s'.rings r).size ∧ StatsRead s L r s' := ends_readStats h r Ring.size

end

/-! ## Removing rings -/

theorem bind_assoc' {α β γ : Type} (m : M α) (f : α → M β) (g : β → M γ) : m >>= f >>= g = m >>= fun a => f a >>= g := by
  funext s
  simp only [run_bind]
  cases m s <;> rfl


/-- Only lists of children are changed. -/
def OnlyKids (s s' : St) : Prop :=
  ∃ (kids : Nat → List (Option Nat)) (children : List (Option Nat)),
    s' = { s with rings := fun k => { s.rings k with children := kids k }, children := children }

instance : Preo OnlyKids where
  refl s := ⟨fun k => (s.rings k).children, s.children, rfl⟩
  trans := by rintro a b c ⟨g, ch, rfl⟩ ⟨g', ch', rfl⟩; exact ⟨g', ch', rfl⟩

theorem onlyKids_modRing (r : Nat) (f : List (Option Nat) → List (Option Nat)) :
    Pres OnlyKids (modRing r fun g => { g with children := f g.children }) := by
  constructor
  intro s
  refine ⟨fun k => if k = r then f (s.rings r).children else (s.rings k).children, s.children, ?_⟩
  show ({ s with rings := upd s.rings r { s.rings r with children := f (s.rings r).children } } : St) = _
  congr 1
  funext k
  unfold upd
  by_cases e : k = r
  · subst e; simp
  · simp [e]

instance onlyKids_modChildren (p : Option Nat) (f : List (Option Nat) → List (Option Nat)) : Pres OnlyKids (modChildren p f) := by
  cases p with
  | none => exact ⟨fun s => ⟨fun k => (s.rings k).children, f s.children, rfl⟩⟩
  | some p => exact onlyKids_modRing p f

/-- The children are forgotten, and the ring leaves the list of its parent. -/
def unlistRing (ring : Nat) : M Unit := do
  let children := (← getRing ring).children
  forElse children.length (fun (i : Nat) => do
    match (← getRing ring).children.getD i none with
    | none => pure (.inl (i + 1))
    | some _ =>
      modRing ring fun g => { g with children := g.children.set i none }
      pure (.inl (i + 1))) (fun _ => pure ()) (0 : Nat)
  let parent := (← getRing ring).parent
  modChildren parent (removeFromChildren ring)

theorem removeRing_eq (k r : Nat) : removeRing (k + 1) r false true
    = (do unlistRing r; modRing r fun g => { g with node := none }.resetStats) := by
  rw [removeRing]
  unfold unlistRing
  simp only [Bool.false_eq_true, if_false, if_true, bind_assoc']
  rfl

theorem removeRingAndPoints_eq (k r : Nat) : removeRingAndPoints (k + 1) r false true
    = (do unlistRing r; detachNodes r; modRing r fun g => { g with node := none }.resetStats) := by
  rw [removeRingAndPoints]
  unfold unlistRing
  simp only [Bool.false_eq_true, if_false, if_true, bind_assoc']
  rfl

instance Steady.unlistRing (r : Nat) : Steady (unlistRing r) := by
  unfold Wagyu.unlistRing
  steady

theorem post_unlistRing (r : Nat) (s : St) : Post (unlistRing r) s (fun _ s' => OnlyKids s s') fun _ _ => False := by
  unfold unlistRing
  refine Post.bind (Post.getRing (Post.bind ?_))
  refine Post.imp (Post.forElse (Q := fun _ s' => OnlyKids s s') (fun _ s' => OnlyKids s s') (fun i s' h => ?_) (fun _ _ h => Post.pure h) _ _ _ (Preo.refl s)) ?_
  · refine Post.bind (Post.getRing ?_)
    split
    · exact Post.pure h
    · exact Post.bind (Post.modRing (Post.pure (Preo.trans h ((onlyKids_modRing r fun l => l.set i none).pres s'))))
  · intro _ s1 h1
    refine Post.bind (Post.getRing ?_)
    have := (onlyKids_modChildren (s1.rings r).parent (removeFromChildren r)).pres s1
    cases hp : (s1.rings r).parent with
    | none => rw [hp] at this; exact Preo.trans h1 this
    | some p => rw [hp] at this; exact Preo.trans h1 this

theorem ends_unlistRing {E : Err → Prop} (r : Nat) (s : St) : Ends E (unlistRing r) s fun _ s' => OnlyKids s s' :=
  Ends.never (Ends.steady (post_unlistRing r s))

/-- The state after the ring `o` is removed: only lists of children change, and `o` records no node and no statistics. -/
def Gone (o : Nat) (s s' : St) : Prop :=
  ∃ (kids : Nat → List (Option Nat)) (children : List (Option Nat)),
    s' = { s with
      rings := fun k => if k = o then { s.rings k with node := none, children := kids k }.resetStats else { s.rings k with children := kids k }
      children := children }

theorem gone_of {o : Nat} {s s1 : St} (h : OnlyKids s s1) :
    Gone o s { s1 with rings := upd s1.rings o { s1.rings o with node := none }.resetStats } := by
  obtain ⟨kids, ch, rfl⟩ := h
  refine ⟨kids, ch, ?_⟩
  congr 1
  funext k
  by_cases e : k = o
  · subst e; simp [Wagyu.upd_same]
  · rw [Wagyu.upd_ne _ _ e, if_neg e]

section
variable {s s' : St} {o : Nat}
theorem Gone.nodes (h : Gone o s s') : s'.nodes = s.nodes := by obtain ⟨k, c, rfl⟩ := h; rfl
theorem Gone.nn (h : Gone o s s') : s'.nn = s.nn := by obtain ⟨k, c, rfl⟩ := h; rfl
theorem Gone.nr (h : Gone o s s') : s'.nr = s.nr := by obtain ⟨k, c, rfl⟩ := h; rfl
theorem Gone.allNodes (h : Gone o s s') : s'.allNodes = s.allNodes := by obtain ⟨k, c, rfl⟩ := h; rfl
theorem Gone.node (h : Gone o s s') (r : Nat) : (s'.rings r).node = if r = o then none else (s.rings r).node := by
  obtain ⟨k, c, rfl⟩ := h
  show Ring.node (if r = o then _ else _) = _
  split <;> rfl
theorem Gone.parent (h : Gone o s s') (r : Nat) : (s'.rings r).parent = (s.rings r).parent := by
  obtain ⟨k, c, rfl⟩ := h
  show Ring.parent (if r = o then _ else _) = _
  split <;> rfl
theorem Gone.corrected (h : Gone o s s') (r : Nat) : (s'.rings r).corrected = (s.rings r).corrected := by
  obtain ⟨k, c, rfl⟩ := h
  show Ring.corrected (if r = o then _ else _) = _
  split <;> rfl
theorem Gone.other (h : Gone o s s') {r : Nat} (hr : r ≠ o) : { s'.rings r with children := (s.rings r).children } = s.rings r := by
  obtain ⟨k, c, rfl⟩ := h
  show ({ (if r = o then _ else _ : Ring) with children := _ } : Ring) = _
  rw [if_neg hr]
theorem Gone.statless (h : Gone o s s') : (s'.rings o).resetStats = s'.rings o := by
  obtain ⟨k, c, rfl⟩ := h
  show Ring.resetStats (if o = o then _ else _) = (if o = o then _ else _ : Ring)
  rw [if_pos rfl]; rfl
theorem Gone.nan (h : Gone o s s') : (s'.rings o).area = .nan := by
  obtain ⟨k, c, rfl⟩ := h
  show Ring.area (if o = o then _ else _) = _
  rw [if_pos rfl]; rfl
end

theorem Ends.fuelArg {α : Type} {E : Err → Prop} {s : St} {Q : α → St → Prop} {f : Nat → M α} {m : M α} (hf : ∀ k, f (k + 1) = m)
    (h : Ends E m s Q) : Ends E (do let fuel ← Wagyu.gets St.fuel; f fuel) s Q := by
  have key : ∀ k, 1 ≤ k → (do let fuel ← Wagyu.gets St.fuel; f fuel : M α) (s.wf k) = m (s.wf k) := by
    intro k hk
    obtain ⟨k, rfl⟩ : ∃ j, k = j + 1 := ⟨k - 1, by omega⟩
    rw [run_bind, run_gets]
    show f (k + 1) _ = _
    rw [hf]
  obtain ⟨N, ⟨a, s', h2, h3⟩ | ⟨e, s', h2, h3⟩⟩ := h
  · exact ⟨max N 1, Or.inl ⟨a, s', fun k hk => by rw [key k (by omega), h2 k (by omega)], h3⟩⟩
  · exact ⟨max N 1, Or.inr ⟨e, s', h2, fun k hk => by rw [key k (by omega), h3 k (by omega)]⟩⟩

section
variable {s s' : St} {L : Nat → List Nat} {E : Err → Prop}

theorem ends_removeRing (s : St) (r : Nat) : Ends E (removeRingKeepChildren r) s fun _ s' => Gone r s s' := by
  unfold removeRingKeepChildren
  refine Ends.fuelArg (fun k => removeRing_eq k r) ?_
  exact Ends.bind ((ends_unlistRing r s).imp fun _ s1 h1 => Ends.modRing (gone_of h1))

/-- The heap with the nodes in `l` discarded. -/
def discard (l : List Nat) (h : Nat → Node) : Nat → Node :=
  fun i => if i ∈ l then { h i with prev := none, next := none, ring := none } else h i

theorem discard_eq_of {l : List Nat} {h h' : Nat → Node} (e1 : ∀ i ∈ l, h' i = { h i with prev := none, next := none, ring := none })
    (e2 : ∀ i, i ∉ l → h' i = h i) : h' = discard l h := by
  funext i
  unfold discard
  split
  · exact e1 i ‹_›
  · exact e2 i ‹_›

theorem ends_detachNodes' (r : Nat) {l : List Nat} (hh : (s.rings r).node = l.head?) (hcl : l ≠ [] → IsCycle s.nodes l) :
    Ends E (detachNodes r) s fun _ s' => s' = { s with nodes := discard l s.nodes } := by
  unfold detachNodes
  refine Ends.bind (Ends.getRing ?_)
  rw [hh]
  cases hl : l with
  | nil =>
    refine Ends.pure ?_
    have : discard [] s.nodes = s.nodes := by funext i; simp [discard]
    rw [this]
  | cons a t =>
    have hc := hcl (by rw [hl]; simp)
    rw [hl] at hc
    obtain ⟨hnd, hseg, hclose⟩ := (isCycle_iff (by simp)).1 hc
    refine Ends.bind (Ends.prevOf hclose.2 ?_)
    refine Ends.bind (Ends.setNext ?_)
    set z := (a :: t).getLast (by simp) with hz
    have hzm : z ∈ a :: t := List.getLast_mem _
    -- the nodes still to be visited
    refine Ends.loopN (fun n (c : Option Nat) s1 => ∃ done todo, a :: t = done ++ todo ∧ c = todo.head? ∧ n = todo.length
        ∧ s1 = { s with nodes := discard done (upd s.nodes z { s.nodes z with next := none }) }) ?_
      (n := (a :: t).length) ⟨[], a :: t, rfl, rfl, rfl, ?_⟩
    · rintro n c s1 ⟨done, todo, e1, rfl, rfl, rfl⟩
      cases todo with
      | nil =>
        refine Ends.pure ?_
        simp only [List.append_nil] at e1
        subst e1
        show _ = _
        congr 1
        refine discard_eq_of (fun i hi => ?_) fun i hi => ?_
        · unfold discard
          rw [if_pos hi]
          by_cases e : i = z
          · subst e; rw [Wagyu.upd_same]
          · rw [Wagyu.upd_ne _ _ e]
        · unfold discard
          rw [if_neg hi, Wagyu.upd_ne _ _ (show i ≠ z from fun e => hi (e ▸ hzm))]
      | cons c todo =>
        refine Ends.bind (Ends.getNode (Ends.bind (Ends.modNode (Ends.pure ?_))))
        have hcd : c ∉ done := by
          rw [e1] at hnd
          intro hcd
          exact (List.nodup_append.1 hnd).2.2 c hcd c (by simp) rfl
        refine ⟨todo.length, by simp, done ++ [c], todo, by simp [e1], ?_, rfl, ?_⟩
        · unfold discard
          simp only [if_neg hcd]
          cases todo with
          | nil =>
            have : z = c := by rw [hz]; simp only [e1]; simp
            rw [this, Wagyu.upd_same]; rfl
          | cons d todo =>
            have hcz : c ≠ z := by
              refine ne_getLast_of_dropLast (by simp) hnd ?_
              rw [e1, List.dropLast_append_of_ne_nil (by simp)]
              simp
            rw [Wagyu.upd_ne _ _ hcz]
            rw [e1, List.isChain_append] at hseg
            exact (List.isChain_cons_cons.1 hseg.2.1).1.1
        · congr 1
          funext i
          unfold discard
          by_cases e : i = c
          · subst e; rw [Wagyu.upd_same]; simp [hcd]
          · rw [Wagyu.upd_ne _ _ e]; simp [e]
    · have : discard [] (upd s.nodes z { s.nodes z with next := none }) = upd s.nodes z { s.nodes z with next := none } := by
        funext i; simp [discard]
      rw [this]

theorem ends_detachNodes (h : Own s L) (r : Nat) :
    Ends E (detachNodes r) s fun _ s' => s' = { s with nodes := discard (L r) s.nodes } :=
  ends_detachNodes' r (h.head r) fun hr => (h.cycle r hr).2

/-- The state after the ring `o` with the nodes `l` is removed with its nodes. -/
def GonePts (o : Nat) (l : List Nat) (s s' : St) : Prop := Gone o { s with nodes := discard l s.nodes } s'

theorem OnlyKids.own {s s' : St} {L : Nat → List Nat} (h : OnlyKids s s') (hL : Own s L) : Own s' L := by
  obtain ⟨g, c, rfl⟩ := h
  exact hL

theorem OnlyKids.node' {s s' : St} (h : OnlyKids s s') {r : Nat} : (s'.rings r).node = (s.rings r).node := by
  obtain ⟨g, c, rfl⟩ := h; rfl
theorem OnlyKids.nodes' {s s' : St} (h : OnlyKids s s') : s'.nodes = s.nodes := by
  obtain ⟨g, c, rfl⟩ := h; rfl

theorem ends_removeRingAndPoints' (r : Nat) {l : List Nat} (hh : (s.rings r).node = l.head?) (hcl : l ≠ [] → IsCycle s.nodes l) :
    Ends E (removeRingAndPointsKeepChildren r) s fun _ s' => GonePts r l s s' := by
  unfold removeRingAndPointsKeepChildren
  refine Ends.fuelArg (fun k => removeRingAndPoints_eq k r) ?_
  refine Ends.bind ((ends_unlistRing r s).imp fun _ s1 h1 => ?_)
  refine Ends.bind ((ends_detachNodes' r (by rw [h1.node']; exact hh) (by rw [h1.nodes']; exact hcl)).imp ?_)
  rintro _ s2 rfl
  refine Ends.modRing ?_
  have := gone_of (o := r) (s := { s with nodes := discard l s.nodes }) (s1 := { s1 with nodes := discard l s1.nodes }) ?_
  · exact this
  · obtain ⟨g, c, rfl⟩ := h1
    exact ⟨g, c, rfl⟩

theorem ends_removeRingAndPoints (h : Own s L) (r : Nat) :
    Ends E (removeRingAndPointsKeepChildren r) s fun _ s' => GonePts r (L r) s s' :=
  ends_removeRingAndPoints' r (h.head r) fun hr => (h.cycle r hr).2

/-- Removing a ring with its nodes. -/
theorem GonePts.own {r : Nat} (h : Own s L) (hg : GonePts r (L r) s s') : Own s' (upd L r []) := by
  have hg : Gone r { s with nodes := discard (L r) s.nodes } s' := hg
  have hn : s'.nodes = discard (L r) s.nodes := Gone.nodes hg
  have h1 := Gone.nn hg
  have h2 := Gone.nr hg
  dsimp only at h1 h2
  refine h.update (· = r) _ h1 h2.ge (fun k hk => Wagyu.upd_ne _ _ hk) (fun k hk => ?_) (fun i hi => ?_) ?_ ?_ ?_ ?_
  · rw [Gone.node hg, if_neg hk]
  · rw [hn]; unfold discard; rw [if_neg (hi r rfl)]
  · rintro d rfl; rw [Gone.node hg, if_pos rfl, Wagyu.upd_same]; rfl
  · rintro d rfl hd; rw [Wagyu.upd_same] at hd; exact absurd rfl hd
  · rintro d rfl i hi; rw [Wagyu.upd_same] at hi; cases hi
  · rintro d rfl i hi k hk
    rw [hn] at hk; unfold discard at hk; rw [if_pos hi] at hk; cases hk

end

end Wagyu
