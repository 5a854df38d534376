import Verif.Proofs.TwoVatti

/-!
# Two runs: whole operations
-/

namespace Wagyu

abbrev KV : Nat → Bound → Bound → Prop := KL fun _ => False

section
variable {N D : Nat → Prop} {s t : St}

def NMin (N : Nat → Prop) (m : LocalMinimum) : Prop := N m.left ∧ N m.right

theorem KV.of_start {b : Nat} {x y : Bound} (h : SameInput y x) (hc : y.cur = x.cur) (hn : y.nxt = x.nxt) (hx : y.currentX = x.currentX)
    (h1 : y.windingCount = x.windingCount) (h2 : y.oppositeWindingCount = x.oppositeWindingCount) (h3 : y.side = x.side)
    (h4 : y.ring = none) (h5 : x.ring = none) : KV b x y := by
  refine ⟨y.lastPoint, y.position, ?_, fun hw => hw.elim (fun h => (h h5).elim) False.elim⟩
  obtain ⟨i1, i2, i3, i4⟩ := h
  cases x; cases y
  simp_all

theorem two_initialize {b : Nat} {sd : EdgeSide} (hs : Sim KV D s t) (hn : (s.bounds b).edges ≠ [])
    {R : Unit → Unit → St → St → Prop} (hR : ∀ s t, Sim KV (fun c => D c ∨ c = b) s t → R () () s t) :
    Two (initializeBound b sd) (initializeBound b sd) s t R := by
  unfold initializeBound
  refine Two.bind (Two.getBound ?_)
  rw [(hs.input b).edges, if_neg hn]
  have := two_start hs (b := b) (K := KV) (g := fun e bd => { bd with
      currentX := .floatOfInt e.bottom.x, windingCount := 0, oppositeWindingCount := 0, side := sd, ring := none })
      (F := fun _ => (pure () : M Unit)) (R := R) (fun e x y h h1 h2 => ?_) (fun e x => ⟨rfl, rfl, rfl, rfl⟩)
      fun s t hs => Two.pure (hR s t hs)
  · have e : ∀ m : M Unit, (m >>= fun _ => pure ()) = m := by
      intro m
      funext s
      show M.bind m _ s = m s
      unfold M.bind
      cases m s <;> rfl
    simp only [e] at this
    exact this
  · exact KV.of_start ⟨h.edges, h.delta, h.kind, h.partner⟩ h1 h2 rfl rfl rfl rfl rfl rfl

theorem rl_insertLm {op : OperationKind} {sf cf : FillKind} {a b : Nat} (ha : D a) (hb : D b) :
    Rel KV D (insertLmLeftAndRightBound op sf cf a b) fun _ => True := by
  unfold insertLmLeftAndRightBound
  refine Rel.bind (rl_insertBoundIntoAbl ha hb) fun i _ => ?_
  rel

/-- Inserting one minimum. -/
theorem two_minimum {op : OperationKind} {sf cf : FillKind} {m : LocalMinimum} {β : Type} {F : M β} {R : β → β → St → St → Prop}
    (hs : Sim KV D s t) (hn : ∀ b, N b → (s.bounds b).edges ≠ []) (hm : NMin N m)
    (hR : ∀ D s t, Sim KV D s t → (∀ b, N b → (s.bounds b).edges ≠ []) → Two F F s t R) :
    Two (do initializeMinimum m
            insertLmLeftAndRightBound op sf cf m.left m.right
            F)
        (do initializeMinimum m
            insertLmLeftAndRightBound op sf cf m.left m.right
            F) s t R := by
  refine Two.bind (Two.kept (R := fun _ _ s t => Sim KV (fun c => (D c ∨ c = m.left) ∨ c = m.right) s t) ?_ fun _ _ s t h hk => ?_)
  · unfold initializeMinimum
    refine Two.bind (Two.kept (two_initialize (R := fun _ _ s t => Sim KV (fun c => D c ∨ c = m.left) s t) hs (hn _ hm.1) fun s t hs => hs) fun _ _ s t hs hk => ?_)
    exact two_initialize hs (edges_kept hn hk _ hm.2) fun s t hs => hs
  · refine Two.bind (Two.kept ((rl_insertLm (Or.inl (Or.inr rfl)) (Or.inr rfl)).run s t h) fun _ _ s t ⟨_, _, h⟩ hk' => ?_)
    exact hR _ s t h (edges_kept (edges_kept hn hk) hk')

theorem rg_insertHorizontal {op : OperationKind} {sf cf : FillKind} {y : Int} {l : List LocalMinimum} (hl : ∀ m ∈ l, NMin N m) :
    RelG N KV (insertHorizontalLocalMinima op sf cf y l) fun r => ∀ m ∈ r, NMin N m := by
  induction l with
  | nil => exact RelG.pure hl
  | cons m l ih =>
    rw [insertHorizontalLocalMinima]
    refine RelG.ite (fun _ D s t hs hn => ?_) fun _ => RelG.pure hl
    exact two_minimum hs hn (hl m (by simp)) fun D s t hs hn => ih (fun m h => hl m (by simp [h])) D s t hs hn
theorem rg_insertLocalMinima {op : OperationKind} {sf cf : FillKind} {y : Int} {l : List LocalMinimum} (hl : ∀ m ∈ l, NMin N m) :
    RelG N KV (insertLocalMinima op sf cf y l) fun r => ∀ m ∈ r, NMin N m := by
  induction l with
  | nil => exact RelG.pure hl
  | cons m l ih =>
    rw [insertLocalMinima]
    refine RelG.ite (fun _ D s t hs hn => ?_) fun _ => RelG.pure hl
    exact two_minimum hs hn (hl m (by simp)) fun D s t hs hn => ih (fun m h => hl m (by simp [h])) D s t hs hn

theorem rg_processEdges {op : OperationKind} {sf cf : FillKind} {y : Int} {l : List LocalMinimum} (hl : ∀ m ∈ l, NMin N m) :
    RelG N KV (processEdgesAtTopOfScanbeam op sf cf y l) fun r => ∀ m ∈ r, NMin N m := by
  unfold processEdgesAtTopOfScanbeam
  refine RelG.bind (Rel.grow fun _ => rl_topOfScanbeamLoop) fun _ _ => RelG.bind (Rel.grow fun _ => rl_ablFilter) fun _ _ => ?_
  refine RelG.bind (rg_insertHorizontal hl) fun r hr => RelG.bind (Rel.grow fun _ => rl_processHorizontals) fun _ _ => ?_
  have hp : Pres InputKept (do let abl ← Wagyu.gets St.abl; promoteIntermediate y abl; pure r) := by pres
  refine @RelG.of _ _ _ _ _ hp fun D s t hs _ => ?_
  refine Two.bind (rl_gets_abl.two hs fun l s t hl hs => ?_)
  exact Two.bind ((rl_promoteIntermediate hl).two hs fun _ s t _ hs => ⟨rfl, hr, D, hs⟩)

theorem rg_vattiStep {op : OperationKind} {sf cf : FillKind} {y : Int} {l : List LocalMinimum} (hl : ∀ m ∈ l, NMin N m) :
    RelG N KV (vattiStep op sf cf y l) fun r => ∀ m ∈ r.2, NMin N m := by
  unfold vattiStep
  refine RelG.bind (P := fun _ => True) (Rel.grow fun _ => Rel.blind) fun y _ => ?_
  refine RelG.bind (Rel.grow fun _ => rl_processIntersections) fun _ _ => ?_
  refine RelG.bind (P := fun _ => True) (Rel.grow fun _ => Rel.blind) fun _ _ => ?_
  refine RelG.bind (rg_processEdges hl) fun r hr => RelG.bind (rg_insertLocalMinima hr) fun r hr => RelG.pure hr

theorem mem_sortedMinimums {l : List LocalMinimum} {m : LocalMinimum} (h : m ∈ sortedMinimums l) : m ∈ l := by
  unfold sortedMinimums pySortedRev at h
  exact (pySorted_perm' _ _).mem_iff.1 h

theorem two_executeVatti {K : Nat → Bound → Bound → Prop} {op : OperationKind} {sf cf : FillKind} {ms : List LocalMinimum}
    {sb : List Int} (hl : ∀ m ∈ ms, NMin N m) (hs : Sim K D s t) (hn : ∀ b, N b → (s.bounds b).edges ≠ []) :
    Two (executeVatti op sf cf ms sb) (executeVatti op sf cf ms sb) s t fun _ _ s' t' => ∃ D', Sim KV D' s' t' := by
  unfold executeVatti
  refine Two.bind ?_
  show Two _ _ ({ s with scan := sb, abl := [] } : St) ({ t with scan := sb, abl := [] } : St) _
  have h0 : Sim KV (fun _ => False) { s with scan := sb, abl := [] } { t with scan := sb, abl := [] } := by
    refine ⟨?_, hs.input, fun _ h => h.elim, fun _ h => by cases h⟩
    show ({ t with scan := sb, abl := [] } : St) = _
    conv => lhs; rw [hs.rest]
    rfl
  have key : RelG N KV (do
      setCurrentHotPixelIndex 0
      loopM (fun (st : Int × List LocalMinimum) => do
        let scan ← Wagyu.gets St.scan
        if scan = [] ∧ st.2 = [] then pure (Sum.inr ())
        else
          let st ← vattiStep op sf cf st.1 st.2
          pure (Sum.inl st)) (0, sortedMinimums ms)) fun _ => True := by
    refine RelG.bind (P := fun _ => True) (Rel.grow fun _ => Rel.blind) fun _ _ => ?_
    refine RelG.loopM (fun st => ∀ m ∈ st.2, NMin N m) (fun m hm => hl m (mem_sortedMinimums hm)) fun st hst => ?_
    refine RelG.bind (P := fun _ => True) (Rel.grow fun _ => Rel.gets (fun _ _ => rfl) fun _ _ => trivial) fun _ _ => ?_
    refine RelG.ite (fun _ => RelG.pure trivial) fun _ => ?_
    exact RelG.bind (rg_vattiStep hst) fun r hr => RelG.pure hr
  exact (key _ _ _ h0 hn).mono fun _ _ _ _ ⟨_, _, _, h⟩ => h

/-- The operation on states that differ at most in run-time attributes of bounds. -/
theorem two_runOperation {m m' : Minimums} {rev : Bool} {op : OperationKind} {sf cf : FillKind} (hv : m'.values = m.values)
    (hm : ∀ v ∈ m.values, (s.bounds v.left).edges ≠ [] ∧ (s.bounds v.right).edges ≠ [])
    (hr : t = s.withB t.bounds) (hi : ∀ b, SameIn (t.bounds b) (s.bounds b)) (ha : s.abl = []) :
    Two (runOperation m rev op sf cf) (runOperation m' rev op sf cf) s t fun a b _ _ => a = b := by
  have e : runOperation m' rev op sf cf = runOperation m rev op sf cf := by
    unfold runOperation Minimums.scanbeams
    rw [hv]
  rw [e]
  have h0 : Sim KHot (fun _ => False) s t := ⟨hr, hi, fun _ h => h.elim, fun b hb => by rw [ha] at hb; cases hb⟩
  let N := fun b => (s.bounds b).edges ≠ []
  have hN : ∀ b, N b → (s.bounds b).edges ≠ [] := fun b h => h
  have hl : ∀ v ∈ m.values, NMin N v := hm
  clear_value N
  unfold runOperation
  refine Two.bind ((rg_buildHotPixels (N := N) _ s t h0 hN).mono fun _ _ s t ⟨_, _, hN, D, hs⟩ => ?_)
  refine Two.bind ((two_executeVatti hl hs hN).mono fun _ _ s t ⟨D, hs⟩ => ?_)
  have hb : Blind (do correctTopology; buildResult rev) := by blind
  have h1 := hb.eq s t.bounds
  rw [← hs.rest] at h1
  unfold Two
  rw [h1]
  cases (do correctTopology; buildResult rev : M Multipolygon) s <;> rfl

end

/-! ## Objects that hold the same input -/

/-- The same minima, of bounds that are the same part of the input. -/
structure MSim (m m' : Minimums) : Prop where
  values : m'.values = m.values
  nb : m'.nb = m.nb
  input : ∀ b, SameInput (m'.bounds b) (m.bounds b)

/-- The bounds of all minima exist and have edges. -/
def HasEdges (m : Minimums) : Prop :=
  ∀ v ∈ m.values, v.left < m.nb ∧ v.right < m.nb ∧ (m.bounds v.left).edges ≠ [] ∧ (m.bounds v.right).edges ≠ []

theorem input_upd {f g : Nat → Bound} (h : ∀ b, SameInput (g b) (f b)) {i : Nat} {x y : Bound} (hx : SameInput y x) (b : Nat) :
    SameInput (upd g i y b) (upd f i x b) := by
  by_cases e : b = i
  · subst e; rw [upd_same, upd_same]; exact hx
  · rw [upd_ne _ _ e, upd_ne _ _ e]; exact h b

theorem input_link {x y : Bound} (h : SameInput y x) {o : Option Nat} :
    SameInput { y with maximumBound := o } { x with maximumBound := o } := by
  obtain ⟨h1, h2, h3, _⟩ := h
  exact ⟨h1, h2, h3, rfl⟩

theorem addLoop_sim (kind : PolygonKind) (fuel : Nat) (edges : List Edge) (first last : Option Nat) (m m' : Minimums) (h : MSim m m') :
    (addLoop kind fuel edges first last m').2 = (addLoop kind fuel edges first last m).2
      ∧ MSim (addLoop kind fuel edges first last m).1 (addLoop kind fuel edges first last m').1 := by
  induction fuel generalizing edges first last m m' with
  | zero => cases edges <;> exact ⟨rfl, h⟩
  | succ fuel ih =>
    unfold addLoop
    cases edges with
    | nil => exact ⟨rfl, h⟩
    | cons e es =>
      simp only
      split
      · exact ⟨rfl, h⟩
      · split
        · exact ⟨rfl, h⟩
        · split
          · split
            · exact ⟨rfl, h⟩
            · rw [h.nb]
              refine ih _ _ _ _ _ ⟨?_, rfl, fun b => ?_⟩
              · simp only [h.values]
              · have hB : ∀ (p q : Bound) b, SameInput (upd (upd m'.bounds m.nb p) (m.nb + 1) q b) (upd (upd m.bounds m.nb p) (m.nb + 1) q b) :=
                  fun p q => input_upd (input_upd h.input (SameInput.refl _)) (SameInput.refl _)
                simp only
                split
                · exact hB _ _ b
                · exact input_upd (hB _ _) (input_link (hB _ _ _)) b
          · exact ⟨rfl, h⟩

theorem addLinearRing_sim (fuel : Nat) (m m' : Minimums) (ring : List Point) (kind : PolygonKind) (h : MSim m m') :
    (m'.addLinearRing fuel ring kind).2 = (m.addLinearRing fuel ring kind).2
      ∧ MSim (m.addLinearRing fuel ring kind).1 (m'.addLinearRing fuel ring kind).1 := by
  unfold Minimums.addLinearRing
  split
  · exact ⟨rfl, h⟩
  · exact ⟨rfl, h⟩
  · next e es he =>
    dsimp only
    obtain ⟨h1, h2⟩ := addLoop_sim kind (toEdgesStartingOnLocalMaximum (e :: es)).length
      (toEdgesStartingOnLocalMaximum (e :: es)) none none m m' h
    revert h1 h2
    generalize addLoop kind (toEdgesStartingOnLocalMaximum (e :: es)).length
      (toEdgesStartingOnLocalMaximum (e :: es)) none none m = r
    generalize addLoop kind (toEdgesStartingOnLocalMaximum (e :: es)).length
      (toEdgesStartingOnLocalMaximum (e :: es)) none none m' = r'
    intro h1 h2
    obtain ⟨n, r⟩ := r
    obtain ⟨n', r'⟩ := r'
    dsimp only at h1 h2
    subst h1
    rcases r' with e | ⟨f | f, l | l⟩
    · exact ⟨rfl, h2⟩
    · exact ⟨rfl, h2⟩
    · exact ⟨rfl, h2⟩
    · exact ⟨rfl, h2⟩
    · refine ⟨rfl, h2.values, h2.nb, fun b => ?_⟩
      exact input_upd (input_upd h2.input (input_link (h2.input _))) (input_link (input_upd h2.input (input_link (h2.input _)) _)) b

theorem edges_link {f : Nat → Bound} {i : Nat} {o : Option Nat} (b : Nat) :
    (upd f i { f i with maximumBound := o } b).edges = (f b).edges := by
  by_cases e : b = i
  · subst e; rw [upd_same]
  · rw [upd_ne _ _ e]

theorem leading_ne {l : List Edge} {i : Nat} (h : toFirstNonHorizontalIndex l = some i) : (leadingHorizontals l).2 ≠ [] := by
  unfold toFirstNonHorizontalIndex at h
  induction l generalizing i with
  | nil => cases h
  | cons e l ih =>
    rw [leadingHorizontals]
    split
    · next he =>
      dsimp only
      rw [List.findIdx?_cons, he] at h
      simp only [Bool.not_true, Bool.false_eq_true, if_false, Option.map_eq_some_iff] at h
      obtain ⟨j, hj, _⟩ := h
      exact ih hj
    · simp

theorem rotate_ne {α : Type} {l : List α} {i : Int} (h : l ≠ []) : rotateSequence l i ≠ [] := by
  unfold rotateSequence
  split
  · intro hc
    apply h
    have := congrArg List.length hc
    simp only [List.length_append, List.length_drop, List.length_take, List.length_nil] at this
    exact List.length_eq_zero_iff.1 (by omega)
  · exact h

theorem move_ne {l r : List Edge} {i : Nat} (h : toFirstNonHorizontalIndex l = some i) (hr : r ≠ []) :
    (moveHorizontals l r).1 ≠ [] ∧ (moveHorizontals l r).2 ≠ [] := by
  have hl : l ≠ [] := by rintro rfl; cases h
  unfold moveHorizontals
  dsimp only
  split
  · exact ⟨leading_ne h, rotate_ne (by simp [hr])⟩
  · exact ⟨hl, hr⟩

theorem hasEdges_add {m : Minimums} (h : HasEdges m) {p q : Bound} (hp : p.edges ≠ []) (hq : q.edges ≠ []) {f : Nat → Bound}
    (hf : ∀ b, (f b).edges = (upd (upd m.bounds m.nb p) (m.nb + 1) q b).edges) {v : LocalMinimum}
    (hv : (v.left = m.nb ∧ v.right = m.nb + 1) ∨ (v.left = m.nb + 1 ∧ v.right = m.nb)) :
    HasEdges { bounds := f, nb := m.nb + 2, values := m.values ++ [v] } := by
  have h1 : (f m.nb).edges ≠ [] := by rw [hf, upd_ne _ _ (by omega), upd_same]; exact hp
  have h2 : (f (m.nb + 1)).edges ≠ [] := by rw [hf, upd_same]; exact hq
  intro u hu
  rcases List.mem_append.1 hu with hu | hu
  · obtain ⟨a, b, c, d⟩ := h u hu
    have keep : ∀ i < m.nb, (f i).edges = (m.bounds i).edges := fun i hi => by
      rw [hf, upd_ne _ _ (by omega), upd_ne _ _ (by omega)]
    refine ⟨by show _ < m.nb + 2; omega, by show _ < m.nb + 2; omega, ?_, ?_⟩
    · show (f _).edges ≠ []; rw [keep _ a]; exact c
    · show (f _).edges ≠ []; rw [keep _ b]; exact d
  · rw [List.mem_singleton] at hu
    subst hu
    show _ < m.nb + 2 ∧ _ < m.nb + 2 ∧ (f _).edges ≠ [] ∧ (f _).edges ≠ []
    rcases hv with ⟨a, b⟩ | ⟨a, b⟩ <;> rw [a, b]
    · exact ⟨by omega, by omega, h1, h2⟩
    · exact ⟨by omega, by omega, h2, h1⟩

theorem sides_either (d : Bool) (a b : Nat) (y : Int) (h : Bool) :
    ((if d = true then (⟨a, b, y, h⟩ : LocalMinimum) else ⟨b, a, y, h⟩).left = a
        ∧ (if d = true then (⟨a, b, y, h⟩ : LocalMinimum) else ⟨b, a, y, h⟩).right = b)
      ∨ ((if d = true then (⟨a, b, y, h⟩ : LocalMinimum) else ⟨b, a, y, h⟩).left = b
        ∧ (if d = true then (⟨a, b, y, h⟩ : LocalMinimum) else ⟨b, a, y, h⟩).right = a) := by
  cases d
  · exact Or.inr ⟨rfl, rfl⟩
  · exact Or.inl ⟨rfl, rfl⟩

theorem pair_ne {a b : List Edge} {i j : Nat} (ha : toFirstNonHorizontalIndex a = some i) (hb : toFirstNonHorizontalIndex b = some j)
    (c d : Bool) :
    (if c = true then if d = true then moveHorizontals a b
        else ((moveHorizontals b a).2, (moveHorizontals b a).1) else (a, b)).1 ≠ []
      ∧ (if c = true then if d = true then moveHorizontals a b
        else ((moveHorizontals b a).2, (moveHorizontals b a).1) else (a, b)).2 ≠ [] := by
  have na : a ≠ [] := by rintro rfl; cases ha
  have nb : b ≠ [] := by rintro rfl; cases hb
  split_ifs
  · exact move_ne ha nb
  · exact (move_ne hb na).symm
  · exact ⟨na, nb⟩

theorem addLoop_edges (kind : PolygonKind) (fuel : Nat) (edges : List Edge) (first last : Option Nat) (m : Minimums) (h : HasEdges m) :
    HasEdges (addLoop kind fuel edges first last m).1 := by
  induction fuel generalizing edges first last m with
  | zero => cases edges <;> exact h
  | succ fuel ih =>
    unfold addLoop
    cases edges with
    | nil => exact h
    | cons e es =>
      simp only
      split
      · exact h
      · split
        · exact h
        · split
          · next maxE minE hmax hmin =>
            have hx := fun c d => pair_ne hmin hmax c d
            split
            · exact h
            · apply ih
              cases last with
              | none =>
                refine hasEdges_add h ?_ ?_ (fun b => rfl) ?_
                · exact (hx _ _).1
                · exact (hx _ _).2
                · exact sides_either _ _ _ _ _
              | some l =>
                refine hasEdges_add h ?_ ?_ (fun b => edges_link b) ?_
                · exact (hx _ _).1
                · exact (hx _ _).2
                · exact sides_either _ _ _ _ _
          · exact h

theorem addLinearRing_edges (fuel : Nat) (m : Minimums) (ring : List Point) (kind : PolygonKind) (h : HasEdges m) :
    HasEdges (m.addLinearRing fuel ring kind).1 := by
  unfold Minimums.addLinearRing
  split
  · exact h
  · exact h
  · next e es he =>
    dsimp only
    have h1 := addLoop_edges kind (toEdgesStartingOnLocalMaximum (e :: es)).length
      (toEdgesStartingOnLocalMaximum (e :: es)) none none m h
    revert h1
    generalize addLoop kind (toEdgesStartingOnLocalMaximum (e :: es)).length
      (toEdgesStartingOnLocalMaximum (e :: es)) none none m = r
    intro h1
    obtain ⟨n, r⟩ := r
    rcases r with e | ⟨f | f, l | l⟩
    · exact h1
    · exact h1
    · exact h1
    · exact h1
    · intro v hv
      obtain ⟨a, b, c, d⟩ := h1 v hv
      refine ⟨a, b, ?_, ?_⟩
      · show (upd (α := Bound) _ _ _ _).edges ≠ []
        rw [edges_link, edges_link]
        exact c
      · show (upd (α := Bound) _ _ _ _).edges ≠ []
        rw [edges_link, edges_link]
        exact d

/-! ## Histories -/

/-- The same input and settings. -/
structure WSim (w w' : Wagyu) : Prop where
  min : MSim w.minimums w'.minimums
  rev : w'.reverseOutput = w.reverseOutput
  edges : HasEdges w.minimums

theorem WSim.polygon (fuel : Nat) (kind : PolygonKind) : ∀ (rings : Polygon) (w w' : Wagyu) (r : Bool), WSim w w' →
    (w'.addPolygonFrom fuel r kind rings).2 = (w.addPolygonFrom fuel r kind rings).2
      ∧ WSim (w.addPolygonFrom fuel r kind rings).1 (w'.addPolygonFrom fuel r kind rings).1 := by
  intro rings
  induction rings with
  | nil => intro w w' r h; exact ⟨rfl, h⟩
  | cons ring rings ih =>
    intro w w' r h
    have h1 := addLinearRing_sim fuel _ _ ring kind h.min
    have h2 := addLinearRing_edges fuel _ ring kind h.edges
    rw [Wagyu.addPolygonFrom, Wagyu.addPolygonFrom]
    unfold Wagyu.addLinearRing
    revert h1 h2
    generalize w.minimums.addLinearRing fuel ring kind = x
    generalize w'.minimums.addLinearRing fuel ring kind = x'
    intro h1 h2
    obtain ⟨m, x⟩ := x
    obtain ⟨m', x'⟩ := x'
    obtain ⟨h1, h3⟩ := h1
    dsimp only at h1 h2 h3
    subst h1
    rcases x' with e | b
    · exact ⟨rfl, h3, h.rev, h2⟩
    · exact ih _ _ _ ⟨h3, h.rev, h2⟩

theorem WSim.execute (fuel : Nat) (w w' : Wagyu) (op : OperationKind) (sf cf : FillKind) (h : WSim w w') :
    (w'.execute fuel op sf cf).2 = (w.execute fuel op sf cf).2 := by
  unfold Wagyu.execute
  rw [h.min.values]
  split
  · rfl
  · have key := two_runOperation (m := w.minimums) (m' := w'.minimums) (rev := w.reverseOutput) (op := op) (sf := sf) (cf := cf)
      (s := St.init fuel w.minimums.bounds) (t := St.init fuel w'.minimums.bounds) h.min.values
      (fun v hv => (h.edges v hv).2.2) rfl (fun b => (h.min.input b).weak) rfl
    rw [h.rev]
    unfold Two at key
    revert key
    generalize runOperation w.minimums w.reverseOutput op sf cf (St.init fuel w.minimums.bounds) = x
    generalize runOperation w'.minimums w.reverseOutput op sf cf (St.init fuel w'.minimums.bounds) = y
    intro key
    cases x <;> cases y
    · exact congrArg Except.ok (Eq.symm key)
    · exact key.elim
    · exact key.elim
    · exact congrArg Except.error (Eq.symm key)

/-- Operations keep the input of an object. -/
theorem WSim.executed (fuel : Nat) (w w' : Wagyu) (op : OperationKind) (sf cf : FillKind) (h : WSim w w') :
    WSim w (w'.execute fuel op sf cf).1 := by
  obtain ⟨h1, h2, h3, h4⟩ := execute_input fuel w' op sf cf
  exact ⟨⟨h1.trans h.min.values, h2.trans h.min.nb, fun b => (h4 b).trans (h.min.input b)⟩, h3.trans h.rev, h.edges⟩
theorem WSim.symm {w w' : Wagyu} (h : WSim w w') : WSim w' w := by
  refine ⟨⟨h.min.values.symm, h.min.nb.symm, fun b => ?_⟩, h.rev.symm, fun v hv => ?_⟩
  · obtain ⟨h1, h2, h3, h4⟩ := h.min.input b
    exact ⟨h1.symm, h2.symm, h3.symm, h4.symm⟩
  · rw [h.min.values] at hv
    rw [h.min.nb, (h.min.input _).edges, (h.min.input _).edges]
    exact h.edges v hv

/-- Every call has the same reply on objects with the same input, and leaves them with the same input. -/
theorem WSim.call (fuel : Nat) (w w' : Wagyu) (c : Call) (h : WSim w w') :
    (w'.call fuel c).2 = (w.call fuel c).2 ∧ WSim (w.call fuel c).1 (w'.call fuel c).1 := by
  cases c with
  | addLinearRing ring kind =>
    obtain ⟨h1, h2⟩ := addLinearRing_sim fuel _ _ ring kind h.min
    exact ⟨congrArg Reply.added h1, h2, h.rev, addLinearRing_edges fuel _ ring kind h.edges⟩
  | addPolygon polygon kind =>
    obtain ⟨h1, h2⟩ := WSim.polygon fuel kind polygon w w' false h
    exact ⟨congrArg Reply.added h1, h2⟩
  | clear =>
    refine ⟨rfl, ?_⟩
    show WSim w.clear w'.clear
    rw [clear_eq, clear_eq]
    exact ⟨⟨rfl, rfl, fun _ => SameInput.refl _⟩, h.rev, fun v hv => by cases hv⟩
  | execute op sf cf =>
    refine ⟨congrArg Reply.result (WSim.execute fuel w w' op sf cf h), ?_⟩
    exact ((h.executed fuel w w' op sf cf).symm.executed fuel _ _ op sf cf).symm

end Wagyu
