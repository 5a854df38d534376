import Verif.Proofs.TwoBounds
import Verif.Proofs.KeepSweep
import Verif.Proofs.Stored

/-!
# Two runs: the search for hot pixels
-/

namespace Wagyu

section
variable {α : Type} {P : α → Prop} {c c' : α → α → Bool}

theorem bubblePass_congr (hc : ∀ a b, P a → P b → c a b = c' a b) {a : α} {l : List α} (ha : P a) (hl : ∀ x ∈ l, P x) :
    bubblePass c a l = bubblePass c' a l ∧ (∀ x ∈ (bubblePass c a l).1, P x)
      ∧ ∀ p ∈ (bubblePass c a l).2, P p.1 ∧ P p.2 := by
  induction l generalizing a with
  | nil => exact ⟨rfl, by simpa [bubblePass] using ha, by simp [bubblePass]⟩
  | cons b l ih =>
    have hb : P b := hl b (by simp)
    have hl : ∀ x ∈ l, P x := fun x hx => hl x (by simp [hx])
    rw [bubblePass, bubblePass, hc a b ha hb]
    split
    · obtain ⟨h1, h2, h3⟩ := ih hb hl
      rw [← h1]
      refine ⟨rfl, fun x hx => ?_, h3⟩
      rcases List.mem_cons.1 hx with rfl | hx
      · exact ha
      · exact h2 x hx
    · obtain ⟨h1, h2, h3⟩ := ih ha hl
      rw [← h1]
      refine ⟨rfl, fun x hx => ?_, fun p hp => ?_⟩
      · rcases List.mem_cons.1 hx with rfl | hx
        · exact hb
        · exact h2 x hx
      · rcases List.mem_cons.1 hp with rfl | hp
        · exact ⟨ha, hb⟩
        · exact h3 p hp

theorem bubbleSort_congr (hc : ∀ a b, P a → P b → c a b = c' a b) {n : Nat} {l : List α} (hl : ∀ x ∈ l, P x) :
    bubbleSort c n l = bubbleSort c' n l ∧ ∀ r, bubbleSort c n l = some r → (∀ x ∈ r.1, P x) ∧ ∀ p ∈ r.2, P p.1 ∧ P p.2 := by
  induction n generalizing l with
  | zero => exact ⟨rfl, by simp [bubbleSort]⟩
  | succ n ih =>
    have hp : bubblePassL c l = bubblePassL c' l ∧ (∀ x ∈ (bubblePassL c l).1, P x)
        ∧ ∀ p ∈ (bubblePassL c l).2, P p.1 ∧ P p.2 := by
      cases l with
      | nil => exact ⟨rfl, by simp [bubblePassL], by simp [bubblePassL]⟩
      | cons a l => exact bubblePass_congr hc (hl a (by simp)) fun x hx => hl x (by simp [hx])
    obtain ⟨h1, h2, h3⟩ := hp
    obtain ⟨i1, i2⟩ := ih h2
    rw [bubbleSort, bubbleSort, ← h1]
    revert h2 h3 i1 i2
    generalize bubblePassL c l = q
    obtain ⟨q1, q2⟩ := q
    intro h2 h3 i1 i2
    dsimp only at *
    rw [← i1]
    refine ⟨rfl, fun r hr => ?_⟩
    split at hr
    · cases hr
      exact ⟨h2, by simp⟩
    · cases hb : bubbleSort c n q1 with
      | none => rw [hb] at hr; cases hr
      | some q =>
        rw [hb] at hr
        cases hr
        obtain ⟨j1, j2⟩ := i2 q hb
        refine ⟨j1, fun p hp => ?_⟩
        rcases List.mem_append.1 hp with hp | hp
        · exact h3 p hp
        · exact j2 p hp

theorem pySorted_congr (hc : ∀ a b, P a → P b → c a b = c' a b) {l : List α} (hl : ∀ x ∈ l, P x) : pySorted c l = pySorted c' l := by
  have ins : ∀ (a : α) (k : List α), P a → (∀ x ∈ k, P x) → sortedInsert c a k = sortedInsert c' a k := by
    intro a k ha hk
    induction k with
    | nil => rfl
    | cons b k ih =>
      rw [sortedInsert, sortedInsert, hc b a (hk b (by simp)) ha, ih fun x hx => hk x (by simp [hx])]
  induction l with
  | nil => rfl
  | cons a l ih =>
    have hl' : ∀ x ∈ l, P x := fun x hx => hl x (by simp [hx])
    show sortedInsert c a (pySorted c l) = sortedInsert c' a (pySorted c' l)
    rw [← ih hl']
    exact ins a _ (hl a (by simp)) fun x hx => hl' x ((pySorted_perm' _ _).mem_iff.1 hx)

end

section
variable {K : Nat → Bound → Bound → Prop} [hK : Live K] {D : Nat → Prop}

theorem rl_sortActive : Rel K D sortActive fun r => (∀ b ∈ r.1, D b) ∧ ∀ p ∈ r.2, D p.1 ∧ D p.2 := by
  refine ⟨fun s t hs => ?_⟩
  have hc : ∀ a b, D a → D b → intersectionCompare s.bounds a b = intersectionCompare t.bounds a b := by
    intro a b ha hb
    obtain ⟨_, _, _, _, _, _, h1⟩ := Live.hot _ _ _ (hs.live a ha)
    obtain ⟨_, _, _, _, _, _, h2⟩ := Live.hot _ _ _ (hs.live b hb)
    unfold intersectionCompare
    rw [h1, h2]
    rfl
  have hl : ∀ x ∈ s.abl.filterMap id, D x := by
    intro x hx
    obtain ⟨o, ho, e⟩ := List.mem_filterMap.1 hx
    cases e
    exact hs.abl x ho
  obtain ⟨h1, h2⟩ := bubbleSort_congr hc (n := s.fuel) hl
  have e1 : t.abl = s.abl := hs.field fun _ _ => rfl
  have e2 : t.fuel = s.fuel := hs.field fun _ _ => rfl
  have run : ∀ s : St, sortActive s = match bubbleSort (intersectionCompare s.bounds) s.fuel (s.abl.filterMap id) with
      | none => .err .fuel s | some r => .ok r s := by
    intro s
    unfold sortActive
    simp only [run_bind, run_gets]
    cases bubbleSort (intersectionCompare s.bounds) s.fuel (s.abl.filterMap id) <;> rfl
  unfold Two
  rw [run, run, e1, e2, ← h1]
  cases hb : bubbleSort (intersectionCompare s.bounds) s.fuel (s.abl.filterMap id) with
  | none => rfl
  | some r => exact ⟨rfl, h2 r hb, hs⟩

theorem rl_hotIntersections {y : Int} : Rel K D (processHotPixelIntersections y) fun _ => True := by
  unfold processHotPixelIntersections
  refine Rel.bind rl_updateCurrentX fun _ _ => Rel.bind rl_sortActive fun r hr => ?_
  dsimp only
  refine Rel.bind (Rel.forList fun p hp => ?_) fun _ _ => ?_
  · have h1 := (hr.2 p hp).1
    have h2 := (hr.2 p hp).2
    rel
  · refine Rel.setAbl (f := fun _ => r.1.map some) fun _ _ b hb => ?_
    obtain ⟨c, hc, e⟩ := List.mem_map.1 hb
    cases e
    exact hr.1 _ hc

theorem rl_horizontalPass {b i : Nat} {y : Int} {f : F64 → F64 → Bool} (hb : D b) : Rel K D (horizontalPass b y i f) fun _ => True := by
  unfold horizontalPass; rel
macro_rules | `(tactic| rel1) => `(tactic| ((with_reducible apply rl_horizontalPass); relside))
theorem rl_horizontalsTop {i : Nat} {y : Int} : Rel K D (horizontalsAtTopScanbeam y i) fun _ => True := by
  unfold horizontalsAtTopScanbeam; rel
macro_rules | `(tactic| rel1) => `(tactic| with_reducible exact rl_horizontalsTop)
theorem rl_hotAdvance {b i : Nat} {y : Int} (hb : D b) : Rel K D (hotPixelAdvance y b i) fun _ => True := by
  unfold hotPixelAdvance; rel
macro_rules | `(tactic| rel1) => `(tactic| ((with_reducible apply rl_hotAdvance); relside))
theorem rl_hotTop {y : Int} : Rel K D (processHotPixelEdgesAtTopOfScanbeam y) fun _ => True := by
  unfold processHotPixelEdgesAtTopOfScanbeam; rel

end

/-! ## New bounds -/

/-- As `Rel`, but more bounds may become live; the bounds in `N` have edges. -/
def RelG {α : Type} (N : Nat → Prop) (K : Nat → Bound → Bound → Prop) (m : M α) (P : α → Prop) : Prop :=
  ∀ D s t, Sim K D s t → (∀ b, N b → (s.bounds b).edges ≠ []) →
    Two m m s t fun a b s' t' => a = b ∧ P a ∧ (∀ b, N b → (s'.bounds b).edges ≠ []) ∧ ∃ D', Sim K D' s' t'

section
variable {α β σ : Type} {N : Nat → Prop} {K : Nat → Bound → Bound → Prop} {P : α → Prop} {Q : β → Prop}

theorem Two.kept {m : M α} [hm : Pres InputKept m] {s t : St} {R R' : α → α → St → St → Prop} (h : Two m m s t R)
    (hr : ∀ a b s' t', R a b s' t' → InputKept s s' → R' a b s' t') : Two m m s t R' := by
  have h1 := hm.pres s
  unfold Two at *
  cases hs : m s with
  | err e s' =>
    rw [hs] at h
    cases ht : m t <;> rw [ht] at h <;> exact h
  | ok a s' =>
    rw [hs] at h h1
    cases ht : m t with
    | err e t' => rw [ht] at h; exact h
    | ok b t' =>
      rw [ht] at h
      exact hr _ _ _ _ h h1
theorem edges_kept {s s' : St} (h : ∀ b, N b → (s.bounds b).edges ≠ []) (hk : InputKept s s') :
    ∀ b, N b → (s'.bounds b).edges ≠ [] := fun b hb => by rw [(hk b).edges]; exact h b hb

theorem Rel.grow {m : M α} [Pres InputKept m] (h : ∀ D, Rel K D m P) : RelG N K m P := fun D s t hs hn =>
  Two.kept ((h D).run s t hs) fun _ _ _ _ ⟨h1, h2, h3⟩ hk => ⟨h1, h2, edges_kept hn hk, D, h3⟩
theorem RelG.of {m : M α} [Pres InputKept m] (h : ∀ D s t, Sim K D s t → (∀ b, N b → (s.bounds b).edges ≠ []) →
    Two m m s t fun a b s' t' => a = b ∧ P a ∧ ∃ D', Sim K D' s' t') : RelG N K m P := fun D s t hs hn =>
  Two.kept (h D s t hs hn) fun _ _ _ _ ⟨h1, h2, h3⟩ hk => ⟨h1, h2, edges_kept hn hk, h3⟩
theorem RelG.bind {m : M α} {f : α → M β} (h : RelG N K m P) (hf : ∀ a, P a → RelG N K (f a) Q) : RelG N K (m >>= f) Q :=
  fun D s t hs hn => Two.bind ((h D s t hs hn).mono fun a b s' t' ⟨e, h1, h3, D', h2⟩ => by
    subst e; exact hf a h1 D' s' t' h2 h3)
theorem RelG.pure {a : α} (h : P a) : RelG N K (pure a : M α) P := fun D _ _ hs hn => ⟨rfl, h, hn, D, hs⟩
theorem RelG.mono {m : M α} {P' : α → Prop} (h : RelG N K m P) (hp : ∀ a, P a → P' a) : RelG N K m P' :=
  fun D s t hs hn => (h D s t hs hn).mono fun _ _ _ _ ⟨h1, h2, h3⟩ => ⟨h1, hp _ h2, h3⟩
theorem RelG.ite {c : Prop} [Decidable c] {m n : M α} (h1 : c → RelG N K m P) (h2 : ¬ c → RelG N K n P) :
    RelG N K (if c then m else n) P := by
  split
  · exact h1 ‹_›
  · exact h2 ‹_›
theorem RelG.loopM {f : σ → M (σ ⊕ β)} (J : σ → Prop) {x : σ} (hx : J x)
    (h : ∀ x, J x → RelG N K (f x) fun r => match r with | .inl y => J y | .inr b => Q b) : RelG N K (loopM f x) Q := by
  have hi : ∀ n x, J x → RelG N K (iter n f x) Q := by
    intro n
    induction n with
    | zero => intro x _ D s t _ _; exact Two.raise
    | succ n ih =>
      intro x hx
      rw [iter]
      refine RelG.bind (h x hx) fun r hr => ?_
      cases r with
      | inl y => exact ih y hr
      | inr b => exact RelG.pure hr
  intro D s t hs hn
  have := hi s.fuel x hx D s t hs hn
  unfold Two Wagyu.loopM at *
  rw [hs.field (f := St.fuel) fun _ _ => rfl]
  exact this

theorem Sim.grow {D : Nat → Prop} {s t : St} (hs : Sim K D s t) {b : Nat} (h : K b (s.bounds b) (t.bounds b)) :
    Sim K (fun c => D c ∨ c = b) s t :=
  ⟨hs.rest, hs.input, fun c hc => hc.elim (hs.live c) fun e => e ▸ h, fun c hc => Or.inl (hs.abl c hc)⟩

/-- Starting a bound makes its relevant attributes the same in both runs. -/
theorem two_start {D : Nat → Prop} [Live K] {s t : St} (hs : Sim K D s t) {b : Nat} {g : Edge → Bound → Bound}
    (hg : ∀ e x y, SameInput y x → y.cur = x.cur → y.nxt = x.nxt → K b (g e x) (g e y)) (hi : ∀ e x, SameInput (g e x) x)
    {F : Unit → M β} {R : β → β → St → St → Prop} (hR : ∀ s t, Sim K (fun c => D c ∨ c = b) s t → Two (F ()) (F ()) s t R) :
    Two (do modBound b fun bd => (bd.setCur 0).setNxt 1
            let e ← currentEdge b
            let u ← modBound b (g e)
            F u)
        (do modBound b fun bd => (bd.setCur 0).setNxt 1
            let e ← currentEdge b
            let u ← modBound b (g e)
            F u) s t R := by
  have he := (hs.input b).edges
  have hs1 : Sim K D { s with bounds := upd s.bounds b (((s.bounds b).setCur 0).setNxt 1) }
      { t with bounds := upd t.bounds b (((t.bounds b).setCur 0).setNxt 1) } := by
    refine hs.upd (fun hb => ?_) ⟨rfl, rfl, rfl, rfl⟩ ⟨rfl, rfl, rfl, rfl⟩
    have h1 := hs.live b hb
    have : ((t.bounds b).setCur 0).setNxt 1 = { t.bounds b with
        cur := (((s.bounds b).setCur 0).setNxt 1).cur, nxt := (((s.bounds b).setCur 0).setNxt 1).nxt, currentX := (s.bounds b).currentX } := by
      obtain ⟨_, _, _, _, _, _, h2⟩ := Live.hot _ _ _ h1
      rw [h2]; rfl
    rw [this]
    exact Live.upd b (s.bounds b) _ _ _ _ h1
  refine Two.bind (Two.modBound ?_)
  have c1 : (({ s with bounds := upd s.bounds b (((s.bounds b).setCur 0).setNxt 1) } : St).bounds b)
      = ((s.bounds b).setCur 0).setNxt 1 := upd_same _ _ _
  have c2 : (({ t with bounds := upd t.bounds b (((t.bounds b).setCur 0).setNxt 1) } : St).bounds b)
      = ((t.bounds b).setCur 0).setNxt 1 := upd_same _ _ _
  generalize ({ s with bounds := upd s.bounds b (((s.bounds b).setCur 0).setNxt 1) } : St) = s1 at hs1 c1
  generalize ({ t with bounds := upd t.bounds b (((t.bounds b).setCur 0).setNxt 1) } : St) = t1 at hs1 c2
  have h0 : (t1.bounds b).cur = (s1.bounds b).cur ∧ (t1.bounds b).nxt = (s1.bounds b).nxt := by
    rw [c1, c2]
    unfold Bound.setNxt Bound.setCur
    dsimp only
    rw [he]
    exact ⟨rfl, rfl⟩
  have hin := hs1.input b
  have hce : (t1.bounds b).currentEdge? = (s1.bounds b).currentEdge? := by
    unfold Bound.currentEdge? Bound.curIdx
    rw [h0.1, hin.edges]
  unfold currentEdge
  refine Two.bind (Two.bind (Two.getBound ?_))
  rw [hce]
  cases h : (s1.bounds b).currentEdge? with
  | none => exact Two.raise
  | some e =>
    have hin := hin.full fun h0 => by
      unfold Bound.currentEdge? at h
      rw [h0] at h
      simp at h
    refine Two.bind (Two.modBound (hR _ _ ?_))
    refine Sim.grow (b := b) (hs1.upd (b := b) (fun hb => ?_) (hi e _) (hi e _)) ?_
    · exact hg e _ _ hin h0.1 h0.2
    · show K b (upd s1.bounds b _ b) (upd t1.bounds b _ b)
      rw [upd_same, upd_same]
      exact hg e _ _ hin h0.1 h0.2

end

theorem KHot.of_input {b : Nat} {x y : Bound} (h : SameInput y x) (hc : y.cur = x.cur) (hn : y.nxt = x.nxt) (hx : y.currentX = x.currentX) :
    KHot b x y := by
  refine ⟨y.lastPoint, y.position, y.ring, y.windingCount, y.oppositeWindingCount, y.side, ?_⟩
  obtain ⟨h1, h2, h3, h4⟩ := h
  cases x; cases y
  simp_all

section
variable {N : Nat → Prop}

theorem rg_insertLmHot {y : Int} {l : List LocalMinimum} : RelG N KHot (insertLocalMinimaHotPixel y l) fun _ => True := by
  refine RelG.of fun D s t hs hn => ?_
  clear hn
  induction l generalizing D s t with
  | nil => exact ⟨rfl, trivial, D, hs⟩
  | cons m l ih =>
    rw [insertLocalMinimaHotPixel]
    split
    · refine Two.bind (Two.getBound ?_)
      rw [(hs.input m.left).edges]
      refine Two.bind (Rel.orIndex.two hs fun e s t _ hs => ?_)
      refine Two.bind ((Rel.blind (K := KHot) (D := D)).two hs fun _ s t _ hs => ?_)
      have start : ∀ (b : Nat) (D : Nat → Prop) (s t : St), Sim KHot D s t → ∀ (F : Unit → M (List LocalMinimum)) R,
          (∀ s t, Sim KHot (fun c => D c ∨ c = b) s t → Two (F ()) (F ()) s t R) →
          Two (do modBound b fun bd => (bd.setCur 0).setNxt 1
                  let e ← currentEdge b
                  let u ← modBound b fun bd => { bd with currentX := .ofInt e.bottom.x }
                  F u)
              (do modBound b fun bd => (bd.setCur 0).setNxt 1
                  let e ← currentEdge b
                  let u ← modBound b fun bd => { bd with currentX := .ofInt e.bottom.x }
                  F u) s t R := by
        intro b D s t hs F R hR
        refine two_start hs (g := fun e bd => { bd with currentX := .ofInt e.bottom.x }) ?_ (fun e x => ⟨rfl, rfl, rfl, rfl⟩) hR
        intro e x y h h1 h2
        exact KHot.of_input ⟨h.edges, h.delta, h.kind, h.partner⟩ h1 h2 rfl
      refine start m.left D s t hs _ _ fun s t hs => ?_
      refine start m.right _ s t hs _ _ fun s t hs => ?_
      dsimp only
      generalize hD : (fun c => (D c ∨ c = m.left) ∨ c = m.right) = D2 at hs
      have dl : D2 m.left := by rw [← hD]; exact Or.inl (Or.inr rfl)
      have dr : D2 m.right := by rw [← hD]; exact Or.inr rfl
      refine Two.bind ((rl_insertBoundIntoAbl dl dr).two hs fun _ s t _ hs => ?_)
      refine Two.bind ((rl_currentEdge dl).two hs fun _ s t _ hs => ?_)
      have tail : ∀ s t, Sim KHot D2 s t → Two (do
          let re ← currentEdge m.right
          if re.isHorizontal = true then insertLocalMinimaHotPixel y l
          else do
            insertScan re.top.y
            insertLocalMinimaHotPixel y l) (do
          let re ← currentEdge m.right
          if re.isHorizontal = true then insertLocalMinimaHotPixel y l
          else do
            insertScan re.top.y
            insertLocalMinimaHotPixel y l) s t fun a b s' t' => a = b ∧ True ∧ ∃ D', Sim KHot D' s' t' := by
        intro s t hs
        refine Two.bind ((rl_currentEdge dr).two hs fun _ s t _ hs => ?_)
        split
        · exact ih D2 s t hs
        · exact Two.bind (Rel.blind.two hs fun _ s t _ hs => ih D2 s t hs)
      split
      · exact tail s t hs
      · exact Two.bind (Rel.blind.two hs fun _ s t _ hs => tail s t hs)
    · exact ⟨rfl, trivial, D, hs⟩

theorem rg_hotStep {y : Int} {l : List LocalMinimum} : RelG N KHot (hotPixelStep y l) fun _ => True := by
  unfold hotPixelStep
  refine RelG.bind (P := fun _ => True) (Rel.grow fun _ => Rel.blind) fun _ _ => ?_
  refine RelG.bind (Rel.grow fun _ => rl_hotIntersections) fun _ _ => ?_
  refine RelG.bind rg_insertLmHot fun _ _ => ?_
  exact RelG.bind (Rel.grow fun _ => rl_hotTop) fun _ _ => RelG.pure trivial

theorem rl_start {K : Nat → Bound → Bound → Prop} {D : Nat → Prop} {l : List Int} :
    Rel K D (modify fun s => { s with scan := l, abl := [] }) fun _ => True := by
  refine ⟨fun s t hs => ⟨rfl, trivial, ?_, hs.input, hs.live, fun b hb => by cases hb⟩⟩
  show ({ t with scan := l, abl := [] } : St) = _
  conv => lhs; rw [hs.rest]
  rfl
instance {l : List Int} : Pres InputKept (modify fun s => { s with scan := l, abl := [] }) := ⟨fun _ => .of_eq rfl⟩

theorem rg_buildHotPixels {ms : List LocalMinimum} {sb : List Int} : RelG N KHot (buildHotPixels ms sb) fun _ => True := by
  unfold buildHotPixels
  refine RelG.bind (Rel.grow fun _ => rl_start) fun _ _ => ?_
  refine RelG.bind (P := fun _ => True) (RelG.loopM (fun _ => True) trivial fun st _ => ?_) fun _ _ => Rel.grow fun _ => Rel.blind
  refine RelG.bind (P := fun _ => True) (Rel.grow fun _ => Rel.gets (fun _ _ => rfl) fun _ _ => trivial) fun _ _ => ?_
  refine RelG.ite (fun _ => RelG.pure trivial) fun _ => ?_
  exact RelG.bind rg_hotStep fun _ _ => RelG.pure trivial

end

end Wagyu
