import Verif.Proofs.Post
import Verif.Proofs.Quicksort

/-!
# Termination

`Tot m s Q`: run from `s`, `m` finishes: with enough fuel its outcome does not depend on the fuel, it is a value and a state
satisfying `Q`, or an exception other than running out of fuel.
-/

namespace Wagyu

/-- The state with another amount of fuel. -/
def St.wf (s : St) (k : Nat) : St := { s with fuel := k }

/-- The outcome with another amount of fuel. -/
def Res.wf {α : Type} (k : Nat) : Res α → Res α
  | .ok a s => .ok a (s.wf k)
  | .err e s => .err e (s.wf k)

/-- The exceptions of Python, without those that stand for a loop or a recursion that goes on. -/
def Err.Real (e : Err) : Prop := e ≠ .fuel ∧ e ≠ .recursion

def Tot {α : Type} (m : M α) (s : St) (Q : α → St → Prop) : Prop :=
  ∃ N, (∃ (a : α) (s' : St), (∀ k, N ≤ k → m (s.wf k) = .ok a (s'.wf k)) ∧ Q a s')
    ∨ ∃ (e : Err) (s' : St), e.Real ∧ ∀ k, N ≤ k → m (s.wf k) = .err e (s'.wf k)

/-- `m` does not look at the fuel and never runs out of it. -/
class Steady {α : Type} (m : M α) : Prop where
  eq : ∀ s k, m (s.wf k) = (m s).wf k
  real : ∀ s e s', m s = .err e s' → e.Real

section
variable {α β σ : Type} {Q : α → St → Prop} {s : St}

theorem St.wf_wf (s : St) (j k : Nat) : (s.wf j).wf k = s.wf k := rfl

theorem Tot.imp {m : M α} {Q' : α → St → Prop} (h : Tot m s Q) (h1 : ∀ a s', Q a s' → Q' a s') : Tot m s Q' := by
  obtain ⟨N, ⟨a, s', h2, h3⟩ | h⟩ := h
  · exact ⟨N, Or.inl ⟨a, s', h2, h1 a s' h3⟩⟩
  · exact ⟨N, Or.inr h⟩

theorem Tot.wf {m : M α} (h : Tot m s Q) (k : Nat) : Tot m (s.wf k) Q := h
theorem Tot.of_wf {m : M α} {k : Nat} (h : Tot m (s.wf k) Q) : Tot m s Q := h

theorem Tot.bind {m : M α} {f : α → M β} {Q' : β → St → Prop} (h : Tot m s fun a s' => Tot (f a) s' Q') :
    Tot (m >>= f) s Q' := by
  obtain ⟨N, ⟨a, s', h2, N', h3⟩ | ⟨e, s', h2, h3⟩⟩ := h
  · rcases h3 with ⟨b, s'', h4, h5⟩ | ⟨e, s'', h4, h5⟩
    · refine ⟨max N N', Or.inl ⟨b, s'', fun k hk => ?_, h5⟩⟩
      rw [run_bind, h2 k (by omega)]
      exact h4 k (by omega)
    · refine ⟨max N N', Or.inr ⟨e, s'', h4, fun k hk => ?_⟩⟩
      rw [run_bind, h2 k (by omega)]
      exact h5 k (by omega)
  · refine ⟨N, Or.inr ⟨e, s', h2, fun k hk => ?_⟩⟩
    rw [run_bind, h3 k hk]

theorem Tot.pure {a : α} (h : Q a s) : Tot (pure a : M α) s Q := ⟨0, Or.inl ⟨a, s, fun _ _ => rfl, h⟩⟩
theorem Tot.raise {e : Err} (h : e.Real) : Tot (raise e : M α) s Q := ⟨0, Or.inr ⟨e, s, h, fun _ _ => rfl⟩⟩
theorem Tot.ite {c : Prop} [Decidable c] {m n : M α} (h1 : c → Tot m s Q) (h2 : ¬ c → Tot n s Q) :
    Tot (if c then m else n) s Q := by
  split
  · exact h1 ‹_›
  · exact h2 ‹_›

theorem Tot.steady {m : M α} [hm : Steady m] (h : Ok m s Q) : Tot m s Q := by
  cases e : m s with
  | ok a s' =>
    refine ⟨0, Or.inl ⟨a, s', fun k _ => ?_, h.elim e⟩⟩
    rw [hm.eq, e]; rfl
  | err x s' =>
    refine ⟨0, Or.inr ⟨x, s', hm.real _ _ _ e, fun k _ => ?_⟩⟩
    rw [hm.eq, e]; rfl

theorem Tot.steady' {m : M α} (hm : Steady m) : Tot m s fun _ _ => True := Tot.steady (Ok.intro fun _ _ _ => trivial)

/-- A partial correctness statement that does not depend on the fuel can be added. -/
theorem Tot.and {m : M α} {Q' : α → St → Prop} (h : Tot m s Q) (h' : ∀ k, Ok m (s.wf k) Q')
    (hQ : ∀ a s k, Q' a (s.wf k) → Q' a s) : Tot m s fun a s' => Q a s' ∧ Q' a s' := by
  obtain ⟨N, ⟨a, s', h2, h3⟩ | h⟩ := h
  · exact ⟨N, Or.inl ⟨a, s', h2, h3, hQ _ _ N ((h' N).elim (h2 N (Nat.le_refl _)))⟩⟩
  · exact ⟨N, Or.inr h⟩

theorem Tot.and_pres {m : M α} {R : St → St → Prop} (h : Tot m s Q) (h' : Pres R m)
    (hR : ∀ s s' k, R (s.wf k) (s'.wf k) → R s s') : Tot m s fun a s' => Q a s' ∧ R s s' := by
  obtain ⟨N, ⟨a, s', h2, h3⟩ | h⟩ := h
  · refine ⟨N, Or.inl ⟨a, s', h2, h3, ?_⟩⟩
    have := (Post.of_pres (s := s.wf N) h').ok (h2 N (Nat.le_refl _))
    exact hR _ _ _ this
  · exact ⟨N, Or.inr h⟩

theorem Tot.iter {B : Type} {Q : B → St → Prop} {f : σ → M (σ ⊕ B)} {I : σ → St → Prop} {μ : σ → St → Nat}
    (h : ∀ x s, I x s → Tot (f x) s (fun r s' => match r with | .inl y => I y s' ∧ μ y s' < μ x s | .inr b => Q b s')) :
    ∀ (c : Nat) (x : σ) (s : St), μ x s ≤ c → I x s →
      ∃ N, (∃ (a : B) (s' : St), (∀ n, N ≤ n → ∀ k, N ≤ k → Wagyu.iter n f x (s.wf k) = .ok a (s'.wf k)) ∧ Q a s')
        ∨ ∃ (e : Err) (s' : St), e.Real ∧ ∀ n, N ≤ n → ∀ k, N ≤ k → Wagyu.iter n f x (s.wf k) = .err e (s'.wf k)
  | c, x, s, hc, hx => by
    have unf : ∀ n k, Wagyu.iter (n + 1) f x (s.wf k) = (match f x (s.wf k) with
        | .ok (.inl y) s' => Wagyu.iter n f y s'
        | .ok (.inr b) s' => .ok b s'
        | .err e s' => .err e s') := by
      intro n k
      rw [Wagyu.iter, run_bind]
      cases f x (s.wf k) with
      | ok r s' => cases r <;> rfl
      | err e s' => rfl
    obtain ⟨N, ⟨r, s', h2, h3⟩ | ⟨e, s', h2, h3⟩⟩ := h x s hx
    · cases r with
      | inl y =>
        obtain ⟨h4, h5⟩ := h3
        match c, hc with
        | 0, hc => exact absurd h5 (by omega)
        | c + 1, hc =>
          obtain ⟨N', ⟨a, s'', h6, h7⟩ | ⟨e, s'', h6, h7⟩⟩ := Tot.iter h c y s' (by omega) h4
          · refine ⟨max N N' + 1, Or.inl ⟨a, s'', fun n hn k hk => ?_, h7⟩⟩
            obtain ⟨n, rfl⟩ : ∃ m, n = m + 1 := ⟨n - 1, by omega⟩
            rw [unf, h2 k (by omega)]
            exact h6 n (by omega) k (by omega)
          · refine ⟨max N N' + 1, Or.inr ⟨e, s'', h6, fun n hn k hk => ?_⟩⟩
            obtain ⟨n, rfl⟩ : ∃ m, n = m + 1 := ⟨n - 1, by omega⟩
            rw [unf, h2 k (by omega)]
            exact h7 n (by omega) k (by omega)
      | inr b =>
        refine ⟨N + 1, Or.inl ⟨b, s', fun n hn k hk => ?_, h3⟩⟩
        obtain ⟨n, rfl⟩ : ∃ m, n = m + 1 := ⟨n - 1, by omega⟩
        rw [unf, h2 k (by omega)]
    · refine ⟨N + 1, Or.inr ⟨e, s', h2, fun n hn k hk => ?_⟩⟩
      obtain ⟨n, rfl⟩ : ∃ m, n = m + 1 := ⟨n - 1, by omega⟩
      rw [unf, h3 k (by omega)]

theorem Tot.loopM {B : Type} {Q : B → St → Prop} {f : σ → M (σ ⊕ B)} (I : σ → St → Prop) (μ : σ → St → Nat)
    (h : ∀ x s, I x s → Tot (f x) s (fun r s' => match r with | .inl y => I y s' ∧ μ y s' < μ x s | .inr b => Q b s'))
    {x : σ} (hx : I x s) : Tot (loopM f x) s Q := by
  obtain ⟨N, ⟨a, s', h2, h3⟩ | ⟨e, s', h2, h3⟩⟩ := Tot.iter h _ x s (Nat.le_refl _) hx
  · exact ⟨N, Or.inl ⟨a, s', fun k hk => h2 k hk k hk, h3⟩⟩
  · exact ⟨N, Or.inr ⟨e, s', h2, fun k hk => h3 k hk k hk⟩⟩

theorem Tot.forElseN {B : Type} {Q : B → St → Prop} {f : σ → M (σ ⊕ B)} {g : σ → M B} (I : Nat → σ → St → Prop)
    (h : ∀ k x s, I (k + 1) x s → Tot (f x) s (fun r s' => match r with | .inl y => I k y s' | .inr b => Q b s'))
    (hg : ∀ x s, I 0 x s → Tot (g x) s Q) :
    ∀ (n : Nat) (x : σ) (s : St), I n x s → Tot (Wagyu.forElse n f g x) s Q
  | 0, x, s, hx => hg x s hx
  | n + 1, x, s, hx => by
    rw [Wagyu.forElse]
    refine Tot.bind ((h n x s hx).imp ?_)
    intro r s' hr
    cases r with
    | inl y => exact Tot.forElseN I h hg n y s' hr
    | inr b => exact Tot.pure hr

theorem Tot.forElse {B : Type} {Q : B → St → Prop} {f : σ → M (σ ⊕ B)} {g : σ → M B} (I : σ → St → Prop)
    (h : ∀ x s, I x s → Tot (f x) s (fun r s' => match r with | .inl y => I y s' | .inr b => Q b s'))
    (hg : ∀ x s, I x s → Tot (g x) s Q) (n : Nat) (x : σ) (s : St) (hx : I x s) : Tot (Wagyu.forElse n f g x) s Q :=
  Tot.forElseN (fun _ => I) (fun _ => h) hg n x s hx

theorem Tot.forList {l : List α} {f : α → M Unit} (I : St → Prop)
    (h : ∀ x s, x ∈ l → I s → Tot (f x) s (fun _ s' => I s')) (hs : I s) : Tot (forList l f) s (fun _ s' => I s') := by
  induction l generalizing s with
  | nil => exact Tot.pure hs
  | cons a l ih =>
    rw [Wagyu.forList]
    exact Tot.bind ((h a s (by simp) hs).imp fun _ s' hs' => ih (fun x s hx => h x s (by simp [hx])) hs')

/-! ## Statements without loops -/

theorem Steady.bind {m : M α} {f : α → M β} (h1 : Steady m) (h2 : ∀ a, Steady (f a)) : Steady (m >>= f) := by
  constructor
  · intro s k
    rw [run_bind, run_bind, h1.eq s k]
    cases hm : m s with
    | ok a s' => exact (h2 a).eq s' k
    | err e s' => rfl
  · intro s e s' h
    rw [run_bind] at h
    cases hm : m s with
    | ok a s1 => rw [hm] at h; exact (h2 a).real s1 e s' h
    | err x s1 => rw [hm] at h; cases h; exact h1.real _ _ _ hm

theorem Steady.ite' {c : Prop} [Decidable c] {m n : M α} (h1 : Steady m) (h2 : Steady n) : Steady (if c then m else n) := by
  split <;> assumption

instance Steady.pure (a : α) : Steady (Pure.pure a : M α) := ⟨fun _ _ => rfl, nofun⟩
theorem Steady.raise {e : Err} (h : e.Real) : Steady (raise e : M α) := ⟨fun _ _ => rfl, by rintro s _ _ ⟨⟩; exact h⟩
theorem Steady.gets {f : St → α} (h : ∀ s k, f (s.wf k) = f s) : Steady (gets f) :=
  ⟨fun s k => by show Res.ok (f (s.wf k)) _ = Res.ok _ _; rw [h], nofun⟩
theorem Steady.modify {f : St → St} (h : ∀ s k, f (s.wf k) = (f s).wf k) : Steady (modify f) :=
  ⟨fun s g => by show Res.ok () _ = Res.ok () _; rw [h], nofun⟩
instance Steady.deref (o : Option α) : Steady (deref o) := by
  cases o with
  | none => exact ⟨fun _ _ => rfl, by rintro s _ _ ⟨⟩; exact ⟨nofun, nofun⟩⟩
  | some a => exact ⟨fun _ _ => rfl, nofun⟩
instance Steady.orIndex (o : Option α) : Steady (orIndex o) := by
  cases o with
  | none => exact ⟨fun _ _ => rfl, by rintro s _ _ ⟨⟩; exact ⟨nofun, nofun⟩⟩
  | some a => exact ⟨fun _ _ => rfl, nofun⟩

theorem Steady.forElse {f : σ → M (σ ⊕ β)} {g : σ → M β} (h : ∀ x, Steady (f x)) (hg : ∀ x, Steady (g x)) (n : Nat)
    (x : σ) : Steady (forElse n f g x) := by
  induction n generalizing x with
  | zero => exact hg x
  | succ n ih =>
    rw [Wagyu.forElse]
    refine Steady.bind (h x) fun r => ?_
    cases r with
    | inl y => exact ih y
    | inr b => exact Steady.pure b

theorem Steady.forList {f : α → M Unit} (h : ∀ x, Steady (f x)) (l : List α) : Steady (forList l f) := by
  induction l with
  | nil => exact Steady.pure ()
  | cons a l ih => rw [Wagyu.forList]; exact Steady.bind (h a) fun _ => ih

end

/-- Decompose a statement down to calls for which an instance is known. -/
macro "steady" : tactic => `(tactic|
  repeat' first
    | infer_instance
    | assumption
    | ((with_reducible refine Steady.gets ?_); intro _ _; rfl)
    | ((with_reducible refine Steady.modify ?_); intro _ _; rfl)
    | ((with_reducible refine Steady.raise ?_); exact ⟨nofun, nofun⟩)
    | (with_reducible refine Steady.bind ?_ fun _ => ?_)
    | (with_reducible refine Steady.ite' ?_ ?_)
    | (with_reducible refine Steady.forElse (fun _ => ?_) (fun _ => ?_) _ _)
    | (with_reducible refine Steady.forList (fun _ => ?_) _)
    | split
    | dsimp only)

instance Steady.getNode (i : Nat) : Steady (getNode i) := ⟨fun _ _ => rfl, nofun⟩
instance Steady.getRing (i : Nat) : Steady (getRing i) := ⟨fun _ _ => rfl, nofun⟩
instance Steady.getBound (i : Nat) : Steady (getBound i) := ⟨fun _ _ => rfl, nofun⟩
instance Steady.modNode (i : Nat) (f : Node → Node) : Steady (modNode i f) := ⟨fun _ _ => rfl, nofun⟩
instance Steady.modRing (i : Nat) (f : Ring → Ring) : Steady (modRing i f) := ⟨fun _ _ => rfl, nofun⟩
instance Steady.modBound (i : Nat) (f : Bound → Bound) : Steady (modBound i f) := ⟨fun _ _ => rfl, nofun⟩
instance Steady.setNext (i : Nat) (v : Option Nat) : Steady (setNext i v) := ⟨fun _ _ => rfl, nofun⟩
instance Steady.setPrev (i : Nat) (v : Option Nat) : Steady (setPrev i v) := ⟨fun _ _ => rfl, nofun⟩
instance Steady.setNodeRing (i : Nat) (v : Option Nat) : Steady (setNodeRing i v) := ⟨fun _ _ => rfl, nofun⟩
instance Steady.setRingNode (i : Nat) (v : Option Nat) : Steady (setRingNode i v) := ⟨fun _ _ => rfl, nofun⟩
instance Steady.setRingParent (r : Nat) (p : Option Nat) : Steady (setRingParent r p) := ⟨fun _ _ => rfl, nofun⟩
instance Steady.setStats (r : Nat) (st : F64 × Nat × Box) : Steady (setStats r st) := ⟨fun _ _ => rfl, nofun⟩
instance Steady.modChildren (p : Option Nat) (f : List (Option Nat) → List (Option Nat)) : Steady (modChildren p f) := by
  unfold Wagyu.modChildren; split <;> exact ⟨fun _ _ => rfl, nofun⟩
instance Steady.childrenOf (p : Option Nat) : Steady (childrenOf p) := by unfold Wagyu.childrenOf; steady
instance Steady.createRing : Steady createRing := ⟨fun _ _ => rfl, nofun⟩
instance Steady.ablSet (i : Nat) (v : Option Nat) : Steady (ablSet i v) := ⟨fun _ _ => rfl, nofun⟩
instance Steady.ablFilter : Steady ablFilter := ⟨fun _ _ => rfl, nofun⟩
instance Steady.insertScan (y : Int) : Steady (insertScan y) := ⟨fun _ _ => rfl, nofun⟩
instance Steady.addHotPixel (p : Point) : Steady (addHotPixel p) := ⟨fun _ _ => rfl, nofun⟩
instance Steady.setCurrentHotPixelIndex (v : Nat) : Steady (setCurrentHotPixelIndex v) := ⟨fun _ _ => rfl, nofun⟩
instance Steady.currentHotPixelIndex : Steady currentHotPixelIndex := ⟨fun _ _ => rfl, nofun⟩
instance Steady.ablGet (i : Nat) : Steady (ablGet i) := by
  constructor
  · intro s k
    show (match s.abl[i]? with | some v => Res.ok v (s.wf k) | none => .err .index (s.wf k)) = _
    unfold Wagyu.ablGet
    cases s.abl[i]? <;> rfl
  · intro s e s' h
    unfold Wagyu.ablGet at h
    split at h
    · cases h
    · cases h; exact ⟨nofun, nofun⟩
instance Steady.hotPixelAt (i : Nat) : Steady (hotPixelAt i) := by
  constructor
  · intro s k
    show (match s.hotPixels[i]? with | some v => Res.ok v (s.wf k) | none => .err .index (s.wf k)) = _
    unfold Wagyu.hotPixelAt
    cases s.hotPixels[i]? <;> rfl
  · intro s e s' h
    unfold Wagyu.hotPixelAt at h
    split at h
    · cases h
    · cases h; exact ⟨nofun, nofun⟩
instance Steady.ablSwap (i j : Nat) : Steady (ablSwap i j) := by unfold Wagyu.ablSwap; steady
instance Steady.currentEdge (b : Nat) : Steady (currentEdge b) := by unfold Wagyu.currentEdge; steady
instance Steady.nextEdge (b : Nat) : Steady (nextEdge b) := by unfold Wagyu.nextEdge; steady
instance Steady.roundHalfUpM (x : F64) : Steady (roundHalfUpM x) := by unfold Wagyu.roundHalfUpM; steady
instance Steady.nextOf (i : Nat) : Steady (nextOf i) := by unfold Wagyu.nextOf; steady
instance Steady.prevOf (i : Nat) : Steady (prevOf i) := by unfold Wagyu.prevOf; steady
instance Steady.pointOf (i : Nat) : Steady (pointOf i) := by unfold Wagyu.pointOf; steady
instance Steady.nodesEq (a b : Option Nat) : Steady (nodesEq a b) := by unfold Wagyu.nodesEq; steady
instance Steady.toNextEdge (b : Nat) : Steady (toNextEdge b) := by unfold Wagyu.toNextEdge; steady
instance Steady.isIntermediate (b : Nat) (y : Int) : Steady (isIntermediate b y) := by unfold Wagyu.isIntermediate; steady
instance Steady.isMaxima (b : Nat) (y : Int) : Steady (isMaxima b y) := by unfold Wagyu.isMaxima; steady
instance Steady.boundInsertLocation (l r : Nat) : Steady (boundInsertLocation l r) := by unfold Wagyu.boundInsertLocation; steady
instance Steady.findInsertIndex (l : Nat) (abl : List (Option Nat)) (i : Nat) : Steady (findInsertIndex l abl i) := by
  induction abl generalizing i with
  | nil => unfold Wagyu.findInsertIndex; steady
  | cons a abl ih => have := ih (i + 1); unfold Wagyu.findInsertIndex; steady
instance Steady.insertBoundIntoAbl (l r : Nat) : Steady (insertBoundIntoAbl l r) := by unfold Wagyu.insertBoundIntoAbl; steady
instance Steady.updateCurrentX (y : Int) : Steady (updateCurrentX y) := by unfold Wagyu.updateCurrentX; steady
instance Steady.popScan (y : Int) : Steady (popScan y) := by unfold Wagyu.popScan; steady
instance Steady.crossingOf (a b : Nat) : Steady (crossingOf a b) := by unfold Wagyu.crossingOf; steady
instance Steady.insertLocalMinimaHotPixel (y : Int) (l : List LocalMinimum) : Steady (insertLocalMinimaHotPixel y l) := by
  induction l with
  | nil => unfold Wagyu.insertLocalMinimaHotPixel; steady
  | cons m l ih => unfold Wagyu.insertLocalMinimaHotPixel; steady
instance Steady.horizontalPass (b : Nat) (y : Int) (i : Nat) (f : F64 → F64 → Bool) : Steady (horizontalPass b y i f) := by
  unfold Wagyu.horizontalPass; steady
instance Steady.horizontalsAtTopScanbeam (y : Int) (i : Nat) : Steady (horizontalsAtTopScanbeam y i) := by
  unfold Wagyu.horizontalsAtTopScanbeam; steady

end Wagyu
