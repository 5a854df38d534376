import Verif.Proofs.Blind
import Verif.Proofs.Walks
import Verif.Proofs.SweepPrims

/-!
# Two runs of the same program

`Rel K D m P`: two runs of `m`, from states that differ at most in run-time attributes of bounds (those of the bounds in
`D` being related by `K`), return the same value, which satisfies `P`, in states related in the same way, or raise the same
exception.
-/

namespace Wagyu

/-- Two runs that end in the same way: with values and states related by `Q`, or with the same exception. -/
def Two {α β : Type} (m : M α) (m' : M β) (s t : St) (Q : α → β → St → St → Prop) : Prop :=
  match m s, m' t with
  | .ok a s', .ok b t' => Q a b s' t'
  | .err e _, .err f _ => e = f
  | _, _ => False

/-- The same part of the input, if it has edges (bounds without edges do not take part in operations). -/
structure SameIn (y x : Bound) : Prop where
  edges : y.edges = x.edges
  full : x.edges ≠ [] → SameInput y x

theorem SameInput.weak {y x : Bound} (h : SameInput y x) : SameIn y x := ⟨h.edges, fun _ => h⟩
theorem SameIn.change {y x y' x' : Bound} (h : SameIn y x) (hy : SameInput y' y) (hx : SameInput x' x) : SameIn y' x' := by
  refine ⟨hy.edges.trans (h.edges.trans hx.edges.symm), fun hn => ?_⟩
  have h0 := h.full (by rw [← hx.edges]; exact hn)
  exact ⟨hy.edges.trans (h0.edges.trans hx.edges.symm), hy.delta.trans (h0.delta.trans hx.delta.symm),
    hy.kind.trans (h0.kind.trans hx.kind.symm), hy.partner.trans (h0.partner.trans hx.partner.symm)⟩

/-- States that differ at most in run-time attributes of bounds. -/
structure Sim (K : Nat → Bound → Bound → Prop) (D : Nat → Prop) (s t : St) : Prop where
  rest : t = s.withB t.bounds
  input : ∀ b, SameIn (t.bounds b) (s.bounds b)
  live : ∀ b, D b → K b (s.bounds b) (t.bounds b)
  abl : ∀ b, some b ∈ s.abl → D b

structure Rel {α : Type} (K : Nat → Bound → Bound → Prop) (D : Nat → Prop) (m : M α) (P : α → Prop) : Prop where
  run : ∀ s t, Sim K D s t → Two m m s t fun a b s' t' => a = b ∧ P a ∧ Sim K D s' t'

/-- The active bounds, as a list, are kept. -/
def AblKept (s s' : St) : Prop := s'.abl = s.abl

instance : Preo AblKept where
  refl _ := rfl
  trans h k := k.trans h
instance : ForestPrims AblKept where
  node _ _ _ _ _ := rfl
  ring _ _ _ _ _ := rfl
  sort _ _ := rfl
  parent _ _ := ⟨fun _ => rfl⟩
  children p f := by unfold modChildren; split <;> exact ⟨fun _ => rfl⟩
  create := ⟨fun _ => rfl⟩
instance AblKept.createPointNode (r : Option Nat) (p : Point) (b : Option Nat) : Pres AblKept (createPointNode r p b) := by
  unfold Wagyu.createPointNode
  refine Pres.bind inferInstance fun _ => Pres.bind ⟨fun _ => rfl⟩ fun _ => ?_
  cases b with
  | none => exact Pres.bind ⟨fun _ => rfl⟩ fun _ => inferInstance
  | some b => exact Pres.bind inferInstance fun _ => Pres.bind ⟨fun _ => rfl⟩ fun _ => inferInstance
instance AblKept.insertScan (y : Int) : Pres AblKept (insertScan y) := ⟨fun _ => rfl⟩
instance AblKept.addHotPixel (p : Point) : Pres AblKept (addHotPixel p) := ⟨fun _ => rfl⟩
instance AblKept.setCur (v : Nat) : Pres AblKept (setCurrentHotPixelIndex v) := ⟨fun _ => rfl⟩
instance AblKept.modRing (i : Nat) (f : Ring → Ring) : Pres AblKept (modRing i f) := ⟨fun _ => rfl⟩
instance AblKept.joinNodes (a b : Nat) (c d : EdgeSide) : Pres AblKept (joinNodes a b c d) := by unfold Wagyu.joinNodes; pres
instance AblKept.chooseKeep (a b c d : Nat) : Pres AblKept (chooseKeep a b c d) := by unfold Wagyu.chooseKeep; pres
instance AblKept.updateHot (y : Int) : Pres AblKept (updateCurrentHotPixelIndex y) := by unfold updateCurrentHotPixelIndex; pres
instance AblKept.popScan (y : Int) : Pres AblKept (popScan y) := by
  unfold Wagyu.popScan
  refine Pres.bind inferInstance fun _ => ?_
  split
  · infer_instance
  · exact Pres.bind ⟨fun _ => rfl⟩ fun _ => inferInstance
instance AblKept.sortHot : Pres AblKept sortHotPixels := by
  unfold sortHotPixels
  refine Pres.bind inferInstance fun _ => Pres.bind inferInstance fun _ => ?_
  split
  · infer_instance
  · exact ⟨fun _ => rfl⟩

section
variable {α β γ δ σ : Type} {s t : St} {K : Nat → Bound → Bound → Prop} {D : Nat → Prop}

theorem Two.mono {m : M α} {m' : M β} {Q Q' : α → β → St → St → Prop} (h : Two m m' s t Q)
    (hq : ∀ a b s t, Q a b s t → Q' a b s t) : Two m m' s t Q' := by
  unfold Two at h ⊢
  split at h
  · exact hq _ _ _ _ h
  · exact h
  · exact h.elim
theorem Two.bind {m : M α} {m' : M β} {F : α → M γ} {F' : β → M δ} {Q : γ → δ → St → St → Prop}
    (h : Two m m' s t fun a b s t => Two (F a) (F' b) s t Q) : Two (m >>= F) (m' >>= F') s t Q := by
  unfold Two at h ⊢
  show match M.bind m F s, M.bind m' F' t with | .ok a s', .ok b t' => Q a b s' t' | .err e _, .err f _ => e = f | _, _ => False
  unfold M.bind
  cases h1 : m s <;> cases h2 : m' t <;> rw [h1, h2] at h
  · exact h
  · exact h.elim
  · exact h.elim
  · exact h
theorem Two.pure {a : α} {b : β} {Q : α → β → St → St → Prop} (h : Q a b s t) : Two (Pure.pure a : M α) (Pure.pure b : M β) s t Q := h
theorem Two.raise {e : Err} {Q : α → β → St → St → Prop} : Two (raise e : M α) (raise e : M β) s t Q := rfl
theorem Two.getBound {b c : Nat} {Q : Bound → Bound → St → St → Prop} (h : Q (s.bounds b) (t.bounds c) s t) :
    Two (getBound b) (getBound c) s t Q := h
theorem Two.modBound {b c : Nat} {f g : Bound → Bound} {Q : Unit → Unit → St → St → Prop}
    (h : Q () () { s with bounds := upd s.bounds b (f (s.bounds b)) } { t with bounds := upd t.bounds c (g (t.bounds c)) }) :
    Two (modBound b f) (modBound c g) s t Q := h

variable {P : α → Prop} {Q : β → Prop}

theorem Rel.two {m : M α} (h : Rel K D m P) (hs : Sim K D s t) {R : α → α → St → St → Prop}
    (hr : ∀ a s t, P a → Sim K D s t → R a a s t) : Two m m s t R :=
  (h.run s t hs).mono fun a b s t ⟨e, h1, h2⟩ => e ▸ hr a s t h1 h2
theorem Rel.mono {m : M α} {P' : α → Prop} (h : Rel K D m P) (hp : ∀ a, P a → P' a) : Rel K D m P' :=
  ⟨fun s t hs => (h.run s t hs).mono fun _ _ _ _ ⟨h1, h2, h3⟩ => ⟨h1, hp _ h2, h3⟩⟩
theorem Rel.triv {m : M α} (h : Rel K D m P) : Rel K D m fun _ => True := h.mono fun _ _ => trivial
theorem Rel.pure {a : α} (h : P a) : Rel K D (pure a : M α) P := ⟨fun _ _ hs => ⟨rfl, h, hs⟩⟩
theorem Rel.raise {e : Err} : Rel K D (raise e : M α) P := ⟨fun _ _ _ => rfl⟩
theorem Rel.bind {m : M α} {f : α → M β} (h : Rel K D m P) (hf : ∀ a, P a → Rel K D (f a) Q) : Rel K D (m >>= f) Q :=
  ⟨fun s t hs => Two.bind ((h.run s t hs).mono fun a b s' t' ⟨e, h1, h2⟩ => by subst e; exact (hf a h1).run s' t' h2)⟩
theorem Rel.ite {c : Prop} [Decidable c] {m n : M α} (h1 : c → Rel K D m P) (h2 : ¬ c → Rel K D n P) :
    Rel K D (if c then m else n) P := by
  split
  · exact h1 ‹_›
  · exact h2 ‹_›
theorem Sim.field (hs : Sim K D s t) {f : St → α} (h : ∀ s g, f (s.withB g) = f s) : f t = f s := by
  rw [hs.rest]; exact h _ _
theorem Rel.gets {f : St → α} (h : ∀ s g, f (s.withB g) = f s) (hp : ∀ s, (∀ b, some b ∈ s.abl → D b) → P (f s)) :
    Rel K D (gets f) P := by
  refine ⟨fun s t hs => ?_⟩
  show f s = f t ∧ P (f s) ∧ Sim K D s t
  exact ⟨(hs.field h).symm, hp s hs.abl, hs⟩
theorem Rel.deref {o : Option α} : Rel K D (deref o) fun a => o = some a := by
  cases o with
  | none => exact ⟨fun _ _ _ => rfl⟩
  | some a => exact ⟨fun _ _ hs => ⟨rfl, rfl, hs⟩⟩
theorem Rel.orIndex {o : Option α} : Rel K D (orIndex o) fun a => o = some a := by
  cases o with
  | none => exact ⟨fun _ _ _ => rfl⟩
  | some a => exact ⟨fun _ _ hs => ⟨rfl, rfl, hs⟩⟩
theorem Rel.liftE {x : Except Err α} : Rel K D (liftE x) fun _ => True := by
  cases x with
  | error e => exact ⟨fun _ _ _ => rfl⟩
  | ok a => exact ⟨fun _ _ hs => ⟨rfl, trivial, hs⟩⟩

/-- A statement that does not look at bounds and does not change the list of active bounds. -/
theorem Rel.blind {m : M α} [hb : Blind m] [hp : Pres AblKept m] : Rel K D m fun _ => True := by
  refine ⟨fun s t hs => ?_⟩
  have h1 := hb.eq s t.bounds
  rw [← hs.rest] at h1
  have h2 := hb.eq s s.bounds
  have h3 : s.withB s.bounds = s := rfl
  rw [h3] at h2
  have h4 := hp.pres s
  unfold Two
  rw [h1]
  cases hm : m s with
  | err e s' => rfl
  | ok a s' =>
    rw [hm] at h2 h4
    have h5 : s' = s'.withB s.bounds := by injection h2
    have h6 : s'.bounds = s.bounds := by rw [h5]; rfl
    have h7 : s'.abl = s.abl := h4
    refine ⟨rfl, trivial, ?_, ?_, ?_, ?_⟩
    · rfl
    · intro b; rw [h6]; exact hs.input b
    · intro b hb; rw [h6]; exact hs.live b hb
    · intro b hb; rw [h7] at hb; exact hs.abl b hb

/-- A change of the list of active bounds. -/
theorem Rel.setAbl {f : List (Option Nat) → List (Option Nat)} (h : ∀ l, (∀ b, some b ∈ l → D b) → ∀ b, some b ∈ f l → D b) :
    Rel K D (modify fun s => { s with abl := f s.abl }) fun _ => True := by
  refine ⟨fun s t hs => ⟨rfl, trivial, ?_, hs.input, hs.live, h _ hs.abl⟩⟩
  show ({ t with abl := f t.abl } : St) = _
  have := hs.field (f := St.abl) fun _ _ => rfl
  rw [this]
  conv => lhs; rw [hs.rest]
  rfl

/-- Reading a bound whose relevant attributes are the same in both runs. -/
theorem Rel.getBind {b : Nat} {F : Bound → M β} (hb : D b) (h : ∀ x y, K b x y → F x = F y) (hf : ∀ x, Rel K D (F x) Q) :
    Rel K D (getBound b >>= F) Q := by
  refine ⟨fun s t hs => Two.bind (Two.getBound ?_)⟩
  rw [h _ _ (hs.live b hb)]
  exact (hf _).run s t hs

theorem Sim.upd (hs : Sim K D s t) {b : Nat} {x y : Bound} (hK : D b → K b x y) (hx : SameInput x (s.bounds b))
    (hy : SameInput y (t.bounds b)) :
    Sim K D { s with bounds := upd s.bounds b x } { t with bounds := upd t.bounds b y } := by
  refine ⟨?_, ?_, ?_, hs.abl⟩
  · show ({ t with bounds := _ } : St) = _
    conv => lhs; rw [hs.rest]
    rfl
  · intro c
    show SameIn (Wagyu.upd t.bounds b y c) (Wagyu.upd s.bounds b x c)
    by_cases e : c = b
    · subst e
      rw [upd_same, upd_same]
      exact (hs.input c).change hy hx
    · rw [upd_ne _ _ e, upd_ne _ _ e]
      exact hs.input c
  · intro c hc
    show K c (Wagyu.upd s.bounds b x c) (Wagyu.upd t.bounds b y c)
    by_cases e : c = b
    · subst e
      rw [upd_same, upd_same]
      exact hK hc
    · rw [upd_ne _ _ e, upd_ne _ _ e]
      exact hs.live c hc

theorem Rel.modBound {b : Nat} {f : Bound → Bound} (hb : D b) (h : ∀ x y, K b x y → K b (f x) (f y)) (hf : ∀ x, SameInput (f x) x) :
    Rel K D (modBound b f) fun _ => True :=
  ⟨fun _ _ hs => ⟨rfl, trivial, hs.upd (fun _ => h _ _ (hs.live b hb)) (hf _) (hf _)⟩⟩

theorem Rel.iter {f : σ → M (σ ⊕ β)} (J : σ → Prop)
    (h : ∀ x, J x → Rel K D (f x) fun r => match r with | .inl y => J y | .inr b => Q b) (n : Nat) :
    ∀ x, J x → Rel K D (iter n f x) Q := by
  induction n with
  | zero => intro x _; exact Rel.raise
  | succ n ih =>
    intro x hx
    rw [Wagyu.iter]
    refine Rel.bind (h x hx) fun r hr => ?_
    cases r with
    | inl y => exact ih y hr
    | inr b => exact Rel.pure hr
theorem Rel.loopM {f : σ → M (σ ⊕ β)} (J : σ → Prop) {x : σ} (hx : J x)
    (h : ∀ x, J x → Rel K D (f x) fun r => match r with | .inl y => J y | .inr b => Q b) : Rel K D (loopM f x) Q := by
  refine ⟨fun s t hs => ?_⟩
  have := (Rel.iter J h s.fuel x hx).run s t hs
  unfold Two Wagyu.loopM at *
  rw [hs.field (f := St.fuel) fun _ _ => rfl]
  exact this
theorem Rel.forElse {f : σ → M (σ ⊕ β)} {g : σ → M β} (J : σ → Prop) {n : Nat} {x : σ} (hx : J x)
    (h : ∀ x, J x → Rel K D (f x) fun r => match r with | .inl y => J y | .inr b => Q b)
    (hg : ∀ x, J x → Rel K D (g x) Q) : Rel K D (forElse n f g x) Q := by
  induction n generalizing x with
  | zero => exact hg x hx
  | succ n ih =>
    rw [Wagyu.forElse]
    refine Rel.bind (h x hx) fun r hr => ?_
    cases r with
    | inl y => exact ih hr
    | inr b => exact Rel.pure hr
theorem Rel.forList {l : List α} {f : α → M Unit} (h : ∀ x ∈ l, Rel K D (f x) fun _ => True) :
    Rel K D (forList l f) fun _ => True := by
  induction l with
  | nil => exact Rel.pure trivial
  | cons a l ih =>
    rw [Wagyu.forList]
    exact Rel.bind (h a (by simp)) fun _ _ => ih fun x hx => h x (by simp [hx])

end

/-- A bound in `D`, or `None`. -/
def DOpt (D : Nat → Prop) (o : Option Nat) : Prop := ∀ b, o = some b → D b

end Wagyu
