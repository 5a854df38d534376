import Verif.Proofs.Post
import Verif.Model.Wagyu

/-!
# Invariants of the heap of nodes

`Keep I m P`: from a state satisfying `I`, if `m` returns, it returns a value satisfying `P` in a state satisfying `I`.
-/

namespace Wagyu

structure Keep {α : Type} (I : St → Prop) (m : M α) (P : α → Prop) : Prop where
  run : ∀ s, I s → Ok m s fun a s' => I s' ∧ P a

section
variable {α β σ : Type} {I : St → Prop} {P : α → Prop} {Q : β → Prop}

theorem Keep.mono {m : M α} {P' : α → Prop} (h : Keep I m P) (hp : ∀ a, P a → P' a) : Keep I m P' :=
  ⟨fun s hs => (h.run s hs).imp fun a _ ⟨h1, h2⟩ => ⟨h1, hp a h2⟩⟩
theorem Keep.triv {m : M α} (h : Keep I m P) : Keep I m fun _ => True := h.mono fun _ _ => trivial
theorem Keep.pure {a : α} (h : P a) : Keep I (pure a : M α) P := ⟨fun _ hs => ⟨hs, h⟩⟩
theorem Keep.unit : Keep I (Pure.pure () : M Unit) fun _ => True := ⟨fun _ hs => ⟨hs, trivial⟩⟩
theorem Keep.raise {e : Err} : Keep I (raise e : M α) P := ⟨fun _ _ => trivial⟩
theorem Keep.bind {m : M α} {f : α → M β} (h : Keep I m P) (hf : ∀ a, P a → Keep I (f a) Q) : Keep I (m >>= f) Q :=
  ⟨fun s hs => Post.bind ((h.run s hs).imp fun a s' ⟨h1, h2⟩ => (hf a h2).run s' h1)⟩
theorem Keep.ite {c : Prop} [Decidable c] {m n : M α} (h1 : c → Keep I m P) (h2 : ¬ c → Keep I n P) :
    Keep I (if c then m else n) P := by
  split
  · exact h1 ‹_›
  · exact h2 ‹_›
theorem Keep.gets {f : St → α} (h : ∀ s, I s → P (f s)) : Keep I (gets f) P := ⟨fun s hs => ⟨hs, h s hs⟩⟩
theorem Keep.modify {f : St → St} (h : ∀ s, I s → I (f s)) : Keep I (modify f) fun _ => True := ⟨fun s hs => ⟨h s hs, trivial⟩⟩
theorem Keep.deref {o : Option α} : Keep I (deref o) fun a => o = some a := by
  constructor
  intro s hs
  exact Post.deref (fun a h => ⟨hs, h⟩) fun _ => trivial
theorem Keep.orIndex {o : Option α} : Keep I (orIndex o) fun a => o = some a := by
  constructor
  intro s hs
  exact Post.orIndex (fun a h => ⟨hs, h⟩) fun _ => trivial
theorem Keep.liftE {x : Except Err α} : Keep I (liftE x) fun a => x = .ok a := by
  constructor
  intro s hs
  cases x with
  | ok a => exact ⟨hs, rfl⟩
  | error e => trivial

theorem Keep.loopM {f : σ → M (σ ⊕ β)} (J : σ → Prop) {x : σ} (hx : J x)
    (h : ∀ x, J x → Keep I (f x) fun r => match r with | .inl y => J y | .inr b => Q b) : Keep I (loopM f x) Q := by
  constructor
  intro s hs
  refine Post.loopM (fun x s => I s ∧ J x) ?_ (fun _ _ _ => trivial) ⟨hs, hx⟩
  intro x s ⟨hs, hx⟩
  refine ((h x hx).run s hs).imp ?_
  intro r s' ⟨h1, h2⟩
  cases r with
  | inl y => exact ⟨h1, h2⟩
  | inr b => exact ⟨h1, h2⟩

theorem Keep.forElse {f : σ → M (σ ⊕ β)} {g : σ → M β} (J : σ → Prop) {n : Nat} {x : σ} (hx : J x)
    (h : ∀ x, J x → Keep I (f x) fun r => match r with | .inl y => J y | .inr b => Q b)
    (hg : ∀ x, J x → Keep I (g x) Q) : Keep I (forElse n f g x) Q := by
  constructor
  intro s hs
  refine Post.forElse (fun x s => I s ∧ J x) ?_ ?_ n x s ⟨hs, hx⟩
  · intro x s ⟨hs, hx⟩
    refine ((h x hx).run s hs).imp ?_
    intro r s' ⟨h1, h2⟩
    cases r with
    | inl y => exact ⟨h1, h2⟩
    | inr b => exact ⟨h1, h2⟩
  · intro x s ⟨hs, hx⟩
    exact (hg x hx).run s hs

theorem Keep.forList {l : List α} {f : α → M Unit} (h : ∀ x ∈ l, Keep I (f x) fun _ => True) :
    Keep I (forList l f) fun _ => True := by
  constructor
  intro s hs
  exact (Post.forList I (fun x s hx hs => ((h x hx).run s hs).imp fun _ _ h => h.1) hs).imp fun _ _ h => ⟨h, trivial⟩

theorem Keep.mapM' {l : List α} {f : α → M β} (h : ∀ x ∈ l, Keep I (f x) Q) :
    Keep I (mapM' f l) fun r => ∀ b ∈ r, Q b := by
  induction l with
  | nil => exact Keep.pure (by simp)
  | cons a l ih =>
    rw [Wagyu.mapM']
    refine Keep.bind (h a (by simp)) fun b hb => Keep.bind (ih fun x hx => h x (by simp [hx])) fun r hr => Keep.pure ?_
    intro c hc
    rcases List.mem_cons.1 hc with rfl | hc
    · exact hb
    · exact hr c hc

theorem Keep.filterM' {l : List α} {p : α → M Bool} (h : ∀ x ∈ l, Keep I (p x) fun _ => True) :
    Keep I (filterM' p l) fun r => ∀ b ∈ r, b ∈ l := by
  induction l with
  | nil => exact Keep.pure (by simp)
  | cons a l ih =>
    rw [Wagyu.filterM']
    refine Keep.bind (h a (by simp)) fun b _ => Keep.bind (ih fun x hx => h x (by simp [hx])) fun r hr => Keep.pure ?_
    intro c hc
    split at hc
    · rcases List.mem_cons.1 hc with rfl | hc
      · simp
      · exact List.mem_cons_of_mem _ (hr c hc)
    · exact List.mem_cons_of_mem _ (hr c hc)

end

/-- A reference to an existing node, or `None`. -/
def VN (n : Nat) (o : Option Nat) : Prop := ∀ j, o = some j → j < n

theorem VN.none {n : Nat} : VN n none := nofun
theorem VN.some {n i : Nat} (h : i < n) : VN n (some i) := by rintro j ⟨⟩; exact h
theorem VN.lt {n i : Nat} (h : VN n (Option.some i)) : i < n := h i rfl

/-- Every reference to a node leads to one of the first `n` nodes, and the coordinates of those satisfy `V`. -/
structure HInv (V : Point → Prop) (n : Nat) (s : St) : Prop where
  nn : s.nn = n
  nodes : ∀ i, i < n → V ⟨(s.nodes i).x, (s.nodes i).y⟩ ∧ VN n (s.nodes i).next ∧ VN n (s.nodes i).prev
  rings : ∀ r, VN n (s.rings r).node ∧ VN n (s.rings r).bottomNode
  all : ∀ i ∈ s.allNodes, i < n

syntax "keep1" : tactic
syntax "keepside" : tactic
macro_rules | `(tactic| keepside) => `(tactic| first
  | assumption
  | exact VN.none
  | exact VN.some (by omega)
  | (apply VN.lt; simp_all; done)
  | omega
  | (simp_all; done)
  | grind [VN])
syntax "keep_step" : tactic
macro_rules | `(tactic| keep_step) => `(tactic| first
  | exact Keep.raise
  | (with_reducible apply Keep.ite <;> intro _)
  | (with_reducible refine Keep.pure ?_; first | trivial | keepside)
  | keep1
  | (with_reducible apply Keep.bind; (focus keep1); intro _ _)
  | (with_reducible refine Keep.bind (P := fun _ => True) ?_ ?_)
  | split)

section
variable {V : Point → Prop} {n : Nat} {α β σ : Type} {P : α → Prop}

macro_rules | `(tactic| keep1) => `(tactic| with_reducible exact Keep.deref)
macro_rules | `(tactic| keep1) => `(tactic| with_reducible exact Keep.orIndex)
macro_rules | `(tactic| keep1) => `(tactic| with_reducible exact Keep.liftE)
macro_rules | `(tactic| keep1) => `(tactic| with_reducible exact Keep.gets (P := fun _ => True) fun _ _ => trivial)

theorem keep_getNode {i : Nat} (h : i < n) : Keep (HInv V n) (getNode i)
    (fun nd => V ⟨nd.x, nd.y⟩ ∧ VN n nd.next ∧ VN n nd.prev) := ⟨fun _ hs => ⟨hs, hs.nodes i h⟩⟩
macro_rules | `(tactic| keep1) => `(tactic| with_reducible apply keep_getNode <;> keepside)

theorem keep_getRing {i : Nat} : Keep (HInv V n) (getRing i)
    (fun g => VN n g.node ∧ VN n g.bottomNode) := ⟨fun _ hs => ⟨hs, hs.rings i⟩⟩
macro_rules | `(tactic| keep1) => `(tactic| with_reducible exact keep_getRing)

theorem keep_modNode {i : Nat} {f : Node → Node}
    (hf : ∀ nd, (f nd).x = nd.x ∧ (f nd).y = nd.y ∧ (VN n nd.next → VN n nd.prev → VN n (f nd).next ∧ VN n (f nd).prev)) :
    Keep (HInv V n) (modNode i f) fun _ => True := by
  constructor
  intro s hs
  refine ⟨⟨hs.nn, ?_, hs.rings, hs.all⟩, trivial⟩
  intro j hj
  show V ⟨(upd s.nodes i _ j).x, (upd s.nodes i _ j).y⟩ ∧ VN n (upd s.nodes i _ j).next ∧ VN n (upd s.nodes i _ j).prev
  obtain ⟨h1, h2, h3⟩ := hs.nodes j hj
  by_cases e : j = i
  · subst e
    rw [upd_same]
    obtain ⟨a, b, c⟩ := hf (s.nodes j)
    rw [a, b]
    exact ⟨h1, c h2 h3⟩
  · rw [upd_ne _ _ e]
    exact ⟨h1, h2, h3⟩

theorem keep_setNext {i : Nat} {o : Option Nat} (h : VN n o) : Keep (HInv V n) (setNext i o) fun _ => True :=
  keep_modNode fun _ => ⟨rfl, rfl, fun _ h2 => ⟨h, h2⟩⟩
theorem keep_setPrev {i : Nat} {o : Option Nat} (h : VN n o) : Keep (HInv V n) (setPrev i o) fun _ => True :=
  keep_modNode fun _ => ⟨rfl, rfl, fun h1 _ => ⟨h1, h⟩⟩
theorem keep_setNodeRing {i : Nat} {o : Option Nat} : Keep (HInv V n) (setNodeRing i o) fun _ => True :=
  keep_modNode fun _ => ⟨rfl, rfl, fun h1 h2 => ⟨h1, h2⟩⟩
macro_rules | `(tactic| keep1) => `(tactic| with_reducible apply keep_setNext <;> keepside)
macro_rules | `(tactic| keep1) => `(tactic| with_reducible apply keep_setPrev <;> keepside)
macro_rules | `(tactic| keep1) => `(tactic| with_reducible exact keep_setNodeRing)

theorem keep_modRing {i : Nat} {f : Ring → Ring}
    (hf : ∀ g, VN n g.node → VN n g.bottomNode → VN n (f g).node ∧ VN n (f g).bottomNode) :
    Keep (HInv V n) (modRing i f) fun _ => True := by
  constructor
  intro s hs
  refine ⟨⟨hs.nn, hs.nodes, ?_, hs.all⟩, trivial⟩
  intro j
  show VN n (upd s.rings i _ j).node ∧ VN n (upd s.rings i _ j).bottomNode
  obtain ⟨h1, h2⟩ := hs.rings j
  by_cases e : j = i
  · subst e
    rw [upd_same]
    exact hf _ h1 h2
  · rw [upd_ne _ _ e]
    exact ⟨h1, h2⟩
macro_rules | `(tactic| keep1) => `(tactic| (with_reducible refine keep_modRing ?_; intro _ _ _; first | exact ⟨by assumption, by assumption⟩ | exact ⟨VN.none, by assumption⟩ | exact ⟨by assumption, VN.none⟩ | exact ⟨VN.none, VN.none⟩ | (constructor <;> keepside)))
macro_rules | `(tactic| keep1) => `(tactic| (with_reducible refine keep_modNode ?_; intro _; refine ⟨rfl, rfl, ?_⟩; intro _ _; constructor <;> keepside))

theorem keep_setRingNode {i : Nat} {o : Option Nat} (h : VN n o) : Keep (HInv V n) (setRingNode i o) fun _ => True :=
  keep_modRing fun _ _ h2 => ⟨h, h2⟩
macro_rules | `(tactic| keep1) => `(tactic| with_reducible apply keep_setRingNode <;> keepside)
theorem keep_setRingParent {i : Nat} {o : Option Nat} : Keep (HInv V n) (setRingParent i o) fun _ => True :=
  keep_modRing fun _ h1 h2 => ⟨h1, h2⟩
macro_rules | `(tactic| keep1) => `(tactic| with_reducible exact keep_setRingParent)

macro "keep" : tactic => `(tactic| repeat' (first | keep_step | (intro _ _)))

theorem keep_nextOf {i : Nat} (h : i < n) : Keep (HInv V n) (nextOf i) fun j => j < n := by
  unfold nextOf
  refine Keep.bind (keep_getNode h) fun a ha => Keep.mono Keep.deref fun j hj => ?_
  exact ha.2.1 j hj
macro_rules | `(tactic| keep1) => `(tactic| with_reducible apply keep_nextOf <;> keepside)
theorem keep_prevOf {i : Nat} (h : i < n) : Keep (HInv V n) (prevOf i) fun j => j < n := by
  unfold prevOf
  refine Keep.bind (keep_getNode h) fun a ha => Keep.mono Keep.deref fun j hj => ?_
  exact ha.2.2 j hj
macro_rules | `(tactic| keep1) => `(tactic| with_reducible apply keep_prevOf <;> keepside)
theorem keep_pointOf {i : Nat} (h : i < n) : Keep (HInv V n) (pointOf i) V := by
  unfold pointOf
  exact Keep.bind (keep_getNode h) fun a ha => Keep.pure ha.1
macro_rules | `(tactic| keep1) => `(tactic| with_reducible apply keep_pointOf <;> keepside)
theorem keep_nodesEq {a b : Option Nat} (ha : VN n a) (hb : VN n b) : Keep (HInv V n) (nodesEq a b) fun _ => True := by
  unfold nodesEq
  split
  · have := ha.lt; have := hb.lt
    keep
  · keep
  · keep
macro_rules | `(tactic| keep1) => `(tactic| with_reducible apply keep_nodesEq <;> keepside)

end

end Wagyu
