import Verif.Proofs.Run

/-!
# Postconditions

`Post m s Q E`: run from `s`, `m` either returns with a value and a state satisfying `Q` or raises with an exception and
a state satisfying `E`.  `Ok m s Q` says nothing about exceptions.
-/

namespace Wagyu

instance preoEq : Preo (Eq : St → St → Prop) := ⟨fun _ => rfl, fun h1 h2 => h1.trans h2⟩

def Post {α : Type} (m : M α) (s : St) (Q : α → St → Prop) (E : Err → St → Prop) : Prop :=
  match m s with
  | .ok a s' => Q a s'
  | .err e s' => E e s'

abbrev Ok {α : Type} (m : M α) (s : St) (Q : α → St → Prop) : Prop := Post m s Q fun _ _ => True

section
variable {α β σ : Type} {Q : α → St → Prop} {E : Err → St → Prop} {s : St}

theorem Ok.elim {m : M α} (h : Ok m s Q) {a : α} {s' : St} (e : m s = .ok a s') : Q a s' := by
  unfold Ok Post at h; rw [e] at h; exact h

theorem Post.ok {m : M α} (h : Post m s Q E) {a : α} {s' : St} (e : m s = .ok a s') : Q a s' := by
  unfold Post at h; rw [e] at h; exact h
theorem Post.err {m : M α} (h : Post m s Q E) {e : Err} {s' : St} (he : m s = .err e s') : E e s' := by
  unfold Post at h; rw [he] at h; exact h

theorem Ok.intro {m : M α} (h : ∀ a s', m s = .ok a s' → Q a s') : Ok m s Q := by
  unfold Ok Post
  split
  · next a s' e => exact h a s' e
  · trivial

theorem Post.run {m : M α} {a : α} {s' : St} (e : m s = .ok a s') (h : Q a s') : Post m s Q E := by
  unfold Post; rw [e]; exact h

theorem Post.mono {m : M α} {Q' : α → St → Prop} {E' : Err → St → Prop} (h : Post m s Q E)
    (h1 : ∀ a s', Q a s' → Q' a s') (h2 : ∀ e s', E e s' → E' e s') : Post m s Q' E' := by
  unfold Post at *
  cases hm : m s with
  | ok a s' => rw [hm] at h; exact h1 a s' h
  | err e s' => rw [hm] at h; exact h2 e s' h

theorem Post.imp {m : M α} {Q' : α → St → Prop} (h : Post m s Q E) (h1 : ∀ a s', Q a s' → Q' a s') : Post m s Q' E :=
  h.mono h1 fun _ _ h => h

theorem Post.and {m : M α} {Q' : α → St → Prop} (h : Post m s Q E) (h' : Ok m s Q') : Post m s (fun a s' => Q a s' ∧ Q' a s') E := by
  unfold Post Ok Post at *
  cases hm : m s with
  | ok a s' => rw [hm] at h h'; exact ⟨h, h'⟩
  | err e s' => rw [hm] at h; exact h

theorem Post.of_pres {R : St → St → Prop} {m : M α} (h : Pres R m) : Post m s (fun _ s' => R s s') (fun _ s' => R s s') := by
  have := h.pres s
  unfold Post
  cases hm : m s with
  | ok a s' => rw [hm] at this; exact this
  | err e s' => rw [hm] at this; exact this

theorem Post.bind {m : M α} {f : α → M β} {Q' : β → St → Prop} (h : Post m s (fun a s' => Post (f a) s' Q' E) E) :
    Post (m >>= f) s Q' E := by
  unfold Post at h ⊢
  rw [run_bind]
  cases hm : m s with
  | ok a s' => rw [hm] at h; exact h
  | err e s' => rw [hm] at h; exact h

theorem Post.pure {a : α} (h : Q a s) : Post (pure a : M α) s Q E := h
theorem Post.raise {e : Err} (h : E e s) : Post (raise e : M α) s Q E := h
theorem Post.gets {f : St → α} (h : Q (f s) s) : Post (gets f) s Q E := h
theorem Post.modify {f : St → St} {Q : Unit → St → Prop} (h : Q () (f s)) : Post (modify f) s Q E := h
theorem Post.getNode {i : Nat} {Q : Node → St → Prop} (h : Q (s.nodes i) s) : Post (getNode i) s Q E := h
theorem Post.getRing {i : Nat} {Q : Ring → St → Prop} (h : Q (s.rings i) s) : Post (getRing i) s Q E := h
theorem Post.getBound {i : Nat} {Q : Bound → St → Prop} (h : Q (s.bounds i) s) : Post (getBound i) s Q E := h
theorem Post.modNode {i : Nat} {f : Node → Node} {Q : Unit → St → Prop}
    (h : Q () { s with nodes := upd s.nodes i (f (s.nodes i)) }) : Post (modNode i f) s Q E := h
theorem Post.modRing {i : Nat} {f : Ring → Ring} {Q : Unit → St → Prop}
    (h : Q () { s with rings := upd s.rings i (f (s.rings i)) }) : Post (modRing i f) s Q E := h
theorem Post.modBound {i : Nat} {f : Bound → Bound} {Q : Unit → St → Prop}
    (h : Q () { s with bounds := upd s.bounds i (f (s.bounds i)) }) : Post (modBound i f) s Q E := h
theorem Post.deref {o : Option α} (h : ∀ a, o = some a → Q a s) (h' : o = none → E .attribute s) : Post (deref o) s Q E := by
  cases o with
  | none => exact h' rfl
  | some a => exact h a rfl
theorem Post.orIndex {o : Option α} (h : ∀ a, o = some a → Q a s) (h' : o = none → E .index s) : Post (orIndex o) s Q E := by
  cases o with
  | none => exact h' rfl
  | some a => exact h a rfl
theorem Post.ite {c : Prop} [Decidable c] {m n : M α} (h1 : c → Post m s Q E) (h2 : ¬ c → Post n s Q E) :
    Post (if c then m else n) s Q E := by
  split
  · exact h1 ‹_›
  · exact h2 ‹_›

theorem Post.iter {B : Type} {Q : B → St → Prop} {f : σ → M (σ ⊕ B)} {I : σ → St → Prop}
    (h : ∀ x s, I x s → Post (f x) s (fun r s' => match r with | .inl y => I y s' | .inr b => Q b s') E)
    (hE : ∀ x s, I x s → E .fuel s) :
    ∀ (n : Nat) (x : σ) (s : St), I x s → Post (iter n f x) s Q E
  | 0, x, s, hx => hE x s hx
  | n + 1, x, s, hx => by
    rw [Wagyu.iter]
    refine Post.bind ((h x s hx).imp ?_)
    intro r s' hr
    cases r with
    | inl y => exact Post.iter h hE n y s' hr
    | inr b => exact hr

theorem Post.loopM {B : Type} {Q : B → St → Prop} {f : σ → M (σ ⊕ B)} (I : σ → St → Prop)
    (h : ∀ x s, I x s → Post (f x) s (fun r s' => match r with | .inl y => I y s' | .inr b => Q b s') E)
    (hE : ∀ x s, I x s → E .fuel s) {x : σ} (hx : I x s) : Post (loopM f x) s Q E :=
  Post.iter h hE s.fuel x s hx

theorem Post.forElse {B : Type} {Q : B → St → Prop} {f : σ → M (σ ⊕ B)} {g : σ → M B} (I : σ → St → Prop)
    (h : ∀ x s, I x s → Post (f x) s (fun r s' => match r with | .inl y => I y s' | .inr b => Q b s') E)
    (hg : ∀ x s, I x s → Post (g x) s Q E) :
    ∀ (n : Nat) (x : σ) (s : St), I x s → Post (forElse n f g x) s Q E
  | 0, x, s, hx => hg x s hx
  | n + 1, x, s, hx => by
    rw [Wagyu.forElse]
    refine Post.bind ((h x s hx).imp ?_)
    intro r s' hr
    cases r with
    | inl y => exact Post.forElse I h hg n y s' hr
    | inr b => exact hr

theorem Post.forElseN {B : Type} {Q : B → St → Prop} {f : σ → M (σ ⊕ B)} {g : σ → M B} (I : Nat → σ → St → Prop)
    (h : ∀ k x s, I (k + 1) x s → Post (f x) s (fun r s' => match r with | .inl y => I k y s' | .inr b => Q b s') E)
    (hg : ∀ x s, I 0 x s → Post (g x) s Q E) :
    ∀ (n : Nat) (x : σ) (s : St), I n x s → Post (Wagyu.forElse n f g x) s Q E
  | 0, x, s, hx => hg x s hx
  | n + 1, x, s, hx => by
    rw [Wagyu.forElse]
    refine Post.bind ((h n x s hx).imp ?_)
    intro r s' hr
    cases r with
    | inl y => exact Post.forElseN I h hg n y s' hr
    | inr b => exact hr

theorem Post.forList {l : List α} {f : α → M Unit} (I : St → Prop)
    (h : ∀ x s, x ∈ l → I s → Post (f x) s (fun _ s' => I s') E) (hs : I s) : Post (forList l f) s (fun _ s' => I s') E := by
  induction l generalizing s with
  | nil => exact hs
  | cons a l ih =>
    rw [Wagyu.forList]
    exact Post.bind ((h a s (by simp) hs).imp fun _ s' hs' => ih (fun x s hx => h x s (by simp [hx])) hs')

end

end Wagyu
