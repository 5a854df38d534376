import Verif.Proofs.VattiTop

/-!
# The fuel is an artefact

`Up m m'`: when `m` finishes (with a value, or with an exception other than running out of fuel or recursion depth), then
so does `m'`, in the same way, when given more fuel.
-/

namespace Wagyu

/-- Has the fuel run out? -/
def Res.Out {α : Type} : Res α → Prop
  | .ok _ _ => False
  | .err e _ => ¬ e.Real

/-- The state of an outcome. -/
def Res.st {α : Type} : Res α → St
  | .ok _ s => s
  | .err _ s => s

/-- `n ≤ n'`, found by instance search. -/
class LeF (n n' : Nat) : Prop where
  le : n ≤ n'

class Up {α : Type} (m m' : M α) : Prop where
  keep : ∀ s, (m s).st.fuel = s.fuel
  up : ∀ s k, s.fuel ≤ k → (m s).Out ∨ m' (s.wf k) = (m s).wf k

section
variable {α β σ : Type}

theorem Res.st_wf (k : Nat) (r : Res α) : (r.wf k).st.fuel = k := by cases r <;> rfl

theorem Up.steady {m : M α} (h : Steady m) : Up m m := by
  refine ⟨fun s => ?_, fun s k _ => Or.inr (h.eq s k)⟩
  have := h.eq s s.fuel
  rw [show s.wf s.fuel = s from rfl] at this
  rw [this, Res.st_wf]

instance (priority := low) upOfSteady {m : M α} [h : Steady m] : Up m m := Up.steady h

theorem Up.ret (a : α) : Up (Pure.pure a : M α) (Pure.pure a) := upOfSteady

theorem Up.bind {m m' : M α} {f f' : α → M β} (h1 : Up m m') (h2 : ∀ a, Up (f a) (f' a)) : Up (m >>= f) (m' >>= f') := by
  constructor
  · intro s
    have := h1.keep s
    rw [run_bind]
    cases hm : m s with
    | ok a s' => rw [hm] at this; exact ((h2 a).keep s').trans this
    | err e s' => rw [hm] at this; exact this
  · intro s k hk
    have h3 := h1.keep s
    have h4 := h1.up s k hk
    rw [run_bind, run_bind]
    cases hm : m s with
    | ok a s' =>
      rw [hm] at h3 h4
      rcases h4 with h4 | h4
      · exact h4.elim
      · rw [h4]
        exact (h2 a).up s' k (by have : s'.fuel = s.fuel := h3; omega)
    | err e s' =>
      rw [hm] at h4
      rcases h4 with h4 | h4
      · exact Or.inl h4
      · rw [h4]; exact Or.inr rfl

theorem Up.ite {c : Prop} [Decidable c] {m n m' n' : M α} (h1 : Up m m') (h2 : Up n n') : Up (if c then m else n) (if c then m' else n') := by
  split <;> assumption

theorem Up.raise {e : Err} : Up (raise e : M α) (raise e) := ⟨fun _ => rfl, fun _ _ _ => Or.inr rfl⟩

theorem Up.out {e : Err} (h : ¬ e.Real) {m : M α} : Up (Wagyu.raise e : M α) m := ⟨fun _ => rfl, fun _ _ _ => Or.inl h⟩

theorem Up.iter {f f' : σ → M (σ ⊕ β)} (h : ∀ x, Up (f x) (f' x)) : ∀ (n n' : Nat), n ≤ n' → ∀ x, Up (iter n f x) (iter n' f' x)
  | 0, n', _, x => Up.out (fun h => h.1 rfl)
  | n + 1, 0, hn, x => absurd hn (by omega)
  | n + 1, n' + 1, hn, x => by
    rw [Wagyu.iter, Wagyu.iter]
    refine Up.bind (h x) fun r => ?_
    cases r with
    | inl y => exact Up.iter h n n' (by omega) y
    | inr b => exact upOfSteady

theorem Up.fuel {f f' : Nat → M β} (h : ∀ n n', LeF n n' → Up (f n) (f' n')) : Up (Wagyu.gets St.fuel >>= f) (Wagyu.gets St.fuel >>= f') :=
  ⟨fun s => (h s.fuel s.fuel ⟨Nat.le_refl _⟩).keep s, fun s k hk => (h s.fuel k ⟨hk⟩).up s k hk⟩

theorem Up.loopM {f f' : σ → M (σ ⊕ β)} (h : ∀ x, Up (f x) (f' x)) (x : σ) : Up (loopM f x) (loopM f' x) :=
  Up.fuel (f := fun n => Wagyu.iter n f x) (f' := fun n => Wagyu.iter n f' x) fun n n' hn => Up.iter h n n' hn.le x

theorem Up.forElse {f f' : σ → M (σ ⊕ β)} {g g' : σ → M β} (h : ∀ x, Up (f x) (f' x)) (hg : ∀ x, Up (g x) (g' x)) (n : Nat)
    (x : σ) : Up (forElse n f g x) (forElse n f' g' x) := by
  induction n generalizing x with
  | zero => exact hg x
  | succ n ih =>
    rw [Wagyu.forElse, Wagyu.forElse]
    refine Up.bind (h x) fun r => ?_
    cases r with
    | inl y => exact ih y
    | inr b => exact upOfSteady

theorem Up.forList {f f' : α → M Unit} (h : ∀ x, Up (f x) (f' x)) (l : List α) : Up (forList l f) (forList l f') := by
  induction l with
  | nil => exact ⟨fun _ => rfl, fun _ _ _ => Or.inr rfl⟩
  | cons a l ih => rw [Wagyu.forList, Wagyu.forList]; exact Up.bind (h a) fun _ => ih

theorem Up.mapM' {f f' : α → M β} (h : ∀ x, Up (f x) (f' x)) (l : List α) : Up (mapM' f l) (mapM' f' l) := by
  induction l with
  | nil => exact ⟨fun _ => rfl, fun _ _ _ => Or.inr rfl⟩
  | cons a l ih => rw [Wagyu.mapM', Wagyu.mapM']; exact Up.bind (h a) fun _ => Up.bind ih fun _ => upOfSteady

theorem Up.filterM' {p : α → M Bool} (h : ∀ x, Up (p x) (p x)) (l : List α) : Up (filterM' p l) (filterM' p l) := by
  induction l with
  | nil => exact ⟨fun _ => rfl, fun _ _ _ => Or.inr rfl⟩
  | cons a l ih => rw [Wagyu.filterM']; exact Up.bind (h a) fun _ => Up.bind ih fun _ => upOfSteady

theorem Up.anyChild {p p' : Nat → M Bool} (h : ∀ x, Up (p x) (p' x)) (l : List (Option Nat)) : Up (anyChild p l) (anyChild p' l) := by
  induction l with
  | nil => exact ⟨fun _ => rfl, fun _ _ _ => Or.inr rfl⟩
  | cons a l ih =>
    cases a with
    | none => rw [Wagyu.anyChild, Wagyu.anyChild]; exact ih
    | some a => rw [Wagyu.anyChild, Wagyu.anyChild]; exact Up.bind (h a) fun _ => Up.ite upOfSteady ih

theorem Up.gets {f : St → α} (h : ∀ s k, f (s.wf k) = f s) : Up (gets f) (gets f) := Up.steady (Steady.gets h)
theorem Up.modify {f : St → St} (h : ∀ s k, f (s.wf k) = (f s).wf k) : Up (modify f) (modify f) := Up.steady (Steady.modify h)

theorem Up.liftE (e : Except Err α) : Up (liftE e) (liftE e) := by
  cases e with
  | ok a => exact ⟨fun _ => rfl, fun _ _ _ => Or.inr rfl⟩
  | error e => exact Up.raise

end

/-- Further rules for `up`. -/
syntax "upx" : tactic
macro_rules | `(tactic| upx) => `(tactic| fail)

/-- Decompose a statement down to calls for which an instance is known. -/
macro "up" : tactic => `(tactic|
  repeat' first
    | infer_instance
    | assumption
    | ((with_reducible refine Up.gets ?_); intro _ _; rfl)
    | ((with_reducible refine Up.modify ?_); intro _ _; rfl)
    | (with_reducible exact Up.raise)
    | (with_reducible exact Up.liftE _)
    | (with_reducible refine Up.fuel fun _ _ _ => ?_)
    | (with_reducible solve_by_elim only [*])
    | upx
    | (with_reducible refine Up.loopM (fun _ => ?_) _)
    | (with_reducible refine Up.forElse (fun _ => ?_) (fun _ => ?_) _ _)
    | (with_reducible refine Up.forList (fun _ => ?_) _)
    | (with_reducible refine Up.mapM' (fun _ => ?_) _)
    | (with_reducible refine Up.filterM' (fun _ => ?_) _)
    | (with_reducible refine Up.anyChild (fun _ => ?_) _)
    | (with_reducible refine Up.bind ?_ fun _ => ?_)
    | (with_reducible refine Up.ite ?_ ?_)
    | split
    | dsimp only)

end Wagyu
