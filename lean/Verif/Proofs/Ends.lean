import Verif.Proofs.TotHeap

/-!
# Termination with a bound on the exceptions

`Ends E m s Q`: run from `s` with enough fuel, `m` returns a value and a state satisfying `Q`, or raises an exception
satisfying `E`; the outcome does not depend on the fuel.
-/

namespace Wagyu

open Spec

def Ends {α : Type} (E : Err → Prop) (m : M α) (s : St) (Q : α → St → Prop) : Prop :=
  ∃ N, (∃ (a : α) (s' : St), (∀ k, N ≤ k → m (s.wf k) = .ok a (s'.wf k)) ∧ Q a s')
    ∨ ∃ (e : Err) (s' : St), E e ∧ ∀ k, N ≤ k → m (s.wf k) = .err e (s'.wf k)

section
variable {α β σ : Type} {Q : α → St → Prop} {s : St} {E : Err → Prop}

theorem Ends.imp {m : M α} {Q' : α → St → Prop} (h : Ends E m s Q) (h1 : ∀ a s', Q a s' → Q' a s') : Ends E m s Q' := by
  obtain ⟨N, ⟨a, s', h2, h3⟩ | h⟩ := h
  · exact ⟨N, Or.inl ⟨a, s', h2, h1 a s' h3⟩⟩
  · exact ⟨N, Or.inr h⟩

theorem Ends.weaken {m : M α} {E' : Err → Prop} (h : Ends E m s Q) (h1 : ∀ e, E e → E' e) : Ends E' m s Q := by
  obtain ⟨N, h | ⟨e, s', h2, h3⟩⟩ := h
  · exact ⟨N, Or.inl h⟩
  · exact ⟨N, Or.inr ⟨e, s', h1 e h2, h3⟩⟩

theorem Ends.never {m : M α} (h : Ends (fun _ => False) m s Q) : Ends E m s Q := h.weaken fun _ => False.elim

theorem Ends.tot {m : M α} (h : Ends E m s Q) (hE : ∀ e, E e → e.Real) : Tot m s Q := by
  obtain ⟨N, h | ⟨e, s', h2, h3⟩⟩ := h
  · exact ⟨N, Or.inl h⟩
  · exact ⟨N, Or.inr ⟨e, s', hE e h2, h3⟩⟩

theorem Ends.run {m : M α} {a : α} {s' : St} (N : Nat)
    (h : ∀ k, N ≤ k → m (s.wf k) = .ok a (s'.wf k)) (hQ : Q a s') : Ends E m s Q := ⟨N, Or.inl ⟨a, s', h, hQ⟩⟩

theorem Ends.bind {m : M α} {f : α → M β} {Q' : β → St → Prop} (h : Ends E m s fun a s' => Ends E (f a) s' Q') :
    Ends E (m >>= f) s Q' := by
  obtain ⟨N, ⟨a, s', h2, N', h3⟩ | ⟨e, s', h2, h3⟩⟩ := h
  · rcases h3 with ⟨b, s'', h4, h5⟩ | ⟨e, s'', h4, h5⟩
    · refine ⟨max N N', Or.inl ⟨b, s'', fun k hk => ?_, h5⟩⟩
      rw [run_bind, h2 k (by omega)]
      exact h4 k (by omega)
    · refine ⟨max N N', Or.inr ⟨e, s'', h4, fun k hk => ?_⟩⟩
      rw [run_bind, h2 k (by omega)]
      exact h5 k (by omega)
  · refine ⟨N, Or.inr ⟨e, s', h2, fun k hk => ?_⟩⟩
    rw [run_bind, h3 k hk]

theorem Ends.pure {a : α} (h : Q a s) : Ends E (pure a : M α) s Q := ⟨0, Or.inl ⟨a, s, fun _ _ => rfl, h⟩⟩
theorem Ends.raise {e : Err} (h : E e) : Ends E (raise e : M α) s Q := ⟨0, Or.inr ⟨e, s, h, fun _ _ => rfl⟩⟩
theorem Ends.ite {c : Prop} [Decidable c] {m n : M α} (h1 : c → Ends E m s Q) (h2 : ¬ c → Ends E n s Q) :
    Ends E (if c then m else n) s Q := by
  split
  · exact h1 ‹_›
  · exact h2 ‹_›

theorem Ends.steady {m : M α} [hm : Steady m] (h : Post m s Q fun e _ => E e) : Ends E m s Q := by
  cases e : m s with
  | ok a s' =>
    refine ⟨0, Or.inl ⟨a, s', fun k _ => ?_, h.ok e⟩⟩
    rw [hm.eq, e]; rfl
  | err x s' =>
    refine ⟨0, Or.inr ⟨x, s', h.err e, fun k _ => ?_⟩⟩
    rw [hm.eq, e]; rfl

theorem Ends.and_pres {m : M α} {R : St → St → Prop} (h : Ends E m s Q) (h' : Pres R m)
    (hR : ∀ s s' k, R (s.wf k) (s'.wf k) → R s s') : Ends E m s fun a s' => Q a s' ∧ R s s' := by
  obtain ⟨N, ⟨a, s', h2, h3⟩ | h⟩ := h
  · refine ⟨N, Or.inl ⟨a, s', h2, h3, ?_⟩⟩
    have := (Post.of_pres (s := s.wf N) h').ok (h2 N (Nat.le_refl _))
    exact hR _ _ _ this
  · exact ⟨N, Or.inr h⟩

theorem Ends.iter {B : Type} {Q : B → St → Prop} {f : σ → M (σ ⊕ B)} {I : Nat → σ → St → Prop}
    (h : ∀ n x s, I n x s → Ends E (f x) s (fun r s' => match r with | .inl y => ∃ m < n, I m y s' | .inr b => Q b s')) :
    ∀ (c n : Nat) (x : σ) (s : St), n ≤ c → I n x s →
      ∃ N, (∃ (a : B) (s' : St), (∀ n, N ≤ n → ∀ k, N ≤ k → Wagyu.iter n f x (s.wf k) = .ok a (s'.wf k)) ∧ Q a s')
        ∨ ∃ (e : Err) (s' : St), E e ∧ ∀ n, N ≤ n → ∀ k, N ≤ k → Wagyu.iter n f x (s.wf k) = .err e (s'.wf k)
  | c, n, x, s, hc, hx => by
    have unf : ∀ n k, Wagyu.iter (n + 1) f x (s.wf k) = (match f x (s.wf k) with
        | .ok (.inl y) s' => Wagyu.iter n f y s'
        | .ok (.inr b) s' => .ok b s'
        | .err e s' => .err e s') := by
      intro n k
      rw [Wagyu.iter, run_bind]
      cases f x (s.wf k) with
      | ok r s' => cases r <;> rfl
      | err e s' => rfl
    obtain ⟨N, ⟨r, s', h2, h3⟩ | ⟨e, s', h2, h3⟩⟩ := h n x s hx
    · cases r with
      | inl y =>
        obtain ⟨n', h5, h4⟩ := h3
        match c, hc with
        | 0, hc => exact absurd h5 (by omega)
        | c + 1, hc =>
          obtain ⟨N', ⟨a, s'', h6, h7⟩ | ⟨e, s'', h6, h7⟩⟩ := Ends.iter h c n' y s' (by omega) h4
          · refine ⟨max N N' + 1, Or.inl ⟨a, s'', fun n hn k hk => ?_, h7⟩⟩
            obtain ⟨n, rfl⟩ : ∃ m, n = m + 1 := ⟨n - 1, by omega⟩
            rw [unf, h2 k (by omega)]
            exact h6 n (by omega) k (by omega)
          · refine ⟨max N N' + 1, Or.inr ⟨e, s'', h6, fun n hn k hk => ?_⟩⟩
            obtain ⟨n, rfl⟩ : ∃ m, n = m + 1 := ⟨n - 1, by omega⟩
            rw [unf, h2 k (by omega)]
            exact h7 n (by omega) k (by omega)
      | inr b =>
        refine ⟨N + 1, Or.inl ⟨b, s', fun n hn k hk => ?_, h3⟩⟩
        obtain ⟨n, rfl⟩ : ∃ m, n = m + 1 := ⟨n - 1, by omega⟩
        rw [unf, h2 k (by omega)]
    · refine ⟨N + 1, Or.inr ⟨e, s', h2, fun n hn k hk => ?_⟩⟩
      obtain ⟨n, rfl⟩ : ∃ m, n = m + 1 := ⟨n - 1, by omega⟩
      rw [unf, h3 k (by omega)]

/-- Loops, with the measure carried by the invariant. -/
theorem Ends.loopN {B : Type} {Q : B → St → Prop} {f : σ → M (σ ⊕ B)} (I : Nat → σ → St → Prop)
    (h : ∀ n x s, I n x s → Ends E (f x) s (fun r s' => match r with | .inl y => ∃ m < n, I m y s' | .inr b => Q b s'))
    {n : Nat} {x : σ} (hx : I n x s) : Ends E (Wagyu.loopM f x) s Q := by
  obtain ⟨N, ⟨a, s', h2, h3⟩ | ⟨e, s', h2, h3⟩⟩ := Ends.iter h _ n x s (Nat.le_refl _) hx
  · exact ⟨N, Or.inl ⟨a, s', fun k hk => h2 k hk k hk, h3⟩⟩
  · exact ⟨N, Or.inr ⟨e, s', h2, fun k hk => h3 k hk k hk⟩⟩

theorem Ends.forList {l : List α} {f : α → M Unit} (I : St → Prop)
    (h : ∀ x s, x ∈ l → I s → Ends E (f x) s (fun _ s' => I s')) (hs : I s) : Ends E (forList l f) s (fun _ s' => I s') := by
  induction l generalizing s with
  | nil => exact Ends.pure hs
  | cons a l ih =>
    rw [Wagyu.forList]
    exact Ends.bind ((h a s (by simp) hs).imp fun _ s' hs' => ih (fun x s hx => h x s (by simp [hx])) hs')

theorem Ends.getNode {i : Nat} {Q : Node → St → Prop} (h : Q (s.nodes i) s) : Ends E (getNode i) s Q := ⟨0, .inl ⟨_, s, fun _ _ => rfl, h⟩⟩
theorem Ends.getRing {i : Nat} {Q : Ring → St → Prop} (h : Q (s.rings i) s) : Ends E (getRing i) s Q := ⟨0, .inl ⟨_, s, fun _ _ => rfl, h⟩⟩
theorem Ends.pointOf {i : Nat} {Q : Point → St → Prop} (h : Q (locOf s.nodes i) s) : Ends E (pointOf i) s Q := ⟨0, .inl ⟨_, s, fun _ _ => rfl, h⟩⟩
theorem Ends.nextOf {i j : Nat} {Q : Nat → St → Prop} (hj : (s.nodes i).next = some j) (h : Q j s) : Ends E (nextOf i) s Q :=
  ⟨0, .inl ⟨j, s, fun k _ => run_nextOf (s := s.wf k) hj, h⟩⟩
theorem Ends.prevOf {i j : Nat} {Q : Nat → St → Prop} (hj : (s.nodes i).prev = some j) (h : Q j s) : Ends E (prevOf i) s Q :=
  ⟨0, .inl ⟨j, s, fun k _ => run_prevOf (s := s.wf k) hj, h⟩⟩
theorem Ends.modNode {i : Nat} {f : Node → Node} {Q : Unit → St → Prop}
    (h : Q () { s with nodes := upd s.nodes i (f (s.nodes i)) }) : Ends E (modNode i f) s Q := ⟨0, .inl ⟨(), _, fun _ _ => rfl, h⟩⟩
theorem Ends.modRing {i : Nat} {f : Ring → Ring} {Q : Unit → St → Prop}
    (h : Q () { s with rings := upd s.rings i (f (s.rings i)) }) : Ends E (modRing i f) s Q := ⟨0, .inl ⟨(), _, fun _ _ => rfl, h⟩⟩
theorem Ends.setNext {i : Nat} {v : Option Nat} {Q : Unit → St → Prop}
    (h : Q () { s with nodes := upd s.nodes i { s.nodes i with next := v } }) : Ends E (setNext i v) s Q := ⟨0, .inl ⟨(), _, fun _ _ => rfl, h⟩⟩
theorem Ends.setPrev {i : Nat} {v : Option Nat} {Q : Unit → St → Prop}
    (h : Q () { s with nodes := upd s.nodes i { s.nodes i with prev := v } }) : Ends E (setPrev i v) s Q := ⟨0, .inl ⟨(), _, fun _ _ => rfl, h⟩⟩
theorem Ends.setNodeRing {i : Nat} {v : Option Nat} {Q : Unit → St → Prop}
    (h : Q () { s with nodes := upd s.nodes i { s.nodes i with ring := v } }) : Ends E (setNodeRing i v) s Q := ⟨0, .inl ⟨(), _, fun _ _ => rfl, h⟩⟩
theorem Ends.setRingNode {i : Nat} {v : Option Nat} {Q : Unit → St → Prop}
    (h : Q () { s with rings := upd s.rings i { s.rings i with node := v } }) : Ends E (setRingNode i v) s Q := ⟨0, .inl ⟨(), _, fun _ _ => rfl, h⟩⟩
theorem Ends.createRing {Q : Nat → St → Prop} (h : Q s.nr { s with rings := upd s.rings s.nr Ring.fresh, nr := s.nr + 1 }) :
    Ends E createRing s Q := ⟨0, .inl ⟨s.nr, _, fun _ _ => rfl, h⟩⟩
theorem Ends.gets {f : St → α} {Q : α → St → Prop} (hf : ∀ s k, f (s.wf k) = f s) (h : Q (f s) s) : Ends E (gets f) s Q :=
  Ends.steady (hm := Steady.gets hf) (Post.gets h)
theorem Ends.modify {f : St → St} {Q : Unit → St → Prop} (hf : ∀ s k, f (s.wf k) = (f s).wf k) (h : Q () (f s)) : Ends E (modify f) s Q :=
  Ends.steady (hm := Steady.modify hf) (Post.modify h)
theorem Ends.deref {o : Option α} {a : α} (ho : o = some a) (h : Q a s) : Ends E (deref o) s Q := by
  subst ho; exact ⟨0, .inl ⟨a, s, fun _ _ => rfl, h⟩⟩
theorem Ends.nodesEq {a b : Nat} {Q : Bool → St → Prop} (h : Q (decide (locOf s.nodes a = locOf s.nodes b)) s) :
    Ends E (nodesEq (some a) (some b)) s Q := by
  refine Ends.steady ?_
  unfold Wagyu.nodesEq
  exact h

end

end Wagyu
