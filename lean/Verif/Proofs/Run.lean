import Verif.Proofs.Pres
import Verif.Spec.Cycles
import Mathlib.Data.List.Rotate

/-!
# Running statements symbolically, and walking along a circular list
-/

namespace Wagyu

open Spec

section
variable {α β σ : Type}

theorem run_pure (a : α) (s : St) : (pure a : M α) s = .ok a s := rfl
theorem run_bind (m : M α) (f : α → M β) (s : St) :
    (m >>= f) s = match m s with | .ok a s' => f a s' | .err e s' => .err e s' := rfl
theorem run_raise (e : Err) (s : St) : (raise e : M α) s = .err e s := rfl
theorem run_gets (f : St → α) (s : St) : gets f s = .ok (f s) s := rfl
theorem run_modify (f : St → St) (s : St) : modify f s = .ok () (f s) := rfl
theorem run_deref_some (a : α) (s : St) : deref (some a) s = .ok a s := rfl
theorem run_deref_none (s : St) : (deref none : M α) s = .err .attribute s := rfl
theorem run_ite (c : Prop) [Decidable c] (m n : M α) (s : St) : (if c then m else n) s = if c then m s else n s := by
  split <;> rfl
theorem run_getNode (i : Nat) (s : St) : getNode i s = .ok (s.nodes i) s := rfl
theorem run_getRing (i : Nat) (s : St) : getRing i s = .ok (s.rings i) s := rfl
theorem run_getBound (i : Nat) (s : St) : getBound i s = .ok (s.bounds i) s := rfl
theorem run_pointOf (i : Nat) (s : St) : pointOf i s = .ok (locOf s.nodes i) s := rfl
theorem run_modNode (i : Nat) (f : Node → Node) (s : St) :
    modNode i f s = .ok () { s with nodes := upd s.nodes i (f (s.nodes i)) } := rfl
theorem run_modRing (i : Nat) (f : Ring → Ring) (s : St) :
    modRing i f s = .ok () { s with rings := upd s.rings i (f (s.rings i)) } := rfl
theorem run_modBound (i : Nat) (f : Bound → Bound) (s : St) :
    modBound i f s = .ok () { s with bounds := upd s.bounds i (f (s.bounds i)) } := rfl

theorem run_nextOf {i j : Nat} {s : St} (h : (s.nodes i).next = some j) : nextOf i s = .ok j s := by
  show (match (Res.ok (s.nodes i) s) with | .ok a s' => deref a.next s' | .err e s' => .err e s') = _
  simp [h, deref]
theorem run_prevOf {i j : Nat} {s : St} (h : (s.nodes i).prev = some j) : prevOf i s = .ok j s := by
  show (match (Res.ok (s.nodes i) s) with | .ok a s' => deref a.prev s' | .err e s' => .err e s') = _
  simp [h, deref]

theorem run_loopM (f : σ → M (σ ⊕ β)) (x : σ) (s : St) : loopM f x s = iter s.fuel f x s := rfl

theorem upd_same {α : Type} (f : Nat → α) (i : Nat) (v : α) : upd f i v i = v := by simp [upd]
theorem upd_ne {α : Type} (f : Nat → α) {i j : Nat} (v : α) (h : j ≠ i) : upd f i v j = f j := by simp [upd, h]

theorem iter_inl {f : σ → M (σ ⊕ β)} {n : Nat} {x y : σ} {s s' : St} (h : f x s = .ok (.inl y) s') :
    iter (n + 1) f x s = iter n f y s' := by
  rw [iter, run_bind, h]
theorem iter_inr {f : σ → M (σ ⊕ β)} {n : Nat} {x : σ} {b : β} {s s' : St} (h : f x s = .ok (.inr b) s') :
    iter (n + 1) f x s = .ok b s' := by
  rw [iter, run_bind, h]; rfl
theorem iter_err {f : σ → M (σ ⊕ β)} {n : Nat} {x : σ} {e : Err} {s s' : St} (h : f x s = .err e s') :
    iter (n + 1) f x s = .err e s' := by
  rw [iter, run_bind, h]

end

/-! ## Circular lists -/

section
variable {h : Nat → Node}

theorem Spec.IsCycle.ne_nil {l : List Nat} (hl : IsCycle h l) : l ≠ [] := by rintro rfl; exact hl
theorem Spec.IsCycle.nodup : ∀ {l : List Nat}, IsCycle h l → l.Nodup
  | _ :: _, hl => hl.1
theorem Spec.IsCycle.chain {a : Nat} {t : List Nat} (hl : IsCycle h (a :: t)) : (a :: t ++ [a]).IsChain (Link h) := hl.2

theorem isCycle_rotate_one {a b : Nat} {t : List Nat} (hl : IsCycle h (a :: b :: t)) : IsCycle h (b :: t ++ [a]) := by
  obtain ⟨h1, h2⟩ := hl
  refine ⟨?_, ?_⟩
  · rw [List.cons_append] at *
    have : (a :: b :: t).Perm (b :: (t ++ [a])) := by
      have := (List.perm_append_singleton a (b :: t)).symm
      simpa using this
    exact this.nodup_iff.1 h1
  · show (b :: (t ++ [a]) ++ [b]).IsChain _
    have e : b :: (t ++ [a]) ++ [b] = (b :: t ++ [a]) ++ [b] := by simp
    rw [e, List.isChain_append]
    rw [List.cons_append, List.cons_append, List.isChain_cons_cons] at h2
    refine ⟨by simpa using h2.2, by simp, ?_⟩
    intro x hx y hy
    rw [show b :: t ++ [a] = (b :: t) ++ [a] from rfl, List.getLast?_concat] at hx
    simp at hx hy
    subst hx hy
    exact h2.1

theorem isCycle_rotate {l : List Nat} (hl : IsCycle h l) (k : Nat) : IsCycle h (l.rotate k) := by
  induction k with
  | zero => simpa using hl
  | succ k ih =>
    rw [← List.rotate_rotate]
    match hr : l.rotate k, ih with
    | a :: [], ih => simpa using ih
    | a :: b :: t, ih => simpa using isCycle_rotate_one ih

/-- A cycle may be listed from any of its nodes. -/
theorem isCycle_append_comm {l₁ l₂ : List Nat} (hl : IsCycle h (l₁ ++ l₂)) : IsCycle h (l₂ ++ l₁) := by
  have := isCycle_rotate hl l₁.length
  rwa [List.rotate_append_length_eq] at this

theorem IsCycle_congr {h' : Nat → Node} {l : List Nat} (hl : IsCycle h l)
    (e : ∀ i ∈ l, (h' i).next = (h i).next ∧ (h' i).prev = (h i).prev) : IsCycle h' l := by
  cases l with
  | nil => exact hl
  | cons a t =>
    refine ⟨hl.1, hl.2.imp_of_mem_imp ?_⟩
    intro x y hx hy hxy
    have hx' : x ∈ a :: t := by simpa [or_comm, or_assoc] using hx
    have hy' : y ∈ a :: t := by simpa [or_comm, or_assoc] using hy
    exact ⟨by rw [(e x hx').1]; exact hxy.1, by rw [(e y hy').2]; exact hxy.2⟩

theorem onlyLinksOf_cycle {h' : Nat → Node} {l k : List Nat} (hf : OnlyLinksOf l h h') (hk : IsCycle h k)
    (hd : ∀ i ∈ k, i ∉ l) : IsCycle h' k :=
  IsCycle_congr hk fun i hi => by rw [hf.2 i (hd i hi)]; exact ⟨rfl, rfl⟩

/-- The successor of the last node is the first one. -/
theorem isCycle_closes {a b : Nat} {t : List Nat} (hl : IsCycle h (a :: t ++ [b])) : Link h b a := by
  have := hl.2
  rw [List.isChain_append] at this
  exact this.2.2 b (by rw [show a :: t.append [b] = (a :: t) ++ [b] from rfl, List.getLast?_concat]; rfl) a (by simp)

theorem isCycle_single {a : Nat} : IsCycle h [a] ↔ Link h a a := by
  simp [IsCycle]

end

/-! ## Assigning links -/

/-- The heap after `i.next = v`. -/
def putNext (h : Nat → Node) (i : Nat) (v : Option Nat) : Nat → Node := upd h i { h i with next := v }
/-- The heap after `i.prev = v`. -/
def putPrev (h : Nat → Node) (i : Nat) (v : Option Nat) : Nat → Node := upd h i { h i with prev := v }
/-- The heap after `i.ring = v`. -/
def putRing (h : Nat → Node) (i : Nat) (v : Option Nat) : Nat → Node := upd h i { h i with ring := v }

section
variable (h : Nat → Node) (i j : Nat) (v : Option Nat)

theorem putNext_next : (putNext h i v j).next = if j = i then v else (h j).next := by
  unfold putNext upd; split <;> simp_all
theorem putNext_prev : (putNext h i v j).prev = (h j).prev := by
  unfold putNext upd; split <;> simp_all
theorem putNext_x : (putNext h i v j).x = (h j).x := by unfold putNext upd; split <;> simp_all
theorem putNext_y : (putNext h i v j).y = (h j).y := by unfold putNext upd; split <;> simp_all
theorem putNext_ring : (putNext h i v j).ring = (h j).ring := by unfold putNext upd; split <;> simp_all
theorem putPrev_next : (putPrev h i v j).next = (h j).next := by
  unfold putPrev upd; split <;> simp_all
theorem putPrev_prev : (putPrev h i v j).prev = if j = i then v else (h j).prev := by
  unfold putPrev upd; split <;> simp_all
theorem putPrev_x : (putPrev h i v j).x = (h j).x := by unfold putPrev upd; split <;> simp_all
theorem putPrev_y : (putPrev h i v j).y = (h j).y := by unfold putPrev upd; split <;> simp_all
theorem putPrev_ring : (putPrev h i v j).ring = (h j).ring := by unfold putPrev upd; split <;> simp_all
theorem putRing_next : (putRing h i v j).next = (h j).next := by unfold putRing upd; split <;> simp_all
theorem putRing_prev : (putRing h i v j).prev = (h j).prev := by unfold putRing upd; split <;> simp_all
theorem putRing_x : (putRing h i v j).x = (h j).x := by unfold putRing upd; split <;> simp_all
theorem putRing_y : (putRing h i v j).y = (h j).y := by unfold putRing upd; split <;> simp_all
theorem putRing_ring : (putRing h i v j).ring = if j = i then v else (h j).ring := by
  unfold putRing upd; split <;> simp_all
theorem putNext_ne (e : j ≠ i) : putNext h i v j = h j := by simp [putNext, upd, e]
theorem putPrev_ne (e : j ≠ i) : putPrev h i v j = h j := by simp [putPrev, upd, e]
theorem putRing_ne (e : j ≠ i) : putRing h i v j = h j := by simp [putRing, upd, e]
end

theorem run_setNext (i : Nat) (v : Option Nat) (s : St) :
    setNext i v s = .ok () { s with nodes := putNext s.nodes i v } := rfl
theorem run_setPrev (i : Nat) (v : Option Nat) (s : St) :
    setPrev i v s = .ok () { s with nodes := putPrev s.nodes i v } := rfl
theorem run_setNodeRing (i : Nat) (v : Option Nat) (s : St) :
    setNodeRing i v s = .ok () { s with nodes := putRing s.nodes i v } := rfl

/-- Simplify projections of heaps after assignments. -/
macro "links" : tactic => `(tactic| simp only [putNext_next, putNext_prev, putNext_x, putNext_y, putNext_ring,
  putPrev_next, putPrev_prev, putPrev_x, putPrev_y, putPrev_ring,
  putRing_next, putRing_prev, putRing_x, putRing_y, putRing_ring])

/-! ## Segments -/

theorem seg_congr {h h' : Nat → Node} : ∀ {l : List Nat}, l.IsChain (Link h) →
    (∀ i ∈ l.dropLast, (h' i).next = (h i).next) → (∀ i ∈ l.tail, (h' i).prev = (h i).prev) → l.IsChain (Link h')
  | [], _, _, _ => .nil
  | [_], _, _, _ => .singleton _
  | a :: b :: l, hl, h1, h2 => by
    rw [List.isChain_cons_cons] at hl ⊢
    refine ⟨⟨?_, ?_⟩, seg_congr hl.2 ?_ ?_⟩
    · rw [h1 a (by simp)]; exact hl.1.1
    · rw [h2 b (by simp)]; exact hl.1.2
    · intro i hi; exact h1 i (by simp [hi])
    · intro i hi; exact h2 i (by simp at hi ⊢; exact Or.inr hi)

theorem isCycle_iff {h : Nat → Node} {l : List Nat} (hl : l ≠ []) :
    IsCycle h l ↔ l.Nodup ∧ l.IsChain (Link h) ∧ Link h (l.getLast hl) (l.head hl) := by
  cases l with
  | nil => exact absurd rfl hl
  | cons a t =>
    show _ ∧ (a :: t ++ [a]).IsChain (Link h) ↔ _
    rw [List.isChain_append]
    refine and_congr_right fun _ => and_congr_right fun _ => ?_
    simp [List.getLast?_eq_getLast_of_ne_nil]

theorem isCycle_append {h : Nat → Node} {P Q : List Nat} (hP : P ≠ []) (hQ : Q ≠ []) (hn : (P ++ Q).Nodup)
    (h1 : P.IsChain (Link h)) (h2 : Q.IsChain (Link h)) (h3 : Link h (P.getLast hP) (Q.head hQ))
    (h4 : Link h (Q.getLast hQ) (P.head hP)) : IsCycle h (P ++ Q) := by
  rw [isCycle_iff (by simp [hP])]
  refine ⟨hn, ?_, ?_⟩
  · rw [List.isChain_append]
    refine ⟨h1, h2, ?_⟩
    intro x hx y hy
    rw [Option.mem_def, List.getLast?_eq_getLast_of_ne_nil hP, Option.some.injEq] at hx
    rw [Option.mem_def, List.head?_eq_some_head hQ, Option.some.injEq] at hy
    rw [← hx, ← hy]; exact h3
  · rw [List.getLast_append_of_ne_nil _ hQ, List.head_append_of_ne_nil hP]; exact h4

theorem ne_getLast_of_dropLast {l : List Nat} (hl : l ≠ []) (hn : l.Nodup) {i : Nat} (hi : i ∈ l.dropLast) :
    i ≠ l.getLast hl := by
  rintro rfl
  rw [← List.dropLast_append_getLast hl, List.nodup_append] at hn
  exact hn.2.2 _ hi _ (by simp) rfl

theorem ne_head_of_tail {l : List Nat} (hl : l ≠ []) (hn : l.Nodup) {i : Nat} (hi : i ∈ l.tail) : i ≠ l.head hl := by
  rintro rfl
  cases l with
  | nil => exact hl rfl
  | cons a t => exact (List.nodup_cons.1 hn).1 hi

/-! ## Walks -/

/-- A loop that visits the nodes from `start` along the `next` links, updating an accumulator, computes the fold over the
cycle. -/
theorem walk {A B : Type} {f : Nat × A → M ((Nat × A) ⊕ B)} {g : Nat → A → A} {fin : A → B} {s : St} {start : Nat}
    {R : Nat → Nat → Prop}
    (hf : ∀ c c' acc, R c c' →
      f (c, acc) s = .ok (if c' = start then .inr (fin (g c acc)) else .inl (c', g c acc)) s) :
    ∀ (l : List Nat) (c n : Nat) (acc : A), (c :: l ++ [start]).IsChain R → start ∉ l → l.length < n →
      iter n f (c, acc) s = .ok (fin ((c :: l).foldl (fun a i => g i a) acc)) s := by
  intro l
  induction l with
  | nil =>
    intro c n acc hc _ hn
    obtain ⟨n, rfl⟩ : ∃ m, n = m + 1 := ⟨n - 1, by simp at hn; omega⟩
    have : R c start := by simpa using hc
    rw [iter_inr (b := fin (g c acc)) (s' := s)]
    · rfl
    · rw [hf c start acc this, if_pos rfl]
  | cons d l ih =>
    intro c n acc hc hs hn
    obtain ⟨n, rfl⟩ : ∃ m, n = m + 1 := ⟨n - 1, by simp at hn; omega⟩
    rw [List.cons_append, List.cons_append, List.isChain_cons_cons] at hc
    have hds : d ≠ start := fun e => hs (by simp [e])
    rw [iter_inl (y := (d, g c acc)) (s' := s)]
    · rw [ih d n (g c acc) (by simpa using hc.2) (fun e => hs (by simp [e])) (by simp at hn ⊢; omega)]
      rfl
    · rw [hf c d acc hc.1, if_neg hds]

end Wagyu
