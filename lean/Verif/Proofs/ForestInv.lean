import Verif.Proofs.SweepPrims
import Verif.Proofs.Post
import Verif.Spec.Forest

/-!
# The forest invariant
-/

namespace Wagyu

open Spec

/-- The children list of `p`. -/
def kids (s : St) (p : Option Nat) : List (Option Nat) := childrenIn s.children (fun i => (s.rings i).children) p

/-- How often `i` is listed under `p`. -/
def cnt (s : St) (p : Option Nat) (i : Nat) : Nat := (kids s p).count (some i)

/-- The invariant: listed once and only by the recorded parent; only existing rings are listed; the rings of `X` are not. -/
structure Inv (X : Nat → Prop) (s : St) : Prop where
  once : ∀ p i, cnt s p i ≤ if (s.rings i).parent = p then 1 else 0
  bound : ∀ p i, 0 < cnt s p i → i < s.nr
  free : ∀ r, X r → r < s.nr ∧ ∀ p, cnt s p r = 0

/-- The invariant, and at least `n` rings exist. -/
def J (X : Nat → Prop) (n : Nat) (s : St) : Prop := Inv X s ∧ n ≤ s.nr

/-- The invariant is kept. -/
def FR (X : Nat → Prop) (s s' : St) : Prop := ∀ n, J X n s → J X n s'

theorem J.mono {X Y : Nat → Prop} {n : Nat} {s : St} (h : J X n s) (hXY : ∀ r, Y r → X r) : J Y n s :=
  ⟨⟨h.1.once, h.1.bound, fun r hr => h.1.free r (hXY r hr)⟩, h.2⟩

/-- Only removals. -/
theorem FR.less {X : Nat → Prop} {s s' : St} (hn : s'.nr = s.nr) (hp : ∀ i, (s'.rings i).parent = (s.rings i).parent)
    (hc : ∀ p i, cnt s' p i ≤ cnt s p i) : FR X s s' := by
  rintro n ⟨h, hs⟩
  refine ⟨⟨fun p i => ?_, fun p i hi => ?_, fun r hr => ?_⟩, by omega⟩
  · rw [hp]; exact Nat.le_trans (hc p i) (h.once p i)
  · rw [hn]; exact h.bound p i (Nat.lt_of_lt_of_le hi (hc p i))
  · rw [hn]; exact ⟨(h.free r hr).1, fun p => Nat.le_zero.1 ((h.free r hr).2 p ▸ hc p r)⟩

theorem FR.same {X : Nat → Prop} {s s' : St} (hn : s'.nr = s.nr) (hp : ∀ i, (s'.rings i).parent = (s.rings i).parent)
    (hc : ∀ p, kids s' p = kids s p) : FR X s s' :=
  FR.less hn hp fun p i => by unfold cnt; rw [hc]

instance (X : Nat → Prop) : Preo (FR X) where
  refl _ _ h := h
  trans h1 h2 n h := h2 n (h1 n h)

instance frPrims (X : Nat → Prop) : Prims (FR X) where
  node s i n _ _ := FR.same rfl (fun _ => rfl) fun p => by cases p <;> rfl
  ring s i g h1 h2 := FR.same rfl (fun j => by simp only [upd]; split <;> simp_all) fun p => by
    cases p with
    | none => rfl
    | some q => simp only [kids, childrenIn, upd]; split <;> simp_all
  sort s l := FR.same rfl (fun _ => rfl) fun p => by cases p <;> rfl

theorem FR.post {X : Nat → Prop} {α : Type} {m : M α} (h : Pres (FR X) m) {n : Nat} {s : St} (hs : J X n s) :
    Post m s (fun _ s' => J X n s') (fun _ s' => J X n s') :=
  (Post.of_pres (s := s) h).mono (fun _ _ h => h n hs) (fun _ _ h => h n hs)

theorem FR.of_post {X : Nat → Prop} {α : Type} {m : M α}
    (h : ∀ n s, J X n s → Post m s (fun _ s' => J X n s') (fun _ s' => J X n s')) : Pres (FR X) m := by
  constructor
  intro s n hs
  have := h n s hs
  unfold Post at this
  cases hm : m s with
  | ok a s' => rw [hm] at this; exact this
  | err e s' => rw [hm] at this; exact this

/-! ## Lists -/

theorem count_remove (r i : Nat) (l : List (Option Nat)) :
    (removeFromChildren r l).count (some i) = if i = r then l.count (some i) - 1 else l.count (some i) := by
  induction l with
  | nil => simp [removeFromChildren]
  | cons c l ih =>
    rw [removeFromChildren]
    by_cases hc : c = some r
    · subst hc
      by_cases hi : i = r
      · subst hi; simp
      · simp [hi, Ne.symm hi]
    · rw [if_neg hc, List.count_cons, ih, List.count_cons]
      by_cases hi : i = r
      · subst hi; simp [hc]
      · simp [hi]

theorem count_set (r i : Nat) (l : List (Option Nat)) :
    (setToChildren r l).count (some i) = if i = r then l.count (some i) + 1 else l.count (some i) := by
  induction l with
  | nil =>
    by_cases hi : i = r
    · subst hi; simp [setToChildren]
    · simp [setToChildren, hi, Ne.symm hi]
  | cons c l ih =>
    cases c with
    | none =>
      by_cases hi : i = r
      · subst hi; simp [setToChildren]
      · simp [setToChildren, hi, Ne.symm hi]
    | some c =>
      rw [setToChildren, List.count_cons, ih, List.count_cons]
      split <;> omega

theorem count_none (i k : Nat) (l : List (Option Nat)) : (l.set k none).count (some i) ≤ l.count (some i) := by
  induction l generalizing k with
  | nil => simp
  | cons c l ih =>
    cases k with
    | zero => simp [List.count_cons]
    | succ k => simp only [List.set_cons_succ, List.count_cons]; have := ih k; omega

theorem count_none' (c i k : Nat) (l : List (Option Nat)) (hc : l[k]? = some (some c)) :
    (l.set k none).count (some i) = if i = c then l.count (some i) - 1 else l.count (some i) := by
  induction l generalizing k with
  | nil => simp at hc
  | cons d l ih =>
    cases k with
    | zero =>
      simp at hc; subst hc
      by_cases hi : i = c
      · subst hi; simp
      · simp [hi, Ne.symm hi]
    | succ k =>
      simp only [List.getElem?_cons_succ] at hc
      simp only [List.set_cons_succ, List.count_cons, ih k hc]
      by_cases hi : i = c
      · subst hi
        have : 0 < l.count (some i) := List.count_pos_iff.2 (List.mem_of_getElem? hc)
        simp only [if_true]; omega
      · simp [hi]

/-! ## Counting after a change of a list -/

/-- The state with the list of `p` changed. -/
def setKids (s : St) (p : Option Nat) (f : List (Option Nat) → List (Option Nat)) : St :=
  match p with
  | none => { s with children := f s.children }
  | some p => { s with rings := upd s.rings p { s.rings p with children := f (s.rings p).children } }

theorem modChildren_run (p : Option Nat) (f : List (Option Nat) → List (Option Nat)) (s : St) :
    modChildren p f s = .ok () (setKids s p f) := by cases p <;> rfl

theorem kids_setKids (s : St) (p q : Option Nat) (f : List (Option Nat) → List (Option Nat)) :
    kids (setKids s p f) q = if q = p then f (kids s q) else kids s q := by
  cases p with
  | none => cases q <;> simp [kids, childrenIn, setKids]
  | some p =>
    cases q with
    | none => simp [kids, childrenIn, setKids]
    | some q =>
      simp only [kids, childrenIn, setKids, upd, Option.some.injEq]
      split
      · subst q; rfl
      · rfl

theorem parent_setKids (s : St) (p : Option Nat) (f : List (Option Nat) → List (Option Nat)) (i : Nat) :
    ((setKids s p f).rings i).parent = (s.rings i).parent := by
  cases p with
  | none => rfl
  | some p => simp only [setKids, upd]; split <;> simp_all

theorem nr_setKids (s : St) (p : Option Nat) (f : List (Option Nat) → List (Option Nat)) : (setKids s p f).nr = s.nr := by
  cases p <;> rfl

theorem Post.modChildren {p : Option Nat} {f : List (Option Nat) → List (Option Nat)} {s : St} {Q : Unit → St → Prop}
    {E : Err → St → Prop} (h : Q () (setKids s p f)) : Post (modChildren p f) s Q E := Post.run (modChildren_run p f s) h

/-- The state with the parent of `r` changed. -/
def setPar (s : St) (r : Nat) (p : Option Nat) : St := { s with rings := upd s.rings r { s.rings r with parent := p } }

theorem kids_setPar (s : St) (r : Nat) (p q : Option Nat) : kids (setPar s r p) q = kids s q := by
  cases q with
  | none => rfl
  | some q => simp only [kids, childrenIn, setPar, upd]; split <;> simp_all

theorem parent_setPar (s : St) (r : Nat) (p : Option Nat) (i : Nat) :
    ((setPar s r p).rings i).parent = if i = r then p else (s.rings i).parent := by
  simp only [setPar, upd]; split <;> simp_all

theorem nr_setPar (s : St) (r : Nat) (p : Option Nat) : (setPar s r p).nr = s.nr := rfl

theorem Post.setRingParent {r : Nat} {p : Option Nat} {s : St} {Q : Unit → St → Prop} {E : Err → St → Prop}
    (h : Q () (setPar s r p)) : Post (setRingParent r p) s Q E := h

/-! ## The statements -/

section
variable {X : Nat → Prop}

instance fi01 (p : Option Nat) (r : Nat) : Pres (FR X) (modChildren p (removeFromChildren r)) :=
  ⟨fun s => by
    rw [modChildren_run]
    refine FR.less (s' := setKids s p (removeFromChildren r)) (nr_setKids _ _ _) (parent_setKids _ _ _) fun q i => ?_
    unfold cnt; rw [kids_setKids]
    split
    · rw [count_remove]; split <;> omega
    · exact Nat.le_refl _⟩

instance fi02 (r k : Nat) : Pres (FR X) (modRing r fun g => { g with children := g.children.set k none }) :=
  ⟨fun s => by
    refine FR.less (s' := setKids s (some r) fun l => l.set k none) (nr_setKids _ _ _) (parent_setKids _ _ _) fun q i => ?_
    unfold cnt; rw [kids_setKids]
    split
    · exact count_none _ _ _
    · exact Nat.le_refl _⟩

theorem FR.create (s : St) (n : Nat) (h : J X n s) :
    J (fun r => X r ∨ r = s.nr) n { s with rings := upd s.rings s.nr Ring.fresh, nr := s.nr + 1 }
      ∧ ¬ X s.nr := by
  obtain ⟨h, hn⟩ := h
  have hX : ∀ r, X r → r < s.nr := fun r hr => (h.free r hr).1
  have hz : ∀ p, cnt s p s.nr = 0 := fun p => by
    by_contra hc
    exact absurd (h.bound p s.nr (by omega)) (by omega)
  have hk : ∀ p i, cnt { s with rings := upd s.rings s.nr Ring.fresh, nr := s.nr + 1 } p i ≤ cnt s p i := by
    intro p i
    cases p with
    | none => exact Nat.le_refl _
    | some q =>
      simp only [cnt, kids, childrenIn, upd]
      by_cases hq : q = s.nr
      · simp [hq, Ring.fresh]
      · simp [hq]
  refine ⟨⟨⟨fun p i => ?_, fun p i hi => ?_, fun r hr => ?_⟩, ?_⟩, fun hx => absurd (hX _ hx) (by omega)⟩
  · by_cases hi : i = s.nr
    · subst hi
      have := hk p s.nr
      rw [hz] at this; omega
    · simp only [upd, hi, if_false]; exact Nat.le_trans (hk p i) (h.once p i)
  · exact Nat.lt_succ_of_lt (h.bound p i (Nat.lt_of_lt_of_le hi (hk p i)))
  · rcases hr with hr | hr
    · exact ⟨Nat.lt_succ_of_lt (hX r hr), fun p => by have := hk p r; rw [(h.free r hr).2] at this; omega⟩
    · subst hr
      exact ⟨Nat.lt_succ_self _, fun p => by have := hk p s.nr; rw [hz] at this; omega⟩
  · show n ≤ s.nr + 1; omega

instance fi03 : Pres (FR X) createRing := FR.of_post fun n s h => ((FR.create s n h).1.mono fun _ => Or.inl : J X n _)

theorem Post.createRing {n : Nat} {s : St} (h : J X n s) {Q : Nat → St → Prop} {E : Err → St → Prop}
    (hQ : ∀ s', s'.nr = s.nr + 1 → s'.bounds = s.bounds → J (fun r => X r ∨ r = s.nr) n s' → ¬ X s.nr → Q s.nr s') :
    Post createRing s Q E :=
  hQ _ rfl rfl (FR.create s n h).1 (FR.create s n h).2

/-- An unlisted ring gets listed. -/
theorem J.assign {s : St} {n r : Nat} {p : Option Nat} {f : List (Option Nat) → List (Option Nat)}
    (h : J (fun i => X i ∨ i = r) n s) (hX : ¬ X r)
    (hf : ∀ i, (f (kids s p)).count (some i) = if i = r then (kids s p).count (some i) + 1 else (kids s p).count (some i)) :
    J X n (setPar (setKids s p f) r p) := by
  obtain ⟨h, hn⟩ := h
  have hr := h.free r (Or.inr rfl)
  have hk : ∀ q i, cnt (setPar (setKids s p f) r p) q i = if i = r then (if q = p then 1 else 0) else cnt s q i := by
    intro q i
    simp only [cnt, kids_setPar, kids_setKids]
    by_cases hq : q = p
    · subst hq
      simp only [if_true, hf]
      by_cases hi : i = r
      · subst hi; have := hr.2 q; simp only [cnt] at this; simp [this]
      · simp [hi]
    · simp only [hq, if_false]
      by_cases hi : i = r
      · subst hi; simpa [cnt] using hr.2 q
      · simp [hi]
  refine ⟨⟨fun q i => ?_, fun q i hi => ?_, fun i hi => ?_⟩, by rw [nr_setPar, nr_setKids]; exact hn⟩
  · rw [hk, parent_setPar, parent_setKids]
    by_cases hi : i = r
    · by_cases hq : q = p
      · simp [hi, hq]
      · simp [hi, hq]
    · simp only [hi, if_false]; exact h.once q i
  · rw [hk] at hi
    rw [nr_setPar, nr_setKids]
    by_cases hir : i = r
    · rw [hir]; exact hr.1
    · rw [if_neg hir] at hi; exact h.bound q i hi
  · have hir : i ≠ r := fun he => hX (he ▸ hi)
    rw [nr_setPar, nr_setKids]
    exact ⟨(h.free i (Or.inl hi)).1, fun q => by rw [hk, if_neg hir]; exact (h.free i (Or.inl hi)).2 q⟩

/-- A ring is taken out of the list of its parent. -/
theorem J.unlist {s : St} {n r : Nat} (h : J X n s) (hr : r < s.nr) :
    J (fun i => X i ∨ i = r) n (setKids s (s.rings r).parent (removeFromChildren r)) := by
  obtain ⟨h, hn⟩ := h
  have hk : ∀ q i, cnt (setKids s (s.rings r).parent (removeFromChildren r)) q i = if i = r then 0 else cnt s q i := by
    intro q i
    simp only [cnt, kids_setKids]
    by_cases hi : i = r
    · subst hi
      have := h.once q i
      by_cases hq : q = (s.rings i).parent
      · rw [if_pos hq, count_remove]; simp only [cnt] at this; rw [if_pos hq.symm] at this; simp; omega
      · rw [if_neg hq]; simp only [cnt] at this; rw [if_neg (Ne.symm hq)] at this; simp; omega
    · rw [if_neg hi]
      split
      · rw [count_remove, if_neg hi]
      · rfl
  refine ⟨⟨fun q i => ?_, fun q i hi => ?_, fun i hi => ?_⟩, by rw [nr_setKids]; exact hn⟩
  · rw [hk, parent_setKids]; have := h.once q i; split
    · omega
    · exact this
  · rw [nr_setKids]; rw [hk] at hi; split at hi
    · omega
    · exact h.bound q i hi
  · rw [nr_setKids]
    refine ⟨?_, fun q => ?_⟩
    · rcases hi with hi | hi
      · exact (h.free i hi).1
      · exact hi ▸ hr
    · rw [hk]; split
      · rfl
      · rcases hi with hi | hi
        · exact (h.free i hi).2 q
        · contradiction

theorem Post.assignAsChild {s : St} {n r : Nat} {p : Option Nat} (h : J (fun i => X i ∨ i = r) n s) (hX : ¬ X r) :
    Post (assignAsChild r p) s (fun _ s' => J X n s') (fun _ s' => J X n s') := by
  unfold Wagyu.assignAsChild
  refine Post.bind ((FR.post (X := fun i => X i ∨ i = r) inferInstance h).mono (fun b s' h' => ?_) fun _ _ h' => h'.mono fun _ => Or.inl)
  refine Post.ite (fun _ => Post.raise (h'.mono fun _ => Or.inl)) fun _ => ?_
  exact Post.bind (Post.modChildren (Post.setRingParent (h'.assign hX (count_set r · _))))

theorem Post.assignAsSibling {s : St} {n r q : Nat} (h : J (fun i => X i ∨ i = r) n s) (hX : ¬ X r) :
    Post (assignAsSibling r q) s (fun _ s' => J X n s') (fun _ s' => J X n s') := by
  unfold Wagyu.assignAsSibling
  refine Post.bind ((FR.post (X := fun i => X i ∨ i = r) inferInstance h).mono (fun b s' h' => ?_) fun _ _ h' => h'.mono fun _ => Or.inl)
  refine Post.bind ((FR.post (X := fun i => X i ∨ i = r) inferInstance h').mono (fun b s' h' => ?_) fun _ _ h' => h'.mono fun _ => Or.inl)
  refine Post.ite (fun _ => Post.raise (h'.mono fun _ => Or.inl)) fun _ => ?_
  exact Post.bind (Post.getRing (Post.bind (Post.modChildren (Post.setRingParent (h'.assign hX (count_set r · _))))))

theorem Post.reassignAsChild {s : St} {n r : Nat} {p : Option Nat} (h : J X n s) (hr : r < s.nr) (hX : ¬ X r) :
    Post (reassignAsChild r p) s (fun _ s' => J X n s') (fun _ s' => J X n s') := by
  unfold Wagyu.reassignAsChild
  have h1 : J X s.nr s := ⟨h.1, Nat.le_refl _⟩
  have hw : ∀ s', J X s.nr s' → J X n s' := fun s' h' => ⟨h'.1, Nat.le_trans h.2 h'.2⟩
  refine Post.bind ((FR.post (X := X) inferInstance h1).mono (fun b s' h' => ?_) fun _ s' h' => hw s' h')
  refine Post.ite (fun _ => Post.raise (hw s' h')) fun _ => ?_
  refine Post.bind (Post.getRing (Post.bind (Post.modChildren (Post.bind (Post.modChildren (Post.setRingParent ?_))))))
  exact hw _ ((h'.unlist (Nat.lt_of_lt_of_le hr h'.2)).assign hX (count_set r · _))

theorem Post.forChildren {p : Option Nat} {body : Nat → M Unit} {n : Nat} {s : St} (h : J X n s)
    (hb : ∀ c s, J X n s → c < s.nr → ¬ X c → Post (body c) s (fun _ s' => J X n s') (fun _ s' => J X n s')) :
    Post (forChildren p body) s (fun _ s' => J X n s') (fun _ s' => J X n s') := by
  unfold Wagyu.forChildren
  refine Post.loopM (fun _ s => J X n s) (fun i s hs => ?_) (fun _ _ h => h) h
  have hk : childrenOf p s = .ok (kids s p) s := by cases p <;> rfl
  refine Post.bind (Post.run hk ?_)
  split
  · exact Post.pure hs
  · exact Post.pure hs
  · next c hc =>
    have hpos : 0 < cnt s p c := List.count_pos_iff.2 (List.mem_of_getElem? hc)
    refine Post.bind ((hb c s hs (hs.1.bound p c hpos) fun hx => ?_).imp fun _ s' hs' => Post.pure hs')
    have := (hs.1.free c hx).2 p
    omega

instance fi10 (r : Nat) (p : Option Nat) (l : List Nat) : Pres (FR X) (reassignChildrenIfNecessary r p l) :=
  FR.of_post fun n s h => Post.forChildren h fun c s hs hc hX => by
    refine Post.ite (fun _ => Post.pure hs) fun _ => ?_
    have h1 : J X s.nr s := ⟨hs.1, Nat.le_refl _⟩
    refine Post.bind ((FR.post (X := X) inferInstance h1).mono (fun b s' h' => ?_) fun _ s' h' => ⟨h'.1, Nat.le_trans hs.2 h'.2⟩)
    have hw : J X n s' := ⟨h'.1, Nat.le_trans hs.2 h'.2⟩
    exact Post.ite (fun _ => Post.reassignAsChild hw (Nat.lt_of_lt_of_le hc h'.2) hX) fun _ => Post.pure hw

theorem insideReassign (q : Nat) (p : Option Nat) :
    Pres (FR X) (forChildren p fun c => do if ← ringInsideOf c q then reassignAsChild c (some q)) :=
  FR.of_post fun n s h => Post.forChildren h fun c s hs hc hX => by
    have h1 : J X s.nr s := ⟨hs.1, Nat.le_refl _⟩
    refine Post.bind ((FR.post (X := X) inferInstance h1).mono (fun b s' h' => ?_) fun _ s' h' => ⟨h'.1, Nat.le_trans hs.2 h'.2⟩)
    have hw : J X n s' := ⟨h'.1, Nat.le_trans hs.2 h'.2⟩
    exact Post.ite (fun _ => Post.reassignAsChild hw (Nat.lt_of_lt_of_le hc h'.2) hX) fun _ => Post.pure hw

/-- What `replaceRing` does to the lists and parents, after the first `i` slots. -/
structure Moved (s : St) (r : Nat) (p : Option Nat) (i : Nat) (s' : St) : Prop where
  rest : ∀ k, i ≤ k → (s'.rings r).children[k]? = (s.rings r).children[k]?
  cnt : ∀ q j, cnt s' q j = if some j ∈ (s.rings r).children.take i then (if q = p then 1 else 0) else cnt s q j
  par : ∀ j, (s'.rings j).parent = if some j ∈ (s.rings r).children.take i then p else (s.rings j).parent

theorem replaceLoop_post {r : Nat} {p : Option Nat} (hp : p ≠ some r) {n : Nat} {s : St} (h : J X n s) {E : Err → St → Prop} :
    Post (forElse (s.rings r).children.length (fun (i : Nat) => do
      match (s.rings r).children.getD i none with
      | none => pure (.inl (i + 1))
      | some c =>
        setRingParent c p
        modChildren p (setToChildren c)
        modRing r fun g => { g with children := g.children.set i none }
        pure (.inl (i + 1))) (fun _ => pure ()) (0 : Nat)) s
      (fun (_ : Unit) s' => J X n s' ∧ Moved s r p (s.rings r).children.length s') E := by
  refine Post.forElseN (Q := fun (_ : Unit) s' => J X n s' ∧ Moved s r p (s.rings r).children.length s')
    (fun k (i : Nat) s' => J X n s' ∧ Moved s r p i s' ∧ i + k = (s.rings r).children.length)
    (fun k i s' hs' => ?_) (fun i s' hs' => Post.pure ⟨hs'.1, by have := hs'.2.2; rw [Nat.add_zero] at this; rw [← this]; exact hs'.2.1⟩)
    _ _ _ ⟨h, ⟨fun _ _ => rfl, by simp, by simp⟩, by simp⟩
  obtain ⟨hJ, hM, hik⟩ := hs'
  split
  · next hc =>
    have hn : ∀ j, some j ∈ (s.rings r).children.take (i + 1) ↔ some j ∈ (s.rings r).children.take i := by
      intro j
      rw [List.take_add_one, List.mem_append]
      rw [List.getD_eq_getElem?_getD] at hc
      cases h' : (s.rings r).children[i]? with
      | none => simp
      | some o => rw [h'] at hc; simp at hc; simp [hc]
    exact Post.pure ⟨hJ, ⟨fun k hk' => hM.rest k (by omega), fun q j => by rw [hM.cnt]; simp only [hn],
      fun j => by rw [hM.par]; simp only [hn]⟩, by omega⟩
  · next c hc =>
    have hci : (s'.rings r).children[i]? = some (some c) := by
      rw [hM.rest i (Nat.le_refl _)]
      rw [List.getD_eq_getElem?_getD] at hc
      cases h' : (s.rings r).children[i]? with
      | none => rw [h'] at hc; simp at hc
      | some o => rw [h'] at hc; simp at hc; rw [hc]
    have hkc : (kids s' (some r))[i]? = some (some c) := hci
    have hpos : 0 < cnt s' (some r) c := List.count_pos_iff.2 (List.mem_of_getElem? hkc)
    have hpar : (s'.rings c).parent = some r := by
      have := hJ.1.once (some r) c
      by_contra hne
      rw [if_neg hne] at this; omega
    have hone : (kids s' (some r)).count (some c) = 1 := by
      have := hJ.1.once (some r) c
      rw [if_pos hpar] at this
      unfold cnt at this hpos; omega
    refine Post.bind (Post.setRingParent (Post.bind (Post.modChildren (Post.bind (Post.modRing (Post.pure ?_))))))
    show J X n (setKids (setKids (setPar s' c p) p (setToChildren c)) (some r) fun l => l.set i none) ∧
      Moved s r p (i + 1) (setKids (setKids (setPar s' c p) p (setToChildren c)) (some r) fun l => l.set i none) ∧ _
    have hn : ∀ j, some j ∈ (s.rings r).children.take (i + 1) ↔ some j ∈ (s.rings r).children.take i ∨ j = c := by
      intro j
      rw [List.take_add_one, List.mem_append, ← hM.rest i (Nat.le_refl _), hci]
      simp
    have hrp : (some r) ≠ p := fun h => hp h.symm
    refine ⟨⟨⟨fun q j => ?_, fun q j hj => ?_, fun j hj => ?_⟩, ?_⟩, ⟨fun k hk' => ?_, fun q j => ?_, fun j => ?_⟩, by omega⟩
    all_goals
     have hcn : ∀ q j, cnt (setKids (setKids (setPar s' c p) p (setToChildren c)) (some r) fun l => l.set i none) q j
        = if j = c then (if q = p then 1 else 0) else cnt s' q j := by
      intro q j
      have ho := fun q => hJ.1.once q c
      simp only [cnt, kids_setKids, kids_setPar] at ho ⊢
      rw [hpar] at ho
      by_cases hq : q = some r
      · subst hq
        rw [if_pos rfl, if_neg hrp, count_none' c j i _ hkc]
        by_cases hjc : j = c
        · subst hjc; simp [hone, hrp]
        · simp [hjc]
      · rw [if_neg hq]
        by_cases hqp : q = p
        · subst hqp
          rw [if_pos rfl, count_set]
          have := ho q
          rw [if_neg (Ne.symm hq)] at this
          split
          · next hj => subst hj; simp; omega
          · rfl
        · rw [if_neg hqp]
          have := ho q
          rw [if_neg (Ne.symm hq)] at this
          by_cases hjc : j = c
          · subst hjc; simp [hqp]; omega
          · simp [hjc]
    · rw [hcn, parent_setKids, parent_setKids, parent_setPar]
      by_cases hjc : j = c
      · by_cases hq : q = p
        · simp [hjc, hq]
        · simp [hjc, hq]
      · simp only [hjc, if_false]; exact hJ.1.once q j
    · rw [nr_setKids, nr_setKids, nr_setPar]
      rw [hcn] at hj
      by_cases hjc : j = c
      · rw [hjc]; exact hJ.1.bound _ _ hpos
      · rw [if_neg hjc] at hj; exact hJ.1.bound q j hj
    · rw [nr_setKids, nr_setKids, nr_setPar]
      have hf := hJ.1.free j hj
      refine ⟨hf.1, fun q => ?_⟩
      have hjc : j ≠ c := fun he => by have := hf.2 (some r); rw [he] at this; omega
      rw [hcn, if_neg hjc]; exact hf.2 q
    · rw [nr_setKids, nr_setKids, nr_setPar]; exact hJ.2
    · have hr : kids (setKids (setKids (setPar s' c p) p (setToChildren c)) (some r) fun l => l.set i none) (some r)
          = (kids s' (some r)).set i none := by
        rw [kids_setKids, if_pos rfl, kids_setKids, if_neg hrp, kids_setPar]
      have : (kids s' (some r)) = (s'.rings r).children := rfl
      have hk2 := hM.rest k (by omega)
      rw [← hk2, ← this]
      show (kids _ (some r))[k]? = _
      erw [hr, List.getElem?_set_ne (by omega)]
    · rw [hcn, hM.cnt]
      simp only [hn]
      by_cases hjc : j = c <;> simp [hjc]
    · rw [parent_setKids, parent_setKids, parent_setPar, hM.par]
      simp only [hn]
      by_cases hjc : j = c <;> simp [hjc]

instance fi11 (r : Nat) (p : Option Nat) : Pres (FR X) (replaceRing r p) := by
  refine FR.of_post fun n s h => ?_
  unfold replaceRing
  refine Post.ite (fun _ => Post.raise h) fun hp => ?_
  refine Post.bind (Post.getRing ?_)
  exact Post.bind ((replaceLoop_post hp h).imp fun _ s' hs' => FR.post (by pres) hs'.1)

instance fi12 (n r : Nat) (a b : Bool) : Pres (FR X) (removeRing n r a b) := by
  induction n generalizing r a b with
  | zero => exact Pres.raise _
  | succ n ih => rw [removeRing]; pres
instance fi13 (n r : Nat) (a b : Bool) : Pres (FR X) (removeRingAndPoints n r a b) := by
  induction n generalizing r a b with
  | zero => exact Pres.raise _
  | succ n ih => rw [removeRingAndPoints]; pres
instance fi14 (r : Nat) : Pres (FR X) (removeRingKeepChildren r) := by unfold removeRingKeepChildren; pres
instance fi15 (r : Nat) : Pres (FR X) (removeRingAndPointsKeepChildren r) := by unfold removeRingAndPointsKeepChildren; pres

end

end Wagyu
