import Verif.Proofs.EdgesClose
import Verif.Props.Sequences

/-!
# Directed steps of a ring and how the bounds are cut out of them
-/

namespace Wagyu

open Spec

/-- An edge together with the direction in which the ring walks it. -/
structure Step where
  a : Point
  b : Point
  e : Edge

namespace Step

def Dn (s : Step) : Prop := s.a.y < s.b.y
def Up (s : Step) : Prop := s.b.y < s.a.y
def Hz (s : Step) : Prop := s.a.y = s.b.y

instance (s : Step) : Decidable s.Dn := inferInstanceAs (Decidable (_ < _))
instance (s : Step) : Decidable s.Up := inferInstanceAs (Decidable (_ < _))
instance (s : Step) : Decidable s.Hz := inferInstanceAs (Decidable (_ = _))

structure Ok (s : Step) : Prop where
  joins : Joins s.e s.a s.b
  wf : s.e.Wf
  hor : s.e.isHorizontal = true ↔ s.a.y = s.b.y

def Linked (s t : Step) : Prop := s.b = t.a ∧ ¬ EdgesParallel s.e t.e

theorem tri (s : Step) : s.Dn ∨ s.Up ∨ s.Hz := by unfold Dn Up Hz; omega

theorem Ok.ne {s : Step} (h : s.Ok) : s.a ≠ s.b := Joins.ne h.joins h.wf

theorem Ok.dn {s : Step} (h : s.Ok) (hd : s.Dn) : s.e.bottom = s.b ∧ s.e.top = s.a ∧ s.e.isHorizontal = false := by
  have h1 := h.wf.le
  have h2 := h.hor
  unfold Dn at hd
  have h3 : s.e.isHorizontal = false := by
    rw [← Bool.not_eq_true, h2]; omega
  rcases h.joins with ⟨e1, e2⟩ | ⟨e1, e2⟩
  · rw [e1, e2] at h1; omega
  · exact ⟨e1, e2, h3⟩

theorem Ok.up {s : Step} (h : s.Ok) (hd : s.Up) : s.e.bottom = s.a ∧ s.e.top = s.b ∧ s.e.isHorizontal = false := by
  have h1 := h.wf.le
  have h2 := h.hor
  unfold Up at hd
  have h3 : s.e.isHorizontal = false := by
    rw [← Bool.not_eq_true, h2]; omega
  rcases h.joins with ⟨e1, e2⟩ | ⟨e1, e2⟩
  · exact ⟨e1, e2, h3⟩
  · rw [e1, e2] at h1; omega

theorem Ok.hz {s : Step} (h : s.Ok) (hd : s.Hz) : s.e.isHorizontal = true := h.hor.2 hd

/-- Two consecutive horizontals would be parallel. -/
theorem no_hz_hz {s t : Step} (hs : s.Ok) (ht : t.Ok) (hl : Linked s t) (h1 : s.Hz) (h2 : t.Hz) : False := by
  apply hl.2
  unfold EdgesParallel
  unfold Hz at h1 h2
  have e1 : s.e.top.y - s.e.bottom.y = 0 := by
    rcases hs.joins with ⟨e1, e2⟩ | ⟨e1, e2⟩ <;> rw [e1, e2] <;> omega
  have e2 : t.e.top.y - t.e.bottom.y = 0 := by
    rcases ht.joins with ⟨e1, e2⟩ | ⟨e1, e2⟩ <;> rw [e1, e2] <;> omega
  rw [e1, e2]; ring

/-- The conditions of the two splits. -/
def notUp (s : Step) : Bool := decide (¬ s.Up)
def notDn (s : Step) : Bool := decide (¬ s.Dn)

/-- The edge as `create_bound_towards_minimum` takes it. -/
def oriented (s : Step) : Edge := if s.e.isHorizontal then s.e.reverseHorizontal else s.e

end Step

open Step

theorem reverse_joins {e : Edge} {a b : Point} (h : Joins e a b) (hy : a.y = b.y) : Joins e.reverseHorizontal a b := by
  have : e.bottom.y = e.top.y := by
    rcases h with ⟨e1, e2⟩ | ⟨e1, e2⟩ <;> rw [e1, e2]
    · exact hy
    · exact hy.symm
  obtain ⟨h1, h2⟩ := (C30_reverse_horizontal e).1 this
  rcases h with ⟨e1, e2⟩ | ⟨e1, e2⟩
  · exact Or.inr ⟨h2.trans e2, h1.trans e1⟩
  · exact Or.inl ⟨h2.trans e2, h1.trans e1⟩

theorem Step.Ok.oriented_joins {s : Step} (h : s.Ok) : Joins s.oriented s.a s.b := by
  unfold Step.oriented
  split
  · next hh => exact reverse_joins h.joins (h.hor.1 hh)
  · exact h.joins

theorem Step.oriented_horizontal (s : Step) : s.oriented.isHorizontal = s.e.isHorizontal := by
  unfold Step.oriented
  split
  · exact (C30_reverse_horizontal s.e).2.2
  · rfl

/-! ## The two splits -/

theorem towardsMinSplit_spec : ∀ (ss : List Step) (s : Step) (y : Bool), s.Ok → (∀ t ∈ ss, t.Ok) → (s :: ss).IsChain Linked →
    (s.Dn ∨ s.Hz ∧ y = true) →
    towardsMinSplit s.oriented y (ss.map Step.e)
      = ((ss.takeWhile notUp).map Step.oriented, (ss.dropWhile notUp).map Step.e) := by
  intro ss
  induction ss with
  | nil => intros; rfl
  | cons t ss ih =>
    intro s y hs hss hc hctx
    have ht : t.Ok := hss t (by simp)
    obtain ⟨hl, hc'⟩ := List.isChain_cons_cons.1 hc
    have hss' : ∀ u ∈ ss, u.Ok := fun u hu => hss u (by simp [hu])
    rw [List.map_cons]
    unfold towardsMinSplit
    simp only [Step.oriented_horizontal]
    have hor : (if t.e.isHorizontal = true then t.e.reverseHorizontal else t.e) = t.oriented := rfl
    rw [hor]
    rcases t.tri with hd | hu | hz
    · -- down
      obtain ⟨b1, b2, b3⟩ := ht.dn hd
      have hnu : notUp t = true := by unfold Step.Dn at hd; unfold notUp Step.Up; simp; omega
      rw [List.takeWhile_cons_of_pos hnu, List.dropWhile_cons_of_pos hnu]
      rcases hctx with hsd | ⟨hsh, rfl⟩
      · obtain ⟨a1, a2, a3⟩ := hs.dn hsd
        have ho : s.oriented = s.e := by unfold Step.oriented; simp [a3]
        have hne : ¬ s.e.bottom = t.e.bottom := by
          rw [a1, b1, hl.1]; exact ht.ne
        simp only [a3, b3, ho, hne, ih t y ht hss' hc' (Or.inl hd)]
        simp [ih t y ht hss' hc' (Or.inl hd)]
      · have hh := hs.hz hsh
        have n1 : ¬ t.e.bottom = s.oriented.bottom ∧ ¬ t.e.bottom = s.oriented.top := by
          unfold Step.Hz at hsh
          unfold Step.Dn at hd
          rw [b1]
          have hly := congrArg Point.y hl.1
          rcases hs.oriented_joins with ⟨e1, e2⟩ | ⟨e1, e2⟩ <;> rw [e1, e2] <;>
            constructor <;> intro h <;> have := congrArg Point.y h <;> omega
        simp [hh, b3, n1, ih t true ht hss' hc' (Or.inl hd)]
    · -- up
      obtain ⟨b1, b2, b3⟩ := ht.up hu
      have hnu : notUp t = false := by simp [notUp, hu]
      rw [List.takeWhile_cons_of_neg (by simp [notUp, hu]), List.dropWhile_cons_of_neg (by simp [notUp, hu])]
      rcases hctx with hsd | ⟨hsh, rfl⟩
      · obtain ⟨a1, a2, a3⟩ := hs.dn hsd
        have ho : s.oriented = s.e := by unfold Step.oriented; simp [a3]
        have he : s.e.bottom = t.e.bottom := by rw [a1, b1, hl.1]
        simp [a3, b3, ho, he]
      · have hh := hs.hz hsh
        have n1 : t.e.bottom = s.oriented.bottom ∨ t.e.bottom = s.oriented.top := by
          rw [b1, ← hl.1]
          rcases hs.oriented_joins with ⟨e1, e2⟩ | ⟨e1, e2⟩
          · exact Or.inr e2.symm
          · exact Or.inl e1.symm
        simp [hh, b3, n1]
    · -- horizontal
      have b3 := ht.hz hz
      have hnu : notUp t = true := by unfold Step.Hz at hz; unfold notUp Step.Up; simp; omega
      rw [List.takeWhile_cons_of_pos hnu, List.dropWhile_cons_of_pos hnu]
      rcases hctx with hsd | ⟨hsh, rfl⟩
      · obtain ⟨a1, a2, a3⟩ := hs.dn hsd
        have ho : s.oriented = s.e := by unfold Step.oriented; simp [a3]
        have he : (decide (s.e.bottom = t.e.top) || decide (s.e.bottom = t.e.bottom)) = true := by
          rw [a1, hl.1]
          rcases ht.joins with ⟨e1, e2⟩ | ⟨e1, e2⟩
          · simp [e1]
          · simp [e2]
        simp [a3, b3, ho, he, ih t true ht hss' hc' (Or.inr ⟨hz, rfl⟩)]
      · exact absurd hz (fun hz => no_hz_hz hs ht hl hsh hz)

theorem towardsMaxSplit_spec : ∀ (ss : List Step) (s : Step) (y : Bool), s.Ok → (∀ t ∈ ss, t.Ok) → (s :: ss).IsChain Linked →
    (s.Up ∨ s.Hz ∧ y = true) →
    towardsMaxSplit s.e y (ss.map Step.e)
      = ((ss.takeWhile notDn).map Step.e, (ss.dropWhile notDn).map Step.e) := by
  intro ss
  induction ss with
  | nil => intros; rfl
  | cons t ss ih =>
    intro s y hs hss hc hctx
    have ht : t.Ok := hss t (by simp)
    obtain ⟨hl, hc'⟩ := List.isChain_cons_cons.1 hc
    have hss' : ∀ u ∈ ss, u.Ok := fun u hu => hss u (by simp [hu])
    rw [List.map_cons]
    unfold towardsMaxSplit
    simp only
    rcases t.tri with hd | hu | hz
    · -- down
      obtain ⟨b1, b2, b3⟩ := ht.dn hd
      rw [List.takeWhile_cons_of_neg (by simp [notDn, hd]), List.dropWhile_cons_of_neg (by simp [notDn, hd])]
      rcases hctx with hsd | ⟨hsh, rfl⟩
      · obtain ⟨a1, a2, a3⟩ := hs.up hsd
        have he : s.e.top = t.e.top := by rw [a2, b2, hl.1]
        simp [a3, b3, he]
      · have hh := hs.hz hsh
        have n1 : t.e.top = s.e.bottom ∨ t.e.top = s.e.top := by
          rw [b2, ← hl.1]
          rcases hs.joins with ⟨e1, e2⟩ | ⟨e1, e2⟩
          · exact Or.inr e2.symm
          · exact Or.inl e1.symm
        simp [hh, b3, n1]
    · -- up
      obtain ⟨b1, b2, b3⟩ := ht.up hu
      have hnu : notDn t = true := by unfold Step.Up at hu; unfold notDn Step.Dn; simp; omega
      rw [List.takeWhile_cons_of_pos hnu, List.dropWhile_cons_of_pos hnu]
      rcases hctx with hsd | ⟨hsh, rfl⟩
      · obtain ⟨a1, a2, a3⟩ := hs.up hsd
        have hne : ¬ s.e.top = t.e.top := by
          rw [a2, b2, hl.1]; exact ht.ne
        simp [a3, b3, hne, ih t y ht hss' hc' (Or.inl hu)]
      · have hh := hs.hz hsh
        have n1 : ¬ t.e.top = s.e.bottom ∧ ¬ t.e.top = s.e.top := by
          unfold Step.Hz at hsh
          unfold Step.Up at hu
          rw [b2]
          have hly := congrArg Point.y hl.1
          rcases hs.joins with ⟨e1, e2⟩ | ⟨e1, e2⟩ <;> rw [e1, e2] <;>
            constructor <;> intro h <;> have := congrArg Point.y h <;> omega
        simp [hh, b3, n1, ih t true ht hss' hc' (Or.inl hu)]
    · -- horizontal
      have b3 := ht.hz hz
      have hnu : notDn t = true := by unfold Step.Hz at hz; unfold notDn Step.Dn; simp; omega
      rw [List.takeWhile_cons_of_pos hnu, List.dropWhile_cons_of_pos hnu]
      rcases hctx with hsd | ⟨hsh, rfl⟩
      · obtain ⟨a1, a2, a3⟩ := hs.up hsd
        have he : (decide (s.e.top = t.e.top) || decide (s.e.top = t.e.bottom)) = true := by
          rw [a2, hl.1]
          rcases ht.joins with ⟨e1, e2⟩ | ⟨e1, e2⟩
          · simp [e1]
          · simp [e2]
        simp [a3, b3, he, ih t true ht hss' hc' (Or.inr ⟨hz, rfl⟩)]
      · exact absurd hz (fun hz => no_hz_hz hs ht hl hsh hz)

/-! ## The local maximum -/

/-- The last steps (newest first) go up, possibly followed by one horizontal. -/
def CtxU : List Step → Prop
  | u :: rest => u.Up ∨ (u.Hz ∧ ∃ v r, rest = v :: r ∧ v.Up)
  | [] => False

theorem CtxU.up {u : Step} {l : List Step} (h : u.Up) : CtxU (u :: l) := Or.inl h

theorem CtxU.not_dn {u : Step} {l : List Step} (h : CtxU (u :: l)) : ¬ u.Dn := by
  unfold Step.Dn
  rcases h with h | ⟨h, _⟩
  · unfold Step.Up at h; omega
  · unfold Step.Hz at h; omega

/-- While going up no descent can follow unless a local maximum is passed. -/
theorem ctxU_stays : ∀ (l hist : List Step), (∀ t ∈ l, t.Ok) → (∀ t ∈ hist, t.Ok) →
    (hist.reverse ++ l).IsChain Linked → CtxU hist →
    (∀ l1 d l2, l = l1 ++ d :: l2 → d.Dn → ¬ CtxU (l1.reverse ++ hist)) →
    (∀ t ∈ l, ¬ t.Dn) ∧ CtxU (l.reverse ++ hist) := by
  intro l
  induction l with
  | nil => intro hist _ _ _ h _; exact ⟨by simp, by simpa using h⟩
  | cons t l ih =>
    intro hist hl hh hc hctx hno
    have ht := hl t (by simp)
    have hnd : ¬ t.Dn := fun hd => hno [] t l rfl hd (by simpa using hctx)
    match hist, hctx with
    | u :: rest, hctx =>
      have hu := hh u (by simp)
      have hlink : Linked u t := by
        rw [List.reverse_cons, List.append_assoc] at hc
        have := (List.isChain_append.1 hc).2.1
        exact (List.isChain_cons_cons.1 this).1
      have hctx' : CtxU (t :: u :: rest) := by
        rcases t.tri with hd | hup | hz
        · exact absurd hd hnd
        · exact Or.inl hup
        · right
          refine ⟨hz, u, rest, rfl, ?_⟩
          rcases hctx with h | ⟨h, _⟩
          · exact h
          · exact absurd hz (fun hz => no_hz_hz hu ht hlink h hz)
      obtain ⟨h1, h2⟩ := ih (t :: u :: rest) (fun x hx => hl x (by simp [hx]))
        (by intro x hx; rcases List.mem_cons.1 hx with rfl | hx; exacts [ht, hh x hx])
        (by simpa using hc) hctx' (by
          intro l1 d l2 e hd hcx
          exact hno (t :: l1) d l2 (by rw [e]; rfl) hd (by simpa using hcx))
      refine ⟨?_, by simpa using h2⟩
      intro x hx
      rcases List.mem_cons.1 hx with rfl | hx
      exacts [hnd, h1 x hx]

/-- Evaluate conditions whose parts are known. -/
local macro "bsimp" : tactic => `(tactic| simp only [Bool.not_false, Bool.not_true, Bool.and_self, Bool.and_true, Bool.true_and,
  Bool.and_false, Bool.false_and, Bool.or_false, Bool.false_or, Bool.or_true, Bool.true_or, Bool.or_self, decide_true, decide_false,
  Bool.false_eq_true, if_true, if_false])

theorem scan_spec : ∀ (l hist : List Step) (p : Step) (y : Bool) (i : Nat), p.Ok → (∀ t ∈ l, t.Ok) → (p :: l).IsChain Linked →
    (y = true → CtxU (p :: hist)) → (p.Hz → CtxU (p :: hist) → y = true) →
    ∃ k, localMaximumIndexFrom p.e y i (l.map Step.e) = i + k ∧ k ≤ l.length
      ∧ ((∃ d l2, l.drop k = d :: l2 ∧ d.Dn ∧ CtxU ((l.take k).reverse ++ p :: hist))
        ∨ (k = l.length ∧ ∀ l1 d l2, l = l1 ++ d :: l2 → d.Dn → ¬ CtxU (l1.reverse ++ p :: hist))) := by
  intro l
  induction l with
  | nil =>
    intro hist p y i _ _ _ _ _
    exact ⟨0, rfl, Nat.le_refl _, Or.inr ⟨rfl, by intro l1 d l2 h; simp at h⟩⟩
  | cons t l ih =>
    intro hist p y i hp hl hc hy1 hy2
    have ht := hl t (by simp)
    obtain ⟨hlink, hc'⟩ := List.isChain_cons_cons.1 hc
    have hl' : ∀ u ∈ l, u.Ok := fun u hu => hl u (by simp [hu])
    -- going on after `t`
    have go : ∀ y', (t.Dn → ¬ CtxU (p :: hist)) → (y' = true → CtxU (t :: p :: hist)) → (t.Hz → CtxU (t :: p :: hist) → y' = true) →
        ∃ k, localMaximumIndexFrom t.e y' (i + 1) (l.map Step.e) = i + k ∧ k ≤ (t :: l).length
        ∧ ((∃ d l2, (t :: l).drop k = d :: l2 ∧ d.Dn ∧ CtxU (((t :: l).take k).reverse ++ p :: hist))
          ∨ (k = (t :: l).length ∧ ∀ l1 d l2, t :: l = l1 ++ d :: l2 → d.Dn → ¬ CtxU (l1.reverse ++ p :: hist))) := by
      intro y' hnow h1 h2
      obtain ⟨k, e1, e2, e3⟩ := ih (p :: hist) t y' (i + 1) ht hl' hc' h1 h2
      refine ⟨k + 1, by rw [e1]; omega, by simp; omega, ?_⟩
      rcases e3 with ⟨d, l2, f1, f2, f3⟩ | ⟨f1, f2⟩
      · exact Or.inl ⟨d, l2, by simpa using f1, f2, by simpa using f3⟩
      · refine Or.inr ⟨by simp [f1], ?_⟩
        intro l1 d l2 he hd
        cases l1 with
        | nil =>
          simp only [List.nil_append, List.cons.injEq] at he
          obtain ⟨rfl, rfl⟩ := he
          simpa using hnow hd
        | cons x l1 =>
          simp only [List.cons_append, List.cons.injEq] at he
          obtain ⟨rfl, he⟩ := he
          have := f2 l1 d l2 he hd
          simpa using this
    -- a stop at `t`
    have stop : t.Dn → CtxU (p :: hist) →
        ∃ k, i = i + k ∧ k ≤ (t :: l).length
        ∧ ((∃ d l2, (t :: l).drop k = d :: l2 ∧ d.Dn ∧ CtxU (((t :: l).take k).reverse ++ p :: hist))
          ∨ (k = (t :: l).length ∧ ∀ l1 d l2, t :: l = l1 ++ d :: l2 → d.Dn → ¬ CtxU (l1.reverse ++ p :: hist))) :=
      fun hd hcx => ⟨0, rfl, Nat.zero_le _, Or.inl ⟨t, l, rfl, hd, by simpa using hcx⟩⟩
    rw [List.map_cons]
    unfold localMaximumIndexFrom
    simp only
    rcases t.tri with hd | hu | hz
    · obtain ⟨b1, b2, b3⟩ := ht.dn hd
      have hnctx : ¬ CtxU (t :: p :: hist) := fun h => h.not_dn hd
      have hnz : ¬ t.Hz := by unfold Step.Dn at hd; unfold Step.Hz; omega
      rcases p.tri with pd | pu | pz
      · obtain ⟨a1, a2, a3⟩ := hp.dn pd
        have hne : ¬ t.e.top = p.e.top := by rw [b2, a2, ← hlink.1]; exact hp.ne.symm
        have hpc : ¬ CtxU (p :: hist) := fun h => h.not_dn pd
        have hyf : y = false := by
          cases y
          · rfl
          · exact absurd (hy1 rfl) hpc
        simp only [a3, b3, hne, hyf]
        simp only [Bool.not_false, Bool.and_self, decide_false, Bool.and_false, Bool.false_eq_true, if_false, Bool.or_false, Bool.false_and]
        exact go false (fun _ => hpc) (by simp) (fun h => absurd h hnz)
      · obtain ⟨a1, a2, a3⟩ := hp.up pu
        have he : t.e.top = p.e.top := by rw [b2, a2, ← hlink.1]
        simp only [a3, b3, he]
        simp only [Bool.not_false, Bool.and_self, decide_true, if_true]
        exact stop hd (CtxU.up pu)
      · have a3 := hp.hz pz
        have n1 : (decide (t.e.top = p.e.bottom) || decide (t.e.top = p.e.top)) = true := by
          rw [b2, ← hlink.1]
          rcases hp.joins with ⟨e1, e2⟩ | ⟨e1, e2⟩
          · simp [e2]
          · simp [e1]
        simp only [a3, b3, n1]
        cases y
        · have hpc : ¬ CtxU (p :: hist) := fun h => by simpa using hy2 pz h
          bsimp
          exact go false (fun _ => hpc) (by simp) (fun h => absurd h hnz)
        · bsimp
          exact stop hd (hy1 rfl)
    · obtain ⟨b1, b2, b3⟩ := ht.up hu
      have hnd : ¬ t.Dn := by unfold Step.Up at hu; unfold Step.Dn; omega
      have hnz : ¬ t.Hz := by unfold Step.Up at hu; unfold Step.Hz; omega
      have g : ∀ y', _ := fun y' => go y' (fun h => absurd h hnd) (fun _ => CtxU.up hu) (fun h => absurd h hnz)
      have hne1 : p.e.isHorizontal = false → ¬ t.e.top = p.e.top := by
        intro hph
        rw [b2]
        rcases p.tri with pd | pu | pz
        · rw [(hp.dn pd).2.1]
          unfold Step.Dn at pd
          unfold Step.Up at hu
          intro h
          -- `t.b = p.a` would make the two edges parallel
          apply hlink.2
          obtain ⟨a1, a2, _⟩ := hp.dn pd
          unfold EdgesParallel
          rw [a1, a2, b1, b2, hlink.1, h]; ring
        · rw [(hp.up pu).2.1, hlink.1]; exact ht.ne.symm
        · rw [hp.hz pz] at hph; cases hph
      by_cases hph : p.e.isHorizontal = true
      · have n1 : (decide (t.e.top = p.e.bottom) || decide (t.e.top = p.e.top)) = false := by
          have hpz : p.Hz := hp.hor.1 hph
          unfold Step.Hz at hpz
          unfold Step.Up at hu
          have hly := congrArg Point.y hlink.1
          rw [b2]
          rcases hp.joins with ⟨e1, e2⟩ | ⟨e1, e2⟩ <;> rw [e1, e2] <;> simp <;>
            constructor <;> intro h <;> have := congrArg Point.y h <;> omega
        simp only [hph, b3, n1]
        bsimp
        exact g y
      · rw [Bool.not_eq_true] at hph
        simp only [hph, b3, hne1 hph]
        bsimp
        exact g y
    · have b3 := ht.hz hz
      have hnd : ¬ t.Dn := by unfold Step.Hz at hz; unfold Step.Dn; omega
      rcases p.tri with pd | pu | pz
      · obtain ⟨a1, a2, a3⟩ := hp.dn pd
        have hpc : ¬ CtxU (p :: hist) := fun h => h.not_dn pd
        have htc : ¬ CtxU (t :: p :: hist) := by
          rintro (h | ⟨_, v, r, h, hv⟩)
          · unfold Step.Up at h; unfold Step.Hz at hz; omega
          · obtain ⟨rfl, rfl⟩ := List.cons.inj h
            unfold Step.Up at hv; unfold Step.Dn at pd; omega
        have hyf : y = false := by
          cases y
          · rfl
          · exact absurd (hy1 rfl) hpc
        have n1 : (decide (p.e.top = t.e.top) || decide (p.e.top = t.e.bottom)) = false := by
          unfold Step.Hz at hz
          unfold Step.Dn at pd
          have hly := congrArg Point.y hlink.1
          rw [a2]
          rcases ht.joins with ⟨e1, e2⟩ | ⟨e1, e2⟩ <;> rw [e1, e2] <;> simp <;>
            constructor <;> intro h <;> have := congrArg Point.y h <;> omega
        simp only [a3, b3, hyf, n1]
        bsimp
        exact go false (fun h => absurd h hnd) (by simp) (fun _ h => absurd h htc)
      · obtain ⟨a1, a2, a3⟩ := hp.up pu
        have n1 : (decide (p.e.top = t.e.top) || decide (p.e.top = t.e.bottom)) = true := by
          rw [a2, hlink.1]
          rcases ht.joins with ⟨e1, e2⟩ | ⟨e1, e2⟩
          · simp [e1]
          · simp [e2]
        simp only [a3, b3, n1]
        bsimp
        exact go true (fun h => absurd h hnd) (fun _ => Or.inr ⟨hz, p, hist, rfl, pu⟩) (fun _ _ => rfl)
      · exact absurd hz (fun hz => no_hz_hz hp ht hlink pz hz)

end Wagyu
