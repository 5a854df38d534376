import Verif.Proofs.Steps

/-!
# The edges of a ring, rotated so that they start at a local maximum
-/

namespace Wagyu

open Spec Step

/-- A closed chain of steps. -/
structure Cyc (ss : List Step) : Prop where
  ok : ∀ s ∈ ss, s.Ok
  chain : ss.IsChain Linked
  closes : ∀ x ∈ ss.getLast?, ∀ y ∈ ss.head?, Linked x y

theorem Cyc.rotate {l r : List Step} (h : Cyc (l ++ r)) : Cyc (r ++ l) := by
  cases l with
  | nil => simpa using h
  | cons a l =>
    cases r with
    | nil => simpa using h
    | cons b r =>
      obtain ⟨c1, c2, c3⟩ := List.isChain_append.1 h.chain
      refine ⟨?_, List.isChain_append.2 ⟨c2, c1, ?_⟩, ?_⟩
      · intro s hs
        apply h.ok
        simp only [List.mem_append] at hs ⊢
        exact hs.symm
      · intro x hx y hy
        refine h.closes x ?_ y ?_
        · rw [List.getLast?_append]; rw [Option.mem_def] at hx; simp [hx]
        · simpa using hy
      · intro x hx y hy
        refine c3 x ?_ y ?_
        · rw [List.getLast?_append] at hx
          have : (a :: l).getLast? ≠ none := by simp
          rw [Option.mem_def] at hx ⊢
          cases hg : (a :: l).getLast? with
          | none => exact absurd hg this
          | some z => rw [hg] at hx; simpa using hx
        · simpa using hy

/-- Without a step going up the chain gets lower and lower. -/
theorem chain_down : ∀ (l : List Step) (s : Step) (z : Point), (s :: l).IsChain Linked → (∀ t ∈ s :: l, ¬ t.Up) →
    ((s :: l).getLast?.map Step.b = some z) → s.a.y ≤ z.y ∧ ∀ t ∈ s :: l, t.Dn → s.a.y < z.y := by
  intro l
  induction l with
  | nil =>
    intro s z _ hu hz
    simp only [List.getLast?_singleton, Option.map_some, Option.some.injEq] at hz
    have := hu s (by simp)
    unfold Step.Up at this
    subst hz
    refine ⟨by omega, ?_⟩
    intro t ht hd
    rw [List.mem_singleton] at ht
    subst ht
    exact hd
  | cons t l ih =>
    intro s z hc hu hz
    obtain ⟨hl, hc'⟩ := List.isChain_cons_cons.1 hc
    obtain ⟨h1, h2⟩ := ih t z hc' (fun x hx => hu x (by simp [List.mem_cons.1 hx])) (by simpa using hz)
    have := hu s (by simp)
    unfold Step.Up at this
    have hy := congrArg Point.y hl.1
    refine ⟨by omega, ?_⟩
    intro x hx hd
    rcases List.mem_cons.1 hx with rfl | hx
    · unfold Step.Dn at hd; omega
    · have := h2 x hx hd; omega

/-- Without a step going down the chain gets higher and higher. -/
theorem chain_up : ∀ (l : List Step) (s : Step) (z : Point), (s :: l).IsChain Linked → (∀ t ∈ s :: l, ¬ t.Dn) →
    ((s :: l).getLast?.map Step.b = some z) → z.y ≤ s.a.y ∧ ∀ t ∈ s :: l, t.Up → z.y < s.a.y := by
  intro l
  induction l with
  | nil =>
    intro s z _ hu hz
    simp only [List.getLast?_singleton, Option.map_some, Option.some.injEq] at hz
    have := hu s (by simp)
    unfold Step.Dn at this
    subst hz
    refine ⟨by omega, ?_⟩
    intro t ht hd
    rw [List.mem_singleton] at ht
    subst ht
    exact hd
  | cons t l ih =>
    intro s z hc hu hz
    obtain ⟨hl, hc'⟩ := List.isChain_cons_cons.1 hc
    obtain ⟨h1, h2⟩ := ih t z hc' (fun x hx => hu x (by simp [List.mem_cons.1 hx])) (by simpa using hz)
    have := hu s (by simp)
    unfold Step.Dn at this
    have hy := congrArg Point.y hl.1
    refine ⟨by omega, ?_⟩
    intro x hx hd
    rcases List.mem_cons.1 hx with rfl | hx
    · unfold Step.Up at hd; omega
    · have := h2 x hx hd; omega

/-- A closed chain goes both up and down. -/
theorem Cyc.both {ss : List Step} (h : Cyc ss) (hl : 2 ≤ ss.length) : (∃ s ∈ ss, s.Up) ∧ (∃ s ∈ ss, s.Dn) := by
  match ss, hl with
  | s :: t :: l, _ =>
    have hs := h.ok s (by simp)
    have ht := h.ok t (by simp)
    obtain ⟨hlk, _⟩ := List.isChain_cons_cons.1 h.chain
    obtain ⟨x, hx⟩ : ∃ x, (s :: t :: l).getLast? = some x := by
      cases hg : (s :: t :: l).getLast? with
      | none => simp at hg
      | some x => exact ⟨x, rfl⟩
    have hclose : x.b = s.a := (h.closes x hx s (by simp)).1
    have hz : (s :: t :: l).getLast?.map Step.b = some s.a := by rw [hx]; simp [hclose]
    constructor
    · by_contra hno
      have hno' : ∀ u ∈ s :: t :: l, ¬ u.Up := fun u hu hup => hno ⟨u, hu, hup⟩
      have := (chain_down _ s s.a h.chain hno' hz).2
      have d1 : ¬ s.Dn := fun hd => absurd (this s (by simp) hd) (lt_irrefl _)
      have d2 : ¬ t.Dn := fun hd => absurd (this t (by simp) hd) (lt_irrefl _)
      have u1 := hno' s (by simp)
      have u2 := hno' t (by simp)
      refine no_hz_hz hs ht hlk ?_ ?_
      · rcases s.tri with a | a | a
        exacts [absurd a d1, absurd a u1, a]
      · rcases t.tri with a | a | a
        exacts [absurd a d2, absurd a u2, a]
    · by_contra hno
      have hno' : ∀ u ∈ s :: t :: l, ¬ u.Dn := fun u hu hup => hno ⟨u, hu, hup⟩
      have := (chain_up _ s s.a h.chain hno' hz).2
      have d1 : ¬ s.Up := fun hd => absurd (this s (by simp) hd) (lt_irrefl _)
      have d2 : ¬ t.Up := fun hd => absurd (this t (by simp) hd) (lt_irrefl _)
      have u1 := hno' s (by simp)
      have u2 := hno' t (by simp)
      refine no_hz_hz hs ht hlk ?_ ?_
      · rcases s.tri with a | a | a
        exacts [absurd a u1, absurd a d1, a]
      · rcases t.tri with a | a | a
        exacts [absurd a u2, absurd a d2, a]

theorem ctxU_prefix : ∀ {l r : List Step}, 2 ≤ l.length → (CtxU (l ++ r) ↔ CtxU l) := by
  intro l r hl
  match l, hl with
  | a :: b :: l, _ =>
    simp only [List.cons_append, CtxU, List.cons.injEq]
    constructor
    · rintro (h | ⟨h, v, r', ⟨rfl, rfl⟩, hv⟩)
      · exact Or.inl h
      · exact Or.inr ⟨h, _, _, ⟨rfl, rfl⟩, hv⟩
    · rintro (h | ⟨h, v, r', ⟨rfl, rfl⟩, hv⟩)
      · exact Or.inl h
      · exact Or.inr ⟨h, _, _, ⟨rfl, rfl⟩, hv⟩

theorem Cyc.double {ss : List Step} (h : Cyc ss) : (ss ++ ss).IsChain Linked :=
  List.isChain_append.2 ⟨h.chain, h.chain, h.closes⟩

/-- A closed chain passes a local maximum. -/
theorem Cyc.exists_max {ss : List Step} (h : Cyc ss) (hl : 2 ≤ ss.length) :
    ∃ l1 d l2, ss = l1 ++ d :: l2 ∧ d.Dn ∧ CtxU (l1.reverse ++ ss.reverse) := by
  by_contra hno
  have hno' : ∀ l1 d l2, ss = l1 ++ d :: l2 → d.Dn → ¬ CtxU (l1.reverse ++ ss.reverse) :=
    fun l1 d l2 he hd hc => hno ⟨l1, d, l2, he, hd, hc⟩
  obtain ⟨⟨u, hu, hup⟩, ⟨d, hd, hdn⟩⟩ := h.both hl
  obtain ⟨l1, l2, hsp⟩ := List.append_of_mem hu
  have hrev : ∀ t ∈ ss.reverse, t.Ok := fun t ht => h.ok t (by simpa using ht)
  have k1 := ctxU_stays l2 (u :: l1.reverse ++ ss.reverse)
    (fun t ht => h.ok t (by rw [hsp]; simp [ht]))
    (by
      intro t ht
      rw [List.mem_append] at ht
      rcases ht with ht | ht
      · apply h.ok
        rw [hsp]
        simp only [List.mem_cons, List.mem_reverse] at ht
        simp only [List.mem_append, List.mem_cons]
        tauto
      · exact hrev t ht)
    (by
      have := h.double
      conv at this => arg 2; arg 2; rw [hsp]
      simpa using this)
    (Or.inl hup)
    (by
      intro m1 x m2 he hx hc
      refine hno' (l1 ++ u :: m1) x m2 (by rw [hsp, he]; simp) hx ?_
      simpa using hc)
  have hc2 : CtxU (ss.reverse ++ ss.reverse) := by
    have := k1.2
    conv => arg 1; arg 1; rw [hsp]
    simpa using this
  have hc3 : CtxU ss.reverse := (ctxU_prefix (by simpa using hl)).1 hc2
  have k2 := ctxU_stays ss ss.reverse h.ok hrev (by simpa using h.double) hc3 hno'
  exact k2.1 d hd hdn

/-- **Starting on a local maximum.**  The edges are rotated so that they begin with a descent and end with an ascent,
possibly followed by one horizontal. -/
theorem start_spec (ss : List Step) (h : Cyc ss) (hl : 3 ≤ ss.length) :
    ∃ rs, toEdgesStartingOnLocalMaximum (ss.map Step.e) = rs.map Step.e ∧ rs.Perm ss ∧ Cyc rs
      ∧ (∃ d l, rs = d :: l ∧ d.Dn) ∧ CtxU rs.reverse := by
  obtain ⟨p, init, hp⟩ : ∃ p init, ss = init ++ [p] := by
    rcases List.eq_nil_or_concat ss with rfl | ⟨i, p, rfl⟩
    · simp at hl
    · exact ⟨p, i, by simp⟩
  have hpo : p.Ok := h.ok p (by rw [hp]; simp)
  have hlast : ss.getLast? = some p := by rw [hp]; simp
  have hpc : (p :: ss).IsChain Linked := by
    match ss, hl with
    | s :: t, _ => exact List.isChain_cons_cons.2 ⟨h.closes p hlast s (by simp), h.chain⟩
  have hrev : ss.reverse = p :: init.reverse := by rw [hp]; simp
  -- the rotation at a split point
  have fin : ∀ k, k < ss.length → (∃ d l2, ss.drop k = d :: l2 ∧ d.Dn) → CtxU ((ss.take k).reverse ++ ss.reverse) →
      ∃ rs, rotateSequence (ss.map Step.e) (k : Int) = rs.map Step.e ∧ rs.Perm ss ∧ Cyc rs
        ∧ (∃ d l, rs = d :: l ∧ d.Dn) ∧ CtxU rs.reverse := by
    intro k hk ⟨d, l2, hd, hdn⟩ hcx
    refine ⟨ss.drop k ++ ss.take k, ?_, ?_, ?_, ?_, ?_⟩
    · unfold rotateSequence
      by_cases hk0 : k = 0
      · subst hk0; simp
      · rw [if_pos (by simp; omega)]
        have : pyClamp (ss.map Step.e).length (k : Int) = k := by
          unfold pyClamp; simp; omega
        rw [this, List.map_append, List.map_drop, List.map_take]
    · exact List.perm_append_comm.trans (List.Perm.of_eq (List.take_append_drop k ss))
    · apply Cyc.rotate
      rw [List.take_append_drop]; exact h
    · exact ⟨d, l2 ++ ss.take k, by rw [hd]; rfl, hdn⟩
    · rw [List.reverse_append]
      have e1 : (ss.take k).reverse ++ ss.reverse = ((ss.take k).reverse ++ (ss.drop k).reverse) ++ (ss.take k).reverse := by
        conv => lhs; arg 2; rw [← List.take_append_drop k ss, List.reverse_append]
        simp
      rw [e1] at hcx
      exact (ctxU_prefix (by simp; omega)).1 hcx
  unfold toEdgesStartingOnLocalMaximum
  rw [if_pos (by simp; omega)]
  have hidx : toLocalMaximumIndex (ss.map Step.e) = localMaximumIndexFrom p.e false 0 (ss.map Step.e) := by
    unfold toLocalMaximumIndex
    rw [List.getLast?_map, hlast]; rfl
  rw [hidx]
  -- the case of a descent right at the start, missed by the scan
  have miss : ∀ s l, ss = s :: l → s.Dn → CtxU ss.reverse →
      (∃ k, localMaximumIndexFrom p.e false 0 (ss.map Step.e) = k ∧ k ≤ ss.length
        ∧ (k < ss.length → (∃ d l2, ss.drop k = d :: l2 ∧ d.Dn) ∧ CtxU ((ss.take k).reverse ++ ss.reverse))) →
      ∃ rs, rotateSequence (ss.map Step.e) (localMaximumIndexFrom p.e false 0 (ss.map Step.e) : Int) = rs.map Step.e ∧ rs.Perm ss ∧ Cyc rs
        ∧ (∃ d l, rs = d :: l ∧ d.Dn) ∧ CtxU rs.reverse := by
    rintro s l hs hsd hcx ⟨k, hk, hk2, hk3⟩
    rw [hk]
    by_cases hlt : k < ss.length
    · exact fin k hlt (hk3 hlt).1 (hk3 hlt).2
    · refine ⟨ss, ?_, List.Perm.refl _, h, ⟨s, l, hs, hsd⟩, hcx⟩
      exact C32_out_of_range _ _ (by simp; omega)
  have hdef : CtxU ss.reverse ↔ CtxU (p :: init.reverse) := by rw [hrev]
  by_cases hspecial : p.Hz ∧ CtxU (p :: init.reverse)
  · -- the flag is not set although the chain is going up
    obtain ⟨hpz, hcx⟩ := hspecial
    obtain ⟨s, l, rfl⟩ : ∃ s l, ss = s :: l := by
      cases ss with
      | nil => simp at hl
      | cons s l => exact ⟨s, l, rfl⟩
    have hso := h.ok s (by simp)
    obtain ⟨hlk, hc'⟩ := List.isChain_cons_cons.1 hpc
    have hph := hpo.hz hpz
    rcases s.tri with sd | su | sz
    · obtain ⟨b1, b2, b3⟩ := hso.dn sd
      have hstep : localMaximumIndexFrom p.e false 0 ((s :: l).map Step.e) = localMaximumIndexFrom s.e false 1 (l.map Step.e) := by
        rw [List.map_cons]
        conv => lhs; unfold localMaximumIndexFrom
        simp [hph, b3]
      refine miss s l rfl sd (hdef.2 hcx) ?_
      obtain ⟨k, e1, e2, e3⟩ := scan_spec l (p :: init.reverse) s false 1 hso (fun t ht => h.ok t (by simp [ht])) hc'
        (by simp) (fun hz => by unfold Step.Hz at hz; unfold Step.Dn at sd; omega)
      refine ⟨1 + k, by rw [hstep, e1], by simp; omega, ?_⟩
      intro hlt
      rcases e3 with ⟨d, l2, f1, f2, f3⟩ | ⟨f1, _⟩
      · refine ⟨⟨d, l2, ?_, f2⟩, ?_⟩
        · rw [Nat.add_comm]; simpa using f1
        · rw [Nat.add_comm, hrev]; simpa using f3
      · simp at hlt; omega
    · obtain ⟨b1, b2, b3⟩ := hso.up su
      have n1 : ¬ s.e.top = p.e.bottom ∧ ¬ s.e.top = p.e.top := by
        unfold Step.Hz at hpz
        unfold Step.Up at su
        rw [b2]
        have hly := congrArg Point.y hlk.1
        rcases hpo.joins with ⟨e1, e2⟩ | ⟨e1, e2⟩ <;> rw [e1, e2] <;>
          constructor <;> intro h <;> have := congrArg Point.y h <;> omega
      have hstep : localMaximumIndexFrom p.e false 0 ((s :: l).map Step.e) = localMaximumIndexFrom s.e false 1 (l.map Step.e) := by
        rw [List.map_cons]
        conv => lhs; unfold localMaximumIndexFrom
        simp [hph, b3]
      obtain ⟨k, e1, e2, e3⟩ := scan_spec l (p :: init.reverse) s false 1 hso (fun t ht => h.ok t (by simp [ht])) hc'
        (by simp) (fun hz => by unfold Step.Hz at hz; unfold Step.Up at su; omega)
      rw [hstep, e1]
      rcases e3 with ⟨d, l2, f1, f2, f3⟩ | ⟨_, f2⟩
      · have hkl : k < l.length := by
          by_contra hn
          rw [List.drop_eq_nil_of_le (by omega)] at f1; cases f1
        have := fin (1 + k) (by simp; omega) ⟨d, l2, by rw [Nat.add_comm]; simpa using f1, f2⟩
          (by rw [Nat.add_comm, hrev]; simpa using f3)
        simpa using this
      · exfalso
        obtain ⟨l1, d, l2, he, hd, hc⟩ := h.exists_max (by omega)
        cases l1 with
        | nil =>
          obtain ⟨rfl, rfl⟩ := List.cons.inj he
          unfold Step.Up at su; unfold Step.Dn at hd; omega
        | cons x l1 =>
          obtain ⟨rfl, he'⟩ := List.cons.inj he
          refine f2 l1 d l2 he' hd ?_
          rw [hrev] at hc
          simpa using hc
    · exact absurd sz (fun sz => no_hz_hz hpo hso hlk hpz sz)
  · obtain ⟨k, e1, e2, e3⟩ := scan_spec ss init.reverse p false 0 hpo h.ok hpc (by simp)
      (fun hz hc => absurd ⟨hz, hc⟩ hspecial)
    rw [← hrev] at e3
    rw [e1]
    rcases e3 with ⟨d, l2, f1, f2, f3⟩ | ⟨_, f2⟩
    · have hkl : k < ss.length := by
        by_contra hn
        rw [List.drop_eq_nil_of_le (by omega)] at f1; cases f1
      have := fin k hkl ⟨d, l2, f1, f2⟩ f3
      simpa using this
    · exfalso
      obtain ⟨l1, d, l2, he, hd, hc⟩ := h.exists_max (by omega)
      exact f2 l1 d l2 he hd hc

end Wagyu
