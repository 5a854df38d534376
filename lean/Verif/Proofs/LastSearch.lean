import Verif.Proofs.LastTail

/-!
# The search for a loop of touching rings
-/

namespace Wagyu

open Spec

section
variable {s : St} {L : Nat → List Nat}

theorem still_readStats {α : Type} (h : TI s L) (hk : Known s L) (r : Nat) (f : Ring → α) : Ok (do
      if (← getRing r).area.isNan then recalculateStats r
      pure (f (← getRing r))) s fun _ s' => s = s' := by
  refine Post.bind (Post.getRing ?_)
  dsimp only
  by_cases hn : (s.rings r).area.isNan = true
  · rw [if_pos hn]
    have hl : L r = [] := by
      by_contra e
      rw [hk r e] at hn
      cases hn
    have hnode : (s.rings r).node = none := by rw [h.own.head r, hl]; rfl
    have e : recalculateStats r s = .ok () s := by
      unfold recalculateStats
      rw [run_bind, show getRing r s = .ok (s.rings r) s from rfl]
      dsimp only
      rw [hnode]; rfl
    exact Post.bind (Post.run e (Post.bind (Post.getRing (Post.pure rfl))))
  · rw [if_neg hn]
    exact Post.bind (Post.getRing (Post.pure rfl))

theorem still_hole (h : TI s L) (hk : Known s L) (r : Nat) : Ok (ringIsHole r) s fun _ s' => s = s' := still_readStats h hk r Ring.isHole
theorem still_area (h : TI s L) (hk : Known s L) (r : Nat) : Ok (ringArea r) s fun _ s' => s = s' := still_readStats h hk r Ring.area

theorem ok_samePoint (a b : Nat) : Ok (samePoint a b) s fun res s' => s = s' ∧ res = decide (locOf s.nodes a = locOf s.nodes b) := ⟨rfl, rfl⟩

theorem ok_chainRing (h : TI s L) (hk : Known s L) (rp : Option Nat) (b : Nat) :
    Ok (chainRing rp b) s fun res s' => s = s' ∧ ∀ r, res = some r → (s.nodes b).ring = some r := by
  unfold chainRing
  refine Post.bind (Post.getNode ?_)
  cases hr : (s.nodes b).ring with
  | none => exact Post.pure ⟨rfl, by simp⟩
  | some r =>
    dsimp only
    have key : Ok (do
        if rp = some r then pure true
        else pure (decide (rp = (← getRing r).parent)) : M Bool) s fun _ s' => s = s' :=
      Post.ite (fun _ => Post.pure rfl) fun _ => Post.bind (Post.getRing (Post.pure rfl))
    refine Post.bind (key.imp ?_)
    rintro p _ rfl
    refine Post.ite (fun _ => ?_) fun _ => Post.pure ⟨rfl, by simp⟩
    refine Post.bind ((still_area h hk r).imp ?_)
    rintro p _ rfl
    exact Post.ite (fun _ => Post.pure ⟨rfl, by simp⟩) fun _ => Post.pure ⟨rfl, fun q hq => by simpa using hq⟩

/-- A pair of nodes at the same point, the first of them in the ring `R`. -/
structure JointAt (s : St) (L : Nat → List Nat) (R : Nat) (p : Nat × Nat) : Prop where
  mem : p.1 ∈ L R
  lt : p.2 < s.nn
  loc : locOf s.nodes p.1 = locOf s.nodes p.2

/-- The rings are entered at `prev` and left through pairs at other points, up to the ring `O`. -/
inductive Legs (s : St) (L : Nat → List Nat) (O orig : Nat) : Nat → Nat → List Hop → Prop
  | last {prev R a b : Nat} : JointAt s L R (a, b) → locOf s.nodes b ≠ locOf s.nodes prev → b ∈ L O → locOf s.nodes b ≠ locOf s.nodes orig →
      Legs s L O orig prev R [(R, a, b)]
  | step {prev R a b R' : Nat} {l : List Hop} : JointAt s L R (a, b) → locOf s.nodes b ≠ locOf s.nodes prev → b ∈ L R' → Legs s L O orig b R' l →
      Legs s L O orig prev R ((R, a, b) :: l)

theorem Legs.head {O orig prev R : Nat} {l : List Hop} (h : Legs s L O orig prev R l) : l.map Prod.fst = R :: (l.map Prod.fst).tail := by
  cases h <;> rfl

theorem Legs.loc {O orig prev R : Nat} {l : List Hop} (h : Legs s L O orig prev R l) : ∀ it ∈ l, locOf s.nodes it.2.1 = locOf s.nodes it.2.2 := by
  induction h with
  | last j _ _ _ => simpa using j.loc
  | step j _ _ _ ih =>
    intro it hit
    rcases List.mem_cons.1 hit with rfl | hit
    · exact j.loc
    · exact ih it hit

theorem Legs.chain {O orig prev R : Nat} {l : List Hop} (h : Legs s L O orig prev R l) {x y : Hop} (hx : x.2.2 = prev) (hxR : prev ∈ L R)
    (hy : y.1 = O) (hyO : y.2.1 ∈ L O) (hyl : locOf s.nodes y.2.1 = locOf s.nodes orig) : (x :: (l ++ [y])).IsChain (Follows L) := by
  induction h generalizing x with
  | @last prev R a b j h1 h2 h3 =>
    refine List.IsChain.cons_cons ⟨hx ▸ hxR, j.mem, fun e => h1 ?_⟩ (List.IsChain.cons_cons ⟨hy ▸ h2, hy ▸ hyO, fun e => h3 ?_⟩ (List.IsChain.singleton _))
    · rw [← j.loc, show (a, b).1 = x.2.2 from e, hx]
    · rw [← hyl, show y.2.1 = b from e]
  | @step prev R a b R' l j h1 h2 _ ih =>
    refine List.IsChain.cons_cons ⟨hx ▸ hxR, j.mem, fun e => h1 ?_⟩ (ih rfl h2)
    rw [← j.loc, show (a, b).1 = x.2.2 from e, hx]

/-- The items form a loop, up to the order; a ring may occur several times. -/
def Round (s : St) (L : Nat → List Nat) (first : Hop) (l : List Hop) : Prop :=
  ∃ items, l.Perm items ∧ items ≠ [] ∧ Cycle.Chain (Follows L) (↑(first :: items) : Cycle Hop) ∧ ∀ it ∈ first :: items, locOf s.nodes it.2.1 = locOf s.nodes it.2.2

theorem Round.loop {first : Hop} {l : List Hop} (h : Round s L first l) (hn : ((first :: l).map Prod.fst).Nodup) : LoopOf s L first l :=
  let ⟨items, p1, p2, p3, p5⟩ := h
  ⟨items, p1, p2, p3, ((p1.cons first).map Prod.fst).nodup_iff.1 hn, p5⟩

/-- The items found by the search form a loop. -/
theorem Legs.loop {O a b R : Nat} {l : List Hop} (h : Legs s L O b b R l) (ha : a ∈ L O) (hb : b ∈ L R) (hab : locOf s.nodes a = locOf s.nodes b) :
    Round s L (O, a, b) l := by
  refine ⟨l, List.Perm.refl _, ?_, ?_, ?_⟩
  · cases h <;> simp
  · rw [Cycle.chain_coe_cons]
    exact h.chain rfl hb rfl ha hab
  · intro it hit
    rcases List.mem_cons.1 hit with rfl | hit
    · exact hab
    · exact h.loc it hit

/-- The loop may start at any of its rings. -/
theorem Round.turn {first x : Hop} {l done rest : List Hop} (h : Round s L first l) (e : l = done ++ x :: rest) : Round s L x (done ++ first :: rest) := by
  obtain ⟨items, p1, p2, p3, p5⟩ := h
  have hx : x ∈ items := p1.mem_iff.1 (by rw [e]; simp)
  obtain ⟨p, q, rfl⟩ := List.append_of_mem hx
  have hrot : (first :: (p ++ x :: q)) ~r (x :: (q ++ first :: p)) := by
    refine ⟨(first :: p).length, ?_⟩
    rw [← List.cons_append, List.rotate_append_length_eq]; simp
  have hperm : (x :: (q ++ first :: p)).Perm (first :: (p ++ x :: q)) := hrot.perm.symm
  refine ⟨q ++ first :: p, ?_, by simp, ?_, fun it hit => p5 it (hperm.mem_iff.1 hit)⟩
  · have h1 : (done ++ rest).Perm (p ++ q) := by
      have : (x :: (done ++ rest)).Perm (x :: (p ++ q)) := by
        have e1 : (x :: (done ++ rest)).Perm (done ++ x :: rest) := (List.perm_middle).symm
        exact e1.trans ((e ▸ p1).trans List.perm_middle)
      exact (List.perm_cons x).1 this
    exact List.perm_middle.trans (((h1.trans List.perm_append_comm).cons first).trans List.perm_middle.symm)
  · rw [← Cycle.coe_eq_coe.2 hrot]; exact p3

theorem Joints.at {cm : ConnectionMap} (h : Joints s L cm) {R : Nat} {p : Nat × Nat} (hp : p ∈ cm R) : JointAt s L R p :=
  ⟨(h R p hp).1, (h R p hp).2.1, (h R p hp).2.2⟩
theorem Joints.put {cm : ConnectionMap} (h : Joints s L cm) {R : Nat} {l : List (Nat × Nat)} (hl : ∀ p ∈ l, JointAt s L R p) : Joints s L (Wagyu.upd cm R l) :=
  h.upd fun p hp => ⟨(hl p hp).mem, (hl p hp).lt, (hl p hp).loc⟩

theorem ok_directConnection (h : TI s L) (hk : Known s L) (rp : Option Nat) (O R orig prev : Nat) : ∀ (l kept : List (Nat × Nat)),
    (∀ p ∈ l, JointAt s L R p) → (∀ p ∈ kept, JointAt s L R p) →
    Ok (directConnection rp O R orig prev l kept) s fun res s' => s = s' ∧ match res with
      | .inl p => Legs s L O orig prev R [(R, p.1, p.2)]
      | .inr k => ∀ p ∈ k, JointAt s L R p
  | [], kept, _, hkept => by rw [directConnection]; exact Post.pure ⟨rfl, hkept⟩
  | (a, b) :: rest, kept, hl, hkept => by
    rw [directConnection]
    have hr : ∀ p ∈ rest, JointAt s L R p := fun p hp => hl p (List.mem_cons_of_mem _ hp)
    have hab := hl (a, b) (by simp)
    have hk' : ∀ p ∈ kept ++ [(a, b)], JointAt s L R p := fun p hp => (List.mem_append.1 hp).elim (hkept p) fun hp => by rw [List.mem_singleton.1 hp]; exact hab
    have ih1 := ok_directConnection h hk rp O R orig prev rest kept hr hkept
    have ih2 := ok_directConnection h hk rp O R orig prev rest (kept ++ [(a, b)]) hr hk'
    refine Post.bind (Post.getNode (Post.bind (Post.getNode ?_)))
    cases hr1 : (s.nodes a).ring with
    | none => exact ih1
    | some r1 =>
      cases hr2 : (s.nodes b).ring with
      | none => exact ih1
      | some r2 =>
        dsimp only
        have key : Ok (do
            if r1 ≠ R then pure true
            else if ← ringIsHole r1 then pure false
            else if ← ringIsHole r2 then pure false else pure true : M Bool) s fun _ s' => s = s' := by
          refine Post.ite (fun _ => Post.pure rfl) fun _ => ?_
          refine Post.bind ((still_hole h hk r1).imp ?_)
          rintro _ _ rfl
          refine Post.ite (fun _ => Post.pure rfl) fun _ => ?_
          refine Post.bind ((still_hole h hk r2).imp ?_)
          rintro _ _ rfl
          exact Post.ite (fun _ => Post.pure rfl) fun _ => Post.pure rfl
        refine Post.bind (key.imp ?_)
        rintro drop _ rfl
        refine Post.ite (fun _ => ih1) fun _ => ?_
        have key : Ok (do
          if rp.isSome then pure true
          else pure (decide (rp = (← getRing r2).parent)) : M Bool) s fun _ s' => s = s' :=
          Post.ite (fun _ => Post.pure rfl) fun _ => Post.bind (Post.getRing (Post.pure rfl))
        refine Post.bind (key.imp ?_)
        rintro ok _ rfl
        refine Post.bind ((ok_samePoint prev b).imp ?_)
        rintro q1 _ ⟨rfl, e1⟩
        refine Post.bind ((ok_samePoint orig b).imp ?_)
        rintro q2 _ ⟨rfl, e2⟩
        refine Post.ite (fun hc => Post.pure ⟨rfl, ?_⟩) fun _ => ih2
        simp only [e1, e2, Bool.and_eq_true, Bool.not_eq_true', decide_eq_true_eq, decide_eq_false_iff_not] at hc
        obtain ⟨⟨⟨c1, _⟩, c3⟩, c4⟩ := hc
        exact .last hab (Ne.symm c3) (h.own.kept b hab.lt O (c1 ▸ hr2)) (Ne.symm c4)

/-- What a search returns. -/
def Searched (s : St) (L : Nat → List Nat) (O orig prev R : Nat) (il : List LoopItem) (visited w : List Nat) (res : Bool × ConnectionMap × List LoopItem × List Nat) : Prop :=
  Joints s L res.2.1 ∧ (∀ x ∈ visited, x ∈ res.2.2.2)
    ∧ (res.1 = true → ∃ pre, res.2.2.1 = pre ++ il ∧ Legs s L O orig prev R pre ∧ (pre.map Prod.fst).tail.Nodup
        ∧ ∀ r ∈ (pre.map Prod.fst).tail, r ∉ w)
    ∧ (res.1 = false → res.2.2.1 = il)

theorem Searched.grow {O orig prev R : Nat} {il : List LoopItem} {v v' : List Nat} {res : Bool × ConnectionMap × List LoopItem × List Nat}
    (h : Searched s L O orig prev R il v' v' res) (hv : ∀ x ∈ v, x ∈ v') : Searched s L O orig prev R il v v res :=
  ⟨h.1, fun x hx => h.2.1 x (hv x hx), fun hf => let ⟨pre, p1, p2, p3, p4⟩ := h.2.2.1 hf; ⟨pre, p1, p2, p3, fun r hr hm => p4 r hr (hv r hm)⟩, h.2.2.2⟩

theorem ok_chain (h : TI s L) (hk : Known s L) (fuel : Nat) (rp : Option Nat) (O R orig prev : Nat)
    (ih : ∀ (cm : ConnectionMap) (il : List LoopItem) (R : Nat) (v : List Nat) (prev : Nat), Joints s L cm →
      Ok (findIntersectLoop fuel cm il rp O R v orig prev) s fun res s' => s = s' ∧ Searched s L O orig prev R il v (R :: v) res) :
    ∀ (l : List (Nat × Nat)) (cm : ConnectionMap) (il : List LoopItem) (v : List Nat), Joints s L cm → (∀ p ∈ l, JointAt s L R p) →
    Ok (findIntersectLoop.chain fuel rp O R orig prev l cm il v) s fun res s' => s = s' ∧ Searched s L O orig prev R il v v res
  | [], cm, il, v, hcm, _ => by
    rw [findIntersectLoop.chain, chainFrom]
    exact Post.pure ⟨rfl, hcm, fun _ h => h, by simp, fun _ => rfl⟩
  | (a, b) :: rest, cm, il, v, hcm, hl => by
    rw [findIntersectLoop.chain, chainFrom]
    have hr : ∀ p ∈ rest, JointAt s L R p := fun p hp => hl p (List.mem_cons_of_mem _ hp)
    have hab := hl (a, b) (by simp)
    have go := ok_chain h hk fuel rp O R orig prev ih rest cm il v hcm hr
    refine Post.bind (Post.getNode ?_)
    cases hr0 : (s.nodes b).ring with
    | none => exact go
    | some r0 =>
      dsimp only
      refine Post.ite (fun _ => go) fun hnv => ?_
      have hnv' : r0 ∉ v := fun hm => hnv (by simpa using hm)
      refine Post.bind ((ok_chainRing h hk rp b).imp ?_)
      rintro (_ | r) _ ⟨rfl, hcr⟩
      · exact go
      dsimp only
      have hrr : r0 = r := Option.some.inj (hr0.symm.trans (hcr r rfl))
      subst hrr
      refine Post.bind ((ok_samePoint prev b).imp ?_)
      rintro q1 _ ⟨rfl, e1⟩
      refine Post.ite (fun _ => go) fun hq => ?_
      have hne : locOf s.nodes b ≠ locOf s.nodes prev := fun e => hq (by rw [e1, e]; simp)
      refine Post.bind ((ih cm il r0 v b hcm).imp ?_)
      rintro ⟨found, cm', il', v'⟩ _ ⟨rfl, j, hv, hf, hnf⟩
      dsimp only at j hv hf hnf ⊢
      refine Post.ite (fun hfd => Post.pure ⟨rfl, j, fun x hx => ?_, fun _ => ?_, by simp⟩) fun hfd => ?_
      · exact hv x hx
      · obtain ⟨pre, p1, p2, p3, p4⟩ := hf hfd
        refine ⟨(R, a, b) :: pre, by rw [p1]; rfl, .step hab hne (h.own.kept b hab.lt r0 hr0) p2, ?_, ?_⟩
        · show (pre.map Prod.fst).Nodup
          rw [p2.head, List.nodup_cons]
          exact ⟨fun hm => p4 _ hm (by simp), p3⟩
        · show ∀ r ∈ pre.map Prod.fst, r ∉ v
          rw [p2.head]
          intro r hr hm
          rcases List.mem_cons.1 hr with rfl | hr
          · exact hnv' hm
          · exact p4 r hr (List.mem_cons_of_mem _ hm)
      · have e : il' = il := hnf (by simpa using hfd)
        subst e
        exact (ok_chain h hk fuel rp O R orig prev ih rest cm' il' v' j hr).imp fun res s' hs => ⟨hs.1, hs.2.grow fun x hx => hv x hx⟩

theorem ok_find (h : TI s L) (hk : Known s L) (rp : Option Nat) (O orig : Nat) : ∀ (fuel : Nat) (cm : ConnectionMap) (il : List LoopItem) (R : Nat) (v : List Nat) (prev : Nat),
    Joints s L cm → Ok (findIntersectLoop fuel cm il rp O R v orig prev) s fun res s' => s = s' ∧ Searched s L O orig prev R il v (R :: v) res
  | 0, _, _, _, _, _, _ => by rw [findIntersectLoop]; trivial
  | fuel + 1, cm, il, R, v, prev, hcm => by
    rw [findIntersectLoop]
    refine Post.bind ((ok_directConnection h hk rp O R orig prev (cm R) [] (fun p hp => hcm.at hp) (by simp)).imp ?_)
    rintro (⟨a, b⟩ | kept) _ ⟨rfl, hres⟩
    · exact Post.pure ⟨rfl, hcm, fun _ h => h, fun _ => ⟨[(R, a, b)], rfl, hres, by simp, by simp⟩, by simp⟩
    · refine (ok_chain h hk fuel rp O R orig prev (fun cm il R v prev hcm => ok_find h hk rp O orig fuel cm il R v prev hcm) kept (upd cm R kept) il (R :: v)
        (hcm.put hres) hres).imp fun res s' hs => ⟨hs.1, hs.2.1, fun x hx => hs.2.2.1 x (List.mem_cons_of_mem _ hx), hs.2.2.2⟩

theorem ok_directPair (h : TI s L) {O R o1 : Nat} (prev : Nat) (hp : locOf s.nodes prev = locOf s.nodes o1) : ∀ (l kept : List (Nat × Nat)) (found : Bool),
    (∀ p ∈ l, JointAt s L R p) → (∀ p ∈ kept, JointAt s L R p) →
    Ok (directPair O R o1 l kept found) s fun res s' => s = s' ∧ (∀ p ∈ res.2.2, JointAt s L R p) ∧ ∀ it, res.2.1 = some it → Legs s L O prev prev R [it]
  | [], kept, found, _, hk => by rw [directPair]; exact Post.pure ⟨rfl, hk, by simp⟩
  | (a, b) :: rest, kept, found, hl, hk => by
    rw [directPair]
    have hr : ∀ p ∈ rest, JointAt s L R p := fun p hp => hl p (List.mem_cons_of_mem _ hp)
    have hab := hl (a, b) (by simp)
    have hk' : ∀ p ∈ kept ++ [(a, b)], JointAt s L R p := fun p hp => (List.mem_append.1 hp).elim (hk p) fun hp => by rw [List.mem_singleton.1 hp]; exact hab
    refine Post.bind (Post.getNode (Post.bind (Post.getNode ?_)))
    refine Post.ite (fun _ => ok_directPair h prev hp rest kept found hr hk) fun _ => ?_
    refine Post.ite (fun hO => ?_) fun _ => ok_directPair h prev hp rest _ found hr hk'
    refine Post.bind ((ok_samePoint o1 b).imp ?_)
    rintro q1 _ ⟨rfl, e1⟩
    refine Post.ite (fun _ => ok_directPair h prev hp rest _ true hr hk') fun hq => Post.pure ⟨rfl, fun p hp => ?_, ?_⟩
    · rcases List.mem_append.1 hp with hp | hp
      · exact hk p hp
      · exact hl p hp
    · rintro it ⟨⟩
      have hne : locOf s.nodes b ≠ locOf s.nodes prev := fun e => hq (by rw [e1, e, hp]; simp)
      exact .last hab hne (h.own.kept b hab.lt O hO) hne

theorem ok_chainPairs (h : TI s L) (hk : Known s L) (rp : Option Nat) {O R o2 : Nat} : ∀ (l : List (Nat × Nat)) (cm : ConnectionMap) (il : List LoopItem) (v : List Nat),
    (∀ p ∈ l, JointAt s L R p) → Joints s L cm → R ∈ v →
    Ok (chainPairs rp O R o2 l cm il v) s fun res s' => s = s' ∧ Joints s L res.2.1
      ∧ (res.1 = true → ∃ pre, res.2.2 = pre ++ il ∧ Legs s L O o2 o2 R pre ∧ (pre.map Prod.fst).Nodup) ∧ (res.1 = false → res.2.2 = il)
  | [], cm, il, v, _, hcm, _ => by rw [chainPairs]; exact Post.pure ⟨rfl, hcm, by simp, fun _ => rfl⟩
  | (a, b) :: rest, cm, il, v, hl, hcm, hv => by
    rw [chainPairs]
    have hr : ∀ p ∈ rest, JointAt s L R p := fun p hp => hl p (List.mem_cons_of_mem _ hp)
    have hab := hl (a, b) (by simp)
    have go := ok_chainPairs h hk rp (O := O) (o2 := o2) rest cm il v hr hcm hv
    refine Post.bind (Post.getNode ?_)
    refine Post.ite (fun _ => go) fun hnR => ?_
    refine Post.bind ((ok_samePoint o2 b).imp ?_)
    rintro q1 _ ⟨rfl, e1⟩
    refine Post.ite (fun _ => go) fun hq => ?_
    have hne : locOf s.nodes b ≠ locOf s.nodes o2 := fun e => hq (by rw [e1, e]; simp)
    refine Post.bind ((ok_chainRing h hk rp b).imp ?_)
    rintro (_ | r) _ ⟨rfl, hcr⟩
    · exact go
    dsimp only
    refine Post.bind (Post.gets ?_)
    refine Post.bind ((ok_find h hk rp O o2 s.fuel cm il r v b hcm).imp ?_)
    rintro ⟨found, cm', il', v'⟩ _ ⟨rfl, j, hv', hf, hnf⟩
    dsimp only at j hv' hf hnf ⊢
    have hbr := hcr r rfl
    have hrR : R ≠ r := fun e => hnR (by rw [e]; exact hbr)
    refine Post.ite (fun hfd => Post.pure ⟨rfl, j, fun _ => ?_, by simp⟩) fun hfd => ?_
    · obtain ⟨pre, p1, p2, p3, p4⟩ := hf hfd
      refine ⟨(R, a, b) :: pre, by rw [p1]; rfl, .step hab hne (h.own.kept b hab.lt r hbr) p2, ?_⟩
      rw [List.map_cons, p2.head, List.nodup_cons, List.nodup_cons]
      refine ⟨fun hm => ?_, fun hm => p4 _ hm (by simp), p3⟩
      rcases List.mem_cons.1 hm with e | hm
      · exact hrR e
      · exact p4 _ hm (List.mem_cons_of_mem _ hv)
    · have e : il' = il := hnf (by simpa using hfd)
      subst e
      exact ok_chainPairs h hk rp rest cm' il' v' hr j (hv' R hv)

theorem ok_chooseOrigin (h : TI s L) (hk : Known s L) {O a b : Nat} : ∀ (done rest : List LoopItem), Round s L (O, a, b) (done ++ rest) →
    Ok (chooseOrigin O a b done rest) s fun res s' => s = s' ∧ match res.2 with
      | none => Round s L (O, a, b) res.1
      | some x => Round s L x res.1
  | done, [], hl => by rw [chooseOrigin]; rw [List.append_nil] at hl; exact Post.pure ⟨rfl, hl⟩
  | done, (r, x, y) :: rest, hl => by
    rw [chooseOrigin]
    refine Post.bind ((still_hole h hk r).imp ?_)
    rintro q _ rfl
    exact Post.ite (fun _ => ok_chooseOrigin h hk (done ++ [(r, x, y)]) rest (by simpa using hl)) fun _ => Post.pure ⟨rfl, hl.turn rfl⟩

end

end Wagyu
