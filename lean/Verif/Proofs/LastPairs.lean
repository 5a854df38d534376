import Verif.Proofs.LastMerge

/-!
# The connections of the rings
-/

namespace Wagyu

open Spec

section
variable {s s' : St} {L L' : Nat → List Nat}

/-- The pairs of a ring start at nodes of it, and connect nodes at the same point. -/
def Joints (s : St) (L : Nat → List Nat) (cm : ConnectionMap) : Prop :=
  ∀ r, ∀ p ∈ cm r, p.1 ∈ L r ∧ p.2 < s.nn ∧ locOf s.nodes p.1 = locOf s.nodes p.2

theorem Joints.congr {cm : ConnectionMap} (h : Joints s L cm) (hnn : s'.nn = s.nn) (hloc : ∀ i, locOf s'.nodes i = locOf s.nodes i) : Joints s' L cm :=
  fun r p hp => ⟨(h r p hp).1, hnn ▸ (h r p hp).2.1, by rw [hloc, hloc]; exact (h r p hp).2.2⟩

theorem Joints.upd {cm : ConnectionMap} (h : Joints s L cm) {r : Nat} {l : List (Nat × Nat)}
    (hl : ∀ p ∈ l, p.1 ∈ L r ∧ p.2 < s.nn ∧ locOf s.nodes p.1 = locOf s.nodes p.2) : Joints s L (upd cm r l) := by
  intro k p hp
  by_cases e : k = r
  · subst e; rw [Wagyu.upd_same] at hp; exact hl p hp
  · rw [Wagyu.upd_ne _ _ e] at hp; exact h k p hp

theorem Joints.sub {cm : ConnectionMap} (h : Joints s L cm) {r : Nat} {l : List (Nat × Nat)} (hl : ∀ p ∈ l, p ∈ cm r) : Joints s L (Wagyu.upd cm r l) :=
  h.upd fun p hp => h r p (hl p hp)

theorem Ok.hole (h : TI s L) (hk : Known s L) (r : Nat) : Ok (ringIsHole r) s fun _ s' => OnlyTree s s' := Ok.hush inferInstance h hk

theorem ok_movedPairs : ∀ (l : List (Nat × Nat)) {s : St} (_ : TI s L) (_ : Known s L), Ok (movedPairs l) s fun res s' => OnlyTree s s'
    ∧ ∀ x ∈ res, x.2 ∈ l ∧ (s.nodes x.2.1).ring = some x.1
  | [], s, _, _ => by rw [movedPairs]; exact Post.pure ⟨Preo.refl s, by simp⟩
  | (a, b) :: rest, s, h, hk => by
    rw [movedPairs]
    have ih : ∀ s1, OnlyTree s s1 → Ok (movedPairs rest) s1 fun res s' => OnlyTree s s' ∧ ∀ x ∈ res, x.2 ∈ rest ∧ (s.nodes x.2.1).ring = some x.1 := fun s1 h1 =>
      (ok_movedPairs rest (h1.ti h) (h1.known hk)).imp fun res s' hr => ⟨Preo.trans h1 hr.1, fun x hx => ⟨(hr.2 x hx).1, by rw [← h1.nodes]; exact (hr.2 x hx).2⟩⟩
    have ih' : ∀ s1, OnlyTree s s1 → Ok (movedPairs rest) s1 fun res s' => OnlyTree s s' ∧ ∀ x ∈ res, x.2 ∈ (a, b) :: rest ∧ (s.nodes x.2.1).ring = some x.1 := fun s1 h1 =>
      (ih s1 h1).imp fun res s' hr => ⟨hr.1, fun x hx => ⟨List.mem_cons_of_mem _ (hr.2 x hx).1, (hr.2 x hx).2⟩⟩
    refine Post.bind (Post.getNode (Post.bind (Post.getNode ?_)))
    cases hr1 : (s.nodes a).ring with
    | none => exact ih' s (Preo.refl s)
    | some r1 =>
      cases hr2 : (s.nodes b).ring with
      | none => exact ih' s (Preo.refl s)
      | some r2 =>
        dsimp only
        refine Post.ite (fun _ => ih' s (Preo.refl s)) fun _ => ?_
        have hole : Pres Hush (do if ← ringIsHole r1 then pure true else ringIsHole r2 : M Bool) := by pres
        refine Post.bind ((Ok.hush hole h hk).imp fun hb s1 h1 => ?_)
        refine Post.bind ((ih s1 h1).imp fun tail s2 h2 => Post.pure ⟨h2.1, fun x hx => ?_⟩)
        have hx' : x = (r1, a, b) ∨ x ∈ tail := by
          split at hx
          · exact List.mem_cons.1 hx
          · exact Or.inr hx
        rcases hx' with rfl | hx'
        · exact ⟨by simp, hr1⟩
        · exact ⟨List.mem_cons_of_mem _ (h2.2 x hx').1, (h2.2 x hx').2⟩

theorem ok_originPairs (O : Nat) : ∀ (l : List (Nat × Nat)) {s : St} (_ : TI s L) (_ : Known s L), Ok (originPairs O l) s fun res s' => OnlyTree s s'
    ∧ (∀ p ∈ res.1, p ∈ l ∧ (s.nodes p.1).ring = some O) ∧ ∀ x ∈ res.2, x.2 ∈ l ∧ (s.nodes x.2.1).ring = some x.1
  | [], s, _, _ => by rw [originPairs]; exact Post.pure ⟨Preo.refl s, by simp, by simp⟩
  | (a, b) :: rest, s, h, hk => by
    rw [originPairs]
    have ih : ∀ s1, OnlyTree s s1 → Ok (originPairs O rest) s1 fun res s' => OnlyTree s s' ∧ (∀ p ∈ res.1, p ∈ rest ∧ (s.nodes p.1).ring = some O)
        ∧ ∀ x ∈ res.2, x.2 ∈ rest ∧ (s.nodes x.2.1).ring = some x.1 := fun s1 h1 =>
      (ok_originPairs O rest (h1.ti h) (h1.known hk)).imp fun res s' hr => ⟨Preo.trans h1 hr.1, fun p hp => ⟨(hr.2.1 p hp).1, by rw [← h1.nodes]; exact (hr.2.1 p hp).2⟩,
        fun x hx => ⟨(hr.2.2 x hx).1, by rw [← h1.nodes]; exact (hr.2.2 x hx).2⟩⟩
    have ih' : Ok (originPairs O rest) s fun res s' => OnlyTree s s' ∧ (∀ p ∈ res.1, p ∈ (a, b) :: rest ∧ (s.nodes p.1).ring = some O)
        ∧ ∀ x ∈ res.2, x.2 ∈ (a, b) :: rest ∧ (s.nodes x.2.1).ring = some x.1 :=
      (ih s (Preo.refl s)).imp fun res s' hr => ⟨hr.1, fun p hp => ⟨List.mem_cons_of_mem _ (hr.2.1 p hp).1, (hr.2.1 p hp).2⟩,
        fun x hx => ⟨List.mem_cons_of_mem _ (hr.2.2 x hx).1, (hr.2.2 x hx).2⟩⟩
    refine Post.bind (Post.getNode (Post.bind (Post.getNode ?_)))
    cases hr1 : (s.nodes a).ring with
    | none => exact ih'
    | some r1 =>
      cases hr2 : (s.nodes b).ring with
      | none => exact ih'
      | some r2 =>
        dsimp only
        refine Post.ite (fun _ => ih') fun _ => ?_
        have hole : Pres Hush (do if ← ringIsHole r1 then pure true else ringIsHole r2 : M Bool) := by pres
        refine Post.bind ((Ok.hush hole h hk).imp fun hb s1 h1 => ?_)
        refine Post.bind ((ih s1 h1).imp fun res s2 h2 => ?_)
        obtain ⟨k, m⟩ := res
        obtain ⟨g1, g2, g3⟩ := h2
        dsimp only at g2 g3 ⊢
        refine Post.ite (fun _ => Post.pure ⟨g1, fun p hp => ⟨List.mem_cons_of_mem _ (g2 p hp).1, (g2 p hp).2⟩, fun x hx => ?_⟩)
          fun e => Post.pure ⟨g1, fun p hp => ?_, fun x hx => ⟨List.mem_cons_of_mem _ (g3 x hx).1, (g3 x hx).2⟩⟩
        · have hx' : x = (r1, a, b) ∨ x ∈ m := by
            dsimp only at hx
            split at hx
            · exact List.mem_cons.1 hx
            · exact Or.inr hx
          rcases hx' with rfl | hx'
          · exact ⟨by simp, hr1⟩
          · exact ⟨List.mem_cons_of_mem _ (g3 x hx').1, (g3 x hx').2⟩
        · have hx' : p = (a, b) ∨ p ∈ k := by
            dsimp only at hp
            split at hp
            · exact List.mem_cons.1 hp
            · exact Or.inr hp
          have e' : r1 = O := not_not.1 e
          rcases hx' with rfl | hx'
          · exact ⟨by simp, e' ▸ hr1⟩
          · exact ⟨List.mem_cons_of_mem _ (g2 p hx').1, (g2 p hx').2⟩

theorem ok_clearLoopPairs : ∀ (l : List LoopItem) (cm : ConnectionMap) {s : St} (_ : TI s L) (_ : Known s L), Ok (clearLoopPairs l cm) s fun res s' => OnlyTree s s'
    ∧ (∀ r, r ∉ l.map Prod.fst → res.1 r = cm r) ∧ (∀ r ∈ l.map Prod.fst, res.1 r = [])
    ∧ ∀ x ∈ res.2, (∃ r, x.2 ∈ cm r) ∧ (s.nodes x.2.1).ring = some x.1
  | [], cm, s, _, _ => by rw [clearLoopPairs]; exact Post.pure ⟨Preo.refl s, fun _ _ => rfl, by simp, by simp⟩
  | (r, a, b) :: rest, cm, s, h, hk => by
    rw [clearLoopPairs]
    refine Post.bind ((ok_movedPairs (cm r) h hk).imp ?_)
    rintro m s1 ⟨h1, h2⟩
    refine Post.bind ((ok_clearLoopPairs rest (upd cm r []) (h1.ti h) (h1.known hk)).imp ?_)
    rintro ⟨cm', m'⟩ s2 ⟨h3, h4, h5, h6⟩
    dsimp only at h4 h5 h6 ⊢
    refine Post.pure ⟨Preo.trans h1 h3, fun k hk => ?_, fun k hk => ?_, fun x hx => ?_⟩
    · simp only [List.map_cons, List.mem_cons, not_or] at hk
      show cm' k = _
      show cm' k = _
      rw [h4 k hk.2, Wagyu.upd_ne _ _ hk.1]
    · by_cases e : k ∈ rest.map Prod.fst
      · exact h5 k e
      · have : k = r := by
          rcases List.mem_cons.1 (by simpa using hk : k ∈ r :: rest.map Prod.fst) with e' | e'
          · exact e'
          · exact absurd e' e
        show cm' k = _
        rw [h4 k e, this, Wagyu.upd_same]
    · rcases List.mem_append.1 hx with hx | hx
      · exact ⟨⟨r, (h2 x hx).1⟩, (h2 x hx).2⟩
      · obtain ⟨⟨k, hk⟩, h7⟩ := h6 x hx
        refine ⟨⟨k, ?_⟩, by rw [← h1.nodes]; exact h7⟩
        by_cases e : k = r
        · subst e; rw [Wagyu.upd_same] at hk; cases hk
        · rw [Wagyu.upd_ne _ _ e] at hk; exact hk

theorem mem_moved : ∀ (l : List (Nat × Nat × Nat)) (cm : ConnectionMap) (r : Nat) (p : Nat × Nat),
    p ∈ (l.foldl (fun cm it => upd cm it.1 (cm it.1 ++ [(it.2.1, it.2.2)])) cm) r → p ∈ cm r ∨ (r, p) ∈ l
  | [], _, _, _, h => Or.inl h
  | it :: l, cm, r, p, h => by
    rw [List.foldl_cons] at h
    rcases mem_moved l _ r p h with h | h
    · by_cases e : r = it.1
      · subst e
        rw [Wagyu.upd_same] at h
        rcases List.mem_append.1 h with h | h
        · exact Or.inl h
        · rw [List.mem_singleton.1 h]; exact Or.inr (by simp)
      · rw [Wagyu.upd_ne _ _ e] at h; exact Or.inl h
    · exact Or.inr (List.mem_cons_of_mem _ h)

end

end Wagyu
