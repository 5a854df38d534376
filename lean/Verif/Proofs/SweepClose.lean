import Verif.Proofs.SweepOpen

/-!
# Removing the two bounds of a local maximum keeps the invariant
-/

namespace Wagyu

open Spec

section
variable {op : OperationKind} {sf cf : FillKind}

theorem Spec.Adjacent.act {s : St} {i j a b : Nat} (h : Adjacent s i j a b) :
    ∃ P N Q, s.abl = P ++ some a :: (N ++ some b :: Q) ∧ P.length = i ∧ i + 1 + N.length = j ∧ N.filterMap id = []
      ∧ act s = P.filterMap id ++ a :: b :: Q.filterMap id := by
  obtain ⟨P, N, Q, hl, hP, hN, hNn⟩ := split_two h.lt h.fst h.snd h.between
  exact ⟨P, N, Q, hl, hP, hN, hNn, by unfold Wagyu.act; rw [hl]; exact filterMap_two hNn a b⟩

theorem adjacent_agree {s : St} {i j a b : Nat} (hi : SInv op sf cf s) (h : Adjacent s i j a b)
    (hk : (s.bounds b).polygonKind = (s.bounds a).polygonKind) (hd : (s.bounds b).windingDelta = -(s.bounds a).windingDelta) :
    (s.bounds b).ring.isSome = (s.bounds a).ring.isSome := by
  obtain ⟨P, N, Q, -, -, -, -, hact⟩ := h.act
  have hok := hi.ok
  rw [hact, List.map_append, allOk_append, List.map_cons, List.map_cons] at hok
  obtain ⟨-, -, ca, -, cb, -⟩ := hok
  exact ca.agree cb hk hd

theorem Spec.Adjacent.ne {s : St} {i j a b : Nat} (hi : SInv op sf cf s) (h : Adjacent s i j a b) : a ≠ b := by
  obtain ⟨P, N, Q, -, -, -, -, hact⟩ := h.act
  have := hi.nodup
  rw [hact] at this
  have := (List.nodup_append.1 this).2.1
  rw [List.nodup_cons] at this
  rintro rfl; exact this.1 (by simp)

theorem Closed2.symm {s s' : St} {a b : Nat} (h : Closed2 s s' b a) : Closed2 s s' a b := by
  obtain ⟨h1, h2, h3, h4, h5⟩ := h
  refine ⟨h1, h2, h4, h3, ?_⟩
  rcases h5 with ⟨h, h'⟩ | ⟨k, r, keep, remove, hk, hr, hn, hkr, h⟩
  · exact Or.inl ⟨h.symm, fun c h1 h2 => h' c h2 h1⟩
  · refine Or.inr ⟨k, r, keep, remove, hk, hr, hn, hkr.symm, ?_⟩
    rcases h with ⟨d, h1, h2, h3, h4, h5, h6, h7⟩ | ⟨h1, h2⟩
    · exact Or.inl ⟨d, h1, h3, h2, h4, h5, h6, fun c h1 h2 => h7 c h2 h1⟩
    · exact Or.inr ⟨fun d hd h h' => h1 d hd h' h, fun c h h' => h2 c h' h⟩

/-- Two neighbours of one polygon with opposite deltas are taken out, after their rings have been closed. -/
theorem remove_inv {s s1 s' : St} {i j a b : Nat} (hi : SInv op sf cf s) (h : Adjacent s i j a b)
    (hk : (s.bounds b).polygonKind = (s.bounds a).polygonKind) (hd : (s.bounds b).windingDelta = -(s.bounds a).windingDelta)
    (h1 : ((s.bounds a).ring = none ∧ (s.bounds b).ring = none ∧ Same s s1)
      ∨ ((s.bounds a).ring.isSome ∧ (s.bounds b).ring.isSome ∧ Closed2 s s1 a b))
    (hb : s'.bounds = s1.bounds) (hnr : s'.nr = s1.nr) (habl : s'.abl = (s.abl.set i none).set j none) : SInv op sf cf s' := by
  have hab := h.ne hi
  obtain ⟨P, N, Q, hl, hP, hN, hNn, hact⟩ := h.act
  have hact' : act s' = P.filterMap id ++ Q.filterMap id := by
    unfold act
    rw [habl, hl, set_set_mid P N Q _ _ _ _ i j hP hN]
    rw [List.filterMap_append, List.filterMap_cons_none (by rfl), List.filterMap_append, hNn,
      List.filterMap_cons_none (by rfl)]
    rfl
  have hst : RStep s s1 a b := by
    rcases h1 with ⟨_, _, h⟩ | ⟨x, y, h⟩
    · exact .same h
    · exact .closed x y h
  have hna : (s1.bounds a).ring = none := by
    rcases h1 with ⟨x, _, h⟩ | ⟨_, _, h⟩
    · rw [core_ring (h.core a)]; exact x
    · exact h.fst
  have hnb : (s1.bounds b).ring = none := by
    rcases h1 with ⟨_, x, h⟩ | ⟨_, _, h⟩
    · rw [core_ring (h.core b)]; exact x
    · exact h.snd
  have hact1 : act s1 = act s := by unfold act; rw [hst.frame.abl]
  have hE : HotEnds s1 := HotEnds.rstep hi.ends rfl rfl (fun _ => ⟨rfl, rfl⟩) hst hab (by rw [hact]; simp) (by rw [hact]; simp)
  have hnd := hi.nodup
  have hok := hi.ok
  rw [hact] at hnd hok
  have hperm : (P.filterMap id ++ a :: b :: Q.filterMap id).Perm (a :: b :: (P.filterMap id ++ Q.filterMap id)) :=
    List.perm_middle.trans (List.Perm.cons _ List.perm_middle)
  rw [hperm.nodup_iff, List.nodup_cons, List.nodup_cons] at hnd
  have hne : ∀ c ∈ act s', c ≠ a ∧ c ≠ b := by
    intro c hc
    rw [hact'] at hc
    exact ⟨by rintro rfl; exact hnd.1 (List.mem_cons_of_mem _ hc), by rintro rfl; exact hnd.2.1 hc⟩
  refine ⟨by rw [hact']; exact hnd.2.2, ?_, ?_⟩
  · have hcongr : ∀ c ∈ act s', (s'.bounds c).polygonKind = (s.bounds c).polygonKind
        ∧ (s'.bounds c).windingDelta = (s.bounds c).windingDelta ∧ (s'.bounds c).windingCount = (s.bounds c).windingCount
        ∧ (s'.bounds c).oppositeWindingCount = (s.bounds c).oppositeWindingCount
        ∧ (s'.bounds c).ring.isSome = (s.bounds c).ring.isSome := by
      intro c hc
      rw [hb]
      have hcore := hst.frame.core c
      exact ⟨congrArg Core.polygonKind hcore, congrArg Core.windingDelta hcore, congrArg Core.windingCount hcore,
        congrArg Core.oppositeWindingCount hcore, hst.isSome c (hne c hc).1 (hne c hc).2⟩
    refine allOk_congr _ _ hcongr ?_
    rw [hact', List.map_append, allOk_append]
    rw [List.map_append, allOk_append, List.map_cons, List.map_cons] at hok
    obtain ⟨k1, -, -, -, -, k2⟩ := hok
    rw [Wind.add_cancel _ hk hd] at k2
    exact ⟨k1, k2⟩
  · intro c hc r hr
    have hin : ∀ d, d ∈ act s' → d ∈ act s1 := by
      intro d hd
      rw [hact'] at hd; rw [hact1, hact]
      simp only [List.mem_append, List.mem_cons] at hd ⊢
      tauto
    have hout : ∀ d, d ∈ act s1 → d ≠ a → d ≠ b → d ∈ act s' := by
      intro d hd h1 h2
      rw [hact1, hact] at hd; rw [hact']
      simp only [List.mem_append, List.mem_cons] at hd ⊢
      tauto
    rw [hb] at hr
    obtain ⟨k1, d, k2, k3, k4, k5, k6⟩ := hE c (hin c hc) r hr
    refine ⟨by rw [hnr]; exact k1, d, hout d k2 ?_ ?_, k3, by rw [hb]; exact k4, by rw [hb]; exact k5, fun e he her => ?_⟩
    · rintro rfl; rw [hna] at k4; cases k4
    · rintro rfl; rw [hnb] at k4; cases k4
    · rw [hb] at her; exact k6 e (hin e he) her

end

end Wagyu
