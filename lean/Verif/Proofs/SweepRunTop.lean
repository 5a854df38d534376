import Verif.Proofs.SweepRun

/-!
# Maxima are events
-/

namespace Wagyu

open Spec

section
variable {op : OperationKind} {sf cf : FillKind} {s0 : St} {A rest : List LocalMinimum} {s : St} {α β : Type} {y : Int}

theorem Static.edges {s s' : St} (h : Static s s') (b : Nat) : (s'.bounds b).edges = (s.bounds b).edges := (h b).2.2.2

theorem Static.partners {s s' : St} (h : Static s s') {a b : Nat} (hp : Partners s a b) : Partners s' a b := by
  refine ⟨?_, ?_, ?_⟩
  · rw [(h a).2.1]; exact hp.unit
  · rw [(h a).1, (h b).1]; exact hp.kind
  · rw [(h a).2.1, (h b).2.1]; exact hp.delta

theorem Spec.Partners.ne {a b : Nat} (h : Partners s a b) : a ≠ b := by
  rintro rfl
  have := h.delta
  rcases h.unit with h | h <;> rw [h] at this <;> omega

theorem Post.currentEdge {b : Nat} {Q : Edge → St → Prop} (k : ∀ e, (s.bounds b).currentEdge? = some e → Q e s) :
    Post (currentEdge b) s Q OnlyCross := by
  unfold Wagyu.currentEdge
  exact Post.bind (Post.getBound (Post.orIndex k fun _ => nofun))

theorem Post.nextEdge {b : Nat} {Q : Edge → St → Prop} (k : ∀ e, (s.bounds b).nextEdge? = some e → Q e s) :
    Post (nextEdge b) s Q OnlyCross := by
  unfold Wagyu.nextEdge
  exact Post.bind (Post.getBound (Post.orIndex k fun _ => nofun))

theorem Post.ablGet {i : Nat} {Q : Option Nat → St → Prop} (k : ∀ o, s.abl[i]? = some o → Q o s) : Post (ablGet i) s Q OnlyCross := by
  unfold Wagyu.ablGet Post
  dsimp only
  cases h : s.abl[i]? with
  | none => intro msg e; cases e
  | some o => exact k o h

/-- A bound on its last edge, which ends on the scanline. -/
def AtTop (y : Int) (s : St) (b : Nat) : Prop :=
  (s.bounds b).nxtIdx = (s.bounds b).edges.length ∧ ∃ e, (s.bounds b).currentEdge? = some e ∧ e.top.y = y

theorem Post.isMaxima {b : Nat} {Q : Bool → St → Prop} (k : ∀ r, (r = true ↔ AtTop y s b) → Q r s) : Post (isMaxima b y) s Q OnlyCross := by
  unfold Wagyu.isMaxima
  refine Post.bind (Post.getBound (Post.ite (fun h => Post.bind (Post.currentEdge fun e he => Post.pure (k _ ?_))) fun h => Post.pure (k _ ?_)))
  · rw [decide_eq_true_iff]
    exact ⟨fun hy => ⟨h, e, he, hy⟩, fun ⟨_, e', he', hy⟩ => by rw [he] at he'; cases he'; exact hy⟩
  · exact ⟨nofun, fun hh => absurd hh.1 h⟩

theorem AtTop.put {s' : St} {b : Nat} (h : Put s s') : AtTop y s' b ↔ AtTop y s b := by
  unfold AtTop
  rw [(h b).nxtIdx, (h b).edges, (h b).edge]

/-- On its last edge a bound is not horizontal. -/
theorem Run.steep (hM : Mates s0 A) (h : Run op sf cf s0 A rest s) {b : Nat} (hb : b ∈ Wagyu.act s) {e : Edge}
    (he : (s.bounds b).currentEdge? = some e) (hn : (s.bounds b).nxtIdx = (s.bounds b).edges.length) : e.isHorizontal = false := by
  refine hM.steep b (h.act b hb).1 e ?_
  have hi := h.idx b hb
  rw [List.getLast?_eq_getElem?, ← h.static.edges b]
  have : (s.bounds b).edges.length - 1 = (s.bounds b).curIdx := by omega
  rw [this]
  exact he

theorem Run.next {b : Nat} {Q : Unit → St → Prop} (h : Run op sf cf s0 A rest s) (hb : b ∈ Wagyu.act s) (hn : (s.bounds b).nxtIdx < (s.bounds b).edges.length)
    (k : ∀ s', Run op sf cf s0 A rest s' → s'.abl = s.abl → (∀ c, c ≠ b → s'.bounds c = s.bounds c) → (s'.bounds b).edges = (s.bounds b).edges →
      (s'.bounds b).currentEdge? = (s.bounds b).nextEdge? → Q () s') : Post (toNextEdge b) s Q OnlyCross := by
  have hi := h.idx b hb
  have hlt : (s.bounds b).curIdx + 1 < (s.bounds b).edges.length := by omega
  refine Post.run (run_toNextEdge_next (List.getElem?_eq_getElem hlt)) ?_
  generalize (s.bounds b).edges[(s.bounds b).curIdx + 1] = f
  generalize hB : ({ s.bounds b with cur := some ((s.bounds b).curIdx + 1), nxt := (if (s.bounds b).nxtIdx + 1 < (s.bounds b).edges.length then some ((s.bounds b).nxtIdx + 1) else none), currentX := F64.ofInt f.bottom.x } : Bound) = B
  have Be : B.edges = (s.bounds b).edges := by rw [← hB]
  have Bc : B.curIdx = (s.bounds b).curIdx + 1 := by rw [← hB]; rfl
  have Bn : B.nxtIdx = B.curIdx + 1 := by
    rw [Bc, ← hB]
    have := nxtIdx_setNxt { s.bounds b with cur := some ((s.bounds b).curIdx + 1), currentX := F64.ofInt f.bottom.x } (v := (s.bounds b).nxtIdx + 1)
      (by show (s.bounds b).nxtIdx + 1 ≤ (s.bounds b).edges.length; omega)
    rw [hi] at this
    rw [hi]
    exact this
  have Bco : core B = core (s.bounds b) := by rw [← hB]; rfl
  refine k _ ?_ rfl (fun c hc => upd_ne _ _ hc) ?_ ?_
  · refine h.quiet rfl rfl (fun c => ?_) fun c hc => ?_
    · show core (upd _ _ _ c) = _
      by_cases e : c = b
      · subst e; rw [Wagyu.upd_same]; exact Bco
      · rw [upd_ne _ _ e]
    · show Bound.nxtIdx (upd _ _ _ c) = Bound.curIdx (upd _ _ _ c) + 1
      by_cases e : c = b
      · subst e; rw [Wagyu.upd_same]; exact Bn
      · rw [upd_ne _ _ e]; exact h.idx c hc
  · show Bound.edges (upd _ _ _ b) = _
    rw [Wagyu.upd_same]; exact Be
  · show Bound.currentEdge? (upd _ _ _ b) = _
    rw [Wagyu.upd_same]
    unfold Bound.currentEdge? Bound.nextEdge?
    rw [Bc, Be, hi]

/-! ## `do_maxima` -/

theorem ok_abl_crossing {p : Point} {a b i j : Nat} :
    Ok (intersectBounds p op sf cf a b) s fun _ s1 => Ok (ablSwap i j) s1 fun _ s' => i < s.abl.length ∧ j < s.abl.length ∧
      ∃ x y, s.abl[i]? = some x ∧ s.abl[j]? = some y ∧ s'.abl = (s.abl.set i y).set j x := by
  refine (Ok.pres (R := Still) inferInstance).imp fun _ s1 h1 => ?_
  unfold ablSwap
  have key : ∀ i s, Ok (ablGet i) s fun o s' => s' = s ∧ s.abl[i]? = some o := by
    intro i s
    unfold ablGet Ok Post
    dsimp only
    cases h : s.abl[i]? with
    | none => trivial
    | some o => exact ⟨rfl, rfl⟩
  refine Post.bind ((key i s1).imp ?_)
  rintro x _ ⟨rfl, hx⟩
  rename_i s2
  refine Post.bind ((key j s2).imp ?_)
  rintro z _ ⟨rfl, hz⟩
  rename_i s3
  refine Post.bind (Post.modify (Post.modify ?_))
  rw [← h1.abl]
  exact ⟨(List.getElem?_eq_some_iff.1 hx).1, (List.getElem?_eq_some_iff.1 hz).1, x, z, hx, hz, rfl⟩

/-- What stays in place while a bound moves right to its partner. -/
theorem maximaLoop_place (maxIdx bi : Nat) : Ok (maximaLoop op sf cf maxIdx bi) s fun q s' => s'.abl.length = s.abl.length ∧ bi ≤ q.1
    ∧ (q.2 = false → q.1 = bi) ∧ (∀ k, k < bi → s'.abl[k]? = s.abl[k]?) ∧ ∀ c, c ∈ act s' → c ∈ act s := by
  unfold maximaLoop
  refine Post.loopM (Q := fun (q : Nat × Bool) s' => s'.abl.length = s.abl.length ∧ bi ≤ q.1
    ∧ (q.2 = false → q.1 = bi) ∧ (∀ k, k < bi → s'.abl[k]? = s.abl[k]?) ∧ ∀ c, c ∈ act s' → c ∈ act s)
    (fun (st : Nat × Nat × Bool) s' => s'.abl.length = s.abl.length ∧ bi ≤ st.1 ∧ st.1 < st.2.1 ∧ (st.2.2 = false → st.1 = bi) ∧ (∀ k, k < bi → s'.abl[k]? = s.abl[k]?)
      ∧ ∀ c, c ∈ act s' → c ∈ act s)
    ?_ (fun _ _ _ => trivial) ⟨rfl, Nat.le_refl _, Nat.lt_succ_self _, fun _ => rfl, fun _ _ => rfl, fun _ h => h⟩
  rintro ⟨b1, ni, skipped⟩ s1 ⟨h1, h2, h3, h4, h5, h6⟩
  dsimp only at h2 h3 h4 ⊢
  refine Post.bind (Post.gets (Post.ite (fun hc => ?_) fun hc => Post.pure ⟨h1, h2, h4, h5, h6⟩))
  refine Post.bind ((Ok.pres (R := Eq) inferInstance).imp ?_)
  rintro o _ rfl
  cases o with
  | none => exact Post.pure ⟨h1, h2, by simp; omega, h4, h5, h6⟩
  | some nb =>
    dsimp only
    refine Post.bind ((Ok.pres (R := Eq) inferInstance).imp ?_)
    rintro o _ rfl
    refine Post.bind ((Ok.pres (R := Eq) inferInstance).imp ?_)
    rintro c _ rfl
    refine Post.bind ((Ok.pres (R := Eq) inferInstance).imp ?_)
    rintro e _ rfl
    refine Post.bind (ok_abl_crossing.imp fun _ s2 h => Post.bind (h.imp ?_))
    rintro _ s3 ⟨k1, k2, x, z, k3, k4, k5⟩
    refine Post.pure ⟨by rw [k5]; simpa using h1, by simp; omega, by simp, by simp, fun k hk => ?_, fun c hc => h6 c ?_⟩
    · rw [k5, List.getElem?_set_ne (by omega), List.getElem?_set_ne (by omega)]
      exact h5 k hk
    · rw [mem_act] at hc ⊢
      rw [k5] at hc
      rcases List.mem_or_eq_of_mem_set hc with hc | hc
      · rcases List.mem_or_eq_of_mem_set hc with hc | hc
        · exact hc
        · rw [hc]; exact List.mem_of_getElem? k4
      · rw [hc]; exact List.mem_of_getElem? k3

theorem mem_act_set_none {l : List (Option Nat)} {i c : Nat} (h : some c ∈ l.set i none) : some c ∈ l := by
  rcases List.mem_or_eq_of_mem_set h with h | h
  · exact h
  · cases h

theorem doMaxima_place (maxIdx bi : Nat) (hlt : bi < maxIdx) : Ok (doMaxima op sf cf bi maxIdx) s fun r s' =>
    (∀ k c, k < r → s'.abl[k]? = some (some c) → k < bi ∧ s.abl[k]? = some (some c)) ∧ ∀ c, c ∈ act s' → c ∈ act s := by
  unfold doMaxima
  refine Post.bind ((maximaLoop_place maxIdx bi).imp ?_)
  rintro ⟨b1, skipped⟩ s1 ⟨h1, h2, h3, h4, h5⟩
  dsimp only at h2 h3 ⊢
  refine Post.bind ((Ok.pres (R := Eq) inferInstance).imp ?_)
  rintro o _ rfl
  refine Post.bind ((Ok.pres (R := Eq) inferInstance).imp ?_)
  rintro b _ rfl
  refine Post.bind ((Ok.pres (R := Eq) inferInstance).imp ?_)
  rintro o' _ rfl
  refine Post.bind ((Ok.pres (R := Eq) inferInstance).imp ?_)
  rintro m _ rfl
  refine Post.bind (Post.getBound (Post.bind (Post.getBound ?_)))
  have fin : ∀ s2, Still s1 s2 → Ok (do
      ablSet b1 none
      ablSet maxIdx none
      pure (if skipped then bi else bi + 1) : M Nat) s2 fun r s' => (∀ k c, k < r → s'.abl[k]? = some (some c) → k < bi ∧ s.abl[k]? = some (some c))
        ∧ ∀ c, c ∈ act s' → c ∈ act s := by
    intro s2 k2
    refine Post.bind (Post.modify (Post.bind (Post.modify (Post.pure ⟨fun k c hk hc => ?_, fun c hc => ?_⟩))))
    · change ((s2.abl.set b1 none).set maxIdx none)[k]? = _ at hc
      have hb : k < bi := by
        by_contra hn
        cases hsk : skipped with
        | true => rw [hsk] at hk; simp at hk; omega
        | false =>
          rw [hsk] at hk
          simp at hk
          have hk' : k = bi := by omega
          have := h3 hsk
          subst hk'
          rw [List.getElem?_set_ne (by omega), this] at hc
          rw [List.getElem?_set] at hc
          simp only [if_true] at hc
          split at hc <;> cases hc
      refine ⟨hb, ?_⟩
      rw [List.getElem?_set_ne (by omega), List.getElem?_set_ne (by omega), k2.abl, h4 k hb] at hc
      exact hc
    · refine h5 c ?_
      rw [mem_act] at hc ⊢
      have := mem_act_set_none (mem_act_set_none hc)
      rw [k2.abl] at this
      exact this
  refine Post.ite (fun _ => ?_) fun _ => Post.ite (fun _ => Post.raise trivial) fun _ => fin _ (Preo.refl _)
  refine Post.bind ((Ok.pres (R := Eq) inferInstance).imp ?_)
  rintro e _ rfl
  exact Post.bind ((Ok.pres (R := Still) inferInstance).imp fun _ s2 h => fin s2 h)

/-- Without its partner among the active bounds a bound cannot end. -/
theorem doMaxima_alone (bi : Nat) {Q : Nat → St → Prop} : Post (doMaxima op sf cf bi s.abl.length) s Q OnlyCross := by
  unfold doMaxima
  have : Quiet (maximaLoop op sf cf s.abl.length bi) := by unfold maximaLoop; quiet
  refine Post.bind ((Ok.quiet (maximaLoop_place s.abl.length bi)).only.imp ?_)
  rintro ⟨b1, skipped⟩ s1 ⟨h1, -⟩
  refine Post.bind (Post.look fun o _ => Post.bind (Post.look fun b _ => Post.bind (Post.ablGet fun o ho => ?_)))
  rw [List.getElem?_eq_none (by omega)] at ho
  cases ho

end

end Wagyu
