import Verif.Proofs.Crossed
import Verif.Spec.Events

/-!
# The invariant of the sweep
-/

namespace Wagyu

open Spec

/-- Every ring attached to an active bound is attached to exactly one other, on the other side. -/
def HotEnds (s : St) : Prop :=
  ∀ c ∈ act s, ∀ r, (s.bounds c).ring = some r → r < s.nr
    ∧ ∃ d ∈ act s, d ≠ c ∧ (s.bounds d).ring = some r ∧ (s.bounds d).side ≠ (s.bounds c).side
      ∧ ∀ e ∈ act s, (s.bounds e).ring = some r → e = c ∨ e = d

structure SInv (op : OperationKind) (sf cf : FillKind) (s : St) : Prop where
  nodup : (act s).Nodup
  ok : AllOk op sf cf (fun _ => 0) ((act s).map s.bounds)
  ends : HotEnds s

section
variable {op : OperationKind} {sf cf : FillKind} {w : Wind}

theorem wok_congr {b c : Bound} (hk : c.polygonKind = b.polygonKind) (hd : c.windingDelta = b.windingDelta)
    (hw : c.windingCount = b.windingCount) (ho : c.oppositeWindingCount = b.oppositeWindingCount)
    (h : WOk sf cf w b) : WOk sf cf w c := by
  obtain ⟨h1, h2, h3, h4, h5⟩ := h
  exact ⟨by rw [hd]; exact h1, by rw [hk, hd, hw]; exact h2, by rw [hk, hw]; exact h3, by rw [hk, ho]; exact h4,
    by rw [hk, ho]; exact h5⟩

theorem cok_congr {b c : Bound} (hk : c.polygonKind = b.polygonKind) (hd : c.windingDelta = b.windingDelta)
    (hr : c.ring.isSome = b.ring.isSome) (h : COk op sf cf w b) : COk op sf cf w c := by
  unfold COk at *
  rw [hr, Wind.add_congr w hk hd]; exact h

theorem allOk_congr {f g : Nat → Bound} : ∀ (l : List Nat) (w : Wind), (∀ c ∈ l, (g c).polygonKind = (f c).polygonKind
      ∧ (g c).windingDelta = (f c).windingDelta ∧ (g c).windingCount = (f c).windingCount
      ∧ (g c).oppositeWindingCount = (f c).oppositeWindingCount ∧ (g c).ring.isSome = (f c).ring.isSome) →
    AllOk op sf cf w (l.map f) → AllOk op sf cf w (l.map g)
  | [], _, _, h => h
  | a :: l, w, hc, h => by
    obtain ⟨h1, h2, h3, h4, h5⟩ := hc a (by simp)
    obtain ⟨k1, k2, k3⟩ := h
    refine ⟨wok_congr h1 h2 h3 h4 k1, cok_congr h1 h2 h5 k2, ?_⟩
    rw [Wind.add_congr w h1 h2]
    exact allOk_congr l _ (fun c hc' => hc c (by simp [hc'])) k3

theorem addAll_congr {f g : Nat → Bound} : ∀ (l : List Nat) (w : Wind), (∀ c ∈ l, (g c).polygonKind = (f c).polygonKind
      ∧ (g c).windingDelta = (f c).windingDelta) → addAll w (l.map g) = addAll w (l.map f)
  | [], _, _ => rfl
  | a :: l, w, hc => by
    show addAll (w.add (g a)) (l.map g) = addAll (w.add (f a)) (l.map f)
    rw [Wind.add_congr w (hc a (by simp)).1 (hc a (by simp)).2]
    exact addAll_congr l _ fun c hc' => hc c (by simp [hc'])

theorem HotEnds.rstep {s s' t : St} {a b : Nat} (h : HotEnds s) (hnr : t.nr = s.nr) (hact : act t = act s)
    (hrs : ∀ c, (t.bounds c).ring = (s.bounds c).ring ∧ (t.bounds c).side = (s.bounds c).side)
    (hst : RStep t s' a b) (hab : a ≠ b) (ha : a ∈ act s) (hb : b ∈ act s) : HotEnds s' := by
  have ht : HotEnds t := by
    unfold HotEnds at *
    simp only [hact, hnr, hrs]
    exact h
  have hact' : act s' = act t := by unfold act; rw [hst.frame.abl]
  rw [← hact] at ha hb
  clear h hrs hact hnr
  cases hst with
  | same hs =>
    unfold HotEnds at *
    simp only [hact', hs.nr, fun c => core_ring (hs.core c), fun c => core_side (hs.core c)]
    exact ht
  | sides hf hn na nb hr hrest =>
    have hside : ∀ c r, (t.bounds c).ring = some r → (s'.bounds c).side = (t.bounds c).side := by
      intro c r hc
      refine core_side (hrest c ?_ ?_)
      · rintro rfl; rw [na] at hc; cases hc
      · rintro rfl; rw [nb] at hc; cases hc
    intro c hc r hr'
    rw [hact'] at hc
    rw [hr] at hr'
    obtain ⟨h1, d, hd, h2, h3, h4, h5⟩ := ht c hc r hr'
    refine ⟨by rw [hn]; exact h1, d, by rw [hact']; exact hd, h2, by rw [hr]; exact h3, ?_, ?_⟩
    · rw [hside d r h3, hside c r hr']; exact h4
    · intro e he her
      rw [hact'] at he
      rw [hr] at her
      exact h5 e he her
  | exch hx =>
    -- the renaming that exchanges `a` and `b`
    let f : Nat → Nat := fun c => if c = a then b else if c = b then a else c
    have fa : f a = b := by simp [f]
    have fb : f b = a := by simp [f, hab.symm]
    have fo : ∀ c, c ≠ a → c ≠ b → f c = c := fun c h1 h2 => by simp [f, h1, h2]
    have ff : ∀ c, f (f c) = c := by
      intro c
      by_cases h1 : c = a
      · rw [h1, fa, fb]
      · by_cases h2 : c = b
        · rw [h2, fb, fa]
        · rw [fo c h1 h2, fo c h1 h2]
    have fmem : ∀ c, c ∈ act t → f c ∈ act t := by
      intro c hc
      by_cases h1 : c = a
      · rw [h1, fa]; exact hb
      · by_cases h2 : c = b
        · rw [h2, fb]; exact ha
        · rw [fo c h1 h2]; exact hc
    have hr : ∀ c, (s'.bounds c).ring = (t.bounds (f c)).ring := by
      intro c
      by_cases h1 : c = a
      · rw [h1, fa]; exact hx.fst
      · by_cases h2 : c = b
        · rw [h2, fb]; exact hx.snd
        · rw [fo c h1 h2]; exact core_ring (hx.rest c h1 h2)
    have hs : ∀ c, (s'.bounds c).side = (t.bounds (f c)).side := by
      intro c
      by_cases h1 : c = a
      · rw [h1, fa]; exact hx.fstSide
      · by_cases h2 : c = b
        · rw [h2, fb]; exact hx.sndSide
        · rw [fo c h1 h2]; exact core_side (hx.rest c h1 h2)
    intro c hc r hr'
    rw [hact'] at hc
    rw [hr] at hr'
    obtain ⟨h1, d, hd, h2, h3, h4, h5⟩ := ht (f c) (fmem c hc) r hr'
    refine ⟨by rw [hx.nr]; exact h1, f d, by rw [hact']; exact fmem d hd, ?_, by rw [hr, ff]; exact h3, ?_, ?_⟩
    · intro e; exact h2 (by rw [← e, ff])
    · rw [hs, hs, ff]; exact h4
    · intro e he her
      rw [hact'] at he
      rw [hr] at her
      rcases h5 (f e) (fmem e he) her with h | h
      · left; rw [← ff e, h, ff]
      · right; rw [← h, ff]
  | opened na nb ho =>
    have hlt : ∀ c ∈ act t, ∀ r, (t.bounds c).ring = some r → r ≠ t.nr := fun c hc r hr => (ht c hc r hr).1.ne
    have hring : ∀ c, c ≠ a → c ≠ b → (s'.bounds c).ring = (t.bounds c).ring := fun c h1 h2 => core_ring (ho.rest c h1 h2)
    have hside : ∀ c, c ≠ a → c ≠ b → (s'.bounds c).side = (t.bounds c).side := fun c h1 h2 => core_side (ho.rest c h1 h2)
    have honly : ∀ e ∈ act t, (s'.bounds e).ring = some t.nr → e = a ∨ e = b := by
      intro e he her
      by_contra hn
      push Not at hn
      rw [hring e hn.1 hn.2] at her
      exact hlt e he _ her rfl
    intro c hc r hr
    rw [hact'] at hc
    by_cases h1 : c = a
    · subst h1
      rw [ho.fst] at hr
      obtain rfl := Option.some.inj hr
      refine ⟨by rw [ho.nr]; omega, b, by rw [hact']; exact hb, hab.symm, ho.snd, ho.sides.symm, fun e he her => ?_⟩
      rw [hact'] at he
      exact honly e he her
    · by_cases h2 : c = b
      · subst h2
        rw [ho.snd] at hr
        obtain rfl := Option.some.inj hr
        refine ⟨by rw [ho.nr]; omega, a, by rw [hact']; exact ha, hab, ho.fst, ho.sides, fun e he her => ?_⟩
        rw [hact'] at he
        exact (honly e he her).symm
      · rw [hring c h1 h2] at hr
        obtain ⟨k1, d, hd, k2, k3, k4, k5⟩ := ht c hc r hr
        have hda : d ≠ a := by rintro rfl; rw [na] at k3; cases k3
        have hdb : d ≠ b := by rintro rfl; rw [nb] at k3; cases k3
        refine ⟨by rw [ho.nr]; omega, d, by rw [hact']; exact hd, k2, by rw [hring d hda hdb]; exact k3,
          by rw [hside d hda hdb, hside c h1 h2]; exact k4, fun e he her => ?_⟩
        rw [hact'] at he
        by_cases e1 : e = a
        · subst e1; rw [ho.fst] at her; obtain rfl := Option.some.inj her; exact absurd rfl (hlt c hc _ hr)
        · by_cases e2 : e = b
          · subst e2; rw [ho.snd] at her; obtain rfl := Option.some.inj her; exact absurd rfl (hlt c hc _ hr)
          · exact k5 e he (by rw [← hring e e1 e2]; exact her)
  | closed sa sb hc =>
    rcases hc.rest with ⟨heq, hrest⟩ | ⟨k, r0, keep, remove, hk, hr0, hne, hkr, hh⟩
    · have hring : ∀ c, c ≠ a → c ≠ b → (s'.bounds c).ring = (t.bounds c).ring := fun c h1 h2 => core_ring (hrest c h1 h2)
      have hside : ∀ c, c ≠ a → c ≠ b → (s'.bounds c).side = (t.bounds c).side := fun c h1 h2 => core_side (hrest c h1 h2)
      obtain ⟨q, hq⟩ := Option.isSome_iff_exists.1 sa
      intro c hc' r hr
      rw [hact'] at hc'
      have h1 : c ≠ a := by rintro rfl; rw [hc.fst] at hr; cases hr
      have h2 : c ≠ b := by rintro rfl; rw [hc.snd] at hr; cases hr
      rw [hring c h1 h2] at hr
      obtain ⟨k1, d, hd, k2, k3, k4, k5⟩ := ht c hc' r hr
      have hrq : r ≠ q := by
        rintro rfl
        obtain ⟨-, d', -, -, -, -, k6⟩ := ht a ha r hq
        have hb' : (t.bounds b).ring = some r := heq ▸ hq
        rcases k6 b hb hb' with e | e
        · exact hab e.symm
        · subst e
          rcases k6 c hc' hr with e | e
          · exact h1 e
          · exact h2 e
      have hda : d ≠ a := by rintro rfl; rw [k3] at hq; exact hrq (Option.some.inj hq)
      have hdb : d ≠ b := by rintro rfl; rw [heq] at hq; rw [k3] at hq; exact hrq (Option.some.inj hq)
      refine ⟨by rw [hc.nr]; exact k1, d, by rw [hact']; exact hd, k2, by rw [hring d hda hdb]; exact k3,
        by rw [hside d hda hdb, hside c h1 h2]; exact k4, fun e he her => ?_⟩
      rw [hact'] at he
      have e1 : e ≠ a := by rintro rfl; rw [hc.fst] at her; cases her
      have e2 : e ≠ b := by rintro rfl; rw [hc.snd] at her; cases her
      exact k5 e he (by rw [← hring e e1 e2]; exact her)
    · have hka : (k = a ∨ k = b) := by rcases hkr with h | h <;> simp [h.1]
      have hkr' : (r0 = a ∨ r0 = b) := by rcases hkr with h | h <;> simp [h.2]
      have hmk : k ∈ act t := by rcases hka with e | e <;> rw [e] <;> assumption
      have hmr : r0 ∈ act t := by rcases hkr' with e | e <;> rw [e] <;> assumption
      have hcase : ∀ c, c = a ∨ c = b ↔ c = k ∨ c = r0 := by
        intro c; rcases hkr with ⟨e1, e2⟩ | ⟨e1, e2⟩ <;> rw [e1, e2]
        exact or_comm
      have hring0 : ∀ c, (c = k ∨ c = r0) → (s'.bounds c).ring = none := by
        intro c hh
        rcases (hcase c).2 hh with e | e <;> rw [e]
        · exact hc.fst
        · exact hc.snd
      obtain ⟨-, k', hk', kk1, kk2, kk3, kk4⟩ := ht k hmk keep hk
      obtain ⟨-, r', hr', rr1, rr2, rr3, rr4⟩ := ht r0 hmr remove hr0
      have hr'k : r' ≠ k := by rintro rfl; rw [hk] at rr2; exact hne (Option.some.inj rr2)
      have hk'r : k' ≠ r0 := by rintro rfl; rw [hr0] at kk2; exact hne (Option.some.inj kk2).symm
      have hr'a : r' ≠ a ∧ r' ≠ b := by
        have := mt (hcase r').1 (by push Not; exact ⟨hr'k, rr1⟩)
        push Not at this; exact this
      have hk'a : k' ≠ a ∧ k' ≠ b := by
        have := mt (hcase k').1 (by push Not; exact ⟨kk1, hk'r⟩)
        push Not at this; exact this
      rcases hh with ⟨d, d1, d2, d3, d4, d5, d6, d7⟩ | ⟨hn, -⟩
      · have hd : d ∈ act t := by unfold act; exact List.mem_filterMap.2 ⟨some d, d1, rfl⟩
        obtain rfl : d = r' := by
          rcases rr4 d hd d4 with e | e
          · exact absurd e (by intro e; rcases (hcase d).2 (Or.inr e) with e | e <;> [exact d2 e; exact d3 e])
          · exact e
        have hdk' : d ≠ k' := by rintro rfl; rw [d4] at kk2; exact hne (Option.some.inj kk2).symm
        have hring : ∀ c, c ≠ a → c ≠ b → c ≠ d → (s'.bounds c).ring = (t.bounds c).ring := fun c h1 h2 h3 => core_ring (d7 c h1 h2 h3)
        have hside : ∀ c, c ≠ a → c ≠ b → c ≠ d → (s'.bounds c).side = (t.bounds c).side := fun c h1 h2 h3 => core_side (d7 c h1 h2 h3)
        have hk's : (s'.bounds k').ring = some keep := by rw [hring k' hk'a.1 hk'a.2 hdk'.symm]; exact kk2
        have hk'sd : (s'.bounds k').side ≠ (s'.bounds d).side := by
          rw [d6, hside k' hk'a.1 hk'a.2 hdk'.symm]; exact kk3
        have honly : ∀ e ∈ act t, (s'.bounds e).ring = some keep → e = d ∨ e = k' := by
          intro e he her
          by_cases e3 : e = d
          · exact Or.inl e3
          · have e1 : e ≠ a := by rintro rfl; rw [hc.fst] at her; cases her
            have e2 : e ≠ b := by rintro rfl; rw [hc.snd] at her; cases her
            rw [hring e e1 e2 e3] at her
            rcases kk4 e he her with e4 | e4
            · exact absurd ((hcase e).2 (Or.inl e4)) (by push Not; exact ⟨e1, e2⟩)
            · exact Or.inr e4
        have honlyr : ∀ e ∈ act t, (s'.bounds e).ring ≠ some remove := by
          intro e he her
          by_cases e3 : e = d
          · rw [e3, d5] at her; exact hne (Option.some.inj her)
          · have e1 : e ≠ a := by rintro rfl; rw [hc.fst] at her; cases her
            have e2 : e ≠ b := by rintro rfl; rw [hc.snd] at her; cases her
            rw [hring e e1 e2 e3] at her
            rcases rr4 e he her with e4 | e4
            · exact absurd ((hcase e).2 (Or.inr e4)) (by push Not; exact ⟨e1, e2⟩)
            · exact e3 e4
        intro c hc' r hr
        rw [hact'] at hc'
        have h1 : c ≠ a := by rintro rfl; rw [hc.fst] at hr; cases hr
        have h2 : c ≠ b := by rintro rfl; rw [hc.snd] at hr; cases hr
        by_cases hkeep : r = keep
        · subst hkeep
          refine ⟨by rw [hc.nr]; exact (ht k hmk r hk).1, ?_⟩
          rcases honly c hc' hr with e | e
          · subst e
            exact ⟨k', by rw [hact']; exact hk', hdk'.symm, hk's, hk'sd, fun e he her => honly e (by rwa [hact'] at he) her⟩
          · subst e
            exact ⟨d, by rw [hact']; exact hd, hdk', d5, hk'sd.symm, fun e he her => (honly e (by rwa [hact'] at he) her).symm⟩
        · have hcd : c ≠ d := by rintro rfl; rw [d5] at hr; exact hkeep (Option.some.inj hr).symm
          rw [hring c h1 h2 hcd] at hr
          obtain ⟨k1, x, hx, k2, k3, k4, k5⟩ := ht c hc' r hr
          have hrem : r ≠ remove := by
            rintro rfl
            rcases rr4 c hc' hr with e | e
            · exact absurd ((hcase c).2 (Or.inr e)) (by push Not; exact ⟨h1, h2⟩)
            · exact hcd e
          have hxa : x ≠ a ∧ x ≠ b := by
            have := mt (hcase x).1 (by
              push Not
              constructor
              · rintro rfl; rw [hk] at k3; exact hkeep (Option.some.inj k3).symm
              · rintro rfl; rw [hr0] at k3; exact hrem (Option.some.inj k3).symm)
            push Not at this; exact this
          have hxd : x ≠ d := by rintro rfl; rw [d4] at k3; exact hrem (Option.some.inj k3).symm
          refine ⟨by rw [hc.nr]; exact k1, x, by rw [hact']; exact hx, k2, by rw [hring x hxa.1 hxa.2 hxd]; exact k3,
            by rw [hside x hxa.1 hxa.2 hxd, hside c h1 h2 hcd]; exact k4, fun e he her => ?_⟩
          rw [hact'] at he
          have e1 : e ≠ a := by rintro rfl; rw [hc.fst] at her; cases her
          have e2 : e ≠ b := by rintro rfl; rw [hc.snd] at her; cases her
          have e3 : e ≠ d := by rintro rfl; rw [d5] at her; exact hkeep (Option.some.inj her).symm
          exact k5 e he (by rw [← hring e e1 e2 e3]; exact her)
      · exact absurd rr2 (hn r' (by
          unfold act at hr'
          obtain ⟨o, ho, e⟩ := List.mem_filterMap.1 hr'
          exact (show o = some r' from e) ▸ ho) hr'a.1 hr'a.2)

end

end Wagyu
