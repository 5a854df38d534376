import Verif.Proofs.HotSweep

/-!
# The sweep that records hot pixels: bounds that reach the scanline
-/

namespace Wagyu

open Spec

section
variable {F : Extent} {E : Nat → List Edge} {A : List LocalMinimum} {y : Int} {rest : List LocalMinimum} {s : St}

/-- Active bounds may be moved, hot pixels in the box added. -/
structure Shuffled (F : Extent) (s s' : St) : Prop where
  quiet : Quietly F s s'
  len : s'.abl.length = s.abl.length
  cx : CX F s → CX F s'

theorem Shuffled.refl (F : Extent) (s : St) : Shuffled F s s := ⟨Quietly.refl F s, rfl, fun h => h⟩
theorem Shuffled.trans {a b c : St} (h : Shuffled F a b) (k : Shuffled F b c) : Shuffled F a c :=
  ⟨h.quiet.trans k.quiet, k.len.trans h.len, fun x => k.cx (h.cx x)⟩

theorem shuffled_swap {i j : Nat} {a b : Option Nat} (ha : s.abl[i]? = some a) (hb : s.abl[j]? = some b) :
    Shuffled F s { s with abl := (s.abl.set i b).set j a } :=
  ⟨quietly_abl fun _ h => swap_mem ha hb h, by simp, fun h c hc => h c (swap_mem ha hb hc)⟩

theorem shuffled_hot {p : Point} (hp : F.P p) : Shuffled F s { s with hotPixels := s.hotPixels ++ [p] } :=
  ⟨quietly_hot hp, rfl, fun h => h⟩

theorem ok_horizontalPass (hG : Given F E A) (hs : HotMid F E A y rest s) (hx : CX F s) (b ni : Nat) (beyond : F64 → F64 → Bool) :
    Ok (horizontalPass b y ni beyond) s fun _ s' => Shuffled F s s' ∧ s'.abl = s.abl := by
  unfold horizontalPass
  refine Post.bind (ok_ablGet.imp ?_)
  rintro a s ⟨rfl, ha⟩
  cases a with
  | none => exact Post.pure ⟨Shuffled.refl F s, rfl⟩
  | some nb =>
    dsimp only
    refine Post.bind (Post.getBound (Post.bind (Post.getBound ?_)))
    split
    · exact Post.pure ⟨Shuffled.refl F s, rfl⟩
    · refine Post.bind ?_
      unfold currentEdge
      refine Post.bind (Post.getBound (Post.orIndex (fun e he => ?_) fun _ => trivial))
      have hmem := List.mem_of_getElem? ha
      obtain ⟨h1, h2, -⟩ := hs.span nb hmem e he
      obtain ⟨⟨-, b1, b2⟩, -, b3, b4⟩ := hG.inF nb (hs.act nb hmem).1 e (hs.edge he)
      split
      · refine Post.bind ?_
        unfold roundHalfUpM
        split
        · next n hn =>
          refine Post.pure (Post.bind (Post.modify (Post.pure ⟨shuffled_hot ⟨(hx nb hmem).round hn, ?_, ?_⟩, rfl⟩)))
          · show F.ylo ≤ y; omega
          · show y ≤ F.yhi; omega
        · exact trivial
      · exact Post.pure ⟨Shuffled.refl F s, rfl⟩

theorem ok_horizontalsAt (hG : Given F E A) (hs : HotMid F E A y rest s) (hx : CX F s) {i b : Nat}
    (hi : s.abl[i]? = some (some b)) :
    Ok (horizontalsAtTopScanbeam y i) s fun r s' => Shuffled F s s'
      ∧ ∀ j, j < (if r.2 then i else i + 1) → ∃ j', j' ≤ i ∧ (j' = i → r.2 = false) ∧ s'.abl[j]? = s.abl[j']? := by
  unfold horizontalsAtTopScanbeam
  refine Post.bind (ok_ablGet.imp ?_)
  rintro a s ⟨rfl, ha⟩
  rw [hi] at ha; cases ha
  refine Post.bind (Post.deref (fun b' hb' => ?_) fun h => by cases h)
  cases hb'
  unfold currentEdge
  refine Post.bind (Post.bind (Post.getBound (Post.orIndex (fun e he => ?_) fun _ => trivial)))
  have hmem := List.mem_of_getElem? hi
  have heE := hs.edge he
  have hex := (hG.inF b (hs.act b hmem).1 e heE).2.1
  refine Post.bind (Post.modBound ?_)
  have sh0 : Shuffled F s { s with bounds := (upd s.bounds b { s.bounds b with currentX := .ofInt e.top.x }) } := by
    refine ⟨xmoved_x.quietly, rfl, fun _ c hc => ?_⟩
    show XOk F (Bound.currentX (upd _ _ _ c))
    by_cases h : c = b
    · subst h; rw [Wagyu.upd_same]; exact XOk.ofInt hex
    · rw [Wagyu.upd_other _ _ _ _ h]; exact hx c hc
  have ab0 : ({ s with bounds := (upd s.bounds b { s.bounds b with currentX := .ofInt e.top.x }) } : St).abl = s.abl := rfl
  generalize ({ s with bounds := (upd s.bounds b { s.bounds b with currentX := .ofInt e.top.x }) } : St) = s0 at sh0 ab0 ⊢
  split
  · -- left to right
    refine Post.bind (Post.gets ?_)
    refine Post.forElseN (fun _ (st : Nat × Bool × Nat) s' => Shuffled F s s' ∧ i ≤ st.1 ∧ i < st.2.2
      ∧ (st.2.1 = false → s'.abl = s.abl) ∧ ∀ j, j < i → s'.abl[j]? = s.abl[j]?) ?_ ?_ _ _ _
      ⟨sh0, Nat.le_refl _, Nat.lt_succ_self _, fun _ => ab0, fun j _ => by rw [ab0]⟩
    · rintro k ⟨bi, shifted, ni⟩ s1 ⟨h1, h2, h3, h4, h5⟩
      dsimp only at h2 h3 h4 ⊢
      refine Post.bind ((ok_horizontalPass hG (hs.quiet h1.quiet) (h1.cx hx) b ni _).imp ?_)
      rintro r s2 ⟨k1, k2⟩
      split
      · refine Post.pure ⟨h1.trans k1, fun j hj => ?_⟩
        dsimp only at hj ⊢
        cases shifted with
        | false =>
          refine ⟨j, by simpa using Nat.le_of_lt_succ (by simpa using hj), fun _ => rfl, ?_⟩
          rw [k2, h4 rfl]
        | true =>
          have hj : j < i := by simpa using hj
          refine ⟨j, by omega, by omega, ?_⟩
          rw [k2, h5 j hj]
      · refine Post.bind (ok_ablSwap.imp ?_)
        rintro _ s3 ⟨a, c, ha, hc, rfl⟩
        refine Post.pure ⟨(h1.trans k1).trans (shuffled_swap ha hc), by dsimp only; omega, by dsimp only; omega, nofun, ?_⟩
        intro j hj
        dsimp only
        rw [swap_get ha hc, if_neg (by omega), if_neg (by omega), k2]
        exact h5 j hj
    · rintro ⟨bi, shifted, ni⟩ s1 ⟨h1, h2, h3, h4, h5⟩
      refine Post.pure ⟨h1, fun j hj => ?_⟩
      dsimp only at hj h4 ⊢
      cases shifted with
      | false =>
        refine ⟨j, by simpa using Nat.le_of_lt_succ (by simpa using hj), fun _ => rfl, ?_⟩
        rw [h4 rfl]
      | true =>
        have hj : j < i := by simpa using hj
        exact ⟨j, by omega, by omega, h5 j hj⟩
  · -- right to left
    refine Post.forElseN (fun k (st : Nat × Nat) s' => Shuffled F s s' ∧ st.1 ≤ i ∧ k + st.2 = i ∧ 
      ∀ j, j ≤ i → ∃ j', j' ≤ i ∧ s'.abl[j]? = s.abl[j']?) ?_ ?_ _ _ _
      ⟨sh0, Nat.le_refl _, rfl, fun j hj => ⟨j, hj, by rw [ab0]⟩⟩
    · rintro k ⟨bi, q⟩ s1 ⟨h1, h2, h3, h5⟩
      dsimp only at h2 h3 ⊢
      refine Post.bind ((ok_horizontalPass hG (hs.quiet h1.quiet) (h1.cx hx) b _ _).imp ?_)
      rintro r s2 ⟨k1, k2⟩
      split
      · refine Post.pure ⟨h1.trans k1, fun j hj => ?_⟩
        obtain ⟨j', a1, a2⟩ := h5 j (by simpa using Nat.le_of_lt_succ (by simpa using hj))
        exact ⟨j', a1, fun _ => rfl, by rw [k2, a2]⟩
      · refine Post.bind (ok_ablSwap.imp ?_)
        rintro _ s3 ⟨a, c, ha, hc, rfl⟩
        refine Post.pure ⟨(h1.trans k1).trans (shuffled_swap ha hc), by dsimp only; omega, by dsimp only; omega, ?_⟩
        intro j hj
        dsimp only
        rw [swap_get ha hc]
        split
        · rw [← ha, k2]; exact h5 bi h2
        · split
          · rw [← hc, k2]; exact h5 _ (by omega)
          · rw [k2]; exact h5 j hj
    · rintro ⟨bi, q⟩ s1 ⟨h1, h2, h3, h5⟩
      refine Post.pure ⟨h1, fun j hj => ?_⟩
      obtain ⟨j', a1, a2⟩ := h5 j (by simpa using Nat.le_of_lt_succ (by simpa using hj))
      exact ⟨j', a1, fun _ => rfl, a2⟩

/-- While one bound is advanced. -/
structure AdvInv (F : Extent) (E : Nat → List Edge) (A : List LocalMinimum) (y : Int) (rest : List LocalMinimum) (s0 : St) (b index : Nat)
    (st : Nat × Bool) (s : St) : Prop where
  mid : HotMid F E A y rest s
  cx : CX F s
  len : s.abl.length = s0.abl.length
  left : Left E A s ≤ Left E A s0
  left' : st.2 = true → Left E A s < Left E A s0
  phi : Phi E A rest s ≤ Phi E A rest s0
  pos : ∀ j c, j < (if st.2 then index else index + 1) → s.abl[j]? = some (some c) → c = b ∨ TopOk y s c
  phase : (st = (index, false) ∧ s.abl[index]? = some (some b)) ∨ TopOk y s b

theorem tot_hotPixelAdvance (hG : Given F E A) (hs : HotMid F E A y rest s) (hx : CX F s) {b index : Nat}
    (hi : s.abl[index]? = some (some b)) (hpos : ∀ j c, j < index → s.abl[j]? = some (some c) → TopOk y s c) :
    Tot (hotPixelAdvance y b index) s fun r s' => AdvInv F E A y rest s b index r s' ∧ TopOk y s' b := by
  obtain ⟨hbA, hbr⟩ := hs.act b (List.mem_of_getElem? hi)
  unfold hotPixelAdvance
  refine Tot.loopM (fun st s' => AdvInv F E A y rest s b index st s') (fun _ s' => Left E A s') ?_ ?_
  · rintro ⟨ci, shifted⟩ s1 hI
    dsimp only
    refine Tot.bind (Tot.steady (Post.getBound ?_))
    refine Tot.ite (fun hlt => ?_) (fun hlt => Tot.pure ⟨hI, fun e he => ?_⟩)
    · refine Tot.bind (Tot.steady ?_)
      unfold currentEdge
      refine Post.bind (Post.getBound (Post.orIndex (fun e he => ?_) fun _ => trivial))
      refine Tot.ite (fun hty => ?_) (fun hty => Tot.pure ⟨hI, fun f hf => ?_⟩)
      · obtain ⟨hst, hci⟩ | hto := hI.phase
        swap
        · have := hto e he; omega
        cases hst
        have heE := hI.mid.edge he
        have htop := (hG.inF b hbA e heE).2
        refine Tot.bind (Tot.steady (Post.modify ?_))
        have q1 := quietly_hot (s := s1) htop
        have m1 := hI.mid.quiet q1
        have he1 : (({ s1 with hotPixels := s1.hotPixels ++ [e.top] } : St).bounds b).currentEdge? = some e := he
        have c1 : CX F { s1 with hotPixels := s1.hotPixels ++ [e.top] } := hI.cx
        have i1 : ({ s1 with hotPixels := s1.hotPixels ++ [e.top] } : St).abl = s1.abl := rfl
        have t1 : ∀ c, TopOk y s1 c → TopOk y { s1 with hotPixels := s1.hotPixels ++ [e.top] } c := fun c hc => hc.quiet q1
        have l1 : Left E A { s1 with hotPixels := s1.hotPixels ++ [e.top] } = Left E A s1 := q1.left
        have p1 : Phi E A rest { s1 with hotPixels := s1.hotPixels ++ [e.top] } = Phi E A rest s1 := q1.phi
        generalize ({ s1 with hotPixels := s1.hotPixels ++ [e.top] } : St) = s2 at m1 he1 c1 i1 t1 l1 p1 ⊢
        -- what follows for the rest of the step
        have fin : ∀ (r : Nat × Bool) (s3 : St), Shuffled F s2 s3 →
            (∀ j c, j < (if r.2 then index else index + 1) → s3.abl[j]? = some (some c) → c = b ∨ TopOk y s3 c) →
            (e.isHorizontal = true ∨ (r = (index, false) ∧ s3.abl[index]? = some (some b))) →
            Tot (do toNextEdge b; pure (Sum.inl r) : M ((Nat × Bool) ⊕ (Nat × Bool))) s3 fun r' s' => match r' with
              | .inl st => AdvInv F E A y rest s b index st s' ∧ Left E A s' < Left E A s1
              | .inr r => AdvInv F E A y rest s b index r s' ∧ TopOk y s' b := by
          intro r s3 hsh hp hph
          have he3 : (s3.bounds b).currentEdge? = some e := by rw [hsh.quiet.edge]; exact he1
          refine Tot.bind ((Tot.steady (ok_toNextEdgeHot hG (m1.quiet hsh.quiet) hbA hbr he3 hty)).imp ?_)
          rintro _ s4 ⟨a1, a2, a3, a4, a5, a6, a7⟩
          rw [hsh.quiet.left, l1] at a5
          rw [hsh.quiet.phi, p1] at a4
          have hll := hI.left
          have hpp := hI.phi
          refine Tot.pure ⟨⟨a1, a2 (hsh.cx c1), ?_, by omega, fun _ => by omega, by omega, ?_, ?_⟩, a5⟩
          · rw [a3, hsh.len, i1]; exact hI.len
          · intro j c hj hc
            rw [a3] at hc
            by_cases hcb : c = b
            · exact Or.inl hcb
            · rcases hp j c hj hc with h | h
              · exact Or.inl h
              · right
                intro f hf
                rw [a6 c hcb] at hf
                exact h f hf
          · rcases hph with h | ⟨h1, h2⟩
            · exact Or.inr (a7 h)
            · left
              exact ⟨h1, by rw [a3]; exact h2⟩
        have hp2 : ∀ j c, j < index + 1 → s2.abl[j]? = some (some c) → c = b ∨ TopOk y s2 c := by
          intro j c hj hc
          rw [i1] at hc
          exact (hI.pos j c hj hc).imp id (t1 c)
        refine Tot.bind (Tot.ite (fun hh => ?_) fun hh => ?_)
        · refine ((Tot.steady (ok_horizontalsAt hG m1 c1 (i := index) (b := b) (by rw [i1]; exact hci))).imp ?_)
          rintro ⟨ci', sh'⟩ s3 ⟨k1, k2⟩
          refine (fin (ci', sh') s3 k1 ?_ (Or.inl hh)).imp (by rintro (_ | _) _ h <;> exact h)
          intro j c hj hc
          obtain ⟨j', d1, d2, d3⟩ := k2 j hj
          rw [hc] at d3
          exact (hp2 j' c (by omega) d3.symm).imp id fun h => h.quiet k1.quiet
        · refine Tot.pure ?_
          refine (fin (index, false) s2 (Shuffled.refl F s2) ?_ (Or.inr ⟨rfl, by rw [i1]; exact hci⟩)).imp (by rintro (_ | _) _ h <;> exact h)
          exact hp2
      · rw [he] at hf; cases hf
        obtain ⟨hst, hci⟩ | hto := hI.phase
        · have := (hI.mid.span b (List.mem_of_getElem? hci) e he).1
          omega
        · exact hto e he
    · have := (List.getElem?_eq_some_iff.1 he).1
      exact absurd this hlt
  · refine ⟨hs, hx, rfl, Nat.le_refl _, nofun, Nat.le_refl _, ?_, Or.inl ⟨rfl, hi⟩⟩
    intro j c hj hc
    dsimp only at hj
    rw [if_neg (by simp)] at hj
    by_cases h : j = index
    · subst h
      rw [hi] at hc; cases hc
      exact Or.inl rfl
    · exact Or.inr (hpos j c (by omega) hc)

end

end Wagyu
