import Verif.Proofs.HotAdvance

/-!
# The sweep that records hot pixels: a step and the loop
-/

namespace Wagyu

open Spec

section
variable {F : Extent} {E : Nat → List Edge} {A : List LocalMinimum} {y : Int} {rest : List LocalMinimum} {s : St}

/-- While the active bounds are visited. -/
structure TopInv (F : Extent) (E : Nat → List Edge) (A : List LocalMinimum) (y : Int) (rest : List LocalMinimum) (c : Nat) (index : Nat)
    (s : St) : Prop where
  mid : HotMid F E A y rest s
  cx : CX F s
  phi : Phi E A rest s ≤ c
  pos : ∀ j c, j < index → s.abl[j]? = some (some c) → TopOk y s c

theorem HotMid.top (hs : HotMid F E A y rest s) (hr : ∀ m ∈ rest, m.y ≠ y) (ht : ∀ b, some b ∈ s.abl → TopOk y s b) :
    HotI F E A y rest s where
  toHotCore := hs.toHotCore
  restScan m hm := (hs.restScan m hm).resolve_left (hr m hm)
  span b hb e he := by
    obtain ⟨h1, h2, h3⟩ := hs.span b hb e he
    have := ht b hb e he
    exact ⟨this, h2, h3.resolve_left (by omega)⟩

theorem TopInv.abl {c index : Nat} (h : TopInv F E A y rest c index s) {l : List (Option Nat)}
    (hl : ∀ b, some b ∈ l → some b ∈ s.abl) {i : Nat} (hp : ∀ j b, j < i → l[j]? = some (some b) → TopOk y s b) :
    TopInv F E A y rest c i { s with abl := l } :=
  ⟨h.mid.quiet (quietly_abl hl), fun b hb => h.cx b (hl b hb), h.phi, hp⟩

theorem tot_hotTop (hG : Given F E A) (hs : HotMid F E A y rest s) (hx : CX F s) (hr : ∀ m ∈ rest, m.y ≠ y) :
    Tot (processHotPixelEdgesAtTopOfScanbeam y) s fun _ s' => HotI F E A y rest s' ∧ Phi E A rest s' ≤ Phi E A rest s := by
  unfold processHotPixelEdgesAtTopOfScanbeam
  refine Tot.bind ((Tot.loopM (Q := fun _ s' => TopInv F E A y rest (Phi E A rest s) s'.abl.length s')
    (fun index s' => TopInv F E A y rest (Phi E A rest s) index s')
    (fun index s' => Left E A s' + (s'.abl.length - index)) ?_ ?_).imp ?_)
  · intro index s1 hI
    refine Tot.bind (Tot.steady (hm := Steady.gets fun _ _ => rfl) (Post.gets ?_))
    refine Tot.ite (fun hlt => ?_) (fun hlt => Tot.pure ?_)
    · refine Tot.bind ((Tot.steady ok_ablGet).imp ?_)
      rintro a s2 ⟨rfl, ha⟩
      cases a with
      | none =>
        refine Tot.pure ⟨⟨hI.mid, hI.cx, hI.phi, fun j c hj hc => ?_⟩, by omega⟩
        by_cases h : j = index
        · subst h; rw [ha] at hc; cases hc
        · exact hI.pos j c (by omega) hc
      | some b =>
        dsimp only
        refine Tot.bind ((tot_hotPixelAdvance hG hI.mid hI.cx ha hI.pos).imp ?_)
        rintro ⟨ci, shifted⟩ s3 ⟨k, kb⟩
        have hpos : ∀ j c, j < (if shifted then index else index + 1) → s3.abl[j]? = some (some c) → TopOk y s3 c := by
          intro j c hj hc
          rcases k.pos j c hj hc with rfl | h
          · exact kb
          · exact h
        have k0 : TopInv F E A y rest (Phi E A rest s) (if shifted then index else index + 1) s3 :=
          ⟨k.mid, k.cx, k.phi.trans hI.phi, hpos⟩
        have hlen := k.len
        have hleft := k.left
        have hleft' := k.left'
        have hm : ∀ n, n = s2.abl.length → Left E A s3 + (n - (if shifted then index else index + 1)) < Left E A s2 + (s2.abl.length - index) := by
          intro n hn
          subst hn
          cases shifted with
          | false => rw [if_neg (by simp)]; omega
          | true => have := hleft' rfl; rw [if_pos rfl]; omega
        dsimp only
        refine Tot.bind (Tot.steady (Post.getBound ?_))
        split
        · refine Tot.bind (Tot.steady (Post.modify ?_))
          refine Tot.pure ⟨k0.abl ?_ ?_, ?_⟩
          · intro c hc
            rcases List.mem_or_eq_of_mem_set hc with h | h
            · exact h
            · cases h
          · intro j c hj hc
            rw [List.getElem?_set] at hc
            split at hc
            · split at hc <;> cases hc
            · exact hpos j c hj hc
          · have := hm (s3.abl.set ci none).length (by rw [List.length_set, hlen])
            exact this
        · exact Tot.pure ⟨k0, hm _ hlen⟩
    · exact ⟨hI.mid, hI.cx, hI.phi, fun j c hj hc => hI.pos j c (by omega) hc⟩
  · exact ⟨hs, hx, Nat.le_refl _, nofun⟩
  · rintro _ s1 h1
    refine Tot.steady (Post.modify ?_)
    have hl : ∀ b, some b ∈ s1.abl.filter Option.isSome → some b ∈ s1.abl := fun b hb => (List.mem_filter.1 hb).1
    refine ⟨HotMid.top (h1.mid.quiet (quietly_abl hl)) hr ?_, h1.phi⟩
    intro b hb
    obtain ⟨j, hj⟩ := List.mem_iff_getElem?.1 (hl b hb)
    exact h1.pos j b (List.getElem?_eq_some_iff.1 hj).1 hj

theorem HotI.pop {Y : Int} (hs : HotI F E A Y rest s) {v : Int} (hv : s.scan.getLast? = some v) :
    v ≤ Y ∧ HotMid F E A v rest { s with scan := s.scan.dropLast }
      ∧ Phi E A rest { s with scan := s.scan.dropLast } < Phi E A rest s := by
  obtain ⟨l, hl⟩ : ∃ l, s.scan = l ++ [v] := by
    rw [List.getLast?_eq_some_iff] at hv
    exact hv
  have hd : s.scan.dropLast = l := by rw [hl]; simp
  have hsort := hs.sorted
  rw [hl, List.pairwise_append] at hsort
  have hle : ∀ x ∈ l, x ≤ v := fun x hx => hsort.2.2 x hx v (by simp)
  have hmem : ∀ x ∈ s.scan, x = v ∨ x ∈ l := by
    intro x hx
    rw [hl] at hx
    simp at hx
    tauto
  have hle' : ∀ x ∈ s.scan, x ≤ v := by
    intro x hx
    rcases hmem x hx with rfl | h
    · exact le_refl _
    · exact hle x h
  have hvY := hs.below v (by rw [hl]; simp)
  refine ⟨hvY, ⟨⟨hs.edges, ?_, ?_, hs.sub, hs.nd, hs.desc, hs.act, hs.hot⟩, ?_, ?_⟩, ?_⟩
  · show s.scan.dropLast.Pairwise _; rw [hd]; exact hsort.1
  · show ∀ x ∈ s.scan.dropLast, _; rw [hd]; exact hle
  · show ∀ m ∈ rest, m.y = v ∨ m.y ∈ s.scan.dropLast
    rw [hd]
    exact fun m hm => hmem _ (hs.restScan m hm)
  · intro b hb e he
    obtain ⟨h1, h2, h3⟩ := hs.span b hb e he
    show _ ∧ _ ∧ (_ ∨ e.top.y ∈ s.scan.dropLast)
    rw [hd]
    exact ⟨hle' _ h3, by omega, hmem _ h3⟩
  · unfold Phi wt
    show s.scan.dropLast.length + _ < _
    rw [hd, hl]
    simp only [List.length_append, List.length_singleton]
    omega

theorem tot_hotPixelStep (hG : Given F E A) {Y : Int} (y₀ : Int) (hs : HotI F E A Y rest s) (hne : ¬ (s.scan = [] ∧ rest = [])) :
    Tot (hotPixelStep y₀ rest) s fun r s' => r.1 ≤ Y ∧ HotI F E A r.1 r.2 s' ∧ Phi E A r.2 s' < Phi E A rest s := by
  have hne' : s.scan ≠ [] := by
    intro h
    apply hne
    refine ⟨h, ?_⟩
    cases rest with
    | nil => rfl
    | cons m l =>
      have := hs.restScan m (by simp)
      rw [h] at this
      cases this
  obtain ⟨v, hv⟩ : ∃ v, s.scan.getLast? = some v := ⟨_, List.getLast?_eq_some_getLast hne'⟩
  obtain ⟨h1, h2, h3⟩ := hs.pop hv
  unfold hotPixelStep
  refine Tot.bind (Tot.steady (Q := fun r s' => r = v ∧ s' = { s with scan := s.scan.dropLast }) ?_ |>.imp ?_)
  · unfold popScan
    refine Post.bind (Post.gets ?_)
    rw [hv]
    exact Post.bind (Post.modify (Post.pure ⟨rfl, rfl⟩))
  rintro _ _ ⟨rfl, rfl⟩
  refine Tot.bind ((tot_hotIntersections hG h2).imp ?_)
  rintro _ s2 ⟨a1, a2, a3⟩
  refine Tot.bind ((Tot.steady (ok_insertMinimaHot hG rest s2 a1 a2)).imp ?_)
  rintro rest' s3 ⟨b1, b2, b3, b4⟩
  refine Tot.bind ((tot_hotTop hG b1 b2 b3).imp ?_)
  rintro _ s4 ⟨c1, c2⟩
  exact Tot.pure ⟨h1, c1, by dsimp only; omega⟩

end

end Wagyu
