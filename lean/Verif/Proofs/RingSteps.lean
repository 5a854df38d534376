import Verif.Proofs.PresOut
import Verif.Proofs.Post
import Verif.Proofs.Append
import Verif.Proofs.WindPure

/-!
# What opening, crossing and closing does to the bounds
-/

namespace Wagyu

open Spec

/-- The part of a bound that matters for winding and output. -/
structure Core where
  edges : List Edge
  maximumBound : Option Nat
  polygonKind : PolygonKind
  windingDelta : Int
  windingCount : Int
  oppositeWindingCount : Int
  ring : Option Nat
  side : EdgeSide

def core (b : Bound) : Core :=
  ⟨b.edges, b.maximumBound, b.polygonKind, b.windingDelta, b.windingCount, b.oppositeWindingCount, b.ring, b.side⟩

/-- Nothing that matters changes. -/
structure Same (s s' : St) : Prop where
  abl : s'.abl = s.abl
  nr : s'.nr = s.nr
  core : ∀ c, core (s'.bounds c) = core (s.bounds c)

instance : HeapPrims Same where
  refl _ := ⟨rfl, rfl, fun _ => rfl⟩
  trans h h' := ⟨h'.abl.trans h.abl, h'.nr.trans h.nr, fun c => (h'.core c).trans (h.core c)⟩
  heap _ _ _ _ _ _ := ⟨rfl, rfl, fun _ => rfl⟩
  last s b p := ⟨rfl, rfl, fun c => by
    show Wagyu.core (upd _ _ _ c) = _
    by_cases h : c = b
    · subst h; rw [upd_same]; rfl
    · rw [upd_ne _ _ h]⟩

theorem Same.of {α : Type} {m : M α} (h : Pres Same m) {s s' : St} {a : α} (e : m s = .ok a s') : Same s s' := by
  have := h.pres s
  rw [e] at this
  exact this

theorem Same.trans {a b c : St} (h : Same a b) (h' : Same b c) : Same a c := Preo.trans h h'

theorem Ok.same {α β : Type} {m : M α} {f : α → M β} {s : St} {Q : β → St → Prop} [h : Pres Same m]
    (h' : ∀ a s', Same s s' → Ok (f a) s' Q) : Ok (m >>= f) s Q :=
  Post.bind ((Post.of_pres h).mono (fun a s' hs => h' a s' hs) fun _ _ _ => trivial)

section
variable {b c : Bound} (h : core b = core c)
include h
theorem core_edges : b.edges = c.edges := congrArg Core.edges h
theorem core_max : b.maximumBound = c.maximumBound := congrArg Core.maximumBound h
theorem core_kind : b.polygonKind = c.polygonKind := congrArg Core.polygonKind h
theorem core_delta : b.windingDelta = c.windingDelta := congrArg Core.windingDelta h
theorem core_wc : b.windingCount = c.windingCount := congrArg Core.windingCount h
theorem core_owc : b.oppositeWindingCount = c.oppositeWindingCount := congrArg Core.oppositeWindingCount h
theorem core_ring : b.ring = c.ring := congrArg Core.ring h
theorem core_side : b.side = c.side := congrArg Core.side h
end

/-- Everything but `ring` and `side` of bounds, and the number of rings. -/
structure Frame (s s' : St) : Prop where
  abl : s'.abl = s.abl
  nr : s.nr ≤ s'.nr
  core : ∀ c, core (s'.bounds c) = { core (s.bounds c) with ring := (s'.bounds c).ring, side := (s'.bounds c).side }

theorem Frame.refl (s : St) : Frame s s := ⟨rfl, le_refl _, fun _ => rfl⟩
theorem Frame.trans {a b c : St} (h : Frame a b) (h' : Frame b c) : Frame a c :=
  ⟨h'.abl.trans h.abl, h.nr.trans h'.nr, fun x => by rw [h'.core x, h.core x]⟩
theorem Same.frame {s s' : St} (h : Same s s') : Frame s s' := by
  refine ⟨h.abl, h.nr.ge, fun c => ?_⟩
  rw [core_ring (h.core c), core_side (h.core c), h.core c]; rfl

theorem frame_core {x y : Bound} {r : Option Nat} {sd : EdgeSide} (h : core x = { core y with ring := r, side := sd }) :
    core x = { core y with ring := x.ring, side := x.side } := by
  have e : x.ring = r := congrArg Core.ring h
  have e' : x.side = sd := congrArg Core.side h
  rw [e, e']; exact h

/-- Change the ring and side of one bound. -/
def setRS (s : St) (b : Nat) (r : Option Nat) (sd : EdgeSide) : St :=
  { s with bounds := upd s.bounds b { s.bounds b with ring := r, side := sd } }

theorem setRS_frame (s : St) (b : Nat) (r : Option Nat) (sd : EdgeSide) : Frame s (setRS s b r sd) := by
  refine ⟨rfl, le_refl _, fun c => ?_⟩
  show Wagyu.core (upd _ _ _ c) = _
  by_cases h : c = b
  · subst h; simp [setRS, upd_same, core]
  · simp [setRS, upd_ne _ _ h, core]

/-- Opening a ring at two bounds that carry none. -/
structure Opened (s s' : St) (a b : Nat) : Prop where
  frame : Frame s s'
  nr : s'.nr = s.nr + 1
  fst : (s'.bounds a).ring = some s.nr
  snd : (s'.bounds b).ring = some s.nr
  sides : (s'.bounds a).side ≠ (s'.bounds b).side
  rest : ∀ c, c ≠ a → c ≠ b → core (s'.bounds c) = core (s.bounds c)

/-- The two bounds exchange rings and sides. -/
structure Exchanged (s s' : St) (a b : Nat) : Prop where
  frame : Frame s s'
  nr : s'.nr = s.nr
  fst : (s'.bounds a).ring = (s.bounds b).ring
  fstSide : (s'.bounds a).side = (s.bounds b).side
  snd : (s'.bounds b).ring = (s.bounds a).ring
  sndSide : (s'.bounds b).side = (s.bounds a).side
  rest : ∀ c, c ≠ a → c ≠ b → core (s'.bounds c) = core (s.bounds c)

/-- The two bounds lose their rings. If they are different, `remove` is joined to `keep`: the first active bound attached
to `remove` is attached to `keep`, with the side of the bound of `keep` that ends. -/
structure Closed2 (s s' : St) (a b : Nat) : Prop where
  frame : Frame s s'
  nr : s'.nr = s.nr
  fst : (s'.bounds a).ring = none
  snd : (s'.bounds b).ring = none
  rest : ((s.bounds a).ring = (s.bounds b).ring ∧ ∀ c, c ≠ a → c ≠ b → core (s'.bounds c) = core (s.bounds c))
    ∨ ∃ k r keep remove, (s.bounds k).ring = some keep ∧ (s.bounds r).ring = some remove ∧ keep ≠ remove
      ∧ ((k = a ∧ r = b) ∨ (k = b ∧ r = a))
      ∧ ((∃ d, some d ∈ s.abl ∧ d ≠ a ∧ d ≠ b ∧ (s.bounds d).ring = some remove ∧ (s'.bounds d).ring = some keep
            ∧ (s'.bounds d).side = (s.bounds k).side
            ∧ ∀ c, c ≠ a → c ≠ b → c ≠ d → core (s'.bounds c) = core (s.bounds c))
        ∨ ((∀ d, some d ∈ s.abl → d ≠ a → d ≠ b → (s.bounds d).ring ≠ some remove)
            ∧ ∀ c, c ≠ a → c ≠ b → core (s'.bounds c) = core (s.bounds c)))

theorem addPoint_same {s : St} {b : Nat} {p : Point} (h : (s.bounds b).ring.isSome) : Ok (addPoint b p) s fun _ s' => Same s s' := by
  unfold addPoint
  refine Post.bind (Post.getBound ?_)
  refine Post.ite (fun e => ?_) fun _ => ?_
  · rw [e] at h; simp at h
  · exact (Post.of_pres (R := Same) inferInstance).mono (fun _ _ h => h) fun _ _ _ => trivial

theorem modBound_core (s : St) (b : Nat) (f : Bound → Bound) (c : Nat) :
    core (({ s with bounds := upd s.bounds b (f (s.bounds b)) } : St).bounds c)
      = if c = b then core (f (s.bounds b)) else core (s.bounds c) := by
  show core (upd _ _ _ c) = _
  split
  · next h => subst h; rw [upd_same]
  · next h => rw [upd_ne _ _ h]

theorem addFirstPoint_ok (s : St) (b : Nat) (p : Point) : Ok (addFirstPoint b p) s fun _ s' =>
    s'.abl = s.abl ∧ s'.nr = s.nr + 1
      ∧ ∀ c, core (s'.bounds c) = if c = b then { core (s.bounds b) with ring := some s.nr } else core (s.bounds c) := by
  unfold addFirstPoint createRing
  refine Post.bind ?_
  refine Post.bind (Post.modBound ?_)
  refine Post.imp (Post.mono (Post.of_pres (R := Same) ?_) (fun _ _ h => h) fun _ _ _ => trivial) fun _ s' hs => ?_
  · pres
  refine ⟨hs.abl, hs.nr, fun c => ?_⟩
  rw [hs.core c]
  exact modBound_core _ b (fun bd => { bd with ring := some s.nr }) c

/-- What changes of the cores, as a function. -/
theorem addLocalMinimumPoint_ok (s : St) (p : Point) {a b : Nat} (hab : a ≠ b) (ha : (s.bounds a).ring = none)
    (hb : (s.bounds b).ring = none) : Ok (addLocalMinimumPoint p a b) s fun _ s' => Opened s s' a b := by
  have key : ∀ (x y : Nat) (sx sy : EdgeSide) (s1 s' : St), x ≠ y → sx ≠ sy → (s.bounds x).ring = none →
      s1.abl = s.abl ∧ s1.nr = s.nr + 1
      ∧ (∀ c, core (s1.bounds c) = if c = x then { core (s.bounds x) with ring := some s.nr } else core (s.bounds c)) →
      s'.abl = s1.abl → s'.nr = s1.nr →
      (∀ c, core (s'.bounds c) = if c = y then { core (s1.bounds y) with ring := (s1.bounds x).ring, side := sy }
        else if c = x then { core (s1.bounds x) with side := sx } else core (s1.bounds c)) → Opened s s' x y := by
    intro x y sx sy s1 s' hxy hs hx ⟨h1, h2, h3⟩ h4 h5 h6
    have ex := h6 x
    have ey := h6 y
    have e1 := h3 x
    have e2 := h3 y
    rw [if_pos rfl] at e1
    rw [if_neg hxy.symm] at e2
    rw [if_neg hxy, if_pos rfl, e1] at ex
    have er : (s1.bounds x).ring = some s.nr := congrArg Core.ring e1
    rw [if_pos rfl, e2, er] at ey
    refine ⟨⟨h4.trans h1, by omega, fun c => ?_⟩, by omega, congrArg Core.ring ex, congrArg Core.ring ey, ?_, ?_⟩
    · by_cases hcx : c = x
      · subst hcx
        rw [ex]
        have e := congrArg Core.ring ex
        have e' := congrArg Core.side ex
        simp only [core] at e e' ⊢
        rw [e, e']
      · by_cases hcy : c = y
        · subst hcy
          rw [ey]
          have e := congrArg Core.ring ey
          have e' := congrArg Core.side ey
          simp only [core] at e e' ⊢
          rw [e, e']
        · have := h6 c
          rw [if_neg hcy, if_neg hcx, h3 c, if_neg hcx] at this
          rw [this]
          have e := congrArg Core.ring this
          have e' := congrArg Core.side this
          simp only [core] at e e' ⊢
          rw [e, e']
    · have e := congrArg Core.side ex
      have e' := congrArg Core.side ey
      simp only [core] at e e'
      rw [e, e']; exact hs
    · intro c hcx hcy
      have := h6 c
      rw [if_neg hcy, if_neg hcx, h3 c, if_neg hcx] at this
      exact this
  have hadd : ∀ x, (s.bounds x).ring = none → Ok (addPoint x p) s fun _ s' =>
      s'.abl = s.abl ∧ s'.nr = s.nr + 1
      ∧ ∀ c, core (s'.bounds c) = if c = x then { core (s.bounds x) with ring := some s.nr } else core (s.bounds c) := by
    intro x hx
    unfold addPoint
    refine Post.bind (Post.getBound ?_)
    rw [if_pos hx]
    exact addFirstPoint_ok s x p
  unfold addLocalMinimumPoint
  refine Post.bind ((Post.of_pres (R := Eq) inferInstance).mono (fun _ s' e => ?_) fun _ _ _ => trivial)
  subst e
  refine Post.bind ((Post.of_pres (R := Eq) (by pres)).mono (fun _ s' e => ?_) fun _ _ _ => trivial)
  subst e
  refine Post.ite (fun _ => ?_) fun _ => ?_
  · refine Post.bind ((hadd a ha).imp fun _ s1 h1 => ?_)
    refine Post.bind (Post.getBound ?_)
    refine Post.bind (Post.modBound ?_)
    refine Post.bind (Post.modBound ?_)
    refine Post.modBound ?_
    refine key a b .left .right s1 _ hab (by decide) ha h1 rfl rfl fun c => ?_
    simp only [upd]
    by_cases e : c = b
    · subst e; simp [hab.symm, core]
    · by_cases e' : c = a
      · subst e'; simp [hab, core]
      · simp [e, e']
  · refine Post.bind ((hadd b hb).imp fun _ s1 h1 => ?_)
    refine Post.bind (Post.getBound ?_)
    refine Post.bind (Post.modBound ?_)
    refine Post.bind (Post.modBound ?_)
    refine Post.modBound ?_
    have flip : ∀ t, Opened s t b a → Opened s t a b := fun t this =>
      ⟨this.frame, this.nr, this.snd, this.fst, this.sides.symm, fun c h1 h2 => this.rest c h2 h1⟩
    apply flip
    refine key b a .left .right s1 _ hab.symm (by decide) hb h1 rfl rfl fun c => ?_
    simp only [upd]
    by_cases e : c = a
    · subst e; simp [hab, core]
    · by_cases e' : c = b
      · subst e'; simp [hab.symm, core]
      · simp [e, e']

theorem swapRings_ok (s : St) {a b : Nat} (hab : a ≠ b) : Ok (swapRings a b) s fun _ s' => Exchanged s s' a b := by
  unfold swapRings
  refine Post.bind (Post.getBound (Post.bind (Post.getBound ?_)))
  refine Post.bind (Post.modBound (Post.bind (Post.modBound (Post.bind (Post.modBound (Post.modBound ?_))))))
  have hc : ∀ c, core ((upd (upd (upd (upd s.bounds a { s.bounds a with side := (s.bounds b).side }) b
      { upd s.bounds a { s.bounds a with side := (s.bounds b).side } b with side := (s.bounds a).side }) a
      { upd (upd s.bounds a { s.bounds a with side := (s.bounds b).side }) b
      { upd s.bounds a { s.bounds a with side := (s.bounds b).side } b with side := (s.bounds a).side } a with ring := (s.bounds b).ring }) b
      { upd (upd (upd s.bounds a { s.bounds a with side := (s.bounds b).side }) b
      { upd s.bounds a { s.bounds a with side := (s.bounds b).side } b with side := (s.bounds a).side }) a
      { upd (upd s.bounds a { s.bounds a with side := (s.bounds b).side }) b
      { upd s.bounds a { s.bounds a with side := (s.bounds b).side } b with side := (s.bounds a).side } a with ring := (s.bounds b).ring } b with ring := (s.bounds a).ring }) c)
      = if c = b then { core (s.bounds b) with ring := (s.bounds a).ring, side := (s.bounds a).side }
        else if c = a then { core (s.bounds a) with ring := (s.bounds b).ring, side := (s.bounds b).side } else core (s.bounds c) := by
    intro c
    simp only [upd]
    by_cases e : c = b
    · subst e; simp [hab.symm, core]
    · by_cases e' : c = a
      · subst e'; simp [hab, core]
      · simp [e, e']
  have ea := hc a
  have eb := hc b
  rw [if_neg hab, if_pos rfl] at ea
  rw [if_pos rfl] at eb
  refine ⟨⟨rfl, le_refl _, fun c => ?_⟩, rfl, congrArg Core.ring ea, congrArg Core.side ea, congrArg Core.ring eb, congrArg Core.side eb,
    fun c h1 h2 => by have := hc c; rw [if_neg h2, if_neg h1] at this; exact this⟩
  by_cases h : c = b
  · subst h; exact frame_core eb
  · by_cases h' : c = a
    · subst h'; exact frame_core ea
    · have := hc c
      rw [if_neg h, if_neg h'] at this
      exact frame_core (r := (s.bounds c).ring) (sd := (s.bounds c).side) this

theorem reattach_ok (remove keep kb : Nat) : ∀ (l : List (Option Nat)) (s : St), Ok (reattach remove keep kb l) s fun _ s' =>
    s'.abl = s.abl ∧ s'.nr = s.nr
      ∧ ((∃ d, some d ∈ l ∧ (s.bounds d).ring = some remove
          ∧ ∀ c, core (s'.bounds c) = if c = d then { core (s.bounds d) with ring := some keep, side := (s.bounds kb).side }
              else core (s.bounds c))
        ∨ ((∀ d, some d ∈ l → (s.bounds d).ring ≠ some remove) ∧ ∀ c, core (s'.bounds c) = core (s.bounds c)))
  | [], s => by
    exact ⟨rfl, rfl, Or.inr ⟨fun d hd => by simp at hd, fun _ => rfl⟩⟩
  | none :: l, s => by
    rw [reattach]
    refine (reattach_ok remove keep kb l s).imp ?_
    rintro _ s' ⟨h1, h2, h3⟩
    refine ⟨h1, h2, ?_⟩
    rcases h3 with ⟨d, hd, h⟩ | ⟨h, h'⟩
    · exact Or.inl ⟨d, by simp [hd], h⟩
    · exact Or.inr ⟨fun d hd => h d (by simpa using hd), h'⟩
  | some b :: l, s => by
    rw [reattach]
    refine Post.bind (Post.getBound ?_)
    refine Post.ite (fun e => ?_) fun e => ?_
    · refine Post.bind (Post.getBound (Post.modBound ?_))
      refine ⟨rfl, rfl, Or.inl ⟨b, by simp, e, fun c => ?_⟩⟩
      exact modBound_core s b (fun bd => { bd with ring := some keep, side := (s.bounds kb).side }) c
    · refine (reattach_ok remove keep kb l s).imp ?_
      rintro _ s' ⟨h1, h2, h3⟩
      refine ⟨h1, h2, ?_⟩
      rcases h3 with ⟨d, hd, h⟩ | ⟨h, h'⟩
      · exact Or.inl ⟨d, by simp [hd], h⟩
      · refine Or.inr ⟨fun d hd => ?_, h'⟩
        rcases List.mem_cons.1 hd with hd | hd
        · cases hd; exact e
        · exact h d hd

theorem appendRing_ok (s : St) {a b ra rb : Nat} (hab : a ≠ b) (ha : (s.bounds a).ring = some ra)
    (hb : (s.bounds b).ring = some rb) (hr : ra ≠ rb) : Ok (appendRing a b) s fun _ s' => Closed2 s s' a b := by
  unfold appendRing
  refine Post.bind (Post.getBound (Post.bind ?_))
  rw [ha]
  refine Post.deref (fun x e => ?_) fun e => trivial
  obtain rfl := Option.some.inj e
  refine Post.bind (Post.getBound (Post.bind ?_))
  rw [hb]
  refine Post.deref (fun x e => ?_) fun e => trivial
  obtain rfl := Option.some.inj e
  have tail : ∀ (k r keep remove : Nat) (s1 : St), Same s s1 → (k = a ∧ r = b) ∨ (k = b ∧ r = a) →
      (s.bounds k).ring = some keep → (s.bounds r).ring = some remove → keep ≠ remove →
      Ok (do
        modBound r fun bd => { bd with ring := none }
        modBound k fun bd => { bd with ring := none }
        let abl ← gets St.abl
        reattach remove keep k abl) s1 fun _ s' => Closed2 s s' a b := by
    intro k r keep remove s1 hs hkr hk hr' hne
    have hkr' : k ≠ r := by rcases hkr with ⟨rfl, rfl⟩ | ⟨rfl, rfl⟩ <;> [exact hab; exact hab.symm]
    refine Post.bind (Post.modBound (Post.bind (Post.modBound (Post.bind (Post.gets ?_)))))
    refine (reattach_ok remove keep k _ _).imp ?_
    rintro _ s' ⟨h1, h2, h3⟩
    have hc2 : ∀ c, core ((upd (upd s1.bounds r { s1.bounds r with ring := none }) k
        { upd s1.bounds r { s1.bounds r with ring := none } k with ring := none }) c)
        = if c = k ∨ c = r then { core (s.bounds c) with ring := none } else core (s.bounds c) := by
      intro c
      simp only [upd]
      have := hs.core c
      by_cases e : c = k
      · subst e
        simp only [if_true, true_or, hkr', if_false]
        rw [← this]; rfl
      · by_cases e' : c = r
        · subst e'
          simp only [if_true, or_true, e, if_false]
          rw [← this]; rfl
        · simp only [e, e', if_false, or_self]; exact this
    have hmem : ∀ c, (c = k ∨ c = r) ↔ (c = a ∨ c = b) := by
      intro c; rcases hkr with ⟨rfl, rfl⟩ | ⟨rfl, rfl⟩
      · exact Iff.rfl
      · exact or_comm
    simp only [hmem] at hc2
    have hside : (upd (upd s1.bounds r { s1.bounds r with ring := none }) k
        { upd s1.bounds r { s1.bounds r with ring := none } k with ring := none } k).side = (s.bounds k).side := by
      have := congrArg Core.side (hc2 k)
      rw [if_pos ((hmem k).1 (Or.inl rfl))] at this
      exact this
    have habl : s1.abl = s.abl := hs.abl
    have hnr : s'.nr = s.nr := h2.trans hs.nr
    rcases h3 with ⟨d, hd, hdr, h⟩ | ⟨hn, h⟩
    · have hdn : ¬ (d = a ∨ d = b) := by
        intro hh
        have := congrArg Core.ring (hc2 d)
        rw [if_pos hh] at this
        have h5 : (none : Option Nat) = some remove := this.symm.trans hdr
        cases h5
      push Not at hdn
      have hd0 := hc2 d
      rw [if_neg (by push Not; exact hdn)] at hd0
      have hcc : ∀ c, core (s'.bounds c) = if c = d then { core (s.bounds d) with ring := some keep, side := (s.bounds k).side }
          else if c = a ∨ c = b then { core (s.bounds c) with ring := none } else core (s.bounds c) := by
        intro c
        rw [h c]
        split
        · rw [hside, hd0]
        · exact hc2 c
      have ed := hcc d
      rw [if_pos rfl] at ed
      refine ⟨⟨h1.trans habl, hnr.ge, fun c => ?_⟩, hnr, ?_, ?_, Or.inr ⟨k, r, keep, remove, hk, hr', hne, hkr, Or.inl
        ⟨d, by rw [← habl]; exact hd, hdn.1, hdn.2, (congrArg Core.ring hd0).symm.trans hdr, congrArg Core.ring ed,
          congrArg Core.side ed, fun c h1 h2 h3 => ?_⟩⟩⟩
      · have := hcc c
        split at this
        · next e => subst e; exact frame_core this
        · split at this
          · exact frame_core (sd := (s.bounds c).side) this
          · exact frame_core (r := (s.bounds c).ring) (sd := (s.bounds c).side) this
      · have := hcc a
        rw [if_neg hdn.1.symm, if_pos (Or.inl rfl)] at this
        exact congrArg Core.ring this
      · have := hcc b
        rw [if_neg hdn.2.symm, if_pos (Or.inr rfl)] at this
        exact congrArg Core.ring this
      · have := hcc c
        rw [if_neg h3, if_neg (by push Not; exact ⟨h1, h2⟩)] at this
        exact this
    · have hcc : ∀ c, core (s'.bounds c) = if c = a ∨ c = b then { core (s.bounds c) with ring := none } else core (s.bounds c) :=
        fun c => (h c).trans (hc2 c)
      refine ⟨⟨h1.trans habl, hnr.ge, fun c => ?_⟩, hnr, ?_, ?_, Or.inr ⟨k, r, keep, remove, hk, hr', hne, hkr, Or.inr
        ⟨fun d hd hda hdb hdr => ?_, fun c h1 h2 => ?_⟩⟩⟩
      · have := hcc c
        split at this
        · exact frame_core (sd := (s.bounds c).side) this
        · exact frame_core (r := (s.bounds c).ring) (sd := (s.bounds c).side) this
      · have := hcc a
        rw [if_pos (Or.inl rfl)] at this
        exact congrArg Core.ring this
      · have := hcc b
        rw [if_pos (Or.inr rfl)] at this
        exact congrArg Core.ring this
      · have := hc2 d
        rw [if_neg (by push Not; exact ⟨hda, hdb⟩)] at this
        exact hn d (by show some d ∈ s1.abl; rw [habl]; exact hd) ((congrArg Core.ring this).trans hdr)
      · have := hcc c
        rw [if_neg (by push Not; exact ⟨h1, h2⟩)] at this
        exact this
  have hch : Ok (chooseKeep a b ra rb) s fun q s' => Same s s' ∧ (q = (ra, rb, a, b) ∨ q = (rb, ra, b, a)) := by
    refine Post.and (Q' := fun q _ => q = (ra, rb, a, b) ∨ q = (rb, ra, b, a)) ?_ ?_
    · exact (Post.of_pres (R := Same) inferInstance).mono (fun _ _ h => h) fun _ _ _ => trivial
    · exact (chooseKeep_ok a b ra rb s).imp fun _ _ h => h.2
  refine Post.bind (hch.imp ?_)
  rintro ⟨keep, remove, k, r⟩ s1 ⟨hs1, hq⟩
  have hq' : ((k = a ∧ r = b) ∨ (k = b ∧ r = a)) ∧ (s.bounds k).ring = some keep ∧ (s.bounds r).ring = some remove ∧ keep ≠ remove := by
    rcases hq with e | e <;> obtain ⟨rfl, rfl, rfl, rfl⟩ := (by simpa using e : _ ∧ _ ∧ _ ∧ _)
    · exact ⟨Or.inl ⟨rfl, rfl⟩, ha, hb, hr⟩
    · exact ⟨Or.inr ⟨rfl, rfl⟩, hb, ha, hr.symm⟩
  obtain ⟨h1, h2, h3, h4⟩ := hq'
  dsimp only
  refine Ok.same fun _ s2 hs2 => Ok.same fun _ s3 hs3 => Ok.same fun _ s4 hs4 => Ok.same fun _ s5 hs5 => Ok.same fun _ s6 hs6 =>
    Ok.same fun _ s7 hs7 => Ok.same fun _ s8 hs8 => ?_
  have hs := hs1.trans (hs2.trans (hs3.trans (hs4.trans (hs5.trans (hs6.trans (hs7.trans hs8))))))
  refine Post.ite (fun _ => ?_) fun _ => ?_
  · refine Ok.same fun _ s9 hs9 => Ok.same fun _ s10 hs10 => Ok.same fun _ s11 hs11 => ?_
    exact tail k r keep remove s11 (hs.trans (hs9.trans (hs10.trans hs11))) h1 h2 h3 h4
  · refine Ok.same fun _ s9 hs9 => Ok.same fun _ s10 hs10 => ?_
    exact tail k r keep remove s10 (hs.trans (hs9.trans hs10)) h1 h2 h3 h4

end Wagyu
