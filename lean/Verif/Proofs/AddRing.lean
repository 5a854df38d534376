import Verif.Model.Wagyu

namespace Wagyu

theorem popLoop_eq_nil {α : Type} (n : Nat) (l : List α) (h : l.length < n) : popLoop n l = [] := by
  induction n generalizing l with
  | zero => omega
  | succ n ih =>
    rcases List.eq_nil_or_concat l with rfl | ⟨l, a, rfl⟩
    · rfl
    · have hg : pyGet (l ++ [a]) (-1) = some a := by
        have : (-1 + ((l.length : Int) + 1)).toNat = l.length := by omega
        simp [pyGet, this]
        omega
      simp only [List.concat_eq_append] at h ⊢
      unfold popLoop
      rw [hg]
      simp only
      apply ih
      simp at h ⊢
      rw [List.length_eraseIdx]; simp; omega

theorem clear_eq_new (w : Wagyu) : w.clear = Wagyu.new w.reverseOutput := by
  simp [Wagyu.clear, popLoop_eq_nil, Wagyu.new]

/-- `m'` extends `m`. -/
def MExtends (m m' : Minimums) : Prop :=
  (∃ added, m'.values = m.values ++ added) ∧ m.nb ≤ m'.nb ∧ ∀ b < m.nb, m'.bounds b = m.bounds b

theorem MExtends.refl (m : Minimums) : MExtends m m := ⟨⟨[], by simp⟩, Nat.le_refl _, fun _ _ => rfl⟩

theorem MExtends.trans {a b c : Minimums} (h : MExtends a b) (k : MExtends b c) : MExtends a c := by
  obtain ⟨⟨x, hx⟩, h1, h2⟩ := h
  obtain ⟨⟨y, hy⟩, k1, k2⟩ := k
  refine ⟨⟨x ++ y, by rw [hy, hx, List.append_assoc]⟩, by omega, fun i hi => ?_⟩
  rw [k2 i (by omega), h2 i hi]

theorem MExtends.length_le {m m' : Minimums} (h : MExtends m m') : m.values.length ≤ m'.values.length := by
  obtain ⟨⟨x, hx⟩, _, _⟩ := h
  simp [hx]

theorem upd_same {α : Type} (f : Nat → α) (i : Nat) (v : α) : upd f i v i = v := by simp [upd]
theorem upd_other {α : Type} (f : Nat → α) (i j : Nat) (v : α) (h : j ≠ i) : upd f i v j = f j := by simp [upd, h]

/-- What `addLoop` does to the stored geometry, relative to the object `base` the ring is being added to. -/
theorem addLoop_spec (kind : PolygonKind) (base : Minimums) (fuel : Nat) (edges : List Edge)
    (first last : Option Nat) (m : Minimums)
    (hm : MExtends base m)
    (hf : ∀ i, first = some i → base.nb ≤ i ∧ i < m.nb)
    (hl : ∀ i, last = some i → base.nb ≤ i ∧ i < m.nb)
    (hfl : first.isSome = last.isSome)
    (hg : last.isSome → base.values.length < m.values.length) :
    MExtends base (addLoop kind fuel edges first last m).1
    ∧ (∀ f l, (addLoop kind fuel edges first last m).2 = .ok (f, l) →
        (∀ i, f = some i → base.nb ≤ i ∧ i < (addLoop kind fuel edges first last m).1.nb)
        ∧ (∀ i, l = some i → base.nb ≤ i ∧ i < (addLoop kind fuel edges first last m).1.nb)
        ∧ f.isSome = l.isSome
        ∧ (l.isSome → base.values.length < (addLoop kind fuel edges first last m).1.values.length)) := by
  induction fuel generalizing edges first last m with
  | zero =>
    cases edges with
    | nil => 
      refine ⟨hm, ?_⟩
      rintro f l h
      simp only [addLoop, Except.ok.injEq, Prod.mk.injEq] at h
      obtain ⟨rfl, rfl⟩ := h
      exact ⟨hf, hl, hfl, hg⟩
    | cons e es => exact ⟨hm, by rintro f l h; simp [addLoop] at h⟩
  | succ fuel ih =>
    unfold addLoop
    cases edges with
    | nil =>
      refine ⟨hm, ?_⟩
      rintro f l h
      simp only [Except.ok.injEq, Prod.mk.injEq] at h
      obtain ⟨rfl, rfl⟩ := h
      exact ⟨hf, hl, hfl, hg⟩
    | cons e es =>
      simp only
      split
      · exact ⟨hm, by rintro f l h; simp at h⟩
      · split
        · exact ⟨hm, by rintro f l h; simp at h⟩
        · split
          · split
            · exact ⟨hm, by rintro f l h; simp at h⟩
            · apply ih
              · obtain ⟨⟨x, hx⟩, h1, h2⟩ := hm
                refine ⟨⟨x ++ _, by simp only [hx, List.append_assoc]; rfl⟩, by simp; omega, fun i hi => ?_⟩
                simp only
                split
                · rw [upd_other _ _ _ _ (by omega), upd_other _ _ _ _ (by omega), h2 i hi]
                · next l =>
                  have := hl l rfl
                  rw [upd_other _ _ _ _ (by omega), upd_other _ _ _ _ (by omega), upd_other _ _ _ _ (by omega), h2 i hi]
              · intro i hi
                split at hi
                · simp only [Option.some.injEq] at hi
                  have := hm.2.1
                  simp only; omega
                · have := hf i hi
                  simp only; omega
              · intro i hi
                simp only [Option.some.injEq] at hi
                have := hm.2.1
                simp only; omega
              · split
                · rfl
                · rw [hfl]; rfl
              · intro _
                have := hm.length_le
                simp only [List.length_append, List.length_cons, List.length_nil]; omega
          · exact ⟨hm, by rintro f l h; simp at h⟩

theorem addLinearRing_spec (fuel : Nat) (m : Minimums) (ring : List Point) (kind : PolygonKind) :
    MExtends m (m.addLinearRing fuel ring kind).1
      ∧ ((m.addLinearRing fuel ring kind).2 = .ok false → (m.addLinearRing fuel ring kind).1 = m)
      ∧ ((m.addLinearRing fuel ring kind).2 = .ok true →
          m.values.length < (m.addLinearRing fuel ring kind).1.values.length) := by
  unfold Minimums.addLinearRing
  cases edgesOf fuel ring with
  | error e => exact ⟨MExtends.refl m, by simp, by simp⟩
  | ok l =>
    cases l with
    | nil => exact ⟨MExtends.refl m, by simp, by simp⟩
    | cons e es =>
      simp only
      have key := addLoop_spec kind m (toEdgesStartingOnLocalMaximum (e :: es)).length
        (toEdgesStartingOnLocalMaximum (e :: es)) none none m (MExtends.refl m) (by simp) (by simp) rfl (by simp)
      revert key
      generalize addLoop kind (toEdgesStartingOnLocalMaximum (e :: es)).length
        (toEdgesStartingOnLocalMaximum (e :: es)) none none m = r
      intro key
      obtain ⟨m', r⟩ := r
      simp only at key
      split
      · next heq =>
        cases heq
        exact ⟨key.1, by simp, by simp⟩
      · next first last heq =>
        cases heq
        obtain ⟨k1, k2⟩ := key
        obtain ⟨ha, hb, _, hc⟩ := k2 _ _ rfl
        have ha := ha _ rfl
        have hb := hb _ rfl
        refine ⟨⟨k1.1, k1.2.1, fun i hi => ?_⟩, by simp, fun _ => hc rfl⟩
        simp only
        rw [upd_other _ _ _ _ (by omega), upd_other _ _ _ _ (by omega), k1.2.2 i hi]
      · next x heq =>
        cases heq
        exact ⟨key.1, by simp, by simp⟩

/-- `w'` is `w` with local minima appended. -/
def WExtends (w w' : Wagyu) : Prop :=
  w'.reverseOutput = w.reverseOutput
    ∧ (∃ added, w'.minimums.values = w.minimums.values ++ added)
    ∧ w.minimums.nb ≤ w'.minimums.nb
    ∧ ∀ b < w.minimums.nb, w'.minimums.bounds b = w.minimums.bounds b

theorem Wagyu.addLinearRing_extends (fuel : Nat) (w : Wagyu) (ring : LinearRing) (kind : PolygonKind) :
    WExtends w (w.addLinearRing fuel ring kind).1 :=
  ⟨rfl, (addLinearRing_spec fuel w.minimums ring kind).1⟩

theorem Wagyu.addLinearRing_ok {fuel : Nat} {w w' : Wagyu} {ring : LinearRing} {kind : PolygonKind} {b : Bool}
    (h : w.addLinearRing fuel ring kind = (w', .ok b)) :
    WExtends w w' ∧ (b = true ↔ w.minimums.values.length < w'.minimums.values.length) ∧ (b = false → w' = w) := by
  have e := Wagyu.addLinearRing_extends fuel w ring kind
  rw [h] at e
  have s := addLinearRing_spec fuel w.minimums ring kind
  unfold Wagyu.addLinearRing at h
  generalize w.minimums.addLinearRing fuel ring kind = r at h s
  obtain ⟨m, r⟩ := r
  simp only [Prod.mk.injEq] at h
  obtain ⟨rfl, rfl⟩ := h
  refine ⟨e, ?_, ?_⟩
  · cases b with
    | false => have := s.2.1 rfl; simp only at this; subst this; simp
    | true => exact ⟨fun _ => s.2.2 rfl, fun _ => rfl⟩
  · rintro rfl
    have := s.2.1 rfl; simp only at this; subst this; rfl

theorem Wagyu.addLinearRing_false {fuel : Nat} {w w' : Wagyu} {ring : LinearRing} {kind : PolygonKind}
    (h : w.addLinearRing fuel ring kind = (w', .ok false)) : w' = w := (Wagyu.addLinearRing_ok h).2.2 rfl

theorem WExtends.refl (w : Wagyu) : WExtends w w := ⟨rfl, MExtends.refl _⟩
theorem WExtends.trans {a b c : Wagyu} (h : WExtends a b) (k : WExtends b c) : WExtends a c :=
  ⟨k.1.trans h.1, MExtends.trans h.2 k.2⟩

theorem Wagyu.addPolygonFrom_extends (fuel : Nat) (result : Bool) (w : Wagyu) (polygon : Polygon)
    (kind : PolygonKind) : WExtends w (w.addPolygonFrom fuel result kind polygon).1 := by
  induction polygon generalizing w result with
  | nil => exact WExtends.refl w
  | cons ring rings ih =>
    have e := Wagyu.addLinearRing_extends fuel w ring kind
    unfold Wagyu.addPolygonFrom
    split
    · next heq => rw [heq] at e; exact e
    · next heq => rw [heq] at e; exact e.trans (ih _ _)

theorem Wagyu.addPolygon_extends (fuel : Nat) (w : Wagyu) (polygon : Polygon) (kind : PolygonKind) :
    WExtends w (w.addPolygon fuel polygon kind).1 := Wagyu.addPolygonFrom_extends fuel false w polygon kind

theorem Wagyu.addPolygonFrom_ok (fuel : Nat) (result : Bool) (w w' : Wagyu) (polygon : Polygon)
    (kind : PolygonKind) (b : Bool) (h : w.addPolygonFrom fuel result kind polygon = (w', .ok b)) :
    (b = true ↔ result = true ∨ w.minimums.values.length < w'.minimums.values.length)
      ∧ (b = false → w' = w)
      ∧ w' = polygon.foldl (fun w ring => (w.addLinearRing fuel ring kind).1) w := by
  induction polygon generalizing w result with
  | nil =>
    simp only [addPolygonFrom, Prod.mk.injEq, Except.ok.injEq] at h
    obtain ⟨rfl, rfl⟩ := h
    simp
  | cons ring rings ih =>
    unfold Wagyu.addPolygonFrom at h
    split at h
    · cases h
    · next w1 b1 heq =>
      have o := Wagyu.addLinearRing_ok heq
      have i := ih _ _ h
      have ext := Wagyu.addPolygonFrom_extends fuel (if b1 && !result then true else result) w1 rings kind
      rw [h] at ext
      have l1 := MExtends.length_le o.1.2
      have l2 := MExtends.length_le ext.2
      simp only at l2
      simp only [List.foldl_cons, heq]
      refine ⟨?_, ?_, i.2.2⟩
      · rw [i.1]
        have := o.2.1
        cases result <;> cases b1 <;> simp at this ⊢ <;> omega
      · rintro rfl
        have hw := i.2.1 rfl
        rw [hw]
        apply o.2.2
        have := i.1
        cases result <;> cases b1 <;> simp at this ⊢

theorem Wagyu.addPolygon_ok {fuel : Nat} {w w' : Wagyu} {polygon : Polygon} {kind : PolygonKind} {b : Bool}
    (h : w.addPolygon fuel polygon kind = (w', .ok b)) :
    WExtends w w' ∧ (b = true ↔ w.minimums.values.length < w'.minimums.values.length) ∧ (b = false → w' = w)
      ∧ w' = polygon.foldl (fun w ring => (w.addLinearRing fuel ring kind).1) w := by
  have e := Wagyu.addPolygon_extends fuel w polygon kind
  rw [h] at e
  have := Wagyu.addPolygonFrom_ok fuel false w w' polygon kind b h
  exact ⟨e, by simpa using this.1, this.2⟩

theorem Wagyu.addPolygon_false {fuel : Nat} {w w' : Wagyu} {polygon : Polygon} {kind : PolygonKind}
    (h : w.addPolygon fuel polygon kind = (w', .ok false)) : w' = w := (Wagyu.addPolygon_ok h).2.2.1 rfl

end Wagyu
