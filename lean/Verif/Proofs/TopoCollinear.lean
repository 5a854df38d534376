import Verif.Proofs.TopoSearch

/-!
# Collinear edges
-/

namespace Wagyu

open Spec

section
variable {s s' : St} {L L' : Nat → List Nat} {E : Err → Prop}

theorem take_drop_cons {l : List Nat} {k m : Nat} (hk : k < l.length) (hm : 0 < m) : ∃ t, (l.drop k).take m = l[k] :: t := by
  rw [List.drop_eq_getElem_cons hk]
  obtain ⟨m, rfl⟩ : ∃ j, m = j + 1 := ⟨m - 1, by omega⟩
  exact ⟨_, List.take_succ_cons⟩

/-- A ring is cut at four places. -/
theorem four_parts {l : List Nat} {w : Nat → Nat} {i j p q : Nat} (hw : ∀ k (hk : k < l.length), w k = l[k]) (hN : ∀ h : 0 < l.length, w l.length = l[0])
    (hij : i ≤ j) (hjp : j < p) (hpq : p ≤ q) (hq : q ≤ l.length) (hA2 : q < l.length ∨ 0 < i) :
    ∃ a1 t1 R1 a2 t2 R2, (a1 :: t1 ++ R1 ++ (a2 :: t2 ++ R2)) ~r l ∧ a1 = w j ∧ R1.headD a2 = w p ∧ a2 = w q ∧ R2.headD a1 = w i := by
  have e1 : l = l.take i ++ (l.drop i).take (j - i) ++ ((l.drop j).take (p - j) ++ (l.drop p).take (q - p) ++ l.drop q) := by
    conv_lhs => rw [← List.take_append_drop i l, ← List.take_append_drop (j - i) (l.drop i), List.drop_drop, ← List.take_append_drop (p - j) (l.drop (i + (j - i))),
      List.drop_drop, ← List.take_append_drop (q - p) (l.drop (i + (j - i) + (p - j))), List.drop_drop]
    rw [show i + (j - i) = j by omega, show j + (p - j) = p by omega, show p + (q - p) = q by omega]
    simp
  obtain ⟨t1, ht1⟩ := take_drop_cons (l := l) (k := j) (m := p - j) (by omega) (by omega)
  obtain ⟨t2, ht2⟩ : ∃ t2, l.drop q ++ l.take i = w q :: t2 := by
    by_cases hqN : q < l.length
    · rw [List.drop_eq_getElem_cons hqN, hw q hqN]; exact ⟨_, rfl⟩
    · have hqe : q = l.length := by omega
      have h0 : 0 < l.length := by omega
      obtain ⟨t, ht⟩ := take_drop_cons (l := l) (k := 0) (m := i) h0 (by omega)
      simp only [List.drop_zero] at ht
      rw [ht, hqe, List.drop_length, hN h0]
      exact ⟨t, rfl⟩
  refine ⟨w j, t1, (l.drop p).take (q - p), w q, t2, (l.drop i).take (j - i), ?_, rfl, ?_, rfl, ?_⟩
  · rw [hw j (by omega), ← ht1, ← ht2]
    have h1 : ((l.drop j).take (p - j) ++ (l.drop p).take (q - p) ++ (l.drop q ++ l.take i ++ (l.drop i).take (j - i))) ~r
        (l.take i ++ (l.drop i).take (j - i) ++ ((l.drop j).take (p - j) ++ (l.drop p).take (q - p) ++ l.drop q)) := by
      have := List.isRotated_append (l := (l.drop j).take (p - j) ++ (l.drop p).take (q - p) ++ l.drop q) (l' := l.take i ++ (l.drop i).take (j - i))
      simpa using this
    rw [← e1] at h1
    exact h1
  · by_cases hpq' : p = q
    · subst hpq'; simp
    · obtain ⟨t, ht⟩ := take_drop_cons (l := l) (k := p) (m := q - p) (by omega) (by omega)
      rw [ht, hw p (by omega)]; rfl
  · by_cases hij' : i = j
    · subst hij'; simp
    · obtain ⟨t, ht⟩ := take_drop_cons (l := l) (k := i) (m := j - i) (by omega) (by omega)
      rw [ht, hw i (by omega)]; rfl

theorem Trail.shift {h : Nat → Node} {w : Nat → Nat} {n m c : Nat} (ht : Trail h w n) (hc : c + m ≤ n) : Trail h (fun k => w (c + k)) m :=
  fun k hk => by have := ht (c + k) (by omega); exact this

/-- `find_start_and_end_of_collinear_edges` on one ring. -/
theorem ends_findStart_same (h : Own s L) {r a b : Nat} (hab : a ≠ b) (ha : a ∈ L r) (hb : b ∈ L r) (hloc : locOf s.nodes a = locOf s.nodes b)
    (nba : NB s a) (nbb : NB s b)
    (hcol : (∃ x y, (s.nodes a).next = some x ∧ (s.nodes b).prev = some y ∧ locOf s.nodes x = locOf s.nodes y)
      ∨ ∃ x y, (s.nodes b).next = some x ∧ (s.nodes a).prev = some y ∧ locOf s.nodes x = locOf s.nodes y) :
    Ends E (findStartAndEndOfCollinearEdges a b) s fun p s' => s' = s ∧ ∃ a1 t1 R1 a2 t2 R2, (a1 :: t1 ++ R1 ++ (a2 :: t2 ++ R2)) ~r L r
      ∧ p = (a1, R1.headD a2, a2, R2.headD a1) := by
  obtain ⟨t, hc, hrot⟩ := cycle_rot (h.cyc hb) hb
  have hat : a ∈ t := by
    have := hrot.mem_iff.2 ha
    simpa [hab] using this
  obtain ⟨Q, P, rfl⟩ := List.append_of_mem hat
  obtain ⟨w, ht, hw, hwN⟩ := trail_of_cycle hc
  have hnd := hc.nodup
  set N := (Q ++ a :: P).length + 1 with hN
  have hNl : (b :: (Q ++ a :: P)).length = N := by simp [hN]
  have hNv : N = Q.length + 1 + (P.length + 1) := by simp [hN]; omega
  have w0 : w 0 = b := by rw [hw 0 (by simp)]; rfl
  have wa : w (Q.length + 1) = a := by rw [hw (Q.length + 1) (by simp)]; simp
  have hinj : ∀ k l, k < N → l < N → w k = w l → k = l := by
    intro k l hk hl e
    rw [hw k (by omega), hw l (by omega)] at e
    exact (List.Nodup.getElem_inj_iff hnd).1 e
  have ht1 : Trail s.nodes w (Q.length + 1) := fun k hk => ht k (by omega)
  have ht2 : Trail s.nodes (fun k => w (Q.length + 1 + k)) (P.length + 1) := ht.shift (by omega)
  have hra := (h.own r a ha).2
  have hrb := (h.own r b hb).2
  -- the neighbours
  have pa := ht1.prev (k := Q.length + 1) (by omega) (Nat.le_refl _)
  have nb := ht1.next (k := 0) (by omega)
  have na := ht2.next (k := 0) (by omega)
  have pb := ht2.prev (k := P.length + 1) (by omega) (Nat.le_refl _)
  rw [wa] at pa
  rw [w0] at nb
  simp only [Nat.add_zero] at na
  rw [wa] at na
  rw [← hNv, hwN] at pb
  simp only [Nat.add_sub_cancel, Nat.zero_add] at pa pb na nb
  unfold findStartAndEndOfCollinearEdges
  refine Ends.bind (Ends.getNode (Ends.bind (Ends.getNode ?_)))
  rw [hra, hrb]
  simp only [decide_true]
  refine Ends.bind ((ends_collinearSearch_same (w := w) (n := Q.length + 1) ht1 w0 wa (by omega) (fun k l hk hl => hinj k l (by omega) (by omega)) hloc
    (by rw [Nat.add_sub_cancel]; exact nba.prev _ pa) (nbb.next _ nb)).imp ?_)
  rintro ⟨back, forward⟩ s1 ⟨rfl, i, j, hij, hcase, hext, hnx, hpv⟩
  dsimp only at hnx hpv
  refine Ends.bind (Ends.nextOf hnx (Ends.bind ((ends_advanceRepeats_same _ _ _).imp ?_)))
  rintro _ s1 ⟨rfl, rfl⟩
  refine Ends.bind (Ends.prevOf hpv (Ends.bind ((ends_advanceRepeats_same _ _ _).imp ?_)))
  rintro _ s1 ⟨rfl, rfl⟩
  refine Ends.bind ((ends_collinearSearch_same (w := fun k => w (Q.length + 1 + k)) (n := P.length + 1) ht2 wa
    (by show w (Q.length + 1 + (P.length + 1)) = b; rw [← hNv, hwN]) (by omega) ?_ hloc.symm
    (by show locOf s1.nodes (w (Q.length + 1 + (P.length + 1 - 1))) ≠ _; rw [Nat.add_sub_cancel]; exact nbb.prev _ pb) (nba.next _ na)).imp ?_)
  · intro k l hk hl e
    by_cases hkN : Q.length + 1 + k = N
    · by_cases hlN : Q.length + 1 + l = N
      · omega
      · rw [hkN, hwN, ← w0] at e
        have := hinj 0 (Q.length + 1 + l) (by omega) (by omega) e
        omega
    · by_cases hlN : Q.length + 1 + l = N
      · rw [hlN, hwN, ← w0] at e
        have := hinj (Q.length + 1 + k) 0 (by omega) (by omega) e
        omega
      · have := hinj _ _ (by omega) (by omega) e
        omega
  rintro ⟨back', forward'⟩ s1 ⟨rfl, i', j', hij', hcase', hext', hnx', hpv'⟩
  dsimp only at hnx' hpv' hext'
  refine Ends.bind (Ends.nextOf hnx' (Ends.bind ((ends_advanceRepeats_same _ _ _).imp ?_)))
  rintro _ s1 ⟨rfl, rfl⟩
  refine Ends.bind (Ends.prevOf hpv' (Ends.bind ((ends_advanceRepeats_same _ _ _).imp ?_)))
  rintro _ s1 ⟨rfl, rfl⟩
  refine Ends.pure ⟨rfl, ?_⟩
  have hsome : 0 < i ∨ 0 < i' := by
    rcases hcol with ⟨x, y, e1, e2, e3⟩ | ⟨x, y, e1, e2, e3⟩
    · rw [na] at e1; rw [pb] at e2
      cases Option.some.inj e1
      cases Option.some.inj e2
      exact Or.inr (hext' (by rw [Nat.add_sub_cancel]; exact e3.symm))
    · rw [nb] at e1; rw [pa] at e2
      cases Option.some.inj e1
      cases Option.some.inj e2
      exact Or.inl (hext (by rw [Nat.add_sub_cancel]; exact e3.symm))
  obtain ⟨a1, t1, R1, a2, t2, R2, hr, q1, q2, q3, q4⟩ := four_parts (l := b :: (Q ++ a :: P)) (w := w) (i := i) (j := j) (p := Q.length + 1 + i')
    (q := Q.length + 1 + j') hw (fun _ => by rw [hNl, hwN]; rfl) hij (by omega) (by omega) (by omega) (by omega)
  refine ⟨a1, t1, R1, a2, t2, R2, hr.trans hrot, ?_⟩
  rw [q2, q4, q1, q3]

/-- `find_start_and_end_of_collinear_edges` on two rings. -/
theorem ends_findStart_diff (h : Own s L) {r q a b : Nat} (hrq : r ≠ q) (ha : a ∈ L r) (hb : b ∈ L q) (nba : NB s a) (nbb : NB s b) :
    Ends E (findStartAndEndOfCollinearEdges a b) s fun p s' => s' = s ∧ p.1 ∈ L r ∧ p.2.1 ∈ L r ∧ p.2.2.1 ∈ L q ∧ p.2.2.2 ∈ L q := by
  obtain ⟨t, hc, hrot⟩ := cycle_rot (h.cyc ha) ha
  obtain ⟨t', hc', hrot'⟩ := cycle_rot (h.cyc hb) hb
  obtain ⟨u, hu, hw, huN⟩ := trail_of_cycle hc
  obtain ⟨v, hv, hw', hvN⟩ := trail_of_cycle hc'
  have u0 : u 0 = a := by rw [hw 0 (by simp)]; rfl
  have v0 : v 0 = b := by rw [hw' 0 (by simp)]; rfl
  have hmu : ∀ k ≤ t.length + 1, u k ∈ L r := by
    intro k hk
    by_cases e : k = t.length + 1
    · rw [e, huN]; exact ha
    · rw [hw k (by simp; omega)]; exact hrot.mem_iff.1 (List.getElem_mem _)
  have hmv : ∀ k ≤ t'.length + 1, v k ∈ L q := by
    intro k hk
    by_cases e : k = t'.length + 1
    · rw [e, hvN]; exact hb
    · rw [hw' k (by simp; omega)]; exact hrot'.mem_iff.1 (List.getElem_mem _)
  have hdis : ∀ k l, k ≤ t.length + 1 → l ≤ t'.length + 1 → u k ≠ v l := fun k l hk hl e =>
    hrq (h.dist (hmu k hk) (e ▸ hmv l hl))
  have pa := hu.prev (k := t.length + 1) (by omega) (Nat.le_refl _)
  have pb := hv.prev (k := t'.length + 1) (by omega) (Nat.le_refl _)
  have na := hu.next (k := 0) (by omega)
  have nb := hv.next (k := 0) (by omega)
  rw [huN] at pa
  rw [hvN] at pb
  rw [u0] at na
  rw [v0] at nb
  have nxt : ∀ {w : Nat → Nat} {n k : Nat}, Trail s.nodes w n → 0 < n → w n = w 0 → k ≤ n → ∃ l ≤ n, (s.nodes (w k)).next = some (w l) := by
    intro w n k hwt h0 hn hk
    by_cases e : k = n
    · refine ⟨1, h0, ?_⟩
      rw [e, hn]; exact hwt.next h0
    · exact ⟨k + 1, by omega, hwt.next (by omega)⟩
  have prv : ∀ {w : Nat → Nat} {n k : Nat}, Trail s.nodes w n → 0 < n → w n = w 0 → k ≤ n → ∃ l ≤ n, (s.nodes (w k)).prev = some (w l) := by
    intro w n k hwt h0 hn hk
    by_cases e : k = 0
    · refine ⟨n - 1, by omega, ?_⟩
      rw [e, ← hn]; exact hwt.prev h0 (Nat.le_refl _)
    · exact ⟨k - 1, by omega, hwt.prev (by omega) hk⟩
  have hra := (h.own r a ha).2
  have hrb := (h.own q b hb).2
  unfold findStartAndEndOfCollinearEdges
  refine Ends.bind (Ends.getNode (Ends.bind (Ends.getNode ?_)))
  rw [hra, hrb]
  have : decide (some r = some q) = false := by simp [hrq]
  simp only [this]
  refine Ends.bind ((ends_collinearSearch_diff hu hv u0 huN v0 hvN (by omega) (by omega) hdis (nba.prev _ pa) (nbb.next _ nb)).imp ?_)
  rintro ⟨back, forward⟩ s1 ⟨rfl, ⟨j, hj, e1⟩, ⟨i, hi, e2⟩⟩
  dsimp only at e1 e2
  subst e1 e2
  obtain ⟨j1, hj1, ej1⟩ := nxt hu (by omega) (huN.trans u0.symm) hj
  obtain ⟨i1, hi1, ei1⟩ := prv hv (by omega) (hvN.trans v0.symm) hi
  refine Ends.bind (Ends.nextOf ej1 (Ends.bind ((ends_advanceRepeats_next hu huN hj1).imp ?_)))
  rintro _ s1 ⟨rfl, j2, hj2, rfl⟩
  refine Ends.bind (Ends.prevOf ei1 (Ends.bind ((ends_advanceRepeats_prev hv v0 hi1).imp ?_)))
  rintro _ s1 ⟨rfl, i2, hi2, rfl⟩
  refine Ends.bind ((ends_collinearSearch_diff hv hu v0 hvN u0 huN (by omega) (by omega) (fun k l hk hl => Ne.symm (hdis l k hl hk)) (nbb.prev _ pb) (nba.next _ na)).imp ?_)
  rintro ⟨back, forward⟩ s1 ⟨rfl, ⟨j', hj', e1⟩, ⟨i', hi', e2⟩⟩
  dsimp only at e1 e2
  subst e1 e2
  obtain ⟨j1', hj1', ej1'⟩ := nxt hv (by omega) (hvN.trans v0.symm) hj'
  obtain ⟨i1', hi1', ei1'⟩ := prv hu (by omega) (huN.trans u0.symm) hi'
  refine Ends.bind (Ends.nextOf ej1' (Ends.bind ((ends_advanceRepeats_next hv hvN hj1').imp ?_)))
  rintro _ s1 ⟨rfl, j2', hj2', rfl⟩
  refine Ends.bind (Ends.prevOf ei1' (Ends.bind ((ends_advanceRepeats_prev hu u0 hi1').imp ?_)))
  rintro _ s1 ⟨rfl, i2', hi2', rfl⟩
  exact Ends.pure ⟨rfl, hmu _ hj2, hmu _ hi2', hmv _ hj2', hmv _ hi2⟩

/-! ## One ring -/

/-- The ring `r` loses nodes and is not split. -/
theorem step_trim (h : TI s L) {r : Nat} (hr : r < s.nr) {dead live : List Nat} (hperm : (dead ++ live).Perm (L r)) (hd : dead ≠ [])
    (ht : Trim dead live s.nodes s'.nodes) (hlive : live ≠ [] → IsCycle s'.nodes live ∧ StatsOf s.nodes live (s'.rings r))
    (hnn : s'.nn = s.nn) (hnr : s'.nr = s.nr) (hall : s'.allNodes = s.allNodes)
    (hf : ∀ k, k ≠ r → Alike (s'.rings k) (s.rings k))
    (hg : (s'.rings r).node = live.head? ∧ (s'.rings r).corrected = (s.rings r).corrected)
    (hbl : live = [] → Statless (s'.rings r)) :
    TStep s L s' (upd L r live) ∧ weight (upd L r live) s'.nr < weight L s.nr := by
  have hmem : ∀ i, i ∈ L r ↔ i ∈ dead ∨ i ∈ live := fun i => by rw [← hperm.mem_iff, List.mem_append]
  have hw := weight_upd (L := L) hr live
  have hlen := hperm.length_eq
  have hdl := List.length_pos_iff.2 hd
  have hless : weight (upd L r live) s'.nr < weight L s.nr := by
    rw [hnr]
    unfold nwt at hw
    simp only [List.length_append] at hlen
    omega
  refine ⟨TStep.update h (· = r) _ hnn hnr.ge hall ht.loc (fun k hk => Wagyu.upd_ne _ _ hk) hf (fun i hi => ?_) ?_ ?_ ?_ ?_ ?_ ?_ ?_ hless.le, hless⟩
  · have := hi r rfl
    rw [hmem] at this
    exact ht.out i (fun e => this (Or.inl e)) (fun e => this (Or.inr e))
  · rintro _ rfl; rw [Wagyu.upd_same]; exact hg.1
  · rintro _ rfl hl; rw [Wagyu.upd_same] at hl ⊢; exact ⟨by omega, (hlive hl).1⟩
  · rintro _ rfl i hi
    rw [Wagyu.upd_same] at hi
    have hir := (hmem i).2 (Or.inr hi)
    exact ⟨⟨_, rfl, hir⟩, by rw [ht.live i hi]; exact (h.own.own _ i hir).2⟩
  · rintro _ rfl i hi k hk
    rcases (hmem i).1 hi with e | e
    · rw [ht.dead i e] at hk; cases hk
    · rw [ht.live i e, (h.own.own _ i hi).2] at hk
      cases Option.some.inj hk
      exact ⟨rfl, by rw [Wagyu.upd_same]; exact e⟩
  · rintro _ rfl hl; rw [Wagyu.upd_same] at hl ⊢; exact (hlive hl).2
  · rintro _ rfl hc; rw [← hg.2]; exact hc
  · rintro _ rfl hl; rw [Wagyu.upd_same] at hl; exact hbl hl

theorem StatsOf.congr {h h' : Nat → Node} (hl : ∀ i, locOf h' i = locOf h i) {l : List Nat} {g : Ring} (hs : StatsOf h' l g) : StatsOf h l g := by
  have := pointsOf_congr hl l
  exact ⟨this ▸ hs.area, hs.size, hs.hole, this ▸ hs.box⟩

/-- The ring `r` loses nodes and is split. -/
theorem step_trim_split (h : TI s L) {r : Nat} (hr : r < s.nr) {dead R1 R2 : List Nat} (hperm : (dead ++ (R1 ++ R2)).Perm (L r)) (hR1 : R1 ≠ []) (hR2 : R2 ≠ [])
    {h' : Nat → Node} (ht : Trim dead (R1 ++ R2) s.nodes h') (hnodes : s'.nodes = withRing R2 (some s.nr) h')
    (h1 : IsCycle h' R1 ∧ StatsOf s.nodes R1 (s'.rings r)) (h2 : IsCycle h' R2 ∧ StatsOf s.nodes R2 (s'.rings s.nr))
    (hnn : s'.nn = s.nn) (hnr : s'.nr = s.nr + 1) (hall : s'.allNodes = s.allNodes)
    (hf : ∀ k, k ≠ r → k ≠ s.nr → s'.rings k = s.rings k)
    (hg : (s'.rings r).node = R1.head? ∧ (s'.rings r).corrected = (s.rings r).corrected)
    (hg' : (s'.rings s.nr).node = R2.head? ∧ (s'.rings s.nr).corrected = false) :
    TStep s L s' (upd (upd L r R1) s.nr R2) ∧ weight (upd (upd L r R1) s.nr R2) s'.nr < weight L s.nr := by
  have hmem : ∀ i, i ∈ L r ↔ i ∈ dead ∨ i ∈ R1 ++ R2 := fun i => by rw [← hperm.mem_iff, List.mem_append]
  have hne : r ≠ s.nr := by omega
  have e1 : upd (upd L r R1) s.nr R2 r = R1 := by rw [Wagyu.upd_ne _ _ hne, Wagyu.upd_same]
  have e2 : upd (upd L r R1) s.nr R2 s.nr = R2 := Wagyu.upd_same _ _ _
  have hnd : (dead ++ (R1 ++ R2)).Nodup := by
    refine hperm.nodup_iff.2 (h.own.cycle r ?_).2.nodup
    intro e
    rw [e] at hperm
    have hlen0 := hperm.length_eq
    simp only [List.length_append, List.length_nil] at hlen0
    have := List.length_pos_iff.2 hR1
    omega
  have hdis : ∀ i ∈ R1, i ∉ R2 := fun i hi hi' => (List.nodup_append.1 (List.nodup_append.1 hnd).2.1).2.2 i hi i hi' rfl
  have hdd : ∀ i ∈ dead, i ∉ R1 ++ R2 := fun i hi hi' => (List.nodup_append.1 hnd).2.2 i hi i hi' rfl
  have hless : weight (upd (upd L r R1) s.nr R2) s'.nr < weight L s.nr := by
    rw [hnr, weight_succ, e2]
    have k1 : weight (upd (upd L r R1) s.nr R2) s.nr = weight (upd L r R1) s.nr :=
      weight_congr fun k hk => by rw [Wagyu.upd_ne _ _ (by omega)]
    have k2 := weight_upd (L := L) hr R1
    have k3 := hperm.length_eq
    have k4 := List.length_pos_iff.2 hR1
    have k5 := List.length_pos_iff.2 hR2
    unfold nwt at *
    simp only [List.length_append] at *
    omega
  refine ⟨TStep.update h (fun k => k = r ∨ k = s.nr) _ hnn (by omega) hall (fun i => by rw [hnodes, withRing_loc]; exact ht.loc i) (fun k hk => ?_)
    (fun k hk => ?_) (fun i hi => ?_) ?_ ?_ ?_ ?_ ?_ ?_ ?_ hless.le, hless⟩
  · rw [Wagyu.upd_ne _ _ (fun e => hk (Or.inr e)), Wagyu.upd_ne _ _ (fun e => hk (Or.inl e))]
  · rw [hf k (fun e => hk (Or.inl e)) (fun e => hk (Or.inr e))]; exact Alike.refl _
  · have := hi r (Or.inl rfl)
    rw [hmem] at this
    rw [hnodes]; unfold withRing
    rw [if_neg (fun e => this (Or.inr (List.mem_append_right _ e)))]
    exact ht.out i (fun e => this (Or.inl e)) (fun e => this (Or.inr e))
  · rintro d (rfl | rfl)
    · rw [e1]; exact hg.1
    · rw [e2]; exact hg'.1
  · rintro d (rfl | rfl) -
    · rw [e1, hnodes]; exact ⟨by omega, isCycle_withRing h1.1⟩
    · rw [e2, hnodes]; exact ⟨by omega, isCycle_withRing h2.1⟩
  · rintro d (rfl | rfl) i hi
    · rw [e1] at hi
      have hir := (hmem i).2 (Or.inr (List.mem_append_left _ hi))
      refine ⟨⟨d, Or.inl rfl, hir⟩, ?_⟩
      rw [hnodes]; unfold withRing
      rw [if_neg (hdis i hi), ht.live i (List.mem_append_left _ hi)]
      exact (h.own.own d i hir).2
    · rw [e2] at hi
      refine ⟨⟨r, Or.inl rfl, (hmem i).2 (Or.inr (List.mem_append_right _ hi))⟩, ?_⟩
      rw [hnodes]; unfold withRing
      rw [if_pos hi]
  · rintro d (rfl | rfl) i hi k hk
    · rw [hnodes] at hk; unfold withRing at hk
      by_cases hq : i ∈ R2
      · rw [if_pos hq] at hk
        cases Option.some.inj hk
        exact ⟨Or.inr rfl, by rw [e2]; exact hq⟩
      · rw [if_neg hq] at hk
        rcases (hmem i).1 hi with e | e
        · rw [ht.dead i e] at hk; cases hk
        · rw [ht.live i e, (h.own.own d i hi).2] at hk
          cases Option.some.inj hk
          exact ⟨Or.inl rfl, by rw [e1]; exact (List.mem_append.1 e).resolve_right hq⟩
    · rw [h.own.big (Nat.le_refl _)] at hi; cases hi
  · rintro d (rfl | rfl) -
    · rw [e1]; exact h1.2
    · rw [e2]; exact h2.2
  · rintro d (rfl | rfl) hc
    · rw [← hg.2]; exact hc
    · rw [hg'.2] at hc; cases hc
  · rintro d (rfl | rfl) hne
    · rw [e1] at hne; exact absurd hne hR1
    · rw [e2] at hne; exact absurd hne hR2

/-- `process_collinear_edges_same_ring`. -/
theorem ends_sameRing (h : TI s L) {r a b : Nat} (hab : a ≠ b) (ha : a ∈ L r) (hb : b ∈ L r) (hloc : locOf s.nodes a = locOf s.nodes b)
    (nba : NB s a) (nbb : NB s b)
    (hcol : (∃ x y, (s.nodes a).next = some x ∧ (s.nodes b).prev = some y ∧ locOf s.nodes x = locOf s.nodes y)
      ∨ ∃ x y, (s.nodes b).next = some x ∧ (s.nodes a).prev = some y ∧ locOf s.nodes x = locOf s.nodes y) :
    Ends E (processCollinearEdgesSameRing a b) s fun _ s' => ∃ L', TStep s L s' L' ∧ weight L' s'.nr < weight L s.nr := by
  have hra := (h.own.own r a ha).2
  have hr := h.own.lt ha
  unfold processCollinearEdgesSameRing
  refine Ends.bind (Ends.getNode (Ends.bind (Ends.deref hra ?_)))
  refine Ends.bind ((ends_findStart_same h.own hab ha hb hloc nba nbb hcol).imp ?_)
  rintro p s1 ⟨rfl, a1, t1, R1, a2, t2, R2, hrot, rfl⟩
  have hcyc : IsCycle s1.nodes (a1 :: t1 ++ R1 ++ (a2 :: t2 ++ R2)) := by
    obtain ⟨n, hn⟩ := hrot.symm
    rw [← hn]; exact isCycle_rotate (h.own.cyc ha) n
  have hperm : ((a1 :: t1 ++ a2 :: t2) ++ (R1 ++ R2)).Perm (L r) := by
    refine List.Perm.trans ?_ hrot.perm
    rw [List.append_assoc, List.append_assoc]
    refine List.Perm.append_left _ ?_
    rw [← List.append_assoc, ← List.append_assoc]
    exact List.perm_append_comm.append_right _
  refine Ends.bind ((ends_fixCollinearPath_same hcyc).imp ?_)
  rintro p s2 ⟨h', rfl, ht, c1, c2, rfl⟩
  by_cases e1 : R1 = []
  · subst e1
    rw [if_pos rfl]
    by_cases e2 : R2 = []
    · subst e2
      simp only [List.head?_nil]
      refine (ends_removeRing _ r).imp fun _ s3 hg => ?_
      have n1 := hg.nn
      have n2 := hg.nr
      have n3 := hg.allNodes
      have n4 := hg.nodes
      dsimp only at n1 n2 n3 n4
      exact ⟨_, step_trim h hr (s' := s3) (live := []) (by simpa using hperm) (by simp) (by rw [n4]; simpa using ht) (fun e => absurd rfl e) n1 n2 n3
        (fun k hk => hg.same hk) ⟨by rw [hg.node, if_pos rfl]; rfl, hg.corrected r⟩ fun _ => hg.statless⟩
    · obtain ⟨c, t, rfl⟩ := List.exists_cons_of_ne_nil e2
      simp only [List.head?_cons]
      refine Ends.bind (Ends.setRingNode ?_)
      refine (ends_recalculate (r := r) (a := c) (t := t) (by simp [Wagyu.upd_same]) (c2 e2)).imp ?_
      rintro _ s3 ⟨g, rfl, hg, hg'⟩
      have hgn := congrArg Ring.node hg'
      have hgc := congrArg Ring.corrected hg'
      simp only [Wagyu.upd_same, Ring.resetStats] at hgn hgc
      exact ⟨_, step_trim h hr (dead := a1 :: t1 ++ a2 :: t2) (live := c :: t) (by simpa using hperm) (by simp) (by simpa using ht)
        (fun _ => ⟨c2 e2, by dsimp only; rw [Wagyu.upd_same]; exact hg.congr ht.loc⟩) rfl rfl rfl
        (fun k hk => by dsimp only; rw [Wagyu.upd_ne _ _ hk, Wagyu.upd_ne _ _ hk]; exact Alike.refl _)
        (by dsimp only; rw [Wagyu.upd_same]; exact ⟨hgn, hgc⟩) nofun⟩
  · obtain ⟨c, t, rfl⟩ := List.exists_cons_of_ne_nil e1
    rw [if_neg e1]
    by_cases e2 : R2 = []
    · subst e2
      simp only [List.head?_cons, List.head?_nil]
      refine Ends.bind (Ends.setRingNode ?_)
      refine (ends_recalculate (r := r) (a := c) (t := t) (by simp [Wagyu.upd_same]) (c1 e1)).imp ?_
      rintro _ s3 ⟨g, rfl, hg, hg'⟩
      have hgn := congrArg Ring.node hg'
      have hgc := congrArg Ring.corrected hg'
      simp only [Wagyu.upd_same, Ring.resetStats] at hgn hgc
      exact ⟨_, step_trim h hr (dead := a1 :: t1 ++ a2 :: t2) (live := c :: t) (by simpa using hperm) (by simp) (by simpa using ht)
        (fun _ => ⟨c1 e1, by dsimp only; rw [Wagyu.upd_same]; exact hg.congr ht.loc⟩) rfl rfl rfl
        (fun k hk => by dsimp only; rw [Wagyu.upd_ne _ _ hk, Wagyu.upd_ne _ _ hk]; exact Alike.refl _)
        (by dsimp only; rw [Wagyu.upd_same]; exact ⟨hgn, hgc⟩) nofun⟩
    · obtain ⟨d, u, rfl⟩ := List.exists_cons_of_ne_nil e2
      have hne : r ≠ s1.nr := by omega
      simp only [List.head?_cons]
      refine Ends.bind (Ends.createRing (Ends.bind (Ends.setRingNode ?_)))
      dsimp only
      refine Ends.bind ((ends_recalculate (r := s1.nr) (a := d) (t := u) (by simp [Wagyu.upd_same]) (c2 e2)).imp ?_)
      rintro _ s3 ⟨g, rfl, hg, hg'⟩
      have hgn := congrArg Ring.node hg'
      have hgc := congrArg Ring.corrected hg'
      simp only [Wagyu.upd_same, Ring.resetStats] at hgn hgc
      refine Ends.bind ((ends_updatePoints (r := s1.nr) (a := d) (t := u) (by simp [Wagyu.upd_same]; exact hgn) (c2 e2)).imp ?_)
      rintro _ s4 rfl
      refine Ends.bind (Ends.setRingNode ?_)
      dsimp only
      refine (ends_recalculate (r := r) (a := c) (t := t) (by simp [Wagyu.upd_same]) (isCycle_withRing (c1 e1))).imp ?_
      rintro _ s5 ⟨g2, rfl, hg2, hg2'⟩
      have hgn2 := congrArg Ring.node hg2'
      have hgc2 := congrArg Ring.corrected hg2'
      simp only [Wagyu.upd_same, Ring.resetStats] at hgn2 hgc2
      refine ⟨_, step_trim_split h hr (dead := a1 :: t1 ++ a2 :: t2) (R1 := c :: t) (R2 := d :: u) hperm e1 e2 ht rfl ⟨c1 e1, ?_⟩ ⟨c2 e2, ?_⟩ rfl rfl rfl ?_ ?_ ?_⟩
      · dsimp only; rw [Wagyu.upd_same]
        exact hg2.congr fun i => by dsimp only; rw [withRing_loc]; exact ht.loc i
      · simp only [upd, if_neg (Ne.symm hne), if_true]
        exact hg.congr ht.loc
      · intro k k1 k2
        simp [upd, k1, k2]
      · simp only [upd, if_true]
        refine ⟨hgn2, ?_⟩
        rw [hgc2]; simp [upd, hne]
      · simp only [upd, if_neg (Ne.symm hne), if_true]
        exact ⟨hgn, hgc⟩

end

end Wagyu
