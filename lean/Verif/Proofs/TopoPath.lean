import Verif.Proofs.TopoSplit

/-!
# Removing a collinear path
-/

namespace Wagyu

open Spec

section
variable {s s' : St} {L L' : Nat → List Nat} {E : Err → Prop}

/-- The heap when the nodes in `l`, after `z`, have been unlinked. -/
structure Unlinked (z : Nat) (l : List Nat) (h h' : Nat → Node) : Prop where
  out : ∀ i, i ∉ l → h' i = if i = z ∧ l ≠ [] then { h i with next := none } else h i
  gone : ∀ i ∈ l, (h' i).ring = none ∧ locOf h' i = locOf h i

theorem Unlinked.nil (z : Nat) (h : Nat → Node) : Unlinked z [] h h := ⟨fun i _ => by simp, fun i hi => by cases hi⟩

/-- One more node is unlinked. -/
theorem ends_unlinkNode {h : Nat → Node} {z i : Nat} {done : List Nat} (hs : Unlinked z done h s.nodes) (hi : i ∉ done)
    (hp : (h i).prev = some (done.getLastD z)) {Q : Unit → St → Prop}
    (hQ : ∀ h', Unlinked z (done ++ [i]) h h' → (h' i).next = (if i = z then none else (h i).next) → Q () { s with nodes := h' }) :
    Ends E (unlinkNode i) s Q := by
  unfold unlinkNode
  have hprev : (s.nodes i).prev = some (done.getLastD z) := by
    rw [hs.out i hi]; split <;> exact hp
  refine Ends.bind (Ends.prevOf hprev (Ends.bind (Ends.setNext (Ends.bind (Ends.setPrev (Ends.setNodeRing ?_))))))
  dsimp only
  set p := done.getLastD z with hpdef
  have hpd : done ≠ [] → p ∈ done := by
    intro hd
    rw [hpdef, List.getLastD_eq_getLast?, List.getLast?_eq_getLast_of_ne_nil hd]
    exact List.getLast_mem hd
  have hp0 : done = [] → p = z := by rintro rfl; rfl
  refine hQ _ ⟨fun j hj => ?_, fun j hj => ?_⟩ ?_
  · have hj1 : j ∉ done := fun e => hj (by simp [e])
    have hj2 : j ≠ i := fun e => hj (by simp [e])
    rw [Wagyu.upd_ne _ _ hj2, Wagyu.upd_ne _ _ hj2]
    by_cases hjp : j = p
    · have hd : done = [] := by
        by_contra hd
        exact hj1 (hjp ▸ hpd hd)
      rw [hjp, Wagyu.upd_same, if_pos ⟨hp0 hd, by simp⟩, hs.out p (by rw [hd]; simp), if_neg (by simp [hd])]
    · rw [Wagyu.upd_ne _ _ hjp, hs.out j hj1]
      by_cases hd : done = []
      · have : j ≠ z := fun e => hjp (e.trans (hp0 hd).symm)
        rw [if_neg (fun e => this e.1), if_neg (fun e => this e.1)]
      · simp [hd]
  · by_cases e : j = i
    · subst e
      refine ⟨by rw [Wagyu.upd_same], ?_⟩
      unfold locOf
      rw [Wagyu.upd_same]
      by_cases hjp : j = p
      · rw [Wagyu.upd_same]
        simp only [hjp, Wagyu.upd_same]
        rw [← hjp, hs.out j hi]
        split <;> rfl
      · rw [Wagyu.upd_same]
        rw [Wagyu.upd_ne _ _ hjp, hs.out j hi]
        split <;> rfl
    · have hjd : j ∈ done := by simpa [e] using hj
      obtain ⟨h1, h2⟩ := hs.gone j hjd
      unfold locOf at h2 ⊢
      rw [Wagyu.upd_ne _ _ e, Wagyu.upd_ne _ _ e]
      by_cases hjp : j = p
      · subst hjp; rw [Wagyu.upd_same]; exact ⟨h1, h2⟩
      · rw [Wagyu.upd_ne _ _ hjp]; exact ⟨h1, h2⟩
  · rw [Wagyu.upd_same, Wagyu.upd_same]
    dsimp only
    by_cases hip : i = p
    · have hd : done = [] := by
        by_contra hd
        exact hi (hip ▸ hpd hd)
      rw [if_pos (hip.trans (hp0 hd))]
      simp only [hip, Wagyu.upd_same]
    · rw [Wagyu.upd_ne _ _ hip, hs.out i hi]
      by_cases hd : done = []
      · have : i ≠ z := fun e => hip (e.trans (hp0 hd).symm)
        rw [if_neg (fun e => this e.1), if_neg this]
      · by_cases e : i = z
        · rw [if_pos ⟨e, hd⟩, if_pos e]
        · rw [if_neg (fun e' => e e'.1), if_neg e]

/-- What is needed to unlink `l`, which is after `z`: its links. -/
structure LinkPath (h : Nat → Node) (z : Nat) (l : List Nat) : Prop where
  nodup : l.Nodup
  links : (z :: l).IsChain (Link h)

theorem LinkPath.prev {h : Nat → Node} {z i : Nat} {done todo : List Nat} (hp : LinkPath h z (done ++ i :: todo)) :
    i ∉ done ∧ (h i).prev = some (done.getLastD z) := by
  refine ⟨fun hd => (List.nodup_append.1 hp.nodup).2.2 i hd i (by simp) rfl, ?_⟩
  have := hp.links
  rw [← List.cons_append, List.isChain_append] at this
  have h3 := this.2.2 (done.getLastD z) (by cases done <;> simp [List.getLast?_cons]) i (by simp)
  exact h3.2

theorem LinkPath.next {h : Nat → Node} {z i j : Nat} {done todo : List Nat} (hp : LinkPath h z (done ++ i :: j :: todo)) :
    (h i).next = some j := by
  have := hp.links
  rw [← List.cons_append, List.isChain_append] at this
  exact (List.isChain_cons_cons.1 this.2.1).1.1

/-- A part `l` of a ring is unlinked up to the node `stop` after it. -/
theorem ends_unlinkUntil {h : Nat → Node} {z a stop : Nat} {l : List Nat} (hp : LinkPath h z (a :: l)) (hz : z ∉ a :: l)
    (hlast : (h ((a :: l).getLast (by simp))).next = some stop) (hstop : stop ∉ a :: l) (hs : s.nodes = h) {Q : Unit → St → Prop}
    (hQ : ∀ h', Unlinked z (a :: l) h h' → Q () { s with nodes := h' }) : Ends E (unlinkUntil a stop) s Q := by
  unfold unlinkUntil
  refine Ends.loopN (fun n (itr : Option Nat) s1 => ∃ done todo, a :: l = done ++ todo ∧ itr = some (todo.headD stop) ∧ n = todo.length
      ∧ ∃ h1, Unlinked z done h h1 ∧ s1 = { s with nodes := h1 }) ?_ (n := (a :: l).length)
    ⟨[], a :: l, rfl, rfl, rfl, h, Unlinked.nil z h, by rw [← hs]⟩
  rintro n itr s1 ⟨done, todo, e1, rfl, rfl, h1, h2, rfl⟩
  cases todo with
  | nil =>
    simp only [List.headD_nil, if_true]
    simp only [List.append_nil] at e1
    rw [e1] at hQ
    exact Ends.pure (hQ h1 h2)
  | cons i todo =>
    rw [e1] at hp hz hstop
    have hine : i ≠ stop := fun e => hstop (by simp [e])
    obtain ⟨hid, hpv⟩ := hp.prev
    have hiz : i ≠ z := fun e => hz (by simp [e])
    simp only [List.headD_cons, Option.some.injEq, if_neg hine]
    refine Ends.bind (Ends.deref rfl (Ends.bind (ends_unlinkNode (h := h) (z := z) h2 hid hpv ?_)))
    intro h' hh' hn
    refine Ends.bind (Ends.getNode (Ends.pure ⟨todo.length, by simp, done ++ [i], todo, by simp [e1], ?_, rfl, h', hh', rfl⟩))
    show (h' i).next = _
    rw [hn, if_neg hiz]
    cases todo with
    | nil => simp only [e1] at hlast; simpa using hlast
    | cons j todo => exact hp.next

/-- The same by `unlinkDo`. -/
theorem ends_unlinkDo {h : Nat → Node} {z a stop : Nat} {l : List Nat} (hp : LinkPath h z (a :: l))
    (hlast : z = (a :: l).getLast (by simp) ∨ z ∉ a :: l ∧ (h ((a :: l).getLast (by simp))).next = some stop)
    (hstop : stop ∉ l) (hs : s.nodes = h) {Q : Unit → St → Prop}
    (hQ : ∀ h', Unlinked z (a :: l) h h' → Q () { s with nodes := h' }) : Ends E (unlinkDo a stop) s Q := by
  unfold unlinkDo
  refine Ends.loopN (fun n (itr : Nat) s1 => ∃ done todo, a :: l = done ++ itr :: todo ∧ n = todo.length
      ∧ ∃ h1, Unlinked z done h h1 ∧ s1 = { s with nodes := h1 }) ?_ (n := l.length)
    ⟨[], l, rfl, rfl, h, Unlinked.nil z h, by rw [← hs]⟩
  rintro n i s1 ⟨done, todo, e1, rfl, h1, h2, rfl⟩
  have hp' := hp
  rw [e1] at hp'
  obtain ⟨hid, hpv⟩ := hp'.prev
  refine Ends.bind (ends_unlinkNode (h := h) (z := z) h2 hid hpv ?_)
  intro h' hh' hn
  refine Ends.bind (Ends.getNode ?_)
  dsimp only
  rw [hn]
  cases todo with
  | nil =>
    have hl : (a :: l).getLast (by simp) = i := by simp only [e1]; simp
    have fin : Q () { s with nodes := h' } := hQ h' (by rw [e1]; exact hh')
    rcases hlast with e | ⟨e, e'⟩
    · rw [if_pos (hl ▸ e).symm]; exact Ends.pure fin
    · have : i ≠ z := fun h => e (by rw [e1, ← h]; simp)
      rw [hl] at e'
      rw [if_neg this, e']
      simp only [if_true]
      exact Ends.pure fin
  | cons j todo =>
    have hiz : i ≠ z := by
      rcases hlast with e | ⟨e, -⟩
      · intro hi
        have : i ∈ (a :: l).dropLast := by rw [e1, List.dropLast_append_of_ne_nil (by simp)]; simp
        exact ne_getLast_of_dropLast (by simp) hp.nodup this (hi.trans e)
      · exact fun h => e (by rw [e1, ← h]; simp)
    rw [if_neg hiz, hp'.next]
    have hjl : j ∈ l := by
      cases done with
      | nil => simp only [List.nil_append, List.cons.injEq] at e1; rw [e1.2]; simp
      | cons d done => simp only [List.cons_append, List.cons.injEq] at e1; rw [e1.2]; simp
    have : j ≠ stop := fun e => hstop (e ▸ hjl)
    simp only [if_neg this]
    exact Ends.pure ⟨todo.length, by simp, done ++ [i], todo, by simp [e1], rfl, h', hh', rfl⟩

/-- A whole ring is unlinked. -/
theorem ends_unlinkAll {h : Nat → Node} {a : Nat} {l : List Nat} (hl : IsCycle h (a :: l)) (hs : s.nodes = h) {Q : Unit → St → Prop}
    (hQ : ∀ h', Unlinked ((a :: l).getLast (by simp)) (a :: l) h h' → Q () { s with nodes := h' }) :
    Ends E (loopM (fun (itr : Option Nat) => do
      match itr with
      | none => pure (.inr ())
      | some i =>
        unlinkNode i
        let n ← getNode i
        pure (.inl n.next)) (some a)) s Q := by
  obtain ⟨hnd, hseg, hcl⟩ := (isCycle_iff (by simp)).1 hl
  have hp : LinkPath h ((a :: l).getLast (by simp)) (a :: l) := ⟨hnd, List.isChain_cons_cons.2 ⟨hcl, hseg⟩⟩
  refine Ends.loopN (fun n (itr : Option Nat) s1 => ∃ done todo, a :: l = done ++ todo ∧ itr = todo.head? ∧ n = todo.length
      ∧ ∃ h1, Unlinked ((a :: l).getLast (by simp)) done h h1 ∧ s1 = { s with nodes := h1 }) ?_ (n := (a :: l).length)
    ⟨[], a :: l, rfl, rfl, rfl, h, Unlinked.nil _ h, by rw [← hs]⟩
  rintro n itr s1 ⟨done, todo, e1, rfl, rfl, h1, h2, rfl⟩
  cases todo with
  | nil =>
    simp only [List.append_nil] at e1
    simp only [e1] at hQ
    refine Ends.pure (hQ h1 ?_)
    simp only [e1] at h2
    exact h2
  | cons i todo =>
    have hp' := hp
    have hp2 : LinkPath h ((a :: l).getLast (by simp)) (done ++ i :: todo) := by rw [← e1]; exact hp
    obtain ⟨hid, hpv⟩ := hp2.prev
    refine Ends.bind (ends_unlinkNode (h := h) (z := (a :: l).getLast (by simp)) h2 hid hpv ?_)
    intro h' hh' hn
    refine Ends.bind (Ends.getNode (Ends.pure ⟨todo.length, by simp, done ++ [i], todo, by simp [e1], ?_, rfl, h', hh', rfl⟩))
    show (h' i).next = _
    rw [hn]
    cases todo with
    | nil =>
      rw [if_pos (by simp only [e1]; simp)]; rfl
    | cons j todo =>
      have hiz : i ≠ (a :: l).getLast (by simp) := by
        have : i ∈ (a :: l).dropLast := by rw [e1, List.dropLast_append_of_ne_nil (by simp)]; simp
        exact ne_getLast_of_dropLast (by simp) hnd this
      rw [if_neg hiz]
      exact hp2.next

/-- The nodes in `dead` are dropped, those in `live` keep their rings. -/
structure Trim (dead live : List Nat) (h h' : Nat → Node) : Prop where
  out : ∀ i, i ∉ dead → i ∉ live → h' i = h i
  live : ∀ i ∈ live, (h' i).ring = (h i).ring
  dead : ∀ i ∈ dead, (h' i).ring = none
  loc : ∀ i, locOf h' i = locOf h i

theorem Unlinked.loc {z : Nat} {l : List Nat} {h h' : Nat → Node} (hu : Unlinked z l h h') (i : Nat) : locOf h' i = locOf h i := by
  by_cases hi : i ∈ l
  · exact (hu.gone i hi).2
  · unfold locOf; rw [hu.out i hi]; split <;> rfl

theorem Unlinked.ring {z : Nat} {l : List Nat} {h h' : Nat → Node} (hu : Unlinked z l h h') {i : Nat} (hi : i ∉ l) : (h' i).ring = (h i).ring := by
  rw [hu.out i hi]; split <;> rfl
theorem Unlinked.prev {z : Nat} {l : List Nat} {h h' : Nat → Node} (hu : Unlinked z l h h') {i : Nat} (hi : i ∉ l) : (h' i).prev = (h i).prev := by
  rw [hu.out i hi]; split <;> rfl
theorem Unlinked.next {z : Nat} {l : List Nat} {h h' : Nat → Node} (hu : Unlinked z l h h') {i : Nat} (hi : i ∉ l) (hz : i ≠ z) :
    (h' i).next = (h i).next := by
  rw [hu.out i hi, if_neg (fun e => hz e.1)]

/-- The parts of a ring. -/
theorem path_of_cycle {h : Nat → Node} {a : Nat} {l R : List Nat} (hR : R ≠ []) (hc : IsCycle h (a :: l ++ R)) :
    LinkPath h (R.getLast hR) (a :: l) ∧ R.getLast hR ∉ a :: l ∧ (h ((a :: l).getLast (by simp))).next = some (R.head hR) ∧ R.head hR ∉ a :: l
      ∧ R.Nodup ∧ R.IsChain (Link h) ∧ ∀ i ∈ R, i ∉ a :: l := by
  obtain ⟨hnd, hseg, hcl⟩ := (isCycle_iff (by simp)).1 hc
  obtain ⟨n1, n2, n3⟩ := List.nodup_append.1 hnd
  have hdis : ∀ i ∈ R, i ∉ a :: l := fun i hi hi' => n3 i hi' i hi rfl
  rw [List.isChain_append] at hseg
  obtain ⟨s1, s2, s3⟩ := hseg
  have hcl' : Link h (R.getLast hR) a := by
    rw [List.getLast_append_of_ne_nil _ hR] at hcl
    exact hcl
  refine ⟨⟨n1, List.isChain_cons_cons.2 ⟨hcl', s1⟩⟩, hdis _ (List.getLast_mem hR), ?_, hdis _ (List.head_mem hR), n2, s2, hdis⟩
  refine (s3 _ ?_ (R.head hR) ?_).1
  · rw [List.getLast?_eq_getLast_of_ne_nil (by simp)]; rfl
  · rw [List.head?_eq_some_head hR]; rfl

/-- The rest of a ring is closed. -/
theorem close_rest {h h1 : Nat → Node} {a : Nat} {l R : List Nat} (hR : R ≠ []) (hc : IsCycle h (a :: l ++ R))
    (hu : Unlinked (R.getLast hR) (a :: l) h h1) :
    IsCycle (putPrev (putNext h1 (R.getLast hR) (some (R.head hR))) (R.head hR) (some (R.getLast hR))) R
      ∧ Trim (a :: l) R h (putPrev (putNext h1 (R.getLast hR) (some (R.head hR))) (R.head hR) (some (R.getLast hR))) := by
  obtain ⟨hp, -, -, -, hn, hch, hdis⟩ := path_of_cycle hR hc
  constructor
  · refine isCycle_close hR hn hch (fun i hi hne => ?_) (fun i hi hne => ?_) ?_ ?_
    · links; rw [if_neg hne]; exact hu.next (hdis i hi) hne
    · links; rw [if_neg hne]; exact hu.prev (hdis i hi)
    · links; simp
    · links; simp
  · refine ⟨fun i hi hi' => ?_, fun i hi => ?_, fun i hi => ?_, fun i => ?_⟩
    · have h1 : i ≠ R.head hR := fun e => hi' (e ▸ List.head_mem hR)
      have h2 : i ≠ R.getLast hR := fun e => hi' (e ▸ List.getLast_mem hR)
      rw [putPrev_ne _ _ _ _ h1, putNext_ne _ _ _ _ h2, hu.out i hi, if_neg (fun e => h2 e.1)]
    · links; exact hu.ring (hdis i hi)
    · links; exact (hu.gone i hi).1
    · unfold locOf; links; exact hu.loc i

/-- The links after both ends are joined. -/
def crossed (h : Nat → Node) (z1 e1 z2 e2 : Nat) : Nat → Node :=
  putPrev (putNext (putPrev (putNext h z1 (some e2)) e2 (some z1)) z2 (some e1)) e1 (some z2)

theorem crossed_next (h : Nat → Node) (z1 e1 z2 e2 i : Nat) :
    (crossed h z1 e1 z2 e2 i).next = if i = z2 then some e1 else if i = z1 then some e2 else (h i).next := by unfold crossed; links
theorem crossed_prev (h : Nat → Node) (z1 e1 z2 e2 i : Nat) :
    (crossed h z1 e1 z2 e2 i).prev = if i = e1 then some z2 else if i = e2 then some z1 else (h i).prev := by unfold crossed; links
theorem crossed_ring (h : Nat → Node) (z1 e1 z2 e2 i : Nat) : (crossed h z1 e1 z2 e2 i).ring = (h i).ring := by unfold crossed; links
theorem crossed_loc (h : Nat → Node) (z1 e1 z2 e2 i : Nat) : locOf (crossed h z1 e1 z2 e2) i = locOf h i := by unfold crossed locOf; links
theorem crossed_out (h : Nat → Node) {z1 e1 z2 e2 i : Nat} (h1 : i ≠ z1) (h2 : i ≠ e1) (h3 : i ≠ z2) (h4 : i ≠ e2) :
    crossed h z1 e1 z2 e2 i = h i := by
  unfold crossed
  rw [putPrev_ne _ _ _ _ h2, putNext_ne _ _ _ _ h3, putPrev_ne _ _ _ _ h4, putNext_ne _ _ _ _ h1]

theorem head?_eq_of {l : List Nat} (h : l ≠ []) : l.head? = some (l.head h) := List.head?_eq_some_head h

/-- Two paths are unlinked. -/
structure Unlinked2 (z1 z2 : Nat) (l1 l2 : List Nat) (h h' : Nat → Node) : Prop where
  out : ∀ i, i ∉ l1 → i ∉ l2 → h' i = if i = z1 ∨ i = z2 then { h i with next := none } else h i
  gone : ∀ i, i ∈ l1 ∨ i ∈ l2 → (h' i).ring = none
  loc : ∀ i, locOf h' i = locOf h i

theorem ends_unlinkTwice {α : Type} {h : Nat → Node} {z1 e1 z2 e2 a1 a2 : Nat} {t1 t2 : List Nat} (hp1 : LinkPath h z1 (a1 :: t1))
    (hp2 : LinkPath h z2 (a2 :: t2))
    (hl1 : z1 = (a1 :: t1).getLast (by simp) ∨ z1 ∉ a1 :: t1 ∧ (h ((a1 :: t1).getLast (by simp))).next = some e1)
    (hl2 : z2 = (a2 :: t2).getLast (by simp) ∨ z2 ∉ a2 :: t2 ∧ (h ((a2 :: t2).getLast (by simp))).next = some e2)
    (hst1 : e1 ∉ t1) (hst2 : e2 ∉ t2) (hdis : ∀ i ∈ a1 :: t1, i ∉ a2 :: t2) (hz1 : z1 ∉ a2 :: t2) (hz2 : z2 ∉ a1 :: t1) (hz : z1 ≠ z2)
    (hs : s.nodes = h) {f : M α} {Q : α → St → Prop}
    (hQ : ∀ h', Unlinked2 z1 z2 (a1 :: t1) (a2 :: t2) h h' → Ends E f { s with nodes := h' } Q) :
    Ends E (do unlinkDo a1 e1; unlinkDo a2 e2; f) s Q := by
  refine Ends.bind (ends_unlinkDo hp1 hl1 hst1 hs ?_)
  intro h1 hu
  have hsame : ∀ i ∈ z2 :: a2 :: t2, h1 i = h i := by
    intro i hi
    have hi1 : i ∉ a1 :: t1 := by
      rcases List.mem_cons.1 hi with rfl | hi
      · exact hz2
      · exact fun hm => hdis i hm hi
    have hi2 : i ≠ z1 := by
      rcases List.mem_cons.1 hi with rfl | hi
      · exact Ne.symm hz
      · exact fun e => hz1 (e ▸ hi)
    rw [hu.out i hi1, if_neg (fun e => hi2 e.1)]
  have hp2' : LinkPath h1 z2 (a2 :: t2) := by
    refine ⟨hp2.nodup, ?_⟩
    refine seg_congr hp2.links (fun i hi => ?_) (fun i hi => ?_)
    · rw [hsame i (List.mem_of_mem_dropLast hi)]
    · rw [hsame i (List.mem_of_mem_tail hi)]
  refine Ends.bind (ends_unlinkDo hp2' ?_ hst2 rfl ?_)
  · rcases hl2 with e | ⟨e, e'⟩
    · exact Or.inl e
    · refine Or.inr ⟨e, ?_⟩
      rw [hsame _ (List.mem_cons_of_mem _ (List.getLast_mem _))]; exact e'
  intro h2 hv
  refine hQ h2 ⟨fun i hi1 hi2 => ?_, fun i hi => ?_, fun i => (hv.loc i).trans (hu.loc i)⟩
  · rw [hv.out i hi2, hu.out i hi1]
    by_cases k1 : i = z1 <;> by_cases k2 : i = z2 <;> simp [k1, k2, hz, Ne.symm hz]
  · by_cases hi2 : i ∈ a2 :: t2
    · exact (hv.gone i hi2).1
    · rw [hv.ring hi2]
      exact (hu.gone i (hi.resolve_right hi2)).1

theorem Unlinked2.ring {z1 z2 : Nat} {l1 l2 : List Nat} {h h' : Nat → Node} (hu : Unlinked2 z1 z2 l1 l2 h h') {i : Nat} (h1 : i ∉ l1) (h2 : i ∉ l2) :
    (h' i).ring = (h i).ring := by rw [hu.out i h1 h2]; split <;> rfl
theorem Unlinked2.prev {z1 z2 : Nat} {l1 l2 : List Nat} {h h' : Nat → Node} (hu : Unlinked2 z1 z2 l1 l2 h h') {i : Nat} (h1 : i ∉ l1) (h2 : i ∉ l2) :
    (h' i).prev = (h i).prev := by rw [hu.out i h1 h2]; split <;> rfl
theorem Unlinked2.next {z1 z2 : Nat} {l1 l2 : List Nat} {h h' : Nat → Node} (hu : Unlinked2 z1 z2 l1 l2 h h') {i : Nat} (h1 : i ∉ l1) (h2 : i ∉ l2)
    (k1 : i ≠ z1) (k2 : i ≠ z2) : (h' i).next = (h i).next := by rw [hu.out i h1 h2, if_neg (fun e => e.elim k1 k2)]

theorem Unlinked2.trim {z1 e1 z2 e2 : Nat} {l1 l2 R : List Nat} {h h' : Nat → Node} (hu : Unlinked2 z1 z2 l1 l2 h h')
    (hd1 : ∀ i ∈ R, i ∉ l1) (hd2 : ∀ i ∈ R, i ∉ l2) (hz1 : z1 ∈ R) (hz2 : z2 ∈ R) (he1 : e1 ∈ R) (he2 : e2 ∈ R) :
    Trim (l1 ++ l2) R h (crossed h' z1 e1 z2 e2) := by
  refine ⟨fun i hi hi' => ?_, fun i hi => ?_, fun i hi => ?_, fun i => ?_⟩
  · have k1 : i ≠ z1 := fun e => hi' (e ▸ hz1)
    have k2 : i ≠ z2 := fun e => hi' (e ▸ hz2)
    rw [crossed_out _ k1 (fun e => hi' (e ▸ he1)) k2 (fun e => hi' (e ▸ he2)), hu.out i (fun e => hi (by simp [e])) (fun e => hi (by simp [e])),
      if_neg (fun e => e.elim k1 k2)]
  · rw [crossed_ring]; exact hu.ring (hd1 i hi) (hd2 i hi)
  · rw [crossed_ring]; exact hu.gone i (List.mem_append.1 hi)
  · rw [crossed_loc]; exact hu.loc i

/-- `fix_collinear_path` on one ring with the nodes `A1, R1, A2, R2`: `A1` and `A2` are dropped. -/
theorem ends_fixCollinearPath_same {a1 a2 : Nat} {t1 R1 t2 R2 : List Nat} (hc : IsCycle s.nodes (a1 :: t1 ++ R1 ++ (a2 :: t2 ++ R2))) :
    Ends E (fixCollinearPath a1 (R1.headD a2) a2 (R2.headD a1)) s fun p s' => ∃ h', s' = { s with nodes := h' }
      ∧ Trim (a1 :: t1 ++ a2 :: t2) (R1 ++ R2) s.nodes h' ∧ (R1 ≠ [] → IsCycle h' R1) ∧ (R2 ≠ [] → IsCycle h' R2)
      ∧ p = if R1 = [] then (R2.head?, none) else (R1.head?, R2.head?) := by
  have hnd := hc.nodup
  unfold fixCollinearPath
  by_cases e1 : R1 = []
  · subst e1
    by_cases e2 : R2 = []
    · subst e2
      simp only [List.append_nil, List.headD_nil] at hc hnd ⊢
      rw [if_pos ⟨trivial, trivial⟩]
      refine Ends.bind (ends_unlinkAll (h := s.nodes) (by exact hc) rfl ?_)
      intro h' hu
      refine Ends.pure ⟨h', rfl, ⟨fun i hi _ => ?_, fun i hi => by simp at hi, fun i hi => (hu.gone i (by simpa using hi)).1, hu.loc⟩, by simp, by simp, rfl⟩
      have hi' : i ∉ a1 :: (t1 ++ a2 :: t2) := by simpa using hi
      rw [hu.out i hi', if_neg]
      rintro ⟨e, -⟩
      exact hi' (e ▸ List.getLast_mem _)
    · have hc' : IsCycle s.nodes (a1 :: (t1 ++ a2 :: t2) ++ R2) := by simpa using hc
      obtain ⟨hp, hz, hl, hst, -, -, hdis⟩ := path_of_cycle e2 hc'
      rw [show R2.headD a1 = R2.head e2 by rw [List.headD_eq_head?_getD, head?_eq_of e2]; rfl]
      have hne : a1 ≠ R2.head e2 := fun e => hst (by rw [← e]; simp)
      simp only [List.headD_nil]
      rw [if_neg (fun e => hne e.1), if_neg hne, if_pos trivial]
      refine Ends.bind (Ends.prevOf (hp.prev (done := [])).2 ?_)
      refine Ends.bind (ends_unlinkUntil hp hz hl hst rfl ?_)
      intro h' hu
      refine Ends.bind (Ends.setNext (Ends.bind (Ends.setPrev (Ends.pure ?_))))
      obtain ⟨c1, c2⟩ := close_rest e2 hc' hu
      refine ⟨_, rfl, ?_, by simp, fun _ => c1, ?_⟩
      · exact ⟨fun i hi hi' => c2.out i (by simpa using hi) (by simpa using hi'), fun i hi => c2.live i (by simpa using hi),
          fun i hi => c2.dead i (by simpa using hi), c2.loc⟩
      · rw [if_pos trivial, head?_eq_of e2]
  · rw [show R1.headD a2 = R1.head e1 by rw [List.headD_eq_head?_getD, head?_eq_of e1]; rfl]
    by_cases e2 : R2 = []
    · subst e2
      have hc' : IsCycle s.nodes (a2 :: (t2 ++ a1 :: t1) ++ R1) := by
        have := isCycle_append_comm hc
        simpa using this
      obtain ⟨hp, hz, hl, hst, -, -, hdis⟩ := path_of_cycle e1 hc'
      have hne : a2 ≠ R1.head e1 := fun e => hst (by rw [← e]; simp)
      simp only [List.headD_nil]
      rw [if_neg (fun e => hne e.2), if_pos trivial]
      refine Ends.bind (Ends.prevOf (hp.prev (done := [])).2 ?_)
      refine Ends.bind (ends_unlinkUntil hp hz hl hst rfl ?_)
      intro h' hu
      refine Ends.bind (Ends.setNext (Ends.bind (Ends.setPrev (Ends.pure ?_))))
      obtain ⟨c1, c2⟩ := close_rest e1 hc' hu
      have hmem : ∀ i, i ∈ a1 :: t1 ++ a2 :: t2 ↔ i ∈ a2 :: (t2 ++ a1 :: t1) := by intro i; simp; tauto
      refine ⟨_, rfl, ?_, fun _ => c1, by simp, ?_⟩
      · exact ⟨fun i hi hi' => c2.out i (by rw [← hmem]; exact hi) (by simpa using hi'), fun i hi => c2.live i (by simpa using hi),
          fun i hi => c2.dead i ((hmem i).1 hi), c2.loc⟩
      · rw [if_neg e1, head?_eq_of e1]; rfl
    · rw [show R2.headD a1 = R2.head e2 by rw [List.headD_eq_head?_getD, head?_eq_of e2]; rfl]
      -- two rings are left
      have hc1 : IsCycle s.nodes (a1 :: t1 ++ (R1 ++ (a2 :: t2 ++ R2))) := by simpa using hc
      have hc2 : IsCycle s.nodes (a2 :: t2 ++ (R2 ++ (a1 :: t1 ++ R1))) := by
        have := isCycle_append_comm hc
        simpa using this
      obtain ⟨p1, z1, n1, st1, -, -, d1⟩ := path_of_cycle (by simp) hc1
      obtain ⟨p2, z2, n2, st2, -, -, d2⟩ := path_of_cycle (by simp) hc2
      simp only [List.head_append_of_ne_nil e1, List.head_append_of_ne_nil e2] at n1 n2 st1 st2
      have g1 : (R1 ++ (a2 :: t2 ++ R2)).getLast (by simp) = R2.getLast e2 := by
        rw [List.getLast_append_of_ne_nil _ (by simp), List.getLast_append_of_ne_nil _ e2]
      have g2 : (R2 ++ (a1 :: t1 ++ R1)).getLast (by simp) = R1.getLast e1 := by
        rw [List.getLast_append_of_ne_nil _ (by simp), List.getLast_append_of_ne_nil _ e1]
      rw [g1] at p1 z1
      rw [g2] at p2 z2
      -- everything is disjoint
      have dA : ∀ i ∈ a1 :: t1, i ∉ a2 :: t2 := fun i hi hi' => d1 i (by simp only [List.mem_append]; tauto) hi
      have dR1 : ∀ i ∈ R1, i ∉ a1 :: t1 := fun i hi => d1 i (by simp [hi])
      have dR1' : ∀ i ∈ R1, i ∉ a2 :: t2 := fun i hi => d2 i (by simp [hi])
      have dR2 : ∀ i ∈ R2, i ∉ a1 :: t1 := fun i hi => d1 i (by simp [hi])
      have dR2' : ∀ i ∈ R2, i ∉ a2 :: t2 := fun i hi => d2 i (by simp [hi])
      obtain ⟨nA, nB, nAB⟩ := List.nodup_append.1 hnd
      have dRR : ∀ i ∈ R1, i ∉ R2 := fun i hi hi' => nAB i (by simp [hi]) i (by simp [hi']) rfl
      have nR1 := (List.nodup_append.1 nA).2.1
      have nR2 := (List.nodup_append.1 nB).2.1
      have chain := isCycle_seg hc
      rw [List.isChain_append, List.isChain_append, List.isChain_append] at chain
      have ch1 := chain.1.2.1
      have ch2 := chain.2.1.2.1
      have l1 := List.getLast_mem e1
      have l2 := List.getLast_mem e2
      have m1 := List.head_mem e1
      have m2 := List.head_mem e2
      have hzz : R2.getLast e2 ≠ R1.getLast e1 := fun e => dRR _ l1 (e ▸ l2)
      have hn1 : a1 ≠ R2.head e2 := fun e => dR2 _ m2 (by rw [← e]; simp)
      have hn2 : a2 ≠ R1.head e1 := fun e => dR1' _ m1 (by rw [← e]; simp)
      have hn3 : a1 ≠ R1.head e1 := fun e => dR1 _ m1 (by rw [← e]; simp)
      have hn4 : a2 ≠ R2.head e2 := fun e => dR2' _ m2 (by rw [← e]; simp)
      rw [if_neg (fun e => hn1 e.1), if_neg hn1, if_neg hn2]
      refine Ends.bind (Ends.getNode (Ends.bind (Ends.getNode ?_)))
      rw [(p1.prev (done := [])).2, (p2.prev (done := [])).2]
      refine ends_unlinkTwice p1 p2 (Or.inr ⟨z1, n1⟩) (Or.inr ⟨z2, n2⟩) (fun e => st1 (by simp [e])) (fun e => st2 (by simp [e])) dA
        (dR2' _ l2) (dR1 _ l1) hzz rfl ?_
      intro h2 hu
      rw [if_neg (fun e => hn3 e.1), if_neg hn3, if_neg hn4]
      refine Ends.bind (Ends.deref rfl (Ends.bind (Ends.setNext (Ends.bind (Ends.setPrev ?_)))))
      refine Ends.bind (Ends.deref rfl (Ends.bind (Ends.setNext (Ends.bind (Ends.setPrev (Ends.pure ?_))))))
      refine ⟨crossed h2 (R2.getLast e2) (R1.head e1) (R1.getLast e1) (R2.head e2), rfl, ?_, fun _ => ?_, fun _ => ?_, ?_⟩
      · refine hu.trim (fun i hi => ?_) (fun i hi => ?_) (by simp [l2]) (by simp [l1]) (by simp [m1]) (by simp [m2])
        · rcases List.mem_append.1 hi with hi | hi
          · exact dR1 i hi
          · exact dR2 i hi
        · rcases List.mem_append.1 hi with hi | hi
          · exact dR1' i hi
          · exact dR2' i hi
      · refine isCycle_close e1 nR1 ch1 (fun i hi hne => ?_) (fun i hi hne => ?_) ?_ ?_
        · have : i ≠ R2.getLast e2 := fun e => dRR i hi (e ▸ l2)
          rw [crossed_next, if_neg hne, if_neg this]
          exact hu.next (dR1 i hi) (dR1' i hi) this hne
        · have : i ≠ R2.head e2 := fun e => dRR i hi (e ▸ m2)
          rw [crossed_prev, if_neg hne, if_neg this]
          exact hu.prev (dR1 i hi) (dR1' i hi)
        · rw [crossed_next, if_pos rfl]
        · rw [crossed_prev, if_pos rfl]
      · have q1 : R2.getLast e2 ≠ R1.getLast e1 := hzz
        have q2 : R2.head e2 ≠ R1.head e1 := fun e => dRR _ m1 (e ▸ m2)
        refine isCycle_close e2 nR2 ch2 (fun i hi hne => ?_) (fun i hi hne => ?_) ?_ ?_
        · have : i ≠ R1.getLast e1 := fun e => dRR _ l1 (e ▸ hi)
          rw [crossed_next, if_neg this, if_neg hne]
          exact hu.next (dR2 i hi) (dR2' i hi) hne this
        · have : i ≠ R1.head e1 := fun e => dRR _ m1 (e ▸ hi)
          rw [crossed_prev, if_neg this, if_neg hne]
          exact hu.prev (dR2 i hi) (dR2' i hi)
        · rw [crossed_next, if_neg q1, if_pos rfl]
        · rw [crossed_prev, if_neg q2, if_pos rfl]
      · rw [if_neg e1, head?_eq_of e1, head?_eq_of e2]

/-- The last node of a ring is before its first one. -/
theorem path_of_ring {h : Nat → Node} {a : Nat} {l R : List Nat} (hc : IsCycle h (a :: l ++ R)) :
    LinkPath h ((a :: l ++ R).getLast (by simp)) (a :: l) ∧ ((a :: l ++ R).getLast (by simp) = (a :: l).getLast (by simp)
      ∨ (a :: l ++ R).getLast (by simp) ∉ a :: l ∧ (h ((a :: l).getLast (by simp))).next = some (R.headD a)) ∧ R.headD a ∉ l := by
  by_cases e : R = []
  · subst e
    simp only [List.append_nil] at hc ⊢
    obtain ⟨hnd, hseg, hcl⟩ := (isCycle_iff (by simp)).1 hc
    refine ⟨⟨hnd, List.isChain_cons_cons.2 ⟨hcl, hseg⟩⟩, Or.inl trivial, ?_⟩
    exact (List.nodup_cons.1 hnd).1
  · obtain ⟨p1, p2, p3, p4, -⟩ := path_of_cycle e hc
    have g : (a :: l ++ R).getLast (by simp) = R.getLast e := List.getLast_append_of_ne_nil _ e
    have g' : R.headD a = R.head e := by rw [List.headD_eq_head?_getD, head?_eq_of e]; rfl
    simp only [g, g']
    exact ⟨p1, Or.inr ⟨p2, p3⟩, fun hm => p4 (by simp [hm])⟩

/-- `fix_collinear_path` on two rings with the nodes `A1, R1` and `A2, R2`: `A1` and `A2` are dropped, the rest is joined. -/
theorem ends_fixCollinearPath_diff {a1 a2 : Nat} {t1 R1 t2 R2 : List Nat} (hc1 : IsCycle s.nodes (a1 :: t1 ++ R1))
    (hc2 : IsCycle s.nodes (a2 :: t2 ++ R2)) (hdis : ∀ i ∈ a1 :: t1 ++ R1, i ∉ a2 :: t2 ++ R2) :
    Ends E (fixCollinearPath a1 (R1.headD a1) a2 (R2.headD a2)) s fun p s' => ∃ h', s' = { s with nodes := h' }
      ∧ Trim (a1 :: t1 ++ a2 :: t2) (R1 ++ R2) s.nodes h' ∧ (R1 ++ R2 ≠ [] → IsCycle h' (R1 ++ R2)) ∧ p.1 = (R1 ++ R2).head? := by
  obtain ⟨p1, x1, y1⟩ := path_of_ring hc1
  obtain ⟨p2, x2, y2⟩ := path_of_ring hc2
  have nd1 := hc1.nodup
  have nd2 := hc2.nodup
  obtain ⟨nA1, nR1, nAR1⟩ := List.nodup_append.1 nd1
  obtain ⟨nA2, nR2, nAR2⟩ := List.nodup_append.1 nd2
  have ch1 := isCycle_seg hc1
  have ch2 := isCycle_seg hc2
  rw [List.isChain_append] at ch1 ch2
  have E1 : R1.headD a1 ∈ a1 :: t1 ++ R1 := by cases R1 <;> simp
  have E2 : R2.headD a2 ∈ a2 :: t2 ++ R2 := by cases R2 <;> simp
  have Z1 : (a1 :: t1 ++ R1).getLast (by simp) ∈ a1 :: t1 ++ R1 := List.getLast_mem _
  have Z2 : (a2 :: t2 ++ R2).getLast (by simp) ∈ a2 :: t2 ++ R2 := List.getLast_mem _
  have n1 : a1 ≠ R2.headD a2 := fun e => hdis a1 (by simp) (e ▸ E2)
  have n2 : a2 ≠ R1.headD a1 := fun e => hdis _ E1 (by rw [← e]; simp)
  have dA : ∀ i ∈ a1 :: t1, i ∉ a2 :: t2 := fun i hi hi' => hdis i (List.mem_append_left _ hi) (List.mem_append_left _ hi')
  have dR1 : ∀ i ∈ R1, i ∉ a1 :: t1 := fun i hi hi' => nAR1 i hi' i hi rfl
  have dR2' : ∀ i ∈ R2, i ∉ a2 :: t2 := fun i hi hi' => nAR2 i hi' i hi rfl
  have dR1' : ∀ i ∈ R1, i ∉ a2 :: t2 := fun i hi hi' => hdis i (List.mem_append_right _ hi) (List.mem_append_left _ hi')
  have dR2 : ∀ i ∈ R2, i ∉ a1 :: t1 := fun i hi hi' => hdis i (List.mem_append_left _ hi') (List.mem_append_right _ hi)
  have dRR : ∀ i ∈ R1, i ∉ R2 := fun i hi hi' => hdis i (List.mem_append_right _ hi) (List.mem_append_right _ hi')
  have zz1 : (a1 :: t1 ++ R1).getLast (by simp) ∉ a2 :: t2 := fun e => hdis _ Z1 (List.mem_append_left _ e)
  have zz2 : (a2 :: t2 ++ R2).getLast (by simp) ∉ a1 :: t1 := fun e => hdis _ (List.mem_append_left _ e) Z2
  have zz : (a1 :: t1 ++ R1).getLast (by simp) ≠ (a2 :: t2 ++ R2).getLast (by simp) := fun e => hdis _ Z1 (e ▸ Z2)
  unfold fixCollinearPath
  rw [if_neg (fun e => n1 e.1), if_neg n1, if_neg n2]
  refine Ends.bind (Ends.getNode (Ends.bind (Ends.getNode ?_)))
  rw [(p1.prev (done := [])).2, (p2.prev (done := [])).2]
  refine ends_unlinkTwice p1 p2 x1 x2 y1 y2 dA zz1 zz2 zz rfl ?_
  intro h2 hu
  simp only [List.getLastD_nil]
  by_cases e1 : R1 = []
  · subst e1
    simp only [List.append_nil, List.headD_nil, List.nil_append] at *
    have zA1 : (a1 :: t1).getLast (by simp) ∈ a1 :: t1 := List.getLast_mem _
    by_cases e2 : R2 = []
    · subst e2
      simp only [List.append_nil, List.headD_nil] at *
      have zA2 : (a2 :: t2).getLast (by simp) ∈ a2 :: t2 := List.getLast_mem _
      rw [if_pos ⟨trivial, trivial⟩]
      refine Ends.pure ⟨h2, rfl, ⟨fun i hi _ => ?_, fun i hi => by simp at hi, fun i hi => hu.gone i (List.mem_append.1 hi), hu.loc⟩, by simp, rfl⟩
      have i1 : i ∉ a1 :: t1 := fun e => hi (List.mem_append_left _ e)
      have i2 : i ∉ a2 :: t2 := fun e => hi (List.mem_append_right _ e)
      rw [hu.out i i1 i2, if_neg]
      rintro (e | e)
      · exact i1 (e ▸ zA1)
      · exact i2 (e ▸ zA2)
    · have g' : R2.headD a2 = R2.head e2 := by rw [List.headD_eq_head?_getD, head?_eq_of e2]; rfl
      have g : (a2 :: t2 ++ R2).getLast (by simp) = R2.getLast e2 := List.getLast_append_of_ne_nil _ e2
      have l2 := List.getLast_mem e2
      have m2 := List.head_mem e2
      have hn4 : a2 ≠ R2.head e2 := fun e => dR2' _ m2 (by rw [← e]; simp)
      simp only [g'] at *
      simp only [g] at *
      rw [if_neg (fun e => hn4 e.2), if_pos trivial]
      refine Ends.bind (Ends.deref rfl (Ends.bind (Ends.setNext (Ends.bind (Ends.setPrev (Ends.pure ?_))))))
      refine ⟨putPrev (putNext h2 (R2.getLast e2) (some (R2.head e2))) (R2.head e2) (some (R2.getLast e2)), rfl, ⟨fun i hi hi' => ?_, fun i hi => ?_, fun i hi => ?_, fun i => ?_⟩, fun _ => ?_, by rw [head?_eq_of e2]⟩
      · have i1 : i ∉ a1 :: t1 := fun e => hi (List.mem_append_left _ e)
        have i2 : i ∉ a2 :: t2 := fun e => hi (List.mem_append_right _ e)
        have k1 : i ≠ R2.head e2 := fun e => hi' (e ▸ m2)
        have k2 : i ≠ R2.getLast e2 := fun e => hi' (e ▸ l2)
        rw [putPrev_ne _ _ _ _ k1, putNext_ne _ _ _ _ k2, hu.out i i1 i2, if_neg]
        rintro (e | e)
        · exact i1 (e ▸ zA1)
        · exact k2 e
      · links; exact hu.ring (dR2 i hi) (dR2' i hi)
      · links; exact hu.gone i (List.mem_append.1 hi)
      · unfold locOf; links; exact hu.loc i
      · refine isCycle_close e2 nR2 ch2.2.1 (fun i hi hne => ?_) (fun i hi hne => ?_) ?_ ?_
        · links; rw [if_neg hne]
          exact hu.next (dR2 i hi) (dR2' i hi) (fun e => dR2 i hi (e ▸ zA1)) hne
        · links; rw [if_neg hne]; exact hu.prev (dR2 i hi) (dR2' i hi)
        · links; simp
        · links; simp
  · have g' : R1.headD a1 = R1.head e1 := by rw [List.headD_eq_head?_getD, head?_eq_of e1]; rfl
    have g : (a1 :: t1 ++ R1).getLast (by simp) = R1.getLast e1 := List.getLast_append_of_ne_nil _ e1
    have l1 := List.getLast_mem e1
    have m1 := List.head_mem e1
    have hn3 : a1 ≠ R1.head e1 := fun e => dR1 _ m1 (by rw [← e]; simp)
    simp only [g'] at *
    simp only [g] at *
    rw [if_neg (fun e => hn3 e.1), if_neg hn3]
    by_cases e2 : R2 = []
    · subst e2
      simp only [List.append_nil, List.headD_nil] at *
      have zA2 : (a2 :: t2).getLast (by simp) ∈ a2 :: t2 := List.getLast_mem _
      rw [if_pos trivial]
      refine Ends.bind (Ends.deref rfl (Ends.bind (Ends.setNext (Ends.bind (Ends.setPrev (Ends.pure ?_))))))
      refine ⟨putPrev (putNext h2 (R1.getLast e1) (some (R1.head e1))) (R1.head e1) (some (R1.getLast e1)), rfl, ⟨fun i hi hi' => ?_, fun i hi => ?_, fun i hi => ?_, fun i => ?_⟩, fun _ => ?_, by rw [head?_eq_of e1]⟩
      · have i1 : i ∉ a1 :: t1 := fun e => hi (List.mem_append_left _ e)
        have i2 : i ∉ a2 :: t2 := fun e => hi (List.mem_append_right _ e)
        have k1 : i ≠ R1.head e1 := fun e => hi' (e ▸ m1)
        have k2 : i ≠ R1.getLast e1 := fun e => hi' (e ▸ l1)
        rw [putPrev_ne _ _ _ _ k1, putNext_ne _ _ _ _ k2, hu.out i i1 i2, if_neg]
        rintro (e | e)
        · exact k2 e
        · exact i2 (e ▸ zA2)
      · links; exact hu.ring (dR1 i hi) (dR1' i hi)
      · links; exact hu.gone i (List.mem_append.1 hi)
      · unfold locOf; links; exact hu.loc i
      · refine isCycle_close e1 nR1 ch1.2.1 (fun i hi hne => ?_) (fun i hi hne => ?_) ?_ ?_
        · links; rw [if_neg hne]
          exact hu.next (dR1 i hi) (dR1' i hi) hne (fun e => dR1' i hi (e ▸ zA2))
        · links; rw [if_neg hne]; exact hu.prev (dR1 i hi) (dR1' i hi)
        · links; simp
        · links; simp
    · have f' : R2.headD a2 = R2.head e2 := by rw [List.headD_eq_head?_getD, head?_eq_of e2]; rfl
      have f : (a2 :: t2 ++ R2).getLast (by simp) = R2.getLast e2 := List.getLast_append_of_ne_nil _ e2
      have l2 := List.getLast_mem e2
      have m2 := List.head_mem e2
      have hn4 : a2 ≠ R2.head e2 := fun e => dR2' _ m2 (by rw [← e]; simp)
      simp only [f'] at *
      simp only [f] at *
      rw [if_neg hn4]
      refine Ends.bind (Ends.deref rfl (Ends.bind (Ends.setNext (Ends.bind (Ends.setPrev ?_)))))
      refine Ends.bind (Ends.deref rfl (Ends.bind (Ends.setNext (Ends.bind (Ends.setPrev (Ends.pure ?_))))))
      refine ⟨crossed h2 (R1.getLast e1) (R1.head e1) (R2.getLast e2) (R2.head e2), rfl, ?_, fun _ => ?_, ?_⟩
      · refine hu.trim (fun i hi => ?_) (fun i hi => ?_) (by simp [l1]) (by simp [l2]) (by simp [m1]) (by simp [m2])
        · rcases List.mem_append.1 hi with hi | hi
          · exact dR1 i hi
          · exact dR2 i hi
        · rcases List.mem_append.1 hi with hi | hi
          · exact dR1' i hi
          · exact dR2' i hi
      · have q1 : R1.getLast e1 ≠ R2.getLast e2 := zz
        have q2 : R2.head e2 ≠ R1.head e1 := fun e => dRR _ m1 (e ▸ m2)
        have c1 : R1.IsChain (Link (crossed h2 (R1.getLast e1) (R1.head e1) (R2.getLast e2) (R2.head e2))) := by
          refine seg_congr ch1.2.1 (fun i hi => ?_) (fun i hi => ?_)
          · have hi' := List.mem_of_mem_dropLast hi
            have k1 := ne_getLast_of_dropLast e1 nR1 hi
            have k2 : i ≠ R2.getLast e2 := fun e => dRR i hi' (e ▸ l2)
            rw [crossed_next, if_neg k2, if_neg k1]
            exact hu.next (dR1 i hi') (dR1' i hi') k1 k2
          · have hi' := List.mem_of_mem_tail hi
            have k1 := ne_head_of_tail e1 nR1 hi
            have k2 : i ≠ R2.head e2 := fun e => dRR i hi' (e ▸ m2)
            rw [crossed_prev, if_neg k1, if_neg k2]
            exact hu.prev (dR1 i hi') (dR1' i hi')
        have c2 : R2.IsChain (Link (crossed h2 (R1.getLast e1) (R1.head e1) (R2.getLast e2) (R2.head e2))) := by
          refine seg_congr ch2.2.1 (fun i hi => ?_) (fun i hi => ?_)
          · have hi' := List.mem_of_mem_dropLast hi
            have k1 := ne_getLast_of_dropLast e2 nR2 hi
            have k2 : i ≠ R1.getLast e1 := fun e => dRR _ l1 (e ▸ hi')
            rw [crossed_next, if_neg k1, if_neg k2]
            exact hu.next (dR2 i hi') (dR2' i hi') k2 k1
          · have hi' := List.mem_of_mem_tail hi
            have k1 := ne_head_of_tail e2 nR2 hi
            have k2 : i ≠ R1.head e1 := fun e => dRR _ m1 (e ▸ hi')
            rw [crossed_prev, if_neg k2, if_neg k1]
            exact hu.prev (dR2 i hi') (dR2' i hi')
        rw [isCycle_iff (by simp [e1])]
        refine ⟨List.nodup_append.2 ⟨nR1, nR2, fun i hi j hj e => dRR i hi (e ▸ hj)⟩, ?_, ?_⟩
        · rw [List.isChain_append]
          refine ⟨c1, c2, fun x hx y hy => ?_⟩
          rw [List.getLast?_eq_getLast_of_ne_nil e1] at hx
          rw [head?_eq_of e2] at hy
          cases Option.mem_some.1 hx
          cases Option.mem_some.1 hy
          exact ⟨by rw [crossed_next, if_neg q1, if_pos rfl], by rw [crossed_prev, if_neg q2, if_pos rfl]⟩
        · rw [List.getLast_append_of_ne_nil _ e2, List.head_append_of_ne_nil e1]
          exact ⟨by rw [crossed_next, if_pos rfl], by rw [crossed_prev, if_pos rfl]⟩
      · rw [List.head?_append, head?_eq_of e1]; rfl

end

end Wagyu
