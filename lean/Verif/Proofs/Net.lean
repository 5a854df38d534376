import Verif.Proofs.Calm
import Verif.Proofs.KeepTopology

/-!
# The links between point nodes during the last stage
-/

namespace Wagyu

open Spec

/-- On the set `U` of point nodes, which contains every node that records a ring and every first node of a ring, the links
form closed doubly linked lists. -/
structure Net (U : Nat → Prop) (n : Nat) (s : St) : Prop where
  nn : s.nn = n
  fwd : ∀ i, U i → ∃ j, U j ∧ Link s.nodes i j
  bwd : ∀ j, U j → ∃ i, U i ∧ Link s.nodes i j
  lab : ∀ i < n, (s.nodes i).ring ≠ none → U i
  root : ∀ r i, (s.rings r).node = some i → U i
  lt : ∀ i, U i → i < n
  all : ∀ i ∈ s.allNodes, i < n

section
variable {U : Nat → Prop} {n : Nat} {s s' : St}

theorem Net.calm (h : Net U n s) (hc : Calm s s') : Net U n s' where
  nn := hc.nn.trans h.nn
  fwd := by rw [hc.nodes]; exact h.fwd
  bwd := by rw [hc.nodes]; exact h.bwd
  lab := by rw [hc.nodes]; exact h.lab
  root r i hi := by
    rcases hc.node r with e | e
    · exact h.root r i (e ▸ hi)
    · rw [e] at hi; cases hi
  lt := h.lt
  all := by rw [hc.all]; exact h.all

theorem net_pres {α : Type} {m : M α} (hm : Pres Calm m) : Keep (Net U n) m fun _ => True :=
  ⟨fun _ hs => (Post.of_pres hm).mono (fun _ _ h => ⟨hs.calm h, trivial⟩) fun _ _ _ => trivial⟩
theorem net_any {α : Type} {m : M α} [hm : Pres Calm m] : Keep (Net U n) m fun _ => True := net_pres hm

/-- Two nodes exchange their successors. -/
theorem Net.exchange (h : Net U n s) {a b c d : Nat} (ha : U a) (hb : U b) (hac : Link s.nodes a c) (hbd : Link s.nodes b d)
    {N : Nat → Node} (h1 : (N a).next = some d) (h2 : (N b).next = some c) (h3 : (N c).prev = some b) (h4 : (N d).prev = some a)
    (h5 : ∀ i, i ≠ a → i ≠ b → (N i).next = (s.nodes i).next) (h6 : ∀ i, i ≠ c → i ≠ d → (N i).prev = (s.nodes i).prev)
    (h7 : ∀ i, (N i).ring = (s.nodes i).ring) : Net U n { s with nodes := N } where
  nn := h.nn
  fwd i hi := by
    show ∃ j, U j ∧ Link N i j
    have hc : U c := by obtain ⟨j, hj, e⟩ := h.fwd a ha; have := e.1.symm.trans hac.1; cases this; exact hj
    have hd : U d := by obtain ⟨j, hj, e⟩ := h.fwd b hb; have := e.1.symm.trans hbd.1; cases this; exact hj
    by_cases e1 : i = a
    · subst e1; exact ⟨d, hd, h1, h4⟩
    by_cases e2 : i = b
    · subst e2; exact ⟨c, hc, h2, h3⟩
    obtain ⟨j, hj, e3, e4⟩ := h.fwd i hi
    refine ⟨j, hj, (h5 i e1 e2).trans e3, (h6 j ?_ ?_).trans e4⟩
    · rintro rfl; have := e4.symm.trans hac.2; cases this; exact e1 rfl
    · rintro rfl; have := e4.symm.trans hbd.2; cases this; exact e2 rfl
  bwd j hj := by
    show ∃ i, U i ∧ Link N i j
    by_cases e1 : j = c
    · subst e1; exact ⟨b, hb, h2, h3⟩
    by_cases e2 : j = d
    · subst e2; exact ⟨a, ha, h1, h4⟩
    obtain ⟨i, hi, e3, e4⟩ := h.bwd j hj
    refine ⟨i, hi, (h5 i ?_ ?_).trans e3, (h6 j e1 e2).trans e4⟩
    · rintro rfl; have := e3.symm.trans hac.1; cases this; exact e1 rfl
    · rintro rfl; have := e3.symm.trans hbd.1; cases this; exact e2 rfl
  lab i hi hr := h.lab i hi (by rw [← h7]; exact hr)
  root := h.root
  lt := h.lt
  all := h.all

theorem net_switchNext {a b : Nat} (ha : U a) (hb : U b) : Keep (Net U n) (switchNext a b) fun _ => True := by
  refine ⟨fun s h => ?_⟩
  obtain ⟨c, hc, hac⟩ := h.fwd a ha
  obtain ⟨d, hd, hbd⟩ := h.fwd b hb
  have hcd : a ≠ b → c ≠ d := by
    rintro hn rfl; have := hac.2.symm.trans hbd.2; cases this; exact hn rfl
  have hdc : a = b → c = d := by
    rintro rfl; have := hac.1.symm.trans hbd.1; cases this; rfl
  unfold switchNext
  refine Post.bind (Post.getNode (Post.bind (Post.getNode (Post.bind (Post.modNode (Post.bind (Post.modNode (Post.bind (Post.deref (fun x hx => ?_) fun _ => trivial))))))))) 
  refine Post.bind (Post.modNode (Post.bind (Post.deref (fun y hy => ?_) fun _ => trivial)))
  refine Post.modNode ⟨?_, trivial⟩
  cases hac.1.symm.trans hx
  cases hbd.1.symm.trans hy
  refine h.exchange ha hb hac hbd ?_ ?_ ?_ ?_ ?_ ?_ ?_
  all_goals dsimp only
  all_goals simp only [upd]
  all_goals grind [Link]

theorem net_setNodeRing {i r : Nat} (hi : U i) : Keep (Net U n) (setNodeRing i (some r)) fun _ => True := by
  refine ⟨fun s h => Post.modNode ⟨⟨h.nn, fun k hk => ?_, fun k hk => ?_, fun k hk hr => ?_, h.root, h.lt, h.all⟩, trivial⟩⟩
  · obtain ⟨j, h1, h2, h3⟩ := h.fwd k hk
    refine ⟨j, h1, ?_, ?_⟩ <;> simp only [upd] <;> grind
  · obtain ⟨j, h1, h2, h3⟩ := h.bwd k hk
    refine ⟨j, h1, ?_, ?_⟩ <;> simp only [upd] <;> grind
  · by_cases e : k = i
    · subst e; exact hi
    · dsimp only at hr; rw [upd_ne _ _ e] at hr; exact h.lab k hk hr

theorem net_setRingNode {i r : Nat} (hi : U i) : Keep (Net U n) (setRingNode r (some i)) fun _ => True := by
  refine ⟨fun s h => Post.modRing ⟨⟨h.nn, h.fwd, h.bwd, h.lab, fun k j hk => ?_, h.lt, h.all⟩, trivial⟩⟩
  dsimp only at hk
  by_cases e : k = r
  · subst e; rw [upd_same] at hk; cases hk; exact hi
  · rw [upd_ne _ _ e] at hk; exact h.root k j hk

theorem net_nextOf {i : Nat} (hi : U i) : Keep (Net U n) (nextOf i) U := by
  refine ⟨fun s h => ?_⟩
  obtain ⟨j, h1, h2, h3⟩ := h.fwd i hi
  exact Post.run (run_nextOf h2) ⟨h, h1⟩
theorem net_prevOf {i : Nat} (hi : U i) : Keep (Net U n) (prevOf i) U := by
  refine ⟨fun s h => ?_⟩
  obtain ⟨j, h1, h2, h3⟩ := h.bwd i hi
  exact Post.run (run_prevOf h3) ⟨h, h1⟩
theorem net_getRing {r : Nat} : Keep (Net U n) (getRing r) fun g => ∀ i, g.node = some i → U i := ⟨fun _ h => ⟨h, h.root r⟩⟩
theorem net_getNode {i : Nat} (hi : i < n) : Keep (Net U n) (getNode i) fun nd => nd.ring ≠ none → U i := ⟨fun _ h => ⟨h, h.lab i hi⟩⟩

theorem net_nodesFrom {start : Nat} (h : U start) : Keep (Net U n) (nodesFrom start) fun l => ∀ i ∈ l, U i := by
  unfold nodesFrom
  refine Keep.loopM (fun st => U st.1 ∧ ∀ i ∈ st.2, U i) ⟨h, by simp⟩ fun st ⟨h1, h2⟩ => ?_
  have h3 : ∀ i ∈ st.1 :: st.2, U i := by simpa using ⟨h1, h2⟩
  refine Keep.bind (net_nextOf h1) fun j hj => Keep.ite (fun _ => Keep.pure ?_) fun _ => Keep.pure ⟨hj, h3⟩
  intro i hi
  exact h3 i (List.mem_reverse.1 hi)

theorem net_updatePoints {r : Nat} : Keep (Net U n) (updatePoints r) fun _ => True := by
  unfold updatePoints forNodes
  refine Keep.bind net_getRing fun g hg => Keep.bind Keep.deref fun i hi => ?_
  refine Keep.loopM U (hg i hi) fun k hk => Keep.bind (net_setNodeRing hk) fun _ _ => Keep.bind (net_nextOf hk) fun j hj => ?_
  exact Keep.ite (fun _ => Keep.pure trivial) fun _ => Keep.pure hj

/-! ## Self-intersections -/

theorem net_correctSelfIntersection {a b : Nat} (ha : U a) (hb : U b) : Keep (Net U n) (correctSelfIntersection a b) fun _ => True := by
  have cut : ∀ {x y : Nat}, ∀ {β : Type} {f : M β} {Q : β → Prop}, Keep (Net U n) f Q → ∀ s, Net U n s → Link s.nodes x a → Link s.nodes y b → U x → U y →
      Ok (do setPrev a (some y); setNext y (some a); setPrev b (some x); setNext x (some b); f) s fun r s' => Net U n s' ∧ Q r := by
    intro x y β f Q hf s h hx hy hux huy
    refine Post.bind (Post.modNode (Post.bind (Post.modNode (Post.bind (Post.modNode (Post.bind (Post.modNode ?_)))))))
    refine hf.run _ ?_
    have hab : x ≠ y → a ≠ b := by
      rintro hn rfl; have := hx.2.symm.trans hy.2; cases this; exact hn rfl
    have hba : x = y → a = b := by
      rintro rfl; have := hx.1.symm.trans hy.1; cases this; rfl
    refine h.exchange hux huy hx hy ?_ ?_ ?_ ?_ ?_ ?_ ?_
    all_goals dsimp only
    all_goals simp only [upd]
    all_goals grind [Link]
  unfold correctSelfIntersection
  refine Keep.bind net_any fun _ _ => Keep.bind net_any fun _ _ => Keep.ite (fun _ => Keep.pure trivial) fun _ => ?_
  refine ⟨fun s h => ?_⟩
  obtain ⟨x, hx, h1⟩ := h.bwd a ha
  obtain ⟨y, hy, h2⟩ := h.bwd b hb
  refine Post.bind (Post.run (run_prevOf h1.2) (Post.bind (Post.run (run_prevOf h2.2) ?_)))
  refine cut ?_ s h h1 h2 hx hy
  refine Keep.bind net_any fun _ _ => Keep.bind net_any fun _ _ => Keep.bind net_any fun _ _ => Keep.bind net_any fun _ _ => ?_
  refine Keep.ite (fun _ => ?_) fun _ => ?_
  · refine Keep.bind (net_setRingNode ha) fun _ _ => Keep.bind net_any fun _ _ => Keep.bind (net_setRingNode hb) fun _ _ => Keep.bind net_any fun _ _ => ?_
    exact Keep.bind net_updatePoints fun _ _ => Keep.pure trivial
  · refine Keep.bind (net_setRingNode hb) fun _ _ => Keep.bind net_any fun _ _ => Keep.bind (net_setRingNode ha) fun _ _ => Keep.bind net_any fun _ _ => ?_
    exact Keep.bind net_updatePoints fun _ _ => Keep.pure trivial

theorem net_forPairs_inner {σ : Type} {S : σ → Prop} {W : Nat → Prop} {body : Nat → Nat → σ → M σ} {i : Nat} (hi : W i)
    (hb : ∀ i j a, W i → W j → S a → Keep (Net U n) (body i j a) S) :
    ∀ {l : List Nat} {a : σ}, (∀ i ∈ l, W i) → S a → Keep (Net U n) (forPairs.inner body i l a) S
  | [], a, _, ha => Keep.pure ha
  | j :: l, a, hl, ha => by
    rw [forPairs.inner]
    have hj : W j := hl j (by simp)
    refine Keep.bind (P := S) (Keep.bind net_any fun _ _ => Keep.ite (fun _ => Keep.pure ha) fun _ => hb i j a hi hj ha) fun a' ha' => ?_
    exact net_forPairs_inner hi hb (fun k hk => hl k (by simp [hk])) ha'
theorem net_forPairs {σ : Type} {S : σ → Prop} {W : Nat → Prop} {body : Nat → Nat → σ → M σ}
    (hb : ∀ i j a, W i → W j → S a → Keep (Net U n) (body i j a) S) :
    ∀ {l : List Nat} {a : σ}, (∀ i ∈ l, W i) → S a → Keep (Net U n) (forPairs body l a) S
  | [], a, _, ha => Keep.pure ha
  | j :: l, a, hl, ha => by
    rw [forPairs]
    have hj : W j := hl j (by simp)
    have hl' : ∀ k ∈ l, W k := fun k hk => hl k (by simp [hk])
    refine Keep.bind (P := S) (Keep.bind net_any fun _ _ => Keep.ite (fun _ => Keep.pure ha) fun _ => net_forPairs_inner hj hb hl' ha) fun a' ha' => ?_
    exact net_forPairs hb hl' ha'

theorem net_correctRepeatedPoints {acc nodes : List Nat} {a b : Nat} (h : ∀ i ∈ nodes, U i) :
    Keep (Net U n) (correctRepeatedPoints acc nodes a b) fun _ => True := by
  unfold correctRepeatedPoints
  refine net_forPairs (W := U) (fun i j a hi hj _ => ?_) (fun i hi => h i (List.mem_of_mem_take (List.mem_of_mem_drop hi))) trivial
  refine Keep.bind (net_correctSelfIntersection hi hj) fun r _ => ?_
  split <;> exact Keep.pure trivial

theorem net_sortedNodes {r : Nat} : Keep (Net U n) (sortedNodes r) fun l => ∀ i ∈ l, U i := by
  unfold sortedNodes
  refine Keep.bind net_getRing fun g hg => Keep.bind Keep.deref fun i hi => Keep.bind (net_nodesFrom (hg i hi)) fun l hl => ?_
  refine Keep.bind (Keep.mapM' (Q := fun p => U p.1) fun k hk => ?_) fun l hl => Keep.pure (mem_fst_pySorted hl)
  exact Keep.bind net_any fun _ _ => Keep.pure (hl k hk)

theorem net_findAndCorrectRepeatedPoints {r : Nat} : Keep (Net U n) (findAndCorrectRepeatedPoints r) fun _ => True := by
  unfold findAndCorrectRepeatedPoints
  refine Keep.bind net_sortedNodes fun nodes hn => Keep.loopM (fun _ => True) trivial ?_
  rintro ⟨count, prev, index, acc⟩ -
  dsimp only
  split
  · exact Keep.pure trivial
  · refine Keep.bind net_any fun _ _ => Keep.bind net_any fun _ _ => ?_
    refine Keep.ite (fun _ => Keep.ite (fun _ => Keep.pure trivial) fun _ => ?_) fun _ => Keep.ite (fun _ => Keep.pure trivial) fun _ => ?_
    · exact Keep.bind (net_correctRepeatedPoints hn) fun _ h => Keep.pure trivial
    · exact Keep.bind (net_correctRepeatedPoints hn) fun _ h => Keep.pure trivial

theorem net_correctRingSelfIntersections {r : Nat} {b : Bool} : Keep (Net U n) (correctRingSelfIntersections r b) fun _ => True := by
  unfold correctRingSelfIntersections
  refine Keep.bind net_any fun _ _ => Keep.ite (fun _ => Keep.pure trivial) fun _ => ?_
  refine Keep.bind net_findAndCorrectRepeatedPoints fun _ _ => ?_
  refine Keep.ite (fun _ => ?_) fun _ => ?_
  · exact Keep.bind net_any fun _ _ => Keep.bind net_any fun _ _ => Keep.pure trivial
  · exact Keep.bind net_any fun _ _ => Keep.pure trivial

theorem net_correctSelfIntersections_go {b : Bool} :
    ∀ {l : List Nat} {c : Bool}, Keep (Net U n) (correctSelfIntersections.go b l c) fun _ => True
  | [], _ => by rw [correctSelfIntersections.go]; exact Keep.pure trivial
  | r :: l, c => by
    rw [correctSelfIntersections.go]
    refine Keep.bind net_correctRingSelfIntersections fun _ _ => ?_
    exact net_correctSelfIntersections_go

theorem net_correctSelfIntersections {b : Bool} : Keep (Net U n) (correctSelfIntersections b) fun _ => True := by
  unfold correctSelfIntersections
  exact Keep.bind net_any fun _ _ => net_correctSelfIntersections_go

/-! ## Chained rings -/

def PairsIn (U : Nat → Prop) (l : List (Nat × Nat)) : Prop := ∀ p ∈ l, U (p.1) ∧ U (p.2)
def MapIn (U : Nat → Prop) (cm : ConnectionMap) : Prop := ∀ r, PairsIn U (cm r)
def ItemsIn (U : Nat → Prop) (l : List LoopItem) : Prop := ∀ p ∈ l, U (p.2.1) ∧ U (p.2).2

theorem PairsIn.nil : PairsIn U [] := by intro p hp; cases hp
theorem PairsIn.cons {a b : Nat} {l : List (Nat × Nat)} (ha : U a) (hb : U b) (h : PairsIn U l) : PairsIn U ((a, b) :: l) := by
  intro p hp
  rcases List.mem_cons.1 hp with rfl | hp
  · exact ⟨ha, hb⟩
  · exact h p hp
theorem PairsIn.append {k l : List (Nat × Nat)} (h1 : PairsIn U k) (h2 : PairsIn U l) : PairsIn U (k ++ l) := by
  intro p hp
  rcases List.mem_append.1 hp with hp | hp
  · exact h1 p hp
  · exact h2 p hp
theorem PairsIn.snoc {a b : Nat} {l : List (Nat × Nat)} (ha : U a) (hb : U b) (h : PairsIn U l) : PairsIn U (l ++ [(a, b)]) :=
  h.append (PairsIn.nil.cons ha hb)
theorem PairsIn.uncons {a b : Nat} {l : List (Nat × Nat)} (h : PairsIn U ((a, b) :: l)) : U a ∧ U b ∧ PairsIn U l :=
  ⟨(h (a, b) (by simp)).1, (h (a, b) (by simp)).2, fun p hp => h p (by simp [hp])⟩
theorem ItemsIn.nil : ItemsIn U [] := by intro p hp; cases hp
theorem ItemsIn.cons {r a b : Nat} {l : List LoopItem} (ha : U a) (hb : U b) (h : ItemsIn U l) : ItemsIn U ((r, a, b) :: l) := by
  intro p hp
  rcases List.mem_cons.1 hp with rfl | hp
  · exact ⟨ha, hb⟩
  · exact h p hp
theorem ItemsIn.append {k l : List LoopItem} (h1 : ItemsIn U k) (h2 : ItemsIn U l) : ItemsIn U (k ++ l) := by
  intro p hp
  rcases List.mem_append.1 hp with hp | hp
  · exact h1 p hp
  · exact h2 p hp
theorem ItemsIn.uncons {r a b : Nat} {l : List LoopItem} (h : ItemsIn U ((r, a, b) :: l)) : U a ∧ U b ∧ ItemsIn U l :=
  ⟨(h (r, a, b) (by simp)).1, (h (r, a, b) (by simp)).2, fun p hp => h p (by simp [hp])⟩
theorem MapIn.upd {cm : ConnectionMap} (h : MapIn U cm) {r : Nat} {l : List (Nat × Nat)} (hl : PairsIn U l) : MapIn U (upd cm r l) := by
  intro q
  by_cases e : q = r
  · subst e; rw [upd_same]; exact hl
  · rw [upd_ne _ _ e]; exact h q

theorem net_directConnection {p : Option Nat} {o s a b : Nat} (ha : U a) (hb : U b) :
    ∀ {l k : List (Nat × Nat)}, PairsIn U l → PairsIn U k → Keep (Net U n) (directConnection p o s a b l k)
      fun r => match r with | .inl q => U q.1 ∧ U q.2 | .inr l => PairsIn U l
  | [], k, _, hk => Keep.pure hk
  | (x, y) :: l, k, hl, hk => by
    obtain ⟨hx, hy, hl'⟩ := hl.uncons
    have ih := fun {k : List (Nat × Nat)} => @net_directConnection p o s a b ha hb l k hl'
    rw [directConnection]
    refine Keep.bind net_any fun _ _ => Keep.bind net_any fun _ _ => ?_
    dsimp only
    split
    · refine Keep.bind (P := fun _ => True) (net_pres (by pres)) fun _ _ => Keep.ite (fun _ => ih hk) fun _ => ?_
      refine Keep.bind (P := fun _ => True) (net_pres (by pres)) fun _ _ => ?_
      refine Keep.bind net_any fun _ _ => Keep.bind net_any fun _ _ => ?_
      exact Keep.ite (fun _ => Keep.pure ⟨hx, hy⟩) fun _ => ih (hk.snoc hx hy)
    · exact ih hk

def LoopIn (U : Nat → Prop) (r : Bool × ConnectionMap × List LoopItem × List Nat) : Prop := MapIn U r.2.1 ∧ ItemsIn U r.2.2.1

theorem net_chain {f : Nat} {p : Option Nat} {o s a b : Nat} (hb : U b) 
    (ih : ∀ {cm : ConnectionMap} {il : List LoopItem} {p : Option Nat} {o s : Nat} {vi : List Nat} {a b : Nat}, U a → U b →
      MapIn U cm → ItemsIn U il → Keep (Net U n) (findIntersectLoop f cm il p o s vi a b) (LoopIn U)) (ha : U a) :
    ∀ {l : List (Nat × Nat)} {cm : ConnectionMap} {il : List LoopItem} {vi : List Nat}, PairsIn U l → MapIn U cm → ItemsIn U il →
      Keep (Net U n) (findIntersectLoop.chain f p o s a b l cm il vi) (LoopIn U)
  | [], cm, il, vi, _, hc, hi => by rw [findIntersectLoop.chain, chainFrom]; exact Keep.pure ⟨hc, hi⟩
  | (x, y) :: l, cm, il, vi, hl, hc, hi => by
    obtain ⟨hx, hy, hl'⟩ := hl.uncons
    have go := fun {cm : ConnectionMap} {il : List LoopItem} {vi : List Nat} => @net_chain f p o s a b hb ih ha l cm il vi hl'
    rw [findIntersectLoop.chain, chainFrom]
    refine Keep.bind net_any fun _ _ => ?_
    dsimp only
    split
    · exact go hc hi
    · refine Keep.ite (fun _ => go hc hi) fun _ => Keep.bind net_any fun _ _ => ?_
      split
      · exact go hc hi
      · refine Keep.bind net_any fun _ _ => Keep.ite (fun _ => go hc hi) fun _ => ?_
        refine Keep.bind (ih ha hy hc hi) ?_
        rintro ⟨found, cm', il', vi'⟩ ⟨h1, h2⟩
        exact Keep.ite (fun _ => Keep.pure ⟨h1, h2.cons hx hy⟩) fun _ => go h1 h2

theorem net_findIntersectLoop : ∀ {f : Nat} {cm : ConnectionMap} {il : List LoopItem} {p : Option Nat} {o s : Nat} {vi : List Nat}
    {a b : Nat}, U a → U b → MapIn U cm → ItemsIn U il → Keep (Net U n) (findIntersectLoop f cm il p o s vi a b) (LoopIn U)
  | 0, _, _, _, _, _, _, _, _, _, _, _, _ => by rw [findIntersectLoop]; exact Keep.raise
  | f + 1, cm, il, p, o, s, vi, a, b, ha, hb, hc, hi => by
    rw [findIntersectLoop]
    refine Keep.bind (net_directConnection ha hb (hc s) PairsIn.nil) fun r hr => ?_
    split
    · exact Keep.pure ⟨hc, hi.cons hr.1 hr.2⟩
    · exact net_chain hb net_findIntersectLoop ha hr (hc.upd hr) hi

theorem net_directPair {o s a : Nat} (ha : U a) :
    ∀ {l k : List (Nat × Nat)} {f : Bool}, PairsIn U l → PairsIn U k → Keep (Net U n) (directPair o s a l k f)
      fun r => (∀ it, r.2.1 = some it → U it.2.1 ∧ U it.2.2) ∧ PairsIn U r.2.2
  | [], k, f, _, hk => Keep.pure ⟨nofun, hk⟩
  | (x, y) :: l, k, f, hl, hk => by
    obtain ⟨hx, hy, hl'⟩ := hl.uncons
    have ih := fun {k : List (Nat × Nat)} {f : Bool} => @net_directPair o s a ha l k f hl'
    rw [directPair]
    refine Keep.bind net_any fun _ _ => Keep.bind net_any fun _ _ => ?_
    refine Keep.ite (fun _ => ih hk) fun _ => Keep.ite (fun _ => ?_) fun _ => ih (hk.snoc hx hy)
    refine Keep.bind net_any fun _ _ => Keep.ite (fun _ => ih (hk.snoc hx hy)) fun _ => ?_
    refine Keep.pure ⟨?_, hk.append (hl'.cons hx hy)⟩
    rintro it ⟨⟩
    exact ⟨hx, hy⟩

theorem net_chainPairs {p : Option Nat} {o s a : Nat} (ha : U a) :
    ∀ {l : List (Nat × Nat)} {cm : ConnectionMap} {il : List LoopItem} {vi : List Nat}, PairsIn U l → MapIn U cm → ItemsIn U il →
      Keep (Net U n) (chainPairs p o s a l cm il vi) fun r => MapIn U r.2.1 ∧ ItemsIn U r.2.2
  | [], cm, il, vi, _, hc, hi => Keep.pure ⟨hc, hi⟩
  | (x, y) :: l, cm, il, vi, hl, hc, hi => by
    obtain ⟨hx, hy, hl'⟩ := hl.uncons
    have go := fun {cm : ConnectionMap} {il : List LoopItem} {vi : List Nat} => @net_chainPairs p o s a ha l cm il vi hl'
    rw [chainPairs]
    refine Keep.bind net_any fun _ _ => Keep.ite (fun _ => go hc hi) fun _ => ?_
    refine Keep.bind net_any fun _ _ => Keep.ite (fun _ => go hc hi) fun _ => ?_
    refine Keep.bind net_any fun _ _ => ?_
    split
    · exact go hc hi
    · refine Keep.bind (P := fun _ => True) (Keep.gets fun _ _ => trivial) fun _ _ => ?_
      refine Keep.bind (net_findIntersectLoop ha hy hc hi) ?_
      rintro ⟨found, cm', il', vi'⟩ ⟨h1, h2⟩
      exact Keep.ite (fun _ => Keep.pure ⟨h1, h2.cons hx hy⟩) fun _ => go h1 h2

theorem net_chooseOrigin {o a b : Nat} (ha : U a) (hb : U b) :
    ∀ {l d : List LoopItem}, ItemsIn U l → ItemsIn U d → Keep (Net U n) (chooseOrigin o a b d l)
      fun r => ItemsIn U r.1 ∧ ∀ q, r.2 = some q → U q.2.1 ∧ U q.2.2
  | [], d, _, hd => by rw [chooseOrigin]; exact Keep.pure ⟨hd, nofun⟩
  | (r, x, y) :: l, d, hl, hd => by
    obtain ⟨hx, hy, hl'⟩ := hl.uncons
    rw [chooseOrigin]
    refine Keep.bind net_any fun _ _ => Keep.ite (fun _ => ?_) fun _ => ?_
    · exact net_chooseOrigin ha hb hl' (hd.append (ItemsIn.nil.cons hx hy))
    · refine Keep.pure ⟨hd.append (hl'.cons ha hb), ?_⟩
      rintro q ⟨⟩
      exact ⟨hx, hy⟩

theorem net_movedPairs : ∀ {l : List (Nat × Nat)}, PairsIn U l → Keep (Net U n) (movedPairs l) (ItemsIn U)
  | [], _ => Keep.pure ItemsIn.nil
  | (x, y) :: l, hl => by
    obtain ⟨hx, hy, hl'⟩ := hl.uncons
    have ih := net_movedPairs hl'
    rw [movedPairs]
    refine Keep.bind net_any fun _ _ => Keep.bind net_any fun _ _ => ?_
    dsimp only
    split
    · refine Keep.ite (fun _ => ih) fun _ => Keep.bind (P := fun _ => True) (net_pres (by pres)) fun _ _ => ?_
      refine Keep.bind ih fun t ht => Keep.pure ?_
      split
      · exact ht.cons hx hy
      · exact ht
    · exact ih

theorem net_originPairs {o : Nat} : ∀ {l : List (Nat × Nat)}, PairsIn U l →
    Keep (Net U n) (originPairs o l) fun r => PairsIn U r.1 ∧ ItemsIn U r.2
  | [], _ => Keep.pure ⟨PairsIn.nil, ItemsIn.nil⟩
  | (x, y) :: l, hl => by
    obtain ⟨hx, hy, hl'⟩ := hl.uncons
    have ih := @net_originPairs o l hl'
    rw [originPairs]
    refine Keep.bind net_any fun _ _ => Keep.bind net_any fun _ _ => ?_
    dsimp only
    split
    · refine Keep.ite (fun _ => ih) fun _ => Keep.bind (P := fun _ => True) (net_pres (by pres)) fun _ _ => ?_
      refine Keep.bind ih ?_
      rintro ⟨k, m⟩ ⟨h1, h2⟩
      refine Keep.ite (fun _ => Keep.pure ⟨h1, ?_⟩) fun _ => Keep.pure ⟨?_, h2⟩ <;> dsimp only <;> split
      · exact h2.cons hx hy
      · exact h2
      · exact h1.cons hx hy
      · exact h1
    · exact ih

theorem net_clearLoopPairs : ∀ {l : List LoopItem} {cm : ConnectionMap}, MapIn U cm →
    Keep (Net U n) (clearLoopPairs l cm) fun r => MapIn U r.1 ∧ ItemsIn U r.2
  | [], cm, hc => Keep.pure ⟨hc, ItemsIn.nil⟩
  | (r, _, _) :: l, cm, hc => by
    rw [clearLoopPairs]
    refine Keep.bind (net_movedPairs (hc r)) fun m hm => Keep.bind (net_clearLoopPairs (hc.upd PairsIn.nil)) ?_
    rintro ⟨cm', m'⟩ ⟨h1, h2⟩
    exact Keep.pure ⟨h1, hm.append h2⟩

theorem mapIn_foldl : ∀ {l : List (Nat × Nat × Nat)} {cm : ConnectionMap}, ItemsIn U l → MapIn U cm →
    MapIn U (l.foldl (fun cm it => upd cm it.1 (cm it.1 ++ [(it.2.1, it.2.2)])) cm)
  | [], cm, _, hc => hc
  | (r, x, y) :: l, cm, hl, hc => by
    obtain ⟨hx, hy, hl'⟩ := ItemsIn.uncons hl
    rw [List.foldl_cons]
    exact mapIn_foldl hl' (hc.upd ((hc r).snoc hx hy))

theorem net_mergeLoop {cm : ConnectionMap} {il : List LoopItem} {o : Nat} {p : Option Nat} {a b : Nat} (hc : MapIn U cm)
    (hi : ItemsIn U il) (ha : U a) (hb : U b) : Keep (Net U n) (mergeLoop cm il o p a b) (MapIn U) := by
  have tail : Keep (Net U n) (do
      let (cm, moved) ← clearLoopPairs il cm
      let (kept, moved') ← originPairs o (cm o)
      let cm := upd cm o kept
      pure ((moved ++ moved').foldl (fun cm it => upd cm it.1 (cm it.1 ++ [(it.2.1, it.2.2)])) cm)) (MapIn U) := by
    refine Keep.bind (net_clearLoopPairs hc) ?_
    rintro ⟨cm', m⟩ ⟨h1, h2⟩
    refine Keep.bind (net_originPairs (h1 o)) ?_
    rintro ⟨k, m'⟩ ⟨h3, h4⟩
    exact Keep.pure (mapIn_foldl (h2.append h4) (h1.upd h3))
  unfold mergeLoop
  refine Keep.bind net_any fun _ _ => Keep.bind (net_switchNext ha hb) fun _ _ => ?_
  refine Keep.bind (Keep.forList fun it hit => net_switchNext (hi it hit).1 (hi it hit).2) fun _ _ => ?_
  refine Keep.bind net_any fun new _ => Keep.bind net_any fun _ _ => Keep.bind net_any fun _ _ => Keep.bind net_any fun _ _ => ?_
  have fc : ∀ {q : Option Nat} {r : Nat}, Keep (Net U n) (forChildren q fun c => do
      if ← ringInsideOf c r then reassignAsChild c (some r)) fun _ => True := net_pres (calm_forChildren _ fun c => by pres)
  have fl : ∀ {h : Bool}, Keep (Net U n) (forList il fun it => do
      modRing it.1 fun g => { g with bottomNode := none }
      if h then replaceRing it.1 (some o)
      else replaceRing it.1 (← getRing o).parent) fun _ => True := net_pres (by pres)
  refine Keep.ite (fun _ => ?_) fun _ => ?_
  · refine Keep.bind (net_setRingNode ha) fun _ _ => Keep.bind net_any fun _ _ => Keep.bind (net_setRingNode hb) fun _ _ => Keep.bind net_any fun _ _ => ?_
    refine Keep.bind net_updatePoints fun _ _ => Keep.bind net_updatePoints fun _ _ => Keep.bind net_any fun _ _ => Keep.bind fl fun _ _ => ?_
    refine Keep.ite (fun _ => ?_) fun _ => ?_
    · exact Keep.bind net_any fun _ _ => Keep.bind net_any fun _ _ => Keep.bind fc fun _ _ => tail
    · exact Keep.bind net_any fun _ _ => Keep.bind fc fun _ _ => tail
  · refine Keep.bind (net_setRingNode hb) fun _ _ => Keep.bind net_any fun _ _ => Keep.bind (net_setRingNode ha) fun _ _ => Keep.bind net_any fun _ _ => ?_
    refine Keep.bind net_updatePoints fun _ _ => Keep.bind net_updatePoints fun _ _ => Keep.bind net_any fun _ _ => Keep.bind fl fun _ _ => ?_
    refine Keep.ite (fun _ => ?_) fun _ => ?_
    · exact Keep.bind net_any fun _ _ => Keep.bind net_any fun _ _ => Keep.bind fc fun _ _ => tail
    · exact Keep.bind net_any fun _ _ => Keep.bind fc fun _ _ => tail

theorem net_processSingleIntersection {i j : Nat} {cm : ConnectionMap} (hi : i < n) (hj : j < n) (hc : MapIn U cm) :
    Keep (Net U n) (processSingleIntersection i j cm) (MapIn U) := by
  unfold processSingleIntersection
  refine Keep.bind (net_getNode hi) fun _ g1 => Keep.bind (net_getNode hj) fun _ g2 => Keep.ite (fun _ => Keep.pure hc) fun _ => ?_
  refine Keep.bind Keep.deref fun _ g3 => Keep.bind Keep.deref fun _ g4 => ?_
  have hi := g1 (by rw [g3]; simp)
  have hj := g2 (by rw [g4]; simp)
  refine Keep.bind net_any fun _ _ => Keep.bind net_any fun _ _ => Keep.ite (fun _ => Keep.pure hc) fun _ => ?_
  refine Keep.bind (P := fun t : Nat × Option Nat × Nat × Nat × Nat => U t.2.2.2.1 ∧ U t.2.2.2.2)
    (Keep.ite (fun _ => Keep.pure ⟨hi, hj⟩) fun _ => Keep.ite (fun _ => Keep.pure ⟨hj, hi⟩) fun _ => Keep.bind net_any fun _ _ => Keep.pure ⟨hi, hj⟩) ?_
  rintro ⟨o, p, s, o1, o2⟩ ⟨h1, h2⟩
  dsimp only at h1 h2 ⊢
  refine Keep.bind net_any fun _ _ => Keep.ite (fun _ => Keep.pure hc) fun _ => ?_
  refine Keep.bind (net_directPair h1 (hc s) PairsIn.nil) ?_
  rintro ⟨f, it, k⟩ ⟨h3, h4⟩
  dsimp only at h3 h4 ⊢
  refine Keep.bind (P := fun t : Bool × ConnectionMap × List LoopItem => MapIn U t.2.1 ∧ ItemsIn U t.2.2) ?_ ?_
  · split
    · next it =>
      exact Keep.pure ⟨hc.upd h4, ItemsIn.nil.cons (h3 _ rfl).1 (h3 _ rfl).2⟩
    · refine Keep.bind (net_chainPairs h2 h4 (hc.upd h4) ItemsIn.nil) ?_
      rintro ⟨f', cm', il⟩ ⟨h5, h6⟩
      exact Keep.pure ⟨h5, h6⟩
  rintro ⟨f', cm', il⟩ ⟨h5, h6⟩
  dsimp only at h5 h6 ⊢
  refine Keep.ite (fun _ => ?_) fun _ => Keep.ite (fun _ => ?_) fun _ => ?_
  · have h7 := h5.upd (r := o) ((h5 o).snoc h1 h2)
    exact Keep.pure (h7.upd ((h7 s).snoc h2 h1))
  · refine Keep.bind (P := fun _ => True) ?_ fun _ _ => Keep.ite (fun _ => Keep.pure h5) fun _ => Keep.pure (h5.upd ((h5 o).snoc h1 h2))
    refine Keep.bind (Keep.mapM' (Q := fun _ => True) fun q hq => ?_) fun _ _ => Keep.pure trivial
    exact Keep.bind net_any fun _ _ => Keep.pure trivial
  · refine Keep.bind (P := fun t : List LoopItem × Nat × Option Nat × Nat × Nat => ItemsIn U t.1 ∧ U t.2.2.2.1 ∧ U t.2.2.2.2) ?_ ?_
    · refine Keep.bind net_any fun _ _ => Keep.ite (fun _ => ?_) fun _ => Keep.pure ⟨h6, h1, h2⟩
      refine Keep.bind (net_chooseOrigin h1 h2 h6 ItemsIn.nil) fun r hr => ?_
      split
      · exact Keep.pure ⟨hr.1, (hr.2 _ rfl).1, (hr.2 _ rfl).2⟩
      · exact Keep.pure ⟨hr.1, h1, h2⟩
    rintro ⟨il', o', p', a, b⟩ ⟨h7, h8, h9⟩
    exact net_mergeLoop h5 h7 h8 h9

theorem net_correctChainedRepeats {nodes : List Nat} {a b : Nat} {cm : ConnectionMap} (h : ∀ i ∈ nodes, i < n) (hc : MapIn U cm) :
    Keep (Net U n) (correctChainedRepeats nodes a b cm) (MapIn U) := by
  unfold correctChainedRepeats
  exact net_forPairs (W := fun i => i < n) (fun i j a hi hj ha => net_processSingleIntersection hi hj ha) (lt_slice h _ _) hc

theorem net_correctChainedRings : Keep (Net U n) correctChainedRings fun _ => True := by
  unfold correctChainedRings
  refine Keep.bind (P := fun l => ∀ i ∈ l, i < n) (Keep.gets fun _ hs => hs.all) fun nodes hn => Keep.ite (fun _ => Keep.pure trivial) fun _ => ?_
  refine Keep.loopM (fun st => MapIn U st.2.2.2) (fun _ => PairsIn.nil) ?_
  rintro ⟨count, prev, index, cm⟩ hc
  dsimp only at hc ⊢
  split
  · exact Keep.pure trivial
  · refine Keep.bind net_any fun _ _ => Keep.bind net_any fun _ _ => ?_
    refine Keep.ite (fun _ => Keep.ite (fun _ => Keep.pure hc) fun _ => ?_) fun _ => Keep.ite (fun _ => Keep.pure hc) fun _ => ?_
    · exact Keep.bind (net_correctChainedRepeats hn hc) fun _ h => Keep.pure h
    · exact Keep.bind (net_correctChainedRepeats hn hc) fun _ h => Keep.pure h

theorem net_lastStage : Keep (Net U n) (loopM (fun (_ : Unit) => do
    correctChainedRings
    if ← correctSelfIntersections true then pure (.inl ()) else pure (.inr ())) ()) fun _ => True := by
  refine Keep.loopM (fun _ => True) trivial fun _ _ => ?_
  refine Keep.bind net_correctChainedRings fun _ _ => Keep.bind net_correctSelfIntersections fun b _ => ?_
  exact Keep.ite (fun _ => Keep.pure trivial) fun _ => Keep.pure trivial

end

end Wagyu
