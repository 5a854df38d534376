import Verif.Proofs.TopoPlace
import Mathlib.Data.List.Cycle

/-!
# Exchanging the successors of nodes

The rings along a loop are merged by exchanging the successors of the two nodes of every connection.
-/

namespace Wagyu

open Spec

/-- The heap after the successors of `a` and `b` have been exchanged. -/
def sw (h : Nat → Node) (a b : Nat) : Nat → Node := fun x =>
  { h x with
    next := if x = a then (h b).next else if x = b then (h a).next else (h x).next
    prev := if (h b).next = some x then some a else if (h a).next = some x then some b else (h x).prev }

/-- The same for a list of pairs. -/
def swAll (h : Nat → Node) (ps : List (Nat × Nat)) : Nat → Node := ps.foldl (fun h p => sw h p.1 p.2) h

section
variable {h : Nat → Node} {a b : Nat}

theorem sw_loc (i : Nat) : locOf (sw h a b) i = locOf h i := rfl
theorem sw_ring (i : Nat) : (sw h a b i).ring = (h i).ring := rfl

theorem swAll_loc (ps : List (Nat × Nat)) (i : Nat) : locOf (swAll h ps) i = locOf h i := by
  unfold swAll
  induction ps generalizing h with
  | nil => rfl
  | cons p ps ih => rw [List.foldl_cons, ih]; rfl

theorem swAll_ring (ps : List (Nat × Nat)) (i : Nat) : (swAll h ps i).ring = (h i).ring := by
  unfold swAll
  induction ps generalizing h with
  | nil => rfl
  | cons p ps ih => rw [List.foldl_cons, ih]; rfl

theorem run_switchNext {s : St} {u v : Nat} (hab : a ≠ b) (ha : (s.nodes a).next = some u) (hb : (s.nodes b).next = some v) :
    switchNext a b s = .ok () { s with nodes := sw s.nodes a b } := by
  have e : sw s.nodes a b = putPrev (putPrev (putNext (putNext s.nodes a (some v)) b (some u)) u (some b)) v (some a) := by
    funext x
    have h1 : (putPrev (putPrev (putNext (putNext s.nodes a (some v)) b (some u)) u (some b)) v (some a) x).next
        = (sw s.nodes a b x).next := by
      links
      unfold sw
      dsimp only
      rw [ha, hb]
      by_cases e1 : x = a
      · subst e1; rw [if_neg hab, if_pos rfl, if_pos rfl]
      · rw [if_neg e1, if_neg e1]
    have h2 : (putPrev (putPrev (putNext (putNext s.nodes a (some v)) b (some u)) u (some b)) v (some a) x).prev
        = (sw s.nodes a b x).prev := by
      links
      unfold sw
      dsimp only
      rw [ha, hb]
      simp only [Option.some.injEq, eq_comm]
    have h3 : ∀ (n : Node) (m : Node), n.x = m.x → n.y = m.y → n.ring = m.ring → n.next = m.next → n.prev = m.prev → n = m := by
      intro n m; cases n; cases m; simp_all
    refine h3 _ _ ?_ ?_ ?_ h1.symm h2.symm
    · links; rfl
    · links; rfl
    · links; rfl
  rw [e]
  unfold switchNext
  rw [run_bind, show getNode a s = .ok (s.nodes a) s from rfl]
  dsimp only
  rw [run_bind, show getNode b s = .ok (s.nodes b) s from rfl]
  dsimp only
  rw [ha, hb]
  rfl

/-- Links that do not start at the two nodes stay. -/
theorem link_sw {x y : Nat} (hl : Link h x y) (h1 : x ≠ a) (h2 : x ≠ b) (hu : (h a).next ≠ some y) (hv : (h b).next ≠ some y) : Link (sw h a b) x y := by
  refine ⟨?_, ?_⟩
  · show (if x = a then _ else if x = b then _ else _) = _
    rw [if_neg h1, if_neg h2]; exact hl.1
  · show (if (h b).next = some y then _ else if (h a).next = some y then _ else _) = _
    rw [if_neg hv, if_neg hu]; exact hl.2

theorem link_sw_left {u v : Nat} (_ : Link h a u) (hb : Link h b v) : Link (sw h a b) a v := by
  refine ⟨?_, ?_⟩
  · show (if a = a then _ else _) = _
    rw [if_pos rfl]; exact hb.1
  · show (if (h b).next = some v then _ else _) = _
    rw [if_pos hb.1]

theorem link_sw_right {u v : Nat} (hab : a ≠ b) (ha : Link h a u) (hb : Link h b v) : Link (sw h a b) b u := by
  refine ⟨?_, ?_⟩
  · show (if b = a then _ else if b = b then _ else _) = _
    rw [if_neg (Ne.symm hab), if_pos rfl]; exact ha.1
  · have huv : v ≠ u := by
      rintro rfl
      exact hab (Option.some.inj (ha.2.symm.trans hb.2))
    show (if (h b).next = some u then _ else if (h a).next = some u then _ else _) = _
    rw [if_neg (by rw [hb.1]; simpa using huv), if_pos ha.1]

/-- A segment that does not start the two links. -/
theorem chain_sw {l : List Nat} (hl : l.IsChain (Link h)) (ha : a ∉ l.dropLast) (hb : b ∉ l.dropLast) {u v : Nat} (hu : Link h a u) (hv : Link h b v) :
    l.IsChain (Link (sw h a b)) := by
  induction l with
  | nil => exact .nil
  | cons x l ih =>
    cases l with
    | nil => exact .singleton _
    | cons y l =>
      rw [List.isChain_cons_cons] at hl ⊢
      simp only [List.dropLast_cons_cons, List.mem_cons, not_or] at ha hb
      have hxa : x ≠ a := fun e => ha.1 e.symm
      have hxb : x ≠ b := fun e => hb.1 e.symm
      refine ⟨link_sw hl.1 hxa hxb (fun e => hxa ?_) fun e => hxb ?_, ih hl.2 ?_ ?_⟩
      · rw [hu.1] at e; cases e
        exact Option.some.inj (hl.1.2.symm.trans hu.2)
      · rw [hv.1] at e; cases e
        exact Option.some.inj (hl.1.2.symm.trans hv.2)
      · exact ha.2
      · exact hb.2

theorem isCycle_parts {x : List Nat} (hc : IsCycle h (x ++ [a])) : (x ++ [a]).Nodup ∧ (x ++ [a]).IsChain (Link h) ∧ Link h a ((x ++ [a]).head (by simp)) := by
  obtain ⟨h1, h2, h3⟩ := (isCycle_iff (by simp)).1 hc
  refine ⟨h1, h2, ?_⟩
  simpa using h3

/-- Two rings become one. -/
theorem isCycle_join {x y : List Nat} (h1 : IsCycle h (x ++ [a])) (h2 : IsCycle h (y ++ [b])) (hd : ∀ i ∈ x ++ [a], i ∉ y ++ [b]) :
    IsCycle (sw h a b) ((x ++ [a]) ++ (y ++ [b])) := by
  obtain ⟨n1, c1, l1⟩ := isCycle_parts h1
  obtain ⟨n2, c2, l2⟩ := isCycle_parts h2
  have hab : a ≠ b := fun e => hd a (by simp) (by simp [e])
  have ha : a ∉ x := (List.nodup_append.1 n1).2.2 a |> fun k hx => (by simpa using (List.nodup_append.1 n1).2.2 a hx)
  have hb : b ∉ y := fun hy => by simpa using (List.nodup_append.1 n2).2.2 b hy
  refine isCycle_append (by simp) (by simp) ?_ (chain_sw c1 ?_ ?_ l1 l2) (chain_sw c2 ?_ ?_ l1 l2) ?_ ?_
  · exact List.nodup_append.2 ⟨n1, n2, fun i hi j hj e => hd i hi (e ▸ hj)⟩
  · rw [List.dropLast_concat]; exact ha
  · rw [List.dropLast_concat]; exact fun hx => hd b (by simp [hx]) (by simp)
  · rw [List.dropLast_concat]; exact fun hy => hd a (by simp) (by simp [hy])
  · rw [List.dropLast_concat]; exact hb
  · rw [List.getLast_append_singleton]; exact link_sw_left l1 l2
  · rw [List.getLast_append_singleton]; exact link_sw_right hab l1 l2

/-- One ring becomes two. -/
theorem isCycle_sever {x y : List Nat} (hc : IsCycle h ((x ++ [a]) ++ (y ++ [b]))) :
    IsCycle (sw h a b) (x ++ [a]) ∧ IsCycle (sw h a b) (y ++ [b]) := by
  obtain ⟨n, c, l⟩ := (isCycle_iff (by simp)).1 hc
  obtain ⟨n1, n2, n3⟩ := List.nodup_append.1 n
  obtain ⟨c1, c2, c3⟩ := List.isChain_append.1 c
  have hab : a ≠ b := n3 a (by simp) b (by simp)
  have l1 : Link h a ((y ++ [b]).head (by simp)) := c3 a (by simp) _ (by rw [List.head?_eq_some_head (by simp)]; rfl)
  have l2 : Link h b ((x ++ [a]).head (by simp)) := by
    rw [List.getLast_append_of_ne_nil (h₂ := by simp), List.getLast_append_singleton, List.head_append_of_ne_nil (w₂ := by simp)] at l
    exact l
  refine ⟨(isCycle_iff (by simp)).2 ⟨n1, chain_sw c1 ?_ ?_ l1 l2, ?_⟩, (isCycle_iff (by simp)).2 ⟨n2, chain_sw c2 ?_ ?_ l1 l2, ?_⟩⟩
  · rw [List.dropLast_concat]; exact fun hx => by simpa using (List.nodup_append.1 n1).2.2 a hx
  · rw [List.dropLast_concat]; exact fun hx => n3 b (by simp [hx]) b (by simp) rfl
  · rw [List.getLast_append_singleton]; exact link_sw_left l1 l2
  · rw [List.dropLast_concat]; exact fun hy => n3 a (by simp) a (by simp [hy]) rfl
  · rw [List.dropLast_concat]; exact fun hy => by simpa using (List.nodup_append.1 n2).2.2 b hy
  · rw [List.getLast_append_singleton]; exact link_sw_right hab l1 l2

/-- The other rings stay. -/
theorem isCycle_sw_other {l : List Nat} (hl : IsCycle h l) (ha : a ∉ l) (hb : b ∉ l) {u v : Nat} (hu : Link h a u) (hv : Link h b v) : IsCycle (sw h a b) l := by
  cases l with
  | nil => exact hl
  | cons x t =>
    refine ⟨hl.1, chain_sw hl.2 ?_ ?_ hu hv⟩
    · rw [List.dropLast_concat]; exact ha
    · rw [List.dropLast_concat]; exact hb

/-- A cycle can be written so that it ends at any of its nodes. -/
theorem cycle_end {l : List Nat} (hl : IsCycle h l) (ha : a ∈ l) : ∃ x, IsCycle h (x ++ [a]) ∧ (x ++ [a]) ~r l := by
  obtain ⟨A, B, rfl⟩ := List.append_of_mem ha
  refine ⟨B ++ A, ?_, ?_⟩
  · have : IsCycle h ((A ++ [a]) ++ B) := by simpa using hl
    have := isCycle_append_comm this
    simpa using this
  · have : (B ++ (A ++ [a])) ~r ((A ++ [a]) ++ B) := List.isRotated_append
    simpa using this

end

/-! ## The order of the exchanges does not matter -/

/-- The nodes of some pairs. -/
def endsOf (ps : List (Nat × Nat)) : List Nat := ps.map Prod.fst ++ ps.map Prod.snd

/-- Different nodes have different successors. -/
def Distinct (h : Nat → Node) (S : Nat → Prop) : Prop :=
  (∀ x, S x → ∃ u, (h x).next = some u) ∧ ∀ x y, S x → S y → (h x).next = (h y).next → x = y

theorem Distinct.sw {h : Nat → Node} {S : Nat → Prop} (hd : Distinct h S) {a b : Nat} (ha : S a) (hb : S b) (hab : a ≠ b) : Distinct (sw h a b) S := by
  have e : ∀ x, (Wagyu.sw h a b x).next = (h (if x = a then b else if x = b then a else x)).next := by
    intro x
    show (if x = a then _ else if x = b then _ else _) = _
    split
    · rfl
    · split <;> rfl
  have hS : ∀ x, S x → S (if x = a then b else if x = b then a else x) := by
    intro x hx
    split
    · exact hb
    · split
      · exact ha
      · exact hx
  refine ⟨fun x hx => ?_, fun x y hx hy hxy => ?_⟩
  · rw [e]; exact hd.1 _ (hS x hx)
  · rw [e, e] at hxy
    have := hd.2 _ _ (hS x hx) (hS y hy) hxy
    split at this <;> split at this <;> (try split at this) <;> (try split at this) <;> simp_all

theorem sw_comm {h : Nat → Node} {S : Nat → Prop} (hd : Distinct h S) {a b c d : Nat} (ha : S a) (hb : S b) (hc : S c) (hd' : S d)
    (hab : a ≠ b) (hcd : c ≠ d) (hac : a ≠ c) (had : a ≠ d) (hbc : b ≠ c) (hbd : b ≠ d) : sw (sw h a b) c d = sw (sw h c d) a b := by
  obtain ⟨u, hu⟩ := hd.1 a ha
  obtain ⟨v, hv⟩ := hd.1 b hb
  obtain ⟨w, hw⟩ := hd.1 c hc
  obtain ⟨z, hz⟩ := hd.1 d hd'
  have ne : ∀ {x y p q : Nat}, S x → S y → (h x).next = some p → (h y).next = some q → x ≠ y → p ≠ q := by
    intro x y p q hx hy hp hq hxy e
    exact hxy (hd.2 x y hx hy (by rw [hp, hq, e]))
  have huv := ne ha hb hu hv hab
  have huw := ne ha hc hu hw hac
  have huz := ne ha hd' hu hz had
  have hvw := ne hb hc hv hw hbc
  have hvz := ne hb hd' hv hz hbd
  have hwz := ne hc hd' hw hz hcd
  funext x
  have h3 : ∀ (n : Node) (m : Node), n.x = m.x → n.y = m.y → n.ring = m.ring → n.next = m.next → n.prev = m.prev → n = m := by
    intro n m; cases n; cases m; simp_all
  refine h3 _ _ rfl rfl rfl ?_ ?_
  · simp only [sw, if_neg hac, if_neg (Ne.symm hac), if_neg had, if_neg (Ne.symm had), if_neg hbc, if_neg (Ne.symm hbc), if_neg hbd, if_neg (Ne.symm hbd)]
    by_cases e1 : x = a
    · subst e1; simp [hac, had]
    · by_cases e2 : x = b
      · subst e2; simp [hbc, hbd]
      · simp [e1, e2]
  · simp only [sw, if_neg hac, if_neg (Ne.symm hac), if_neg had, if_neg (Ne.symm had), if_neg hbc, if_neg (Ne.symm hbc), if_neg hbd, if_neg (Ne.symm hbd), hu, hv, hw, hz, Option.some.injEq]
    by_cases e1 : u = x
    · subst e1; simp [Ne.symm huw, Ne.symm huz]
    · by_cases e2 : v = x
      · subst e2; simp [Ne.symm hvw, Ne.symm hvz]
      · simp [e1, e2]

theorem swAll_perm {ps qs : List (Nat × Nat)} (hp : ps.Perm qs) : ∀ {h : Nat → Node} {S : Nat → Prop}, Distinct h S → (∀ x ∈ endsOf ps, S x) → (endsOf ps).Nodup →
    swAll h ps = swAll h qs := by
  have cons : ∀ (p : Nat × Nat) (l : List (Nat × Nat)), (endsOf (p :: l)).Perm (p.1 :: p.2 :: endsOf l) := by
    intro p l
    unfold endsOf
    simp only [List.map_cons, List.cons_append]
    exact (List.perm_middle).cons _
  have perm : ∀ {l m : List (Nat × Nat)}, l.Perm m → (endsOf l).Perm (endsOf m) := by
    intro l m hlm
    exact (hlm.map _).append (hlm.map _)
  induction hp with
  | nil => intros; rfl
  | cons p hp ih =>
    intro h S hd hS hn
    rename_i l m
    have hn' := ((cons p l).nodup_iff).1 hn
    have hS' : ∀ x ∈ p.1 :: p.2 :: endsOf l, S x := fun x hx => hS x ((cons p l).mem_iff.2 hx)
    simp only [List.nodup_cons, List.mem_cons, not_or] at hn'
    exact ih (hd.sw (hS' _ (by simp)) (hS' _ (by simp)) hn'.1.1) (fun x hx => hS' x (by simp [hx])) hn'.2.2
  | swap p q l =>
    intro h S hd hS hn
    have hn' := ((cons q (p :: l)).trans (((cons p l).cons _).cons _)).nodup_iff.1 hn
    have hS' : ∀ x ∈ q.1 :: q.2 :: p.1 :: p.2 :: endsOf l, S x := fun x hx => hS x (((cons q (p :: l)).trans (((cons p l).cons _).cons _)).mem_iff.2 hx)
    simp only [List.nodup_cons, List.mem_cons, not_or] at hn'
    show swAll (sw (sw h q.1 q.2) p.1 p.2) l = swAll (sw (sw h p.1 p.2) q.1 q.2) l
    rw [sw_comm hd (hS' _ (by simp)) (hS' _ (by simp)) (hS' _ (by simp)) (hS' _ (by simp)) hn'.1.1 hn'.2.2.1.1 hn'.1.2.1 hn'.1.2.2.1 hn'.2.1.1 hn'.2.1.2.1]
  | trans h1 h2 ih1 ih2 =>
    intro h S hd hS hn
    rw [ih1 hd hS hn]
    exact ih2 hd (fun x hx => hS x ((perm h1).mem_iff.2 hx)) ((perm h1).nodup_iff.1 hn)

/-! ## Along a loop -/

section
variable {L : Nat → List Nat}

/-- An item: a ring, a node of it, and a node of the next ring. -/
abbrev Hop := Nat × Nat × Nat

/-- The next ring is entered at one node and left at another one. -/
def Follows (L : Nat → List Nat) (x y : Hop) : Prop := x.2.2 ∈ L y.1 ∧ y.2.1 ∈ L y.1 ∧ y.2.1 ≠ x.2.2

/-- The pairs of a list of items. -/
def pairsOf (l : List Hop) : List (Nat × Nat) := l.map Prod.snd

theorem ringSum_meet (c : Point → Point → ℤ) (x y : List Point) (p : Point) : ringSum c ((x ++ [p]) ++ (y ++ [p])) = ringSum c (x ++ [p]) + ringSum c (y ++ [p]) := by
  have h1 : ((x ++ [p]) ++ (y ++ [p])) ~r ((p :: x) ++ (p :: y)) := by
    have : (((x ++ [p]) ++ y) ++ [p]) ~r ([p] ++ ((x ++ [p]) ++ y)) := List.isRotated_append
    simpa using this
  have h2 : ∀ z : List Point, (z ++ [p]) ~r (p :: z) := fun z => List.isRotated_append
  rw [ringSum_rot c h1, ringSum_rot c (h2 x), ringSum_rot c (h2 y), ringSum_split]

set_option maxHeartbeats 3200000 in
/-- Going on with the loop: the ring entered last is in `Z`, the first one in `W`. -/
theorem sw_chain {h₀ : Nat → Node} {first : Hop} : ∀ (items : List Hop) (cur : Hop) (h : Nat → Node) (P X Q Y : List Nat) (e : Nat),
    (∀ i, locOf h i = locOf h₀ i) →
    IsCycle h (P ++ (X ++ [e]) ++ Q ++ (Y ++ [first.2.1])) →
    (X ++ [e]) ~r L cur.1 → (Y ++ [first.2.1]) ~r L first.1 → cur.2.1 ∈ L cur.1 → cur.2.1 ≠ e →
    (first.2.2 ∈ Q ∨ e = first.2.2) →
    (cur :: items ++ [first]).IsChain (Follows L) →
    (∀ it ∈ cur :: items, locOf h₀ it.2.1 = locOf h₀ it.2.2) →
    (∀ it ∈ items, IsCycle h (L it.1) ∧ ∀ i ∈ L it.1, i ∉ P ++ (X ++ [e]) ++ Q ++ (Y ++ [first.2.1])) →
    (items.map Prod.fst).Nodup → (∀ r ∈ items.map Prod.fst, ∀ r' ∈ items.map Prod.fst, r ≠ r' → ∀ i ∈ L r, i ∉ L r') →
    ∃ C D, IsCycle (swAll h (pairsOf (cur :: items))) C ∧ IsCycle (swAll h (pairsOf (cur :: items))) D ∧ first.2.1 ∈ C ∧ first.2.2 ∈ D
      ∧ (C ++ D).Perm (P ++ (X ++ [e]) ++ Q ++ (Y ++ [first.2.1]) ++ (items.map fun it => L it.1).flatten)
      ∧ (∀ l, IsCycle h l → (∀ i ∈ l, i ∉ P ++ (X ++ [e]) ++ Q ++ (Y ++ [first.2.1])) → (∀ it ∈ items, ∀ i ∈ l, i ∉ L it.1) → IsCycle (swAll h (pairsOf (cur :: items))) l)
      ∧ ∀ c, ringSum c (C.map (locOf h₀)) + ringSum c (D.map (locOf h₀))
        = ringSum c ((P ++ (X ++ [e]) ++ Q ++ (Y ++ [first.2.1])).map (locOf h₀)) + (items.map fun it => ringSum c ((L it.1).map (locOf h₀))).sum := by
  intro items
  induction items with
  | nil =>
    intro cur h P X Q Y e hloc hc hX hY hcur hne hb0 hch hl ho hn hd
    obtain ⟨r, a, b⟩ := cur
    dsimp only at *
    have hf : Follows L (r, a, b) first := by simpa using hch
    obtain ⟨f1, f2, f3⟩ := hf
    dsimp only at f1 f2 f3
    -- where the two nodes are
    have ha : a ∈ X := by
      have := hX.mem_iff.2 hcur
      simpa [hne] using this
    have hb : b ∈ Y := by
      have := hY.mem_iff.2 f1
      simpa [Ne.symm f3] using this
    obtain ⟨A, B, rfl⟩ := List.append_of_mem ha
    obtain ⟨U, V, rfl⟩ := List.append_of_mem hb
    have hrot : IsCycle h (((V ++ [first.2.1] ++ P ++ A) ++ [a]) ++ ((B ++ [e] ++ Q ++ U) ++ [b])) := by
      have : IsCycle h ((P ++ A ++ [a] ++ B ++ [e] ++ Q ++ U ++ [b]) ++ (V ++ [first.2.1])) := by simpa using hc
      have := isCycle_append_comm this
      simpa using this
    obtain ⟨k1, k2⟩ := isCycle_sever hrot
    have hl' := hl (r, a, b) (by simp)
    dsimp only at hl'
    refine ⟨_, _, k1, k2, by simp, ?_, ?_, fun l hl1 hl2 _ => ?_, fun c => ?_⟩
    · rcases hb0 with hb0 | hb0
      · simp [hb0]
      · simp [hb0]
    · simp only [List.map_nil, List.flatten_nil, List.append_nil]
      have : ((V ++ [first.2.1] ++ P ++ A ++ [a]) ++ (B ++ [e] ++ Q ++ U ++ [b])) = (V ++ [first.2.1]) ++ (P ++ (A ++ a :: B ++ [e]) ++ Q ++ (U ++ [b])) := by simp
      rw [this]
      refine List.perm_append_comm.trans ?_
      simp
    · obtain ⟨-, -, j1⟩ := isCycle_parts k1
      obtain ⟨i1, i2, i3⟩ := (isCycle_iff (by simp)).1 hrot
      obtain ⟨-, -, c3⟩ := List.isChain_append.1 i2
      rw [List.getLast_append_of_ne_nil (h₂ := by simp), List.getLast_append_singleton] at i3
      exact isCycle_sw_other hl1 (fun hm => hl2 a hm (by simp)) (fun hm => hl2 b hm (by simp)) (c3 a (by rw [List.getLast?_concat]; rfl) _ (by rw [List.head?_eq_some_head (by simp)]; rfl)) i3
    · simp only [List.map_nil, List.sum_nil, add_zero]
      have : ((P ++ (A ++ a :: B ++ [e]) ++ Q ++ (U ++ b :: V ++ [first.2.1])).map (locOf h₀)) ~r ((((V ++ [first.2.1] ++ P ++ A) ++ [a]) ++ ((B ++ [e] ++ Q ++ U) ++ [b])).map (locOf h₀)) := by
        refine List.IsRotated.map ?_ _
        have : ((P ++ A ++ [a] ++ B ++ [e] ++ Q ++ U ++ [b]) ++ (V ++ [first.2.1])) ~r ((V ++ [first.2.1]) ++ (P ++ A ++ [a] ++ B ++ [e] ++ Q ++ U ++ [b])) := List.isRotated_append
        simpa using this
      rw [ringSum_rot c this]
      simp only [List.map_append, List.map_cons, List.map_nil, hl']
      rw [← ringSum_meet]
  | cons next items ih =>
    intro cur h P X Q Y e hloc hc hX hY hcur hne hb0 hch hl ho hn hd
    obtain ⟨r, a, b⟩ := cur
    dsimp only at *
    rw [List.cons_append, List.cons_append, List.isChain_cons_cons] at hch
    obtain ⟨⟨f1, f2, f3⟩, hch⟩ := hch
    dsimp only at f1 f2 f3
    have ha : a ∈ X := by
      have := hX.mem_iff.2 hcur
      simpa [hne] using this
    obtain ⟨A, B, rfl⟩ := List.append_of_mem ha
    obtain ⟨o1, o2⟩ := ho next (by simp)
    obtain ⟨Z, z1, z2⟩ := cycle_end o1 f1
    have hrot : IsCycle h ((B ++ [e] ++ Q ++ (Y ++ [first.2.1]) ++ P ++ A) ++ [a]) := by
      have : IsCycle h ((P ++ A ++ [a]) ++ (B ++ [e] ++ Q ++ (Y ++ [first.2.1]))) := by simpa using hc
      have := isCycle_append_comm this
      simpa using this
    have hmem : ∀ i, i ∈ (B ++ [e] ++ Q ++ (Y ++ [first.2.1]) ++ P ++ A) ++ [a] → i ∈ P ++ (A ++ a :: B ++ [e]) ++ Q ++ (Y ++ [first.2.1]) := by
      intro i hi
      simp only [List.mem_append, List.mem_cons, List.not_mem_nil, or_false] at hi ⊢
      tauto
    have hj := isCycle_join hrot z1 (fun i hi hz => o2 i (z2.mem_iff.1 hz) (hmem i hi))
    have hj' : IsCycle (sw h a b) ((P ++ A ++ [a]) ++ (Z ++ [b]) ++ (B ++ [e] ++ Q) ++ (Y ++ [first.2.1])) := by
      have : IsCycle (sw h a b) ((B ++ [e] ++ Q ++ (Y ++ [first.2.1])) ++ ((P ++ A ++ [a]) ++ (Z ++ [b]))) := by simpa using hj
      have := isCycle_append_comm this
      simpa using this
    obtain ⟨-, -, la⟩ := isCycle_parts hrot
    obtain ⟨-, -, lb⟩ := isCycle_parts z1
    have hne' : next.1 ∉ items.map Prod.fst := (List.nodup_cons.1 hn).1
    have hother : ∀ l, IsCycle h l → (∀ i ∈ l, i ∉ P ++ (A ++ a :: B ++ [e]) ++ Q ++ (Y ++ [first.2.1])) → (∀ i ∈ l, i ∉ L next.1) → IsCycle (sw h a b) l := by
      intro l hl1 hl2 hl3
      exact isCycle_sw_other hl1 (fun hm => hl2 a hm (by simp)) (fun hm => hl3 b hm f1) la lb
    have hmem' : ∀ i, i ∈ (P ++ A ++ [a]) ++ (Z ++ [b]) ++ (B ++ [e] ++ Q) ++ (Y ++ [first.2.1]) → i ∈ P ++ (A ++ a :: B ++ [e]) ++ Q ++ (Y ++ [first.2.1]) ∨ i ∈ L next.1 := by
      intro i hi
      have : i ∈ Z ++ [b] ↔ i ∈ L next.1 := z2.mem_iff
      rw [← this]
      simp only [List.mem_append, List.mem_cons, List.not_mem_nil, or_false] at hi ⊢
      tauto
    obtain ⟨C, D, k1, k2, k3, k4, k5, k6, k7⟩ := ih next (sw h a b) (P ++ A ++ [a]) Z (B ++ [e] ++ Q) Y b (fun i => hloc i) hj' z2 hY f2 f3
      (Or.inl (by rcases hb0 with hb0 | hb0 <;> simp [hb0])) hch (fun it hit => hl it (by simp at hit ⊢; tauto))
      (fun it hit => by
        obtain ⟨p1, p2⟩ := ho it (by simp [hit])
        have hrr : it.1 ≠ next.1 := fun e => hne' (e ▸ List.mem_map_of_mem hit)
        have hdis : ∀ i ∈ L it.1, i ∉ L next.1 := hd it.1 (by simp only [List.map_cons, List.mem_cons]; exact Or.inr (List.mem_map_of_mem hit)) next.1 (by simp) hrr
        exact ⟨hother _ p1 p2 hdis, fun i hi hm => (hmem' i hm).elim (p2 i hi) (hdis i hi)⟩)
      (List.nodup_cons.1 hn).2 (fun r1 h1 r2 h2 => hd r1 (by simp at h1 ⊢; tauto) r2 (by simp at h2 ⊢; tauto))
    have hfold : swAll h (pairsOf ((r, a, b) :: next :: items)) = swAll (sw h a b) (pairsOf (next :: items)) := rfl
    rw [hfold]
    refine ⟨C, D, k1, k2, k3, k4, ?_, fun l l1 l2 l3 => k6 l (hother l l1 l2 (l3 next (by simp))) (fun i hi hm => (hmem' i hm).elim (l2 i hi) (l3 next (by simp) i hi)) (fun it hit => l3 it (by simp [hit])), fun c => ?_⟩
    · refine k5.trans ?_
      rw [List.map_cons, List.flatten_cons, ← List.append_assoc (P ++ (A ++ a :: B ++ [e]) ++ Q ++ (Y ++ [first.2.1]))]
      refine List.Perm.append_right _ ?_
      have e1 : (P ++ A ++ [a]) ++ (Z ++ [b]) ++ (B ++ [e] ++ Q) ++ (Y ++ [first.2.1]) = (P ++ A ++ [a]) ++ ((Z ++ [b]) ++ (B ++ [e] ++ Q ++ (Y ++ [first.2.1]))) := by simp
      have e2 : P ++ (A ++ a :: B ++ [e]) ++ Q ++ (Y ++ [first.2.1]) ++ L next.1 = (P ++ A ++ [a]) ++ ((B ++ [e] ++ Q ++ (Y ++ [first.2.1])) ++ L next.1) := by simp
      rw [e1, e2]
      exact List.Perm.append_left _ ((z2.perm.append_right _).trans List.perm_append_comm)
    · rw [k7 c, List.map_cons, List.sum_cons, ← add_assoc]
      congr 1
      have hl' := hl (r, a, b) (by simp)
      dsimp only at hl'
      have e1 : (((P ++ A ++ [a]) ++ (Z ++ [b]) ++ (B ++ [e] ++ Q) ++ (Y ++ [first.2.1])).map (locOf h₀)) ~r ((((B ++ [e] ++ Q ++ (Y ++ [first.2.1]) ++ P ++ A) ++ [a]) ++ (Z ++ [b])).map (locOf h₀)) := by
        refine List.IsRotated.map ?_ _
        have : ((P ++ A ++ [a] ++ (Z ++ [b])) ++ (B ++ [e] ++ Q ++ (Y ++ [first.2.1]))) ~r ((B ++ [e] ++ Q ++ (Y ++ [first.2.1])) ++ (P ++ A ++ [a] ++ (Z ++ [b]))) := List.isRotated_append
        simpa using this
      have e2 : ((P ++ (A ++ a :: B ++ [e]) ++ Q ++ (Y ++ [first.2.1])).map (locOf h₀)) ~r (((B ++ [e] ++ Q ++ (Y ++ [first.2.1]) ++ P ++ A) ++ [a]).map (locOf h₀)) := by
        refine List.IsRotated.map ?_ _
        have : ((P ++ A ++ [a]) ++ (B ++ [e] ++ Q ++ (Y ++ [first.2.1]))) ~r ((B ++ [e] ++ Q ++ (Y ++ [first.2.1])) ++ (P ++ A ++ [a])) := List.isRotated_append
        simpa using this
      rw [ringSum_rot c e1, ringSum_rot c e2, ← ringSum_rot c (z2.map _)]
      generalize B ++ [e] ++ Q ++ (Y ++ [first.2.1]) ++ P ++ A = T
      simp only [List.map_append, List.map_cons, List.map_nil, hl']
      exact ringSum_meet c _ _ _

/-- The rings along a loop become two. -/
theorem sw_loop {h : Nat → Node} {first : Hop} {items : List Hop} (hne : items ≠ []) (hloop : Cycle.Chain (Follows L) (↑(first :: items) : Cycle Hop))
    (hl : ∀ it ∈ first :: items, locOf h it.2.1 = locOf h it.2.2) (hc : ∀ it ∈ first :: items, IsCycle h (L it.1))
    (hn : ((first :: items).map Prod.fst).Nodup)
    (hd : ∀ r ∈ (first :: items).map Prod.fst, ∀ r' ∈ (first :: items).map Prod.fst, r ≠ r' → ∀ i ∈ L r, i ∉ L r') :
    ∃ C D, IsCycle (swAll h (pairsOf (first :: items))) C ∧ IsCycle (swAll h (pairsOf (first :: items))) D ∧ first.2.1 ∈ C ∧ first.2.2 ∈ D
      ∧ (C ++ D).Perm ((first :: items).map fun it => L it.1).flatten
      ∧ (∀ l, IsCycle h l → (∀ it ∈ first :: items, ∀ i ∈ l, i ∉ L it.1) → IsCycle (swAll h (pairsOf (first :: items))) l)
      ∧ ∀ c, ringSum c (C.map (locOf h)) + ringSum c (D.map (locOf h)) = ((first :: items).map fun it => ringSum c ((L it.1).map (locOf h))).sum := by
  obtain ⟨cur, items, rfl⟩ := List.exists_cons_of_ne_nil hne
  rw [Cycle.chain_coe_cons] at hloop
  have hlast : ∃ it ∈ first :: cur :: items, Follows L it first := by
    have := hloop
    rw [← List.cons_append, List.isChain_append] at this
    obtain ⟨-, -, h3⟩ := this
    refine ⟨(first :: cur :: items).getLast (by simp), List.getLast_mem _, h3 _ ?_ _ (by simp)⟩
    rw [List.getLast?_eq_getLast_of_ne_nil (by simp)]; rfl
  obtain ⟨-, -, -, m1, -⟩ := hlast
  rw [List.cons_append, List.isChain_cons_cons] at hloop
  obtain ⟨⟨f1, f2, f3⟩, hch⟩ := hloop
  obtain ⟨X, x1, x2⟩ := cycle_end (hc first (by simp)) m1
  obtain ⟨Z, z1, z2⟩ := cycle_end (hc cur (by simp)) f1
  have hn1 : first.1 ∉ (cur :: items).map Prod.fst := (List.nodup_cons.1 hn).1
  have hn2 : cur.1 ∉ items.map Prod.fst := (List.nodup_cons.1 (List.nodup_cons.1 hn).2).1
  have hfc : first.1 ≠ cur.1 := fun e => hn1 (by rw [e]; simp)
  have hdis := hd first.1 (by simp) cur.1 (by simp) hfc
  have hj := isCycle_join x1 z1 (fun i hi hz => hdis i (x2.mem_iff.1 hi) (z2.mem_iff.1 hz))
  have hj' : IsCycle (sw h first.2.1 first.2.2) ([] ++ (Z ++ [first.2.2]) ++ [] ++ (X ++ [first.2.1])) := by
    have := isCycle_append_comm hj
    simpa using this
  obtain ⟨-, -, la⟩ := isCycle_parts x1
  obtain ⟨-, -, lb⟩ := isCycle_parts z1
  have hother : ∀ l, IsCycle h l → (∀ i ∈ l, i ∉ L first.1) → (∀ i ∈ l, i ∉ L cur.1) → IsCycle (sw h first.2.1 first.2.2) l := fun l l1 l2 l3 =>
    isCycle_sw_other l1 (fun hm => l2 _ hm m1) (fun hm => l3 _ hm f1) la lb
  have hmem : ∀ i, i ∈ [] ++ (Z ++ [first.2.2]) ++ [] ++ (X ++ [first.2.1]) → i ∈ L cur.1 ∨ i ∈ L first.1 := by
    intro i hi
    rw [← z2.mem_iff, ← x2.mem_iff]
    simpa [or_assoc] using hi
  have inn : ∀ it ∈ items, it.1 ∈ (first :: cur :: items).map Prod.fst := fun it hit => List.mem_map_of_mem (by simp [hit])
  obtain ⟨C, D, k1, k2, k3, k4, k5, k6, k7⟩ := sw_chain (h₀ := h) items cur (sw h first.2.1 first.2.2) [] Z [] X first.2.2 (fun _ => rfl) hj' z2 x2 f2 f3 (Or.inr rfl)
    (by simpa using hch) (fun it hit => hl it (by simp at hit ⊢; tauto))
    (fun it hit => by
      have h1 : it.1 ≠ first.1 := fun e => hn1 (e ▸ List.mem_map_of_mem (by simp [hit]))
      have h2 : it.1 ≠ cur.1 := fun e => hn2 (e ▸ List.mem_map_of_mem hit)
      have d1 := hd it.1 (inn it hit) first.1 (by simp) h1
      have d2 := hd it.1 (inn it hit) cur.1 (by simp) h2
      exact ⟨hother _ (hc it (by simp [hit])) d1 d2, fun i hi hm => (hmem i hm).elim (d2 i hi) (d1 i hi)⟩)
    (List.nodup_cons.1 (List.nodup_cons.1 hn).2).2 (fun r1 h1 r2 h2 => hd r1 (by simp at h1 ⊢; tauto) r2 (by simp at h2 ⊢; tauto))
  have hfold : swAll h (pairsOf (first :: cur :: items)) = swAll (sw h first.2.1 first.2.2) (pairsOf (cur :: items)) := rfl
  rw [hfold]
  refine ⟨C, D, k1, k2, k3, k4, k5.trans ?_, fun l l1 l2 => k6 l (hother l l1 (l2 first (by simp)) (l2 cur (by simp))) (fun i hi hm => (hmem i hm).elim (l2 cur (by simp) i hi) (l2 first (by simp) i hi)) (fun it hit => l2 it (by simp [hit])), fun c => ?_⟩
  · simp only [List.map_cons, List.flatten_cons, List.nil_append, List.append_nil]
    have e1 : (Z ++ [first.2.2] ++ X ++ [first.2.1] ++ (items.map fun it => L it.1).flatten) = ((Z ++ [first.2.2]) ++ (X ++ [first.2.1])) ++ (items.map fun it => L it.1).flatten := by simp
    have e2 : L first.1 ++ (L cur.1 ++ (items.map fun it => L it.1).flatten) = (L first.1 ++ L cur.1) ++ (items.map fun it => L it.1).flatten := by simp
    rw [← List.append_assoc, e1, e2]
    exact ((z2.perm.append x2.perm).trans List.perm_append_comm).append_right _
  · have hl' := hl first (by simp)
    rw [k7 c, List.map_cons, List.sum_cons, List.map_cons, List.sum_cons, ← add_assoc]
    congr 1
    simp only [List.nil_append, List.append_nil]
    have e : ((Z ++ [first.2.2] ++ (X ++ [first.2.1])).map (locOf h)) ~r ((X ++ [first.2.1] ++ (Z ++ [first.2.2])).map (locOf h)) := List.isRotated_append.map _
    rw [ringSum_rot c e, ← ringSum_rot c (x2.map _), ← ringSum_rot c (z2.map _)]
    simp only [List.map_append, List.map_cons, List.map_nil, hl']
    exact ringSum_meet c _ _ _

end

end Wagyu
