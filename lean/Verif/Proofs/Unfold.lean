import Verif.Proofs.Output
import Verif.Props.Forest

/-!
# The forest found by building the result
-/

namespace Wagyu

open Spec

/-! ## Depths -/

theorem HasDepth.unique {parent : Nat → Option Nat} : ∀ {d e i : Nat}, HasDepth parent i d → HasDepth parent i e → d = e
  | 0, 0, _, _, _ => rfl
  | 0, e + 1, i, h1, h2 => by obtain ⟨q, h, _⟩ := h2; rw [HasDepth] at h1; rw [h1] at h; cases h
  | d + 1, 0, i, h1, h2 => by obtain ⟨q, h, _⟩ := h1; rw [HasDepth] at h2; rw [h2] at h; cases h
  | d + 1, e + 1, i, h1, h2 => by
    obtain ⟨q, hq, h1⟩ := h1
    obtain ⟨q', hq', h2⟩ := h2
    rw [hq] at hq'; cases hq'
    rw [HasDepth.unique h1 h2]

/-- The `k`-th ancestor. -/
def up (parent : Nat → Option Nat) : Nat → Nat → Option Nat
  | 0, i => some i
  | k + 1, i => (parent i).bind (up parent k)

theorem up_succ (parent : Nat → Option Nat) (k i : Nat) : up parent (k + 1) i = (up parent k i).bind parent := by
  induction k generalizing i with
  | zero => simp [up]
  | succ k ih =>
    rw [up]
    cases hp : parent i with
    | none => simp [up, hp]
    | some q => simp only [Option.bind_some]; rw [ih q, up, hp]; rfl

theorem depths_ge (d : Nat) : (∀ t : Tree, ∀ p ∈ t.depths d, d ≤ p.2) := by
  intro t
  have key : ∀ n, ∀ t : Tree, sizeOf t ≤ n → ∀ d, ∀ p ∈ t.depths d, d ≤ p.2 := by
    intro n
    induction n with
    | zero => intro t ht; obtain ⟨i, cs⟩ := t; simp at ht
    | succ n ih =>
      intro t ht d p hp
      obtain ⟨i, cs⟩ := t
      rw [Tree.depths] at hp
      rcases List.mem_cons.1 hp with rfl | hp
      · exact Nat.le_refl _
      · have : ∀ cs : List Tree, sizeOf cs ≤ n → p ∈ depthsOf (d + 1) cs → d + 1 ≤ p.2 := by
          intro cs
          induction cs with
          | nil => intro _ h; simp [depthsOf] at h
          | cons c cs ihc =>
            intro hs h
            rw [depthsOf] at h
            simp at hs
            rcases List.mem_append.1 h with h | h
            · exact ih c (by omega) _ p h
            · exact ihc (by omega) h
        have := this cs (by simp at ht; omega) hp
        omega
  exact key _ t (Nat.le_refl _) d

section
variable {s : St} (h : Inv none' s)
include h

/-- A recorded child records its parent. -/
theorem parent_of_listed {p : Option Nat} {i : Nat} (hi : i ∈ (kids s p).filterMap id) : (s.rings i).parent = p := by
  have : some i ∈ kids s p := by simpa using hi
  exact (((consistent_iff s).2 h).1 i p this).1

theorem nodup_listed (p : Option Nat) : ((kids s p).filterMap id).Nodup := by
  have hc : ∀ (l : List (Option Nat)) (i : Nat), (l.filterMap id).count i = l.count (some i) := by
    intro l i
    induction l with
    | nil => rfl
    | cons c l ih =>
      cases c with
      | none => rw [List.filterMap_cons_none (f := id) rfl, List.count_cons, ih]; simp
      | some c =>
        rw [List.filterMap_cons_some (f := id) rfl, List.count_cons, List.count_cons, ih]
        simp
  rw [List.nodup_iff_count_le_one]
  intro i
  rw [hc]
  have := h.once p i
  unfold cnt at this
  split at this <;> omega

mutual
theorem tree_up (d : Nat) : ∀ t : Tree, Recorded s.rings t → ∀ p ∈ t.depths d,
    up (fun i => (s.rings i).parent) (p.2 - d) p.1 = some t.root
  | .mk i cs, hr, p, hp => by
    rw [Recorded] at hr
    rw [Tree.depths] at hp
    rcases List.mem_cons.1 hp with rfl | hp
    · simp [up, Tree.root]
    · obtain ⟨c, hc, hge, hup⟩ := forest_up (d + 1) cs hr.2 p hp
      have hpar : (s.rings c).parent = some i := parent_of_listed h (p := some i) (by
        show c ∈ (s.rings i).children.filterMap id; rw [hr.1]; exact hc)
      have : p.2 - d = (p.2 - (d + 1)) + 1 := by omega
      rw [this, up_succ, hup]
      exact hpar
theorem forest_up (d : Nat) : ∀ ts : List Tree, RecordedAll s.rings ts → ∀ p ∈ depthsOf d ts,
    ∃ c ∈ ts.map Tree.root, d ≤ p.2 ∧ up (fun i => (s.rings i).parent) (p.2 - d) p.1 = some c
  | [], _, p, hp => by simp [depthsOf] at hp
  | t :: ts, hr, p, hp => by
    rw [RecordedAll] at hr
    rw [depthsOf] at hp
    rcases List.mem_append.1 hp with hp | hp
    · exact ⟨t.root, by simp, depths_ge d t p hp, tree_up d t hr.1 p hp⟩
    · obtain ⟨c, hc, h1⟩ := forest_up d ts hr.2 p hp
      exact ⟨c, by simp [hc], h1⟩
end

mutual
theorem tree_depth (d : Nat) : ∀ t : Tree, Recorded s.rings t → HasDepth (fun i => (s.rings i).parent) t.root d →
    ∀ p ∈ t.depths d, HasDepth (fun i => (s.rings i).parent) p.1 p.2
  | .mk i cs, hr, hd, p, hp => by
    rw [Recorded] at hr
    rw [Tree.depths] at hp
    rcases List.mem_cons.1 hp with rfl | hp
    · exact hd
    · refine forest_depth (d + 1) cs hr.2 (fun c hc => ⟨i, ?_, hd⟩) p hp
      exact parent_of_listed h (p := some i) (by show c ∈ (s.rings i).children.filterMap id; rw [hr.1]; exact hc)
theorem forest_depth (d : Nat) : ∀ ts : List Tree, RecordedAll s.rings ts →
    (∀ c ∈ ts.map Tree.root, HasDepth (fun i => (s.rings i).parent) c d) →
    ∀ p ∈ depthsOf d ts, HasDepth (fun i => (s.rings i).parent) p.1 p.2
  | [], _, _, p, hp => by simp [depthsOf] at hp
  | t :: ts, hr, hd, p, hp => by
    rw [RecordedAll] at hr
    rw [depthsOf] at hp
    rcases List.mem_append.1 hp with hp | hp
    · exact tree_depth d t hr.1 (hd _ (by simp)) p hp
    · exact forest_depth d ts hr.2 (fun c hc => hd c (by simp [hc])) p hp
end

mutual
theorem tree_nodup (d : Nat) : ∀ t : Tree, Recorded s.rings t → HasDepth (fun i => (s.rings i).parent) t.root d →
    ((t.depths d).map Prod.fst).Nodup
  | .mk i cs, hr, hd => by
    have hr' := hr
    rw [Recorded] at hr
    rw [Tree.depths, List.map_cons, List.nodup_cons]
    have hc : ∀ c ∈ cs.map Tree.root, HasDepth (fun i => (s.rings i).parent) c (d + 1) := fun c hc => ⟨i,
      parent_of_listed h (p := some i) (by show c ∈ (s.rings i).children.filterMap id; rw [hr.1]; exact hc), hd⟩
    refine ⟨fun hm => ?_, forest_nodup (d + 1) cs hr.2 hc ?_⟩
    · obtain ⟨p, hp, he⟩ := List.mem_map.1 hm
      have h1 := forest_depth h (d + 1) cs hr.2 hc p hp
      obtain ⟨_, _, hge, _⟩ := forest_up h (d + 1) cs hr.2 p hp
      rw [he] at h1
      have := HasDepth.unique h1 hd
      omega
    · rw [← hr.1]; exact nodup_listed h (some i)
theorem forest_nodup (d : Nat) : ∀ ts : List Tree, RecordedAll s.rings ts →
    (∀ c ∈ ts.map Tree.root, HasDepth (fun i => (s.rings i).parent) c d) → (ts.map Tree.root).Nodup →
    ((depthsOf d ts).map Prod.fst).Nodup
  | [], _, _, _ => by simp [depthsOf]
  | t :: ts, hr, hd, hn => by
    rw [RecordedAll] at hr
    rw [List.map_cons, List.nodup_cons] at hn
    rw [depthsOf, List.map_append, List.nodup_append]
    have hd1 := hd t.root (by simp)
    have hd2 : ∀ c ∈ ts.map Tree.root, HasDepth (fun i => (s.rings i).parent) c d := fun c hc => hd c (by simp [hc])
    refine ⟨tree_nodup d t hr.1 hd1, forest_nodup d ts hr.2 hd2 hn.2, ?_⟩
    intro i hi j hj hij
    subst hij
    obtain ⟨p, hp, he⟩ := List.mem_map.1 hi
    obtain ⟨q, hq, he'⟩ := List.mem_map.1 hj
    have h1 := tree_depth h d t hr.1 hd1 p hp
    have h2 := forest_depth h d ts hr.2 hd2 q hq
    rw [he] at h1; rw [he'] at h2
    have hpq := HasDepth.unique h1 h2
    have u1 := tree_up h d t hr.1 p hp
    obtain ⟨c, hc, _, u2⟩ := forest_up h d ts hr.2 q hq
    rw [he, hpq] at u1; rw [he', u1] at u2
    cases u2
    exact hn.1 hc
end
end

/-! ## Unfolding -/

theorem mapM'_inv {α β : Type} {f : α → M β} (hf : ∀ a, Pres Eq (f a)) {s s' : St} : ∀ {l : List α} {r : List β},
    mapM' f l s = .ok r s' → s' = s ∧ List.Forall₂ (fun a b => f a s = .ok b s) l r
  | [], r, h => by rw [mapM'] at h; cases h; exact ⟨rfl, .nil⟩
  | a :: l, r, h => by
    rw [mapM', run_bind] at h
    have h1 := (hf a).pres s
    cases ha : f a s with
    | err e s1 => rw [ha] at h; cases h
    | ok b s1 =>
      rw [ha] at h h1
      have : s = s1 := h1
      subst this
      simp only [run_bind] at h
      cases hl : mapM' f l s with
      | err e s2 => rw [hl] at h; cases h
      | ok r' s2 =>
        rw [hl] at h
        simp only [run_pure] at h
        cases h
        obtain ⟨h2, h3⟩ := mapM'_inv hf hl
        exact ⟨h2, .cons ha h3⟩

/-- The linear ring of a ring. -/
def linearOf (rev : Bool) (s : St) (i : Nat) : LinearRing :=
  match ringToLinearRing i rev s with
  | .ok l _ => l
  | .err _ _ => []

instance presLinear {R : St → St → Prop} [Preo R] (i : Nat) (rev : Bool) : Pres R (ringToLinearRing i rev) := by
  unfold ringToLinearRing pointNodeToLinearRing
  refine Pres.bind inferInstance fun _ => Pres.bind inferInstance fun _ => Pres.bind (by pres) fun _ =>
    Pres.bind (Pres.mapM' (fun _ => inferInstance) _) fun _ => by pres
instance presPolygons {R : St → St → Prop} [Preo R] (rev : Bool) (n : Nat) (l : List (Option Nat)) : Pres R (ringsToPolygons rev n l) := by
  induction n generalizing l with
  | zero => rw [ringsToPolygons]; pres
  | succ n ih =>
    rw [ringsToPolygons]
    refine Pres.bind (Pres.mapM' (fun o => ?_) _) fun _ => by pres
    split
    · pres
    · refine Pres.bind inferInstance fun _ => Pres.bind inferInstance fun _ => Pres.bind (Pres.mapM' (fun _ => inferInstance) _) fun _ =>
        Pres.bind (Pres.mapM' (fun _ => Pres.bind inferInstance fun _ => ih _) _) fun _ => by pres

theorem forall2_flatten {ι β : Type} {P : ι → List β → Prop} {root : Tree → ι} {g : Tree → List β} {good : Tree → Prop} :
    ∀ {l : List ι} {r : List (List β)}, List.Forall₂ P l r → (∀ i b, P i b → ∃ t, root t = i ∧ b = g t ∧ good t) →
    ∃ ts : List Tree, ts.map root = l ∧ r.flatten = (ts.map g).flatten ∧ ∀ t ∈ ts, good t
  | _, _, .nil, _ => ⟨[], rfl, rfl, by simp⟩
  | _, _, .cons hp hr, h => by
    obtain ⟨t, h1, h2, h3⟩ := h _ _ hp
    obtain ⟨ts, k1, k2, k3⟩ := forall2_flatten hr h
    exact ⟨t :: ts, by simp [h1, k1], by simp [h2, k2], by simpa using ⟨h3, k3⟩⟩

theorem recordedAll_iff (rings : Nat → Ring) (ts : List Tree) : RecordedAll rings ts ↔ ∀ t ∈ ts, Recorded rings t := by
  induction ts with
  | nil => simp [RecordedAll]
  | cons t ts ih => rw [RecordedAll, ih]; simp

theorem mem_idsOf {ts : List Tree} {i : Nat} : i ∈ idsOf ts ↔ ∃ t ∈ ts, i ∈ t.ids := by
  induction ts with
  | nil => simp [idsOf]
  | cons t ts ih => rw [idsOf, List.mem_append, ih]; simp

theorem ringsToPolygons_inv (rev : Bool) {s : St} : ∀ (fuel : Nat) (opts : List (Option Nat)) {mp : Multipolygon} {s' : St},
    ringsToPolygons rev fuel opts s = .ok mp s' →
    s' = s ∧ ∃ ts : List Tree, opts.filterMap id = ts.map Tree.root ∧ RecordedAll s.rings ts
      ∧ (∀ i ∈ idsOf ts, ringToLinearRing i rev s = .ok (linearOf rev s i) s) ∧ mp = polygonsOf (linearOf rev s) ts
  | 0, opts, mp, s', h => by rw [ringsToPolygons] at h; cases h
  | fuel + 1, opts, mp, s', h => by
    rw [ringsToPolygons, run_bind] at h
    have linear : ∀ {i l} {s1}, ringToLinearRing i rev s = .ok l s1 → s1 = s ∧ ringToLinearRing i rev s = .ok (linearOf rev s i) s
        ∧ l = linearOf rev s i := by
      intro i l s1 he
      have h1 := (presLinear (R := Eq) i rev).pres s
      rw [he] at h1
      have h2 : s = s1 := h1
      subst h2
      exact ⟨rfl, by rw [linearOf, he], by rw [linearOf, he]⟩
    -- one ring
    have one : ∀ (i : Nat) (mp : Multipolygon), (do
          let exterior ← ringToLinearRing i rev
          let children := (← getRing i).children
          let holes ← mapM' (fun c => ringToLinearRing c rev) (children.filterMap id)
          let rest ← mapM' (fun c => do
            ringsToPolygons rev fuel (← getRing c).children) (children.filterMap id)
          pure ((exterior :: holes) :: rest.flatten) : M Multipolygon) s = .ok mp s →
        ∃ t : Tree, t.root = i ∧ mp = t.asExterior (linearOf rev s) ∧ Recorded s.rings t
          ∧ ∀ j ∈ t.ids, ringToLinearRing j rev s = .ok (linearOf rev s j) s := by
      intro i mp he
      rw [run_bind] at he
      cases h1 : ringToLinearRing i rev s with
      | err e s1 => rw [h1] at he; cases he
      | ok ext s1 =>
        rw [h1] at he
        obtain ⟨rfl, hlin, rfl⟩ := linear h1
        simp only [run_bind, run_getRing] at he
        cases h2 : mapM' (fun c => ringToLinearRing c rev) ((s1.rings i).children.filterMap id) s1 with
        | err e s2 => rw [h2] at he; cases he
        | ok holes s2 =>
          rw [h2] at he
          obtain ⟨rfl, hh⟩ := mapM'_inv (fun _ => inferInstance) h2
          simp only at he
          cases h3 : mapM' (fun c => do ringsToPolygons rev fuel (← getRing c).children) ((s2.rings i).children.filterMap id) s2 with
          | err e s3 => rw [h3] at he; cases he
          | ok rest s3 =>
            rw [h3] at he
            obtain ⟨rfl, hr⟩ := mapM'_inv (fun _ => by pres) h3
            simp only [run_pure] at he
            cases he
            have hholes : holes = ((s3.rings i).children.filterMap id).map (linearOf rev s3) := by
              clear h2 h3 hr h1 hlin
              generalize (s3.rings i).children.filterMap id = cs at hh ⊢
              induction hh with
              | nil => rfl
              | cons ha _ ih => rw [List.map_cons, ← ih, (linear ha).2.2]
            have hall : ∀ c ∈ (s3.rings i).children.filterMap id, ringToLinearRing c rev s3 = .ok (linearOf rev s3 c) s3 := by
              intro c hc
              clear h2 h3 hr h1 hlin hholes
              generalize (s3.rings i).children.filterMap id = cs at hh hc
              induction hh with
              | nil => simp at hc
              | cons ha _ ih =>
                rcases List.mem_cons.1 hc with rfl | hc
                · exact (linear ha).2.1
                · exact ih hc
            obtain ⟨cs, k1, k2, k3⟩ := forall2_flatten (root := Tree.root) (g := fun t => t.asHole (linearOf rev s3))
              (good := fun t => t.root ∈ (s3.rings i).children.filterMap id → Recorded s3.rings t ∧ ∀ j ∈ t.ids, ringToLinearRing j rev s3 = .ok (linearOf rev s3 j) s3)
              hr (by
                intro c b hb
                simp only [run_bind, run_getRing] at hb
                obtain ⟨_, ts, t1, t2, t3, t4⟩ := ringsToPolygons_inv rev fuel _ hb
                refine ⟨.mk c ts, rfl, by rw [t4, Tree.asHole], fun hc => ⟨by rw [Recorded]; exact ⟨t1, t2⟩, fun j hj => ?_⟩⟩
                rw [Tree.ids] at hj
                rcases List.mem_cons.1 hj with rfl | hj
                · exact hall _ hc
                · exact t3 j hj)
            have k3' : ∀ t ∈ cs, Recorded s3.rings t ∧ ∀ j ∈ t.ids, ringToLinearRing j rev s3 = .ok (linearOf rev s3 j) s3 :=
              fun t ht => k3 t ht (by rw [← k1]; exact List.mem_map_of_mem ht)
            refine ⟨.mk i cs, rfl, ?_, ?_, ?_⟩
            · rw [Tree.asExterior, hholes, ← k1, List.map_map, k2, insideHoles_eq]; rfl
            · rw [Recorded]; exact ⟨k1.symm, (recordedAll_iff _ _).2 fun t ht => (k3' t ht).1⟩
            · intro j hj
              rw [Tree.ids] at hj
              rcases List.mem_cons.1 hj with rfl | hj
              · exact hlin
              · obtain ⟨t, ht, hj⟩ := mem_idsOf.1 hj
                exact (k3' t ht).2 j hj
    have fin : ∀ f : Option Nat → M Multipolygon, (∀ o, Pres Eq (f o)) → (f none s = .ok [] s) →
        (∀ i mp, f (some i) s = .ok mp s → ∃ t : Tree, t.root = i ∧ mp = t.asExterior (linearOf rev s) ∧ Recorded s.rings t
          ∧ ∀ j ∈ t.ids, ringToLinearRing j rev s = .ok (linearOf rev s j) s) →
        ∀ {opts parts s1}, mapM' f opts s = .ok parts s1 → s1 = s ∧ ∃ ts : List Tree, opts.filterMap id = ts.map Tree.root
          ∧ RecordedAll s.rings ts ∧ (∀ i ∈ idsOf ts, ringToLinearRing i rev s = .ok (linearOf rev s i) s)
          ∧ parts.flatten = polygonsOf (linearOf rev s) ts := by
      intro f hf h0 h1 opts parts s1 hm
      obtain ⟨hs, hF⟩ := mapM'_inv hf hm
      refine ⟨hs, ?_⟩
      clear hm
      induction hF with
      | nil => exact ⟨[], rfl, by simp [RecordedAll], by simp [idsOf], rfl⟩
      | @cons o b opts parts ha hF ih =>
        obtain ⟨ts, t1, t2, t3, t4⟩ := ih
        cases o with
        | none =>
          rw [h0] at ha; cases ha
          exact ⟨ts, by simpa using t1, t2, t3, by simpa using t4⟩
        | some i =>
          obtain ⟨t, u1, u2, u3, u4⟩ := h1 i b ha
          refine ⟨t :: ts, by rw [List.filterMap_cons_some (f := id) rfl, t1, List.map_cons, u1], by rw [RecordedAll]; exact ⟨u3, t2⟩, ?_, ?_⟩
          · intro j hj
            rw [idsOf] at hj
            rcases List.mem_append.1 hj with hj | hj
            · exact u4 j hj
            · exact t3 j hj
          · rw [List.flatten_cons, t4, u2, polygonsOf]
    split at h
    · next parts s1 hm =>
      rw [run_pure] at h
      cases h
      obtain ⟨hs, ts, t⟩ := fin _ (fun o => by
        split
        · pres
        · exact Pres.bind inferInstance fun _ => Pres.bind inferInstance fun _ => Pres.bind (Pres.mapM' (fun _ => inferInstance) _) fun _ =>
            Pres.bind (Pres.mapM' (fun _ => Pres.bind inferInstance fun _ => inferInstance) _) fun _ => by pres) rfl (fun i mp he => one i mp he) hm
      exact ⟨hs, ts, t⟩
    · cases h

end Wagyu
