import Verif.Proofs.Post
import Verif.Proofs.Walks
import Verif.Spec.Forest
import Verif.Model.Wagyu

/-!
# Building the result (polygon.py)
-/

namespace Wagyu

open Spec

theorem mapM'_run {α β : Type} {f : α → M β} {g : α → β} {s : St} : ∀ {l : List α}, (∀ x ∈ l, f x s = .ok (g x) s) →
    mapM' f l s = .ok (l.map g) s
  | [], _ => rfl
  | a :: l, h => by
    rw [mapM']
    simp only [run_bind, h a (by simp), mapM'_run (l := l) fun x hx => h x (by simp [hx])]
    rfl

theorem mapM'_ok {α β : Type} {f : α → M β} {P : β → Prop} (h : ∀ x s, Ok (f x) s fun b _ => P b) :
    ∀ (l : List α) (s : St), Ok (mapM' f l) s fun r _ => ∀ b ∈ r, P b
  | [], _ => by simp [mapM', Ok, Post, run_pure]
  | a :: l, s => by
    rw [mapM']
    refine Post.bind ((h a s).imp fun b s' hb => Post.bind ((mapM'_ok h l s').imp fun r s'' hr => Post.pure ?_))
    intro x hx
    rcases List.mem_cons.1 hx with rfl | hx
    · exact hb
    · exact hr x hx

/-! ## Without assumptions: closed rings -/

/-- The list starts with `a`. -/
theorem nodesFrom_head (a : Nat) (s : St) : Ok (nodesFrom a) s fun l s' => l.head? = some a ∧ s' = s := by
  unfold nodesFrom
  refine Post.loopM (I := fun (st : Nat × List Nat) s' => ((st.1 :: st.2).getLast? = some a) ∧ s' = s) ?_ (fun _ _ _ => trivial)
    ⟨rfl, rfl⟩
  rintro ⟨c, acc⟩ s' ⟨hs, rfl⟩
  refine Post.bind ((Post.of_pres (R := Eq) (Pres.nextOf (R := Eq) c)).mono ?_ fun _ _ _ => trivial)
  rintro n _ rfl
  refine Post.ite (fun _ => Post.pure ?_) fun _ => Post.pure ?_
  · exact ⟨by rw [List.head?_reverse]; exact hs, rfl⟩
  · refine ⟨?_, rfl⟩
    rw [List.getLast?_cons]
    rw [hs]; rfl

theorem nodesBackFrom_head (a : Nat) (s : St) : Ok (nodesBackFrom a) s fun l s' => l.head? = some a ∧ s' = s := by
  unfold nodesBackFrom
  refine Post.loopM (I := fun (st : Nat × List Nat) s' => ((st.1 :: st.2).getLast? = some a) ∧ s' = s) ?_ (fun _ _ _ => trivial)
    ⟨rfl, rfl⟩
  rintro ⟨c, acc⟩ s' ⟨hs, rfl⟩
  refine Post.bind ((Post.of_pres (R := Eq) (Pres.prevOf (R := Eq) c)).mono ?_ fun _ _ _ => trivial)
  rintro n _ rfl
  refine Post.ite (fun _ => Post.pure ?_) fun _ => Post.pure ?_
  · exact ⟨by rw [List.head?_reverse]; exact hs, rfl⟩
  · refine ⟨?_, rfl⟩
    rw [List.getLast?_cons]
    rw [hs]; rfl

/-- At least two points, the first being the last. -/
def Closed (l : List Point) : Prop := 2 ≤ l.length ∧ l.head? = l.getLast?

theorem pointNodeToLinearRing_closed (n : Option Nat) (rev : Bool) (s : St) :
    Ok (pointNodeToLinearRing n rev) s fun l _ => Closed l := by
  unfold pointNodeToLinearRing
  refine Post.bind (Post.deref (fun a _ => ?_) fun _ => trivial)
  have key : Ok (if rev then nodesFrom a else nodesBackFrom a) s fun l s' => l.head? = some a ∧ s' = s :=
    Post.ite (fun _ => nodesFrom_head a s) fun _ => nodesBackFrom_head a s
  refine Post.bind (key.imp ?_)
  rintro ids s' ⟨hids, hs⟩
  subst hs
  refine Post.bind (Post.run (mapM'_run fun i _ => run_pointOf i s') ?_)
  refine Post.bind (Post.run (run_pointOf a s') (Post.pure ?_))
  cases ids with
  | nil => simp at hids
  | cons b ids =>
    simp at hids
    subst hids
    exact ⟨by simp, by rw [List.getLast?_append]; simp⟩

theorem ringsToPolygons_closed (rev : Bool) : ∀ (fuel : Nat) (rings : List (Option Nat)) (s : St),
    Ok (ringsToPolygons rev fuel rings) s fun mp _ => ∀ polygon ∈ mp, polygon ≠ [] ∧ ∀ ring ∈ polygon, Closed ring
  | 0, _, _ => trivial
  | fuel + 1, rings, s => by
    rw [ringsToPolygons]
    have hring : ∀ r s, Ok (ringToLinearRing r rev) s fun l _ => Closed l := fun r s => by
      unfold ringToLinearRing
      exact Post.bind (Post.getRing (pointNodeToLinearRing_closed _ _ _))
    refine Post.bind ((mapM'_ok (P := fun (ps : List Polygon) => ∀ polygon ∈ ps, polygon ≠ [] ∧ ∀ ring ∈ polygon, Closed ring)
      ?_ rings s).imp ?_)
    · intro o s
      cases o with
      | none => exact Post.pure (by simp)
      | some r =>
        refine Post.bind ((hring r s).imp fun ext s' hext => ?_)
        refine Post.bind (Post.getRing (Post.bind ((mapM'_ok (fun x s => hring x s) _ s').imp fun holes s'' hholes => ?_)))
        refine Post.bind ((mapM'_ok (P := fun (ps : List Polygon) => ∀ polygon ∈ ps, polygon ≠ [] ∧ ∀ ring ∈ polygon, Closed ring)
          (fun x s => Post.bind (Post.getRing (ringsToPolygons_closed rev fuel _ s))) _ s'').imp fun rest s3 hrest => Post.pure ?_)
        intro polygon hp
        rcases List.mem_cons.1 hp with rfl | hp
        · refine ⟨by simp, fun ring hr => ?_⟩
          rcases List.mem_cons.1 hr with rfl | hr
          · exact hext
          · exact hholes ring hr
        · obtain ⟨ps, hps, hp⟩ := List.mem_flatten.1 hp
          exact hrest ps hps polygon hp
    · intro parts s' hparts
      refine Post.pure fun polygon hp => ?_
      obtain ⟨ps, hps, hp⟩ := List.mem_flatten.1 hp
      exact hparts ps hps polygon hp

/-! ## For well-formed rings -/

/-- The nodes of the rings in `ids` form circular lists: `lists i` starting with the node of `i`. -/
def RingLists (s : St) (lists : Nat → List Nat) (ids : List Nat) : Prop :=
  ∀ i ∈ ids, IsCycle s.nodes (lists i) ∧ (s.rings i).node = (lists i).head? ∧ (lists i).length ≤ s.fuel

theorem ringToLinearRing_run {s : St} {lists : Nat → List Nat} {ids : List Nat} (h : RingLists s lists ids) (rev : Bool)
    {i : Nat} (hi : i ∈ ids) : ringToLinearRing i rev s = .ok (closedRing s.nodes lists rev i) s := by
  obtain ⟨hc, hn, hf⟩ := h i hi
  unfold ringToLinearRing pointNodeToLinearRing closedRing
  cases hl : lists i with
  | nil => rw [hl] at hc; exact hc.elim
  | cons a t =>
    rw [hl] at hc hn hf
    have hlen : t.length < s.fuel := by simp at hf; omega
    simp only [run_bind, run_getRing, hn, List.head?_cons, run_deref_some]
    cases rev
    · simp only [Bool.false_eq_true, if_false, nodesBackFrom_run hc hlen, mapM'_run fun i _ => run_pointOf i s, run_pointOf]
      simp [pointsOf, run_pure]
    · simp only [if_true, nodesFrom_run hc hlen, mapM'_run fun i _ => run_pointOf i s, run_pointOf]
      simp [pointsOf, run_pure]

theorem root_mem_ids (t : Tree) : t.root ∈ t.ids := by cases t; simp [Tree.root, Tree.ids]

theorem ids_subset {t : Tree} {ts : List Tree} (h : t ∈ ts) : ∀ i ∈ t.ids, i ∈ idsOf ts := by
  induction ts with
  | nil => simp at h
  | cons u ts ih =>
    intro i hi
    rw [idsOf]
    rcases List.mem_cons.1 h with rfl | h
    · exact List.mem_append_left _ hi
    · exact List.mem_append_right _ (ih h i hi)

theorem height_le {t : Tree} {ts : List Tree} (h : t ∈ ts) : t.height ≤ heightOf ts := by
  induction ts with
  | nil => simp at h
  | cons u ts ih =>
    rw [heightOf]
    rcases List.mem_cons.1 h with rfl | h
    · exact le_max_left _ _
    · exact (ih h).trans (le_max_right _ _)

theorem recorded_of_mem {rings : Nat → Ring} {ts : List Tree} (h : RecordedAll rings ts) : ∀ t ∈ ts, Recorded rings t := by
  induction ts with
  | nil => simp
  | cons u ts ih =>
    rw [RecordedAll] at h
    intro t ht
    rcases List.mem_cons.1 ht with rfl | ht
    · exact h.1
    · exact ih h.2 t ht

theorem insideHoles_eq {α : Type} (f : Nat → α) (ts : List Tree) : insideHoles f ts = (ts.map (·.asHole f)).flatten := by
  induction ts with
  | nil => rfl
  | cons t ts ih => rw [insideHoles, ih]; rfl

theorem polygonsOf_eq {α : Type} (f : Nat → α) (ts : List Tree) : polygonsOf f ts = (ts.map (·.asExterior f)).flatten := by
  induction ts with
  | nil => rfl
  | cons t ts ih => rw [polygonsOf, ih]; rfl

theorem mapM'_flatten_filter {β : Type} {f : Option Nat → M (List β)} {s : St} {g : Tree → List β} :
    ∀ (opts : List (Option Nat)) (ts : List Tree), opts.filterMap id = ts.map Tree.root → (f none s = .ok [] s) →
      (∀ t ∈ ts, f (some t.root) s = .ok (g t) s) → ∃ parts, mapM' f opts s = .ok parts s ∧ parts.flatten = (ts.map g).flatten
  | [], ts, h, _, _ => by
    have : ts = [] := by cases ts <;> simp_all
    subst this
    exact ⟨[], rfl, rfl⟩
  | none :: opts, ts, h, h0, h1 => by
    obtain ⟨parts, e1, e2⟩ := mapM'_flatten_filter opts ts (by simpa using h) h0 h1
    refine ⟨[] :: parts, ?_, by simpa using e2⟩
    rw [mapM']; simp only [run_bind, h0, e1]; rfl
  | some i :: opts, ts, h, h0, h1 => by
    cases ts with
    | nil => simp at h
    | cons t ts =>
      simp only [List.filterMap_cons_some (f := id) rfl, List.map_cons, List.cons.injEq] at h
      obtain ⟨parts, e1, e2⟩ := mapM'_flatten_filter opts ts h.2 h0 fun t ht => h1 t (by simp [ht])
      refine ⟨g t :: parts, ?_, by simp [e2]⟩
      have hi : i = t.root := h.1
      rw [mapM', hi]; simp only [run_bind, h1 t (by simp), e1]; rfl

theorem ringsToPolygons_run {s : St} {lists : Nat → List Nat} (rev : Bool) : ∀ (fuel : Nat) (opts : List (Option Nat)) (ts : List Tree),
    opts.filterMap id = ts.map Tree.root → RecordedAll s.rings ts → RingLists s lists (idsOf ts) → heightOf ts < fuel →
    ringsToPolygons rev fuel opts s = .ok (polygonsOf (closedRing s.nodes lists rev) ts) s
  | 0, _, _, _, _, _, hf => absurd hf (by omega)
  | fuel + 1, opts, ts, ho, hrec, hl, hf => by
    rw [ringsToPolygons]
    have key : ∀ t ∈ ts, (match some t.root with
      | none => pure []
      | some ring => do
        let exterior ← ringToLinearRing ring rev
        let children := (← getRing ring).children
        let holes ← mapM' (fun c => ringToLinearRing c rev) (children.filterMap id)
        let rest ← mapM' (fun c => do
          ringsToPolygons rev fuel (← getRing c).children) (children.filterMap id)
        pure ((exterior :: holes) :: rest.flatten) : M Multipolygon) s = .ok (t.asExterior (closedRing s.nodes lists rev)) s := by
      intro t ht
      obtain ⟨i, cs⟩ := t
      have hids := ids_subset ht
      have hr := recorded_of_mem hrec _ ht
      rw [Recorded] at hr
      have hh := height_le ht
      rw [Tree.height] at hh
      have hi : i ∈ idsOf ts := hids i (by simp [Tree.ids])
      have hcs : ∀ c ∈ cs, ∀ j ∈ c.ids, j ∈ idsOf ts := fun c hc j hj => hids j (by
        rw [Tree.ids]; exact List.mem_cons_of_mem _ (ids_subset hc j hj))
      simp only [Tree.root, run_bind, ringToLinearRing_run hl rev hi, run_getRing, hr.1]
      rw [mapM'_run (g := closedRing s.nodes lists rev) (by
        intro x hx
        obtain ⟨c, hc, rfl⟩ := List.mem_map.1 hx
        exact ringToLinearRing_run hl rev (hcs c hc _ (root_mem_ids c)))]
      -- the polygons inside of the holes
      have hrest : ∀ cs' : List Tree, (∀ c ∈ cs', c ∈ cs) →
          ∃ parts, mapM' (fun c => do ringsToPolygons rev fuel (← getRing c).children) (cs'.map Tree.root) s = .ok parts s
            ∧ parts.flatten = insideHoles (closedRing s.nodes lists rev) cs' := by
        intro cs'
        induction cs' with
        | nil => intro _; exact ⟨[], rfl, rfl⟩
        | cons c cs' ih =>
          intro hsub
          obtain ⟨parts, e1, e2⟩ := ih fun x hx => hsub x (by simp [hx])
          have hc := hsub c (by simp)
          have hrc := recorded_of_mem hr.2 c hc
          have hhc := height_le hc
          have hidc := hcs c hc
          obtain ⟨j, ds⟩ := c
          rw [Recorded] at hrc
          rw [Tree.height] at hhc
          have := ringsToPolygons_run rev fuel (s.rings j).children ds hrc.1 hrc.2
            (fun k hk => hl k (hidc k (by rw [Tree.ids]; exact List.mem_cons_of_mem _ hk))) (by omega)
          refine ⟨polygonsOf (closedRing s.nodes lists rev) ds :: parts, ?_, ?_⟩
          · rw [List.map_cons, mapM']
            simp only [Tree.root, run_bind, run_getRing, this, e1]; rfl
          · rw [List.flatten_cons, e2, insideHoles, Tree.asHole]
      obtain ⟨parts, e1, e2⟩ := hrest cs fun _ h => h
      simp only [e1, run_pure]
      rw [Tree.asExterior, e2, List.map_map]
      rfl
    have fin : ∀ f : Option Nat → M Multipolygon, f none s = .ok [] s →
        (∀ t ∈ ts, f (some t.root) s = .ok (t.asExterior (closedRing s.nodes lists rev)) s) →
        (mapM' f opts >>= fun parts => pure parts.flatten) s = .ok (polygonsOf (closedRing s.nodes lists rev) ts) s := by
      intro f h0 h1
      obtain ⟨parts, e1, e2⟩ := mapM'_flatten_filter opts ts ho h0 h1
      rw [run_bind, e1, polygonsOf_eq, ← e2]
      rfl
    exact fin _ rfl key

end Wagyu
