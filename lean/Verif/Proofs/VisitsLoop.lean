import Verif.Proofs.Visits

/-!
# The visited scanlines and the model's loop
-/

namespace Wagyu

open Spec

theorem visits_iter {step : Int → List LocalMinimum → M (Int × List LocalMinimum)} {y : Int} {rest : List LocalMinimum} {s : St}
    {ys : List Int} {r : Res Unit} (h : Visits step y rest s ys r) : ∀ n, ys.length < n →
    iter n (fun (st : Int × List LocalMinimum) => do
      let scan ← gets St.scan
      if scan = [] ∧ st.2 = [] then pure (.inr ())
      else
        let st ← step st.1 st.2
        pure (.inl st)) (y, rest) s = r := by
  induction h with
  | @done y s hd =>
    intro n hn
    obtain ⟨n, rfl⟩ : ∃ k, n = k + 1 := ⟨n - 1, by omega⟩
    refine iter_inr ?_
    rw [run_bind, run_gets]
    dsimp only
    rw [if_pos ⟨hd, rfl⟩]
    rfl
  | @next y rest s y' rest' s' ys r hne hstep hv ih =>
    intro n hn
    obtain ⟨n, rfl⟩ : ∃ k, n = k + 1 := ⟨n - 1, by omega⟩
    rw [iter_inl (y := (y', rest')) (s' := s')]
    · exact ih n (by simp only [List.length_cons] at hn; omega)
    · rw [run_bind, run_gets]
      dsimp only
      rw [if_neg hne, run_bind, hstep]
      rfl
  | @stop y rest s e s' hne hstep =>
    intro n hn
    obtain ⟨n, rfl⟩ : ∃ k, n = k + 1 := ⟨n - 1, by omega⟩
    rw [iter, run_bind, run_bind, run_gets]
    dsimp only
    rw [if_neg hne, run_bind, hstep]

end Wagyu
