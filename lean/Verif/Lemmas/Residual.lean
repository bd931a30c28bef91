import Verif.Lemmas.ConsistencyApf

/-!
# Residual resampling is steady
-/

namespace Verif.Unbiased

open Verif Verif.Spec XF MeasureTheory ProbabilityTheory
open scoped ENNReal

variable {N : ℕ} {Ω : Type} [MeasurableSpace Ω]

/-- Ancestors that are unbiased in sum and pairwise independent. -/
theorem steady_of_pairwise {b : ℕ} (ν : Measure (Fin N → Fin b → Fin N)) [IsProbabilityMeasure ν] (j : Fin b)
    {p : Fin N → ℝ≥0∞} (h : ∀ k, ∑ i, ν {a | a i j = k} = N * p k)
    (hpair : ∀ i i', i ≠ i' → ∀ k k', ν {a | a i j = k ∧ a i' j = k'} = ν {a | a i j = k} * ν {a | a i' j = k'})
    (g : Fin N → ℝ≥0∞) (H : ℝ≥0∞) (hg : ∀ k, g k ≤ H) :
    ∫⁻ a, (∑ i, g (a i j)) ^ 2 ∂ν ≤ (N * ∑ k, p k * g k) ^ 2 + N * H ^ 2 := by
  have hind : ∀ i i', i ≠ i' → ∫⁻ a, g (a i j) * g (a i' j) ∂ν = (∫⁻ a, g (a i j) ∂ν) * ∫⁻ a, g (a i' j) ∂ν := by
    intro i i' hii
    rw [lintegral_index2 ν i i' j g g, lintegral_index ν i j g, lintegral_index ν i' j g, Finset.sum_mul_sum]
    refine Finset.sum_congr rfl fun k _ => Finset.sum_congr rfl fun k' _ => ?_
    rw [hpair i i' hii]
    ring
  have hsec := second_moment ν (fun i (a : Fin N → Fin b → Fin N) => g (a i j)) (fun i => measurable_of_finite _)
    (fun _ => 1) H (fun i => ae_of_all _ fun a => hg _) hind
  have hmean : ∑ i, ∫⁻ a, g (a i j) ∂ν = N * ∑ k, p k * g k := by
    simp only [lintegral_index ν _ _ g]
    rw [Finset.sum_comm, Finset.mul_sum]
    refine Finset.sum_congr rfl fun k _ => ?_
    rw [← Finset.mul_sum, h]
    ring
  simp only [one_mul, one_pow, hmean] at hsec
  refine hsec.trans (le_of_eq ?_)
  simp [mul_comm]

/-- Independent draws are steady. -/
theorem IndependentLogResampler.steady {P : Measure Ω}
    {r : {b : ℕ} → (Fin N → Fin b → XF) → Bool → Ω → (Fin N → Fin b → Fin N) × Ω} (h : IndependentLogResampler P r) :
    SteadyLogResampler P r where
  measurable := h.measurable
  draws b w := by
    obtain ⟨ν, h1, h2, h3⟩ := h.draws b w
    have := h1.prob
    have h4 : ∀ j k, ∑ i, ν {a | a i j = k}
        = N * ENNReal.ofReal (Real.exp (w k j) / ∑ i, Real.exp (w i j)) := fun j k => by simp [h2]
    refine ⟨ν, h1, h4, fun j g H hg => steady_of_pairwise ν j (h4 j) (fun i i' hii k k' => ?_) g H hg⟩
    rw [h3 i i' j hii, h2, h2]

/-- The law of a draw in terms of the generator. -/
theorem measure_of_draws {α : Type} [MeasurableSpace α] {P : Measure Ω} [IsProbabilityMeasure P] {f : Ω → α × Ω}
    {ν : Measure α} (h : Draws P f ν) {S : Set α} (hS : MeasurableSet S) : ν S = P {ω | (f ω).1 ∈ S} := by
  have h1 : ν = P.map fun ω => (f ω).1 := by
    have h2 : P.map (fun ω => (f ω).1) = (P.map f).map Prod.fst :=
      (Measure.map_map measurable_fst h.measurable).symm
    have := h.prob
    rw [h2, h.law, Measure.map_fst_prod, measure_univ, one_smul]
  have h3 : Measurable fun ω => (f ω).1 := measurable_fst.comp h.measurable
  rw [h1, Measure.map_apply h3 hS]
  rfl

/-- An event that almost surely happens, or almost surely does not, is independent of all others. -/
theorem measure_and_const {α β : Type} [MeasurableSpace α] (ν : Measure α) [IsProbabilityMeasure ν] {f : α → β} {c : β}
    (h : ∀ᵐ a ∂ν, f a = c) (k : β) (q : α → Prop) : ν {a | f a = k ∧ q a} = ν {a | f a = k} * ν {a | q a} := by
  by_cases hk : c = k
  · have e1 : ν {a | f a = k} = 1 := by
      have : ν {a | f a = k} = ν Set.univ := measure_congr (h.mono fun a ha => by
        simp only [eq_iff_iff]
        exact ⟨fun _ => trivial, fun _ => ha.trans hk⟩)
      rw [this, measure_univ]
    have e2 : ν {a | f a = k ∧ q a} = ν {a | q a} := measure_congr (h.mono fun a ha => by
      simp only [eq_iff_iff]
      exact ⟨fun h => h.2, fun h => ⟨ha.trans hk, h⟩⟩)
    rw [e1, e2, one_mul]
  · have e1 : ν {a | f a = k} = 0 := by
      have : ν {a | f a = k} = ν ∅ := measure_congr (h.mono fun a ha => by
        simp only [eq_iff_iff]
        exact ⟨fun h => hk (ha.symm.trans h), fun h => h.elim⟩)
      rw [this, measure_empty]
    rw [e1, zero_mul]
    exact measure_mono_null (fun a ha => ha.1) e1

/-- Residual resampling of a single filter: different ancestors are independent. -/
theorem residual_pairs {P : Measure Ω} [IsProbabilityMeasure P] (lo : ℝ) (hN : 0 < N) {mult : TorchMultinomial N Ω}
    (h : IndependentMultinomial P mult) {p : Fin N → Fin 1 → ℝ} (hp : IsProb fun i => p i 0) :
    ∃ ν, Draws P (residualResampler lo mult (fun i j => fin (p i j)) true) ν ∧
      (∀ j k, ∑ i, ν {a | a i j = k} = N * ENNReal.ofReal (p k j)) ∧
      ∀ j i i', i ≠ i' → ∀ k k', ν {a | a i j = k ∧ a i' j = k'} = ν {a | a i j = k} * ν {a | a i' j = k'} := by
  classical
  have hd : DrawsMultinomial P mult := ⟨h.measurable, fun b k p hp => by
    obtain ⟨ν, h1, h2, -⟩ := h.draws b k p hp
    exact ⟨ν, h1, h2⟩⟩
  obtain ⟨ν, hν, hmarg⟩ := residual_law lo hN hd hp
  refine ⟨ν, hν, hmarg, fun j i i' hii k k' => ?_⟩
  obtain rfl : j = 0 := Subsingleton.elim _ _
  have := hν.prob
  set q : Fin N → ℝ := fun i => p i 0 with hq
  have hR0 := sum_floors_pos hN hp
  have hlen := length_fixedPart (floors_nonneg hp)
  by_cases hfull : ∑ i, floors q i = N
  · refine measure_and_const ν (c := fixedFn (floors q) i 0) ?_ k fun a => a i' 0 = k'
    refine ae_of_draws hν (Set.toFinite _).measurableSet fun ω => ?_
    rw [residual_true, if_pos hfull]
  · have hlt : ∑ i, floors q i < N := lt_of_le_of_ne (sum_floors_le hp) hfull
    have he : ∀ ω, (residualResampler lo mult (fun i j => fin (p i j)) true ω).1
        = filled (floors q) ((residualMult mult q ω).1 0) := fun ω => by rw [residual_true, if_neg hfull]
    obtain ⟨r, hr⟩ : ∃ r : ℕ, ∑ i, floors q i = r := ⟨_, (Int.toNat_of_nonneg hR0.le).symm⟩
    have hl : (fixedPart (floors q)).length = r := by
      have := hlen.trans hr
      exact_mod_cast this
    have hdraws : N - (∑ j, floors q j).toNat = N - r := by rw [hr]; simp
    have hlow : ∀ i : Fin N, (i : ℕ) < r → ∀ᵐ a ∂ν, a i 0 = (fixedPart (floors q)).getD i i := by
      intro i hi
      refine ae_of_draws hν (Set.toFinite _).measurableSet fun ω => ?_
      rw [he]
      simp only [filled, hR0.ne', if_false, List.getD_append _ _ _ _ (hl.symm ▸ hi)]
    have hhigh : ∀ i : Fin N, ¬ (i : ℕ) < r → ∀ a : ℕ → Fin N, filled (floors q) a i 0 = a (i - r) := by
      intro i hi a
      have hi2 : (i : ℕ) - r < N - r := by have := i.2; omega
      simp only [filled, hR0.ne', if_false]
      rw [List.getD_append_right _ _ _ _ (by omega), hl, hdraws, List.getD_eq_getElem _ _ (by simpa using hi2)]
      simp
    by_cases hi : (i : ℕ) < r
    · exact measure_and_const ν (hlow i hi) k fun a => a i' 0 = k'
    by_cases hi' : (i' : ℕ) < r
    · have := measure_and_const ν (hlow i' hi') k' fun a => a i 0 = k
      rw [mul_comm, ← this]
      congr 1
      ext a
      exact and_comm
    have hS : (0 : ℝ) < N - ((∑ i, floors q i : ℤ) : ℝ) := by
      have : ((∑ i, floors q i : ℤ) : ℝ) < N := by exact_mod_cast hlt
      linarith
    have hR0' : (0 : ℝ) < ((∑ i, floors q i : ℤ) : ℝ) := by exact_mod_cast hR0
    have hsump : 0 < ∑ i, residualProbs q i := by
      unfold residualProbs
      rw [← Finset.sum_div]
      refine div_pos ?_ hR0'
      rw [Finset.sum_sub_distrib, ← Finset.mul_sum, hp.2, mul_one]
      push_cast at hS
      exact hS
    obtain ⟨κ, h1, h2, h3⟩ := h.draws 1 (residualDraws q) (fun _ i => residualProbs q i) fun _ =>
      ⟨fun i => div_nonneg (sub_nonneg.2 (Int.floor_le _)) hR0'.le, hsump⟩
    have hb : ∀ i : Fin N, ¬ (i : ℕ) < r → (i : ℕ) - r < residualDraws q := by
      intro i hi
      rw [residualDraws_eq, hdraws]
      have := i.2
      omega
    have hm : ∀ l k, MeasurableSet {a : Fin 1 → ℕ → Fin N | a 0 l = k} := fun l k =>
      measurableSet_eq_fun ((measurable_pi_apply l).comp (measurable_pi_apply 0)) measurable_const
    have hm2 : ∀ l l' k k', MeasurableSet {a : Fin 1 → ℕ → Fin N | a 0 l = k ∧ a 0 l' = k'} := fun l l' k k' =>
      (hm l k).inter (hm l' k')
    have e1 : ∀ i : Fin N, ¬ (i : ℕ) < r → ∀ k, ν {a | a i 0 = k} = κ {a | a 0 (i - r) = k} := by
      intro i hi k
      rw [measure_of_draws hν (Set.toFinite _).measurableSet, measure_of_draws h1 (hm _ _)]
      congr 1
      ext ω
      show (residualResampler lo mult (fun i j => fin (p i j)) true ω).1 i 0 = k ↔ _
      rw [he, hhigh i hi]
      rfl
    have e2 : ν {a | a i 0 = k ∧ a i' 0 = k'} = κ {a | a 0 (i - r) = k ∧ a 0 (i' - r) = k'} := by
      rw [measure_of_draws hν (Set.toFinite _).measurableSet, measure_of_draws h1 (hm2 _ _ _ _)]
      congr 1
      ext ω
      show (residualResampler lo mult (fun i j => fin (p i j)) true ω).1 i 0 = k ∧
        (residualResampler lo mult (fun i j => fin (p i j)) true ω).1 i' 0 = k' ↔ _
      rw [he, hhigh i hi, hhigh i' hi']
      rfl
    rw [e2, e1 i hi, e1 i' hi', h2 0 _ (hb i hi), h2 0 _ (hb i' hi')]
    exact h3 0 _ _ (hb i hi) (hb i' hi') (fun e => hii (Fin.ext (by omega))) k k'

/-- Residual resampling of a single filter is steady. -/
theorem residualOr_steady {P : Measure Ω} [IsProbabilityMeasure P] (lo : ℝ) (hN : 0 < N) {mult : TorchMultinomial N Ω}
    (h : IndependentMultinomial P mult) : SteadyLogResampler P (N := N) (residualOr lo mult) := by
  have hd : DrawsMultinomial P mult := ⟨h.measurable, fun b k p hp => by
    obtain ⟨ν, h1, h2, -⟩ := h.draws b k p hp
    exact ⟨ν, h1, h2⟩⟩
  have hm := IndependentLogResampler.steady (multinomial_log_independent lo hN h)
  refine ⟨(residualOr_unbiased lo hN hd).measurable, fun b w => ?_⟩
  by_cases hb : b = 1
  · subst hb
    obtain ⟨ν, h1, h2, h3⟩ := residual_pairs lo hN h (p := fun i j => sm w j i) (sm_isProb w 0 hN)
    have := h1.prob
    refine ⟨ν, ?_, h2, fun j g H hg => steady_of_pairwise ν j (h2 j) (h3 j) g H hg⟩
    rwa [show residualOr lo mult (fun i j => fin (w i j)) false
      = residualResampler lo mult (fun i j => fin (sm w j i)) true from funext fun ω => by
        simp only [residualOr, if_true, residual_false]]
  · obtain ⟨ν, h1, h2⟩ := hm.draws b w
    refine ⟨ν, ?_, h2⟩
    rwa [show residualOr lo mult (fun i j => fin (w i j)) false
      = multinomial2 lo mult (fun i j => fin (w i j)) false from funext fun ω => by
        simp only [residualOr, if_neg hb]]

end Verif.Unbiased
