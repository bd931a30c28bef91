import Verif.Spec.Mutual
import Verif.Lemmas.Independence
import Mathlib.Probability.Independence.Basic
import Mathlib.Probability.ProductMeasure

/-!
# Independent draws for all particles: consequences for one and two of them
-/

namespace Verif.Unbiased

open Verif Verif.Spec XF MeasureTheory ProbabilityTheory
open scoped ENNReal

variable {N B d : ℕ} {V Y Ω : Type} [MeasurableSpace V] [MeasurableSpace Ω]

/-- Two entries of a product law. -/
theorem pi_pair {ι Z : Type} [Fintype ι] [MeasurableSpace Z] (m : ι → Measure Z) [∀ i, IsProbabilityMeasure (m i)] {i j : ι}
    (hij : i ≠ j) : (Measure.pi m).map (fun u => (u i, u j)) = (m i).prod (m j) := by
  have h := (iIndepFun_pi (μ := m) (X := fun _ x => x) fun _ => aemeasurable_id).indepFun hij
  rw [indepFun_iff_map_prod_eq_prod_map_map (measurable_pi_apply i).aemeasurable
    (measurable_pi_apply j).aemeasurable] at h
  have e : ∀ k : ι, (Measure.pi m).map (fun u => u k) = m k := fun k => (measurePreserving_eval m k).map_eq
  rw [h, e, e]

/-- The law of one draw with the probabilities `p`. -/
noncomputable def cat (p : Fin N → ℝ) : Measure (Fin N) := ∑ k, ENNReal.ofReal (p k) • Measure.dirac k

theorem cat_singleton (p : Fin N → ℝ) (k : Fin N) : cat p {k} = ENNReal.ofReal (p k) := by
  classical
  unfold cat
  rw [Measure.finsetSum_apply]
  simp only [Measure.smul_apply, smul_eq_mul, Measure.dirac_apply' _ (measurableSet_singleton k)]
  rw [Finset.sum_eq_single k]
  · simp
  · intro j _ hj
    simp [hj]
  · simp

theorem cat_prob {p : Fin N → ℝ} (hp : IsProb p) : IsProbabilityMeasure (cat p) := by
  refine ⟨?_⟩
  unfold cat
  rw [Measure.finsetSum_apply]
  simp only [Measure.smul_apply, smul_eq_mul, measure_univ, mul_one]
  rw [← ENNReal.ofReal_sum_of_nonneg fun k _ => hp.1 k, hp.2, ENNReal.ofReal_one]

/-- The ancestors of one filter under a mutually independent resampler. -/
theorem mutual_column {b : ℕ} (ν : Measure (Fin N → Fin b → Fin N)) [IsProbabilityMeasure ν] (j : Fin b) {p : Fin N → ℝ}
    (hp : IsProb p) (h : ∀ k : Fin N → Fin N, ν {a | ∀ i, a i j = k i} = ∏ i, ENNReal.ofReal (p (k i))) :
    ν.map (fun a i => a i j) = Measure.pi fun _ => cat p := by
  have := cat_prob hp
  have hm : Measurable fun (a : Fin N → Fin b → Fin N) i => a i j := measurable_of_finite _
  refine Measure.ext_of_singleton fun k => ?_
  rw [Measure.map_apply hm (measurableSet_singleton k), Measure.pi_singleton]
  simp only [cat_singleton]
  rw [← h k]
  congr 1
  ext a
  simp [funext_iff]

theorem MutualResampler.independent {P : Measure Ω}
    {r : {b : ℕ} → (Fin N → Fin b → XF) → Bool → Ω → (Fin N → Fin b → Fin N) × Ω} (h : MutualResampler P r) :
    IndependentResampler P r := by
  refine ⟨h.measurable, fun b p hp => ?_⟩
  obtain ⟨ν, h1, h2⟩ := h.draws b p hp
  have := h1.prob
  have hm : ∀ j, Measurable fun (a : Fin N → Fin b → Fin N) i => a i j := fun j => measurable_of_finite _
  refine ⟨ν, h1, fun i j k => ?_, fun i i' j hii k k' => ?_⟩
  · have hc := mutual_column ν j (hp j) (h2 j)
    have := cat_prob (hp j)
    have e := (measurePreserving_eval (fun _ : Fin N => cat fun i => p i j) i).map_eq
    rw [← hc, Measure.map_map (measurable_pi_apply i) (hm j)] at e
    rw [← cat_singleton (fun i => p i j) k, ← e, Measure.map_apply ((measurable_pi_apply i).comp (hm j))
      (measurableSet_singleton k)]
    rfl
  · have hc := mutual_column ν j (hp j) (h2 j)
    have := cat_prob (hp j)
    have e := pi_pair (fun _ : Fin N => cat fun i => p i j) hii
    rw [← hc, Measure.map_map (by fun_prop) (hm j)] at e
    rw [← cat_singleton (fun i => p i j) k, ← cat_singleton (fun i => p i j) k', ← Measure.prod_prod, ← e,
      Measure.map_apply ((by fun_prop : Measurable fun u : Fin N → Fin N => (u i, u i')).comp (hm j))
        ((measurableSet_singleton k).prod (measurableSet_singleton k'))]
    congr 1

theorem measurable_column (b : Fin B) :
    Measurable fun (v : Fin N → Fin B → Fin d → V) (i : Fin N) => v i b := by
  rw [measurable_pi_iff]
  exact fun i => (measurable_pi_apply b).comp (measurable_pi_apply i)

theorem MutualTransitions.independent {P : Measure Ω} {propagate : TS N B d V → Ω → (Fin N → Fin B → Fin d → V) × Ω}
    {K : Fin B → ℕ → Kernel (Fin d → V) (Fin d → V)} (h : MutualTransitions P propagate K) :
    IndependentTransitions P propagate K := by
  refine ⟨h.measurable, fun x => ?_⟩
  obtain ⟨ν, h1, h2⟩ := h.draws x
  refine ⟨ν, h1, fun i b => ?_, fun i i' b hii => ?_⟩
  · have := h.markov b x.time
    have e := (measurePreserving_eval (fun i : Fin N => K b x.time (x.value i b)) i).map_eq
    rw [← h2 b, Measure.map_map (measurable_pi_apply i) (measurable_column b)] at e
    exact e
  · have := h.markov b x.time
    have e := pi_pair (fun i : Fin N => K b x.time (x.value i b)) hii
    rw [← h2 b, Measure.map_map (by fun_prop) (measurable_column b)] at e
    exact e

theorem MutualInitial.independent {P : Measure Ω} {init : Ω → (Fin N → Fin B → Fin d → V) × Ω}
    {μ : Fin B → Measure (Fin d → V)} (h : MutualInitial P init μ) : IndependentInitial P init μ := by
  obtain ⟨h0, ν, h1, h2⟩ := h
  refine ⟨ν, h1, fun i b => ?_, fun i i' b hii => ?_⟩
  · have := h0 b
    have e := (measurePreserving_eval (fun _ : Fin N => μ b) i).map_eq
    rw [← h2 b, Measure.map_map (measurable_pi_apply i) (measurable_column b)] at e
    exact e
  · have := h0 b
    have e := pi_pair (fun _ : Fin N => μ b) hii
    rw [← h2 b, Measure.map_map (by fun_prop) (measurable_column b)] at e
    exact e

end Verif.Unbiased
