import Mathlib.Probability.ProductMeasure
import Mathlib.MeasureTheory.Constructions.Pi
import Mathlib.MeasureTheory.Constructions.BorelSpace.Basic
import Mathlib.Algebra.MvPolynomial.Equiv
import Mathlib.Algebra.MvPolynomial.Rename
import Mathlib.Algebra.Polynomial.Roots
import Mathlib.Topology.Algebra.MvPolynomial

/-!
# A polynomial that is not zero has no zero among independent continuous random numbers, almost surely
-/

namespace Verif.Gauss

open MeasureTheory

theorem poly_ae_ne_zero {μ : Measure ℝ} [IsProbabilityMeasure μ] [NullSingletonClass μ] {p : Polynomial ℝ} (hp : p ≠ 0) :
    ∀ᵐ x ∂μ, p.eval x ≠ 0 := by
  have h : {x | ¬ p.eval x ≠ 0} ⊆ p.roots.toFinset := by
    intro x hx
    simp only [ne_eq, not_not, Set.mem_ofPred_eq] at hx
    simp [hp, hx]
  exact measure_mono_null h (Finset.measure_zero _ _)

theorem mvPoly_ae_ne_zero {μ : Measure ℝ} [IsProbabilityMeasure μ] [NullSingletonClass μ] :
    ∀ (n : ℕ) (p : MvPolynomial (Fin n) ℝ), p ≠ 0 → ∀ᵐ x ∂(Measure.pi fun _ : Fin n => μ), MvPolynomial.eval x p ≠ 0
  | 0, p, hp => by
    refine Filter.Eventually.of_forall fun x h => hp ?_
    rw [MvPolynomial.eq_C_of_isEmpty p] at h ⊢
    rw [MvPolynomial.eval_C] at h
    rw [h, MvPolynomial.C_0]
  | n + 1, p, hp => by
    have hq : MvPolynomial.finSuccEquiv ℝ n p ≠ 0 := by
      intro h
      exact hp ((MvPolynomial.finSuccEquiv ℝ n).injective (by rw [h, map_zero]))
    have hl : (MvPolynomial.finSuccEquiv ℝ n p).leadingCoeff ≠ 0 := Polynomial.leadingCoeff_ne_zero.2 hq
    have ih := mvPoly_ae_ne_zero (μ := μ) n _ hl
    have hmp := measurePreserving_piFinSuccAbove (fun _ : Fin (n + 1) => μ) 0
    have hset : MeasurableSet {z : ℝ × (Fin n → ℝ) | MvPolynomial.eval (Fin.cons z.1 z.2 : Fin (n + 1) → ℝ) p ≠ 0} := by
      have hc : Continuous fun z : ℝ × (Fin n → ℝ) => MvPolynomial.eval (Fin.cons z.1 z.2 : Fin (n + 1) → ℝ) p := by
        refine (MvPolynomial.continuous_eval p).comp ?_
        refine continuous_pi fun i => ?_
        refine Fin.cases ?_ (fun j => ?_) i
        · simp only [Fin.cons_zero]; exact continuous_fst
        · simp only [Fin.cons_succ]; exact (continuous_apply j).comp continuous_snd
      exact (hc.measurable (measurableSet_singleton 0)).compl
    have key : ∀ᵐ z ∂(μ.prod (Measure.pi fun _ : Fin n => μ)),
        MvPolynomial.eval (Fin.cons z.1 z.2 : Fin (n + 1) → ℝ) p ≠ 0 := by
      have hsw : ∀ᵐ z ∂((Measure.pi fun _ : Fin n => μ).prod μ),
          MvPolynomial.eval (Fin.cons z.2 z.1 : Fin (n + 1) → ℝ) p ≠ 0 := by
        refine (Measure.ae_prod_iff_ae_ae (p := fun z : (Fin n → ℝ) × ℝ =>
          MvPolynomial.eval (Fin.cons z.2 z.1 : Fin (n + 1) → ℝ) p ≠ 0) (measurable_swap hset)).2 ?_
        filter_upwards [ih] with s hs
        have hne : Polynomial.map (MvPolynomial.eval s) (MvPolynomial.finSuccEquiv ℝ n p) ≠ 0 := by
          intro h
          apply hs
          have := congrArg (fun r => Polynomial.coeff r (MvPolynomial.finSuccEquiv ℝ n p).natDegree) h
          simpa [Polynomial.coeff_map] using this
        filter_upwards [poly_ae_ne_zero (μ := μ) hne] with y hy
        rw [MvPolynomial.eval_eq_eval_mv_eval']
        exact hy
      rw [← Measure.prod_swap] 
      exact (ae_map_iff measurable_swap.aemeasurable hset).2 hsw
    have h2 := hmp.quasiMeasurePreserving.ae key
    filter_upwards [h2] with x hx
    have : (Fin.cons (MeasurableEquiv.piFinSuccAbove (fun _ : Fin (n + 1) => ℝ) 0 x).1
        (MeasurableEquiv.piFinSuccAbove (fun _ : Fin (n + 1) => ℝ) 0 x).2 : Fin (n + 1) → ℝ) = x := by
      funext i
      refine Fin.cases ?_ (fun j => ?_) i
      · rfl
      · rfl
    rw [this] at hx
    exact hx

/-- Some of infinitely many independent random numbers. -/
theorem infinitePi_comp {σ : Type} {μ : Measure ℝ} [IsProbabilityMeasure μ] {n : ℕ} {f : Fin n → σ}
    (hf : Function.Injective f) :
    (Measure.infinitePi fun _ : σ => μ).map (fun x i => x (f i)) = Measure.pi fun _ : Fin n => μ := by
  have hm : Measurable fun (x : σ → ℝ) (i : Fin n) => x (f i) := by fun_prop
  refine (Measure.pi_eq fun s hs => ?_).symm
  rw [Measure.map_apply hm (MeasurableSet.univ_pi hs)]
  classical
  have hpre : (fun (x : σ → ℝ) (i : Fin n) => x (f i)) ⁻¹' (Set.univ.pi s) =
      Set.pi (Finset.univ.image f) fun j => ⋂ i : Fin n, ⋂ _ : f i = j, s i := by
    ext x
    simp only [Set.mem_preimage, Set.mem_pi, Set.mem_univ, true_implies, Finset.coe_image, Finset.coe_univ, Set.image_univ,
      Set.mem_range, Set.mem_iInter]
    constructor
    · rintro h j - i rfl
      exact h i
    · intro h i
      exact h (f i) ⟨i, rfl⟩ i rfl
  rw [hpre, Measure.infinitePi_pi, Finset.prod_image fun i _ j _ h => hf h]
  · refine Finset.prod_congr rfl fun i _ => ?_
    congr 1
    ext y
    simp only [Set.mem_iInter]
    constructor
    · intro h; exact h i rfl
    · intro h j hj; rw [hf hj]; exact h
  · intro j _
    exact MeasurableSet.iInter fun i => MeasurableSet.iInter fun _ => hs i

/-- The zeros of a polynomial that is not zero, among infinitely many independent random numbers without atoms. -/
theorem polynomial_ae {σ : Type} {μ : Measure ℝ} [IsProbabilityMeasure μ] [NullSingletonClass μ] (p : MvPolynomial σ ℝ) (hp : p ≠ 0) :
    ∀ᵐ x ∂(Measure.infinitePi fun _ : σ => μ), MvPolynomial.eval x p ≠ 0 := by
  obtain ⟨n, f, hf, q, rfl⟩ := MvPolynomial.exists_fin_rename p
  have hq : q ≠ 0 := by rintro rfl; simp at hp
  have h := mvPoly_ae_ne_zero (μ := μ) n q hq
  have hm : Measurable fun (x : σ → ℝ) (i : Fin n) => x (f i) := by fun_prop
  rw [← infinitePi_comp (μ := μ) hf] at h
  have := ae_of_ae_map hm.aemeasurable h
  filter_upwards [this] with x hx
  rw [MvPolynomial.eval_rename]
  exact hx

end Verif.Gauss
