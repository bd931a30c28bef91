import Verif.Lemmas.Polynomial
import Verif.Lemmas.Gaussian
import Verif.Spec.Symmetric
import Mathlib.LinearAlgebra.Matrix.MvPolynomial
import Mathlib.Analysis.Matrix.Order
import Mathlib.LinearAlgebra.Dimension.RankNullity
import Mathlib.LinearAlgebra.FiniteDimensional.Lemmas
import Mathlib.Probability.Distributions.Gaussian.Real

/-!
# When the covariance of a weighted cloud is positive definite
-/

namespace Verif.Gauss

open Verif.Spec MeasureTheory ProbabilityTheory Matrix

variable {N d : ℕ}

theorem fitMean_dot (p : Fin N → ℝ) (x : Fin N → Fin d → ℝ) (c : Fin d → ℝ) :
    c ⬝ᵥ fitMean p x = ∑ i, p i * (c ⬝ᵥ x i) := by
  simp only [dotProduct, fitMean, Finset.mul_sum]
  rw [Finset.sum_comm]
  exact Finset.sum_congr rfl fun i _ => Finset.sum_congr rfl fun e _ => by ring

/-- The quadratic form of a covariance. -/
theorem fitCov_form (p : Fin N → ℝ) (x : Fin N → Fin d → ℝ) (c : Fin d → ℝ) :
    c ⬝ᵥ (fitCov p x *ᵥ c) = ∑ i, p i * (c ⬝ᵥ x i - c ⬝ᵥ fitMean p x) ^ 2 := by
  have h : ∀ i, c ⬝ᵥ x i - c ⬝ᵥ fitMean p x = ∑ e, c e * (x i e - fitMean p x e) := by
    intro i
    simp only [dotProduct, ← Finset.sum_sub_distrib]
    exact Finset.sum_congr rfl fun e _ => by ring
  simp only [h, sq, Finset.sum_mul_sum]
  simp only [dotProduct, mulVec, fitCov, of_apply, Finset.mul_sum, Finset.sum_mul]
  calc ∑ e, ∑ f, ∑ i, c e * (p i * ((x i e - fitMean p x e) * (x i f - fitMean p x f)) * c f)
      = ∑ e, ∑ i, ∑ f, c e * (p i * ((x i e - fitMean p x e) * (x i f - fitMean p x f)) * c f) :=
        Finset.sum_congr rfl fun e _ => Finset.sum_comm
    _ = ∑ i, ∑ e, ∑ f, c e * (p i * ((x i e - fitMean p x e) * (x i f - fitMean p x f)) * c f) := Finset.sum_comm
    _ = _ := Finset.sum_congr rfl fun i _ => Finset.sum_congr rfl fun e _ => Finset.sum_congr rfl fun f _ => by ring

/-- As many points as dimensions, or fewer, have a singular covariance. -/
theorem fitCov_singular (h0 : 0 < N) (h : N ≤ d) (p : Fin N → ℝ) (hp : ∑ i, p i = 1) (x : Fin N → Fin d → ℝ) :
    ¬ (fitCov p x).PosDef := by
  obtain ⟨n, rfl⟩ : ∃ n, N = n + 1 := ⟨N - 1, by omega⟩
  set f : (Fin d → ℝ) →ₗ[ℝ] (Fin n → ℝ) := Matrix.mulVecLin (of fun i : Fin n => x i.succ - x 0) with hf
  have hker : LinearMap.ker f ≠ ⊥ := by
    refine LinearMap.ker_ne_bot_of_finrank_lt ?_
    simp
    omega
  obtain ⟨c, hc, hc0⟩ := Submodule.exists_mem_ne_zero_of_ne_bot hker
  have hc' : ∀ i : Fin n, c ⬝ᵥ x i.succ = c ⬝ᵥ x 0 := by
    intro i
    have h1 : f c = 0 := hc
    have h2 := congrFun h1 i
    simp only [hf, mulVecLin_apply, mulVec, of_apply, Pi.zero_apply] at h2
    rw [sub_dotProduct, sub_eq_zero, dotProduct_comm, dotProduct_comm (x 0)] at h2
    exact h2
  have hall : ∀ i, c ⬝ᵥ x i = c ⬝ᵥ x 0 := fun i => Fin.cases rfl hc' i
  intro hpd
  have h3 := hpd.dotProduct_mulVec_pos hc0
  rw [star_trivial, fitCov_form, fitMean_dot] at h3
  simp only [hall, ← Finset.sum_mul, hp] at h3
  simp at h3

/-- If all weights are positive and some differences of points span the space, the covariance is positive definite. -/
theorem fitCov_posDef (p : Fin N → ℝ) (hp : ∀ i, 0 < p i) (x : Fin N → Fin d → ℝ) (i₀ : Fin N) (f : Fin d → Fin N)
    (hdet : (of fun e : Fin d => x (f e) - x i₀).det ≠ 0) : (fitCov p x).PosDef := by
  refine PosDef.of_dotProduct_mulVec_pos ?_ fun c hc => ?_
  · ext e g
    simp only [conjTranspose_apply, fitCov, of_apply, star_trivial]
    exact Finset.sum_congr rfl fun i _ => by ring
  · rw [star_trivial, fitCov_form]
    have hnn : ∀ i ∈ Finset.univ, 0 ≤ p i * (c ⬝ᵥ x i - c ⬝ᵥ fitMean p x) ^ 2 := fun i _ =>
      mul_nonneg (hp i).le (sq_nonneg _)
    refine lt_of_le_of_ne (Finset.sum_nonneg hnn) fun h0 => hc ?_
    have h1 := (Finset.sum_eq_zero_iff_of_nonneg hnn).1 h0.symm
    have h2 : ∀ i, c ⬝ᵥ x i = c ⬝ᵥ fitMean p x := by
      intro i
      have h3 := h1 i (Finset.mem_univ i)
      have h4 := (mul_eq_zero.1 h3).resolve_left (hp i).ne'
      exact sub_eq_zero.1 (pow_eq_zero_iff (two_ne_zero)|>.1 h4)
    have h5 : (of fun e : Fin d => x (f e) - x i₀) *ᵥ c = 0 := by
      funext e
      simp only [mulVec, of_apply, Pi.zero_apply]
      rw [sub_dotProduct, dotProduct_comm, dotProduct_comm (x i₀), h2, h2, sub_self]
    exact eq_zero_of_mulVec_eq_zero hdet h5

theorem fitCov_posDef_iff (p : Fin N → ℝ) (hp : ∀ i, 0 ≤ p i) (x : Fin N → Fin d → ℝ) :
    (fitCov p x).PosDef ↔ (fitCov p x).det ≠ 0 := by
  refine PosSemidef.posDef_iff_det_ne_zero (PosSemidef.of_dotProduct_mulVec_nonneg ?_ fun c => ?_)
  · ext e g
    simp only [conjTranspose_apply, fitCov, of_apply, star_trivial]
    exact Finset.sum_congr rfl fun i _ => by ring
  · rw [star_trivial, fitCov_form]
    exact Finset.sum_nonneg fun i _ => mul_nonneg (hp i) (sq_nonneg _)

/-- The law of the noise, entry by entry. -/
theorem noise_uncurry :
    (Measure.infinitePi fun _ : ℕ × ℕ => (Measure.pi fun _ : Fin d => gaussianReal 0 1)).map
        (MeasurableEquiv.curry (ℕ × ℕ) (Fin d) ℝ).symm
      = Measure.infinitePi fun _ : (ℕ × ℕ) × Fin d => gaussianReal 0 1 := by
  have := Measure.infinitePi_map_curry_symm (ι := ℕ × ℕ) (κ := Fin d) (X := ℝ) (μ := fun _ _ => gaussianReal 0 1)
  simp only [Measure.infinitePi_eq_pi] at this
  exact this

/-- More points than dimensions, spread by independent normal noise, almost surely have a positive definite covariance. -/
theorem noise_posDef (h : d < N) (p : Fin N → ℝ) (hp : ∀ i, 0 < p i) (mean scale : Fin N → Fin d → ℝ)
    (hs : ∀ i e, scale i e ≠ 0) (b : ℕ) :
    ∀ᵐ eps ∂(Measure.infinitePi fun _ : ℕ × ℕ => (Measure.pi fun _ : Fin d => gaussianReal 0 1)),
      (fitCov p fun i e => mean i e + scale i e * eps ((i : ℕ), b) e).PosDef := by
  have hN : 0 < N := by omega
  set i₀ : Fin N := ⟨0, hN⟩ with hi₀
  set f : Fin d → Fin N := fun e => ⟨e + 1, by omega⟩ with hf
  set q : Fin N → Fin d → MvPolynomial ((ℕ × ℕ) × Fin d) ℝ := fun i e =>
    MvPolynomial.C (mean i e) + MvPolynomial.C (scale i e) * MvPolynomial.X (((i : ℕ), b), e) with hq
  set M : Matrix (Fin d) (Fin d) (MvPolynomial ((ℕ × ℕ) × Fin d) ℝ) := of fun g e => q (f g) e - q i₀ e with hM
  have heval : ∀ z : (ℕ × ℕ) × Fin d → ℝ, MvPolynomial.eval z M.det =
      (of fun g : Fin d => (fun e => mean (f g) e + scale (f g) e * z (((f g : ℕ), b), e))
        - fun e => mean i₀ e + scale i₀ e * z (((i₀ : ℕ), b), e)).det := by
    intro z
    rw [RingHom.map_det]
    congr 1
    ext g e
    simp [hM, hq]
  have hne : M.det ≠ 0 := by
    intro h0
    have h1 := heval fun k => if h : k.1.1 < N then
      ((if k.1.1 = k.2 + 1 then 1 else 0) - mean ⟨k.1.1, h⟩ k.2) / scale ⟨k.1.1, h⟩ k.2 else 0
    rw [h0, map_zero] at h1
    have h2 : (of fun g : Fin d => (fun e => mean (f g) e + scale (f g) e * (fun k : (ℕ × ℕ) × Fin d => if h : k.1.1 < N then
      ((if k.1.1 = k.2 + 1 then 1 else 0) - mean ⟨k.1.1, h⟩ k.2) / scale ⟨k.1.1, h⟩ k.2 else 0) (((f g : ℕ), b), e))
        - fun e => mean i₀ e + scale i₀ e * (fun k : (ℕ × ℕ) × Fin d => if h : k.1.1 < N then
      ((if k.1.1 = k.2 + 1 then 1 else 0) - mean ⟨k.1.1, h⟩ k.2) / scale ⟨k.1.1, h⟩ k.2 else 0) (((i₀ : ℕ), b), e))
        = (1 : Matrix (Fin d) (Fin d) ℝ) := by
      ext g e
      have hlt : (f g : ℕ) < N := (f g).2
      have hlt0 : (i₀ : ℕ) < N := i₀.2
      simp only [of_apply, Pi.sub_apply, dif_pos hlt, dif_pos hlt0, Fin.eta, mul_div_cancel₀ _ (hs _ _)]
      simp only [hf, hi₀, one_apply]
      by_cases hge : g = e
      · subst hge; simp
      · have : (g : ℕ) ≠ e := fun h => hge (Fin.ext h)
        simp [hge, this]
    rw [h2, det_one] at h1
    exact one_ne_zero h1.symm
  have hna : NullSingletonClass (gaussianReal 0 1) := nullSingletonClass_gaussianReal one_ne_zero
  have hae := polynomial_ae (μ := gaussianReal 0 1) M.det hne
  rw [← noise_uncurry] at hae
  have h3 := ae_of_ae_map (MeasurableEquiv.measurable _).aemeasurable hae
  filter_upwards [h3] with eps heps
  rw [heval] at heps
  exact fitCov_posDef p hp _ i₀ f heps

end Verif.Gauss
