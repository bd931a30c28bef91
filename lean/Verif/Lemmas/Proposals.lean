import Verif.Model.Proposals
import Verif.Spec.Gauss
import Verif.Spec.Weights
import Verif.Lemmas.Utils
import Mathlib.LinearAlgebra.Matrix.SchurComplement
import Mathlib.LinearAlgebra.Matrix.PosDef
import Mathlib.Analysis.Matrix.PosDef
import Mathlib.Data.Real.StarOrdered

/-!
# Gaussian algebra for the proposals
-/

namespace Verif

open Matrix Spec

variable {n m : ℕ}

theorem constructDiag_eq (x : Fin n → ℝ) : constructDiag x = diagonal x := by
  ext i j
  simp only [constructDiag, of_apply, diagonal_apply]
  split_ifs <;> simp

theorem optimalCov_eq (h : Fin n → ℝ) (o : Fin m → ℝ) (c : Matrix (Fin m) (Fin n) ℝ) :
    optimalCov h o c = (diagonal h + cᵀ * diagonal o * c)⁻¹ := by
  simp only [optimalCov, constructDiag_eq]

theorem optimalMean_eq (y : Fin m → ℝ) (loc h : Fin n → ℝ) (o : Fin m → ℝ) (c : Matrix (Fin m) (Fin n) ℝ) :
    optimalMean y loc h o c = optimalCov h o c *ᵥ ((fun e => h e * loc e) + cᵀ *ᵥ (diagonal o *ᵥ y)) := by
  simp only [optimalMean, constructDiag_eq]

theorem preWeightCov_eq (L : LinearModel n m) (x : Fin n → ℝ) :
    L.preWeightCov x = diagonal (fun j => L.s j ^ 2) + L.a * diagonal (fun e => (L.meanScale x).2 e ^ 2) * L.aᵀ := by
  simp only [LinearModel.preWeightCov, constructDiag_eq]

theorem normalLogProb_eq {loc scale : ℝ} (h : 0 < scale) (x : ℝ) :
    normalLogProb loc scale x = logNormal loc (scale ^ 2) x := by
  unfold normalLogProb logNormal
  rw [Real.log_sqrt (by positivity), Real.log_mul (x := 2 * Real.pi) (by positivity) (by positivity), Real.log_pow]
  push_cast
  ring

theorem mvnLogProb_eq (loc : Fin n → ℝ) (cov) (x) : mvnLogProb loc cov x = logNormalVec loc cov x := by
  unfold mvnLogProb logNormalVec
  ring

theorem posDef_diagonal {d : Fin n → ℝ} (h : ∀ i, 0 < d i) : (diagonal d).PosDef := by
  exact Matrix.PosDef.diagonal h

/-- Sum of independent normal log-densities. -/
theorem sum_logNormal (μ p x : Fin n → ℝ) (hp : ∀ i, 0 < p i) :
    ∑ i, logNormal (μ i) (p i)⁻¹ (x i) =
      -((x - μ) ⬝ᵥ (diagonal p *ᵥ (x - μ))) / 2 + (Real.log (diagonal p).det - n * Real.log (2 * Real.pi)) / 2 := by
  rw [det_diagonal, Real.log_prod (fun i _ => (hp i).ne')]
  have h1 : ∀ i, logNormal (μ i) (p i)⁻¹ (x i) =
      -((x i - μ i) * (p i * (x i - μ i))) / 2 + Real.log (p i) / 2 - Real.log (2 * Real.pi) / 2 := by
    intro i
    unfold logNormal
    have := hp i
    rw [Real.log_mul (by positivity) (by positivity), Real.log_inv]
    field_simp
    ring
  simp only [h1, Finset.sum_add_distrib, Finset.sum_sub_distrib]
  simp only [dotProduct, mulVec_diagonal, Pi.sub_apply]
  rw [Finset.sum_const, Finset.card_univ, Fintype.card_fin, ← Finset.sum_div, ← Finset.sum_div, 
    Finset.sum_neg_distrib, nsmul_eq_mul]
  ring

section bayes

variable (A : Matrix (Fin m) (Fin n) ℝ) (h : Fin n → ℝ) (o : Fin m → ℝ)

/-- Posterior precision. -/
noncomputable def precision : Matrix (Fin n) (Fin n) ℝ := diagonal h + Aᵀ * diagonal o * A

/-- Predictive covariance. -/
noncomputable def predCov : Matrix (Fin m) (Fin m) ℝ :=
  diagonal (fun j => (o j)⁻¹) + A * diagonal (fun e => (h e)⁻¹) * Aᵀ

variable {h o} (hh : ∀ e, 0 < h e) (ho : ∀ j, 0 < o j)

include hh ho

theorem precision_posDef : (precision A h o).PosDef := by
  unfold precision
  refine (posDef_diagonal hh).add_posSemidef ?_
  have := (posDef_diagonal ho).posSemidef.conjTranspose_mul_mul_same A
  rwa [conjTranspose_eq_transpose_of_trivial] at this

theorem predCov_posDef : (predCov A h o).PosDef := by
  unfold predCov
  refine (posDef_diagonal fun j => inv_pos.2 (ho j)).add_posSemidef ?_
  have := (posDef_diagonal fun j => inv_pos.2 (hh j)).posSemidef.mul_mul_conjTranspose_same A
  rwa [conjTranspose_eq_transpose_of_trivial] at this

omit hh ho in
theorem inv_diag {k : ℕ} {d : Fin k → ℝ} (hd : ∀ i, 0 < d i) : (diagonal d)⁻¹ = diagonal fun i => (d i)⁻¹ := by
  apply inv_eq_right_inv
  rw [diagonal_mul_diagonal]
  have : (fun i => d i * (d i)⁻¹) = fun _ => (1 : ℝ) := funext fun i => mul_inv_cancel₀ (hd i).ne'
  rw [this, diagonal_one]

/-- Woodbury. -/
theorem predCov_inv :
    (predCov A h o)⁻¹ = diagonal o - diagonal o * A * (precision A h o)⁻¹ * Aᵀ * diagonal o := by
  have h1 : (diagonal fun j => (o j)⁻¹)⁻¹ = diagonal o := by
    rw [inv_diag (fun j => inv_pos.2 (ho j))]
    simp
  have h2 : (diagonal fun j => (h j)⁻¹)⁻¹ = diagonal h := by
    rw [inv_diag (fun j => inv_pos.2 (hh j))]
    simp
  unfold predCov
  rw [add_mul_mul_inv_eq_sub _ _ _ _ (posDef_diagonal fun j => inv_pos.2 (ho j)).isUnit
    (posDef_diagonal fun j => inv_pos.2 (hh j)).isUnit]
  · rw [h1, h2]
    rfl
  · rw [h1, h2]
    exact (precision_posDef A hh ho).isUnit

theorem det_identity :
    (precision A h o).det = (diagonal h).det * (diagonal o).det * (predCov A h o).det := by
  have hu : IsUnit (diagonal h).det := by
    rw [← isUnit_iff_isUnit_det]; exact (posDef_diagonal hh).isUnit
  have huo : IsUnit (diagonal fun j => (o j)⁻¹).det := by
    rw [← isUnit_iff_isUnit_det]; exact (posDef_diagonal fun j => inv_pos.2 (ho j)).isUnit
  have e1 : (precision A h o).det = (diagonal h).det *
      (1 + diagonal o * A * (diagonal h)⁻¹ * Aᵀ).det := by
    unfold precision
    rw [Matrix.mul_assoc, det_add_mul _ _ hu]
  have e2 : (predCov A h o).det = (diagonal fun j => (o j)⁻¹).det *
      (1 + Aᵀ * diagonal o * (A * (diagonal h)⁻¹)).det := by
    unfold predCov
    rw [det_add_mul _ _ huo, inv_diag (fun j => inv_pos.2 (ho j)), inv_diag hh]
    simp
  have e3 : (diagonal o).det * (diagonal fun j => (o j)⁻¹).det = 1 := by
    rw [← det_mul, diagonal_mul_diagonal]
    have : (fun i => o i * (o i)⁻¹) = fun _ => (1 : ℝ) := funext fun i => mul_inv_cancel₀ (ho i).ne'
    rw [this, diagonal_one, det_one]
  have e4 : (1 + Aᵀ * diagonal o * (A * (diagonal h)⁻¹)).det = (1 + diagonal o * A * (diagonal h)⁻¹ * Aᵀ).det := by
    rw [Matrix.mul_assoc, det_one_add_mul_comm]
    simp only [Matrix.mul_assoc]
  rw [e1, e2, e4]
  linear_combination (-(diagonal h).det * (1 + diagonal o * A * (diagonal h)⁻¹ * Aᵀ).det) * e3

omit hh ho in
theorem dot_diag {k : ℕ} (d u v : Fin k → ℝ) : u ⬝ᵥ (diagonal d *ᵥ v) = v ⬝ᵥ (diagonal d *ᵥ u) := by
  simp only [dotProduct, mulVec_diagonal]
  exact Finset.sum_congr rfl fun i _ => by ring

/-- Bayes' rule for linear Gaussian observations: posterior times predictive equals prior times likelihood. -/
theorem bayes_linear (μ x : Fin n → ℝ) (z : Fin m → ℝ) :
    logNormalVec ((precision A h o)⁻¹ *ᵥ ((fun e => h e * μ e) + Aᵀ *ᵥ (diagonal o *ᵥ z))) (precision A h o)⁻¹ x +
      logNormalVec (A *ᵥ μ) (predCov A h o) z =
    ∑ j, logNormal ((A *ᵥ x) j) (o j)⁻¹ (z j) + ∑ e, logNormal (μ e) (h e)⁻¹ (x e) := by
  rw [sum_logNormal _ _ _ hh, sum_logNormal _ _ _ ho]
  have hP := precision_posDef A hh ho
  have hS := predCov_posDef A hh ho
  have hPu : IsUnit (precision A h o).det := by
    rw [← isUnit_iff_isUnit_det]; exact hP.isUnit
  set P := precision A h o with hPdef
  set r := z - A *ᵥ μ with hr
  set δ := x - μ with hδ
  set w := Aᵀ *ᵥ (diagonal o *ᵥ r) with hw
  -- the mean
  have hmean : P⁻¹ *ᵥ ((fun e => h e * μ e) + Aᵀ *ᵥ (diagonal o *ᵥ z)) = μ + P⁻¹ *ᵥ w := by
    have e1 : (fun e => h e * μ e) + Aᵀ *ᵥ (diagonal o *ᵥ z) = P *ᵥ μ + w := by
      have e2 : (fun e => h e * μ e) = diagonal h *ᵥ μ := by
        funext e; rw [mulVec_diagonal]
      rw [e2, hw, hr, hPdef]
      unfold precision
      rw [add_mulVec, mulVec_sub, mulVec_sub, ← mulVec_mulVec, ← mulVec_mulVec]
      abel
    rw [e1, mulVec_add, mulVec_mulVec, nonsing_inv_mul _ hPu, one_mulVec]
  have hsym : Pᵀ = P := by
    have := hP.isHermitian
    rw [IsHermitian, conjTranspose_eq_transpose_of_trivial] at this
    exact this
  have hinvsym : P⁻¹ᵀ = P⁻¹ := by rw [transpose_nonsing_inv, hsym]
  -- the quadratic form of the posterior
  have q1 : (x - (μ + P⁻¹ *ᵥ w)) ⬝ᵥ (P⁻¹⁻¹ *ᵥ (x - (μ + P⁻¹ *ᵥ w))) =
      δ ⬝ᵥ (P *ᵥ δ) - 2 * (δ ⬝ᵥ w) + w ⬝ᵥ (P⁻¹ *ᵥ w) := by
    rw [nonsing_inv_nonsing_inv _ hPu]
    have : x - (μ + P⁻¹ *ᵥ w) = δ - P⁻¹ *ᵥ w := by rw [hδ]; abel
    have hPP : P *ᵥ (P⁻¹ *ᵥ w) = w := by
      rw [mulVec_mulVec w P P⁻¹, mul_nonsing_inv _ hPu, one_mulVec]
    rw [this, mulVec_sub P, hPP, sub_dotProduct, dotProduct_sub,
      dotProduct_sub]
    have e1 : (P⁻¹ *ᵥ w) ⬝ᵥ (P *ᵥ δ) = δ ⬝ᵥ w := by
      rw [dotProduct_mulVec, ← mulVec_transpose, hsym, mulVec_mulVec, mul_nonsing_inv _ hPu, one_mulVec,
        dotProduct_comm]
    have e2 : (P⁻¹ *ᵥ w) ⬝ᵥ w = w ⬝ᵥ (P⁻¹ *ᵥ w) := dotProduct_comm _ _
    rw [e1, e2]
    ring
  -- the quadratic form of the predictive density
  have q2 : r ⬝ᵥ ((predCov A h o)⁻¹ *ᵥ r) = r ⬝ᵥ (diagonal o *ᵥ r) - w ⬝ᵥ (P⁻¹ *ᵥ w) := by
    rw [predCov_inv A hh ho, sub_mulVec, dotProduct_sub]
    congr 1
    rw [← hPdef]
    have e1 : (diagonal o * A * P⁻¹ * Aᵀ * diagonal o) *ᵥ r = diagonal o *ᵥ (A *ᵥ (P⁻¹ *ᵥ w)) := by
      rw [hw]
      simp only [mulVec_mulVec, Matrix.mul_assoc]
    rw [e1]
    have e2 : w ⬝ᵥ (P⁻¹ *ᵥ w) = (A *ᵥ (P⁻¹ *ᵥ w)) ⬝ᵥ (diagonal o *ᵥ r) := by
      rw [dotProduct_comm w, hw, dotProduct_mulVec _ Aᵀ, vecMul_transpose]
    rw [e2, dot_diag]
  -- the quadratic form of the prior
  have q3 : δ ⬝ᵥ (P *ᵥ δ) = δ ⬝ᵥ (diagonal h *ᵥ δ) + (A *ᵥ δ) ⬝ᵥ (diagonal o *ᵥ (A *ᵥ δ)) := by
    rw [hPdef]
    unfold precision
    rw [add_mulVec, dotProduct_add, ← mulVec_mulVec, ← mulVec_mulVec, dotProduct_mulVec δ Aᵀ, vecMul_transpose]
  have q4 : (z - A *ᵥ x) = r - A *ᵥ δ := by
    rw [hr, hδ, mulVec_sub]; abel
  have q5 : δ ⬝ᵥ w = (A *ᵥ δ) ⬝ᵥ (diagonal o *ᵥ r) := by
    rw [hw, dotProduct_mulVec δ Aᵀ, vecMul_transpose]
  have q6 : (r - A *ᵥ δ) ⬝ᵥ (diagonal o *ᵥ (r - A *ᵥ δ)) =
      r ⬝ᵥ (diagonal o *ᵥ r) - 2 * ((A *ᵥ δ) ⬝ᵥ (diagonal o *ᵥ r)) + (A *ᵥ δ) ⬝ᵥ (diagonal o *ᵥ (A *ᵥ δ)) := by
    rw [mulVec_sub (diagonal o) r, sub_dotProduct, dotProduct_sub, dotProduct_sub, dot_diag o r (A *ᵥ δ)]
    ring
  -- determinants
  have d1 : Real.log P⁻¹.det = -(Real.log (diagonal h).det + Real.log (diagonal o).det +
      Real.log (predCov A h o).det) := by
    rw [det_nonsing_inv, Ring.inverse_eq_inv', Real.log_inv, hPdef, det_identity A hh ho,
      Real.log_mul (mul_ne_zero (posDef_diagonal hh).det_pos.ne' (posDef_diagonal ho).det_pos.ne') hS.det_pos.ne',
      Real.log_mul (posDef_diagonal hh).det_pos.ne' (posDef_diagonal ho).det_pos.ne']
  rw [hmean]
  unfold logNormalVec
  rw [q1, q2, d1, q3, q4, q6, q5]
  ring

end bayes

theorem logNormal_shift (c μ v x : ℝ) : logNormal (c + μ) v x = logNormal μ v (x - c) := by
  unfold logNormal
  congr 3
  ring

theorem logNormalVec_shift (c μ : Fin n → ℝ) (S) (x : Fin n → ℝ) :
    logNormalVec (c + μ) S x = logNormalVec μ S (x - c) := by
  unfold logNormalVec
  rw [sub_sub]

theorem logNormalVec_one (hn : n = 1) (μ : Fin n → ℝ) (S : Matrix (Fin n) (Fin n) ℝ) (hS : S.PosDef) (x : Fin n → ℝ) :
    ∑ e, normalLogProb (μ e) (Real.sqrt (S e e)) (x e) = logNormalVec μ S x := by
  subst hn
  have hpos : 0 < S 0 0 := hS.diag_pos
  have hinv : S⁻¹ 0 0 = (S 0 0)⁻¹ := by
    rw [inv_def, adjugate_subsingleton]
    simp [det_fin_one]
  rw [Fin.sum_univ_one, normalLogProb_eq (Real.sqrt_pos.2 hpos), Real.sq_sqrt hpos.le]
  unfold logNormal logNormalVec
  simp only [dotProduct, mulVec, Fin.sum_univ_one, hinv, det_fin_one, Pi.sub_apply]
  rw [Real.log_mul (by positivity) (by positivity)]
  field_simp
  ring

/-- Value of the nested selection probabilities when some inner sample is usable. -/
theorem softmax_usable (lo : ℝ) {M : ℕ} (w : Fin M → XF) (h : ∃ i, Usable (w i)) (i : Fin M) :
    XF.softmax (fun j => nanToNum lo (w j)) i = XF.fin (mass lo (w i) / ∑ j, mass lo (w j)) := by
  have hS := mass_sum_pos (lo := lo) h
  have h0 : ∀ x, XF.exp (nanToNum lo x) = XF.fin (mass lo x) := by
    intro x; cases x <;> rfl
  unfold XF.softmax
  simp only [h0, XF.sum_fin]
  rw [XF.fin_div hS.ne']

theorem exp_nanToNum (lo : ℝ) (x : XF) : XF.exp (nanToNum lo x) = XF.fin (mass lo x) := by
  cases x <;> rfl

theorem mass_unusable {lo : ℝ} {x : XF} (h : ¬ Usable x) : mass lo x = 0 := by
  cases x <;> simp_all [Usable, mass]

end Verif
