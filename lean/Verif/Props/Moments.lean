import Verif.Model.Moments
import Verif.Lemmas.Particle
import Mathlib.Analysis.Convex.Combination

/-!
# Property C35: filter moments
-/

namespace Verif.Props

open Verif Verif.Spec

variable {N B d : ℕ}

/-- Weighted moment of a family of numbers. -/
noncomputable def moment (p : Fin N → ℝ) (f : Fin N → ℝ) : ℝ := ∑ i, p i * f i

theorem var_eq_moment (x : Fin N → Fin B → Fin d → ℝ) (w : Fin N → Fin B → ℝ) (b : Fin B)
    (hw : IsProb fun i => w i b) (e e' : Fin d) :
    filterCov x w b e e' = moment (fun i => w i b) (fun i => x i b e * x i b e')
      - filterMean x w b e * filterMean x w b e' := by
  have h1 : ∑ i, w i b = 1 := hw.2
  unfold filterCov moment
  dsimp only
  set m := filterMean x w b e with hm
  set m' := filterMean x w b e' with hm'
  have hmd : ∑ i, w i b * x i b e = m := rfl
  have hmd' : ∑ i, w i b * x i b e' = m' := rfl
  have : ∀ i, w i b * ((x i b e - m) * (x i b e' - m')) =
      w i b * (x i b e * x i b e') - m' * (w i b * x i b e) - m * (w i b * x i b e') + m * m' * w i b := by
    intro i; ring
  simp only [this]
  rw [Finset.sum_add_distrib, Finset.sum_sub_distrib, Finset.sum_sub_distrib, ← Finset.mul_sum,
    ← Finset.mul_sum, ← Finset.mul_sum, hmd, hmd', h1]
  ring

/-- C35 in full: for all particles and probability weights the mean lies in the convex hull of the
particles, the variance is non-negative and equals second moment minus squared mean, and the covariance
matrix reported for a vector state is symmetric, positive semi-definite, with these variances on the
diagonal. -/
def C35_claim : Prop :=
  ∀ (N d : ℕ) (x : Fin N → Fin d → ℝ) (p : Fin N → ℝ), IsProb p →
    (filterMean (B := 1) (fun i _ => x i) (fun i _ => p i) 0 ∈ convexHull ℝ (Set.range x)) ∧
    (∀ e, 0 ≤ filterVar (B := 1) (fun i _ => x i) (fun i _ => p i) 0 e ∧
      filterVar (B := 1) (fun i _ => x i) (fun i _ => p i) 0 e =
        moment p (fun i => x i e ^ 2) - filterMean (B := 1) (fun i _ => x i) (fun i _ => p i) 0 e ^ 2) ∧
    ∃ C : Fin d → Fin d → ℝ, getCovariance p x = .ok ⟨d, C⟩ ∧ (∀ e e', C e e' = C e' e) ∧
      (∀ z : Fin d → ℝ, 0 ≤ ∑ e, ∑ e', z e * C e e' * z e') ∧
      ∀ e, C e e = filterVar (B := 1) (fun i _ => x i) (fun i _ => p i) 0 e

/-- C35 where it holds, for any number of parallel filters: mean and variance, and the covariance matrix
used for the Gaussian approximation of the predictive density.
Missing: the covariance matrix that a state reports on request, see `C35_covariance_refused` and
`C35_covariance_wrong`. -/
theorem C35_moments_partial (x : Fin N → Fin B → Fin d → ℝ) (w : Fin N → Fin B → ℝ) (b : Fin B)
    (hw : IsProb fun i => w i b) :
    (filterMean x w b ∈ convexHull ℝ (Set.range fun i => x i b)) ∧
    (∀ e, 0 ≤ filterVar x w b e ∧ filterVar x w b e =
      moment (fun i => w i b) (fun i => x i b e ^ 2) - filterMean x w b e ^ 2) ∧
    (∀ e e', filterCov x w b e e' = filterCov x w b e' e) ∧
    (∀ z : Fin d → ℝ, 0 ≤ ∑ e, ∑ e', z e * filterCov x w b e e' * z e') ∧
    (∀ e, filterCov x w b e e = filterVar x w b e) := by
  have hdiag : ∀ e, filterCov x w b e e = filterVar x w b e := by
    intro e
    unfold filterCov filterVar
    dsimp only
    exact Finset.sum_congr rfl fun i _ => by ring
  refine ⟨?_, ?_, ?_, ?_, hdiag⟩
  · have hm : filterMean x w b = ∑ i, w i b • x i b := by
      funext e
      simp [filterMean, Finset.sum_apply]
    rw [hm]
    exact (convex_convexHull ℝ _).sum_mem (fun i _ => hw.1 i) hw.2
      (fun i _ => subset_convexHull ℝ _ ⟨i, rfl⟩)
  · intro e
    constructor
    · unfold filterVar
      exact Finset.sum_nonneg fun i _ => mul_nonneg (hw.1 i) (sq_nonneg _)
    · rw [← hdiag, var_eq_moment x w b hw]
      simp only [pow_two]
  · intro e e'
    unfold filterCov
    exact Finset.sum_congr rfl fun i _ => by dsimp only; ring
  · intro z
    have : ∑ e, ∑ e', z e * filterCov x w b e e' * z e' =
        ∑ i, w i b * (∑ e, z e * (x i b e - filterMean x w b e)) ^ 2 := by
      unfold filterCov
      dsimp only
      have h1 : ∀ i, w i b * (∑ e, z e * (x i b e - filterMean x w b e)) ^ 2 =
          ∑ e, ∑ e', z e * (w i b * ((x i b e - filterMean x w b e) * (x i b e' - filterMean x w b e'))) * z e' := by
        intro i
        rw [pow_two, Finset.sum_mul_sum, Finset.mul_sum]
        refine Finset.sum_congr rfl fun e _ => ?_
        rw [Finset.mul_sum]
        exact Finset.sum_congr rfl fun e' _ => by ring
      simp only [h1]
      symm
      rw [Finset.sum_comm]
      refine Finset.sum_congr rfl fun e _ => ?_
      rw [Finset.sum_comm]
      refine Finset.sum_congr rfl fun e' _ => ?_
      rw [Finset.mul_sum, Finset.sum_mul]
    rw [this]
    exact Finset.sum_nonneg fun i _ => mul_nonneg (hw.1 i) (sq_nonneg _)

/-- Case: three particles with weights 1/2, 1/4, 1/4. -/
example : IsProb (![1 / 2, 1 / 4, 1 / 4] : Fin 3 → ℝ) := by
  constructor
  · intro i; fin_cases i <;> norm_num
  · simp [Fin.sum_univ_three]; norm_num

/-- The moments stored in a state are those of its normalised weights: for a state with usable weights
these are the probabilities of the particles, so `C35_moments_partial` applies to every filter. -/
theorem C35_weights_are_probabilities (lo : ℝ) (w : Fin N → Fin B → XF) (b : Fin B)
    (h : ∃ i, Usable (w i b)) :
    IsProb (colProb lo w b) ∧ ∀ i, (normalize2 lo w).2 i b = XF.fin (colProb lo w b i) :=
  ⟨isProb_mass lo (fun i => w i b) h, fun i => normalize2_usable lo w b h i⟩

example : ∃ i, Usable ((fun _ _ => XF.ninf : Fin 2 → Fin 3 → XF) i 1) := ⟨0, trivial⟩

/-- The mean and variance that a state stores are those of the particles with their probabilities. -/
theorem C35_stored (lo : ℝ) (x : Fin N → Fin B → Fin d → ℝ) (w : Fin N → Fin B → XF) (b : Fin B)
    (h : ∃ i, Usable (w i b)) (e : Fin d) :
    (storedMoments lo x w).1 b e = ∑ i, mass lo (w i b) / (∑ j, mass lo (w j b)) * x i b e ∧
    (storedMoments lo x w).2 b e = ∑ i, mass lo (w i b) / (∑ j, mass lo (w j b)) *
      (x i b e - ∑ k, mass lo (w k b) / (∑ j, mass lo (w j b)) * x k b e) ^ 2 := by
  unfold storedMoments
  simp only [filterMean, filterVar, normalize2_usable lo w b h, weightVal, colProb, and_self]

/-- How C35 fails: asking a state with `d ≥ 2` components and `N ≥ 2` particles, `N ≠ d`, for its
covariance raises. -/
theorem C35_covariance_refused (hN : 2 ≤ N) (hd : 2 ≤ d) (hne : N ≠ d) (w : Fin N → ℝ)
    (x : Fin N → Fin d → ℝ) : getCovariance w x = .error .runtimeError := by
  unfold getCovariance
  rw [if_neg]
  omega

/-- It raises in no other case. A state with one component gets a matrix with a row for every *particle*, centred at
the unweighted sum times the weight of some particle. With a single particle, of weight one, the covariance is right: a
`d × d` matrix of zeros. -/
theorem C35_covariance_shape (w : Fin N → ℝ) (x : Fin N → Fin d → ℝ) :
    (getCovariance w x = .error .runtimeError ↔ N ≠ d ∧ N ≠ 1 ∧ d ≠ 1) ∧
    (∀ hd : d = 1, ∃ C : Fin N → Fin N → ℝ, getCovariance w x = .ok ⟨N, C⟩ ∧
      ∀ j k, C j k = ∑ i, w i * ((x i ⟨0, by omega⟩ - w j * ∑ l, x l ⟨0, by omega⟩) *
        (x i ⟨0, by omega⟩ - w k * ∑ l, x l ⟨0, by omega⟩))) ∧
    (N = 1 → (∀ i, w i = 1) → getCovariance w x = .ok ⟨d, fun _ _ => 0⟩) := by
  refine ⟨?_, ?_, ?_⟩
  · unfold getCovariance
    split_ifs with h
    · simp only [false_iff]
      tauto
    · simp only [true_iff]
      tauto
  · intro hd
    subst hd
    refine ⟨fun j k => ∑ i, w i * ((x i 0 - ∑ l, w j * x l 0) * (x i 0 - ∑ l, w k * x l 0)), ?_, ?_⟩
    · unfold getCovariance
      rw [if_pos (Or.inr (Or.inr rfl))]
      have e : ∀ (i : Fin N) (j : ℕ), bcast (x i) j = x i 0 := by
        intro i j
        unfold bcast
        split_ifs with h1 h2
        · congr 1
          exact Subsingleton.elim _ _
        · rfl
        · exact absurd rfl h2
      have e' : ∀ j : Fin N, bcast w (j : ℕ) = w j := by
        intro j
        simp [bcast]
      refine congrArg Except.ok ?_
      simp only [e]
      have : ∀ C D : Fin N → Fin N → ℝ, C = D → (⟨N, C⟩ : SqMatrix) = ⟨N, D⟩ := by
        rintro C D rfl
        rfl
      refine this _ _ ?_
      funext j k
      refine Finset.sum_congr rfl fun i _ => ?_
      rw [← e' j, ← e' k]
    · intro j k
      simp only [Finset.mul_sum]
      rfl
  · intro hN hw
    subst hN
    unfold getCovariance
    rw [if_pos (Or.inr (Or.inl rfl))]
    have e' : ∀ j : ℕ, bcast w j = 1 := by
      intro j
      unfold bcast
      split_ifs with h1 h2
      · exact hw _
      · exact hw _
      · exact absurd rfl h2
    by_cases hd : d = 1
    · subst hd
      simp only [e', Finset.univ_unique, Finset.sum_singleton, one_mul]
      refine congrArg Except.ok ?_
      have : ∀ C D : Fin 1 → Fin 1 → ℝ, C = D → (⟨1, C⟩ : SqMatrix) = ⟨1, D⟩ := by
        rintro C D rfl
        rfl
      refine this _ _ ?_
      funext j k
      simp
    · have hs : (if d = 1 then 1 else d) = d := if_neg hd
      have : ∀ (n : ℕ) (C : Fin n → Fin n → ℝ), n = d → (∀ j k, C j k = 0) → (⟨n, C⟩ : SqMatrix) = ⟨d, fun _ _ => 0⟩ := by
        rintro n C rfl h
        congr 1
        funext j k
        exact h j k
      refine congrArg Except.ok (this _ _ hs fun j k => ?_)
      simp [e']

/-- Case: a thousand particles of a state with one component: a matrix with a thousand rows. -/
example (w : Fin 1000 → ℝ) (x : Fin 1000 → Fin 1 → ℝ) : ∃ C, getCovariance w x = .ok ⟨1000, C⟩ :=
  let ⟨C, h, _⟩ := (C35_covariance_shape w x).2.1 rfl
  ⟨C, h⟩

example : 2 ≤ 1000 ∧ 2 ≤ 3 ∧ 1000 ≠ 3 := by norm_num

/-- How C35 fails when `N = d`: a matrix is returned, but with wrong numbers. Two equal particles (1, 1)
with weights (1/4, 3/4) have variance zero; the reported covariance has 1/4 on its diagonal. -/
theorem C35_covariance_wrong :
    ∃ C, getCovariance (![1 / 4, 3 / 4] : Fin 2 → ℝ) (fun _ _ => 1 : Fin 2 → Fin 2 → ℝ) = .ok ⟨2, C⟩ ∧
      C 0 0 = 1 / 4 ∧
      filterVar (B := 1) (fun _ _ _ => 1 : Fin 2 → Fin 1 → Fin 2 → ℝ)
        (fun i _ => (![1 / 4, 3 / 4] : Fin 2 → ℝ) i) 0 0 = 0 := by
  unfold getCovariance
  rw [if_pos (Or.inl rfl)]
  refine ⟨_, rfl, ?_, ?_⟩
  · simp [Fin.sum_univ_two, bcast]; norm_num
  · simp [filterVar, filterMean, Fin.sum_univ_two]; norm_num

/-- C35 is false. -/
theorem C35_negation : ¬ C35_claim := by
  intro h
  have hp : IsProb (![1 / 2, 1 / 4, 1 / 4] : Fin 3 → ℝ) := by
    constructor
    · intro i; fin_cases i <;> norm_num
    · simp [Fin.sum_univ_three]; norm_num
  obtain ⟨-, -, C, hC, -⟩ := h 3 2 (fun _ _ => 0) _ hp
  rw [C35_covariance_refused (by norm_num) (by norm_num) (by norm_num)] at hC
  cases hC

end Verif.Props
