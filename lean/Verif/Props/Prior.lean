import Verif.Lemmas.Prior
import Verif.Spec.Prior
import Mathlib.Analysis.SpecialFunctions.Gaussian.GaussianIntegral
import Mathlib.MeasureTheory.Integral.ExpDecay
import Mathlib.Tactic.NormNum

/-!
# C92: priors in unconstrained coordinates
-/

namespace Verif.Props

open MeasureTheory Verif.Priors Verif.Spec
open scoped ENNReal

theorem valid_of_points {s : Support} (h : (points s).Nonempty) : s.Valid := by
  cases s with
  | interval lo hi => exact Set.nonempty_Ioo.1 h
  | _ => trivial

theorem mem_points (s : Support) (x : ℝ) : x ∈ points s ↔ s.mem x := by
  cases s <;> simp [points, Support.mem]

theorem evalPrior_getConstrained {n : ℕ} (p : Prior n) (hp : ∀ j, (p.support j).Valid) (u : Fin n → ℝ) :
    p.evalPrior (p.getConstrained u) false
      = .fin (∑ j, ladjAll (p.support j).bijection (u j)) + p.logProb (p.getConstrained u) := by
  have h : p.getUnconstrained (p.getConstrained u) = u :=
    funext fun j => inverse_call (p.support j) (hp j) (u j)
  rw [Prior.evalPrior, if_neg (by simp), Prior.unconstrainedLogProb, h, zero_sub, neg_neg]

theorem expMass_sum {ι : Type} (s : Finset ι) (a : ι → ℝ) (x : ι → XF) (hx : ∀ i, x i ≠ .nan ∧ x i ≠ .pinf) :
    expMass (∑ i ∈ s, (.fin (a i) + x i)) = Real.exp (∑ i ∈ s, a i) * ∏ i ∈ s, expMass (x i) ∧
      (∑ i ∈ s, (XF.fin (a i) + x i)) ≠ .nan ∧ (∑ i ∈ s, (XF.fin (a i) + x i)) ≠ .pinf := by
  classical
  induction s using Finset.induction_on with
  | empty => simp [expMass, show (0 : XF) = XF.fin 0 from rfl]
  | insert i s hi ih =>
    rw [Finset.sum_insert hi, Finset.sum_insert hi, Finset.prod_insert hi]
    obtain ⟨e, h1, h2⟩ := ih
    generalize ∑ i ∈ s, (XF.fin (a i) + x i) = r at *
    have h3 := hx i
    rw [Real.exp_add, mul_mul_mul_comm, ← e]
    generalize x i = z at *
    rcases z with _ | _ | _ | z
    · exact absurd rfl h3.1
    · rcases r with _ | _ | _ | r
      · exact absurd rfl h1
      · exact ⟨by simp [expMass, show (XF.fin (a i) + XF.ninf + XF.ninf) = XF.ninf from rfl],
          fun h => (by cases h), fun h => (by cases h)⟩
      · exact absurd rfl h2
      · exact ⟨by simp [expMass, show (XF.fin (a i) + XF.ninf + XF.fin r) = XF.ninf from rfl],
          fun h => (by cases h), fun h => (by cases h)⟩
    · exact absurd rfl h3.2
    · rcases r with _ | _ | _ | r
      · exact absurd rfl h1
      · exact ⟨by simp [expMass, show (XF.fin (a i) + XF.fin z + XF.ninf) = XF.ninf from rfl],
          fun h => (by cases h), fun h => (by cases h)⟩
      · exact absurd rfl h2
      · exact ⟨by simp [expMass, XF.fin_add, Real.exp_add],
          fun h => (by simp [XF.fin_add] at h), fun h => (by simp [XF.fin_add] at h)⟩

theorem logPrior_eq (c : Registry) (hv : ValidSupports c) (u : Fin c.dim → ℝ) :
    c.logPrior u = ∑ i, (XF.fin (∑ j, ladjAll ((c.prior i).support j).bijection (c.slice u i j)) +
      (c.prior i).logProb (c.unstack u false i)) := by
  unfold Registry.logPrior Registry.evalPriors
  refine Finset.sum_congr rfl fun i _ => ?_
  exact evalPrior_getConstrained (c.prior i) (fun j => valid_of_points (hv i j)) (c.slice u i)

/-- The log-prior of a row of unconstrained parameters is finite or `-inf`. -/
theorem C92_defined (c : Registry) (hv : ValidSupports c) (hp : ProperLogProb c) (u : Fin c.dim → ℝ) :
    c.logPrior u ≠ .nan ∧ c.logPrior u ≠ .pinf := by
  have h := (expMass_sum Finset.univ
    (fun i => ∑ j, ladjAll ((c.prior i).support j).bijection (c.slice u i j))
    (fun i => (c.prior i).logProb (c.unstack u false i)) fun i => hp i _).2
  rwa [logPrior_eq c hv u]

/-- Unstacking unconstrained values gives values in the supports, and taking them back to unconstrained space
gives the columns of the row. -/
theorem C92_unstack (c : Registry) (hv : ValidSupports c) (u : Fin c.dim → ℝ) :
    c.unstack u false ∈ space c ∧
      ∀ i, (c.prior i).getUnconstrained (c.unstack u false i) = c.slice u i := by
  constructor
  · intro i j
    exact (mem_points _ _).2 (call_mem _ (valid_of_points (hv i j)) _)
  · intro i
    exact funext fun j => inverse_call _ (valid_of_points (hv i j)) _

/-- **C92.** Integrating any function of the parameters against the density that MCMC uses for rows of
unconstrained parameters is the same as integrating it against the joint prior of the parameters: the
Jacobian is the right one, no parameter is missed or counted twice, and no column is mixed up. -/
theorem C92_change_of_variables (c : Registry) (hv : ValidSupports c) (hp : ProperLogProb c)
    (F : (∀ i, Fin (c.numel i) → ℝ) → ℝ≥0∞) :
    ∫⁻ u, ENNReal.ofReal (expMass (c.logPrior u)) * F (c.unstack u false)
      = ∫⁻ x in space c, jointPrior c x * F x := by
  have hcol : ∀ k, (c.colSupport k).Valid := (c.forall_pos).2 fun i j => by
    rw [c.colSupport_pos]; exact valid_of_points (hv i j)
  have h1 := lintegral_call c.colSupport hcol fun x => jointPrior c (c.slices x) * F (c.slices x)
  have h2 : ∫⁻ x in space c, jointPrior c x * F x
      = ∫⁻ x in {x | ∀ k, (c.colSupport k).mem (x k)}, jointPrior c (c.slices x) * F (c.slices x) := by
    rw [← c.slices_preserving.setLIntegral_comp_preimage_emb c.slices.measurableEmbedding]
    congr 2
    ext x
    show (∀ i j, c.slice x i j ∈ _) ↔ ∀ k, (c.colSupport k).mem (x k)
    rw [c.forall_pos]
    simp only [c.colSupport_pos, mem_points]
    rfl
  rw [h2, h1]
  refine lintegral_congr fun u => ?_
  have e : c.slices (fun k => callAll (c.colSupport k).bijection (u k)) = c.unstack u false := by
    funext i j
    show callAll (c.colSupport (c.pos i j)).bijection (u (c.pos i j)) = _
    rw [c.colSupport_pos]
    rfl
  have h3 := (expMass_sum Finset.univ
    (fun i => ∑ j, ladjAll ((c.prior i).support j).bijection (c.slice u i j))
    (fun i => (c.prior i).logProb (c.unstack u false i)) fun i => hp i _).1
  have e2 := logPrior_eq c hv u
  have hnn : ∀ x, 0 ≤ expMass x := fun x => by
    cases x <;> simp [expMass, Real.exp_nonneg]
  have e3 : ∑ k, ladjAll (c.colSupport k).bijection (u k)
      = ∑ i, ∑ j, ladjAll ((c.prior i).support j).bijection (c.slice u i j) := by
    rw [c.sum_pos]
    simp only [c.colSupport_pos]
    rfl
  rw [e, e2, h3, e3, ENNReal.ofReal_mul (Real.exp_nonneg _), ENNReal.ofReal_prod_of_nonneg fun i _ => hnn _,
    mul_assoc]
  rfl

/-- With `constrained=True` the priors are evaluated at the values themselves. -/
theorem C92_constrained (c : Registry) (hp : ProperLogProb c) (x : Fin c.dim → ℝ) :
    ENNReal.ofReal (expMass (c.evalPriors (c.unstack x true) true)) = jointPrior c (c.slice x) := by
  have h := (expMass_sum Finset.univ (fun _ => 0) (fun i => (c.prior i).logProb (c.slice x i))
    fun i => hp i _).1
  have hnn : ∀ x, 0 ≤ expMass x := fun x => by
    cases x <;> simp [expMass, Real.exp_nonneg]
  simp only [Finset.sum_const_zero, Real.exp_zero, one_mul] at h
  have e : c.evalPriors (c.unstack x true) true
      = ∑ i, (XF.fin 0 + (c.prior i).logProb (c.slice x i)) :=
    Finset.sum_congr rfl fun i _ => (zero_add ((c.prior i).logProb (c.slice x i))).symm
  rw [e, h, ENNReal.ofReal_prod_of_nonneg fun i _ => hnn _]
  rfl

/-! ### A case -/

/-- Three parameters: a pair of real numbers with a normal prior, a positive one with an exponential prior, and
one between -1 and 1 with a uniform prior. -/
noncomputable def priorDemoList : Fin 3 → Σ n, Prior n :=
  ![⟨2, fun _ => .real, fun x => .fin (-(x 0) ^ 2 / 2 - (x 1) ^ 2 / 2 - Real.log (2 * Real.pi))⟩,
    ⟨1, fun _ => .greaterThan 0, fun x => .fin (-x 0)⟩,
    ⟨1, fun _ => .interval (-1) 1, fun _ => .fin (-Real.log 2)⟩]

/-- Their registry. -/
noncomputable def priorDemo : Registry where
  m := 3
  numel i := (priorDemoList i).1
  prior i := (priorDemoList i).2

theorem priorDemo_valid : ValidSupports priorDemo := by
  intro i j
  match i with
  | ⟨0, _⟩ => exact ⟨0, trivial⟩
  | ⟨1, _⟩ => exact ⟨1, show (0 : ℝ) < 1 by norm_num⟩
  | ⟨2, _⟩ => exact ⟨0, show (-1 : ℝ) < 0 by norm_num, show (0 : ℝ) < 1 by norm_num⟩

theorem priorDemo_proper : ProperLogProb priorDemo := by
  intro i x
  match i with
  | ⟨0, _⟩ => exact ⟨fun h => (by cases h), fun h => (by cases h)⟩
  | ⟨1, _⟩ => exact ⟨fun h => (by cases h), fun h => (by cases h)⟩
  | ⟨2, _⟩ => exact ⟨fun h => (by cases h), fun h => (by cases h)⟩

example (F : (∀ i, Fin (priorDemo.numel i) → ℝ) → ℝ≥0∞) :
    ∫⁻ u, ENNReal.ofReal (expMass (priorDemo.logPrior u)) * F (priorDemo.unstack u false)
      = ∫⁻ x in space priorDemo, jointPrior priorDemo x * F x :=
  C92_change_of_variables priorDemo priorDemo_valid priorDemo_proper F

/-- The second parameter is the exponential of column 2. -/
example (u : Fin priorDemo.dim → ℝ) (j : Fin (priorDemo.numel (1 : Fin 3)))
    (k : Fin priorDemo.dim) (hk : (k : ℕ) = 2) :
    priorDemo.unstack u false (1 : Fin 3) j = 0 + 1 * Real.exp (u k) := by
  have e : k = priorDemo.pos (1 : Fin 3) j := by
    apply Fin.ext
    have hj : (j : ℕ) = 0 := Nat.lt_one_iff.1 j.2
    rw [hk]
    show 2 = priorDemo.index _ + (j : ℕ)
    rw [hj]
    rfl
  rw [e]
  rfl

end Verif.Props
