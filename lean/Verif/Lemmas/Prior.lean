import Verif.Model.Prior
import Verif.Lemmas.XFloat
import Verif.Spec.Pmmh
import Mathlib.MeasureTheory.Function.Jacobian
import Mathlib.MeasureTheory.Constructions.Pi
import Mathlib.MeasureTheory.Measure.Lebesgue.EqHaar
import Mathlib.MeasureTheory.MeasurableSpace.Embedding
import Mathlib.Analysis.SpecialFunctions.ExpDeriv
import Mathlib.Analysis.SpecialFunctions.Log.Deriv
import Mathlib.Tactic.FieldSimp
import Mathlib.Tactic.Linarith
import Mathlib.Tactic.Ring

/-!
# Priors in unconstrained coordinates
-/

namespace Verif.Priors

open MeasureTheory Verif.Spec
open scoped ENNReal

/-- Intervals are not empty. -/
def Support.Valid : Support → Prop
  | .interval lo hi => lo < hi
  | _ => True

/-- The sign of the derivative of a bijection. -/
def Support.sign : Support → ℝ
  | .lessThan _ => -1
  | _ => 1

theorem Support.abs_sign (s : Support) : |s.sign| = 1 := by cases s <;> simp [Support.sign]

theorem exp_softplus (x : ℝ) : Real.exp (softplus x) = 1 + Real.exp x :=
  Real.exp_log (by positivity)

theorem hasDerivAt_call (s : Support) (hs : s.Valid) (x : ℝ) :
    HasDerivAt (callAll s.bijection) (s.sign * Real.exp (ladjAll s.bijection x)) x := by
  cases s with
  | real =>
    have : HasDerivAt (fun x : ℝ => x) 1 x := hasDerivAt_id x
    simpa [Support.bijection, callAll, ladjAll, Support.sign] using this
  | greaterThan lo =>
    have := ((Real.hasDerivAt_exp x).const_mul 1).const_add lo
    simpa [Support.bijection, callAll, ladjAll, Support.sign, Tr.call, Tr.ladj] using this
  | lessThan hi =>
    have := ((Real.hasDerivAt_exp x).const_mul (-1)).const_add hi
    simpa [Support.bijection, callAll, ladjAll, Support.sign, Tr.call, Tr.ladj] using this
  | interval lo hi =>
    have h0 : 0 < hi - lo := sub_pos.2 hs
    have hp : (0 : ℝ) < 1 + Real.exp (-x) := by positivity
    have h1 : HasDerivAt (fun x : ℝ => 1 + Real.exp (-x)) (Real.exp (-x) * -1) x :=
      ((hasDerivAt_neg x).exp).const_add 1
    have h2 := ((h1.inv hp.ne').const_mul (hi - lo)).const_add lo
    have e : Support.sign (.interval lo hi) * Real.exp (ladjAll (Support.interval lo hi).bijection x)
        = (hi - lo) * (-(Real.exp (-x) * -1) / (1 + Real.exp (-x)) ^ 2) := by
      have h3 : Real.exp (ladjAll (Support.interval lo hi).bijection x)
          = (hi - lo) / ((1 + Real.exp (-x)) * (1 + Real.exp x)) := by
        simp only [Support.bijection, ladjAll, Tr.ladj, add_zero]
        rw [Real.exp_add, Real.exp_sub, Real.exp_neg, exp_softplus, exp_softplus,
          Real.exp_log (abs_pos.2 h0.ne'), abs_of_pos h0]
        field_simp
      have h5 : (Support.interval lo hi).sign = 1 := rfl
      rw [h3, h5, one_mul, Real.exp_neg]
      have := (Real.exp_pos x).ne'
      have h4 : 1 + Real.exp x ≠ 0 := by positivity
      field_simp
      ring
    rw [e]
    have e2 : callAll (Support.interval lo hi).bijection
        = fun x => lo + (hi - lo) * (fun x : ℝ => 1 + Real.exp (-x))⁻¹ x := by
      funext z
      simp [Support.bijection, callAll, Tr.call]
    rw [e2]
    exact h2

/-- The bijection maps onto the support and is undone by its inverse. -/
theorem inverse_call (s : Support) (hs : s.Valid) (x : ℝ) :
    inverseAll s.bijection (callAll s.bijection x) = x := by
  cases s with
  | real => rfl
  | greaterThan lo => simp [Support.bijection, callAll, inverseAll, Tr.call, Tr.inverse]
  | lessThan hi => simp [Support.bijection, callAll, inverseAll, Tr.call, Tr.inverse]
  | interval lo hi =>
    have h0 : 0 < hi - lo := sub_pos.2 hs
    have hp : (0 : ℝ) < 1 + Real.exp (-x) := by positivity
    have e1 : (lo + (hi - lo) * (1 / (1 + Real.exp (-x))) - lo) / (hi - lo) = 1 / (1 + Real.exp (-x)) := by
      field_simp
      ring
    have e2 : 1 + -(1 / (1 + Real.exp (-x))) = Real.exp (-x) / (1 + Real.exp (-x)) := by
      field_simp
      ring
    simp only [Support.bijection, callAll, inverseAll, Tr.call, Tr.inverse, e1, e2]
    rw [Real.log_div one_ne_zero hp.ne', Real.log_div (Real.exp_pos _).ne' hp.ne', Real.log_one, Real.log_exp]
    ring

theorem call_mem (s : Support) (hs : s.Valid) (x : ℝ) : s.mem (callAll s.bijection x) := by
  cases s with
  | real => trivial
  | greaterThan lo => simp [Support.bijection, callAll, Tr.call, Support.mem, Real.exp_pos]
  | lessThan hi => simp [Support.bijection, callAll, Tr.call, Support.mem, Real.exp_pos]
  | interval lo hi =>
    have h0 : 0 < hi - lo := sub_pos.2 hs
    have hp : (0 : ℝ) < Real.exp (-x) := Real.exp_pos _
    have h1 : 0 < 1 / (1 + Real.exp (-x)) := by positivity
    have h2 : 1 / (1 + Real.exp (-x)) < 1 := by rw [div_lt_one (by positivity)]; linarith
    simp only [Support.bijection, callAll, Tr.call, Support.mem]
    constructor
    · have := mul_pos h0 h1
      linarith
    · have := mul_lt_mul_of_pos_left h2 h0
      linarith

theorem call_inverse (s : Support) (hs : s.Valid) (y : ℝ) (hy : s.mem y) :
    callAll s.bijection (inverseAll s.bijection y) = y := by
  cases s with
  | real => rfl
  | greaterThan lo =>
    have : 0 < y - lo := sub_pos.2 hy
    simp [Support.bijection, callAll, inverseAll, Tr.call, Tr.inverse, Real.exp_log this]
  | lessThan hi =>
    have h1 : 0 < hi - y := sub_pos.2 hy
    have h2 : (y - hi) / -1 = hi - y := by ring
    simp only [Support.bijection, callAll, inverseAll, Tr.call, Tr.inverse, h2, Real.exp_log h1]
    ring
  | interval lo hi =>
    have h0 : 0 < hi - lo := sub_pos.2 hs
    have h1 : 0 < (y - lo) / (hi - lo) := div_pos (sub_pos.2 hy.1) h0
    have h2 : 0 < 1 + -((y - lo) / (hi - lo)) := by
      have : (y - lo) / (hi - lo) < 1 := by rw [div_lt_one h0]; linarith [hy.2]
      linarith
    simp only [Support.bijection, callAll, inverseAll, Tr.call, Tr.inverse]
    rw [neg_sub, Real.exp_sub, Real.exp_log h1, Real.exp_log h2]
    have h3 := h1.ne'
    have h4 : y - lo ≠ 0 := (sub_pos.2 hy.1).ne'
    have h5 := h0.ne'
    have h6 : 1 / (1 + (1 + -((y - lo) / (hi - lo))) / ((y - lo) / (hi - lo))) = (y - lo) / (hi - lo) := by
      rw [div_eq_iff]
      · rw [mul_add, mul_one, mul_div_cancel₀ _ h3]
        ring
      · have := div_pos h2 h1
        positivity
    rw [h6, mul_div_cancel₀ _ h5]
    ring

theorem range_call (s : Support) (hs : s.Valid) : Set.range (callAll s.bijection) = {y | s.mem y} := by
  ext y
  constructor
  · rintro ⟨x, rfl⟩
    exact call_mem s hs x
  · exact fun hy => ⟨_, call_inverse s hs y hy⟩

/-- Change of variables componentwise. -/
theorem lintegral_call {D : ℕ} (s : Fin D → Support) (hs : ∀ k, (s k).Valid)
    (g : (Fin D → ℝ) → ℝ≥0∞) :
    ∫⁻ x in {x | ∀ k, (s k).mem (x k)}, g x
      = ∫⁻ u : Fin D → ℝ, ENNReal.ofReal (Real.exp (∑ k, ladjAll (s k).bijection (u k))) *
          g (fun k => callAll (s k).bijection (u k)) := by
  let f : (Fin D → ℝ) → Fin D → ℝ := fun u k => callAll (s k).bijection (u k)
  let f' : (Fin D → ℝ) → ((Fin D → ℝ) →L[ℝ] (Fin D → ℝ)) := fun u =>
    ContinuousLinearMap.pi fun k =>
      (ContinuousLinearMap.toSpanSingleton ℝ ((s k).sign * Real.exp (ladjAll (s k).bijection (u k)))).comp
        (ContinuousLinearMap.proj k)
  have hf' : ∀ u ∈ Set.univ, HasFDerivWithinAt f (f' u) Set.univ u := by
    intro u _
    refine HasFDerivAt.hasFDerivWithinAt (hasFDerivAt_pi.2 fun k => ?_)
    have h1 := (hasDerivAt_call (s k) (hs k) (u k)).hasFDerivAt
    exact h1.comp u (hasFDerivAt_apply k u)
  have hinj : Set.InjOn f Set.univ := by
    intro u _ v _ h
    funext k
    have := congrFun h k
    rw [← inverse_call (s k) (hs k) (u k), ← inverse_call (s k) (hs k) (v k)]
    exact congrArg _ this
  have himg : f '' Set.univ = {x | ∀ k, (s k).mem (x k)} := by
    ext x
    constructor
    · rintro ⟨u, _, rfl⟩ k
      exact call_mem (s k) (hs k) (u k)
    · intro hx
      exact ⟨fun k => inverseAll (s k).bijection (x k), trivial, funext fun k => call_inverse (s k) (hs k) _ (hx k)⟩
  have hdet : ∀ u, |(f' u).det| = Real.exp (∑ k, ladjAll (s k).bijection (u k)) := by
    intro u
    rw [show (f' u).det = ∏ k, (s k).sign * Real.exp (ladjAll (s k).bijection (u k)) from ?_,
      Finset.abs_prod, Real.exp_sum]
    · exact Finset.prod_congr rfl fun k _ => by
        rw [abs_mul, Support.abs_sign, one_mul, abs_of_pos (Real.exp_pos _)]
    · rw [show (f' u).det = _ from ContinuousLinearMap.det_pi _]
      exact Finset.prod_congr rfl fun k _ => by simp
  have := lintegral_image_eq_lintegral_abs_det_fderiv_mul volume MeasurableSet.univ hf' hinj g
  rw [himg, Measure.restrict_univ] at this
  rw [this]
  simp only [hdet]
  rfl

namespace Registry

variable (c : Registry)

/-- Position of a component in the stacked row. -/
def pos (i : Fin c.m) (j : Fin (c.numel i)) : Fin c.dim := ⟨c.index i + j, c.index_lt i j⟩

theorem pos_eq (i : Fin c.m) (j : Fin (c.numel i)) : c.pos i j = finSigmaFinEquiv ⟨i, j⟩ := by
  apply Fin.ext
  rw [finSigmaFinEquiv_apply]
  rfl

/-- All slices at once. -/
def slices : (Fin c.dim → ℝ) ≃ᵐ (∀ i, Fin (c.numel i) → ℝ) where
  toFun x i := c.slice x i
  invFun x k := x (finSigmaFinEquiv.symm k).1 (finSigmaFinEquiv.symm k).2
  left_inv x := by
    funext k
    show x (c.pos _ _) = x k
    rw [pos_eq]
    exact congrArg x (Equiv.apply_symm_apply _ k)
  right_inv x := by
    funext i j
    show x (finSigmaFinEquiv.symm (c.pos i j)).1 (finSigmaFinEquiv.symm (c.pos i j)).2 = x i j
    rw [pos_eq, Equiv.symm_apply_apply]
  measurable_toFun := by
    refine measurable_pi_iff.2 fun i => measurable_pi_iff.2 fun j => ?_
    exact measurable_pi_apply (c.pos i j)
  measurable_invFun := by
    refine measurable_pi_iff.2 fun k => ?_
    exact (measurable_pi_apply (finSigmaFinEquiv.symm k).2).comp
      (measurable_pi_apply (X := fun i => Fin (c.numel i) → ℝ) (finSigmaFinEquiv.symm k).1)

theorem slices_preserving : MeasurePreserving c.slices := by
  refine MeasurePreserving.symm c.slices.symm ⟨c.slices.symm.measurable, ?_⟩
  refine (Measure.pi_eq fun s hs => ?_).symm
  rw [MeasurableEquiv.map_apply]
  have h1 : c.slices.symm ⁻¹' Set.univ.pi s
      = Set.univ.pi fun i => Set.univ.pi fun j => s (finSigmaFinEquiv ⟨i, j⟩) := by
    ext x
    simp only [Set.mem_preimage, Set.mem_univ_pi]
    constructor
    · intro h i j
      have := h (finSigmaFinEquiv ⟨i, j⟩)
      have e : c.slices.symm x (finSigmaFinEquiv ⟨i, j⟩) = x i j := by
        show x (finSigmaFinEquiv.symm _).1 (finSigmaFinEquiv.symm _).2 = x i j
        rw [Equiv.symm_apply_apply]
      rwa [e] at this
    · intro h k
      have := h (finSigmaFinEquiv.symm k).1 (finSigmaFinEquiv.symm k).2
      rwa [Sigma.eta, Equiv.apply_symm_apply] at this
  rw [h1, volume_pi_pi]
  simp only [volume_pi_pi]
  rw [← Fintype.prod_sigma' fun i j => volume (s (finSigmaFinEquiv ⟨i, j⟩))]
  exact Equiv.prod_comp (finSigmaFinEquiv (n := c.numel)) fun k => volume (s k)

/-- Supports of the columns. -/
def colSupport (k : Fin c.dim) : Support :=
  (c.prior (finSigmaFinEquiv.symm k).1).support (finSigmaFinEquiv.symm k).2

theorem colSupport_pos (i : Fin c.m) (j : Fin (c.numel i)) :
    c.colSupport (c.pos i j) = (c.prior i).support j := by
  rw [pos_eq]
  unfold colSupport
  rw [Equiv.symm_apply_apply]

theorem forall_pos {p : Fin c.dim → Prop} : (∀ k, p k) ↔ ∀ i j, p (c.pos i j) := by
  constructor
  · exact fun h i j => h _
  · intro h k
    have := h (finSigmaFinEquiv.symm k).1 (finSigmaFinEquiv.symm k).2
    rw [pos_eq] at this
    rwa [Sigma.eta, Equiv.apply_symm_apply] at this

theorem sum_pos (f : Fin c.dim → ℝ) : ∑ k, f k = ∑ i, ∑ j, f (c.pos i j) := by
  simp only [pos_eq]
  rw [← Fintype.sum_sigma' fun i j => f (finSigmaFinEquiv ⟨i, j⟩)]
  exact (Equiv.sum_comp (finSigmaFinEquiv (n := c.numel)) f).symm

theorem expMass_add_fin (r : ℝ) (x : XF) : expMass (.fin r + x) = Real.exp r * expMass x := by
  cases x with
  | nan => simp [expMass, show (XF.fin r + XF.nan) = XF.nan from rfl]
  | ninf => simp [expMass, show (XF.fin r + XF.ninf) = XF.ninf from rfl]
  | pinf => simp [expMass, show (XF.fin r + XF.pinf) = XF.pinf from rfl]
  | fin a => simp [expMass, XF.fin_add, Real.exp_add]

end Registry

end Verif.Priors
