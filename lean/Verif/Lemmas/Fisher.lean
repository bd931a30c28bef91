import Verif.Spec.PathAverage
import Verif.Spec.Score
import Mathlib.Analysis.Calculus.ParametricIntegral
import Mathlib.Analysis.Calculus.MeanValue
import Mathlib.Analysis.SpecialFunctions.Log.Deriv
import Mathlib.Probability.Kernel.Composition.Prod
import Mathlib.Probability.Kernel.Composition.MeasureComp
import Mathlib.MeasureTheory.Constructions.BorelSpace.Metrizable

/-!
# The law of a path, densities of models with respect to each other, and Fisher's identity
-/

namespace Verif.Fisher

open Verif Verif.Spec MeasureTheory ProbabilityTheory
open scoped ENNReal Topology

variable {X Y : Type} [MeasurableSpace X]

theorem measurable_update_at (t : ℕ) : Measurable fun z : (ℕ → X) × X => Function.update z.1 t z.2 := by
  rw [measurable_pi_iff]
  intro n
  by_cases h : n = t
  · subst h
    simpa using measurable_snd
  · simp only [Function.update_of_ne h]
    exact (measurable_pi_apply n).comp measurable_fst

/-- One step of a path. -/
noncomputable def stepK (K : ℕ → Kernel X X) (t : ℕ) : Kernel (ℕ → X) (ℕ → X) :=
  (Kernel.id ×ₖ (K t).comap (fun p => p t) (measurable_pi_apply t)).map fun z => Function.update z.1 (t + 1) z.2

theorem stepK_lintegral (K : ℕ → Kernel X X) [∀ t, IsMarkovKernel (K t)] (t : ℕ) {Φ : (ℕ → X) → ℝ≥0∞} (hΦ : Measurable Φ)
    (p : ℕ → X) : ∫⁻ q, Φ q ∂(stepK K t p) = ∫⁻ x, Φ (Function.update p (t + 1) x) ∂(K t (p t)) := by
  have h : Measurable fun z : (ℕ → X) × X => Φ (Function.update z.1 (t + 1) z.2) := hΦ.comp (measurable_update_at (t + 1))
  unfold stepK
  rw [Kernel.lintegral_map _ (measurable_update_at (t + 1)) _ hΦ, Kernel.lintegral_id_prod h]
  rfl

/-- The law of a path, given the path up to time `t`, where `n` steps follow. -/
noncomputable def pathLaw (K : ℕ → Kernel X X) : ℕ → ℕ → Kernel (ℕ → X) (ℕ → X)
  | 0, _ => Kernel.id
  | n + 1, t => pathLaw K n (t + 1) ∘ₖ stepK K t

instance stepK_markov (K : ℕ → Kernel X X) [∀ t, IsMarkovKernel (K t)] (t : ℕ) : IsMarkovKernel (stepK K t) :=
  Kernel.IsMarkovKernel.map _ (measurable_update_at (t + 1))

instance pathLaw_markov (K : ℕ → Kernel X X) [∀ t, IsMarkovKernel (K t)] (n t : ℕ) : IsMarkovKernel (pathLaw K n t) := by
  induction n generalizing t with
  | zero => unfold pathLaw; infer_instance
  | succ n ih => unfold pathLaw; have := ih (t + 1); infer_instance

variable (K : ℕ → Kernel X X) [∀ t, IsMarkovKernel (K t)]

theorem pathLaw_succ (n t : ℕ) {Φ : (ℕ → X) → ℝ≥0∞} (hΦ : Measurable Φ) (p : ℕ → X) :
    ∫⁻ q, Φ q ∂(pathLaw K (n + 1) t p)
      = ∫⁻ x, ∫⁻ q, Φ q ∂(pathLaw K n (t + 1) (Function.update p (t + 1) x)) ∂(K t (p t)) := by
  have h : Measurable fun p => ∫⁻ q, Φ q ∂(pathLaw K n (t + 1) p) := hΦ.lintegral_kernel
  rw [pathLaw, Kernel.lintegral_comp _ _ _ hΦ, stepK_lintegral K t h]

/-- What is known of a path at time `t` is kept. -/
theorem pathLaw_pull (n : ℕ) : ∀ (t : ℕ) {Φ c : (ℕ → X) → ℝ≥0∞}, Measurable Φ → Measurable c →
    (∀ p q : ℕ → X, (∀ m ≤ t, p m = q m) → c p = c q) → ∀ p : ℕ → X,
    ∫⁻ q, c q * Φ q ∂(pathLaw K n t p) = c p * ∫⁻ q, Φ q ∂(pathLaw K n t p) := by
  induction n with
  | zero =>
    intro t Φ c hΦ hc _ p
    have h : Measurable fun q => c q * Φ q := hc.mul hΦ
    rw [pathLaw, Kernel.lintegral_id' h, Kernel.lintegral_id' hΦ]
  | succ n ih =>
    intro t Φ c hΦ hc hd p
    have h : Measurable fun q => c q * Φ q := hc.mul hΦ
    have h2 : Measurable fun x => ∫⁻ q, Φ q ∂(pathLaw K n (t + 1) (Function.update p (t + 1) x)) := by
      have h3 : Measurable fun p => ∫⁻ q, Φ q ∂(pathLaw K n (t + 1) p) := hΦ.lintegral_kernel
      exact h3.comp ((measurable_update_at (t + 1)).comp (measurable_const.prodMk measurable_id))
    rw [pathLaw_succ K n t h, pathLaw_succ K n t hΦ, ← lintegral_const_mul _ h2]
    refine lintegral_congr fun x => ?_
    rw [ih (t + 1) hΦ hc (fun p q hpq => hd p q fun m hm => hpq m (by omega)) (Function.update p (t + 1) x)]
    congr 1
    refine hd _ _ fun m hm => ?_
    rw [Function.update_of_ne (by omega)]

omit [∀ t, IsMarkovKernel (K t)] in
/-- The likelihood is the average of `1` over paths. -/
theorem lik_path (g : Y → ℕ → X → ℝ≥0∞) (os : List (Option Y)) : ∀ (t : ℕ) (p : ℕ → X),
    pathAvg K g (fun _ => 1) os t p = lik K g os t (p t) := by
  induction os with
  | nil => intro t p; rfl
  | cons o os ih =>
    intro t p
    cases o with
    | none =>
      simp only [pathAvg, lik]
      refine lintegral_congr fun x => ?_
      rw [ih, Function.update_self]
    | some y =>
      simp only [pathAvg, lik]
      refine lintegral_congr fun x => ?_
      rw [ih, Function.update_self]

/-- The logarithm of the density of one model with respect to the latent process of another, along a path: `r` is the logarithm
of the quotient of the transition densities. -/
def logRatio (r : ℕ → X → X → ℝ) (lg : Y → ℕ → X → ℝ) : List Y → ℕ → (ℕ → X) → ℝ
  | [], _, _ => 0
  | y :: ys, t, q => (r t (q t) (q (t + 1)) + lg y (t + 1) (q (t + 1))) + logRatio r lg ys (t + 1) q

theorem measurable_logRatio {r : ℕ → X → X → ℝ} (hr : ∀ t, Measurable fun z : X × X => r t z.1 z.2)
    {lg : Y → ℕ → X → ℝ} (hlg : ∀ y t, Measurable (lg y t)) (ys : List Y) : ∀ t, Measurable (logRatio r lg ys t) := by
  induction ys with
  | nil => intro t; exact measurable_const
  | cons y ys ih =>
    intro t
    have h0 : Measurable fun q : ℕ → X => (q t, q (t + 1)) := (measurable_pi_apply t).prodMk (measurable_pi_apply (t + 1))
    have h1 : Measurable fun q : ℕ → X => r t (q t) (q (t + 1)) := (hr t).comp h0
    have h2 : Measurable fun q : ℕ → X => lg y (t + 1) (q (t + 1)) := (hlg y (t + 1)).comp (measurable_pi_apply (t + 1))
    exact (h1.add h2).add (ih (t + 1))

/-- Averages over paths in one model as averages over paths of the latent process of another. -/
theorem pathAvg_ratio (lam : Measure X) {lf lf₀ : ℕ → X → X → ℝ}
    (hlf : ∀ t, Measurable fun z : X × X => lf t z.1 z.2) (hlf₀ : ∀ t, Measurable fun z : X × X => lf₀ t z.1 z.2)
    (K' : ℕ → Kernel X X) (hK' : ∀ t x, K' t x = lam.withDensity fun x' => ENNReal.ofReal (Real.exp (lf t x x')))
    (hK : ∀ t x, K t x = lam.withDensity fun x' => ENNReal.ofReal (Real.exp (lf₀ t x x')))
    {lg : Y → ℕ → X → ℝ} (hlg : ∀ y t, Measurable (lg y t)) {Φ : (ℕ → X) → ℝ≥0∞} (hΦ : Measurable Φ) (ys : List Y) :
    ∀ (t : ℕ) (p : ℕ → X), pathAvg K' (fun y t x => ENNReal.ofReal (Real.exp (lg y t x))) Φ (ys.map some) t p
      = ∫⁻ q, ENNReal.ofReal (Real.exp (logRatio (fun t x x' => lf t x x' - lf₀ t x x') lg ys t q)) * Φ q
          ∂(pathLaw K ys.length t p) := by
  have hr : ∀ t, Measurable fun z : X × X => lf t z.1 z.2 - lf₀ t z.1 z.2 := fun t => (hlf t).sub (hlf₀ t)
  have hm : ∀ ys t, Measurable fun q : ℕ → X =>
      ENNReal.ofReal (Real.exp (logRatio (fun t x x' => lf t x x' - lf₀ t x x') lg ys t q)) := fun ys t =>
    (Real.measurable_exp.comp (measurable_logRatio hr hlg ys t)).ennreal_ofReal
  induction ys with
  | nil =>
    intro t p
    simp only [List.map_nil, pathAvg, logRatio, Real.exp_zero, ENNReal.ofReal_one, one_mul, List.length_nil, pathLaw]
    rw [Kernel.lintegral_id' hΦ]
  | cons y ys ih =>
    intro t p
    have hmΦ : ∀ ys t, Measurable fun q : ℕ → X =>
      ENNReal.ofReal (Real.exp (logRatio (fun t x x' => lf t x x' - lf₀ t x x') lg ys t q)) * Φ q := fun ys t =>
        (hm ys t).mul hΦ
    rw [List.map_cons, List.length_cons, pathLaw_succ K _ t (hmΦ (y :: ys) t)]
    simp only [pathAvg]
    have hA : Measurable fun x => ∫⁻ q, ENNReal.ofReal (Real.exp (logRatio (fun t x x' => lf t x x' - lf₀ t x x') lg ys (t + 1) q))
        * Φ q ∂(pathLaw K ys.length (t + 1) (Function.update p (t + 1) x)) := by
      have h3 : Measurable fun p => ∫⁻ q, ENNReal.ofReal (Real.exp (logRatio (fun t x x' => lf t x x' - lf₀ t x x') lg ys (t + 1) q))
        * Φ q ∂(pathLaw K ys.length (t + 1) p) := (hmΦ ys (t + 1)).lintegral_kernel
      exact h3.comp ((measurable_update_at (t + 1)).comp (measurable_const.prodMk measurable_id))
    have hg : Measurable fun x => ENNReal.ofReal (Real.exp (lg y (t + 1) x)) :=
      (Real.measurable_exp.comp (hlg y (t + 1))).ennreal_ofReal
    have hsec : ∀ {l : ℕ → X → X → ℝ}, (∀ t, Measurable fun z : X × X => l t z.1 z.2) → Measurable fun x' => l t (p t) x' :=
      fun hl => (hl t).comp (measurable_const.prodMk measurable_id)
    have hf : Measurable fun x' => ENNReal.ofReal (Real.exp (lf t (p t) x')) :=
      (Real.measurable_exp.comp (hsec hlf)).ennreal_ofReal
    have hf₀ : Measurable fun x' => ENNReal.ofReal (Real.exp (lf₀ t (p t) x')) :=
      (Real.measurable_exp.comp (hsec hlf₀)).ennreal_ofReal
    have hd : Measurable fun x' => ENNReal.ofReal (Real.exp (lf t (p t) x' - lf₀ t (p t) x' + lg y (t + 1) x')) :=
      (Real.measurable_exp.comp (((hsec hlf).sub (hsec hlf₀)).add (hlg y (t + 1)))).ennreal_ofReal
    have e : ∀ x, ∫⁻ q, ENNReal.ofReal (Real.exp (logRatio (fun t x x' => lf t x x' - lf₀ t x x') lg (y :: ys) t q)) * Φ q
          ∂(pathLaw K ys.length (t + 1) (Function.update p (t + 1) x))
        = ENNReal.ofReal (Real.exp (lf t (p t) x - lf₀ t (p t) x + lg y (t + 1) x)) *
          ∫⁻ q, ENNReal.ofReal (Real.exp (logRatio (fun t x x' => lf t x x' - lf₀ t x x') lg ys (t + 1) q)) * Φ q
            ∂(pathLaw K ys.length (t + 1) (Function.update p (t + 1) x)) := by
      intro x
      have hc : Measurable fun q : ℕ → X => ENNReal.ofReal (Real.exp (lf t (q t) (q (t + 1)) - lf₀ t (q t) (q (t + 1))
          + lg y (t + 1) (q (t + 1)))) := by
        have h0 : Measurable fun q : ℕ → X => (q t, q (t + 1)) :=
          (measurable_pi_apply t).prodMk (measurable_pi_apply (t + 1))
        have h1 : Measurable fun q : ℕ → X => lf t (q t) (q (t + 1)) - lf₀ t (q t) (q (t + 1)) := (hr t).comp h0
        have h2 : Measurable fun q : ℕ → X => lg y (t + 1) (q (t + 1)) := (hlg y (t + 1)).comp (measurable_pi_apply (t + 1))
        exact (Real.measurable_exp.comp (h1.add h2)).ennreal_ofReal
      have h := pathLaw_pull K ys.length (t + 1) (hmΦ ys (t + 1)) hc
        (fun p q hpq => by rw [hpq t (by omega), hpq (t + 1) le_rfl]) (Function.update p (t + 1) x)
      rw [Function.update_self, Function.update_of_ne (by omega)] at h
      rw [← h]
      refine lintegral_congr fun q => ?_
      rw [← mul_assoc, ← ENNReal.ofReal_mul (Real.exp_pos _).le, ← Real.exp_add]
      rfl
    simp only [e, ih]
    have hgA : Measurable fun x => ENNReal.ofReal (Real.exp (lg y (t + 1) x)) * ∫⁻ q, ENNReal.ofReal (Real.exp (logRatio
        (fun t x x' => lf t x x' - lf₀ t x x') lg ys (t + 1) q)) * Φ q ∂(pathLaw K ys.length (t + 1) (Function.update p (t + 1) x)) :=
      hg.mul hA
    have hdA : Measurable fun x => ENNReal.ofReal (Real.exp (lf t (p t) x - lf₀ t (p t) x + lg y (t + 1) x)) *
        ∫⁻ q, ENNReal.ofReal (Real.exp (logRatio
        (fun t x x' => lf t x x' - lf₀ t x x') lg ys (t + 1) q)) * Φ q ∂(pathLaw K ys.length (t + 1) (Function.update p (t + 1) x)) :=
      hd.mul hA
    rw [hK', hK, lintegral_withDensity_eq_lintegral_mul _ hf hgA, lintegral_withDensity_eq_lintegral_mul _ hf₀ hdA]
    refine lintegral_congr fun x => ?_
    show ENNReal.ofReal _ * (ENNReal.ofReal _ * _) = ENNReal.ofReal _ * (ENNReal.ofReal _ * _)
    rw [← mul_assoc, ← mul_assoc, ← ENNReal.ofReal_mul (Real.exp_pos _).le, ← ENNReal.ofReal_mul (Real.exp_pos _).le,
      ← Real.exp_add, ← Real.exp_add]
    congr 3
    ring

/-! ## Differentiation in a parameter -/

omit [MeasurableSpace X] in
theorem logRatio_sum (r : ℕ → X → X → ℝ) (lg : Y → ℕ → X → ℝ) (ys : List Y) : ∀ (t : ℕ) (q : ℕ → X),
    logRatio r lg ys t q = ∑ n : Fin ys.length, (r (t + n) (q (t + n)) (q (t + n + 1)) + lg ys[n] (t + n + 1) (q (t + n + 1))) := by
  induction ys with
  | nil => intro t q; rfl
  | cons y ys ih =>
    intro t q
    rw [logRatio, ih]
    show _ = ∑ n : Fin (ys.length + 1), _
    rw [Fin.sum_univ_succ]
    congr 1
    refine Finset.sum_congr rfl fun n _ => ?_
    simp only [Fin.val_succ, Fin.getElem_fin, List.getElem_cons_succ]
    rw [show t + 1 + (n : ℕ) = t + (n + 1) by omega]

omit [MeasurableSpace X] in
theorem logRatio_congr (r : ℕ → X → X → ℝ) (lg : Y → ℕ → X → ℝ) (ys : List Y) : ∀ (t : ℕ) (p q : ℕ → X),
    (∀ n ≤ t + ys.length, p n = q n) → logRatio r lg ys t p = logRatio r lg ys t q := by
  induction ys with
  | nil => intro t p q _; rfl
  | cons y ys ih =>
    intro t p q h
    rw [List.length_cons] at h
    rw [logRatio, logRatio, h t (by omega), h (t + 1) (by omega), ih (t + 1) p q fun n hn => h n (by omega)]

omit [MeasurableSpace X] in
theorem logRatio_bound {r : ℕ → X → X → ℝ} {lg : Y → ℕ → X → ℝ} {S : ℝ} (hr : ∀ t x x', |r t x x'| ≤ S)
    (hlg : ∀ y t x, |lg y t x| ≤ S) (ys : List Y) : ∀ (t : ℕ) (q : ℕ → X), |logRatio r lg ys t q| ≤ 2 * ys.length * S := by
  induction ys with
  | nil => intro t q; simp [logRatio]
  | cons y ys ih =>
    intro t q
    rw [logRatio]
    refine (abs_add_le _ _).trans ((add_le_add ((abs_add_le _ _).trans (add_le_add (hr _ _ _) (hlg _ _ _)))
      (ih (t + 1) q)).trans (le_of_eq ?_))
    rw [List.length_cons]
    push_cast
    ring

omit [MeasurableSpace X] in
theorem logRatio_le {lg : Y → ℕ → X → ℝ} {c : Y → ℝ} (hc : ∀ y t x, lg y t x ≤ c y) {r : ℕ → X → X → ℝ}
    (hr : ∀ t x x', r t x x' = 0) (ys : List Y) : ∀ (t : ℕ) (q : ℕ → X), logRatio r lg ys t q ≤ (ys.map c).sum := by
  induction ys with
  | nil => intro t q; simp [logRatio]
  | cons y ys ih =>
    intro t q
    rw [logRatio, hr, zero_add, List.map_cons, List.sum_cons]
    exact add_le_add (hc _ _ _) (ih _ _)

omit [MeasurableSpace X] in
theorem logRatio_deriv {lf : ℝ → ℕ → X → X → ℝ} {lg : ℝ → Y → ℕ → X → ℝ} {dlf : ℕ → X → X → ℝ} {dlg : Y → ℕ → X → ℝ}
    (lf₀ : ℕ → X → X → ℝ) {θ : ℝ}
    (hf : ∀ t x x', HasDerivAt (fun θ => lf θ t x x') (dlf t x x') θ)
    (hg : ∀ y t x, HasDerivAt (fun θ => lg θ y t x) (dlg y t x) θ) (ys : List Y) : ∀ (t : ℕ) (q : ℕ → X),
    HasDerivAt (fun θ => logRatio (fun t x x' => lf θ t x x' - lf₀ t x x') (lg θ) ys t q) (logRatio dlf dlg ys t q) θ := by
  induction ys with
  | nil => intro t q; exact hasDerivAt_const θ 0
  | cons y ys ih =>
    intro t q
    exact (((hf t _ _).sub_const _).add (hg y _ _)).add (ih (t + 1) q)

/-- A derivative is measurable in further arguments. -/
theorem measurable_deriv_of {Z : Type} [MeasurableSpace Z] {f : ℝ → Z → ℝ} (hf : ∀ θ, Measurable (f θ)) {f' : Z → ℝ} {θ : ℝ}
    (h : ∀ z, HasDerivAt (fun θ => f θ z) (f' z) θ) : Measurable f' := by
  refine measurable_of_tendsto_metrizable (f := fun (n : ℕ) z => ((1 : ℝ) / (n + 1))⁻¹ * (f (θ + 1 / (n + 1)) z - f θ z))
    (fun n => ((hf _).sub (hf θ)).const_mul _) ?_
  rw [tendsto_pi_nhds]
  intro z
  have h1 := (hasDerivAt_iff_tendsto_slope_zero.1 (h z))
  have h2 : Filter.Tendsto (fun n : ℕ => (1 : ℝ) / (n + 1)) Filter.atTop (𝓝[≠] 0) := by
    rw [tendsto_nhdsWithin_iff]
    exact ⟨tendsto_one_div_add_atTop_nhds_zero_nat, Filter.Eventually.of_forall fun n => (by positivity : (0 : ℝ) < 1 / (n + 1)).ne'⟩
  exact h1.comp h2

/-- The logarithm of the joint density of a path and the observations, against the law of the path for the parameter `θ₀`. -/
def logWeight (li : ℝ → X → ℝ) (lf : ℝ → ℕ → X → X → ℝ) (lg : ℝ → Y → ℕ → X → ℝ) (θ₀ : ℝ) (ys : List Y) (θ : ℝ) (q : ℕ → X) : ℝ :=
  li θ (q 0) - li θ₀ (q 0) + logRatio (fun t x x' => lf θ t x x' - lf θ₀ t x x') (lg θ) ys 0 q

/-- The law of a path from the beginning. -/
noncomputable def fullLaw (K : ℕ → Kernel X X) (μ : Measure X) (n : ℕ) : Measure (ℕ → X) :=
  μ.bind fun x => pathLaw K n 0 fun _ => x

theorem measurable_start (n : ℕ) : Measurable fun x : X => pathLaw K n 0 fun _ => x :=
  (Kernel.measurable _).comp (measurable_pi_iff.2 fun _ => measurable_id)

theorem fullLaw_lintegral (μ : Measure X) (n : ℕ) {Φ : (ℕ → X) → ℝ≥0∞} (hΦ : Measurable Φ) :
    ∫⁻ q, Φ q ∂(fullLaw K μ n) = ∫⁻ x, ∫⁻ q, Φ q ∂(pathLaw K n 0 fun _ => x) ∂μ := by
  unfold fullLaw
  rw [Measure.lintegral_bind (measurable_start K n).aemeasurable hΦ.aemeasurable]

instance fullLaw_prob (μ : Measure X) [IsProbabilityMeasure μ] (n : ℕ) : IsProbabilityMeasure (fullLaw K μ n) := by
  refine ⟨?_⟩
  have := fullLaw_lintegral K μ n (Φ := fun _ => 1) measurable_const
  simpa using this

variable {lam₀ lam : Measure X} {μ : ℝ → Measure X} {K : ℝ → ℕ → Kernel X X} {li : ℝ → X → ℝ}
    {lf : ℝ → ℕ → X → X → ℝ} {lg : ℝ → Y → ℕ → X → ℝ} {dli : ℝ → X → ℝ} {dlf : ℝ → ℕ → X → X → ℝ} {dlg : ℝ → Y → ℕ → X → ℝ}
    {θ₀ ε S : ℝ}

theorem measurable_logWeight (h : SmoothModel lam₀ lam μ K li lf lg dli dlf dlg θ₀ ε S) (ys : List Y) (θ : ℝ) :
    Measurable (logWeight li lf lg θ₀ ys θ) := by
  have h1 : Measurable fun q : ℕ → X => li θ (q 0) - li θ₀ (q 0) :=
    ((h.measurable_init θ).sub (h.measurable_init θ₀)).comp (measurable_pi_apply 0)
  exact h1.add (measurable_logRatio (fun t => (h.measurable_trans θ t).sub (h.measurable_trans θ₀ t)) (h.measurable_obs θ) ys 0)

/-- Averages over paths in the model with parameter `θ`. -/
theorem average_eq (h : SmoothModel lam₀ lam μ K li lf lg dli dlf dlg θ₀ ε S) [∀ t, IsMarkovKernel (K θ₀ t)]
    (ys : List Y) (θ : ℝ) {Φ : (ℕ → X) → ℝ≥0∞} (hΦ : Measurable Φ) :
    ∫⁻ x, pathAvg (K θ) (fun y t x => ENNReal.ofReal (Real.exp (lg θ y t x))) Φ (ys.map some) 0 (fun _ => x) ∂(μ θ)
      = ∫⁻ q, ENNReal.ofReal (Real.exp (logWeight li lf lg θ₀ ys θ q)) * Φ q ∂(fullLaw (K θ₀) (μ θ₀) ys.length) := by
  have hR : Measurable (logRatio (fun t x x' => lf θ t x x' - lf θ₀ t x x') (lg θ) ys 0) :=
    measurable_logRatio (fun t => (h.measurable_trans θ t).sub (h.measurable_trans θ₀ t)) (h.measurable_obs θ) ys 0
  have hRΦ : Measurable fun q => ENNReal.ofReal (Real.exp (logRatio (fun t x x' => lf θ t x x' - lf θ₀ t x x') (lg θ) ys 0 q)) * Φ q :=
    (Real.measurable_exp.comp hR).ennreal_ofReal.mul hΦ
  have hW : Measurable fun q => ENNReal.ofReal (Real.exp (logWeight li lf lg θ₀ ys θ q)) * Φ q :=
    (Real.measurable_exp.comp (measurable_logWeight h ys θ)).ennreal_ofReal.mul hΦ
  have hc : Measurable fun q : ℕ → X => ENNReal.ofReal (Real.exp (li θ (q 0) - li θ₀ (q 0))) := by
    have h1 : Measurable fun q : ℕ → X => li θ (q 0) - li θ₀ (q 0) :=
      ((h.measurable_init θ).sub (h.measurable_init θ₀)).comp (measurable_pi_apply 0)
    exact (Real.measurable_exp.comp h1).ennreal_ofReal
  have hA : Measurable fun x => ∫⁻ q, ENNReal.ofReal (Real.exp (logRatio (fun t x x' => lf θ t x x' - lf θ₀ t x x') (lg θ) ys 0 q))
      * Φ q ∂(pathLaw (K θ₀) ys.length 0 fun _ => x) := by
    have h3 : Measurable fun p => ∫⁻ q, ENNReal.ofReal (Real.exp (logRatio (fun t x x' => lf θ t x x' - lf θ₀ t x x') (lg θ) ys 0 q))
      * Φ q ∂(pathLaw (K θ₀) ys.length 0 p) := hRΦ.lintegral_kernel
    have h4 : Measurable fun (x : X) (_ : ℕ) => x := measurable_pi_iff.2 fun _ => measurable_id
    exact h3.comp h4
  have hf : ∀ θ, Measurable fun x => ENNReal.ofReal (Real.exp (li θ x)) := fun θ =>
    (Real.measurable_exp.comp (h.measurable_init θ)).ennreal_ofReal
  have hd : Measurable fun x => ENNReal.ofReal (Real.exp (li θ x - li θ₀ x)) :=
    (Real.measurable_exp.comp ((h.measurable_init θ).sub (h.measurable_init θ₀))).ennreal_ofReal
  have hdA : Measurable fun x => ENNReal.ofReal (Real.exp (li θ x - li θ₀ x)) * ∫⁻ q, ENNReal.ofReal (Real.exp (logRatio
      (fun t x x' => lf θ t x x' - lf θ₀ t x x') (lg θ) ys 0 q)) * Φ q ∂(pathLaw (K θ₀) ys.length 0 fun _ => x) := hd.mul hA
  rw [fullLaw_lintegral (K θ₀) _ _ hW]
  simp only [pathAvg_ratio (K θ₀) lam (h.measurable_trans θ) (h.measurable_trans θ₀) (K θ) (h.trans θ) (h.trans θ₀)
    (h.measurable_obs θ) hΦ ys 0]
  have e : ∀ x, ∫⁻ q, ENNReal.ofReal (Real.exp (logWeight li lf lg θ₀ ys θ q)) * Φ q ∂(pathLaw (K θ₀) ys.length 0 fun _ => x)
      = ENNReal.ofReal (Real.exp (li θ x - li θ₀ x)) * ∫⁻ q, ENNReal.ofReal (Real.exp (logRatio
      (fun t x x' => lf θ t x x' - lf θ₀ t x x') (lg θ) ys 0 q)) * Φ q ∂(pathLaw (K θ₀) ys.length 0 fun _ => x) := by
    intro x
    rw [← pathLaw_pull (K θ₀) ys.length 0 hRΦ hc (fun p q hpq => by rw [hpq 0 le_rfl]) fun _ => x]
    refine lintegral_congr fun q => ?_
    rw [← mul_assoc, ← ENNReal.ofReal_mul (Real.exp_pos _).le, ← Real.exp_add]
    rfl
  simp only [e]
  rw [h.init θ, h.init θ₀, lintegral_withDensity_eq_lintegral_mul _ (hf θ) hA,
    lintegral_withDensity_eq_lintegral_mul _ (hf θ₀) hdA]
  refine lintegral_congr fun x => ?_
  show ENNReal.ofReal _ * _ = ENNReal.ofReal _ * (ENNReal.ofReal _ * _)
  rw [← mul_assoc, ← ENNReal.ofReal_mul (Real.exp_pos _).le, ← Real.exp_add]
  congr 3
  ring

theorem evidence_eq (h : SmoothModel lam₀ lam μ K li lf lg dli dlf dlg θ₀ ε S) [∀ t, IsMarkovKernel (K θ₀ t)]
    (ys : List Y) (θ : ℝ) :
    ∫⁻ x, lik (K θ) (fun y t x => ENNReal.ofReal (Real.exp (lg θ y t x))) (ys.map some) 0 x ∂(μ θ)
      = ∫⁻ q, ENNReal.ofReal (Real.exp (logWeight li lf lg θ₀ ys θ q)) ∂(fullLaw (K θ₀) (μ θ₀) ys.length) := by
  have := average_eq h ys θ (Φ := fun _ => 1) measurable_const
  simp only [mul_one] at this
  rw [← this]
  refine lintegral_congr fun x => ?_
  rw [lik_path]

/-- The derivative of the logarithm of the joint density. -/
def score (dli : ℝ → X → ℝ) (dlf : ℝ → ℕ → X → X → ℝ) (dlg : ℝ → Y → ℕ → X → ℝ) (ys : List Y) (θ : ℝ) (q : ℕ → X) : ℝ :=
  dli θ (q 0) + logRatio (dlf θ) (dlg θ) ys 0 q

theorem logWeight_deriv (h : SmoothModel lam₀ lam μ K li lf lg dli dlf dlg θ₀ ε S) (ys : List Y) {θ : ℝ} (hθ : |θ - θ₀| < ε)
    (q : ℕ → X) : HasDerivAt (fun θ => logWeight li lf lg θ₀ ys θ q) (score dli dlf dlg ys θ q) θ :=
  (((h.deriv_init θ hθ (q 0)).1).sub_const _).add (logRatio_deriv _ (fun t x x' => (h.deriv_trans θ hθ t x x').1)
    (fun y t x => (h.deriv_obs θ hθ y t x).1) ys 0 q)

theorem score_bound (h : SmoothModel lam₀ lam μ K li lf lg dli dlf dlg θ₀ ε S) (ys : List Y) {θ : ℝ} (hθ : |θ - θ₀| < ε)
    (q : ℕ → X) : |score dli dlf dlg ys θ q| ≤ (2 * ys.length + 1) * S := by
  have h1 := logRatio_bound (fun t x x' => (h.deriv_trans θ hθ t x x').2) (fun y t x => (h.deriv_obs θ hθ y t x).2) ys 0 q
  have h2 := (h.deriv_init θ hθ (q 0)).2
  refine (abs_add_le _ _).trans ((add_le_add h2 h1).trans (le_of_eq ?_))
  ring

theorem measurable_score (h : SmoothModel lam₀ lam μ K li lf lg dli dlf dlg θ₀ ε S) (hε : 0 < ε) (ys : List Y) :
    Measurable (score dli dlf dlg ys θ₀) :=
  measurable_deriv_of (measurable_logWeight h ys) fun q => logWeight_deriv h ys (by simpa using hε) q

theorem logWeight_near (h : SmoothModel lam₀ lam μ K li lf lg dli dlf dlg θ₀ ε S) (hε : 0 < ε) (ys : List Y) {θ : ℝ}
    (hθ : |θ - θ₀| < ε) (q : ℕ → X) :
    |logWeight li lf lg θ₀ ys θ q - logWeight li lf lg θ₀ ys θ₀ q| ≤ (2 * ys.length + 1) * S * ε := by
  have h0 : θ₀ ∈ Metric.ball θ₀ ε := Metric.mem_ball_self hε
  have h1 : θ ∈ Metric.ball θ₀ ε := by rwa [Metric.mem_ball, Real.dist_eq]
  have hS : 0 ≤ (2 * ys.length + 1) * S := (abs_nonneg _).trans (score_bound h ys (θ := θ₀) (by simpa using hε) q)
  have h2 := (convex_ball θ₀ ε).norm_image_sub_le_of_norm_hasDerivWithin_le (C := (2 * ys.length + 1) * S)
    (f := fun θ => logWeight li lf lg θ₀ ys θ q) (f' := fun θ => score dli dlf dlg ys θ q)
    (fun x hx => (logWeight_deriv h ys (by rwa [Metric.mem_ball, Real.dist_eq] at hx) q).hasDerivWithinAt)
    (fun x hx => score_bound h ys (by rwa [Metric.mem_ball, Real.dist_eq] at hx) q) h0 h1
  rw [Real.norm_eq_abs, Real.norm_eq_abs] at h2
  exact h2.trans (mul_le_mul_of_nonneg_left hθ.le hS)

omit [MeasurableSpace X] in
theorem logWeight_le {c : Y → ℝ} (hc : ∀ y t x, lg θ₀ y t x ≤ c y) (ys : List Y) (q : ℕ → X) :
    logWeight li lf lg θ₀ ys θ₀ q ≤ (ys.map c).sum := by
  unfold logWeight
  rw [sub_self, zero_add]
  exact logRatio_le hc (fun t x x' => sub_self _) ys 0 q

/-- Fisher's identity. -/
theorem fisher (h : SmoothModel lam₀ lam μ K li lf lg dli dlf dlg θ₀ ε S) (hε : 0 < ε) [∀ t, IsMarkovKernel (K θ₀ t)]
    [IsProbabilityMeasure (μ θ₀)] {c : Y → ℝ} (hc : ∀ y t x, lg θ₀ y t x ≤ c y) (ys : List Y) :
    0 < (∫⁻ x, lik (K θ₀) (fun y t x => ENNReal.ofReal (Real.exp (lg θ₀ y t x))) (ys.map some) 0 x ∂(μ θ₀)).toReal ∧
    HasDerivAt (fun θ => Real.log (∫⁻ x, lik (K θ) (fun y t x => ENNReal.ofReal (Real.exp (lg θ y t x))) (ys.map some) 0 x
        ∂(μ θ)).toReal)
      ((∫ q, Real.exp (logWeight li lf lg θ₀ ys θ₀ q) * score dli dlf dlg ys θ₀ q ∂(fullLaw (K θ₀) (μ θ₀) ys.length)) /
        (∫⁻ x, lik (K θ₀) (fun y t x => ENNReal.ofReal (Real.exp (lg θ₀ y t x))) (ys.map some) 0 x ∂(μ θ₀)).toReal) θ₀ := by
  have hmW : ∀ θ, Measurable fun q => Real.exp (logWeight li lf lg θ₀ ys θ q) := fun θ =>
    Real.measurable_exp.comp (measurable_logWeight h ys θ)
  have hev : ∀ θ, (∫⁻ x, lik (K θ) (fun y t x => ENNReal.ofReal (Real.exp (lg θ y t x))) (ys.map some) 0 x ∂(μ θ)).toReal
      = ∫ q, Real.exp (logWeight li lf lg θ₀ ys θ q) ∂(fullLaw (K θ₀) (μ θ₀) ys.length) := by
    intro θ
    rw [evidence_eq h ys θ, integral_eq_lintegral_of_nonneg_ae (Filter.Eventually.of_forall fun q => (Real.exp_pos _).le)
      (hmW θ).aestronglyMeasurable]
  have hint : Integrable (fun q => Real.exp (logWeight li lf lg θ₀ ys θ₀ q)) (fullLaw (K θ₀) (μ θ₀) ys.length) := by
    refine Integrable.of_bound (hmW θ₀).aestronglyMeasurable (Real.exp (ys.map c).sum) (Filter.Eventually.of_forall fun q => ?_)
    rw [Real.norm_eq_abs, abs_of_pos (Real.exp_pos _)]
    exact Real.exp_le_exp.2 (logWeight_le hc ys q)
  have hpos : 0 < ∫ q, Real.exp (logWeight li lf lg θ₀ ys θ₀ q) ∂(fullLaw (K θ₀) (μ θ₀) ys.length) := integral_exp_pos hint
  have hS : ∀ q : ℕ → X, 0 ≤ (2 * ys.length + 1) * S := fun q =>
    (abs_nonneg _).trans (score_bound h ys (θ := θ₀) (by simpa using hε) q)
  have hder := (hasDerivAt_integral_of_dominated_loc_of_deriv_le (μ := fullLaw (K θ₀) (μ θ₀) ys.length)
    (F := fun θ q => Real.exp (logWeight li lf lg θ₀ ys θ q))
    (F' := fun θ q => Real.exp (logWeight li lf lg θ₀ ys θ q) * score dli dlf dlg ys θ q)
    (bound := fun _ => Real.exp ((ys.map c).sum + (2 * ys.length + 1) * S * ε) * ((2 * ys.length + 1) * S))
    (x₀ := θ₀) (Metric.ball_mem_nhds θ₀ hε) (Filter.Eventually.of_forall fun θ => (hmW θ).aestronglyMeasurable) hint
    ((hmW θ₀).mul (measurable_score h hε ys)).aestronglyMeasurable
    (Filter.Eventually.of_forall fun q θ hθ => ?_) (integrable_const _) (Filter.Eventually.of_forall fun q θ hθ => ?_)).2
  · rw [hev]
    refine ⟨hpos, ?_⟩
    simp only [hev]
    exact hder.log hpos.ne'
  · rw [Metric.mem_ball, Real.dist_eq] at hθ
    rw [norm_mul, Real.norm_eq_abs, Real.norm_eq_abs, abs_of_pos (Real.exp_pos _)]
    refine mul_le_mul (Real.exp_le_exp.2 ?_) (score_bound h ys hθ q) (abs_nonneg _) (Real.exp_pos _).le
    have h1 := (abs_le.1 (logWeight_near h hε ys hθ q)).2
    have h2 := logWeight_le (li := li) (lf := lf) hc ys q
    linarith
  · rw [Metric.mem_ball, Real.dist_eq] at hθ
    exact (logWeight_deriv h ys hθ q).exp

/-- A path that is known up to some time, continued arbitrarily. -/
def extendPath {n : ℕ} (p : Fin (n + 1) → X) : ℕ → X := fun m => if h : m < n + 1 then p ⟨m, h⟩ else p 0

theorem measurable_extendPath {n : ℕ} : Measurable (extendPath (X := X) (n := n)) := by
  refine measurable_pi_iff.2 fun m => ?_
  unfold extendPath
  by_cases h : m < n + 1
  · simp only [h, dite_true]
    exact measurable_pi_apply _
  · simp only [h, dite_false]
    exact measurable_pi_apply _

omit [MeasurableSpace X] in
theorem score_congr (ys : List Y) (θ : ℝ) (p q : ℕ → X) (h : ∀ n ≤ ys.length, p n = q n) :
    score dli dlf dlg ys θ p = score dli dlf dlg ys θ q := by
  unfold score
  rw [h 0 (Nat.zero_le _), logRatio_congr _ _ ys 0 p q (by simpa using h)]

omit [MeasurableSpace X] in
theorem score_extend (ys : List Y) (θ : ℝ) {n : ℕ} (hn : n = ys.length) (p : ℕ → X) :
    score dli dlf dlg ys θ (extendPath fun m : Fin (n + 1) => p m) = score dli dlf dlg ys θ p := by
  refine score_congr ys θ _ _ fun m hm => ?_
  unfold extendPath
  rw [dif_pos (by omega)]

/-- The average of the score over the smoothing distribution is the derivative of the log-likelihood. -/
theorem smoothing_score (h : SmoothModel lam₀ lam μ K li lf lg dli dlf dlg θ₀ ε S) (hε : 0 < ε) [∀ t, IsMarkovKernel (K θ₀ t)]
    [IsProbabilityMeasure (μ θ₀)] {c : Y → ℝ} (hc : ∀ y t x, lg θ₀ y t x ≤ c y) (ys : List Y) {C : ℝ} (hC : 0 < C)
    (hSC : (2 * ys.length + 1) * S ≤ C) (os : List (Option Y)) (hos : os = ys.map some) :
    (smoothingAvg (K θ₀) (fun y t x => ENNReal.ofReal (Real.exp (lg θ₀ y t x))) (μ θ₀) os fun p =>
        ENNReal.ofReal ((score dli dlf dlg ys θ₀ (extendPath p) + C) / (2 * C))).toReal
      = ((∫ q, Real.exp (logWeight li lf lg θ₀ ys θ₀ q) * score dli dlf dlg ys θ₀ q ∂(fullLaw (K θ₀) (μ θ₀) ys.length)) /
        (∫⁻ x, lik (K θ₀) (fun y t x => ENNReal.ofReal (Real.exp (lg θ₀ y t x))) (ys.map some) 0 x ∂(μ θ₀)).toReal + C)
        / (2 * C) := by
  have hpos := (fisher h hε hc ys).1
  have hmW : Measurable fun q => Real.exp (logWeight li lf lg θ₀ ys θ₀ q) :=
    Real.measurable_exp.comp (measurable_logWeight h ys θ₀)
  have hms := measurable_score h hε ys
  have hb : ∀ q, |score dli dlf dlg ys θ₀ q| ≤ C := fun q => (score_bound h ys (by simpa using hε) q).trans hSC
  have hlen : os.length = ys.length := by rw [hos, List.length_map]
  have hmΦ : Measurable fun q => ENNReal.ofReal ((score dli dlf dlg ys θ₀ q + C) / (2 * C)) :=
    ((hms.add_const C).div_const _).ennreal_ofReal
  unfold smoothingAvg
  simp only [score_extend ys θ₀ hlen]
  rw [hos, average_eq h ys θ₀ hmΦ, ENNReal.toReal_div]
  have hint : ∀ f : (ℕ → X) → ℝ, Measurable f → (∀ q, |f q| ≤ C) →
      Integrable (fun q => Real.exp (logWeight li lf lg θ₀ ys θ₀ q) * f q) (fullLaw (K θ₀) (μ θ₀) ys.length) := by
    intro f hf hfC
    refine Integrable.of_bound (hmW.mul hf).aestronglyMeasurable (Real.exp (ys.map c).sum * C)
      (Filter.Eventually.of_forall fun q => ?_)
    rw [norm_mul, Real.norm_eq_abs, abs_of_pos (Real.exp_pos _)]
    exact mul_le_mul (Real.exp_le_exp.2 (logWeight_le hc ys q)) (hfC q) (abs_nonneg _) (Real.exp_pos _).le
  have hnn : ∀ q, 0 ≤ (score dli dlf dlg ys θ₀ q + C) / (2 * C) := fun q =>
    div_nonneg (by linarith [(abs_le.1 (hb q)).1]) (by linarith)
  have e1 : (∫⁻ q, ENNReal.ofReal (Real.exp (logWeight li lf lg θ₀ ys θ₀ q)) *
      ENNReal.ofReal ((score dli dlf dlg ys θ₀ q + C) / (2 * C)) ∂(fullLaw (K θ₀) (μ θ₀) ys.length)).toReal
      = ((∫ q, Real.exp (logWeight li lf lg θ₀ ys θ₀ q) * score dli dlf dlg ys θ₀ q ∂(fullLaw (K θ₀) (μ θ₀) ys.length)) +
        ∫ q, Real.exp (logWeight li lf lg θ₀ ys θ₀ q) * C ∂(fullLaw (K θ₀) (μ θ₀) ys.length)) / (2 * C) := by
    have hm : Measurable fun q => (Real.exp (logWeight li lf lg θ₀ ys θ₀ q) * score dli dlf dlg ys θ₀ q
        + Real.exp (logWeight li lf lg θ₀ ys θ₀ q) * C) / (2 * C) :=
      ((hmW.mul hms).add (hmW.mul measurable_const)).div_const _
    rw [← integral_add (hint _ hms hb) (hint _ measurable_const fun _ => (abs_of_pos hC).le), ← integral_div,
      integral_eq_lintegral_of_nonneg_ae (Filter.Eventually.of_forall fun q => ?_) hm.aestronglyMeasurable]
    · congr 1
      refine lintegral_congr fun q => ?_
      rw [← ENNReal.ofReal_mul (Real.exp_pos _).le]
      congr 1
      ring
    · have h1 := mul_nonneg (Real.exp_pos (logWeight li lf lg θ₀ ys θ₀ q)).le (hnn q)
      show 0 ≤ (Real.exp (logWeight li lf lg θ₀ ys θ₀ q) * score dli dlf dlg ys θ₀ q
        + Real.exp (logWeight li lf lg θ₀ ys θ₀ q) * C) / (2 * C)
      refine h1.trans (le_of_eq ?_)
      ring
  have e2 : ∫ q, Real.exp (logWeight li lf lg θ₀ ys θ₀ q) ∂(fullLaw (K θ₀) (μ θ₀) ys.length)
      = (∫⁻ x, lik (K θ₀) (fun y t x => ENNReal.ofReal (Real.exp (lg θ₀ y t x))) (ys.map some) 0 x ∂(μ θ₀)).toReal := by
    rw [evidence_eq h ys θ₀, integral_eq_lintegral_of_nonneg_ae (Filter.Eventually.of_forall fun q => (Real.exp_pos _).le)
      hmW.aestronglyMeasurable]
  rw [e1, integral_mul_const, e2]
  field_simp

end Verif.Fisher
