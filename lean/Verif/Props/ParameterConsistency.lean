import Verif.Lemmas.FirstUpdate
import Verif.Lemmas.SisrBound
import Verif.Spec.Efficiency
import Mathlib.Probability.Independence.InfinitePi
import Verif.Props.SequentialImportance
import Verif.Props.PmmhConverges

/-!
# C125, C126: many parameter particles
-/

namespace Verif.Props

open Verif Verif.Spec Verif.Mcmc Verif.Seq Verif.SeqImportance Verif.PmmhFilter Verif.Unbiased Verif.ImportanceLaw XF
open MeasureTheory ProbabilityTheory Filter
open scoped ENNReal Topology

section
variable {c : Priors.Registry} {e : ℕ} {E Y Ω W : Type} {K : ℕ → Type} [MeasurableSpace E] [MeasurableSpace Ω]
variable {P : Measure Ω} [IsProbabilityMeasure P] {f : Builder (∀ i, Fin (c.numel i) → ℝ) e E Y Ω} {n : ℕ}
  {μ : (∀ i, Fin (c.numel i) → ℝ) → Measure (Fin e → E)}
  {kernel : (∀ i, Fin (c.numel i) → ℝ) → ℕ → Kernel (Fin e → E) (Fin e → E)}
  {logg : (∀ i, Fin (c.numel i) → ℝ) → Y → ℕ → (Fin e → E) → ℝ}

theorem measurable_jointPrior (hs : PmmhSetup P f n μ kernel logg) : Measurable (jointPrior c) := by
  unfold jointPrior
  exact Finset.measurable_prod _ fun i _ => ((hs.measurable_prior i).comp (measurable_pi_apply i)).ennreal_ofReal

/-- The prior is a probability measure if it is the law of the parameters of a particle. -/
theorem prior_probability {Ξ : Type} [MeasurableSpace Ξ] {law : Measure Ξ} [IsProbabilityMeasure law] {D : Type}
    [MeasurableSpace D] {prior : Measure D} {X : Ξ → D × Ω} (hX : Measurable X) (h : law.map X = prior.prod P) :
    IsProbabilityMeasure prior := by
  have h1 : IsProbabilityMeasure (law.map X) := Measure.isProbabilityMeasure_map hX.aemeasurable
  rw [h] at h1
  have h2 := h1.measure_univ
  have h3 : (prior.prod P) Set.univ = prior Set.univ * P Set.univ := by
    rw [← Set.univ_prod_univ, Measure.prod_prod]
  rw [h3, measure_univ (μ := P), mul_one] at h2
  exact ⟨h2⟩

/-- Prior times likelihood, in terms of the posterior. -/
theorem prior_likelihood (hs : PmmhSetup P f n μ kernel logg) (ys : List Y)
    (h0 : evidence c (likelihood f.opt.observeEveryStep f.missing μ kernel logg ys) ≠ 0)
    (hfin : evidence c (likelihood f.opt.observeEveryStep f.missing μ kernel logg ys) ≠ ∞) :
    ((volume.restrict (space c)).withDensity (jointPrior c)).withDensity
        (likelihood f.opt.observeEveryStep f.missing μ kernel logg ys)
      = evidence c (likelihood f.opt.observeEveryStep f.missing μ kernel logg ys) •
        posterior c (likelihood f.opt.observeEveryStep f.missing μ kernel logg ys) := by
  obtain ⟨R, hR, -, h2⟩ := loglik_estimate hs 0 0 ys
  have hmR : Measurable fun q : (∀ i, Fin (c.numel i) → ℝ) × Ω => ENNReal.ofReal (Real.exp (R q)) :=
    (Real.measurable_exp.comp hR).ennreal_ofReal
  have hl : Measurable (likelihood f.opt.observeEveryStep f.missing μ kernel logg ys) := by
    rw [← funext h2]
    exact hmR.lintegral_prod_right'
  unfold posterior
  rw [smul_smul, ENNReal.mul_inv_cancel h0 hfin, one_smul, ← withDensity_mul _ (measurable_jointPrior hs) hl]
  rfl

/-- **C125.** The parameter particles are independent draws from the prior, each with its own random numbers. While
no update has happened, the average of the weights tends to the evidence of the observations so far, as the number
of parameter particles grows. The number of state particles stays fixed. -/
theorem C125_evidence (hs : PmmhSetup P f n μ kernel logg) (lo eps : ℝ) (ys : List Y)
    (cbs : ∀ S, List (Callback (S + 1) c.dim Y Ω W)) (hb : ∀ S, ∀ cb ∈ cbs S, Benign cb)
    (hk : ∀ S, ∀ cb ∈ cbs S, KeepsFinite cb) (algo : ∀ S, Algo (S + 1) c.dim Y Ω (K S))
    {Ξ : Type} [MeasurableSpace Ξ] (law : Measure Ξ) [IsProbabilityMeasure law]
    (drawn : ℕ → Ξ → Row c.dim) (noise : ℕ → Ξ → Ω)
    (hmeas : ∀ i, Measurable fun ξ => (c.unstack (drawn i ξ) false, noise i ξ))
    (hind : Pairwise fun i j => IndepFun (fun ξ => (c.unstack (drawn i ξ) false, noise i ξ))
      (fun ξ => (c.unstack (drawn j ξ) false, noise j ξ)) law)
    (hlaw : ∀ i, law.map (fun ξ => (c.unstack (drawn i ξ) false, noise i ξ))
      = ((volume.restrict (space c)).withDensity (jointPrior c)).prod P)
    (draws : ∀ S, Ξ → List (Y × StepDraws (S + 1) c.dim Ω)) (hys : ∀ S ξ, (draws S ξ).map Prod.fst = ys)
    (hfin : evidence c (likelihood f.opt.observeEveryStep f.missing μ kernel logg ys) ≠ ∞) :
    let a := fun S ξ => run (f.env lo eps) (cbs S)
      (init (f.env lo eps) (algo S) n (fun i => drawn i ξ) none fun i => noise i ξ) (draws S ξ)
    (∀ᵐ ξ ∂law, ∀ᶠ S in atTop, (a S ξ).2.2.2 = none ∧ ∀ e ∈ (a S ξ).2.2.1, e = .kept) →
    ∀ᵐ ξ ∂law, Tendsto (fun S : ℕ => (∑ i, expMass ((a S ξ).1.obj.w i)) / ((S : ℝ) + 1)) atTop
      (𝓝 (evidence c (likelihood f.opt.observeEveryStep f.missing μ kernel logg ys)).toReal) := by
  intro a hkept
  have hprob := prior_probability (hmeas 0) (hlaw 0)
  obtain ⟨R, hR, h1, h2⟩ := loglik_estimate hs lo eps ys
  have hG : Measurable fun q : (∀ i, Fin (c.numel i) → ℝ) × Ω => Real.exp (R q) := Real.measurable_exp.comp hR
  have hev : ∫⁻ q, ENNReal.ofReal (Real.exp (R q)) ∂(((volume.restrict (space c)).withDensity (jointPrior c)).prod P)
      = evidence c (likelihood f.opt.observeEveryStep f.missing μ kernel logg ys) := by
    rw [lintegral_prod _ hG.ennreal_ofReal.aemeasurable]
    simp only [h2]
    have hl : Measurable (likelihood f.opt.observeEveryStep f.missing μ kernel logg ys) := by
      rw [← funext h2]
      exact hG.ennreal_ofReal.lintegral_prod_right'
    rw [lintegral_withDensity_eq_lintegral_mul _ (measurable_jointPrior hs) hl]
    rfl
  have hi : Integrable (fun q => Real.exp (R q)) (((volume.restrict (space c)).withDensity (jointPrior c)).prod P) :=
    ⟨hG.aestronglyMeasurable, by
      rw [hasFiniteIntegral_iff_ofReal (Eventually.of_forall fun q => (Real.exp_pos _).le), hev]
      exact lt_top_iff_ne_top.2 hfin⟩
  have hint : ∫ q, Real.exp (R q) ∂(((volume.restrict (space c)).withDensity (jointPrior c)).prod P)
      = (evidence c (likelihood f.opt.observeEveryStep f.missing μ kernel logg ys)).toReal := by
    rw [integral_eq_lintegral_of_nonneg_ae (Eventually.of_forall fun q => (Real.exp_pos _).le) hG.aestronglyMeasurable,
      hev]
  have hav := averages hmeas hind hlaw hG hi
  rw [hint] at hav
  filter_upwards [hav, hkept] with ξ h3 h4
  refine h3.congr' ?_
  filter_upwards [h4] with S hS
  have hu := untouched_run (f.env lo eps) (cbs S) (hb S) (hk S) (finite_likelihoods hs lo eps) (algo S)
    (fun i => drawn i ξ) (fun i => noise i ξ) (draws S ξ) hS.1 hS.2
  congr 1
  refine Finset.sum_congr rfl fun i _ => ?_
  obtain ⟨ω, g0, g1⟩ := hu.res i
  show _ = expMass ((run _ _ _ _).1.obj.w i)
  rw [hu.weight, g1, hys, h1, g0]
  rfl

/-- **C125.** The weighted average of a function of the parameters tends to its mean under the posterior, as the number
of parameter particles grows. The number of state particles stays fixed: the error of the filters averages out. -/
theorem C125_posterior (hs : PmmhSetup P f n μ kernel logg) (lo eps : ℝ) (ys : List Y)
    (cbs : ∀ S, List (Callback (S + 1) c.dim Y Ω W)) (hb : ∀ S, ∀ cb ∈ cbs S, Benign cb)
    (hk : ∀ S, ∀ cb ∈ cbs S, KeepsFinite cb) (algo : ∀ S, Algo (S + 1) c.dim Y Ω (K S))
    {Ξ : Type} [MeasurableSpace Ξ] (law : Measure Ξ) [IsProbabilityMeasure law]
    (drawn : ℕ → Ξ → Row c.dim) (noise : ℕ → Ξ → Ω)
    (hmeas : ∀ i, Measurable fun ξ => (c.unstack (drawn i ξ) false, noise i ξ))
    (hind : Pairwise fun i j => IndepFun (fun ξ => (c.unstack (drawn i ξ) false, noise i ξ))
      (fun ξ => (c.unstack (drawn j ξ) false, noise j ξ)) law)
    (hlaw : ∀ i, law.map (fun ξ => (c.unstack (drawn i ξ) false, noise i ξ))
      = ((volume.restrict (space c)).withDensity (jointPrior c)).prod P)
    (draws : ∀ S, Ξ → List (Y × StepDraws (S + 1) c.dim Ω)) (hys : ∀ S ξ, (draws S ξ).map Prod.fst = ys)
    (hfin : evidence c (likelihood f.opt.observeEveryStep f.missing μ kernel logg ys) ≠ ∞)
    (φ : (∀ i, Fin (c.numel i) → ℝ) → ℝ) (hφ : Measurable φ)
    (hint : Integrable φ (posterior c (likelihood f.opt.observeEveryStep f.missing μ kernel logg ys))) :
    let a := fun S ξ => run (f.env lo eps) (cbs S)
      (init (f.env lo eps) (algo S) n (fun i => drawn i ξ) none fun i => noise i ξ) (draws S ξ)
    (∀ᵐ ξ ∂law, ∀ᶠ S in atTop, (a S ξ).2.2.2 = none ∧ ∀ e ∈ (a S ξ).2.2.1, e = .kept) →
    ∀ᵐ ξ ∂law, ∃ p : ∀ S, Fin (S + 1) → ℝ,
      (∀ᶠ S in atTop, ∀ i, (normalize1 lo (a S ξ).1.obj.w).2 i = fin (p S i)) ∧
      Tendsto (fun S => ∑ i, p S i * φ (c.unstack ((a S ξ).1.sys.params i) false)) atTop
        (𝓝 (∫ θ, φ θ ∂posterior c (likelihood f.opt.observeEveryStep f.missing μ kernel logg ys))) := by
  intro a hkept
  have hprob := prior_probability (hmeas 0) (hlaw 0)
  have hmass : ∫⁻ θ in space c, jointPrior c θ ≠ 0 := by
    have := hprob.measure_univ
    rw [withDensity_apply _ MeasurableSet.univ, setLIntegral_univ] at this
    rw [this]
    exact one_ne_zero
  have h0 := evidence_ne_zero hs ys hmass
  set Z := evidence c (likelihood f.opt.observeEveryStep f.missing μ kernel logg ys) with hZ
  obtain ⟨R, hR, h1, h2⟩ := loglik_estimate hs lo eps ys
  have hG : Measurable fun q : (∀ i, Fin (c.numel i) → ℝ) × Ω => Real.exp (R q) := Real.measurable_exp.comp hR
  have hpl := prior_likelihood hs ys h0 hfin
  have hint' : Integrable φ (((volume.restrict (space c)).withDensity (jointPrior c)).withDensity
      fun θ => ∫⁻ ω, ENNReal.ofReal (Real.exp (R (θ, ω))) ∂P) := by
    simp only [h2]
    rw [hpl]
    exact hint.smul_measure hfin
  obtain ⟨g1, g2⟩ := weighted (P := P) hG (fun q => (Real.exp_pos _).le) hφ hint'
  have g3 : ∫ q, Real.exp (R q) * φ q.1 ∂(((volume.restrict (space c)).withDensity (jointPrior c)).prod P)
      = Z.toReal * ∫ θ, φ θ ∂posterior c (likelihood f.opt.observeEveryStep f.missing μ kernel logg ys) := by
    rw [g2]
    simp only [h2]
    rw [hpl, integral_smul_measure, smul_eq_mul]
  have hF : Measurable fun q : (∀ i, Fin (c.numel i) → ℝ) × Ω => Real.exp (R q) * φ q.1 :=
    hG.mul (hφ.comp measurable_fst)
  have hav := averages hmeas hind hlaw hF g1
  rw [g3] at hav
  have hev := C125_evidence hs lo eps ys cbs hb hk algo law drawn noise hmeas hind hlaw draws hys hfin hkept
  have hZr : Z.toReal ≠ 0 := (ENNReal.toReal_pos h0 hfin).ne'
  filter_upwards [hav, hev, hkept] with ξ h3 h4 h5
  refine ⟨fun S i => expMass ((a S ξ).1.obj.w i) / ∑ j, expMass ((a S ξ).1.obj.w j), ?_, ?_⟩
  · filter_upwards [h5] with S hS i
    have hu := untouched_run (f.env lo eps) (cbs S) (hb S) (hk S) (finite_likelihoods hs lo eps) (algo S)
      (fun i => drawn i ξ) (fun i => noise i ξ) (draws S ξ) hS.1 hS.2
    have hw : ∀ i, ∃ r, (a S ξ).1.obj.w i = fin r := by
      intro i
      obtain ⟨ω, g0, g1⟩ := hu.res i
      exact ⟨_, by rw [show (a S ξ).1.obj.w i = _ from hu.weight i, g1, hys, h1]⟩
    have hm : ∀ i, mass lo ((a S ξ).1.obj.w i) = expMass ((a S ξ).1.obj.w i) := by
      intro i
      obtain ⟨r, hr⟩ := hw i
      rw [hr]
      rfl
    have := normalize1_usable lo (a S ξ).1.obj.w ⟨0, by obtain ⟨r, hr⟩ := hw 0; rw [hr]; trivial⟩ i
    rw [this]
    simp only [hm]
  · have hlim := h3.div h4 hZr
    rw [mul_div_cancel_left₀ _ hZr] at hlim
    refine hlim.congr' ?_
    filter_upwards [h5] with S hS
    have hu := untouched_run (f.env lo eps) (cbs S) (hb S) (hk S) (finite_likelihoods hs lo eps) (algo S)
      (fun i => drawn i ξ) (fun i => noise i ξ) (draws S ξ) hS.1 hS.2
    have hw : ∀ i : Fin (S + 1), expMass ((a S ξ).1.obj.w i) = Real.exp (R (c.unstack (drawn i ξ) false, noise i ξ)) := by
      intro i
      obtain ⟨ω, g0, g1⟩ := hu.res i
      rw [show (a S ξ).1.obj.w i = _ from hu.weight i, g1, hys, h1, g0]
      rfl
    have hpar : ∀ i : Fin (S + 1), (a S ξ).1.sys.params i = drawn i ξ := fun i =>
      congrFun (congrArg Sys.params hu.sys) i
    have hS1 : ((S : ℝ) + 1) ≠ 0 := by positivity
    show (∑ i : Fin (S + 1), Real.exp (R _) * φ _) / ((S : ℝ) + 1) / ((∑ i, expMass _) / ((S : ℝ) + 1)) = _
    rw [div_div_div_cancel_right₀ hS1, Finset.sum_div]
    refine Finset.sum_congr rfl fun i _ => ?_
    rw [hw i, hpar i]
    ring

/-- The likelihood estimate that a filter with these parameters and this generator makes of the observations. -/
noncomputable def likEstimate (f : Builder (∀ i, Fin (c.numel i) → ℝ) e E Y Ω) (lo eps : ℝ) (n : ℕ) (ys : List Y)
    (u : Row c.dim) (ω : Ω) : ℝ :=
  expMass ((f.env lo eps).loglik (batchFilter n ⟨u, u⟩ ys fun _ => ω))

theorem estimates_exist (hs : PmmhSetup P f n μ kernel logg) (lo eps : ℝ) :
    ∃ R : List Y → (∀ i, Fin (c.numel i) → ℝ) × Ω → ℝ, (∀ ys, Measurable (R ys)) ∧
      Estimates (f.env lo eps) n (fun ys u ω => R ys (c.unstack u false, ω)) ∧
      ∀ ys u ω, likEstimate f lo eps n ys u ω = Real.exp (R ys (c.unstack u false, ω)) := by
  choose R hR h1 h2 using fun ys => loglik_estimate hs lo eps ys
  refine ⟨R, hR, fun u ys ω => h1 ys u u ω, fun ys u ω => ?_⟩
  unfold likEstimate
  rw [h1]
  rfl

/-- The recorded effective sample sizes of untouched runs. -/
theorem essAt_limit (hs : PmmhSetup P f n μ kernel logg) (lo eps : ℝ) (ys : List Y)
    {Ξ : Type} [MeasurableSpace Ξ] (law : Measure Ξ) [IsProbabilityMeasure law]
    (drawn : ℕ → Ξ → Row c.dim) (noise : ℕ → Ξ → Ω)
    (hmeas : ∀ i, Measurable fun ξ => (c.unstack (drawn i ξ) false, noise i ξ))
    (hind : Pairwise fun i j => IndepFun (fun ξ => (c.unstack (drawn i ξ) false, noise i ξ))
      (fun ξ => (c.unstack (drawn j ξ) false, noise j ξ)) law)
    (hlaw : ∀ i, law.map (fun ξ => (c.unstack (drawn i ξ) false, noise i ξ))
      = ((volume.restrict (space c)).withDensity (jointPrior c)).prod P)
    (R : List Y → (∀ i, Fin (c.numel i) → ℝ) × Ω → ℝ) (hR : ∀ ys, Measurable (R ys))
    (hest : ∀ ys u ω, likEstimate f lo eps n ys u ω = Real.exp (R ys (c.unstack u false, ω)))
    (hfin : ∫⁻ ξ, ENNReal.ofReal (likEstimate f lo eps n ys (drawn 0 ξ) (noise 0 ξ)) ∂law ≠ ∞) :
    ∀ᵐ ξ ∂law, Tendsto (fun S : ℕ => essAt (P := S + 1) (fun ys u ω => R ys (c.unstack u false, ω))
        (fun i => drawn i ξ) (fun i => noise i ξ) ys / ((S : ℝ) + 1)) atTop
      (𝓝 (efficiency law fun ξ => ENNReal.ofReal (likEstimate f lo eps n ys (drawn 0 ξ) (noise 0 ξ))).toReal) := by
  have hprob := prior_probability (hmeas 0) (hlaw 0)
  have hG : Measurable fun q : (∀ i, Fin (c.numel i) → ℝ) × Ω => Real.exp (R ys q) := Real.measurable_exp.comp (hR ys)
  have m1 : Measurable fun q : (∀ i, Fin (c.numel i) → ℝ) × Ω => ENNReal.ofReal (Real.exp (R ys q)) := hG.ennreal_ofReal
  have m2 : Measurable fun q : (∀ i, Fin (c.numel i) → ℝ) × Ω => ENNReal.ofReal (Real.exp (R ys q)) ^ 2 := m1.pow_const 2
  have e1 : ∫⁻ q, ENNReal.ofReal (Real.exp (R ys q)) ∂(((volume.restrict (space c)).withDensity (jointPrior c)).prod P)
      = ∫⁻ ξ, ENNReal.ofReal (likEstimate f lo eps n ys (drawn 0 ξ) (noise 0 ξ)) ∂law := by
    rw [← hlaw 0, lintegral_map m1 (hmeas 0)]
    simp only [hest]
  have e2 : ∫⁻ q, ENNReal.ofReal (Real.exp (R ys q)) ^ 2
        ∂(((volume.restrict (space c)).withDensity (jointPrior c)).prod P)
      = ∫⁻ ξ, ENNReal.ofReal (likEstimate f lo eps n ys (drawn 0 ξ) (noise 0 ξ)) ^ 2 ∂law := by
    rw [← hlaw 0, lintegral_map m2 (hmeas 0)]
    simp only [hest]
  have h := ess_limit hmeas hind hlaw hG (fun q => Real.exp_pos _) (by rw [e1]; exact hfin)
  rw [e1, e2] at h
  exact h

/-- **C126.** While no update has happened, the recorded effective sample size, relative to the number of parameter
particles, tends to the squared mean over the mean square of the likelihood estimate of one particle (to zero if the
mean square is infinite). -/
theorem C126_ess (hs : PmmhSetup P f n μ kernel logg) (lo eps : ℝ) (ys : List Y)
    (cbs : ∀ S, List (Callback (S + 1) c.dim Y Ω W)) (hb : ∀ S, ∀ cb ∈ cbs S, Benign cb)
    (hk : ∀ S, ∀ cb ∈ cbs S, KeepsFinite cb) (algo : ∀ S, Algo (S + 1) c.dim Y Ω (K S))
    {Ξ : Type} [MeasurableSpace Ξ] (law : Measure Ξ) [IsProbabilityMeasure law]
    (drawn : ℕ → Ξ → Row c.dim) (noise : ℕ → Ξ → Ω)
    (hmeas : ∀ i, Measurable fun ξ => (c.unstack (drawn i ξ) false, noise i ξ))
    (hind : Pairwise fun i j => IndepFun (fun ξ => (c.unstack (drawn i ξ) false, noise i ξ))
      (fun ξ => (c.unstack (drawn j ξ) false, noise j ξ)) law)
    (hlaw : ∀ i, law.map (fun ξ => (c.unstack (drawn i ξ) false, noise i ξ))
      = ((volume.restrict (space c)).withDensity (jointPrior c)).prod P)
    (draws : ∀ S, Ξ → List (Y × StepDraws (S + 1) c.dim Ω)) (hys : ∀ S ξ, (draws S ξ).map Prod.fst = ys)
    (hfin : ∫⁻ ξ, ENNReal.ofReal (likEstimate f lo eps n ys (drawn 0 ξ) (noise 0 ξ)) ∂law ≠ ∞) :
    let a := fun S ξ => run (f.env lo eps) (cbs S)
      (init (f.env lo eps) (algo S) n (fun i => drawn i ξ) none fun i => noise i ξ) (draws S ξ)
    (∀ᵐ ξ ∂law, ∀ᶠ S in atTop, (a S ξ).2.2.2 = none ∧ ∀ e ∈ (a S ξ).2.2.1, e = .kept) →
    ∀ᵐ ξ ∂law, ∃ ess : ℕ → ℝ, (∀ᶠ S in atTop, (a S ξ).1.tup.ess.getLast? = some (fin (ess S))) ∧
      Tendsto (fun S : ℕ => ess S / ((S : ℝ) + 1)) atTop
        (𝓝 (efficiency law fun ξ => ENNReal.ofReal (likEstimate f lo eps n ys (drawn 0 ξ) (noise 0 ξ))).toReal) := by
  intro a hkept
  obtain ⟨R, hR, hL, hest⟩ := estimates_exist hs lo eps
  filter_upwards [essAt_limit hs lo eps ys law drawn noise hmeas hind hlaw R hR hest hfin, hkept] with ξ h1 h2
  refine ⟨_, ?_, h1⟩
  filter_upwards [h2] with S hS
  have hr := recorded_kept (cbs S) (hb S) (hk S) hL (algo S) (draws S ξ) hS.1 hS.2
  have h3 := hr.last
  rw [hys] at h3
  have hlen := hr.length
  have hne : (a S ξ).1.tup.ess ≠ [] := by
    intro h0
    rw [show (run _ _ _ _).1.tup.ess = [] from h0] at hlen
    simp at hlen
  unfold lastEss at h3
  rw [List.getLast?_eq_getLast_of_ne_nil hne]
  rw [show (run (f.env lo eps) (cbs S) _ (draws S ξ)).1.tup.ess.getLast? = _ from
    List.getLast?_eq_getLast_of_ne_nil hne] at h3
  rw [← h3]
  rfl

/-- The limits for all prefixes at once. -/
theorem essAt_limits (hs : PmmhSetup P f n μ kernel logg) (lo eps : ℝ) (ys : List Y)
    {Ξ : Type} [MeasurableSpace Ξ] (law : Measure Ξ) [IsProbabilityMeasure law]
    (drawn : ℕ → Ξ → Row c.dim) (noise : ℕ → Ξ → Ω)
    (hmeas : ∀ i, Measurable fun ξ => (c.unstack (drawn i ξ) false, noise i ξ))
    (hind : Pairwise fun i j => IndepFun (fun ξ => (c.unstack (drawn i ξ) false, noise i ξ))
      (fun ξ => (c.unstack (drawn j ξ) false, noise j ξ)) law)
    (hlaw : ∀ i, law.map (fun ξ => (c.unstack (drawn i ξ) false, noise i ξ))
      = ((volume.restrict (space c)).withDensity (jointPrior c)).prod P)
    (R : List Y → (∀ i, Fin (c.numel i) → ℝ) × Ω → ℝ) (hR : ∀ ys, Measurable (R ys))
    (hest : ∀ ys u ω, likEstimate f lo eps n ys u ω = Real.exp (R ys (c.unstack u false, ω)))
    (hfin : ∀ l, l <+: ys → ∫⁻ ξ, ENNReal.ofReal (likEstimate f lo eps n l (drawn 0 ξ) (noise 0 ξ)) ∂law ≠ ∞) :
    ∀ᵐ ξ ∂law, ∀ l, l <+: ys →
      Tendsto (fun S : ℕ => essAt (P := S + 1) (fun ys u ω => R ys (c.unstack u false, ω))
        (fun i => drawn i ξ) (fun i => noise i ξ) l / ((S : ℝ) + 1)) atTop
      (𝓝 (efficiency law fun ξ => ENNReal.ofReal (likEstimate f lo eps n l (drawn 0 ξ) (noise 0 ξ))).toReal) := by
  have h : ∀ᵐ ξ ∂law, ∀ k : ℕ,
      Tendsto (fun S : ℕ => essAt (P := S + 1) (fun ys u ω => R ys (c.unstack u false, ω))
        (fun i => drawn i ξ) (fun i => noise i ξ) (ys.take k) / ((S : ℝ) + 1)) atTop
      (𝓝 (efficiency law fun ξ => ENNReal.ofReal (likEstimate f lo eps n (ys.take k) (drawn 0 ξ) (noise 0 ξ))).toReal) := by
    rw [ae_all_iff]
    exact fun k => essAt_limit hs lo eps (ys.take k) law drawn noise hmeas hind hlaw R hR hest
      (hfin _ (List.take_prefix k ys))
  filter_upwards [h] with ξ hξ l hl
  rw [List.prefix_iff_eq_take.1 hl]
  exact hξ l.length

/-- **C126.** SMC2 with many parameter particles moves its particles for the first time at a predictable observation:
if the efficiency of the likelihood estimates stays above the threshold for all of `ys`, then almost surely, for all
large numbers of parameter particles, nothing is moved while `ys` is processed, and if it falls below the threshold
at the next observation `y`, the particles are moved (or the number of state particles increased) at `y`. -/
theorem C126_smc2 (hs : PmmhSetup P f n μ kernel logg) (lo eps : ℝ) (ys : List Y) (y : Y)
    (cbs : ∀ S, List (Callback (S + 1) c.dim Y Ω W)) (hb : ∀ S, ∀ cb ∈ cbs S, Benign cb)
    (hk : ∀ S, ∀ cb ∈ cbs S, KeepsFinite cb) (threshold : Threshold.Thresholder)
    (cfg : ∀ S, SmcCfg (S + 1) c.dim Y Ω (K S)) (hcfg : ∀ S, (cfg S).threshold = threshold)
    {Ξ : Type} [MeasurableSpace Ξ] (law : Measure Ξ) [IsProbabilityMeasure law]
    (drawn : ℕ → Ξ → Row c.dim) (noise : ℕ → Ξ → Ω)
    (hmeas : ∀ i, Measurable fun ξ => (c.unstack (drawn i ξ) false, noise i ξ))
    (hind : Pairwise fun i j => IndepFun (fun ξ => (c.unstack (drawn i ξ) false, noise i ξ))
      (fun ξ => (c.unstack (drawn j ξ) false, noise j ξ)) law)
    (hlaw : ∀ i, law.map (fun ξ => (c.unstack (drawn i ξ) false, noise i ξ))
      = ((volume.restrict (space c)).withDensity (jointPrior c)).prod P)
    (draws : ∀ S, Ξ → List (Y × StepDraws (S + 1) c.dim Ω)) (hys : ∀ S ξ, (draws S ξ).map Prod.fst = ys)
    (last : ∀ S, Ξ → StepDraws (S + 1) c.dim Ω)
    (hfin : ∀ l, l <+: ys ++ [y] →
      ∫⁻ ξ, ENNReal.ofReal (likEstimate f lo eps n l (drawn 0 ξ) (noise 0 ξ)) ∂law ≠ ∞)
    (habove : ∀ k < ys.length, threshold.get (k + 1 : ℕ)
      < (efficiency law fun ξ => ENNReal.ofReal (likEstimate f lo eps n (ys.take (k + 1)) (drawn 0 ξ) (noise 0 ξ))).toReal) :
    let start := fun S ξ => init (V := W) (f.env lo eps) (.smc2 (cfg S) 0) n (fun i => drawn i ξ) none fun i => noise i ξ
    (∀ᵐ ξ ∂law, ∀ᶠ S in atTop, (run (f.env lo eps) (cbs S) (start S ξ) (draws S ξ)).2.2.2 = none ∧
      (run (f.env lo eps) (cbs S) (start S ξ) (draws S ξ)).2.2.1 = List.replicate ys.length .kept) ∧
    ((efficiency law fun ξ => ENNReal.ofReal (likEstimate f lo eps n (ys ++ [y]) (drawn 0 ξ) (noise 0 ξ))).toReal
        < threshold.get (ys.length + 1 : ℕ) →
      ∀ᵐ ξ ∂law, ∀ᶠ S in atTop, ∃ ev, ev ≠ .kept ∧
        (run (f.env lo eps) (cbs S) (start S ξ) (draws S ξ ++ [(y, last S ξ)])).2.2.1
          = List.replicate ys.length .kept ++ [ev]) := by
  intro start
  obtain ⟨R, hR, hL, hest⟩ := estimates_exist hs lo eps
  have hlim := essAt_limits hs lo eps (ys ++ [y]) law drawn noise hmeas hind hlaw R hR hest hfin
  have hrun : ∀ᵐ ξ ∂law, ∀ᶠ S : ℕ in atTop,
      (run (f.env lo eps) (cbs S) (start S ξ) (draws S ξ)).2.2.2 = none ∧
      (run (f.env lo eps) (cbs S) (start S ξ) (draws S ξ)).2.2.1 = List.replicate ys.length .kept ∧
      (run (f.env lo eps) (cbs S) (start S ξ) (draws S ξ)).1.algo = .smc2 (cfg S) 0 ∧
      Recorded (f.env lo eps) n (fun ys u ω => R ys (c.unstack u false, ω)) (fun i => drawn i ξ) (fun i => noise i ξ) ys
        (run (f.env lo eps) (cbs S) (start S ξ) (draws S ξ)).1 := by
    filter_upwards [hlim] with ξ hξ
    have hev : ∀ᶠ S : ℕ in atTop, ∀ k ∈ Finset.range ys.length, threshold.get (k + 1 : ℕ) <
        essAt (P := S + 1) (fun ys u ω => R ys (c.unstack u false, ω)) (fun i => drawn i ξ) (fun i => noise i ξ)
          (ys.take (k + 1)) / ((S : ℝ) + 1) := by
      rw [Filter.eventually_all_finset]
      intro k hk
      exact (hξ _ ((List.take_prefix _ _).trans (List.prefix_append _ _))).eventually
        (lt_mem_nhds (habove k (Finset.mem_range.1 hk)))
    filter_upwards [hev] with S hS
    have hlen : (draws S ξ).length = ys.length := by rw [← hys S ξ, List.length_map]
    have h := recorded_run (V := W) (cbs S) (hb S) (hk S) hL (.smc2 (cfg S) 0) (drawn := fun i => drawn i ξ)
      (noise := fun i => noise i ξ) (draws S ξ) (fun l x hl s hrec => by
        have hl' : l.length < ys.length := by
          have := hl.length_le
          rw [List.length_append, List.length_singleton, hlen] at this
          omega
        have hpre : l.map Prod.fst ++ [x.1] = ys.take (l.length + 1) := by
          have h1 : (l ++ [x]).map Prod.fst <+: ys := by
            rw [← hys S ξ]
            exact hl.map _
          rw [List.map_append, List.map_singleton] at h1
          have h2 := List.prefix_iff_eq_take.1 h1
          rw [List.length_append, List.length_map, List.length_singleton] at h2
          exact h2
        refine smc2_keeps hL hrec x.1 x.2 (cfg S) 0 ?_
        have hk := hS l.length (Finset.mem_range.2 hl')
        rw [lt_div_iff₀ (by positivity)] at hk
        rw [hpre, List.length_map, hcfg, Nat.cast_add, Nat.cast_one]
        push_cast at hk ⊢
        exact hk.le)
    obtain ⟨g1, g2, g3, g4⟩ := h
    rw [hys] at g4
    rw [hlen] at g2
    exact ⟨g1, g2, g3, g4⟩
  refine ⟨hrun.mono fun ξ h => h.mono fun S hS => ⟨hS.1, hS.2.1⟩, fun hbelow => ?_⟩
  filter_upwards [hrun, hlim] with ξ h1 h2
  have h3 := (h2 _ (List.prefix_refl _)).eventually (gt_mem_nhds hbelow)
  filter_upwards [h1, h3] with S hS hS'
  obtain ⟨g1, g2, g3, g4⟩ := hS
  refine ⟨(step (f.env lo eps) (cbs S) (run (f.env lo eps) (cbs S) (start S ξ) (draws S ξ)).1 y (last S ξ)).event, ?_, ?_⟩
  · rw [div_lt_iff₀ (by positivity)] at hS'
    have hne := smc2_updates hL g4 y (last S ξ) (cfg S) 0 (by
      rw [hcfg, Nat.cast_add (S), Nat.cast_one]
      push_cast at hS' ⊢
      exact hS')
    generalize (run (f.env lo eps) (cbs S) (start S ξ) (draws S ξ)).1 = s at *
    rw [← g3] at hne
    cases hret : (s.algo.step_ (f.env lo eps) s.sys s.tup s.obj y (last S ξ)).ret with
    | error e =>
      rw [step_of_error (f.env lo eps) (cbs S) s y (last S ξ) e hret]
      exact hne
    | ok o =>
      rw [step_of_ok (f.env lo eps) (cbs S) s y (last S ξ) o hret]
      exact hne
  · rw [run_concat, g1]
    show _ ++ [_] = _
    rw [g2]

/-- **C126.** NESS compares the effective sample size before an observation: if the efficiency after every proper prefix of
`ys` is above the threshold, then almost surely, for all large numbers of parameter particles, nothing is moved while `ys`
is processed, and if it is below the threshold after `ys`, the particles are jittered (or the jittering raises) when the next
observation arrives. -/
theorem C126_ness (hs : PmmhSetup P f n μ kernel logg) (lo eps : ℝ) (ys : List Y) (y : Y)
    (cbs : ∀ S, List (Callback (S + 1) c.dim Y Ω W)) (hb : ∀ S, ∀ cb ∈ cbs S, Benign cb)
    (hk : ∀ S, ∀ cb ∈ cbs S, KeepsFinite cb) (threshold : ℝ) (cfg : OnlineCfg c.dim)
    {Ξ : Type} [MeasurableSpace Ξ] (law : Measure Ξ) [IsProbabilityMeasure law]
    (drawn : ℕ → Ξ → Row c.dim) (noise : ℕ → Ξ → Ω)
    (hmeas : ∀ i, Measurable fun ξ => (c.unstack (drawn i ξ) false, noise i ξ))
    (hind : Pairwise fun i j => IndepFun (fun ξ => (c.unstack (drawn i ξ) false, noise i ξ))
      (fun ξ => (c.unstack (drawn j ξ) false, noise j ξ)) law)
    (hlaw : ∀ i, law.map (fun ξ => (c.unstack (drawn i ξ) false, noise i ξ))
      = ((volume.restrict (space c)).withDensity (jointPrior c)).prod P)
    (draws : ∀ S, Ξ → List (Y × StepDraws (S + 1) c.dim Ω)) (hys : ∀ S ξ, (draws S ξ).map Prod.fst = ys)
    (last : ∀ S, Ξ → StepDraws (S + 1) c.dim Ω)
    (hfin : ∀ l, l <+: ys →
      ∫⁻ ξ, ENNReal.ofReal (likEstimate f lo eps n l (drawn 0 ξ) (noise 0 ξ)) ∂law ≠ ∞)
    (habove : ∀ k < ys.length, threshold
      < (efficiency law fun ξ => ENNReal.ofReal (likEstimate f lo eps n (ys.take k) (drawn 0 ξ) (noise 0 ξ))).toReal) :
    let start := fun (S : ℕ) ξ => init (V := W) (K := K S) (f.env lo eps) (.ness (threshold * ((S : ℝ) + 1)) cfg) n
      (fun i : Fin (S + 1) => drawn i ξ) none fun i => noise i ξ
    (∀ᵐ ξ ∂law, ∀ᶠ S in atTop, (run (f.env lo eps) (cbs S) (start S ξ) (draws S ξ)).2.2.2 = none ∧
      (run (f.env lo eps) (cbs S) (start S ξ) (draws S ξ)).2.2.1 = List.replicate ys.length .kept) ∧
    ((efficiency law fun ξ => ENNReal.ofReal (likEstimate f lo eps n ys (drawn 0 ξ) (noise 0 ξ))).toReal < threshold →
      ∀ᵐ ξ ∂law, ∀ᶠ S in atTop,
        (run (f.env lo eps) (cbs S) (start S ξ) (draws S ξ ++ [(y, last S ξ)])).2.2.2 ≠ none ∨
        (run (f.env lo eps) (cbs S) (start S ξ) (draws S ξ ++ [(y, last S ξ)])).2.2.1
          = List.replicate ys.length .kept ++ [.updated]) := by
  intro start
  obtain ⟨R, hR, hL, hest⟩ := estimates_exist hs lo eps
  have hlim := essAt_limits hs lo eps ys law drawn noise hmeas hind hlaw R hR hest hfin
  have hrun : ∀ᵐ ξ ∂law, ∀ᶠ S : ℕ in atTop,
      (run (f.env lo eps) (cbs S) (start S ξ) (draws S ξ)).2.2.2 = none ∧
      (run (f.env lo eps) (cbs S) (start S ξ) (draws S ξ)).2.2.1 = List.replicate ys.length .kept ∧
      (run (f.env lo eps) (cbs S) (start S ξ) (draws S ξ)).1.algo = .ness (threshold * ((S : ℝ) + 1)) cfg ∧
      Recorded (f.env lo eps) n (fun ys u ω => R ys (c.unstack u false, ω)) (fun i => drawn i ξ) (fun i => noise i ξ) ys
        (run (f.env lo eps) (cbs S) (start S ξ) (draws S ξ)).1 := by
    filter_upwards [hlim] with ξ hξ
    have hev : ∀ᶠ S : ℕ in atTop, ∀ k ∈ Finset.range ys.length, threshold <
        essAt (P := S + 1) (fun ys u ω => R ys (c.unstack u false, ω)) (fun i => drawn i ξ) (fun i => noise i ξ)
          (ys.take k) / ((S : ℝ) + 1) := by
      rw [Filter.eventually_all_finset]
      intro k hk
      exact (hξ _ (List.take_prefix _ _)).eventually (lt_mem_nhds (habove k (Finset.mem_range.1 hk)))
    filter_upwards [hev] with S hS
    have hlen : (draws S ξ).length = ys.length := by rw [← hys S ξ, List.length_map]
    have h := recorded_run (V := W) (K := K S) (cbs S) (hb S) (hk S) hL (.ness (threshold * ((S : ℝ) + 1)) cfg)
      (drawn := fun i => drawn i ξ) (noise := fun i => noise i ξ) (draws S ξ) (fun l x hl s hrec => by
        have hl' : l.length < ys.length := by
          have := hl.length_le
          rw [List.length_append, List.length_singleton, hlen] at this
          omega
        have hpre : l.map Prod.fst = ys.take l.length := by
          have h1 : l.map Prod.fst <+: ys := by
            rw [← hys S ξ]
            exact ((List.prefix_append _ _).trans hl).map _
          have h2 := List.prefix_iff_eq_take.1 h1
          rw [List.length_map] at h2
          exact h2
        refine ness_keeps hL hrec x.1 x.2 _ cfg ?_
        have hk := hS l.length (Finset.mem_range.2 hl')
        rw [lt_div_iff₀ (by positivity)] at hk
        rw [hpre]
        exact hk.le)
    obtain ⟨g1, g2, g3, g4⟩ := h
    rw [hys] at g4
    rw [hlen] at g2
    exact ⟨g1, g2, g3, g4⟩
  refine ⟨hrun.mono fun ξ h => h.mono fun S hS => ⟨hS.1, hS.2.1⟩, fun hbelow => ?_⟩
  filter_upwards [hrun, hlim] with ξ h1 h2
  have h3 := (h2 _ (List.prefix_refl _)).eventually (gt_mem_nhds hbelow)
  filter_upwards [h1, h3] with S hS hS'
  obtain ⟨g1, g2, g3, g4⟩ := hS
  rw [div_lt_iff₀ (by positivity)] at hS'
  have hd := ness_decides g4 _ hS'
  rw [run_concat, g1]
  simp only
  generalize (run (f.env lo eps) (cbs S) (start S ξ) (draws S ξ)).1 = s at *
  have hout : s.algo.step_ (f.env lo eps) s.sys s.tup s.obj y (last S ξ)
      = onlineStep (f.env lo eps) cfg (.ness (threshold * ((S : ℝ) + 1)) cfg) true s.sys s.tup s.obj y (last S ξ) := by
    rw [g3, Algo.step_, hd]
  unfold onlineStep at hout
  rw [if_pos rfl] at hout
  rcases hu : onlineUpdate (f.env lo eps) cfg s.sys s.obj (last S ξ) with ⟨sys', obj', er⟩
  rw [hu] at hout
  cases er with
  | some er =>
    refine Or.inl ?_
    rw [step_of_error (f.env lo eps) (cbs S) s y (last S ξ) er (by rw [hout])]
    exact nofun
  | none =>
    refine Or.inr ?_
    rw [step_of_ok (f.env lo eps) (cbs S) s y (last S ξ) none (by rw [hout])]
    simp only
    rw [g2, hout]

end

/-! ### A case: independent particles of the autoregressive process of C93 -/

/-- One parameter particle with its generator. -/
abbrev DemoParticle := Row priorDemo.dim × (ℕ → DemoEntry)

/-- Its law: parameters from the prior, independent of the generator. -/
noncomputable def demoParticleLaw : Measure DemoParticle :=
  (volume.withDensity fun u => ENNReal.ofReal (expMass (priorDemo.logPrior u))).prod (streamLaw demoEntryLaw)

instance : IsProbabilityMeasure
    (volume.withDensity fun u : Row priorDemo.dim => ENNReal.ofReal (expMass (priorDemo.logPrior u))) := by
  refine ⟨?_⟩
  rw [withDensity_apply _ MeasurableSet.univ, setLIntegral_univ]
  have h := C92_change_of_variables priorDemo priorDemo_valid priorDemo_proper fun _ => 1
  simp only [mul_one] at h
  rw [h, priorDemo_total]

instance : IsProbabilityMeasure demoParticleLaw := by unfold demoParticleLaw; infer_instance

/-- Independent particles. -/
noncomputable def demoSwarm : Measure (ℕ → DemoParticle) := Measure.infinitePi fun _ => demoParticleLaw

instance : IsProbabilityMeasure demoSwarm := by unfold demoSwarm; infer_instance

theorem measurable_demoPair :
    Measurable fun q : DemoParticle => (priorDemo.unstack q.1 false, q.2) :=
  ((measurable_unstack priorDemo).comp measurable_fst).prodMk measurable_snd

theorem demoSwarm_measurable (i : ℕ) :
    Measurable fun ξ : ℕ → DemoParticle => (priorDemo.unstack (ξ i).1 false, (ξ i).2) :=
  measurable_demoPair.comp (measurable_pi_apply i)

theorem demoSwarm_indep : Pairwise fun i j => IndepFun
    (fun ξ : ℕ → DemoParticle => (priorDemo.unstack (ξ i).1 false, (ξ i).2))
    (fun ξ => (priorDemo.unstack (ξ j).1 false, (ξ j).2)) demoSwarm := by
  intro i j hij
  have h : iIndepFun (fun i (ξ : ℕ → DemoParticle) => ξ i) demoSwarm :=
    iIndepFun_infinitePi (P := fun _ : ℕ => demoParticleLaw) (X := fun _ => id) fun _ => measurable_id
  exact (h.indepFun hij).comp measurable_demoPair measurable_demoPair

theorem demoSwarm_law (i : ℕ) :
    demoSwarm.map (fun ξ : ℕ → DemoParticle => (priorDemo.unstack (ξ i).1 false, (ξ i).2))
      = ((volume.restrict (space priorDemo)).withDensity (jointPrior priorDemo)).prod (streamLaw demoEntryLaw) := by
  have h1 : demoSwarm.map (fun ξ => ξ i) = demoParticleLaw :=
    (measurePreserving_eval_infinitePi (fun _ => demoParticleLaw) i).map_eq
  have h4 : demoSwarm.map (fun ξ : ℕ → DemoParticle => (priorDemo.unstack (ξ i).1 false, (ξ i).2))
      = demoParticleLaw.map fun q => (priorDemo.unstack q.1 false, q.2) := by
    rw [← h1, Measure.map_map measurable_demoPair (measurable_pi_apply i)]
    rfl
  rw [h4]
  have h2 := C96_prior priorDemo priorDemo_valid priorDemo_proper
    (exact_setup .sisr (Or.inl rfl) 100 (by norm_num)).measurable_prior
  rw [← h2]
  have h3 := Measure.map_prod_map
    (volume.withDensity fun u : Row priorDemo.dim => ENNReal.ofReal (expMass (priorDemo.logPrior u)))
    (streamLaw demoEntryLaw) (measurable_unstack priorDemo) measurable_id
  rw [Measure.map_id] at h3
  exact h3.symm

/-- Draws of a step. Those of the filters come from the generators of the particles, the others are arbitrary. -/
noncomputable def swarmDraws (S : ℕ) : StepDraws (S + 1) priorDemo.dim (ℕ → DemoEntry) where
  noise _ := fun _ => (0, fun _ => 0)
  inds i := i
  jitter _ _ := 0
  coins _ := true
  subDrawn _ _ := 0
  pmmh _ := ⟨fun _ _ => 0, fun _ _ => fun _ => (0, fun _ => 0), fun _ => 1 / 2⟩
  rerun _ _ := fun _ => (0, fun _ => 0)

/-- An SMC2 configuration. -/
noncomputable def swarmCfg (threshold : Threshold.Thresholder) (S : ℕ) :
    SmcCfg (S + 1) priorDemo.dim ℝ (ℕ → DemoEntry) (Gauss (S + 1) priorDemo.dim) :=
  ⟨threshold, randomWalk fun _ => 2, 1, none, 1 / 5, 5⟩

theorem demo_estimate_le (lo eps : ℝ) (ys : List ℝ) (u : Row priorDemo.dim) (ω : ℕ → DemoEntry) :
    likEstimate (exactFilter .sisr) lo eps 100 ys u ω ≤ 1 := by
  set f := exactFilter .sisr with hf
  have hs := exact_setup .sisr (Or.inl rfl) 100 (by norm_num)
  obtain ⟨r, h1, h2⟩ := FilterOps.filterAll_total (ticks f.kind (f.model 100 (priorDemo.unstack u false)) hs.clock)
    (fun k => k.ll 0) (fun _ _ => rfl) f.opt hs.frequency f.fuel hs.fuel ys 0
    (initializeFilter f.lo (f.init 100 (priorDemo.unstack u false) ω).1) (f.init 100 (priorDemo.unstack u false) ω).2 rfl
  have h3 := loglik_batchFilter f lo eps 100 u u ys (fun _ => ω) r h1
  have hreg : Regular ((f.model 100 (priorDemo.unstack u false)).sisrPredict
      (initializeFilter f.lo (f.init 100 (priorDemo.unstack u false) ω).1)
      (f.init 100 (priorDemo.unstack u false) ω).2).1 :=
    regular_predict (by norm_num) _ _ (fun i => ⟨0, rfl⟩) _
  obtain ⟨v, hv, ht⟩ := totalP_nonpos (by norm_num) (f.model 100 (priorDemo.unstack u false))
    (fun y p ω i => by
      refine ⟨_, ?_, rfl⟩
      unfold exactLogg
      exact div_nonpos_of_nonpos_of_nonneg (neg_nonpos.2 (sq_nonneg _)) two_pos.le)
    (FilterOps.slotsFrom (f.kind.ops (f.model 100 (priorDemo.unstack u false))) f.opt.observeEveryStep 0 ys)
    _ (((f.model 100 (priorDemo.unstack u false)).sisrPredict
      (initializeFilter f.lo (f.init 100 (priorDemo.unstack u false) ω).1)
      (f.init 100 (priorDemo.unstack u false) ω).2).2) hreg
  unfold likEstimate
  rw [h3, h2]
  have h4 : (f.kind.ops (f.model 100 (priorDemo.unstack u false))).totalP (fun k => k.ll 0)
      (FilterOps.slotsFrom (f.kind.ops (f.model 100 (priorDemo.unstack u false))) f.opt.observeEveryStep 0 ys)
      ((f.kind.ops (f.model 100 (priorDemo.unstack u false))).predict
        (initializeFilter f.lo (f.init 100 (priorDemo.unstack u false) ω).1)
        (f.init 100 (priorDemo.unstack u false) ω).2).1
      ((f.kind.ops (f.model 100 (priorDemo.unstack u false))).predict
        (initializeFilter f.lo (f.init 100 (priorDemo.unstack u false) ω).1)
        (f.init 100 (priorDemo.unstack u false) ω).2).2 = fin v := ht
  rw [h4]
  exact Real.exp_le_one_iff.2 hv

/-- The estimates of the first particle. -/
noncomputable def swarmEstimate (ys : List ℝ) (ξ : ℕ → DemoParticle) : ℝ≥0∞ :=
  ENNReal.ofReal (likEstimate (exactFilter .sisr) (-1000) (1 / 1000) 100 ys (ξ 0).1 (ξ 0).2)

theorem swarmEstimate_le (ys : List ℝ) (ξ : ℕ → DemoParticle) : swarmEstimate ys ξ ≤ 1 :=
  ENNReal.ofReal_le_one.2 (demo_estimate_le _ _ _ _ _)

theorem swarm_finite (ys : List ℝ) : ∫⁻ ξ, swarmEstimate ys ξ ∂demoSwarm ≠ ∞ := by
  refine ne_top_of_le_ne_top ENNReal.one_ne_top ((lintegral_mono (swarmEstimate_le ys)).trans ?_)
  simp

theorem swarm_positive (ys : List ℝ) : 0 < (efficiency demoSwarm (swarmEstimate ys)).toReal := by
  obtain ⟨R, hR, -, hest⟩ := estimates_exist (exact_setup .sisr (Or.inl rfl) 100 (by norm_num)) (-1000) (1 / 1000)
  have hm : Measurable (swarmEstimate ys) := by
    unfold swarmEstimate
    simp only [hest]
    exact (Real.measurable_exp.comp ((hR ys).comp (demoSwarm_measurable 0))).ennreal_ofReal
  have hpos : ∀ ξ, swarmEstimate ys ξ ≠ 0 := by
    intro ξ
    unfold swarmEstimate
    rw [hest]
    exact (ENNReal.ofReal_pos.2 (Real.exp_pos _)).ne'
  have h0 : ∀ k : ℕ, ∫⁻ ξ, swarmEstimate ys ξ ^ k ∂demoSwarm ≠ 0 := by
    intro k h
    rw [lintegral_eq_zero_iff (hm.pow_const k)] at h
    have : ∀ᵐ _ξ ∂demoSwarm, False := by
      filter_upwards [h] with ξ hξ
      exact pow_ne_zero k (hpos ξ) hξ
    rw [Filter.eventually_false_iff_eq_bot, ae_eq_bot] at this
    exact IsProbabilityMeasure.ne_zero demoSwarm this
  have h2 : ∫⁻ ξ, swarmEstimate ys ξ ^ 2 ∂demoSwarm ≠ ∞ := by
    refine ne_top_of_le_ne_top ENNReal.one_ne_top
      ((lintegral_mono fun ξ => pow_le_one' (swarmEstimate_le ys ξ) 2).trans ?_)
    simp
  have h1 := h0 1
  simp only [pow_one] at h1
  unfold efficiency
  exact ENNReal.toReal_pos (ENNReal.div_pos (pow_ne_zero 2 h1) h2).ne'
    (ENNReal.div_lt_top (ENNReal.pow_ne_top (swarm_finite ys)) (h0 2)).ne

/-- Half the efficiency at the first observation, then a threshold that demands an update. -/
noncomputable def swarmThreshold : Threshold.Thresholder :=
  .mkInterval [(5, 2), (1, (efficiency demoSwarm (swarmEstimate [3])).toReal / 2)] 0

theorem swarm_le_one (ys : List ℝ) : (efficiency demoSwarm (swarmEstimate ys)).toReal ≤ 1 := by
  obtain ⟨R, hR, -, hest⟩ := estimates_exist (exact_setup .sisr (Or.inl rfl) 100 (by norm_num)) (-1000) (1 / 1000)
  have hlim := essAt_limit (exact_setup .sisr (Or.inl rfl) 100 (by norm_num)) (-1000) (1 / 1000) ys demoSwarm
    (fun i ξ => (ξ i).1) (fun i ξ => (ξ i).2) demoSwarm_measurable demoSwarm_indep demoSwarm_law R hR hest (swarm_finite ys)
  obtain ⟨ξ, hξ⟩ := hlim.exists
  refine le_of_tendsto hξ (Eventually.of_forall fun S => ?_)
  rw [div_le_one (by positivity)]
  unfold essAt essVal
  refine div_le_of_le_mul₀ (Finset.sum_nonneg fun i _ => sq_nonneg _) (by positivity) ?_
  have := sq_sum_le_card_mul_sum_sq (s := (Finset.univ : Finset (Fin (S + 1))))
    (f := fun i => Real.exp (R ys (priorDemo.unstack (ξ i).1 false, (ξ i).2)))
  rw [Finset.card_univ, Fintype.card_fin] at this
  push_cast at this
  exact this

theorem swarmThreshold_first : swarmThreshold.get (1 : ℕ) = (efficiency demoSwarm (swarmEstimate [3])).toReal / 2 := by
  have h := swarm_positive [3]
  simp [swarmThreshold, Threshold.Thresholder.mkInterval, Threshold.Thresholder.get, Threshold.Thresholder.mutate,
    Threshold.Thresholder.min]
  linarith

theorem swarmThreshold_second : swarmThreshold.get (2 : ℕ) = 2 := by
  simp [swarmThreshold, Threshold.Thresholder.mkInterval, Threshold.Thresholder.get, Threshold.Thresholder.mutate,
    Threshold.Thresholder.min]

/-- SMC2 with these thresholds moves the particles at the second observation, not before. -/
example : ∀ᵐ ξ ∂demoSwarm, ∀ᶠ S in atTop, ∃ ev, ev ≠ .kept ∧
    (run ((exactFilter .sisr).env (-1000) (1 / 1000)) ([] : List (Callback (S + 1) _ _ _ Unit))
      (init ((exactFilter .sisr).env (-1000) (1 / 1000)) (.smc2 (swarmCfg swarmThreshold S) 0) 100 (fun i => (ξ i).1) none
        fun i => (ξ i).2) [(3, swarmDraws S), (1, swarmDraws S)]).2.2.1 = [.kept, ev] := by
  have habove : ∀ k < ([3] : List ℝ).length, swarmThreshold.get (k + 1 : ℕ)
      < (efficiency demoSwarm (swarmEstimate (([3] : List ℝ).take (k + 1)))).toReal := by
    intro k hk
    obtain rfl : k = 0 := by simpa using hk
    have h := swarm_positive [3]
    show swarmThreshold.get (1 : ℕ) < (efficiency demoSwarm (swarmEstimate [3])).toReal
    rw [swarmThreshold_first]
    linarith
  have hbelow : (efficiency demoSwarm (swarmEstimate ([3] ++ [1]))).toReal < swarmThreshold.get (([3] : List ℝ).length + 1 : ℕ) := by
    show (efficiency demoSwarm (swarmEstimate [3, 1])).toReal < swarmThreshold.get (2 : ℕ)
    rw [swarmThreshold_second]
    linarith [swarm_le_one [3, 1]]
  have h := C126_smc2 (W := Unit) (K := fun S => Gauss (S + 1) priorDemo.dim) (exact_setup .sisr (Or.inl rfl) 100 (by norm_num)) (-1000) (1 / 1000) [3] 1 (fun _ => [])
    (by simp) (by simp) swarmThreshold (swarmCfg swarmThreshold) (fun _ => rfl) demoSwarm (fun i ξ => (ξ i).1)
    (fun i ξ => (ξ i).2) demoSwarm_measurable demoSwarm_indep demoSwarm_law (fun S _ => [(3, swarmDraws S)]) (fun _ _ => rfl)
    (fun S _ => swarmDraws S) (fun l _ => swarm_finite l) habove
  filter_upwards [h.2 hbelow] with ξ hξ
  filter_upwards [hξ] with S hS
  exact hS

/-- A constant threshold below the efficiencies. -/
noncomputable def swarmConstant : ℝ :=
  min (min (efficiency demoSwarm (swarmEstimate [])).toReal (efficiency demoSwarm (swarmEstimate [3])).toReal)
    (efficiency demoSwarm (swarmEstimate [3, 1])).toReal / 2

theorem swarmConstant_lt : swarmConstant < (efficiency demoSwarm (swarmEstimate [])).toReal ∧
    swarmConstant < (efficiency demoSwarm (swarmEstimate [3])).toReal ∧
    swarmConstant < (efficiency demoSwarm (swarmEstimate [3, 1])).toReal := by
  have h1 := swarm_positive []
  have h2 := swarm_positive [3]
  have h3 := swarm_positive [3, 1]
  have h := lt_min (lt_min h1 h2) h3
  have g1 := min_le_left (min (efficiency demoSwarm (swarmEstimate [])).toReal (efficiency demoSwarm (swarmEstimate [3])).toReal)
    (efficiency demoSwarm (swarmEstimate [3, 1])).toReal
  have g2 := min_le_right (min (efficiency demoSwarm (swarmEstimate [])).toReal (efficiency demoSwarm (swarmEstimate [3])).toReal)
    (efficiency demoSwarm (swarmEstimate [3, 1])).toReal
  have g3 := min_le_left (efficiency demoSwarm (swarmEstimate [])).toReal (efficiency demoSwarm (swarmEstimate [3])).toReal
  have g4 := min_le_right (efficiency demoSwarm (swarmEstimate [])).toReal (efficiency demoSwarm (swarmEstimate [3])).toReal
  unfold swarmConstant
  refine ⟨?_, ?_, ?_⟩ <;> linarith

/-- NESS with this threshold does nothing but weighting, ... -/
theorem swarm_ness_kept : ∀ᵐ ξ ∂demoSwarm, ∀ᶠ S : ℕ in atTop,
    (run ((exactFilter .sisr).env (-1000) (1 / 1000)) ([] : List (Callback (S + 1) _ _ _ Unit))
      (init (K := Unit) ((exactFilter .sisr).env (-1000) (1 / 1000))
        (.ness (swarmConstant * ((S : ℝ) + 1)) ⟨.constant (.tensor fun _ => 1), 0, false⟩) 100
        (fun i : Fin (S + 1) => (ξ i).1) none fun i => (ξ i).2) [(3, swarmDraws S), (1, swarmDraws S)]).2.2.2 = none ∧
    (run ((exactFilter .sisr).env (-1000) (1 / 1000)) ([] : List (Callback (S + 1) _ _ _ Unit))
      (init (K := Unit) ((exactFilter .sisr).env (-1000) (1 / 1000))
        (.ness (swarmConstant * ((S : ℝ) + 1)) ⟨.constant (.tensor fun _ => 1), 0, false⟩) 100
        (fun i : Fin (S + 1) => (ξ i).1) none fun i => (ξ i).2) [(3, swarmDraws S), (1, swarmDraws S)]).2.2.1
      = [.kept, .kept] :=
  (C126_ness (K := fun _ => Unit) (exact_setup .sisr (Or.inl rfl) 100 (by norm_num)) (-1000) (1 / 1000) [3, 1] 0 (fun _ => []) (by simp)
    (by simp) swarmConstant ⟨.constant (.tensor fun _ => 1), 0, false⟩ demoSwarm (fun i ξ => (ξ i).1) (fun i ξ => (ξ i).2)
    demoSwarm_measurable demoSwarm_indep demoSwarm_law (fun S _ => [(3, swarmDraws S), (1, swarmDraws S)]) (fun _ _ => rfl)
    (fun S _ => swarmDraws S) (fun l _ => swarm_finite l) (fun k hk => by
      match k, hk with
      | 0, _ => exact swarmConstant_lt.1
      | 1, _ => exact swarmConstant_lt.2.1)).1

/-- ... so its weighted average of the coefficient (which is bounded) tends to the posterior mean. -/
example : ∀ᵐ ξ ∂demoSwarm, ∃ p : ∀ S, Fin (S + 1) → ℝ,
    let a := fun S : ℕ => (run ((exactFilter .sisr).env (-1000) (1 / 1000)) ([] : List (Callback (S + 1) _ _ _ Unit))
      (init (K := Unit) ((exactFilter .sisr).env (-1000) (1 / 1000))
        (.ness (swarmConstant * ((S : ℝ) + 1)) ⟨.constant (.tensor fun _ => 1), 0, false⟩) 100
        (fun i : Fin (S + 1) => (ξ i).1) none fun i => (ξ i).2) [(3, swarmDraws S), (1, swarmDraws S)]).1
    (∀ᶠ S in atTop, ∀ i, (normalize1 (-1000) (a S).obj.w).2 i = fin (p S i)) ∧
    Tendsto (fun S => ∑ i, p S i * max (-1) (min 1 (priorDemo.unstack ((a S).sys.params i) false (2 : Fin 3) (0 : Fin 1)))) atTop
      (𝓝 (∫ θ, max (-1) (min 1 (θ (2 : Fin 3) (0 : Fin 1))) ∂posterior priorDemo demoLik)) := by
  have hm : Measurable fun θ : ∀ i, Fin (priorDemo.numel i) → ℝ => max (-1) (min 1 (θ (2 : Fin 3) (0 : Fin 1))) :=
    measurable_const.max (measurable_const.min ((measurable_pi_apply _).comp (measurable_pi_apply _)))
  have hprob : IsFiniteMeasure (posterior priorDemo demoLik) := by
    refine ⟨?_⟩
    unfold posterior
    rw [Measure.smul_apply, withDensity_apply _ MeasurableSet.univ, setLIntegral_univ, smul_eq_mul]
    exact ENNReal.mul_lt_top (ENNReal.inv_lt_top.2 (pos_iff_ne_zero.2
      (evidence_ne_zero (exact_setup .sisr (Or.inl rfl) 100 (by norm_num)) [3, 1] priorDemo_mass)))
      (lt_top_iff_ne_top.2 demo_evidence)
  have hint : Integrable (fun θ : ∀ i, Fin (priorDemo.numel i) → ℝ => max (-1) (min 1 (θ (2 : Fin 3) (0 : Fin 1))))
      (posterior priorDemo demoLik) :=
    Integrable.of_bound hm.aestronglyMeasurable 1 (Eventually.of_forall fun θ => by
      rw [Real.norm_eq_abs]
      exact abs_le.2 ⟨le_max_left _ _, max_le (by norm_num) (min_le_left _ _)⟩)
  exact C125_posterior (K := fun _ => Unit) (exact_setup .sisr (Or.inl rfl) 100 (by norm_num)) (-1000) (1 / 1000) [3, 1] (fun _ => []) (by simp)
    (by simp) (fun S => .ness (swarmConstant * ((S : ℝ) + 1)) ⟨.constant (.tensor fun _ => 1), 0, false⟩) demoSwarm
    (fun i ξ => (ξ i).1) (fun i ξ => (ξ i).2) demoSwarm_measurable demoSwarm_indep demoSwarm_law
    (fun S _ => [(3, swarmDraws S), (1, swarmDraws S)]) (fun _ _ => rfl) demo_evidence _ hm hint
    (swarm_ness_kept.mono fun ξ h => h.mono fun S hS => ⟨hS.1, fun e he => by
      rw [show (run _ _ _ _).2.2.1 = _ from hS.2] at he
      simpa using he⟩)

/-- The run of NESS with the constant threshold and `S + 1` particles. -/
noncomputable def swarmRun (S : ℕ) (ξ : ℕ → DemoParticle) :=
  run ((exactFilter .sisr).env (-1000) (1 / 1000)) ([] : List (Callback (S + 1) _ _ _ Unit))
    (init (K := Unit) ((exactFilter .sisr).env (-1000) (1 / 1000))
      (.ness (swarmConstant * ((S : ℝ) + 1)) ⟨.constant (.tensor fun _ => 1), 0, false⟩) 100
      (fun i : Fin (S + 1) => (ξ i).1) none fun i => (ξ i).2) [(3, swarmDraws S), (1, swarmDraws S)]

theorem swarmRun_kept : ∀ᵐ ξ ∂demoSwarm, ∀ᶠ S : ℕ in atTop, (swarmRun S ξ).2.2.2 = none ∧
    ∀ e ∈ (swarmRun S ξ).2.2.1, e = .kept :=
  swarm_ness_kept.mono fun ξ h => h.mono fun S hS => ⟨hS.1, fun e he => by
    rw [show (swarmRun S ξ).2.2.1 = _ from hS.2] at he
    simpa using he⟩

/-- Its average weight tends to the evidence. -/
example : ∀ᵐ ξ ∂demoSwarm, Tendsto (fun S : ℕ => (∑ i, expMass ((swarmRun S ξ).1.obj.w i)) / ((S : ℝ) + 1)) atTop
    (𝓝 (evidence priorDemo demoLik).toReal) :=
  C125_evidence (K := fun _ => Unit) (exact_setup .sisr (Or.inl rfl) 100 (by norm_num)) (-1000) (1 / 1000) [3, 1] (fun _ => [])
    (by simp) (by simp) (fun S => .ness (swarmConstant * ((S : ℝ) + 1)) ⟨.constant (.tensor fun _ => 1), 0, false⟩) demoSwarm
    (fun i ξ => (ξ i).1) (fun i ξ => (ξ i).2) demoSwarm_measurable demoSwarm_indep demoSwarm_law
    (fun S _ => [(3, swarmDraws S), (1, swarmDraws S)]) (fun _ _ => rfl) demo_evidence swarmRun_kept

/-- Its effective sample size per particle tends to the efficiency. -/
example : ∀ᵐ ξ ∂demoSwarm, ∃ ess : ℕ → ℝ, (∀ᶠ S in atTop, (swarmRun S ξ).1.tup.ess.getLast? = some (fin (ess S))) ∧
    Tendsto (fun S : ℕ => ess S / ((S : ℝ) + 1)) atTop (𝓝 (efficiency demoSwarm (swarmEstimate [3, 1])).toReal) :=
  C126_ess (K := fun _ => Unit) (exact_setup .sisr (Or.inl rfl) 100 (by norm_num)) (-1000) (1 / 1000) [3, 1] (fun _ => [])
    (by simp) (by simp) (fun S => .ness (swarmConstant * ((S : ℝ) + 1)) ⟨.constant (.tensor fun _ => 1), 0, false⟩) demoSwarm
    (fun i ξ => (ξ i).1) (fun i ξ => (ξ i).2) demoSwarm_measurable demoSwarm_indep demoSwarm_law
    (fun S _ => [(3, swarmDraws S), (1, swarmDraws S)]) (fun _ _ => rfl) (swarm_finite [3, 1]) swarmRun_kept

/-- NESS with a threshold above one jitters (or raises) at the first observation. -/
example : ∀ᵐ ξ ∂demoSwarm, ∀ᶠ S : ℕ in atTop,
    let a := run ((exactFilter .sisr).env (-1000) (1 / 1000)) ([] : List (Callback (S + 1) _ _ _ Unit))
      (init (K := Unit) ((exactFilter .sisr).env (-1000) (1 / 1000))
        (.ness (2 * ((S : ℝ) + 1)) ⟨.constant (.tensor fun _ => 1), 0, false⟩) 100
        (fun i : Fin (S + 1) => (ξ i).1) none fun i => (ξ i).2) [(3, swarmDraws S)]
    a.2.2.2 ≠ none ∨ a.2.2.1 = [.updated] :=
  (C126_ness (K := fun _ => Unit) (exact_setup .sisr (Or.inl rfl) 100 (by norm_num)) (-1000) (1 / 1000) [] 3 (fun _ => []) (by simp)
    (by simp) 2 ⟨.constant (.tensor fun _ => 1), 0, false⟩ demoSwarm (fun i ξ => (ξ i).1) (fun i ξ => (ξ i).2)
    demoSwarm_measurable demoSwarm_indep demoSwarm_law (fun S _ => []) (fun _ _ => rfl)
    (fun S _ => swarmDraws S) (fun l _ => swarm_finite l) (fun k hk => absurd hk (Nat.not_lt_zero k))).2
    (by
      have h := swarm_le_one []
      exact lt_of_le_of_lt h one_lt_two)

end Verif.Props
