import Verif.Lemmas.PmmhFilter
import Verif.Props.Pmmh
import Verif.Props.Prior
import Verif.Props.Unbiased

/-!
# C93: PMMH with a particle filter has the posterior as stationary distribution
-/

namespace Verif.Props

open Verif Verif.Spec Verif.Mcmc Verif.PmmhFilter Verif.Unbiased XF MeasureTheory ProbabilityTheory
open scoped ENNReal

section
variable {c : Priors.Registry} {e : ℕ} {V Y Ω : Type} [MeasurableSpace V] [MeasurableSpace Ω]

theorem measurable_unstack (c : Priors.Registry) : Measurable fun u : Fin c.dim → ℝ => c.unstack u false := by
  rw [measurable_pi_iff]; intro i
  rw [measurable_pi_iff]; intro j
  have hcall : ∀ s : Priors.Support, Measurable (Priors.callAll s.bijection) := by
    intro s
    cases s <;> simp only [Priors.Support.bijection, Priors.callAll, Priors.Tr.call] <;> fun_prop
  exact (hcall _).comp (measurable_pi_apply (c.pos i j))

theorem measurable_ladj (s : Priors.Support) : Measurable (Priors.ladjAll s.bijection) := by
  cases s <;> simp only [Priors.Support.bijection, Priors.ladjAll, Priors.Tr.ladj, Priors.softplus] <;> fun_prop

/-- The prior density that MCMC uses is measurable. -/
theorem measurable_logPrior (c : Priors.Registry) (hv : ValidSupports c) (hp : ProperLogProb c)
    (hm : ∀ i, Measurable fun x => expMass ((c.prior i).logProb x)) :
    Measurable fun u => expMass (c.logPrior u) := by
  have h : (fun u => expMass (c.logPrior u)) = fun u : Fin c.dim → ℝ =>
      Real.exp (∑ i, ∑ j, Priors.ladjAll ((c.prior i).support j).bijection (u (c.pos i j))) *
        ∏ i, expMass ((c.prior i).logProb (c.unstack u false i)) := by
    funext u
    rw [logPrior_eq c hv u]
    exact (expMass_sum Finset.univ _ _ fun i => hp i _).1
  rw [h]
  refine Measurable.mul (Real.measurable_exp.comp (Finset.measurable_sum _ fun i _ =>
    Finset.measurable_sum _ fun j _ => (measurable_ladj _).comp (measurable_pi_apply _)))
    (Finset.measurable_prod _ fun i _ => (hm i).comp ((measurable_pi_apply i).comp (measurable_unstack c)))

/-- What is asked of the filter and the priors. -/
structure PmmhSetup (P : Measure Ω) (f : Builder (∀ i, Fin (c.numel i) → ℝ) e V Y Ω) (n : ℕ)
    (μ : (∀ i, Fin (c.numel i) → ℝ) → Measure (Fin e → V))
    (K : (∀ i, Fin (c.numel i) → ℝ) → ℕ → Kernel (Fin e → V) (Fin e → V))
    (logg : (∀ i, Fin (c.numel i) → ℝ) → Y → ℕ → (Fin e → V) → ℝ) : Prop where
  /-- SISR or APF with an unbiased resampler. -/
  filter : (f.kind = .sisr ∧ UnbiasedResampler P (f.resampler n)) ∨
    (f.kind = .apf ∧ UnbiasedLogResampler P (f.resampler n) ∧ FinitePreWeights f n)
  clock : f.proposal.increment = 1
  particles : 0 < n
  frequency : 0 < f.opt.observeEveryStep
  fuel : f.opt.observeEveryStep - 1 ≤ f.fuel
  models : FiltersModels P f n μ K logg
  supports : ValidSupports c
  proper : ProperLogProb c
  measurable_prior : ∀ i, Measurable fun x => expMass ((c.prior i).logProb x)

variable {P : Measure Ω} [IsProbabilityMeasure P] {f : Builder (∀ i, Fin (c.numel i) → ℝ) e V Y Ω} {n : ℕ}
  {μ : (∀ i, Fin (c.numel i) → ℝ) → Measure (Fin e → V)}
  {K : (∀ i, Fin (c.numel i) → ℝ) → ℕ → Kernel (Fin e → V) (Fin e → V)}
  {logg : (∀ i, Fin (c.numel i) → ℝ) → Y → ℕ → (Fin e → V) → ℝ}

/-- The log-likelihood of the filter result: finite and measurable in parameters and random numbers. -/
theorem loglik_estimate (hs : PmmhSetup P f n μ K logg) (lo eps : ℝ) (ys : List Y) :
    ∃ R : (∀ i, Fin (c.numel i) → ℝ) × Ω → ℝ, Measurable R ∧
      (∀ v u noise, (f.env lo eps).loglik (Mcmc.batchFilter n ⟨v, u⟩ ys noise)
        = fin (R (c.unstack u false, noise 0))) ∧
      ∀ θ, ∫⁻ ω, ENNReal.ofReal (Real.exp (R (θ, ω))) ∂P
        = likelihood f.opt.observeEveryStep f.missing μ K logg ys θ := by
  obtain ⟨R, hR, h1, h2⟩ : ∃ R : (∀ i, Fin (c.numel i) → ℝ) × Ω → ℝ, Measurable R ∧
      (∀ θ ω, ∃ r, (f.kind.ops (f.model n θ)).filterAll f.opt f.fuel ys (initializeFilter f.lo (f.init n θ ω).1)
        (f.init n θ ω).2 = some r ∧ (r.2.1.map fun k => k.ll 0).sum = fin (R (θ, ω))) ∧
      ∀ θ, ∫⁻ ω, ENNReal.ofReal (Real.exp (R (θ, ω))) ∂P
        = likelihood f.opt.observeEveryStep f.missing μ K logg ys θ := by
    rcases hs.filter with ⟨hk, hr⟩ | ⟨hk, hr, hp⟩
    · exact sisr_estimate hk hs.clock hs.particles hs.frequency hs.fuel hr hs.models ys
    · exact apf_estimate hk hs.clock hs.particles hs.frequency hs.fuel hr hs.models hp ys
  refine ⟨R, hR, fun v u noise => ?_, h2⟩
  obtain ⟨r, h3, h4⟩ := h1 (c.unstack u false) (noise 0)
  rw [loglik_batchFilter f lo eps n v u ys noise r h3, h4]

/-- C93: whatever the parameters, the likelihood estimate in a PMMH move is finite, and its expectation is the
likelihood of the parameters. -/
theorem C93_likelihood (hs : PmmhSetup P f n μ K logg) (lo eps : ℝ) (ys : List Y) (u : Row c.dim)
    (law : Measure (ℕ → Ω)) (hlaw : law.map (fun ω => ω 0) = P) :
    (∀ ω, ∃ r, (f.env lo eps).loglik (Mcmc.batchFilter n ⟨u, u⟩ ys ω) = fin r) ∧
    ∫⁻ ω, ENNReal.ofReal (expMass ((f.env lo eps).loglik (Mcmc.batchFilter n ⟨u, u⟩ ys ω))) ∂law
      = likelihood f.opt.observeEveryStep f.missing μ K logg ys (c.unstack u false) := by
  obtain ⟨R, hR, h1, h2⟩ := loglik_estimate hs lo eps ys
  refine ⟨fun ω => ⟨_, h1 u u ω⟩, ?_⟩
  simp only [h1, expMass]
  rw [← h2, ← hlaw, lintegral_map]
  · exact (Real.measurable_exp.comp (hR.comp measurable_prodMk_left)).ennreal_ofReal
  · exact measurable_pi_apply 0

/-- The target of PMMH is measurable. -/
theorem measurable_pmmhTarget (hs : PmmhSetup P f n μ K logg) (lo eps : ℝ) (ys : List Y) :
    Measurable (pmmhTarget (Ω := Ω) (f.env lo eps) n ys) := by
  obtain ⟨R, hR, h1, h2⟩ := loglik_estimate hs lo eps ys
  have htar : pmmhTarget (Ω := Ω) (f.env lo eps) n ys = fun x : Pt c.dim Ω =>
      Real.exp (R (c.unstack x.1 false, x.2 0)) * expMass (c.logPrior x.1) := by
    funext x
    unfold pmmhTarget Pt.slot
    rw [h1]
    rfl
  rw [htar]
  refine Measurable.mul (Real.measurable_exp.comp (hR.comp (Measurable.prodMk ?_ ?_))) ?_
  · exact (measurable_unstack c).comp measurable_fst
  · exact (measurable_pi_apply 0).comp measurable_snd
  · exact (measurable_logPrior c hs.supports hs.proper hs.measurable_prior).comp measurable_fst

/-- Under the target of PMMH the parameters have prior times likelihood as density. -/
theorem pmmh_marginal (hs : PmmhSetup P f n μ K logg) (lo eps : ℝ) (ys : List Y) (law : Measure (ℕ → Ω))
    [IsProbabilityMeasure law] (hlaw : law.map (fun ω => ω 0) = P) {A : Set (∀ i, Fin (c.numel i) → ℝ)}
    (hA : MeasurableSet A) :
    ((Measure.prod volume law).withDensity fun x => ENNReal.ofReal (pmmhTarget (f.env lo eps) n ys x))
      {x : Pt c.dim Ω | c.unstack x.1 false ∈ A} =
    ∫⁻ θ in space c ∩ A, jointPrior c θ * likelihood f.opt.observeEveryStep f.missing μ K logg ys θ := by
  have hmt := measurable_pmmhTarget hs lo eps ys
  have hA' : MeasurableSet {x : Pt c.dim Ω | c.unstack x.1 false ∈ A} :=
    ((measurable_unstack c).comp measurable_fst) hA
  have hg : Measurable fun x : Pt c.dim Ω => ENNReal.ofReal (pmmhTarget (f.env lo eps) n ys x) :=
    hmt.ennreal_ofReal
  rw [withDensity_apply _ hA', ← lintegral_indicator hA', lintegral_prod _ (hg.indicator hA').aemeasurable]
  have hin : ∀ u : Row c.dim, ∫⁻ ω, ({x : Pt c.dim Ω | c.unstack x.1 false ∈ A}.indicator
        (fun x => ENNReal.ofReal (pmmhTarget (f.env lo eps) n ys x)) (u, ω)) ∂law
      = ENNReal.ofReal (expMass (c.logPrior u)) * (A.indicator
          (fun θ => likelihood f.opt.observeEveryStep f.missing μ K logg ys θ) (c.unstack u false)) := by
    intro u
    by_cases hu : c.unstack u false ∈ A
    · have e1 : ∀ ω, ({x : Pt c.dim Ω | c.unstack x.1 false ∈ A}.indicator
          (fun x => ENNReal.ofReal (pmmhTarget (f.env lo eps) n ys x)) (u, ω))
          = ENNReal.ofReal (pmmhTarget (f.env lo eps) n ys (u, ω)) := fun ω =>
        Set.indicator_of_mem (show (u, ω) ∈ {x : Pt c.dim Ω | c.unstack x.1 false ∈ A} from hu) _
      simp only [e1]
      rw [C70_marginal, (C93_likelihood hs lo eps ys u law hlaw).2, Set.indicator_of_mem hu, mul_comm]
      rfl
    · have e1 : ∀ ω, ({x : Pt c.dim Ω | c.unstack x.1 false ∈ A}.indicator
          (fun x => ENNReal.ofReal (pmmhTarget (f.env lo eps) n ys x)) (u, ω)) = 0 := fun ω =>
        Set.indicator_of_notMem (show (u, ω) ∉ {x : Pt c.dim Ω | c.unstack x.1 false ∈ A} from hu) _
      simp only [e1, lintegral_zero, Set.indicator_of_notMem hu, mul_zero]
  simp only [hin]
  have hcv := C92_change_of_variables c hs.supports hs.proper (A.indicator
    (fun θ => likelihood f.opt.observeEveryStep f.missing μ K logg ys θ))
  rw [hcv, Set.inter_comm, ← Measure.restrict_restrict hA, ← lintegral_indicator hA]
  refine lintegral_congr fun θ => ?_
  by_cases hθ : θ ∈ A
  · simp [hθ]
  · simp [hθ]


/-- **C93.** There is a distribution (up to its total mass) on parameters and random numbers that a move of
PMMH with the random walk proposal leaves invariant, and under it the parameters are distributed as the
posterior: the product of joint prior and likelihood, on the constrained space. This holds for any number of
particles. Slot `i` of the batch is considered; `ch x` and `r y u` are any states and draws in which this
slot is at `x` and proposes `y`. -/
theorem C93_exact (hs : PmmhSetup P f n μ K logg) (lo eps : ℝ) (ys : List Y) (law : Measure (ℕ → Ω))
    [IsProbabilityMeasure law] (hlaw : law.map (fun ω => ω 0) = P) {S : ℕ} (i : Fin S)
    (scale : Row c.dim) (hscale : ∀ j, 0 < scale j) (rep : Fin S → XF)
    (ch : Pt c.dim Ω → Chain S c.dim Y Ω (Gauss S c.dim)) (r : Pt c.dim Ω → ℝ → Mcmc.Draws S c.dim Ω)
    (hat : AtPoint (randomWalk scale) (walkDensity scale) rep ys i n ch r) :
    ∃ π : Measure (Pt c.dim Ω),
      (∀ B, MeasurableSet B → ∫⁻ x, moveProb (f.env lo eps) (randomWalk scale) (walkDensity scale) rep ys i ch r
        law x B ∂π = π B) ∧
      ∀ A, MeasurableSet A → π {x | c.unstack x.1 false ∈ A} =
        ∫⁻ θ in space c ∩ A, jointPrior c θ * likelihood f.opt.observeEveryStep f.missing μ K logg ys θ := by
  obtain ⟨R, hR, h1, h2⟩ := loglik_estimate hs lo eps ys
  have hmt := measurable_pmmhTarget hs lo eps ys
  have hll : ∀ x : Pt c.dim Ω, (f.env lo eps).loglik (x.slot n ys) ≠ .nan ∧
      (f.env lo eps).loglik (x.slot n ys) ≠ .pinf := by
    intro x
    unfold Pt.slot
    rw [h1]
    exact ⟨nofun, nofun⟩
  have hpr : ∀ θ, (f.env lo eps).logPrior θ ≠ .nan ∧ (f.env lo eps).logPrior θ ≠ .pinf :=
    fun θ => C92_defined c hs.supports hs.proper θ
  refine ⟨(Measure.prod volume law).withDensity fun x =>
    ENNReal.ofReal (pmmhTarget (f.env lo eps) n ys x), fun B hB => ?_, fun A hA => ?_⟩
  · rw [lintegral_withDensity_eq_lintegral_mul_non_measurable _ hmt.ennreal_ofReal
      (Filter.Eventually.of_forall fun _ => ENNReal.ofReal_lt_top), withDensity_apply _ hB]
    exact C70_invariant (f.env lo eps) scale hscale rep ys i n ch r hat hll hpr law hmt B hB
  · exact pmmh_marginal hs lo eps ys law hlaw hA

end

/-! ### A case: an autoregressive process with unknown parameters -/

/-- The random walk of the hidden state: coefficient in (-1, 1), positive scale. -/
noncomputable def exactMove (θ : ∀ i, Fin (priorDemo.numel i) → ℝ) (_b : Fin 1) (_t : ℕ)
    (q : (Fin 1 → ℝ) × ℝ) : Fin 1 → ℝ :=
  fun j => θ (2 : Fin 3) (0 : Fin 1) * q.1 j + θ (1 : Fin 3) (0 : Fin 1) * q.2

/-- Normal observations around the state shifted by the first parameter. -/
noncomputable def exactLogg (θ : ∀ i, Fin (priorDemo.numel i) → ℝ) (y : ℝ) (_t : ℕ) (x : Fin 1 → ℝ) : ℝ :=
  -(y - x 0 - θ (0 : Fin 3) (0 : Fin 2)) ^ 2 / 2

/-- A filter with systematic resampling and the bootstrap proposal for this model, observed every second step.
The pre-weight of the APF is the log-density at the mean of the next state. -/
noncomputable def exactFilter (kind : FilterKind) : Builder (∀ i, Fin (priorDemo.numel i) → ℝ) 1 ℝ ℝ (ℕ → DemoEntry) where
  kind := kind
  opt := ⟨2, false, .skip⟩
  fuel := 1
  lo := -1000
  threshold n := 9 / 10 * n
  resampler _n _b := systematicResampler (-1000) fun ω => ((next ω).1.1, (next ω).2)
  proposal := .bootstrap
  missing _ := false
  init n _ ω := (fun i b _ => (next ω).1.2 ((i : ℕ), (b : ℕ)), (next ω).2)
  hidden _ θ := noisePropagate (fun ω => ((next ω).1.2, (next ω).2)) (exactMove θ)
  sample _ θ := bootstrapSample (noisePropagate (fun ω => ((next ω).1.2, (next ω).2)) (exactMove θ))
    fun y x i b => fin (exactLogg θ y x.time (x.value i b))
  preWeight _ θ y x i b := fin (exactLogg θ y (x.time + 1) (exactMove θ b x.time (x.value i b, 0)))

theorem exact_setup (kind : FilterKind) (h : kind = .sisr ∨ kind = .apf) (n : ℕ) (hn : 0 < n) :
    PmmhSetup (c := priorDemo) (streamLaw demoEntryLaw) (exactFilter kind) n
    (fun _ => (gaussianReal 0 1).map fun z _ => z)
    (fun θ t => noiseKernel (gaussianReal 0 1) (exactMove θ 0 t)) exactLogg where
  filter := by
    rcases h with rfl | rfl
    · exact Or.inl ⟨rfl, (systematic_unbiased (-1000) demo_rand).1⟩
    · refine Or.inr ⟨rfl, (systematic_unbiased (-1000) demo_rand).2, fun y t => ?_⟩
      refine ⟨fun q i b => exactLogg q.1 y (t + 1) (exactMove q.1 b t (q.2 i b, 0)), ?_, fun _ _ _ _ => rfl⟩
      unfold exactLogg exactMove
      fun_prop
  clock := rfl
  particles := hn
  frequency := two_pos
  fuel := le_refl _
  models := by
    have hnoise := demo_noise.measurable
    refine bootstrap_family ?_ ?_ ?_ ?_ ?_ fun _ => rfl
    · have h1 : Measurable fun ω : ℕ → DemoEntry =>
          ((fun i b _ => (next ω).1.2 ((i : ℕ), (b : ℕ)), (next ω).2) :
            (Fin n → Fin 1 → Fin 1 → ℝ) × (ℕ → DemoEntry)) := by
        have h3 : Measurable fun ω : ℕ → DemoEntry => (next ω).2 := (measurable_snd.comp hnoise :)
        refine Measurable.prodMk ?_ h3
        have h2 : Measurable fun v : ℕ × ℕ → ℝ => (fun i b _ => v ((i : ℕ), (b : ℕ)) :
            Fin n → Fin 1 → Fin 1 → ℝ) := by fun_prop
        exact h2.comp (measurable_fst.comp hnoise :)
      exact h1.comp measurable_snd
    · exact fun _ => noise_initial _ demo_noise (f := fun _ z _ => z) fun _ => by fun_prop
    · intro t
      refine Measurable.prodMk ?_ (measurable_snd.comp (hnoise.comp (measurable_snd.comp measurable_snd)))
      have h1 : Measurable fun q : (∀ i, Fin (priorDemo.numel i) → ℝ) × (Fin n → Fin 1 → Fin 1 → ℝ) ×
          (ℕ × ℕ → ℝ) => (fun i b => exactMove q.1 b t (q.2.1 i b, q.2.2 ((i : ℕ), (b : ℕ))) :
            Fin n → Fin 1 → Fin 1 → ℝ) := by
        unfold exactMove
        fun_prop
      exact h1.comp (measurable_fst.prodMk ((measurable_fst.comp measurable_snd).prodMk
        (measurable_fst.comp (hnoise.comp (measurable_snd.comp measurable_snd)))))
    · intro θ
      have := noise_transitions (N := n) (B := 1) (d := 1) (V := ℝ) (gaussianReal 0 1) demo_noise
        (f := exactMove θ) fun b t => by unfold exactMove; fun_prop
      exact this
    · intro y t
      unfold exactLogg
      fun_prop
  supports := priorDemo_valid
  proper := priorDemo_proper
  measurable_prior := by
    intro i
    match i with
    | ⟨0, _⟩ =>
      have : Measurable fun x : Fin 2 → ℝ =>
          Real.exp (-(x 0) ^ 2 / 2 - (x 1) ^ 2 / 2 - Real.log (2 * Real.pi)) := by fun_prop
      exact this
    | ⟨1, _⟩ =>
      have : Measurable fun x : Fin 1 → ℝ => Real.exp (-x 0) := by fun_prop
      exact this
    | ⟨2, _⟩ => exact measurable_const

/-- Two chains of which the second is at the point. -/
noncomputable def exactChain (x : Pt priorDemo.dim (ℕ → DemoEntry)) :
    Chain 2 priorDemo.dim ℝ (ℕ → DemoEntry) (Gauss 2 priorDemo.dim) where
  params i := if i = 1 then x.1 else fun _ => 5
  res _ := x.slot 100 [3, 1]
  kernel := ⟨fun i => if i = 1 then x.1 else fun _ => 5, fun _ _ => 2⟩
  sub _ _ := 0
  subBuilt _ _ := 0
  particles := 100

/-- Draws that propose the point in the second chain. -/
def exactDraws (y : Pt priorDemo.dim (ℕ → DemoEntry)) (u : ℝ) :
    Mcmc.Draws 2 priorDemo.dim (ℕ → DemoEntry) where
  rvs i := if i = 1 then y.1 else fun _ => 0
  noise _ := y.2
  u i := if i = 1 then u else 0

/-- With SISR or APF as filter. -/
example (kind : FilterKind) (h : kind = .sisr ∨ kind = .apf) : ∃ π : Measure (Pt priorDemo.dim (ℕ → DemoEntry)),
    (∀ B, MeasurableSet B → ∫⁻ x, moveProb ((exactFilter kind).env (-1000) (1 / 1000)) (randomWalk fun _ => 2)
      (walkDensity fun _ => 2) (fun _ => 0) [3, 1] 1 exactChain exactDraws
      (Measure.infinitePi fun _ => streamLaw demoEntryLaw) x B ∂π = π B) ∧
    ∀ A, MeasurableSet A → π {x | priorDemo.unstack x.1 false ∈ A} =
      ∫⁻ θ in space priorDemo ∩ A, jointPrior priorDemo θ *
        likelihood 2 (fun _ => false) (fun _ => (gaussianReal 0 1).map fun z _ => z)
          (fun θ t => noiseKernel (gaussianReal 0 1) (exactMove θ 0 t)) exactLogg [3, 1] θ :=
  C93_exact (exact_setup kind h 100 (by norm_num)) (-1000) (1 / 1000) [3, 1] _
    (measurePreserving_eval_infinitePi (fun _ => streamLaw demoEntryLaw) 0).map_eq 1 (fun _ => 2)
    (fun _ => two_pos) (fun _ => 0) exactChain exactDraws
    (atPoint_randomWalk _ _ _ _ _ _ _ (fun _ => rfl) (fun _ => rfl) (fun _ => rfl) (fun _ => rfl) (fun _ => rfl)
      (fun _ _ => rfl) (fun _ _ => rfl) (fun _ _ => rfl))

end Verif.Props
