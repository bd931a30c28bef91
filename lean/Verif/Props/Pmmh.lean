import Verif.Lemmas.Metropolis

/-!
# Particle marginal Metropolis–Hastings: C70–C73
-/

namespace Verif.Props

open Mcmc MeasureTheory Set
open scoped ENNReal

/-! ### C70: acceptance -/

/-- The uniform draws with which slot `i` accepts have exactly the Metropolis–Hastings probability of
the log-ratio: every context, proposal, state and candidate. -/
theorem C70_probability {P d : ℕ} {Y Ω K : Type} (env : Env d Y Ω) (prop : Proposal P d Y Ω K)
    (c : Chain P d Y Ω K) (ys : List Y) (rvs : Fin P → Row d) (noise : Fin P → ℕ → Ω)
    (rep : Fin P → XF) (i : Fin P) (others : ℝ → Fin P → ℝ) (hothers : ∀ u, others u i = u) :
    volume {u : ℝ | u ∈ Ico (0 : ℝ) 1 ∧ accepted env prop c ys ⟨rvs, noise, others u⟩ rep i = true} =
      ENNReal.ofReal (Spec.accProb (logAcc env prop c ys ⟨rvs, noise, others 0⟩ rep i)) := by
  rw [← accept_volume]
  congr 1
  ext u
  simp only [mem_setOf_eq, accepted, decide_eq_true_eq, hothers]
  rfl

/-- The ratio: likelihood of the candidate times prior times reverse proposal density over likelihood times
prior times forward proposal density. A candidate of density zero counts as zero. -/
theorem C70_ratio {P d : ℕ} {Y Ω K : Type} (env : Env d Y Ω) (prop : Proposal P d Y Ω K)
    (c : Chain P d Y Ω K) (ys : List Y) (r : Draws P d Ω) (rep : Fin P → XF) (i : Fin P) (l p q : ℝ)
    (hl : env.loglik (c.res i) = .fin l) (hp : env.logPrior (c.params i) = .fin p)
    (hq : prop.logProb c.kernel i (r.rvs i) = .fin q) (l' p' q' : XF)
    (hl' : env.loglik (batchFilter c.particles ⟨r.rvs i, r.rvs i⟩ ys (r.noise i)) = l')
    (hp' : env.logPrior (r.rvs i) = p')
    (hq' : prop.logProb (prop.build r.rvs (candidates c.particles ys r) rep) i (c.params i) = q')
    (hd : ∀ x ∈ [l', p', q'], x ≠ .nan ∧ x ≠ .pinf) :
    Spec.accProb (logAcc env prop c ys r rep i) =
      min 1 (Spec.expMass l' * Spec.expMass p' * Spec.expMass q' / (Real.exp l * Real.exp p * Real.exp q)) := by
  have e : logAcc env prop c ys r rep i = (q' - .fin q) + (p' - .fin p) + (l' - .fin l) := by
    show (prop.logProb _ i _ - prop.logProb _ i _) + (env.logPrior _ - env.logPrior _) +
      (env.loglik (batchFilter c.particles ⟨r.rvs i, r.rvs i⟩ ys (r.noise i)) - env.loglik _) = _
    rw [hl, hp, hq, hl', hp', hq']
  rw [e]
  have h1 := hd l' (by simp)
  have h2 := hd p' (by simp)
  have h3 := hd q' (by simp)
  cases l' with
  | nan => exact (h1.1 rfl).elim
  | pinf => exact (h1.2 rfl).elim
  | ninf =>
    have : (Spec.expMass .ninf : ℝ) = 0 := rfl
    rw [this, zero_mul, zero_mul, zero_div, min_eq_right zero_le_one]
    cases p' with
    | nan => exact (h2.1 rfl).elim
    | pinf => exact (h2.2 rfl).elim
    | ninf => cases q' with
      | nan => exact (h3.1 rfl).elim
      | pinf => exact (h3.2 rfl).elim
      | ninf => rfl
      | fin q' => rfl
    | fin p' => cases q' with
      | nan => exact (h3.1 rfl).elim
      | pinf => exact (h3.2 rfl).elim
      | ninf => rfl
      | fin q' => rfl
  | fin l' => cases p' with
    | nan => exact (h2.1 rfl).elim
    | pinf => exact (h2.2 rfl).elim
    | ninf =>
      have : (Spec.expMass .ninf : ℝ) = 0 := rfl
      rw [this, mul_zero, zero_mul, zero_div, min_eq_right zero_le_one]
      cases q' with
      | nan => exact (h3.1 rfl).elim
      | pinf => exact (h3.2 rfl).elim
      | ninf => rfl
      | fin q' => rfl
    | fin p' => cases q' with
      | nan => exact (h3.1 rfl).elim
      | pinf => exact (h3.2 rfl).elim
      | ninf =>
        have : (Spec.expMass .ninf : ℝ) = 0 := rfl
        rw [this, mul_zero, zero_div, min_eq_right zero_le_one]
        rfl
      | fin q' =>
        show min 1 (Real.exp ((q' + -q) + (p' + -p) + (l' + -l))) =
          min 1 (Real.exp l' * Real.exp p' * Real.exp q' / (Real.exp l * Real.exp p * Real.exp q))
        simp only [← Real.exp_add, ← Real.exp_sub]
        congr 2
        ring

/-- A proposal whose ratio is undefined is rejected, whatever the uniform draw: the slot keeps its
parameters and its filter. -/
theorem C70_undefined_rejected {P d : ℕ} {Y Ω K : Type} (env : Env d Y Ω) (prop : Proposal P d Y Ω K)
    (mutate : Bool) (c : Chain P d Y Ω K) (ys : List Y) (r : Draws P d Ω) (rep : Fin P → XF) (i : Fin P)
    (h : logAcc env prop c ys r rep i = .nan) :
    (runPmmh env prop mutate rep c ys r).2 i = false ∧
      (runPmmh env prop mutate rep c ys r).1.params i = c.params i ∧
      (runPmmh env prop mutate rep c ys r).1.res i = c.res i := by
  have hacc : accepted env prop c ys r rep i = false := by
    simp only [accepted, h, decide_eq_false_iff_not]
    cases XF.log (.fin (r.u i)) <;> exact fun h => h
  refine ⟨hacc, ?_, ?_⟩
  · simp only [runPmmh, hacc, Bool.false_eq_true, if_false]
  · simp only [runPmmh, hacc, Bool.false_eq_true, if_false]

/-- The state of one chain: a parameter vector and the random numbers its filter was run with. -/
abbrev Pt (d : ℕ) (Ω : Type) := Row d × (ℕ → Ω)

/-- The filter result that belongs to the state of a chain. -/
def Pt.slot {d : ℕ} {Y Ω : Type} (particles : ℕ) (ys : List Y) (x : Pt d Ω) : Slot d Y Ω :=
  batchFilter particles ⟨x.1, x.1⟩ ys x.2

/-- The target: prior times the likelihood estimate of the filter (density with respect to Lebesgue measure on
the parameters and the law of the random numbers). -/
noncomputable def pmmhTarget {d : ℕ} {Y Ω : Type} (env : Env d Y Ω) (particles : ℕ) (ys : List Y)
    (x : Pt d Ω) : ℝ :=
  Spec.expMass (env.loglik (x.slot particles ys)) * Spec.expMass (env.logPrior x.1)

/-- Slot `i` of the chain `c x` is at `x`, and its kernel is the one of a family `k` of log-densities
that depends on the parameters of the slot only. -/
structure AtPoint {P d : ℕ} {Y Ω K : Type} (prop : Proposal P d Y Ω K) (k : Row d → Row d → ℝ)
    (rep : Fin P → XF) (ys : List Y) (i : Fin P) (particles : ℕ) (c : Pt d Ω → Chain P d Y Ω K)
    (r : Pt d Ω → ℝ → Draws P d Ω) : Prop where
  params : ∀ x, (c x).params i = x.1
  res : ∀ x, (c x).res i = x.slot particles ys
  count : ∀ x, (c x).particles = particles
  forward : ∀ x y, prop.logProb (c x).kernel i y = .fin (k x.1 y)
  reverse : ∀ x u y, prop.logProb (prop.build (r x u).rvs (candidates particles ys (r x u)) rep) i y =
    .fin (k x.1 y)
  rvs : ∀ y u, (r y u).rvs i = y.1
  noise : ∀ y u, (r y u).noise i = y.2
  uniform : ∀ y u, (r y u).u i = u

/-- Where slot `i` is after one call of `run_pmmh`. -/
theorem C70_move {P d : ℕ} {Y Ω K : Type} (env : Env d Y Ω) (prop : Proposal P d Y Ω K)
    (k : Row d → Row d → ℝ) (rep : Fin P → XF) (ys : List Y) (i : Fin P) (particles : ℕ) (mutate : Bool)
    (c : Pt d Ω → Chain P d Y Ω K) (r : Pt d Ω → ℝ → Draws P d Ω)
    (hat : AtPoint prop k rep ys i particles c r) (x y : Pt d Ω) (u : ℝ) :
    let out := runPmmh env prop mutate rep (c x) ys (r y u)
    let next := if accepted env prop (c x) ys (r y u) rep i then y else x
    out.1.params i = next.1 ∧ out.1.res i = next.slot particles ys := by
  intro out next
  by_cases h : accepted env prop (c x) ys (r y u) rep i
  · have hn : next = y := by simp only [next, h, if_true]
    have h1 : out.1.params i = (r y u).rvs i := by simp only [out, runPmmh, h, if_true]
    have h2 : out.1.res i = candidates (c x).particles ys (r y u) i := by
      simp only [out, runPmmh, h, if_true]
    rw [hn, h1, h2, hat.rvs]
    refine ⟨rfl, ?_⟩
    simp only [candidates, hat.rvs, hat.noise, hat.count, Pt.slot]
  · have hn : next = x := if_neg h
    have h1 : out.1.params i = (c x).params i := by simp only [out, runPmmh, if_neg h]
    have h2 : out.1.res i = (c x).res i := by simp only [out, runPmmh, if_neg h]
    rw [hn, h1, h2, hat.params, hat.res]
    exact ⟨rfl, rfl⟩

/-- The flow from `x` to `y`, with the uniform draw integrated out. -/
theorem flow_eq {P d : ℕ} {Y Ω K : Type} (env : Env d Y Ω) (prop : Proposal P d Y Ω K)
    (k : Row d → Row d → ℝ) (rep : Fin P → XF) (ys : List Y) (i : Fin P) (particles : ℕ)
    (c : Pt d Ω → Chain P d Y Ω K) (r : Pt d Ω → ℝ → Draws P d Ω)
    (hat : AtPoint prop k rep ys i particles c r)
    (hll : ∀ x : Pt d Ω, env.loglik (x.slot particles ys) ≠ .nan ∧ env.loglik (x.slot particles ys) ≠ .pinf)
    (hpr : ∀ θ, env.logPrior θ ≠ .nan ∧ env.logPrior θ ≠ .pinf) (f : Pt d Ω → ℝ≥0∞) (x y : Pt d Ω) :
    ENNReal.ofReal (pmmhTarget env particles ys x) * (ENNReal.ofReal (Real.exp (k x.1 y.1)) *
        ∫⁻ u in Ico (0 : ℝ) 1, f (if accepted env prop (c x) ys (r y u) rep i then y else x)) =
      ENNReal.ofReal (min (pmmhTarget env particles ys x * Real.exp (k x.1 y.1))
          (pmmhTarget env particles ys y * Real.exp (k y.1 x.1))) * f y +
        ENNReal.ofReal (pmmhTarget env particles ys x * Real.exp (k x.1 y.1) -
          min (pmmhTarget env particles ys x * Real.exp (k x.1 y.1))
            (pmmhTarget env particles ys y * Real.exp (k y.1 x.1))) * f x := by
  set a : XF := (.fin (k y.1 x.1) - .fin (k x.1 y.1)) + (env.logPrior y.1 - env.logPrior x.1) +
    (env.loglik (y.slot particles ys) - env.loglik (x.slot particles ys)) with ha
  have e : ∀ u, accepted env prop (c x) ys (r y u) rep i =
      (open Classical in decide (XF.lt (XF.log (.fin u)) a)) := by
    intro u
    have : logAcc env prop (c x) ys (r y u) rep i = a := by
      simp only [logAcc, hat.params, hat.res, hat.count, hat.forward, hat.reverse, hat.rvs, ha]
      simp only [candidates, hat.rvs, hat.noise, Pt.slot]
    exact decide_eq_decide.2 (by rw [this, hat.uniform])
  have e2 : ∫⁻ u in Ico (0 : ℝ) 1, f (if accepted env prop (c x) ys (r y u) rep i then y else x) =
      ENNReal.ofReal (Spec.accProb a) * f y + (1 - ENNReal.ofReal (Spec.accProb a)) * f x := by
    rw [← integral_choice]
    apply lintegral_congr
    intro u
    rw [e u]
    by_cases h : XF.lt (XF.log (.fin u)) a <;> simp [h]
  have hnn : 0 ≤ pmmhTarget env particles ys x := by
    have h0 : ∀ x : XF, 0 ≤ Spec.expMass x := by
      intro x
      cases x with
      | fin a => exact (Real.exp_pos a).le
      | _ => exact le_refl _
    exact mul_nonneg (h0 _) (h0 _)
  have key := mass_mul_accProb (env.loglik (x.slot particles ys)) (env.loglik (y.slot particles ys))
    (env.logPrior x.1) (env.logPrior y.1) (k x.1 y.1) (k y.1 x.1) (hll x) (hll y) (hpr _) (hpr _)
  rw [← ha] at key
  rw [e2, mul_add, mul_add, ← mul_assoc, ← mul_assoc, ← mul_assoc, ← mul_assoc,
    ← ENNReal.ofReal_mul hnn]
  have hnn2 : 0 ≤ pmmhTarget env particles ys x * Real.exp (k x.1 y.1) :=
    mul_nonneg hnn (Real.exp_pos _).le
  congr 2
  · rw [← ENNReal.ofReal_mul hnn2]
    congr 1
  · rw [ENNReal.mul_sub (fun _ _ => ENNReal.ofReal_ne_top), mul_one, ← ENNReal.ofReal_mul hnn2,
      ENNReal.ofReal_sub]
    · congr 2
    · refine le_min hnn2 (mul_nonneg ?_ (Real.exp_pos _).le)
      have h0 : ∀ x : XF, 0 ≤ Spec.expMass x := by
        intro x
        cases x with
        | fin a => exact (Real.exp_pos a).le
        | _ => exact le_refl _
      exact mul_nonneg (h0 _) (h0 _)

/-- Probability that slot `i`, being at `x`, is in `B` after one call of `run_pmmh` (`C70_move`): the
candidate parameters are drawn with density `exp k`, the random numbers of the filter with law `law` and the
uniform number on [0, 1). -/
noncomputable def moveProb {P d : ℕ} {Y Ω K : Type} [MeasurableSpace Ω] (env : Env d Y Ω)
    (prop : Proposal P d Y Ω K) (k : Row d → Row d → ℝ) (rep : Fin P → XF) (ys : List Y) (i : Fin P)
    (c : Pt d Ω → Chain P d Y Ω K) (r : Pt d Ω → ℝ → Draws P d Ω) (law : Measure (ℕ → Ω)) (x : Pt d Ω)
    (B : Set (Pt d Ω)) : ℝ≥0∞ :=
  ∫⁻ y : Pt d Ω, ENNReal.ofReal (Real.exp (k x.1 y.1)) *
    (∫⁻ u in Ico (0 : ℝ) 1, B.indicator 1 (if accepted env prop (c x) ys (r y u) rep i then y else x))
    ∂(Measure.prod volume law)

/-- Every slot moves reversibly with respect to prior times likelihood estimate: the probability of being in
`A` and moving to `B` equals that of being in `B` and moving to `A`, where the state of the slot is its
parameter vector together with the random numbers of its filter. `k` is the log-density of the proposal
given the parameters of the slot; `c x` is any state of the algorithm whose slot `i` is at `x`. -/
theorem C70_reversible {P d : ℕ} {Y Ω K : Type} [MeasurableSpace Ω] (env : Env d Y Ω)
    (prop : Proposal P d Y Ω K) (k : Row d → Row d → ℝ) (rep : Fin P → XF) (ys : List Y) (i : Fin P)
    (particles : ℕ) (c : Pt d Ω → Chain P d Y Ω K) (r : Pt d Ω → ℝ → Draws P d Ω)
    (hat : AtPoint prop k rep ys i particles c r)
    (hll : ∀ x : Pt d Ω, env.loglik (x.slot particles ys) ≠ .nan ∧ env.loglik (x.slot particles ys) ≠ .pinf)
    (hpr : ∀ θ, env.logPrior θ ≠ .nan ∧ env.logPrior θ ≠ .pinf)
    (law : Measure (ℕ → Ω)) [IsProbabilityMeasure law] (hmt : Measurable (pmmhTarget (Ω := Ω) env particles ys))
    (hmk : Measurable (Function.uncurry k)) (A B : Set (Pt d Ω)) (hA : MeasurableSet A)
    (hB : MeasurableSet B) :
    ∫⁻ x in A, ENNReal.ofReal (pmmhTarget env particles ys x) * moveProb env prop k rep ys i c r law x B
        ∂(Measure.prod volume law) =
      ∫⁻ x in B, ENNReal.ofReal (pmmhTarget env particles ys x) * moveProb env prop k rep ys i c r law x A
        ∂(Measure.prod volume law) := by
  have hmQ : Measurable fun z : Pt d Ω × Pt d Ω => Real.exp (k z.1.1 z.2.1) :=
    Real.measurable_exp.comp (hmk.comp ((measurable_fst.comp measurable_fst).prodMk
      (measurable_fst.comp measurable_snd)))
  have hmQ' : Measurable fun z : Pt d Ω × Pt d Ω => Real.exp (k z.2.1 z.1.1) :=
    Real.measurable_exp.comp (hmk.comp ((measurable_fst.comp measurable_snd).prodMk
      (measurable_fst.comp measurable_fst)))
  have hf : Measurable fun z : Pt d Ω × Pt d Ω =>
      pmmhTarget env particles ys z.1 * Real.exp (k z.1.1 z.2.1) := (hmt.comp measurable_fst).mul hmQ
  have hg : Measurable fun z : Pt d Ω × Pt d Ω =>
      pmmhTarget env particles ys z.2 * Real.exp (k z.2.1 z.1.1) := (hmt.comp measurable_snd).mul hmQ'
  have step : ∀ (C : Set (Pt d Ω)) (x : Pt d Ω),
      ENNReal.ofReal (pmmhTarget env particles ys x) * moveProb env prop k rep ys i c r law x C =
      ∫⁻ y : Pt d Ω, (ENNReal.ofReal (min (pmmhTarget env particles ys x * Real.exp (k x.1 y.1))
          (pmmhTarget env particles ys y * Real.exp (k y.1 x.1))) * C.indicator 1 y +
        ENNReal.ofReal (pmmhTarget env particles ys x * Real.exp (k x.1 y.1) -
          min (pmmhTarget env particles ys x * Real.exp (k x.1 y.1))
            (pmmhTarget env particles ys y * Real.exp (k y.1 x.1))) * C.indicator 1 x)
        ∂(Measure.prod volume law) := by
    intro C x
    unfold moveProb
    rw [← lintegral_const_mul' _ _ ENNReal.ofReal_ne_top]
    apply lintegral_congr
    intro y
    exact flow_eq env prop k rep ys i particles c r hat hll hpr (C.indicator 1) x y
  simp only [step]
  exact reversible_of_symmetric (Measure.prod volume law)
    (fun x y => ENNReal.ofReal (min (pmmhTarget env particles ys x * Real.exp (k x.1 y.1))
          (pmmhTarget env particles ys y * Real.exp (k y.1 x.1))))
    (ENNReal.measurable_ofReal.comp (hf.min hg))
    (fun x y => by rw [min_comm])
    (fun x y => ENNReal.ofReal (pmmhTarget env particles ys x * Real.exp (k x.1 y.1) -
          min (pmmhTarget env particles ys x * Real.exp (k x.1 y.1))
            (pmmhTarget env particles ys y * Real.exp (k y.1 x.1))))
    (ENNReal.measurable_ofReal.comp (hf.sub (hf.min hg))) A B hA hB

/-- Integrating the random numbers of the filter out of the target leaves prior times the expectation of the
likelihood estimate. -/
theorem C70_marginal {d : ℕ} {Y Ω : Type} [MeasurableSpace Ω] (env : Env d Y Ω) (particles : ℕ)
    (ys : List Y) (law : Measure (ℕ → Ω)) (θ : Row d) :
    ∫⁻ ω, ENNReal.ofReal (pmmhTarget env particles ys (θ, ω)) ∂law =
      (∫⁻ ω, ENNReal.ofReal (Spec.expMass (env.loglik (batchFilter particles ⟨θ, θ⟩ ys ω))) ∂law) *
        ENNReal.ofReal (Spec.expMass (env.logPrior θ)) := by
  rw [← lintegral_mul_const' _ _ ENNReal.ofReal_ne_top]
  apply lintegral_congr
  intro ω
  have h0 : ∀ x : XF, 0 ≤ Spec.expMass x := by
    intro x
    cases x with
    | fin a => exact (Real.exp_pos a).le
    | _ => exact le_refl _
  exact ENNReal.ofReal_mul (h0 _)

/-- The log-density of the random walk. -/
noncomputable def walkDensity {d : ℕ} (scale : Row d) (θ x : Row d) : ℝ := ∑ j, logNormal (θ j) (scale j) (x j)

/-- States and draws whose slot `i` is at a point, for the random walk with the kernel centred at the
parameters (C72). -/
theorem atPoint_randomWalk {P d : ℕ} {Y Ω : Type} (scale : Row d) (rep : Fin P → XF) (ys : List Y) (i : Fin P)
    (particles : ℕ) (c : Pt d Ω → Chain P d Y Ω (Gauss P d)) (r : Pt d Ω → ℝ → Draws P d Ω)
    (hparams : ∀ x, (c x).params i = x.1) (hres : ∀ x, (c x).res i = x.slot particles ys)
    (hcount : ∀ x, (c x).particles = particles) (hloc : ∀ x, (c x).kernel.loc i = (c x).params i)
    (hscale : ∀ x, (c x).kernel.scale i = scale) (hrvs : ∀ y u, (r y u).rvs i = y.1)
    (hnoise : ∀ y u, (r y u).noise i = y.2) (hu : ∀ y u, (r y u).u i = u) :
    AtPoint (randomWalk scale) (walkDensity scale) rep ys i particles c r where
  params := hparams
  res := hres
  count := hcount
  forward x y := by
    show Gauss.logProb _ i y = _
    simp only [Gauss.logProb, hloc, hparams, hscale, walkDensity]
  reverse x u y := by
    show Gauss.logProb _ i y = _
    simp only [Gauss.logProb, randomWalk, hrvs, walkDensity]
  rvs := hrvs
  noise := hnoise
  uniform := hu

theorem measurable_walkDensity {d : ℕ} (scale : Row d) : Measurable (Function.uncurry (walkDensity scale)) := by
  unfold walkDensity logNormal Function.uncurry
  fun_prop

theorem walk_normalised {d : ℕ} (scale : Row d) (hscale : ∀ j, 0 < scale j) (θ : Row d) :
    ∫⁻ x : Row d, ENNReal.ofReal (Real.exp (walkDensity scale θ x)) = 1 :=
  gauss_normalised (P := 1) ⟨fun _ => θ, fun _ => scale⟩ 0 hscale

/-- With the random walk, prior times likelihood estimate is invariant: drawing the state of a slot from it
and calling `run_pmmh` gives the same distribution. -/
theorem C70_invariant {P d : ℕ} {Y Ω : Type} [MeasurableSpace Ω] (env : Env d Y Ω) (scale : Row d)
    (hscale : ∀ j, 0 < scale j) (rep : Fin P → XF) (ys : List Y) (i : Fin P) (particles : ℕ)
    (c : Pt d Ω → Chain P d Y Ω (Gauss P d)) (r : Pt d Ω → ℝ → Draws P d Ω)
    (hat : AtPoint (randomWalk scale) (walkDensity scale) rep ys i particles c r)
    (hll : ∀ x : Pt d Ω, env.loglik (x.slot particles ys) ≠ .nan ∧ env.loglik (x.slot particles ys) ≠ .pinf)
    (hpr : ∀ θ, env.logPrior θ ≠ .nan ∧ env.logPrior θ ≠ .pinf)
    (law : Measure (ℕ → Ω)) [IsProbabilityMeasure law] (hmt : Measurable (pmmhTarget (Ω := Ω) env particles ys))
    (B : Set (Pt d Ω)) (hB : MeasurableSet B) :
    ∫⁻ x, ENNReal.ofReal (pmmhTarget env particles ys x) *
        moveProb env (randomWalk scale) (walkDensity scale) rep ys i c r law x B ∂(Measure.prod volume law) =
      ∫⁻ x in B, ENNReal.ofReal (pmmhTarget env particles ys x) ∂(Measure.prod volume law) := by
  have h := C70_reversible env (randomWalk scale) (walkDensity scale) rep ys i particles c r hat hll hpr law hmt
    (measurable_walkDensity scale) univ B MeasurableSet.univ hB
  rw [setLIntegral_univ] at h
  rw [h]
  apply lintegral_congr
  intro x
  have h1 : moveProb env (randomWalk scale) (walkDensity scale) rep ys i c r law x univ = 1 := by
    unfold moveProb
    have e : ∀ y : Pt d Ω, ENNReal.ofReal (Real.exp (walkDensity scale x.1 y.1)) *
        (∫⁻ u in Ico (0 : ℝ) 1, (univ : Set (Pt d Ω)).indicator 1
          (if accepted env (randomWalk scale) (c x) ys (r y u) rep i then y else x)) =
        ENNReal.ofReal (Real.exp (walkDensity scale x.1 y.1)) * 1 := by
      intro y
      congr 1
      simp
    rw [lintegral_congr e]
    have hm : Measurable fun θ : Row d => ENNReal.ofReal (Real.exp (walkDensity scale x.1 θ)) := by
      unfold walkDensity logNormal
      fun_prop
    have e2 := lintegral_prod_mul (μ := (volume : Measure (Row d))) (ν := law)
      (f := fun θ : Row d => ENNReal.ofReal (Real.exp (walkDensity scale x.1 θ)))
      (g := fun _ => (1 : ℝ≥0∞)) hm.aemeasurable aemeasurable_const
    rw [walk_normalised scale hscale, lintegral_one, measure_univ, mul_one] at e2
    exact e2
  rw [h1, mul_one]

/-- Likelihood and prior of the example: a normal observation with the parameter and the random number of the
filter added, a standard normal prior. -/
noncomputable def demoEnv : Env 1 ℝ ℝ where
  inc _ m y o := .fin (-(y - m.live 0 - o) ^ 2 / 2)
  logPrior θ := .fin (-(θ 0) ^ 2 / 2)
  lo := -1000
  eps := 1 / 1000

/-- A state of two chains whose second is at the point; the first is elsewhere. -/
noncomputable def demoChain (x : Pt 1 ℝ) : Chain 2 1 ℝ ℝ (Gauss 2 1) where
  params i := if i = 1 then x.1 else fun _ => 5
  res i := if i = 1 then x.slot 10 [3] else .start 10 ⟨fun _ => 5, fun _ => 5⟩ 0
  kernel := ⟨fun i => if i = 1 then x.1 else fun _ => 5, fun _ _ => 2⟩
  sub _ _ := 0
  subBuilt _ _ := 0
  particles := 10

/-- Draws that propose the point in the second chain. -/
def demoDraws (y : Pt 1 ℝ) (u : ℝ) : Draws 2 1 ℝ where
  rvs i := if i = 1 then y.1 else fun _ => 0
  noise i := if i = 1 then y.2 else fun _ => 0
  u i := if i = 1 then u else 0

theorem demo_atPoint : AtPoint (randomWalk fun _ => 2) (walkDensity fun _ => 2) (fun _ => 0) [3] 1 10 demoChain
    demoDraws :=
  atPoint_randomWalk _ _ _ _ _ _ _ (fun _ => rfl) (fun _ => rfl) (fun _ => rfl) (fun _ => rfl) (fun _ => rfl)
    (fun _ _ => rfl) (fun _ _ => rfl) (fun _ _ => rfl)

theorem demo_target (x : Pt 1 ℝ) :
    pmmhTarget demoEnv 10 [3] x = Real.exp (0 + -(3 - x.1 0 - x.2 1) ^ 2 / 2) * Real.exp (-(x.1 0) ^ 2 / 2) := rfl

/-- A case: reversibility and invariance for every law of the random numbers. -/
example (law : Measure (ℕ → ℝ)) [IsProbabilityMeasure law] (B : Set (Pt 1 ℝ)) (hB : MeasurableSet B) :
    ∫⁻ x, ENNReal.ofReal (pmmhTarget demoEnv 10 [3] x) *
        moveProb demoEnv (randomWalk fun _ => 2) (walkDensity fun _ => 2) (fun _ => 0) [3] 1 demoChain demoDraws
          law x B ∂(Measure.prod volume law) =
      ∫⁻ x in B, ENNReal.ofReal (pmmhTarget demoEnv 10 [3] x) ∂(Measure.prod volume law) :=
  C70_invariant demoEnv (fun _ => 2) (fun _ => two_pos) (fun _ => 0) [3] 1 10 demoChain demoDraws demo_atPoint
    (fun _ => ⟨nofun, nofun⟩) (fun _ => ⟨nofun, nofun⟩) law
    (by
      have : pmmhTarget (Ω := ℝ) demoEnv 10 [3] =
          fun x : Pt 1 ℝ => Real.exp (0 + -(3 - x.1 0 - x.2 1) ^ 2 / 2) * Real.exp (-(x.1 0) ^ 2 / 2) := rfl
      rw [this]
      fun_prop) B hB

/-- A case: from parameter 0 to parameter 1 the symmetric walk accepts with the ratio of the targets. -/
example : Spec.accProb (logAcc demoEnv (randomWalk fun _ => 2) (demoChain (fun _ => 0, fun _ => 0)) [3]
    (demoDraws (fun _ => 1, fun _ => -2) 0) (fun _ => 0) 1) =
    min 1 (Spec.expMass (.fin (0 + -(3 - 1 - -2) ^ 2 / 2)) * Spec.expMass (.fin (-1 ^ 2 / 2)) *
        Spec.expMass (.fin (walkDensity (fun _ : Fin 1 => 2) (fun _ => 1) fun _ => 0)) /
      (Real.exp (0 + -(3 - 0 - 0) ^ 2 / 2) * Real.exp (-0 ^ 2 / 2) *
        Real.exp (walkDensity (fun _ : Fin 1 => 2) (fun _ => 0) fun _ => 1))) :=
  C70_ratio demoEnv _ _ _ _ _ 1 _ _ _ rfl rfl rfl _ _ _ rfl rfl rfl (by
    intro x hx
    simp only [List.mem_cons, List.not_mem_nil, or_false] at hx
    rcases hx with rfl | rfl | rfl <;> exact ⟨nofun, nofun⟩)

/-- A case: candidate and current state both have likelihood zero, so the ratio is undefined. -/
example : logAcc (P := 1) (d := 1) (Y := ℝ) (Ω := ℝ) { demoEnv with inc := fun _ _ _ _ => .ninf }
    (randomWalk fun _ => 2)
    { params := fun _ _ => 0, res := fun _ => Pt.slot 10 [3] (fun _ => 0, fun _ => 0),
      kernel := ⟨fun _ _ => 0, fun _ _ => 2⟩, sub := fun _ _ => 0, subBuilt := fun _ _ => 0, particles := 10 }
    [3] ⟨fun _ _ => 1, fun _ _ => 0, fun _ => 0⟩ (fun _ => 0) 0 = .nan := rfl

/-! ### C71: the record -/

/-- The states of the algorithm after 0, 1, 2, … iterations. -/
noncomputable def chainAfter {P d : ℕ} {Y Ω K : Type} (env : Env d Y Ω) (prop : Proposal P d Y Ω K)
    (ys : List Y) (c : Chain P d Y Ω K) (rs : List (Draws P d Ω)) : Chain P d Y Ω K :=
  rs.foldl (fun c r => (runPmmh env prop true (fun _ => 0) c ys r).1) c

theorem fitLoop_chain {P d : ℕ} {Y Ω K Name V : Type} (env : Env d Y Ω) (prop : Proposal P d Y Ω K)
    (get : Name → Row d → V) (ys : List Y) (rs : List (Draws P d Ω)) (f : Fit P d Y Ω K Name V) :
    (fitLoop env prop get ys f rs).chain = chainAfter env prop ys f.chain rs := by
  induction rs generalizing f with
  | nil => rfl
  | cons r rs ih => exact ih _

theorem fitLoop_concat {P d : ℕ} {Y Ω K Name V : Type} (env : Env d Y Ω) (prop : Proposal P d Y Ω K)
    (get : Name → Row d → V) (ys : List Y) (rs : List (Draws P d Ω)) (r : Draws P d Ω)
    (f : Fit P d Y Ω K Name V) :
    fitLoop env prop get ys f (rs ++ [r]) = fitStep env prop get ys (fitLoop env prop get ys f rs) r := by
  simp only [fitLoop, List.foldl_append, List.foldl_cons, List.foldl_nil]

theorem fitLoop_copies {P d : ℕ} {Y Ω K Name V : Type} (env : Env d Y Ω) (prop : Proposal P d Y Ω K)
    (get : Name → Row d → V) (ys : List Y) (rs : List (Draws P d Ω)) (f : Fit P d Y Ω K Name V)
    (hf : ∀ n, ∀ s ∈ f.samples n, ∃ x, s = .copy x) (n : Name) :
    ∀ s ∈ (fitLoop env prop get ys f rs).samples n, ∃ x, s = .copy x := by
  induction rs using List.reverseRecOn with
  | nil => exact hf n
  | append_singleton rs r ih =>
    rw [fitLoop_concat]
    intro s hs
    simp only [fitStep, updateChain, List.mem_append, List.mem_map, List.mem_singleton] at hs
    rcases hs with ⟨a, _, rfl⟩ | rfl
    · exact ⟨_, rfl⟩
    · exact ⟨_, rfl⟩

/-- One more iteration leaves the recorded samples as they are and adds the parameters after it. -/
theorem C71_append {P d : ℕ} {Y Ω K Name V : Type} (env : Env d Y Ω) (prop : Proposal P d Y Ω K)
    (get : Name → Row d → V) (particles : ℕ) (ys : List Y) (drawn : Fin P → Row d) (mean : Row d)
    (noise : Fin P → ℕ → Ω) (subDrawn : Fin P → Row d) (rs : List (Draws P d Ω)) (r : Draws P d Ω) (n : Name) :
    let f := fitInit prop get particles ys drawn mean noise subDrawn
    (fitLoop env prop get ys f (rs ++ [r])).recorded get n =
      (fitLoop env prop get ys f rs).recorded get n ++
        [fun i => get n ((chainAfter env prop ys f.chain (rs ++ [r])).params i)] := by
  intro f
  have hcopy := fitLoop_copies env prop get ys rs f (by
    intro n s hs
    simp only [f, fitInit, List.mem_singleton] at hs
    exact ⟨_, hs⟩) n
  rw [fitLoop_concat, ← fitLoop_chain env prop get, fitLoop_concat]
  simp only [Fit.recorded, fitStep, updateChain, List.map_append, List.map_map, List.map_cons, List.map_nil]
  congr 1
  apply List.map_congr_left
  intro s hs
  obtain ⟨x, rfl⟩ := hcopy s hs
  rfl

/-- After `n` iterations the record is exactly the parameters after 0, 1, …, n iterations. -/
theorem C71_record {P d : ℕ} {Y Ω K Name V : Type} (env : Env d Y Ω) (prop : Proposal P d Y Ω K)
    (get : Name → Row d → V) (particles : ℕ) (ys : List Y) (drawn : Fin P → Row d) (mean : Row d)
    (noise : Fin P → ℕ → Ω) (subDrawn : Fin P → Row d) (rs : List (Draws P d Ω)) (n : Name) :
    let f := fitInit prop get particles ys drawn mean noise subDrawn
    (fitLoop env prop get ys f rs).recorded get n =
      (List.range (rs.length + 1)).map fun k i =>
        get n ((chainAfter env prop ys f.chain (rs.take k)).params i) := by
  intro f
  induction rs using List.reverseRecOn with
  | nil => rfl
  | append_singleton rs r ih =>
    have h := C71_append env prop get particles ys drawn mean noise subDrawn rs r n
    simp only at h
    rw [h, ih, List.length_append, List.length_singleton, List.range_succ (n := rs.length + 1), List.map_append]
    congr 1
    · apply List.map_congr_left
      intro k hk
      have hk' : k ≤ rs.length := Nat.lt_succ_iff.1 (List.mem_range.1 hk)
      rw [List.take_append_of_le_length hk']
    · simp only [List.map_cons, List.map_nil]
      rw [List.take_of_length_le (by simp)]

/-- A rejected iteration repeats the parameters of the chain, an accepted one has the candidate. -/
theorem C71_repeat {P d : ℕ} {Y Ω K : Type} (env : Env d Y Ω) (prop : Proposal P d Y Ω K) (ys : List Y)
    (c : Chain P d Y Ω K) (rs : List (Draws P d Ω)) (r : Draws P d Ω) (i : Fin P) :
    (chainAfter env prop ys c (rs ++ [r])).params i =
      if (runPmmh env prop true (fun _ => 0) (chainAfter env prop ys c rs) ys r).2 i then r.rvs i
      else (chainAfter env prop ys c rs).params i := by
  simp only [chainAfter, List.foldl_append, List.foldl_cons, List.foldl_nil]
  rfl

/-- A case: one chain, an accepted and a rejected candidate; the record is 0, 1, 1. -/
example : (fitLoop (P := 1) (Name := Unit) (V := ℝ)
      ({ demoEnv with inc := fun _ m _ _ => if m.live 0 = 7 then .ninf else .fin 0,
                      logPrior := fun _ => .fin 0 } : Env 1 ℝ ℝ)
      (⟨fun _ _ _ => (), fun _ _ _ => .fin 0, fun _ _ _ => ()⟩ : Proposal 1 1 ℝ ℝ Unit) (fun _ θ => θ 0) [3]
      (fitInit ⟨fun _ _ _ => (), fun _ _ _ => .fin 0, fun _ _ _ => ()⟩ (fun _ θ => θ 0) 10 [3] (fun _ _ => 4)
        (fun _ => 0) (fun _ _ => 0) fun _ _ => 0)
      [⟨fun _ _ => 1, fun _ _ => 0, fun _ => 0⟩, ⟨fun _ _ => 7, fun _ _ => 0, fun _ => 0⟩]).recorded
        (fun _ θ => θ 0) () = [fun _ => 0, fun _ => 1, fun _ => 1] := by
  rw [C71_record]
  simp only [List.length_cons, List.length_nil, List.range_succ, List.range_zero, List.nil_append,
    List.map_cons, List.map_nil, List.take_zero, List.take_succ_cons, List.cons_append,
    List.cons.injEq, and_true]
  refine ⟨?_, ?_, ?_⟩
  · rfl
  · funext i
    simp [chainAfter, runPmmh, accepted, logAcc, candidates, batchFilter, fitInit, Env.loglik, XF.log, XF.lt,
      XF.add_def, XF.sub_def, XF.neg_def, XF.zero_def, XF.add, XF.neg]
  · funext i
    simp [chainAfter, runPmmh, accepted, logAcc, candidates, batchFilter, fitInit, Env.loglik, XF.log, XF.lt,
      XF.add_def, XF.sub_def, XF.neg_def, XF.zero_def, XF.add, XF.neg]

/-! ### C72: the random walk -/

/-- During a run with the random walk every chain's kernel is centred at its current parameters, with the
scale it was given. -/
theorem C72_centred {P d : ℕ} {Y Ω Name V : Type} (env : Env d Y Ω) (scale : Row d)
    (get : Name → Row d → V) (particles : ℕ) (ys : List Y) (drawn : Fin P → Row d) (mean : Row d)
    (noise : Fin P → ℕ → Ω) (subDrawn : Fin P → Row d) (rs : List (Draws P d Ω)) (i : Fin P) :
    let f := fitLoop env (randomWalk scale) get ys
      (fitInit (randomWalk scale) get particles ys drawn mean noise subDrawn) rs
    f.chain.kernel.loc i = f.chain.params i ∧ f.chain.kernel.scale i = scale := by
  intro f
  induction rs using List.reverseRecOn with
  | nil => exact ⟨rfl, rfl⟩
  | append_singleton rs r ih =>
    have hf : f.chain = (runPmmh env (randomWalk scale) true (fun _ => 0) (fitLoop env (randomWalk scale) get ys
      (fitInit (randomWalk scale) get particles ys drawn mean noise subDrawn) rs).chain ys r).1 := by
      simp only [f, fitLoop_concat]
      rfl
    rw [hf]
    simp only at ih
    generalize (fitLoop env (randomWalk scale) get ys
      (fitInit (randomWalk scale) get particles ys drawn mean noise subDrawn) rs).chain = c at ih
    have e1 : (runPmmh env (randomWalk scale) true (fun _ => 0) c ys r).1.kernel.loc i =
        if accepted env (randomWalk scale) c ys r (fun _ => 0) i then r.rvs i else c.kernel.loc i := rfl
    have e2 : (runPmmh env (randomWalk scale) true (fun _ => 0) c ys r).1.kernel.scale i =
        if accepted env (randomWalk scale) c ys r (fun _ => 0) i then scale else c.kernel.scale i := rfl
    have e3 : (runPmmh env (randomWalk scale) true (fun _ => 0) c ys r).1.params i =
        if accepted env (randomWalk scale) c ys r (fun _ => 0) i then r.rvs i else c.params i := rfl
    rw [e1, e2, e3, ih.1, ih.2]
    exact ⟨rfl, ite_self _⟩

/-! ### C73: the gradient proposal -/

/-- What is claimed: each time the kernel is built it is centred at the parameters plus the step size times
the gradient at the parameters. -/
def C73_claim : Prop :=
  ∀ (score toU : ℝ → ℝ) (eps : ℝ) (vs : List ℝ),
    gradBuilds score toU eps ⟨0, none⟩ vs = vs.map fun v => toU v + eps * score v

/-- The first build on a context is centred there. -/
theorem C73_first_partial (score toU : ℝ → ℝ) (eps x v : ℝ) :
    (gradBuild score toU eps (GradParam.write ⟨x, none⟩ v)).2 = toU v + eps * score v := rfl

/-- Every later one is displaced by the gradients of all earlier builds on the same context. -/
theorem C73_accumulates (score toU : ℝ → ℝ) (eps : ℝ) (vs : List ℝ) (p : GradParam) :
    gradBuilds score toU eps p vs =
      (List.range vs.length).map fun k =>
        toU (vs.getD k 0) + eps * (p.grad.getD 0 + ((vs.take (k + 1)).map score).sum) := by
  induction vs generalizing p with
  | nil => rfl
  | cons v vs ih =>
    have hg : ((p.write v).backward (score v)).grad.getD 0 = p.grad.getD 0 + score v := by
      cases h : p.grad with
      | none => simp [GradParam.backward, GradParam.write, h]
      | some g => simp [GradParam.backward, GradParam.write, h]
    simp only [gradBuilds, List.length_cons, List.range_succ_eq_map, List.map_cons, List.map_map, ih]
    congr 1
    · simp only [gradBuild, GradParam.write] at hg ⊢
      rw [hg]
      simp [GradParam.backward]
    · apply List.map_congr_left
      intro k _
      have hg2 : (gradBuild score toU eps (p.write v)).1.grad.getD 0 = p.grad.getD 0 + score v := hg
      simp only [Function.comp, hg2, List.getD_cons_succ, List.take_succ_cons, List.map_cons, List.sum_cons]
      ring

/-- With a constant gradient 1 and step size 1 the second build is displaced by 2. -/
theorem C73_negation : ¬ C73_claim := by
  intro h
  have h := h (fun _ => 1) id 1 [0, 0]
  simp [gradBuilds, gradBuild, GradParam.backward, GradParam.write] at h

/-- A case of the partial theorem with a gradient that is not constant. -/
example : (gradBuild (fun v => -v) Real.log 2 (GradParam.write ⟨1, none⟩ 3)).2 = Real.log 3 + 2 * -3 :=
  C73_first_partial _ _ _ _ _

end Verif.Props
