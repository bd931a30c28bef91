import Verif.Spec.Weighted
import Verif.Props.SequentialImportance

/-!
# C113, C114: reweighting the parameter particles of the sequential algorithms
-/

namespace Verif.Props

open Verif Verif.Spec Verif.Mcmc Verif.Seq Verif.SeqImportance Verif.PmmhFilter Verif.Unbiased XF MeasureTheory
  ProbabilityTheory
open scoped ENNReal

section
variable {c : Priors.Registry} {e S : ℕ} {E Y Ω K W : Type} [MeasurableSpace E] [MeasurableSpace Ω]
variable {P : Measure Ω} [IsProbabilityMeasure P] {f : Builder (∀ i, Fin (c.numel i) → ℝ) e E Y Ω} {n : ℕ}
  {μ : (∀ i, Fin (c.numel i) → ℝ) → Measure (Fin e → E)}
  {kernel : (∀ i, Fin (c.numel i) → ℝ) → ℕ → Kernel (Fin e → E) (Fin e → E)}
  {logg : (∀ i, Fin (c.numel i) → ℝ) → Y → ℕ → (Fin e → E) → ℝ}

/-- What a parameter particle is: its unconstrained parameters and the generator state its filter started with. -/
abbrev Point (c : Priors.Registry) (Ω : Type) := Row c.dim × Ω

/-- Slot `i` of a filter result belongs to the point `x`: it was computed by a filter with `n` state particles for the
parameters of the point from all observations. -/
def Belongs (n : ℕ) (ys : List Y) (x : Point c Ω) (s : Slot c.dim Y Ω) : Prop :=
  ∃ ω : ℕ → Ω, ω 0 = x.2 ∧ s = Mcmc.batchFilter n ⟨x.1, x.1⟩ ys ω

/-- The target on points for `n` state particles and observations `ys`: prior times likelihood estimate. -/
noncomputable def pointTarget (P : Measure Ω) (f : Builder (∀ i, Fin (c.numel i) → ℝ) e E Y Ω) (lo eps : ℝ) (n : ℕ)
    (ys : List Y) : Measure (Point c Ω) :=
  (Measure.prod volume P).withDensity fun x => ENNReal.ofReal (expMass ((f.env lo eps).loglik
    (Mcmc.batchFilter n ⟨x.1, x.1⟩ ys fun _ => x.2)) * expMass (c.logPrior x.1))

/-- The likelihood estimate as a function on points. -/
theorem point_estimate (hs : PmmhSetup P f n μ kernel logg) (lo eps : ℝ) (ys : List Y) :
    ∃ R : Point c Ω → ℝ, Measurable R ∧
      (∀ x s, Belongs n ys x s → (f.env lo eps).loglik s = fin (R x)) ∧
      (∀ u, ∫⁻ ω, ENNReal.ofReal (Real.exp (R (u, ω))) ∂P
        = likelihood f.opt.observeEveryStep f.missing μ kernel logg ys (c.unstack u false)) ∧
      ∀ φ : Point c Ω → ℝ≥0∞, Measurable φ → ∫⁻ x, φ x ∂(pointTarget P f lo eps n ys)
        = ∫⁻ u, ENNReal.ofReal (expMass (c.logPrior u)) *
          ∫⁻ ω, ENNReal.ofReal (Real.exp (R (u, ω))) * φ (u, ω) ∂P := by
  obtain ⟨R, hR, h1, h2⟩ := loglik_estimate hs lo eps ys
  have hR' : Measurable fun x : Point c Ω => R (c.unstack x.1 false, x.2) :=
    hR.comp (((measurable_unstack c).comp measurable_fst).prodMk measurable_snd)
  have hp : Measurable fun x : Point c Ω => expMass (c.logPrior x.1) :=
    (measurable_logPrior c hs.supports hs.proper hs.measurable_prior).comp measurable_fst
  refine ⟨fun x => R (c.unstack x.1 false, x.2), hR', ?_, fun u => h2 (c.unstack u false), fun φ hφ => ?_⟩
  · rintro x s ⟨ω, h0, rfl⟩
    rw [h1, h0]
  · have e1 : pointTarget P f lo eps n ys = (Measure.prod volume P).withDensity fun x : Point c Ω =>
        ENNReal.ofReal (Real.exp (R (c.unstack x.1 false, x.2)) * expMass (c.logPrior x.1)) := by
      unfold pointTarget
      simp only [h1, expMass]
    have hd : Measurable fun x : Point c Ω =>
        ENNReal.ofReal (Real.exp (R (c.unstack x.1 false, x.2)) * expMass (c.logPrior x.1)) :=
      ((Real.measurable_exp.comp hR').mul hp).ennreal_ofReal
    rw [e1, lintegral_withDensity_eq_lintegral_mul _ hd hφ, lintegral_prod _ (hd.mul hφ).aemeasurable]
    refine lintegral_congr fun u => ?_
    rw [← lintegral_const_mul' _ _ ENNReal.ofReal_ne_top]
    refine lintegral_congr fun ω => ?_
    simp only [Pi.mul_apply]
    rw [ENNReal.ofReal_mul (Real.exp_pos _).le, mul_comm (ENNReal.ofReal (Real.exp _)), mul_assoc]

/-- The parameters of the target are distributed as the posterior, whatever the number of state particles. -/
theorem C113_target (hs : PmmhSetup P f n μ kernel logg) (lo eps : ℝ) (ys : List Y)
    (φ : (∀ i, Fin (c.numel i) → ℝ) → ℝ≥0∞) (hφ : Measurable φ) :
    ∫⁻ x, φ (c.unstack x.1 false) ∂(pointTarget P f lo eps n ys)
      = ∫⁻ θ in space c, jointPrior c θ *
          (likelihood f.opt.observeEveryStep f.missing μ kernel logg ys θ * φ θ) := by
  obtain ⟨R, hR, -, h2, h3⟩ := point_estimate hs lo eps ys
  have hφ' : Measurable fun x : Point c Ω => φ (c.unstack x.1 false) :=
    hφ.comp ((measurable_unstack c).comp measurable_fst)
  rw [h3 _ hφ']
  have e1 : ∀ u, ∫⁻ ω, ENNReal.ofReal (Real.exp (R (u, ω))) * φ (c.unstack u false) ∂P
      = likelihood f.opt.observeEveryStep f.missing μ kernel logg ys (c.unstack u false) * φ (c.unstack u false) := by
    intro u
    have hm : Measurable fun ω => ENNReal.ofReal (Real.exp (R (u, ω))) :=
      (Real.measurable_exp.comp (hR.comp measurable_prodMk_left)).ennreal_ofReal
    rw [lintegral_mul_const _ hm, h2]
  simp only [e1]
  exact C92_change_of_variables c hs.supports hs.proper fun θ =>
    likelihood f.opt.observeEveryStep f.missing μ kernel logg ys θ * φ θ

/-- **C113.** Increasing the number of state particles: if a particle of the resampled and moved population is
distributed as the target for `n` state particles and its filter is run anew, with fresh random numbers, then the
result is a filter with `2 * n` state particles for the same parameters, and with the new log-weight it is properly
weighted for the target with `2 * n` state particles. -/
theorem C113_increase (hs : PmmhSetup P f n μ kernel logg) (hs' : PmmhSetup P f (2 * n) μ kernel logg) (lo eps : ℝ)
    (ys : List Y) (done max : ℕ) (hmax : done < max) {Ξ : Type} [MeasurableSpace Ξ] (law : Measure Ξ)
    (sys : Ξ → Sys S c.dim) (obj : Ξ → Obj S c.dim Y Ω) (rerun : Ξ → Fin S → ℕ → Ω) (i : Fin S)
    (x : Ξ → Point c Ω) (hparams : ∀ ξ, (sys ξ).params i = (x ξ).1) (hres : ∀ ξ, Belongs n ys (x ξ) ((obj ξ).res i))
    (hn : ∀ ξ, (sys ξ).particles = n) (hmeas : Measurable fun ξ => (x ξ, rerun ξ i 0))
    (hlaw : law.map (fun ξ => (x ξ, rerun ξ i 0)) = (pointTarget P f lo eps n ys).prod P) :
    ∃ new : Ξ → Obj S c.dim Y Ω, ∃ sys' : Ξ → Sys S c.dim,
      (∀ ξ, increaseStates (f.env lo eps) done max ys (sys ξ) (obj ξ) (rerun ξ)
        = (done + 1, sys' ξ, .ok (some (new ξ)))) ∧
      (∀ ξ, (sys' ξ).params i = (x ξ).1 ∧ (sys' ξ).built i = (x ξ).1 ∧ (sys' ξ).particles = 2 * n) ∧
      (∀ ξ, Belongs (2 * n) ys ((x ξ).1, rerun ξ i 0) ((new ξ).res i)) ∧
      ProperlyWeighted law (fun ξ => (new ξ).w i) (fun ξ => ((x ξ).1, rerun ξ i 0))
        (pointTarget P f lo eps (2 * n) ys) := by
  obtain ⟨R, hR, h1, -, h3⟩ := point_estimate hs lo eps ys
  obtain ⟨R', hR', h1', -, h3'⟩ := point_estimate hs' lo eps ys
  have hbel : ∀ ξ, Belongs (2 * n) ys ((x ξ).1, rerun ξ i 0)
      (Mcmc.batchFilter (2 * n) ⟨(x ξ).1, (x ξ).1⟩ ys (rerun ξ i)) := fun ξ => ⟨rerun ξ i, rfl, rfl⟩
  let sys' : Ξ → Sys S c.dim := fun ξ => { sys ξ with built := (sys ξ).params, particles := 2 * (sys ξ).particles }
  let newRes : Ξ → Fin S → Slot c.dim Y Ω := fun ξ j =>
    Mcmc.batchFilter (sys' ξ).particles ⟨(sys' ξ).params j, (sys' ξ).built j⟩ ys (rerun ξ j)
  let weight : Ξ → Fin S → XF := fun ξ j =>
    (f.env lo eps).loglik (newRes ξ j) - (f.env lo eps).loglik ((obj ξ).res j)
  let new : Ξ → Obj S c.dim Y Ω := fun ξ =>
    { id := (obj ξ).id + 1, w := (getEss1 lo (weight ξ) false).1, res := newRes ξ, iter := (obj ξ).iter }
  have hnew : ∀ ξ, newRes ξ i = Mcmc.batchFilter (2 * n) ⟨(x ξ).1, (x ξ).1⟩ ys (rerun ξ i) := by
    intro ξ
    show Mcmc.batchFilter (2 * (sys ξ).particles) ⟨(sys ξ).params i, (sys ξ).params i⟩ ys (rerun ξ i) = _
    rw [hparams, hn]
  have hw : ∀ ξ, (new ξ).w i = fin (R' ((x ξ).1, rerun ξ i 0) - R (x ξ)) := by
    intro ξ
    have e1 : weight ξ i = fin (R' ((x ξ).1, rerun ξ i 0) - R (x ξ)) := by
      show (f.env lo eps).loglik (newRes ξ i) - (f.env lo eps).loglik ((obj ξ).res i) = _
      rw [hnew, h1' _ _ (hbel ξ), h1 _ _ (hres ξ)]
      rfl
    show nanToNum lo (weight ξ i) = _
    rw [e1]
    rfl
  refine ⟨new, sys', fun ξ => ?_, fun ξ => ⟨hparams ξ, hparams ξ, ?_⟩, fun ξ => ?_, fun φ hφ => ?_⟩
  · have : ¬ max < done + 1 := by omega
    simp only [increaseStates, this, if_false]
    rfl
  · show 2 * (sys ξ).particles = _
    rw [hn]
  · show Belongs _ _ _ (newRes ξ i)
    rw [hnew]
    exact hbel ξ
  · simp only [hw, expMass]
    let G : Point c Ω × Ω → ℝ≥0∞ := fun q => ENNReal.ofReal (Real.exp (R' (q.1.1, q.2) - R q.1)) * φ (q.1.1, q.2)
    have hpt : Measurable fun q : Point c Ω × Ω => (q.1.1, q.2) :=
      (measurable_fst.comp measurable_fst).prodMk measurable_snd
    have hG : Measurable G :=
      (Real.measurable_exp.comp ((hR'.comp hpt).sub (hR.comp measurable_fst))).ennreal_ofReal.mul (hφ.comp hpt)
    have hG1 : Measurable fun x : Point c Ω => ∫⁻ ω, G (x, ω) ∂P := hG.lintegral_prod_right'
    have e0 : ∫⁻ ξ, ENNReal.ofReal (Real.exp (R' ((x ξ).1, rerun ξ i 0) - R (x ξ))) * φ ((x ξ).1, rerun ξ i 0) ∂law
        = ∫⁻ q, G q ∂((pointTarget P f lo eps n ys).prod P) := by
      rw [← hlaw, lintegral_map hG hmeas]
    rw [e0, lintegral_prod _ hG.aemeasurable, h3 _ hG1, h3' φ hφ]
    refine lintegral_congr fun u => ?_
    congr 1
    have e2 : ∀ ω, ENNReal.ofReal (Real.exp (R (u, ω))) * ∫⁻ ω', G ((u, ω), ω') ∂P
        = ∫⁻ ω', ENNReal.ofReal (Real.exp (R' (u, ω'))) * φ (u, ω') ∂P := by
      intro ω
      rw [← lintegral_const_mul' _ _ ENNReal.ofReal_ne_top]
      refine lintegral_congr fun ω' => ?_
      show _ * (ENNReal.ofReal (Real.exp (R' (u, ω') - R (u, ω))) * φ (u, ω')) = _
      rw [← mul_assoc, ← ENNReal.ofReal_mul (Real.exp_pos _).le, ← Real.exp_add, add_sub_cancel]
    simp only [e2, lintegral_const, measure_univ, mul_one]

/-- Particle `i` of a running algorithm is at the point `x`: parameters, model and filter result belong to it. -/
structure AtState (n : ℕ) (ys : List Y) (x : Point c Ω) (i : Fin S) (s : State S c.dim Y Ω K W) : Prop where
  params : s.sys.params i = x.1
  built : s.sys.built i = x.1
  res : Belongs n ys x (s.obj.res i)

/-- A step without update. -/
theorem atState_step [NeZero S] (hs : PmmhSetup P f n μ kernel logg) (lo eps : ℝ)
    (cbs : List (Callback S c.dim Y Ω W)) (hb : ∀ cb ∈ cbs, Benign cb) (hk : ∀ cb ∈ cbs, KeepsFinite cb) {ys : List Y}
    {x : Point c Ω} {i : Fin S} {s : State S c.dim Y Ω K W} (hat : AtState n ys x i s) (a : ℝ)
    (hw : s.obj.w i = (f.env lo eps).loglik (s.obj.res i) + fin a) (y : Y) (r : StepDraws S c.dim Ω)
    (h : (step (f.env lo eps) cbs s y r).err = none) (he : (step (f.env lo eps) cbs s y r).event = .kept) :
    AtState n (ys ++ [y]) x i (step (f.env lo eps) cbs s y r).state ∧
      (step (f.env lo eps) cbs s y r).state.obj.w i
        = (f.env lo eps).loglik ((step (f.env lo eps) cbs s y r).state.obj.res i) + fin a := by
  set env := f.env lo eps
  cases hret : (s.algo.step_ env s.sys s.tup s.obj y r).ret with
  | error e =>
    rw [step_of_error env cbs s y r e hret] at h
    exact nomatch h
  | ok fr =>
    rw [step_of_ok env cbs s y r fr hret] at he ⊢
    simp only at he ⊢
    obtain ⟨rfl, hsys, tup', -, -, ho⟩ := step_kept env s.algo s.sys s.tup s.obj y r fr hret he
    have hc := runCallbacks_benign cbs hb (s.algo.step_ env s.sys s.tup s.obj y r).sys y
      (s.algo.step_ env s.sys s.tup s.obj y r).tup (s.algo.step_ env s.sys s.tup s.obj y r).obj
    have hcw := runCallbacks_finite cbs hk (s.algo.step_ env s.sys s.tup s.obj y r).sys y
      (s.algo.step_ env s.sys s.tup s.obj y r).tup (s.algo.step_ env s.sys s.tup s.obj y r).obj
    simp only [Option.getD_none]
    obtain ⟨ω, h0, hω⟩ := hat.res
    obtain ⟨ω', h0', hω'⟩ := step_batchFilter n ⟨x.1, x.1⟩ ys ω y (r.noise i)
    have hres : (s.algo.step_ env s.sys s.tup s.obj y r).obj.res i
        = Mcmc.batchFilter n ⟨x.1, x.1⟩ (ys ++ [y]) ω' := by
      rw [ho, ← hω', ← hω]
      show Slot.step (s.obj.res i) ⟨s.sys.params i, s.sys.built i⟩ y (r.noise i) = _
      rw [hat.params, hat.built]
    have hll : (env.loglik ((s.algo.step_ env s.sys s.tup s.obj y r).obj.res i)).IsFinite := by
      rw [hres]
      exact finite_likelihoods hs lo eps _ _ _
    have hll0 : (env.loglik (s.obj.res i)).IsFinite := by
      rw [hω]
      exact finite_likelihoods hs lo eps _ _ _
    have hsum : s.obj.w i + stepLogLik env s.sys s.obj y r.noise i
        = env.loglik ((s.algo.step_ env s.sys s.tup s.obj y r).obj.res i) + fin a := by
      rw [ho, hw]
      show env.loglik (s.obj.res i) + fin a + stepLogLik env s.sys s.obj y r.noise i
        = env.loglik (s.obj.res i) + stepLogLik env s.sys s.obj y r.noise i + fin a
      rw [add_right_comm]
    have hw' : (s.algo.step_ env s.sys s.tup s.obj y r).obj.w i
        = env.loglik ((s.algo.step_ env s.sys s.tup s.obj y r).obj.res i) + fin a := by
      have h1 : (s.algo.step_ env s.sys s.tup s.obj y r).obj.w i
          = nanToNum env.lo (s.obj.w i + stepLogLik env s.sys s.obj y r.noise i) := by
        rw [ho]
        rfl
      rw [h1, hsum, nanToNum_finite _ _ (isFinite_add _ (fin a) hll trivial)]
    refine ⟨⟨?_, ?_, ?_⟩, ?_⟩
    · show (s.algo.step_ env s.sys s.tup s.obj y r).sys.params i = _
      rw [hsys, hat.params]
    · show (s.algo.step_ env s.sys s.tup s.obj y r).sys.built i = _
      rw [hsys, hat.built]
    · show Belongs _ _ _ ((runCallbacks _ y cbs _ _).2.2.res i)
      rw [hc.2.2.2.2, hres]
      exact ⟨ω', h0'.trans h0, rfl⟩
    · show (runCallbacks _ y cbs _ _).2.2.w i = env.loglik ((runCallbacks _ y cbs _ _).2.2.res i) + fin a
      rw [hc.2.2.2.2, hcw i (by rw [hw']; exact isFinite_add _ (fin a) hll trivial), hw']

/-- Any number of steps without update. -/
theorem atState_run [NeZero S] (hs : PmmhSetup P f n μ kernel logg) (lo eps : ℝ)
    (cbs : List (Callback S c.dim Y Ω W)) (hb : ∀ cb ∈ cbs, Benign cb) (hk : ∀ cb ∈ cbs, KeepsFinite cb) {ys : List Y}
    {x : Point c Ω} {i : Fin S} {s : State S c.dim Y Ω K W} (hat : AtState n ys x i s) (a : ℝ)
    (hw : s.obj.w i = (f.env lo eps).loglik (s.obj.res i) + fin a) (xs : List (Y × StepDraws S c.dim Ω))
    (h : (run (f.env lo eps) cbs s xs).2.2.2 = none)
    (he : ∀ e ∈ (run (f.env lo eps) cbs s xs).2.2.1, e = .kept) :
    AtState n (ys ++ xs.map Prod.fst) x i (run (f.env lo eps) cbs s xs).1 ∧
      (run (f.env lo eps) cbs s xs).1.obj.w i
        = (f.env lo eps).loglik ((run (f.env lo eps) cbs s xs).1.obj.res i) + fin a := by
  induction xs using List.reverseRecOn with
  | nil =>
    rw [List.map_nil, List.append_nil]
    exact ⟨hat, hw⟩
  | append_singleton xs q ih =>
    obtain ⟨y, r⟩ := q
    rw [run_concat] at h he ⊢
    cases hr : (run (f.env lo eps) cbs s xs).2.2.2 with
    | some e =>
      rw [hr] at h
      simp only at h
      rw [hr] at h
      exact nomatch h
    | none =>
      rw [hr] at h he
      simp only at h he ⊢
      have ih := ih hr (fun e hm => he e (List.mem_append_left _ hm))
      have hev := he _ (List.mem_append_right _ (List.mem_singleton.2 rfl))
      rw [List.map_append, ← List.append_assoc]
      exact atState_step hs lo eps cbs hb hk ih.1 a ih.2 y r h hev

/-- **C114.** Between updates: if a parameter particle is properly weighted for the target given the observations so
far, it is properly weighted for the target given all observations after any number of further steps without update.
This holds for NESS, SMC2 and their combinations, and whatever happens to the other particles. -/
theorem C114_between_updates [NeZero S] (hs : PmmhSetup P f n μ kernel logg) (lo eps : ℝ) (ys ys' : List Y)
    (cbs : List (Callback S c.dim Y Ω W)) (hb : ∀ cb ∈ cbs, Benign cb) (hk : ∀ cb ∈ cbs, KeepsFinite cb)
    {Ξ : Type} [MeasurableSpace Ξ] (law : Measure Ξ) (s : Ξ → State S c.dim Y Ω K W) (i : Fin S) (x : Ξ → Point c Ω)
    (hat : ∀ ξ, AtState n ys (x ξ) i (s ξ)) (hfin : ∀ ξ, ((s ξ).obj.w i).IsFinite)
    (hproper : ProperlyWeighted law (fun ξ => (s ξ).obj.w i) x (pointTarget P f lo eps n ys))
    (draws : Ξ → List (Y × StepDraws S c.dim Ω)) (hys : ∀ ξ, (draws ξ).map Prod.fst = ys')
    (hkept : ∀ ξ, (run (f.env lo eps) cbs (s ξ) (draws ξ)).2.2.2 = none ∧
      ∀ e ∈ (run (f.env lo eps) cbs (s ξ) (draws ξ)).2.2.1, e = .kept) :
    (∀ ξ, AtState n (ys ++ ys') (x ξ) i (run (f.env lo eps) cbs (s ξ) (draws ξ)).1) ∧
    (∀ ξ, ((run (f.env lo eps) cbs (s ξ) (draws ξ)).1.obj.w i).IsFinite) ∧
    ProperlyWeighted law (fun ξ => (run (f.env lo eps) cbs (s ξ) (draws ξ)).1.obj.w i) x
      (pointTarget P f lo eps n (ys ++ ys')) := by
  obtain ⟨R, hR, h1, -, h3⟩ := point_estimate hs lo eps ys
  obtain ⟨R', hR', h1', -, h3'⟩ := point_estimate hs lo eps (ys ++ ys')
  have key : ∀ ξ, AtState n (ys ++ ys') (x ξ) i (run (f.env lo eps) cbs (s ξ) (draws ξ)).1 ∧
      ∃ b, (s ξ).obj.w i = fin b ∧
        (run (f.env lo eps) cbs (s ξ) (draws ξ)).1.obj.w i = fin (b + (R' (x ξ) - R (x ξ))) := by
    intro ξ
    obtain ⟨b, hbw⟩ : ∃ b, (s ξ).obj.w i = fin b := by
      have := hfin ξ
      cases hx : (s ξ).obj.w i with
      | fin b => exact ⟨b, rfl⟩
      | _ => rw [hx] at this; exact this.elim
    have hw : (s ξ).obj.w i = (f.env lo eps).loglik ((s ξ).obj.res i) + fin (b - R (x ξ)) := by
      rw [h1 _ _ (hat ξ).res, hbw]
      show _ = fin (R (x ξ) + (b - R (x ξ)))
      rw [add_sub_cancel]
    have := atState_run hs lo eps cbs hb hk (hat ξ) (b - R (x ξ)) hw (draws ξ) (hkept ξ).1 (hkept ξ).2
    rw [hys] at this
    refine ⟨this.1, b, hbw, ?_⟩
    rw [this.2, h1' _ _ this.1.res]
    show fin (R' (x ξ) + (b - R (x ξ))) = _
    congr 1
    ring
  refine ⟨fun ξ => (key ξ).1, fun ξ => ?_, fun φ hφ => ?_⟩
  · obtain ⟨b, -, hb'⟩ := (key ξ).2
    rw [hb']
    trivial
  · let ψ : Point c Ω → ℝ≥0∞ := fun z => ENNReal.ofReal (Real.exp (R' z - R z)) * φ z
    have hψ : Measurable ψ := (Real.measurable_exp.comp (hR'.sub hR)).ennreal_ofReal.mul hφ
    have e1 : ∫⁻ ξ, ENNReal.ofReal (expMass ((run (f.env lo eps) cbs (s ξ) (draws ξ)).1.obj.w i)) * φ (x ξ) ∂law
        = ∫⁻ ξ, ENNReal.ofReal (expMass ((s ξ).obj.w i)) * ψ (x ξ) ∂law := by
      refine lintegral_congr fun ξ => ?_
      obtain ⟨b, h4, h5⟩ := (key ξ).2
      rw [h4, h5]
      simp only [expMass, ψ]
      rw [← mul_assoc, ← ENNReal.ofReal_mul (Real.exp_pos _).le, ← Real.exp_add]
    rw [e1, hproper ψ hψ, h3 ψ hψ, h3' φ hφ]
    refine lintegral_congr fun u => ?_
    congr 1
    refine lintegral_congr fun ω => ?_
    simp only [ψ]
    rw [← mul_assoc, ← ENNReal.ofReal_mul (Real.exp_pos _).le, ← Real.exp_add, add_sub_cancel]

/-- C114: at the start, before any observation, a particle whose parameters are drawn from the prior (in the
unconstrained coordinates) and whose filter has fresh random numbers is properly weighted. -/
theorem C114_start [NeZero S] (hs : PmmhSetup P f n μ kernel logg) (lo eps : ℝ) (algo : Algo S c.dim Y Ω K)
    {Ξ : Type} [MeasurableSpace Ξ] (law : Measure Ξ) (drawn : Ξ → Fin S → Row c.dim) (noise : Ξ → Fin S → Ω)
    (i : Fin S) (hmeas : Measurable fun ξ => (drawn ξ i, noise ξ i))
    (hlaw : law.map (fun ξ => (drawn ξ i, noise ξ i))
      = (volume.withDensity fun u => ENNReal.ofReal (expMass (c.logPrior u))).prod P) :
    (∀ ξ, AtState n [] (drawn ξ i, noise ξ i) i
      (init (V := W) (f.env lo eps) algo n (drawn ξ) none (noise ξ))) ∧
    (∀ ξ, ((init (V := W) (f.env lo eps) algo n (drawn ξ) none (noise ξ)).obj.w i).IsFinite) ∧
    ProperlyWeighted law (fun ξ => (init (V := W) (f.env lo eps) algo n (drawn ξ) none (noise ξ)).obj.w i)
      (fun ξ => (drawn ξ i, noise ξ i)) (pointTarget P f lo eps n []) := by
  obtain ⟨R, hR, h1, -, h3⟩ := point_estimate hs lo eps ([] : List Y)
  have hR0 : ∀ z, R z = 0 := by
    intro z
    have h := h1 z (.start n ⟨z.1, z.1⟩ z.2) ⟨fun _ => z.2, rfl, rfl⟩
    have h' : fin 0 = fin (R z) := h
    exact (XF.fin.inj h').symm
  refine ⟨fun ξ => ⟨rfl, rfl, fun _ => noise ξ i, rfl, rfl⟩, fun ξ => trivial, fun φ hφ => ?_⟩
  have e1 : ∀ ξ, (init (V := W) (f.env lo eps) algo n (drawn ξ) none (noise ξ)).obj.w i = fin 0 := fun ξ => rfl
  have hp : Measurable fun u : Row c.dim => ENNReal.ofReal (expMass (c.logPrior u)) :=
    (measurable_logPrior c hs.supports hs.proper hs.measurable_prior).ennreal_ofReal
  simp only [e1, expMass, Real.exp_zero, ENNReal.ofReal_one, one_mul]
  rw [← lintegral_map hφ hmeas, hlaw, lintegral_prod _ hφ.aemeasurable, h3 φ hφ]
  have hm : Measurable fun u => ∫⁻ ω, φ (u, ω) ∂P := hφ.lintegral_prod_right'
  rw [lintegral_withDensity_eq_lintegral_mul _ hp hm]
  simp only [hR0, Real.exp_zero, ENNReal.ofReal_one, one_mul]
  rfl

/-- C114: weighted averages over properly weighted particles target the posterior, whatever the number of state
particles: the expectation is the integral against prior times likelihood. -/
theorem C114_posterior (hs : PmmhSetup P f n μ kernel logg) (lo eps : ℝ) (ys : List Y) {Ξ : Type} [MeasurableSpace Ξ]
    (law : Measure Ξ) (w : Ξ → XF) (x : Ξ → Point c Ω) (h : ProperlyWeighted law w x (pointTarget P f lo eps n ys))
    (φ : (∀ i, Fin (c.numel i) → ℝ) → ℝ≥0∞) (hφ : Measurable φ) :
    ∫⁻ ξ, ENNReal.ofReal (expMass (w ξ)) * φ (c.unstack (x ξ).1 false) ∂law
      = ∫⁻ θ in space c, jointPrior c θ *
          (likelihood f.opt.observeEveryStep f.missing μ kernel logg ys θ * φ θ) := by
  have hφ' : Measurable fun x : Point c Ω => φ (c.unstack x.1 false) :=
    hφ.comp ((measurable_unstack c).comp measurable_fst)
  rw [← C113_target hs lo eps ys φ hφ]
  exact h _ hφ'

end

/-! ### A case: the autoregressive process of C93 -/

/-- One parameter particle whose filter with 100 state particles has seen three observations. -/
noncomputable def rerunObj (x : Point priorDemo (ℕ → DemoEntry)) : Obj 1 priorDemo.dim ℝ (ℕ → DemoEntry) where
  id := 4
  w _ := .fin (-7)
  res _ := Mcmc.batchFilter 100 ⟨x.1, x.1⟩ [3, 1, 4] fun _ => x.2
  iter := 2

/-- The second increase of five. -/
example (kind : FilterKind) (h : kind = .sisr ∨ kind = .apf) :
    ∃ new : Point priorDemo (ℕ → DemoEntry) × (ℕ → DemoEntry) → Obj 1 priorDemo.dim ℝ (ℕ → DemoEntry),
      (∀ ξ, (increaseStates ((exactFilter kind).env (-1000) (1 / 1000)) 1 5 [3, 1, 4]
        ⟨fun _ => ξ.1.1, fun _ => 0, 100⟩ (rerunObj ξ.1) fun _ _ => ξ.2).2.2 = .ok (some (new ξ))) ∧
      ProperlyWeighted ((pointTarget (streamLaw demoEntryLaw) (exactFilter kind) (-1000) (1 / 1000) 100 [3, 1, 4]).prod
          (streamLaw demoEntryLaw)) (fun ξ => (new ξ).w 0) (fun ξ => (ξ.1.1, ξ.2))
        (pointTarget (streamLaw demoEntryLaw) (exactFilter kind) (-1000) (1 / 1000) 200 [3, 1, 4]) := by
  obtain ⟨new, sys', h1, -, -, h4⟩ := C113_increase (exact_setup kind h 100 (by norm_num))
    (exact_setup kind h (2 * 100) (by norm_num)) (-1000) (1 / 1000) [3, 1, 4] 1 5 (by norm_num)
    ((pointTarget (streamLaw demoEntryLaw) (exactFilter kind) (-1000) (1 / 1000) 100 [3, 1, 4]).prod
      (streamLaw demoEntryLaw))
    (fun ξ : Point priorDemo (ℕ → DemoEntry) × (ℕ → DemoEntry) =>
      ⟨fun _ => ξ.1.1, fun _ => 0, 100⟩) (fun ξ => rerunObj ξ.1) (fun ξ _ _ => ξ.2) (0 : Fin 1) Prod.fst
    (fun _ => rfl) (fun ξ => ⟨fun _ => ξ.1.2, rfl, rfl⟩) (fun _ => rfl) measurable_id Measure.map_id
  exact ⟨new, fun ξ => by rw [h1], h4⟩

/-- From the prior through two observations. -/
example (kind : FilterKind) (h : kind = .sisr ∨ kind = .apf) :
    ProperlyWeighted ((volume.withDensity fun u => ENNReal.ofReal (expMass (priorDemo.logPrior u))).prod
        (streamLaw demoEntryLaw))
      (fun ξ => (run ((exactFilter kind).env (-1000) (1 / 1000)) []
        (init (V := Unit) ((exactFilter kind).env (-1000) (1 / 1000)) quietAlgo 100 (fun _ => ξ.1) none fun _ => ξ.2)
        [(3, quietDraws ξ.2), (1, quietDraws ξ.2)]).1.obj.w 2) (fun ξ => ξ)
      (pointTarget (streamLaw demoEntryLaw) (exactFilter kind) (-1000) (1 / 1000) 100 [3, 1]) := by
  have hs := exact_setup kind h 100 (by norm_num)
  have h0 := C114_start (W := Unit) hs (-1000) (1 / 1000) quietAlgo
    ((volume.withDensity fun u => ENNReal.ofReal (expMass (priorDemo.logPrior u))).prod (streamLaw demoEntryLaw))
    (fun ξ : Point priorDemo (ℕ → DemoEntry) => fun _ => ξ.1) (fun ξ _ => ξ.2) (2 : Fin 3) measurable_id Measure.map_id
  exact (C114_between_updates hs (-1000) (1 / 1000) [] [3, 1] [] (by simp) (by simp) _ _ (2 : Fin 3) (fun ξ => ξ)
    h0.1 h0.2.1 h0.2.2 (fun ξ => [(3, quietDraws ξ.2), (1, quietDraws ξ.2)]) (fun _ => rfl) fun ξ =>
      C96_quiet hs (-1000) (1 / 1000) [] (by simp) (by simp) quietAlgo _ _ _ (quietAlgo_quiet _)).2.2

end Verif.Props
