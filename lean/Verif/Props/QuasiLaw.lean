import Verif.Model.QuasiSample
import Verif.Lemmas.Quantile
import Verif.Lemmas.Prior
import Verif.Lemmas.KernelProposal
import Mathlib.Probability.Distributions.Gaussian.Real

/-!
# C103, C104: the laws of parameters and candidates that are drawn with quasi-random numbers
-/

namespace Verif.Props

open MeasureTheory ProbabilityTheory Set Filter Verif.Qmc Verif.Priors Matrix

/-- Uniform numbers in `d` components. -/
noncomputable abbrev uniforms (d : ℕ) : Measure (Fin d → ℝ) := Measure.pi fun _ => unit

/-- The priors that the context may hold: `icdf` is the inverse of the distribution function of `μ` and takes values
in the support. -/
structure Inverts (s : Scalar) (μ : Measure ℝ) : Prop where
  valid : s.support.Valid
  quantile : IsQuantile s.icdf μ
  inside : ∀ p ∈ Ioo (0 : ℝ) 1, s.support.mem (s.icdf p)

theorem sign_bijection (s : Support) (hs : s.Valid) :
    signAll s.bijection = 1 ∨ signAll s.bijection = -1 := by
  cases s with
  | real => left; simp [signAll, Support.bijection]
  | greaterThan lo => left; simp [signAll, Support.bijection, trSign, Real.sign_one]
  | lessThan hi =>
    right
    simp only [signAll, Support.bijection, trSign, List.map_cons, List.map_nil, List.prod_cons, List.prod_nil,
      one_mul, mul_one]
    exact Real.sign_of_neg (by norm_num)
  | interval lo hi =>
    left
    simp only [signAll, Support.bijection, trSign, List.map_cons, List.map_nil, List.prod_cons, List.prod_nil,
      one_mul, mul_one]
    exact Real.sign_of_pos (sub_pos.2 hs)

theorem monotonize_mem (s : Support) (hs : s.Valid) (p : ℝ) (hp : p ∈ Ioo (0 : ℝ) 1) :
    monotonize (signAll s.bijection) p ∈ Ioo (0 : ℝ) 1 := by
  unfold monotonize
  rcases sign_bijection s hs with h | h <;> rw [h] <;> constructor <;> linarith [hp.1, hp.2]

/-- Sampling by inversion in unconstrained space is sampling by inversion. -/
theorem inverseSample_eq (s : Scalar) (hs : s.support.Valid)
    (hi : ∀ p ∈ Ioo (0 : ℝ) 1, s.support.mem (s.icdf p)) (p : ℝ) (hp : p ∈ Ioo (0 : ℝ) 1) :
    s.inverseSample p false = s.icdf (monotonize (signAll s.support.bijection) p) :=
  call_inverse s.support hs _ (hi _ (monotonize_mem s.support hs p hp))

theorem squeezed_monotonize (s : Support) (hs : s.Valid) (eps : ℝ) (h1 : eps < 1) :
    (squeezed eps).map (monotonize (signAll s.bijection)) = squeezed eps := by
  rcases sign_bijection s hs with h | h
  · rw [h, show monotonize 1 = id from funext fun p => by unfold monotonize; rw [id]; ring, Measure.map_id]
  · rw [h, show monotonize (-1) = fun p => 1 - p from funext fun p => by unfold monotonize; norm_num; ring]
    exact squeezed_symm eps h1

theorem measurable_monotonize (c : ℝ) : Measurable (monotonize c) := by
  unfold monotonize
  fun_prop

theorem quantile_aemeasurable {q : ℝ → ℝ} {μ : Measure ℝ} (h : IsQuantile q μ) (eps : ℝ) (h0 : 0 < eps) :
    AEMeasurable q (squeezed eps) := h.aemeasurable.mono_ac (squeezed_ac eps h0)

theorem inverseSample_ae (s : Scalar) {μ : Measure ℝ} (h : Inverts s μ) (eps : ℝ) (h0 : 0 < eps) :
    (fun p => s.inverseSample p false)
      =ᵐ[squeezed eps] fun p => s.icdf (monotonize (signAll s.support.bijection) p) := by
  have : ∀ᵐ p ∂volume.restrict (Ioo (0 : ℝ) 1), s.inverseSample p false =
      s.icdf (monotonize (signAll s.support.bijection) p) := by
    filter_upwards [ae_restrict_mem measurableSet_Ioo] with p hp
    exact inverseSample_eq s h.valid h.inside p hp
  exact (squeezed_ac eps h0).ae_le this

theorem inverseSample_aemeasurable (s : Scalar) {μ : Measure ℝ} (h : Inverts s μ) (eps : ℝ) (h0 : 0 < eps)
    (h1 : eps < 1) : AEMeasurable (fun p => s.inverseSample p false) (squeezed eps) := by
  refine AEMeasurable.congr ?_ (inverseSample_ae s h eps h0).symm
  refine AEMeasurable.comp_measurable (g := s.icdf) ?_ (measurable_monotonize _)
  rw [squeezed_monotonize s.support h.valid eps h1]
  exact quantile_aemeasurable h.quantile eps h0

theorem inverseSample_map (s : Scalar) {μ : Measure ℝ} (h : Inverts s μ) (eps : ℝ) (h0 : 0 < eps) (h1 : eps < 1) :
    (squeezed eps).map (fun p => s.inverseSample p false) = (squeezed eps).map s.icdf := by
  rw [Measure.map_congr (inverseSample_ae s h eps h0)]
  have hm := measurable_monotonize (signAll s.support.bijection)
  have := AEMeasurable.map_map_of_aemeasurable (μ := squeezed eps) (g := s.icdf)
    (f := monotonize (signAll s.support.bijection))
    (by rw [squeezed_monotonize s.support h.valid eps h1]; exact quantile_aemeasurable h.quantile eps h0)
    hm.aemeasurable
  rw [squeezed_monotonize s.support h.valid eps h1] at this
  exact this.symm

/-- A rotated and squeezed point. -/
theorem rotated_law {d : ℕ} (eps : ℝ) (h1 : eps < 1) (pt : Fin d → ℝ) :
    (uniforms d).map (fun fresh j => safe eps (Int.fract (pt j + fresh j))) = Measure.pi fun _ => squeezed eps := by
  have hm : ∀ j, Measurable fun r : ℝ => safe eps (Int.fract (pt j + r)) := fun j => by
    have : Measurable fun r : ℝ => Int.fract (pt j + r) := measurable_fract.comp (measurable_const.add measurable_id)
    unfold safe
    fun_prop
  have hone : ∀ j, unit.map (fun r => safe eps (Int.fract (pt j + r))) = squeezed eps := fun j => by
    have hf : Measurable fun r : ℝ => Int.fract (pt j + r) := measurable_fract.comp (measurable_const.add measurable_id)
    have hs : Measurable fun p : ℝ => 0.5 + (1 - eps) * (p - 0.5) := by fun_prop
    have := Measure.map_map (μ := unit) hs hf
    rw [rotate_unit, squeeze_unit eps h1] at this
    exact this.symm
  have hp := isProbabilityMeasure_squeezed eps h1
  have : ∀ j, SigmaFinite (unit.map (fun r => safe eps (Int.fract (pt j + r)))) := fun j => by
    rw [hone]; infer_instance
  rw [Measure.pi_map_pi fun j => (hm j).aemeasurable]
  congr 1
  exact funext hone

/-- A squeezed point. -/
theorem squeezed_law {d : ℕ} (eps : ℝ) (h1 : eps < 1) :
    (uniforms d).map (fun p j => safe eps (p j)) = Measure.pi fun _ => squeezed eps := by
  have hp := isProbabilityMeasure_squeezed eps h1
  have hone : ∀ _ : Fin d, unit.map (safe eps) = squeezed eps := fun _ => squeeze_unit eps h1
  have hm : Measurable (safe eps) := by unfold safe; fun_prop
  have : ∀ _ : Fin d, SigmaFinite (unit.map (safe eps)) := fun j => by rw [hone j]; infer_instance
  rw [Measure.pi_map_pi fun _ => hm.aemeasurable]
  congr 1
  exact funext hone

/-- The distribution function of `ν` is that of `μ` with the tails of mass `eps / 2` cut off. -/
def TailsCut (eps : ℝ) (μ ν : Measure ℝ) : Prop :=
  IsProbabilityMeasure ν ∧
    ∀ x, ν.real (Iic x) = max 0 (min 1 ((μ.real (Iic x) - eps / 2) / (1 - eps)))

theorem rows_law {m : ℕ} (eps : ℝ) (h0 : 0 < eps) (h1 : eps < 1) (priors : Fin m → Scalar) (μ : Fin m → Measure ℝ)
    (hq : ∀ i, Inverts (priors i) (μ i)) :
    AEMeasurable (fun probs i => (priors i).inverseSample (probs i) false) (Measure.pi fun _ : Fin m => squeezed eps) ∧
    (Measure.pi fun _ : Fin m => squeezed eps).map (fun probs i => (priors i).inverseSample (probs i) false) =
      Measure.pi fun i => (squeezed eps).map (priors i).icdf := by
  have hp := isProbabilityMeasure_squeezed eps h1
  have ha : ∀ i, AEMeasurable (fun p => (priors i).inverseSample p false) (squeezed eps) := fun i =>
    inverseSample_aemeasurable (priors i) (hq i) eps h0 h1
  have : ∀ i, IsProbabilityMeasure ((squeezed eps).map fun p => (priors i).inverseSample p false) := fun i =>
    Measure.isProbabilityMeasure_map (ha i)
  constructor
  · exact aemeasurable_pi_lambda _ fun i =>
      (ha i).comp_quasiMeasurePreserving (Measure.quasiMeasurePreserving_eval _ i)
  · rw [Measure.pi_map_pi ha]
    congr 1
    exact funext fun i => inverseSample_map (priors i) (hq i) eps h0 h1

theorem initialise_row {m : ℕ} (eps : ℝ) (r : Bool) (priors : Fin m → Scalar) (points : List (Fin m → ℝ)) (k : ℕ)
    (hk : k < points.length) (fresh : Fin m → ℝ) :
    (initialise eps r priors points fresh).2.getD k 0 = fun i => (priors i).inverseSample
      (safe eps (if r then Int.fract (points[k] i + fresh i) else points[k] i)) false := by
  unfold initialise Engine.sample
  cases r <;> simp [List.getD_eq_getElem?_getD, hk]

/-- The law of one row of parameters. -/
theorem initialise_law {m : ℕ} (eps : ℝ) (h0 : 0 < eps) (h1 : eps < 1) (priors : Fin m → Scalar)
    (μ : Fin m → Measure ℝ) (hq : ∀ i, Inverts (priors i) (μ i)) (points : List (Fin m → ℝ)) (k : ℕ)
    (hk : k < points.length) :
    (uniforms m).map (fun fresh => (initialise eps true priors points fresh).2.getD k 0) =
      Measure.pi fun i => (squeezed eps).map (priors i).icdf := by
  obtain ⟨ha, hl⟩ := rows_law eps h0 h1 priors μ hq
  have hr := rotated_law eps h1 points[k]
  rw [← hl, ← hr]
  rw [← hr] at ha
  have hm : Measurable fun (fresh : Fin m → ℝ) (j : Fin m) => safe eps (Int.fract (points[k] j + fresh j)) := by
    refine measurable_pi_lambda _ fun j => ?_
    have : Measurable fun r : ℝ => safe eps (Int.fract (points[k] j + r)) := by
      have : Measurable fun r : ℝ => Int.fract (points[k] j + r) :=
        measurable_fract.comp (measurable_const.add measurable_id)
      unfold safe
      fun_prop
    exact this.comp (measurable_pi_apply j)
  rw [AEMeasurable.map_map_of_aemeasurable ha hm.aemeasurable]
  congr 1
  funext fresh
  rw [initialise_row eps true priors points k hk]
  rfl

/-- The claim: every row of parameters is a draw from the joint prior. -/
def C103_claim : Prop :=
  ∀ (m : ℕ) (eps : ℝ), 0 < eps → eps < 1 → ∀ (priors : Fin m → Scalar) (μ : Fin m → Measure ℝ),
    (∀ i, IsProbabilityMeasure (μ i)) → (∀ i, Inverts (priors i) (μ i)) →
    ∀ (points : List (Fin m → ℝ)) (k : ℕ), k < points.length →
      (uniforms m).map (fun fresh => (initialise eps true priors points fresh).2.getD k 0) = Measure.pi μ

/-- **C103** (law). With randomisation every row of parameters, whatever the point of the sequence, has independent
components, and component `i` follows prior `i` up to cutting off tails of mass `eps / 2`. Missing for the full claim:
the tails. -/
theorem C103_law_partial {m : ℕ} (eps : ℝ) (h0 : 0 < eps) (h1 : eps < 1) (priors : Fin m → Scalar)
    (μ : Fin m → Measure ℝ) [∀ i, IsProbabilityMeasure (μ i)] (hq : ∀ i, Inverts (priors i) (μ i))
    (points : List (Fin m → ℝ)) (k : ℕ) (hk : k < points.length) :
    ∃ ν : Fin m → Measure ℝ, (∀ i, TailsCut eps (μ i) (ν i)) ∧
      (uniforms m).map (fun fresh => (initialise eps true priors points fresh).2.getD k 0) = Measure.pi ν := by
  have hp := isProbabilityMeasure_squeezed eps h1
  exact ⟨_, fun i => ⟨Measure.isProbabilityMeasure_map (quantile_aemeasurable (hq i).quantile eps h0),
    (hq i).quantile.squeezed_cdf eps h0 h1⟩, initialise_law eps h0 h1 priors μ hq points k hk⟩

/-- **C103** (distance). The probability of every event differs from that under the joint prior by at most
`1 - (1 - eps) ^ m`. -/
theorem C103_close {m : ℕ} (eps : ℝ) (h0 : 0 < eps) (h1 : eps < 1) (priors : Fin m → Scalar)
    (μ : Fin m → Measure ℝ) [∀ i, IsProbabilityMeasure (μ i)] (hq : ∀ i, Inverts (priors i) (μ i))
    (points : List (Fin m → ℝ)) (k : ℕ) (hk : k < points.length) (A : Set (Fin m → ℝ)) (hA : MeasurableSet A) :
    |((uniforms m).map fun fresh => (initialise eps true priors points fresh).2.getD k 0).real A
      - (Measure.pi μ).real A| ≤ 1 - (1 - eps) ^ m := by
  have hp := isProbabilityMeasure_squeezed eps h1
  have hν : ∀ i, IsProbabilityMeasure ((squeezed eps).map (priors i).icdf) := fun i =>
    Measure.isProbabilityMeasure_map (quantile_aemeasurable (hq i).quantile eps h0)
  rw [initialise_law eps h0 h1 priors μ hq points k hk]
  refine close_of_le _ _ _ (pow_nonneg (by linarith) m) (pow_le_one₀ (by linarith) (by linarith)) ?_ A hA
  exact pi_le μ _ _ (by linarith) fun i => (hq i).quantile.squeezed_le eps h0 h1

/-- **C103** (without rotation). The same holds without randomisation, if the point of the (scrambled) sequence is
uniform. -/
theorem C103_scrambled {Ω : Type} [MeasurableSpace Ω] (P : Measure Ω) {m : ℕ} (eps : ℝ) (h0 : 0 < eps) (h1 : eps < 1)
    (priors : Fin m → Scalar) (μ : Fin m → Measure ℝ) [∀ i, IsProbabilityMeasure (μ i)]
    (hq : ∀ i, Inverts (priors i) (μ i)) (points : Ω → List (Fin m → ℝ)) (k : ℕ) (hk : ∀ ω, k < (points ω).length)
    (hm : Measurable fun ω => (points ω).getD k 0) (hu : P.map (fun ω => (points ω).getD k 0) = uniforms m)
    (fresh : Fin m → ℝ) :
    ∃ ν : Fin m → Measure ℝ, (∀ i, TailsCut eps (μ i) (ν i)) ∧
      P.map (fun ω => (initialise eps false priors (points ω) fresh).2.getD k 0) = Measure.pi ν := by
  have hp := isProbabilityMeasure_squeezed eps h1
  refine ⟨_, fun i => ⟨Measure.isProbabilityMeasure_map (quantile_aemeasurable (hq i).quantile eps h0),
    (hq i).quantile.squeezed_cdf eps h0 h1⟩, ?_⟩
  obtain ⟨ha, hl⟩ := rows_law eps h0 h1 priors μ hq
  have hr := squeezed_law (d := m) eps h1
  have hs : Measurable fun (p : Fin m → ℝ) (j : Fin m) => safe eps (p j) := by
    refine measurable_pi_lambda _ fun j => ?_
    have : Measurable (safe eps) := by unfold safe; fun_prop
    exact this.comp (measurable_pi_apply j)
  rw [← hu, Measure.map_map hs hm] at hr
  rw [← hl, ← hr]
  rw [← hr] at ha
  rw [AEMeasurable.map_map_of_aemeasurable ha (hs.comp hm).aemeasurable]
  congr 1
  funext ω
  rw [initialise_row eps false priors (points ω) k (hk ω)]
  simp [List.getD_eq_getElem?_getD, hk ω]

/-! ### The uniform prior -/

/-- `Uniform(0, 1)`. -/
def uniformPrior : Scalar := ⟨.interval 0 1, fun p => p⟩

theorem unit_Iic (x : ℝ) : unit (Iic x) = ENNReal.ofReal (min 1 x) := by
  rw [unit_eq_Ioo, Measure.restrict_apply measurableSet_Iic]
  refine le_antisymm ?_ ?_
  · refine (measure_mono (t := Ioc 0 (min 1 x)) fun p hp => ⟨hp.2.1, le_min hp.2.2.le hp.1⟩).trans ?_
    rw [Real.volume_Ioc, sub_zero]
  · refine le_trans ?_ (measure_mono (s := Ioo 0 (min 1 x)) fun p hp =>
      ⟨(hp.2.trans_le (min_le_right _ _)).le, hp.1, hp.2.trans_le (min_le_left _ _)⟩)
    rw [Real.volume_Ioo, sub_zero]

theorem uniform_inverts : Inverts uniformPrior unit where
  valid := one_pos
  quantile p hp x := by
    show p ≤ x ↔ _
    rw [unit_Iic]
    constructor
    · intro h
      exact ENNReal.ofReal_le_ofReal (le_min hp.2.le h)
    · intro h
      by_contra hn
      have hlt : min 1 x < p := (min_le_right _ _).trans_lt (not_le.1 hn)
      exact absurd h (not_le.2 ((ENNReal.ofReal_lt_ofReal_iff hp.1).2 hlt))
  inside p hp := hp

/-- The smallest values are never drawn. -/
theorem C103_negation : ¬ C103_claim := by
  intro h
  have h0 : (0 : ℝ) < 1 / 2 := by norm_num
  have h1 : (1 / 2 : ℝ) < 1 := by norm_num
  have e := h 1 (1 / 2) h0 h1 (fun _ => uniformPrior) (fun _ => unit) (fun _ => inferInstance)
    (fun _ => uniform_inverts) [fun _ => 0] 0 one_pos
  obtain ⟨ν, hν, e'⟩ := C103_law_partial (1 / 2) h0 h1 (fun _ : Fin 1 => uniformPrior) (fun _ => unit)
    (fun _ => uniform_inverts) [fun _ => 0] 0 one_pos
  have hν' : ∀ i, IsProbabilityMeasure (ν i) := fun i => (hν i).1
  rw [e] at e'
  have e2 := congrArg (fun μ => μ.map (Function.eval (0 : Fin 1))) e'
  simp only [Measure.pi_map_eval, measure_univ, Finset.prod_const_one, one_smul] at e2
  have e3 := (hν 0).2 (1 / 4)
  rw [← e2, measureReal_def, unit_Iic] at e3
  norm_num at e3

/-- Two parameters, uniform on the unit interval and normal, and two points. -/
example : ∃ q, ∃ ν : Fin 2 → Measure ℝ,
    (TailsCut (1 / 100) unit (ν 0) ∧ TailsCut (1 / 100) (gaussianReal 0 1) (ν 1)) ∧
    (uniforms 2).map (fun fresh => (initialise (1 / 100) true ![uniformPrior, ⟨.real, q⟩]
      [![1 / 4, 3 / 4], ![1 / 2, 0]] fresh).2.getD 1 0) = Measure.pi ν := by
  obtain ⟨q, hq⟩ := exists_quantile (gaussianReal 0 1)
  have : ∀ i, IsProbabilityMeasure ((![unit, gaussianReal 0 1] : Fin 2 → Measure ℝ) i) := fun i => by
    fin_cases i
    · exact inferInstanceAs (IsProbabilityMeasure unit)
    · exact inferInstanceAs (IsProbabilityMeasure (gaussianReal 0 1))
  obtain ⟨ν, hν, e⟩ := C103_law_partial (1 / 100) (by norm_num) (by norm_num) ![uniformPrior, ⟨.real, q⟩]
    ![unit, gaussianReal 0 1] (fun i => by
      fin_cases i
      · exact uniform_inverts
      · exact ⟨trivial, hq, fun _ _ => trivial⟩) [![1 / 4, 3 / 4], ![1 / 2, 0]] 1 (by decide)
  exact ⟨q, ν, ⟨hν 0, hν 1⟩, e⟩

/-! ### Candidates -/

/-- The claim: the candidate is a draw from the normal distribution, independently of the parameters that the context
was initialised with. -/
def C104_claim : Prop :=
  ∀ (d : ℕ) (eps : ℝ), 0 < eps → eps < 1 → ∀ (priors : Fin d → Scalar) (μ : Fin d → Measure ℝ),
    (∀ i, IsProbabilityMeasure (μ i)) → (∀ i, Inverts (priors i) (μ i)) → ∀ icdf, IsQuantile icdf (gaussianReal 0 1) →
    ∀ (kernel : GaussKernel d), kernel.tril.det ≠ 0 →
    ∀ (points candidates : List (Fin d → ℝ)) (k l : ℕ), k < points.length → l < candidates.length →
      (uniforms d).map (fun fresh =>
        ((initialise eps true priors points fresh).2.getD k 0,
          (quasiNormal eps icdf (initialise eps true priors points fresh).1 kernel candidates fresh).2.getD l 0)) =
      ((uniforms d).map fun fresh => (initialise eps true priors points fresh).2.getD k 0).prod
        (volume.withDensity fun x => ENNReal.ofReal (Real.exp (kernel.logProb x)))

theorem initialise_engine {m : ℕ} (eps : ℝ) (priors : Fin m → Scalar) (points : List (Fin m → ℝ)) (fresh : Fin m → ℝ) :
    (initialise eps true priors points fresh).1 = { randomize := true, rotation := some fresh } := rfl

theorem quasiNormal_row {d : ℕ} (eps : ℝ) (icdf : ℝ → ℝ) (rot : Fin d → ℝ) (kernel : GaussKernel d)
    (points : List (Fin d → ℝ)) (fresh : Fin d → ℝ) (l : ℕ) (hl : l < points.length) :
    (quasiNormal eps icdf { randomize := true, rotation := some rot } kernel points fresh).2.getD l 0 =
      kernel.sample fun j => icdf (safe eps (Int.fract (points[l] j + rot j))) := by
  unfold quasiNormal Engine.sample
  simp [List.getD_eq_getElem?_getD, hl]

theorem normal_law {d : ℕ} (eps : ℝ) (h0 : 0 < eps) (h1 : eps < 1) (icdf : ℝ → ℝ)
    (hq : IsQuantile icdf (gaussianReal 0 1)) (pt : Fin d → ℝ) :
    AEMeasurable (fun rot j => icdf (safe eps (Int.fract (pt j + rot j)))) (uniforms d) ∧
    (uniforms d).map (fun rot j => icdf (safe eps (Int.fract (pt j + rot j)))) =
      Measure.pi fun _ => (squeezed eps).map icdf := by
  have hp := isProbabilityMeasure_squeezed eps h1
  have ha := quantile_aemeasurable hq eps h0
  have hν : IsProbabilityMeasure ((squeezed eps).map icdf) := Measure.isProbabilityMeasure_map ha
  have hr := rotated_law eps h1 pt
  have hm : Measurable fun (fresh : Fin d → ℝ) (j : Fin d) => safe eps (Int.fract (pt j + fresh j)) := by
    refine measurable_pi_lambda _ fun j => ?_
    have : Measurable fun r : ℝ => safe eps (Int.fract (pt j + r)) := by
      have : Measurable fun r : ℝ => Int.fract (pt j + r) :=
        measurable_fract.comp (measurable_const.add measurable_id)
      unfold safe
      fun_prop
    exact this.comp (measurable_pi_apply j)
  have hpi : AEMeasurable (fun (probs : Fin d → ℝ) j => icdf (probs j)) (Measure.pi fun _ => squeezed eps) :=
    aemeasurable_pi_lambda _ fun i => ha.comp_quasiMeasurePreserving (Measure.quasiMeasurePreserving_eval _ i)
  have hpi' := hpi
  rw [← hr] at hpi
  refine ⟨hpi.comp_aemeasurable hm.aemeasurable, ?_⟩
  have := AEMeasurable.map_map_of_aemeasurable hpi hm.aemeasurable
  rw [hr, Measure.pi_map_pi fun _ => ha] at this
  exact this.symm

/-- **C104** (law). Each candidate, for a given kernel, is an affine image of independent normal numbers with tails of
mass `eps / 2` cut off, and the probability of every event differs by at most `1 - (1 - eps) ^ d` from that under the
kernel's density. Missing for the full claim: the tails, and independence of the initial parameters. -/
theorem C104_law_partial {d : ℕ} (eps : ℝ) (h0 : 0 < eps) (h1 : eps < 1) (priors : Fin d → Scalar) (icdf : ℝ → ℝ)
    (hq : IsQuantile icdf (gaussianReal 0 1)) (kernel : GaussKernel d) (hk : kernel.tril.det ≠ 0)
    (points candidates : List (Fin d → ℝ)) (later : Fin d → ℝ) (l : ℕ) (hl : l < candidates.length)
    (A : Set (Fin d → ℝ)) (hA : MeasurableSet A) :
    |((uniforms d).map fun fresh =>
        (quasiNormal eps icdf (initialise eps true priors points fresh).1 kernel candidates later).2.getD l 0).real A
      - (volume.withDensity fun x => ENNReal.ofReal (Real.exp (kernel.logProb x))).real A| ≤ 1 - (1 - eps) ^ d := by
  have hp := isProbabilityMeasure_squeezed eps h1
  have hν : IsProbabilityMeasure ((squeezed eps).map icdf) :=
    Measure.isProbabilityMeasure_map (quantile_aemeasurable hq eps h0)
  obtain ⟨ha, hlaw⟩ := normal_law eps h0 h1 icdf hq candidates[l]
  have hs : Measurable kernel.sample := by
    unfold GaussKernel.sample
    exact measurable_const.add (Continuous.measurable (by fun_prop))
  have e1 : ((uniforms d).map fun fresh =>
        (quasiNormal eps icdf (initialise eps true priors points fresh).1 kernel candidates later).2.getD l 0) =
      (Measure.pi fun _ => (squeezed eps).map icdf).map kernel.sample := by
    rw [← hlaw, AEMeasurable.map_map_of_aemeasurable hs.aemeasurable ha]
    congr 1
    funext fresh
    rw [initialise_engine, quasiNormal_row _ _ _ _ _ _ _ hl]
    rfl
  rw [e1, ← Verif.Unbiased.gauss_law kernel hk, map_measureReal_apply hs hA, map_measureReal_apply hs hA]
  refine close_of_le _ _ _ (pow_nonneg (by linarith) d) (pow_le_one₀ (by linarith) (by linarith)) ?_ _ (hs hA)
  exact pi_le _ _ _ (by linarith) fun i => hq.squeezed_le eps h0 h1

/-- **C104** (failure). All points of a randomised engine are determined by any one of them and the sequence: nothing
random is left for a candidate once the initial parameters are known. -/
theorem C104_determined {d : ℕ} (eps : ℝ) (h1 : eps < 1) (p q : Fin d → ℝ) (points candidates : List (Fin d → ℝ)) (k l : ℕ)
    (hk : k < points.length) (hl : l < candidates.length) :
    ∃ g : (Fin d → ℝ) → Fin d → ℝ, ∀ fresh later : Fin d → ℝ,
      let first := Engine.sample eps { randomize := true } points fresh
      (first.1.sample eps candidates later).2.getD l q = g (first.2.getD k p) := by
  have hc : (1 - eps) ≠ 0 := by linarith
  refine ⟨fun x j => safe eps (Int.fract (candidates[l] j + (((x j - 0.5) / (1 - eps) + 0.5) - points[k] j))),
    fun fresh later => ?_⟩
  simp only [Engine.sample, if_true, List.getD_eq_getElem?_getD, List.getElem?_map, List.getElem?_eq_getElem hk,
    List.getElem?_eq_getElem hl, Option.map_some, Option.getD_some]
  funext j
  congr 1
  have e : (safe eps (Int.fract (points[k] j + fresh j)) - 0.5) / (1 - eps) + 0.5 = Int.fract (points[k] j + fresh j) := by
    unfold safe
    field_simp
    ring
  rw [e, Int.fract_eq_fract]
  refine ⟨⌊points[k] j + fresh j⌋, ?_⟩
  rw [Int.fract]
  ring

theorem C104_negation : ¬ C104_claim := by
  intro h
  obtain ⟨icdf, hq⟩ := exists_quantile (gaussianReal 0 1)
  have h0 : (0 : ℝ) < 1 / 2 := by norm_num
  have h1 : (1 / 2 : ℝ) < 1 := by norm_num
  have hp := isProbabilityMeasure_squeezed (1 / 2) h1
  have hν : IsProbabilityMeasure ((squeezed (1 / 2)).map icdf) :=
    Measure.isProbabilityMeasure_map (quantile_aemeasurable hq _ h0)
  let K : GaussKernel 1 := ⟨0, 1⟩
  have hdet : K.tril.det ≠ 0 := by simp [K]
  have e := h 1 (1 / 2) h0 h1 (fun _ => uniformPrior) (fun _ => unit) (fun _ => inferInstance)
    (fun _ => uniform_inverts) icdf hq K hdet [fun _ => 0] [fun _ => 1 / 2] 0 0 one_pos one_pos
  obtain ⟨ha, hlaw⟩ := normal_law (1 / 2) h0 h1 icdf hq (fun _ : Fin 1 => 1 / 2)
  have hK : K.sample = id := by
    funext z
    simp [K, GaussKernel.sample]
  have hcand : (fun fresh : Fin 1 → ℝ => (quasiNormal (1 / 2) icdf (initialise (1 / 2) true (fun _ => uniformPrior)
      [fun _ => 0] fresh).1 K [fun _ => 1 / 2] fresh).2.getD 0 0) =
      fun rot j => icdf (safe (1 / 2) (Int.fract (1 / 2 + rot j))) := by
    funext fresh
    rw [initialise_engine, quasiNormal_row _ _ _ _ _ _ _ one_pos, hK]
    rfl
  have hinit : AEMeasurable (fun fresh : Fin 1 → ℝ => (initialise (1 / 2) true (fun _ => uniformPrior)
      [fun _ => 0] fresh).2.getD 0 0) (uniforms 1) := by
    by_contra hn
    have := initialise_law (1 / 2) h0 h1 (fun _ : Fin 1 => uniformPrior) (fun _ => unit) (fun _ => uniform_inverts)
      [fun _ => 0] 0 one_pos
    rw [Measure.map_of_not_aemeasurable hn] at this
    have hu : IsProbabilityMeasure ((squeezed (1 / 2)).map uniformPrior.icdf) :=
      Measure.isProbabilityMeasure_map (quantile_aemeasurable uniform_inverts.quantile _ h0)
    have h2 := congrArg (fun μ => μ univ) this
    simp only [Measure.coe_zero, Pi.zero_apply, measure_univ] at h2
    exact zero_ne_one h2
  have hprob : IsProbabilityMeasure ((uniforms 1).map fun fresh : Fin 1 → ℝ => (initialise (1 / 2) true
      (fun _ => uniformPrior) [fun _ => 0] fresh).2.getD 0 0) := Measure.isProbabilityMeasure_map hinit
  have e2 := congrArg (fun μ => μ.map Prod.snd) e
  simp only [Measure.map_snd_prod, measure_univ, one_smul] at e2
  rw [AEMeasurable.map_map_of_aemeasurable measurable_snd.aemeasurable
    (hinit.prodMk (by rw [hcand]; exact ha)), ← Verif.Unbiased.gauss_law K hdet, hK, Measure.map_id] at e2
  have e3 : (Measure.pi fun _ : Fin 1 => (squeezed (1 / 2)).map icdf) = Gauss.stdNormal 1 := by
    rw [← hlaw, ← e2, ← hcand]
    rfl
  have e4 := congrArg (fun μ => μ.map (Function.eval (0 : Fin 1))) e3
  simp only [Gauss.stdNormal, Measure.pi_map_eval, measure_univ, Finset.prod_const_one, one_smul] at e4
  obtain ⟨x, hx⟩ := ((tendsto_cdf_atBot (gaussianReal 0 1)).eventually (gt_mem_nhds (show (0 : ℝ) < 1 / 4 by norm_num))).exists
  have e5 := hq.squeezed_cdf (1 / 2) h0 h1 x
  rw [e4] at e5
  rw [cdf_eq_real] at hx
  have e6 : (gaussianReal 0 1).real (Iic x) = 0 := by
    rw [e5]
    refine max_eq_left ((min_le_right _ _).trans ?_)
    refine div_nonpos_of_nonpos_of_nonneg (by linarith) (by norm_num)
  have e7 : gaussianReal 0 1 (Iic x) = 0 := by
    rwa [measureReal_eq_zero_iff] at e6
  have e8 := gaussianReal_absolutelyContinuous' 0 (one_ne_zero (α := NNReal)) e7
  simp at e8

/-- A kernel with correlated components. -/
example : ∃ icdf, ∀ A, MeasurableSet A →
    |((uniforms 2).map fun fresh => (quasiNormal (1 / 100) icdf
        (initialise (1 / 100) true (fun _ => uniformPrior) [![0, 0]] fresh).1 ⟨![1, 2], !![1, 0; 1, 1]⟩
        [![1 / 2, 1 / 4], ![1 / 8, 3 / 4]] 0).2.getD 1 0).real A
      - (volume.withDensity fun x => ENNReal.ofReal (Real.exp
        ((⟨![1, 2], !![1, 0; 1, 1]⟩ : GaussKernel 2).logProb x))).real A| ≤ 1 - (1 - 1 / 100) ^ 2 := by
  obtain ⟨icdf, hq⟩ := exists_quantile (gaussianReal 0 1)
  exact ⟨icdf, fun A hA => C104_law_partial (1 / 100) (by norm_num) (by norm_num) _ icdf hq _
    (by simp [Matrix.det_fin_two]) _ _ _ 1 (by decide) A hA⟩

end Verif.Props
