import Verif.Lemmas.Consistency
import Verif.Lemmas.Stream
import Mathlib.Probability.Independence.InfinitePi

/-!
# Independent draws: multinomial resampling, processes driven by noise, the bootstrap proposal
-/

namespace Verif.Unbiased

open Verif Verif.Spec XF MeasureTheory ProbabilityTheory
open scoped ENNReal

variable {N B d : ℕ} {V Y Ω : Type} [MeasurableSpace V] [MeasurableSpace Ω]

/-- Two entries of a family of independent draws. -/
theorem pair_law {ι Z : Type} [MeasurableSpace Z] (ζ : Measure Z) [IsProbabilityMeasure ζ] {i j : ι} (hij : i ≠ j) :
    (Measure.infinitePi fun _ : ι => ζ).map (fun u => (u i, u j)) = ζ.prod ζ := by
  have h := (iIndepFun_infinitePi (P := fun _ : ι => ζ) (X := fun _ x => x) fun _ => measurable_id).indepFun hij
  rw [indepFun_iff_map_prod_eq_prod_map_map (measurable_pi_apply i).aemeasurable
    (measurable_pi_apply j).aemeasurable] at h
  have e : ∀ k : ι, (Measure.infinitePi fun _ : ι => ζ).map (fun u => u k) = ζ :=
    fun k => Measure.infinitePi_map_eval (fun _ => ζ) k
  rw [h, e, e]

/-- Functions of two entries of a family of independent draws. -/
theorem pair_law_map {ι Z A A' : Type} [MeasurableSpace Z] [MeasurableSpace A] [MeasurableSpace A'] (ζ : Measure Z)
    [IsProbabilityMeasure ζ] {i j : ι} (hij : i ≠ j) {f : Z → A} {g : Z → A'} (hf : Measurable f) (hg : Measurable g) :
    (Measure.infinitePi fun _ : ι => ζ).map (fun u => (f (u i), g (u j))) = (ζ.map f).prod (ζ.map g) := by
  rw [Measure.map_prod_map _ _ hf hg, ← pair_law ζ hij, Measure.map_map (hf.prodMap hg) (by fun_prop)]
  rfl

theorem IndependentTransitions.draws' {P : Measure Ω} {propagate : TS N B d V → Ω → (Fin N → Fin B → Fin d → V) × Ω}
    {K : Fin B → ℕ → Kernel (Fin d → V) (Fin d → V)} (h : IndependentTransitions P propagate K) :
    DrawsTransitions P propagate K :=
  ⟨h.measurable, fun x => by
    obtain ⟨ν, h1, h2, -⟩ := h.draws x
    exact ⟨ν, h1, h2⟩⟩

/-- Moving every particle with noise of its own. -/
theorem noise_independent {Z : Type} [MeasurableSpace Z] {P : Measure Ω} [SFinite P] {noise : Ω → (ℕ × ℕ → Z) × Ω}
    (ζ : Measure Z) [IsProbabilityMeasure ζ] (h : Draws P noise (Measure.infinitePi fun _ => ζ))
    {f : Fin B → ℕ → (Fin d → V) × Z → Fin d → V} (hf : ∀ b t, Measurable (f b t)) :
    IndependentTransitions P (noisePropagate (N := N) noise f) fun b t => noiseKernel ζ (f b t) := by
  have hm : ∀ t, Measurable fun q : (Fin N → Fin B → Fin d → V) × (ℕ × ℕ → Z) =>
      (fun i b => f b t (q.1 i b, q.2 (i, b)) : Fin N → Fin B → Fin d → V) := by
    intro t
    rw [measurable_pi_iff]; intro i
    rw [measurable_pi_iff]; intro b
    exact (hf b t).comp (by fun_prop)
  refine ⟨(noise_transitions ζ h hf).measurable, fun x =>
    ⟨_, draws_map h ((hm x.time).comp (measurable_const.prodMk measurable_id)), ?_, ?_⟩⟩
  · intro i b
    have h4 : Measurable fun z => f b x.time (x.value i b, z) :=
      (hf b x.time).comp (measurable_const.prodMk measurable_id)
    have h3 := measurePreserving_eval_infinitePi (fun _ : ℕ × ℕ => ζ) ((i : ℕ), (b : ℕ))
    rw [noiseKernel_apply ζ (hf b x.time), Measure.map_map (by fun_prop)
      ((hm x.time).comp (measurable_const.prodMk measurable_id))]
    conv_rhs => rw [← h3.map_eq]
    rw [Measure.map_map h4 h3.measurable]
    rfl
  · intro i i' b hii
    have h4 : ∀ i, Measurable fun z => f b x.time (x.value i b, z) :=
      fun i => (hf b x.time).comp (measurable_const.prodMk measurable_id)
    have hne : ((i : ℕ), (b : ℕ)) ≠ ((i' : ℕ), (b : ℕ)) := fun e => hii (Fin.ext (congrArg Prod.fst e))
    rw [noiseKernel_apply ζ (hf b x.time), noiseKernel_apply ζ (hf b x.time), Measure.map_map (by fun_prop)
      ((hm x.time).comp (measurable_const.prodMk measurable_id))]
    exact pair_law_map ζ hne (h4 i) (h4 i')

/-- Drawing every particle from noise of its own. -/
theorem noise_initial_independent {Z : Type} [MeasurableSpace Z] {P : Measure Ω} [SFinite P]
    {noise : Ω → (ℕ × ℕ → Z) × Ω} (ζ : Measure Z)
    [IsProbabilityMeasure ζ] (h : Draws P noise (Measure.infinitePi fun _ => ζ))
    {f : Fin B → Z → Fin d → V} (hf : ∀ b, Measurable (f b)) :
    IndependentInitial (N := N) P (fun ω => (fun i b => f b ((noise ω).1 (i, b)), (noise ω).2)) fun b => ζ.map (f b) := by
  have hm : Measurable fun q : ℕ × ℕ → Z => (fun i b => f b (q (i, b)) : Fin N → Fin B → Fin d → V) := by
    rw [measurable_pi_iff]; intro i
    rw [measurable_pi_iff]; intro b
    exact (hf b).comp (by fun_prop)
  refine ⟨_, draws_map h hm, fun i b => ?_, fun i i' b hii => ?_⟩
  · have h3 := measurePreserving_eval_infinitePi (fun _ : ℕ × ℕ => ζ) ((i : ℕ), (b : ℕ))
    beta_reduce
    rw [Measure.map_map (by fun_prop) hm]
    conv_rhs => rw [← h3.map_eq]
    rw [Measure.map_map (hf b) h3.measurable]
    rfl
  · have hne : ((i : ℕ), (b : ℕ)) ≠ ((i' : ℕ), (b : ℕ)) := fun e => hii (Fin.ext (congrArg Prod.fst e))
    beta_reduce
    rw [Measure.map_map (by fun_prop) hm]
    exact pair_law_map ζ hne (hf b) (hf b)

/-- Multinomial resampling draws ancestors independently. -/
theorem multinomial_independent {P : Measure Ω} [SFinite P] (lo : ℝ) {mult : TorchMultinomial N Ω}
    (h : IndependentMultinomial P mult) : IndependentResampler P (N := N) (multinomial2 lo mult) := by
  have hd : DrawsMultinomial P mult := ⟨h.measurable, fun b k p hp => by
    obtain ⟨ν, h1, h2, -⟩ := h.draws b k p hp
    exact ⟨ν, h1, h2⟩⟩
  refine ⟨multinomial_measurable lo hd, fun b p hp => ?_⟩
  obtain ⟨ν, h1, h2, h3⟩ := h.draws b N (fun c i => p i c) fun j => ⟨(hp j).1, (hp j).2 ▸ one_pos⟩
  refine ⟨ν.map transposed, draws_map h1 measurable_transposed, fun i j k => ?_, fun i i' j hii k k' => ?_⟩
  · rw [Measure.map_apply measurable_transposed (Set.toFinite _).measurableSet]
    have := h2 j i i.2 k
    rw [(hp j).2, div_one] at this
    exact this
  · rw [Measure.map_apply measurable_transposed (Set.toFinite _).measurableSet]
    have := h3 j i i' i.2 i'.2 (fun e => hii (Fin.ext e)) k k'
    rw [(hp j).2, div_one, div_one] at this
    exact this

/-- A multinomial sampler by inversion. -/
theorem multinomialBy_independent {P : Measure Ω} [SFinite P] (hN : 0 < N) {rand : Ω → (ℕ × ℕ → ℝ) × Ω}
    (hrand : Draws P rand unifs2) : IndependentMultinomial P (multinomialBy hN rand) := by
  have hm : ∀ b : ℕ, Measurable fun q : (Fin b → Fin N → ℝ) × (ℕ × ℕ → ℝ) => (fun (j : Fin b) (l : ℕ) =>
      invCdf (fun i => q.1 j i / ∑ i, q.1 j i) (q.2 (j, l)) ⟨0, hN⟩) := by
    intro b
    refine measurable_pi_lambda _ fun j => measurable_pi_lambda _ fun l => ?_
    have : Measurable fun q : (Fin b → Fin N → ℝ) × (ℕ × ℕ → ℝ) =>
        ((fun i => q.1 j i / ∑ i, q.1 j i : Fin N → ℝ), q.2 ((j : ℕ), l)) := by fun_prop
    exact (measurable_invCdf_joint (⟨0, hN⟩ : Fin N)).comp this
  refine ⟨(multinomialBy_draws hN hrand).measurable, fun b k p hp => ?_⟩
  have hmp := (hm b).comp (measurable_const (a := p) |>.prodMk measurable_id)
  have hprob : ∀ j, IsProb fun i => p j i / ∑ i, p j i := fun j =>
    ⟨fun i => div_nonneg ((hp j).1 i) (hp j).2.le, by rw [← Finset.sum_div, div_self (hp j).2.ne']⟩
  have hev : ∀ j : Fin b, ∀ l : ℕ, Measurable fun a : Fin b → ℕ → Fin N => a j l :=
    fun j l => (measurable_pi_apply l).comp (measurable_pi_apply j)
  have hu : ∀ j i, MeasurableSet {u : ℝ | invCdf (fun i => p j i / ∑ i, p j i) u ⟨0, hN⟩ = i} :=
    fun j i => measurable_invCdf _ _ (measurableSet_singleton i)
  refine ⟨_, draws_map hrand hmp, fun j l _ i => ?_, fun j l l' _ _ hll i i' => ?_⟩
  · have hs : MeasurableSet {a : Fin b → ℕ → Fin N | a j l = i} := measurableSet_eq_fun (hev j l) measurable_const
    rw [Measure.map_apply hmp hs]
    have he : unifs2.map (fun u : ℕ × ℕ → ℝ => u ((j : ℕ), l)) = unif :=
      Measure.infinitePi_map_eval (fun _ => unif) _
    have hl : Measurable fun u : ℕ × ℕ → ℝ => u ((j : ℕ), l) := measurable_pi_apply _
    have := unif_invCdf (hprob j) ⟨0, hN⟩ i
    rw [← he, Measure.map_apply hl (hu j i)] at this
    exact this
  · have hs : MeasurableSet {a : Fin b → ℕ → Fin N | a j l = i ∧ a j l' = i'} :=
      (measurableSet_eq_fun (hev j l) measurable_const).inter (measurableSet_eq_fun (hev j l') measurable_const)
    rw [Measure.map_apply hmp hs, ← unif_invCdf (hprob j) ⟨0, hN⟩ i, ← unif_invCdf (hprob j) ⟨0, hN⟩ i',
      ← Measure.prod_prod, ← pair_law unif (i := ((j : ℕ), l)) (j := ((j : ℕ), l')) fun e => hll (congrArg Prod.snd e),
      Measure.map_apply (by fun_prop) ((hu j i).prod (hu j i'))]
    rfl

/-- The bootstrap proposal. -/
theorem bootstrap_independent {P : Measure Ω} [IsProbabilityMeasure P]
    {propagate : TS N B d V → Ω → (Fin N → Fin B → Fin d → V) × Ω}
    {K : Fin B → ℕ → Kernel (Fin d → V) (Fin d → V)} (hK : IndependentTransitions P propagate K)
    (logg : Fin B → Y → ℕ → (Fin d → V) → ℝ) (hlogg : ∀ b y t, Measurable (logg b y t)) (c : Y → ℝ)
    (hc : ∀ b y t x, logg b y t x ≤ c y) :
    IndependentProposal P (bootstrapSample propagate fun y x i b => fin (logg b y x.time (x.value i b))) K logg c := by
  refine ⟨fun y t => ⟨fun z => (((propagate ⟨z.1, t⟩ z.2).1,
    fun i b => logg b y (t + 1) ((propagate ⟨z.1, t⟩ z.2).1 i b)), (propagate ⟨z.1, t⟩ z.2).2), ?_, ?_, ?_, ?_⟩⟩
  · have h1 := hK.measurable t
    have h2 : Measurable fun v : Fin N → Fin B → Fin d → V =>
        (v, (fun i b => logg b y (t + 1) (v i b) : Fin N → Fin B → ℝ)) := by
      refine measurable_id.prodMk ?_
      rw [measurable_pi_iff]; intro i
      rw [measurable_pi_iff]; intro b
      exact (hlogg b y (t + 1)).comp (by fun_prop)
    exact (h2.comp (measurable_fst.comp h1)).prodMk (measurable_snd.comp h1)
  · intro p ω ht
    subst ht
    rfl
  · intro z i b
    exact hc _ _ _ _
  · intro x
    obtain ⟨ν, hν, hm, hpair⟩ := hK.draws ⟨x, t⟩
    have h2 : Measurable fun v : Fin N → Fin B → Fin d → V =>
        (v, (fun i b => logg b y (t + 1) (v i b) : Fin N → Fin B → ℝ)) := by
      refine measurable_id.prodMk ?_
      rw [measurable_pi_iff]; intro i
      rw [measurable_pi_iff]; intro b
      exact (hlogg b y (t + 1)).comp (by fun_prop)
    have := hν.prob
    refine ⟨ν.map fun v => (v, fun i b => logg b y (t + 1) (v i b)), draws_map hν h2, ?_, ?_⟩
    · intro i b φ hφ
      have h4 : Measurable fun q : (Fin N → Fin B → Fin d → V) × (Fin N → Fin B → ℝ) =>
          ENNReal.ofReal (Real.exp (q.2 i b)) * φ (q.1 i b) := by
        have : Measurable fun q : (Fin N → Fin B → Fin d → V) × (Fin N → Fin B → ℝ) => q.1 i b := by fun_prop
        exact Measurable.mul (by fun_prop) (hφ.comp this)
      have h5 : Measurable fun x' : Fin d → V => ENNReal.ofReal (Real.exp (logg b y (t + 1) x')) * φ x' :=
        (Real.measurable_exp.comp (hlogg b y (t + 1))).ennreal_ofReal.mul hφ
      rw [lintegral_map h4 h2, ← hm i b, lintegral_map h5 (by fun_prop)]
    · intro i i' b hii
      have h6 : Measurable fun u : Fin d → V => (u, logg b y (t + 1) u) := measurable_id.prodMk (hlogg b y (t + 1))
      have hp : ∀ i, IsProbabilityMeasure (K b t (x i b)) := fun i => by
        have : Measurable fun v : Fin N → Fin B → Fin d → V => v i b := by fun_prop
        rw [← hm i b]; exact Measure.isProbabilityMeasure_map this.aemeasurable
      have hp1 := hp i
      have hp2 := hp i'
      have e1 : ∀ i, (ν.map fun v => (v, fun i b => logg b y (t + 1) (v i b))).map
          (fun q : (Fin N → Fin B → Fin d → V) × (Fin N → Fin B → ℝ) => (q.1 i b, q.2 i b))
          = (K b t (x i b)).map fun u => (u, logg b y (t + 1) u) := by
        intro i
        rw [Measure.map_map (by fun_prop) h2, ← hm i b, Measure.map_map h6 (by fun_prop)]
        rfl
      rw [e1, e1, Measure.map_prod_map _ _ h6 h6, ← hpair i i' b hii, Measure.map_map (by fun_prop) h2,
        Measure.map_map (h6.prodMap h6) (by fun_prop)]
      rfl

end Verif.Unbiased
