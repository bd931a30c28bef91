import Verif.Lemmas.Mutual
import Verif.Lemmas.ConsistencyApf

/-!
# Samplers that draw for all particles independently
-/

namespace Verif.Unbiased

open Verif Verif.Spec XF MeasureTheory ProbabilityTheory
open scoped ENNReal

variable {N B d : ℕ} {V Y Ω : Type} [MeasurableSpace V] [MeasurableSpace Ω]

/-- Functions of distinct entries of a family of independent draws. -/
theorem family_law {ι κ Z A : Type} [Fintype κ] [MeasurableSpace Z] [MeasurableSpace A] (ζ : Measure Z)
    [IsProbabilityMeasure ζ] {e : κ → ι} (he : Function.Injective e) {g : κ → Z → A} (hg : ∀ i, Measurable (g i)) :
    (Measure.infinitePi fun _ : ι => ζ).map (fun u i => g i (u (e i))) = Measure.pi fun i => ζ.map (g i) := by
  have h := ((iIndepFun_infinitePi (P := fun _ : ι => ζ) (X := fun _ x => x) fun _ => measurable_id).precomp he).comp
    g hg
  have hm : ∀ i, Measurable fun u : ι → Z => g i (u (e i)) := fun i => (hg i).comp (measurable_pi_apply _)
  have h2 := (iIndepFun_iff_map_fun_eq_pi_map fun i => (hm i).aemeasurable).1 h
  refine h2.trans ?_
  congr 1
  funext i
  have h3 : (Measure.infinitePi fun _ : ι => ζ).map (fun u => u (e i)) = ζ := Measure.infinitePi_map_eval (fun _ => ζ) (e i)
  conv_rhs => rw [← h3]
  rw [Measure.map_map (hg i) (measurable_pi_apply _)]
  rfl

/-- Moving every particle with noise of its own. -/
theorem noise_mutual {Z : Type} [MeasurableSpace Z] {P : Measure Ω} [SFinite P] {noise : Ω → (ℕ × ℕ → Z) × Ω}
    (ζ : Measure Z) [IsProbabilityMeasure ζ] (h : Draws P noise (Measure.infinitePi fun _ => ζ))
    {f : Fin B → ℕ → (Fin d → V) × Z → Fin d → V} (hf : ∀ b t, Measurable (f b t)) :
    MutualTransitions P (noisePropagate (N := N) noise f) fun b t => noiseKernel ζ (f b t) := by
  have hm : ∀ t, Measurable fun q : (Fin N → Fin B → Fin d → V) × (ℕ × ℕ → Z) =>
      (fun i b => f b t (q.1 i b, q.2 (i, b)) : Fin N → Fin B → Fin d → V) := by
    intro t
    rw [measurable_pi_iff]; intro i
    rw [measurable_pi_iff]; intro b
    exact (hf b t).comp (by fun_prop)
  refine ⟨(noise_transitions ζ h hf).measurable, fun b t => ⟨fun x => ?_⟩, fun x =>
    ⟨_, draws_map h ((hm x.time).comp (measurable_const.prodMk measurable_id)), fun b => ?_⟩⟩
  · rw [noiseKernel_apply ζ (hf b t)]
    exact Measure.isProbabilityMeasure_map ((hf b t).comp (measurable_const.prodMk measurable_id)).aemeasurable
  · rw [Measure.map_map (measurable_column b) ((hm x.time).comp (measurable_const.prodMk measurable_id))]
    have e := family_law ζ (e := fun i : Fin N => ((i : ℕ), (b : ℕ)))
      (fun i j e => Fin.ext (congrArg Prod.fst e)) (g := fun i z => f b x.time (x.value i b, z))
      fun i => (hf b x.time).comp (measurable_const.prodMk measurable_id)
    refine Eq.trans ?_ (e.trans ?_)
    · rfl
    · congr 1
      funext i
      rw [noiseKernel_apply ζ (hf b x.time)]

/-- Drawing every particle from noise of its own. -/
theorem noise_initial_mutual {Z : Type} [MeasurableSpace Z] {P : Measure Ω} [SFinite P]
    {noise : Ω → (ℕ × ℕ → Z) × Ω} (ζ : Measure Z)
    [IsProbabilityMeasure ζ] (h : Draws P noise (Measure.infinitePi fun _ => ζ))
    {f : Fin B → Z → Fin d → V} (hf : ∀ b, Measurable (f b)) :
    MutualInitial (N := N) P (fun ω => (fun i b => f b ((noise ω).1 (i, b)), (noise ω).2)) fun b => ζ.map (f b) := by
  have hm : Measurable fun q : ℕ × ℕ → Z => (fun i b => f b (q (i, b)) : Fin N → Fin B → Fin d → V) := by
    rw [measurable_pi_iff]; intro i
    rw [measurable_pi_iff]; intro b
    exact (hf b).comp (by fun_prop)
  refine ⟨fun b => Measure.isProbabilityMeasure_map (hf b).aemeasurable, _, draws_map h hm, fun b => ?_⟩
  rw [Measure.map_map (measurable_column b) hm]
  exact family_law ζ (e := fun i : Fin N => ((i : ℕ), (b : ℕ))) (fun i j e => Fin.ext (congrArg Prod.fst e))
    (g := fun _ => f b) fun _ => hf b

/-- Independent draws are pairwise independent. -/
theorem MutualMultinomial.independent {P : Measure Ω} {mult : TorchMultinomial N Ω} (h : MutualMultinomial P mult) :
    IndependentMultinomial P mult := by
  refine ⟨h.measurable, fun b k p hp => ?_⟩
  obtain ⟨ν, h1, h2⟩ := h.draws b k p hp
  have := h1.prob
  have hm : ∀ j, Measurable fun (a : Fin b → ℕ → Fin N) (l : Fin k) => a j l := fun j => by
    rw [measurable_pi_iff]
    exact fun l => (measurable_pi_apply (l : ℕ)).comp (measurable_pi_apply j)
  have hq : ∀ j, IsProb fun i => p j i / ∑ i, p j i := fun j =>
    ⟨fun i => div_nonneg ((hp j).1 i) (hp j).2.le, by rw [← Finset.sum_div, div_self (hp j).2.ne']⟩
  have hc : ∀ j, ν.map (fun a (l : Fin k) => a j l) = Measure.pi fun _ => cat fun i => p j i / ∑ i, p j i := by
    intro j
    have := cat_prob (hq j)
    refine Measure.ext_of_singleton fun κ => ?_
    rw [Measure.map_apply (hm j) (measurableSet_singleton κ), Measure.pi_singleton]
    simp only [cat_singleton]
    rw [← h2 j κ]
    congr 1
    ext a
    simp [funext_iff]
  refine ⟨ν, h1, fun j l hl i => ?_, fun j l l' hl hl' hll i i' => ?_⟩
  · have := cat_prob (hq j)
    have e := (measurePreserving_eval (fun _ : Fin k => cat fun i => p j i / ∑ i, p j i) ⟨l, hl⟩).map_eq
    rw [← hc, Measure.map_map (measurable_pi_apply _) (hm j)] at e
    rw [← cat_singleton (fun i => p j i / ∑ i, p j i) i, ← e, Measure.map_apply ((measurable_pi_apply _).comp (hm j))
      (measurableSet_singleton i)]
    rfl
  · have := cat_prob (hq j)
    have e := pi_pair (fun _ : Fin k => cat fun i => p j i / ∑ i, p j i) (i := ⟨l, hl⟩) (j := ⟨l', hl'⟩)
      fun e => hll (congrArg Fin.val e)
    rw [← hc, Measure.map_map (by fun_prop) (hm j)] at e
    rw [← cat_singleton (fun i => p j i / ∑ i, p j i) i, ← cat_singleton (fun i => p j i / ∑ i, p j i) i', ← Measure.prod_prod,
      ← e, Measure.map_apply ((by fun_prop : Measurable fun u : Fin k → Fin N => (u ⟨l, hl⟩, u ⟨l', hl'⟩)).comp (hm j))
        ((measurableSet_singleton i).prod (measurableSet_singleton i'))]
    congr 1

/-- Multinomial resampling draws all ancestors independently. -/
theorem multinomial_mutual {P : Measure Ω} [SFinite P] (lo : ℝ) {mult : TorchMultinomial N Ω}
    (h : MutualMultinomial P mult) : MutualResampler P (N := N) (multinomial2 lo mult) := by
  have hi := MutualMultinomial.independent h
  have hd : DrawsMultinomial P mult := ⟨h.measurable, fun b k p hp => by
    obtain ⟨ν, h1, h2, -⟩ := hi.draws b k p hp
    exact ⟨ν, h1, h2⟩⟩
  refine ⟨multinomial_measurable lo hd, fun b p hp => ?_⟩
  obtain ⟨ν, h1, h2⟩ := h.draws b N (fun c i => p i c) fun j => ⟨(hp j).1, (hp j).2 ▸ one_pos⟩
  refine ⟨ν.map transposed, draws_map h1 measurable_transposed, fun j k => ?_⟩
  rw [Measure.map_apply measurable_transposed (Set.toFinite _).measurableSet]
  have := h2 j k
  simp only [(hp j).2, div_one] at this
  exact this

/-- A multinomial sampler by inversion. -/
theorem multinomialBy_mutual {P : Measure Ω} [SFinite P] (hN : 0 < N) {rand : Ω → (ℕ × ℕ → ℝ) × Ω}
    (hrand : Draws P rand unifs2) : MutualMultinomial P (multinomialBy hN rand) := by
  have hm : ∀ b : ℕ, Measurable fun q : (Fin b → Fin N → ℝ) × (ℕ × ℕ → ℝ) => (fun (j : Fin b) (l : ℕ) =>
      invCdf (fun i => q.1 j i / ∑ i, q.1 j i) (q.2 (j, l)) ⟨0, hN⟩) := by
    intro b
    refine measurable_pi_lambda _ fun j => measurable_pi_lambda _ fun l => ?_
    have : Measurable fun q : (Fin b → Fin N → ℝ) × (ℕ × ℕ → ℝ) =>
        ((fun i => q.1 j i / ∑ i, q.1 j i : Fin N → ℝ), q.2 ((j : ℕ), l)) := by fun_prop
    exact (measurable_invCdf_joint (⟨0, hN⟩ : Fin N)).comp this
  refine ⟨(multinomialBy_draws hN hrand).measurable, fun b k p hp => ?_⟩
  have hmp := (hm b).comp (measurable_const (a := p) |>.prodMk measurable_id)
  have hprob : ∀ j, IsProb fun i => p j i / ∑ i, p j i := fun j =>
    ⟨fun i => div_nonneg ((hp j).1 i) (hp j).2.le, by rw [← Finset.sum_div, div_self (hp j).2.ne']⟩
  refine ⟨_, draws_map hrand hmp, fun j κ => ?_⟩
  have hs : MeasurableSet {a : Fin b → ℕ → Fin N | ∀ l : Fin k, a j l = κ l} := by
    rw [Set.ofPred_forall]
    exact MeasurableSet.iInter fun l => measurableSet_eq_fun
      ((measurable_pi_apply (l : ℕ)).comp (measurable_pi_apply j)) measurable_const
  rw [Measure.map_apply hmp hs]
  have hi : Measurable fun u : ℝ => invCdf (fun i => p j i / ∑ i, p j i) u ⟨0, hN⟩ := measurable_invCdf _ _
  have e := family_law unif (e := fun l : Fin k => ((j : ℕ), (l : ℕ))) (fun l l' e => Fin.ext (congrArg Prod.snd e))
    (g := fun _ u => invCdf (fun i => p j i / ∑ i, p j i) u ⟨0, hN⟩) fun _ => hi
  have h2 : ∀ i, unif.map (fun u => invCdf (fun i => p j i / ∑ i, p j i) u ⟨0, hN⟩) {i}
      = ENNReal.ofReal (p j i / ∑ i, p j i) := fun i => by
    rw [Measure.map_apply hi (measurableSet_singleton i)]
    exact unif_invCdf (hprob j) ⟨0, hN⟩ i
  simp only [← h2]
  have := Measure.isProbabilityMeasure_map (μ := unif) hi.aemeasurable
  rw [← Measure.pi_singleton, ← e, Measure.map_apply ?_ (measurableSet_singleton κ)]
  · congr 1
    ext u
    simp [funext_iff]
  · rw [measurable_pi_iff]
    exact fun l => hi.comp (measurable_pi_apply _)

/-- Draws from categorical distributions by inversion. -/
theorem categoricalBy_independent {P : Measure Ω} [SFinite P] {rand : Ω → (ℕ × ℕ → ℝ) × Ω}
    (hrand : Draws P rand unifs2) : IndependentCategorical (N := N) (B := B) P (categoricalBy rand) := by
  have hp : ∀ l : Fin N → ℝ, logitProb (fun k => XF.fin (l k)) = fun k => Real.exp (l k) / ∑ j, Real.exp (l j) :=
    fun l => rfl
  have hj : Measurable fun q : (Fin N → Fin B → Fin N → ℝ) × (ℕ × ℕ → ℝ) => (fun (i : Fin N) (b : Fin B) =>
      invCdf (logitProb fun k => XF.fin (q.1 i b k)) (q.2 (i, b)) i) := by
    refine measurable_pi_lambda _ fun i => measurable_pi_lambda _ fun b => ?_
    have : Measurable fun q : (Fin N → Fin B → Fin N → ℝ) × (ℕ × ℕ → ℝ) =>
        ((fun k => Real.exp (q.1 i b k) / ∑ j, Real.exp (q.1 i b j) : Fin N → ℝ), q.2 ((i : ℕ), (b : ℕ))) := by fun_prop
    exact (measurable_invCdf_joint i).comp this
  refine ⟨?_, fun l => ?_⟩
  · exact (hj.comp (measurable_fst.prodMk (measurable_fst.comp (hrand.measurable.comp measurable_snd)))).prodMk
      (measurable_snd.comp (hrand.measurable.comp measurable_snd))
  have hm : Measurable fun u : ℕ × ℕ → ℝ => (fun (i : Fin N) (b : Fin B) =>
      invCdf (logitProb fun k => XF.fin (l i b k)) (u (i, b)) i) := hj.comp (measurable_const.prodMk measurable_id)
  have hu : ∀ i b k, MeasurableSet {u : ℝ | invCdf (logitProb fun k => XF.fin (l i b k)) u i = k} := fun i b k =>
    measurable_invCdf _ i (measurableSet_singleton k)
  have hu' : ∀ i b k, MeasurableSet {u : ℝ | invCdf (fun k => Real.exp (l i b k) / ∑ j, Real.exp (l i b j)) u i = k} := hu
  refine ⟨_, draws_map hrand hm, fun i b k => ?_, fun i i' b hii k k' => ?_⟩
  · rw [Measure.map_apply hm MeasurableSet.of_discrete]
    have he : unifs2.map (fun u : ℕ × ℕ → ℝ => u ((i : ℕ), (b : ℕ))) = unif :=
      Measure.infinitePi_map_eval (fun _ => unif) _
    have hev : Measurable fun u : ℕ × ℕ → ℝ => u ((i : ℕ), (b : ℕ)) := measurable_pi_apply _
    have := unif_invCdf (softmax_isProb i.pos (l i b)) i k
    rw [← hp, ← he, Measure.map_apply hev (hu i b k), hp] at this
    exact this
  · rw [Measure.map_apply hm MeasurableSet.of_discrete, ← unif_invCdf (softmax_isProb i.pos (l i b)) i k,
      ← unif_invCdf (softmax_isProb i'.pos (l i' b)) i' k',
      ← Measure.prod_prod, ← pair_law unif (i := ((i : ℕ), (b : ℕ))) (j := ((i' : ℕ), (b : ℕ)))
        fun e => hii (Fin.ext (congrArg Prod.fst e)),
      Measure.map_apply (by fun_prop : Measurable fun u : ℕ × ℕ → ℝ => (u ((i : ℕ), (b : ℕ)), u ((i' : ℕ), (b : ℕ))))
        (hu' i b k |>.prod (hu' i' b k'))]
    rfl

end Verif.Unbiased
