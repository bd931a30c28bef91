import Verif.Lemmas.KernelProposal
import Verif.Lemmas.Categorical

/-!
# The nested proposal is proper
-/

namespace Verif.Unbiased

open Verif Verif.Spec XF MeasureTheory ProbabilityTheory
open scoped ENNReal

section
variable {α β γ Ω : Type} [MeasurableSpace α] [MeasurableSpace β] [MeasurableSpace γ] [MeasurableSpace Ω] {P : Measure Ω}

/-- Two draws in a row. -/
theorem draws_comp [IsProbabilityMeasure P] {f : Ω → α × Ω} {ν : Measure α} (hf : Draws P f ν)
    {g : α → Ω → β × Ω} (hg : Measurable fun q : α × Ω => g q.1 q.2) {κ : α → Measure β}
    (hgd : ∀ a, Draws P (g a) (κ a)) {h : α × β → γ} (hh : Measurable h) :
    ∃ ν', Draws P (fun ω => (h ((f ω).1, (g (f ω).1 (f ω).2).1), (g (f ω).1 (f ω).2).2)) ν' ∧
      ∀ F : γ → ℝ≥0∞, Measurable F → ∫⁻ c, F c ∂ν' = ∫⁻ a, ∫⁻ b, F (h (a, b)) ∂(κ a) ∂ν := by
  have hS1 : Measurable fun q : α × Ω => (h (q.1, (g q.1 q.2).1), (g q.1 q.2).2) :=
    (hh.comp (measurable_fst.prodMk (measurable_fst.comp hg))).prodMk (measurable_snd.comp hg)
  have hS : Measurable fun ω => (h ((f ω).1, (g (f ω).1 (f ω).2).1), (g (f ω).1 (f ω).2).2) :=
    hS1.comp hf.measurable
  have hS0 : Measurable fun ω => h ((f ω).1, (g (f ω).1 (f ω).2).1) := measurable_fst.comp hS
  have key : ∀ F : γ × Ω → ℝ≥0∞, Measurable F →
      ∫⁻ ω, F (h ((f ω).1, (g (f ω).1 (f ω).2).1), (g (f ω).1 (f ω).2).2) ∂P
        = ∫⁻ a, ∫⁻ b, ∫⁻ ω, F (h (a, b), ω) ∂P ∂(κ a) ∂ν := by
    intro F hF
    have := draws_lintegral hf (hF.comp hS1)
    simp only [Function.comp] at this
    rw [this]
    refine lintegral_congr fun a => ?_
    have hFa : Measurable fun q : β × Ω => F (h (a, q.1), q.2) :=
      hF.comp ((hh.comp (measurable_const.prodMk measurable_fst)).prodMk measurable_snd)
    exact draws_lintegral (hgd a) hFa
  have hprob : IsProbabilityMeasure (P.map fun ω => h ((f ω).1, (g (f ω).1 (f ω).2).1)) :=
    Measure.isProbabilityMeasure_map hS0.aemeasurable
  refine ⟨P.map fun ω => h ((f ω).1, (g (f ω).1 (f ω).2).1), ⟨hS, hprob, ?_⟩, ?_⟩
  · refine Measure.ext_of_lintegral _ fun F hF => ?_
    rw [lintegral_map hF hS, key F hF, lintegral_prod _ hF.aemeasurable]
    have hF' : Measurable fun c : γ => ∫⁻ ω, F (c, ω) ∂P := hF.lintegral_prod_right'
    rw [lintegral_map hF' hS0]
    have := key (fun q => ∫⁻ ω, F (q.1, ω) ∂P) (hF'.comp measurable_fst)
    simp only [lintegral_const, measure_univ, mul_one] at this
    rw [this]
  · intro F hF
    rw [lintegral_map hF hS0]
    have := key (fun q => F q.1) (hF.comp measurable_fst)
    simp only [lintegral_const, measure_univ, mul_one] at this
    exact this

end

variable {N B d M : ℕ} {V Y Ω : Type} [MeasurableSpace V] [MeasurableSpace Ω] {P : Measure Ω}

theorem nestedProbs_fin (lo : ℝ) (l : Fin M → ℝ) (j : Fin M) :
    nestedProbs lo (fun j => fin (l j)) j = fin (Real.exp (l j) / ∑ k, Real.exp (l k)) := by
  unfold nestedProbs
  have := softmax_usable lo (fun j => fin (l j)) ⟨j, by simp [Usable]⟩ j
  simp only [this]
  rfl

theorem nestedWeight_fin (lo : ℝ) (hM : 0 < M) (l : Fin M → ℝ) :
    nestedWeight lo (fun j => fin (l j)) = fin (Real.log ((∑ k, Real.exp (l k)) / M)) := by
  have hMr : (0 : ℝ) < M := by exact_mod_cast hM
  have hS : 0 < ∑ k, Real.exp (l k) := Finset.sum_pos (fun j _ => Real.exp_pos _) ⟨⟨0, hM⟩, Finset.mem_univ _⟩
  have hpos : 0 < (∑ k, Real.exp (l k)) / (M : ℝ) := div_pos hS hMr
  unfold nestedWeight
  simp only [exp_nanToNum, XF.sum_fin]
  rw [XF.fin_div hMr.ne']
  show XF.log (fin ((∑ k, Real.exp (l k)) / M)) = _
  simp only [XF.log, hpos, if_true]

/-- The nested proposal is proper. -/
theorem nested_proper [IsProbabilityMeasure P] (hM : 0 < M) (lo : ℝ)
    {inner : TS N B d V → Ω → (Fin M → Fin N → Fin B → Fin d → V) × Ω}
    {K : Fin B → ℕ → Kernel (Fin d → V) (Fin d → V)} (hK : DrawsInner P inner K)
    {categorical : (Fin N → Fin B → Fin M → XF) → Ω → (Fin N → Fin B → Fin M) × Ω} (hcat : DrawsFrom P categorical)
    (logg : Fin B → Y → ℕ → (Fin d → V) → ℝ) (hlogg : ∀ b y t, Measurable (logg b y t)) :
    ProperProposal P (nestedSample lo inner (fun y x i b => fin (logg b y x.time (x.value i b))) categorical) K logg := by
  have hMr : (0 : ℝ) < M := by exact_mod_cast hM
  have hSpos : ∀ l : Fin M → ℝ, 0 < ∑ k, Real.exp (l k) := fun l =>
    Finset.sum_pos (fun j _ => Real.exp_pos _) ⟨⟨0, hM⟩, Finset.mem_univ _⟩
  -- probabilities of the inner samples
  let pr : Y → ℕ → (Fin M → Fin N → Fin B → Fin d → V) → Fin N → Fin B → Fin M → ℝ := fun y t s i b j =>
    Real.exp (logg b y (t + 1) (s j i b)) / ∑ k, Real.exp (logg b y (t + 1) (s k i b))
  let wt : Y → ℕ → (Fin M → Fin N → Fin B → Fin d → V) → Fin N → Fin B → ℝ := fun y t s i b =>
    Real.log ((∑ k, Real.exp (logg b y (t + 1) (s k i b))) / M)
  have hl : ∀ y t j (i : Fin N) (b : Fin B), Measurable fun s : Fin M → Fin N → Fin B → Fin d → V =>
      logg b y (t + 1) (s j i b) := fun y t j i b => (hlogg b y (t + 1)).comp (by fun_prop)
  have hpr : ∀ y t, Measurable (pr y t) := by
    intro y t
    rw [measurable_pi_iff]; intro i
    rw [measurable_pi_iff]; intro b
    rw [measurable_pi_iff]; intro j
    have := fun j => hl y t j i b
    exact (Real.measurable_exp.comp (this j)).div (Finset.measurable_sum _ fun k _ => Real.measurable_exp.comp (this k))
  have hwt : ∀ y t, Measurable (wt y t) := by
    intro y t
    rw [measurable_pi_iff]; intro i
    rw [measurable_pi_iff]; intro b
    have := fun j => hl y t j i b
    exact Real.measurable_log.comp ((Finset.measurable_sum _ fun k _ => Real.measurable_exp.comp (this k)).div_const _)
  have hprob : ∀ y t s i b, IsProb (pr y t s i b) := fun y t s i b => softmax_isProb hM _
  -- the result from inner samples and choice
  let H : Y → ℕ → (Fin M → Fin N → Fin B → Fin d → V) × (Fin N → Fin B → Fin M) →
      (Fin N → Fin B → Fin d → V) × (Fin N → Fin B → ℝ) := fun y t q =>
    (fun i b => q.1 (q.2 i b) i b, wt y t q.1)
  have hH : ∀ y t, Measurable (H y t) := by
    intro y t
    refine Measurable.prodMk ?_ ((hwt y t).comp measurable_fst)
    rw [measurable_pi_iff]; intro i
    rw [measurable_pi_iff]; intro b
    have h2 : Measurable fun q : (Fin M → Fin N → Fin B → Fin d → V) × (Fin N → Fin B → Fin M) => (q.1, q.2 i b) := by
      fun_prop
    have h3 : Measurable fun q : (Fin M → Fin N → Fin B → Fin d → V) × Fin M => q.1 q.2 i b :=
      measurable_from_prod_countable_left fun j => by fun_prop
    exact h3.comp h2
  let G : Y → ℕ → (Fin M → Fin N → Fin B → Fin d → V) → Ω → (Fin N → Fin B → Fin M) × Ω := fun y t s ω =>
    categorical (fun i b j => fin (pr y t s i b j)) ω
  have hG : ∀ y t, Measurable fun q : (Fin M → Fin N → Fin B → Fin d → V) × Ω => G y t q.1 q.2 := fun y t =>
    hcat.measurable.comp (((hpr y t).comp measurable_fst).prodMk measurable_snd)
  refine ⟨fun y t => ⟨fun z => (H y t ((inner ⟨z.1, t⟩ z.2).1, (G y t (inner ⟨z.1, t⟩ z.2).1 (inner ⟨z.1, t⟩ z.2).2).1),
    (G y t (inner ⟨z.1, t⟩ z.2).1 (inner ⟨z.1, t⟩ z.2).2).2), ?_, ?_, ?_⟩⟩
  · have h1 := hK.measurable t
    have h2 := (hG y t).comp h1
    exact ((hH y t).comp ((measurable_fst.comp h1).prodMk (measurable_fst.comp h2))).prodMk (measurable_snd.comp h2)
  · intro p ω ht
    subst ht
    have e1 : ∀ s : Fin M → Fin N → Fin B → Fin d → V, (fun i b => nestedProbs lo fun j =>
        fin (logg b y (p.prevX.time + 1) (s j i b))) = fun i b j => fin (pr y p.prevX.time s i b j) := by
      intro s
      funext i b j
      rw [nestedProbs_fin]
    have e2 : ∀ (s : Fin M → Fin N → Fin B → Fin d → V) i b, nestedWeight lo (fun j =>
        fin (logg b y (p.prevX.time + 1) (s j i b))) = fin (wt y p.prevX.time s i b) := fun s i b =>
      nestedWeight_fin lo hM _
    unfold nestedSample
    simp only [e1, e2]
    rfl
  · intro x
    obtain ⟨ν, hν, hmarg⟩ := hK.draws ⟨x, t⟩
    choose κ hκ hκp using fun s => hcat.draws (pr y t s) (hprob y t s)
    obtain ⟨ν', hν', hint⟩ := draws_comp hν (hG y t) (κ := κ) hκ (hH y t)
    refine ⟨ν', hν', fun i b φ hφ => ?_⟩
    have h4 : Measurable fun q : (Fin N → Fin B → Fin d → V) × (Fin N → Fin B → ℝ) =>
        ENNReal.ofReal (Real.exp (q.2 i b)) * φ (q.1 i b) := by
      have : Measurable fun q : (Fin N → Fin B → Fin d → V) × (Fin N → Fin B → ℝ) => q.1 i b := by fun_prop
      exact Measurable.mul (by fun_prop) (hφ.comp this)
    have h6 : Measurable fun x' : Fin d → V => ENNReal.ofReal (Real.exp (logg b y (t + 1) x')) * φ x' :=
      (Real.measurable_exp.comp (hlogg b y (t + 1))).ennreal_ofReal.mul hφ
    rw [hint _ h4]
    have e3 : ∀ s, ∫⁻ c, ENNReal.ofReal (Real.exp ((H y t (s, c)).2 i b)) * φ ((H y t (s, c)).1 i b) ∂(κ s)
        = ∑ k, ENNReal.ofReal (1 / M) * (ENNReal.ofReal (Real.exp (logg b y (t + 1) (s k i b))) * φ (s k i b)) := by
      intro s
      have hm : Measurable fun a : Fin N → Fin B → Fin M => a i b := measurable_of_finite _
      have e4 : ∫⁻ c, ENNReal.ofReal (Real.exp ((H y t (s, c)).2 i b)) * φ ((H y t (s, c)).1 i b) ∂(κ s)
          = ∫⁻ k, ENNReal.ofReal (Real.exp (wt y t s i b)) * φ (s k i b) ∂((κ s).map fun a => a i b) := by
        rw [lintegral_map (measurable_of_finite _) hm]
      rw [e4, lintegral_fintype]
      refine Finset.sum_congr rfl fun k _ => ?_
      have e5 : ((κ s).map fun a => a i b) {k} = ENNReal.ofReal (pr y t s i b k) := by
        rw [Measure.map_apply hm (measurableSet_singleton k)]
        exact hκp s i b k
      rw [e5, mul_right_comm, ← ENNReal.ofReal_mul (Real.exp_pos _).le, ← mul_assoc, ← ENNReal.ofReal_mul (by positivity)]
      congr 2
      have hS := hSpos fun k => logg b y (t + 1) (s k i b)
      show Real.exp (Real.log ((∑ k, Real.exp (logg b y (t + 1) (s k i b))) / M)) *
        (Real.exp (logg b y (t + 1) (s k i b)) / ∑ k, Real.exp (logg b y (t + 1) (s k i b))) = _
      rw [Real.exp_log (div_pos hS hMr)]
      field_simp
    simp only [e3]
    have h7 : ∀ k, Measurable fun s : Fin M → Fin N → Fin B → Fin d → V => s k i b := fun k => by fun_prop
    have h8 : ∀ k, Measurable fun s : Fin M → Fin N → Fin B → Fin d → V =>
        ENNReal.ofReal (Real.exp (logg b y (t + 1) (s k i b))) * φ (s k i b) := fun k => h6.comp (h7 k)
    rw [lintegral_finsetSum _ fun k _ => (h8 k).const_mul _]
    have e6 : ∀ k, ∫⁻ s, ENNReal.ofReal (1 / M) * (ENNReal.ofReal (Real.exp (logg b y (t + 1) (s k i b))) * φ (s k i b)) ∂ν
        = ENNReal.ofReal (1 / M) * ∫⁻ x', ENNReal.ofReal (Real.exp (logg b y (t + 1) x')) * φ x' ∂(K b t (x i b)) := by
      intro k
      rw [lintegral_const_mul _ (h8 k), ← lintegral_map h6 (h7 k), hmarg k i b]
    simp only [e6, Finset.sum_const, Finset.card_univ, Fintype.card_fin, nsmul_eq_mul]
    rw [← mul_assoc, ← ENNReal.ofReal_natCast, ← ENNReal.ofReal_mul hMr.le, mul_one_div_cancel hMr.ne', ENNReal.ofReal_one,
      one_mul]

/-! ## Generators with such draws -/

theorem measurable_invCdf_joint (i : Fin M) : Measurable fun q : (Fin M → ℝ) × ℝ => invCdf q.1 q.2 i := by
  classical
  have hcum : ∀ k, Measurable fun q : (Fin M → ℝ) × ℝ => cum q.1 k := by
    intro k
    unfold cum
    refine Finset.measurable_sum _ fun j _ => ?_
    split_ifs
    · fun_prop
    · exact measurable_const
  have hset : ∀ k : ℕ, MeasurableSet {q : (Fin M → ℝ) × ℝ | k < M ∧ q.2 < cum q.1 (k + 1)} := fun k => by
    by_cases hk : k < M
    · simp only [hk, true_and]
      exact measurableSet_lt measurable_snd (hcum _)
    · simp [hk]
  refine measurable_to_countable' fun k => ?_
  have : (fun q : (Fin M → ℝ) × ℝ => invCdf q.1 q.2 i) ⁻¹' {k} =
      ({q | k.1 < M ∧ q.2 < cum q.1 (k.1 + 1)} ∩ ⋂ m ∈ Finset.range k.1, {q | m < M ∧ q.2 < cum q.1 (m + 1)}ᶜ) ∪
      ((⋂ m, {q | m < M ∧ q.2 < cum q.1 (m + 1)}ᶜ) ∩ {_q | i = k}) := by
    ext q
    simp only [Set.mem_preimage, Set.mem_singleton_iff, Set.mem_union, Set.mem_inter_iff, Set.mem_setOf_eq,
      Set.mem_iInter, Set.mem_compl_iff, Finset.mem_range]
    unfold invCdf
    split_ifs with h
    · rw [Fin.ext_iff]
      simp only
      rw [Nat.find_eq_iff h]
      constructor
      · rintro ⟨h1, h2⟩
        exact .inl ⟨h1, h2⟩
      · rintro (⟨h1, h2⟩ | ⟨h1, _⟩)
        · exact ⟨h1, h2⟩
        · obtain ⟨m, hm⟩ := h
          exact absurd hm (h1 m)
    · constructor
      · exact fun hi => .inr ⟨fun m hm => h ⟨m, hm⟩, hi⟩
      · rintro (⟨h1, _⟩ | ⟨_, hi⟩)
        · exact absurd ⟨k.1, h1⟩ h
        · exact hi
  rw [this]
  refine MeasurableSet.union ((hset k).inter ?_) (MeasurableSet.inter (.iInter fun m => (hset m).compl) ?_)
  · exact Finset.measurableSet_biInter _ fun m _ => (hset m).compl
  · exact MeasurableSet.const _

/-- The value of a finite number. -/
def realOf : XF → ℝ
  | .fin r => r
  | _ => 0

/-- `Categorical(probs).sample()` by inversion, with independent uniforms for all entries. -/
noncomputable def inversion (hM : 0 < M) (rand : Ω → (ℕ × ℕ → ℝ) × Ω) (p : Fin N → Fin B → Fin M → XF) (ω : Ω) :
    (Fin N → Fin B → Fin M) × Ω :=
  (fun i b => invCdf (fun k => realOf (p i b k)) ((rand ω).1 (i, b)) ⟨0, hM⟩, (rand ω).2)

theorem inversion_draws [SFinite P] (hM : 0 < M) {rand : Ω → (ℕ × ℕ → ℝ) × Ω} (hrand : Draws P rand unifs2) :
    DrawsFrom (N := N) (B := B) P (inversion hM rand) := by
  have hm : Measurable fun q : (Fin N → Fin B → Fin M → ℝ) × (ℕ × ℕ → ℝ) => (fun (i : Fin N) (b : Fin B) =>
      invCdf (q.1 i b) (q.2 (i, b)) ⟨0, hM⟩) := by
    refine measurable_pi_lambda _ fun i => measurable_pi_lambda _ fun b => ?_
    have : Measurable fun q : (Fin N → Fin B → Fin M → ℝ) × (ℕ × ℕ → ℝ) => (q.1 i b, q.2 ((i : ℕ), (b : ℕ))) := by
      fun_prop
    exact (measurable_invCdf_joint (⟨0, hM⟩ : Fin M)).comp this
  refine ⟨?_, fun p hp => ?_⟩
  · exact (hm.comp (measurable_fst.prodMk (measurable_fst.comp (hrand.measurable.comp measurable_snd)))).prodMk
      (measurable_snd.comp (hrand.measurable.comp measurable_snd))
  · have hmp := hm.comp (measurable_const (a := p) |>.prodMk measurable_id)
    refine ⟨_, draws_map hrand hmp, fun i b k => ?_⟩
    have hs : MeasurableSet {a : Fin N → Fin B → Fin M | a i b = k} := MeasurableSet.of_discrete
    have hu : MeasurableSet {u : ℝ | invCdf (p i b) u ⟨0, hM⟩ = k} :=
      measurable_invCdf _ _ (measurableSet_singleton k)
    rw [Measure.map_apply hmp hs]
    have he : unifs2.map (fun u : ℕ × ℕ → ℝ => u ((i : ℕ), (b : ℕ))) = unif :=
      Measure.infinitePi_map_eval (fun _ => unif) _
    have hev : Measurable fun u : ℕ × ℕ → ℝ => u ((i : ℕ), (b : ℕ)) := measurable_pi_apply _
    have := unif_invCdf (hp i b) ⟨0, hM⟩ k
    rw [← he, Measure.map_apply hev hu] at this
    exact this

/-- Several candidates for every particle, with noise of their own. -/
def noiseInner {Z : Type} (noise : Ω → (ℕ × ℕ × ℕ → Z) × Ω) (f : Fin B → ℕ → (Fin d → V) × Z → Fin d → V)
    (x : TS N B d V) (ω : Ω) : (Fin M → Fin N → Fin B → Fin d → V) × Ω :=
  (fun j i b => f b x.time (x.value i b, (noise ω).1 (j, i, b)), (noise ω).2)

theorem noise_inner {Z : Type} [MeasurableSpace Z] [SFinite P] {noise : Ω → (ℕ × ℕ × ℕ → Z) × Ω} (ζ : Measure Z)
    [IsProbabilityMeasure ζ] (h : Draws P noise (Measure.infinitePi fun _ => ζ))
    {f : Fin B → ℕ → (Fin d → V) × Z → Fin d → V} (hf : ∀ b t, Measurable (f b t)) :
    DrawsInner (N := N) (M := M) P (noiseInner noise f) fun b t => noiseKernel ζ (f b t) := by
  have hm : ∀ t, Measurable fun q : (Fin N → Fin B → Fin d → V) × (ℕ × ℕ × ℕ → Z) =>
      (fun j i b => f b t (q.1 i b, q.2 (j, i, b)) : Fin M → Fin N → Fin B → Fin d → V) := by
    intro t
    rw [measurable_pi_iff]; intro j
    rw [measurable_pi_iff]; intro i
    rw [measurable_pi_iff]; intro b
    exact (hf b t).comp (by fun_prop)
  refine ⟨fun t => ?_, fun x => ⟨_, draws_map h ((hm x.time).comp (measurable_const.prodMk measurable_id)), ?_⟩⟩
  · exact ((hm t).comp (measurable_fst.prodMk (measurable_fst.comp (h.measurable.comp measurable_snd)))).prodMk
      (measurable_snd.comp (h.measurable.comp measurable_snd))
  · intro j i b
    have h3 := measurePreserving_eval_infinitePi (fun _ : ℕ × ℕ × ℕ => ζ) ((j : ℕ), (i : ℕ), (b : ℕ))
    have h4 : Measurable fun z => f b x.time (x.value i b, z) :=
      (hf b x.time).comp (measurable_const.prodMk measurable_id)
    rw [noiseKernel_apply ζ (hf b x.time), Measure.map_map (by fun_prop)
      ((hm x.time).comp (measurable_const.prodMk measurable_id))]
    conv_rhs => rw [← h3.map_eq]
    rw [Measure.map_map h4 h3.measurable]
    rfl

end Verif.Unbiased
