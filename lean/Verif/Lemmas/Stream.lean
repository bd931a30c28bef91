import Verif.Lemmas.Unbiased
import Verif.Lemmas.Resampling
import Mathlib.Probability.ProductMeasure
import Mathlib.Probability.Kernel.Composition.MapComap
import Mathlib.Probability.Kernel.Composition.Prod

/-!
# Systematic resampling is unbiased, and a random number generator that never runs out
-/

namespace Verif.Unbiased

open Verif.Spec XF MeasureTheory ProbabilityTheory
open scoped ENNReal

variable {N B d : ℕ} {V Y Ω : Type} [MeasurableSpace V] [MeasurableSpace Ω]

/-- A function of a draw. -/
theorem draws_map {α β : Type} [MeasurableSpace α] [MeasurableSpace β] {P : Measure Ω} [SFinite P]
    {f : Ω → α × Ω} {ν : Measure α} (h : Draws P f ν) {g : α → β} (hg : Measurable g) :
    Draws P (fun ω => (g (f ω).1, (f ω).2)) (ν.map g) := by
  have := h.prob
  refine ⟨?_, Measure.isProbabilityMeasure_map hg.aemeasurable, ?_⟩
  · exact (hg.comp (measurable_fst.comp h.measurable)).prodMk (measurable_snd.comp h.measurable)
  · have h3 : (ν.map g).prod (P.map id) = _ := Measure.map_prod_map ν P hg measurable_id
    rw [Measure.map_id] at h3
    rw [h3, ← h.law, Measure.map_map (hg.prodMap measurable_id) h.measurable]
    rfl

/-! ## Systematic resampling -/

/-- Uniform distribution on `[0, 1)`. -/
noncomputable def unif : Measure ℝ := volume.restrict (Set.Ico 0 1)

instance : IsProbabilityMeasure unif := ⟨by simp [unif]⟩

/-- Independent uniforms. -/
noncomputable def unifs : Measure (ℕ → ℝ) := Measure.infinitePi fun _ => unif

instance : IsProbabilityMeasure unifs := by unfold unifs; infer_instance

/-- The `i`-th index drawn for weights `p` and uniform `u`. -/
noncomputable def sysIdx (p : Fin N → ℝ) (u : ℝ) (i : Fin N) : ℕ :=
  systematicRow (fun k => fin (p k)) (fun _ => u) i

/-- The index as a particle. -/
noncomputable def sysFin (p : Fin N → ℝ) (u : ℝ) (i : Fin N) : Fin N :=
  if h : sysIdx p u i < N then ⟨sysIdx p u i, h⟩ else i

theorem cumsum1_real (p : Fin N → ℝ) (i : Fin N) :
    cumsum1 (fun k => fin (p k)) i
      = fin (if (i : ℕ) + 1 = N then 1 else ∑ j ∈ Finset.univ.filter (· ≤ i), p j) := by
  unfold cumsum1
  split_ifs
  · rfl
  · exact (sum_fin _ _).symm ▸ rfl

theorem measurable_sysIdx (i : Fin N) : Measurable fun q : (Fin N → ℝ) × ℝ => sysIdx q.1 q.2 i := by
  have hm : ∀ k : Fin N, MeasurableSet {q : (Fin N → ℝ) × ℝ | sysIdx q.1 q.2 i = k} := by
    intro k
    have hg : ∀ j : Fin N, MeasurableSet {q : (Fin N → ℝ) × ℝ |
        GeVal (positions (fun _ : Fin N => q.2) i) (cumsum1 (fun k => fin (q.1 k)) j)} := by
      intro j
      simp only [cumsum1_real, geVal_fin, positions]
      apply measurableSet_le
      · fun_prop
      · split_ifs
        · fun_prop
        · fun_prop
    have : {q : (Fin N → ℝ) × ℝ | sysIdx q.1 q.2 i = k} =
        {q : (Fin N → ℝ) × ℝ |
          GeVal (positions (fun _ : Fin N => q.2) i) (cumsum1 (fun k => fin (q.1 k)) k)} ∩
        ⋂ j : Fin N, ⋂ _ : j < k, {q : (Fin N → ℝ) × ℝ |
          GeVal (positions (fun _ : Fin N => q.2) i) (cumsum1 (fun k => fin (q.1 k)) j)}ᶜ := by
      ext q
      simp only [sysIdx, systematicRow, searchsorted_eq, Set.mem_setOf_eq, Set.mem_inter_iff, Set.mem_iInter,
        Set.mem_compl_iff]
    rw [this]
    exact (hg k).inter (MeasurableSet.iInter fun j => MeasurableSet.iInter fun _ => (hg j).compl)
  apply measurable_to_countable'
  intro m
  by_cases hlt : m < N
  · exact hm ⟨m, hlt⟩
  · by_cases he : m = N
    · have : (fun q : (Fin N → ℝ) × ℝ => sysIdx q.1 q.2 i) ⁻¹' {m} =
          (⋃ k : Fin N, {q : (Fin N → ℝ) × ℝ | sysIdx q.1 q.2 i = k})ᶜ := by
        ext q
        simp only [Set.mem_preimage, Set.mem_singleton_iff, Set.mem_compl_iff, Set.mem_iUnion,
          Set.mem_setOf_eq, not_exists]
        have hle : sysIdx q.1 q.2 i ≤ N := searchsorted_le _ _
        constructor
        · intro h k
          have := k.2
          omega
        · intro h
          rcases Nat.lt_or_ge (sysIdx q.1 q.2 i) N with h1 | h1
          · exact absurd rfl (h ⟨_, h1⟩)
          · omega
      rw [this]
      exact (MeasurableSet.iUnion hm).compl
    · have : (fun q : (Fin N → ℝ) × ℝ => sysIdx q.1 q.2 i) ⁻¹' {m} = ∅ := by
        ext q
        simp only [Set.mem_preimage, Set.mem_singleton_iff, Set.mem_empty_iff_false, iff_false]
        have hle : sysIdx q.1 q.2 i ≤ N := searchsorted_le _ _
        omega
      rw [this]
      exact MeasurableSet.empty

theorem measurable_sysFin (i : Fin N) : Measurable fun q : (Fin N → ℝ) × ℝ => sysFin q.1 q.2 i :=
  (measurable_from_nat (f := fun m : ℕ => if h : m < N then (⟨m, h⟩ : Fin N) else i)).comp
    (measurable_sysIdx i)

theorem sysFin_eq {p : Fin N → ℝ} {u : ℝ} (hu : u ∈ Set.Ico (0 : ℝ) 1) (i k : Fin N) :
    sysFin p u i = k ↔ sysIdx p u i = k := by
  have hlt : sysIdx p u i < N := by
    have hN : (0 : ℝ) < N := by exact_mod_cast i.pos
    have h : sysIdx p u i ≤ (⟨N - 1, by have := i.pos; omega⟩ : Fin N) := by
      refine searchsorted_lt _ _ _ ?_
      rw [cumsum1_real, geVal_fin, if_pos (by have := i.pos; simp; omega)]
      rw [positions, div_le_one hN]
      have : (i : ℝ) + 1 ≤ N := by exact_mod_cast i.2
      linarith [hu.2]
    have := i.pos
    simp at h
    omega
  simp only [sysFin, hlt, dite_true, Fin.ext_iff]

/-- Expected number of selections. -/
theorem sum_sysFin {p : Fin N → ℝ} (hp : IsProb p) (k : Fin N) :
    ∑ i, unif {u | sysFin p u i = k} = N * ENNReal.ofReal (p k) := by
  have hms : ∀ i, MeasurableSet {u | sysFin p u i = k} := fun i =>
    (measurable_sysFin i).comp (measurable_const.prodMk measurable_id) (measurableSet_singleton k)
  have h1 : ∑ i, unif {u | sysFin p u i = k}
      = ∫⁻ u, ∑ i, Set.indicator {u | sysFin p u i = k} 1 u ∂unif := by
    rw [lintegral_finsetSum _ fun i _ => measurable_one.indicator (hms i)]
    exact Finset.sum_congr rfl fun i _ => (lintegral_indicator_one (hms i)).symm
  have h2 : ∫⁻ u, ∑ i, Set.indicator {u | sysFin p u i = k} 1 u ∂unif
      = ∫⁻ u in Set.Ico (0 : ℝ) 1,
        ENNReal.ofReal (offspring (systematicRow (fun k => fin (p k)) fun _ => u) k : ℝ) := by
    refine setLIntegral_congr_fun measurableSet_Ico fun u hu => ?_
    simp only [offspring, Set.indicator_apply, Set.mem_setOf_eq, sysFin_eq hu, Pi.one_apply, sysIdx]
    rw [Finset.sum_boole]
    simp
  have h3 := integral_offspring hp k
  have hint : IntegrableOn (fun u : ℝ =>
      (offspring (systematicRow (fun k => fin (p k)) fun _ => u) k : ℝ)) (Set.Ico 0 1) := by
    have hme : Measurable fun u : ℝ =>
        (offspring (systematicRow (fun k => fin (p k)) fun _ => u) k : ℝ) := by
      have : (fun u : ℝ => (offspring (systematicRow (fun k => fin (p k)) fun _ => u) k : ℝ))
          = fun u => ∑ i, if sysIdx p u i = k then (1 : ℝ) else 0 := by
        funext u
        rw [Finset.sum_boole]
        rfl
      rw [this]
      refine Finset.measurable_sum _ fun i _ => Measurable.ite ?_ measurable_const measurable_const
      exact (measurable_sysIdx i).comp (measurable_const.prodMk measurable_id) (measurableSet_singleton (k : ℕ))
    refine Measure.integrableOn_of_bounded (M := N) (by simp) hme.aestronglyMeasurable ?_
    refine Filter.Eventually.of_forall fun u => ?_
    rw [Real.norm_of_nonneg (Nat.cast_nonneg _)]
    exact_mod_cast (Finset.card_le_univ _).trans (by simp)
  rw [h1, h2, ← ofReal_integral_eq_lintegral_ofReal hint (Filter.Eventually.of_forall fun _ => Nat.cast_nonneg _),
    setIntegral_congr_set Ico_ae_eq_Ioc, ← intervalIntegral.integral_of_le zero_le_one, h3,
    ENNReal.ofReal_mul (Nat.cast_nonneg _), ENNReal.ofReal_natCast]

/-- Ancestors drawn for finite weights. -/
noncomputable def sysAnc {b : ℕ} (p : Fin N → Fin b → ℝ) (u : ℕ → ℝ) : Fin N → Fin b → Fin N :=
  fun i c => sysFin (fun k => p k c) (u c) i

theorem measurable_sysAnc {b : ℕ} :
    Measurable fun q : (Fin N → Fin b → ℝ) × (ℕ → ℝ) => sysAnc q.1 q.2 := by
  rw [measurable_pi_iff]; intro i
  rw [measurable_pi_iff]; intro c
  have : Measurable fun q : (Fin N → Fin b → ℝ) × (ℕ → ℝ) => ((fun k => q.1 k c : Fin N → ℝ), q.2 c) := by
    fun_prop
  exact (measurable_sysFin i).comp this

theorem systematic_true (lo : ℝ) (rand : Ω → (ℕ → ℝ) × Ω) {b : ℕ} (p : Fin N → Fin b → ℝ) (ω : Ω) :
    systematicResampler lo rand (fun i j => fin (p i j)) true ω = (sysAnc p (rand ω).1, (rand ω).2) := rfl

theorem systematic_false (lo : ℝ) (rand : Ω → (ℕ → ℝ) × Ω) {b : ℕ} (w : Fin N → Fin b → ℝ) (ω : Ω) :
    systematicResampler lo rand (fun i j => fin (w i j)) false ω
      = (sysAnc (fun i j => sm w j i) (rand ω).1, (rand ω).2) := by
  have h : systematic2 lo (fun i j => fin (w i j)) false [] (fun c : Fin b => (rand ω).1 c)
      = .ok fun i c => sysIdx (fun k => sm w c k) ((rand ω).1 c) i := by
    unfold systematic2
    rw [normalize2_fin]
    rfl
  unfold systematicResampler
  simp only [h]
  rfl

theorem sum_sysAnc {b : ℕ} {p : Fin N → Fin b → ℝ} (hp : ∀ j, IsProb fun i => p i j) (j : Fin b) (k : Fin N) :
    ∑ i, (unifs.map (sysAnc p)) {a | a i j = k} = N * ENNReal.ofReal (p k j) := by
  have hm : Measurable (sysAnc p : (ℕ → ℝ) → Fin N → Fin b → Fin N) :=
    measurable_sysAnc.comp (measurable_const.prodMk measurable_id)
  rw [← sum_sysFin (hp j) k]
  refine Finset.sum_congr rfl fun i _ => ?_
  have h1 : MeasurableSet {a : Fin N → Fin b → Fin N | a i j = k} := Set.toFinite _ |>.measurableSet
  have h2 : MeasurableSet {u | sysFin (fun i => p i j) u i = k} :=
    (measurable_sysFin i).comp (measurable_const.prodMk measurable_id) (measurableSet_singleton k)
  have h3 := measurePreserving_eval_infinitePi (fun _ : ℕ => unif) j
  rw [Measure.map_apply hm h1, ← h3.map_eq, Measure.map_apply h3.measurable h2]
  rfl

/-- Systematic resampling is unbiased. -/
theorem systematic_unbiased {P : Measure Ω} [SFinite P] (lo : ℝ) {rand : Ω → (ℕ → ℝ) × Ω}
    (h : Draws P rand unifs) :
    UnbiasedResampler P (N := N) (systematicResampler lo rand) ∧
      UnbiasedLogResampler P (N := N) (systematicResampler lo rand) := by
  have hr := h.measurable
  refine ⟨⟨fun b => ?_, fun b p hp => ⟨unifs.map (sysAnc p), ?_, sum_sysAnc hp⟩⟩,
    ⟨fun b => ?_, fun b w => ⟨unifs.map (sysAnc fun i j => sm w j i), ?_, ?_⟩⟩⟩
  · simp only [systematic_true]
    exact (measurable_sysAnc.comp (measurable_fst.prodMk (measurable_fst.comp (hr.comp measurable_snd)))).prodMk
      (measurable_snd.comp (hr.comp measurable_snd))
  · exact draws_map h (measurable_sysAnc.comp (measurable_const.prodMk measurable_id))
  · simp only [systematic_false]
    have hs : Measurable fun w : Fin N → Fin b → ℝ => (fun i j => sm w j i : Fin N → Fin b → ℝ) := by
      rw [measurable_pi_iff]; intro i
      rw [measurable_pi_iff]; intro j
      exact measurable_sm j i
    exact (measurable_sysAnc.comp ((hs.comp measurable_fst).prodMk
      (measurable_fst.comp (hr.comp measurable_snd)))).prodMk (measurable_snd.comp (hr.comp measurable_snd))
  · have e : systematicResampler lo rand (fun i j => fin (w i j)) false
        = fun ω => (sysAnc (fun i j => sm w j i) (rand ω).1, (rand ω).2) := funext fun ω => systematic_false _ _ _ _
    rw [e]
    exact draws_map h (measurable_sysAnc.comp (measurable_const.prodMk measurable_id))
  · intro j k
    exact sum_sysAnc (fun j => sm_isProb w j k.pos) j k

/-! ## Streams -/

section stream

variable {E : Type} [MeasurableSpace E] (η : Measure E) [IsProbabilityMeasure η]

/-- Law of a stream of independent draws. -/
noncomputable def streamLaw : Measure (ℕ → E) := Measure.infinitePi fun _ => η

instance : IsProbabilityMeasure (streamLaw η) := by unfold streamLaw; infer_instance

/-- The next draw, and the rest of the stream. -/
def next (ω : ℕ → E) : E × (ℕ → E) := (ω 0, fun n => ω (n + 1))

/-- Putting a draw in front of a stream. -/
def push (q : E × (ℕ → E)) : ℕ → E := fun n => Nat.casesOn n q.1 q.2

theorem measurable_next : Measurable (next : (ℕ → E) → _) := by
  unfold next
  fun_prop

theorem measurable_push : Measurable (push : E × (ℕ → E) → _) := by
  rw [measurable_pi_iff]
  intro n
  cases n with
  | zero => exact measurable_fst
  | succ n => exact (measurable_pi_apply n).comp measurable_snd

theorem push_law : (η.prod (streamLaw η)).map push = streamLaw η := by
  classical
  apply Measure.eq_infinitePi
  intro s t ht
  have hms : MeasurableSet (Set.pi (s : Set ℕ) t) := MeasurableSet.pi s.countable_toSet fun i _ => ht i
  rw [Measure.map_apply measurable_push hms]
  set t' : ℕ → Set E := fun n => if n ∈ s then t n else Set.univ with ht'
  have hpre : push ⁻¹' (Set.pi (s : Set ℕ) t)
      = t' 0 ×ˢ Set.pi ((s.preimage (· + 1) (by simp)) : Finset ℕ) fun n => t (n + 1) := by
    ext q
    simp only [Set.mem_preimage, Set.mem_pi, Set.mem_prod, Finset.mem_coe, Finset.mem_preimage, ht']
    constructor
    · intro h
      refine ⟨?_, fun n hn => h (n + 1) hn⟩
      by_cases h0 : 0 ∈ s
      · rw [if_pos h0]; exact h 0 h0
      · rw [if_neg h0]; trivial
    · rintro ⟨h0, h1⟩ n hn
      cases n with
      | zero => rw [if_pos hn] at h0; exact h0
      | succ n => exact h1 n hn
  rw [hpre, Measure.prod_prod]
  have h2 : streamLaw η (Set.pi ((s.preimage (· + 1) (by simp)) : Finset ℕ)
      fun n => t (n + 1)) = ∏ n ∈ s.preimage (· + 1) (by simp), η (t (n + 1)) :=
    Measure.infinitePi_pi _ fun i _ => ht (i + 1)
  rw [h2, Finset.prod_preimage' (· + 1) s _ fun n => η (t n)]
  by_cases h0 : 0 ∈ s
  · have : s = insert 0 (s.filter (· ∈ Set.range fun n : ℕ => n + 1)) := by
      ext n
      cases n with
      | zero => simp [h0]
      | succ n => simp
    conv_rhs => rw [this]
    rw [Finset.prod_insert (by simp)]
    simp only [ht', if_pos h0]
  · have : s = s.filter (· ∈ Set.range fun n : ℕ => n + 1) := by
      ext n
      cases n with
      | zero => simp [h0]
      | succ n => simp
    conv_rhs => rw [this]
    simp only [ht', if_neg h0, measure_univ, one_mul]

/-- The next draw is independent of the rest of the stream, which is a stream again. -/
theorem next_draws : Draws (streamLaw η) next η := by
  refine ⟨measurable_next, inferInstance, ?_⟩
  conv_lhs => rw [← push_law η]
  rw [Measure.map_map measurable_next measurable_push]
  have : (next ∘ push : E × (ℕ → E) → _) = id := rfl
  rw [this, Measure.map_id]

end stream

/-! ## Processes driven by noise -/

section noise

variable {X Z : Type} [MeasurableSpace X] [MeasurableSpace Z]

/-- Transition kernel of `x' = f x z` with noise `z` of law `ζ`. -/
noncomputable def noiseKernel (ζ : Measure Z) (f : X × Z → X) : Kernel X X :=
  (Kernel.id ×ₖ Kernel.const X ζ).map f

theorem noiseKernel_apply (ζ : Measure Z) [IsProbabilityMeasure ζ] {f : X × Z → X} (hf : Measurable f) (x : X) :
    noiseKernel ζ f x = ζ.map fun z => f (x, z) := by
  rw [noiseKernel, Kernel.map_apply _ hf, Kernel.prod_apply, Kernel.id_apply, Kernel.const_apply,
    Measure.dirac_prod, Measure.map_map hf (by fun_prop)]
  rfl

/-- Moving every particle with noise of its own. -/
def noisePropagate (noise : Ω → (ℕ × ℕ → Z) × Ω) (f : Fin B → ℕ → (Fin d → V) × Z → Fin d → V)
    (x : TS N B d V) (ω : Ω) : (Fin N → Fin B → Fin d → V) × Ω :=
  (fun i b => f b x.time (x.value i b, (noise ω).1 (i, b)), (noise ω).2)

theorem noise_transitions {P : Measure Ω} [SFinite P] {noise : Ω → (ℕ × ℕ → Z) × Ω} (ζ : Measure Z)
    [IsProbabilityMeasure ζ] (h : Draws P noise (Measure.infinitePi fun _ => ζ))
    {f : Fin B → ℕ → (Fin d → V) × Z → Fin d → V} (hf : ∀ b t, Measurable (f b t)) :
    DrawsTransitions P (noisePropagate (N := N) noise f) fun b t => noiseKernel ζ (f b t) := by
  have hm : ∀ t, Measurable fun q : (Fin N → Fin B → Fin d → V) × (ℕ × ℕ → Z) =>
      (fun i b => f b t (q.1 i b, q.2 (i, b)) : Fin N → Fin B → Fin d → V) := by
    intro t
    rw [measurable_pi_iff]; intro i
    rw [measurable_pi_iff]; intro b
    exact (hf b t).comp (by fun_prop)
  refine ⟨fun t => ?_, fun x => ⟨_, draws_map h ((hm x.time).comp (measurable_const.prodMk measurable_id)), ?_⟩⟩
  · exact ((hm t).comp (measurable_fst.prodMk (measurable_fst.comp (h.measurable.comp measurable_snd)))).prodMk
      (measurable_snd.comp (h.measurable.comp measurable_snd))
  · intro i b
    have h3 := measurePreserving_eval_infinitePi (fun _ : ℕ × ℕ => ζ) ((i : ℕ), (b : ℕ))
    have h4 : Measurable fun z => f b x.time (x.value i b, z) :=
      (hf b x.time).comp (measurable_const.prodMk measurable_id)
    rw [noiseKernel_apply ζ (hf b x.time), Measure.map_map (by fun_prop)
      ((hm x.time).comp (measurable_const.prodMk measurable_id))]
    conv_rhs => rw [← h3.map_eq]
    rw [Measure.map_map h4 h3.measurable]
    rfl

/-- Drawing every particle independently. -/
theorem noise_initial {P : Measure Ω} [SFinite P] {noise : Ω → (ℕ × ℕ → Z) × Ω} (ζ : Measure Z)
    [IsProbabilityMeasure ζ] (h : Draws P noise (Measure.infinitePi fun _ => ζ))
    {f : Fin B → Z → Fin d → V} (hf : ∀ b, Measurable (f b)) :
    DrawsInitial (N := N) P (fun ω => (fun i b => f b ((noise ω).1 (i, b)), (noise ω).2)) fun b => ζ.map (f b) := by
  have hm : Measurable fun q : ℕ × ℕ → Z => (fun i b => f b (q (i, b)) : Fin N → Fin B → Fin d → V) := by
    rw [measurable_pi_iff]; intro i
    rw [measurable_pi_iff]; intro b
    exact (hf b).comp (by fun_prop)
  refine ⟨_, draws_map h hm, fun i b => ?_⟩
  have h3 := measurePreserving_eval_infinitePi (fun _ : ℕ × ℕ => ζ) ((i : ℕ), (b : ℕ))
  beta_reduce
  rw [Measure.map_map (by fun_prop) hm]
  conv_rhs => rw [← h3.map_eq]
  rw [Measure.map_map (hf b) h3.measurable]
  rfl

end noise

end Verif.Unbiased
