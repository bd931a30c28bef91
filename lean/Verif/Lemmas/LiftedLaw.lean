import Verif.Lemmas.Lifted
import Verif.Lemmas.Stream
import Verif.Lemmas.Independence

/-!
# The law of the filter whose particles are paths
-/

namespace Verif.Lifted

open Verif.Spec Verif.Unbiased XF MeasureTheory ProbabilityTheory
open scoped ENNReal

variable {N B d : ℕ} {V Y Ω : Type} [MeasurableSpace V] [MeasurableSpace Ω]

/-- The value of a path at time `t`. -/
def present (t : ℕ) (p : Fin d → ℕ → V) : Fin d → V := fun e => p e t

/-- A path with a value at time `t + 1`. -/
def grow (t : ℕ) (q : (Fin d → ℕ → V) × (Fin d → V)) : Fin d → ℕ → V := fun e => Function.update (q.1 e) (t + 1) (q.2 e)

theorem measurable_present (t : ℕ) : Measurable (present (d := d) (V := V) t) := by
  unfold present
  fun_prop

theorem measurable_upd {α : Type} [MeasurableSpace α] (t : ℕ) {p : α → ℕ → V} {v : α → V} (hp : Measurable p)
    (hv : Measurable v) : Measurable fun a => Function.update (p a) t (v a) := by
  rw [measurable_pi_iff]
  intro n
  by_cases h : n = t
  · subst h
    simpa using hv
  · simp only [Function.update_of_ne h]
    exact (measurable_pi_apply n).comp hp

theorem measurable_grow (t : ℕ) : Measurable (grow (d := d) (V := V) t) := by
  unfold grow
  rw [measurable_pi_iff]
  intro e
  exact measurable_upd _ (by fun_prop) (by fun_prop)

theorem measurable_grow' (t : ℕ) (p : Fin d → ℕ → V) : Measurable fun x => grow t (p, x) :=
  (measurable_grow t).comp (measurable_const.prodMk measurable_id)

theorem measurable_extend (t : ℕ) : Measurable fun q : (Fin N → Fin B → Fin d → ℕ → V) × (Fin N → Fin B → Fin d → V) =>
    extend q.1 t q.2 := by
  unfold extend
  rw [measurable_pi_iff]; intro i
  rw [measurable_pi_iff]; intro b
  rw [measurable_pi_iff]; intro e
  exact measurable_upd _ (by fun_prop) (by fun_prop)

/-- The transition kernel of paths. -/
noncomputable def liftK (K : ℕ → Kernel (Fin d → V) (Fin d → V)) (t : ℕ) : Kernel (Fin d → ℕ → V) (Fin d → ℕ → V) :=
  (Kernel.id ×ₖ (K t).comap (present t) (measurable_present t)).map (grow t)

theorem liftK_apply (K : ℕ → Kernel (Fin d → V) (Fin d → V)) (t : ℕ) [IsMarkovKernel (K t)] (p : Fin d → ℕ → V) :
    liftK K t p = (K t (present t p)).map fun x => grow t (p, x) := by
  rw [liftK, Kernel.map_apply _ (measurable_grow t), Kernel.prod_apply, Kernel.id_apply, Kernel.comap_apply,
    Measure.dirac_prod, Measure.map_map (measurable_grow t) (by fun_prop)]
  rfl

theorem present_grow (t : ℕ) (p : Fin d → ℕ → V) (x : Fin d → V) : present (t + 1) (grow t (p, x)) = x := by
  funext e
  simp [present, grow]

/-- Time and component of a path in the other order. -/
def swapped (p : Fin d → ℕ → V) : ℕ → Fin d → V := fun n e => p e n

theorem swapped_grow (t : ℕ) (p : Fin d → ℕ → V) (x : Fin d → V) :
    swapped (grow t (p, x)) = Function.update (swapped p) (t + 1) x := by
  funext n e
  by_cases h : n = t + 1
  · subst h; simp [swapped, grow]
  · simp [swapped, grow, Function.update_of_ne h]

theorem lik_lifted {K : ℕ → Kernel (Fin d → V) (Fin d → V)} (hK : ∀ t, IsMarkovKernel (K t))
    {g : Y → ℕ → (Fin d → V) → ℝ≥0∞} (hg : ∀ y t, Measurable (g y t)) : ∀ (os : List (Option Y)) (t : ℕ) (p : Fin d → ℕ → V),
    lik (liftK K) (fun y t p => g y t (present t p)) os t p = lik K g os t (present t p)
  | [], t, p => rfl
  | none :: os, t, p => by
    have := hK t
    have hm : Measurable (lik (liftK K) (fun y t p => g y t (present t p)) os (t + 1)) :=
      measurable_lik _ _ (fun y t => (hg y t).comp (measurable_present t)) _ _
    simp only [lik]
    rw [liftK_apply, lintegral_map hm (measurable_grow' t p)]
    simp only [lik_lifted hK hg os, present_grow]
  | some y :: os, t, p => by
    have := hK t
    have hm : Measurable (lik (liftK K) (fun y t p => g y t (present t p)) os (t + 1)) :=
      measurable_lik _ _ (fun y t => (hg y t).comp (measurable_present t)) _ _
    have hm' : Measurable fun p => g y (t + 1) (present (t + 1) p) *
        lik (liftK K) (fun y t p => g y t (present t p)) os (t + 1) p :=
      ((hg y (t + 1)).comp (measurable_present (t + 1))).mul hm
    simp only [lik]
    rw [liftK_apply, lintegral_map hm' (measurable_grow' t p)]
    simp only [lik_lifted hK hg os, present_grow]

theorem likAvg_lifted {K : ℕ → Kernel (Fin d → V) (Fin d → V)} (hK : ∀ t, IsMarkovKernel (K t))
    {g : Y → ℕ → (Fin d → V) → ℝ≥0∞} (hg : ∀ y t, Measurable (g y t)) {Φ : (ℕ → Fin d → V) → ℝ≥0∞}
    (hΦ : Measurable fun p : Fin d → ℕ → V => Φ (swapped p)) : ∀ (os : List (Option Y)) (t : ℕ) (p : Fin d → ℕ → V),
    likAvg (liftK K) (fun y t p => g y t (present t p)) (fun p => Φ (swapped p)) os t p = pathAvg K g Φ os t (swapped p)
  | [], t, p => rfl
  | none :: os, t, p => by
    have := hK t
    have hm : Measurable (likAvg (liftK K) (fun y t p => g y t (present t p)) (fun p => Φ (swapped p)) os (t + 1)) :=
      measurable_likAvg _ _ (fun y t => (hg y t).comp (measurable_present t)) hΦ _ _
    simp only [likAvg, pathAvg]
    rw [liftK_apply, lintegral_map hm (measurable_grow' t p)]
    simp only [likAvg_lifted hK hg hΦ os, swapped_grow]
    rfl
  | some y :: os, t, p => by
    have := hK t
    have hm : Measurable (likAvg (liftK K) (fun y t p => g y t (present t p)) (fun p => Φ (swapped p)) os (t + 1)) :=
      measurable_likAvg _ _ (fun y t => (hg y t).comp (measurable_present t)) hΦ _ _
    have hm' : Measurable fun p => g y (t + 1) (present (t + 1) p) *
        likAvg (liftK K) (fun y t p => g y t (present t p)) (fun p => Φ (swapped p)) os (t + 1) p :=
      ((hg y (t + 1)).comp (measurable_present (t + 1))).mul hm
    simp only [likAvg, pathAvg]
    rw [liftK_apply, lintegral_map hm' (measurable_grow' t p)]
    simp only [likAvg_lifted hK hg hΦ os, swapped_grow, present_grow]
    rfl

theorem lik_lifted_initial {K : ℕ → Kernel (Fin d → V) (Fin d → V)} (hK : ∀ t, IsMarkovKernel (K t))
    {g : Y → ℕ → (Fin d → V) → ℝ≥0∞} (hg : ∀ y t, Measurable (g y t)) (μ : Measure (Fin d → V)) (os : List (Option Y)) :
    ∫⁻ p, lik (liftK K) (fun y t p => g y t (present t p)) os 0 p ∂(μ.map fun x e (_ : ℕ) => x e) = ∫⁻ x, lik K g os 0 x ∂μ := by
  have hm : Measurable (lik (liftK K) (fun y t p => g y t (present t p)) os 0) :=
    measurable_lik _ _ (fun y t => (hg y t).comp (measurable_present t)) _ _
  rw [lintegral_map hm (by fun_prop)]
  simp only [lik_lifted hK hg]
  rfl

theorem filterAvg_lifted {K : ℕ → Kernel (Fin d → V) (Fin d → V)} (hK : ∀ t, IsMarkovKernel (K t))
    {g : Y → ℕ → (Fin d → V) → ℝ≥0∞} (hg : ∀ y t, Measurable (g y t)) (μ : Measure (Fin d → V)) (os : List (Option Y))
    {Φ : (Fin (os.length + 1) → Fin d → V) → ℝ≥0∞} (hΦ : Measurable Φ) :
    filterAvg (liftK K) (fun y t p => g y t (present t p)) (μ.map fun x e (_ : ℕ) => x e)
      (fun p => Φ fun n e => p e n) os = smoothingAvg K g μ os Φ := by
  have hΦ' : Measurable fun p : Fin d → ℕ → V => (fun q : ℕ → Fin d → V => Φ fun n => q n) (swapped p) :=
    hΦ.comp (by unfold swapped; fun_prop)
  have hm : Measurable (likAvg (liftK K) (fun y t p => g y t (present t p)) (fun p => Φ fun n e => p e n) os 0) :=
    measurable_likAvg _ _ (fun y t => (hg y t).comp (measurable_present t)) hΦ' _ _
  unfold filterAvg smoothingAvg
  rw [lik_lifted_initial hK hg, lintegral_map hm (by fun_prop)]
  congr 1
  exact lintegral_congr fun x => likAvg_lifted hK hg (Φ := fun q : ℕ → Fin d → V => Φ fun n => q n) hΦ' os 0 fun e _ => x e

theorem markov_of_draws {P : Measure Ω} (hN : 0 < N)
    {propagate : TS N B d V → Ω → (Fin N → Fin B → Fin d → V) × Ω} {K : Fin B → ℕ → Kernel (Fin d → V) (Fin d → V)}
    (h : IndependentTransitions P propagate K) (b : Fin B) (t : ℕ) : IsMarkovKernel (K b t) := by
  refine ⟨fun x => ?_⟩
  obtain ⟨ν, hν, h1, -⟩ := h.draws ⟨fun _ _ => x, t⟩
  have := hν.prob
  rw [← h1 ⟨0, hN⟩ b]
  exact Measure.isProbabilityMeasure_map ((measurable_pi_apply b).comp (measurable_pi_apply _)).aemeasurable

theorem measurable_presents (t : ℕ) : Measurable fun (q : Fin N → Fin B → Fin d → ℕ → V) i b e => q i b e t := by
  fun_prop

variable {M : ParticleModel N B d V Y Ω}

theorem lifted_transitions {P : Measure Ω} [SFinite P] (hN : 0 < N) {K : Fin B → ℕ → Kernel (Fin d → V) (Fin d → V)}
    (h : IndependentTransitions P M.propagateValues K) :
    IndependentTransitions P (lifted M).propagateValues fun b => liftK (K b) := by
  refine ⟨fun t => ?_, fun x => ?_⟩
  · have h1 : Measurable fun q : (Fin N → Fin B → Fin d → ℕ → V) × Ω =>
        M.propagateValues ⟨fun i b e => q.1 i b e t, t⟩ q.2 :=
      (h.measurable t).comp (((measurable_presents t).comp measurable_fst).prodMk measurable_snd)
    exact ((measurable_extend (t + 1)).comp (measurable_fst.prodMk (measurable_fst.comp h1))).prodMk
      (measurable_snd.comp h1)
  · obtain ⟨ν, hν, h1, h2⟩ := h.draws (now x)
    have hm : Measurable fun v => extend x.value (x.time + 1) v :=
      (measurable_extend (x.time + 1)).comp (measurable_const.prodMk measurable_id)
    refine ⟨_, draws_map hν hm, fun i b => ?_, fun i i' b hii => ?_⟩
    · have := markov_of_draws hN h b x.time
      rw [liftK_apply, Measure.map_map (by fun_prop) hm]
      have e := h1 i b
      change ν.map (fun v => v i b) = K b x.time (present x.time (x.value i b)) at e
      rw [← e, Measure.map_map (measurable_grow' _ _) (by fun_prop)]
      rfl
    · have := markov_of_draws hN h b x.time
      rw [liftK_apply, liftK_apply, Measure.map_map (by fun_prop) hm]
      have e := h2 i i' b hii
      change ν.map (fun v => (v i b, v i' b)) = (K b x.time (present x.time (x.value i b))).prod
        (K b x.time (present x.time (x.value i' b))) at e
      rw [Measure.map_prod_map _ _ (measurable_grow' _ _) (measurable_grow' _ _), ← e, Measure.map_map
        ((measurable_grow' _ _).prodMap (measurable_grow' _ _)) (by fun_prop)]
      rfl

theorem lifted_initial {P : Measure Ω} [SFinite P] {init : Ω → (Fin N → Fin B → Fin d → V) × Ω}
    {μ : Fin B → Measure (Fin d → V)} (h : IndependentInitial P init μ) :
    IndependentInitial P (fun ω => (constant (init ω).1, (init ω).2)) fun b => (μ b).map fun x e (_ : ℕ) => x e := by
  obtain ⟨ν, hν, h1, h2⟩ := h
  have := hν.prob
  have hm : Measurable (constant (N := N) (B := B) (d := d) (V := V)) := by
    unfold constant
    fun_prop
  have hc : Measurable fun (x : Fin d → V) e (_ : ℕ) => x e := by fun_prop
  refine ⟨_, draws_map hν hm, fun i b => ?_, fun i i' b hii => ?_⟩
  · rw [Measure.map_map (by fun_prop) hm]
    beta_reduce
    rw [← h1 i b, Measure.map_map hc (by fun_prop)]
    rfl
  · have i1 : IsProbabilityMeasure (μ b) := h1 i b ▸ Measure.isProbabilityMeasure_map
      ((measurable_pi_apply b).comp (measurable_pi_apply i)).aemeasurable
    rw [Measure.map_map (by fun_prop) hm]
    beta_reduce
    rw [Measure.map_prod_map _ _ hc hc, ← h2 i i' b hii, Measure.map_map (hc.prodMap hc) (by fun_prop)]
    rfl

theorem lifted_proposal {P : Measure Ω} [SFinite P] (hinc : M.kind.increment = 1)
    {K : Fin B → ℕ → Kernel (Fin d → V) (Fin d → V)} (hK : ∀ b t, IsMarkovKernel (K b t))
    {logg : Fin B → Y → ℕ → (Fin d → V) → ℝ} (hlogg : ∀ b y t, Measurable (logg b y t)) {c : Y → ℝ}
    (h : IndependentProposal P M.sampleValues K logg c) :
    IndependentProposal P (lifted M).sampleValues (fun b => liftK (K b)) (fun b y t p => logg b y t (present t p)) c := by
  refine ⟨fun y t => ?_⟩
  obtain ⟨S, hS, h1, h2, h3⟩ := h.sample y t
  have hS' : Measurable fun q : (Fin N → Fin B → Fin d → ℕ → V) × Ω => S (fun i b e => q.1 i b e t, q.2) :=
    hS.comp (((measurable_presents t).comp measurable_fst).prodMk measurable_snd)
  refine ⟨fun q => ((extend q.1 (t + 1) (S (fun i b e => q.1 i b e t, q.2)).1.1, (S (fun i b e => q.1 i b e t, q.2)).1.2),
    (S (fun i b e => q.1 i b e t, q.2)).2), ?_, fun p ω hp => ?_, fun z i b => h2 _ i b, fun x => ?_⟩
  · exact ((((measurable_extend (t + 1)).comp (measurable_fst.prodMk ((measurable_fst.comp measurable_fst).comp hS')))).prodMk
      ((measurable_snd.comp measurable_fst).comp hS')).prodMk (measurable_snd.comp hS')
  · have := h1 (nowP p) ω hp
    subst hp
    simp only [lifted, this, hinc]
    rfl
  · obtain ⟨ν, hν, h4, h5⟩ := h3 fun i b e => x i b e t
    have := hν.prob
    have hm : Measurable fun q : (Fin N → Fin B → Fin d → V) × (Fin N → Fin B → ℝ) => (extend x (t + 1) q.1, q.2) :=
      ((measurable_extend (t + 1)).comp (measurable_const.prodMk measurable_fst)).prodMk measurable_snd
    refine ⟨_, draws_map hν hm, fun i b φ hφ => ?_, fun i i' b hii => ?_⟩
    · have := hK b t
      have hf : Measurable fun q : (Fin N → Fin B → Fin d → ℕ → V) × (Fin N → Fin B → ℝ) =>
          ENNReal.ofReal (Real.exp (q.2 i b)) * φ (q.1 i b) :=
        (Real.measurable_exp.comp (by fun_prop)).ennreal_ofReal.mul (hφ.comp (by fun_prop))
      have hf' : Measurable fun p : Fin d → ℕ → V => ENNReal.ofReal (Real.exp (logg b y (t + 1) (present (t + 1) p))) * φ p :=
        (Real.measurable_exp.comp ((hlogg b y (t + 1)).comp (measurable_present (t + 1)))).ennreal_ofReal.mul hφ
      rw [lintegral_map hf hm, liftK_apply, lintegral_map hf' (measurable_grow' t (x i b))]
      simp only [present_grow]
      exact h4 i b (fun v => φ (grow t (x i b, v))) (hφ.comp (measurable_grow' t _))
    · have hg : ∀ i, Measurable fun z : (Fin d → V) × ℝ => (grow t (x i b, z.1), z.2) := fun i =>
        ((measurable_grow' t (x i b)).comp measurable_fst).prodMk measurable_snd
      have e := h5 i i' b hii
      have m1 : ∀ i, Measurable fun q : (Fin N → Fin B → Fin d → V) × (Fin N → Fin B → ℝ) => (q.1 i b, q.2 i b) :=
        fun i => by fun_prop
      have m2 : ∀ i, Measurable fun q : (Fin N → Fin B → Fin d → ℕ → V) × (Fin N → Fin B → ℝ) => (q.1 i b, q.2 i b) :=
        fun i => by fun_prop
      have e2 : ∀ i, (ν.map fun q : (Fin N → Fin B → Fin d → V) × (Fin N → Fin B → ℝ) => (extend x (t + 1) q.1, q.2)).map
          (fun q => (q.1 i b, q.2 i b)) = (ν.map fun q => (q.1 i b, q.2 i b)).map
            fun z : (Fin d → V) × ℝ => (grow t (x i b, z.1), z.2) := by
        intro i
        rw [Measure.map_map (m2 i) hm, Measure.map_map (hg i) (m1 i)]
        rfl
      have i1 : ∀ i, IsProbabilityMeasure (ν.map fun q : (Fin N → Fin B → Fin d → V) × (Fin N → Fin B → ℝ) =>
          (q.1 i b, q.2 i b)) := fun i => Measure.isProbabilityMeasure_map (m1 i).aemeasurable
      have := i1 i
      have := i1 i'
      rw [e2, e2, Measure.map_prod_map _ _ (hg i) (hg i'), ← e, Measure.map_map ((m2 i).prodMk (m2 i')) hm,
        Measure.map_map ((hg i).prodMap (hg i')) ((m1 i).prodMk (m1 i'))]
      rfl

end Verif.Lifted
