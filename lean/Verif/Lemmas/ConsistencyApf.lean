import Verif.Lemmas.Independence

/-!
# Lemmas for the mean squared error of the APF
-/

namespace Verif.Unbiased

open Verif Verif.Spec XF MeasureTheory ProbabilityTheory
open scoped ENNReal

variable {N B d : ℕ} {V Y Ω : Type} [MeasurableSpace Ω] [MeasurableSpace V] (P : Measure Ω)

/-- As `EstV`, with a variance of at most `W` plus `Q` times the sum of squares of the weights. -/
def EstQ (b : Fin B) (t : ℕ) (f : PCorr N B d V → Ω → XF × PCorr N B d V) (φ : PCorr N B d V → ℝ≥0∞)
    (h : (Fin d → V) → ℝ≥0∞) (W Q : ℝ≥0∞) : Prop :=
  ∃ U : ZSt N B d V Ω → ℝ≥0∞, Measurable U ∧
    (∀ x w ll prev ω, ∃ r, (f ⟨⟨x, t⟩, fun i b => fin (w i b), ll, prev⟩ ω).1 = fin r ∧
      (∃ w' : Fin N → Fin B → ℝ, (f ⟨⟨x, t⟩, fun i b => fin (w i b), ll, prev⟩ ω).2.w = fun i b => fin (w' i b)) ∧
      ENNReal.ofReal (Real.exp r) * φ (f ⟨⟨x, t⟩, fun i b => fin (w i b), ll, prev⟩ ω).2 = U ((x, w), ω)) ∧
    ∀ x w, ∫⁻ ω, U ((x, w), ω) ∂P = ∑ i, ENNReal.ofReal (sm w b i) * h (x i b) ∧
      ∫⁻ ω, U ((x, w), ω) ^ 2 ∂P ≤ (∑ i, ENNReal.ofReal (sm w b i) * h (x i b)) ^ 2
        + (W + Q * ∑ i, ENNReal.ofReal (sm w b i) ^ 2)

/-- The same for a prediction. -/
def EstQP (b : Fin B) (t : ℕ) (f : PPred N B d V → Ω → XF × PCorr N B d V) (φ : PCorr N B d V → ℝ≥0∞)
    (h : (Fin d → V) → ℝ≥0∞) (W Q : ℝ≥0∞) : Prop :=
  ∃ U : ZSt N B d V Ω → ℝ≥0∞, Measurable U ∧
    (∀ x w idx ω, ∃ r, (f ⟨⟨x, t⟩, fun i b => fin (w i b), fun i b => fin (sm w b i), idx⟩ ω).1 = fin r ∧
      (∃ w' : Fin N → Fin B → ℝ, (f ⟨⟨x, t⟩, fun i b => fin (w i b), fun i b => fin (sm w b i), idx⟩ ω).2.w = fun i b => fin (w' i b)) ∧
      ENNReal.ofReal (Real.exp r) * φ (f ⟨⟨x, t⟩, fun i b => fin (w i b), fun i b => fin (sm w b i), idx⟩ ω).2
        = U ((x, w), ω)) ∧
    ∀ x w, ∫⁻ ω, U ((x, w), ω) ∂P = ∑ i, ENNReal.ofReal (sm w b i) * h (x i b) ∧
      ∫⁻ ω, U ((x, w), ω) ^ 2 ∂P ≤ (∑ i, ENNReal.ofReal (sm w b i) * h (x i b)) ^ 2
        + (W + Q * ∑ i, ENNReal.ofReal (sm w b i) ^ 2)

/-- Prediction of the APF. -/
theorem estQ_apfPredict {M : ParticleModel N B d V Y Ω} {b : Fin B} {t : ℕ}
    {f : PPred N B d V → Ω → XF × PCorr N B d V} {φ : PCorr N B d V → ℝ≥0∞} {h : (Fin d → V) → ℝ≥0∞} {W Q : ℝ≥0∞}
    (hf : EstQP P b t f φ h W Q) :
    EstQ P b t (fun c ω => f (M.apfPredict c ω).1 (M.apfPredict c ω).2) φ h W Q := by
  obtain ⟨U, hU, h1, h2⟩ := hf
  refine ⟨U, hU, fun x w ll prev ω => ?_, h2⟩
  have : M.apfPredict ⟨⟨x, t⟩, fun i b => fin (w i b), ll, prev⟩ ω
      = (⟨⟨x, t⟩, fun i b => fin (w i b), fun i b => fin (sm w b i), fun i _ => i⟩, ω) := by
    unfold ParticleModel.apfPredict
    simp only [normalize2_fin]
  dsimp only
  rw [this]
  exact h1 x w _ ω

/-- Pure prediction. -/
theorem estQ_createState [IsProbabilityMeasure P] {M : ParticleModel N B d V Y Ω}
    {K : Fin B → ℕ → Kernel (Fin d → V) (Fin d → V)} (hK : IndependentTransitions P M.propagateValues K) {b : Fin B} {t : ℕ}
    {H W Q : ℝ≥0∞} {f : PCorr N B d V → Ω → XF × PCorr N B d V} {φ : PCorr N B d V → ℝ≥0∞} {h : (Fin d → V) → ℝ≥0∞}
    (hh : Measurable h) (hH : ∀ x, h x ≤ H) (hf : EstQ P b (t + 1) f φ h W Q) :
    EstQP P b t (fun p ω => ((M.createState p ω).1.ll b + (f (M.createState p ω).1 (M.createState p ω).2).1,
        (f (M.createState p ω).1 (M.createState p ω).2).2)) φ
      (fun x => ∫⁻ x', h x' ∂(K b t x)) W (Q + H ^ 2) := by
  obtain ⟨U, hU, h1, h2⟩ := hf
  have hprop := hK.measurable t
  have hA : Measurable fun z : ZSt N B d V Ω =>
      (((M.propagateValues ⟨z.1.1, t⟩ z.2).1, z.1.2), (M.propagateValues ⟨z.1.1, t⟩ z.2).2) := by
    have h3 : Measurable fun z : ZSt N B d V Ω => M.propagateValues ⟨z.1.1, t⟩ z.2 :=
      hprop.comp ((measurable_fst.comp measurable_fst).prodMk measurable_snd)
    exact ((measurable_fst.comp h3).prodMk (measurable_snd.comp measurable_fst)).prodMk
      (measurable_snd.comp h3)
  refine ⟨_, hU.comp hA, ?_, ?_⟩
  · intro x w idx ω
    obtain ⟨r, hr1, hr3, hr2⟩ := h1 (M.propagateValues ⟨x, t⟩ ω).1 w (M.createState
      ⟨⟨x, t⟩, fun i b => fin (w i b), fun i b => fin (sm w b i), idx⟩ ω).1.ll idx (M.propagateValues ⟨x, t⟩ ω).2
    refine ⟨r, ?_, hr3, hr2⟩
    show fin 0 + (f ⟨⟨(M.propagateValues ⟨x, t⟩ ω).1, t + 1⟩, fun i b => fin (w i b), _, _⟩ _).1 = _
    refine (congrArg (fun z => fin 0 + z) hr1).trans ?_
    rw [fin_add, zero_add]
  · intro x w
    obtain ⟨ν, hν, hmarg, hpair⟩ := hK.draws ⟨x, t⟩
    have := hν.prob
    have h5 : Measurable fun q : (Fin N → Fin B → Fin d → V) × Ω => ((q.1, w), q.2) :=
      (measurable_fst.prodMk measurable_const).prodMk measurable_snd
    have hG := hU.comp h5
    have e1 := draws_lintegral hν hG
    have e2 := draws_lintegral hν (hG.pow_const 2)
    simp only [Function.comp] at e1 e2 ⊢
    rw [e1, e2]
    simp only [(h2 _ _).1]
    have hi : ∀ i, Measurable fun v : Fin N → Fin B → Fin d → V => v i b := fun i => by fun_prop
    have hmh : ∀ i, Measurable fun v : Fin N → Fin B → Fin d → V => h (v i b) := fun i => hh.comp (hi i)
    have hi1 : ∀ i, ∫⁻ v, h (v i b) ∂ν = ∫⁻ x', h x' ∂(K b t (x i b)) := by
      intro i
      rw [← lintegral_map hh (hi i), hmarg i b]
    constructor
    · rw [lintegral_finsetSum _ fun i _ => (hmh i).const_mul _]
      refine Finset.sum_congr rfl fun i _ => ?_
      rw [lintegral_const_mul _ (hmh i), hi1]
    · have hind : ∀ i j : Fin N, i ≠ j → ∫⁻ v, h (v i b) * h (v j b) ∂ν
          = (∫⁻ v, h (v i b) ∂ν) * ∫⁻ v, h (v j b) ∂ν := by
        intro i j hij
        have hp1 : IsProbabilityMeasure (K b t (x i b)) := by
          rw [← hmarg i b]; exact Measure.isProbabilityMeasure_map (hi i).aemeasurable
        have hp2 : IsProbabilityMeasure (K b t (x j b)) := by
          rw [← hmarg j b]; exact Measure.isProbabilityMeasure_map (hi j).aemeasurable
        have hpp : Measurable fun q : (Fin d → V) × (Fin d → V) => h q.1 * h q.2 :=
          (hh.comp measurable_fst).mul (hh.comp measurable_snd)
        rw [← lintegral_map (f := fun q : (Fin d → V) × (Fin d → V) => h q.1 * h q.2) hpp ((hi i).prodMk (hi j)),
          hpair i j b hij, lintegral_prod_mul hh.aemeasurable hh.aemeasurable, hi1, hi1]
      have hsec := second_moment ν (fun i (v : Fin N → Fin B → Fin d → V) => h (v i b)) hmh
        (fun i => ENNReal.ofReal (sm w b i)) H (fun i => ae_of_all _ fun v => hH _) hind
      simp only [hi1] at hsec
      generalize hR : ∑ i, ENNReal.ofReal (sm w b i) ^ 2 = R at hsec ⊢
      calc ∫⁻ v, ∫⁻ ω, U ((v, w), ω) ^ 2 ∂P ∂ν
          ≤ ∫⁻ v, ((∑ i, ENNReal.ofReal (sm w b i) * h (v i b)) ^ 2 + (W + Q * R)) ∂ν := by
            refine lintegral_mono fun v => ?_
            rw [← hR]
            exact (h2 v w).2
        _ = (∫⁻ v, (∑ i, ENNReal.ofReal (sm w b i) * h (v i b)) ^ 2 ∂ν) + (W + Q * R) := by
            rw [lintegral_add_right _ measurable_const, lintegral_const, measure_univ, mul_one]
        _ ≤ (∑ i, ENNReal.ofReal (sm w b i) * ∫⁻ x', h x' ∂(K b t (x i b))) ^ 2 + H ^ 2 * R + (W + Q * R) :=
            add_le_add hsec le_rfl
        _ = _ := by ring

/-- The estimate of the APF for given ancestors. -/
noncomputable def apfGivenU (b : Fin B) (pre : (Fin N → Fin B → Fin d → V) → Fin N → Fin B → ℝ)
    (S : (Fin N → Fin B → Fin d → V) × Ω → ((Fin N → Fin B → Fin d → V) × (Fin N → Fin B → ℝ)) × Ω)
    (U : ZSt N B d V Ω → ℝ≥0∞)
    (z : (((Fin N → Fin B → Fin d → V) × (Fin N → Fin B → ℝ)) × (Fin N → Fin B → Fin N)) × Ω) : ℝ≥0∞ :=
  ENNReal.ofReal (wavg b z.1.1.2 (pre z.1.1.1) *
      uavg b fun i b => (S (pickX z.1.1.1 z.1.2, z.2)).1.2 i b - pickW (pre z.1.1.1) z.1.2 i b) *
    U (((S (pickX z.1.1.1 z.1.2, z.2)).1.1,
      fun i b => (S (pickX z.1.1.1 z.1.2, z.2)).1.2 i b - pickW (pre z.1.1.1) z.1.2 i b),
      (S (pickX z.1.1.1 z.1.2, z.2)).2)

theorem measurable_apfGivenU (b : Fin B) {pre : (Fin N → Fin B → Fin d → V) → Fin N → Fin B → ℝ}
    (hpre : Measurable pre)
    {S : (Fin N → Fin B → Fin d → V) × Ω → ((Fin N → Fin B → Fin d → V) × (Fin N → Fin B → ℝ)) × Ω}
    (hSm : Measurable S) {U : ZSt N B d V Ω → ℝ≥0∞} (hU : Measurable U) :
    Measurable (apfGivenU b pre S U) := by
  have hx : Measurable fun z : (((Fin N → Fin B → Fin d → V) × (Fin N → Fin B → ℝ)) ×
      (Fin N → Fin B → Fin N)) × Ω => z.1.1.1 := measurable_fst.comp (measurable_fst.comp measurable_fst)
  have hw : Measurable fun z : (((Fin N → Fin B → Fin d → V) × (Fin N → Fin B → ℝ)) ×
      (Fin N → Fin B → Fin N)) × Ω => z.1.1.2 := measurable_snd.comp (measurable_fst.comp measurable_fst)
  have ha : Measurable fun z : (((Fin N → Fin B → Fin d → V) × (Fin N → Fin B → ℝ)) ×
      (Fin N → Fin B → Fin N)) × Ω => z.1.2 := measurable_snd.comp measurable_fst
  have hS2 : Measurable fun z : (((Fin N → Fin B → Fin d → V) × (Fin N → Fin B → ℝ)) ×
      (Fin N → Fin B → Fin N)) × Ω => S (pickX z.1.1.1 z.1.2, z.2) :=
    hSm.comp ((measurable_pickX.comp (hx.prodMk ha)).prodMk measurable_snd)
  have hd : Measurable fun z : (((Fin N → Fin B → Fin d → V) × (Fin N → Fin B → ℝ)) ×
      (Fin N → Fin B → Fin N)) × Ω =>
      (fun i b => (S (pickX z.1.1.1 z.1.2, z.2)).1.2 i b - pickW (pre z.1.1.1) z.1.2 i b :
        Fin N → Fin B → ℝ) :=
    measurable_subtract.comp ((measurable_snd.comp (measurable_fst.comp hS2)).prodMk
      (measurable_pickW.comp ((hpre.comp hx).prodMk ha)))
  refine (((measurable_wavg b).comp (hw.prodMk (hpre.comp hx))).mul
    ((measurable_uavg b).comp hd)).ennreal_ofReal.mul (hU.comp ?_)
  exact ((measurable_fst.comp (measurable_fst.comp hS2)).prodMk hd).prodMk (measurable_snd.comp hS2)

/-- Moments of the estimate of the APF for given ancestors. -/
theorem moments_apfGivenU [IsProbabilityMeasure P] (hN : 0 < N) (b : Fin B)
    (pre : (Fin N → Fin B → Fin d → V) → Fin N → Fin B → ℝ)
    (S : (Fin N → Fin B → Fin d → V) × Ω → ((Fin N → Fin B → Fin d → V) × (Fin N → Fin B → ℝ)) × Ω)
    {U : ZSt N B d V Ω → ℝ≥0∞} (hU : Measurable U)
    {h : (Fin d → V) → ℝ≥0∞} (hh : Measurable h) {H W Q : ℝ≥0∞} (hH : ∀ x, h x ≤ H)
    (h2 : ∀ x w, ∫⁻ ω, U ((x, w), ω) ∂P = ∑ i, ENNReal.ofReal (sm w b i) * h (x i b) ∧
      ∫⁻ ω, U ((x, w), ω) ^ 2 ∂P ≤ (∑ i, ENNReal.ofReal (sm w b i) * h (x i b)) ^ 2
        + (W + Q * ∑ i, ENNReal.ofReal (sm w b i) ^ 2))
    (x : Fin N → Fin B → Fin d → V) (w : Fin N → Fin B → ℝ) (a : Fin N → Fin B → Fin N)
    (L : (Fin d → V) → ℝ≥0∞) (κ : Measure ((Fin N → Fin B → Fin d → V) × (Fin N → Fin B → ℝ)))
    (hκ : Draws P (fun ω => S (pickX x a, ω)) κ)
    (hprop : ∀ i, ∫⁻ q, ENNReal.ofReal (Real.exp (q.2 i b)) * h (q.1 i b) ∂κ = L (pickX x a i b))
    (hpair : ∀ i i', i ≠ i' → κ.map (fun q => ((q.1 i b, q.2 i b), (q.1 i' b, q.2 i' b)))
        = (κ.map fun q => (q.1 i b, q.2 i b)).prod (κ.map fun q => (q.1 i' b, q.2 i' b)))
    {c₁ c₂ : ℝ} (hc1 : ∀ ω i, (S (pickX x a, ω)).1.2 i b ≤ pickW (pre x) a i b + c₁) (hc2 : ∀ i, pre x i b ≤ c₂) :
    ∫⁻ ω, apfGivenU b pre S U (((x, w), a), ω) ∂P
      = ∑ i, ENNReal.ofReal (wavg b w (pre x) * (1 / (N : ℝ))) *
          (ENNReal.ofReal (Real.exp (-pre x (a i b) b)) * L (x (a i b) b)) ∧
    ∫⁻ ω, apfGivenU b pre S U (((x, w), a), ω) ^ 2 ∂P
      ≤ (∑ i, ENNReal.ofReal (wavg b w (pre x) * (1 / (N : ℝ))) *
          (ENNReal.ofReal (Real.exp (-pre x (a i b) b)) * L (x (a i b) b))) ^ 2
        + (ENNReal.ofReal (Real.exp (c₁ + c₂)) ^ 2 * (W + Q * ENNReal.ofReal (1 / N))
          + (ENNReal.ofReal (Real.exp (c₁ + c₂)) * H) ^ 2 * ENNReal.ofReal (1 / N)) ∧
    ∀ i, ENNReal.ofReal (Real.exp (-pre x (a i b) b)) * L (x (a i b) b) ≤ ENNReal.ofReal (Real.exp c₁) * H := by
  have hw : Measurable fun q : ((Fin N → Fin B → Fin d → V) × (Fin N → Fin B → ℝ)) × Ω =>
      (fun i b => q.1.2 i b - pickW (pre x) a i b : Fin N → Fin B → ℝ) :=
    measurable_subtract.comp ((measurable_snd.comp measurable_fst).prodMk measurable_const)
  have hC := wavg_pos hN b w (pre x)
  have hCle : wavg b w (pre x) ≤ Real.exp c₂ := by
    calc wavg b w (pre x) ≤ ∑ i, sm w b i * Real.exp c₂ :=
          Finset.sum_le_sum fun i _ => mul_le_mul_of_nonneg_left (Real.exp_le_exp.2 (hc2 i)) (sm_nonneg w b i)
      _ = Real.exp c₂ := by rw [← Finset.sum_mul, (sm_isProb w b hN).2, one_mul]
  have := hκ.prob
  generalize hCe : wavg b w (pre x) = C at hC hCle ⊢
  have hN' : (0 : ℝ) < 1 / (N : ℝ) := by positivity
  -- subtracted weights
  let sub : (Fin N → Fin B → ℝ) → Fin N → Fin B → ℝ := fun l i b => l i b - pickW (pre x) a i b
  have hG2 : Measurable fun q : ((Fin N → Fin B → Fin d → V) × (Fin N → Fin B → ℝ)) × Ω =>
      ENNReal.ofReal (C * uavg b (sub q.1.2)) * U ((q.1.1, sub q.1.2), q.2) :=
    (((measurable_uavg b).comp hw).const_mul _).ennreal_ofReal.mul (hU.comp
      (((measurable_fst.comp measurable_fst).prodMk hw).prodMk measurable_snd))
  have e0 : ∀ ω, apfGivenU b pre S U (((x, w), a), ω) =
      (fun q : ((Fin N → Fin B → Fin d → V) × (Fin N → Fin B → ℝ)) × Ω =>
      ENNReal.ofReal (C * uavg b (sub q.1.2)) * U ((q.1.1, sub q.1.2), q.2)) (S (pickX x a, ω)) := by
    intro ω
    unfold apfGivenU
    dsimp only
    rw [hCe]
  have e1 := draws_lintegral hκ hG2
  have e2 := draws_lintegral hκ (hG2.pow_const 2)
  simp only [e0]
  dsimp only at e1 e2 ⊢
  rw [e1, e2]
  have hUm : ∀ q : (Fin N → Fin B → Fin d → V) × (Fin N → Fin B → ℝ), Measurable fun ω => U ((q.1, sub q.2), ω) :=
    fun q => hU.comp (measurable_const.prodMk measurable_id)
  have hsm : ∀ (l : Fin N → Fin B → ℝ) i, ENNReal.ofReal (C * uavg b l) * ENNReal.ofReal (sm l b i)
      = ENNReal.ofReal (C * (1 / (N : ℝ))) * ENNReal.ofReal (Real.exp (l i b)) := by
    intro l i
    rw [← ENNReal.ofReal_mul (mul_pos hC (uavg_pos hN b _)).le, ← ENNReal.ofReal_mul (mul_pos hC hN').le,
      mul_assoc, uavg_sm, mul_assoc]
  have hsum : ∀ q : (Fin N → Fin B → Fin d → V) × (Fin N → Fin B → ℝ),
      ENNReal.ofReal (C * uavg b (sub q.2)) * ∑ i, ENNReal.ofReal (sm (sub q.2) b i) * h (q.1 i b)
      = ∑ i, ENNReal.ofReal (C * (1 / (N : ℝ))) * (ENNReal.ofReal (Real.exp (sub q.2 i b)) * h (q.1 i b)) := by
    intro q
    rw [Finset.mul_sum]
    refine Finset.sum_congr rfl fun i _ => ?_
    rw [← mul_assoc, hsm, mul_assoc]
  have hexp : ∀ (l : Fin N → Fin B → ℝ) i, ENNReal.ofReal (Real.exp (sub l i b))
      = ENNReal.ofReal (Real.exp (-pre x (a i b) b)) * ENNReal.ofReal (Real.exp (l i b)) := by
    intro l i
    rw [← ENNReal.ofReal_mul (Real.exp_pos _).le, ← Real.exp_add]
    congr 2
    show l i b - pre x (a i b) b = _
    ring
  have hm0 : ∀ i, Measurable fun q : (Fin N → Fin B → Fin d → V) × (Fin N → Fin B → ℝ) =>
      ENNReal.ofReal (Real.exp (q.2 i b)) * h (q.1 i b) := by
    intro i
    have : Measurable fun q : (Fin N → Fin B → Fin d → V) × (Fin N → Fin B → ℝ) => q.1 i b := by fun_prop
    exact Measurable.mul (by fun_prop) (hh.comp this)
  have hfe : ∀ i, (fun q : (Fin N → Fin B → Fin d → V) × (Fin N → Fin B → ℝ) =>
      ENNReal.ofReal (Real.exp (sub q.2 i b)) * h (q.1 i b))
      = fun q => ENNReal.ofReal (Real.exp (-pre x (a i b) b)) * (ENNReal.ofReal (Real.exp (q.2 i b)) * h (q.1 i b)) := by
    intro i
    funext q
    rw [hexp, mul_assoc]
  have hm : ∀ i, Measurable fun q : (Fin N → Fin B → Fin d → V) × (Fin N → Fin B → ℝ) =>
      ENNReal.ofReal (Real.exp (sub q.2 i b)) * h (q.1 i b) := by
    intro i
    rw [hfe]
    exact (hm0 i).const_mul _
  have hmean : ∀ i, ∫⁻ q, ENNReal.ofReal (Real.exp (sub q.2 i b)) * h (q.1 i b) ∂κ
      = ENNReal.ofReal (Real.exp (-pre x (a i b) b)) * L (x (a i b) b) := by
    intro i
    rw [hfe, lintegral_const_mul _ (hm0 i), hprop i]
    rfl
  have hbd : ∀ᵐ q ∂κ, ∀ i, sub q.2 i b ≤ c₁ := by
    have h6 : ∀ᵐ q ∂κ, ∀ i, q.2 i b ≤ pickW (pre x) a i b + c₁ := by
      refine ae_of_draws hκ ?_ fun ω i => hc1 ω i
      have : {q : (Fin N → Fin B → Fin d → V) × (Fin N → Fin B → ℝ) | ∀ i, q.2 i b ≤ pickW (pre x) a i b + c₁}
          = ⋂ i, {q | q.2 i b ≤ pickW (pre x) a i b + c₁} := by ext; simp
      rw [this]
      exact MeasurableSet.iInter fun i => measurableSet_le (by fun_prop) measurable_const
    exact h6.mono fun q hq i => by
      have := hq i
      show q.2 i b - pickW (pre x) a i b ≤ c₁
      linarith
  have hfb : ∀ i, ∀ᵐ q ∂κ, ENNReal.ofReal (Real.exp (sub q.2 i b)) * h (q.1 i b) ≤ ENNReal.ofReal (Real.exp c₁) * H :=
    fun i => hbd.mono fun q hq => mul_le_mul' (ENNReal.ofReal_le_ofReal (Real.exp_le_exp.2 (hq i))) (hH _)
  have hind : ∀ i j : Fin N, i ≠ j →
      ∫⁻ q, (ENNReal.ofReal (Real.exp (sub q.2 i b)) * h (q.1 i b)) * (ENNReal.ofReal (Real.exp (sub q.2 j b)) * h (q.1 j b)) ∂κ
      = (∫⁻ q, ENNReal.ofReal (Real.exp (sub q.2 i b)) * h (q.1 i b) ∂κ) *
        ∫⁻ q, ENNReal.ofReal (Real.exp (sub q.2 j b)) * h (q.1 j b) ∂κ := by
    intro i j hij
    have hk : ∀ i, Measurable fun u : (Fin d → V) × ℝ => ENNReal.ofReal (Real.exp (u.2 - pickW (pre x) a i b)) * h u.1 :=
      fun i => Measurable.mul (by fun_prop) (hh.comp measurable_fst)
    have hq : ∀ i, Measurable fun q : (Fin N → Fin B → Fin d → V) × (Fin N → Fin B → ℝ) => (q.1 i b, q.2 i b) :=
      fun i => by fun_prop
    have hkk : Measurable fun u : ((Fin d → V) × ℝ) × ((Fin d → V) × ℝ) =>
        (ENNReal.ofReal (Real.exp (u.1.2 - pickW (pre x) a i b)) * h u.1.1) *
          (ENNReal.ofReal (Real.exp (u.2.2 - pickW (pre x) a j b)) * h u.2.1) :=
      ((hk i).comp measurable_fst).mul ((hk j).comp measurable_snd)
    have e4 := lintegral_map (μ := κ) hkk ((hq i).prodMk (hq j))
    rw [hpair i j hij] at e4
    have hp1 := Measure.isProbabilityMeasure_map (μ := κ) (hq i).aemeasurable
    have hp2 := Measure.isProbabilityMeasure_map (μ := κ) (hq j).aemeasurable
    have e5 := lintegral_prod_mul (μ := κ.map fun q => (q.1 i b, q.2 i b)) (ν := κ.map fun q => (q.1 j b, q.2 j b))
      (hk i).aemeasurable (hk j).aemeasurable
    rw [lintegral_map (hk i) (hq i), lintegral_map (hk j) (hq j)] at e5
    exact e4.symm.trans e5
  have hGe : Real.exp c₂ * Real.exp c₁ = Real.exp (c₁ + c₂) := by rw [← Real.exp_add, add_comm]
  refine ⟨?_, ?_, ?_⟩
  · have e3 : ∀ q : (Fin N → Fin B → Fin d → V) × (Fin N → Fin B → ℝ),
        ∫⁻ ω, ENNReal.ofReal (C * uavg b (sub q.2)) * U ((q.1, sub q.2), ω) ∂P
        = ∑ i, ENNReal.ofReal (C * (1 / (N : ℝ))) * (ENNReal.ofReal (Real.exp (sub q.2 i b)) * h (q.1 i b)) := by
      intro q
      rw [lintegral_const_mul _ (hUm q), (h2 _ _).1, hsum]
    simp only [e3]
    rw [lintegral_finsetSum _ fun i _ => (hm i).const_mul _]
    refine Finset.sum_congr rfl fun i _ => ?_
    rw [lintegral_const_mul _ (hm i), hmean i]
  · have hsec := second_moment κ (fun i (q : (Fin N → Fin B → Fin d → V) × (Fin N → Fin B → ℝ)) =>
      ENNReal.ofReal (Real.exp (sub q.2 i b)) * h (q.1 i b)) hm (fun _ => ENNReal.ofReal (C * (1 / (N : ℝ))))
      (ENNReal.ofReal (Real.exp c₁) * H) hfb hind
    simp only [hmean] at hsec
    have hu : ∀ᵐ q ∂κ, ENNReal.ofReal (C * uavg b (sub q.2)) ≤ ENNReal.ofReal (Real.exp (c₁ + c₂)) := by
      refine hbd.mono fun q hq => ENNReal.ofReal_le_ofReal ?_
      rw [← hGe]
      refine mul_le_mul hCle ?_ (uavg_pos hN b _).le (Real.exp_pos _).le
      calc uavg b (sub q.2) ≤ ∑ _i : Fin N, 1 / (N : ℝ) * Real.exp c₁ :=
            Finset.sum_le_sum fun i _ => mul_le_mul_of_nonneg_left (Real.exp_le_exp.2 (hq i)) hN'.le
        _ = Real.exp c₁ := by
            rw [Finset.sum_const, Finset.card_univ, Fintype.card_fin, nsmul_eq_mul, ← mul_assoc,
              mul_one_div_cancel (by exact_mod_cast hN.ne'), one_mul]
    have hNE : ∀ s : ℝ≥0∞, ∑ _i : Fin N, (ENNReal.ofReal (1 / (N : ℝ)) * s) ^ 2 = s ^ 2 * ENNReal.ofReal (1 / N) := by
      intro s
      rw [Finset.sum_const, Finset.card_univ, Fintype.card_fin, nsmul_eq_mul]
      have : (N : ℝ≥0∞) * ENNReal.ofReal (1 / (N : ℝ)) = 1 := by
        rw [← ENNReal.ofReal_natCast, ← ENNReal.ofReal_mul (Nat.cast_nonneg N),
          mul_one_div_cancel (by exact_mod_cast hN.ne'), ENNReal.ofReal_one]
      calc (N : ℝ≥0∞) * (ENNReal.ofReal (1 / (N : ℝ)) * s) ^ 2
          = ((N : ℝ≥0∞) * ENNReal.ofReal (1 / (N : ℝ))) * (s ^ 2 * ENNReal.ofReal (1 / N)) := by ring
        _ = _ := by rw [this, one_mul]
    have hsq : ∀ᵐ q ∂κ, ENNReal.ofReal (C * uavg b (sub q.2)) ^ 2 * ∑ i, ENNReal.ofReal (sm (sub q.2) b i) ^ 2
        ≤ ENNReal.ofReal (Real.exp (c₁ + c₂)) ^ 2 * ENNReal.ofReal (1 / N) := by
      refine hbd.mono fun q hq => ?_
      rw [Finset.mul_sum, ← hNE]
      refine Finset.sum_le_sum fun i _ => ?_
      rw [← mul_pow, hsm]
      refine pow_le_pow_left' ?_ 2
      rw [← ENNReal.ofReal_mul (mul_pos hC hN').le, ← ENNReal.ofReal_mul hN'.le]
      refine ENNReal.ofReal_le_ofReal ?_
      rw [← hGe, mul_comm C, mul_assoc]
      exact mul_le_mul_of_nonneg_left (mul_le_mul hCle (Real.exp_le_exp.2 (hq i)) (Real.exp_pos _).le (Real.exp_pos _).le)
        hN'.le
    calc ∫⁻ q, ∫⁻ ω, (ENNReal.ofReal (C * uavg b (sub q.2)) * U ((q.1, sub q.2), ω)) ^ 2 ∂P ∂κ
        ≤ ∫⁻ q, ((∑ i, ENNReal.ofReal (C * (1 / (N : ℝ))) * (ENNReal.ofReal (Real.exp (sub q.2 i b)) * h (q.1 i b))) ^ 2
            + ENNReal.ofReal (Real.exp (c₁ + c₂)) ^ 2 * (W + Q * ENNReal.ofReal (1 / N))) ∂κ := by
          refine lintegral_mono_ae ((hu.and hsq).mono fun q hq => ?_)
          simp only [mul_pow]
          rw [lintegral_const_mul _ ((hUm q).pow_const 2)]
          calc ENNReal.ofReal (C * uavg b (sub q.2)) ^ 2 * ∫⁻ ω, U ((q.1, sub q.2), ω) ^ 2 ∂P
              ≤ ENNReal.ofReal (C * uavg b (sub q.2)) ^ 2 * ((∑ i, ENNReal.ofReal (sm (sub q.2) b i) *
                  h (q.1 i b)) ^ 2 + (W + Q * ∑ i, ENNReal.ofReal (sm (sub q.2) b i) ^ 2)) := mul_le_mul' le_rfl (h2 _ _).2
            _ = (∑ i, ENNReal.ofReal (C * (1 / (N : ℝ))) * (ENNReal.ofReal (Real.exp (sub q.2 i b)) * h (q.1 i b))) ^ 2
                + (ENNReal.ofReal (C * uavg b (sub q.2)) ^ 2 * W +
                  Q * (ENNReal.ofReal (C * uavg b (sub q.2)) ^ 2 * ∑ i, ENNReal.ofReal (sm (sub q.2) b i) ^ 2)) := by
                rw [mul_add, ← mul_pow, hsum]
                ring
            _ ≤ _ := by
                refine add_le_add le_rfl ?_
                rw [mul_add]
                refine add_le_add (mul_le_mul' (pow_le_pow_left' hq.1 2) le_rfl) ?_
                refine (mul_le_mul' le_rfl hq.2).trans (le_of_eq ?_)
                ring
      _ = (∫⁻ q, (∑ i, ENNReal.ofReal (C * (1 / (N : ℝ))) * (ENNReal.ofReal (Real.exp (sub q.2 i b)) * h (q.1 i b))) ^ 2 ∂κ)
            + ENNReal.ofReal (Real.exp (c₁ + c₂)) ^ 2 * (W + Q * ENNReal.ofReal (1 / N)) := by
          rw [lintegral_add_right _ measurable_const, lintegral_const, measure_univ, mul_one]
      _ ≤ _ := by
          refine (add_le_add (hsec.trans (add_le_add le_rfl ?_)) le_rfl).trans
            (le_of_eq (by rw [add_assoc, add_comm (_ * ENNReal.ofReal (1 / (N : ℝ)))]))
          have : ∀ _i : Fin N, ENNReal.ofReal (C * (1 / (N : ℝ))) ^ 2
              ≤ (ENNReal.ofReal (1 / (N : ℝ)) * ENNReal.ofReal (Real.exp c₂)) ^ 2 := by
            intro _
            rw [mul_comm C, ENNReal.ofReal_mul hN'.le]
            exact pow_le_pow_left' (mul_le_mul' le_rfl (ENNReal.ofReal_le_ofReal hCle)) 2
          refine (mul_le_mul' le_rfl (Finset.sum_le_sum fun i _ => this i)).trans (le_of_eq ?_)
          rw [hNE, ← hGe, ENNReal.ofReal_mul (Real.exp_pos _).le]
          ring
  · intro i
    rw [← hmean i]
    refine (lintegral_mono_ae (hfb i)).trans ?_
    rw [lintegral_const, measure_univ, mul_one]

/-- Correction of the APF. -/
theorem estQ_apfCorrect [IsProbabilityMeasure P] {M : ParticleModel N B d V Y Ω}
    {K : Fin B → ℕ → Kernel (Fin d → V) (Fin d → V)} {l : Fin B → Y → ℕ → (Fin d → V) → ℝ} {c : Y → ℝ}
    (hinc : M.kind.increment = 1) (hS : IndependentProposal P M.sampleValues K l c)
    (hr : SteadyLogResampler P M.resampler) (hN : 0 < N) {b : Fin B} {t : ℕ} (y : Y)
    (logp : Fin B → (Fin d → V) → ℝ) (hlogp : ∀ b, Measurable (logp b))
    (hpe : ∀ x i b, M.preWeight y ⟨x, t⟩ i b = fin (logp b (x i b))) {c₁ c₂ : ℝ}
    (hc1 : ∀ p ω i b, p.prevX.time = t → ∃ r, (M.sampleValues y p ω).1.2 i b = fin r ∧ r ≤ logp b (p.prevX.value i b) + c₁)
    (hc2 : ∀ b x, logp b x ≤ c₂) {H W Q : ℝ≥0∞}
    {f : PCorr N B d V → Ω → XF × PCorr N B d V} {φ : PCorr N B d V → ℝ≥0∞} {h : (Fin d → V) → ℝ≥0∞}
    (hh : Measurable h) (hH : ∀ x, h x ≤ H) (hf : EstQ P b (t + 1) f φ h W Q) :
    EstQP P b t (fun p ω => ((M.apfCorrect y p ω).1.ll b + (f (M.apfCorrect y p ω).1 (M.apfCorrect y p ω).2).1,
        (f (M.apfCorrect y p ω).1 (M.apfCorrect y p ω).2).2)) φ
      (fun x => ∫⁻ x', ENNReal.ofReal (Real.exp (l b y (t + 1) x')) * h x' ∂(K b t x))
      (ENNReal.ofReal (Real.exp (c₁ + c₂)) ^ 2 * (W + Q * ENNReal.ofReal (1 / N))
          + 2 * ((ENNReal.ofReal (Real.exp (c₁ + c₂)) * H) ^ 2 * ENNReal.ofReal (1 / N))) 0 := by
  classical
  obtain ⟨U, hU, h1, h2⟩ := hf
  obtain ⟨S, hSm, hSe, -, hSν⟩ := hS.sample y t
  let pre : (Fin N → Fin B → Fin d → V) → Fin N → Fin B → ℝ := fun x i b => logp b (x i b)
  have hpre : Measurable pre := by
    refine measurable_pi_lambda _ fun i => measurable_pi_lambda _ fun b => (hlogp b).comp ?_
    fun_prop
  have hpe' : ∀ x i b, M.preWeight y ⟨x, t⟩ i b = fin (pre x i b) := hpe
  have hR2 := measurable_apfGivenU b hpre hSm hU
  have hSc : ∀ x a ω i, (S (pickX x a, ω)).1.2 i b ≤ pickW (pre x) a i b + c₁ := by
    intro x a ω i
    obtain ⟨r, hr1, hr2⟩ := hc1 ⟨⟨pickX x a, t⟩, fun _ _ => fin 0, fun _ _ => fin (1 / (N : ℝ)), a⟩ ω i b rfl
    rw [hSe _ ω rfl] at hr1
    have := XF.fin.inj hr1
    rw [← this] at hr2
    exact hr2
  have hsel : Measurable fun z : ZSt N B d V Ω =>
      M.resampler (fun i b => fin (pre z.1.1 i b + z.1.2 i b)) false z.2 := by
    have h3 : Measurable fun z : ZSt N B d V Ω =>
        ((fun i b => pre z.1.1 i b + z.1.2 i b : Fin N → Fin B → ℝ), z.2) := by
      have h4 : Measurable fun q : (Fin N → Fin B → ℝ) × (Fin N → Fin B → ℝ) =>
        (fun i b => q.1 i b + q.2 i b : Fin N → Fin B → ℝ) := by fun_prop
      exact (h4.comp ((hpre.comp (measurable_fst.comp measurable_fst)).prodMk
        (measurable_snd.comp measurable_fst))).prodMk measurable_snd
    exact (hr.measurable B).comp h3
  refine ⟨fun z => apfGivenU b pre S U
    ((z.1, (M.resampler (fun i b => fin (pre z.1.1 i b + z.1.2 i b)) false z.2).1),
    (M.resampler (fun i b => fin (pre z.1.1 i b + z.1.2 i b)) false z.2).2), ?_, ?_, ?_⟩
  · exact hR2.comp ((measurable_fst.prodMk (measurable_fst.comp hsel)).prodMk (measurable_snd.comp hsel))
  · intro x w idx ω
    obtain ⟨a, ω1, ha⟩ : ∃ a ω1, M.resampler (fun i b => fin (pre x i b + w i b)) false ω = (a, ω1) :=
      ⟨_, _, rfl⟩
    have hc := apfCorrect_unfold M y
      ⟨⟨x, t⟩, fun i b => fin (w i b), fun i b => fin (sm w b i), idx⟩ ω a ω1 (S (pickX x a, ω1)).2
      (S (pickX x a, ω1)).1.1 (fun i b => fin ((S (pickX x a, ω1)).1.2 i b))
      (by rw [← ha]; simp only [hpe', fin_add])
      (hSe ⟨⟨pickX x a, t⟩, fun _ _ => fin 0, fun _ _ => fin (1 / (N : ℝ)), a⟩ ω1 rfl)
    rw [hinc] at hc
    simp only [hpe', fin_sub] at hc
    have hll : logLikelihood (fun i b => fin ((S (pickX x a, ω1)).1.2 i b - pre x (a i b) b)) none b
            + XF.log (∑ i, fin (sm w b i) * XF.exp (fin (pre x i b)))
        = fin (Real.log (uavg b fun i b => (S (pickX x a, ω1)).1.2 i b - pickW (pre x) a i b)
            + Real.log (wavg b w (pre x))) := by
      have hN' : (0 : ℝ) < 1 / (N : ℝ) := by positivity
      rw [logLikelihood_none, logLikelihood_weighted _ _ b (fun _ => 1 / (N : ℝ)) (fun _ => rfl)
        (fun _ => hN'.le) (fun i => Or.inr ⟨_, rfl⟩) ⟨⟨0, hN⟩, _, rfl⟩]
      simp only [exp_fin, fin_mul, sum_fin]
      have h5 := log_fin (wavg_pos hN b w (pre x))
      have h6 := (uavg_pos hN b fun i b => (S (pickX x a, ω1)).1.2 i b - pickW (pre x) a i b).ne'
      refine (congrArg₂ (· + ·) (if_neg h6) h5).trans ?_
      exact fin_add _ _
    beta_reduce
    rw [hc, ha]
    have hu := uavg_pos hN b fun i b => (S (pickX x a, ω1)).1.2 i b - pickW (pre x) a i b
    have hv := wavg_pos hN b w (pre x)
    obtain ⟨r, hr1, hr3, hr2⟩ := h1 (S (pickX x a, ω1)).1.1
      (fun i b => (S (pickX x a, ω1)).1.2 i b - pickW (pre x) a i b)
      (fun b => logLikelihood (fun i b => fin ((S (pickX x a, ω1)).1.2 i b - pre x (a i b) b)) none b
            + XF.log (∑ i, fin (sm w b i) * XF.exp (fin (pre x i b)))) a (S (pickX x a, ω1)).2
    refine ⟨Real.log (uavg b fun i b => (S (pickX x a, ω1)).1.2 i b - pickW (pre x) a i b)
            + Real.log (wavg b w (pre x)) + r, ?_, hr3, ?_⟩
    · refine (congrArg₂ (· + ·) hll hr1).trans ?_
      exact fin_add _ _
    · rw [Real.exp_add, Real.exp_add, Real.exp_log hu, Real.exp_log hv, ENNReal.ofReal_mul (mul_pos hu hv).le, mul_assoc]
      refine (congrArg (fun z => _ * z) hr2).trans ?_
      unfold apfGivenU
      rw [mul_comm (uavg b _)]
  · intro x w
    obtain ⟨ν, hν, hmarg, hvar⟩ := hr.draws B (fun i b => pre x i b + w i b)
    have := hν.prob
    have hmarg : ∀ j k, ∑ i, ν {a | a i j = k} = N * ENNReal.ofReal (sm (fun i b => pre x i b + w i b) j k) := hmarg
    have hvar : ∀ j (g : Fin N → ℝ≥0∞) (H : ℝ≥0∞), (∀ k, g k ≤ H) → ∫⁻ a, (∑ i, g (a i j)) ^ 2 ∂ν
        ≤ (N * ∑ k, ENNReal.ofReal (sm (fun i b => pre x i b + w i b) j k) * g k) ^ 2 + N * H ^ 2 := hvar
    have hG : Measurable fun q : (Fin N → Fin B → Fin N) × Ω => apfGivenU b pre S U (((x, w), q.1), q.2) :=
      hR2.comp ((measurable_const.prodMk measurable_fst).prodMk measurable_snd)
    have e1 := draws_lintegral hν hG
    have e2 := draws_lintegral hν (hG.pow_const 2)
    dsimp only at e1 e2 ⊢
    rw [e1, e2]
    obtain ⟨L, hL⟩ : ∃ L : (Fin d → V) → ℝ≥0∞, ∀ x, ∫⁻ x', ENNReal.ofReal (Real.exp (l b y (t + 1) x')) * h x'
        ∂(K b t x) = L x := ⟨_, fun _ => rfl⟩
    have e0 := fun a => moments_apfGivenU P hN b pre S hU hh hH h2 x w a L
        (hSν (pickX x a)).choose (hSν (pickX x a)).choose_spec.1
        (fun i => ((hSν (pickX x a)).choose_spec.2.1 i b h hh).trans (hL _))
        (fun i i' hii => (hSν (pickX x a)).choose_spec.2.2 i i' b hii) (hSc x a) (fun i => hc2 b _)
    simp only [hL, (e0 _).1]
    have hN' : (0 : ℝ) < 1 / (N : ℝ) := by positivity
    have hC := wavg_pos hN b w (pre x)
    have hCle : wavg b w (pre x) ≤ Real.exp c₂ := by
      calc wavg b w (pre x) ≤ ∑ i, sm w b i * Real.exp c₂ :=
            Finset.sum_le_sum fun i _ => mul_le_mul_of_nonneg_left (Real.exp_le_exp.2 (hc2 b _)) (sm_nonneg w b i)
        _ = Real.exp c₂ := by rw [← Finset.sum_mul, (sm_isProb w b hN).2, one_mul]
    have hu : ∀ k, wavg b w (pre x) * sm (fun i b => pre x i b + w i b) b k = sm w b k * Real.exp (pre x k b) :=
      fun k => sm_update w (pre x) b k
    obtain ⟨g, hg⟩ : ∃ g : Fin N → ℝ≥0∞, ∀ k, ENNReal.ofReal (Real.exp (-pre x k b)) * L (x k b) = g k :=
      ⟨_, fun _ => rfl⟩
    have hgle : ∀ k, g k ≤ ENNReal.ofReal (Real.exp c₁) * H := by
      intro k
      have := (e0 fun _ _ => k).2.2 k
      rwa [hg] at this
    have e0' : ∀ a, ∫⁻ ω, apfGivenU b pre S U (((x, w), a), ω) ^ 2 ∂P
      ≤ (∑ i, ENNReal.ofReal (wavg b w (pre x) * (1 / (N : ℝ))) * g (a i b)) ^ 2
        + (ENNReal.ofReal (Real.exp (c₁ + c₂)) ^ 2 * (W + Q * ENNReal.ofReal (1 / N))
          + (ENNReal.ofReal (Real.exp (c₁ + c₂)) * H) ^ 2 * ENNReal.ofReal (1 / N)) := by
      intro a
      have := (e0 a).2.1
      simpa only [hg] using this
    simp only [hg]
    have hi1 : ∑ i, ∫⁻ a, g (a i b) ∂ν
        = N * ∑ k, ENNReal.ofReal (sm (fun i b => pre x i b + w i b) b k) * g k := by
      simp only [lintegral_index ν _ _ g]
      rw [Finset.sum_comm, Finset.mul_sum]
      refine Finset.sum_congr rfl fun k _ => ?_
      rw [← Finset.mul_sum, hmarg]
      ring
    have hmean0 : ENNReal.ofReal (wavg b w (pre x) * (1 / (N : ℝ))) *
        (N * ∑ k, ENNReal.ofReal (sm (fun i b => pre x i b + w i b) b k) * g k)
        = ∑ k, ENNReal.ofReal (sm w b k) * L (x k b) := by
      rw [← mul_assoc, mul_comm _ (N : ℝ≥0∞),
        ← ENNReal.ofReal_natCast, ← ENNReal.ofReal_mul (Nat.cast_nonneg N), Finset.mul_sum]
      refine Finset.sum_congr rfl fun k _ => ?_
      have hN0 : (N : ℝ) ≠ 0 := by exact_mod_cast hN.ne'
      have e3 : (N : ℝ) * (wavg b w (pre x) * (1 / (N : ℝ))) = wavg b w (pre x) := by field_simp
      rw [e3, ← mul_assoc, ← ENNReal.ofReal_mul hC.le, hu, ← hg, ← mul_assoc,
        ← ENNReal.ofReal_mul (mul_nonneg (sm_nonneg _ _ _) (Real.exp_pos _).le), mul_assoc, ← Real.exp_add,
        add_neg_cancel, Real.exp_zero, mul_one]
    have hmean : ∑ i : Fin N, ENNReal.ofReal (wavg b w (pre x) * (1 / (N : ℝ))) * (∫⁻ a, g (a i b) ∂ν)
        = ∑ k, ENNReal.ofReal (sm w b k) * L (x k b) := by
      rw [← Finset.mul_sum, hi1, hmean0]
    have hsec : ∫⁻ a, (∑ i, ENNReal.ofReal (wavg b w (pre x) * (1 / (N : ℝ))) * g (a i b)) ^ 2 ∂ν
        ≤ (∑ k, ENNReal.ofReal (sm w b k) * L (x k b)) ^ 2 + (ENNReal.ofReal (Real.exp c₁) * H) ^ 2 *
          ∑ _i : Fin N, ENNReal.ofReal (wavg b w (pre x) * (1 / (N : ℝ))) ^ 2 := by
      simp only [← Finset.mul_sum, mul_pow _ (∑ i, g _)]
      rw [lintegral_const_mul _ (measurable_of_finite _)]
      refine (mul_le_mul' le_rfl (hvar b g _ hgle)).trans (le_of_eq ?_)
      rw [mul_add, ← mul_pow, hmean0, Finset.sum_const, Finset.card_univ, Fintype.card_fin, nsmul_eq_mul]
      ring
    constructor
    · rw [lintegral_finsetSum _ fun i _ => measurable_of_finite _, ← hmean]
      exact Finset.sum_congr rfl fun i _ => lintegral_const_mul _ (measurable_of_finite _)
    · refine (lintegral_mono e0').trans ?_
      rw [lintegral_add_right _ measurable_const, lintegral_const, measure_univ, mul_one, zero_mul, add_zero]
      refine (add_le_add hsec le_rfl).trans ?_
      have h7 : (ENNReal.ofReal (Real.exp c₁) * H) ^ 2 * ∑ _i : Fin N, ENNReal.ofReal (wavg b w (pre x) * (1 / (N : ℝ))) ^ 2
          ≤ (ENNReal.ofReal (Real.exp (c₁ + c₂)) * H) ^ 2 * ENNReal.ofReal (1 / N) := by
        have h8 : ENNReal.ofReal (wavg b w (pre x) * (1 / (N : ℝ))) ^ 2
            ≤ (ENNReal.ofReal (1 / (N : ℝ)) * ENNReal.ofReal (Real.exp c₂)) ^ 2 := by
          rw [mul_comm (wavg b w (pre x)), ENNReal.ofReal_mul hN'.le]
          exact pow_le_pow_left' (mul_le_mul' le_rfl (ENNReal.ofReal_le_ofReal hCle)) 2
        refine (mul_le_mul' le_rfl (Finset.sum_le_sum fun i _ => h8)).trans (le_of_eq ?_)
        have h9 : (N : ℝ≥0∞) * ENNReal.ofReal (1 / (N : ℝ)) = 1 := by
          rw [← ENNReal.ofReal_natCast, ← ENNReal.ofReal_mul (Nat.cast_nonneg N),
            mul_one_div_cancel (by exact_mod_cast hN.ne'), ENNReal.ofReal_one]
        rw [Finset.sum_const, Finset.card_univ, Fintype.card_fin, nsmul_eq_mul, Real.exp_add,
          ENNReal.ofReal_mul (Real.exp_pos _).le]
        calc (ENNReal.ofReal (Real.exp c₁) * H) ^ 2 * ((N : ℝ≥0∞) * (ENNReal.ofReal (1 / (N : ℝ)) * ENNReal.ofReal (Real.exp c₂)) ^ 2)
            = ((N : ℝ≥0∞) * ENNReal.ofReal (1 / (N : ℝ))) *
              ((ENNReal.ofReal (Real.exp c₁) * ENNReal.ofReal (Real.exp c₂) * H) ^ 2 * ENNReal.ofReal (1 / N)) := by ring
          _ = _ := by rw [h9, one_mul]
      refine (add_le_add (add_le_add le_rfl h7) le_rfl).trans (le_of_eq ?_)
      ring

/-- Estimates from the initial state. -/
theorem estQ_initial [IsProbabilityMeasure P] (hN : 0 < N) {init : Ω → (Fin N → Fin B → Fin d → V) × Ω}
    {μ : Fin B → Measure (Fin d → V)} (hi : IndependentInitial P init μ) {b : Fin B} {H W Q : ℝ≥0∞}
    {f : PCorr N B d V → Ω → XF × PCorr N B d V} {φ : PCorr N B d V → ℝ≥0∞} {h : (Fin d → V) → ℝ≥0∞}
    (hh : Measurable h) (hH : ∀ x, h x ≤ H) (hf : EstQ P b 0 f φ h W Q) (lo : ℝ) :
    ∃ U : Ω → ℝ≥0∞, Measurable U ∧
      (∀ ω, ∃ r, (f (initializeFilter lo (init ω).1) (init ω).2).1 = fin r ∧
        (∃ w' : Fin N → Fin B → ℝ, (f (initializeFilter lo (init ω).1) (init ω).2).2.w = fun i b => fin (w' i b)) ∧
        ENNReal.ofReal (Real.exp r) * φ (f (initializeFilter lo (init ω).1) (init ω).2).2 = U ω) ∧
      ∫⁻ ω, U ω ∂P = ∫⁻ x, h x ∂(μ b) ∧
      ∫⁻ ω, U ω ^ 2 ∂P ≤ (∫⁻ x, h x ∂(μ b)) ^ 2 + (W + (Q + H ^ 2) * ENNReal.ofReal (1 / N)) := by
  obtain ⟨U, hU, h1, h2⟩ := hf
  obtain ⟨ν, hν, hm, hpair⟩ := hi
  have := hν.prob
  have h5 : Measurable fun q : (Fin N → Fin B → Fin d → V) × Ω => ((q.1, (fun _ _ => 0 : Fin N → Fin B → ℝ)), q.2) :=
    (measurable_fst.prodMk measurable_const).prodMk measurable_snd
  have hG := hU.comp h5
  have e1 := draws_lintegral hν hG
  have e2 := draws_lintegral hν (hG.pow_const 2)
  simp only [Function.comp] at e1 e2
  refine ⟨fun ω => U (((init ω).1, fun _ _ => 0), (init ω).2), hG.comp hν.measurable,
    fun ω => h1 (init ω).1 (fun _ _ => 0) _ _ (init ω).2, ?_⟩
  rw [e1, e2]
  simp only [(h2 _ _).1]
  have hs : ∀ i, sm (fun _ _ => 0 : Fin N → Fin B → ℝ) b i = 1 / (N : ℝ) := sm_zero _ b fun _ => rfl
  have hi : ∀ i, Measurable fun v : Fin N → Fin B → Fin d → V => v i b := fun i => by fun_prop
  have hmh : ∀ i, Measurable fun v : Fin N → Fin B → Fin d → V => h (v i b) := fun i => hh.comp (hi i)
  have hi1 : ∀ i, ∫⁻ v, h (v i b) ∂ν = ∫⁻ x, h x ∂(μ b) := by
    intro i
    rw [← lintegral_map hh (hi i), hm i b]
  have hmean : ∑ i : Fin N, ENNReal.ofReal (sm (fun _ _ => 0 : Fin N → Fin B → ℝ) b i) * (∫⁻ v, h (v i b) ∂ν)
      = ∫⁻ x, h x ∂(μ b) := by
    simp only [hi1, hs]
    rw [Finset.sum_const, Finset.card_univ, Fintype.card_fin, nsmul_eq_mul, ← mul_assoc,
      ← ENNReal.ofReal_natCast, ← ENNReal.ofReal_mul (Nat.cast_nonneg N),
      mul_one_div_cancel (by exact_mod_cast hN.ne'), ENNReal.ofReal_one, one_mul]
  constructor
  · rw [lintegral_finsetSum _ fun i _ => (hmh i).const_mul _, ← hmean]
    exact Finset.sum_congr rfl fun i _ => lintegral_const_mul _ (hmh i)
  · have hp : IsProbabilityMeasure (μ b) := by
      rw [← hm ⟨0, hN⟩ b]; exact Measure.isProbabilityMeasure_map (hi _).aemeasurable
    have hind : ∀ i j : Fin N, i ≠ j → ∫⁻ v, h (v i b) * h (v j b) ∂ν
        = (∫⁻ v, h (v i b) ∂ν) * ∫⁻ v, h (v j b) ∂ν := by
      intro i j hij
      have hpp : Measurable fun q : (Fin d → V) × (Fin d → V) => h q.1 * h q.2 :=
        (hh.comp measurable_fst).mul (hh.comp measurable_snd)
      rw [← lintegral_map (f := fun q : (Fin d → V) × (Fin d → V) => h q.1 * h q.2) hpp ((hi i).prodMk (hi j)),
        hpair i j b hij, lintegral_prod_mul hh.aemeasurable hh.aemeasurable, hi1, hi1]
    have hsec := second_moment ν (fun i (v : Fin N → Fin B → Fin d → V) => h (v i b)) hmh
      (fun i => ENNReal.ofReal (sm (fun _ _ => 0 : Fin N → Fin B → ℝ) b i)) H (fun i => ae_of_all _ fun v => hH _) hind
    rw [hmean] at hsec
    have hev := sum_sq_even b (fun _ _ => 0 : Fin N → Fin B → ℝ) hs
    calc ∫⁻ v, ∫⁻ ω, U ((v, fun _ _ => 0), ω) ^ 2 ∂P ∂ν
        ≤ ∫⁻ v, ((∑ i, ENNReal.ofReal (sm (fun _ _ => 0 : Fin N → Fin B → ℝ) b i) * h (v i b)) ^ 2
            + (W + Q * ENNReal.ofReal (1 / N))) ∂ν :=
          lintegral_mono fun v => (h2 v _).2.trans
            (add_le_add le_rfl (add_le_add le_rfl (mul_le_mul' le_rfl hev)))
      _ = (∫⁻ v, (∑ i, ENNReal.ofReal (sm (fun _ _ => 0 : Fin N → Fin B → ℝ) b i) * h (v i b)) ^ 2 ∂ν)
            + (W + Q * ENNReal.ofReal (1 / N)) := by
          rw [lintegral_add_right _ measurable_const, lintegral_const, measure_univ, mul_one]
      _ ≤ (∫⁻ x, h x ∂(μ b)) ^ 2 + H ^ 2 * ENNReal.ofReal (1 / N) + (W + Q * ENNReal.ofReal (1 / N)) := by
          refine add_le_add (hsec.trans ?_) le_rfl
          exact add_le_add le_rfl (mul_le_mul' le_rfl hev)
      _ = _ := by ring

/-- Elementary steps of the APF from a state. -/
theorem apf_runO [IsProbabilityMeasure P] (hN : 0 < N) (M : ParticleModel N B d V Y Ω)
    (hinc : M.kind.increment = 1) (hr : SteadyLogResampler P M.resampler)
    {K : Fin B → ℕ → Kernel (Fin d → V) (Fin d → V)} (hK : IndependentTransitions P M.propagateValues K)
    {logg : Fin B → Y → ℕ → (Fin d → V) → ℝ} (hlogg : ∀ b y t, Measurable (logg b y t)) {c₁ c₂ : Y → ℝ}
    (hS : IndependentProposal P M.sampleValues K logg fun y => c₁ y + c₂ y)
    {logp : Fin B → Y → ℕ → (Fin d → V) → ℝ} (hlogp : ∀ b y t, Measurable (logp b y t))
    (hpe : ∀ y x i b, M.preWeight y x i b = fin (logp b y x.time (x.value i b)))
    (hc1 : ∀ y p ω i b, ∃ r, (M.sampleValues y p ω).1.2 i b = fin r ∧
      r ≤ logp b y p.prevX.time (p.prevX.value i b) + c₁ y)
    (hc2 : ∀ b y t x, logp b y t x ≤ c₂ y) (b : Fin B)
    {φ : (Fin d → V) → ℝ≥0∞} (hφ : Measurable φ) (hφ1 : ∀ x, φ x ≤ 1) : ∀ (os : List (Option Y)) (t : ℕ),
    ∃ m q : ℕ, m + q ≤ 2 * os.length ∧
    EstQ P b t ((FilterKind.apf.ops M).runO (fun c => c.ll b) os) (stateAvg M.lo b φ)
      (likAvg (K b) (fun y t x => ENNReal.ofReal (Real.exp (logg b y t x))) φ os t)
      (m * (ENNReal.ofReal (boundOf (fun y => c₁ y + c₂ y) os)) ^ 2 * ENNReal.ofReal (1 / N))
      (q * (ENNReal.ofReal (boundOf (fun y => c₁ y + c₂ y) os)) ^ 2)
  | [], t => by
    refine ⟨0, 0, by simp, fun z => ∑ i, ENNReal.ofReal (sm z.1.2 b i) * φ (z.1.1 i b), ?_,
      fun x w ll prev ω => ⟨0, rfl, ⟨w, rfl⟩, ?_⟩, fun x w => ?_⟩
    · refine Finset.measurable_sum _ fun i _ => ?_
      have h1 : Measurable fun z : ZSt N B d V Ω => sm z.1.2 b i :=
        (measurable_sm b i).comp (measurable_snd.comp measurable_fst)
      have h2 : Measurable fun z : ZSt N B d V Ω => z.1.1 i b := by fun_prop
      exact h1.ennreal_ofReal.mul (hφ.comp h2)
    · rw [Real.exp_zero, ENNReal.ofReal_one, one_mul]
      rfl
    · simp only [lintegral_const, measure_univ, mul_one, likAvg]
      exact ⟨trivial, le_self_add⟩
  | none :: os, t => by
    obtain ⟨m, q, hmq, h0⟩ := apf_runO hN M hinc hr hK hlogg hS hlogp hpe hc1 hc2 b hφ hφ1 os (t + 1)
    have h1 := estQ_createState P hK (measurable_likAvg (K b) _
      (fun y t => (Real.measurable_exp.comp (hlogg b y t)).ennreal_ofReal) hφ os (t + 1))
      (likAvg_le P hN hK hlogg hS b hφ hφ1 os (t + 1)) h0
    have h2 := estQ_apfPredict P (M := M) h1
    refine ⟨m, q + 1, by simp only [List.length_cons]; omega, ?_⟩
    have e : ((q + 1 : ℕ) : ℝ≥0∞) * (ENNReal.ofReal (boundOf (fun y => c₁ y + c₂ y) (none :: os))) ^ 2
        = q * (ENNReal.ofReal (boundOf (fun y => c₁ y + c₂ y) os)) ^ 2 +
          (ENNReal.ofReal (boundOf (fun y => c₁ y + c₂ y) os)) ^ 2 := by
      simp only [boundOf]
      push_cast
      ring
    rw [e]
    exact h2
  | some y :: os, t => by
    obtain ⟨m, q, hmq, h0⟩ := apf_runO hN M hinc hr hK hlogg hS hlogp hpe hc1 hc2 b hφ hφ1 os (t + 1)
    have h1 := estQ_apfCorrect P hinc hS hr hN y (fun b => logp b y t) (fun b => hlogp b y t)
      (fun x i b => hpe y ⟨x, t⟩ i b) (c₁ := c₁ y) (c₂ := c₂ y)
      (fun p ω i b hp => by subst hp; exact hc1 y p ω i b) (fun b x => hc2 b y t x) (measurable_likAvg (K b) _
      (fun y t => (Real.measurable_exp.comp (hlogg b y t)).ennreal_ofReal) hφ os (t + 1))
      (likAvg_le P hN hK hlogg hS b hφ hφ1 os (t + 1)) h0
    have h2 := estQ_apfPredict P (M := M) h1
    refine ⟨m + q + 2, 0, by simp only [List.length_cons]; omega, ?_⟩
    have e : ((m + q + 2 : ℕ) : ℝ≥0∞) * (ENNReal.ofReal (boundOf (fun y => c₁ y + c₂ y) (some y :: os))) ^ 2
          * ENNReal.ofReal (1 / (N : ℝ))
        = ENNReal.ofReal (Real.exp (c₁ y + c₂ y)) ^ 2 *
          (m * (ENNReal.ofReal (boundOf (fun y => c₁ y + c₂ y) os)) ^ 2 * ENNReal.ofReal (1 / N)
            + q * (ENNReal.ofReal (boundOf (fun y => c₁ y + c₂ y) os)) ^ 2 * ENNReal.ofReal (1 / N))
          + 2 * ((ENNReal.ofReal (Real.exp (c₁ y + c₂ y)) * ENNReal.ofReal (boundOf (fun y => c₁ y + c₂ y) os)) ^ 2
            * ENNReal.ofReal (1 / N)) := by
      simp only [boundOf, ENNReal.ofReal_mul (Real.exp_pos _).le]
      push_cast
      ring
    rw [e, Nat.cast_zero, zero_mul]
    exact h2

/-- Multinomial resampling given log-weights draws ancestors independently. -/
theorem multinomial_log_independent {P : Measure Ω} [SFinite P] (lo : ℝ) (hN : 0 < N) {mult : TorchMultinomial N Ω}
    (h : IndependentMultinomial P mult) : IndependentLogResampler P (N := N) (multinomial2 lo mult) := by
  have h0 := multinomial_independent lo h
  refine ⟨fun b => ?_, fun b w => ?_⟩
  · simp only [multinomial_false]
    exact (h0.measurable b).comp ((measurable_sms.comp measurable_fst).prodMk measurable_snd)
  · obtain ⟨ν, h1, h2, h3⟩ := h0.draws b (fun i j => sm w j i) fun j => sm_isProb w j hN
    refine ⟨ν, ?_, h2, h3⟩
    rwa [show multinomial2 lo mult (fun i j => fin (w i j)) false
      = multinomial2 lo mult (fun i j => fin (sm w j i)) true from funext fun ω => multinomial_false lo mult w ω]

end Verif.Unbiased
