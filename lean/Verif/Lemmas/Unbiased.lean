import Verif.Spec.Likelihood
import Verif.Model.Bootstrap
import Verif.Lemmas.Particle
import Mathlib.MeasureTheory.Integral.Lebesgue.Countable
import Mathlib.MeasureTheory.Function.SpecialFunctions.Basic

/-!
# Lemmas for the unbiasedness of the likelihood estimates
-/

namespace Verif.Unbiased

open Verif Verif.Spec XF MeasureTheory ProbabilityTheory
open scoped ENNReal

variable {N B d : ℕ} {V Y Ω : Type}

/-! ## Normalised weights -/

/-- Normalised weight of particle `i` of filter `b`. -/
noncomputable def sm (w : Fin N → Fin B → ℝ) (b : Fin B) (i : Fin N) : ℝ :=
  Real.exp (w i b) / ∑ j, Real.exp (w j b)

theorem sum_exp_pos (w : Fin N → Fin B → ℝ) (b : Fin B) (hN : 0 < N) : 0 < ∑ j, Real.exp (w j b) :=
  Finset.sum_pos (fun _ _ => Real.exp_pos _) ⟨⟨0, hN⟩, Finset.mem_univ _⟩

theorem sm_nonneg (w : Fin N → Fin B → ℝ) (b : Fin B) (i : Fin N) : 0 ≤ sm w b i :=
  div_nonneg (Real.exp_pos _).le (Finset.sum_nonneg fun _ _ => (Real.exp_pos _).le)

theorem sm_pos (w : Fin N → Fin B → ℝ) (b : Fin B) (i : Fin N) : 0 < sm w b i :=
  div_pos (Real.exp_pos _) (sum_exp_pos w b i.pos)

theorem sm_isProb (w : Fin N → Fin B → ℝ) (b : Fin B) (hN : 0 < N) : IsProb (sm w b) := by
  refine ⟨sm_nonneg w b, ?_⟩
  unfold sm
  rw [← Finset.sum_div, div_self (sum_exp_pos w b hN).ne']

theorem colProb_fin (lo : ℝ) (w : Fin N → Fin B → ℝ) (b : Fin B) :
    colProb lo (fun i b => fin (w i b)) b = sm w b := rfl

theorem normalize2_fin (lo : ℝ) (w : Fin N → Fin B → ℝ) :
    normalize2 lo (fun i b => fin (w i b)) = (fun i b => fin (w i b), fun i b => fin (sm w b i)) := by
  apply Prod.ext
  · rfl
  · funext i b
    exact normalize2_usable lo (fun i b => fin (w i b)) b ⟨i, trivial⟩ i

theorem sm_zero (w : Fin N → Fin B → ℝ) (b : Fin B) (h : ∀ i, w i b = 0) (i : Fin N) :
    sm w b i = 1 / (N : ℝ) := by
  unfold sm
  simp [h]

theorem sm_congr (w w' : Fin N → Fin B → ℝ) (b : Fin B) (h : ∀ i, w i b = w' i b) : sm w b = sm w' b := by
  funext i
  unfold sm
  simp only [h]

/-- The weights after multiplication with `exp l`, times the normalising constant. -/
theorem sm_update (w l : Fin N → Fin B → ℝ) (b : Fin B) (i : Fin N) :
    (∑ j, sm w b j * Real.exp (l j b)) * sm (fun i b => l i b + w i b) b i = sm w b i * Real.exp (l i b) := by
  have hN := i.pos
  have h1 := sum_exp_pos w b hN
  have h2 := sum_exp_pos (fun i b => l i b + w i b) b hN
  have h3 : ∑ j, sm w b j * Real.exp (l j b)
      = (∑ j, Real.exp (l j b + w j b)) / ∑ j, Real.exp (w j b) := by
    rw [Finset.sum_div]
    refine Finset.sum_congr rfl fun j _ => ?_
    unfold sm
    rw [Real.exp_add]; ring
  rw [h3]
  unfold sm
  have h4 : Real.exp (l i b + w i b) = Real.exp (l i b) * Real.exp (w i b) := Real.exp_add _ _
  rw [h4]
  field_simp

theorem measurable_sm (b : Fin B) (i : Fin N) : Measurable fun w : Fin N → Fin B → ℝ => sm w b i := by
  unfold sm
  fun_prop

/-! ## Draws -/

section
variable {α : Type} [MeasurableSpace Ω] [MeasurableSpace α] {P : Measure Ω}

theorem draws_lintegral [SFinite P] {f : Ω → α × Ω} {ν : Measure α} (h : Draws P f ν)
    {G : α × Ω → ℝ≥0∞} (hG : Measurable G) :
    ∫⁻ ω, G (f ω) ∂P = ∫⁻ a, ∫⁻ ω, G (a, ω) ∂P ∂ν := by
  have := h.prob
  rw [← lintegral_map hG h.measurable, h.law, lintegral_prod _ hG.aemeasurable]

/-- Average of a function of one selected ancestor. -/
theorem lintegral_index {b : ℕ} (ν : Measure (Fin N → Fin b → Fin N)) (i : Fin N) (j : Fin b)
    (φ : Fin N → ℝ≥0∞) : ∫⁻ a, φ (a i j) ∂ν = ∑ k, φ k * ν {a | a i j = k} := by
  have hm : Measurable fun a : Fin N → Fin b → Fin N => a i j := measurable_of_finite _
  rw [← lintegral_map (measurable_of_finite φ) hm, lintegral_fintype]
  refine Finset.sum_congr rfl fun k _ => ?_
  rw [Measure.map_apply hm (measurableSet_singleton k)]
  rfl

/-- Average of a sum over the selected ancestors under an unbiased resampler. -/
theorem lintegral_selected {b : ℕ} (ν : Measure (Fin N → Fin b → Fin N)) (j : Fin b) (p : Fin N → ℝ)
    (h : ∀ k, ∑ i, ν {a | a i j = k} = N * ENNReal.ofReal (p k)) (φ : Fin N → ℝ≥0∞) :
    ∫⁻ a, ∑ i, φ (a i j) ∂ν = N * ∑ k, ENNReal.ofReal (p k) * φ k := by
  rw [lintegral_finsetSum _ fun i _ => measurable_of_finite _]
  simp only [lintegral_index]
  rw [Finset.sum_comm, Finset.mul_sum]
  refine Finset.sum_congr rfl fun k _ => ?_
  rw [← Finset.mul_sum, h k]
  ring

end

/-! ## Estimators -/

section
variable [MeasurableSpace Ω] [MeasurableSpace V] (P : Measure Ω)

/-- The log-estimator `f`, run from a filter state at time `t` with finite weights, is finite, measurable,
and its exponential is an unbiased estimate of the weighted average of `h` over the particles of filter
`b`. -/
def Est (b : Fin B) (t : ℕ) (f : PCorr N B d V → Ω → XF) (h : (Fin d → V) → ℝ≥0∞) : Prop :=
  ∃ R : ((Fin N → Fin B → Fin d → V) × (Fin N → Fin B → ℝ)) × Ω → ℝ, Measurable R ∧
    (∀ x w ll prev ω, f ⟨⟨x, t⟩, fun i b => fin (w i b), ll, prev⟩ ω = fin (R ((x, w), ω))) ∧
    ∀ x w, ∫⁻ ω, ENNReal.ofReal (Real.exp (R ((x, w), ω))) ∂P = ∑ i, ENNReal.ofReal (sm w b i) * h (x i b)

/-- The same for a prediction. -/
def EstP (b : Fin B) (t : ℕ) (f : PPred N B d V → Ω → XF) (h : (Fin d → V) → ℝ≥0∞) : Prop :=
  ∃ R : ((Fin N → Fin B → Fin d → V) × (Fin N → Fin B → ℝ)) × Ω → ℝ, Measurable R ∧
    (∀ x w idx ω, f ⟨⟨x, t⟩, fun i b => fin (w i b), fun i b => fin (sm w b i), idx⟩ ω
      = fin (R ((x, w), ω))) ∧
    ∀ x w, ∫⁻ ω, ENNReal.ofReal (Real.exp (R ((x, w), ω))) ∂P = ∑ i, ENNReal.ofReal (sm w b i) * h (x i b)

/-- Prediction without resampling (APF, GPF). -/
theorem est_apfPredict {M : ParticleModel N B d V Y Ω} {b : Fin B} {t : ℕ} {f : PPred N B d V → Ω → XF}
    {h : (Fin d → V) → ℝ≥0∞} (hf : EstP P b t f h) :
    Est P b t (fun c ω => f (M.apfPredict c ω).1 (M.apfPredict c ω).2) h := by
  obtain ⟨R, hR, h1, h2⟩ := hf
  refine ⟨R, hR, fun x w ll prev ω => ?_, h2⟩
  have : M.apfPredict ⟨⟨x, t⟩, fun i b => fin (w i b), ll, prev⟩ ω
      = (⟨⟨x, t⟩, fun i b => fin (w i b), fun i b => fin (sm w b i), fun i _ => i⟩, ω) := by
    unfold ParticleModel.apfPredict
    simp only [normalize2_fin]
  show f (M.apfPredict _ ω).1 (M.apfPredict _ ω).2 = _
  rw [this]
  exact h1 x w _ ω

/-- The filters that SISR resamples. -/
noncomputable def maskOf (thr : ℝ) (w : Fin N → Fin B → ℝ) (b : Fin B) : Bool :=
  haveI := Classical.propDecidable (essOf (sm w b) < thr)
  decide (essOf (sm w b) < thr)

/-- Particles after resampling the filters of a mask with the selection `a`. -/
def selectX (m : Fin B → Bool) (x : Fin N → Fin B → Fin d → V)
    (a : Fin N → Fin (maskCols m).length → Fin N) : Fin N → Fin B → Fin d → V :=
  fun i b => if h : m b = true then x (a i ⟨colRank m b, colRank_lt m b h⟩) b else x i b

/-- Log-weights after resampling the filters of a mask. -/
def selectW (m : Fin B → Bool) (w : Fin N → Fin B → ℝ) : Fin N → Fin B → ℝ :=
  fun i b => if m b then 0 else w i b

theorem sisrPredict_mask (M : ParticleModel N B d V Y Ω) (hN : 0 < N) (w : Fin N → Fin B → ℝ) :
    (fun b => @decide (XF.lt ((getEss2 M.lo (fun i b => fin (sm w b i)) true).2 b) (XF.fin M.threshold))
      (Classical.propDecidable _)) = maskOf M.threshold w := by
  funext b
  have hE : (getEss2 M.lo (fun i b => fin (sm w b i)) true).2 b = fin (essOf (sm w b)) :=
    getEss_value (sm_isProb w b hN)
  rw [hE]
  rfl

open Classical in
theorem sisrPredict_unfold (M : ParticleModel N B d V Y Ω) (s : PCorr N B d V) (ω : Ω) (m : Fin B → Bool)
    (hm : (fun b => decide (XF.lt ((getEss2 M.lo (normalize2 M.lo s.w).2 true).2 b)
      (XF.fin M.threshold))) = m) :
    M.sisrPredict s ω =
      if ∀ b, m b = false then (⟨s.x, (normalize2 M.lo s.w).1, (normalize2 M.lo s.w).2, s.prev⟩, ω)
      else
        (⟨⟨maskedScatter s.x.value m (flatten fun i (j : Fin (maskCols m).length) e =>
            s.x.value ((M.resampler (fun i j => (normalize2 M.lo s.w).2 i ((maskCols m).get j)) true ω).1 i j)
              ((maskCols m).get j) e), s.x.time⟩,
          fun i b => if m b then fin 0 else (normalize2 M.lo s.w).1 i b,
          fun i b => if m b then fin (1 / (N : ℝ)) else (normalize2 M.lo s.w).2 i b,
          fun i b => maskedScatter (d := 1) (fun i b _ => s.prev i b) m (flatten (d := 1) fun i j _ =>
            (M.resampler (fun i j => (normalize2 M.lo s.w).2 i ((maskCols m).get j)) true ω).1 i j) i b 0⟩,
          (M.resampler (fun i j => (normalize2 M.lo s.w).2 i ((maskCols m).get j)) true ω).2) := by
  subst hm; rfl

theorem sisrPredict_keep (M : ParticleModel N B d V Y Ω) (hN : 0 < N) (x : Fin N → Fin B → Fin d → V)
    (t : ℕ) (w : Fin N → Fin B → ℝ) (ll prev) (ω : Ω) (hm : ∀ b, maskOf M.threshold w b = false) :
    M.sisrPredict ⟨⟨x, t⟩, fun i b => fin (w i b), ll, prev⟩ ω =
        (⟨⟨x, t⟩, fun i b => fin (w i b), fun i b => fin (sm w b i), prev⟩, ω) := by
  classical
  rw [sisrPredict_unfold M _ ω (maskOf M.threshold w), if_pos hm]
  · simp only [normalize2_fin]
  · simp only [normalize2_fin]
    exact sisrPredict_mask M hN w

theorem sisrPredict_select (M : ParticleModel N B d V Y Ω) (hN : 0 < N) (x : Fin N → Fin B → Fin d → V)
    (t : ℕ) (w : Fin N → Fin B → ℝ) (ll prev) (ω : Ω) (m : Fin B → Bool) (hm : maskOf M.threshold w = m)
    (hex : ¬ ∀ b, m b = false) :
    ∃ idx, M.sisrPredict ⟨⟨x, t⟩, fun i b => fin (w i b), ll, prev⟩ ω =
        (⟨⟨selectX m x (M.resampler (fun i j => fin (sm w ((maskCols m).get j) i)) true ω).1, t⟩,
          fun i b => fin (selectW m w i b), fun i b => fin (sm (selectW m w) b i), idx⟩,
          (M.resampler (fun i j => fin (sm w ((maskCols m).get j) i)) true ω).2) := by
  classical
  rw [sisrPredict_unfold M _ ω m (by
    simp only [normalize2_fin]
    exact (sisrPredict_mask M hN w).trans hm), if_neg hex]
  simp only [normalize2_fin]
  refine ⟨fun i b => maskedScatter (d := 1) (fun i b _ => prev i b) m (flatten (d := 1) fun i j _ =>
    (M.resampler (fun i j => fin (sm w ((maskCols m).get j) i)) true ω).1 i j) i b 0, Prod.ext ?_ rfl⟩
  dsimp only
  congr 1
  · congr 1
    funext i b e
    rw [maskedScatter_eq]
    unfold selectX
    by_cases h : m b = true
    · rw [dif_pos h, dif_pos h, maskCols_get m b h]
    · rw [dif_neg h, dif_neg h]
  · funext i b
    unfold selectW
    by_cases h : m b = true <;> simp [h]
  · funext i b
    by_cases h : m b = true
    · rw [if_pos h, sm_zero]
      intro i
      simp [selectW, h]
    · rw [if_neg h]
      congr 1
      rw [sm_congr w (selectW m w) b]
      intro i
      simp [selectW, h]

theorem measurable_maskOf (thr : ℝ) : Measurable fun w : Fin N → Fin B → ℝ => maskOf thr w := by
  rw [measurable_pi_iff]
  intro b
  have hs : MeasurableSet {w : Fin N → Fin B → ℝ | essOf (sm w b) < thr} := by
    apply measurableSet_lt _ measurable_const
    unfold essOf
    have := fun i => measurable_sm (N := N) (B := B) b i
    fun_prop
  apply measurable_to_bool
  convert hs using 1
  ext w
  simp [maskOf]

theorem measurable_selectX (m : Fin B → Bool) :
    Measurable fun q : (Fin N → Fin B → Fin d → V) × (Fin N → Fin (maskCols m).length → Fin N) =>
      selectX m q.1 q.2 := by
  apply measurable_from_prod_countable_left
  intro a
  rw [measurable_pi_iff]; intro i
  rw [measurable_pi_iff]; intro b
  unfold selectX
  by_cases h : m b = true
  · simp only [h, dif_pos]; fun_prop
  · simp only [h, Bool.false_eq_true, dite_false]; fun_prop

theorem measurable_selectW (m : Fin B → Bool) :
    Measurable fun w : Fin N → Fin B → ℝ => selectW m w := by
  rw [measurable_pi_iff]; intro i
  rw [measurable_pi_iff]; intro b
  unfold selectW
  by_cases h : m b = true
  · simp only [h, if_true]; fun_prop
  · simp only [h, Bool.false_eq_true, if_false]; fun_prop

/-- SISR prediction: resampling keeps the estimate unbiased. -/
theorem est_sisrPredict [IsProbabilityMeasure P] {M : ParticleModel N B d V Y Ω} (hN : 0 < N)
    (hr : UnbiasedResampler P M.resampler) {b : Fin B} {t : ℕ}
    {f : PPred N B d V → Ω → XF} {h : (Fin d → V) → ℝ≥0∞} (hf : EstP P b t f h) :
    Est P b t (fun c ω => f (M.sisrPredict c ω).1 (M.sisrPredict c ω).2) h := by
  classical
  obtain ⟨R, hR, h1, h2⟩ := hf
  -- the prediction as a map on finite states, for a given mask
  let A : (Fin B → Bool) → ((Fin N → Fin B → Fin d → V) × (Fin N → Fin B → ℝ)) × Ω →
      ((Fin N → Fin B → Fin d → V) × (Fin N → Fin B → ℝ)) × Ω := fun m z =>
    if ∀ b, m b = false then z else
      ((selectX m z.1.1 (M.resampler (fun i j => fin (sm z.1.2 ((maskCols m).get j) i)) true z.2).1,
        selectW m z.1.2), (M.resampler (fun i j => fin (sm z.1.2 ((maskCols m).get j) i)) true z.2).2)
  have hA : ∀ m, Measurable (A m) := by
    intro m
    by_cases hm : ∀ b, m b = false
    · have : A m = id := by funext z; exact if_pos hm
      rw [this]; exact measurable_id
    · have hq : Measurable fun z : ((Fin N → Fin B → Fin d → V) × (Fin N → Fin B → ℝ)) × Ω =>
          M.resampler (fun i j => fin (sm z.1.2 ((maskCols m).get j) i)) true z.2 := by
        have h3 : Measurable fun z : ((Fin N → Fin B → Fin d → V) × (Fin N → Fin B → ℝ)) × Ω =>
            ((fun i j => sm z.1.2 ((maskCols m).get j) i : Fin N → Fin (maskCols m).length → ℝ), z.2) := by
          refine Measurable.prodMk ?_ measurable_snd
          rw [measurable_pi_iff]; intro i
          rw [measurable_pi_iff]; intro j
          exact (measurable_sm _ i).comp (measurable_snd.comp measurable_fst)
        exact (hr.measurable (maskCols m).length).comp h3
      have : A m = fun z =>
        ((selectX m z.1.1 (M.resampler (fun i j => fin (sm z.1.2 ((maskCols m).get j) i)) true z.2).1,
          selectW m z.1.2), (M.resampler (fun i j => fin (sm z.1.2 ((maskCols m).get j) i)) true z.2).2) := by
        funext z; exact if_neg hm
      rw [this]
      refine Measurable.prodMk (Measurable.prodMk ?_ ?_) (measurable_snd.comp hq)
      · exact (measurable_selectX m).comp
          ((measurable_fst.comp measurable_fst).prodMk (measurable_fst.comp hq))
      · exact (measurable_selectW m).comp (measurable_snd.comp measurable_fst)
  have hA2 : Measurable fun z : ((Fin N → Fin B → Fin d → V) × (Fin N → Fin B → ℝ)) × Ω =>
      A (maskOf M.threshold z.1.2) z := by
    have h4 : Measurable fun q : (Fin B → Bool) × ((Fin N → Fin B → Fin d → V) × (Fin N → Fin B → ℝ)) × Ω =>
        A q.1 q.2 := measurable_from_prod_countable_right fun m => hA m
    exact h4.comp (((measurable_maskOf M.threshold).comp (measurable_snd.comp measurable_fst)).prodMk
      measurable_id)
  refine ⟨fun z => R (A (maskOf M.threshold z.1.2) z), hR.comp hA2, ?_, ?_⟩
  · intro x w ll prev ω
    show f (M.sisrPredict _ ω).1 (M.sisrPredict _ ω).2 = fin (R (A (maskOf M.threshold w) ((x, w), ω)))
    by_cases hm : ∀ b, maskOf M.threshold w b = false
    · rw [sisrPredict_keep M hN x t w ll prev ω hm, h1]
      exact congrArg (fun z => fin (R z)) (if_pos hm).symm
    · obtain ⟨idx, hi⟩ := sisrPredict_select M hN x t w ll prev ω _ rfl hm
      rw [hi, h1]
      exact congrArg (fun z => fin (R z)) (if_neg hm).symm
  · intro x w
    show ∫⁻ ω, ENNReal.ofReal (Real.exp (R (A (maskOf M.threshold w) ((x, w), ω)))) ∂P = _
    generalize maskOf M.threshold w = m
    by_cases hm : ∀ b, m b = false
    · have : ∀ ω, A m ((x, w), ω) = ((x, w), ω) := fun ω => if_pos hm
      simp only [this]
      exact h2 x w
    · have : ∀ ω, A m ((x, w), ω) =
          ((selectX m x (M.resampler (fun i j => fin (sm w ((maskCols m).get j) i)) true ω).1,
            selectW m w), (M.resampler (fun i j => fin (sm w ((maskCols m).get j) i)) true ω).2) :=
        fun ω => if_neg hm
      simp only [this]
      obtain ⟨ν, hν, hcount⟩ := hr.draws (maskCols m).length (fun i j => sm w ((maskCols m).get j) i)
        fun j => sm_isProb w _ hN
      have := hν.prob
      have hG : Measurable fun q : (Fin N → Fin (maskCols m).length → Fin N) × Ω =>
          ENNReal.ofReal (Real.exp (R ((selectX m x q.1, selectW m w), q.2))) := by
        have h5 : Measurable fun q : (Fin N → Fin (maskCols m).length → Fin N) × Ω =>
            ((selectX m x q.1, selectW m w), q.2) :=
          (((measurable_selectX m).comp (measurable_const.prodMk measurable_fst)).prodMk
            measurable_const).prodMk measurable_snd
        exact (Real.measurable_exp.comp (hR.comp h5)).ennreal_ofReal
      rw [draws_lintegral hν hG]
      simp only [h2]
      by_cases hb : m b = true
      · have hw : ∀ i, sm (selectW m w) b i = 1 / (N : ℝ) :=
          sm_zero _ b fun i => by simp [selectW, hb]
        have hx : ∀ a i, selectX m x a i b = x (a i ⟨colRank m b, colRank_lt m b hb⟩) b := by
          intro a i
          simp only [selectX, hb, dif_pos]
        simp only [hw, hx]
        have hc := hcount ⟨colRank m b, colRank_lt m b hb⟩
        simp only [maskCols_get m b hb] at hc
        have h6 := lintegral_selected ν ⟨colRank m b, colRank_lt m b hb⟩ (sm w b) hc
          (fun k => ENNReal.ofReal (1 / (N : ℝ)) * h (x k b))
        rw [h6, Finset.mul_sum]
        refine Finset.sum_congr rfl fun k _ => ?_
        have hN' : (N : ℝ≥0∞) * ENNReal.ofReal (1 / (N : ℝ)) = 1 := by
          rw [← ENNReal.ofReal_natCast, ← ENNReal.ofReal_mul (Nat.cast_nonneg N)]
          have : (N : ℝ) ≠ 0 := by exact_mod_cast hN.ne'
          rw [mul_one_div_cancel this, ENNReal.ofReal_one]
        calc (N : ℝ≥0∞) * (ENNReal.ofReal (sm w b k) * (ENNReal.ofReal (1 / (N : ℝ)) * h (x k b)))
            = (N * ENNReal.ofReal (1 / (N : ℝ))) * (ENNReal.ofReal (sm w b k) * h (x k b)) := by ring
          _ = _ := by rw [hN', one_mul]
      · have hw : sm (selectW m w) b = sm w b := sm_congr _ _ b fun i => by simp [selectW, hb]
        have hx : ∀ a i, selectX m x a i b = x i b := by
          intro a i
          simp only [selectX, hb, Bool.false_eq_true, dite_false]
        simp only [hw, hx, lintegral_const, measure_univ, mul_one]

/-- Pure prediction. -/
theorem est_createState [IsProbabilityMeasure P] {M : ParticleModel N B d V Y Ω}
    {K : Fin B → ℕ → Kernel (Fin d → V) (Fin d → V)} (hK : DrawsTransitions P M.propagateValues K) {b : Fin B} {t : ℕ}
    {f : PCorr N B d V → Ω → XF} {h : (Fin d → V) → ℝ≥0∞} (hh : Measurable h) (hf : Est P b (t + 1) f h) :
    EstP P b t (fun p ω => (M.createState p ω).1.ll b + f (M.createState p ω).1 (M.createState p ω).2)
      (fun x => ∫⁻ x', h x' ∂(K b t x)) := by
  obtain ⟨R, hR, h1, h2⟩ := hf
  have hprop := hK.measurable t
  have hA : Measurable fun z : ((Fin N → Fin B → Fin d → V) × (Fin N → Fin B → ℝ)) × Ω =>
      (((M.propagateValues ⟨z.1.1, t⟩ z.2).1, z.1.2), (M.propagateValues ⟨z.1.1, t⟩ z.2).2) := by
    have h3 : Measurable fun z : ((Fin N → Fin B → Fin d → V) × (Fin N → Fin B → ℝ)) × Ω =>
        M.propagateValues ⟨z.1.1, t⟩ z.2 :=
      hprop.comp ((measurable_fst.comp measurable_fst).prodMk measurable_snd)
    exact ((measurable_fst.comp h3).prodMk (measurable_snd.comp measurable_fst)).prodMk
      (measurable_snd.comp h3)
  refine ⟨_, hR.comp hA, ?_, ?_⟩
  · intro x w idx ω
    show fin 0 + f ⟨⟨(M.propagateValues ⟨x, t⟩ ω).1, t + 1⟩, fun i b => fin (w i b), _, _⟩ _ = _
    rw [h1, fin_add, zero_add]
    rfl
  · intro x w
    obtain ⟨ν, hν, hmarg⟩ := hK.draws ⟨x, t⟩
    have hG : Measurable fun q : (Fin N → Fin B → Fin d → V) × Ω =>
        ENNReal.ofReal (Real.exp (R ((q.1, w), q.2))) :=
      (Real.measurable_exp.comp (hR.comp
        ((measurable_fst.prodMk measurable_const).prodMk measurable_snd))).ennreal_ofReal
    show ∫⁻ ω, (fun q : (Fin N → Fin B → Fin d → V) × Ω => ENNReal.ofReal (Real.exp (R ((q.1, w), q.2))))
      (M.propagateValues ⟨x, t⟩ ω) ∂P = _
    rw [draws_lintegral hν hG]
    simp only [h2]
    rw [lintegral_finsetSum _ fun i _ => by fun_prop]
    refine Finset.sum_congr rfl fun i _ => ?_
    have hi : Measurable fun v : Fin N → Fin B → Fin d → V => v i b := by fun_prop
    have hmh : Measurable fun v : Fin N → Fin B → Fin d → V => h (v i b) := hh.comp hi
    rw [lintegral_const_mul _ hmh]
    congr 1
    rw [← lintegral_map hh hi, hmarg i b]

/-- Correction of SISR. -/
theorem est_sisrCorrect [IsProbabilityMeasure P] {M : ParticleModel N B d V Y Ω}
    {K : Fin B → ℕ → Kernel (Fin d → V) (Fin d → V)} {l : Fin B → Y → ℕ → (Fin d → V) → ℝ}
    (hinc : M.kind.increment = 1)
    (hS : ProperProposal P M.sampleValues K l) (hN : 0 < N) {b : Fin B} {t : ℕ} (y : Y)
    {f : PCorr N B d V → Ω → XF} {h : (Fin d → V) → ℝ≥0∞} (hh : Measurable h) (hf : Est P b (t + 1) f h) :
    EstP P b t (fun p ω => (M.sisrCorrect y p ω).1.ll b + f (M.sisrCorrect y p ω).1 (M.sisrCorrect y p ω).2)
      (fun x => ∫⁻ x', ENNReal.ofReal (Real.exp (l b y (t + 1) x')) * h x' ∂(K b t x)) := by
  classical
  obtain ⟨R, hR, h1, h2⟩ := hf
  obtain ⟨S, hSm, hSe, hSν⟩ := hS.sample y t
  let Z : (Fin N → Fin B → ℝ) → (Fin N → Fin B → ℝ) → ℝ := fun w l => ∑ i, sm w b i * Real.exp (l i b)
  have hZpos : ∀ w l, 0 < Z w l := fun w l => Finset.sum_pos
    (fun i _ => mul_pos (sm_pos w b i) (Real.exp_pos _)) ⟨⟨0, hN⟩, Finset.mem_univ _⟩
  have hZm : Measurable fun q : (Fin N → Fin B → ℝ) × (Fin N → Fin B → ℝ) => Z q.1 q.2 := by
    have h3 : ∀ i, Measurable fun q : (Fin N → Fin B → ℝ) × (Fin N → Fin B → ℝ) => sm q.1 b i :=
      fun i => (measurable_sm b i).comp measurable_fst
    exact Finset.measurable_sum _ fun i _ => (h3 i).mul (by fun_prop)
  have hS1 : Measurable fun z : ((Fin N → Fin B → Fin d → V) × (Fin N → Fin B → ℝ)) × Ω => S (z.1.1, z.2) :=
    hSm.comp ((measurable_fst.comp measurable_fst).prodMk measurable_snd)
  have hadd : Measurable fun q : (Fin N → Fin B → ℝ) × (Fin N → Fin B → ℝ) =>
      (fun i b => q.2 i b + q.1 i b : Fin N → Fin B → ℝ) := by fun_prop
  refine ⟨fun z => Real.log (Z z.1.2 (S (z.1.1, z.2)).1.2) +
      R (((S (z.1.1, z.2)).1.1, fun i b => (S (z.1.1, z.2)).1.2 i b + z.1.2 i b), (S (z.1.1, z.2)).2),
    ?_, ?_, ?_⟩
  · have hw : Measurable fun z : ((Fin N → Fin B → Fin d → V) × (Fin N → Fin B → ℝ)) × Ω =>
        (z.1.2, (S (z.1.1, z.2)).1.2) :=
      (measurable_snd.comp measurable_fst).prodMk (measurable_snd.comp (measurable_fst.comp hS1))
    refine (Real.measurable_log.comp (hZm.comp hw)).add (hR.comp ?_)
    exact ((measurable_fst.comp (measurable_fst.comp hS1)).prodMk (hadd.comp hw)).prodMk
      (measurable_snd.comp hS1)
  · intro x w idx ω
    set p : PPred N B d V := ⟨⟨x, t⟩, fun i b => fin (w i b), fun i b => fin (sm w b i), idx⟩ with hp
    have hs := hSe p ω rfl
    have hc : M.sisrCorrect y p ω =
        (⟨⟨(S (x, ω)).1.1, t + 1⟩, fun i b => fin ((S (x, ω)).1.2 i b + w i b),
          logLikelihood (fun i b => fin ((S (x, ω)).1.2 i b)) (some fun i b => fin (sm w b i)), idx⟩,
          (S (x, ω)).2) := by
      unfold ParticleModel.sisrCorrect ParticleModel.sampleAndWeight
      rw [hs, hinc]
      rfl
    have hll : logLikelihood (fun i b => fin ((S (x, ω)).1.2 i b)) (some fun i b => fin (sm w b i)) b
        = fin (Real.log (Z w (S (x, ω)).1.2)) := by
      rw [logLikelihood_weighted _ _ b (sm w b) (fun _ => rfl) (sm_nonneg w b)
        (fun i => Or.inr ⟨_, rfl⟩) ⟨⟨0, hN⟩, _, rfl⟩]
      exact if_neg (hZpos w (S (x, ω)).1.2).ne'
    show (M.sisrCorrect y p ω).1.ll b + f (M.sisrCorrect y p ω).1 (M.sisrCorrect y p ω).2 = _
    rw [hc]
    dsimp only
    rw [hll, h1, fin_add]
  · intro x w
    obtain ⟨ν, hν, hprop⟩ := hSν x
    have hG : Measurable fun q : ((Fin N → Fin B → Fin d → V) × (Fin N → Fin B → ℝ)) × Ω =>
        ENNReal.ofReal (Z w q.1.2) * ENNReal.ofReal (Real.exp (R ((q.1.1, fun i b => q.1.2 i b + w i b), q.2))) := by
      have hw : Measurable fun q : ((Fin N → Fin B → Fin d → V) × (Fin N → Fin B → ℝ)) × Ω =>
          (w, q.1.2) := measurable_const.prodMk (measurable_snd.comp measurable_fst)
      refine (hZm.comp hw).ennreal_ofReal.mul (Real.measurable_exp.comp (hR.comp ?_)).ennreal_ofReal
      exact ((measurable_fst.comp measurable_fst).prodMk (hadd.comp hw)).prodMk measurable_snd
    have e1 : ∀ ω, ENNReal.ofReal (Real.exp (Real.log (Z w (S (x, ω)).1.2) +
        R (((S (x, ω)).1.1, fun i b => (S (x, ω)).1.2 i b + w i b), (S (x, ω)).2)))
        = ENNReal.ofReal (Z w (S (x, ω)).1.2) * ENNReal.ofReal (Real.exp
          (R (((S (x, ω)).1.1, fun i b => (S (x, ω)).1.2 i b + w i b), (S (x, ω)).2))) := by
      intro ω
      rw [Real.exp_add, Real.exp_log (hZpos _ _), ENNReal.ofReal_mul (hZpos _ _).le]
    show ∫⁻ ω, ENNReal.ofReal (Real.exp (Real.log (Z w (S (x, ω)).1.2) +
        R (((S (x, ω)).1.1, fun i b => (S (x, ω)).1.2 i b + w i b), (S (x, ω)).2))) ∂P = _
    simp only [e1]
    rw [draws_lintegral hν hG]
    have e2 : ∀ q : (Fin N → Fin B → Fin d → V) × (Fin N → Fin B → ℝ),
        ∫⁻ ω, ENNReal.ofReal (Z w q.2) * ENNReal.ofReal (Real.exp
          (R ((q.1, fun i b => q.2 i b + w i b), ω))) ∂P
        = ∑ i, ENNReal.ofReal (sm w b i) * (ENNReal.ofReal (Real.exp (q.2 i b)) * h (q.1 i b)) := by
      intro q
      have hme : Measurable fun ω => ENNReal.ofReal (Real.exp
          (R ((q.1, fun i b => q.2 i b + w i b), ω))) :=
        (Real.measurable_exp.comp (hR.comp (measurable_const.prodMk measurable_id))).ennreal_ofReal
      rw [lintegral_const_mul _ hme, h2, Finset.mul_sum]
      refine Finset.sum_congr rfl fun i _ => ?_
      rw [← mul_assoc, ← mul_assoc, ← ENNReal.ofReal_mul (hZpos _ _).le,
        ← ENNReal.ofReal_mul (sm_nonneg _ _ _), sm_update]
    simp only [e2]
    have hm : ∀ i, Measurable fun q : (Fin N → Fin B → Fin d → V) × (Fin N → Fin B → ℝ) =>
        ENNReal.ofReal (Real.exp (q.2 i b)) * h (q.1 i b) := by
      intro i
      have : Measurable fun q : (Fin N → Fin B → Fin d → V) × (Fin N → Fin B → ℝ) => q.1 i b := by fun_prop
      exact Measurable.mul (by fun_prop) (hh.comp this)
    rw [lintegral_finsetSum _ fun i _ => (hm i).const_mul _]
    refine Finset.sum_congr rfl fun i _ => ?_
    rw [lintegral_const_mul _ (hm i), hprop i b h hh]

/-- Particles selected by ancestor indices. -/
def pickX (x : Fin N → Fin B → Fin d → V) (a : Fin N → Fin B → Fin N) : Fin N → Fin B → Fin d → V :=
  fun i b => x (a i b) b

/-- Pre-weights of the selected particles. -/
def pickW (w : Fin N → Fin B → ℝ) (a : Fin N → Fin B → Fin N) : Fin N → Fin B → ℝ :=
  fun i b => w (a i b) b

theorem measurable_pickX : Measurable fun q : (Fin N → Fin B → Fin d → V) × (Fin N → Fin B → Fin N) =>
    pickX q.1 q.2 := by
  apply measurable_from_prod_countable_left
  intro a
  unfold pickX
  fun_prop

theorem measurable_pickW : Measurable fun q : (Fin N → Fin B → ℝ) × (Fin N → Fin B → Fin N) =>
    pickW q.1 q.2 := by
  apply measurable_from_prod_countable_left
  intro a
  unfold pickW
  fun_prop

/-- Weighted average of `exp l` over the particles of filter `b`. -/
noncomputable def wavg (b : Fin B) (w l : Fin N → Fin B → ℝ) : ℝ := ∑ i, sm w b i * Real.exp (l i b)

/-- Average of `exp l` over the particles of filter `b`. -/
noncomputable def uavg (b : Fin B) (l : Fin N → Fin B → ℝ) : ℝ := ∑ i, 1 / (N : ℝ) * Real.exp (l i b)

omit [MeasurableSpace Ω] [MeasurableSpace V] in
theorem wavg_pos (hN : 0 < N) (b : Fin B) (w l : Fin N → Fin B → ℝ) : 0 < wavg b w l :=
  Finset.sum_pos (fun i _ => mul_pos (sm_pos w b i) (Real.exp_pos _)) ⟨⟨0, hN⟩, Finset.mem_univ _⟩

omit [MeasurableSpace Ω] [MeasurableSpace V] in
theorem uavg_pos (hN : 0 < N) (b : Fin B) (l : Fin N → Fin B → ℝ) : 0 < uavg b l :=
  Finset.sum_pos (fun i _ => mul_pos (by positivity) (Real.exp_pos _)) ⟨⟨0, hN⟩, Finset.mem_univ _⟩

theorem measurable_wavg (b : Fin B) :
    Measurable fun q : (Fin N → Fin B → ℝ) × (Fin N → Fin B → ℝ) => wavg b q.1 q.2 := by
  have h3 : ∀ i, Measurable fun q : (Fin N → Fin B → ℝ) × (Fin N → Fin B → ℝ) => sm q.1 b i :=
    fun i => (measurable_sm b i).comp measurable_fst
  exact Finset.measurable_sum _ fun i _ => (h3 i).mul (by fun_prop)

theorem measurable_uavg (b : Fin B) : Measurable fun l : Fin N → Fin B → ℝ => uavg b l :=
  Finset.measurable_sum _ fun i _ => by fun_prop

theorem uavg_sm (b : Fin B) (l : Fin N → Fin B → ℝ) (i : Fin N) :
    uavg b l * sm l b i = 1 / (N : ℝ) * Real.exp (l i b) := by
  have h3 := sum_exp_pos l b i.pos
  unfold uavg
  rw [← Finset.mul_sum]
  unfold sm
  field_simp

/-- Log-estimate of the APF for given ancestors. -/
noncomputable def apfGiven (b : Fin B) (pre : (Fin N → Fin B → Fin d → V) → Fin N → Fin B → ℝ)
    (S : (Fin N → Fin B → Fin d → V) × Ω → ((Fin N → Fin B → Fin d → V) × (Fin N → Fin B → ℝ)) × Ω)
    (R : ((Fin N → Fin B → Fin d → V) × (Fin N → Fin B → ℝ)) × Ω → ℝ)
    (z : (((Fin N → Fin B → Fin d → V) × (Fin N → Fin B → ℝ)) × (Fin N → Fin B → Fin N)) × Ω) : ℝ :=
  Real.log (uavg b fun i b => (S (pickX z.1.1.1 z.1.2, z.2)).1.2 i b - pickW (pre z.1.1.1) z.1.2 i b) +
    Real.log (wavg b z.1.1.2 (pre z.1.1.1)) +
    R (((S (pickX z.1.1.1 z.1.2, z.2)).1.1,
      fun i b => (S (pickX z.1.1.1 z.1.2, z.2)).1.2 i b - pickW (pre z.1.1.1) z.1.2 i b),
      (S (pickX z.1.1.1 z.1.2, z.2)).2)

theorem measurable_subtract : Measurable fun q : (Fin N → Fin B → ℝ) × (Fin N → Fin B → ℝ) =>
    (fun i b => q.1 i b - q.2 i b : Fin N → Fin B → ℝ) := by fun_prop

theorem measurable_apfGiven (b : Fin B) {pre : (Fin N → Fin B → Fin d → V) → Fin N → Fin B → ℝ}
    (hpre : Measurable pre)
    {S : (Fin N → Fin B → Fin d → V) × Ω → ((Fin N → Fin B → Fin d → V) × (Fin N → Fin B → ℝ)) × Ω}
    (hSm : Measurable S)
    {R : ((Fin N → Fin B → Fin d → V) × (Fin N → Fin B → ℝ)) × Ω → ℝ} (hR : Measurable R) :
    Measurable (apfGiven b pre S R) := by
  have hx : Measurable fun z : (((Fin N → Fin B → Fin d → V) × (Fin N → Fin B → ℝ)) ×
      (Fin N → Fin B → Fin N)) × Ω => z.1.1.1 := measurable_fst.comp (measurable_fst.comp measurable_fst)
  have hw : Measurable fun z : (((Fin N → Fin B → Fin d → V) × (Fin N → Fin B → ℝ)) ×
      (Fin N → Fin B → Fin N)) × Ω => z.1.1.2 := measurable_snd.comp (measurable_fst.comp measurable_fst)
  have ha : Measurable fun z : (((Fin N → Fin B → Fin d → V) × (Fin N → Fin B → ℝ)) ×
      (Fin N → Fin B → Fin N)) × Ω => z.1.2 := measurable_snd.comp measurable_fst
  have hS2 : Measurable fun z : (((Fin N → Fin B → Fin d → V) × (Fin N → Fin B → ℝ)) ×
      (Fin N → Fin B → Fin N)) × Ω => S (pickX z.1.1.1 z.1.2, z.2) :=
    hSm.comp ((measurable_pickX.comp (hx.prodMk ha)).prodMk measurable_snd)
  have hd : Measurable fun z : (((Fin N → Fin B → Fin d → V) × (Fin N → Fin B → ℝ)) ×
      (Fin N → Fin B → Fin N)) × Ω =>
      (fun i b => (S (pickX z.1.1.1 z.1.2, z.2)).1.2 i b - pickW (pre z.1.1.1) z.1.2 i b :
        Fin N → Fin B → ℝ) :=
    measurable_subtract.comp ((measurable_snd.comp (measurable_fst.comp hS2)).prodMk
      (measurable_pickW.comp ((hpre.comp hx).prodMk ha)))
  refine ((Real.measurable_log.comp ((measurable_uavg b).comp hd)).add
    (Real.measurable_log.comp ((measurable_wavg b).comp (hw.prodMk (hpre.comp hx))))).add (hR.comp ?_)
  exact ((measurable_fst.comp (measurable_fst.comp hS2)).prodMk hd).prodMk (measurable_snd.comp hS2)

/-- Expectation of the estimate of the APF for given ancestors. -/
theorem lintegral_apfGiven [IsProbabilityMeasure P] (hN : 0 < N) (b : Fin B)
    (pre : (Fin N → Fin B → Fin d → V) → Fin N → Fin B → ℝ)
    (S : (Fin N → Fin B → Fin d → V) × Ω → ((Fin N → Fin B → Fin d → V) × (Fin N → Fin B → ℝ)) × Ω)
    {R : ((Fin N → Fin B → Fin d → V) × (Fin N → Fin B → ℝ)) × Ω → ℝ} (hR : Measurable R)
    {h : (Fin d → V) → ℝ≥0∞} (hh : Measurable h)
    (h2 : ∀ x w, ∫⁻ ω, ENNReal.ofReal (Real.exp (R ((x, w), ω))) ∂P
      = ∑ i, ENNReal.ofReal (sm w b i) * h (x i b))
    (x : Fin N → Fin B → Fin d → V) (w : Fin N → Fin B → ℝ) (a : Fin N → Fin B → Fin N)
    (H : (Fin d → V) → ℝ≥0∞) (κ : Measure ((Fin N → Fin B → Fin d → V) × (Fin N → Fin B → ℝ)))
    (hκ : Draws P (fun ω => S (pickX x a, ω)) κ)
    (hprop : ∀ i, ∫⁻ q, ENNReal.ofReal (Real.exp (q.2 i b)) * h (q.1 i b) ∂κ = H (pickX x a i b)) :
    ∫⁻ ω, ENNReal.ofReal (Real.exp (apfGiven b pre S R (((x, w), a), ω))) ∂P
      = ∑ i, ENNReal.ofReal (wavg b w (pre x) * (1 / (N : ℝ)) * Real.exp (-pre x (a i b) b))
          * H (x (a i b) b) := by
  have hw : Measurable fun q : ((Fin N → Fin B → Fin d → V) × (Fin N → Fin B → ℝ)) × Ω =>
      (fun i b => q.1.2 i b - pickW (pre x) a i b : Fin N → Fin B → ℝ) :=
    measurable_subtract.comp ((measurable_snd.comp measurable_fst).prodMk measurable_const)
  have hC := wavg_pos hN b w (pre x)
  generalize hCe : wavg b w (pre x) = C at hC
  have hG2 : Measurable fun q : ((Fin N → Fin B → Fin d → V) × (Fin N → Fin B → ℝ)) × Ω =>
      ENNReal.ofReal (C * uavg b fun i b => q.1.2 i b - pickW (pre x) a i b) *
        ENNReal.ofReal (Real.exp (R ((q.1.1, fun i b => q.1.2 i b - pickW (pre x) a i b), q.2))) :=
    (((measurable_uavg b).comp hw).const_mul _).ennreal_ofReal.mul (Real.measurable_exp.comp (hR.comp
      (((measurable_fst.comp measurable_fst).prodMk hw).prodMk measurable_snd))).ennreal_ofReal
  have e1 : ∀ ω, ENNReal.ofReal (Real.exp (apfGiven b pre S R (((x, w), a), ω))) =
      (fun q : ((Fin N → Fin B → Fin d → V) × (Fin N → Fin B → ℝ)) × Ω =>
      ENNReal.ofReal (C * uavg b fun i b => q.1.2 i b - pickW (pre x) a i b) *
        ENNReal.ofReal (Real.exp (R ((q.1.1, fun i b => q.1.2 i b - pickW (pre x) a i b), q.2))))
      (S (pickX x a, ω)) := by
    intro ω
    unfold apfGiven
    dsimp only
    rw [hCe, Real.exp_add, Real.exp_add, Real.exp_log (uavg_pos hN b _), Real.exp_log hC,
      ENNReal.ofReal_mul (mul_pos (uavg_pos hN b _) hC).le, mul_comm (uavg b _)]
  rw [lintegral_congr e1, draws_lintegral hκ hG2]
  have e2 : ∀ q : (Fin N → Fin B → Fin d → V) × (Fin N → Fin B → ℝ),
      ∫⁻ ω, ENNReal.ofReal (C * uavg b fun i b => q.2 i b - pickW (pre x) a i b) *
        ENNReal.ofReal (Real.exp (R ((q.1, fun i b => q.2 i b - pickW (pre x) a i b), ω))) ∂P
      = ∑ i, ENNReal.ofReal (C * (1 / (N : ℝ)) * Real.exp (-pre x (a i b) b)) *
          (ENNReal.ofReal (Real.exp (q.2 i b)) * h (q.1 i b)) := by
    intro q
    have hme : Measurable fun ω => ENNReal.ofReal (Real.exp
        (R ((q.1, fun i b => q.2 i b - pickW (pre x) a i b), ω))) :=
      (Real.measurable_exp.comp (hR.comp (measurable_const.prodMk measurable_id))).ennreal_ofReal
    rw [lintegral_const_mul _ hme, h2, Finset.mul_sum]
    refine Finset.sum_congr rfl fun i _ => ?_
    have hN' : (0 : ℝ) < 1 / (N : ℝ) := by positivity
    have hc0 : 0 ≤ C * (1 / (N : ℝ)) * Real.exp (-pre x (a i b) b) :=
      (mul_pos (mul_pos hC hN') (Real.exp_pos _)).le
    rw [← mul_assoc, ← mul_assoc, ← ENNReal.ofReal_mul (mul_pos hC (uavg_pos hN b _)).le,
      ← ENNReal.ofReal_mul hc0, mul_assoc C (uavg b _), uavg_sm]
    have : Real.exp (q.2 i b - pickW (pre x) a i b)
        = Real.exp (-pre x (a i b) b) * Real.exp (q.2 i b) := by
      rw [← Real.exp_add]
      congr 1
      show q.2 i b - pre x (a i b) b = _
      ring
    rw [this]
    congr 2
    ring
  rw [lintegral_congr e2]
  have hm : ∀ i, Measurable fun q : (Fin N → Fin B → Fin d → V) × (Fin N → Fin B → ℝ) =>
      ENNReal.ofReal (Real.exp (q.2 i b)) * h (q.1 i b) := by
    intro i
    have : Measurable fun q : (Fin N → Fin B → Fin d → V) × (Fin N → Fin B → ℝ) => q.1 i b := by fun_prop
    exact Measurable.mul (by fun_prop) (hh.comp this)
  rw [lintegral_finsetSum _ fun i _ => (hm i).const_mul _]
  refine Finset.sum_congr rfl fun i _ => ?_
  rw [lintegral_const_mul _ (hm i), hprop i]
  rfl

omit [MeasurableSpace Ω] [MeasurableSpace V] in
theorem apfCorrect_unfold (M : ParticleModel N B d V Y Ω) (y : Y) (p : PPred N B d V) (ω : Ω)
    (a : Fin N → Fin B → Fin N) (ω1 ω2 : Ω) (v : Fin N → Fin B → Fin d → V) (u : Fin N → Fin B → XF)
    (ha : M.resampler (fun i b => M.preWeight y p.prevX i b + p.w i b) false ω = (a, ω1))
    (hs : M.sampleValues y ⟨⟨fun i b => p.prevX.value (a i b) b, p.prevX.time⟩, fun _ _ => fin 0,
      fun _ _ => fin (1 / (N : ℝ)), a⟩ ω1 = ((v, u), ω2)) :
    M.apfCorrect y p ω =
      (PCorr.mk' M.lo ⟨v, p.prevX.time + M.kind.increment⟩ (fun i b => u i b - M.preWeight y p.prevX (a i b) b)
        (fun b => logLikelihood (fun i b => u i b - M.preWeight y p.prevX (a i b) b) none b +
          XF.log (∑ i, p.nw i b * XF.exp (M.preWeight y p.prevX i b))) a, ω2) := by
  have key : M.apfCorrect y p ω =
      (fun r : (Fin N → Fin B → Fin N) × Ω =>
        (fun s : ((Fin N → Fin B → Fin d → V) × (Fin N → Fin B → XF)) × Ω =>
          (PCorr.mk' M.lo ⟨s.1.1, p.prevX.time + M.kind.increment⟩
            (fun i b => s.1.2 i b - M.preWeight y p.prevX (r.1 i b) b)
            (fun b => logLikelihood (fun i b => s.1.2 i b - M.preWeight y p.prevX (r.1 i b) b) none b +
              XF.log (∑ i, p.nw i b * XF.exp (M.preWeight y p.prevX i b))) r.1, s.2))
        (M.sampleValues y ⟨⟨fun i b => p.prevX.value (r.1 i b) b, p.prevX.time⟩, fun _ _ => fin 0,
          fun _ _ => fin (1 / (N : ℝ)), r.1⟩ r.2))
      (M.resampler (fun i b => M.preWeight y p.prevX i b + p.w i b) false ω) := rfl
  rw [key, ha]
  dsimp only
  rw [hs]

/-- Correction of the APF. -/
theorem est_apfCorrect [IsProbabilityMeasure P] {M : ParticleModel N B d V Y Ω}
    {K : Fin B → ℕ → Kernel (Fin d → V) (Fin d → V)} {l : Fin B → Y → ℕ → (Fin d → V) → ℝ}
    (hinc : M.kind.increment = 1)
    (hS : ProperProposal P M.sampleValues K l) (hr : UnbiasedLogResampler P M.resampler) (hN : 0 < N) {b : Fin B} {t : ℕ}
    (y : Y) (pre : (Fin N → Fin B → Fin d → V) → Fin N → Fin B → ℝ) (hpre : Measurable pre)
    (hpe : ∀ x i b, M.preWeight y ⟨x, t⟩ i b = fin (pre x i b))
    {f : PCorr N B d V → Ω → XF} {h : (Fin d → V) → ℝ≥0∞} (hh : Measurable h) (hf : Est P b (t + 1) f h) :
    EstP P b t (fun p ω => (M.apfCorrect y p ω).1.ll b + f (M.apfCorrect y p ω).1 (M.apfCorrect y p ω).2)
      (fun x => ∫⁻ x', ENNReal.ofReal (Real.exp (l b y (t + 1) x')) * h x' ∂(K b t x)) := by
  classical
  obtain ⟨R, hR, h1, h2⟩ := hf
  obtain ⟨S, hSm, hSe, hSν⟩ := hS.sample y t
  have hR2 := measurable_apfGiven b hpre hSm hR
  have hsel : Measurable fun z : ((Fin N → Fin B → Fin d → V) × (Fin N → Fin B → ℝ)) × Ω =>
      M.resampler (fun i b => fin (pre z.1.1 i b + z.1.2 i b)) false z.2 := by
    have h3 : Measurable fun z : ((Fin N → Fin B → Fin d → V) × (Fin N → Fin B → ℝ)) × Ω =>
        ((fun i b => pre z.1.1 i b + z.1.2 i b : Fin N → Fin B → ℝ), z.2) := by
      have h4 : Measurable fun q : (Fin N → Fin B → ℝ) × (Fin N → Fin B → ℝ) =>
        (fun i b => q.1 i b + q.2 i b : Fin N → Fin B → ℝ) := by fun_prop
      exact (h4.comp ((hpre.comp (measurable_fst.comp measurable_fst)).prodMk
        (measurable_snd.comp measurable_fst))).prodMk measurable_snd
    exact (hr.measurable B).comp h3
  refine ⟨fun z => apfGiven b pre S R
    ((z.1, (M.resampler (fun i b => fin (pre z.1.1 i b + z.1.2 i b)) false z.2).1),
    (M.resampler (fun i b => fin (pre z.1.1 i b + z.1.2 i b)) false z.2).2), ?_, ?_, ?_⟩
  · exact hR2.comp ((measurable_fst.prodMk (measurable_fst.comp hsel)).prodMk (measurable_snd.comp hsel))
  · intro x w idx ω
    obtain ⟨a, ω1, ha⟩ : ∃ a ω1, M.resampler (fun i b => fin (pre x i b + w i b)) false ω = (a, ω1) :=
      ⟨_, _, rfl⟩
    have hc := apfCorrect_unfold M y
      ⟨⟨x, t⟩, fun i b => fin (w i b), fun i b => fin (sm w b i), idx⟩ ω a ω1 (S (pickX x a, ω1)).2
      (S (pickX x a, ω1)).1.1 (fun i b => fin ((S (pickX x a, ω1)).1.2 i b))
      (by rw [← ha]; simp only [hpe, fin_add])
      (hSe ⟨⟨pickX x a, t⟩, fun _ _ => fin 0, fun _ _ => fin (1 / (N : ℝ)), a⟩ ω1 rfl)
    rw [hinc] at hc
    simp only [hpe, fin_sub] at hc
    have hll : logLikelihood (fun i b => fin ((S (pickX x a, ω1)).1.2 i b - pre x (a i b) b)) none b
            + XF.log (∑ i, fin (sm w b i) * XF.exp (fin (pre x i b)))
        = fin (Real.log (uavg b fun i b => (S (pickX x a, ω1)).1.2 i b - pickW (pre x) a i b)
            + Real.log (wavg b w (pre x))) := by
      have hN' : (0 : ℝ) < 1 / (N : ℝ) := by positivity
      rw [logLikelihood_none, logLikelihood_weighted _ _ b (fun _ => 1 / (N : ℝ)) (fun _ => rfl)
        (fun _ => hN'.le) (fun i => Or.inr ⟨_, rfl⟩) ⟨⟨0, hN⟩, _, rfl⟩]
      simp only [exp_fin, fin_mul, sum_fin]
      have h5 := log_fin (wavg_pos hN b w (pre x))
      have h6 := (uavg_pos hN b fun i b => (S (pickX x a, ω1)).1.2 i b - pickW (pre x) a i b).ne'
      refine (congrArg₂ (· + ·) (if_neg h6) h5).trans ?_
      exact fin_add _ _
    beta_reduce
    rw [hc, ha]
    show (_ + _ : XF) + f ⟨⟨_, t + 1⟩, fun i b => fin ((S (pickX x a, ω1)).1.2 i b - pickW (pre x) a i b), _, _⟩ _ = _
    rw [h1]
    exact (congrArg (· + _) hll).trans (fin_add _ _)
  · intro x w
    obtain ⟨ν, hν, hcount⟩ := hr.draws B (fun i b => pre x i b + w i b)
    have hG : Measurable fun q : (Fin N → Fin B → Fin N) × Ω =>
        ENNReal.ofReal (Real.exp (apfGiven b pre S R (((x, w), q.1), q.2))) :=
      (Real.measurable_exp.comp (hR2.comp
        ((measurable_const.prodMk measurable_fst).prodMk measurable_snd))).ennreal_ofReal
    show ∫⁻ ω, (fun q : (Fin N → Fin B → Fin N) × Ω =>
        ENNReal.ofReal (Real.exp (apfGiven b pre S R (((x, w), q.1), q.2))))
      (M.resampler (fun i b => fin (pre x i b + w i b)) false ω) ∂P = _
    rw [draws_lintegral hν hG]
    obtain ⟨H, hH⟩ : ∃ H : (Fin d → V) → ℝ≥0∞, ∀ x, ∫⁻ x', ENNReal.ofReal (Real.exp (l b y (t + 1) x')) * h x'
        ∂(K b t x) = H x := ⟨_, fun _ => rfl⟩
    have e0 := fun a => lintegral_apfGiven P hN b pre S hR hh h2 x w a H
        (hSν (pickX x a)).choose (hSν (pickX x a)).choose_spec.1
        fun i => ((hSν (pickX x a)).choose_spec.2 i b h hh).trans (hH _)
    rw [lintegral_congr e0]
    simp only [hH]
    rw [lintegral_selected ν b (fun k => Real.exp (pre x k b + w k b) / ∑ i, Real.exp (pre x i b + w i b))
      (hcount b) (fun k => ENNReal.ofReal (wavg b w (pre x) * (1 / (N : ℝ)) * Real.exp (-pre x k b)) * H (x k b)),
      Finset.mul_sum]
    refine Finset.sum_congr rfl fun k _ => ?_
    have hp : Real.exp (pre x k b + w k b) / ∑ i, Real.exp (pre x i b + w i b)
        = sm (fun i b => pre x i b + w i b) b k := rfl
    rw [hp, ← mul_assoc, ← mul_assoc, ← ENNReal.ofReal_natCast, ← ENNReal.ofReal_mul (Nat.cast_nonneg N),
      ← ENNReal.ofReal_mul (mul_nonneg (Nat.cast_nonneg N) (sm_nonneg _ _ _))]
    congr 2
    have hu : wavg b w (pre x) * sm (fun i b => pre x i b + w i b) b k = _ := sm_update w (pre x) b k
    have hN0 : (N : ℝ) ≠ 0 := by exact_mod_cast hN.ne'
    calc (N : ℝ) * sm (fun i b => pre x i b + w i b) b k * (wavg b w (pre x) * (1 / (N : ℝ)) * Real.exp (-pre x k b))
        = (wavg b w (pre x) * sm (fun i b => pre x i b + w i b) b k) * Real.exp (-pre x k b) := by
          field_simp
      _ = sm w b k * Real.exp (pre x k b) * Real.exp (-pre x k b) := by rw [hu]
      _ = sm w b k := by rw [mul_assoc, ← Real.exp_add, add_neg_cancel, Real.exp_zero, mul_one]

/-- Likelihoods are measurable. -/
theorem measurable_lik {X : Type} [MeasurableSpace X] (K : ℕ → Kernel X X) (g : Y → ℕ → X → ℝ≥0∞)
    (hg : ∀ y t, Measurable (g y t)) : ∀ (os : List (Option Y)) (t : ℕ), Measurable (lik K g os t)
  | [], _ => measurable_const
  | none :: os, t => by
    have := measurable_lik K g hg os (t + 1)
    simp only [lik]
    exact this.lintegral_kernel
  | some y :: os, t => by
    have := (hg y (t + 1)).mul (measurable_lik K g hg os (t + 1))
    simp only [lik]
    exact Measurable.lintegral_kernel this

/-- The bootstrap proposal is proper. -/
theorem bootstrap_proper [IsProbabilityMeasure P]
    {propagate : TS N B d V → Ω → (Fin N → Fin B → Fin d → V) × Ω}
    {K : Fin B → ℕ → Kernel (Fin d → V) (Fin d → V)} (hK : DrawsTransitions P propagate K)
    (logg : Fin B → Y → ℕ → (Fin d → V) → ℝ) (hlogg : ∀ b y t, Measurable (logg b y t)) :
    ProperProposal P (bootstrapSample propagate fun y x i b => fin (logg b y x.time (x.value i b))) K logg := by
  refine ⟨fun y t => ⟨fun z => (((propagate ⟨z.1, t⟩ z.2).1,
    fun i b => logg b y (t + 1) ((propagate ⟨z.1, t⟩ z.2).1 i b)), (propagate ⟨z.1, t⟩ z.2).2), ?_, ?_, ?_⟩⟩
  · have h1 := hK.measurable t
    have h2 : Measurable fun v : Fin N → Fin B → Fin d → V =>
        (v, (fun i b => logg b y (t + 1) (v i b) : Fin N → Fin B → ℝ)) := by
      refine measurable_id.prodMk ?_
      rw [measurable_pi_iff]; intro i
      rw [measurable_pi_iff]; intro b
      exact (hlogg b y (t + 1)).comp (by fun_prop)
    exact (h2.comp (measurable_fst.comp h1)).prodMk (measurable_snd.comp h1)
  · intro p ω ht
    subst ht
    rfl
  · intro x
    obtain ⟨ν, hν, hm⟩ := hK.draws ⟨x, t⟩
    have h2 : Measurable fun v : Fin N → Fin B → Fin d → V =>
        (v, (fun i b => logg b y (t + 1) (v i b) : Fin N → Fin B → ℝ)) := by
      refine measurable_id.prodMk ?_
      rw [measurable_pi_iff]; intro i
      rw [measurable_pi_iff]; intro b
      exact (hlogg b y (t + 1)).comp (by fun_prop)
    have := hν.prob
    refine ⟨ν.map fun v => (v, fun i b => logg b y (t + 1) (v i b)), ⟨?_, ?_, ?_⟩, ?_⟩
    · exact (h2.comp (measurable_fst.comp hν.measurable)).prodMk (measurable_snd.comp hν.measurable)
    · exact Measure.isProbabilityMeasure_map h2.aemeasurable
    · have h3 : (ν.map fun v => (v, (fun i b => logg b y (t + 1) (v i b) : Fin N → Fin B → ℝ))).prod
          (P.map id) = _ := Measure.map_prod_map ν P h2 measurable_id
      rw [Measure.map_id] at h3
      rw [h3, ← hν.law, Measure.map_map (h2.prodMap measurable_id) hν.measurable]
      rfl
    · intro i b φ hφ
      have h4 : Measurable fun q : (Fin N → Fin B → Fin d → V) × (Fin N → Fin B → ℝ) =>
          ENNReal.ofReal (Real.exp (q.2 i b)) * φ (q.1 i b) := by
        have : Measurable fun q : (Fin N → Fin B → Fin d → V) × (Fin N → Fin B → ℝ) => q.1 i b := by fun_prop
        exact Measurable.mul (by fun_prop) (hφ.comp this)
      have h5 : Measurable fun x' : Fin d → V => ENNReal.ofReal (Real.exp (logg b y (t + 1) x')) * φ x' :=
        (Real.measurable_exp.comp (hlogg b y (t + 1))).ennreal_ofReal.mul hφ
      rw [lintegral_map h4 h2, ← hm i b, lintegral_map h5 (by fun_prop)]

/-- Estimates from the initial state. -/
theorem est_initial [IsProbabilityMeasure P] (hN : 0 < N) {init : Ω → (Fin N → Fin B → Fin d → V) × Ω}
    {μ : Fin B → Measure (Fin d → V)} (hi : DrawsInitial P init μ) {b : Fin B}
    {f : PCorr N B d V → Ω → XF} {h : (Fin d → V) → ℝ≥0∞} (hh : Measurable h) (hf : Est P b 0 f h) (lo : ℝ) :
    (∀ ω, ∃ r, f (initializeFilter lo (init ω).1) (init ω).2 = fin r) ∧
    ∫⁻ ω, ENNReal.ofReal (expOf (f (initializeFilter lo (init ω).1) (init ω).2)) ∂P = ∫⁻ x, h x ∂(μ b) := by
  obtain ⟨R, hR, h1, h2⟩ := hf
  obtain ⟨ν, hν, hm⟩ := hi
  have e : ∀ x ω, f (initializeFilter lo x) ω = fin (R ((x, fun _ _ => 0), ω)) :=
    fun x ω => h1 x (fun _ _ => 0) _ _ ω
  refine ⟨fun ω => ⟨_, e _ _⟩, ?_⟩
  simp only [e, expOf]
  have hG : Measurable fun q : (Fin N → Fin B → Fin d → V) × Ω =>
      ENNReal.ofReal (Real.exp (R ((q.1, fun _ _ => 0), q.2))) :=
    (Real.measurable_exp.comp (hR.comp
      ((measurable_fst.prodMk measurable_const).prodMk measurable_snd))).ennreal_ofReal
  have e2 := draws_lintegral hν hG
  dsimp only at e2
  rw [e2]
  simp only [h2]
  have hs : ∀ i, sm (fun _ _ => 0 : Fin N → Fin B → ℝ) b i = 1 / (N : ℝ) := sm_zero _ b fun _ => rfl
  simp only [hs]
  have hi : ∀ i, Measurable fun v : Fin N → Fin B → Fin d → V => h (v i b) :=
    fun i => hh.comp (by fun_prop)
  rw [lintegral_finsetSum _ fun i _ => (hi i).const_mul _]
  have e3 : ∀ i, ∫⁻ v, ENNReal.ofReal (1 / (N : ℝ)) * h (v i b) ∂ν
      = ENNReal.ofReal (1 / (N : ℝ)) * ∫⁻ x, h x ∂(μ b) := by
    intro i
    rw [lintegral_const_mul _ (hi i), ← hm i b, lintegral_map hh (by fun_prop)]
  simp only [e3, Finset.sum_const, Finset.card_univ, Fintype.card_fin, nsmul_eq_mul]
  rw [← mul_assoc, ← ENNReal.ofReal_natCast, ← ENNReal.ofReal_mul (Nat.cast_nonneg N),
    mul_one_div_cancel (by exact_mod_cast hN.ne'), ENNReal.ofReal_one, one_mul]

end

end Verif.Unbiased
