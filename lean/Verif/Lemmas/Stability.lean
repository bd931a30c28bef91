import Verif.Lemmas.Consistency
import Verif.Lemmas.Nested

/-!
# Lemmas for errors that do not grow with the number of observations
-/

namespace Verif.Unbiased

open Verif Verif.Spec XF MeasureTheory ProbabilityTheory
open scoped ENNReal

/-! ## Mixing -/

section
variable {X Y : Type} [MeasurableSpace X] {K : ℕ → Kernel X X} {g : Y → ℕ → X → ℝ≥0∞} {ε : ℝ≥0∞}

theorem lintegral_mix (hmix : ∀ t x x', ε • K t x' ≤ K t x) (t : ℕ) (x x' : X) (f : X → ℝ≥0∞) :
    ε * ∫⁻ z, f z ∂(K t x') ≤ ∫⁻ z, f z ∂(K t x) := by
  rw [← smul_eq_mul, ← lintegral_smul_measure]
  exact lintegral_mono' (hmix t x x') le_rfl

/-- Likelihoods from different states are comparable. -/
theorem lik_mix (hε : ε ≤ 1) (hmix : ∀ t x x', ε • K t x' ≤ K t x) :
    ∀ (os : List (Option Y)) (t : ℕ) (x x' : X), ε * lik K g os t x' ≤ lik K g os t x
  | [], _, _, _ => by simpa [lik] using hε
  | none :: _, t, x, x' => lintegral_mix hmix t x x' _
  | some _ :: _, t, x, x' => lintegral_mix hmix t x x' _

/-- Averages given the observations depend on the state at time `t` less and less. -/
theorem likAvg_split (hg : ∀ y t, Measurable (g y t)) (hε : ε ≤ 1) (hmix : ∀ t x x', ε • K t x' ≤ K t x)
    (hpos : ∀ os t x, lik K g os t x ≠ 0) (hfin : ∀ os t x, lik K g os t x ≠ ⊤)
    {φ : X → ℝ≥0∞} (hφ : Measurable φ) (hφ1 : ∀ x, φ x ≤ 1) : ∀ (os : List (Option Y)) (t : ℕ),
    ∃ (m : ℝ≥0∞) (f : X → ℝ≥0∞), m ≠ ⊤ ∧ Measurable f ∧ (∀ x, likAvg K g φ os t x = m * lik K g os t x + f x) ∧
      ∀ x, f x ≤ (1 - ε ^ 2) ^ os.length * lik K g os t x
  | [], t => ⟨0, φ, by simp, hφ, fun x => by simp [likAvg], fun x => by simpa [lik] using hφ1 x⟩
  | o :: os, t => by
    obtain ⟨m, f, hm, hf, h1, h2⟩ := likAvg_split hg hε hmix hpos hfin hφ hφ1 os (t + 1)
    -- the weight of a value of the next state
    obtain ⟨γ, hγ, hl, ha⟩ : ∃ γ : X → ℝ≥0∞, Measurable γ ∧
        (∀ x, lik K g (o :: os) t x = ∫⁻ x', γ x' * lik K g os (t + 1) x' ∂(K t x)) ∧
        ∀ x, likAvg K g φ (o :: os) t x = ∫⁻ x', γ x' * likAvg K g φ os (t + 1) x' ∂(K t x) := by
      cases o with
      | none => exact ⟨fun _ => 1, measurable_const, fun x => by simp [lik], fun x => by simp [likAvg]⟩
      | some y => exact ⟨g y (t + 1), hg y _, fun x => rfl, fun x => rfl⟩
    have hlm := measurable_lik K g hg os (t + 1)
    have hγf : Measurable fun x => γ x * f x := hγ.mul hf
    have hγl : Measurable fun x => γ x * lik K g os (t + 1) x := hγ.mul hlm
    let q : X → ℝ≥0∞ := fun x => ∫⁻ x', γ x' * f x' ∂(K t x)
    have hq : Measurable q := Measurable.lintegral_kernel hγf
    have hlm' := measurable_lik K g hg (o :: os) t
    have e1 : ∀ x, likAvg K g φ (o :: os) t x = m * lik K g (o :: os) t x + q x := by
      intro x
      rw [ha, hl]
      simp only [h1, mul_add]
      rw [lintegral_add_right _ hγf, ← lintegral_const_mul _ hγl]
      congr 1
      exact lintegral_congr fun x' => by ring
    have e2 : ∀ x, q x ≤ (1 - ε ^ 2) ^ os.length * lik K g (o :: os) t x := by
      intro x
      rw [hl, ← lintegral_const_mul _ hγl]
      refine lintegral_mono fun x' => ?_
      calc γ x' * f x' ≤ γ x' * ((1 - ε ^ 2) ^ os.length * lik K g os (t + 1) x') := mul_le_mul' le_rfl (h2 x')
        _ = _ := by ring
    let s : ℝ≥0∞ := ⨆ x, q x / lik K g (o :: os) t x
    have hs : s ≤ (1 - ε ^ 2) ^ os.length := iSup_le fun x => ENNReal.div_le_of_le_mul (e2 x)
    have hqs : ∀ x, q x ≤ s * lik K g (o :: os) t x := by
      intro x
      rw [← ENNReal.div_mul_cancel (a := lik K g (o :: os) t x) (b := q x) (hpos _ _ _) (hfin _ _ _)]
      exact mul_le_mul' (le_iSup (fun x => q x / lik K g (o :: os) t x) x) le_rfl
    have hlow : ∀ x, ε ^ 2 * s * lik K g (o :: os) t x ≤ q x := by
      intro x
      rw [ENNReal.mul_iSup, ENNReal.iSup_mul]
      refine iSup_le fun x' => ?_
      calc ε ^ 2 * (q x' / lik K g (o :: os) t x') * lik K g (o :: os) t x
          = ε * (q x' / lik K g (o :: os) t x') * (ε * lik K g (o :: os) t x) := by ring
        _ ≤ ε * (q x' / lik K g (o :: os) t x') * lik K g (o :: os) t x' :=
            mul_le_mul' le_rfl (lik_mix hε hmix (o :: os) t x' x)
        _ = ε * q x' := by rw [mul_assoc, ENNReal.div_mul_cancel (hpos _ _ _) (hfin _ _ _)]
        _ ≤ q x := lintegral_mix hmix t x x' _
    have hs1 : s ≠ ⊤ := ne_top_of_le_ne_top (ENNReal.pow_ne_top (by simp)) hs
    have hε2 : ε ^ 2 ≤ 1 := pow_le_one' hε 2
    have hε2' : ε ^ 2 ≠ ⊤ := ne_top_of_le_ne_top ENNReal.one_ne_top hε2
    refine ⟨m + ε ^ 2 * s, fun x => q x - ε ^ 2 * s * lik K g (o :: os) t x,
      ENNReal.add_ne_top.2 ⟨hm, ENNReal.mul_ne_top hε2' hs1⟩, hq.sub (hlm'.const_mul _), fun x => ?_, fun x => ?_⟩
    · rw [e1, add_mul, add_assoc, add_tsub_cancel_of_le (hlow x)]
    · rw [tsub_le_iff_right, List.length_cons, pow_succ]
      calc q x ≤ s * lik K g (o :: os) t x := hqs x
        _ = ((1 - ε ^ 2) + ε ^ 2) * s * lik K g (o :: os) t x := by rw [tsub_add_cancel_of_le hε2, one_mul]
        _ = s * (1 - ε ^ 2) * lik K g (o :: os) t x + ε ^ 2 * s * lik K g (o :: os) t x := by ring
        _ ≤ _ := by gcongr

end

/-! ## Ratios of estimates -/

section
variable {Ω : Type} [MeasurableSpace Ω] (P : Measure Ω) [IsProbabilityMeasure P]

/-- Mean squared error of the ratio of two estimates. -/
theorem ratio_mse {U₀ U₁ : Ω → ℝ≥0∞} (h₀ : Measurable U₀) (h₁ : Measurable U₁) {A₀ A₁ W κ D : ℝ≥0∞}
    (hU0 : ∀ ω, U₀ ω ≠ 0) (hUt : ∀ ω, U₀ ω ≠ ⊤) (hA0 : A₀ ≠ 0) (hAt : A₀ ≠ ⊤) (hD : D ≠ ⊤) (hle : ∀ ω, U₁ ω ≤ D * U₀ ω)
    (e₀ : ∫⁻ ω, U₀ ω ∂P = A₀) (e₁ : ∫⁻ ω, U₁ ω ∂P = A₁) (v₀ : ∫⁻ ω, U₀ ω ^ 2 ∂P ≤ A₀ ^ 2 + W)
    (v₁ : ∫⁻ ω, U₁ ω ^ 2 ∂P ≤ A₁ ^ 2 + D ^ 2 * W) (hW : W ≤ κ * A₀ ^ 2) :
    ∫⁻ ω, ENNReal.ofReal (((U₁ ω / U₀ ω).toReal - (A₁ / A₀).toReal) ^ 2) ∂P ≤ 4 * κ * D ^ 2 := by
  have hU1t : ∀ ω, U₁ ω ≠ ⊤ := fun ω => ne_top_of_le_ne_top (ENNReal.mul_ne_top hD (hUt ω)) (hle ω)
  have hA1 : A₁ ≤ D * A₀ := by
    rw [← e₀, ← e₁, ← lintegral_const_mul _ h₀]
    exact lintegral_mono hle
  have hA1t : A₁ ≠ ⊤ := ne_top_of_le_ne_top (ENNReal.mul_ne_top hD hAt) hA1
  have r₀ : ∀ ω, ENNReal.ofReal (U₀ ω).toReal = U₀ ω := fun ω => ENNReal.ofReal_toReal (hUt ω)
  have r₁ : ∀ ω, ENNReal.ofReal (U₁ ω).toReal = U₁ ω := fun ω => ENNReal.ofReal_toReal (hU1t ω)
  have q₀ := mse_of_moments P (u := fun ω => (U₀ ω).toReal) (L := A₀) (W := W) (fun ω => ENNReal.toReal_nonneg)
    (by simpa only [r₀] using h₀) hAt (by simpa only [r₀] using e₀) (by simpa only [r₀] using v₀)
  have q₁ := mse_of_moments P (u := fun ω => (U₁ ω).toReal) (L := A₁) (W := D ^ 2 * W) (fun ω => ENNReal.toReal_nonneg)
    (by simpa only [r₁] using h₁) hA1t (by simpa only [r₁] using e₁) (by simpa only [r₁] using v₁)
  have hl : 0 < A₀.toReal := ENNReal.toReal_pos hA0 hAt
  have hpt : ∀ ω, ENNReal.ofReal (((U₁ ω / U₀ ω).toReal - (A₁ / A₀).toReal) ^ 2) ≤ ENNReal.ofReal (2 / A₀.toReal ^ 2) *
      (ENNReal.ofReal (((U₁ ω).toReal - A₁.toReal) ^ 2) + D ^ 2 * ENNReal.ofReal (((U₀ ω).toReal - A₀.toReal) ^ 2)) := by
    intro ω
    conv_rhs => rw [← ENNReal.ofReal_toReal hD]
    rw [← ENNReal.ofReal_pow ENNReal.toReal_nonneg, ← ENNReal.ofReal_mul (by positivity),
      ← ENNReal.ofReal_add (sq_nonneg _) (by positivity), ← ENNReal.ofReal_mul (by positivity)]
    refine ENNReal.ofReal_le_ofReal ?_
    rw [ENNReal.toReal_div, ENNReal.toReal_div]
    have hu : 0 < (U₀ ω).toReal := ENNReal.toReal_pos (hU0 ω) (hUt ω)
    have hle' : (U₁ ω).toReal ≤ D.toReal * (U₀ ω).toReal := by
      rw [← ENNReal.toReal_mul]
      exact ENNReal.toReal_mono (ENNReal.mul_ne_top hD (hUt ω)) (hle ω)
    have hnn : 0 ≤ (U₁ ω).toReal := ENNReal.toReal_nonneg
    have hDn : 0 ≤ D.toReal := ENNReal.toReal_nonneg
    clear q₀ q₁ r₀ r₁
    generalize (U₁ ω).toReal = u₁ at hle' hnn ⊢
    generalize (U₀ ω).toReal = u₀ at hu hle' ⊢
    generalize A₀.toReal = l at hl ⊢
    generalize A₁.toReal = v
    generalize D.toReal = D' at hle' hDn ⊢
    have hr0 : 0 ≤ u₁ / u₀ := div_nonneg hnn hu.le
    have hr1 : u₁ / u₀ ≤ D' := (div_le_iff₀ hu).2 hle'
    have e1 : u₁ / u₀ - v / l = ((u₁ - v) - u₁ / u₀ * (u₀ - l)) / l := by field_simp; ring
    rw [e1, div_pow, div_mul_eq_mul_div 2]
    refine div_le_div_of_nonneg_right (c := l ^ 2) ?_ (pow_pos hl 2).le
    have e2 : (u₁ / u₀ * (u₀ - l)) ^ 2 ≤ D' ^ 2 * (u₀ - l) ^ 2 := by
      rw [mul_pow]
      exact mul_le_mul_of_nonneg_right (pow_le_pow_left₀ hr0 hr1 2) (sq_nonneg _)
    nlinarith [sq_nonneg ((u₁ - v) + u₁ / u₀ * (u₀ - l))]
  refine (lintegral_mono hpt).trans ?_
  have hm1 : Measurable fun ω => ENNReal.ofReal (((U₁ ω).toReal - A₁.toReal) ^ 2) :=
    ((h₁.ennreal_toReal.sub_const _).pow_const 2).ennreal_ofReal
  have hm0 : Measurable fun ω => ENNReal.ofReal (((U₀ ω).toReal - A₀.toReal) ^ 2) :=
    ((h₀.ennreal_toReal.sub_const _).pow_const 2).ennreal_ofReal
  rw [lintegral_const_mul' _ _ ENNReal.ofReal_ne_top, lintegral_add_left hm1, lintegral_const_mul _ hm0]
  calc ENNReal.ofReal (2 / A₀.toReal ^ 2) * ((∫⁻ ω, ENNReal.ofReal (((U₁ ω).toReal - A₁.toReal) ^ 2) ∂P)
        + D ^ 2 * ∫⁻ ω, ENNReal.ofReal (((U₀ ω).toReal - A₀.toReal) ^ 2) ∂P)
      ≤ ENNReal.ofReal (2 / A₀.toReal ^ 2) * (D ^ 2 * (κ * A₀ ^ 2) + D ^ 2 * (κ * A₀ ^ 2)) := by
        gcongr
        · exact q₁.trans (mul_le_mul' le_rfl hW)
        · exact q₀.trans hW
    _ = 2 * κ * D ^ 2 * (ENNReal.ofReal (2 / A₀.toReal ^ 2) * A₀ ^ 2) := by ring
    _ = 2 * κ * D ^ 2 * 2 := by
        congr 1
        conv_lhs => rw [← ENNReal.ofReal_toReal hAt]
        rw [ENNReal.toReal_ofReal hl.le, ← ENNReal.ofReal_pow hl.le, ← ENNReal.ofReal_mul (by positivity),
          div_mul_cancel₀ _ (by positivity), ENNReal.ofReal_ofNat]
    _ = 4 * κ * D ^ 2 := by ring

omit [IsProbabilityMeasure P] in
/-- Mean squares of sums. -/
theorem mse_add {a c : Ω → ℝ} (ha : Measurable a) {s l : ℝ} (hs : 0 < s) (hl : 0 < l)
    (h1 : ∫⁻ ω, ENNReal.ofReal (a ω ^ 2) ∂P ≤ ENNReal.ofReal (s ^ 2))
    (h2 : ∫⁻ ω, ENNReal.ofReal (c ω ^ 2) ∂P ≤ ENNReal.ofReal (l ^ 2)) :
    ∫⁻ ω, ENNReal.ofReal ((a ω + c ω) ^ 2) ∂P ≤ ENNReal.ofReal ((s + l) ^ 2) := by
  have hpt : ∀ ω, ENNReal.ofReal ((a ω + c ω) ^ 2) ≤ ENNReal.ofReal (1 + l / s) * ENNReal.ofReal (a ω ^ 2) +
      ENNReal.ofReal (1 + s / l) * ENNReal.ofReal (c ω ^ 2) := by
    intro ω
    rw [← ENNReal.ofReal_mul (by positivity), ← ENNReal.ofReal_mul (by positivity),
      ← ENNReal.ofReal_add (by positivity) (by positivity)]
    refine ENNReal.ofReal_le_ofReal ?_
    have e : (1 + l / s) * a ω ^ 2 + (1 + s / l) * c ω ^ 2 - (a ω + c ω) ^ 2 = (l * a ω - s * c ω) ^ 2 / (s * l) := by
      field_simp
      ring
    have : 0 ≤ (l * a ω - s * c ω) ^ 2 / (s * l) := by positivity
    linarith
  refine (lintegral_mono hpt).trans ?_
  rw [lintegral_add_left ((ha.pow_const 2).ennreal_ofReal.const_mul _), lintegral_const_mul' _ _ ENNReal.ofReal_ne_top,
    lintegral_const_mul' _ _ ENNReal.ofReal_ne_top]
  refine (add_le_add (mul_le_mul' le_rfl h1) (mul_le_mul' le_rfl h2)).trans ?_
  rw [← ENNReal.ofReal_mul (by positivity), ← ENNReal.ofReal_mul (by positivity),
    ← ENNReal.ofReal_add (by positivity) (by positivity)]
  refine ENNReal.ofReal_le_ofReal (le_of_eq ?_)
  field_simp
  ring

omit [IsProbabilityMeasure P] in
theorem mse_zero {a c : Ω → ℝ} (ha : Measurable a) (h1 : ∫⁻ ω, ENNReal.ofReal (a ω ^ 2) ∂P ≤ 0) {s : ℝ≥0∞}
    (h2 : ∫⁻ ω, ENNReal.ofReal (c ω ^ 2) ∂P ≤ s) : ∫⁻ ω, ENNReal.ofReal ((a ω + c ω) ^ 2) ∂P ≤ s := by
  have hm : Measurable fun ω => ENNReal.ofReal (a ω ^ 2) := (ha.pow_const 2).ennreal_ofReal
  have h3 := (lintegral_eq_zero_iff hm).1 (le_antisymm h1 zero_le)
  refine le_trans (le_of_eq (lintegral_congr_ae ?_)) h2
  filter_upwards [h3] with ω hω
  have h4 : a ω ^ 2 ≤ 0 := ENNReal.ofReal_eq_zero.1 hω
  have h5 : a ω = 0 := by
    have := le_antisymm h4 (sq_nonneg _)
    exact pow_eq_zero_iff (two_ne_zero) |>.1 this
  rw [h5, zero_add]

omit [IsProbabilityMeasure P] in
/-- The same with bounds that may be zero. -/
theorem mse_add₀ {a c : Ω → ℝ} (ha : Measurable a) (hc : Measurable c) {s l : ℝ} (hs : 0 ≤ s) (hl : 0 ≤ l)
    (h1 : ∫⁻ ω, ENNReal.ofReal (a ω ^ 2) ∂P ≤ ENNReal.ofReal (s ^ 2))
    (h2 : ∫⁻ ω, ENNReal.ofReal (c ω ^ 2) ∂P ≤ ENNReal.ofReal (l ^ 2)) :
    ∫⁻ ω, ENNReal.ofReal ((a ω + c ω) ^ 2) ∂P ≤ ENNReal.ofReal ((s + l) ^ 2) := by
  rcases hs.eq_or_lt with rfl | hs
  · rw [zero_add]
    exact mse_zero P ha (by simpa using h1) h2
  rcases hl.eq_or_lt with rfl | hl
  · rw [add_zero]
    simp only [add_comm (a _)]
    exact mse_zero P hc (by simpa using h2) h1
  exact mse_add P ha hs hl h1 h2

end

/-! ## One step of SISR -/

section
variable {N B d : ℕ} {V Y Ω : Type} [MeasurableSpace Ω] [MeasurableSpace V] (P : Measure Ω)

/-- The prediction of SISR as a map of values, log-weights and generator states. -/
theorem predict_map [IsProbabilityMeasure P] {M : ParticleModel N B d V Y Ω} (hN : 0 < N)
    (hr : IndependentResampler P M.resampler) (t : ℕ) : ∃ A : ZSt N B d V Ω → ZSt N B d V Ω, Measurable A ∧
      (∀ x w ll prev ω, ∃ idx, M.sisrPredict ⟨⟨x, t⟩, fun i b => fin (w i b), ll, prev⟩ ω =
        (⟨⟨(A ((x, w), ω)).1.1, t⟩, fun i b => fin ((A ((x, w), ω)).1.2 i b),
          fun i b => fin (sm (A ((x, w), ω)).1.2 b i), idx⟩, (A ((x, w), ω)).2)) ∧
      ∀ x w, ∃ ν, Draws P (fun ω => A ((x, w), ω)) ν := by
  classical
  let A : (Fin B → Bool) → ZSt N B d V Ω → ZSt N B d V Ω := fun m z =>
    if ∀ b, m b = false then z else
      ((selectX m z.1.1 (M.resampler (fun i j => fin (sm z.1.2 ((maskCols m).get j) i)) true z.2).1,
        selectW m z.1.2), (M.resampler (fun i j => fin (sm z.1.2 ((maskCols m).get j) i)) true z.2).2)
  have hA : ∀ m, Measurable (A m) := by
    intro m
    by_cases hm : ∀ b, m b = false
    · have : A m = id := by funext z; exact if_pos hm
      rw [this]; exact measurable_id
    · have hq : Measurable fun z : ZSt N B d V Ω =>
          M.resampler (fun i j => fin (sm z.1.2 ((maskCols m).get j) i)) true z.2 := by
        have h3 : Measurable fun z : ZSt N B d V Ω =>
            ((fun i j => sm z.1.2 ((maskCols m).get j) i : Fin N → Fin (maskCols m).length → ℝ), z.2) := by
          refine Measurable.prodMk ?_ measurable_snd
          rw [measurable_pi_iff]; intro i
          rw [measurable_pi_iff]; intro j
          exact (measurable_sm _ i).comp (measurable_snd.comp measurable_fst)
        exact (hr.measurable (maskCols m).length).comp h3
      have : A m = fun z =>
        ((selectX m z.1.1 (M.resampler (fun i j => fin (sm z.1.2 ((maskCols m).get j) i)) true z.2).1,
          selectW m z.1.2), (M.resampler (fun i j => fin (sm z.1.2 ((maskCols m).get j) i)) true z.2).2) := by
        funext z; exact if_neg hm
      rw [this]
      refine Measurable.prodMk (Measurable.prodMk ?_ ?_) (measurable_snd.comp hq)
      · exact (measurable_selectX m).comp
          ((measurable_fst.comp measurable_fst).prodMk (measurable_fst.comp hq))
      · exact (measurable_selectW m).comp (measurable_snd.comp measurable_fst)
  have hA2 : Measurable fun z : ZSt N B d V Ω => A (maskOf M.threshold z.1.2) z := by
    have h4 : Measurable fun q : (Fin B → Bool) × ZSt N B d V Ω =>
        A q.1 q.2 := measurable_from_prod_countable_right fun m => hA m
    exact h4.comp (((measurable_maskOf M.threshold).comp (measurable_snd.comp measurable_fst)).prodMk
      measurable_id)
  refine ⟨fun z => A (maskOf M.threshold z.1.2) z, hA2, fun x w ll prev ω => ?_, fun x w => ?_⟩
  · dsimp only
    by_cases hm : ∀ b, maskOf M.threshold w b = false
    · have e : A (maskOf M.threshold w) ((x, w), ω) = ((x, w), ω) := if_pos hm
      exact ⟨prev, by rw [sisrPredict_keep M hN x t w ll prev ω hm, e]⟩
    · obtain ⟨idx, hi⟩ := sisrPredict_select M hN x t w ll prev ω _ rfl hm
      have e : A (maskOf M.threshold w) ((x, w), ω) = _ := if_neg hm
      exact ⟨idx, by rw [hi, e]⟩
  · dsimp only
    by_cases hm : ∀ b, maskOf M.threshold w b = false
    · have e : (fun ω => A (maskOf M.threshold w) ((x, w), ω)) = fun ω => ((x, w), ω) := funext fun ω => if_pos hm
      rw [e]
      exact ⟨Measure.dirac (x, w), measurable_const.prodMk measurable_id, inferInstance, by rw [Measure.dirac_prod]⟩
    · have e : (fun ω => A (maskOf M.threshold w) ((x, w), ω)) = _ := funext fun ω => if_neg hm
      rw [e]
      obtain ⟨ν, hν, -⟩ := hr.draws (maskCols (maskOf M.threshold w)).length
        (fun i j => sm w ((maskCols (maskOf M.threshold w)).get j) i) fun j => sm_isProb w _ hN
      exact ⟨_, draws_map hν (g := fun a => (selectX (maskOf M.threshold w) x a, selectW (maskOf M.threshold w) w))
        (measurable_of_finite _)⟩

/-- One step of SISR. -/
noncomputable def stepO (M : ParticleModel N B d V Y Ω) (o : Option Y) (c : PCorr N B d V) (ω : Ω) : PCorr N B d V × Ω :=
  (FilterKind.sisr.ops M).applyO o ((FilterKind.sisr.ops M).predict c ω).1 ((FilterKind.sisr.ops M).predict c ω).2

theorem step_map [IsProbabilityMeasure P] {M : ParticleModel N B d V Y Ω} (hN : 0 < N) (hinc : M.kind.increment = 1)
    (hr : IndependentResampler P M.resampler) {K : Fin B → ℕ → Kernel (Fin d → V) (Fin d → V)}
    (hK : IndependentTransitions P M.propagateValues K) {logg : Fin B → Y → ℕ → (Fin d → V) → ℝ} {c : Y → ℝ}
    (hS : IndependentProposal P M.sampleValues K logg c) (o : Option Y) (t : ℕ) :
    ∃ A : ZSt N B d V Ω → ZSt N B d V Ω, Measurable A ∧
      (∀ x w ll prev ω, ∃ ll' prev', stepO M o ⟨⟨x, t⟩, fun i b => fin (w i b), ll, prev⟩ ω =
        (⟨⟨(A ((x, w), ω)).1.1, t + 1⟩, fun i b => fin ((A ((x, w), ω)).1.2 i b), ll', prev'⟩, (A ((x, w), ω)).2)) ∧
      ∀ x w, ∃ ν, Draws P (fun ω => A ((x, w), ω)) ν := by
  obtain ⟨A, hA, h1, h2⟩ := predict_map P hN hr t
  -- the second half of the step
  obtain ⟨C, hC, g1, g2⟩ : ∃ C : ZSt N B d V Ω → ZSt N B d V Ω, Measurable C ∧
      (∀ x w idx ω, ∃ ll' prev', (FilterKind.sisr.ops M).applyO o
          ⟨⟨x, t⟩, fun i b => fin (w i b), fun i b => fin (sm w b i), idx⟩ ω =
        (⟨⟨(C ((x, w), ω)).1.1, t + 1⟩, fun i b => fin ((C ((x, w), ω)).1.2 i b), ll', prev'⟩, (C ((x, w), ω)).2)) ∧
      ∀ x w, ∃ ν, Draws P (fun ω => C ((x, w), ω)) ν := by
    cases o with
    | none =>
      have h3 : Measurable fun z : ZSt N B d V Ω => M.propagateValues ⟨z.1.1, t⟩ z.2 :=
        (hK.measurable t).comp ((measurable_fst.comp measurable_fst).prodMk measurable_snd)
      refine ⟨fun z => (((M.propagateValues ⟨z.1.1, t⟩ z.2).1, z.1.2), (M.propagateValues ⟨z.1.1, t⟩ z.2).2),
        ((measurable_fst.comp h3).prodMk (measurable_snd.comp measurable_fst)).prodMk (measurable_snd.comp h3),
        fun x w idx ω => ⟨_, _, rfl⟩, fun x w => ?_⟩
      obtain ⟨ν, hν, -⟩ := hK.draws ⟨x, t⟩
      exact ⟨_, draws_map hν (g := fun v => (v, w)) (measurable_id.prodMk measurable_const)⟩
    | some y =>
      obtain ⟨S, hSm, hSe, -, hSν⟩ := hS.sample y t
      have hS1 : Measurable fun z : ZSt N B d V Ω => S (z.1.1, z.2) :=
        hSm.comp ((measurable_fst.comp measurable_fst).prodMk measurable_snd)
      have hadd : Measurable fun q : (Fin N → Fin B → ℝ) × (Fin N → Fin B → ℝ) =>
          (fun i b => q.2 i b + q.1 i b : Fin N → Fin B → ℝ) := by fun_prop
      refine ⟨fun z => (((S (z.1.1, z.2)).1.1, fun i b => (S (z.1.1, z.2)).1.2 i b + z.1.2 i b), (S (z.1.1, z.2)).2),
        ?_, fun x w idx ω => ?_, fun x w => ?_⟩
      · have hw : Measurable fun z : ZSt N B d V Ω => (z.1.2, (S (z.1.1, z.2)).1.2) :=
          (measurable_snd.comp measurable_fst).prodMk (measurable_snd.comp (measurable_fst.comp hS1))
        exact ((measurable_fst.comp (measurable_fst.comp hS1)).prodMk (hadd.comp hw)).prodMk (measurable_snd.comp hS1)
      · refine ⟨logLikelihood (fun i b => fin ((S (x, ω)).1.2 i b)) (some fun i b => fin (sm w b i)), idx, ?_⟩
        set p : PPred N B d V := ⟨⟨x, t⟩, fun i b => fin (w i b), fun i b => fin (sm w b i), idx⟩ with hp
        have hs := hSe p ω rfl
        show M.sisrCorrect y p ω = _
        unfold ParticleModel.sisrCorrect ParticleModel.sampleAndWeight
        rw [hs, hinc]
        rfl
      · obtain ⟨ν, hν, -⟩ := hSν x
        exact ⟨_, draws_map hν (g := fun q : (Fin N → Fin B → Fin d → V) × (Fin N → Fin B → ℝ) =>
          (q.1, fun i b => q.2 i b + w i b)) (measurable_fst.prodMk (by fun_prop))⟩
  refine ⟨fun z => C (A z), hC.comp hA, fun x w ll prev ω => ?_, fun x w => ?_⟩
  · obtain ⟨idx, hi⟩ := h1 x w ll prev ω
    obtain ⟨ll', prev', hl⟩ := g1 (A ((x, w), ω)).1.1 (A ((x, w), ω)).1.2 idx (A ((x, w), ω)).2
    refine ⟨ll', prev', ?_⟩
    show (FilterKind.sisr.ops M).applyO o (M.sisrPredict _ ω).1 (M.sisrPredict _ ω).2 = _
    rw [hi]
    exact hl
  · obtain ⟨ν, hν⟩ := h2 x w
    choose κ hκ using fun a : (Fin N → Fin B → Fin d → V) × (Fin N → Fin B → ℝ) => g2 a.1 a.2
    obtain ⟨ν', hν', -⟩ := draws_comp hν (g := fun a ω => C (a, ω)) hC hκ (h := Prod.snd) measurable_snd
    exact ⟨ν', hν'⟩

/-- No step. -/
theorem estV_nil [IsProbabilityMeasure P] {M : ParticleModel N B d V Y Ω} {b : Fin B} {ψ : (Fin d → V) → ℝ≥0∞}
    (hψ : Measurable ψ) (t : ℕ) :
    EstV P b t ((FilterKind.sisr.ops M).runO (fun c => c.ll b) []) (stateAvg M.lo b ψ) ψ 0 := by
  refine ⟨fun z => ∑ i, ENNReal.ofReal (sm z.1.2 b i) * ψ (z.1.1 i b), ?_, fun x w ll prev ω => ⟨0, rfl, ⟨w, rfl⟩, ?_⟩, fun x w => ?_⟩
  · refine Finset.measurable_sum _ fun i _ => ?_
    have h1 : Measurable fun z : ZSt N B d V Ω => sm z.1.2 b i :=
      (measurable_sm b i).comp (measurable_snd.comp measurable_fst)
    have h2 : Measurable fun z : ZSt N B d V Ω => z.1.1 i b := by fun_prop
    exact h1.ennreal_ofReal.mul (hψ.comp h2)
  · rw [Real.exp_zero, ENNReal.ofReal_one, one_mul]
    rfl
  · simp only [lintegral_const, measure_univ, mul_one]
    exact ⟨trivial, le_self_add⟩

/-- Estimates after one step. -/
theorem estV_step [IsProbabilityMeasure P] (hN : 0 < N) (M : ParticleModel N B d V Y Ω)
    (hinc : M.kind.increment = 1) (hr : IndependentResampler P M.resampler) (hthr : 0 < M.threshold)
    {K : Fin B → ℕ → Kernel (Fin d → V) (Fin d → V)} (hK : IndependentTransitions P M.propagateValues K)
    {logg : Fin B → Y → ℕ → (Fin d → V) → ℝ} (hlogg : ∀ b y t, Measurable (logg b y t)) {c : Y → ℝ}
    (hS : IndependentProposal P M.sampleValues K logg c) (b : Fin B) {δ : ℝ≥0∞}
    (hδN : ENNReal.ofReal (1 / N) ≤ δ) (hδt : ENNReal.ofReal (1 / M.threshold) ≤ δ)
    {ψ : (Fin d → V) → ℝ≥0∞} (hψ : Measurable ψ) {H : ℝ≥0∞} (hψH : ∀ x, ψ x ≤ H)
    (o : Option Y) (t : ℕ) :
    EstV P b t ((FilterKind.sisr.ops M).runO (fun c => c.ll b) [o]) (stateAvg M.lo b ψ)
      (likAvg (K b) (fun y t x => ENNReal.ofReal (Real.exp (logg b y t x))) ψ [o] t)
      (2 * (ENNReal.ofReal (boundOf c [o]) * H) ^ 2 * δ) := by
  have h0 := estV_nil P (M := M) (b := b) hψ (t + 1)
  have hle : ∀ x, likAvg (K b) (fun y t x => ENNReal.ofReal (Real.exp (logg b y t x))) ψ [o] t x
      ≤ ENNReal.ofReal (boundOf c [o]) * H := by
    intro x
    have h1 := likAvg_le P hN hK hlogg hS b (φ := fun _ => 1) measurable_const (fun _ => le_rfl) [o] t x
    refine le_trans ?_ (mul_le_mul' h1 le_rfl)
    cases o with
    | none =>
      simp only [likAvg]
      rw [← lintegral_mul_const _ measurable_const]
      exact lintegral_mono fun x' => by rw [one_mul]; exact hψH x'
    | some y =>
      simp only [likAvg, mul_one]
      have hm : Measurable fun x' => ENNReal.ofReal (Real.exp (logg b y (t + 1) x')) :=
        (Real.measurable_exp.comp (hlogg b y (t + 1))).ennreal_ofReal
      rw [← lintegral_mul_const _ hm]
      exact lintegral_mono fun x' => mul_le_mul' le_rfl (hψH x')
  cases o with
  | none =>
    have h2 := estV_sisrPredict P hN hr hthr hδN hδt hle (estV_createState P hK (δ := δ) hψ hψH h0)
    have e : 2 * (ENNReal.ofReal (boundOf c [none]) * H) ^ 2 * δ
        = 0 + H ^ 2 * δ + (ENNReal.ofReal (boundOf c [none]) * H) ^ 2 * δ := by
      simp only [boundOf, ENNReal.ofReal_one]
      ring
    rw [e]
    exact h2
  | some y =>
    have h2 := estV_sisrPredict P hN hr hthr hδN hδt hle (estV_sisrCorrect P hinc hS hN y (δ := δ) hψ hψH h0)
    have e : 2 * (ENNReal.ofReal (boundOf c [some y]) * H) ^ 2 * δ
        = ENNReal.ofReal (Real.exp (c y)) ^ 2 * 0 + (ENNReal.ofReal (Real.exp (c y)) * H) ^ 2 * δ
          + (ENNReal.ofReal (boundOf c [some y]) * H) ^ 2 * δ := by
      simp only [boundOf, mul_one]
      ring
    rw [e]
    exact h2

/-- Average over the particles. -/
noncomputable def avgE (b : Fin B) (ψ : (Fin d → V) → ℝ≥0∞) (z : (Fin N → Fin B → Fin d → V) × (Fin N → Fin B → ℝ)) : ℝ≥0∞ :=
  ∑ i, ENNReal.ofReal (sm z.2 b i) * ψ (z.1 i b)

theorem measurable_avgE (b : Fin B) {ψ : (Fin d → V) → ℝ≥0∞} (hψ : Measurable ψ) :
    Measurable (avgE (N := N) b ψ) := by
  refine Finset.measurable_sum _ fun i _ => ?_
  have h1 : Measurable fun z : (Fin N → Fin B → Fin d → V) × (Fin N → Fin B → ℝ) => sm z.2 b i :=
    (measurable_sm b i).comp measurable_snd
  have h2 : Measurable fun z : (Fin N → Fin B → Fin d → V) × (Fin N → Fin B → ℝ) => z.1 i b := by fun_prop
  exact h1.ennreal_ofReal.mul (hψ.comp h2)

omit [MeasurableSpace V] in
theorem avgE_mono (b : Fin B) {ψ χ : (Fin d → V) → ℝ≥0∞} (h : ∀ x, ψ x ≤ χ x)
    (z : (Fin N → Fin B → Fin d → V) × (Fin N → Fin B → ℝ)) : avgE b ψ z ≤ avgE b χ z :=
  Finset.sum_le_sum fun i _ => mul_le_mul' le_rfl (h _)

omit [MeasurableSpace V] in
theorem avgE_const (hN : 0 < N) (b : Fin B) (C : ℝ≥0∞) (z : (Fin N → Fin B → Fin d → V) × (Fin N → Fin B → ℝ)) :
    avgE b (fun _ => C) z = C := by
  unfold avgE
  rw [← Finset.sum_mul, ← ENNReal.ofReal_sum_of_nonneg fun i _ => sm_nonneg z.2 b i, (sm_isProb z.2 b hN).2,
    ENNReal.ofReal_one, one_mul]

omit [MeasurableSpace V] in
theorem avgE_mul (b : Fin B) (C : ℝ≥0∞) (ψ : (Fin d → V) → ℝ≥0∞) (z : (Fin N → Fin B → Fin d → V) × (Fin N → Fin B → ℝ)) :
    avgE b (fun x => C * ψ x) z = C * avgE b ψ z := by
  unfold avgE
  rw [Finset.mul_sum]
  exact Finset.sum_congr rfl fun i _ => by ring

omit [MeasurableSpace V] in
theorem avgE_add (b : Fin B) (ψ χ : (Fin d → V) → ℝ≥0∞) (z : (Fin N → Fin B → Fin d → V) × (Fin N → Fin B → ℝ)) :
    avgE b (fun x => ψ x + χ x) z = avgE b ψ z + avgE b χ z := by
  unfold avgE
  rw [← Finset.sum_add_distrib]
  exact Finset.sum_congr rfl fun i _ => by ring

omit [MeasurableSpace V] in
theorem avgE_ne_zero (hN : 0 < N) (b : Fin B) {ψ : (Fin d → V) → ℝ≥0∞} (h : ∀ x, ψ x ≠ 0)
    (z : (Fin N → Fin B → Fin d → V) × (Fin N → Fin B → ℝ)) : avgE b ψ z ≠ 0 := by
  intro h0
  have := (Finset.sum_eq_zero_iff.1 h0) ⟨0, hN⟩ (Finset.mem_univ _)
  rcases mul_eq_zero.1 this with h1 | h1
  · exact absurd (ENNReal.ofReal_eq_zero.1 h1) (not_le.2 (sm_pos z.2 b _))
  · exact h _ h1

omit [MeasurableSpace V] in
theorem avgE_ne_top (b : Fin B) {ψ : (Fin d → V) → ℝ≥0∞} (h : ∀ x, ψ x ≠ ⊤)
    (z : (Fin N → Fin B → Fin d → V) × (Fin N → Fin B → ℝ)) : avgE b ψ z ≠ ⊤ :=
  ENNReal.sum_ne_top.2 fun _ _ => ENNReal.mul_ne_top ENNReal.ofReal_ne_top (h _)

omit [MeasurableSpace V] in
/-- The error of one random choice of particles. -/
theorem local_mse [IsProbabilityMeasure P] (hN : 0 < N) (b : Fin B)
    {Z : Ω → (Fin N → Fin B → Fin d → V) × (Fin N → Fin B → ℝ)} {e : Ω → ℝ≥0∞} (he : ∀ ω, e ω ≠ 0) (he' : ∀ ω, e ω ≠ ⊤)
    {h h₁ f : (Fin d → V) → ℝ≥0∞} {m D : ℝ≥0∞} (hm : m ≠ ⊤) (hD : D ≠ ⊤) (hs : ∀ x, h₁ x = m * h x + f x)
    (hf : ∀ x, f x ≤ D * h x) (h0 : ∀ x, h x ≠ 0) (ht : ∀ x, h x ≠ ⊤) {U₀ U₁ : Ω → ℝ≥0∞} (m₀ : Measurable U₀)
    (m₁ : Measurable U₁) (hU₀ : ∀ ω, e ω * avgE b h (Z ω) = U₀ ω) (hU₁ : ∀ ω, e ω * avgE b f (Z ω) = U₁ ω)
    {A₀ A₁ W κ : ℝ≥0∞} (hA0 : A₀ ≠ 0) (hAt : A₀ ≠ ⊤)
    (e₀ : ∫⁻ ω, U₀ ω ∂P = A₀) (e₁ : ∫⁻ ω, U₁ ω ∂P = A₁) (v₀ : ∫⁻ ω, U₀ ω ^ 2 ∂P ≤ A₀ ^ 2 + W)
    (v₁ : ∫⁻ ω, U₁ ω ^ 2 ∂P ≤ A₁ ^ 2 + D ^ 2 * W) (hW : W ≤ κ * A₀ ^ 2) :
    ∫⁻ ω, ENNReal.ofReal (((avgE b h₁ (Z ω) / avgE b h (Z ω)).toReal - ((m * A₀ + A₁) / A₀).toReal) ^ 2) ∂P
      ≤ 4 * κ * D ^ 2 := by
  have hle : ∀ ω, U₁ ω ≤ D * U₀ ω := by
    intro ω
    rw [← hU₀, ← hU₁, mul_left_comm, ← avgE_mul b D h]
    exact mul_le_mul' le_rfl (avgE_mono b hf _)
  have key := ratio_mse P m₀ m₁ (fun ω => by rw [← hU₀]; exact mul_ne_zero (he ω) (avgE_ne_zero hN b h0 _))
    (fun ω => by rw [← hU₀]; exact ENNReal.mul_ne_top (he' ω) (avgE_ne_top b ht _)) hA0 hAt hD hle e₀ e₁ v₀ v₁ hW
  refine le_trans (le_of_eq (lintegral_congr fun ω => ?_)) key
  have hA1 : A₁ ≤ D * A₀ := by
    rw [← e₀, ← e₁, ← lintegral_const_mul _ m₀]
    exact lintegral_mono hle
  have split : ∀ {a u : ℝ≥0∞}, a ≠ 0 → a ≠ ⊤ → u ≤ D * a → ((m * a + u) / a).toReal = m.toReal + (u / a).toReal := by
    intro a u h0 ht hu
    rw [ENNReal.add_div, ENNReal.mul_div_cancel_right h0 ht, ENNReal.toReal_add hm]
    exact (ENNReal.div_lt_top (ne_top_of_le_ne_top (ENNReal.mul_ne_top hD ht) hu) h0).ne
  have hz0 := avgE_ne_zero hN b h0 (Z ω)
  have hzt := avgE_ne_top b ht (Z ω)
  have e1 : avgE b h₁ (Z ω) = m * avgE b h (Z ω) + avgE b f (Z ω) := by
    rw [← avgE_mul, ← avgE_add]
    exact congrArg (fun q => avgE b q (Z ω)) (funext hs)
  have e2 : avgE b f (Z ω) ≤ D * avgE b h (Z ω) := by
    rw [← avgE_mul]
    exact avgE_mono b hf _
  rw [e1, split hz0 hzt e2, split hA0 hAt hA1, ← hU₀, ← hU₁, ENNReal.mul_div_mul_left _ _ (he ω) (he' ω)]
  ring_nf

/-- The average of `φ` over the last state given the observations still to come, as estimated by the particles. -/
noncomputable def aimed (K : ℕ → Kernel (Fin d → V) (Fin d → V)) (g : Y → ℕ → (Fin d → V) → ℝ≥0∞) (b : Fin B)
    (φ : (Fin d → V) → ℝ≥0∞) (os : List (Option Y)) (t : ℕ)
    (z : (Fin N → Fin B → Fin d → V) × (Fin N → Fin B → ℝ)) : ℝ :=
  (avgE b (likAvg K g φ os t) z / avgE b (lik K g os t) z).toReal

section
variable [IsProbabilityMeasure P] (hN : 0 < N) {M : ParticleModel N B d V Y Ω}
    (hinc : M.kind.increment = 1) (hr : IndependentResampler P M.resampler) (hthr : 0 < M.threshold)
    {K : Fin B → ℕ → Kernel (Fin d → V) (Fin d → V)} (hK : IndependentTransitions P M.propagateValues K)
    {logg : Fin B → Y → ℕ → (Fin d → V) → ℝ} (hlogg : ∀ b y t, Measurable (logg b y t)) {c : Y → ℝ}
    (hS : IndependentProposal P M.sampleValues K logg c) (b : Fin B) {δ : ℝ≥0∞}
    (hδN : ENNReal.ofReal (1 / N) ≤ δ) (hδt : ENNReal.ofReal (1 / M.threshold) ≤ δ)
    {φ : (Fin d → V) → ℝ≥0∞} (hφ : Measurable φ) (hφ1 : ∀ x, φ x ≤ 1) {ε R : ℝ≥0∞} (hε0 : ε ≠ 0) (hε1 : ε ≤ 1)
    (hmix : ∀ t x x', ε • K b t x' ≤ K b t x)

include hN hK hlogg hS hε0 hε1 hmix hφ hφ1 in
/-- What is needed of the densities of the observations still to come. -/
theorem split_facts (os : List (Option Y)) (t : ℕ) :
    ∃ (m : ℝ≥0∞) (f : (Fin d → V) → ℝ≥0∞) (H : ℝ≥0∞), m ≠ ⊤ ∧ Measurable f ∧
      (∀ x, likAvg (K b) (fun y t x => ENNReal.ofReal (Real.exp (logg b y t x))) φ os t x
        = m * lik (K b) (fun y t x => ENNReal.ofReal (Real.exp (logg b y t x))) os t x + f x) ∧
      (∀ x, f x ≤ (1 - ε ^ 2) ^ os.length * lik (K b) (fun y t x => ENNReal.ofReal (Real.exp (logg b y t x))) os t x) ∧
      (∀ x, lik (K b) (fun y t x => ENNReal.ofReal (Real.exp (logg b y t x))) os t x ≠ 0) ∧
      (∀ x, lik (K b) (fun y t x => ENNReal.ofReal (Real.exp (logg b y t x))) os t x ≠ ⊤) ∧
      (∀ x, lik (K b) (fun y t x => ENNReal.ofReal (Real.exp (logg b y t x))) os t x ≤ H) ∧
      ∀ x, ε * H ≤ lik (K b) (fun y t x => ENNReal.ofReal (Real.exp (logg b y t x))) os t x := by
  have hg : ∀ (y : Y) (t : ℕ), Measurable fun x => ENNReal.ofReal (Real.exp (logg b y t x)) :=
    fun y t => (Real.measurable_exp.comp (hlogg b y t)).ennreal_ofReal
  have hpos : ∀ os t x, lik (K b) (fun y t x => ENNReal.ofReal (Real.exp (logg b y t x))) os t x ≠ 0 :=
    fun os t x => (lik_pos P hN hK hlogg b os t x).ne'
  have hfin : ∀ os t x, lik (K b) (fun y t x => ENNReal.ofReal (Real.exp (logg b y t x))) os t x ≠ ⊤ := by
    intro os t x
    have h1 := likAvg_le P hN hK hlogg hS b (φ := fun _ => 1) measurable_const (fun _ => le_rfl) os t x
    rw [likAvg_one] at h1
    exact ne_top_of_le_ne_top ENNReal.ofReal_ne_top h1
  obtain ⟨m, f, hm, hf, h1, h2⟩ := likAvg_split (g := fun y t x => ENNReal.ofReal (Real.exp (logg b y t x))) hg hε1 hmix
    hpos hfin hφ hφ1 os t
  refine ⟨m, f, ⨆ x, lik (K b) (fun y t x => ENNReal.ofReal (Real.exp (logg b y t x))) os t x, hm, hf, h1, h2, hpos os t,
    hfin os t, fun x => le_iSup (fun x => lik (K b) (fun y t x => ENNReal.ofReal (Real.exp (logg b y t x))) os t x) x,
    fun x => ?_⟩
  rw [ENNReal.mul_iSup]
  exact iSup_le fun x' => lik_mix hε1 hmix os t x x'

include hN hinc hr hthr hK hlogg hS hδN hδt hφ hφ1 hε0 hε1 hmix in
/-- The error of one step. -/
theorem step_mse (o : Option Y) (os : List (Option Y)) (t : ℕ)
    (hR : ∀ x, ENNReal.ofReal (boundOf c [o])
      ≤ R * lik (K b) (fun y t x => ENNReal.ofReal (Real.exp (logg b y t x))) [o] t x)
    {A : ZSt N B d V Ω → ZSt N B d V Ω}
    (hA : ∀ x w ll prev ω, ∃ ll' prev', stepO M o ⟨⟨x, t⟩, fun i b => fin (w i b), ll, prev⟩ ω =
        (⟨⟨(A ((x, w), ω)).1.1, t + 1⟩, fun i b => fin ((A ((x, w), ω)).1.2 i b), ll', prev'⟩, (A ((x, w), ω)).2))
    (z : (Fin N → Fin B → Fin d → V) × (Fin N → Fin B → ℝ)) :
    ∫⁻ ω, ENNReal.ofReal ((aimed (K b) (fun y t x => ENNReal.ofReal (Real.exp (logg b y t x))) b φ os (t + 1) (A (z, ω)).1
        - aimed (K b) (fun y t x => ENNReal.ofReal (Real.exp (logg b y t x))) b φ (o :: os) t z) ^ 2) ∂P
      ≤ 4 * (2 * δ * (R / ε) ^ 2) * ((1 - ε ^ 2) ^ os.length) ^ 2 := by
  have hg : ∀ (y : Y) (t : ℕ), Measurable fun x => ENNReal.ofReal (Real.exp (logg b y t x)) :=
    fun y t => (Real.measurable_exp.comp (hlogg b y t)).ennreal_ofReal
  obtain ⟨m, f, H, hm, hf, h1, h2, h3, h4, h5, h6⟩ := split_facts P hN hK hlogg hS b hφ hφ1 hε0 hε1 hmix os (t + 1)
  obtain ⟨-, -, -, -, -, -, -, g3, g4, -, -⟩ := split_facts P hN hK hlogg hS b hφ hφ1 hε0 hε1 hmix (o :: os) t
  have hεt : ε ≠ ⊤ := ne_top_of_le_ne_top ENNReal.one_ne_top hε1
  have hD : (1 - ε ^ 2) ^ os.length ≠ ⊤ := ENNReal.pow_ne_top (ne_top_of_le_ne_top ENNReal.one_ne_top tsub_le_self)
  obtain ⟨x, w⟩ := z
  have hm0 := measurable_lik (K b) (fun y t x => ENNReal.ofReal (Real.exp (logg b y t x))) hg os (t + 1)
  obtain ⟨U₀, hU₀, a₀, b₀⟩ := estV_step P hN M hinc hr hthr hK hlogg hS b hδN hδt hm0 h5 o t
  obtain ⟨U₁, hU₁, a₁, b₁⟩ := estV_step P hN M hinc hr hthr hK hlogg hS b hδN hδt hf
    (fun x => (h2 x).trans (mul_le_mul' le_rfl (h5 x))) o t
  have el : likAvg (K b) (fun y t x => ENNReal.ofReal (Real.exp (logg b y t x)))
      (lik (K b) (fun y t x => ENNReal.ofReal (Real.exp (logg b y t x))) os (t + 1)) [o] t
      = lik (K b) (fun y t x => ENNReal.ofReal (Real.exp (logg b y t x))) (o :: os) t := by
    cases o <;> rfl
  have ea : ∀ x, likAvg (K b) (fun y t x => ENNReal.ofReal (Real.exp (logg b y t x))) φ (o :: os) t x
      = m * lik (K b) (fun y t x => ENNReal.ofReal (Real.exp (logg b y t x))) (o :: os) t x
        + likAvg (K b) (fun y t x => ENNReal.ofReal (Real.exp (logg b y t x))) f [o] t x := by
    intro x
    cases o with
    | none =>
      simp only [likAvg, lik]
      rw [← lintegral_const_mul _ hm0, ← lintegral_add_right _ hf]
      exact lintegral_congr fun x' => h1 x'
    | some y =>
      simp only [likAvg, lik]
      have q1 : Measurable fun x' => ENNReal.ofReal (Real.exp (logg b y (t + 1) x')) *
          lik (K b) (fun y t x => ENNReal.ofReal (Real.exp (logg b y t x))) os (t + 1) x' := (hg y (t + 1)).mul hm0
      have q2 : Measurable fun x' => ENNReal.ofReal (Real.exp (logg b y (t + 1) x')) * f x' := (hg y (t + 1)).mul hf
      rw [← lintegral_const_mul _ q1, ← lintegral_add_right _ q2]
      exact lintegral_congr fun x' => by rw [h1 x']; ring
  have low : ∀ x, ε * H * lik (K b) (fun y t x => ENNReal.ofReal (Real.exp (logg b y t x))) [o] t x
      ≤ lik (K b) (fun y t x => ENNReal.ofReal (Real.exp (logg b y t x))) (o :: os) t x := by
    intro x
    cases o with
    | none =>
      simp only [lik]
      rw [← lintegral_const_mul _ measurable_const]
      exact lintegral_mono fun x' => by rw [mul_one]; exact h6 x'
    | some y =>
      simp only [lik, mul_one]
      rw [← lintegral_const_mul _ (hg y (t + 1))]
      exact lintegral_mono fun x' => by rw [mul_comm]; exact mul_le_mul' le_rfl (h6 x')
  rw [el] at b₀
  choose r₀ p₀ q₀ s₀ using a₀
  choose r₁ p₁ q₁ s₁ using a₁
  have ha := fun ω => hA x w (fun _ => fin 0) (fun i _ => i) ω
  choose l' v' hA' using ha
  have hrun : ∀ ω, (FilterKind.sisr.ops M).runO (fun c => c.ll b) [o] ⟨⟨x, t⟩, fun i b => fin (w i b), fun _ => fin 0, fun i _ => i⟩ ω
      = (((stepO M o ⟨⟨x, t⟩, fun i b => fin (w i b), fun _ => fin 0, fun i _ => i⟩ ω).1).ll b + fin 0,
        (stepO M o ⟨⟨x, t⟩, fun i b => fin (w i b), fun _ => fin 0, fun i _ => i⟩ ω).1) := fun ω => rfl
  have hrr : ∀ ω, r₁ x w (fun _ => fin 0) (fun i _ => i) ω = r₀ x w (fun _ => fin 0) (fun i _ => i) ω := fun ω =>
    XF.fin.inj ((p₁ x w _ _ ω).symm.trans (p₀ x w _ _ ω))
  have t₀ : ∀ ω, ENNReal.ofReal (Real.exp (r₀ x w (fun _ => fin 0) (fun i _ => i) ω))
      * avgE b (lik (K b) (fun y t x => ENNReal.ofReal (Real.exp (logg b y t x))) os (t + 1)) (A ((x, w), ω)).1
      = U₀ ((x, w), ω) := by
    intro ω
    have := s₀ x w (fun _ => fin 0) (fun i _ => i) ω
    rw [hrun, hA'] at this
    exact this
  have t₁ : ∀ ω, ENNReal.ofReal (Real.exp (r₀ x w (fun _ => fin 0) (fun i _ => i) ω))
      * avgE b f (A ((x, w), ω)).1 = U₁ ((x, w), ω) := by
    intro ω
    have := s₁ x w (fun _ => fin 0) (fun i _ => i) ω
    rw [hrun, hA', hrr] at this
    exact this
  have hz : Measurable fun ω : Ω => ((x, w), ω) := measurable_const.prodMk measurable_id
  have key := local_mse P hN b (Z := fun ω => (A ((x, w), ω)).1)
    (e := fun ω => ENNReal.ofReal (Real.exp (r₀ x w (fun _ => fin 0) (fun i _ => i) ω)))
    (fun ω => (ENNReal.ofReal_pos.2 (Real.exp_pos _)).ne') (fun ω => ENNReal.ofReal_ne_top) hm hD h1 h2 h3 h4
    (hU₀.comp hz) (hU₁.comp hz) t₀ t₁ (A₀ := avgE b (lik (K b) (fun y t x => ENNReal.ofReal (Real.exp (logg b y t x))) (o :: os) t) (x, w))
    (A₁ := avgE b (likAvg (K b) (fun y t x => ENNReal.ofReal (Real.exp (logg b y t x))) f [o] t) (x, w))
    (W := 2 * (ENNReal.ofReal (boundOf c [o]) * H) ^ 2 * δ) (κ := 2 * δ * (R / ε) ^ 2)
    (avgE_ne_zero hN b g3 _) (avgE_ne_top b g4 _) (b₀ x w).1 (b₁ x w).1 (b₀ x w).2
    ((b₁ x w).2.trans (le_of_eq (by unfold avgE; ring))) ?_
  · unfold aimed
    have e1 : avgE b (likAvg (K b) (fun y t x => ENNReal.ofReal (Real.exp (logg b y t x))) φ (o :: os) t) (x, w)
        = m * avgE b (lik (K b) (fun y t x => ENNReal.ofReal (Real.exp (logg b y t x))) (o :: os) t) (x, w)
          + avgE b (likAvg (K b) (fun y t x => ENNReal.ofReal (Real.exp (logg b y t x))) f [o] t) (x, w) := by
      rw [← avgE_mul, ← avgE_add]
      exact congrArg (fun q => avgE b q (x, w)) (funext ea)
    rw [e1]
    exact key
  · have e2 : ENNReal.ofReal (boundOf c [o]) * H
        ≤ R / ε * avgE b (lik (K b) (fun y t x => ENNReal.ofReal (Real.exp (logg b y t x))) (o :: os) t) (x, w) := by
      rw [div_eq_mul_inv, mul_right_comm, ← div_eq_mul_inv, ENNReal.le_div_iff_mul_le (Or.inl hε0) (Or.inl hεt),
        ← avgE_mul, ← avgE_const hN b (ENNReal.ofReal (boundOf c [o]) * H * ε) (x, w)]
      refine avgE_mono b (fun x => ?_) _
      calc ENNReal.ofReal (boundOf c [o]) * H * ε
          ≤ R * lik (K b) (fun y t x => ENNReal.ofReal (Real.exp (logg b y t x))) [o] t x * H * ε := by gcongr; exact hR x
        _ = R * (ε * H * lik (K b) (fun y t x => ENNReal.ofReal (Real.exp (logg b y t x))) [o] t x) := by ring
        _ ≤ _ := mul_le_mul' le_rfl (low x)
    calc 2 * (ENNReal.ofReal (boundOf c [o]) * H) ^ 2 * δ
        ≤ 2 * (R / ε * avgE b (lik (K b) (fun y t x => ENNReal.ofReal (Real.exp (logg b y t x))) (o :: os) t) (x, w)) ^ 2 * δ := by
          gcongr
      _ = _ := by ring

theorem measurable_aimed {K : ℕ → Kernel (Fin d → V) (Fin d → V)} {g : Y → ℕ → (Fin d → V) → ℝ≥0∞}
    (hg : ∀ y t, Measurable (g y t)) (b : Fin B) {φ : (Fin d → V) → ℝ≥0∞} (hφ : Measurable φ) (os : List (Option Y))
    (t : ℕ) : Measurable (aimed (N := N) K g b φ os t) :=
  ((measurable_avgE b (measurable_likAvg K g hg hφ os t)).div (measurable_avgE b (measurable_lik K g hg os t))).ennreal_toReal

include hN hinc hr hthr hK hlogg hS hδN hδt hφ hφ1 hε0 hε1 hmix in
/-- The error of several steps. -/
theorem run_mse {a q : ℝ} (ha : 0 ≤ a) (hq : 0 ≤ q)
    (hloc : ∀ n : ℕ, 4 * (2 * δ * (R / ε) ^ 2) * ((1 - ε ^ 2) ^ n) ^ 2 ≤ ENNReal.ofReal ((a * q ^ n) ^ 2)) :
    ∀ (os : List (Option Y)), (∀ o ∈ os, ∀ t x, ENNReal.ofReal (boundOf c [o])
      ≤ R * lik (K b) (fun y t x => ENNReal.ofReal (Real.exp (logg b y t x))) [o] t x) → ∀ t : ℕ,
    ∃ U : ZSt N B d V Ω → ℝ, Measurable U ∧
      (∀ (x : Fin N → Fin B → Fin d → V) (w : Fin N → Fin B → ℝ) ll prev ω, ∃ w' : Fin N → Fin B → ℝ, ((FilterKind.sisr.ops M).runO (fun c => c.ll b) os
          ⟨⟨x, t⟩, fun i b => fin (w i b), ll, prev⟩ ω).2.w = fun i b => fin (w' i b)) ∧
      (∀ (x : Fin N → Fin B → Fin d → V) (w : Fin N → Fin B → ℝ) ll prev ω, (stateAvg M.lo b φ ((FilterKind.sisr.ops M).runO (fun c => c.ll b) os
          ⟨⟨x, t⟩, fun i b => fin (w i b), ll, prev⟩ ω).2).toReal
        - aimed (K b) (fun y t x => ENNReal.ofReal (Real.exp (logg b y t x))) b φ os t (x, w) = U ((x, w), ω)) ∧
      ∀ z, ∫⁻ ω, ENNReal.ofReal (U (z, ω) ^ 2) ∂P ≤ ENNReal.ofReal ((a * ∑ k ∈ Finset.range os.length, q ^ k) ^ 2)
  | [], _, t => by
    refine ⟨fun _ => 0, measurable_const, fun x w ll prev ω => ⟨w, rfl⟩, fun x w ll prev ω => ?_, fun z => ?_⟩
    · have e1 : stateAvg M.lo b φ ((FilterKind.sisr.ops M).runO (fun c => c.ll b) []
          ⟨⟨x, t⟩, fun i b => fin (w i b), ll, prev⟩ ω).2 = avgE b φ (x, w) := rfl
      have e2 : avgE b (lik (K b) (fun y t x => ENNReal.ofReal (Real.exp (logg b y t x))) [] t) (x, w) = 1 :=
        avgE_const hN b 1 _
      rw [e1, aimed, e2, div_one]
      exact sub_self _
    · simp
  | o :: os, hR, t => by
    have hg : ∀ (y : Y) (t : ℕ), Measurable fun x => ENNReal.ofReal (Real.exp (logg b y t x)) :=
      fun y t => (Real.measurable_exp.comp (hlogg b y t)).ennreal_ofReal
    obtain ⟨U, hU, h0, h1, h2⟩ := run_mse ha hq hloc os (fun o ho => hR o (List.mem_cons_of_mem _ ho)) (t + 1)
    obtain ⟨A, hA, hA1, hA2⟩ := step_map P hN hinc hr hK hS o t
    have hst := step_mse P hN hinc hr hthr hK hlogg hS b hδN hδt hφ hφ1 hε0 hε1 hmix o os t
      (hR o List.mem_cons_self t) hA1
    have hm1 := measurable_aimed (N := N) (K := K b) hg b hφ os (t + 1)
    have hm2 := measurable_aimed (N := N) (K := K b) hg b hφ (o :: os) t
    have hrun : ∀ x w ll prev ω, ∃ ll' prev', ((FilterKind.sisr.ops M).runO (fun c => c.ll b) (o :: os)
          ⟨⟨x, t⟩, fun i b => fin (w i b), ll, prev⟩ ω).2 = ((FilterKind.sisr.ops M).runO (fun c => c.ll b) os
          ⟨⟨(A ((x, w), ω)).1.1, t + 1⟩, fun i b => fin ((A ((x, w), ω)).1.2 i b), ll', prev'⟩ (A ((x, w), ω)).2).2 := by
      intro x w ll prev ω
      obtain ⟨ll', prev', e⟩ := hA1 x w ll prev ω
      refine ⟨ll', prev', ?_⟩
      show ((FilterKind.sisr.ops M).runO (fun c => c.ll b) os (stepO M o _ ω).1 (stepO M o _ ω).2).2 = _
      rw [e]
    refine ⟨fun z => U (A z) + (aimed (K b) (fun y t x => ENNReal.ofReal (Real.exp (logg b y t x))) b φ os (t + 1) (A z).1
        - aimed (K b) (fun y t x => ENNReal.ofReal (Real.exp (logg b y t x))) b φ (o :: os) t z.1), ?_,
      fun x w ll prev ω => ?_, fun x w ll prev ω => ?_, fun z => ?_⟩
    · exact (hU.comp hA).add ((hm1.comp (measurable_fst.comp hA)).sub (hm2.comp measurable_fst))
    · obtain ⟨ll', prev', e⟩ := hrun x w ll prev ω
      rw [e]
      exact h0 _ _ _ _ _
    · obtain ⟨ll', prev', e⟩ := hrun x w ll prev ω
      rw [e]
      have h3 := h1 (A ((x, w), ω)).1.1 (A ((x, w), ω)).1.2 ll' prev' (A ((x, w), ω)).2
      linarith
    · obtain ⟨ν, hν⟩ := hA2 z.1 z.2
      have := hν.prob
      have hsum : ENNReal.ofReal ((a * ∑ k ∈ Finset.range (o :: os).length, q ^ k) ^ 2)
          = ENNReal.ofReal ((a * ∑ k ∈ Finset.range os.length, q ^ k + a * q ^ os.length) ^ 2) := by
        rw [List.length_cons, Finset.sum_range_succ, mul_add]
      rw [hsum]
      have hz : Measurable fun ω : Ω => (z, ω) := measurable_const.prodMk measurable_id
      have hz1 : Measurable fun ω : Ω => U (A (z, ω)) := (hU.comp hA).comp hz
      have hz2 : Measurable fun ω : Ω =>
          aimed (K b) (fun y t x => ENNReal.ofReal (Real.exp (logg b y t x))) b φ os (t + 1) (A (z, ω)).1 :=
        (hm1.comp (measurable_fst.comp hA)).comp hz
      have hz3 := hz2.sub_const (aimed (K b) (fun y t x => ENNReal.ofReal (Real.exp (logg b y t x))) b φ (o :: os) t z)
      have hl := (hst z).trans (hloc os.length)
      refine mse_add₀ P hz1 hz3 (by positivity) (by positivity) ?_ hl
      have hG : Measurable fun q : ZSt N B d V Ω => ENNReal.ofReal (U q ^ 2) := (hU.pow_const 2).ennreal_ofReal
      have e := draws_lintegral hν hG
      refine le_trans (le_of_eq e) ?_
      refine (lintegral_mono fun z' => h2 z').trans ?_
      rw [lintegral_const, measure_univ, mul_one]

include hN hinc hr hthr hK hlogg hS hδN hδt hφ hφ1 hε0 hε1 hmix in
/-- The error of a run from the initial state. -/
theorem initial_mse {a q : ℝ} (ha : 0 ≤ a) (hq : 0 ≤ q) (hR1 : 1 ≤ R)
    (hloc : ∀ n : ℕ, 4 * (2 * δ * (R / ε) ^ 2) * ((1 - ε ^ 2) ^ n) ^ 2 ≤ ENNReal.ofReal ((a * q ^ n) ^ 2))
    {init : Ω → (Fin N → Fin B → Fin d → V) × Ω} {μ : Fin B → Measure (Fin d → V)} (hi : IndependentInitial P init μ)
    (os : List (Option Y)) (hR : ∀ o ∈ os, ∀ t x, ENNReal.ofReal (boundOf c [o])
      ≤ R * lik (K b) (fun y t x => ENNReal.ofReal (Real.exp (logg b y t x))) [o] t x) :
    (∀ ω, ∃ w' : Fin N → Fin B → ℝ, ((FilterKind.sisr.ops M).runO (fun c => c.ll b) os
          (initializeFilter M.lo (init ω).1) (init ω).2).2.w = fun i b => fin (w' i b)) ∧
    ∫⁻ ω, ENNReal.ofReal (((stateAvg M.lo b φ ((FilterKind.sisr.ops M).runO (fun c => c.ll b) os
          (initializeFilter M.lo (init ω).1) (init ω).2).2).toReal
        - (filterAvg (K b) (fun y t x => ENNReal.ofReal (Real.exp (logg b y t x))) (μ b) φ os).toReal) ^ 2) ∂P
      ≤ ENNReal.ofReal ((a * ∑ k ∈ Finset.range (os.length + 1), q ^ k) ^ 2) := by
  have hg : ∀ (y : Y) (t : ℕ), Measurable fun x => ENNReal.ofReal (Real.exp (logg b y t x)) :=
    fun y t => (Real.measurable_exp.comp (hlogg b y t)).ennreal_ofReal
  have hεt : ε ≠ ⊤ := ne_top_of_le_ne_top ENNReal.one_ne_top hε1
  have hD : (1 - ε ^ 2) ^ os.length ≠ ⊤ := ENNReal.pow_ne_top (ne_top_of_le_ne_top ENNReal.one_ne_top tsub_le_self)
  obtain ⟨U, hU, h0, h1, h2⟩ := run_mse P hN hinc hr hthr hK hlogg hS b hδN hδt hφ hφ1 hε0 hε1 hmix ha hq hloc os hR 0
  obtain ⟨m, f, H, hm, hf, k1, k2, k3, k4, k5, k6⟩ := split_facts P hN hK hlogg hS b hφ hφ1 hε0 hε1 hmix os 0
  have hm0 := measurable_lik (K b) (fun y t x => ENNReal.ofReal (Real.exp (logg b y t x))) hg os 0
  obtain ⟨U₀, hU₀, a₀, b₀, c₀⟩ := estV_initial P hN hi hm0 k5 (estV_nil P (M := M) (b := b) hm0 0) M.lo
  obtain ⟨U₁, hU₁, a₁, b₁, c₁⟩ := estV_initial P hN hi hf (fun x => (k2 x).trans (mul_le_mul' le_rfl (k5 x)))
    (estV_nil P (M := M) (b := b) hf 0) M.lo
  choose r₀ p₀ q₀ s₀ using a₀
  choose r₁ p₁ q₁ s₁ using a₁
  have hrr : ∀ ω, r₁ ω = r₀ ω := fun ω => XF.fin.inj ((p₁ ω).symm.trans (p₀ ω))
  have t₁ : ∀ ω, ENNReal.ofReal (Real.exp (r₀ ω)) * avgE b f ((init ω).1, fun _ _ => 0) = U₁ ω := by
    intro ω
    have := s₁ ω
    rw [hrr] at this
    exact this
  obtain ⟨ν, hν, hmarg, -⟩ := hi
  have hνp := hν.prob
  have hp : IsProbabilityMeasure (μ b) := by
    rw [← hmarg ⟨0, hN⟩ b]
    exact Measure.isProbabilityMeasure_map ((measurable_pi_apply b).comp (measurable_pi_apply _)).aemeasurable
  have hlow : ε * H ≤ ∫⁻ x, lik (K b) (fun y t x => ENNReal.ofReal (Real.exp (logg b y t x))) os 0 x ∂(μ b) := by
    refine le_trans (le_of_eq ?_) (lintegral_mono k6)
    rw [lintegral_const, measure_univ, mul_one]
  obtain ⟨x₀⟩ : Nonempty (Fin d → V) := by
    by_contra hne
    rw [not_nonempty_iff] at hne
    have h9 := hp.measure_univ
    rw [Set.univ_eq_empty_iff.2 hne, measure_empty] at h9
    exact zero_ne_one h9
  have hH0 : H ≠ 0 := fun h => k3 x₀ (le_antisymm (h ▸ k5 x₀) zero_le)
  have hHt : H ≠ ⊤ := by
    intro h
    have := k6 x₀
    rw [h, ENNReal.mul_top hε0] at this
    exact k4 x₀ (top_le_iff.1 this)
  have hA0 : ∫⁻ x, lik (K b) (fun y t x => ENNReal.ofReal (Real.exp (logg b y t x))) os 0 x ∂(μ b) ≠ 0 :=
    fun h => mul_ne_zero hε0 hH0 (le_antisymm (h ▸ hlow) zero_le)
  have hAt : ∫⁻ x, lik (K b) (fun y t x => ENNReal.ofReal (Real.exp (logg b y t x))) os 0 x ∂(μ b) ≠ ⊤ := by
    refine ne_top_of_le_ne_top hHt ((lintegral_mono k5).trans (le_of_eq ?_))
    rw [lintegral_const, measure_univ, mul_one]
  have key := local_mse P hN b (Z := fun ω => ((init ω).1, fun _ _ => 0))
    (e := fun ω => ENNReal.ofReal (Real.exp (r₀ ω)))
    (fun ω => (ENNReal.ofReal_pos.2 (Real.exp_pos _)).ne') (fun ω => ENNReal.ofReal_ne_top) hm hD k1 k2 k3 k4
    hU₀ hU₁ s₀ t₁ (W := 0 + H ^ 2 * ENNReal.ofReal (1 / N)) (κ := 2 * δ * (R / ε) ^ 2) hA0 hAt b₀ b₁ c₀
    (c₁.trans (le_of_eq (by ring))) ?_
  · have efilt : filterAvg (K b) (fun y t x => ENNReal.ofReal (Real.exp (logg b y t x))) (μ b) φ os
        = (m * (∫⁻ x, lik (K b) (fun y t x => ENNReal.ofReal (Real.exp (logg b y t x))) os 0 x ∂(μ b))
          + ∫⁻ x, f x ∂(μ b)) / ∫⁻ x, lik (K b) (fun y t x => ENNReal.ofReal (Real.exp (logg b y t x))) os 0 x ∂(μ b) := by
      unfold filterAvg
      congr 1
      rw [← lintegral_const_mul _ hm0, ← lintegral_add_right _ hf]
      exact lintegral_congr k1
    refine ⟨fun ω => h0 (init ω).1 (fun _ _ => 0) _ _ (init ω).2, ?_⟩
    rw [efilt, Finset.sum_range_succ, mul_add]
    have h5 : Measurable fun q : (Fin N → Fin B → Fin d → V) × Ω => ((q.1, (fun _ _ => 0 : Fin N → Fin B → ℝ)), q.2) :=
      (measurable_fst.prodMk measurable_const).prodMk measurable_snd
    have hG : Measurable fun q : (Fin N → Fin B → Fin d → V) × Ω =>
        ENNReal.ofReal (U ((q.1, fun _ _ => 0), q.2) ^ 2) := ((hU.comp h5).pow_const 2).ennreal_ofReal
    have hm1 := measurable_aimed (N := N) (K := K b) hg b hφ os 0
    have hsum := mse_add₀ P (a := fun ω => U (((init ω).1, fun _ _ => 0), (init ω).2))
      (c := fun ω => aimed (K b) (fun y t x => ENNReal.ofReal (Real.exp (logg b y t x))) b φ os 0 ((init ω).1, fun _ _ => 0)
        - ((m * (∫⁻ x, lik (K b) (fun y t x => ENNReal.ofReal (Real.exp (logg b y t x))) os 0 x ∂(μ b))
          + ∫⁻ x, f x ∂(μ b)) / ∫⁻ x, lik (K b) (fun y t x => ENNReal.ofReal (Real.exp (logg b y t x))) os 0 x ∂(μ b)).toReal)
      ((hU.comp h5).comp hν.measurable)
      ((hm1.comp ((measurable_fst.comp hν.measurable).prodMk measurable_const)).sub measurable_const)
      (s := a * ∑ k ∈ Finset.range os.length, q ^ k) (l := a * q ^ os.length) (by positivity) (by positivity) ?_
      (key.trans (hloc os.length))
    · refine le_trans (le_of_eq (lintegral_congr fun ω => ?_)) hsum
      have h3 : (stateAvg M.lo b φ ((FilterKind.sisr.ops M).runO (fun c => c.ll b) os
          (initializeFilter M.lo (init ω).1) (init ω).2).2).toReal
          - aimed (K b) (fun y t x => ENNReal.ofReal (Real.exp (logg b y t x))) b φ os 0 ((init ω).1, fun _ _ => 0)
          = U (((init ω).1, fun _ _ => 0), (init ω).2) := h1 (init ω).1 (fun _ _ => 0) _ _ (init ω).2
      rw [← h3, sub_add_sub_cancel]
    · refine le_trans (le_of_eq (draws_lintegral hν hG)) ?_
      refine (lintegral_mono fun z' => h2 (z', fun _ _ => 0)).trans ?_
      rw [lintegral_const, measure_univ, mul_one]
  · have e2 : H ≤ R / ε * ∫⁻ x, lik (K b) (fun y t x => ENNReal.ofReal (Real.exp (logg b y t x))) os 0 x ∂(μ b) := by
      rw [div_eq_mul_inv, mul_right_comm, ← div_eq_mul_inv, ENNReal.le_div_iff_mul_le (Or.inl hε0) (Or.inl hεt), mul_comm]
      exact hlow.trans (le_mul_of_one_le_left zero_le hR1)
    generalize (∫⁻ x, lik (K b) (fun y t x => ENNReal.ofReal (Real.exp (logg b y t x))) os 0 x ∂(μ b)) = A₀ at e2 ⊢
    calc 0 + H ^ 2 * ENNReal.ofReal (1 / N) ≤ (R / ε * A₀) ^ 2 * δ := by
          rw [zero_add]
          gcongr
      _ ≤ 2 * ((R / ε * A₀) ^ 2 * δ) := le_mul_of_one_le_left zero_le (by norm_num)
      _ = _ := by ring

end

end

end Verif.Unbiased
