import Verif.Spec.Consistency
import Verif.Lemmas.Unbiased
import Verif.Lemmas.RunSlots
import Verif.Lemmas.Multinomial

/-!
# Lemmas for the mean squared error of particle estimates
-/

namespace Verif.FilterOps

open Verif.Spec

variable {S P Y Ω : Type}

/-- Elementary steps from a corrected state: the total log-likelihood and the last state. -/
def runO (F : FilterOps S P Y Ω) (ll : S → XF) : List (Option Y) → S → Ω → XF × S
  | [], c, _ => (XF.fin 0, c)
  | o :: os, c, ω =>
    let p := F.predict c ω
    let c' := F.applyO o p.1 p.2
    let r := F.runO ll os c'.1 c'.2
    (ll c'.1 + r.1, r.2)

variable {F : FilterOps S P Y Ω} {time : S → ℕ} {Z : S → Prop}

/-- The same from a prediction. -/
def runP (F : FilterOps S P Y Ω) (ll : S → XF) (o : Option Y) (os : List (Option Y)) (p : P) (ω : Ω) : XF × S :=
  let c' := F.applyO o p ω
  let r := F.runO ll os c'.1 c'.2
  (ll c'.1 + r.1, r.2)

/-- The steps of a list of slots from a prediction; `e` if there are none. -/
def runL (F : FilterOps S P Y Ω) (ll : S → XF) (e : XF × S) : List (Option Y) → P → Ω → XF × S
  | [], _, _ => e
  | o :: os, p, ω => F.runP ll o os p ω

theorem runO_eq (ll : S → XF) (e : XF × S) (c : S) (ω : Ω) (l : List (Option Y)) (hl : l ≠ []) :
    F.runO ll l c ω = F.runL ll e l (F.predict c ω).1 (F.predict c ω).2 := by
  cases l with
  | nil => exact absurd rfl hl
  | cons o os => rfl

/-- The loop, seen as elementary steps. -/
theorem loop_run (hF : Ticks F time Z) (ll : S → XF) (hz : ∀ p ω, ll (F.propagate p ω).1 = XF.fin 0)
    (k q : ℕ) : ∀ (r : ℕ), r < k → ∀ (fuel : ℕ), r ≤ fuel →
    ∀ (p : P) (ω : Ω), F.time p + r = q * k →
    ∃ p' cs ω', F.loop k fuel p ω = some (p', cs, ω') ∧ F.time p' = q * k ∧
      (∀ c ∈ cs, ll c = XF.fin 0) ∧
      ∀ e o os, F.runL ll e (List.replicate r none ++ o :: os) p ω = F.runP ll o os p' ω' := by
  intro r
  induction r with
  | zero =>
    intro _ fuel _ p ω h
    refine ⟨p, [], ω, loop_stop F k fuel p ω ?_, by omega, by simp, fun e o os => rfl⟩
    rw [Nat.add_zero] at h
    rw [h, Nat.mul_mod_left]
  | succ r ih =>
    intro hr fuel hf p ω h
    obtain ⟨fuel, rfl⟩ : ∃ f, fuel = f + 1 := ⟨fuel - 1, by omega⟩
    have hne : F.time p % k ≠ 0 := by
      intro h0
      obtain ⟨m, hm⟩ := Nat.dvd_of_mod_eq_zero h0
      have h1 : k ∣ (r + 1) := by
        have h2 : k ∣ F.time p + (r + 1) := ⟨q, by rw [h, Nat.mul_comm]⟩
        exact (Nat.dvd_add_right ⟨m, hm⟩).1 h2
      have := Nat.le_of_dvd (by omega) h1
      omega
    have ht : F.time (F.predict (F.propagate p ω).1 (F.propagate p ω).2).1 = F.time p + 1 := by
      rw [hF.predict, hF.propagate]
    obtain ⟨p', cs, ω', h1, h2, h3, h4⟩ := ih (by omega) fuel (by omega)
      (F.predict (F.propagate p ω).1 (F.propagate p ω).2).1
      (F.predict (F.propagate p ω).1 (F.propagate p ω).2).2 (by rw [ht]; omega)
    refine ⟨p', (F.propagate p ω).1 :: cs, ω', ?_, h2, ?_, fun e o os => ?_⟩
    · rw [loop_step F k fuel p ω hne, h1]; rfl
    · intro c hc
      rcases List.mem_cons.1 hc with rfl | hc
      · exact hz p ω
      · exact h3 c hc
    · rw [← h4 e o os]
      show (ll (F.propagate p ω).1 + (F.runO ll (List.replicate r none ++ o :: os) (F.propagate p ω).1
        (F.propagate p ω).2).1, (F.runO ll (List.replicate r none ++ o :: os) (F.propagate p ω).1
        (F.propagate p ω).2).2) = _
      rw [hz, runO_eq ll e _ _ _ (by simp)]
      exact Prod.ext (zero_add _) rfl

/-- The whole run: the sum of the log-likelihoods and the last state are those of the elementary steps. -/
theorem filterAll_run (hF : Ticks F time Z) (ll : S → XF) (hz : ∀ p ω, ll (F.propagate p ω).1 = XF.fin 0)
    (opt : FilterOptions) (hk : 0 < opt.observeEveryStep) (fuel : ℕ)
    (hfuel : opt.observeEveryStep - 1 ≤ fuel) : ∀ (ys : List Y) (n : ℕ) (c : S) (ω : Ω),
    time c = startTime opt.observeEveryStep n →
    ∃ r, F.filterAll opt fuel ys c ω = some r ∧
      ((r.2.1.map ll).sum, r.1) = F.runO ll (F.slotsFrom opt.observeEveryStep n ys) c ω
  | [], n, c, ω, _ => ⟨_, rfl, rfl⟩
  | y :: ys, n, c, ω, hc => by
    obtain ⟨k, hk'⟩ : ∃ k, k = opt.observeEveryStep := ⟨_, rfl⟩
    rw [← hk'] at hk hfuel hc
    have ht : F.time (F.predict c ω).1 = startTime k n := by rw [hF.predict, hc]
    obtain ⟨r, hr, hrk, hsum⟩ : ∃ r, r = (if n = 0 then 0 else k - 1) ∧ r < k ∧ startTime k n + r = n * k := by
      refine ⟨_, rfl, ?_, ?_⟩
      · split <;> omega
      · cases n with
        | zero => simp [startTime]
        | succ n => simp [startTime, Nat.succ_mul]; omega
    obtain ⟨p, cs, ω', h1, h2, h3, h4⟩ := loop_run hF ll hz k n r hrk fuel (by split at hr <;> omega) _
      (F.predict c ω).2 (by rw [ht, hsum])
    have hfilt := filter_eq F opt fuel y c ω (p := p) (cs := cs) (ω' := ω') (by rw [← hk']; exact h1)
    rw [← applyO_obsOf] at hfilt
    have hs : time (F.applyO (F.obsOf y) p ω').1 = startTime k (n + 1) := by
      rw [applyO_obsOf]
      split
      · rw [hF.propagate, h2]; rfl
      · rw [hF.correct, h2]; rfl
    obtain ⟨r', h5, h6⟩ := filterAll_run hF ll hz opt (hk' ▸ hk) fuel (hk' ▸ hfuel) ys (n + 1)
      (F.applyO (F.obsOf y) p ω').1 (F.applyO (F.obsOf y) p ω').2 (hk' ▸ hs)
    refine ⟨_, by rw [filterAll, hfilt]; simp only [h5]; rfl, ?_⟩
    dsimp only
    rw [List.map_append, List.sum_append, List.map_append, List.sum_append, ← hk']
    have h7 : ((if opt.recordIntermediary then cs else []).map ll).sum = XF.fin 0 := by
      split
      · exact sum_zero_list ll cs h3
      · rfl
    rw [h7, slotsFrom, ← hr]
    rw [runO_eq ll (XF.fin 0, c) _ _ _ (by simp), h4]
    show _ = (ll (F.applyO (F.obsOf y) p ω').1 + (F.runO ll _ (F.applyO (F.obsOf y) p ω').1
      (F.applyO (F.obsOf y) p ω').2).1, (F.runO ll _ (F.applyO (F.obsOf y) p ω').1
      (F.applyO (F.obsOf y) p ω').2).2)
    rw [hk', ← h6]
    refine Prod.ext ?_ rfl
    show (0 : XF) + (ll _ + 0) + _ = ll _ + _
    rw [zero_add, add_zero]

end Verif.FilterOps

namespace Verif.Unbiased

open Verif Verif.Spec XF MeasureTheory ProbabilityTheory
open scoped ENNReal

variable {N B d : ℕ} {V Y Ω : Type}

/-! ## Second moments -/

/-- Second moment of a weighted sum of bounded, uncorrelated terms. -/
theorem second_moment {ι α : Type} [Fintype ι] [MeasurableSpace α] (ν : Measure α) [IsProbabilityMeasure ν]
    (f : ι → α → ℝ≥0∞) (hf : ∀ i, Measurable (f i)) (s : ι → ℝ≥0∞) (H : ℝ≥0∞) (hH : ∀ i, ∀ᵐ a ∂ν, f i a ≤ H)
    (hind : ∀ i j, i ≠ j → ∫⁻ a, f i a * f j a ∂ν = (∫⁻ a, f i a ∂ν) * ∫⁻ a, f j a ∂ν) :
    ∫⁻ a, (∑ i, s i * f i a) ^ 2 ∂ν ≤ (∑ i, s i * ∫⁻ a, f i a ∂ν) ^ 2 + H ^ 2 * ∑ i, s i ^ 2 := by
  classical
  have e1 : ∀ a, (∑ i, s i * f i a) ^ 2 = ∑ i, ∑ j, s i * s j * (f i a * f j a) := by
    intro a
    rw [sq, Finset.sum_mul_sum]
    refine Finset.sum_congr rfl fun i _ => Finset.sum_congr rfl fun j _ => by ring
  have hm : ∀ i j, Measurable fun a => f i a * f j a := fun i j => (hf i).mul (hf j)
  simp only [e1]
  rw [lintegral_finsetSum _ fun i _ => Finset.measurable_sum _ fun j _ => (hm i j).const_mul _]
  have e2 : ∀ i, ∫⁻ a, ∑ j, s i * s j * (f i a * f j a) ∂ν = ∑ j, s i * s j * ∫⁻ a, f i a * f j a ∂ν := by
    intro i
    rw [lintegral_finsetSum _ fun j _ => (hm i j).const_mul _]
    exact Finset.sum_congr rfl fun j _ => lintegral_const_mul _ (hm i j)
  simp only [e2]
  have e3 : ∀ i j, s i * s j * ∫⁻ a, f i a * f j a ∂ν ≤
      s i * s j * ((∫⁻ a, f i a ∂ν) * ∫⁻ a, f j a ∂ν) + if j = i then H ^ 2 * s i ^ 2 else 0 := by
    intro i j
    by_cases hij : j = i
    · subst hij
      rw [if_pos rfl]
      refine le_add_left ?_
      have : ∫⁻ a, f j a * f j a ∂ν ≤ H ^ 2 := by
        calc ∫⁻ a, f j a * f j a ∂ν ≤ ∫⁻ _, H ^ 2 ∂ν := lintegral_mono_ae <| (hH j).mono fun a ha => by
              rw [sq]
              exact mul_le_mul' ha ha
          _ = H ^ 2 := by rw [lintegral_const, measure_univ, mul_one]
      calc s j * s j * ∫⁻ a, f j a * f j a ∂ν ≤ s j * s j * H ^ 2 := mul_le_mul' le_rfl this
        _ = H ^ 2 * s j ^ 2 := by ring
    · rw [if_neg hij, add_zero, hind i j (Ne.symm hij)]
  calc ∑ i, ∑ j, s i * s j * ∫⁻ a, f i a * f j a ∂ν
      ≤ ∑ i, ∑ j, (s i * s j * ((∫⁻ a, f i a ∂ν) * ∫⁻ a, f j a ∂ν) + if j = i then H ^ 2 * s i ^ 2 else 0) :=
        Finset.sum_le_sum fun i _ => Finset.sum_le_sum fun j _ => e3 i j
    _ = _ := by
      simp only [Finset.sum_add_distrib, Finset.sum_ite_eq', Finset.mem_univ, if_true]
      rw [← Finset.mul_sum, sq (∑ i, _), Finset.sum_mul_sum]
      congr 1
      refine Finset.sum_congr rfl fun i _ => Finset.sum_congr rfl fun j _ => by ring

section
variable [MeasurableSpace Ω] [MeasurableSpace V] (P : Measure Ω)

/-- States with finite weights, and a generator state. -/
abbrev ZSt (N B d : ℕ) (V Ω : Type) := ((Fin N → Fin B → Fin d → V) × (Fin N → Fin B → ℝ)) × Ω

/-- Run from a filter state at time `t` with finite weights, `f` gives a finite log-likelihood and a last state with finite weights; the
likelihood times `φ` of the last state is on average the weighted average of `h` over the particles of filter `b`,
with variance at most `W`. -/
def EstV (b : Fin B) (t : ℕ) (f : PCorr N B d V → Ω → XF × PCorr N B d V) (φ : PCorr N B d V → ℝ≥0∞)
    (h : (Fin d → V) → ℝ≥0∞) (W : ℝ≥0∞) : Prop :=
  ∃ U : ZSt N B d V Ω → ℝ≥0∞, Measurable U ∧
    (∀ x w ll prev ω, ∃ r, (f ⟨⟨x, t⟩, fun i b => fin (w i b), ll, prev⟩ ω).1 = fin r ∧
      (∃ w' : Fin N → Fin B → ℝ, (f ⟨⟨x, t⟩, fun i b => fin (w i b), ll, prev⟩ ω).2.w = fun i b => fin (w' i b)) ∧
      ENNReal.ofReal (Real.exp r) * φ (f ⟨⟨x, t⟩, fun i b => fin (w i b), ll, prev⟩ ω).2 = U ((x, w), ω)) ∧
    ∀ x w, ∫⁻ ω, U ((x, w), ω) ∂P = ∑ i, ENNReal.ofReal (sm w b i) * h (x i b) ∧
      ∫⁻ ω, U ((x, w), ω) ^ 2 ∂P ≤ (∑ i, ENNReal.ofReal (sm w b i) * h (x i b)) ^ 2 + W

/-- The same for a prediction whose weights are not too uneven. -/
def EstVP (b : Fin B) (t : ℕ) (δ : ℝ≥0∞) (f : PPred N B d V → Ω → XF × PCorr N B d V) (φ : PCorr N B d V → ℝ≥0∞)
    (h : (Fin d → V) → ℝ≥0∞) (W : ℝ≥0∞) : Prop :=
  ∃ U : ZSt N B d V Ω → ℝ≥0∞, Measurable U ∧
    (∀ x w idx ω, ∃ r, (f ⟨⟨x, t⟩, fun i b => fin (w i b), fun i b => fin (sm w b i), idx⟩ ω).1 = fin r ∧
      (∃ w' : Fin N → Fin B → ℝ, (f ⟨⟨x, t⟩, fun i b => fin (w i b), fun i b => fin (sm w b i), idx⟩ ω).2.w = fun i b => fin (w' i b)) ∧
      ENNReal.ofReal (Real.exp r) * φ (f ⟨⟨x, t⟩, fun i b => fin (w i b), fun i b => fin (sm w b i), idx⟩ ω).2
        = U ((x, w), ω)) ∧
    ∀ x w, ∫⁻ ω, U ((x, w), ω) ∂P = ∑ i, ENNReal.ofReal (sm w b i) * h (x i b) ∧
      (∑ i, ENNReal.ofReal (sm w b i) ^ 2 ≤ δ →
        ∫⁻ ω, U ((x, w), ω) ^ 2 ∂P ≤ (∑ i, ENNReal.ofReal (sm w b i) * h (x i b)) ^ 2 + W)

/-- Independent resamplers are unbiased. -/
theorem IndependentResampler.unbiased {P : Measure Ω}
    {r : {b : ℕ} → (Fin N → Fin b → XF) → Bool → Ω → (Fin N → Fin b → Fin N) × Ω} (h : IndependentResampler P r) :
    UnbiasedResampler P r where
  measurable := h.measurable
  draws b p hp := by
    obtain ⟨ν, h1, h2, -⟩ := h.draws b p hp
    exact ⟨ν, h1, fun j k => by simp [h2]⟩

/-- Weights of filters that are not resampled. -/
theorem sum_sq_keep {thr : ℝ} (hthr : 0 < thr) (w : Fin N → Fin B → ℝ) (b : Fin B) (hN : 0 < N)
    (hm : maskOf thr w b = false) : ∑ i, ENNReal.ofReal (sm w b i) ^ 2 ≤ ENNReal.ofReal (1 / thr) := by
  have h1 : ¬ essOf (sm w b) < thr := by
    intro h
    unfold maskOf at hm
    simp [h] at hm
  have hpos : 0 < ∑ i, sm w b i ^ 2 :=
    Finset.sum_pos (fun i _ => pow_pos (sm_pos w b i) 2) ⟨⟨0, hN⟩, Finset.mem_univ _⟩
  have h2 : ∑ i, sm w b i ^ 2 ≤ 1 / thr := by
    unfold essOf at h1
    rw [not_lt] at h1
    rw [le_div_iff₀ hthr, mul_comm, ← le_div_iff₀ hpos]
    simpa [sq] using h1
  calc ∑ i, ENNReal.ofReal (sm w b i) ^ 2 = ENNReal.ofReal (∑ i, sm w b i ^ 2) := by
        rw [ENNReal.ofReal_sum_of_nonneg fun i _ => sq_nonneg _]
        exact Finset.sum_congr rfl fun i _ => (ENNReal.ofReal_pow (sm_nonneg w b i) 2).symm
    _ ≤ _ := ENNReal.ofReal_le_ofReal h2

theorem sum_sq_even (b : Fin B) (w : Fin N → Fin B → ℝ) (hw : ∀ i, sm w b i = 1 / (N : ℝ)) :
    ∑ i, ENNReal.ofReal (sm w b i) ^ 2 ≤ ENNReal.ofReal (1 / N) := by
  simp only [hw]
  rw [Finset.sum_const, Finset.card_univ, Fintype.card_fin, nsmul_eq_mul]
  by_cases hN : N = 0
  · subst hN
    simp
  · rw [sq, ← mul_assoc, ← ENNReal.ofReal_natCast, ← ENNReal.ofReal_mul (Nat.cast_nonneg N),
      mul_one_div_cancel (by exact_mod_cast hN), ENNReal.ofReal_one, one_mul]

/-- Averages of two selected ancestors. -/
theorem lintegral_index2 {b : ℕ} (ν : Measure (Fin N → Fin b → Fin N)) (i i' : Fin N) (j : Fin b)
    (φ ψ : Fin N → ℝ≥0∞) : ∫⁻ a, φ (a i j) * ψ (a i' j) ∂ν = ∑ k, ∑ k', φ k * ψ k' * ν {a | a i j = k ∧ a i' j = k'} := by
  have hm : Measurable fun a : Fin N → Fin b → Fin N => (a i j, a i' j) := measurable_of_finite _
  rw [← lintegral_map (f := fun q : Fin N × Fin N => φ q.1 * ψ q.2) (measurable_of_finite _) hm, lintegral_fintype,
    Fintype.sum_prod_type]
  refine Finset.sum_congr rfl fun k _ => Finset.sum_congr rfl fun k' _ => ?_
  rw [Measure.map_apply hm (measurableSet_singleton _)]
  congr 2
  ext a
  simp

/-- What always holds of a draw holds almost surely of its law. -/
theorem ae_of_draws {α : Type} [MeasurableSpace α] {P : Measure Ω} [IsProbabilityMeasure P] {f : Ω → α × Ω} {ν : Measure α}
    (h : Draws P f ν) {p : α → Prop} (hp : MeasurableSet {a | p a}) (hf : ∀ ω, p (f ω).1) : ∀ᵐ a ∂ν, p a := by
  have h1 : ν = P.map fun ω => (f ω).1 := by
    have h2 : P.map (fun ω => (f ω).1) = (P.map f).map Prod.fst :=
      (Measure.map_map measurable_fst h.measurable).symm
    have := h.prob
    rw [h2, h.law, Measure.map_fst_prod, measure_univ, one_smul]
  have h3 : Measurable fun ω => (f ω).1 := measurable_fst.comp h.measurable
  rw [h1, ae_map_iff h3.aemeasurable hp]
  exact ae_of_all _ hf

/-- SISR prediction. -/
theorem estV_sisrPredict [IsProbabilityMeasure P] {M : ParticleModel N B d V Y Ω} (hN : 0 < N)
    (hr : IndependentResampler P M.resampler) (hthr : 0 < M.threshold) {b : Fin B} {t : ℕ} {δ H W : ℝ≥0∞}
    (hδN : ENNReal.ofReal (1 / N) ≤ δ) (hδt : ENNReal.ofReal (1 / M.threshold) ≤ δ)
    {f : PPred N B d V → Ω → XF × PCorr N B d V} {φ : PCorr N B d V → ℝ≥0∞} {h : (Fin d → V) → ℝ≥0∞}
    (hH : ∀ x, h x ≤ H) (hf : EstVP P b t δ f φ h W) :
    EstV P b t (fun c ω => f (M.sisrPredict c ω).1 (M.sisrPredict c ω).2) φ h (W + H ^ 2 * δ) := by
  classical
  obtain ⟨U, hU, h1, h2⟩ := hf
  let A : (Fin B → Bool) → ZSt N B d V Ω → ZSt N B d V Ω := fun m z =>
    if ∀ b, m b = false then z else
      ((selectX m z.1.1 (M.resampler (fun i j => fin (sm z.1.2 ((maskCols m).get j) i)) true z.2).1,
        selectW m z.1.2), (M.resampler (fun i j => fin (sm z.1.2 ((maskCols m).get j) i)) true z.2).2)
  have hA : ∀ m, Measurable (A m) := by
    intro m
    by_cases hm : ∀ b, m b = false
    · have : A m = id := by funext z; exact if_pos hm
      rw [this]; exact measurable_id
    · have hq : Measurable fun z : ZSt N B d V Ω =>
          M.resampler (fun i j => fin (sm z.1.2 ((maskCols m).get j) i)) true z.2 := by
        have h3 : Measurable fun z : ZSt N B d V Ω =>
            ((fun i j => sm z.1.2 ((maskCols m).get j) i : Fin N → Fin (maskCols m).length → ℝ), z.2) := by
          refine Measurable.prodMk ?_ measurable_snd
          rw [measurable_pi_iff]; intro i
          rw [measurable_pi_iff]; intro j
          exact (measurable_sm _ i).comp (measurable_snd.comp measurable_fst)
        exact (hr.measurable (maskCols m).length).comp h3
      have : A m = fun z =>
        ((selectX m z.1.1 (M.resampler (fun i j => fin (sm z.1.2 ((maskCols m).get j) i)) true z.2).1,
          selectW m z.1.2), (M.resampler (fun i j => fin (sm z.1.2 ((maskCols m).get j) i)) true z.2).2) := by
        funext z; exact if_neg hm
      rw [this]
      refine Measurable.prodMk (Measurable.prodMk ?_ ?_) (measurable_snd.comp hq)
      · exact (measurable_selectX m).comp
          ((measurable_fst.comp measurable_fst).prodMk (measurable_fst.comp hq))
      · exact (measurable_selectW m).comp (measurable_snd.comp measurable_fst)
  have hA2 : Measurable fun z : ZSt N B d V Ω => A (maskOf M.threshold z.1.2) z := by
    have h4 : Measurable fun q : (Fin B → Bool) × ZSt N B d V Ω =>
        A q.1 q.2 := measurable_from_prod_countable_right fun m => hA m
    exact h4.comp (((measurable_maskOf M.threshold).comp (measurable_snd.comp measurable_fst)).prodMk
      measurable_id)
  refine ⟨fun z => U (A (maskOf M.threshold z.1.2) z), hU.comp hA2, ?_, ?_⟩
  · intro x w ll prev ω
    dsimp only
    by_cases hm : ∀ b, maskOf M.threshold w b = false
    · rw [sisrPredict_keep M hN x t w ll prev ω hm]
      obtain ⟨r, hr1, hr3, hr2⟩ := h1 x w prev ω
      exact ⟨r, hr1, hr3, hr2.trans (congrArg U (if_pos hm).symm)⟩
    · obtain ⟨idx, hi⟩ := sisrPredict_select M hN x t w ll prev ω _ rfl hm
      rw [hi]
      obtain ⟨r, hr1, hr3, hr2⟩ := h1 _ (selectW (maskOf M.threshold w) w) idx _
      exact ⟨r, hr1, hr3, hr2.trans (congrArg U (if_neg hm).symm)⟩
  · intro x w
    show ∫⁻ ω, U (A (maskOf M.threshold w) ((x, w), ω)) ∂P = _ ∧
      ∫⁻ ω, U (A (maskOf M.threshold w) ((x, w), ω)) ^ 2 ∂P ≤ _
    have hkeep : maskOf M.threshold w b = false → ∑ i, ENNReal.ofReal (sm w b i) ^ 2 ≤ δ :=
      fun hb => (sum_sq_keep hthr w b hN hb).trans hδt
    generalize maskOf M.threshold w = m at hkeep ⊢
    by_cases hm : ∀ b, m b = false
    · have : ∀ ω, A m ((x, w), ω) = ((x, w), ω) := fun ω => if_pos hm
      simp only [this]
      refine ⟨(h2 x w).1, ((h2 x w).2 (hkeep (hm b))).trans ?_⟩
      rw [← add_assoc]
      exact le_self_add
    · have : ∀ ω, A m ((x, w), ω) =
          ((selectX m x (M.resampler (fun i j => fin (sm w ((maskCols m).get j) i)) true ω).1,
            selectW m w), (M.resampler (fun i j => fin (sm w ((maskCols m).get j) i)) true ω).2) :=
        fun ω => if_neg hm
      simp only [this]
      obtain ⟨ν, hν, hmarg, hpair⟩ := hr.draws (maskCols m).length (fun i j => sm w ((maskCols m).get j) i)
        fun j => sm_isProb w _ hN
      have := hν.prob
      have h5 : Measurable fun q : (Fin N → Fin (maskCols m).length → Fin N) × Ω =>
          ((selectX m x q.1, selectW m w), q.2) :=
        (((measurable_selectX m).comp (measurable_const.prodMk measurable_fst)).prodMk
          measurable_const).prodMk measurable_snd
      have hG := hU.comp h5
      have e1 := draws_lintegral hν hG
      have e2 := draws_lintegral hν (hG.pow_const 2)
      simp only [Function.comp] at e1 e2
      rw [e1, e2]
      simp only [(h2 _ _).1]
      by_cases hb : m b = true
      · have hw : ∀ i, sm (selectW m w) b i = 1 / (N : ℝ) :=
          sm_zero _ b fun i => by simp [selectW, hb]
        have hx : ∀ a i, selectX m x a i b = x (a i ⟨colRank m b, colRank_lt m b hb⟩) b := by
          intro a i
          simp only [selectX, hb, dif_pos]
        have heven : ∑ i, ENNReal.ofReal (sm (selectW m w) b i) ^ 2 ≤ δ := (sum_sq_even b _ hw).trans hδN
        have hi1 : ∀ i, ∫⁻ a, h (x (a i ⟨colRank m b, colRank_lt m b hb⟩) b) ∂ν
            = ∑ k, ENNReal.ofReal (sm w b k) * h (x k b) := by
          intro i
          rw [lintegral_index ν i _ fun k => h (x k b)]
          refine Finset.sum_congr rfl fun k _ => ?_
          rw [hmarg, maskCols_get m b hb, mul_comm]
        have hmean : ∑ i : Fin N, ENNReal.ofReal (sm (selectW m w) b i) *
            (∫⁻ a, h (x (a i ⟨colRank m b, colRank_lt m b hb⟩) b) ∂ν)
            = ∑ k, ENNReal.ofReal (sm w b k) * h (x k b) := by
          simp only [hi1, hw]
          rw [Finset.sum_const, Finset.card_univ, Fintype.card_fin, nsmul_eq_mul, ← mul_assoc,
            ← ENNReal.ofReal_natCast, ← ENNReal.ofReal_mul (Nat.cast_nonneg N),
            mul_one_div_cancel (by exact_mod_cast hN.ne'), ENNReal.ofReal_one, one_mul]
        have hind : ∀ i j : Fin N, i ≠ j →
            ∫⁻ a, h (x (a i ⟨colRank m b, colRank_lt m b hb⟩) b) * h (x (a j ⟨colRank m b, colRank_lt m b hb⟩) b) ∂ν
            = (∫⁻ a, h (x (a i ⟨colRank m b, colRank_lt m b hb⟩) b) ∂ν) *
              ∫⁻ a, h (x (a j ⟨colRank m b, colRank_lt m b hb⟩) b) ∂ν := by
          intro i j hij
          rw [lintegral_index2 ν i j _ (fun k => h (x k b)) fun k => h (x k b), hi1, hi1, Finset.sum_mul_sum]
          refine Finset.sum_congr rfl fun k _ => Finset.sum_congr rfl fun k' _ => ?_
          rw [hpair i j _ hij, maskCols_get m b hb]
          ring
        have hsec := second_moment ν
          (fun i (a : Fin N → Fin (maskCols m).length → Fin N) => h (x (a i ⟨colRank m b, colRank_lt m b hb⟩) b))
          (fun i => measurable_of_finite _) (fun i => ENNReal.ofReal (sm (selectW m w) b i)) H
          (fun i => ae_of_all _ fun a => hH _) hind
        rw [hmean] at hsec
        constructor
        · simp only [hx]
          rw [lintegral_finsetSum _ fun i _ => measurable_of_finite _, ← hmean]
          exact Finset.sum_congr rfl fun i _ => lintegral_const_mul _ (measurable_of_finite _)
        · calc ∫⁻ a, ∫⁻ ω, U ((selectX m x a, selectW m w), ω) ^ 2 ∂P ∂ν
              ≤ ∫⁻ a, ((∑ i, ENNReal.ofReal (sm (selectW m w) b i) *
                h (x (a i ⟨colRank m b, colRank_lt m b hb⟩) b)) ^ 2 + W) ∂ν := by
                refine lintegral_mono fun a => ?_
                have := (h2 (selectX m x a) (selectW m w)).2 heven
                simpa only [hx] using this
            _ = (∫⁻ a, (∑ i, ENNReal.ofReal (sm (selectW m w) b i) *
                h (x (a i ⟨colRank m b, colRank_lt m b hb⟩) b)) ^ 2 ∂ν) + W := by
                rw [lintegral_add_right _ measurable_const, lintegral_const, measure_univ, mul_one]
            _ ≤ (∑ k, ENNReal.ofReal (sm w b k) * h (x k b)) ^ 2 + H ^ 2 * δ + W := by
                refine add_le_add (hsec.trans ?_) le_rfl
                exact add_le_add le_rfl (mul_le_mul' le_rfl heven)
            _ = _ := by ring
      · have hb' : m b = false := by simpa using hb
        have hw : sm (selectW m w) b = sm w b := sm_congr _ _ b fun i => by simp [selectW, hb]
        have hx : ∀ a i, selectX m x a i b = x i b := by
          intro a i
          simp only [selectX, hb, Bool.false_eq_true, dite_false]
        constructor
        · simp only [hw, hx, lintegral_const, measure_univ, mul_one]
        · have h6 : ∀ a, ∫⁻ ω, U ((selectX m x a, selectW m w), ω) ^ 2 ∂P ≤
              (∑ i, ENNReal.ofReal (sm w b i) * h (x i b)) ^ 2 + W := by
            intro a
            have := (h2 (selectX m x a) (selectW m w)).2 (by rw [hw]; exact hkeep hb')
            simpa only [hw, hx] using this
          refine (lintegral_mono h6).trans ?_
          rw [lintegral_const, measure_univ, mul_one, ← add_assoc]
          exact le_self_add

/-- Pure prediction. -/
theorem estV_createState [IsProbabilityMeasure P] {M : ParticleModel N B d V Y Ω}
    {K : Fin B → ℕ → Kernel (Fin d → V) (Fin d → V)} (hK : IndependentTransitions P M.propagateValues K) {b : Fin B} {t : ℕ}
    {δ H W : ℝ≥0∞} {f : PCorr N B d V → Ω → XF × PCorr N B d V} {φ : PCorr N B d V → ℝ≥0∞} {h : (Fin d → V) → ℝ≥0∞}
    (hh : Measurable h) (hH : ∀ x, h x ≤ H) (hf : EstV P b (t + 1) f φ h W) :
    EstVP P b t δ (fun p ω => ((M.createState p ω).1.ll b + (f (M.createState p ω).1 (M.createState p ω).2).1,
        (f (M.createState p ω).1 (M.createState p ω).2).2)) φ
      (fun x => ∫⁻ x', h x' ∂(K b t x)) (W + H ^ 2 * δ) := by
  obtain ⟨U, hU, h1, h2⟩ := hf
  have hprop := hK.measurable t
  have hA : Measurable fun z : ZSt N B d V Ω =>
      (((M.propagateValues ⟨z.1.1, t⟩ z.2).1, z.1.2), (M.propagateValues ⟨z.1.1, t⟩ z.2).2) := by
    have h3 : Measurable fun z : ZSt N B d V Ω => M.propagateValues ⟨z.1.1, t⟩ z.2 :=
      hprop.comp ((measurable_fst.comp measurable_fst).prodMk measurable_snd)
    exact ((measurable_fst.comp h3).prodMk (measurable_snd.comp measurable_fst)).prodMk
      (measurable_snd.comp h3)
  refine ⟨_, hU.comp hA, ?_, ?_⟩
  · intro x w idx ω
    obtain ⟨r, hr1, hr3, hr2⟩ := h1 (M.propagateValues ⟨x, t⟩ ω).1 w (M.createState
      ⟨⟨x, t⟩, fun i b => fin (w i b), fun i b => fin (sm w b i), idx⟩ ω).1.ll idx (M.propagateValues ⟨x, t⟩ ω).2
    refine ⟨r, ?_, hr3, hr2⟩
    show fin 0 + (f ⟨⟨(M.propagateValues ⟨x, t⟩ ω).1, t + 1⟩, fun i b => fin (w i b), _, _⟩ _).1 = _
    refine (congrArg (fun z => fin 0 + z) hr1).trans ?_
    rw [fin_add, zero_add]
  · intro x w
    obtain ⟨ν, hν, hmarg, hpair⟩ := hK.draws ⟨x, t⟩
    have := hν.prob
    have h5 : Measurable fun q : (Fin N → Fin B → Fin d → V) × Ω => ((q.1, w), q.2) :=
      (measurable_fst.prodMk measurable_const).prodMk measurable_snd
    have hG := hU.comp h5
    have e1 := draws_lintegral hν hG
    have e2 := draws_lintegral hν (hG.pow_const 2)
    simp only [Function.comp] at e1 e2 ⊢
    rw [e1, e2]
    simp only [(h2 _ _).1]
    have hi : ∀ i, Measurable fun v : Fin N → Fin B → Fin d → V => v i b := fun i => by fun_prop
    have hmh : ∀ i, Measurable fun v : Fin N → Fin B → Fin d → V => h (v i b) := fun i => hh.comp (hi i)
    have hi1 : ∀ i, ∫⁻ v, h (v i b) ∂ν = ∫⁻ x', h x' ∂(K b t (x i b)) := by
      intro i
      rw [← lintegral_map hh (hi i), hmarg i b]
    constructor
    · rw [lintegral_finsetSum _ fun i _ => (hmh i).const_mul _]
      refine Finset.sum_congr rfl fun i _ => ?_
      rw [lintegral_const_mul _ (hmh i), hi1]
    · intro hδ
      have hind : ∀ i j : Fin N, i ≠ j → ∫⁻ v, h (v i b) * h (v j b) ∂ν
          = (∫⁻ v, h (v i b) ∂ν) * ∫⁻ v, h (v j b) ∂ν := by
        intro i j hij
        have hp1 : IsProbabilityMeasure (K b t (x i b)) := by
          rw [← hmarg i b]; exact Measure.isProbabilityMeasure_map (hi i).aemeasurable
        have hp2 : IsProbabilityMeasure (K b t (x j b)) := by
          rw [← hmarg j b]; exact Measure.isProbabilityMeasure_map (hi j).aemeasurable
        have hpp : Measurable fun q : (Fin d → V) × (Fin d → V) => h q.1 * h q.2 :=
          (hh.comp measurable_fst).mul (hh.comp measurable_snd)
        rw [← lintegral_map (f := fun q : (Fin d → V) × (Fin d → V) => h q.1 * h q.2) hpp ((hi i).prodMk (hi j)),
          hpair i j b hij, lintegral_prod_mul hh.aemeasurable hh.aemeasurable, hi1, hi1]
      have hsec := second_moment ν (fun i (v : Fin N → Fin B → Fin d → V) => h (v i b)) hmh
        (fun i => ENNReal.ofReal (sm w b i)) H (fun i => ae_of_all _ fun v => hH _) hind
      simp only [hi1] at hsec
      calc ∫⁻ v, ∫⁻ ω, U ((v, w), ω) ^ 2 ∂P ∂ν
          ≤ ∫⁻ v, ((∑ i, ENNReal.ofReal (sm w b i) * h (v i b)) ^ 2 + W) ∂ν :=
            lintegral_mono fun v => (h2 v w).2
        _ = (∫⁻ v, (∑ i, ENNReal.ofReal (sm w b i) * h (v i b)) ^ 2 ∂ν) + W := by
            rw [lintegral_add_right _ measurable_const, lintegral_const, measure_univ, mul_one]
        _ ≤ (∑ i, ENNReal.ofReal (sm w b i) * ∫⁻ x', h x' ∂(K b t (x i b))) ^ 2 + H ^ 2 * δ + W := by
            refine add_le_add (hsec.trans ?_) le_rfl
            exact add_le_add le_rfl (mul_le_mul' le_rfl hδ)
        _ = _ := by ring

/-- Correction of SISR. -/
theorem estV_sisrCorrect [IsProbabilityMeasure P] {M : ParticleModel N B d V Y Ω}
    {K : Fin B → ℕ → Kernel (Fin d → V) (Fin d → V)} {l : Fin B → Y → ℕ → (Fin d → V) → ℝ} {c : Y → ℝ}
    (hinc : M.kind.increment = 1)
    (hS : IndependentProposal P M.sampleValues K l c) (hN : 0 < N) {b : Fin B} {t : ℕ} (y : Y) {δ H W : ℝ≥0∞}
    {f : PCorr N B d V → Ω → XF × PCorr N B d V} {φ : PCorr N B d V → ℝ≥0∞} {h : (Fin d → V) → ℝ≥0∞}
    (hh : Measurable h) (hH : ∀ x, h x ≤ H) (hf : EstV P b (t + 1) f φ h W) :
    EstVP P b t δ (fun p ω => ((M.sisrCorrect y p ω).1.ll b + (f (M.sisrCorrect y p ω).1 (M.sisrCorrect y p ω).2).1,
        (f (M.sisrCorrect y p ω).1 (M.sisrCorrect y p ω).2).2)) φ
      (fun x => ∫⁻ x', ENNReal.ofReal (Real.exp (l b y (t + 1) x')) * h x' ∂(K b t x))
      (ENNReal.ofReal (Real.exp (c y)) ^ 2 * W + (ENNReal.ofReal (Real.exp (c y)) * H) ^ 2 * δ) := by
  classical
  obtain ⟨U, hU, h1, h2⟩ := hf
  obtain ⟨S, hSm, hSe, hSc, hSν⟩ := hS.sample y t
  let Z : (Fin N → Fin B → ℝ) → (Fin N → Fin B → ℝ) → ℝ := fun w l => ∑ i, sm w b i * Real.exp (l i b)
  have hZpos : ∀ w l, 0 < Z w l := fun w l => Finset.sum_pos
    (fun i _ => mul_pos (sm_pos w b i) (Real.exp_pos _)) ⟨⟨0, hN⟩, Finset.mem_univ _⟩
  have hZm : Measurable fun q : (Fin N → Fin B → ℝ) × (Fin N → Fin B → ℝ) => Z q.1 q.2 := by
    have h3 : ∀ i, Measurable fun q : (Fin N → Fin B → ℝ) × (Fin N → Fin B → ℝ) => sm q.1 b i :=
      fun i => (measurable_sm b i).comp measurable_fst
    exact Finset.measurable_sum _ fun i _ => (h3 i).mul (by fun_prop)
  have hS1 : Measurable fun z : ZSt N B d V Ω => S (z.1.1, z.2) :=
    hSm.comp ((measurable_fst.comp measurable_fst).prodMk measurable_snd)
  have hadd : Measurable fun q : (Fin N → Fin B → ℝ) × (Fin N → Fin B → ℝ) =>
      (fun i b => q.2 i b + q.1 i b : Fin N → Fin B → ℝ) := by fun_prop
  refine ⟨fun z => ENNReal.ofReal (Z z.1.2 (S (z.1.1, z.2)).1.2) *
      U (((S (z.1.1, z.2)).1.1, fun i b => (S (z.1.1, z.2)).1.2 i b + z.1.2 i b), (S (z.1.1, z.2)).2),
    ?_, ?_, ?_⟩
  · have hw : Measurable fun z : ZSt N B d V Ω => (z.1.2, (S (z.1.1, z.2)).1.2) :=
      (measurable_snd.comp measurable_fst).prodMk (measurable_snd.comp (measurable_fst.comp hS1))
    refine (hZm.comp hw).ennreal_ofReal.mul (hU.comp ?_)
    exact ((measurable_fst.comp (measurable_fst.comp hS1)).prodMk (hadd.comp hw)).prodMk
      (measurable_snd.comp hS1)
  · intro x w idx ω
    set p : PPred N B d V := ⟨⟨x, t⟩, fun i b => fin (w i b), fun i b => fin (sm w b i), idx⟩ with hp
    have hs := hSe p ω rfl
    have hc : M.sisrCorrect y p ω =
        (⟨⟨(S (x, ω)).1.1, t + 1⟩, fun i b => fin ((S (x, ω)).1.2 i b + w i b),
          logLikelihood (fun i b => fin ((S (x, ω)).1.2 i b)) (some fun i b => fin (sm w b i)), idx⟩,
          (S (x, ω)).2) := by
      unfold ParticleModel.sisrCorrect ParticleModel.sampleAndWeight
      rw [hs, hinc]
      rfl
    have hll : logLikelihood (fun i b => fin ((S (x, ω)).1.2 i b)) (some fun i b => fin (sm w b i)) b
        = fin (Real.log (Z w (S (x, ω)).1.2)) := by
      rw [logLikelihood_weighted _ _ b (sm w b) (fun _ => rfl) (sm_nonneg w b)
        (fun i => Or.inr ⟨_, rfl⟩) ⟨⟨0, hN⟩, _, rfl⟩]
      exact if_neg (hZpos w (S (x, ω)).1.2).ne'
    dsimp only
    rw [hc]
    dsimp only
    obtain ⟨r, hr1, hr3, hr2⟩ := h1 (S (x, ω)).1.1 (fun i b => (S (x, ω)).1.2 i b + w i b)
      (logLikelihood (fun i b => fin ((S (x, ω)).1.2 i b)) (some fun i b => fin (sm w b i))) idx (S (x, ω)).2
    refine ⟨Real.log (Z w (S (x, ω)).1.2) + r, by rw [hll, hr1, fin_add], hr3, ?_⟩
    rw [Real.exp_add, Real.exp_log (hZpos _ _), ENNReal.ofReal_mul (hZpos _ _).le, mul_assoc, hr2]
  · intro x w
    obtain ⟨ν, hν, hprop, hpair⟩ := hSν x
    have := hν.prob
    have hG : Measurable fun q : ((Fin N → Fin B → Fin d → V) × (Fin N → Fin B → ℝ)) × Ω =>
        ENNReal.ofReal (Z w q.1.2) * U ((q.1.1, fun i b => q.1.2 i b + w i b), q.2) := by
      have hw : Measurable fun q : ((Fin N → Fin B → Fin d → V) × (Fin N → Fin B → ℝ)) × Ω =>
          (w, q.1.2) := measurable_const.prodMk (measurable_snd.comp measurable_fst)
      refine (hZm.comp hw).ennreal_ofReal.mul (hU.comp ?_)
      exact ((measurable_fst.comp measurable_fst).prodMk (hadd.comp hw)).prodMk measurable_snd
    have hUm : ∀ q : (Fin N → Fin B → Fin d → V) × (Fin N → Fin B → ℝ),
        Measurable fun ω => U ((q.1, fun i b => q.2 i b + w i b), ω) :=
      fun q => hU.comp (measurable_const.prodMk measurable_id)
    have hsum : ∀ q : (Fin N → Fin B → Fin d → V) × (Fin N → Fin B → ℝ),
        ENNReal.ofReal (Z w q.2) * ∑ i, ENNReal.ofReal (sm (fun i b => q.2 i b + w i b) b i) * h (q.1 i b)
        = ∑ i, ENNReal.ofReal (sm w b i) * (ENNReal.ofReal (Real.exp (q.2 i b)) * h (q.1 i b)) := by
      intro q
      rw [Finset.mul_sum]
      refine Finset.sum_congr rfl fun i _ => ?_
      rw [← mul_assoc, ← mul_assoc, ← ENNReal.ofReal_mul (hZpos _ _).le,
        ← ENNReal.ofReal_mul (sm_nonneg _ _ _), sm_update]
    have hm : ∀ i, Measurable fun q : (Fin N → Fin B → Fin d → V) × (Fin N → Fin B → ℝ) =>
        ENNReal.ofReal (Real.exp (q.2 i b)) * h (q.1 i b) := by
      intro i
      have : Measurable fun q : (Fin N → Fin B → Fin d → V) × (Fin N → Fin B → ℝ) => q.1 i b := by fun_prop
      exact Measurable.mul (by fun_prop) (hh.comp this)
    have e1 := draws_lintegral hν hG
    have e2 := draws_lintegral hν (hG.pow_const 2)
    dsimp only at e1 e2 ⊢
    rw [e1, e2]
    constructor
    · have e3 : ∀ q : (Fin N → Fin B → Fin d → V) × (Fin N → Fin B → ℝ),
          ∫⁻ ω, ENNReal.ofReal (Z w q.2) * U ((q.1, fun i b => q.2 i b + w i b), ω) ∂P
          = ∑ i, ENNReal.ofReal (sm w b i) * (ENNReal.ofReal (Real.exp (q.2 i b)) * h (q.1 i b)) := by
        intro q
        rw [lintegral_const_mul _ (hUm q), (h2 _ _).1, hsum]
      simp only [e3]
      rw [lintegral_finsetSum _ fun i _ => (hm i).const_mul _]
      refine Finset.sum_congr rfl fun i _ => ?_
      rw [lintegral_const_mul _ (hm i), hprop i b h hh]
    · intro hδ
      have hbd : ∀ᵐ q ∂ν, ∀ i, q.2 i b ≤ c y := by
        refine ae_of_draws hν ?_ fun ω i => hSc _ i b
        have : {q : (Fin N → Fin B → Fin d → V) × (Fin N → Fin B → ℝ) | ∀ i, q.2 i b ≤ c y}
            = ⋂ i, {q | q.2 i b ≤ c y} := by ext; simp
        rw [this]
        exact MeasurableSet.iInter fun i => measurableSet_le (by fun_prop) measurable_const
      have hind : ∀ i j : Fin N, i ≠ j →
          ∫⁻ q, (ENNReal.ofReal (Real.exp (q.2 i b)) * h (q.1 i b)) * (ENNReal.ofReal (Real.exp (q.2 j b)) * h (q.1 j b)) ∂ν
          = (∫⁻ q, ENNReal.ofReal (Real.exp (q.2 i b)) * h (q.1 i b) ∂ν) *
            ∫⁻ q, ENNReal.ofReal (Real.exp (q.2 j b)) * h (q.1 j b) ∂ν := by
        intro i j hij
        have hk : Measurable fun u : (Fin d → V) × ℝ => ENNReal.ofReal (Real.exp u.2) * h u.1 :=
          Measurable.mul (by fun_prop) (hh.comp measurable_fst)
        have hq : ∀ i, Measurable fun q : (Fin N → Fin B → Fin d → V) × (Fin N → Fin B → ℝ) => (q.1 i b, q.2 i b) :=
          fun i => by fun_prop
        have hkk : Measurable fun u : ((Fin d → V) × ℝ) × ((Fin d → V) × ℝ) =>
            (ENNReal.ofReal (Real.exp u.1.2) * h u.1.1) * (ENNReal.ofReal (Real.exp u.2.2) * h u.2.1) :=
          (hk.comp measurable_fst).mul (hk.comp measurable_snd)
        have e4 := lintegral_map (μ := ν) hkk ((hq i).prodMk (hq j))
        rw [hpair i j b hij] at e4
        have hp1 := Measure.isProbabilityMeasure_map (μ := ν) (hq i).aemeasurable
        have hp2 := Measure.isProbabilityMeasure_map (μ := ν) (hq j).aemeasurable
        have e5 := lintegral_prod_mul (μ := ν.map fun q => (q.1 i b, q.2 i b)) (ν := ν.map fun q => (q.1 j b, q.2 j b))
          hk.aemeasurable hk.aemeasurable
        rw [lintegral_map hk (hq i), lintegral_map hk (hq j)] at e5
        exact e4.symm.trans e5
      have hsec := second_moment ν (fun i (q : (Fin N → Fin B → Fin d → V) × (Fin N → Fin B → ℝ)) =>
        ENNReal.ofReal (Real.exp (q.2 i b)) * h (q.1 i b)) hm (fun i => ENNReal.ofReal (sm w b i))
        (ENNReal.ofReal (Real.exp (c y)) * H)
        (fun i => hbd.mono fun q hq => mul_le_mul' (ENNReal.ofReal_le_ofReal (Real.exp_le_exp.2 (hq i))) (hH _)) hind
      have e6 : ∀ i, ∫⁻ q, ENNReal.ofReal (Real.exp (q.2 i b)) * h (q.1 i b) ∂ν
          = ∫⁻ x', ENNReal.ofReal (Real.exp (l b y (t + 1) x')) * h x' ∂(K b t (x i b)) := fun i => hprop i b h hh
      simp only [e6] at hsec
      have hZle : ∀ᵐ q ∂ν, ENNReal.ofReal (Z w q.2) ≤ ENNReal.ofReal (Real.exp (c y)) := by
        refine hbd.mono fun q hq => ENNReal.ofReal_le_ofReal ?_
        calc Z w q.2 ≤ ∑ i, sm w b i * Real.exp (c y) :=
              Finset.sum_le_sum fun i _ => mul_le_mul_of_nonneg_left (Real.exp_le_exp.2 (hq i)) (sm_nonneg w b i)
          _ = Real.exp (c y) := by rw [← Finset.sum_mul, (sm_isProb w b hN).2, one_mul]
      calc ∫⁻ q, ∫⁻ ω, (ENNReal.ofReal (Z w q.2) * U ((q.1, fun i b => q.2 i b + w i b), ω)) ^ 2 ∂P ∂ν
          ≤ ∫⁻ q, ((∑ i, ENNReal.ofReal (sm w b i) * (ENNReal.ofReal (Real.exp (q.2 i b)) * h (q.1 i b))) ^ 2
              + ENNReal.ofReal (Real.exp (c y)) ^ 2 * W) ∂ν := by
            refine lintegral_mono_ae (hZle.mono fun q hq => ?_)
            simp only [mul_pow]
            rw [lintegral_const_mul _ ((hUm q).pow_const 2)]
            calc ENNReal.ofReal (Z w q.2) ^ 2 * ∫⁻ ω, U ((q.1, fun i b => q.2 i b + w i b), ω) ^ 2 ∂P
                ≤ ENNReal.ofReal (Z w q.2) ^ 2 * ((∑ i, ENNReal.ofReal (sm (fun i b => q.2 i b + w i b) b i) *
                    h (q.1 i b)) ^ 2 + W) := mul_le_mul' le_rfl (h2 _ _).2
              _ = (∑ i, ENNReal.ofReal (sm w b i) * (ENNReal.ofReal (Real.exp (q.2 i b)) * h (q.1 i b))) ^ 2
                  + ENNReal.ofReal (Z w q.2) ^ 2 * W := by rw [mul_add, ← mul_pow, hsum]
              _ ≤ _ := add_le_add le_rfl (mul_le_mul' (pow_le_pow_left' hq 2) le_rfl)
        _ = (∫⁻ q, (∑ i, ENNReal.ofReal (sm w b i) * (ENNReal.ofReal (Real.exp (q.2 i b)) * h (q.1 i b))) ^ 2 ∂ν)
              + ENNReal.ofReal (Real.exp (c y)) ^ 2 * W := by
            rw [lintegral_add_right _ measurable_const, lintegral_const, measure_univ, mul_one]
        _ ≤ _ := by
            refine (add_le_add (hsec.trans (add_le_add le_rfl (mul_le_mul' le_rfl hδ))) le_rfl).trans ?_
            rw [add_assoc, add_comm ((ENNReal.ofReal (Real.exp (c y)) * H) ^ 2 * δ)]

/-- Estimates from the initial state. -/
theorem estV_initial [IsProbabilityMeasure P] (hN : 0 < N) {init : Ω → (Fin N → Fin B → Fin d → V) × Ω}
    {μ : Fin B → Measure (Fin d → V)} (hi : IndependentInitial P init μ) {b : Fin B} {H W : ℝ≥0∞}
    {f : PCorr N B d V → Ω → XF × PCorr N B d V} {φ : PCorr N B d V → ℝ≥0∞} {h : (Fin d → V) → ℝ≥0∞}
    (hh : Measurable h) (hH : ∀ x, h x ≤ H) (hf : EstV P b 0 f φ h W) (lo : ℝ) :
    ∃ U : Ω → ℝ≥0∞, Measurable U ∧
      (∀ ω, ∃ r, (f (initializeFilter lo (init ω).1) (init ω).2).1 = fin r ∧
        (∃ w' : Fin N → Fin B → ℝ, (f (initializeFilter lo (init ω).1) (init ω).2).2.w = fun i b => fin (w' i b)) ∧
        ENNReal.ofReal (Real.exp r) * φ (f (initializeFilter lo (init ω).1) (init ω).2).2 = U ω) ∧
      ∫⁻ ω, U ω ∂P = ∫⁻ x, h x ∂(μ b) ∧
      ∫⁻ ω, U ω ^ 2 ∂P ≤ (∫⁻ x, h x ∂(μ b)) ^ 2 + (W + H ^ 2 * ENNReal.ofReal (1 / N)) := by
  obtain ⟨U, hU, h1, h2⟩ := hf
  obtain ⟨ν, hν, hm, hpair⟩ := hi
  have := hν.prob
  have h5 : Measurable fun q : (Fin N → Fin B → Fin d → V) × Ω => ((q.1, (fun _ _ => 0 : Fin N → Fin B → ℝ)), q.2) :=
    (measurable_fst.prodMk measurable_const).prodMk measurable_snd
  have hG := hU.comp h5
  have e1 := draws_lintegral hν hG
  have e2 := draws_lintegral hν (hG.pow_const 2)
  simp only [Function.comp] at e1 e2
  refine ⟨fun ω => U (((init ω).1, fun _ _ => 0), (init ω).2), hG.comp hν.measurable,
    fun ω => h1 (init ω).1 (fun _ _ => 0) _ _ (init ω).2, ?_⟩
  rw [e1, e2]
  simp only [(h2 _ _).1]
  have hs : ∀ i, sm (fun _ _ => 0 : Fin N → Fin B → ℝ) b i = 1 / (N : ℝ) := sm_zero _ b fun _ => rfl
  have hi : ∀ i, Measurable fun v : Fin N → Fin B → Fin d → V => v i b := fun i => by fun_prop
  have hmh : ∀ i, Measurable fun v : Fin N → Fin B → Fin d → V => h (v i b) := fun i => hh.comp (hi i)
  have hi1 : ∀ i, ∫⁻ v, h (v i b) ∂ν = ∫⁻ x, h x ∂(μ b) := by
    intro i
    rw [← lintegral_map hh (hi i), hm i b]
  have hmean : ∑ i : Fin N, ENNReal.ofReal (sm (fun _ _ => 0 : Fin N → Fin B → ℝ) b i) * (∫⁻ v, h (v i b) ∂ν)
      = ∫⁻ x, h x ∂(μ b) := by
    simp only [hi1, hs]
    rw [Finset.sum_const, Finset.card_univ, Fintype.card_fin, nsmul_eq_mul, ← mul_assoc,
      ← ENNReal.ofReal_natCast, ← ENNReal.ofReal_mul (Nat.cast_nonneg N),
      mul_one_div_cancel (by exact_mod_cast hN.ne'), ENNReal.ofReal_one, one_mul]
  constructor
  · rw [lintegral_finsetSum _ fun i _ => (hmh i).const_mul _, ← hmean]
    exact Finset.sum_congr rfl fun i _ => lintegral_const_mul _ (hmh i)
  · have hp : IsProbabilityMeasure (μ b) := by
      rw [← hm ⟨0, hN⟩ b]; exact Measure.isProbabilityMeasure_map (hi _).aemeasurable
    have hind : ∀ i j : Fin N, i ≠ j → ∫⁻ v, h (v i b) * h (v j b) ∂ν
        = (∫⁻ v, h (v i b) ∂ν) * ∫⁻ v, h (v j b) ∂ν := by
      intro i j hij
      have hpp : Measurable fun q : (Fin d → V) × (Fin d → V) => h q.1 * h q.2 :=
        (hh.comp measurable_fst).mul (hh.comp measurable_snd)
      rw [← lintegral_map (f := fun q : (Fin d → V) × (Fin d → V) => h q.1 * h q.2) hpp ((hi i).prodMk (hi j)),
        hpair i j b hij, lintegral_prod_mul hh.aemeasurable hh.aemeasurable, hi1, hi1]
    have hsec := second_moment ν (fun i (v : Fin N → Fin B → Fin d → V) => h (v i b)) hmh
      (fun i => ENNReal.ofReal (sm (fun _ _ => 0 : Fin N → Fin B → ℝ) b i)) H (fun i => ae_of_all _ fun v => hH _) hind
    rw [hmean] at hsec
    calc ∫⁻ v, ∫⁻ ω, U ((v, fun _ _ => 0), ω) ^ 2 ∂P ∂ν
        ≤ ∫⁻ v, ((∑ i, ENNReal.ofReal (sm (fun _ _ => 0 : Fin N → Fin B → ℝ) b i) * h (v i b)) ^ 2 + W) ∂ν :=
          lintegral_mono fun v => (h2 v _).2
      _ = (∫⁻ v, (∑ i, ENNReal.ofReal (sm (fun _ _ => 0 : Fin N → Fin B → ℝ) b i) * h (v i b)) ^ 2 ∂ν) + W := by
          rw [lintegral_add_right _ measurable_const, lintegral_const, measure_univ, mul_one]
      _ ≤ (∫⁻ x, h x ∂(μ b)) ^ 2 + H ^ 2 * ENNReal.ofReal (1 / N) + W := by
          refine add_le_add (hsec.trans ?_) le_rfl
          exact add_le_add le_rfl (mul_le_mul' le_rfl (sum_sq_even b _ hs))
      _ = _ := by ring

/-! ## All steps -/

/-- Averages are measurable. -/
theorem measurable_likAvg {X : Type} [MeasurableSpace X] (K : ℕ → Kernel X X) (g : Y → ℕ → X → ℝ≥0∞)
    (hg : ∀ y t, Measurable (g y t)) {φ : X → ℝ≥0∞} (hφ : Measurable φ) :
    ∀ (os : List (Option Y)) (t : ℕ), Measurable (likAvg K g φ os t)
  | [], _ => hφ
  | none :: os, t => by
    have := measurable_likAvg K g hg hφ os (t + 1)
    simp only [likAvg]
    exact this.lintegral_kernel
  | some y :: os, t => by
    have := (hg y (t + 1)).mul (measurable_likAvg K g hg hφ os (t + 1))
    simp only [likAvg]
    exact Measurable.lintegral_kernel this

theorem likAvg_one {X : Type} [MeasurableSpace X] (K : ℕ → Kernel X X) (g : Y → ℕ → X → ℝ≥0∞) :
    ∀ (os : List (Option Y)) (t : ℕ), likAvg K g (fun _ => 1) os t = lik K g os t
  | [], _ => rfl
  | none :: os, t => by
    funext x
    simp only [likAvg, lik, likAvg_one K g os (t + 1)]
  | some y :: os, t => by
    funext x
    simp only [likAvg, lik, likAvg_one K g os (t + 1)]

theorem boundOf_pos (c : Y → ℝ) : ∀ os : List (Option Y), 0 < boundOf c os
  | [] => one_pos
  | none :: os => boundOf_pos c os
  | some y :: os => mul_pos (Real.exp_pos _) (boundOf_pos c os)

/-- Averages are bounded. -/
theorem likAvg_le [IsProbabilityMeasure P] (hN : 0 < N) {M : ParticleModel N B d V Y Ω}
    {K : Fin B → ℕ → Kernel (Fin d → V) (Fin d → V)} (hK : IndependentTransitions P M.propagateValues K)
    {logg : Fin B → Y → ℕ → (Fin d → V) → ℝ} (hlogg : ∀ b y t, Measurable (logg b y t)) {c : Y → ℝ}
    (hS : IndependentProposal P M.sampleValues K logg c) (b : Fin B) {φ : (Fin d → V) → ℝ≥0∞} (hφ : Measurable φ)
    (hφ1 : ∀ x, φ x ≤ 1) : ∀ (os : List (Option Y)) (t : ℕ) (x : Fin d → V),
    likAvg (K b) (fun y t x => ENNReal.ofReal (Real.exp (logg b y t x))) φ os t x ≤ ENNReal.ofReal (boundOf c os)
  | [], t, x => by simpa [likAvg, boundOf] using hφ1 x
  | none :: os, t, x => by
    obtain ⟨ν, hν, hm, -⟩ := hK.draws ⟨fun _ _ => x, t⟩
    have := hν.prob
    have hp : IsProbabilityMeasure (K b t x) := by
      rw [← hm ⟨0, hN⟩ b]
      exact Measure.isProbabilityMeasure_map ((measurable_pi_apply b).comp (measurable_pi_apply _)).aemeasurable
    simp only [likAvg, boundOf]
    refine (lintegral_mono fun x' => likAvg_le hN hK hlogg hS b hφ hφ1 os (t + 1) x').trans ?_
    rw [lintegral_const, measure_univ, mul_one]
  | some y :: os, t, x => by
    obtain ⟨S, hSm, -, hSc, hSν⟩ := hS.sample y t
    obtain ⟨ν, hν, hprop, -⟩ := hSν fun _ _ => x
    have := hν.prob
    have hbd : ∀ᵐ q ∂ν, q.2 ⟨0, hN⟩ b ≤ c y :=
      ae_of_draws hν (measurableSet_le (by fun_prop) measurable_const) fun ω => hSc _ _ _
    have hml : Measurable (likAvg (K b) (fun y t x => ENNReal.ofReal (Real.exp (logg b y t x))) φ os (t + 1)) :=
      measurable_likAvg _ _ (fun y t => (Real.measurable_exp.comp (hlogg b y t)).ennreal_ofReal) hφ os (t + 1)
    simp only [likAvg, boundOf]
    rw [← hprop ⟨0, hN⟩ b _ hml,
      ENNReal.ofReal_mul (Real.exp_pos _).le]
    refine (lintegral_mono_ae (hbd.mono fun q hq => mul_le_mul' (ENNReal.ofReal_le_ofReal (Real.exp_le_exp.2 hq))
      (likAvg_le hN hK hlogg hS b hφ hφ1 os (t + 1) _))).trans ?_
    rw [lintegral_const, measure_univ, mul_one]

/-- Likelihoods are positive. -/
theorem lik_pos [IsProbabilityMeasure P] (hN : 0 < N) {M : ParticleModel N B d V Y Ω}
    {K : Fin B → ℕ → Kernel (Fin d → V) (Fin d → V)} (hK : IndependentTransitions P M.propagateValues K)
    {logg : Fin B → Y → ℕ → (Fin d → V) → ℝ} (hlogg : ∀ b y t, Measurable (logg b y t)) (b : Fin B) :
    ∀ (os : List (Option Y)) (t : ℕ) (x : Fin d → V),
    0 < lik (K b) (fun y t x => ENNReal.ofReal (Real.exp (logg b y t x))) os t x
  | [], t, x => by simp [lik]
  | o :: os, t, x => by
    obtain ⟨ν, hν, hm, -⟩ := hK.draws ⟨fun _ _ => x, t⟩
    have := hν.prob
    have hp : IsProbabilityMeasure (K b t x) := by
      rw [← hm ⟨0, hN⟩ b]
      exact Measure.isProbabilityMeasure_map ((measurable_pi_apply b).comp (measurable_pi_apply _)).aemeasurable
    have hml := measurable_lik (K b) (fun y t x => ENNReal.ofReal (Real.exp (logg b y t x)))
      (fun y t => (Real.measurable_exp.comp (hlogg b y t)).ennreal_ofReal) os (t + 1)
    have key : ∀ f : (Fin d → V) → ℝ≥0∞, Measurable f → (∀ x, 0 < f x) → 0 < ∫⁻ x', f x' ∂(K b t x) := by
      intro f hf hpos
      rw [lintegral_pos_iff_support hf]
      have : Function.support f = Set.univ := by
        ext u
        simp [(hpos u).ne']
      rw [this, measure_univ]
      exact one_pos
    cases o with
    | none => exact key _ hml fun u => lik_pos hN hK hlogg b os (t + 1) u
    | some y =>
      exact key _ ((Real.measurable_exp.comp (hlogg b y (t + 1))).ennreal_ofReal.mul hml) fun u =>
        ENNReal.mul_pos (ENNReal.ofReal_pos.2 (Real.exp_pos _)).ne' (lik_pos hN hK hlogg b os (t + 1) u).ne'

/-- Average of `φ` over the particles of a state. -/
noncomputable def stateAvg (lo : ℝ) (b : Fin B) (φ : (Fin d → V) → ℝ≥0∞) (c : PCorr N B d V) : ℝ≥0∞ :=
  ∑ i, ENNReal.ofReal (colProb lo c.w b i) * φ (c.x.value i b)

/-- Elementary steps of SISR from a state. -/
theorem sisr_runO [IsProbabilityMeasure P] (hN : 0 < N) (M : ParticleModel N B d V Y Ω)
    (hinc : M.kind.increment = 1) (hr : IndependentResampler P M.resampler) (hthr : 0 < M.threshold)
    {K : Fin B → ℕ → Kernel (Fin d → V) (Fin d → V)} (hK : IndependentTransitions P M.propagateValues K)
    {logg : Fin B → Y → ℕ → (Fin d → V) → ℝ} (hlogg : ∀ b y t, Measurable (logg b y t)) {c : Y → ℝ}
    (hS : IndependentProposal P M.sampleValues K logg c) (b : Fin B) {δ : ℝ≥0∞}
    (hδN : ENNReal.ofReal (1 / N) ≤ δ) (hδt : ENNReal.ofReal (1 / M.threshold) ≤ δ)
    {φ : (Fin d → V) → ℝ≥0∞} (hφ : Measurable φ) (hφ1 : ∀ x, φ x ≤ 1) : ∀ (os : List (Option Y)) (t : ℕ),
    EstV P b t ((FilterKind.sisr.ops M).runO (fun c => c.ll b) os) (stateAvg M.lo b φ)
      (likAvg (K b) (fun y t x => ENNReal.ofReal (Real.exp (logg b y t x))) φ os t)
      (2 * os.length * (ENNReal.ofReal (boundOf c os)) ^ 2 * δ)
  | [], t => by
    refine ⟨fun z => ∑ i, ENNReal.ofReal (sm z.1.2 b i) * φ (z.1.1 i b), ?_, fun x w ll prev ω => ⟨0, rfl, ⟨w, rfl⟩, ?_⟩, fun x w => ?_⟩
    · refine Finset.measurable_sum _ fun i _ => ?_
      have h1 : Measurable fun z : ZSt N B d V Ω => sm z.1.2 b i :=
        (measurable_sm b i).comp (measurable_snd.comp measurable_fst)
      have h2 : Measurable fun z : ZSt N B d V Ω => z.1.1 i b := by fun_prop
      exact h1.ennreal_ofReal.mul (hφ.comp h2)
    · rw [Real.exp_zero, ENNReal.ofReal_one, one_mul]
      rfl
    · simp only [lintegral_const, measure_univ, mul_one, likAvg]
      exact ⟨trivial, le_self_add⟩
  | none :: os, t => by
    have h1 := estV_createState P hK (δ := δ) (measurable_likAvg (K b) _
      (fun y t => (Real.measurable_exp.comp (hlogg b y t)).ennreal_ofReal) hφ os (t + 1))
      (likAvg_le P hN hK hlogg hS b hφ hφ1 os (t + 1)) (sisr_runO hN M hinc hr hthr hK hlogg hS b hδN hδt hφ hφ1 os (t + 1))
    have h2 := estV_sisrPredict P hN hr hthr hδN hδt (likAvg_le P hN hK hlogg hS b hφ hφ1 (none :: os) t) h1
    have e : 2 * ((none :: os : List (Option Y)).length : ℝ≥0∞) * (ENNReal.ofReal (boundOf c (none :: os))) ^ 2 * δ
        = 2 * os.length * (ENNReal.ofReal (boundOf c os)) ^ 2 * δ + (ENNReal.ofReal (boundOf c os)) ^ 2 * δ
          + (ENNReal.ofReal (boundOf c (none :: os))) ^ 2 * δ := by
      simp only [boundOf, List.length_cons]
      push_cast
      ring
    rw [e]
    exact h2
  | some y :: os, t => by
    have h1 := estV_sisrCorrect P hinc hS hN y (δ := δ) (measurable_likAvg (K b) _
      (fun y t => (Real.measurable_exp.comp (hlogg b y t)).ennreal_ofReal) hφ os (t + 1))
      (likAvg_le P hN hK hlogg hS b hφ hφ1 os (t + 1)) (sisr_runO hN M hinc hr hthr hK hlogg hS b hδN hδt hφ hφ1 os (t + 1))
    have h2 := estV_sisrPredict P hN hr hthr hδN hδt (likAvg_le P hN hK hlogg hS b hφ hφ1 (some y :: os) t) h1
    have e : 2 * ((some y :: os : List (Option Y)).length : ℝ≥0∞) * (ENNReal.ofReal (boundOf c (some y :: os))) ^ 2 * δ
        = ENNReal.ofReal (Real.exp (c y)) ^ 2 * (2 * os.length * (ENNReal.ofReal (boundOf c os)) ^ 2 * δ)
          + (ENNReal.ofReal (Real.exp (c y)) * ENNReal.ofReal (boundOf c os)) ^ 2 * δ
          + (ENNReal.ofReal (boundOf c (some y :: os))) ^ 2 * δ := by
      simp only [boundOf, List.length_cons, ENNReal.ofReal_mul (Real.exp_pos _).le]
      push_cast
      ring
    rw [e]
    exact h2

/-- Mean squared error from first and second moment. -/
theorem mse_of_moments [IsProbabilityMeasure P] {u : Ω → ℝ} (hu : ∀ ω, 0 ≤ u ω)
    (hm : Measurable fun ω => ENNReal.ofReal (u ω)) {L W : ℝ≥0∞} (hL : L ≠ ⊤)
    (h1 : ∫⁻ ω, ENNReal.ofReal (u ω) ∂P = L) (h2 : ∫⁻ ω, ENNReal.ofReal (u ω) ^ 2 ∂P ≤ L ^ 2 + W) :
    ∫⁻ ω, ENNReal.ofReal ((u ω - L.toReal) ^ 2) ∂P ≤ W := by
  have e : ∀ ω, ENNReal.ofReal ((u ω - L.toReal) ^ 2) + 2 * L * ENNReal.ofReal (u ω)
      = ENNReal.ofReal (u ω) ^ 2 + L ^ 2 := by
    intro ω
    conv_lhs => rw [← ENNReal.ofReal_toReal hL]
    conv_rhs => rw [← ENNReal.ofReal_toReal hL]
    rw [ENNReal.toReal_ofReal ENNReal.toReal_nonneg, ← ENNReal.ofReal_pow (hu ω),
      ← ENNReal.ofReal_pow ENNReal.toReal_nonneg, ← ENNReal.ofReal_ofNat 2,
      ← ENNReal.ofReal_mul (by norm_num), ← ENNReal.ofReal_mul (mul_nonneg (by norm_num) ENNReal.toReal_nonneg),
      ← ENNReal.ofReal_add (sq_nonneg _) (mul_nonneg (mul_nonneg (by norm_num) ENNReal.toReal_nonneg) (hu ω)),
      ← ENNReal.ofReal_add (sq_nonneg _) (sq_nonneg _)]
    congr 1
    ring
  have h3 : (∫⁻ ω, ENNReal.ofReal ((u ω - L.toReal) ^ 2) ∂P) + 2 * L * L
      = (∫⁻ ω, ENNReal.ofReal (u ω) ^ 2 ∂P) + L ^ 2 := by
    have h4 := lintegral_congr (μ := P) e
    rw [lintegral_add_right _ (hm.const_mul _), lintegral_const_mul _ hm, h1, lintegral_add_right _ measurable_const,
      lintegral_const, measure_univ, mul_one] at h4
    exact h4
  have h5 : (∫⁻ ω, ENNReal.ofReal ((u ω - L.toReal) ^ 2) ∂P) + 2 * L * L ≤ W + 2 * L * L := by
    rw [h3]
    calc (∫⁻ ω, ENNReal.ofReal (u ω) ^ 2 ∂P) + L ^ 2 ≤ L ^ 2 + W + L ^ 2 := add_le_add h2 le_rfl
      _ = W + 2 * L * L := by ring
  exact (ENNReal.add_le_add_iff_right (ENNReal.mul_ne_top (ENNReal.mul_ne_top (by norm_num) hL) hL)).1 h5

end

end Verif.Unbiased
