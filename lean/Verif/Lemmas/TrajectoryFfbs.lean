import Verif.Lemmas.TrajectoryError

/-!
# Backward simulation after a run
-/

namespace Verif.Trajectory

open Verif Verif.Spec Verif.Unbiased XF MeasureTheory ProbabilityTheory
open scoped ENNReal

variable {N B d : ℕ} {V Y Ω : Type} [MeasurableSpace Ω] [MeasurableSpace V]

/-- Everybody at `v`. -/
def start (v : Fin N → Fin B → Fin d → V) : System N B d V := fun _ => (fun i _ => i, v)

theorem measurable_start : Measurable (start : (Fin N → Fin B → Fin d → V) → System N B d V) := by
  unfold start
  rw [measurable_pi_iff]
  exact fun _ => measurable_const.prodMk measurable_id

/-- The observation of every time: none at time 0. -/
def obsAt (os : List (Option Y)) : ℕ → Option Y
  | 0 => none
  | n + 1 => os.getD n none

theorem obsAt_eq (os : List (Option Y)) (j : ℕ) : obsAt os (0 + j) = (none :: os).getD j none := by
  rw [Nat.zero_add]
  cases j <;> simp [obsAt]

omit [MeasurableSpace V] in
theorem initialize_eq (logg : Fin B → Y → ℕ → (Fin d → V) → ℝ) (lo : ℝ) (v : Fin N → Fin B → Fin d → V) :
    initializeFilter lo v = ⟨⟨v, 0⟩, fun i b => fin (weightsAt logg none 0 v i b), fun _ => fin 0, fun i _ => i⟩ := by
  unfold initializeFilter PCorr.mk'
  rw [normalize2_fin]
  rfl

variable {r : {b : ℕ} → (Fin N → Fin b → XF) → Bool → Ω → (Fin N → Fin b → Fin N) × Ω}
    {propagate : TS N B d V → Ω → (Fin N → Fin B → Fin d → V) × Ω} {P : Measure Ω}
    (lo threshold : ℝ) (pre : Y → TS N B d V → Fin N → Fin B → XF) (missing : Y → Bool)

omit [MeasurableSpace V] in
theorem weight_sum (hN : 0 < N) (logg : Fin B → Y → ℕ → (Fin d → V) → ℝ) (b : Fin B) (L : ℕ → Option Y) (t : ℕ)
    (x : Fin N → Fin d → V) : ∑ k, normWeight logg b L t x k = 1 := by
  have hS : 0 < ∑ j, Real.exp (obsLog logg (L t) t b (x j)) :=
    Finset.sum_pos (fun _ _ => Real.exp_pos _) ⟨⟨0, hN⟩, Finset.mem_univ _⟩
  unfold normWeight
  rw [← ENNReal.ofReal_sum_of_nonneg fun k _ => div_nonneg (Real.exp_pos _).le hS.le, ← Finset.sum_div, div_self hS.ne',
    ENNReal.ofReal_one]

omit [MeasurableSpace V] in
theorem mix_pos (hN : 0 < N) (logg : Fin B → Y → ℕ → (Fin d → V) → ℝ) (lf : Fin B → ℕ → (Fin d → V) → (Fin d → V) → ℝ)
    (b : Fin B) (L : ℕ → Option Y) (t : ℕ) (x : Fin N → Fin d → V) (y : Fin d → V) :
    ∑ k, normWeight logg b L t x k * dens lf b t (x k) y ≠ 0 := by
  have hS : 0 < ∑ j, Real.exp (obsLog logg (L t) t b (x j)) :=
    Finset.sum_pos (fun _ _ => Real.exp_pos _) ⟨⟨0, hN⟩, Finset.mem_univ _⟩
  intro h
  rw [Finset.sum_eq_zero_iff] at h
  have := h ⟨0, hN⟩ (Finset.mem_univ _)
  rw [mul_eq_zero] at this
  unfold normWeight dens at this
  rcases this with h | h
  · exact absurd (ENNReal.ofReal_eq_zero.1 h) (not_le.2 (div_pos (Real.exp_pos _) hS))
  · exact absurd (ENNReal.ofReal_eq_zero.1 h) (not_le.2 (Real.exp_pos _))

omit [MeasurableSpace V] in
theorem mix_fin (logg : Fin B → Y → ℕ → (Fin d → V) → ℝ) (lf : Fin B → ℕ → (Fin d → V) → (Fin d → V) → ℝ)
    (b : Fin B) (L : ℕ → Option Y) (t : ℕ) (x : Fin N → Fin d → V) (y : Fin d → V) :
    ∑ k, normWeight logg b L t x k * dens lf b t (x k) y ≠ ∞ :=
  ENNReal.sum_ne_top.2 fun _ _ => ENNReal.mul_ne_top ENNReal.ofReal_ne_top ENNReal.ofReal_ne_top

/-- The states of a run and the generator afterwards. -/
theorem run_facts [IsProbabilityMeasure P] (hN : 0 < N) (b : Fin B) (ht : (N : ℝ) < threshold)
    (hr : MutualResampler P r) {K : Fin B → ℕ → Kernel (Fin d → V) (Fin d → V)} (hK : MutualTransitions P propagate K)
    (lam : Measure (Fin d → V)) [SigmaFinite lam] (lf : Fin B → ℕ → (Fin d → V) → (Fin d → V) → ℝ)
    (hlf : ∀ b t, Measurable fun q : (Fin d → V) × (Fin d → V) => lf b t q.1 q.2)
    (hKd : ∀ t x, K b t x = lam.withDensity (dens lf b t x))
    {logg : Fin B → Y → ℕ → (Fin d → V) → ℝ} (hlogg : ∀ b y t, Measurable (logg b y t))
    {init : Ω → (Fin N → Fin B → Fin d → V) × Ω} {μ : Fin B → Measure (Fin d → V)} (hinit : MutualInitial P init μ)
    (os : List (Option Y)) :
    ∃ (Q : Ω → System N B d V) (E : Ω → Ω), Measurable Q ∧ Measurable E ∧
      (∀ ω, Q ω = extend (start (init ω).1) 0 ((FilterKind.sisr.ops (bootSisr logg lo threshold r propagate pre missing)).traceO os
          (initializeFilter lo (init ω).1) (init ω).2).1 ∧
        E ω = ((FilterKind.sisr.ops (bootSisr logg lo threshold r propagate pre missing)).traceO os
          (initializeFilter lo (init ω).1) (init ω).2).2) ∧
      (∀ H : System N B d V × Ω → ℝ≥0∞, Measurable H → ∫⁻ ω, H (Q ω, E ω) ∂P = ∫⁻ ω, ∫⁻ ω', H (Q ω, ω') ∂P ∂P) ∧
      ∀ (Φ : (ℕ → Fin d → V) → ℝ≥0∞), Measurable Φ → ∀ (Ψ : (ℕ → Fin N → Fin d → V) → ℝ≥0∞), Measurable Ψ →
        ∀ (i : Fin N) (p : ℕ → Fin d → V),
        ∫⁻ ω, Ψ (pos (column b (Q ω))) * Φ (gen os.length (column b (Q ω)) i p) ∂P
          = ∫⁻ ω, Ψ (pos (column b (Q ω))) *
              back (dens lf b) (normWeight logg b (obsAt os)) Φ os.length (column b (Q ω)) i p ∂P := by
  have hf : ∀ t, Measurable fun q : (Fin d → V) × (Fin d → V) => dens lf b t q.1 q.2 := fun t =>
    ENNReal.measurable_ofReal.comp (Real.measurable_exp.comp (hlf b t))
  have hW := measurable_normWeight (N := N) hlogg b (obsAt os)
  obtain ⟨R, hR, hR1, hR2, hR3⟩ := run_system lo threshold pre missing hN b ht hr hK lam (dens lf b) hf hKd hlogg (obsAt os) os 0
    none fun j _ => obsAt_eq os j
  obtain ⟨-, ν, hν, -⟩ := hinit
  have hS : Measurable fun z : (Fin N → Fin B → Fin d → V) × Ω => R ((start z.1, z.1), z.2) :=
    hR.comp (((measurable_start.comp measurable_fst).prodMk measurable_fst).prodMk measurable_snd)
  have hSi : Measurable fun ω => R ((start (init ω).1, (init ω).1), (init ω).2) := hS.comp hν.measurable
  refine ⟨fun ω => (R ((start (init ω).1, (init ω).1), (init ω).2)).1, fun ω => (R ((start (init ω).1, (init ω).1), (init ω).2)).2,
    measurable_fst.comp hSi, measurable_snd.comp hSi, fun ω => ?_, fun H hH => ?_, fun Φ hΦ Ψ hΨ i p => ?_⟩
  · rw [initialize_eq logg]
    have h := hR1 (start (init ω).1) (init ω).1 (fun _ => fin 0) (fun i _ => i) (init ω).2
    exact ⟨(congrArg Prod.fst h).symm, (congrArg Prod.snd h).symm⟩
  · have h1 : Measurable fun z : (Fin N → Fin B → Fin d → V) × Ω => H (R ((start z.1, z.1), z.2)) := hH.comp hS
    have h2 : Measurable fun z : ((Fin N → Fin B → Fin d → V) × Ω) × Ω => H ((R ((start z.1.1, z.1.1), z.1.2)).1, z.2) :=
      hH.comp ((measurable_fst.comp (hS.comp measurable_fst)).prodMk measurable_snd)
    have h3 : Measurable fun z : (Fin N → Fin B → Fin d → V) × Ω => ∫⁻ ω', H ((R ((start z.1, z.1), z.2)).1, ω') ∂P :=
      h2.lintegral_prod_right'
    have e1 := draws_lintegral hν h1
    have e2 := draws_lintegral hν h3
    refine e1.trans (Eq.trans ?_ e2.symm)
    exact lintegral_congr fun v => hR2 H hH (start v) v
  · have hc : Measurable fun q : Traj N (Fin d → V) => Ψ (pos q) := hΨ.comp measurable_pos
    have hg : Measurable fun q : Traj N (Fin d → V) => Φ (gen os.length q i p) :=
      hΦ.comp (measurable_gen os.length i measurable_id measurable_const)
    have hb : Measurable fun q : Traj N (Fin d → V) =>
        back (dens lf b) (normWeight logg b (obsAt os)) Φ os.length q i p :=
      measurable_back hf hW hΦ os.length i measurable_id measurable_const
    have hF1 : Measurable fun q : Traj N (Fin d → V) => Ψ (pos q) * Φ (gen os.length q i p) := hc.mul hg
    have hF2 : Measurable fun q : Traj N (Fin d → V) => Ψ (pos q) *
        back (dens lf b) (normWeight logg b (obsAt os)) Φ os.length q i p := hc.mul hb
    have hcol : Measurable fun z : (Fin N → Fin B → Fin d → V) × Ω => column b (R ((start z.1, z.1), z.2)).1 :=
      (measurable_columnOf b).comp (measurable_fst.comp hS)
    have e1 := draws_lintegral hν (hF1.comp hcol)
    have e2 := draws_lintegral hν (hF2.comp hcol)
    refine e1.trans (Eq.trans ?_ e2.symm)
    refine lintegral_congr fun v => ?_
    refine (hR3 _ hF1 (start v) v rfl).trans (Eq.trans ?_ (hR3 _ hF2 (start v) v rfl).symm)
    exact trajAvg_gen lam hf hW (mix_pos hN logg lf b (obsAt os)) (mix_fin logg lf b (obsAt os)) hΦ os.length Ψ hΨ i p _

/-- The weighted average over ancestral paths. -/
noncomputable def genAvg (W : ℕ → (Fin N → Fin d → V) → Fin N → ℝ≥0∞)
    (Φ : (ℕ → Fin d → V) → ℝ≥0∞) (T : ℕ) (p : ℕ → Fin d → V) (q : Traj N (Fin d → V)) : ℝ≥0∞ :=
  ∑ k, W T (q T).2 k * Φ (gen T q k p)

/-- The error of backward simulation against that of the weighted average over ancestral paths. -/
theorem ffbs_core [IsProbabilityMeasure P] (hN : 0 < N) (b : Fin B) (hrl : IndependentLogResampler P r)
    (lf : Fin B → ℕ → (Fin d → V) → (Fin d → V) → ℝ)
    (hlf : ∀ b t, Measurable fun q : (Fin d → V) × (Fin d → V) => lf b t q.1 q.2)
    {logg : Fin B → Y → ℕ → (Fin d → V) → ℝ} (hlogg : ∀ b y t, Measurable (logg b y t))
    {categorical : (Fin N → Fin B → Fin N → XF) → Ω → (Fin N → Fin B → Fin N) × Ω}
    (hcat : IndependentCategorical P categorical) (T : ℕ) (L : ℕ → Option Y) {Q : Ω → System N B d V} {E : Ω → Ω}
    (hQ : Measurable Q) (hH : ∀ H : System N B d V × Ω → ℝ≥0∞, Measurable H →
      ∫⁻ ω, H (Q ω, E ω) ∂P = ∫⁻ ω, ∫⁻ ω', H (Q ω, ω') ∂P ∂P)
    {Φ : (ℕ → Fin d → V) → ℝ≥0∞} (hΦ : Measurable Φ) (hΦ1 : ∀ p, Φ p ≤ 1)
    (hgen : ∀ (Ψ : (ℕ → Fin N → Fin d → V) → ℝ≥0∞), Measurable Ψ → ∀ (i : Fin N) (p : ℕ → Fin d → V),
        ∫⁻ ω, Ψ (pos (column b (Q ω))) * Φ (gen T (column b (Q ω)) i p) ∂P
          = ∫⁻ ω, Ψ (pos (column b (Q ω))) * back (dens lf b) (normWeight logg b L) Φ T (column b (Q ω)) i p ∂P)
    (x₀ : Fin B → Fin d → V) (S : ℝ) :
    ∫⁻ ω, ENNReal.ofReal (((∑ i, (Φ fun m => simulateAll logg lf L categorical r (fun _ _ => x₀) T (Q ω) (E ω) m i b).toReal)
        / N - S) ^ 2) ∂P
      ≤ ∫⁻ ω, ENNReal.ofReal (((genAvg (normWeight logg b L) Φ T (fun _ => x₀ b) (column b (Q ω))).toReal - S) ^ 2) ∂P
        + ENNReal.ofReal (1 / N) := by
  have hf : ∀ t, Measurable fun q : (Fin d → V) × (Fin d → V) => dens lf b t q.1 q.2 := fun t =>
    ENNReal.measurable_ofReal.comp (Real.measurable_exp.comp (hlf b t))
  have hW := measurable_normWeight (N := N) hlogg b L
  have hsim := measurable_simulateAll (L := L) hlogg hlf hcat hrl (fun _ _ => x₀) T
  have hΦi : ∀ i, Measurable fun z : System N B d V × Ω =>
      Φ fun m => simulateAll logg lf L categorical r (fun _ _ => x₀) T z.1 z.2 m i b := fun i =>
    hΦ.comp (measurable_path hsim i b)
  have hHm : Measurable fun z : System N B d V × Ω => ENNReal.ofReal (((∑ i, (Φ fun m =>
      simulateAll logg lf L categorical r (fun _ _ => x₀) T z.1 z.2 m i b).toReal) / N - S) ^ 2) := by
    have h1 : Measurable fun z : System N B d V × Ω => ∑ i, (Φ fun m =>
        simulateAll logg lf L categorical r (fun _ _ => x₀) T z.1 z.2 m i b).toReal :=
      Finset.measurable_sum _ fun i _ => (hΦi i).ennreal_toReal
    exact (((h1.div_const _).sub_const _).pow_const 2).ennreal_ofReal
  have e1 := hH _ hHm
  refine e1.le.trans ?_
  -- given the states
  have step : ∀ ω, ∫⁻ ω', ENNReal.ofReal (((∑ i, (Φ fun m =>
      simulateAll logg lf L categorical r (fun _ _ => x₀) T (Q ω) ω' m i b).toReal) / N - S) ^ 2) ∂P
      ≤ ENNReal.ofReal (((backAvg (dens lf b) (normWeight logg b L) Φ T (fun _ => x₀ b) (column b (Q ω))).toReal - S) ^ 2)
        + ENNReal.ofReal (1 / N) := by
    intro ω
    refine average_error hN P (f := fun i ω' => Φ fun m => simulateAll logg lf L categorical r (fun _ _ => x₀) T (Q ω) ω' m i b)
      (fun i => (hΦi i).comp (measurable_const.prodMk measurable_id)) (fun i a => hΦ1 _) (fun i => ?_) (fun i j hij => ?_) S
    · exact simulateAll_law hN hlogg hlf hcat hrl b i hΦ _ T (Q ω)
    · exact simulateAll_law2 hN hlogg hlf hcat hrl b hij hΦ _ T (Q ω)
  refine (lintegral_mono step).trans ?_
  have hcol : Measurable fun ω => column b (Q ω) := (measurable_columnOf b).comp hQ
  have hWc : ∀ k, Measurable fun ω => normWeight logg b L T (column b (Q ω) T).2 k := fun k =>
    (hW T k).comp (measurable_snd.comp ((measurable_pi_apply T).comp hcol))
  have hWq : ∀ k, Measurable fun q : Traj N (Fin d → V) => normWeight logg b L T (q T).2 k := fun k =>
    (hW T k).comp (measurable_snd.comp (measurable_pi_apply T))
  have hbk : ∀ k, Measurable fun q : Traj N (Fin d → V) =>
      back (dens lf b) (normWeight logg b L) Φ T q k fun _ => x₀ b := fun k =>
    measurable_back hf hW hΦ T k measurable_id measurable_const
  have hge : ∀ k, Measurable fun q : Traj N (Fin d → V) => Φ (gen T q k fun _ => x₀ b) := fun k =>
    hΦ.comp (measurable_gen T k measurable_id measurable_const)
  have hmq : Measurable fun q : Traj N (Fin d → V) => backAvg (dens lf b) (normWeight logg b L) Φ T (fun _ => x₀ b) q :=
    Finset.measurable_sum _ fun k _ => (hWq k).mul (hbk k)
  have hAq : Measurable fun q : Traj N (Fin d → V) => genAvg (normWeight logg b L) Φ T (fun _ => x₀ b) q :=
    Finset.measurable_sum _ fun k _ => (hWq k).mul (hge k)
  have hm : Measurable fun ω => backAvg (dens lf b) (normWeight logg b L) Φ T (fun _ => x₀ b) (column b (Q ω)) := hmq.comp hcol
  have hA : Measurable fun ω => genAvg (normWeight logg b L) Φ T (fun _ => x₀ b) (column b (Q ω)) := hAq.comp hcol
  rw [lintegral_add_right _ measurable_const, lintegral_const, measure_univ, mul_one]
  refine add_le_add ?_ le_rfl
  -- the average over backward paths as a function of the positions
  let repl : (ℕ → Fin N → Fin d → V) → Traj N (Fin d → V) := fun v n => (id, v n)
  have hrepl : Measurable repl := by
    rw [measurable_pi_iff]
    exact fun n => measurable_const.prodMk (measurable_pi_apply n)
  have hmpos : ∀ q : Traj N (Fin d → V), backAvg (dens lf b) (normWeight logg b L) Φ T (fun _ => x₀ b) q
      = backAvg (dens lf b) (normWeight logg b L) Φ T (fun _ => x₀ b) (repl (pos q)) := by
    intro q
    unfold backAvg
    refine Finset.sum_congr rfl fun k _ => ?_
    rw [back_pos]
    rfl
  have term : ∀ Ψ : (ℕ → Fin N → Fin d → V) → ℝ≥0∞, Measurable Ψ →
      ∫⁻ ω, Ψ (pos (column b (Q ω))) * genAvg (normWeight logg b L) Φ T (fun _ => x₀ b) (column b (Q ω)) ∂P
        = ∫⁻ ω, Ψ (pos (column b (Q ω))) *
            backAvg (dens lf b) (normWeight logg b L) Φ T (fun _ => x₀ b) (column b (Q ω)) ∂P := by
    intro Ψ hΨ
    have hΨc : Measurable fun ω => Ψ (pos (column b (Q ω))) := hΨ.comp (measurable_pos.comp hcol)
    have hΨk : ∀ k, Measurable fun v : ℕ → Fin N → Fin d → V => Ψ v * normWeight logg b L T (v T) k := fun k =>
      hΨ.mul ((hW T k).comp (measurable_pi_apply T))
    have hΨkc : ∀ k, Measurable fun ω => Ψ (pos (column b (Q ω))) * normWeight logg b L T (column b (Q ω) T).2 k := fun k =>
      hΨc.mul (hWc k)
    have hg : ∀ k, Measurable fun ω => Φ (gen T (column b (Q ω)) k fun _ => x₀ b) := fun k => (hge k).comp hcol
    have hb : ∀ k, Measurable fun ω => back (dens lf b) (normWeight logg b L) Φ T (column b (Q ω)) k fun _ => x₀ b :=
      fun k => (hbk k).comp hcol
    unfold genAvg backAvg
    simp only [Finset.mul_sum, ← mul_assoc]
    have m1 : ∀ k, Measurable fun ω => Ψ (pos (column b (Q ω))) * normWeight logg b L T (column b (Q ω) T).2 k *
        Φ (gen T (column b (Q ω)) k fun _ => x₀ b) := fun k => (hΨkc k).mul (hg k)
    have m2 : ∀ k, Measurable fun ω => Ψ (pos (column b (Q ω))) * normWeight logg b L T (column b (Q ω) T).2 k *
        back (dens lf b) (normWeight logg b L) Φ T (column b (Q ω)) k fun _ => x₀ b := fun k => (hΨkc k).mul (hb k)
    rw [lintegral_finsetSum _ fun k _ => m1 k, lintegral_finsetSum _ fun k _ => m2 k]
    exact Finset.sum_congr rfl fun k _ => hgen _ (hΨk k) k _
  refine projection_error P hA hm (fun ω => ?_) (fun ω => ?_) ?_ ?_ S
  · unfold genAvg
    calc _ ≤ ∑ k, normWeight logg b L T (column b (Q ω) T).2 k * 1 :=
          Finset.sum_le_sum fun k _ => by gcongr; exact hΦ1 _
      _ = 1 := by simp only [mul_one]; exact weight_sum hN logg b L T _
  · unfold backAvg
    calc _ ≤ ∑ k, normWeight logg b L T (column b (Q ω) T).2 k * 1 :=
          Finset.sum_le_sum fun k _ => by gcongr; exact back_le _ _ hΦ1 _ _ _ _
      _ = 1 := by simp only [mul_one]; exact weight_sum hN logg b L T _
  · have := term (fun _ => 1) measurable_const
    simpa only [one_mul] using this
  · have := term (fun v => backAvg (dens lf b) (normWeight logg b L) Φ T (fun _ => x₀ b) (repl v)) (hmq.comp hrepl)
    simp only [← hmpos] at this
    exact this

end Verif.Trajectory
