import Verif.Lemmas.TrajectoryRun

/-!
# The law of all ancestors and positions of a run of the bootstrap filter that resamples in every step
-/

namespace Verif.Trajectory

open Verif Verif.Spec Verif.Unbiased XF MeasureTheory ProbabilityTheory
open scoped ENNReal

variable {N B d : ℕ} {V Y Ω : Type} [MeasurableSpace Ω] [MeasurableSpace V]

/-- Normalised weights at time `t`. -/
noncomputable def normWeight (logg : Fin B → Y → ℕ → (Fin d → V) → ℝ) (b : Fin B) (L : ℕ → Option Y) (t : ℕ)
    (x : Fin N → Fin d → V) (k : Fin N) : ℝ≥0∞ :=
  ENNReal.ofReal (Real.exp (obsLog logg (L t) t b (x k)) / ∑ j, Real.exp (obsLog logg (L t) t b (x j)))

theorem measurable_obsLog {logg : Fin B → Y → ℕ → (Fin d → V) → ℝ} (hlogg : ∀ b y t, Measurable (logg b y t)) (o : Option Y)
    (t : ℕ) (b : Fin B) : Measurable (obsLog logg o t b) := by
  unfold obsLog
  cases o with
  | none => exact measurable_const
  | some y => exact hlogg b y t

theorem measurable_normWeight {logg : Fin B → Y → ℕ → (Fin d → V) → ℝ} (hlogg : ∀ b y t, Measurable (logg b y t)) (b : Fin B)
    (L : ℕ → Option Y) (t : ℕ) (k : Fin N) : Measurable fun x : Fin N → Fin d → V => normWeight logg b L t x k := by
  have h : ∀ j : Fin N, Measurable fun x : Fin N → Fin d → V => Real.exp (obsLog logg (L t) t b (x j)) := fun j =>
    Real.measurable_exp.comp ((measurable_obsLog hlogg (L t) t b).comp (measurable_pi_apply j))
  unfold normWeight
  exact ENNReal.measurable_ofReal.comp ((h k).div (Finset.measurable_sum _ fun j _ => h j))

variable {r : {b : ℕ} → (Fin N → Fin b → XF) → Bool → Ω → (Fin N → Fin b → Fin N) × Ω}
    {propagate : TS N B d V → Ω → (Fin N → Fin B → Fin d → V) × Ω} {P : Measure Ω}

/-- Sums over the ancestors of one filter. -/
theorem lintegral_pi_cat {p : Fin N → ℝ} (hp : IsProb p) (g : (Fin N → Fin N) → ℝ≥0∞) :
    ∫⁻ κ, g κ ∂(Measure.pi fun _ : Fin N => cat p) = ∑ κ : Fin N → Fin N, (∏ i, ENNReal.ofReal (p (κ i))) * g κ := by
  have := cat_prob hp
  rw [lintegral_fintype]
  refine Finset.sum_congr rfl fun κ _ => ?_
  rw [Measure.pi_singleton]
  simp only [cat_singleton]
  rw [mul_comm]

/-- One step, seen in one filter. -/
theorem step_column (hN : 0 < N) {K : Fin B → ℕ → Kernel (Fin d → V) (Fin d → V)} (b : Fin B) (t : ℕ)
    [IsMarkovKernel (K b t)] (lam : Measure (Fin d → V)) [SigmaFinite lam] (f : ℕ → (Fin d → V) → (Fin d → V) → ℝ≥0∞)
    (hf : ∀ t, Measurable fun q : (Fin d → V) × (Fin d → V) => f t q.1 q.2)
    (hK : ∀ t x, K b t x = lam.withDensity (f t x))
    {logg : Fin B → Y → ℕ → (Fin d → V) → ℝ} (L : ℕ → Option Y) (v : Fin N → Fin B → Fin d → V)
    {ν : Measure (Fin N → Fin B → Fin N)} {ν' : (Fin N → Fin B → Fin N) → Measure (Fin N → Fin B → Fin d → V)}
    (h1 : ν.map (fun a i => a i b) = Measure.pi fun _ => cat (sm (weightsAt logg (L t) t v) b))
    (h2 : ∀ a, (ν' a).map (fun x i => x i b) = Measure.pi fun i => K b t (v (a i b) b))
    {g : (Fin N → Fin N) → (Fin N → Fin d → V) → ℝ≥0∞} (hg : ∀ κ, Measurable (g κ)) :
    ∫⁻ a, ∫⁻ x, g (fun i => a i b) (fun i => x i b) ∂(ν' a) ∂ν
      = ∫⁻ x', ∑ κ, sw f (normWeight logg b L) t (fun i => v i b) κ x' * g κ x' ∂(Measure.pi fun _ => lam) := by
  have hp := sm_isProb (weightsAt logg (L t) t v) b hN
  have hfx : ∀ x : Fin d → V, Measurable (f t x) := fun x => (hf t).comp (measurable_const.prodMk measurable_id)
  have e1 : ∀ a : Fin N → Fin B → Fin N, ∫⁻ x, g (fun i => a i b) (fun i => x i b) ∂(ν' a)
      = (fun κ : Fin N → Fin N => ∫⁻ x', g κ x' ∂(Measure.pi fun i => K b t (v (κ i) b))) fun i => a i b := by
    intro a
    show _ = ∫⁻ x', g (fun i => a i b) x' ∂(Measure.pi fun i => K b t (v (a i b) b))
    rw [← h2 a, lintegral_map (hg _) (measurable_column b)]
  simp only [e1]
  rw [← lintegral_map (f := fun κ : Fin N → Fin N => ∫⁻ x', g κ x' ∂(Measure.pi fun i => K b t (v (κ i) b)))
    (g := fun (a : Fin N → Fin B → Fin N) i => a i b) (measurable_of_finite _) (measurable_of_finite _), h1,
    lintegral_pi_cat hp]
  have hm : ∀ κ : Fin N → Fin N, Measurable fun x' : Fin N → Fin d → V => ∏ i, f t (v (κ i) b) (x' i) := fun κ =>
    Finset.measurable_prod _ fun i _ => (hfx _).comp (measurable_pi_apply i)
  have hsw : ∀ κ x', sw f (normWeight logg b L) t (fun i => v i b) κ x'
      = (∏ i, ENNReal.ofReal (sm (weightsAt logg (L t) t v) b (κ i))) * ∏ i, f t (v (κ i) b) (x' i) := by
    intro κ x'
    unfold sw
    rw [Finset.prod_mul_distrib]
    rfl
  have hmg : ∀ κ : Fin N → Fin N, Measurable fun x' : Fin N → Fin d → V => (∏ i, f t (v (κ i) b) (x' i)) * g κ x' :=
    fun κ => (hm κ).mul (hg κ)
  rw [lintegral_finsetSum _ fun κ _ => by
    simp only [hsw, mul_assoc]
    exact (hmg κ).const_mul _]
  refine Finset.sum_congr rfl fun κ _ => ?_
  simp only [hsw, mul_assoc]
  rw [lintegral_const_mul _ (hmg κ)]
  congr 1
  have hpr : ∀ i, IsProbabilityMeasure (lam.withDensity (f t (v (κ i) b))) := fun i => by
    rw [← hK]; infer_instance
  simp only [hK]
  rw [pi_withDensity lam (fun i => f t (v (κ i) b)) fun i => hfx _]
  rw [lintegral_withDensity_eq_lintegral_mul _ (hm κ) (hg κ)]
  rfl

variable (lo threshold : ℝ) (pre : Y → TS N B d V → Fin N → Fin B → XF) (missing : Y → Bool)

/-- The recorded states of a run, as a measurable function of where it starts and of the generator; the generator afterwards is
independent of them; and the law of the particles of one filter. -/
theorem run_system [IsProbabilityMeasure P] (hN : 0 < N) (b : Fin B) (ht : (N : ℝ) < threshold)
    (hr : MutualResampler P r) {K : Fin B → ℕ → Kernel (Fin d → V) (Fin d → V)} (hK : MutualTransitions P propagate K)
    (lam : Measure (Fin d → V)) [SigmaFinite lam] (f : ℕ → (Fin d → V) → (Fin d → V) → ℝ≥0∞)
    (hf : ∀ t, Measurable fun q : (Fin d → V) × (Fin d → V) => f t q.1 q.2)
    (hKd : ∀ t x, K b t x = lam.withDensity (f t x))
    {logg : Fin B → Y → ℕ → (Fin d → V) → ℝ} (hlogg : ∀ b y t, Measurable (logg b y t)) (L : ℕ → Option Y) :
    ∀ (os : List (Option Y)) (t : ℕ) (o : Option Y), (∀ j, j < os.length + 1 → L (t + j) = (o :: os).getD j none) →
    ∃ R : (System N B d V × (Fin N → Fin B → Fin d → V)) × Ω → System N B d V × Ω, Measurable R ∧
      (∀ q v ll prev ω, (extend q t ((FilterKind.sisr.ops (bootSisr logg lo threshold r propagate pre missing)).traceO os
          ⟨⟨v, t⟩, fun i b => fin (weightsAt logg o t v i b), ll, prev⟩ ω).1,
        ((FilterKind.sisr.ops (bootSisr logg lo threshold r propagate pre missing)).traceO os
          ⟨⟨v, t⟩, fun i b => fin (weightsAt logg o t v i b), ll, prev⟩ ω).2) = R ((q, v), ω)) ∧
      (∀ H : System N B d V × Ω → ℝ≥0∞, Measurable H → ∀ q v,
        ∫⁻ ω, H (R ((q, v), ω)) ∂P = ∫⁻ ω, ∫⁻ ω', H ((R ((q, v), ω)).1, ω') ∂P ∂P) ∧
      ∀ F : Traj N (Fin d → V) → ℝ≥0∞, Measurable F → ∀ q v, (q t).2 = v →
        ∫⁻ ω, F (column b (R ((q, v), ω)).1) ∂P = trajAvg f (normWeight logg b L) lam os.length t F (column b q) := by
  intro os
  induction os with
  | nil =>
    intro t o _
    refine ⟨fun z => (z.1.1, z.2), (measurable_fst.comp measurable_fst).prodMk measurable_snd, fun q v ll prev ω => rfl,
      fun H hH q v => ?_, fun F hF q v _ => ?_⟩
    · dsimp only
      rw [lintegral_const, measure_univ, mul_one]
    · dsimp only
      rw [lintegral_const, measure_univ, mul_one]
      rfl
  | cons o' os ih =>
    intro t o hL
    have hL0 : L t = o := by simpa using hL 0 (by simp)
    obtain ⟨R, hR, hR1, hR2, hR3⟩ := ih (t + 1) o' fun j hj => by
      have := hL (j + 1) (by simpa using hj)
      rw [show t + 1 + j = t + (j + 1) by omega, this]
      simp
    have hw := measurable_weightsAt logg hlogg (N := N) o t
    have hst := measurable_sysStep (N := N) (B := B) (V := V) (P := P) hr hK t
    have hs : Measurable fun z : (System N B d V × (Fin N → Fin B → Fin d → V)) × Ω =>
        sysStep r propagate (weightsAt logg o t z.1.2) t z.1.2 z.2 := by
      have hv : Measurable fun z : (System N B d V × (Fin N → Fin B → Fin d → V)) × Ω => z.1.2 :=
        measurable_snd.comp measurable_fst
      exact hst.comp (((hw.comp hv).prodMk hv).prodMk measurable_snd)
    -- the continuation
    let C : System N B d V → ((Fin N → Fin B → Fin N) × (Fin N → Fin B → Fin d → V)) × Ω →
        (System N B d V × (Fin N → Fin B → Fin d → V)) × Ω :=
      fun q s => ((Function.update q (t + 1) s.1, s.1.2), s.2)
    have hC : Measurable fun z : System N B d V ×
        (((Fin N → Fin B → Fin N) × (Fin N → Fin B → Fin d → V)) × Ω) => C z.1 z.2 := by
      have h1 : Measurable fun z : System N B d V ×
          (((Fin N → Fin B → Fin N) × (Fin N → Fin B → Fin d → V)) × Ω) => z.2.1 := measurable_fst.comp measurable_snd
      exact ((measurable_updateAt (t + 1) measurable_fst h1).prodMk (measurable_snd.comp h1)).prodMk
        (measurable_snd.comp measurable_snd)
    have hCq : ∀ q, Measurable (C q) := fun q => hC.comp (measurable_const.prodMk measurable_id)
    refine ⟨fun z => R (C z.1.1 (sysStep r propagate (weightsAt logg o t z.1.2) t z.1.2 z.2)), ?_, ?_, ?_, ?_⟩
    · exact hR.comp (hC.comp ((measurable_fst.comp measurable_fst).prodMk hs))
    · intro q v ll prev ω
      obtain ⟨ll', h⟩ := step_state logg lo threshold r propagate pre missing hN b ht o' v t (weightsAt logg o t v) ll prev ω
      dsimp only [FilterOps.traceO]
      rw [h]
      exact hR1 _ _ ll' _ _
    · intro H hH q v
      obtain ⟨ν, ν', h1, -, -⟩ := sysStep_law hN hr hK (weightsAt logg o t v) t v
      have hHR : Measurable fun s : ((Fin N → Fin B → Fin N) × (Fin N → Fin B → Fin d → V)) × Ω => H (R (C q s)) :=
        hH.comp (hR.comp (hCq q))
      have hpair : Measurable fun s : (((Fin N → Fin B → Fin N) × (Fin N → Fin B → Fin d → V)) × Ω) × Ω =>
          H ((R (C q s.1)).1, s.2) :=
        hH.comp ((measurable_fst.comp (hR.comp ((hCq q).comp measurable_fst))).prodMk measurable_snd)
      have hint : Measurable fun s : ((Fin N → Fin B → Fin N) × (Fin N → Fin B → Fin d → V)) × Ω =>
          ∫⁻ ω', H ((R (C q s)).1, ω') ∂P := hpair.lintegral_prod_right'
      have e1 := h1 (fun s => H (R (C q s))) hHR
      have e2 := h1 (fun s => ∫⁻ ω', H ((R (C q s)).1, ω') ∂P) hint
      refine e1.trans (Eq.trans ?_ e2.symm)
      refine lintegral_congr fun a => lintegral_congr fun x => ?_
      exact hR2 H hH (Function.update q (t + 1) (a, x)) x
    · intro F hF q v hq
      obtain ⟨ν, ν', h1, h2, h3⟩ := sysStep_law hN hr hK (weightsAt logg o t v) t v
      have hm := hK.markov b t
      have hFR : Measurable fun s : ((Fin N → Fin B → Fin N) × (Fin N → Fin B → Fin d → V)) × Ω =>
          F (column b (R (C q s)).1) :=
        hF.comp ((measurable_columnOf b).comp (measurable_fst.comp (hR.comp (hCq q))))
      have hW := measurable_normWeight (N := N) hlogg b L
      have htr := measurable_trajAvg (Z := Unit) lam hf hW (F := fun _ => F) (hF.comp measurable_snd) os.length (t + 1)
      have e1 := h1 (fun s => F (column b (R (C q s)).1)) hFR
      refine e1.trans ?_
      rw [← hL0] at h2
      have e2 := step_column (logg := logg) hN b t lam f hf hKd L v (h2 b) (fun a => h3 a b)
        (g := fun κ x' => trajAvg f (normWeight logg b L) lam os.length (t + 1) F
          (Function.update (column b q) (t + 1) (κ, x'))) fun κ => htr.comp ((measurable_const (a := ())).prodMk
            (measurable_updateAt (t + 1) measurable_const (measurable_const.prodMk measurable_id)))
      have e3 : trajAvg f (normWeight logg b L) lam (o' :: os).length t F (column b q)
          = ∫⁻ x', ∑ κ, sw f (normWeight logg b L) t (fun i => v i b) κ x' *
            trajAvg f (normWeight logg b L) lam os.length (t + 1) F (Function.update (column b q) (t + 1) (κ, x'))
              ∂(Measure.pi fun _ => lam) := by
        rw [← hq]; rfl
      rw [e3, ← e2]
      refine lintegral_congr fun a => lintegral_congr fun x => ?_
      have e4 := hR3 F hF (Function.update q (t + 1) (a, x)) x (by simp)
      rw [column_update] at e4
      exact e4

end Verif.Trajectory
