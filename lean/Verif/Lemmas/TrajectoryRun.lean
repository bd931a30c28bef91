import Verif.Lemmas.Trajectory
import Verif.Lemmas.PiDensity
import Verif.Lemmas.Mutual
import Verif.Lemmas.TraceSlots

/-!
# The bootstrap filter that resamples in every step, as an abstract particle system
-/

namespace Verif.Trajectory

open Verif Verif.Spec Verif.Unbiased XF MeasureTheory ProbabilityTheory
open scoped ENNReal

variable {N B d : ℕ} {V Y Ω : Type} [MeasurableSpace Ω] [MeasurableSpace V]

/-! ## One step -/

/-- All filters. -/
def allTrue : Fin B → Bool := fun _ => true

/-- The ancestors drawn when all filters are resampled. -/
noncomputable def selAll (r : {b : ℕ} → (Fin N → Fin b → XF) → Bool → Ω → (Fin N → Fin b → Fin N) × Ω)
    (w : Fin N → Fin B → ℝ) (ω : Ω) : (Fin N → Fin B → Fin N) × Ω :=
  let a := r (fun i j => fin (sm w ((maskCols (allTrue (B := B))).get j) i)) true ω
  (fun i b => a.1 i ⟨colRank allTrue b, colRank_lt allTrue b rfl⟩, a.2)

theorem ess_le (hN : 0 < N) (w : Fin N → Fin B → ℝ) (b : Fin B) : essOf (sm w b) ≤ N := by
  have hsq := isProb_sq (sm_isProb w b hN)
  have hN' : 0 < (N : ℝ) := by exact_mod_cast hN
  have hpos : 0 < ∑ i, sm w b i * sm w b i := by
    by_contra hc
    have h1 := hsq.1
    have : (∑ i, sm w b i * sm w b i) ≤ 0 := not_lt.1 hc
    nlinarith
  unfold essOf
  rw [div_le_iff₀ hpos]
  linarith [hsq.1]

theorem maskOf_all (hN : 0 < N) {thr : ℝ} (ht : (N : ℝ) < thr) (w : Fin N → Fin B → ℝ) : maskOf thr w = allTrue := by
  funext b
  unfold maskOf allTrue
  simp only [decide_eq_true_eq]
  exact lt_of_le_of_lt (ess_le hN w b) ht

theorem sisrPredict_all (M : ParticleModel N B d V Y Ω) (hN : 0 < N) (b₀ : Fin B) (ht : (N : ℝ) < M.threshold)
    (x : Fin N → Fin B → Fin d → V) (t : ℕ) (w : Fin N → Fin B → ℝ) (ll prev) (ω : Ω) :
    M.sisrPredict ⟨⟨x, t⟩, fun i b => fin (w i b), ll, prev⟩ ω =
      (⟨⟨fun i b => x ((selAll M.resampler w ω).1 i b) b, t⟩, fun _ _ => fin 0, fun _ _ => fin (1 / (N : ℝ)),
        (selAll M.resampler w ω).1⟩, (selAll M.resampler w ω).2) := by
  classical
  have hex : ¬ ∀ b : Fin B, allTrue b = false := fun h => absurd (h b₀) (by simp [allTrue])
  rw [sisrPredict_unfold M _ ω allTrue (by
    simp only [normalize2_fin]
    exact (sisrPredict_mask M hN w).trans (maskOf_all hN ht w)), if_neg hex]
  simp only [normalize2_fin]
  refine Prod.ext ?_ rfl
  dsimp only
  congr 1
  · congr 1
    funext i b e
    rw [maskedScatter_eq, dif_pos (show allTrue b = true from rfl), maskCols_get allTrue b rfl]
    rfl
  · funext i b
    rw [maskedScatter_eq, dif_pos (show allTrue b = true from rfl)]
    rfl

variable (logg : Fin B → Y → ℕ → (Fin d → V) → ℝ)

/-- Log-weights of the particles at a time with the observation `o`. -/
def obsLog (o : Option Y) (t : ℕ) (b : Fin B) (x : Fin d → V) : ℝ :=
  match o with
  | none => 0
  | some y => logg b y t x

/-- The filter in question. -/
noncomputable abbrev bootSisr (lo threshold : ℝ)
    (r : {b : ℕ} → (Fin N → Fin b → XF) → Bool → Ω → (Fin N → Fin b → Fin N) × Ω)
    (propagate : TS N B d V → Ω → (Fin N → Fin B → Fin d → V) × Ω) (pre : Y → TS N B d V → Fin N → Fin B → XF)
    (missing : Y → Bool) : ParticleModel N B d V Y Ω :=
  bootstrapModel lo threshold r propagate (fun y x i b => fin (logg b y x.time (x.value i b))) pre missing

variable (lo threshold : ℝ) (r : {b : ℕ} → (Fin N → Fin b → XF) → Bool → Ω → (Fin N → Fin b → Fin N) × Ω)
    (propagate : TS N B d V → Ω → (Fin N → Fin B → Fin d → V) × Ω) (pre : Y → TS N B d V → Fin N → Fin B → XF)
    (missing : Y → Bool)

/-- New ancestors and positions. -/
noncomputable def sysStep (w : Fin N → Fin B → ℝ) (t : ℕ) (v : Fin N → Fin B → Fin d → V) (ω : Ω) :
    ((Fin N → Fin B → Fin N) × (Fin N → Fin B → Fin d → V)) × Ω :=
  let s := selAll r w ω
  let x := propagate ⟨fun i b => v (s.1 i b) b, t⟩ s.2
  ((s.1, x.1), x.2)

theorem step_state (hN : 0 < N) (b₀ : Fin B) (ht : (N : ℝ) < threshold) (o : Option Y) (v : Fin N → Fin B → Fin d → V)
    (t : ℕ) (w : Fin N → Fin B → ℝ) (ll prev) (ω : Ω) :
    ∃ ll', (FilterKind.sisr.ops (bootSisr logg lo threshold r propagate pre missing)).applyO o
        ((FilterKind.sisr.ops (bootSisr logg lo threshold r propagate pre missing)).predict
          ⟨⟨v, t⟩, fun i b => fin (w i b), ll, prev⟩ ω).1
        ((FilterKind.sisr.ops (bootSisr logg lo threshold r propagate pre missing)).predict
          ⟨⟨v, t⟩, fun i b => fin (w i b), ll, prev⟩ ω).2
      = (⟨⟨(sysStep r propagate w t v ω).1.2, t + 1⟩,
          fun i b => fin (obsLog logg o (t + 1) b ((sysStep r propagate w t v ω).1.2 i b)), ll',
          (sysStep r propagate w t v ω).1.1⟩, (sysStep r propagate w t v ω).2) := by
  have hp : (FilterKind.sisr.ops (bootSisr logg lo threshold r propagate pre missing)).predict
      ⟨⟨v, t⟩, fun i b => fin (w i b), ll, prev⟩ ω = _ :=
    sisrPredict_all (bootSisr logg lo threshold r propagate pre missing) hN b₀ ht v t w ll prev ω
  rw [hp]
  cases o with
  | none =>
    refine ⟨fun _ => fin 0, ?_⟩
    rfl
  | some y =>
    refine ⟨logLikelihood (fun i b => fin (logg b y (t + 1) ((sysStep r propagate w t v ω).1.2 i b)))
      (some fun _ _ => fin (1 / (N : ℝ))), Prod.ext ?_ rfl⟩
    show PCorr.mk' lo ⟨(sysStep r propagate w t v ω).1.2, t + 1⟩
      (fun i b => (fin (logg b y (t + 1) ((sysStep r propagate w t v ω).1.2 i b)) : XF) + fin 0)
      (logLikelihood (fun i b => fin (logg b y (t + 1) ((sysStep r propagate w t v ω).1.2 i b)))
        (some fun _ _ => fin (1 / (N : ℝ)))) (sysStep r propagate w t v ω).1.1 = _
    unfold PCorr.mk'
    have e : (fun i b => (fin (logg b y (t + 1) ((sysStep r propagate w t v ω).1.2 i b)) : XF) + fin 0)
        = fun i b => fin (logg b y (t + 1) ((sysStep r propagate w t v ω).1.2 i b)) := by
      funext i b
      rw [fin_add, add_zero]
    rw [e, normalize2_fin]
    rfl

/-! ## All steps -/

/-- Ancestors and positions of the particles of all filters at every time. -/
abbrev System (N B d : ℕ) (V : Type) := ℕ → (Fin N → Fin B → Fin N) × (Fin N → Fin B → Fin d → V)

/-- One filter of the system. -/
def column (b : Fin B) (q : System N B d V) : Traj N (Fin d → V) := fun n => (fun i => (q n).1 i b, fun i => (q n).2 i b)

/-- The system after the states `l` have been recorded from time `t` on. -/
def extend (q : System N B d V) (t : ℕ) : List (PCorr N B d V) → System N B d V
  | [] => q
  | c :: l => extend (Function.update q (t + 1) (c.prev, c.x.value)) (t + 1) l

omit [MeasurableSpace Ω] [MeasurableSpace V] in
theorem column_update (b : Fin B) (q : System N B d V) (n : ℕ) (z) :
    column b (Function.update q n z) = Function.update (column b q) n (fun i => z.1 i b, fun i => z.2 i b) := by
  funext m
  unfold column
  by_cases e : m = n
  · subst e; simp
  · simp [Function.update_of_ne e]

theorem measurable_columnOf (b : Fin B) : Measurable (column b : System N B d V → Traj N (Fin d → V)) := by
  rw [measurable_pi_iff]
  intro n
  have h : Measurable fun q : System N B d V => q n := measurable_pi_apply n
  have h1 : Measurable fun q : System N B d V => (fun i => (q n).1 i b : Fin N → Fin N) := by
    rw [measurable_pi_iff]
    exact fun i => (measurable_pi_apply b).comp ((measurable_pi_apply i).comp (measurable_fst.comp h))
  have h2 : Measurable fun q : System N B d V => (fun i => (q n).2 i b : Fin N → Fin d → V) :=
    (measurable_column b).comp (measurable_snd.comp h)
  exact h1.prodMk h2

/-- The log-weights of all particles. -/
def weightsAt (o : Option Y) (t : ℕ) (v : Fin N → Fin B → Fin d → V) : Fin N → Fin B → ℝ :=
  fun i b => obsLog logg o t b (v i b)

theorem measurable_weightsAt (hlogg : ∀ b y t, Measurable (logg b y t)) (o : Option Y) (t : ℕ) :
    Measurable fun v : Fin N → Fin B → Fin d → V => weightsAt logg o t v := by
  rw [measurable_pi_iff]; intro i
  rw [measurable_pi_iff]; intro b
  unfold weightsAt obsLog
  cases o with
  | none => exact measurable_const
  | some y => exact (hlogg b y t).comp ((measurable_pi_apply b).comp (measurable_pi_apply i))

variable {r propagate} {P : Measure Ω}

theorem measurable_selAll (hr : MutualResampler P r) :
    Measurable fun z : (Fin N → Fin B → ℝ) × Ω => selAll r z.1 z.2 := by
  have h1 : Measurable fun z : (Fin N → Fin B → ℝ) × Ω =>
      ((fun i j => sm z.1 ((maskCols (allTrue (B := B))).get j) i :
        Fin N → Fin (maskCols (allTrue (B := B))).length → ℝ), z.2) := by
    refine Measurable.prodMk ?_ measurable_snd
    rw [measurable_pi_iff]; intro i
    rw [measurable_pi_iff]; intro j
    exact (measurable_sm _ i).comp measurable_fst
  have h2 := (hr.measurable (maskCols (allTrue (B := B))).length).comp h1
  have h3 : Measurable fun a : Fin N → Fin (maskCols (allTrue (B := B))).length → Fin N =>
      (fun i b => a i ⟨colRank allTrue b, colRank_lt allTrue b rfl⟩ : Fin N → Fin B → Fin N) := measurable_of_finite _
  exact (h3.comp (measurable_fst.comp h2)).prodMk (measurable_snd.comp h2)

theorem measurable_selected :
    Measurable fun z : (Fin N → Fin B → Fin d → V) × (Fin N → Fin B → Fin N) =>
      (fun i b => z.1 (z.2 i b) b : Fin N → Fin B → Fin d → V) := by
  apply measurable_from_prod_countable_left
  intro a
  rw [measurable_pi_iff]; intro i
  rw [measurable_pi_iff]; intro b
  exact (measurable_pi_apply b).comp (measurable_pi_apply (a i b))

theorem measurable_sysStep (hr : MutualResampler P r) {K} (hK : MutualTransitions P propagate K) (t : ℕ) :
    Measurable fun z : ((Fin N → Fin B → ℝ) × (Fin N → Fin B → Fin d → V)) × Ω => sysStep r propagate z.1.1 t z.1.2 z.2 := by
  have h1 : Measurable fun z : ((Fin N → Fin B → ℝ) × (Fin N → Fin B → Fin d → V)) × Ω => selAll r z.1.1 z.2 :=
    (measurable_selAll hr).comp ((measurable_fst.comp measurable_fst).prodMk measurable_snd)
  have h2 : Measurable fun z : ((Fin N → Fin B → ℝ) × (Fin N → Fin B → Fin d → V)) × Ω =>
      (fun i b => z.1.2 ((selAll r z.1.1 z.2).1 i b) b : Fin N → Fin B → Fin d → V) :=
    measurable_selected.comp ((measurable_snd.comp measurable_fst).prodMk (measurable_fst.comp h1))
  have h3 := (hK.measurable t).comp (h2.prodMk (measurable_snd.comp h1))
  exact ((measurable_fst.comp h1).prodMk (measurable_fst.comp h3)).prodMk (measurable_snd.comp h3)

/-- The law of one step. -/
theorem sysStep_law [IsProbabilityMeasure P] (hN : 0 < N) (hr : MutualResampler P r) {K} (hK : MutualTransitions P propagate K)
    (w : Fin N → Fin B → ℝ) (t : ℕ) (v : Fin N → Fin B → Fin d → V) :
    ∃ (ν : Measure (Fin N → Fin B → Fin N)) (ν' : (Fin N → Fin B → Fin N) → Measure (Fin N → Fin B → Fin d → V)),
      (∀ G : ((Fin N → Fin B → Fin N) × (Fin N → Fin B → Fin d → V)) × Ω → ℝ≥0∞, Measurable G →
        ∫⁻ ω, G (sysStep r propagate w t v ω) ∂P = ∫⁻ a, ∫⁻ x, ∫⁻ ω, G ((a, x), ω) ∂P ∂(ν' a) ∂ν) ∧
      (∀ b, ν.map (fun a i => a i b) = Measure.pi fun _ => cat (sm w b)) ∧
      ∀ a b, (ν' a).map (fun x i => x i b) = Measure.pi fun i => K b t (v (a i b) b) := by
  obtain ⟨ν₀, h1, h2⟩ := hr.draws (maskCols (allTrue (B := B))).length
    (fun i j => sm w ((maskCols (allTrue (B := B))).get j) i) fun j => sm_isProb w _ hN
  have hp := h1.prob
  choose ν' h3 h4 using fun a : Fin N → Fin B → Fin N => hK.draws ⟨fun i b => v (a i b) b, t⟩
  have hs : Measurable fun a : Fin N → Fin (maskCols (allTrue (B := B))).length → Fin N =>
      (fun i b => a i ⟨colRank allTrue b, colRank_lt allTrue b rfl⟩ : Fin N → Fin B → Fin N) := measurable_of_finite _
  refine ⟨ν₀.map fun a i b => a i ⟨colRank allTrue b, colRank_lt allTrue b rfl⟩, ν', fun G hG => ?_, fun b => ?_,
    fun a b => h4 a b⟩
  · have hGa : ∀ a, Measurable fun z : (Fin N → Fin B → Fin d → V) × Ω => G ((a, z.1), z.2) := fun a =>
      hG.comp ((measurable_const.prodMk measurable_fst).prodMk measurable_snd)
    have hm : Measurable fun z : (Fin N → Fin (maskCols (allTrue (B := B))).length → Fin N) × Ω =>
        G ((fun i b => z.1 i ⟨colRank allTrue b, colRank_lt allTrue b rfl⟩,
          (propagate ⟨fun i b => v (z.1 i ⟨colRank allTrue b, colRank_lt allTrue b rfl⟩) b, t⟩ z.2).1),
          (propagate ⟨fun i b => v (z.1 i ⟨colRank allTrue b, colRank_lt allTrue b rfl⟩) b, t⟩ z.2).2) :=
      measurable_from_prod_countable_right fun a =>
        (hGa fun i b => a i ⟨colRank allTrue b, colRank_lt allTrue b rfl⟩).comp
          (h3 fun i b => a i ⟨colRank allTrue b, colRank_lt allTrue b rfl⟩).measurable
    rw [show (fun ω => G (sysStep r propagate w t v ω)) = fun ω => (fun z : (Fin N → Fin (maskCols (allTrue (B := B))).length →
        Fin N) × Ω => G ((fun i b => z.1 i ⟨colRank allTrue b, colRank_lt allTrue b rfl⟩,
          (propagate ⟨fun i b => v (z.1 i ⟨colRank allTrue b, colRank_lt allTrue b rfl⟩) b, t⟩ z.2).1),
          (propagate ⟨fun i b => v (z.1 i ⟨colRank allTrue b, colRank_lt allTrue b rfl⟩) b, t⟩ z.2).2))
        (r (fun i j => fin (sm w ((maskCols (allTrue (B := B))).get j) i)) true ω) from rfl, draws_lintegral h1 hm]
    rw [lintegral_map (measurable_of_finite _) hs]
    refine lintegral_congr fun a => ?_
    exact draws_lintegral (h3 fun i b => a i ⟨colRank allTrue b, colRank_lt allTrue b rfl⟩)
      (hGa fun i b => a i ⟨colRank allTrue b, colRank_lt allTrue b rfl⟩)
  · have h5 := mutual_column ν₀ ⟨colRank allTrue b, colRank_lt allTrue b rfl⟩ (sm_isProb w _ hN) (h2 _)
    rw [maskCols_get allTrue b rfl] at h5
    rw [Measure.map_map (measurable_of_finite _) hs]
    exact h5

end Verif.Trajectory
