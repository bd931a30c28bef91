import Verif.Lemmas.TrajectoryLaw
import Verif.Lemmas.Consistency
import Verif.Model.Smoothing

/-!
# Backward simulation through the recorded positions of a run
-/

namespace Verif.Trajectory

open Verif Verif.Spec Verif.Unbiased XF MeasureTheory ProbabilityTheory
open scoped ENNReal

/-! ## Averages over backward paths -/

section abstract

variable {N : ℕ} {X : Type}

/-- The average of `Φ` over the path `p` at times from `n` on, continued by backward simulation. -/
noncomputable def backFrom (f : ℕ → X → X → ℝ≥0∞) (W : ℕ → (Fin N → X) → Fin N → ℝ≥0∞) (Φ : (ℕ → X) → ℝ≥0∞) :
    ℕ → Traj N X → (ℕ → X) → ℝ≥0∞
  | 0, _, p => Φ p
  | n + 1, q, p => ∑ j, bw f W n (q n).2 (p (n + 1)) j * backFrom f W Φ n q (Function.update p n ((q n).2 j))

theorem back_eq (f : ℕ → X → X → ℝ≥0∞) (W : ℕ → (Fin N → X) → Fin N → ℝ≥0∞) (Φ : (ℕ → X) → ℝ≥0∞) :
    ∀ (t : ℕ) (q : Traj N X) (i : Fin N) (p : ℕ → X),
      back f W Φ t q i p = backFrom f W Φ t q (Function.update p t ((q t).2 i))
  | 0, q, i, p => rfl
  | t + 1, q, i, p => by
    rw [back, backFrom]
    refine Finset.sum_congr rfl fun j _ => ?_
    rw [back_eq f W Φ t q j, Function.update_self]

/-- Backward simulation looks at the positions alone. -/
theorem back_pos (f : ℕ → X → X → ℝ≥0∞) (W : ℕ → (Fin N → X) → Fin N → ℝ≥0∞) (Φ : (ℕ → X) → ℝ≥0∞) :
    ∀ (t : ℕ) (q : Traj N X) (i : Fin N) (p : ℕ → X),
      back f W Φ t q i p = back f W Φ t (fun n => (id, pos q n)) i p
  | 0, q, i, p => rfl
  | t + 1, q, i, p => by
    rw [back, back]
    refine Finset.sum_congr rfl fun j _ => ?_
    rw [back_pos f W Φ t q j]
    rfl

end abstract

/-! ## The draws -/

variable {N B d : ℕ} {V Y Ω : Type} [MeasurableSpace Ω] [MeasurableSpace V]

variable (logg : Fin B → Y → ℕ → (Fin d → V) → ℝ) (lf : Fin B → ℕ → (Fin d → V) → (Fin d → V) → ℝ) (L : ℕ → Option Y)
    (categorical : (Fin N → Fin B → Fin N → XF) → Ω → (Fin N → Fin B → Fin N) × Ω)

/-- Logits of the candidates at time `n`. -/
def logitsAt (n : ℕ) (x next : Fin N → Fin B → Fin d → V) : Fin N → Fin B → Fin N → ℝ :=
  fun i b k => weightsAt logg (L n) n x k b + lf b n (x k b) (next i b)

/-- The paths `pv` at times from `n` on, continued to earlier times. -/
noncomputable def simulate : ℕ → System N B d V → (ℕ → Fin N → Fin B → Fin d → V) → Ω → ℕ → Fin N → Fin B → Fin d → V
  | 0, _, pv, _ => pv
  | n + 1, q, pv, ω =>
    let a := categorical (fun i b k => fin (logitsAt logg lf L n (q n).2 (pv (n + 1)) i b k)) ω
    simulate n q (Function.update pv n fun i b => (q n).2 (a.1 i b) b) a.2

omit [MeasurableSpace Ω] [MeasurableSpace V] in
theorem simulate_ge : ∀ (n : ℕ) (q : System N B d V) (pv : ℕ → Fin N → Fin B → Fin d → V) (ω : Ω) (m : ℕ), n ≤ m →
    simulate logg lf L categorical n q pv ω m = pv m
  | 0, q, pv, ω, m, _ => rfl
  | n + 1, q, pv, ω, m, h => by
    rw [simulate, simulate_ge n _ _ _ m (by omega), Function.update_of_ne (by omega)]

/-- State `c` is that of time `n`. -/
def StateAt (q : System N B d V) (c : PCorr N B d V) (n : ℕ) : Prop :=
  c.x = ⟨(q n).2, n⟩ ∧ (c.w = fun i b => fin (weightsAt logg (L n) n (q n).2 i b)) ∧ c.prev = (q n).1

omit [MeasurableSpace Ω] [MeasurableSpace V] in
/-- The loop of backward simulation. -/
theorem ffbsLoop_simulate (KB : Backward N B d V Ω) (hKB : ∀ s j b x, KB.logDensity s j b x = fin (lf b s.time (s.value j b) x)) :
    ∀ (n : ℕ) (q : System N B d V) (pv : ℕ → Fin N → Fin B → Fin d → V) (l : List (PCorr N B d V)) (ω : Ω),
      List.Forall₂ (StateAt logg L q) l (List.range n).reverse →
      (ffbsLoop KB (pv n) l ω).1 = (List.range n).reverse.map (simulate logg lf L KB.categorical n q pv ω)
  | 0, q, pv, l, ω, h => by
    cases h
    rfl
  | n + 1, q, pv, l, ω, h => by
    rw [List.range_succ, List.reverse_append, List.reverse_singleton, List.singleton_append] at h
    cases h with
    | @cons c _ l' _ hc hl =>
      obtain ⟨h1, h2, -⟩ := hc
      have hlog : KB.logits c (pv (n + 1)) = fun i b k => fin (logitsAt logg lf L n (q n).2 (pv (n + 1)) i b k) := by
        funext i b k
        unfold Backward.logits logitsAt
        rw [h1, h2, hKB, ← fin_add]
      rw [List.range_succ, List.reverse_append, List.reverse_singleton, List.singleton_append, List.map_cons]
      simp only [ffbsLoop]
      rw [hlog]
      have e := ffbsLoop_simulate KB hKB n q (Function.update pv n fun i b => (q n).2
        ((KB.categorical (fun i b k => fin (logitsAt logg lf L n (q n).2 (pv (n + 1)) i b k)) ω).1 i b) b) l'
        (KB.categorical (fun i b k => fin (logitsAt logg lf L n (q n).2 (pv (n + 1)) i b k)) ω).2 hl
      rw [Function.update_self] at e
      simp only [simulate]
      rw [simulate_ge _ _ _ _ n _ _ _ n le_rfl, Function.update_self]
      congr 1
      · rw [h1]; rfl
      · rw [← e, h1]; rfl

variable {logg lf L categorical} {P : Measure Ω}

theorem measurable_logitsAt (hlogg : ∀ b y t, Measurable (logg b y t))
    (hlf : ∀ b t, Measurable fun q : (Fin d → V) × (Fin d → V) => lf b t q.1 q.2) (n : ℕ) :
    Measurable fun z : (Fin N → Fin B → Fin d → V) × (Fin N → Fin B → Fin d → V) => logitsAt logg lf L n z.1 z.2 := by
  have hw := measurable_weightsAt logg hlogg (N := N) (L n) n
  rw [measurable_pi_iff]; intro i
  rw [measurable_pi_iff]; intro b
  rw [measurable_pi_iff]; intro k
  have h1 : Measurable fun z : (Fin N → Fin B → Fin d → V) × (Fin N → Fin B → Fin d → V) => weightsAt logg (L n) n z.1 k b :=
    (measurable_pi_apply b).comp ((measurable_pi_apply k).comp (hw.comp measurable_fst))
  have h2 : Measurable fun z : (Fin N → Fin B → Fin d → V) × (Fin N → Fin B → Fin d → V) =>
      lf b n (z.1 k b) (z.2 i b) :=
    by
    have h3 : Measurable fun z : (Fin N → Fin B → Fin d → V) × (Fin N → Fin B → Fin d → V) => z.1 k b :=
      (measurable_pi_apply b).comp ((measurable_pi_apply k).comp measurable_fst)
    have h4 : Measurable fun z : (Fin N → Fin B → Fin d → V) × (Fin N → Fin B → Fin d → V) => z.2 i b :=
      (measurable_pi_apply b).comp ((measurable_pi_apply i).comp measurable_snd)
    exact (hlf b n).comp (h3.prodMk h4)
  exact h1.add h2

theorem measurable_simulate (hlogg : ∀ b y t, Measurable (logg b y t))
    (hlf : ∀ b t, Measurable fun q : (Fin d → V) × (Fin d → V) => lf b t q.1 q.2)
    (hcat : IndependentCategorical P categorical) {Z : Type} [MeasurableSpace Z] : ∀ (n : ℕ)
    {q : Z → System N B d V} {pv : Z → ℕ → Fin N → Fin B → Fin d → V} {ω : Z → Ω}, Measurable q → Measurable pv → Measurable ω →
    Measurable fun z => simulate logg lf L categorical n (q z) (pv z) (ω z)
  | 0, q, pv, ω, _, hp, _ => hp
  | n + 1, q, pv, ω, hq, hp, hω => by
    have hx : Measurable fun z => (q z n).2 := measurable_snd.comp ((measurable_pi_apply n).comp hq)
    have hl : Measurable fun z => logitsAt logg lf L n (q z n).2 (pv z (n + 1)) :=
      (measurable_logitsAt hlogg hlf n).comp (hx.prodMk ((measurable_pi_apply (n + 1)).comp hp))
    have ha : Measurable fun z => categorical (fun i b k => fin (logitsAt logg lf L n (q z n).2 (pv z (n + 1)) i b k)) (ω z) :=
      hcat.measurable.comp (hl.prodMk hω)
    have hs : Measurable fun z => (fun i b => (q z n).2
        ((categorical (fun i b k => fin (logitsAt logg lf L n (q z n).2 (pv z (n + 1)) i b k)) (ω z)).1 i b) b :
          Fin N → Fin B → Fin d → V) := measurable_selected.comp (hx.prodMk (measurable_fst.comp ha))
    exact measurable_simulate hlogg hlf hcat n hq (measurable_updateAt n hp hs) (measurable_snd.comp ha)

/-! ## Their law -/

/-- Density of the transitions. -/
noncomputable def dens (lf : Fin B → ℕ → (Fin d → V) → (Fin d → V) → ℝ) (b : Fin B) (t : ℕ) (x x' : Fin d → V) : ℝ≥0∞ :=
  ENNReal.ofReal (Real.exp (lf b t x x'))

omit [MeasurableSpace V] in
theorem bw_eq (hN : 0 < N) (b : Fin B) (n : ℕ) (x : Fin N → Fin d → V) (y : Fin d → V) (j : Fin N) :
    bw (dens lf b) (normWeight logg b L) n x y j
      = ENNReal.ofReal (Real.exp (obsLog logg (L n) n b (x j) + lf b n (x j) y) /
          ∑ k, Real.exp (obsLog logg (L n) n b (x k) + lf b n (x k) y)) := by
  have hS : 0 < ∑ j, Real.exp (obsLog logg (L n) n b (x j)) :=
    Finset.sum_pos (fun _ _ => Real.exp_pos _) ⟨⟨0, hN⟩, Finset.mem_univ _⟩
  have hT : 0 < ∑ k, Real.exp (obsLog logg (L n) n b (x k) + lf b n (x k) y) :=
    Finset.sum_pos (fun _ _ => Real.exp_pos _) ⟨⟨0, hN⟩, Finset.mem_univ _⟩
  have e : ∀ k, normWeight logg b L n x k * dens lf b n (x k) y
      = ENNReal.ofReal (Real.exp (obsLog logg (L n) n b (x k) + lf b n (x k) y) /
          ∑ j, Real.exp (obsLog logg (L n) n b (x j))) := by
    intro k
    unfold normWeight dens
    rw [← ENNReal.ofReal_mul (div_nonneg (Real.exp_pos _).le hS.le), Real.exp_add]
    congr 1
    ring
  unfold bw
  simp only [e]
  rw [← ENNReal.ofReal_sum_of_nonneg fun k _ => div_nonneg (Real.exp_pos _).le hS.le, ← Finset.sum_div,
    ← ENNReal.ofReal_div_of_pos (div_pos hT hS)]
  congr 1
  field_simp

omit [MeasurableSpace V] in
theorem column_path_update (pv : ℕ → Fin N → Fin B → Fin d → V) (n : ℕ) (x : Fin N → Fin B → Fin d → V) (i : Fin N)
    (b : Fin B) : (fun m => Function.update pv n x m i b) = Function.update (fun m => pv m i b) n (x i b) := by
  funext m
  by_cases e : m = n
  · subst e; simp
  · simp [Function.update_of_ne e]

theorem measurable_path {Z : Type} [MeasurableSpace Z] {g : Z → ℕ → Fin N → Fin B → Fin d → V} (hg : Measurable g)
    (i : Fin N) (b : Fin B) : Measurable fun z m => g z m i b := by
  rw [measurable_pi_iff]
  exact fun m => (measurable_pi_apply b).comp ((measurable_pi_apply i).comp ((measurable_pi_apply m).comp hg))

theorem mul_shuffle (a b c d : ℝ≥0∞) : a * b * (c * d) = c * a * (d * b) := by ring

/-- One path. -/
theorem simulate_law [IsProbabilityMeasure P] (hN : 0 < N) (hlogg : ∀ b y t, Measurable (logg b y t))
    (hlf : ∀ b t, Measurable fun q : (Fin d → V) × (Fin d → V) => lf b t q.1 q.2)
    (hcat : IndependentCategorical P categorical) (b : Fin B) (i : Fin N) {Φ : (ℕ → Fin d → V) → ℝ≥0∞} (hΦ : Measurable Φ)
    (q : System N B d V) : ∀ (n : ℕ) (pv : ℕ → Fin N → Fin B → Fin d → V),
    ∫⁻ ω, Φ (fun m => simulate logg lf L categorical n q pv ω m i b) ∂P
      = backFrom (dens lf b) (normWeight logg b L) Φ n (column b q) fun m => pv m i b
  | 0, pv => by
    simp only [simulate, backFrom]
    rw [lintegral_const, measure_univ, mul_one]
  | n + 1, pv => by
    obtain ⟨ν, hν, h1, -⟩ := hcat.draws (logitsAt logg lf L n (q n).2 (pv (n + 1)))
    have hG : Measurable fun z : (Fin N → Fin B → Fin N) × Ω => Φ fun m =>
        simulate logg lf L categorical n q (Function.update pv n fun i b => (q n).2 (z.1 i b) b) z.2 m i b :=
      measurable_from_prod_countable_right fun a => by
        have h3 : Measurable fun ω : Ω => simulate logg lf L categorical n q
            (Function.update pv n fun i b => (q n).2 (a i b) b) ω :=
          measurable_simulate hlogg hlf hcat n measurable_const measurable_const measurable_id
        exact hΦ.comp (measurable_path h3 i b)
    have e := draws_lintegral hν hG
    simp only [simulate_law hN hlogg hlf hcat b i hΦ q n, column_path_update] at e
    rw [lintegral_index ν i b fun k => backFrom (dens lf b) (normWeight logg b L) Φ n (column b q)
      (Function.update (fun m => pv m i b) n ((q n).2 k b))] at e
    simp only [simulate, backFrom]
    refine e.trans (Finset.sum_congr rfl fun k _ => ?_)
    rw [h1, bw_eq hN, mul_comm]
    rfl

/-- Two paths. -/
theorem simulate_law2 [IsProbabilityMeasure P] (hN : 0 < N) (hlogg : ∀ b y t, Measurable (logg b y t))
    (hlf : ∀ b t, Measurable fun q : (Fin d → V) × (Fin d → V) => lf b t q.1 q.2)
    (hcat : IndependentCategorical P categorical) (b : Fin B) {i i' : Fin N} (hi : i ≠ i') {Φ : (ℕ → Fin d → V) → ℝ≥0∞}
    (hΦ : Measurable Φ) (q : System N B d V) : ∀ (n : ℕ) (pv : ℕ → Fin N → Fin B → Fin d → V),
    ∫⁻ ω, Φ (fun m => simulate logg lf L categorical n q pv ω m i b) *
        Φ (fun m => simulate logg lf L categorical n q pv ω m i' b) ∂P
      = (backFrom (dens lf b) (normWeight logg b L) Φ n (column b q) fun m => pv m i b) *
        backFrom (dens lf b) (normWeight logg b L) Φ n (column b q) fun m => pv m i' b
  | 0, pv => by
    simp only [simulate, backFrom]
    rw [lintegral_const, measure_univ, mul_one]
  | n + 1, pv => by
    obtain ⟨ν, hν, -, h2⟩ := hcat.draws (logitsAt logg lf L n (q n).2 (pv (n + 1)))
    have hG1 : ∀ i, Measurable fun z : (Fin N → Fin B → Fin N) × Ω => Φ fun m =>
        simulate logg lf L categorical n q (Function.update pv n fun i b => (q n).2 (z.1 i b) b) z.2 m i b := fun i =>
      measurable_from_prod_countable_right fun a => by
        have h3 : Measurable fun ω : Ω => simulate logg lf L categorical n q
            (Function.update pv n fun i b => (q n).2 (a i b) b) ω :=
          measurable_simulate hlogg hlf hcat n measurable_const measurable_const measurable_id
        exact hΦ.comp (measurable_path h3 i b)
    have hG : Measurable fun z : (Fin N → Fin B → Fin N) × Ω => (Φ fun m =>
        simulate logg lf L categorical n q (Function.update pv n fun i b => (q n).2 (z.1 i b) b) z.2 m i b) * Φ fun m =>
        simulate logg lf L categorical n q (Function.update pv n fun i b => (q n).2 (z.1 i b) b) z.2 m i' b :=
      (hG1 i).mul (hG1 i')
    have e := draws_lintegral hν hG
    simp only [simulate_law2 hN hlogg hlf hcat b hi hΦ q n, column_path_update] at e
    rw [lintegral_index2 ν i i' b (fun k => backFrom (dens lf b) (normWeight logg b L) Φ n (column b q)
      (Function.update (fun m => pv m i b) n ((q n).2 k b))) fun k => backFrom (dens lf b) (normWeight logg b L) Φ n
      (column b q) (Function.update (fun m => pv m i' b) n ((q n).2 k b))] at e
    simp only [simulate, backFrom]
    rw [Finset.sum_mul_sum]
    refine e.trans (Finset.sum_congr rfl fun k _ => Finset.sum_congr rfl fun k' _ => ?_)
    rw [h2 i i' b hi, bw_eq hN, bw_eq hN]
    exact mul_shuffle _ _ _ _

/-! ## With the draw of the last values -/

variable (logg lf L categorical) in
/-- All paths of backward simulation; `base` fills the times after `T`. -/
noncomputable def simulateAll (r : {b : ℕ} → (Fin N → Fin b → XF) → Bool → Ω → (Fin N → Fin b → Fin N) × Ω)
    (base : ℕ → Fin N → Fin B → Fin d → V) (T : ℕ) (q : System N B d V) (ω : Ω) : ℕ → Fin N → Fin B → Fin d → V :=
  let a := r (fun i b => fin (weightsAt logg (L T) T (q T).2 i b)) false ω
  simulate logg lf L categorical T q (Function.update base T fun i b => (q T).2 (a.1 i b) b) a.2

variable {r : {b : ℕ} → (Fin N → Fin b → XF) → Bool → Ω → (Fin N → Fin b → Fin N) × Ω}

theorem measurable_simulateAll (hlogg : ∀ b y t, Measurable (logg b y t))
    (hlf : ∀ b t, Measurable fun q : (Fin d → V) × (Fin d → V) => lf b t q.1 q.2)
    (hcat : IndependentCategorical P categorical) (hr : IndependentLogResampler P r)
    (base : ℕ → Fin N → Fin B → Fin d → V) (T : ℕ) :
    Measurable fun z : System N B d V × Ω => simulateAll logg lf L categorical r base T z.1 z.2 := by
  have hx : Measurable fun z : System N B d V × Ω => (z.1 T).2 :=
    measurable_snd.comp ((measurable_pi_apply T).comp measurable_fst)
  have hw : Measurable fun z : System N B d V × Ω => weightsAt logg (L T) T (z.1 T).2 :=
    (measurable_weightsAt logg hlogg (L T) T).comp hx
  have ha : Measurable fun z : System N B d V × Ω =>
      r (fun i b => fin (weightsAt logg (L T) T (z.1 T).2 i b)) false z.2 := (hr.measurable B).comp (hw.prodMk measurable_snd)
  have hs : Measurable fun z : System N B d V × Ω => (fun i b => (z.1 T).2
      ((r (fun i b => fin (weightsAt logg (L T) T (z.1 T).2 i b)) false z.2).1 i b) b : Fin N → Fin B → Fin d → V) :=
    measurable_selected.comp (hx.prodMk (measurable_fst.comp ha))
  exact measurable_simulate hlogg hlf hcat T measurable_fst (measurable_updateAt T measurable_const hs) (measurable_snd.comp ha)

/-- The weighted average over backward paths. -/
noncomputable def backAvg (f : ℕ → (Fin d → V) → (Fin d → V) → ℝ≥0∞) (W : ℕ → (Fin N → Fin d → V) → Fin N → ℝ≥0∞)
    (Φ : (ℕ → Fin d → V) → ℝ≥0∞) (T : ℕ) (p : ℕ → Fin d → V) (q : Traj N (Fin d → V)) : ℝ≥0∞ :=
  ∑ k, W T (q T).2 k * back f W Φ T q k p

theorem simulateAll_law [IsProbabilityMeasure P] (hN : 0 < N) (hlogg : ∀ b y t, Measurable (logg b y t))
    (hlf : ∀ b t, Measurable fun q : (Fin d → V) × (Fin d → V) => lf b t q.1 q.2)
    (hcat : IndependentCategorical P categorical) (hr : IndependentLogResampler P r) (b : Fin B) (i : Fin N)
    {Φ : (ℕ → Fin d → V) → ℝ≥0∞} (hΦ : Measurable Φ) (base : ℕ → Fin N → Fin B → Fin d → V) (T : ℕ) (q : System N B d V) :
    ∫⁻ ω, Φ (fun m => simulateAll logg lf L categorical r base T q ω m i b) ∂P
      = backAvg (dens lf b) (normWeight logg b L) Φ T (fun m => base m i b) (column b q) := by
  obtain ⟨ν, hν, h1, -⟩ := hr.draws B (weightsAt logg (L T) T (q T).2)
  have hG : Measurable fun z : (Fin N → Fin B → Fin N) × Ω => Φ fun m =>
      simulate logg lf L categorical T q (Function.update base T fun i b => (q T).2 (z.1 i b) b) z.2 m i b :=
    measurable_from_prod_countable_right fun a => by
      have h3 : Measurable fun ω : Ω => simulate logg lf L categorical T q
          (Function.update base T fun i b => (q T).2 (a i b) b) ω :=
        measurable_simulate hlogg hlf hcat T measurable_const measurable_const measurable_id
      exact hΦ.comp (measurable_path h3 i b)
  have e := draws_lintegral hν hG
  simp only [simulate_law hN hlogg hlf hcat b i hΦ q T, column_path_update] at e
  rw [lintegral_index ν i b fun k => backFrom (dens lf b) (normWeight logg b L) Φ T (column b q)
    (Function.update (fun m => base m i b) T ((q T).2 k b))] at e
  unfold backAvg
  refine e.trans (Finset.sum_congr rfl fun k _ => ?_)
  rw [h1, back_eq, mul_comm]
  rfl

theorem simulateAll_law2 [IsProbabilityMeasure P] (hN : 0 < N) (hlogg : ∀ b y t, Measurable (logg b y t))
    (hlf : ∀ b t, Measurable fun q : (Fin d → V) × (Fin d → V) => lf b t q.1 q.2)
    (hcat : IndependentCategorical P categorical) (hr : IndependentLogResampler P r) (b : Fin B) {i i' : Fin N} (hi : i ≠ i')
    {Φ : (ℕ → Fin d → V) → ℝ≥0∞} (hΦ : Measurable Φ) (base : ℕ → Fin N → Fin B → Fin d → V) (T : ℕ) (q : System N B d V) :
    ∫⁻ ω, Φ (fun m => simulateAll logg lf L categorical r base T q ω m i b) *
        Φ (fun m => simulateAll logg lf L categorical r base T q ω m i' b) ∂P
      = backAvg (dens lf b) (normWeight logg b L) Φ T (fun m => base m i b) (column b q) *
        backAvg (dens lf b) (normWeight logg b L) Φ T (fun m => base m i' b) (column b q) := by
  obtain ⟨ν, hν, -, h2⟩ := hr.draws B (weightsAt logg (L T) T (q T).2)
  have hG1 : ∀ i, Measurable fun z : (Fin N → Fin B → Fin N) × Ω => Φ fun m =>
      simulate logg lf L categorical T q (Function.update base T fun i b => (q T).2 (z.1 i b) b) z.2 m i b := fun i =>
    measurable_from_prod_countable_right fun a => by
      have h3 : Measurable fun ω : Ω => simulate logg lf L categorical T q
          (Function.update base T fun i b => (q T).2 (a i b) b) ω :=
        measurable_simulate hlogg hlf hcat T measurable_const measurable_const measurable_id
      exact hΦ.comp (measurable_path h3 i b)
  have hG : Measurable fun z : (Fin N → Fin B → Fin N) × Ω => (Φ fun m =>
      simulate logg lf L categorical T q (Function.update base T fun i b => (q T).2 (z.1 i b) b) z.2 m i b) * Φ fun m =>
      simulate logg lf L categorical T q (Function.update base T fun i b => (q T).2 (z.1 i b) b) z.2 m i' b :=
    (hG1 i).mul (hG1 i')
  have e := draws_lintegral hν hG
  simp only [simulate_law2 hN hlogg hlf hcat b hi hΦ q T, column_path_update] at e
  rw [lintegral_index2 ν i i' b (fun k => backFrom (dens lf b) (normWeight logg b L) Φ T (column b q)
    (Function.update (fun m => base m i b) T ((q T).2 k b))) fun k => backFrom (dens lf b) (normWeight logg b L) Φ T
    (column b q) (Function.update (fun m => base m i' b) T ((q T).2 k b))] at e
  unfold backAvg
  rw [Finset.sum_mul_sum]
  refine e.trans (Finset.sum_congr rfl fun k _ => Finset.sum_congr rfl fun k' _ => ?_)
  rw [h2 i i' b hi, back_eq, back_eq]
  exact mul_shuffle _ _ _ _

end Verif.Trajectory
