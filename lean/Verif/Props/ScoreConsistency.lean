import Verif.Lemmas.Fisher
import Verif.Props.BackwardConsistency
import Verif.Props.GradientScore
import Mathlib.Analysis.SpecialFunctions.Sqrt

/-!
# Property C131: the gradient of the gradient proposal is a consistent estimate of the score
-/

namespace Verif.Props

open Verif Verif.Spec Verif.Unbiased Verif.GradientScore Verif.Fisher XF MeasureTheory ProbabilityTheory
open scoped ENNReal

variable {N B d : ℕ} {V Y Ω : Type} [MeasurableSpace V] [MeasurableSpace Ω]

theorem slots_every {missing : Y → Bool} (ys : List Y) (h : ∀ y ∈ ys, missing y = false) : slots 1 missing ys = ys.map some := by
  cases ys with
  | nil => rfl
  | cons y ys =>
    simp only [slots, h y (by simp), Bool.false_eq_true, if_false, Nat.sub_self, List.replicate_zero, List.nil_append,
      List.map_cons, List.cons.injEq, true_and]
    rw [List.map_eq_flatMap]
    refine List.flatMap_congr fun z hz => ?_
    rw [h z (by simp [hz])]
    simp

omit [MeasurableSpace V] [MeasurableSpace Ω] in
/-- What is differentiated, when the smoothed paths are known. -/
theorem target_paths (hN : 0 < N) (M : ParticleModel N B d V Y Ω) (KB : Backward N B d V Ω)
    (states : List (PCorr N B d V)) (ys : List Y) (ω : Ω)
    (htimes : (states.map fun c => c.x.time) = List.range (ys.length + 1))
    {n : ℕ} (hn : n = ys.length) (paths : Fin (n + 1) → Vals N B d V)
    (hpaths : (smoothFfbs M KB states ω).map Prod.fst = .ok (List.ofFn paths))
    (li : Fin B → (Fin d → V) → ℝ) (lf : Fin B → ℕ → (Fin d → V) → (Fin d → V) → ℝ) (lg : Fin B → Y → ℕ → (Fin d → V) → ℝ)
    (lp : Fin B → ℝ) :
    target M KB (fun b => ⟨fun x => fin (li b x), fun t x x' => fin (lf b t x x'), fun t x y => fin (lg b y t x)⟩)
        (fun b => fin (lp b)) states ys ω
      = .ok fun b => .ok (fin ((∑ i, (li b (extendPath (fun m => paths m i b) 0)
          + logRatio (lf b) (lg b) ys 0 (extendPath fun m => paths m i b))) / N + lp b)) := by
  obtain ⟨s, rest, rfl⟩ : ∃ s rest, states = s :: rest := by
    cases states with
    | nil => simp at htimes
    | cons s rest => exact ⟨s, rest, rfl⟩
  have h0 : s.x.time = 0 := by
    rw [List.range_succ_eq_map] at htimes
    exact (List.cons.inj htimes).1
  have hs : ∃ ω', smooth M KB (s :: rest) ['f', 'f', 'b', 's'] ω = .ok (List.ofFn paths, ω') := by
    show ∃ ω', smoothFfbs M KB (s :: rest) ω = .ok (List.ofFn paths, ω')
    revert hpaths
    cases smoothFfbs M KB (s :: rest) ω with
    | error e => intro h; cases h
    | ok q =>
      intro h
      exact ⟨q.2, by rw [← Except.ok.inj h]⟩
  obtain ⟨ω', hs⟩ := hs
  unfold target
  rw [hs]
  show Except.ok _ = _
  congr 1
  funext b
  have := modelLikelihood_times hN (⟨fun x => fin (li b x), fun t x x' => fin (lf b t x x'), fun t x y => fin (lg b y t x)⟩ :
      Densities (Fin d → V) Y) (fin (lp b)) ((List.ofFn paths).map fun v i => v i b) ys
    (fun i => extendPath fun m => paths m i b) 0 id (by simp [hn]) (by
      intro m v hv i
      rw [List.getElem?_map, Option.map_eq_some_iff] at hv
      obtain ⟨w, hw, rfl⟩ := hv
      obtain ⟨hm, rfl⟩ := List.getElem?_eq_some_iff.1 hw
      rw [List.length_ofFn] at hm
      rw [List.getElem_ofFn]
      unfold extendPath
      rw [dif_pos hm])
  have ht : ((s :: rest).map fun c => c.x.time) = List.range (n + 1) := by rw [htimes, hn]
  rw [List.length_map, List.length_ofFn, List.map_id] at this
  dsimp only at this ⊢
  rw [h0, ht, this]
  congr 1
  have hN' : (N : ℝ) ≠ 0 := by exact_mod_cast hN.ne'
  rw [← fin_add, ← fin_div hN', ← XF.sum_fin]
  unfold Spec.average
  congr 3
  funext i
  simp only [fin_add]
  rw [XF.sum_fin, fin_add, logRatio_sum]
  congr 2
  refine Finset.sum_congr rfl fun m _ => ?_
  simp

/-- C131: the function that the gradient proposal differentiates has, at the parameters of the filter run, a derivative whose mean
squared distance from the derivative of `log p(y | θ) + log p(θ)` is of order `1 / N`. -/
theorem C131_error (P : Measure Ω) [IsProbabilityMeasure P] (hN : 0 < N) (hB : 0 < B) (lo threshold : ℝ)
    (hthr : (N : ℝ) < threshold) (r : {b : ℕ} → (Fin N → Fin b → XF) → Bool → Ω → (Fin N → Fin b → Fin N) × Ω)
    (hr : MutualResampler P r) (hrl : IndependentLogResampler P r)
    (θ₀ : Fin B → ℝ) (ε S : ℝ) (hε : 0 < ε) (hS : 0 < S) (lam₀ lam : Fin B → Measure (Fin d → V)) [∀ b, SigmaFinite (lam b)]
    (μ : Fin B → ℝ → Measure (Fin d → V)) (K : Fin B → ℝ → ℕ → Kernel (Fin d → V) (Fin d → V))
    (li dli : Fin B → ℝ → (Fin d → V) → ℝ) (lf dlf : Fin B → ℝ → ℕ → (Fin d → V) → (Fin d → V) → ℝ)
    (lg dlg : Fin B → ℝ → Y → ℕ → (Fin d → V) → ℝ)
    (hmodel : ∀ b, SmoothModel (lam₀ b) (lam b) (μ b) (K b) (li b) (lf b) (lg b) (dli b) (dlf b) (dlg b) (θ₀ b) ε S)
    (c : Y → ℝ) (hc : ∀ b y t x, lg b (θ₀ b) y t x ≤ c y) (lp dlp : Fin B → ℝ → ℝ)
    (hlp : ∀ b, HasDerivAt (lp b) (dlp b (θ₀ b)) (θ₀ b))
    (init : Ω → (Fin N → Fin B → Fin d → V) × Ω) (hinit : MutualInitial P init fun b => μ b (θ₀ b))
    (propagate : TS N B d V → Ω → (Fin N → Fin B → Fin d → V) × Ω) (hK : MutualTransitions P propagate fun b => K b (θ₀ b))
    (pre : Y → TS N B d V → Fin N → Fin B → XF) (missing : Y → Bool)
    (KB : Backward N B d V Ω) (hKB : ∀ s j b x, KB.logDensity s j b x = fin (lf b (θ₀ b) s.time (s.value j b) x))
    (hcat : IndependentCategorical P KB.categorical) (intermediary : Bool) (nan : NanStrategy) (ks km : Option ℕ) (fuel : ℕ)
    (ys : List Y) (hmiss : ∀ y ∈ ys, missing y = false) (hks : ∀ m, ks = some m → ys.length + 1 ≤ m) :
    ∃ (run : Ω → PCorr N B d V × FilterOps.Recorded (PCorr N B d V) Unit × Ω) (f : Ω → Fin B → ℝ → ℝ) (grad : Ω → Fin B → ℝ),
      (∀ ω, (FilterKind.sisr.ops (bootstrapModel lo threshold r propagate
          (fun y x i b => fin (lg b (θ₀ b) y x.time (x.value i b))) pre missing)).batchFilter ⟨1, intermediary, nan⟩ ks km
            (fun _ => ()) fuel ys (initializeFilter lo (init ω).1) (init ω).2 = some (run ω)) ∧
      (∀ ω (θ : Fin B → ℝ), target (bootstrapModel lo threshold r propagate
          (fun y x i b => fin (lg b (θ₀ b) y x.time (x.value i b))) pre missing) KB
          (fun b => ⟨fun x => fin (li b (θ b) x), fun t x x' => fin (lf b (θ b) t x x'), fun t x y => fin (lg b (θ b) y t x)⟩)
          (fun b => fin (lp b (θ b))) (run ω).2.1.states.items ys (run ω).2.2 = .ok fun b => .ok (fin (f ω b (θ b)))) ∧
      (∀ ω b, HasDerivAt (f ω b) (grad ω b) (θ₀ b)) ∧
      ∀ b, ∃ score : ℝ, HasDerivAt (fun θ => Real.log (∫⁻ x, lik (K b θ) (fun y t x => ENNReal.ofReal (Real.exp (lg b θ y t x)))
          (ys.map some) 0 x ∂(μ b θ)).toReal + lp b θ) score (θ₀ b) ∧
        ∫⁻ ω, ENNReal.ofReal ((grad ω b - score) ^ 2) ∂P
          ≤ ENNReal.ofReal ((2 * ((2 * ys.length + 1) * S)) ^ 2 * ((4 * ((2 * ys.length + 1) *
            (boundOf c (ys.map some) / (∫⁻ x, lik (K b (θ₀ b)) (fun y t x => ENNReal.ofReal (Real.exp (lg b (θ₀ b) y t x)))
              (ys.map some) 0 x ∂(μ b (θ₀ b))).toReal) ^ 2) + 1) / N)) := by
  have hslots : slots 1 missing ys = ys.map some := slots_every ys hmiss
  have hlen : (slots 1 missing ys).length = ys.length := by rw [hslots, List.length_map]
  obtain ⟨C, hCdef⟩ : ∃ C, C = (2 * (ys.length : ℝ) + 1) * S := ⟨_, rfl⟩
  have hC : 0 < C := by rw [hCdef]; positivity
  have hprob : ∀ b, IsProbabilityMeasure (μ b (θ₀ b)) := hinit.1
  have hmark : ∀ b t, IsMarkovKernel (K b (θ₀ b) t) := hK.markov
  have hbd : ∀ b q, |score (dli b) (dlf b) (dlg b) ys (θ₀ b) q| ≤ C := fun b q => by
    rw [hCdef]; exact score_bound (hmodel b) ys (by simpa using hε) q
  have main := fun b => C130_error P hN hB lo threshold hthr r hr hrl (fun b => K b (θ₀ b)) (fun b => μ b (θ₀ b))
    (fun b => lg b (θ₀ b)) (fun b y t => (hmodel b).measurable_obs _ y t) c hc init hinit propagate hK pre missing lam
    (fun b => lf b (θ₀ b)) (fun b t => (hmodel b).measurable_trans _ t) (fun b t x => (hmodel b).trans _ t x) KB hKB hcat
    ⟨1, intermediary, nan⟩ one_pos (Or.inr rfl) fuel (Nat.zero_le _) ys b
    (fun p => (score (dli b) (dlf b) (dlg b) ys (θ₀ b) (extendPath p) + C) / (2 * C))
    ((((measurable_score (hmodel b) hε ys).comp measurable_extendPath).add_const C).div_const _)
    (fun p => div_nonneg (by linarith [(abs_le.1 (hbd b (extendPath p))).1]) (by linarith))
    (fun p => (div_le_one (by linarith)).2 (by linarith [(abs_le.1 (hbd b (extendPath p))).2]))
  obtain ⟨run, paths, h1, h2, -⟩ := main ⟨0, hB⟩
  have hitems : ∀ ω, ((initializeFilter lo (init ω).1 :: (run ω).2.1).foldl (FilterOps.Recorded.append fun _ => ())
      ⟨⟨ks, []⟩, ⟨km, []⟩⟩).states.items = initializeFilter lo (init ω).1 :: (run ω).2.1 ∧
      ((initializeFilter lo (init ω).1 :: (run ω).2.1).map fun c => c.x.time) = List.range (ys.length + 1) := by
    intro ω
    obtain ⟨es, hl, hes, hall⟩ := batch_items .sisr (bootstrapModel lo threshold r propagate
      (fun y x i b => fin (lg b (θ₀ b) y x.time (x.value i b))) pre missing) rfl (k := 1) one_pos fuel (by omega) ys
      (initializeFilter lo (init ω).1) rfl (init ω).2
    obtain ⟨q, hq1, hq2⟩ := hall intermediary nan none km
    have hrec : recorded intermediary es = es.map Prod.snd := by
      rw [← recorded_observed]
      unfold recorded
      refine List.flatMap_congr fun e he => ?_
      obtain ⟨n, hn, rfl⟩ := List.mem_iff_getElem.1 he
      have := (hes n ys[n] es[n] (List.getElem?_eq_getElem (hl ▸ hn)) (List.getElem?_eq_getElem hn)).count
      have h1 : es[n].1 = [] := by
        apply List.eq_nil_of_length_eq_zero
        rw [this]; simp
      rw [h1]; simp
    rw [hrec] at hq2
    unfold FilterOps.batchFilter at hq1
    rw [h1 ω] at hq1
    rw [← Option.some.inj hq1] at hq2
    dsimp only at hq2
    rw [FilterOps.foldl_append] at hq2
    have hq3 := (FilterOps.foldl_append_lastN none _).symm.trans hq2
    have hq4 : (run ω).2.1 = es.map Prod.snd := (List.cons.inj hq3).2
    constructor
    · rw [FilterOps.foldl_append]
      refine (FilterOps.foldl_append_lastN ks _).trans (lastN_all ks _ ?_)
      rw [hq4]
      simpa [hl] using hks
    · rw [hq4, observed_times .sisr _ ys _ rfl es hl hes]
      refine (List.map_congr_left fun n _ => ?_).trans (List.map_id _)
      show (if n = 0 then 0 else (n - 1) * 1 + 1) = id n
      rw [id]
      split_ifs <;> omega
  refine ⟨fun ω => ((run ω).1, (initializeFilter lo (init ω).1 :: (run ω).2.1).foldl (FilterOps.Recorded.append fun _ => ())
      ⟨⟨ks, []⟩, ⟨km, []⟩⟩, (run ω).2.2),
    fun ω b θ => (∑ i, (li b θ (extendPath (fun m => paths ω m i b) 0)
          + logRatio (lf b θ) (lg b θ) ys 0 (extendPath fun m => paths ω m i b))) / N + lp b θ,
    fun ω b => (∑ i, score (dli b) (dlf b) (dlg b) ys (θ₀ b) (extendPath fun m => paths ω m i b)) / N + dlp b (θ₀ b),
    fun ω => ?_, fun ω θ => ?_, fun ω b => ?_, fun b => ?_⟩
  · unfold FilterOps.batchFilter
    rw [h1 ω]
    rfl
  · dsimp only
    rw [(hitems ω).1]
    exact target_paths hN _ KB _ ys _ (hitems ω).2 hlen (paths ω) (h2 ω) (fun b => li b (θ b)) (fun b => lf b (θ b))
      (fun b => lg b (θ b)) (fun b => lp b (θ b))
  · refine ((HasDerivAt.fun_sum fun i _ => ?_).div_const _).add (hlp b)
    have hz : |θ₀ b - θ₀ b| < ε := by simpa using hε
    have h3 := logRatio_deriv (fun _ _ _ => 0) (fun t x x' => ((hmodel b).deriv_trans (θ₀ b) hz t x x').1)
      (fun y t x => ((hmodel b).deriv_obs (θ₀ b) hz y t x).1) ys 0 (extendPath fun m => paths ω m i b)
    simp only [sub_zero] at h3
    exact ((hmodel b).deriv_init (θ₀ b) hz _).1.add h3
  · obtain ⟨run', paths', g1, g2, g3⟩ := main b
    have e : run' = run := funext fun ω => Option.some.inj ((g1 ω).symm.trans (h1 ω))
    subst e
    have e1 : paths' = paths := funext fun ω => List.ofFn_injective (Except.ok.inj ((g2 ω).symm.trans (h2 ω)))
    subst e1
    have := hprob b
    have := hmark b
    obtain ⟨hpos, hder⟩ := fisher (hmodel b) hε (hc b) ys
    refine ⟨_, hder.add (hlp b), ?_⟩
    have hsm := smoothing_score (hmodel b) hε (hc b) ys hC hCdef.ge (slots 1 missing ys) hslots
    dsimp only at g3
    rw [hsm] at g3
    let F : List (Option Y) → ℝ≥0∞ := fun os => ENNReal.ofReal ((4 * ((2 * os.length + 1) *
            (boundOf c os / (∫⁻ x, lik (K b (θ₀ b)) (fun y t x => ENNReal.ofReal (Real.exp (lg b (θ₀ b) y t x)))
              os 0 x ∂(μ b (θ₀ b))).toReal) ^ 2) + 1) / N)
    have hF : F (slots 1 missing ys) = F (ys.map some) := congrArg F hslots
    have g4 := g3.trans (le_of_eq hF)
    dsimp only [F] at g4
    rw [List.length_map] at g4
    have e2 : ∀ (s a : ℝ) (v : Fin N → ℝ), (((∑ i, v i) / N + a) - (s + a)) ^ 2
        = (2 * C) ^ 2 * ((∑ i, (v i + C) / (2 * C)) / N - (s + C) / (2 * C)) ^ 2 := by
      intro s a v
      have hN' : (N : ℝ) ≠ 0 := by exact_mod_cast hN.ne'
      rw [← Finset.sum_div, Finset.sum_add_distrib, Finset.sum_const, Finset.card_univ, Fintype.card_fin, nsmul_eq_mul]
      field_simp
      ring
    simp only [e2]
    rw [ENNReal.ofReal_mul (sq_nonneg _), ← hCdef]
    refine le_trans (le_of_eq ?_) (mul_le_mul_right g4 _)
    rw [← lintegral_const_mul' _ _ ENNReal.ofReal_ne_top]
    refine lintegral_congr fun ω => ?_
    rw [ENNReal.ofReal_mul (sq_nonneg _)]

/-- C131, the limit: as the number of particles grows, the mean squared distance between the gradient that the proposal uses and
the derivative of `log p(y | θ) + log p(θ)` tends to zero. -/
theorem C131_consistent (P : Measure Ω) [IsProbabilityMeasure P] (hB : 0 < B) (lo τ : ℝ) (hτ : 1 < τ)
    (mult : ∀ N, TorchMultinomial (N + 1) Ω) (hmult : ∀ N, MutualMultinomial P (mult N))
    (θ₀ : Fin B → ℝ) (ε S : ℝ) (hε : 0 < ε) (hS : 0 < S) (lam₀ lam : Fin B → Measure (Fin d → V)) [∀ b, SigmaFinite (lam b)]
    (μ : Fin B → ℝ → Measure (Fin d → V)) (K : Fin B → ℝ → ℕ → Kernel (Fin d → V) (Fin d → V))
    (li dli : Fin B → ℝ → (Fin d → V) → ℝ) (lf dlf : Fin B → ℝ → ℕ → (Fin d → V) → (Fin d → V) → ℝ)
    (lg dlg : Fin B → ℝ → Y → ℕ → (Fin d → V) → ℝ)
    (hmodel : ∀ b, SmoothModel (lam₀ b) (lam b) (μ b) (K b) (li b) (lf b) (lg b) (dli b) (dlf b) (dlg b) (θ₀ b) ε S)
    (c : Y → ℝ) (hc : ∀ b y t x, lg b (θ₀ b) y t x ≤ c y) (lp dlp : Fin B → ℝ → ℝ)
    (hlp : ∀ b, HasDerivAt (lp b) (dlp b (θ₀ b)) (θ₀ b))
    (init : ∀ N, Ω → (Fin (N + 1) → Fin B → Fin d → V) × Ω) (hinit : ∀ N, MutualInitial P (init N) fun b => μ b (θ₀ b))
    (propagate : ∀ N, TS (N + 1) B d V → Ω → (Fin (N + 1) → Fin B → Fin d → V) × Ω)
    (hK : ∀ N, MutualTransitions P (propagate N) fun b => K b (θ₀ b))
    (pre : ∀ N, Y → TS (N + 1) B d V → Fin (N + 1) → Fin B → XF) (missing : Y → Bool) (KB : ∀ N, Backward (N + 1) B d V Ω)
    (hKB : ∀ N s j b x, (KB N).logDensity s j b x = fin (lf b (θ₀ b) s.time (s.value j b) x))
    (hcat : ∀ N, IndependentCategorical P (KB N).categorical) (intermediary : Bool) (nan : NanStrategy) (ks km : Option ℕ)
    (fuel : ℕ) (ys : List Y) (hmiss : ∀ y ∈ ys, missing y = false) (hks : ∀ m, ks = some m → ys.length + 1 ≤ m)
    (run : ∀ N, Ω → PCorr (N + 1) B d V × FilterOps.Recorded (PCorr (N + 1) B d V) Unit × Ω)
    (hrun : ∀ N ω, (FilterKind.sisr.ops (bootstrapModel lo (τ * (N + 1 : ℕ)) (multinomial2 lo (mult N)) (propagate N)
          (fun y x i b => fin (lg b (θ₀ b) y x.time (x.value i b))) (pre N) missing)).batchFilter ⟨1, intermediary, nan⟩ ks km
            (fun _ => ()) fuel ys (initializeFilter lo (init N ω).1) (init N ω).2 = some (run N ω))
    (f : ℕ → Ω → Fin B → ℝ → ℝ)
    (hf : ∀ N ω (θ : Fin B → ℝ), target (bootstrapModel lo (τ * (N + 1 : ℕ)) (multinomial2 lo (mult N)) (propagate N)
          (fun y x i b => fin (lg b (θ₀ b) y x.time (x.value i b))) (pre N) missing) (KB N)
          (fun b => ⟨fun x => fin (li b (θ b) x), fun t x x' => fin (lf b (θ b) t x x'), fun t x y => fin (lg b (θ b) y t x)⟩)
          (fun b => fin (lp b (θ b))) (run N ω).2.1.states.items ys (run N ω).2.2 = .ok fun b => .ok (fin (f N ω b (θ b))))
    (b : Fin B) (score : ℝ)
    (hscore : HasDerivAt (fun θ => Real.log (∫⁻ x, lik (K b θ) (fun y t x => ENNReal.ofReal (Real.exp (lg b θ y t x)))
          (ys.map some) 0 x ∂(μ b θ)).toReal + lp b θ) score (θ₀ b)) :
    Filter.Tendsto (fun N => ∫⁻ ω, ENNReal.ofReal ((deriv (f N ω b) (θ₀ b) - score) ^ 2) ∂P) Filter.atTop (nhds 0) := by
  refine tendsto_of_tendsto_of_tendsto_of_le_of_le (g := fun _ => 0)
    (h := fun N : ℕ => ENNReal.ofReal ((2 * ((2 * ys.length + 1) * S)) ^ 2 * ((4 * ((2 * ys.length + 1) *
            (boundOf c (ys.map some) / (∫⁻ x, lik (K b (θ₀ b)) (fun y t x => ENNReal.ofReal (Real.exp (lg b (θ₀ b) y t x)))
              (ys.map some) 0 x ∂(μ b (θ₀ b))).toReal) ^ 2) + 1) / ((N + 1 : ℕ) : ℝ))))
    tendsto_const_nhds ?_ (fun _ => zero_le) fun N => ?_
  · rw [← ENNReal.ofReal_zero]
    refine (ENNReal.continuous_ofReal.tendsto 0).comp ?_
    have h1 : Filter.Tendsto (fun N : ℕ => ((N + 1 : ℕ) : ℝ)) Filter.atTop Filter.atTop :=
      tendsto_natCast_atTop_atTop.comp (Filter.tendsto_add_atTop_nat 1)
    have h2 := (h1.const_div_atTop (4 * ((2 * ys.length + 1) *
            (boundOf c (ys.map some) / (∫⁻ x, lik (K b (θ₀ b)) (fun y t x => ENNReal.ofReal (Real.exp (lg b (θ₀ b) y t x)))
              (ys.map some) 0 x ∂(μ b (θ₀ b))).toReal) ^ 2) + 1)).const_mul ((2 * ((2 * ys.length + 1) * S)) ^ 2)
    rwa [mul_zero] at h2
  · have hN' : (0 : ℝ) < (N + 1 : ℕ) := by positivity
    obtain ⟨run', f', grad, h1, h2, h3, h4⟩ := C131_error P (Nat.succ_pos N) hB lo (τ * (N + 1 : ℕ))
      (lt_mul_of_one_lt_left hN' hτ) (multinomial2 lo (mult N)) (multinomial_mutual lo (hmult N))
      (multinomial_log_independent lo (Nat.succ_pos N) (Unbiased.MutualMultinomial.independent (hmult N)))
      θ₀ ε S hε hS lam₀ lam μ K li dli lf dlf lg dlg hmodel c hc lp dlp hlp (init N) (hinit N) (propagate N) (hK N) (pre N) missing
      (KB N) (hKB N) (hcat N) intermediary nan ks km fuel ys hmiss hks
    have e : run' = run N := funext fun ω => Option.some.inj ((h1 ω).symm.trans (hrun N ω))
    subst e
    have e1 : ∀ ω, f' ω b = f N ω b := fun ω => funext fun θ => by
      have h5 := Except.ok.inj ((h2 ω fun _ => θ).symm.trans (hf N ω fun _ => θ))
      exact XF.fin.inj (Except.ok.inj (congrFun h5 b))
    obtain ⟨s, h5, h6⟩ := h4 b
    rw [h5.unique hscore] at h6
    refine le_trans (le_of_eq ?_) h6
    refine lintegral_congr fun ω => ?_
    rw [← e1, (h3 ω b).deriv]

/-! ## A case -/

/-- The initial distribution of the processes of `kernelMove`, with its density. -/
theorem kernelInit_density (b : Fin 2) :
    ((Measure.pi fun _ : Fin 2 => gaussianReal 0 1).map fun z (_ : Fin 1) => z 0)
      = ((volume : Measure ℝ).map fun z (_ : Fin 1) => z).withDensity
          fun x => ENNReal.ofReal (Real.exp (kernelLog b 0 (fun _ => 0) x)) := by
  rw [← kernelMove_density b 0 fun _ => 0, noiseKernel_apply _ (measurable_kernelMove b 0)]
  congr 1
  funext z i
  simp [kernelMove]

/-- Heavy-tailed observations of a level that is shifted by the parameter. -/
noncomputable def shiftLog (θ y : ℝ) (_t : ℕ) (x : Fin 1 → ℝ) : ℝ := -Real.sqrt (1 + (y - x 0 - θ) ^ 2)

noncomputable def shiftDeriv (θ y : ℝ) (_t : ℕ) (x : Fin 1 → ℝ) : ℝ := (y - x 0 - θ) / Real.sqrt (1 + (y - x 0 - θ) ^ 2)

theorem shift_deriv (θ y : ℝ) (t : ℕ) (x : Fin 1 → ℝ) :
    HasDerivAt (fun θ => shiftLog θ y t x) (shiftDeriv θ y t x) θ ∧ |shiftDeriv θ y t x| ≤ 1 := by
  have hp : 0 < 1 + (y - x 0 - θ) ^ 2 := by positivity
  have hs := Real.sqrt_pos.2 hp
  constructor
  · have h1 : HasDerivAt (fun θ => 1 + (y - x 0 - θ) ^ 2) (2 * (y - x 0 - θ) * (-1)) θ := by
      have h2 := (((hasDerivAt_id θ).const_sub (y - x 0)).pow 2).const_add 1
      simpa using h2
    have h3 := (h1.sqrt hp.ne').neg
    refine h3.congr_deriv ?_
    unfold shiftDeriv
    field_simp
  · unfold shiftDeriv
    rw [abs_div, abs_of_pos hs, div_le_one hs]
    refine Real.abs_le_sqrt ?_
    linarith

/-- A case for C131: the autoregressive processes of the case for C130, with observations whose location is shifted by the
parameter and whose density has heavy tails. The derivative of the log-density of an observation is not constant. -/
example : (∀ b : Fin 2, SmoothModel ((volume : Measure ℝ).map fun z (_ : Fin 1) => z) ((volume : Measure ℝ).map fun z (_ : Fin 1) => z)
      (fun _ => (Measure.pi fun _ : Fin 2 => gaussianReal 0 1).map fun z (_ : Fin 1) => z 0)
      (fun _ t => noiseKernel (Measure.pi fun _ : Fin 2 => gaussianReal 0 1) (kernelMove b t))
      (fun _ => kernelLog b 0 fun _ => 0) (fun _ => kernelLog b) shiftLog (fun _ _ => 0) (fun _ _ _ _ => 0) shiftDeriv
      (if b = 0 then 0 else 2) 1 1) ∧
    (∀ (b : Fin 2) y t x, shiftLog (if b = 0 then 0 else 2) y t x ≤ 0) ∧
    shiftDeriv 0 1 1 (fun _ => 0) ≠ shiftDeriv 0 1 1 (fun _ => 1) := by
  refine ⟨fun b => ⟨fun _ => kernelInit_density b, fun _ t x => kernelMove_density b t x, fun _ => ?_, fun _ t =>
    measurable_kernelLog b t, fun θ y t => ?_, fun θ _ x => ⟨hasDerivAt_const _ _, by simp⟩, fun θ _ t x x' =>
    ⟨hasDerivAt_const _ _, by simp⟩, fun θ _ y t x => shift_deriv θ y t x⟩, fun b y t x => ?_, ?_⟩
  · unfold kernelLog
    fun_prop
  · unfold shiftLog
    fun_prop
  · unfold shiftLog
    exact neg_nonpos.2 (Real.sqrt_nonneg _)
  · unfold shiftDeriv
    have : (0 : ℝ) < 1 / Real.sqrt (1 + 1 ^ 2) := by positivity
    norm_num

end Verif.Props
