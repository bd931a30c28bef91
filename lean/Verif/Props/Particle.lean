import Verif.Lemmas.Particle
import Verif.Lemmas.Filter

/-!
# Properties C25, C27, C28, C29 and C36: the steps of the particle filters
-/

namespace Verif.Props

open Verif Verif.Spec XF

variable {N B d : ℕ} {V Y Ω : Type}

/-- Every constructed filter state has usable log-weights: the hypothesis of the theorems below holds for
every state that a filter returns. -/
theorem constructed_usable (lo : ℝ) (x : TS N B d V) (w ll prev) :
    ∀ i b, Usable ((PCorr.mk' lo x w ll prev).w i b) := fun i b => mk'_usable lo x w ll prev i b

/-! ## C27 -/

/-- C27: the prediction step of SISR. `cols` lists exactly the parallel filters with effective sample size
below the threshold; the resampler is called once, on the normalised weights of these; for the `j`-th of
them the particles (all components) and ancestor indices are the selected ones, log-weights are zero and
normalised weights `1/N`; every other filter keeps particles, indices, finite log-weights and normalised
weights. The time index is kept. -/
theorem C27_resamples_exactly_degenerate (M : ParticleModel N B d V Y Ω) (s : PCorr N B d V) (ω : Ω)
    (hN : 0 < N) (hs : ∀ i b, Usable (s.w i b)) :
    ∃ (cols : List (Fin B)) (sub : Fin N → Fin cols.length → Fin N),
      cols.Pairwise (· < ·) ∧
      (∀ b, b ∈ cols ↔ essOf (colProb M.lo s.w b) < M.threshold) ∧
      (cols = [] → (M.sisrPredict s ω).2 = ω) ∧
      (cols ≠ [] → (sub, (M.sisrPredict s ω).2) =
        M.resampler (fun i j => fin (colProb M.lo s.w (cols.get j) i)) true ω) ∧
      (∀ j i, (M.sisrPredict s ω).1.prevX.value i (cols.get j) = s.x.value (sub i j) (cols.get j) ∧
        (M.sisrPredict s ω).1.idx i (cols.get j) = sub i j ∧
        (M.sisrPredict s ω).1.w i (cols.get j) = fin 0 ∧
        (M.sisrPredict s ω).1.nw i (cols.get j) = fin (1 / (N : ℝ))) ∧
      (∀ b, b ∉ cols → ∀ i, (M.sisrPredict s ω).1.prevX.value i b = s.x.value i b ∧
        (M.sisrPredict s ω).1.idx i b = s.prev i b ∧
        (∀ r, s.w i b = fin r → (M.sisrPredict s ω).1.w i b = fin r) ∧
        (s.w i b = ninf → (M.sisrPredict s ω).1.w i b = fin M.lo) ∧
        (M.sisrPredict s ω).1.nw i b = fin (colProb M.lo s.w b i)) ∧
      (M.sisrPredict s ω).1.prevX.time = s.x.time := by
  classical
  have hex : ∀ b, ∃ i, Usable (s.w i b) := fun b => ⟨⟨0, hN⟩, hs _ b⟩
  set mask : Fin B → Bool := fun b =>
    decide (XF.lt ((getEss2 M.lo (normalize2 M.lo s.w).2 true).2 b) (XF.fin M.threshold)) with hmask
  have hmask' : ∀ b, mask b = true ↔ essOf (colProb M.lo s.w b) < M.threshold := by
    intro b
    rw [hmask]
    simp only [essColumn M.lo s.w b (hex b), decide_eq_true_eq]
    exact Iff.rfl
  have hmem : ∀ b, b ∈ maskCols mask ↔ essOf (colProb M.lo s.w b) < M.threshold :=
    fun b => (mem_maskCols mask b).trans (hmask' b)
  have hnw : ∀ b i, (normalize2 M.lo s.w).2 i b = fin (colProb M.lo s.w b i) :=
    fun b i => normalize2_usable M.lo s.w b (hex b) i
  have hw : ∀ i b, (∀ r, s.w i b = fin r → (normalize2 M.lo s.w).1 i b = fin r) ∧
      (s.w i b = ninf → (normalize2 M.lo s.w).1 i b = fin M.lo) := by
    intro i b
    show (∀ r, s.w i b = fin r → nanToNum M.lo (s.w i b) = fin r) ∧
      (s.w i b = ninf → nanToNum M.lo (s.w i b) = fin M.lo)
    constructor
    · intro r h; rw [h]; rfl
    · intro h; rw [h]; rfl
  by_cases hall : ∀ b, mask b = false
  · have hnil : maskCols mask = [] := by
      simp [maskCols, hall]
    have hp : M.sisrPredict s ω
        = (⟨s.x, (normalize2 M.lo s.w).1, (normalize2 M.lo s.w).2, s.prev⟩, ω) := by
      unfold ParticleModel.sisrPredict
      dsimp only
      rw [if_pos hall]
    rw [hp]
    refine ⟨[], fun _ j => j.elim0, List.Pairwise.nil, ?_, fun _ => rfl, by simp, fun j => j.elim0, ?_, rfl⟩
    · intro b; rw [← hmem b, hnil]
    · intro b _ i
      exact ⟨rfl, rfl, (hw i b).1, (hw i b).2, hnw b i⟩
  · set q := M.resampler (b := (maskCols mask).length)
      (fun i j => (normalize2 M.lo s.w).2 i ((maskCols mask).get j)) true ω with hq
    have hp : M.sisrPredict s ω =
        (⟨⟨maskedScatter s.x.value mask
            (flatten fun i (j : Fin (maskCols mask).length) e =>
              s.x.value (q.1 i j) ((maskCols mask).get j) e), s.x.time⟩,
          fun i b => if mask b then fin 0 else (normalize2 M.lo s.w).1 i b,
          fun i b => if mask b then fin (1 / (N : ℝ)) else (normalize2 M.lo s.w).2 i b,
          fun i b => maskedScatter (d := 1) (fun i b _ => s.prev i b) mask
            (flatten (d := 1) fun i j _ => q.1 i j) i b 0⟩, q.2) := by
      unfold ParticleModel.sisrPredict
      dsimp only
      rw [if_neg hall]
    rw [hp]
    have hin : ∀ j, mask ((maskCols mask).get j) = true :=
      fun j => (mem_maskCols mask _).1 (List.get_mem _ _)
    refine ⟨maskCols mask, q.1, maskCols_sorted mask, hmem, ?_, ?_, ?_, ?_, rfl⟩
    · intro hnil
      exfalso
      apply hall
      intro b
      have : b ∉ maskCols mask := by rw [hnil]; simp
      rw [mem_maskCols] at this
      simpa using this
    · intro _
      show q = _
      rw [hq]
      simp only [hnw]
    · intro j i
      refine ⟨?_, ?_, by simp only [hin, if_true], by simp only [hin, if_true]⟩
      · funext e
        exact maskedScatter_get s.x.value mask _ i j e
      · exact maskedScatter_get (d := 1) (fun i b _ => s.prev i b) mask (fun i j _ => q.1 i j) i j 0
    · intro b hb i
      have hf : mask b = false := by
        rw [mem_maskCols] at hb
        simpa using hb
      refine ⟨?_, ?_, ?_, ?_, ?_⟩
      · funext e
        exact maskedScatter_of_not s.x.value mask _ i b e hf
      · exact maskedScatter_of_not (d := 1) (fun i b _ => s.prev i b) mask _ i b 0 hf
      · intro r h
        simp only [hf]
        exact (hw i b).1 r h
      · intro h
        simp only [hf]
        exact (hw i b).2 h
      · simp only [hf]
        exact hnw b i

/-- Case: two particles, two filters, the first degenerate (log-weights 0 and -20), the second balanced,
threshold 1.8: exactly the first is resampled. -/
example : essOf (colProb (-1000) (fun i b => if b = 0 ∧ i = 1 then fin (-20) else fin 0 : Fin 2 → Fin 2 → XF) 1)
      = 2 ∧
    essOf (colProb (-1000) (fun i b => if b = 0 ∧ i = 1 then fin (-20) else fin 0 : Fin 2 → Fin 2 → XF) 0)
      < 1.8 := by
  constructor
  · simp [essOf, colProb, mass]
  · have h1 : Real.exp (-20) < 1 / 20 := by
      rw [Real.exp_neg, ← one_div]
      apply one_div_lt_one_div_of_lt (by norm_num)
      have := Real.add_one_lt_exp (x := 20) (by norm_num)
      linarith
    have h0 := Real.exp_pos (-20)
    simp only [essOf, colProb, mass, Fin.sum_univ_two]
    simp only [Fin.isValue, zero_ne_one, and_false, if_false, and_self, if_true, Real.exp_zero]
    set a := Real.exp (-20)
    rw [div_lt_iff₀ (by positivity)]
    rw [div_mul_div_comm, div_mul_div_comm, ← add_div, ← mul_div_assoc, lt_div_iff₀ (by positivity)]
    nlinarith

/-! ## C28 -/

/-- C28: the SISR correction after a prediction. `v` are the importance log-weights of the proposal. Finite
log-weights add up; a particle with NaN importance weight gets log-weight `-inf`; the ancestor indices
are those of the prediction; and if the importance weights of filter `b` are finite or `-inf`, not all
`-inf`, then the log-likelihood of filter `b` is `log Σ W_i exp(v_i)` where `W` are the normalised
predicted weights, a probability vector. -/
theorem C28_sisr_update (M : ParticleModel N B d V Y Ω) (s : PCorr N B d V) (ω ω' : Ω) (y : Y)
    (hN : 0 < N) (hs : ∀ i b, Usable (s.w i b)) (p : PPred N B d V) (hp : p = (M.sisrPredict s ω).1)
    (v : Fin N → Fin B → XF) (hv : v = (M.sampleAndWeight y p ω').1.2) :
    (∀ i b a r, v i b = fin a → p.w i b = fin r → (M.sisrCorrect y p ω').1.w i b = fin (a + r)) ∧
    (∀ i b, v i b = nan → (M.sisrCorrect y p ω').1.w i b = ninf) ∧
    (M.sisrCorrect y p ω').1.prev = p.idx ∧
    (M.sisrCorrect y p ω').1.x = (M.sampleAndWeight y p ω').1.1 ∧
    ∀ b, ∃ W : Fin N → ℝ, IsProb W ∧ (∀ i, p.nw i b = fin (W i)) ∧
      ((∀ i, v i b = ninf ∨ ∃ r, v i b = fin r) → (∃ i r, v i b = fin r) →
        (M.sisrCorrect y p ω').1.ll b = XF.log (fin (∑ i, W i * expOf (v i b)))) := by
  classical
  have hw : ∀ i b, (M.sisrCorrect y p ω').1.w i b = nanToNum M.lo (v i b + p.w i b) := by
    intro i b; rw [hv]; rfl
  refine ⟨?_, ?_, rfl, rfl, ?_⟩
  · intro i b a r h1 h2
    rw [hw, h1, h2]; rfl
  · intro i b h
    rw [hw, h]; simp [nanToNum]
  · intro b
    have hW : ∃ W : Fin N → ℝ, IsProb W ∧ ∀ i, p.nw i b = fin (W i) := by
      obtain ⟨cols, sub, -, hmem, -, -, hin, hout, -⟩ := C27_resamples_exactly_degenerate M s ω hN hs
      by_cases hb : b ∈ cols
      · obtain ⟨j, rfl⟩ := List.get_of_mem hb
        refine ⟨fun _ => 1 / (N : ℝ), ⟨fun _ => by positivity, ?_⟩, fun i => ?_⟩
        · simp [Finset.sum_const]; field_simp
        · rw [hp]; exact (hin j i).2.2.2
      · refine ⟨colProb M.lo s.w b, isProb_mass M.lo (fun i => s.w i b) ⟨⟨0, hN⟩, hs _ b⟩, fun i => ?_⟩
        rw [hp]; exact (hout b hb i).2.2.2.2
    obtain ⟨W, hW1, hW2⟩ := hW
    refine ⟨W, hW1, hW2, fun h1 h2 => ?_⟩
    have : (M.sisrCorrect y p ω').1.ll b = logLikelihood v (some p.nw) b := by rw [hv]; rfl
    rw [this, logLikelihood_weighted v p.nw b W hW2 hW1.1 h1 h2]
    have hS0 : 0 ≤ ∑ i, W i * expOf (v i b) :=
      Finset.sum_nonneg fun i _ => mul_nonneg (hW1.1 i) (expOf_nonneg _)
    by_cases hS : ∑ i, W i * expOf (v i b) = 0
    · rw [if_pos hS, hS, log_zero]
    · rw [if_neg hS, log_fin (lt_of_le_of_ne hS0 (Ne.symm hS))]

/-- Case: importance weights `-inf` and 1. -/
example : (∀ i, (![ninf, fin 1] : Fin 2 → XF) i = ninf ∨ ∃ r, (![ninf, fin 1] : Fin 2 → XF) i = fin r) ∧
    ∃ i r, (![ninf, fin 1] : Fin 2 → XF) i = fin r := by
  refine ⟨fun i => ?_, 1, 1, rfl⟩
  fin_cases i
  · exact Or.inl rfl
  · exact Or.inr ⟨1, rfl⟩

/-! ## C29 -/

/-- C29: the APF correction after a prediction. `pre` are the pre-weights, `idx` the selected ancestors,
`v` the importance log-weights of the proposal applied to the selected particles with equal weights. The
new log-weight is `v_i - pre_{idx i}`; the recorded ancestors are the selected ones, chosen by the
resampler from `pre + w`; and if all pre-weights and importance weights of filter `b` are finite the
log-likelihood is `log((1/N) Σ exp(new weights)) + log(Σ W_i exp(pre_i))`. -/
theorem C29_apf_update (M : ParticleModel N B d V Y Ω) (s : PCorr N B d V) (ω ω' : Ω) (y : Y)
    (hN : 0 < N) (hs : ∀ i b, Usable (s.w i b)) (p : PPred N B d V) (hp : p = (M.apfPredict s ω).1)
    (idx : Fin N → Fin B → Fin N) (ω₁ : Ω)
    (hidx : (idx, ω₁) = M.resampler (fun i b => M.preWeight y p.prevX i b + p.w i b) false ω')
    (v : Fin N → Fin B → XF)
    (hv : v = (M.sampleAndWeight y ⟨⟨fun i b => s.x.value (idx i b) b, s.x.time⟩, fun _ _ => fin 0,
      fun _ _ => fin (1 / (N : ℝ)), idx⟩ ω₁).1.2) :
    (M.apfCorrect y p ω').1.prev = idx ∧
    (∀ i b a r, v i b = fin a → M.preWeight y s.x (idx i b) b = fin r →
      (M.apfCorrect y p ω').1.w i b = fin (a - r)) ∧
    ∀ b (a pre : Fin N → ℝ), (∀ i, v i b = fin (a i)) → (∀ i, M.preWeight y s.x i b = fin (pre i)) →
      (M.apfCorrect y p ω').1.ll b =
        fin (Real.log ((1 / (N : ℝ)) * ∑ i, Real.exp (a i - pre (idx i b))) +
          Real.log (∑ i, colProb M.lo s.w b i * Real.exp (pre i))) := by
  classical
  have hpx : p.prevX = s.x := by rw [hp]; rfl
  have hpnw : ∀ i b, p.nw i b = fin (colProb M.lo s.w b i) := by
    intro i b; rw [hp]; exact normalize2_usable M.lo s.w b ⟨⟨0, hN⟩, hs _ b⟩ i
  have hr : M.resampler (fun i b => M.preWeight y p.prevX i b + p.w i b) false ω' = (idx, ω₁) := hidx.symm
  have hprev : (M.apfCorrect y p ω').1.prev = idx := by
    show (M.resampler (fun i b => M.preWeight y p.prevX i b + p.w i b) false ω').1 = idx
    rw [hr]
  have hv' : ∀ i b, v i b - M.preWeight y s.x (idx i b) b =
      (M.sampleAndWeight y ⟨⟨fun i b => p.prevX.value ((M.resampler (fun i b => M.preWeight y p.prevX i b + p.w i b) false ω').1 i b) b,
        p.prevX.time⟩, fun _ _ => fin 0, fun _ _ => fin (1 / (N : ℝ)),
        (M.resampler (fun i b => M.preWeight y p.prevX i b + p.w i b) false ω').1⟩
        (M.resampler (fun i b => M.preWeight y p.prevX i b + p.w i b) false ω').2).1.2 i b
      - M.preWeight y p.prevX ((M.resampler (fun i b => M.preWeight y p.prevX i b + p.w i b) false ω').1 i b) b := by
    intro i b
    rw [hr, hv, hpx]
  have hw : ∀ i b, (M.apfCorrect y p ω').1.w i b
      = nanToNum M.lo (v i b - M.preWeight y s.x (idx i b) b) := by
    intro i b
    rw [hv']; rfl
  have hll : ∀ b, (M.apfCorrect y p ω').1.ll b
      = logLikelihood (fun i b => v i b - M.preWeight y s.x (idx i b) b) none b +
        XF.log (∑ i, p.nw i b * XF.exp (M.preWeight y s.x i b)) := by
    intro b
    have : (fun i b => v i b - M.preWeight y s.x (idx i b) b) = _ := funext fun i => funext fun b => hv' i b
    rw [this, ← hpx]
    rfl
  refine ⟨hprev, ?_, ?_⟩
  · intro i b a r h1 h2
    rw [hw, h1, h2]; rfl
  · intro b a pre ha hpre
    have hN' : (0 : ℝ) < 1 / (N : ℝ) := by positivity
    rw [hll, logLikelihood_none, logLikelihood_weighted _ _ b (fun _ => 1 / (N : ℝ)) (fun _ => rfl)
      (fun _ => hN'.le)]
    · simp only [ha, hpre, fin_sub, expOf, hpnw, exp_fin, fin_mul, sum_fin]
      have h1 : 0 < ∑ i : Fin N, 1 / (N : ℝ) * Real.exp (a i - pre (idx i b)) :=
        Finset.sum_pos (fun i _ => mul_pos hN' (Real.exp_pos _)) ⟨⟨0, hN⟩, Finset.mem_univ _⟩
      have h2 : 0 < ∑ i, colProb M.lo s.w b i * Real.exp (pre i) :=
        Finset.sum_pos (fun i _ => mul_pos (div_pos (mass_pos (hs i b)) (mass_sum_pos ⟨i, hs i b⟩))
          (Real.exp_pos _)) ⟨⟨0, hN⟩, Finset.mem_univ _⟩
      rw [if_neg h1.ne', log_fin h2, fin_add, Finset.mul_sum]
    · intro i
      right
      exact ⟨a i - pre (idx i b), by simp only [ha, hpre, fin_sub]⟩
    · exact ⟨⟨0, hN⟩, a ⟨0, hN⟩ - pre (idx ⟨0, hN⟩ b), by simp only [ha, hpre, fin_sub]⟩

/-- Case: any resampler provides `idx` and `ω₁`; pre-weights and importance weights of a two-particle
filter that are all finite. -/
example : (∀ i, (![fin 1, fin 2] : Fin 2 → XF) i = fin ((![1, 2] : Fin 2 → ℝ) i)) := by
  intro i; fin_cases i <;> rfl

/-! ## C25 -/

/-- C25: if the observation is missing, the returned state is the propagated prediction: its log-weights
are those of the prediction, all of them finite, its ancestor indices too, its log-likelihood is exactly
zero and its values are drawn from the latent process. For every filter, proposal, recording option and
`observe_every_step`. -/
theorem C25_missing_observation (fk : FilterKind) (M : ParticleModel N B d V Y Ω) (opt : FilterOptions)
    (fuel : ℕ) (y : Y) (c : PCorr N B d V) (hc : ∀ i b, Usable (c.w i b)) (ω : Ω) (r)
    (hy : M.allNan y = true) (h : (fk.ops M).filter opt fuel y c ω = some r) :
    ∃ q, (fk.ops M).loop opt.observeEveryStep fuel ((fk.ops M).predict c ω).1 ((fk.ops M).predict c ω).2
        = some q ∧
      r.1.w = q.1.w ∧ (∀ i b, ∃ a, r.1.w i b = fin a) ∧ (∀ b, r.1.ll b = fin 0) ∧ r.1.prev = q.1.idx ∧
      r.1.x = ⟨(M.propagateValues q.1.prevX q.2.2).1, q.1.prevX.time + 1⟩ := by
  classical
  obtain ⟨q, h1, h2⟩ := FilterOps.filter_inv _ _ _ _ _ _ _ h
  have hy' : (fk.ops M).allNan y = true := hy
  rw [hy'] at h2
  -- predictions made from usable weights have finite weights
  have hpred : ∀ c : PCorr N B d V, (∀ i b, Usable (c.w i b)) → ∀ ω i b, ∃ a,
      ((fk.ops M).predict c ω).1.w i b = fin a := by
    intro c hc ω i b
    have hfin : ∃ a, (normalize2 M.lo c.w).1 i b = fin a := nanToNum_usable (hc i b)
    cases fk
    · show ∃ a, (M.sisrPredict c ω).1.w i b = fin a
      unfold ParticleModel.sisrPredict
      dsimp only
      split
      · exact hfin
      · dsimp only
        split
        · exact ⟨0, rfl⟩
        · exact hfin
    · exact hfin
    · exact hfin
  have hinv := FilterOps.loop_inv (fk.ops M) (fun p => ∀ i b, ∃ a, p.w i b = fin a)
    (fun p ω ω' _ => hpred _ (mk'_usable _ _ _ _ _) ω') _ _ _ _ _ (hpred c hc ω) h1
  have hw : r.1.w = q.1.w := by
    rw [h2]
    funext i b
    show nanToNum M.lo (q.1.w i b) = q.1.w i b
    obtain ⟨a, ha⟩ := hinv i b
    rw [ha]; rfl
  refine ⟨q, h1, hw, ?_, ?_, ?_, ?_⟩
  · intro i b; rw [hw]; exact hinv i b
  · intro b; rw [h2]; rfl
  · rw [h2]; rfl
  · rw [h2]; rfl

/-- Case: an initial state of any filter has usable weights. -/
example : ∀ i b, Usable ((initializeFilter (-1000) (fun _ _ _ => 0) : PCorr 3 2 1 ℝ).w i b) :=
  constructed_usable _ _ _ _ _

/-! ## C36 -/

/-- C36 in full, for both variants of the step log-likelihood. -/
def C36_claim : Prop :=
  ∀ (N B : ℕ) (v : Fin N → Fin B → XF) (W : Option (Fin N → Fin B → XF)) (b : Fin B), 0 < N →
    (∀ i, v i b = ninf) → logLikelihood v W b = ninf

/-- C36 where it holds: if every particle that carries weight is impossible but some particle of weight
zero is not, the step log-likelihood is `-inf`.
Missing: all importance weights `-inf`, where the code returns NaN. -/
theorem C36_collapse_partial (v W : Fin N → Fin B → XF) (b : Fin B) (p : Fin N → ℝ)
    (hW : ∀ i, W i b = fin (p i)) (h0 : ∀ i, 0 ≤ p i) (hv : ∀ i, v i b = ninf ∨ ∃ r, v i b = fin r)
    (hdead : ∀ i, 0 < p i → v i b = ninf) (hex : ∃ i r, v i b = fin r) :
    logLikelihood v (some W) b = ninf := by
  classical
  rw [logLikelihood_weighted v W b p hW h0 hv hex, if_pos]
  apply Finset.sum_eq_zero
  intro i _
  rcases (h0 i).lt_or_eq with h | h
  · rw [hdead i h]; simp [expOf]
  · rw [← h, zero_mul]

/-- Case: weights (1, 0), importance weights (-inf, 3). -/
example : (∀ i, 0 < (![1, 0] : Fin 2 → ℝ) i → (![ninf, fin 3] : Fin 2 → XF) i = ninf) ∧
    ∃ i r, (![ninf, fin 3] : Fin 2 → XF) i = fin r := by
  refine ⟨fun i hi => ?_, 1, 3, rfl⟩
  fin_cases i
  · rfl
  · simp at hi

/-- How C36 fails: the step log-likelihood is NaN, for every number of particles and all weights; one
impossible observation turns the running log-likelihood into NaN for good. -/
theorem C36_collapse_is_nan (v : Fin N → Fin B → XF) (W : Option (Fin N → Fin B → XF)) (b : Fin B)
    (hN : 0 < N) (hv : ∀ i, v i b = ninf) (running : XF) :
    logLikelihood v W b = nan ∧ running + logLikelihood v W b = nan := by
  rw [logLikelihood_collapse v W b hN hv]
  exact ⟨rfl, add_nan _⟩

example : ∀ i, (fun _ _ => ninf : Fin 3 → Fin 1 → XF) i 0 = ninf := fun _ => rfl

/-- C36 is false. -/
theorem C36_negation : ¬ C36_claim := by
  intro h
  have h1 := h 2 1 (fun _ _ => ninf) none 0 (by norm_num) (fun _ => rfl)
  rw [logLikelihood_collapse _ _ _ (by norm_num) (fun _ => rfl)] at h1
  cases h1

end Verif.Props
