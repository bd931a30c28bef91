import Verif.Lemmas.TensorGaussianLinear
import Verif.Props.TensorWeights

/-!
# Property C143: the proposal `GaussianLinear` draws and weighs every particle of every filter
-/

namespace Verif.Props

open Verif Verif.Torch Verif.Spec Matrix

/-- `mean_scale` of the hidden process for one state per filter. -/
def MeanScale (B : ℕ) (ev : List ℕ) (f : Tensor → Except PyErr (Tensor × Tensor))
    (g : Fin B → (Fin (dim ev) → ℝ) → (Fin (dim ev) → ℝ) × (Fin (dim ev) → ℝ)) : Prop :=
  ∀ (x : Tensor) (v : Fin B → Fin (dim ev) → ℝ), Particles (N := 1) x ev (fun _ => v) →
    ∃ m s, f x = .ok (m, s) ∧ Particles (N := 1) m ev (fun _ b => (g b (v b)).1) ∧ Particles (N := 1) s ev fun _ b => (g b (v b)).2

/-- C143 in full: for `B` filters of `N` particles, with parameters shared by the filters or not, `sample_and_weight` of
`GaussianLinear` conditions the normal distribution `N(mu, var)` of its filter on the observation and draws a state from it for every
particle, where `mu` is the mean of the transition from the weighted mean of the particles and `var` the sum of its variance and their
spread. The weight of a particle is the predictive log-density of the observation under `N(mu, var)`, corrected by the ratio of the
normal density fitted to the propagated particles of its filter and `N(mu, var)`. -/
def C143_claim : Prop :=
  ∀ (chol : ∀ n, Matrix (Fin n) (Fin n) ℝ → Matrix (Fin n) (Fin n) ℝ) (N B : ℕ) (hidden obs : List ℕ), hidden.length ≤ 1 →
    obs.length ≤ 1 →
  ∀ (y x xNew w a b s : Tensor) (fy : Fin (dim obs) → ℝ) (fx fn : Fin N → Fin B → Fin (dim hidden) → ℝ) (fw : Fin N → Fin B → ℝ)
    (fa : Fin B → Matrix (Fin (dim obs)) (Fin (dim hidden)) ℝ) (fb fo : Fin B → Fin (dim obs) → ℝ)
    (meanScale : Tensor → Except PyErr (Tensor × Tensor))
    (g : Fin B → (Fin (dim hidden) → ℝ) → (Fin (dim hidden) → ℝ) × (Fin (dim hidden) → ℝ))
    (yLp : Tensor → Except PyErr Tensor) (noise : List ℕ → ℝ),
    Observation y obs fy → Particles x hidden fx → Particles xNew hidden fn → Weights w fw → StoredMatrix a hidden obs fa →
    Stored b obs fb → Stored s obs fo → (∀ b j, 0 < fo b j) → (∀ b v j, 0 < (g b v).2 j) → (∀ n b, 0 ≤ fw n b) →
    (∀ b, (fitCov (fun n => fw n b) fun n => fn n b).PosDef) → MeanScale B hidden meanScale g →
    PerParticle N B hidden yLp (fun _ f x => ∑ j, logNormal (fb f j + (fa f *ᵥ x) j) (fo f j ^ 2) (fy j)) →
    ∃ z l, gaussianLinearSampleAndWeight chol hidden obs [B, N] meanScale yLp y x xNew w a b s noise = .ok (z, l) ∧
      ∃ (v : Fin N → Fin B → Fin (dim hidden) → ℝ) (C : Fin B → Matrix (Fin (dim hidden)) (Fin (dim hidden)) ℝ),
        Particles z hidden v ∧
        ∀ f, let mu := (g f (fitMean (fun n => fw n f) fun n => fx n f)).1
          let var := fun e => (g f (fitMean (fun n => fw n f) fun n => fx n f)).2 e ^ 2 +
            fitCov (fun n => fw n f) (fun n => fx n f) e e
          C f * (diagonal (fun e => (var e)⁻¹) + (fa f)ᵀ * diagonal (fun j => (fo f j ^ 2)⁻¹) * fa f) = 1 ∧
          (∀ n, v n f = C f *ᵥ (diagonal (fun e => (var e)⁻¹) *ᵥ mu + (fa f)ᵀ *ᵥ diagonal (fun j => (fo f j ^ 2)⁻¹) *ᵥ (fy - fb f)) +
            covFactor chol hidden (C f) *ᵥ fun e => noise (compIx hidden e.val ++ [f.val, n.val])) ∧
          l.shape = [B, N] ∧ ∀ n : Fin N, l.val [f.val, n.val] =
            logPredictive mu (fun e => Real.sqrt (var e)) (fa f) (fb f) (fo f) fy
              + logNormalVec (fitMean (fun n => fw n f) fun n => fn n f) (fitCov (fun n => fw n f) fun n => fn n f) (v n f)
              - ∑ e, logNormal (mu e) (var e) (v n f e)

theorem filterSlot {B N : ℕ} (n : Fin N) (b : Fin B) : broadcastIndex [B, 1] [b.val, n.val] = [b.val, (0 : Fin 1).val] := by
  rw [broadcastIndex_cons b.2]
  rfl

theorem evLogProb_eq {ev : List ℕ} (M : Fin (dim ev) → ℝ) {C : Matrix (Fin (dim ev)) (Fin (dim ev)) ℝ} (hC : C.PosDef)
    (x : Fin (dim ev) → ℝ) : evLogProb ev M C x = logNormalVec M C x := by
  unfold evLogProb
  split_ifs with h
  · exact logNormalVec_one (scalar_dim h) M C hC x
  · exact mvnLogProb_eq M C x

theorem fitCov_diag_nonneg {P d : ℕ} {p : Fin P → ℝ} (hp : ∀ i, 0 ≤ p i) (x : Fin P → Fin d → ℝ) (e : Fin d) : 0 ≤ fitCov p x e e := by
  simp only [fitCov, of_apply]
  exact Finset.sum_nonneg fun i _ => mul_nonneg (hp i) (mul_self_nonneg _)

/-- The kernel conditions `N(mu, var)` on the observation (C41, with a variance instead of a scale). -/
theorem kernel_is_conditional {hidden obs : List ℕ} (fy fb fo : Fin (dim obs) → ℝ) (fa : Matrix (Fin (dim obs)) (Fin (dim hidden)) ℝ)
    (mu var x : Fin (dim hidden) → ℝ) (hfo : ∀ j, 0 < fo j) (hvar : ∀ e, 0 < var e) :
    ∑ j, logNormal (fb j + (fa *ᵥ x) j) (fo j ^ 2) (fy j) - evLogProb hidden
        (optimalMean (fy - fb) mu (fun e => (var e)⁻¹) (fun j => (fo j ^ 2)⁻¹) fa)
        (optimalCov (fun e => (var e)⁻¹) (fun j => (fo j ^ 2)⁻¹) fa) x =
      logPredictive mu (fun e => Real.sqrt (var e)) fa fb fo fy - ∑ e, logNormal (mu e) (var e) (x e) := by
  have k := (C41_weight_is_predictive (modelOf (hidden := hidden) (obs := obs) mu (fun e => Real.sqrt (var e)) fa fb fo)
    (hidden.length == 0) scalar_dim fy mu x hfo fun e => Real.sqrt_pos.2 (hvar e)).1
  have e1 : (fun e => (Real.sqrt (var e) ^ 2)⁻¹) = fun e => (var e)⁻¹ := funext fun e => by rw [Real.sq_sqrt (hvar e).le]
  have e2 : (modelOf (hidden := hidden) (obs := obs) mu (fun e => Real.sqrt (var e)) fa fb fo).kernelLogProb (hidden.length == 0) fy mu x =
      evLogProb hidden (optimalMean (fy - fb) mu (fun e => (var e)⁻¹) (fun j => (fo j ^ 2)⁻¹) fa)
        (optimalCov (fun e => (var e)⁻¹) (fun j => (fo j ^ 2)⁻¹) fa) x := by
    rw [← e1]
    rfl
  have e3 : (modelOf (hidden := hidden) (obs := obs) mu (fun e => Real.sqrt (var e)) fa fb fo).obsLogProb x fy =
      ∑ j, logNormal (fb j + (fa *ᵥ x) j) (fo j ^ 2) (fy j) :=
    Finset.sum_congr rfl fun j _ => normalLogProb_eq (hfo j) _
  have e4 : (modelOf (hidden := hidden) (obs := obs) mu (fun e => Real.sqrt (var e)) fa fb fo).transLogProb mu x =
      ∑ e, logNormal (mu e) (var e) (x e) :=
    Finset.sum_congr rfl fun e _ => (normalLogProb_eq (Real.sqrt_pos.2 (hvar e)) _).trans (by
      show logNormal (mu e) (Real.sqrt (var e) ^ 2) (x e) = _
      rw [Real.sq_sqrt (hvar e).le])
  unfold LinearModel.linearWeight at k
  rw [e2, e3, e4] at k
  have k' : _ = logPredictive mu (fun e => Real.sqrt (var e)) fa fb fo fy := k
  rw [← k']
  ring

/-- C143 holds if the state is a scalar or a vector of several components, and the observation a scalar or the offset shared. -/
theorem C143_weights_partial (chol : ∀ n, Matrix (Fin n) (Fin n) ℝ → Matrix (Fin n) (Fin n) ℝ) (N B : ℕ) (hidden obs : List ℕ)
    (hh : hidden.length ≤ 1) (ho : obs.length ≤ 1) (h1 : hidden ≠ [1])
    (y x xNew w a b s : Tensor) (fy : Fin (dim obs) → ℝ) (fx fn : Fin N → Fin B → Fin (dim hidden) → ℝ) (fw : Fin N → Fin B → ℝ)
    (fa : Fin B → Matrix (Fin (dim obs)) (Fin (dim hidden)) ℝ) (fb fo : Fin B → Fin (dim obs) → ℝ)
    (meanScale : Tensor → Except PyErr (Tensor × Tensor))
    (g : Fin B → (Fin (dim hidden) → ℝ) → (Fin (dim hidden) → ℝ) × (Fin (dim hidden) → ℝ))
    (yLp : Tensor → Except PyErr Tensor) (noise : List ℕ → ℝ)
    (hy : Observation y obs fy) (hx : Particles x hidden fx) (hn : Particles xNew hidden fn) (hw : Weights w fw)
    (ha : StoredMatrix a hidden obs fa) (hb : Stored b obs fb) (hs : Stored s obs fo) (hshared : obs = [] ∨ b.shape = obs)
    (hfo : ∀ b j, 0 < fo b j) (hg : ∀ b v j, 0 < (g b v).2 j) (hfw : ∀ n b, 0 ≤ fw n b)
    (hpd : ∀ b, (fitCov (fun n => fw n b) fun n => fn n b).PosDef) (hms : MeanScale B hidden meanScale g)
    (hyl : PerParticle N B hidden yLp fun _ f x => ∑ j, logNormal (fb f j + (fa f *ᵥ x) j) (fo f j ^ 2) (fy j)) :
    ∃ z l, gaussianLinearSampleAndWeight chol hidden obs [B, N] meanScale yLp y x xNew w a b s noise = .ok (z, l) ∧
      ∃ (v : Fin N → Fin B → Fin (dim hidden) → ℝ) (C : Fin B → Matrix (Fin (dim hidden)) (Fin (dim hidden)) ℝ),
        Particles z hidden v ∧
        ∀ f, let mu := (g f (fitMean (fun n => fw n f) fun n => fx n f)).1
          let var := fun e => (g f (fitMean (fun n => fw n f) fun n => fx n f)).2 e ^ 2 +
            fitCov (fun n => fw n f) (fun n => fx n f) e e
          C f * (diagonal (fun e => (var e)⁻¹) + (fa f)ᵀ * diagonal (fun j => (fo f j ^ 2)⁻¹) * fa f) = 1 ∧
          (∀ n, v n f = C f *ᵥ (diagonal (fun e => (var e)⁻¹) *ᵥ mu + (fa f)ᵀ *ᵥ diagonal (fun j => (fo f j ^ 2)⁻¹) *ᵥ (fy - fb f)) +
            covFactor chol hidden (C f) *ᵥ fun e => noise (compIx hidden e.val ++ [f.val, n.val])) ∧
          l.shape = [B, N] ∧ ∀ n : Fin N, l.val [f.val, n.val] =
            logPredictive mu (fun e => Real.sqrt (var e)) (fa f) (fb f) (fo f) fy
              + logNormalVec (fitMean (fun n => fw n f) fun n => fn n f) (fitCov (fun n => fw n f) fun n => fn n f) (v n f)
              - ∑ e, logNormal (mu e) (var e) (v n f e) := by
  obtain ⟨ry, hy1, hy2, hy3⟩ := observation_reads B 1 hy
  obtain ⟨Fx, hx1, hx2⟩ := particles_reads hx
  obtain ⟨Fn, hn1, hn2⟩ := particles_reads hn
  obtain ⟨W, hw1, hw2⟩ := weights_reads hw
  obtain ⟨ra, Fa, ha1, ha2, ha3⟩ := storedMatrix_reads 1 ha
  obtain ⟨rb, Fb, hb1, hb2, hb3, hb4⟩ := stored_reads 1 hb
  obtain ⟨rs, Fo, ho1, ho2, -, ho4⟩ := stored_reads 1 hs
  -- the weighted mean as the state of one particle per filter
  obtain ⟨m, v0, m1, m2, m10⟩ := moments_reads (r := [B]) hh h1 hx1 hw1
  have hfit : ∀ b : Fin B, fitMean (fun n : Fin N => W (broadcastIndex [B] [b.val, (0 : Fin 1).val] ++ [n.val]))
      (fun n => Fx (broadcastIndex [B] [b.val, (0 : Fin 1).val] ++ [n.val])) = fitMean (fun n => fw n b) fun n => fx n b := by
    intro b
    rw [filterIndex]
    simp only [List.singleton_append, hw2, hx2]
  obtain ⟨mu, sd, m3, m4, m5⟩ := hms m.unsqueeze0 (fun b => fitMean (fun n => fw n b) fun n => fx n b)
    ⟨m2.1, fun n b j => by
      have e := m2.2 [b.val, n.val] j
      rw [show ([B] ++ [1] : List ℕ) = [B, 1] from rfl, batchIndex] at e
      refine e.trans ?_
      rw [Fin.fin_one_eq_zero n]
      exact congrFun (hfit b) j⟩
  obtain ⟨Fm, m6, m7⟩ := particles_reads m4
  obtain ⟨Fs, m8, m9⟩ := particles_reads m5
  obtain ⟨z, l, X, Y, z1, z2, z3, z4, z5⟩ := gaussianLinear_reads chol hh ho h1 (r := [B]) (noise := noise) (Fx := Fx)
    (Q := fun X Y => ∀ (n : Fin N) (f : Fin B), Y [f.val, n.val] =
      ∑ j, logNormal (fb f j + (fa f *ᵥ X [f.val, n.val]) j) (fo f j ^ 2) (fy j))
    hn1 hw1 ha1 ho1 hy1 hb1 ha2 ho2 hy2 hb2 (fun h => ⟨hy3 h, hb3 (hshared.resolve_left h)⟩) m1 m10 m3 m6 m8 (yLp := yLp)
    fun z X hz => by
      have hz' : Particles z hidden (fun n f => X [f.val, n.val]) := ⟨hz.1, fun n f j =>
        (congrArg (fun l => z.val (compIx hidden j.val ++ l)) (batchIndex n f).symm).trans (hz.2 [f.val, n.val] j)⟩
      obtain ⟨ty, y1, y2⟩ := hyl z _ hz'
      obtain ⟨Y, y3, y4⟩ := weights_reads y2
      exact ⟨ty, Y, y1, y3, y4⟩
  -- all parameters at the index of a particle
  have iy : ∀ (n : Fin N) (f : Fin B), Fm [f.val, n.val] = (g f (fitMean (fun n => fw n f) fun n => fx n f)).1 := fun n f => by
    rw [m6.index (Sub.refl _), filterSlot, m7]
  have is : ∀ (n : Fin N) (f : Fin B), Fs [f.val, n.val] = (g f (fitMean (fun n => fw n f) fun n => fx n f)).2 := fun n f => by
    rw [m8.index (Sub.refl _), filterSlot, m9]
  have ia : ∀ (n : Fin N) (f : Fin B), Fa [f.val, n.val] = fa f := fun n f => by rw [ha1.index ha2, filterSlot, ha3]
  have ib : ∀ (n : Fin N) (f : Fin B), Fb [f.val, n.val] = fb f := fun n f => by rw [hb1.index hb2, filterSlot, hb4]
  have io : ∀ (n : Fin N) (f : Fin B), Fo [f.val, n.val] = fo f := fun n f => by rw [ho1.index ho2, filterSlot, ho4]
  refine ⟨z, l, z1, fun n f => X [f.val, n.val], fun f => optimalCov (fun e => ((g f (fitMean (fun n => fw n f) fun n => fx n f)).2 e ^ 2 +
    fitCov (fun n => fw n f) (fun n => fx n f) e e)⁻¹) (fun j => (fo f j ^ 2)⁻¹) (fa f), ⟨z2.1, fun n f j =>
        (congrArg (fun l => z.val (compIx hidden j.val ++ l)) (batchIndex n f).symm).trans (z2.2 [f.val, n.val] j)⟩, fun f => ?_⟩
  intro mu var
  have hvar : ∀ e, 0 < var e := fun e => by
    have h2 := hg f (fitMean (fun n => fw n f) fun n => fx n f) e
    have h3 := fitCov_diag_nonneg (fun n => hfw n f) (fun n => fx n f) e
    show 0 < _ ^ 2 + _
    positivity
  refine ⟨optimalCov_precision (fa f) (fun e => inv_pos.2 (hvar e)) fun j => by have := hfo f j; positivity, fun n => ?_, z5.1,
    fun n => ?_⟩
  · have e := z4 [f.val, n.val]
    rw [show ([B] ++ [N] : List ℕ) = [B, N] from rfl, batchIndex] at e
    beta_reduce at e
    simp only [filterIndex, List.singleton_append, hw2, hx2, iy, is, ia, ib, io, optimalMean_eq] at e
    simp only [diagonal_mulVec_eq] at e ⊢
    exact e
  · have e := z5.2 [f.val, n.val]
    rw [show ([B] ++ [N] : List ℕ) = [B, N] from rfl, batchIndex] at e
    beta_reduce at e
    simp only [filterIndex, List.singleton_append, hw2, hx2, hn2, iy, is, ia, ib, io, z3] at e
    rw [evLogProb_eq _ (hpd f)] at e
    have k := kernel_is_conditional (hidden := hidden) (obs := obs) fy (fb f) (fo f) (fa f) mu var (X [f.val, n.val]) (hfo f) hvar
    refine e.trans ?_
    rw [add_sub_right_comm, k]
    ring

/-- `mean_scale` of the hidden process for one state of a single filter. -/
def MeanScale1 (ev : List ℕ) (f : Tensor → Except PyErr (Tensor × Tensor))
    (g : (Fin (dim ev) → ℝ) → (Fin (dim ev) → ℝ) × (Fin (dim ev) → ℝ)) : Prop :=
  ∀ (x : Tensor) (v : Fin (dim ev) → ℝ), Particles1 (N := 1) x ev (fun _ => v) →
    ∃ m s, f x = .ok (m, s) ∧ Particles1 (N := 1) m ev (fun _ => (g v).1) ∧ Particles1 (N := 1) s ev fun _ => (g v).2

/-- For a single filter nothing has to be assumed of the offset. -/
theorem C143_single_filter (chol : ∀ n, Matrix (Fin n) (Fin n) ℝ → Matrix (Fin n) (Fin n) ℝ) (N : ℕ) (hidden obs : List ℕ)
    (hh : hidden.length ≤ 1) (ho : obs.length ≤ 1) (h1 : hidden ≠ [1])
    (y x xNew w a b s : Tensor) (fy : Fin (dim obs) → ℝ) (fx fn : Fin N → Fin (dim hidden) → ℝ) (fw : Fin N → ℝ)
    (fa : Matrix (Fin (dim obs)) (Fin (dim hidden)) ℝ) (fb fo : Fin (dim obs) → ℝ)
    (meanScale : Tensor → Except PyErr (Tensor × Tensor))
    (g : (Fin (dim hidden) → ℝ) → (Fin (dim hidden) → ℝ) × (Fin (dim hidden) → ℝ))
    (yLp : Tensor → Except PyErr Tensor) (noise : List ℕ → ℝ)
    (hy : Observation y obs fy) (hx : Particles1 x hidden fx) (hn : Particles1 xNew hidden fn) (hw : Weights1 w fw)
    (ha : FixedMatrix a hidden obs fa) (hb : Fixed b obs fb) (hs : Fixed s obs fo)
    (hfo : ∀ j, 0 < fo j) (hg : ∀ v j, 0 < (g v).2 j) (hfw : ∀ n, 0 ≤ fw n)
    (hpd : (fitCov fw fn).PosDef) (hms : MeanScale1 hidden meanScale g)
    (hyl : PerParticle1 N hidden yLp fun _ x => ∑ j, logNormal (fb j + (fa *ᵥ x) j) (fo j ^ 2) (fy j)) :
    ∃ z l, gaussianLinearSampleAndWeight chol hidden obs [N] meanScale yLp y x xNew w a b s noise = .ok (z, l) ∧
      ∃ (v : Fin N → Fin (dim hidden) → ℝ) (C : Matrix (Fin (dim hidden)) (Fin (dim hidden)) ℝ),
        Particles1 z hidden v ∧
        let mu := (g (fitMean fw fx)).1
        let var := fun e => (g (fitMean fw fx)).2 e ^ 2 + fitCov fw fx e e
        C * (diagonal (fun e => (var e)⁻¹) + faᵀ * diagonal (fun j => (fo j ^ 2)⁻¹) * fa) = 1 ∧
        (∀ n, v n = C *ᵥ (diagonal (fun e => (var e)⁻¹) *ᵥ mu + faᵀ *ᵥ diagonal (fun j => (fo j ^ 2)⁻¹) *ᵥ (fy - fb)) +
          covFactor chol hidden C *ᵥ fun e => noise (compIx hidden e.val ++ [n.val])) ∧
        Weights1 l fun n => logPredictive mu (fun e => Real.sqrt (var e)) fa fb fo fy + logNormalVec (fitMean fw fn) (fitCov fw fn) (v n)
          - ∑ e, logNormal (mu e) (var e) (v n e) := by
  obtain ⟨ry, hy1, hy2, hy3⟩ := observation_reads1 1 hy
  obtain ⟨Fx, hx1, hx2⟩ := particles1_reads hx
  obtain ⟨Fn, hn1, hn2⟩ := particles1_reads hn
  obtain ⟨W, hw1, hw2⟩ := weights1_reads hw
  have ha1 := fixedMatrix_reads ha
  have hb1 := fixed_reads hb
  have ho1 := fixed_reads hs
  have nil : ∀ s, broadcastIndex [] s = [] := fun s => by simp [broadcastIndex]
  obtain ⟨m, v0, m1, m2, m10⟩ := moments_reads (r := []) hh h1 hx1 hw1
  obtain ⟨mu, sd, m3, m4, m5⟩ := hms m.unsqueeze0 (fitMean fw fx)
    ⟨m2.1, fun n j => by
      have e := m2.2 [n.val] j
      rw [show ([] ++ [1] : List ℕ) = [1] from rfl, particleIndex] at e
      refine e.trans ?_
      simp only [nil, List.nil_append, hw2, hx2]⟩
  obtain ⟨Fm, m6, m7⟩ := particles1_reads m4
  obtain ⟨Fs, m8, m9⟩ := particles1_reads m5
  obtain ⟨z, l, X, Y, z1, z2, z3, z4, z5⟩ := gaussianLinear_reads chol hh ho h1 (r := []) (noise := noise) (Fx := Fx)
    (Q := fun X Y => ∀ n : Fin N, Y [n.val] = ∑ j, logNormal (fb j + (fa *ᵥ X [n.val]) j) (fo j ^ 2) (fy j))
    hn1 hw1 ha1 ho1 hy1 hb1 trivial trivial hy2 trivial (fun h => ⟨hy3 h, rfl⟩) m1 m10 m3 m6 m8 (yLp := yLp)
    fun z X hz => by
      have hz' : Particles1 z hidden (fun n => X [n.val]) := ⟨hz.1, fun n j =>
        (congrArg (fun l => z.val (compIx hidden j.val ++ l)) (particleIndex n).symm).trans (hz.2 [n.val] j)⟩
      obtain ⟨ty, y1, y2⟩ := hyl z _ hz'
      obtain ⟨Y, y3, y4⟩ := weights1_reads y2
      exact ⟨ty, Y, y1, y3, y4⟩
  have iy : ∀ n : Fin N, Fm [n.val] = (g (fitMean fw fx)).1 := fun n => (m6.index (Sub.refl _) _).trans (m7 0)
  have is : ∀ n : Fin N, Fs [n.val] = (g (fitMean fw fx)).2 := fun n => (m8.index (Sub.refl _) _).trans (m9 0)
  refine ⟨z, l, z1, fun n => X [n.val], optimalCov (fun e => ((g (fitMean fw fx)).2 e ^ 2 + fitCov fw fx e e)⁻¹)
    (fun j => (fo j ^ 2)⁻¹) fa, ⟨z2.1, fun n j =>
        (congrArg (fun l => z.val (compIx hidden j.val ++ l)) (particleIndex n).symm).trans (z2.2 [n.val] j)⟩, ?_⟩
  intro mu var
  have hvar : ∀ e, 0 < var e := fun e => by
    have h2 := hg (fitMean fw fx) e
    have h3 := fitCov_diag_nonneg hfw fx e
    show 0 < _ ^ 2 + _
    positivity
  refine ⟨optimalCov_precision fa (fun e => inv_pos.2 (hvar e)) fun j => by have := hfo j; positivity, fun n => ?_, z5.1, fun n => ?_⟩
  · have e := z4 [n.val]
    rw [show ([] ++ [N] : List ℕ) = [N] from rfl, particleIndex] at e
    beta_reduce at e
    simp only [nil, List.nil_append, hw2, hx2, iy, is, optimalMean_eq] at e
    simp only [diagonal_mulVec_eq] at e ⊢
    exact e
  · have e := z5.2 [n.val]
    rw [show ([] ++ [N] : List ℕ) = [N] from rfl, particleIndex] at e
    beta_reduce at e
    simp only [nil, List.nil_append, hw2, hx2, hn2, iy, is, z3] at e
    rw [evLogProb_eq _ hpd] at e
    have k := kernel_is_conditional (hidden := hidden) (obs := obs) fy fb fo fa mu var (X [n.val]) hfo hvar
    refine e.trans ?_
    rw [add_sub_right_comm]
    erw [k]
    ring

/-- With an offset for every filter and vector observations no state is drawn, unless there are as many filters as components of
the observation. -/
theorem C143_offset_per_filter_raises (chol : ∀ n, Matrix (Fin n) (Fin n) ℝ → Matrix (Fin n) (Fin n) ℝ) (N B q : ℕ)
    (hidden : List ℕ) (hh : hidden.length ≤ 1) (h1 : hidden ≠ [1]) (y x xNew w a b s : Tensor) (fy : Fin q → ℝ)
    (fx : Fin N → Fin B → Fin (dim hidden) → ℝ) (fw : Fin N → Fin B → ℝ) (fa : Fin B → Matrix (Fin q) (Fin (dim hidden)) ℝ)
    (fo : Fin B → Fin q → ℝ) (meanScale : Tensor → Except PyErr (Tensor × Tensor))
    (g : Fin B → (Fin (dim hidden) → ℝ) → (Fin (dim hidden) → ℝ) × (Fin (dim hidden) → ℝ)) (yLp : Tensor → Except PyErr Tensor)
    (noise : List ℕ → ℝ) (hy : Observation y [q] fy) (hx : Particles x hidden fx) (hw : Weights w fw) (ha : StoredMatrix a hidden [q] fa)
    (hb : b.shape = [q, B]) (hs : Stored s [q] fo) (hms : MeanScale B hidden meanScale g) (hB : B ≠ q) :
    gaussianLinearSampleAndWeight chol hidden [q] [B, N] meanScale yLp y x xNew w a b s noise = .error .runtimeError := by
  obtain ⟨Fx, hx1, hx2⟩ := particles_reads hx
  obtain ⟨W, hw1, hw2⟩ := weights_reads hw
  obtain ⟨ra, Fa, ha1, ha2, -⟩ := storedMatrix_reads 1 ha
  obtain ⟨rs, Fo, ho1, ho2, -, -⟩ := stored_reads 1 hs
  obtain ⟨m, v0, m1, m2, m10⟩ := moments_reads (r := [B]) hh h1 hx1 hw1
  obtain ⟨mu, sd, m3, m4, m5⟩ := hms m.unsqueeze0 (fun b j => m.unsqueeze0.val (compIx hidden j.val ++ [b.val, 0]))
    ⟨m2.1, fun n b j => by rw [Fin.fin_one_eq_zero n]; rfl⟩
  obtain ⟨Fm, m6, m7⟩ := particles_reads m4
  obtain ⟨Fs, m8, m9⟩ := particles_reads m5
  obtain ⟨pv, rp, e7, e8, -, e9, e10⟩ := zipE (f := (· + ·)) hh (mapE (· ^ 2) m8) m10 (Sub.refl _) (Sub.refl _)
  obtain rfl := e8.antisymm e9
  have hys : y.shape = [q] := by
    rcases hy with ⟨h, -⟩ | ⟨h, -⟩
    · exact h
    · exact absurd h (by simp)
  have e1 := zip_eq (f := (· - ·)) hys hb (t := [q, B]) (by simp [broadcastShape])
  have e2 := findOptimalDensity_error hh (by simp) m6 (mapE (·⁻¹) e10) ha1 (mapE (fun r => (r ^ 2)⁻¹) ho1) ha2 ho2
    (y := ⟨[q, B], fun i => y.val (broadcastIndex [q] i) - b.val (broadcastIndex [q, B] i)⟩) fun O _ hO =>
      matvec_error (x := O) hO.1 rfl (Ne.symm hB)
  unfold gaussianLinearSampleAndWeight
  simp only [m1, m3, e7, e1, e2, ok_bind]
  rfl

/-- With a single filter and a vector state of one component, `sample_and_weight` never returns: the predictive density cannot be
built. -/
theorem C143_one_component_single (chol : ∀ n, Matrix (Fin n) (Fin n) ℝ → Matrix (Fin n) (Fin n) ℝ) (N : ℕ) (obs : List ℕ)
    (y x xNew w a b s : Tensor) (fn : Fin N → Fin (dim [1]) → ℝ) (fw : Fin N → ℝ)
    (meanScale : Tensor → Except PyErr (Tensor × Tensor)) (yLp : Tensor → Except PyErr Tensor) (noise : List ℕ → ℝ)
    (hn : Particles1 xNew [1] fn) (hw : Weights1 w fw) :
    ∃ e, gaussianLinearSampleAndWeight chol [1] obs [N] meanScale yLp y x xNew w a b s noise = .error e := by
  have h := C141_one_component_single N xNew w fn fw hn hw
  unfold gaussianLinearSampleAndWeight
  rw [h]
  rcases filterMoments [1] x w false false with e | ⟨m, v⟩
  · exact ⟨e, rfl⟩
  simp only [ok_bind]
  rcases meanScale m.unsqueeze0 with e | ⟨mu, sd⟩
  · exact ⟨e, rfl⟩
  simp only [ok_bind]
  rcases Tensor.zip (· + ·) (sd.map (· ^ 2)) v.unsqueeze0 with e | pv
  · exact ⟨e, rfl⟩
  simp only [ok_bind]
  rcases Tensor.zip (· - ·) y b with e | yb
  · exact ⟨e, rfl⟩
  simp only [ok_bind]
  rcases findOptimalDensity [1] obs yb mu (pv.map (·⁻¹)) (s.map fun r => (r ^ 2)⁻¹) a with e | D
  · exact ⟨e, rfl⟩
  simp only [ok_bind]
  rcases D.expandBatch [N] with e | D'
  · exact ⟨e, rfl⟩
  exact ⟨.valueError, rfl⟩

/-- The random walk with unit scale, on tensors. -/
def walkMeanScale (x : Tensor) : Except PyErr (Tensor × Tensor) := .ok (x, ⟨x.shape, fun _ => 1⟩)

theorem walkMeanScale_ok (B : ℕ) (ev : List ℕ) : MeanScale B ev walkMeanScale fun _ v => (v, fun _ => 1) :=
  fun x _ h => ⟨x, _, rfl, h, h.1, fun _ _ _ => rfl⟩

/-- Two particles at 0 and 2 with equal weights have variance 1. -/
theorem pair_posDef : (fitCov (fun _ : Fin 2 => (1 / 2 : ℝ)) fun n (_ : Fin (dim [])) => 2 * (n.val : ℝ)).PosDef := by
  have e : (fitCov (fun _ : Fin 2 => (1 / 2 : ℝ)) fun n (_ : Fin (dim [])) => 2 * (n.val : ℝ)) = 1 := by
    ext i j
    rw [eq_ix0 i, eq_ix0 j, one_apply_eq]
    norm_num [fitCov, fitMean, Fin.sum_univ_two]
  rw [e]
  exact PosDef.one

/-- C143 is false: two filters with different offsets and observations with three components. -/
theorem C143_negation : ¬ C143_claim := by
  intro h
  obtain ⟨x, w, hD, -⟩ := h (fun _ a => a) 2 2 [] [3] (by simp) (by simp) ⟨[3], fun _ => 0⟩ ⟨[2, 2], fun i => 2 * (i.tail.headD 0 : ℝ)⟩
    ⟨[2, 2], fun i => 2 * (i.tail.headD 0 : ℝ)⟩ ⟨[2, 2], fun _ => 1 / 2⟩
    ⟨[3], fun _ => 1⟩ ⟨[3, 2], fun _ => 0⟩ ⟨[3], fun _ => 1⟩ (fun _ => 0) (fun n _ _ => 2 * (n.val : ℝ)) (fun n _ _ => 2 * (n.val : ℝ))
    (fun _ _ => 1 / 2) (fun _ => of fun _ _ => 1) (fun _ _ => 0) (fun _ _ => 1) walkMeanScale (fun _ v => (v, fun _ => 1))
    (densityOf [2, 2] [] _) (fun _ => 0)
    (Or.inl ⟨rfl, fun _ => rfl⟩) ⟨rfl, fun _ _ _ => rfl⟩ ⟨rfl, fun _ _ _ => rfl⟩ ⟨rfl, fun _ _ => rfl⟩ (Or.inl ⟨rfl, fun _ _ _ => rfl⟩)
    (Or.inr ⟨rfl, fun _ _ => rfl⟩) (Or.inl ⟨rfl, fun _ _ => rfl⟩) (fun _ _ => one_pos) (fun _ _ _ => one_pos) (fun _ _ => by norm_num)
    (fun _ => pair_posDef) (walkMeanScale_ok 2 []) (densityOf_perParticle 2 2 [] _)
  rw [C143_offset_per_filter_raises (fun _ a => a) 2 2 3 [] (by simp) (by simp) ⟨[3], fun _ => 0⟩
    ⟨[2, 2], fun i => 2 * (i.tail.headD 0 : ℝ)⟩ ⟨[2, 2], fun i => 2 * (i.tail.headD 0 : ℝ)⟩ ⟨[2, 2], fun _ => 1 / 2⟩
    ⟨[3], fun _ => 1⟩ ⟨[3, 2], fun _ => 0⟩ ⟨[3], fun _ => 1⟩ (fun _ => 0) (fun n _ _ => 2 * (n.val : ℝ))
    (fun _ _ => 1 / 2) (fun _ => of fun _ _ => 1) (fun _ _ => 1) walkMeanScale (fun _ v => (v, fun _ => 1)) _ (fun _ => 0)
    (Or.inl ⟨rfl, fun _ => rfl⟩) ⟨rfl, fun _ _ _ => rfl⟩ ⟨rfl, fun _ _ => rfl⟩
    (Or.inl ⟨rfl, fun _ _ _ => rfl⟩) rfl (Or.inl ⟨rfl, fun _ _ => rfl⟩) (walkMeanScale_ok 2 []) (by decide)] at hD
  cases hD

/-- A case of `C143_weights_partial`: two filters of two particles with different coefficients and offsets. -/
example (chol : ∀ n, Matrix (Fin n) (Fin n) ℝ → Matrix (Fin n) (Fin n) ℝ) (noise : List ℕ → ℝ) :
    ∃ yLp z l, gaussianLinearSampleAndWeight chol [] [] [2, 2] walkMeanScale yLp ⟨[], fun _ => 5⟩
      ⟨[2, 2], fun i => 2 * (i.tail.headD 0 : ℝ)⟩ ⟨[2, 2], fun i => 2 * (i.tail.headD 0 : ℝ)⟩ ⟨[2, 2], fun _ => 1 / 2⟩
      ⟨[], fun _ => 3⟩ ⟨[2], fun _ => 4⟩ ⟨[2], fun _ => 1⟩ noise = .ok (z, l) ∧ z.shape = [2, 2] ∧ l.shape = [2, 2] := by
  obtain ⟨z, l, h1, v, C, h2, h3⟩ := C143_weights_partial chol 2 2 [] [] (by simp) (by simp) (by simp) ⟨[], fun _ => 5⟩
    ⟨[2, 2], fun i => 2 * (i.tail.headD 0 : ℝ)⟩ ⟨[2, 2], fun i => 2 * (i.tail.headD 0 : ℝ)⟩ ⟨[2, 2], fun _ => 1 / 2⟩
    ⟨[], fun _ => 3⟩ ⟨[2], fun _ => 4⟩ ⟨[2], fun _ => 1⟩ (fun _ => 5) (fun n _ _ => 2 * (n.val : ℝ)) (fun n _ _ => 2 * (n.val : ℝ))
    (fun _ _ => 1 / 2) (fun _ => of fun _ _ => 3) (fun _ _ => 4) (fun _ _ => 1) walkMeanScale (fun _ v => (v, fun _ => 1))
    (densityOf [2, 2] [] _) noise
    (Or.inl ⟨rfl, fun _ => rfl⟩) ⟨rfl, fun _ _ _ => rfl⟩ ⟨rfl, fun _ _ _ => rfl⟩ ⟨rfl, fun _ _ => rfl⟩ (Or.inl ⟨rfl, fun _ _ _ => rfl⟩)
    (Or.inr ⟨rfl, fun _ _ => rfl⟩) (Or.inr ⟨rfl, fun _ _ => rfl⟩) (Or.inl rfl) (fun _ _ => one_pos) (fun _ _ _ => one_pos)
    (fun _ _ => by norm_num) (fun _ => pair_posDef) (walkMeanScale_ok 2 []) (densityOf_perParticle 2 2 [] _)
  exact ⟨_, z, l, h1, h2.1, (h3 0).2.2.1⟩

/-- A case of `C143_single_filter`: two particles and observations with three components. -/
example (chol : ∀ n, Matrix (Fin n) (Fin n) ℝ → Matrix (Fin n) (Fin n) ℝ) (noise : List ℕ → ℝ) :
    ∃ yLp z l, gaussianLinearSampleAndWeight chol [] [3] [2] walkMeanScale yLp ⟨[3], fun _ => 5⟩
      ⟨[2], fun i => 2 * (i.headD 0 : ℝ)⟩ ⟨[2], fun i => 2 * (i.headD 0 : ℝ)⟩ ⟨[2], fun _ => 1 / 2⟩
      ⟨[3], fun _ => 3⟩ ⟨[3], fun _ => 4⟩ ⟨[3], fun _ => 1⟩ noise = .ok (z, l) ∧ z.shape = [2] ∧ l.shape = [2] := by
  obtain ⟨z, l, h1, v, C, h2, h3⟩ := C143_single_filter chol 2 [] [3] (by simp) (by simp) (by simp) ⟨[3], fun _ => 5⟩
    ⟨[2], fun i => 2 * (i.headD 0 : ℝ)⟩ ⟨[2], fun i => 2 * (i.headD 0 : ℝ)⟩ ⟨[2], fun _ => 1 / 2⟩
    ⟨[3], fun _ => 3⟩ ⟨[3], fun _ => 4⟩ ⟨[3], fun _ => 1⟩ (fun _ => 5) (fun n _ => 2 * (n.val : ℝ)) (fun n _ => 2 * (n.val : ℝ))
    (fun _ => 1 / 2) (of fun _ _ => 3) (fun _ => 4) (fun _ => 1) walkMeanScale (fun v => (v, fun _ => 1))
    (densityOf [2] [] _) noise
    (Or.inl ⟨rfl, fun _ => rfl⟩) ⟨rfl, fun _ _ => rfl⟩ ⟨rfl, fun _ _ => rfl⟩ ⟨rfl, fun _ => rfl⟩ ⟨rfl, fun _ _ => rfl⟩
    ⟨rfl, fun _ => rfl⟩ ⟨rfl, fun _ => rfl⟩ (fun _ => one_pos) (fun _ _ => one_pos)
    (fun _ => by norm_num) pair_posDef (fun x _ h => ⟨x, _, rfl, h, h.1, fun _ _ => rfl⟩) (densityOf_perParticle1 2 [] _)
  exact ⟨_, z, l, h1, h2.1, h3.2.2.1⟩

/-- A case of `C143_one_component_single`. -/
example (meanScale yLp y x a b s noise) : ∃ e, gaussianLinearSampleAndWeight (fun _ a => a) [1] [2] [4] meanScale yLp y x
    ⟨[1, 4], fun _ => 1⟩ ⟨[4], fun _ => 1 / 4⟩ a b s noise = .error e :=
  C143_one_component_single _ 4 [2] y x _ _ a b s (fun _ _ => 1) (fun _ => 1 / 4) meanScale yLp noise ⟨rfl, fun _ _ => rfl⟩
    ⟨rfl, fun _ => rfl⟩

end Verif.Props
