import Verif.Lemmas.TensorWeights
import Verif.Props.TensorGaussian

/-!
# Property C142: the linear proposal draws and weighs every particle of every filter
-/

namespace Verif.Props

open Verif Verif.Torch Verif.Spec Matrix

/-- C142 in full: for `B` filters of `N` particles, with parameters shared by the filters or not, `sample_and_weight` of the linear
proposal draws for every particle a state from the conditional normal distribution given the observation, and returns as its weight the
predictive log-density of the observation, with the parameters of its own filter. -/
def C142_claim : Prop :=
  ∀ (chol : ∀ n, Matrix (Fin n) (Fin n) ℝ → Matrix (Fin n) (Fin n) ℝ) (N B : ℕ) (hidden obs : List ℕ), hidden.length ≤ 1 →
    obs.length ≤ 1 →
  ∀ (y mean scale a b s : Tensor) (fy : Fin (dim obs) → ℝ) (fm fs : Fin N → Fin B → Fin (dim hidden) → ℝ)
    (fa : Fin B → Matrix (Fin (dim obs)) (Fin (dim hidden)) ℝ) (fb fo : Fin B → Fin (dim obs) → ℝ)
    (yLp xLp : Tensor → Except PyErr Tensor) (noise : List ℕ → ℝ),
    Observation y obs fy → Particles mean hidden fm → Particles scale hidden fs → StoredMatrix a hidden obs fa →
    Stored b obs fb → Stored s obs fo → (∀ b j, 0 < fo b j) → (∀ n b j, 0 < fs n b j) →
    PerParticle N B hidden yLp (fun _ f x => ∑ j, logNormal (fb f j + (fa f *ᵥ x) j) (fo f j ^ 2) (fy j)) →
    PerParticle N B hidden xLp (fun n f x => ∑ e, logNormal (fm n f e) (fs n f e ^ 2) (x e)) →
    ∃ x w, linearSampleAndWeight chol hidden obs yLp xLp y mean scale a b s noise = .ok (x, w) ∧
      Weights w (fun n f => logPredictive (fm n f) (fs n f) (fa f) (fb f) (fo f) fy) ∧
      ∃ C : Fin N → Fin B → Matrix (Fin (dim hidden)) (Fin (dim hidden)) ℝ,
        (∀ n f, C n f * (diagonal (fun e => (fs n f e ^ 2)⁻¹) + (fa f)ᵀ * diagonal (fun j => (fo f j ^ 2)⁻¹) * fa f) = 1) ∧
        Particles x hidden fun n f => C n f *ᵥ (diagonal (fun e => (fs n f e ^ 2)⁻¹) *ᵥ fm n f +
          (fa f)ᵀ *ᵥ diagonal (fun j => (fo f j ^ 2)⁻¹) *ᵥ (fy - fb f)) +
            covFactor chol hidden (C n f) *ᵥ fun e => noise (compIx hidden e.val ++ [f.val, n.val])

theorem scalar_dim {hidden : List ℕ} (h : (hidden.length == 0) = true) : dim hidden = 1 := by
  cases hidden with
  | nil => rfl
  | cons p r => simp at h

/-- The covariance of the kernel is the inverse of a precision. -/
theorem optimalCov_precision {n m : ℕ} {h : Fin n → ℝ} {o : Fin m → ℝ} (a : Matrix (Fin m) (Fin n) ℝ) (hh : ∀ e, 0 < h e)
    (ho : ∀ j, 0 < o j) : optimalCov h o a * (diagonal h + aᵀ * diagonal o * a) = 1 := by
  rw [optimalCov_eq]
  exact nonsing_inv_mul _ (precision_posDef a hh ho).det_pos.ne'.isUnit

theorem diagonal_mulVec_eq {n : ℕ} (h m : Fin n → ℝ) : diagonal h *ᵥ m = fun e => h e * m e := by
  funext e
  exact mulVec_diagonal h m e

/-- C142 holds if the observation is a scalar or the filters share their offset. -/
theorem C142_weights_partial (chol : ∀ n, Matrix (Fin n) (Fin n) ℝ → Matrix (Fin n) (Fin n) ℝ) (N B : ℕ) (hidden obs : List ℕ)
    (hh : hidden.length ≤ 1) (ho : obs.length ≤ 1)
    (y mean scale a b s : Tensor) (fy : Fin (dim obs) → ℝ) (fm fs : Fin N → Fin B → Fin (dim hidden) → ℝ)
    (fa : Fin B → Matrix (Fin (dim obs)) (Fin (dim hidden)) ℝ) (fb fo : Fin B → Fin (dim obs) → ℝ)
    (yLp xLp : Tensor → Except PyErr Tensor) (noise : List ℕ → ℝ)
    (hy : Observation y obs fy) (hm : Particles mean hidden fm) (hsc : Particles scale hidden fs) (ha : StoredMatrix a hidden obs fa)
    (hb : Stored b obs fb) (hs : Stored s obs fo) (hshared : obs = [] ∨ b.shape = obs) (hfo : ∀ b j, 0 < fo b j)
    (hfs : ∀ n b j, 0 < fs n b j)
    (hyl : PerParticle N B hidden yLp fun _ f x => ∑ j, logNormal (fb f j + (fa f *ᵥ x) j) (fo f j ^ 2) (fy j))
    (hxl : PerParticle N B hidden xLp fun n f x => ∑ e, logNormal (fm n f e) (fs n f e ^ 2) (x e)) :
    ∃ x w, linearSampleAndWeight chol hidden obs yLp xLp y mean scale a b s noise = .ok (x, w) ∧
      Weights w (fun n f => logPredictive (fm n f) (fs n f) (fa f) (fb f) (fo f) fy) ∧
      ∃ C : Fin N → Fin B → Matrix (Fin (dim hidden)) (Fin (dim hidden)) ℝ,
        (∀ n f, C n f * (diagonal (fun e => (fs n f e ^ 2)⁻¹) + (fa f)ᵀ * diagonal (fun j => (fo f j ^ 2)⁻¹) * fa f) = 1) ∧
        Particles x hidden fun n f => C n f *ᵥ (diagonal (fun e => (fs n f e ^ 2)⁻¹) *ᵥ fm n f +
          (fa f)ᵀ *ᵥ diagonal (fun j => (fo f j ^ 2)⁻¹) *ᵥ (fy - fb f)) +
            covFactor chol hidden (C n f) *ᵥ fun e => noise (compIx hidden e.val ++ [f.val, n.val]) := by
  obtain ⟨ry, hy1, hy2, hy3⟩ := observation_reads B N hy
  obtain ⟨Fm, hm1, hm2⟩ := particles_reads hm
  obtain ⟨Fs, hs1, hs2⟩ := particles_reads hsc
  obtain ⟨ra, Fa, ha1, ha2, ha3⟩ := storedMatrix_reads N ha
  obtain ⟨rb, Fb, hb1, hb2, hb3, hb4⟩ := stored_reads N hb
  obtain ⟨rs, Fo, ho1, ho2, -, ho4⟩ := stored_reads N hs
  obtain ⟨yb, D, f1, f2, hD⟩ := findOptimalDensity_dist hh ho hm1 (mapE (fun r => (r ^ 2)⁻¹) hs1) ha1 (mapE (fun r => (r ^ 2)⁻¹) ho1)
    hy1 hb1 ha2 ho2 hy2 hb2 fun h => ⟨hy3 h, hb3 (hshared.resolve_left h)⟩
  obtain ⟨z, X, g1, g2, g3⟩ := hD.sample' chol noise
  have hz : Particles z hidden _ := ⟨g2.1, fun n f j => (congrArg (fun l => z.val (compIx hidden j.val ++ l)) (batchIndex n f).symm).trans
    (g2.2 [f.val, n.val] j)⟩
  obtain ⟨ty, y1, y2⟩ := hyl z _ hz
  obtain ⟨tx, x1, x2⟩ := hxl z _ hz
  obtain ⟨Y, y3, y4⟩ := weights_reads y2
  obtain ⟨T, x3, x4⟩ := weights_reads x2
  obtain ⟨w, w1, w2⟩ := weightWithKernel_reads g2 hD (Sub.refl _) y1 y3 x1 x3
  refine ⟨z, w, ?_, ⟨w2.1, fun n f => ?_⟩, fun n f => optimalCov (fun e => (fs n f e ^ 2)⁻¹) (fun j => (fo f j ^ 2)⁻¹) (fa f),
    fun n f => ?_, hz.1, fun n f j => (hz.2 n f j).trans ?_⟩
  · unfold linearSampleAndWeight linearKernel
    simp only [f1, f2, ok_bind, g1, w1]
    rfl
  · have e := w2.2 [f.val, n.val]
    rw [batchIndex] at e
    refine e.trans ?_
    beta_reduce
    rw [y4, x4]
    have k := (C41_weight_is_predictive (modelOf (hidden := hidden) (obs := obs) (fm n f) (fs n f) (fa f) (fb f) (fo f))
      (hidden.length == 0) scalar_dim fy (fm n f) (X [f.val, n.val]) (hfo f) (hfs n f)).1
    refine Eq.trans ?_ k
    unfold LinearModel.linearWeight LinearModel.obsLogProb LinearModel.transLogProb
    congr 1
    · congr 1
      · exact Finset.sum_congr rfl fun j _ => (normalLogProb_eq (hfo f j) _).symm
      · exact Finset.sum_congr rfl fun e _ => (normalLogProb_eq (hfs n f e) _).symm
    · rw [hm2, hs2, ha3, hb4, ho4]
      rfl
  · exact optimalCov_precision (fa f) (fun e => by have := hfs n f e; positivity) fun j => by have := hfo f j; positivity
  · beta_reduce
    rw [g3]
    beta_reduce
    rw [hm2, hs2, ha3, hb4, ho4, batchIndex, diagonal_mulVec_eq, constructDiag_eq]

/-- A single filter: the weights are right for all events. -/
theorem C142_single_filter (chol : ∀ n, Matrix (Fin n) (Fin n) ℝ → Matrix (Fin n) (Fin n) ℝ) (N : ℕ) (hidden obs : List ℕ)
    (hh : hidden.length ≤ 1) (ho : obs.length ≤ 1)
    (y mean scale a b s : Tensor) (fy : Fin (dim obs) → ℝ) (fm fs : Fin N → Fin (dim hidden) → ℝ)
    (fa : Matrix (Fin (dim obs)) (Fin (dim hidden)) ℝ) (fb fo : Fin (dim obs) → ℝ)
    (yLp xLp : Tensor → Except PyErr Tensor) (noise : List ℕ → ℝ)
    (hy : Observation y obs fy) (hm : Particles1 mean hidden fm) (hsc : Particles1 scale hidden fs) (ha : FixedMatrix a hidden obs fa)
    (hb : Fixed b obs fb) (hs : Fixed s obs fo) (hfo : ∀ j, 0 < fo j) (hfs : ∀ n j, 0 < fs n j)
    (hyl : PerParticle1 N hidden yLp fun _ x => ∑ j, logNormal (fb j + (fa *ᵥ x) j) (fo j ^ 2) (fy j))
    (hxl : PerParticle1 N hidden xLp fun n x => ∑ e, logNormal (fm n e) (fs n e ^ 2) (x e)) :
    ∃ x w, linearSampleAndWeight chol hidden obs yLp xLp y mean scale a b s noise = .ok (x, w) ∧
      Weights1 w (fun n => logPredictive (fm n) (fs n) fa fb fo fy) ∧
      ∃ C : Fin N → Matrix (Fin (dim hidden)) (Fin (dim hidden)) ℝ,
        (∀ n, C n * (diagonal (fun e => (fs n e ^ 2)⁻¹) + faᵀ * diagonal (fun j => (fo j ^ 2)⁻¹) * fa) = 1) ∧
        Particles1 x hidden fun n => C n *ᵥ (diagonal (fun e => (fs n e ^ 2)⁻¹) *ᵥ fm n +
          faᵀ *ᵥ diagonal (fun j => (fo j ^ 2)⁻¹) *ᵥ (fy - fb)) +
            covFactor chol hidden (C n) *ᵥ fun e => noise (compIx hidden e.val ++ [n.val]) := by
  obtain ⟨ry, hy1, hy2, hy3⟩ := observation_reads1 N hy
  obtain ⟨Fm, hm1, hm2⟩ := particles1_reads hm
  obtain ⟨Fs, hs1, hs2⟩ := particles1_reads hsc
  obtain ⟨yb, D, f1, f2, hD⟩ := findOptimalDensity_dist hh ho hm1 (mapE (fun r => (r ^ 2)⁻¹) hs1) (fixedMatrix_reads ha)
    (mapE (fun r => (r ^ 2)⁻¹) (fixed_reads hs)) hy1 (fixed_reads hb) trivial trivial hy2 trivial fun h => ⟨hy3 h, rfl⟩
  obtain ⟨z, X, g1, g2, g3⟩ := hD.sample' chol noise
  have hz : Particles1 z hidden _ := ⟨g2.1, fun n j => (congrArg (fun l => z.val (compIx hidden j.val ++ l)) (particleIndex n).symm).trans
    (g2.2 [n.val] j)⟩
  obtain ⟨ty, y1, y2⟩ := hyl z _ hz
  obtain ⟨tx, x1, x2⟩ := hxl z _ hz
  obtain ⟨Y, y3, y4⟩ := weights1_reads y2
  obtain ⟨T, x3, x4⟩ := weights1_reads x2
  obtain ⟨w, w1, w2⟩ := weightWithKernel_reads g2 hD (Sub.refl _) y1 y3 x1 x3
  refine ⟨z, w, ?_, ⟨w2.1, fun n => ?_⟩, fun n => optimalCov (fun e => (fs n e ^ 2)⁻¹) (fun j => (fo j ^ 2)⁻¹) fa,
    fun n => ?_, hz.1, fun n j => (hz.2 n j).trans ?_⟩
  · unfold linearSampleAndWeight linearKernel
    simp only [f1, f2, ok_bind, g1, w1]
    rfl
  · have e := w2.2 [n.val]
    rw [particleIndex] at e
    refine e.trans ?_
    beta_reduce
    rw [y4, x4]
    have k := (C41_weight_is_predictive (modelOf (hidden := hidden) (obs := obs) (fm n) (fs n) fa fb fo)
      (hidden.length == 0) scalar_dim fy (fm n) (X [n.val]) hfo (hfs n)).1
    refine Eq.trans ?_ k
    unfold LinearModel.linearWeight LinearModel.obsLogProb LinearModel.transLogProb
    congr 1
    · congr 1
      · exact Finset.sum_congr rfl fun j _ => (normalLogProb_eq (hfo j) _).symm
      · exact Finset.sum_congr rfl fun e _ => (normalLogProb_eq (hfs n e) _).symm
    · rw [hm2, hs2]
      rfl
  · exact optimalCov_precision fa (fun e => by have := hfs n e; positivity) fun j => by have := hfo j; positivity
  · beta_reduce
    rw [g3]
    beta_reduce
    rw [hm2, hs2, particleIndex, diagonal_mulVec_eq, constructDiag_eq]

/-- With an offset for every filter and vector observations no state is drawn and no weight is returned, unless there are as many
filters as components of the observation. -/
theorem C142_offset_per_filter_raises (chol : ∀ n, Matrix (Fin n) (Fin n) ℝ → Matrix (Fin n) (Fin n) ℝ) (N B q : ℕ)
    (hidden : List ℕ) (hh : hidden.length ≤ 1) (y mean scale a b s : Tensor)
    (fy : Fin q → ℝ) (fm fs : Fin N → Fin B → Fin (dim hidden) → ℝ) (fa : Fin B → Matrix (Fin q) (Fin (dim hidden)) ℝ)
    (fo : Fin B → Fin q → ℝ) (yLp xLp : Tensor → Except PyErr Tensor) (noise : List ℕ → ℝ) (hy : Observation y [q] fy)
    (hm : Particles mean hidden fm) (hsc : Particles scale hidden fs)
    (ha : StoredMatrix a hidden [q] fa) (hb : b.shape = [q, B]) (hs : Stored s [q] fo) (hB : B ≠ q) :
    linearSampleAndWeight chol hidden [q] yLp xLp y mean scale a b s noise = .error .runtimeError := by
  unfold linearSampleAndWeight
  rw [C139_offset_per_filter_raises N B q hidden hh y mean scale a b s fy fm fs fa fo hy hm hsc ha hb hs hB]
  rfl

/-- A density that is the same for all particles, on tensors. -/
noncomputable def densityOf (shape ev : List ℕ) (g : (Fin (dim ev) → ℝ) → ℝ) (x : Tensor) : Except PyErr Tensor :=
  .ok ⟨shape, fun i => g fun j => x.val (compIx ev j.val ++ i)⟩

theorem densityOf_perParticle (N B : ℕ) (ev : List ℕ) (g : (Fin (dim ev) → ℝ) → ℝ) :
    PerParticle N B ev (densityOf [B, N] ev g) fun _ _ => g :=
  fun _ _ h => ⟨_, rfl, rfl, fun n b => congrArg g (funext fun j => h.2 n b j)⟩

theorem densityOf_perParticle1 (N : ℕ) (ev : List ℕ) (g : (Fin (dim ev) → ℝ) → ℝ) :
    PerParticle1 N ev (densityOf [N] ev g) fun _ => g :=
  fun _ _ h => ⟨_, rfl, rfl, fun n => congrArg g (funext fun j => h.2 n j)⟩

/-- C142 is false: two filters with different offsets and observations with three components. -/
theorem C142_negation : ¬ C142_claim := by
  intro h
  obtain ⟨x, w, hD, -⟩ := h (fun _ a => a) 1 2 [] [3] (by simp) (by simp) ⟨[3], fun _ => 0⟩ ⟨[2, 1], fun _ => 0⟩ ⟨[2, 1], fun _ => 1⟩
    ⟨[3], fun _ => 1⟩ ⟨[3, 2], fun _ => 0⟩ ⟨[3], fun _ => 1⟩ (fun _ => 0) (fun _ _ _ => 0) (fun _ _ _ => 1)
    (fun _ => of fun _ _ => 1) (fun _ _ => 0) (fun _ _ => 1) (densityOf [2, 1] [] _) (densityOf [2, 1] [] _) (fun _ => 0)
    (Or.inl ⟨rfl, fun _ => rfl⟩) ⟨rfl, fun _ _ _ => rfl⟩ ⟨rfl, fun _ _ _ => rfl⟩ (Or.inl ⟨rfl, fun _ _ _ => rfl⟩)
    (Or.inr ⟨rfl, fun _ _ => rfl⟩) (Or.inl ⟨rfl, fun _ _ => rfl⟩) (fun _ _ => one_pos) (fun _ _ _ => one_pos)
    (densityOf_perParticle 1 2 [] _) (densityOf_perParticle 1 2 [] _)
  rw [C142_offset_per_filter_raises (fun _ a => a) 1 2 3 [] (by simp) ⟨[3], fun _ => 0⟩ ⟨[2, 1], fun _ => 0⟩ ⟨[2, 1], fun _ => 1⟩
    ⟨[3], fun _ => 1⟩ ⟨[3, 2], fun _ => 0⟩ ⟨[3], fun _ => 1⟩ (fun _ => 0) (fun _ _ _ => 0) (fun _ _ _ => 1)
    (fun _ => of fun _ _ => 1) (fun _ _ => 1) _ _ (fun _ => 0)
    (Or.inl ⟨rfl, fun _ => rfl⟩) ⟨rfl, fun _ _ _ => rfl⟩ ⟨rfl, fun _ _ _ => rfl⟩
    (Or.inl ⟨rfl, fun _ _ _ => rfl⟩) rfl (Or.inl ⟨rfl, fun _ _ => rfl⟩) (by decide)] at hD
  cases hD

/-- A case of `C142_weights_partial`: three filters of two particles in the plane with scalar observations. -/
example (chol : ∀ n, Matrix (Fin n) (Fin n) ℝ → Matrix (Fin n) (Fin n) ℝ) (noise : List ℕ → ℝ) :
    ∃ yLp xLp x w, linearSampleAndWeight chol [2] [] yLp xLp ⟨[1], fun _ => 5⟩ ⟨[2, 3, 2], fun i => i.headD 0⟩ ⟨[2, 3, 2], fun _ => 2⟩
      ⟨[2, 3], fun i => i.headD 0⟩ ⟨[3], fun _ => 4⟩ ⟨[], fun _ => 1⟩ noise = .ok (x, w) ∧ w.shape = [3, 2] ∧ x.shape = [2, 3, 2] := by
  obtain ⟨x, w, h1, h2, C, -, h3⟩ := C142_weights_partial chol 2 3 [2] [] (by simp) (by simp) ⟨[1], fun _ => 5⟩
    ⟨[2, 3, 2], fun i => i.headD 0⟩ ⟨[2, 3, 2], fun _ => 2⟩ ⟨[2, 3], fun i => i.headD 0⟩ ⟨[3], fun _ => 4⟩ ⟨[], fun _ => 1⟩ (fun _ => 5)
    (fun _ _ j => (j.val : ℕ)) (fun _ _ _ => 2) (fun _ => of fun _ j => (j.val : ℕ))
    (fun _ _ => 4) (fun _ _ => 1) (densityOf [3, 2] [2] _) (densityOf [3, 2] [2] _) noise
    (Or.inr ⟨rfl, rfl, fun _ => rfl⟩) ⟨rfl, fun _ _ _ => rfl⟩ ⟨rfl, fun _ _ _ => rfl⟩
    (Or.inr ⟨rfl, fun _ _ _ => rfl⟩) (Or.inr ⟨rfl, fun _ _ => rfl⟩) (Or.inl ⟨rfl, fun _ _ => rfl⟩) (Or.inl rfl) (fun _ _ => one_pos)
    (fun _ _ _ => two_pos) (densityOf_perParticle 2 3 [2] _) (densityOf_perParticle 2 3 [2] _)
  exact ⟨_, _, x, w, h1, h2.1, h3.1⟩

/-- A case of `C142_single_filter`: five particles, a scalar state and observations with two components. -/
example (chol : ∀ n, Matrix (Fin n) (Fin n) ℝ → Matrix (Fin n) (Fin n) ℝ) (noise : List ℕ → ℝ) :
    ∃ yLp xLp x w, linearSampleAndWeight chol [] [2] yLp xLp ⟨[2], fun _ => 1⟩ ⟨[5], fun _ => 3⟩ ⟨[5], fun _ => 2⟩
      ⟨[2], fun i => i.headD 0⟩ ⟨[2], fun _ => 1⟩ ⟨[2], fun _ => 1⟩ noise = .ok (x, w) ∧ w.shape = [5] := by
  obtain ⟨x, w, h1, h2, -⟩ := C142_single_filter chol 5 [] [2] (by simp) (by simp) ⟨[2], fun _ => 1⟩ ⟨[5], fun _ => 3⟩ ⟨[5], fun _ => 2⟩
    ⟨[2], fun i => i.headD 0⟩ ⟨[2], fun _ => 1⟩ ⟨[2], fun _ => 1⟩ (fun _ => 1) (fun _ _ => 3) (fun _ _ => 2)
    (of fun i _ => (i.val : ℕ)) (fun _ => 1) (fun _ => 1) (densityOf [5] [] _) (densityOf [5] [] _) noise
    (Or.inl ⟨rfl, fun _ => rfl⟩) ⟨rfl, fun _ _ => rfl⟩
    ⟨rfl, fun _ _ => rfl⟩ ⟨rfl, fun _ _ => rfl⟩ ⟨rfl, fun _ => rfl⟩ ⟨rfl, fun _ => rfl⟩ (fun _ => one_pos) (fun _ _ => two_pos)
    (densityOf_perParticle1 5 [] _) (densityOf_perParticle1 5 [] _)
  exact ⟨_, _, x, w, h1, h2.1⟩

end Verif.Props
