import Verif.Lemmas.TensorGaussian
import Verif.Spec.TensorGaussian
import Verif.Props.LinearBatch

/-!
# Property C141: the Gaussian proposal draws states with the moments of the particles
-/

namespace Verif.Props

open Verif Verif.Torch Verif.Spec Matrix

/-- C141 in full: for `B` filters of `N` particles whose states are scalars or vectors, the density that
`get_predictive_density` approximates has one batch per filter and the events of the state, and `sample_and_weight` of the Gaussian
proposal draws for every particle a state of that shape, with the weighted mean and covariance of the particles of its own filter. -/
def C141_claim : Prop :=
  ∀ (chol : ∀ n, Matrix (Fin n) (Fin n) ℝ → Matrix (Fin n) (Fin n) ℝ) (N B : ℕ) (ev : List ℕ), ev.length ≤ 1 →
  ∀ (x w : Tensor) (fx : Fin N → Fin B → Fin (dim ev) → ℝ) (fw : Fin N → Fin B → ℝ) (noise : List ℕ → ℝ),
    Particles x ev fx → Weights w fw →
    (∃ D, predictiveDensityT ev x w = .ok D ∧ D.batchShape = [B, 1] ∧ D.eventShape = ev) ∧
    ∃ z, gaussianValues chol ev x w [B, N] noise = .ok z ∧
      Particles z ev fun (n : Fin N) (f : Fin B) =>
        fitMean (fun i => fw i f) (fun i => fx i f) + covFactor chol ev (fitCov (fun i => fw i f) fun i => fx i f) *ᵥ
          fun j => noise (compIx ev j.val ++ [f.val, n.val])

theorem weights_reads {N B : ℕ} {t : Tensor} {w : Fin N → Fin B → ℝ} (h : Weights t w) :
    ∃ W, Reads0 t [B, N] W ∧ ∀ (n : Fin N) (b : Fin B), W [b.val, n.val] = w n b := by
  refine ⟨fun i => t.val (broadcastIndex [B, N] i), ⟨h.1, fun i => rfl⟩, fun n b => ?_⟩
  show t.val (broadcastIndex [B, N] [b.val, n.val]) = _
  rw [batchIndex]
  exact h.2 n b

theorem weights1_reads {N : ℕ} {t : Tensor} {w : Fin N → ℝ} (h : Weights1 t w) :
    ∃ W, Reads0 t [N] W ∧ ∀ n : Fin N, W [n.val] = w n := by
  refine ⟨fun i => t.val (broadcastIndex [N] i), ⟨h.1, fun i => rfl⟩, fun n => ?_⟩
  show t.val (broadcastIndex [N] [n.val]) = _
  rw [particleIndex]
  exact h.2 n

/-- The number drawn for a scalar state, from its formula. -/
theorem scalarDraw {N : ℕ} (chol) (w : Fin N → ℝ) (x : Fin N → Fin (dim []) → ℝ) (e : ℝ) (j : Fin (dim [])) :
    ∑ n, w n * x n ix0 + Real.sqrt (∑ n, w n * (x n ix0 - ∑ k, w k * x k ix0) ^ 2) * e =
      (fitMean w x + covFactor chol [] (fitCov w x) *ᵥ fun _ => e) j := by
  obtain rfl := eq_ix0 j
  show _ = fitMean w x ix0 + ∑ i : Fin 1, Real.sqrt (fitCov w x ix0 i) * e
  rw [Fin.sum_univ_one]
  show _ = fitMean w x ix0 + Real.sqrt (∑ i, w i * ((x i ix0 - fitMean w x ix0) * (x i ix0 - fitMean w x ix0))) * e
  simp only [← pow_two]
  rfl

/-- C141 holds if the state is a scalar or a vector of several components. -/
theorem C141_draws_partial (chol : ∀ n, Matrix (Fin n) (Fin n) ℝ → Matrix (Fin n) (Fin n) ℝ) (N B : ℕ) (ev : List ℕ)
    (hev : ev.length ≤ 1) (h1 : ev ≠ [1]) (x w : Tensor) (fx : Fin N → Fin B → Fin (dim ev) → ℝ) (fw : Fin N → Fin B → ℝ)
    (noise : List ℕ → ℝ) (hx : Particles x ev fx) (hw : Weights w fw) :
    (∃ D, predictiveDensityT ev x w = .ok D ∧ D.batchShape = [B, 1] ∧ D.eventShape = ev) ∧
    ∃ z, gaussianValues chol ev x w [B, N] noise = .ok z ∧
      Particles z ev fun (n : Fin N) (f : Fin B) =>
        fitMean (fun i => fw i f) (fun i => fx i f) + covFactor chol ev (fitCov (fun i => fw i f) fun i => fx i f) *ᵥ
          fun j => noise (compIx ev j.val ++ [f.val, n.val]) := by
  obtain ⟨F, k1, k2⟩ := particles_reads hx
  obtain ⟨W, k3, k4⟩ := weights_reads hw
  rcases ev with _ | ⟨p, _ | ⟨q, r⟩⟩
  · obtain ⟨loc, scale, e1, e2, -⟩ := predictive_scalar (r := [B]) k1 k3
    obtain ⟨z, e3, e4⟩ := gaussianValues_scalar chol (r := [B]) noise k1 k3
    refine ⟨⟨_, e1, e2.1, rfl⟩, z, e3, e4.1, fun n f j => ?_⟩
    have e := e4.2 [f.val, n.val]
    simp only [filterIndex] at e
    rw [show ([B] ++ [N] : List ℕ) = [B, N] from rfl, batchIndex] at e
    simp only [List.singleton_append, k2, k4] at e
    exact e.trans (scalarDraw chol (fun i => fw i f) (fun i => fx i f) _ j)
  · have hp : p ≠ 1 := fun h => h1 (by rw [h])
    obtain ⟨loc, cov, e1, e2, -⟩ := predictive_vector hp (r := [B]) k1.one k3
    obtain ⟨z, e3, e4⟩ := gaussianValues_vector chol hp (r := [B]) noise k1.one k3
    refine ⟨⟨_, e1, ?_, ?_⟩, z, e3, e4.1, fun n f j => ?_⟩
    · show loc.shape.tail = _
      rw [e2.1]
      rfl
    · show loc.shape.take 1 = _
      rw [e2.1]
      rfl
    have e := e4.2 [f.val, n.val] j
    simp only [filterIndex] at e
    rw [show ([B] ++ [N] : List ℕ) = [B, N] from rfl, batchIndex] at e
    simp only [List.singleton_append, k2, k4] at e
    exact e
  · simp at hev

/-- A single filter: the same, if the state is a scalar or a vector of several components. -/
theorem C141_single_filter (chol : ∀ n, Matrix (Fin n) (Fin n) ℝ → Matrix (Fin n) (Fin n) ℝ) (N : ℕ) (ev : List ℕ)
    (hev : ev.length ≤ 1) (h1 : ev ≠ [1]) (x w : Tensor) (fx : Fin N → Fin (dim ev) → ℝ) (fw : Fin N → ℝ)
    (noise : List ℕ → ℝ) (hx : Particles1 x ev fx) (hw : Weights1 w fw) :
    (∃ D, predictiveDensityT ev x w = .ok D ∧ D.batchShape = [] ∧ D.eventShape = ev) ∧
    ∃ z, gaussianValues chol ev x w [N] noise = .ok z ∧
      Particles1 z ev fun n : Fin N =>
        fitMean fw fx + covFactor chol ev (fitCov fw fx) *ᵥ fun j => noise (compIx ev j.val ++ [n.val]) := by
  obtain ⟨F, k1, k2⟩ := particles1_reads hx
  obtain ⟨W, k3, k4⟩ := weights1_reads hw
  rcases ev with _ | ⟨p, _ | ⟨q, r⟩⟩
  · obtain ⟨loc, scale, e1, e2, -⟩ := predictive_scalar (r := []) k1 k3
    obtain ⟨z, e3, e4⟩ := gaussianValues_scalar chol (r := []) noise k1 k3
    refine ⟨⟨_, e1, e2.1, rfl⟩, z, e3, e4.1, fun n j => ?_⟩
    have e := e4.2 [n.val]
    simp only [broadcastIndex] at e
    rw [show ([] ++ [N] : List ℕ) = [N] from rfl, particleIndex] at e
    simp only [List.nil_append, k2, k4] at e
    exact e.trans (scalarDraw chol fw fx _ j)
  · have hp : p ≠ 1 := fun h => h1 (by rw [h])
    obtain ⟨loc, cov, e1, e2, -⟩ := predictive_vector hp (r := []) k1.one k3
    obtain ⟨z, e3, e4⟩ := gaussianValues_vector chol hp (r := []) noise k1.one k3
    refine ⟨⟨_, e1, ?_, ?_⟩, z, e3, e4.1, fun n j => ?_⟩
    · show loc.shape.tail = _
      rw [e2.1]
      rfl
    · show loc.shape.take 1 = _
      rw [e2.1]
      rfl
    have e := e4.2 [n.val] j
    simp only [broadcastIndex] at e
    rw [show ([] ++ [N] : List ℕ) = [N] from rfl, particleIndex] at e
    simp only [List.nil_append, k2, k4] at e
    exact e
  · simp at hev

/-- A vector state with one component loses its dimension in the mean: a single filter then has no predictive density. -/
theorem C141_one_component_single (N : ℕ) (x w : Tensor) (fx : Fin N → Fin (dim [1]) → ℝ) (fw : Fin N → ℝ)
    (hx : Particles1 x [1] fx) (hw : Weights1 w fw) : predictiveDensityT [1] x w = .error .valueError := by
  obtain ⟨F, k1, k2⟩ := particles1_reads hx
  obtain ⟨W, k3, k4⟩ := weights1_reads hw
  obtain ⟨m, v, e1, e2, e3⟩ := filterMoments_cov (r := []) k1.one k3 false
  have e4 := squeeze_reads1 e2
  unfold predictiveDensityT
  rw [e1]
  have hl : ¬ w.shape.length > 1 := by rw [k3.1]; simp
  simp only [ok_bind, Bool.false_eq_true, if_false, if_neg hl]
  show Dist.mkMvnCov _ _ = _
  unfold Dist.mkMvnCov
  rw [if_pos (by rw [e4.1]; simp)]

theorem broadcastShape_one (B : ℕ) : broadcastShape [B, 1] [1] = some [B, 1] := by
  by_cases h : B = 1 <;> simp [broadcastShape, h]

/-- With `B` filters, the means of the filters are taken for the components of a state, and no state is drawn. -/
theorem C141_one_component_batch (chol : ∀ n, Matrix (Fin n) (Fin n) ℝ → Matrix (Fin n) (Fin n) ℝ) (N B : ℕ) (hB : B ≠ 1)
    (x w : Tensor) (fx : Fin N → Fin B → Fin (dim [1]) → ℝ) (fw : Fin N → Fin B → ℝ) (noise : List ℕ → ℝ)
    (hx : Particles x [1] fx) (hw : Weights w fw) :
    (∃ D, predictiveDensityT [1] x w = .ok D ∧ D.eventShape = [B]) ∧
      gaussianValues chol [1] x w [B, N] noise = .error .runtimeError := by
  obtain ⟨F, k1, k2⟩ := particles_reads hx
  obtain ⟨W, k3, k4⟩ := weights_reads hw
  obtain ⟨m, v, e1, e2, e3⟩ := filterMoments_cov (r := [B]) k1.one k3 false
  have e4 := predBatch_reads0 (squeeze_reads1 e2) k3
  have e5 := predBatch_reads2 e3 k3
  have key : predictiveDensityT [1] x w = .ok (.mvn
      ((if w.shape.length > 1 then m.squeeze1.unsqueeze0 else m.squeeze1).expand [B, B, 1])
      ((if w.shape.length > 1 then v.unsqueeze0 else v).expand [1, 1, B, 1])) := by
    unfold predictiveDensityT
    rw [e1]
    simp only [ok_bind, Bool.false_eq_true, if_false]
    show Dist.mkMvnCov _ _ = _
    unfold Dist.mkMvnCov
    rw [if_neg (by rw [e4.1]; simp [predBatch])]
    generalize (if w.shape.length > 1 then m.squeeze1.unsqueeze0 else m.squeeze1) = l at e4 ⊢
    generalize (if w.shape.length > 1 then v.unsqueeze0 else v) = c at e5 ⊢
    obtain ⟨ls, lv⟩ := l
    obtain ⟨cs, cv⟩ := c
    obtain ⟨q1, -⟩ := e4
    obtain ⟨q2, -⟩ := e5
    subst q1 q2
    have hb : broadcastShape [B, 1] [1] = some [B, 1] := broadcastShape_one B
    show (match broadcastShape [B, 1] [1] with
      | none => (.error .runtimeError : Except PyErr Dist)
      | some s => .ok (.mvn _ _)) = _
    rw [hb]
  refine ⟨⟨_, key, rfl⟩, ?_⟩
  unfold gaussianValues
  rw [key, ok_bind]
  unfold Dist.expandSample
  have s1 : Sub [B, B, 1] [B, B, N] := ⟨Or.inl rfl, Or.inl rfl, Or.inr rfl, trivial⟩
  have g1 := expandTo_eq (x := (if w.shape.length > 1 then m.squeeze1.unsqueeze0 else m.squeeze1).expand [B, B, 1]) s1
  simp only []
  show ((((if w.shape.length > 1 then m.squeeze1.unsqueeze0 else m.squeeze1).expand [B, B, 1]).expandTo [B, B, N]) >>= fun loc => _) = _
  rw [g1, ok_bind]
  show ((Except.ok _ : Except PyErr Tensor) >>= fun tril => (Tensor.matmul tril ⟨[1, B, B, N], _⟩ >>= _)) = _
  rw [ok_bind]
  have g2 : ∀ f g, Tensor.matmul ⟨[1, 1, B, 1], f⟩ ⟨[1, B, B, N], g⟩ = .error .runtimeError := fun f g => if_neg (Ne.symm hB)
  rw [g2]
  rfl

/-- C141 is false: two filters of three particles, states that are vectors with one component. -/
theorem C141_negation : ¬ C141_claim := by
  intro h
  obtain ⟨-, z, h1, -⟩ := h (fun _ a => a) 3 2 [1] le_rfl ⟨[1, 2, 3], fun _ => 1⟩ ⟨[2, 3], fun _ => 1 / 3⟩ (fun _ _ _ => 1)
    (fun _ _ => 1 / 3) (fun _ => 0) ⟨rfl, fun _ _ _ => rfl⟩ ⟨rfl, fun _ _ => rfl⟩
  rw [(C141_one_component_batch (fun _ a => a) 3 2 (by decide) ⟨[1, 2, 3], fun _ => 1⟩ ⟨[2, 3], fun _ => 1 / 3⟩ (fun _ _ _ => 1)
    (fun _ _ => 1 / 3) (fun _ => 0) ⟨rfl, fun _ _ _ => rfl⟩ ⟨rfl, fun _ _ => rfl⟩).2] at h1
  cases h1

/-- A case of `C141_draws_partial`: two filters of three particles in the plane, with unequal weights. -/
example (chol : ∀ n, Matrix (Fin n) (Fin n) ℝ → Matrix (Fin n) (Fin n) ℝ) (noise : List ℕ → ℝ) :
    ∃ x w : Tensor, ∃ z, gaussianValues chol [2] x w [2, 3] noise = .ok z ∧ z.shape = [2, 2, 3] := by
  obtain ⟨-, z, h1, h2⟩ := C141_draws_partial chol 3 2 [2] le_rfl (by decide)
    ⟨[2, 2, 3], fun i => (i.headD 0 : ℝ) + 2 * i.tail.headD 0 - i.tail.tail.headD 0⟩
    ⟨[2, 3], fun i => if i.headD 0 = 0 then 1 / 3 else if i.tail.headD 0 = 0 then 1 / 2 else 1 / 4⟩
    (fun n b j => (j.val : ℝ) + 2 * b.val - n.val)
    (fun n b => if b.val = 0 then 1 / 3 else if n.val = 0 then 1 / 2 else 1 / 4) noise
    ⟨rfl, fun _ _ _ => rfl⟩ ⟨rfl, fun _ _ => rfl⟩
  exact ⟨_, _, z, h1, h2.1⟩

/-- A case of `C141_single_filter`: two particles at 0 and 2 with equal weights have mean 1 and variance 1, so the values
drawn are `1 + noise`. -/
example (chol : ∀ n, Matrix (Fin n) (Fin n) ℝ → Matrix (Fin n) (Fin n) ℝ) (noise : List ℕ → ℝ) :
    ∃ z, gaussianValues chol [] ⟨[2], fun i => 2 * (i.headD 0 : ℝ)⟩ ⟨[2], fun _ => 1 / 2⟩ [2] noise = .ok z ∧
      z.shape = [2] ∧ z.val [1] = 1 + noise [1] := by
  obtain ⟨-, z, h1, h2⟩ := C141_single_filter chol 2 [] (by simp) (by decide)
    ⟨[2], fun i => 2 * (i.headD 0 : ℝ)⟩ ⟨[2], fun _ => 1 / 2⟩ (fun n _ => 2 * (n.val : ℝ)) (fun _ => 1 / 2) noise
    ⟨rfl, fun _ _ => rfl⟩ ⟨rfl, fun _ => rfl⟩
  refine ⟨z, h1, h2.1, (h2.2 1 ix0).trans ?_⟩
  refine (scalarDraw chol (fun _ : Fin 2 => (1 / 2 : ℝ)) (fun n _ => 2 * (n.val : ℝ)) (noise [1]) ix0).symm.trans ?_
  norm_num [Fin.sum_univ_two, compIx]

/-- A case of `C141_one_component_single` and of `C141_one_component_batch`. -/
example : predictiveDensityT [1] ⟨[1, 4], fun _ => 1⟩ ⟨[4], fun _ => 1 / 4⟩ = .error .valueError ∧
    gaussianValues (fun _ a => a) [1] ⟨[1, 5, 4], fun _ => 1⟩ ⟨[5, 4], fun _ => 1 / 4⟩ [5, 4] (fun _ => 0) = .error .runtimeError :=
  ⟨C141_one_component_single 4 _ _ (fun _ _ => 1) (fun _ => 1 / 4) ⟨rfl, fun _ _ => rfl⟩ ⟨rfl, fun _ => rfl⟩,
    (C141_one_component_batch _ 4 5 (by decide) _ _ (fun _ _ _ => 1) (fun _ _ => 1 / 4) _ ⟨rfl, fun _ _ _ => rfl⟩
      ⟨rfl, fun _ _ => rfl⟩).2⟩

end Verif.Props
