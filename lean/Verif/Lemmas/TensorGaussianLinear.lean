import Verif.Lemmas.TensorWeights

/-!
# The proposal `GaussianLinear` on tensors
-/

namespace Verif.Torch

open Matrix Verif.Spec

theorem ReadsE.index {t : Tensor} {ev r R : List ℕ} {F} (h : ReadsE t ev r F) (hr : Sub r R) (i : List ℕ) :
    F i = F (broadcastIndex R i) := by
  funext j
  rw [← h.2 i j, ← h.2 (broadcastIndex R i) j, broadcastIndex_trans hr]

theorem ReadsA.index {t : Tensor} {hidden obs r R : List ℕ} {F} (h : ReadsA t hidden obs r F) (hr : Sub r R) (i : List ℕ) :
    F i = F (broadcastIndex R i) := by
  ext u v
  rw [← h.2 i u v, ← h.2 (broadcastIndex R i) u v, broadcastIndex_trans hr]

/-- Mean and variance of the particles, with a dimension for the particles. -/
theorem moments_reads {hidden : List ℕ} (hh : hidden.length ≤ 1) (h1 : hidden ≠ [1]) {x w : Tensor} {N : ℕ} {r : List ℕ} {F W}
    (hx : ReadsE x hidden (r ++ [N]) F) (hw : Reads0 w (r ++ [N]) W) :
    ∃ m v, filterMoments hidden x w false false = .ok (m, v) ∧
      ReadsE m.unsqueeze0 hidden (r ++ [1]) (fun s => fitMean (fun n : Fin N => W (broadcastIndex r s ++ [n.val]))
        fun n => F (broadcastIndex r s ++ [n.val])) ∧
      ReadsE v.unsqueeze0 hidden (r ++ [1]) fun s j => fitCov (fun n : Fin N => W (broadcastIndex r s ++ [n.val]))
        (fun n => F (broadcastIndex r s ++ [n.val])) j j := by
  obtain ⟨m, v, e1, e2, e3⟩ := filterMoments_var hh false hx hw false (fun h => absurd h (by simp))
  refine ⟨_, _, e1, ?_⟩
  simp only [Bool.false_eq_true, if_false]
  match hidden with
  | [] =>
    have k2 := unsqueeze0_reads0 (squeeze_reads1 e2)
    have k3 := unsqueeze0_reads0 (squeeze_reads1 e3)
    refine ⟨⟨k2.1, fun s j => (k2.2 s).trans ?_⟩, ⟨k3.1, fun s j => (k3.2 s).trans ?_⟩⟩
    · rw [eq_ix0 j]
      rfl
    · rw [eq_ix0 j]
      simp only [fitCov, of_apply, ← pow_two]
      rfl
  | [p] =>
    have hp : p ≠ 1 := fun h => h1 (by rw [h])
    rw [squeeze_of_ne e2 hp, squeeze_of_ne e3 hp]
    have k2 := unsqueeze0_reads1 e2
    have k3 := unsqueeze0_reads1 e3
    refine ⟨⟨k2.1, fun s j => k2.2 s j⟩, ⟨k3.1, fun s j => (k3.2 s j).trans ?_⟩⟩
    simp only [fitCov, of_apply, ← pow_two]
    rfl
  | _ :: _ :: _ => simp at hh

/-- The predictive density as a normal distribution. -/
theorem predictive_dist {hidden : List ℕ} (hh : hidden.length ≤ 1) (h1 : hidden ≠ [1]) {x w : Tensor} {N : ℕ} {r : List ℕ} {F W}
    (hx : ReadsE x hidden (r ++ [N]) F) (hw : Reads0 w (r ++ [N]) W) :
    ∃ D, predictiveDensityT hidden x w = .ok D ∧ DistReads D hidden (predBatch r)
      (fun s => fitMean (fun n : Fin N => W (broadcastIndex r s ++ [n.val])) fun n => F (broadcastIndex r s ++ [n.val]))
      fun s => fitCov (fun n : Fin N => W (broadcastIndex r s ++ [n.val])) fun n => F (broadcastIndex r s ++ [n.val]) := by
  match hidden with
  | [] =>
    obtain ⟨loc, scale, e1, e2, e3⟩ := predictive_scalar hx hw
    refine ⟨_, e1, e2, e3.1, fun s => (e3.2 s).trans ?_⟩
    simp only [fitCov, of_apply, ← pow_two]
    rfl
  | [p] =>
    have hp : p ≠ 1 := fun h => h1 (by rw [h])
    obtain ⟨loc, cov, e1, e2, e3⟩ := predictive_vector hp hx.one hw
    exact ⟨_, e1, e2, e3⟩
  | _ :: _ :: _ => simp at hh

theorem gaussianLinear_reads (chol) {hidden obs : List ℕ} (hh : hidden.length ≤ 1) (ho : obs.length ≤ 1) (h1 : hidden ≠ [1])
    {N : ℕ} {r : List ℕ} {meanScale : Tensor → Except PyErr (Tensor × Tensor)} {yLp : Tensor → Except PyErr Tensor}
    {y x xNew w a b s : Tensor} {noise : List ℕ → ℝ} {ry rb ra rs : List ℕ} {Fx : List ℕ → Fin (dim hidden) → ℝ} {Fn W Fm Fs Fa Fo Fy Fb}
    {Q : (List ℕ → Fin (dim hidden) → ℝ) → (List ℕ → ℝ) → Prop}
    (hn : ReadsE xNew hidden (r ++ [N]) Fn) (hw : Reads0 w (r ++ [N]) W)
    (ha : ReadsA a hidden obs ra Fa) (hs : ReadsE s obs rs Fo) (hy : ReadsE y obs ry Fy) (hb : ReadsE b obs rb Fb)
    (hra : Sub ra (r ++ [1])) (hrs : Sub rs (r ++ [1])) (hry : Sub ry (r ++ [1])) (hrb : Sub rb (r ++ [1]))
    (hoff : obs ≠ [] → ry = [] ∧ rb = [])
    {m v mu sd : Tensor} (e1 : filterMoments hidden x w false false = .ok (m, v))
    (e3 : ReadsE v.unsqueeze0 hidden (r ++ [1]) fun s j => fitCov (fun n : Fin N => W (broadcastIndex r s ++ [n.val]))
        (fun n => Fx (broadcastIndex r s ++ [n.val])) j j)
    (e4 : meanScale m.unsqueeze0 = .ok (mu, sd)) (e5 : ReadsE mu hidden (r ++ [1]) Fm) (e6 : ReadsE sd hidden (r ++ [1]) Fs)
    (hyl : ∀ z X, ReadsE z hidden (r ++ [N]) X → ∃ t Y, yLp z = .ok t ∧ Reads0 t (r ++ [N]) Y ∧ Q X Y) :
    let var := fun i e => Fs i e ^ 2 + fitCov (fun n : Fin N => W (broadcastIndex r i ++ [n.val]))
        (fun n => Fx (broadcastIndex r i ++ [n.val])) e e
    let C := fun i => optimalCov (fun e => (var i e)⁻¹) (fun j => (Fo i j ^ 2)⁻¹) (Fa i)
    let K := fun i => optimalMean (Fy i - Fb i) (Fm i) (fun e => (var i e)⁻¹) (fun j => (Fo i j ^ 2)⁻¹) (Fa i)
    ∃ z l X Y, gaussianLinearSampleAndWeight chol hidden obs (r ++ [N]) meanScale yLp y x xNew w a b s noise = .ok (z, l) ∧
      ReadsE z hidden (r ++ [N]) X ∧ Q X Y ∧
      (∀ i, X i = K i + covFactor chol hidden (C i) *ᵥ fun j => noise (compIx hidden j.val ++ broadcastIndex (r ++ [N]) i)) ∧
      Reads0 l (r ++ [N]) fun i => Y i + evLogProb hidden (fitMean (fun n : Fin N => W (broadcastIndex r i ++ [n.val]))
          fun n => Fn (broadcastIndex r i ++ [n.val])) (fitCov (fun n : Fin N => W (broadcastIndex r i ++ [n.val]))
          fun n => Fn (broadcastIndex r i ++ [n.val])) (X i) - evLogProb hidden (K i) (C i) (X i) := by
  intro var C K
  obtain ⟨pv, rp, e7, e8, -, e9, e10⟩ := zipE (f := (· + ·)) hh (mapE (· ^ 2) e6) e3 (Sub.refl _) (Sub.refl _)
  obtain rfl := e8.antisymm e9
  obtain ⟨yb, D, f1, f2, hD⟩ := findOptimalDensity_dist hh ho e5 (mapE (·⁻¹) e10) ha (mapE (fun r => (r ^ 2)⁻¹) hs)
    hy hb hra hrs hry hrb hoff
  obtain ⟨D', f3, hD'⟩ := hD.expandBatch (Sub.append_one N r)
  obtain ⟨P, f4, hP⟩ := predictive_dist hh h1 hn hw
  obtain ⟨z, X, g1, g2, g3⟩ := hD'.sample' chol noise
  obtain ⟨ty, Y, y1, y2, hQ⟩ := hyl z X g2
  obtain ⟨tx, x1, x2⟩ := hP.logProb g2 (predBatch_sub N r)
  obtain ⟨l, l1, l2⟩ := weightWithKernel_reads g2 hD' (Sub.refl _) y1 y2 x1 x2
  refine ⟨z, l, X, Y, ?_, g2, hQ, g3, l2⟩
  unfold gaussianLinearSampleAndWeight
  simp only [e1, e4, e7, f1, f2, f3, f4, g1, l1, ok_bind]
  rfl

end Verif.Torch
