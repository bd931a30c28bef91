import Verif.Lemmas.LinearBatch

/-!
# The pre-weight of the linear proposal on batches, computed
-/

namespace Verif.Torch

open Matrix

theorem broadcastShape_self (S : List ℕ) : broadcastShape S S = some S := by
  obtain ⟨t, e, a1, -, a3⟩ := broadcastShape_sub (Sub.refl S) (Sub.refl S)
  rw [e, a1.antisymm a3]

theorem broadcastShape_of_sub {r S : List ℕ} (h : Sub r S) : broadcastShape r S = some S := by
  obtain ⟨t, e, -, a2, a3⟩ := broadcastShape_sub h (Sub.refl S)
  rw [e, a2.antisymm a3]

theorem normal_logProb_reads {S ry : List ℕ} {loc scale y : Tensor} {F G Y} (h1 : Reads0 loc S F) (h2 : Reads0 scale S G)
    (hy : Reads0 y ry Y) (hr : Sub ry S) :
    ∃ D z, Dist.mkNormal loc scale = .ok D ∧ D.logProb y = .ok z ∧ Reads0 z S fun i => normalLogProb (F i) (G i) (Y i) := by
  refine ⟨.normal (loc.expand S) (scale.expand S), ⟨S, fun i => normalLogProb (loc.val (broadcastIndex S (broadcastIndex S i)))
    (scale.val (broadcastIndex S (broadcastIndex S i))) (y.val (broadcastIndex ry i))⟩,
    by unfold Dist.mkNormal; rw [h1.1, h2.1, broadcastShape_self], ?_, rfl, fun i => ?_⟩
  · show (match broadcastShape y.shape S with
      | none => (.error .valueError : Except PyErr Tensor)
      | some s => (.ok ⟨s, fun i => normalLogProb (loc.val (broadcastIndex loc.shape (broadcastIndex S i)))
          (scale.val (broadcastIndex scale.shape (broadcastIndex S i))) (y.val (broadcastIndex y.shape i))⟩ : Except PyErr Tensor)) = _
    rw [hy.1, broadcastShape_of_sub hr, h1.1, h2.1]
  · dsimp only
    rw [broadcastIndex_trans (Sub.refl S), broadcastIndex_trans (Sub.refl S), broadcastIndex_trans hr, h1.2, h2.2, hy.2]

theorem mvn_logProb_reads {S : List ℕ} {q : ℕ} {loc cov y : Tensor} {F G} {Y : Fin q → ℝ} (h1 : Reads1 loc q S F)
    (h2 : Reads2 cov q q S G) (hy : y.shape = [q]) (hY : ∀ j : Fin q, y.val [j.val] = Y j) :
    ∃ D z, Dist.mkMvn loc cov = .ok D ∧ D.logProb y = .ok z ∧ Reads0 z S fun i => mvnLogProb (F i) (G i) Y := by
  obtain ⟨ls, lv⟩ := loc
  obtain ⟨cs, cv⟩ := cov
  obtain ⟨ys, yv⟩ := y
  obtain ⟨k1, h1⟩ := h1
  obtain ⟨k2, h2⟩ := h2
  subst k1 k2
  obtain rfl : ys = [q] := hy
  refine ⟨.mvn (Tensor.expand ⟨q :: S, lv⟩ (q :: S)) (Tensor.expand ⟨q :: q :: S, cv⟩ (q :: q :: S)),
    ⟨S, fun i => mvnLogProb (fun e : Fin q => lv (broadcastIndex (q :: S) (e :: broadcastIndex S i)))
      (of fun u v : Fin q => cv (broadcastIndex (q :: q :: S) (v :: u :: broadcastIndex S i))) fun e : Fin q => yv [e.val]⟩,
    by unfold Dist.mkMvn; simp only [broadcastShape_self], ?_, rfl, fun i => ?_⟩
  · unfold Dist.logProb
    simp only [Tensor.expand, if_true, broadcastShape]
    rfl
  · dsimp only
    congr 1
    · funext e
      rw [broadcastIndex_cons e.2, broadcastIndex_trans (Sub.refl S), broadcastIndex_trans (Sub.refl S)]
      exact h1 i e
    · ext u v
      show cv (broadcastIndex (q :: q :: S) (v :: u :: broadcastIndex S (broadcastIndex S i))) = _
      rw [broadcastIndex_cons v.2, broadcastIndex_cons u.2, broadcastIndex_trans (Sub.refl S), broadcastIndex_trans (Sub.refl S)]
      exact h2 i u v
    · funext e
      exact hY e

/-- The covariance of `pre_weight`. -/
theorem preWeightCov_reads {S : List ℕ} {hidden obs : List ℕ} (hh : hidden.length ≤ 1) (ho : obs.length ≤ 1)
    {hScale a s : Tensor} {ra rs : List ℕ} {Fs Fa Fo} (hsc : ReadsE hScale hidden S Fs) (ha : ReadsA a hidden obs ra Fa)
    (hs : ReadsE s obs rs Fo) (hra : Sub ra S) (hrs : Sub rs S) :
    ∃ aU aT dH dO tA tB cov,
      (if (obs.length == 0) = true then (if (hidden.length == 0) = true then a.unsqueeze1 else a).unsqueeze2
        else pure (if (hidden.length == 0) = true then a.unsqueeze1 else a)) = (.ok aU : Except PyErr Tensor) ∧
      aU.transpose = .ok aT ∧ (hScale.map (· ^ 2)).constructDiag hidden = .ok dH ∧ (s.map (· ^ 2)).constructDiag obs = .ok dO ∧
      aU.matmul dH = .ok tA ∧ tA.matmul aT = .ok tB ∧ Tensor.zip (· + ·) dO tB = .ok cov ∧
      Reads2 aU (dim obs) (dim hidden) ra Fa ∧
      Reads2 cov (dim obs) (dim obs) S fun i =>
        Verif.constructDiag (fun j => Fo i j ^ 2) + Fa i * Verif.constructDiag (fun e => Fs i e ^ 2) * (Fa i)ᵀ := by
  obtain ⟨aU, f1, haU⟩ := coefficientsE hh ho ha
  obtain ⟨aT, f2, haT⟩ := transpose_reads haU
  obtain ⟨dH, f3, hdH⟩ := diagE hh (mapE (· ^ 2) hsc)
  obtain ⟨dO, f4, hdO⟩ := diagE ho (mapE (· ^ 2) hs)
  obtain ⟨tA, rA, f5, -, k1, k2, htA⟩ := matmul_reads haU hdH hra (Sub.refl S)
  obtain rfl : S = rA := k1.antisymm k2
  obtain ⟨tB, rB, f6, k3, -, k4, htB⟩ := matmul_reads htA haT (Sub.refl S) hra
  obtain rfl : S = rB := k3.antisymm k4
  obtain ⟨cov, rC, f7, -, k5, k6, hcov⟩ := zip_reads2 (f := (· + ·)) hdO htB hrs (Sub.refl S)
  obtain rfl : S = rC := k5.antisymm k6
  exact ⟨aU, aT, dH, dO, tA, tB, cov, f1, f2, f3, f4, f5, f6, f7, haU, hcov⟩

theorem linearPreWeight_scalar {S : List ℕ} {y x hScale a b s : Tensor} {ry ra rb rs : List ℕ} {Fy Fx Fs Fa Fb Fo}
    (hx : ReadsE x [] S Fx) (hsc : ReadsE hScale [] S Fs) (ha : ReadsA a [] [] ra Fa) (hs : ReadsE s [] rs Fo) (hb : ReadsE b [] rb Fb)
    (hy : ReadsE y [] ry Fy) (hra : Sub ra S) (hrs : Sub rs S) (hrb : Sub rb S) (hry : Sub ry S) :
    ∃ z, linearPreWeight [] [] y x hScale a b s = .ok z ∧ Reads0 z S fun i =>
      normalLogProb (Fb i ix0 + Fa i ix0 ix0 * Fx i ix0) (Real.sqrt ((Verif.constructDiag (fun j => Fo i j ^ 2) +
        Fa i * Verif.constructDiag (fun e => Fs i e ^ 2) * (Fa i)ᵀ) ix0 ix0)) (Fy i ix0) := by
  obtain ⟨aU, aT, dH, dO, tA, tB, cov, f1, f2, f3, f4, f5, f6, f7, -, hcov⟩ := preWeightCov_reads (hidden := []) (obs := [])
    (by simp) (by simp) hsc ha hs hra hrs
  have ha0 : Reads0 a ra fun i => Fa i ix0 ix0 := ⟨ha.1, fun i => ha.2 i ix0 ix0⟩
  obtain ⟨m, rm, g1, -, k1, k2, hm⟩ := zip_reads0 (f := (· * ·)) (squeeze_reads1 (point_reads ha0)) hx.zero hra (Sub.refl S)
  obtain rfl : S = rm := k1.antisymm k2
  obtain ⟨l, rl, g2, -, k3, k4, hl⟩ := zip_reads0 (f := (· + ·)) hb.zero hm hrb (Sub.refl S)
  obtain rfl : S = rl := k3.antisymm k4
  obtain ⟨D, z, g3, g4, hz⟩ := normal_logProb_reads hl (map_reads0 Real.sqrt (corner_reads hcov)) hy.zero hry
  refine ⟨z, ?_, hz⟩
  unfold linearPreWeight
  have e0 : ((([] : List ℕ).length == 0) = true) = True := by simp
  simp only [e0, if_true] at f1 ⊢
  simp only [f1, f2, f3, f4, f5, f6, f7, g1, g2, g3, g4, ok_bind]

theorem linearPreWeight_vector {S : List ℕ} {p q : ℕ} {y x hScale a b s : Tensor} {ra rb rs : List ℕ} {Fx Fs Fa Fb Fo}
    {fy : Fin q → ℝ} (hx : ReadsE x [p] S Fx) (hsc : ReadsE hScale [p] S Fs) (ha : ReadsA a [p] [q] ra Fa) (hs : ReadsE s [q] rs Fo)
    (hb : ReadsE b [q] rb Fb) (hy : y.shape = [q]) (hy' : ∀ j : Fin q, y.val [j.val] = fy j) (hra : Sub ra S) (hrs : Sub rs S)
    (hrb : Sub rb S) :
    ∃ z, linearPreWeight [p] [q] y x hScale a b s = .ok z ∧ Reads0 z S fun i =>
      mvnLogProb (Fb i + Fa i *ᵥ Fx i) (Verif.constructDiag (fun j => Fo i j ^ 2) +
        Fa i * Verif.constructDiag (fun e => Fs i e ^ 2) * (Fa i)ᵀ) fy := by
  obtain ⟨aU, aT, dH, dO, tA, tB, cov, f1, f2, f3, f4, f5, f6, f7, haU, hcov⟩ := preWeightCov_reads (hidden := [p]) (obs := [q])
    (by simp) (by simp) hsc ha hs hra hrs
  obtain ⟨m, rm, g1, -, k1, k2, hm⟩ := matmul_reads haU (column_reads hx.one) hra (Sub.refl S)
  obtain rfl : S = rm := k1.antisymm k2
  obtain ⟨l, rl, g2, -, k3, k4, hl⟩ := zip_reads1 (f := (· + ·)) hb.one (squeeze_reads hm) hrb (Sub.refl S)
  obtain rfl : S = rl := k3.antisymm k4
  obtain ⟨D, z, g3, g4, hz⟩ := mvn_logProb_reads hl hcov hy hy'
  refine ⟨z, ?_, hz.1, fun i => (hz.2 i).trans ?_⟩
  · unfold linearPreWeight
    have e0 : ∀ r : ℕ, ((([r] : List ℕ).length == 0) = true) = False := by simp
    simp only [e0, if_false] at f1 ⊢
    simp only [f1, f2, f3, f4, f5, f6, f7, g1, g2, g3, g4, ok_bind]
  · rfl

end Verif.Torch
