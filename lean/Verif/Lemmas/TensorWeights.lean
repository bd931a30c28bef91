import Verif.Lemmas.TensorGaussian
import Verif.Lemmas.PreWeightBatch
import Verif.Model.TensorWeights
import Verif.Spec.TensorWeights

/-!
# Draws and weights of the linear proposals on tensors
-/

namespace Verif.Torch

open Matrix

/-- A normal distribution with mean `M` and covariance `C` at an index of the batch. -/
def DistReads : (D : Dist) → (ev S : List ℕ) → (List ℕ → Fin (dim ev) → ℝ) → (List ℕ → Matrix (Fin (dim ev)) (Fin (dim ev)) ℝ) → Prop
  | .normal loc scale, [], S, M, C => Reads0 loc S (fun i => M i ix0) ∧ Reads0 scale S fun i => Real.sqrt (C i ix0 ix0)
  | .mvn loc cov, [p], S, M, C => Reads1 loc p S M ∧ Reads2 cov p p S C
  | _, _, _, _, _ => False

/-- Log-density of a normal distribution, as a number or a vector. -/
noncomputable def evLogProb (ev : List ℕ) (M : Fin (dim ev) → ℝ) (C : Matrix (Fin (dim ev)) (Fin (dim ev)) ℝ) (x : Fin (dim ev) → ℝ) : ℝ :=
  if (ev.length == 0) = true then ∑ e, normalLogProb (M e) (Real.sqrt (C e e)) (x e) else mvnLogProb M C x

theorem DistReads.batchShape : ∀ {D ev S M C}, DistReads D ev S M C → D.batchShape = S
  | .normal _ _, [], _, _, _, h => h.1.1
  | .mvn loc _, [_], _, _, _, h => by
    show loc.shape.tail = _
    rw [h.1.1]
    rfl
  | .mvn _ _, [], _, _, _, h => h.elim
  | .normal _ _, _ :: _, _, _, _, h => h.elim
  | .mvn _ _, _ :: _ :: _, _, _, _, h => h.elim

theorem DistReads.eventShape : ∀ {D ev S M C}, DistReads D ev S M C → D.eventShape = ev
  | .normal _ _, [], _, _, _, _ => rfl
  | .mvn loc _, [_], _, _, _, h => by
    show loc.shape.take 1 = _
    rw [h.1.1]
    rfl
  | .mvn _ _, [], _, _, _, h => h.elim
  | .normal _ _, _ :: _, _, _, _, h => h.elim
  | .mvn _ _, _ :: _ :: _, _, _, _, h => h.elim

theorem broadcastShape_of_sub' {r S : List ℕ} (h : Sub r S) : broadcastShape S r = some S := by
  obtain ⟨t, h1, h2, -, h3⟩ := broadcastShape_sub (Sub.refl S) h
  rw [h1, h2.antisymm h3]

theorem DistReads.logProb {x : Tensor} : ∀ {D : Dist} {ev R S : List ℕ} {M C X}, DistReads D ev R M C → ReadsE x ev S X → Sub R S →
    ∃ z, D.logProb x = .ok z ∧ Reads0 z S fun i => evLogProb ev (M i) (C i) (X i)
  | .normal loc scale, [], R, S, M, C, X, h, hx, hR => by
    refine ⟨⟨S, fun i => normalLogProb (loc.val (broadcastIndex R i)) (scale.val (broadcastIndex R i)) (x.val (broadcastIndex S i))⟩,
      ?_, rfl, fun i => ?_⟩
    · have e : x.shape = S := hx.1
      unfold Dist.logProb
      dsimp only
      rw [e, h.1.1, broadcastShape_of_sub' hR]
    · dsimp only
      rw [broadcastIndex_trans hR, h.1.2, h.2.2, broadcastIndex_trans (Sub.refl S), hx.zero.2]
      show _ = ∑ e : Fin 1, _
      rw [Fin.sum_univ_one]
      rfl
  | .mvn loc cov, [p], R, S, M, C, X, h, hx, hR => by
    obtain ⟨⟨h1, h2⟩, h3, h4⟩ := h
    obtain ⟨ls, lv⟩ := loc
    obtain ⟨xs, xv⟩ := x
    obtain rfl : ls = p :: R := h1
    obtain rfl : xs = p :: S := hx.1
    refine ⟨⟨S, fun i => mvnLogProb (fun e : Fin p => lv (e :: broadcastIndex R i))
      (of fun u v : Fin p => cov.val (v :: u :: broadcastIndex R i)) fun e : Fin p => xv (e :: broadcastIndex S i)⟩, ?_, rfl, fun i => ?_⟩
    · unfold Dist.logProb
      simp only [if_true, broadcastShape_of_sub' hR]
    · dsimp only
      rw [broadcastIndex_trans hR, broadcastIndex_trans (Sub.refl S)]
      show mvnLogProb _ _ _ = mvnLogProb _ _ _
      congr 1
      · exact funext fun e => h2 i e
      · ext u v
        exact h4 i u v
      · exact funext fun e => hx.2 i e
  | .mvn _ _, [], _, _, _, _, _, h, _, _ => h.elim
  | .normal _ _, _ :: _, _, _, _, _, _, h, _, _ => h.elim
  | .mvn _ _, _ :: _ :: _, _, _, _, _, _, h, _, _ => h.elim

theorem DistReads.expandBatch : ∀ {D : Dist} {ev R S : List ℕ} {M C}, DistReads D ev R M C → Sub R S →
    ∃ D', D.expandBatch S = .ok D' ∧ DistReads D' ev S M C
  | .normal loc scale, [], R, S, M, C, h, hR => by
    have e6 : Sub loc.shape S := by rw [h.1.1]; exact hR
    have e7 : Sub scale.shape S := by rw [h.2.1]; exact hR
    refine ⟨.normal (loc.expand S) (scale.expand S), ?_, expand_reads0 h.1 hR, expand_reads0 h.2 hR⟩
    unfold Dist.expandBatch
    simp only [expandTo_eq e6, expandTo_eq e7]
    rfl
  | .mvn loc cov, [p], R, S, M, C, h, hR => by
    have e6 : Sub loc.shape (p :: S) := by rw [h.1.1]; exact ⟨Or.inl rfl, hR⟩
    have e7 : Sub cov.shape (p :: p :: S) := by rw [h.2.1]; exact ⟨Or.inl rfl, Or.inl rfl, hR⟩
    have e8 : loc.shape.take 1 ++ S = p :: S := by rw [h.1.1]; rfl
    have e9 : cov.shape.take 2 ++ S = p :: p :: S := by rw [h.2.1]; rfl
    refine ⟨.mvn (loc.expand (p :: S)) (cov.expand (p :: p :: S)), ?_, expand_reads1 h.1 hR, expand_reads2 h.2 hR⟩
    unfold Dist.expandBatch
    simp only [e8, e9, expandTo_eq e6, expandTo_eq e7]
    rfl
  | .mvn _ _, [], _, _, _, _, h, _ => h.elim
  | .normal _ _, _ :: _, _, _, _, _, h, _ => h.elim
  | .mvn _ _, _ :: _ :: _, _, _, _, _, h, _ => h.elim

theorem DistReads.sample (chol) (noise : List ℕ → ℝ) : ∀ {D : Dist} {ev S : List ℕ} {M C}, DistReads D ev S M C →
    ∃ z, D.sample chol noise = .ok z ∧
      ReadsE z ev S fun i => M i + covFactor chol ev (C i) *ᵥ fun j => noise (compIx ev j.val ++ broadcastIndex S i)
  | .normal loc scale, [], S, M, C, h => by
    have e4 : Reads0 (⟨S, noise⟩ : Tensor) S fun s => noise (broadcastIndex S s) := ⟨rfl, fun _ => rfl⟩
    obtain ⟨z1, t1, g1, g2, -, g3, g4⟩ := zip_reads0 (f := (· * ·)) (expand_reads0 h.2 (Sub.refl S)) e4 (Sub.refl _) (Sub.refl _)
    obtain rfl := g2.antisymm g3
    obtain ⟨z2, t2, g5, g6, -, g7, g8⟩ := zip_reads0 (f := (· + ·)) (expand_reads0 h.1 (Sub.refl S)) g4 (Sub.refl _) (Sub.refl _)
    obtain rfl := g6.antisymm g7
    refine ⟨z2, ?_, g8.1, fun i j => (g8.2 i).trans ?_⟩
    · have e6 : Sub loc.shape S := by rw [h.1.1]; exact Sub.refl S
      have e7 : Sub scale.shape S := by rw [h.2.1]; exact Sub.refl S
      unfold Dist.sample
      rw [DistReads.batchShape h]
      unfold Dist.expandSample
      have e5 : (Dist.normal loc scale).eventShape ++ S = S := rfl
      simp only [e5, expandTo_eq e6, expandTo_eq e7, ok_bind, g1, g5]
    · obtain rfl := eq_ix0 j
      show _ = M i ix0 + ∑ k : Fin 1, Real.sqrt (C i ix0 k) * noise (broadcastIndex S i)
      rw [Fin.sum_univ_one]
      rfl
  | .mvn loc cov, [p], S, M, C, h => by
    obtain ⟨tril, h4, h5⟩ := cholesky_reads chol h.2
    have e4 : Reads1 (⟨p :: S, noise⟩ : Tensor) p S fun s e => noise (e.val :: broadcastIndex S s) := ⟨rfl, fun _ _ => rfl⟩
    obtain ⟨z1, t1, g1, g2, -, g3, g4⟩ := matmul_reads h5 (column_reads e4) (Sub.refl _) (Sub.refl _)
    obtain rfl := g2.antisymm g3
    obtain ⟨z2, t2, g5, g6, -, g7, g8⟩ := zip_reads1 (f := (· + ·)) (expand_reads1 h.1 (Sub.refl _)) (squeeze_reads g4) (Sub.refl _) (Sub.refl _)
    obtain rfl := g6.antisymm g7
    refine ⟨z2, ?_, g8.1, fun i j => (g8.2 i j).trans rfl⟩
    unfold Dist.sample
    rw [DistReads.batchShape h]
    unfold Dist.expandSample
    have e5 := DistReads.eventShape h
    have e6 : loc.shape.take 1 = [p] := by rw [h.1.1]; rfl
    have e7 : Sub loc.shape (p :: S) := by rw [h.1.1]; exact Sub.refl _
    simp only [e5, e6, List.singleton_append, expandTo_eq e7, h4, ok_bind, g1, g5]
  | .mvn _ _, [], _, _, _, h => h.elim
  | .normal _ _, _ :: _, _, _, _, h => h.elim
  | .mvn _ _, _ :: _ :: _, _, _, _, h => h.elim

theorem DistReads.sample' (chol) (noise : List ℕ → ℝ) {D : Dist} {ev S : List ℕ} {M C} (h : DistReads D ev S M C) :
    ∃ z X, D.sample chol noise = .ok z ∧ ReadsE z ev S X ∧
      ∀ i, X i = M i + covFactor chol ev (C i) *ᵥ fun j => noise (compIx ev j.val ++ broadcastIndex S i) := by
  obtain ⟨z, h1, h2⟩ := h.sample chol noise
  exact ⟨z, _, h1, h2, fun _ => rfl⟩

theorem distE_dist {hidden S : List ℕ} (hh : hidden.length ≤ 1) {mean cov : Tensor} {F G} (hm : Reads1 mean (dim hidden) S F)
    (hc : Reads2 cov (dim hidden) (dim hidden) S G) :
    ∃ D, (if (hidden.length == 0) = true then Dist.mkNormal mean.squeeze1 (cov.corner.map Real.sqrt) else Dist.mkMvn mean cov) = .ok D ∧
      DistReads D hidden S F G := by
  match hidden with
  | [] =>
    have h1 := squeeze_reads1 hm
    have h2 := map_reads0 Real.sqrt (corner_reads hc)
    refine ⟨.normal (mean.squeeze1.expand S) ((cov.corner.map Real.sqrt).expand S), ?_, expand_reads0 h1 (Sub.refl S), expand_reads0 h2 (Sub.refl S)⟩
    show Dist.mkNormal _ _ = _
    unfold Dist.mkNormal
    rw [h1.1, h2.1, broadcastShape_self]
  | [p] =>
    refine ⟨.mvn (mean.expand (p :: S)) (cov.expand (p :: p :: S)), ?_, expand_reads1 hm (Sub.refl S), expand_reads2 hc (Sub.refl S)⟩
    show Dist.mkMvn _ _ = _
    obtain ⟨ls, lv⟩ := mean
    obtain ⟨cs, cv⟩ := cov
    obtain ⟨q1, -⟩ := hm
    obtain ⟨q2, -⟩ := hc
    subst q1 q2
    unfold Dist.mkMvn
    simp only [broadcastShape_self]
    rfl
  | _ :: _ :: _ => simp at hh

theorem findOptimalDensity_dist {S : List ℕ} {hidden obs : List ℕ} (hh : hidden.length ≤ 1) (ho : obs.length ≤ 1)
    {y b loc hVarInv oVarInv a : Tensor} {ry rb ra rs : List ℕ} {Fm Fh Fa Fo Fy Fb}
    (hm : ReadsE loc hidden S Fm) (hv : ReadsE hVarInv hidden S Fh) (ha : ReadsA a hidden obs ra Fa) (hs : ReadsE oVarInv obs rs Fo)
    (hy : ReadsE y obs ry Fy) (hb : ReadsE b obs rb Fb) (hra : Sub ra S) (hrs : Sub rs S) (hry : Sub ry S) (hrb : Sub rb S)
    (hoff : obs ≠ [] → ry = [] ∧ rb = []) :
    ∃ yb D, Tensor.zip (· - ·) y b = .ok yb ∧ findOptimalDensity hidden obs yb loc hVarInv oVarInv a = .ok D ∧
      DistReads D hidden S
        (fun i => optimalCov (Fh i) (Fo i) (Fa i) *ᵥ ((fun e => Fh i e * Fm i e) + (Fa i)ᵀ *ᵥ Verif.constructDiag (Fo i) *ᵥ (Fy i - Fb i)))
        fun i => optimalCov (Fh i) (Fo i) (Fa i) := by
  obtain ⟨yb, r2, f1, -, -, hr2, hyb⟩ := zipE (f := (· - ·)) ho hy hb hry hrb
  have hoff' : obs ≠ [] → r2 = [] := by
    intro h
    obtain ⟨rfl, rfl⟩ := hoff h
    have := hyb.1
    unfold Tensor.zip at f1
    rw [hy.1, hb.1, broadcastShape_self] at f1
    have f2 := congrArg Tensor.shape (Except.ok.inj f1)
    dsimp only at f2
    rw [this] at f2
    exact (List.append_cancel_left f2).symm
  obtain ⟨O, f2, hO⟩ := diagE ho hs
  obtain ⟨t2, r3, f6, hr3, ht2⟩ := innovationE ho hO hyb hrs hr2 hoff'
  obtain ⟨H, f3, hH⟩ := diagE hh hv
  obtain ⟨cU, f4, hcU⟩ := coefficientsE hh ho ha
  obtain ⟨t1, r1, f5, h51, -, hr1, ht1⟩ := zipE (f := (· * ·)) hh hv hm (Sub.refl S) (Sub.refl S)
  obtain rfl : S = r1 := h51.antisymm hr1
  obtain ⟨cT, tA, tB, tC, cov, t3, sm, mn, e1, e2, e3, e4, e5, e6, e7, e8, hcov, hmean⟩ :=
    core_reads hcU hO hH (vectorE hh ht1) ht2 hra hrs hr3
  obtain ⟨D, f7, hD⟩ := distE_dist hh hmean hcov
  refine ⟨yb, D, f1, ?_, hD⟩
  unfold findOptimalDensity
  simp only [f2, f3, f4, f5, f6, e1, e2, e3, e4, e5, e6, e7, e8, f7, ok_bind]

/-- The weight is computed from numbers for every particle. -/
theorem weightWithKernel_reads {yLp xLp : Tensor → Except PyErr Tensor} {xNew ty tx : Tensor} {kernel : Dist} {ev R S : List ℕ} {X M C Y T}
    (hx : ReadsE xNew ev S X) (hk : DistReads kernel ev R M C) (hR : Sub R S) (hy : yLp xNew = .ok ty) (hy' : Reads0 ty S Y)
    (ht : xLp xNew = .ok tx) (ht' : Reads0 tx S T) :
    ∃ z, weightWithKernel yLp xLp xNew kernel = .ok z ∧ Reads0 z S fun i => Y i + T i - evLogProb ev (M i) (C i) (X i) := by
  obtain ⟨l, h1, h2⟩ := hk.logProb hx hR
  obtain ⟨z1, t1, g1, g2, -, g3, g4⟩ := zip_reads0 (f := (· + ·)) hy' ht' (Sub.refl _) (Sub.refl _)
  obtain rfl := g2.antisymm g3
  obtain ⟨z2, t2, g5, g6, -, g7, g8⟩ := zip_reads0 (f := (· - ·)) g4 h2 (Sub.refl _) (Sub.refl _)
  obtain rfl := g6.antisymm g7
  refine ⟨z2, ?_, g8⟩
  unfold weightWithKernel
  simp only [hy, ht, h1, g1, g5, ok_bind]

end Verif.Torch
