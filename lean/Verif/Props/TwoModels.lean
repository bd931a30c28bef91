import Verif.Lemmas.TwoModels
import Verif.Props.Unbiased
import Verif.Props.TensorResampling

/-!
# Property C155: the model on tensors and the model on functions are the same filters
-/

namespace Verif.Props

open Verif Verif.Torch MeasureTheory ProbabilityTheory
open Verif.Spec (UnbiasedResampler UnbiasedLogResampler DrawsInitial DrawsTransitions ProperProposal Draws lik slots)

variable {N B : ℕ} {Y Ω : Type}

/-- `SISR.predict`. -/
theorem C155_sisr_predict (hN : 0 < N) (ev : List ℕ) (hh : ev.length ≤ 1) (M : ParticleModel N B (dim ev) ℝ Y Ω) (ω : Ω)
    (res : Tensor → Except PyErr Index) (hr : SameColumns ev M ω res) (c : CorrectionT) (s : PCorr N B (dim ev) ℝ) (hc : HoldsC ev c s) :
    ∃ p, Torch.sisrPredict ev M.threshold res c.x c.w c.indices = .ok p ∧ HoldsP ev p (M.sisrPredict s ω).1 := by
  classical
  obtain ⟨A, hA, hM⟩ := hr
  obtain ⟨⟨x, t⟩, w, ll, prev⟩ := s
  obtain ⟨hx, hw, -, hq⟩ := hc
  dsimp only at hx hw hq
  set W : Fin N → Fin B → ℝ := fun n b => c.w.val [b.val, n.val] with hW
  have ew : w = fun n b => .fin (W n b) := eq_fin hw.2
  subst ew
  obtain ⟨p, low, p1, p2, p3, p4, p5, p6⟩ := C148_batch N B hN ev hh M.threshold res A hA c.x c.w c.indices _ _ _ (partG_of hx)
    (weightG_of hw.1) (indexG_of hq)
  set m := Unbiased.maskOf M.threshold W with hm
  have hlow (b : Fin B) : m b = low b.val := by
    rw [Bool.eq_iff_iff, p2 b b.2, hm]
    unfold Unbiased.maskOf
    rw [decide_eq_true_iff, ess_sm]
    rfl
  have hN' : (0 : ℝ) < 1 / N := by positivity
  letI : MeasurableSpace Ω := ⊤
  have e : M.sisrPredict ⟨⟨x, t⟩, fun n b => .fin (W n b), ll, prev⟩ ω = _ := Unbiased.sisrPredict_unfold M _ ω m (by
    simp only [Unbiased.normalize2_fin]
    exact Unbiased.sisrPredict_mask M hN W)
  simp only [Unbiased.normalize2_fin] at e
  have no (b : Fin B) (h : m b = false) : ¬ low ([b.val].headD 0) = true := by
    rw [List.headD_cons, ← hlow, h]
    exact Bool.false_ne_true
  have yes (b : Fin B) (h : m b = true) : low ([b.val].headD 0) = true := by rw [List.headD_cons, ← hlow, h]
  have xn (n : Fin N) (b : Fin B) (j) (h : m b = false) : p.x.val (compIx ev j.val ++ [b.val, n.val]) = x n b j :=
    ((p3.2 n _ (inB b) j).trans (congrFun (if_neg (no b h)) j)).trans (congrFun (onIx_one (x n) _ b) j)
  have xy (n : Fin N) (b : Fin B) (j) (h : m b = true) : p.x.val (compIx ev j.val ++ [b.val, n.val]) =
      x (A ((List.range b.val).filter low).length (softmaxOf fun k => W k b) n) b j :=
    ((p3.2 n _ (inB b) j).trans (congrFun (if_pos (yes b h)) j)).trans (congrFun (onIx_one (x _) _ b) j)
  have wn (n : Fin N) (b : Fin B) (h : m b = false) : p.weights.val [b.val, n.val] = W n b := (p4.2 n _ (inB b)).trans (if_neg (no b h))
  have wy (n : Fin N) (b : Fin B) (h : m b = true) : p.weights.val [b.val, n.val] = 0 := (p4.2 n _ (inB b)).trans (if_pos (yes b h))
  have un (n : Fin N) (b : Fin B) (h : m b = false) : p.normalized.val [b.val, n.val] = softmaxOf (fun k => W k b) n :=
    (p5.2 n _ (inB b)).trans (if_neg (no b h))
  have uy (n : Fin N) (b : Fin B) (h : m b = true) : p.normalized.val [b.val, n.val] = 1 / N := (p5.2 n _ (inB b)).trans (if_pos (yes b h))
  have qn (n : Fin N) (b : Fin B) (h : m b = false) : p.indices.val [b.val, n.val] = (prev n b).val :=
    (p6.2 n _ (inB b)).trans (congrArg Fin.val ((if_neg (no b h)).trans (onIx_one (prev n) _ b)))
  have qy (n : Fin N) (b : Fin B) (h : m b = true) : p.indices.val [b.val, n.val] =
      (A ((List.range b.val).filter low).length (softmaxOf fun k => W k b) n).val :=
    (p6.2 n _ (inB b)).trans (congrArg Fin.val (if_pos (yes b h)))
  have hpos : ∀ (n : Fin N) (b : Fin B), 0 < p.normalized.val [b.val, n.val] := fun n b => by
    cases h : m b
    · exact (softmaxOf_pos _ n).trans_eq (un n b h).symm
    · exact hN'.trans_eq (uy n b h).symm
  refine ⟨p, p1, ?_⟩
  rw [e]
  by_cases hall : ∀ b, m b = false
  · rw [if_pos hall]
    exact ⟨⟨p3.1, fun n b j => xn n b j (hall b)⟩, ⟨p4.1, fun n b => congrArg XF.fin (wn n b (hall b)).symm⟩,
      ⟨p5.1, fun n b => congrArg XF.fin (un n b (hall b)).symm⟩, hpos, ⟨p6.1, fun n b => qn n b (hall b)⟩⟩
  · rw [if_neg hall]
    have hsel (n : Fin N) (b : Fin B) (h : m b = true) :
        (M.resampler (fun i j => XF.fin (Unbiased.sm W ((maskCols m).get j) i)) true ω).1 n ⟨colRank m b, colRank_lt m b h⟩ =
          A ((List.range b.val).filter low).length (softmaxOf fun k => W k b) n := by
      refine (hM _ (fun i j => Unbiased.sm W ((maskCols m).get j) i) n _).trans ?_
      dsimp only
      rw [maskCols_get m b h, countP_finRange low b.val b.2.le m hlow]
      exact rfl
    refine ⟨⟨p3.1, fun n b j => ?_⟩, ⟨p4.1, fun n b => ?_⟩, ⟨p5.1, fun n b => ?_⟩, hpos, ⟨p6.1, fun n b => ?_⟩⟩
    · dsimp only
      rw [maskedScatter_eq]
      by_cases h : m b = true
      · rw [dif_pos h, xy n b j h, hsel n b h, maskCols_get m b h]
      · rw [dif_neg h, xn n b j (Bool.eq_false_iff.2 h)]
    · dsimp only
      cases h : m b
      · rw [if_neg Bool.false_ne_true, wn n b h]
      · rw [if_pos rfl, wy n b h]
    · dsimp only
      cases h : m b
      · rw [if_neg Bool.false_ne_true, un n b h]
        exact rfl
      · rw [if_pos rfl, uy n b h]
    · dsimp only
      rw [maskedScatter_eq]
      by_cases h : m b = true
      · rw [dif_pos h, qy n b h, hsel n b h]
      · rw [dif_neg h, qn n b (Bool.eq_false_iff.2 h)]

/-- `SISR.correct`. -/
theorem C155_sisr_correct (hN : 0 < N) (ev : List ℕ) (M : ParticleModel N B (dim ev) ℝ Y Ω) (y : Y) (ω : Ω) (p : PredictionT)
    (q : PPred N B (dim ev) ℝ) (hp : HoldsP ev p q) (f : Tensor → Tensor → Except PyErr (Tensor × Tensor))
    (hf : SameProposal ev M y q.prevX.time ω f) :
    ∃ c, Torch.sisrCorrect f p = .ok c ∧ HoldsC ev c (M.sisrCorrect y q ω).1 := by
  obtain ⟨S, V, f1, f2⟩ := hf
  obtain ⟨c, c1, c2, c3, c4, c5, c6⟩ := C149_sisr_correct N hN ev [B] f S V f1 p _ _ _ (partG_of hp.x) (weightG_of hp.w.1)
    (weightG_of hp.nw.1) fun n b hb => by
      obtain ⟨k, rfl, hk⟩ := inShape_one.1 hb
      exact hp.pos n ⟨k, hk⟩
  have g := f2 q _ rfl hp.nw.2
  have cx (b : Fin B) : (fun k : Fin N => onIx (q.prevX.value k) (fun _ => (0 : ℝ)) [b.val]) = fun k => q.prevX.value k b :=
    funext fun k => onIx_one _ _ b
  set v : Fin N → Fin B → ℝ := fun n b => V n [b.val] (fun k => q.prevX.value k b) fun k => p.normalized.val [b.val, k.val] with hv
  refine ⟨c, c1, ?_⟩
  have e : (M.sisrCorrect y q ω).1 = ⟨⟨(M.sampleValues y q ω).1.1, q.prevX.time + M.kind.increment⟩,
      fun n b => .fin (v n b + p.weights.val [b.val, n.val]), fun b => .fin (Real.log (∑ n, p.normalized.val [b.val, n.val] * Real.exp (v n b))),
      q.idx⟩ := by
    unfold ParticleModel.sisrCorrect ParticleModel.sampleAndWeight PCorr.mk'
    dsimp only
    rw [show (M.sampleValues y q ω).1.2 = fun n b => .fin (v n b) from eq_fin fun n b => (g n b).2, eq_fin hp.w.2, eq_fin hp.nw.2]
    simp only [XF.fin_add, Unbiased.normalize2_fin]
    congr 1
    funext b
    exact loglik_weighted hN v (fun n b => p.normalized.val [b.val, n.val]) b fun n => hp.pos n b
  rw [e]
  refine ⟨⟨c3.1, fun n b j => ?_⟩, ⟨c4.1, fun n b => ?_⟩, ⟨c5, fun b => ?_⟩, ⟨?_, fun n b => ?_⟩⟩
  · refine (c3.2 n _ (inB b) j).trans ?_
    dsimp only
    rw [cx, (g n b).1]
    exact rfl
  · refine congrArg XF.fin (Eq.symm ((c4.2 n _ (inB b)).trans ?_))
    dsimp only
    rw [cx]
    exact rfl
  · refine congrArg XF.fin (Eq.symm ((c6 _ (inB b)).trans ?_))
    rw [cx]
    exact rfl
  · rw [c2, hp.idx.1]
  · rw [c2]
    exact hp.idx.2 n b

/-- `APF.predict`. -/
theorem C155_apf_predict (hN : 0 < N) (ev : List ℕ) (M : ParticleModel N B (dim ev) ℝ Y Ω) (ω : Ω) (c : CorrectionT)
    (s : PCorr N B (dim ev) ℝ) (hc : HoldsC ev c s) :
    ∃ p, Torch.apfPredict [B] N c.x c.w = .ok p ∧ HoldsP ev p (M.apfPredict s ω).1 := by
  obtain ⟨v, v1, v2, v3⟩ := normalized_holds hN hc.w.1
  refine ⟨⟨c.x, c.w, v, ⟨[B, N], fun i => (fun i : List ℕ => i.tail.headD 0) (broadcastIndex [1, N] i)⟩⟩, ?_, ?_⟩
  · unfold Torch.apfPredict
    simp only [v1, ok_bind]
    rw [v2]
    simp [Index.expandTo, Index.unsqueeze1, broadcastShape]
  · unfold ParticleModel.apfPredict
    rw [eq_fin hc.w.2, Unbiased.normalize2_fin]
    refine ⟨hc.x, ⟨hc.w.1, fun _ _ => rfl⟩, ⟨v2, fun n b => congrArg XF.fin (v3 n b).symm⟩, fun n b => ?_, ⟨rfl, fun n b => ?_⟩⟩
    · exact (Unbiased.sm_pos _ b n).trans_eq (v3 n b).symm
    · have := n.2
      simp [broadcastIndex]
      omega

/-- `APF.correct`; the draws use the generator state that resampling leaves. -/
theorem C155_apf_correct (hN : 0 < N) (ev : List ℕ) (hh : ev.length ≤ 1) (M : ParticleModel N B (dim ev) ℝ Y Ω) (y : Y) (ω : Ω)
    (p : PredictionT) (q : PPred N B (dim ev) ℝ) (hp : HoldsP ev p q) (res : Tensor → Except PyErr Index) (hr : SameScheme ev M ω res)
    (pre : Tensor → Except PyErr Tensor) (hpre : SamePre ev M y q.prevX.time pre) (f : Tensor → Tensor → Except PyErr (Tensor × Tensor))
    (hf : SameProposal ev M y q.prevX.time (M.resampler (fun i b => M.preWeight y q.prevX i b + q.w i b) false ω).2 f) :
    ∃ c, Torch.apfCorrect res pre f p = .ok c ∧ HoldsC ev c (M.apfCorrect y q ω).1 := by
  obtain ⟨A, hA, a2⟩ := hr
  obtain ⟨P, hP, b2⟩ := hpre
  obtain ⟨S, V, hV, f2⟩ := hf
  have hN' : (0 : ℝ) < N := by exact_mod_cast hN
  obtain ⟨t, t1, t2⟩ := hP p.x _ (partG_of hp.x)
  obtain ⟨r, r1, r2⟩ := t2.zipWith (· + ·) (weightG_of hp.w.1)
  obtain ⟨idx, d1, d2⟩ := hA r _ r2
  obtain ⟨x', y1, y2⟩ := batchedGather_ok hh (partG_of hp.x) d2
  have eq : WeightG (⟨r.shape, fun _ => 1 / t.shape.getLastD 0⟩ : Tensor) [B] fun (_ : Fin N) _ => (1 / N : ℝ) :=
    ⟨r2.1, fun _ _ _ => by dsimp only; rw [t2.1, getLastD_concat]⟩
  obtain ⟨z, w', e1, e2, e3⟩ := hV _ _ _ _ y2 eq
  obtain ⟨g, g1, g2⟩ := gatherWeight_ok t2 d2
  obtain ⟨u, s1, s2⟩ := e3.zipWith (· - ·) g2
  obtain ⟨l, l1, l2, l3⟩ := logLikelihoodT_ok s2 none (U := fun _ _ => 1 / N) (.inl ⟨rfl, fun _ _ => rfl⟩) fun b hb =>
    Finset.sum_pos (fun n _ => mul_pos (by positivity) (Real.exp_pos _)) ⟨⟨0, hN⟩, Finset.mem_univ _⟩
  obtain ⟨m, m1, m2⟩ := (weightG_of (N := N) hp.nw.1).zipWith (· * ·) (t2.map Real.exp)
  obtain ⟨k, k1, k2, k3⟩ := zip_batch (x := l) (y := m.sum0.map Real.log) ⟨l2, l3⟩ ⟨m2.sum0.1, fun b hb => congrArg Real.log (m2.sum0.2 b hb)⟩
  -- the same numbers as functions of the filter
  set h : Fin N → Fin B → ℝ := fun n b => P n [b.val] fun k => q.prevX.value k b with hh'
  set a : Fin N → Fin B → Fin N := fun n b => A [b.val] (fun k => h k b + p.weights.val [b.val, k.val]) n with ha
  set v : Fin N → Fin B → ℝ := fun n b =>
    V n [b.val] (fun k => q.prevX.value (a k b) b) (fun _ => 1 / N) - h (a n b) b with hv
  have hpre : M.preWeight y q.prevX = fun n b => .fin (h n b) := eq_fin fun n b => b2 _ rfl n b
  have hsel : (M.resampler (fun i b => M.preWeight y q.prevX i b + q.w i b) false ω).1 = a := by
    rw [hpre, eq_fin hp.w.2]
    simp only [XF.fin_add]
    funext n b
    exact a2 (fun n b => h n b + p.weights.val [b.val, n.val]) n b
  have gg := f2 ⟨⟨fun i b => q.prevX.value (a i b) b, q.prevX.time⟩, fun _ _ => XF.fin 0, fun _ _ => XF.fin (1 / (N : ℝ)), a⟩
    (fun _ _ => 1 / N) rfl fun _ _ => rfl
  letI : MeasurableSpace Ω := ⊤
  have e : (M.apfCorrect y q ω).1 = ⟨⟨fun n b => S n [b.val] (fun k => q.prevX.value (a k b) b) fun _ => 1 / N,
      q.prevX.time + M.kind.increment⟩, fun n b => .fin (v n b),
      fun b => .fin (Real.log (1 / N * ∑ n, Real.exp (v n b)) + Real.log (∑ n, p.normalized.val [b.val, n.val] * Real.exp (h n b))), a⟩ := by
    have := Unbiased.apfCorrect_unfold M y q ω a _ _ _ _ (Prod.ext hsel rfl) (Prod.ext (Prod.ext rfl rfl) rfl)
    rw [this]
    unfold PCorr.mk'
    dsimp only
    rw [eq_fin fun n b => (gg n b).2, funext fun n => funext fun b => (gg n b).1, hpre, eq_fin hp.nw.2]
    simp only [XF.fin_sub, Unbiased.normalize2_fin]
    congr 1
    funext b
    have hpos : 0 < ∑ n, p.normalized.val [b.val, n.val] * Real.exp (h n b) :=
      Finset.sum_pos (fun n _ => mul_pos (hp.pos n b) (Real.exp_pos _)) ⟨⟨0, hN⟩, Finset.mem_univ _⟩
    simp only [XF.exp_fin, XF.fin_mul, XF.sum_fin]
    rw [XF.log_fin hpos, Unbiased.logLikelihood_mean hN]
    rfl
  have ec : Torch.apfCorrect res pre f p = .ok ⟨z, u, k, idx⟩ := by
    unfold Torch.apfCorrect
    simp only [t1, r1, d1, y1, e1, g1, s1, l1, m1, k1, ok_bind]
    rfl
  have hi (n : Fin N) (b : Fin B) : A [b.val] (fun k => P k [b.val] (fun i => onIx (q.prevX.value i) (fun _ => (0 : ℝ)) [b.val]) +
      p.weights.val ([b.val] ++ [k.val])) n = a n b := by
    rw [onIx_values]
    exact rfl
  have hu (n : Fin N) (b : Fin B) : u.val ([b.val] ++ [n.val]) = v n b := by
    rw [s2.2 n _ (inB b)]
    dsimp only
    simp only [onIx_one]
    rfl
  refine ⟨_, ec, ?_⟩
  rw [e]
  refine ⟨⟨e2.1, fun n b j => ?_⟩, ⟨s2.1, fun n b => congrArg XF.fin (hu n b).symm⟩, ⟨k2, fun b => ?_⟩, ⟨d2.1, fun n b => ?_⟩⟩
  · refine (e2.2 n _ (inB b) j).trans ?_
    dsimp only
    simp only [onIx_one]
    rfl
  · refine congrArg XF.fin (Eq.symm ((k3 _ (inB b)).trans ?_))
    simp only [onIx_one]
    rw [← Finset.mul_sum]
    rfl
  · exact (d2.2 n _ (inB b)).trans (congrArg Fin.val (hi n b))

/-- `GPF.predict`. -/
theorem C155_gpf_predict (hN : 0 < N) (ev : List ℕ) (M : ParticleModel N B (dim ev) ℝ Y Ω) (ω : Ω) (c : CorrectionT)
    (s : PCorr N B (dim ev) ℝ) (hc : HoldsC ev c s) :
    ∃ p, Torch.gpfPredict c.x c.w c.indices = .ok p ∧ HoldsP ev p (M.gpfPredict s ω).1 := by
  obtain ⟨v, v1, v2, v3⟩ := normalized_holds hN hc.w.1
  refine ⟨⟨c.x, c.w, v, c.indices⟩, ?_, ?_⟩
  · unfold Torch.gpfPredict
    rw [v1]
    rfl
  · unfold ParticleModel.gpfPredict
    rw [eq_fin hc.w.2, Unbiased.normalize2_fin]
    exact ⟨hc.x, ⟨hc.w.1, fun _ _ => rfl⟩, ⟨v2, fun n b => congrArg XF.fin (v3 n b).symm⟩,
      fun n b => (Unbiased.sm_pos _ b n).trans_eq (v3 n b).symm, hc.prev⟩

/-- `GPF.correct`. -/
theorem C155_gpf_correct (hN : 0 < N) (ev : List ℕ) (M : ParticleModel N B (dim ev) ℝ Y Ω) (y : Y) (ω : Ω) (p : PredictionT)
    (q : PPred N B (dim ev) ℝ) (hp : HoldsP ev p q) (f : Tensor → Tensor → Except PyErr (Tensor × Tensor))
    (hf : SameProposal ev M y q.prevX.time ω f) :
    ∃ c, Torch.gpfCorrect f p = .ok c ∧ HoldsC ev c (M.gpfCorrect y q ω).1 := by
  obtain ⟨S, V, f1, f2⟩ := hf
  have hN' : (0 : ℝ) < N := by exact_mod_cast hN
  obtain ⟨z, t, e1, e2, e3⟩ := f1 _ _ _ _ (partG_of hp.x) (weightG_of hp.nw.1)
  obtain ⟨l, l1, l2, l3⟩ := logLikelihoodT_ok e3 none (U := fun _ _ => (1 / N : ℝ)) (.inl ⟨rfl, fun _ _ => rfl⟩) fun b hb =>
    Finset.sum_pos (fun n _ => mul_pos (by positivity) (Real.exp_pos _)) ⟨⟨0, hN⟩, Finset.mem_univ _⟩
  have g := f2 q _ rfl hp.nw.2
  set v : Fin N → Fin B → ℝ := fun n b => V n [b.val] (fun k => q.prevX.value k b) fun k => p.normalized.val [b.val, k.val] with hv
  have e : (M.gpfCorrect y q ω).1 = ⟨⟨(M.sampleValues y q ω).1.1, q.prevX.time + M.kind.increment⟩, fun n b => .fin (v n b),
      fun b => .fin (Real.log (1 / N * ∑ n, Real.exp (v n b))), q.idx⟩ := by
    unfold ParticleModel.gpfCorrect ParticleModel.sampleAndWeight PCorr.mk'
    dsimp only
    rw [show (M.sampleValues y q ω).1.2 = fun n b => .fin (v n b) from eq_fin fun n b => (g n b).2]
    simp only [Unbiased.normalize2_fin]
    congr 1
    funext b
    exact Unbiased.logLikelihood_mean hN v b
  refine ⟨⟨z, t, l, p.indices⟩, ?_, ?_⟩
  · unfold Torch.gpfCorrect
    simp only [e1, l1, ok_bind]
    rfl
  rw [e]
  refine ⟨⟨e2.1, fun n b j => ?_⟩, ⟨e3.1, fun n b => ?_⟩, ⟨l2, fun b => ?_⟩, hp.idx⟩
  · refine (e2.2 n _ (inB b) j).trans ?_
    dsimp only
    rw [onIx_values, (g n b).1]
    exact rfl
  · refine congrArg XF.fin (Eq.symm ((e3.2 n _ (inB b)).trans ?_))
    dsimp only
    rw [onIx_values]
    exact rfl
  · refine congrArg XF.fin (Eq.symm ((l3 _ (inB b)).trans ?_))
    rw [onIx_values, ← Finset.mul_sum]
    exact rfl

/-- `create_state_from_prediction`, for a gap in the observations. -/
theorem C155_propagate (ev : List ℕ) (M : ParticleModel N B (dim ev) ℝ Y Ω) (ω : Ω) (p : PredictionT) (q : PPred N B (dim ev) ℝ)
    (hp : HoldsP ev p q) (f : Tensor → Except PyErr Tensor) (hf : SamePropagate ev M q.prevX.time ω f) :
    ∃ c, Torch.createState f p = .ok c ∧ HoldsC ev c (M.createState q ω).1 := by
  obtain ⟨T, t1, t2⟩ := hf
  obtain ⟨c, c1, c2, c3, c4, c5, c6⟩ := createState_ok t1 (partG_of hp.x) (weightG_of (N := N) hp.nw.1)
  refine ⟨c, c1, ?_⟩
  unfold ParticleModel.createState ParticleModel.propagateTS PCorr.mk'
  rw [eq_fin hp.w.2, Unbiased.normalize2_fin]
  refine ⟨⟨c2.1, fun n b j => ?_⟩, ⟨by rw [c3, hp.w.1], fun n b => by rw [c3]⟩, ⟨c5, fun b => by rw [c6]⟩,
    ⟨by rw [c4, hp.idx.1], fun n b => by rw [c4]; exact hp.idx.2 n b⟩⟩
  refine (c2.2 n _ (inB b) j).trans ?_
  dsimp only
  rw [onIx_one, t2 q.prevX rfl n b]

/-- `initialize` on tensors: the state before the first observation, from the initial sample. -/
theorem C155_initialize (ev : List ℕ) (lo : ℝ) (x : Tensor) (v : Fin N → Fin B → Fin (dim ev) → ℝ) (hx : x.shape = ev ++ [B, N])
    (hv : ∀ (n : Fin N) (b : Fin B) j, x.val (compIx ev j.val ++ [b.val, n.val]) = v n b j) :
    ∃ c, initializeT [B] N x = .ok c ∧ HoldsC ev c (initializeFilter lo v) := by
  refine ⟨⟨x, ⟨[B, N], fun _ => 0⟩, ⟨[B], fun _ => 0⟩, ⟨[B, N], fun i => (fun i : List ℕ => i.tail.headD 0) (broadcastIndex [1, N] i)⟩⟩, ?_,
    ⟨⟨hx, hv⟩, ⟨rfl, fun n b => ?_⟩, ⟨rfl, fun _ => rfl⟩, ⟨rfl, fun n b => ?_⟩⟩⟩
  · unfold initializeT
    simp [Index.expandTo, Index.unsqueeze1, broadcastShape]
  · unfold initializeFilter PCorr.mk'
    rw [Unbiased.normalize2_fin]
  · have := n.2
    simp [broadcastIndex, initializeFilter, PCorr.mk']
    omega

/-- `predict` of any of the filters. -/
theorem C155_predict (hN : 0 < N) (ev : List ℕ) (hh : ev.length ≤ 1) (k : FilterKind) (M : ParticleModel N B (dim ev) ℝ Y Ω) (T : Parts Y Ω)
    (hT : SameParts ev M T) (ω : Ω) (c : CorrectionT) (s : PCorr N B (dim ev) ℝ) (hc : HoldsC ev c s) :
    ∃ p, predictOf ev k M T ω c.x c.w c.indices = .ok p ∧ HoldsP ev p ((k.ops M).predict s ω).1 := by
  cases k with
  | sisr => exact C155_sisr_predict hN ev hh M ω _ (hT.columns ω) c s hc
  | apf => exact C155_apf_predict hN ev M ω c s hc
  | gpf => exact C155_gpf_predict hN ev M ω c s hc

/-- One move of any of the filters, for an observation or a gap. -/
theorem C155_move (hN : 0 < N) (ev : List ℕ) (hh : ev.length ≤ 1) (k : FilterKind) (M : ParticleModel N B (dim ev) ℝ Y Ω) (T : Parts Y Ω)
    (hT : SameParts ev M T) (y : Y) (ω : Ω) (c : CorrectionT) (s : PCorr N B (dim ev) ℝ) (hc : HoldsC ev c s) :
    ∃ c', (stepOf ev k M T y s ω).move c = .ok c' ∧
      HoldsC ev c' (if M.allNan y then (k.ops M).propagate ((k.ops M).predict s ω).1 ((k.ops M).predict s ω).2
        else (k.ops M).correct y ((k.ops M).predict s ω).1 ((k.ops M).predict s ω).2).1 := by
  obtain ⟨p, p1, p2⟩ := C155_predict hN ev hh k M T hT ω c s hc
  unfold StepT.move stepOf
  dsimp only
  rw [p1, ok_bind]
  by_cases h : M.allNan y = true
  · rw [if_pos h, if_pos h]
    exact C155_propagate ev M _ p _ p2 _ (hT.propagate _ _)
  · rw [if_neg h, if_neg h]
    cases k with
    | sisr => exact C155_sisr_correct hN ev M y _ p _ p2 _ (hT.proposal y _ _)
    | apf => exact C155_apf_correct hN ev hh M y _ p _ p2 _ (hT.scheme _) _ (hT.pre y _) _ (hT.proposal y _ _)
    | gpf => exact C155_gpf_correct hN ev M y _ p _ p2 _ (hT.proposal y _ _)

/-- A run over any observations: the tensors at the end hold the last state of the run of `Model/Particle`, and the total on tensors is
the sum of the log-likelihoods of its states. -/
theorem C155_run (hN : 0 < N) (ev : List ℕ) (hh : ev.length ≤ 1) (k : FilterKind) (M : ParticleModel N B (dim ev) ℝ Y Ω) (T : Parts Y Ω)
    (hT : SameParts ev M T) (opt : FilterOptions) (hopt : opt.observeEveryStep = 1) (fuel : ℕ) (ys : List Y) :
    ∀ (ω : Ω) (c : CorrectionT) (total : Tensor) (s : PCorr N B (dim ev) ℝ), HoldsC ev c s → total.shape = [B] →
    ∃ c' total' s' ss ω', (k.ops M).filterAll opt fuel ys s ω = some (s', ss, ω') ∧
      runT (stepsOf ev k M T ys s ω) c total = .ok (c', total') ∧ HoldsC ev c' s' ∧ total'.shape = [B] ∧
      ∀ b : Fin B, XF.fin (total.val [b.val]) + (ss.map fun r => r.ll b).sum = .fin (total'.val [b.val]) := by
  induction ys with
  | nil => exact fun ω c total s hc ht => ⟨c, total, s, [], ω, rfl, rfl, hc, ht, fun b => add_zero _⟩
  | cons y ys ih =>
    intro ω c total s hc ht
    obtain ⟨c1, e1, e2⟩ := C155_move hN ev hh k M T hT y ω c s hc
    obtain ⟨t, t1, t2, t3⟩ := zip_batch (x := total) (y := c1.ll) (f := total.val) (g := c1.ll.val) ⟨ht, fun _ _ => rfl⟩
      ⟨e2.ll.1, fun _ _ => rfl⟩
    set r := (if M.allNan y then (k.ops M).propagate ((k.ops M).predict s ω).1 ((k.ops M).predict s ω).2
        else (k.ops M).correct y ((k.ops M).predict s ω).1 ((k.ops M).predict s ω).2) with hr
    obtain ⟨c', total', s', ss, ω', i1, i2, i3, i4, i5⟩ := ih r.2 c1 t r.1 e2 t2
    have hf : (k.ops M).filter opt fuel y s ω = some (r.1, [r.1], r.2) := by
      have hl (q : PPred N B (dim ev) ℝ) (ω : Ω) : (k.ops M).loop opt.observeEveryStep fuel q ω = some (q, [], ω) := by
        unfold FilterOps.loop
        rw [if_pos (by rw [hopt, Nat.mod_one])]
      unfold FilterOps.filter
      dsimp only
      rw [hl, Option.map_some, ite_self]
      rfl
    refine ⟨c', total', s', r.1 :: ss, ω', ?_, ?_, i3, i4, fun b => ?_⟩
    · unfold FilterOps.filterAll
      rw [hf]
      dsimp only
      rw [i1]
      rfl
    · unfold stepsOf runT
      rw [e1, ok_bind, t1, ok_bind]
      exact i2
    · rw [List.map_cons, List.sum_cons, ← add_assoc, e2.ll.2 b, XF.fin_add, ← t3 _ (inB b)]
      exact i5 b

/-- The passes between two observations: they end in tensors of the state from which the next prediction is the one that the `while` loop
of `Model/Filter` ends with, and the total grows by the log-likelihoods that are recorded. -/
theorem C155_gaps (hN : 0 < N) (ev : List ℕ) (hh : ev.length ≤ 1) (k : FilterKind) (M : ParticleModel N B (dim ev) ℝ Y Ω) (T : Parts Y Ω)
    (hT : SameParts ev M T) (every : ℕ) (record : Bool) (fuel : ℕ) :
    ∀ (ω : Ω) (c : CorrectionT) (total : Tensor) (s : PCorr N B (dim ev) ℝ) q cs ω', HoldsC ev c s → total.shape = [B] →
    (k.ops M).loop every fuel ((k.ops M).predict s ω).1 ((k.ops M).predict s ω).2 = some (q, cs, ω') →
    ∃ c' total', gapsT record (gapsOf ev k M T every fuel s ω).1 c total = .ok (c', total') ∧
      HoldsC ev c' (gapsOf ev k M T every fuel s ω).2.1 ∧
      (k.ops M).predict (gapsOf ev k M T every fuel s ω).2.1 (gapsOf ev k M T every fuel s ω).2.2 = (q, ω') ∧ total'.shape = [B] ∧
      ∀ b : Fin B, XF.fin (total.val [b.val]) + ((if record then cs else []).map fun r => r.ll b).sum = .fin (total'.val [b.val]) := by
  induction fuel with
  | zero =>
    intro ω c total s q cs ω' hc ht hl
    unfold FilterOps.loop at hl
    split at hl
    · cases hl
      exact ⟨c, total, rfl, hc, rfl, ht, fun b => by rw [ite_self]; exact add_zero _⟩
    · cases hl
  | succ fuel ih =>
    intro ω c total s q cs ω' hc ht hl
    unfold FilterOps.loop at hl
    unfold gapsOf
    dsimp only at hl ⊢
    by_cases h : ((k.ops M).predict s ω).1.prevX.time % every = 0
    · rw [if_pos h]
      rw [if_pos (show (k.ops M).time _ % every = 0 from h)] at hl
      cases hl
      exact ⟨c, total, rfl, hc, rfl, ht, fun b => by rw [ite_self]; exact add_zero _⟩
    · rw [if_neg h]
      rw [if_neg (show ¬ (k.ops M).time _ % every = 0 from h)] at hl
      obtain ⟨⟨q1, cs1, ω1⟩, l1, l2⟩ := Option.map_eq_some_iff.1 hl
      cases l2
      obtain ⟨p, p1, p2⟩ := C155_predict hN ev hh k M T hT ω c s hc
      obtain ⟨c1, e1, e2⟩ := C155_propagate ev M _ p _ p2 _ (hT.propagate ((k.ops M).predict s ω).1.prevX.time ((k.ops M).predict s ω).2)
      have hmove : StepT.move ⟨predictOf ev k M T ω, .missing (T.propagate ((k.ops M).predict s ω).1.prevX.time ((k.ops M).predict s ω).2)⟩ c
          = .ok c1 := by
        unfold StepT.move
        dsimp only
        rw [p1, ok_bind]
        exact e1
      obtain ⟨t, t1, t2, t3⟩ := zip_batch (x := total) (y := c1.ll) (f := total.val) (g := c1.ll.val) ⟨ht, fun _ _ => rfl⟩
        ⟨e2.ll.1, fun _ _ => rfl⟩
      unfold gapsT
      dsimp only
      rw [hmove, ok_bind]
      cases record with
      | false =>
        obtain ⟨c', total', i1, i2, i3, i4, i5⟩ := ih _ c1 total _ _ _ _ e2 ht l1
        exact ⟨c', total', i1, i2, i3, i4, i5⟩
      | true =>
        obtain ⟨c', total', i1, i2, i3, i4, i5⟩ := ih _ c1 t _ _ _ _ e2 t2 l1
        refine ⟨c', total', ?_, i2, i3, i4, fun b => ?_⟩
        · rw [if_pos rfl, t1, ok_bind]
          exact i1
        · rw [if_pos rfl, List.map_cons, List.sum_cons, ← add_assoc]
          refine Eq.trans ?_ (i5 b)
          refine congrArg₂ (· + ·) ((congrArg (XF.fin (total.val [b.val]) + ·) (e2.ll.2 b)).trans ?_) rfl
          rw [XF.fin_add, ← t3 _ (inB b)]

/-- A run over any observations of a process that is observed every few steps, recording the states in between or not. -/
theorem C155_run_every (hN : 0 < N) (ev : List ℕ) (hh : ev.length ≤ 1) (k : FilterKind) (M : ParticleModel N B (dim ev) ℝ Y Ω)
    (T : Parts Y Ω) (hT : SameParts ev M T) (opt : FilterOptions) (fuel : ℕ) (ys : List Y) :
    ∀ (ω : Ω) (c : CorrectionT) (total : Tensor) (s : PCorr N B (dim ev) ℝ) s' ss ω', HoldsC ev c s → total.shape = [B] →
    (k.ops M).filterAll opt fuel ys s ω = some (s', ss, ω') →
    ∃ c' total', runEveryT opt.recordIntermediary (everyOf ev k M T opt.observeEveryStep fuel ys s ω) c total = .ok (c', total') ∧
      HoldsC ev c' s' ∧ total'.shape = [B] ∧
      ∀ b : Fin B, XF.fin (total.val [b.val]) + (ss.map fun r => r.ll b).sum = .fin (total'.val [b.val]) := by
  induction ys with
  | nil =>
    intro ω c total s s' ss ω' hc ht hf
    cases hf
    exact ⟨c, total, rfl, hc, ht, fun b => add_zero _⟩
  | cons y ys ih =>
    intro ω c total s s' ss ω' hc ht hf
    unfold FilterOps.filterAll at hf
    split at hf
    · cases hf
    · rename_i s1 new ω1 h1
      obtain ⟨⟨s2, more, ω2⟩, f1, f2⟩ := Option.map_eq_some_iff.1 hf
      cases f2
      unfold FilterOps.filter at h1
      obtain ⟨⟨q, cs, ω3⟩, l1, l2⟩ := Option.map_eq_some_iff.1 h1
      obtain ⟨c1, t1, g1, g2, g3, g4, g5⟩ := C155_gaps hN ev hh k M T hT opt.observeEveryStep opt.recordIntermediary fuel ω c total s q cs ω3
        hc ht l1
      set g := gapsOf ev k M T opt.observeEveryStep fuel s ω with hg
      obtain ⟨c2, e1, e2⟩ := C155_move hN ev hh k M T hT y g.2.2 c1 g.2.1 g2
      obtain ⟨t, u1, u2, u3⟩ := zip_batch (x := t1) (y := c2.ll) (f := t1.val) (g := c2.ll.val) ⟨g4, fun _ _ => rfl⟩
        ⟨e2.ll.1, fun _ _ => rfl⟩
      rw [g3] at e2
      have hr : (if M.allNan y then (k.ops M).propagate q ω3 else (k.ops M).correct y q ω3) = (s1, ω1) ∧
          new = (if opt.recordIntermediary then cs else []) ++ [s1] := by
        have := l2
        dsimp only at this
        have e : (k.ops M).allNan y = M.allNan y := rfl
        rw [e] at this
        obtain ⟨x1, x2⟩ := Prod.mk.inj this
        obtain ⟨x3, x4⟩ := Prod.mk.inj x2
        rw [x1] at x3
        exact ⟨Prod.ext x1 x4, x3.symm⟩
      rw [hr.1] at e2
      obtain ⟨c', total', i1, i2, i3, i4⟩ := ih ω1 c2 t s1 _ more _ e2 u2 f1
      refine ⟨c', total', ?_, i2, i3, fun b => ?_⟩
      · unfold everyOf runEveryT
        dsimp only
        rw [← hg, g1, ok_bind, g3, hr.1]
        dsimp only
        rw [e1, ok_bind, u1, ok_bind]
        exact i1
      · rw [hr.2, List.map_append, List.map_append, List.sum_append, List.sum_append, List.map_singleton, List.sum_singleton, ← add_assoc,
          ← add_assoc, g5 b, e2.ll.2 b, XF.fin_add, ← u3 _ (inB b)]
        exact i4 b

/-- The likelihood estimate that `SISR` computes on tensors is unbiased. -/
theorem C155_sisr_unbiased [MeasurableSpace Ω] (P : Measure Ω) [IsProbabilityMeasure P] (hN : 0 < N) (ev : List ℕ) (hh : ev.length ≤ 1)
    (M : ParticleModel N B (dim ev) ℝ Y Ω) (T : Parts Y Ω) (hT : SameParts ev M T) (hkind : M.kind.increment = 1)
    (hr : UnbiasedResampler P M.resampler) (K : Fin B → ℕ → Kernel (Fin (dim ev) → ℝ) (Fin (dim ev) → ℝ))
    (μ : Fin B → Measure (Fin (dim ev) → ℝ)) (logg : Fin B → Y → ℕ → (Fin (dim ev) → ℝ) → ℝ) (hlogg : ∀ b y t, Measurable (logg b y t))
    (init : Ω → (Fin N → Fin B → Fin (dim ev) → ℝ) × Ω) (hinit : DrawsInitial P init μ) (hK : DrawsTransitions P M.propagateValues K)
    (hM : ProperProposal P M.sampleValues K logg) (start : Ω → CorrectionT)
    (hs : ∀ ω, HoldsC ev (start ω) (initializeFilter M.lo (init ω).1)) (opt : FilterOptions)
    (hk : 0 < opt.observeEveryStep) (fuel : ℕ) (hfuel : opt.observeEveryStep - 1 ≤ fuel) (ys : List Y) (b : Fin B) :
    ∃ total : Ω → Tensor,
      (∀ ω, ∃ c, runEveryT opt.recordIntermediary (everyOf ev .sisr M T opt.observeEveryStep fuel ys (initializeFilter M.lo (init ω).1)
        (init ω).2) (start ω) ⟨[B], fun _ => 0⟩ = .ok (c, total ω)) ∧
      ∫⁻ ω, ENNReal.ofReal (Real.exp ((total ω).val [b.val])) ∂P =
        ∫⁻ x, lik (K b) (fun y t x => ENNReal.ofReal (Real.exp (logg b y t x))) (slots opt.observeEveryStep M.allNan ys) 0 x ∂(μ b) := by
  obtain ⟨run, r1, -, r3⟩ := C30_proper_proposals P hN M hkind hr K μ logg hlogg init hinit hK hM opt hk fuel hfuel ys b
  choose c total e1 e2 e3 e4 using fun ω => C155_run_every hN ev hh .sisr M T hT opt fuel ys (init ω).2 (start ω)
    ⟨[B], fun _ => 0⟩ (initializeFilter M.lo (init ω).1) (run ω).1 (run ω).2.1 (run ω).2.2 (hs ω) rfl (r1 ω)
  refine ⟨total, fun ω => ⟨c ω, e1 ω⟩, Eq.trans (lintegral_congr fun ω => ?_) r3⟩
  have h2 := e4 ω b
  rw [show XF.fin 0 = 0 from rfl, zero_add] at h2
  rw [h2]
  rfl

/-- The likelihood estimate that the `APF` computes on tensors is unbiased. -/
theorem C155_apf_unbiased [MeasurableSpace Ω] (P : Measure Ω) [IsProbabilityMeasure P] (hN : 0 < N) (ev : List ℕ) (hh : ev.length ≤ 1)
    (M : ParticleModel N B (dim ev) ℝ Y Ω) (T : Parts Y Ω) (hT : SameParts ev M T) (hkind : M.kind.increment = 1)
    (hr : UnbiasedLogResampler P M.resampler) (K : Fin B → ℕ → Kernel (Fin (dim ev) → ℝ) (Fin (dim ev) → ℝ))
    (μ : Fin B → Measure (Fin (dim ev) → ℝ)) (logg : Fin B → Y → ℕ → (Fin (dim ev) → ℝ) → ℝ) (hlogg : ∀ b y t, Measurable (logg b y t))
    (init : Ω → (Fin N → Fin B → Fin (dim ev) → ℝ) × Ω) (hinit : DrawsInitial P init μ) (hK : DrawsTransitions P M.propagateValues K)
    (hM : ProperProposal P M.sampleValues K logg) (pre : Y → ℕ → (Fin N → Fin B → Fin (dim ev) → ℝ) → Fin N → Fin B → ℝ)
    (hpre : ∀ y t, Measurable (pre y t)) (hMpre : ∀ y x i b, M.preWeight y x i b = .fin (pre y x.time x.value i b)) (start : Ω → CorrectionT)
    (hs : ∀ ω, HoldsC ev (start ω) (initializeFilter M.lo (init ω).1)) (opt : FilterOptions)
    (hk : 0 < opt.observeEveryStep) (fuel : ℕ) (hfuel : opt.observeEveryStep - 1 ≤ fuel) (ys : List Y) (b : Fin B) :
    ∃ total : Ω → Tensor,
      (∀ ω, ∃ c, runEveryT opt.recordIntermediary (everyOf ev .apf M T opt.observeEveryStep fuel ys (initializeFilter M.lo (init ω).1)
        (init ω).2) (start ω) ⟨[B], fun _ => 0⟩ = .ok (c, total ω)) ∧
      ∫⁻ ω, ENNReal.ofReal (Real.exp ((total ω).val [b.val])) ∂P =
        ∫⁻ x, lik (K b) (fun y t x => ENNReal.ofReal (Real.exp (logg b y t x))) (slots opt.observeEveryStep M.allNan ys) 0 x ∂(μ b) := by
  obtain ⟨run, r1, -, r3⟩ := C31_proper_proposals P hN M hkind hr K μ logg hlogg init hinit hK hM pre hpre hMpre opt hk fuel hfuel ys b
  choose c total e1 e2 e3 e4 using fun ω => C155_run_every hN ev hh .apf M T hT opt fuel ys (init ω).2 (start ω)
    ⟨[B], fun _ => 0⟩ (initializeFilter M.lo (init ω).1) (run ω).1 (run ω).2.1 (run ω).2.2 (hs ω) rfl (r1 ω)
  refine ⟨total, fun ω => ⟨c ω, e1 ω⟩, Eq.trans (lintegral_congr fun ω => ?_) r3⟩
  have h2 := e4 ω b
  rw [show XF.fin 0 = 0 from rfl, zero_add] at h2
  rw [h2]
  rfl

/-- The systematic resampler on tensors selects the particles that the one of `Model/Resampling` selects, for normalised weights of any
number of filters and for log-weights. -/
theorem C155_systematic (hN : 0 < N) (ev : List ℕ) (M : ParticleModel N B (dim ev) ℝ Y Ω) (rand : Ω → (ℕ → ℝ) × Ω)
    (hM : ∀ {b : ℕ} (w : Fin N → Fin b → XF) n ω, M.resampler w n ω = systematicResampler M.lo rand w n ω)
    (hu : ∀ ω k, (rand ω).1 k ≤ 1) (ω : Ω) :
    SameColumns ev M ω (systematicT (rand ω).1 true) ∧ SameScheme ev M ω (systematicT (rand ω).1 false) := by
  letI : MeasurableSpace Ω := ⊤
  obtain ⟨A, a1, a2⟩ := C151_columns N hN (rand ω).1 (hu ω)
  obtain ⟨C, c1, c2⟩ := C151_filters N hN [B] (by simp) (rand ω).1 (hu ω)
  refine ⟨⟨A, a1, fun m U n k => ?_⟩, ⟨C, c1, fun W n b => ?_⟩⟩
  · rw [hM, Unbiased.systematic_true]
    exact sysFin_first (a2 k.val (fun j => U j k) n)
  · rw [hM, Unbiased.systematic_false]
    exact sysFin_first (c2 [b.val] (fun k => W k b) n)

/-- Two particles and three filters. The generator counts its draws; a draw adds the count to the particle, the weight is the particle
less the observation, resampling takes the second particle. -/
noncomputable def countingFilter : ParticleModel 2 3 (dim []) ℝ (Option ℕ) ℕ where
  lo := -100
  threshold := 1.8
  resampler _ _ ω := (fun _ _ => 1, ω + 1)
  propagateValues x ω := (fun n b j => x.value n b j + ω, ω + 1)
  kind := .bootstrap
  sampleValues y q ω := ((fun n b j => q.prevX.value n b j + ω, fun n b => .fin (q.prevX.value n b ix0 - y.getD 0)), ω + 1)
  preWeight _ x n b := .fin (x.value n b ix0)
  allNan y := y.isNone

/-- The parts of `countingFilter` on tensors. -/
def countingParts : Parts (Option ℕ) ℕ where
  columns _ := lastScheme
  scheme _ := lastScheme
  pre _ _ := .ok
  proposal y _ ω z _ := .ok (z.map (· + (ω : ℝ)), z.map (· - ((y.getD 0 : ℕ) : ℝ)))
  propagate _ ω z := .ok (z.map (· + (ω : ℝ)))

theorem countingParts_same : SameParts [] countingFilter countingParts where
  columns _ := ⟨_, lastScheme_column, fun _ _ _ _ => rfl⟩
  scheme _ := ⟨_, lastScheme_scheme [3], fun _ _ _ => rfl⟩
  pre _ _ := ⟨fun n _ G => G n ix0, fun z G h => ⟨z, rfl, h.1, fun n b hb => h.2 n b hb ix0⟩, fun _ _ _ _ => rfl⟩
  proposal y _ ω := ⟨fun n _ G _ j => G n j + ω, fun n _ G _ => G n ix0 - (y.getD 0 : ℕ), fun z _ _ _ hz _ =>
    ⟨_, _, rfl, ⟨hz.1, fun n b hb j => congrArg (· + (ω : ℝ)) (hz.2 n b hb j)⟩, hz.1,
      fun n b hb => congrArg (· - ((y.getD 0 : ℕ) : ℝ)) (hz.2 n b hb ix0)⟩, fun _ _ _ _ _ _ => ⟨rfl, rfl⟩⟩
  propagate _ ω := ⟨fun _ _ g j => g j + ω, fun _ _ hz => ⟨_, rfl, hz.1, fun n b hb j => congrArg (· + (ω : ℝ)) (hz.2 n b hb j)⟩,
    fun _ _ _ _ => rfl⟩

/-- A case of `C155_run` (and so of the moves): each of the three filters over an observation, a gap and an observation, from particles
`0` and `1`. -/
example (k : FilterKind) : ∃ c total s ss ω,
    (k.ops countingFilter).filterAll ⟨1, false, .skip⟩ 0 [some 2, none, some 5] (initializeFilter (-100) fun n _ _ => (n.val : ℝ)) 7
      = some (s, ss, ω) ∧
    runT (stepsOf [] k countingFilter countingParts [some 2, none, some 5] (initializeFilter (-100) fun n _ _ => (n.val : ℝ)) 7)
      ⟨⟨[3, 2], fun i => (i.tail.headD 0 : ℕ)⟩, ⟨[3, 2], fun _ => 0⟩, ⟨[3], fun _ => 0⟩, ⟨[3, 2], fun i => i.tail.headD 0⟩⟩
      ⟨[3], fun _ => 0⟩ = .ok (c, total) ∧ HoldsC [] c s ∧ XF.fin 0 + (ss.map fun r => r.ll 1).sum = .fin (total.val [1]) := by
  have h0 : HoldsC [] ⟨⟨[3, 2], fun i => (i.tail.headD 0 : ℕ)⟩, ⟨[3, 2], fun _ => 0⟩, ⟨[3], fun _ => 0⟩, ⟨[3, 2], fun i => i.tail.headD 0⟩⟩
      (initializeFilter (-100) fun (n : Fin 2) (_ : Fin 3) (_ : Fin (dim [])) => (n.val : ℝ)) := by
    refine ⟨⟨rfl, fun _ _ _ => rfl⟩, ⟨rfl, fun n b => ?_⟩, ⟨rfl, fun _ => rfl⟩, ⟨rfl, fun _ _ => rfl⟩⟩
    unfold initializeFilter PCorr.mk'
    rw [Unbiased.normalize2_fin]
  obtain ⟨c, total, s, ss, ω, e1, e2, e3, -, e4⟩ := C155_run (by omega) [] (by simp) k countingFilter countingParts countingParts_same
    ⟨1, false, .skip⟩ rfl 0 [some 2, none, some 5] 7 _ ⟨[3], fun _ => 0⟩ _ h0 rfl
  exact ⟨c, total, s, ss, ω, e1, e2, e3, e4 1⟩

/-- A case of `C155_initialize`: two particles of three filters in the plane; the tensors hold component 1 of particle 1 of filter 2, which
descends from itself. -/
example : ∃ c, initializeT [3] 2 ⟨[2, 3, 2], fun i => (i.headD 0 : ℝ) + 10 * i.tail.headD 0 + 100 * i.tail.tail.headD 0⟩ = .ok c ∧
    c.x.val [1, 2, 1] = 121 ∧ c.indices.val [2, 1] = 1 := by
  obtain ⟨c, e1, e2⟩ := C155_initialize (N := 2) (B := 3) [2] (-100)
    ⟨[2, 3, 2], fun i => (i.headD 0 : ℝ) + 10 * i.tail.headD 0 + 100 * i.tail.tail.headD 0⟩
    (fun n b j => (j.val : ℝ) + 10 * b.val + 100 * n.val) rfl fun _ _ _ => rfl
  refine ⟨c, e1, (e2.x.2 1 2 (1 : Fin 2)).trans ?_, e2.prev.2 1 2⟩
  simp only [initializeFilter, PCorr.mk']
  norm_num

/-- Uniforms that never exceed one. -/
noncomputable def arRand (ω : ℕ → DemoEntry) : (ℕ → ℝ) × (ℕ → DemoEntry) := (fun k => min ((Unbiased.next ω).1.1 k) 1, (Unbiased.next ω).2)

theorem arRand_draws : Draws (Unbiased.streamLaw demoEntryLaw) arRand Unbiased.unifs := by
  have h := Unbiased.draws_map demo_rand (g := fun u k => min (u k) 1) (by fun_prop)
  have e : Unbiased.unif.map (fun u => min u 1) = Unbiased.unif := by
    refine Eq.trans (Measure.map_congr ?_) Measure.map_id
    refine (ae_restrict_iff' measurableSet_Ico).2 (Filter.Eventually.of_forall fun u hu => ?_)
    exact min_eq_left hu.2.le
  have e' : Unbiased.unifs.map (fun u k => min (u k) 1) = Unbiased.unifs := by
    unfold Unbiased.unifs
    rw [Measure.infinitePi_map_pi (fun _ : ℕ => Unbiased.unif) (f := fun _ u => min u 1) fun _ => by fun_prop]
    simp only [e]
  rwa [e'] at h

/-- Noise of the transitions. -/
def arNoise (ω : ℕ → DemoEntry) : (ℕ × ℕ → ℝ) × (ℕ → DemoEntry) := ((Unbiased.next ω).1.2, (Unbiased.next ω).2)

/-- `Bootstrap.sample_and_weight`: if the propagation and the log-density on tensors are those of the model, so is the proposal. The
log-density is taken at the propagated particles, one step later. -/
theorem C155_bootstrap (ev : List ℕ) (M : ParticleModel N B (dim ev) ℝ Y Ω) (logProb : Y → TS N B (dim ev) ℝ → Fin N → Fin B → XF)
    (hM : M.sampleValues = bootstrapSample M.propagateValues logProb) (y : Y) (t : ℕ) (ω : Ω) (f g : Tensor → Except PyErr Tensor)
    (hf : SamePropagate ev M t ω f) (hg : SameDensity ev logProb y (t + 1) g) : SameProposal ev M y t ω (bootstrapT f g) := by
  obtain ⟨T, hT, eT⟩ := hf
  obtain ⟨D, hD, eD⟩ := hg
  refine ⟨fun n b G _ => T n b (G n), fun n b G _ => D n b (T n b (G n)), fun z v G U hz _ => ?_, fun q U hq _ n b => ?_⟩
  · obtain ⟨z', e, h⟩ := hT z G hz
    obtain ⟨w, e', h'⟩ := hD z' _ h
    exact ⟨z', w, by simp only [bootstrapT, e, e', bind, Except.bind, pure, Except.pure], h, h'⟩
  · rw [hM]
    have e := eT q.prevX hq n b
    refine ⟨e, ?_⟩
    refine (eD ⟨(M.propagateValues q.prevX ω).1, q.prevX.time + 1⟩ (by rw [← hq]) n b).trans ?_
    dsimp only
    rw [e]

/-- `Proposal.pre_weight` on tensors: the log-density at the values of a function `μ` of the particles (the mean of an affine process)
one step later. -/
theorem C155_pre_weight (ev : List ℕ) (M : ParticleModel N B (dim ev) ℝ Y Ω) (logProb : Y → TS N B (dim ev) ℝ → Fin N → Fin B → XF)
    (μ : TS N B (dim ev) ℝ → Fin N → Fin B → Fin (dim ev) → ℝ) (hM : ∀ y x, M.preWeight y x = logProb y ⟨μ x, x.time + 1⟩) (y : Y) (t : ℕ)
    (f g : Tensor → Except PyErr Tensor) (T : Fin N → List ℕ → (Fin (dim ev) → ℝ) → Fin (dim ev) → ℝ) (hf : PropagateG N ev [B] f T)
    (eT : ∀ x : TS N B (dim ev) ℝ, x.time = t → ∀ n b, μ x n b = T n [b.val] (x.value n b)) (hg : SameDensity ev logProb y (t + 1) g) :
    SamePre ev M y t (preWeightT f g) := by
  obtain ⟨D, hD, eD⟩ := hg
  refine ⟨fun n b G => D n b (T n b (G n)), fun z G hz => ?_, fun x hx n b => ?_⟩
  · obtain ⟨z', e, h⟩ := hf z G hz
    obtain ⟨w, e', h'⟩ := hD z' _ h
    exact ⟨w, by simp only [preWeightT, e, e', bind, Except.bind], h'⟩
  · rw [hM]
    refine (eD ⟨μ x, x.time + 1⟩ (by rw [← hx]) n b).trans ?_
    dsimp only
    rw [eT x hx]

/-- The autoregressive processes of `demoMove`, observed with normal noise and with gaps, filtered with systematic resampling. -/
noncomputable def arFilter (N : ℕ) : ParticleModel N 2 (dim []) ℝ (Option ℝ) (ℕ → DemoEntry) where
  lo := -100
  threshold := N / 2
  resampler := systematicResampler (-100) arRand
  propagateValues := Unbiased.noisePropagate arNoise demoMove
  kind := .bootstrap
  sampleValues := bootstrapSample (Unbiased.noisePropagate arNoise demoMove) fun y x n b => .fin (-(y.getD 0 - x.value n b ix0) ^ 2 / 2)
  preWeight y x n b := .fin (-(y.getD 0 - x.value n b ix0) ^ 2 / 2)
  allNan y := y.isNone

/-- A transition of the processes on tensors. -/
noncomputable def arMove (ω : ℕ → DemoEntry) (z : Tensor) : Tensor :=
  ⟨z.shape, fun i => (if i.headD 0 = 0 then 1 / 2 else -1) * z.val i + (arNoise ω).1 (i.tail.headD 0, i.headD 0)⟩

/-- The parts of `arFilter` on tensors. -/
noncomputable def arParts : Parts (Option ℝ) (ℕ → DemoEntry) where
  columns ω := systematicT (arRand ω).1 true
  scheme ω := systematicT (arRand ω).1 false
  pre y _ z := .ok (z.map fun x => -(y.getD 0 - x) ^ 2 / 2)
  proposal y _ ω := bootstrapT (fun z => .ok (arMove ω z)) fun z => .ok (z.map fun x => -(y.getD 0 - x) ^ 2 / 2)
  propagate _ ω z := .ok (arMove ω z)

theorem arMove_part {N : ℕ} (ω : ℕ → DemoEntry) {z : Tensor} {G : Fin N → List ℕ → Fin (dim []) → ℝ} (h : PartG z [] [2] G) :
    PartG (arMove ω z) [] [2] fun n b j => (if b.headD 0 = 0 then 1 / 2 else -1) * G n b j + (arNoise ω).1 (n.val, b.headD 0) := by
  refine ⟨h.1, fun n b hb j => ?_⟩
  obtain ⟨k, rfl⟩ : ∃ k, b = [k] := by
    cases hb with
    | cons _ h' => cases h'; exact ⟨_, rfl⟩
  exact congrArg (fun x => (if k = 0 then 1 / 2 else -1) * x + (arNoise ω).1 (n.val, k)) (h.2 n [k] hb j)

theorem arMove_same (N t : ℕ) (ω : ℕ → DemoEntry) : SamePropagate [] (arFilter N) t ω fun z => .ok (arMove ω z) :=
  ⟨fun n b g j => (if b.headD 0 = 0 then 1 / 2 else -1) * g j + (arNoise ω).1 (n.val, b.headD 0), fun _ _ hz =>
    ⟨_, rfl, arMove_part ω hz⟩, fun x _ n b => by
      funext j
      simp [arFilter, Unbiased.noisePropagate, demoMove]⟩

theorem arDensity_same (N : ℕ) (y : Option ℝ) (t : ℕ) : SameDensity [] (fun (y : Option ℝ) (x : TS N 2 (dim []) ℝ) n b =>
    .fin (-(y.getD 0 - x.value n b ix0) ^ 2 / 2)) y t fun z => .ok (z.map fun x => -(y.getD 0 - x) ^ 2 / 2) :=
  ⟨fun _ _ g => -(y.getD 0 - g ix0) ^ 2 / 2, fun _ _ h => ⟨_, rfl, h.1, fun n b hb =>
    congrArg (fun x => -(y.getD 0 - x) ^ 2 / 2) (h.2 n b hb ix0)⟩, fun _ _ _ _ => rfl⟩

theorem arParts_same (N : ℕ) (hN : 0 < N) : SameParts [] (arFilter N) arParts where
  columns ω := (C155_systematic hN [] (arFilter N) arRand (fun _ _ _ => rfl) (fun _ _ => min_le_right _ _) ω).1
  scheme ω := (C155_systematic hN [] (arFilter N) arRand (fun _ _ _ => rfl) (fun _ _ => min_le_right _ _) ω).2
  pre y _ := ⟨fun n _ G => -(y.getD 0 - G n ix0) ^ 2 / 2, fun z G h => ⟨_, rfl, h.1, fun n b hb =>
    congrArg (fun x => -(y.getD 0 - x) ^ 2 / 2) (h.2 n b hb ix0)⟩, fun _ _ _ _ => rfl⟩
  proposal y _ ω := C155_bootstrap [] (arFilter N) (fun y x n b => .fin (-(y.getD 0 - x.value n b ix0) ^ 2 / 2)) rfl y _ ω _ _
    (arMove_same N _ ω) (arDensity_same N y _)
  propagate _ ω := arMove_same N _ ω

/-- A case of `C155_pre_weight`: the APF weighs the means of the transitions. -/
example (N : ℕ) (y : Option ℝ) (t : ℕ) : SamePre [] { arFilter N with
      preWeight := fun y x n b => .fin (-(y.getD 0 - (if b.val = 0 then 1 / 2 else -1) * x.value n b ix0) ^ 2 / 2) } y t
    (preWeightT (fun z => .ok ⟨z.shape, fun i => (if i.headD 0 = 0 then 1 / 2 else -1) * z.val i⟩) fun z =>
      .ok (z.map fun x => -(y.getD 0 - x) ^ 2 / 2)) :=
  C155_pre_weight [] _ (fun y x n b => .fin (-(y.getD 0 - x.value n b ix0) ^ 2 / 2))
    (fun x n b j => (if b.val = 0 then 1 / 2 else -1) * x.value n b j) (fun _ _ => rfl) y t _ _
    (fun _ b g j => (if b.headD 0 = 0 then 1 / 2 else -1) * g j)
    (fun z G h => ⟨_, rfl, h.1, fun n b hb j => by
      obtain ⟨k, rfl⟩ : ∃ k, b = [k] := by
        cases hb with
        | cons _ h' => cases h'; exact ⟨_, rfl⟩
      exact congrArg (fun x => (if k = 0 then 1 / 2 else -1) * x) (h.2 n [k] hb j)⟩)
    (fun _ _ _ _ => rfl) (arDensity_same N y _)

/-- The state on tensors before the first observation: particles drawn from the standard normal. -/
def arStart (N : ℕ) (ω : ℕ → DemoEntry) : CorrectionT :=
  ⟨⟨[2, N], fun i => (arNoise ω).1 (i.tail.headD 0, i.headD 0)⟩, ⟨[2, N], fun _ => 0⟩, ⟨[2], fun _ => 0⟩, ⟨[2, N], fun i => i.tail.headD 0⟩⟩

/-- A case of `C155_sisr_unbiased`, `C155_apf_unbiased`, `C155_run_every` and `C155_systematic`: for any number of particles, over an
observation, a gap and an observation of processes that are observed every third step, both filters estimate the likelihood of the second
process without bias. -/
example (N : ℕ) (hN : 0 < N) (k : FilterKind) (hk : k ≠ .gpf) : ∃ total : (ℕ → DemoEntry) → Tensor,
    (∀ ω, ∃ c, runEveryT true (everyOf [] k (arFilter N) arParts 3 2 [some 2, none, some 5]
      (initializeFilter (-100) fun n b _ => (arNoise ω).1 (n.val, b.val)) (arNoise ω).2) (arStart N ω) ⟨[2], fun _ => 0⟩ = .ok (c, total ω)) ∧
    ∫⁻ ω, ENNReal.ofReal (Real.exp ((total ω).val [1])) ∂(Unbiased.streamLaw demoEntryLaw) =
      ∫⁻ x, lik (fun t => Unbiased.noiseKernel (gaussianReal 0 1) (demoMove 1 t))
        (fun (y : Option ℝ) _ x => ENNReal.ofReal (Real.exp (-(y.getD 0 - x 0) ^ 2 / 2)))
        (slots 3 Option.isNone [some 2, none, some 5]) 0 x ∂((gaussianReal 0 1).map fun z (_ : Fin 1) => z) := by
  have hs : ∀ ω, HoldsC [] (arStart N ω) (initializeFilter (-100) fun (n : Fin N) (b : Fin 2) (_ : Fin (dim [])) => (arNoise ω).1 (n.val, b.val)) := by
    refine fun ω => ⟨⟨rfl, fun _ _ _ => rfl⟩, ⟨rfl, fun n b => ?_⟩, ⟨rfl, fun _ => rfl⟩, ⟨rfl, fun _ _ => rfl⟩⟩
    unfold initializeFilter PCorr.mk'
    rw [Unbiased.normalize2_fin]
    rfl
  have hK := Unbiased.noise_transitions (N := N) _ demo_noise measurable_demoMove
  have hi := Unbiased.noise_initial (N := N) (B := 2) _ demo_noise (f := fun _ z (_ : Fin 1) => z) fun _ => by fun_prop
  have hp := Unbiased.bootstrap_proper _ hK (fun _ (y : Option ℝ) _ x => -(y.getD 0 - x 0) ^ 2 / 2) fun _ _ _ => by fun_prop
  cases k with
  | sisr =>
    exact C155_sisr_unbiased _ hN [] (by simp) (arFilter N) arParts (arParts_same N hN) rfl (Unbiased.systematic_unbiased _ arRand_draws).1
      (fun b t => Unbiased.noiseKernel (gaussianReal 0 1) (demoMove b t)) (fun _ => (gaussianReal 0 1).map fun z _ => z)
      (fun _ y _ x => -(y.getD 0 - x ix0) ^ 2 / 2) (fun _ _ _ => by fun_prop) _ hi hK hp (arStart N) hs ⟨3, true, .skip⟩ (by norm_num)
      2 le_rfl _ 1
  | apf =>
    exact C155_apf_unbiased _ hN [] (by simp) (arFilter N) arParts (arParts_same N hN) rfl (Unbiased.systematic_unbiased _ arRand_draws).2
      (fun b t => Unbiased.noiseKernel (gaussianReal 0 1) (demoMove b t)) (fun _ => (gaussianReal 0 1).map fun z _ => z)
      (fun _ y _ x => -(y.getD 0 - x ix0) ^ 2 / 2) (fun _ _ _ => by fun_prop) _ hi hK hp
      (fun y _ v n b => -(y.getD 0 - v n b ix0) ^ 2 / 2) (fun _ _ => by fun_prop) (fun _ _ _ _ => rfl) (arStart N) hs ⟨3, true, .skip⟩ (by norm_num)
      2 le_rfl _ 1
  | gpf => exact absurd rfl hk

end Verif.Props
