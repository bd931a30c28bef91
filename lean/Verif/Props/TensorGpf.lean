import Verif.Lemmas.TensorGpf
import Verif.Props.TensorRun

/-!
# Property C153: the Gaussian particle filter treats every filter of a batch as if it were alone
-/

namespace Verif.Props

open Verif Verif.Torch

/-- `GaussianProposal.sample_and_weight` draws for every particle a state from the normal distribution with the mean and covariance of
the propagated particles of its own filter, with their normalised weights, and returns the log-density of the observation at that state
as its weight. -/
theorem C153_proposal (chol : ∀ n, Matrix (Fin n) (Fin n) ℝ → Matrix (Fin n) (Fin n) ℝ) (N : ℕ) (ev bs : List ℕ) (hev : ev.length ≤ 1)
    (h1 : ev ≠ [1]) (hb1 : bs.length ≤ 1) (propagate logProb : Tensor → Except PyErr Tensor)
    (T : Fin N → List ℕ → (Fin (dim ev) → ℝ) → Fin (dim ev) → ℝ) (L : Fin N → List ℕ → (Fin (dim ev) → ℝ) → ℝ)
    (hT : PropagateG N ev bs propagate T) (hL : DensG N ev bs logProb L) (noise : List ℕ → ℝ) :
    PropG N ev bs (gaussianSampleAndWeight chol ev propagate logProb noise)
      (fun n b x v => fittedDraw chol ev (fun k => T k b (x k)) v fun j => noise (compIx ev j.val ++ (b ++ [n.val])))
      fun n b x v => L n b (fittedDraw chol ev (fun k => T k b (x k)) v fun j => noise (compIx ev j.val ++ (b ++ [n.val]))) := by
  intro z v G U hz hv
  obtain ⟨x, x1, x2⟩ := hT z G hz
  obtain ⟨y, y1, y2⟩ := gaussianValues_ok chol hev h1 hb1 noise x2 hv
  obtain ⟨t, t1, t2⟩ := hL y _ y2
  refine ⟨y, t, ?_, y2, t2⟩
  unfold gaussianSampleAndWeight
  rw [hz.1, List.drop_left]
  simp only [x1, y1, t1, ok_bind]
  rfl

/-- A run of the `GPF` over observations and gaps: what happens to filter `b` is a run of the Gaussian particle filter of that filter
alone, and its total log-likelihood is the sum of its own estimates. -/
theorem C153_run (N : ℕ) (hN : 0 < N) (ev bs : List ℕ) (steps : List StepT)
    (Rs : List (List ℕ → OneMove N (dim ev))) (hs : List.Forall₂ (GpfStep N ev bs) steps Rs) (c : CorrectionT) (total : Tensor)
    (F : Fin N → List ℕ → Fin (dim ev) → ℝ) (W : Fin N → List ℕ → ℝ) (Q : Fin N → List ℕ → Fin N) (hc : CorrG c ev bs F W Q)
    (ht : total.shape = bs) :
    ∃ (c' : CorrectionT) (total' : Tensor) (F' : Fin N → List ℕ → Fin (dim ev) → ℝ) (W' : Fin N → List ℕ → ℝ) (Q' : Fin N → List ℕ → Fin N),
      runT steps c total = .ok (c', total') ∧ CorrG c' ev bs F' W' Q' ∧ total'.shape = bs ∧
      ∀ b, InShape bs b → ∃ L, OneRun (Rs.map fun R => R b) (oneOf F W Q b) (oneOf F' W' Q' b) L ∧ total'.val b = total.val b + L :=
  run_ok (hs.imp fun _ _ h => h.stepG hN) c total F W Q hc ht

/-- A filter of a batch has the particles, weights, ancestors and log-likelihood that it has when the `GPF` is run with that filter
alone, with the same start and proposals. -/
theorem C153_alone (N : ℕ) (hN : 0 < N) (ev bs : List ℕ) (b : List ℕ) (hb : InShape bs b)
    (steps steps' : List StepT) (Rs Rs' : List (List ℕ → OneMove N (dim ev))) (hs : List.Forall₂ (GpfStep N ev bs) steps Rs)
    (hs' : List.Forall₂ (GpfStep N ev []) steps' Rs') (same : Rs.map (fun R => R b) = Rs'.map fun R => R [])
    (c d : CorrectionT) (t u : Tensor) (F G : Fin N → List ℕ → Fin (dim ev) → ℝ) (W X : Fin N → List ℕ → ℝ) (Q P : Fin N → List ℕ → Fin N)
    (hc : CorrG c ev bs F W Q) (hd : CorrG d ev [] G X P) (ht : t.shape = bs) (hu : u.shape = []) (start : t.val b = u.val [])
    (hx : ∀ n, F n b = G n []) (hw : ∀ n, W n b = X n []) (hq : ∀ n, Q n b = P n []) :
    ∃ c' d' t' u', runT steps c t = .ok (c', t') ∧ runT steps' d u = .ok (d', u') ∧ t'.val b = u'.val [] ∧
      ∀ n : Fin N, c'.w.val (b ++ [n.val]) = d'.w.val [n.val] ∧ c'.indices.val (b ++ [n.val]) = d'.indices.val [n.val] ∧
        ∀ j : Fin (dim ev), c'.x.val (compIx ev j ++ (b ++ [n.val])) = d'.x.val (compIx ev j ++ [n.val]) := by
  obtain ⟨c', t', F', W', Q', r1, r2, -, r4⟩ := C153_run N hN ev bs steps Rs hs c t F W Q hc ht
  obtain ⟨d', u', G', X', P', q1, q2, -, q4⟩ := C153_run N hN ev [] steps' Rs' hs' d u G X P hd hu
  obtain ⟨L, l1, l2⟩ := r4 b hb
  obtain ⟨M, m1, m2⟩ := q4 [] List.Forall₂.nil
  have e : oneOf F W Q b = oneOf G X P [] := OneFilter.ext' hx hw hq
  rw [e, same] at l1
  obtain ⟨s1, s2⟩ := OneRun.functional_gpf hs' l1 m1
  have sx (n : Fin N) : F' n b = G' n [] := congrFun (congrArg OneFilter.x s1) n
  have sw (n : Fin N) : W' n b = X' n [] := congrFun (congrArg OneFilter.w s1) n
  have sq (n : Fin N) : Q' n b = P' n [] := congrFun (congrArg OneFilter.a s1) n
  refine ⟨c', d', t', u', r1, q1, by rw [l2, m2, start, s2], fun n => ⟨?_, ?_, fun j => ?_⟩⟩
  · rw [r2.2.1.2 n b hb, sw]
    exact (q2.2.1.2 n [] List.Forall₂.nil).symm
  · rw [r2.2.2.2 n b hb, sq]
    exact (q2.2.2.2 n [] List.Forall₂.nil).symm
  · rw [r2.1.2 n b hb j, sx]
    exact (q2.1.2 n [] List.Forall₂.nil j).symm

/-- One move of the `GPF` with the Gaussian proposal: the particles of filter `b` are drawn from the normal distribution fitted to its
propagated particles, weighed by the density of the observation, and the estimate is the mean of these weights. -/
theorem C153_gaussian_move (chol : ∀ n, Matrix (Fin n) (Fin n) ℝ → Matrix (Fin n) (Fin n) ℝ) (N : ℕ) (hN : 0 < N) (ev bs : List ℕ)
    (hev : ev.length ≤ 1) (h1 : ev ≠ [1]) (hb1 : bs.length ≤ 1) (propagate logProb : Tensor → Except PyErr Tensor)
    (T : Fin N → List ℕ → (Fin (dim ev) → ℝ) → Fin (dim ev) → ℝ) (L : Fin N → List ℕ → (Fin (dim ev) → ℝ) → ℝ)
    (hT : PropagateG N ev bs propagate T) (hL : DensG N ev bs logProb L) (noise : List ℕ → ℝ) (c : CorrectionT)
    (F : Fin N → List ℕ → Fin (dim ev) → ℝ) (W : Fin N → List ℕ → ℝ) (Q : Fin N → List ℕ → Fin N) (hc : CorrG c ev bs F W Q) :
    ∃ (p : PredictionT) (c' : CorrectionT) (F' : Fin N → List ℕ → Fin (dim ev) → ℝ), gpfPredict c.x c.w c.indices = .ok p ∧
      gpfCorrect (gaussianSampleAndWeight chol ev propagate logProb noise) p = .ok c' ∧
      CorrG c' ev bs F' (fun n b => L n b (F' n b)) Q ∧ c'.ll.shape = bs ∧
      ∀ b, InShape bs b →
        (∀ n, F' n b = fittedDraw chol ev (fun k => T k b (F k b)) (softmaxOf fun k => W k b) fun j => noise (compIx ev j.val ++ (b ++ [n.val]))) ∧
        c'.ll.val b = Real.log ((∑ n, Real.exp (L n b (F' n b))) / N) := by
  obtain ⟨v, v1, v2⟩ := normalizeT_ok hN hc.2.1
  have hp : gpfPredict c.x c.w c.indices = .ok ⟨c.x, c.w, v, c.indices⟩ := by
    unfold gpfPredict
    rw [v1]
    rfl
  obtain ⟨c', F', W', Q', e1, e2, e3, e4⟩ :=
    (GpfStep.seen (C153_proposal chol N ev bs hev h1 hb1 propagate logProb T L hT hL noise)).stepG hN c F W Q hc
  unfold StepT.move at e1
  simp only [hp, ok_bind] at e1
  refine ⟨_, c', F', hp, e1, ⟨e2.1, ⟨e2.2.1.1, fun n b hb => ?_⟩, e2.2.2.1, fun n b hb => ?_⟩, e3, fun b hb => ?_⟩
  · obtain ⟨-, a2, a3, -⟩ := e4 b hb
    rw [e2.2.1.2 n b hb]
    exact (a3 n).trans (congrArg (L n b) (a2 n).symm)
  · obtain ⟨a1, -⟩ := e4 b hb
    rw [e2.2.2.2 n b hb]
    exact congrArg Fin.val (congrFun a1 n)
  · obtain ⟨-, a2, -, a4⟩ := e4 b hb
    refine ⟨a2, a4.trans ?_⟩
    have e (n : Fin N) := a2 n
    exact congrArg (fun r => Real.log (r / N)) (Finset.sum_congr rfl fun n _ => congrArg (fun r => Real.exp (L n b r)) (e n).symm)

theorem squareDens_dens (N : ℕ) (bs : List ℕ) : DensG N [] bs (fun z => .ok (z.map fun r => -(r ^ 2))) fun _ _ g => -(g (0 : Fin 1) ^ 2) :=
  fun _ _ hz => ⟨_, rfl, hz.1, fun n b hb => congrArg (fun r => -(r ^ 2)) (hz.2 n b hb (0 : Fin 1))⟩

/-- A case of `C153_alone` (and of `C153_run`, `C153_proposal`): the second of three filters of two particles, an observation and a gap;
the total log-likelihood is that of the filter alone. -/
example (chol : ∀ n, Matrix (Fin n) (Fin n) ℝ → Matrix (Fin n) (Fin n) ℝ) (eps : ℕ → ℝ) : ∃ c d t u,
    runT [⟨gpfPredict, .seen (gpfCorrect (gaussianSampleAndWeight chol [] (fun z => .ok (z.map (· + 1)))
        (fun z => .ok (z.map fun r => -(r ^ 2))) fun i => eps (i.getLastD 0)))⟩, ⟨gpfPredict, .missing fun z => .ok (z.map (· + 1))⟩]
      ⟨⟨[3, 2], fun i => 10 * (i.headD 0 : ℝ) + i.tail.headD 0⟩, ⟨[3, 2], fun i => i.tail.headD 0⟩, ⟨[3], fun _ => 0⟩,
        ⟨[3, 2], fun i => i.tail.headD 0⟩⟩ ⟨[3], fun _ => 0⟩ = .ok (c, t) ∧
    runT [⟨gpfPredict, .seen (gpfCorrect (gaussianSampleAndWeight chol [] (fun z => .ok (z.map (· + 1)))
        (fun z => .ok (z.map fun r => -(r ^ 2))) fun i => eps (i.getLastD 0)))⟩, ⟨gpfPredict, .missing fun z => .ok (z.map (· + 1))⟩]
      ⟨⟨[2], fun i => 10 + (i.headD 0 : ℝ)⟩, ⟨[2], fun i => i.headD 0⟩, ⟨[], fun _ => 0⟩, ⟨[2], fun i => i.headD 0⟩⟩
      ⟨[], fun _ => 0⟩ = .ok (d, u) ∧ t.val [1] = u.val [] := by
  have pr (bs : List ℕ) (hb : bs.length ≤ 1) := C153_proposal chol 2 [] bs (by simp) (by simp) hb _ _ _ _ (addOne_propagate 2 [] bs)
    (squareDens_dens 2 bs) fun i => eps (i.getLastD 0)
  obtain ⟨c, d, t, u, e1, e2, e3, -⟩ := C153_alone 2 (by omega) [] [3] [1] (inShape_one.2 ⟨1, rfl, by omega⟩) _ _ _ _
    (.cons (.seen (pr [3] (by simp))) (.cons (.missing (addOne_propagate 2 [] [3])) .nil))
    (.cons (.seen (pr [] (by simp))) (.cons (.missing (addOne_propagate 2 [] [])) .nil)) rfl
    ⟨⟨[3, 2], fun i => 10 * (i.headD 0 : ℝ) + i.tail.headD 0⟩, ⟨[3, 2], fun i => i.tail.headD 0⟩, ⟨[3], fun _ => 0⟩,
      ⟨[3, 2], fun i => i.tail.headD 0⟩⟩
    ⟨⟨[2], fun i => 10 + (i.headD 0 : ℝ)⟩, ⟨[2], fun i => i.headD 0⟩, ⟨[], fun _ => 0⟩, ⟨[2], fun i => i.headD 0⟩⟩
    ⟨[3], fun _ => 0⟩ ⟨[], fun _ => 0⟩ (fun n b _ => 10 * (b.headD 0 : ℝ) + n.val) (fun n _ _ => 10 + n.val) (fun n _ => n) (fun n _ => n)
    (fun n _ => n) (fun n _ => n)
    ⟨⟨rfl, fun n b hb j => by obtain ⟨k, rfl, hk⟩ := inShape_one.1 hb; rfl⟩,
      ⟨rfl, fun n b hb => by obtain ⟨k, rfl, hk⟩ := inShape_one.1 hb; rfl⟩,
      ⟨rfl, fun n b hb => by obtain ⟨k, rfl, hk⟩ := inShape_one.1 hb; rfl⟩⟩
    ⟨⟨rfl, fun n b hb j => by cases hb; rfl⟩, ⟨rfl, fun n b hb => by cases hb; rfl⟩, ⟨rfl, fun n b hb => by cases hb; rfl⟩⟩ rfl rfl rfl
    (fun n => by funext j; norm_num) (fun _ => rfl) fun _ => rfl
  exact ⟨c, d, t, u, e1, e2, e3⟩

/-- A case of `C153_gaussian_move`: three filters of two particles; the estimate of the second one. -/
example (chol : ∀ n, Matrix (Fin n) (Fin n) ℝ → Matrix (Fin n) (Fin n) ℝ) (eps : List ℕ → ℝ) : ∃ p c,
    gpfPredict ⟨[3, 2], fun i => 10 * (i.headD 0 : ℝ) + i.tail.headD 0⟩ ⟨[3, 2], fun i => i.tail.headD 0⟩ ⟨[3, 2], fun i => i.tail.headD 0⟩ =
      .ok p ∧
    gpfCorrect (gaussianSampleAndWeight chol [] (fun z => .ok (z.map (· + 1))) (fun z => .ok (z.map fun r => -(r ^ 2))) eps) p = .ok c ∧
    c.ll.val [1] = Real.log ((∑ n : Fin 2, Real.exp (-(fittedDraw chol [] (fun (k : Fin 2) _ => 10 * (1 : ℕ) + (k.val : ℝ) + 1)
      (softmaxOf fun k : Fin 2 => (k.val : ℝ)) (fun _ => eps [1, n.val]) (0 : Fin 1)) ^ 2)) / (2 : ℕ)) := by
  obtain ⟨p, c, F', e1, e2, -, -, e3⟩ := C153_gaussian_move chol 2 (by omega) [] [3] (by simp) (by simp) (by simp) _ _ _ _
    (addOne_propagate 2 [] [3]) (squareDens_dens 2 [3]) eps
    ⟨⟨[3, 2], fun i => 10 * (i.headD 0 : ℝ) + i.tail.headD 0⟩, ⟨[3, 2], fun i => i.tail.headD 0⟩, ⟨[3], fun _ => 0⟩,
      ⟨[3, 2], fun i => i.tail.headD 0⟩⟩ (fun n b _ => 10 * (b.headD 0 : ℝ) + n.val) (fun n _ => n) (fun n _ => n)
    ⟨⟨rfl, fun n b hb j => by obtain ⟨k, rfl, hk⟩ := inShape_one.1 hb; rfl⟩,
      ⟨rfl, fun n b hb => by obtain ⟨k, rfl, hk⟩ := inShape_one.1 hb; rfl⟩,
      ⟨rfl, fun n b hb => by obtain ⟨k, rfl, hk⟩ := inShape_one.1 hb; rfl⟩⟩
  obtain ⟨e4, e5⟩ := e3 [1] (inShape_one.2 ⟨1, rfl, by omega⟩)
  refine ⟨p, c, e1, e2, e5.trans ?_⟩
  exact congrArg (fun r => Real.log (r / (2 : ℕ))) (Finset.sum_congr rfl fun n _ => by rw [e4 n]; rfl)

end Verif.Props
