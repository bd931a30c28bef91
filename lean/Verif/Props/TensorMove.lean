import Verif.Lemmas.TensorMove
import Verif.Props.TensorSisr

/-!
# Property C149: a move of SISR and of the APF treats every filter of a batch as if it were alone
-/

namespace Verif.Props

open Verif Verif.Torch

/-- `SISR.correct`: every filter draws and weighs its own particles, adds to its own log-weights, and its estimate of the
log-likelihood averages its own new weights with its own normalised weights. -/
theorem C149_sisr_correct (N : ℕ) (hN : 0 < N) (ev bs : List ℕ) (f : Tensor → Tensor → Except PyErr (Tensor × Tensor))
    (S : Fin N → List ℕ → (Fin N → Fin (dim ev) → ℝ) → (Fin N → ℝ) → Fin (dim ev) → ℝ)
    (V : Fin N → List ℕ → (Fin N → Fin (dim ev) → ℝ) → (Fin N → ℝ) → ℝ) (hf : PropG N ev bs f S V) (p : PredictionT)
    (F : Fin N → List ℕ → Fin (dim ev) → ℝ) (W U : Fin N → List ℕ → ℝ) (hx : PartG p.x ev bs F) (hw : WeightG p.weights bs W)
    (hu : WeightG p.normalized bs U) (pos : ∀ n b, InShape bs b → 0 < U n b) :
    ∃ c, sisrCorrect f p = .ok c ∧ c.indices = p.indices ∧
      PartG c.x ev bs (fun n b => S n b (fun k => F k b) fun k => U k b) ∧
      WeightG c.w bs (fun n b => V n b (fun k => F k b) (fun k => U k b) + W n b) ∧
      c.ll.shape = bs ∧ ∀ b, InShape bs b →
        c.ll.val b = Real.log (∑ n, U n b * Real.exp (V n b (fun k => F k b) fun k => U k b)) := by
  obtain ⟨z, t, e1, e2, e3⟩ := hf _ _ F U hx hu
  obtain ⟨w, w1, w2⟩ := e3.zipWith (· + ·) hw
  obtain ⟨l, l1, l2, l3⟩ := logLikelihoodT_ok e3 (some p.normalized) (.inr ⟨_, rfl, hu⟩) fun b hb =>
    Finset.sum_pos (fun n _ => mul_pos (pos n b hb) (Real.exp_pos _)) ⟨⟨0, hN⟩, Finset.mem_univ _⟩
  refine ⟨⟨z, w, l, p.indices⟩, ?_, rfl, e2, w2, l2, l3⟩
  unfold sisrCorrect
  simp only [e1, ok_bind, w1, l1]
  rfl

/-- `SISR.predict` and `SISR.correct` for a batch of filters: a filter whose effective sample size is below the threshold moves
resampled particles of its own, of equal weights; all others move their particles and keep their weights. -/
theorem C149_sisr_batch (N B : ℕ) (hN : 0 < N) (ev : List ℕ) (hh : ev.length ≤ 1) (threshold : ℝ) (res : Tensor → Except PyErr Index)
    (A : ℕ → (Fin N → ℝ) → Fin N → Fin N) (hA : ColumnG N res A) (f : Tensor → Tensor → Except PyErr (Tensor × Tensor))
    (S : Fin N → List ℕ → (Fin N → Fin (dim ev) → ℝ) → (Fin N → ℝ) → Fin (dim ev) → ℝ)
    (V : Fin N → List ℕ → (Fin N → Fin (dim ev) → ℝ) → (Fin N → ℝ) → ℝ) (hf : PropG N ev [B] f S V) (x w : Tensor) (prev : Index)
    (F : Fin N → List ℕ → Fin (dim ev) → ℝ) (W : Fin N → List ℕ → ℝ) (Q : Fin N → List ℕ → Fin N)
    (hx : PartG x ev [B] F) (hw : WeightG w [B] W) (hp : IndexG prev [B] Q) :
    ∃ (p : PredictionT) (c : CorrectionT), sisrPredict ev threshold res x w prev = .ok p ∧ sisrCorrect f p = .ok c ∧
      c.x.shape = ev ++ [B, N] ∧ c.w.shape = [B, N] ∧ c.ll.shape = [B] ∧
      (∀ b < B, ¬ essOf (fun n => W n [b]) < threshold →
        let v (n : Fin N) : ℝ := V n [b] (fun k => F k [b]) (softmaxOf fun k => W k [b])
        (∀ (n : Fin N) (j : Fin (dim ev)), c.x.val (compIx ev j ++ [b, n.val]) = S n [b] (fun k => F k [b]) (softmaxOf fun k => W k [b]) j) ∧
        (∀ n : Fin N, c.w.val [b, n.val] = v n + W n [b]) ∧
        c.ll.val [b] = Real.log (∑ n, softmaxOf (fun k => W k [b]) n * Real.exp (v n))) ∧
      ∃ low : ℕ → Bool, (∀ b < B, low b = true ↔ essOf (fun n => W n [b]) < threshold) ∧
        ∀ b < B, essOf (fun n => W n [b]) < threshold →
        let G (n : Fin N) : Fin (dim ev) → ℝ := F (A ((List.range b).filter low).length (softmaxOf fun k => W k [b]) n) [b]
        let v (n : Fin N) : ℝ := V n [b] G fun _ => 1 / N
        (∀ (n : Fin N) (j : Fin (dim ev)), c.x.val (compIx ev j ++ [b, n.val]) = S n [b] G (fun _ => 1 / N) j) ∧
        (∀ n : Fin N, c.w.val [b, n.val] = v n) ∧ c.ll.val [b] = Real.log ((∑ n, Real.exp (v n)) / N) := by
  obtain ⟨p, low, p1, p2, p3, p4, p5, p6⟩ := C148_batch N B hN ev hh threshold res A hA x w prev F W Q hx hw hp
  have hN' : (0 : ℝ) < 1 / N := by positivity
  obtain ⟨c, c1, -, c3, c4, c5, c6⟩ := C149_sisr_correct N hN ev [B] f S V hf p _ _ _ p3 p4 p5 fun n b _ => by
    by_cases h : low (b.headD 0) = true
    · simp only [h, if_true]
      exact hN'
    · exact (softmaxOf_pos _ n).trans_eq (if_neg h).symm
  refine ⟨p, c, p1, c1, c3.1, c4.1, c5, fun b hb hl => ?_, low, p2, fun b hb hl => ?_⟩
  · have hi : InShape [B] [b] := inShape_one.2 ⟨b, rfl, hb⟩
    have hlow : low b = false := by rw [Bool.eq_false_iff, Ne, p2 b hb]; exact hl
    refine ⟨fun n j => ?_, fun n => ?_, ?_⟩
    · have := c3.2 n [b] hi j
      simp only [List.headD_cons, hlow, Bool.false_eq_true, if_false] at this
      exact this
    · have := c4.2 n [b] hi
      simp only [List.headD_cons, hlow, Bool.false_eq_true, if_false] at this
      exact this
    · have := c6 [b] hi
      simp only [List.headD_cons, hlow, Bool.false_eq_true, if_false] at this
      exact this
  · have hi : InShape [B] [b] := inShape_one.2 ⟨b, rfl, hb⟩
    have hlow : low b = true := (p2 b hb).2 hl
    refine ⟨fun n j => ?_, fun n => ?_, ?_⟩
    · have := c3.2 n [b] hi j
      simp only [List.headD_cons, hlow, if_true] at this
      exact this
    · have := c4.2 n [b] hi
      simp only [List.headD_cons, hlow, if_true, add_zero] at this
      exact this
    · have := c6 [b] hi
      simp only [List.headD_cons, hlow, if_true, ← Finset.mul_sum] at this
      rw [this, one_div, div_eq_inv_mul]

/-- `APF.predict` and `APF.correct`: every filter chooses its ancestors by its own first-stage weights, moves them, divides the new
weights by the pre-weights of the ancestors, and its estimate of the log-likelihood is that of its own weights. -/
theorem C149_apf (N : ℕ) (hN : 0 < N) (ev bs : List ℕ) (hh : ev.length ≤ 1) (hb1 : bs.length ≤ 1) (res : Tensor → Except PyErr Index)
    (A : List ℕ → (Fin N → ℝ) → Fin N → Fin N) (hA : SchemeG N bs res A) (pre : Tensor → Except PyErr Tensor)
    (P : Fin N → List ℕ → (Fin N → Fin (dim ev) → ℝ) → ℝ) (hP : PreG N ev bs pre P)
    (f : Tensor → Tensor → Except PyErr (Tensor × Tensor))
    (S : Fin N → List ℕ → (Fin N → Fin (dim ev) → ℝ) → (Fin N → ℝ) → Fin (dim ev) → ℝ)
    (V : Fin N → List ℕ → (Fin N → Fin (dim ev) → ℝ) → (Fin N → ℝ) → ℝ) (hf : PropG N ev bs f S V) (x w : Tensor)
    (F : Fin N → List ℕ → Fin (dim ev) → ℝ) (W : Fin N → List ℕ → ℝ) (hx : PartG x ev bs F) (hw : WeightG w bs W) :
    ∃ (p : PredictionT) (c : CorrectionT), apfPredict bs N x w = .ok p ∧ IndexG p.indices bs (fun (n : Fin N) _ => n) ∧
      apfCorrect res pre f p = .ok c ∧
      let h (n : Fin N) (b : List ℕ) : ℝ := P n b fun k => F k b
      let a (n : Fin N) (b : List ℕ) : Fin N := A b (fun k => h k b + W k b) n
      let v (n : Fin N) (b : List ℕ) : ℝ := V n b (fun k => F (a k b) b) (fun _ => 1 / N) - h (a n b) b
      IndexG c.indices bs a ∧ PartG c.x ev bs (fun n b => S n b (fun k => F (a k b) b) fun _ => 1 / N) ∧ WeightG c.w bs v ∧
      c.ll.shape = bs ∧ ∀ b, InShape bs b → c.ll.val b = Real.log ((∑ n, Real.exp (v n b)) / N) +
        Real.log (∑ n, softmaxOf (fun k => W k b) n * Real.exp (h n b)) := by
  obtain ⟨u, u1, u2⟩ := normalizeT_ok hN hw
  have hN' : (0 : ℝ) < N := by exact_mod_cast hN
  have old : ∃ i, (if bs ≠ [] then (Index.mk [N] fun i => i.headD 0).unsqueeze1.expandTo (bs ++ [N]) else pure ⟨[N], fun i => i.headD 0⟩ :
      Except PyErr Index) = .ok i ∧ IndexG i bs (fun (n : Fin N) _ => n) := by
    match bs, hb1 with
    | [], _ => exact ⟨_, rfl, rfl, fun n b hb => by cases hb; rfl⟩
    | [B], _ =>
      refine ⟨⟨[B, N], fun i => (fun i : List ℕ => i.tail.headD 0) (broadcastIndex [1, N] i)⟩, ?_, rfl, fun n b hb => ?_⟩
      · simp [Index.expandTo, Index.unsqueeze1, broadcastShape]
      · obtain ⟨k, rfl, hk⟩ := inShape_one.1 hb
        have := n.2
        simp [broadcastIndex]
        omega
  obtain ⟨i, i1, i2⟩ := old
  obtain ⟨t, t1, t2⟩ := hP x F hx
  obtain ⟨r, r1, r2⟩ := t2.zipWith (· + ·) hw
  obtain ⟨idx, d1, d2⟩ := hA r _ r2
  obtain ⟨y, y1, y2⟩ := batchedGather_ok hh hx d2
  have eq : WeightG (⟨r.shape, fun _ => 1 / t.shape.getLastD 0⟩ : Tensor) bs fun (_ : Fin N) _ => (1 / N : ℝ) :=
    ⟨r2.1, fun _ _ _ => by dsimp only; rw [t2.1, getLastD_concat]⟩
  obtain ⟨z, q, e1, e2, e3⟩ := hf _ _ _ _ y2 eq
  obtain ⟨g, g1, g2⟩ := gatherWeight_ok t2 d2
  obtain ⟨s, s1, s2⟩ := e3.zipWith (· - ·) g2
  obtain ⟨l, l1, l2, l3⟩ := logLikelihoodT_ok s2 none (U := fun _ _ => 1 / N) (.inl ⟨rfl, fun _ _ => rfl⟩) fun b hb =>
    Finset.sum_pos (fun n _ => mul_pos (by positivity) (Real.exp_pos _)) ⟨⟨0, hN⟩, Finset.mem_univ _⟩
  obtain ⟨m, m1, m2⟩ := u2.zipWith (· * ·) (t2.map Real.exp)
  obtain ⟨k, k1, k2, k3⟩ := zip_batch (x := l) (y := m.sum0.map Real.log) ⟨l2, l3⟩ ⟨m2.sum0.1, fun b hb => congrArg Real.log (m2.sum0.2 b hb)⟩
  refine ⟨⟨x, w, u, i⟩, ⟨z, s, k, idx⟩, ?_, i2, ?_, d2, e2, s2, k2, fun b hb => ?_⟩
  · unfold apfPredict
    simp only [u1, ok_bind]
    rw [u2.1, getLastD_concat, i1]
    rfl
  · unfold apfCorrect
    simp only [t1, r1, d1, y1, e1, g1, s1, l1, m1, k1, ok_bind]
    rfl
  · rw [k3 b hb, ← Finset.mul_sum, one_div, div_eq_inv_mul]

/-- A proposal that adds one to every particle and takes the particle as log-weight. -/
def stepProposal (z _v : Tensor) : Except PyErr (Tensor × Tensor) := .ok (z.map (· + 1), z)

theorem stepProposal_prop (N : ℕ) (bs : List ℕ) :
    PropG N [] bs stepProposal (fun n _ G _ j => G n j + 1) fun n _ G _ => G n (0 : Fin 1) :=
  fun z _ _ _ hz _ => ⟨_, _, rfl, ⟨hz.1, fun n b hb j => congrArg (· + 1) (hz.2 n b hb j)⟩, hz.1, fun n b hb => hz.2 n b hb (0 : Fin 1)⟩

/-- A case of `C149_sisr_batch` (and of `C149_sisr_correct`): two particles, three filters, of which the second has unequal weights,
is resampled and then has two particles of value `11` and log-weight `11`. -/
example : ∃ p c, sisrPredict [] 1.8 lastScheme ⟨[3, 2], fun i => 10 * (i.headD 0 : ℝ) + i.tail.headD 0⟩
    ⟨[3, 2], fun i => if i = [1, 1] then Real.log 4 else 0⟩ ⟨[3, 2], fun i => i.tail.headD 0⟩ = .ok p ∧
    sisrCorrect stepProposal p = .ok c ∧ c.x.val [1, 0] = 12 ∧ c.w.val [1, 0] = 11 ∧ c.ll.val [1] = 11 ∧ c.x.val [2, 1] = 22 := by
  have h1 : WeightG (N := 2) ⟨[3, 2], fun i => if i = [1, 1] then Real.log 4 else 0⟩ [3]
      fun n b => if b = [1] then (if n = 0 then 0 else Real.log 4) else 0 := by
    refine ⟨rfl, fun n b hb => ?_⟩
    obtain ⟨k, rfl, hk⟩ := inShape_one.1 hb
    fin_cases n <;> by_cases h : k = 1 <;> simp [h]
  obtain ⟨p, c, e1, e2, -, -, -, e3, low, -, e4⟩ := C149_sisr_batch 2 3 (by omega) [] (by simp) 1.8 lastScheme _ lastScheme_column
    stepProposal _ _ (stepProposal_prop 2 [3])
    ⟨[3, 2], fun i => 10 * (i.headD 0 : ℝ) + i.tail.headD 0⟩ _ ⟨[3, 2], fun i => i.tail.headD 0⟩
    (fun n b _ => 10 * (b.headD 0 : ℝ) + n.val) _ (fun n _ => n)
    ⟨rfl, fun n b hb j => by obtain ⟨k, rfl, hk⟩ := inShape_one.1 hb; rfl⟩ h1
    ⟨rfl, fun n b hb => by obtain ⟨k, rfl, hk⟩ := inShape_one.1 hb; rfl⟩
  have a2 := (e3 2 (by omega) (by
    simp only [show ¬ ([2] : List ℕ) = [1] by simp, if_false, ess_equal]
    norm_num)).1 1 (0 : Fin 1)
  obtain ⟨a1, b1, c1⟩ := e4 1 (by omega) (by
    simp only [if_true, ess_unequal]
    norm_num)
  refine ⟨p, c, e1, e2, (a1 0 (0 : Fin 1)).trans (by norm_num), (b1 0).trans (by norm_num), c1.trans ?_, a2.trans (by norm_num)⟩
  rw [Fin.sum_univ_two]
  norm_num

theorem lastScheme_scheme (bs : List ℕ) : SchemeG 2 bs lastScheme fun _ _ _ => 1 :=
  fun t W h => ⟨_, rfl, h.1, fun _ _ _ => by dsimp only; rw [h.1, getLastD_concat]; rfl⟩

/-- A case of `C149_apf`: two particles, three filters, the pre-weight of a particle is its value; all particles descend from the
second one of their filter. -/
example : ∃ p c, apfPredict [3] 2 ⟨[3, 2], fun i => 10 * (i.headD 0 : ℝ) + i.tail.headD 0⟩ ⟨[3, 2], fun _ => 0⟩ = .ok p ∧
    apfCorrect lastScheme .ok stepProposal p = .ok c ∧ c.x.val [1, 0] = 12 ∧ c.w.val [1, 0] = 0 ∧ c.indices.val [2, 0] = 1 ∧
    c.ll.val [1] = Real.log ((Real.exp 10 + Real.exp 11) / 2) := by
  obtain ⟨p, c, e1, -, e2, e3, e4, e5, -, e6⟩ := C149_apf 2 (by omega) [] [3] (by simp) (by simp) lastScheme _ (lastScheme_scheme [3]) .ok
    (fun n _ G => G n (0 : Fin 1)) (fun z G h => ⟨z, rfl, h.1, fun n b hb => h.2 n b hb (0 : Fin 1)⟩) stepProposal _ _ (stepProposal_prop 2 [3])
    ⟨[3, 2], fun i => 10 * (i.headD 0 : ℝ) + i.tail.headD 0⟩ ⟨[3, 2], fun _ => 0⟩
    (fun n b _ => 10 * (b.headD 0 : ℝ) + n.val) (fun _ _ => 0)
    ⟨rfl, fun n b hb j => by obtain ⟨k, rfl, hk⟩ := inShape_one.1 hb; rfl⟩ ⟨rfl, fun _ _ _ => rfl⟩
  have h1 : InShape [3] [1] := inShape_one.2 ⟨1, rfl, by omega⟩
  have h2 : InShape [3] [2] := inShape_one.2 ⟨2, rfl, by omega⟩
  refine ⟨p, c, e1, e2, (e4.2 0 [1] h1 (0 : Fin 1)).trans (by norm_num), (e5.2 0 [1] h1).trans (by norm_num), e3.2 0 [2] h2,
    (e6 [1] h1).trans ?_⟩
  simp only [Fin.sum_univ_two, softmaxOf]
  norm_num
  congr 1
  ring

end Verif.Props
