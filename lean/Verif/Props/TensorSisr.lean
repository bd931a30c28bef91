import Verif.Lemmas.TensorSisr

/-!
# Property C148: `SISR.predict` resamples every degenerate filter of a batch with its own weights
-/

namespace Verif.Props

open Verif Verif.Torch

/-- The particles of the filters whose effective sample size is below the threshold are resampled, each with its own weights, the
`k`-th such filter by column `k` of the resampling scheme; all other filters keep particles, weights and indices. -/
theorem C148_batch (N B : ℕ) (hN : 0 < N) (ev : List ℕ) (hh : ev.length ≤ 1) (threshold : ℝ) (res : Tensor → Except PyErr Index)
    (A : ℕ → (Fin N → ℝ) → Fin N → Fin N) (hA : ColumnG N res A) (x w : Tensor) (prev : Index)
    (F : Fin N → List ℕ → Fin (dim ev) → ℝ) (W : Fin N → List ℕ → ℝ) (Q : Fin N → List ℕ → Fin N)
    (hx : PartG x ev [B] F) (hw : WeightG w [B] W) (hp : IndexG prev [B] Q) :
    ∃ (p : PredictionT) (low : ℕ → Bool), sisrPredict ev threshold res x w prev = .ok p ∧
      (∀ b < B, low b = true ↔ essOf (fun n => W n [b]) < threshold) ∧
      let chosen (n : Fin N) (b : List ℕ) : Fin N := A ((List.range (b.headD 0)).filter low).length (softmaxOf fun k => W k b) n
      PartG p.x ev [B] (fun n b => if low (b.headD 0) then F (chosen n b) b else F n b) ∧
      WeightG p.weights [B] (fun n b => if low (b.headD 0) then 0 else W n b) ∧
      WeightG p.normalized [B] (fun n b => if low (b.headD 0) then 1 / N else softmaxOf (fun k => W k b) n) ∧
      IndexG p.indices [B] (fun n b => if low (b.headD 0) then chosen n b else Q n b) := by
  classical
  obtain ⟨v, v1, v2⟩ := normalizeT_ok hN hw
  have sq : WeightG (v.map (· ^ 2)) [B] fun n b => softmaxOf (fun k => W k b) n ^ 2 :=
    ⟨v2.1, fun n b hb => by unfold Tensor.map; dsimp only; rw [v2.2 n b hb]⟩
  obtain ⟨s1, s2⟩ := sq.sum0
  set ess : Tensor := (v.map (· ^ 2)).sum0.map (·⁻¹) with hess
  have es (b : ℕ) (hb : b < B) : ess.val [b] = essOf fun n => W n [b] := by
    rw [hess]
    unfold Tensor.map
    dsimp only
    exact congrArg _ (s2 [b] (inShape_one.2 ⟨b, rfl, hb⟩))
  set m : Mask := ⟨ess.shape, fun i => decide (ess.val i < threshold)⟩ with hm0
  have hm : m.shape = [B] := s1
  have low (b : ℕ) (hb : b < B) : m.val [b] = true ↔ essOf (fun n => W n [b]) < threshold := by
    rw [hm0]
    dsimp only
    rw [es b hb, decide_eq_true_iff]
  have ix {b : List ℕ} (hb : InShape [B] b) : ∃ k, b = [k] ∧ k < B := by
    obtain ⟨k, rfl, hk⟩ := inShape_one.1 hb
    exact ⟨k, rfl, hk⟩
  have hany : m.any = (List.range B).any fun k => m.val [k] := by
    unfold Mask.any
    rw [hm]
  by_cases ha : m.any = true
  · -- some filters are resampled
    have nz := nonzero_batch hm
    have sel : v.selectLast m = .ok ⟨[cnt (fun l => m.val [l]) B, N], fun i => v.val (m.nonzero.getD (i.headD 0) 0 :: i.tail)⟩ := by
      unfold Tensor.selectLast
      rw [hm]
      dsimp only
      rw [if_pos (by rw [v2.1]; rfl), nz, v2.1]
      rfl
    obtain ⟨sub, u1, u2, u3⟩ := hA _ _ (show (Tensor.mk [cnt (fun l => m.val [l]) B, N] fun i =>
      v.val (m.nonzero.getD (i.headD 0) 0 :: i.tail)).shape = _ from rfl)
    have u4 (b : ℕ) (hb : b < B) (hp : m.val [b] = true) (n : Fin N) : sub.val [cnt (fun l => m.val [l]) b, n.val] =
        (A (cnt (fun l => m.val [l]) b) (softmaxOf fun k => W k [b]) n).val := by
      rw [u3 _ (cnt_lt hb hp) n]
      congr 2
      funext k
      dsimp only [List.headD_cons, List.tail_cons]
      rw [nz, filter_getD hb hp]
      exact v2.2 k [b] (inShape_one.2 ⟨b, rfl, hb⟩)
    obtain ⟨q, q1, q2⟩ := scatter_batch (ev := []) (by simp) (N := N) hm prev.val sub.val
    obtain ⟨w', w1, w2, w3⟩ := fill_batch hm (x := w) (N := N) hw.1 0
    obtain ⟨v', n1, n2, n3⟩ := fill_batch hm (x := v) (N := N) v2.1 (1 / N)
    obtain ⟨t, t1, t2, t3⟩ := pick_batch hh hm hx.1 u2 fun k hk n hn => by
      have := u3 k hk ⟨n, hn⟩
      dsimp only at this
      rw [this]
      exact Fin.is_lt _
    obtain ⟨z, z1, z2⟩ := scatter_batch hh (N := N) hm x.val t.val
    refine ⟨⟨⟨x.shape, z⟩, w', v', ⟨prev.shape, q⟩⟩, fun l => m.val [l], ?_, low, ⟨hx.1, fun n b hb j => ?_⟩, ⟨w2, fun n b hb => ?_⟩,
      ⟨n2, fun n b hb => ?_⟩, ⟨hp.1, fun n b hb => ?_⟩⟩
    · unfold sisrPredict
      simp only [v1, ok_bind]
      rw [← hess, ← hm0, ha]
      simp only [Bool.not_true, Bool.false_eq_true, if_false, sel, u1, ok_bind]
      have e1 : prev.shape = [] ++ [B, N] := hp.1
      have e2 : w.shape.getLastD 0 = N := by rw [hw.1]; rfl
      have e3 : (if ev.length > 0 then m.unsqueeze0.unsqueeze1 else m.unsqueeze0) = liftMask ev m := rfl
      have e4 : sub.shape = [] ++ [cnt (fun l => m.val [l]) B, N] := u2
      have q1' : maskedScatter prev.shape prev.val m.unsqueeze0 sub.shape sub.val = .ok q := by
        rw [e1, e4]
        exact q1
      have z1' : maskedScatter x.shape x.val (liftMask ev m) t.shape t.val = .ok z := by
        rw [t2, hx.1]
        exact z1
      rw [q1', e2, e3]
      simp only [w1, n1, t1, z1', ok_bind]
      rfl
    · obtain ⟨k, rfl, hk⟩ := ix hb
      refine (z2 k hk n.val n.2 j).trans ?_
      by_cases hl : m.val [k] = true
      · rw [if_pos hl, t3 k hk hl, u4 k hk hl n]
        exact (hx.2 _ [k] hb j).trans (congrFun (if_pos hl) j).symm
      · rw [if_neg hl]
        exact (hx.2 n [k] hb j).trans (congrFun (if_neg hl) j).symm
    · obtain ⟨k, rfl, hk⟩ := ix hb
      refine (w3 k hk n.val).trans ?_
      beta_reduce
      rw [List.headD_cons, ← hw.2 n [k] hb]
      rfl
    · obtain ⟨k, rfl, hk⟩ := ix hb
      refine (n3 k hk n.val).trans ?_
      have := v2.2 n [k] hb
      beta_reduce at this ⊢
      rw [List.headD_cons, ← this]
      rfl
    · obtain ⟨k, rfl, hk⟩ := ix hb
      refine (q2 k hk n.val n.2 (0 : Fin 1)).trans ?_
      by_cases hl : m.val [k] = true
      · rw [if_pos hl]
        refine (u4 k hk hl n).trans ?_
        simp only [List.headD_cons, hl, if_true]
        rfl
      · rw [if_neg hl]
        refine (hp.2 n [k] hb).trans ?_
        simp only [List.headD_cons, hl]
        rfl
  · -- no filter is resampled
    have none (k : ℕ) (hk : k < B) : m.val [k] = false := by
      rw [hany, List.any_eq_true] at ha
      by_contra h
      exact ha ⟨k, List.mem_range.2 hk, by simpa using h⟩
    refine ⟨⟨x, w, v, prev⟩, fun l => m.val [l], ?_, low, ⟨hx.1, fun n b hb j => ?_⟩, ⟨hw.1, fun n b hb => ?_⟩,
      ⟨v2.1, fun n b hb => ?_⟩, ⟨hp.1, fun n b hb => ?_⟩⟩
    · unfold sisrPredict
      simp only [v1, ok_bind]
      rw [← hess, ← hm0, Bool.eq_false_iff.2 ha]
      rfl
    · obtain ⟨k, rfl, hk⟩ := ix hb
      exact (hx.2 n [k] hb j).trans (congrFun (if_neg (by simp [none k hk])) j).symm
    · obtain ⟨k, rfl, hk⟩ := ix hb
      simp only [List.headD_cons, none k hk]
      exact hw.2 n [k] hb
    · obtain ⟨k, rfl, hk⟩ := ix hb
      simp only [List.headD_cons, none k hk]
      exact v2.2 n [k] hb
    · obtain ⟨k, rfl, hk⟩ := ix hb
      simp only [List.headD_cons, none k hk]
      exact hp.2 n [k] hb

/-- The same for a single filter. -/
theorem C148_single_filter (N : ℕ) (hN : 0 < N) (ev : List ℕ) (hh : ev.length ≤ 1) (threshold : ℝ) (res : Tensor → Except PyErr Index)
    (A : ℕ → (Fin N → ℝ) → Fin N → Fin N) (hA : ColumnG N res A) (x w : Tensor) (prev : Index)
    (F : Fin N → List ℕ → Fin (dim ev) → ℝ) (W : Fin N → List ℕ → ℝ) (Q : Fin N → List ℕ → Fin N)
    (hx : PartG x ev [] F) (hw : WeightG w [] W) (hp : IndexG prev [] Q) :
    ∃ p, sisrPredict ev threshold res x w prev = .ok p ∧
      let chosen (n : Fin N) : Fin N := A 0 (softmaxOf fun k => W k []) n
      (essOf (fun n => W n []) < threshold → PartG p.x ev [] (fun n _ => F (chosen n) []) ∧ WeightG p.weights [] (fun (_ : Fin N) _ => 0) ∧
        WeightG p.normalized [] (fun (_ : Fin N) _ => 1 / N) ∧ IndexG p.indices [] fun n _ => chosen n) ∧
      (¬ essOf (fun n => W n []) < threshold → p.x = x ∧ p.weights = w ∧ p.indices = prev ∧
        WeightG p.normalized [] fun n b => softmaxOf (fun k => W k b) n) := by
  classical
  obtain ⟨v, v1, v2⟩ := normalizeT_ok hN hw
  have sq : WeightG (v.map (· ^ 2)) [] fun n b => softmaxOf (fun k => W k b) n ^ 2 :=
    ⟨v2.1, fun n b hb => by unfold Tensor.map; dsimp only; rw [v2.2 n b hb]⟩
  obtain ⟨s1, s2⟩ := sq.sum0
  set ess : Tensor := (v.map (· ^ 2)).sum0.map (·⁻¹) with hess
  have es : ess.val [] = essOf fun n => W n [] := by
    rw [hess]
    unfold Tensor.map
    dsimp only
    exact congrArg _ (s2 [] List.Forall₂.nil)
  set m : Mask := ⟨ess.shape, fun i => decide (ess.val i < threshold)⟩ with hm0
  have hm : m.shape = [] := s1
  have hv : m.val [] = decide (essOf (fun n => W n []) < threshold) := by
    rw [hm0]
    dsimp only
    rw [es]
  have hany : m.any = m.val [] := by
    unfold Mask.any
    rw [hm]
  by_cases hl : essOf (fun n => W n []) < threshold
  · have ht : m.val [] = true := by rw [hv, decide_eq_true hl]
    have sel : v.selectLast m = .ok ⟨[1, N], fun i => v.val i.tail⟩ := by
      unfold Tensor.selectLast Mask.nonzero
      rw [hm]
      dsimp only
      rw [if_pos ht, v2.1]
      rfl
    obtain ⟨sub, u1, u2, u3⟩ := hA 1 ⟨[1, N], fun i => v.val i.tail⟩ rfl
    have u4 (n : Fin N) : sub.val [0, n.val] = (A 0 (softmaxOf fun k => W k []) n).val := by
      rw [u3 0 (by omega) n]
      congr 2
      funext k
      exact v2.2 k [] List.Forall₂.nil
    obtain ⟨q, q1, q2⟩ := scatter_single (ev := []) (by simp) (N := N) hm ht prev.val sub.val
    obtain ⟨t, t1, t2, t3⟩ := pick_single hm ht hx.1 u2 fun n hn => by
      have := u4 ⟨n, hn⟩
      dsimp only at this
      rw [this]
      exact Fin.is_lt _
    obtain ⟨z, z1, z2⟩ := scatter_single hh (N := N) hm ht x.val t.val
    have ex (i : List ℕ) : m.unsqueeze0.expanded i = true := (lift_single (ev := []) hm i).trans ht
    have fill (y : Tensor) (c : ℝ) (hy : y.shape = [N]) : y.maskedFill m.unsqueeze0 c = .ok ⟨[N], fun _ => c⟩ := by
      unfold Tensor.maskedFill
      rw [if_pos (by rw [hy]; simp [Mask.unsqueeze0, hm, broadcastShape]), hy]
      simp [ex]
    refine ⟨⟨⟨x.shape, z⟩, ⟨[N], fun _ => 0⟩, ⟨[N], fun _ => 1 / N⟩, ⟨prev.shape, q⟩⟩, ?_, fun _ => ⟨⟨hx.1, fun n b hb j => ?_⟩,
      ⟨rfl, fun _ _ _ => rfl⟩, ⟨rfl, fun _ _ _ => rfl⟩, ⟨hp.1, fun n b hb => ?_⟩⟩, fun h => absurd hl h⟩
    · unfold sisrPredict
      simp only [v1, ok_bind]
      rw [← hess, ← hm0, hany, ht]
      simp only [Bool.not_true, Bool.false_eq_true, if_false, sel, u1, ok_bind]
      have e2 : w.shape.getLastD 0 = N := by rw [hw.1]; rfl
      have e3 : (if ev.length > 0 then m.unsqueeze0.unsqueeze1 else m.unsqueeze0) = liftMask ev m := rfl
      have q1' : maskedScatter prev.shape prev.val m.unsqueeze0 sub.shape sub.val = .ok q := by
        rw [hp.1, u2]
        exact q1
      have z1' : maskedScatter x.shape x.val (liftMask ev m) t.shape t.val = .ok z := by
        rw [t2, hx.1]
        exact z1
      rw [q1', e2, e3]
      simp only [fill w 0 hw.1, fill v (1 / N) v2.1, t1, z1', ok_bind]
      rfl
    · cases hb
      refine (z2 n.val n.2 j).trans ?_
      rw [t3 n.val j, u4 n]
      exact hx.2 _ [] List.Forall₂.nil j
    · cases hb
      exact (q2 n.val n.2 (0 : Fin 1)).trans (u4 n)
  · have hf : m.val [] = false := by rw [hv, decide_eq_false hl]
    refine ⟨⟨x, w, v, prev⟩, ?_, fun h => absurd h hl, fun _ => ⟨rfl, rfl, rfl, v2⟩⟩
    unfold sisrPredict
    simp only [v1, ok_bind]
    rw [← hess, ← hm0, hany, hf]
    rfl

/-- A resampling scheme that takes the last particle. -/
def lastScheme (t : Tensor) : Except PyErr Index := .ok ⟨t.shape, fun _ => t.shape.getLastD 0 - 1⟩

theorem lastScheme_column : ColumnG 2 lastScheme fun _ _ _ => 1 := fun _ t ht => ⟨_, rfl, ht, fun _ _ _ => by rw [ht]; rfl⟩

/-- The effective sample size of two equal weights is two. -/
theorem ess_equal : essOf (fun _ : Fin 2 => (0 : ℝ)) = 2 := by
  unfold essOf softmaxOf
  rw [Fin.sum_univ_two, Fin.sum_univ_two]
  norm_num

/-- The effective sample size of weights `1` and `4` is `25 / 17`. -/
theorem ess_unequal : essOf (fun n : Fin 2 => if n = 0 then (0 : ℝ) else Real.log 4) = 25 / 17 := by
  unfold essOf softmaxOf
  simp only [Fin.sum_univ_two]
  norm_num [Real.exp_log]

/-- A case of `C148_batch`: two particles, three filters, of which the second has unequal weights and is resampled. -/
example : ∃ p, sisrPredict [] 1.8 lastScheme ⟨[3, 2], fun i => 10 * (i.headD 0 : ℝ) + i.tail.headD 0⟩
    ⟨[3, 2], fun i => if i = [1, 1] then Real.log 4 else 0⟩ ⟨[3, 2], fun i => i.tail.headD 0⟩ = .ok p ∧
    p.x.val [1, 0] = 11 ∧ p.x.val [0, 0] = 0 ∧ p.x.val [2, 1] = 21 := by
  have h1 : WeightG (N := 2) ⟨[3, 2], fun i => if i = [1, 1] then Real.log 4 else 0⟩ [3]
      fun n b => if b = [1] then (if n = 0 then 0 else Real.log 4) else 0 := by
    refine ⟨rfl, fun n b hb => ?_⟩
    obtain ⟨k, rfl, hk⟩ := inShape_one.1 hb
    fin_cases n <;> by_cases h : k = 1 <;> simp [h]
  obtain ⟨p, low, e1, e2, e3, -⟩ := C148_batch 2 3 (by omega) [] (by simp) 1.8 lastScheme _ lastScheme_column
    ⟨[3, 2], fun i => 10 * (i.headD 0 : ℝ) + i.tail.headD 0⟩ _ ⟨[3, 2], fun i => i.tail.headD 0⟩
    (fun n b _ => 10 * (b.headD 0 : ℝ) + n.val) _ (fun n _ => n)
    ⟨rfl, fun n b hb j => by obtain ⟨k, rfl, hk⟩ := inShape_one.1 hb; rfl⟩ h1
    ⟨rfl, fun n b hb => by obtain ⟨k, rfl, hk⟩ := inShape_one.1 hb; rfl⟩
  have l0 : low 0 = false := by
    rw [Bool.eq_false_iff, Ne, e2 0 (by omega)]
    simp only [show ¬ ([0] : List ℕ) = [1] by simp, if_false, ess_equal]
    norm_num
  have l1 : low 1 = true := by
    rw [e2 1 (by omega)]
    simp only [if_true, ess_unequal]
    norm_num
  have l2 : low 2 = false := by
    rw [Bool.eq_false_iff, Ne, e2 2 (by omega)]
    simp only [show ¬ ([2] : List ℕ) = [1] by simp, if_false, ess_equal]
    norm_num
  have a1 := e3.2 0 [1] (inShape_one.2 ⟨1, rfl, by omega⟩) (0 : Fin 1)
  have a0 := e3.2 0 [0] (inShape_one.2 ⟨0, rfl, by omega⟩) (0 : Fin 1)
  have a2 := e3.2 1 [2] (inShape_one.2 ⟨2, rfl, by omega⟩) (0 : Fin 1)
  refine ⟨p, e1, a1.trans ((congrFun (if_pos l1) _).trans ?_), a0.trans ((congrFun (if_neg (by simp [l0])) _).trans ?_),
    a2.trans ((congrFun (if_neg (by simp [l2])) _).trans ?_)⟩ <;> norm_num

/-- A case of `C148_single_filter`: two particles with unequal weights, states with two components. -/
example : ∃ p, sisrPredict [2] 1.8 lastScheme ⟨[2, 2], fun i => 10 * (i.tail.headD 0 : ℝ) + i.headD 0⟩
    ⟨[2], fun i => if i = [1] then Real.log 4 else 0⟩ ⟨[2], fun i => i.headD 0⟩ = .ok p ∧
    p.x.val [1, 0] = 11 ∧ p.weights.val [1] = 0 ∧ p.indices.val [0] = 1 := by
  have h1 : WeightG (N := 2) ⟨[2], fun i => if i = [1] then Real.log 4 else 0⟩ [] fun n _ => if n = 0 then 0 else Real.log 4 := by
    refine ⟨rfl, fun n b hb => ?_⟩
    cases hb
    fin_cases n <;> simp
  obtain ⟨p, e1, e2, -⟩ := C148_single_filter 2 (by omega) [2] (by simp) 1.8 lastScheme _ lastScheme_column
    ⟨[2, 2], fun i => 10 * (i.tail.headD 0 : ℝ) + i.headD 0⟩ _ ⟨[2], fun i => i.headD 0⟩ (fun n _ j => 10 * (n.val : ℝ) + j.val) _
    (fun n _ => n) ⟨rfl, fun n b hb j => by cases hb; rfl⟩ h1 ⟨rfl, fun n b hb => by cases hb; rfl⟩
  obtain ⟨a1, a2, -, a4⟩ := e2 (by rw [ess_unequal]; norm_num)
  refine ⟨p, e1, (a1.2 0 [] List.Forall₂.nil (1 : Fin 2)).trans (by norm_num), a2.2 1 [] List.Forall₂.nil, a4.2 0 [] List.Forall₂.nil⟩

end Verif.Props
