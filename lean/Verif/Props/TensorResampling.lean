import Verif.Lemmas.TensorResampling
import Verif.Props.TensorMove
import Verif.Props.Resampling

/-!
# Property C151: systematic resampling of tensors works filter by filter, with the cumulated weights of each
-/

namespace Verif.Props

open Verif Verif.Torch
open Verif.Spec (IsProb)

theorem position_le {N : ℕ} {u : ℝ} (hu : u ≤ 1) (n : Fin N) : ((n.val : ℝ) + u) / N ≤ 1 := by
  have h1 : (0 : ℝ) < N := by exact_mod_cast n.pos
  have h2 : ((n.val : ℝ) + 1) ≤ N := by exact_mod_cast n.2
  rw [div_le_one h1]
  linarith

/-- A matrix of normalised weights: column `k` is resampled with its own cumulated weights and the `k`-th uniform number. -/
theorem C151_columns (N : ℕ) (hN : 0 < N) (u : ℕ → ℝ) (hu : ∀ k, u k ≤ 1) :
    ∃ A, ColumnG N (systematicT u true) A ∧ ∀ k row n, FirstAbove row ((n.val + u k) / N) (A k row n) := by
  classical
  choose A hA using fun (k : ℕ) (row : Fin N → ℝ) (n : Fin N) => exists_first hN row ((n.val + u k) / N) (position_le (hu k) n)
  refine ⟨A, fun m t ht => ?_, hA⟩
  obtain ⟨r, r1, r2, r3⟩ := systematicRows_ok (m := m) hN u ⟨[N, m], fun i => t.val [i.tail.headD 0, i.headD 0]⟩ rfl
  refine ⟨⟨[m, N], fun i => r.val [i.tail.headD 0, i.headD 0]⟩, ?_, rfl, fun k hk n => ?_⟩
  · unfold systematicT Tensor.moveaxis01 Index.moveaxis01
    simp only [if_true]
    rw [show (pure t : Except PyErr Tensor) = .ok t from rfl, ok_bind, ht]
    simp only [List.length_cons, List.length_nil, show ¬ (0 + 1 + 1 = 1) by omega, if_false, r1, ok_bind, r2]
  · refine (r3 k hk n.val n.2).trans ?_
    obtain ⟨j, j1, j2⟩ := row_first hN (fun j => t.val [k, j]) ((n.val + u k) / N) (position_le (hu k) n)
    rw [← (j2.unique (hA k (fun j => t.val [k, j.val]) n))]
    exact j1

/-- Log-weights of one filter or of a batch: every filter is resampled with its own normalised weights. -/
theorem C151_filters (N : ℕ) (hN : 0 < N) (bs : List ℕ) (hb : bs.length ≤ 1) (u : ℕ → ℝ) (hu : ∀ k, u k ≤ 1) :
    ∃ A, SchemeG N bs (systematicT u false) A ∧ ∀ b W n, FirstAbove (softmaxOf W) ((n.val + u (b.headD 0)) / N) (A b W n) := by
  classical
  choose A hA using fun (b : List ℕ) (W : Fin N → ℝ) (n : Fin N) =>
    exists_first hN (softmaxOf W) ((n.val + u (b.headD 0)) / N) (position_le (hu _) n)
  refine ⟨A, fun t W ht => ?_, hA⟩
  obtain ⟨v, v1, v2⟩ := normalizeT_ok hN ht
  match bs, hb with
  | [], _ =>
    have vs : v.shape = [N] := v2.1
    obtain ⟨r, r1, r2, r3⟩ := systematicRows_ok (m := 1) hN u v.unsqueeze0 (by unfold Tensor.unsqueeze0; rw [vs]; rfl)
    have e : systematicRows u v = .ok ⟨[N], fun i => r.val (i ++ [0])⟩ := by
      have us : v.unsqueeze0.shape = [N, 1] := by unfold Tensor.unsqueeze0; rw [vs]; rfl
      unfold systematicRows at r1 ⊢
      rw [us] at r1
      rw [vs]
      simp only [List.length_cons, List.length_nil, show ¬ (0 + 1 + 1 = 1) by omega, show 0 + 1 = 1 by omega, if_false, if_true, us] at r1 ⊢
      simp only [bind, Except.bind, pure, Except.pure] at r1 ⊢
      split at r1 <;> try contradiction
      split at r1 <;> try contradiction
      split at r1 <;> try contradiction
      injection r1 with r1
      rw [r1, r2]
      rfl
    refine ⟨⟨[N], fun i => r.val (i ++ [0])⟩, ?_, rfl, fun n b hb => ?_⟩
    · unfold systematicT
      simp only [Bool.false_eq_true, if_false, v1, ok_bind]
      rw [vs, e]
      rfl
    · cases hb
      refine (r3 0 (by omega) n.val n.2).trans ?_
      obtain ⟨j, j1, j2⟩ := row_first hN (fun j => v.unsqueeze0.val [j, 0]) ((n.val + u 0) / N) (position_le (hu 0) n)
      have hrow : (fun i : Fin N => v.unsqueeze0.val [i.val, 0]) = softmaxOf fun k => W k [] := by
        funext i
        exact v2.2 i [] List.Forall₂.nil
      rw [hrow] at j2
      exact j1.trans (congrArg Fin.val (j2.unique (hA [] (fun k => W k []) n)))
  | [B], _ =>
    have vs : v.shape = [B, N] := v2.1
    obtain ⟨r, r1, r2, r3⟩ := systematicRows_ok (m := B) hN u ⟨[N, B], fun i => v.val [i.tail.headD 0, i.headD 0]⟩ rfl
    refine ⟨⟨[B, N], fun i => r.val [i.tail.headD 0, i.headD 0]⟩, ?_, rfl, fun n b hb => ?_⟩
    · unfold systematicT Tensor.moveaxis01 Index.moveaxis01
      simp only [Bool.false_eq_true, if_false, v1, ok_bind, vs]
      simp only [List.length_cons, List.length_nil, show ¬ (0 + 1 + 1 = 1) by omega, if_false, r1, ok_bind, r2]
    · obtain ⟨k, rfl, hk⟩ := inShape_one.1 hb
      refine (r3 k hk n.val n.2).trans ?_
      obtain ⟨j, j1, j2⟩ := row_first hN (fun j => v.val [k, j]) ((n.val + u k) / N) (position_le (hu k) n)
      have hrow : (fun i : Fin N => v.val [k, i.val]) = softmaxOf fun l => W l [k] := by
        funext i
        exact v2.2 i [k] hb
      rw [hrow] at j2
      exact j1.trans (congrArg Fin.val (j2.unique (hA [k] (fun l => W l [k]) n)))

/-- For a probability vector the first particle above a positive level is the quantile. -/
theorem C151_quantile {N : ℕ} {p : Fin N → ℝ} (hp : IsProb p) {v : ℝ} (hv : 0 < v) {j : Fin N} (h : FirstAbove p v j) :
    ∑ i with i < j, p i < v ∧ v ≤ ∑ i with i ≤ j, p i := by
  have full (i : Fin N) : level p i = ∑ k with k ≤ i, p k := by
    unfold level
    split_ifs with hi
    · rw [← hp.2]
      congr 1
      ext k
      have := k.2
      simp only [Finset.mem_univ, Finset.mem_filter, true_and, true_iff]
      exact Fin.le_def.2 (by omega)
    · rfl
  refine ⟨?_, full j ▸ h.1⟩
  by_cases h0 : j.val = 0
  · rw [Finset.filter_false_of_mem fun i _ => by rw [Fin.lt_def]; omega]
    exact hv
  · have hj := j.2
    have := h.2 ⟨j.val - 1, by omega⟩ (Fin.lt_def.2 (by dsimp only; omega))
    rw [full] at this
    refine lt_of_eq_of_lt (Finset.sum_congr ?_ fun _ _ => rfl) this
    ext i
    simp only [Finset.mem_filter, Finset.mem_univ, true_and, Fin.lt_def, Fin.le_def]
    omega

/-- Every filter gets the ancestors of `systematic` on its own weights (C06 to C09), in particular `⌊N p⌋` to `⌈N p⌉` copies of a
particle with normalised weight `p`. -/
theorem C151_offspring {N : ℕ} {p : Fin N → ℝ} (hp : IsProb p) {u : ℝ} (h0 : 0 < u) (h1 : u < 1) (a : Fin N → Fin N)
    (ha : ∀ n, FirstAbove p ((n.val + u) / N) (a n)) :
    (∀ n, systematicRow (fun j => .fin (p j)) (fun _ => u) n = (a n).val) ∧
      ∀ k, ⌊N * p k⌋ ≤ ((Finset.univ.filter fun n => a n = k).card : ℤ) ∧ ((Finset.univ.filter fun n => a n = k).card : ℤ) ≤ ⌈N * p k⌉ := by
  have eq (n : Fin N) : systematicRow (fun j => .fin (p j)) (fun _ => u) n = (a n).val := by
    have hN : (0 : ℝ) < N := by exact_mod_cast n.pos
    obtain ⟨q1, q2⟩ := C151_quantile hp (by positivity) (ha n)
    rw [systematicRow_eq hp _ n (a n) h0]
    rw [lt_div_iff₀ hN] at q1
    rw [div_le_iff₀ hN] at q2
    have e1 : prefixSum p (a n).val = ∑ i with i < a n, p i := rfl
    have e2 : prefixSum p ((a n).val + 1) = ∑ i with i ≤ a n, p i := by
      unfold prefixSum
      congr 1
      ext i
      simp only [Finset.mem_filter, Finset.mem_univ, true_and, Fin.le_def]
      omega
    rw [e1, e2]
    constructor <;> linarith
  refine ⟨eq, fun k => ?_⟩
  have := offspring_floor_ceil hp h0 h1 k
  have e : offspring (systematicRow (fun j => .fin (p j)) fun _ => u) k = (Finset.univ.filter fun n => a n = k).card := by
    unfold offspring
    congr 1
    ext n
    simp only [Finset.mem_filter, Finset.mem_univ, true_and]
    rw [eq n, Fin.ext_iff]
  rwa [e] at this

theorem softmaxOf_prob {N : ℕ} (hN : 0 < N) (W : Fin N → ℝ) : IsProb (softmaxOf W) :=
  ⟨fun n => (softmaxOf_pos W n).le, by
    have : (0 : ℝ) < ∑ k, Real.exp (W k) := Finset.sum_pos (fun k _ => Real.exp_pos _) ⟨⟨0, hN⟩, Finset.mem_univ _⟩
    unfold softmaxOf
    rw [← Finset.sum_div, div_self this.ne']⟩

/-- `SISR.predict` with systematic resampling: in every filter below the threshold, particles are replaced by their recorded
ancestors, and a particle with normalised weight `p` has `⌊N p⌋` to `⌈N p⌉` descendants. -/
theorem C151_sisr (N B : ℕ) (hN : 0 < N) (ev : List ℕ) (hh : ev.length ≤ 1) (threshold : ℝ) (u : ℕ → ℝ) (hu : ∀ k, 0 < u k ∧ u k < 1)
    (x w : Tensor) (prev : Index) (F : Fin N → List ℕ → Fin (dim ev) → ℝ) (W : Fin N → List ℕ → ℝ) (Q : Fin N → List ℕ → Fin N)
    (hx : PartG x ev [B] F) (hw : WeightG w [B] W) (hp : IndexG prev [B] Q) :
    ∃ p, sisrPredict ev threshold (systematicT u true) x w prev = .ok p ∧
      ∀ b < B, essOf (fun n => W n [b]) < threshold → ∃ a : Fin N → Fin N, (∀ n, p.indices.val [b, n.val] = (a n).val) ∧
        (∀ (n : Fin N) (j : Fin (dim ev)), p.x.val (compIx ev j ++ [b, n.val]) = F (a n) [b] j) ∧
        ∀ k, ⌊N * softmaxOf (fun n => W n [b]) k⌋ ≤ ((Finset.univ.filter fun n => a n = k).card : ℤ) ∧
          ((Finset.univ.filter fun n => a n = k).card : ℤ) ≤ ⌈N * softmaxOf (fun n => W n [b]) k⌉ := by
  obtain ⟨A, hA, hF⟩ := C151_columns N hN u fun k => (hu k).2.le
  obtain ⟨p, low, p1, p2, p3, -, -, p6⟩ := C148_batch N B hN ev hh threshold _ A hA x w prev F W Q hx hw hp
  refine ⟨p, p1, fun b hb hl => ?_⟩
  have hlow : low b = true := (p2 b hb).2 hl
  have hi : InShape [B] [b] := inShape_one.2 ⟨b, rfl, hb⟩
  refine ⟨fun n => A ((List.range b).filter low).length (softmaxOf fun k => W k [b]) n, fun n => ?_, fun n j => ?_,
    (C151_offspring (softmaxOf_prob hN _) (hu _).1 (hu _).2 _ fun n => hF _ _ n).2⟩
  · have := p6.2 n [b] hi
    simp only [List.headD_cons, hlow, if_true] at this
    exact this
  · exact (p3.2 n [b] hi j).trans (congrFun (if_pos hlow) j)

/-- `APF.correct` with systematic resampling: in every filter, a particle whose normalised first-stage weight is `p` has `⌊N p⌋` to
`⌈N p⌉` descendants. -/
theorem C151_apf (N : ℕ) (hN : 0 < N) (ev bs : List ℕ) (hh : ev.length ≤ 1) (hb1 : bs.length ≤ 1) (u : ℕ → ℝ)
    (hu : ∀ k, 0 < u k ∧ u k < 1) (pre : Tensor → Except PyErr Tensor)
    (P : Fin N → List ℕ → (Fin N → Fin (dim ev) → ℝ) → ℝ) (hP : PreG N ev bs pre P)
    (f : Tensor → Tensor → Except PyErr (Tensor × Tensor))
    (S : Fin N → List ℕ → (Fin N → Fin (dim ev) → ℝ) → (Fin N → ℝ) → Fin (dim ev) → ℝ)
    (V : Fin N → List ℕ → (Fin N → Fin (dim ev) → ℝ) → (Fin N → ℝ) → ℝ) (hf : PropG N ev bs f S V) (x w : Tensor)
    (F : Fin N → List ℕ → Fin (dim ev) → ℝ) (W : Fin N → List ℕ → ℝ) (hx : PartG x ev bs F) (hw : WeightG w bs W) :
    ∃ (p : PredictionT) (c : CorrectionT), apfPredict bs N x w = .ok p ∧ apfCorrect (systematicT u false) pre f p = .ok c ∧
      ∀ b, InShape bs b → ∃ a : Fin N → Fin N, (∀ n, c.indices.val (b ++ [n.val]) = (a n).val) ∧
        (∀ (n : Fin N) (j : Fin (dim ev)), c.x.val (compIx ev j ++ (b ++ [n.val])) = S n b (fun k => F (a k) b) (fun _ => 1 / N) j) ∧
        ∀ k, ⌊N * softmaxOf (fun n => P n b (fun k => F k b) + W n b) k⌋ ≤ ((Finset.univ.filter fun n => a n = k).card : ℤ) ∧
          ((Finset.univ.filter fun n => a n = k).card : ℤ) ≤ ⌈N * softmaxOf (fun n => P n b (fun k => F k b) + W n b) k⌉ := by
  obtain ⟨A, hA, hF⟩ := C151_filters N hN bs hb1 u fun k => (hu k).2.le
  obtain ⟨p, c, p1, -, c1, c2, c3, -⟩ := C149_apf N hN ev bs hh hb1 _ A hA pre P hP f S V hf x w F W hx hw
  exact ⟨p, c, p1, c1, fun b hb => ⟨_, fun n => c2.2 n b hb, fun n j => c3.2 n b hb j,
    (C151_offspring (softmaxOf_prob hN _) (hu _).1 (hu _).2 _ fun n => hF b _ n).2⟩⟩

/-- A case of `C151_sisr`: two particles, three filters; the second has normalised weights `1 / 5` and `4 / 5`, so that its second
particle has at least one descendant. -/
example : ∃ p, sisrPredict [] 1.8 (systematicT (fun _ => 1 / 2) true) ⟨[3, 2], fun i => 10 * (i.headD 0 : ℝ) + i.tail.headD 0⟩
    ⟨[3, 2], fun i => if i = [1, 1] then Real.log 4 else 0⟩ ⟨[3, 2], fun i => i.tail.headD 0⟩ = .ok p ∧
    ∃ n : Fin 2, p.x.val [1, n.val] = 11 ∧ p.indices.val [1, n.val] = 1 := by
  have h1 : WeightG (N := 2) ⟨[3, 2], fun i => if i = [1, 1] then Real.log 4 else 0⟩ [3]
      fun n b => if b = [1] then (if n = 0 then 0 else Real.log 4) else 0 := by
    refine ⟨rfl, fun n b hb => ?_⟩
    obtain ⟨k, rfl, hk⟩ := inShape_one.1 hb
    fin_cases n <;> by_cases h : k = 1 <;> simp [h]
  obtain ⟨p, e1, e2⟩ := C151_sisr 2 3 (by omega) [] (by simp) 1.8 (fun _ => 1 / 2) (fun _ => by norm_num)
    ⟨[3, 2], fun i => 10 * (i.headD 0 : ℝ) + i.tail.headD 0⟩ _ ⟨[3, 2], fun i => i.tail.headD 0⟩
    (fun n b _ => 10 * (b.headD 0 : ℝ) + n.val) _ (fun n _ => n)
    ⟨rfl, fun n b hb j => by obtain ⟨k, rfl, hk⟩ := inShape_one.1 hb; rfl⟩ h1
    ⟨rfl, fun n b hb => by obtain ⟨k, rfl, hk⟩ := inShape_one.1 hb; rfl⟩
  obtain ⟨a, a1, a2, a3⟩ := e2 1 (by omega) (by
    simp only [if_true, ess_unequal]
    norm_num)
  have hs : softmaxOf (fun n : Fin 2 => if ([1] : List ℕ) = [1] then (if n = 0 then (0 : ℝ) else Real.log 4) else 0) 1 = 4 / 5 := by
    unfold softmaxOf
    rw [Fin.sum_univ_two]
    norm_num [Real.exp_log]
  have h := (a3 1).1
  rw [hs, show ((2 : ℕ) : ℝ) * (4 / 5) = 8 / 5 by norm_num, show ⌊(8 / 5 : ℝ)⌋ = 1 by rw [Int.floor_eq_iff]; norm_num] at h
  obtain ⟨n, hn⟩ := Finset.card_pos.1 (by exact_mod_cast h : 0 < (Finset.univ.filter fun n => a n = 1).card)
  have hn' : a n = 1 := (Finset.mem_filter.1 hn).2
  refine ⟨p, e1, n, (a2 n (0 : Fin 1)).trans ?_, (a1 n).trans (by rw [hn']; rfl)⟩
  rw [hn']
  norm_num

/-- A case of `C151_apf`: two particles, three filters, the pre-weight of a particle is its value. -/
example : ∃ p c, apfPredict [3] 2 ⟨[3, 2], fun i => 10 * (i.headD 0 : ℝ) + i.tail.headD 0⟩ ⟨[3, 2], fun _ => 0⟩ = .ok p ∧
    apfCorrect (systematicT (fun _ => 1 / 2) false) .ok stepProposal p = .ok c := by
  obtain ⟨p, c, e1, e2, -⟩ := C151_apf 2 (by omega) [] [3] (by simp) (by simp) (fun _ => 1 / 2) (fun _ => by norm_num) .ok
    (fun n _ G => G n (0 : Fin 1)) (fun z G h => ⟨z, rfl, h.1, fun n b hb => h.2 n b hb (0 : Fin 1)⟩) stepProposal _ _ (stepProposal_prop 2 [3])
    ⟨[3, 2], fun i => 10 * (i.headD 0 : ℝ) + i.tail.headD 0⟩ ⟨[3, 2], fun _ => 0⟩
    (fun n b _ => 10 * (b.headD 0 : ℝ) + n.val) (fun _ _ => 0)
    ⟨rfl, fun n b hb j => by obtain ⟨k, rfl, hk⟩ := inShape_one.1 hb; rfl⟩ ⟨rfl, fun _ _ _ => rfl⟩
  exact ⟨p, c, e1, e2⟩

end Verif.Props
