import Verif.Lemmas.TensorMoments

/-!
# Property C154: the moments of a state are those of every filter
-/

namespace Verif.Props

open Verif Verif.Torch Matrix

/-- C154 in full: `get_covariance` of a state with `B` filters gives for every filter the covariance of its weighted particles. -/
def C154_claim : Prop :=
  ∀ (N : ℕ), 0 < N → ∀ (B : ℕ) (ev : List ℕ), ev.length ≤ 1 → ∀ (x w : Tensor) (F : Fin N → List ℕ → Fin (dim ev) → ℝ) (W : Fin N → List ℕ → ℝ),
    PartG x ev [B] F → WeightG w [B] W →
    ∃ t, getCovarianceT ev x w = .ok t ∧ t.shape = covShape ev ++ [B] ∧
      ∀ b < B, ∀ i j : Fin (dim ev), t.val (covIx ev i j ++ [b]) = covOf (softmaxOf fun n => W n [b]) (fun n => F n [b]) i j

/-- The mean and variance that a state stores are, for every filter and component, those of its weighted particles. -/
theorem C154_moments (N : ℕ) (hN : 0 < N) (ev bs : List ℕ) (hev : ev.length ≤ 1) (x w : Tensor) (F : Fin N → List ℕ → Fin (dim ev) → ℝ)
    (W : Fin N → List ℕ → ℝ) (hx : PartG x ev bs F) (hw : WeightG w bs W) :
    ∃ m v, storedMomentsT ev x w = .ok (m, v) ∧ m.shape = dim ev :: bs ∧ v.shape = dim ev :: bs ∧
      ∀ b, InShape bs b → ∀ j : Fin (dim ev),
        m.val (j.val :: b) = meanOf (softmaxOf fun n => W n b) (fun n => F n b) j ∧
        v.val (j.val :: b) = covOf (softmaxOf fun n => W n b) (fun n => F n b) j j := by
  obtain ⟨u, u1, u2⟩ := normalizeT_ok hN hw
  obtain ⟨G, g1, g2⟩ := partG_reads hx
  obtain ⟨U, k1, k2⟩ := weightG_reads u2
  obtain ⟨m, v, e1, e2, e3⟩ := filterMoments_var hev true g1 k1 false (by simp)
  refine ⟨m, v, ?_, e2.1, e3.1, fun b hb j => ⟨?_, ?_⟩⟩
  · unfold storedMomentsT
    simp only [u1, ok_bind, e1, if_true]
  · have e := e2.2 b j
    dsimp only at e
    rw [broadcastIndex_self hb] at e
    rw [e]
    exact Finset.sum_congr rfl fun n _ => by rw [k2 n b hb, g2 n b hb]
  · have e := e3.2 b j
    dsimp only at e
    rw [broadcastIndex_self hb] at e
    rw [e]
    have mean : ∑ k : Fin N, U (b ++ [k.val]) * G (b ++ [k.val]) j = meanOf (softmaxOf fun n => W n b) (fun n => F n b) j :=
      Finset.sum_congr rfl fun n _ => by rw [k2 n b hb, g2 n b hb]
    rw [mean]
    exact Finset.sum_congr rfl fun n _ => by rw [k2 n b hb, g2 n b hb, pow_two]

/-- C154 holds for scalar states. -/
theorem C154_scalar_partial (N : ℕ) (hN : 0 < N) (B : ℕ) (x w : Tensor) (F : Fin N → List ℕ → Fin (dim []) → ℝ) (W : Fin N → List ℕ → ℝ)
    (hx : PartG x [] [B] F) (hw : WeightG w [B] W) :
    ∃ t, getCovarianceT [] x w = .ok t ∧ t.shape = covShape [] ++ [B] ∧
      ∀ b < B, ∀ i j : Fin (dim []), t.val (covIx [] i j ++ [b]) = covOf (softmaxOf fun n => W n [b]) (fun n => F n [b]) i j := by
  obtain ⟨m, v, e1, -, e3, e4⟩ := C154_moments N hN [] [B] (by simp) x w F W hx hw
  refine ⟨v, ?_, e3, fun b hb i j => ?_⟩
  · unfold getCovarianceT
    rw [e1]
    rfl
  · obtain rfl := eq_ix0 i
    obtain rfl := eq_ix0 j
    exact (e4 [b] (inShape_one.2 ⟨b, rfl, hb⟩) ix0).2

/-- With vector states, `get_covariance` raises if the numbers of particles and filters, or of filters and components, are different (and
none of them is one). -/
theorem C154_refused (N : ℕ) (hN : 0 < N) (B p : ℕ) (h : (N ≠ B ∧ N ≠ 1 ∧ B ≠ 1) ∨ (B ≠ p ∧ B ≠ 1 ∧ p ≠ 1)) (x w : Tensor)
    (F : Fin N → List ℕ → Fin (dim [p]) → ℝ) (W : Fin N → List ℕ → ℝ) (hx : PartG x [p] [B] F) (hw : WeightG w [B] W) :
    getCovarianceT [p] x w = .error .runtimeError := by
  obtain ⟨u, u1, u2⟩ := normalizeT_ok hN hw
  have e : broadcastShape u.shape x.shape = none := by
    rw [u2.1, hx.1]
    rcases h with ⟨h1, h2, h3⟩ | ⟨h1, h2, h3⟩
    · simp [broadcastShape, h1, h2, h3]
    · simp [broadcastShape, h1, h2, h3]
  have z : Tensor.zip (· * ·) u x = .error .runtimeError := by
    unfold Tensor.zip
    rw [e]
  have l : ([p].length == 0) = false := rfl
  unfold getCovarianceT
  simp only [l, Bool.false_eq_true, if_false, u1, ok_bind, z]
  rfl

/-- With as many particles as filters as components, `get_covariance` takes for the mean of component `i` of filter `b` the sum of the
particles times the weight of particle `b` of filter `i`. -/
theorem C154_cube (n : ℕ) (hn : 0 < n) (x w : Tensor) (F : Fin n → List ℕ → Fin n → ℝ) (W : Fin n → List ℕ → ℝ)
    (hx : PartG x [n] [n] F) (hw : WeightG w [n] W) :
    ∃ t, getCovarianceT [n] x w = .ok t ∧ t.shape = [n, n, n] ∧ ∀ b i j : Fin n, t.val [j.val, i.val, b.val] =
      ∑ k, softmaxOf (fun l => W l [b.val]) k *
        ((F k [b.val] i - softmaxOf (fun l => W l [i.val]) b * ∑ l, F l [b.val] i) *
          (F k [b.val] j - softmaxOf (fun l => W l [j.val]) b * ∑ l, F l [b.val] j)) := by
  obtain ⟨u, u1, u2⟩ := normalizeT_ok hn hw
  obtain ⟨G, g1, g2⟩ := partG_reads hx
  obtain ⟨U, k1, k2⟩ := weightG_reads u2
  have r1 : Reads1 u n [n] fun s j => u.val (j.val :: broadcastIndex [n] s) := ⟨u2.1, fun _ _ => rfl⟩
  obtain ⟨m, c, r, cc, z, e1, e2, e3, e4, e5, e6⟩ := cube_ok (show Reads1 x n ([n] ++ [n]) G from g1) r1 k1
  refine ⟨z.sum0, ?_, e6.1, fun b i j => ?_⟩
  · have l : ([n].length == 0) = false := rfl
    unfold getCovarianceT
    simp only [l, Bool.false_eq_true, if_false, u1, ok_bind, e1, e2, e3, e4, e5]
    rfl
  · have hb : InShape [n] [b.val] := inShape_one.2 ⟨b, rfl, b.2⟩
    have e := e6.2 [b.val] i j
    dsimp only [of_apply] at e
    simp only [broadcastIndex_self hb] at e
    refine e.trans ?_
    have mean (i : Fin n) : ∑ l : Fin n, u.val (i.val :: broadcastIndex [n] ([b.val] ++ [l.val])) * G ([b.val] ++ [l.val]) i =
        softmaxOf (fun l => W l [i.val]) b * ∑ l, F l [b.val] i := by
      rw [Finset.mul_sum]
      refine Finset.sum_congr rfl fun l _ => ?_
      rw [g2 l [b.val] hb]
      congr 1
      have q : broadcastIndex [n] ([b.val] ++ [l.val]) = [b.val] := by
        rw [show ([b.val] ++ [l.val]) = b.val :: [l.val] from rfl, broadcastIndex_cons b.2]
        rfl
      rw [q]
      exact u2.2 b [i.val] (inShape_one.2 ⟨i, rfl, i.2⟩)
    refine Finset.sum_congr rfl fun k _ => ?_
    rw [mean i, mean j, k2 k [b.val] hb, g2 k [b.val] hb]

/-- Equal weights are the case in which this mean is the right one. -/
theorem C154_cube_equal_weights (n : ℕ) (hn : 0 < n) (x w : Tensor) (F : Fin n → List ℕ → Fin n → ℝ)
    (hx : PartG x [n] [n] F) (hw : WeightG w [n] fun (_ : Fin n) _ => 0) :
    ∃ t, getCovarianceT [n] x w = .ok t ∧ t.shape = covShape [n] ++ [n] ∧ ∀ b < n, ∀ i j : Fin n, t.val (covIx [n] i j ++ [b]) =
      covOf (softmaxOf fun _ : Fin n => 0) (fun k => F k [b]) i j := by
  obtain ⟨t, e1, e2, e3⟩ := C154_cube n hn x w F _ hx hw
  refine ⟨t, e1, e2, fun b hb i j => (e3 ⟨b, hb⟩ i j).trans ?_⟩
  have c (k l : Fin n) : softmaxOf (fun _ : Fin n => (0 : ℝ)) k = softmaxOf (fun _ : Fin n => (0 : ℝ)) l := by simp [softmaxOf]
  have mean (i : Fin n) : softmaxOf (fun _ : Fin n => (0 : ℝ)) ⟨b, hb⟩ * ∑ l, F l [b] i =
      meanOf (softmaxOf fun _ : Fin n => 0) (fun k => F k [b]) i := by
    unfold meanOf
    rw [Finset.mul_sum]
    exact Finset.sum_congr rfl fun l _ => by rw [c ⟨b, hb⟩ l]
  unfold covOf
  refine Finset.sum_congr rfl fun k _ => ?_
  rw [← mean i, ← mean j]

/-- Two filters of two particles in the plane, all at the same place: the covariance is zero, `get_covariance` returns other numbers. -/
theorem C154_wrong : ∃ (x w : Tensor) (F : Fin 2 → List ℕ → Fin 2 → ℝ) (W : Fin 2 → List ℕ → ℝ), PartG x [2] [2] F ∧ WeightG w [2] W ∧
    (∀ b i j, covOf (softmaxOf fun n => W n b) (fun n => F n b) i j = 0) ∧
    ∃ t, getCovarianceT [2] x w = .ok t ∧ t.val [0, 0, 0] = 1 / 4 := by
  have hs : softmaxOf (fun n : Fin 2 => if n = 0 then Real.log 3 else 0) 0 = 3 / 4 := by
    simp only [softmaxOf, Fin.sum_univ_two, Fin.isValue, if_true, one_ne_zero, if_false, Real.exp_zero, Real.exp_log (show (0 : ℝ) < 3 by norm_num)]
    norm_num
  have ht : softmaxOf (fun n : Fin 2 => if n = 0 then Real.log 3 else 0) 1 = 1 / 4 := by
    simp only [softmaxOf, Fin.sum_univ_two, Fin.isValue, if_true, one_ne_zero, if_false, Real.exp_zero, Real.exp_log (show (0 : ℝ) < 3 by norm_num)]
    norm_num
  have hx : PartG ⟨[2, 2, 2], fun _ => 1⟩ [2] [2] fun (_ : Fin 2) _ (_ : Fin 2) => (1 : ℝ) := ⟨rfl, fun _ _ _ _ => rfl⟩
  have hw : WeightG ⟨[2, 2], fun i => if i.tail.headD 0 = 0 then Real.log 3 else 0⟩ [2]
      fun (n : Fin 2) _ => if n = 0 then Real.log 3 else 0 := by
    refine ⟨rfl, fun n b hb => ?_⟩
    obtain ⟨k, rfl, hk⟩ := inShape_one.1 hb
    fin_cases n <;> rfl
  obtain ⟨t, e1, -, e3⟩ := C154_cube 2 (by omega) _ _ _ _ hx hw
  refine ⟨_, _, _, _, hx, hw, fun b i j => ?_, t, e1, ?_⟩
  · simp only [covOf, meanOf, Fin.sum_univ_two, hs, ht]
    norm_num
  · refine (e3 0 0 0).trans ?_
    simp only [Fin.sum_univ_two, hs, ht]
    norm_num

theorem C154_negation : ¬ C154_claim := by
  intro h
  have hx : PartG ⟨[2, 3, 5], fun _ => 1⟩ [2] [3] fun (_ : Fin 5) _ (_ : Fin 2) => (1 : ℝ) := ⟨rfl, fun _ _ _ _ => rfl⟩
  have hw : WeightG ⟨[3, 5], fun _ => 0⟩ [3] fun (_ : Fin 5) _ => (0 : ℝ) := ⟨rfl, fun _ _ _ => rfl⟩
  obtain ⟨t, e, -⟩ := h 5 (by omega) 3 [2] (by simp) _ _ _ _ hx hw
  rw [C154_refused 5 (by omega) 3 2 (.inl (by omega)) _ _ _ _ hx hw] at e
  cases e

/-- A case of `C154_moments`: three filters of two particles in the plane; the mean of the second component of filter 1. -/
example : ∃ m v, storedMomentsT [2] ⟨[2, 3, 2], fun i => (i.headD 0 : ℝ) + 10 * i.tail.tail.headD 0⟩ ⟨[3, 2], fun _ => 0⟩ = .ok (m, v) ∧
    m.val [1, 1] = 6 ∧ v.val [1, 1] = 25 := by
  obtain ⟨m, v, e1, -, -, e4⟩ := C154_moments 2 (by omega) [2] [3] (by simp)
    ⟨[2, 3, 2], fun i => (i.headD 0 : ℝ) + 10 * i.tail.tail.headD 0⟩ ⟨[3, 2], fun _ => 0⟩
    (fun n _ j => j.val + 10 * n.val) (fun _ _ => 0)
    ⟨rfl, fun n b hb j => by obtain ⟨k, rfl, hk⟩ := inShape_one.1 hb; rfl⟩ ⟨rfl, fun _ _ _ => rfl⟩
  obtain ⟨a, c⟩ := e4 [1] (inShape_one.2 ⟨1, rfl, by omega⟩) (1 : Fin 2)
  refine ⟨m, v, e1, a.trans ?_, c.trans ?_⟩
  · simp [meanOf, softmaxOf, Fin.sum_univ_two]
    norm_num
  · simp [covOf, meanOf, softmaxOf, Fin.sum_univ_two]
    norm_num

/-- A case of `C154_scalar_partial`: three filters of two particles. -/
example : ∃ t, getCovarianceT [] ⟨[3, 2], fun i => 10 * i.tail.headD 0⟩ ⟨[3, 2], fun _ => 0⟩ = .ok t ∧ t.val [0, 1] = 25 := by
  obtain ⟨t, e1, -, e3⟩ := C154_scalar_partial 2 (by omega) 3 ⟨[3, 2], fun i => 10 * i.tail.headD 0⟩ ⟨[3, 2], fun _ => 0⟩
    (fun n _ _ => 10 * n.val) (fun _ _ => 0)
    ⟨rfl, fun n b hb j => by obtain ⟨k, rfl, hk⟩ := inShape_one.1 hb; rfl⟩ ⟨rfl, fun _ _ _ => rfl⟩
  refine ⟨t, e1, (e3 1 (by omega) (0 : Fin 1) (0 : Fin 1)).trans ?_⟩
  simp [covOf, meanOf, softmaxOf, Fin.sum_univ_two]
  norm_num

/-- A case of `C154_cube_equal_weights`: two filters of two particles in the plane. -/
example : ∃ t, getCovarianceT [2] ⟨[2, 2, 2], fun i => 10 * i.tail.tail.headD 0⟩ ⟨[2, 2], fun _ => 0⟩ = .ok t ∧ t.val [0, 1, 1] = 25 := by
  obtain ⟨t, e1, -, e3⟩ := C154_cube_equal_weights 2 (by omega) ⟨[2, 2, 2], fun i => 10 * i.tail.tail.headD 0⟩ ⟨[2, 2], fun _ => 0⟩
    (fun n _ _ => 10 * n.val)
    ⟨rfl, fun n b hb j => by obtain ⟨k, rfl, hk⟩ := inShape_one.1 hb; rfl⟩ ⟨rfl, fun _ _ _ => rfl⟩
  refine ⟨t, e1, (e3 1 (by omega) (1 : Fin 2) (0 : Fin 2)).trans ?_⟩
  simp [covOf, meanOf, softmaxOf, Fin.sum_univ_two]
  norm_num

end Verif.Props
