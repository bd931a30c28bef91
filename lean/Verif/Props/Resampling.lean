import Verif.Lemmas.Resampling

/-!
# Properties C06-C12: resampling
-/

namespace Verif.Props

open Verif XF Spec

/-! ## C06 -/

theorem systematicRow_valid {n : ℕ} (w : Fin n → XF) (u : Fin n → ℝ)
    (hu : ∀ j, 0 ≤ u j ∧ u j < 1) :
    (∀ j, systematicRow w u j < n) ∧ ∀ j k, j ≤ k → systematicRow w u j ≤ systematicRow w u k := by
  constructor
  · intro j
    have hn : (0 : ℝ) < n := by exact_mod_cast j.pos
    have hlast : n - 1 < n := by have := j.pos; omega
    have hj : ((j : ℕ) : ℝ) + 1 ≤ n := by exact_mod_cast j.2
    have : systematicRow w u j ≤ (⟨n - 1, hlast⟩ : Fin n) := by
      refine searchsorted_lt _ _ _ ?_
      have hc : cumsum1 w ⟨n - 1, hlast⟩ = fin 1 := by
        unfold cumsum1
        rw [if_pos (by simp; omega)]
      rw [hc, geVal_fin]
      unfold positions
      rw [div_le_iff₀ hn]
      linarith [(hu j).2]
    simp at this
    omega
  · intro j k hjk
    refine searchsorted_mono _ ?_
    unfold positions
    rcases hjk.eq_or_lt with h | h
    · rw [h]
    · have hn : (0 : ℝ) < n := by exact_mod_cast j.pos
      have : ((j : ℕ) : ℝ) + 1 ≤ (k : ℕ) := by exact_mod_cast Fin.lt_def.1 h
      refine div_le_div_of_nonneg_right ?_ hn.le
      linarith [(hu j).2, (hu k).1]

/-- C06, one filter: whatever the weights (not even normalised or finite), the result consists of valid
particle numbers in non-decreasing order. -/
theorem C06_systematic_valid_1d (lo : ℝ) {n : ℕ} (w : Fin n → XF) (normalized : Bool)
    (draw : Fin 1 → ℝ) (hd : ∀ c, 0 ≤ draw c ∧ draw c < 1) :
    ∃ r, systematic1 lo w normalized [] draw = .ok r ∧ (∀ i, r i < n) ∧ ∀ i j, i ≤ j → r i ≤ r j :=
  ⟨_, rfl, systematicRow_valid _ _ fun _ => hd 0⟩

/-- C06, parallel filters. -/
theorem C06_systematic_valid_2d (lo : ℝ) {n b : ℕ} (w : Fin n → Fin b → XF) (normalized : Bool)
    (draw : Fin b → ℝ) (hd : ∀ c, 0 ≤ draw c ∧ draw c < 1) :
    ∃ r, systematic2 lo w normalized [] draw = .ok r ∧ (∀ i c, r i c < n) ∧
      ∀ i j c, i ≤ j → r i c ≤ r j c :=
  ⟨_, rfl, fun i c => (systematicRow_valid _ _ fun _ => hd c).1 i,
    fun i j c => (systematicRow_valid _ _ fun _ => hd c).2 i j⟩

/-- C06, parallel filters with caller-supplied uniforms, one per position (stratified). -/
theorem C06_systematic_valid_supplied (lo : ℝ) {n b : ℕ} (w : Fin n → Fin b → XF) (normalized : Bool)
    (u : Fin b → Fin n → ℝ) (draw : Fin b → ℝ) (hu : ∀ c j, 0 ≤ u c j ∧ u c j < 1) :
    ∃ r, systematic2 lo w normalized [("u", .tensor u)] draw = .ok r ∧ (∀ i c, r i c < n) ∧
      ∀ i j c, i ≤ j → r i c ≤ r j c :=
  ⟨_, rfl, fun i c => (systematicRow_valid _ _ fun j => hu c j).1 i,
    fun i j c => (systematicRow_valid _ _ fun j => hu c j).2 i j⟩

example : ∀ c, 0 ≤ (![1 / 3, 0] : Fin 2 → ℝ) c ∧ (![1 / 3, 0] : Fin 2 → ℝ) c < 1 := by
  intro c; fin_cases c <;> norm_num

/-! ## C07 -/

/-- C07 for normalised weights of one row. -/
theorem offspring_floor_ceil {n : ℕ} {p : Fin n → ℝ} (hp : IsProb p) {u : ℝ} (hu0 : 0 < u)
    (hu1 : u < 1) (k : Fin n) :
    ⌊n * p k⌋ ≤ (offspring (systematicRow (fun j => fin (p j)) fun _ => u) k : ℤ) ∧
      (offspring (systematicRow (fun j => fin (p j)) fun _ => u) k : ℤ) ≤ ⌈n * p k⌉ := by
  rw [offspring_eq hp u hu0 hu1.le]
  exact floor_sub_floor _ _

/-- C07: with log-weights of which at least one is usable, in every parallel filter, particle `k` of
normalised weight `p k` is selected `floor (n * p k)` or `ceil (n * p k)` times. -/
theorem C07_systematic_offspring (lo : ℝ) {n b : ℕ} (w : Fin n → Fin b → XF) (draw : Fin b → ℝ)
    (c : Fin b) (hd : 0 < draw c ∧ draw c < 1) (hw : ∃ i, Usable (w i c)) :
    ∃ (r : Fin n → Fin b → ℕ) (p : Fin n → ℝ), systematic2 lo w false [] draw = .ok r ∧
      (∀ i, (normalize2 lo w).2 i c = fin (p i)) ∧
      ∀ k : Fin n,
        ((Finset.univ.filter fun i => r i c = k).card : ℤ) = ⌊n * p k⌋ ∨
        ((Finset.univ.filter fun i => r i c = k).card : ℤ) = ⌈n * p k⌉ := by
  have hn := normalize1_usable lo (fun i => w i c) hw
  refine ⟨_, fun i => mass lo (w i c) / ∑ j, mass lo (w j c), rfl, hn, fun k => ?_⟩
  have he : (fun i => (normalize2 lo w).2 i c) = fun i => fin (mass lo (w i c) / ∑ j, mass lo (w j c)) :=
    funext hn
  have := offspring_floor_ceil (isProb_mass lo (fun i => w i c) hw) hd.1 hd.2 k
  have e : (Finset.univ.filter fun i => systematicRow (fun i => (normalize2 lo w).2 i c)
      (fun _ => draw c) i = k).card = offspring (systematicRow (fun j => fin (mass lo (w j c) /
        ∑ j, mass lo (w j c))) fun _ => draw c) k := by
    rw [he]; rfl
  have hcl := Int.ceil_le_floor_add_one ((n : ℝ) * (mass lo (w k c) / ∑ j, mass lo (w j c)))
  show ((Finset.univ.filter fun i => systematicRow (fun i => (normalize2 lo w).2 i c)
      (fun _ => draw c) i = k).card : ℤ) = _ ∨ ((Finset.univ.filter fun i =>
      systematicRow (fun i => (normalize2 lo w).2 i c) (fun _ => draw c) i = k).card : ℤ) = _
  rw [e]
  have h1 := this.1
  have h2 := this.2
  beta_reduce at h1 h2 ⊢
  omega

/-- C07 for the one-dimensional call. -/
theorem C07_systematic_offspring_1d (lo : ℝ) {n : ℕ} (p : Fin n → ℝ) (hp : IsProb p)
    (draw : Fin 1 → ℝ) (hd : 0 < draw 0 ∧ draw 0 < 1) :
    ∃ r, systematic1 lo (fun i => fin (p i)) true [] draw = .ok r ∧ ∀ k : Fin n,
        ((Finset.univ.filter fun i => r i = k).card : ℤ) = ⌊n * p k⌋ ∨
        ((Finset.univ.filter fun i => r i = k).card : ℤ) = ⌈n * p k⌉ := by
  refine ⟨_, rfl, fun k => ?_⟩
  have := offspring_floor_ceil hp hd.1 hd.2 k
  have hcl := Int.ceil_le_floor_add_one ((n : ℝ) * p k)
  have h1 := this.1
  have h2 := this.2
  show (offspring (systematicRow (fun i => fin (p i)) fun _ => draw 0) k : ℤ) = _ ∨
    (offspring (systematicRow (fun i => fin (p i)) fun _ => draw 0) k : ℤ) = _
  omega

/-- C07, special case used by the filters: uniform weights are left in place. -/
theorem C07_uniform_identity (lo : ℝ) {n : ℕ} (draw : Fin 1 → ℝ) (hd : 0 < draw 0 ∧ draw 0 < 1) :
    systematic1 lo (fun _ : Fin n => fin (1 / (n : ℝ))) true [] draw = .ok fun i => (i : ℕ) := by
  show Except.ok (systematicRow (fun _ : Fin n => fin (1 / (n : ℝ))) fun _ => draw 0) = _
  congr 1
  funext j
  have hn : (0 : ℝ) < n := by exact_mod_cast j.pos
  have hp : IsProb fun _ : Fin n => 1 / (n : ℝ) := by
    refine ⟨fun _ => by positivity, ?_⟩
    simp only [Finset.sum_const, Finset.card_univ, Fintype.card_fin, nsmul_eq_mul]
    field_simp
  have hpre : ∀ k : ℕ, k ≤ n → prefixSum (fun _ : Fin n => 1 / (n : ℝ)) k = k / n := by
    intro k
    induction k with
    | zero => intro _; simp [prefixSum_zero]
    | succ k ih =>
      intro hk
      have := prefixSum_succ (fun _ : Fin n => 1 / (n : ℝ)) ⟨k, by omega⟩
      simp only at this
      rw [this, ih (by omega)]
      push_cast; ring
  rw [systematicRow_eq hp _ j j hd.1, hpre _ j.2.le, hpre _ j.2]
  push_cast
  constructor
  · rw [mul_div_cancel₀ _ hn.ne']; linarith [hd.1]
  · rw [mul_div_cancel₀ _ hn.ne']; linarith [hd.2]

example : IsProb (![1 / 2, 1 / 3, 1 / 6] : Fin 3 → ℝ) ∧ (0 : ℝ) < 1 / 2 ∧ (1 / 2 : ℝ) < 1 := by
  refine ⟨⟨?_, ?_⟩, by norm_num, by norm_num⟩
  · intro i; fin_cases i <;> norm_num
  · simp [Fin.sum_univ_succ]; norm_num

/-! ## C08 -/

/-- C08 where it holds: with a strictly positive uniform a particle of weight zero is never selected.
Missing: the uniform draw 0, which `uniform_` can return; see `C08_negation`. -/
theorem C08_zero_weight_not_selected_partial (lo : ℝ) {n b : ℕ} (p : Fin n → Fin b → ℝ)
    (hp : ∀ c, IsProb fun i => p i c) (draw : Fin b → ℝ) (hd : ∀ c, 0 < draw c ∧ draw c < 1) :
    ∃ r, systematic2 lo (fun i c => fin (p i c)) true [] draw = .ok r ∧
      ∀ i c (k : Fin n), p k c = 0 → r i c ≠ k := by
  refine ⟨_, rfl, fun i c k hk h => ?_⟩
  have h' : systematicRow (fun j => fin (p j c)) (fun _ => draw c) i = k := h
  rw [systematicRow_eq (hp c) _ i k (hd c).1, prefixSum_succ, hk, add_zero] at h'
  linarith [h'.1, h'.2]

/-- C08 is false: with uniform 0 the first particle is selected although its weight is zero. -/
theorem C08_negation (lo : ℝ) :
    ∃ r, systematic1 lo (![fin 0, fin 1] : Fin 2 → XF) true [] (fun _ => 0) = .ok r ∧ r 0 = 0 := by
  refine ⟨_, rfl, ?_⟩
  have : systematicRow (![fin 0, fin 1] : Fin 2 → XF) (fun _ => 0) 0 ≤ (0 : Fin 2) := by
    refine searchsorted_lt _ _ 0 ?_
    have hc : cumsum1 (![fin 0, fin 1] : Fin 2 → XF) 0 = fin 0 := by
      unfold cumsum1
      rw [if_neg (by simp)]
      have : (Finset.univ.filter fun j : Fin 2 => j ≤ 0) = {0} := by decide
      rw [this]; simp
    rw [hc, geVal_fin]
    simp [positions]
  simpa using this

example : ∀ c, IsProb fun i => (![![0, 1 / 2], ![1, 1 / 2]] : Fin 2 → Fin 2 → ℝ) i c := by
  intro c
  constructor
  · intro i; fin_cases i <;> fin_cases c <;> norm_num
  · fin_cases c <;> norm_num [Fin.sum_univ_two]

/-! ## C09 -/

/-- C09: the offspring count of particle `k`, integrated over the uniform draw, is `n * p k`. -/
theorem C09_systematic_unbiased (lo : ℝ) {n : ℕ} (p : Fin n → ℝ) (hp : IsProb p) (k : Fin n) :
    ∃ r : ℝ → Fin n → ℕ, (∀ u, systematic1 lo (fun i => fin (p i)) true [] (fun _ => u) = .ok (r u)) ∧
      ∫ u in (0 : ℝ)..1, ((Finset.univ.filter fun i => r u i = k).card : ℝ) = n * p k :=
  ⟨fun u => systematicRow (fun i => fin (p i)) fun _ => u, fun _ => rfl, integral_offspring hp k⟩

example : IsProb (![1 / 4, 1 / 4, 1 / 2] : Fin 3 → ℝ) := by
  constructor
  · intro i; fin_cases i <;> norm_num
  · simp [Fin.sum_univ_succ]; norm_num

/-! ## C10 -/

/-- Specification: inverse of the cumulative distribution `F 0 ≤ F 1 ≤ ...` at `v`. -/
def IsInverse {n : ℕ} (p : Fin n → ℝ) (v : ℝ) (k : Fin n) : Prop :=
  (∑ j ∈ Finset.univ.filter (· < k), p j) < v ∧ v ≤ ∑ j ∈ Finset.univ.filter (· ≤ k), p j

/-- C10 where it holds: for a matrix of weights the supplied tensor `u` alone determines the result,
whatever the internal draw: position `i` of filter `c` selects the inverse of the cumulative weights
at `(i + u c i) / n`.
Missing: vectors of weights, see `C10_negation`; Python floats, see `C10_float_refused`. -/
theorem C10_supplied_uniform_partial (lo : ℝ) {n b : ℕ} (p : Fin n → Fin b → ℝ)
    (hp : ∀ c, IsProb fun i => p i c) (u : Fin b → Fin n → ℝ)
    (hu : ∀ c j, 0 < u c j ∧ u c j < 1) :
    ∃ r, (∀ draw, systematic2 lo (fun i c => fin (p i c)) true [("u", .tensor u)] draw = .ok r) ∧
      ∀ i c (k : Fin n), r i c = k ↔ IsInverse (fun j => p j c) (((i : ℝ) + u c i) / n) k := by
  refine ⟨_, fun _ => rfl, fun i c k => ?_⟩
  have hn : (0 : ℝ) < n := by exact_mod_cast i.pos
  have := systematicRow_eq (hp c) (u c) i k (hu c i).1
  refine this.trans ?_
  have e1 : (∑ j ∈ Finset.univ.filter (· < k), p j c) = prefixSum (fun j => p j c) k := rfl
  have e2 : (∑ j ∈ Finset.univ.filter (· ≤ k), p j c) = prefixSum (fun j => p j c) (k + 1) := by
    unfold prefixSum
    congr 1
    ext j
    simp only [Finset.mem_filter, Finset.mem_univ, true_and, Fin.le_def]
    omega
  unfold IsInverse
  rw [e1, e2, lt_div_iff₀ hn, div_le_iff₀ hn, mul_comm, mul_comm (n : ℝ)]

/-- C10 is false for a vector of weights: the supplied `u` is ignored and the internal draw is used. -/
theorem C10_one_dimensional_ignores_u (lo : ℝ) {n : ℕ} (w : Fin n → XF) (normalized : Bool)
    (v : UVal 1 n) (draw : Fin 1 → ℝ) :
    systematic1 lo w normalized [("u", v)] draw = systematic1 lo w normalized [] draw := rfl

/-- C10 is false: same weights, same supplied `u`, different results. -/
theorem C10_negation (lo : ℝ) (v : UVal 1 2) :
    systematic1 lo (![fin (3 / 4), fin (1 / 4)] : Fin 2 → XF) true [("u", v)] (fun _ => 1 / 4) ≠
    systematic1 lo (![fin (3 / 4), fin (1 / 4)] : Fin 2 → XF) true [("u", v)] (fun _ => 3 / 4) := by
  have hp : IsProb (![3 / 4, 1 / 4] : Fin 2 → ℝ) := by
    constructor
    · intro i; fin_cases i <;> norm_num
    · norm_num [Fin.sum_univ_two]
  have hw : (![fin (3 / 4), fin (1 / 4)] : Fin 2 → XF) = fun i => fin ((![3 / 4, 1 / 4] : Fin 2 → ℝ) i) := by
    funext i; fin_cases i <;> rfl
  intro h
  have h' : systematicRow (![fin (3 / 4), fin (1 / 4)] : Fin 2 → XF) (fun _ => 1 / 4) =
      systematicRow (![fin (3 / 4), fin (1 / 4)] : Fin 2 → XF) (fun _ => 3 / 4) := Except.ok.inj h
  have p0 : prefixSum (![3 / 4, 1 / 4] : Fin 2 → ℝ) 0 = 0 := prefixSum_zero _
  have p1 : prefixSum (![3 / 4, 1 / 4] : Fin 2 → ℝ) 1 = 3 / 4 := by
    have e : prefixSum (![3 / 4, 1 / 4] : Fin 2 → ℝ) 1 =
        prefixSum (![3 / 4, 1 / 4] : Fin 2 → ℝ) 0 + 3 / 4 := prefixSum_succ _ 0
    rw [e, p0, zero_add]
  have p2 : prefixSum (![3 / 4, 1 / 4] : Fin 2 → ℝ) 2 = 1 := by
    rw [prefixSum_full]; exact hp.2
  have a : systematicRow (![fin (3 / 4), fin (1 / 4)] : Fin 2 → XF) (fun _ => 1 / 4) 1 = (0 : Fin 2) := by
    rw [hw, systematicRow_eq hp _ 1 0 (by norm_num)]
    show ((2 : ℕ) : ℝ) * prefixSum _ 0 < ((1 : ℕ) : ℝ) + 1 / 4 ∧
      ((1 : ℕ) : ℝ) + 1 / 4 ≤ ((2 : ℕ) : ℝ) * prefixSum _ 1
    rw [p0, p1]; norm_num
  have b : systematicRow (![fin (3 / 4), fin (1 / 4)] : Fin 2 → XF) (fun _ => 3 / 4) 1 = (1 : Fin 2) := by
    rw [hw, systematicRow_eq hp _ 1 1 (by norm_num)]
    show ((2 : ℕ) : ℝ) * prefixSum _ 1 < ((1 : ℕ) : ℝ) + 3 / 4 ∧
      ((1 : ℕ) : ℝ) + 3 / 4 ≤ ((2 : ℕ) : ℝ) * prefixSum _ 2
    rw [p1, p2]; norm_num
  rw [h', b] at a
  simp at a

/-- A Python float, announced by the signature, is refused (attribute error) for matrices. -/
theorem C10_float_refused (lo : ℝ) {n b : ℕ} (w : Fin n → Fin b → XF) (normalized : Bool) (x : ℝ)
    (draw : Fin b → ℝ) :
    systematic2 lo w normalized [("u", .float x)] draw = .error .attributeError := rfl

example : (∀ c, IsProb fun i => (![![1 / 3], ![2 / 3]] : Fin 2 → Fin 1 → ℝ) i c) ∧
    ∀ c j, 0 < (fun _ _ => 1 / 2 : Fin 1 → Fin 2 → ℝ) c j ∧ (fun _ _ => 1 / 2 : Fin 1 → Fin 2 → ℝ) c j < 1 := by
  refine ⟨fun c => ⟨?_, ?_⟩, fun c j => by norm_num⟩
  · intro i; fin_cases i <;> fin_cases c <;> norm_num
  · fin_cases c; norm_num [Fin.sum_univ_two]

/-! ## C11 -/

/-- Contract of `torch.multinomial(probs, k)`: `k` indices, each of positive probability. -/
def MultinomialOutcome {n : ℕ} (probs : Fin n → ℝ) (k : ℕ) (l : List (Fin n)) : Prop :=
  l.length = k ∧ ∀ i ∈ l, 0 < probs i

theorem count_modded {n : ℕ} (f : Fin n → ℕ) (i : Fin n) :
    ((List.finRange n).flatMap fun j => List.replicate (f j) j).count i = f i := by
  rw [List.count_flatMap]
  have : (List.map (List.count i ∘ fun j => List.replicate (f j) j) (List.finRange n)).sum =
      ∑ j, if j = i then f j else 0 := by
    rw [Fin.sum_univ_def]
    congr 1
    apply List.map_congr_left
    intro j _
    simp [List.count_replicate]
  rw [this]
  simp

/-- C11: residual resampling succeeds, returns `n` indices, particle `i` occurs at least
`floor (n * w i)` times, and no particle of weight zero occurs. -/
theorem C11_residual {n : ℕ} (w : Fin n → ℝ) (hn : 0 < n) (hw : IsProb w) (draw : List (Fin n))
    (hd : MultinomialOutcome (residualProbs w) (residualDraws w) draw) :
    ∃ l, residual1 w draw = .ok l ∧ l.length = n ∧ (∀ i, ⌊(n : ℝ) * w i⌋ ≤ (l.count i : ℤ)) ∧
      ∀ i ∈ l, 0 < w i := by
  have hn' : (0 : ℝ) < n := by exact_mod_cast hn
  have hf : ∀ i, 0 ≤ ⌊(n : ℝ) * w i⌋ := fun i => Int.floor_nonneg.2 (mul_nonneg hn'.le (hw.1 i))
  have hsum : ∑ i, ⌊(n : ℝ) * w i⌋ ≤ n := by
    have : ((∑ i, ⌊(n : ℝ) * w i⌋ : ℤ) : ℝ) ≤ n := by
      push_cast
      calc ∑ i, (⌊(n : ℝ) * w i⌋ : ℝ) ≤ ∑ i, n * w i := Finset.sum_le_sum fun i _ => Int.floor_le _
        _ = n := by rw [← Finset.mul_sum, hw.2, mul_one]
    exact_mod_cast this
  have hpos : ∑ i, ⌊(n : ℝ) * w i⌋ ≠ 0 := by
    intro h0
    have hz := (Finset.sum_eq_zero_iff_of_nonneg fun i _ => hf i).1 h0
    have hlt : ∀ i, (n : ℝ) * w i < 1 := by
      intro i
      have := Int.lt_floor_add_one ((n : ℝ) * w i)
      rw [hz i (Finset.mem_univ i)] at this
      simpa using this
    have : ∑ i, (n : ℝ) * w i < ∑ _i : Fin n, (1 : ℝ) :=
      Finset.sum_lt_sum_of_nonempty ⟨⟨0, hn⟩, Finset.mem_univ _⟩ fun i _ => hlt i
    rw [← Finset.mul_sum, hw.2] at this
    simp at this
  set modded := (List.finRange n).flatMap fun i => List.replicate (⌊(n : ℝ) * w i⌋).toNat i with hm
  have hcount : ∀ i, (modded.count i : ℤ) = ⌊(n : ℝ) * w i⌋ := by
    intro i
    rw [hm, count_modded fun i => (⌊(n : ℝ) * w i⌋).toNat]
    exact Int.toNat_of_nonneg (hf i)
  have hlen : (modded.length : ℤ) = ∑ i, ⌊(n : ℝ) * w i⌋ := by
    rw [hm, List.length_flatMap]
    have : (List.map (fun i => (List.replicate (⌊(n : ℝ) * w i⌋).toNat i).length)
        (List.finRange n)).sum = ∑ i, (⌊(n : ℝ) * w i⌋).toNat := by
      rw [Fin.sum_univ_def]; simp
    rw [this]
    push_cast
    exact Finset.sum_congr rfl fun i _ => Int.toNat_of_nonneg (hf i)
  have hmem : ∀ i ∈ modded, 0 < w i := by
    intro i hi
    have : 0 < (modded.count i : ℤ) := by exact_mod_cast List.count_pos_iff.2 hi
    rw [hcount] at this
    have h1 : (1 : ℝ) ≤ n * w i := by
      have : (1 : ℤ) ≤ ⌊(n : ℝ) * w i⌋ := this
      exact_mod_cast Int.le_floor.1 this
    by_contra hneg
    have : w i ≤ 0 := not_lt.1 hneg
    nlinarith
  by_cases hfull : ∑ i, ⌊(n : ℝ) * w i⌋ = n
  · refine ⟨modded, ?_, ?_, fun i => (hcount i).ge, hmem⟩
    · unfold residual1; simp only [hfull, if_true]; rfl
    · have : (modded.length : ℤ) = n := hlen.trans hfull
      exact_mod_cast this
  · refine ⟨modded ++ draw, ?_, ?_, ?_, ?_⟩
    · unfold residual1; simp only [if_neg hfull, if_neg hpos]; rfl
    · rw [List.length_append, hd.1, residualDraws]
      omega
    · intro i
      rw [List.count_append]
      have := hcount i
      push_cast
      omega
    · intro i hi
      rcases List.mem_append.1 hi with h | h
      · exact hmem i h
      · have h := hd.2 i h
        rcases (hw.1 i).lt_or_eq with h' | h'
        · exact h'
        · exfalso
          rw [residualProbs, ← h'] at h
          simp at h

/-- C11: two-dimensional weights are refused. -/
theorem C11_residual_refuses_matrices {n b : ℕ} (w : Fin n → Fin b → ℝ) :
    residual2 w = .error .notImplementedError := rfl

/-- Case for `C11_residual`: weights 1/2, 1/3, 1/6 leave one deterministic copy of particle 0
and one of particle 1, and one draw. -/
example : IsProb (![1 / 2, 1 / 3, 1 / 6] : Fin 3 → ℝ) ∧
    MultinomialOutcome (residualProbs ![1 / 2, 1 / 3, 1 / 6])
      (residualDraws ![1 / 2, 1 / 3, 1 / 6]) [2] := by
  have f0 : ⌊(3 : ℝ) * 2⁻¹⌋ = 1 := by rw [Int.floor_eq_iff]; norm_num
  have f1 : ⌊(3 : ℝ) * 3⁻¹⌋ = 1 := by rw [Int.floor_eq_iff]; norm_num
  have f2 : ⌊(3 : ℝ) * 6⁻¹⌋ = 0 := by rw [Int.floor_eq_iff]; norm_num
  refine ⟨⟨?_, ?_⟩, ?_, ?_⟩
  · intro i; fin_cases i <;> norm_num
  · simp [Fin.sum_univ_succ]; norm_num
  · simp [residualDraws, Fin.sum_univ_three, f0, f1, f2]
  · intro i hi
    simp at hi
    subst hi
    simp [residualProbs, Fin.sum_univ_three, f0, f1, f2]

/-! ## C12 -/

/-- C12: column `c` of the batched result is the result of resampling column `c` alone with its own
draw. -/
theorem C12_batched_columnwise (lo : ℝ) {n b : ℕ} (w : Fin n → Fin b → XF) (normalized : Bool)
    (draw : Fin b → ℝ) :
    ∃ r, systematic2 lo w normalized [] draw = .ok r ∧
      ∀ c, systematic1 lo (fun i => w i c) normalized [] (fun _ => draw c) = .ok fun i => r i c := by
  cases normalized <;> exact ⟨_, rfl, fun c => rfl⟩

/-- C12 with supplied uniforms: column `c` of the result depends only on column `c` of the weights and
row `c` of `u`. -/
theorem C12_batched_columnwise_supplied (lo : ℝ) {n b : ℕ} (w w' : Fin n → Fin b → XF)
    (normalized : Bool) (u u' : Fin b → Fin n → ℝ) (draw draw' : Fin b → ℝ) (c : Fin b)
    (hw : ∀ i, w i c = w' i c) (hu : u c = u' c) :
    ∃ r r', systematic2 lo w normalized [("u", .tensor u)] draw = .ok r ∧
      systematic2 lo w' normalized [("u", .tensor u')] draw' = .ok r' ∧ ∀ i, r i c = r' i c := by
  refine ⟨_, _, rfl, rfl, fun i => ?_⟩
  have hc : (fun i => w i c) = fun i => w' i c := funext hw
  cases normalized
  · show systematicRow (normalize1 lo fun i => w i c).2 (u c) i =
      systematicRow (normalize1 lo fun i => w' i c).2 (u' c) i
    rw [hc, hu]
  · show systematicRow (fun i => w i c) (u c) i = systematicRow (fun i => w' i c) (u' c) i
    rw [hc, hu]

example : (∀ i, (![![fin 0, fin 2], ![fin 1, nan]] : Fin 2 → Fin 2 → XF) i 0 =
      (![![fin 0, fin 5], ![fin 1, fin 1]] : Fin 2 → Fin 2 → XF) i 0) ∧
    (![![1 / 2, 1 / 3], ![0, 0]] : Fin 2 → Fin 2 → ℝ) 0 = (![![1 / 2, 1 / 3], ![1 / 9, 0]] : Fin 2 → Fin 2 → ℝ) 0 := by
  refine ⟨?_, rfl⟩
  intro i; fin_cases i <;> rfl

end Verif.Props
