import Verif.Lemmas.PreWeightBatch
import Verif.Props.LinearBatch

/-!
# Property C140: the pre-weight of the linear proposal has a number for every particle
-/

namespace Verif.Props

open Verif Verif.Torch Matrix

/-- C140 in full: for `B` filters of `N` particles, `pre_weight` of the linear proposal returns one number for every particle: the
log-density of the observation if the next state has the value of the particle as mean, with the parameters of its filter. -/
def C140_claim : Prop :=
  ∀ (N B : ℕ) (hidden obs : List ℕ), hidden.length ≤ 1 → obs.length ≤ 1 →
  ∀ (y x scale a b s : Tensor) (fy : Fin (dim obs) → ℝ) (fx fs : Fin N → Fin B → Fin (dim hidden) → ℝ)
    (fa : Fin B → Matrix (Fin (dim obs)) (Fin (dim hidden)) ℝ) (fb fo : Fin B → Fin (dim obs) → ℝ),
    Observation y obs fy → Particles x hidden fx → Particles scale hidden fs → StoredMatrix a hidden obs fa →
    Stored b obs fb → Stored s obs fo → (∀ b j, 0 < fo b j) → (∀ n b j, 0 < fs n b j) →
    ∃ z, linearPreWeight hidden obs y x scale a b s = .ok z ∧ z.shape = [B, N] ∧
      ∀ (n : Fin N) (f : Fin B), z.val [f.val, n.val] = Spec.logPredictive (fx n f) (fs n f) (fa f) (fb f) (fo f) fy

/-- The number for one particle. -/
theorem preWeight_scalar_eq (fx fs : Fin (dim []) → ℝ) (fa : Matrix (Fin (dim [])) (Fin (dim [])) ℝ) (fb fo fy : Fin (dim []) → ℝ)
    (hfo : ∀ j, 0 < fo j) (hfs : ∀ j, 0 < fs j) :
    normalLogProb (fb ix0 + fa ix0 ix0 * fx ix0) (Real.sqrt ((Verif.constructDiag (fun j => fo j ^ 2) +
        fa * Verif.constructDiag (fun e => fs e ^ 2) * faᵀ) ix0 ix0)) (fy ix0) = Spec.logPredictive fx fs fa fb fo fy := by
  have h := C42_random_walk_partial (modelOf (hidden := []) (obs := []) fx fs fa fb fo) true fy fx (fun _ => ⟨rfl, rfl⟩) hfo hfs rfl
  exact LinearModel.PreWeight.single.inj h

theorem preWeight_vector_eq {p q : ℕ} (fx fs : Fin p → ℝ) (fa : Matrix (Fin q) (Fin p) ℝ) (fb fo fy : Fin q → ℝ) :
    mvnLogProb (fb + fa *ᵥ fx) (Verif.constructDiag (fun j => fo j ^ 2) + fa * Verif.constructDiag (fun e => fs e ^ 2) * faᵀ) fy
      = Spec.logPredictive fx fs fa fb fo fy :=
  LinearModel.PreWeight.single.inj (C42_uses_previous_state (modelOf (hidden := [p]) (obs := [q]) fx fs fa fb fo) fy fx)

/-- C140 holds if state and observation are both scalars or both vectors. -/
theorem C140_pre_weight_partial (N B : ℕ) (hidden obs : List ℕ) (hh : hidden.length ≤ 1) (hd : hidden.length = obs.length)
    (y x scale a b s : Tensor) (fy : Fin (dim obs) → ℝ) (fx fs : Fin N → Fin B → Fin (dim hidden) → ℝ)
    (fa : Fin B → Matrix (Fin (dim obs)) (Fin (dim hidden)) ℝ) (fb fo : Fin B → Fin (dim obs) → ℝ) (hy : Observation y obs fy)
    (hx : Particles x hidden fx) (hsc : Particles scale hidden fs) (ha : StoredMatrix a hidden obs fa) (hb : Stored b obs fb)
    (hs : Stored s obs fo) (hfo : ∀ b j, 0 < fo b j) (hfs : ∀ n b j, 0 < fs n b j) :
    ∃ z, linearPreWeight hidden obs y x scale a b s = .ok z ∧ z.shape = [B, N] ∧
      ∀ (n : Fin N) (f : Fin B), z.val [f.val, n.val] = Spec.logPredictive (fx n f) (fs n f) (fa f) (fb f) (fo f) fy := by
  obtain ⟨ry, hy1, hy2, hy3⟩ := observation_reads B N hy
  obtain ⟨Fx, hx1, hx2⟩ := particles_reads hx
  obtain ⟨Fs, hs1, hs2⟩ := particles_reads hsc
  obtain ⟨ra, Fa, ha1, ha2, ha3⟩ := storedMatrix_reads N ha
  obtain ⟨rb, Fb, hb1, hb2, -, hb4⟩ := stored_reads N hb
  obtain ⟨rs, Fo, ho1, ho2, -, ho4⟩ := stored_reads N hs
  match hidden, obs with
  | [], [] =>
    obtain ⟨z, h1, h2, h3⟩ := linearPreWeight_scalar hx1 hs1 ha1 ho1 hb1 hy1 ha2 ho2 hb2 hy2
    refine ⟨z, h1, h2, fun n f => ?_⟩
    have e := h3 [f.val, n.val]
    rw [batchIndex] at e
    beta_reduce at e
    rw [hx2, hs2, ha3, hb4, ho4] at e
    exact e.trans (preWeight_scalar_eq _ _ _ _ _ _ (hfo f) (hfs n f))
  | [p], [q] =>
    obtain rfl := hy3 (by simp)
    obtain ⟨z, h1, h2, h3⟩ := linearPreWeight_vector hx1 hs1 ha1 ho1 hb1 hy1.1 (fun j => hy1.2 [] j) ha2 ho2 hb2
    refine ⟨z, h1, h2, fun n f => ?_⟩
    have e := h3 [f.val, n.val]
    rw [batchIndex] at e
    beta_reduce at e
    rw [hx2, hs2, ha3, hb4, ho4] at e
    exact e.trans (preWeight_vector_eq _ _ _ _ _ _)
  | [], _ :: _ => simp at hd
  | _ :: _, [] => simp at hd
  | _ :: _ :: _, _ => simp at hh
  | _ :: [], _ :: _ :: _ => simp at hd

/-- The same for a single filter. -/
theorem C140_single_filter (N : ℕ) (hidden obs : List ℕ) (hh : hidden.length ≤ 1) (hd : hidden.length = obs.length)
    (y x scale a b s : Tensor) (fy : Fin (dim obs) → ℝ) (fx fs : Fin N → Fin (dim hidden) → ℝ)
    (fa : Matrix (Fin (dim obs)) (Fin (dim hidden)) ℝ) (fb fo : Fin (dim obs) → ℝ) (hy : Observation y obs fy)
    (hx : Particles1 x hidden fx) (hsc : Particles1 scale hidden fs) (ha : FixedMatrix a hidden obs fa) (hb : Fixed b obs fb)
    (hs : Fixed s obs fo) (hfo : ∀ j, 0 < fo j) (hfs : ∀ n j, 0 < fs n j) :
    ∃ z, linearPreWeight hidden obs y x scale a b s = .ok z ∧ z.shape = [N] ∧
      ∀ n : Fin N, z.val [n.val] = Spec.logPredictive (fx n) (fs n) fa fb fo fy := by
  obtain ⟨ry, hy1, hy2, hy3⟩ := observation_reads1 N hy
  obtain ⟨Fx, hx1, hx2⟩ := particles1_reads hx
  obtain ⟨Fs, hs1, hs2⟩ := particles1_reads hsc
  match hidden, obs with
  | [], [] =>
    obtain ⟨z, h1, h2, h3⟩ := linearPreWeight_scalar hx1 hs1 (fixedMatrix_reads ha) (fixed_reads hs) (fixed_reads hb) hy1 trivial trivial
      trivial hy2
    refine ⟨z, h1, h2, fun n => ?_⟩
    have e := h3 [n.val]
    rw [particleIndex] at e
    beta_reduce at e
    rw [hx2, hs2] at e
    exact e.trans (preWeight_scalar_eq _ _ _ _ _ _ hfo (hfs n))
  | [p], [q] =>
    obtain rfl := hy3 (by simp)
    obtain ⟨z, h1, h2, h3⟩ := linearPreWeight_vector hx1 hs1 (fixedMatrix_reads ha) (fixed_reads hs) (fixed_reads hb) hy1.1
      (fun j => hy1.2 [] j) trivial trivial trivial
    refine ⟨z, h1, h2, fun n => ?_⟩
    have e := h3 [n.val]
    rw [particleIndex] at e
    beta_reduce at e
    rw [hx2, hs2] at e
    exact e.trans (preWeight_vector_eq _ _ _ _ _ _)
  | [], _ :: _ => simp at hd
  | _ :: _, [] => simp at hd
  | _ :: _ :: _, _ => simp at hh
  | _ :: [], _ :: _ :: _ => simp at hd

theorem linearPreWeight_scalar_state {S ra rs : List ℕ} {q B : ℕ} {r : List ℕ} {y x scale a b s : Tensor} {Fx Fs Fa Fo}
    (hS : S = B :: r) (hx : ReadsE x [] S Fx) (hsc : ReadsE scale [] S Fs) (ha : ReadsA a [] [q] ra Fa) (hs : ReadsE s [q] rs Fo)
    (hra : Sub ra S) (hrs : Sub rs S) (hB : B ≠ 1) : linearPreWeight [] [q] y x scale a b s = .error .runtimeError := by
  obtain ⟨aU, aT, dH, dO, tA, tB, cov, f1, f2, f3, f4, f5, f6, f7, haU, hcov⟩ := preWeightCov_reads (hidden := []) (obs := [q])
    (by simp) (by simp) hsc ha hs hra hrs
  have g : aU.matmul x.unsqueeze1 = .error .runtimeError :=
    matvec_error (q := 1) (B := B) (r' := r) haU.1 (by show 1 :: x.shape = _; rw [hx.1, hS]; rfl) (Ne.symm hB)
  unfold linearPreWeight
  have e0 : ((([q] : List ℕ).length == 0) = true) = False := by simp
  have e1 : ((([] : List ℕ).length == 0) = true) = True := by simp
  simp only [e0, e1, if_false, if_true] at f1 ⊢
  simp only [f1, f2, f3, f4, f5, f6, f7, g, ok_bind]
  rfl

/-- A scalar state with vector observations: `x.value.unsqueeze(-1)` makes the particles rows of a matrix, and the product raises. -/
theorem C140_scalar_state_raises (N B q : ℕ) (y x scale a b s : Tensor) (fx fs : Fin N → Fin B → Fin (dim []) → ℝ)
    (fa : Fin B → Matrix (Fin q) (Fin 1) ℝ) (fo : Fin B → Fin q → ℝ) (hx : Particles x [] fx) (hsc : Particles scale [] fs)
    (ha : StoredMatrix a [] [q] fa) (hs : Stored s [q] fo) (hB : B ≠ 1) :
    linearPreWeight [] [q] y x scale a b s = .error .runtimeError := by
  obtain ⟨Fx, hx1, -⟩ := particles_reads hx
  obtain ⟨Fs, hs1, -⟩ := particles_reads hsc
  obtain ⟨ra, Fa, ha1, ha2, -⟩ := storedMatrix_reads N ha
  obtain ⟨rs, Fo, ho1, ho2, -, -⟩ := stored_reads N hs
  exact linearPreWeight_scalar_state rfl hx1 hs1 ha1 ho1 ha2 ho2 hB

/-- The same for a single filter. -/
theorem C140_scalar_state_raises_single (N q : ℕ) (y x scale a b s : Tensor) (fx fs : Fin N → Fin (dim []) → ℝ)
    (fa : Matrix (Fin q) (Fin 1) ℝ) (fo : Fin q → ℝ) (hx : Particles1 x [] fx) (hsc : Particles1 scale [] fs)
    (ha : FixedMatrix a [] [q] fa) (hs : Fixed s [q] fo) (hN : N ≠ 1) :
    linearPreWeight [] [q] y x scale a b s = .error .runtimeError := by
  obtain ⟨Fx, hx1, -⟩ := particles1_reads hx
  obtain ⟨Fs, hs1, -⟩ := particles1_reads hsc
  exact linearPreWeight_scalar_state rfl hx1 hs1 (fixedMatrix_reads ha) (fixed_reads hs) trivial trivial hN

theorem linearPreWeight_vector_state {S ra rs rb : List ℕ} {p B : ℕ} {r : List ℕ} {y x scale a b s : Tensor} {Fx Fs Fa Fo}
    (hS : S = B :: r) (hx : ReadsE x [p] S Fx) (hsc : ReadsE scale [p] S Fs) (ha : ReadsA a [p] [] ra Fa) (hs : ReadsE s [] rs Fo)
    (hb : b.shape = rb) (hrb : rb = [] ∨ rb = [B]) (hra : Sub ra S) (hrs : Sub rs S) (hp : p ≠ 1) (hB : B ≠ 1) (hpB : p ≠ B) :
    linearPreWeight [p] [] y x scale a b s = .error .runtimeError := by
  obtain ⟨aU, aT, dH, dO, tA, tB, cov, f1, f2, f3, f4, f5, f6, f7, haU, hcov⟩ := preWeightCov_reads (hidden := [p]) (obs := [])
    (by simp) (by simp) hsc ha hs hra hrs
  have sq : a.squeeze1 = a := by
    obtain ⟨as, av⟩ := a
    obtain rfl : as = p :: ra := ha.1
    unfold Tensor.squeeze1
    split
    · next h => exact absurd (List.cons.inj h).1 hp
    · rfl
  have ha0 : Reads1 a p ra fun i => Fa i ix0 := ⟨ha.1, fun i => ha.2 i ix0⟩
  obtain ⟨m, rm, g1, -, k1, k2, hm⟩ := zip_reads1 (f := (· * ·)) ha0 hx.one hra (Sub.refl S)
  obtain rfl : S = rm := k1.antisymm k2
  have hcs : (cov.corner.map Real.sqrt).shape = S := (map_reads0 Real.sqrt (corner_reads hcov)).1
  have ne : broadcastShape (p :: S) S = none := by
    rw [hS]
    simp [broadcastShape, hp, hB, hpB]
  unfold linearPreWeight
  have e0 : ((([p] : List ℕ).length == 0) = true) = False := by simp
  have e1 : ((([] : List ℕ).length == 0) = true) = True := by simp
  simp only [e0, e1, if_false, if_true] at f1 ⊢
  simp only [f1, f2, f3, f4, f5, f6, f7, sq, g1, ok_bind]
  rcases hrb with rfl | rfl
  · have g2 := zip_eq (f := (· + ·)) hb hm.1 (t := p :: S) rfl
    have g3 : Dist.mkNormal ⟨p :: S, fun i => b.val (broadcastIndex [] i) + m.val (broadcastIndex (p :: S) i)⟩ (cov.corner.map Real.sqrt)
        = .error .runtimeError := by
      unfold Dist.mkNormal
      rw [hcs]
      simp only [ne]
    simp only [g2, g3, ok_bind]
    rfl
  · have g2 : Tensor.zip (· + ·) b m = .error .runtimeError := by
      unfold Tensor.zip
      rw [hb, hm.1]
      simp [broadcastShape, hp, hB, Ne.symm hpB]
    simp only [g2]
    rfl

/-- A vector state with scalar observations: `a.squeeze(-1) * x.value` keeps the components of the state, which are then taken for the
filters, and `Normal` raises unless the sizes agree by accident. -/
theorem C140_vector_state_raises (N B p : ℕ) (y x scale a b s : Tensor) (fx fs : Fin N → Fin B → Fin p → ℝ)
    (fa : Fin B → Matrix (Fin 1) (Fin p) ℝ) (fb fo : Fin B → Fin (dim []) → ℝ) (hx : Particles x [p] fx) (hsc : Particles scale [p] fs)
    (ha : StoredMatrix a [p] [] fa) (hb : Stored b [] fb) (hs : Stored s [] fo) (hp : p ≠ 1) (hB : B ≠ 1) (hpB : p ≠ B) :
    linearPreWeight [p] [] y x scale a b s = .error .runtimeError := by
  obtain ⟨Fx, hx1, -⟩ := particles_reads hx
  obtain ⟨Fs, hs1, -⟩ := particles_reads hsc
  obtain ⟨ra, Fa, ha1, ha2, -⟩ := storedMatrix_reads N ha
  obtain ⟨rs, Fo, ho1, ho2, -, -⟩ := stored_reads N hs
  have hbs : b.shape = [] ∨ b.shape = [B] := by
    rcases hb with ⟨h, -⟩ | ⟨h, -⟩
    · exact Or.inl h
    · exact Or.inr h
  exact linearPreWeight_vector_state rfl hx1 hs1 ha1 ho1 rfl hbs ha2 ho2 hp hB hpB

/-- The same for a single filter; there the components are taken for the particles. -/
theorem C140_vector_state_raises_single (N p : ℕ) (y x scale a b s : Tensor) (fx fs : Fin N → Fin p → ℝ)
    (fa : Matrix (Fin 1) (Fin p) ℝ) (fb fo : Fin (dim []) → ℝ) (hx : Particles1 x [p] fx) (hsc : Particles1 scale [p] fs)
    (ha : FixedMatrix a [p] [] fa) (hb : Fixed b [] fb) (hs : Fixed s [] fo) (hp : p ≠ 1) (hN : N ≠ 1) (hpN : p ≠ N) :
    linearPreWeight [p] [] y x scale a b s = .error .runtimeError := by
  obtain ⟨Fx, hx1, -⟩ := particles1_reads hx
  obtain ⟨Fs, hs1, -⟩ := particles1_reads hsc
  exact linearPreWeight_vector_state rfl hx1 hs1 (fixedMatrix_reads ha) (fixed_reads hs) rfl (Or.inl hb.1) trivial trivial hp hN hpN

/-- A vector state with one component and scalar observations: no error, but a square matrix instead of one number for every
particle. -/
theorem C140_one_component (N : ℕ) (y x scale a b s : Tensor) (fy : Fin (dim []) → ℝ) (fx fs : Fin N → Fin 1 → ℝ)
    (fa : Matrix (Fin 1) (Fin 1) ℝ) (fb fo : Fin (dim []) → ℝ) (hy : Observation y [] fy) (hx : Particles1 x [1] fx)
    (hsc : Particles1 scale [1] fs) (ha : FixedMatrix a [1] [] fa) (hb : Fixed b [] fb) (hs : Fixed s [] fo) :
    ∃ z, linearPreWeight [1] [] y x scale a b s = .ok z ∧ z.shape = [N, N] := by
  obtain ⟨Fx, hx1, -⟩ := particles1_reads hx
  obtain ⟨Fs, hs1, -⟩ := particles1_reads hsc
  have ha1 := fixedMatrix_reads ha
  obtain ⟨aU, aT, dH, dO, tA, tB, cov, f1, f2, f3, f4, f5, f6, f7, haU, hcov⟩ := preWeightCov_reads (hidden := [1]) (obs := [])
    (S := [N]) (by simp) (by simp) hs1 ha1 (fixed_reads hs) trivial trivial
  have hcs : (cov.corner.map Real.sqrt).shape = [N] := (map_reads0 Real.sqrt (corner_reads hcov)).1
  have ha0 : Reads1 a 1 [] fun i => fun _ => fa ix0 ix0 := ⟨ha.1, fun i u => (ha1.2 i ix0 u).trans (by rw [eq_ix0 u])⟩
  have g1 := zip_eq (f := (· * ·)) (squeeze_reads1 ha0).1 hx.1 (t := [1, N]) rfl
  have g2 := fun v => zip_eq (f := (· + ·)) (y := ⟨[1, N], v⟩) hb.1 rfl (t := [1, N]) rfl
  have g3 : ∀ v, Dist.mkNormal ⟨[1, N], v⟩ (cov.corner.map Real.sqrt)
      = .ok (.normal (Tensor.expand ⟨[1, N], v⟩ [N, N]) ((cov.corner.map Real.sqrt).expand [N, N])) := by
    intro v
    unfold Dist.mkNormal
    rw [hcs]
    simp [broadcastShape]
  have g4 : ∀ l k, l.shape = [N, N] → ∃ z, (Dist.normal l k).logProb y = .ok z ∧ z.shape = [N, N] := by
    intro l k hl
    have e : broadcastShape y.shape l.shape = some [N, N] := by
      rw [hl]
      rcases hy with ⟨h, -⟩ | ⟨-, h, -⟩
      · rw [h]; rfl
      · rw [h]
        simp [broadcastShape]
    unfold Dist.logProb
    simp only [e]
    exact ⟨_, rfl, rfl⟩
  have e0 : ((([1] : List ℕ).length == 0) = true) = False := by simp
  have e1 : ((([] : List ℕ).length == 0) = true) = True := by simp
  unfold linearPreWeight
  simp only [e0, e1, if_false, if_true] at f1 ⊢
  simp only [f1, f2, f3, f4, f5, f6, f7, g1, g2, g3, ok_bind]
  exact g4 _ _ rfl

theorem C140_negation : ¬ C140_claim := by
  intro h
  obtain ⟨z, hz, -⟩ := h 1 2 [] [3] (by simp) (by simp) ⟨[3], fun _ => 0⟩ ⟨[2, 1], fun _ => 0⟩ ⟨[2, 1], fun _ => 1⟩ ⟨[3], fun _ => 1⟩
    ⟨[3], fun _ => 0⟩ ⟨[3], fun _ => 1⟩ (fun _ => 0) (fun _ _ _ => 0) (fun _ _ _ => 1) (fun _ => of fun _ _ => 1) (fun _ _ => 0)
    (fun _ _ => 1) (Or.inl ⟨rfl, fun _ => rfl⟩) ⟨rfl, fun _ _ _ => rfl⟩ ⟨rfl, fun _ _ _ => rfl⟩ (Or.inl ⟨rfl, fun _ _ _ => rfl⟩)
    (Or.inl ⟨rfl, fun _ _ => rfl⟩) (Or.inl ⟨rfl, fun _ _ => rfl⟩) (fun _ _ => one_pos) (fun _ _ _ => one_pos)
  have e := C140_scalar_state_raises 1 2 3 ⟨[3], fun _ => 0⟩ ⟨[2, 1], fun _ => 0⟩ ⟨[2, 1], fun _ => 1⟩
    ⟨[3], fun _ => 1⟩ ⟨[3], fun _ => 0⟩ ⟨[3], fun _ => 1⟩ (fun _ _ _ => 0) (fun _ _ _ => 1)
    (fun _ => of fun _ _ => 1) (fun _ _ => 1) ⟨rfl, fun _ _ _ => rfl⟩ ⟨rfl, fun _ _ _ => rfl⟩
    (Or.inl ⟨rfl, fun _ _ _ => rfl⟩) (Or.inl ⟨rfl, fun _ _ => rfl⟩) (by decide)
  rw [e] at hz
  exact absurd hz (by simp)

/-- Three filters of two particles, vectors with two and three components, offsets that differ between the filters. -/
example : ∃ z, linearPreWeight [2] [3] ⟨[3], fun _ => 5⟩ ⟨[2, 3, 2], fun i => i.sum⟩ ⟨[2, 3, 2], fun _ => 2⟩ ⟨[2, 3], fun i => i.sum⟩
      ⟨[3, 3], fun i => i.sum⟩ ⟨[3], fun _ => 1⟩ = .ok z ∧ z.shape = [3, 2] := by
  obtain ⟨z, h1, h2, -⟩ := C140_pre_weight_partial 2 3 [2] [3] (by simp) (by simp) ⟨[3], fun _ => 5⟩ ⟨[2, 3, 2], fun i => i.sum⟩
    ⟨[2, 3, 2], fun _ => 2⟩ ⟨[2, 3], fun i => i.sum⟩ ⟨[3, 3], fun i => i.sum⟩ ⟨[3], fun _ => 1⟩ (fun _ => 5)
    (fun n b j => (([j.val, b.val, n.val] : List ℕ).sum : ℕ)) (fun _ _ _ => 2) (fun _ => of fun i j => (([j.val, i.val] : List ℕ).sum : ℕ))
    (fun b j => (([j.val, b.val] : List ℕ).sum : ℕ)) (fun _ _ => 1) (Or.inl ⟨rfl, fun _ => rfl⟩) ⟨rfl, fun _ _ _ => rfl⟩
    ⟨rfl, fun _ _ _ => rfl⟩ (Or.inl ⟨rfl, fun _ _ _ => rfl⟩) (Or.inr ⟨rfl, fun _ _ => rfl⟩) (Or.inl ⟨rfl, fun _ _ => rfl⟩)
    (fun _ _ => one_pos) (fun _ _ _ => two_pos)
  exact ⟨z, h1, h2⟩

/-- A hundred particles of a single filter with a state of two components, observed through their sum: `pre_weight` raises. -/
example : linearPreWeight [2] [] ⟨[], fun _ => 1⟩ ⟨[2, 100], fun i => i.sum⟩ ⟨[2, 100], fun _ => 1⟩ ⟨[2], fun _ => 1⟩ ⟨[], fun _ => 0⟩
    ⟨[], fun _ => 1⟩ = .error .runtimeError :=
  C140_vector_state_raises_single 100 2 _ _ _ _ _ _ (fun n j => (([j.val, n.val] : List ℕ).sum : ℕ)) (fun _ _ => 1) (of fun _ _ => 1)
    (fun _ => 0) (fun _ => 1) ⟨rfl, fun _ _ => rfl⟩ ⟨rfl, fun _ _ => rfl⟩ ⟨rfl, fun _ _ => rfl⟩ ⟨rfl, fun _ => rfl⟩ ⟨rfl, fun _ => rfl⟩
    (by decide) (by decide) (by decide)

end Verif.Props
