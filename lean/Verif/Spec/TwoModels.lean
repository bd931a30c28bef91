import Verif.Model.Particle
import Verif.Model.TensorRun
import Verif.Model.TensorGpf
import Verif.Spec.TensorMove
import Verif.Spec.TensorSisr
import Verif.Spec.TensorRun

/-!
# Tensors that hold the numbers of the particle filters of `Model/Particle`
-/

namespace Verif.Torch

/-- The tensors of a state hold the particles, (finite) log-weights, log-likelihoods and ancestors of `B` filters of `N` particles. -/
structure HoldsC {N B : ℕ} (ev : List ℕ) (c : CorrectionT) (s : PCorr N B (dim ev) ℝ) : Prop where
  x : c.x.shape = ev ++ [B, N] ∧ ∀ (n : Fin N) (b : Fin B) j, c.x.val (compIx ev j.val ++ [b.val, n.val]) = s.x.value n b j
  w : c.w.shape = [B, N] ∧ ∀ (n : Fin N) (b : Fin B), s.w n b = .fin (c.w.val [b.val, n.val])
  ll : c.ll.shape = [B] ∧ ∀ b : Fin B, s.ll b = .fin (c.ll.val [b.val])
  prev : c.indices.shape = [B, N] ∧ ∀ (n : Fin N) (b : Fin B), c.indices.val [b.val, n.val] = (s.prev n b).val

/-- The tensors of a prediction hold the particles, log-weights, positive normalised weights and ancestors. -/
structure HoldsP {N B : ℕ} (ev : List ℕ) (p : PredictionT) (q : PPred N B (dim ev) ℝ) : Prop where
  x : p.x.shape = ev ++ [B, N] ∧ ∀ (n : Fin N) (b : Fin B) j, p.x.val (compIx ev j.val ++ [b.val, n.val]) = q.prevX.value n b j
  w : p.weights.shape = [B, N] ∧ ∀ (n : Fin N) (b : Fin B), q.w n b = .fin (p.weights.val [b.val, n.val])
  nw : p.normalized.shape = [B, N] ∧ ∀ (n : Fin N) (b : Fin B), q.nw n b = .fin (p.normalized.val [b.val, n.val])
  pos : ∀ (n : Fin N) (b : Fin B), 0 < p.normalized.val [b.val, n.val]
  idx : p.indices.shape = [B, N] ∧ ∀ (n : Fin N) (b : Fin B), p.indices.val [b.val, n.val] = (q.idx n b).val

/-- The average of `φ` over the particles of filter `b` that the tensors of a state hold, weighted by the exponentials of the log-weights. -/
noncomputable def tensorAverage (N : ℕ) (ev : List ℕ) (b : ℕ) (φ : (Fin (dim ev) → ℝ) → ℝ) (c : CorrectionT) : ℝ :=
  (∑ n : Fin N, Real.exp (c.w.val [b, n.val]) * φ fun j => c.x.val (compIx ev j.val ++ [b, n.val])) / ∑ n : Fin N, Real.exp (c.w.val [b, n.val])

variable {N B : ℕ} {Y Ω : Type}

/-- `f` draws and weighs on tensors as the proposal of `M` does with generator state `ω` at time `t`. -/
def SameProposal (ev : List ℕ) (M : ParticleModel N B (dim ev) ℝ Y Ω) (y : Y) (t : ℕ) (ω : Ω)
    (f : Tensor → Tensor → Except PyErr (Tensor × Tensor)) : Prop :=
  ∃ (S : Fin N → List ℕ → (Fin N → Fin (dim ev) → ℝ) → (Fin N → ℝ) → Fin (dim ev) → ℝ)
    (V : Fin N → List ℕ → (Fin N → Fin (dim ev) → ℝ) → (Fin N → ℝ) → ℝ), PropG N ev [B] f S V ∧
    ∀ (q : PPred N B (dim ev) ℝ) (U : Fin N → Fin B → ℝ), q.prevX.time = t → (∀ n b, q.nw n b = .fin (U n b)) → ∀ n b,
      (M.sampleValues y q ω).1.1 n b = S n [b.val] (fun k => q.prevX.value k b) (fun k => U k b) ∧
      (M.sampleValues y q ω).1.2 n b = .fin (V n [b.val] (fun k => q.prevX.value k b) fun k => U k b)

/-- `pre` computes on tensors the pre-weights of `M` at time `t`. -/
def SamePre (ev : List ℕ) (M : ParticleModel N B (dim ev) ℝ Y Ω) (y : Y) (t : ℕ) (pre : Tensor → Except PyErr Tensor) : Prop :=
  ∃ P : Fin N → List ℕ → (Fin N → Fin (dim ev) → ℝ) → ℝ, PreG N ev [B] pre P ∧
    ∀ x : TS N B (dim ev) ℝ, x.time = t → ∀ n b, M.preWeight y x n b = .fin (P n [b.val] fun k => x.value k b)

/-- `res` resamples log-weights of all filters as `M` does with generator state `ω`. -/
def SameScheme (ev : List ℕ) (M : ParticleModel N B (dim ev) ℝ Y Ω) (ω : Ω) (res : Tensor → Except PyErr Index) : Prop :=
  ∃ A : List ℕ → (Fin N → ℝ) → Fin N → Fin N, SchemeG N [B] res A ∧
    ∀ (W : Fin N → Fin B → ℝ) n b, (M.resampler (fun n b => .fin (W n b)) false ω).1 n b = A [b.val] (fun k => W k b) n

/-- `res` resamples the normalised weights of any number of filters as `M` does with generator state `ω`. -/
def SameColumns (ev : List ℕ) (M : ParticleModel N B (dim ev) ℝ Y Ω) (ω : Ω) (res : Tensor → Except PyErr Index) : Prop :=
  ∃ A : ℕ → (Fin N → ℝ) → Fin N → Fin N, ColumnG N res A ∧
    ∀ (m : ℕ) (U : Fin N → Fin m → ℝ) n k, (M.resampler (fun n b => .fin (U n b)) true ω).1 n k = A k.val (fun j => U j k) n

/-- `f` propagates on tensors as `M` does with generator state `ω` at time `t`. -/
def SamePropagate (ev : List ℕ) (M : ParticleModel N B (dim ev) ℝ Y Ω) (t : ℕ) (ω : Ω) (f : Tensor → Except PyErr Tensor) : Prop :=
  ∃ T : Fin N → List ℕ → (Fin (dim ev) → ℝ) → Fin (dim ev) → ℝ, PropagateG N ev [B] f T ∧
    ∀ x : TS N B (dim ev) ℝ, x.time = t → ∀ n b, (M.propagateValues x ω).1 n b = T n [b.val] (x.value n b)

/-- `f` computes on tensors, particle by particle, the log-density `logProb` of observation `y` at time `t`. -/
def SameDensity (ev : List ℕ) (logProb : Y → TS N B (dim ev) ℝ → Fin N → Fin B → XF) (y : Y) (t : ℕ) (f : Tensor → Except PyErr Tensor) : Prop :=
  ∃ D : Fin N → List ℕ → (Fin (dim ev) → ℝ) → ℝ,
    (∀ (z : Tensor) (G : Fin N → List ℕ → Fin (dim ev) → ℝ), PartG z ev [B] G → ∃ w, f z = .ok w ∧ WeightG w [B] fun n b => D n b (G n b)) ∧
    ∀ x : TS N B (dim ev) ℝ, x.time = t → ∀ n b, logProb y x n b = .fin (D n [b.val] (x.value n b))

/-- The random parts of a filter on tensors, for every state of the generator (and observation and time). -/
structure Parts (Y Ω : Type) where
  columns : Ω → Tensor → Except PyErr Index
  scheme : Ω → Tensor → Except PyErr Index
  pre : Y → ℕ → Tensor → Except PyErr Tensor
  proposal : Y → ℕ → Ω → Tensor → Tensor → Except PyErr (Tensor × Tensor)
  propagate : ℕ → Ω → Tensor → Except PyErr Tensor

/-- They compute what the parts of `M` compute. -/
structure SameParts (ev : List ℕ) (M : ParticleModel N B (dim ev) ℝ Y Ω) (T : Parts Y Ω) : Prop where
  columns : ∀ ω, SameColumns ev M ω (T.columns ω)
  scheme : ∀ ω, SameScheme ev M ω (T.scheme ω)
  pre : ∀ y t, SamePre ev M y t (T.pre y t)
  proposal : ∀ y t ω, SameProposal ev M y t ω (T.proposal y t ω)
  propagate : ∀ t ω, SamePropagate ev M t ω (T.propagate t ω)

/-- `predict` on tensors with generator state `ω`. -/
noncomputable def predictOf (ev : List ℕ) (k : FilterKind) (M : ParticleModel N B (dim ev) ℝ Y Ω) (T : Parts Y Ω) (ω : Ω) :
    Tensor → Tensor → Index → Except PyErr PredictionT :=
  match k with
  | .sisr => sisrPredict ev M.threshold (T.columns ω)
  | .apf => fun x w _ => apfPredict [B] N x w
  | .gpf => gpfPredict

/-- The step on tensors for observation `y`, with the generator states at which the filter `M` uses its parts in state `s`. -/
noncomputable def stepOf (ev : List ℕ) (k : FilterKind) (M : ParticleModel N B (dim ev) ℝ Y Ω) (T : Parts Y Ω) (y : Y)
    (s : PCorr N B (dim ev) ℝ) (ω : Ω) : StepT :=
  let q := ((k.ops M).predict s ω).1
  let ω' := ((k.ops M).predict s ω).2
  let correct : PredictionT → Except PyErr CorrectionT := match k with
    | .sisr => sisrCorrect (T.proposal y q.prevX.time ω')
    | .apf => apfCorrect (T.scheme ω') (T.pre y q.prevX.time)
      (T.proposal y q.prevX.time (M.resampler (fun i b => M.preWeight y q.prevX i b + q.w i b) false ω').2)
    | .gpf => gpfCorrect (T.proposal y q.prevX.time ω')
  ⟨predictOf ev k M T ω, if M.allNan y then .missing (T.propagate q.prevX.time ω') else .seen correct⟩

/-- The steps along a run of `M`. -/
noncomputable def stepsOf (ev : List ℕ) (k : FilterKind) (M : ParticleModel N B (dim ev) ℝ Y Ω) (T : Parts Y Ω) :
    List Y → PCorr N B (dim ev) ℝ → Ω → List StepT
  | [], _, _ => []
  | y :: ys, s, ω =>
    let q := (k.ops M).predict s ω
    let r := if M.allNan y then (k.ops M).propagate q.1 q.2 else (k.ops M).correct y q.1 q.2
    stepOf ev k M T y s ω :: stepsOf ev k M T ys r.1 r.2

/-- The passes between two observations on tensors that `M` makes from state `s`, with at most `fuel` passes, and the state and generator
after them. -/
noncomputable def gapsOf (ev : List ℕ) (k : FilterKind) (M : ParticleModel N B (dim ev) ℝ Y Ω) (T : Parts Y Ω) (every : ℕ) :
    ℕ → PCorr N B (dim ev) ℝ → Ω → List GapT × PCorr N B (dim ev) ℝ × Ω
  | 0, s, ω => ([], s, ω)
  | fuel + 1, s, ω =>
    let q := (k.ops M).predict s ω
    if q.1.prevX.time % every = 0 then ([], s, ω)
    else
      let c := (k.ops M).propagate q.1 q.2
      let r := gapsOf ev k M T every fuel c.1 c.2
      (⟨predictOf ev k M T ω, T.propagate q.1.prevX.time q.2⟩ :: r.1, r.2)

/-- The steps along a run of `M` whose process is observed every few steps. -/
noncomputable def everyOf (ev : List ℕ) (k : FilterKind) (M : ParticleModel N B (dim ev) ℝ Y Ω) (T : Parts Y Ω) (every fuel : ℕ) :
    List Y → PCorr N B (dim ev) ℝ → Ω → List EveryT
  | [], _, _ => []
  | y :: ys, s, ω =>
    let g := gapsOf ev k M T every fuel s ω
    let q := (k.ops M).predict g.2.1 g.2.2
    let r := if M.allNan y then (k.ops M).propagate q.1 q.2 else (k.ops M).correct y q.1 q.2
    ⟨g.1, stepOf ev k M T y g.2.1 g.2.2⟩ :: everyOf ev k M T every fuel ys r.1 r.2

end Verif.Torch
