import Verif.Lemmas.LinearBatch
import Verif.Props.Proposals

/-!
# Property C139: the linear proposal serves every filter of a batch
-/

namespace Verif.Props

open Verif Verif.Torch Matrix

/-- The state space model of filter `b`, for an ancestor with the given mean and scale of the next state. -/
def modelOf {hidden obs : List ℕ} (mean scale : Fin (dim hidden) → ℝ) (a : Matrix (Fin (dim obs)) (Fin (dim hidden)) ℝ)
    (b s : Fin (dim obs) → ℝ) : LinearModel (dim hidden) (dim obs) := ⟨fun _ => (mean, scale), a, b, s⟩

/-- C139 in full: for `B` filters of `N` particles, with parameters shared by the filters or not, `sample_and_weight` of the linear
proposal builds a kernel for all of them, and the density of every particle is the conditional density of the next state given the
observation, with the parameters of its filter. -/
def C139_claim : Prop :=
  ∀ (N B : ℕ) (hidden obs : List ℕ), hidden.length ≤ 1 → obs.length ≤ 1 →
  ∀ (y mean scale a b s : Tensor) (fy : Fin (dim obs) → ℝ) (fm fs : Fin N → Fin B → Fin (dim hidden) → ℝ)
    (fa : Fin B → Matrix (Fin (dim obs)) (Fin (dim hidden)) ℝ) (fb fo : Fin B → Fin (dim obs) → ℝ),
    Observation y obs fy → Particles mean hidden fm → Particles scale hidden fs → StoredMatrix a hidden obs fa →
    Stored b obs fb → Stored s obs fo → (∀ b j, 0 < fo b j) → (∀ n b j, 0 < fs n b j) →
    ∃ D, linearKernel hidden obs y mean scale a b s = .ok D ∧ D.batchShape = [B, N] ∧ D.eventShape = hidden ∧
      ∀ (n : Fin N) (f : Fin B) (x x' : Fin (dim hidden) → ℝ),
        let L := modelOf (fm n f) (fs n f) (fa f) (fb f) (fo f)
        D.logProbAt [f.val, n.val] x' = L.obsLogProb x' fy + L.transLogProb x x' -
          Spec.logPredictive (fm n f) (fs n f) (fa f) (fb f) (fo f) fy

theorem sub_batch {B N : ℕ} : Sub [B] [B, N] := ⟨Or.inl rfl, trivial⟩

theorem batchIndex {B N : ℕ} (n : Fin N) (b : Fin B) : broadcastIndex [B, N] [b.val, n.val] = [b.val, n.val] := by
  rw [broadcastIndex_cons b.2, broadcastIndex_cons n.2]
  rfl

theorem filterIndex {B N : ℕ} (n : Fin N) (b : Fin B) : broadcastIndex [B] [b.val, n.val] = [b.val] := by
  rw [broadcastIndex_cons b.2]
  rfl

theorem stored_reads {B : ℕ} (N : ℕ) {t : Tensor} {ev : List ℕ} {f : Fin B → Fin (dim ev) → ℝ} (h : Stored t ev f) :
    ∃ r F, ReadsE t ev r F ∧ Sub r [B, N] ∧ (t.shape = ev → r = []) ∧ ∀ (n : Fin N) (b : Fin B), F [b.val, n.val] = f b := by
  rcases h with ⟨h1, h2⟩ | ⟨h1, h2⟩
  · exact ⟨[], fun _ j => t.val (compIx ev j.val), ⟨by rw [h1, List.append_nil], fun i j => by simp only [broadcastIndex, List.append_nil]; rfl⟩, trivial,
      fun _ => rfl, fun n b => funext fun j => h2 b j⟩
  · refine ⟨[B], fun i j => t.val (compIx ev j.val ++ broadcastIndex [B] i), ⟨h1, fun i j => rfl⟩, sub_batch, fun h => ?_,
      fun n b => funext fun j => ?_⟩
    · rw [h1] at h
      simp at h
    · show t.val (compIx ev j.val ++ broadcastIndex [B] [b.val, n.val]) = _
      rw [filterIndex]
      exact h2 b j

theorem storedMatrix_reads {B : ℕ} (N : ℕ) {t : Tensor} {hidden obs : List ℕ}
    {f : Fin B → Matrix (Fin (dim obs)) (Fin (dim hidden)) ℝ} (h : StoredMatrix t hidden obs f) :
    ∃ r F, ReadsA t hidden obs r F ∧ Sub r [B, N] ∧ ∀ (n : Fin N) (b : Fin B), F [b.val, n.val] = f b := by
  rcases h with ⟨h1, h2⟩ | ⟨h1, h2⟩
  · exact ⟨[], fun _ => of fun i j => t.val (compIx hidden j.val ++ compIx obs i.val),
      ⟨by rw [h1, List.append_nil], fun s i j => by simp only [broadcastIndex, List.append_nil]; rfl⟩, trivial,
      fun n b => by ext i j; exact h2 b i j⟩
  · refine ⟨[B], fun s => of fun i j => t.val (compIx hidden j.val ++ (compIx obs i.val ++ broadcastIndex [B] s)),
      ⟨h1, fun s i j => rfl⟩, sub_batch, fun n b => ?_⟩
    ext i j
    show t.val (compIx hidden j.val ++ (compIx obs i.val ++ broadcastIndex [B] [b.val, n.val])) = _
    rw [filterIndex]
    exact h2 b i j

theorem particles_reads {N B : ℕ} {t : Tensor} {ev : List ℕ} {f : Fin N → Fin B → Fin (dim ev) → ℝ} (h : Particles t ev f) :
    ∃ F, ReadsE t ev [B, N] F ∧ ∀ (n : Fin N) (b : Fin B), F [b.val, n.val] = f n b := by
  refine ⟨fun i j => t.val (compIx ev j.val ++ broadcastIndex [B, N] i), ⟨h.1, fun i j => rfl⟩, fun n b => funext fun j => ?_⟩
  show t.val (compIx ev j.val ++ broadcastIndex [B, N] [b.val, n.val]) = _
  rw [batchIndex]
  exact h.2 n b j

theorem observation_reads (B N : ℕ) {t : Tensor} {ev : List ℕ} {f : Fin (dim ev) → ℝ} (h : Observation t ev f) :
    ∃ r, ReadsE t ev r (fun _ => f) ∧ Sub r [B, N] ∧ (ev ≠ [] → r = []) := by
  rcases h with ⟨h1, h2⟩ | ⟨rfl, h1, h2⟩
  · exact ⟨[], ⟨by rw [h1, List.append_nil], fun i j => by simp only [broadcastIndex, List.append_nil]; exact h2 j⟩, trivial, fun _ => rfl⟩
  · refine ⟨[1], ⟨h1, fun i j => ?_⟩, ⟨Or.inr rfl, trivial⟩, fun h => absurd rfl h⟩
    exact h2 j

theorem fixed_reads {t : Tensor} {ev : List ℕ} {f : Fin (dim ev) → ℝ} (h : Fixed t ev f) : ReadsE t ev [] fun _ => f :=
  ⟨by rw [h.1, List.append_nil], fun i j => by simp only [broadcastIndex, List.append_nil]; exact h.2 j⟩

theorem fixedMatrix_reads {t : Tensor} {hidden obs : List ℕ} {f : Matrix (Fin (dim obs)) (Fin (dim hidden)) ℝ}
    (h : FixedMatrix t hidden obs f) : ReadsA t hidden obs [] fun _ => f :=
  ⟨by rw [h.1, List.append_nil], fun s i j => by simp only [broadcastIndex, List.append_nil]; exact h.2 i j⟩

theorem particleIndex {N : ℕ} (n : Fin N) : broadcastIndex [N] [n.val] = [n.val] := by
  rw [broadcastIndex_cons n.2]
  rfl

theorem particles1_reads {N : ℕ} {t : Tensor} {ev : List ℕ} {f : Fin N → Fin (dim ev) → ℝ} (h : Particles1 t ev f) :
    ∃ F, ReadsE t ev [N] F ∧ ∀ n : Fin N, F [n.val] = f n := by
  refine ⟨fun i j => t.val (compIx ev j.val ++ broadcastIndex [N] i), ⟨h.1, fun i j => rfl⟩, fun n => funext fun j => ?_⟩
  show t.val (compIx ev j.val ++ broadcastIndex [N] [n.val]) = _
  rw [particleIndex]
  exact h.2 n j

theorem observation_reads1 (N : ℕ) {t : Tensor} {ev : List ℕ} {f : Fin (dim ev) → ℝ} (h : Observation t ev f) :
    ∃ r, ReadsE t ev r (fun _ => f) ∧ Sub r [N] ∧ (ev ≠ [] → r = []) := by
  obtain ⟨r, h1, h2, h3⟩ := observation_reads N 0 h
  rcases h with ⟨h, -⟩ | ⟨rfl, h, -⟩
  · have := h1.1
    rw [h] at this
    obtain rfl : r = [] := by simpa using this.symm
    exact ⟨[], h1, trivial, h3⟩
  · have e := h1.1
    rw [h] at e
    obtain rfl : [1] = r := e
    exact ⟨[1], h1, ⟨Or.inr rfl, trivial⟩, h3⟩

/-- A single filter, without a batch of parameters: the kernel is right for every particle. -/
theorem C139_single_filter (N : ℕ) (hidden obs : List ℕ) (hh : hidden.length ≤ 1) (ho : obs.length ≤ 1) (y mean scale a b s : Tensor)
    (fy : Fin (dim obs) → ℝ) (fm fs : Fin N → Fin (dim hidden) → ℝ) (fa : Matrix (Fin (dim obs)) (Fin (dim hidden)) ℝ)
    (fb fo : Fin (dim obs) → ℝ) (hy : Observation y obs fy) (hm : Particles1 mean hidden fm) (hsc : Particles1 scale hidden fs)
    (ha : FixedMatrix a hidden obs fa) (hb : Fixed b obs fb) (hs : Fixed s obs fo) (hfo : ∀ j, 0 < fo j) (hfs : ∀ n j, 0 < fs n j) :
    ∃ D, linearKernel hidden obs y mean scale a b s = .ok D ∧ D.batchShape = [N] ∧ D.eventShape = hidden ∧
      ∀ (n : Fin N) (x x' : Fin (dim hidden) → ℝ),
        let L := modelOf (fm n) (fs n) fa fb fo
        D.logProbAt [n.val] x' = L.obsLogProb x' fy + L.transLogProb x x' - Spec.logPredictive (fm n) (fs n) fa fb fo fy := by
  obtain ⟨ry, hy1, hy2, hy3⟩ := observation_reads1 N hy
  obtain ⟨Fm, hm1, hm2⟩ := particles1_reads hm
  obtain ⟨Fs, hs1, hs2⟩ := particles1_reads hsc
  obtain ⟨D, h1, h2, h3, h4⟩ := linearKernel_reads hh ho hm1 hs1 (fixedMatrix_reads ha) (fixed_reads hs) hy1 (fixed_reads hb) trivial
    trivial hy2 trivial fun h => ⟨hy3 h, rfl⟩
  refine ⟨D, h1, h2, h3, fun n x x' => ?_⟩
  have e := h4 [n.val] x'
  rw [particleIndex, hm2, hs2] at e
  have hn : (hidden.length == 0) = true → dim hidden = 1 := by
    intro h
    cases hidden with
    | nil => rfl
    | cons p r => simp at h
  exact e.trans (C41_weight_is_predictive (modelOf (hidden := hidden) (obs := obs) (fm n) (fs n) fa fb fo) (hidden.length == 0) hn
    fy x x' hfo (hfs n)).2.1

/-- C139 holds if the observation is a scalar or the filters share their offset. -/
theorem C139_kernel_partial (N B : ℕ) (hidden obs : List ℕ) (hh : hidden.length ≤ 1) (ho : obs.length ≤ 1)
    (y mean scale a b s : Tensor) (fy : Fin (dim obs) → ℝ) (fm fs : Fin N → Fin B → Fin (dim hidden) → ℝ)
    (fa : Fin B → Matrix (Fin (dim obs)) (Fin (dim hidden)) ℝ) (fb fo : Fin B → Fin (dim obs) → ℝ) (hy : Observation y obs fy)
    (hm : Particles mean hidden fm) (hsc : Particles scale hidden fs) (ha : StoredMatrix a hidden obs fa) (hb : Stored b obs fb)
    (hs : Stored s obs fo) (hshared : obs = [] ∨ b.shape = obs) (hfo : ∀ b j, 0 < fo b j) (hfs : ∀ n b j, 0 < fs n b j) :
    ∃ D, linearKernel hidden obs y mean scale a b s = .ok D ∧ D.batchShape = [B, N] ∧ D.eventShape = hidden ∧
      ∀ (n : Fin N) (f : Fin B) (x x' : Fin (dim hidden) → ℝ),
        let L := modelOf (fm n f) (fs n f) (fa f) (fb f) (fo f)
        D.logProbAt [f.val, n.val] x' = L.obsLogProb x' fy + L.transLogProb x x' -
          Spec.logPredictive (fm n f) (fs n f) (fa f) (fb f) (fo f) fy := by
  obtain ⟨ry, hy1, hy2, hy3⟩ := observation_reads B N hy
  obtain ⟨Fm, hm1, hm2⟩ := particles_reads hm
  obtain ⟨Fs, hs1, hs2⟩ := particles_reads hsc
  obtain ⟨ra, Fa, ha1, ha2, ha3⟩ := storedMatrix_reads N ha
  obtain ⟨rb, Fb, hb1, hb2, hb3, hb4⟩ := stored_reads N hb
  obtain ⟨rs, Fo, ho1, ho2, -, ho4⟩ := stored_reads N hs
  obtain ⟨D, h1, h2, h3, h4⟩ := linearKernel_reads hh ho hm1 hs1 ha1 ho1 hy1 hb1 ha2 ho2 hy2 hb2
    fun h => ⟨hy3 h, hb3 (hshared.resolve_left h)⟩
  refine ⟨D, h1, h2, h3, fun n f x x' => ?_⟩
  have e := h4 [f.val, n.val] x'
  rw [batchIndex, hm2, hs2, ha3, hb4, ho4] at e
  have hn : (hidden.length == 0) = true → dim hidden = 1 := by
    intro h
    cases hidden with
    | nil => rfl
    | cons p r => simp at h
  have k := (C41_weight_is_predictive (modelOf (hidden := hidden) (obs := obs) (fm n f) (fs n f) (fa f) (fb f) (fo f)) (hidden.length == 0) hn
    fy x x' (hfo f) (hfs n f)).2.1
  exact e.trans k

/-- Otherwise `find_optimal_density` multiplies a matrix with the observations less the offsets of all filters: unless there are as
many filters as components of the observation, this raises. -/
theorem C139_offset_per_filter_raises (N B q : ℕ) (hidden : List ℕ) (hh : hidden.length ≤ 1) (y mean scale a b s : Tensor)
    (fy : Fin q → ℝ) (fm fs : Fin N → Fin B → Fin (dim hidden) → ℝ) (fa : Fin B → Matrix (Fin q) (Fin (dim hidden)) ℝ)
    (fo : Fin B → Fin q → ℝ) (hy : Observation y [q] fy) (hm : Particles mean hidden fm) (hsc : Particles scale hidden fs)
    (ha : StoredMatrix a hidden [q] fa) (hb : b.shape = [q, B]) (hs : Stored s [q] fo) (hB : B ≠ q) :
    linearKernel hidden [q] y mean scale a b s = .error .runtimeError := by
  obtain ⟨Fm, hm1, -⟩ := particles_reads hm
  obtain ⟨Fs, hs1, -⟩ := particles_reads hsc
  obtain ⟨ra, Fa, ha1, ha2, -⟩ := storedMatrix_reads N ha
  obtain ⟨rs, Fo, ho1, ho2, -, -⟩ := stored_reads N hs
  have hys : y.shape = [q] := by
    rcases hy with ⟨h, -⟩ | ⟨h, -⟩
    · exact h
    · exact absurd h (by simp)
  have e1 := zip_eq (f := (· - ·)) hys hb (t := [q, B]) (by simp [broadcastShape])
  unfold linearKernel
  rw [e1]
  refine findOptimalDensity_error hh (by simp) hm1 (mapE _ hs1) ha1 (mapE _ ho1) ha2 ho2 fun O _ hO => ?_
  exact matvec_error (x := O) hO.1 rfl (Ne.symm hB)

/-- If there are as many filters as components of the observation, and the filters share the scales of the observation, a kernel
is returned in which filter `f` weighs every component of the observation by the precision of component `f`. -/
theorem C139_offset_per_filter_mixes (N q : ℕ) (hidden : List ℕ) (hh : hidden.length ≤ 1) (y mean scale a b s : Tensor)
    (fy : Fin q → ℝ) (fm fs : Fin N → Fin q → Fin (dim hidden) → ℝ) (fa : Fin q → Matrix (Fin q) (Fin (dim hidden)) ℝ)
    (fb : Fin q → Fin q → ℝ) (fo : Fin q → ℝ) (hy : Observation y [q] fy) (hm : Particles mean hidden fm)
    (hsc : Particles scale hidden fs) (ha : StoredMatrix a hidden [q] fa) (hb : b.shape = [q, q])
    (hb' : ∀ f j : Fin q, b.val [j.val, f.val] = fb f j) (hs : s.shape = [q]) (hs' : ∀ j : Fin q, s.val [j.val] = fo j) :
    ∃ D, linearKernel hidden [q] y mean scale a b s = .ok D ∧ D.batchShape = [q, N] ∧
      ∀ (n : Fin N) (f : Fin q) (x' : Fin (dim hidden) → ℝ),
        let cov := ((constructDiag fun e => (fs n f e ^ 2)⁻¹) + (fa f)ᵀ * (constructDiag fun j => (fo j ^ 2)⁻¹) * fa f)⁻¹
        let loc := cov *ᵥ ((fun e => (fs n f e ^ 2)⁻¹ * fm n f e) + (fa f)ᵀ *ᵥ fun j => (fo f ^ 2)⁻¹ * (fy j - fb f j))
        D.logProbAt [f.val, n.val] x' = if (hidden.length == 0) = true then ∑ e, normalLogProb (loc e) (Real.sqrt (cov e e)) (x' e)
          else mvnLogProb loc cov x' := by
  obtain ⟨Fm, hm1, hm2⟩ := particles_reads hm
  obtain ⟨Fs, hs1, hs2⟩ := particles_reads hsc
  obtain ⟨ra, Fa, ha1, ha2, ha3⟩ := storedMatrix_reads N ha
  have ho1 : ReadsE s [q] [] fun _ => fo := ⟨hs, fun i j => hs' j⟩
  have hyv : y.shape = [q] ∧ ∀ j : Fin q, y.val [j.val] = fy j := by
    rcases hy with h | ⟨h, -⟩
    · exact h
    · exact absurd h (by simp)
  have e1 := zip_eq (f := (· - ·)) hyv.1 hb (t := [q, q]) (by simp [broadcastShape])
  set yb : Tensor := ⟨[q, q], fun i => y.val (broadcastIndex [q] i) - b.val (broadcastIndex [q, q] i)⟩ with hyb
  obtain ⟨O, f2, hO⟩ := diagE (ev := [q]) (by simp) (mapE (fun r => (r ^ 2)⁻¹) ho1)
  have e2 := matmul_eq (x := O) (y := yb) (t := []) hO.1 rfl rfl
  set t2 : Tensor := ⟨[q, q], fun i => ∑ l : Fin q, O.val (l :: i.tail.headD 0 :: broadcastIndex [] i.tail.tail) *
        yb.val (i.headD 0 :: l :: broadcastIndex [] i.tail.tail)⟩ with ht2
  obtain ⟨D, h1, h2, -, h4⟩ := findOptimalDensity_reads (y := yb) (r2 := [q]) (S := [q, N])
    (T2 := fun i j => t2.val (j.val :: broadcastIndex [q] i)) hh (by simp) hm1 (mapE _ hs1) ha1 (mapE _ ho1) ha2 trivial
    sub_batch fun O' hO' _ => by
      obtain rfl : O = O' := Except.ok.inj (f2.symm.trans hO')
      exact ⟨t2, e2, rfl, fun i j => rfl⟩
  refine ⟨D, ?_, h2, fun n f x' => ?_⟩
  · unfold linearKernel
    rw [e1]
    exact h1
  · have e := h4 [f.val, n.val] x'
    rw [batchIndex, hm2, hs2, ha3] at e
    have k : (fun j : Fin (dim [q]) => t2.val (j.val :: broadcastIndex [q] [f.val, n.val])) =
        fun j => (fo f ^ 2)⁻¹ * (fy j - fb f j) := by
      funext j
      rw [filterIndex]
      show ∑ l : Fin q, O.val (l :: f.val :: broadcastIndex [] []) * yb.val (j.val :: l :: broadcastIndex [] []) = _
      have : ∀ l : Fin q, O.val (l :: f.val :: broadcastIndex [] []) * yb.val (j.val :: l :: broadcastIndex [] [])
          = (if f = l then 1 else 0) * (fo f ^ 2)⁻¹ * (fy j - fb l j) := by
        intro l
        rw [hO.2 [] f l]
        show _ * (y.val (broadcastIndex [q] [j.val, l.val]) - b.val (broadcastIndex [q, q] [j.val, l.val])) = _
        have i1 : broadcastIndex [q] [j.val, l.val] = [j.val] := filterIndex (B := q) l j
        have i2 : broadcastIndex [q, q] [j.val, l.val] = [j.val, l.val] := batchIndex (B := q) l j
        have i3 : y.val [j.val] = fy j := hyv.2 j
        have i4 : b.val [j.val, l.val] = fb l j := hb' l j
        rw [i1, i2, i3, i4]
        rfl
      rw [Finset.sum_congr rfl fun l _ => this l]
      simp
    refine e.trans ?_
    show (if (hidden.length == 0) = true then ∑ e, normalLogProb
        ((optimalCov (fun j => (fs n f j ^ 2)⁻¹) (fun j => (fo j ^ 2)⁻¹) (fa f) *ᵥ
          ((fun e => (fs n f e ^ 2)⁻¹ * fm n f e) + (fa f)ᵀ *ᵥ fun j : Fin (dim [q]) => t2.val (j.val :: broadcastIndex [q] [f.val, n.val]))) e)
        (Real.sqrt (optimalCov (fun j => (fs n f j ^ 2)⁻¹) (fun j => (fo j ^ 2)⁻¹) (fa f) e e)) (x' e)
      else mvnLogProb (optimalCov (fun j => (fs n f j ^ 2)⁻¹) (fun j => (fo j ^ 2)⁻¹) (fa f) *ᵥ
          ((fun e => (fs n f e ^ 2)⁻¹ * fm n f e) + (fa f)ᵀ *ᵥ fun j : Fin (dim [q]) => t2.val (j.val :: broadcastIndex [q] [f.val, n.val])))
        (optimalCov (fun j => (fs n f j ^ 2)⁻¹) (fun j => (fo j ^ 2)⁻¹) (fa f)) x') = _
    rw [k]
    rfl

/-- The mixed kernel is wrong: two components of the observation, `y = (1, 1)` with scales `1` and `1/2`, a scalar state with mean
`0` and scale `1`, and offset `0` for both filters. The mean of the kernel should be `5/6`; it is `1/3` for the first filter. -/
theorem C139_mixed_is_wrong :
    ∃ D, linearKernel [] [2] ⟨[2], fun _ => 1⟩ ⟨[2, 1], fun _ => 0⟩ ⟨[2, 1], fun _ => 1⟩ ⟨[2], fun _ => 1⟩ ⟨[2, 2], fun _ => 0⟩
        ⟨[2], fun i => if i = [0] then 1 else 1 / 2⟩ = .ok D ∧
      D.logProbAt [0, 0] (fun _ : Fin 1 => 5 / 6) = normalLogProb (1 / 3) (Real.sqrt (1 / 6)) (5 / 6) ∧
      ∀ x, let L := modelOf (hidden := []) (obs := [2]) (fun _ => 0) (fun _ => 1) (of fun _ _ => 1) (fun _ => 0) ![1, 1 / 2]
        D.logProbAt [0, 0] (fun _ : Fin 1 => 5 / 6) < L.obsLogProb (fun _ => 5 / 6) (fun _ => 1) + L.transLogProb x (fun _ => 5 / 6) -
          Spec.logPredictive (fun _ => 0) (fun _ => 1) L.a (fun _ => 0) ![1, 1 / 2] (fun _ => 1) := by
  obtain ⟨D, h1, -, h2⟩ := C139_offset_per_filter_mixes 1 2 [] (by simp) ⟨[2], fun _ => 1⟩ ⟨[2, 1], fun _ => 0⟩ ⟨[2, 1], fun _ => 1⟩
    ⟨[2], fun _ => 1⟩ ⟨[2, 2], fun _ => 0⟩ ⟨[2], fun i => if i = [0] then 1 else 1 / 2⟩ (fun _ => 1) (fun _ _ _ => 0) (fun _ _ _ => 1)
    (fun _ => of fun _ _ => 1) (fun _ _ => 0) ![1, 1 / 2] (Or.inl ⟨rfl, fun _ => rfl⟩) ⟨rfl, fun _ _ _ => rfl⟩ ⟨rfl, fun _ _ _ => rfl⟩
    (Or.inl ⟨rfl, fun _ _ _ => rfl⟩) rfl (fun _ _ => rfl) rfl (fun j => by fin_cases j <;> simp)
  refine ⟨D, h1, ?_⟩
  have e := h2 0 0 fun _ => 5 / 6
  have c : (optimalCov (n := 1) (m := 2) (fun _ => ((1 : ℝ) ^ 2)⁻¹) (fun j => (![1, 1 / 2] j ^ 2)⁻¹) (of fun _ _ => 1))
      = diagonal fun _ => (1 / 6 : ℝ) := by
    unfold optimalCov
    rw [inv_subsingleton]
    congr 1
    funext i
    fin_cases i
    simp [constructDiag, Matrix.mul_apply, Fin.sum_univ_two]
    norm_num
  have v : D.logProbAt [0, 0] (fun _ : Fin 1 => 5 / 6) = normalLogProb (1 / 3) (Real.sqrt (1 / 6)) (5 / 6) := by
    refine e.trans ?_
    show ∑ e : Fin 1, normalLogProb
        ((optimalCov (n := 1) (m := 2) (fun _ => ((1 : ℝ) ^ 2)⁻¹) (fun j => (![1, 1 / 2] j ^ 2)⁻¹) (of fun _ _ => 1) *ᵥ
          ((fun _ : Fin 1 => ((1 : ℝ) ^ 2)⁻¹ * 0) + (of fun _ _ => 1 : Matrix (Fin 2) (Fin 1) ℝ)ᵀ *ᵥ fun j => (1 ^ 2)⁻¹ * (1 - 0))) e)
        (Real.sqrt (optimalCov (n := 1) (m := 2) (fun _ => ((1 : ℝ) ^ 2)⁻¹) (fun j => (![1, 1 / 2] j ^ 2)⁻¹) (of fun _ _ => 1) e e)) (5 / 6) = _
    rw [c]
    simp [mulVec, dotProduct, Fin.sum_univ_two]
    norm_num
  refine ⟨v, fun x => ?_⟩
  have k := (C41_weight_is_predictive (modelOf (hidden := []) (obs := [2]) (fun _ => 0) (fun _ => 1) (of fun _ _ => 1) (fun _ => 0)
    ![1, 1 / 2]) true (fun _ => rfl) (fun _ => 1) x (fun _ => 5 / 6) (fun j => by fin_cases j <;> simp [modelOf]) (fun _ => one_pos)).2.1
  refine lt_of_lt_of_eq ?_ k
  rw [v]
  show _ < ∑ e : Fin 1, normalLogProb
      ((optimalCov (n := 1) (m := 2) (fun _ => ((1 : ℝ) ^ 2)⁻¹) (fun j => (![1, 1 / 2] j ^ 2)⁻¹) (of fun _ _ => 1) *ᵥ
        ((fun _ : Fin 1 => ((1 : ℝ) ^ 2)⁻¹ * 0) + (of fun _ _ => 1 : Matrix (Fin 2) (Fin 1) ℝ)ᵀ *ᵥ
          (constructDiag (fun j : Fin 2 => (![1, 1 / 2] j ^ 2)⁻¹) *ᵥ ((fun _ : Fin 2 => (1 : ℝ)) - fun _ : Fin 2 => (0 : ℝ))))) e)
      (Real.sqrt (optimalCov (n := 1) (m := 2) (fun _ => ((1 : ℝ) ^ 2)⁻¹) (fun j => (![1, 1 / 2] j ^ 2)⁻¹) (of fun _ _ => 1) e e)) (5 / 6)
  have w : (of fun _ _ => 1 : Matrix (Fin 2) (Fin 1) ℝ)ᵀ *ᵥ
      (constructDiag (fun j : Fin 2 => (![1, 1 / 2] j ^ 2)⁻¹) *ᵥ ((fun _ : Fin 2 => (1 : ℝ)) - fun _ : Fin 2 => (0 : ℝ))) = fun _ => 5 := by
    funext i
    simp [-mulVec_mulVec, mulVec, dotProduct, Fin.sum_univ_two, constructDiag]
    norm_num
  rw [c, w]
  simp [mulVec, dotProduct, normalLogProb]
  norm_num

theorem C139_negation : ¬ C139_claim := by
  intro h
  obtain ⟨D, hD, -⟩ := h 1 2 [] [3] (by simp) (by simp) ⟨[3], fun _ => 0⟩ ⟨[2, 1], fun _ => 0⟩ ⟨[2, 1], fun _ => 1⟩ ⟨[3], fun _ => 1⟩
    ⟨[3, 2], fun _ => 0⟩ ⟨[3], fun _ => 1⟩ (fun _ => 0) (fun _ _ _ => 0) (fun _ _ _ => 1) (fun _ => of fun _ _ => 1) (fun _ _ => 0)
    (fun _ _ => 1) (Or.inl ⟨rfl, fun _ => rfl⟩) ⟨rfl, fun _ _ _ => rfl⟩ ⟨rfl, fun _ _ _ => rfl⟩ (Or.inl ⟨rfl, fun _ _ _ => rfl⟩)
    (Or.inr ⟨rfl, fun _ _ => rfl⟩) (Or.inl ⟨rfl, fun _ _ => rfl⟩) (fun _ _ => one_pos) (fun _ _ _ => one_pos)
  have e := C139_offset_per_filter_raises 1 2 3 [] (by simp) ⟨[3], fun _ => 0⟩ ⟨[2, 1], fun _ => 0⟩ ⟨[2, 1], fun _ => 1⟩
    ⟨[3], fun _ => 1⟩ ⟨[3, 2], fun _ => 0⟩ ⟨[3], fun _ => 1⟩ (fun _ => 0) (fun _ _ _ => 0) (fun _ _ _ => 1)
    (fun _ => of fun _ _ => 1) (fun _ _ => 1) (Or.inl ⟨rfl, fun _ => rfl⟩) ⟨rfl, fun _ _ _ => rfl⟩ ⟨rfl, fun _ _ _ => rfl⟩
    (Or.inl ⟨rfl, fun _ _ _ => rfl⟩) rfl (Or.inl ⟨rfl, fun _ _ => rfl⟩) (by decide)
  rw [e] at hD
  exact absurd hD (by simp)

/-- Three filters of two particles, a vector state with two components and scalar observations: the offset and the coefficients differ
between the filters, the scale is shared. The kernel is right for each of the six particles. -/
example : ∃ D, linearKernel [2] [] ⟨[1], fun _ => 5⟩ ⟨[2, 3, 2], fun i => i.sum⟩ ⟨[2, 3, 2], fun _ => 2⟩ ⟨[2, 3], fun i => i.sum⟩
      ⟨[3], fun i => i.headD 0⟩ ⟨[], fun _ => 1⟩ = .ok D ∧ D.batchShape = [3, 2] := by
  obtain ⟨D, h1, h2, -⟩ := C139_kernel_partial 2 3 [2] [] (by simp) (by simp) ⟨[1], fun _ => 5⟩ ⟨[2, 3, 2], fun i => i.sum⟩
    ⟨[2, 3, 2], fun _ => 2⟩ ⟨[2, 3], fun i => i.sum⟩ ⟨[3], fun i => i.headD 0⟩ ⟨[], fun _ => 1⟩ (fun _ => 5)
    (fun n b j => (([j.val, b.val, n.val] : List ℕ).sum : ℕ)) (fun _ _ _ => 2) (fun b => of fun _ j => (([j.val, b.val] : List ℕ).sum : ℕ))
    (fun b _ => (b.val : ℕ)) (fun _ _ => 1) (Or.inr ⟨rfl, rfl, fun _ => rfl⟩) ⟨rfl, fun _ _ _ => rfl⟩ ⟨rfl, fun _ _ _ => rfl⟩
    (Or.inr ⟨rfl, fun _ _ _ => rfl⟩) (Or.inr ⟨rfl, fun _ _ => rfl⟩) (Or.inl ⟨rfl, fun _ _ => rfl⟩) (Or.inl rfl) (fun _ _ => one_pos)
    (fun _ _ _ => two_pos)
  exact ⟨D, h1, h2⟩

/-- Five particles of a single filter, a scalar state and observations with two components. -/
example : ∃ D, linearKernel [] [2] ⟨[2], fun _ => 1⟩ ⟨[5], fun i => i.sum⟩ ⟨[5], fun _ => 2⟩ ⟨[2], fun i => i.sum⟩ ⟨[2], fun _ => 1⟩
      ⟨[2], fun _ => 1⟩ = .ok D ∧ D.batchShape = [5] := by
  obtain ⟨D, h1, h2, -⟩ := C139_single_filter 5 [] [2] (by simp) (by simp) ⟨[2], fun _ => 1⟩ ⟨[5], fun i => i.sum⟩ ⟨[5], fun _ => 2⟩
    ⟨[2], fun i => i.sum⟩ ⟨[2], fun _ => 1⟩ ⟨[2], fun _ => 1⟩ (fun _ => 1) (fun n _ => (([n.val] : List ℕ).sum : ℕ)) (fun _ _ => 2)
    (of fun i _ => (([i.val] : List ℕ).sum : ℕ)) (fun _ => 1) (fun _ => 1) (Or.inl ⟨rfl, fun _ => rfl⟩) ⟨rfl, fun _ _ => rfl⟩
    ⟨rfl, fun _ _ => rfl⟩ ⟨rfl, fun _ _ => rfl⟩ ⟨rfl, fun _ => rfl⟩ ⟨rfl, fun _ => rfl⟩ (fun _ => one_pos) (fun _ _ => two_pos)
  exact ⟨D, h1, h2⟩

end Verif.Props
