import Verif.Lemmas.TensorPyro

/-!
# Property C145: the factor for `pyro` pairs observations and states
-/

namespace Verif.Props

open Verif Verif.Torch

/-- C145 in full: however scalar observations are stored, the factor registered for filter `b` is the mean over its paths of the sum of
the log-densities of all states and observations. -/
def C145_claim : Prop :=
  ∀ (N T K : ℕ) (ev oev bs : List ℕ), ev.length ≤ 1 → oev.length ≤ 1 → bs.length ≤ 1 →
  ∀ (hiddenLp obsLp initLp : Tensor → Except PyErr Tensor) (smoothed y : Tensor)
    (path : ℕ → Fin N → List ℕ → Fin (dim ev) → ℝ) (fy : ℕ → Fin (dim oev) → ℝ)
    (H : ℕ → Fin N → List ℕ → (Fin (dim ev) → ℝ) → ℝ) (O : ℕ → Fin N → List ℕ → (Fin (dim oev) → ℝ) → ℝ)
    (I : List ℕ → (Fin (dim ev) → ℝ) → ℝ),
    PathG smoothed ev bs T path → SeriesG y oev K fy → HiddenG N ev bs T hiddenLp H → ObsG N oev bs K obsLp O →
    InitG N ev bs initLp I →
    ∃ z, pyroFactor hiddenLp obsLp initLp (bs ++ [N, K]) smoothed y = .ok z ∧ z.shape = bs ∧
      ∀ b, InShape bs b → z.val b = (∑ n, (∑ t ∈ Finset.range T, H t n b (path (t + 1) n b) +
        ∑ t ∈ Finset.range K, O t n b (fy t) + I b (path 0 n b))) / N

/-- C145 holds if scalar observations are stored as numbers. -/
theorem C145_pairs_partial (N T K : ℕ) (ev oev bs : List ℕ)
    (hiddenLp obsLp initLp : Tensor → Except PyErr Tensor) (smoothed y : Tensor)
    (path : ℕ → Fin N → List ℕ → Fin (dim ev) → ℝ) (fy : ℕ → Fin (dim oev) → ℝ)
    (H : ℕ → Fin N → List ℕ → (Fin (dim ev) → ℝ) → ℝ) (O : ℕ → Fin N → List ℕ → (Fin (dim oev) → ℝ) → ℝ)
    (I : List ℕ → (Fin (dim ev) → ℝ) → ℝ)
    (hs : PathG smoothed ev bs T path) (hy : y.shape = oev ++ [K] ∧ ∀ t < K, ∀ j, y.val (compIx oev j.val ++ [t]) = fy t j)
    (hH : HiddenG N ev bs T hiddenLp H) (hO : ObsG N oev bs K obsLp O) (hI : InitG N ev bs initLp I) :
    ∃ z, pyroFactor hiddenLp obsLp initLp (bs ++ [N, K]) smoothed y = .ok z ∧ z.shape = bs ∧
      ∀ b, InShape bs b → z.val b = (∑ n, (∑ t ∈ Finset.range T, H t n b (path (t + 1) n b) +
        ∑ t ∈ Finset.range K, O t n b (fy t) + I b (path 0 n b))) / N := by
  obtain ⟨h, h1, h2⟩ := hH smoothed.rest0 (fun t => path (t + 1)) hs.rest0.1 hs.rest0.2
  obtain ⟨s1, s2⟩ := spread_reads bs N K hy.1 hy.2
  obtain ⟨o, o1, o2⟩ := hO _ fy s1 s2
  obtain ⟨i, i1, i2⟩ := hI smoothed.first0 (path 0) hs.first0
  obtain ⟨a, a1, a2⟩ := h2.sum0.zip o2.sum0
  obtain ⟨c, c1, c2⟩ := a2.zip i2
  refine ⟨c.mean0, ?_, c2.mean0⟩
  unfold pyroFactor
  simp only [h1, o1, i1, a1, c1, ok_bind]
  rfl

/-- `Normal(loc, scale)` for scalar observations at values with dimensions of size one for path and filter. -/
theorem C145_normal_density (N K : ℕ) (bs : List ℕ) (loc scale : Tensor) (M S : ℕ → Fin N → List ℕ → ℝ)
    (hl : TimesG loc bs K M) (hs : TimesG scale bs K S) (hb : bs.length ≤ 1) :
    ObsG N [] bs K (Dist.normal loc scale).logProb fun t n b x => normalLogProb (M t n b) (S t n b) (x (0 : Fin 1)) := by
  intro z V hz hv
  have e : broadcastShape z.shape loc.shape = some (bs ++ [N, K]) := by
    rw [hz, hl.1]
    match bs with
    | [] => simp [broadcastShape]
    | [_] => simp [broadcastShape]
    | _ :: _ :: _ => simp at hb
  refine ⟨⟨bs ++ [N, K], _⟩, by unfold Dist.logProb; dsimp only; rw [e], rfl, fun t ht n b hbb => ?_⟩
  dsimp only
  have e1 : broadcastIndex (bs ++ [N, K]) (b ++ [n.val, t]) = b ++ [n.val, t] := by
    rw [broadcastIndex_inShape hbb, broadcastIndex_cons n.2, broadcastIndex_cons ht]
    rfl
  have e2 : broadcastIndex ([] ++ (bs.map (fun _ => 1) ++ [1, K])) (b ++ [n.val, t]) = bs.map (fun _ => 0) ++ [0, t] := by
    match bs, hbb with
    | [], hbb =>
      cases hbb
      show 0 :: broadcastIndex [K] [t] = _
      rw [broadcastIndex_cons ht]
      rfl
    | [B], hbb =>
      obtain ⟨k, rfl, -⟩ := inShape_one.1 hbb
      show 0 :: 0 :: broadcastIndex [K] [t] = _
      rw [broadcastIndex_cons ht]
      rfl
    | _ :: _ :: _, _ => simp at hb
  rw [hl.1, hz, e1, e2, hl.2 t ht n b hbb, hs.2 t ht n b hbb]
  have := hv t ht (0 : Fin 1)
  simp only [compIx, List.map_nil, List.nil_append] at this
  rw [this]

/-- With scalar observations stored as vectors with one component, the factor of a single filter has a number for every path instead
of one number: each observation is compared with the states at all times. -/
theorem C145_extra_dimension (N T K : ℕ) (ev : List ℕ)
    (hiddenLp initLp : Tensor → Except PyErr Tensor) (loc scale smoothed y : Tensor)
    (path : ℕ → Fin N → List ℕ → Fin (dim ev) → ℝ) (fy : ℕ → ℝ)
    (H : ℕ → Fin N → List ℕ → (Fin (dim ev) → ℝ) → ℝ) (I : List ℕ → (Fin (dim ev) → ℝ) → ℝ) (M S : ℕ → Fin N → List ℕ → ℝ)
    (hl : TimesG loc [] K M) (hsc : TimesG scale [] K S)
    (hs : PathG smoothed ev [] T path) (hy : y.shape = [1, K]) (hy' : ∀ t < K, y.val [0, t] = fy t)
    (hH : HiddenG N ev [] T hiddenLp H) (hI : InitG N ev [] initLp I) :
    ∃ z, pyroFactor hiddenLp (Dist.normal loc scale).logProb initLp [N, K] smoothed y = .ok z ∧ z.shape = [N] ∧
      ∀ n : Fin N, z.val [n.val] = (∑ s ∈ Finset.range K, (∑ t ∈ Finset.range T, H t n [] (path (t + 1) n []) +
        ∑ t ∈ Finset.range K, normalLogProb (M s n []) (S s n []) (fy t) + I [] (path 0 n []))) / K := by
  obtain ⟨h, h1, h2⟩ := hH smoothed.rest0 (fun t => path (t + 1)) hs.rest0.1 hs.rest0.2
  obtain ⟨i, i1, i2⟩ := hI smoothed.first0 (path 0) hs.first0
  have e0 : (y.spread [N, K]).shape = [1, 1, K] := by simp [Tensor.spread, hy]
  have e1 : (Dist.normal loc scale).logProb (y.spread [N, K]) = .ok ⟨[N, K, K], fun i =>
      normalLogProb (loc.val (broadcastIndex [N, K] i)) (scale.val (broadcastIndex [N, K] i))
        ((y.spread [N, K]).val (broadcastIndex [1, 1, K] i))⟩ := by
    unfold Dist.logProb
    dsimp only
    have : broadcastShape (y.spread [N, K]).shape loc.shape = some [N, K, K] := by
      rw [e0, hl.1]
      simp [broadcastShape]
    rw [this, hl.1, e0]
    rfl
  have h3 := h2.sum0
  have e2 : Tensor.zip (· + ·) h.sum0 (Tensor.sum0 ⟨[N, K, K], fun i =>
      normalLogProb (loc.val (broadcastIndex [N, K] i)) (scale.val (broadcastIndex [N, K] i))
        ((y.spread [N, K]).val (broadcastIndex [1, 1, K] i))⟩) = .ok ⟨[N, K], fun i => h.sum0.val (broadcastIndex [N] i) +
      ∑ t ∈ Finset.range K, normalLogProb (loc.val (broadcastIndex [N, K] (broadcastIndex [N, K] i ++ [t])))
        (scale.val (broadcastIndex [N, K] (broadcastIndex [N, K] i ++ [t])))
        ((y.spread [N, K]).val (broadcastIndex [1, 1, K] (broadcastIndex [N, K] i ++ [t])))⟩ := by
    rw [sum0_of (x := ⟨[N, K, K], _⟩) (s := [N, K]) (n := K) rfl]
    exact zip_eq h3.1 rfl (by simp [broadcastShape])
  have e3 := zip_eq (f := (· + ·)) (x := ⟨[N, K], fun i => h.sum0.val (broadcastIndex [N] i) +
      ∑ t ∈ Finset.range K, normalLogProb (loc.val (broadcastIndex [N, K] (broadcastIndex [N, K] i ++ [t])))
        (scale.val (broadcastIndex [N, K] (broadcastIndex [N, K] i ++ [t])))
        ((y.spread [N, K]).val (broadcastIndex [1, 1, K] (broadcastIndex [N, K] i ++ [t])))⟩) (y := i) (r := [N, K]) (s := [N])
      (t := [N, K]) rfl i2.1 (by simp [broadcastShape])
  refine ⟨_, by unfold pyroFactor; simp only [h1, e1, i1, e2, e3, ok_bind]; rfl, ?_⟩
  rw [mean0_of (s := [N]) (n := K) rfl]
  refine ⟨rfl, fun n => ?_⟩
  dsimp only
  congr 1
  refine Finset.sum_congr rfl fun s hs' => ?_
  have hsK := Finset.mem_range.1 hs'
  have b1 : broadcastIndex [N, K] [n.val, s] = [n.val, s] := by
    rw [broadcastIndex_cons n.2, broadcastIndex_cons hsK]
    rfl
  have b2 : broadcastIndex [N] [n.val, s] = [n.val] := by
    rw [broadcastIndex_cons n.2]
    rfl
  simp only [List.cons_append, List.nil_append, b1, b2]
  congr 1
  · congr 1
    · exact h3.2 n [] List.Forall₂.nil
    · refine Finset.sum_congr rfl fun t ht => ?_
      have htK := Finset.mem_range.1 ht
      have b3 : broadcastIndex [N, K] [n.val, s, t] = [n.val, s] := by
        rw [broadcastIndex_cons n.2, broadcastIndex_cons hsK]
        rfl
      have b4 : broadcastIndex [1, 1, K] [n.val, s, t] = [0, 0, t] := by
        show 0 :: 0 :: broadcastIndex [K] [t] = _
        rw [broadcastIndex_cons htK]
        rfl
      have b5 : (y.spread [N, K]).val [0, 0, t] = y.val [0, t] := by
        unfold Tensor.spread
        dsimp only
        rw [hy]
        rfl
      rw [b3, b4, b5, hy' t htK]
      congr 1
      · exact hl.2 s hsK n [] List.Forall₂.nil
      · exact hsc.2 s hsK n [] List.Forall₂.nil
  · exact i2.2 n [] List.Forall₂.nil

/-- A log-density of zero everywhere, for states that are numbers. -/
noncomputable def flatLp (x : Tensor) : Except PyErr Tensor := .ok ⟨x.shape, fun _ => 0⟩

/-- C145 is false: two observations stored as vectors with one component and three paths. -/
theorem C145_negation : ¬ C145_claim := by
  intro h
  obtain ⟨z, h1, h2, -⟩ := h 3 2 2 [] [] [] (by simp) (by simp) (by simp) flatLp
    (Dist.normal ⟨[3, 2], fun _ => 0⟩ ⟨[3, 2], fun _ => 1⟩).logProb flatLp ⟨[3, 3], fun _ => 0⟩ ⟨[1, 2], fun _ => 0⟩
    (fun _ _ _ _ => 0) (fun _ _ => 0) (fun _ _ _ _ => 0) (fun _ _ _ x => normalLogProb 0 1 (x (0 : Fin 1))) (fun _ _ => 0)
    ⟨rfl, fun _ _ _ _ _ _ => rfl⟩ (Or.inr ⟨rfl, rfl, fun _ _ _ => rfl⟩)
    (fun z V hz _ => ⟨_, rfl, hz, fun _ _ _ _ _ => rfl⟩)
    (C145_normal_density 3 2 [] _ _ (fun _ _ _ => 0) (fun _ _ _ => 1) ⟨rfl, fun _ _ _ _ _ => rfl⟩ ⟨rfl, fun _ _ _ _ _ => rfl⟩ (by simp))
    (fun z V hz => ⟨_, rfl, hz.1, fun _ _ _ => rfl⟩)
  obtain ⟨z', e1, e2, -⟩ := C145_extra_dimension 3 2 2 [] flatLp flatLp ⟨[3, 2], fun _ => 0⟩ ⟨[3, 2], fun _ => 1⟩ ⟨[3, 3], fun _ => 0⟩
    ⟨[1, 2], fun _ => 0⟩ (fun _ _ _ _ => 0) (fun _ => 0) (fun _ _ _ _ => 0) (fun _ _ => 0) (fun _ _ _ => 0) (fun _ _ _ => 1)
    ⟨rfl, fun _ _ _ _ _ => rfl⟩ ⟨rfl, fun _ _ _ _ _ => rfl⟩ ⟨rfl, fun _ _ _ _ _ _ => rfl⟩ rfl (fun _ _ => rfl)
    (fun z V hz _ => ⟨_, rfl, hz, fun _ _ _ _ _ => rfl⟩) (fun z V hz => ⟨_, rfl, hz.1, fun _ _ _ => rfl⟩)
  have h1' : pyroFactor flatLp (Dist.normal ⟨[3, 2], fun _ => 0⟩ ⟨[3, 2], fun _ => 1⟩).logProb flatLp [3, 2] ⟨[3, 3], fun _ => 0⟩
    ⟨[1, 2], fun _ => 0⟩ = .ok z := h1
  rw [e1] at h1'
  cases h1'
  rw [e2] at h2
  cases h2

/-- A case of `C145_pairs_partial`: two filters of three paths, with four states and observations of three of them. -/
example : ∃ z, pyroFactor flatLp (Dist.normal ⟨[2, 3, 3], fun i => (i.headD 0 : ℝ)⟩ ⟨[2, 3, 3], fun _ => 1⟩).logProb flatLp [2, 3, 3]
    ⟨[2, 3, 4], fun i => (i.headD 0 : ℝ)⟩ ⟨[3], fun i => (i.headD 0 : ℝ)⟩ = .ok z ∧ z.shape = [2] := by
  obtain ⟨z, h1, h2, -⟩ := C145_pairs_partial 3 3 3 [] [] [2] flatLp
    (Dist.normal ⟨[2, 3, 3], fun i => (i.headD 0 : ℝ)⟩ ⟨[2, 3, 3], fun _ => 1⟩).logProb flatLp ⟨[2, 3, 4], fun i => (i.headD 0 : ℝ)⟩
    ⟨[3], fun i => (i.headD 0 : ℝ)⟩ (fun _ _ b _ => (b.headD 0 : ℝ)) (fun t _ => (t : ℝ)) (fun _ _ _ _ => 0)
    (fun _ _ b x => normalLogProb (b.headD 0 : ℝ) 1 (x (0 : Fin 1))) (fun _ _ => 0)
    ⟨rfl, fun _ _ _ b hb _ => by obtain ⟨k, rfl, -⟩ := inShape_one.1 hb; rfl⟩ ⟨rfl, fun _ _ _ => rfl⟩
    (fun z V hz _ => ⟨_, rfl, hz, fun _ _ _ _ _ => rfl⟩)
    (C145_normal_density 3 3 [2] _ _ (fun _ _ b => (b.headD 0 : ℝ)) (fun _ _ _ => 1)
      ⟨rfl, fun _ _ _ b hb => by obtain ⟨k, rfl, -⟩ := inShape_one.1 hb; rfl⟩ ⟨rfl, fun _ _ _ _ _ => rfl⟩ (by simp))
    (fun z V hz => ⟨_, rfl, hz.1, fun _ _ _ => rfl⟩)
  exact ⟨z, h1, h2⟩

end Verif.Props
