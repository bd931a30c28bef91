import Verif.Lemmas.TensorNested

/-!
# Property C147: the nested proposal serves every particle of every filter
-/

namespace Verif.Props

open Verif Verif.Torch

/-- Every particle of every filter gets one of the `M` samples drawn for it, chosen from their own softmax, and the logarithm of the
average of their own observation densities as weight. -/
theorem C147_nested (N M : ℕ) (ev bs : List ℕ) (hh : ev.length ≤ 1) (hM : 0 < M) (draw : List ℕ → List ℝ → ℕ)
    (hd : ∀ i row, row ≠ [] → draw i row < row.length) (obsLp : Tensor → Except PyErr Tensor) (samples : Tensor)
    (V : ℕ → Fin N → List ℕ → Fin (dim ev) → ℝ) (L : Fin N → List ℕ → (Fin (dim ev) → ℝ) → ℝ)
    (hs : samples.shape = ev ++ (bs ++ [N, M]))
    (hv : ∀ m < M, ∀ (n : Fin N) b, InShape bs b → ∀ j, samples.val (compIx ev j.val ++ (b ++ [n.val, m])) = V m n b j)
    (hL : HiddenG N ev bs M obsLp fun _ => L) :
    ∃ (z w : Tensor) (K : Fin N → List ℕ → ℕ), nestedSampleAndWeight ev draw obsLp samples = .ok (z, w) ∧
      PartG z ev bs (fun n b => V (K n b) n b) ∧
      WeightG w bs (fun n b => Real.log ((∑ m ∈ Finset.range M, Real.exp (L n b (V m n b))) / M)) ∧
      ∀ n b, InShape bs b → K n b < M ∧ K n b = draw (b ++ [n.val]) (List.ofFn fun m : Fin M =>
        Real.exp (L n b (V m n b)) / ∑ k ∈ Finset.range M, Real.exp (L n b (V k n b))) := by
  obtain ⟨lp, l1, l2, l3⟩ := hL samples V hs hv
  beta_reduce at l3
  have ls : lp.shape = (bs ++ [N]) ++ [M] := by rw [l2]; simp
  have row (n : Fin N) (b : List ℕ) (hb : InShape bs b) : ((List.range M).map fun m => lp.softmax0.firstToLast.val (m :: (b ++ [n.val]))) =
      List.ofFn fun m : Fin M => Real.exp (L n b (V m n b)) / ∑ k ∈ Finset.range M, Real.exp (L n b (V k n b)) := by
    rw [range_map_eq]
    congr 1
    funext m
    unfold Tensor.firstToLast Tensor.softmax0
    dsimp only
    rw [ls, getLastD_concat, List.headD_cons, List.tail_cons, List.dropLast_concat]
    have e (k : ℕ) (hk : k < M) : lp.val (b ++ [n.val] ++ [k]) = L n b (V k n b) := by
      rw [← l3 k hk n b hb]
      simp
    rw [e m m.2]
    congr 1
    exact Finset.sum_congr rfl fun k hk => by rw [e k (Finset.mem_range.1 hk)]
  let K : Fin N → List ℕ → ℕ := fun n b => draw (b ++ [n.val]) ((List.range M).map fun m => lp.softmax0.firstToLast.val (m :: (b ++ [n.val])))
  have hK (n : Fin N) (b : List ℕ) : K n b < M := by
    have := hd (b ++ [n.val]) ((List.range M).map fun m => lp.softmax0.firstToLast.val (m :: (b ++ [n.val])))
      (by simp; omega)
    simpa using this
  have c1 : categorical draw lp.softmax0.firstToLast = .ok ⟨bs ++ [N], fun i =>
      draw i ((List.range M).map fun j => lp.softmax0.firstToLast.val (j :: i))⟩ := by
    unfold categorical
    have e : lp.softmax0.firstToLast.shape = M :: (bs ++ [N]) := by
      unfold Tensor.firstToLast Tensor.softmax0
      dsimp only
      rw [ls, getLastD_concat, List.dropLast_concat]
    rw [e]
  obtain ⟨z, z1, z2⟩ := takeAlong_ok hh hs hv (idx := ⟨bs ++ [N], fun i =>
      draw i ((List.range M).map fun j => lp.softmax0.firstToLast.val (j :: i))⟩) (K := K) rfl (fun _ _ _ => rfl) fun n b _ => hK n b
  refine ⟨z.squeeze0, (lp.map Real.exp).mean0.map Real.log, K, ?_, z2, ?_, fun n b hb => ⟨hK n b, by rw [← row n b hb]⟩⟩
  · unfold nestedSampleAndWeight
    simp only [l1, c1, z1, ok_bind]
    rfl
  · rw [mean0_of (s := bs ++ [N]) (n := M) (by unfold Tensor.map; exact ls)]
    refine ⟨rfl, fun n b hb => ?_⟩
    unfold Tensor.map
    dsimp only
    congr 2
    refine Finset.sum_congr rfl fun m hm => ?_
    rw [← l3 m (Finset.mem_range.1 hm) n b hb]
    simp

/-- The density `Normal(x, scale)` of a scalar observation, stored as a number or as a vector with one component, has a number for
every sample of every particle. -/
theorem C147_normal_density (N M : ℕ) (bs : List ℕ) (y s : ℝ) (oev : List ℕ) (ho : oev = [] ∨ oev = [1]) :
    HiddenG N [] bs M (fun x => (Dist.normal x ⟨x.shape, fun _ => s⟩).logProb ⟨oev, fun _ => y⟩)
      fun _ _ _ x => normalLogProb (x (0 : Fin 1)) s y := by
  intro z V hz hv
  have e : broadcastShape oev z.shape = some (bs ++ [N, M]) := by
    rw [hz]
    rcases ho with rfl | rfl
    · simp [broadcastShape]
    · match bs with
      | [] => simp [broadcastShape]
      | a :: bs => simp [broadcastShape]
  refine ⟨⟨bs ++ [N, M], _⟩, by unfold Dist.logProb; dsimp only; rw [e], rfl, fun m hm n b hb => ?_⟩
  dsimp only
  have := hv m hm n b hb (0 : Fin 1)
  simp only [compIx, List.map_nil, List.nil_append] at this
  rw [hz, List.nil_append, broadcastIndex_inShape hb, broadcastIndex_cons n.2, broadcastIndex_cons hm, show broadcastIndex [] [] = [] from rfl, this]

/-- A case of `C147_nested`: two samples for each of three particles of two filters, with values `10 m + n + 100 b`. -/
example : ∃ z w, nestedSampleAndWeight [] (fun _ row => row.length - 1)
    (fun x => (Dist.normal x ⟨x.shape, fun _ => 1⟩).logProb ⟨[1], fun _ => 3⟩)
    ⟨[2, 3, 2], fun i => 100 * (i.headD 0 : ℝ) + (i.tail.headD 0 : ℝ) + 10 * (i.getLastD 0 : ℝ)⟩ = .ok (z, w) ∧
    z.shape = [2, 3] ∧ z.val [1, 2] = 112 ∧
    w.val [1, 2] = Real.log ((Real.exp (normalLogProb 102 1 3) + Real.exp (normalLogProb 112 1 3)) / 2) := by
  obtain ⟨z, w, K, h1, ⟨h2, h3⟩, ⟨h4, h5⟩, h6⟩ := C147_nested 3 2 [] [2] (by simp) (by omega) (fun _ row => row.length - 1)
    (fun _ row h => by have := List.length_pos_iff.2 h; omega)
    (fun x => (Dist.normal x ⟨x.shape, fun _ => 1⟩).logProb ⟨[1], fun _ => 3⟩)
    ⟨[2, 3, 2], fun i => 100 * (i.headD 0 : ℝ) + (i.tail.headD 0 : ℝ) + 10 * (i.getLastD 0 : ℝ)⟩
    (fun m n b _ => 100 * (b.headD 0 : ℝ) + (n.val : ℝ) + 10 * (m : ℝ)) (fun _ _ x => normalLogProb (x (0 : Fin 1)) 1 3) rfl
    (fun m _ n b hb _ => by obtain ⟨k, rfl, -⟩ := inShape_one.1 hb; rfl) (C147_normal_density 3 2 [2] 3 1 [1] (Or.inr rfl))
  have hb : InShape [2] [1] := inShape_one.2 ⟨1, rfl, by omega⟩
  have hk : K 2 [1] = 1 := by
    rw [(h6 2 [1] hb).2]
    simp
  refine ⟨z, w, h1, h2, ?_, ?_⟩
  · have := h3 2 [1] hb (0 : Fin 1)
    beta_reduce at this
    rw [hk] at this
    refine Eq.trans this ?_
    norm_num
  · have := h5 2 [1] hb
    beta_reduce at this
    rw [Finset.sum_range_succ, Finset.sum_range_one] at this
    refine Eq.trans this ?_
    norm_num

end Verif.Props
