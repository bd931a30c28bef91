import Verif.Model.TensorMove
import Verif.Spec.TensorMove
import Verif.Lemmas.TensorSisr
import Verif.Lemmas.TensorGradient

/-!
# Lemmas about moves on tensors
-/

namespace Verif.Torch

theorem WeightG.zipWith {N : ℕ} {x y : Tensor} {bs : List ℕ} {F G : Fin N → List ℕ → ℝ} (f : ℝ → ℝ → ℝ) (hx : WeightG x bs F)
    (hy : WeightG y bs G) : ∃ z, Tensor.zip f x y = .ok z ∧ WeightG z bs fun n b => f (F n b) (G n b) := by
  refine ⟨_, zip_eq hx.1 hy.1 (broadcastShape_self _), rfl, fun n b hb => ?_⟩
  dsimp only
  rw [broadcastIndex_self (inShape_concat hb n), hx.2 n b hb, hy.2 n b hb]

theorem WeightG.map {N : ℕ} {x : Tensor} {bs : List ℕ} {F : Fin N → List ℕ → ℝ} (f : ℝ → ℝ) (hx : WeightG x bs F) :
    WeightG (x.map f) bs fun n b => f (F n b) :=
  ⟨hx.1, fun n b hb => congrArg f (hx.2 n b hb)⟩

/-- The estimate of the log-likelihood of every filter. -/
theorem logLikelihoodT_ok {N : ℕ} {iw : Tensor} {bs : List ℕ} {V : Fin N → List ℕ → ℝ} (h : WeightG iw bs V) (w : Option Tensor)
    {U : Fin N → List ℕ → ℝ} (hw : (w = none ∧ ∀ n b, U n b = 1 / N) ∨ ∃ t, w = some t ∧ WeightG t bs U)
    (hpos : ∀ b, InShape bs b → 0 < ∑ n, U n b * Real.exp (V n b)) :
    ∃ z, logLikelihoodT iw w = .ok z ∧ z.shape = bs ∧ ∀ b, InShape bs b → z.val b = Real.log (∑ n, U n b * Real.exp (V n b)) := by
  have m1 : iw.max0.shape = bs := by unfold Tensor.max0; dsimp only; rw [h.1, List.dropLast_concat]
  have e1 := zip_eq (f := (· - ·)) (x := iw) (y := iw.max0) (r := bs ++ [N]) (s := bs) h.1 m1 (broadcastShape_prefix bs [N])
  set d : Tensor := ⟨bs ++ [N], fun i => iw.val (broadcastIndex (bs ++ [N]) i) - iw.max0.val (broadcastIndex bs i)⟩ with hd
  have d1 : WeightG d bs fun n b => V n b - iw.max0.val b := by
    refine ⟨rfl, fun n b hb => ?_⟩
    rw [hd]
    dsimp only
    rw [broadcastIndex_self (inShape_concat hb n), broadcastIndex_start hb, h.2 n b hb]
  have d2 := d1.map Real.exp
  have prod : ∃ p, (match w with
      | none => pure ((d.map Real.exp).map (1 / iw.shape.getLastD 0 * ·))
      | some w => Tensor.zip (· * ·) w (d.map Real.exp) : Except PyErr Tensor) = .ok p ∧
      WeightG p bs fun n b => U n b * Real.exp (V n b - iw.max0.val b) := by
    rcases hw with ⟨rfl, hU⟩ | ⟨t, rfl, ht⟩
    · refine ⟨_, rfl, d2.1, fun n b hb => ?_⟩
      have := (d2.map (1 / (iw.shape.getLastD 0 : ℝ) * ·)).2 n b hb
      rw [this, h.1, getLastD_concat]
      beta_reduce
      rw [hU]
    · exact ht.zipWith (· * ·) d2
  obtain ⟨p, p1, p2⟩ := prod
  obtain ⟨z, z1, z2, z3⟩ := zip_batch (x := iw.max0) (y := p.sum0.map Real.log) (bs := bs) (f := iw.max0.val)
    (g := fun b => Real.log (∑ n, U n b * Real.exp (V n b - iw.max0.val b))) ⟨m1, fun _ _ => rfl⟩
    ⟨p2.sum0.1, fun b hb => congrArg Real.log (p2.sum0.2 b hb)⟩
  refine ⟨z, ?_, z2, fun b hb => ?_⟩
  · unfold logLikelihoodT
    simp only [e1, ok_bind]
    exact (congrArg (fun q : Except PyErr Tensor => q >>= fun product => Tensor.zip (· + ·) iw.max0 (product.sum0.map Real.log)) p1).trans z1
  · rw [z3 b hb]
    have e : ∑ n, U n b * Real.exp (V n b - iw.max0.val b) = (∑ n, U n b * Real.exp (V n b)) * Real.exp (-iw.max0.val b) := by
      rw [Finset.sum_mul]
      refine Finset.sum_congr rfl fun n _ => ?_
      rw [sub_eq_add_neg, Real.exp_add]
      ring
    rw [e, Real.log_mul (hpos b hb).ne' (Real.exp_pos _).ne', Real.log_exp]
    ring

theorem gatherWeight_ok {N : ℕ} {x : Tensor} {bs : List ℕ} {F : Fin N → List ℕ → ℝ} (hx : WeightG x bs F) {idx : Index}
    {A : Fin N → List ℕ → Fin N} (hi : IndexG idx bs A) : ∃ z, x.gather0 idx = .ok z ∧ WeightG z bs fun n b => F (A n b) b := by
  obtain ⟨z, z1, z2⟩ := gatherPart_ok (ev := []) (by simp) (x := x) (F := fun n b _ => F n b) (K := A) ⟨hx.1, fun n b hb _ => hx.2 n b hb⟩ hi.1
    fun a b n ha hb => by
      cases ha
      exact hi.2 n b hb
  exact ⟨z, z1, z2.1, fun n b hb => z2.2 n b hb (0 : Fin 1)⟩

theorem softmaxOf_pos {N : ℕ} (W : Fin N → ℝ) (n : Fin N) : 0 < softmaxOf W n :=
  div_pos (Real.exp_pos _) (Finset.sum_pos (fun k _ => Real.exp_pos _) ⟨n, Finset.mem_univ n⟩)

/-- `APF.predict` keeps the particles and their weights. -/
theorem apfPredict_ok {N : ℕ} (hN : 0 < N) {bs : List ℕ} (hb1 : bs.length ≤ 1) {x w : Tensor} {W : Fin N → List ℕ → ℝ}
    (hw : WeightG w bs W) : ∃ p, apfPredict bs N x w = .ok p ∧ p.x = x ∧ p.weights = w ∧
      WeightG p.normalized bs (fun n b => softmaxOf (fun k => W k b) n) ∧ IndexG p.indices bs (fun (n : Fin N) _ => n) := by
  obtain ⟨u, u1, u2⟩ := normalizeT_ok hN hw
  have old : ∃ i, (if bs ≠ [] then (Index.mk [N] fun i => i.headD 0).unsqueeze1.expandTo (bs ++ [N]) else pure ⟨[N], fun i => i.headD 0⟩ :
      Except PyErr Index) = .ok i ∧ IndexG i bs (fun (n : Fin N) _ => n) := by
    match bs, hb1 with
    | [], _ => exact ⟨_, rfl, rfl, fun n b hb => by cases hb; rfl⟩
    | [B], _ =>
      refine ⟨⟨[B, N], fun i => (fun i : List ℕ => i.tail.headD 0) (broadcastIndex [1, N] i)⟩, ?_, rfl, fun n b hb => ?_⟩
      · simp [Index.expandTo, Index.unsqueeze1, broadcastShape]
      · obtain ⟨k, rfl, hk⟩ := inShape_one.1 hb
        have := n.2
        simp [broadcastIndex]
        omega
  obtain ⟨i, i1, i2⟩ := old
  refine ⟨⟨x, w, u, i⟩, ?_, rfl, rfl, u2, i2⟩
  unfold apfPredict
  simp only [u1, ok_bind]
  rw [u2.1, getLastD_concat, i1]
  rfl

end Verif.Torch
