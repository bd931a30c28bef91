import Verif.Lemmas.PreWeightBatch
import Verif.Model.TensorGaussian

/-!
# Moments of particles on tensors, computed
-/

namespace Verif.Torch

open Matrix

theorem Sub.append : ∀ (r s : List ℕ), Sub r (r ++ s)
  | [], _ => trivial
  | _ :: r, s => ⟨Or.inl rfl, Sub.append r s⟩

theorem Sub.append_one (N : ℕ) : ∀ r : List ℕ, Sub (r ++ [1]) (r ++ [N])
  | [] => ⟨Or.inr rfl, trivial⟩
  | _ :: r => ⟨Or.inl rfl, Sub.append_one N r⟩

theorem broadcastIndex_append {N : ℕ} (n : Fin N) : ∀ (r s : List ℕ),
    broadcastIndex (r ++ [N]) (broadcastIndex r s ++ [n.val]) = broadcastIndex r s ++ [n.val]
  | [], s => by
    show (if N = 1 then 0 else n.val) :: [] = [n.val]
    have := n.2
    split_ifs with h
    · congr 1; omega
    · rfl
  | a :: r, s => by
    simp only [List.cons_append, broadcastIndex, List.headD_cons, List.tail_cons]
    rw [broadcastIndex_append n r s.tail]
    congr 1
    split_ifs <;> rfl

theorem broadcastIndex_prefix (l : List ℕ) : ∀ r s : List ℕ, broadcastIndex r (broadcastIndex r s ++ l) = broadcastIndex r s
  | [], s => rfl
  | a :: r, s => by
    simp only [List.cons_append, broadcastIndex, List.headD_cons, List.tail_cons]
    rw [broadcastIndex_prefix l r s.tail]
    congr 1
    split_ifs <;> rfl

theorem broadcastIndex_append_one : ∀ (r s : List ℕ), broadcastIndex (r ++ [1]) s = broadcastIndex r s ++ [0]
  | [], s => rfl
  | a :: r, s => by
    simp only [List.cons_append, broadcastIndex]
    rw [broadcastIndex_append_one r s.tail]

theorem sum0_eq {x : Tensor} {s : List ℕ} {N : ℕ} (h : x.shape = s ++ [N]) :
    x.sum0 = ⟨s, fun i => ∑ n : Fin N, x.val (i ++ [n.val])⟩ := by
  obtain ⟨xs, xv⟩ := x
  subst h
  unfold Tensor.sum0
  split
  · next h => simp at h
  · simp [Finset.sum_range]

theorem sum0_reads1 {x : Tensor} {q N : ℕ} {r : List ℕ} {F} (hx : Reads1 x q (r ++ [N]) F) :
    Reads1 x.sum0 q r fun s j => ∑ n : Fin N, F (broadcastIndex r s ++ [n.val]) j := by
  rw [sum0_eq (s := q :: r) hx.1]
  refine ⟨rfl, fun s j => ?_⟩
  show ∑ n : Fin N, x.val ((j.val :: broadcastIndex r s) ++ [n.val]) = ∑ n : Fin N, F (broadcastIndex r s ++ [n.val]) j
  refine Finset.sum_congr rfl fun n _ => ?_
  have := hx.2 (broadcastIndex r s ++ [n.val]) j
  rw [broadcastIndex_append] at this
  exact this

theorem sum0_reads2 {x : Tensor} {p q N : ℕ} {r : List ℕ} {F} (hx : Reads2 x p q (r ++ [N]) F) :
    Reads2 x.sum0 p q r fun s => of fun i j => ∑ n : Fin N, F (broadcastIndex r s ++ [n.val]) i j := by
  rw [sum0_eq (s := q :: p :: r) hx.1]
  refine ⟨rfl, fun s i j => ?_⟩
  show ∑ n : Fin N, x.val ((j.val :: i.val :: broadcastIndex r s) ++ [n.val]) = ∑ n : Fin N, F (broadcastIndex r s ++ [n.val]) i j
  refine Finset.sum_congr rfl fun n _ => ?_
  have := hx.2 (broadcastIndex r s ++ [n.val]) i j
  rw [broadcastIndex_append] at this
  exact this

theorem unsqueeze0_reads0 {x : Tensor} {r F} (hx : Reads0 x r F) : Reads0 x.unsqueeze0 (r ++ [1]) F := by
  refine ⟨by show x.shape ++ [1] = _; rw [hx.1], fun s => ?_⟩
  show x.val (broadcastIndex (r ++ [1]) s).dropLast = _
  rw [broadcastIndex_append_one, List.dropLast_concat, hx.2]

theorem unsqueeze0_reads1 {x : Tensor} {q : ℕ} {r F} (hx : Reads1 x q r F) : Reads1 x.unsqueeze0 q (r ++ [1]) F := by
  refine ⟨by show x.shape ++ [1] = _; rw [hx.1]; rfl, fun s j => ?_⟩
  show x.val (j.val :: broadcastIndex (r ++ [1]) s).dropLast = _
  rw [broadcastIndex_append_one, ← List.cons_append, List.dropLast_concat, hx.2]

theorem unsqueeze0_reads2 {x : Tensor} {p q : ℕ} {r F} (hx : Reads2 x p q r F) : Reads2 x.unsqueeze0 p q (r ++ [1]) F := by
  refine ⟨by show x.shape ++ [1] = _; rw [hx.1]; rfl, fun s i j => ?_⟩
  show x.val (j.val :: i.val :: broadcastIndex (r ++ [1]) s).dropLast = _
  rw [broadcastIndex_append_one, ← List.cons_append, ← List.cons_append, List.dropLast_concat, hx.2]

/-- Weights times vectors. -/
theorem weigh_reads1 {w x : Tensor} {q : ℕ} {S} {F : List ℕ → ℝ} {G} (hw : Reads0 w S F) (hx : Reads1 x q S G) :
    ∃ z, Tensor.zip (· * ·) w.unsqueeze1 x = .ok z ∧ Reads1 z q S fun s j => F s * G s j := by
  have e : broadcastShape (1 :: S) (q :: S) = some (q :: S) := by
    simp only [broadcastShape, broadcastShape_self]
    simp
  refine ⟨_, zip_eq (by show 1 :: w.shape = 1 :: S; rw [hw.1]) hx.1 e, rfl, fun s j => ?_⟩
  dsimp only
  rw [broadcastIndex_cons j.2, broadcastIndex_trans (Sub.refl S), hx.2]
  show w.val (broadcastIndex S (broadcastIndex S s)) * _ = _
  rw [broadcastIndex_trans (Sub.refl S), hw.2]

/-- Weights times matrices. -/
theorem weigh_reads2 {w x : Tensor} {p q : ℕ} {S} {F : List ℕ → ℝ} {G} (hw : Reads0 w S F) (hx : Reads2 x p q S G) :
    ∃ z, Tensor.zip (· * ·) w.unsqueeze1.unsqueeze1 x = .ok z ∧ Reads2 z p q S fun s => of fun i j => F s * G s i j := by
  have e : broadcastShape (1 :: 1 :: S) (q :: p :: S) = some (q :: p :: S) := by
    simp only [broadcastShape, broadcastShape_self]
    simp
  refine ⟨_, zip_eq (by show 1 :: 1 :: w.shape = 1 :: 1 :: S; rw [hw.1]) hx.1 e, rfl, fun s i j => ?_⟩
  dsimp only
  rw [broadcastIndex_cons j.2, broadcastIndex_cons i.2, broadcastIndex_trans (Sub.refl S), hx.2]
  show w.val (broadcastIndex S (broadcastIndex S s)) * _ = _
  rw [broadcastIndex_trans (Sub.refl S), hw.2]
  rfl

theorem cholesky_reads (chol : ∀ n, Matrix (Fin n) (Fin n) ℝ → Matrix (Fin n) (Fin n) ℝ) {x : Tensor} {n : ℕ} {r F}
    (hx : Reads2 x n n r F) : ∃ z, x.cholesky chol = .ok z ∧ Reads2 z n n r fun i => chol n (F i) := by
  have e : x.cholesky chol = .ok ⟨n :: n :: r, fun i =>
        if h : i.tail.headD 0 < n ∧ i.headD 0 < n then
          chol n (of fun (u v : Fin n) => x.val (v :: u :: i.tail.tail)) ⟨i.tail.headD 0, h.1⟩ ⟨i.headD 0, h.2⟩
        else 0⟩ := by
    obtain ⟨xs, xv⟩ := x
    obtain ⟨h, -⟩ := hx
    subst h
    simp [Tensor.cholesky]
  refine ⟨_, e, rfl, fun i u v => ?_⟩
  refine (dif_pos (show u.val < n ∧ v.val < n from ⟨u.2, v.2⟩)).trans ?_
  show chol n (of fun (u v : Fin n) => x.val (v :: u :: broadcastIndex r i)) u v = _
  have : (of fun (u v : Fin n) => x.val (v :: u :: broadcastIndex r i)) = F i := by
    ext a b
    exact hx.2 i a b
  rw [this]

/-- Weighted mean and centred values, common to all cases. -/
theorem centre_reads {x w : Tensor} {q N : ℕ} {r : List ℕ} {F : List ℕ → Fin q → ℝ} {W : List ℕ → ℝ} (hx : Reads1 x q (r ++ [N]) F)
    (hw : Reads0 w (r ++ [N]) W) :
    ∃ m c, Tensor.zip (· * ·) w.unsqueeze1 x = .ok m ∧
      Reads1 m.sum0 q r (fun s j => ∑ n : Fin N, W (broadcastIndex r s ++ [n.val]) * F (broadcastIndex r s ++ [n.val]) j) ∧
      Tensor.zip (· - ·) x m.sum0 = .ok c ∧
      Reads1 c q (r ++ [N]) (fun s j => F s j - ∑ n : Fin N, W (broadcastIndex r s ++ [n.val]) * F (broadcastIndex r s ++ [n.val]) j) := by
  obtain ⟨m, h1, h2⟩ := weigh_reads1 hw hx
  have h3 := sum0_reads1 h2
  obtain ⟨c, t, h4, h5, -, h6, h7⟩ := zip_reads1 (f := (· - ·)) hx h3 (Sub.refl _) (Sub.append r [N])
  obtain rfl := h5.antisymm h6
  exact ⟨m, c, h1, h3, h4, h7⟩

theorem filterMoments_var {event : List ℕ} (he : event.length ≤ 1) {x w : Tensor} {N : ℕ} {r : List ℕ} {F W} (keepDim : Bool)
    (hx : ReadsE x event (r ++ [N]) F) (hw : Reads0 w (r ++ [N]) W) (cov : Bool) (hc : cov = true → event = []) :
    ∃ m v, filterMoments event x w cov keepDim =
        .ok (if keepDim then m else m.squeeze1, if keepDim then v else v.squeeze1) ∧
      Reads1 m (dim event) r (fun s j => ∑ n : Fin N, W (broadcastIndex r s ++ [n.val]) * F (broadcastIndex r s ++ [n.val]) j) ∧
      Reads1 v (dim event) r (fun s j => ∑ n : Fin N, W (broadcastIndex r s ++ [n.val]) *
        (F (broadcastIndex r s ++ [n.val]) j -
          ∑ k : Fin N, W (broadcastIndex r s ++ [k.val]) * F (broadcastIndex r s ++ [k.val]) j) ^ 2) := by
  obtain ⟨m, c, h1, h2, h3, h4⟩ := centre_reads (vectorE he hx) hw
  obtain ⟨v, h5, h6⟩ := weigh_reads1 hw (map_reads1 (· ^ 2) h4)
  refine ⟨m.sum0, v.sum0, ?_, h2, ?_⟩
  · have e : (!cov || event.length == 0) = true := by
      cases cov
      · rfl
      · rw [hc rfl]; rfl
    unfold filterMoments
    simp only [h1, h3, h5, e, ok_bind, if_true]
    rfl
  · have h7 := sum0_reads1 h6
    refine ⟨h7.1, fun s j => (h7.2 s j).trans ?_⟩
    refine Finset.sum_congr rfl fun n _ => ?_
    show _ * (_ - ∑ k : Fin N, W (broadcastIndex r (broadcastIndex r s ++ [n.val]) ++ [k.val]) *
      F (broadcastIndex r (broadcastIndex r s ++ [n.val]) ++ [k.val]) j) ^ 2 = _
    rw [broadcastIndex_prefix]

theorem filterMoments_cov {p : ℕ} {x w : Tensor} {N : ℕ} {r : List ℕ} {F W} (hx : Reads1 x p (r ++ [N]) F)
    (hw : Reads0 w (r ++ [N]) W) (keepDim : Bool) :
    ∃ m v, filterMoments [p] x w true keepDim = .ok (if keepDim then m else m.squeeze1, v) ∧
      Reads1 m p r (fun s j => ∑ n : Fin N, W (broadcastIndex r s ++ [n.val]) * F (broadcastIndex r s ++ [n.val]) j) ∧
      Reads2 v p p r (fun s => of fun i j => ∑ n : Fin N, W (broadcastIndex r s ++ [n.val]) *
        ((F (broadcastIndex r s ++ [n.val]) i -
          ∑ k : Fin N, W (broadcastIndex r s ++ [k.val]) * F (broadcastIndex r s ++ [k.val]) i) *
        (F (broadcastIndex r s ++ [n.val]) j -
          ∑ k : Fin N, W (broadcastIndex r s ++ [k.val]) * F (broadcastIndex r s ++ [k.val]) j))) := by
  obtain ⟨m, c, h1, h2, h3, h4⟩ := centre_reads hx hw
  obtain ⟨cr, h5, h6⟩ := row_reads h4
  obtain ⟨cc, t, h7, h8, -, h9, h10⟩ := matmul_reads (column_reads h4) h6 (Sub.refl _) (Sub.refl _)
  obtain rfl := h8.antisymm h9
  have sq : w.unsqueeze1.squeeze1 = w := rfl
  obtain ⟨v, h11, h12⟩ := weigh_reads2 hw h10
  refine ⟨m.sum0, v.sum0, ?_, h2, ?_⟩
  · have e : (!true || [p].length == 0) = false := rfl
    have e' : ([p].length == 0) = false := rfl
    have h13 : Tensor.einsumCov w cc = .ok v.sum0 := by
      unfold Tensor.einsumCov
      rw [h11]
      rfl
    unfold filterMoments
    simp only [e, e', h1, h3, h5, h7, sq, h13, ok_bind, if_false, Bool.false_eq_true]
    rfl
  · have h14 := sum0_reads2 h12
    refine ⟨h14.1, fun s i j => (h14.2 s i j).trans ?_⟩
    show ∑ n : Fin N, _ = ∑ n : Fin N, _
    refine Finset.sum_congr rfl fun n _ => ?_
    show W (broadcastIndex r s ++ [n.val]) * (of _ * of _ : Matrix (Fin p) (Fin p) ℝ) i j = _
    rw [Matrix.mul_apply, Fin.sum_univ_one]
    dsimp only [of_apply]
    rw [broadcastIndex_prefix]

/-- The batch shape of the predictive density. -/
def predBatch (r : List ℕ) : List ℕ := if r.length + 1 > 1 then r ++ [1] else r

theorem predBatch_sub (N : ℕ) (r : List ℕ) : Sub (predBatch r) (r ++ [N]) := by
  unfold predBatch
  split_ifs
  · exact Sub.append_one N r
  · exact Sub.append r [N]

theorem predBatch_reads0 {x w : Tensor} {N : ℕ} {r F W} (hx : Reads0 x r F) (hw : Reads0 w (r ++ [N]) W) :
    Reads0 (if w.shape.length > 1 then x.unsqueeze0 else x) (predBatch r) F := by
  unfold predBatch
  rw [hw.1, List.length_append, List.length_singleton]
  split_ifs
  · exact unsqueeze0_reads0 hx
  · exact hx

theorem predBatch_reads1 {x w : Tensor} {q N : ℕ} {r F W} (hx : Reads1 x q r F) (hw : Reads0 w (r ++ [N]) W) :
    Reads1 (if w.shape.length > 1 then x.unsqueeze0 else x) q (predBatch r) F := by
  unfold predBatch
  rw [hw.1, List.length_append, List.length_singleton]
  split_ifs
  · exact unsqueeze0_reads1 hx
  · exact hx

theorem predBatch_reads2 {x w : Tensor} {p q N : ℕ} {r F W} (hx : Reads2 x p q r F) (hw : Reads0 w (r ++ [N]) W) :
    Reads2 (if w.shape.length > 1 then x.unsqueeze0 else x) p q (predBatch r) F := by
  unfold predBatch
  rw [hw.1, List.length_append, List.length_singleton]
  split_ifs
  · exact unsqueeze0_reads2 hx
  · exact hx

theorem expand_reads0 {x : Tensor} {r S F} (hx : Reads0 x r F) (h : Sub r S) : Reads0 (x.expand S) S F := by
  refine ⟨rfl, fun s => ?_⟩
  show x.val (broadcastIndex x.shape (broadcastIndex S s)) = _
  rw [hx.1, broadcastIndex_trans h, hx.2]

theorem expand_reads1 {x : Tensor} {q : ℕ} {r S F} (hx : Reads1 x q r F) (h : Sub r S) : Reads1 (x.expand (q :: S)) q S F := by
  refine ⟨rfl, fun s j => ?_⟩
  show x.val (broadcastIndex x.shape (j.val :: broadcastIndex S s)) = _
  rw [hx.1, broadcastIndex_cons j.2, broadcastIndex_trans h, hx.2]

theorem expand_reads2 {x : Tensor} {p q : ℕ} {r S F} (hx : Reads2 x p q r F) (h : Sub r S) :
    Reads2 (x.expand (q :: p :: S)) p q S F := by
  refine ⟨rfl, fun s i j => ?_⟩
  show x.val (broadcastIndex x.shape (j.val :: i.val :: broadcastIndex S s)) = _
  rw [hx.1, broadcastIndex_cons j.2, broadcastIndex_cons i.2, broadcastIndex_trans h, hx.2]

theorem expandTo_eq {x : Tensor} {S : List ℕ} (h : Sub x.shape S) : x.expandTo S = .ok (x.expand S) :=
  if_pos (broadcastShape_of_sub h)

theorem predictive_scalar {x w : Tensor} {N : ℕ} {r : List ℕ} {F W} (hx : ReadsE x [] (r ++ [N]) F) (hw : Reads0 w (r ++ [N]) W) :
    ∃ loc scale, predictiveDensityT [] x w = .ok (.normal loc scale) ∧
      Reads0 loc (predBatch r) (fun s => ∑ n : Fin N, W (broadcastIndex r s ++ [n.val]) * F (broadcastIndex r s ++ [n.val]) ix0) ∧
      Reads0 scale (predBatch r) (fun s => Real.sqrt (∑ n : Fin N, W (broadcastIndex r s ++ [n.val]) *
        (F (broadcastIndex r s ++ [n.val]) ix0 -
          ∑ k : Fin N, W (broadcastIndex r s ++ [k.val]) * F (broadcastIndex r s ++ [k.val]) ix0) ^ 2)) := by
  obtain ⟨m, v, h1, h2, h3⟩ := filterMoments_var (event := []) (by simp) false hx hw true (fun _ => rfl)
  have h2' := squeeze_reads1 h2
  have h3' := squeeze_reads1 h3
  have k2 := predBatch_reads0 h2' hw
  have k3 := predBatch_reads0 h3' hw
  have k4 := map_reads0 Real.sqrt k3
  refine ⟨_, _, ?_, expand_reads0 k2 (Sub.refl _), expand_reads0 k4 (Sub.refl _)⟩
  unfold predictiveDensityT
  rw [h1]
  simp only [ok_bind, Bool.false_eq_true, if_false]
  show Dist.mkNormal _ _ = _
  unfold Dist.mkNormal
  rw [k2.1, k4.1, broadcastShape_self]

theorem gaussianValues_scalar (chol) {x w : Tensor} {N : ℕ} {r : List ℕ} {F W} (noise : List ℕ → ℝ)
    (hx : ReadsE x [] (r ++ [N]) F) (hw : Reads0 w (r ++ [N]) W) :
    ∃ z, gaussianValues chol [] x w (r ++ [N]) noise = .ok z ∧ Reads0 z (r ++ [N]) fun s =>
      ∑ n : Fin N, W (broadcastIndex r s ++ [n.val]) * F (broadcastIndex r s ++ [n.val]) ix0 +
      Real.sqrt (∑ n : Fin N, W (broadcastIndex r s ++ [n.val]) * (F (broadcastIndex r s ++ [n.val]) ix0 -
          ∑ k : Fin N, W (broadcastIndex r s ++ [k.val]) * F (broadcastIndex r s ++ [k.val]) ix0) ^ 2) *
        noise (broadcastIndex (r ++ [N]) s) := by
  obtain ⟨loc, scale, h1, h2, h3⟩ := predictive_scalar hx hw
  have e2 := expand_reads0 h2 (predBatch_sub N r)
  have e3 := expand_reads0 h3 (predBatch_sub N r)
  have e4 : Reads0 (⟨r ++ [N], noise⟩ : Tensor) (r ++ [N]) fun s => noise (broadcastIndex (r ++ [N]) s) := ⟨rfl, fun _ => rfl⟩
  obtain ⟨z1, t1, g1, g2, -, g3, g4⟩ := zip_reads0 (f := (· * ·)) e3 e4 (Sub.refl _) (Sub.refl _)
  obtain rfl := g2.antisymm g3
  obtain ⟨z2, t2, g5, g6, -, g7, g8⟩ := zip_reads0 (f := (· + ·)) e2 g4 (Sub.refl _) (Sub.refl _)
  obtain rfl := g6.antisymm g7
  refine ⟨z2, ?_, g8⟩
  unfold gaussianValues
  rw [h1, ok_bind]
  unfold Dist.expandSample
  have e5 : (Dist.normal loc scale).eventShape ++ (r ++ [N]) = r ++ [N] := rfl
  have e6 : Sub loc.shape (r ++ [N]) := by rw [h2.1]; exact predBatch_sub N r
  have e7 : Sub scale.shape (r ++ [N]) := by rw [h3.1]; exact predBatch_sub N r
  simp only [e5, expandTo_eq e6, expandTo_eq e7, ok_bind, g1, g5]

theorem squeeze_of_ne {x : Tensor} {q : ℕ} {r F} (hx : Reads1 x q r F) (hq : q ≠ 1) : x.squeeze1 = x := by
  obtain ⟨xs, xv⟩ := x
  obtain rfl : xs = q :: r := hx.1
  unfold Tensor.squeeze1
  split
  · next h => exact absurd (List.cons.inj h).1 hq
  · rfl

theorem predictive_vector {p : ℕ} (hp : p ≠ 1) {x w : Tensor} {N : ℕ} {r : List ℕ} {F W} (hx : Reads1 x p (r ++ [N]) F)
    (hw : Reads0 w (r ++ [N]) W) :
    ∃ loc cov, predictiveDensityT [p] x w = .ok (.mvn loc cov) ∧
      Reads1 loc p (predBatch r) (fun s j => ∑ n : Fin N, W (broadcastIndex r s ++ [n.val]) * F (broadcastIndex r s ++ [n.val]) j) ∧
      Reads2 cov p p (predBatch r) (fun s => of fun i j => ∑ n : Fin N, W (broadcastIndex r s ++ [n.val]) *
        ((F (broadcastIndex r s ++ [n.val]) i -
          ∑ k : Fin N, W (broadcastIndex r s ++ [k.val]) * F (broadcastIndex r s ++ [k.val]) i) *
        (F (broadcastIndex r s ++ [n.val]) j -
          ∑ k : Fin N, W (broadcastIndex r s ++ [k.val]) * F (broadcastIndex r s ++ [k.val]) j))) := by
  obtain ⟨m, v, h1, h2, h3⟩ := filterMoments_cov hx hw false
  have sq := squeeze_of_ne h2 hp
  have k2 := predBatch_reads1 h2 hw
  have k3 := predBatch_reads2 h3 hw
  refine ⟨_, _, ?_, expand_reads1 k2 (Sub.refl _), expand_reads2 k3 (Sub.refl _)⟩
  unfold predictiveDensityT
  rw [h1]
  simp only [ok_bind, Bool.false_eq_true, if_false, sq]
  show Dist.mkMvnCov _ _ = _
  unfold Dist.mkMvnCov
  rw [if_neg (by rw [k2.1]; simp)]
  generalize (if w.shape.length > 1 then m.unsqueeze0 else m) = l at k2 ⊢
  generalize (if w.shape.length > 1 then v.unsqueeze0 else v) = c at k3 ⊢
  obtain ⟨ls, lv⟩ := l
  obtain ⟨cs, cv⟩ := c
  obtain ⟨q1, -⟩ := k2
  obtain ⟨q2, -⟩ := k3
  subst q1 q2
  unfold Dist.mkMvn
  simp only [broadcastShape_self]

theorem gaussianValues_vector (chol) {p : ℕ} (hp : p ≠ 1) {x w : Tensor} {N : ℕ} {r : List ℕ} {F W} (noise : List ℕ → ℝ)
    (hx : Reads1 x p (r ++ [N]) F) (hw : Reads0 w (r ++ [N]) W) :
    ∃ z, gaussianValues chol [p] x w (r ++ [N]) noise = .ok z ∧ Reads1 z p (r ++ [N]) fun s =>
      (fun j => ∑ n : Fin N, W (broadcastIndex r s ++ [n.val]) * F (broadcastIndex r s ++ [n.val]) j) +
      chol p (of fun i j => ∑ n : Fin N, W (broadcastIndex r s ++ [n.val]) *
        ((F (broadcastIndex r s ++ [n.val]) i -
          ∑ k : Fin N, W (broadcastIndex r s ++ [k.val]) * F (broadcastIndex r s ++ [k.val]) i) *
        (F (broadcastIndex r s ++ [n.val]) j -
          ∑ k : Fin N, W (broadcastIndex r s ++ [k.val]) * F (broadcastIndex r s ++ [k.val]) j))) *ᵥ
        fun e : Fin p => noise (e.val :: broadcastIndex (r ++ [N]) s) := by
  obtain ⟨loc, cov, h1, h2, h3⟩ := predictive_vector hp hx hw
  have e2 := expand_reads1 h2 (predBatch_sub N r)
  obtain ⟨tril, h4, h5⟩ := cholesky_reads chol h3
  have e4 : Reads1 (⟨p :: (r ++ [N]), noise⟩ : Tensor) p (r ++ [N]) fun s e => noise (e.val :: broadcastIndex (r ++ [N]) s) :=
    ⟨rfl, fun _ _ => rfl⟩
  obtain ⟨z1, t1, g1, -, g2, g3, g4⟩ := matmul_reads h5 (column_reads e4) (predBatch_sub N r) (Sub.refl _)
  obtain rfl := g2.antisymm g3
  obtain ⟨z2, t2, g5, g6, -, g7, g8⟩ := zip_reads1 (f := (· + ·)) e2 (squeeze_reads g4) (Sub.refl _) (Sub.refl _)
  obtain rfl := g6.antisymm g7
  refine ⟨z2, ?_, g8.1, fun s j => (g8.2 s j).trans rfl⟩
  unfold gaussianValues
  rw [h1, ok_bind]
  unfold Dist.expandSample
  have e5 : (Dist.mvn loc cov).eventShape = [p] := by show loc.shape.take 1 = _; rw [h2.1]; rfl
  have e6 : loc.shape.take 1 = [p] := by rw [h2.1]; rfl
  have e7 : Sub loc.shape (p :: (r ++ [N])) := by rw [h2.1]; exact ⟨Or.inl rfl, predBatch_sub N r⟩
  simp only [e5, e6, List.singleton_append, expandTo_eq e7, h4, ok_bind, g1, g5]

end Verif.Torch
