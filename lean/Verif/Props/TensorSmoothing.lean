import Verif.Lemmas.TensorSmoothing

/-!
# Property C144: the smoothed paths of every filter of a batch
-/

namespace Verif.Props

open Verif Verif.Torch

/-- Forward filtering and backward sampling, for one filter or several in parallel: the last value of path `n` of filter `b` is the
particle that resampling chooses, and going back, each value is that of the particle of the same filter which the categorical draw
chooses, from the sums of log-weight and log-density of the next value of this path. -/
theorem C144_backward_sampling (N T : ℕ) (ev bs : List ℕ) (hh : ev.length ≤ 1) (hb : bs.length ≤ 1)
    (resampler : Tensor → Except PyErr Index) (draw : ℕ → List ℕ → List ℝ → ℕ) (st : ℕ → SmoothState)
    (F : ℕ → Fin N → List ℕ → Fin (dim ev) → ℝ) (W : ℕ → Fin N → List ℕ → ℝ) (P : ℕ → Fin N → List ℕ → (Fin (dim ev) → ℝ) → ℝ)
    (idx : Index) (A : Fin N → List ℕ → Fin N)
    (hd : ∀ t i row, row ≠ [] → draw t i row < row.length)
    (hx : ∀ t ≤ T, PartG (st t).x ev bs (F t)) (hw : ∀ t < T, WeightG (st t).w bs (W t))
    (hp : ∀ t < T, PairG N ev bs (st t).logProb (P t)) (hr : resampler (st T).w = .ok idx) (hA : IndexG idx bs A) :
    ∃ z path, ffbsTensor ev bs N resampler draw ((List.range (T + 1)).map st) = .ok z ∧ PathG z ev bs T path ∧
      (∀ n b, InShape bs b → path T n b = F T (A n b) b) ∧
      ∀ t < T, ∀ n b, InShape bs b → ∃ k : Fin N, path t n b = F t k b ∧
        k.val = draw t (b ++ [n.val]) (List.ofFn fun j => W t j b + P t j b (path (t + 1) n b)) := by
  obtain ⟨first, f1, f2⟩ := batchedGather_ok hh (hx T le_rfl) hA
  obtain ⟨L, path, l1, l2, l3, l4⟩ := backLoop_ok hh hb hd st T (fun t ht => hx t (by omega)) hw hp f2
  have h : List.Forall₂ (fun i z => PartG z ev bs (path i)) (List.range (T + 1)) (first :: L).reverse := by
    rw [← List.forall₂_reverse_iff, List.reverse_reverse, List.range_succ, List.reverse_append]
    exact List.Forall₂.cons (l3 ▸ f2) (l2.imp fun _ _ h => h.2)
  obtain ⟨z, z1, z2⟩ := stack_ok h
  refine ⟨z, path, ?_, z2, fun n b _ => by rw [l3], fun t ht n b hbb => ?_⟩
  · unfold ffbsTensor
    rw [range_map_reverse]
    simp only [hr, f1, l1, ok_bind, z1]
  · obtain ⟨K, k1, k2⟩ := l4 t ht
    exact ⟨K n b, by rw [k1], k2 n b hbb⟩

/-- Fixed-lag smoothing, for one filter or several in parallel: path `n` of filter `b` runs through the ancestors `anc t n b` of
its last particle in the same filter. -/
theorem C144_fixed_lag (N T : ℕ) (ev bs : List ℕ) (hh : ev.length ≤ 1) (hb : bs.length ≤ 1) (st : ℕ → SmoothState)
    (F : ℕ → Fin N → List ℕ → Fin (dim ev) → ℝ) (Q : ℕ → Fin N → List ℕ → Fin N)
    (hx : ∀ t ≤ T, PartG (st t).x ev bs (F t)) (hq : ∀ t ≤ T, IndexG (st t).prev bs (Q t)) :
    ∃ (z : Tensor) (anc : ℕ → Fin N → List ℕ → Fin N), flTensor bs N ((List.range (T + 1)).map st) = .ok z ∧ PathG z ev bs T (fun t n b => F t (anc t n b) b) ∧
      (∀ n b, anc T n b = n) ∧ ∀ t < T, ∀ n b, anc t n b = Q (t + 1) (anc (t + 1) n b) b := by
  have hi : ∃ i : Index, (if bs ≠ [] then (Index.unsqueeze1 ⟨[N], fun i => i.headD 0⟩).expandTo (bs ++ [N])
      else pure ⟨[N], fun i => i.headD 0⟩ : Except PyErr Index) = .ok i ∧ IndexG i bs fun (n : Fin N) _ => n := by
    match bs with
    | [] =>
      refine ⟨_, rfl, rfl, fun n b hbb => ?_⟩
      cases hbb
      rfl
    | [B] =>
      obtain ⟨i, i1, i2, i3⟩ := expandIndex_ok (ev := [B]) (r := [N]) (by simp) (idx := ⟨[N], fun i => i.headD 0⟩) rfl
      rw [if_pos (by simp)] at i1
      exact ⟨i, by rw [if_pos (by simp)]; exact i1, i2, fun n b hbb => i3 b [n.val] hbb (inShape_one.2 ⟨_, rfl, n.2⟩)⟩
    | _ :: _ :: _ => simp at hb
  obtain ⟨prev, p1, p2⟩ := hi
  obtain ⟨L, anc, l1, l2, l3, l4⟩ := lagLoop_ok hh st T (fun t ht => hx t (by omega)) hq p2
  have h : List.Forall₂ (fun i z => PartG z ev bs fun n b => F i (anc i n b) b) (List.range (T + 1)) ((st T).x :: L).reverse := by
    rw [← List.forall₂_reverse_iff, List.reverse_reverse, List.range_succ, List.reverse_append]
    refine List.Forall₂.cons ?_ (l2.imp fun _ _ h => h.2)
    rw [l3]
    exact hx T le_rfl
  obtain ⟨z, z1, z2⟩ := stack_ok (path := fun i n b => F i (anc i n b) b) h
  refine ⟨z, anc, ?_, z2, fun n b => by rw [l3], fun t ht n b => by rw [l4 t ht]⟩
  unfold flTensor
  rw [range_map_reverse]
  dsimp only
  rw [p1, ok_bind, l1, ok_bind, z1]

/-- The density `Normal(loc, scale)` of the scalar states that follow the particles has a number for every path and particle. -/
theorem C144_normal_density (N : ℕ) (bs : List ℕ) (hb : bs.length ≤ 1) (loc scale : Tensor) (M S : Fin N → List ℕ → ℝ)
    (hl : WeightG loc bs M) (hs : WeightG scale bs S) :
    PairG N [] bs (Dist.normal loc scale).logProb fun j b x => normalLogProb (M j b) (S j b) (x (0 : Fin 1)) := by
  intro z V hz hv
  have e : broadcastShape z.shape loc.shape = some (bs ++ [N, N]) := by
    rw [hz, hl.1]
    match bs with
    | [] => simp [broadcastShape]
    | [_] => simp [broadcastShape]
    | _ :: _ :: _ => simp at hb
  refine ⟨⟨bs ++ [N, N], _⟩, by unfold Dist.logProb; dsimp only; rw [e], rfl, fun j n b hbb => ?_⟩
  dsimp only
  have e1 : broadcastIndex (bs ++ [N]) (b ++ [j.val, n.val]) = b ++ [j.val] := by
    rw [broadcastIndex_inShape hbb, broadcastIndex_cons j.2]
    rfl
  have e2 : broadcastIndex (bs ++ [1, N]) (b ++ [j.val, n.val]) = b ++ [0, n.val] := by
    rw [broadcastIndex_inShape hbb]
    show b ++ 0 :: broadcastIndex [N] [n.val] = _
    rw [broadcastIndex_cons n.2]
    rfl
  rw [hl.1, hz, e1, List.nil_append, e2, hl.2 j b hbb, hs.2 j b hbb]
  have := hv n b hbb (0 : Fin 1)
  simp only [compIx, List.map_nil, List.nil_append] at this
  rw [this]

/-- The density `MultivariateNormal(loc, cov)` of the vectors that follow the particles has a number for every path and particle. -/
theorem C144_mvn_density (N d : ℕ) (bs : List ℕ) (hb : bs.length ≤ 1) (loc cov : Tensor) (M : Fin N → List ℕ → Fin d → ℝ)
    (C : Fin N → List ℕ → Matrix (Fin d) (Fin d) ℝ) (hl : PartG loc [d] bs M) (hc : cov.shape = [d, d] ++ (bs ++ [N]) ∧
      ∀ (n : Fin N) b, InShape bs b → ∀ u v : Fin d, cov.val (v.val :: u.val :: (b ++ [n.val])) = C n b u v) :
    PairG N [d] bs (Dist.mvn loc cov).logProb fun j b x => mvnLogProb (M j b) (C j b) x := by
  intro z V hz hv
  have e : broadcastShape (bs ++ [1, N]) (bs ++ [N]) = some (bs ++ [N, N]) := by
    match bs with
    | [] => simp [broadcastShape]
    | [_] => simp [broadcastShape]
    | _ :: _ :: _ => simp at hb
  refine ⟨⟨bs ++ [N, N], fun i => mvnLogProb (fun e : Fin d => loc.val (e :: broadcastIndex (bs ++ [N]) i))
      (Matrix.of fun u v : Fin d => cov.val (v :: u :: broadcastIndex (bs ++ [N]) i))
      fun e : Fin d => z.val (e :: broadcastIndex (bs ++ [1, N]) i)⟩, ?_, rfl, fun j n b hbb => ?_⟩
  · have h1 : z.shape = d :: (bs ++ [1, N]) := hz
    have h2 : loc.shape = d :: (bs ++ [N]) := hl.1
    unfold Dist.logProb
    simp only [h1, h2, if_true, e]
  have e1 : broadcastIndex (bs ++ [N]) (b ++ [j.val, n.val]) = b ++ [j.val] := by
    rw [broadcastIndex_inShape hbb, broadcastIndex_cons j.2]
    rfl
  have e2 : broadcastIndex (bs ++ [1, N]) (b ++ [j.val, n.val]) = b ++ [0, n.val] := by
    rw [broadcastIndex_inShape hbb]
    show b ++ 0 :: broadcastIndex [N] [n.val] = _
    rw [broadcastIndex_cons n.2]
    rfl
  dsimp only
  rw [e1, e2]
  have a1 : (fun e : Fin d => loc.val (e :: (b ++ [j.val]))) = M j b := funext fun e => hl.2 j b hbb e
  have a2 : (Matrix.of fun u v : Fin d => cov.val (v :: u :: (b ++ [j.val]))) = C j b := by
    ext u v
    exact hc.2 j b hbb u v
  have a3 : (fun e : Fin d => z.val (e :: (b ++ [0, n.val]))) = V n b := funext fun e => hv n b hbb e
  rw [a1, a2, a3]

/-- A case of `C144_mvn_density`: two components, three particles of two filters. -/
example : PairG 3 [2] [2] (Dist.mvn ⟨[2, 2, 3], fun i => (i.headD 0 : ℝ) + i.getLastD 0⟩
      ⟨[2, 2, 2, 3], fun i => if i.headD 0 = i.tail.headD 0 then 2 else 1⟩).logProb fun j _ x =>
    mvnLogProb (fun e => (e.val : ℝ) + j.val) (Matrix.of fun u v : Fin 2 => if v.val = u.val then 2 else 1) x :=
  C144_mvn_density 3 2 [2] (by simp) _ _ (fun n _ e => (e.val : ℝ) + n.val) (fun _ _ => Matrix.of fun u v => if v.val = u.val then 2 else 1)
    ⟨rfl, fun n b hb j => by obtain ⟨k, rfl, -⟩ := inShape_one.1 hb; rfl⟩
    ⟨rfl, fun _ _ _ _ _ => rfl⟩

/-- Particles of two filters: `n + 10 b` at every time. -/
noncomputable def smoothExample (_t : ℕ) : SmoothState where
  x := ⟨[2, 3], fun i => (i.tail.headD 0 : ℝ) + 10 * (i.headD 0 : ℝ)⟩
  w := ⟨[2, 3], fun _ => 0⟩
  prev := ⟨[2, 3], fun i => 2 - i.tail.headD 0⟩
  logProb := (Dist.normal ⟨[2, 3], fun i => (i.tail.headD 0 : ℝ) + 10 * (i.headD 0 : ℝ)⟩ ⟨[2, 3], fun _ => 1⟩).logProb

/-- A case of `C144_backward_sampling`: the first category is always drawn. -/
example (resampler : Tensor → Except PyErr Index) (hr : ∀ w, resampler w = .ok ⟨[2, 3], fun i => i.tail.headD 0⟩) :
    ∃ z, ffbsTensor [] [2] 3 resampler (fun _ _ _ => 0) ((List.range 5).map smoothExample) = .ok z ∧ z.shape = [2, 3, 5] := by
  obtain ⟨z, path, h1, h2, -⟩ := C144_backward_sampling 3 4 [] [2] (by simp) (by simp) resampler (fun _ _ _ => 0) smoothExample
    (fun _ n b _ => (n.val : ℝ) + 10 * (b.headD 0 : ℝ)) (fun _ _ _ => 0)
    (fun _ j b x => normalLogProb ((j.val : ℝ) + 10 * (b.headD 0 : ℝ)) 1 (x (0 : Fin 1))) ⟨[2, 3], fun i => i.tail.headD 0⟩ (fun n _ => n)
    (fun _ _ row h => List.length_pos_iff.2 h)
    (fun _ _ => ⟨rfl, fun n b hb j => by obtain ⟨k, rfl, -⟩ := inShape_one.1 hb; rfl⟩) (fun _ _ => ⟨rfl, fun _ _ _ => rfl⟩)
    (fun _ _ => C144_normal_density 3 [2] (by simp) _ _ _ _
      ⟨rfl, fun n b hb => by obtain ⟨k, rfl, -⟩ := inShape_one.1 hb; rfl⟩ ⟨rfl, fun _ _ _ => rfl⟩) (hr _)
    ⟨rfl, fun n b hb => by obtain ⟨k, rfl, -⟩ := inShape_one.1 hb; rfl⟩
  exact ⟨z, h1, h2.1⟩

/-- A case of `C144_fixed_lag`: the order of the particles is reversed at every step. -/
example : ∃ z, flTensor [2] 3 ((List.range 5).map smoothExample) = .ok z ∧ z.val [1, 0, 3] = 12 := by
  obtain ⟨z, anc, h1, h2, h3, h4⟩ := C144_fixed_lag 3 4 [] [2] (by simp) (by simp) smoothExample
    (fun _ n b _ => (n.val : ℝ) + 10 * (b.headD 0 : ℝ)) (fun _ n _ => ⟨2 - n.val, by omega⟩)
    (fun _ _ => ⟨rfl, fun n b hb j => by obtain ⟨k, rfl, -⟩ := inShape_one.1 hb; rfl⟩)
    (fun _ _ => ⟨rfl, fun n b hb => by obtain ⟨k, rfl, -⟩ := inShape_one.1 hb; rfl⟩)
  refine ⟨z, h1, ?_⟩
  have e := h2.2 3 (by omega) 0 [1] (inShape_one.2 ⟨1, rfl, by omega⟩) (0 : Fin 1)
  have e' : z.val [1, 0, 3] = _ := e
  rw [e']
  beta_reduce
  have h34 : anc 3 0 [1] = 2 := by
    rw [h4 3 (by omega), h3]
    rfl
  rw [h34]
  norm_num

end Verif.Props
