import Verif.Model.TensorSisr
import Verif.Spec.TensorSisr
import Verif.Lemmas.TensorNested
import Mathlib.Algebra.BigOperators.Field

/-!
# Lemmas about `SISR.predict` on tensors
-/

namespace Verif.Torch

/-- How many of the first `k` numbers have a property. -/
def cnt (p : ℕ → Bool) (k : ℕ) : ℕ := ((List.range k).filter p).length

theorem cnt_zero (p : ℕ → Bool) : cnt p 0 = 0 := rfl

theorem cnt_succ (p : ℕ → Bool) (k : ℕ) : cnt p (k + 1) = cnt p k + if p k then 1 else 0 := by
  unfold cnt
  rw [List.range_succ, List.filter_append, List.length_append]
  congr 1
  by_cases h : p k <;> simp [h]

theorem cnt_congr {p q : ℕ → Bool} : ∀ {k : ℕ}, (∀ l < k, p l = q l) → cnt p k = cnt q k
  | 0, _ => rfl
  | k + 1, h => by rw [cnt_succ, cnt_succ, cnt_congr fun l hl => h l (by omega), h k (by omega)]

theorem cnt_add (p : ℕ → Bool) (a : ℕ) : ∀ b, cnt p (a + b) = cnt p a + cnt (fun k => p (a + k)) b
  | 0 => rfl
  | b + 1 => by rw [← Nat.add_assoc, cnt_succ, cnt_add p a b, cnt_succ, Nat.add_assoc]

theorem cnt_mono (p : ℕ → Bool) {a b : ℕ} (h : a ≤ b) : cnt p a ≤ cnt p b := by
  obtain ⟨c, rfl⟩ := Nat.exists_eq_add_of_le h
  rw [cnt_add]
  omega

theorem cnt_lt {p : ℕ → Bool} {a b : ℕ} (h : a < b) (hp : p a = true) : cnt p a < cnt p b := by
  have := cnt_mono p (show a + 1 ≤ b from h)
  rw [cnt_succ, hp] at this
  simp at this
  omega

theorem cnt_mod (q : ℕ → Bool) {B b : ℕ} (hb : b ≤ B) : ∀ n, cnt (fun k => q (k % B)) (b + B * n) = n * cnt q B + cnt q b
  | 0 => by
    rw [Nat.mul_zero, Nat.add_zero, Nat.zero_mul, Nat.zero_add]
    exact cnt_congr fun l hl => by rw [Nat.mod_eq_of_lt (by omega)]
  | n + 1 => by
    rw [show b + B * (n + 1) = B + (b + B * n) by ring, cnt_add]
    simp only [Nat.add_mod_left]
    rw [cnt_mod q hb n, cnt_congr (q := q) fun l hl => by rw [Nat.mod_eq_of_lt hl]]
    ring

theorem cnt_const (c : Bool) (k : ℕ) : cnt (fun _ => c) k = if c then k else 0 := by
  unfold cnt
  cases c <;> simp

theorem cnt_block (q : ℕ → Bool) {D e : ℕ} (he : e ≤ D) (m : ℕ) : cnt (fun k => q ((D * m + k) / D)) e = if q m then e else 0 := by
  rw [← cnt_const (q m) e]
  refine cnt_congr fun l hl => ?_
  rw [Nat.mul_add_div (by omega), Nat.div_eq_of_lt (by omega), Nat.add_zero]

theorem cnt_div (q : ℕ → Bool) (D : ℕ) : ∀ m, cnt (fun k => q (k / D)) (D * m) = D * cnt q m
  | 0 => rfl
  | m + 1 => by
    rw [Nat.mul_add, Nat.mul_one, cnt_add, cnt_div q D m, cnt_block q le_rfl, cnt_succ]
    by_cases h : q m <;> simp [h, Nat.mul_add]

theorem cnt_div_add (q : ℕ → Bool) {D e : ℕ} (he : e < D) {m : ℕ} (hm : q m = true) :
    cnt (fun k => q (k / D)) (e + D * m) = e + D * cnt q m := by
  rw [Nat.add_comm, cnt_add, cnt_div q D, cnt_block q he.le, if_pos hm, Nat.add_comm]

/-- The place of a number among those with the property. -/
theorem filter_getD {p : ℕ → Bool} {b B : ℕ} (h : b < B) (hp : p b = true) : ((List.range B).filter p).getD (cnt p b) 0 = b := by
  obtain ⟨c, rfl⟩ := Nat.exists_eq_add_of_lt h
  have : cnt p b = (List.filter p (List.range b)).length := rfl
  rw [show b + c + 1 = b + (1 + c) by ring, List.range_add, List.filter_append, this, List.getD_eq_getElem?_getD,
    List.getElem?_append_right le_rfl, Nat.sub_self, List.range_add]
  simp [hp]

theorem entry_two {B N r n : ℕ} (hr : r < B) (hn : n < N) : entry [B, N] (n * B + r) = [r, n] := by
  simp only [entry]
  rw [Nat.mul_comm, Nat.mul_add_mod, Nat.mod_eq_of_lt hr, Nat.mul_add_div (by omega), Nat.div_eq_of_lt hr, Nat.add_zero, Nat.mod_eq_of_lt hn]

theorem entry_cons {D e k : ℕ} (he : e < D) (s : List ℕ) : entry (D :: s) (e + D * k) = e :: entry s k := by
  simp only [entry]
  rw [Nat.add_mul_mod_self_left, Nat.mod_eq_of_lt he, Nat.add_mul_div_left _ _ (by omega), Nat.div_eq_of_lt he, Nat.zero_add]

/-- The mask of a batch of `B` filters with the dimensions that `SISR.predict` adds. -/
def liftMask (ev : List ℕ) (m : Mask) : Mask := if ev.length > 0 then m.unsqueeze0.unsqueeze1 else m.unsqueeze0

theorem expanded_lift {ev : List ℕ} (hh : ev.length ≤ 1) {B : ℕ} {m : Mask} (hm : m.shape = [B]) {a b n : ℕ} (hb : b < B) :
    (liftMask ev m).expanded (compIx ev a ++ [b, n]) = m.val [b] := by
  have e : (if B = 1 then 0 else b) = b := by split_ifs <;> omega
  match ev, hh with
  | [], _ =>
    simp only [liftMask, Mask.expanded, Mask.unsqueeze0, hm, compIx]
    simp [broadcastIndex, e]
  | [d], _ =>
    simp only [liftMask, Mask.expanded, Mask.unsqueeze0, Mask.unsqueeze1, hm, compIx]
    simp [broadcastIndex, e]
  | _ :: _ :: _, hh => simp at hh

theorem before_two {B N : ℕ} {m : Mask} (hm : m.shape = [B]) (hB : 0 < B) (k : ℕ) :
    (liftMask [] m).before [B, N] k = cnt (fun l => m.val [l % B]) k := by
  unfold Mask.before cnt
  congr 2
  funext l
  exact expanded_lift (ev := []) (by simp) (a := 0) hm (Nat.mod_lt l hB)

theorem before_three {D B N : ℕ} {m : Mask} (hm : m.shape = [B]) (hB : 0 < B) (k : ℕ) :
    (liftMask [D] m).before [D, B, N] k = cnt (fun l => m.val [l / D % B]) k := by
  unfold Mask.before cnt
  congr 2
  funext l
  exact expanded_lift (ev := [D]) (by simp) (a := l % D) hm (Nat.mod_lt _ hB)

/-- The entry of the source that `masked_scatter` copies for particle `n` of filter `b`. -/
theorem scatter_entry {ev : List ℕ} (hh : ev.length ≤ 1) {B N : ℕ} {m : Mask} (hm : m.shape = [B]) {b n : ℕ} (hb : b < B) (hn : n < N)
    (hp : m.val [b] = true) (j : Fin (dim ev)) :
    entry (ev ++ [cnt (fun l => m.val [l]) B, N]) ((liftMask ev m).before (ev ++ [B, N]) (offset (ev ++ [B, N]) (compIx ev j.val ++ [b, n]))) =
      compIx ev j.val ++ [cnt (fun l => m.val [l]) b, n] := by
  have h1 := cnt_mod (fun l => m.val [l]) hb.le n
  have h2 : cnt (fun l => m.val [l]) b < cnt (fun l => m.val [l]) B := cnt_lt hb hp
  have h3 : (b + B * n) % B = b := by rw [Nat.add_mul_mod_self_left, Nat.mod_eq_of_lt hb]
  match ev, hh, j with
  | [], _, j =>
    simp only [compIx, List.map_nil, List.nil_append, offset, Nat.mul_zero, Nat.add_zero]
    rw [before_two hm (by omega), h1, entry_two h2 hn]
  | [D], _, j =>
    have hj : j.val < D := j.2
    simp only [compIx, List.map_cons, List.map_nil, List.cons_append, List.nil_append, offset, Nat.mul_zero, Nat.add_zero]
    rw [before_three hm (by omega), cnt_div_add (fun l => m.val [l % B]) hj (by rw [h3, hp]), h1, entry_cons hj, entry_two h2 hn]
  | _ :: _ :: _, hh, _ => simp at hh

theorem before_total {ev : List ℕ} (hh : ev.length ≤ 1) {B N : ℕ} {m : Mask} (hm : m.shape = [B]) :
    (liftMask ev m).before (ev ++ [B, N]) (ev ++ [B, N]).prod ≤ (ev ++ [cnt (fun l => m.val [l]) B, N]).prod := by
  rcases Nat.eq_zero_or_pos B with rfl | hB
  · simp [Mask.before]
  match ev, hh with
  | [], _ =>
    simp only [List.nil_append, List.prod_cons, List.prod_nil, Nat.mul_one]
    rw [before_two hm hB]
    have := cnt_mod (fun l => m.val [l]) (Nat.zero_le B) N
    rw [Nat.zero_add] at this
    rw [this, cnt_zero, Nat.mul_comm]
    omega
  | [D], _ =>
    simp only [List.cons_append, List.nil_append, List.prod_cons, List.prod_nil, Nat.mul_one]
    rw [before_three hm hB]
    have := cnt_mod (fun l => m.val [l]) (Nat.zero_le B) N
    rw [Nat.zero_add] at this
    rw [cnt_div (fun l => m.val [l % B]) D, this, cnt_zero, Nat.add_zero, Nat.mul_comm N]
  | _ :: _ :: _, hh => simp at hh

theorem lift_shape {ev : List ℕ} (hh : ev.length ≤ 1) {B N : ℕ} {m : Mask} (hm : m.shape = [B]) :
    broadcastShape (liftMask ev m).shape (ev ++ [B, N]) = some (ev ++ [B, N]) := by
  match ev, hh with
  | [], _ =>
    simp only [liftMask, Mask.unsqueeze0, hm]
    simp [broadcastShape]
  | [D], _ =>
    simp only [liftMask, Mask.unsqueeze0, Mask.unsqueeze1, hm]
    simp [broadcastShape]
  | _ :: _ :: _, hh => simp at hh

theorem broadcastShape_prefix : ∀ (s r : List ℕ), broadcastShape (s ++ r) s = some (s ++ r)
  | [], [] => rfl
  | [], _ :: _ => rfl
  | a :: s, r => by
    simp only [List.cons_append, broadcastShape]
    rw [broadcastShape_prefix s r]
    simp

theorem broadcastShape_prefix' : ∀ (s r : List ℕ), broadcastShape s (s ++ r) = some (s ++ r)
  | [], _ => rfl
  | a :: s, r => by
    simp only [List.cons_append, broadcastShape]
    rw [broadcastShape_prefix' s r]
    simp

theorem broadcastIndex_start {s b : List ℕ} (h : InShape s b) (i : List ℕ) : broadcastIndex s (b ++ i) = b := by
  have := broadcastIndex_inShape h [] i
  rw [List.append_nil] at this
  rw [this]
  simp [broadcastIndex]

theorem WeightG.sum0 {N : ℕ} {x : Tensor} {bs : List ℕ} {F : Fin N → List ℕ → ℝ} (hx : WeightG x bs F) :
    x.sum0.shape = bs ∧ ∀ b, InShape bs b → x.sum0.val b = ∑ n, F n b := by
  rw [sum0_of hx.1]
  refine ⟨rfl, fun b hb => ?_⟩
  dsimp only
  rw [← Fin.sum_univ_eq_sum_range (fun k => x.val (b ++ [k]))]
  exact Finset.sum_congr rfl fun n _ => hx.2 n b hb

theorem sum_softmaxOf {N : ℕ} (hN : 0 < N) (W : Fin N → ℝ) : ∑ n, softmaxOf W n = 1 := by
  have : Nonempty (Fin N) := ⟨⟨0, hN⟩⟩
  unfold softmaxOf
  rw [← Finset.sum_div]
  exact div_self (Finset.sum_pos (fun k _ => Real.exp_pos _) Finset.univ_nonempty).ne'

/-- Normalising gives every filter its own normalised weights. -/
theorem normalizeT_ok {N : ℕ} (hN : 0 < N) {w : Tensor} {bs : List ℕ} {W : Fin N → List ℕ → ℝ} (h : WeightG w bs W) :
    ∃ v, normalizeT w = .ok v ∧ WeightG v bs fun n b => softmaxOf (fun k => W k b) n := by
  have e1 := zip_eq (f := (· - ·)) (x := w) (y := w.max0) (r := bs ++ [N]) (s := bs) h.1
    (by unfold Tensor.max0; dsimp only; rw [h.1, List.dropLast_concat]) (broadcastShape_prefix bs [N])
  set d : Tensor := ⟨bs ++ [N], fun i => w.val (broadcastIndex (bs ++ [N]) i) - w.max0.val (broadcastIndex bs i)⟩ with hd
  have e2 : WeightG d.softmax0 bs fun n b => softmaxOf (fun k => W k b) n := by
    refine ⟨rfl, fun n b hb => ?_⟩
    have e (k : Fin N) : d.val (b ++ [k.val]) = W k b - w.max0.val b := by
      rw [hd]
      dsimp only
      rw [broadcastIndex_self (inShape_concat hb k), broadcastIndex_start hb, h.2 k b hb]
    unfold Tensor.softmax0
    dsimp only
    rw [List.dropLast_concat, show d.shape = bs ++ [N] from rfl, getLastD_concat,
      ← Fin.sum_univ_eq_sum_range (fun k => Real.exp (d.val (b ++ [k])))]
    simp only [e, Real.exp_sub]
    unfold softmaxOf
    rw [← Finset.sum_div, div_div_div_cancel_right₀ (Real.exp_pos _).ne']
  have e3 := e2.sum0
  unfold normalizeT
  simp only [e1, ok_bind]
  unfold Tensor.maskedFill
  rw [if_pos (by dsimp only; rw [e3.1, e2.1]; exact broadcastShape_prefix' bs [N])]
  refine ⟨_, rfl, e2.1, fun n b hb => ?_⟩
  dsimp only
  unfold Mask.expanded
  dsimp only
  refine (if_neg ?_).trans (e2.2 n b hb)
  rw [e3.1, broadcastIndex_start hb, e3.2 b hb, sum_softmaxOf hN]
  simp

theorem nonzero_batch {B : ℕ} {m : Mask} (hm : m.shape = [B]) : m.nonzero = (List.range B).filter fun l => m.val [l] := by
  unfold Mask.nonzero
  rw [hm]

/-- `masked_scatter` for a batch of filters. -/
theorem scatter_batch {α : Type} {ev : List ℕ} (hh : ev.length ≤ 1) {B N : ℕ} {m : Mask} (hm : m.shape = [B]) (val src : List ℕ → α) :
    ∃ v, maskedScatter (ev ++ [B, N]) val (liftMask ev m) (ev ++ [cnt (fun l => m.val [l]) B, N]) src = .ok v ∧
      ∀ b < B, ∀ n < N, ∀ j : Fin (dim ev), v (compIx ev j.val ++ [b, n]) =
        if m.val [b] then src (compIx ev j.val ++ [cnt (fun l => m.val [l]) b, n]) else val (compIx ev j.val ++ [b, n]) := by
  refine ⟨_, if_pos ⟨lift_shape hh hm, before_total hh hm⟩, fun b hb n hn j => ?_⟩
  rw [expanded_lift hh hm hb]
  by_cases hp : m.val [b] = true
  · rw [if_pos hp, if_pos hp, scatter_entry hh hm hb hn hp j]
  · rw [if_neg hp, if_neg hp]

/-- `masked_fill` for a batch of filters. -/
theorem fill_batch {B N : ℕ} {m : Mask} (hm : m.shape = [B]) {x : Tensor} (hx : x.shape = [B, N]) (c : ℝ) :
    ∃ v, x.maskedFill m.unsqueeze0 c = .ok v ∧ v.shape = [B, N] ∧
      ∀ b < B, ∀ n, v.val [b, n] = if m.val [b] then c else x.val [b, n] := by
  refine ⟨_, if_pos (by rw [hx]; exact lift_shape (ev := []) (by simp) hm), hx, fun b hb n => ?_⟩
  dsimp only
  have := expanded_lift (ev := []) (by simp) (a := 0) (n := n) hm hb
  have e : m.unsqueeze0.expanded [b, n] = m.val [b] := this
  rw [e]

/-- `x[indices, mask]` for a batch of filters. -/
theorem pick_batch {ev : List ℕ} (hh : ev.length ≤ 1) {B N : ℕ} {m : Mask} (hm : m.shape = [B]) {x : Tensor} (hx : x.shape = ev ++ [B, N])
    {idx : Index} (hi : idx.shape = [cnt (fun l => m.val [l]) B, N])
    (hlt : ∀ k < cnt (fun l => m.val [l]) B, ∀ n < N, idx.val [k, n] < N) :
    ∃ v, x.pick idx m = .ok v ∧ v.shape = ev ++ [cnt (fun l => m.val [l]) B, N] ∧
      ∀ b < B, m.val [b] = true → ∀ n, ∀ j : Fin (dim ev), v.val (compIx ev j.val ++ [cnt (fun l => m.val [l]) b, n]) =
        x.val (compIx ev j.val ++ [b, idx.val [cnt (fun l => m.val [l]) b, n]]) := by
  have e1 : x.shape.take (x.shape.length - 1 - m.shape.length) = ev := by
    rw [hx, hm]
    simp
  have e2 : x.shape = (ev ++ [B]) ++ [N] := by rw [hx]; simp
  have e3 : m.nonzero.length = cnt (fun l => m.val [l]) B := by rw [nonzero_batch hm]; rfl
  unfold Tensor.pick
  simp only [e1]
  refine ⟨_, if_pos ⟨?_, ?_, ?_⟩, by rw [hi], fun b hb hp n j => ?_⟩
  · have e4 : ev.length = (compIx ev j.val).length := (compIx_length ev j.val).symm
    dsimp only
    rw [e4, List.take_left, List.drop_left, hm, nonzero_batch hm]
    simp only [List.headD_cons, List.map_cons, List.map_nil]
    rw [filter_getD hb hp]
    rfl
  · rw [e1, e2, List.dropLast_concat, hm]
  · rw [hi, e3]
    rfl
  · intro j hj
    rw [hi] at hj
    rw [e2, getLastD_concat]
    cases hj with
    | cons h1 h2 =>
      obtain ⟨n, rfl, hn⟩ := inShape_one.1 h2
      exact hlt _ h1 n hn

theorem before_all {m : Mask} (h : ∀ i, m.expanded i = true) (shape : List ℕ) (k : ℕ) : m.before shape k = k := by
  unfold Mask.before
  simp [h]

theorem lift_single {ev : List ℕ} {m : Mask} (hm : m.shape = []) (i : List ℕ) : (liftMask ev m).expanded i = m.val [] := by
  unfold liftMask
  split_ifs
  · simp [Mask.expanded, Mask.unsqueeze0, Mask.unsqueeze1, hm, broadcastIndex]
  · simp [Mask.expanded, Mask.unsqueeze0, hm, broadcastIndex]

/-- `masked_scatter` for a single filter that is resampled. -/
theorem scatter_single {α : Type} {ev : List ℕ} (hh : ev.length ≤ 1) {N : ℕ} {m : Mask} (hm : m.shape = []) (ht : m.val [] = true)
    (val src : List ℕ → α) :
    ∃ v, maskedScatter (ev ++ [N]) val (liftMask ev m) (ev ++ [1, N]) src = .ok v ∧
      ∀ n < N, ∀ j : Fin (dim ev), v (compIx ev j.val ++ [n]) = src (compIx ev j.val ++ [0, n]) := by
  have hall : ∀ i, (liftMask ev m).expanded i = true := fun i => by rw [lift_single hm, ht]
  refine ⟨_, if_pos ⟨?_, ?_⟩, fun n hn j => ?_⟩
  · rw [if_pos (hall _), before_all hall]
    congr 1
    match ev, hh, j with
    | [], _, j => simp [compIx, offset, entry, Nat.mod_one, Nat.mod_eq_of_lt hn]
    | [D], _, j =>
      have hj : j.val < D := j.2
      simp only [compIx, List.map_cons, List.map_nil, List.cons_append, List.nil_append, offset, Nat.mul_zero, Nat.add_zero]
      rw [entry_cons hj]
      simp [entry, Nat.mod_one, Nat.mod_eq_of_lt hn]
    | _ :: _ :: _, hh, _ => simp at hh
  · match ev, hh with
    | [], _ => simp [liftMask, Mask.unsqueeze0, hm, broadcastShape]
    | [D], _ => simp [liftMask, Mask.unsqueeze0, Mask.unsqueeze1, hm, broadcastShape]
    | _ :: _ :: _, hh => simp at hh
  · rw [before_all hall]
    simp

/-- `x[indices, mask]` for a single filter that is resampled. -/
theorem pick_single {ev : List ℕ} {N : ℕ} {m : Mask} (hm : m.shape = []) (ht : m.val [] = true) {x : Tensor}
    (hx : x.shape = ev ++ [N]) {idx : Index} (hi : idx.shape = [1, N]) (hlt : ∀ n < N, idx.val [0, n] < N) :
    ∃ v, x.pick idx m = .ok v ∧ v.shape = ev ++ [1, N] ∧
      ∀ n, ∀ j : Fin (dim ev), v.val (compIx ev j.val ++ [0, n]) = x.val (compIx ev j.val ++ [idx.val [0, n]]) := by
  have e1 : x.shape.take (x.shape.length - 1 - m.shape.length) = ev := by
    rw [hx, hm]
    simp
  unfold Tensor.pick
  simp only [e1]
  refine ⟨_, if_pos ⟨?_, ?_, ?_⟩, by rw [hi], fun n j => ?_⟩
  · have e4 : ev.length = (compIx ev j.val).length := (compIx_length ev j.val).symm
    dsimp only
    rw [e4, List.take_left, List.drop_left, hm]
    rfl
  · rw [e1, hx, List.dropLast_concat, hm, List.append_nil]
  · rw [hi]
    unfold Mask.nonzero
    rw [hm]
    simp [ht]
  · intro j hj
    rw [hi] at hj
    rw [hx, getLastD_concat]
    cases hj with
    | cons h1 h2 =>
      obtain ⟨n, rfl, hn⟩ := inShape_one.1 h2
      rw [Nat.lt_one_iff.1 h1]
      exact hlt n hn

end Verif.Torch
