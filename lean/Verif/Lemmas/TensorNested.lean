import Verif.Model.TensorNested
import Verif.Lemmas.TensorPyro

/-!
# Lemmas about the nested proposal on tensors
-/

namespace Verif.Torch

theorem getLastD_concat (s : List ℕ) (n : ℕ) : (s ++ [n]).getLastD 0 = n := by
  rw [List.getLastD_eq_getLast?, List.getLast?_concat]
  rfl

/-- Taking one of `M` samples for every particle. -/
theorem takeAlong_ok {N M : ℕ} {x : Tensor} {ev bs : List ℕ} (hh : ev.length ≤ 1) {V : ℕ → Fin N → List ℕ → Fin (dim ev) → ℝ}
    (hx : x.shape = ev ++ (bs ++ [N, M]))
    (hv : ∀ m < M, ∀ (n : Fin N) b, InShape bs b → ∀ j, x.val (compIx ev j.val ++ (b ++ [n.val, m])) = V m n b j)
    {idx : Index} {K : Fin N → List ℕ → ℕ} (hi : idx.shape = bs ++ [N])
    (hk : ∀ (n : Fin N) b, InShape bs b → idx.val (b ++ [n.val]) = K n b) (hlt : ∀ (n : Fin N) b, InShape bs b → K n b < M) :
    ∃ z, x.takeAlong0 (if ev.length > 0 then idx.unsqueeze1 else idx).unsqueeze0 = .ok z ∧
      PartG z.squeeze0 ev bs fun n b => V (K n b) n b := by
  have ex : x.shape = (ev ++ (bs ++ [N])) ++ [M] := by rw [hx]; simp
  have bnd : ∀ b, InShape (bs ++ [N]) b → idx.val b < M := by
    intro b hb
    obtain ⟨b, c, rfl, h1, h2⟩ := inShape_append.1 hb
    obtain ⟨n, rfl, hn⟩ := inShape_one.1 h2
    have := hk ⟨n, hn⟩ b h1
    dsimp only at this
    rw [this]
    exact hlt _ b h1
  match ev, hh, V, hx, hv, ex with
  | [], _, V, hx, hv, ex =>
    have e0 : (if ([] : List ℕ).length > 0 then idx.unsqueeze1 else idx) = idx := rfl
    refine ⟨⟨(bs ++ [N]) ++ [1], fun i => x.val (broadcastIndex (bs ++ [N]) i.dropLast ++
          [idx.unsqueeze0.val (broadcastIndex (bs ++ [N]) i.dropLast ++ [i.getLastD 0])])⟩, ?_, ?_⟩
    · unfold Tensor.takeAlong0
      rw [e0, ex]
      have e1 : idx.unsqueeze0.shape = (bs ++ [N]) ++ [1] := by unfold Index.unsqueeze0; rw [hi]
      rw [e1]
      simp only [List.nil_append, List.dropLast_concat, getLastD_concat]
      rw [if_pos (by simp), broadcastShape_self]
      refine if_pos fun i hi' => ?_
      obtain ⟨b, c, rfl, h1, h2⟩ := inShape_append.1 hi'
      obtain ⟨n, rfl, hn⟩ := inShape_one.1 h2
      unfold Index.unsqueeze0
      dsimp only
      rw [List.dropLast_concat, getLastD_concat]
      exact bnd b h1
    · unfold Tensor.squeeze0
      dsimp only
      rw [getLastD_concat, if_pos rfl, List.dropLast_concat]
      refine ⟨rfl, fun n b hb j => ?_⟩
      dsimp only
      have e2 : compIx [] j.val ++ (b ++ [n.val]) ++ [0] = (b ++ [n.val]) ++ [0] := rfl
      rw [e2, List.dropLast_concat, getLastD_concat, broadcastIndex_self (inShape_concat hb n)]
      unfold Index.unsqueeze0
      dsimp only
      rw [List.dropLast_concat, hk n b hb, ← hv _ (hlt n b hb) n b hb j]
      simp [compIx]
  | [d], _, V, hx, hv, ex =>
    have e0 : (if [d].length > 0 then idx.unsqueeze1 else idx) = idx.unsqueeze1 := rfl
    have bs1 : broadcastShape (d :: (bs ++ [N])) (1 :: (bs ++ [N])) = some (d :: (bs ++ [N])) := by
      unfold broadcastShape
      rw [broadcastShape_self, if_pos (by simp)]
      by_cases h : d = 1 <;> simp [h]
    refine ⟨⟨(d :: (bs ++ [N])) ++ [1], fun i => x.val (broadcastIndex (d :: (bs ++ [N])) i.dropLast ++
          [idx.unsqueeze1.unsqueeze0.val (broadcastIndex (1 :: (bs ++ [N])) i.dropLast ++ [i.getLastD 0])])⟩, ?_, ?_⟩
    · unfold Tensor.takeAlong0
      rw [e0, ex]
      have e1 : idx.unsqueeze1.unsqueeze0.shape = (1 :: (bs ++ [N])) ++ [1] := by
        unfold Index.unsqueeze0 Index.unsqueeze1
        dsimp only
        rw [hi]
      rw [e1]
      simp only [List.singleton_append, List.dropLast_concat, getLastD_concat]
      rw [if_pos (by simp), bs1]
      refine if_pos fun i hi' => ?_
      obtain ⟨b, c, rfl, h1, h2⟩ := inShape_append.1 hi'
      obtain ⟨n, rfl, hn⟩ := inShape_one.1 h2
      unfold Index.unsqueeze0 Index.unsqueeze1
      dsimp only
      rw [List.dropLast_concat, getLastD_concat]
      cases h1 with
      | cons _ h3 => exact bnd _ h3
    · unfold Tensor.squeeze0
      dsimp only
      rw [getLastD_concat, if_pos rfl, List.dropLast_concat]
      refine ⟨rfl, fun n b hb j => ?_⟩
      dsimp only
      have e2 : compIx [d] j.val ++ (b ++ [n.val]) ++ [0] = (j.val :: (b ++ [n.val])) ++ [0] := rfl
      rw [e2, List.dropLast_concat, getLastD_concat, broadcastIndex_cons (show j.val < d from j.2), broadcastIndex_self (inShape_concat hb n)]
      have e3 : broadcastIndex (1 :: (bs ++ [N])) (j.val :: (b ++ [n.val])) = 0 :: (b ++ [n.val]) := by
        show 0 :: broadcastIndex (bs ++ [N]) (b ++ [n.val]) = _
        rw [broadcastIndex_self (inShape_concat hb n)]
      rw [e3]
      unfold Index.unsqueeze0 Index.unsqueeze1
      dsimp only
      rw [List.dropLast_concat, List.tail_cons, hk n b hb, ← hv _ (hlt n b hb) n b hb j]
      simp [compIx]
  | _ :: _ :: _, hh, _, _, _, _ => simp at hh

end Verif.Torch
