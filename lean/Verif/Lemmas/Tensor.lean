import Verif.Model.Tensor

/-!
# Lemmas about tensors with shapes

A tensor whose last dimensions are a vector or a matrix is read at an index of the batch by broadcasting.
-/

namespace Verif.Torch

open Matrix

/-- A shape that can be broadcast to another one. -/
def Sub : List ℕ → List ℕ → Prop
  | [], _ => True
  | _ :: _, [] => False
  | a :: r, b :: S => (a = b ∨ a = 1) ∧ Sub r S

theorem Sub.refl : ∀ r, Sub r r
  | [] => trivial
  | _ :: r => ⟨Or.inl rfl, Sub.refl r⟩

theorem Sub.trans : ∀ {r s t}, Sub r s → Sub s t → Sub r t
  | [], _, _, _, _ => trivial
  | a :: r, [], _, h, _ => h.elim
  | a :: r, b :: s, [], _, h => h.elim
  | a :: r, b :: s, c :: t, h, g => by
    refine ⟨?_, Sub.trans h.2 g.2⟩
    rcases h.1 with rfl | h1
    · exact g.1
    · exact Or.inr h1

theorem broadcastIndex_trans : ∀ {r s}, Sub r s → ∀ i, broadcastIndex r (broadcastIndex s i) = broadcastIndex r i
  | [], _, _, _ => rfl
  | a :: r, [], h, _ => h.elim
  | a :: r, b :: s, h, i => by
    simp only [broadcastIndex, List.headD_cons, List.tail_cons]
    rw [broadcastIndex_trans h.2]
    congr 1
    rcases h.1 with rfl | h1
    · split_ifs <;> rfl
    · simp [h1]

theorem broadcastIndex_cons {a i : ℕ} (h : i < a) (r s : List ℕ) : broadcastIndex (a :: r) (i :: s) = i :: broadcastIndex r s := by
  simp only [broadcastIndex, List.headD_cons, List.tail_cons]
  congr 1
  split_ifs with h1
  · omega
  · rfl

theorem broadcastShape_sub : ∀ {r s S}, Sub r S → Sub s S → ∃ t, broadcastShape r s = some t ∧ Sub r t ∧ Sub s t ∧ Sub t S
  | [], s, _, _, h => ⟨s, rfl, trivial, Sub.refl s, h⟩
  | a :: r, [], _, h, _ => ⟨a :: r, rfl, Sub.refl _, trivial, h⟩
  | a :: r, b :: s, [], h, _ => h.elim
  | a :: r, b :: s, c :: S, h, g => by
    obtain ⟨t, h1, h2, h3, h4⟩ := broadcastShape_sub h.2 g.2
    have hab : a = b ∨ a = 1 ∨ b = 1 := by
      rcases h.1 with rfl | h5
      · rcases g.1 with rfl | h6
        · exact Or.inl rfl
        · exact Or.inr (Or.inr h6)
      · exact Or.inr (Or.inl h5)
    refine ⟨(if a = 1 then b else a) :: t, by simp [broadcastShape, hab, h1], ⟨?_, h2⟩, ⟨?_, h3⟩, ⟨?_, h4⟩⟩
    · split_ifs with h5
      · exact Or.inr h5
      · exact Or.inl rfl
    · split_ifs with h5
      · exact Or.inl rfl
      · rcases hab with h6 | h6 | h6
        · exact Or.inl h6.symm
        · exact absurd h6 h5
        · exact Or.inr h6
    · split_ifs with h5
      · exact g.1
      · exact h.1

theorem Sub.antisymm : ∀ {r s}, Sub r s → Sub s r → r = s
  | [], [], _, _ => rfl
  | [], _ :: _, _, h => h.elim
  | _ :: _, [], h, _ => h.elim
  | a :: r, b :: s, h, g => by
    rw [Sub.antisymm h.2 g.2]
    congr 1
    rcases h.1 with h1 | h1
    · exact h1
    · rcases g.1 with h2 | h2
      · exact h2.symm
      · rw [h1, h2]

/-- A tensor of vectors. -/
def Reads1 (t : Tensor) (n : ℕ) (r : List ℕ) (F : List ℕ → Fin n → ℝ) : Prop :=
  t.shape = n :: r ∧ ∀ s (j : Fin n), t.val (j :: broadcastIndex r s) = F s j

/-- A tensor of matrices. -/
def Reads2 (t : Tensor) (m n : ℕ) (r : List ℕ) (F : List ℕ → Matrix (Fin m) (Fin n) ℝ) : Prop :=
  t.shape = n :: m :: r ∧ ∀ s (i : Fin m) (j : Fin n), t.val (j :: i :: broadcastIndex r s) = F s i j

/-- A tensor of numbers. -/
def Reads0 (t : Tensor) (r : List ℕ) (F : List ℕ → ℝ) : Prop :=
  t.shape = r ∧ ∀ s, t.val (broadcastIndex r s) = F s

theorem zip_eq {f : ℝ → ℝ → ℝ} {x y : Tensor} {r s t : List ℕ} (hx : x.shape = r) (hy : y.shape = s) (h : broadcastShape r s = some t) :
    Tensor.zip f x y = .ok ⟨t, fun i => f (x.val (broadcastIndex r i)) (y.val (broadcastIndex s i))⟩ := by
  subst hx hy
  unfold Tensor.zip
  rw [h]

theorem zip_reads0 {f : ℝ → ℝ → ℝ} {x y : Tensor} {r s S F G} (hx : Reads0 x r F) (hy : Reads0 y s G) (hr : Sub r S) (hs : Sub s S) :
    ∃ z t, Tensor.zip f x y = .ok z ∧ Sub r t ∧ Sub s t ∧ Sub t S ∧ Reads0 z t fun i => f (F i) (G i) := by
  obtain ⟨t, h1, h2, h3, h4⟩ := broadcastShape_sub hr hs
  refine ⟨_, t, zip_eq hx.1 hy.1 h1, h2, h3, h4, rfl, fun i => ?_⟩
  dsimp only
  rw [broadcastIndex_trans h2, broadcastIndex_trans h3, hx.2, hy.2]

theorem zip_reads1 {f : ℝ → ℝ → ℝ} {x y : Tensor} {n : ℕ} {r s S F G} (hx : Reads1 x n r F) (hy : Reads1 y n s G) (hr : Sub r S)
    (hs : Sub s S) : ∃ z t, Tensor.zip f x y = .ok z ∧ Sub r t ∧ Sub s t ∧ Sub t S ∧ Reads1 z n t fun i j => f (F i j) (G i j) := by
  obtain ⟨t, h1, h2, h3, h4⟩ := broadcastShape_sub hr hs
  refine ⟨_, t, zip_eq (t := n :: t) hx.1 hy.1 (by simp [broadcastShape, h1]), h2, h3, h4, rfl, fun i j => ?_⟩
  dsimp only
  rw [broadcastIndex_cons j.2, broadcastIndex_cons j.2, broadcastIndex_trans h2, broadcastIndex_trans h3, hx.2, hy.2]

theorem zip_reads2 {f : ℝ → ℝ → ℝ} {x y : Tensor} {m n : ℕ} {r s S F G} (hx : Reads2 x m n r F) (hy : Reads2 y m n s G) (hr : Sub r S)
    (hs : Sub s S) :
    ∃ z t, Tensor.zip f x y = .ok z ∧ Sub r t ∧ Sub s t ∧ Sub t S ∧ Reads2 z m n t fun i => of fun u v => f (F i u v) (G i u v) := by
  obtain ⟨t, h1, h2, h3, h4⟩ := broadcastShape_sub hr hs
  refine ⟨_, t, zip_eq (t := n :: m :: t) hx.1 hy.1 (by simp [broadcastShape, h1]), h2, h3, h4, rfl, fun i u v => ?_⟩
  dsimp only
  rw [broadcastIndex_cons v.2, broadcastIndex_cons u.2, broadcastIndex_cons v.2, broadcastIndex_cons u.2, broadcastIndex_trans h2,
    broadcastIndex_trans h3, hx.2, hy.2]
  rfl

theorem matmul_eq {x y : Tensor} {n k m : ℕ} {r s t : List ℕ} (hx : x.shape = k :: n :: r) (hy : y.shape = m :: k :: s)
    (h : broadcastShape r s = some t) : x.matmul y = .ok ⟨m :: n :: t, fun i =>
      ∑ l : Fin k, x.val (l :: i.tail.headD 0 :: broadcastIndex r i.tail.tail) *
        y.val (i.headD 0 :: l :: broadcastIndex s i.tail.tail)⟩ := by
  obtain ⟨xs, xv⟩ := x
  obtain ⟨ys, yv⟩ := y
  subst hx hy
  simp [Tensor.matmul, h]

theorem matmul_reads {x y : Tensor} {n k m : ℕ} {r s S F G} (hx : Reads2 x n k r F) (hy : Reads2 y k m s G) (hr : Sub r S)
    (hs : Sub s S) : ∃ z t, x.matmul y = .ok z ∧ Sub r t ∧ Sub s t ∧ Sub t S ∧ Reads2 z n m t fun i => F i * G i := by
  obtain ⟨t, h1, h2, h3, h4⟩ := broadcastShape_sub hr hs
  refine ⟨_, t, matmul_eq hx.1 hy.1 h1, h2, h3, h4, rfl, fun i u v => ?_⟩
  dsimp only [List.headD_cons, List.tail_cons]
  rw [broadcastIndex_trans h2, broadcastIndex_trans h3, Matrix.mul_apply]
  exact Finset.sum_congr rfl fun l _ => by rw [hx.2, hy.2]

theorem matvec_reads {x y : Tensor} {n k : ℕ} {r F} {G : Fin k → ℝ} (hx : Reads2 x n k r F) (hy : y.shape = [k])
    (hG : ∀ j : Fin k, y.val [j.val] = G j) : ∃ z, x.matmul y = .ok z ∧ Reads1 z n r fun i => F i *ᵥ G := by
  have e : x.matmul y = .ok ⟨n :: r, fun i => ∑ l : Fin k, x.val (l :: i) * y.val [l.val]⟩ := by
    obtain ⟨xs, xv⟩ := x
    obtain ⟨ys, yv⟩ := y
    obtain ⟨h, -⟩ := hx
    subst h hy
    simp [Tensor.matmul]
  refine ⟨_, e, rfl, fun i u => ?_⟩
  show ∑ l : Fin k, x.val (l :: u :: broadcastIndex r i) * y.val [l.val] = ∑ l, F i u l * G l
  exact Finset.sum_congr rfl fun l _ => by rw [hx.2, hG]

theorem matvec_error {x y : Tensor} {n k q B : ℕ} {r r' : List ℕ} (hx : x.shape = k :: n :: r) (hy : y.shape = q :: B :: r')
    (h : k ≠ B) : x.matmul y = .error .runtimeError := by
  obtain ⟨xs, xv⟩ := x
  obtain ⟨ys, yv⟩ := y
  subst hx hy
  simp [Tensor.matmul, h]

theorem transpose_reads {x : Tensor} {m n : ℕ} {r F} (hx : Reads2 x m n r F) :
    ∃ z, x.transpose = .ok z ∧ Reads2 z n m r fun i => (F i)ᵀ := by
  obtain ⟨xs, xv⟩ := x
  obtain ⟨h, hx⟩ := hx
  subst h
  exact ⟨_, rfl, rfl, fun i u v => hx i v u⟩

theorem inverse_reads {x : Tensor} {n : ℕ} {r F} (hx : Reads2 x n n r F) :
    ∃ z, x.inverse = .ok z ∧ Reads2 z n n r fun i => (F i)⁻¹ := by
  have e : x.inverse = .ok ⟨n :: n :: r, fun i =>
        if h : i.tail.headD 0 < n ∧ i.headD 0 < n then
          (of fun (u v : Fin n) => x.val (v :: u :: i.tail.tail))⁻¹ ⟨i.tail.headD 0, h.1⟩ ⟨i.headD 0, h.2⟩
        else 0⟩ := by
    obtain ⟨xs, xv⟩ := x
    obtain ⟨h, -⟩ := hx
    subst h
    simp [Tensor.inverse]
  refine ⟨_, e, rfl, fun i u v => ?_⟩
  refine (dif_pos ⟨u.2, v.2⟩).trans ?_
  show (of fun (u v : Fin n) => x.val (v :: u :: broadcastIndex r i))⁻¹ u v = (F i)⁻¹ u v
  have e : (of fun (u v : Fin n) => x.val (v :: u :: broadcastIndex r i)) = F i := by
    ext u v
    exact hx.2 i u v
  rw [e]

theorem column_reads {x : Tensor} {n : ℕ} {r F} (hx : Reads1 x n r F) :
    Reads2 x.unsqueeze1 n 1 r fun i => of fun u _ => F i u :=
  ⟨by show 1 :: x.shape = _; rw [hx.1], fun i u _ => hx.2 i u⟩

theorem squeeze_reads {x : Tensor} {n : ℕ} {r F} (hx : Reads2 x n 1 r F) : Reads1 x.squeeze1 n r fun i u => F i u 0 := by
  obtain ⟨xs, xv⟩ := x
  obtain ⟨h, hx⟩ := hx
  subst h
  exact ⟨rfl, fun i u => hx i u 0⟩

theorem squeeze_reads1 {x : Tensor} {r F} (hx : Reads1 x 1 r F) : Reads0 x.squeeze1 r fun i => F i 0 := by
  obtain ⟨xs, xv⟩ := x
  obtain ⟨h, hx⟩ := hx
  subst h
  exact ⟨rfl, fun i => hx i 0⟩

theorem point_reads {x : Tensor} {r F} (hx : Reads0 x r F) : Reads1 x.unsqueeze1 1 r fun i _ => F i :=
  ⟨by show 1 :: x.shape = _; rw [hx.1], fun i _ => hx.2 i⟩

theorem row_reads {x : Tensor} {n : ℕ} {r F} (hx : Reads1 x n r F) :
    ∃ z, x.unsqueeze2 = .ok z ∧ Reads2 z 1 n r fun i => of fun _ v => F i v := by
  obtain ⟨xs, xv⟩ := x
  obtain ⟨h, hx⟩ := hx
  subst h
  exact ⟨_, rfl, rfl, fun i _ v => hx i v⟩

theorem map_reads0 {x : Tensor} {r F} (f : ℝ → ℝ) (hx : Reads0 x r F) : Reads0 (x.map f) r fun i => f (F i) :=
  ⟨hx.1, fun i => congrArg f (hx.2 i)⟩

theorem map_reads1 {x : Tensor} {n : ℕ} {r F} (f : ℝ → ℝ) (hx : Reads1 x n r F) : Reads1 (x.map f) n r fun i j => f (F i j) :=
  ⟨hx.1, fun i j => congrArg f (hx.2 i j)⟩

theorem corner_reads {x : Tensor} {r F} (hx : Reads2 x 1 1 r F) : Reads0 x.corner r fun i => F i 0 0 := by
  obtain ⟨xs, xv⟩ := x
  obtain ⟨h, hx⟩ := hx
  subst h
  exact ⟨rfl, fun i => hx i 0 0⟩

theorem diag_reads0 {x : Tensor} {r F} (hx : Reads0 x r F) :
    ∃ z, x.constructDiag [] = .ok z ∧ Reads2 z 1 1 r fun i => Verif.constructDiag fun _ => F i := by
  refine ⟨_, (if_pos (Nat.zero_le _)).trans (zip_eq (r := [1, 1]) (t := 1 :: 1 :: r) (s := 1 :: 1 :: r) rfl
    (by show 1 :: 1 :: x.shape = _; rw [hx.1]) (by simp [broadcastShape])), rfl, fun i u v => ?_⟩
  have hu := Subsingleton.elim u 0
  have hv := Subsingleton.elim v 0
  subst hu hv
  have h := hx.2 i
  simp [broadcastIndex, Verif.constructDiag, broadcastIndex_trans (Sub.refl r), h, Tensor.eye, Tensor.unsqueeze1]

theorem diag_reads1 {x : Tensor} {n : ℕ} {r F} (hx : Reads1 x n r F) :
    ∃ z, x.constructDiag [n] = .ok z ∧ Reads2 z n n r fun i => Verif.constructDiag (F i) := by
  refine ⟨_, zip_eq (r := [n, n]) (t := n :: n :: r) (s := 1 :: n :: r) (by simp [Tensor.eye])
    (by show 1 :: x.shape = _; rw [hx.1]) (by
      simp only [broadcastShape]
      by_cases h : n = 1
      · subst h; simp
      · simp [h]), rfl, fun i u v => ?_⟩
  have h := hx.2 i u
  dsimp only
  rw [broadcastIndex_cons v.2, broadcastIndex_cons u.2]
  have e : broadcastIndex (1 :: n :: r) (v.val :: u.val :: broadcastIndex r i) = 0 :: u.val :: broadcastIndex r i := by
    rw [broadcastIndex, List.tail_cons, broadcastIndex_cons u.2, broadcastIndex_trans (Sub.refl r)]
    rfl
  rw [e]
  show _ * x.val (u.val :: broadcastIndex r i) = _
  rw [h]
  simp [Tensor.eye, Verif.constructDiag, Fin.ext_iff]

end Verif.Torch
