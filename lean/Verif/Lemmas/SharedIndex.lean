import Verif.Model.SharedIndex

/-!
# Lemmas about index tensors with shared columns
-/

namespace Verif

variable {B N : ℕ}

/-- Whether an operation makes a new index tensor. -/
def IndexOp.Makes : IndexOp B N → Prop
  | .sisr low _ => ∃ b, low b = true
  | .apf _ => True
  | .gpf => False
  | .select _ => True
  | .exchange _ _ => False

/-- Columns of their own. -/
def OwnCols (t : IndexCols B) : Prop := Function.Injective t

/-- One column for all filters. -/
def OneCol (t : IndexCols B) : Prop := ∀ b c, t b = t c

theorem fresh_own (s : IndexStore N) (v : Fin B → Fin N → ℕ) : OwnCols (s.fresh v).2 := by
  intro b c h
  have : s.next + b.val = s.next + c.val := h
  exact Fin.ext (by omega)

theorem fresh_read (s : IndexStore N) (v : Fin B → Fin N → ℕ) (b : Fin B) : (s.fresh v).1.read (s.fresh v).2 b = v b := by
  have h := b.2
  unfold IndexStore.read IndexStore.fresh
  dsimp only
  rw [dif_pos ⟨by omega, by omega⟩]
  congr 1
  exact Fin.ext (by simp)

theorem apply_makes (p : IndexStore N × IndexCols B) {o : IndexOp B N} (h : o.Makes) : OwnCols (o.apply p).2 := by
  cases o with
  | sisr low chosen =>
    obtain ⟨b, hb⟩ := h
    unfold IndexOp.apply IndexStore.sisr
    have : (List.finRange B).any low = true := List.any_eq_true.2 ⟨b, List.mem_finRange b, hb⟩
    simp only [this, Bool.not_true, Bool.false_eq_true, if_false]
    exact fresh_own _ _
  | apf chosen => exact fresh_own _ _
  | gpf => exact h.elim
  | select indices => exact fresh_own _ _
  | exchange other mask => exact h.elim

theorem apply_keeps (p : IndexStore N × IndexCols B) {o : IndexOp B N} (h : ¬ o.Makes) : (o.apply p).2 = p.2 := by
  cases o with
  | sisr low chosen =>
    unfold IndexOp.apply IndexStore.sisr
    have : (List.finRange B).any low = false := by
      rw [Bool.eq_false_iff]
      intro ha
      obtain ⟨b, -, hb⟩ := List.any_eq_true.1 ha
      exact h ⟨b, hb⟩
    simp only [this, Bool.not_false, if_true]
  | apf chosen => exact (h trivial).elim
  | gpf => rfl
  | select indices => exact (h trivial).elim
  | exchange other mask => rfl

theorem foldl_own (ops : List (IndexOp B N)) : ∀ p : IndexStore N × IndexCols B, (OwnCols p.2 ∨ ∃ o ∈ ops, o.Makes) →
    OwnCols (ops.foldl IndexOp.apply p).2 := by
  induction ops with
  | nil =>
    rintro p (h | ⟨o, ho, -⟩)
    · exact h
    · cases ho
  | cons o ops ih =>
    intro p h
    refine ih _ ?_
    by_cases hm : o.Makes
    · exact .inl (apply_makes p hm)
    · rcases h with h | ⟨q, hq, hq'⟩
      · left
        rw [apply_keeps p hm]
        exact h
      · rcases List.mem_cons.1 hq with rfl | hq
        · exact (hm hq').elim
        · exact .inr ⟨q, hq, hq'⟩

theorem foldl_one (ops : List (IndexOp B N)) : ∀ p : IndexStore N × IndexCols B, (∀ o ∈ ops, ¬ o.Makes) →
    (ops.foldl IndexOp.apply p).2 = p.2 := by
  induction ops with
  | nil => intro p _; rfl
  | cons o ops ih =>
    intro p h
    rw [List.foldl_cons, ih _ fun q hq => h q (by simp [hq]), apply_keeps p (h o (by simp))]

theorem writes_other {t : IndexCols B} {other : Fin B → Fin N → ℕ} {mask : Fin B → Bool} {a : ℕ} (l : List (Fin B)) :
    ∀ c : ℕ → Fin N → ℕ, (∀ b ∈ l, mask b = true → t b ≠ a) →
      l.foldl (fun c b => if mask b then Function.update c (t b) (other b) else c) c a = c a := by
  induction l with
  | nil => intro c _; rfl
  | cons b l ih =>
    intro c h
    rw [List.foldl_cons, ih _ fun q hq => h q (by simp [hq])]
    by_cases hb : mask b = true
    · rw [if_pos hb, Function.update_of_ne (h b (by simp) hb).symm]
    · rw [if_neg hb]

theorem writes_last {t : IndexCols B} {other : Fin B → Fin N → ℕ} {mask : Fin B → Bool} {b : Fin B} (l r : List (Fin B))
    (c : ℕ → Fin N → ℕ) (hb : mask b = true) (hr : ∀ q ∈ r, mask q = true → t q ≠ t b) :
      (l ++ b :: r).foldl (fun c b => if mask b then Function.update c (t b) (other b) else c) c (t b) = other b := by
  rw [List.foldl_append, List.foldl_cons, writes_other r _ hr, if_pos hb, Function.update_self]

/-- An exchange into a tensor with columns of its own. -/
theorem exchange_own (s : IndexStore N) {t : IndexCols B} (ht : OwnCols t) (other : Fin B → Fin N → ℕ) (mask : Fin B → Bool)
    (b : Fin B) : (s.exchange t other mask).read t b = if mask b then other b else s.read t b := by
  unfold IndexStore.read IndexStore.exchange
  dsimp only
  by_cases hb : mask b = true
  · rw [if_pos hb]
    obtain ⟨l, r, e⟩ := List.append_of_mem (List.mem_finRange b)
    have nd : (l ++ b :: r).Nodup := e ▸ List.nodup_finRange B
    rw [e]
    refine writes_last l r _ hb fun q hq _ h => ?_
    have : q = b := ht h
    subst this
    exact (List.nodup_cons.1 (List.nodup_append.1 nd).2.1).1 hq
  · rw [if_neg hb]
    refine writes_other _ _ fun q _ hq h => hb ?_
    rw [← ht h]
    exact hq

/-- An exchange into a tensor with one column: the last masked filter wins, for all filters. -/
theorem exchange_one (s : IndexStore N) {t : IndexCols B} (ht : OneCol t) (other : Fin B → Fin N → ℕ) (mask : Fin B → Bool)
    {m : Fin B} (hm : mask m = true) (last : ∀ q, m < q → mask q = false) (b : Fin B) :
    (s.exchange t other mask).read t b = other m := by
  unfold IndexStore.read IndexStore.exchange
  dsimp only
  obtain ⟨l, r, e⟩ := List.append_of_mem (List.mem_finRange m)
  have pw : (l ++ m :: r).Pairwise (· < ·) := e ▸ List.pairwise_lt_finRange B
  rw [e, ht b m]
  refine writes_last l r _ hm fun q hq hmq => ?_
  have := (List.pairwise_cons.1 (List.pairwise_append.1 pw).2.1).1 q hq
  rw [last q this] at hmq
  cases hmq

end Verif
