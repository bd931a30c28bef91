import Verif.Lemmas.SharedIndex
import Mathlib.Data.Fin.VecNotation
import Mathlib.Data.Finset.Max
import Mathlib.Data.Fintype.Basic
import Mathlib.Tactic.FinCases

/-!
# Property C150: exchanging accepted filters leaves the ancestors of rejected filters alone
-/

namespace Verif.Props

open Verif

/-- The full claim: after any history of a filter, an exchange replaces the indices of the masked filters, and of no other. -/
def C150_claim : Prop :=
  ∀ (B N : ℕ) (ops : List (IndexOp B N)) (other : Fin B → Fin N → ℕ) (mask : Fin B → Bool) (b : Fin B),
    let p := IndexOp.run B N ops
    (p.1.exchange p.2 other mask).read p.2 b = if mask b then other b else p.1.read p.2 b

/-- What moves leave in the columns, shared or not: after any history `SISR` gives new indices to the filters below the threshold and
leaves those of others, the `APF` gives new ones to all, the `GPF` keeps them, and resampling of filters copies them. -/
theorem C150_moves (B N : ℕ) (ops : List (IndexOp B N)) (b : Fin B) :
    let p := IndexOp.run B N ops
    let after (o : IndexOp B N) := let q := IndexOp.run B N (ops ++ [o]); q.1.read q.2 b
    (∀ low chosen, after (.sisr low chosen) = if low b then chosen b else p.1.read p.2 b) ∧ (∀ chosen, after (.apf chosen) = chosen b) ∧
      after .gpf = p.1.read p.2 b ∧ ∀ indices, after (.select indices) = p.1.read p.2 (indices b) := by
  simp only [IndexOp.run, List.foldl_append, List.foldl_cons, List.foldl_nil]
  generalize List.foldl IndexOp.apply _ ops = p
  refine ⟨fun low chosen => ?_, fun chosen => fresh_read _ _ b, rfl, fun indices => fresh_read _ _ b⟩
  show (p.1.sisr p.2 low chosen).1.read (p.1.sisr p.2 low chosen).2 b = _
  unfold IndexStore.sisr
  split_ifs with h1 h2 h2
  · simp at h1
    exact absurd (h1 b) (by simp [h2])
  · rfl
  · rw [fresh_read, if_pos h2]
  · rw [fresh_read, if_neg h2]

/-- Where it holds: the history has a `SISR` move that resampled at least one filter, a move of the `APF`, or a resampling of the
filters. Missing from the full claim: histories without, for which it is false, see `C150_negation`. -/
theorem C150_exchange_partial (B N : ℕ) (ops : List (IndexOp B N)) (h : (∃ low chosen, .sisr low chosen ∈ ops ∧ ∃ b, low b = true) ∨
      (∃ chosen, .apf chosen ∈ ops) ∨ ∃ indices, .select indices ∈ ops)
    (other : Fin B → Fin N → ℕ) (mask : Fin B → Bool) (b : Fin B) :
    let p := IndexOp.run B N ops
    (p.1.exchange p.2 other mask).read p.2 b = if mask b then other b else p.1.read p.2 b := by
  refine exchange_own _ (foldl_own ops _ (.inr ?_)) other mask b
  rcases h with ⟨low, chosen, h, hb⟩ | ⟨chosen, h⟩ | ⟨indices, h⟩
  · exact ⟨_, h, hb⟩
  · exact ⟨_, h, trivial⟩
  · exact ⟨_, h, trivial⟩

/-- Without such a step every filter, rejected or not, gets the indices of the last accepted one. -/
theorem C150_without_resampling (B N : ℕ) (ops : List (IndexOp B N)) (h1 : ∀ low chosen, .sisr low chosen ∈ ops → ∀ b, low b = false)
    (h2 : ∀ chosen, .apf chosen ∉ ops) (h3 : ∀ indices, .select indices ∉ ops)
    (other : Fin B → Fin N → ℕ) (mask : Fin B → Bool) (m : Fin B) (hm : mask m = true) (last : ∀ q, m < q → mask q = false)
    (b : Fin B) :
    let p := IndexOp.run B N ops
    (p.1.exchange p.2 other mask).read p.2 b = other m := by
  refine exchange_one _ ?_ other mask hm last b
  have : (IndexOp.run B N ops).2 = _ := foldl_one ops _ fun o ho => by
    cases o with
    | sisr low chosen =>
      rintro ⟨c, hc⟩
      rw [h1 low chosen ho c] at hc
      cases hc
    | apf chosen => exact (h2 _ ho).elim
    | gpf => exact id
    | select indices => exact (h3 _ ho).elim
    | exchange other mask => exact id
  rw [this]
  exact fun _ _ => rfl

/-- Moves of the `GPF`, and of `SISR` while no filter is below the threshold, leave the initial indices as they are. -/
theorem C150_indices_kept (B N : ℕ) (ops : List (IndexOp B N))
    (h : ∀ o ∈ ops, o = .gpf ∨ ∃ low chosen, o = .sisr low chosen ∧ ∀ b, low b = false) (b : Fin B) :
    (IndexOp.run B N ops).1.read (IndexOp.run B N ops).2 b = fun n => n.val := by
  have : IndexOp.run B N ops = IndexOp.run B N [] := by
    unfold IndexOp.run
    generalize (⟨fun _ _ => 0, 0⟩ : IndexStore N).initial B = p
    induction ops generalizing p with
    | nil => rfl
    | cons o ops ih =>
      refine (ih (fun q hq => h q (by simp [hq])) _).trans ?_
      rcases h o (by simp) with rfl | ⟨low, chosen, rfl, hl⟩
      · rfl
      · unfold IndexOp.apply IndexStore.sisr
        simp [hl]
  rw [this]
  simp [IndexOp.run, IndexStore.initial, IndexStore.read]

/-- An exchange between two filters with such histories changes nothing, so that sharing does no harm. -/
theorem C150_both_kept (B N : ℕ) (ops ops' : List (IndexOp B N))
    (h : ∀ o ∈ ops, o = .gpf ∨ ∃ low chosen, o = .sisr low chosen ∧ ∀ b, low b = false)
    (h' : ∀ o ∈ ops', o = .gpf ∨ ∃ low chosen, o = .sisr low chosen ∧ ∀ b, low b = false) (mask : Fin B → Bool) (b : Fin B) :
    let p := IndexOp.run B N ops
    let q := IndexOp.run B N ops'
    (p.1.exchange p.2 (q.1.read q.2) mask).read p.2 b = p.1.read p.2 b := by
  intro p q
  rw [C150_indices_kept B N ops h b]
  by_cases hx : ∃ m, mask m = true
  · have hne : (Finset.univ.filter fun m => mask m = true).Nonempty := ⟨hx.choose, by simpa using hx.choose_spec⟩
    have hm := Finset.max'_mem _ hne
    set m := Finset.max' _ hne with hmd
    refine (C150_without_resampling B N ops (fun low chosen ho => ?_) (fun chosen ho => ?_) (fun indices ho => ?_) _ mask m
      (by simpa using hm) (fun r hr => ?_) b).trans (C150_indices_kept B N ops' h' m)
    · rcases h _ ho with e | ⟨low', chosen', e, hl⟩
      · cases e
      · cases e
        exact hl
    · rcases h _ ho with e | ⟨_, _, e, -⟩ <;> cases e
    · rcases h _ ho with e | ⟨_, _, e, -⟩ <;> cases e
    · by_contra hc
      exact absurd (Finset.le_max' (Finset.univ.filter fun m => mask m = true) r (by simpa using hc)) (not_le.2 hr)
  · refine (?_ : _ = _).trans (C150_indices_kept B N ops h b)
    exact writes_other _ _ fun r _ hr => (hx ⟨r, hr⟩).elim

/-- Two filters of two particles that have not been resampled, and an exchange with results whose first filter has: the rejected
second filter gets ancestors `1, 1` too. -/
theorem C150_rejected_changed : let p := IndexOp.run 2 2 [.sisr (fun _ => false) fun _ _ => 0]
    p.1.read p.2 1 = (fun n => n.val) ∧ (p.1.exchange p.2 (fun _ _ => 1) ![true, false]).read p.2 1 = fun _ => 1 :=
  ⟨by decide, C150_without_resampling 2 2 _ (by simp) (by simp) (by simp) _ ![true, false] 0 rfl
    (fun q hq => by fin_cases q <;> simp_all) 1⟩

/-- The full claim C150 is false. -/
theorem C150_negation : ¬ C150_claim := by
  intro hc
  obtain ⟨a, b⟩ := C150_rejected_changed
  have := hc 2 2 [.sisr (fun _ => false) fun _ _ => 0] (fun _ _ => 1) ![true, false] 1
  dsimp only at this a b
  rw [b, if_neg (by decide), a] at this
  exact absurd (congrFun this 0) (by decide)

/-- A case of `C150_exchange_partial`: the first filter has been resampled. -/
example : let p := IndexOp.run 2 2 [.sisr ![true, false] fun _ _ => 0, .sisr (fun _ => false) fun _ _ => 0]
    (p.1.exchange p.2 (fun _ _ => 1) ![true, false]).read p.2 1 = p.1.read p.2 1 :=
  C150_exchange_partial 2 2 _ (.inl ⟨_, _, List.mem_cons_self .., 0, rfl⟩) _ ![true, false] 1

/-- A case of `C150_both_kept`: two moves of the Gaussian particle filter. -/
example : let p := IndexOp.run 2 3 [.gpf, .gpf]
    (p.1.exchange p.2 (p.1.read p.2) ![true, false]).read p.2 1 = p.1.read p.2 1 :=
  C150_both_kept 2 3 [.gpf, .gpf] [.gpf, .gpf] (by simp) (by simp) ![true, false] 1

/-- A case of `C150_moves`: a `SISR` move of two filters that resamples the first. -/
example : let q := IndexOp.run 2 3 ([.gpf] ++ [.sisr ![true, false] fun _ _ => 2])
    q.1.read q.2 0 = (fun _ => 2) ∧ q.1.read q.2 1 = fun n => n.val := by
  refine ⟨((C150_moves 2 3 [.gpf] 0).1 _ _).trans rfl, ((C150_moves 2 3 [.gpf] 1).1 _ _).trans ?_⟩
  exact C150_indices_kept 2 3 [.gpf] (by simp) 1

end Verif.Props
