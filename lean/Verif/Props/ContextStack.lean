import Verif.Lemmas.Context

/-!
# C55–C58: the active context, threads, prior verification and equivalence of priors
-/

namespace Verif.Props

open Verif.Ctx

/-! ### C55 -/

/-- Whether code raises, read off the code alone. -/
def Raises : Code → Bool
  | .skip => false
  | .fail => true
  | .seq a b => Raises a || Raises b
  | .block _ b => Raises b
  | .attempt _ => false

/-- No context is entered while it is active already (`s` lists the active ones). -/
def NoReentry : Code → List ℕ → Prop
  | .skip, _ => True
  | .fail, _ => True
  | .seq a b, s => NoReentry a s ∧ NoReentry b s
  | .block c b, s => c ∉ s ∧ NoReentry b (s ++ [c])
  | .attempt a, s => NoReentry a s

/-- The active context is the innermost one; there is none exactly when no block has been entered. -/
theorem C55_active (s : List ℕ) :
    (∀ c, getContext (some s) = .ok c ↔ ∃ t, s = t ++ [c]) ∧ (getContext (some s) = .error .runtime ↔ s = []) := by
  rcases List.eq_nil_or_concat s with rfl | ⟨t, c, rfl⟩
  · simp [getContext]
  · constructor
    · intro c'
      simp [getContext]
    · simp [getContext]

/-- The claim as stated. -/
def C55_claim : Prop :=
  ∀ (c : ℕ) (b : Code) (s : List ℕ), getContext (some ((Code.block c b).run s).1) = getContext (some s)

/-- Proved part: without re-entry the stack, and with it the active context, is restored, and exceptions
of the body come out of the block. Missing: re-entry. -/
theorem C55_no_reentry_partial (c : ℕ) (b : Code) (s : List ℕ) (h : NoReentry (.block c b) s) :
    (Code.block c b).run s = (s, Raises b) ∧
      getContext (some ((Code.block c b).run s).1) = getContext (some s) ∧
      getContext (some (s ++ [c])) = .ok c := by
  have key : ∀ (b : Code) (s : List ℕ), NoReentry b s → b.run s = (s, Raises b) := by
    intro b
    induction b with
    | skip => intro s _; rfl
    | fail => intro s _; rfl
    | seq a b iha ihb =>
      intro s h
      unfold Code.run
      rw [iha s h.1]
      cases hr : Raises a
      · simp [ihb s h.2, Raises, hr]
      · simp [Raises, hr]
    | block c b ih =>
      intro s h
      unfold Code.run
      rw [ih _ h.2]
      simp [Raises, List.erase_append_right _ h.1]
    | attempt a ih =>
      intro s h
      unfold Code.run
      rw [ih _ h]; rfl
  have := key _ s h
  refine ⟨this, by rw [this], ?_⟩
  unfold getContext
  simp

/-- In every case the block exits without an error of its own, and the same contexts are active as
before, each as many times, possibly in another order. -/
theorem C55_same_contexts (b : Code) (s : List ℕ) : (b.run s).1.Perm s ∧ (b.run s).2 = Raises b := by
  induction b generalizing s with
  | skip => exact ⟨.refl _, rfl⟩
  | fail => exact ⟨.refl _, rfl⟩
  | seq a b iha ihb =>
    obtain ⟨h1, h2⟩ := iha s
    unfold Code.run
    rcases hr : a.run s with ⟨s', r⟩
    rw [hr] at h1 h2
    dsimp only at h1 h2
    cases r
    · obtain ⟨h3, h4⟩ := ihb s'
      exact ⟨h3.trans h1, by simp [Raises, ← h2, h4]⟩
    · exact ⟨h1, by simp [Raises, ← h2]⟩
  | block c b ih =>
    obtain ⟨h1, h2⟩ := ih (s ++ [c])
    unfold Code.run
    refine ⟨?_, h2⟩
    have h3 := h1.erase c
    refine h3.trans ?_
    have h4 : (s ++ [c]).Perm (c :: s) := List.perm_append_singleton c s
    simpa using h4.erase c
  | attempt a ih =>
    obtain ⟨h1, -⟩ := ih s
    exact ⟨h1, rfl⟩

/-- What fails: re-entering the outer one of two contexts removes its first entry on leaving, and it
stays active in place of the inner one. -/
theorem C55_reentry (a b : ℕ) (h : a ≠ b) :
    getContext (some [a, b]) = .ok b ∧ getContext (some ((Code.block a .skip).run [a, b]).1) = .ok a := by
  simp [getContext, Code.run]

theorem C55_negation : ¬ C55_claim := by
  intro h
  exact absurd (h 0 .skip [0, 1]) (by decide)

/-- Two nested blocks, an exception inside the inner one, which is caught outside of it. -/
example : (Code.block 0 (.seq (.attempt (.block 1 .fail)) (.block 2 .skip))).run [7] = ([7], false) :=
  (C55_no_reentry_partial 0 (.seq (.attempt (.block 1 .fail)) (.block 2 .skip)) [7]
    (by simp [NoReentry])).1

/-! ### C56 -/

/-- What thread `i` did. -/
def own (i : ℕ) (ops : List (ℕ × StackOp)) : List StackOp := (ops.filter fun o => o.1 = i).map Prod.snd

/-- Under every interleaving the stack of a thread is what its own operations make of it. -/
theorem C56_own_operations (t : Threads) (ops : List (ℕ × StackOp)) (i : ℕ) :
    (ops.foldl threadStep t) i = (own i ops).foldl (fun s o => (stackStep s o).1) (t i) := by
  induction ops generalizing t with
  | nil => rfl
  | cons o ops ih =>
    rw [List.foldl_cons, ih]
    unfold own
    by_cases h : o.1 = i
    · subst h
      simp [threadStep]
    · rw [List.filter_cons_of_neg (by simpa using h)]
      congr 1
      unfold threadStep
      rw [Function.update_of_ne (Ne.symm h)]

/-- Operations of other threads do not change the active context. -/
theorem C56_others (t : Threads) (ops : List (ℕ × StackOp)) (i : ℕ) (h : ∀ o ∈ ops, o.1 ≠ i) :
    getContext ((ops.foldl threadStep t) i) = getContext (t i) := by
  rw [C56_own_operations]
  have : own i ops = [] := by
    unfold own
    rw [List.filter_eq_nil_iff.2 (by simpa using h)]; rfl
  rw [this]; rfl

/-- A context made in one thread cannot be entered in a thread that has made none: there is no stack. -/
theorem C56_foreign_thread (t : Threads) (i c : ℕ) (h : t i = none) :
    (stackStep (t i) (.enter c)).2 = .error .attribute ∧ getContext (t i) = .error .attribute := by
  rw [h]; exact ⟨rfl, rfl⟩

/-- Leaving a context takes that context off the stack, and no other, wherever on the stack it is; leaving one
that is not there raises. -/
theorem C56_leave (a b : List ℕ) (c : ℕ) (h : c ∉ a) :
    stackStep (some (a ++ c :: b)) (.exit c) = (some (a ++ b), .ok ()) ∧
    stackStep (some a) (.exit c) = (some a, .error .runtime) := by
  constructor
  · unfold stackStep
    simp [List.erase_append_right _ h]
  · unfold stackStep
    simp [h]

/-- Contexts left in another order than entered: the last one stays active. -/
example : getContext (([(0, .new), (0, .enter 1), (0, .enter 2), (0, .exit 1)].foldl
    threadStep fun _ => none) 0) = .ok 2 := by
  rw [C56_own_operations]
  show getContext (stackStep (some ([] ++ 1 :: [2])) (.exit 1)).1 = _
  rw [(C56_leave [] [2] 1 (by simp)).1]; rfl

/-- Two threads, three contexts, operations interleaved. -/
example : getContext (([(0, .new), (1, .new), (0, .enter 0), (1, .enter 1), (0, .enter 2), (1, .exit 1)].foldl
    threadStep fun _ => none) 0) = .ok 2 := by
  rw [C56_own_operations]; rfl

example : getContext (([(1, .new), (1, .enter 5), (2, .new), (1, .exit 5)].foldl threadStep
    (fun i => if i = 0 then some [3, 4] else none)) 0) = .ok 4 :=
  C56_others _ _ 0 (by simp)

/-! ### C57 -/

/-- What code should observe, given whether it is inside of a suspension block: raised, observations. -/
def Expected : VCode → Bool → Bool × List Bool
  | .look, inside => (false, [!inside])
  | .fail, _ => (true, [])
  | .seq a b, inside =>
    if (Expected a inside).1 then Expected a inside
    else ((Expected b inside).1, (Expected a inside).2 ++ (Expected b inside).2)
  | .suspend b, _ => Expected b true
  | .attempt a, inside => (false, (Expected a inside).2)

/-- No suspension blocks. -/
def NoSuspend : VCode → Prop
  | .look => True
  | .fail => True
  | .seq a b => NoSuspend a ∧ NoSuspend b
  | .suspend _ => False
  | .attempt a => NoSuspend a

/-- Suspension blocks, but none inside of another. -/
def Unnested : VCode → Prop
  | .look => True
  | .fail => True
  | .seq a b => Unnested a ∧ Unnested b
  | .suspend b => NoSuspend b
  | .attempt a => Unnested a

/-- The claim as stated. -/
def C57_claim : Prop := ∀ p : VCode, p.run true = (true, Expected p false)

/-- Proved part: blocks that are not nested. Missing: after an inner block verification is on for the
rest of the outer one. -/
theorem C57_unnested_partial (p : VCode) (h : Unnested p) : p.run true = (true, Expected p false) := by
  have plain : ∀ (p : VCode) (v : Bool), NoSuspend p → p.run v = (v, Expected p !v) := by
    intro p
    induction p with
    | look => intro v _; simp [VCode.run, Expected]
    | fail => intro v _; rfl
    | seq a b iha ihb =>
      intro v h
      unfold VCode.run
      rw [iha v h.1]
      rcases hr : Expected a !v with ⟨r, o⟩
      cases r
      · simp [ihb v h.2, Expected, hr]
      · simp [Expected, hr]
    | suspend b => intro v h; exact h.elim
    | attempt a ih =>
      intro v h
      unfold VCode.run
      rw [ih v h]; rfl
  induction p with
  | look => rfl
  | fail => rfl
  | seq a b iha ihb =>
    unfold VCode.run
    rw [iha h.1]
    rcases hr : Expected a false with ⟨r, o⟩
    cases r
    · simp [ihb h.2, Expected, hr]
    · simp [Expected, hr]
  | suspend b =>
    unfold VCode.run
    rw [plain b false h]; rfl
  | attempt a ih =>
    unfold VCode.run
    rw [ih h]; rfl

/-- Verification is on after every block, nested or not, also if it raises. -/
theorem C57_on_again (b : VCode) (v : Bool) : ((VCode.suspend b).run v).1 = true := rfl

/-- Verification is off at the start of every block. -/
theorem C57_off_inside (b : VCode) (v : Bool) :
    ((VCode.suspend (.seq .look b)).run v).2.2.head? = some false := by
  simp [VCode.run]

/-- What fails: after an inner block verification is on inside of the outer one. -/
theorem C57_nested : ((VCode.suspend (.seq (.suspend .look) .look)).run true).2.2 = [false, true] := rfl

theorem C57_negation : ¬ C57_claim := by
  intro h
  exact absurd (h (.suspend (.seq (.suspend .look) .look))) (by decide)

/-- A block that raises, caught, then a look. -/
example : (VCode.seq (.attempt (.suspend (.seq .look .fail))) .look).run true = (true, false, [false, true]) :=
  C57_unnested_partial _ (by simp [Unnested, NoSuspend])

/-! ### C58 -/

/-- The claim as stated. -/
def C58_claim : Prop := ∀ x y : Dist, verifySamePrior x y = .ok true ↔ x = y

/-- Comparing the arguments of plain distributions. -/
theorem sameArgs_iff (cls : List Char) : ∀ (xs pre ys : List (List Char × List Num)),
    ((pre ++ ys).map Prod.fst).Nodup → List.Forall₂ (fun a b => a.1 = b.1 ∧ a.2.length = b.2.length) xs ys →
    (∀ a ∈ xs, Num.nan ∉ a.2) →
    sameArgs (.simple cls (pre ++ ys)) xs = .ok (decide (xs = ys)) := by
  intro xs
  induction xs with
  | nil => intro pre ys _ h _; cases h; rfl
  | cons a xs ih =>
    intro pre ys hn h hnan
    cases h with
    | cons hab hrest =>
      rename_i b ys
      obtain ⟨k, xv⟩ := a
      obtain ⟨k', yv⟩ := b
      obtain ⟨rfl, hl⟩ := hab
      dsimp only at hl hn ⊢
      have hg : dictGet (Dist.args (.simple cls (pre ++ (k, yv) :: ys))) k = some yv :=
        Container.dictGet_of_mem hn (by simp [Dist.args])
      unfold sameArgs
      rw [hg]
      simp only [broadcast, hl, if_true]
      have hany : ∀ (u v : List Num), u.length = v.length → Num.nan ∉ u →
          ((u.zip v).any fun p => !(p.1.eq p.2)) = !decide (u = v) := by
        intro u
        induction u with
        | nil => intro v hv _; cases v <;> simp_all
        | cons p u ihu =>
          intro v hv hp
          cases v with
          | nil => simp at hv
          | cons q v =>
            simp only [List.length_cons, Nat.add_right_cancel_iff] at hv
            simp only [List.mem_cons, not_or] at hp
            rw [List.zip_cons_cons, List.any_cons, ihu v hv hp.2]
            by_cases hpq : p = q
            · subst hpq
              simp [Num.eq_self (Ne.symm hp.1)]
            · have : p.eq q = false := by
                rw [← Bool.not_eq_true]; exact fun hh => hpq (Num.eq_true hh)
              simp [this, hpq]
      rw [hany xv yv hl (hnan _ List.mem_cons_self)]
      by_cases hxy : xv = yv
      · subst hxy
        have := ih (pre ++ [(k, xv)]) ys (by simpa using hn) hrest fun a ha => hnan a (List.mem_cons_of_mem _ ha)
        rw [List.append_assoc] at this
        simpa using this
      · simp [hxy]

/-- Proved part: plain distributions without NaN whose arguments, if they are of one family, have the
same names and lengths. Missing: `Independent` and transformed distributions, arguments of different
lengths, NaN. -/
theorem C58_plain_partial (cx cy : List Char) (ax ay : List (List Char × List Num))
    (hn : (ay.map Prod.fst).Nodup)
    (hlen : cx = cy → List.Forall₂ (fun a b => a.1 = b.1 ∧ a.2.length = b.2.length) ax ay)
    (hnan : ∀ a ∈ ax, Num.nan ∉ a.2) :
    verifySamePrior (.simple cx ax) (.simple cy ay) =
      .ok (decide (Dist.simple cx ax = Dist.simple cy ay)) := by
  unfold verifySamePrior
  by_cases h : cx = cy
  · subst h
    have := sameArgs_iff cx ax [] ay hn (hlen rfl) hnan
    simpa [Dist.cls, Dist.args] using this
  · simp [Dist.cls, h]

/-- Different families are never equivalent. -/
theorem C58_family (x y : Dist) (h : x.cls ≠ y.cls) : verifySamePrior x y = .ok false := if_pos h

/-- What fails: any two `Independent` distributions count as equivalent, ... -/
theorem C58_independent (x y : Dist) (m n : ℕ) :
    verifySamePrior (.independent x m) (.independent y n) = .ok true := rfl

/-- ... and so do any two transformed ones, ... -/
theorem C58_transformed (x y : Dist) (f g : List Char) :
    verifySamePrior (.transformed x f) (.transformed y g) = .ok true := rfl

/-- ... a constant vector is equivalent to a scalar, ... -/
theorem C58_broadcast (cls k : List Char) (q : ℚ) (n : ℕ) :
    verifySamePrior (.simple cls [(k, [.fin q])]) (.simple cls [(k, List.replicate n (.fin q))]) =
      .ok true := by
  unfold verifySamePrior
  rw [if_neg (by simp [Dist.cls])]
  by_cases hn : n = 1
  · subst hn
    simp [Dist.args, sameArgs, dictGet, broadcast, Num.eq]
  · have : broadcast [.fin q] (List.replicate n (.fin q)) =
        .ok ((List.replicate n (Num.fin q)).map fun b => (Num.fin q, b)) := by
      unfold broadcast
      rw [if_neg (by simpa using Ne.symm hn)]
    simp [Dist.args, sameArgs, dictGet, this, Num.eq]

/-- ... and a distribution with a NaN argument is not equivalent to itself. -/
theorem C58_nan (cls k : List Char) :
    verifySamePrior (.simple cls [(k, [.nan])]) (.simple cls [(k, [.nan])]) = .ok false := by
  simp [verifySamePrior, Dist.cls, Dist.args, sameArgs, dictGet, broadcast, Num.eq]

theorem C58_negation : ¬ C58_claim := by
  intro h
  have := (h _ _).1 (C58_independent (.simple [] []) (.simple ['a'] []) 1 1)
  simp at this

/-- Two normal priors that differ in the scale. -/
example : verifySamePrior
    (.simple "Normal".toList [("loc".toList, [.fin 0]), ("scale".toList, [.fin 1])])
    (.simple "Normal".toList [("loc".toList, [.fin 0]), ("scale".toList, [.fin 2])]) = .ok false := by
  rw [C58_plain_partial _ _ _ _ (by decide) (fun _ => by simp) (by decide)]
  simp

end Verif.Props
