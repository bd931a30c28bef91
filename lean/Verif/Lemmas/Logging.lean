import Verif.Model.Logging
import Verif.Lemmas.Sequential
import Mathlib.Tactic.Ring

/-!
# Lemmas about loops with loggers
-/

namespace Verif.Logging

variable {S X A E F : Type}

/-- The loop without a logger. -/
def plain (step : S → X → S × Option E) : S → List X → S × Option E
  | s, [] => (s, none)
  | s, x :: xs =>
    match step s x with
    | (s, some e) => (s, some e)
    | (s, none) => plain step s xs

/-- The function of the logger does not raise for `a`. -/
def Logger.QuietAt (g : Logger A F) (a : A) : Prop :=
  match g with
  | .default (some f) _ => f a = none
  | _ => True

/-- What a logger that is called with `as` has done, if it was not yet finished. -/
def Logger.after (g : Logger A F) (l : Log A) (as : List A) : Log A :=
  match g with
  | .default none _ => l
  | .default (some _) _ => { l with calls := l.calls ++ as }
  | .tqdm => { l with bar := l.bar + as.length }

theorem after_nil (g : Logger A F) (l : Log A) : g.after l [] = l := by
  unfold Logger.after
  split <;> simp

theorem after_cons (g : Logger A F) (l : Log A) (a : A) (as : List A) :
    g.after l (a :: as) = g.after (g.after l [a]) as := by
  unfold Logger.after
  split
  · rfl
  · simp
  · simp only [List.length_cons, List.length_nil, Log.mk.injEq, true_and, and_self, and_true]
    push_cast
    ring

theorem doLog_quiet (g : Logger A F) (hp : g.per ≠ 0) (l : Log A) (n : ℤ) (a : A)
    (hg : g.per ∣ n → g.QuietAt a) :
    g.doLog (E := E) l n a = (if n % g.per = 0 then g.after l [a] else l, none) := by
  unfold Logger.doLog
  rw [if_neg hp]
  split
  · rename_i hn
    have hg := hg (Int.dvd_of_emod_eq_zero hn)
    cases g with
    | default f per =>
      cases f with
      | none => rfl
      | some f =>
        have : f a = none := hg
        simp only [Logger.func, Logger.after, this]
    | tqdm => rfl
  · rfl

theorem loop_append (step : S → X → S × Option E) (number : ℕ → S → ℤ) (view : S → A) (g : Logger A F) (i : ℕ)
    (s : S) (l : Log A) (xs ys : List X) (h : (loop step number view g i s l xs).2.2 = none) :
    loop step number view g i s l (xs ++ ys) =
      loop step number view g (i + xs.length) (loop step number view g i s l xs).1
        (loop step number view g i s l xs).2.1 ys := by
  induction xs generalizing i s l with
  | nil => rfl
  | cons x xs ih =>
    rw [List.cons_append, loop]
    rw [loop] at h ⊢
    rcases hs : step s x with ⟨s', _ | e⟩
    · rw [hs] at h
      simp only at h ⊢
      rcases hd : g.doLog (E := E) l (number i s') (view s') with ⟨l', _ | e⟩
      · rw [hd] at h
        simp only at h ⊢
        rw [ih _ _ _ h, List.length_cons, show i + 1 + xs.length = i + (xs.length + 1) by ring]
      · rw [hd] at h
        exact nomatch h
    · rw [hs] at h
      exact nomatch h

/-- Numbers of the iterations, from 0, after which a logger that looks at `c` is due. -/
def due (per : ℤ) (c : ℕ → ℤ) (n : ℕ) : List ℕ := (List.range n).filter fun m => per ∣ c m

theorem due_succ (per : ℤ) (c : ℕ → ℤ) (n : ℕ) :
    due per c (n + 1) = (if per ∣ c 0 then [0] else []) ++ (due per (fun m => c (m + 1)) n).map Nat.succ := by
  unfold due
  rw [List.range_succ_eq_map, List.filter_cons, List.filter_map]
  split <;> rename_i h
  · rw [if_pos (by simpa using h)]
    rfl
  · rw [if_neg (by simpa using h)]
    rfl

theorem loop_quiet (step : S → X → S × Option E) (number : ℕ → S → ℤ) (view : S → A) (g : Logger A F)
    (hp : g.per ≠ 0) (c : ℕ → ℤ) (xs : List X) (i : ℕ) (s : S) (l : Log A)
    (h : (plain step s xs).2 = none)
    (hc : ∀ m < xs.length, number (i + m) (plain step s (xs.take (m + 1))).1 = c m)
    (hg : ∀ m < xs.length, g.per ∣ c m → g.QuietAt (view (plain step s (xs.take (m + 1))).1)) :
    loop step number view g i s l xs =
      ((plain step s xs).1,
        g.after l ((due g.per c xs.length).map fun m => view (plain step s (xs.take (m + 1))).1), none) := by
  induction xs generalizing i s l c with
  | nil => simp [loop, plain, due, after_nil]
  | cons x xs ih =>
    rw [loop]
    have e : ∀ m, plain step s ((x :: xs).take (m + 1)) =
        match step s x with
        | (s, some e) => (s, some e)
        | (s, none) => plain step s (xs.take m) := fun m => by
      rw [List.take_succ_cons, plain]
    rcases hs : step s x with ⟨s', _ | e'⟩
    · rw [plain, hs] at h
      simp only at h
      have e' : ∀ m, plain step s ((x :: xs).take (m + 1)) = plain step s' (xs.take m) := fun m => by
        rw [e, hs]
      have h0 := hc 0 (by simp)
      rw [e', List.take_zero, plain, Nat.add_zero] at h0
      simp only
      have hg0 := hg 0 (by simp)
      rw [e', List.take_zero, plain, ← h0] at hg0
      rw [doLog_quiet g hp _ _ _ hg0, h0]
      simp only
      rw [ih (fun m => c (m + 1)) (i + 1) s' _ h (fun m hm => ?_) fun m hm => ?_, plain, hs]
      · simp only [Prod.mk.injEq, true_and, and_true]
        rw [List.length_cons, due_succ, List.map_append, List.map_map]
        simp only [Function.comp_def, e', Nat.succ_eq_add_one]
        by_cases hd : g.per ∣ c 0
        · rw [if_pos (Int.emod_eq_zero_of_dvd hd), if_pos hd, List.map_singleton, List.singleton_append]
          simp only [List.take_zero, plain]
          exact (after_cons g l (view s') _).symm
        · rw [if_neg fun hh => hd (Int.dvd_of_emod_eq_zero hh), if_neg hd]
          rfl
      · have := hc (m + 1) (by simpa using hm)
        rw [e'] at this
        rw [← this, show i + 1 + m = i + (m + 1) by ring]
      · have := hg (m + 1) (by simpa using hm)
        rwa [e'] at this
    · rw [plain, hs] at h
      exact nomatch h

theorem loop_kept (step : S → X → S × Option E) (number : ℕ → S → ℤ) (view : S → A) (g : Logger A F) (i : ℕ)
    (s : S) (l : Log A) (xs : List X) :
    (loop step number view g i s l xs).2.1.total = l.total ∧
      (loop step number view g i s l xs).2.1.closed = l.closed := by
  induction xs generalizing i s l with
  | nil => exact ⟨rfl, rfl⟩
  | cons x xs ih =>
    rw [loop]
    rcases step s x with ⟨s', _ | e⟩
    · simp only
      have hd : (g.doLog (E := E) l (number i s') (view s')).1.total = l.total ∧
          (g.doLog (E := E) l (number i s') (view s')).1.closed = l.closed := by
        unfold Logger.doLog
        split
        · exact ⟨rfl, rfl⟩
        · split
          · cases g with
            | default f per =>
              cases f with
              | none => exact ⟨rfl, rfl⟩
              | some f =>
                simp only [Logger.func]
                cases f (view s') <;> exact ⟨rfl, rfl⟩
            | tqdm => exact ⟨rfl, rfl⟩
          · exact ⟨rfl, rfl⟩
      rcases hl : g.doLog (E := E) l (number i s') (view s') with ⟨l', _ | e⟩
      · rw [hl] at hd
        exact ⟨(ih (i + 1) s' l').1.trans hd.1, (ih (i + 1) s' l').2.trans hd.2⟩
      · rw [hl] at hd
        exact hd
    · exact ⟨rfl, rfl⟩

/-- `Seq.run` is the loop without a logger. -/
theorem run_plain {P d : ℕ} [NeZero P] {Y Ω K V : Type} (env : Mcmc.Env d Y Ω)
    (cbs : List (Seq.Callback P d Y Ω V)) (s : Seq.State P d Y Ω K V) (xs : List (Y × Seq.StepDraws P d Ω)) :
    plain (fun s x => ((Seq.step env cbs s x.1 x.2).state, (Seq.step env cbs s x.1 x.2).err)) s xs =
      ((Seq.run env cbs s xs).1, (Seq.run env cbs s xs).2.2.2) := by
  induction xs generalizing s with
  | nil => rfl
  | cons x xs ih =>
    obtain ⟨y, r⟩ := x
    rw [plain, Seq.run]
    simp only
    cases h : (Seq.step env cbs s y r).err with
    | some e => rfl
    | none => exact ih _

end Verif.Logging
