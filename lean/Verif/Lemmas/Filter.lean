import Verif.Spec.Filter
import Verif.Lemmas.FilterResult
import Verif.Model.Particle

/-!
# Lemmas about the filter loop
-/

namespace Verif.FilterOps

open Verif.Spec

variable {S P Y Ω : Type} {F : FilterOps S P Y Ω} {time : S → ℕ} {Z : S → Prop}

theorem loop_stop (F : FilterOps S P Y Ω) (k fuel : ℕ) (p : P) (ω : Ω) (h : F.time p % k = 0) :
    F.loop k fuel p ω = some (p, [], ω) := by
  cases fuel <;> simp [loop, h]

theorem loop_step (F : FilterOps S P Y Ω) (k fuel : ℕ) (p : P) (ω : Ω) (h : F.time p % k ≠ 0) :
    F.loop k (fuel + 1) p ω =
      (F.loop k fuel (F.predict (F.propagate p ω).1 (F.propagate p ω).2).1
        (F.predict (F.propagate p ω).1 (F.propagate p ω).2).2).map
          fun r => (r.1, (F.propagate p ω).1 :: r.2.1, r.2.2) := by
  rw [loop]
  simp only [h, if_false]

/-- The loop runs until the next multiple of `k`. -/
theorem loop_spec (hF : Ticks F time Z) (k q : ℕ) : ∀ (r : ℕ), r < k → ∀ (fuel : ℕ), r ≤ fuel →
    ∀ (p : P) (ω : Ω), F.time p + r = q * k →
    ∃ p' cs ω', F.loop k fuel p ω = some (p', cs, ω') ∧ F.time p' = q * k ∧ cs.length = r ∧
      ∀ j c, cs[j]? = some c → Z c ∧ time c = F.time p + 1 + j ∧ Propagated F (F.time p + j) c := by
  intro r
  induction r with
  | zero =>
    intro _ fuel _ p ω h
    refine ⟨p, [], ω, loop_stop F k fuel p ω ?_, by omega, rfl, by simp⟩
    rw [Nat.add_zero] at h
    rw [h, Nat.mul_mod_left]
  | succ r ih =>
    intro hr fuel hf p ω h
    obtain ⟨fuel, rfl⟩ : ∃ f, fuel = f + 1 := ⟨fuel - 1, by omega⟩
    have hne : F.time p % k ≠ 0 := by
      intro h0
      obtain ⟨m, hm⟩ := Nat.dvd_of_mod_eq_zero h0
      have h1 : k ∣ (r + 1) := by
        have h2 : k ∣ F.time p + (r + 1) := ⟨q, by rw [h, Nat.mul_comm]⟩
        exact (Nat.dvd_add_right ⟨m, hm⟩).1 h2
      have := Nat.le_of_dvd (by omega) h1
      omega
    have ht : F.time (F.predict (F.propagate p ω).1 (F.propagate p ω).2).1 = F.time p + 1 := by
      rw [hF.predict, hF.propagate]
    obtain ⟨p', cs, ω', h1, h2, h3, h4⟩ := ih (by omega) fuel (by omega)
      (F.predict (F.propagate p ω).1 (F.propagate p ω).2).1
      (F.predict (F.propagate p ω).1 (F.propagate p ω).2).2 (by rw [ht]; omega)
    refine ⟨p', (F.propagate p ω).1 :: cs, ω', ?_, h2, by simp [h3], ?_⟩
    · rw [loop_step F k fuel p ω hne, h1]; rfl
    · intro j c hj
      cases j with
      | zero =>
        simp at hj; subst hj
        exact ⟨hF.zero p ω, hF.propagate p ω, p, ω, rfl, rfl⟩
      | succ j =>
        simp at hj
        obtain ⟨a, b, c'⟩ := h4 j c hj
        rw [ht] at b c'
        refine ⟨a, by omega, ?_⟩
        have : F.time p + 1 + j = F.time p + (j + 1) := by omega
        rwa [this] at c'

/-- One move does not depend on the recording option apart from what it appends. -/
theorem filter_eq (F : FilterOps S P Y Ω) (opt : FilterOptions) (fuel : ℕ) (y : Y) (c : S) (ω : Ω)
    {p : P} {cs : List S} {ω' : Ω}
    (h : F.loop opt.observeEveryStep fuel (F.predict c ω).1 (F.predict c ω).2 = some (p, cs, ω')) :
    F.filter opt fuel y c ω =
      some ((if F.allNan y then F.propagate p ω' else F.correct y p ω').1,
        (if opt.recordIntermediary then cs else []) ++
          [(if F.allNan y then F.propagate p ω' else F.correct y p ω').1],
        (if F.allNan y then F.propagate p ω' else F.correct y p ω').2) := by
  unfold filter
  simp only [h, Option.map_some]

/-- Time at which move number `n` starts. -/
def startTime (k : ℕ) : ℕ → ℕ
  | 0 => 0
  | n + 1 => n * k + 1

theorem filter_spec (hF : Ticks F time Z) {k : ℕ} (hk : 0 < k) (n fuel : ℕ) (hfuel : k - 1 ≤ fuel)
    (y : Y) (c : S) (ω : Ω) (hc : time c = startTime k n) :
    ∃ e ω', MoveOk F time Z k n y e ∧ ∀ rec nan,
      F.filter ⟨k, rec, nan⟩ fuel y c ω = some (e.2, (if rec then e.1 else []) ++ [e.2], ω') := by
  have ht : F.time (F.predict c ω).1 = startTime k n := by rw [hF.predict, hc]
  obtain ⟨r, hr, hrk, hsum⟩ : ∃ r, r = (if n = 0 then 0 else k - 1) ∧ r < k ∧ startTime k n + r = n * k := by
    refine ⟨_, rfl, ?_, ?_⟩
    · split <;> omega
    · cases n with
      | zero => simp [startTime]
      | succ n => simp [startTime, Nat.succ_mul]; omega
  obtain ⟨p, cs, ω', h1, h2, h3, h4⟩ := loop_spec hF k n r hrk fuel (by split at hr <;> omega) _
    (F.predict c ω).2 (by rw [ht, hsum])
  refine ⟨(cs, (if F.allNan y then F.propagate p ω' else F.correct y p ω').1),
    (if F.allNan y then F.propagate p ω' else F.correct y p ω').2, ⟨?_, ?_, ?_, ?_⟩, ?_⟩
  · rw [← hr]; exact h3
  · intro j c hj
    have hj' : j < cs.length := (List.getElem?_eq_some_iff.1 hj).1
    obtain ⟨a, b, d⟩ := h4 j c hj
    rw [ht] at b d
    have hn : n ≠ 0 := by
      rintro rfl
      simp at hr; omega
    obtain ⟨m, rfl⟩ : ∃ m, n = m + 1 := ⟨n - 1, by omega⟩
    refine ⟨a, by rw [b]; simp only [startTime, Nat.add_sub_cancel], ?_⟩
    simpa [startTime] using d
  · show time (if F.allNan y then F.propagate p ω' else F.correct y p ω').1 = n * k + 1
    split
    · rw [hF.propagate, h2]
    · rw [hF.correct, h2]
  · refine ⟨p, ω', h2, ?_⟩
    show (if F.allNan y then F.propagate p ω' else F.correct y p ω').1 = _
    split <;> rfl
  · intro rec nan
    exact filter_eq F ⟨k, rec, nan⟩ fuel y c ω h1

theorem filterAll_spec (hF : Ticks F time Z) {k : ℕ} (hk : 0 < k) (fuel : ℕ) (hfuel : k - 1 ≤ fuel) :
    ∀ (ys : List Y) (n : ℕ) (c : S) (ω : Ω), time c = startTime k n →
    ∃ es ω', es.length = ys.length ∧
      (∀ m y e, ys[m]? = some y → es[m]? = some e → MoveOk F time Z k (n + m) y e) ∧
      ∀ rec nan, F.filterAll ⟨k, rec, nan⟩ fuel ys c ω =
        some (((es.map Prod.snd).getLast?).getD c, recorded rec es, ω')
  | [], n, c, ω, _ => ⟨[], ω, rfl, by simp, fun _ _ => rfl⟩
  | y :: ys, n, c, ω, hc => by
    obtain ⟨e, ω₁, he, hfil⟩ := filter_spec hF hk n fuel hfuel y c ω hc
    obtain ⟨es, ω₂, hl, hes, hall⟩ := filterAll_spec hF hk fuel hfuel ys (n + 1) e.2 ω₁
      (by rw [he.time]; rfl)
    refine ⟨e :: es, ω₂, by simp [hl], ?_, ?_⟩
    · intro m y' e' hy' he'
      cases m with
      | zero =>
        simp at hy' he'; subst hy' he'
        exact he
      | succ m =>
        simp at hy' he'
        have := hes m y' e' hy' he'
        have e1 : n + 1 + m = n + (m + 1) := by omega
        rwa [e1] at this
    · intro rec nan
      rw [filterAll, hfil rec nan]
      simp only [hall rec nan, Option.map_some]
      congr 1
      have : (List.map Prod.snd (e :: es)).getLast?.getD c
          = (List.map Prod.snd es).getLast?.getD e.2 := by
        cases es with
        | nil => simp
        | cons a t =>
          simp [List.getLast?_eq_some_getLast]
      rw [this]
      rfl

/-- Appending to the recorded windows one by one. -/
theorem foldl_append {M : Type} (mean : S → M) (ks km : Option ℕ) (xs : List S) :
    ∀ (a : List S) (b : List M), 
      xs.foldl (Recorded.append mean) ⟨⟨ks, a⟩, ⟨km, b⟩⟩ =
        ⟨⟨ks, (xs.foldl Deq.append ⟨ks, a⟩).items⟩, ⟨km, ((xs.map mean).foldl Deq.append ⟨km, b⟩).items⟩⟩ := by
  induction xs with
  | nil => intro a b; rfl
  | cons x xs ih =>
    intro a b
    rw [List.foldl_cons, List.map_cons, List.foldl_cons, List.foldl_cons]
    exact ih _ _

theorem loop_time_le (F : FilterOps S P Y Ω) (time : S → ℕ)
    (hp : ∀ c ω, F.time (F.predict c ω).1 = time c)
    (hg : ∀ p ω, time (F.propagate p ω).1 = F.time p + 1) (k : ℕ) : ∀ (fuel : ℕ) (p : P) (ω : Ω) (r),
    F.loop k fuel p ω = some r → F.time p ≤ F.time r.1 := by
  intro fuel
  induction fuel with
  | zero =>
    intro p ω r h
    by_cases h0 : F.time p % k = 0
    · rw [loop_stop F k 0 p ω h0] at h
      cases h; exact le_rfl
    · rw [loop] at h; simp [h0] at h
  | succ fuel ih =>
    intro p ω r h
    by_cases h0 : F.time p % k = 0
    · rw [loop_stop F k _ p ω h0] at h
      cases h; exact le_rfl
    · rw [loop_step F k fuel p ω h0, Option.map_eq_some_iff] at h
      obtain ⟨r', h1, rfl⟩ := h
      have := ih _ _ _ h1
      rw [hp, hg] at this
      show F.time p ≤ F.time r'.1
      omega

/-- A property of predictions that pure prediction and prediction preserve holds at the end of the loop. -/
theorem loop_inv (F : FilterOps S P Y Ω) (I : P → Prop)
    (hI : ∀ p ω ω', I p → I (F.predict (F.propagate p ω).1 ω').1) (k : ℕ) :
    ∀ (fuel : ℕ) (p : P) (ω : Ω) (r), I p → F.loop k fuel p ω = some r → I r.1 := by
  intro fuel
  induction fuel with
  | zero =>
    intro p ω r hp h
    by_cases h0 : F.time p % k = 0
    · rw [loop_stop F k 0 p ω h0] at h
      cases h; exact hp
    · rw [loop] at h; simp [h0] at h
  | succ fuel ih =>
    intro p ω r hp h
    by_cases h0 : F.time p % k = 0
    · rw [loop_stop F k _ p ω h0] at h
      cases h; exact hp
    · rw [loop_step F k fuel p ω h0, Option.map_eq_some_iff] at h
      obtain ⟨r', h1, rfl⟩ := h
      exact ih _ _ r' (hI p ω _ hp) h1

theorem filter_inv (F : FilterOps S P Y Ω) (opt : FilterOptions) (fuel : ℕ) (y : Y) (c : S) (ω : Ω) (r)
    (h : F.filter opt fuel y c ω = some r) :
    ∃ q, F.loop opt.observeEveryStep fuel (F.predict c ω).1 (F.predict c ω).2 = some q ∧
      r.1 = (if F.allNan y then F.propagate q.1 q.2.2 else F.correct y q.1 q.2.2).1 := by
  unfold filter at h
  simp only [Option.map_eq_some_iff] at h
  obtain ⟨q, h1, h2⟩ := h
  exact ⟨q, h1, by rw [← h2]⟩

/-- Histories, newest first, that are kept by the steps of a filter are kept by its loop. -/
theorem loop_hist (F : FilterOps S P Y Ω) (J : List S → Prop)
    (hp : ∀ c h ω ω', J (c :: h) → J ((F.propagate (F.predict c ω).1 ω').1 :: c :: h)) (k : ℕ) :
    ∀ (fuel : ℕ) (c : S) (h : List S) (ω₀ ω : Ω) (r), J (c :: h) →
      F.loop k fuel (F.predict c ω₀).1 ω = some r →
      ∃ c' h' ω₁, r.1 = (F.predict c' ω₁).1 ∧ r.2.1.reverse ++ c :: h = c' :: h' ∧ J (c' :: h') := by
  intro fuel
  induction fuel with
  | zero =>
    intro c h ω₀ ω r hJ hr
    by_cases h0 : F.time (F.predict c ω₀).1 % k = 0
    · rw [loop_stop F k 0 _ ω h0] at hr
      cases hr; exact ⟨c, h, ω₀, rfl, rfl, hJ⟩
    · rw [loop] at hr; simp [h0] at hr
  | succ fuel ih =>
    intro c h ω₀ ω r hJ hr
    by_cases h0 : F.time (F.predict c ω₀).1 % k = 0
    · rw [loop_stop F k _ _ ω h0] at hr
      cases hr; exact ⟨c, h, ω₀, rfl, rfl, hJ⟩
    · rw [loop_step F k fuel _ ω h0, Option.map_eq_some_iff] at hr
      obtain ⟨q, hq, rfl⟩ := hr
      obtain ⟨c', h', ω₁, e1, e2, e3⟩ := ih _ (c :: h) _ _ q (hp c h ω₀ ω hJ) hq
      exact ⟨c', h', ω₁, e1, by simpa using e2, e3⟩

/-- Histories kept by the steps of a filter are kept by a run that records everything. -/
theorem filterAll_hist (F : FilterOps S P Y Ω) (J : List S → Prop)
    (hp : ∀ c h ω ω', J (c :: h) → J ((F.propagate (F.predict c ω).1 ω').1 :: c :: h))
    (hc : ∀ c h y ω ω', J (c :: h) → J ((F.correct y (F.predict c ω).1 ω').1 :: c :: h))
    (k : ℕ) (nan : NanStrategy) (fuel : ℕ) : ∀ (ys : List Y) (c : S) (h : List S) (ω : Ω) (r), J (c :: h) →
      F.filterAll ⟨k, true, nan⟩ fuel ys c ω = some r → J (r.2.1.reverse ++ c :: h)
  | [], c, h, ω, r, hJ, hr => by
    simp only [filterAll] at hr
    cases hr; exact hJ
  | y :: ys, c, h, ω, r, hJ, hr => by
    simp only [filterAll] at hr
    cases hl : F.loop k fuel (F.predict c ω).1 (F.predict c ω).2 with
    | none =>
      have : F.filter ⟨k, true, nan⟩ fuel y c ω = none := by unfold filter; simp only [hl, Option.map_none]
      rw [this] at hr; cases hr
    | some q =>
      obtain ⟨p, cs, ω'⟩ := q
      rw [filter_eq F ⟨k, true, nan⟩ fuel y c ω hl] at hr
      simp only [if_true, Option.map_eq_some_iff] at hr
      obtain ⟨q, hq, rfl⟩ := hr
      obtain ⟨c', h', ω₁, e1, e2, e3⟩ := loop_hist F J hp k fuel c h ω _ _ hJ hl
      simp only at e1 e2
      have hJ' : J ((if F.allNan y then F.propagate p ω' else F.correct y p ω').1 :: c' :: h') := by
        rw [e1]
        split
        · exact hp _ _ _ _ e3
        · exact hc _ _ _ _ _ e3
      have := filterAll_hist F J hp hc k nan fuel ys _ (c' :: h') _ q hJ' hq
      rw [← e2] at this
      simpa using this

theorem foldl_append_lastN {α : Type} (k : Option ℕ) (xs : List α) :
    (xs.foldl Deq.append (⟨k, []⟩ : Deq α)).items = lastN k xs := by
  have h := extend_items (⟨k, []⟩ : Deq α) xs (by cases k <;> simp [Deq.cut])
  unfold Deq.extend at h
  rw [h, cut_eq_lastN']
  rfl

end Verif.FilterOps

namespace Verif

variable {N B d : ℕ} {V Y Ω : Type}

theorem sisrPredict_time (M : ParticleModel N B d V Y Ω) (s : PCorr N B d V) (ω : Ω) :
    (M.sisrPredict s ω).1.prevX.time = s.x.time := by
  unfold ParticleModel.sisrPredict
  dsimp only
  split <;> rfl

/-- The particle filters with a proposal that advances. -/
theorem ticks (k : FilterKind) (M : ParticleModel N B d V Y Ω) (h : M.kind.increment = 1) :
    Spec.Ticks (k.ops M) (fun c => c.x.time) (fun c => ∀ b, c.ll b = XF.fin 0) where
  predict c ω := by
    cases k
    · exact sisrPredict_time M c ω
    · rfl
    · rfl
  propagate p ω := rfl
  zero p ω b := rfl
  correct y p ω := by
    have hs : ∀ q ω', (M.sampleAndWeight y q ω').1.1.time = q.prevX.time + 1 := by
      intro q ω'; show q.prevX.time + M.kind.increment = _; rw [h]
    cases k
    · exact hs p ω
    · exact hs _ _
    · exact hs p ω

end Verif
