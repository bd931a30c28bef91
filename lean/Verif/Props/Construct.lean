import Verif.Model.Construct
import Mathlib.Tactic.NormNum
import Mathlib.Tactic.Linarith

/-!
# C99 and C100: construction of the combined algorithms
-/

namespace Verif.Props

open Verif.Construct

/-- The value of a key, or a default. -/
def keyword (d : Dict) (key : String) (default : Val) : Val := (d.lookup key).getD default

/-- The keyword arguments fit a signature whose first `n` parameters are given by position. -/
def Fits (s : Sig) (n : ℕ) (kw : Dict) : Prop :=
  (keys kw).Nodup ∧ (∀ k ∈ keys kw, k ∉ (s.params.map Prod.fst).take n) ∧
    (s.varkw = true ∨ ∀ k ∈ keys kw, k ∈ s.params.map Prod.fst)

theorem keys_zip (names : List String) (pos : List Val) : keys (names.zip pos) = names.take pos.length := by
  unfold keys
  induction names generalizing pos with
  | nil => simp
  | cons a l ih => cases pos with
    | nil => simp
    | cons b m => simp [ih]

open Classical in
/-- Binding when all required parameters are given by position. -/
theorem bind_eq (s : Sig) (pos : List Val) (kw : Dict) (h1 : pos.length ≤ s.params.length)
    (h2 : ∀ p ∈ s.params, p.2.isNone = true → p.1 ∈ (s.params.map Prod.fst).take pos.length) :
    s.bind pos kw = if Fits s pos.length kw then
      .ok ((s.params.map Prod.fst).zip pos ++ kw.filter (fun p => p.1 ∈ s.params.map Prod.fst) ++
          s.params.map (fun p => (p.1, p.2.getD .none)), kw.filter fun p => p.1 ∉ s.params.map Prod.fst)
    else .error .typeError := by
  unfold Sig.bind
  simp only [keys_zip]
  have e1 : ¬ (s.params.map Prod.fst).length < pos.length := by simpa using h1
  rw [if_neg e1]
  unfold Fits
  by_cases hn : (keys kw).Nodup
  · rw [if_neg (not_not.2 hn)]
    by_cases h3 : ∀ k ∈ keys kw, k ∉ (s.params.map Prod.fst).take pos.length
    · rw [if_neg (by simpa using h3)]
      by_cases h4 : s.varkw = true ∨ ∀ k ∈ keys kw, k ∈ s.params.map Prod.fst
      · rw [if_neg, if_neg, if_pos ⟨hn, h3, h4⟩]
        · simp only [Bool.not_eq_true, List.any_eq_false]
          intro p hp
          by_cases hp2 : p.2.isNone = true
          · simp [h2 p hp hp2]
          · simp [hp2]
        · rcases h4 with h4 | h4
          · simp [h4]
          · have : ((keys kw).any fun k => k ∉ s.params.map Prod.fst) = false := by
              rw [List.any_eq_false]
              intro k hk
              simpa using h4 k hk
            rw [this]
            simp
      · have h5 : ¬ ((keys kw).Nodup ∧ (∀ k ∈ keys kw, k ∉ (s.params.map Prod.fst).take pos.length) ∧
          (s.varkw = true ∨ ∀ k ∈ keys kw, k ∈ s.params.map Prod.fst)) := fun h => h4 h.2.2
        rw [if_neg h5, if_pos]
        push Not at h4
        obtain ⟨h4, k, hk, hk'⟩ := h4
        rw [Bool.eq_false_iff.2 h4, Bool.not_false, Bool.true_and, List.any_eq_true]
        exact ⟨k, hk, by simpa using hk'⟩
    · have h5 : ¬ ((keys kw).Nodup ∧ (∀ k ∈ keys kw, k ∉ (s.params.map Prod.fst).take pos.length) ∧
          (s.varkw = true ∨ ∀ k ∈ keys kw, k ∈ s.params.map Prod.fst)) := fun h => h3 h.2.1
      rw [if_neg h5, if_pos]
      push Not at h3
      obtain ⟨k, hk, hk'⟩ := h3
      rw [List.any_eq_true]
      exact ⟨k, hk, by simpa using hk'⟩
  · have h5 : ¬ ((keys kw).Nodup ∧ (∀ k ∈ keys kw, k ∉ (s.params.map Prod.fst).take pos.length) ∧
          (s.varkw = true ∨ ∀ k ∈ keys kw, k ∈ s.params.map Prod.fst)) := fun h => hn h.1
    rw [if_neg h5, if_pos hn]

theorem lookup_filter (d : Dict) (q : String → Bool) (n : String) :
    (d.filter fun p => q p.1).lookup n = if q n then d.lookup n else none := by
  induction d with
  | nil => simp
  | cons a d ih =>
    obtain ⟨k, v⟩ := a
    by_cases hk : q k
    · rw [List.filter_cons_of_pos (by simpa using hk), List.lookup_cons, List.lookup_cons, ih]
      by_cases hn : n == k
      · have : n = k := by simpa using hn
        subst this
        simp [hk]
      · simp [hn]
    · rw [List.filter_cons_of_neg (by simpa using hk), ih, List.lookup_cons]
      by_cases hn : n == k
      · have : n = k := by simpa using hn
        subst this
        simp [hk]
      · simp [hn]

theorem lookup_append' (a b : Dict) (n : String) : (a ++ b).lookup n = (a.lookup n).or (b.lookup n) := by
  induction a with
  | nil => simp
  | cons x a ih =>
    obtain ⟨k, v⟩ := x
    rw [List.cons_append, List.lookup_cons, List.lookup_cons, ih]
    by_cases hn : n == k <;> simp [hn]

/-- A parameter that is not given by position has the value of the keyword argument or its default. -/
theorem get_eq (given kw defaults : Dict) (names : List String) (n : String) (h : n ∈ names)
    (hg : given.lookup n = none) (v : Val) (hd : defaults.lookup n = some v) :
    arg (given ++ kw.filter (fun p => p.1 ∈ names) ++ defaults) n = keyword kw n v := by
  unfold arg keyword
  rw [lookup_append', lookup_append', hg, hd]
  have := lookup_filter kw (fun k => decide (k ∈ names)) n
  simp only [h, decide_true, if_true] at this
  rw [this]
  cases kw.lookup n <;> rfl

/-- A parameter that is given by position. -/
theorem get_given (given rest : Dict) (n : String) (v : Val) (hg : given.lookup n = some v) :
    arg (given ++ rest) n = v := by
  unfold arg
  rw [lookup_append', hg]
  rfl

theorem keys_filter (d : Dict) (q : String → Bool) : keys (d.filter fun p => q p.1) = (keys d).filter q := by
  unfold keys
  rw [List.filter_map]
  rfl

theorem keyword_filter (d : Dict) (q : String → Bool) (n : String) (v : Val) (h : q n = true) :
    keyword (d.filter fun p => q p.1) n v = keyword d n v := by
  unfold keyword
  rw [lookup_filter, if_pos h]

/-- What binding gives. -/
structure BoundTo (s : Sig) (pos : List Val) (kw args extra : Dict) : Prop where
  nodup : (keys extra).Nodup
  mem : ∀ k, k ∈ keys extra ↔ k ∈ keys kw ∧ k ∉ s.params.map Prod.fst
  rest : ∀ n v, n ∉ s.params.map Prod.fst → keyword extra n v = keyword kw n v
  given : ∀ n v, ((s.params.map Prod.fst).zip pos).lookup n = some v → arg args n = v
  named : ∀ n v, n ∈ s.params.map Prod.fst → ((s.params.map Prod.fst).zip pos).lookup n = none →
    (s.params.map fun p => (p.1, p.2.getD .none)).lookup n = some v → arg args n = keyword kw n v

theorem bind_refuses (s : Sig) (pos : List Val) (kw : Dict) (h1 : pos.length ≤ s.params.length)
    (h2 : ∀ p ∈ s.params, p.2.isNone = true → p.1 ∈ (s.params.map Prod.fst).take pos.length)
    (h : ¬ Fits s pos.length kw) : s.bind pos kw = .error .typeError := by
  rw [bind_eq s pos kw h1 h2, if_neg h]

theorem bind_accepts (s : Sig) (pos : List Val) (kw : Dict) (h1 : pos.length ≤ s.params.length)
    (h2 : ∀ p ∈ s.params, p.2.isNone = true → p.1 ∈ (s.params.map Prod.fst).take pos.length)
    (h : Fits s pos.length kw) : ∃ args extra, s.bind pos kw = .ok (args, extra) ∧ BoundTo s pos kw args extra := by
  refine ⟨_, _, by rw [bind_eq s pos kw h1 h2, if_pos h], ?_⟩
  have hk := keys_filter kw (fun k => decide (k ∉ s.params.map Prod.fst))
  refine ⟨?_, ?_, ?_, ?_, ?_⟩
  · rw [hk]
    exact h.1.filter _
  · intro k
    rw [hk]
    simp [List.mem_filter]
  · intro n v hn
    exact keyword_filter kw (fun k => decide (k ∉ s.params.map Prod.fst)) n v (by simpa using hn)
  · intro n v hv
    rw [List.append_assoc]
    exact get_given _ _ _ _ hv
  · intro n v hn hg hd
    exact get_eq _ _ _ _ _ hn hg _ hd

/-- The arguments of `ParticleMetropolisHastings`. -/
abbrev mhNames : List String := ["num_steps", "proposal", "distance_threshold", "acceptance_threshold",
  "max_increases", "resampling"]

theorem mh_refuses (kw : Dict) (h : ¬ ((keys kw).Nodup ∧ ∀ k ∈ keys kw, k ∈ mhNames)) : mh [] kw = .error .typeError := by
  unfold mh baseKernel
  by_cases hf : Fits ⟨[("self", none), ("num_steps", some (.num 1)), ("proposal", some .none),
    ("distance_threshold", some .none), ("acceptance_threshold", some (.num 0.2)), ("max_increases", some (.num 5))],
    true⟩ 1 kw
  · obtain ⟨args, extra, e, b⟩ := bind_accepts _ [.obj "self"] kw (by simp) (by simp) hf
    rw [e]
    simp only [bind, Except.bind, pure, Except.pure]
    rw [bind_refuses _ _ _ (by simp) (by simp)]
    rintro ⟨g1, g2, g3⟩
    refine h ⟨hf.1, fun k hk => ?_⟩
    have f2 := hf.2.1 k hk
    by_cases hm : k ∈ keys extra
    · have a := g3.resolve_left (by simp) k hm
      have a' := g2 k hm
      simp at a a' ⊢
      tauto
    · rw [b.mem] at hm
      simp only [hk, true_and, not_not] at hm
      simp at f2 hm ⊢
      tauto
  · rw [bind_refuses _ _ _ (by simp) (by simp) hf]
    rfl

/-- What a keyword argument with a default that is made on the spot stands for: the value that was given, unless it is
`None` or zero. -/
noncomputable def given (a b : Val) : Val := open Classical in if a = .none ∨ a = .num 0 then b else a

theorem or_eq_given (a b : Val) : a.or b = given a b := by
  unfold Val.or given
  cases a with
  | none => simp [Val.truthy]
  | obj s => simp [Val.truthy]
  | num r =>
    by_cases h : r = 0
    · simp [Val.truthy, h]
    · simp [Val.truthy, h]

theorem mh_accepts (kw : Dict) (h1 : (keys kw).Nodup) (h2 : ∀ k ∈ keys kw, k ∈ mhNames) : mh [] kw =
      .ok ⟨keyword kw "num_steps" (.num 1), given (keyword kw "proposal" .none) (.obj "SymmetricMH"),
        keyword kw "distance_threshold" .none, keyword kw "acceptance_threshold" (.num 0.2),
        keyword kw "max_increases" (.num 5), keyword kw "resampling" (.obj "systematic")⟩ := by
  unfold mh baseKernel
  obtain ⟨args, extra, e, b⟩ := bind_accepts ⟨[("self", none), ("num_steps", some (.num 1)), ("proposal", some .none),
    ("distance_threshold", some .none), ("acceptance_threshold", some (.num 0.2)), ("max_increases", some (.num 5))],
    true⟩ [.obj "self"] kw (by simp) (by simp) ⟨h1, fun k hk => by
      have := h2 k hk
      simp at this ⊢
      rcases this with h | h | h | h | h | h <;> subst h <;> decide, Or.inl rfl⟩
  obtain ⟨args', extra', e', b'⟩ := bind_accepts ⟨[("self", none), ("resampling", some (.obj "systematic"))], false⟩
    [.obj "self"] extra (by simp) (by simp) ⟨b.nodup, fun k hk => by
      have := h2 k ((b.mem k).1 hk).1
      simp at this ⊢
      rcases this with h | h | h | h | h | h <;> subst h <;> decide, Or.inr fun k hk => by
      have a := (b.mem k).1 hk
      have := h2 k a.1
      have := a.2
      simp at *
      tauto⟩
  rw [e]
  simp only [bind, Except.bind, pure, Except.pure]
  rw [e']
  simp only
  rw [b.named "num_steps" (.num 1) (by simp) (by decide) rfl, b.named "proposal" .none (by simp) (by decide) rfl,
    b.named "distance_threshold" .none (by simp) (by decide) rfl,
    b.named "acceptance_threshold" (.num 0.2) (by simp) (by decide) rfl,
    b.named "max_increases" (.num 5) (by simp) (by decide) rfl,
    b'.named "resampling" (.obj "systematic") (by simp) (by decide) rfl, b.rest "resampling" _ (by simp), or_eq_given]

theorem keys_cons (n : String) (v : Val) (d : Dict) : keys ((n, v) :: d) = n :: keys d := rfl

theorem keyword_cons_self (n : String) (v : Val) (d : Dict) (w : Val) : keyword ((n, v) :: d) n w = v := by
  unfold keyword
  rw [List.lookup_cons, beq_self_eq_true]
  rfl

theorem keyword_cons_ne (n m : String) (h : m ≠ n) (v : Val) (d : Dict) (w : Val) :
    keyword ((n, v) :: d) m w = keyword d m w := by
  unfold keyword
  rw [List.lookup_cons, beq_eq_false_iff_ne.2 h]

/-- The keyword arguments of `SMC2` besides `context`. -/
abbrev smc2Names : List String := ["threshold", "kernel", "max_increases", "num_steps", "distance_threshold",
  "acceptance_threshold", "resampling"]

theorem makeFirst_accepts (f c p : Val) (kw : Dict) (h1 : (keys kw).Nodup) (h2 : ∀ k ∈ keys kw, k ∈ smc2Names) :
    makeFirst [f, c, p] kw = .ok ⟨f, p, c, keyword kw "threshold" (.num 0.5),
      ⟨keyword kw "num_steps" (.num 1), given (keyword kw "kernel" .none) (.obj "SymmetricMH"),
        keyword kw "distance_threshold" .none, keyword kw "acceptance_threshold" (.num 0.2),
        keyword kw "max_increases" (.num 5), keyword kw "resampling" (.obj "systematic")⟩⟩ := by
  have hne : ∀ k ∈ keys kw, k ∉ ["self", "filter_", "context", "particles", "proposal"] := by
    intro k hk
    have := h2 k hk
    simp at this ⊢
    rcases this with h | h | h | h | h | h | h <;> subst h <;> decide
  unfold makeFirst smc2
  obtain ⟨args, extra, e, b⟩ := bind_accepts ⟨[("self", none), ("filter_", none), ("context", none), ("particles", none)],
    true⟩ [.obj "self", f, c, p] kw (by simp) (by simp) ⟨h1, fun k hk => by
      have := hne k hk
      simp at this ⊢
      tauto, Or.inl rfl⟩
  rw [e]
  simp only [bind, Except.bind, pure, Except.pure]
  have hp : (pop extra "threshold" (.num 0.5)).1 = keyword kw "threshold" (.num 0.5) :=
    b.rest "threshold" _ (by simp)
  have hk2 : keys (pop extra "threshold" (.num 0.5)).2 = (keys extra).filter fun k => decide (k ≠ "threshold") :=
    keys_filter extra fun k => decide (k ≠ "threshold")
  have hr2 : ∀ n v, n ∉ ["self", "filter_", "context", "particles"] → n ≠ "threshold" →
      keyword (pop extra "threshold" (.num 0.5)).2 n v = keyword kw n v := by
    intro n v hn hn'
    have := keyword_filter extra (fun k => decide (k ≠ "threshold")) n v (by simpa using hn')
    exact this.trans (b.rest n v hn)
  have hm2 : ∀ k, k ∈ keys (pop extra "threshold" (.num 0.5)).2 → k ∈ keys kw ∧ k ≠ "threshold" := by
    intro k hk
    rw [hk2, List.mem_filter] at hk
    exact ⟨((b.mem k).1 hk.1).1, by simpa using hk.2⟩
  have hn2 : (keys (pop extra "threshold" (.num 0.5)).2).Nodup := by
    rw [hk2]
    exact b.nodup.filter _
  generalize (pop extra "threshold" (.num 0.5)) = t at *
  obtain ⟨args', extra', e', b'⟩ := bind_accepts ⟨[("self", none), ("filter_", none), ("particles", none),
    ("threshold", some (.num 0.2)), ("kernel", some .none), ("max_increases", some (.num 5)), ("context", some .none)],
    true⟩ [.obj "self", arg args "filter_", arg args "particles"]
    (("threshold", t.1) :: ("context", arg args "context") :: t.2) (by simp) (by simp) ⟨by
      rw [keys_cons, keys_cons]
      refine List.nodup_cons.2 ⟨?_, List.nodup_cons.2 ⟨?_, hn2⟩⟩
      · simp only [List.mem_cons, not_or]
        exact ⟨by decide, fun h => (hm2 _ h).2 rfl⟩
      · intro h
        have := hne _ (hm2 _ h).1
        simp at this, fun k hk => by
      rw [keys_cons, keys_cons] at hk
      simp only [List.mem_cons] at hk
      rcases hk with h | h | h
      · subst h; simp
      · subst h; simp
      · have := hne _ (hm2 _ h).1
        simp at this ⊢
        tauto, Or.inl rfl⟩
  rw [e']
  simp only
  have hm' : ∀ k ∈ keys extra', k ∈ keys kw ∧ k ∉ ["threshold", "kernel", "max_increases"] := by
    intro k hk
    obtain ⟨g1, g2⟩ := (b'.mem k).1 hk
    rw [keys_cons, keys_cons] at g1
    simp only [List.mem_cons] at g1
    rcases g1 with h | h | h
    · subst h; simp at g2
    · subst h; simp at g2
    · refine ⟨(hm2 _ h).1, ?_⟩
      simp at g2 ⊢
      tauto
  rw [mh_accepts]
  · simp only
    have hx : ∀ n v, n ∉ ["self", "filter_", "context", "particles"] → n ≠ "threshold" →
        keyword (("threshold", t.1) :: ("context", arg args "context") :: t.2) n v = keyword kw n v := by
      intro n v hn hn'
      rw [keyword_cons_ne _ _ hn', keyword_cons_ne _ _ (by simp at hn; tauto)]
      exact hr2 n v hn hn'
    have hy : ∀ n v, n ∉ ["self", "filter_", "context", "particles", "threshold", "kernel", "max_increases", "proposal"] →
        keyword (("proposal", arg args' "kernel") :: ("max_increases", arg args' "max_increases") :: extra') n v =
          keyword kw n v := by
      intro n v hn
      simp at hn
      rw [keyword_cons_ne _ _ (by tauto), keyword_cons_ne _ _ (by tauto), b'.rest n v (by simp; tauto),
        hx n v (by simp; tauto) (by tauto)]
    rw [hy "num_steps" _ (by decide), hy "distance_threshold" _ (by decide), hy "acceptance_threshold" _ (by decide),
      hy "resampling" _ (by decide), keyword_cons_self, keyword_cons_ne _ _ (by decide), keyword_cons_self,
      b'.given "filter_" (arg args "filter_") rfl, b'.given "particles" (arg args "particles") rfl,
      b'.named "context" .none (by simp) rfl rfl, b'.named "threshold" (.num 0.2) (by simp) rfl rfl,
      b'.named "kernel" .none (by simp) rfl rfl, b'.named "max_increases" (.num 5) (by simp) rfl rfl,
      hx "kernel" _ (by decide) (by decide), hx "max_increases" _ (by decide) (by decide), keyword_cons_self,
      keyword_cons_ne _ _ (by decide), keyword_cons_self, hp, b.given "filter_" f rfl, b.given "particles" p rfl,
      b.given "context" c rfl]
  · rw [keys_cons, keys_cons]
    refine List.nodup_cons.2 ⟨?_, List.nodup_cons.2 ⟨?_, b'.nodup⟩⟩
    · simp only [List.mem_cons, not_or]
      refine ⟨by decide, fun h => ?_⟩
      have := hne _ (hm' _ h).1
      simp at this
    · intro h
      have := (hm' _ h).2
      simp at this
  · intro k hk
    rw [keys_cons, keys_cons] at hk
    simp only [List.mem_cons] at hk
    rcases hk with h | h | h
    · subst h; simp
    · subst h; simp
    · have a := hm' k h
      have := h2 k a.1
      have := a.2
      simp at *
      tauto

theorem pop_mem (d : Dict) (n : String) (v : Val) (k : String) :
    k ∈ keys (pop d n v).2 ↔ k ∈ keys d ∧ k ≠ n := by
  have : keys (pop d n v).2 = (keys d).filter fun k => decide (k ≠ n) := keys_filter d fun k => decide (k ≠ n)
  rw [this, List.mem_filter]
  simp

theorem pop_nodup (d : Dict) (n : String) (v : Val) (h : (keys d).Nodup) : (keys (pop d n v).2).Nodup := by
  have : keys (pop d n v).2 = (keys d).filter fun k => decide (k ≠ n) := keys_filter d fun k => decide (k ≠ n)
  rw [this]
  exact h.filter _

theorem pop_keyword (d : Dict) (n : String) (v : Val) (k : String) (w : Val) (h : k ≠ n) :
    keyword (pop d n v).2 k w = keyword d k w :=
  keyword_filter d (fun k => decide (k ≠ n)) k w (by simpa using h)

theorem makeFirst_refuses (f c p : Val) (kw : Dict) (h : ¬ ((keys kw).Nodup ∧ ∀ k ∈ keys kw, k ∈ smc2Names)) :
    makeFirst [f, c, p] kw = .error .typeError := by
  unfold makeFirst smc2
  by_cases h1 : Fits ⟨[("self", none), ("filter_", none), ("context", none), ("particles", none)], true⟩ 4 kw
  swap
  · rw [bind_refuses _ [.obj "self", f, c, p] _ (by simp) (by simp) h1]
    rfl
  obtain ⟨args, extra, e, b⟩ := bind_accepts _ [.obj "self", f, c, p] kw (by simp) (by simp) h1
  rw [e]
  simp only [bind, Except.bind, pure, Except.pure]
  by_cases h2 : Fits ⟨[("self", none), ("filter_", none), ("particles", none),
    ("threshold", some (.num 0.2)), ("kernel", some .none), ("max_increases", some (.num 5)), ("context", some .none)],
    true⟩ 3 (("threshold", (pop extra "threshold" (.num 0.5)).1) :: ("context", arg args "context") ::
      (pop extra "threshold" (.num 0.5)).2)
  swap
  · rw [bind_refuses _ [.obj "self", arg args "filter_", arg args "particles"] _ (by simp) (by simp) h2]
  obtain ⟨args', extra', e', b'⟩ := bind_accepts _ [.obj "self", arg args "filter_", arg args "particles"] _
    (by simp) (by simp) h2
  rw [e']
  simp only
  rw [mh_refuses]
  rintro ⟨g1, g2⟩
  refine h ⟨h1.1, fun k hk => ?_⟩
  have f1 := h1.2.1 k hk
  have hx : k ∈ keys extra := (b.mem k).2 ⟨hk, by simpa using f1⟩
  by_cases ht : k = "threshold"
  · subst ht; simp
  have hy := (pop_mem extra "threshold" (.num 0.5) k).2 ⟨hx, ht⟩
  by_cases hz : k ∈ keys extra'
  · have a := g2 k (by rw [keys_cons, keys_cons]; simp [hz])
    rw [keys_cons, keys_cons] at g1
    have n1 : k ≠ "proposal" := fun e => (List.nodup_cons.1 g1).1 (by simp [← e, hz])
    simp at a ⊢
    tauto
  · rw [b'.mem, keys_cons, keys_cons] at hz
    simp [hy] at hz
    have f2 := h2.2.1 k (by rw [keys_cons, keys_cons]; simp [hy])
    simp at f1 f2 ⊢
    tauto

/-- The keyword arguments of `NESS` besides `context`. -/
abbrev nessNames : List String := ["threshold", "kernel", "discrete"]

theorem online_refuses (f p : Val) (kw : Dict)
    (h : ¬ ((keys kw).Nodup ∧ ∀ k ∈ keys kw, k ∈ ["kernel", "discrete", "context"])) :
    online [f, p] kw = .error .typeError := by
  unfold online
  rw [bind_refuses _ [.obj "self", f, p] _ (by simp) (by simp)]
  · rfl
  rintro ⟨g1, g2, g3⟩
  refine h ⟨g1, fun k hk => ?_⟩
  have a := g2 k hk
  have a' := g3.resolve_left (by simp) k hk
  simp at a a' ⊢
  tauto

theorem online_accepts (f p : Val) (kw : Dict) (h1 : (keys kw).Nodup)
    (h2 : ∀ k ∈ keys kw, k ∈ ["kernel", "discrete", "context"]) :
    online [f, p] kw = .ok ⟨f, p, keyword kw "context" .none, given (keyword kw "kernel" .none) (.obj "NonShrinkingKernel"),
      keyword kw "discrete" (.num 0), .none⟩ := by
  unfold online
  obtain ⟨args, extra, e, b⟩ := bind_accepts ⟨[("self", none), ("filter_", none), ("particles", none),
    ("kernel", some .none), ("discrete", some (.num 0)), ("context", some .none)], false⟩ [.obj "self", f, p] kw
    (by simp) (by simp) ⟨h1, fun k hk => by
      have := h2 k hk
      simp at this ⊢
      rcases this with h | h | h <;> subst h <;> decide, Or.inr fun k hk => by
      have := h2 k hk
      simp at this ⊢
      tauto⟩
  rw [e]
  simp only [bind, Except.bind, pure, Except.pure]
  rw [b.given "filter_" f rfl, b.given "particles" p rfl, b.named "kernel" .none (by simp) rfl rfl,
    b.named "discrete" (.num 0) (by simp) rfl rfl, b.named "context" .none (by simp) rfl rfl, or_eq_given]

theorem makeSecond_accepts (f c : Val) (n : ℝ) (kw : Dict) (h1 : (keys kw).Nodup)
    (h2 : ∀ k ∈ keys kw, k ∈ nessNames) (t : ℝ) (h3 : keyword kw "threshold" (.num 0.95) = .num t) :
    makeSecond [f, c, .num n] kw = .ok ⟨f, .num n, c,
      given (keyword kw "kernel" (.obj "ShrinkingKernel")) (.obj "NonShrinkingKernel"), keyword kw "discrete" (.num 0),
      .num (t * n)⟩ := by
  have hne : ∀ k ∈ keys kw, k ∉ ["self", "filter_", "context", "particles"] := by
    intro k hk
    have := h2 k hk
    simp at this ⊢
    rcases this with h | h | h <;> subst h <;> decide
  unfold makeSecond ness
  obtain ⟨args, extra, e, b⟩ := bind_accepts ⟨[("self", none), ("filter_", none), ("context", none), ("particles", none)],
    true⟩ [.obj "self", f, c, .num n] kw (by simp) (by simp) ⟨h1, fun k hk => by
      have := hne k hk
      simp at this ⊢
      tauto, Or.inl rfl⟩
  rw [e]
  simp only [bind, Except.bind, pure, Except.pure]
  have hk1 : (pop extra "kernel" (.obj "ShrinkingKernel")).1 = keyword kw "kernel" (.obj "ShrinkingKernel") :=
    b.rest "kernel" _ (by simp)
  have hm1 := pop_mem extra "kernel" (.obj "ShrinkingKernel")
  have hn1 := pop_nodup extra "kernel" (.obj "ShrinkingKernel") b.nodup
  have hr1 := pop_keyword extra "kernel" (.obj "ShrinkingKernel")
  generalize pop extra "kernel" (.obj "ShrinkingKernel") = u at *
  have hk2 : (pop u.2 "threshold" (.num 0.95)).1 = keyword kw "threshold" (.num 0.95) :=
    (hr1 "threshold" (.num 0.95) (by decide)).trans (b.rest "threshold" _ (by simp))
  have hm2 := pop_mem u.2 "threshold" (.num 0.95)
  have hn2 := pop_nodup u.2 "threshold" (.num 0.95) hn1
  have hr2 := pop_keyword u.2 "threshold" (.num 0.95)
  generalize pop u.2 "threshold" (.num 0.95) = v at *
  have hm : ∀ k ∈ keys v.2, k = "discrete" := by
    intro k hk
    obtain ⟨g1, g2⟩ := (hm2 k).1 hk
    obtain ⟨g3, g4⟩ := (hm1 k).1 g1
    have := h2 k ((b.mem k).1 g3).1
    simp at this
    tauto
  obtain ⟨args', extra', e', b'⟩ := bind_accepts ⟨[("self", none), ("filter_", none), ("particles", none),
    ("threshold", some (.num 0.9))], true⟩ [.obj "self", arg args "filter_", arg args "particles"]
    (("kernel", u.1) :: ("threshold", v.1) :: ("context", arg args "context") :: v.2) (by simp) (by simp) ⟨by
      rw [keys_cons, keys_cons, keys_cons]
      refine List.nodup_cons.2 ⟨?_, List.nodup_cons.2 ⟨?_, List.nodup_cons.2 ⟨?_, hn2⟩⟩⟩
      · simp only [List.mem_cons, not_or]
        exact ⟨by decide, by decide, fun h => by have := hm _ h; simp at this⟩
      · simp only [List.mem_cons, not_or]
        exact ⟨by decide, fun h => by have := hm _ h; simp at this⟩
      · exact fun h => by have := hm _ h; simp at this, fun k hk => by
      rw [keys_cons, keys_cons, keys_cons] at hk
      simp only [List.mem_cons] at hk
      rcases hk with h | h | h | h
      · subst h; simp
      · subst h; simp
      · subst h; simp
      · have := hm _ h
        subst this; simp, Or.inl rfl⟩
  rw [e']
  simp only
  rw [online_accepts _ _ _ b'.nodup]
  · simp only
    rw [b'.given "particles" (arg args "particles") rfl, b'.given "filter_" (arg args "filter_") rfl,
      b'.named "threshold" (.num 0.9) (by simp) rfl rfl, b'.rest "context" _ (by simp), b'.rest "kernel" _ (by simp),
      b'.rest "discrete" _ (by simp), keyword_cons_ne _ _ (by decide), keyword_cons_self, keyword_cons_ne _ _ (by decide),
      keyword_cons_ne _ _ (by decide), keyword_cons_self, keyword_cons_self, keyword_cons_ne _ _ (by decide),
      keyword_cons_ne _ _ (by decide), keyword_cons_ne _ _ (by decide), hr2 _ _ (by decide), hr1 _ _ (by decide),
      b.rest "discrete" _ (by simp), hk1, hk2, h3, b.given "filter_" f rfl, b.given "particles" (.num n) rfl,
      b.given "context" c rfl]
    rfl
  · intro k hk
    obtain ⟨g1, g2⟩ := (b'.mem k).1 hk
    rw [keys_cons, keys_cons, keys_cons] at g1
    simp only [List.mem_cons] at g1
    rcases g1 with h | h | h | h
    · subst h; simp
    · subst h; simp at g2
    · subst h; simp
    · have := hm _ h
      subst this; simp

theorem makeSecond_refuses (f c p : Val) (kw : Dict) (h : ¬ ((keys kw).Nodup ∧ (∀ k ∈ keys kw, k ∈ nessNames) ∧
    (∃ t, keyword kw "threshold" (.num 0.95) = .num t) ∧ ∃ n, p = .num n)) :
    makeSecond [f, c, p] kw = .error .typeError := by
  unfold makeSecond ness
  by_cases h1 : Fits ⟨[("self", none), ("filter_", none), ("context", none), ("particles", none)], true⟩ 4 kw
  swap
  · rw [bind_refuses _ [.obj "self", f, c, p] _ (by simp) (by simp) h1]
    rfl
  obtain ⟨args, extra, e, b⟩ := bind_accepts _ [.obj "self", f, c, p] kw (by simp) (by simp) h1
  rw [e]
  simp only [bind, Except.bind, pure, Except.pure]
  have hm1 := pop_mem extra "kernel" (.obj "ShrinkingKernel")
  have hr1 := pop_keyword extra "kernel" (.obj "ShrinkingKernel")
  generalize pop extra "kernel" (.obj "ShrinkingKernel") = u at *
  have hk2 : (pop u.2 "threshold" (.num 0.95)).1 = keyword kw "threshold" (.num 0.95) :=
    (hr1 "threshold" (.num 0.95) (by decide)).trans (b.rest "threshold" _ (by simp))
  have hm2 := pop_mem u.2 "threshold" (.num 0.95)
  generalize pop u.2 "threshold" (.num 0.95) = v at *
  by_cases h2 : Fits ⟨[("self", none), ("filter_", none), ("particles", none), ("threshold", some (.num 0.9))], true⟩ 3
    (("kernel", u.1) :: ("threshold", v.1) :: ("context", arg args "context") :: v.2)
  swap
  · rw [bind_refuses _ [.obj "self", arg args "filter_", arg args "particles"] _ (by simp) (by simp) h2]
  obtain ⟨args', extra', e', b'⟩ := bind_accepts _ [.obj "self", arg args "filter_", arg args "particles"] _
    (by simp) (by simp) h2
  rw [e']
  simp only
  by_cases h3 : (keys extra').Nodup ∧ ∀ k ∈ keys extra', k ∈ ["kernel", "discrete", "context"]
  swap
  · rw [online_refuses _ _ _ h3]
  rw [online_accepts _ _ _ h3.1 h3.2]
  simp only
  rw [b'.given "particles" (arg args "particles") rfl, b'.named "threshold" (.num 0.9) (by simp) rfl rfl,
    keyword_cons_ne _ _ (by decide), keyword_cons_self, hk2, b.given "particles" p rfl]
  have hsub : ∀ k ∈ keys kw, k ∈ nessNames := by
    intro k hk
    have f1 := h1.2.1 k hk
    have hx : k ∈ keys extra := (b.mem k).2 ⟨hk, by simpa using f1⟩
    by_cases hk1 : k = "kernel"
    · subst hk1; simp
    by_cases ht : k = "threshold"
    · subst ht; simp
    have hy := (hm2 k).2 ⟨(hm1 k).2 ⟨hx, hk1⟩, ht⟩
    by_cases hz : k ∈ keys extra'
    · have a := h3.2 k hz
      simp at f1 a ⊢
      tauto
    · rw [b'.mem, keys_cons, keys_cons, keys_cons] at hz
      have f2 := h2.2.1 k (by rw [keys_cons, keys_cons, keys_cons]; simp [hy])
      simp [hy] at hz
      simp at f2
      tauto
  cases ht : keyword kw "threshold" (.num 0.95) with
  | none => rfl
  | obj _ => rfl
  | num t =>
    cases p with
    | none => rfl
    | obj _ => rfl
    | num n => exact (h ⟨h1.1, hsub, ⟨t, ht⟩, n, rfl⟩).elim

/-! ### C99 -/

/-- The dictionaries name arguments of SMC2 and NESS, every name once, and the threshold for NESS is a number. -/
def Accepted (smc2Kw nessKw : Dict) : Prop :=
  ((keys smc2Kw).Nodup ∧ ∀ k ∈ keys smc2Kw, k ∈ ["threshold", "kernel", "max_increases", "num_steps",
    "distance_threshold", "acceptance_threshold", "resampling"]) ∧
  (keys nessKw).Nodup ∧ (∀ k ∈ keys nessKw, k ∈ ["threshold", "kernel", "discrete"]) ∧
  ∃ t, keyword nessKw "threshold" (.num 0.95) = .num t

/-- `NESSMC2` gives every argument to the algorithm it is meant for: the value in the dictionary, or else the
default. Both algorithms use the same filter and the same number of parameter particles. -/
theorem C99_fields (f : Val) (n : ℝ) (switch : Option Val) (smc2Kw nessKw : Dict) (h : Accepted smc2Kw nessKw) :
    ∃ c t, nessmc2 f (.num n) switch smc2Kw nessKw = .ok c ∧
      c.switch = switch.getD (.num 500) ∧
      c.first.filter = f ∧ c.second.filter = f ∧ c.first.particles = .num n ∧ c.second.particles = .num n ∧
      c.first.threshold = keyword smc2Kw "threshold" (.num 0.5) ∧
      c.first.kernel.proposal = given (keyword smc2Kw "kernel" .none) (.obj "SymmetricMH") ∧
      c.first.kernel.maxIncreases = keyword smc2Kw "max_increases" (.num 5) ∧
      c.first.kernel.numSteps = keyword smc2Kw "num_steps" (.num 1) ∧
      c.first.kernel.distThresh = keyword smc2Kw "distance_threshold" .none ∧
      c.first.kernel.accThresh = keyword smc2Kw "acceptance_threshold" (.num 0.2) ∧
      c.first.kernel.resampler = keyword smc2Kw "resampling" (.obj "systematic") ∧
      keyword nessKw "threshold" (.num 0.95) = .num t ∧ c.second.threshold = .num (t * n) ∧
      c.second.kernel = given (keyword nessKw "kernel" (.obj "ShrinkingKernel")) (.obj "NonShrinkingKernel") ∧
      c.second.discrete = keyword nessKw "discrete" (.num 0) := by
  obtain ⟨⟨h1, h2⟩, h3, h4, t, h5⟩ := h
  unfold nessmc2 combined
  rw [makeFirst_accepts _ _ _ _ h1 h2, makeSecond_accepts _ _ _ _ h3 h4 t h5]
  exact ⟨_, t, rfl, rfl, rfl, rfl, rfl, rfl, rfl, rfl, rfl, rfl, rfl, rfl, rfl, h5, rfl, rfl, rfl⟩

/-- All other dictionaries are refused with a `TypeError`: nothing is ignored. -/
theorem C99_refused (f : Val) (n : ℝ) (switch : Option Val) (smc2Kw nessKw : Dict) (h : ¬ Accepted smc2Kw nessKw) :
    nessmc2 f (.num n) switch smc2Kw nessKw = .error .typeError := by
  unfold nessmc2 combined
  by_cases h1 : (keys smc2Kw).Nodup ∧ ∀ k ∈ keys smc2Kw, k ∈ smc2Names
  · rw [makeFirst_accepts _ _ _ _ h1.1 h1.2]
    simp only [bind, Except.bind]
    rw [makeSecond_refuses]
    exact fun h' => h ⟨h1, h'.1, h'.2.1, h'.2.2.1⟩
  · rw [makeFirst_refuses _ _ _ _ h1]
    rfl

/-- Three moves per rejuvenation with a decaying threshold, then NESS that mutates only some particles. -/
example : ∃ c, nessmc2 (.obj "filter") (.num 250) none [("num_steps", .num 3), ("threshold", .obj "DecayingThreshold")]
      [("discrete", .num 1)] = .ok c ∧
    c.first.kernel.numSteps = .num 3 ∧ c.first.threshold = .obj "DecayingThreshold" ∧ c.second.discrete = .num 1 ∧
    c.second.threshold = .num (0.95 * 250) := by
  obtain ⟨c, t, h, -, -, -, -, -, h1, -, -, h2, -, -, -, h3, h4, -, h5⟩ := C99_fields (.obj "filter") 250 none
    [("num_steps", .num 3), ("threshold", .obj "DecayingThreshold")] [("discrete", .num 1)]
    ⟨⟨by decide, by decide⟩, by decide, by decide, 0.95, rfl⟩
  have h3 : Val.num 0.95 = .num t := h3
  injection h3 with h3
  subst h3
  exact ⟨c, h, h2, h1, h5, h4⟩

/-- Naming the proposal as the Metropolis-Hastings kernel calls it is an error. -/
example : nessmc2 (.obj "filter") (.num 250) none [("proposal", .obj "RandomWalk")] [] = .error .typeError := by
  apply C99_refused
  rintro ⟨⟨-, h⟩, -⟩
  have := h "proposal" (by simp [keys])
  simp at this

/-! ### C100 -/

/-- What is claimed: `SMC2FW` can be constructed, and gives the keyword arguments to SMC2 and to fixed-width NESS. -/
def C100_claim : Prop :=
  ∀ (f : Val) (n : ℝ) (switch : Option Val) (smc2Kw nessKw : Dict),
    ((keys smc2Kw).Nodup ∧ ∀ k ∈ keys smc2Kw, k ∈ smc2Names) →
    ((keys nessKw).Nodup ∧ ∀ k ∈ keys nessKw, k ∈ ["block_len", "kernel", "discrete"]) →
    ∃ c, smc2fw f (.num n) switch smc2Kw nessKw = .ok c ∧ c.second.threshold = keyword nessKw "block_len" (.num 125)

/-- `SMC2FW` cannot be constructed, whatever the arguments are: its `make_second` takes no context, but it is
given one. -/
theorem C100_never (f p : Val) (switch : Option Val) (smc2Kw nessKw : Dict) :
    smc2fw f p switch smc2Kw nessKw = .error .typeError := by
  unfold smc2fw combined
  cases h : makeFirst [f, .none, p] smc2Kw with
  | error e => cases e; rfl
  | ok a =>
    simp only [bind, Except.bind]
    have : makeSecondFw [f, .none, p] nessKw = .error .typeError := by
      unfold makeSecondFw Sig.bind
      rfl
    rw [this]

/-- The first algorithm of `SMC2FW` would be that of `NESSMC2`, and fixed-width NESS can be constructed by itself with
the arguments that were meant for it. -/
theorem C100_alone_partial (f p : Val) (kw : Dict) (h1 : (keys kw).Nodup)
    (h2 : ∀ k ∈ keys kw, k ∈ ["block_len", "kernel", "discrete"]) :
    ∃ c, fixedNess [f, p] kw = .ok c ∧ c.filter = f ∧ c.particles = p ∧
      c.threshold = keyword kw "block_len" (.num 125) ∧
      c.kernel = given (keyword kw "kernel" .none) (.obj "NonShrinkingKernel") ∧
      c.discrete = keyword kw "discrete" (.num 0) := by
  unfold fixedNess
  obtain ⟨args, extra, e, b⟩ := bind_accepts ⟨[("self", none), ("filter_", none), ("particles", none),
    ("block_len", some (.num 125))], true⟩ [.obj "self", f, p] kw (by simp) (by simp) ⟨h1, fun k hk => by
      have := h2 k hk
      simp at this ⊢
      rcases this with h | h | h <;> subst h <;> decide, Or.inl rfl⟩
  rw [e]
  simp only [bind, Except.bind, pure, Except.pure]
  rw [online_accepts _ _ _ b.nodup (fun k hk => by
    obtain ⟨g1, g2⟩ := (b.mem k).1 hk
    have := h2 k g1
    simp at this g2 ⊢
    tauto)]
  refine ⟨_, rfl, b.given "filter_" f rfl, b.given "particles" p rfl, b.named "block_len" (.num 125) (by simp) rfl rfl,
    ?_, b.rest "discrete" _ (by simp)⟩
  show given (keyword extra "kernel" .none) _ = _
  rw [b.rest "kernel" _ (by simp)]

/-- `make_second` of `SMC2FW` gives fixed-width NESS its arguments when it is called as it is declared, that is without the context. -/
theorem C100_second_partial (f p : Val) (kw : Dict) (h1 : (keys kw).Nodup)
    (h2 : ∀ k ∈ keys kw, k ∈ ["block_len", "kernel", "discrete"]) :
    ∃ c, makeSecondFw [f, p] kw = .ok c ∧ c.filter = f ∧ c.particles = p ∧
      c.threshold = keyword kw "block_len" (.num 125) ∧
      c.kernel = given (keyword kw "kernel" .none) (.obj "NonShrinkingKernel") ∧
      c.discrete = keyword kw "discrete" (.num 0) := by
  unfold makeSecondFw
  obtain ⟨args, extra, e, b⟩ := bind_accepts ⟨[("self", none), ("filter_", none), ("particles", none)], true⟩ [.obj "self", f, p] kw
    (by simp) (by simp) ⟨h1, fun k hk => by
      have := h2 k hk
      simp at this ⊢
      rcases this with h | h | h <;> subst h <;> decide, Or.inl rfl⟩
  rw [e]
  simp only [bind, Except.bind]
  rw [show arg args "filter_" = f from b.given "filter_" f rfl, show arg args "particles" = p from b.given "particles" p rfl]
  obtain ⟨c, c1, c2, c3, c4, c5, c6⟩ := C100_alone_partial f p extra b.nodup fun k hk => h2 k ((b.mem k).1 hk).1
  refine ⟨c, c1, c2, c3, c4.trans (b.rest "block_len" _ (by simp)), ?_, c6.trans (b.rest "discrete" _ (by simp))⟩
  rw [c5, b.rest "kernel" _ (by simp)]

/-- A case of `C100_second_partial`. -/
example : ∃ c, makeSecondFw [.obj "filter", .num 250] [("block_len", .num 50), ("discrete", .num 1)] = .ok c ∧ c.threshold = .num 50 := by
  obtain ⟨c, h, -, -, h1, -⟩ := C100_second_partial (.obj "filter") (.num 250) [("block_len", .num 50), ("discrete", .num 1)] (by decide)
    (by decide)
  exact ⟨c, h, h1⟩

/-- No arguments besides filter and particles. -/
theorem C100_negation : ¬ C100_claim := by
  intro h
  obtain ⟨c, hc, -⟩ := h (.obj "filter") 250 none [] [] ⟨by decide, by decide⟩ ⟨by decide, by decide⟩
  rw [C100_never] at hc
  exact nomatch hc

/-- A block length for fixed-width NESS alone. -/
example : ∃ c, fixedNess [.obj "filter", .num 250] [("block_len", .num 50)] = .ok c ∧ c.threshold = .num 50 := by
  obtain ⟨c, h, -, -, h1, -⟩ := C100_alone_partial (.obj "filter") (.num 250) [("block_len", .num 50)] (by decide)
    (by decide)
  exact ⟨c, h, h1⟩

end Verif.Props
