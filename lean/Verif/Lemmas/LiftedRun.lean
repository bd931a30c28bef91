import Verif.Lemmas.LiftedLaw
import Verif.Props.Smoothing

/-!
# Runs of the filter whose particles are paths
-/

namespace Verif.Lifted

open Verif.Spec Verif.Unbiased Verif.Props XF

variable {N B d : ℕ} {V Y Ω : Type}

/-- The last recorded state is the one that the run returns. -/
theorem filterAll_last {S P : Type} (F : FilterOps S P Y Ω) (opt : FilterOptions) (fuel : ℕ) : ∀ (ys : List Y) (c : S) (ω : Ω) (r),
    F.filterAll opt fuel ys c ω = some r → ∃ l, (r.2.1.reverse ++ [c]) = r.1 :: l
  | [], c, ω, r, h => by
    cases h
    exact ⟨[], rfl⟩
  | y :: ys, c, ω, r, h => by
    unfold FilterOps.filterAll at h
    cases hf : F.filter opt fuel y c ω with
    | none => rw [hf] at h; cases h
    | some q =>
      obtain ⟨c', new, ω'⟩ := q
      rw [hf] at h
      simp only [Option.map_eq_some_iff] at h
      obtain ⟨r', hr', rfl⟩ := h
      obtain ⟨l, hl⟩ := filterAll_last F opt fuel ys c' ω' r' hr'
      have hnew : ∃ l', new = l' ++ [c'] := by
        unfold FilterOps.filter at hf
        simp only [Option.map_eq_some_iff] at hf
        obtain ⟨p, -, hp⟩ := hf
        cases hp
        exact ⟨_, rfl⟩
      obtain ⟨l', rfl⟩ := hnew
      refine ⟨l ++ (l'.reverse ++ [c]), ?_⟩
      dsimp only
      rw [List.reverse_append, List.reverse_append, List.append_assoc]
      simp only [List.reverse_cons, List.reverse_nil, List.nil_append]
      rw [List.append_assoc, ← List.append_assoc, hl, List.cons_append]

/-- Without steps between the observations there is nothing else to record. -/
theorem filterAll_one {S P : Type} (F : FilterOps S P Y Ω) (k : ℕ) (rec : Bool) (nan : NanStrategy) (fuel : ℕ)
    (h : rec = true ∨ k = 1) : ∀ (ys : List Y) (c : S) (ω : Ω),
    F.filterAll ⟨k, rec, nan⟩ fuel ys c ω = F.filterAll ⟨k, true, nan⟩ fuel ys c ω
  | [], c, ω => rfl
  | y :: ys, c, ω => by
    have e : F.filter ⟨k, rec, nan⟩ fuel y c ω = F.filter ⟨k, true, nan⟩ fuel y c ω := by
      rcases h with rfl | rfl
      · rfl
      · unfold FilterOps.filter
        have hl : ∀ p ω, F.loop 1 fuel p ω = some (p, [], ω) := fun p ω => by
          unfold FilterOps.loop
          rw [if_pos (Nat.mod_one _)]
        simp only [hl, Option.map_some]
        cases rec <;> rfl
    unfold FilterOps.filterAll
    rw [e]
    cases F.filter ⟨k, true, nan⟩ fuel y c ω with
    | none => rfl
    | some q => simp only [filterAll_one F k rec nan fuel h ys]

theorem slots_length {k : ℕ} (hk : 0 < k) (missing : Y → Bool) (y : Y) (ys : List Y) :
    (slots k missing (y :: ys)).length = ys.length * k + 1 := by
  have : ∀ l : List Y, (l.flatMap fun y => List.replicate (k - 1) none ++ [if missing y then none else some y]).length
      = l.length * k := by
    intro l
    induction l with
    | nil => simp
    | cons a l ih =>
      rw [List.flatMap_cons, List.length_append, ih]
      simp only [List.length_append, List.length_replicate, List.length_cons, List.length_nil, Nat.add_mul]
      omega
  rw [slots, List.length_cons, this]

variable (M : ParticleModel N B d V Y Ω)

/-- The time of the last state of a run. -/
theorem last_time (fk : FilterKind) (hinc : M.kind.increment = 1) (opt : FilterOptions) (hk : 0 < opt.observeEveryStep)
    (hrec : opt.recordIntermediary = true ∨ opt.observeEveryStep = 1) (fuel : ℕ) (hfuel : opt.observeEveryStep - 1 ≤ fuel)
    (ys : List Y) (c : PCorr N B d V) (h0 : c.x.time = 0) (ω : Ω) (r)
    (hr : (fk.ops M).filterAll opt fuel ys c ω = some r) :
    r.1.x.time = (slots opt.observeEveryStep M.allNan ys).length := by
  obtain ⟨k, rec, nan⟩ := opt
  rw [filterAll_one _ k rec nan fuel hrec] at hr
  obtain ⟨l, hl⟩ := filterAll_last _ _ _ ys c ω r hr
  cases ys with
  | nil =>
    cases hr
    exact h0
  | cons y ys =>
    obtain ⟨r', h1, h2⟩ := C24_recorded_times fk M hinc hk fuel hfuel nan y ys c h0 ω
    rw [hr] at h1
    cases h1
    have h3 : (r.1 :: l).map (fun c => c.x.time) = (List.range' 1 (ys.length * k + 1)).reverse ++ [0] := by
      rw [← hl, List.map_append, List.map_reverse, h2]
      simp [h0]
    rw [List.range'_1_concat, List.reverse_append] at h3
    have h4 := congrArg List.head? h3
    simp at h4
    show r.1.x.time = (slots k M.allNan (y :: ys)).length
    rw [slots_length (k := k) hk]
    omega

theorem values_reverse (s : PCorr N B d (ℕ → V)) (i : Fin N) (b : Fin B) (T : ℕ) (h : s.x.time = T) :
    (values s i b).reverse = List.ofFn fun n : Fin (T + 1) => fun e => s.x.value i b e n := by
  subst h
  unfold values
  rw [← List.map_reverse, List.reverse_reverse]
  apply List.ext_getElem
  · simp
  · intro n h1 h2
    rw [List.getElem_ofFn, List.getElem_map, List.getElem_range]

/-- A list of values is determined by the paths of the particles. -/
theorem eq_ofFn {T : ℕ} (r : List (Vals N B d V)) (v : Fin T → Vals N B d V) (hN : 0 < N) (hB : 0 < B)
    (h : ∀ i b, r.map (fun v => v i b) = List.ofFn fun n => v n i b) : r = List.ofFn v := by
  have hl : r.length = T := by
    have := congrArg List.length (h ⟨0, hN⟩ ⟨0, hB⟩)
    simpa using this
  apply List.ext_getElem
  · simp [hl]
  · intro n h1 h2
    funext i b
    have := List.getElem_of_eq (h i b) (i := n) (by simpa using h1)
    simpa using this

theorem lineage_length {Step : PCorr N B d V → (Fin N → Fin B → Fin N) → PCorr N B d V → Prop} {Init : PCorr N B d V → Prop}
    {st : List (PCorr N B d V)} {p : Fin N → Fin B → List (Fin d → V)} (h : Lineage Step Init st p) :
    ∀ i b, (p i b).length = st.length := by
  induction h with
  | init s h => intro i b; rfl
  | step s rest path sel c h hs ih => intro i b; simpa using ih (sel i b) b

/-- What fixed-lag smoothing returns for a run of APF: the paths carried by the particles. -/
theorem apf_paths (hinc : M.kind.increment = 1) (hN : 0 < N) (hB : 0 < B) (opt : FilterOptions)
    (hk : 0 < opt.observeEveryStep) (hrec : opt.recordIntermediary = true ∨ opt.observeEveryStep = 1) (fuel : ℕ)
    (hfuel : opt.observeEveryStep - 1 ≤ fuel) (ys : List Y) (x : Fin N → Fin B → Fin d → V) (ω : Ω) (r')
    (hr : (FilterKind.apf.ops (lifted M)).filterAll opt fuel ys (initializeFilter M.lo (constant x)) ω = some r') :
    smoothFl (initializeFilter M.lo x :: r'.2.1.map nowC) = .ok (List.ofFn
      fun n : Fin ((slots opt.observeEveryStep M.allNan ys).length + 1) => fun i b e => r'.1.x.value i b e n) := by
  have ht := last_time (lifted M) .apf hinc opt hk hrec fuel hfuel ys _ rfl ω r' hr
  obtain ⟨l, hl⟩ := filterAll_last _ _ _ ys _ ω r' hr
  obtain ⟨k, rec, nan⟩ := opt
  rw [filterAll_one _ k rec nan fuel hrec] at hr
  obtain ⟨c, rest, h1, h2⟩ := lineage_apf M hinc k nan fuel ys x ω r' hr
  rw [hl] at h1
  cases h1
  obtain ⟨s, h3, h4⟩ := C37_apf_ancestral_paths M _ _ h2 (r'.1 :: l).length (by simp)
  rw [List.take_of_length_le (by simp), ← List.map_reverse] at h3
  have e : (r'.1 :: l).reverse = initializeFilter M.lo (constant x) :: r'.2.1 := by
    rw [← hl]
    simp
  rw [e, List.map_cons, initialize_now] at h3
  rw [h3]
  congr 1
  refine eq_ofFn s _ hN hB fun i b => ?_
  refine Eq.trans ?_ (values_reverse r'.1 i b _ ht)
  rw [h4 i b, List.take_of_length_le]
  have : (values r'.1 i b).length = (r'.1 :: l).length := by
    simpa using lineage_length h2 i b
  rw [this]

/-- The ancestry of the particles of a run of SISR. -/
theorem sisr_paths (hinc : M.kind.increment = 1) (hN : 0 < N) (opt : FilterOptions)
    (hk : 0 < opt.observeEveryStep) (hrec : opt.recordIntermediary = true ∨ opt.observeEveryStep = 1) (fuel : ℕ)
    (hfuel : opt.observeEveryStep - 1 ≤ fuel) (ys : List Y) (x : Fin N → Fin B → Fin d → V) (ω : Ω) (r')
    (hr : (FilterKind.sisr.ops (lifted M)).filterAll opt fuel ys (initializeFilter M.lo (constant x)) ω = some r') :
    Lineage (SisrStep M) (Initial M.lo) (initializeFilter M.lo x :: r'.2.1.map nowC).reverse fun i b => (List.ofFn
      fun n : Fin ((slots opt.observeEveryStep M.allNan ys).length + 1) => fun e => r'.1.x.value i b e n).reverse := by
  have ht := last_time (lifted M) .sisr hinc opt hk hrec fuel hfuel ys _ rfl ω r' hr
  obtain ⟨l, hl⟩ := filterAll_last _ _ _ ys _ ω r' hr
  obtain ⟨k, rec, nan⟩ := opt
  rw [filterAll_one _ k rec nan fuel hrec] at hr
  obtain ⟨c, rest, h1, h2⟩ := lineage_sisr M hinc hN k nan fuel ys x ω r' hr
  rw [hl] at h1
  cases h1
  have e : (r'.1 :: l) = (initializeFilter M.lo (constant x) :: r'.2.1).reverse := by
    rw [← hl]
    simp
  rw [e, List.map_reverse, List.map_cons, initialize_now] at h2
  convert h2 using 3 with i b
  rw [← List.reverse_reverse (values r'.1 i b)]
  exact congrArg List.reverse (values_reverse r'.1 i b _ ht).symm

end Verif.Lifted
