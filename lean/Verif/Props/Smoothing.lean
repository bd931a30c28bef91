import Verif.Lemmas.Smoothing
import Verif.Lemmas.Filter
import Verif.Props.Filter
import Verif.Props.Particle

/-!
# Properties C37, C38, C39 and C40: smoothing
-/

namespace Verif.Props

open Verif Verif.Spec XF

variable {N B d : ℕ} {V Y Ω : Type}

/-! ## C37 -/

/-- Fixed-lag smoothing of the newest `n` states of a run returns the newest `n` entries of the paths. -/
def FlReturnsPaths (states : List (PCorr N B d V)) (path : Fin N → Fin B → List (Fin d → V)) : Prop :=
  ∀ n, 0 < n → ∃ r, smoothFl (states.take n).reverse = .ok r ∧
    ∀ i b, r.map (fun v => v i b) = ((path i b).take n).reverse

/-- C37 in full: for runs of APF and SISR of any length, fixed-lag smoothing of the last `n` states returns,
for each final particle, the particles it descends from. False for SISR, see `C37_negation`. -/
def C37_claim : Prop :=
  ∀ (N B d : ℕ) (V Y Ω : Type) (M : ParticleModel N B d V Y Ω) (states : List (PCorr N B d V))
    (path : Fin N → Fin B → List (Fin d → V)), 0 < N →
    (Lineage (ApfStep M) (Initial M.lo) states path → FlReturnsPaths states path) ∧
    (Lineage (SisrStep M) (Initial M.lo) states path → FlReturnsPaths states path)

theorem flReturnsPaths (step : PCorr N B d V → (Fin N → Fin B → Fin N) → PCorr N B d V → Prop)
    (Init : PCorr N B d V → Prop) (hidx : ∀ s sel c, step s sel c → c.prev = sel)
    (states : List (PCorr N B d V)) (path) (h : Lineage step Init states path) :
    FlReturnsPaths states path := by
  intro n hn
  obtain ⟨n, rfl⟩ : ∃ m, n = m + 1 := ⟨n - 1, by omega⟩
  cases hst : states with
  | nil => exact absurd hst (lineage_ne_nil h)
  | cons latest rest =>
    have key := flLoop_eq step Init hidx states path h latest rest hst (fun i _ => i)
    refine ⟨(latest.x.value :: flLoop latest (fun i _ => i) (rest.take n)).reverse, ?_, ?_⟩
    · simp [smoothFl]
    · intro i b
      rw [← key i b, flLoop_take, List.take_succ_cons, List.map_reverse, List.map_cons, List.map_take]

/-- C37 for APF: holds in full, for every run and every window. -/
theorem C37_apf_ancestral_paths (M : ParticleModel N B d V Y Ω) (states : List (PCorr N B d V)) (path)
    (h : Lineage (ApfStep M) (Initial M.lo) states path) : FlReturnsPaths states path := by
  apply flReturnsPaths (ApfStep M) (Initial M.lo) _ states path h
  intro s sel c hs
  cases hs <;> rfl

/-- Every recorded run of APF is such a run: the theorem above applies to all of them. -/
theorem C37_apf_runs (M : ParticleModel N B d V Y Ω) (k : ℕ) (nan : NanStrategy) (fuel : ℕ) (ys : List Y)
    (x : Fin N → Fin B → Fin d → V) (ω : Ω) (r)
    (hr : (FilterKind.apf.ops M).filterAll ⟨k, true, nan⟩ fuel ys (initializeFilter M.lo x) ω = some r) :
    ∃ path, Lineage (ApfStep M) (Initial M.lo) (initializeFilter M.lo x :: r.2.1).reverse path ∧
      FlReturnsPaths (initializeFilter M.lo x :: r.2.1).reverse path := by
  have := FilterOps.filterAll_hist (FilterKind.apf.ops M)
    (fun h => ∃ path, Lineage (ApfStep M) (Initial M.lo) h path)
    (fun c h ω ω' ⟨path, hp⟩ => ⟨_, .step c h path _ _ hp (.predict c ω ω')⟩)
    (fun c h y ω ω' ⟨path, hp⟩ => ⟨_, .step c h path _ _ hp (.observe c ω y ω')⟩)
    k nan fuel ys _ [] ω r ⟨_, .init _ ⟨x, rfl⟩⟩ hr
  obtain ⟨path, hp⟩ := this
  rw [← List.reverse_cons] at hp
  exact ⟨path, hp, C37_apf_ancestral_paths M _ path hp⟩

/-- Case: with `walk` runs of any length exist. -/
example : ((FilterKind.apf.ops (walk .bootstrap)).filterAll ⟨1, true, .skip⟩ 0 [some 1, none, some 2]
    (initializeFilter (-1000) fun _ _ _ => 0) 0).isSome := by
  obtain ⟨es, ω', -, -, h⟩ := C24_every_kth_step .apf (walk .bootstrap) rfl (k := 1) (by norm_num) 0
    (by norm_num) [some 1, none, some 2] walkInit rfl 0
  have := h true .skip
  unfold walkInit at this
  rw [this]; rfl

theorem sisr_usable (M : ParticleModel N B d V Y Ω) {s : PCorr N B d V} {sel c} (h : SisrStep M s sel c) :
    ∀ i b, Usable (c.w i b) := by
  cases h with
  | observe ω y ω' _ h => exact fun i b => constructed_usable _ _ _ _ _ i b
  | predict ω ω' _ h => exact fun i b => constructed_usable _ _ _ _ _ i b

theorem initial_usable {lo : ℝ} {s : PCorr N B d V} (h : Initial lo s) : ∀ i b, Usable (s.w i b) := by
  obtain ⟨x, rfl⟩ := h
  exact fun i b => constructed_usable _ _ _ _ _ i b

theorem sisrStep_prev (M : ParticleModel N B d V Y Ω) (hN : 0 < N) {s : PCorr N B d V} {sel c}
    (hs : ∀ i b, Usable (s.w i b)) (h : SisrStep M s sel c) (i : Fin N) (b : Fin B) :
    (Degenerate M s b → c.prev i b = sel i b) ∧
    (¬ Degenerate M s b → c.prev i b = s.prev i b ∧ sel i b = i) := by
  cases h with
  | observe ω y ω' _ h => exact (sisr_prediction M s ω hN hs sel h i b).2
  | predict ω ω' _ h => exact (sisr_prediction M s ω hN hs sel h i b).2

/-- C37 for SISR, partial: it holds if at each step each parallel filter is resampled, or the stored indices
are still the initial ones (no resampling so far). Missing: a step without resampling after a step with
resampling, see `C37_sisr_stale`. -/
theorem C37_sisr_ancestral_paths_partial (M : ParticleModel N B d V Y Ω) (hN : 0 < N)
    (states : List (PCorr N B d V)) (path)
    (h : Lineage (fun s sel c => SisrStep M s sel c ∧
      ∀ b, Degenerate M s b ∨ ∀ i, s.prev i b = i) (Initial M.lo) states path) :
    FlReturnsPaths states path := by
  have h' := (lineage_inv (Inv := fun s => ∀ i b, Usable (s.w i b)) (fun s => initial_usable)
    (fun s sel c hs => sisr_usable M hs.1) h).1
  refine flReturnsPaths _ _ ?_ states path h'
  rintro s sel c ⟨hu, hs, hd⟩
  funext i b
  obtain ⟨h1, h2⟩ := sisrStep_prev M hN hu hs i b
  by_cases hb : Degenerate M s b
  · exact h1 hb
  · obtain ⟨e1, e2⟩ := h2 hb
    rw [e1, e2]
    exact (hd b).resolve_left hb i

/-- C37 holds in full for SISR that resamples at each step (threshold above the number of particles). -/
theorem C37_sisr_always_resampling (M : ParticleModel N B d V Y Ω) (hN : 0 < N) (ht : (N : ℝ) < M.threshold)
    (states : List (PCorr N B d V)) (path)
    (h : Lineage (SisrStep M) (Initial M.lo) states path) : FlReturnsPaths states path := by
  have h' := (lineage_inv (Inv := fun s => ∀ i b, Usable (s.w i b)) (fun s => initial_usable)
    (fun s sel c hs => sisr_usable M hs) h).1
  refine flReturnsPaths _ _ ?_ states path h'
  rintro s sel c ⟨hu, hs⟩
  funext i b
  refine (sisrStep_prev M hN hu hs i b).1 ?_
  have hp := isProb_mass M.lo (fun i => s.w i b) ⟨⟨0, hN⟩, hu _ b⟩
  have hsq := isProb_sq hp
  have hpos : 0 < ∑ i, colProb M.lo s.w b i * colProb M.lo s.w b i := by
    have : 0 < (N : ℝ) := by exact_mod_cast hN
    by_contra hc
    have h1 := hsq.1
    have : (∑ i, colProb M.lo s.w b i * colProb M.lo s.w b i) ≤ 0 := not_lt.1 hc
    simp only [colProb] at this
    nlinarith
  have : essOf (colProb M.lo s.w b) ≤ N := by
    unfold essOf
    rw [div_le_iff₀ hpos]
    have := hsq.1
    simp only [colProb]
    linarith
  exact lt_of_le_of_lt this ht

/-- Every recorded run of SISR is such a run. -/
theorem C37_sisr_runs (M : ParticleModel N B d V Y Ω) (k : ℕ) (nan : NanStrategy) (fuel : ℕ) (ys : List Y)
    (x : Fin N → Fin B → Fin d → V) (ω : Ω) (r)
    (hr : (FilterKind.sisr.ops M).filterAll ⟨k, true, nan⟩ fuel ys (initializeFilter M.lo x) ω = some r) :
    ∃ path, Lineage (SisrStep M) (Initial M.lo) (initializeFilter M.lo x :: r.2.1).reverse path := by
  have := FilterOps.filterAll_hist (FilterKind.sisr.ops M)
    (fun h => ∃ path, Lineage (SisrStep M) (Initial M.lo) h path)
    (fun c h ω ω' ⟨path, hp⟩ =>
      let ⟨sel, hsel⟩ := sisrSelects_exists M c ω
      ⟨_, .step c h path sel _ hp (.predict c ω ω' sel hsel)⟩)
    (fun c h y ω ω' ⟨path, hp⟩ =>
      let ⟨sel, hsel⟩ := sisrSelects_exists M c ω
      ⟨_, .step c h path sel _ hp (.observe c ω y ω' sel hsel)⟩)
    k nan fuel ys _ [] ω r ⟨_, .init _ ⟨x, rfl⟩⟩ hr
  rwa [← List.reverse_cons] at this

/-- What goes wrong: after a step from `s` to `c` in which filter `b` was not resampled, smoothing takes as
ancestor of particle `i` the particle `s.prev i b` of `s`, an index that refers to the state before
`s`, although the particle descends from particle `i`. -/
theorem C37_sisr_stale (M : ParticleModel N B d V Y Ω) (hN : 0 < N) {s : PCorr N B d V} {sel c}
    (hs : ∀ i b, Usable (s.w i b)) (h : SisrStep M s sel c) (b : Fin B) (hb : ¬ Degenerate M s b)
    (i : Fin N) :
    sel i b = i ∧ ∃ r, smoothFl [s, c] = .ok r ∧
      r.map (fun v => v i b) = [s.x.value (s.prev i b) b, c.x.value i b] := by
  obtain ⟨e1, e2⟩ := (sisrStep_prev M hN hs h i b).2 hb
  refine ⟨e2, _, rfl, ?_⟩
  simp only [List.reverse_cons, List.reverse_nil, List.nil_append, List.cons_append, flLoop, List.map_cons,
    List.map_nil, ← e1]
  rfl

/-- A small filter: two particles, particle `i` moves by `i + 1`, the log-weights are the observation, the
resampler always selects particle 0, the threshold is 3/2. -/
noncomputable def staleModel : ParticleModel 2 1 1 ℝ (Fin 2 → ℝ) Unit where
  lo := -1000
  threshold := 3 / 2
  resampler _ _ ω := (fun _ _ => 0, ω)
  propagateValues x ω := (x.value, ω)
  kind := .bootstrap
  sampleValues y p ω := ((fun i b e => p.prevX.value i b e + i.val + 1, fun i _ => XF.fin (y i)), ω)
  preWeight _ _ _ _ := XF.fin 0
  allNan _ := false

example : ((2 : ℕ) : ℝ) < ({ staleModel with threshold := 3 } : ParticleModel 2 1 1 ℝ (Fin 2 → ℝ) Unit).threshold := by
  show ((2 : ℕ) : ℝ) < 3
  norm_num

/-- One step of `staleModel`. -/
noncomputable def staleStep (y : Fin 2 → ℝ) (s : PCorr 2 1 1 ℝ) : PCorr 2 1 1 ℝ :=
  (staleModel.sisrCorrect y (staleModel.sisrPredict s ()).1 ()).1

theorem stale_even (s : PCorr 2 1 1 ℝ) (r : ℝ) (h : ∀ i b, s.w i b = fin r) (b) : ¬ Degenerate staleModel s b := by
  unfold Degenerate
  have he := (Real.exp_pos r).ne'
  simp only [essOf, colProb, h, mass, Fin.sum_univ_two, staleModel]
  rw [not_lt]
  field_simp
  norm_num

theorem stale_keep (y : Fin 2 → ℝ) (s : PCorr 2 1 1 ℝ) (w : Fin 2 → ℝ) (h : ∀ i b, s.w i b = fin (w i))
    (hd : ¬ Degenerate staleModel s 0) :
    (∀ i b, (staleStep y s).w i b = fin (y i + w i)) ∧ (staleStep y s).prev = s.prev ∧
    (∀ i, (staleStep y s).x.value i 0 0 = s.x.value i 0 0 + i.val + 1) ∧
    SisrStep staleModel s (fun i _ => i) (staleStep y s) := by
  have hu : ∀ i b, Usable (s.w i b) := fun i b => by rw [h]; trivial
  obtain ⟨sel, hsel⟩ := sisrSelects_exists staleModel s ()
  have hp := sisr_prediction staleModel s () (by norm_num) hu sel hsel
  have hid : sel = fun i _ => i := by
    funext i b
    obtain rfl : b = 0 := Subsingleton.elim _ _
    exact ((hp i 0).2.2 hd).2
  obtain ⟨cols, sub, -, hmem, -, -, -, hkeep, -⟩ := C27_resamples_exactly_degenerate staleModel s () (by norm_num) hu
  have hc : ∀ b, b ∉ cols := fun b => by
    obtain rfl : b = 0 := Subsingleton.elim _ _
    rw [hmem]; exact hd
  refine ⟨?_, ?_, ?_, ?_⟩
  · intro i b
    have := (hkeep b (hc b) i).2.2.1 (w i) (h i b)
    show nanToNum _ (XF.fin (y i) + (staleModel.sisrPredict s ()).1.w i b) = _
    rw [this]; rfl
  · funext i b
    exact (hkeep b (hc b) i).2.1
  · intro i
    show (staleModel.sisrPredict s ()).1.prevX.value i 0 0 + _ + _ = _
    rw [(hkeep 0 (hc 0) i).1]
  · rw [← hid]
    exact .observe s () y () sel hsel

theorem stale_select (y : Fin 2 → ℝ) (s : PCorr 2 1 1 ℝ) (w : Fin 2 → ℝ) (h : ∀ i b, s.w i b = fin (w i))
    (hd : Degenerate staleModel s 0) :
    (∀ i b, (staleStep y s).w i b = fin (y i)) ∧ (staleStep y s).prev = (fun _ _ => 0) ∧
    (∀ i, (staleStep y s).x.value i 0 0 = s.x.value 0 0 0 + i.val + 1) ∧
    SisrStep staleModel s (fun _ _ => 0) (staleStep y s) := by
  have hu : ∀ i b, Usable (s.w i b) := fun i b => by rw [h]; trivial
  obtain ⟨sel, hsel⟩ := sisrSelects_exists staleModel s ()
  have hid : sel = fun _ _ => 0 := by
    obtain ⟨cols, -, hmem, hin, -⟩ := hsel
    funext i b
    obtain rfl : b = 0 := Subsingleton.elim _ _
    obtain ⟨j, hj⟩ := List.get_of_mem ((hmem 0).2 hd)
    have := hin i j
    rw [hj] at this
    exact this
  have hp := sisr_prediction staleModel s () (by norm_num) hu sel hsel
  obtain ⟨cols, sub, -, hmem, -, -, hres, -, -⟩ := C27_resamples_exactly_degenerate staleModel s () (by norm_num) hu
  obtain ⟨j, hj⟩ := List.get_of_mem ((hmem 0).2 hd)
  refine ⟨?_, ?_, ?_, ?_⟩
  · intro i b
    obtain rfl : b = 0 := Subsingleton.elim _ _
    have := (hres j i).2.2.1
    rw [hj] at this
    show nanToNum _ (XF.fin (y i) + (staleModel.sisrPredict s ()).1.w i 0) = _
    rw [this]
    show XF.fin (y i + 0) = _
    rw [add_zero]
  · funext i b
    obtain rfl : b = 0 := Subsingleton.elim _ _
    have := (hp i 0).2.1 hd
    rw [hid] at this
    exact this
  · intro i
    show (staleModel.sisrPredict s ()).1.prevX.value i 0 0 + _ + _ = _
    rw [(hp i 0).1, hid]
  · rw [← hid]
    exact .observe s () y () sel hsel

theorem stale_odd (s : PCorr 2 1 1 ℝ) (h : ∀ i b, s.w i b = fin ((![0, -20] : Fin 2 → ℝ) i)) :
    Degenerate staleModel s 0 := by
  unfold Degenerate
  have h1 : Real.exp (-20) < 1 / 20 := by
    rw [Real.exp_neg, ← one_div]
    apply one_div_lt_one_div_of_lt (by norm_num)
    have := Real.add_one_lt_exp (x := 20) (by norm_num)
    linarith
  have h0 := Real.exp_pos (-20)
  simp only [essOf, colProb, mass, Fin.sum_univ_two, h, staleModel]
  simp only [Fin.isValue, Matrix.cons_val_zero, Matrix.cons_val_one, Real.exp_zero]
  set a := Real.exp (-20)
  rw [div_lt_iff₀ (by positivity)]
  rw [div_mul_div_comm, div_mul_div_comm, ← add_div, ← mul_div_assoc, lt_div_iff₀ (by positivity)]
  nlinarith

/-- C37 is false for SISR: three observations from the initial particles 10 and 20. The weights degenerate at
the first, so the second step resamples, the third does not. Final particle 1 was made from 13, the
smoother returns 12. -/
theorem C37_negation : ¬ C37_claim := by
  intro hclaim
  let s0 : PCorr 2 1 1 ℝ := initializeFilter (-1000) fun i _ _ => if i = 0 then 10 else 20
  let s1 := staleStep ![0, -20] s0
  let s2 := staleStep ![0, 0] s1
  let s3 := staleStep ![0, 0] s2
  have w0 : ∀ i b, s0.w i b = fin ((fun _ => 0 : Fin 2 → ℝ) i) := fun _ _ => rfl
  obtain ⟨w1, -, x1, st1⟩ := stale_keep ![0, -20] s0 _ w0 (stale_even s0 0 w0 0)
  have w1' : ∀ i b, s1.w i b = fin ((![0, -20] : Fin 2 → ℝ) i) := by
    intro i b; rw [w1]; simp
  obtain ⟨w2, p2, x2, st2⟩ := stale_select ![0, 0] s1 _ w1' (stale_odd s1 w1')
  have w2' : ∀ i b, s2.w i b = fin 0 := by
    intro i b; rw [w2]; fin_cases i <;> rfl
  obtain ⟨w3, p3, x3, st3⟩ := stale_keep ![0, 0] s2 _ w2' (stale_even s2 0 w2' 0)
  have hl := Lineage.step (step := SisrStep staleModel) (Init := Initial staleModel.lo) s2 _ _ _ s3
    (.step s1 _ _ _ s2 (.step s0 _ _ _ s1 (.init s0 ⟨_, rfl⟩) st1) st2) st3
  obtain ⟨r, hr, hpath⟩ := (hclaim 2 1 1 ℝ (Fin 2 → ℝ) Unit staleModel _ _ (by norm_num)).2 hl 2 (by norm_num)
  have hr' := (C37_sisr_stale staleModel (by norm_num) (fun i b => by rw [w2']; trivial) st3 0
    (stale_even s2 0 w2' 0) 1).2
  obtain ⟨r', e1, e2⟩ := hr'
  have : r = r' := by
    have : (Except.ok r : Except PyErr _) = .ok r' := by rw [← hr]; exact e1
    exact Except.ok.inj this
  rw [← this] at e2
  have hp1 := hpath 1 0
  rw [e2] at hp1
  simp only [List.take_succ_cons, List.take_zero, List.reverse_cons, List.reverse_nil, List.nil_append,
    List.cons_append, List.cons.injEq] at hp1
  have h2 : s2.x.value (s2.prev 1 0) 0 0 = s2.x.value 1 0 0 := congrFun hp1.1 0
  have h3 : s2.prev 1 0 = 0 := congrFun (congrFun p2 1) 0
  rw [h3] at h2
  have a0 : s2.x.value 0 0 0 = s1.x.value 0 0 0 + ((0 : Fin 2).val : ℝ) + 1 := x2 0
  have a1 : s2.x.value 1 0 0 = s1.x.value 0 0 0 + ((1 : Fin 2).val : ℝ) + 1 := x2 1
  rw [a0, a1] at h2
  norm_num at h2

/-! ## C38 -/

/-- C38: both methods, on any nonempty list of recorded states, return one tensor per state; entry `t` of
each path is a particle of the same parallel filter of state `t` (whole particles, all components). -/
theorem C38_paths_of_particles (M : ParticleModel N B d V Y Ω) (K : Backward N B d V Ω)
    (states : List (PCorr N B d V)) (hne : states ≠ []) (ω : Ω) :
    (∃ r, smoothFl states = .ok r ∧ r.length = states.length ∧
      ∀ (t : ℕ) v, r[t]? = some v → ∃ s, states[t]? = some s ∧ ∀ i b, ∃ j, v i b = s.x.value j b) ∧
    (∃ r ω', smoothFfbs M K states ω = .ok (r, ω') ∧ r.length = states.length ∧
      ∀ (t : ℕ) v, r[t]? = some v → ∃ s, states[t]? = some s ∧ ∀ i b, ∃ j, v i b = s.x.value j b) := by
  obtain ⟨latest, rest, hrev⟩ : ∃ l r, states.reverse = l :: r := by
    cases h : states.reverse with
    | nil => simp at h; exact absurd h hne
    | cons a l => exact ⟨a, l, rfl⟩
  have hlen : states.length = rest.length + 1 := by
    rw [← List.length_reverse, hrev]; rfl
  have hback : ∀ (L : List (Vals N B d V)), L.length = states.length →
      (∀ (t : ℕ) v, L[t]? = some v → ∃ s, (latest :: rest)[t]? = some s ∧ ∀ i b, ∃ j, v i b = s.x.value j b) →
      ∀ (t : ℕ) v, L.reverse[t]? = some v → ∃ s, states[t]? = some s ∧ ∀ i b, ∃ j, v i b = s.x.value j b := by
    intro L hL h t v hv
    have ht : t < L.length := by
      by_contra hc
      rw [List.getElem?_eq_none (by simpa using hc)] at hv
      cases hv
    rw [List.getElem?_reverse ht] at hv
    obtain ⟨s, h1, h2⟩ := h _ _ hv
    refine ⟨s, ?_, h2⟩
    rw [← hrev, List.getElem?_reverse (by omega)] at h1
    rw [← h1]
    congr 1
    omega
  constructor
  · refine ⟨(latest.x.value :: flLoop latest (fun i _ => i) rest).reverse, by unfold smoothFl; rw [hrev],
      by simp [flLoop_length, hlen], ?_⟩
    apply hback _ (by simp [flLoop_length, hlen])
    intro t v hv
    cases t with
    | zero =>
      simp at hv
      exact ⟨latest, rfl, fun i b => ⟨i, by rw [hv]⟩⟩
    | succ t =>
      obtain ⟨s, idx, h1, h2⟩ := flLoop_mem rest _ _ t v (by simpa using hv)
      exact ⟨s, by simpa using h1, fun i b => ⟨idx i b, by rw [h2]; rfl⟩⟩
  · set q := M.resampler latest.w false ω with hq
    obtain ⟨h1, h2⟩ := ffbsLoop_spec K rest (gatherVals latest.x.value q.1) q.2
    refine ⟨(gatherVals latest.x.value q.1 :: (ffbsLoop K (gatherVals latest.x.value q.1) rest q.2).1).reverse,
      (ffbsLoop K (gatherVals latest.x.value q.1) rest q.2).2, by unfold smoothFfbs; rw [hrev], 
      by simp [h1, hlen], ?_⟩
    apply hback _ (by simp [h1, hlen])
    intro t v hv
    cases t with
    | zero =>
      simp at hv
      exact ⟨latest, rfl, fun i b => ⟨q.1 i b, by rw [← hv]; rfl⟩⟩
    | succ t =>
      obtain ⟨s, idx, a1, a2, -⟩ := h2 t v (by simpa using hv)
      exact ⟨s, by simpa using a1, fun i b => ⟨idx i b, by rw [a2]; rfl⟩⟩

example : [walkInit, walkInit] ≠ [] := by simp

/-- Backward sampling in detail: the last entry is drawn with the weights of the last state; the entry at
every earlier state is drawn, path by path, with log-probabilities `w_j + log f(x_{t+1} | x_t^j)`, where
`x_{t+1}` is the next entry of the same path. -/
theorem C38_backward_kernel (M : ParticleModel N B d V Y Ω) (K : Backward N B d V Ω)
    (states : List (PCorr N B d V)) (ω : Ω) (r ω') (h : smoothFfbs M K states ω = .ok (r, ω')) :
    (∀ s, states.getLast? = some s → ∃ ω₁, r.getLast? = some fun i b => s.x.value ((M.resampler s.w false ω₁).1 i b) b) ∧
    ∀ (t : ℕ) s next, states[t]? = some s → r[t + 1]? = some next → ∃ ω₁,
      r[t]? = some fun i b => s.x.value
        ((K.categorical (fun i b j => s.w j b + K.logDensity s.x j b (next i b)) ω₁).1 i b) b := by
  cases hrev : states.reverse with
  | nil => unfold smoothFfbs at h; rw [hrev] at h; cases h
  | cons latest rest =>
    have hlen : states.length = rest.length + 1 := by rw [← List.length_reverse, hrev]; rfl
    have hst : states = (latest :: rest).reverse := by rw [← hrev, List.reverse_reverse]
    set q := M.resampler latest.w false ω with hq
    obtain ⟨h1, h2⟩ := ffbsLoop_spec K rest (gatherVals latest.x.value q.1) q.2
    have hr : r = (gatherVals latest.x.value q.1 ::
        (ffbsLoop K (gatherVals latest.x.value q.1) rest q.2).1).reverse := by
      unfold smoothFfbs at h
      rw [hrev] at h
      exact (congrArg Prod.fst (Except.ok.inj h)).symm
    set L := (ffbsLoop K (gatherVals latest.x.value q.1) rest q.2).1 with hL
    constructor
    · intro s hs
      rw [hst, List.getLast?_reverse] at hs
      simp at hs
      subst hs
      refine ⟨ω, ?_⟩
      rw [hr, List.getLast?_reverse]
      rfl
    · intro t s next hs hn
      have hlr : r.length = states.length := by rw [hr]; simp [h1, hlen]
      have ht : t + 1 < r.length := by
        by_contra hc
        rw [List.getElem?_eq_none (by simpa using hc)] at hn
        cases hn
      -- positions from the end
      obtain ⟨m, hm⟩ : ∃ m, rest.length = t + 1 + m := ⟨rest.length - (t + 1), by omega⟩
      have e1 : r[t + 1]? = (gatherVals latest.x.value q.1 :: L)[m]? := by
        rw [hr, List.getElem?_reverse (by simp [h1]; omega)]
        congr 1
        simp [h1]; omega
      have e2 : r[t]? = L[m]? := by
        rw [hr, List.getElem?_reverse (by simp [h1]; omega)]
        simp only [List.length_cons, h1]
        rw [show rest.length + 1 - 1 - t = m + 1 by omega, List.getElem?_cons_succ]
      have e3 : states[t]? = rest[m]? := by
        rw [hst, List.getElem?_reverse (by simp; omega)]
        simp only [List.length_cons]
        rw [show rest.length + 1 - 1 - t = m + 1 by omega, List.getElem?_cons_succ]
      have hm' : m < L.length := by rw [h1]; omega
      obtain ⟨s', idx, a1, a2, nxt, ω₁, a3, a4⟩ := h2 m L[m] (List.getElem?_eq_getElem hm')
      rw [e3, a1] at hs
      cases hs
      rw [e1, a3] at hn
      cases hn
      refine ⟨ω₁, ?_⟩
      rw [e2, List.getElem?_eq_getElem hm', a2, a4]
      rfl

/-! ## C39 -/

/-- C39 in full: a method name is accepted iff it is "ffbs" or "fl" up to the case of letters. -/
def C39_claim : Prop :=
  ∀ (N B d : ℕ) (V Y Ω : Type) (M : ParticleModel N B d V Y Ω) (K : Backward N B d V Ω)
    (states : List (PCorr N B d V)) (method : List Char) (ω : Ω), states ≠ [] →
    ((∃ r, smooth M K states method ω = .ok r) ↔
      (method.map Char.toLower = "ffbs".toList ∨ method.map Char.toLower = "fl".toList))

/-- C39, what holds: "ffbs" in any case is backward sampling, "fl" is fixed lag, every other name (in
particular every name that is neither in any case) is refused. Missing: "FL", "Fl" and "fL". -/
theorem C39_method_names_partial (M : ParticleModel N B d V Y Ω) (K : Backward N B d V Ω)
    (states : List (PCorr N B d V)) (method : List Char) (ω : Ω) (hne : states ≠ []) :
    (method.map Char.toLower = "ffbs".toList → smooth M K states method ω = smoothFfbs M K states ω ∧
      ∃ r, smooth M K states method ω = .ok r) ∧
    (method = "fl".toList → ∃ r, smoothFl states = .ok r ∧ smooth M K states method ω = .ok (r, ω)) ∧
    (method.map Char.toLower ≠ "ffbs".toList → method ≠ "fl".toList →
      smooth M K states method ω = .error .notImplementedError) := by
  obtain ⟨⟨r, hr, -⟩, r', ω', hr', -⟩ := C38_paths_of_particles M K states hne ω
  refine ⟨fun h => ?_, fun h => ?_, fun h1 h2 => ?_⟩
  · have : smooth M K states method ω = smoothFfbs M K states ω := by
      unfold smooth lowerChars
      rw [h]; rfl
    exact ⟨this, _, this.trans hr'⟩
  · subst h
    refine ⟨r, hr, ?_⟩
    unfold smooth
    rw [hr]
    rfl
  · unfold smooth lowerChars
    rw [if_neg (show ¬ _ = ['f', 'f', 'b', 's'] from h1), if_neg (show ¬ _ = ['f', 'l'] from h2)]

example : "FfBs".toList.map Char.toLower = "ffbs".toList ∧ "mcmc".toList.map Char.toLower ≠ "ffbs".toList := by
  decide

/-- Fixed lag in capitals is refused, always. -/
theorem C39_capital_fl_refused (M : ParticleModel N B d V Y Ω) (K : Backward N B d V Ω)
    (states : List (PCorr N B d V)) (ω : Ω) :
    smooth M K states ['F', 'L'] ω = .error .notImplementedError := by
  unfold smooth
  rw [if_neg (by decide), if_neg (by decide)]

/-- C39 in full is false. -/
theorem C39_negation : ¬ C39_claim := by
  intro h
  have := (h 1 2 1 ℝ (Option ℝ) ℕ (walk .bootstrap) ⟨fun _ _ _ _ => fin 0, fun _ ω => (fun i _ => i, ω)⟩
    [walkInit] ['F', 'L'] 0 (by simp)).2 (by right; decide)
  obtain ⟨r, hr⟩ := this
  rw [C39_capital_fl_refused] at hr
  cases hr

/-! ## C40 -/

theorem recorded_pos {S : Type} (k : ℕ) (hk : 0 < k) : ∀ (es : List (List S × S)),
    (∀ (n : ℕ) (e : List S × S), es[n]? = some e → e.1.length = k - 1) →
    ∀ n, (recorded true es)[k - 1 + n * k]? = (es[n]?).map Prod.snd := by
  intro es
  induction es with
  | nil => intro _ n; simp [recorded]
  | cons e es ih =>
    intro h n
    have h0 := h 0 e rfl
    have hrec : recorded true (e :: es) = e.1 ++ e.2 :: recorded true es := by
      simp [recorded]
    rw [hrec]
    cases n with
    | zero =>
      rw [List.getElem?_append_right (by omega)]
      simp [h0]
    | succ n =>
      rw [List.getElem?_append_right (by rw [h0, Nat.succ_mul]; omega), h0]
      have : k - 1 + (n + 1) * k - (k - 1) = (k - 1 + n * k) + 1 := by rw [Nat.succ_mul]; omega
      rw [this, List.getElem?_cons_succ, ih (fun m e he => h (m + 1) e (by simpa using he))]
      simp

/-- C40: batch filtering `T` observations with all states recorded gives `1 + recorded` states; the slice
`[1::k]` of any sequence that has one entry per state (the smoothed values, the time indexes) has exactly
`T` entries, and its `n`-th entry is the one that belongs to the state produced by observation `n`, at time
`nk + 1`. -/
theorem C40_slice_pairs_observations (fk : FilterKind) (Mod : ParticleModel N B d V Y Ω)
    (hkind : Mod.kind.increment = 1) {k : ℕ} (hk : 0 < k) (fuel : ℕ) (hfuel : k - 1 ≤ fuel)
    (nan : NanStrategy) (ys : List Y) (init : PCorr N B d V) (h0 : init.x.time = 0) (ω : Ω) :
    ∃ c new ω', (fk.ops Mod).filterAll ⟨k, true, nan⟩ fuel ys init ω = some (c, new, ω') ∧
      ∀ {α : Type} (l : List α), l.length = (init :: new).length →
        (slice1 k l).length = ys.length ∧
        ∀ n y, ys[n]? = some y → ∃ c a, (init :: new)[1 + n * k]? = some c ∧
          Observed (fk.ops Mod) (n * k) y c ∧ c.x.time = n * k + 1 ∧
          l[1 + n * k]? = some a ∧ (slice1 k l)[n]? = some a := by
  obtain ⟨es, ω', hl, hes, hall⟩ := C24_every_kth_step fk Mod hkind hk fuel hfuel ys init h0 ω
  refine ⟨_, _, ω', hall true nan, ?_⟩
  have hpos : ∀ n e, es[n]? = some e → (init :: recorded true es)[1 + n * k]? = some e.2 := by
    intro n e he
    cases es with
    | nil => simp at he
    | cons e0 es' =>
      cases ys with
      | nil => simp at hl
      | cons y0 ys' =>
      have hc0 := (hes 0 y0 e0 rfl rfl).count
      simp at hc0
      have hrec : recorded true (e0 :: es') = e0.2 :: recorded true es' := by
        simp [recorded, hc0]
      rw [hrec]
      cases n with
      | zero => simp at he; subst he; simp
      | succ n =>
        have := recorded_pos k hk es' (by
          intro m e hm
          have hlt : m < ys'.length := by
            have := (List.getElem?_eq_some_iff.1 hm).1
            simp at hl; omega
          have := (hes (m + 1) ys'[m] e (by rw [List.getElem?_cons_succ]; exact List.getElem?_eq_getElem hlt) (by simpa using hm)).count
          simpa using this) n
        have e1 : 1 + (n + 1) * k = (k - 1 + n * k) + 1 + 1 := by rw [Nat.succ_mul]; omega
        rw [e1, List.getElem?_cons_succ, List.getElem?_cons_succ, this]
        simp at he
        rw [he]; rfl
  have hreclen : (init :: recorded true es).length = if ys.length = 0 then 1 else (ys.length - 1) * k + 2 := by
    cases ys with
    | nil =>
      simp at hl
      subst hl
      simp [recorded]
    | cons y ys =>
      obtain ⟨r, h1, h2⟩ := C24_recorded_times fk Mod hkind hk fuel hfuel nan y ys init h0 ω
      rw [hall true nan] at h1
      cases h1
      have := congrArg List.length h2
      simp at this
      simp [this]
  intro α l hlen
  constructor
  · have hge : ∀ n, (slice1 k l)[n]? = l[1 + n * k]? := slice1_getElem? hk l
    apply le_antisymm
    · by_contra hc
      have : (slice1 k l)[ys.length]? = none := by
        rw [hge, List.getElem?_eq_none]
        rw [hlen, hreclen]
        split
        · next h => rw [h]; omega
        · obtain ⟨m, hm⟩ : ∃ m, ys.length = m + 1 := ⟨ys.length - 1, by omega⟩
          rw [hm, Nat.succ_mul]
          simp; omega
      rw [List.getElem?_eq_none_iff] at this
      omega
    · by_contra hc
      have h1 : (slice1 k l)[ys.length - 1]? = none := by
        rw [List.getElem?_eq_none]; omega
      rw [hge, List.getElem?_eq_none_iff, hlen, hreclen] at h1
      split at h1 <;> omega
  · intro n y hy
    have hn : n < es.length := by rw [hl]; exact (List.getElem?_eq_some_iff.1 hy).1
    have hm := hes n y es[n] hy (List.getElem?_eq_getElem hn)
    have hp := hpos n es[n] (List.getElem?_eq_getElem hn)
    have hlt : 1 + n * k < l.length := by rw [hlen]; exact (List.getElem?_eq_some_iff.1 hp).1
    exact ⟨es[n].2, l[1 + n * k], hp, hm.observed, hm.time, List.getElem?_eq_getElem hlt,
      by rw [slice1_getElem? hk, List.getElem?_eq_getElem hlt]⟩

example : (walk .bootstrap).kind.increment = 1 ∧ 0 < 3 ∧ 3 - 1 ≤ 2 ∧ walkInit.x.time = 0 :=
  ⟨rfl, by norm_num, by norm_num, rfl⟩

/-- Only the recording of the observed states is asserted by the code. Without the intermediary states the
slice pairs the `n`-th observation with the state of observation `nk`: wrong as soon as `k > 1` and there
are more than `k` observations. -/
theorem C40_unrecorded_mispairs (fk : FilterKind) (Mod : ParticleModel N B d V Y Ω)
    (hkind : Mod.kind.increment = 1) {k : ℕ} (hk : 0 < k) (fuel : ℕ) (hfuel : k - 1 ≤ fuel)
    (nan : NanStrategy) (ys : List Y) (init : PCorr N B d V) (h0 : init.x.time = 0) (ω : Ω) :
    ∃ c new ω', (fk.ops Mod).filterAll ⟨k, false, nan⟩ fuel ys init ω = some (c, new, ω') ∧
      ∀ n y, ys[n * k]? = some y → ∃ c, (slice1 k (init :: new))[n]? = some c ∧
        Observed (fk.ops Mod) (n * k * k) y c ∧ c.x.time = n * k * k + 1 := by
  obtain ⟨es, ω', hl, hes, hall⟩ := C24_every_kth_step fk Mod hkind hk fuel hfuel ys init h0 ω
  refine ⟨_, _, ω', hall false nan, ?_⟩
  have hrec : recorded false es = es.map Prod.snd := by
    unfold recorded; induction es with
    | nil => rfl
    | cons a l _ => simp [List.map_eq_flatMap]
  intro n y hy
  have hn : n * k < es.length := by rw [hl]; exact (List.getElem?_eq_some_iff.1 hy).1
  have hm := hes (n * k) y es[n * k] hy (List.getElem?_eq_getElem hn)
  refine ⟨es[n * k].2, ?_, hm.observed, hm.time⟩
  rw [slice1_getElem? hk, hrec, Nat.add_comm 1, List.getElem?_cons_succ, List.getElem?_map,
    List.getElem?_eq_getElem hn]
  rfl

end Verif.Props
