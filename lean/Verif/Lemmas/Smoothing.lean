import Verif.Model.Smoothing
import Verif.Spec.Smoothing
import Verif.Lemmas.Particle

/-!
# Lemmas about smoothing
-/

namespace Verif

open Spec

variable {N B d : ℕ} {V Y Ω : Type}

/-- If the stored indices are the true ancestors, the loop walks along the paths. -/
theorem flLoop_eq (step : PCorr N B d V → (Fin N → Fin B → Fin N) → PCorr N B d V → Prop)
    (Init : PCorr N B d V → Prop) (hidx : ∀ s sel c, step s sel c → c.prev = sel) :
    ∀ (states : List (PCorr N B d V)) (path) (_ : Lineage step Init states path) (latest rest)
      (_ : states = latest :: rest) (pi : Fin N → Fin B → Fin N) (i : Fin N) (b : Fin B),
      (latest.x.value (pi i b) b) :: (flLoop latest pi rest).map (fun v => v i b) = path (pi i b) b := by
  intro states path h
  induction h with
  | init s h =>
    intro latest rest he pi i b
    simp at he
    obtain ⟨rfl, rfl⟩ := he
    simp [flLoop]
  | step s rest' path sel c h hs ih =>
    intro latest rest he pi i b
    simp at he
    obtain ⟨rfl, rfl⟩ := he
    have := ih s rest' rfl (fun i b => c.prev (pi i b) b) i b
    simp only [flLoop, List.map_cons]
    have hg : (gatherVals s.x.value fun i b => c.prev (pi i b) b) i b = s.x.value (c.prev (pi i b) b) b := rfl
    rw [hg, this, hidx s sel c hs]

theorem flLoop_length (rest : List (PCorr N B d V)) : ∀ latest pi, (flLoop latest pi rest).length = rest.length := by
  induction rest with
  | nil => intros; rfl
  | cons s rest ih => intro latest pi; simp [flLoop, ih]

theorem flLoop_take (rest : List (PCorr N B d V)) : ∀ latest pi n,
    flLoop latest pi (rest.take n) = (flLoop latest pi rest).take n := by
  induction rest with
  | nil => intro latest pi n; simp [flLoop]
  | cons s rest ih =>
    intro latest pi n
    cases n with
    | zero => simp [flLoop]
    | succ n => simp [flLoop, ih]

theorem flLoop_mem (rest : List (PCorr N B d V)) : ∀ latest pi (t : ℕ) v,
    (flLoop latest pi rest)[t]? = some v → ∃ s idx, rest[t]? = some s ∧ v = gatherVals s.x.value idx := by
  induction rest with
  | nil => intro latest pi t v h; simp [flLoop] at h
  | cons s rest ih =>
    intro latest pi t v h
    cases t with
    | zero =>
      simp [flLoop] at h
      exact ⟨s, _, rfl, h.symm⟩
    | succ t =>
      simp only [flLoop, List.getElem?_cons_succ] at h
      simpa using ih _ _ t v h

theorem ffbsLoop_spec (K : Backward N B d V Ω) (rest : List (PCorr N B d V)) : ∀ next ω,
    (ffbsLoop K next rest ω).1.length = rest.length ∧
    ∀ (t : ℕ) v, (ffbsLoop K next rest ω).1[t]? = some v →
      ∃ s idx, rest[t]? = some s ∧ v = gatherVals s.x.value idx ∧
        ∃ nxt ω', (next :: (ffbsLoop K next rest ω).1)[t]? = some nxt ∧
          idx = (K.categorical (K.logits s nxt) ω').1 := by
  induction rest with
  | nil => intro next ω; simp [ffbsLoop]
  | cons s rest ih =>
    intro next ω
    have hd : (ffbsLoop K next (s :: rest) ω).1 =
        gatherVals s.x.value (K.categorical (K.logits s next) ω).1 ::
          (ffbsLoop K (gatherVals s.x.value (K.categorical (K.logits s next) ω).1) rest
            (K.categorical (K.logits s next) ω).2).1 := rfl
    rw [hd]
    obtain ⟨h1, h2⟩ := ih (gatherVals s.x.value (K.categorical (K.logits s next) ω).1)
      (K.categorical (K.logits s next) ω).2
    refine ⟨by simp [h1], ?_⟩
    intro t v hv
    cases t with
    | zero =>
      simp at hv
      exact ⟨s, _, rfl, hv.symm, next, ω, rfl, rfl⟩
    | succ t =>
      simp only [List.getElem?_cons_succ] at hv
      obtain ⟨s', idx, a, b, nxt, ω', c, e⟩ := h2 t v hv
      exact ⟨s', idx, by simpa using a, b, nxt, ω', by simpa using c, e⟩

theorem strideFrom_getElem? {α : Type} {k : ℕ} (hk : 0 < k) (l : List α) : ∀ m n,
    (strideFrom k m l)[n]? = l[m + n * k]? := by
  induction l with
  | nil => intro m n; simp [strideFrom]
  | cons a l ih =>
    intro m n
    cases m with
    | zero =>
      cases n with
      | zero => simp [strideFrom]
      | succ n =>
        simp only [strideFrom, List.getElem?_cons_succ, ih]
        have : 0 + (n + 1) * k = (k - 1 + n * k) + 1 := by rw [Nat.succ_mul]; omega
        rw [this, List.getElem?_cons_succ]
    | succ m =>
      have : m + 1 + n * k = (m + n * k) + 1 := by omega
      simp only [strideFrom, ih, this, List.getElem?_cons_succ]

theorem slice1_getElem? {α : Type} {k : ℕ} (hk : 0 < k) (l : List α) (n : ℕ) :
    (slice1 k l)[n]? = l[1 + n * k]? := by
  unfold slice1
  rw [strideFrom_getElem? hk, List.getElem?_drop]
  congr 1
  omega

/-- Carry an invariant of the states along a run. -/
theorem lineage_inv {step : PCorr N B d V → (Fin N → Fin B → Fin N) → PCorr N B d V → Prop}
    {Init Inv : PCorr N B d V → Prop} (h0 : ∀ s, Init s → Inv s) (h1 : ∀ s sel c, step s sel c → Inv c)
    {states path} (h : Lineage step Init states path) :
    Lineage (fun s sel c => Inv s ∧ step s sel c) Init states path ∧ ∀ s ∈ states, Inv s := by
  induction h with
  | init s h => exact ⟨.init s h, by simpa using h0 s h⟩
  | step s rest path sel c h hs ih =>
    refine ⟨.step s rest path sel c ih.1 ⟨ih.2 s (by simp), hs⟩, ?_⟩
    intro t ht
    rcases List.mem_cons.1 ht with rfl | ht
    · exact h1 _ _ _ hs
    · exact ih.2 t ht

theorem lineage_ne_nil {step : PCorr N B d V → (Fin N → Fin B → Fin N) → PCorr N B d V → Prop}
    {Init : PCorr N B d V → Prop} {states path} (h : Lineage step Init states path) : states ≠ [] := by
  cases h <;> simp

/-- The prediction of SISR and the true ancestors. -/
theorem sisr_prediction (M : ParticleModel N B d V Y Ω) (s : PCorr N B d V) (ω : Ω) (hN : 0 < N)
    (hs : ∀ i b, Usable (s.w i b)) (sel) (hsel : SisrSelects M s ω sel) (i : Fin N) (b : Fin B) :
    (M.sisrPredict s ω).1.prevX.value i b = s.x.value (sel i b) b ∧
    (Degenerate M s b → (M.sisrPredict s ω).1.idx i b = sel i b) ∧
    (¬ Degenerate M s b → (M.sisrPredict s ω).1.idx i b = s.prev i b ∧ sel i b = i) := by
  classical
  have hex : ∀ b, ∃ i, Usable (s.w i b) := fun b => ⟨⟨0, hN⟩, hs _ b⟩
  obtain ⟨cols, hsort, hmem, hin, hout⟩ := hsel
  set mask : Fin B → Bool := fun b =>
    decide (XF.lt ((getEss2 M.lo (normalize2 M.lo s.w).2 true).2 b) (XF.fin M.threshold)) with hmask
  have hmask' : ∀ b, mask b = true ↔ Degenerate M s b := by
    intro b
    rw [hmask]
    simp only [essColumn M.lo s.w b (hex b), decide_eq_true_eq]
    exact Iff.rfl
  have hcols : cols = maskCols mask := by
    apply List.Perm.eq_of_pairwise (le := (· < ·)) _ hsort (maskCols_sorted mask)
    · rw [List.perm_ext_iff_of_nodup (hsort.imp (fun h => ne_of_lt h)) (maskCols_nodup mask)]
      intro b; rw [hmem, mem_maskCols, hmask']
    · intro a b _ _ h1 h2; exact absurd h2 (lt_asymm h1)
  subst hcols
  have hnw : ∀ b i, (normalize2 M.lo s.w).2 i b = XF.fin (colProb M.lo s.w b i) :=
    fun b i => normalize2_usable M.lo s.w b (hex b) i
  by_cases hall : ∀ b, mask b = false
  · have hp : M.sisrPredict s ω
        = (⟨s.x, (normalize2 M.lo s.w).1, (normalize2 M.lo s.w).2, s.prev⟩, ω) := by
      unfold ParticleModel.sisrPredict
      dsimp only
      rw [if_pos hall]
    have hb : ¬ Degenerate M s b := by rw [← hmask', hall b]; simp
    have hnot : b ∉ maskCols mask := by rw [hmem]; exact hb
    rw [hp, hout b hnot i]
    exact ⟨rfl, fun h => absurd h hb, fun _ => ⟨rfl, rfl⟩⟩
  · set q := M.resampler (b := (maskCols mask).length)
      (fun i j => (normalize2 M.lo s.w).2 i ((maskCols mask).get j)) true ω with hq
    have hp : M.sisrPredict s ω =
        (⟨⟨maskedScatter s.x.value mask
            (flatten fun i (j : Fin (maskCols mask).length) e =>
              s.x.value (q.1 i j) ((maskCols mask).get j) e), s.x.time⟩,
          fun i b => if mask b then XF.fin 0 else (normalize2 M.lo s.w).1 i b,
          fun i b => if mask b then XF.fin (1 / (N : ℝ)) else (normalize2 M.lo s.w).2 i b,
          fun i b => maskedScatter (d := 1) (fun i b _ => s.prev i b) mask
            (flatten (d := 1) fun i j _ => q.1 i j) i b 0⟩, q.2) := by
      unfold ParticleModel.sisrPredict
      dsimp only
      rw [if_neg hall]
    have hsel' : ∀ i (j : Fin (maskCols mask).length), sel i ((maskCols mask).get j) = q.1 i j := by
      intro i j
      rw [hin i j, hq]
      simp only [hnw]
    rw [hp]
    by_cases hb : Degenerate M s b
    · have hbm : b ∈ maskCols mask := by rw [hmem]; exact hb
      obtain ⟨j, rfl⟩ := List.get_of_mem hbm
      refine ⟨?_, fun _ => ?_, fun h => absurd hb h⟩
      · funext e
        rw [hsel']
        exact maskedScatter_get s.x.value mask _ i j e
      · rw [hsel']
        exact maskedScatter_get (d := 1) (fun i b _ => s.prev i b) mask (fun i j _ => q.1 i j) i j 0
    · have hnot : b ∉ maskCols mask := by rw [hmem]; exact hb
      have hf : mask b = false := by
        have := (hmask' b).not.2 hb
        simpa using this
      have hsi := hout b hnot i
      refine ⟨?_, fun h => absurd h hb, fun _ => ⟨?_, hsi⟩⟩
      · funext e
        rw [hsi]
        exact maskedScatter_of_not s.x.value mask _ i b e hf
      · exact maskedScatter_of_not (d := 1) (fun i b _ => s.prev i b) mask _ i b 0 hf

/-- Every step has a selection. -/
theorem sisrSelects_exists (M : ParticleModel N B d V Y Ω) (s : PCorr N B d V) (ω : Ω) :
    ∃ sel, SisrSelects M s ω sel := by
  classical
  set mask : Fin B → Bool := fun b => decide (Degenerate M s b)
  let sub := (M.resampler (b := (maskCols mask).length)
      (fun i j => XF.fin (colProb M.lo s.w ((maskCols mask).get j) i)) true ω).1
  refine ⟨fun i b => if h : mask b = true then sub i ⟨colRank mask b, colRank_lt mask b h⟩ else i,
    maskCols mask, maskCols_sorted mask, ?_, ?_, ?_⟩
  · intro b; rw [mem_maskCols]; simp [mask]
  · intro i j
    have hb : mask ((maskCols mask).get j) = true := (mem_maskCols mask _).1 (List.get_mem _ _)
    beta_reduce
    rw [dif_pos hb]
    show sub i _ = sub i j
    congr 1
    exact (List.nodup_iff_injective_get.1 (maskCols_nodup mask)) (maskCols_get mask _ hb)
  · intro b hb i
    rw [mem_maskCols] at hb
    simp [hb]

end Verif
