import Verif.Model.Particle
import Verif.Lemmas.Utils
import Mathlib.Data.Nat.Count
import Mathlib.Data.List.GetD

/-!
# Lemmas about masked scattering
-/

namespace Verif

theorem getElem?_flatMap_const {α β : Type} (f : α → List β) (L : ℕ) :
    ∀ (l : List α) (_ : ∀ a ∈ l, (f a).length = L) (i k : ℕ), k < L →
      (l.flatMap f)[i * L + k]? = (l[i]?).bind fun a => (f a)[k]?
  | [], _, i, k, _ => by simp
  | a :: l, h, 0, k, hk => by
    have : k < (f a).length := by rw [h a (by simp)]; exact hk
    simp [List.getElem?_append_left this]
  | a :: l, h, i + 1, k, hk => by
    have ha : (f a).length = L := h a (by simp)
    have : (f a).length ≤ (i + 1) * L + k := by rw [ha, Nat.succ_mul]; omega
    rw [List.flatMap_cons, List.getElem?_append_right this, ha]
    have e : (i + 1) * L + k - L = i * L + k := by rw [Nat.succ_mul]; omega
    rw [e, getElem?_flatMap_const f L l (fun a ha => h a (by simp [ha])) i k hk]
    simp

theorem flatten_getElem? {α : Type} {N m d : ℕ} (t : Fin N → Fin m → Fin d → α) (i : Fin N) (j : Fin m)
    (e : Fin d) : (flatten t)[(i * m + j) * d + e]? = some (t i j e) := by
  have hlen : ∀ i : Fin N, ((List.finRange m).flatMap fun j => (List.finRange d).map fun e => t i j e).length
      = m * d := by
    intro i
    simp [List.length_flatMap]
  have hidx : (i * m + j : ℕ) * d + e = i * (m * d) + (j * d + e) := by ring
  have hk : (j : ℕ) * d + e < m * d := by
    have := j.isLt
    have := e.isLt
    calc (j : ℕ) * d + e < j * d + d := by omega
      _ = (j + 1) * d := by ring
      _ ≤ m * d := Nat.mul_le_mul_right _ (by omega)
  unfold flatten
  rw [hidx, getElem?_flatMap_const _ (m * d) _ (fun i _ => hlen i) _ _ hk]
  have h1 : (List.finRange N)[(i : ℕ)]? = some i := by simp
  rw [h1, Option.bind_some, getElem?_flatMap_const _ d _ (by simp) _ _ e.isLt]
  simp

theorem getElem?_filter_countP {α : Type} (p : α → Bool) :
    ∀ (l : List α) (i : ℕ) (a : α), l[i]? = some a → p a = true →
      (l.filter p)[(l.take i).countP p]? = some a
  | [], i, a, h, _ => by simp at h
  | b :: l, 0, a, h, hp => by
    simp at h; subst h
    simp [List.filter_cons, hp]
  | b :: l, i + 1, a, h, hp => by
    simp at h
    have := getElem?_filter_countP p l i a h hp
    by_cases hb : p b = true
    · simp [List.filter_cons, hb, this]
    · simp [List.filter_cons, hb, this]

/-- Number of selected columns before column `k`. -/
def colRank {B : ℕ} (mask : Fin B → Bool) (k : ℕ) : ℕ := ((List.finRange B).take k).countP mask

theorem maskCols_rank {B : ℕ} (mask : Fin B → Bool) (b : Fin B) (h : mask b = true) :
    (maskCols mask)[colRank mask b]? = some b :=
  getElem?_filter_countP mask _ _ b (by simp) h

theorem colRank_lt {B : ℕ} (mask : Fin B → Bool) (b : Fin B) (h : mask b = true) :
    colRank mask b < (maskCols mask).length := by
  have := maskCols_rank mask b h
  exact (List.getElem?_eq_some_iff.mp this).1

theorem maskCols_get {B : ℕ} (mask : Fin B → Bool) (b : Fin B) (h : mask b = true) :
    (maskCols mask).get ⟨colRank mask b, colRank_lt mask b h⟩ = b := by
  have := maskCols_rank mask b h
  exact (List.getElem?_eq_some_iff.mp this).2

/-- The mask as a predicate on natural numbers. -/
def maskNat {B : ℕ} (mask : Fin B → Bool) (k : ℕ) : Bool := if h : k < B then mask ⟨k, h⟩ else false

theorem count_maskNat {B : ℕ} (mask : Fin B → Bool) (k : ℕ) (hk : k ≤ B) :
    Nat.count (fun n => maskNat mask n = true) k = colRank mask k := by
  unfold colRank
  induction k with
  | zero => simp
  | succ k ih =>
    have hk' : k < B := hk
    have h1 : (List.finRange B)[k]? = some ⟨k, hk'⟩ := by simp [hk']
    rw [Nat.count_succ, ih (by omega), List.take_add_one, List.countP_append, h1]
    simp [List.countP_cons, maskNat, hk']

theorem count_block {q : ℕ → Prop} [DecidablePred q] (d n : ℕ) (hd : 0 < d) :
    Nat.count (fun k => q (k / d)) (n * d) = Nat.count q n * d := by
  induction n with
  | zero => simp
  | succ n ih =>
    rw [Nat.succ_mul, Nat.count_add, ih, Nat.count_succ]
    by_cases h : q n
    · have : Nat.count (fun k => q ((n * d + k) / d)) d = d := by
        rw [Nat.count_iff_forall]
        intro k hk
        have : (n * d + k) / d = n := by
          rw [Nat.mul_comm, Nat.mul_add_div hd, Nat.div_eq_of_lt hk, Nat.add_zero]
        rw [this]; exact h
      rw [this]; simp [h, Nat.succ_mul]
    · have : Nat.count (fun k => q ((n * d + k) / d)) d = 0 := by
        rw [Nat.count_iff_forall_not]
        intro k hk
        have : (n * d + k) / d = n := by
          rw [Nat.mul_comm, Nat.mul_add_div hd, Nat.div_eq_of_lt hk, Nat.add_zero]
        rw [this]; exact h
      rw [this]; simp [h]

theorem count_mod {q : ℕ → Prop} [DecidablePred q] (B i b : ℕ) (hb : b < B) :
    Nat.count (fun k => q (k % B)) (i * B + b) = i * Nat.count q B + Nat.count q b := by
  have hsmall : ∀ i c, c ≤ B → Nat.count (fun k => q ((i * B + k) % B)) c = Nat.count q c := by
    intro i c hc
    induction c with
    | zero => simp
    | succ c ih =>
      rw [Nat.count_succ, Nat.count_succ, ih (by omega)]
      have : (i * B + c) % B = c := by
        rw [Nat.mul_comm, Nat.mul_add_mod, Nat.mod_eq_of_lt (by omega)]
      rw [this]
  have hmul : ∀ i, Nat.count (fun k => q (k % B)) (i * B) = i * Nat.count q B := by
    intro i
    induction i with
    | zero => simp
    | succ i ih => rw [Nat.succ_mul, Nat.count_add, ih, hsmall i B le_rfl, Nat.succ_mul]
  rw [Nat.count_add, hmul, hsmall i b hb.le]

theorem length_filter_range (p : ℕ → Bool) (k : ℕ) :
    ((List.range k).filter p).length = Nat.count (fun n => p n = true) k := by
  induction k with
  | zero => simp
  | succ k ih =>
    rw [List.range_succ, List.filter_append, List.length_append, ih, Nat.count_succ]
    by_cases h : p k = true <;> simp [h]

theorem scatterRank_eq {B : ℕ} (mask : Fin B → Bool) {d : ℕ} (i : ℕ) (b : Fin B) (e : Fin d)
    (h : mask b = true) :
    scatterRank mask d ((i * B + b) * d + e) = (i * (maskCols mask).length + colRank mask b) * d + e := by
  have hd : 0 < d := lt_of_le_of_lt (Nat.zero_le _) e.isLt
  have hB : 0 < B := lt_of_le_of_lt (Nat.zero_le _) b.isLt
  have hq : scatterRank mask d ((i * B + b) * d + e)
      = Nat.count (fun p => maskNat mask (p / d % B) = true) ((i * B + b) * d + e) := by
    unfold scatterRank
    rw [length_filter_range]
    rfl
  have hlen : (maskCols mask).length = colRank mask B := by
    unfold colRank maskCols
    rw [List.take_of_length_le (by simp), List.countP_eq_length_filter]
  rw [hq, Nat.count_add]
  have h2 : Nat.count (fun k => maskNat mask (((i * B + b) * d + k) / d % B) = true) e = e := by
    rw [Nat.count_iff_forall]
    intro k hk
    have h3 : ((i * B + b) * d + k) / d = i * B + b := by
      rw [Nat.mul_comm, Nat.mul_add_div hd, Nat.div_eq_of_lt (by omega), Nat.add_zero]
    have h4 : (i * B + b) % B = b := by
      rw [Nat.mul_comm, Nat.mul_add_mod, Nat.mod_eq_of_lt b.isLt]
    rw [h3, h4]
    simp [maskNat, h]
  have h1 : Nat.count (fun p => maskNat mask (p / d % B) = true) ((i * B + b) * d)
      = Nat.count (fun n => maskNat mask (n % B) = true) (i * B + b) * d :=
    count_block (q := fun n => maskNat mask (n % B) = true) d (i * B + b) hd
  have h5 := count_mod (q := fun n => maskNat mask n = true) B i b b.isLt
  rw [h1, h2, h5, count_maskNat mask B le_rfl, count_maskNat mask b b.isLt.le, hlen]

/-- Scattering into the columns of a mask puts source column `rank b` into column `b`. -/
theorem maskedScatter_eq {α : Type} {N B d : ℕ} (self : Fin N → Fin B → Fin d → α) (mask : Fin B → Bool)
    (t : Fin N → Fin (maskCols mask).length → Fin d → α) (i : Fin N) (b : Fin B) (e : Fin d) :
    maskedScatter self mask (flatten t) i b e =
      if h : mask b = true then t i ⟨colRank mask b, colRank_lt mask b h⟩ e else self i b e := by
  unfold maskedScatter
  by_cases h : mask b = true
  · have := flatten_getElem? t i ⟨colRank mask b, colRank_lt mask b h⟩ e
    simp only [h, if_true, dif_pos]
    rw [scatterRank_eq mask i b e h]
    rw [show (flatten t)[((i : ℕ) * (maskCols mask).length + colRank mask b) * d + e]? = _ from this]
    rfl
  · simp [h]

end Verif

namespace Verif

open XF Spec

theorem maskCols_nodup {B : ℕ} (mask : Fin B → Bool) : (maskCols mask).Nodup :=
  (List.nodup_finRange B).filter _

theorem maskCols_sorted {B : ℕ} (mask : Fin B → Bool) : (maskCols mask).Pairwise (· < ·) :=
  (List.pairwise_lt_finRange B).filter _

theorem mem_maskCols {B : ℕ} (mask : Fin B → Bool) (b : Fin B) : b ∈ maskCols mask ↔ mask b = true := by
  simp [maskCols]

/-- Scattering, read at a selected column. -/
theorem maskedScatter_get {α : Type} {N B d : ℕ} (self : Fin N → Fin B → Fin d → α) (mask : Fin B → Bool)
    (t : Fin N → Fin (maskCols mask).length → Fin d → α) (i : Fin N) (j : Fin (maskCols mask).length)
    (e : Fin d) : maskedScatter self mask (flatten t) i ((maskCols mask).get j) e = t i j e := by
  have hb : mask ((maskCols mask).get j) = true := (mem_maskCols mask _).1 (List.get_mem _ _)
  rw [maskedScatter_eq, dif_pos hb]
  congr 1
  exact (List.nodup_iff_injective_get.1 (maskCols_nodup mask)) (maskCols_get mask _ hb)

theorem maskedScatter_of_not {α : Type} {N B d : ℕ} (self : Fin N → Fin B → Fin d → α)
    (mask : Fin B → Bool) (src : List α) (i : Fin N) (b : Fin B) (e : Fin d) (h : mask b = false) :
    maskedScatter self mask src i b e = self i b e := by
  simp [maskedScatter, h]

theorem normalize2_usable {N B : ℕ} (lo : ℝ) (w : Fin N → Fin B → XF) (b : Fin B)
    (h : ∃ i, Usable (w i b)) (i : Fin N) : (normalize2 lo w).2 i b = fin (colProb lo w b i) := by
  rw [normalize2_col]
  exact normalize1_usable lo _ h i

theorem essColumn {N B : ℕ} (lo : ℝ) (w : Fin N → Fin B → XF) (b : Fin B) (h : ∃ i, Usable (w i b)) :
    (getEss2 lo (normalize2 lo w).2 true).2 b
      = fin (1 / ∑ i, colProb lo w b i * colProb lo w b i) := by
  have hp : IsProb (colProb lo w b) := isProb_mass lo (fun i => w i b) h
  show fin 1 / ∑ i, (normalize2 lo w).2 i b * (normalize2 lo w).2 i b = _
  simp only [normalize2_usable lo w b h]
  exact getEss_value hp

theorem expOf_nonneg (x : XF) : 0 ≤ expOf x := by
  cases x <;> simp [expOf, Real.exp_nonneg]

open Classical in
/-- Value of `log_likelihood` with weights. -/
theorem logLikelihood_weighted {N B : ℕ} (v : Fin N → Fin B → XF) (W : Fin N → Fin B → XF) (b : Fin B)
    (p : Fin N → ℝ) (hW : ∀ i, W i b = fin (p i)) (h0 : ∀ i, 0 ≤ p i)
    (hv : ∀ i, v i b = ninf ∨ ∃ r, v i b = fin r) (hex : ∃ i r, v i b = fin r) :
    logLikelihood v (some W) b =
      if ∑ i, p i * expOf (v i b) = 0 then ninf else fin (Real.log (∑ i, p i * expOf (v i b))) := by
  rcases vmax_cases (fun i => v i b) hv with ⟨m, hm, -, -⟩ | ⟨-, hall⟩
  · have hterm : ∀ i, W i b * exp (v i b - fin m) = fin (p i * expOf (v i b) * Real.exp (-m)) := by
      intro i
      rw [hW]
      rcases hv i with h | ⟨r, h⟩
      · simp [h, expOf]
      · rw [h, fin_sub, exp_fin, fin_mul, sub_eq_add_neg, Real.exp_add]
        congr 1
        simp only [expOf]; ring
    have hsum : ∑ i, W i b * exp (v i b - fin m) = fin ((∑ i, p i * expOf (v i b)) * Real.exp (-m)) := by
      simp only [hterm, sum_fin, Finset.sum_mul]
    unfold logLikelihood
    simp only [hm, hsum]
    have hS0 : 0 ≤ ∑ i, p i * expOf (v i b) :=
      Finset.sum_nonneg fun i _ => mul_nonneg (h0 i) (expOf_nonneg _)
    by_cases hS : ∑ i, p i * expOf (v i b) = 0
    · simp [hS]
    · have hpos := lt_of_le_of_ne hS0 (Ne.symm hS)
      rw [log_fin (mul_pos hpos (Real.exp_pos _)), Real.log_mul hS (Real.exp_ne_zero _), Real.log_exp]
      simp [hS]
  · obtain ⟨i, r, hi⟩ := hex
    rw [hall i] at hi; cases hi

theorem logLikelihood_none {N B : ℕ} (v : Fin N → Fin B → XF) (b : Fin B) :
    logLikelihood v none b = logLikelihood v (some fun _ _ => fin (1 / (N : ℝ))) b := rfl

/-- All importance weights `-inf`: NaN. -/
theorem logLikelihood_collapse {N B : ℕ} (v : Fin N → Fin B → XF) (W : Option (Fin N → Fin B → XF))
    (b : Fin B) (hN : 0 < N) (hv : ∀ i, v i b = ninf) : logLikelihood v W b = nan := by
  have hm : vmax (fun i => v i b) = ninf := by
    rcases vmax_cases (fun i => v i b) (fun i => Or.inl (hv i)) with ⟨m, -, ⟨i, hi⟩, -⟩ | ⟨h, -⟩
    · rw [hv i] at hi; cases hi
    · exact h
  unfold logLikelihood
  simp only [hm]
  have : ∀ f : Fin N → XF, ∑ i, f i * exp (v i b - ninf) = nan := by
    intro f
    refine sum_nan _ _ (Finset.mem_univ ⟨0, hN⟩) ?_
    rw [hv]; simp
  rw [this]; simp

theorem nanToNum_twice (lo : ℝ) (x : XF) : ∃ r, nanToNum lo (nanToNum lo x) = fin r := by
  cases x <;> simp [nanToNum]

theorem mk'_usable {N B d : ℕ} {V : Type} (lo : ℝ) (x : TS N B d V) (w ll prev) (i : Fin N) (b : Fin B) :
    Usable ((PCorr.mk' lo x w ll prev).w i b) := by
  show Usable (nanToNum lo (w i b))
  rcases nanToNum_cases lo (w i b) with h | ⟨r, h⟩ <;> rw [h] <;> trivial

theorem usable_iff (x : XF) : Usable x ↔ x = ninf ∨ ∃ r, x = fin r := by
  cases x <;> simp [Usable]

end Verif
