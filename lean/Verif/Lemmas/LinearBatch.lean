import Verif.Lemmas.Tensor
import Verif.Spec.LinearBatch

/-!
# The linear proposal on batches, computed
-/

namespace Verif.Torch

open Matrix

/-- A tensor with the values of a scalar or a vector. -/
def ReadsE (t : Tensor) (ev r : List ℕ) (F : List ℕ → Fin (dim ev) → ℝ) : Prop :=
  t.shape = ev ++ r ∧ ∀ s (j : Fin (dim ev)), t.val ((ev.map fun _ => j.val) ++ broadcastIndex r s) = F s j

/-- A tensor with the coefficients of the observations. -/
def ReadsA (t : Tensor) (hidden obs r : List ℕ) (F : List ℕ → Matrix (Fin (dim obs)) (Fin (dim hidden)) ℝ) : Prop :=
  t.shape = hidden ++ (obs ++ r) ∧ ∀ s (i : Fin (dim obs)) (j : Fin (dim hidden)),
    t.val ((hidden.map fun _ => j.val) ++ ((obs.map fun _ => i.val) ++ broadcastIndex r s)) = F s i j

/-- The component of a scalar. -/
def ix0 : Fin (dim []) := (0 : Fin 1)

theorem ReadsE.zero {t : Tensor} {r F} (h : ReadsE t [] r F) : Reads0 t r fun s => F s ix0 :=
  ⟨h.1, fun s => h.2 s ix0⟩

theorem ReadsE.one {t : Tensor} {p : ℕ} {r F} (h : ReadsE t [p] r F) : Reads1 t p r F := h

theorem eq_ix0 (j : Fin (dim [])) : j = ix0 := Subsingleton.elim (α := Fin 1) _ _

theorem const0 {α : Type} (f : Fin (dim []) → α) : (fun _ => f ix0) = f := funext fun e => congrArg f (eq_ix0 e).symm

theorem ok_bind {α β : Type} (x : α) (f : α → Except PyErr β) : (Except.ok x >>= f) = f x := rfl

theorem diag_mulVec {q : ℕ} (o y : Fin q → ℝ) : Verif.constructDiag o *ᵥ y = fun j => o j * y j := by
  funext j
  simp [Verif.constructDiag, mulVec, dotProduct]

theorem core_reads {S ra rs r2 : List ℕ} {p q : ℕ} {cU oInvCov hdiag t1 t2 : Tensor} {Fc : List ℕ → Matrix (Fin q) (Fin p) ℝ}
    {O : List ℕ → Matrix (Fin q) (Fin q) ℝ} {H : List ℕ → Matrix (Fin p) (Fin p) ℝ} {T1 : List ℕ → Fin p → ℝ}
    {T2 : List ℕ → Fin q → ℝ} (hc : Reads2 cU q p ra Fc) (ho : Reads2 oInvCov q q rs O) (hh : Reads2 hdiag p p S H)
    (h1 : Reads1 t1 p S T1) (h2 : Reads1 t2 q r2 T2) (ha : Sub ra S) (hs : Sub rs S) (hr : Sub r2 S) :
    ∃ cT tA tB tC cov t3 sm mean, cU.transpose = .ok cT ∧ cT.matmul oInvCov = .ok tA ∧ tA.matmul cU = .ok tB ∧
      Tensor.zip (· + ·) hdiag tB = .ok tC ∧ tC.inverse = .ok cov ∧ cT.matmul t2.unsqueeze1 = .ok t3 ∧
      Tensor.zip (· + ·) t1.unsqueeze1 t3 = .ok sm ∧ cov.matmul sm = .ok mean ∧
      Reads2 cov p p S (fun s => (H s + (Fc s)ᵀ * O s * Fc s)⁻¹) ∧
      Reads1 mean.squeeze1 p S (fun s => (H s + (Fc s)ᵀ * O s * Fc s)⁻¹ *ᵥ (T1 s + (Fc s)ᵀ *ᵥ T2 s)) := by
  obtain ⟨cT, e1, hcT⟩ := transpose_reads hc
  obtain ⟨tA, rA, e2, -, -, hA, hA'⟩ := matmul_reads hcT ho ha hs
  obtain ⟨tB, rB, e3, -, -, hB, hB'⟩ := matmul_reads hA' hc hA ha
  obtain ⟨tC, rC, e4, hC1, -, hC, hC'⟩ := zip_reads2 (f := (· + ·)) hh hB' (Sub.refl S) hB
  obtain rfl : S = rC := hC1.antisymm hC
  obtain ⟨cov, e5, hcov⟩ := inverse_reads hC'
  obtain ⟨t3, r3, e6, -, -, h3, h3'⟩ := matmul_reads hcT (column_reads h2) ha hr
  obtain ⟨sm, rm, e7, hm1, -, hm, hm'⟩ := zip_reads2 (f := (· + ·)) (column_reads h1) h3' (Sub.refl S) h3
  obtain rfl : S = rm := hm1.antisymm hm
  obtain ⟨mean, rn, e8, hn1, -, hn, hn'⟩ := matmul_reads hcov hm' (Sub.refl S) (Sub.refl S)
  obtain rfl : S = rn := hn1.antisymm hn
  refine ⟨cT, tA, tB, tC, cov, t3, sm, mean, e1, e2, e3, e4, e5, e6, e7, e8, hcov, ?_⟩
  have := squeeze_reads hn'
  refine ⟨this.1, fun s j => (this.2 s j).trans ?_⟩
  rfl

theorem mkNormal_reads {S : List ℕ} {loc scale : Tensor} {F G} (h1 : Reads0 loc S F) (h2 : Reads0 scale S G) :
    ∃ D, Dist.mkNormal loc scale = .ok D ∧ D.batchShape = S ∧ D.eventShape = [] ∧
      ∀ s {p : ℕ} (x : Fin p → ℝ), D.logProbAt (broadcastIndex S s) x = ∑ e, normalLogProb (F s) (G s) (x e) := by
  obtain ⟨t, e, a1, -, a3⟩ := broadcastShape_sub (Sub.refl S) (Sub.refl S)
  obtain rfl : S = t := a1.antisymm a3
  refine ⟨_, by unfold Dist.mkNormal; rw [h1.1, h2.1, e], rfl, rfl, fun s p x => ?_⟩
  show ∑ e, normalLogProb (loc.val (broadcastIndex loc.shape (broadcastIndex S s)))
    (scale.val (broadcastIndex scale.shape (broadcastIndex S s))) (x e) = _
  rw [h1.1, h2.1, broadcastIndex_trans (Sub.refl S), h1.2, h2.2]

theorem mkMvn_reads {S : List ℕ} {p : ℕ} {loc cov : Tensor} {F G} (h1 : Reads1 loc p S F) (h2 : Reads2 cov p p S G) :
    ∃ D, Dist.mkMvn loc cov = .ok D ∧ D.batchShape = S ∧ D.eventShape = [p] ∧
      ∀ s (x : Fin p → ℝ), D.logProbAt (broadcastIndex S s) x = mvnLogProb (F s) (G s) x := by
  obtain ⟨t, e, a1, -, a3⟩ := broadcastShape_sub (Sub.refl S) (Sub.refl S)
  obtain rfl : S = t := a1.antisymm a3
  obtain ⟨ls, lv⟩ := loc
  obtain ⟨cs, cv⟩ := cov
  obtain ⟨k1, h1⟩ := h1
  obtain ⟨k2, h2⟩ := h2
  subst k1 k2
  refine ⟨.mvn (Tensor.expand ⟨p :: S, lv⟩ (p :: S)) (Tensor.expand ⟨p :: p :: S, cv⟩ (p :: p :: S)), by
    unfold Dist.mkMvn; simp only [e], rfl, rfl, fun s x => ?_⟩
  show mvnLogProb (fun e : Fin p => lv (broadcastIndex (p :: S) (e :: broadcastIndex S s)))
    (of fun u v : Fin p => cv (broadcastIndex (p :: p :: S) (v :: u :: broadcastIndex S s))) x = _
  congr 1
  · funext e
    rw [broadcastIndex_cons e.2, broadcastIndex_trans (Sub.refl S)]
    exact h1 s e
  · ext u v
    show cv (broadcastIndex (p :: p :: S) (v :: u :: broadcastIndex S s)) = _
    rw [broadcastIndex_cons v.2, broadcastIndex_cons u.2, broadcastIndex_trans (Sub.refl S)]
    exact h2 s u v

theorem mapE {t : Tensor} {ev r : List ℕ} {F} (f : ℝ → ℝ) (h : ReadsE t ev r F) : ReadsE (t.map f) ev r fun i j => f (F i j) :=
  ⟨h.1, fun i j => congrArg f (h.2 i j)⟩

theorem zipE {f : ℝ → ℝ → ℝ} {x y : Tensor} {ev r s S : List ℕ} {F G} (hev : ev.length ≤ 1) (hx : ReadsE x ev r F) (hy : ReadsE y ev s G)
    (hr : Sub r S) (hs : Sub s S) :
    ∃ z t, Tensor.zip f x y = .ok z ∧ Sub r t ∧ Sub s t ∧ Sub t S ∧ ReadsE z ev t fun i j => f (F i j) (G i j) := by
  match ev with
  | [] =>
    obtain ⟨z, t, h1, h2, h3, h4, h5⟩ := zip_reads0 (f := f) hx.zero hy.zero hr hs
    refine ⟨z, t, h1, h2, h3, h4, h5.1, fun i j => (h5.2 i).trans ?_⟩
    show f (F i ix0) (G i ix0) = f (F i j) (G i j)
    rw [eq_ix0 j]
  | [p] => exact zip_reads1 (f := f) hx.one hy.one hr hs
  | _ :: _ :: _ => simp at hev

theorem diagE {x : Tensor} {ev r : List ℕ} {F} (hev : ev.length ≤ 1) (hx : ReadsE x ev r F) :
    ∃ z, x.constructDiag ev = .ok z ∧ Reads2 z (dim ev) (dim ev) r fun i => Verif.constructDiag (F i) := by
  match ev with
  | [] =>
    obtain ⟨z, h1, h2⟩ := diag_reads0 hx.zero
    refine ⟨z, h1, h2.1, fun i u v => (h2.2 i u v).trans ?_⟩
    show Verif.constructDiag (fun _ => F i ix0) u v = Verif.constructDiag (F i) u v
    exact congrArg (fun f : Fin (dim []) → ℝ => Verif.constructDiag f u v) (const0 (F i))
  | [p] => exact diag_reads1 hx.one
  | _ :: _ :: _ => simp at hev

theorem vectorE {x : Tensor} {ev r : List ℕ} {F} (hev : ev.length ≤ 1) (hx : ReadsE x ev r F) :
    Reads1 (if (ev.length == 0) = true then x.unsqueeze1 else x) (dim ev) r F := by
  match ev with
  | [] =>
    have h := point_reads hx.zero
    exact ⟨h.1, fun i u => (h.2 i u).trans (congrArg (F i) (eq_ix0 u).symm)⟩
  | [p] => exact hx.one
  | _ :: _ :: _ => simp at hev

theorem coefficientsE {a : Tensor} {hidden obs r : List ℕ} {F} (hh : hidden.length ≤ 1) (ho : obs.length ≤ 1)
    (ha : ReadsA a hidden obs r F) :
    ∃ cU, (if (obs.length == 0) = true then (if (hidden.length == 0) = true then a.unsqueeze1 else a).unsqueeze2
      else pure (if (hidden.length == 0) = true then a.unsqueeze1 else a)) = (.ok cU : Except PyErr Tensor) ∧
      Reads2 cU (dim obs) (dim hidden) r F := by
  match hidden, obs with
  | [], [] =>
    have hc0 : Reads0 a r fun i => F i ix0 ix0 :=
      ⟨ha.1, fun i => ha.2 i ix0 ix0⟩
    obtain ⟨cU, h1, h2⟩ := row_reads (point_reads hc0)
    refine ⟨cU, h1, h2.1, fun i u v => (h2.2 i u v).trans ?_⟩
    show F i ix0 ix0 = F i u v
    rw [eq_ix0 u, eq_ix0 v]
  | [p], [] =>
    have hc0 : Reads1 a p r fun i => F i ix0 := ⟨ha.1, fun i => ha.2 i ix0⟩
    obtain ⟨cU, h1, h2⟩ := row_reads hc0
    refine ⟨cU, h1, h2.1, fun i u v => (h2.2 i u v).trans ?_⟩
    show F i ix0 v = F i u v
    rw [eq_ix0 u]
  | [], [q] =>
    have hc0 : Reads1 a q r fun i j => F i j ix0 := ⟨ha.1, fun i j => ha.2 i j ix0⟩
    have h := column_reads hc0
    refine ⟨_, rfl, h.1, fun i u v => (h.2 i u v).trans ?_⟩
    show F i u ix0 = F i u v
    rw [eq_ix0 v]
  | [p], [q] => exact ⟨_, rfl, ha⟩
  | _ :: _ :: _, _ => simp at hh
  | _, _ :: _ :: _ => simp at ho

theorem innovationE {O y : Tensor} {obs rs ry S : List ℕ} {Fo Fy : List ℕ → Fin (dim obs) → ℝ} (ho : obs.length ≤ 1)
    (hO : Reads2 O (dim obs) (dim obs) rs fun i => Verif.constructDiag (Fo i)) (hy : ReadsE y obs ry Fy) (hrs : Sub rs S)
    (hry : Sub ry S) (hoff : obs ≠ [] → ry = []) :
    ∃ t2 r2, (if (obs.length == 0) = true then Tensor.zip (· * ·) O.squeeze1 y.unsqueeze1 else O.matmul y) = .ok t2 ∧ Sub r2 S ∧
      Reads1 t2 (dim obs) r2 fun i => Verif.constructDiag (Fo i) *ᵥ Fy i := by
  match obs with
  | [] =>
    obtain ⟨z, t, h1, h2, h3, h4, h5⟩ := zip_reads1 (f := (· * ·)) (squeeze_reads (n := 1) hO) (point_reads hy.zero) hrs hry
    refine ⟨z, t, h1, h4, h5.1, fun i j => (h5.2 i j).trans ?_⟩
    rw [eq_ix0 j]
    refine Eq.trans ?_ (congrFun (diag_mulVec (Fo i) (Fy i)) ix0).symm
    show (if ix0 = ix0 then (1 : ℝ) else 0) * Fo i ix0 * Fy i ix0 = Fo i ix0 * Fy i ix0
    rw [if_pos rfl, one_mul]
  | [q] =>
    obtain rfl : ry = [] := hoff (by simp)
    obtain ⟨z, h1, h2⟩ := matvec_reads (G := Fy []) hO hy.1 fun j => hy.2 [] j
    refine ⟨z, rs, h1, hrs, h2.1, fun i j => (h2.2 i j).trans ?_⟩
    have e : Fy [] = Fy i := funext fun j => (hy.2 [] j).symm.trans (hy.2 i j)
    rw [e]
  | _ :: _ :: _ => simp at ho

theorem distE {hidden S : List ℕ} (hh : hidden.length ≤ 1) {mean cov : Tensor} {F G} (hm : Reads1 mean (dim hidden) S F)
    (hc : Reads2 cov (dim hidden) (dim hidden) S G) :
    ∃ D, (if (hidden.length == 0) = true then Dist.mkNormal mean.squeeze1 (cov.corner.map Real.sqrt) else Dist.mkMvn mean cov) = .ok D ∧
      D.batchShape = S ∧ D.eventShape = hidden ∧ ∀ i (x : Fin (dim hidden) → ℝ), D.logProbAt (broadcastIndex S i) x =
        if (hidden.length == 0) = true then ∑ e, normalLogProb (F i e) (Real.sqrt (G i e e)) (x e) else mvnLogProb (F i) (G i) x := by
  match hidden with
  | [] =>
    obtain ⟨D, h1, h2, h3, h4⟩ := mkNormal_reads (squeeze_reads1 hm) (map_reads0 Real.sqrt (corner_reads hc))
    refine ⟨D, h1, h2, h3, fun i x => (h4 i x).trans ?_⟩
    show ∑ e, normalLogProb (F i ix0) (Real.sqrt (G i ix0 ix0)) (x e) = ∑ e, normalLogProb (F i e) (Real.sqrt (G i e e)) (x e)
    exact Finset.sum_congr rfl fun e _ => by rw [eq_ix0 e]
  | [p] => exact mkMvn_reads hm hc
  | _ :: _ :: _ => simp at hh

/-- `find_optimal_density` up to the product of the precision of the observations with the observation. -/
theorem findOptimalDensity_reads {S : List ℕ} {hidden obs : List ℕ} (hh : hidden.length ≤ 1) (ho : obs.length ≤ 1)
    {y loc hVarInv oVarInv a : Tensor} {r2 ra rs : List ℕ} {Fm Fh Fa Fo} {T2 : List ℕ → Fin (dim obs) → ℝ}
    (hm : ReadsE loc hidden S Fm) (hv : ReadsE hVarInv hidden S Fh) (ha : ReadsA a hidden obs ra Fa) (hs : ReadsE oVarInv obs rs Fo)
    (hra : Sub ra S) (hrs : Sub rs S) (hr2 : Sub r2 S)
    (h2 : ∀ O, oVarInv.constructDiag obs = .ok O → Reads2 O (dim obs) (dim obs) rs (fun i => Verif.constructDiag (Fo i)) →
      ∃ t2, (if (obs.length == 0) = true then Tensor.zip (· * ·) O.squeeze1 y.unsqueeze1 else O.matmul y) = .ok t2 ∧
        Reads1 t2 (dim obs) r2 T2) :
    ∃ D, findOptimalDensity hidden obs y loc hVarInv oVarInv a = .ok D ∧ D.batchShape = S ∧ D.eventShape = hidden ∧
      ∀ i (x : Fin (dim hidden) → ℝ), D.logProbAt (broadcastIndex S i) x =
        if (hidden.length == 0) = true then ∑ e, normalLogProb
            ((optimalCov (Fh i) (Fo i) (Fa i) *ᵥ ((fun e => Fh i e * Fm i e) + (Fa i)ᵀ *ᵥ T2 i)) e)
            (Real.sqrt (optimalCov (Fh i) (Fo i) (Fa i) e e)) (x e)
        else mvnLogProb (optimalCov (Fh i) (Fo i) (Fa i) *ᵥ ((fun e => Fh i e * Fm i e) + (Fa i)ᵀ *ᵥ T2 i))
          (optimalCov (Fh i) (Fo i) (Fa i)) x := by
  obtain ⟨O, f2, hO⟩ := diagE ho hs
  obtain ⟨H, f3, hH⟩ := diagE hh hv
  obtain ⟨cU, f4, hcU⟩ := coefficientsE hh ho ha
  obtain ⟨t1, r1, f5, h51, -, hr1, ht1⟩ := zipE (f := (· * ·)) hh hv hm (Sub.refl S) (Sub.refl S)
  obtain rfl : S = r1 := h51.antisymm hr1
  obtain ⟨t2, f6, ht2⟩ := h2 O f2 hO
  obtain ⟨cT, tA, tB, tC, cov, t3, sm, mn, e1, e2, e3, e4, e5, e6, e7, e8, hcov, hmean⟩ :=
    core_reads hcU hO hH (vectorE hh ht1) ht2 hra hrs hr2
  obtain ⟨D, f7, hD1, hD2, hD3⟩ := distE hh hmean hcov
  refine ⟨D, ?_, hD1, hD2, fun i x => hD3 i x⟩
  unfold findOptimalDensity
  simp only [f2, f3, f4, f5, f6, e1, e2, e3, e4, e5, e6, e7, e8, f7, ok_bind]

theorem findOptimalDensity_error {S : List ℕ} {hidden obs : List ℕ} (hh : hidden.length ≤ 1) (ho : obs.length ≤ 1)
    {y loc hVarInv oVarInv a : Tensor} {ra rs : List ℕ} {Fm Fh Fa Fo} {e : PyErr}
    (hm : ReadsE loc hidden S Fm) (hv : ReadsE hVarInv hidden S Fh) (ha : ReadsA a hidden obs ra Fa) (hs : ReadsE oVarInv obs rs Fo)
    (hra : Sub ra S) (hrs : Sub rs S)
    (h2 : ∀ O, oVarInv.constructDiag obs = .ok O → Reads2 O (dim obs) (dim obs) rs (fun i => Verif.constructDiag (Fo i)) →
      (if (obs.length == 0) = true then Tensor.zip (· * ·) O.squeeze1 y.unsqueeze1 else O.matmul y) = .error e) :
    findOptimalDensity hidden obs y loc hVarInv oVarInv a = .error e := by
  obtain ⟨O, f2, hO⟩ := diagE ho hs
  obtain ⟨H, f3, hH⟩ := diagE hh hv
  obtain ⟨cU, f4, hcU⟩ := coefficientsE hh ho ha
  obtain ⟨t1, r1, f5, h51, -, hr1, ht1⟩ := zipE (f := (· * ·)) hh hv hm (Sub.refl S) (Sub.refl S)
  have f6 := h2 O f2 hO
  have ht2 : Reads1 (⟨[dim obs], fun _ => 0⟩ : Tensor) (dim obs) [] fun _ _ => 0 := ⟨rfl, fun _ _ => rfl⟩
  obtain rfl : S = r1 := h51.antisymm hr1
  obtain ⟨cT, tA, tB, tC, cov, t3, sm, mn, e1, e2, e3, e4, e5, -, -, -, -, -⟩ :=
    core_reads hcU hO hH (vectorE hh ht1) ht2 hra hrs (S := S) trivial
  unfold findOptimalDensity
  simp only [f2, f3, f4, f5, f6, e1, e2, e3, e4, e5, ok_bind]
  rfl

theorem linearKernel_reads {S : List ℕ} {hidden obs : List ℕ} (hh : hidden.length ≤ 1) (ho : obs.length ≤ 1)
    {y mean scale a b s : Tensor} {ry rb ra rs : List ℕ} {Fm Fs Fa Fo Fy Fb} (hm : ReadsE mean hidden S Fm)
    (hsc : ReadsE scale hidden S Fs) (ha : ReadsA a hidden obs ra Fa) (hs : ReadsE s obs rs Fo) (hy : ReadsE y obs ry Fy)
    (hb : ReadsE b obs rb Fb) (hra : Sub ra S) (hrs : Sub rs S) (hry : Sub ry S) (hrb : Sub rb S)
    (hoff : obs ≠ [] → ry = [] ∧ rb = []) :
    ∃ D, linearKernel hidden obs y mean scale a b s = .ok D ∧ D.batchShape = S ∧ D.eventShape = hidden ∧
      ∀ i (x : Fin (dim hidden) → ℝ), D.logProbAt (broadcastIndex S i) x =
        optimalLogProb (hidden.length == 0) (Fy i - Fb i) (Fm i) (fun e => (Fs i e ^ 2)⁻¹) (fun j => (Fo i j ^ 2)⁻¹) (Fa i) x := by
  obtain ⟨yb, r2, f1, -, -, hr2, hyb⟩ := zipE (f := (· - ·)) ho hy hb hry hrb
  have hv := mapE (fun r => (r ^ 2)⁻¹) hsc
  have ov := mapE (fun r => (r ^ 2)⁻¹) hs
  have hoff' : obs ≠ [] → r2 = [] := by
    intro h
    obtain ⟨rfl, rfl⟩ := hoff h
    have := hyb.1
    unfold Tensor.zip at f1
    rw [hy.1, hb.1] at f1
    have e : broadcastShape (obs ++ []) (obs ++ []) = some (obs ++ []) := by
      obtain ⟨t, h1, h2, -, h3⟩ := broadcastShape_sub (Sub.refl (obs ++ [])) (Sub.refl (obs ++ []))
      rw [h1, h2.antisymm h3]
    rw [e] at f1
    have f2 := congrArg Tensor.shape (Except.ok.inj f1)
    dsimp only at f2
    rw [this] at f2
    exact (List.append_cancel_left f2).symm
  obtain ⟨O, f2, hO⟩ := diagE ho ov
  obtain ⟨t2, r3, f6, hr3, ht2⟩ := innovationE ho hO hyb hrs hr2 hoff'
  obtain ⟨D, h1, h2, h3, h4⟩ := findOptimalDensity_reads (y := yb) hh ho hm hv ha ov hra hrs hr3 (T2 := _) fun O' hO' _ => by
    obtain rfl : O = O' := Except.ok.inj (f2.symm.trans hO')
    exact ⟨t2, f6, ht2⟩
  refine ⟨D, ?_, h2, h3, fun i x => (h4 i x).trans rfl⟩
  unfold linearKernel
  rw [f1]
  exact h1

end Verif.Torch
