import Verif.Spec.SmoothingModels
import Verif.Model.Bootstrap
import Verif.Lemmas.TwoModels
import Verif.Props.TensorSmoothing

/-!
# Property C157: smoothing on tensors and smoothing on functions give the same paths
-/

namespace Verif.Props

open Verif Verif.Torch

variable {N B : ℕ} {Y Ω : Type}

theorem list_as_range {α : Type} (l : List α) (T : ℕ) (h : l.length = T + 1) (d : α) :
    l = (List.range (T + 1)).map fun t => (l[t]?).getD d := by
  refine List.ext_getElem (by simp [h]) fun i h1 h2 => ?_
  simp [List.getElem?_eq_getElem h1]

theorem forall2_get {α β : Type} {R : α → β → Prop} {l : List α} {m : List β} (h : List.Forall₂ R l m) (t : ℕ) (ht : t < l.length) (d : α) (e : β) :
    R ((l[t]?).getD d) ((m[t]?).getD e) := by
  rw [List.getElem?_eq_getElem ht, List.getElem?_eq_getElem (h.length_eq ▸ ht)]
  exact h.get ht (h.length_eq ▸ ht)

theorem flLoop_range {d : ℕ} (S : ℕ → PCorr N B d ℝ) (anc : ℕ → Fin N → Fin B → Fin N) (T : ℕ)
    (h : ∀ t < T, ∀ n b, anc t n b = (S (t + 1)).prev (anc (t + 1) n b) b) :
    flLoop (S T) (anc T) ((List.range T).reverse.map S) = (List.range T).reverse.map fun t n b => (S t).x.value (anc t n b) b := by
  induction T with
  | zero => rfl
  | succ T ih =>
    rw [List.range_succ, List.reverse_append]
    simp only [List.reverse_cons, List.reverse_nil, List.nil_append, List.cons_append, List.map_cons]
    rw [flLoop]
    have e : (fun i b => (S (T + 1)).prev (anc (T + 1) i b) b) = anc T := by
      funext n b
      exact (h T (by omega) n b).symm
    rw [e, ih fun t ht => h t (by omega)]
    rfl

theorem smoothFl_range {d : ℕ} (S : ℕ → PCorr N B d ℝ) (anc : ℕ → Fin N → Fin B → Fin N) (T : ℕ) (h0 : ∀ n b, anc T n b = n)
    (h : ∀ t < T, ∀ n b, anc t n b = (S (t + 1)).prev (anc (t + 1) n b) b) :
    smoothFl ((List.range (T + 1)).map S) = .ok ((List.range (T + 1)).map fun t n b => (S t).x.value (anc t n b) b) := by
  unfold smoothFl
  rw [← List.map_reverse, List.range_succ, List.reverse_append]
  simp only [List.reverse_cons, List.reverse_nil, List.nil_append, List.cons_append, List.map_cons]
  have e : (fun (i : Fin N) (_ : Fin B) => i) = anc T := by
    funext n b
    exact (h0 n b).symm
  rw [e, flLoop_range S anc T h, ← List.map_reverse, List.reverse_reverse, List.map_append, List.map_singleton, ← e]

theorem holdsPaths_of {ev : List ℕ} {z : Tensor} {T : ℕ} {path : ℕ → Fin N → List ℕ → Fin (dim ev) → ℝ} (h : PathG z ev [B] T path)
    (v : ℕ → Fin N → Fin B → Fin (dim ev) → ℝ) (hv : ∀ t ≤ T, ∀ n b, path t n [b.val] = v t n b) :
    HoldsPaths ev z ((List.range (T + 1)).map v) := by
  refine ⟨by simpa using h.1, fun t u hu n b j => ?_⟩
  rw [List.getElem?_map] at hu
  obtain ⟨k, hk, rfl⟩ := Option.map_eq_some_iff.1 hu
  obtain ⟨hlt, rfl⟩ := List.getElem?_eq_some_iff.1 hk
  rw [List.getElem_range, ← hv _ (by simpa [Nat.lt_succ_iff] using hlt)]
  exact h.2 _ (by simpa [Nat.lt_succ_iff] using hlt) n _ (inB b) j

/-- `_do_sample_fl`: both models succeed on every recorded history, with the same paths. -/
theorem C157_fixed_lag (ev : List ℕ) (hh : ev.length ≤ 1) (cs : List SmoothState) (ss : List (PCorr N B (dim ev) ℝ)) (hne : ss ≠ [])
    (h : List.Forall₂ (HoldsS ev) cs ss) : ∃ z vals, flTensor [B] N cs = .ok z ∧ smoothFl ss = .ok vals ∧ HoldsPaths ev z vals := by
  obtain ⟨T, hT⟩ : ∃ T, ss.length = T + 1 := Nat.exists_eq_succ_of_ne_zero fun e => hne (List.length_eq_zero_iff.1 e)
  have hT' : cs.length = T + 1 := h.length_eq.trans hT
  have dc : SmoothState := cs[0]'(by omega)
  have ds : PCorr N B (dim ev) ℝ := ss[0]'(by omega)
  set st : ℕ → SmoothState := fun t => (cs[t]?).getD dc with hst
  set S : ℕ → PCorr N B (dim ev) ℝ := fun t => (ss[t]?).getD ds with hS
  have hp (t : ℕ) (ht : t ≤ T) : HoldsS ev (st t) (S t) := forall2_get h t (by omega) dc ds
  obtain ⟨z, anc, h1, h2, h3, h4⟩ := C144_fixed_lag N T ev [B] hh (by simp) st (fun t n b => onIx ((S t).x.value n) (fun _ => 0) b)
    (fun t n b => onIx ((S t).prev n) n b) (fun t ht => partG_of (hp t ht).x) (fun t ht => indexG_of (hp t ht).prev)
  rw [list_as_range cs T hT' dc, list_as_range ss T hT ds]
  refine ⟨z, _, h1, smoothFl_range S (fun t n b => anc t n [b.val]) T (fun n b => h3 n _) (fun t ht n b => ?_), ?_⟩
  · rw [h4 t ht, onIx_one]
  · exact holdsPaths_of h2 _ fun t _ n b => onIx_one _ _ b

theorem ffbsLoop_range (ev : List ℕ) (K : Backward N B (dim ev) ℝ Ω) (pick : Ω → List ℕ → List ℝ → ℕ) (next : Ω → Ω) (hK : DrawsBy ev K pick next)
    (S : ℕ → PCorr N B (dim ev) ℝ) (W : ℕ → Fin N → Fin B → ℝ) (P : ℕ → Fin N → List ℕ → (Fin (dim ev) → ℝ) → ℝ)
    (path : ℕ → Fin N → Fin B → Fin (dim ev) → ℝ) (T : ℕ) (ω : Ω) (hw : ∀ t < T, ∀ n b, (S t).w n b = .fin (W t n b))
    (hP : ∀ t < T, ∀ j b v, K.logDensity (S t).x j b v = .fin (P t j [b.val] v))
    (hk : ∀ t < T, ∀ n b, ∃ k : Fin N, path t n b = (S t).x.value k b ∧
      k.val = pick (next^[T - 1 - t] ω) [b.val, n.val] (List.ofFn fun j => W t j b + P t j [b.val] (path (t + 1) n b))) :
    ffbsLoop K (path T) ((List.range T).reverse.map S) ω = ((List.range T).reverse.map path, next^[T] ω) := by
  induction T generalizing ω with
  | zero => rfl
  | succ T ih =>
    rw [List.range_succ, List.reverse_append]
    simp only [List.reverse_cons, List.reverse_nil, List.nil_append, List.cons_append, List.map_cons]
    rw [ffbsLoop]
    have eL : K.logits (S T) (path (T + 1)) = fun n b j => .fin (W T j b + P T j [b.val] (path (T + 1) n b)) := by
      funext n b j
      unfold Backward.logits
      rw [hw T (by omega), hP T (by omega)]
      rfl
    rw [eL]
    have e2 := hK.state (fun n b j => W T j b + P T j [b.val] (path (T + 1) n b)) ω
    have e1 : gatherVals (S T).x.value (K.categorical (fun n b j => .fin (W T j b + P T j [b.val] (path (T + 1) n b))) ω).1 = path T := by
      funext n b
      obtain ⟨k, k1, k2⟩ := hk T (by omega) n b
      have e := hK.value (fun n b j => W T j b + P T j [b.val] (path (T + 1) n b)) ω n b
      rw [k1]
      unfold gatherVals
      have : (K.categorical (fun n b j => .fin (W T j b + P T j [b.val] (path (T + 1) n b))) ω).1 n b = k := by
        apply Fin.ext
        rw [e, k2]
        simp
      rw [this]
    dsimp only
    rw [e1, e2, ih (next ω) (fun t ht => hw t (by omega)) (fun t ht => hP t (by omega)) fun t ht n b => by
      obtain ⟨k, k1, k2⟩ := hk t (by omega) n b
      refine ⟨k, k1, ?_⟩
      rw [k2, ← Function.iterate_succ_apply, show T + 1 - 1 - t = (T - 1 - t).succ by omega]]
    rfl

/-- `_do_sample_ffbs`: both models succeed on every recorded history, with the same paths, if `Categorical` and the resampling scheme draw
the same. The generator state at which the tensors draw for the state with `t` states before it is the one that the other model reaches. -/
theorem C157_backward_sampling (ev : List ℕ) (hh : ev.length ≤ 1) (M : ParticleModel N B (dim ev) ℝ Y Ω) (K : Backward N B (dim ev) ℝ Ω)
    (pick : Ω → List ℕ → List ℝ → ℕ) (next : Ω → Ω) (hK : DrawsBy ev K pick next) (cs : List SmoothState)
    (ss : List (PCorr N B (dim ev) ℝ)) (hne : ss ≠ []) (h : List.Forall₂ (fun c s => HoldsS ev c s ∧ SameNext ev K c s) cs ss) (ω : Ω)
    (res : Tensor → Except PyErr Index) (hr : SameScheme ev M ω res) :
    ∃ z vals ω', smoothFfbs M K ss ω = .ok (vals, ω') ∧ HoldsPaths ev z vals ∧
      ffbsTensor ev [B] N res (fun t => pick (next^[ss.length - 2 - t] (M.resampler (ss.getLast hne).w false ω).2)) cs = .ok z := by
  obtain ⟨T, hT⟩ : ∃ T, ss.length = T + 1 := Nat.exists_eq_succ_of_ne_zero fun e => hne (List.length_eq_zero_iff.1 e)
  have hT' : cs.length = T + 1 := h.length_eq.trans hT
  have dc : SmoothState := cs[0]'(by omega)
  have ds : PCorr N B (dim ev) ℝ := ss[0]'(by omega)
  set st : ℕ → SmoothState := fun t => (cs[t]?).getD dc with hst
  set S : ℕ → PCorr N B (dim ev) ℝ := fun t => (ss[t]?).getD ds with hS
  have hp (t : ℕ) (ht : t ≤ T) : HoldsS ev (st t) (S t) ∧ SameNext ev K (st t) (S t) := forall2_get h t (by omega) dc ds
  choose! P hP1 hP2 using fun t (ht : t ≤ T) => (hp t ht).2
  obtain ⟨A, hA, eA⟩ := hr
  have el : (ss.getLast hne).w = fun n b => .fin ((st T).w.val [b.val, n.val]) := by
    have : ss.getLast hne = S T := by
      rw [List.getLast_eq_getElem]
      simp [hS, hT]
    rw [this]
    exact eq_fin (hp T le_rfl).1.w.2
  obtain ⟨idx, i1, i2⟩ := hA (st T).w _ (weightG_of (hp T le_rfl).1.w.1)
  set ω1 := (M.resampler (ss.getLast hne).w false ω).2 with hω
  obtain ⟨z, path, h1, h2, h3, h4⟩ := C144_backward_sampling N T ev [B] hh (by simp) res
    (fun t => pick (next^[ss.length - 2 - t] ω1)) st (fun t n b => onIx ((S t).x.value n) (fun _ => 0) b)
    (fun t n b => (st t).w.val (b ++ [n.val])) P idx _ (fun t i row hrow => hK.bound _ i row hrow)
    (fun t ht => partG_of (hp t ht).1.x) (fun t ht => weightG_of (hp t ht.le).1.w.1) (fun t ht => hP1 t ht.le) i1 i2
  have hl := ffbsLoop_range ev K pick next hK S (fun t n b => (st t).w.val [b.val, n.val]) P (fun t n b => path t n [b.val]) T ω1
    (fun t ht => (hp t ht.le).1.w.2) (fun t ht => hP2 t ht.le) fun t ht n b => by
      obtain ⟨k, k1, k2⟩ := h4 t ht n _ (inB b)
      refine ⟨k, k1.trans (onIx_one _ _ b), ?_⟩
      rw [k2, show ss.length - 2 - t = T - 1 - t by omega]
      rfl
  have e0 : gatherVals (S T).x.value (M.resampler (ss.getLast hne).w false ω).1 = fun n b => path T n [b.val] := by
    funext n b
    rw [h3 n _ (inB b), onIx_one]
    unfold gatherVals
    rw [el, eA]
    rfl
  refine ⟨z, (List.range (T + 1)).map fun t n b => path t n [b.val], next^[T] ω1, ?_, holdsPaths_of h2 _ fun _ _ _ _ => rfl, ?_⟩
  · have er : ss.reverse = S T :: (List.range T).reverse.map S := by
      conv_lhs => rw [list_as_range ss T hT ds]
      rw [← List.map_reverse, List.range_succ, List.reverse_append]
      rfl
    have eg : ss.getLast hne = S T := by
      rw [List.getLast_eq_getElem]
      simp [hS, hT]
    rw [eg] at e0 hω
    unfold smoothFfbs
    rw [er]
    dsimp only
    rw [e0, ← hω, hl]
    simp [List.range_succ]
  · conv_lhs => rw [list_as_range cs T hT' dc]
    exact h1

/-- What a filter on tensors records can be smoothed: its states (C155) hold what smoothing reads, whatever the transition density. -/
theorem C157_recorded (ev : List ℕ) (hh : ev.length ≤ 1) (cs : List CorrectionT) (ss : List (PCorr N B (dim ev) ℝ)) (hne : ss ≠ [])
    (h : List.Forall₂ (HoldsC ev) cs ss) (logProb : CorrectionT → Tensor → Except PyErr Tensor) :
    ∃ z vals, flTensor [B] N (cs.map fun c => ⟨c.x, c.w, c.indices, logProb c⟩) = .ok z ∧ smoothFl ss = .ok vals ∧ HoldsPaths ev z vals :=
  C157_fixed_lag ev hh _ ss hne (List.forall₂_map_left_iff.2 (h.imp fun _ _ g => ⟨g.x, g.w, g.prev⟩))

/-- The state that the tensors of `smoothExample` hold. -/
noncomputable def smoothHeld (_t : ℕ) : PCorr 3 2 (dim []) ℝ where
  x := ⟨fun n b _ => (n.val : ℝ) + 10 * (b.val : ℝ), 0⟩
  w := fun _ _ => .fin 0
  ll := fun _ => .fin 0
  prev := fun n _ => ⟨2 - n.val, by omega⟩

/-- Backward sampling with normal transitions; the generator is a counter, and category `ω` modulo the number of categories is drawn. -/
noncomputable def smoothBackward : Backward 3 2 (dim []) ℝ ℕ where
  logDensity _ j b v := .fin (normalLogProb ((j.val : ℝ) + 10 * (b.val : ℝ)) 1 (v ix0))
  categorical _ ω := (fun _ _ => ⟨ω % 3, Nat.mod_lt _ (by omega)⟩, ω + 1)

/-- A filter of which smoothing uses the resampling scheme only; every particle is selected once. -/
noncomputable def smoothFilter : ParticleModel 3 2 (dim []) ℝ ℝ ℕ where
  lo := -100
  threshold := 1
  resampler := fun _ _ ω => (fun n _ => n, ω + 1)
  propagateValues x ω := (x.value, ω)
  kind := .bootstrap
  sampleValues := bootstrapSample (fun x ω => (x.value, ω)) fun _ _ _ _ => .fin 0
  preWeight _ _ _ _ := .fin 0
  allNan _ := false

theorem smoothHeld_holds (t : ℕ) : HoldsS [] (smoothExample t) (smoothHeld t) :=
  ⟨⟨rfl, fun _ _ _ => rfl⟩, ⟨rfl, fun _ _ => rfl⟩, ⟨rfl, fun _ _ => rfl⟩⟩

theorem smoothNext_same (t : ℕ) : SameNext [] smoothBackward (smoothExample t) (smoothHeld t) :=
  ⟨_, C144_normal_density 3 [2] (by simp) _ _ (fun n b => (n.val : ℝ) + 10 * (b.headD 0 : ℝ)) (fun _ _ => 1)
    ⟨rfl, fun n b hb => by obtain ⟨k, rfl, -⟩ := inShape_one.1 hb; rfl⟩ ⟨rfl, fun _ _ _ => rfl⟩, fun _ _ _ => rfl⟩

/-- A case of `C157_fixed_lag`: the order of the particles is reversed at every step. -/
example : ∃ z vals, flTensor [2] 3 ((List.range 5).map smoothExample) = .ok z ∧ smoothFl ((List.range 5).map smoothHeld) = .ok vals ∧
    HoldsPaths [] z vals :=
  C157_fixed_lag [] (by simp) _ _ (List.cons_ne_nil _ _) (by
    rw [List.forall₂_map_left_iff, List.forall₂_map_right_iff, List.forall₂_same]
    exact fun t _ => smoothHeld_holds t)

/-- A case of `C157_recorded`. -/
example (lp : CorrectionT → Tensor → Except PyErr Tensor) : ∃ z vals,
    flTensor [2] 3 (((List.range 5).map fun t => (⟨(smoothExample t).x, (smoothExample t).w, ⟨[2], fun _ => 0⟩, (smoothExample t).prev⟩ :
      CorrectionT)).map fun c => ⟨c.x, c.w, c.indices, lp c⟩) = .ok z ∧
    smoothFl ((List.range 5).map smoothHeld) = .ok vals ∧ HoldsPaths [] z vals :=
  C157_recorded [] (by simp) _ ((List.range 5).map smoothHeld) (List.cons_ne_nil _ _) (by
    rw [List.forall₂_map_left_iff, List.forall₂_map_right_iff, List.forall₂_same]
    exact fun t _ => ⟨(smoothHeld_holds t).x, (smoothHeld_holds t).w, ⟨rfl, fun _ => rfl⟩, (smoothHeld_holds t).prev⟩) lp

/-- A case of `C157_backward_sampling`: with the generator in state 7, which resampling turns into 8, the first draw goes back to particle
2 of either filter. -/
example : ∃ z draw, ffbsTensor [] [2] 3 (fun _ => .ok ⟨[2, 3], fun i => i.tail.headD 0⟩) draw ((List.range 5).map smoothExample) = .ok z ∧
    z.shape = [2, 3, 5] ∧ z.val [1, 0, 3] = 12 := by
  obtain ⟨z, vals, ω', h1, h2, h3⟩ := C157_backward_sampling [] (by simp) smoothFilter smoothBackward (fun ω _ row => ω % row.length) (· + 1)
    ⟨fun _ _ => rfl, fun _ _ _ _ => by simp [smoothBackward], fun _ _ _ h => Nat.mod_lt _ (List.length_pos_iff.2 h)⟩
    ((List.range 5).map smoothExample) ((List.range 5).map smoothHeld) (List.cons_ne_nil _ _) (by
      rw [List.forall₂_map_left_iff, List.forall₂_map_right_iff, List.forall₂_same]
      exact fun t _ => ⟨smoothHeld_holds t, smoothNext_same t⟩) 7 (fun _ => .ok ⟨[2, 3], fun i => i.tail.headD 0⟩)
    ⟨fun _ _ n => n, fun _ _ _ => ⟨_, rfl, rfl, fun n b hb => by obtain ⟨k, rfl, -⟩ := inShape_one.1 hb; rfl⟩, fun _ _ _ => rfl⟩
  have e : vals = [fun _ b _ => ((2 : ℕ) : ℝ) + 10 * (b.val : ℝ), fun _ b _ => ((1 : ℕ) : ℝ) + 10 * (b.val : ℝ),
      fun _ b _ => ((0 : ℕ) : ℝ) + 10 * (b.val : ℝ), fun _ b _ => ((2 : ℕ) : ℝ) + 10 * (b.val : ℝ),
      fun n b _ => (n.val : ℝ) + 10 * (b.val : ℝ)] := by
    have h := h1
    injection h with h
    exact (congrArg Prod.fst h).symm
  subst e
  refine ⟨z, _, h3, h2.1, ?_⟩
  refine (h2.2 3 _ rfl 0 1 ix0).trans ?_
  change ((2 : ℕ) : ℝ) + 10 * ((1 : ℕ) : ℝ) = 12
  norm_num

end Verif.Props
