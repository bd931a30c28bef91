import Verif.Spec.TensorSteps
import Verif.Props.TensorMove

/-!
# Lemmas about runs on tensors
-/

namespace Verif.Torch

/-- A step moves every filter by `R b`. -/
def StepG (N : ℕ) (ev bs : List ℕ) (s : StepT) (R : List ℕ → OneMove N (dim ev)) : Prop :=
  ∀ (c : CorrectionT) (F : Fin N → List ℕ → Fin (dim ev) → ℝ) (W : Fin N → List ℕ → ℝ) (Q : Fin N → List ℕ → Fin N), CorrG c ev bs F W Q →
    ∃ (c' : CorrectionT) (F' : Fin N → List ℕ → Fin (dim ev) → ℝ) (W' : Fin N → List ℕ → ℝ) (Q' : Fin N → List ℕ → Fin N),
      s.move c = .ok c' ∧ CorrG c' ev bs F' W' Q' ∧ c'.ll.shape = bs ∧
      ∀ b, InShape bs b → R b (oneOf F W Q b) (oneOf F' W' Q' b) (c'.ll.val b)

theorem run_ok {N : ℕ} {ev bs : List ℕ} {steps : List StepT} {Rs : List (List ℕ → OneMove N (dim ev))}
    (h : List.Forall₂ (StepG N ev bs) steps Rs) : ∀ (c : CorrectionT) (total : Tensor) (F : Fin N → List ℕ → Fin (dim ev) → ℝ)
    (W : Fin N → List ℕ → ℝ) (Q : Fin N → List ℕ → Fin N), CorrG c ev bs F W Q → total.shape = bs →
    ∃ (c' : CorrectionT) (total' : Tensor) (F' : Fin N → List ℕ → Fin (dim ev) → ℝ) (W' : Fin N → List ℕ → ℝ) (Q' : Fin N → List ℕ → Fin N),
      runT steps c total = .ok (c', total') ∧ CorrG c' ev bs F' W' Q' ∧ total'.shape = bs ∧
      ∀ b, InShape bs b → ∃ L, OneRun (Rs.map fun R => R b) (oneOf F W Q b) (oneOf F' W' Q' b) L ∧ total'.val b = total.val b + L := by
  induction h with
  | nil => exact fun c total F W Q hc ht => ⟨c, total, F, W, Q, rfl, hc, ht, fun b _ => ⟨0, .nil _, (add_zero _).symm⟩⟩
  | cons hs _ ih =>
    intro c total F W Q hc ht
    obtain ⟨c1, F1, W1, Q1, e1, e2, e3, e4⟩ := hs c F W Q hc
    obtain ⟨t, t1, t2, t3⟩ := zip_batch (x := total) (y := c1.ll) (f := total.val) (g := c1.ll.val) ⟨ht, fun _ _ => rfl⟩ ⟨e3, fun _ _ => rfl⟩
    obtain ⟨c2, total2, F2, W2, Q2, r1, r2, r3, r4⟩ := ih c1 t F1 W1 Q1 e2 t2
    refine ⟨c2, total2, F2, W2, Q2, ?_, r2, r3, fun b hb => ?_⟩
    · unfold runT
      simp only [e1, t1, ok_bind, r1]
    · obtain ⟨L, l1, l2⟩ := r4 b hb
      exact ⟨_, .cons (e4 b hb) l1, by rw [l2, t3 b hb]; ring⟩

/-- `SISR.predict` at one filter of the batch. -/
theorem sisr_predict_one {N B : ℕ} (hN : 0 < N) {ev : List ℕ} (hh : ev.length ≤ 1) (threshold : ℝ) {res : Tensor → Except PyErr Index}
    {A : ℕ → (Fin N → ℝ) → Fin N → Fin N} (hA : ColumnG N res A) {c : CorrectionT}
    {F : Fin N → List ℕ → Fin (dim ev) → ℝ} {W : Fin N → List ℕ → ℝ} {Q : Fin N → List ℕ → Fin N} (hc : CorrG c ev [B] F W Q) :
    ∃ (p : PredictionT) (F1 : Fin N → List ℕ → Fin (dim ev) → ℝ) (W1 U1 : Fin N → List ℕ → ℝ) (Q1 : Fin N → List ℕ → Fin N),
      sisrPredict ev threshold res c.x c.w c.indices = .ok p ∧ PartG p.x ev [B] F1 ∧ WeightG p.weights [B] W1 ∧
      WeightG p.normalized [B] U1 ∧ IndexG p.indices [B] Q1 ∧ (∀ n b, 0 < U1 n b) ∧
      ∀ b, InShape [B] b → ∃ k ≤ b.headD 0,
        (essOf (fun n => W n b) < threshold → ((fun n => Q1 n b) = A k (softmaxOf fun n => W n b)) ∧ ((fun n => F1 n b) = fun n => F (Q1 n b) b) ∧
          ((fun n => W1 n b) = fun _ => 0) ∧ (fun n => U1 n b) = fun _ => (1 / N : ℝ)) ∧
        (¬ essOf (fun n => W n b) < threshold → ((fun n => Q1 n b) = fun n => Q n b) ∧ ((fun n => F1 n b) = fun n => F n b) ∧
          ((fun n => W1 n b) = fun n => W n b) ∧ (fun n => U1 n b) = softmaxOf fun n => W n b) := by
  obtain ⟨p, low, p1, p2, p3, p4, p5, p6⟩ := Props.C148_batch N B hN ev hh threshold res A hA c.x c.w c.indices F W Q hc.1 hc.2.1 hc.2.2
  have hN' : (0 : ℝ) < 1 / N := by positivity
  refine ⟨p, _, _, _, _, p1, p3, p4, p5, p6, fun n b => ?_, fun b hb => ?_⟩
  · by_cases h : low (b.headD 0) = true
    · exact hN'.trans_eq (if_pos h).symm
    · exact (softmaxOf_pos _ n).trans_eq (if_neg h).symm
  · obtain ⟨k, rfl, hk⟩ := inShape_one.1 hb
    refine ⟨((List.range k).filter low).length, (List.length_filter_le _ _).trans (by simp), fun hl => ?_, fun hl => ?_⟩
    · have hlow : low k = true := (p2 k hk).2 hl
      simp only [List.headD_cons, hlow, if_true, and_self]
    · have hlow : low k = false := by rw [Bool.eq_false_iff, Ne, p2 k hk]; exact hl
      simp only [List.headD_cons, hlow, Bool.false_eq_true, if_false, and_self]

theorem createState_ok {N : ℕ} {ev bs : List ℕ} {f : Tensor → Except PyErr Tensor} {T : Fin N → List ℕ → (Fin (dim ev) → ℝ) → Fin (dim ev) → ℝ}
    (hf : PropagateG N ev bs f T) {p : PredictionT} {F : Fin N → List ℕ → Fin (dim ev) → ℝ} {U : Fin N → List ℕ → ℝ}
    (hx : PartG p.x ev bs F) (hu : WeightG p.normalized bs U) :
    ∃ c, createState f p = .ok c ∧ PartG c.x ev bs (fun n b => T n b (F n b)) ∧ c.w = p.weights ∧ c.indices = p.indices ∧
      c.ll.shape = bs ∧ ∀ b, c.ll.val b = 0 := by
  obtain ⟨z, z1, z2⟩ := hf _ _ hx
  refine ⟨⟨z, p.weights, ⟨p.normalized.shape.dropLast, fun _ => 0⟩, p.indices⟩, ?_, z2, rfl, rfl, ?_, fun _ => rfl⟩
  · unfold createState
    rw [z1, ok_bind]
    rfl
  · dsimp only
    rw [hu.1, List.dropLast_concat]

theorem SisrStep.stepG {N : ℕ} (hN : 0 < N) {ev : List ℕ} (hh : ev.length ≤ 1) {B : ℕ} {threshold : ℝ} {s : StepT}
    {R : List ℕ → OneMove N (dim ev)} (h : SisrStep N ev B threshold s R) : StepG N ev [B] s R := by
  intro c F W Q hc
  cases h with
  | @seen res A f S V hA hf =>
    obtain ⟨p, F1, W1, U1, Q1, p1, p2, p3, p4, p5, p6, p7⟩ := sisr_predict_one hN hh threshold hA hc
    obtain ⟨d, d1, d2, d3, d4, d5, d6⟩ := Props.C149_sisr_correct N hN ev [B] f S V hf p F1 W1 U1 p2 p3 p4 fun n b _ => p6 n b
    refine ⟨d, _, _, Q1, ?_, ⟨d3, d4, d2 ▸ p5⟩, d5, fun b hb => ?_⟩
    · unfold StepT.move
      simp only [p1, ok_bind, d1]
    · obtain ⟨k, hk, k1, k2⟩ := p7 b hb
      refine ⟨k, hk, fun hl => ?_, fun hl => ?_⟩
      · obtain ⟨a1, a2, a3, a4⟩ := k1 hl
        refine ⟨a1, fun n => ?_, fun n => ?_, ?_⟩
        · simp only [oneOf, a2, a4]
        · simp only [oneOf, a2, a4]
          rw [congrFun a3 n]
        · rw [d6 b hb]
          simp only [oneOf, a2, a4]
          exact congrArg Real.log (Finset.sum_congr rfl fun n _ => by rw [congrFun a4 n])
      · obtain ⟨a1, a2, a3, a4⟩ := k2 hl
        refine ⟨a1, fun n => ?_, fun n => ?_, ?_⟩
        · simp only [oneOf, a2, a4]
        · simp only [oneOf, a2, a4]
          rw [congrFun a3 n]
        · rw [d6 b hb]
          simp only [oneOf, a2, a4]
          exact congrArg Real.log (Finset.sum_congr rfl fun n _ => by rw [congrFun a4 n])
  | @missing res A f T hA hf =>
    obtain ⟨p, F1, W1, U1, Q1, p1, p2, p3, p4, p5, p6, p7⟩ := sisr_predict_one hN hh threshold hA hc
    obtain ⟨d, d1, d2, d3, d4, d5, d6⟩ := createState_ok hf p2 p4
    refine ⟨d, _, W1, Q1, ?_, ⟨d2, d3 ▸ p3, d4 ▸ p5⟩, d5, fun b hb => ?_⟩
    · unfold StepT.move
      simp only [p1, ok_bind, d1]
    · obtain ⟨k, hk, k1, k2⟩ := p7 b hb
      refine ⟨k, hk, fun hl => ?_, fun hl => ?_⟩
      · obtain ⟨a1, a2, a3, -⟩ := k1 hl
        exact ⟨a1, fun n => congrArg (T n b) (congrFun a2 n), fun n => congrFun a3 n, d6 b⟩
      · obtain ⟨a1, a2, a3, -⟩ := k2 hl
        exact ⟨a1, fun n => congrArg (T n b) (congrFun a2 n), fun n => congrFun a3 n, d6 b⟩

/-- `SISR.predict` of a single filter. -/
theorem sisr_predict_single {N : ℕ} (hN : 0 < N) {ev : List ℕ} (hh : ev.length ≤ 1) (threshold : ℝ) {res : Tensor → Except PyErr Index}
    {A : ℕ → (Fin N → ℝ) → Fin N → Fin N} (hA : ColumnG N res A) {c : CorrectionT}
    {F : Fin N → List ℕ → Fin (dim ev) → ℝ} {W : Fin N → List ℕ → ℝ} {Q : Fin N → List ℕ → Fin N} (hc : CorrG c ev [] F W Q) :
    ∃ (p : PredictionT) (F1 : Fin N → List ℕ → Fin (dim ev) → ℝ) (W1 U1 : Fin N → List ℕ → ℝ) (Q1 : Fin N → List ℕ → Fin N),
      sisrPredict ev threshold res c.x c.w c.indices = .ok p ∧ PartG p.x ev [] F1 ∧ WeightG p.weights [] W1 ∧
      WeightG p.normalized [] U1 ∧ IndexG p.indices [] Q1 ∧ (∀ n b, 0 < U1 n b) ∧
        (essOf (fun n => W n []) < threshold → ((fun n => Q1 n []) = A 0 (softmaxOf fun n => W n [])) ∧
          ((fun n => F1 n []) = fun n => F (Q1 n []) []) ∧ ((fun n => W1 n []) = fun _ => 0) ∧ (fun n => U1 n []) = fun _ => (1 / N : ℝ)) ∧
        (¬ essOf (fun n => W n []) < threshold → ((fun n => Q1 n []) = fun n => Q n []) ∧ ((fun n => F1 n []) = fun n => F n []) ∧
          ((fun n => W1 n []) = fun n => W n []) ∧ (fun n => U1 n []) = softmaxOf fun n => W n []) := by
  obtain ⟨p, p1, p2, p3⟩ := Props.C148_single_filter N hN ev hh threshold res A hA c.x c.w c.indices F W Q hc.1 hc.2.1 hc.2.2
  have hN' : (0 : ℝ) < 1 / N := by positivity
  by_cases h : essOf (fun n => W n []) < threshold
  · obtain ⟨a1, a2, a3, a4⟩ := p2 h
    exact ⟨p, _, _, _, _, p1, a1, a2, a3, a4, fun _ _ => hN', fun _ => ⟨rfl, rfl, rfl, rfl⟩, fun h' => absurd h h'⟩
  · obtain ⟨a1, a2, a3, a4⟩ := p3 h
    exact ⟨p, F, W, _, Q, p1, a1 ▸ hc.1, a2 ▸ hc.2.1, a4, a3 ▸ hc.2.2, fun n b => softmaxOf_pos _ n, fun h' => absurd h' h,
      fun _ => ⟨rfl, rfl, rfl, rfl⟩⟩

theorem inShape_nil {b : List ℕ} (h : InShape [] b) : b = [] := by
  cases h
  rfl

theorem SisrStep1.stepG {N : ℕ} (hN : 0 < N) {ev : List ℕ} (hh : ev.length ≤ 1) {threshold : ℝ} {s : StepT}
    {R : OneMove N (dim ev)} (h : SisrStep1 N ev threshold s R) : StepG N ev [] s fun _ => R := by
  intro c F W Q hc
  cases h with
  | @seen res A f S V hA hf =>
    obtain ⟨p, F1, W1, U1, Q1, p1, p2, p3, p4, p5, p6, k1, k2⟩ := sisr_predict_single hN hh threshold hA hc
    obtain ⟨d, d1, d2, d3, d4, d5, d6⟩ := Props.C149_sisr_correct N hN ev [] f S V hf p F1 W1 U1 p2 p3 p4 fun n b _ => p6 n b
    refine ⟨d, _, _, Q1, ?_, ⟨d3, d4, d2 ▸ p5⟩, d5, fun b hb => ?_⟩
    · unfold StepT.move
      simp only [p1, ok_bind, d1]
    · obtain rfl := inShape_nil hb
      refine ⟨fun hl => ?_, fun hl => ?_⟩
      · obtain ⟨a1, a2, a3, a4⟩ := k1 hl
        refine ⟨a1, fun n => ?_, fun n => ?_, ?_⟩
        · simp only [oneOf, a2, a4]
        · simp only [oneOf, a2, a4]
          rw [congrFun a3 n]
        · rw [d6 [] hb]
          simp only [oneOf, a2, a4]
          exact congrArg Real.log (Finset.sum_congr rfl fun n _ => by rw [congrFun a4 n])
      · obtain ⟨a1, a2, a3, a4⟩ := k2 hl
        refine ⟨a1, fun n => ?_, fun n => ?_, ?_⟩
        · simp only [oneOf, a2, a4]
        · simp only [oneOf, a2, a4]
          rw [congrFun a3 n]
        · rw [d6 [] hb]
          simp only [oneOf, a2, a4]
          exact congrArg Real.log (Finset.sum_congr rfl fun n _ => by rw [congrFun a4 n])
  | @missing res A f T hA hf =>
    obtain ⟨p, F1, W1, U1, Q1, p1, p2, p3, p4, p5, p6, k1, k2⟩ := sisr_predict_single hN hh threshold hA hc
    obtain ⟨d, d1, d2, d3, d4, d5, d6⟩ := createState_ok hf p2 p4
    refine ⟨d, _, W1, Q1, ?_, ⟨d2, d3 ▸ p3, d4 ▸ p5⟩, d5, fun b hb => ?_⟩
    · unfold StepT.move
      simp only [p1, ok_bind, d1]
    · obtain rfl := inShape_nil hb
      refine ⟨fun hl => ?_, fun hl => ?_⟩
      · obtain ⟨a1, a2, a3, -⟩ := k1 hl
        exact ⟨a1, fun n => congrArg (T n []) (congrFun a2 n), fun n => congrFun a3 n, d6 []⟩
      · obtain ⟨a1, a2, a3, -⟩ := k2 hl
        exact ⟨a1, fun n => congrArg (T n []) (congrFun a2 n), fun n => congrFun a3 n, d6 []⟩

theorem ApfStep.stepG {N : ℕ} (hN : 0 < N) {ev bs : List ℕ} (hh : ev.length ≤ 1) (hb1 : bs.length ≤ 1) {s : StepT}
    {R : List ℕ → OneMove N (dim ev)} (h : ApfStep N ev bs s R) : StepG N ev bs s R := by
  intro c F W Q hc
  cases h with
  | @seen res A pre P f S V hA hP hf =>
    obtain ⟨p, d, p1, -, d1, d2, d3, d4, d5, d6⟩ := Props.C149_apf N hN ev bs hh hb1 res A hA pre P hP f S V hf c.x c.w F W hc.1 hc.2.1
    refine ⟨d, _, _, _, ?_, ⟨d3, d4, d2⟩, d5, fun b hb => ⟨rfl, fun n => rfl, fun n => rfl, d6 b hb⟩⟩
    unfold StepT.move
    simp only [p1, ok_bind, d1]
  | @missing f T hf =>
    obtain ⟨p, p1, p2, p3, p4, p5⟩ := apfPredict_ok hN hb1 (x := c.x) hc.2.1
    obtain ⟨d, d1, d2, d3, d4, d5, d6⟩ := createState_ok hf (p2 ▸ hc.1) p4
    refine ⟨d, _, W, _, ?_, ⟨d2, d3 ▸ p3 ▸ hc.2.1, d4 ▸ p5⟩, d5, fun b hb => ⟨fun n => rfl, fun n => rfl, fun n => rfl, d6 b⟩⟩
    unfold StepT.move
    simp only [p1, ok_bind, d1]

theorem OneFilter.ext' {N d : ℕ} {s t : OneFilter N d} (h1 : ∀ n, s.x n = t.x n) (h2 : ∀ n, s.w n = t.w n) (h3 : ∀ n, s.a n = t.a n) :
    s = t := by
  cases s
  cases t
  congr 1
  · exact funext h1
  · exact funext h2
  · exact funext h3

theorem ApfStep.functional {N : ℕ} {ev bs : List ℕ} {s : StepT} {R : List ℕ → OneMove N (dim ev)} (h : ApfStep N ev bs s R) {b : List ℕ}
    {t t1 t2 : OneFilter N (dim ev)} {l1 l2 : ℝ} (h1 : R b t t1 l1) (h2 : R b t t2 l2) : t1 = t2 ∧ l1 = l2 := by
  cases h with
  | seen =>
    obtain ⟨a1, a2, a3, a4⟩ := h1
    obtain ⟨b1, b2, b3, b4⟩ := h2
    have e : t1 = t2 := OneFilter.ext' (fun n => by rw [a2, b2, a1, b1]) (fun n => by rw [a3, b3, a1, b1]) fun n => by rw [a1, b1]
    exact ⟨e, by rw [a4, b4, e]⟩
  | missing =>
    obtain ⟨a1, a2, a3, a4⟩ := h1
    obtain ⟨b1, b2, b3, b4⟩ := h2
    exact ⟨OneFilter.ext' (fun n => by rw [a2, b2]) (fun n => by rw [a3, b3]) fun n => by rw [a1, b1], by rw [a4, b4]⟩

theorem OneRun.functional {N : ℕ} {ev bs : List ℕ} {steps : List StepT} {Rs : List (List ℕ → OneMove N (dim ev))}
    (hs : List.Forall₂ (ApfStep N ev bs) steps Rs) {b : List ℕ} : ∀ {s s1 s2 : OneFilter N (dim ev)} {L1 L2 : ℝ},
    OneRun (Rs.map fun R => R b) s s1 L1 → OneRun (Rs.map fun R => R b) s s2 L2 → s1 = s2 ∧ L1 = L2 := by
  induction hs with
  | nil =>
    intro s s1 s2 L1 L2 h1 h2
    cases h1
    cases h2
    exact ⟨rfl, rfl⟩
  | cons hr _ ih =>
    intro s s1 s2 L1 L2 h1 h2
    rw [List.map_cons] at h1 h2
    cases h1 with
    | cons a1 t1 =>
      cases h2 with
      | cons a2 t2 =>
        obtain ⟨rfl, rfl⟩ := ApfStep.functional hr a1 a2
        obtain ⟨r1, r2⟩ := ih t1 t2
        exact ⟨r1, by rw [r2]⟩

theorem OneObs.functional {N d : ℕ} (o : OneObs N d) {y : Fin N → Fin d → ℝ} {w v : Fin N → ℝ} {s t : OneFilter N d} {l m : ℝ}
    (h1 : o.Result y w v s l) (h2 : o.Result y w v t m) (ha : s.a = t.a) : s = t ∧ l = m := by
  cases o <;>
  · obtain ⟨a1, a2, a3⟩ := h1
    obtain ⟨b1, b2, b3⟩ := h2
    exact ⟨OneFilter.ext' (fun n => by rw [a1, b1]) (fun n => by rw [a2, b2]) fun n => by rw [ha], by rw [a3, b3]⟩

theorem sisrMove_functional {N d : ℕ} (threshold : ℝ) (A : (Fin N → ℝ) → Fin N → Fin N) (o : OneObs N d) {s t1 t2 : OneFilter N d} {l1 l2 : ℝ}
    (h1 : sisrMove threshold A o s t1 l1) (h2 : sisrMove threshold A o s t2 l2) : t1 = t2 ∧ l1 = l2 := by
  by_cases h : essOf s.w < threshold
  · obtain ⟨a1, a2⟩ := h1.1 h
    obtain ⟨b1, b2⟩ := h2.1 h
    have e : t1.a = t2.a := a1.trans b1.symm
    rw [e] at a2
    exact o.functional a2 b2 e
  · obtain ⟨a1, a2⟩ := h1.2 h
    obtain ⟨b1, b2⟩ := h2.2 h
    exact o.functional a2 b2 (a1.trans b1.symm)

/-- Runs by functions end in the same state. -/
theorem OneRun.unique {N d : ℕ} {Rs Rs' : List (OneMove N d)}
    (h : List.Forall₂ (fun R R' => ∀ s s1 s2 l1 l2, R s s1 l1 → R' s s2 l2 → s1 = s2 ∧ l1 = l2) Rs Rs') :
    ∀ {s s1 s2 : OneFilter N d} {L1 L2 : ℝ}, OneRun Rs s s1 L1 → OneRun Rs' s s2 L2 → s1 = s2 ∧ L1 = L2 := by
  induction h with
  | nil =>
    intro s s1 s2 L1 L2 h1 h2
    cases h1
    cases h2
    exact ⟨rfl, rfl⟩
  | cons hr _ ih =>
    intro s s1 s2 L1 L2 h1 h2
    cases h1 with
    | cons a1 t1 =>
      cases h2 with
      | cons a2 t2 =>
        obtain ⟨rfl, rfl⟩ := hr _ _ _ _ _ a1 a2
        obtain ⟨r1, r2⟩ := ih t1 t2
        exact ⟨r1, by rw [r2]⟩

theorem SisrStep1.functional {N : ℕ} {ev : List ℕ} {threshold : ℝ} {s : StepT} {R : OneMove N (dim ev)} (h : SisrStep1 N ev threshold s R)
    {t t1 t2 : OneFilter N (dim ev)} {l1 l2 : ℝ} (h1 : R t t1 l1) (h2 : R t t2 l2) : t1 = t2 ∧ l1 = l2 := by
  cases h <;> exact sisrMove_functional _ _ _ h1 h2

theorem SisrAlone.split {N : ℕ} {ev : List ℕ} {B : ℕ} {threshold : ℝ} {b : ℕ} {s : StepT} {al : ℕ → StepT}
    (h : SisrAlone N ev B threshold b s al) : ∃ R, SisrStep N ev B threshold s R ∧
      ∀ t t' l, R [b] t t' l → ∃ k ≤ b, ∃ M, SisrStep1 N ev threshold (al k) M ∧ M t t' l := by
  cases h with
  | @seen res A f S V res' f' S' V' hA hA' hf hf' hS hV =>
    refine ⟨_, .seen hA hf, fun t t' l ⟨k, hk, hm⟩ => ?_⟩
    obtain ⟨A', a1, a2⟩ := hA' k
    refine ⟨k, hk, _, .seen a1 hf', ?_⟩
    rw [a2, ← funext hS, ← funext hV]
    exact hm
  | @missing res A f T res' f' T' hA hA' hf hf' hT =>
    refine ⟨_, .missing hA hf, fun t t' l ⟨k, hk, hm⟩ => ?_⟩
    obtain ⟨A', a1, a2⟩ := hA' k
    refine ⟨k, hk, _, .missing a1 hf', ?_⟩
    rw [a2, ← funext hT]
    exact hm

theorem SisrAlone.runs {N : ℕ} {ev : List ℕ} {B : ℕ} {threshold : ℝ} {b : ℕ} {steps : List StepT} {al : List (ℕ → StepT)}
    (h : List.Forall₂ (SisrAlone N ev B threshold b) steps al) : ∃ Rs, List.Forall₂ (SisrStep N ev B threshold) steps Rs ∧
      ∀ t t' L, OneRun (Rs.map fun R => R [b]) t t' L → ∃ (ks : List ℕ) (Ms : List (OneMove N (dim ev))), ks.length = al.length ∧
        (∀ k ∈ ks, k ≤ b) ∧ List.Forall₂ (SisrStep1 N ev threshold) (List.zipWith (fun a k => a k) al ks) Ms ∧ OneRun Ms t t' L := by
  induction h with
  | nil => exact ⟨[], .nil, fun t t' L hr => ⟨[], [], rfl, by simp, .nil, hr⟩⟩
  | cons ha _ ih =>
    obtain ⟨R, r1, r2⟩ := ha.split
    obtain ⟨Rs, q1, q2⟩ := ih
    refine ⟨R :: Rs, .cons r1 q1, fun t t' L hr => ?_⟩
    rw [List.map_cons] at hr
    cases hr with
    | cons a t1 =>
      obtain ⟨k, hk, M, m1, m2⟩ := r2 _ _ _ a
      obtain ⟨ks, Ms, n1, n2, n3, n4⟩ := q2 _ _ _ t1
      refine ⟨k :: ks, M :: Ms, by simp [n1], ?_, .cons m1 n3, .cons m2 n4⟩
      intro l hl
      rcases List.mem_cons.1 hl with rfl | hl
      · exact hk
      · exact n2 l hl

theorem SisrStep1.unique {N : ℕ} {ev : List ℕ} {threshold : ℝ} {steps : List StepT} {Ms : List (OneMove N (dim ev))}
    (h : List.Forall₂ (SisrStep1 N ev threshold) steps Ms) :
    List.Forall₂ (fun R R' : OneMove N (dim ev) => ∀ s s1 s2 l1 l2, R s s1 l1 → R' s s2 l2 → s1 = s2 ∧ l1 = l2) Ms Ms := by
  induction h with
  | nil => exact .nil
  | cons h _ ih => exact .cons (fun _ _ _ _ _ a b => h.functional a b) ih

end Verif.Torch
