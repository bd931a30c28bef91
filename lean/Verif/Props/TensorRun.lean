import Verif.Lemmas.TensorRun

/-!
# Property C152: in a run of SISR or of the APF every filter of a batch goes its own way
-/

namespace Verif.Props

open Verif Verif.Torch

/-- A run of `SISR` over observations and gaps: what happens to filter `b` is a run of sequential importance sampling with resampling
of that filter alone, and the total log-likelihood of filter `b` is the sum of its own estimates. -/
theorem C152_sisr_run (N B : ℕ) (hN : 0 < N) (ev : List ℕ) (hh : ev.length ≤ 1) (threshold : ℝ) (steps : List StepT)
    (Rs : List (List ℕ → OneMove N (dim ev))) (hs : List.Forall₂ (SisrStep N ev B threshold) steps Rs) (c : CorrectionT) (total : Tensor)
    (F : Fin N → List ℕ → Fin (dim ev) → ℝ) (W : Fin N → List ℕ → ℝ) (Q : Fin N → List ℕ → Fin N) (hc : CorrG c ev [B] F W Q)
    (ht : total.shape = [B]) :
    ∃ (c' : CorrectionT) (total' : Tensor) (F' : Fin N → List ℕ → Fin (dim ev) → ℝ) (W' : Fin N → List ℕ → ℝ) (Q' : Fin N → List ℕ → Fin N),
      runT steps c total = .ok (c', total') ∧ CorrG c' ev [B] F' W' Q' ∧ total'.shape = [B] ∧
      ∀ b < B, ∃ L, OneRun (Rs.map fun R => R [b]) (oneOf F W Q [b]) (oneOf F' W' Q' [b]) L ∧ total'.val [b] = total.val [b] + L := by
  obtain ⟨c', total', F', W', Q', r1, r2, r3, r4⟩ := run_ok (hs.imp fun _ _ h => h.stepG hN hh) c total F W Q hc ht
  exact ⟨c', total', F', W', Q', r1, r2, r3, fun b hb => r4 [b] (inShape_one.2 ⟨b, rfl, hb⟩)⟩

/-- The same for `SISR` with a single filter. -/
theorem C152_sisr_single (N : ℕ) (hN : 0 < N) (ev : List ℕ) (hh : ev.length ≤ 1) (threshold : ℝ) (steps : List StepT)
    (Rs : List (OneMove N (dim ev))) (hs : List.Forall₂ (SisrStep1 N ev threshold) steps Rs) (c : CorrectionT) (total : Tensor)
    (F : Fin N → List ℕ → Fin (dim ev) → ℝ) (W : Fin N → List ℕ → ℝ) (Q : Fin N → List ℕ → Fin N) (hc : CorrG c ev [] F W Q)
    (ht : total.shape = []) :
    ∃ (c' : CorrectionT) (total' : Tensor) (F' : Fin N → List ℕ → Fin (dim ev) → ℝ) (W' : Fin N → List ℕ → ℝ) (Q' : Fin N → List ℕ → Fin N),
      runT steps c total = .ok (c', total') ∧ CorrG c' ev [] F' W' Q' ∧ total'.shape = [] ∧
      ∃ L, OneRun Rs (oneOf F W Q []) (oneOf F' W' Q' []) L ∧ total'.val [] = total.val [] + L := by
  obtain ⟨c', total', F', W', Q', r1, r2, r3, r4⟩ := run_ok (Rs := Rs.map fun R _ => R)
    (List.forall₂_map_right_iff.2 (hs.imp fun _ _ h => h.stepG hN hh)) c total F W Q hc ht
  obtain ⟨L, l1, l2⟩ := r4 [] List.Forall₂.nil
  have e : (Rs.map fun R (_ : List ℕ) => R).map (fun R => R []) = Rs := by
    rw [List.map_map]
    exact List.map_id Rs
  exact ⟨c', total', F', W', Q', r1, r2, r3, L, e ▸ l1, l2⟩

/-- A filter of a batch has the particles, weights, ancestors and log-likelihood that it has when `SISR` is run with that filter alone,
with the same start and proposals, and with the random numbers that it gets for resampling in the batch: at each step those of some
column `k ≤ b`. -/
theorem C152_sisr_alone (N B : ℕ) (hN : 0 < N) (ev : List ℕ) (hh : ev.length ≤ 1) (threshold : ℝ) (b : ℕ) (hb : b < B) (steps : List StepT)
    (alone : List (ℕ → StepT)) (hs : List.Forall₂ (SisrAlone N ev B threshold b) steps alone)
    (c d : CorrectionT) (t u : Tensor) (F G : Fin N → List ℕ → Fin (dim ev) → ℝ) (W X : Fin N → List ℕ → ℝ) (Q P : Fin N → List ℕ → Fin N)
    (hc : CorrG c ev [B] F W Q) (hd : CorrG d ev [] G X P) (ht : t.shape = [B]) (hu : u.shape = []) (start : t.val [b] = u.val [])
    (hx : ∀ n, F n [b] = G n []) (hw : ∀ n, W n [b] = X n []) (hq : ∀ n, Q n [b] = P n []) :
    ∃ c' t' ks d' u', runT steps c t = .ok (c', t') ∧ ks.length = alone.length ∧ (∀ k ∈ ks, k ≤ b) ∧
      runT (List.zipWith (fun a k => a k) alone ks) d u = .ok (d', u') ∧ t'.val [b] = u'.val [] ∧
      ∀ n : Fin N, c'.w.val [b, n.val] = d'.w.val [n.val] ∧ c'.indices.val [b, n.val] = d'.indices.val [n.val] ∧
        ∀ j : Fin (dim ev), c'.x.val (compIx ev j ++ [b, n.val]) = d'.x.val (compIx ev j ++ [n.val]) := by
  obtain ⟨Rs, h1, h2⟩ := SisrAlone.runs hs
  obtain ⟨c', t', F', W', Q', r1, r2, -, r4⟩ := C152_sisr_run N B hN ev hh threshold steps Rs h1 c t F W Q hc ht
  obtain ⟨L, l1, l2⟩ := r4 b hb
  obtain ⟨ks, Ms, k1, k2, k3, k4⟩ := h2 _ _ _ l1
  obtain ⟨d', u', G', X', P', q1, q2, -, M, m1, m2⟩ := C152_sisr_single N hN ev hh threshold _ Ms k3 d u G X P hd hu
  have e : oneOf F W Q [b] = oneOf G X P [] := OneFilter.ext' hx hw hq
  rw [e] at k4
  obtain ⟨s1, s2⟩ := OneRun.unique (SisrStep1.unique k3) k4 m1
  have sx (n : Fin N) : F' n [b] = G' n [] := congrFun (congrArg OneFilter.x s1) n
  have sw (n : Fin N) : W' n [b] = X' n [] := congrFun (congrArg OneFilter.w s1) n
  have sq (n : Fin N) : Q' n [b] = P' n [] := congrFun (congrArg OneFilter.a s1) n
  have hb' : InShape [B] [b] := inShape_one.2 ⟨b, rfl, hb⟩
  refine ⟨c', t', ks, d', u', r1, k1, k2, q1, by rw [l2, m2, start, s2], fun n => ⟨?_, ?_, fun j => ?_⟩⟩
  · exact (r2.2.1.2 n [b] hb').trans ((sw n).trans (q2.2.1.2 n [] List.Forall₂.nil).symm)
  · exact (r2.2.2.2 n [b] hb').trans ((congrArg Fin.val (sq n)).trans (q2.2.2.2 n [] List.Forall₂.nil).symm)
  · exact (r2.1.2 n [b] hb' j).trans ((congrFun (sx n) j).trans (q2.1.2 n [] List.Forall₂.nil j).symm)

/-- The same for the `APF`, for a batch or a single filter. -/
theorem C152_apf_run (N : ℕ) (hN : 0 < N) (ev bs : List ℕ) (hh : ev.length ≤ 1) (hb1 : bs.length ≤ 1) (steps : List StepT)
    (Rs : List (List ℕ → OneMove N (dim ev))) (hs : List.Forall₂ (ApfStep N ev bs) steps Rs) (c : CorrectionT) (total : Tensor)
    (F : Fin N → List ℕ → Fin (dim ev) → ℝ) (W : Fin N → List ℕ → ℝ) (Q : Fin N → List ℕ → Fin N) (hc : CorrG c ev bs F W Q)
    (ht : total.shape = bs) :
    ∃ (c' : CorrectionT) (total' : Tensor) (F' : Fin N → List ℕ → Fin (dim ev) → ℝ) (W' : Fin N → List ℕ → ℝ) (Q' : Fin N → List ℕ → Fin N),
      runT steps c total = .ok (c', total') ∧ CorrG c' ev bs F' W' Q' ∧ total'.shape = bs ∧
      ∀ b, InShape bs b → ∃ L, OneRun (Rs.map fun R => R b) (oneOf F W Q b) (oneOf F' W' Q' b) L ∧ total'.val b = total.val b + L :=
  run_ok (hs.imp fun _ _ h => h.stepG hN hh hb1) c total F W Q hc ht

/-- A filter of a batch has the particles, weights, ancestors and log-likelihood that it has when the `APF` is run with that filter
alone, with the same start, schemes and proposals. -/
theorem C152_apf_alone (N : ℕ) (hN : 0 < N) (ev bs : List ℕ) (hh : ev.length ≤ 1) (hb1 : bs.length ≤ 1) (b : List ℕ) (hb : InShape bs b)
    (steps steps' : List StepT) (Rs Rs' : List (List ℕ → OneMove N (dim ev))) (hs : List.Forall₂ (ApfStep N ev bs) steps Rs)
    (hs' : List.Forall₂ (ApfStep N ev []) steps' Rs') (same : Rs.map (fun R => R b) = Rs'.map fun R => R [])
    (c d : CorrectionT) (t u : Tensor) (F G : Fin N → List ℕ → Fin (dim ev) → ℝ) (W X : Fin N → List ℕ → ℝ) (Q P : Fin N → List ℕ → Fin N)
    (hc : CorrG c ev bs F W Q) (hd : CorrG d ev [] G X P) (ht : t.shape = bs) (hu : u.shape = []) (start : t.val b = u.val [])
    (hx : ∀ n, F n b = G n []) (hw : ∀ n, W n b = X n []) (hq : ∀ n, Q n b = P n []) :
    ∃ c' d' t' u', runT steps c t = .ok (c', t') ∧ runT steps' d u = .ok (d', u') ∧ t'.val b = u'.val [] ∧
      ∀ n : Fin N, c'.w.val (b ++ [n.val]) = d'.w.val [n.val] ∧ c'.indices.val (b ++ [n.val]) = d'.indices.val [n.val] ∧
        ∀ j : Fin (dim ev), c'.x.val (compIx ev j ++ (b ++ [n.val])) = d'.x.val (compIx ev j ++ [n.val]) := by
  obtain ⟨c', t', F', W', Q', r1, r2, -, r4⟩ := C152_apf_run N hN ev bs hh hb1 steps Rs hs c t F W Q hc ht
  obtain ⟨d', u', G', X', P', q1, q2, -, q4⟩ := C152_apf_run N hN ev [] hh (by simp) steps' Rs' hs' d u G X P hd hu
  obtain ⟨L, l1, l2⟩ := r4 b hb
  obtain ⟨M, m1, m2⟩ := q4 [] List.Forall₂.nil
  have e : oneOf F W Q b = oneOf G X P [] := OneFilter.ext' hx hw hq
  rw [e, same] at l1
  obtain ⟨s1, s2⟩ := OneRun.functional hs' l1 m1
  have sx (n : Fin N) : F' n b = G' n [] := congrFun (congrArg OneFilter.x s1) n
  have sw (n : Fin N) : W' n b = X' n [] := congrFun (congrArg OneFilter.w s1) n
  have sq (n : Fin N) : Q' n b = P' n [] := congrFun (congrArg OneFilter.a s1) n
  refine ⟨c', d', t', u', r1, q1, by rw [l2, m2, start, s2], fun n => ⟨?_, ?_, fun j => ?_⟩⟩
  · rw [r2.2.1.2 n b hb, sw]
    exact (q2.2.1.2 n [] List.Forall₂.nil).symm
  · rw [r2.2.2.2 n b hb, sq]
    exact (q2.2.2.2 n [] List.Forall₂.nil).symm
  · rw [r2.1.2 n b hb j, sx]
    exact (q2.1.2 n [] List.Forall₂.nil j).symm

theorem addOne_propagate (N : ℕ) (ev bs : List ℕ) : PropagateG N ev bs (fun z => .ok (z.map (· + 1))) fun _ _ g j => g j + 1 :=
  fun _ _ hz => ⟨_, rfl, hz.1, fun n b hb j => congrArg (· + 1) (hz.2 n b hb j)⟩

/-- A case of `C152_sisr_run`: three filters of two particles, an observation and a gap. -/
example : ∃ c total, runT [⟨sisrPredict [] 1.8 lastScheme, .seen (sisrCorrect stepProposal)⟩,
      ⟨sisrPredict [] 1.8 lastScheme, .missing fun z => .ok (z.map (· + 1))⟩]
    ⟨⟨[3, 2], fun i => 10 * (i.headD 0 : ℝ) + i.tail.headD 0⟩, ⟨[3, 2], fun _ => 0⟩, ⟨[3], fun _ => 0⟩, ⟨[3, 2], fun i => i.tail.headD 0⟩⟩
    ⟨[3], fun _ => 0⟩ = .ok (c, total) ∧ total.shape = [3] := by
  obtain ⟨c, total, -, -, -, e1, -, e2, -⟩ := C152_sisr_run 2 3 (by omega) [] (by simp) 1.8 _ _
    (.cons (.seen lastScheme_column (stepProposal_prop 2 [3])) (.cons (.missing lastScheme_column (addOne_propagate 2 [] [3])) .nil))
    ⟨⟨[3, 2], fun i => 10 * (i.headD 0 : ℝ) + i.tail.headD 0⟩, ⟨[3, 2], fun _ => 0⟩, ⟨[3], fun _ => 0⟩, ⟨[3, 2], fun i => i.tail.headD 0⟩⟩
    ⟨[3], fun _ => 0⟩ (fun n b _ => 10 * (b.headD 0 : ℝ) + n.val) (fun _ _ => 0) (fun n _ => n)
    ⟨⟨rfl, fun n b hb j => by obtain ⟨k, rfl, hk⟩ := inShape_one.1 hb; rfl⟩, ⟨rfl, fun _ _ _ => rfl⟩,
      ⟨rfl, fun n b hb => by obtain ⟨k, rfl, hk⟩ := inShape_one.1 hb; rfl⟩⟩ rfl
  exact ⟨c, total, e1, e2⟩

/-- A case of `C152_sisr_alone` (and of `C152_sisr_single`): the second of three filters of two particles, an observation and a gap. -/
example : ∃ c t ks d u, runT [⟨sisrPredict [] 1.8 lastScheme, .seen (sisrCorrect stepProposal)⟩,
      ⟨sisrPredict [] 1.8 lastScheme, .missing fun z => .ok (z.map (· + 1))⟩]
    ⟨⟨[3, 2], fun i => 10 * (i.headD 0 : ℝ) + i.tail.headD 0⟩, ⟨[3, 2], fun _ => 0⟩, ⟨[3], fun _ => 0⟩, ⟨[3, 2], fun i => i.tail.headD 0⟩⟩
    ⟨[3], fun _ => 0⟩ = .ok (c, t) ∧
    runT (List.zipWith (fun a k => a k) [fun _ : ℕ => ⟨sisrPredict [] 1.8 lastScheme, .seen (sisrCorrect stepProposal)⟩,
      fun _ => ⟨sisrPredict [] 1.8 lastScheme, .missing fun z => .ok (z.map (· + 1))⟩] ks)
    ⟨⟨[2], fun i => 10 + (i.headD 0 : ℝ)⟩, ⟨[2], fun _ => 0⟩, ⟨[], fun _ => 0⟩, ⟨[2], fun i => i.headD 0⟩⟩
    ⟨[], fun _ => 0⟩ = .ok (d, u) ∧ t.val [1] = u.val [] := by
  obtain ⟨c, t, ks, d, u, e1, -, -, e2, e3, -⟩ := C152_sisr_alone 2 3 (by omega) [] (by simp) 1.8 1 (by omega) _ _
    (.cons (.seen lastScheme_column (fun _ => ⟨_, lastScheme_column, rfl⟩) (stepProposal_prop 2 [3]) (stepProposal_prop 2 [])
      (fun _ => rfl) fun _ => rfl) (.cons (.missing lastScheme_column (fun _ => ⟨_, lastScheme_column, rfl⟩) (addOne_propagate 2 [] [3])
        (addOne_propagate 2 [] []) fun _ => rfl) .nil))
    ⟨⟨[3, 2], fun i => 10 * (i.headD 0 : ℝ) + i.tail.headD 0⟩, ⟨[3, 2], fun _ => 0⟩, ⟨[3], fun _ => 0⟩, ⟨[3, 2], fun i => i.tail.headD 0⟩⟩
    ⟨⟨[2], fun i => 10 + (i.headD 0 : ℝ)⟩, ⟨[2], fun _ => 0⟩, ⟨[], fun _ => 0⟩, ⟨[2], fun i => i.headD 0⟩⟩
    ⟨[3], fun _ => 0⟩ ⟨[], fun _ => 0⟩ (fun n b _ => 10 * (b.headD 0 : ℝ) + n.val) (fun n _ _ => 10 + n.val) (fun _ _ => 0) (fun _ _ => 0)
    (fun n _ => n) (fun n _ => n)
    ⟨⟨rfl, fun n b hb j => by obtain ⟨k, rfl, hk⟩ := inShape_one.1 hb; rfl⟩, ⟨rfl, fun _ _ _ => rfl⟩,
      ⟨rfl, fun n b hb => by obtain ⟨k, rfl, hk⟩ := inShape_one.1 hb; rfl⟩⟩
    ⟨⟨rfl, fun n b hb j => by cases hb; rfl⟩, ⟨rfl, fun _ _ _ => rfl⟩, ⟨rfl, fun n b hb => by cases hb; rfl⟩⟩ rfl rfl rfl
    (fun n => by funext j; norm_num) (fun _ => rfl) fun _ => rfl
  exact ⟨c, t, ks, d, u, e1, e2, e3⟩

/-- A case of `C152_apf_alone` (and of `C152_apf_run`): the second of three filters of two particles, an observation and a gap; the
total log-likelihood is that of the filter alone. -/
example : ∃ c d t u, runT [⟨fun x w _ => apfPredict [3] 2 x w, .seen (apfCorrect lastScheme .ok stepProposal)⟩,
      ⟨fun x w _ => apfPredict [3] 2 x w, .missing fun z => .ok (z.map (· + 1))⟩]
    ⟨⟨[3, 2], fun i => 10 * (i.headD 0 : ℝ) + i.tail.headD 0⟩, ⟨[3, 2], fun _ => 0⟩, ⟨[3], fun _ => 0⟩, ⟨[3, 2], fun i => i.tail.headD 0⟩⟩
    ⟨[3], fun _ => 0⟩ = .ok (c, t) ∧
    runT [⟨fun x w _ => apfPredict [] 2 x w, .seen (apfCorrect lastScheme .ok stepProposal)⟩,
      ⟨fun x w _ => apfPredict [] 2 x w, .missing fun z => .ok (z.map (· + 1))⟩]
    ⟨⟨[2], fun i => 10 + (i.headD 0 : ℝ)⟩, ⟨[2], fun _ => 0⟩, ⟨[], fun _ => 0⟩, ⟨[2], fun i => i.headD 0⟩⟩
    ⟨[], fun _ => 0⟩ = .ok (d, u) ∧ t.val [1] = u.val [] := by
  have pre (bs : List ℕ) : PreG 2 [] bs .ok fun n _ G => G n (0 : Fin 1) := fun z G h => ⟨z, rfl, h.1, fun n b hb => h.2 n b hb (0 : Fin 1)⟩
  obtain ⟨c, d, t, u, e1, e2, e3, -⟩ := C152_apf_alone 2 (by omega) [] [3] (by simp) (by simp) [1] (inShape_one.2 ⟨1, rfl, by omega⟩) _ _ _ _
    (.cons (.seen (lastScheme_scheme [3]) (pre [3]) (stepProposal_prop 2 [3])) (.cons (.missing (addOne_propagate 2 [] [3])) .nil))
    (.cons (.seen (lastScheme_scheme []) (pre []) (stepProposal_prop 2 [])) (.cons (.missing (addOne_propagate 2 [] [])) .nil)) rfl
    ⟨⟨[3, 2], fun i => 10 * (i.headD 0 : ℝ) + i.tail.headD 0⟩, ⟨[3, 2], fun _ => 0⟩, ⟨[3], fun _ => 0⟩, ⟨[3, 2], fun i => i.tail.headD 0⟩⟩
    ⟨⟨[2], fun i => 10 + (i.headD 0 : ℝ)⟩, ⟨[2], fun _ => 0⟩, ⟨[], fun _ => 0⟩, ⟨[2], fun i => i.headD 0⟩⟩
    ⟨[3], fun _ => 0⟩ ⟨[], fun _ => 0⟩ (fun n b _ => 10 * (b.headD 0 : ℝ) + n.val) (fun n _ _ => 10 + n.val) (fun _ _ => 0) (fun _ _ => 0)
    (fun n _ => n) (fun n _ => n)
    ⟨⟨rfl, fun n b hb j => by obtain ⟨k, rfl, hk⟩ := inShape_one.1 hb; rfl⟩, ⟨rfl, fun _ _ _ => rfl⟩,
      ⟨rfl, fun n b hb => by obtain ⟨k, rfl, hk⟩ := inShape_one.1 hb; rfl⟩⟩
    ⟨⟨rfl, fun n b hb j => by cases hb; rfl⟩, ⟨rfl, fun _ _ _ => rfl⟩, ⟨rfl, fun n b hb => by cases hb; rfl⟩⟩ rfl rfl rfl
    (fun n => by funext j; norm_num) (fun _ => rfl) fun _ => rfl
  exact ⟨c, d, t, u, e1, e2, e3⟩

end Verif.Props
