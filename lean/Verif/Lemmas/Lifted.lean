import Verif.Spec.PathAverage
import Verif.Lemmas.Smoothing
import Verif.Lemmas.Consistency

/-!
# The filter whose particles are paths

A particle filter whose states are whole paths, `V` replaced by `ℕ → V`: the values after the time of the state are
arbitrary. Followed by the present value it is the given filter.
-/

namespace Verif.Lifted

open Verif.Spec Verif.Unbiased XF MeasureTheory ProbabilityTheory
open scoped ENNReal

variable {N B d : ℕ} {V Y Ω : Type}

/-- The present values. -/
def now (x : TS N B d (ℕ → V)) : TS N B d V := ⟨fun i b e => x.value i b e x.time, x.time⟩

/-- The present state of a filter. -/
def nowC (c : PCorr N B d (ℕ → V)) : PCorr N B d V := ⟨now c.x, c.w, c.ll, c.prev⟩

/-- The present state of a prediction. -/
def nowP (p : PPred N B d (ℕ → V)) : PPred N B d V := ⟨now p.prevX, p.w, p.nw, p.idx⟩

/-- Paths with new values at time `t`. -/
def extend (p : Fin N → Fin B → Fin d → ℕ → V) (t : ℕ) (v : Fin N → Fin B → Fin d → V) :
    Fin N → Fin B → Fin d → ℕ → V := fun i b e => Function.update (p i b e) t (v i b e)

/-- The filter whose particles are paths. -/
def lifted (M : ParticleModel N B d V Y Ω) : ParticleModel N B d (ℕ → V) Y Ω where
  lo := M.lo
  threshold := M.threshold
  resampler := M.resampler
  propagateValues x ω :=
    (extend x.value (x.time + 1) (M.propagateValues (now x) ω).1, (M.propagateValues (now x) ω).2)
  kind := M.kind
  sampleValues y p ω :=
    ((extend p.prevX.value (p.prevX.time + M.kind.increment) (M.sampleValues y (nowP p) ω).1.1,
      (M.sampleValues y (nowP p) ω).1.2), (M.sampleValues y (nowP p) ω).2)
  preWeight y x := M.preWeight y (now x)
  allNan := M.allNan

variable (M : ParticleModel N B d V Y Ω)

theorem now_extend (p : Fin N → Fin B → Fin d → ℕ → V) (t : ℕ) (v : Fin N → Fin B → Fin d → V) :
    now ⟨extend p t v, t⟩ = ⟨v, t⟩ := by
  simp [now, extend]

theorem createState_now (p : PPred N B d (ℕ → V)) (ω : Ω) :
    (nowC ((lifted M).createState p ω).1, ((lifted M).createState p ω).2) = M.createState (nowP p) ω := by
  simp only [ParticleModel.createState, ParticleModel.propagateTS, lifted, nowC, PCorr.mk', now_extend, nowP]
  rfl

theorem sisrCorrect_now (y : Y) (p : PPred N B d (ℕ → V)) (ω : Ω) :
    (nowC ((lifted M).sisrCorrect y p ω).1, ((lifted M).sisrCorrect y p ω).2) = M.sisrCorrect y (nowP p) ω := by
  simp only [ParticleModel.sisrCorrect, ParticleModel.sampleAndWeight, lifted, nowC, PCorr.mk', now_extend]
  rfl

theorem apfPredict_now (s : PCorr N B d (ℕ → V)) (ω : Ω) :
    (nowP ((lifted M).apfPredict s ω).1, ((lifted M).apfPredict s ω).2) = M.apfPredict (nowC s) ω := rfl

theorem apfCorrect_now (y : Y) (p : PPred N B d (ℕ → V)) (ω : Ω) :
    (nowC ((lifted M).apfCorrect y p ω).1, ((lifted M).apfCorrect y p ω).2) = M.apfCorrect y (nowP p) ω := by
  simp only [ParticleModel.apfCorrect, ParticleModel.sampleAndWeight, lifted, nowC, PCorr.mk', now_extend]
  rfl

theorem maskedScatter_map {α β : Type} (f : α → β) (self : Fin N → Fin B → Fin d → α) (mask : Fin B → Bool)
    (source : List α) (i : Fin N) (b : Fin B) (e : Fin d) :
    maskedScatter (fun i b e => f (self i b e)) mask (source.map f) i b e = f (maskedScatter self mask source i b e) := by
  unfold maskedScatter
  split_ifs with h
  · rw [List.getElem?_map]
    cases source[scatterRank mask d ((i * B + b) * d + e)]? <;> rfl
  · rfl

theorem flatten_map {α β : Type} {m : ℕ} (f : α → β) (t : Fin N → Fin m → Fin d → α) :
    flatten (fun i j e => f (t i j e)) = (flatten t).map f := by
  unfold flatten
  simp only [List.map_flatMap, List.map_map]
  rfl

theorem sisrPredict_now (s : PCorr N B d (ℕ → V)) (ω : Ω) :
    (nowP ((lifted M).sisrPredict s ω).1, ((lifted M).sisrPredict s ω).2) = M.sisrPredict (nowC s) ω := by
  classical
  unfold ParticleModel.sisrPredict
  dsimp only [lifted]
  split_ifs with h1 h2 h2
  · rfl
  · exact absurd h1 h2
  · exact absurd h2 h1
  · have e : ∀ (mask : Fin B → Bool) (sub : Fin N → Fin (maskCols mask).length → Fin N),
        (fun i b e => maskedScatter s.x.value mask
          (flatten fun i j e => s.x.value (sub i j) ((maskCols mask).get j) e) i b e s.x.time) =
        maskedScatter (nowC s).x.value mask
          (flatten fun i j e => (nowC s).x.value (sub i j) ((maskCols mask).get j) e) := by
      intro mask sub
      funext i b e
      have h := maskedScatter_map (fun p : ℕ → V => p s.x.time) s.x.value mask
        (flatten fun i j e => s.x.value (sub i j) ((maskCols mask).get j) e) i b e
      rw [← h, ← flatten_map]
      rfl
    simp only [nowP, now, e]
    rfl

/-- The filters that follow paths. -/
inductive Follows : FilterKind → Prop
  | sisr : Follows .sisr
  | apf : Follows .apf

theorem predict_now {fk : FilterKind} (h : Follows fk) (s : PCorr N B d (ℕ → V)) (ω : Ω) :
    (fk.ops M).predict (nowC s) ω = (nowP ((fk.ops (lifted M)).predict s ω).1, ((fk.ops (lifted M)).predict s ω).2) := by
  cases h
  · exact (sisrPredict_now M s ω).symm
  · exact (apfPredict_now M s ω).symm

theorem correct_now {fk : FilterKind} (h : Follows fk) (y : Y) (p : PPred N B d (ℕ → V)) (ω : Ω) :
    (fk.ops M).correct y (nowP p) ω =
      (nowC ((fk.ops (lifted M)).correct y p ω).1, ((fk.ops (lifted M)).correct y p ω).2) := by
  cases h
  · exact (sisrCorrect_now M y p ω).symm
  · exact (apfCorrect_now M y p ω).symm

theorem loop_now {fk : FilterKind} (h : Follows fk) (k : ℕ) : ∀ (fuel : ℕ) (p : PPred N B d (ℕ → V)) (ω : Ω),
    (fk.ops M).loop k fuel (nowP p) ω =
      ((fk.ops (lifted M)).loop k fuel p ω).map fun r => (nowP r.1, r.2.1.map nowC, r.2.2)
  | 0, p, ω => by
    unfold FilterOps.loop
    by_cases ht : p.prevX.time % k = 0
    · rw [if_pos (show (fk.ops M).time (nowP p) % k = 0 from ht),
        if_pos (show (fk.ops (lifted M)).time p % k = 0 from ht)]
      rfl
    · rw [if_neg (show ¬ (fk.ops M).time (nowP p) % k = 0 from ht),
        if_neg (show ¬ (fk.ops (lifted M)).time p % k = 0 from ht)]
      rfl
  | fuel + 1, p, ω => by
    unfold FilterOps.loop
    by_cases ht : p.prevX.time % k = 0
    · rw [if_pos (show (fk.ops M).time (nowP p) % k = 0 from ht),
        if_pos (show (fk.ops (lifted M)).time p % k = 0 from ht)]
      rfl
    · rw [if_neg (show ¬ (fk.ops M).time (nowP p) % k = 0 from ht),
        if_neg (show ¬ (fk.ops (lifted M)).time p % k = 0 from ht)]
      have e : (fk.ops M).propagate (nowP p) ω = (nowC ((fk.ops (lifted M)).propagate p ω).1,
          ((fk.ops (lifted M)).propagate p ω).2) := (createState_now M p ω).symm
      simp only [e, predict_now M h, loop_now h k fuel, Option.map_map]
      rfl

theorem filter_now {fk : FilterKind} (h : Follows fk) (opt : FilterOptions) (fuel : ℕ) (y : Y) (c : PCorr N B d (ℕ → V))
    (ω : Ω) : (fk.ops M).filter opt fuel y (nowC c) ω =
      ((fk.ops (lifted M)).filter opt fuel y c ω).map fun r => (nowC r.1, r.2.1.map nowC, r.2.2) := by
  unfold FilterOps.filter
  simp only [predict_now M h, loop_now M h, Option.map_map]
  congr 1
  funext ⟨p, cs, ω⟩
  have e : (fk.ops M).propagate (nowP p) ω = (nowC ((fk.ops (lifted M)).propagate p ω).1,
      ((fk.ops (lifted M)).propagate p ω).2) := (createState_now M p ω).symm
  have ha : (fk.ops (lifted M)).allNan y = (fk.ops M).allNan y := rfl
  simp only [Function.comp_apply, ha, e, correct_now M h]
  cases (fk.ops M).allNan y <;> cases opt.recordIntermediary <;> simp

theorem filterAll_now {fk : FilterKind} (h : Follows fk) (opt : FilterOptions) (fuel : ℕ) :
    ∀ (ys : List Y) (c : PCorr N B d (ℕ → V)) (ω : Ω), (fk.ops M).filterAll opt fuel ys (nowC c) ω =
      ((fk.ops (lifted M)).filterAll opt fuel ys c ω).map fun r => (nowC r.1, r.2.1.map nowC, r.2.2)
  | [], c, ω => rfl
  | y :: ys, c, ω => by
    unfold FilterOps.filterAll
    rw [filter_now M h]
    cases (fk.ops (lifted M)).filter opt fuel y c ω with
    | none => rfl
    | some r =>
      simp only [Option.map_some, filterAll_now h opt fuel ys, Option.map_map]
      congr 1
      funext r'
      simp

/-- Constant paths, with the initial values. -/
def constant (x : Fin N → Fin B → Fin d → V) : Fin N → Fin B → Fin d → ℕ → V := fun i b e _ => x i b e

theorem initialize_now (lo : ℝ) (x : Fin N → Fin B → Fin d → V) :
    nowC (initializeFilter lo (constant x)) = initializeFilter lo x := rfl

/-! ## Paths and lineages -/

/-- The values of the path of a particle up to the time of the state, newest first. -/
def values (s : PCorr N B d (ℕ → V)) (i : Fin N) (b : Fin B) : List (Fin d → V) :=
  (List.range (s.x.time + 1)).reverse.map fun n e => s.x.value i b e n

theorem values_step (s c : PCorr N B d (ℕ → V)) (i j : Fin N) (b : Fin B) (v : Fin d → V)
    (ht : c.x.time = s.x.time + 1) (hv : ∀ e, c.x.value i b e = Function.update (s.x.value j b e) (s.x.time + 1) (v e)) :
    values c i b = (nowC c).x.value i b :: values s j b := by
  have h1 : List.range (c.x.time + 1) = List.range (s.x.time + 1) ++ [c.x.time] := by rw [List.range_succ, ht]
  unfold values
  rw [h1, List.reverse_append, List.map_append]
  simp only [List.reverse_cons, List.reverse_nil, List.nil_append, List.map_cons, List.map_nil, List.singleton_append]
  congr 1
  refine List.map_congr_left fun n hn => funext fun e => ?_
  rw [List.mem_reverse, List.mem_range] at hn
  rw [hv, Function.update_of_ne (by omega)]

theorem lineage_sisr (hinc : M.kind.increment = 1) (hN : 0 < N) (k : ℕ) (nan : NanStrategy) (fuel : ℕ) (ys : List Y)
    (x : Fin N → Fin B → Fin d → V) (ω : Ω) (r)
    (hr : (FilterKind.sisr.ops (lifted M)).filterAll ⟨k, true, nan⟩ fuel ys (initializeFilter M.lo (constant x)) ω = some r) :
    ∃ c rest, r.2.1.reverse ++ [initializeFilter M.lo (constant x)] = c :: rest ∧
      Lineage (SisrStep M) (Initial M.lo) ((c :: rest).map nowC) (values c) := by
  have key := FilterOps.filterAll_hist (FilterKind.sisr.ops (lifted M))
    (fun h => ∃ c rest, h = c :: rest ∧ (∀ i b, Usable (c.w i b)) ∧
      Lineage (SisrStep M) (Initial M.lo) (h.map nowC) (values c)) ?_ ?_ k nan fuel ys
      (initializeFilter M.lo (constant x)) [] ω r ?_ hr
  · obtain ⟨c, rest, h1, -, h2⟩ := key
    exact ⟨c, rest, h1, h1 ▸ h2⟩
  · rintro c h ω ω' ⟨c', rest, hc, hu, hl⟩
    cases hc
    obtain ⟨sel, hsel⟩ := sisrSelects_exists (lifted M) c ω
    refine ⟨_, _, rfl, fun i b => mk'_usable _ _ _ _ _ i b, ?_⟩
    have hst : SisrStep M (nowC c) sel (nowC ((lifted M).createState ((lifted M).sisrPredict c ω).1 ω').1) := by
      have e1 := congrArg Prod.fst (createState_now M ((lifted M).sisrPredict c ω).1 ω')
      have e2 := congrArg Prod.fst (sisrPredict_now M c ω)
      simp only at e1 e2
      rw [e1, e2]
      exact .predict _ _ _ _ hsel
    have := Lineage.step (nowC c) (h.map nowC) _ sel _ hl hst
    have ev : values ((lifted M).createState ((lifted M).sisrPredict c ω).1 ω').1 = fun i b =>
        (nowC ((lifted M).createState ((lifted M).sisrPredict c ω).1 ω').1).x.value i b :: values c (sel i b) b := by
      funext i b
      have hp := (sisr_prediction (lifted M) c ω hN hu sel hsel i b).1
      have ht : ((lifted M).sisrPredict c ω).1.prevX.time = c.x.time := by
        unfold ParticleModel.sisrPredict
        dsimp only
        split_ifs <;> rfl
      refine values_step c _ i (sel i b) b
        (fun e => (M.propagateValues (now ((lifted M).sisrPredict c ω).1.prevX) ω').1 i b e) ?_ fun e => ?_
      · show ((lifted M).sisrPredict c ω).1.prevX.time + 1 = _
        rw [ht]
      · show Function.update (((lifted M).sisrPredict c ω).1.prevX.value i b e) _ _ = _
        rw [hp, ht]
    show Lineage _ _ (nowC ((lifted M).createState ((lifted M).sisrPredict c ω).1 ω').1 :: _) (values ((lifted M).createState
      ((lifted M).sisrPredict c ω).1 ω').1)
    rw [ev]
    exact this
  · rintro c h y ω ω' ⟨c', rest, hc, hu, hl⟩
    cases hc
    obtain ⟨sel, hsel⟩ := sisrSelects_exists (lifted M) c ω
    refine ⟨_, _, rfl, fun i b => mk'_usable _ _ _ _ _ i b, ?_⟩
    have hst : SisrStep M (nowC c) sel (nowC ((lifted M).sisrCorrect y ((lifted M).sisrPredict c ω).1 ω').1) := by
      have e1 := congrArg Prod.fst (sisrCorrect_now M y ((lifted M).sisrPredict c ω).1 ω')
      have e2 := congrArg Prod.fst (sisrPredict_now M c ω)
      simp only at e1 e2
      rw [e1, e2]
      exact .observe _ _ _ _ _ hsel
    have := Lineage.step (nowC c) (h.map nowC) _ sel _ hl hst
    have ev : values ((lifted M).sisrCorrect y ((lifted M).sisrPredict c ω).1 ω').1 = fun i b =>
        (nowC ((lifted M).sisrCorrect y ((lifted M).sisrPredict c ω).1 ω').1).x.value i b :: values c (sel i b) b := by
      funext i b
      have hp := (sisr_prediction (lifted M) c ω hN hu sel hsel i b).1
      have ht : ((lifted M).sisrPredict c ω).1.prevX.time = c.x.time := by
        unfold ParticleModel.sisrPredict
        dsimp only
        split_ifs <;> rfl
      refine values_step c _ i (sel i b) b
        (fun e => (M.sampleValues y (nowP ((lifted M).sisrPredict c ω).1) ω').1.1 i b e) ?_ fun e => ?_
      · show ((lifted M).sisrPredict c ω).1.prevX.time + M.kind.increment = _
        rw [ht, hinc]
      · show Function.update (((lifted M).sisrPredict c ω).1.prevX.value i b e)
          (((lifted M).sisrPredict c ω).1.prevX.time + M.kind.increment) _ = _
        rw [hp, ht, hinc]
    show Lineage _ _ (nowC ((lifted M).sisrCorrect y ((lifted M).sisrPredict c ω).1 ω').1 :: _)
      (values ((lifted M).sisrCorrect y ((lifted M).sisrPredict c ω).1 ω').1)
    rw [ev]
    exact this
  · exact ⟨_, _, rfl, fun i b => mk'_usable _ _ _ _ _ i b, .init _ ⟨x, rfl⟩⟩

theorem lineage_apf (hinc : M.kind.increment = 1) (k : ℕ) (nan : NanStrategy) (fuel : ℕ) (ys : List Y)
    (x : Fin N → Fin B → Fin d → V) (ω : Ω) (r)
    (hr : (FilterKind.apf.ops (lifted M)).filterAll ⟨k, true, nan⟩ fuel ys (initializeFilter M.lo (constant x)) ω = some r) :
    ∃ c rest, r.2.1.reverse ++ [initializeFilter M.lo (constant x)] = c :: rest ∧
      Lineage (ApfStep M) (Initial M.lo) ((c :: rest).map nowC) (values c) := by
  have key := FilterOps.filterAll_hist (FilterKind.apf.ops (lifted M))
    (fun h => ∃ c rest, h = c :: rest ∧
      Lineage (ApfStep M) (Initial M.lo) (h.map nowC) (values c)) ?_ ?_ k nan fuel ys
      (initializeFilter M.lo (constant x)) [] ω r ⟨_, _, rfl, .init _ ⟨x, rfl⟩⟩ hr
  · obtain ⟨c, rest, h1, h2⟩ := key
    exact ⟨c, rest, h1, h1 ▸ h2⟩
  · rintro c h ω ω' ⟨c', rest, hc, hl⟩
    cases hc
    refine ⟨_, _, rfl, ?_⟩
    have hst : ApfStep M (nowC c) (fun i _ => i) (nowC ((lifted M).createState ((lifted M).apfPredict c ω).1 ω').1) := by
      have e1 := congrArg Prod.fst (createState_now M ((lifted M).apfPredict c ω).1 ω')
      simp only at e1
      rw [e1]
      exact .predict _ ω _
    have := Lineage.step (nowC c) (h.map nowC) _ _ _ hl hst
    have ev : values ((lifted M).createState ((lifted M).apfPredict c ω).1 ω').1 = fun i b =>
        (nowC ((lifted M).createState ((lifted M).apfPredict c ω).1 ω').1).x.value i b :: values c i b := by
      funext i b
      exact values_step c _ i i b
        (fun e => (M.propagateValues (now ((lifted M).apfPredict c ω).1.prevX) ω').1 i b e) rfl fun e => rfl
    show Lineage _ _ (nowC ((lifted M).createState ((lifted M).apfPredict c ω).1 ω').1 :: _) (values ((lifted M).createState
      ((lifted M).apfPredict c ω).1 ω').1)
    rw [ev]
    exact this
  · rintro c h y ω ω' ⟨c', rest, hc, hl⟩
    cases hc
    refine ⟨_, _, rfl, ?_⟩
    obtain ⟨sel, hsel⟩ : ∃ sel, sel = (M.resampler (fun i b => M.preWeight y (nowC c).x i b +
        (M.apfPredict (nowC c) ω).1.w i b) false ω').1 := ⟨_, rfl⟩
    have hst : ApfStep M (nowC c) sel (nowC ((lifted M).apfCorrect y ((lifted M).apfPredict c ω).1 ω').1) := by
      have e1 := congrArg Prod.fst (apfCorrect_now M y ((lifted M).apfPredict c ω).1 ω')
      simp only at e1
      rw [e1, hsel]
      exact .observe _ ω _ _
    have := Lineage.step (nowC c) (h.map nowC) _ sel _ hl hst
    have ev : values ((lifted M).apfCorrect y ((lifted M).apfPredict c ω).1 ω').1 = fun i b =>
        (nowC ((lifted M).apfCorrect y ((lifted M).apfPredict c ω).1 ω').1).x.value i b :: values c (sel i b) b := by
      funext i b
      refine values_step c _ i (sel i b) b (fun e =>
        (nowC ((lifted M).apfCorrect y ((lifted M).apfPredict c ω).1 ω').1).x.value i b e) ?_ fun e => ?_
      · show c.x.time + M.kind.increment = _
        rw [hinc]
      · have e1 := congrArg Prod.fst (apfCorrect_now M y ((lifted M).apfPredict c ω).1 ω')
        simp only at e1
        rw [e1, hsel, ← hinc]
        rfl
    show Lineage _ _ (nowC ((lifted M).apfCorrect y ((lifted M).apfPredict c ω).1 ω').1 :: _)
      (values ((lifted M).apfCorrect y ((lifted M).apfPredict c ω).1 ω').1)
    rw [ev]
    exact this

end Verif.Lifted
