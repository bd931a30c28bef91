import Verif.Model.Container

/-!
# `pyfilter/filters/base.py`: one filter move and batch filtering

The filter is given by its prediction and correction steps. Random numbers are drawn from a generator
state `Ω` that is passed through.
-/

namespace Verif

/-- The methods a filter implements, pyfilter/filters/base.py:167-186 and pyfilter/filters/state.py. `S` are
corrections, `P` predictions, `Y` observations. -/
structure FilterOps (S P Y Ω : Type) where
  /-- `predict`, base.py:167-175. -/
  predict : S → Ω → P × Ω
  /-- `Prediction.create_state_from_prediction`, filters/state.py:21-29. -/
  propagate : P → Ω → S × Ω
  /-- `correct`, base.py:177-186. -/
  correct : Y → P → Ω → S × Ω
  /-- `prediction.get_timeseries_state().time_index`. -/
  time : P → ℕ
  /-- `y.isnan().all()`. -/
  allNan : Y → Bool

/-- `nan_strategy`, pyfilter/filters/base.py:65-68. -/
inductive NanStrategy where
  | skip
  | impute

/-- Options of a filter that matter for a move, pyfilter/filters/base.py:62-69, and the model's
`observe_every_step`. -/
structure FilterOptions where
  observeEveryStep : ℕ
  recordIntermediary : Bool
  nanStrategy : NanStrategy

namespace FilterOps

variable {S P Y Ω : Type}

/-- The `while` loop, pyfilter/filters/base.py:204-210, with a bound on the number of rounds (`none` if it
is exceeded). Returns the prediction and the intermediary corrections in order. -/
def loop (F : FilterOps S P Y Ω) (k : ℕ) : ℕ → P → Ω → Option (P × List S × Ω)
  | fuel, p, ω =>
    if F.time p % k = 0 then some (p, [], ω)
    else match fuel with
      | 0 => none
      | fuel + 1 =>
        let (c, ω) := F.propagate p ω
        let (p, ω) := F.predict c ω
        (F.loop k fuel p ω).map fun (p, cs, ω) => (p, c :: cs, ω)

/-- `filter`, pyfilter/filters/base.py:188-221. Returns the new correction and the list of corrections
appended to the result, in order. `nanStrategy` is an option of the filter that the code never reads
here. -/
def filter (F : FilterOps S P Y Ω) (opt : FilterOptions) (fuel : ℕ) (y : Y) (c : S) (ω : Ω) :
    Option (S × List S × Ω) :=
  let (p, ω) := F.predict c ω
  (F.loop opt.observeEveryStep fuel p ω).map fun (p, cs, ω) =>
    let (c, ω) := if F.allNan y then F.propagate p ω else F.correct y p ω
    (c, (if opt.recordIntermediary then cs else []) ++ [c], ω)

/-- The loop of `batch_filter`, pyfilter/filters/base.py:155-156. Returns the last correction and all
appended corrections. -/
def filterAll (F : FilterOps S P Y Ω) (opt : FilterOptions) (fuel : ℕ) :
    List Y → S → Ω → Option (S × List S × Ω)
  | [], c, ω => some (c, [], ω)
  | y :: ys, c, ω =>
    match F.filter opt fuel y c ω with
    | none => none
    | some (c, new, ω) =>
      (F.filterAll opt fuel ys c ω).map fun (c, more, ω) => (c, new ++ more, ω)

/-- The recorded part of a result, pyfilter/filters/result.py:119-133 without storage (see
`Verif.Model.FilterResult` for storage): states and moments in their windows. -/
structure Recorded (S M : Type) where
  states : Deq S
  moments : Deq M

/-- `FilterResult.append`, pyfilter/filters/result.py:127-131. -/
def Recorded.append {M : Type} (mean : S → M) (r : Recorded S M) (c : S) : Recorded S M :=
  ⟨r.states.append c, r.moments.append (mean c)⟩

/-- `batch_filter`, pyfilter/filters/base.py:152-158, starting from the correction `init`. -/
def batchFilter {M : Type} (F : FilterOps S P Y Ω) (opt : FilterOptions) (ks km : Option ℕ) (mean : S → M)
    (fuel : ℕ) (ys : List Y) (init : S) (ω : Ω) : Option (S × Recorded S M × Ω) :=
  (F.filterAll opt fuel ys init ω).map fun (c, new, ω) =>
    (c, (init :: new).foldl (Recorded.append mean) ⟨⟨ks, []⟩, ⟨km, []⟩⟩, ω)

end FilterOps
end Verif
