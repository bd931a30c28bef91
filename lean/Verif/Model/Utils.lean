import Verif.Model.XFloat

/-!
# `pyfilter/utils.py`
-/

namespace Verif

/-- `nan_to_num_(-INFTY, posinf=-INFTY)` on one number, pyfilter/utils.py:57. `lo` is the lowest finite
number of the dtype, which PyTorch substitutes for `-inf` as `neginf` is not given. -/
def nanToNum (lo : ℝ) : XF → XF
  | .nan => .ninf
  | .pinf => .ninf
  | .ninf => .fin lo
  | .fin r => .fin r

open Classical in
/-- `normalize` on a one-dimensional tensor, pyfilter/utils.py:49-64. The first component is the
argument after the in-place cleaning of line 57, the second the returned tensor. -/
noncomputable def normalize1 (lo : ℝ) {n : ℕ} (w : Fin n → XF) : (Fin n → XF) × (Fin n → XF) :=
  let cleaned := fun i => nanToNum lo (w i)
  let normalized := XF.softmax (fun i => cleaned i - XF.vmax cleaned)
  let axSum := ∑ i, normalized i
  (cleaned, fun i => if axSum = XF.fin 0 then XF.fin (1 / (n : ℝ)) else normalized i)

open Classical in
/-- `normalize` on a two-dimensional tensor (particles first, parallel filters second),
pyfilter/utils.py:49-64: reductions along dimension 0, the mask of line 62 broadcast along it. -/
noncomputable def normalize2 (lo : ℝ) {n b : ℕ} (w : Fin n → Fin b → XF) :
    (Fin n → Fin b → XF) × (Fin n → Fin b → XF) :=
  let cleaned := fun i c => nanToNum lo (w i c)
  let max0 : Fin b → XF := fun c => XF.vmax fun i => cleaned i c
  let shifted := fun i c => cleaned i c - max0 c
  let normalized : Fin n → Fin b → XF := fun i c => XF.softmax (fun k => shifted k c) i
  let axSum : Fin b → XF := fun c => ∑ i, normalized i c
  (cleaned, fun i c => if axSum c = XF.fin 0 then XF.fin (1 / (n : ℝ)) else normalized i c)

/-- `get_ess` on a one-dimensional tensor, pyfilter/utils.py:8-20. First component: the argument
afterwards (cleaned in place when `normalized` is false). -/
noncomputable def getEss1 (lo : ℝ) {n : ℕ} (w : Fin n → XF) (normalized : Bool) :
    (Fin n → XF) × XF :=
  let (arg, weights) := if normalized then (w, w) else normalize1 lo w
  (arg, XF.fin 1 / ∑ i, weights i * weights i)

/-- `get_ess` on a two-dimensional tensor, pyfilter/utils.py:8-20. -/
noncomputable def getEss2 (lo : ℝ) {n b : ℕ} (w : Fin n → Fin b → XF) (normalized : Bool) :
    (Fin n → Fin b → XF) × (Fin b → XF) :=
  let (arg, weights) := if normalized then (w, w) else normalize2 lo w
  (arg, fun c => XF.fin 1 / ∑ i, weights i c * weights i c)

end Verif
