import Verif.Spec.Context
import Verif.Lemmas.Container
import Mathlib.Tactic.Ring
import Mathlib.Tactic.Linarith

/-! # Lemmas on parameter contexts -/

namespace Verif.Ctx

open Verif.Spec Context
open Verif.Container (dictGet_of_mem)

variable {α : Type}

/-! ### Rows -/

theorem chunk_length (n k : ℕ) (l : List α) : (chunk n k l).length = n := by
  induction n generalizing l with
  | zero => rfl
  | succ n ih => simp [chunk, ih]

theorem chunk_flatten (n k : ℕ) (l : List α) (h : l.length = n * k) : (chunk n k l).flatten = l := by
  induction n generalizing l with
  | zero =>
    have : l = [] := by simpa using h
    simp [chunk, this]
  | succ n ih =>
    rw [chunk, List.flatten_cons, ih, List.take_append_drop]
    rw [List.length_drop, h, Nat.succ_mul]; omega

theorem chunk_get (n k : ℕ) (l : List α) (i : ℕ) (hi : i < n) :
    (chunk n k l)[i]? = some ((l.drop (i * k)).take k) := by
  induction n generalizing l i with
  | zero => omega
  | succ n ih =>
    cases i with
    | zero => simp [chunk]
    | succ i =>
      rw [chunk, List.getElem?_cons_succ, ih _ _ (by omega), List.drop_drop]
      congr 3; ring

theorem chunk_eq (n k : ℕ) (l : List α) :
    chunk n k l = (List.range n).map fun i => (l.drop (i * k)).take k := by
  apply List.ext_getElem?
  intro i
  by_cases hi : i < n
  · rw [chunk_get _ _ _ _ hi]; simp [hi]
  · rw [List.getElem?_eq_none (by rw [chunk_length]; omega), List.getElem?_eq_none (by simp; omega)]

theorem chunk_row_length {n k : ℕ} {l : List α} (h : l.length = n * k) {i : ℕ} (hi : i < n) :
    ((l.drop (i * k)).take k).length = k := by
  rw [List.length_take, List.length_drop, h]
  have : (i + 1) * k ≤ n * k := Nat.mul_le_mul_right k hi
  rw [Nat.succ_mul] at this
  omega

theorem chunk_of_flatten (k : ℕ) (rows : List (List α)) (h : ∀ r ∈ rows, r.length = k) :
    chunk rows.length k rows.flatten = rows := by
  induction rows with
  | nil => rfl
  | cons r rs ih =>
    have hr : r.length = k := h r (by simp)
    rw [List.length_cons, chunk, List.flatten_cons, List.take_left' hr, List.drop_left' hr,
      ih fun r' hr' => h r' (by simp [hr'])]

theorem flatten_length (k : ℕ) (rows : List (List α)) (h : ∀ r ∈ rows, r.length = k) :
    rows.flatten.length = rows.length * k := by
  induction rows with
  | nil => simp
  | cons r rs ih =>
    rw [List.flatten_cons, List.length_append, ih fun r' hr' => h r' (by simp [hr']), h r (by simp),
      List.length_cons, Nat.succ_mul]
    omega

theorem view2_flatten {k : ℕ} (hk : 0 < k) (rows : List (List α)) (h : ∀ r ∈ rows, r.length = k) :
    view2 k rows.flatten = .ok rows := by
  have hl := flatten_length k rows h
  unfold view2
  rw [if_neg]
  · rw [hl, Nat.mul_div_cancel _ hk, chunk_of_flatten k rows h]
  · rw [hl]; simp [hk.ne']

/-- Row `i` of all parts next to each other. -/
theorem catRows_ok (n : ℕ) (ms : List (List (List α))) (hne : ms ≠ []) (h : ∀ m ∈ ms, m.length = n) :
    catRows ms = .ok ((List.range n).map fun i => ms.flatMap fun m => (m[i]?).getD []) := by
  induction ms with
  | nil => exact absurd rfl hne
  | cons m ms ih =>
    have hm : m.length = n := h m (by simp)
    cases ms with
    | nil =>
      simp only [catRows, List.flatMap_cons, List.flatMap_nil, List.append_nil, Except.ok.injEq]
      apply List.ext_getElem?
      intro i
      by_cases hi : i < n
      · rw [List.getElem?_eq_getElem (by omega)]; simp [hi, hm]
      · rw [List.getElem?_eq_none (by omega), List.getElem?_eq_none (by simp; omega)]
    | cons m' ms =>
      have ih := ih (by simp) fun m hm => h m (by simp [hm])
      unfold catRows
      rw [ih]
      simp only [List.length_map, List.length_range, hm, if_true, Except.ok.injEq]
      apply List.ext_getElem?
      intro i
      by_cases hi : i < n
      · rw [List.getElem?_zipWith]
        simp [hi, List.getElem?_eq_getElem (show i < m.length by omega)]
      · rw [List.getElem?_eq_none (by simp; omega), List.getElem?_eq_none (by simp; omega)]

/-! ### Storage -/

theorem tensor_write_self (w : World α) (p : ℕ) (d : List α) :
    (w.write p d).tensor p = ⟨(w.tensor p).shape, d⟩ := by
  simp [World.write, World.tensor]

theorem tensor_write_ne (w : World α) {p q : ℕ} (d : List α) (h : w.obj q ≠ w.obj p) :
    (w.write p d).tensor q = w.tensor q := by
  simp [World.write, World.tensor, h]

theorem cell_write_ne (w : World α) {p a : ℕ} (d : List α) (h : a ≠ w.obj p) :
    (w.write p d).cell a = w.cell a := by
  simp [World.write, h]

theorem write_same (w : World α) (p : ℕ) (d : List α) (h : (w.tensor p).data = d) : w.write p d = w := by
  subst h
  simp [World.write, World.tensor]

/-! ### Registered contexts -/

section Holds

variable {w : World α} {c : Context α} {b : List ℕ} {es : List (Entry α)}

theorem _root_.Verif.Spec.Holds.get_prior (h : Holds w c b es) {e : Entry α} (he : e ∈ es) :
    dictGet c.priors e.name = some e.prior := by
  rw [h.priors]
  apply dictGet_of_mem
  · rw [List.map_map]; exact h.names
  · exact List.mem_map.2 ⟨e, he, rfl⟩

theorem _root_.Verif.Spec.Holds.get_param (h : Holds w c b es) {e : Entry α} (he : e ∈ es) :
    dictGet c.params e.name = some e.pid := by
  rw [h.params]
  apply dictGet_of_mem
  · rw [List.map_map]; exact h.names
  · exact List.mem_map.2 ⟨e, he, rfl⟩

theorem _root_.Verif.Spec.Holds.get_shape (h : Holds w c b es) {e : Entry α} (he : e ∈ es) :
    dictGet c.shapes e.name = some e.prior.eventShape := by
  rw [h.shapes]
  apply dictGet_of_mem
  · rw [List.map_map]; exact h.names
  · exact List.mem_map.2 ⟨e, he, rfl⟩

theorem _root_.Verif.Spec.Holds.get_ushape (h : Holds w c b es) {e : Entry α} (he : e ∈ es) :
    dictGet c.ushapes e.name = some e.u := by
  rw [h.ushapes]
  apply dictGet_of_mem
  · rw [List.map_map]; exact h.names
  · exact List.mem_map.2 ⟨e, he, rfl⟩

theorem _root_.Verif.Spec.Holds.get_dict (h : Holds w c b es) {e : Entry α} (he : e ∈ es) (k : Bool) :
    ∃ sh, dictGet (c.shapeDict k) e.name = some sh ∧ sh.prod = e.cols k := by
  cases k
  · exact ⟨e.u, h.get_ushape he, rfl⟩
  · exact ⟨e.prior.eventShape, h.get_shape he, rfl⟩

theorem _root_.Verif.Spec.Holds.obj_inj (h : Holds w c b es) {e e' : Entry α} (he : e ∈ es) (he' : e' ∈ es)
    (ho : w.obj e.pid = w.obj e'.pid) : e = e' :=
  List.inj_on_of_nodup_map h.storage he he' ho

theorem _root_.Verif.Spec.Holds.size' (h : Holds w c b es) {e : Entry α} (he : e ∈ es) :
    (w.tensor e.pid).data.length = b.prod * e.prior.eventShape.prod := by
  rw [h.size e he, List.prod_append]

/-- Writes that keep sizes keep a context intact. -/
theorem _root_.Verif.Spec.Holds.write (h : Holds w c b es) {p : ℕ} {d : List α}
    (hd : d.length = (w.tensor p).data.length) : Holds (w.write p d) c b es where
  batch := h.batch
  priors := h.priors
  params := h.params
  shapes := h.shapes
  ushapes := h.ushapes
  names := h.names
  bijection := h.bijection
  unbatched := h.unbatched
  shape e he := by
    rw [← h.shape e he]
    by_cases ho : w.obj e.pid = w.obj p
    · simp [World.write, World.tensor, ho]
    · rw [tensor_write_ne _ _ ho]
  size e he := by
    rw [← h.size e he]
    by_cases ho : w.obj e.pid = w.obj p
    · simp [World.write, World.tensor, ho, hd]
    · rw [tensor_write_ne _ _ ho]
  pid_lt := h.pid_lt
  cell_lt := h.cell_lt
  storage := h.storage

/-- Writing all parameters of a list. -/
def writeAll (w : World α) (V : Entry α → List α) (es : List (Entry α)) : World α :=
  es.foldl (fun w e => w.write e.pid (V e)) w

theorem writeAll_obj (w : World α) (V : Entry α → List α) (es : List (Entry α)) :
    (writeAll w V es).obj = w.obj ∧ (writeAll w V es).nc = w.nc ∧ (writeAll w V es).no = w.no := by
  induction es generalizing w with
  | nil => simp [writeAll]
  | cons e es ih =>
    exact ih (w.write e.pid (V e))

theorem writeAll_cell (w : World α) (V : Entry α → List α) (es : List (Entry α)) {a : ℕ}
    (ha : ∀ e ∈ es, w.obj e.pid ≠ a) : (writeAll w V es).cell a = w.cell a := by
  induction es generalizing w with
  | nil => rfl
  | cons e es ih =>
    have : writeAll w V (e :: es) = writeAll (w.write e.pid (V e)) V es := rfl
    rw [this, ih, cell_write_ne]
    · exact (ha e (by simp)).symm
    · intro e' he'
      exact ha e' (by simp [he'])

theorem writeAll_tensor (w : World α) (V : Entry α → List α) (es : List (Entry α))
    (hn : (es.map fun e => w.obj e.pid).Nodup) {e : Entry α} (he : e ∈ es) :
    (writeAll w V es).tensor e.pid = ⟨(w.tensor e.pid).shape, V e⟩ := by
  induction es generalizing w with
  | nil => simp at he
  | cons e' es ih =>
    have hw : writeAll w V (e' :: es) = writeAll (w.write e'.pid (V e')) V es := rfl
    rw [hw]
    simp only [List.map_cons, List.nodup_cons, List.mem_map, not_exists, not_and] at hn
    rcases List.mem_cons.1 he with rfl | he
    · have : (writeAll (w.write e.pid (V e)) V es).obj = w.obj := (writeAll_obj _ _ _).1
      rw [World.tensor, this, writeAll_cell]
      · exact tensor_write_self w e.pid (V e)
      · intro e'' he''
        exact hn.1 e'' he''
    · rw [ih (w.write e'.pid (V e')) hn.2 he, tensor_write_ne]
      exact hn.1 e he

theorem _root_.Verif.Spec.Holds.writeAll (h : Holds w c b es) (V : Entry α → List α) (es' : List (Entry α))
    (hs : ∀ e ∈ es', e ∈ es)
    (hV : ∀ e ∈ es', (V e).length = b.prod * e.prior.eventShape.prod) :
    Holds (writeAll w V es') c b es := by
  induction es' generalizing w with
  | nil => exact h
  | cons e es' ih =>
    show Holds (Verif.Ctx.writeAll (w.write e.pid (V e)) V es') c b es
    apply ih
    · apply h.write
      rw [hV e (by simp), h.size' (hs e (by simp))]
    · exact fun e he => hs e (by simp [he])
    · exact fun e he => hV e (by simp [he])

theorem writeAll_same (w : World α) (V : Entry α → List α) (es : List (Entry α))
    (hV : ∀ e ∈ es, V e = (w.tensor e.pid).data) : writeAll w V es = w := by
  induction es generalizing w with
  | nil => rfl
  | cons e es ih =>
    show writeAll (w.write e.pid (V e)) V es = w
    rw [write_same w e.pid _ (hV e (by simp)).symm]
    exact ih w fun e he => hV e (by simp [he])

/-! ### Stacking -/

/-- Row `i` of a parameter, in the chosen space. -/
def rowOf (w : World α) (k : Bool) (e : Entry α) (i : ℕ) : List α :=
  let r := ((w.tensor e.pid).data.drop (i * e.prior.eventShape.prod)).take e.prior.eventShape.prod
  if k then r else e.prior.toU r

theorem stackParts_ok (h : Holds w c b es) (k : Bool) (es' : List (Entry α)) (hs : ∀ e ∈ es', e ∈ es)
    (hpos : ∀ e ∈ es', 0 < e.prior.eventShape.prod ∧ 0 < e.cols k)
    (hlen : ∀ e ∈ es', ∀ i < b.prod, (rowOf w k e i).length = e.cols k) :
    stackParts w c k (es'.map fun e => (e.name, e.pid)) =
      .ok (es'.map fun e => (List.range b.prod).map fun i => rowOf w k e i) := by
  induction es' with
  | nil => rfl
  | cons e es' ih =>
    have ih := ih (fun e he => hs e (by simp [he])) (fun e he => hpos e (by simp [he]))
      fun e he => hlen e (by simp [he])
    obtain ⟨sh, hsh, hshp⟩ := h.get_dict (hs e (by simp)) k
    obtain ⟨hp1, hp2⟩ := hpos e (by simp)
    have hent : entries e.prior (w.tensor e.pid) k =
        ((List.range b.prod).map fun i => rowOf w k e i).flatten := by
      have hsz := h.size' (hs e (by simp))
      cases k
      · simp only [entries, Bool.false_eq_true, if_false, rowOf]
        rw [hsz, Nat.mul_div_cancel _ hp1, chunk_eq, List.map_map]
        rfl
      · simp only [entries, if_true, rowOf]
        rw [← chunk_eq, chunk_flatten _ _ _ hsz]
    have hv : view2 sh.prod (entries e.prior (w.tensor e.pid) k) =
        .ok ((List.range b.prod).map fun i => rowOf w k e i) := by
      rw [hent, hshp]
      apply view2_flatten hp2
      intro r hr
      obtain ⟨i, hi, rfl⟩ := List.mem_map.1 hr
      exact hlen e (by simp) i (List.mem_range.1 hi)
    simp only [List.map_cons, stackParts, hsh, h.get_prior (hs e (by simp)), hv, ih]

theorem stack_ok (h : Holds w c b es) (k : Bool) (hne : es ≠ [])
    (hpos : ∀ e ∈ es, 0 < e.prior.eventShape.prod ∧ 0 < e.cols k)
    (hlen : ∀ e ∈ es, ∀ i < b.prod, (rowOf w k e i).length = e.cols k) :
    stack w c k = .ok ((List.range b.prod).map fun i => es.flatMap fun e => rowOf w k e i) := by
  unfold stack
  rw [h.params, stackParts_ok h k es (fun e he => he) hpos hlen]
  show catRows _ = _
  rw [catRows_ok b.prod _ (by simpa using hne)]
  · congr 1
    apply List.map_congr_left
    intro i hi
    rw [List.flatMap_map]
    congr 1
    funext e
    simp [List.mem_range.1 hi]
  · intro m hm
    obtain ⟨e, -, rfl⟩ := List.mem_map.1 hm
    simp

/-! ### Unstacking -/

/-- What unstacking writes to a parameter if its rows are `R e`. -/
def newData (n : ℕ) (k : Bool) (R : Entry α → ℕ → List α) (e : Entry α) : List α :=
  ((List.range n).map fun i => if k then R e i else e.prior.toC (R e i)).flatten

theorem newData_length (n : ℕ) (k : Bool) (R : Entry α → ℕ → List α) (e : Entry α)
    (hC : ∀ i < n, (if k then R e i else e.prior.toC (R e i)).length = e.prior.eventShape.prod) :
    (newData n k R e).length = n * e.prior.eventShape.prod := by
  unfold newData
  rw [flatten_length e.prior.eventShape.prod]
  · simp
  · intro r hr
    obtain ⟨i, hi, rfl⟩ := List.mem_map.1 hr
    exact hC i (List.mem_range.1 hi)

theorem updateValues_ok (h : Holds w c b es) {e : Entry α} (he : e ∈ es) (k : Bool)
    (R : Entry α → ℕ → List α)
    (hC : ∀ i < b.prod, (if k then R e i else e.prior.toC (R e i)).length = e.prior.eventShape.prod)
    (hS : k = true → ∀ i < b.prod, e.prior.support (R e i) = true) :
    updateValues w c e.name e.pid ((List.range b.prod).map (R e)) k =
      (w.write e.pid (newData b.prod k R e), .ok ()) := by
  unfold updateValues
  rw [h.get_prior he]
  have hl := newData_length b.prod k R e hC
  cases k
  · have : (List.map e.prior.toC (List.map (R e) (List.range b.prod))).flatten = newData b.prod false R e := by
      simp [newData, Function.comp_def]
    simp only [Bool.false_eq_true, if_false, Bool.false_and, this]
    rw [if_pos (by rw [hl, h.size' he])]
  · have : (List.map (R e) (List.range b.prod)).flatten = newData b.prod true R e := by
      simp [newData]
    have hall : (List.map (R e) (List.range b.prod)).all e.prior.support = true := by
      rw [List.all_eq_true]
      intro r hr
      obtain ⟨i, hi, rfl⟩ := List.mem_map.1 hr
      exact hS rfl i (List.mem_range.1 hi)
    simp only [if_true, this, hall, Bool.not_true, Bool.and_false, Bool.false_eq_true, if_false]
    rw [if_pos (by rw [hl, h.size' he])]

theorem slice_eq (k : Bool) (R : Entry α → ℕ → List α) (pre : List (Entry α)) (e : Entry α)
    (post : List (Entry α)) (i : ℕ) (hR : ∀ e' ∈ pre ++ e :: post, (R e' i).length = e'.cols k) :
    (((pre ++ e :: post).flatMap fun e => R e i).drop ((pre.map fun e => e.cols k).sum)).take (e.cols k) =
      R e i := by
  rw [List.flatMap_append, List.flatMap_cons, List.drop_left', List.take_left']
  · exact hR e (by simp)
  · rw [List.length_flatMap]
    congr 1
    apply List.map_congr_left
    intro e' he'
    exact hR e' (by simp [he'])

theorem apply_ok (h : Holds w c b es) (k : Bool) (R : Entry α → ℕ → List α)
    (hR : ∀ e ∈ es, ∀ i < b.prod, (R e i).length = e.cols k)
    (hC : ∀ e ∈ es, ∀ i < b.prod,
      (if k then R e i else e.prior.toC (R e i)).length = e.prior.eventShape.prod)
    (hS : k = true → ∀ e ∈ es, ∀ i < b.prod, e.prior.support (R e i) = true)
    (pre post : List (Entry α)) (hes : pre ++ post = es) :
    applyToParams (fun w n pid v => updateValues w c n pid v k) (c.shapeDict k)
        ((List.range b.prod).map fun i => es.flatMap fun e => R e i) w
        ((pre.map fun e => e.cols k).sum) (post.map fun e => (e.name, e.pid)) =
      (writeAll w (newData b.prod k R) post, .ok ()) := by
  induction post generalizing w pre with
  | nil => rfl
  | cons e post ih =>
    have he : e ∈ es := by rw [← hes]; simp
    obtain ⟨sh, hsh, hshp⟩ := h.get_dict he k
    have hsl : ((List.range b.prod).map fun i => es.flatMap fun e => R e i).map
        (fun r => (r.drop ((pre.map fun e => e.cols k).sum)).take sh.prod) =
        (List.range b.prod).map (R e) := by
      rw [List.map_map]
      apply List.map_congr_left
      intro i hi
      simp only [Function.comp_def, hshp]
      rw [← hes]
      apply slice_eq
      intro e' he'
      exact hR e' (hes ▸ he') i (List.mem_range.1 hi)
    have hu := updateValues_ok h he k R (hC e he) fun hk => hS hk e he
    have h' : Holds (w.write e.pid (newData b.prod k R e)) c b es :=
      h.write (by rw [newData_length _ _ _ _ (hC e he), h.size' he])
    have ih := ih h' (pre ++ [e]) (by simpa using hes)
    simp only [List.map_append, List.map_cons, List.map_nil, List.sum_append, List.sum_cons, List.sum_nil,
      add_zero] at ih
    simp only [List.map_cons, applyToParams, hsh, hsl, hu]
    rw [hshp, ih]
    rfl

theorem _root_.Verif.Spec.Holds.total (h : Holds w c b es) (k : Bool) :
    ((c.shapeDict k).map fun s => s.2.prod).sum = (es.map fun e => e.cols k).sum := by
  cases k
  · simp [shapeDict, h.ushapes, Entry.cols, Function.comp_def]
  · simp [shapeDict, h.shapes, Entry.cols, Function.comp_def]

theorem unstack_ok (h : Holds w c b es) (k : Bool) (R : Entry α → ℕ → List α)
    (hR : ∀ e ∈ es, ∀ i < b.prod, (R e i).length = e.cols k)
    (hC : ∀ e ∈ es, ∀ i < b.prod,
      (if k then R e i else e.prior.toC (R e i)).length = e.prior.eventShape.prod)
    (hS : k = true → ∀ e ∈ es, ∀ i < b.prod, e.prior.support (R e i) = true) :
    unstack w c ⟨(es.map fun e => e.cols k).sum,
        (List.range b.prod).map fun i => es.flatMap fun e => R e i⟩ k =
      (writeAll w (newData b.prod k R) es, .ok ()) := by
  unfold unstack
  simp only [h.total k, ne_eq, not_true, if_false]
  have := apply_ok h k R hR hC hS [] es rfl
  rw [h.params]
  simpa using this

/-- Every row of the right length is made of one piece for every parameter. -/
theorem split_row (k : Bool) (es : List (Entry α)) (hn : (es.map Entry.name).Nodup) (row : List α)
    (hrow : row.length = (es.map fun e => e.cols k).sum) :
    ∃ r : Entry α → List α, (∀ e ∈ es, (r e).length = e.cols k) ∧ row = es.flatMap r := by
  classical
  induction es generalizing row with
  | nil => exact ⟨fun _ => [], by simp, by simpa using hrow⟩
  | cons e es ih =>
    simp only [List.map_cons, List.nodup_cons, List.sum_cons] at hn hrow
    obtain ⟨r, hr, hrow'⟩ := ih hn.2 (row.drop (e.cols k)) (by rw [List.length_drop]; omega)
    refine ⟨fun e' => if e'.name = e.name then row.take (e.cols k) else r e', ?_, ?_⟩
    · intro e' he'
      rcases List.mem_cons.1 he' with rfl | he'
      · simp; omega
      · have : e'.name ≠ e.name := fun h => hn.1 (h ▸ List.mem_map.2 ⟨e', he', rfl⟩)
        simp [this, hr e' he']
    · rw [List.flatMap_cons]
      simp only [if_true]
      conv_lhs => rw [← List.take_append_drop (e.cols k) row]
      congr 1
      rw [hrow']
      apply List.flatMap_congr
      intro e' he'
      have : e'.name ≠ e.name := fun h => hn.1 (h ▸ List.mem_map.2 ⟨e', he', rfl⟩)
      simp [this]

theorem split_rows (k : Bool) (es : List (Entry α)) (hn : (es.map Entry.name).Nodup)
    (rows : List (List α)) (hrows : ∀ r ∈ rows, r.length = (es.map fun e => e.cols k).sum) :
    ∃ R : Entry α → ℕ → List α, (∀ e ∈ es, ∀ i < rows.length, (R e i).length = e.cols k) ∧
      rows = (List.range rows.length).map fun i => es.flatMap fun e => R e i := by
  classical
  have : ∀ i, ∃ r : Entry α → List α, (h : i < rows.length) →
      (∀ e ∈ es, (r e).length = e.cols k) ∧ rows[i] = es.flatMap r := by
    intro i
    by_cases h : i < rows.length
    · obtain ⟨r, hr⟩ := split_row k es hn rows[i] (hrows _ (List.getElem_mem h))
      exact ⟨r, fun _ => hr⟩
    · exact ⟨fun _ => [], fun h' => absurd h' h⟩
  choose r hr using this
  refine ⟨fun e i => r i e, fun e he i hi => (hr i hi).1 e he, ?_⟩
  apply List.ext_getElem?
  intro i
  by_cases hi : i < rows.length
  · rw [List.getElem?_eq_getElem hi, (hr i hi).2]; simp [hi]
  · rw [List.getElem?_eq_none (by omega), List.getElem?_eq_none (by simp; omega)]

theorem rowOf_writeAll (h : Holds w c b es) (k : Bool) (R : Entry α → ℕ → List α) {e : Entry α}
    (he : e ∈ es) {i : ℕ} (hi : i < b.prod)
    (hC : ∀ i < b.prod, (if k then R e i else e.prior.toC (R e i)).length = e.prior.eventShape.prod)
    (hU : k = false → e.prior.toU (e.prior.toC (R e i)) = R e i) :
    rowOf (writeAll w (newData b.prod k R) es) k e i = R e i := by
  have hr : ((newData b.prod k R e).drop (i * e.prior.eventShape.prod)).take e.prior.eventShape.prod =
      if k then R e i else e.prior.toC (R e i) := by
    have h1 := chunk_get b.prod e.prior.eventShape.prod (newData b.prod k R e) i hi
    have h2 := chunk_of_flatten e.prior.eventShape.prod
      ((List.range b.prod).map fun i => if k then R e i else e.prior.toC (R e i)) (by
        intro r hr
        obtain ⟨j, hj, rfl⟩ := List.mem_map.1 hr
        exact hC j (List.mem_range.1 hj))
    rw [List.length_map, List.length_range] at h2
    rw [newData, h2] at h1
    rw [newData]
    simpa [hi] using h1.symm
  unfold rowOf
  rw [writeAll_tensor _ _ _ h.storage he]
  simp only [hr]
  cases k
  · simpa using hU rfl
  · rfl

end Holds

/-! ### What operations touch -/

/-- Only the storage of parameter objects in `P` changes. -/
structure Touches (P : ℕ → Prop) (w w' : World α) : Prop where
  obj : w'.obj = w.obj
  nc : w'.nc = w.nc
  no : w'.no = w.no
  cell : ∀ a, (∀ p, P p → w.obj p ≠ a) → w'.cell a = w.cell a

theorem Touches.refl (P : ℕ → Prop) (w : World α) : Touches P w w := ⟨rfl, rfl, rfl, fun _ _ => rfl⟩

theorem Touches.trans {P : ℕ → Prop} {w w' w'' : World α} (h : Touches P w w') (h' : Touches P w' w'') :
    Touches P w w'' :=
  ⟨h'.obj.trans h.obj, h'.nc.trans h.nc, h'.no.trans h.no, fun a ha => by
    rw [h'.cell a (by rw [h.obj]; exact ha), h.cell a ha]⟩

theorem Touches.write {P : ℕ → Prop} (w : World α) {p : ℕ} (hp : P p) (d : List α) :
    Touches P w (w.write p d) :=
  ⟨rfl, rfl, rfl, fun _ ha => cell_write_ne w d (ha p hp).symm⟩

theorem updateValues_touches {P : ℕ → Prop} (w : World α) (c : Context α) (n : List Char) {pid : ℕ}
    (hp : P pid) (x : List (List α)) (k : Bool) : Touches P w (updateValues w c n pid x k).1 := by
  unfold updateValues
  split
  · exact Touches.refl _ _
  · dsimp only
    split_ifs <;> first | exact Touches.refl _ _ | exact Touches.write _ hp _

theorem inverseSample_touches {P : ℕ → Prop} (w : World α) (c : Context α) (n : List Char) {pid : ℕ}
    (hp : P pid) (x : List (List α)) : Touches P w (inverseSample w c n pid x).1 := by
  unfold inverseSample
  split
  · dsimp only
    split_ifs <;> first | exact Touches.refl _ _ | exact Touches.write _ hp _
  · exact Touches.refl _ _

theorem applyToParams_touches {P : ℕ → Prop}
    (f : World α → List Char → ℕ → List (List α) → World α × Except Err Unit)
    (hf : ∀ w n pid x, P pid → Touches P w (f w n pid x).1) (dict : List (List Char × List ℕ))
    (x : List (List α)) (ps : List (List Char × ℕ)) (hps : ∀ e ∈ ps, P e.2) (w : World α) (i : ℕ) :
    Touches P w (applyToParams f dict x w i ps).1 := by
  induction ps generalizing w i with
  | nil => exact Touches.refl _ _
  | cons e ps ih =>
    obtain ⟨n, pid⟩ := e
    unfold applyToParams
    split
    · exact Touches.refl _ _
    · rename_i sh _
      have h1 := hf w n pid (x.map fun r => (r.drop i).take sh.prod) (hps (n, pid) (by simp))
      split
      · rename_i heq; rw [heq] at h1; exact h1
      · rename_i heq; rw [heq] at h1
        exact h1.trans (ih (fun e he => hps e (by simp [he])) _ _)

theorem unstack_touches (w : World α) (c : Context α) (x : Mat α) (k : Bool) :
    Touches (fun p => ∃ n, (n, p) ∈ c.params) w (unstack w c x k).1 := by
  unfold unstack
  dsimp only
  split_ifs
  · exact Touches.refl _ _
  · exact applyToParams_touches _ (fun w n pid x hp => updateValues_touches w c n hp x k) _ _ _
      (fun e he => ⟨e.1, he⟩) _ _

theorem quasiInit_touches (w : World α) (c : Context α) (x : List (List α)) :
    Touches (fun p => ∃ n, (n, p) ∈ c.params) w (quasiInit w c x).1 := by
  unfold quasiInit
  split
  · exact Touches.refl _ _
  · exact applyToParams_touches _ (fun w n pid x hp => inverseSample_touches w c n hp x) _ _ _
      (fun e he => ⟨e.1, he⟩) _ _

theorem exchangeGo_touches {P : ℕ → Prop} (o : Context α) (mask : List Bool)
    (ps : List (List Char × ℕ)) (hps : ∀ e ∈ ps, P e.2) (w : World α) :
    Touches P w (exchangeGo o mask w ps).1 := by
  induction ps generalizing w with
  | nil => exact Touches.refl _ _
  | cons e ps ih =>
    obtain ⟨n, pid⟩ := e
    unfold exchangeGo
    split
    · exact Touches.refl _ _
    · dsimp only
      split_ifs
      · exact Touches.refl _ _
      · split
        · exact Touches.refl _ _
        · exact (Touches.write _ (hps (n, pid) (by simp)) _).trans (ih (fun e he => hps e (by simp [he])) _)

theorem exchange_touches (w : World α) (c o : Context α) (mask : List Bool) :
    Touches (fun p => ∃ n, (n, p) ∈ c.params) w (exchange w c o mask).1 :=
  exchangeGo_touches o mask _ (fun e he => ⟨e.1, he⟩) w

theorem resampleGo_touches {P : ℕ → Prop} (idx : List ℕ)
    (ps : List (List Char × ℕ)) (hps : ∀ e ∈ ps, P e.2) (w : World α) :
    Touches P w (resampleGo idx w ps).1 := by
  induction ps generalizing w with
  | nil => exact Touches.refl _ _
  | cons e ps ih =>
    obtain ⟨n, pid⟩ := e
    unfold resampleGo
    dsimp only
    split
    · exact Touches.refl _ _
    · split_ifs
      · exact Touches.refl _ _
      · exact (Touches.write _ (hps (n, pid) (by simp)) _).trans (ih (fun e he => hps e (by simp [he])) _)

theorem resample_touches (w : World α) (c : Context α) (idx : List ℕ) :
    Touches (fun p => ∃ n, (n, p) ∈ c.params) w (resample w c idx).1 :=
  resampleGo_touches idx _ (fun e he => ⟨e.1, he⟩) w

/-! ### Registration -/

/-- The outcomes of `named_parameter`. -/
theorem named_cases (w : World α) (c : Context α) (n : List Char) (p : Prior α) (d : ℕ → α) :
    (∃ r, named w c n p d = (w, c, r) ∧ (c.batch = none ∨ ∃ q, dictGet c.priors n = some q)) ∨
    (∃ b, c.batch = some b ∧ dictGet c.priors n = none ∧ p.batchShape ≠ [] ∧
      named w c n p d = (w, { c with priors := dictSet c.priors n p }, .error .assertion)) ∨
    (∃ b, c.batch = some b ∧ dictGet c.priors n = none ∧ p.batchShape = [] ∧ p.uEventShape = none ∧
      named w c n p d =
        (w.newParam ⟨b ++ p.eventShape, (List.range (b ++ p.eventShape).prod).map d⟩,
          { c with
            priors := dictSet c.priors n p
            params := dictSet c.params n w.no
            shapes := dictSet c.shapes n p.eventShape }, .error .noBijection)) ∨
    (∃ b u, c.batch = some b ∧ dictGet c.priors n = none ∧ p.batchShape = [] ∧ p.uEventShape = some u ∧
      named w c n p d =
        (w.newParam ⟨b ++ p.eventShape, (List.range (b ++ p.eventShape).prod).map d⟩,
          { c with
            priors := dictSet c.priors n p
            params := dictSet c.params n w.no
            shapes := dictSet c.shapes n p.eventShape
            ushapes := dictSet c.ushapes n u }, .ok w.no)) := by
  unfold named
  cases hb : c.batch with
  | none => left; exact ⟨_, rfl, .inl rfl⟩
  | some b =>
    cases hq : dictGet c.priors n with
    | some q =>
      left
      by_cases hv : c.verify = true
      · simp only [hv, Bool.not_true, Bool.false_eq_true, if_false]
        split <;> exact ⟨_, rfl, .inr ⟨q, rfl⟩⟩
      · simp only [hv, Bool.not_false, if_true]
        exact ⟨_, rfl, .inr ⟨q, rfl⟩⟩
    | none =>
      right
      by_cases hp : p.batchShape = []
      · right
        cases hu : p.uEventShape with
        | none => left; exact ⟨b, rfl, rfl, hp, rfl, by simp [hp]⟩
        | some u => right; exact ⟨b, u, rfl, rfl, hp, rfl, by simp [hp]⟩
      · left
        exact ⟨b, rfl, rfl, hp, by simp [hp]⟩

theorem tensor_newParam_old (w : World α) (t : Tens α) {p : ℕ} (hp : p < w.no) (hc : w.obj p < w.nc) :
    (w.newParam t).tensor p = w.tensor p := by
  simp [World.newParam, World.tensor, Function.update_of_ne hp.ne, Function.update_of_ne hc.ne]

theorem tensor_newParam_new (w : World α) (t : Tens α) : (w.newParam t).tensor w.no = t := by
  simp [World.newParam, World.tensor]

/-- A context without parameters. -/
theorem holds_empty (w : World α) (b : List ℕ) : Holds w ({ batch := some b } : Context α) b [] := by
  constructor <;> simp

/-- A successful registration. -/
theorem _root_.Verif.Spec.Holds.named {w : World α} {c : Context α} {b : List ℕ} {es : List (Entry α)} (h : Holds w c b es)
    {n : List Char} (hn : n ∉ es.map Entry.name) {p : Prior α} (hp : p.batchShape = []) {u : List ℕ}
    (hu : p.uEventShape = some u) (d : ℕ → α) :
    ∃ w' c', named w c n p d = (w', c', .ok w.no) ∧ Holds w' c' b (es ++ [⟨n, p, u, w.no⟩]) ∧
      c'.verify = c.verify ∧ w'.no = w.no + 1 ∧ w'.nc = w.nc + 1 ∧
      (∀ q < w.no, w'.obj q = w.obj q) ∧ (∀ a < w.nc, w'.cell a = w.cell a) ∧ w'.obj w.no = w.nc ∧
      (w'.tensor w.no) = ⟨b ++ p.eventShape, (List.range (b ++ p.eventShape).prod).map d⟩ := by
  have hk : ∀ {β : Type} (d : List (List Char × β)) (f : Entry α → β), d = es.map (fun e => (e.name, f e)) →
      n ∉ d.map Prod.fst := by
    intro β d f hd
    rw [hd, List.map_map]
    exact hn
  have hq : dictGet c.priors n = none := dictGet_eq_none (hk _ _ h.priors)
  rcases named_cases w c n p d with ⟨r, -, h1 | ⟨q, h1⟩⟩ | ⟨b', -, -, h1, -⟩ | ⟨b', -, -, -, h1, -⟩ |
    ⟨b', u', h1, -, -, h2, h3⟩
  · rw [h.batch] at h1; cases h1
  · rw [hq] at h1; cases h1
  · exact absurd hp h1
  · rw [hu] at h1; cases h1
  · rw [h.batch] at h1; cases h1
    rw [hu] at h2; cases h2
    refine ⟨_, _, h3, ?_, rfl, rfl, rfl, ?_, ?_, by simp [World.newParam], tensor_newParam_new _ _⟩
    · rw [dictSet_new _ (hk _ _ h.priors), dictSet_new _ (hk _ _ h.params), dictSet_new _ (hk _ _ h.shapes),
        dictSet_new _ (hk _ _ h.ushapes)]
      have hold : ∀ e ∈ es, ∀ t, (w.newParam t).tensor e.pid = w.tensor e.pid := fun e he t =>
        tensor_newParam_old w t (h.pid_lt e he) (h.cell_lt e he)
      have hobj : ∀ e ∈ es, ∀ t, (w.newParam t).obj e.pid = w.obj e.pid := fun e he t => by
        simp [World.newParam, Function.update_of_ne (h.pid_lt e he).ne]
      have hnew : ∀ t, (w.newParam t).obj w.no = w.nc := fun t => by simp [World.newParam]
      constructor
      · exact h.batch
      · simp [h.priors]
      · simp [h.params]
      · simp [h.shapes]
      · simp [h.ushapes]
      · rw [List.map_append, List.nodup_append]
        refine ⟨h.names, by simp, ?_⟩
        intro a ha b hb
        simp only [List.map_cons, List.map_nil, List.mem_singleton] at hb
        rintro rfl
        exact hn (hb ▸ ha)
      · intro e he
        rcases List.mem_append.1 he with he | he
        · exact h.bijection e he
        · simp only [List.mem_singleton] at he; subst he; exact hu
      · intro e he
        rcases List.mem_append.1 he with he | he
        · exact h.unbatched e he
        · simp only [List.mem_singleton] at he; subst he; exact hp
      · intro e he
        rcases List.mem_append.1 he with he | he
        · rw [hold e he]; exact h.shape e he
        · simp only [List.mem_singleton] at he; subst he; rw [tensor_newParam_new]
      · intro e he
        rcases List.mem_append.1 he with he | he
        · rw [hold e he]; exact h.size e he
        · simp only [List.mem_singleton] at he; subst he; rw [tensor_newParam_new]; simp
      · intro e he
        rcases List.mem_append.1 he with he | he
        · exact Nat.lt_succ_of_lt (h.pid_lt e he)
        · simp only [List.mem_singleton] at he; subst he; exact Nat.lt_succ_self _
      · intro e he
        rcases List.mem_append.1 he with he | he
        · rw [hobj e he]; exact Nat.lt_succ_of_lt (h.cell_lt e he)
        · simp only [List.mem_singleton] at he; subst he; rw [hnew]; exact Nat.lt_succ_self _
      · rw [List.map_append, List.map_congr_left (fun e he => hobj e he _), List.nodup_append]
        refine ⟨h.storage, by simp, ?_⟩
        intro a ha b' hb
        simp only [List.map_cons, List.map_nil, List.mem_singleton, hnew] at hb
        obtain ⟨e, he, rfl⟩ := List.mem_map.1 ha
        have := h.cell_lt e he
        omega
    · intro q hq
      simp [World.newParam, Function.update_of_ne hq.ne]
    · intro a ha
      simp [World.newParam, Function.update_of_ne ha.ne]

/-- What one request cannot change: storage `A` that belongs to none of the parameters. -/
theorem step_frame (A : ℕ → Prop) (s : World α × Context α) (op : CtxOp α)
    (hp : ∀ e ∈ s.2.params, ¬ A (s.1.obj e.2) ∧ e.2 < s.1.no) (hA : ∀ a, A a → a < s.1.nc) :
    (∀ a, A a → (CtxOp.step s op).1.cell a = s.1.cell a) ∧
      (∀ q < s.1.no, (CtxOp.step s op).1.obj q = s.1.obj q) ∧ s.1.nc ≤ (CtxOp.step s op).1.nc ∧
      s.1.no ≤ (CtxOp.step s op).1.no ∧
      ∀ e ∈ (CtxOp.step s op).2.params, ¬ A ((CtxOp.step s op).1.obj e.2) ∧ e.2 < (CtxOp.step s op).1.no := by
  obtain ⟨w, c⟩ := s
  have hT : ∀ w', Touches (fun p => ∃ n, (n, p) ∈ c.params) w w' →
      (∀ a, A a → w'.cell a = w.cell a) ∧ (∀ q < w.no, w'.obj q = w.obj q) ∧ w.nc ≤ w'.nc ∧
      w.no ≤ w'.no ∧ ∀ e ∈ c.params, ¬ A (w'.obj e.2) ∧ e.2 < w'.no := by
    intro w' h
    refine ⟨fun a ha => h.cell a ?_, fun q _ => by rw [h.obj], h.nc.ge, h.no.ge, ?_⟩
    · rintro p ⟨n, hn⟩ rfl
      exact (hp _ hn).1 ha
    · rw [h.obj, h.no]; exact hp
  cases op with
  | setBatchShape b =>
    have : (c.setBatchShape b).1.params = c.params := by
      unfold setBatchShape
      split
      · rfl
      · split_ifs <;> rfl
    refine ⟨fun _ _ => rfl, fun _ _ => rfl, le_rfl, le_rfl, ?_⟩
    show ∀ e ∈ (c.setBatchShape b).1.params, _
    rw [this]; exact hp
  | verify on => exact ⟨fun _ _ => rfl, fun _ _ => rfl, le_rfl, le_rfl, hp⟩
  | unstack x k => exact hT _ (unstack_touches w c x k)
  | exchange o m => exact hT _ (exchange_touches w c o m)
  | resample i => exact hT _ (resample_touches w c i)
  | quasiInit x => exact hT _ (quasiInit_touches w c x)
  | named n p d =>
    have hnew : ∀ t, (∀ a, A a → (w.newParam t).cell a = w.cell a) ∧
        (∀ q < w.no, (w.newParam t).obj q = w.obj q) ∧ w.nc ≤ (w.newParam t).nc ∧
        w.no ≤ (w.newParam t).no ∧
        ∀ e ∈ dictSet c.params n w.no, ¬ A ((w.newParam t).obj e.2) ∧ e.2 < (w.newParam t).no := by
      intro t
      refine ⟨fun a ha => ?_, fun q hq => ?_, Nat.le_succ _, Nat.le_succ _, ?_⟩
      · simp [World.newParam, Function.update_of_ne (hA a ha).ne]
      · simp [World.newParam, Function.update_of_ne hq.ne]
      · intro e he
        have he' : e ∈ c.params ∨ e = (n, w.no) := by
          clear hT hp
          generalize c.params = ps at he
          induction ps with
          | nil => right; simpa [dictSet] using he
          | cons q ps ih =>
            obtain ⟨k, v⟩ := q
            unfold dictSet at he
            split_ifs at he with hk
            · rcases List.mem_cons.1 he with he | he
              · exact .inr he
              · exact .inl (by simp [he])
            · rcases List.mem_cons.1 he with he | he
              · exact .inl (by simp [he])
              · rcases ih he with h | h
                · exact .inl (by simp [h])
                · exact .inr h
        rcases he' with he' | rfl
        · have := hp e he'
          refine ⟨?_, Nat.lt_succ_of_lt this.2⟩
          simpa [World.newParam, Function.update_of_ne this.2.ne] using this.1
        · refine ⟨?_, Nat.lt_succ_self _⟩
          simp only [World.newParam, Function.update_self]
          exact fun h => absurd (hA _ h) (lt_irrefl _)
    show (∀ a, A a → (c.named w n p d).1.cell a = w.cell a) ∧
      (∀ q < w.no, (c.named w n p d).1.obj q = w.obj q) ∧ w.nc ≤ (c.named w n p d).1.nc ∧
      w.no ≤ (c.named w n p d).1.no ∧
      ∀ e ∈ (c.named w n p d).2.1.params, ¬ A ((c.named w n p d).1.obj e.2) ∧ e.2 < (c.named w n p d).1.no
    rcases named_cases w c n p d with ⟨r, h1, -⟩ | ⟨b', -, -, -, h1⟩ | ⟨b', -, -, -, -, h1⟩ |
      ⟨b', u', -, -, -, -, h1⟩ <;> rw [h1]
    · exact ⟨fun _ _ => rfl, fun _ _ => rfl, le_rfl, le_rfl, hp⟩
    · exact ⟨fun _ _ => rfl, fun _ _ => rfl, le_rfl, le_rfl, hp⟩
    · exact hnew _
    · exact hnew _

theorem run_frame (A : ℕ → Prop) (ops : List (CtxOp α)) (s : World α × Context α)
    (hp : ∀ e ∈ s.2.params, ¬ A (s.1.obj e.2) ∧ e.2 < s.1.no) (hA : ∀ a, A a → a < s.1.nc) :
    (∀ a, A a → (CtxOp.run s ops).1.cell a = s.1.cell a) ∧
      (∀ q < s.1.no, (CtxOp.run s ops).1.obj q = s.1.obj q) := by
  induction ops generalizing s with
  | nil => exact ⟨fun _ _ => rfl, fun _ _ => rfl⟩
  | cons op ops ih =>
    obtain ⟨h1, h2, h3, h4, h5⟩ := step_frame A s op hp hA
    obtain ⟨i1, i2⟩ := ih (CtxOp.step s op) h5 fun a ha => (hA a ha).trans_le h3
    refine ⟨fun a ha => ?_, fun q hq => ?_⟩
    · show (CtxOp.run (CtxOp.step s op) ops).1.cell a = _
      rw [i1 a ha, h1 a ha]
    · show (CtxOp.run (CtxOp.step s op) ops).1.obj q = _
      rw [i2 q (hq.trans_le h4), h2 q hq]

/-- Priors and parameters that are registered stay registered. -/
theorem step_keeps (s : World α × Context α) (op : CtxOp α) {n : List Char} {q : Prior α}
    (hq : dictGet s.2.priors n = some q) :
    dictGet (CtxOp.step s op).2.priors n = some q ∧
      dictGet (CtxOp.step s op).2.params n = dictGet s.2.params n := by
  obtain ⟨w, c⟩ := s
  cases op with
  | setBatchShape b =>
    have : (c.setBatchShape b).1.params = c.params ∧ (c.setBatchShape b).1.priors = c.priors := by
      unfold setBatchShape
      split
      · exact ⟨rfl, rfl⟩
      · split_ifs <;> exact ⟨rfl, rfl⟩
    show dictGet (c.setBatchShape b).1.priors n = some q ∧ dictGet (c.setBatchShape b).1.params n = _
    rw [this.1, this.2]; exact ⟨hq, rfl⟩
  | verify on => exact ⟨hq, rfl⟩
  | unstack x k => exact ⟨hq, rfl⟩
  | exchange o m => exact ⟨hq, rfl⟩
  | resample i => exact ⟨hq, rfl⟩
  | quasiInit x => exact ⟨hq, rfl⟩
  | named n' p d =>
    show dictGet (c.named w n' p d).2.1.priors n = some q ∧
      dictGet (c.named w n' p d).2.1.params n = dictGet c.params n
    have hne : dictGet c.priors n' = none → n ≠ n' := by
      rintro h rfl
      simp only at hq
      rw [h] at hq; cases hq
    rcases named_cases w c n' p d with ⟨r, h1, -⟩ | ⟨b', -, h2, -, h1⟩ | ⟨b', -, h2, -, -, h1⟩ |
      ⟨b', u', -, h2, -, -, h1⟩ <;> rw [h1]
    · exact ⟨hq, rfl⟩
    · exact ⟨by rw [dictGet_set_ne _ _ (hne h2)]; exact hq, rfl⟩
    · exact ⟨by rw [dictGet_set_ne _ _ (hne h2)]; exact hq, dictGet_set_ne _ _ (hne h2)⟩
    · exact ⟨by rw [dictGet_set_ne _ _ (hne h2)]; exact hq, dictGet_set_ne _ _ (hne h2)⟩

theorem run_keeps (ops : List (CtxOp α)) (s : World α × Context α) {n : List Char} {q : Prior α}
    (hq : dictGet s.2.priors n = some q) :
    dictGet (CtxOp.run s ops).2.priors n = some q ∧
      dictGet (CtxOp.run s ops).2.params n = dictGet s.2.params n := by
  induction ops generalizing s with
  | nil => exact ⟨hq, rfl⟩
  | cons op ops ih =>
    obtain ⟨h1, h2⟩ := step_keeps s op hq
    obtain ⟨i1, i2⟩ := ih _ h1
    exact ⟨i1, i2.trans h2⟩

theorem step_batch (s : World α × Context α) (op : CtxOp α) {b : List ℕ} (hb : s.2.batch = some b) :
    (CtxOp.step s op).2.batch = some b := by
  obtain ⟨w, c⟩ := s
  cases op with
  | setBatchShape b' =>
    show (c.setBatchShape b').1.batch = some b
    unfold setBatchShape
    simp only at hb
    rw [hb]
    dsimp only
    split_ifs <;> exact hb
  | verify on => exact hb
  | unstack x k => exact hb
  | exchange o m => exact hb
  | resample i => exact hb
  | quasiInit x => exact hb
  | named n' p d =>
    show (c.named w n' p d).2.1.batch = some b
    rcases named_cases w c n' p d with ⟨r, h1, -⟩ | ⟨b', -, h2, -, h1⟩ | ⟨b', -, h2, -, -, h1⟩ |
      ⟨b', u', -, h2, -, -, h1⟩ <;> rw [h1] <;> exact hb

theorem run_batch (ops : List (CtxOp α)) (s : World α × Context α) {b : List ℕ} (hb : s.2.batch = some b) :
    (CtxOp.run s ops).2.batch = some b := by
  induction ops generalizing s with
  | nil => exact hb
  | cons op ops ih => exact ih _ (step_batch s op hb)

/-! ### Exchange and resampling -/

theorem mscatter_true (xs ss : List α) (hl : xs.length = ss.length) (m : List Bool) (xs' ss' : List α) :
    mscatter (List.replicate xs.length true ++ m) (xs ++ xs') (ss ++ ss') =
      (mscatter m xs' ss').map (ss ++ ·) := by
  induction xs generalizing ss with
  | nil =>
    have : ss = [] := by simpa using hl.symm
    subst this
    simp only [List.length_nil, List.replicate_zero, List.nil_append]
    cases mscatter m xs' ss' <;> rfl
  | cons x xs ih =>
    cases ss with
    | nil => simp at hl
    | cons s ss =>
      simp only [List.length_cons, List.replicate_succ, List.cons_append, mscatter]
      rw [ih ss (by simpa using hl)]
      cases mscatter m xs' ss' <;> rfl

theorem mscatter_false (xs : List α) (m : List Bool) (xs' ss : List α) :
    mscatter (List.replicate xs.length false ++ m) (xs ++ xs') ss =
      (mscatter m xs' ss).map (xs ++ ·) := by
  induction xs with
  | nil =>
    simp only [List.length_nil, List.replicate_zero, List.nil_append]
    cases mscatter m xs' ss <;> rfl
  | cons x xs ih =>
    simp only [List.length_cons, List.replicate_succ, List.cons_append, mscatter]
    rw [ih]
    cases mscatter m xs' ss <;> rfl

/-- Rows chosen by the mask. -/
def mixRows (mask : List Bool) (t s : List (List α)) : List (List α) :=
  match mask, t, s with
  | b :: m, r :: t, r' :: s => (if b then r' else r) :: mixRows m t s
  | _, _, _ => []

theorem mixRows_get (mask : List Bool) (t s : List (List α)) (ht : t.length = mask.length)
    (hs : s.length = mask.length) (i : ℕ) :
    (mixRows mask t s)[i]? = if mask[i]? = some true then s[i]? else t[i]? := by
  induction mask generalizing t s i with
  | nil =>
    have : t = [] := by simpa using ht
    subst this
    simp [mixRows]
  | cons b m ih =>
    cases t with
    | nil => simp at ht
    | cons r t =>
      cases s with
      | nil => simp at hs
      | cons r' s =>
        cases i with
        | zero => cases b <;> simp [mixRows]
        | succ i => simpa [mixRows] using ih t s (by simpa using ht) (by simpa using hs) i

theorem mscatter_rows (k : ℕ) (mask : List Bool) (t s : List (List α)) (ht : t.length = mask.length)
    (hs : s.length = mask.length) (htk : ∀ r ∈ t, r.length = k) (hsk : ∀ r ∈ s, r.length = k) :
    mscatter (mask.flatMap fun b => List.replicate k b) t.flatten (maskRows mask s).flatten =
      .ok (mixRows mask t s).flatten := by
  induction mask generalizing t s with
  | nil =>
    have h1 : t = [] := by simpa using ht
    subst h1
    simp [mixRows, mscatter]
  | cons b m ih =>
    cases t with
    | nil => simp at ht
    | cons r t =>
      cases s with
      | nil => simp at hs
      | cons r' s =>
        have hr : r.length = k := htk r (by simp)
        have hr' : r'.length = k := hsk r' (by simp)
        have ih := ih t s (by simpa using ht) (by simpa using hs) (fun r h => htk r (by simp [h]))
          fun r h => hsk r (by simp [h])
        rw [List.flatMap_cons, List.flatten_cons]
        cases b
        · simp only [maskRows, mixRows, Bool.false_eq_true, if_false, List.flatten_cons]
          rw [← hr, mscatter_false, hr, ih]
          rfl
        · simp only [maskRows, mixRows, if_true, List.flatten_cons]
          rw [← hr, mscatter_true _ _ (hr.trans hr'.symm), hr, ih]
          rfl

theorem flatten_get (k : ℕ) (rows : List (List α)) (h : ∀ r ∈ rows, r.length = k) (i j : ℕ) (hj : j < k) :
    rows.flatten[i * k + j]? = (rows[i]?).bind fun r => r[j]? := by
  induction rows generalizing i with
  | nil => simp
  | cons r rows ih =>
    have hr : r.length = k := h r (by simp)
    rw [List.flatten_cons]
    cases i with
    | zero =>
      rw [List.getElem?_append_left (by omega)]
      simp
    | succ i =>
      rw [List.getElem?_append_right (by rw [hr, Nat.succ_mul]; omega)]
      rw [show (i + 1) * k + j - r.length = i * k + j by rw [hr, Nat.succ_mul]; omega,
        ih (fun r h' => h r (by simp [h'])) i]
      simp

theorem chunk_mem_length {n k : ℕ} {l : List α} (h : l.length = n * k) : ∀ r ∈ chunk n k l, r.length = k := by
  rw [chunk_eq]
  intro r hr
  obtain ⟨i, hi, rfl⟩ := List.mem_map.1 hr
  exact chunk_row_length h (List.mem_range.1 hi)

theorem chunk_entry {n k : ℕ} {l : List α} (h : l.length = n * k) (i j : ℕ) (hj : j < k) :
    ((chunk n k l)[i]?).bind (fun r => r[j]?) = l[i * k + j]? := by
  rw [← flatten_get k _ (chunk_mem_length h) i j hj, chunk_flatten n k l h]

/-- The entries after an exchange. -/
def mixData (k : ℕ) (mask : List Bool) (t s : List α) : List α :=
  (mixRows mask (chunk mask.length k t) (chunk mask.length k s)).flatten

theorem mixRows_mem {mask : List Bool} {t s : List (List α)} {k : ℕ} (htk : ∀ r ∈ t, r.length = k)
    (hsk : ∀ r ∈ s, r.length = k) : ∀ r ∈ mixRows mask t s, r.length = k := by
  induction mask generalizing t s with
  | nil => simp [mixRows]
  | cons b m ih =>
    cases t with
    | nil => simp [mixRows]
    | cons r t =>
      cases s with
      | nil => simp [mixRows]
      | cons r' s =>
        intro q hq
        rw [mixRows, List.mem_cons] at hq
        rcases hq with rfl | hq
        · cases b
          · exact htk _ (by simp)
          · exact hsk _ (by simp)
        · exact ih (fun r h => htk r (by simp [h])) (fun r h => hsk r (by simp [h])) q hq

theorem mixRows_length (mask : List Bool) (t s : List (List α)) (ht : t.length = mask.length)
    (hs : s.length = mask.length) : (mixRows mask t s).length = mask.length := by
  induction mask generalizing t s with
  | nil => simp [mixRows]
  | cons b m ih =>
    cases t with
    | nil => simp at ht
    | cons r t =>
      cases s with
      | nil => simp at hs
      | cons r' s => simp [mixRows, ih t s (by simpa using ht) (by simpa using hs)]

theorem mixData_length {k : ℕ} {mask : List Bool} {t s : List α} (ht : t.length = mask.length * k)
    (hs : s.length = mask.length * k) : (mixData k mask t s).length = mask.length * k := by
  unfold mixData
  rw [flatten_length k _ (mixRows_mem (chunk_mem_length ht) (chunk_mem_length hs)),
    mixRows_length _ _ _ (chunk_length _ _ _) (chunk_length _ _ _)]

theorem mixData_get {k : ℕ} {mask : List Bool} {t s : List α} (ht : t.length = mask.length * k)
    (hs : s.length = mask.length * k) (i j : ℕ) (hj : j < k) :
    (mixData k mask t s)[i * k + j]? = if mask[i]? = some true then s[i * k + j]? else t[i * k + j]? := by
  unfold mixData
  rw [flatten_get k _ (mixRows_mem (chunk_mem_length ht) (chunk_mem_length hs)) i j hj,
    mixRows_get _ _ _ (chunk_length _ _ _) (chunk_length _ _ _)]
  split_ifs
  · exact chunk_entry hs i j hj
  · exact chunk_entry ht i j hj

theorem exchangeGo_ok {N : ℕ} {w : World α} {c o : Context α} {es es' : List (Entry α)}
    (h : Holds w c [N] es) (h' : Holds w o [N] es')
    (partner : Entry α → Entry α) (hpart : ∀ e ∈ es, partner e ∈ es' ∧ (partner e).name = e.name ∧
      (partner e).prior.eventShape.prod = e.prior.eventShape.prod)
    (hsep : ∀ e ∈ es, ∀ e' ∈ es', w.obj e.pid = w.obj e'.pid → e.name = e'.name)
    (mask : List Bool) (hm : mask.length = N) (V : Entry α → List α)
    (post : List (Entry α)) (hsub : ∀ e ∈ post, e ∈ es) (hnd : (post.map Entry.name).Nodup)
    (hV : ∀ e ∈ post, V e = mixData e.prior.eventShape.prod mask (w.tensor e.pid).data
      (w.tensor (partner e).pid).data) :
    exchangeGo o mask w (post.map fun e => (e.name, e.pid)) = (writeAll w V post, .ok ()) := by
  induction post generalizing w with
  | nil => rfl
  | cons e post ih =>
    have he : e ∈ es := hsub e (by simp)
    obtain ⟨hp1, hp2, hp3⟩ := hpart e he
    have hget : o.getParameter e.name = .ok (partner e).pid := by
      unfold getParameter
      rw [← hp2, h'.get_param hp1]
    have hts : (w.tensor e.pid).data.length = mask.length * e.prior.eventShape.prod := by
      rw [h.size' he, hm]; simp
    have hss : (w.tensor (partner e).pid).data.length = mask.length * e.prior.eventShape.prod := by
      rw [h'.size' hp1, hm, hp3]; simp
    have hsh := h.shape e he
    have hsh' := h'.shape _ hp1
    have hsc := mscatter_rows e.prior.eventShape.prod mask
      (chunk mask.length e.prior.eventShape.prod (w.tensor e.pid).data)
      (chunk mask.length e.prior.eventShape.prod (w.tensor (partner e).pid).data)
      (chunk_length _ _ _) (chunk_length _ _ _) (chunk_mem_length hts) (chunk_mem_length hss)
    rw [chunk_flatten _ _ _ hts] at hsc
    have hlenV : (V e).length = (w.tensor e.pid).data.length := by
      rw [hV e (by simp), mixData_length hts hss, hts]
    simp only [List.map_cons, List.nodup_cons] at hnd
    have ih := @ih (w.write e.pid (V e)) (h.write hlenV) (h'.write hlenV) hsep
      (fun e he => hsub e (by simp [he])) hnd.2 (by
        intro e' he'
        have hne : e'.name ≠ e.name := fun hh => hnd.1 (hh ▸ List.mem_map.2 ⟨e', he', rfl⟩)
        have he's := hsub e' (by simp [he'])
        have ho : w.obj e'.pid ≠ w.obj e.pid := fun hh => hne (congrArg Entry.name (h.obj_inj he's he hh))
        have ho' : w.obj (partner e').pid ≠ w.obj e.pid := fun hh =>
          hne ((hpart e' he's).2.1.symm.trans (hsep e he _ (hpart e' he's).1 hh.symm).symm)
        rw [tensor_write_ne _ _ ho, tensor_write_ne _ _ ho']
        exact hV e' (by simp [he']))
    have : writeAll w V (e :: post) = writeAll (w.write e.pid (V e)) V post := rfl
    rw [this, ← ih]
    simp only [List.map_cons, exchangeGo, hget]
    rw [if_neg (by rw [hsh, hsh']; simp [hm])]
    rw [show (w.tensor e.pid).shape.tail.prod = e.prior.eventShape.prod by rw [hsh]; rfl,
      show (w.tensor (partner e).pid).shape.tail.prod = e.prior.eventShape.prod by rw [hsh', ← hp3]; rfl, hsc]
    have hv : V e = (mixRows mask (chunk mask.length e.prior.eventShape.prod (w.tensor e.pid).data)
        (chunk mask.length e.prior.eventShape.prod (w.tensor (partner e).pid).data)).flatten := hV e (by simp)
    rw [hv]

theorem gather_ok (rows : List (List α)) (idx : List ℕ) (h : ∀ i ∈ idx, i < rows.length) :
    gather rows idx = .ok (idx.map fun i => (rows[i]?).getD []) := by
  induction idx with
  | nil => rfl
  | cons i idx ih =>
    have hi := h i (by simp)
    rw [gather, ih fun i hi => h i (by simp [hi]), List.getElem?_eq_getElem hi]
    simp [List.getElem?_eq_getElem hi]

/-- The entries after resampling. -/
def gatherData (N k : ℕ) (idx : List ℕ) (t : List α) : List α :=
  (idx.map fun i => ((chunk N k t)[i]?).getD []).flatten

theorem gather_mem {N k : ℕ} {idx : List ℕ} (hi : ∀ i ∈ idx, i < N) {t : List α} (ht : t.length = N * k) :
    ∀ r ∈ idx.map fun i => ((chunk N k t)[i]?).getD [], r.length = k := by
  intro r hr
  obtain ⟨i, hmem, rfl⟩ := List.mem_map.1 hr
  rw [chunk_get _ _ _ _ (hi i hmem)]
  exact chunk_row_length ht (hi i hmem)

theorem gatherData_length {N k : ℕ} {idx : List ℕ} (hi : ∀ i ∈ idx, i < N) {t : List α}
    (ht : t.length = N * k) : (gatherData N k idx t).length = idx.length * k := by
  unfold gatherData
  rw [flatten_length k _ (gather_mem hi ht), List.length_map]

theorem gatherData_get {N k : ℕ} {idx : List ℕ} (hi : ∀ i ∈ idx, i < N) {t : List α}
    (ht : t.length = N * k) (i a j : ℕ) (ha : idx[i]? = some a) (hj : j < k) :
    (gatherData N k idx t)[i * k + j]? = t[a * k + j]? := by
  unfold gatherData
  rw [flatten_get k _ (gather_mem hi ht) i j hj, List.getElem?_map, ha, ← chunk_entry ht a j hj]
  have hal := hi a (List.mem_of_getElem? ha)
  simp [chunk_get _ _ _ _ hal]

theorem resampleGo_ok {N : ℕ} {w : World α} {c : Context α} {es : List (Entry α)}
    (h : Holds w c [N] es) (idx : List ℕ) (hl : idx.length = N) (hi : ∀ i ∈ idx, i < N)
    (V : Entry α → List α) (post : List (Entry α)) (hsub : ∀ e ∈ post, e ∈ es)
    (hnd : (post.map Entry.name).Nodup)
    (hV : ∀ e ∈ post, V e = gatherData N e.prior.eventShape.prod idx (w.tensor e.pid).data) :
    resampleGo idx w (post.map fun e => (e.name, e.pid)) = (writeAll w V post, .ok ()) := by
  induction post generalizing w with
  | nil => rfl
  | cons e post ih =>
    have he : e ∈ es := hsub e (by simp)
    have hts : (w.tensor e.pid).data.length = N * e.prior.eventShape.prod := by
      rw [h.size' he]; simp
    have hsh := h.shape e he
    have hlenV : (V e).length = (w.tensor e.pid).data.length := by
      rw [hV e (by simp), gatherData_length hi hts, hts, hl]
    simp only [List.map_cons, List.nodup_cons] at hnd
    have ih := @ih (w.write e.pid (V e)) (h.write hlenV)
      (fun e he => hsub e (by simp [he])) hnd.2 (by
        intro e' he'
        have hne : e'.name ≠ e.name := fun hh => hnd.1 (hh ▸ List.mem_map.2 ⟨e', he', rfl⟩)
        have he's := hsub e' (by simp [he'])
        have ho : w.obj e'.pid ≠ w.obj e.pid := fun hh => hne (congrArg Entry.name (h.obj_inj he's he hh))
        rw [tensor_write_ne _ _ ho]
        exact hV e' (by simp [he']))
    have : writeAll w V (e :: post) = writeAll (w.write e.pid (V e)) V post := rfl
    rw [this, ← ih]
    simp only [List.map_cons, resampleGo]
    rw [show (w.tensor e.pid).shape.tail.prod = e.prior.eventShape.prod by rw [hsh]; rfl,
      show (w.tensor e.pid).shape.headD 1 = N by rw [hsh]; rfl,
      gather_ok _ _ (by rw [chunk_length]; exact hi)]
    simp only [hl, ne_eq, not_true, if_false]
    have hv : V e = (idx.map fun i => ((chunk N e.prior.eventShape.prod (w.tensor e.pid).data)[i]?).getD
        []).flatten := hV e (by simp)
    rw [hv]

/-! ### Saving, loading, copying -/

theorem Num.eq_self {x : Num} (h : x ≠ .nan) : x.eq x = true := by
  cases x <;> simp_all [Num.eq]

theorem Num.eq_true {x y : Num} (h : x.eq y = true) : x = y := by
  cases x <;> cases y <;> simp_all [Num.eq]

theorem broadcast_self (v : List Num) : broadcast v v = .ok (v.zip v) := by
  simp [broadcast]

theorem zip_self_mem {β : Type} {v : List β} {p : β × β} (h : p ∈ v.zip v) : p.1 = p.2 ∧ p.1 ∈ v := by
  induction v with
  | nil => simp at h
  | cons a v ih =>
    rw [List.zip_cons_cons, List.mem_cons] at h
    rcases h with rfl | h
    · simp
    · have := ih h
      exact ⟨this.1, by simp [this.2]⟩

theorem checkArgs_same (args rest : List (List Char × List Num)) (hnd : (args.map Prod.fst).Nodup)
    (hsub : ∀ a ∈ rest, a ∈ args) (hn : ∀ a ∈ args, Num.nan ∉ a.2) : checkArgs args rest = .ok () := by
  induction rest with
  | nil => rfl
  | cons a rest ih =>
    obtain ⟨k, v⟩ := a
    have ha := hsub (k, v) (by simp)
    rw [checkArgs, dictGet_of_mem hnd ha]
    simp only [broadcast_self]
    rw [if_pos, ih fun a ha => hsub a (by simp [ha])]
    rw [List.all_eq_true]
    intro p hp
    obtain ⟨h1, h2⟩ := zip_self_mem hp
    rw [← h1]
    exact Num.eq_self fun h => hn _ ha (h ▸ h2)

/-- Repointing all parameters of a list. -/
def pointAll (w : World α) (A : Entry α → ℕ) (es : List (Entry α)) : World α :=
  es.foldl (fun w e => w.setData e.pid (A e)) w

theorem pointAll_fields (w : World α) (A : Entry α → ℕ) (es : List (Entry α)) :
    (pointAll w A es).cell = w.cell ∧ (pointAll w A es).nc = w.nc ∧ (pointAll w A es).no = w.no := by
  induction es generalizing w with
  | nil => exact ⟨rfl, rfl, rfl⟩
  | cons e es ih => exact ih (w.setData e.pid (A e))

theorem pointAll_obj_ne (w : World α) (A : Entry α → ℕ) (es : List (Entry α)) {p : ℕ}
    (hp : ∀ e ∈ es, e.pid ≠ p) : (pointAll w A es).obj p = w.obj p := by
  induction es generalizing w with
  | nil => rfl
  | cons e es ih =>
    show (pointAll (w.setData e.pid (A e)) A es).obj p = _
    rw [ih _ fun e he => hp e (by simp [he])]
    simp [World.setData, Function.update_of_ne (hp e (by simp)).symm]

theorem pointAll_obj (w : World α) (A : Entry α → ℕ) (es : List (Entry α))
    (hn : (es.map Entry.pid).Nodup) {e : Entry α} (he : e ∈ es) : (pointAll w A es).obj e.pid = A e := by
  induction es generalizing w with
  | nil => simp at he
  | cons e' es ih =>
    simp only [List.map_cons, List.nodup_cons, List.mem_map, not_exists, not_and] at hn
    show (pointAll (w.setData e'.pid (A e')) A es).obj e.pid = _
    rcases List.mem_cons.1 he with rfl | he
    · rw [pointAll_obj_ne _ _ _ fun e'' he'' => hn.1 e'' he'']
      simp [World.setData]
    · exact ih _ hn.2 he

theorem _root_.Verif.Spec.Holds.pids {w : World α} {c : Context α} {b : List ℕ} {es : List (Entry α)}
    (h : Holds w c b es) : (es.map Entry.pid).Nodup := by
  have := h.storage
  rw [show (fun e : Entry α => w.obj e.pid) = w.obj ∘ Entry.pid from rfl, ← List.map_map] at this
  exact List.Nodup.of_map _ this

theorem loadGo_ok {w : World α} {c : Context α} {b : List ℕ} {es : List (Entry α)}
    (h : Holds w c b es) (s : Saved) (A : Entry α → ℕ) (post : List (Entry α)) (hsub : ∀ e ∈ post, e ∈ es)
    (hA : ∀ e ∈ es, dictGet s.params e.name = some (A e))
    (hpr : ∀ e ∈ es, dictGet s.priors e.name = some e.prior.dist.args)
    (hargs : ∀ e ∈ es, (e.prior.dist.args.map Prod.fst).Nodup ∧ ∀ a ∈ e.prior.dist.args, Num.nan ∉ a.2)
    (w' : World α) :
    loadGo c s w' (post.map fun e => (e.name, e.prior)) = (pointAll w' A post, .ok ()) := by
  induction post generalizing w' with
  | nil => rfl
  | cons e post ih =>
    have he : e ∈ es := hsub e (by simp)
    obtain ⟨h1, h2⟩ := hargs e he
    have hc := checkArgs_same _ e.prior.dist.args h1 (fun a ha => ha) h2
    have hg : c.getParameter e.name = .ok e.pid := by
      unfold getParameter; rw [h.get_param he]
    have ih := ih (fun e he => hsub e (by simp [he])) (w'.setData e.pid (A e))
    simp only [List.map_cons, loadGo, hpr e he, hg, hA e he, ih]
    cases hargs : e.prior.dist.args with
    | nil => rfl
    | cons a as =>
      rw [hargs] at hc
      simp only [hc]
      rfl

theorem load_ok {w : World α} {c : Context α} {b : List ℕ} {es : List (Entry α)}
    (h : Holds w c b es) (s : Saved) (A : Entry α → ℕ)
    (hA : ∀ e ∈ es, dictGet s.params e.name = some (A e))
    (hnames : ∀ e ∈ s.params, e.1 ∈ es.map Entry.name)
    (hpr : ∀ e ∈ es, dictGet s.priors e.name = some e.prior.dist.args)
    (hargs : ∀ e ∈ es, (e.prior.dist.args.map Prod.fst).Nodup ∧ ∀ a ∈ e.prior.dist.args, Num.nan ∉ a.2)
    (w' : World α) : load w' c s = (pointAll w' A es, .ok ()) := by
  unfold load
  rw [if_pos, h.priors]
  · exact loadGo_ok h s A es (fun e he => he) hA hpr hargs w'
  · constructor
    · intro e he
      rw [h.params] at he
      obtain ⟨e', he', rfl⟩ := List.mem_map.1 he
      rw [← dictGet_isSome, hA e' he']
      rfl
    · intro e he
      rw [h.params, List.map_map]
      exact hnames e he

theorem reread_spec (l : List (List Char × ℕ)) (w : World α) (hl : ∀ e ∈ l, e.2 < w.nc) :
    (reread w l).1.obj = w.obj ∧ (reread w l).1.no = w.no ∧ w.nc ≤ (reread w l).1.nc ∧
      (∀ a < w.nc, (reread w l).1.cell a = w.cell a) ∧
      (reread w l).2.map Prod.fst = l.map Prod.fst ∧
      (∀ e ∈ (reread w l).2, w.nc ≤ e.2 ∧ e.2 < (reread w l).1.nc) ∧
      ((reread w l).2.map Prod.snd).Nodup ∧
      ∀ n, (dictGet (reread w l).2 n).map (reread w l).1.cell = (dictGet l n).map w.cell := by
  induction l generalizing w with
  | nil => simp [reread, dictGet]
  | cons e l ih =>
    obtain ⟨k, a⟩ := e
    have ha : a < w.nc := hl (k, a) (by simp)
    have hl' : ∀ e ∈ l, e.2 < (w.alloc (w.cell a)).nc := fun e he =>
      Nat.lt_succ_of_lt (hl e (by simp [he]))
    obtain ⟨h1, h2, h3, h4, h5, h6, h7, h8⟩ := ih (w.alloc (w.cell a)) hl'
    have hnc : (w.alloc (w.cell a)).nc = w.nc + 1 := rfl
    have hcell : ∀ b < w.nc, (w.alloc (w.cell a)).cell b = w.cell b := by
      intro b hb
      simp [World.alloc, Function.update_of_ne hb.ne]
    have hself : (w.alloc (w.cell a)).cell w.nc = w.cell a := by simp [World.alloc]
    simp only [reread]
    refine ⟨h1, h2, by omega, ?_, by simp [h5], ?_, ?_, ?_⟩
    · intro b hb
      rw [h4 b (by omega), hcell b hb]
    · intro e he
      rcases List.mem_cons.1 he with rfl | he
      · exact ⟨le_rfl, by omega⟩
      · have := h6 e he
        exact ⟨by omega, this.2⟩
    · rw [List.map_cons, List.nodup_cons]
      refine ⟨?_, h7⟩
      intro hm
      obtain ⟨e, he, he'⟩ := List.mem_map.1 hm
      have := (h6 e he).1
      omega
    · intro n
      unfold dictGet
      split_ifs with hk
      · simp only [Option.map_some]
        rw [h4 _ (by omega), hself]
      · rw [h8 n]
        cases hd : dictGet l n with
        | none => rfl
        | some b =>
          have hb : b < w.nc := by
            have : (n, b) ∈ l := by
              clear ih h1 h2 h3 h4 h5 h6 h7 h8 hl hl'
              induction l with
              | nil => simp [dictGet] at hd
              | cons e l ih =>
                obtain ⟨k', v⟩ := e
                unfold dictGet at hd
                split_ifs at hd with hh
                · cases hd; subst hh; simp
                · simp [ih hd]
            exact hl (n, b) (by simp [this])
          simp [hcell b hb]

theorem applyTemp_fun {w : World α} {c : Context α} {b : List ℕ} {es : List (Entry α)}
    (h : Holds w c b es) (f : Tens α → Tens α) (b' : Entry α → List ℕ) (post : List (Entry α)) (hsub : ∀ e ∈ post, e ∈ es)
    (hb : ∀ e ∈ post, (if e.prior.eventShape.length ≤ (f (w.tensor e.pid)).shape.length then
        (f (w.tensor e.pid)).shape.take ((f (w.tensor e.pid)).shape.length - e.prior.eventShape.length)
      else (f (w.tensor e.pid)).shape.take ((f (w.tensor e.pid)).shape.length -
        (e.prior.eventShape.length - (f (w.tensor e.pid)).shape.length))) = b' e) :
    applyTemp w c f (post.map fun e => (e.name, e.prior)) =
      .ok (post.map fun e => (b' e, e.name, e.prior, f (w.tensor e.pid))) := by
  induction post with
  | nil => rfl
  | cons e post ih =>
    have he : e ∈ es := hsub e (by simp)
    have hg : c.getParameter e.name = .ok e.pid := by
      unfold getParameter; rw [h.get_param he]
    simp only [List.map_cons, applyTemp, hg, h.get_shape he, ih (fun e he => hsub e (by simp [he])) fun e he => hb e (by simp [he])]
    rw [hb e (by simp)]

theorem broadcastable_self (s : List ℕ) : broadcastable s s = true := by
  induction s with
  | nil => rfl
  | cons a s ih => simp [broadcastable, ih]

theorem broadcastData_self (s : List ℕ) (d : List α) (h : d.length = s.prod) : broadcastData s s d = d := by
  induction s generalizing d with
  | nil => rfl
  | cons a s ih =>
    rw [List.prod_cons] at h
    rw [broadcastData, if_pos rfl]
    have e : (List.range a).flatMap (fun i => broadcastData s s ((d.drop (i * s.prod)).take s.prod))
        = (List.range a).flatMap fun i => (d.drop (i * s.prod)).take s.prod := by
      refine List.flatMap_congr fun i hi => ih _ ?_
      have hi := List.mem_range.1 hi
      have : (i + 1) * s.prod ≤ a * s.prod := Nat.mul_le_mul_right _ hi
      rw [Nat.add_mul, one_mul] at this
      simp [h]
      omega
    rw [e, List.flatMap_def, ← chunk_eq, chunk_flatten _ _ _ h]

theorem broadcastable_ones (t : List ℕ) : broadcastable (List.replicate t.length 1) t = true := by
  induction t with
  | nil => rfl
  | cons a t ih => simp [broadcastable, List.replicate_succ, ih]

theorem broadcastData_ones (t : List ℕ) (v : α) : broadcastData (List.replicate t.length 1) t [v] = List.replicate t.prod v := by
  induction t with
  | nil => rfl
  | cons a t ih =>
    have h1 : (List.replicate t.length 1).prod = 1 := by simp
    rw [List.length_cons, List.replicate_succ, broadcastData, h1]
    have e : (List.range 1).flatMap (fun i => broadcastData (List.replicate t.length 1) t (([v].drop (i * 1)).take 1))
        = List.replicate t.prod v := by
      simpa using ih
    rw [e]
    split_ifs with h
    · simp [← h]
    · simp

/-- Copying a tensor of the same shape. -/
theorem copyInto_same (t : Tens α) (h : t.data.length = t.shape.prod) : copyInto t t.shape = some t.data := by
  unfold copyInto
  simp [broadcastable_self, broadcastData_self _ _ h]

/-- Copying a number. -/
theorem copyInto_scalar (v : α) (shape : List ℕ) : copyInto ⟨[], [v]⟩ shape = some (List.replicate shape.prod v) := by
  unfold copyInto
  simp [broadcastable_ones, broadcastData_ones]

/-- Same name and prior, and a given tensor. -/
def SameAs (T : Entry α → Tens α) (w' : World α) (e e' : Entry α) : Prop :=
  e'.name = e.name ∧ e'.prior = e.prior ∧ e'.u = e.u ∧ w'.tensor e'.pid = T e

/-- Same name, prior and tensor. -/
def Same (w w' : World α) (e e' : Entry α) : Prop :=
  e'.name = e.name ∧ e'.prior = e.prior ∧ e'.u = e.u ∧ w'.tensor e'.pid = w.tensor e.pid

theorem applyFill_fun {w₀ : World α} {b : List ℕ} {es : List (Entry α)}
    (hnm : (es.map Entry.name).Nodup) (hub : ∀ e ∈ es, e.prior.batchShape = [])
    (hbj : ∀ e ∈ es, e.prior.uEventShape = some e.u) (T : Entry α → Tens α) (D : Entry α → List α)
    (hD : ∀ e ∈ es, copyInto (T e) (b ++ e.prior.eventShape) = some (D e))
    (hDl : ∀ e ∈ es, (D e).length = (b ++ e.prior.eventShape).prod)
    (draw : List Char → ℕ → α) (pre post : List (Entry α)) (hes : pre ++ post = es)
    (w : World α) (c : Context α) (pre' : List (Entry α)) (h : Holds w c b pre')
    (hv : c.verify = true) (hnc : w₀.nc ≤ w.nc) (hno : w₀.no ≤ w.no)
    (hobj : ∀ q < w₀.no, w.obj q = w₀.obj q) (hcell : ∀ a < w₀.nc, w.cell a = w₀.cell a)
    (hrel : List.Forall₂ (SameAs (fun e => ⟨b ++ e.prior.eventShape, D e⟩) w) pre pre')
    (hfresh : ∀ e ∈ pre', w₀.no ≤ e.pid ∧ w₀.nc ≤ w.obj e.pid) :
    ∃ w' c' es', applyFill draw w c (post.map fun e => (b, e.name, e.prior, T e)) =
        (w', .ok c') ∧ Holds w' c' b es' ∧ c'.verify = true ∧
      List.Forall₂ (SameAs (fun e => ⟨b ++ e.prior.eventShape, D e⟩) w') es es' ∧
      (∀ e ∈ es', w₀.no ≤ e.pid ∧ w₀.nc ≤ w'.obj e.pid) ∧ w₀.nc ≤ w'.nc ∧ w₀.no ≤ w'.no ∧
      (∀ q < w₀.no, w'.obj q = w₀.obj q) ∧ (∀ a < w₀.nc, w'.cell a = w₀.cell a) := by
  induction post generalizing w c pre pre' with
  | nil =>
    have : pre = es := by simpa using hes
    subst this
    exact ⟨w, c, pre', rfl, h, hv, hrel, hfresh, hnc, hno, hobj, hcell⟩
  | cons e post ih =>
    have he : e ∈ es := by rw [← hes]; simp
    have hnames : pre'.map Entry.name = pre.map Entry.name := by
      clear ih hes h hfresh
      induction hrel with
      | nil => rfl
      | cons hh _ ih => simp [ih, hh.1]
    have hnn : e.name ∉ pre'.map Entry.name := by
      rw [hnames]
      have := hnm
      rw [← hes, List.map_append, List.map_cons, List.nodup_append] at this
      intro hm
      exact this.2.2 _ hm _ (by simp) rfl
    obtain ⟨w1, c1, hn, h1, hv1, hno1, hnc1, ho1, hc1, hob1, ht1⟩ :=
      h.named hnn (hub e he) (hbj e he) (draw e.name)
    have hlen : (w1.tensor w.no).data.length = (D e).length := by
      rw [ht1, hDl e he]; simp
    have hshape : (w1.tensor w.no).shape = b ++ e.prior.eventShape := by
      rw [ht1]
    have hne : ∀ e' ∈ pre', w1.obj e'.pid ≠ w1.obj w.no := by
      intro e' he'
      rw [hob1, ho1 _ (h.pid_lt e' he')]
      exact (h.cell_lt e' he').ne
    have hold : ∀ e' ∈ pre', w1.tensor e'.pid = w.tensor e'.pid := by
      intro e' he'
      rw [World.tensor, ho1 _ (h.pid_lt e' he'), hc1 _ (h.cell_lt e' he')]
      rfl
    have key := ih (pre ++ [e]) (by simpa using hes) (w1.write w.no (D e)) c1
      (pre' ++ [⟨e.name, e.prior, e.u, w.no⟩])
      (h1.write hlen.symm) (hv1.trans hv) (show w₀.nc ≤ w1.nc by omega) (show w₀.no ≤ w1.no by omega)
      (fun q hq => (ho1 q (by omega)).trans (hobj q hq))
      (by
        intro a ha
        rw [cell_write_ne _ _ (by rw [hob1]; omega), hc1 a (by omega), hcell a ha])
      (by
        apply List.rel_append
        · clear ih hes hnames hnn hfresh
          have : ∀ e' ∈ pre', (w1.write w.no (D e)).tensor e'.pid = w.tensor e'.pid :=
            fun e' he' => by rw [tensor_write_ne _ _ (hne e' he'), hold e' he']
          clear h1 hne hold h
          induction hrel with
          | nil => exact List.Forall₂.nil
          | cons hh _ ih =>
            refine List.Forall₂.cons ⟨hh.1, hh.2.1, hh.2.2.1, ?_⟩ (ih fun e' he' => this e' (by simp [he']))
            rw [this _ (by simp)]
            exact hh.2.2.2
        · refine List.Forall₂.cons ⟨rfl, rfl, rfl, ?_⟩ List.Forall₂.nil
          show (w1.write w.no (D e)).tensor w.no = _
          rw [tensor_write_self, hshape])
      (by
        intro e' he'
        rcases List.mem_append.1 he' with he' | he'
        · have := hfresh e' he'
          exact ⟨this.1, by show w₀.nc ≤ w1.obj e'.pid; rw [ho1 _ (h.pid_lt e' he')]; exact this.2⟩
        · simp only [List.mem_singleton] at he'
          subst he'
          exact ⟨hno, by show w₀.nc ≤ w1.obj w.no; rw [hob1]; exact hnc⟩)
    obtain ⟨w', c', es', hf, rest⟩ := key
    refine ⟨w', c', es', ?_, rest⟩
    rw [List.map_cons, applyFill, hn]
    simp only [hshape, hD e he]
    exact hf

/-- `apply_fun` with a function whose results have one common batch shape. -/
theorem applyFun_ok {w : World α} {c : Context α} {b₀ b : List ℕ} {es : List (Entry α)}
    (h : Holds w c b₀ es) (hne : es ≠ []) (f : Tens α → Tens α) (D : Entry α → List α)
    (hb : ∀ e ∈ es, (if e.prior.eventShape.length ≤ (f (w.tensor e.pid)).shape.length then
        (f (w.tensor e.pid)).shape.take ((f (w.tensor e.pid)).shape.length - e.prior.eventShape.length)
      else (f (w.tensor e.pid)).shape.take ((f (w.tensor e.pid)).shape.length -
        (e.prior.eventShape.length - (f (w.tensor e.pid)).shape.length))) = b)
    (hD : ∀ e ∈ es, copyInto (f (w.tensor e.pid)) (b ++ e.prior.eventShape) = some (D e))
    (hDl : ∀ e ∈ es, (D e).length = (b ++ e.prior.eventShape).prod) (draw : List Char → ℕ → α) :
    ∃ w' c' es', applyFun w c f draw = (w', .ok c') ∧ Holds w' c' b es' ∧ c'.verify = true ∧
      List.Forall₂ (SameAs (fun e => ⟨b ++ e.prior.eventShape, D e⟩) w') es es' ∧
      (∀ e ∈ es', w.no ≤ e.pid ∧ w.nc ≤ w'.obj e.pid) ∧ w.nc ≤ w'.nc ∧ w.no ≤ w'.no ∧
      (∀ q < w.no, w'.obj q = w.obj q) ∧ (∀ a < w.nc, w'.cell a = w.cell a) := by
  obtain ⟨w', c', es', hf, rest⟩ := applyFill_fun h.names h.unbatched h.bijection (fun e => f (w.tensor e.pid)) D hD hDl draw [] es rfl w { batch := some b } []
    (holds_empty w b) rfl le_rfl le_rfl (fun _ _ => rfl) (fun _ _ => rfl) List.Forall₂.nil (by simp)
  refine ⟨w', c', es', ?_, rest⟩
  unfold applyFun
  rw [h.priors, applyTemp_fun h f (fun _ => b) es (fun e he => he) hb]
  cases es with
  | nil => exact absurd rfl hne
  | cons e es =>
    simp only [List.map_cons]
    rw [if_pos]
    · exact hf
    · simp

theorem copy_ok {w : World α} {c : Context α} {b : List ℕ} {es : List (Entry α)}
    (h : Holds w c b es) (hne : es ≠ []) (draw : List Char → ℕ → α) :
    ∃ w' c' es', copy w c draw = (w', .ok c') ∧ Holds w' c' b es' ∧ c'.verify = true ∧
      List.Forall₂ (Same w w') es es' ∧
      (∀ e ∈ es', w.no ≤ e.pid ∧ w.nc ≤ w'.obj e.pid) ∧ w.nc ≤ w'.nc ∧ w.no ≤ w'.no ∧
      (∀ q < w.no, w'.obj q = w.obj q) ∧ (∀ a < w.nc, w'.cell a = w.cell a) := by
  obtain ⟨w', c', es', h1, h2, h3, h4, rest⟩ := applyFun_ok h hne (fun t => t) (fun e => (w.tensor e.pid).data)
    (fun e he => by rw [h.shape e he]; simp)
    (fun e he => by rw [← h.shape e he]; exact copyInto_same _ (by rw [h.shape e he]; exact h.size e he))
    (fun e he => h.size e he) draw
  refine ⟨w', c', es', h1, h2, h3, ?_, rest⟩
  have key : ∀ e ∈ es, ∀ e', SameAs (fun e => ⟨b ++ e.prior.eventShape, (w.tensor e.pid).data⟩) w' e e' → Same w w' e e' := by
    intro e he e' hs
    refine ⟨hs.1, hs.2.1, hs.2.2.1, hs.2.2.2.trans ?_⟩
    dsimp only
    rw [← h.shape e he]
  clear h h1 h2 h3 rest hne
  induction h4 with
  | nil => exact List.Forall₂.nil
  | cons hh _ ih => exact List.Forall₂.cons (key _ (by simp) _ hh) (ih fun e he => key e (by simp [he]))

theorem applyFill_append (draw : List Char → ℕ → α) (l₁ l₂ : List (List ℕ × List Char × Prior α × Tens α)) (w : World α)
    (c : Context α) : applyFill draw w c (l₁ ++ l₂) = match applyFill draw w c l₁ with
      | (w', .ok c') => applyFill draw w' c' l₂
      | (w', .error e) => (w', .error e) := by
  induction l₁ generalizing w c with
  | nil => rfl
  | cons t l₁ ih =>
    obtain ⟨s, k, v, t⟩ := t
    rw [List.cons_append, applyFill, applyFill]
    split
    · rfl
    · split
      · exact ih _ _
      · rfl

/-- `apply_fun` with a function one of whose results does not fit its parameter. -/
theorem applyFun_runtime {w : World α} {c : Context α} {b₀ b : List ℕ} {es : List (Entry α)}
    (h : Holds w c b₀ es) (f : Tens α → Tens α) (D : Entry α → List α)
    (hb : ∀ e ∈ es, (if e.prior.eventShape.length ≤ (f (w.tensor e.pid)).shape.length then
        (f (w.tensor e.pid)).shape.take ((f (w.tensor e.pid)).shape.length - e.prior.eventShape.length)
      else (f (w.tensor e.pid)).shape.take ((f (w.tensor e.pid)).shape.length -
        (e.prior.eventShape.length - (f (w.tensor e.pid)).shape.length))) = b)
    (pre post : List (Entry α)) (e₀ : Entry α) (hes : es = pre ++ e₀ :: post)
    (hD : ∀ e ∈ pre, copyInto (f (w.tensor e.pid)) (b ++ e.prior.eventShape) = some (D e))
    (hDl : ∀ e ∈ pre, (D e).length = (b ++ e.prior.eventShape).prod)
    (hbad : copyInto (f (w.tensor e₀.pid)) (b ++ e₀.prior.eventShape) = none) (draw : List Char → ℕ → α) :
    ∃ w', applyFun w c f draw = (w', .error .runtime) ∧ w.nc ≤ w'.nc ∧ w.no ≤ w'.no ∧
      (∀ q < w.no, w'.obj q = w.obj q) ∧ (∀ a < w.nc, w'.cell a = w.cell a) := by
  have hnd := h.names
  rw [hes, List.map_append, List.map_cons, List.nodup_append] at hnd
  obtain ⟨w', c', es', hf, h1, -, h3, -, h5, h6, h7, h8⟩ := applyFill_fun (w₀ := w) hnd.1
    (fun e he => h.unbatched e (by simp [hes, he])) (fun e he => h.bijection e (by simp [hes, he]))
    (fun e => f (w.tensor e.pid)) D hD hDl draw [] pre rfl w { batch := some b } []
    (holds_empty w b) rfl le_rfl le_rfl (fun _ _ => rfl) (fun _ _ => rfl) List.Forall₂.nil (by simp)
  have hnames : es'.map Entry.name = pre.map Entry.name := by
    clear hf h1 hD hDl hes hnd
    induction h3 with
    | nil => rfl
    | cons hh _ ih => simp [ih, hh.1]
  have he₀ : e₀ ∈ es := by simp [hes]
  obtain ⟨w1, c1, hn, -, -, hno1, hnc1, ho1, hc1, hob1, ht1⟩ := h1.named (n := e₀.name) (p := e₀.prior) (u := e₀.u)
    (by
      rw [hnames]
      intro hm
      exact hnd.2.2 _ hm _ (by simp) rfl) (h.unbatched e₀ he₀) (h.bijection e₀ he₀) (draw e₀.name)
  refine ⟨w1, ?_, by omega, by omega, fun q hq => (ho1 q (by omega)).trans (h7 q hq),
    fun a ha => (hc1 a (by omega)).trans (h8 a ha)⟩
  unfold applyFun
  rw [h.priors, applyTemp_fun h f (fun _ => b) es (fun e he => he) hb]
  have hall : (es.map fun e => (b, e.name, e.prior, f (w.tensor e.pid))) =
      (pre.map fun e => (b, e.name, e.prior, f (w.tensor e.pid))) ++ (b, e₀.name, e₀.prior, f (w.tensor e₀.pid)) ::
        (post.map fun e => (b, e.name, e.prior, f (w.tensor e.pid))) := by simp [hes]
  have hstep : applyFill draw w { batch := some b } (es.map fun e => (b, e.name, e.prior, f (w.tensor e.pid))) =
      (w1, .error .runtime) := by
    rw [hall, applyFill_append, hf]
    dsimp only
    rw [applyFill, hn]
    dsimp only
    rw [ht1]
    dsimp only
    rw [hbad]
  cases es with
  | nil => simp at hes
  | cons e es =>
    simp only [List.map_cons] at hstep ⊢
    rw [if_pos]
    · exact hstep
    · simp

/-! #### Entries of an expanded tensor -/

theorem flatten_row_get {k : ℕ} (L : List (List α)) (hL : ∀ l ∈ L, l.length = k) {i j : ℕ} (hj : j < k) :
    L.flatten[i * k + j]? = (L[i]?).bind fun l => l[j]? := by
  induction L generalizing i with
  | nil => simp
  | cons l L ih =>
    have hl : l.length = k := hL l (by simp)
    rw [List.flatten_cons]
    cases i with
    | zero => rw [List.getElem?_append_left (by omega)]; simp
    | succ i =>
      rw [List.getElem?_append_right (by rw [hl, Nat.succ_mul]; omega), hl,
        show (i + 1) * k + j - k = i * k + j by rw [Nat.succ_mul]; omega, ih fun l hl => hL l (by simp [hl])]
      simp

theorem broadcastData_length (s t : List ℕ) (h : broadcastable s t = true) (d : List α) (hd : d.length = s.prod) :
    (broadcastData s t d).length = t.prod := by
  induction s generalizing t d with
  | nil =>
    cases t with
    | nil => simpa [broadcastData] using hd
    | cons t ts => simp [broadcastable] at h
  | cons s ss ih =>
    cases t with
    | nil => simp [broadcastable] at h
    | cons t ts =>
      rw [broadcastable, Bool.and_eq_true] at h
      rw [List.prod_cons] at hd
      have hr : ((List.range s).flatMap fun i => broadcastData ss ts ((d.drop (i * ss.prod)).take ss.prod)).length
          = s * ts.prod := by
        rw [List.length_flatMap]
        rw [List.map_congr_left (g := fun _ => ts.prod)]
        · simp
        · intro i hi
          have hi := List.mem_range.1 hi
          have : (i + 1) * ss.prod ≤ s * ss.prod := Nat.mul_le_mul_right _ hi
          rw [Nat.add_mul, one_mul] at this
          refine ih ts h.2 _ ?_
          simp [hd]
          omega
      rw [broadcastData]
      split_ifs with hst
      · rw [hr, hst, List.prod_cons]
      · have : s = 1 := by simpa [hst] using h.1
        rw [List.length_flatten, List.map_replicate, List.sum_replicate, hr, this, List.prod_cons]
        simp

theorem flatIndex_lt {idx shape : List ℕ} (h : List.Forall₂ (· < ·) idx shape) : flatIndex shape idx < shape.prod := by
  induction h with
  | nil => simp [flatIndex]
  | @cons i s is ss hi _ ih =>
    rw [flatIndex, List.prod_cons]
    have : (i + 1) * ss.prod ≤ s * ss.prod := Nat.mul_le_mul_right _ hi
    rw [Nat.add_mul, one_mul] at this
    omega

theorem broadcastData_get (s t : List ℕ) (h : broadcastable s t = true) (d : List α) (hd : d.length = s.prod)
    (idx : List ℕ) (hi : List.Forall₂ (· < ·) idx t) :
    (broadcastData s t d)[flatIndex t idx]? = d[flatIndex s (sourceIndex s idx)]? := by
  induction s generalizing t d idx with
  | nil =>
    cases t with
    | nil => cases hi; rfl
    | cons t ts => simp [broadcastable] at h
  | cons s ss ih =>
    cases t with
    | nil => simp [broadcastable] at h
    | cons t ts =>
      rw [broadcastable, Bool.and_eq_true] at h
      rw [List.prod_cons] at hd
      obtain ⟨i, is, hit, his, rfl⟩ : ∃ i is, i < t ∧ List.Forall₂ (· < ·) is ts ∧ idx = i :: is := by
        cases hi with
        | cons a b => exact ⟨_, _, a, b, rfl⟩
      have hrow : ∀ i < s, ((d.drop (i * ss.prod)).take ss.prod).length = ss.prod := by
        intro i hi
        have : (i + 1) * ss.prod ≤ s * ss.prod := Nat.mul_le_mul_right _ hi
        rw [Nat.add_mul, one_mul] at this
        simp [hd]
        omega
      have hfin : ∀ i < s, (broadcastData ss ts ((d.drop (i * ss.prod)).take ss.prod))[flatIndex ts is]? =
          d[i * ss.prod + flatIndex ss (sourceIndex ss is)]? := by
        intro i hi
        rw [ih ts h.2 _ (hrow i hi) is his]
        have hsrc : flatIndex ss (sourceIndex ss is) < ss.prod := by
          refine flatIndex_lt ?_
          have h2 := h.2
          clear ih h hd hi hrow hit ‹List.Forall₂ (· < ·) (_ :: is) (t :: ts)›
          induction his generalizing ss with
          | nil => cases ss with
            | nil => exact List.Forall₂.nil
            | cons a b => simp [broadcastable] at h2
          | @cons j u js us hj _ ihh => cases ss with
            | nil => simp [broadcastable] at h2
            | cons a ss =>
              rw [broadcastable, Bool.and_eq_true] at h2
              refine List.Forall₂.cons ?_ (ihh ss h2.2)
              dsimp only
              split_ifs with ha
              · omega
              · have : a = u := by simpa [ha] using h2.1
                omega
        rw [List.getElem?_take_of_lt hsrc, List.getElem?_drop]
      rw [broadcastData]
      dsimp only [flatIndex, sourceIndex, List.zipWith_cons_cons]
      split_ifs with hst hs1 hs1
      · have h1 := flatten_row_get (k := ts.prod) ((List.range s).map fun i => broadcastData ss ts ((d.drop (i * ss.prod)).take ss.prod))
          (by
            intro l hl
            obtain ⟨i, hi, rfl⟩ := List.mem_map.1 hl
            exact broadcastData_length ss ts h.2 _ (hrow i (List.mem_range.1 hi))) (i := i) (flatIndex_lt his)
        rw [List.flatMap_def, h1, List.getElem?_map, List.getElem?_range (by omega)]
        have hi0 : i = 0 := by omega
        simpa [hi0, sourceIndex] using hfin 0 (by omega)
      · have h1 := flatten_row_get (k := ts.prod) ((List.range s).map fun i => broadcastData ss ts ((d.drop (i * ss.prod)).take ss.prod))
          (by
            intro l hl
            obtain ⟨i, hi, rfl⟩ := List.mem_map.1 hl
            exact broadcastData_length ss ts h.2 _ (hrow i (List.mem_range.1 hi))) (i := i) (flatIndex_lt his)
        rw [List.flatMap_def, h1, List.getElem?_map, List.getElem?_range (by omega)]
        simpa [sourceIndex] using hfin i (by omega)
      · subst hs1
        have hlen := broadcastData_length ss ts h.2 _ (hrow 0 (by omega))
        have h1 := flatten_row_get (k := ts.prod) (List.replicate t ((List.range 1).flatMap fun i => broadcastData ss ts ((d.drop (i * ss.prod)).take ss.prod)))
          (by
            intro l hl
            rw [(List.mem_replicate.1 hl).2]
            simpa using hlen) (i := i) (flatIndex_lt his)
        rw [h1, List.getElem?_replicate_of_lt hit]
        simpa [sourceIndex] using hfin 0 (by omega)
      · exact absurd (by simpa [hst] using h.1) hs1

/-! ### Loops over parameters that stop -/

/-- Success or an exception. -/
def outcome : Option Err → Except Err Unit
  | none => .ok ()
  | some e => .error e

/-- A loop in which every parameter of `mid` is written and the next one, if there is one, is refused. -/
theorem apply_prefix {w : World α} {c : Context α} {b : List ℕ} {es : List (Entry α)} (h : Holds w c b es)
    (k : Bool) (f : World α → List Char → ℕ → List (List α) → World α × Except Err Unit)
    (R : Entry α → ℕ → List α) (V : Entry α → List α) (err : Option Err)
    (hR : ∀ e ∈ es, ∀ i < b.prod, (R e i).length = e.cols k)
    (pre mid post : List (Entry α)) (hes : pre ++ (mid ++ post) = es)
    (hf : ∀ e ∈ mid, ∀ w, Holds w c b es →
      f w e.name e.pid ((List.range b.prod).map (R e)) = (w.write e.pid (V e), .ok ()))
    (hV : ∀ e ∈ mid, (V e).length = b.prod * e.prior.eventShape.prod)
    (hend : post = [] → err = none)
    (hstop : ∀ e post', post = e :: post' → ∃ er, err = some er ∧ ∀ w, Holds w c b es →
      f w e.name e.pid ((List.range b.prod).map (R e)) = (w, .error er)) :
    applyToParams f (c.shapeDict k) ((List.range b.prod).map fun i => es.flatMap fun e => R e i) w
        ((pre.map fun e => e.cols k).sum) ((mid ++ post).map fun e => (e.name, e.pid)) =
      (writeAll w V mid, outcome err) := by
  have slice : ∀ pre' e post', pre' ++ e :: post' = es → ∀ sh : List ℕ, sh.prod = e.cols k →
      ((List.range b.prod).map fun i => es.flatMap fun e => R e i).map
        (fun r => (r.drop ((pre'.map fun e => e.cols k).sum)).take sh.prod) =
        (List.range b.prod).map (R e) := by
    intro pre' e post' hes' sh hsh
    rw [List.map_map]
    apply List.map_congr_left
    intro i hi
    simp only [Function.comp_def, hsh]
    rw [← hes']
    apply slice_eq
    intro e' he'
    exact hR e' (hes' ▸ he') i (List.mem_range.1 hi)
  induction mid generalizing w pre with
  | nil =>
    simp only [List.nil_append] at hes ⊢
    cases post with
    | nil => rw [hend rfl]; rfl
    | cons e post =>
      obtain ⟨er, rfl, hst⟩ := hstop e post rfl
      have he : e ∈ es := by rw [← hes]; simp
      obtain ⟨sh, hsh, hshp⟩ := h.get_dict he k
      simp only [List.map_cons, applyToParams, hsh, slice pre e post hes sh hshp, hst w h]
      rfl
  | cons e mid ih =>
    have he : e ∈ es := by rw [← hes]; simp
    obtain ⟨sh, hsh, hshp⟩ := h.get_dict he k
    have h' : Holds (w.write e.pid (V e)) c b es :=
      h.write (by rw [hV e (by simp), h.size' he])
    have ih := ih h' (pre ++ [e]) (by simpa using hes) (fun e he => hf e (by simp [he]))
      (fun e he => hV e (by simp [he]))
    simp only [List.map_append, List.map_cons, List.map_nil, List.sum_append, List.sum_cons, List.sum_nil,
      add_zero] at ih
    simp only [List.cons_append, List.map_cons, applyToParams, hsh,
      slice pre e (mid ++ post) hes sh hshp, hf e (by simp) w h]
    rw [hshp, List.map_append, ih]
    rfl

theorem updateValues_refused {w : World α} {c : Context α} {b : List ℕ} {es : List (Entry α)}
    (h : Holds w c b es) {e : Entry α} (he : e ∈ es) (R : Entry α → ℕ → List α)
    (hS : ∃ i < b.prod, e.prior.support (R e i) = false) :
    updateValues w c e.name e.pid ((List.range b.prod).map (R e)) true = (w, .error .outOfBounds) := by
  unfold updateValues
  rw [h.get_prior he]
  obtain ⟨i, hi, hs⟩ := hS
  have hall : (List.map (R e) (List.range b.prod)).all e.prior.support = false := by
    rw [List.all_eq_false]
    exact ⟨R e i, List.mem_map.2 ⟨i, List.mem_range.2 hi, rfl⟩, by simp [hs]⟩
  simp only [if_true, hall, Bool.not_false, Bool.and_self]

/-- A context is intact in every world that agrees on what is in use. -/
theorem _root_.Verif.Spec.Holds.mono {w w' : World α} {c : Context α} {b : List ℕ} {es : List (Entry α)}
    (h : Holds w c b es) (hobj : ∀ q < w.no, w'.obj q = w.obj q) (hcell : ∀ a < w.nc, w'.cell a = w.cell a)
    (hnc : w.nc ≤ w'.nc) (hno : w.no ≤ w'.no) : Holds w' c b es := by
  have ho : ∀ e ∈ es, w'.obj e.pid = w.obj e.pid := fun e he => hobj _ (h.pid_lt e he)
  have ht : ∀ e ∈ es, w'.tensor e.pid = w.tensor e.pid := fun e he => by
    rw [World.tensor, ho e he, hcell _ (h.cell_lt e he)]; rfl
  refine ⟨h.batch, h.priors, h.params, h.shapes, h.ushapes, h.names, h.bijection, h.unbatched, ?_, ?_, ?_, ?_,
    ?_⟩
  · intro e he; rw [ht e he]; exact h.shape e he
  · intro e he; rw [ht e he]; exact h.size e he
  · intro e he; exact (h.pid_lt e he).trans_le hno
  · intro e he; rw [ho e he]; exact (h.cell_lt e he).trans_le hnc
  · rw [List.map_congr_left ho]; exact h.storage

end Verif.Ctx
