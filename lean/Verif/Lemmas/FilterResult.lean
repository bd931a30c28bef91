import Verif.Model.FilterResult
import Verif.Spec.FilterResult
import Verif.Lemmas.Container

namespace Verif

open Spec

theorem cut_eq_lastN' {α : Type} (k : Option ℕ) (xs : List α) : Deq.cut k xs = lastN k xs := by
  cases k with
  | none => rfl
  | some k => simp [Deq.cut, lastN, List.take_reverse]

theorem cut_sublist {α : Type} (k : Option ℕ) (xs : List α) : (Deq.cut k xs).Sublist xs := by
  cases k with
  | none => exact List.Sublist.refl _
  | some k => exact List.drop_sublist _ _

theorem cut_map {α β : Type} (f : α → β) (k : Option ℕ) (xs : List α) :
    (Deq.cut k xs).map f = Deq.cut k (xs.map f) := by
  cases k with
  | none => rfl
  | some k => simp [Deq.cut]

theorem cut_congr_append {α : Type} (k : Option ℕ) (xs ys : List α) (y : α) (h : xs = Deq.cut k ys) :
    Deq.cut k (xs ++ [y]) = Deq.cut k (ys ++ [y]) := by
  rw [h, cut_cut_append]

namespace Heap

variable {B : ℕ} {V : Type}

/-- `h'` extends `h`: everything allocated in `h` is unchanged. -/
def Ext (h h' : Heap B V) : Prop :=
  h.nc ≤ h'.nc ∧ h.no ≤ h'.no ∧ (∀ r < h.nc, h'.cell r = h.cell r) ∧ (∀ o < h.no, h'.obj o = h.obj o)

theorem Ext.refl (h : Heap B V) : Ext h h := ⟨le_rfl, le_rfl, fun _ _ => rfl, fun _ _ => rfl⟩

theorem Ext.trans {h₁ h₂ h₃ : Heap B V} (a : Ext h₁ h₂) (b : Ext h₂ h₃) : Ext h₁ h₃ :=
  ⟨a.1.trans b.1, a.2.1.trans b.2.1,
    fun r hr => (b.2.2.1 r (lt_of_lt_of_le hr a.1)).trans (a.2.2.1 r hr),
    fun o ho => (b.2.2.2 o (lt_of_lt_of_le ho a.2.1)).trans (a.2.2.2 o ho)⟩

theorem ext_alloc (h : Heap B V) (v : Fin B → V) : Ext h (h.alloc v) :=
  ⟨Nat.le_succ _, le_rfl, fun _ hr => Function.update_of_ne hr.ne _ _, fun _ _ => rfl⟩

theorem ext_allocObj (h : Heap B V) (c : Corr) : Ext h (h.allocObj c) :=
  ⟨le_rfl, Nat.le_succ _, fun _ _ => rfl, fun _ ho => Function.update_of_ne ho.ne _ _⟩

theorem ext_place (h : Heap B V) (s : Src B V) : Ext h (h.place s).1 := by
  cases s with
  | fresh v => exact ext_alloc h v
  | old r => exact Ext.refl h

/-- A reused tensor is allocated. -/
def okSrc (h : Heap B V) : Src B V → Prop
  | .fresh _ => True
  | .old r => r < h.nc

theorem place_lt {h : Heap B V} {s : Src B V} (hs : okSrc h s) : (h.place s).2 < (h.place s).1.nc := by
  cases s with
  | fresh v => exact Nat.lt_succ_self _
  | old r => exact hs

/-- Facts about a newly built correction. -/
theorem construct_spec (h : Heap B V) (f : Fields B V) (hw : okSrc h f.w) (hp : okSrc h f.prev) :
    let h' := (h.construct f).1
    let c := h'.obj (h.construct f).2
    Ext h h' ∧ (h.construct f).2 = h.no ∧ h'.no = h.no + 1 ∧
    h.nc ≤ c.x ∧ h.nc ≤ c.ll ∧ h.nc ≤ c.mean ∧ h.nc ≤ c.var ∧
    c.ll = c.x + 1 ∧ c.mean = c.x + 2 ∧ c.var = c.x + 3 ∧ h'.nc = c.x + 4 ∧ c.w < c.x ∧ c.prev < c.x ∧
    h'.cell c.x = f.x ∧ h'.cell c.ll = f.ll ∧ h'.cell c.mean = f.mean ∧ h'.cell c.var = f.var ∧
    (∀ r, f.w = .old r → c.w = r) ∧ (∀ r, f.prev = .old r → c.prev = r) ∧
    (∀ v, f.w = .fresh v → h.nc ≤ c.w ∧ h'.cell c.w = v) ∧
    (∀ v, f.prev = .fresh v → h.nc ≤ c.prev ∧ h'.cell c.prev = v) ∧
    c.time = f.time ∧ c.shape = f.shape := by
  obtain ⟨fx, fw, fll, fp, fm, fv, ft, fs⟩ := f
  have e2 : Ext h (h.place fw).1 := ext_place h fw
  have hp' : okSrc (h.place fw).1 fp := by
    cases fp with
    | fresh v => trivial
    | old r => exact lt_of_lt_of_le hp e2.1
  have e3 : Ext (h.place fw).1 ((h.place fw).1.place fp).1 := ext_place _ fp
  have wlt : (h.place fw).2 < ((h.place fw).1.place fp).1.nc := lt_of_lt_of_le (place_lt hw) e3.1
  have plt : ((h.place fw).1.place fp).2 < ((h.place fw).1.place fp).1.nc := place_lt hp'
  have hno : ((h.place fw).1.place fp).1.no = h.no := by cases fw <;> cases fp <;> rfl
  have e13 := e2.trans e3
  set h2 := ((h.place fw).1.place fp).1 with hh2
  have e4 : Ext h2 ((((h2.alloc fx).alloc fll).alloc fm).alloc fv) :=
    (((ext_alloc _ _).trans (ext_alloc _ _)).trans (ext_alloc _ _)).trans (ext_alloc _ _)
  have hc : h.construct ⟨fx, fw, fll, fp, fm, fv, ft, fs⟩ =
      (((((h2.alloc fx).alloc fll).alloc fm).alloc fv).allocObj
        ⟨h2.nc, (h.place fw).2, h2.nc + 1, ((h.place fw).1.place fp).2, h2.nc + 2, h2.nc + 3, ft, fs⟩,
        h2.no) := rfl
  rw [hc]
  have hobj : (((((h2.alloc fx).alloc fll).alloc fm).alloc fv).allocObj
        ⟨h2.nc, (h.place fw).2, h2.nc + 1, ((h.place fw).1.place fp).2, h2.nc + 2, h2.nc + 3, ft, fs⟩).obj
        h2.no = ⟨h2.nc, (h.place fw).2, h2.nc + 1, ((h.place fw).1.place fp).2, h2.nc + 2, h2.nc + 3, ft, fs⟩ :=
    Function.update_self _ _ _
  intro h' c
  have hcc : c = ⟨h2.nc, (h.place fw).2, h2.nc + 1, ((h.place fw).1.place fp).2, h2.nc + 2, h2.nc + 3, ft, fs⟩ :=
    hobj
  rw [hcc]
  have n1 := e13.1
  refine ⟨(e13.trans e4).trans (ext_allocObj _ _), hno, ?_, n1, n1.trans (Nat.le_add_right _ _),
    n1.trans (Nat.le_add_right _ _), n1.trans (Nat.le_add_right _ _), rfl, rfl, rfl, rfl,
    wlt, plt, ?_, ?_, ?_, ?_, ?_, ?_, ?_, ?_, rfl, rfl⟩
  · show h2.no + 1 = h.no + 1
    rw [hno]
  · simp [h', allocObj, alloc, Function.update_apply, Nat.add_assoc]
  · simp [h', allocObj, alloc, Function.update_apply, Nat.add_assoc]
  · simp [h', allocObj, alloc, Function.update_apply, Nat.add_assoc]
  · simp [h', allocObj, alloc, Function.update_apply, Nat.add_assoc]
  · rintro r rfl; rfl
  · rintro r rfl; rfl
  · rintro v rfl
    refine ⟨le_rfl, ?_⟩
    have : (h.place (.fresh v)).2 < h2.nc := wlt
    have k := (e4.2.2.1 _ this)
    show ((((h2.alloc fx).alloc fll).alloc fm).alloc fv).cell (h.place (.fresh v)).2 = v
    rw [k, e3.2.2.1 _ (place_lt trivial)]
    exact Function.update_self _ _ _
  · rintro v rfl
    refine ⟨e2.1, ?_⟩
    have : ((h.place fw).1.place (.fresh v)).2 < h2.nc := plt
    have k := (e4.2.2.1 _ this)
    show ((((h2.alloc fx).alloc fll).alloc fm).alloc fv).cell ((h.place fw).1.place (.fresh v)).2 = v
    rw [k]
    exact Function.update_self _ _ _

theorem scatterSet_self (a : Fin B → V) (idx : Fin B → Fin B) : scatterSet a idx (a ∘ idx) = a := by
  unfold scatterSet
  have : ∀ l : List (Fin B), l.foldl (fun b j => Function.update b (idx j) ((a ∘ idx) j)) a = a := by
    intro l
    induction l with
    | nil => rfl
    | cons j l ih =>
      rw [List.foldl_cons]
      rw [show Function.update a (idx j) ((a ∘ idx) j) = a from Function.update_eq_self _ _]
      exact ih
  exact this _

theorem write_self (h : Heap B V) (r : ℕ) : h.write r (h.cell r) = h := by
  cases h
  simp [write, Function.update_eq_self]

/-- Effect of resampling one correction object. -/
theorem resampleCorr_eq (h : Heap B V) (o : ℕ) (idx : Fin B → Fin B)
    (hw : (h.obj o).w < h.nc) (hp : (h.obj o).prev < h.nc)
    (hm : (h.obj o).mean < h.nc) (hv : (h.obj o).var < h.nc) :
    h.resampleCorr o idx =
      (((((h.alloc (h.cell (h.obj o).x ∘ idx)).alloc (h.cell (h.obj o).w ∘ idx)).alloc
        (h.cell (h.obj o).prev ∘ idx)).alloc (h.cell (h.obj o).mean ∘ idx)).alloc
        (h.cell (h.obj o).var ∘ idx)).setObj o
        { h.obj o with x := h.nc, w := h.nc + 1, prev := h.nc + 2, mean := h.nc + 3, var := h.nc + 4 } := by
  unfold resampleCorr
  simp only [scatterSet_self, write_self]
  have e1 : Ext h (h.alloc (h.cell (h.obj o).x ∘ idx)) := ext_alloc _ _
  rw [e1.2.2.1 _ hw]
  have e2 := e1.trans (ext_alloc (h.alloc (h.cell (h.obj o).x ∘ idx)) (h.cell (h.obj o).w ∘ idx))
  rw [e2.2.2.1 _ hp]
  have e3 := e2.trans (ext_alloc _ (h.cell (h.obj o).prev ∘ idx))
  rw [e3.2.2.1 _ hm]
  have e4 := e3.trans (ext_alloc _ (h.cell (h.obj o).mean ∘ idx))
  rw [e4.2.2.1 _ hv]

end Heap

/-- All tensors of an object are allocated. -/
def Corr.below (c : Corr) (n : ℕ) : Prop :=
  c.x < n ∧ c.w < n ∧ c.ll < n ∧ c.prev < n ∧ c.mean < n ∧ c.var < n

theorem Corr.below.mono {c : Corr} {n m : ℕ} (h : c.below n) (hnm : n ≤ m) : c.below m := by
  obtain ⟨h1, h2, h3, h4, h5, h6⟩ := h
  exact ⟨by omega, by omega, by omega, by omega, by omega, by omega⟩

namespace Heap

variable {B : ℕ} {V : Type}

theorem resampleCorr_spec (h : Heap B V) (o : ℕ) (idx : Fin B → Fin B) (hb : (h.obj o).below h.nc) :
    let h' := h.resampleCorr o idx
    let c := h.obj o
    let c' := h'.obj o
    h'.nc = h.nc + 5 ∧ h'.no = h.no ∧ (∀ r < h.nc, h'.cell r = h.cell r) ∧
    (∀ o' ≠ o, h'.obj o' = h.obj o') ∧
    h'.cell c'.x = h.cell c.x ∘ idx ∧ h'.cell c'.w = h.cell c.w ∘ idx ∧
    h'.cell c'.prev = h.cell c.prev ∘ idx ∧ h'.cell c'.mean = h.cell c.mean ∘ idx ∧
    h'.cell c'.var = h.cell c.var ∘ idx ∧ c'.ll = c.ll ∧ c'.time = c.time ∧ c'.shape = c.shape ∧
    (h.nc ≤ c'.x ∧ h.nc ≤ c'.w ∧ h.nc ≤ c'.prev ∧ h.nc ≤ c'.mean ∧ h.nc ≤ c'.var) ∧
    c'.below h'.nc := by
  obtain ⟨hx, hw, hl, hp, hm, hv⟩ := hb
  intro h' c c'
  have he := resampleCorr_eq h o idx hw hp hm hv
  have hc' : c' = { h.obj o with x := h.nc, w := h.nc + 1, prev := h.nc + 2, mean := h.nc + 3, var := h.nc + 4 } := by
    show (h.resampleCorr o idx).obj o = _
    rw [he]
    exact Function.update_self _ _ _
  have hh' : h' = _ := he
  rw [hc']
  refine ⟨by rw [hh']; rfl, by rw [hh']; rfl, ?_, ?_, ?_, ?_, ?_, ?_, ?_, rfl, rfl, rfl, ?_, ?_⟩
  · intro r hr
    rw [hh']
    have := ((((ext_alloc h (h.cell c.x ∘ idx)).trans (ext_alloc _ (h.cell c.w ∘ idx))).trans
      (ext_alloc _ (h.cell c.prev ∘ idx))).trans (ext_alloc _ (h.cell c.mean ∘ idx))).trans
      (ext_alloc _ (h.cell c.var ∘ idx))
    exact this.2.2.1 r hr
  · intro o' ho'
    rw [hh']
    exact Function.update_of_ne ho' _ _
  · rw [hh']; simp [setObj, alloc, Function.update_apply, Nat.add_assoc, c]
  · rw [hh']; simp [setObj, alloc, Function.update_apply, Nat.add_assoc, c]
  · rw [hh']; simp [setObj, alloc, Function.update_apply, Nat.add_assoc, c]
  · rw [hh']; simp [setObj, alloc, Function.update_apply, Nat.add_assoc, c]
  · rw [hh']; simp [setObj, alloc, Function.update_apply, Nat.add_assoc, c]
  · refine ⟨?_, ?_, ?_, ?_, ?_⟩ <;> dsimp only <;> omega
  · rw [hh']
    refine ⟨?_, ?_, ?_, ?_, ?_, ?_⟩ <;> simp only [setObj, alloc] <;> omega

end Heap

namespace Res

variable {B : ℕ} {V : Type}

open Heap

theorem gatherAll_spec (idx : Fin B → Fin B) (rs : List ℕ) (hn : rs.Nodup) : ∀ h : Heap B V,
    (gatherAll h idx rs).nc = h.nc ∧ (gatherAll h idx rs).no = h.no ∧ (gatherAll h idx rs).obj = h.obj ∧
    (∀ r ∈ rs, (gatherAll h idx rs).cell r = h.cell r ∘ idx) ∧
    (∀ r ∉ rs, (gatherAll h idx rs).cell r = h.cell r) := by
  induction rs with
  | nil => intro h; exact ⟨rfl, rfl, rfl, by simp, fun _ _ => rfl⟩
  | cons r rs ih =>
    intro h
    rw [List.nodup_cons] at hn
    obtain ⟨h1, h2, h3, h4, h5⟩ := ih hn.2 (h.write r (h.cell r ∘ idx))
    have e : gatherAll h idx (r :: rs) = gatherAll (h.write r (h.cell r ∘ idx)) idx rs := rfl
    rw [e]
    refine ⟨h1, h2, h3, ?_, ?_⟩
    · intro s hs
      rcases List.mem_cons.1 hs with rfl | hs'
      · rw [h5 _ hn.1]; exact Function.update_self _ _ _
      · rw [h4 _ hs']
        have : s ≠ r := by rintro rfl; exact hn.1 hs'
        rw [show (h.write r (h.cell r ∘ idx)).cell s = h.cell s from Function.update_of_ne this _ _]
    · intro s hs
      simp only [List.mem_cons, not_or] at hs
      rw [h5 _ hs.2]
      exact Function.update_of_ne hs.1 _ _

/-- Resampling the recorded states one after the other. -/
theorem resampleStates_spec (idx : Fin B → Fin B) (os : List ℕ) (hn : os.Nodup) : ∀ h : Heap B V,
    (∀ o ∈ os, (h.obj o).below h.nc) →
    let h' := os.foldl (fun h o => h.resampleCorr o idx) h
    h.nc ≤ h'.nc ∧ h'.no = h.no ∧ (∀ r < h.nc, h'.cell r = h.cell r) ∧
    (∀ o ∉ os, h'.obj o = h.obj o) ∧
    (∀ o ∈ os, h'.cell (h'.obj o).x = h.cell (h.obj o).x ∘ idx ∧
      h'.cell (h'.obj o).w = h.cell (h.obj o).w ∘ idx ∧
      h'.cell (h'.obj o).prev = h.cell (h.obj o).prev ∘ idx ∧
      h'.cell (h'.obj o).mean = h.cell (h.obj o).mean ∘ idx ∧
      h'.cell (h'.obj o).var = h.cell (h.obj o).var ∘ idx ∧
      (h'.obj o).ll = (h.obj o).ll ∧ (h'.obj o).time = (h.obj o).time ∧ (h'.obj o).shape = (h.obj o).shape ∧
      (h.nc ≤ (h'.obj o).x ∧ h.nc ≤ (h'.obj o).w ∧ h.nc ≤ (h'.obj o).prev ∧ h.nc ≤ (h'.obj o).mean ∧
        h.nc ≤ (h'.obj o).var) ∧ (h'.obj o).below h'.nc) := by
  induction os with
  | nil => intro h _; exact ⟨le_rfl, rfl, fun _ _ => rfl, fun _ _ => rfl, by simp⟩
  | cons o os ih =>
    intro h hb
    rw [List.nodup_cons] at hn
    obtain ⟨a1, a2, a3, a4, a5, a6, a7, a8, a9, a10, a11, a12, a13, a14⟩ :=
      resampleCorr_spec h o idx (hb o (by simp))
    have hb' : ∀ o' ∈ os, ((h.resampleCorr o idx).obj o').below (h.resampleCorr o idx).nc := by
      intro o' ho'
      have : o' ≠ o := by rintro rfl; exact hn.1 ho'
      rw [a4 _ this, a1]
      exact (hb o' (by simp [ho'])).mono (by omega)
    obtain ⟨b1, b2, b3, b4, b5⟩ := ih hn.2 (h.resampleCorr o idx) hb'
    intro h'
    have e : h' = os.foldl (fun h o => h.resampleCorr o idx) (h.resampleCorr o idx) := rfl
    rw [e]
    refine ⟨by omega, by rw [b2, a2], fun r hr => by rw [b3 r (by omega), a3 r hr], ?_, ?_⟩
    · intro o' ho'
      simp only [List.mem_cons, not_or] at ho'
      rw [b4 _ ho'.2, a4 _ ho'.1]
    · intro o' ho'
      rcases List.mem_cons.1 ho' with rfl | hos
      · rw [b4 _ hn.1]
        obtain ⟨c1, c2, c3, c4, c5, c6⟩ := a14
        rw [b3 _ c1, b3 _ c2, b3 _ c4, b3 _ c5, b3 _ c6]
        exact ⟨a5, a6, a7, a8, a9, a10, a11, a12, a13,
          Corr.below.mono ⟨c1, c2, c3, c4, c5, c6⟩ b1⟩
      · have hne : o' ≠ o := by rintro rfl; exact hn.1 hos
        obtain ⟨c1, c2, c3, c4, c5, c6, c7, c8, ⟨c9, c10, c11, c12, c13⟩, c14⟩ := b5 o' hos
        obtain ⟨d1, d2, d3, d4, d5, d6⟩ := hb o' ho'
        rw [a4 _ hne] at c1 c2 c3 c4 c5 c6 c7 c8
        rw [a3 _ d1] at c1
        rw [a3 _ d2] at c2
        rw [a3 _ d4] at c3
        rw [a3 _ d5] at c4
        rw [a3 _ d6] at c5
        exact ⟨c1, c2, c3, c4, c5, c6, c7, c8, ⟨by omega, by omega, by omega, by omega, by omega⟩, c14⟩

/-- The storage that a result writes in place: accumulator and recorded moments. -/
def owned (r : Res) : List ℕ := r.ll :: (r.means.items ++ r.vars.items)

/-- The separation invariant of a result. -/
structure Inv (h : Heap B V) (r : Res) : Prop where
  nodup : r.owned.Nodup
  lt : ∀ c ∈ r.owned, c < h.nc
  statesNodup : r.states.items.Nodup
  statesLt : ∀ o ∈ r.states.items, o < h.no
  below : ∀ o ∈ r.states.items, (h.obj o).below h.nc
  sep : ∀ o ∈ r.states.items, (h.obj o).x ∉ r.owned ∧ (h.obj o).w ∉ r.owned ∧ (h.obj o).prev ∉ r.owned

theorem Inv.ext {h h' : Heap B V} {r : Res} (hi : Inv h r) (he : Ext h h') : Inv h' r where
  nodup := hi.nodup
  lt c hc := lt_of_lt_of_le (hi.lt c hc) he.1
  statesNodup := hi.statesNodup
  statesLt o ho := lt_of_lt_of_le (hi.statesLt o ho) he.2.1
  below o ho := by rw [he.2.2.2 o (hi.statesLt o ho)]; exact (hi.below o ho).mono he.1
  sep o ho := by rw [he.2.2.2 o (hi.statesLt o ho)]; exact hi.sep o ho

/-- Appending an object whose moments are new to the result. -/
theorem Inv.append [Add V] {h : Heap B V} {r : Res} (hi : Inv h r) {o : ℕ} (ho : o < h.no)
    (hb : (h.obj o).below h.nc) (hnew : o ∉ r.states.items)
    (hm : (h.obj o).mean ∉ r.owned) (hv : (h.obj o).var ∉ r.owned) (hmv : (h.obj o).mean ≠ (h.obj o).var)
    (hx : (h.obj o).x ∉ r.owned ∧ (h.obj o).x ≠ (h.obj o).mean ∧ (h.obj o).x ≠ (h.obj o).var)
    (hw : (h.obj o).w ∉ r.owned ∧ (h.obj o).w ≠ (h.obj o).mean ∧ (h.obj o).w ≠ (h.obj o).var)
    (hp : (h.obj o).prev ∉ r.owned ∧ (h.obj o).prev ≠ (h.obj o).mean ∧ (h.obj o).prev ≠ (h.obj o).var)
    (hold : ∀ o' ∈ r.states.items, ∀ c ∈ [(h.obj o').x, (h.obj o').w, (h.obj o').prev],
      c ≠ (h.obj o).mean ∧ c ≠ (h.obj o).var) :
    Inv (r.append h o).1 (r.append h o).2 := by
  have hsub : ∀ c ∈ (Res.append h r o).2.owned, c ∈ r.owned ∨ c = (h.obj o).mean ∨ c = (h.obj o).var := by
    intro c hc
    simp only [owned, Res.append, Deq.append, List.mem_cons, List.mem_append] at hc ⊢
    rcases hc with hc | hc | hc
    · exact Or.inl (Or.inl hc)
    · have := (cut_sublist _ _).subset hc
      simp only [List.mem_append, List.mem_singleton] at this
      tauto
    · have := (cut_sublist _ _).subset hc
      simp only [List.mem_append, List.mem_singleton] at this
      tauto
  have hst : ∀ o' ∈ (Res.append h r o).2.states.items, o' ∈ r.states.items ∨ o' = o := by
    intro o' ho'
    have := (cut_sublist _ _).subset ho'
    simpa using this
  refine ⟨?_, ?_, ?_, ?_, ?_, ?_⟩
  · have hn := hi.nodup
    unfold owned at hn
    simp only [List.nodup_cons, List.mem_append, not_or, List.nodup_append] at hn
    obtain ⟨⟨n1, n2⟩, n3, n4, n5⟩ := hn
    simp only [owned, List.mem_cons, List.mem_append, not_or] at hm hv
    have hN : (r.ll :: ((r.means.items ++ [(h.obj o).mean]) ++ (r.vars.items ++ [(h.obj o).var]))).Nodup := by
      simp only [List.nodup_cons, List.mem_append, not_or, List.nodup_append, List.mem_singleton]
      refine ⟨⟨⟨n1, Ne.symm hm.1⟩, ⟨n2, Ne.symm hv.1⟩⟩, ⟨n3, by simp, ?_⟩, ⟨n4, by simp, ?_⟩, ?_⟩
      · rintro a ha b rfl
        rintro rfl; exact hm.2.1 ha
      · rintro a ha b rfl
        rintro rfl; exact hv.2.2 ha
      · rintro a (ha | rfl) b (hb' | rfl)
        · exact n5 a ha b hb'
        · rintro rfl; exact hv.2.1 ha
        · rintro rfl; exact hm.2.2 hb'
        · exact hmv
    refine hN.sublist ?_
    exact ((cut_sublist _ _).append (cut_sublist _ _)).cons_cons _
  · intro c hc
    rcases hsub c hc with hc | rfl | rfl
    · exact hi.lt c hc
    · exact hb.2.2.2.2.1
    · exact hb.2.2.2.2.2
  · refine List.Nodup.sublist (cut_sublist _ _) ?_
    rw [List.nodup_append]
    refine ⟨hi.statesNodup, by simp, ?_⟩
    intro a ha b hb'
    simp only [List.mem_singleton] at hb'
    subst hb'
    rintro rfl
    exact hnew ha
  · intro o' ho'
    rcases hst o' ho' with ho' | rfl
    · exact hi.statesLt o' ho'
    · exact ho
  · intro o' ho'
    rcases hst o' ho' with ho' | rfl
    · exact hi.below o' ho'
    · exact hb
  · intro o' ho'
    have key : ∀ c, c ∉ r.owned → c ≠ (h.obj o).mean → c ≠ (h.obj o).var → c ∉ (Res.append h r o).2.owned := by
      intro c h1 h2 h3 h4
      rcases hsub c h4 with h | h | h
      exacts [h1 h, h2 h, h3 h]
    rcases hst o' ho' with ho' | rfl
    · obtain ⟨s1, s2, s3⟩ := hi.sep o' ho'
      have tx := hold o' ho' (h.obj o').x (by simp)
      have tw := hold o' ho' (h.obj o').w (by simp)
      have tp := hold o' ho' (h.obj o').prev (by simp)
      exact ⟨key _ s1 tx.1 tx.2, key _ s2 tw.1 tw.2, key _ s3 tp.1 tp.2⟩
    · exact ⟨key _ hx.1 hx.2.1 hx.2.2, key _ hw.1 hw.2.1 hw.2.2, key _ hp.1 hp.2.1 hp.2.2⟩

/-- Cells after appending. -/
theorem append_cell [Add V] (h : Heap B V) (r : Res) (o c : ℕ) :
    (r.append h o).1.cell c =
      if c = r.ll then h.cell r.ll + h.cell (h.obj o).ll else h.cell c := by
  show Function.update h.cell r.ll _ c = _
  rw [Function.update_apply]

/-- Resampling a separated result. -/
theorem resample_spec {h : Heap B V} {r : Res} (hi : Inv h r) (idx : Fin B → Fin B) (eh : Bool) :
    let h' := r.resample h idx eh
    Inv h' r ∧ h.nc ≤ h'.nc ∧ h'.no = h.no ∧
    h'.cell r.ll = h.cell r.ll ∘ idx ∧
    (∀ c ∈ r.means.items ++ r.vars.items, h'.cell c = if eh then h.cell c ∘ idx else h.cell c) ∧
    (∀ c < h.nc, c ∉ r.owned → h'.cell c = h.cell c) ∧
    (∀ o ∉ r.states.items, h'.obj o = h.obj o) ∧
    (∀ o ∈ r.states.items, h'.cell (h'.obj o).x = h.cell (h.obj o).x ∘ idx ∧
      h'.cell (h'.obj o).w = h.cell (h.obj o).w ∘ idx ∧
      h'.cell (h'.obj o).prev = h.cell (h.obj o).prev ∘ idx ∧
      (h'.obj o).ll = (h.obj o).ll ∧ (h'.obj o).time = (h.obj o).time ∧
      (h.nc ≤ (h'.obj o).mean ∧ h.nc ≤ (h'.obj o).var) ∧
      (∀ f, f = Corr.mean ∨ f = Corr.var →
        h'.cell (f (h'.obj o)) =
          if eh = true ∧ f (h.obj o) ∈ r.means.items ++ r.vars.items then h.cell (f (h.obj o)) ∘ idx ∘ idx
          else if f (h.obj o) = r.ll then h.cell (f (h.obj o)) ∘ idx ∘ idx
          else h.cell (f (h.obj o)) ∘ idx)) := by
  intro h'
  have hn := hi.nodup
  unfold owned at hn
  rw [List.nodup_cons] at hn
  obtain ⟨hll, hmv⟩ := hn
  set h1 := h.write r.ll (h.cell r.ll ∘ idx) with hh1
  set h2 := if eh then gatherAll h1 idx (r.means.items ++ r.vars.items) else h1 with hh2
  have hh' : h' = r.states.items.foldl (fun h o => h.resampleCorr o idx) h2 := rfl
  have g := gatherAll_spec idx _ hmv h1
  have c2 : h2.nc = h.nc ∧ h2.no = h.no ∧ h2.obj = h.obj := by
    rw [hh2]; split_ifs
    · exact ⟨g.1, g.2.1, g.2.2.1⟩
    · exact ⟨rfl, rfl, rfl⟩
  have v1 : h2.cell r.ll = h.cell r.ll ∘ idx := by
    rw [hh2]; split_ifs
    · rw [g.2.2.2.2 _ hll]; exact Function.update_self _ _ _
    · exact Function.update_self _ _ _
  have v2 : ∀ c ∈ r.means.items ++ r.vars.items, h2.cell c = if eh then h.cell c ∘ idx else h.cell c := by
    intro c hc
    have hne : c ≠ r.ll := by rintro rfl; exact hll hc
    have e1 : h1.cell c = h.cell c := Function.update_of_ne hne _ _
    rw [hh2]; split_ifs
    · rw [g.2.2.2.1 _ hc, e1]
    · exact e1
  have v3 : ∀ c, c ∉ r.owned → h2.cell c = h.cell c := by
    intro c hc
    unfold owned at hc
    simp only [List.mem_cons, not_or] at hc
    have e1 : h1.cell c = h.cell c := Function.update_of_ne hc.1 _ _
    rw [hh2]; split_ifs
    · rw [g.2.2.2.2 _ hc.2, e1]
    · exact e1
  have hb2 : ∀ o ∈ r.states.items, (h2.obj o).below h2.nc := by
    intro o ho
    rw [c2.1, c2.2.2]; exact hi.below o ho
  obtain ⟨s1, s2, s3, s4, s5⟩ := resampleStates_spec idx _ hi.statesNodup h2 hb2
  rw [← hh'] at s1 s2 s3 s4 s5
  rw [c2.1] at s1 s3
  rw [c2.2.1] at s2
  rw [c2.2.2] at s4
  refine ⟨⟨hi.nodup, fun c hc => lt_of_lt_of_le (hi.lt c hc) s1, hi.statesNodup,
    fun o ho => by rw [s2]; exact hi.statesLt o ho, fun o ho => ?_, fun o ho => ?_⟩, s1, s2, ?_, ?_, ?_, s4, ?_⟩
  · exact (s5 o ho).2.2.2.2.2.2.2.2.2
  · obtain ⟨-, -, -, -, -, -, -, -, ⟨k1, k2, k3, -, -⟩, -⟩ := s5 o ho
    rw [c2.1] at k1 k2 k3
    refine ⟨fun hc => ?_, fun hc => ?_, fun hc => ?_⟩
    all_goals have := hi.lt _ hc; omega
  · rw [s3 _ (hi.lt _ (by simp [owned])), v1]
  · intro c hc
    rw [s3 _ (hi.lt _ (by unfold owned; exact List.mem_cons_of_mem _ hc)), v2 c hc]
  · intro c hc hno
    rw [s3 _ hc, v3 c hno]
  · intro o ho
    obtain ⟨a1, a2, a3, a4, a5, a6, a7, -, ⟨-, -, -, a8, a9⟩, -⟩ := s5 o ho
    rw [c2.1] at a8 a9
    rw [c2.2.2] at a1 a2 a3 a4 a5 a6 a7
    obtain ⟨k1, k2, k3⟩ := hi.sep o ho
    rw [v3 _ k1] at a1
    rw [v3 _ k2] at a2
    rw [v3 _ k3] at a3
    refine ⟨a1, a2, a3, a6, a7, ⟨a8, a9⟩, ?_⟩
    have key : ∀ c, h2.cell c ∘ idx =
        if eh = true ∧ c ∈ r.means.items ++ r.vars.items then h.cell c ∘ idx ∘ idx
        else if c = r.ll then h.cell c ∘ idx ∘ idx else h.cell c ∘ idx := by
      intro c
      by_cases hc : c ∈ r.means.items ++ r.vars.items
      · have hne : c ≠ r.ll := by rintro rfl; exact hll hc
        rw [v2 c hc]
        cases eh <;> simp [hc, hne] <;> rfl
      · by_cases hl : c = r.ll
        · subst hl; rw [v1]; simp [hc]; rfl
        · rw [v3 c (by unfold owned; simp only [List.mem_cons, not_or]; exact ⟨hl, hc⟩)]
          simp [hc, hl]
    rintro f (rfl | rfl)
    · rw [a4]; exact key _
    · rw [a5]; exact key _

end Res
end Verif
