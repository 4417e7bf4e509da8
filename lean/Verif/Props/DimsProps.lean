import Verif.Lemmas.DimsLemmas
import Verif.Lemmas.RelaxLemmas

/-!
# C70: `storch.sum`, `storch.mean` and `storch.logsumexp` over lists of plates and event dimensions
-/

namespace Storch
variable {α : Type _} [ValEq α]

/-! ### Specification -/

/-- The values that belong to the entry `ι`, `e` of the result: those of all samples that agree with `ι` outside of the
plates `P`, at all event indices that agree with `e` outside of the event dimensions `ds`. -/
def entriesOf (t : STen α) (P : List (Plate α)) (ds : List Nat) (ι : String → Nat) (e : List Nat) : List α :=
  (allIdx (P.map Plate.n)).flatMap (fun ks =>
    ((allIdx t.eventShape).filter (fun e' => decide (dropDims ds e' = e))).map (fun e' => t.sample (assign P ks ι) e'))

/-- The plates of the tensor that `dims` names. -/
def namedPlates (t : STen α) (dims : List DimArg) : List (Plate α) :=
  t.plates.filter (fun p => decide (p.name ∈ plateNames dims))

/-- The result `r` of a reduction of `t` over `dims`: the named plates and the given event dimensions are gone, and every
entry is `f` of the values that belong to it. -/
def ReducedBy (f : List α → α) (t : STen α) (dims : List DimArg) (r : STen α) : Prop :=
  r.plates = t.plates.filter (fun p => decide (p.name ∉ plateNames dims)) ∧
    r.eventShape = dropDims (eventDimsOf t dims) t.eventShape ∧
    ∀ ι e, e ∈ allIdx r.eventShape → r.sample ι e = f (entriesOf t (namedPlates t dims) (eventDimsOf t dims) ι e)

theorem reduceWith_reduced {hook : UnwrapHook α} (hh : PlainHook hook) (red : List α → α) {t : STen α} (h : Proper t)
    {dims : List DimArg} (hd : GoodDims t dims) (hne : dims ≠ []) :
    ∃ r, reduceWith hook red t dims = .ok r ∧ Proper r ∧ ReducedBy red t dims r := by
  obtain ⟨r, r1, r2, r3, r4, r5⟩ := reduceWith_spec hh red h hd hne
  refine ⟨r, r1, r2, ?_, r4, ?_⟩
  · rw [r3]; congr 1; funext p; simp
  · intro ι e he
    have : t.multiDimPlates.filter (fun p => decide (p.name ∈ plateNames dims)) = namedPlates t dims := by
      rw [namedPlates, STen.multiDimPlates, List.filter_filter]
      apply List.filter_congr
      intro p hp
      by_cases hm : p.name ∈ plateNames dims
      · have hmem : ∀ ds : List DimArg, p.name ∈ plateNames ds → DimArg.plate p.name ∈ ds := by
          intro ds
          induction ds with
          | nil => simp [plateNames]
          | cons d ds ih =>
            cases d with
            | pos i => intro h'; exact List.mem_cons_of_mem _ (ih h')
            | plate n =>
              intro h'
              rcases List.mem_cons.1 h' with rfl | h'
              · exact List.mem_cons_self
              · exact List.mem_cons_of_mem _ (ih h')
        obtain ⟨q, hq, hqn, hq1⟩ := hd.plates _ (hmem dims hm)
        have : q = p := by
          have hnd := h.wf.names
          exact List.inj_on_of_nodup_map hnd hq hp hqn
        subst this
        simp [hm, hq1]
      · simp [hm]
    rw [r5 ι e he, this]
    rfl

/-! ### Properties -/

/-- C70 for `storch.sum`: for dimensions that name plates with several samples and event dimensions, each at most once,
the result has neither, and each entry is the sum of the entries over them.  Missing: an empty list and plates with one
sample, for which the claim is false (`C70_empty_refuted`, `C70_one_refuted`). -/
theorem C70_sum_partial [AddCommMonoid α] {hook : UnwrapHook α} (hh : PlainHook hook) {t : STen α} (h : Proper t)
    {dims : List DimArg} (hd : GoodDims t dims) (hne : dims ≠ []) :
    ∃ r, sumDims hook t dims = .ok r ∧ Proper r ∧ ReducedBy List.sum t dims r :=
  reduceWith_reduced hh _ h hd hne

/-- C70 for `storch.mean`: each entry is the sum divided by the number of entries. -/
theorem C70_mean_partial [Semiring α] {hook : UnwrapHook α} (hh : PlainHook hook) (inv : Nat → α) {t : STen α} (h : Proper t)
    {dims : List DimArg} (hd : GoodDims t dims) (hne : dims ≠ []) :
    ∃ r, meanDims hook inv t dims = .ok r ∧ Proper r ∧ ReducedBy (fun xs => inv xs.length * xs.sum) t dims r :=
  reduceWith_reduced hh _ h hd hne

/-- C70 for `storch.logsumexp`. -/
theorem C70_logsumexp_partial [AddCommMonoid α] {hook : UnwrapHook α} (hh : PlainHook hook) (ex lg : α → α) {t : STen α}
    (h : Proper t) {dims : List DimArg} (hd : GoodDims t dims) (hne : dims ≠ []) :
    ∃ r, logsumexpDims hook ex lg t dims = .ok r ∧ Proper r ∧ ReducedBy (fun xs => lg (xs.map ex).sum) t dims r :=
  reduceWith_reduced hh _ h hd hne

omit [ValEq α] in
theorem convert_error {t : STen α} {e : Err} (d : DimArg) (h : convertIndices t [d] = .error e) (dims : List DimArg)
    (hd : d ∈ dims) : ∃ e', convertIndices t dims = .error e' := by
  induction dims with
  | nil => cases hd
  | cons d' dims ih =>
    rcases List.mem_cons.1 hd with rfl | hd
    · cases d with
      | pos i =>
        rw [convertIndices] at h ⊢
        split at h
        · rw [convertIndices] at h; cases h
        · rename_i hn; rw [if_neg hn]; exact ⟨_, rfl⟩
      | plate n =>
        rw [convertIndices] at h ⊢
        split at h
        · rename_i e0 h0; exact ⟨e0, rfl⟩
        · rw [convertIndices] at h; cases h
    · obtain ⟨e', he⟩ := ih hd
      cases d' with
      | pos i =>
        rw [convertIndices, he]
        split <;> exact ⟨_, rfl⟩
      | plate n =>
        rw [convertIndices, he]
        split <;> exact ⟨_, rfl⟩

/-- C70, guard: numbers that denote plate dimensions, from the front or from the back, raise an error whatever else is in
the list: plates are only reduced by name. -/
theorem C70_guard {hook : UnwrapHook α} (red : List α → α) {t : STen α} (hw : t.WF) {dims : List DimArg} {i : Int}
    (hi : .pos i ∈ dims) (k : Nat) (hk : k < t.multiDimPlates.length) (hik : i = k ∨ i = (k : Int) - t.ten.ndim) :
    ∃ e, reduceWith hook red t dims = .error e := by
  have hd : t.ten.ndim = t.plateDims + t.eventDims := by
    rw [Ten.ndim, hw.shape, hw.dims, STen.eventDims]; simp
  have hp := hw.dims
  obtain ⟨e, he⟩ := convert_error (t := t) (e := .index) (.pos i) (by
    rw [convertIndices, if_neg (by omega)]) dims hi
  rw [reduceWith, he]
  exact ⟨e, rfl⟩

/-- C70 is false for plates with one sample: naming one raises an error. -/
theorem C70_one_refuted {hook : UnwrapHook α} (red : List α → α) {t : STen α} (hw : t.WF) {p : Plate α} (hp : p ∈ t.plates)
    (h1 : p.n = 1) {dims : List DimArg} (hi : .plate p.name ∈ dims) : ∃ e, reduceWith hook red t dims = .error e := by
  have hn : p.name ∉ t.multiDimPlates.map Plate.name := by
    intro hm
    obtain ⟨q, hq, hqn⟩ := List.mem_map.1 hm
    have hq' := List.mem_filter.1 hq
    have : q = p := List.inj_on_of_nodup_map hw.names hq'.1 hp hqn
    subst this
    have := hq'.2
    simp [h1] at this
  have hix : ∀ l : List String, p.name ∉ l → indexBy (fun a b => a == b) p.name l = none := by
    intro l
    induction l with
    | nil => intro _; rfl
    | cons a l ih =>
      intro h
      simp only [List.mem_cons, not_or] at h
      rw [indexBy, ih h.2]
      simp [Ne.symm h.1]
  obtain ⟨e, he⟩ := convert_error (t := t) (e := .index) (.plate p.name) (by
    rw [convertIndices, STen.plateDimIndex, hix _ hn]) dims hi
  rw [reduceWith, he]
  exact ⟨e, rfl⟩

/-- The result for an empty list. -/
theorem reduceWith_nil {hook : UnwrapHook α} (hh : PlainHook hook) (red : List α → α) {t : STen α} (h : Proper t) :
    reduceWith hook red t [] =
      asSt ((Val.torch (.scalar (red ((allIdx t.ten.shape).map t.ten.get)))).wrapOut t.plates false) := by
  have hk : ∀ s : List Nat, keepShape ((List.range s.length).map (fun _ => true)) s = [] ∧
      blockIdx ((List.range s.length).map (fun _ => true)) s = fun _ => allIdx s := by
    intro s
    have e : (List.range s.length).map (fun _ => true) = s.map (fun _ => true) := by
      apply List.ext_getElem <;> simp
    rw [e]
    clear e
    induction s with
    | nil => exact ⟨rfl, by funext idx; simp [blockIdx, allIdx]⟩
    | cons d s ih =>
      refine ⟨by rw [List.map_cons, keepShape, ih.1], ?_⟩
      funext idx
      simp only [List.map_cons, blockIdx, allIdx, ih.2]
  have hred : t.ten.reduceDims red [] = .ok (.scalar (red ((allIdx t.ten.shape).map t.ten.get))) := by
    rw [Ten.reduceDims]
    simp only [normDims, List.nodup_nil, if_true, List.isEmpty_nil, Bool.true_or]
    rw [Ten.ndim, (hk t.ten.shape).1, (hk t.ten.shape).2]
    rfl
  have hcall := handleDet_single hh h false true [] [] []
    (fun c m => by simp [collectList]) (fun cfg mdp ed => rfl) (reduceFn red [])
    (.torch (.scalar (red ((allIdx t.ten.shape).map t.ten.get)))) (by simp only [reduceFn, hred])
  rw [reduceWith, convertIndices]
  simp only
  rw [hcall]
  simp

/-- C70 is false for an empty list.  Nothing should be reduced; instead torch reduces everything.  With a plate of
several samples wrapping the number in the plates raises an error. -/
theorem C70_empty_refuted {hook : UnwrapHook α} (hh : PlainHook hook) (red : List α → α) {t : STen α} (h : Proper t)
    (hm : ∃ p ∈ t.plates, 1 < p.n) : ∃ e, reduceWith hook red t [] = .error e := by
  rw [reduceWith_nil hh red h, Val.wrapOut]
  simp only [Bool.false_eq_true, if_false]
  cases hmk : STen.mk' (.scalar (red ((allIdx t.ten.shape).map t.ten.get))) t.plates with
  | error e => exact ⟨e, rfl⟩
  | ok r =>
    exfalso
    rw [STen.mk'] at hmk
    cases hc : STen.checkPlates (Ten.scalar (red ((allIdx t.ten.shape).map t.ten.get))).shape t.plates [] 0 with
    | error e => rw [hc] at hmk; cases hmk
    | ok d =>
      obtain ⟨-, -, h3, -⟩ := (checkPlates_ok_iff _ _ _ _ _).1 hc
      have h4 : (t.plates.filter (fun p => decide (p.n ≠ 1))).map Plate.n = [] := by
        have : (Ten.scalar (red ((allIdx t.ten.shape).map t.ten.get))).shape.drop 0 = [] := rfl
        rw [this] at h3
        exact List.prefix_nil.1 h3
      obtain ⟨p, hp, h1⟩ := hm
      have : p ∈ t.plates.filter (fun p => decide (p.n ≠ 1)) := List.mem_filter.2 ⟨hp, by simp; omega⟩
      rw [List.map_eq_nil_iff.1 h4] at this
      cases this

/-- Without plates of several samples the event dimensions are reduced although none is given. -/
theorem C70_empty_total_refuted {hook : UnwrapHook α} (hh : PlainHook hook) (red : List α → α) {t : STen α} (h : Proper t)
    (hm : ∀ p ∈ t.plates, p.n = 1) :
    ∃ r, reduceWith hook red t [] = .ok r ∧ r.ten.shape = [] ∧ r.ten.get [] = red ((allIdx t.ten.shape).map t.ten.get) := by
  obtain ⟨r, r1, r2, r3, r4, r5⟩ := checkPlates_ok_of (R := t.plates) h.wf.names h.wf.pos
    (.scalar (red ((allIdx t.ten.shape).map t.ten.get))) [] (by
      have : t.plates.filter (fun p => decide (1 < p.n)) = [] := by
        rw [List.filter_eq_nil_iff]
        intro p hp
        simp [hm p hp]
      rw [this]; rfl)
  refine ⟨r, ?_, by rw [r2]; rfl, by rw [r2]; rfl⟩
  rw [reduceWith_nil hh red h, Val.wrapOut]
  simp only [Bool.false_eq_true, if_false, r1]
  rfl

/-! ### Cases that meet the hypotheses -/

namespace DimsCase

def a : Plate ℚ := .mk "a" 2 (.torch (.scalar (1 / 2))) .plain []
def b : Plate ℚ := .mk "b" 3 (.torch (.scalar (1 / 3))) .plain []
def one : Plate ℚ := .mk "one" 1 (.torch (.scalar 1)) .plain []

/-- Plates of 2, 1 and 3 samples of matrices with 2 rows and 3 columns. -/
def t : STen ℚ := ⟨⟨[2, 3, 2, 3], fun idx => match idx with
  | [i, j, k, l] => 1000 * i + 100 * j + 10 * k + l
  | _ => 0⟩, [a, one, b], 2⟩

theorem proper : Proper t :=
  ⟨⟨by decide, by decide, by decide, by decide⟩, by
    intro p hp
    simp only [t, List.mem_cons, List.not_mem_nil, or_false] at hp
    rcases hp with rfl | rfl | rfl <;> rfl⟩

/-- The plate of 3 samples and the columns, by a negative number. -/
theorem good : GoodDims t [.plate "b", .pos (-1)] := by
  refine ⟨?_, ?_, by decide, by decide⟩
  · intro n hn
    simp only [List.mem_cons, DimArg.plate.injEq, reduceCtorEq, List.not_mem_nil, or_false] at hn
    exact ⟨b, by simp [t], hn ▸ rfl, by decide⟩
  · intro i hi
    simp only [List.mem_cons, DimArg.pos.injEq, reduceCtorEq, List.not_mem_nil, or_false, false_or] at hi
    subst hi
    exact .inr (by decide)

end DimsCase

/-- The sum over the plate of 3 samples and the columns; sample 1 of the other plate, row 1. -/
example : ∃ r, sumDims (fun _ a => .ok a) DimsCase.t [.plate "b", .pos (-1)] = .ok r ∧ r.plates = [DimsCase.a, DimsCase.one] ∧
    r.eventShape = [2] ∧ r.sample (fun _ => 1) [1] = 9999 := by
  obtain ⟨r, r1, -, r2, r3, r4⟩ := C70_sum_partial (fun _ _ _ => rfl) DimsCase.proper DimsCase.good (by simp)
  refine ⟨r, r1, by rw [r2]; rfl, by rw [r3]; decide, ?_⟩
  rw [r4 _ _ (by rw [r3]; decide)]
  decide +kernel

/-- A case for `C70_mean_partial`: the average over the plate of 3 samples and the columns. -/
example : ∃ r, meanDims (fun _ a => .ok a) (fun n => 1 / (n : ℚ)) DimsCase.t [.plate "b", .pos (-1)] = .ok r ∧
    r.sample (fun _ => 1) [1] = 1111 := by
  obtain ⟨r, r1, -, -, r3, r4⟩ := C70_mean_partial (fun _ _ _ => rfl) (fun n => 1 / (n : ℚ)) DimsCase.proper DimsCase.good (by simp)
  refine ⟨r, r1, ?_⟩
  rw [r4 _ _ (by rw [r3]; decide)]
  decide +kernel

/-- A case for `C70_logsumexp_partial`, with doubling and halving in place of `exp` and `log`. -/
example : ∃ r, logsumexpDims (fun _ a => .ok a) (2 * ·) (· / 2) DimsCase.t [.plate "b", .pos (-1)] = .ok r ∧
    r.sample (fun _ => 1) [1] = 9999 := by
  obtain ⟨r, r1, -, -, r3, r4⟩ := C70_logsumexp_partial (fun _ _ _ => rfl) (2 * ·) (· / 2) DimsCase.proper DimsCase.good (by simp)
  refine ⟨r, r1, ?_⟩
  rw [r4 _ _ (by rw [r3]; decide)]
  decide +kernel

/-- `C70_one_refuted` applies to the plate `one`. -/
example : ∃ e, sumDims (fun _ a => .ok a) DimsCase.t [.pos (-1), .plate "one"] = .error e :=
  C70_one_refuted (p := DimsCase.one) _ DimsCase.proper.wf (by simp [DimsCase.t]) rfl (by simp [DimsCase.one, Plate.name])

example : ∃ e, sumDims (fun _ a => .ok a) DimsCase.t [] = .error e :=
  C70_empty_refuted (fun _ _ _ => rfl) _ DimsCase.proper ⟨DimsCase.a, by simp [DimsCase.t], by decide⟩

example : ∃ e, sumDims (fun _ a => .ok a) DimsCase.t [.plate "b", .pos 1] = .error e :=
  C70_guard _ DimsCase.proper.wf (i := 1) (by simp) 1 (by decide) (.inl rfl)

end Storch
