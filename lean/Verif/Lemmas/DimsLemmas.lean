import Verif.Model.Dims
import Verif.Lemmas.ReduceAll

/-! Lemmas on `storch.mean`, `storch.sum` and `storch.logsumexp`. -/

namespace Storch
variable {α : Type _}

/-- The plates named in `dims`. -/
def plateNames : List DimArg → List String
  | [] => []
  | .pos _ :: r => plateNames r
  | .plate n :: r => n :: plateNames r

/-- The event dimension, counted from 0, that the number `i` denotes. -/
def eventDim (t : STen α) (i : Int) : Nat :=
  if 0 ≤ i then (i - t.plateDims).toNat else (i + t.eventDims).toNat

/-- The event dimensions in `dims`. -/
def eventDimsOf (t : STen α) : List DimArg → List Nat
  | [] => []
  | .pos i :: r => eventDim t i :: eventDimsOf t r
  | .plate _ :: r => eventDimsOf t r

/-- The elements of a list at the positions not in `ds`. -/
def dropDims (ds : List Nat) (e : List Nat) : List Nat :=
  (e.zipIdx.filter (fun x => decide (x.2 ∉ ds))).map Prod.fst

/-- `dims` names plates with several samples and event dimensions of the tensor, each at most once. -/
structure GoodDims (t : STen α) (dims : List DimArg) : Prop where
  plates : ∀ n, .plate n ∈ dims → ∃ p ∈ t.plates, p.name = n ∧ 1 < p.n
  events : ∀ i, .pos i ∈ dims →
    ((t.plateDims : Int) ≤ i ∧ i < t.plateDims + t.eventDims) ∨ (-(t.eventDims : Int) ≤ i ∧ i < 0)
  names : (plateNames dims).Nodup
  distinct : (eventDimsOf t dims).Nodup

theorem GoodDims.tail {t : STen α} {d : DimArg} {dims : List DimArg} (h : GoodDims t (d :: dims)) : GoodDims t dims := by
  refine ⟨fun n hn => h.plates n (List.mem_cons_of_mem _ hn), fun i hi => h.events i (List.mem_cons_of_mem _ hi), ?_, ?_⟩
  · have := h.names; cases d with
    | pos i => exact this
    | plate n => exact (List.nodup_cons.1 this).2
  · have := h.distinct; cases d with
    | pos i => exact (List.nodup_cons.1 this).2
    | plate n => exact this

/-- The position of a dimension in the tensor. -/
def dimPos (t : STen α) : DimArg → Nat
  | .pos i => t.plateDims + eventDim t i
  | .plate n => (t.multiDimPlates.map Plate.name).idxOf n

/-- The number that is passed to torch. -/
def dimCode (t : STen α) : DimArg → Int
  | .pos i => i
  | .plate n => ((t.multiDimPlates.map Plate.name).idxOf n : Nat)

theorem indexBy_idxOf (n : String) (l : List String) (h : n ∈ l) :
    indexBy (fun a b => a == b) n l = some (l.idxOf n) := by
  induction l with
  | nil => cases h
  | cons a l ih =>
    by_cases e : a = n
    · subst e; simp [indexBy]
    · have : n ∈ l := by simpa [Ne.symm e] using h
      rw [indexBy, ih this, List.idxOf_cons_ne _ e]
      simp [e]

theorem mem_multi_names {t : STen α} {n : String} (h : ∃ p ∈ t.plates, p.name = n ∧ 1 < p.n) :
    n ∈ t.multiDimPlates.map Plate.name := by
  obtain ⟨p, hp, rfl, h1⟩ := h
  exact List.mem_map_of_mem (List.mem_filter.2 ⟨hp, by simpa using h1⟩)

theorem convert_good {t : STen α} (dims : List DimArg) (h : GoodDims t dims) :
    convertIndices t dims = .ok (dims.map (dimCode t), plateNames dims) := by
  induction dims with
  | nil => rfl
  | cons d dims ih =>
    have ih := ih h.tail
    cases d with
    | pos i =>
      have := h.events i (by simp)
      rw [convertIndices, if_pos (by omega), ih]
      rfl
    | plate n =>
      have hm := mem_multi_names (h.plates n (by simp))
      rw [convertIndices, STen.plateDimIndex, indexBy_idxOf n _ hm]
      simp only [ih]
      rfl

theorem norm_good {t : STen α} (hw : t.WF) (dims : List DimArg) (h : GoodDims t dims) :
    normDims t.ten.ndim (dims.map (dimCode t)) = .ok (dims.map (dimPos t)) := by
  have hd : t.ten.ndim = t.plateDims + t.eventDims := by
    rw [Ten.ndim, hw.shape, hw.dims, STen.eventDims]; simp
  induction dims with
  | nil => rfl
  | cons d dims ih =>
    have ih := ih h.tail
    have : normDim t.ten.ndim (dimCode t d) = .ok (dimPos t d) := by
      cases d with
      | pos i =>
        have := h.events i (by simp)
        rw [normDim, if_pos (by simp only [dimCode, hd]; omega)]
        simp only [dimCode, dimPos, eventDim, hd]
        congr 1
        split <;> split <;> omega
      | plate n =>
        have hm := mem_multi_names (h.plates n (by simp))
        have hl := List.idxOf_lt_length_of_mem hm
        rw [List.length_map, ← hw.dims] at hl
        rw [normDim, if_pos (by simp only [dimCode, hd]; omega)]
        simp only [dimCode, dimPos]
        congr 1
    rw [List.map_cons, normDims, this]
    simp only [ih, List.map_cons]

theorem mem_pos_plate {t : STen α} (hw : t.WF) {dims : List DimArg} (h : GoodDims t dims) {k : Nat}
    (hk : k < t.multiDimPlates.length) :
    k ∈ dims.map (dimPos t) ↔ (t.multiDimPlates[k]).name ∈ plateNames dims := by
  induction dims with
  | nil => simp [plateNames]
  | cons d dims ih =>
    rw [List.map_cons, List.mem_cons, ih h.tail]
    cases d with
    | pos i =>
      simp only [dimPos, plateNames]
      rw [hw.dims]
      constructor
      · rintro (h1 | h1)
        · omega
        · exact h1
      · exact .inr
    | plate n =>
      simp only [dimPos, plateNames, List.mem_cons]
      have hm := mem_multi_names (h.plates n (by simp))
      have hl := List.idxOf_lt_length_of_mem hm
      apply or_congr_left
      constructor
      · rintro rfl
        have := List.getElem_idxOf hl
        rw [List.getElem_map] at this
        exact this
      · intro e
        have hnd := STen.nodup_multi hw
        have hk' : k < (t.multiDimPlates.map Plate.name).length := by simpa using hk
        have := hnd.idxOf_getElem k hk'
        rw [List.getElem_map, e] at this
        exact this.symm

theorem mem_pos_event {t : STen α} (hw : t.WF) {dims : List DimArg} (h : GoodDims t dims) (j : Nat) :
    t.multiDimPlates.length + j ∈ dims.map (dimPos t) ↔ j ∈ eventDimsOf t dims := by
  induction dims with
  | nil => simp [eventDimsOf]
  | cons d dims ih =>
    rw [List.map_cons, List.mem_cons, ih h.tail]
    cases d with
    | pos i =>
      simp only [dimPos, eventDimsOf, List.mem_cons]
      rw [hw.dims]
      apply or_congr_left
      omega
    | plate n =>
      simp only [dimPos, eventDimsOf]
      have hm := mem_multi_names (h.plates n (by simp))
      have hl := List.idxOf_lt_length_of_mem hm
      rw [List.length_map] at hl
      constructor
      · rintro (h1 | h1)
        · omega
        · exact h1
      · exact .inr

theorem pos_nodup {t : STen α} (hw : t.WF) {dims : List DimArg} (h : GoodDims t dims) : (dims.map (dimPos t)).Nodup := by
  induction dims with
  | nil => simp
  | cons d dims ih =>
    rw [List.map_cons, List.nodup_cons]
    refine ⟨?_, ih h.tail⟩
    cases d with
    | pos i =>
      simp only [dimPos]
      rw [hw.dims, mem_pos_event hw h.tail]
      exact (List.nodup_cons.1 h.distinct).1
    | plate n =>
      simp only [dimPos]
      have hm := mem_multi_names (h.plates n (by simp))
      have hl := List.idxOf_lt_length_of_mem hm
      have hl' := hl
      rw [List.length_map] at hl'
      rw [mem_pos_plate hw h.tail hl']
      have := List.getElem_idxOf hl
      rw [List.getElem_map] at this
      rw [this]
      exact (List.nodup_cons.1 h.names).1

/-! ### Blocks -/

theorem keepShape_append {m1 m2 : List Bool} {s1 s2 : List Nat} (h : m1.length = s1.length) :
    keepShape (m1 ++ m2) (s1 ++ s2) = keepShape m1 s1 ++ keepShape m2 s2 := by
  induction m1 generalizing s1 with
  | nil => cases s1 with
    | nil => simp [keepShape]
    | cons => simp at h
  | cons b m1 ih => cases s1 with
    | nil => simp at h
    | cons d s1 =>
      have := ih (s1 := s1) (by simpa using h)
      cases b <;> simp [keepShape, this]

theorem blockIdx_append {m1 m2 : List Bool} {s1 s2 i1 i2 : List Nat} (h : m1.length = s1.length)
    (hi : i1.length = (keepShape m1 s1).length) :
    blockIdx (m1 ++ m2) (s1 ++ s2) (i1 ++ i2) =
      (blockIdx m1 s1 i1).flatMap (fun a => (blockIdx m2 s2 i2).map (a ++ ·)) := by
  induction m1 generalizing s1 i1 with
  | nil => cases s1 with
    | nil =>
      have : i1 = [] := List.eq_nil_of_length_eq_zero (by simpa [keepShape] using hi)
      subst this
      simp [blockIdx]
    | cons => simp at h
  | cons b m1 ih => cases s1 with
    | nil => simp at h
    | cons d s1 =>
      cases b with
      | false =>
        cases i1 with
        | nil => simp [keepShape] at hi
        | cons i i1 =>
          have := ih (s1 := s1) (i1 := i1) (by simpa using h) (by simpa [keepShape] using hi)
          simp only [List.cons_append, blockIdx, this, List.map_flatMap, List.flatMap_map, List.map_map]
          rfl
      | true =>
        have := ih (s1 := s1) (i1 := i1) (by simpa using h) (by simpa [keepShape] using hi)
        simp only [List.cons_append, blockIdx, this, List.flatMap_assoc]
        congr 1
        funext k
        simp only [List.map_flatMap, List.flatMap_map, List.map_map]
        rfl

theorem keep_plates (M : List (Plate α)) (f : Plate α → Bool) :
    keepShape (M.map f) (M.map Plate.n) = (M.filter (fun p => !f p)).map Plate.n := by
  induction M with
  | nil => rfl
  | cons p M ih => cases h : f p <;> simp [keepShape, h, ih]

theorem assign_notMem {P : List (Plate α)} {s : String} (h : s ∉ P.map Plate.name) (ks : List Nat) (ι : String → Nat) :
    assign P ks ι s = ι s := by
  induction P generalizing ks ι with
  | nil => simp [assign]
  | cons p P ih =>
    simp only [List.map_cons, List.mem_cons, not_or] at h
    cases ks with
    | nil => simp [assign]
    | cons k ks =>
      rw [assign, ih h.2, Function.update_of_ne h.1]

theorem assign_eq {P : List (Plate α)} {s : String} {ι ι' : String → Nat} (h : ι s = ι' s) (ks : List Nat) :
    assign P ks ι s = assign P ks ι' s := by
  induction P generalizing ks ι ι' with
  | nil => simpa [assign] using h
  | cons p P ih =>
    cases ks with
    | nil => simpa [assign] using h
    | cons k ks =>
      rw [assign, assign]
      apply ih
      by_cases e : s = p.name
      · subst e; simp
      · simp [Function.update_of_ne e, h]

theorem block_plates (M : List (Plate α)) (hn : (M.map Plate.name).Nodup) (f : Plate α → Bool) (ι : String → Nat) :
    blockIdx (M.map f) (M.map Plate.n) ((M.filter (fun p => !f p)).map (fun p => ι p.name)) =
      (allIdx ((M.filter f).map Plate.n)).map (fun ks => M.map (fun p => assign (M.filter f) ks ι p.name)) := by
  induction M generalizing ι with
  | nil => simp [blockIdx, allIdx]
  | cons p M ih =>
    rw [List.map_cons, List.nodup_cons] at hn
    have hsub : ∀ {s}, s ∉ M.map Plate.name → s ∉ (M.filter f).map Plate.name :=
      fun h hm => h (List.Sublist.mem hm (List.filter_sublist.map _))
    cases h : f p with
    | false =>
      simp only [List.map_cons, h, List.filter_cons, Bool.not_false, if_true, Bool.false_eq_true, if_false, blockIdx]
      rw [ih hn.2 ι, List.map_map]
      apply List.map_congr_left
      intro ks _
      simp only [Function.comp]
      rw [assign_notMem (hsub hn.1)]
    | true =>
      simp only [List.map_cons, h, List.filter_cons, Bool.not_true, if_true, Bool.false_eq_true, if_false, blockIdx, allIdx]
      rw [ih hn.2 ι, List.map_flatMap]
      congr 1
      funext k
      simp only [List.map_map]
      apply List.map_congr_left
      intro ks _
      simp only [Function.comp, assign]
      rw [assign_notMem (hsub hn.1), Function.update_self]
      congr 1
      apply List.map_congr_left
      intro q hq
      apply assign_eq
      rw [Function.update_of_ne]
      intro e
      exact hn.1 (e ▸ List.mem_map_of_mem hq)

/-! ### Event dimensions -/

theorem dropFrom_keep (ds : List Nat) (s : List Nat) (k : Nat) :
    keepShape ((List.range' k s.length).map (fun j => decide (j ∈ ds))) s =
      ((s.zipIdx k).filter (fun x => decide (x.2 ∉ ds))).map Prod.fst := by
  induction s generalizing k with
  | nil => simp [keepShape]
  | cons d s ih =>
    simp only [List.length_cons, List.range'_succ, List.map_cons, List.zipIdx_cons, List.filter_cons]
    by_cases h : k ∈ ds
    · simp [h, keepShape, ih]
    · simp [h, keepShape, ih]

theorem flatMap_single {β : Type _} {d a : Nat} (h : a < d) (f : Nat → List β) :
    (List.range d).flatMap (fun i => if i = a then f i else []) = f a := by
  induction d with
  | zero => omega
  | succ d ih =>
    rw [List.range_succ, List.flatMap_append, List.flatMap_singleton]
    by_cases e : a = d
    · subst e
      have : (List.range a).flatMap (fun i => if i = a then f i else []) = [] := by
        rw [List.flatMap_eq_nil_iff]
        intro i hi
        rw [if_neg]
        have := List.mem_range.1 hi
        omega
      rw [this, if_pos rfl, List.nil_append]
    · rw [ih (by omega), if_neg (Ne.symm e), List.append_nil]

theorem dropFrom_block (ds : List Nat) (s : List Nat) (k : Nat) (e : List Nat)
    (he : Ten.InB e (((s.zipIdx k).filter (fun x => decide (x.2 ∉ ds))).map Prod.fst)) :
    (allIdx s).filter (fun e' => decide (((e'.zipIdx k).filter (fun x => decide (x.2 ∉ ds))).map Prod.fst = e)) =
      blockIdx ((List.range' k s.length).map (fun j => decide (j ∈ ds))) s e := by
  induction s generalizing k e with
  | nil =>
    have : e = [] := by simpa [Ten.InB] using he
    subst this
    simp [allIdx, blockIdx]
  | cons d s ih =>
    simp only [List.length_cons, List.range'_succ, List.map_cons, allIdx, List.filter_flatMap, List.filter_map]
    simp only [List.zipIdx_cons, List.filter_cons] at he
    by_cases h : k ∈ ds
    · simp only [h, not_true_eq_false, decide_false, Bool.false_eq_true, if_false] at he
      simp only [h, decide_true, blockIdx, ← ih (k + 1) e he]
      congr 1
      funext i
      congr 2
      funext e'
      simp [h]
    · simp only [h, not_false_eq_true, decide_true, if_true, List.map_cons] at he
      cases he with
      | @cons i _ e0 _ hi he =>
        simp only [h, decide_false, blockIdx, ← ih (k + 1) e0 he]
        rw [← flatMap_single hi (fun i => List.map (i :: ·) _)]
        congr 1
        funext j
        by_cases hj : j = i
        · subst hj
          simp only [if_true]
          congr 2
          funext e'
          simp [h]
        · rw [if_neg hj]
          simp [h, hj]

/-! ### The reduction -/

theorem mask_good {t : STen α} (hw : t.WF) {dims : List DimArg} (h : GoodDims t dims) (hne : dims ≠ []) :
    (List.range t.ten.ndim).map (fun k => (dims.map (dimPos t)).isEmpty || decide (k ∈ dims.map (dimPos t))) =
      t.multiDimPlates.map (fun p => decide (p.name ∈ plateNames dims)) ++
        (List.range' 0 t.eventShape.length).map (fun j => decide (j ∈ eventDimsOf t dims)) := by
  have hd : t.ten.ndim = t.multiDimPlates.length + t.eventShape.length := by
    rw [Ten.ndim, hw.shape]; simp
  have he : (dims.map (dimPos t)).isEmpty = false := by simpa using hne
  rw [hd, List.range_add, List.map_append, List.map_map, ← List.range_eq_range']
  congr 1
  · apply List.ext_getElem
    · simp
    · intro k h1 h2
      simp only [List.getElem_map, List.getElem_range, he, Bool.false_or]
      simp only [List.length_map] at h2
      simp only [mem_pos_plate hw h h2]
  · apply List.map_congr_left
    intro j _
    simp only [Function.comp, he, Bool.false_or, mem_pos_event hw h]

variable [ValEq α]

theorem reduceWith_spec {hook : UnwrapHook α} (hh : PlainHook hook) (red : List α → α) {t : STen α} (h : Proper t)
    {dims : List DimArg} (hd : GoodDims t dims) (hne : dims ≠ []) :
    ∃ r, reduceWith hook red t dims = .ok r ∧ Proper r ∧
      r.plates = t.plates.filter (fun p => !decide (p.name ∈ plateNames dims)) ∧
      r.eventShape = dropDims (eventDimsOf t dims) t.eventShape ∧
      ∀ ι e, e ∈ allIdx r.eventShape → r.sample ι e =
        red ((allIdx ((t.multiDimPlates.filter (fun p => decide (p.name ∈ plateNames dims))).map Plate.n)).flatMap (fun ks =>
          ((allIdx t.eventShape).filter (fun e' => decide (dropDims (eventDimsOf t dims) e' = e))).map (fun e' =>
            t.sample (assign (t.multiDimPlates.filter (fun p => decide (p.name ∈ plateNames dims))) ks ι) e'))) := by
  set f : Plate α → Bool := fun p => decide (p.name ∈ plateNames dims) with hf
  set em := (List.range' 0 t.eventShape.length).map (fun j => decide (j ∈ eventDimsOf t dims)) with hem
  have hml : (t.multiDimPlates.map f).length = (t.multiDimPlates.map Plate.n).length := by simp
  set x : Ten α := ⟨(t.multiDimPlates.filter (fun p => !f p)).map Plate.n ++ dropDims (eventDimsOf t dims) t.eventShape,
    fun idx => red ((blockIdx (t.multiDimPlates.map f ++ em) t.ten.shape idx).map t.ten.get)⟩ with hx
  have hred : t.ten.reduceDims red (dims.map (dimCode t)) = .ok x := by
    rw [Ten.reduceDims, norm_good h.wf dims hd]
    simp only [if_pos (pos_nodup h.wf hd), mask_good h.wf hd hne]
    rw [hx]
    congr 2
    conv_lhs => rw [h.wf.shape]
    rw [keepShape_append hml, keep_plates, dropFrom_keep]
    rfl
  have hcall := handleDet_single hh h false true (plateNames dims) [] []
    (fun c m => by simp [collectList]) (fun cfg mdp ed => rfl) (reduceFn red (dims.map (dimCode t)))
    (.torch x) (by simp only [reduceFn, hred])
  have hfil : ((t.plates.filter (fun q => !decide (q.name ∈ plateNames dims))).filter (fun q => decide (1 < q.n))) =
      t.multiDimPlates.filter (fun p => !f p) := by
    rw [List.filter_comm]; rfl
  obtain ⟨r, hr1, hr2, hr3, hr4, hr5⟩ := checkPlates_ok_of (R := t.plates.filter (fun q => !decide (q.name ∈ plateNames dims)))
    (h.wf.names.sublist (List.filter_sublist.map _))
    (fun q hq => h.wf.pos q (List.mem_filter.1 hq).1) x (dropDims (eventDimsOf t dims) t.eventShape)
    (by rw [hfil])
  refine ⟨r, ?_, ⟨hr4, ?_⟩, hr3, hr5, ?_⟩
  · rw [reduceWith, convert_good dims hd]
    simp only
    rw [hcall, Val.wrapOut]
    simp only [Bool.false_eq_true, if_false, hr1]
    rfl
  · intro q hq; rw [hr3] at hq; exact h.plain q (List.mem_filter.1 hq).1
  · intro ι e he
    have hmd : r.multiDimPlates = t.multiDimPlates.filter (fun p => !f p) := by
      rw [STen.multiDimPlates, hr3, hfil]
    rw [STen.sample, hr2, hmd, hx]
    simp only
    conv_lhs => rw [h.wf.shape]
    rw [blockIdx_append hml (by rw [keep_plates]; simp), block_plates _ (STen.nodup_multi h.wf)]
    rw [List.flatMap_map, List.map_flatMap]
    rw [hr5] at he
    have hb := dropFrom_block (eventDimsOf t dims) t.eventShape 0 e (mem_allIdx.1 he)
    rw [← hem] at hb
    rw [hr5, bidx_of_inB (mem_allIdx.1 he), ← hb]
    congr 2
    funext ks
    rw [List.map_map]
    apply List.map_congr_left
    intro e' he'
    rw [Function.comp, STen.sample, bidx_of_inB (mem_allIdx.1 (List.mem_filter.1 he').1)]

end Storch
