import Verif.Props.ReduceProps
import Mathlib.Algebra.Order.Ring.Basic

/-!
# C15: `variance`
-/

namespace Storch
variable {α : Type _} [ValEq α]

/-! ### Specification -/

/-- The weighted mean over one plate. -/
def meanOver [Semiring α] (dt : α → α) (v : Plate α) (val : (String → Nat) → α) (ι : String → Nat) : α :=
  ∑ k ∈ Finset.range v.n, v.weightAt dt (Function.update ι v.name k) * val (Function.update ι v.name k)

/-- The sum over the event of the squared deviations from the weighted mean over the plate `v`. -/
def sqDev [Ring α] (dt : α → α) (v : Plate α) (t : STen α) (ι : String → Nat) : α :=
  ((allIdx t.eventShape).map (fun e =>
    (t.sample ι e - meanOver dt v (fun ι => t.sample ι e) ι) ^ 2)).sum

/-! ### Lemmas -/

theorem findVarPlate_ok {ps : List (Plate α)} (hn : (ps.map Plate.name).Nodup) {p : Plate α} (hp : p ∈ ps)
    {v : PArg α} (hv : v = .plate p ∨ v = .name p.name) : findVarPlate v ps = some p := by
  induction ps with
  | nil => cases hp
  | cons q ps ih =>
    simp only [List.map_cons, List.nodup_cons] at hn
    rcases hv with rfl | rfl
    · rw [findVarPlate]
      by_cases hq : q.pyEq p = true
      · simp [hq]
      · rcases List.mem_cons.1 hp with rfl | hp
        · exact absurd (Plate.pyEq_refl _) hq
        · simp [hq, ih hn.2 hp]
    · rw [findVarPlate]
      rcases List.mem_cons.1 hp with rfl | hp
      · simp
      · have : q.name ≠ p.name := fun e => hn.1 (e ▸ List.mem_map_of_mem hp)
        simp [this, ih hn.2 hp]

theorem binop_call {hook : UnwrapHook α} (hh : PlainHook hook) (f : List α → α) {t w : STen α}
    (h : Proper t) (hw : Proper w) (hin : ∀ q ∈ w.plates, q.isIn t.plates = true) (k : Nat)
    (hev : w.eventShape = t.eventShape ++ List.replicate k 1) :
    ∃ r, handleDet hook false false {} (elementwiseFn f) (opArgs [.st t false, .st w false]) = .ok (.st r false) ∧
      Proper r ∧ r.plates = t.plates ∧ r.eventShape = w.eventShape ∧
      ∀ ι e, Ten.InB e w.eventShape → r.sample ι e = f [t.sample ι e, w.sample ι e] := by
  have hg := goodOps_pair h hw hin false false
  have hlen : w.eventDims = t.eventDims + k := by simp [STen.eventDims, hev]
  have hE : maxEv [.st t false, .st w false] = w.eventDims := by
    simp [maxEv, stens, hlen]
  have h1 : (Operand.st t false).evShape w.eventDims = w.eventShape := by
    rw [Operand.evShape, hlen, hev]; congr 2; omega
  have h2 : (Operand.st w false).evShape w.eventDims = w.eventShape := by
    rw [Operand.evShape]; simp
  have hes : Ten.bshapes ([Operand.st t false, Operand.st w false].map
      (Operand.evShape (maxEv [.st t false, .st w false]))) = some w.eventShape := by
    rw [hE]
    simp only [List.map_cons, List.map_nil, h1, h2]
    apply bshapes_fit le_rfl
    have : Ten.padL w.eventShape.length w.eventShape = w.eventShape := by simp [Ten.padL]
    rw [this]
    generalize w.eventShape = s
    induction s with
    | nil => exact .nil
    | cons d s ih => exact .cons (Or.inr rfl) ih
  obtain ⟨r, a1, a2, a3, a4, a5⟩ := elementwise_call hook hh f [.st t false, .st w false] hg
    (by simp [stens]) (by simp) _ hes
  rw [callPlates_pair h.wf hin] at a3
  refine ⟨r, a1, ⟨a2, by rw [a3]; exact h.plain⟩, a3, a4, ?_⟩
  intro ι e he
  rw [a5 ι e he]
  simp [Operand.sample]

theorem binop_storch {hook : UnwrapHook α} (hh : PlainHook hook) (f : List α → α) {t w : STen α}
    (h : Proper t) (hw : Proper w) (hin : ∀ q ∈ w.plates, q.isIn t.plates = true) (k : Nat)
    (hev : w.eventShape = t.eventShape ++ List.replicate k 1) :
    ∃ r, asSt (handleDet hook false false {} (elementwiseFn f) (opArgs [.st t false, .st w false])) = .ok r ∧
      Proper r ∧ r.plates = t.plates ∧ r.eventShape = w.eventShape ∧
      ∀ ι e, Ten.InB e w.eventShape → r.sample ι e = f [t.sample ι e, w.sample ι e] := by
  obtain ⟨r, h1, h2⟩ := binop_call hh f h hw hin k hev
  exact ⟨r, by rw [h1]; rfl, h2⟩

theorem unop_call {hook : UnwrapHook α} (hh : PlainHook hook) (f : List α → α) {t : STen α}
    (h : Proper t) :
    ∃ r, handleDet hook false false {} (elementwiseFn f) (opArgs [.st t false]) = .ok (.st r false) ∧
      Proper r ∧ r.plates = t.plates ∧ r.eventShape = t.eventShape ∧
      ∀ ι e, Ten.InB e t.eventShape → r.sample ι e = f [t.sample ι e] := by
  have hg := goodOps_single h false
  have hE : maxEv [.st t false] = t.eventDims := by simp [maxEv, stens]
  have h2 : (Operand.st t false).evShape t.eventDims = t.eventShape := by
    rw [Operand.evShape]; simp
  have hes : Ten.bshapes ([Operand.st t false].map
      (Operand.evShape (maxEv [.st t false]))) = some t.eventShape := by
    rw [hE]
    simp only [List.map_cons, List.map_nil, h2]
    rw [bshapes_eq _ t.eventShape.length (by simp)]
    simp only [List.map_cons, List.map_nil, Ten.padL, Nat.sub_self, List.replicate_zero, List.nil_append]
    rw [bfold_cons]
    have : ∀ s : List Nat, Ten.bzip (List.replicate s.length 1) s = some s := by
      intro s
      induction s with
      | nil => rfl
      | cons d s ih =>
        by_cases hd : 1 = d
        · subst hd; simp [List.replicate_succ, Ten.bzip, Ten.bdim, ih]
        · simp [List.replicate_succ, Ten.bzip, Ten.bdim, ih, hd]
    rw [this]; rfl
  obtain ⟨r, a1, a2, a3, a4, a5⟩ := elementwise_call hook hh f [.st t false] hg
    (by simp [stens]) (by simp) _ hes
  have e : callPlates [.st t false] = t.plates := by
    rw [callPlates, collectArgs]
    simp only [opArgs, List.map_cons, List.map_nil, Operand.val, collectList, Val.collect]
    simpa using addPlates_self t.plates h.wf.names [] (by simp)
  rw [e] at a3
  refine ⟨r, a1, ⟨a2, by rw [a3]; exact h.plain⟩, a3, a4, ?_⟩
  intro ι e he
  rw [a5 ι e he]
  simp [Operand.sample]

theorem unop_storch {hook : UnwrapHook α} (hh : PlainHook hook) (f : List α → α) {t : STen α}
    (h : Proper t) :
    ∃ r, asSt (handleDet hook false false {} (elementwiseFn f) (opArgs [.st t false])) = .ok r ∧
      Proper r ∧ r.plates = t.plates ∧ r.eventShape = t.eventShape ∧
      ∀ ι e, Ten.InB e t.eventShape → r.sample ι e = f [t.sample ι e] := by
  obtain ⟨r, h1, h2⟩ := unop_call hh f h
  exact ⟨r, by rw [h1]; rfl, h2⟩

omit [ValEq α] in
theorem allIdx_append_sum [AddCommMonoid α] (s r : List Nat) (f : List Nat → α) :
    ((allIdx (s ++ r)).map f).sum =
      ((allIdx s).map (fun e => ((allIdx r).map (fun e' => f (e ++ e'))).sum)).sum := by
  induction s generalizing f with
  | nil => simp [allIdx]
  | cons d s ih =>
    simp only [List.cons_append, allIdx]
    rw [List.map_flatMap, List.map_flatMap, List.flatMap_def, List.flatMap_def, List.sum_flatten,
      List.sum_flatten, List.map_map, List.map_map]
    congr 1
    apply List.map_congr_left
    intro i _
    simp only [Function.comp, List.map_map]
    have := ih (fun e => f (i :: e))
    simpa [Function.comp_def] using this

omit [ValEq α] in
theorem sumBlock_spec [AddCommMonoid α] (pre post : List Nat) (ev : List Nat) : ∀ (t : Ten α),
    t.shape = pre ++ (ev ++ post) →
    ∃ r, t.sumBlock pre.length ev.length = .ok r ∧ r.shape = pre ++ post ∧
      ∀ i j, i.length = pre.length → r.get (i ++ j) =
        ((allIdx ev).map (fun e => t.get (i ++ (e ++ j)))).sum := by
  induction ev using List.reverseRecOn with
  | nil =>
    intro t ht
    exact ⟨t, rfl, by simpa using ht, by intro i j _; simp [allIdx]⟩
  | append_singleton ev d ih =>
    intro t ht
    have hget : t.shape[pre.length + ev.length]? = some d := by
      rw [ht]
      simp
    have her : t.shape.eraseIdx (pre.length + ev.length) = pre ++ (ev ++ post) := by
      rw [ht, List.eraseIdx_append_of_length_le (by simp), List.append_assoc,
        List.eraseIdx_append_of_length_le (by simp)]
      simp
    obtain ⟨r, r1, r2, r3⟩ := ih ⟨t.shape.eraseIdx (pre.length + ev.length),
      fun idx => ∑ k ∈ Finset.range d, t.get (idx.insertIdx (pre.length + ev.length) k)⟩ her
    refine ⟨r, ?_, r2, ?_⟩
    · rw [List.length_append, List.length_singleton, Ten.sumBlock, Ten.sumDim, hget]
      exact r1
    · intro i j hi
      rw [r3 i j hi, allIdx_append_sum]
      congr 1
      apply List.map_congr_left
      intro e he
      have hel : e.length = ev.length := InB.length_eq (mem_allIdx.1 he)
      simp only [allIdx]
      rw [← sum_range_list]
      simp only [List.map_cons, List.map_nil, List.flatMap_def, List.map_flatten, List.map_map]
      rw [List.sum_flatten, List.map_map]
      congr 1
      apply List.map_congr_left
      intro k _
      simp only [Function.comp, List.map_cons, List.map_nil, List.sum_cons, List.sum_nil, add_zero]
      congr 1
      rw [← List.append_assoc, ← hi, ← hel, ← List.length_append, insertIdx_length]
      simp

/-- `tensor.sum(event_dim_indices)` on the first `ev` event dimensions. -/
theorem sumEvents_spec [AddCommMonoid α] {hook : UnwrapHook α} (hh : PlainHook hook) {t : STen α}
    (h : Proper t) (ev : List Nat) (k : Nat) (hev : t.eventShape = ev ++ List.replicate k 1) :
    ∃ r, asSt (handleDet hook false false {} (sumBlockFn t.plateDims ev.length)
        ⟨[.st t false, .lst ((List.range ev.length).map (fun i => .other (t.plateDims + i)))], []⟩) = .ok r ∧
      Proper r ∧ r.plates = t.plates ∧ r.eventShape = List.replicate k 1 ∧
      ∀ ι e, Ten.InB e (List.replicate k 1) →
        r.sample ι e = ((allIdx ev).map (fun e' => t.sample ι (e' ++ e))).sum := by
  have hc : ∀ (l : List Nat) (c : Coll α) (m : Nat),
      collectList (l.map (fun i => Val.other i)) c m = (c, m) := by
    intro l
    induction l with
    | nil => intro c m; rfl
    | cons a l ih =>
      intro c m
      rw [List.map_cons, collectList]
      simp only [Val.collect, Nat.max_zero]
      exact ih c m
  have hu : ∀ (l : List Nat) cfg mdp ed, unwrapList hook cfg mdp ed (l.map (fun i => Val.other i)) =
      .ok (l.map (fun i => Val.other i)) := by
    intro l cfg mdp ed
    induction l with
    | nil => rfl
    | cons a l ih => rw [List.map_cons, unwrapList, Val.unwrap, ih]
  have hm : (List.range ev.length).map (fun i => (Val.other (t.plateDims + i) : Val α)) =
      ((List.range ev.length).map (t.plateDims + ·)).map (fun i => Val.other i) := by
    rw [List.map_map]; rfl
  have hsh : t.ten.shape = t.multiDimPlates.map Plate.n ++ (ev ++ List.replicate k 1) := by
    rw [h.wf.shape, hev]
  have hd : t.plateDims = (t.multiDimPlates.map Plate.n).length := by
    rw [h.wf.dims, List.length_map]
  obtain ⟨x, x1, x2, x3⟩ := sumBlock_spec _ _ ev t.ten hsh
  rw [← hd] at x1
  have hcall := handleDet_single hh h false true [] [.lst ((List.range ev.length).map (fun i => .other (t.plateDims + i)))]
    [.lst ((List.range ev.length).map (fun i => .other (t.plateDims + i)))]
    (fun c m => by
      rw [hm, collectList]
      simp only [Val.collect, hc, collectList, Nat.max_zero])
    (fun cfg mdp ed => by
      rw [hm, unwrapList, Val.unwrap, hu]
      rfl)
    (sumBlockFn t.plateDims ev.length) (.torch x) (by simp only [sumBlockFn, x1])
  have hfl : t.plates.filter (fun q => !decide (q.name ∈ ([] : List String))) = t.plates := by simp
  rw [hfl] at hcall
  obtain ⟨r, hr1, hr2, hr3, hr4, hr5⟩ := checkPlates_ok_of h.wf.names h.wf.pos x (List.replicate k 1) x2
  refine ⟨r, ?_, ⟨hr4, by rw [hr3]; exact h.plain⟩, hr3, hr5, ?_⟩
  · have : handleDet hook false false {} (sumBlockFn t.plateDims ev.length)
      ⟨[.st t false, .lst ((List.range ev.length).map (fun i => .other (t.plateDims + i)))], []⟩ = _ := hcall
    rw [this, Val.wrapOut]
    simp only [Bool.false_eq_true, if_false, hr1, asSt]
  · intro ι e he
    have hmd : r.multiDimPlates = t.multiDimPlates := by rw [STen.multiDimPlates, hr3]; rfl
    rw [STen.sample, hr2, hr5, hmd, bidx_of_inB he, x3 _ _ (by simp)]
    congr 1
    apply List.map_congr_left
    intro e' he'
    rw [STen.sample, hev]
    congr 2
    rw [bidx_of_inB (List.rel_append (mem_allIdx.1 he') he)]

/-! ### Theorems -/

/-- C15: `variance(t, v)` is the weighted average, over all plates of the tensor, of the squared
deviations from the weighted mean over `v`, summed over the event.  Missing: plates with one sample and a
storch weight; there the reduction itself is wrong (`C12_refuted`). -/
theorem C15_variance_partial [CommRing α] {hook : UnwrapHook α} (hh : PlainHook hook) (dt : α → α)
    {t : STen α} (h : Reduceable t) {args : List (PArg α)} {ps : List (Plate α)}
    (hreq : Requests t args ps) (hnd : (ps.map Plate.name).Nodup) {v : Plate α} (hv : v ∈ ps)
    {a : PArg α} (ha : a = .plate v ∨ a = .name v.name) (s : Bool) (ι : String → Nat) :
    ∃ r k, variance hook dt (.st t s) a args = .ok r ∧ r.plates = [] ∧
      r.ten.shape = List.replicate k 1 ∧ ((∀ p ∈ t.plates, ∃ w, p.weight = .torch w) → k = 0) ∧
      r.ten.get (List.replicate k 0) = weightedTotal dt t.plates (sqDev dt v t) ι := by
  have hvt := hreq.mem v hv
  obtain ⟨m, m1, m2, m3, ⟨km, m4⟩, m5, m6⟩ := reduce_step hh dt h.proper hvt (h.weights v hvt)
    (h.par v hvt)
  have hmin : ∀ q ∈ m.plates, q.isIn t.plates = true := by
    intro q hq; rw [m3] at hq; exact Plate.isIn_of_mem (List.mem_filter.1 hq).1
  obtain ⟨d, d1, d2, d3, d4, d5⟩ := binop_storch hh
    subElts h.proper m2 hmin km m4
  obtain ⟨q, q1, q2, q3, q4, q5⟩ := unop_storch hh
    sqElts d2
  have hqd : q.plateDims = t.plateDims := by
    rw [q2.wf.dims, h.proper.wf.dims, STen.multiDimPlates, q3, d3]; rfl
  -- the sum over the event
  have hsum : ∃ x, (if 0 < t.eventDims then
        asSt (handleDet hook false false {} (sumBlockFn t.plateDims t.eventDims)
          ⟨[.st q false, .lst ((List.range t.eventDims).map (fun i => .other (t.plateDims + i)))], []⟩)
      else .ok q) = .ok x ∧ Proper x ∧ x.plates = t.plates ∧ x.eventShape = List.replicate km 1 ∧
      ∀ ι, x.sample ι (List.replicate km 0) = sqDev dt v t ι := by
    have hval : ∀ ι e, e ∈ allIdx t.eventShape → q.sample ι (e ++ List.replicate km 0) =
        (t.sample ι e - meanOver dt v (fun ι => t.sample ι e) ι) ^ 2 := by
      intro ι e he
      have he' := mem_allIdx.1 he
      have hin := inB_pad he' km
      rw [← m4] at hin
      rw [q5 ι _ (by rw [d4]; exact hin), d5 ι _ hin, m6 ι _ hin, pow_two]
      simp only [subElts, sqElts, meanOver, sample_append (InB.length_eq he')]
    have hev : q.eventShape = t.eventShape ++ List.replicate km 1 := by rw [q4, d4, m4]
    by_cases h0 : 0 < t.eventDims
    · obtain ⟨x, x1, x2, x3, x4, x5⟩ := sumEvents_spec hh q2 t.eventShape km hev
      rw [hqd] at x1
      refine ⟨x, by rw [if_pos h0]; exact x1, x2, by rw [x3, q3, d3], x4, ?_⟩
      intro ι
      rw [x5 ι _ (inB_replicate km), sqDev]
      congr 1
      exact List.map_congr_left (hval ι)
    · have he : t.eventShape = [] := by
        rw [STen.eventDims] at h0; exact List.length_eq_zero_iff.1 (by omega)
      refine ⟨q, by rw [if_neg h0], q2, by rw [q3, d3], by rw [hev, he]; rfl, ?_⟩
      intro ι
      have := hval ι [] (by simp [he, allIdx])
      simpa [sqDev, he, allIdx] using this
  obtain ⟨x, x1, x2, x3, x4, x5⟩ := hsum
  have hx : Reduceable x := ⟨x2, by rw [x3]; exact h.weights, by rw [x3]; exact h.closed,
    by rw [x3]; exact h.acyclic⟩
  obtain ⟨r, k, r1, r2, r3, r4, r5⟩ := C12_weighted_sum_partial hh dt hx false ι
  refine ⟨r, km + k, ?_, r2, ?_, ?_, ?_⟩
  · rw [variance, handleInputs_ok h.proper.wf.names hreq]
    simp only [findVarPlate_ok hnd hv ha, m1, d1, q1, x1]
    exact r1
  · rw [r3, x4, List.replicate_append_replicate]
  · intro hw
    obtain ⟨w, hw'⟩ := hw v hvt
    have e1 := m5 w hw'
    rw [m4] at e1
    have : km = 0 := by simpa using congrArg List.length e1
    rw [this, r4 (by rw [x3]; exact hw)]
  · have := r5 (List.replicate km 0) (by rw [x4]; exact inB_replicate km)
    rw [List.replicate_append_replicate] at this
    rw [this, x3]
    unfold weightedTotal
    congr 1
    apply List.map_congr_left
    intro idx _
    simp only [x5]

omit [ValEq α] in
/-- A weighted total only looks at positions inside the plates. -/
theorem weightedTotal_valid [CommSemiring α] (dt : α → α) {ps : List (Plate α)}
    (hn : (ps.map Plate.name).Nodup) {f g : (String → Nat) → α}
    (h : ∀ ι, (∀ p ∈ ps, ι p.name < p.n) → f ι = g ι) (hpos : ∀ p ∈ ps, 1 ≤ p.n) :
    weightedTotal dt ps f (fun _ => 0) = weightedTotal dt ps g (fun _ => 0) := by
  rw [← weightedTotal_eq dt (List.Perm.refl ps) hn, ← weightedTotal_eq dt (List.Perm.refl ps) hn]
  apply nestSum_congr_on (Valid ps)
  · intro p hp k hk ι hι
    exact hι.update hn (List.mem_reverse.1 hp) hk
  · intro ι hι
    rw [h ι hι]
  · exact hpos

omit [ValEq α] in
theorem nestSum_nonneg [AddCommMonoid α] [PartialOrder α] [IsOrderedAddMonoid α]
    (P : (String → Nat) → Prop) (ps : List (Plate α))
    (hP : ∀ p ∈ ps, ∀ k < p.n, ∀ ι, P ι → P (Function.update ι p.name k))
    {F : (String → Nat) → α} (h : ∀ ι, P ι → 0 ≤ F ι) (ι : String → Nat) (hι : P ι) :
    0 ≤ nestSum ps F ι := by
  induction ps generalizing ι with
  | nil => exact h ι hι
  | cons p ps ih =>
    simp only [nestSum]
    apply Finset.sum_nonneg
    intro k hk
    exact ih (fun q hq => hP q (List.mem_cons_of_mem _ hq)) _
      (hP p (by simp) k (Finset.mem_range.1 hk) ι hι)

/-- C15: with non-negative weights the variance is non-negative. -/
theorem C15_nonneg [CommRing α] [LinearOrder α] [IsStrictOrderedRing α] {hook : UnwrapHook α}
    (hh : PlainHook hook) (dt : α → α) {t : STen α} (h : Reduceable t) {args : List (PArg α)}
    {ps : List (Plate α)} (hreq : Requests t args ps) (hnd : (ps.map Plate.name).Nodup) {v : Plate α}
    (hv : v ∈ ps) {a : PArg α} (ha : a = .plate v ∨ a = .name v.name) (s : Bool)
    (hw : ∀ p ∈ t.plates, ∀ ι, (∀ q ∈ t.plates, ι q.name < q.n) → 0 ≤ p.weightAt dt ι) :
    ∃ r, variance hook dt (.st t s) a args = .ok r ∧ r.plates = [] ∧
      0 ≤ r.ten.get (r.ten.shape.map (fun _ => 0)) := by
  obtain ⟨r, k, r1, r2, r3, _, r4⟩ := C15_variance_partial hh dt h hreq hnd hv ha s (fun _ => 0)
  refine ⟨r, r1, r2, ?_⟩
  have : r.ten.shape.map (fun _ => 0) = List.replicate k 0 := by rw [r3, List.map_replicate]
  rw [this, r4, ← weightedTotal_eq dt (List.Perm.refl t.plates) h.proper.wf.names]
  apply nestSum_nonneg (Valid t.plates)
  · intro p hp k hk ι hι
    exact hι.update h.proper.wf.names (List.mem_reverse.1 hp) hk
  · intro ι hι
    apply mul_nonneg
    · apply List.prod_nonneg
      intro x hx
      obtain ⟨p, hp, rfl⟩ := List.mem_map.1 hx
      exact hw p hp ι hι
    · rw [sqDev]
      apply List.sum_nonneg
      intro x hx
      obtain ⟨e, _, rfl⟩ := List.mem_map.1 hx
      exact sq_nonneg _
  · exact fun p hp => h.proper.wf.pos p hp

/-- C15: the variance along a plate whose weights sum to one is zero for a tensor that is constant along
it. -/
theorem C15_constant [CommRing α] {hook : UnwrapHook α} (hh : PlainHook hook) (dt : α → α)
    {t : STen α} (h : Reduceable t) {args : List (PArg α)} {ps : List (Plate α)}
    (hreq : Requests t args ps) (hnd : (ps.map Plate.name).Nodup) {v : Plate α} (hv : v ∈ ps)
    {a : PArg α} (ha : a = .plate v ∨ a = .name v.name) (s : Bool)
    (hw : ∀ ι, (∀ q ∈ t.plates, ι q.name < q.n) →
      ∑ k ∈ Finset.range v.n, v.weightAt dt (Function.update ι v.name k) = 1)
    (hc : ∀ ι e k, (∀ q ∈ t.plates, ι q.name < q.n) → Ten.InB e t.eventShape → k < v.n →
      t.sample (Function.update ι v.name k) e = t.sample ι e) :
    ∃ r, variance hook dt (.st t s) a args = .ok r ∧ r.plates = [] ∧
      r.ten.get (r.ten.shape.map (fun _ => 0)) = 0 := by
  obtain ⟨r, k, r1, r2, r3, _, r4⟩ := C15_variance_partial hh dt h hreq hnd hv ha s (fun _ => 0)
  refine ⟨r, r1, r2, ?_⟩
  have : r.ten.shape.map (fun _ => 0) = List.replicate k 0 := by rw [r3, List.map_replicate]
  rw [this, r4, weightedTotal_valid dt h.proper.wf.names (g := fun _ => 0) _ h.proper.wf.pos]
  · simp [weightedTotal]
  · intro ι hι
    rw [sqDev]
    apply List.sum_eq_zero
    intro x hx
    obtain ⟨e, he, rfl⟩ := List.mem_map.1 hx
    have : meanOver dt v (fun ι => t.sample ι e) ι = t.sample ι e := by
      rw [meanOver]
      rw [Finset.sum_congr rfl (fun k hk => by
        rw [hc ι e k hι (mem_allIdx.1 he) (Finset.mem_range.1 hk)]), ← Finset.sum_mul, hw ι hι, one_mul]
    rw [this]; simp

/-- C15: for a tensor with the one plate, whose weights sum to one, the variance is
`E[t²] - E[t]²`, summed over the event. -/
theorem C15_second_moment [CommRing α] {hook : UnwrapHook α} (hh : PlainHook hook) (dt : α → α)
    {t : STen α} (h : Reduceable t) {v : Plate α} (hv : t.plates = [v])
    {a : PArg α} (ha : a = .plate v ∨ a = .name v.name) (s : Bool)
    (hw : ∑ k ∈ Finset.range v.n, v.weightAt dt (fun _ => k) = 1) :
    ∃ r, variance hook dt (.st t s) a [] = .ok r ∧ r.plates = [] ∧
      r.ten.get (r.ten.shape.map (fun _ => 0)) =
        ((allIdx t.eventShape).map (fun e =>
          ∑ k ∈ Finset.range v.n, v.weightAt dt (fun _ => k) * t.sample (fun _ => k) e ^ 2 -
          (∑ k ∈ Finset.range v.n, v.weightAt dt (fun _ => k) * t.sample (fun _ => k) e) ^ 2)).sum := by
  have hvt : v ∈ t.plates := by simp [hv]
  obtain ⟨r, k, r1, r2, r3, _, r4⟩ := C15_variance_partial hh dt h (Or.inl ⟨rfl, rfl⟩)
    h.proper.wf.names hvt ha s (fun _ => 0)
  refine ⟨r, r1, r2, ?_⟩
  have hz : r.ten.shape.map (fun _ => 0) = List.replicate k 0 := by rw [r3, List.map_replicate]
  have hnp : ∀ w names, v.weight = .storch w names → v.parents = [] := by
    intro w names _
    by_contra hne
    obtain ⟨q, qs, hq⟩ := List.exists_cons_of_ne_nil hne
    obtain ⟨x, hx, hxe⟩ := h.closed v hvt q (by simp [hq])
    rw [hv, List.mem_singleton] at hx
    subst hx
    exact h.acyclic x.name (.single ⟨x, hvt, rfl, q, by simp [hq], (Plate.pyEq_name hxe).symm⟩)
  have hwt : ∀ ι k, v.weightAt dt (Function.update ι v.name k) = v.weightAt dt (fun _ => k) := by
    intro ι k
    unfold Plate.weightAt
    cases hvw : v.weight with
    | torch w => simp
    | storch w names =>
      simp only
      congr 2
      apply List.map_congr_left
      intro x hx
      rcases mem_weightPlates (List.mem_filter.1 hx).1 with rfl | hx
      · simp
      · rw [hnp w names hvw] at hx; cases hx
  have hst : ∀ ι k e, t.sample (Function.update ι v.name k) e = t.sample (fun _ => k) e := by
    intro ι k e
    rw [STen.sample, STen.sample]
    congr 2
    apply List.map_congr_left
    intro x hx
    have := (List.mem_filter.1 hx).1
    rw [hv, List.mem_singleton] at this
    subst this; simp
  have hone : ∀ f : (String → Nat) → α, weightedTotal dt [v] f (fun _ => 0) =
      ∑ k ∈ Finset.range v.n, v.weightAt dt (fun _ => k) * f (Function.update (fun _ => 0) v.name k) := by
    intro f
    rw [← weightedTotal_eq dt (List.Perm.refl [v]) (by simp)]
    simp [nestSum, hwt]
  rw [hz, r4, hv, hone]
  have hm : ∀ ι e, meanOver dt v (fun ι => t.sample ι e) ι =
      ∑ k ∈ Finset.range v.n, v.weightAt dt (fun _ => k) * t.sample (fun _ => k) e := by
    intro ι e
    rw [meanOver]
    exact Finset.sum_congr rfl (fun k _ => by rw [hwt, hst])
  simp only [sqDev, hm, hst]
  generalize allIdx t.eventShape = E
  induction E with
  | nil => simp
  | cons e E ih =>
    simp only [List.map_cons, List.sum_cons, mul_add, Finset.sum_add_distrib]
    rw [ih]
    congr 1
    set m := ∑ k ∈ Finset.range v.n, v.weightAt dt (fun _ => k) * t.sample (fun _ => k) e with hmdef
    have h1 : ∀ k, v.weightAt dt (fun _ => k) * (t.sample (fun _ => k) e - m) ^ 2 =
        v.weightAt dt (fun _ => k) * t.sample (fun _ => k) e ^ 2 -
          2 * m * (v.weightAt dt (fun _ => k) * t.sample (fun _ => k) e) +
          m ^ 2 * v.weightAt dt (fun _ => k) := by intro k; ring
    rw [Finset.sum_congr rfl (fun k _ => h1 k), Finset.sum_add_distrib, Finset.sum_sub_distrib,
      ← Finset.mul_sum, ← Finset.mul_sum, hw, ← hmdef]
    ring

/-! ### Cases -/

section Examples
private def hk : UnwrapHook Int := fun _ t => .ok t
private def pa : Plate Int := .mk "a" 2 (.torch ⟨[2], fun | [0] => 3 | _ => -2⟩) .plain []
private def pb : Plate Int := .mk "b" 3 (.torch (.scalar 2)) .plain [pa]
private def tx : STen Int := ⟨⟨[3, 2, 2], fun | [i, j, k] => i * i + 5 * j + k * i | _ => 0⟩, [pb, pa], 2⟩

private theorem tx_ok : Reduceable tx := by
  refine ⟨⟨⟨by decide, by decide, rfl, rfl⟩, ?_⟩, ?_, ?_, ?_⟩
  · intro p hp; simp [tx] at hp; rcases hp with rfl | rfl <;> rfl
  · intro p hp
    simp [tx] at hp
    rcases hp with rfl | rfl
    · exact .scalar _ rfl rfl
    · exact .vector _ rfl rfl (by decide)
  · intro p hp q hq
    simp [tx] at hp
    rcases hp with rfl | rfl
    · simp [pb, Plate.parents] at hq; subst hq
      exact ⟨pa, by simp [tx], Plate.pyEq_refl _⟩
    · simp [pa, Plate.parents] at hq
  · apply acyclic_of_rank (fun k => if k = "a" then 0 else 1)
    rintro a b ⟨p, hp, rfl, q, hq, rfl⟩
    simp [tx] at hp
    rcases hp with rfl | rfl
    · simp [pb, Plate.parents] at hq; subst hq; decide
    · simp [pa, Plate.parents] at hq

/-- A case for `C15_variance_partial`: two plates, one event dimension, the variance over the outer
plate. -/
example : Reduceable tx ∧ Requests tx [] tx.plates ∧ pa ∈ tx.plates ∧
    (match variance hk id (.st tx false) (.name "a") [] with
      | .ok r => decide (r.plates.map Plate.name = [] ∧ r.ten.shape = [] ∧
          r.ten.get [] = weightedTotal id tx.plates (sqDev id pa tx) (fun _ => 0) ∧
          r.ten.get [] = -1800)
      | .error _ => false) = true :=
  ⟨tx_ok, Or.inl ⟨rfl, rfl⟩, by simp [tx], by decide +kernel⟩

/-- One plate with weights 3 and -2, and a tensor that is constant along it. -/
private def ty : STen Int := ⟨⟨[2, 2], fun | [_, k] => 7 + k | _ => 0⟩, [pa], 1⟩

private theorem single_ok {t : STen Int} (ht : t.plates = [pa]) (hs : t.ten.shape = 2 :: t.eventShape) (hd : t.plateDims = 1) :
    Reduceable t := by
  refine ⟨⟨⟨by rw [ht]; decide, by rw [ht]; decide, ?_, ?_⟩, ?_⟩, ?_, ?_, ?_⟩
  · rw [STen.multiDimPlates, ht, hs]; rfl
  · rw [STen.multiDimPlates, ht, hd]; rfl
  · intro p hp; rw [ht, List.mem_singleton] at hp; subst hp; rfl
  · intro p hp; rw [ht, List.mem_singleton] at hp; subst hp; exact .vector _ rfl rfl (by decide)
  · intro p hp q hq; rw [ht, List.mem_singleton] at hp; subst hp; simp [pa, Plate.parents] at hq
  · apply acyclic_of_rank (fun _ => 0)
    rintro a b ⟨p, hp, rfl, q, hq, rfl⟩
    rw [ht, List.mem_singleton] at hp; subst hp; simp [pa, Plate.parents] at hq

/-- A case for `C15_constant`: the variance of a constant vector, with weights that sum to one. -/
example : ∃ r, variance hk id (.st ty false) (.name "a") [] = .ok r ∧ r.plates = [] ∧
    r.ten.get (r.ten.shape.map (fun _ => 0)) = 0 :=
  C15_constant (t := ty) (ps := [pa]) (v := pa) (fun _ _ _ => rfl) id (single_ok rfl rfl rfl) (Or.inl ⟨rfl, rfl⟩) (by simp)
    (by simp) (Or.inr rfl) false
    (by intro ι _; simp [Finset.sum_range_succ, pa, Plate.weightAt, Plate.n, Plate.name, Plate.weight])
    (by
      intro ι e k _ he _
      cases he with
      | cons h0 h1 =>
        cases h1
        simp only [STen.sample, STen.multiDimPlates, ty, pa, STen.eventShape, Plate.n, Plate.name]
        simp [Ten.bidx])

/-- A case for `C15_second_moment`: one plate with weights 3 and -2 of a vector. -/
example : ∃ r, variance hk id (.st ⟨⟨[2, 2], fun | [i, k] => 5 * i + k | _ => 0⟩, [pa], 1⟩ false) (.name "a") [] = .ok r ∧
    r.plates = [] ∧ r.ten.get (r.ten.shape.map (fun _ => 0)) = -300 := by
  obtain ⟨r, h1, h2, h3⟩ := C15_second_moment (hook := hk) (t := ⟨⟨[2, 2], fun | [i, k] => 5 * i + k | _ => 0⟩, [pa], 1⟩) (v := pa)
    (fun _ _ _ => rfl) id (single_ok rfl rfl rfl) rfl (a := .name "a") (Or.inr rfl) false (by decide)
  exact ⟨r, h1, h2, by rw [h3]; decide⟩

/-- Two samples with the weights 1 and 2. -/
private def pp : Plate Int := .mk "p" 2 (.torch ⟨[2], fun | [0] => 1 | _ => 2⟩) .plain []

/-- A case for `C15_nonneg`: weights that are not negative (and do not sum to one). -/
example : ∃ r, variance hk id (.st ⟨⟨[2], fun | [i] => 5 * i | _ => 0⟩, [pp], 1⟩ false) (.name "p") [] = .ok r ∧ r.plates = [] ∧
    0 ≤ r.ten.get (r.ten.shape.map (fun _ => 0)) := by
  refine C15_nonneg (hook := hk) (t := ⟨⟨[2], fun | [i] => 5 * i | _ => 0⟩, [pp], 1⟩) (ps := [pp]) (v := pp)
    (fun _ _ _ => rfl) id ?_ (Or.inl ⟨rfl, rfl⟩) (by simp) (by simp) (a := .name "p") (Or.inr rfl) false ?_
  · refine ⟨⟨⟨by decide, by decide, rfl, rfl⟩, ?_⟩, ?_, ?_, ?_⟩
    · intro p hp; rw [List.mem_singleton] at hp; subst hp; rfl
    · intro p hp; rw [List.mem_singleton] at hp; subst hp; exact .vector _ rfl rfl (by decide)
    · intro p hp q hq; rw [List.mem_singleton] at hp; subst hp; simp [pp, Plate.parents] at hq
    · apply acyclic_of_rank (fun _ => 0)
      rintro a b ⟨p, hp, rfl, q, hq, rfl⟩
      rw [List.mem_singleton] at hp; subst hp; simp [pp, Plate.parents] at hq
  · intro p hp ι h
    rw [List.mem_singleton] at hp
    subst hp
    simp only [pp, Plate.weightAt, Plate.weight, Plate.name]
    split <;> simp

end Examples

end Storch
