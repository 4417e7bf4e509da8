import Mathlib.Algebra.BigOperators.Ring.Finset
import Mathlib.Algebra.BigOperators.Group.List.Basic
import Mathlib.Tactic.Ring
import Verif.Model.Reduce
import Verif.Props.BroadcastProps

/-! One reduction step: `Plate.reduce` sums out one plate. -/

namespace Storch
variable {α : Type _} [ValEq α]

/-! ### A call with a single storch tensor leaves it as it is -/

theorem swapLoop_self (ps : List (Plate α)) :
    ∀ (pre : List (Plate α)) (t : Ten α), swapLoop ps t (pre ++ ps) pre.length = .ok (t, pre ++ ps) := by
  induction ps with
  | nil => intro pre t; rfl
  | cons p ps ih =>
    intro pre t
    have hin : p.isIn (pre ++ p :: ps) = true := Plate.isIn_of_mem (by simp)
    rw [swapLoop, if_pos hin]
    have : (pre ++ p :: ps)[pre.length]? = some p := by simp
    rw [this]
    simp only [Plate.pyEq_refl, if_true]
    have := ih (pre ++ [p]) t
    simpa using this

theorem unsqLoop_self (aPlates : List (Plate α)) (ps : List (Plate α)) (hin : ∀ p ∈ ps, p ∈ aPlates) :
    ∀ (pre ev : List Nat) (t : Ten α) (dims : List Nat), t.shape = pre ++ (ps.map Plate.n ++ ev) →
      unsqLoop aPlates ps pre.length t dims = .ok (t, dims ++ ps.map Plate.n) := by
  induction ps with
  | nil => intro pre ev t dims _; simp [unsqLoop]
  | cons p ps ih =>
    intro pre ev t dims hs
    have h1 : p.isIn aPlates = true := Plate.isIn_of_mem (hin p (by simp))
    rw [unsqLoop, if_pos h1]
    have : t.shape[pre.length]? = some p.n := by rw [hs]; simp
    rw [this]
    have := ih (fun q hq => hin q (List.mem_cons_of_mem _ hq)) (pre ++ [p.n]) ev t (dims ++ [p.n])
      (by rw [hs]; simp)
    simpa using this

theorem align_self (lb : Bool) (t : STen α) (hw : t.WF) :
    alignTen lb false false t.multiDimPlates t.eventDims t = .ok t.ten := by
  have h1 := swapLoop_self t.multiDimPlates [] t.ten
  have h2 := unsqLoop_self t.plates t.multiDimPlates
    (fun p hp => (List.mem_filter.1 hp).1) [] t.eventShape t.ten [] (by simpa using hw.shape)
  simp only [List.nil_append, List.length_nil] at h1 h2
  rw [alignTen]
  simp [h1, h2]

omit [ValEq α] in
theorem wf_nodup {t : STen α} (hw : t.WF) : (t.plates.map Plate.name).Nodup := hw.names

theorem addPlates_self (ps : List (Plate α)) (hn : (ps.map Plate.name).Nodup) :
    ∀ pre : List (Plate α), (∀ p ∈ ps, p.name ∉ pre.map Plate.name) → addPlates pre ps = pre ++ ps := by
  induction ps with
  | nil => intro pre _; simp [addPlates]
  | cons p ps ih =>
    intro pre hp
    simp only [List.map_cons, List.nodup_cons] at hn
    have : ¬ p.isIn pre = true := by
      rw [Plate.isIn_iff]
      rintro ⟨y, hy, he⟩
      exact hp p (by simp) (List.mem_map.2 ⟨y, hy, Plate.pyEq_name he⟩)
    rw [addPlates, if_neg this, ih hn.2]
    · simp
    · intro q hq hm
      simp only [List.map_append, List.map_cons, List.map_nil, List.mem_append, List.mem_singleton] at hm
      rcases hm with hm | hm
      · exact hp q (List.mem_cons_of_mem _ hq) hm
      · exact hn.1 (hm ▸ List.mem_map_of_mem hq)

theorem addPlates_sub (pre ps : List (Plate α)) (h : ∀ p ∈ ps, p.isIn pre = true) :
    addPlates pre ps = pre := by
  induction ps with
  | nil => rfl
  | cons p ps ih =>
    rw [addPlates, if_pos (h p (by simp))]
    exact ih (fun q hq => h q (List.mem_cons_of_mem _ hq))

/-- A tensor with proper, ordinary plates. -/
structure Proper (t : STen α) : Prop where
  wf : t.WF
  plain : ∀ p ∈ t.plates, p.kind = .plain

omit [ValEq α] in
theorem pyEq_of_same_list {ps : List (Plate α)} (hn : (ps.map Plate.name).Nodup) {p q : Plate α}
    (hp : p ∈ ps) (hq : q ∈ ps) (h : p.name = q.name) : p = q :=
  List.inj_on_of_nodup_map hn hp hq h

theorem goodOps_single {t : STen α} (h : Proper t) (s : Bool) : GoodOps [.st t s] := by
  refine ⟨?_, ?_, ?_⟩
  · intro u hu; simp [stens] at hu; subst hu; exact h.wf
  · intro u hu; simp [stens] at hu; subst hu; exact h.plain
  · intro u hu u' hu' p hp q hq he
    simp [stens] at hu hu'; subst hu; subst hu'
    rw [pyEq_of_same_list h.wf.names hp hq he]
    exact Plate.pyEq_refl _

theorem filterPlates_self {t : STen α} (h : Proper t) : filterPlates t.plates t.plates = .ok t.plates := by
  have := (goodOps_single h false).filter
  have e : callPlates [.st t false] = t.plates := by
    rw [callPlates, collectArgs]
    simp only [opArgs, List.map_cons, List.map_nil, Operand.val, collectList, Val.collect]
    simpa using addPlates_self t.plates h.wf.names [] (by simp)
  rwa [e] at this

/-- `f(t, extra…)` where only `t` is a storch tensor and the other arguments contain none: the function
receives the wrapped torch tensor. -/
theorem prepare_single {hook : UnwrapHook α} (hh : PlainHook hook) {t : STen α} (h : Proper t) (s : Bool)
    (lb : Bool) (red : List String) (xs xs' : List (Val α))
    (hx : ∀ (c : Coll α) (m : Nat), collectList xs c m = (c, m))
    (hx' : ∀ cfg mdp ed, unwrapList hook cfg mdp ed xs = .ok xs') :
    prepareArgs hook { lBroadcast := lb, reducePlates := red } ⟨.st t s :: xs, []⟩ =
      .ok ⟨⟨.torch t.ten :: xs', []⟩, [t], t.plates⟩ := by
  have hc : collectArgs (⟨.st t s :: xs, []⟩ : Args α) = (⟨[t], t.plates⟩, t.eventDims) := by
    rw [collectArgs]
    simp only [collectList, Val.collect, List.nil_append, hx, List.map_nil]
    rw [addPlates_self t.plates h.wf.names [] (by simp)]
    simp
  rw [prepareArgs]
  simp only [hc, filterPlates_self h, applyDim, applyDims]
  have hm : t.plates.filter (fun p => decide (1 < p.n)) = t.multiDimPlates := rfl
  rw [hm]
  have hhook : hookLoop hook t.multiDimPlates t = .ok t :=
    hookLoop_plain hh _ _ (fun p hp => h.plain p (List.mem_filter.1 hp).1)
  simp [unwrapList, Val.unwrap, unwrapSt, hhook, align_self lb t h.wf, hx']

theorem handleDet_single {hook : UnwrapHook α} (hh : PlainHook hook) {t : STen α} (h : Proper t) (s : Bool)
    (lb : Bool) (red : List String) (xs xs' : List (Val α))
    (hx : ∀ (c : Coll α) (m : Nat), collectList xs c m = (c, m))
    (hx' : ∀ cfg mdp ed, unwrapList hook cfg mdp ed xs = .ok xs') (fn : Fn α) (out : Val α)
    (hfn : fn ⟨.torch t.ten :: xs', []⟩ = .ok out) :
    handleDet hook false false { lBroadcast := lb, reducePlates := red } fn ⟨.st t s :: xs, []⟩ =
      out.wrapOut (t.plates.filter (fun q => !decide (q.name ∈ red))) false := by
  rw [handleDet, prepare_single hh h s lb red xs xs' hx hx']
  simp [hfn]

/-! ### Summing out a plate -/

theorem insertIdx_length {β : Type _} (a b : List β) (x : β) :
    (a ++ b).insertIdx a.length x = a ++ x :: b := by
  induction a with
  | nil => rfl
  | cons y a ih => simp [ih]

omit [ValEq α] in
theorem map_update_of_notMem {L : List (Plate α)} {s : String} (h : s ∉ L.map Plate.name)
    (ι : String → Nat) (k : Nat) :
    L.map (fun p => Function.update ι s k p.name) = L.map (fun p => ι p.name) := by
  apply List.map_congr_left
  intro p hp
  rw [Function.update_of_ne]
  rintro rfl
  exact h (List.mem_map_of_mem hp)

omit [ValEq α] in
theorem indexBy_name {L1 L2 : List (Plate α)} {p : Plate α} (h : p.name ∉ L1.map Plate.name) :
    indexBy (fun a b => a == b) p.name ((L1 ++ p :: L2).map Plate.name) = some L1.length := by
  induction L1 with
  | nil => simp [indexBy]
  | cons q L1 ih =>
    simp only [List.map_cons, List.mem_cons, not_or] at h
    simp only [List.cons_append, List.map_cons, indexBy]
    rw [ih h.2]
    have : ¬ (q.name = p.name) := fun e => h.1 e.symm
    simp [this]

omit [ValEq α] in
/-- Splitting the plates of a tensor at one of them. -/
theorem split_plate {t : STen α} (hw : t.WF) {p : Plate α} (hp : p ∈ t.multiDimPlates) :
    ∃ L1 L2, t.multiDimPlates = L1 ++ p :: L2 ∧ p.name ∉ L1.map Plate.name ∧
      p.name ∉ L2.map Plate.name ∧
      (t.plates.filter (fun q => !decide (q.name ∈ [p.name]))).filter (fun q => decide (1 < q.n)) =
        L1 ++ L2 := by
  obtain ⟨L1, L2, h⟩ := List.append_of_mem hp
  have hn := STen.nodup_multi hw
  rw [h] at hn
  simp only [List.map_append, List.map_cons] at hn
  rw [List.nodup_middle, List.nodup_cons, List.mem_append, not_or] at hn
  refine ⟨L1, L2, h, hn.1.1, hn.1.2, ?_⟩
  rw [List.filter_comm]
  have : t.plates.filter (fun q => decide (1 < q.n)) = L1 ++ p :: L2 := h
  rw [this, List.filter_append, List.filter_cons]
  simp only [List.mem_singleton, decide_true, Bool.not_true, Bool.false_eq_true, if_false]
  congr 1
  · rw [List.filter_eq_self]
    intro q hq
    simp only [Bool.not_eq_true', decide_eq_false_iff_not]
    intro e; exact hn.1.1 (e ▸ List.mem_map_of_mem hq)
  · rw [List.filter_eq_self]
    intro q hq
    simp only [Bool.not_eq_true', decide_eq_false_iff_not]
    intro e; exact hn.1.2 (e ▸ List.mem_map_of_mem hq)

/-- The tensor without the plate of that name. -/
def dropPlate (name : String) (ps : List (Plate α)) : List (Plate α) :=
  ps.filter (fun q => !decide (q.name ∈ [name]))

theorem storchSum_spec [AddCommMonoid α] {hook : UnwrapHook α} (hh : PlainHook hook) {t : STen α}
    (h : Proper t) {p : Plate α} (hp : p ∈ t.multiDimPlates) :
    ∃ r, storchSum hook t p.name = .ok r ∧ Proper r ∧ r.plates = dropPlate p.name t.plates ∧
      r.eventShape = t.eventShape ∧
      ∀ ι e, r.sample ι e = ∑ k ∈ Finset.range p.n, t.sample (Function.update ι p.name k) e := by
  obtain ⟨L1, L2, hL, hn1, hn2, hf⟩ := split_plate h.wf hp
  have hidx : t.plateDimIndex p.name = .ok L1.length := by
    rw [STen.plateDimIndex, hL, indexBy_name hn1]
  have hsh : t.ten.shape = L1.map Plate.n ++ p.n :: (L2.map Plate.n ++ t.eventShape) := by
    rw [h.wf.shape, hL]; simp
  have hget : t.ten.shape[L1.length]? = some p.n := by rw [hsh]; simp
  have her : t.ten.shape.eraseIdx L1.length = (L1 ++ L2).map Plate.n ++ t.eventShape := by
    rw [hsh, List.eraseIdx_append_of_length_le (by simp)]
    simp
  have hcall := handleDet_single hh h false true [p.name] [.tup [.other L1.length]] [.tup [.other L1.length]]
    (fun c m => by simp [collectList, Val.collect]) (fun cfg mdp ed => rfl) sumFn
    (.torch ⟨t.ten.shape.eraseIdx L1.length, fun idx => ∑ k ∈ Finset.range p.n,
      t.ten.get (idx.insertIdx L1.length k)⟩) (by simp [sumFn, Ten.sumDim, hget])
  obtain ⟨r, hr1, hr2, hr3, hr4, hr5⟩ := checkPlates_ok_of (R := dropPlate p.name t.plates)
    (h.wf.names.sublist (List.filter_sublist.map _))
    (fun q hq => h.wf.pos q (List.mem_filter.1 hq).1)
    ⟨t.ten.shape.eraseIdx L1.length, fun idx => ∑ k ∈ Finset.range p.n, t.ten.get (idx.insertIdx L1.length k)⟩
    t.eventShape (by rw [dropPlate, hf]; exact her)
  refine ⟨r, ?_, ⟨hr4, ?_⟩, hr3, hr5, ?_⟩
  · rw [storchSum, hidx]
    simp only
    rw [hcall, Val.wrapOut]
    simp only [Bool.false_eq_true, if_false]
    have hr1' := hr1
    rw [dropPlate] at hr1'
    rw [hr1']
    rfl
  · intro q hq; rw [hr3] at hq; exact h.plain q (List.mem_filter.1 hq).1
  · intro ι e
    have hmd : r.multiDimPlates = L1 ++ L2 := by rw [STen.multiDimPlates, hr3, dropPlate, hf]
    rw [STen.sample, hr2, hmd, hr5]
    simp only
    apply Finset.sum_congr rfl
    intro k _
    rw [STen.sample, hL]
    congr 1
    have hl : L1.length = (L1.map (fun p => ι p.name)).length := by simp
    rw [List.map_append, List.append_assoc, hl, insertIdx_length]
    simp only [List.map_append, List.map_cons,
      Function.update_self, List.append_assoc, List.cons_append]
    rw [map_update_of_notMem hn1, map_update_of_notMem hn2]

/-! ### Multiplying with a weight -/

omit [ValEq α] in
theorem bfold_fit {s s' : List Nat} (h : List.Forall₂ (fun d' d => d' = 1 ∨ d' = d) s' s) :
    Ten.bzip s s' = some s := by
  induction h with
  | nil => rfl
  | @cons d' d s' s hd _ ih =>
    simp only [Ten.bzip, ih]
    have : Ten.bdim d d' = some d := by
      rcases hd with rfl | rfl
      · by_cases h1 : d = 1 <;> simp [Ten.bdim, h1]
      · simp [Ten.bdim]
    rw [this]

omit [ValEq α] in
theorem bzip_ones (s : List Nat) : Ten.bzip (List.replicate s.length 1) s = some s := by
  induction s with
  | nil => rfl
  | cons d s ih =>
    simp only [List.length_cons, List.replicate_succ, Ten.bzip, ih]
    by_cases h : d = 1
    · simp [Ten.bdim, h]
    · have : ¬ 1 = d := fun e => h e.symm
      simp [Ten.bdim, this]

omit [ValEq α] in
theorem bshapes_fit {s s' : List Nat} (hl : s'.length ≤ s.length)
    (h : List.Forall₂ (fun d' d => d' = 1 ∨ d' = d) (Ten.padL s.length s') s) :
    Ten.bshapes [s, s'] = some s := by
  rw [bshapes_eq _ s.length (by simp [hl])]
  simp only [List.map_cons, List.map_nil, bfold_cons]
  have : Ten.padL s.length s = s := by simp [Ten.padL]
  rw [this, bzip_ones]
  simp only [Option.bind_some]
  rw [bfold_fit h]
  rfl

/-- `t * w` for a torch tensor `w` whose dimensions, aligned on the right, are 1 or those of `t`. -/
theorem mul_torch [CommMonoid α] {hook : UnwrapHook α} (hh : PlainHook hook) {t : STen α} (h : Proper t)
    (w : Ten α) (hl : w.shape.length ≤ t.ten.shape.length)
    (hw : List.Forall₂ (fun d' d => d' = 1 ∨ d' = d) (Ten.padL t.ten.shape.length w.shape) t.ten.shape) :
    ∃ r, mulOps hook (.st t false) (.torch w) = .ok r ∧ Proper r ∧ r.plates = t.plates ∧
      r.eventShape = t.eventShape ∧
      ∀ ι e, Ten.InB e t.eventShape → r.sample ι e = t.sample ι e * w.get (Ten.bidx w.shape
        ((t.multiDimPlates.map (fun p => ι p.name) ++ e).drop
          ((t.multiDimPlates.map (fun p => ι p.name) ++ e).length - w.shape.length))) := by
  have hbs := bshapes_fit hl hw
  have hcall := handleDet_single hh h false true [] [.torch w] [.torch w]
    (fun c m => by simp [collectList, Val.collect]) (fun cfg mdp ed => rfl) (elementwiseFn List.prod)
    (.torch ⟨t.ten.shape, fun idx => ([t.ten, w].map (fun t => t.get (Ten.bidx t.shape
      (idx.drop (idx.length - t.ndim))))).prod⟩) (by
      have := mapM_torch [t.ten, w]
      simp only [List.map_cons, List.map_nil] at this
      simp only [elementwiseFn, this, Ten.elementwise, List.map_cons, List.map_nil, hbs])
  obtain ⟨r, hr1, hr2, hr3, hr4, hr5⟩ := checkPlates_ok_of h.wf.names h.wf.pos
    ⟨t.ten.shape, fun idx => ([t.ten, w].map (fun t => t.get (Ten.bidx t.shape
      (idx.drop (idx.length - t.ndim))))).prod⟩ t.eventShape h.wf.shape
  refine ⟨r, ?_, ⟨hr4, by rw [hr3]; exact h.plain⟩, hr3, hr5, ?_⟩
  · have hfl : t.plates.filter (fun q => !decide (q.name ∈ ([] : List String))) = t.plates := by simp
    rw [hfl] at hcall
    have : handleDet hook false false {} (elementwiseFn List.prod) (opArgs [.st t false, .torch w]) = _ :=
      hcall
    rw [mulOps, this, Val.wrapOut]
    simp only [Bool.false_eq_true, if_false, hr1]
    rfl
  · intro ι e he
    have hmd : r.multiDimPlates = t.multiDimPlates := by rw [STen.multiDimPlates, hr3]; rfl
    rw [STen.sample, hr2, hr5, hmd, bidx_of_inB he]
    simp only [List.map_cons, List.map_nil, List.prod_cons, List.prod_nil, mul_one]
    congr 1
    rw [STen.sample]
    congr 1
    have hlen : (t.multiDimPlates.map (fun p => ι p.name) ++ e).length = t.ten.ndim := by
      rw [Ten.ndim, h.wf.shape]
      simp [InB.length_eq he]
    rw [hlen, Nat.sub_self, List.drop_zero, h.wf.shape, bidx_append (by simp)]
    congr 1
    have hmul : ∀ p ∈ t.multiDimPlates, 1 < p.n := fun p hp => by simpa using (List.mem_filter.1 hp).2
    have := bidx_pdims t.multiDimPlates (fun _ => true) ι hmul
    simpa [pdims] using this

/-- The plates of `w` all occur in `t`. -/
theorem callPlates_pair {t w : STen α} (h : t.WF) (hin : ∀ q ∈ w.plates, q.isIn t.plates = true)
    (s s' : Bool) : callPlates [.st t s, .st w s'] = t.plates := by
  rw [callPlates, collectArgs]
  simp only [opArgs, List.map_cons, List.map_nil, Operand.val, collectList, Val.collect]
  rw [addPlates_self t.plates h.names [] (by simp)]
  simpa using addPlates_sub t.plates w.plates hin

theorem goodOps_pair {t w : STen α} (h : Proper t) (hw : Proper w)
    (hin : ∀ q ∈ w.plates, q.isIn t.plates = true) (s s' : Bool) : GoodOps [.st t s, .st w s'] := by
  have key : ∀ p ∈ t.plates, ∀ q ∈ w.plates, p.name = q.name → p.pyEq q = true := by
    intro p hp q hq he
    obtain ⟨x, hx, hxe⟩ := Plate.isIn_iff.1 (hin q hq)
    rw [pyEq_of_same_list h.wf.names hp hx (he.trans (Plate.pyEq_name hxe).symm)]
    exact hxe
  refine ⟨?_, ?_, ?_⟩
  · intro u hu; simp [stens] at hu; rcases hu with rfl | rfl; exacts [h.wf, hw.wf]
  · intro u hu; simp [stens] at hu; rcases hu with rfl | rfl; exacts [h.plain, hw.plain]
  · intro u hu u' hu' p hp q hq he
    simp [stens] at hu hu'
    rcases hu with rfl | rfl <;> rcases hu' with rfl | rfl
    · rw [pyEq_of_same_list h.wf.names hp hq he]; exact Plate.pyEq_refl _
    · exact key p hp q hq he
    · exact Plate.pyEq_symm (key q hq p hp he.symm)
    · rw [pyEq_of_same_list hw.wf.names hp hq he]; exact Plate.pyEq_refl _

/-- `t * w` for a storch tensor `w` whose plates are all on `t` and whose event dimensions are all 1. -/
theorem mul_storch [CommMonoid α] {hook : UnwrapHook α} (hh : PlainHook hook) {t w : STen α} (h : Proper t)
    (hw : Proper w) (hin : ∀ q ∈ w.plates, q.isIn t.plates = true) (k : Nat)
    (hev : w.eventShape = List.replicate k 1) :
    ∃ r, mulOps hook (.st t false) (.st w false) = .ok r ∧ Proper r ∧ r.plates = t.plates ∧
      r.eventShape = t.eventShape ++ List.replicate (k - t.eventDims) 1 ∧
      ∀ ι e, Ten.InB e r.eventShape → r.sample ι e = t.sample ι e * w.sample ι e := by
  have hg := goodOps_pair h hw hin false false
  have hE : maxEv [.st t false, .st w false] = max t.eventDims k := by
    simp [maxEv, stens, STen.eventDims, hev]
  have h1 : (Operand.st t false).evShape (max t.eventDims k) =
      t.eventShape ++ List.replicate (k - t.eventDims) 1 := by
    rw [Operand.evShape]; congr 2; omega
  have h2 : (Operand.st w false).evShape (max t.eventDims k) = List.replicate (max t.eventDims k) 1 := by
    rw [Operand.evShape, hev, ← List.replicate_add]
    congr 1
    simp only [STen.eventDims, hev, List.length_replicate]; omega
  have hlen : (t.eventShape ++ List.replicate (k - t.eventDims) 1).length = max t.eventDims k := by
    simp only [List.length_append, List.length_replicate, STen.eventDims]; omega
  have hes : Ten.bshapes ([Operand.st t false, Operand.st w false].map
      (Operand.evShape (maxEv [.st t false, .st w false]))) =
      some (t.eventShape ++ List.replicate (k - t.eventDims) 1) := by
    rw [hE]
    simp only [List.map_cons, List.map_nil, h1, h2]
    apply bshapes_fit
    · rw [hlen]; simp
    · rw [hlen]
      have : Ten.padL (max t.eventDims k) (List.replicate (max t.eventDims k) 1) =
          List.replicate (max t.eventDims k) 1 := by simp [Ten.padL]
      rw [this, ← hlen]
      generalize t.eventShape ++ List.replicate (k - t.eventDims) 1 = s
      induction s with
      | nil => exact .nil
      | cons d s ih => exact .cons (Or.inl rfl) ih
  obtain ⟨r, a1, a2, a3, a4, a5⟩ := elementwise_call hook hh List.prod [.st t false, .st w false] hg
    (by simp [stens]) (by simp) _ hes
  rw [callPlates_pair h.wf hin] at a3
  refine ⟨r, by rw [mulOps, a1]; rfl, ⟨a2, by rw [a3]; exact h.plain⟩, a3, a4, ?_⟩
  intro ι e he
  rw [a4] at he
  rw [a5 ι e he]
  simp [Operand.sample]

/-! ### One reduction step -/

/-- A weight the library can install on a plate of that size: a single number, one number per sample,
or a storch tensor over the plate itself and some of its parents. -/
inductive WeightOK (p : Plate α) : Prop
  | scalar (w : Ten α) (h : p.weight = .torch w) (hs : w.shape = [])
  | vector (w : Ten α) (h : p.weight = .torch w) (hs : w.shape = [p.n]) (hn : 1 < p.n)
  | storch (w : Ten α) (names : List String) (h : p.weight = .storch w names) (hn : 1 < p.n)
      (hnd : names.Nodup) (hp : p.name ∈ names)
      (hsub : ∀ s ∈ names, s ∈ (p :: p.parents).map Plate.name)
      (hs : w.shape = ((p.weightPlates names).filter (fun q => decide (1 < q.n))).map Plate.n)

/-- The weight of a sample: `ι` gives the position along every plate. -/
def Plate.weightAt (dt : α → α) (p : Plate α) (ι : String → Nat) : α :=
  match p.weight with
  | .torch w => dt (w.get (if w.shape = [] then [] else [ι p.name]))
  | .storch w names => dt (w.get
      (((p.weightPlates names).filter (fun q => decide (1 < q.n))).map (fun q => ι q.name)))

omit [ValEq α] in
theorem STen.sample_congr_e (t : STen α) (ι : String → Nat) {e e' : List Nat}
    (h : Ten.bidx t.eventShape e = Ten.bidx t.eventShape e') : t.sample ι e = t.sample ι e' := by
  rw [STen.sample, STen.sample, h]

end Storch
