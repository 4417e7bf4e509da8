import Verif.Props.AncestralProps
import Verif.Lemmas.DenoteLemmas
import Verif.Model.Surrogate

/-!
Lemmas for C99: element-wise functions of tensors of decoding steps, and reducing their plate.
-/

namespace Storch
variable {α : Type _} [ValEq α]

/-- A single plate is in order, when its parents have other names. -/
theorem order_single {P : Plate α} (hname : NameFree P.name P.parents) : orderPlates [P] true = .ok [P] := by
  have hnone : ParentsAllOrNone [P] := by
    intro p hp
    rw [List.mem_singleton] at hp
    subst hp
    right
    constructor
    · intro q hq y hy
      rw [List.mem_singleton] at hy
      subst hy
      apply pyEq_false_of_name
      cases hq with
      | parent h => exact Ne.symm (hname q h).1
      | step h1 h2 => exact Ne.symm ((hname _ h2).2 q h1)
    · intro q hq y hy
      rw [List.mem_singleton] at hy
      subst hy
      exact Ne.symm (hname q hq).1
  have hacy : AcyclicPlates [P] := by
    have h1 : ∀ a b, ParentOf [P] a b → b = P.name ∧ a ≠ P.name := by
      rintro a b ⟨p, hp, hb, q, hq, ha⟩
      rw [List.mem_singleton] at hp
      subst hp
      exact ⟨hb.symm, by rw [← ha]; exact (hname q hq).1⟩
    intro k hk
    have hlast : k = P.name := by
      cases hk with
      | single h => exact (h1 _ _ h).1
      | tail _ h => exact (h1 _ _ h).1
    have hfirst : k ≠ P.name := by
      rcases Relation.TransGen.head'_iff.1 hk with ⟨c, hc, _⟩
      exact (h1 _ _ hc).2
    exact hfirst hlast
  obtain ⟨o, o1, o2, _⟩ := C11_complete_partial [P] (by simp) hnone hacy
  rw [C10_reverse, o1, List.perm_singleton.1 o2]
  rfl

section
variable {C : Chain α} {asLong : α → Nat} {name : String} {n : Nat → Nat}

theorem At.multi (h : Steps C name n) {i : Nat} {ev : List Nat} {f : Nat → List Nat → α} {a : STen α}
    (ha : At C name n ev i f a) : a.multiDimPlates = [C.plate name i] := by
  simp [STen.multiDimPlates, ha.1, h.sizeEq, h.multi]

/-- Unwrapping a tensor of step `i` with the plate of step `i`. -/
theorem unwrap_at (h : Steps C name n) (i : Nat) (ev : List Nat) (f : Nat → List Nat → α) (a : STen α)
    (ha : At C name n ev i f a) (hook : UnwrapHook α) (hh : hook (C.plate name i) a = .ok a) :
    unwrapSt hook {} [C.plate name i] ev.length a = .ok a.ten := by
  simp only [unwrapSt, Bool.not_true, Bool.false_eq_true, if_false, hookLoop, hh, Bool.or_false]
  exact align_single h i ev f a ha

theorem filter_at (h : Steps C name n) (i : Nat) : filterPlates [C.plate name i] [C.plate name i] = .ok [C.plate name i] := by
  simp [filterPlates, (h.collecting i i).1]

theorem addPlates_one (P : Plate α) : addPlates [] [P] = [P] := by
  simp [addPlates, Plate.isIn, memBy]

/-- An element-wise function of one tensor. -/
theorem unary_call (h : Steps C name n) (i : Nat) (hook : UnwrapHook α) (op : List α → α)
    (ev : List Nat) (f : Nat → List Nat → α) (a : STen α) (sa : Bool)
    (ha : At C name n ev i f a) (hh : hook (C.plate name i) a = .ok a) :
    ∃ u, handleDet hook false false {} (elementwiseFn op) (opArgs [.st a sa]) = .ok (.st u false) ∧
      At C name n ev i (fun r e => op [f r e]) u := by
  have hmd : [C.plate name i].filter (fun p => decide (1 < p.n)) = [C.plate name i] := by
    simp [h.sizeEq, h.multi]
  have hca : collectArgs (opArgs [Operand.st a sa]) = (⟨[a], [C.plate name i]⟩, ev.length) := by
    simp [collectArgs, opArgs, Operand.val, collectList, Val.collect, ha.eventDims, ha.1, addPlates_one]
  have hprep : prepareArgs hook {} (opArgs [Operand.st a sa]) =
      .ok ⟨⟨[.torch a.ten], []⟩, [a], [C.plate name i]⟩ := by
    unfold prepareArgs
    simp only [hca]
    simp only [filter_at h, hmd, applyDim, applyDims, if_true, opArgs, List.map_cons, List.map_nil,
      Operand.val, unwrapList, Val.unwrap, unwrap_at h i ev f a ha hook hh, List.zip_nil_left]
  set R : Ten α := ⟨n i :: ev, fun idx => op ([a.ten].map
    (fun t => t.get (Ten.bidx t.shape (idx.drop (idx.length - t.ndim)))))⟩ with hR
  have hel : elementwiseFn op ⟨[.torch a.ten], []⟩ = .ok (.torch R) := by
    have h2 : Ten.elementwise op [a.ten] = .ok R := by
      unfold Ten.elementwise
      have : Ten.bshapes [n i :: ev] = some (n i :: ev) := by
        simpa [Ten.bshapes, Ten.padL] using bzip_ones (n i :: ev)
      simp only [List.map_cons, List.map_nil, ha.2.2.1, this, hR]
    have h1 : ([Val.torch a.ten]).mapM Val.asTorch = some [a.ten] := mapM_torch [a.ten]
    unfold elementwiseFn
    simp only [h1, h2]
  refine ⟨⟨R, [C.plate name i], 1⟩, ?_, rfl, rfl, rfl, ?_⟩
  · unfold handleDet
    simp only [Bool.false_eq_true, if_false, hprep, List.isEmpty_cons, hel, Val.wrapOut]
    simp only [List.not_mem_nil, decide_false, Bool.not_false, List.filter_cons, List.filter_nil, if_true]
    rw [mk_single h R i ev rfl]
  · intro r e hr he
    show op _ = _
    simp only [List.map_cons, List.map_nil]
    rw [Ten.ndim, ha.2.2.1, List.length_cons, List.length_cons, he.length_eq, Nat.sub_self, List.drop_zero, bidx_inB,
      ha.2.2.2 r e hr he]
    exact List.Forall₂.cons hr he

/-- An element-wise function of a number and a tensor. -/
theorem scalar_call (h : Steps C name n) (i : Nat) (hook : UnwrapHook α) (op : List α → α) (z : α)
    (ev : List Nat) (f : Nat → List Nat → α) (a : STen α) (sa : Bool)
    (ha : At C name n ev i f a) (hh : hook (C.plate name i) a = .ok a) :
    ∃ u, handleDet hook false false {} (elementwiseFn op) (opArgs [.torch (.scalar z), .st a sa]) = .ok (.st u false) ∧
      At C name n ev i (fun r e => op [z, f r e]) u := by
  have hmd : [C.plate name i].filter (fun p => decide (1 < p.n)) = [C.plate name i] := by
    simp [h.sizeEq, h.multi]
  have hca : collectArgs (opArgs [.torch (.scalar z), Operand.st a sa]) = (⟨[a], [C.plate name i]⟩, ev.length) := by
    simp [collectArgs, opArgs, Operand.val, collectList, Val.collect, ha.eventDims, ha.1, addPlates_one]
  have hprep : prepareArgs hook {} (opArgs [.torch (.scalar z), Operand.st a sa]) =
      .ok ⟨⟨[.torch (.scalar z), .torch a.ten], []⟩, [a], [C.plate name i]⟩ := by
    unfold prepareArgs
    simp only [hca]
    simp only [filter_at h, hmd, applyDim, applyDims, if_true, opArgs, List.map_cons, List.map_nil,
      Operand.val, unwrapList, Val.unwrap, unwrap_at h i ev f a ha hook hh, List.zip_nil_left]
  set R : Ten α := ⟨n i :: ev, fun idx => op ([.scalar z, a.ten].map
    (fun t => t.get (Ten.bidx t.shape (idx.drop (idx.length - t.ndim)))))⟩ with hR
  have hel : elementwiseFn op ⟨[.torch (.scalar z), .torch a.ten], []⟩ = .ok (.torch R) := by
    have h2 : Ten.elementwise op [.scalar z, a.ten] = .ok R := by
      unfold Ten.elementwise
      have : Ten.bshapes [[], n i :: ev] = some (n i :: ev) := by
        have h1 := bzip_ones (n i :: ev)
        simp only [List.length_cons] at h1
        have h2 := bzip_self (List.replicate (ev.length + 1) 1)
        simp [Ten.bshapes, Ten.padL, h1, h2]
      simp only [List.map_cons, List.map_nil, ha.2.2.1, Ten.scalar, this, hR]
    have h1 : ([Val.torch (.scalar z), Val.torch a.ten]).mapM Val.asTorch = some [.scalar z, a.ten] :=
      mapM_torch [.scalar z, a.ten]
    unfold elementwiseFn
    simp only [h1, h2]
  refine ⟨⟨R, [C.plate name i], 1⟩, ?_, rfl, rfl, rfl, ?_⟩
  · unfold handleDet
    simp only [Bool.false_eq_true, if_false, hprep, List.isEmpty_cons, hel, Val.wrapOut]
    simp only [List.not_mem_nil, decide_false, Bool.not_false, List.filter_cons, List.filter_nil, if_true]
    rw [mk_single h R i ev rfl]
  · intro r e hr he
    show op _ = _
    simp only [List.map_cons, List.map_nil]
    rw [Ten.ndim, Ten.ndim, ha.2.2.1, List.length_cons, List.length_cons, he.length_eq, Nat.sub_self, List.drop_zero,
      bidx_inB (List.Forall₂.cons hr he), ha.2.2.2 r e hr he]
    rfl

/-- Unwrapping tensors of decoders that do not select. -/
theorem hook_steps (h : Steps C name n) (hn : ∀ i j, n i = n j) (hsel : ∀ i, C.sel name i = none) (ev : List Nat)
    (k c : Nat) (t : STen α) (q : Nat → List Nat → α) (ht : At C name n ev k q t) :
    ∃ u, C.hook asLong (C.plate name (k + c)) t = .ok u ∧ At C name n ev (k + c) q u ∧ (c = 0 → u = t) := by
  unfold Chain.hook
  rw [h.kindEq]
  dsimp only
  rw [onUnwrap]
  simp only [h.kindEq, ht.1, List.findIdx?_cons, h.nameEq, beq_self_eq_true, if_true, List.getElem?_cons_zero,
    hsel]
  by_cases hc : c = 0
  · subst hc
    simp only [Nat.add_zero, if_true]
    exact ⟨t, rfl, ht, fun _ => rfl⟩
  · rw [if_neg (by omega), if_neg (by omega), List.set_cons_zero,
      mk_single h t.ten (k + c) ev (by rw [ht.2.2.1, hn k (k + c)])]
    exact ⟨_, rfl, ⟨rfl, rfl, by rw [hn (k + c) k]; exact ht.2.2.1, fun r e hr he =>
      ht.2.2.2 r e (by rw [hn k (k + c)]; exact hr) he⟩, fun h0 => absurd h0 hc⟩

theorem hook_own (h : Steps C name n) (hn : ∀ i j, n i = n j) (hsel : ∀ i, C.sel name i = none) {ev : List Nat}
    {k : Nat} {t : STen α} {q : Nat → List Nat → α} (ht : At C name n ev k q t) :
    C.hook asLong (C.plate name k) t = .ok t := by
  obtain ⟨u, h1, _, h3⟩ := hook_steps (asLong := asLong) h hn hsel ev k 0 t q ht
  rw [h3 rfl] at h1
  exact h1

/-- An element-wise function of tensors of two steps, in any order. -/
theorem binary_call (h : Steps C name n) (hn : ∀ i j, n i = n j) (hsel : ∀ i, C.sel name i = none) (ev : List Nat)
    (x y : Nat) (op : List α → α) (a b : STen α) (sa sb : Bool) (f g : Nat → List Nat → α)
    (ha : At C name n ev x f a) (hb : At C name n ev y g b) :
    ∃ u, handleDet (C.hook asLong) false false {} (elementwiseFn op) (opArgs [.st a sa, .st b sb]) =
      .ok (.st u false) ∧ At C name n ev (max x y) (fun r e => op [f r e, g r e]) u := by
  obtain ⟨a', ha1, ha2, _⟩ := hook_steps (asLong := asLong) h hn hsel ev x (max x y - x) a f ha
  obtain ⟨b', hb1, hb2, _⟩ := hook_steps (asLong := asLong) h hn hsel ev y (max x y - y) b g hb
  rw [show x + (max x y - x) = max x y by omega] at ha1 ha2
  rw [show y + (max x y - y) = max x y by omega] at hb1 hb2
  rcases le_total x y with hxy | hxy
  · exact combine_call h (lo := x) (hi := max x y) (Or.inl ⟨rfl, by omega⟩) (by omega) _ op ev f g _ _ a b a' b' sa sb ha hb
      ha1 hb1 ha2 hb2
  · exact combine_call h (lo := y) (hi := max x y) (Or.inr ⟨by omega, rfl⟩) (by omega) _ op ev f g _ _ a b a' b' sa sb ha hb
      ha1 hb1 ha2 hb2

/-- A storch tensor without plates and without dimensions. -/
def Flat (v : α) (s : STen α) : Prop := s.plates = [] ∧ s.plateDims = 0 ∧ s.ten.shape = [] ∧ s.ten.get [] = v

omit [ValEq α] in
theorem bshapes_flat : Ten.bshapes [[], []] = some [] := by
  simp [Ten.bshapes, Ten.padL, Ten.bzip]

/-- An element-wise function of a tensor without plates and a number. -/
theorem flat_call (hook : UnwrapHook α) (op : List α → α) {v : α} {s : STen α} (hs : Flat v s) (b : Bool) (z : Ten α)
    (hz : z.shape = []) (ops : List (Operand α)) (first : Bool)
    (hops : ops = if first then [.st s b, .torch z] else [.torch z, .st s b]) :
    ∃ u, handleDet hook false false {} (elementwiseFn op) (opArgs ops) = .ok (.st u false) ∧
      Flat (op (if first then [v, z.get []] else [z.get [], v])) u := by
  have hed : s.eventDims = 0 := by simp [STen.eventDims, STen.eventShape, hs.2.2.1]
  have hmd : s.multiDimPlates = [] := by simp [STen.multiDimPlates, hs.1]
  have hun : unwrapSt hook {} [] 0 s = .ok s.ten := by
    simp only [unwrapSt, Bool.not_true, Bool.false_eq_true, if_false, hookLoop, Bool.or_false]
    unfold alignTen
    simp only [hed, lt_irrefl, decide_false, Bool.and_false, Bool.false_eq_true, if_false, hmd]
    simp [swapLoop, unsqLoop]
  have hmk : ∀ R : Ten α, R.shape = [] → STen.mk' R ([] : List (Plate α)) = .ok ⟨R, [], 0⟩ := by
    intro R _
    simp [STen.mk', STen.checkPlates]
  subst hops
  cases first
  · have hprep : prepareArgs hook {} (opArgs [.torch z, Operand.st s b]) = .ok ⟨⟨[.torch z, .torch s.ten], []⟩, [s], []⟩ := by
      unfold prepareArgs
      have hca : collectArgs (opArgs [.torch z, Operand.st s b]) = (⟨[s], []⟩, 0) := by
        simp [collectArgs, opArgs, Operand.val, collectList, Val.collect, hed, hs.1, addPlates]
      simp only [hca]
      simp only [filterPlates, List.filter_nil, applyDim, applyDims, if_true, opArgs, List.map_cons, List.map_nil,
        Operand.val, unwrapList, Val.unwrap, hun, List.zip_nil_left]
    set R : Ten α := ⟨[], fun idx => op ([z, s.ten].map
      (fun t => t.get (Ten.bidx t.shape (idx.drop (idx.length - t.ndim)))))⟩ with hR
    have hel : elementwiseFn op ⟨[.torch z, .torch s.ten], []⟩ = .ok (.torch R) := by
      have h2 : Ten.elementwise op [z, s.ten] = .ok R := by
        unfold Ten.elementwise
        simp only [List.map_cons, List.map_nil, hz, hs.2.2.1, bshapes_flat, hR]
      have h1 : ([Val.torch z, Val.torch s.ten]).mapM Val.asTorch = some [z, s.ten] := mapM_torch [z, s.ten]
      unfold elementwiseFn
      simp only [h1, h2]
    refine ⟨⟨R, [], 0⟩, ?_, rfl, rfl, rfl, ?_⟩
    · simp only [Bool.false_eq_true, if_false]
      unfold handleDet
      simp only [Bool.false_eq_true, if_false, hprep, List.isEmpty_cons, hel, Val.wrapOut]
      simp only [List.filter_nil, hmk R rfl]
    · show op _ = op _
      simp [Ten.bidx, hs.2.2.2]
  · have hprep : prepareArgs hook {} (opArgs [Operand.st s b, .torch z]) = .ok ⟨⟨[.torch s.ten, .torch z], []⟩, [s], []⟩ := by
      unfold prepareArgs
      have hca : collectArgs (opArgs [Operand.st s b, .torch z]) = (⟨[s], []⟩, 0) := by
        simp [collectArgs, opArgs, Operand.val, collectList, Val.collect, hed, hs.1, addPlates]
      simp only [hca]
      simp only [filterPlates, List.filter_nil, applyDim, applyDims, if_true, opArgs, List.map_cons, List.map_nil,
        Operand.val, unwrapList, Val.unwrap, hun, List.zip_nil_left]
    set R : Ten α := ⟨[], fun idx => op ([s.ten, z].map
      (fun t => t.get (Ten.bidx t.shape (idx.drop (idx.length - t.ndim)))))⟩ with hR
    have hel : elementwiseFn op ⟨[.torch s.ten, .torch z], []⟩ = .ok (.torch R) := by
      have h2 : Ten.elementwise op [s.ten, z] = .ok R := by
        unfold Ten.elementwise
        simp only [List.map_cons, List.map_nil, hz, hs.2.2.1, bshapes_flat, hR]
      have h1 : ([Val.torch s.ten, Val.torch z]).mapM Val.asTorch = some [s.ten, z] := mapM_torch [s.ten, z]
      unfold elementwiseFn
      simp only [h1, h2]
    refine ⟨⟨R, [], 0⟩, ?_, rfl, rfl, rfl, ?_⟩
    · simp only [if_true]
      unfold handleDet
      simp only [Bool.false_eq_true, if_false, hprep, List.isEmpty_cons, hel, Val.wrapOut]
      simp only [List.filter_nil, hmk R rfl]
    · show op _ = op _
      simp [Ten.bidx, hs.2.2.2]

/-- Reducing the plate of a tensor of one step. -/
theorem reduce_at [CommSemiring α] (h : Steps C name n) (i : Nat) (hook : UnwrapHook α) (g : Nat → List Nat → α) (a : STen α)
    (sa : Bool) (ha : At C name n [] i g a) (hh : hook (C.plate name i) a = .ok a) (wt : α)
    (hw : (C.plate name i).weight = .torch (Ten.scalar wt)) (hf : NameFree name (C.plate name i).parents) :
    ∃ s, reduceAllPlates hook (.st a sa) = .ok s ∧ Flat ((∑ r ∈ Finset.range (n i), g r []) * wt) s := by
  have hmdp := ha.multi h
  have hni := h.multi i
  have hord : orderPlates [C.plate name i] true = .ok [C.plate name i] :=
    order_single (by rw [h.nameEq]; exact hf)
  have hidx : a.plateDimIndex name = .ok 0 := by
    simp [STen.plateDimIndex, hmdp, h.nameEq, indexBy]
  set S : Ten α := ⟨[], fun idx => ∑ k ∈ Finset.range (n i), a.ten.get (idx.insertIdx 0 k)⟩ with hS
  have hmd : [C.plate name i].filter (fun p => decide (1 < p.n)) = [C.plate name i] := by
    simp [h.sizeEq, h.multi]
  have hsum : storchSum hook a name = .ok ⟨S, [], 0⟩ := by
    have hca : collectArgs (⟨[.st a false, .tup [.other 0]], []⟩ : Args α) = (⟨[a], [C.plate name i]⟩, 0) := by
      simp [collectArgs, collectList, Val.collect, ha.eventDims, ha.1, addPlates_one]
    have hun : unwrapSt hook { reducePlates := [name] } [C.plate name i] 0 a = .ok a.ten :=
      unwrap_at h i [] g a ha hook hh
    have hprep : prepareArgs hook { reducePlates := [name] } (⟨[.st a false, .tup [.other 0]], []⟩ : Args α) =
        .ok ⟨⟨[.torch a.ten, .tup [.other 0]], []⟩, [a], [C.plate name i]⟩ := by
      unfold prepareArgs
      simp only [hca]
      simp only [filter_at h, hmd, applyDim, applyDims, if_true, List.map_nil, unwrapList, Val.unwrap, hun,
        List.zip_nil_left]
    have hfn : sumFn (⟨[.torch a.ten, .tup [.other 0]], []⟩ : Args α) = .ok (.torch S) := by
      simp [sumFn, Ten.sumDim, ha.2.2.1, hS]
    unfold storchSum
    simp only [hidx]
    unfold handleDet
    simp only [Bool.false_eq_true, if_false, hprep, List.isEmpty_cons, hfn, Val.wrapOut]
    simp [h.nameEq, STen.mk', STen.checkPlates, asSt]
  have hflat : Flat (∑ r ∈ Finset.range (n i), g r []) (⟨S, [], 0⟩ : STen α) := by
    refine ⟨rfl, rfl, rfl, ?_⟩
    show ∑ k ∈ Finset.range (n i), _ = _
    apply Finset.sum_congr rfl
    intro r hr
    exact ha.2.2.2 r [] (Finset.mem_range.1 hr) List.Forall₂.nil
  obtain ⟨u, hu1, hu2⟩ := flat_call hook List.prod hflat false ((Ten.scalar wt).map id) rfl
    [.st ⟨S, [], 0⟩ false, .torch ((Ten.scalar wt).map id)] true rfl
  refine ⟨u, ?_, by simpa [Ten.map, Ten.scalar] using hu2⟩
  unfold reduceAllPlates reducePlates
  simp only [handleInputs, ha.1, hord, reduceLoop]
  have hred : (C.plate name i).reduce hook id a = .ok u := by
    unfold Plate.reduce
    rw [if_neg (by rw [h.sizeEq]; omega)]
    simp only [Plate.weightOp, hw]
    have : (Operand.torch ((Ten.scalar wt).map id)).ndim = 0 := rfl
    rw [if_pos this, h.nameEq, hsum]
    simp only [mulOps, hu1, asSt]
  rw [hred]

end

end Storch
