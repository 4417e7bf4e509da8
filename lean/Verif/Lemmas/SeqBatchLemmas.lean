import Verif.Lemmas.SeqLossLemmas

/-!
Lemmas for the batch average baseline of C99: tensors without plates next to tensors of decoding steps.
-/

namespace Storch
variable {α : Type _} [ValEq α]

section
variable {C : Chain α} {asLong : α → Nat} {name : String} {n : Nat → Nat}

/-- `storch.sum` over the plate of a tensor of one step. -/
theorem sum_at [CommSemiring α] (h : Steps C name n) (i : Nat) (hook : UnwrapHook α) (g : Nat → List Nat → α) (a : STen α)
    (ha : At C name n [] i g a) (hh : hook (C.plate name i) a = .ok a) :
    ∃ s, storchSum hook a name = .ok s ∧ Flat (∑ r ∈ Finset.range (n i), g r []) s := by
  have hmdp := ha.multi h
  have hidx : a.plateDimIndex name = .ok 0 := by
    simp [STen.plateDimIndex, hmdp, h.nameEq, indexBy]
  set S : Ten α := ⟨[], fun idx => ∑ k ∈ Finset.range (n i), a.ten.get (idx.insertIdx 0 k)⟩ with hS
  have hmd : [C.plate name i].filter (fun p => decide (1 < p.n)) = [C.plate name i] := by
    simp [h.sizeEq, h.multi]
  refine ⟨⟨S, [], 0⟩, ?_, rfl, rfl, rfl, ?_⟩
  · have hca : collectArgs (⟨[.st a false, .tup [.other 0]], []⟩ : Args α) = (⟨[a], [C.plate name i]⟩, 0) := by
      simp [collectArgs, collectList, Val.collect, ha.eventDims, ha.1, addPlates_one]
    have hun : unwrapSt hook { reducePlates := [name] } [C.plate name i] 0 a = .ok a.ten :=
      unwrap_at h i [] g a ha hook hh
    have hprep : prepareArgs hook { reducePlates := [name] } (⟨[.st a false, .tup [.other 0]], []⟩ : Args α) =
        .ok ⟨⟨[.torch a.ten, .tup [.other 0]], []⟩, [a], [C.plate name i]⟩ := by
      unfold prepareArgs
      simp only [hca]
      simp only [filter_at h, hmd, applyDim, applyDims, if_true, List.map_nil, unwrapList, Val.unwrap, hun,
        List.zip_nil_left]
    have hfn : sumFn (⟨[.torch a.ten, .tup [.other 0]], []⟩ : Args α) = .ok (.torch S) := by
      simp [sumFn, Ten.sumDim, ha.2.2.1, hS]
    unfold storchSum
    simp only [hidx]
    unfold handleDet
    simp only [Bool.false_eq_true, if_false, hprep, List.isEmpty_cons, hfn, Val.wrapOut]
    simp [h.nameEq, STen.mk', STen.checkPlates, asSt]
  · show ∑ k ∈ Finset.range (n i), _ = _
    apply Finset.sum_congr rfl
    intro r hr
    exact ha.2.2.2 r [] (Finset.mem_range.1 hr) List.Forall₂.nil

theorem hook_flat (h : Steps C name n) (i : Nat) {v : α} {s : STen α} (hs : Flat v s) :
    C.hook asLong (C.plate name i) s = .ok s := by
  unfold Chain.hook
  rw [h.kindEq]
  dsimp only
  rw [onUnwrap]
  simp only [h.kindEq, hs.1, List.findIdx?_nil]

/-- An element-wise function of a tensor without plates and a tensor of one step. -/
theorem flat_at_call (h : Steps C name n) (hn : ∀ i j, n i = n j) (hsel : ∀ i, C.sel name i = none) (i : Nat)
    (op : List α → α) {v : α} {s : STen α} (hs : Flat v s) (a : STen α) (sa sb : Bool) (f : Nat → List Nat → α)
    (ha : At C name n [] i f a) :
    ∃ u, handleDet (C.hook asLong) false false {} (elementwiseFn op) (opArgs [.st s sb, .st a sa]) =
      .ok (.st u false) ∧ At C name n [] i (fun r e => op [v, f r e]) u := by
  have hmd : [C.plate name i].filter (fun p => decide (1 < p.n)) = [C.plate name i] := by
    simp [h.sizeEq, h.multi]
  have hed : s.eventDims = 0 := by simp [STen.eventDims, STen.eventShape, hs.2.2.1]
  have hmds : s.multiDimPlates = [] := by simp [STen.multiDimPlates, hs.1]
  have hca : collectArgs (opArgs [Operand.st s sb, Operand.st a sa]) = (⟨[s, a], [C.plate name i]⟩, 0) := by
    simp [collectArgs, opArgs, Operand.val, collectList, Val.collect, ha.eventDims, ha.1, hs.1, hed, addPlates,
      Plate.isIn, memBy]
  obtain ⟨S, hS1, hS2, hS3⟩ : ∃ S : Ten α, unwrapSt (C.hook asLong) {} [C.plate name i] 0 s = .ok S ∧ S.shape = [1] ∧
      S.get [0] = v := by
    refine ⟨⟨[1], fun idx => s.ten.get (idx.eraseIdx 0)⟩, ?_, rfl, hs.2.2.2⟩
    simp only [unwrapSt, Bool.not_true, Bool.false_eq_true, if_false, hookLoop, Bool.or_false, hook_flat h i hs]
    unfold alignTen
    simp only [hed, lt_irrefl, decide_false, Bool.and_false, Bool.false_eq_true, if_false, hmds]
    simp [swapLoop, unsqLoop, Plate.isIn, memBy, hs.1, Ten.unsqueeze, hs.2.2.1]
  have hprep : prepareArgs (C.hook asLong) {} (opArgs [Operand.st s sb, Operand.st a sa]) =
      .ok ⟨⟨[.torch S, .torch a.ten], []⟩, [s, a], [C.plate name i]⟩ := by
    have hua := unwrap_at h i [] f a ha (C.hook asLong) (hook_own h hn hsel ha)
    unfold prepareArgs
    simp only [hca]
    simp only [List.length_nil] at hua
    simp only [filter_at h, hmd, applyDim, applyDims, if_true, opArgs, List.map_cons, List.map_nil,
      Operand.val, unwrapList, Val.unwrap, hS1, hua, List.zip_nil_left]
  set R : Ten α := ⟨[n i], fun idx => op ([S, a.ten].map
    (fun t => t.get (Ten.bidx t.shape (idx.drop (idx.length - t.ndim)))))⟩ with hR
  have hel : elementwiseFn op ⟨[.torch S, .torch a.ten], []⟩ = .ok (.torch R) := by
    have h2 : Ten.elementwise op [S, a.ten] = .ok R := by
      unfold Ten.elementwise
      have : Ten.bshapes [[1], [n i]] = some [n i] := by
        have h1 := bzip_ones [n i]
        have h2 := bzip_self [1]
        simp only [List.length_singleton, List.replicate_one] at h1
        simp [Ten.bshapes, Ten.padL, h1, h2]
      simp only [List.map_cons, List.map_nil, ha.2.2.1, hS2, this, hR]
    have h1 : ([Val.torch S, Val.torch a.ten]).mapM Val.asTorch = some [S, a.ten] := mapM_torch [S, a.ten]
    unfold elementwiseFn
    simp only [h1, h2]
  refine ⟨⟨R, [C.plate name i], 1⟩, ?_, rfl, rfl, rfl, ?_⟩
  · unfold handleDet
    simp only [Bool.false_eq_true, if_false, hprep, List.isEmpty_cons, hel, Val.wrapOut]
    simp only [List.not_mem_nil, decide_false, Bool.not_false, List.filter_cons, List.filter_nil, if_true]
    rw [mk_single h R i [] rfl]
  · intro r e hr he
    cases he
    show op _ = _
    have h1 : a.ten.get [r] = f r [] := ha.2.2.2 r [] hr List.Forall₂.nil
    have h2 : Ten.bidx [n i] [r] = [r] := bidx_inB (List.Forall₂.cons hr List.Forall₂.nil)
    have h3 : Ten.bidx [1] [r] = [0] := by simp [Ten.bidx]
    simp [Ten.ndim, ha.2.2.1, hS2, h2, h3, hS3, h1]

/-- An element-wise function of two tensors without plates. -/
theorem flat_flat_call (hook : UnwrapHook α) (op : List α → α) {v v' : α} {s s' : STen α} (hs : Flat v s) (hs' : Flat v' s')
    (b b' : Bool) :
    ∃ u, handleDet hook false false {} (elementwiseFn op) (opArgs [.st s b, .st s' b']) = .ok (.st u false) ∧
      Flat (op [v, v']) u := by
  have hed : ∀ {v : α} {s : STen α}, Flat v s → s.eventDims = 0 := by
    intro v s hs
    simp [STen.eventDims, STen.eventShape, hs.2.2.1]
  have hun : ∀ {v : α} {s : STen α}, Flat v s → unwrapSt hook {} [] 0 s = .ok s.ten := by
    intro v s hs
    have hmd : s.multiDimPlates = [] := by simp [STen.multiDimPlates, hs.1]
    simp only [unwrapSt, Bool.not_true, Bool.false_eq_true, if_false, hookLoop, Bool.or_false]
    unfold alignTen
    simp only [hed hs, lt_irrefl, decide_false, Bool.and_false, Bool.false_eq_true, if_false, hmd]
    simp [swapLoop, unsqLoop]
  have hmk : ∀ R : Ten α, R.shape = [] → STen.mk' R ([] : List (Plate α)) = .ok ⟨R, [], 0⟩ := by
    intro R _
    simp [STen.mk', STen.checkPlates]
  have hprep : prepareArgs hook {} (opArgs [Operand.st s b, Operand.st s' b']) =
      .ok ⟨⟨[.torch s.ten, .torch s'.ten], []⟩, [s, s'], []⟩ := by
    unfold prepareArgs
    have hca : collectArgs (opArgs [Operand.st s b, Operand.st s' b']) = (⟨[s, s'], []⟩, 0) := by
      simp [collectArgs, opArgs, Operand.val, collectList, Val.collect, hed hs, hed hs', hs.1, hs'.1, addPlates]
    simp only [hca]
    simp only [filterPlates, List.filter_nil, applyDim, applyDims, if_true, opArgs, List.map_cons, List.map_nil,
      Operand.val, unwrapList, Val.unwrap, hun hs, hun hs', List.zip_nil_left]
  set R : Ten α := ⟨[], fun idx => op ([s.ten, s'.ten].map
    (fun t => t.get (Ten.bidx t.shape (idx.drop (idx.length - t.ndim)))))⟩ with hR
  have hel : elementwiseFn op ⟨[.torch s.ten, .torch s'.ten], []⟩ = .ok (.torch R) := by
    have h2 : Ten.elementwise op [s.ten, s'.ten] = .ok R := by
      unfold Ten.elementwise
      simp only [List.map_cons, List.map_nil, hs'.2.2.1, hs.2.2.1, bshapes_flat, hR]
    have h1 : ([Val.torch s.ten, Val.torch s'.ten]).mapM Val.asTorch = some [s.ten, s'.ten] := mapM_torch [s.ten, s'.ten]
    unfold elementwiseFn
    simp only [h1, h2]
  refine ⟨⟨R, [], 0⟩, ?_, rfl, rfl, rfl, ?_⟩
  · unfold handleDet
    simp only [Bool.false_eq_true, if_false, hprep, List.isEmpty_cons, hel, Val.wrapOut]
    simp only [List.filter_nil, hmk R rfl]
  · show op _ = op _
    simp [Ten.bidx, hs.2.2.2, hs'.2.2.2]

/-- The number zero, or a storch tensor without plates. -/
def PlainOp (v : α) (o : Operand α) : Prop := o = .torch (.scalar v) ∨ ∃ s, o = .st s false ∧ Flat v s

/-- An element-wise function of such an operand and a tensor without plates. -/
theorem plainOp_call (hook : UnwrapHook α) (op : List α → α) {v v' : α} {o : Operand α} {s : STen α} (ho : PlainOp v o)
    (hs : Flat v' s) (b : Bool) :
    ∃ u, handleDet hook false false {} (elementwiseFn op) (opArgs [o, .st s b]) = .ok (.st u false) ∧
      Flat (op [v, v']) u := by
  rcases ho with rfl | ⟨s', rfl, hs'⟩
  · exact flat_call hook op hs b (.scalar v) rfl _ false rfl
  · exact flat_flat_call hook op hs' hs false b

/-- `magic_box` of a tensor of one step. -/
theorem box_at [Ring α] [Autograd α] (h : Steps C name n) (hn : ∀ i j, n i = n j) (hsel : ∀ i, C.sel name i = none)
    (i : Nat) (f : Nat → List Nat → α) (a : STen α) (sa : Bool) (ha : At C name n [] i f a) :
    ∃ u, magicBox (C.hook asLong) (.st a sa) = .ok (.st u false) ∧
      At C name n [] i (fun r e => Autograd.exp (f r e - Autograd.detach (f r e))) u := by
  obtain ⟨d, hd1, hd2⟩ := unary_call h i (C.hook asLong) detachElts [] _ a sa ha (hook_own h hn hsel ha)
  obtain ⟨x, hx1, hx2⟩ := binary_call (asLong := asLong) h hn hsel [] i i subElts a d sa false _ _ ha hd2
  rw [max_self] at hx2
  obtain ⟨b, hb1, hb2⟩ := unary_call h i (C.hook asLong) expElts [] _ x false hx2 (hook_own h hn hsel hx2)
  refine ⟨b, ?_, hb2⟩
  unfold magicBox
  simp only [opCall, hd1, hx1, hb1]

end

end Storch
