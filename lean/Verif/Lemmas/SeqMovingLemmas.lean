import Verif.Lemmas.SeqBatchLemmas

/-!
Lemmas for the moving average baseline of C99.
-/

namespace Storch
variable {α : Type _} [ValEq α]

section
variable {C : Chain α} {asLong : α → Nat} {name : String} {n : Nat → Nat}

/-- `storch.reduce_plates` of a tensor of one step, with weights detached or not. -/
theorem reduce_with [CommSemiring α] (h : Steps C name n) (i : Nat) (hook : UnwrapHook α) (dt : α → α)
    (g : Nat → List Nat → α) (a : STen α) (sa : Bool) (ha : At C name n [] i g a) (hh : hook (C.plate name i) a = .ok a)
    (wt : α) (hw : (C.plate name i).weight = .torch (Ten.scalar wt)) (hf : NameFree name (C.plate name i).parents) :
    ∃ s, reducePlates hook dt (.st a sa) [] = .ok s ∧ Flat ((∑ r ∈ Finset.range (n i), g r []) * dt wt) s := by
  have hni := h.multi i
  have hord : orderPlates [C.plate name i] true = .ok [C.plate name i] :=
    order_single (by rw [h.nameEq]; exact hf)
  obtain ⟨S, hsum, hflat⟩ := sum_at h i hook g a ha hh
  obtain ⟨u, hu1, hu2⟩ := flat_call hook List.prod hflat false ((Ten.scalar wt).map dt) rfl
    [.st S false, .torch ((Ten.scalar wt).map dt)] true rfl
  refine ⟨u, ?_, by simpa [Ten.map, Ten.scalar] using hu2⟩
  unfold reducePlates
  simp only [handleInputs, ha.1, hord, reduceLoop]
  have hred : (C.plate name i).reduce hook dt a = .ok u := by
    unfold Plate.reduce
    rw [if_neg (by rw [h.sizeEq]; omega)]
    simp only [Plate.weightOp, hw]
    have : (Operand.torch ((Ten.scalar wt).map dt)).ndim = 0 := rfl
    rw [if_pos this, h.nameEq, hsum]
    simp only [mulOps, hu1, asSt]
  rw [hred]

/-- An element-wise function of a tensor without plates. -/
theorem flat_unary (hook : UnwrapHook α) (op : List α → α) {v : α} {s : STen α} (hs : Flat v s) (b : Bool) :
    ∃ u, handleDet hook false false {} (elementwiseFn op) (opArgs [.st s b]) = .ok (.st u false) ∧ Flat (op [v]) u := by
  have hed : s.eventDims = 0 := by simp [STen.eventDims, STen.eventShape, hs.2.2.1]
  have hmd : s.multiDimPlates = [] := by simp [STen.multiDimPlates, hs.1]
  have hun : unwrapSt hook {} [] 0 s = .ok s.ten := by
    simp only [unwrapSt, Bool.not_true, Bool.false_eq_true, if_false, hookLoop, Bool.or_false]
    unfold alignTen
    simp only [hed, lt_irrefl, decide_false, Bool.and_false, Bool.false_eq_true, if_false, hmd]
    simp [swapLoop, unsqLoop]
  have hmk : ∀ R : Ten α, R.shape = [] → STen.mk' R ([] : List (Plate α)) = .ok ⟨R, [], 0⟩ := by
    intro R _
    simp [STen.mk', STen.checkPlates]
  have hprep : prepareArgs hook {} (opArgs [Operand.st s b]) = .ok ⟨⟨[.torch s.ten], []⟩, [s], []⟩ := by
    unfold prepareArgs
    have hca : collectArgs (opArgs [Operand.st s b]) = (⟨[s], []⟩, 0) := by
      simp [collectArgs, opArgs, Operand.val, collectList, Val.collect, hed, hs.1, addPlates]
    simp only [hca]
    simp only [filterPlates, List.filter_nil, applyDim, applyDims, if_true, opArgs, List.map_cons, List.map_nil,
      Operand.val, unwrapList, Val.unwrap, hun, List.zip_nil_left]
  set R : Ten α := ⟨[], fun idx => op ([s.ten].map
    (fun t => t.get (Ten.bidx t.shape (idx.drop (idx.length - t.ndim)))))⟩ with hR
  have hel : elementwiseFn op ⟨[.torch s.ten], []⟩ = .ok (.torch R) := by
    have h2 : Ten.elementwise op [s.ten] = .ok R := by
      unfold Ten.elementwise
      have : Ten.bshapes [[]] = some [] := by simp [Ten.bshapes, Ten.padL, Ten.bzip]
      simp only [List.map_cons, List.map_nil, hs.2.2.1, this, hR]
    have h1 : ([Val.torch s.ten]).mapM Val.asTorch = some [s.ten] := mapM_torch [s.ten]
    unfold elementwiseFn
    simp only [h1, h2]
  refine ⟨⟨R, [], 0⟩, ?_, rfl, rfl, rfl, ?_⟩
  · unfold handleDet
    simp only [Bool.false_eq_true, if_false, hprep, List.isEmpty_cons, hel, Val.wrapOut]
    simp only [List.filter_nil, hmk R rfl]
  · show op _ = op _
    simp [Ten.bidx, hs.2.2.2]

/-- An element-wise function of a tensor of one step and a torch tensor without dimensions. -/
theorem at_number_call (h : Steps C name n) (i : Nat) (hook : UnwrapHook α) (op : List α → α) (z : Ten α)
    (hz : z.shape = []) (f : Nat → List Nat → α) (a : STen α) (sa : Bool)
    (ha : At C name n [] i f a) (hh : hook (C.plate name i) a = .ok a) :
    ∃ u, handleDet hook false false {} (elementwiseFn op) (opArgs [.st a sa, .torch z]) = .ok (.st u false) ∧
      At C name n [] i (fun r e => op [f r e, z.get []]) u := by
  have hmd : [C.plate name i].filter (fun p => decide (1 < p.n)) = [C.plate name i] := by
    simp [h.sizeEq, h.multi]
  have hca : collectArgs (opArgs [Operand.st a sa, .torch z]) = (⟨[a], [C.plate name i]⟩, 0) := by
    simp [collectArgs, opArgs, Operand.val, collectList, Val.collect, ha.eventDims, ha.1, addPlates_one]
  have hprep : prepareArgs hook {} (opArgs [Operand.st a sa, .torch z]) =
      .ok ⟨⟨[.torch a.ten, .torch z], []⟩, [a], [C.plate name i]⟩ := by
    have hua := unwrap_at h i [] f a ha hook hh
    simp only [List.length_nil] at hua
    unfold prepareArgs
    simp only [hca]
    simp only [filter_at h, hmd, applyDim, applyDims, if_true, opArgs, List.map_cons, List.map_nil,
      Operand.val, unwrapList, Val.unwrap, hua, List.zip_nil_left]
  set R : Ten α := ⟨[n i], fun idx => op ([a.ten, z].map
    (fun t => t.get (Ten.bidx t.shape (idx.drop (idx.length - t.ndim)))))⟩ with hR
  have hel : elementwiseFn op ⟨[.torch a.ten, .torch z], []⟩ = .ok (.torch R) := by
    have h2 : Ten.elementwise op [a.ten, z] = .ok R := by
      unfold Ten.elementwise
      have : Ten.bshapes [[n i], []] = some [n i] := by
        have h1 := bzip_ones [n i]
        have h3 : Ten.bzip [n i] [1] = some [n i] := by
          have hd : Ten.bdim (n i) 1 = some (n i) := by
            unfold Ten.bdim
            split_ifs <;> simp_all
          simp [Ten.bzip, hd]
        simp only [List.length_singleton, List.replicate_one] at h1
        simp [Ten.bshapes, Ten.padL, h1, h3]
      simp only [List.map_cons, List.map_nil, ha.2.2.1, hz, this, hR]
    have h1 : ([Val.torch a.ten, Val.torch z]).mapM Val.asTorch = some [a.ten, z] := mapM_torch [a.ten, z]
    unfold elementwiseFn
    simp only [h1, h2]
  refine ⟨⟨R, [C.plate name i], 1⟩, ?_, rfl, rfl, rfl, ?_⟩
  · unfold handleDet
    simp only [Bool.false_eq_true, if_false, hprep, List.isEmpty_cons, hel, Val.wrapOut]
    simp only [List.not_mem_nil, decide_false, Bool.not_false, List.filter_cons, List.filter_nil, if_true]
    rw [mk_single h R i [] rfl]
  · intro r e hr he
    cases he
    show op _ = _
    have h1 : a.ten.get [r] = f r [] := ha.2.2.2 r [] hr List.Forall₂.nil
    have h2 : Ten.bidx [n i] [r] = [r] := bidx_inB (List.Forall₂.cons hr List.Forall₂.nil)
    have h3 : Ten.bidx [] ([] : List Nat) = [] := by simp [Ten.bidx]
    simp [Ten.ndim, ha.2.2.1, hz, h2, h3, h1]

end

end Storch
