import Verif.Lemmas.AncestralLemmas
import Verif.Props.BroadcastProps

/-!
# C46: tensors from earlier decoding steps are re-indexed to their descendants

`ancestor s j d r` is the specification: the sample of step `j` that sample `r` of step `j + d` descends from.

Re-indexing is right from one step to the next, for decoders that never select (Monte Carlo decoding), and across
several steps when the selections in between are idempotent.  Otherwise it is wrong: inside the loop of
`on_unwrap_tensor` only the plate itself is marked as being in recursion, so that the wrapped gather re-indexes the
tensor once by itself before gathering it again (`C46_refuted`).  Tensors without event dimensions gain a dimension and no
longer line up (`C46_scalar_refuted`).
-/

namespace Storch

variable {α : Type _} [ValEq α]

section
variable {C : Chain α} {asLong : α → Nat} {name : String} {n : Nat → Nat} {s : Nat → Nat → Nat}

/-- An idempotent selection may be applied twice. -/
theorem readIndex_eq_ancestor (j : Nat) : ∀ d r,
    (∀ m r, j < m → m < j + d → s m (s m r) = s m r) → readIndex s j d r = ancestor s j d r
  | 0, _, _ => rfl
  | d + 1, r, h => by
    rw [readIndex, ancestor]
    generalize s (j + d + 1) r = q
    have : ∀ c q, c ≤ d → ancestor (fun m r => s m (s m r)) j c q = ancestor s j c q := by
      intro c
      induction c with
      | zero => intro q _; rfl
      | succ c ih =>
        intro q hc
        rw [ancestor, ancestor, h _ _ (by omega) (by omega)]
        exact ih _ (by omega)
    exact this d q le_rfl

end

theorem bzip_ones (s : List Nat) : Ten.bzip (List.replicate s.length 1) s = some s := by
  induction s with
  | nil => rfl
  | cons a s ih =>
    simp only [List.length_cons, List.replicate_succ, Ten.bzip, ih, Ten.bdim]
    by_cases h : 1 = a <;> simp [h]

theorem bzip_self (s : List Nat) : Ten.bzip s s = some s := by
  induction s with
  | nil => rfl
  | cons a s ih => simp [Ten.bzip, ih, Ten.bdim]

theorem bshapes_pair (s : List Nat) : Ten.bshapes [s, s] = some s := by
  simp [Ten.bshapes, Ten.padL, bzip_ones, bzip_self]

section
variable {C : Chain α} {asLong : α → Nat} {name : String} {n : Nat → Nat} {s : Nat → Nat → Nat}

/-- Aligning a tensor of step `i` with the plate of step `i`. -/
theorem align_single (h : Steps C name n) (i : Nat) (ev : List Nat) (f : Nat → List Nat → α) (a : STen α)
    (ha : At C name n ev i f a) :
    alignTen true false false [C.plate name i] ev.length a = .ok a.ten := by
  have hmd : a.multiDimPlates = [C.plate name i] := by
    simp [STen.multiDimPlates, ha.1, h.sizeEq, h.multi]
  unfold alignTen
  simp only [ha.eventDims, lt_irrefl, decide_false, Bool.and_false, Bool.false_eq_true, if_false, hmd]
  simp [swapLoop, unsqLoop, Plate.isIn, memBy, pyEq_refl, ha.1, ha.2.2.1]

/-- An element-wise function of two tensors of steps `x` and `y`, the later of which is step `b`, when the hook
makes `a'` and `b'` of them. -/
theorem combine_call (h : Steps C name n) {lo hi x y : Nat}
    (hxy : x = lo ∧ y = hi ∨ x = hi ∧ y = lo) (hle : lo ≤ hi) (hook : UnwrapHook α) (op : List α → α)
    (ev : List Nat) (f g f' g' : Nat → List Nat → α) (a b a' b' : STen α) (sa sb : Bool)
    (ha : At C name n ev x f a) (hb : At C name n ev y g b)
    (hha : hook (C.plate name hi) a = .ok a') (hhb : hook (C.plate name hi) b = .ok b')
    (ha' : At C name n ev hi f' a') (hb' : At C name n ev hi g' b') :
    ∃ u, handleDet hook false false {} (elementwiseFn op) (opArgs [.st a sa, .st b sb]) = .ok (.st u false) ∧
      At C name n ev hi (fun r e => op [f' r e, g' r e]) u := by
  have hcoll : addPlates (addPlates [] a.plates) b.plates =
      if x = y then [C.plate name x] else [C.plate name x, C.plate name y] := by
    rw [ha.1, hb.1]; exact h.collected x y
  have hfil : filterPlates (addPlates (addPlates [] a.plates) b.plates) (addPlates (addPlates [] a.plates) b.plates) =
      .ok [C.plate name hi] := by
    rw [hcoll]
    by_cases heq : x = y
    · have : x = hi := by omega
      subst this
      simp [heq, filterPlates, (h.collecting y y).1]
    · have hlt : ¬ hi ≤ lo := by omega
      rw [if_neg heq]
      rcases hxy with ⟨rfl, rfl⟩ | ⟨rfl, rfl⟩
      · simp [filterPlates, (h.collecting x y).2.1, (h.collecting y x).2.2, hlt, hle]
      · simp [filterPlates, (h.collecting x y).2.1, (h.collecting y x).2.2, hlt, hle]
  have hmd : [C.plate name hi].filter (fun p => decide (1 < p.n)) = [C.plate name hi] := by
    simp [h.sizeEq, h.multi]
  have hua : ∀ (t t' : STen α) (k : Nat → List Nat → α), hook (C.plate name hi) t = .ok t' →
      At C name n ev hi k t' → unwrapSt hook {} [C.plate name hi] ev.length t = .ok t'.ten := by
    intro t t' k h1 h2
    simp only [unwrapSt, Bool.not_true, Bool.false_eq_true, if_false, hookLoop, h1, Bool.or_false]
    exact align_single h hi ev k t' h2
  have hca : collectArgs (opArgs [Operand.st a sa, Operand.st b sb]) =
      (⟨[a, b], addPlates (addPlates [] a.plates) b.plates⟩, ev.length) := by
    simp [collectArgs, opArgs, Operand.val, collectList, Val.collect, ha.eventDims, hb.eventDims]
  have hprep : prepareArgs hook {} (opArgs [Operand.st a sa, Operand.st b sb]) =
      .ok ⟨⟨[.torch a'.ten, .torch b'.ten], []⟩, [a, b], [C.plate name hi]⟩ := by
    unfold prepareArgs
    simp only [hca]
    simp only [hfil, hmd, applyDim, applyDims, if_true, opArgs, List.map_cons, List.map_nil,
      Operand.val, unwrapList, Val.unwrap, hua a a' f' hha ha', hua b b' g' hhb hb', List.zip_nil_left]
  have hshape : a'.ten.shape = b'.ten.shape := by rw [ha'.2.2.1, hb'.2.2.1]
  set R : Ten α := ⟨n hi :: ev, fun idx => op ([a'.ten, b'.ten].map
    (fun t => t.get (Ten.bidx t.shape (idx.drop (idx.length - t.ndim)))))⟩ with hR
  have hel : elementwiseFn op ⟨[.torch a'.ten, .torch b'.ten], []⟩ = .ok (.torch R) := by
    have h2 : Ten.elementwise op [a'.ten, b'.ten] = .ok R := by
      unfold Ten.elementwise
      simp only [List.map_cons, List.map_nil, ha'.2.2.1, hb'.2.2.1, bshapes_pair, hR]
    have h1 : ([Val.torch a'.ten, Val.torch b'.ten]).mapM Val.asTorch = some [a'.ten, b'.ten] :=
      mapM_torch [a'.ten, b'.ten]
    unfold elementwiseFn
    simp only [h1, h2]
  refine ⟨⟨R, [C.plate name hi], 1⟩, ?_, rfl, rfl, rfl, ?_⟩
  · unfold handleDet
    simp only [Bool.false_eq_true, if_false, hprep, List.isEmpty_cons, hel, Val.wrapOut]
    simp only [List.not_mem_nil, decide_false, Bool.not_false, List.filter_cons, List.filter_nil, if_true]
    rw [mk_single h R hi ev rfl]
  · intro r e hr he
    have hd : ∀ t : Ten α, t.shape = n hi :: ev →
        t.get (Ten.bidx t.shape ((r :: e).drop ((r :: e).length - t.ndim))) = t.get (r :: e) := by
      intro t ht
      rw [Ten.ndim, ht, List.length_cons, List.length_cons, he.length_eq, Nat.sub_self, List.drop_zero, bidx_inB]
      exact List.Forall₂.cons hr he
    show op _ = _
    simp only [List.map_cons, List.map_nil]
    rw [hd a'.ten ha'.2.2.1, hd b'.ten hb'.2.2.1, ha'.2.2.2 r e hr he, hb'.2.2.2 r e hr he]

/-- The hook of a chain on a tensor of step `j`, for the plate of step `j + d`. -/
theorem chain_hook (h : GoodChain C asLong name n s) (ev : List Nat) (hev : ev ≠ []) (j d : Nat) (t : STen α)
    (f : Nat → List Nat → α) (ht : At C name n ev j f t) :
    ∃ u, C.hook asLong (C.plate name (j + d)) t = .ok u ∧
      At C name n ev (j + d) (fun r e => f (readIndex s j d r) e) u := by
  obtain ⟨u, hu, hat⟩ := h.onUnwrap_spec ev hev (j + d + 1) d j (by omega) t f ht
  refine ⟨u, ?_, hat⟩
  unfold Chain.hook
  rw [h.kindEq]
  exact hu

/-- **C46 (partial).** Combining a tensor of step `j` with one of step `j + d` by an element-wise function gives at
sample `r` the function of the value of the ancestor of `r` at step `j` and the value of `r`, provided the selections
strictly between the two steps are idempotent.

Missing: other selections strictly between the steps (`C46_refuted` shows the claim fails for them), tensors
without event dimensions (`C46_scalar_refuted`), and tensors that have further plates. -/
theorem C46_descendants_partial (h : GoodChain C asLong name n s) (ev : List Nat) (hev : ev ≠ []) (j d : Nat)
    (hid : ∀ m r, j < m → m < j + d → s m (s m r) = s m r) (op : List α → α)
    (a b : STen α) (sa sb : Bool) (f g : Nat → List Nat → α)
    (ha : At C name n ev j f a) (hb : At C name n ev (j + d) g b) :
    (∃ u, handleDet (C.hook asLong) false false {} (elementwiseFn op) (opArgs [.st a sa, .st b sb]) =
        .ok (.st u false) ∧ At C name n ev (j + d) (fun r e => op [f (ancestor s j d r) e, g r e]) u) ∧
    (∃ u, handleDet (C.hook asLong) false false {} (elementwiseFn op) (opArgs [.st b sb, .st a sa]) =
        .ok (.st u false) ∧ At C name n ev (j + d) (fun r e => op [g r e, f (ancestor s j d r) e]) u) := by
  obtain ⟨a', ha1, ha2⟩ := chain_hook h ev hev j d a f ha
  obtain ⟨b', hb1, hb2⟩ := chain_hook h ev hev (j + d) 0 b g hb
  have heq : ∀ r, readIndex s j d r = ancestor s j d r := fun r => readIndex_eq_ancestor j d r hid
  simp only [heq] at ha2
  exact ⟨combine_call h.toSteps (Or.inl ⟨rfl, rfl⟩) (by omega) _ op ev f g _ _ a b a' b' sa sb ha hb ha1 hb1 ha2 hb2,
    combine_call h.toSteps (Or.inr ⟨rfl, rfl⟩) (by omega) _ op ev g f _ _ b a b' a' sb sa hb ha hb1 ha1 hb2 ha2⟩

/-- **C46 (partial): one step.** From one step to the next every selection is followed. -/
theorem C46_next_step_partial (h : GoodChain C asLong name n s) (ev : List Nat) (hev : ev ≠ []) (j : Nat)
    (op : List α → α) (a b : STen α) (sa sb : Bool) (f g : Nat → List Nat → α)
    (ha : At C name n ev j f a) (hb : At C name n ev (j + 1) g b) :
    ∃ u, handleDet (C.hook asLong) false false {} (elementwiseFn op) (opArgs [.st a sa, .st b sb]) =
      .ok (.st u false) ∧ At C name n ev (j + 1) (fun r e => op [f (s (j + 1) r) e, g r e]) u :=
  (C46_descendants_partial h ev hev j 1 (fun m r h1 h2 => absurd h1 (by omega)) op a b sa sb f g ha hb).1

/-- **C46 (partial): what is read across several steps**, without any condition on the selections: the selections
strictly between the steps are followed twice. -/
theorem C46_read_partial (h : GoodChain C asLong name n s) (ev : List Nat) (hev : ev ≠ []) (j d : Nat)
    (op : List α → α) (a b : STen α) (sa sb : Bool) (f g : Nat → List Nat → α)
    (ha : At C name n ev j f a) (hb : At C name n ev (j + (d + 1)) g b) :
    ∃ u, handleDet (C.hook asLong) false false {} (elementwiseFn op) (opArgs [.st a sa, .st b sb]) =
      .ok (.st u false) ∧ At C name n ev (j + (d + 1)) (fun r e =>
        op [f (ancestor (fun m r => s m (s m r)) j d (s (j + d + 1) r)) e, g r e]) u := by
  obtain ⟨a', ha1, ha2⟩ := chain_hook h ev hev j (d + 1) a f ha
  obtain ⟨b', hb1, hb2⟩ := chain_hook h ev hev (j + (d + 1)) 0 b g hb
  exact combine_call h.toSteps (Or.inl ⟨rfl, rfl⟩) (by omega) _ op ev f g _ _ a b a' b' sa sb ha hb ha1 hb1 ha2 hb2

/-- **C46 (partial): decoders that do not select** (`MCDecoder`, `ImportanceSampleDecoder`): sequence `r` at a later
step continues sequence `r`, and the values are combined sample by sample, with or without event dimensions. -/
theorem C46_montecarlo_partial (h : Steps C name n) (hn : ∀ i j, n i = n j) (hsel : ∀ i, C.sel name i = none)
    (ev : List Nat) (j d : Nat) (op : List α → α) (a b : STen α) (sa sb : Bool) (f g : Nat → List Nat → α)
    (ha : At C name n ev j f a) (hb : At C name n ev (j + d) g b) :
    ∃ u, handleDet (C.hook asLong) false false {} (elementwiseFn op) (opArgs [.st a sa, .st b sb]) =
      .ok (.st u false) ∧ At C name n ev (j + d) (fun r e => op [f r e, g r e]) u := by
  have hhook : ∀ (k c : Nat) (t : STen α) (q : Nat → List Nat → α), At C name n ev k q t →
      ∃ u, C.hook asLong (C.plate name (k + c)) t = .ok u ∧ At C name n ev (k + c) q u := by
    intro k c t q ht
    unfold Chain.hook
    rw [h.kindEq]
    dsimp only
    rw [onUnwrap]
    simp only [h.kindEq, ht.1, List.findIdx?_cons, h.nameEq, beq_self_eq_true, if_true, List.getElem?_cons_zero,
      hsel]
    by_cases hc : c = 0
    · subst hc
      simp only [Nat.add_zero, if_true]
      exact ⟨t, rfl, ht⟩
    · rw [if_neg (by omega), if_neg (by omega), List.set_cons_zero,
        mk_single h t.ten (k + c) ev (by rw [ht.2.2.1, hn k (k + c)])]
      exact ⟨_, rfl, rfl, rfl, by rw [hn (k + c) k]; exact ht.2.2.1, fun r e hr he =>
        ht.2.2.2 r e (by rw [hn k (k + c)]; exact hr) he⟩
  obtain ⟨a', ha1, ha2⟩ := hhook j d a f ha
  obtain ⟨b', hb1, hb2⟩ := hhook (j + d) 0 b g hb
  exact combine_call h (Or.inl ⟨rfl, rfl⟩) (by omega) _ op ev f g _ _ a b a' b' sa sb ha hb ha1 hb1 ha2 hb2

end

/-! ### Concrete chains -/

namespace AncestralCase

instance : ValEq ℚ := ⟨fun a b => decide (a = b), by simp, by simp +contextual [eq_comm], by simp +contextual⟩

/-- An element of a long tensor as an index. -/
def long (q : ℚ) : Nat := q.num.toNat

/-- The plate "z" of step `i`, with three samples. -/
def plate (i : Nat) : Plate ℚ := .mk "z" 3 (.torch (Ten.scalar (1 / 3))) (.anc i) []

/-- A vector over the samples. -/
def vec (l : List ℚ) : Ten ℚ := ⟨[3], fun idx => (l[idx.headD 0]?).getD 0⟩

/-- A tensor with one value per sample and event shape `[1]`. -/
def col (l : List ℚ) : Ten ℚ := ⟨[3, 1], fun idx => (l[idx.headD 0]?).getD 0⟩

/-- At every step the samples extend the samples 1, 2, 0 of the step before. -/
def chain : Chain ℚ := ⟨fun name i => .mk name 3 (.torch (Ten.scalar (1 / 3))) (.anc i) [],
  fun name i => some ⟨vec [1, 2, 0], [.mk name 3 (.torch (Ten.scalar (1 / 3))) (.anc i) []], 0⟩⟩

/-- The parent of each sample. -/
def parent (_ r : Nat) : Nat := if r < 2 then r + 1 else 0

/-- The chain is one a decoder makes. -/
theorem good : GoodChain chain long "z" (fun _ => 3) parent where
  nameEq _ := rfl
  kindEq _ := rfl
  sizeEq _ := rfl
  multi _ := by decide
  grows _ := le_rfl
  selected i := ⟨vec [1, 2, 0], rfl, rfl, by
    intro r hr
    have hr' : r < 3 := hr
    have : r = 0 ∨ r = 1 ∨ r = 2 := by omega
    rcases this with rfl | rfl | rfl <;> rfl⟩
  inRange i r hr := by unfold parent; split <;> omega

/-- The value of the result of a call at sample `r`. -/
def valueAt (r : Except Err (Val ℚ)) (idx : List Nat) : Option (List Nat × ℚ) :=
  match r with
  | .ok (.st t _) => some (t.ten.shape, t.ten.get idx)
  | _ => none

/-- The chain of a decoder that does not select. -/
def plainChain : Chain ℚ := ⟨fun name i => .mk name 3 (.torch (Ten.scalar (1 / 3))) (.anc i) [], fun _ _ => none⟩

/-- A case for `C46_montecarlo_partial`: the values of steps 0 and 2 are combined sample by sample. -/
example : valueAt (handleDet (plainChain.hook long) false false {} (elementwiseFn List.sum)
    (opArgs [.st ⟨vec [10, 11, 12], [plate 0], 1⟩ true, .st ⟨vec [100, 200, 300], [plate 2], 1⟩ true])) [1] =
    some ([3], 211) := by decide +kernel

/-- A case for `C46_read_partial`: from step 0 to step 2 the selection of step 1 is followed twice, so that sample 0 of step 2
reads sample 0 of step 0. -/
example : ancestor (fun m r => parent m (parent m r)) 0 1 (parent 2 0) = 0 ∧
    valueAt (handleDet (chain.hook long) false false {} (elementwiseFn List.sum)
      (opArgs [.st ⟨col [10, 11, 12], [plate 0], 1⟩ true, .st ⟨col [100, 200, 300], [plate 2], 1⟩ true])) [0, 0] =
      some ([3, 1], 110) := by decide +kernel

/-- A worked case of `C46_next_step_partial`: the value of step 0 at sample 0 of step 1 is that of its parent,
sample 1. -/
example : valueAt (handleDet (chain.hook long) false false {} (elementwiseFn List.sum)
    (opArgs [.st ⟨col [10, 11, 12], [plate 0], 1⟩ true, .st ⟨col [100, 200, 300], [plate 1], 1⟩ true])) [0, 0] =
    some ([3, 1], 111) := by decide +kernel

/-- **C46 refuted.** There is a decoder's chain where a tensor of step 0, combined with one of step 2, is not read at
the ancestor: sample 0 of step 2 descends from sample 2 of step 0, whose value is 12, but the sum
shows the value 10 of sample 0. -/
theorem C46_refuted :
    GoodChain chain long "z" (fun _ => 3) parent ∧ ancestor parent 0 2 0 = 2 ∧
    At chain "z" (fun _ => 3) [1] 0 (fun r _ => 10 + r) ⟨col [10, 11, 12], [plate 0], 1⟩ ∧
    At chain "z" (fun _ => 3) [1] 2 (fun _ _ => 100) ⟨col [100, 100, 100], [plate 2], 1⟩ ∧
    valueAt (handleDet (chain.hook long) false false {} (elementwiseFn List.sum)
      (opArgs [.st ⟨col [10, 11, 12], [plate 0], 1⟩ true, .st ⟨col [100, 100, 100], [plate 2], 1⟩ true])) [0, 0] =
      some ([3, 1], 110) := by
  refine ⟨good, by decide, ⟨rfl, rfl, rfl, ?_⟩, ⟨rfl, rfl, rfl, ?_⟩, by decide +kernel⟩
  · intro r e hr _
    have hr' : r < 3 := hr
    have : r = 0 ∨ r = 1 ∨ r = 2 := by omega
    rcases this with rfl | rfl | rfl <;> simp [col] <;> norm_num
  · intro r e hr _
    have hr' : r < 3 := hr
    have : r = 0 ∨ r = 1 ∨ r = 2 := by omega
    rcases this with rfl | rfl | rfl <;> simp [col]

/-- **C46 refuted for scalar samples.** Two tensors of consecutive steps without event dimensions: the result has a
spurious dimension, and its elements combine the ancestor of one sample with the value of another one. -/
theorem C46_scalar_refuted :
    At chain "z" (fun _ => 3) [] 0 (fun r _ => 10 + r) ⟨vec [10, 11, 12], [plate 0], 1⟩ ∧
    At chain "z" (fun _ => 3) [] 1 (fun r _ => 100 * (r + 1)) ⟨vec [100, 200, 300], [plate 1], 1⟩ ∧
    valueAt (handleDet (chain.hook long) false false {} (elementwiseFn List.sum)
      (opArgs [.st ⟨vec [10, 11, 12], [plate 0], 1⟩ true, .st ⟨vec [100, 200, 300], [plate 1], 1⟩ true])) [0, 1] =
      some ([3, 3], 211) := by
  refine ⟨⟨rfl, rfl, rfl, ?_⟩, ⟨rfl, rfl, rfl, ?_⟩, by decide +kernel⟩
  · intro r e hr _
    have hr' : r < 3 := hr
    have : r = 0 ∨ r = 1 ∨ r = 2 := by omega
    rcases this with rfl | rfl | rfl <;> simp [vec] <;> norm_num
  · intro r e hr _
    have hr' : r < 3 := hr
    have : r = 0 ∨ r = 1 ∨ r = 2 := by omega
    rcases this with rfl | rfl | rfl <;> simp [vec] <;> norm_num

end AncestralCase

end Storch
