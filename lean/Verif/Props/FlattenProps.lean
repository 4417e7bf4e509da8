import Verif.Props.CallProps

/-!
# C07: functions that are not left-broadcastable by themselves
-/

namespace Storch
variable {α : Type _}

/-! ### Specification -/

/-- A row-wise function of its positional torch arguments, such as a convolution: all arguments have
the same first dimension, and row `i` of the result is `g` of the rows `i` of the arguments. -/
def rowFn (g : List (Ten α) → Ten α) (outShape : List Nat) : Fn α := fun a =>
  match a.pos.mapM Val.asTorch with
  | Option.none => .error .type
  | some ts =>
    match ts with
    | [] => .error .type
    | t :: _ =>
      match t.shape with
      | [] => .error .torch
      | N :: _ =>
        if ts.all (fun u => u.shape.head? == some N) then
          .ok (.torch ⟨N :: outShape, fun idx =>
            (g (ts.map (fun u => ⟨u.shape.tail, fun e => u.get (idx.headD 0 :: e)⟩))).get idx.tail⟩)
        else .error .torch

/-- The part of a storch tensor at joint plate index `ι`, as the function should see it: event
dimensions padded on the right to `E`. -/
def STen.slice (a : STen α) (E : Nat) (ι : String → Nat) : Ten α :=
  ⟨a.eventShape ++ List.replicate (E - a.eventDims) 1, fun e => a.sample ι e⟩

/-- `g` maps tensors of the given shapes to a tensor of shape `out`, looking only at valid indices. -/
structure RowSpec (g : List (Ten α) → Ten α) (ins : List (List Nat)) (out : List Nat) : Prop where
  shape : ∀ ts, ts.map Ten.shape = ins → (g ts).shape = out
  congr : ∀ ts us, ts.map Ten.shape = ins → List.Forall₂ Ten.Eqv ts us → Ten.Eqv (g ts) (g us)

variable [ValEq α]

/-! ### Lemmas -/

omit [ValEq α] in
theorem numel_pos {s : List Nat} (h : ∀ d ∈ s, 0 < d) : 0 < Ten.numel s := by
  induction s with
  | nil => simp [Ten.numel]
  | cons d s ih =>
    rw [Ten.numel_cons]
    exact Nat.mul_pos (h d (by simp)) (ih (fun x hx => h x (List.mem_cons_of_mem _ hx)))

/-- What a flattened storch argument looks like. -/
def FlatOp (M : List (Plate α)) (E : Nat) (a : STen α) (t : Ten α) : Prop :=
  t.shape = Ten.numel (M.map Plate.n) :: (a.eventShape ++ List.replicate (E - a.eventDims) 1) ∧
  ∀ (ι : String → Nat) (e : List Nat), Ten.InB (M.map (fun p => ι p.name)) (M.map Plate.n) →
    Ten.InB e (a.eventShape ++ List.replicate (E - a.eventDims) 1) →
    t.get (Ten.ravel (M.map Plate.n) (M.map (fun p => ι p.name)) :: e) = a.sample ι e

theorem align_flat (M : List (Plate α)) (E : Nat) (a : STen α) (hw : a.WF) (hc : Covers M a)
    (he : a.eventDims ≤ E) (hpos : ∀ d ∈ a.eventShape, 0 < d) :
    ∃ t, alignTen true true true M E a = .ok t ∧ FlatOp M E a t := by
  obtain ⟨t, ⟨g1, g2⟩, g3⟩ := align_expand M E a hw hc he false
  have h3 := g3 true
  rw [if_pos rfl] at h3
  have hdrop : t.shape.drop M.length = a.eventShape ++ List.replicate (E - a.eventDims) 1 := by
    rw [g1, List.drop_left' (by simp)]
  have hnp : 0 < Ten.numel (a.eventShape ++ List.replicate (E - a.eventDims) 1) := by
    apply numel_pos
    intro d hd
    rcases List.mem_append.1 hd with hd | hd
    · exact hpos d hd
    · rw [List.eq_of_mem_replicate hd]; decide
  have hdiv : Ten.numel t.shape / Ten.numel (a.eventShape ++ List.replicate (E - a.eventDims) 1) =
      Ten.numel (M.map Plate.n) := by
    rw [g1, Ten.numel_append, Nat.mul_div_cancel _ hnp]
  rw [h3, Ten.flattenLeft, hdrop]
  simp only [if_neg (Nat.ne_of_gt hnp), hdiv]
  rw [Ten.reshape, if_pos (by rw [g1, Ten.numel_append, Ten.numel_cons])]
  refine ⟨_, rfl, rfl, ?_⟩
  intro ι e hi hie
  simp only
  have : Ten.ravel (Ten.numel (M.map Plate.n) :: (a.eventShape ++ List.replicate (E - a.eventDims) 1))
      (Ten.ravel (M.map Plate.n) (M.map (fun p => ι p.name)) :: e) =
      Ten.ravel (M.map Plate.n) (M.map (fun p => ι p.name)) *
        Ten.numel (a.eventShape ++ List.replicate (E - a.eventDims) 1) +
        Ten.ravel (a.eventShape ++ List.replicate (E - a.eventDims) 1) e := rfl
  rw [this, g1, Ten.unravel_flat hi hie]
  apply g2
  rw [g1]
  exact Ten.inB_append hi hie

theorem unwrap_flat {hook : UnwrapHook α} (hh : PlainHook hook)
    {M : List (Plate α)} {E : Nat} (as : List (STen α))
    (hsub : ∀ a ∈ as, a.WF ∧ Covers M a ∧ a.eventDims ≤ E ∧ ∀ d ∈ a.eventShape, 0 < d)
    (hM : ∀ p ∈ M, p.kind = .plain) :
    ∃ ts : List (Ten α), unwrapList hook { flattenPlates := true } M E
        (as.map (fun a => (Operand.st a false).val)) = .ok (ts.map Val.torch) ∧
      List.Forall₂ (FlatOp M E) as ts := by
  induction as with
  | nil => exact ⟨[], rfl, .nil⟩
  | cons a as ih =>
    obtain ⟨ts, h1, h2⟩ := ih (fun t ht => hsub t (List.mem_cons_of_mem _ ht))
    obtain ⟨hw, hc, he, hp⟩ := hsub a (by simp)
    obtain ⟨t, g1, g2⟩ := align_flat M E a hw hc he hp
    refine ⟨t :: ts, ?_, .cons g2 h2⟩
    simp only [Operand.val] at h1
    simp [unwrapList, Operand.val, Val.unwrap, h1, unwrapSt, hookLoop_plain hh M a hM, g1]

omit [ValEq α] in
theorem stens_map_st (as : List (STen α)) : stens (as.map (fun a => Operand.st a false)) = as := by
  induction as with
  | nil => rfl
  | cons a as ih => simp [stens, ih]

omit [ValEq α] in
theorem flat_slices {M : List (Plate α)} {E : Nat} {as : List (STen α)} {ts : List (Ten α)}
    (h : List.Forall₂ (FlatOp M E) as ts) {ι : String → Nat}
    (hib : Ten.InB (M.map (fun p => ι p.name)) (M.map Plate.n)) :
    (ts.map (fun u : Ten α => (⟨u.shape.tail, fun e => u.get
        (Ten.ravel (M.map Plate.n) (M.map (fun p => ι p.name)) :: e)⟩ : Ten α))).map Ten.shape =
      as.map (fun a => a.eventShape ++ List.replicate (E - a.eventDims) 1) ∧
    List.Forall₂ Ten.Eqv (ts.map (fun u : Ten α => (⟨u.shape.tail, fun e => u.get
        (Ten.ravel (M.map Plate.n) (M.map (fun p => ι p.name)) :: e)⟩ : Ten α)))
      (as.map (fun a => a.slice E ι)) := by
  induction h with
  | nil => exact ⟨rfl, .nil⟩
  | cons hd _ ih =>
    obtain ⟨h1, h2⟩ := hd
    refine ⟨?_, ?_⟩
    · simp only [List.map_cons, ih.1, h1, List.tail_cons]
    · simp only [List.map_cons]
      refine .cons ⟨?_, ?_⟩ ih.2
      · simp [h1, STen.slice]
      · intro e he
        simp only [h1, List.tail_cons] at he
        exact h2 ι e hib he

/-! ### C07 -/

/-- C07: `make_left_broadcastable(f)` for a row-wise `f` acts per sample: the result carries the plates
of all arguments, and its value at every joint plate index `ι` is the row function of the arguments'
slices at `ι`. -/
theorem C07_left_broadcastable (hook : UnwrapHook α) (hh : PlainHook hook) (as : List (STen α))
    (hne : as ≠ []) (hg : GoodOps (as.map (fun a => Operand.st a false)))
    (hpos : ∀ a ∈ as, ∀ d ∈ a.eventShape, 0 < d) (E : Nat)
    (hE : E = (as.map STen.eventDims).foldr max 0)
    (g : List (Ten α) → Ten α) (out : List Nat)
    (hgs : RowSpec g (as.map (fun a => a.eventShape ++ List.replicate (E - a.eventDims) 1)) out) :
    ∃ r : STen α, handleDet hook false false { flattenPlates := true } (rowFn g out)
        ⟨as.map (fun a => .st a false), []⟩ = .ok (.st r false) ∧
      r.WF ∧ FirstOcc r.plates (as.flatMap STen.plates) ∧ r.eventShape = out ∧
      ∀ ι : String → Nat, (∀ p ∈ r.plates, ι p.name < p.n) → ∀ e, Ten.InB e out →
        r.sample ι e = (g (as.map (fun a => a.slice E ι))).get e := by
  set ops := as.map (fun a => Operand.st a false) with hops
  have hsm : stens ops = as := stens_map_st as
  set M := callMdp ops with hM
  have hEm : maxEv ops = E := by rw [maxEv, hsm, hE]
  have hle : ∀ a ∈ as, a.eventDims ≤ E := by
    intro a ha; rw [← hEm]; exact eventDims_le_maxEv (by rw [hsm]; exact ha)
  obtain ⟨ts, h1, h2⟩ := unwrap_flat hh (M := M) (E := E) as
    (fun a ha => ⟨hg.wf a (by rw [hsm]; exact ha), hg.covers (by rw [hsm]; exact ha), hle a ha, hpos a ha⟩)
    hg.plain_mdp
  have hargs : (⟨as.map (fun a => .st a false), []⟩ : Args α) = opArgs ops := by
    simp [opArgs, hops, Operand.val, Function.comp_def]
  have hprep : prepareArgs hook { flattenPlates := true } (opArgs ops) =
      .ok ⟨⟨ts.map Val.torch, []⟩, as, callPlates ops⟩ := by
    obtain ⟨⟨hp1, _⟩, hp2⟩ := collectArgs_spec (opArgs ops)
    rw [tensors_opArgs] at hp1 hp2
    have hf := hg.filter
    rw [callPlates] at hf
    rw [prepareArgs]
    simp only [hf, applyDim, applyDims]
    have e1 : (collectArgs (opArgs ops)).2 = E := hEm ▸ hp2
    have e2 : (opArgs ops).pos = as.map (fun a => (Operand.st a false).val) := by
      simp [opArgs, hops, Function.comp_def]
    have e3 : (opArgs ops).kw = [] := rfl
    rw [e1, e2, e3]
    have h1' : unwrapList hook { flattenPlates := true }
      ((collectArgs (opArgs ops)).1.plates.filter (fun p => decide (1 < p.n)))
      E (as.map (fun a => (Operand.st a false).val)) = .ok (ts.map Val.torch) := h1
    rw [h1']
    simp [unwrapList, hp1, callPlates, hsm]
  have hshape : ∀ t ∈ ts, ∃ a ∈ as, t.shape = Ten.numel (M.map Plate.n) ::
      (a.eventShape ++ List.replicate (E - a.eventDims) 1) := by
    intro t ht
    obtain ⟨a, ha, h⟩ := forall₂_mem_right h2 ht
    exact ⟨a, ha, h.1⟩
  set N := Ten.numel (M.map Plate.n) with hN
  have hrow : rowFn g out ⟨ts.map Val.torch, []⟩ = .ok (.torch ⟨N :: out, fun idx =>
      (g (ts.map (fun u => ⟨u.shape.tail, fun e => u.get (idx.headD 0 :: e)⟩))).get idx.tail⟩) := by
    rw [rowFn]
    simp only [mapM_torch]
    have hall : ts.all (fun u => u.shape.head? == some N) = true := by
      rw [List.all_eq_true]
      intro u hu
      obtain ⟨a, _, h⟩ := hshape u hu
      simp [h]
    cases ts with
    | nil =>
      cases h2
      exact absurd rfl hne
    | cons t ts' =>
      obtain ⟨a, _, h⟩ := hshape t (by simp)
      simp only [h]
      rw [if_pos hall]
  have hpos' : ∀ p ∈ callPlates ops, 1 ≤ p.n := by
    intro p hp
    obtain ⟨a, ha, hpa⟩ := mem_callPlates hp
    exact (hg.wf a ha).pos p hpa
  set row : Ten α := ⟨N :: out, fun idx =>
      (g (ts.map (fun u => ⟨u.shape.tail, fun e => u.get (idx.headD 0 :: e)⟩))).get idx.tail⟩ with hrowdef
  have hresh : row.reshape (((callPlates ops).filter (fun p => decide (1 < p.n))).map Plate.n ++
      row.shape.drop 1) = .ok ⟨M.map Plate.n ++ out, fun idx => row.get (Ten.unravel (N :: out)
        (Ten.ravel (M.map Plate.n ++ out) idx))⟩ := by
    have : ((callPlates ops).filter (fun p => decide (1 < p.n))).map Plate.n ++ row.shape.drop 1 =
        M.map Plate.n ++ out := rfl
    rw [this, Ten.reshape, if_pos]
    change Ten.numel (N :: out) = _
    rw [Ten.numel_append, Ten.numel_cons]
  obtain ⟨r, hr1, hr2, hr3, hr4, hr5⟩ := checkPlates_ok_of hg.names hpos'
    ⟨M.map Plate.n ++ out, fun idx => row.get (Ten.unravel (N :: out)
        (Ten.ravel (M.map Plate.n ++ out) idx))⟩ out rfl
  refine ⟨r, ?_, hr4, ?_, hr5, ?_⟩
  · rw [hargs, handleDet, hprep]
    have hemp : as.isEmpty = false := by
      rw [List.isEmpty_eq_false_iff]; exact hne
    simp only [Bool.false_eq_true, if_false, hemp, hrow]
    have hfl : (callPlates ops).filter (fun q => !decide (q.name ∈ ([] : List String))) =
        callPlates ops := by simp
    rw [hfl, Val.wrapOut]
    simp only [if_true]
    rw [hresh]
    simp only [hr1]
  · rw [hr3, ← hsm]; exact GoodOps.firstOcc
  · intro ι hι e he
    have hmd : r.multiDimPlates = M := by rw [STen.multiDimPlates, hr3]; rfl
    rw [STen.sample, hr2, hr5, bidx_of_inB he, hmd]
    simp only
    have hib : Ten.InB (M.map (fun p => ι p.name)) (M.map Plate.n) := by
      rw [Ten.InB, List.forall₂_map_left_iff, List.forall₂_map_right_iff, List.forall₂_same]
      intro p hp
      exact hι p (by rw [hr3]; exact (List.mem_filter.1 hp).1)
    rw [Ten.unravel_unflat hib he]
    simp only [hrowdef, List.headD_cons, List.tail_cons]
    obtain ⟨hsh, hfa⟩ := flat_slices h2 hib
    have heq := hgs.congr _ _ hsh hfa
    have hs := hgs.shape _ hsh
    exact heq.2 e (by rw [hs]; exact he)

section Examples
private def exP (s : String) (n : Nat) : Plate Int := .mk s n (.torch (.scalar 1)) .plain []
private def exA : STen Int := ⟨⟨[2, 3, 2], fun l => (l.foldl (fun a i => 10 * a + i) 0 : Nat)⟩,
  [exP "x" 2, exP "y" 3], 2⟩

/-- A case for `C07_left_broadcastable`.  The row function "sum of the two elements" satisfies `RowSpec` for the event shape of `exA`, and the
call gives, at x = 1, y = 2, the sum 120 + 121. -/
example : RowSpec (fun ts => (⟨[], fun _ => ((ts.map (fun t => t.get [0] + t.get [1])).sum : Int)⟩ : Ten Int))
    [[2]] [] := by
  refine ⟨fun _ _ => rfl, fun ts us hs h => ⟨rfl, fun idx _ => ?_⟩⟩
  simp only
  congr 1
  cases h with
  | nil => rfl
  | @cons t u ts' us' hd ht =>
    simp only [List.map_cons, List.cons.injEq, List.map_eq_nil_iff] at hs
    obtain ⟨h1, rfl⟩ := hs
    cases ht
    have i0 : Ten.InB [0] t.shape := by rw [h1]; exact .cons (by decide) .nil
    have i1 : Ten.InB [1] t.shape := by rw [h1]; exact .cons (by decide) .nil
    simp [hd.2 _ i0, hd.2 _ i1]

example : (match handleDet (fun _ a => .ok a) false false { flattenPlates := true }
      (rowFn (fun ts => ⟨[], fun _ => ((ts.map (fun t => t.get [0] + t.get [1])).sum : Int)⟩) [])
      ⟨[.st exA false], []⟩ with
    | .ok (.st r false) => some (r.ten.shape, r.sample (fun s => if s = "x" then 1 else 2) [])
    | _ => Option.none) = some ([2, 3], 241) := rfl
end Examples

end Storch
