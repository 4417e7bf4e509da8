import Verif.Lemmas.RavelLemmas
import Verif.Props.BroadcastProps

/-!
# C06-C09: what wrapped functions receive and return
-/

namespace Storch
variable {α : Type _}

/-! ## Specification -/

/-- The tensor handed to the function for one operand when plates are expanded: one leading dimension
per plate in `M`, then the event shape padded on the right to `E` dimensions. -/
def ExpandedOp (M : List (Plate α)) (E : Nat) : Operand α → Ten α → Prop
  | .torch s, t => t = s
  | .st a _, t =>
    t.shape = M.map Plate.n ++ (a.eventShape ++ List.replicate (E - a.eventDims) 1) ∧
    ∀ (ι : String → Nat) (e : List Nat), Ten.InB (M.map (fun p => ι p.name) ++ e) t.shape →
      t.get (M.map (fun p => ι p.name) ++ e) = a.sample ι e

mutual
/-- No storch tensor anywhere in the value (distribution parameters included) and no one-shot
iterator. -/
def Val.foreign : Val α → Bool
  | .st _ _ => false
  | .iter _ => false
  | .dict _ vs => foreignL vs
  | .tup xs => foreignL xs
  | .lst xs => foreignL xs
  | .distr _ _ _ ps => foreignL ps
  | .none => true
  | .torch _ => true
  | .other _ => true
def foreignL : List (Val α) → Bool
  | [] => true
  | v :: vs => v.foreign && foreignL vs
end

mutual
/-- `OutRel plates v w`: `w` is `v` with the same nesting, where every torch tensor has become a storch
tensor that wraps it and carries `plates`. -/
inductive OutRel (plates : List (Plate α)) : Val α → Val α → Prop
  | none : OutRel plates .none .none
  | torch (t : Ten α) (r : STen α) (h1 : r.ten = t) (h2 : r.plates = plates) :
      OutRel plates (.torch t) (.st r false)
  | tup (xs ys : List (Val α)) (h : OutRelL plates xs ys) : OutRel plates (.tup xs) (.tup ys)
  | lst (xs ys : List (Val α)) (h : OutRelL plates xs ys) : OutRel plates (.lst xs) (.lst ys)
inductive OutRelL (plates : List (Plate α)) : List (Val α) → List (Val α) → Prop
  | nil : OutRelL plates [] []
  | cons (x y : Val α) (xs ys : List (Val α)) (h : OutRel plates x y) (ht : OutRelL plates xs ys) :
      OutRelL plates (x :: xs) (y :: ys)
end

mutual
/-- A nested list/tuple of torch tensors and `None`, whose tensors all satisfy `P`. -/
inductive TensorTree (P : Ten α → Prop) : Val α → Prop
  | none : TensorTree P .none
  | torch (t : Ten α) (h : P t) : TensorTree P (.torch t)
  | tup (xs : List (Val α)) (h : TensorTreeL P xs) : TensorTree P (.tup xs)
  | lst (xs : List (Val α)) (h : TensorTreeL P xs) : TensorTree P (.lst xs)
inductive TensorTreeL (P : Ten α → Prop) : List (Val α) → Prop
  | nil : TensorTreeL P []
  | cons (x : Val α) (xs : List (Val α)) (h : TensorTree P x) (ht : TensorTreeL P xs) :
      TensorTreeL P (x :: xs)
end

mutual
/-- `InRel v w`: `w` has the elements of `v` in the same nesting, storch tensors replaced by torch
tensors, everything else unchanged.  (Copies made of distributions are not constrained.) -/
inductive InRel : Val α → Val α → Prop
  | none : InRel .none .none
  | other (n : Nat) : InRel (.other n) (.other n)
  | torch (t : Ten α) : InRel (.torch t) (.torch t)
  | st (t : STen α) (s : Bool) (u : Ten α) : InRel (.st t s) (.torch u)
  | tup (xs ys : List (Val α)) (h : InRelL xs ys) : InRel (.tup xs) (.tup ys)
  | lst (xs ys : List (Val α)) (h : InRelL xs ys) : InRel (.lst xs) (.lst ys)
  | dict (ks : List String) (xs ys : List (Val α)) (h : InRelL xs ys) : InRel (.dict ks xs) (.dict ks ys)
  | iterL (xs ys : List (Val α)) (h : InRelL xs ys) : InRel (.iter xs) (.lst ys)
  | iter (xs ys : List (Val α)) (h : InRelL xs ys) : InRel (.iter xs) (.iter ys)
  | distr (k : DistKind) (r : Bool) (ks ks' : List String) (ps ps' : List (Val α)) :
      InRel (.distr k r ks ps) (.distr k r ks' ps')
inductive InRelL : List (Val α) → List (Val α) → Prop
  | nil : InRelL [] []
  | cons (x y : Val α) (xs ys : List (Val α)) (h : InRel x y) (ht : InRelL xs ys) :
      InRelL (x :: xs) (y :: ys)
end

mutual
/-- No one-shot iterator that still has elements inside the value. -/
def Val.noIter : Val α → Bool
  | .iter xs => xs.isEmpty
  | .dict _ vs => noIterL vs
  | .tup xs => noIterL xs
  | .lst xs => noIterL xs
  | .none => true
  | .st _ _ => true
  | .torch _ => true
  | .distr _ _ _ _ => true
  | .other _ => true
def noIterL : List (Val α) → Bool
  | [] => true
  | v :: vs => v.noIter && noIterL vs
end

variable [ValEq α]

/-! ## C06 -/

omit [ValEq α] in
theorem zipWith_dimExpands_self (s : List Nat) : (List.zipWith Ten.dimExpands s s).all id = true := by
  induction s with
  | nil => rfl
  | cons d s ih => simp [Ten.dimExpands] at ih ⊢

omit [ValEq α] in
theorem zipWith_dimExpands_pdims (M : List (Plate α)) (P : Plate α → Bool) (r : List Nat) :
    (List.zipWith Ten.dimExpands (pdims M P ++ r) (M.map Plate.n ++ r)).all id = true := by
  induction M with
  | nil => simpa [pdims] using zipWith_dimExpands_self r
  | cons p M ih =>
    simp only [pdims, List.map_cons, List.cons_append, List.zipWith_cons_cons, List.all_cons,
      Bool.and_eq_true] at ih ⊢
    refine ⟨?_, ih⟩
    by_cases h : P p <;> simp [h, Ten.dimExpands]

omit [ValEq α] in
theorem inB_split {M : List (Plate α)} {ι : String → Nat} {e s s' : List Nat}
    (hs : s.length = M.length) (h : Ten.InB (M.map (fun p => ι p.name) ++ e) (s ++ s')) :
    Ten.InB (M.map (fun p => ι p.name)) s ∧ Ten.InB e s' := by
  have h1 := List.forall₂_take M.length h
  have h2 := List.forall₂_drop M.length h
  rw [List.take_left' (by simp), List.take_left' hs] at h1
  rw [List.drop_left' (by simp), List.drop_left' hs] at h2
  exact ⟨h1, h2⟩

/-- Alignment with expansion of one tensor. -/
theorem align_expand (M : List (Plate α)) (E : Nat) (a : STen α) (hw : a.WF) (hc : Covers M a)
    (he : a.eventDims ≤ E) (s : Bool) :
    ∃ t : Ten α, ExpandedOp M E (.st a s) t ∧ ∀ flatten, alignTen true true flatten M E a =
      if flatten then t.flattenLeft M.length else .ok t := by
  obtain ⟨t, g1, g2, g3⟩ := align_core true M E a hw hc
  have hpad := padEv_true (E := E) (ev := a.eventShape) he
  rw [hpad] at g2 g3
  have hpl : (M.map (fun p => if p.isIn a.plates = true then p.n else 1)).length = M.length := by simp
  have hdrop : t.shape.drop M.length = a.eventShape ++ List.replicate (E - a.eventShape.length) 1 := by
    rw [g2, List.drop_left' hpl]
  have hexp : t.expand (M.map Plate.n ++ t.shape.drop M.length) =
      .ok ⟨M.map Plate.n ++ t.shape.drop M.length, fun idx => t.get (Ten.bidx t.shape idx)⟩ := by
    rw [Ten.expand, if_pos]
    rw [hdrop, g2]
    exact ⟨by simp, zipWith_dimExpands_pdims M _ _⟩
  refine ⟨⟨M.map Plate.n ++ t.shape.drop M.length, fun idx => t.get (Ten.bidx t.shape idx)⟩, ⟨?_, ?_⟩, ?_⟩
  · simp only [hdrop]; rfl
  · intro ι e hin
    simp only [hdrop] at hin
    obtain ⟨_, hie⟩ := inB_split (by simp) hin
    simp only
    rw [g2, bidx_append (by simp)]
    have := bidx_pdims M (fun p => p.isIn a.plates) ι hc.multi
    rw [pdims] at this
    rw [this]
    set ι' : String → Nat := fun k => if k ∈ a.multiDimPlates.map Plate.name then ι k else 0 with hι'
    have e1 : M.map (fun p => if p.isIn a.plates = true then ι p.name else 0) =
        M.map (fun p => ι' p.name) := by
      apply List.map_congr_left
      intro p hp
      simp only [hι']
      by_cases hin : p.isIn a.plates = true
      · rw [if_pos hin, if_pos ((hc.isIn_iff hp).1 hin)]
      · rw [if_neg hin, if_neg (fun hm => hin ((hc.isIn_iff hp).2 hm))]
    rw [e1, g3 ι' _ (by
      simp only [Ten.bidx, List.length_zipWith, InB.length_eq hie, Nat.min_self])]
    rw [STen.sample]
    have e2 : a.multiDimPlates.map (fun p => ι' p.name) = a.multiDimPlates.map (fun p => ι p.name) := by
      apply List.map_congr_left
      intro p hp
      simp only [hι']
      rw [if_pos (List.mem_map_of_mem hp)]
    rw [e2]
    congr 2
    exact take_bidx a.eventShape _ e
  · intro flatten
    rw [g1 true flatten, if_pos rfl, hexp]

theorem unwrap_ops_expand {hook : UnwrapHook α} (hh : PlainHook hook)
    {M : List (Plate α)} {E : Nat} (sub : List (Operand α))
    (hsub : ∀ t ∈ stens sub, t.WF ∧ Covers M t ∧ t.eventDims ≤ E)
    (hM : ∀ p ∈ M, p.kind = .plain) :
    ∃ ts : List (Ten α), unwrapList hook { expandPlates := true } M E (sub.map Operand.val) =
        .ok (ts.map Val.torch) ∧
      List.Forall₂ (ExpandedOp M E) sub ts := by
  induction sub with
  | nil => exact ⟨[], rfl, .nil⟩
  | cons o sub ih =>
    obtain ⟨ts, h1, h2⟩ := ih (fun t ht => hsub t (by
      cases o <;> simp [stens, ht]))
    cases o with
    | torch s =>
      refine ⟨s :: ts, ?_, .cons rfl h2⟩
      simp [unwrapList, Operand.val, Val.unwrap, h1]
    | st a s =>
      obtain ⟨hw, hc, he⟩ := hsub a (by simp [stens])
      obtain ⟨t, g1, g2⟩ := align_expand M E a hw hc he s
      refine ⟨t :: ts, ?_, .cons g1 h2⟩
      have := g2 false
      simp only [Bool.false_eq_true, if_false] at this
      simp [unwrapList, Operand.val, Val.unwrap, h1, unwrapSt, hookLoop_plain hh M a hM, this]

/-- C06: with `expand_plates=True` every storch argument reaches the function with one leading
dimension of full size per collected plate of more than one sample, holding the argument's value at
every index; torch arguments are passed unchanged. -/
theorem C06_expanded (hook : UnwrapHook α) (hh : PlainHook hook) (ops : List (Operand α))
    (hg : GoodOps ops) :
    ∃ (ts : List (Ten α)) (P : List (Plate α)),
      prepareArgs hook { expandPlates := true } (opArgs ops) = .ok ⟨⟨ts.map Val.torch, []⟩, stens ops, P⟩ ∧
      FirstOcc P ((stens ops).flatMap STen.plates) ∧
      List.Forall₂ (ExpandedOp (P.filter (fun p => decide (1 < p.n))) (maxEv ops)) ops ts := by
  obtain ⟨ts, h1, h2⟩ := unwrap_ops_expand hh (M := callMdp ops) (E := maxEv ops) ops
    (fun t ht => ⟨hg.wf t ht, hg.covers ht, eventDims_le_maxEv ht⟩) hg.plain_mdp
  refine ⟨ts, callPlates ops, ?_, GoodOps.firstOcc, h2⟩
  obtain ⟨⟨hp1, _⟩, hp2⟩ := collectArgs_spec (opArgs ops)
  rw [tensors_opArgs] at hp1 hp2
  have hf := hg.filter
  rw [callPlates] at hf
  rw [prepareArgs]
  simp only [hf, applyDim, applyDims]
  have e1 : (collectArgs (opArgs ops)).2 = maxEv ops := hp2
  have e2 : (opArgs ops).pos = ops.map Operand.val := rfl
  have e3 : (opArgs ops).kw = [] := rfl
  rw [e1, e2, e3]
  have h1' : unwrapList hook { expandPlates := true }
    ((collectArgs (opArgs ops)).1.plates.filter (fun p => decide (1 < p.n)))
    (maxEv ops) (ops.map Operand.val) = .ok (ts.map Val.torch) := h1
  rw [h1']
  simp [unwrapList, hp1, callPlates]

/-! ## C08 -/

omit [ValEq α] in
mutual
theorem consumed_foreign : ∀ (v : Val α), v.foreign = true → v.consumed = v
  | .none, _ => rfl
  | .st _ _, h => by simp [Val.foreign] at h
  | .torch _, _ => rfl
  | .tup xs, h => by
    rw [Val.consumed, consumedL_foreign xs (by simpa [Val.foreign] using h)]
  | .lst xs, h => by
    rw [Val.consumed, consumedL_foreign xs (by simpa [Val.foreign] using h)]
  | .iter _, h => by simp [Val.foreign] at h
  | .dict ks xs, h => by
    rw [Val.consumed, consumedL_foreign xs (by simpa [Val.foreign] using h)]
  | .distr _ _ _ _, _ => rfl
  | .other _, _ => rfl
theorem consumedL_foreign : ∀ (vs : List (Val α)), foreignL vs = true → consumedList vs = vs
  | [], _ => rfl
  | v :: vs, h => by
    simp only [foreignL, Bool.and_eq_true] at h
    rw [consumedList, consumed_foreign v h.1, consumedL_foreign vs h.2]
end

omit [ValEq α] in
mutual
theorem tensors_foreign : ∀ (v : Val α), v.foreign = true → v.tensors = []
  | .none, _ => rfl
  | .st _ _, h => by simp [Val.foreign] at h
  | .torch _, _ => rfl
  | .tup xs, h => by rw [Val.tensors, tensorsL_foreign xs (by simpa [Val.foreign] using h)]
  | .lst xs, h => by rw [Val.tensors, tensorsL_foreign xs (by simpa [Val.foreign] using h)]
  | .iter _, h => by simp [Val.foreign] at h
  | .dict ks xs, h => by rw [Val.tensors, tensorsL_foreign xs (by simpa [Val.foreign] using h)]
  | .distr _ _ _ _, _ => rfl
  | .other _, _ => rfl
theorem tensorsL_foreign : ∀ (vs : List (Val α)), foreignL vs = true → tensorsL vs = []
  | [], _ => rfl
  | v :: vs, h => by
    simp only [foreignL, Bool.and_eq_true] at h
    rw [tensorsL, tensors_foreign v h.1, tensorsL_foreign vs h.2]; rfl
end

mutual
theorem unwrap_foreign (hook : UnwrapHook α) (cfg : WCfg) (mdp : List (Plate α)) (ed : Nat) :
    ∀ (v : Val α), v.foreign = true → ∃ w, v.unwrap hook cfg mdp ed = .ok w
  | .none, _ => ⟨_, rfl⟩
  | .st _ _, h => by simp [Val.foreign] at h
  | .torch _, _ => ⟨_, rfl⟩
  | .tup xs, h => by
    obtain ⟨w, hw⟩ := unwrapL_foreign hook cfg mdp ed xs (by simpa [Val.foreign] using h)
    exact ⟨.tup w, by rw [Val.unwrap, hw]⟩
  | .lst xs, h => by
    obtain ⟨w, hw⟩ := unwrapL_foreign hook cfg mdp ed xs (by simpa [Val.foreign] using h)
    exact ⟨.lst w, by rw [Val.unwrap, hw]⟩
  | .iter _, h => by simp [Val.foreign] at h
  | .dict ks xs, h => by
    obtain ⟨w, hw⟩ := unwrapL_foreign hook cfg mdp ed xs (by simpa [Val.foreign] using h)
    exact ⟨.dict ks w, by rw [Val.unwrap, hw]⟩
  | .distr k r ks ps, h => by
    obtain ⟨w, hw⟩ := unwrapL_foreign hook cfg mdp ed ps (by simpa [Val.foreign] using h)
    rw [Val.unwrap, hw]
    simp only
    split_ifs <;> exact ⟨_, rfl⟩
  | .other _, _ => ⟨_, rfl⟩
theorem unwrapL_foreign (hook : UnwrapHook α) (cfg : WCfg) (mdp : List (Plate α)) (ed : Nat) :
    ∀ (vs : List (Val α)), foreignL vs = true → ∃ ws, unwrapList hook cfg mdp ed vs = .ok ws
  | [], _ => ⟨_, rfl⟩
  | v :: vs, h => by
    simp only [foreignL, Bool.and_eq_true] at h
    obtain ⟨w, hw⟩ := unwrap_foreign hook cfg mdp ed v h.1
    obtain ⟨ws, hws⟩ := unwrapL_foreign hook cfg mdp ed vs h.2
    exact ⟨w :: ws, by rw [unwrapList, hw, hws]⟩
end

omit [ValEq α] in
theorem foreignL_append {a b : List (Val α)} : foreignL (a ++ b) = true ↔
    foreignL a = true ∧ foreignL b = true := by
  induction a with
  | nil => simp [foreignL]
  | cons v a ih => simp only [List.cons_append, foreignL, Bool.and_eq_true, ih, and_assoc]

/-- C08: a wrapped function that is called without any storch tensor (and without the `dim`/`dims`
options) returns exactly what the function returns or raises what it raises. -/
theorem C08_transparent (hook : UnwrapHook α) (ign : Bool) (cfg : WCfg) (fn : Fn α) (a : Args α)
    (hd : cfg.dim = Option.none) (hds : cfg.dims = [])
    (hpos : foreignL a.pos = true) (hkw : foreignL (a.kw.map Prod.snd) = true) :
    handleDet hook false ign cfg fn a = fn a := by
  obtain ⟨⟨h1, h2⟩, _⟩ := collectArgs_spec a
  have htens : a.tensors = [] := by
    rw [Args.tensors, tensorsL_foreign _ hpos, tensorsL_foreign _ hkw]; rfl
  rw [htens] at h1
  have hpl : (collectArgs a).1.plates = [] := by
    have := h2.sub
    rw [htens] at this
    simpa using this
  have hcons : (⟨consumedList a.pos, a.kw.map (fun e => (e.1, e.2.consumed))⟩ : Args α) = a := by
    rw [consumedL_foreign _ hpos]
    have : a.kw.map (fun e => (e.1, e.2.consumed)) = a.kw := by
      have : ∀ l : List (String × Val α), foreignL (l.map Prod.snd) = true →
          l.map (fun e => (e.1, e.2.consumed)) = l := by
        intro l hl
        induction l with
        | nil => rfl
        | cons x l ih =>
          simp only [List.map_cons, foreignL, Bool.and_eq_true] at hl
          rw [List.map_cons, ih hl.2, consumed_foreign _ hl.1]
      exact this _ hkw
    rw [this]
  have hprep : ∃ p, prepareArgs hook cfg a = .ok p ∧ p.parents = [] ∧ p.plates = [] := by
    rw [prepareArgs]
    simp only [hpl, filterPlates, List.filter_nil, hd, hds, applyDim, applyDims]
    by_cases hu : cfg.unwrap
    · obtain ⟨w1, hw1⟩ := unwrapL_foreign hook cfg [] (collectArgs a).2 _ hpos
      obtain ⟨w2, hw2⟩ := unwrapL_foreign hook cfg [] (collectArgs a).2 _ hkw
      rw [if_pos hu, hw1, hw2]
      exact ⟨_, rfl, h1, rfl⟩
    · rw [if_neg hu]
      exact ⟨_, rfl, h1, rfl⟩
  obtain ⟨p, hp1, hp2, hp3⟩ := hprep
  rw [handleDet, hp1]
  simp only [Bool.false_eq_true, if_false, hp2, List.isEmpty_nil, if_true, hd, applyDim]
  rw [hcons]

omit [ValEq α] in
mutual
theorem wrapOut_tree {plates : List (Plate α)} {P : Ten α → Prop} :
    ∀ {v w : Val α}, TensorTree P v → v.wrapOut plates false = .ok w → OutRel plates v w
  | _, _, .none, h => by simp only [Val.wrapOut] at h; cases h; exact .none
  | _, _, .torch t _, h => by
    simp only [Val.wrapOut, Bool.false_eq_true, if_false] at h
    split at h
    · cases h
    · rename_i r hr
      cases h
      rw [STen.mk'] at hr
      split at hr
      · cases hr
      · cases hr; exact .torch _ _ rfl rfl
  | _, _, .tup xs hx, h => by
    simp only [Val.wrapOut] at h
    split at h
    · cases h
    · rename_i rs hr
      cases h
      exact .tup _ _ (wrapOutL_tree hx hr)
  | _, _, .lst xs hx, h => by
    simp only [Val.wrapOut] at h
    split at h
    · cases h
    · rename_i rs hr
      cases h
      exact .lst _ _ (wrapOutL_tree hx hr)
theorem wrapOutL_tree {plates : List (Plate α)} {P : Ten α → Prop} :
    ∀ {vs ws : List (Val α)}, TensorTreeL P vs → wrapOutList plates false vs = .ok ws → OutRelL plates vs ws
  | _, _, .nil, h => by simp only [wrapOutList] at h; cases h; exact .nil
  | _, _, .cons x xs hx hxs, h => by
    simp only [wrapOutList] at h
    split at h
    · cases h
    · rename_i r hr
      split at h
      · cases h
      · rename_i rs hrs
        cases h
        exact .cons _ _ _ _ (wrapOut_tree hx hr) (wrapOutL_tree hxs hrs)
end

omit [ValEq α] in
mutual
theorem wrapOut_tree_ok {plates : List (Plate α)} {P : Ten α → Prop}
    (hP : ∀ t, P t → ∃ r, STen.mk' t plates = .ok r) :
    ∀ {v : Val α}, TensorTree P v → ∃ w, v.wrapOut plates false = .ok w
  | _, .none => ⟨_, rfl⟩
  | _, .torch t ht => by
    obtain ⟨r, hr⟩ := hP t ht
    exact ⟨.st r false, by simp [Val.wrapOut, hr]⟩
  | _, .tup xs hx => by
    obtain ⟨w, hw⟩ := wrapOutL_tree_ok hP hx
    exact ⟨.tup w, by rw [Val.wrapOut, hw]⟩
  | _, .lst xs hx => by
    obtain ⟨w, hw⟩ := wrapOutL_tree_ok hP hx
    exact ⟨.lst w, by rw [Val.wrapOut, hw]⟩
theorem wrapOutL_tree_ok {plates : List (Plate α)} {P : Ten α → Prop}
    (hP : ∀ t, P t → ∃ r, STen.mk' t plates = .ok r) :
    ∀ {vs : List (Val α)}, TensorTreeL P vs → ∃ ws, wrapOutList plates false vs = .ok ws
  | _, .nil => ⟨_, rfl⟩
  | _, .cons x xs hx hxs => by
    obtain ⟨w, hw⟩ := wrapOut_tree_ok hP hx
    obtain ⟨ws, hws⟩ := wrapOutL_tree_ok hP hxs
    exact ⟨w :: ws, by rw [wrapOutList, hw, hws]⟩
end

/-- C08: with storch arguments, when the function returns a nested list/tuple of torch tensors and
`None`, the result of the wrapped call has the same nesting, every torch tensor being wrapped with the
collected plates (without those in `reduce_plates`). -/
theorem C08_structure (hook : UnwrapHook α) (cfg : WCfg) (fn : Fn α) (a : Args α) (p : Prep α)
    (hfl : cfg.flattenPlates = false)
    (hp : prepareArgs hook cfg a = .ok p) (ht : a.tensors ≠ []) (v w : Val α)
    (hv : TensorTree (fun _ => True) v) (hfn : fn p.args = .ok v)
    (hcall : handleDet hook false false cfg fn a = .ok w) :
    OutRel (p.plates.filter (fun q => !decide (q.name ∈ cfg.reducePlates))) v w := by
  have hpar : p.parents = a.tensors := by
    have h1 := (collectArgs_spec a).1.parents
    simp only [prepareArgs] at hp
    split at hp
    · cases hp
    · split at hp
      · cases hp
      · split at hp
        · cases hp
        · split at hp
          · split at hp
            · cases hp
            · split at hp
              · cases hp
              · cases hp; exact h1
          · cases hp; exact h1
  have : p.parents.isEmpty = false := by
    rw [hpar, List.isEmpty_eq_false_iff]; exact ht
  rw [handleDet, hp] at hcall
  simp only [Bool.false_eq_true, if_false, this, hfn, hfl] at hcall
  exact wrapOut_tree hv hcall

/-- C08: the wrapping of the result does not fail when every returned tensor has the collected plates
as leading dimensions. -/
theorem C08_structure_succeeds (hook : UnwrapHook α) (cfg : WCfg) (fn : Fn α) (a : Args α) (p : Prep α)
    (hfl : cfg.flattenPlates = false) (hpl : PlainArgs a)
    (hp : prepareArgs hook cfg a = .ok p) (ht : a.tensors ≠ []) (v : Val α)
    (hv : TensorTree (fun t => ((p.plates.filter (fun q => !decide (q.name ∈ cfg.reducePlates))).filter
      (fun q => decide (q.n ≠ 1))).map Plate.n <+: t.shape) v) (hfn : fn p.args = .ok v) :
    ∃ w, handleDet hook false false cfg fn a = .ok w := by
  obtain ⟨hpar, hnd, _⟩ := C04_collected hook cfg a hpl p hp
  have : p.parents.isEmpty = false := by
    rw [hpar, List.isEmpty_eq_false_iff]; exact ht
  rw [handleDet, hp]
  simp only [Bool.false_eq_true, if_false, this, hfn, hfl]
  refine wrapOut_tree_ok ?_ hv
  intro t ht
  have : STen.checkPlates t.shape (p.plates.filter (fun q => !decide (q.name ∈ cfg.reducePlates))) [] 0 =
      .ok (0 + ((p.plates.filter (fun q => !decide (q.name ∈ cfg.reducePlates))).filter
        (fun q => decide (q.n ≠ 1))).length) := by
    rw [checkPlates_ok_iff]
    exact ⟨hnd.sublist (List.filter_sublist.map _), by simp, by simpa using ht, rfl⟩
  exact ⟨_, by rw [STen.mk', this]⟩

/-! ### Results that are storch tensors -/

omit [ValEq α] in
theorem mergePlate_spec {p : Plate α} {news R : List (Plate α)} (h : mergePlate p news = .ok R) :
    (p.name ∉ news.map Plate.name ∧ R = p :: news) ∨
    (p.name ∈ news.map Plate.name ∧ List.Forall₂ (fun q r =>
      (r = q ∧ (q.name = p.name → ∀ i, p.kind = .anc i → ∃ j, q.kind = .anc j ∧ i ≤ j)) ∨
      (r = p ∧ q.name = p.name ∧ ∃ i j, q.kind = .anc i ∧ p.kind = .anc j ∧ i < j)) news R) := by
  rw [mergePlate] at h
  by_cases hm : p.name ∈ news.map Plate.name
  · right
    refine ⟨hm, ?_⟩
    have hany : news.any (fun q => q.name == p.name) = true := by
      obtain ⟨q, hq, he⟩ := List.mem_map.1 hm
      rw [List.any_eq_true]; exact ⟨q, hq, by simp [he]⟩
    rw [if_pos hany] at h
    cases hk : p.kind with
    | plain =>
      rw [hk] at h
      injection h with h
      subst h
      rw [List.forall₂_same]
      intro q _
      exact Or.inl ⟨rfl, fun _ i hi => by cases hi⟩
    | anc i =>
      rw [hk] at h
      simp only at h
      clear hany hm
      induction news generalizing R with
      | nil => simp only [List.foldr_nil] at h; injection h with h; subst h; exact .nil
      | cons q news ih =>
        simp only [List.foldr_cons] at h
        split at h
        · cases h
        · rename_i l hl
          by_cases hn : p.name = q.name
          · rw [if_pos (by simp [hn])] at h
            cases hq : q.kind with
            | plain => rw [hq] at h; cases h
            | anc j =>
              rw [hq] at h
              injection h with h
              subst h
              refine List.Forall₂.cons ?_ (ih hl)
              by_cases hji : j < i
              · right
                rw [if_pos hji]
                exact ⟨rfl, hn.symm, j, i, hq, rfl, hji⟩
              · left
                rw [if_neg hji]
                refine ⟨rfl, fun _ i' hi => ?_⟩
                injection hi with hi
                subst hi
                exact ⟨j, hq, not_lt.1 hji⟩
          · rw [if_neg (by simpa using hn)] at h
            injection h with h
            subst h
            exact List.Forall₂.cons (Or.inl ⟨rfl, fun hx => absurd hx.symm hn⟩) (ih hl)
  · left
    have hany : news.any (fun q => q.name == p.name) = false := by
      rw [Bool.eq_false_iff]
      intro hc
      rw [List.any_eq_true] at hc
      obtain ⟨q, hq, he⟩ := hc
      exact hm (List.mem_map.2 ⟨q, hq, by simpa using he⟩)
    rw [hany] at h
    simp only [Bool.false_eq_true, if_false] at h
    injection h with h
    exact ⟨hm, h.symm⟩

/-- `r` is `q`, or a newer ancestral plate of the same name. -/
def SameOrNewer (q r : Plate α) : Prop :=
  r = q ∨ (q.name = r.name ∧ ∃ i j, q.kind = .anc i ∧ r.kind = .anc j ∧ i < j)

omit [ValEq α] in
theorem SameOrNewer.trans {p q r : Plate α} (h : SameOrNewer p q) (h' : SameOrNewer q r) :
    SameOrNewer p r := by
  rcases h with rfl | ⟨h1, i, j, h2, h3, h4⟩
  · exact h'
  · rcases h' with rfl | ⟨h1', i', j', h2', h3', h4'⟩
    · exact Or.inr ⟨h1, i, j, h2, h3, h4⟩
    · rw [h3] at h2'
      injection h2' with h2'
      subst h2'
      exact Or.inr ⟨h1.trans h1', i, j', h2, h3', h4.trans h4'⟩

omit [ValEq α] in
theorem SameOrNewer.name {q r : Plate α} (h : SameOrNewer q r) : q.name = r.name := by
  rcases h with rfl | h
  · rfl
  · exact h.1

omit [ValEq α] in
theorem mergePlates_spec : ∀ {L news R : List (Plate α)}, (L.map Plate.name).Nodup →
    mergePlates L news = .ok R →
    ∃ front tail, R = front ++ tail ∧
      front.Perm (L.filter (fun p => decide (p.name ∉ news.map Plate.name))) ∧
      front.reverse.Sublist L ∧
      List.Forall₂ SameOrNewer news tail ∧ (∀ r ∈ tail, r ∈ L ∨ r ∈ news) ∧
      ∀ p ∈ L, ∀ r ∈ R, r.name = p.name → ∀ i, p.kind = .anc i → ∃ j, r.kind = .anc j ∧ i ≤ j
  | [], news, R, _, h => by
    rw [mergePlates] at h
    injection h with h
    subst h
    refine ⟨[], news, rfl, by simp, by simp, ?_, fun r hr => Or.inr hr, by simp⟩
    rw [List.forall₂_same]
    exact fun q _ => Or.inl rfl
  | p :: L, news, R, hnd, h => by
    rw [mergePlates] at h
    split at h
    · cases h
    · rename_i news' hp
      rw [List.map_cons, List.nodup_cons] at hnd
      obtain ⟨front, tail, rfl, h1, h2, h3, h4, h5⟩ := mergePlates_spec hnd.2 h
      have hfn : ∀ r ∈ front, r ∈ L ∧ r.name ∉ news'.map Plate.name := by
        intro r hr
        have := h1.mem_iff.1 hr
        rw [List.mem_filter] at this
        exact ⟨this.1, by simpa using this.2⟩
      rcases mergePlate_spec hp with ⟨hm, rfl⟩ | ⟨hm, hf⟩
      · cases h3 with
        | cons hpr hrest =>
          rename_i r0 tail
          have hr0 : r0 = p := by
            rcases h4 r0 (by simp) with hL | hL
            · exact absurd (List.mem_map.2 ⟨r0, hL, hpr.name.symm⟩) hnd.1
            · rcases List.mem_cons.1 hL with rfl | hL
              · rfl
              · exact absurd (List.mem_map.2 ⟨r0, hL, hpr.name.symm⟩) hm
          subst hr0
          refine ⟨front ++ [r0], tail, by simp, ?_, ?_, hrest, ?_, ?_⟩
          · rw [List.filter_cons, if_pos (by simpa using hm)]
            refine (List.perm_append_comm).trans (List.Perm.cons _ ?_)
            refine h1.trans (List.Perm.of_eq ?_)
            apply List.filter_congr
            intro x hx
            have : x.name ≠ r0.name := fun he => hnd.1 (List.mem_map.2 ⟨x, hx, he⟩)
            simp [this]
          · simpa using h2
          · intro r hr
            rcases h4 r (List.mem_cons_of_mem _ hr) with h | h
            · exact Or.inl (List.mem_cons_of_mem _ h)
            · rcases List.mem_cons.1 h with rfl | h
              · exact Or.inl (by simp)
              · exact Or.inr h
          · intro p' hp' r hr hn i hi
            rcases List.mem_cons.1 hp' with rfl | hp'
            · -- `p'` is `r0` itself, in front; nothing else has its name
              have : r = p' := by
                rcases List.mem_append.1 hr with hr | hr
                · exact absurd (List.mem_map.2 ⟨r, (hfn r hr).1, hn⟩) hnd.1
                · rcases List.mem_cons.1 hr with rfl | hr
                  · rfl
                  · obtain ⟨q, hq, hqr⟩ := forall₂_mem_right hrest hr
                    exact absurd (List.mem_map.2 ⟨q, hq, hqr.name.trans hn⟩) hm
              subst this
              exact ⟨i, hi, le_refl _⟩
            · exact h5 p' hp' r hr hn i hi
      · have hnames : news'.map Plate.name = news.map Plate.name := by
          clear h h1 h2 h3 h4 h5 hfn hm hp
          induction hf with
          | nil => rfl
          | cons hq _ ih =>
            rw [List.map_cons, List.map_cons, ih]
            rcases hq with ⟨rfl, _⟩ | ⟨rfl, hq, _⟩
            · rfl
            · rw [hq]
        have hson : List.Forall₂ SameOrNewer news news' := hf.imp (by
          rintro q r (⟨rfl, _⟩ | ⟨rfl, hq, hh⟩)
          · exact Or.inl rfl
          · exact Or.inr ⟨hq, hh⟩)
        have hmem' : ∀ r ∈ news', r = p ∨ r ∈ news := by
          clear h h1 h2 h3 h4 h5 hfn hm hp hnames hson
          induction hf with
          | nil => simp
          | cons hq _ ih =>
            intro r hr
            rcases List.mem_cons.1 hr with rfl | hr
            · rcases hq with ⟨rfl, _⟩ | ⟨rfl, _⟩
              · exact Or.inr (by simp)
              · exact Or.inl rfl
            · rcases ih r hr with h | h
              · exact Or.inl h
              · exact Or.inr (List.mem_cons_of_mem _ h)
        have hnew : ∀ r ∈ news', r.name = p.name → ∀ i, p.kind = .anc i → ∃ j, r.kind = .anc j ∧ i ≤ j := by
          clear h h1 h2 h3 h4 h5 hfn hm hp hnames hson hmem'
          induction hf with
          | nil => simp
          | cons hq _ ih =>
            intro r hr hn i hi
            rcases List.mem_cons.1 hr with rfl | hr
            · rcases hq with ⟨rfl, hq⟩ | ⟨rfl, _⟩
              · exact hq hn i hi
              · exact ⟨i, hi, le_refl _⟩
            · exact ih r hr hn i hi
        refine ⟨front, tail, rfl, ?_, ?_, ?_, ?_, ?_⟩
        · rw [List.filter_cons, if_neg (by simpa using hm), ← hnames]; exact h1
        · exact h2.trans (List.sublist_cons_self _ _)
        · have key : ∀ {a b c : List (Plate α)}, List.Forall₂ SameOrNewer a b →
              List.Forall₂ SameOrNewer b c → List.Forall₂ SameOrNewer a c := by
            intro a b c hab
            induction hab generalizing c with
            | nil => intro h; cases h; exact .nil
            | cons h _ ih =>
              intro h'
              cases h' with
              | cons h1 h2 => exact .cons (h.trans h1) (ih h2)
          exact key hson h3
        · intro r hr
          rcases h4 r hr with h | h
          · exact Or.inl (List.mem_cons_of_mem _ h)
          · rcases hmem' r h with rfl | h
            · exact Or.inl (by simp)
            · exact Or.inr h
        · intro p' hp' r hr hn i hi
          rcases List.mem_cons.1 hp' with rfl | hp'
          · rcases List.mem_append.1 hr with hr | hr
            · exact absurd (List.mem_map.2 ⟨r, (hfn r hr).1, hn⟩) hnd.1
            · obtain ⟨q, hq, hqr⟩ := forall₂_mem_right h3 hr
              obtain ⟨j, hj, hij⟩ := hnew q hq (hqr.name.trans hn) i hi
              rcases hqr with rfl | ⟨_, a, b, ha, hb, hab⟩
              · exact ⟨j, hj, hij⟩
              · rw [hj] at ha
                injection ha with ha
                subst ha
                exact ⟨b, hb, hij.trans hab.le⟩
          · exact h5 p' hp' r hr hn i hi

/-- C08: when the function returns a (non-stochastic) storch tensor, the call returns a storch tensor with
the same elements.  Its plates are the collected plates (without those in `reduce_plates`) that the
returned tensor does not have, in their order, followed by the plates of the returned tensor, each
possibly replaced by a newer ancestral plate of the same name; of an ancestral plate collected from the
arguments, that plate or a newer one is present. -/
theorem C08_storch_result (hook : UnwrapHook α) (cfg : WCfg) (fn : Fn α) (a : Args α) (p : Prep α)
    (hp : prepareArgs hook cfg a = .ok p) (hne : p.parents ≠ [])
    (hnd : (p.plates.map Plate.name).Nodup) (o : STen α) (w : Val α) (hfn : fn p.args = .ok (.st o false))
    (hcall : handleDet hook false false cfg fn a = .ok w) :
    ∃ t front tail, w = .st t false ∧ t.ten = o.ten ∧ t.plates = front ++ tail ∧
      front = (p.plates.filter (fun q => !decide (q.name ∈ cfg.reducePlates))).filter
        (fun q => decide (q.name ∉ o.plates.map Plate.name)) ∧
      List.Forall₂ SameOrNewer o.plates tail ∧ (∀ r ∈ tail, r ∈ p.plates ∨ r ∈ o.plates) ∧
      ∀ q ∈ p.plates, q.name ∉ cfg.reducePlates → ∀ r ∈ t.plates, r.name = q.name →
        ∀ i, q.kind = .anc i → ∃ j, r.kind = .anc j ∧ i ≤ j := by
  have : p.parents.isEmpty = false := by rw [List.isEmpty_eq_false_iff]; exact hne
  rw [handleDet, hp] at hcall
  simp only [Bool.false_eq_true, if_false, this, hfn, Val.wrapOut] at hcall
  set P := p.plates.filter (fun q => !decide (q.name ∈ cfg.reducePlates)) with hP
  have hPn : (P.map Plate.name).Nodup := hnd.sublist (List.filter_sublist.map _)
  split at hcall
  · cases hcall
  · rename_i ps hps
    split at hcall
    · cases hcall
    · rename_i t ht
      injection hcall with hcall
      subst hcall
      rw [STen.mk'] at ht
      split at ht
      · cases ht
      · injection ht with ht
        subst ht
        obtain ⟨front, tail, h1, h2, h3, h4, h5, h6⟩ := mergePlates_spec
          (by rw [List.map_reverse]; exact List.nodup_reverse.2 hPn) hps
        refine ⟨_, front, tail, rfl, rfl, h1, ?_, h4, ?_, ?_⟩
        · have hsub : front.Sublist P := by
            have := h3.reverse
            simpa using this
          have hndF : front.Nodup := hsub.nodup hPn.of_map
          have hperm : front.Perm (P.filter (fun q => decide (q.name ∉ o.plates.map Plate.name))) := by
            refine h2.trans ?_
            rw [List.filter_reverse]
            exact List.reverse_perm _
          -- two sublists of a duplicate-free list with the same elements are equal
          have key : ∀ {L A : List (Plate α)} (f : Plate α → Bool), L.Nodup → A.Sublist L →
              (∀ x, x ∈ A ↔ x ∈ L.filter f) → A = L.filter f := by
            intro L A f hL hA hm
            induction hA with
            | slnil => rfl
            | @cons A L x hA ih =>
              rw [List.nodup_cons] at hL
              have hx : f x = false := by
                by_contra hc
                have := (hm x).2 (by simp [List.mem_filter, hc])
                exact hL.1 (hA.subset this)
              rw [List.filter_cons, if_neg (by simp [hx])]
              apply ih hL.2
              intro y
              rw [hm y, List.filter_cons, if_neg (by simp [hx])]
            | @cons_cons A L x hA ih =>
              rw [List.nodup_cons] at hL
              have hx : f x = true := by
                have := (hm x).1 (by simp)
                rw [List.mem_filter] at this
                exact this.2
              rw [List.filter_cons, if_pos hx]
              congr 1
              apply ih hL.2
              intro y
              have := hm y
              rw [List.filter_cons, if_pos hx] at this
              simp only [List.mem_cons] at this
              constructor
              · intro hy
                rcases this.1 (Or.inr hy) with rfl | h
                · exact absurd (hA.subset hy) hL.1
                · exact h
              · intro hy
                rcases this.2 (Or.inr hy) with rfl | h
                · exact absurd (List.mem_filter.1 hy).1 hL.1
                · exact h
          exact key _ hPn.of_map hsub (fun x => hperm.mem_iff)
        · intro r hr
          rcases h5 r hr with h | h
          · exact Or.inl (List.mem_filter.1 (List.mem_reverse.1 h)).1
          · exact Or.inr h
        · intro q hq hqr r hr hn i hi
          exact h6 q (List.mem_reverse.2 (by rw [hP, List.mem_filter]; exact ⟨hq, by simpa using hqr⟩))
            r hr hn i hi

/-- C08: a function that returns a stochastic tensor makes the call raise RuntimeError. -/
theorem C08_stochastic_result (hook : UnwrapHook α) (cfg : WCfg) (fn : Fn α) (a : Args α) (p : Prep α)
    (hp : prepareArgs hook cfg a = .ok p) (hne : p.parents ≠ []) (o : STen α)
    (hfn : fn p.args = .ok (.st o true)) :
    handleDet hook false false cfg fn a = .error .runtime := by
  have : p.parents.isEmpty = false := by rw [List.isEmpty_eq_false_iff]; exact hne
  rw [handleDet, hp]
  simp only [Bool.false_eq_true, if_false, this, hfn, Val.wrapOut, if_true]

/-- Inside a stochastic function no deterministic function can be called at all, not even without storch
arguments, and the function is not run. -/
theorem handleDet_in_stochastic (hook : UnwrapHook α) (ign : Bool) (cfg : WCfg) (fn : Fn α) (a : Args α) :
    handleDet hook true ign cfg fn a = .error .notImplemented := rfl

/-! ## C09 -/

mutual
theorem unwrap_inRel {hook : UnwrapHook α} {cfg : WCfg} {mdp : List (Plate α)} {ed : Nat} :
    ∀ {v w : Val α}, v.noIter = true → v.unwrap hook cfg mdp ed = .ok w → InRel v w
  | .none, _, _, h => by simp only [Val.unwrap] at h; cases h; exact .none
  | .st t s, _, _, h => by
    simp only [Val.unwrap] at h
    split at h
    · cases h
    · cases h; exact .st _ _ _
  | .torch t, _, _, h => by simp only [Val.unwrap] at h; cases h; exact .torch _
  | .tup xs, _, hn, h => by
    simp only [Val.unwrap] at h
    split at h
    · cases h
    · rename_i r hr
      cases h; exact .tup _ _ (unwrapL_inRel (by simpa [Val.noIter] using hn) hr)
  | .lst xs, _, hn, h => by
    simp only [Val.unwrap] at h
    split at h
    · cases h
    · rename_i r hr
      cases h; exact .lst _ _ (unwrapL_inRel (by simpa [Val.noIter] using hn) hr)
  | .iter xs, _, hn, h => by
    simp only [Val.unwrap] at h
    cases h
    have : xs = [] := by simpa [Val.noIter] using hn
    subst this
    exact .iterL _ _ .nil
  | .dict ks xs, _, hn, h => by
    simp only [Val.unwrap] at h
    split at h
    · cases h
    · rename_i r hr
      cases h; exact .dict _ _ _ (unwrapL_inRel (by simpa [Val.noIter] using hn) hr)
  | .distr k r ks ps, _, _, h => by
    simp only [Val.unwrap] at h
    split at h
    · cases h
    · split_ifs at h <;> cases h <;> exact .distr _ _ _ _ _ _
  | .other n, _, _, h => by simp only [Val.unwrap] at h; cases h; exact .other _
theorem unwrapL_inRel {hook : UnwrapHook α} {cfg : WCfg} {mdp : List (Plate α)} {ed : Nat} :
    ∀ {vs ws : List (Val α)}, noIterL vs = true → unwrapList hook cfg mdp ed vs = .ok ws → InRelL vs ws
  | [], _, _, h => by simp only [unwrapList] at h; cases h; exact .nil
  | v :: vs, _, hn, h => by
    simp only [noIterL, Bool.and_eq_true] at hn
    simp only [unwrapList] at h
    split at h
    · cases h
    · rename_i r hr
      split at h
      · cases h
      · rename_i rs hrs
        cases h
        exact .cons _ _ _ _ (unwrap_inRel hn.1 hr) (unwrapL_inRel hn.2 hrs)
end

/-- C09 (partial): a wrapped function receives every element of every container argument, in the same
nesting, storch tensors being replaced by torch tensors and everything else unchanged, provided no
argument is (or contains) a one-shot iterator with elements left.  Missing: one-shot iterators, for
which the claim is false (`C09_refuted`). -/
theorem C09_reiterable_partial (hook : UnwrapHook α) (cfg : WCfg) (a : Args α) (p : Prep α)
    (hu : cfg.unwrap = true) (hd : cfg.dim = Option.none)
    (hpos : noIterL a.pos = true) (hkw : noIterL (a.kw.map Prod.snd) = true)
    (hp : prepareArgs hook cfg a = .ok p) :
    InRelL a.pos p.args.pos ∧ p.args.kw.map Prod.fst = a.kw.map Prod.fst ∧
      InRelL (a.kw.map Prod.snd) (p.args.kw.map Prod.snd) := by
  have hlen : ∀ {xs ys : List (Val α)}, InRelL xs ys → xs.length = ys.length := by
    intro xs
    induction xs with
    | nil => intro ys h; cases h; rfl
    | cons x xs ih =>
      intro ys h
      cases h with
      | cons _ y _ ys _ ht => simp [ih ht]
  rw [prepareArgs] at hp
  simp only [hd, applyDim, hu, if_true] at hp
  split at hp
  · cases hp
  · split at hp
    · cases hp
    · rename_i plates _ kw hkw'
      have hkweq : kw = a.kw := by
        unfold applyDims at hkw'
        split at hkw'
        · cases hkw'; rfl
        · split at hkw' <;> cases hkw'
      subst hkweq
      split at hp
      · cases hp
      · rename_i pos' hpos'
        split at hp
        · cases hp
        · rename_i vals hvals
          cases hp
          have h1 := unwrapL_inRel hpos hpos'
          have h2 := unwrapL_inRel hkw hvals
          have hl := hlen h2
          refine ⟨h1, ?_, ?_⟩
          · simp only
            rw [List.map_fst_zip]; simpa using hl.le
          · simp only
            rw [List.map_snd_zip]
            · exact h2
            · simpa using hl.ge

/-- C09 (refuted): there is a call whose one-shot iterator argument reaches the function empty: with a
storch argument, `f(a, map(...))` receives an empty list for an iterator with one element. -/
theorem C09_refuted : ∃ (a : Args Int) (p : Prep Int),
    prepareArgs (fun _ t => .ok t) {} a = .ok p ∧ ¬ InRelL a.pos p.args.pos := by
  refine ⟨⟨[.st ⟨⟨[], fun _ => 1⟩, [], 0⟩ false, .iter [.torch ⟨[], fun _ => 5⟩]], []⟩, _, rfl, ?_⟩
  intro h
  cases h with
  | cons _ _ _ _ _ ht =>
    cases ht with
    | cons _ _ _ _ h _ =>
      have h' : InRel (.iter [.torch ⟨[], fun _ => 5⟩] : Val Int) (.lst []) := h
      cases h' with
      | iterL _ _ hh => cases hh

/-- C09 (refuted): the same without any storch argument: the collection traversal has already consumed
the iterator when the original function is called. -/
theorem C09_refuted_plain (fn : Fn Int) :
    handleDet (fun _ t => .ok t) false false {} fn ⟨[.iter [.other 1, .other 2]], []⟩ =
      fn ⟨[.iter []], []⟩ := rfl

section Examples
private def exP (s : String) (n : Nat) : Plate Int := .mk s n (.torch (.scalar 1)) .plain []
private def exA : STen Int := ⟨⟨[2], fun l => (l.headD 0 : Int)⟩, [exP "x" 2], 1⟩

private def exAnc (i n : Nat) : Plate Int := .mk "z" n (.torch (.scalar 1)) (.anc i) []

/-- A case for `C08_storch_result`, a function that returns a storch tensor with an older ancestral plate `z` and plate `y`: the result has
the collected plate `x`, the newer `z` of the argument, and `y`. -/
example : (match handleDet (fun _ t => .ok t) false false { unwrap := false }
      (fun _ => .ok (.st ⟨⟨[2, 3, 4], fun l => (l.sum : Int)⟩, [exAnc 1 3, exP "y" 4], 2⟩ false))
      ⟨[.st ⟨⟨[2, 3], fun _ => 1⟩, [exP "x" 2, exAnc 5 3], 2⟩ false], []⟩ with
    | .ok (.st t false) => some (t.plates.map (fun p => (p.name, p.kind)), t.ten.get [1, 2, 3])
    | _ => Option.none) =
      some ([("x", .plain), ("z", .anc 5), ("y", .plain)], 6) := by decide

/-- A tensor without plate `x`: the expanded argument repeats its value along `x`. -/
private def exB : STen Int := ⟨⟨[3], fun l => (l.headD 0 : Int)⟩, [exP "y" 3], 1⟩

example : (match prepareArgs (fun _ t => .ok t) { expandPlates := true }
      (opArgs [.st exA false, .st exB false]) with
    | .ok ⟨⟨[.torch t, .torch u], []⟩, _, P⟩ =>
      some (P.map Plate.name, t.shape, u.shape, t.get [1, 2], u.get [1, 2])
    | _ => Option.none) = some (["x", "y"], [2, 3], [2, 3], 1, 2) := rfl

/-- A call that returns a nested value: `f(a) = [a, (None, a)]`. -/
private def nestFn : Fn Int := fun a => match a.pos with
  | [.torch t] => .ok (.lst [.torch t, .tup [.none, .torch t]])
  | _ => .error .type

/-- A case for `C08_stochastic_result`: a function that returns a stochastic tensor. -/
example : handleDet (fun _ t => .ok t) false false {} (fun _ => .ok (.st exA true)) ⟨[.st exA false], []⟩ =
    .error .runtime :=
  C08_stochastic_result (fun _ t => .ok t) {} _ ⟨[.st exA false], []⟩ _ rfl (by decide) exA rfl

/-- A case for `C08_structure` and `C08_structure_succeeds`: the nested result keeps its structure. -/
example : ∃ w, handleDet (fun _ t => .ok t) false false {} nestFn ⟨[.st exA false], []⟩ = .ok w ∧
    ∃ r1 r2 : STen Int, w = .lst [.st r1 false, .tup [.none, .st r2 false]] ∧
      r1.plates.map Plate.name = ["x"] := ⟨_, rfl, _, _, rfl, rfl⟩

/-- A case for `C08_transparent`: a call without storch tensors. -/
example : handleDet (fun _ t => .ok t) false false {} nestFn ⟨[.torch ⟨[2], fun _ => (3 : Int)⟩], []⟩ =
    nestFn ⟨[.torch ⟨[2], fun _ => 3⟩], []⟩ := rfl

/-- Arguments that meet the hypotheses of `C09_reiterable_partial`. -/
example : noIterL ([.st exA false, .lst [.torch ⟨[2], fun _ => 3⟩, .iter []]] : List (Val Int)) = true ∧
    ∃ p, prepareArgs (fun _ t => .ok t) {}
      (⟨[.st exA false, .lst [.torch ⟨[2], fun _ => 3⟩, .iter []]], []⟩ : Args Int) = .ok p :=
  ⟨rfl, _, rfl⟩
end Examples

end Storch
