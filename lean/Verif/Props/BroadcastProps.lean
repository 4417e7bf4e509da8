import Mathlib.Tactic.NormNum
import Verif.Lemmas.CallLemmas

/-!
# C05: named broadcasting of wrapped element-wise functions
-/

namespace Storch
variable {α : Type _}

/-! ### Specification -/

/-- The sample of a storch tensor at a joint plate index `ι` (one position per plate name) and an event
index `e`, where event dimensions of size one are repeated and missing trailing event dimensions are
ignored. -/
def STen.sample (a : STen α) (ι : String → Nat) (e : List Nat) : α :=
  a.ten.get (a.multiDimPlates.map (fun p => ι p.name) ++ Ten.bidx a.eventShape e)

/-- The value an operand contributes to the sample `ι`, `e`: torch tensors have no plates and broadcast
as torch does (aligned on the right). -/
def Operand.sample (ι : String → Nat) (e : List Nat) : Operand α → α
  | .st a _ => a.sample ι e
  | .torch t => t.get (Ten.bidx t.shape (e.drop (e.length - t.ndim)))

/-- The event shape of an operand, padded to `E` dimensions: on the right for storch tensors, on the
left for torch tensors. -/
def Operand.evShape (E : Nat) : Operand α → List Nat
  | .st a _ => a.eventShape ++ List.replicate (E - a.eventDims) 1
  | .torch t => List.replicate (E - t.ndim) 1 ++ t.shape

variable [ValEq α]

/-! ### Lemmas -/

omit [ValEq α] in
theorem mapM_torch (ts : List (Ten α)) :
    (ts.map Val.torch).mapM Val.asTorch = some ts := by
  induction ts with
  | nil => rfl
  | cons t ts ih => simp [ih, Val.asTorch]

omit [ValEq α] in
theorem eventDims_le_maxEv {ops : List (Operand α)} {t : STen α} (h : t ∈ stens ops) :
    t.eventDims ≤ maxEv ops := by
  unfold maxEv
  revert h
  induction stens ops with
  | nil => intro h; simp at h
  | cons x l ih =>
    intro h
    simp only [List.map_cons, List.foldr_cons]
    rcases List.mem_cons.1 h with rfl | h
    · exact Nat.le_max_left _ _
    · exact Nat.le_trans (ih h) (Nat.le_max_right _ _)

/-- Does the operand have the plate? -/
def Operand.hasPlate : Operand α → Plate α → Bool
  | .st a _, p => p.isIn a.plates
  | .torch _, _ => false

theorem aligned_shape {M : List (Plate α)} {E : Nat} {o : Operand α} {t : Ten α}
    (h : AlignedOp M E o t) (he : ∀ s, o = .torch s → s.ndim ≤ E) (he' : ∀ a s, o = .st a s → a.eventDims ≤ E) :
    Ten.padL (M.length + E) t.shape = pdims M o.hasPlate ++ o.evShape E ∧ t.shape.length ≤ M.length + E := by
  cases o with
  | st a s =>
    obtain ⟨h1, _⟩ := h
    have hl : t.shape.length = M.length + E := by
      have := he' a s rfl
      rw [h1]
      simp only [List.length_append, length_pdims, List.length_replicate]
      simp only [STen.eventDims] at this ⊢
      omega
    refine ⟨?_, by omega⟩
    rw [Ten.padL, hl]
    simp only [h1, Operand.evShape, Nat.sub_self, List.replicate_zero, List.nil_append]
    rfl
  | torch s =>
    have h : t = s := h
    subst h
    have h1 := he t rfl
    have h1' : t.shape.length ≤ E := h1
    refine ⟨?_, by omega⟩
    rw [Ten.padL, show M.length + E - t.shape.length = M.length + (E - t.shape.length) by omega,
      List.replicate_add, replicate_eq_pdims]
    simp only [Operand.evShape, Ten.ndim, List.append_assoc]
    rfl

theorem aligned_get {M : List (Plate α)} {E : Nat} {o : Operand α} {t : Ten α}
    (h : AlignedOp M E o t) (he : ∀ s, o = .torch s → s.ndim ≤ E) (hc : ∀ a s, o = .st a s → Covers M a)
    (he' : ∀ a s, o = .st a s → a.eventDims ≤ E)
    (ι : String → Nat) (e : List Nat) (hel : e.length = E) :
    t.get (Ten.bidx t.shape ((M.map (fun p => ι p.name) ++ e).drop
      ((M.map (fun p => ι p.name) ++ e).length - t.ndim))) = o.sample ι e := by
  cases o with
  | st a s =>
    obtain ⟨h1, h2⟩ := h
    have hcov := hc a s rfl
    have hev := he' a s rfl
    have hl : t.ndim = M.length + E := by
      rw [Ten.ndim, h1]
      simp only [List.length_append, length_pdims, List.length_replicate]
      simp only [STen.eventDims] at hev ⊢
      omega
    have hd : (M.map (fun p => ι p.name) ++ e).length - t.ndim = 0 := by
      rw [hl]; simp [hel]
    rw [hd, List.drop_zero, h1, bidx_append (by simp), bidx_pdims M _ ι hcov.multi]
    set ι' : String → Nat := fun k => if k ∈ a.multiDimPlates.map Plate.name then ι k else 0 with hι'
    have e1 : M.map (fun p => if p.isIn a.plates = true then ι p.name else 0) =
        M.map (fun p => ι' p.name) := by
      apply List.map_congr_left
      intro p hp
      simp only [hι']
      by_cases hin : p.isIn a.plates = true
      · rw [if_pos hin, if_pos ((hcov.isIn_iff hp).1 hin)]
      · rw [if_neg hin, if_neg (fun hm => hin ((hcov.isIn_iff hp).2 hm))]
    rw [e1, h2 ι' _ (by
      simp only [Ten.bidx, List.length_zipWith, List.length_append, List.length_replicate, hel]
      simp only [STen.eventDims] at hev ⊢
      omega)]
    rw [Operand.sample, STen.sample]
    have e2 : a.multiDimPlates.map (fun p => ι' p.name) = a.multiDimPlates.map (fun p => ι p.name) := by
      apply List.map_congr_left
      intro p hp
      simp only [hι']
      rw [if_pos (List.mem_map_of_mem hp)]
    rw [e2]
    congr 2
    exact take_bidx a.eventShape _ e
  | torch s =>
    have h : t = s := h
    subst h
    have h1 := he t rfl
    rw [Operand.sample]
    congr 2
    have : (M.map (fun p => ι p.name) ++ e).length - t.ndim = M.length + (e.length - t.ndim) := by
      simp only [List.length_append, List.length_map]
      omega
    rw [this, List.drop_append]
    rw [List.drop_of_length_le (by simp)]
    simp

theorem maxLen_eq (l : List Nat) (n : Nat) (hle : ∀ x ∈ l, x ≤ n) (hex : ∃ x ∈ l, x = n) :
    l.foldr max 0 = n := by
  induction l with
  | nil => simp at hex
  | cons a l ih =>
    simp only [List.foldr_cons]
    have ha := hle a (by simp)
    have hub : ∀ l : List Nat, (∀ x ∈ l, x ≤ n) → l.foldr max 0 ≤ n := by
      intro l hl
      induction l with
      | nil => simp
      | cons b l ih' =>
        simp only [List.foldr_cons]
        have := hl b (by simp)
        have := ih' (fun x hx => hl x (List.mem_cons_of_mem _ hx))
        omega
    obtain ⟨x, hx, rfl⟩ := hex
    rcases List.mem_cons.1 hx with rfl | hx
    · have := hub l (fun y hy => hle y (List.mem_cons_of_mem _ hy))
      omega
    · rw [ih (fun y hy => hle y (List.mem_cons_of_mem _ hy)) ⟨x, hx, rfl⟩]
      omega

theorem forall₂_mem_right {β γ : Type _} {R : β → γ → Prop} {l : List β} {m : List γ}
    (h : List.Forall₂ R l m) {y : γ} (hy : y ∈ m) : ∃ x, x ∈ l ∧ R x y := by
  induction h with
  | nil => simp at hy
  | cons hd _ ih =>
    rcases List.mem_cons.1 hy with rfl | hy
    · exact ⟨_, List.mem_cons_self .., hd⟩
    · obtain ⟨x, hx, hr⟩ := ih hy
      exact ⟨x, List.mem_cons_of_mem _ hx, hr⟩

theorem forall₂_mem_left {β γ : Type _} {R : β → γ → Prop} {l : List β} {m : List γ}
    (h : List.Forall₂ R l m) {x : β} (hx : x ∈ l) : ∃ y, y ∈ m ∧ R x y := by
  induction h with
  | nil => simp at hx
  | cons hd _ ih =>
    rcases List.mem_cons.1 hx with rfl | hx
    · exact ⟨_, List.mem_cons_self .., hd⟩
    · obtain ⟨y, hy, hr⟩ := ih hx
      exact ⟨y, List.mem_cons_of_mem _ hy, hr⟩

/-- The wrapped function is called with aligned tensors. -/
theorem prepare_ops {hook : UnwrapHook α} (hh : PlainHook hook) {ops : List (Operand α)}
    (hg : GoodOps ops) :
    ∃ ts : List (Ten α), prepareArgs hook {} (opArgs ops) =
        .ok ⟨⟨ts.map Val.torch, []⟩, stens ops, callPlates ops⟩ ∧
      List.Forall₂ (AlignedOp (callMdp ops) (maxEv ops)) ops ts := by
  obtain ⟨ts, h1, h2⟩ := unwrap_ops hh (M := callMdp ops) (E := maxEv ops) {} rfl ops
    (fun t ht => ⟨hg.wf t ht, hg.covers ht, eventDims_le_maxEv ht⟩) hg.plain_mdp
  refine ⟨ts, ?_, h2⟩
  obtain ⟨⟨hp1, _⟩, hp2⟩ := collectArgs_spec (opArgs ops)
  rw [tensors_opArgs] at hp1 hp2
  have hf := hg.filter
  rw [callPlates] at hf
  rw [prepareArgs]
  simp only [hf, applyDim, applyDims]
  have e1 : (collectArgs (opArgs ops)).2 = maxEv ops := hp2
  have e2 : (opArgs ops).pos = ops.map Operand.val := rfl
  have e3 : (opArgs ops).kw = [] := rfl
  rw [e1, e2, e3]
  have h1' : unwrapList hook {} ((collectArgs (opArgs ops)).1.plates.filter (fun p => decide (1 < p.n)))
    (maxEv ops) (ops.map Operand.val) = .ok (ts.map Val.torch) := h1
  rw [h1']
  simp [unwrapList, hp1, callPlates]

omit [ValEq α] in
theorem checkPlates_ok_of {R : List (Plate α)} (hn : (R.map Plate.name).Nodup)
    (hpos : ∀ p ∈ R, 1 ≤ p.n) (t : Ten α) (es : List Nat)
    (hs : t.shape = (R.filter (fun p => decide (1 < p.n))).map Plate.n ++ es) :
    ∃ r, STen.mk' t R = .ok r ∧ r.ten = t ∧ r.plates = R ∧ r.WF ∧ r.eventShape = es := by
  have hf : R.filter (fun p => decide (p.n ≠ 1)) = R.filter (fun p => decide (1 < p.n)) := by
    apply List.filter_congr
    intro p hp
    have := hpos p hp
    simp only [decide_eq_decide]
    omega
  have : STen.checkPlates t.shape R [] 0 =
      .ok (0 + (R.filter (fun p => decide (p.n ≠ 1))).length) := by
    rw [checkPlates_ok_iff]
    refine ⟨hn, by simp, ?_, rfl⟩
    rw [hf, List.drop_zero, hs]
    exact List.prefix_append _ _
  refine ⟨⟨t, R, 0 + (R.filter (fun p => decide (p.n ≠ 1))).length⟩, ?_, rfl, rfl, ?_, ?_⟩
  · rw [STen.mk', this]
  · refine ⟨hn, hpos, ?_, ?_⟩
    · simp only [STen.multiDimPlates, STen.eventShape]
      rw [hf, hs]
      simp
    · simp only [STen.multiDimPlates]
      rw [hf]; simp
  · simp only [STen.eventShape]
    rw [hf, hs]
    simp

omit [ValEq α] in
theorem length_evShape {ops : List (Operand α)} {o : Operand α} (ho : o ∈ ops)
    (htorch : ∀ t, Operand.torch t ∈ ops → t.ndim ≤ maxEv ops) :
    (o.evShape (maxEv ops)).length = maxEv ops := by
  cases o with
  | st a s =>
    have := eventDims_le_maxEv (mem_stens.2 ⟨s, ho⟩)
    simp only [Operand.evShape, List.length_append, List.length_replicate]
    simp only [STen.eventDims] at this ⊢
    omega
  | torch t =>
    have := htorch t ho
    simp only [Operand.evShape, List.length_append, List.length_replicate]
    simp only [Ten.ndim] at this ⊢
    omega

omit [ValEq α] in
theorem bfold_of_bshapes {ops : List (Operand α)} {es : List Nat} (hst : stens ops ≠ [])
    (htorch : ∀ t, Operand.torch t ∈ ops → t.ndim ≤ maxEv ops)
    (h : Ten.bshapes (ops.map (Operand.evShape (maxEv ops))) = some es) :
    bfold (List.replicate (maxEv ops) 1) (ops.map (Operand.evShape (maxEv ops))) = some es := by
  have hmax : ((ops.map (Operand.evShape (maxEv ops))).map List.length).foldr max 0 = maxEv ops := by
    apply maxLen_eq
    · intro x hx
      simp only [List.map_map, List.mem_map, Function.comp_apply] at hx
      obtain ⟨o, ho, rfl⟩ := hx
      exact Nat.le_of_eq (length_evShape ho htorch)
    · obtain ⟨a, ha⟩ := List.exists_mem_of_ne_nil _ hst
      obtain ⟨s, hs⟩ := mem_stens.1 ha
      refine ⟨_, ?_, length_evShape hs htorch⟩
      simp only [List.map_map, List.mem_map, Function.comp_apply]
      exact ⟨_, hs, rfl⟩
  rw [bshapes_eq _ _ hmax, List.map_map] at h
  rw [← h]
  congr 1
  apply List.map_congr_left
  intro o ho
  have := length_evShape ho htorch
  simp [Ten.padL, this]

/-- The call behind C05, with the plates of the result as computed by the collection. -/
theorem elementwise_call (hook : UnwrapHook α) (hh : PlainHook hook) (f : List α → α)
    (ops : List (Operand α)) (hg : GoodOps ops) (hst : stens ops ≠ [])
    (htorch : ∀ t, Operand.torch t ∈ ops → t.ndim ≤ maxEv ops)
    (es : List Nat)
    (hes : Ten.bshapes (ops.map (Operand.evShape (maxEv ops))) = some es) :
    ∃ r : STen α, handleDet hook false false {} (elementwiseFn f) (opArgs ops) = .ok (.st r false) ∧
      r.WF ∧ r.plates = callPlates ops ∧ r.eventShape = es ∧
      ∀ (ι : String → Nat) (e : List Nat), Ten.InB e es →
        r.sample ι e = f (ops.map (Operand.sample ι e)) := by
  have hev := bfold_of_bshapes hst htorch hes
  obtain ⟨ts, h1, h2⟩ := prepare_ops hh hg
  set M := callMdp ops with hM
  set E := maxEv ops with hE
  have hlen : es.length = E := by simpa using bfold_length hev
  -- side conditions for every operand
  have hside : ∀ o ∈ ops, (∀ s, o = .torch s → s.ndim ≤ E) ∧ (∀ a s, o = .st a s → Covers M a) ∧
      (∀ a s, o = .st a s → a.eventDims ≤ E) := by
    intro o ho
    refine ⟨?_, ?_, ?_⟩
    · rintro s rfl; exact htorch s ho
    · rintro a s rfl; exact hg.covers (mem_stens.2 ⟨s, ho⟩)
    · rintro a s rfl; exact eventDims_le_maxEv (mem_stens.2 ⟨s, ho⟩)
  -- shapes
  have hshapes : ts.map (fun t => Ten.padL (M.length + E) t.shape) =
      ops.map (fun o => pdims M o.hasPlate ++ o.evShape E) := by
    have : ∀ (sub : List (Operand α)) (us : List (Ten α)), (∀ o ∈ sub, o ∈ ops) →
        List.Forall₂ (AlignedOp M E) sub us →
        us.map (fun t => Ten.padL (M.length + E) t.shape) =
          sub.map (fun o => pdims M o.hasPlate ++ o.evShape E) := by
      intro sub us hsub hfa
      induction hfa with
      | nil => rfl
      | cons hd _ ih =>
        simp only [List.map_cons]
        rw [ih (fun o ho => hsub o (List.mem_cons_of_mem _ ho))]
        obtain ⟨a1, a2, a3⟩ := hside _ (hsub _ (List.mem_cons_self ..))
        rw [(aligned_shape hd a1 a3).1]
    exact this ops ts (fun _ h => h) h2
  have hmax : ((ts.map Ten.shape).map List.length).foldr max 0 = M.length + E := by
    apply maxLen_eq
    · intro x hx
      simp only [List.map_map, List.mem_map, Function.comp_apply] at hx
      obtain ⟨t, ht, rfl⟩ := hx
      obtain ⟨o, ho, hot⟩ := forall₂_mem_right h2 ht
      obtain ⟨a1, a2, a3⟩ := hside o ho
      exact (aligned_shape hot a1 a3).2
    · obtain ⟨a, ha⟩ := List.exists_mem_of_ne_nil _ hst
      obtain ⟨s, hs⟩ := mem_stens.1 ha
      obtain ⟨t, ht, hot⟩ := forall₂_mem_left h2 hs
      refine ⟨t.shape.length, ?_, ?_⟩
      · simp only [List.map_map, List.mem_map, Function.comp_apply]
        exact ⟨t, ht, rfl⟩
      · rw [hot.1]
        have := eventDims_le_maxEv ha
        simp only [List.length_append, length_pdims, List.length_replicate]
        simp only [STen.eventDims] at this ⊢
        omega
  have hbs : Ten.bshapes (ts.map Ten.shape) = some (M.map Plate.n ++ es) := by
    rw [bshapes_eq _ _ hmax, List.map_map]
    have : (fun t : Ten α => Ten.padL (M.length + E) t.shape) = Ten.padL (M.length + E) ∘ Ten.shape := rfl
    rw [← this, hshapes, List.replicate_add, replicate_eq_pdims]
    have hsplit := bfold_split M (fun _ => false) (List.replicate E 1)
      (ops.map (fun o => (o.hasPlate, o.evShape E)))
    simp only [List.map_map, Function.comp_def] at hsplit
    rw [hsplit, hev]
    simp only [Option.map_some, Option.some.injEq]
    congr 1
    simp only [pdims]
    apply List.map_congr_left
    intro p hp
    rw [if_pos]
    simp only [Bool.false_or, List.any_map, List.any_eq_true, Function.comp_apply]
    obtain ⟨a, ha, hpa⟩ := mem_callPlates (List.mem_filter.1 hp).1
    obtain ⟨s, hs⟩ := mem_stens.1 ha
    exact ⟨_, hs, Plate.isIn_of_mem hpa⟩
  have hel : Ten.elementwise f ts = .ok ⟨M.map Plate.n ++ es, fun idx =>
      f (ts.map (fun t => t.get (Ten.bidx t.shape (idx.drop (idx.length - t.ndim)))))⟩ := by
    rw [Ten.elementwise, hbs]
  have hpos : ∀ p ∈ callPlates ops, 1 ≤ p.n := by
    intro p hp
    obtain ⟨a, ha, hpa⟩ := mem_callPlates hp
    exact (hg.wf a ha).pos p hpa
  obtain ⟨r, hr1, hr2, hr3, hr4, hr5⟩ := checkPlates_ok_of hg.names hpos
    ⟨M.map Plate.n ++ es, fun idx =>
      f (ts.map (fun t => t.get (Ten.bidx t.shape (idx.drop (idx.length - t.ndim)))))⟩ es rfl
  refine ⟨r, ?_, hr4, ?_, hr5, ?_⟩
  · rw [handleDet]
    simp only [Bool.false_eq_true, if_false, h1]
    have : (stens ops).isEmpty = false := by
      rw [List.isEmpty_eq_false_iff]; exact hst
    simp only [this, Bool.false_eq_true, if_false, elementwiseFn, mapM_torch, hel]
    have hfl : (callPlates ops).filter (fun q => !decide (q.name ∈ ([] : List String))) =
        callPlates ops := by simp
    rw [hfl]
    simp [Val.wrapOut, hr1]
  · exact hr3
  · intro ι e he
    rw [STen.sample, hr2, hr5, bidx_of_inB he]
    have hmd : r.multiDimPlates = M := by
      rw [STen.multiDimPlates, hr3]; rfl
    rw [hmd]
    simp only
    congr 1
    have : ∀ (sub : List (Operand α)) (us : List (Ten α)), (∀ o ∈ sub, o ∈ ops) →
        List.Forall₂ (AlignedOp M E) sub us →
        us.map (fun t => t.get (Ten.bidx t.shape ((M.map (fun p => ι p.name) ++ e).drop
          ((M.map (fun p => ι p.name) ++ e).length - t.ndim)))) = sub.map (Operand.sample ι e) := by
      intro sub us hsub hfa
      induction hfa with
      | nil => rfl
      | cons hd _ ih =>
        simp only [List.map_cons]
        rw [ih (fun o ho => hsub o (List.mem_cons_of_mem _ ho))]
        obtain ⟨a1, a2, a3⟩ := hside _ (hsub _ (List.mem_cons_self ..))
        rw [aligned_get hd a1 a2 a3 ι e ((InB.length_eq he).trans hlen)]
    exact this ops ts (fun _ h => h) h2

/-! ### C05 -/

/-- C05: calling a wrapped element-wise function `f` on storch and torch tensors (ordinary, agreeing
plates; at least one storch tensor; torch tensors of no more dimensions than the events; event shapes
that broadcast to `es`) succeeds.  The result carries the plates of all operands (in first-occurrence
order), and at every joint plate index `ι` and event index `e` its value is `f` of the operands' values
at their own part of the index. -/
theorem C05_elementwise (hook : UnwrapHook α) (hh : PlainHook hook) (f : List α → α)
    (ops : List (Operand α)) (hg : GoodOps ops) (hst : stens ops ≠ [])
    (htorch : ∀ t, Operand.torch t ∈ ops → t.ndim ≤ maxEv ops)
    (es : List Nat)
    (hes : Ten.bshapes (ops.map (Operand.evShape (maxEv ops))) = some es) :
    ∃ r : STen α, handleDet hook false false {} (elementwiseFn f) (opArgs ops) = .ok (.st r false) ∧
      r.WF ∧ FirstOcc r.plates ((stens ops).flatMap STen.plates) ∧ r.eventShape = es ∧
      ∀ (ι : String → Nat) (e : List Nat), Ten.InB e es →
        r.sample ι e = f (ops.map (Operand.sample ι e)) := by
  obtain ⟨r, h1, h2, h3, h4⟩ := elementwise_call hook hh f ops hg hst htorch es hes
  exact ⟨r, h1, h2, h3 ▸ GoodOps.firstOcc, h4⟩

section Examples
private def exP (s : String) (n : Nat) : Plate Int := .mk s n (.torch (.scalar 1)) .plain []
/-- plates x (2), y (3), event shape (2). -/
private def exA : STen Int := ⟨⟨[2, 3, 2], fun l => (l.foldl (fun a i => 10 * a + i) 0 : Nat)⟩,
  [exP "x" 2, exP "y" 3], 2⟩
/-- plates y (3), z (1), x (2): other order, one plate of size one, no event dimension. -/
private def exB : STen Int := ⟨⟨[3, 2], fun l => (l.foldl (fun a i => 10 * a + i) 0 : Nat)⟩,
  [exP "y" 3, exP "z" 1, exP "x" 2], 2⟩
private def exOps : List (Operand Int) := [.st exA false, .st exB false, .torch ⟨[1], fun _ => 7⟩]

/-- The hypotheses of `C05_elementwise` hold for `a + b + torch.tensor([7])`. -/
example : GoodOps exOps ∧ stens exOps ≠ [] ∧
    (∀ t, Operand.torch t ∈ exOps → t.ndim ≤ maxEv exOps) ∧
    Ten.bshapes (exOps.map (Operand.evShape (maxEv exOps))) = some [2] := by
  refine ⟨⟨?_, ?_, ?_⟩, by simp [exOps, stens], ?_, rfl⟩
  · intro t ht
    simp only [exOps, stens, List.mem_cons, List.not_mem_nil, or_false] at ht
    rcases ht with rfl | rfl
    · refine ⟨by decide, ?_, rfl, rfl⟩
      intro p hp
      simp only [exA, List.mem_cons, List.not_mem_nil, or_false] at hp
      rcases hp with rfl | rfl <;> decide
    · refine ⟨by decide, ?_, rfl, rfl⟩
      intro p hp
      simp only [exB, List.mem_cons, List.not_mem_nil, or_false] at hp
      rcases hp with rfl | rfl | rfl <;> decide
  · intro t ht p hp
    simp only [exOps, stens, List.mem_cons, List.not_mem_nil, or_false] at ht
    rcases ht with rfl | rfl
    · simp only [exA, List.mem_cons, List.not_mem_nil, or_false] at hp
      rcases hp with rfl | rfl <;> rfl
    · simp only [exB, List.mem_cons, List.not_mem_nil, or_false] at hp
      rcases hp with rfl | rfl | rfl <;> rfl
  · intro t ht t' ht' p hp q hq he
    simp only [exOps, stens, List.mem_cons, List.not_mem_nil, or_false] at ht ht'
    rcases ht with rfl | rfl <;> rcases ht' with rfl | rfl <;>
      simp only [exA, exB, List.mem_cons, List.not_mem_nil, or_false] at hp hq <;>
      rcases hp with rfl | rfl | rfl <;> rcases hq with rfl | rfl | rfl <;>
      first | rfl | (exact absurd he (by decide))
  · intro t ht
    simp only [exOps, List.mem_cons, List.not_mem_nil, or_false, reduceCtorEq, false_or,
      Operand.torch.injEq] at ht
    subst ht
    decide

/-- And the computed sum at x = 1, y = 2, event 0 is 120 + 21 + 7. -/
example : (match handleDet (fun _ a => .ok a) false false {} (elementwiseFn List.sum) (opArgs exOps) with
    | .ok (.st r false) => some (r.plates.map Plate.name, r.sample (fun s => if s = "x" then 1 else
        if s = "y" then 2 else 0) [0])
    | _ => Option.none) = some (["x", "y", "z"], 148) := rfl
end Examples

end Storch
