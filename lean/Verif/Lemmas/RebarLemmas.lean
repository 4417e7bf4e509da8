import Verif.Lemmas.RelaxLemmas

/-! The control variates that `RELAX` computes with rebar. -/

namespace Storch
variable {α : Type _} [ValEq α]

omit [ValEq α] in
theorem wrapOutList_ev {R : List (Plate α)} (hn : (R.map Plate.name).Nodup) (hpos : ∀ p ∈ R, 1 ≤ p.n) (es : List Nat) :
    ∀ (rs : List (Ten α)),
      (∀ r ∈ rs, r.shape = (R.filter (fun p => decide (1 < p.n))).map Plate.n ++ es) →
      ∃ ws : List (STen α), wrapOutList R false (rs.map Val.torch) = .ok (ws.map (fun w => Val.st w false)) ∧
        List.Forall₂ (fun w r => w.ten = r ∧ w.plates = R ∧ w.WF ∧ w.eventShape = es) ws rs := by
  intro rs
  induction rs with
  | nil => intro _; exact ⟨[], rfl, .nil⟩
  | cons r rs ih =>
    intro h
    obtain ⟨ws, w1, w2⟩ := ih (fun x hx => h x (List.mem_cons_of_mem _ hx))
    obtain ⟨w, v1, v2, v3, v4, v5⟩ := checkPlates_ok_of hn hpos r es (h r (by simp))
    refine ⟨w :: ws, ?_, .cons ⟨v2, v3, v4, v5⟩ w2⟩
    simp [wrapOutList, Val.wrapOut, v1, w1]

/-- A wrapped function that returns a tuple of tensors with the event shape `es`. -/
theorem tuple_call_ev {hook : UnwrapHook α} (hh : PlainHook hook) {ops : List (Operand α)} (hg : GoodOps ops)
    (hst : stens ops ≠ []) {fn : Fn α} {es : List Nat}
    (hfn : ∀ ts, List.Forall₂ (AlignedOp (callMdp ops) (maxEv ops)) ops ts →
      ∃ rs : List (Ten α), fn ⟨ts.map Val.torch, []⟩ = .ok (.tup (rs.map Val.torch)) ∧
        ∀ r ∈ rs, r.shape = (callMdp ops).map Plate.n ++ es) :
    ∃ ts rs ws, List.Forall₂ (AlignedOp (callMdp ops) (maxEv ops)) ops ts ∧
      fn ⟨ts.map Val.torch, []⟩ = .ok (.tup (rs.map Val.torch)) ∧
      handleDet hook false false {} fn (opArgs ops) = .ok (.tup (ws.map (fun w => Val.st w false))) ∧
      List.Forall₂ (fun w r => w.ten = r ∧ w.plates = callPlates ops ∧ w.WF ∧ w.eventShape = es) ws rs := by
  obtain ⟨ts, h1, h2⟩ := prepare_ops hh hg
  obtain ⟨rs, f1, f2⟩ := hfn ts h2
  have hpos : ∀ p ∈ callPlates ops, 1 ≤ p.n := by
    intro p hp
    obtain ⟨a, ha, hpa⟩ := mem_callPlates hp
    exact (hg.wf a ha).pos p hpa
  obtain ⟨ws, w1, w2⟩ := wrapOutList_ev hg.names hpos es rs f2
  refine ⟨ts, rs, ws, h2, f1, ?_, w2⟩
  rw [handleDet]
  simp only [Bool.false_eq_true, if_false, h1]
  have : (stens ops).isEmpty = false := by
    rw [List.isEmpty_eq_false_iff]; exact hst
  simp only [this, Bool.false_eq_true, if_false, f1]
  have hfl : (callPlates ops).filter (fun q => !decide (q.name ∈ ([] : List String))) =
      callPlates ops := by simp
  rw [hfl]
  simp [Val.wrapOut, w1]

/-- The dimensions, aligned on the right, are one or those of `s`. -/
def Fits (s' s : List Nat) : Prop :=
  s'.length ≤ s.length ∧ List.Forall₂ (fun d' d => d' = 1 ∨ d' = d) (Ten.padL s.length s') s

theorem fits_self (s : List Nat) : Fits s s := by
  refine ⟨le_rfl, ?_⟩
  have : Ten.padL s.length s = s := by simp [Ten.padL]
  rw [this]
  induction s with
  | nil => exact .nil
  | cons d s ih => exact .cons (Or.inr rfl) (ih (by simp [Ten.padL]))

theorem bshapes_fit_left {s s' : List Nat} (h : Fits s' s) : Ten.bshapes [s', s] = some s := by
  obtain ⟨hl, h⟩ := h
  rw [bshapes_eq _ s.length (by simp [hl])]
  simp only [List.map_cons, List.map_nil, bfold_cons]
  have h1 : Ten.padL s.length s = s := by simp [Ten.padL]
  have h2 : (Ten.padL s.length s').length = s.length := by simp [Ten.padL]; omega
  have hz : ∀ x : List Nat, Ten.bzip (List.replicate x.length 1) x = some x := by
    intro s
    induction s with
    | nil => rfl
    | cons d s ih =>
      by_cases hd : 1 = d
      · subst hd; simp [List.replicate_succ, Ten.bzip, Ten.bdim, ih]
      · simp [List.replicate_succ, Ten.bzip, Ten.bdim, ih, hd]
  have h3 := hz (Ten.padL s.length s')
  rw [h2] at h3
  rw [h1, h3]
  simp only [Option.bind_some]
  have : ∀ a b : List Nat, List.Forall₂ (fun d' d => d' = 1 ∨ d' = d) a b → Ten.bzip a b = some b := by
    intro a b hab
    induction hab with
    | nil => rfl
    | cons hd _ ih =>
      rcases hd with rfl | rfl
      · rename_i d _ _ _
        by_cases hd : 1 = d
        · subst hd; simp [Ten.bzip, Ten.bdim, ih]
        · simp [Ten.bzip, Ten.bdim, ih, hd]
      · simp [Ten.bzip, Ten.bdim, ih]
  rw [this _ _ h]
  rfl

/-- The control network gives one number per sample, in a shape that fits the slice of the costs. -/
structure PerSample (cPhi : Ten α → Except Err (Ten α)) (dims es : List Nat) (φ : (List Nat → α) → α) : Prop where
  runs : ∀ z, z.shape = dims ++ es → ∃ r, cPhi z = .ok r ∧
    Fits r.shape (dims ++ List.replicate es.length 1) ∧
    ∀ i, i.length = dims.length →
      r.get (Ten.bidx r.shape ((i ++ List.replicate es.length 0).drop
        ((i ++ List.replicate es.length 0).length - r.ndim))) = φ (fun e => z.get (i ++ e))
  loc : ∀ f g : List Nat → α, (∀ e, Ten.InB e es → f e = g e) → φ f = φ g

/-- One of the two control variates: the control network plus the cost, both at the sample `a` positions further. -/
def rebarPart [Add α] [Zero α] (φ : (List Nat → α) → α) (own : Plate α) (n a : Nat) (t : STen α)
    (cost : (String → Nat) → α) (ι : String → Nat) : α :=
  if ι own.name < n then
    φ (fun e => t.sample (Function.update ι own.name (ι own.name + a)) e) +
      cost (Function.update ι own.name (ι own.name + a)) else 0

omit [ValEq α] in
theorem getD_left (a b : List Nat) {i : Nat} (h : i < a.length) : (a ++ b).getD i 0 = a.getD i 0 := by
  simp [List.getD, List.getElem?_append_left h]

omit [ValEq α] in
theorem narrow_get (t : Ten α) {M : List (Plate α)} (hn : (M.map Plate.name).Nodup) {L1 L2 : List (Plate α)}
    {p : Plate α} (hM : M = L1 ++ p :: L2) (a n : Nat) (ι : String → Nat) (e : List Nat) :
    (t.narrow L1.length a n).get (M.map (fun q => ι q.name) ++ e) =
      t.get (M.map (fun q => Function.update ι p.name (ι p.name + a) q.name) ++ e) := by
  have hlen : L1.length < (M.map (fun q => ι q.name)).length := by rw [hM]; simp
  obtain ⟨h1, h2⟩ := set_coord hn hM ι (ι p.name + a)
  simp only [Ten.narrow]
  have h3 : (M.map (fun q => ι q.name) ++ e).getD L1.length 0 = ι p.name := by
    rw [← h1, getD_left _ _ hlen]
  rw [h3, List.set_append_left _ _ hlen, h2]

omit [ValEq α] in
theorem narrow_shape (t : Ten α) {L1 L2 : List (Plate α)} {p : Plate α} {es : List Nat}
    (hs : t.shape = (L1 ++ p :: L2).map Plate.n ++ es) (a n : Nat) :
    (t.narrow L1.length a n).shape = (L1.map Plate.n ++ n :: L2.map Plate.n) ++ es := by
  simp only [Ten.narrow, hs]
  rw [List.set_append_left _ _ (by simp), set_shape]

omit [ValEq α] in
/-- Adding the control network to the costs, and filling the rest with zeros. -/
theorem rebar_part [AddCommMonoid α] {cPhi : Ten α → Except Err (Ten α)} {M L1 L2 : List (Plate α)} {own : Plate α}
    (hnd : (M.map Plate.name).Nodup) (hL : M = L1 ++ own :: L2) (hbig : ∀ p ∈ M, 1 < p.n) {n a : Nat} {es : List Nat}
    {φ : (List Nat → α) → α} (hφ : PerSample cPhi (L1.map Plate.n ++ n :: L2.map Plate.n) es φ) {z c : Ten α}
    (hz : z.shape = M.map Plate.n ++ es) (hc : c.shape = M.map Plate.n ++ List.replicate es.length 1)
    {zv : (String → Nat) → List Nat → α} {cv : (String → Nat) → α}
    (hzv : ∀ ι e, Ten.InB e es → z.get (M.map (fun p => ι p.name) ++ e) = zv ι e)
    (hcv : ∀ ι, c.get (M.map (fun p => ι p.name) ++ List.replicate es.length 0) = cv ι) :
    ∃ r r' x, cPhi (z.narrow L1.length a n) = .ok r ∧ Ten.elementwise List.sum [r, c.narrow L1.length a n] = .ok r' ∧
      fillFirst c.shape L1.length n r' = .ok x ∧ x.shape = c.shape ∧
      ∀ ι, x.get (M.map (fun p => ι p.name) ++ List.replicate es.length 0) =
        if ι own.name < n then
          φ (fun e => zv (Function.update ι own.name (ι own.name + a)) e) +
            cv (Function.update ι own.name (ι own.name + a)) else 0 := by
  have hzs := narrow_shape z (p := own) (es := es) (L1 := L1) (L2 := L2) (by rw [hz, hL]) a n
  have hcs := narrow_shape c (p := own) (es := List.replicate es.length 1) (L1 := L1) (L2 := L2) (by rw [hc, hL]) a n
  obtain ⟨r, r1, r2, r3⟩ := hφ.runs _ hzs
  have hb := bshapes_fit_left r2
  set T := (L1.map Plate.n ++ n :: L2.map Plate.n) ++ List.replicate es.length 1 with hT
  have hcT : c.shape.set L1.length n = T := hcs
  obtain ⟨r', e1, e2, e3⟩ : ∃ r', Ten.elementwise List.sum [r, c.narrow L1.length a n] = .ok r' ∧ r'.shape = T ∧
      ∀ idx, r'.get idx = r.get (Ten.bidx r.shape (idx.drop (idx.length - r.ndim))) +
        (c.narrow L1.length a n).get (Ten.bidx T (idx.drop (idx.length - T.length))) := by
    refine ⟨_, by rw [Ten.elementwise]; simp only [List.map_cons, List.map_nil]; rw [hcs, hb], rfl, ?_⟩
    intro idx
    simp [Ten.ndim, hcs]
  obtain ⟨x, x1, x2, x3⟩ : ∃ x, fillFirst c.shape L1.length n r' = .ok x ∧ x.shape = c.shape ∧
      ∀ idx, x.get idx = if idx.getD L1.length 0 < n then
        r'.get (Ten.bidx T (idx.drop (idx.length - T.length))) else 0 := by
    refine ⟨⟨c.shape, fun idx => if idx.getD L1.length 0 < n then
      r'.get (Ten.bidx r'.shape (idx.drop (idx.length - r'.ndim))) else 0⟩, ?_, rfl, ?_⟩
    · rw [fillFirst, if_pos]
      rw [hcT, e2]
      exact bshapes_fit_left (fits_self T)
    · intro idx
      simp only [Ten.ndim, e2]
  refine ⟨r, r', x, r1, e1, x1, x2, ?_⟩
  intro ι
  obtain ⟨g1, -⟩ := set_coord hnd hL ι 0
  have hlen : L1.length < (M.map (fun q => ι q.name)).length := by rw [hL]; simp
  rw [x3, getD_left _ _ hlen, g1]
  by_cases hlt : ι own.name < n
  · rw [if_pos hlt, if_pos hlt]
    have hll : (M.map (fun p : Plate α => ι p.name) ++ List.replicate es.length 0).length = T.length := by
      rw [hT, hL]; simp
    have hid : Ten.bidx T (M.map (fun p : Plate α => ι p.name) ++ List.replicate es.length 0) =
        M.map (fun p : Plate α => ι p.name) ++ List.replicate es.length 0 := by
      have hid : ∀ (L : List (Plate α)), (∀ p ∈ L, 1 < p.n) → ∀ (s j : List Nat), Ten.bidx s j = j →
          Ten.bidx (L.map Plate.n ++ s) (L.map (fun p => ι p.name) ++ j) = L.map (fun p => ι p.name) ++ j := by
        intro L
        induction L with
        | nil => intro _ s j h; exact h
        | cons p L ih =>
          intro h s j hs
          have h1 := ih (fun q hq => h q (List.mem_cons_of_mem _ hq)) s j hs
          have h2 := h p (by simp)
          rw [Ten.bidx] at h1 ⊢
          simp only [List.map_cons, List.cons_append, List.zipWith_cons_cons, h1]
          rw [if_neg (by omega)]
      rw [hT, hL]
      simp only [List.map_append, List.map_cons, List.append_assoc, List.cons_append]
      apply hid _ (fun p hp => hbig p (by rw [hL]; simp [hp]))
      have h2 := hid L2 (fun p hp => hbig p (by rw [hL]; simp [hp])) (List.replicate es.length 1)
        (List.replicate es.length 0) (bidx_ones _ _ (by simp))
      rw [Ten.bidx] at h2 ⊢
      simp only [List.zipWith_cons_cons, h2]
      congr 1
      split
      · omega
      · rfl
    rw [hll, Nat.sub_self, List.drop_zero, hid, e3, hll, Nat.sub_self, List.drop_zero, hid, narrow_get c hnd hL, hcv]
    congr 1
    have h4 := r3 (M.map (fun p => ι p.name)) (by rw [hL]; simp)
    rw [hll] at h4
    rw [h4]
    apply hφ.loc
    intro e he
    rw [narrow_get z hnd hL, hzv _ _ he]
  · rw [if_neg hlt, if_neg hlt]

/-- `compute_REBAR_cvs` (relax.py:267-292). -/
theorem rebarCall [CommRing α] {hook : UnwrapHook α} (hh : PlainHook hook) {pool : List (Plate α)} (hp : PoolOK pool)
    {np rc : STen α} (hnp : ParentOK pool np) (hrc : ScalarOp pool (.st rc false))
    (hrs : ∀ p ∈ rc.plates, p ∈ np.plates) (hsr : ∀ p ∈ np.multiDimPlates, p ∈ rc.plates)
    {own : Plate α} {L1 L2 : List (Plate α)} (hL : np.multiDimPlates = L1 ++ own :: L2) {n : Nat} (hn : own.n = 3 * n)
    {cPhi : Ten α → Except Err (Ten α)} {φ : (List Nat → α) → α}
    (hφ : PerSample cPhi (L1.map Plate.n ++ n :: L2.map Plate.n) np.eventShape φ) :
    ∃ cz ct, handleDet hook false false {} (rebarFn cPhi L1.length n) (opArgs [.st np true, .st rc false]) =
        .ok (.tup [.st cz false, .st ct false]) ∧
      OnesIs pool (.st cz false) np.eventDims (np.plates.map Plate.name)
        (rebarPart φ own n n np (fun ι => rc.sample ι [])) ∧
      OnesIs pool (.st ct false) np.eventDims (np.plates.map Plate.name)
        (rebarPart φ own n (2 * n) np (fun ι => rc.sample ι [])) := by
  set ops : List (Operand α) := [.st np true, .st rc false] with hops
  have hg : GoodOps ops := by
    have key : ∀ t ∈ stens ops, t.WF ∧ ∀ p ∈ t.plates, p ∈ pool := by
      intro t ht
      simp only [hops, stens, List.mem_cons, List.not_mem_nil, or_false] at ht
      rcases ht with rfl | rfl
      exacts [⟨hnp.wf, hnp.sub⟩, ⟨hrc.1, hrc.2.2⟩]
    refine ⟨fun t ht => (key t ht).1, fun t ht p hp' => hp.plain p ((key t ht).2 p hp'), ?_⟩
    intro t ht t' ht' p hp1 q hq he
    rw [pool_eq hp ((key t ht).2 p hp1) ((key t' ht').2 q hq) he]
    exact Plate.pyEq_refl _
  have hrd : rc.eventDims = 0 := by rw [STen.eventDims, hrc.2.1]; rfl
  have hE : maxEv ops = np.eventDims := by simp [hops, maxEv, stens, hrd]
  have hcp : callPlates ops = np.plates := by
    rw [callPlates_st, hops]
    simp only [List.map_cons, List.map_nil, List.foldl_cons, List.foldl_nil, Operand.plates]
    rw [addPlates_self np.plates hnp.wf.names [] (by simp), List.nil_append]
    exact addPlates_sub _ _ (fun p hm => Plate.isIn_of_mem (hrs p hm))
  have hM : callMdp ops = np.multiDimPlates := by rw [callMdp, hcp]; rfl
  have hnd : (np.multiDimPlates.map Plate.name).Nodup := hnp.wf.names.sublist (List.filter_sublist.map _)
  have hbig : ∀ p ∈ np.multiDimPlates, 1 < p.n := fun p hm => by simpa using (List.mem_filter.1 hm).2
  have hed : np.eventShape.length = np.eventDims := rfl
  -- what the function sees
  have hz : ∀ z, AlignedOp (callMdp ops) (maxEv ops) (.st np true) z →
      z.shape = np.multiDimPlates.map Plate.n ++ np.eventShape ∧
        ∀ ι e, Ten.InB e np.eventShape → z.get (np.multiDimPlates.map (fun p => ι p.name) ++ e) = np.sample ι e := by
    rintro z ⟨h1, h2⟩
    rw [hM, hE] at h1 h2
    constructor
    · rw [h1]
      simp only [Nat.sub_self, List.replicate_zero, List.append_nil, pdims]
      congr 1
      apply List.map_congr_left
      intro p hm
      rw [if_pos (Plate.isIn_of_mem (List.mem_filter.1 hm).1)]
    · intro ι e he
      have hl : e.length = np.eventDims := InB.length_eq he
      rw [h2 ι e hl, STen.sample, bidx_of_inB he, List.take_of_length_le (le_of_eq hl)]
  have hc : ∀ c, AlignedOp (callMdp ops) (maxEv ops) (.st rc false) c →
      c.shape = np.multiDimPlates.map Plate.n ++ List.replicate np.eventShape.length 1 ∧
        ∀ ι, c.get (np.multiDimPlates.map (fun p => ι p.name) ++ List.replicate np.eventShape.length 0) =
          rc.sample ι [] := by
    rintro c ⟨h1, h2⟩
    rw [hM, hE] at h1 h2
    constructor
    · rw [h1, hrc.2.1, hrd]
      simp only [Nat.sub_zero, List.nil_append, pdims, hed]
      congr 1
      apply List.map_congr_left
      intro p hm
      rw [if_pos (Plate.isIn_of_mem (hsr p hm))]
    · intro ι
      rw [h2 ι _ (by simp [hed]), hrd, sample_scalar hrc.2.1]
      simp
  -- the function
  have hrun : ∀ z c, AlignedOp (callMdp ops) (maxEv ops) (.st np true) z →
      AlignedOp (callMdp ops) (maxEv ops) (.st rc false) c →
      ∃ x y, rebarFn cPhi L1.length n ⟨[.torch z, .torch c], []⟩ = .ok (.tup [.torch x, .torch y]) ∧
        x.shape = c.shape ∧ y.shape = c.shape ∧
        (∀ ι, x.get (np.multiDimPlates.map (fun p => ι p.name) ++ List.replicate np.eventShape.length 0) =
          rebarPart φ own n n np (fun ι => rc.sample ι []) ι) ∧
        ∀ ι, y.get (np.multiDimPlates.map (fun p => ι p.name) ++ List.replicate np.eventShape.length 0) =
          rebarPart φ own n (2 * n) np (fun ι => rc.sample ι []) ι := by
    intro z c haz hac
    obtain ⟨z1, z2⟩ := hz z haz
    obtain ⟨c1, c2⟩ := hc c hac
    obtain ⟨r, r', x, x1, x2, x3, x4, x5⟩ := rebar_part (a := n) hnd hL hbig hφ z1 c1 z2 c2
    obtain ⟨s, s', y, y1, y2, y3, y4, y5⟩ := rebar_part (a := 2 * n) hnd hL hbig hφ z1 c1 z2 c2
    refine ⟨x, y, ?_, x4, y4, x5, y5⟩
    simp only [rebarFn]
    rw [if_pos]
    · simp only [x1, x2, y1, y2, x3, y3]
    · rw [z1, c1, hL]
      constructor <;> simp [hn]
  obtain ⟨ts, rs, ws, t1, t2, t3, t4⟩ := tuple_call_ev hh hg (by simp [hops, stens]) (fn := rebarFn cPhi L1.length n)
      (es := List.replicate np.eventShape.length 1) (by
    intro ts hts
    rw [hops] at hts
    cases hts with
    | cons haz hts =>
      cases hts with
      | cons hac hts =>
        cases hts
        rename_i z c
        obtain ⟨x, y, h1, h2, h3, -, -⟩ := hrun z c haz hac
        obtain ⟨c1, -⟩ := hc c hac
        refine ⟨[x, y], h1, ?_⟩
        intro r hr
        simp only [List.mem_cons, List.not_mem_nil, or_false] at hr
        rw [hM]
        rcases hr with rfl | rfl
        exacts [h2.trans c1, h3.trans c1])
  rw [hops] at t1
  cases t1 with
  | cons haz t1 =>
    cases t1 with
    | cons hac t1 =>
      cases t1
      rename_i z c
      obtain ⟨x, y, h1, h2, h3, h4, h5⟩ := hrun z c haz hac
      have h1' : rebarFn cPhi L1.length n ⟨[z, c].map Val.torch, []⟩ = .ok (.tup ([x, y].map Val.torch)) := h1
      rw [h1'] at t2
      have hrs' : rs = [x, y] := by
        injection t2 with t2
        injection t2 with t2
        simp only [List.map_cons, List.map_nil] at t2
        match rs, t2 with
        | [a, b], t2 =>
          simp only [List.map_cons, List.map_nil, List.cons.injEq, Val.torch.injEq, and_true] at t2
          rw [t2.1, t2.2]
      subst hrs'
      cases t4 with
      | cons w1 t4 =>
        cases t4 with
        | cons w2 t4 =>
          cases t4
          rename_i cz ct
          have hone : ∀ (w : STen α) (r : Ten α) (v : (String → Nat) → α),
              (w.ten = r ∧ w.plates = callPlates ops ∧ w.WF ∧ w.eventShape = List.replicate np.eventShape.length 1) →
              (∀ ι, r.get (np.multiDimPlates.map (fun p => ι p.name) ++ List.replicate np.eventShape.length 0) = v ι) →
              OnesIs pool (.st w false) np.eventDims (np.plates.map Plate.name) v := by
            rintro w r v ⟨a1, a2, a3, a4⟩ hv
            rw [hcp] at a2
            have hmd : w.multiDimPlates = np.multiDimPlates := by rw [STen.multiDimPlates, a2]; rfl
            have hd : w.eventDims = np.eventDims := by rw [STen.eventDims, a4]; simp [hed]
            refine ⟨⟨a3, by rw [a4, hd, hed], by rw [a2]; exact hnp.sub⟩, hd, ?_, ?_, ?_⟩
            · rw [Operand.plates, a2]; exact hnp.closed
            · intro p hm
              rw [Operand.plates, a2]
              constructor
              · exact fun h' => List.mem_map_of_mem h'
              · intro h'
                obtain ⟨q, hq, he⟩ := List.mem_map.1 h'
                exact pool_eq hp (hnp.sub q hq) hm he ▸ hq
            · intro ι
              rw [Operand.one, hmd, hd, a1, ← hed, hv]
          exact ⟨cz, ct, t3, hone cz x _ w1 h4, hone ct y _ w2 h5⟩

/-- The estimator of `RELAX` with rebar. -/
theorem rebar_estimator [CommRing α] [Autograd α] {hook : UnwrapHook α} (hh : PlainHook hook)
    {pool : List (Plate α)} (hp : PoolOK pool) {np rc : STen α} (hnp : ParentOK pool np)
    (hrc : ScalarOp pool (.st rc false)) (hrs : ∀ p ∈ rc.plates, p ∈ np.plates)
    (hsr : ∀ p ∈ np.multiDimPlates, p ∈ rc.plates) {own : Plate α} {L1 L2 : List (Plate α)}
    (hL : np.multiDimPlates = L1 ++ own :: L2) {n : Nat} (hn : own.n = 3 * n)
    {cPhi : Ten α → Except Err (Ten α)} {φ : (List Nat → α) → α}
    (hφ : PerSample cPhi (L1.map Plate.n ++ n :: L2.map Plate.n) np.eventShape φ)
    {logProb : STen α → Except Err (STen α)} {es : List Nat} {G : (String → Nat) → List Nat → α}
    (hl : LogProbOK np logProb es G) (hes : es ≠ []) (eta : α) :
    ∃ lp cv, rebarEstimator hook (.torch (.scalar eta)) cPhi logProb own.name np rc =
        .ok (some (.st lp false), some (.st cv false)) ∧
      OpIs pool (.st lp false) (np.plates.map Plate.name) (sumEvent es G) ∧
      OnesIs pool (.st cv false) np.eventDims (np.plates.map Plate.name) (fun ι =>
        relaxCv eta (sumEvent es G ι) (rebarPart φ own n n np (fun ι => rc.sample ι []) ι)
          (rebarPart φ own n (2 * n) np (fun ι => rc.sample ι []) ι)) := by
  have hmem : own ∈ np.multiDimPlates := by rw [hL]; simp
  obtain ⟨i, i1, i2⟩ := relaxIndex_ok hnp.wf (List.mem_filter.1 hmem).1
  have hi := i2 L1 L2 hL
  subst hi
  obtain ⟨cz, ct, c1, c2, c3⟩ := rebarCall hh hp hnp hrc hrs hsr hL hn hφ
  obtain ⟨lp0, l1, l2, l3, l4, l5⟩ := hl np ⟨hnp.wf, fun _ => Iff.rfl, rfl, fun _ _ => rfl⟩
  have hpr : Proper lp0 := ⟨l2, fun p hm => hp.plain p (hnp.sub p ((l3 p).1 hm))⟩
  obtain ⟨lp, s1, s2, s3, s4, s5⟩ := sumIndices_event hh hpr (by rw [l4]; exact hes)
  have hlp : OpIs pool (.st lp false) (np.plates.map Plate.name) (sumEvent es G) := by
    refine opIs_logProb hp hnp ⟨s2.wf, s4, fun p hm => hnp.sub p ((l3 p).1 (s3 ▸ hm))⟩ (fun p => by rw [s3]; exact l3 p) ?_
    intro ι
    rw [s5 ι, l4, sumEvent]
    congr 1
    apply List.map_congr_left
    intro e he'
    exact l5 ι e (mem_allIdx.1 he')
  obtain ⟨cv, v1, v2⟩ := relaxCombine_ok (eta := eta) hh hp s1 hlp c2 c3
  have h3 : own.n / 3 = n := by omega
  refine ⟨lp, cv, ?_, hlp, v2⟩
  simp only [rebarEstimator, i1, rebarParts, l1, h3, c1, v1]

/-- With rebar, when the log-probability has no event dimensions the estimator raises an error. -/
theorem rebar_raises [CommRing α] [Autograd α] {hook : UnwrapHook α} (hh : PlainHook hook)
    {pool : List (Plate α)} (hp : PoolOK pool) {t : STen α} (ht : ParentOK pool t)
    (cPhi : Ten α → Except Err (Ten α)) {logProb : STen α → Except Err (STen α)}
    {G : (String → Nat) → List Nat → α} (hl : LogProbOK t logProb [] G) (hm : t.multiDimPlates ≠ [])
    (name : String) (eta : Operand α) {x : STen α} (hx : SameValues x t) (cost : STen α) :
    ∃ e, rebarEstimator hook eta cPhi logProb name x cost = .error e := by
  obtain ⟨lp, l1, l2, l3, l4, l5⟩ := hl x hx
  have hs : ∃ e, sumIndices hook lp = .error e := by
    apply sumIndices_raises hh ⟨l2, fun p hm => hp.plain p (ht.sub p ((l3 p).1 hm))⟩ l4
    intro h0
    apply hm
    rw [STen.multiDimPlates, List.filter_eq_nil_iff] at h0 ⊢
    exact fun p hm => h0 p ((l3 p).2 hm)
  rw [rebarEstimator]
  cases relaxIndex name x with
  | error e => exact ⟨e, rfl⟩
  | ok i =>
    obtain ⟨plate, i⟩ := i
    cases i with
    | none => exact ⟨_, rfl⟩
    | some pi =>
      simp only [rebarParts, l1]
      split
      · exact ⟨_, rfl⟩
      · rename_i r hr
        split at hr
        · cases hr
        · injection hr with hr
          subst hr
          exact relaxCombine_raises hs
        · cases hr

end Storch
