import Verif.Model.Arm
import Verif.Lemmas.ContribLemmas
import Verif.Lemmas.ProgramLemmas

/-! Wrapped functions that return several tensors, and what `ARM` contributes to the surrogate loss. -/

namespace Storch
variable {α : Type _} [ValEq α]

omit [ValEq α] in
theorem wrapOutList_torch {R : List (Plate α)} (hn : (R.map Plate.name).Nodup) (hpos : ∀ p ∈ R, 1 ≤ p.n) :
    ∀ (rs : List (Ten α)),
      (∀ r ∈ rs, r.shape = (R.filter (fun p => decide (1 < p.n))).map Plate.n) →
      ∃ ws : List (STen α), wrapOutList R false (rs.map Val.torch) = .ok (ws.map (fun w => Val.st w false)) ∧
        List.Forall₂ (fun w r => w.ten = r ∧ w.plates = R ∧ w.WF ∧ w.eventShape = []) ws rs := by
  intro rs
  induction rs with
  | nil => intro _; exact ⟨[], rfl, .nil⟩
  | cons r rs ih =>
    intro h
    obtain ⟨ws, w1, w2⟩ := ih (fun x hx => h x (List.mem_cons_of_mem _ hx))
    obtain ⟨w, v1, v2, v3, v4, v5⟩ := checkPlates_ok_of hn hpos r [] (by simpa using h r (by simp))
    refine ⟨w :: ws, ?_, .cons ⟨v2, v3, v4, v5⟩ w2⟩
    simp [wrapOutList, Val.wrapOut, v1, w1]

/-- A wrapped function of scalar-valued tensors that returns a tuple of tensors. -/
theorem tuple_call {hook : UnwrapHook α} (hh : PlainHook hook) {ops : List (Operand α)} (hg : GoodOps ops)
    (hst : stens ops ≠ []) {fn : Fn α} {R : List (Ten α) → List (Ten α)}
    (hfn : ∀ ts, List.Forall₂ (AlignedOp (callMdp ops) (maxEv ops)) ops ts →
      fn ⟨ts.map Val.torch, []⟩ = .ok (.tup ((R ts).map Val.torch)) ∧
        ∀ r ∈ R ts, r.shape = (callMdp ops).map Plate.n) :
    ∃ ts ws, List.Forall₂ (AlignedOp (callMdp ops) (maxEv ops)) ops ts ∧
      handleDet hook false false {} fn (opArgs ops) = .ok (.tup (ws.map (fun w => Val.st w false))) ∧
      List.Forall₂ (fun w r => w.ten = r ∧ w.plates = callPlates ops ∧ w.WF ∧ w.eventShape = []) ws (R ts) := by
  obtain ⟨ts, h1, h2⟩ := prepare_ops hh hg
  obtain ⟨f1, f2⟩ := hfn ts h2
  have hpos : ∀ p ∈ callPlates ops, 1 ≤ p.n := by
    intro p hp
    obtain ⟨a, ha, hpa⟩ := mem_callPlates hp
    exact (hg.wf a ha).pos p hpa
  obtain ⟨ws, w1, w2⟩ := wrapOutList_torch hg.names hpos (R ts) f2
  refine ⟨ts, ws, h2, ?_, w2⟩
  rw [handleDet]
  simp only [Bool.false_eq_true, if_false, h1]
  have : (stens ops).isEmpty = false := by
    rw [List.isEmpty_eq_false_iff]; exact hst
  simp only [this, Bool.false_eq_true, if_false, f1]
  have hfl : (callPlates ops).filter (fun q => !decide (q.name ∈ ([] : List String))) =
      callPlates ops := by simp
  rw [hfl]
  simp [Val.wrapOut, w1]

omit [ValEq α] in
theorem sample_scalar {w : STen α} (h : w.eventShape = []) (ι : String → Nat) :
    w.sample ι [] = w.ten.get (w.multiDimPlates.map (fun p => ι p.name)) := by
  rw [STen.sample, h]
  simp [Ten.bidx]

omit [ValEq α] in
/-- Changing the coordinate of one plate. -/
theorem set_coord {M : List (Plate α)} (hn : (M.map Plate.name).Nodup) {L1 L2 : List (Plate α)} {p : Plate α}
    (hM : M = L1 ++ p :: L2) (ι : String → Nat) (v : Nat) :
    (M.map (fun q => ι q.name)).getD L1.length 0 = ι p.name ∧
      (M.map (fun q => ι q.name)).set L1.length v = M.map (fun q => Function.update ι p.name v q.name) := by
  subst hM
  simp only [List.map_append, List.map_cons, List.nodup_append, List.nodup_cons] at hn
  obtain ⟨_, ⟨h2, _⟩, h3⟩ := hn
  refine ⟨by simp [List.getD], ?_⟩
  simp only [List.map_append, List.map_cons, Function.update_self]
  rw [List.set_append_right _ _ (by simp)]
  simp only [List.length_map, Nat.sub_self, List.set_cons_zero]
  congr 1
  · apply List.map_congr_left
    intro q hq
    rw [Function.update_of_ne]
    exact h3 _ (List.mem_map_of_mem hq) _ (by simp)
  · congr 1
    apply List.map_congr_left
    intro q hq
    rw [Function.update_of_ne]
    exact fun e => h2 (e ▸ List.mem_map_of_mem hq)

omit [ValEq α] in
theorem set_shape {L1 L2 : List (Plate α)} {p : Plate α} (n : Nat) :
    ((L1 ++ p :: L2).map Plate.n).set L1.length n = L1.map Plate.n ++ n :: L2.map Plate.n := by
  simp only [List.map_append, List.map_cons]
  rw [List.set_append_right _ _ (by simp)]
  simp

/-- The log-probability that `ARM.estimator` returns: zero for the antithetic half. -/
def armLp [Zero α] (logD : α → α → α) (own : Plate α) (logits : Operand α) (t : STen α) (ι : String → Nat) : α :=
  if ι own.name < own.n / 2 then logD (t.sample ι []) (logits.at ι) else 0

/-- The baseline of `ARM`: the average over the sample and its antithetic partner. -/
def armBase [Add α] [Mul α] [Zero α] (half : α) (own : Plate α) (cost : (String → Nat) → α) (ι : String → Nat) : α :=
  if ι own.name < own.n / 2 then
    half * (cost ι + cost (Function.update ι own.name (ι own.name + own.n / 2))) else 0

/-- `comp_estimator` (arm.py:68-81). -/
theorem armCall [CommRing α] {hook : UnwrapHook α} (hh : PlainHook hook) {pool : List (Plate α)} (hp : PoolOK pool)
    (logD : α → α → α) (half : α) {np rc : STen α} {logits : Operand α} (hnp : ScalarOp pool (.st np true))
    (hrc : ScalarOp pool (.st rc false)) (hl : ScalarOp pool logits) (hrs : ∀ p ∈ rc.plates, p ∈ np.plates)
    (hsr : ∀ p ∈ np.multiDimPlates, p ∈ rc.plates) (hls : ∀ p ∈ logits.plates, p ∈ np.plates)
    {own : Plate α} (ho : own ∈ np.plates) (hol : own ∉ logits.plates) {n : Nat} (hn : own.n = 2 * n) (hn1 : 1 ≤ n) :
    ∃ index lp b, np.plateDimIndex own.name = .ok index ∧
      handleDet hook false false {} (armFn logD half index (own.n / 2))
        (opArgs [.st np true, .st rc false, logits]) = .ok (.tup [.st lp false, .st b false]) ∧
      ScalarOp pool (.st lp false) ∧ lp.plates = np.plates ∧ (∀ ι, lp.sample ι [] = armLp logD own logits np ι) ∧
      ScalarOp pool (.st b false) ∧ b.plates = np.plates ∧
      ∀ ι, b.sample ι [] = armBase half own (fun ι => rc.sample ι []) ι := by
  set ops : List (Operand α) := [.st np true, .st rc false, logits] with hops
  have hall : ∀ o ∈ ops, ScalarOp pool o := by
    intro o ho
    simp only [hops, List.mem_cons, List.not_mem_nil, or_false] at ho
    rcases ho with rfl | rfl | rfl
    exacts [hnp, hrc, hl]
  have hg := goodOps_pool hp hall
  have hE : maxEv ops = 0 := maxEv_scalar hall
  have hcp : callPlates ops = np.plates := by
    rw [callPlates_st, hops]
    simp only [List.map_cons, List.map_nil, List.foldl_cons, List.foldl_nil, Operand.plates]
    rw [addPlates_self np.plates hnp.1.names [] (by simp), List.nil_append,
      addPlates_sub _ _ (fun p hm => Plate.isIn_of_mem (hrs p hm))]
    exact addPlates_sub _ _ (fun p hm => Plate.isIn_of_mem (hls p hm))
  have hM : callMdp ops = np.multiDimPlates := by rw [callMdp, hcp]; rfl
  have hown : own ∈ np.multiDimPlates := List.mem_filter.2 ⟨ho, by simp; omega⟩
  have hnd : (np.multiDimPlates.map Plate.name).Nodup := hnp.1.names.sublist (List.filter_sublist.map _)
  obtain ⟨L1, L2, hL⟩ := List.append_of_mem hown
  have hnd' := hnd
  rw [hL] at hnd'
  simp only [List.map_append, List.map_cons, List.nodup_append, List.nodup_cons] at hnd'
  have hidx : np.plateDimIndex own.name = .ok L1.length := by
    rw [STen.plateDimIndex, hL, indexBy_name]
    intro hm
    exact hnd'.2.2 _ hm _ (by simp) rfl
  have hhalf : own.n / 2 = n := by omega
  -- the shapes the function sees
  have hall1 : ∀ (a : STen α) (s : Bool) (t : Ten α), ScalarOp pool (.st a s) → (∀ p ∈ np.multiDimPlates, p ∈ a.plates) →
      AlignedOp (callMdp ops) (maxEv ops) (.st a s) t → t.shape = np.multiDimPlates.map Plate.n ∧
        ∀ ι : String → Nat, t.get (np.multiDimPlates.map (fun p => ι p.name)) = a.sample ι [] := by
    intro a s t ha hsub ⟨h1, h2⟩
    rw [hM] at h1 h2
    constructor
    · rw [h1, ha.2.1, hE]
      simp only [Nat.zero_sub, List.replicate_zero, List.append_nil, pdims]
      apply List.map_congr_left
      intro p hm
      rw [if_pos (Plate.isIn_of_mem (hsub p hm))]
    · intro ι
      have := h2 ι [] (by rw [hE]; rfl)
      rw [List.append_nil] at this
      rw [this, sample_scalar ha.2.1]
      simp
  -- the logits broadcast to the first half
  have hlog : ∀ l, AlignedOp (callMdp ops) (maxEv ops) logits l →
      Ten.bshapes [(np.multiDimPlates.map Plate.n).set L1.length n, l.shape] =
        some ((np.multiDimPlates.map Plate.n).set L1.length n) ∧
      ∀ ι : String → Nat, l.get (Ten.bidx l.shape ((np.multiDimPlates.map (fun p => ι p.name)).drop
        ((np.multiDimPlates.map (fun p => ι p.name)).length - l.ndim))) = logits.at ι := by
    intro l hal
    have s1 : ∀ s, logits = .torch s → s.ndim ≤ maxEv ops := by
      rintro s rfl
      have : s.shape = [] := hl
      rw [Ten.ndim, this]; simp
    have s2 : ∀ a s, logits = .st a s → Covers (callMdp ops) a := by
      rintro a s rfl
      exact hg.covers (mem_stens.2 ⟨s, by simp [hops]⟩)
    have s3 : ∀ a s, logits = .st a s → a.eventDims ≤ maxEv ops := by
      rintro a s rfl
      rw [STen.eventDims, hl.2.1]; simp
    refine ⟨?_, ?_⟩
    · obtain ⟨a1, a2⟩ := aligned_shape hal s1 s3
      rw [hE, Nat.add_zero, hM] at a1 a2
      apply bshapes_fit
      · simpa using a2
      · simp only [List.length_set, List.length_map]
        rw [a1, hL, set_shape]
        have hev : logits.evShape 0 = [] := by
          cases logits with
          | st a s => simp only [Operand.evShape, hl.2.1]; simp
          | torch s =>
            have : s.shape = [] := hl
            simp [Operand.evShape, this]
        rw [hev, List.append_nil]
        simp only [pdims, List.map_append, List.map_cons]
        have hf : ∀ (L : List (Plate α)), List.Forall₂ (fun d' d => d' = 1 ∨ d' = d)
            (L.map (fun p => if logits.hasPlate p = true then p.n else 1)) (L.map Plate.n) := by
          intro L
          induction L with
          | nil => exact .nil
          | cons q L ih =>
            refine .cons ?_ ih
            by_cases hq : logits.hasPlate q = true
            · exact .inr (if_pos hq)
            · exact .inl (if_neg hq)
        refine List.rel_append (hf L1) (.cons (.inl ?_) (hf L2))
        rw [if_neg]
        cases logits with
        | torch s => simp [Operand.hasPlate]
        | st a s =>
          simp only [Operand.hasPlate, Plate.isIn_iff]
          rintro ⟨y, hy, he⟩
          exact hol (pool_eq hp (hl.2.2 y hy) (hnp.2.2 own ho) (Plate.pyEq_name he) ▸ hy)
    · intro ι
      have := aligned_get hal s1 s2 s3 ι [] (by rw [hE]; rfl)
      rw [List.append_nil, hM] at this
      exact this
  set R : List (Ten α) → List (Ten α) := fun ts => match ts with
    | [z, c, l] => [⟨z.shape, fun idx => if idx.getD L1.length 0 < n then
          logD (z.get idx) (l.get (Ten.bidx l.shape (idx.drop (idx.length - l.ndim)))) else 0⟩,
        ⟨c.shape, fun idx => if idx.getD L1.length 0 < n then
          half * (c.get idx + c.get (idx.set L1.length (idx.getD L1.length 0 + n))) else 0⟩]
    | _ => [] with hR
  obtain ⟨ts, ws, t1, t2, t3⟩ := tuple_call hh hg (by simp [hops, stens]) (fn := armFn logD half L1.length (own.n / 2))
      (R := R) (by
    intro ts hts
    rw [hops] at hts
    cases hts with
    | cons hz hts =>
      cases hts with
      | cons hc hts =>
        cases hts with
        | cons hl' hts =>
          cases hts
          rename_i z c l
          obtain ⟨z1, z2⟩ := hall1 np true z hnp (fun p hm => (List.mem_filter.1 hm).1) hz
          obtain ⟨c1, c2⟩ := hall1 rc false c hrc hsr hc
          obtain ⟨l1, l2⟩ := hlog l hl'
          refine ⟨?_, ?_⟩
          · simp only [armFn, List.map_cons, List.map_nil]
            rw [if_pos, hhalf]
            · rfl
            · rw [z1, c1, hhalf]
              refine ⟨?_, ?_, l1⟩ <;> rw [hL] <;> simp [hn]
          · intro r hr
            simp only [hR, List.mem_cons, List.not_mem_nil, or_false] at hr
            rw [hM]
            rcases hr with rfl | rfl
            exacts [z1, c1])
  rw [hops] at t1
  cases t1 with
  | cons hz t1 =>
    cases t1 with
    | cons hc t1 =>
      cases t1 with
      | cons hl' t1 =>
        cases t1
        rename_i z c l
        simp only [hR] at t3
        cases t3 with
        | cons w1 t3 =>
          cases t3 with
          | cons w2 t3 =>
            cases t3
            rename_i lp b
            obtain ⟨z1, z2⟩ := hall1 np true z hnp (fun p hm => (List.mem_filter.1 hm).1) hz
            obtain ⟨c1, c2⟩ := hall1 rc false c hrc hsr hc
            obtain ⟨l1, l2⟩ := hlog l hl'
            obtain ⟨a1, a2, a3, a4⟩ := w1
            obtain ⟨b1, b2, b3, b4⟩ := w2
            rw [hcp] at a2 b2
            have hma : lp.multiDimPlates = np.multiDimPlates := by rw [STen.multiDimPlates, a2]; rfl
            have hmb : b.multiDimPlates = np.multiDimPlates := by rw [STen.multiDimPlates, b2]; rfl
            refine ⟨L1.length, lp, b, hidx, ?_, ⟨a3, a4, by rw [a2]; exact hnp.2.2⟩, a2, ?_,
              ⟨b3, b4, by rw [b2]; exact hnp.2.2⟩, b2, ?_⟩
            · rw [t2]; rfl
            · intro ι
              rw [sample_scalar a4, a1, hma]
              simp only [(set_coord hnd hL ι 0).1, armLp, hhalf]
              rw [z2, l2]
            · intro ι
              rw [sample_scalar b4, b1, hmb]
              simp only [(set_coord hnd hL ι 0).1, armBase, hhalf]
              rw [(set_coord hnd hL ι _).2, c2, c2]

/-- What `ARM` contributes for a scalar variable: the log-probability of the first half of the samples and the
control variate `(1 - magic_box(log_prob)) * baseline`. -/
theorem arm_contributes_torch [CommRing α] [Autograd α] {hook : UnwrapHook α} (hh : PlainHook hook)
    {pool : List (Plate α)} (hp : PoolOK pool) {c t : STen α} (hw : TorchWeights (missingPlates c t))
    (hc : CostOK pool c) (hg : ParentsAllOrNone c.multiDimPlates) (ht : ParentOK pool t) (hev : t.eventShape = [])
    (htc : ∀ p ∈ t.multiDimPlates, p ∈ c.plates) (hone : ∀ p ∈ c.plates, p.n = 1 → p ∈ t.plates)
    (logD : α → α → α) (half : α) {logits : Operand α} (hl : ScalarOp pool logits)
    (hls : ∀ p ∈ logits.plates, p ∈ t.plates) {own : Plate α} (ho : own ∈ t.plates) (hol : own ∉ logits.plates)
    {n : Nat} (hn : own.n = 2 * n) (hn1 : 1 ≤ n) :
    Contributes hook pool c (armSampled hook logD half own.name logits t)
      ⟨t.plates.map Plate.name, armLp logD own logits t,
        some (t.plates.map Plate.name ++ t.plates.map Plate.name, fun ι =>
          (1 - boxElt (armLp logD own logits t ι)) * armBase half own (seenCost c t) ι)⟩ := by
  obtain ⟨rc, np, r1, n1, n2, r2, r3, r4⟩ := before_estimator_torch hh hp hw hc hg ht
  have hnp : ScalarOp pool (.st np true) :=
    ⟨n2.wf, n2.event.trans hev, fun p hm => ht.sub p ((n2.plates p).1 hm)⟩
  have hmiss : ∀ p ∈ c.plates, 1 < p.n → p ∉ missingPlates c t → p ∈ t.plates := by
    intro p hm h1 hnm
    by_contra hne
    apply hnm
    refine List.mem_filter.2 ⟨List.mem_filter.2 ⟨hm, by simpa using h1⟩, ?_⟩
    have : ¬ p.isInMethod t.multiDimPlates = true := by
      rw [isInMethod_pool (ps := t.multiDimPlates) hp (fun q hq => ht.sub q (List.mem_filter.1 hq).1) (hc.scalar.sub p hm)]
      exact fun h => hne (List.mem_filter.1 h).1
    simpa using this
  obtain ⟨index, lp, b, i1, i2, l1, l2, l3, b1, b2, b3⟩ := armCall hh hp logD half (np := np) (rc := rc)
    (logits := logits) hnp r2 hl
    (by
      intro p hm
      rw [n2.plates p]
      obtain ⟨h1, h2⟩ := (r3 p).1 hm
      have := hc.scalar.1.pos p h1
      by_cases h3 : p.n = 1
      · exact hone p h1 h3
      · exact hmiss p h1 (by omega) h2)
    (by
      intro p hm
      obtain ⟨h1, h2⟩ := List.mem_filter.1 hm
      have hpt : p ∈ t.multiDimPlates := List.mem_filter.2 ⟨(n2.plates p).1 h1, h2⟩
      refine (r3 p).2 ⟨htc p hpt, ?_⟩
      intro hmm
      have := (List.mem_filter.1 hmm).2
      rw [(isInMethod_pool (ps := t.multiDimPlates) hp (fun q hq => ht.sub q (List.mem_filter.1 hq).1)
        (ht.sub p (List.mem_filter.1 hpt).1)).2 hpt] at this
      cases this)
    (fun p hm => (n2.plates p).2 (hls p hm)) ((n2.plates own).2 ho) hol hn hn1
  have hlp : OpIs pool (.st lp false) (t.plates.map Plate.name) (armLp logD own logits t) :=
    opIs_logProb hp ht l1 (fun p => by rw [l2, n2.plates p]) (fun ι => by
      rw [l3 ι, armLp, armLp, n2.values])
  have hb : OpIs pool (.st b false) (t.plates.map Plate.name) (armBase half own (seenCost c t)) :=
    opIs_logProb hp ht b1 (fun p => by rw [b2, n2.plates p]) (fun ι => by
      rw [b3 ι, show (fun ι => rc.sample ι []) = seenCost c t from funext r4])
  obtain ⟨bx, x1, x2, x3⟩ := magicBox_is hh hp hlp
  obtain ⟨cv, v1, v2, v3⟩ := opCall_pair hh hp oneMinusElts x2 hb
  have hst : ∃ t s, cv = .st t s := by
    obtain ⟨x, hx⟩ := v3 (Or.inr ⟨b, false, rfl⟩)
    exact ⟨x, false, hx⟩
  refine Or.inr ⟨rc, np, some (.st lp false), some cv, r1, n1, ?_, rfl, hlp, ⟨v2, hst⟩⟩
  simp only [armSampled, armEstimator, getPlate_of_mem n2.wf.names ((n2.plates own).2 ho), i1, i2, x1, v1]

theorem arm_contributes [CommRing α] [Autograd α] {hook : UnwrapHook α} (hh : PlainHook hook)
    {pool : List (Plate α)} (hp : PoolOK pool) (hw : TorchWeights pool) {c t : STen α}
    (hc : CostOK pool c) (hg : ParentsAllOrNone c.multiDimPlates) (ht : ParentOK pool t) (hev : t.eventShape = [])
    (htc : ∀ p ∈ t.multiDimPlates, p ∈ c.plates) (hone : ∀ p ∈ c.plates, p.n = 1 → p ∈ t.plates)
    (logD : α → α → α) (half : α) {logits : Operand α} (hl : ScalarOp pool logits)
    (hls : ∀ p ∈ logits.plates, p ∈ t.plates) {own : Plate α} (ho : own ∈ t.plates) (hol : own ∉ logits.plates)
    {n : Nat} (hn : own.n = 2 * n) (hn1 : 1 ≤ n) :
    Contributes hook pool c (armSampled hook logD half own.name logits t)
      ⟨t.plates.map Plate.name, armLp logD own logits t,
        some (t.plates.map Plate.name ++ t.plates.map Plate.name, fun ι =>
          (1 - boxElt (armLp logD own logits t ι)) * armBase half own (seenCost c t) ι)⟩ :=
  arm_contributes_torch hh hp (hw.missing hc) hc hg ht hev htc hone logD half hl hls ho hol hn hn1

end Storch
