import Verif.Model.Relax
import Verif.Lemmas.OnesLemmas
import Verif.Lemmas.ArmLemmas

/-! `log_prob.sum(log_prob.event_dim_indices)`, and what `RELAX` contributes to the surrogate loss. -/

namespace Storch
variable {α : Type _} [ValEq α]

/-! ### The sum over the event dimensions -/

theorem collect_others : ∀ (l : List Nat) (c : Coll α) (m : Nat),
    collectList (l.map (fun i => Val.other i)) c m = (c, m) := by
  intro l
  induction l with
  | nil => intro c m; rfl
  | cons a l ih =>
    intro c m
    rw [List.map_cons, collectList]
    simp only [Val.collect, Nat.max_zero]
    exact ih c m

theorem unwrap_others (hook : UnwrapHook α) : ∀ (l : List Nat) cfg mdp ed,
    unwrapList hook cfg mdp ed (l.map (fun i => Val.other i)) = .ok (l.map (fun i => Val.other i)) := by
  intro l cfg mdp ed
  induction l with
  | nil => rfl
  | cons a l ih => rw [List.map_cons, unwrapList, Val.unwrap, ih]

/-- A method call whose other argument is a list of numbers. -/
theorem handleDet_indices {hook : UnwrapHook α} (hh : PlainHook hook) {t : STen α} (h : Proper t) (l : List Nat)
    (fn : Fn α) (out : Val α) (hfn : fn ⟨[.torch t.ten, .lst (l.map (fun i => .other i))], []⟩ = .ok out) :
    handleDet hook false false {} fn ⟨[.st t false, .lst (l.map (fun i => .other i))], []⟩ =
      out.wrapOut t.plates false := by
  have hcall := handleDet_single hh h false true [] [.lst (l.map (fun i => .other i))] [.lst (l.map (fun i => .other i))]
    (fun c m => by
      rw [collectList]
      simp only [Val.collect, collect_others, collectList, Nat.max_zero])
    (fun cfg mdp ed => by
      rw [unwrapList, Val.unwrap, unwrap_others]
      rfl) fn out hfn
  simpa using hcall

omit [ValEq α] in
theorem indices_map (d k : Nat) : (List.range k).map (fun i => (Val.other (d + i) : Val α)) =
    ((List.range k).map (d + ·)).map (fun i => Val.other i) := by
  rw [List.map_map]; rfl

/-- With event dimensions, they are summed out. -/
theorem sumIndices_event [AddCommMonoid α] {hook : UnwrapHook α} (hh : PlainHook hook) {t : STen α}
    (h : Proper t) (hev : t.eventShape ≠ []) :
    ∃ r, sumIndices hook t = .ok r ∧ Proper r ∧ r.plates = t.plates ∧ r.eventShape = [] ∧
      ∀ ι, r.sample ι [] = ((allIdx t.eventShape).map (fun e => t.sample ι e)).sum := by
  obtain ⟨r, r1, r2, r3, r4, r5⟩ := sumEvents_spec hh h t.eventShape 0 (by simp)
  have hsh : t.ten.shape = t.multiDimPlates.map Plate.n ++ (t.eventShape ++ []) := by
    rw [List.append_nil]; exact h.wf.shape
  have hd : t.plateDims = (t.multiDimPlates.map Plate.n).length := by
    rw [h.wf.dims, List.length_map]
  obtain ⟨x, x1, x2, x3⟩ := sumBlock_spec _ _ t.eventShape t.ten hsh
  rw [← hd] at x1
  have hne : ∃ a l, (List.range t.eventDims).map (t.plateDims + ·) = a :: l := by
    have hl : t.eventDims ≠ 0 := by
      rw [STen.eventDims]; intro e; exact hev (List.eq_nil_of_length_eq_zero e)
    cases hm : (List.range t.eventDims).map (t.plateDims + ·) with
    | nil => simp [hl] at hm
    | cons a l => exact ⟨a, l, rfl⟩
  refine ⟨r, ?_, r2, r3, by simpa using r4, ?_⟩
  · rw [← r1, sumIndices, indices_map, indices_map,
      handleDet_indices hh h _ _ (.torch x) ?_, handleDet_indices hh h _ _ (.torch x) ?_]
    · simp only [sumBlockFn, x1]
    · obtain ⟨a, l, e⟩ := hne
      rw [e]
      simp only [sumIndicesFn, List.map_cons]
      rw [show t.eventDims = t.eventShape.length from rfl]
      simp only [x1]
  · intro ι
    rw [r5 ι [] .nil]
    simp

/-- Without event dimensions and without plates of several samples, the number itself. -/
theorem sumIndices_number [AddCommMonoid α] {hook : UnwrapHook α} (hh : PlainHook hook) {t : STen α}
    (h : Proper t) (hev : t.eventShape = []) (hm : t.multiDimPlates = []) :
    ∃ r, sumIndices hook t = .ok r ∧ Proper r ∧ r.plates = t.plates ∧ r.eventShape = [] ∧
      ∀ ι, r.sample ι [] = t.sample ι [] := by
  have hsh : t.ten.shape = [] := by rw [h.wf.shape, hev, hm]; rfl
  have hk : t.eventDims = 0 := by rw [STen.eventDims, hev]; rfl
  obtain ⟨r, a1, a2, a3, a4, a5⟩ := checkPlates_ok_of h.wf.names h.wf.pos (.scalar ((allIdx t.ten.shape).map t.ten.get).sum)
    [] (by
      have : t.plates.filter (fun p => decide (1 < p.n)) = [] := hm
      rw [this]; rfl)
  refine ⟨r, ?_, ⟨a4, by rw [a3]; exact h.plain⟩, a3, a5, ?_⟩
  · rw [sumIndices, indices_map, handleDet_indices hh h _ _ (.torch (.scalar ((allIdx t.ten.shape).map t.ten.get).sum))
      (by rw [hk]; rfl)]
    rw [Val.wrapOut]
    simp only [Bool.false_eq_true, if_false, a1, asSt]
  · intro ι
    rw [sample_scalar a5, sample_scalar hev, a2, STen.multiDimPlates, a3]
    have : t.plates.filter (fun p => decide (1 < p.n)) = [] := hm
    rw [this, hm, hsh]
    simp [allIdx, Ten.scalar]

/-- Without event dimensions but with a plate of several samples, torch sums over everything, and wrapping the number
in the plates raises an error. -/
theorem sumIndices_raises [AddCommMonoid α] {hook : UnwrapHook α} (hh : PlainHook hook) {t : STen α}
    (h : Proper t) (hev : t.eventShape = []) (hm : t.multiDimPlates ≠ []) :
    ∃ e, sumIndices hook t = .error e := by
  have hk : t.eventDims = 0 := by rw [STen.eventDims, hev]; rfl
  rw [sumIndices, indices_map, handleDet_indices hh h _ _ (.torch (.scalar ((allIdx t.ten.shape).map t.ten.get).sum))
      (by rw [hk]; rfl)]
  rw [Val.wrapOut]
  simp only [Bool.false_eq_true, if_false]
  cases hmk : STen.mk' (.scalar ((allIdx t.ten.shape).map t.ten.get).sum) t.plates with
  | error e => exact ⟨e, rfl⟩
  | ok r =>
    exfalso
    rw [STen.mk'] at hmk
    cases hc : STen.checkPlates (Ten.scalar ((allIdx t.ten.shape).map t.ten.get).sum).shape t.plates [] 0 with
    | error e => rw [hc] at hmk; cases hmk
    | ok d =>
      obtain ⟨-, -, h3, -⟩ := (checkPlates_ok_iff _ _ _ _ _).1 hc
      have h4 : (t.plates.filter (fun p => decide (p.n ≠ 1))).map Plate.n = [] := by
        have : (Ten.scalar ((allIdx t.ten.shape).map t.ten.get).sum).shape.drop 0 = [] := rfl
        rw [this] at h3
        exact List.prefix_nil.1 h3
      obtain ⟨p, hp⟩ := List.exists_mem_of_ne_nil _ hm
      obtain ⟨hp1, hp2⟩ := List.mem_filter.1 hp
      have : p ∈ t.plates.filter (fun p => decide (p.n ≠ 1)) := by
        refine List.mem_filter.2 ⟨hp1, ?_⟩
        simp only [decide_eq_true_eq] at hp2 ⊢
        omega
      rw [List.map_eq_nil_iff.1 h4] at this
      cases this

/-! ### The control variate -/

/-- The value of the control variate from the values of the log-probability and the two control networks. -/
def relaxCv [CommRing α] [Autograd α] (eta lp z zt : α) : α :=
  eta * z - Autograd.detach (eta * z) - eta * zt + (2 - boxElt lp) * Autograd.detach (eta * zt)

theorem OnesIs.rename {pool : List (Plate α)} {o : Operand α} {k : Nat} {ns ns' : List String}
    {v v' : (String → Nat) → α} (h : OnesIs pool o k ns v) (hn : ∀ s, s ∈ ns ↔ s ∈ ns') (hv : ∀ ι, v ι = v' ι) :
    OnesIs pool o k ns' v' :=
  ⟨h.ones, h.ev, h.closed, fun p hm => (h.names p hm).trans (hn _), fun ι => (h.val ι).trans (hv ι)⟩

/-- `RELAX.estimator` after `compute_estimator` (relax.py:326-333). -/
theorem relaxCombine_ok [CommRing α] [Autograd α] {hook : UnwrapHook α} (hh : PlainHook hook) {pool : List (Plate α)}
    (hp : PoolOK pool) {eta : α} {lp0 lp cz ct : STen α} {k : Nat} {ns : List String} {vl vz vt : (String → Nat) → α}
    (hs : sumIndices hook lp0 = .ok lp) (hl : OpIs pool (.st lp false) ns vl) (hz : OnesIs pool (.st cz false) k ns vz)
    (ht : OnesIs pool (.st ct false) k ns vt) :
    ∃ cv, relaxCombine hook (.torch (.scalar eta)) (lp0, .st cz false, .st ct false) =
        .ok (some (.st lp false), some (.st cv false)) ∧
      OnesIs pool (.st cv false) k ns (fun ι => relaxCv eta (vl ι) (vz ι) (vt ι)) := by
  have he : OnesIs pool (.torch (.scalar eta)) 0 [] (fun _ => eta) :=
    ⟨rfl, rfl, fun p hm => (by cases hm), fun p _ => (by simp [Operand.plates]), fun _ => rfl⟩
  obtain ⟨a, a1, a2⟩ := ones_pair hh hp List.prod he hz (Or.inr ⟨_, _, rfl⟩)
  obtain ⟨b, b1, b2⟩ := ones_pair hh hp List.prod he ht (Or.inr ⟨_, _, rfl⟩)
  obtain ⟨d, d1, d2⟩ := ones_single hh hp detachElts a2 ⟨_, _, rfl⟩
  obtain ⟨f, f1, f2⟩ := ones_pair hh hp subElts a2 d2 (Or.inl ⟨_, _, rfl⟩)
  obtain ⟨g, g1, g2⟩ := ones_pair hh hp subElts f2 b2 (Or.inl ⟨_, _, rfl⟩)
  obtain ⟨x, x1, x2, x3⟩ := magicBox_is hh hp hl
  obtain ⟨y, y1, y2⟩ := ones_single hh hp detachElts b2 ⟨_, _, rfl⟩
  obtain ⟨m, m1, m2⟩ := ones_pair hh hp twoMinusElts (ones_of_opIs x2) y2 (Or.inr ⟨_, _, rfl⟩)
  obtain ⟨cv, c1, c2⟩ := ones_pair hh hp List.sum g2 m2 (Or.inl ⟨_, _, rfl⟩)
  refine ⟨cv, ?_, ?_⟩
  · simp only [relaxCombine, a1, b1, hs, d1, f1, g1, x1, y1, m1, c1]
  · have h1 : max (max (max (max 0 k) (max 0 k)) (max 0 k)) (max 0 (max 0 k)) = k := by simp
    rw [h1] at c2
    refine c2.rename (by intro s; simp) ?_
    intro ι
    simp [subElts, detachElts, twoMinusElts, relaxCv]

/-- Summing the log-probability raises an error, and so does the estimator. -/
theorem relaxCombine_raises [CommRing α] [Autograd α] {hook : UnwrapHook α} {lp0 : STen α} {eta cz ct : Operand α}
    (h : ∃ e, sumIndices hook lp0 = .error e) : ∃ e, relaxCombine hook eta (lp0, cz, ct) = .error e := by
  obtain ⟨e, he⟩ := h
  simp only [relaxCombine, he]
  cases opCall hook List.prod [eta, cz] with
  | error e => exact ⟨e, rfl⟩
  | ok a =>
    cases opCall hook List.prod [eta, ct] with
    | error e => exact ⟨e, rfl⟩
    | ok b => exact ⟨e, rfl⟩

omit [ValEq α] in
/-- The plate of the variable is found. -/
theorem relaxIndex_ok {t : STen α} (h : t.WF) {own : Plate α} (ho : own ∈ t.plates) :
    ∃ i, relaxIndex own.name t = .ok (own, i) ∧ (∀ L1 L2, t.multiDimPlates = L1 ++ own :: L2 → i = some L1.length) := by
  rw [relaxIndex, getPlate_of_mem h.names ho]
  by_cases h1 : 1 < own.n
  · have hown : own ∈ t.multiDimPlates := List.mem_filter.2 ⟨ho, by simpa using h1⟩
    have hidx : ∀ L1 L2, t.multiDimPlates = L1 ++ own :: L2 → t.plateDimIndex own.name = .ok L1.length := by
      intro L1 L2 hL
      have hnd' : (t.multiDimPlates.map Plate.name).Nodup := h.names.sublist (List.filter_sublist.map _)
      rw [hL] at hnd'
      simp only [List.map_append, List.map_cons, List.nodup_append, List.nodup_cons] at hnd'
      rw [STen.plateDimIndex, hL, indexBy_name]
      intro hm
      exact hnd'.2.2 _ hm _ (by simp) rfl
    obtain ⟨L1, L2, hL⟩ := List.append_of_mem hown
    refine ⟨some L1.length, ?_, ?_⟩
    · simp only [if_pos h1, hidx L1 L2 hL]
    · intro K1 K2 hK
      have := (hidx L1 L2 hL).symm.trans (hidx K1 K2 hK)
      injection this with this
      rw [this]
  · refine ⟨none, by simp only [if_neg h1], ?_⟩
    intro L1 L2 hL
    have : own ∈ t.multiDimPlates := by rw [hL]; simp
    have := (List.mem_filter.1 this).2
    simp only [decide_eq_true_eq] at this
    exact absurd this h1

/-- The functions that `RELAX` calls, on tensors with the values of the sample `t`: the hard sample, the conditional
sample given the hard sample, and the control network, which gives one number per sample. -/
structure RelaxOK (pool : List (Plate α)) (t hard ztilde : STen α) (disc cond : STen α → Except Err (STen α))
    (cPhi : STen α → Except Err (Operand α)) (vz vt : (String → Nat) → α) : Prop where
  disc : ∀ x, SameValues x t → ∃ y, disc x = .ok y ∧ SameValues y hard
  cond : ∀ x, SameValues x hard → ∃ y, cond x = .ok y ∧ SameValues y ztilde
  plates : ∀ p, p ∈ hard.plates ↔ p ∈ t.plates
  relaxed : ∀ x, SameValues x t → ∃ o, cPhi x = .ok (.st o false) ∧ OpIs pool (.st o false) (t.plates.map Plate.name) vz
  tilde : ∀ x, SameValues x ztilde → ∃ o, cPhi x = .ok (.st o false) ∧ OpIs pool (.st o false) (t.plates.map Plate.name) vt

theorem relaxParts_ok {pool : List (Plate α)} {t hard ztilde : STen α}
    {disc cond : STen α → Except Err (STen α)} {cPhi : STen α → Except Err (Operand α)} {vz vt : (String → Nat) → α}
    (hr : RelaxOK pool t hard ztilde disc cond cPhi vz vt) {logProb : STen α → Except Err (STen α)} {es : List Nat}
    {G : (String → Nat) → List Nat → α} (hl : LogProbOK hard logProb es G) {x : STen α} (hx : SameValues x t) :
    ∃ lp cz ct, relaxParts disc cond cPhi logProb x = .ok (lp, .st cz false, .st ct false) ∧
      lp.WF ∧ (∀ p, p ∈ lp.plates ↔ p ∈ t.plates) ∧ lp.eventShape = es ∧
      (∀ ι e, Ten.InB e es → lp.sample ι e = G ι e) ∧
      OpIs pool (.st cz false) (t.plates.map Plate.name) vz ∧ OpIs pool (.st ct false) (t.plates.map Plate.name) vt := by
  obtain ⟨h, h1, h2⟩ := hr.disc x hx
  obtain ⟨z, z1, z2⟩ := hr.cond h h2
  obtain ⟨cz, c1, c2⟩ := hr.relaxed x hx
  obtain ⟨ct, d1, d2⟩ := hr.tilde z z2
  obtain ⟨lp, l1, l2, l3, l4, l5⟩ := hl h h2
  refine ⟨lp, cz, ct, ?_, l2, fun p => (l3 p).trans (hr.plates p), l4, l5, c2, d2⟩
  simp only [relaxParts, h1, z1, c1, d1, l1]

/-- The estimator of `RELAX` when the log-probability has event dimensions (or there is one sample). -/
theorem relax_estimator [CommRing α] [Autograd α] {hook : UnwrapHook α} (hh : PlainHook hook)
    {pool : List (Plate α)} (hp : PoolOK pool) {t hard ztilde : STen α} (ht : ParentOK pool t)
    {disc cond : STen α → Except Err (STen α)} {cPhi : STen α → Except Err (Operand α)} {vz vt : (String → Nat) → α}
    (hr : RelaxOK pool t hard ztilde disc cond cPhi vz vt) {logProb : STen α → Except Err (STen α)} {es : List Nat}
    {G : (String → Nat) → List Nat → α} (hl : LogProbOK hard logProb es G) (hes : es ≠ [] ∨ t.multiDimPlates = [])
    {own : Plate α} (ho : own ∈ t.plates) (eta : α) {x : STen α} (n2 : SameValues x t) (cost : STen α) :
    ∃ lp cv, relaxEstimator hook (.torch (.scalar eta)) disc cond cPhi logProb own.name x cost =
        .ok (some (.st lp false), some (.st cv false)) ∧
      OpIs pool (.st lp false) (t.plates.map Plate.name) (sumEvent es G) ∧
      OpIs pool (.st cv false) (t.plates.map Plate.name) (fun ι => relaxCv eta (sumEvent es G ι) (vz ι) (vt ι)) := by
  obtain ⟨lp0, cz, ct, p1, p2, p3, p4, p5, p6, p7⟩ := relaxParts_ok hr hl n2
  have hpr : Proper lp0 := ⟨p2, fun p hm => hp.plain p (ht.sub p ((p3 p).1 hm))⟩
  have hsum : ∃ r, sumIndices hook lp0 = .ok r ∧ Proper r ∧ r.plates = lp0.plates ∧ r.eventShape = [] ∧
      ∀ ι, r.sample ι [] = sumEvent es G ι := by
    by_cases he : es = []
    · have hm : lp0.multiDimPlates = [] := by
        have h1 := hes.resolve_left (by simpa using he)
        rw [STen.multiDimPlates, List.filter_eq_nil_iff] at h1 ⊢
        exact fun p hm => h1 p ((p3 p).1 hm)
      obtain ⟨r, a1, a2, a3, a4, a5⟩ := sumIndices_number hh hpr (p4.trans he) hm
      refine ⟨r, a1, a2, a3, a4, ?_⟩
      intro ι
      subst he
      rw [a5 ι, p5 ι [] .nil]
      simp [sumEvent, allIdx]
    · obtain ⟨r, a1, a2, a3, a4, a5⟩ := sumIndices_event hh hpr (by rw [p4]; exact he)
      refine ⟨r, a1, a2, a3, a4, ?_⟩
      intro ι
      rw [a5 ι, p4, sumEvent]
      congr 1
      apply List.map_congr_left
      intro e he'
      exact p5 ι e (mem_allIdx.1 he')
  obtain ⟨lp, s1, s2, s3, s4, s5⟩ := hsum
  have hlp : OpIs pool (.st lp false) (t.plates.map Plate.name) (sumEvent es G) :=
    opIs_logProb hp ht ⟨s2.wf, s4, fun p hm => ht.sub p ((p3 p).1 (s3 ▸ hm))⟩ (fun p => by rw [s3]; exact p3 p) s5
  obtain ⟨cv, v1, v2⟩ := relaxCombine_ok (eta := eta) hh hp s1 hlp (ones_of_opIs p6) (ones_of_opIs p7)
  obtain ⟨i, i1, -⟩ := relaxIndex_ok n2.wf ((n2.plates own).2 ho)
  refine ⟨lp, cv, ?_, hlp, opIs_of_ones v2⟩
  simp only [relaxEstimator, i1, p1, v1]

/-- What `RELAX` contributes. -/
theorem relax_contributes_any [CommRing α] [Autograd α] {hook : UnwrapHook α} (hh : PlainHook hook)
    {pool : List (Plate α)} (hp : PoolOK pool) (hw : Weights pool) {c t hard ztilde : STen α}
    (hc : CostOK pool c) (hg : ParentsAllOrNone c.multiDimPlates) (ht : ParentOK pool t)
    {disc cond : STen α → Except Err (STen α)} {cPhi : STen α → Except Err (Operand α)} {vz vt : (String → Nat) → α}
    (hr : RelaxOK pool t hard ztilde disc cond cPhi vz vt) {logProb : STen α → Except Err (STen α)} {es : List Nat}
    {G : (String → Nat) → List Nat → α} (hl : LogProbOK hard logProb es G) (hes : es ≠ [] ∨ t.multiDimPlates = [])
    {own : Plate α} (ho : own ∈ t.plates) (eta : α) :
    Contributes hook pool c (relaxSampled hook (.torch (.scalar eta)) disc cond cPhi logProb own.name t)
      ⟨t.plates.map Plate.name, sumEvent es G,
        some (t.plates.map Plate.name, fun ι => relaxCv eta (sumEvent es G ι) (vz ι) (vt ι))⟩ := by
  obtain ⟨rc, np, r1, n1, n2⟩ := before_estimator_any hh hp hw hc hg ht
  obtain ⟨lp, cv, v1, v2, v3⟩ := relax_estimator hh hp ht hr hl hes ho eta n2 rc
  exact Or.inr ⟨rc, np, some (.st lp false), some (.st cv false), r1, n1, v1, rfl, v2, ⟨v3, ⟨_, _, rfl⟩⟩⟩

theorem relax_contributes [CommRing α] [Autograd α] {hook : UnwrapHook α} (hh : PlainHook hook)
    {pool : List (Plate α)} (hp : PoolOK pool) (hw : TorchWeights pool) {c t hard ztilde : STen α}
    (hc : CostOK pool c) (hg : ParentsAllOrNone c.multiDimPlates) (ht : ParentOK pool t)
    {disc cond : STen α → Except Err (STen α)} {cPhi : STen α → Except Err (Operand α)} {vz vt : (String → Nat) → α}
    (hr : RelaxOK pool t hard ztilde disc cond cPhi vz vt) {logProb : STen α → Except Err (STen α)} {es : List Nat}
    {G : (String → Nat) → List Nat → α} (hl : LogProbOK hard logProb es G) (hes : es ≠ [] ∨ t.multiDimPlates = [])
    {own : Plate α} (ho : own ∈ t.plates) (eta : α) :
    Contributes hook pool c (relaxSampled hook (.torch (.scalar eta)) disc cond cPhi logProb own.name t)
      ⟨t.plates.map Plate.name, sumEvent es G,
        some (t.plates.map Plate.name, fun ι => relaxCv eta (sumEvent es G ι) (vz ι) (vt ι))⟩ :=
  relax_contributes_any hh hp hw.weights hc hg ht hr hl hes ho eta

/-- When the log-probability has no event dimensions and there is more than one sample, the estimator of `RELAX`
raises an error. -/
theorem relax_raises [CommRing α] [Autograd α] {hook : UnwrapHook α} (hh : PlainHook hook)
    {pool : List (Plate α)} (hp : PoolOK pool) {t hard : STen α} (ht : ParentOK pool t)
    (disc cond : STen α → Except Err (STen α)) (cPhi : STen α → Except Err (Operand α))
    (hd : ∀ x, SameValues x t → ∀ y, disc x = .ok y → SameValues y hard)
    (hpl : ∀ p, p ∈ hard.plates ↔ p ∈ t.plates) {logProb : STen α → Except Err (STen α)}
    {G : (String → Nat) → List Nat → α} (hl : LogProbOK hard logProb [] G) (hm : t.multiDimPlates ≠ [])
    (name : String) (eta : Operand α) {x : STen α} (hx : SameValues x t) (cost : STen α) :
    ∃ e, relaxEstimator hook eta disc cond cPhi logProb name x cost = .error e := by
  rw [relaxEstimator]
  cases relaxIndex name x with
  | error e => exact ⟨e, rfl⟩
  | ok i =>
    simp only
    cases hpa : relaxParts disc cond cPhi logProb x with
    | error e => exact ⟨e, rfl⟩
    | ok r =>
      obtain ⟨lp0, cz, ct⟩ := r
      simp only
      apply relaxCombine_raises
      have : ∃ y, SameValues y hard ∧ logProb y = .ok lp0 := by
        rw [relaxParts] at hpa
        cases hy : disc x with
        | error e => rw [hy] at hpa; cases hpa
        | ok y =>
          rw [hy] at hpa
          simp only at hpa
          refine ⟨y, hd x hx y hy, ?_⟩
          cases hz : cond y with
          | error e => rw [hz] at hpa; cases hpa
          | ok z =>
            rw [hz] at hpa
            simp only at hpa
            cases hz1 : cPhi x with
            | error e => rw [hz1] at hpa; cases hpa
            | ok a =>
              rw [hz1] at hpa
              simp only at hpa
              cases hz2 : cPhi z with
              | error e => rw [hz2] at hpa; cases hpa
              | ok b =>
                rw [hz2] at hpa
                simp only at hpa
                cases hz3 : logProb y with
                | error e => rw [hz3] at hpa; cases hpa
                | ok l =>
                  rw [hz3] at hpa
                  injection hpa with hpa
                  injection hpa with hpa
                  rw [hpa]
      obtain ⟨y, y1, y2⟩ := this
      obtain ⟨lp, l1, l2, l3, l4, l5⟩ := hl y y1
      rw [y2] at l1
      injection l1 with l1
      subst l1
      have hpl' : ∀ p, p ∈ lp0.plates ↔ p ∈ t.plates := fun p => (l3 p).trans (hpl p)
      apply sumIndices_raises hh ⟨l2, fun p hm => hp.plain p (ht.sub p ((hpl' p).1 hm))⟩ l4
      intro h0
      apply hm
      rw [STen.multiDimPlates, List.filter_eq_nil_iff] at h0 ⊢
      exact fun p hm => h0 p ((hpl' p).2 hm)

end Storch
