import Verif.Lemmas.SurrogateLemmas

/-! The loops of `surrogate_loss`. -/

namespace Storch
variable {α : Type _} [ValEq α]

/-! ### The score function -/

/-- `log_prob` computes, for the values of the stochastic tensor, a tensor over the same plates whose
value at position `ι` and event index `e` is `G ι e`. -/
def LogProbOK (parent : STen α) (logProb : STen α → Except Err (STen α))
    (es : List Nat) (G : (String → Nat) → List Nat → α) : Prop :=
  ∀ x, SameValues x parent → ∃ lp, logProb x = .ok lp ∧ lp.WF ∧ (∀ p, p ∈ lp.plates ↔ p ∈ parent.plates) ∧
    lp.eventShape = es ∧ ∀ ι e, Ten.InB e es → lp.sample ι e = G ι e

omit [ValEq α] in
theorem multiDim_length {a b : STen α} (ha : a.WF) (hb : b.WF) (h : ∀ p, p ∈ a.plates ↔ p ∈ b.plates) :
    a.plateDims = b.plateDims := by
  rw [ha.dims, hb.dims]
  apply List.Perm.length_eq
  exact ((List.perm_ext_iff_of_nodup ha.names.of_map hb.names.of_map).2 h).filter _

/-- The gradient function of the score function: the log-probability summed over the event. -/
theorem score_logProb [CommRing α] [Autograd α] {hook : UnwrapHook α} (hh : PlainHook hook)
    {pool : List (Plate α)} (hp : PoolOK pool) {parent : STen α}
    (hs : ∀ p ∈ parent.plates, p ∈ pool) {logProb : STen α → Except Err (STen α)} {es : List Nat}
    {G : (String → Nat) → List Nat → α} (hl : LogProbOK parent logProb es G) {np : STen α}
    (hn : SameValues np parent) :
    ∃ lp0 lp, logProb np = .ok lp0 ∧ (if np.plateDims < lp0.ten.ndim then
        asSt (handleDet hook false false {} (sumBlockFn np.plateDims (lp0.ten.ndim - np.plateDims))
          ⟨[.st lp0 false, .lst ((List.range (lp0.ten.ndim - np.plateDims)).map
            (fun i => .other (np.plateDims + i)))], []⟩)
      else .ok lp0) = .ok lp ∧ ScalarOp pool (.st lp false) ∧ (∀ p, p ∈ lp.plates ↔ p ∈ parent.plates) ∧
      ∀ ι, lp.sample ι [] = ((allIdx es).map (G ι)).sum := by
  obtain ⟨lp0, l1, l2, l3, l4, l5⟩ := hl np hn
  have hd : np.plateDims = lp0.plateDims :=
    multiDim_length hn.wf l2 (fun p => (hn.plates p).trans (l3 p).symm)
  have hnd : lp0.ten.ndim = lp0.plateDims + es.length := by
    rw [Ten.ndim, l2.shape, l2.dims, l4]; simp
  have hpr : Proper lp0 := ⟨l2, fun p hm => hp.plain p (hs p ((l3 p).1 hm))⟩
  have hsub : lp0.ten.ndim - np.plateDims = es.length := by omega
  rw [hd] at hsub ⊢
  by_cases hlt : lp0.plateDims < lp0.ten.ndim
  · obtain ⟨r, r1, r2, r3, r4, r5⟩ := sumEvents_spec hh hpr es 0 (by simpa using l4)
    refine ⟨lp0, r, l1, ?_, ⟨r2.wf, by simpa using r4, ?_⟩, ?_, ?_⟩
    · rw [if_pos hlt, hsub]
      exact r1
    · intro p hm; rw [r3] at hm; exact hs p ((l3 p).1 hm)
    · intro p; rw [r3]; exact l3 p
    · intro ι
      rw [r5 ι [] .nil]
      congr 1
      apply List.map_congr_left
      intro e he
      rw [List.append_nil]
      exact l5 ι e (mem_allIdx.1 he)
  · have hes : es = [] := List.eq_nil_of_length_eq_zero (by omega)
    subst hes
    refine ⟨lp0, lp0, l1, by rw [if_neg hlt], ⟨l2, l4, fun p hm => hs p ((l3 p).1 hm)⟩, l3, ?_⟩
    intro ι
    simp [allIdx, l5 ι [] .nil]

/-! ### The loop over the stochastic tensors -/

/-- What an estimator contributes: the names of the plates of its gradient function with its values, and
those of its control variate. -/
structure Est (α : Type _) where
  names : List String
  lp : (String → Nat) → α
  cv : Option (List String × ((String → Nat) → α))

/-- The plates with the given names. -/
def named (pool : List (Plate α)) (names : List String) : List (Plate α) :=
  pool.filter (fun p => decide (p.name ∈ names))

/-- The weighted total of `magic_box(l) * v` over the plates with the given names. -/
def boxTotal [CommRing α] [Autograd α] (pool : List (Plate α)) (names : List String)
    (l v : (String → Nat) → α) : α :=
  weightedTotal id (named pool names) (fun ι => boxElt (l ι) * v ι) (fun _ => 0)

/-- The sum of the control variates, each multiplied by the magic box of the gradient functions up to and
including its own. -/
def cvTotal [CommRing α] [Autograd α] (pool : List (Plate α)) :
    List (Est α) → List String → ((String → Nat) → α) → α
  | [], _, _ => 0
  | e :: es, ns, l =>
    (match e.cv with
      | none => 0
      | some (ns', v) => boxTotal pool ((ns ++ e.names) ++ ns') (fun ι => l ι + e.lp ι) v) +
    cvTotal pool es (ns ++ e.names) (fun ι => l ι + e.lp ι)

/-- An operand with the given plates and values. -/
structure OpIs (pool : List (Plate α)) (o : Operand α) (names : List String) (v : (String → Nat) → α) :
    Prop where
  scalar : ScalarOp pool o
  closed : ParentClosed o.plates
  names : ∀ p ∈ pool, p ∈ o.plates ↔ p.name ∈ names
  val : ∀ ι, o.at ι = v ι

/-- The estimator of `p` runs for the cost `c` and contributes `e`; a pathwise method contributes nothing. -/
def Contributes [CommRing α] [Autograd α] (hook : UnwrapHook α) (pool : List (Plate α)) (c : STen α)
    (p : Sampled α) (e : Est α) : Prop :=
  (p.pathwise = true ∧ e.names = [] ∧ (∀ ι, e.lp ι = 0) ∧ e.cv = none) ∨
  ∃ rc np a b, reducedCost hook c p.tensor = .ok rc ∧ newParent p.tensor rc = .ok np ∧
    p.estimator np rc = .ok (a, b) ∧ p.pathwise = false ∧
    (match a with
      | none => e.names = [] ∧ ∀ ι, e.lp ι = 0
      | some g => OpIs pool g e.names e.lp) ∧
    (match b, e.cv with
      | none, none => True
      | some o, some (ns, v) => OpIs pool o ns v ∧ ∃ t s, o = .st t s
      | _, _ => False)

theorem closed_union {r : List (Plate α)} {ops : List (Operand α)}
    (h : ∀ p, p ∈ r ↔ ∃ o ∈ ops, p ∈ o.plates) (hc : ∀ o ∈ ops, ParentClosed o.plates) : ParentClosed r := by
  intro p hp q hq
  obtain ⟨o, ho, hm⟩ := (h p).1 hp
  obtain ⟨x, hx, he⟩ := hc o ho p hm q hq
  exact ⟨x, (h x).2 ⟨o, ho, hx⟩, he⟩

/-- An element-wise call of two operands. -/
theorem opCall_pair {hook : UnwrapHook α} (hh : PlainHook hook) {pool : List (Plate α)} (hp : PoolOK pool)
    (f : List α → α) {x y : Operand α} {nx ny : List String} {vx vy : (String → Nat) → α}
    (hx : OpIs pool x nx vx) (hy : OpIs pool y ny vy) :
    ∃ r, opCall hook f [x, y] = .ok r ∧ OpIs pool r (nx ++ ny) (fun ι => f [vx ι, vy ι]) ∧
      ((∃ t s, x = .st t s) ∨ (∃ t s, y = .st t s) → ∃ t, r = .st t false) := by
  obtain ⟨r, r1, r2, r3, r4, r5⟩ := opCall_scalar hh hp f (ops := [x, y]) (by
    intro o ho
    simp only [List.mem_cons, List.not_mem_nil, or_false] at ho
    rcases ho with rfl | rfl
    exacts [hx.scalar, hy.scalar])
  refine ⟨r, r1, ⟨r2, closed_union r3 ?_, ?_, ?_⟩, ?_⟩
  · intro o ho
    simp only [List.mem_cons, List.not_mem_nil, or_false] at ho
    rcases ho with rfl | rfl
    exacts [hx.closed, hy.closed]
  · intro p hm
    rw [r3 p]
    simp only [List.mem_cons, List.not_mem_nil, or_false, exists_eq_or_imp, exists_eq_left, List.mem_append]
    rw [hx.names p hm, hy.names p hm]
  · intro ι
    rw [r4 ι]
    simp [hx.val, hy.val]
  · rintro h
    apply r5
    rcases h with ⟨t, s, rfl⟩ | ⟨t, s, rfl⟩
    · simp [stens]
    · cases x <;> simp [stens]

theorem magicBox_is [CommRing α] [Autograd α] {hook : UnwrapHook α} (hh : PlainHook hook)
    {pool : List (Plate α)} (hp : PoolOK pool) {l : Operand α} {ns : List String} {v : (String → Nat) → α}
    (h : OpIs pool l ns v) :
    ∃ r, magicBox hook l = .ok r ∧ OpIs pool r ns (fun ι => boxElt (v ι)) ∧
      ((∃ t s, l = .st t s) → ∃ t, r = .st t false) := by
  obtain ⟨r, r1, r2, r3, r4, r5⟩ := magicBox_scalar hh hp h.scalar
  refine ⟨r, r1, ⟨r2, ?_, ?_, ?_⟩, r5⟩
  · intro p hm q hq
    obtain ⟨x, hx, he⟩ := h.closed p ((r3 p).1 hm) q hq
    exact ⟨x, (r3 x).2 hx, he⟩
  · intro p hm; rw [r3 p, h.names p hm]
  · intro ι; rw [r4 ι, h.val ι]

/-- Reducing all plates of a storch tensor with known values. -/
theorem reduceAll_is [CommRing α] {hook : UnwrapHook α} (hh : PlainHook hook)
    {pool : List (Plate α)} (hp : PoolOK pool) (hw : TorchWeights pool) {t : STen α} {s : Bool}
    {ns : List String} {v : (String → Nat) → α} (h : OpIs pool (.st t s) ns v) :
    ∃ r, reduceAllPlates hook (.st t s) = .ok r ∧ r.plates = [] ∧ r.ten.shape = [] ∧ r.WF ∧
      OpIs pool (.st r false) [] (fun _ => weightedTotal id (named pool ns) v (fun _ => 0)) := by
  obtain ⟨r, r1, r2, r3, r4, r5⟩ := reduceAll_scalar hh id hp hw h.scalar h.closed
  have hperm : (named pool ns).Perm t.plates := by
    apply perm_of_pool hp.names (hp.names.sublist (List.filter_sublist.map _)) h.scalar.nodup
    intro p
    simp only [List.mem_filter, decide_eq_true_eq]
    constructor
    · rintro ⟨h1, h2⟩; exact (h.names p h1).2 h2
    · intro hm; exact ⟨h.scalar.sub p hm, (h.names p (h.scalar.sub p hm)).1 hm⟩
  have hev : r.eventShape = [] := by rw [STen.eventShape, r3]; simp
  refine ⟨r, r1, r2, r3, r4, ⟨r4, hev, by rw [r2]; simp⟩, ?_, ?_, ?_⟩
  · intro p hm; rw [Operand.plates, r2] at hm; simp at hm
  · intro p _; rw [Operand.plates, r2]; simp
  intro ι
  rw [Operand.at, Operand.sample, sample_noPlates r2 (by rw [hev]; exact .nil), r5 (fun _ => 0),
    ← weightedTotal_perm id hperm h.scalar.nodup]
  congr 1
  funext ι
  exact h.val ι

theorem squeezeScalar_nop {hook : UnwrapHook α} {t : STen α} (h : t.ten.shape = []) :
    squeezeScalar hook t = .ok t := by
  rw [squeezeScalar, Ten.ndim, h]; rfl

/-- The first step of the loop body after the estimator. -/
def addGradient [CommRing α] (hook : UnwrapHook α) (l : Operand α) : Option (Operand α) → Except Err (Operand α)
  | none => .ok l
  | some g => opCall hook List.sum [l, g]

theorem addEstimate_eq [CommRing α] [Autograd α] (hook : UnwrapHook α) (a b : Option (Operand α))
    (l s : Operand α) : addEstimate hook (a, b) (l, s) =
      match addGradient hook l a with
      | .error e => .error e
      | .ok l =>
        match b with
        | none => .ok (l, s)
        | some cv =>
          match magicBox hook l with
          | .error e => .error e
          | .ok b =>
            match opCall hook List.prod [b, cv] with
            | .error e => .error e
            | .ok a =>
              match reduceAllPlates hook a with
              | .error e => .error e
              | .ok f =>
                match squeezeScalar hook f with
                | .error e => .error e
                | .ok f' =>
                  match opCall hook List.sum [s, .st f' false] with
                  | .error e => .error e
                  | .ok s => .ok (l, s) := by
  cases a <;> rfl

theorem gradient_spec [CommRing α] {hook : UnwrapHook α} (hh : PlainHook hook)
    {pool : List (Plate α)} (hp : PoolOK pool) {a : Option (Operand α)} {e : Est α}
    (ha : match a with
      | none => e.names = [] ∧ ∀ ι, e.lp ι = 0
      | some g => OpIs pool g e.names e.lp)
    {l : Operand α} {ns : List String} {lv : (String → Nat) → α} (hl : OpIs pool l ns lv) :
    ∃ l', addGradient hook l a = .ok l' ∧ OpIs pool l' (ns ++ e.names) (fun ι => lv ι + e.lp ι) := by
  cases a with
  | none =>
    refine ⟨l, rfl, hl.scalar, hl.closed, ?_, ?_⟩
    · intro p hm; rw [hl.names p hm, ha.1, List.append_nil]
    · intro ι; rw [hl.val ι, ha.2 ι, add_zero]
  | some g =>
    obtain ⟨r, r1, r2, _⟩ := opCall_pair hh hp List.sum hl ha
    refine ⟨r, r1, r2.scalar, r2.closed, r2.names, ?_⟩
    intro ι; rw [r2.val ι]; simp

/-- The part of the loop body after the estimator. -/
theorem addEstimate_spec [CommRing α] [Autograd α] {hook : UnwrapHook α} (hh : PlainHook hook)
    {pool : List (Plate α)} (hp : PoolOK pool) (hw : TorchWeights pool) {a b : Option (Operand α)} {e : Est α}
    (ha : match a with
      | none => e.names = [] ∧ ∀ ι, e.lp ι = 0
      | some g => OpIs pool g e.names e.lp)
    (hb : match b, e.cv with
      | none, none => True
      | some o, some (ns, v) => OpIs pool o ns v ∧ ∃ t s, o = .st t s
      | _, _ => False)
    {l s : Operand α} {ns : List String} {lv : (String → Nat) → α} {sv : α} (hl : OpIs pool l ns lv)
    (hs : OpIs pool s [] (fun _ => sv)) :
    ∃ l' s', addEstimate hook (a, b) (l, s) = .ok (l', s') ∧
      OpIs pool l' (ns ++ e.names) (fun ι => lv ι + e.lp ι) ∧
      OpIs pool s' [] (fun _ => sv + cvTotal pool [e] ns lv) := by
  obtain ⟨l', l1, l2⟩ := gradient_spec hh hp ha hl
  rw [addEstimate_eq, l1]
  simp only
  cases b with
  | none =>
    cases hcv : e.cv with
    | some x => rw [hcv] at hb; exact hb.elim
    | none =>
      refine ⟨l', s, rfl, l2, hs.scalar, hs.closed, hs.names, ?_⟩
      intro ι; rw [hs.val ι]; simp [cvTotal, hcv]
  | some o =>
    cases hcv : e.cv with
    | none => rw [hcv] at hb; exact hb.elim
    | some x =>
      obtain ⟨ns', v⟩ := x
      rw [hcv] at hb
      obtain ⟨hb1, hb2⟩ := hb
      obtain ⟨bx, b1, b2, _⟩ := magicBox_is hh hp l2
      obtain ⟨m, m1, m2, m3⟩ := opCall_pair hh hp List.prod b2 hb1
      obtain ⟨mt, rfl⟩ := m3 (Or.inr hb2)
      obtain ⟨f, f1, _, f3, _, f5⟩ := reduceAll_is hh hp hw m2
      obtain ⟨s', s1, s2, _⟩ := opCall_pair hh hp List.sum hs f5
      simp only [b1, m1, f1, squeezeScalar_nop f3, s1]
      refine ⟨l', s', rfl, l2, s2.scalar, s2.closed, by simpa using s2.names, ?_⟩
      intro ι
      rw [s2.val ι]
      simp only [List.sum_cons, List.sum_nil, add_zero, cvTotal, hcv, boxTotal, List.prod_cons, List.prod_nil,
        mul_one]

/-- The loop over the stochastic tensors. -/
theorem parentLoop_spec [CommRing α] [Autograd α] {hook : UnwrapHook α} (hh : PlainHook hook)
    {pool : List (Plate α)} (hp : PoolOK pool) (hw : TorchWeights pool) {c : STen α} {parents : List (Sampled α)}
    {ests : List (Est α)} (h : List.Forall₂ (Contributes hook pool c) parents ests) :
    ∀ {l s : Operand α} {ns : List String} {lv : (String → Nat) → α} {sv : α}, OpIs pool l ns lv →
      OpIs pool s [] (fun _ => sv) →
    ∃ l' s', parentLoop hook c parents (l, s) = .ok (l', s') ∧
      OpIs pool l' (ns ++ ests.flatMap Est.names) (fun ι => lv ι + (ests.map (fun e => e.lp ι)).sum) ∧
      OpIs pool s' [] (fun _ => sv + cvTotal pool ests ns lv) := by
  induction h with
  | nil =>
    intro l s ns lv sv hl hs
    exact ⟨l, s, rfl, by simpa using hl, by simpa [cvTotal] using hs⟩
  | @cons p e ps es he _ ih =>
    intro l s ns lv sv hl hs
    rcases he with ⟨h1, h2, h3, h4⟩ | ⟨rc, np, a, b, h1, h2, h3, h4, h5, h6⟩
    · obtain ⟨l', s', r1, r2, r3⟩ := ih hl hs
      have hz : (fun ι => lv ι + e.lp ι) = lv := by funext ι; rw [h3 ι, add_zero]
      refine ⟨l', s', by rw [parentLoop, h1]; exact r1, ?_, ?_⟩
      · refine ⟨r2.scalar, r2.closed, ?_, ?_⟩
        · intro p hm; rw [r2.names p hm, List.flatMap_cons, h2, List.nil_append]
        · intro ι; rw [r2.val ι, List.map_cons, List.sum_cons, h3 ι, zero_add]
      · refine ⟨r3.scalar, r3.closed, r3.names, ?_⟩
        intro ι
        rw [r3.val ι]
        simp only [cvTotal, h4, h2, List.append_nil, zero_add, hz]
    obtain ⟨l1, s1, q1, q2, q3⟩ := addEstimate_spec hh hp hw h5 h6 hl hs
    obtain ⟨l', s', r1, r2, r3⟩ := ih q2 q3
    refine ⟨l', s', ?_, ?_, ?_⟩
    · rw [parentLoop, h4]
      simp only [Bool.false_eq_true, if_false, h1, h2, h3, q1]
      exact r1
    · refine ⟨r2.scalar, r2.closed, ?_, ?_⟩
      · intro p hm; rw [r2.names p hm, List.flatMap_cons, List.append_assoc]
      · intro ι; rw [r2.val ι, List.map_cons, List.sum_cons, add_assoc]
    · refine ⟨r3.scalar, r3.closed, r3.names, ?_⟩
      intro ι
      rw [r3.val ι]
      simp only [cvTotal, add_zero, add_assoc]

/-- What one cost adds to the surrogate loss. -/
def costTotal [CommRing α] [Autograd α] (pool : List (Plate α)) (c : STen α) (ests : List (Est α)) : α :=
  cvTotal pool ests [] (fun _ => 0) +
    boxTotal pool (ests.flatMap Est.names ++ c.plates.map Plate.name)
      (fun ι => (ests.map (fun e => e.lp ι)).sum) (fun ι => c.sample ι [])

/-- A cost: scalar-valued, with all parents of its plates. -/
structure CostOK (pool : List (Plate α)) (c : STen α) : Prop where
  scalar : ScalarOp pool (.st c false)
  closed : ParentClosed c.plates

theorem opIs_zero [Zero α] (pool : List (Plate α)) : OpIs pool (.torch (.scalar (0 : α))) [] (fun _ => 0) :=
  ⟨rfl, (by intro p hm; cases hm), by intro p _; simp [Operand.plates], fun _ => rfl⟩

theorem opIs_cost {pool : List (Plate α)} (hp : PoolOK pool) {c : STen α} (h : CostOK pool c) :
    OpIs pool (.st c false) (c.plates.map Plate.name) (fun ι => c.sample ι []) := by
  refine ⟨h.scalar, h.closed, ?_, fun _ => rfl⟩
  intro p hm
  constructor
  · exact fun h' => List.mem_map_of_mem h'
  · intro h'
    obtain ⟨q, hq, he⟩ := List.mem_map.1 h'
    exact pool_eq hp (h.scalar.sub q hq) hm he ▸ hq

/-- The surrogate loss of one cost. -/
theorem surrogateCost_spec [CommRing α] [Autograd α] {hook : UnwrapHook α} (hh : PlainHook hook)
    {pool : List (Plate α)} (hp : PoolOK pool) (hw : TorchWeights pool) {c : STen α} (hc : CostOK pool c)
    {parents : List (Sampled α)} {ests : List (Est α)}
    (h : List.Forall₂ (Contributes hook pool c) parents ests) :
    ∃ r, surrogateCost hook c parents = .ok (.st r false) ∧
      OpIs pool (.st r false) [] (fun _ => costTotal pool c ests) := by
  obtain ⟨l, s, h1, h2, h3⟩ := parentLoop_spec hh hp hw h (opIs_zero pool) (opIs_zero pool)
  obtain ⟨b, b1, b2, _⟩ := magicBox_is hh hp h2
  obtain ⟨m, m1, m2, m3⟩ := opCall_pair hh hp List.prod b2 (opIs_cost hp hc)
  obtain ⟨mt, rfl⟩ := m3 (Or.inr ⟨c, false, rfl⟩)
  obtain ⟨f, f1, f2, f3, _, f5⟩ := reduceAll_is hh hp hw m2
  obtain ⟨r, r1, r2, r3⟩ := opCall_pair hh hp List.sum h3 f5
  obtain ⟨rt, rfl⟩ := r3 (Or.inr ⟨f, false, rfl⟩)
  refine ⟨rt, ?_, r2.scalar, r2.closed, r2.names, ?_⟩
  · rw [surrogateCost, h1]
    simp only [b1, m1, f1, r1]
  · intro ι
    rw [r2.val ι]
    simp only [List.sum_cons, List.sum_nil, add_zero, zero_add, costTotal, boxTotal, List.prod_cons,
      List.prod_nil, mul_one, List.nil_append]

omit [ValEq α] in
theorem opIs_nil_plates [ValEq α] {pool : List (Plate α)} {r : STen α} {v : α}
    (h : OpIs pool (.st r false) [] (fun _ => v)) : r.plates = [] ∧ r.ten.shape = [] ∧ r.ten.get [] = v := by
  have h1 : r.plates = [] := by
    rw [List.eq_nil_iff_forall_not_mem]
    intro p hm
    have := (h.names p (h.scalar.sub p hm)).1 hm
    cases this
  have h2 : r.ten.shape = [] := by
    have := h.scalar.1.shape
    rw [STen.multiDimPlates, h1, h.scalar.2.1] at this
    exact this
  refine ⟨h1, h2, ?_⟩
  have := h.val (fun _ => 0)
  rwa [Operand.at, Operand.sample, sample_noPlates h1 (by rw [h.scalar.2.1]; exact .nil)] at this

/-! ### All costs -/

/-- What all costs add up to. -/
def lossTotal [CommRing α] [Autograd α] (pool : List (Plate α)) (cs : List (STen α × List (Est α))) : α :=
  (cs.map (fun x => costTotal pool x.1 x.2)).sum

/-- A cost with the stochastic tensors above it, and what their estimators contribute. -/
def CostContributes [CommRing α] [Autograd α] (hook : UnwrapHook α) (pool : List (Plate α))
    (c : STen α × List (Sampled α)) (e : STen α × List (Est α)) : Prop :=
  c.1 = e.1 ∧ CostOK pool c.1 ∧ List.Forall₂ (Contributes hook pool c.1) c.2 e.2

theorem surrogateCosts_spec [CommRing α] [Autograd α] {hook : UnwrapHook α} (hh : PlainHook hook)
    {pool : List (Plate α)} (hp : PoolOK pool) (hw : TorchWeights pool)
    {costs : List (STen α × List (Sampled α))} {es : List (STen α × List (Est α))}
    (h : List.Forall₂ (CostContributes hook pool) costs es) :
    ∃ ls : List (STen α), surrogateCosts hook costs = .ok (ls.map (fun r => .st r false)) ∧
      List.Forall₂ (fun r (e : STen α × List (Est α)) => r.plates = [] ∧ r.ten.shape = [] ∧
        r.ten.get [] = costTotal pool e.1 e.2) ls es := by
  induction h with
  | nil => exact ⟨[], rfl, .nil⟩
  | @cons c e cs es he _ ih =>
    obtain ⟨c, ps⟩ := c
    obtain ⟨c', es'⟩ := e
    obtain ⟨h1, h2, h3⟩ := he
    simp only at h1 h2 h3
    subst h1
    obtain ⟨r, r1, r2⟩ := surrogateCost_spec hh hp hw h2 h3
    obtain ⟨ls, l1, l2⟩ := ih
    refine ⟨r :: ls, ?_, .cons (opIs_nil_plates r2) l2⟩
    rw [surrogateCosts]
    simp only [r1, l1, List.map_cons]

theorem collect_noPlates {l : List (STen α)} (h : ∀ r ∈ l, r.plates = [] ∧ r.ten.shape = []) :
    ∀ c : Coll α, c.plates = [] → ∃ c', collectList (l.map (fun r => .st r false)) c 0 = (c', 0) ∧
      c'.plates = [] ∧ (c.parents ≠ [] ∨ l ≠ [] → c'.parents ≠ []) := by
  induction l with
  | nil => intro c hc; exact ⟨c, rfl, hc, by rintro (h | h); exacts [h, absurd rfl h]⟩
  | cons r l ih =>
    intro c hc
    obtain ⟨h1, h2⟩ := h r (by simp)
    have he : r.eventDims = 0 := by rw [STen.eventDims, STen.eventShape, h2]; simp
    rw [List.map_cons, collectList]
    simp only [Val.collect, he, Nat.max_self]
    obtain ⟨c', q1, q2, q3⟩ := ih (fun x hx => h x (List.mem_cons_of_mem _ hx))
      ⟨c.parents ++ [r], addPlates c.plates r.plates⟩ (by rw [h1, hc]; rfl)
    exact ⟨c', q1, q2, fun _ => q3 (Or.inl (by simp))⟩

theorem unwrap_noPlates {hook : UnwrapHook α} {l : List (STen α)}
    (h : ∀ r ∈ l, r.plates = [] ∧ r.ten.shape = []) :
    unwrapList hook {} [] 0 (l.map (fun r => .st r false)) = .ok (l.map (fun r => .torch r.ten)) := by
  induction l with
  | nil => rfl
  | cons r l ih =>
    rw [List.map_cons, unwrapList, Val.unwrap, ih (fun x hx => h x (List.mem_cons_of_mem _ hx))]
    simp [unwrapSt, hookLoop, alignTen, swapLoop, unsqLoop]

/-- A call with storch tensors without plates and event dimensions in one list. -/
theorem handleDet_noPlates {hook : UnwrapHook α} (fn : Fn α) (ls : List (STen α)) (hne : ls ≠ [])
    (hl : ∀ r ∈ ls, r.plates = [] ∧ r.ten.shape = []) {t : Ten α}
    (hf : fn ⟨[.lst (ls.map (fun r => .torch r.ten))], []⟩ = .ok (.torch t)) :
    asSt (handleDet hook false false {} fn ⟨[.lst (ls.map (fun r => .st r false))], []⟩) = .ok ⟨t, [], 0⟩ := by
  obtain ⟨c, c1, c2, c3⟩ := collect_noPlates hl ⟨[], []⟩ rfl
  have hca : collectArgs ⟨[.lst (ls.map (fun r => .st r false))], []⟩ = (c, 0) := by
    simp [collectArgs, collectList, Val.collect, c1]
  have hne' := c3 (Or.inr hne)
  rw [handleDet, prepareArgs]
  simp only [hca, c2, filterPlates, List.filter_nil, applyDim, applyDims, List.map_nil, unwrapList, Val.unwrap,
    unwrap_noPlates hl]
  simp [hne', hf, Val.wrapOut, STen.mk', STen.checkPlates, asSt]

/-- `surrogate_loss` computes the total of all costs. -/
theorem surrogateLoss_spec [CommRing α] [Autograd α] {hook : UnwrapHook α} (hh : PlainHook hook)
    {pool : List (Plate α)} (hp : PoolOK pool) (hw : TorchWeights pool)
    {costs : List (STen α × List (Sampled α))} {es : List (STen α × List (Est α))} (hne : costs ≠ [])
    (h : List.Forall₂ (CostContributes hook pool) costs es) :
    ∃ r, surrogateLoss hook costs = .ok r ∧ r.plates = [] ∧ r.ten.shape = [] ∧ r.ten.get [] = lossTotal pool es := by
  obtain ⟨ls, l1, l2⟩ := surrogateCosts_spec hh hp hw h
  have hall : ∀ r ∈ ls, r.plates = [] ∧ r.ten.shape = [] := by
    clear l1 h
    induction l2 with
    | nil => intro r hr; cases hr
    | cons he _ ih =>
      intro r hr
      rcases List.mem_cons.1 hr with rfl | hr
      · exact ⟨he.1, he.2.1⟩
      · exact ih r hr
  have hval : ls.map (fun r => r.ten.get []) = es.map (fun x => costTotal pool x.1 x.2) := by
    clear l1 h hall
    induction l2 with
    | nil => rfl
    | cons he _ ih => rw [List.map_cons, List.map_cons, ih, he.2.2]
  have hlen : ls ≠ [] := by
    intro e
    subst e
    cases l2
    cases h
    exact hne rfl
  cases costs with
  | nil => exact absurd rfl hne
  | cons c cs =>
    cases ls with
    | nil => exact absurd rfl hlen
    | cons r ls =>
      have hmap : ((r :: ls).map (fun r => Val.torch r.ten)).mapM Val.asTorch = some ((r :: ls).map STen.ten) := by
        have := mapM_torch ((r :: ls).map STen.ten)
        rwa [List.map_map] at this
      have hsh : (ls.map STen.ten).all (fun u => u.shape == []) = true := by
        rw [List.all_eq_true]
        intro u hu
        obtain ⟨x, hx, rfl⟩ := List.mem_map.1 hu
        rw [(hall x (List.mem_cons_of_mem _ hx)).2]
        rfl
      have hstack := handleDet_noPlates (hook := hook) stackFn (r :: ls) hlen hall (t := ⟨(r :: ls).length :: [], fun idx =>
          match idx with
          | i :: idx' => ((r.ten :: ls.map STen.ten).getD i r.ten).get idx'
          | [] => r.ten.get []⟩) (by
        rw [stackFn]
        simp only [hmap]
        simp only [List.map_cons, (hall r (by simp)).2, hsh, if_true, List.length_cons, List.length_map]
        rfl)
      have hsum := handleDet_single hh (t := (⟨⟨(r :: ls).length :: [], fun idx =>
          match idx with
          | i :: idx' => ((r.ten :: ls.map STen.ten).getD i r.ten).get idx'
          | [] => r.ten.get []⟩, [], 0⟩ : STen α)) ⟨⟨List.nodup_nil, by simp, by simp [STen.multiDimPlates, STen.eventShape], by simp [STen.multiDimPlates]⟩, by simp⟩
        false true [] [] [] (fun _ _ => rfl) (fun _ _ _ => rfl) sumAllFn _ rfl
      refine ⟨⟨.scalar (((r :: ls).map (fun r => r.ten.get [])).sum), [], 0⟩, ?_, rfl, rfl, ?_⟩
      · rw [surrogateLoss]
        simp only [l1]
        have : (List.map (fun r => Operand.st r false) (r :: ls)).map Operand.val =
            (r :: ls).map (fun r => Val.st r false) := by rw [List.map_map]; rfl
        rw [this, hstack]
        simp only
        rw [hsum]
        simp only [List.filter_nil, Val.wrapOut, Bool.false_eq_true, if_false, STen.mk', STen.checkPlates, asSt]
        congr 4
        have h1 : ∀ d, (allIdx [d]) = (List.range d).map (fun i => [i]) := by
          intro d; simp [allIdx, List.map_eq_flatMap]
        rw [h1, List.map_map]
        apply List.ext_getElem
        · simp
        · intro i h1 h2
          have h3 : i < (r.ten :: ls.map STen.ten).length := by simpa using h1
          simp only [List.getElem_map, List.getElem_range, Function.comp]
          rw [List.getD_eq_getElem?_getD, List.getElem?_eq_getElem h3]
          simp only [Option.getD_some]
          have : (r.ten :: ls.map STen.ten) = (r :: ls).map STen.ten := rfl
          simp only [this, List.getElem_map]
      · rw [hval]; rfl

end Storch
