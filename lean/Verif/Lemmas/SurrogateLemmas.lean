import Verif.Model.Surrogate
import Verif.Props.ReduceProps
import Verif.Props.VarianceProps

/-!
Scalar-valued tensors (no event dimensions) over a common set of plates: element-wise calls, `magic_box`
and full reduction act on their values position by position.
-/

namespace Storch
variable {α : Type _}

/-- The plates of an operand. -/
def Operand.plates : Operand α → List (Plate α)
  | .st t _ => t.plates
  | .torch _ => []

/-- The value of a scalar-valued operand at a position. -/
def Operand.at (o : Operand α) (ι : String → Nat) : α := o.sample ι []

variable [ValEq α]

/-- A set of plates with distinct names and positive sizes, nested without cycles. -/
structure PoolOK (pool : List (Plate α)) : Prop where
  names : (pool.map Plate.name).Nodup
  plain : ∀ p ∈ pool, p.kind = .plain
  acyclic : AcyclicPlates pool

/-- A scalar-valued operand over plates of the pool. -/
def ScalarOp (pool : List (Plate α)) : Operand α → Prop
  | .st t _ => t.WF ∧ t.eventShape = [] ∧ ∀ p ∈ t.plates, p ∈ pool
  | .torch t => t.shape = []

omit [ValEq α] in
theorem ScalarOp.sub {pool : List (Plate α)} {o : Operand α} (h : ScalarOp pool o) :
    ∀ p ∈ o.plates, p ∈ pool := by
  cases o with
  | st t s => exact h.2.2
  | torch t => intro p hp; cases hp

omit [ValEq α] in
theorem ScalarOp.nodup {pool : List (Plate α)} {o : Operand α} (h : ScalarOp pool o) :
    (o.plates.map Plate.name).Nodup := by
  cases o with
  | st t s => exact h.1.names
  | torch t => exact List.nodup_nil

omit [ValEq α] in
theorem pool_eq {pool : List (Plate α)} (hp : PoolOK pool) {p q : Plate α} (h1 : p ∈ pool) (h2 : q ∈ pool)
    (h : p.name = q.name) : p = q := pyEq_of_same_list hp.names h1 h2 h

/-- Scalar-valued operands over one pool can be combined. -/
theorem goodOps_pool {pool : List (Plate α)} (hp : PoolOK pool) {ops : List (Operand α)}
    (h : ∀ o ∈ ops, ScalarOp pool o) : GoodOps ops := by
  have key : ∀ t ∈ stens ops, t.WF ∧ ∀ p ∈ t.plates, p ∈ pool := by
    intro t ht
    obtain ⟨s, hs⟩ := mem_stens.1 ht
    exact ⟨(h _ hs).1, (h _ hs).2.2⟩
  refine ⟨fun t ht => (key t ht).1, fun t ht p hp' => hp.plain p ((key t ht).2 p hp'), ?_⟩
  intro t ht t' ht' p hp1 q hq he
  rw [pool_eq hp ((key t ht).2 p hp1) ((key t' ht').2 q hq) he]
  exact Plate.pyEq_refl _

theorem bshapes_nils (n : Nat) : Ten.bshapes (List.replicate n []) = some [] := by
  have h1 : ((List.replicate n ([] : List Nat)).map List.length).foldr max 0 = 0 := by
    induction n with
    | zero => rfl
    | succ n ih => rw [List.replicate_succ, List.map_cons, List.foldr_cons, ih]; rfl
  have h2 : ∀ n, (List.replicate n ([] : List Nat)).foldlM (fun acc s => Ten.bzip acc (Ten.padL 0 s)) [] =
      some [] := by
    intro n
    induction n with
    | zero => rfl
    | succ n ih =>
      rw [List.replicate_succ, List.foldlM_cons]
      exact ih
  rw [Ten.bshapes]
  simp only [h1]
  exact h2 n

omit [ValEq α] in
theorem maxEv_scalar {pool : List (Plate α)} {ops : List (Operand α)} (h : ∀ o ∈ ops, ScalarOp pool o) :
    maxEv ops = 0 := by
  have : ∀ t ∈ stens ops, t.eventDims = 0 := by
    intro t ht
    obtain ⟨s, hs⟩ := mem_stens.1 ht
    rw [STen.eventDims, (h _ hs).2.1]; rfl
  rw [maxEv]
  generalize stens ops = l at this ⊢
  induction l with
  | nil => rfl
  | cons t l ih =>
    simp only [List.map_cons, List.foldr_cons]
    rw [this t (by simp), ih (fun t ht => this t (List.mem_cons_of_mem _ ht))]
    rfl

/-- An element-wise call on scalar-valued operands. -/
theorem opCall_scalar {hook : UnwrapHook α} (hh : PlainHook hook) {pool : List (Plate α)}
    (hp : PoolOK pool) (f : List α → α) {ops : List (Operand α)} (h : ∀ o ∈ ops, ScalarOp pool o) :
    ∃ r, opCall hook f ops = .ok r ∧ ScalarOp pool r ∧
      (∀ p, p ∈ r.plates ↔ ∃ o ∈ ops, p ∈ o.plates) ∧
      (∀ ι, r.at ι = f (ops.map (fun o => o.at ι))) ∧ (stens ops ≠ [] → ∃ t, r = .st t false) := by
  have hmax := maxEv_scalar h
  by_cases hst : stens ops = []
  · -- torch tensors only
    have hall : ∀ o ∈ ops, ∃ t : Ten α, o = .torch t ∧ t.shape = [] := by
      intro o ho
      cases o with
      | st t s =>
        have : t ∈ stens ops := mem_stens.2 ⟨s, ho⟩
        rw [hst] at this; cases this
      | torch t => exact ⟨t, rfl, h _ ho⟩
    obtain ⟨ts, hts⟩ : ∃ ts : List (Ten α), ops = ts.map Operand.torch := by
      clear h hst hmax
      induction ops with
      | nil => exact ⟨[], rfl⟩
      | cons o ops ih =>
        obtain ⟨t, rfl, _⟩ := hall o (by simp)
        obtain ⟨ts, rfl⟩ := ih (fun o ho => hall o (List.mem_cons_of_mem _ ho))
        exact ⟨t :: ts, rfl⟩
    subst hts
    have hsh : ∀ t ∈ ts, t.shape = [] := by
      intro t ht
      obtain ⟨u, hu, hs⟩ := hall (.torch t) (List.mem_map_of_mem ht)
      cases hu
      exact hs
    have hrep : ts.map Ten.shape = List.replicate ts.length [] := by
      rw [List.eq_replicate_iff]
      refine ⟨by simp, ?_⟩
      intro b hb
      obtain ⟨t, ht, rfl⟩ := List.mem_map.1 hb
      exact hsh t ht
    have hcol : ∀ (l : List (Ten α)) (c : Coll α) (m : Nat),
        collectList (l.map (fun t => Val.torch t)) c m = (c, m) := by
      intro l
      induction l with
      | nil => intro c m; rfl
      | cons a l ih =>
        intro c m
        rw [List.map_cons, collectList]
        simp only [Val.collect, Nat.max_zero]
        exact ih c m
    have hunw : ∀ (l : List (Ten α)) cfg mdp ed, unwrapList hook cfg mdp ed (l.map (fun t => Val.torch t)) =
        .ok (l.map (fun t => Val.torch t)) := by
      intro l cfg mdp ed
      induction l with
      | nil => rfl
      | cons a l ih => rw [List.map_cons, unwrapList, Val.unwrap, ih]
    have hcons : ∀ (l : List (Ten α)), consumedList (l.map (fun t => (Val.torch t : Val α))) =
        l.map (fun t => Val.torch t) := by
      intro l
      induction l with
      | nil => rfl
      | cons a l ih => rw [List.map_cons, consumedList, Val.consumed, ih]
    have hpos : (opArgs (ts.map Operand.torch)).pos = ts.map (fun t => Val.torch t) := by
      simp [opArgs, Operand.val, Function.comp_def]
    have hkw : (opArgs (ts.map (Operand.torch (α := α)))).kw = [] := rfl
    have hca : collectArgs (opArgs (ts.map Operand.torch)) = (⟨[], []⟩, 0) := by
      rw [collectArgs, hpos, hkw, hcol]
      rfl
    have hcall : handleDet hook false false {} (elementwiseFn f) (opArgs (ts.map Operand.torch)) =
        elementwiseFn f ⟨ts.map (fun t => Val.torch t), []⟩ := by
      rw [handleDet, prepareArgs]
      simp only [hca, filterPlates, List.filter_nil, applyDim, applyDims, hkw, hpos, hunw, hcons]
      simp [unwrapList]
    have hew : elementwiseFn f ⟨ts.map (fun t => Val.torch t), []⟩ = .ok (.torch ⟨[], fun idx =>
        f (ts.map (fun t => t.get (Ten.bidx t.shape (idx.drop (idx.length - t.ndim)))))⟩) := by
      simp only [elementwiseFn, mapM_torch, Ten.elementwise, hrep, bshapes_nils]
    refine ⟨.torch ⟨[], fun idx =>
        f (ts.map (fun t => t.get (Ten.bidx t.shape (idx.drop (idx.length - t.ndim)))))⟩, ?_, rfl, ?_, ?_, ?_⟩
    · rw [opCall, hcall, hew]
    · intro p
      constructor
      · intro hm; cases hm
      · rintro ⟨o, ho, hm⟩
        obtain ⟨t, _, rfl⟩ := List.mem_map.1 ho
        cases hm
    · intro ι
      rw [Operand.at, Operand.sample, List.map_map]
      congr 1
    · intro hne; exact absurd hst hne
  · -- at least one storch tensor
    have hg := goodOps_pool hp h
    have hes : Ten.bshapes (ops.map (Operand.evShape (maxEv ops))) = some [] := by
      rw [hmax]
      have : ops.map (Operand.evShape 0) = List.replicate ops.length [] := by
        rw [List.eq_replicate_iff]
        refine ⟨by simp, ?_⟩
        intro b hb
        obtain ⟨o, ho, rfl⟩ := List.mem_map.1 hb
        cases o with
        | st t s => rw [Operand.evShape, (h _ ho).2.1]; simp
        | torch t =>
          have : t.shape = [] := h _ ho
          rw [Operand.evShape, this]; simp
      rw [this, bshapes_nils]
    obtain ⟨r, a1, a2, a3, a4, a5⟩ := C05_elementwise hook hh f ops hg hst (by
      intro t ht
      have : t.shape = [] := h _ ht
      rw [Ten.ndim, this]; simp) [] hes
    have hsub : ∀ p ∈ r.plates, ∃ o ∈ ops, p ∈ o.plates := by
      intro p hpr
      obtain ⟨t, ht, htp⟩ := List.mem_flatMap.1 (a3.sub.subset hpr)
      obtain ⟨s, hs⟩ := mem_stens.1 ht
      exact ⟨_, hs, htp⟩
    refine ⟨.st r false, by rw [opCall, a1], ⟨a2, a4, ?_⟩, ?_, ?_, fun _ => ⟨r, rfl⟩⟩
    · intro p hpr
      obtain ⟨o, ho, hm⟩ := hsub p hpr
      exact (h o ho).sub p hm
    · intro p
      refine ⟨hsub p, ?_⟩
      rintro ⟨o, ho, hm⟩
      cases o with
      | torch t => cases hm
      | st t s =>
        obtain ⟨q, hq, he⟩ := a3.complete p (List.mem_flatMap.2 ⟨t, mem_stens.2 ⟨s, ho⟩, hm⟩)
        have hq' : q ∈ pool := by
          obtain ⟨o', ho', hm'⟩ := hsub q hq
          exact (h o' ho').sub q hm'
        have : q = p := pool_eq hp hq' ((h _ ho).sub p hm) (Plate.pyEq_name he)
        exact this ▸ hq
    · intro ι
      exact a5 ι [] .nil

/-- The value `magic_box` gives to a position. -/
def boxElt [Ring α] [Autograd α] (l : α) : α := Autograd.exp (l - Autograd.detach l)

/-- `magic_box` on a scalar-valued operand. -/
theorem magicBox_scalar [Ring α] [Autograd α] {hook : UnwrapHook α} (hh : PlainHook hook)
    {pool : List (Plate α)} (hp : PoolOK pool) {l : Operand α} (h : ScalarOp pool l) :
    ∃ r, magicBox hook l = .ok r ∧ ScalarOp pool r ∧ (∀ p, p ∈ r.plates ↔ p ∈ l.plates) ∧
      (∀ ι, r.at ι = boxElt (l.at ι)) ∧ ((∃ t s, l = .st t s) → ∃ t, r = .st t false) := by
  obtain ⟨d, d1, d2, d3, d4, d5⟩ := opCall_scalar hh hp detachElts (ops := [l]) (by simpa using h)
  obtain ⟨s, s1, s2, s3, s4, s5⟩ := opCall_scalar hh hp subElts (ops := [l, d]) (by
    intro o ho
    simp only [List.mem_cons, List.not_mem_nil, or_false] at ho
    rcases ho with rfl | rfl <;> assumption)
  obtain ⟨r, r1, r2, r3, r4, r5⟩ := opCall_scalar hh hp expElts (ops := [s]) (by simpa using s2)
  refine ⟨r, by rw [magicBox, d1]; simp only [s1, r1], r2, ?_, ?_, ?_⟩
  · intro p
    rw [r3 p]
    simp only [List.mem_cons, List.not_mem_nil, or_false, exists_eq_left]
    rw [s3 p]
    simp only [List.mem_cons, List.not_mem_nil, or_false, exists_eq_or_imp, exists_eq_left]
    rw [d3 p]
    simp
  · intro ι
    rw [r4 ι]
    simp only [List.map_cons, List.map_nil, expElts]
    rw [s4 ι]
    simp only [List.map_cons, List.map_nil, subElts]
    rw [d4 ι]
    rfl
  · rintro ⟨t, b, rfl⟩
    obtain ⟨x, rfl⟩ := s5 (by simp [stens])
    exact r5 (by simp [stens])

/-! ### Reductions -/

/-- Every plate of the pool carries a plain torch weight: one number, or one number per sample. -/
def TorchWeights (pool : List (Plate α)) : Prop :=
  ∀ p ∈ pool, WeightOK p ∧ ∃ w, p.weight = .torch w

omit [ValEq α] in
theorem AcyclicPlates.mono {ps qs : List (Plate α)} (h : AcyclicPlates qs) (hs : ∀ p ∈ ps, p ∈ qs) :
    AcyclicPlates ps := by
  intro k hk
  apply h k
  refine Relation.TransGen.mono ?_ k k hk
  rintro a b ⟨p, hp, h1, h2⟩
  exact ⟨p, hs p hp, h1, h2⟩

omit [ValEq α] in
theorem perm_of_pool {pool ps qs : List (Plate α)} (_ : (pool.map Plate.name).Nodup)
    (h1 : (ps.map Plate.name).Nodup) (h2 : (qs.map Plate.name).Nodup) (h : ∀ p, p ∈ ps ↔ p ∈ qs) :
    ps.Perm qs :=
  (List.perm_ext_iff_of_nodup h1.of_map h2.of_map).2 h

omit [ValEq α] in
theorem weightedTotal_perm [CommSemiring α] (dt : α → α) {ps l : List (Plate α)} (hl : l.Perm ps)
    (hn : (ps.map Plate.name).Nodup) (val : (String → Nat) → α) (ι : String → Nat) :
    weightedTotal dt l val ι = weightedTotal dt ps val ι := by
  rw [← weightedTotal_eq dt hl hn, weightedTotal_eq dt (List.Perm.refl l) ((hl.map _).nodup_iff.2 hn)]

/-- Reducing all plates of a scalar-valued storch tensor. -/
theorem reduceAll_torch [CommSemiring α] {hook : UnwrapHook α} (hh : PlainHook hook) (dt : α → α)
    {pool : List (Plate α)} (hp : PoolOK pool) {t : STen α} {s : Bool} (hw : TorchWeights t.plates)
    (h : ScalarOp pool (.st t s)) (hc : ParentClosed t.plates) :
    ∃ r, reducePlates hook dt (.st t s) [] = .ok r ∧ r.plates = [] ∧ r.ten.shape = [] ∧ r.WF ∧
      ∀ ι, r.ten.get [] = weightedTotal dt t.plates (fun ι => t.sample ι []) ι := by
  have hr : Reduceable t := ⟨⟨h.1, fun p hp' => hp.plain p (h.2.2 p hp')⟩,
    fun p hp' => (hw p hp').1, hc, hp.acyclic.mono h.2.2⟩
  obtain ⟨r, k, r1, r2, r3, r4, r5⟩ := C12_weighted_sum_partial hh dt hr s (fun _ => 0)
  have hk := r4 (fun p hp' => (hw p hp').2)
  subst hk
  have hsh : r.ten.shape = [] := by rw [r3, h.2.1]; rfl
  refine ⟨r, r1, r2, hsh, ?_, ?_⟩
  · obtain ⟨l, r', _, _, q1, q2, _⟩ := reducePlates_spec hh dt hr.proper
      (Or.inl ⟨rfl, rfl⟩) hr.proper.wf.names hr.weights hr.par hr.allOrNone hr.acyclic s
    rw [r1] at q1
    cases q1
    exact q2.wf
  · intro ι
    obtain ⟨r', k, q1, _, _, q4, q5⟩ := C12_weighted_sum_partial hh dt hr s ι
    have hk := q4 (fun p hp' => (hw p hp').2)
    subst hk
    rw [r1] at q1
    cases q1
    have := q5 [] (by rw [h.2.1]; exact .nil)
    simpa using this

theorem reduceAll_scalar [CommSemiring α] {hook : UnwrapHook α} (hh : PlainHook hook) (dt : α → α)
    {pool : List (Plate α)} (hp : PoolOK pool) (hw : TorchWeights pool) {t : STen α} {s : Bool}
    (h : ScalarOp pool (.st t s)) (hc : ParentClosed t.plates) :
    ∃ r, reducePlates hook dt (.st t s) [] = .ok r ∧ r.plates = [] ∧ r.ten.shape = [] ∧ r.WF ∧
      ∀ ι, r.ten.get [] = weightedTotal dt t.plates (fun ι => t.sample ι []) ι :=
  reduceAll_torch hh dt hp (fun p hm => hw p (h.2.2 p hm)) h hc

theorem reduceMissing_eq [Semiring α] [Autograd α] (hook : UnwrapHook α) (pp l : List (Plate α)) :
    ∀ c : STen α, reduceMissing hook pp l c =
      reduceLoop hook Autograd.detach (l.filter (fun p => !p.isInMethod pp)) c := by
  induction l with
  | nil => intro c; rfl
  | cons p l ih =>
    intro c
    rw [reduceMissing]
    by_cases h : p.isInMethod pp = true
    · simp only [h, if_true, Bool.not_true, List.filter_cons]
      exact ih c
    · simp only [h, Bool.not_false, List.filter_cons, if_true, reduceLoop]
      simp only [Bool.false_eq_true, if_false]
      cases p.reduce hook Autograd.detach c with
      | error e => rfl
      | ok c' => exact ih c'

theorem isInMethod_pool {pool ps : List (Plate α)} (hp : PoolOK pool) (hs : ∀ p ∈ ps, p ∈ pool) {p : Plate α}
    (h : p ∈ pool) : p.isInMethod ps = true ↔ p ∈ ps := by
  rw [Plate.isInMethod, hp.plain p h]
  simp only
  rw [Plate.isIn_iff]
  constructor
  · rintro ⟨x, hx, he⟩
    exact pool_eq hp (hs x hx) h (Plate.pyEq_name he) ▸ hx
  · intro hm; exact ⟨p, hm, Plate.pyEq_refl _⟩

/-- The plates of the cost that are larger than one and that the stochastic tensor does not have. -/
def missingPlates (c parent : STen α) : List (Plate α) :=
  c.multiDimPlates.filter (fun p => !p.isInMethod parent.multiDimPlates)

/-- The reduced cost (inference.py:143-149). -/
theorem reducedCost_torch [CommSemiring α] [Autograd α] {hook : UnwrapHook α} (hh : PlainHook hook)
    {pool : List (Plate α)} (hp : PoolOK pool) {c parent : STen α}
    (hw : TorchWeights (missingPlates c parent))
    (h : ScalarOp pool (.st c false))
    (hg : ParentsAllOrNone c.multiDimPlates) :
    ∃ rc, reducedCost hook c parent = .ok rc ∧ ScalarOp pool (.st rc false) ∧
      (∀ p, p ∈ rc.plates ↔ p ∈ c.plates ∧ p ∉ missingPlates c parent) ∧
      ∀ ι, rc.sample ι [] =
        weightedTotal Autograd.detach (missingPlates c parent) (fun ι => c.sample ι []) ι := by
  have hmd : ∀ p ∈ c.multiDimPlates, p ∈ c.plates := fun p h => (List.mem_filter.1 h).1
  have hnd : (c.multiDimPlates.map Plate.name).Nodup :=
    h.1.names.sublist (List.filter_sublist.map _)
  obtain ⟨o, o1, o2, o3⟩ := C11_complete_partial c.multiDimPlates hnd hg
    (hp.acyclic.mono (fun p hp' => h.2.2 p (hmd p hp')))
  have ho : orderPlates c.multiDimPlates true = .ok o.reverse := by
    have := C10_reverse c.multiDimPlates
    rw [this, o1]; rfl
  have hpc : Proper c := ⟨h.1, fun p hp' => hp.plain p (h.2.2 p hp')⟩
  set l := o.reverse.filter (fun p => !p.isInMethod parent.multiDimPlates) with hl
  have hlp : l.Perm (missingPlates c parent) := by
    rw [hl, missingPlates]
    exact ((List.reverse_perm o).trans o2).filter _
  have hmn : ((missingPlates c parent).map Plate.name).Nodup :=
    hnd.sublist (List.filter_sublist.map _)
  have hlmem : ∀ p ∈ l, p ∈ c.plates := fun p hp' =>
    hmd p (List.mem_filter.1 (hlp.mem_iff.1 hp')).1
  have hred : Reducible l c.plates := by
    refine ⟨(hlp.map _).nodup_iff.2 hmn, hlmem, fun p hp' => (hw p (hlp.mem_iff.1 hp')).1, ?_⟩
    intro l1 p l2 he w names hwt
    obtain ⟨w', hw'⟩ := (hw p (hlp.mem_iff.1 (by rw [he]; simp))).2
    rw [hw'] at hwt; cases hwt
  obtain ⟨r, r1, r2, r3, _, r5, r6⟩ := reduceLoop_spec hh Autograd.detach l hpc hred
  have hev : r.eventShape = [] := by
    rw [r5 (fun p hp' => (hw p (hlp.mem_iff.1 hp')).2), h.2.1]
  have hrm : ∀ p, p ∈ r.plates ↔ p ∈ c.plates ∧ p ∉ missingPlates c parent := by
    intro p
    rw [r3, dropPlates, List.mem_filter]
    simp only [Bool.not_eq_true', decide_eq_false_iff_not]
    refine and_congr_right (fun hpc' => not_congr ?_)
    rw [(hlp.map Plate.name).mem_iff, List.mem_map]
    constructor
    · rintro ⟨q, hq, he⟩
      exact pool_eq hp (h.2.2 q (hmd q (List.mem_filter.1 hq).1)) (h.2.2 p hpc') he ▸ hq
    · intro hm; exact ⟨p, hm, rfl⟩
  refine ⟨r, by rw [reducedCost, ho]; simp only; rw [reduceMissing_eq]; exact r1, ⟨r2.wf, hev, ?_⟩, hrm, ?_⟩
  · intro p hp'
    exact h.2.2 p ((hrm p).1 hp').1
  · intro ι
    rw [r6 ι [] (by rw [hev]; exact .nil), weightedTotal_eq Autograd.detach hlp hmn]

theorem reducedCost_scalar [CommSemiring α] [Autograd α] {hook : UnwrapHook α} (hh : PlainHook hook)
    {pool : List (Plate α)} (hp : PoolOK pool) (hw : TorchWeights pool) {c parent : STen α}
    (h : ScalarOp pool (.st c false))
    (hg : ParentsAllOrNone c.multiDimPlates) :
    ∃ rc, reducedCost hook c parent = .ok rc ∧ ScalarOp pool (.st rc false) ∧
      (∀ p, p ∈ rc.plates ↔ p ∈ c.plates ∧ p ∉ missingPlates c parent) ∧
      ∀ ι, rc.sample ι [] =
        weightedTotal Autograd.detach (missingPlates c parent) (fun ι => c.sample ι []) ι :=
  reducedCost_torch hh hp (fun p hm => hw p (h.2.2 p (List.mem_filter.1 (List.mem_filter.1 hm).1).1)) h hg

/-! ### The copy of the stochastic tensor -/

theorem transposeLoop_spec (ps : List (Plate α)) (ev : List Nat) :
    ∀ (i : Nat) (t : Ten α) (pp : List (Plate α)),
    (∀ p ∈ ps, p.kind = .plain ∧ p.isIn pp = true) → i + ps.length ≤ pp.length →
    t.shape = pp.map Plate.n ++ ev →
    ∃ t' pp', transposeLoop ps i t pp = .ok (t', pp') ∧ pp'.Perm pp ∧ t'.shape = pp'.map Plate.n ++ ev ∧
      ∀ (ι : Plate α → Nat) (e : List Nat), t'.get (pp'.map ι ++ e) = t.get (pp.map ι ++ e) := by
  induction ps with
  | nil => intro i t pp _ _ hs; exact ⟨t, pp, rfl, List.Perm.refl _, hs, fun _ _ => rfl⟩
  | cons p ps ih =>
    intro i t pp hin hlen hs
    obtain ⟨hk, hpp⟩ := hin p (by simp)
    obtain ⟨j, hj, hjl, hje⟩ := indexBy_some (Plate.isIn_iff.1 hpp)
    simp only [List.length_cons] at hlen
    have hil : i < pp.length := by omega
    have hidx : p.indexIn pp = .ok j := by rw [Plate.indexIn, hk]; simp only [hj]
    rw [transposeLoop, hidx]
    simp only
    have hin' : ∀ pp' : List (Plate α), pp'.Perm pp → ∀ q ∈ ps, q.kind = .plain ∧ q.isIn pp' = true := by
      intro pp' hperm q hq
      refine ⟨(hin q (List.mem_cons_of_mem _ hq)).1, ?_⟩
      obtain ⟨x, hx, he⟩ := Plate.isIn_iff.1 (hin q (List.mem_cons_of_mem _ hq)).2
      exact Plate.isIn_iff.2 ⟨x, hperm.mem_iff.2 hx, he⟩
    by_cases hij : i ≠ j
    · rw [if_pos hij]
      have hsl : t.ndim = pp.length + ev.length := by simp [Ten.ndim, hs]
      have htr : t.transpose j i = .ok ⟨swapAt t.shape j i, fun idx => t.get (swapAt idx j i)⟩ := by
        rw [Ten.transpose, if_pos ⟨by omega, by omega⟩]
      rw [htr]
      simp only
      obtain ⟨t', pp', h1, h2, h3, h4⟩ := ih (i + 1) ⟨swapAt t.shape j i, fun idx => t.get (swapAt idx j i)⟩
        (swapAt pp j i) (hin' _ (swapAt_perm _ _ _)) (by rw [(swapAt_perm pp j i).length_eq]; omega) (by
          simp only
          rw [hs, swapAt_append_left (by simpa using hjl) (by simpa using hil), map_swapAt _ hjl hil])
      refine ⟨t', pp', h1, h2.trans (swapAt_perm _ _ _), h3, ?_⟩
      intro ι e
      rw [h4 ι e]
      simp only
      rw [map_swapAt _ hjl hil, swapAt_append_left (by simpa using hjl) (by simpa using hil),
        swapAt_swapAt (by simpa using hjl) (by simpa using hil)]
    · rw [if_neg hij]
      exact ih (i + 1) t pp (fun q hq => hin q (List.mem_cons_of_mem _ hq)) (by omega) hs

theorem appendMissing_spec {pool : List (Plate α)} (hp : PoolOK pool) (ps : List (Plate α)) :
    ∀ (pp : List (Plate α)), (∀ p ∈ ps, p ∈ pool) → (∀ p ∈ pp, p ∈ pool) → (pp.map Plate.name).Nodup →
    ∃ rest, appendMissing pp ps = pp ++ rest ∧ ((pp ++ rest).map Plate.name).Nodup ∧
      (∀ p ∈ rest, p ∈ ps ∧ p ∉ pp) ∧ ∀ p ∈ ps, p ∈ pp ++ rest := by
  induction ps with
  | nil => intro pp _ _ hn; exact ⟨[], by simp [appendMissing], by simpa using hn, by simp, by simp⟩
  | cons p ps ih =>
    intro pp hps hpp hn
    rw [appendMissing]
    have hpool := hps p (by simp)
    by_cases h : p.isInMethod pp = true
    · rw [if_pos h]
      have hm := (isInMethod_pool hp hpp hpool).1 h
      obtain ⟨rest, h1, h2, h3, h4⟩ := ih pp (fun q hq => hps q (List.mem_cons_of_mem _ hq)) hpp hn
      refine ⟨rest, h1, h2, fun q hq => ⟨List.mem_cons_of_mem _ (h3 q hq).1, (h3 q hq).2⟩, ?_⟩
      intro q hq
      rcases List.mem_cons.1 hq with rfl | hq
      · exact List.mem_append_left _ hm
      · exact h4 q hq
    · rw [if_neg h]
      have hm : p ∉ pp := fun hm => h ((isInMethod_pool hp hpp hpool).2 hm)
      obtain ⟨rest, h1, h2, h3, h4⟩ := ih (pp ++ [p]) (fun q hq => hps q (List.mem_cons_of_mem _ hq))
        (by
          intro q hq
          rcases List.mem_append.1 hq with hq | hq
          · exact hpp q hq
          · rw [List.mem_singleton.1 hq]; exact hpool)
        (by
          rw [List.map_append, List.nodup_append]
          refine ⟨hn, by simp, ?_⟩
          intro a ha b hb e
          simp only [List.map_cons, List.map_nil, List.mem_singleton] at hb
          obtain ⟨q, hq, rfl⟩ := List.mem_map.1 ha
          exact hm (pool_eq hp (hpp q hq) hpool (e.trans hb) ▸ hq))
      refine ⟨p :: rest, by simpa using h1, by simpa using h2, ?_, ?_⟩
      · intro q hq
        rcases List.mem_cons.1 hq with rfl | hq
        · exact ⟨by simp, hm⟩
        · exact ⟨List.mem_cons_of_mem _ (h3 q hq).1, fun h => (h3 q hq).2 (List.mem_append_left _ h)⟩
      · intro q hq
        rcases List.mem_cons.1 hq with rfl | hq
        · simp
        · have := h4 q hq
          simpa using this

/-- Two tensors with the same plates (in any order), the same event shape and the same values. -/
structure SameValues (a b : STen α) : Prop where
  wf : a.WF
  plates : ∀ p, p ∈ a.plates ↔ p ∈ b.plates
  event : a.eventShape = b.eventShape
  values : ∀ ι e, a.sample ι e = b.sample ι e

/-- The copy given to the estimator has the values of the stochastic tensor (inference.py:143-176). -/
theorem newParent_spec {pool : List (Plate α)} (hp : PoolOK pool) {parent rc : STen α} (h : parent.WF)
    (hs : ∀ p ∈ parent.plates, p ∈ pool) (hrc : rc.WF)
    (hsub : ∀ p ∈ rc.multiDimPlates, p ∈ parent.multiDimPlates) :
    ∃ np, newParent parent rc = .ok np ∧ SameValues np parent := by
  have hmd : ∀ p ∈ parent.multiDimPlates, p ∈ parent.plates ∧ 1 < p.n := fun p hm => by
    simpa using List.mem_filter.1 hm
  have hndr : rc.multiDimPlates.Nodup := (hrc.names.sublist (List.filter_sublist.map _)).of_map
  have hndp : (parent.multiDimPlates.map Plate.name).Nodup := h.names.sublist (List.filter_sublist.map _)
  obtain ⟨t, pp, t1, t2, t3, t4⟩ := transposeLoop_spec rc.multiDimPlates parent.eventShape 0 parent.ten
    parent.multiDimPlates
    (fun p hm => ⟨hp.plain p (hs p (hmd p (hsub p hm)).1), Plate.isIn_iff.2 ⟨p, hsub p hm, Plate.pyEq_refl _⟩⟩)
    (by rw [Nat.zero_add]; exact (List.subperm_of_subset hndr hsub).length_le) h.shape
  obtain ⟨rest, a1, a2, a3, a4⟩ := appendMissing_spec hp parent.plates pp hs
    (fun p hm => hs p (hmd p (t2.mem_iff.1 hm)).1) ((t2.map _).nodup_iff.2 hndp)
  have hrest : ∀ p ∈ rest, p.n = 1 := by
    intro p hm
    have hpos := h.pos p (a3 p hm).1
    by_contra hne
    exact (a3 p hm).2 (t2.mem_iff.2 (List.mem_filter.2 ⟨(a3 p hm).1, by simp; omega⟩))
  have hfil : (pp ++ rest).filter (fun p => decide (1 < p.n)) = pp := by
    rw [List.filter_append, List.filter_eq_self.2, List.filter_eq_nil_iff.2, List.append_nil]
    · intro p hm; rw [hrest p hm]; decide
    · intro p hm; simpa using (hmd p (t2.mem_iff.1 hm)).2
  have hmem : ∀ p, p ∈ pp ++ rest ↔ p ∈ parent.plates := by
    intro p
    constructor
    · intro hm
      rcases List.mem_append.1 hm with hm | hm
      · exact (hmd p (t2.mem_iff.1 hm)).1
      · exact (a3 p hm).1
    · exact a4 p
  obtain ⟨r, r1, r2, r3, r4, r5⟩ := checkPlates_ok_of a2 (fun p hm => h.pos p ((hmem p).1 hm)) t
    parent.eventShape (by rw [hfil]; exact t3)
  refine ⟨r, by rw [newParent, t1]; simp only [a1]; exact r1, r4, by rw [r3]; exact hmem, r5, ?_⟩
  intro ι e
  rw [STen.sample, STen.sample, r2, r5, STen.multiDimPlates, r3, hfil]
  exact t4 (fun p => ι p.name) _

theorem missing_sub {pool : List (Plate α)} (hp : PoolOK pool) {c parent rc : STen α}
    (hpar : ∀ p ∈ parent.plates, p ∈ pool) (hc : ∀ p ∈ c.plates, p ∈ pool)
    (h : ∀ p, p ∈ rc.plates ↔ p ∈ c.plates ∧ p ∉ missingPlates c parent) :
    ∀ p ∈ rc.multiDimPlates, p ∈ parent.multiDimPlates := by
  intro p hm
  obtain ⟨h1, h2⟩ := List.mem_filter.1 hm
  obtain ⟨h3, h4⟩ := (h p).1 h1
  by_contra hne
  apply h4
  refine List.mem_filter.2 ⟨List.mem_filter.2 ⟨h3, h2⟩, ?_⟩
  have : ¬ p.isInMethod parent.multiDimPlates = true := fun hi => hne
    ((isInMethod_pool hp (fun q hq => hpar q (List.mem_filter.1 hq).1) (hc p h3)).1 hi)
  simpa using this

end Storch
