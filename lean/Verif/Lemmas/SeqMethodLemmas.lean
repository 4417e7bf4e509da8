import Verif.Model.SeqMethod
import Verif.Lemmas.ImportanceRun
import Verif.Props.ImportanceProps

/-! The surrogate loss of one decoded variable. -/

namespace Storch

section
variable {α : Type _} [ValEq α]

/-- A tensor over one plate with more than one sample and no event dimensions. -/
structure OverOne (plate : Plate α) (t : STen α) : Prop where
  proper : Proper t
  over : t.plates = [plate]
  scalar : t.eventShape = []

/-- A plate with more than one sample and without parents. -/
structure LonePlate (plate : Plate α) : Prop where
  size : 2 ≤ plate.n
  kind : plate.kind = .plain
  parents : plate.parents = []

theorem LonePlate.pool {plate : Plate α} (h : LonePlate plate) : PoolOK [plate] := by
  refine ⟨by simp, by simp [h.kind], ?_⟩
  intro s hs
  have key : ∀ a b, ¬ ParentOf [plate] a b := by
    rintro a b ⟨r, hr, _, r', hr', _⟩
    rw [List.mem_singleton.1 hr, h.parents] at hr'
    cases hr'
  cases hs with
  | single h => exact key _ _ h
  | tail _ h => exact key _ _ h

theorem OverOne.multi {plate : Plate α} (hp : LonePlate plate) {t : STen α} (h : OverOne plate t) :
    t.multiDimPlates = [plate] := by
  rw [STen.multiDimPlates, h.over, List.filter_cons]
  have := hp.size
  simp
  omega

theorem LonePlate.closed {plate : Plate α} (h : LonePlate plate) : ParentClosed [plate] := by
  intro r hr r' hr'
  rw [List.mem_singleton.1 hr, h.parents] at hr'
  cases hr'

theorem OverOne.scalarOp {plate : Plate α} {t : STen α} (h : OverOne plate t) : ScalarOp [plate] (.st t false) :=
  ⟨h.proper.wf, h.scalar, by rw [h.over]; exact fun p hp => hp⟩

theorem OverOne.cost {plate : Plate α} (hp : LonePlate plate) {t : STen α} (h : OverOne plate t) : CostOK [plate] t :=
  ⟨h.scalarOp, by rw [h.over]; exact hp.closed⟩

theorem OverOne.opIs {plate : Plate α} (hp : LonePlate plate) {t : STen α} (h : OverOne plate t) :
    OpIs [plate] (.st t false) [plate.name] (fun ι => t.sample ι []) := by
  have := opIs_cost hp.pool (h.cost hp)
  rwa [h.over] at this

/-- The plate is its own order. -/
theorem order_lone {plate : Plate α} (hp : LonePlate plate) : orderPlates [plate] true = .ok [plate] := by
  obtain ⟨o, o1, o2, _⟩ := C11_complete_partial [plate] (by simp) (by
    intro r hr
    left
    intro r' hr'
    rw [List.mem_singleton.1 hr, hp.parents] at hr'
    cases hr') hp.pool.acyclic
  rw [C10_reverse, o1, List.perm_singleton.1 o2]
  rfl

/-- Nothing of the cost is reduced. -/
theorem reducedCost_lone [CommSemiring α] [Autograd α] {hook : UnwrapHook α} {plate : Plate α} (hp : LonePlate plate)
    {c t : STen α} (hc : OverOne plate c) (ht : OverOne plate t) : reducedCost hook c t = .ok c := by
  rw [reducedCost, hc.multi hp, order_lone hp]
  simp only [ht.multi hp, reduceMissing]
  have : plate.isInMethod [plate] = true := by
    rw [Plate.isInMethod]
    simp [hp.kind, Plate.isIn, memBy, Plate.pyEq_refl]
  rw [if_pos this]

/-- The copy of the stochastic tensor. -/
theorem newParent_lone {plate : Plate α} (hp : LonePlate plate) {c t : STen α} (hc : OverOne plate c) (ht : OverOne plate t) :
    ∃ np, newParent t c = .ok np ∧ OverOne plate np ∧ ∀ ι e, np.sample ι e = t.sample ι e := by
  obtain ⟨np, n1, n2⟩ := newParent_spec hp.pool ht.proper.wf (by rw [ht.over]; exact fun p h => h) hc.proper.wf
    (by rw [hc.multi hp, ht.multi hp]; exact fun p h => h)
  refine ⟨np, n1, ⟨⟨n2.wf, fun p hm => ht.proper.plain p ((n2.plates p).1 hm)⟩, ?_, by rw [n2.event, ht.scalar]⟩, n2.values⟩
  have h1 : ∀ p, p ∈ np.plates ↔ p = plate := by
    intro p; rw [n2.plates, ht.over, List.mem_singleton]
  have h2 : np.plates.Nodup := n2.wf.names.of_map
  exact List.perm_singleton.1 ((List.perm_ext_iff_of_nodup h2 (by simp)).2 (by simpa using h1))

/-- An element-wise function of tensors, of which at least the first has values. -/
theorem opSt_pair {hook : UnwrapHook α} (hh : PlainHook hook) {pool : List (Plate α)} (hp : PoolOK pool)
    (f : List α → α) {x y : STen α} {nx ny : List String} {vx vy : (String → Nat) → α}
    (hx : OpIs pool (.st x false) nx vx) (hy : OpIs pool (.st y false) ny vy) :
    ∃ r, opSt hook f [x, y] = .ok r ∧ OpIs pool (.st r false) (nx ++ ny) (fun ι => f [vx ι, vy ι]) := by
  obtain ⟨r, r1, r2, r3⟩ := opCall_pair hh hp f hx hy
  obtain ⟨t, rfl⟩ := r3 (Or.inl ⟨x, false, rfl⟩)
  refine ⟨t, ?_, r2⟩
  rw [opSt, List.map_cons, List.map_cons, List.map_nil, r1]

theorem opSt_one {hook : UnwrapHook α} (hh : PlainHook hook) {pool : List (Plate α)} (hp : PoolOK pool)
    (f : List α → α) {x : STen α} {nx : List String} {vx : (String → Nat) → α}
    (hx : OpIs pool (.st x false) nx vx) :
    ∃ r, opSt hook f [x] = .ok r ∧ OpIs pool (.st r false) nx (fun ι => f [vx ι]) := by
  have hs : x.WF ∧ x.eventShape = [] ∧ ∀ p ∈ x.plates, p ∈ pool := hx.scalar
  obtain ⟨r, r1, r2, r3, r4, r5⟩ := opSt_unop hh f (t := x) ⟨hs.1, fun p hm => hp.plain p (hs.2.2 p hm)⟩
  refine ⟨r, r1, ⟨⟨r2.wf, by rw [r4, hs.2.1], by rw [r3]; exact hs.2.2⟩, ?_, ?_, ?_⟩⟩
  · show ParentClosed r.plates
    rw [r3]; exact hx.closed
  · intro p hm
    show p ∈ r.plates ↔ _
    rw [r3]; exact hx.names p hm
  · intro ι
    show r.sample ι [] = _
    rw [r5 ι [] (by rw [hs.2.1]; exact .nil)]
    exact congrArg (fun y => f [y]) (hx.val ι)

/-- Which tensors over the pool of one plate are over the plate. -/
theorem overOne_of_opIs {plate : Plate α} (hp : LonePlate plate) {x : STen α} {ns : List String} {v : (String → Nat) → α}
    (h : OpIs [plate] (.st x false) ns v) (hn : plate.name ∈ ns) : OverOne plate x := by
  have hs : x.WF ∧ x.eventShape = [] ∧ ∀ p ∈ x.plates, p ∈ [plate] := h.scalar
  have hm : plate ∈ x.plates := (h.names plate (by simp)).2 hn
  refine ⟨⟨hs.1, fun p hp' => hp.pool.plain p (hs.2.2 p hp')⟩, ?_, hs.2.1⟩
  exact List.perm_singleton.1 ((List.perm_ext_iff_of_nodup hs.1.names.of_map (by simp)).2
    (fun p => ⟨hs.2.2 p, fun hp' => List.mem_singleton.1 hp' ▸ hm⟩))

/-- The sum over the plate. -/
theorem storchSum_lone [AddCommMonoid α] {hook : UnwrapHook α} (hh : PlainHook hook) {plate : Plate α} (hp : LonePlate plate)
    {x : STen α} {ns : List String} {v : (String → Nat) → α} (h : OpIs [plate] (.st x false) ns v) (hn : plate.name ∈ ns) :
    ∃ r, storchSum hook x plate.name = .ok r ∧
      OpIs [plate] (.st r false) [] (fun ι => ∑ k ∈ Finset.range plate.n, v (Function.update ι plate.name k)) := by
  have ho := overOne_of_opIs hp h hn
  obtain ⟨r, r1, r2, r3, r4, r5⟩ := storchSum_spec hh ho.proper (p := plate) (by rw [ho.multi hp]; simp)
  have hpl : r.plates = [] := by rw [r3, ho.over, dropPlate]; simp
  refine ⟨r, r1, ⟨⟨r2.wf, by rw [r4, ho.scalar], by rw [hpl]; simp⟩, ?_, ?_, ?_⟩⟩
  · show ParentClosed r.plates
    rw [hpl]; intro p hm; cases hm
  · intro p _
    show p ∈ r.plates ↔ _
    rw [hpl]; simp
  · intro ι
    show r.sample ι [] = _
    rw [r5]
    exact Finset.sum_congr rfl (fun k _ => h.val _)

end

section
variable {E : Type _} {θ₀ : E}

/-- The surrogate loss of one decoded variable with an estimator that returns `l c` as gradient function for the cost `c`
and no control variate. -/
theorem decoded_loss {hook : UnwrapHook (AD E θ₀)} (hh : PlainHook hook) {plate : Plate (AD E θ₀)} (hp : LonePlate plate)
    (hw : WeightOK plate) {x : STen (AD E θ₀)} (hx : OverOne plate x)
    {est : STen (AD E θ₀) → STen (AD E θ₀) → Except Err (Option (Operand (AD E θ₀)) × Option (Operand (AD E θ₀)))}
    {ns : List String} {l : ((String → Nat) → AD E θ₀) → (String → Nat) → AD E θ₀}
    (hest : ∀ np c, OverOne plate np → OverOne plate c →
      ∃ g, est np c = .ok (some (.st g false), none) ∧ OpIs [plate] (.st g false) ns (l (fun ι => c.sample ι [])))
    {costs : List (E → ℝ → ℝ)} (hne : costs ≠ []) :
    ∃ cs, importanceCosts hook x ⟨x, false, est⟩ costs = .ok cs ∧ ∃ r, surrogateLoss hook cs = .ok r ∧ r.plates = [] ∧
      r.ten.shape = [] ∧ ∀ θ, r.ten.get [] θ = (costs.map (fun f => ((List.range plate.n).map (fun i =>
        let ι := Function.update (fun _ => 0) plate.name i
        let L := l (fun ι θ => f θ (x.sample ι [] θ)) ι
        plate.weightAt id ι θ * (Real.exp (L θ - L θ₀) * f θ (x.sample ι [] θ)))).sum)).sum := by
  obtain ⟨cs, c1, c2⟩ := importanceCosts_spec hh hx.proper hx.scalar ⟨x, false, est⟩ costs
  refine ⟨cs, c1, ?_⟩
  set es : List (STen (AD E θ₀) × List (Est (AD E θ₀))) :=
    cs.map (fun c => (c.1, [⟨ns, l (fun ι => c.1.sample ι []), none⟩])) with hes
  have hcon : List.Forall₂ (CostContributes hook [plate]) cs es := by
    rw [hes, List.forall₂_map_right_iff]
    have : ∀ c ∈ cs, Proper c.1 ∧ c.1.plates = x.plates ∧ c.1.eventShape = [] ∧ c.2 = [⟨x, false, est⟩] := by
      intro c hc
      obtain ⟨f, _, hf⟩ := forall₂_mem_left c2 hc
      exact ⟨hf.1, hf.2.1, hf.2.2.1, hf.2.2.2.1⟩
    rw [List.forall₂_same]
    intro c hc
    obtain ⟨h1, h2, h3, h4⟩ := this c hc
    have ho : OverOne plate c.1 := ⟨h1, by rw [h2, hx.over], h3⟩
    refine ⟨rfl, ho.cost hp, ?_⟩
    rw [h4]
    obtain ⟨np, n1, n2, n3⟩ := newParent_lone hp ho hx
    obtain ⟨g, g1, g2⟩ := hest np c.1 n2 ho
    exact .cons (Or.inr ⟨c.1, np, _, _, reducedCost_lone hp ho hx, n1, g1, rfl, g2, trivial⟩) .nil
  have hcs : cs ≠ [] := by
    rintro rfl
    cases c2
    exact hne rfl
  obtain ⟨r, r1, r2, r3, r4⟩ := surrogateLoss_any hh hp.pool (fun p hm => List.mem_singleton.1 hm ▸ hw) hcs hcon
  refine ⟨r, r1, r2, r3, ?_⟩
  intro θ
  have hcost : ∀ (c : STen (AD E θ₀) × List (Sampled (AD E θ₀))) (f : E → ℝ → ℝ),
      (Proper c.1 ∧ c.1.plates = x.plates ∧ c.1.eventShape = [] ∧ c.2 = [⟨x, false, est⟩] ∧
        ∀ ι θ, c.1.sample ι [] θ = f θ (x.sample ι [] θ)) →
      AD.eval θ (costTotal [plate] c.1 [⟨ns, l (fun ι => c.1.sample ι []), none⟩]) =
      ((List.range plate.n).map (fun i =>
        let ι := Function.update (fun _ => 0) plate.name i
        let L := l (fun ι θ => f θ (x.sample ι [] θ)) ι
        plate.weightAt id ι θ * (Real.exp (L θ - L θ₀) * f θ (x.sample ι [] θ)))).sum := by
    rintro c f ⟨h1, h2, h3, h4, h5⟩
    have hsame : (fun ι => c.1.sample ι []) = fun ι θ => f θ (x.sample ι [] θ) := by
      funext ι θ; exact h5 ι θ
    rw [costTotal, cvTotal_none [plate] (by simp), zero_add, boxTotal, hsame]
    have hn : named [plate] ((List.flatMap Est.names [(⟨ns, l fun ι θ => f θ (x.sample ι [] θ), none⟩ : Est (AD E θ₀))]) ++
        c.1.plates.map Plate.name) = [plate] := by
      rw [named, List.filter_cons, if_pos (by rw [h2, hx.over]; simp)]
      rfl
    rw [hn, AD.eval_apply, total_eval]
    have hidx : allIdx ([plate].map Plate.n) = (List.range plate.n).map (fun i => [i]) := by
      simp [allIdx, List.map_eq_flatMap]
    rw [hidx, List.map_map]
    congr 1
    apply List.map_congr_left
    intro i _
    simp only [Function.comp, jointWeight, List.map_cons, List.map_nil, List.prod_cons, List.prod_nil, mul_one, assign,
      AD.eval_apply, List.sum_cons, List.sum_nil, add_zero]
    congr 1
    exact congrArg _ (h5 _ θ)
  have hsum : r.ten.get [] θ = (cs.map (fun c =>
      AD.eval θ (costTotal [plate] c.1 [⟨ns, l (fun ι => c.1.sample ι []), none⟩]))).sum := by
    have := map_list_sum (AD.eval θ (θ₀ := θ₀)) (es.map (fun x => costTotal [plate] x.1 x.2))
    rw [r4, lossTotal]
    refine (AD.eval_apply θ _).symm.trans (this.trans ?_)
    rw [hes, List.map_map, List.map_map]
    rfl
  rw [hsum]
  clear r1 r4 hcon c1 hsum
  congr 1
  clear hcs hne hes es
  induction c2 with
  | nil => rfl
  | cons h _ ih => rw [List.map_cons, List.map_cons, ih, hcost _ _ h]

end

section
variable {α : Type _} [ValEq α]

/-- The tensor and the plate of a decoded variable. -/
theorem decodedTensor_spec [Zero α] (name : String) {values weights : List α} (hl : weights.length = values.length)
    (hn : 2 ≤ values.length) : ∃ x plate, decodedTensor name values weights = .ok (x, plate) ∧ LonePlate plate ∧
      WeightOK plate ∧ OverOne plate x ∧ plate.name = name ∧ plate.n = values.length ∧
      (∀ ι, x.sample ι [] = values.getD (ι name) 0) ∧ ∀ ι, plate.weightAt id ι = weights.getD (ι name) 0 := by
  set plate := Plate.mk name values.length (.storch (Ten.vec weights) [name]) .plain [] with hplate
  have hpn : plate.n = values.length := rfl
  have hlone : LonePlate plate := ⟨hn, rfl, rfl⟩
  have hf : ([plate].filter (fun p => p.n ≠ 1)) = [plate] := by
    rw [List.filter_cons, if_pos (by simp [hpn]; omega)]
    rfl
  have hmk : STen.mk' (Ten.vec values) [plate] = .ok ⟨Ten.vec values, [plate], 1⟩ := by
    rw [STen.mk', (checkPlates_ok_iff _ _ _ _ 1).2]
    refine ⟨by simp, by simp, ?_, ?_⟩
    · rw [hf, List.drop_zero]
      exact ⟨[], by simp [Ten.vec, hpn]⟩
    · rw [hf]; simp
  have hm : (⟨Ten.vec values, [plate], 1⟩ : STen α).multiDimPlates = [plate] := by
    rw [STen.multiDimPlates, List.filter_cons]
    simp [hpn]
    omega
  have he : (⟨Ten.vec values, [plate], 1⟩ : STen α).eventShape = [] := by rw [STen.eventShape]; simp [Ten.vec]
  have hw1 : plate.weightPlates [name] = [plate] := by
    rw [Plate.weightPlates]
    simp [hplate, Plate.name, Plate.parents]
  have hw2 : [plate].filter (fun q => decide (1 < q.n)) = [plate] := by
    rw [List.filter_cons, if_pos (by simp [hpn]; omega)]
    rfl
  refine ⟨⟨Ten.vec values, [plate], 1⟩, plate, ?_, hlone, ?_, ⟨⟨⟨by simp, ?_, ?_, ?_⟩, ?_⟩, rfl, he⟩, rfl, rfl, ?_, ?_⟩
  · rw [decodedTensor]
    simp only [← hplate, hmk]
  · refine .storch (Ten.vec weights) [name] rfl (by omega) (by simp) (by simp [hplate, Plate.name]) (by simp [hplate, Plate.name]) ?_
    rw [hw1, hw2]
    simp [Ten.vec, hl, hpn]
  · simp [hpn]; omega
  · rw [hm, he]; simp [Ten.vec, hpn]
  · rw [hm]; rfl
  · simp [hlone.kind]
  · intro ι
    rw [STen.sample, hm, he]
    simp [Ten.bidx, Ten.vec, hplate, Plate.name]
  · intro ι
    rw [Plate.weightAt]
    show (Ten.vec weights).get (((plate.weightPlates [name]).filter (fun q => decide (1 < q.n))).map (fun q => ι q.name)) = _
    rw [hw1, hw2]
    simp [Ten.vec, hplate, Plate.name]

theorem OverOne.plateDims {plate : Plate α} (hp : LonePlate plate) {t : STen α} (h : OverOne plate t) : t.plateDims = 1 := by
  have := h.proper.wf.dims
  rw [h.multi hp] at this
  exact this

theorem OverOne.shape {plate : Plate α} (hp : LonePlate plate) {t : STen α} (h : OverOne plate t) : t.ten.shape = [plate.n] := by
  have := h.proper.wf.shape
  rw [h.multi hp, h.scalar] at this
  simpa using this

theorem OverOne.sample {plate : Plate α} (hp : LonePlate plate) {t : STen α} (h : OverOne plate t) (ι : String → Nat) :
    t.sample ι [] = t.ten.get [ι plate.name] := by
  rw [STen.sample, h.multi hp, h.scalar]
  simp [Ten.bidx]

/-- A tensor over the plate given by its elements. -/
theorem overOne_mk {plate : Plate α} (hp : LonePlate plate) {t : Ten α} (h : t.shape = [plate.n]) :
    OverOne plate (⟨t, [plate], 1⟩ : STen α) := by
  have hm : (⟨t, [plate], 1⟩ : STen α).multiDimPlates = [plate] := by
    have := hp.size
    rw [STen.multiDimPlates, List.filter_cons, if_pos (by simp; omega)]
    rfl
  have he : (⟨t, [plate], 1⟩ : STen α).eventShape = [] := by rw [STen.eventShape]; simp [h]
  refine ⟨⟨⟨by simp, ?_, ?_, ?_⟩, ?_⟩, rfl, he⟩
  · have := hp.size; simp; omega
  · rw [hm, he]; simp [h]
  · rw [hm]; rfl
  · simp [hp.kind]

theorem OverOne.getPlate {plate : Plate α} {t : STen α} (h : OverOne plate t) : t.getPlate plate.name = .ok plate := by
  rw [STen.getPlate, h.over]
  simp

theorem OverOne.index {plate : Plate α} (hp : LonePlate plate) {t : STen α} (h : OverOne plate t) :
    t.plateDimIndex plate.name = .ok 0 := by
  rw [STen.plateDimIndex, h.multi hp]
  have := indexBy_name (L1 := ([] : List (Plate α))) (L2 := []) (p := plate) (by simp)
  rw [List.nil_append] at this
  rw [this]
  rfl

/-- The gradient function of `RaoBlackwellSF`: the log-probability of the last sample, converted to the type of the
samples, if there are `k` samples. -/
theorem rbEstimator_spec [CommRing α] {hook : UnwrapHook α} (hh : PlainHook hook) (cast : α → α) {k : Nat} (hk : 1 ≤ k)
    {plate : Plate α} (hp : LonePlate plate) {lp : List α} (hl : lp.length = plate.n) {np c : STen α}
    (hnp : OverOne plate np) (hc : OverOne plate c) :
    ∃ g, rbEstimator hook cast k plate.name (Ten.vec lp) np c = .ok (some (.st g false), none) ∧
      OpIs [plate] (.st g false) [plate.name]
        (fun ι => if plate.n = k ∧ ι plate.name = k - 1 then cast (lp.getD (k - 1) 0) else 0) := by
  obtain ⟨z, z1, z2⟩ := opSt_one hh hp.pool (fun _ => (0 : α)) (hc.opIs hp)
  have hz := overOne_of_opIs hp z2 (by simp)
  rw [rbEstimator, z1]
  simp only [hnp.getPlate]
  by_cases hkn : plate.n = k
  · rw [if_pos hkn]
    simp only [hnp.index hp]
    have hs1 : (Ten.vec lp).selectDim 0 (k - 1) = .ok ⟨[], fun idx => (Ten.vec lp).get (idx.insertIdx 0 (k - 1))⟩ := by
      rw [Ten.selectDim]
      simp only [Ten.vec, List.getElem?_cons_zero]
      rw [if_pos (by omega)]
      rfl
    rw [hs1]
    simp only
    have hs2 : z.ten.setDim cast 0 (k - 1) ⟨[], fun idx => (Ten.vec lp).get (idx.insertIdx 0 (k - 1))⟩ =
        .ok ⟨[plate.n], fun idx => if idx[0]? = some (k - 1) then cast ((Ten.vec lp).get ([k - 1])) else z.ten.get idx⟩ := by
      rw [Ten.setDim, hz.shape hp]
      simp only [List.getElem?_cons_zero]
      rw [if_pos (by omega), if_pos (by rfl)]
      simp [Ten.bidx]
    rw [hs2]
    simp only [hz.over, hz.plateDims hp]
    set T : Ten α := ⟨[plate.n], fun idx => if idx[0]? = some (k - 1) then cast ((Ten.vec lp).get ([k - 1])) else z.ten.get idx⟩
    have hT := overOne_mk hp (t := T) rfl
    refine ⟨_, rfl, ?_⟩
    have h1 := hT.opIs hp
    refine ⟨h1.scalar, h1.closed, h1.names, ?_⟩
    intro ι
    rw [h1.val, hT.sample hp]
    show (if [ι plate.name][0]? = some (k - 1) then cast ((Ten.vec lp).get ([k - 1])) else z.ten.get [ι plate.name]) = _
    simp only [List.getElem?_cons_zero, Option.some.injEq]
    by_cases hi : ι plate.name = k - 1
    · rw [if_pos hi, if_pos ⟨hkn, hi⟩]
      rfl
    · rw [if_neg hi, if_neg (fun h => hi h.2), ← hz.sample hp]
      exact z2.val ι
  · rw [if_neg hkn]
    refine ⟨z, rfl, z2.scalar, z2.closed, z2.names, ?_⟩
    intro ι
    rw [if_neg (fun h => hkn h.1)]
    exact z2.val ι

end

end Storch
