import Verif.Lemmas.WeightedLemmas
import Mathlib.Analysis.SpecialFunctions.ExpDeriv
import Mathlib.Analysis.Calculus.ContDiff.Operations

/-!
# C32, C33: `magic_box` and the value of the surrogate loss

Elements of tensors are functions of the parameters (`Verif.Model.AD`); the current parameters are `θ₀`.
-/

namespace Storch

section box
variable {E : Type _} {θ₀ : E}

/-- `magic_box` on a tensor with any plates and any event shape. -/
theorem magicBox_elements {hook : UnwrapHook (AD E θ₀)} (hh : PlainHook hook) {t : STen (AD E θ₀)}
    (h : Proper t) :
    ∃ r, magicBox hook (.st t false) = .ok (.st r false) ∧ r.plates = t.plates ∧
      r.eventShape = t.eventShape ∧ ∀ ι e, Ten.InB e t.eventShape →
        r.sample ι e = fun θ => Real.exp (t.sample ι e θ - t.sample ι e θ₀) := by
  obtain ⟨d, d1, d2, d3, d4, d5⟩ := unop_call hh detachElts h
  obtain ⟨s, s1, s2, s3, s4, s5⟩ := binop_call hh subElts h d2
    (by rw [d3]; exact fun q hq => Plate.isIn_iff.2 ⟨q, hq, Plate.pyEq_refl _⟩) 0 (by simpa using d4)
  obtain ⟨r, r1, r2, r3, r4, r5⟩ := unop_call hh expElts s2
  refine ⟨r, ?_, r3.trans s3, r4.trans (s4.trans d4), ?_⟩
  · simp only [magicBox, opCall, d1, s1, r1]
  · intro ι e he
    rw [r5 ι e (by rw [s4, d4]; exact he), s5 ι e (by rw [d4]; exact he), d5 ι e he]
    rfl

/-- C32: `magic_box` evaluates to one everywhere, whatever its argument. -/
theorem C32_value {hook : UnwrapHook (AD E θ₀)} (hh : PlainHook hook) {t : STen (AD E θ₀)} (h : Proper t) :
    ∃ r, magicBox hook (.st t false) = .ok (.st r false) ∧ r.plates = t.plates ∧
      r.eventShape = t.eventShape ∧ ∀ ι e, Ten.InB e t.eventShape → (r.sample ι e).val = 1 := by
  obtain ⟨r, h1, h2, h3, h4⟩ := magicBox_elements hh h
  refine ⟨r, h1, h2, h3, fun ι e he => ?_⟩
  rw [h4 ι e he]
  show Real.exp (_ - _) = 1
  rw [sub_self, Real.exp_zero]

end box

section deriv
variable {E : Type _} [NormedAddCommGroup E] [NormedSpace ℝ E] {θ₀ : E}

/-- C32: the derivative of `magic_box(l)` is `magic_box(l)` times the derivative of `l`, at every point (so
the same holds for the derivatives of higher order). -/
theorem C32_derivative {hook : UnwrapHook (AD E θ₀)} (hh : PlainHook hook) {t : STen (AD E θ₀)} (h : Proper t)
    {r : STen (AD E θ₀)} (hr : magicBox hook (.st t false) = .ok (.st r false)) {ι : String → Nat} {e : List Nat}
    (he : Ten.InB e t.eventShape) {θ : E} {l' : E →L[ℝ] ℝ}
    (hl : HasFDerivAt (fun θ => t.sample ι e θ) l' θ) :
    HasFDerivAt (fun θ => r.sample ι e θ) (r.sample ι e θ • l') θ := by
  obtain ⟨r', h1, _, _, h4⟩ := magicBox_elements hh h
  rw [hr] at h1
  cases h1
  rw [h4 ι e he]
  exact (hl.sub_const _).exp

/-- C32: the derivatives of every order of `magic_box(l) * x` are those of `exp(l) * x` divided by the
current value of `exp(l)`. -/
theorem C32_all_orders {hook : UnwrapHook (AD E θ₀)} (hh : PlainHook hook) {t : STen (AD E θ₀)} (h : Proper t)
    {r : STen (AD E θ₀)} (hr : magicBox hook (.st t false) = .ok (.st r false)) {ι : String → Nat} {e : List Nat}
    (he : Ten.InB e t.eventShape) (n : ℕ) {θ : E} {x : E → ℝ}
    (hl : ContDiffAt ℝ n (fun θ => t.sample ι e θ) θ) (hx : ContDiffAt ℝ n x θ) :
    iteratedFDeriv ℝ n (fun θ => r.sample ι e θ * x θ) θ =
      (Real.exp (t.sample ι e θ₀))⁻¹ • iteratedFDeriv ℝ n (fun θ => Real.exp (t.sample ι e θ) * x θ) θ := by
  obtain ⟨r', h1, _, _, h4⟩ := magicBox_elements hh h
  rw [hr] at h1
  cases h1
  rw [h4 ι e he]
  rw [← iteratedFDeriv_const_smul_apply' (hl.exp.mul hx)]
  congr 1
  funext θ
  simp only [smul_eq_mul]
  rw [Real.exp_sub, div_eq_inv_mul, mul_assoc]

end deriv

/-! ### The value of the surrogate loss -/

section value
variable {E : Type _} {θ₀ : E}

/-- The weighted average of a cost over all its plates. -/
noncomputable def averageCost (c : STen (AD E θ₀)) : ℝ :=
  (weightedTotal id c.plates (fun ι => c.sample ι []) (fun _ => 0)).val

theorem total_val (ps : List (Plate (AD E θ₀))) {v v' : (String → Nat) → AD E θ₀} (θ : E)
    (h : ∀ ι, v ι θ = v' ι θ) (ι : String → Nat) : weightedTotal id ps v ι θ = weightedTotal id ps v' ι θ := by
  have key : ∀ v : (String → Nat) → AD E θ₀, weightedTotal id ps v ι θ =
      ((allIdx (ps.map Plate.n)).map (fun idx =>
        AD.eval θ ((ps.map (fun p => p.weightAt id (assign ps idx ι))).prod) * v (assign ps idx ι) θ)).sum := by
    intro v
    have := map_list_sum (AD.eval θ (θ₀ := θ₀)) ((allIdx (ps.map Plate.n)).map (fun idx =>
      (ps.map (fun p => p.weightAt id (assign ps idx ι))).prod * v (assign ps idx ι)))
    rw [AD.eval_apply, List.map_map] at this
    rw [weightedTotal, this]
    congr 1
  rw [key, key]
  simp only [h]

theorem boxElt_val (x : AD E θ₀) : boxElt x θ₀ = 1 := by
  show Real.exp (x θ₀ - x θ₀) = 1
  rw [sub_self, Real.exp_zero]

theorem boxTotal_val (pool : List (Plate (AD E θ₀))) (ns : List String) (l v : (String → Nat) → AD E θ₀) :
    boxTotal pool ns l v θ₀ = weightedTotal id (named pool ns) v (fun _ => 0) θ₀ := by
  apply total_val
  intro ι
  rw [AD.mul_apply, boxElt_val, one_mul]

theorem total_zero_val (ps : List (Plate (AD E θ₀))) {v : (String → Nat) → AD E θ₀} (θ : E)
    (h : ∀ ι, v ι θ = 0) (ι : String → Nat) : weightedTotal id ps v ι θ = 0 := by
  rw [total_val ps (v' := fun _ => 0) θ h, weightedTotal]
  simp

theorem cvTotal_val (pool : List (Plate (AD E θ₀))) (es : List (Est (AD E θ₀)))
    (h : ∀ e ∈ es, ∀ ns v, e.cv = some (ns, v) → ∀ ι, v ι θ₀ = 0) :
    ∀ ns l, cvTotal pool es ns l θ₀ = 0 := by
  induction es with
  | nil => intro ns l; rfl
  | cons e es ih =>
    intro ns l
    rw [cvTotal, AD.add_apply, ih (fun e he => h e (List.mem_cons_of_mem _ he)), add_zero]
    cases hcv : e.cv with
    | none => rfl
    | some x =>
      obtain ⟨ns', v⟩ := x
      simp only
      rw [boxTotal_val]
      exact total_zero_val _ _ (h e (by simp) ns' v hcv) _

end value

section extra
variable {α : Type _}

/-- The value does not look at the position along the plates `qs`. -/
def IndependentOf (qs : List (Plate α)) (v : (String → Nat) → α) : Prop :=
  ∀ q ∈ qs, ∀ ι k, v (Function.update ι q.name k) = v ι

/-- Plates whose weights sum to one, and which neither the value nor the other weights depend on, do not change the
total. -/
theorem total_extra_free [CommSemiring α] {ps qs : List (Plate α)} (hn : ((ps ++ qs).map Plate.name).Nodup)
    (hfree : ∀ p ∈ ps ++ qs, ∀ q ∈ qs, p.name ≠ q.name → ∀ ι k,
      p.weightAt id (Function.update ι q.name k) = p.weightAt id ι)
    (h1 : ∀ q ∈ qs, ∀ ι, ∑ k ∈ Finset.range q.n, q.weightAt id (Function.update ι q.name k) = 1)
    {v : (String → Nat) → α} (hv : IndependentOf qs v) (ι : String → Nat) :
    weightedTotal id (ps ++ qs) v ι = weightedTotal id ps v ι := by
  rw [weightedTotal, weightedTotal,
    ← nestSum_eq (ps ++ qs) (fun ι => ((ps ++ qs).map (fun p => p.weightAt id ι)).prod * v ι) ι,
    ← nestSum_eq ps (fun ι => (ps.map (fun p => p.weightAt id ι)).prod * v ι) ι, nestSum_append]
  apply nestSum_congr
  have key : ∀ (qs' : List (Plate α)) (A : (String → Nat) → α), (∀ q ∈ qs', q ∈ qs) → (qs'.map Plate.name).Nodup →
      (∀ q ∈ qs', ∀ ι k, A (Function.update ι q.name k) = A ι) → ∀ ι,
      nestSum qs' (fun ι => A ι * (qs'.map (fun p => p.weightAt id ι)).prod) ι = A ι := by
    intro qs'
    induction qs' with
    | nil => intro A _ _ _ ι; simp [nestSum]
    | cons q qs' ih =>
      intro A hs hnd hA ι
      simp only [List.map_cons, List.nodup_cons] at hnd
      rw [nestSum]
      have : ∀ k, nestSum qs' (fun ι => A ι * ((q :: qs').map (fun p => p.weightAt id ι)).prod)
          (Function.update ι q.name k) = A ι * q.weightAt id (Function.update ι q.name k) := by
        intro k
        have h2 := ih (fun ι => A ι * q.weightAt id ι) (fun x hx => hs x (List.mem_cons_of_mem _ hx)) hnd.2 (by
          intro x hx ι k
          rw [hA x (List.mem_cons_of_mem _ hx), hfree q (List.mem_append_right _ (hs q (by simp))) x
            (hs x (List.mem_cons_of_mem _ hx))]
          intro e
          exact hnd.1 (e ▸ List.mem_map_of_mem hx)) (Function.update ι q.name k)
        simp only [hA q (by simp)] at h2
        rw [← h2]
        apply nestSum_congr
        intro ι
        rw [List.map_cons, List.prod_cons, mul_assoc]
      simp only [this]
      rw [← Finset.mul_sum, h1 q (hs q (by simp)), mul_one]
  rw [List.map_append, List.nodup_append] at hn
  intro ι
  rw [← key qs (fun ι => (ps.map (fun p => p.weightAt id ι)).prod * v ι) (fun _ h => h) hn.2.1 (by
    intro q hq ι k
    rw [hv q hq]
    congr 2
    apply List.map_congr_left
    intro p hp
    exact hfree p (List.mem_append_left _ hp) q hq
      (hn.2.2 _ (List.mem_map_of_mem hp) _ (List.mem_map_of_mem hq)) ι k) ι]
  apply nestSum_congr
  intro ι
  rw [List.map_append, List.prod_append]
  ring

/-- Plates whose weights sum to one and which the value does not depend on do not change the total. -/
theorem total_extra [CommSemiring α] {ps qs : List (Plate α)}
    (hn : ((ps ++ qs).map Plate.name).Nodup) (hw : ∀ p ∈ ps ++ qs, ∃ w, p.weight = .torch w)
    (h1 : ∀ q ∈ qs, ∀ ι, ∑ k ∈ Finset.range q.n, q.weightAt id (Function.update ι q.name k) = 1)
    {v : (String → Nat) → α} (hv : IndependentOf qs v) (ι : String → Nat) :
    weightedTotal id (ps ++ qs) v ι = weightedTotal id ps v ι := by
  refine total_extra_free hn ?_ h1 hv ι
  intro p hp q hq hne ι k
  apply weightAt_update id k ι hne
  intro w names hw'
  obtain ⟨w', e⟩ := hw p hp
  rw [e] at hw'; cases hw'

/-- The value of a tensor does not depend on plates it does not have. -/
theorem sample_indep {t : STen α} {qs : List (Plate α)} (h : ∀ q ∈ qs, q.name ∉ t.plates.map Plate.name)
    (e : List Nat) : IndependentOf qs (fun ι => t.sample ι e) := by
  intro q hq ι k
  simp only [STen.sample]
  congr 2
  apply map_update_of_notMem
  intro hm
  obtain ⟨p, hp, he⟩ := List.mem_map.1 hm
  exact h q hq (he ▸ List.mem_map_of_mem (List.mem_filter.1 hp).1)

end extra

/-! ### C33 -/

section C33
variable {E : Type _} {θ₀ : E}

/-- The weights of the plate sum to one. -/
def Plate.Normalised {α : Type _} [Semiring α] (p : Plate α) : Prop :=
  ∀ ι, ∑ k ∈ Finset.range p.n, p.weightAt id (Function.update ι p.name k) = 1

/-- Every plate a gradient function brings in is a plate of the cost or has torch weights that sum to one. -/
def ExtraNormalised {α : Type _} [Semiring α] (pool : List (Plate α)) (c : STen α) (es : List (Est α)) : Prop :=
  ∀ p ∈ pool, p.name ∈ es.flatMap Est.names → p.name ∉ c.plates.map Plate.name →
    p.Normalised ∧ ∃ w, p.weight = .torch w

theorem named_total {α : Type _} [ValEq α] [CommRing α] {pool : List (Plate α)} (hp : PoolOK pool)
    {c : STen α} (hc : CostOK pool c) {es : List (Est α)}
    (he : ExtraNormalised pool c es) {v : (String → Nat) → α}
    (hv : ∀ q : Plate α, q.name ∉ c.plates.map Plate.name → ∀ ι k, v (Function.update ι q.name k) = v ι)
    (ι : String → Nat) :
    weightedTotal id (named pool (es.flatMap Est.names ++ c.plates.map Plate.name)) v ι =
      weightedTotal id c.plates v ι := by
  let extra := pool.filter (fun p => decide (p.name ∈ es.flatMap Est.names ∧ p.name ∉ c.plates.map Plate.name))
  have hex : ∀ p ∈ extra, p ∈ pool ∧ p.name ∈ es.flatMap Est.names ∧ p.name ∉ c.plates.map Plate.name := by
    intro p hm; simpa [extra] using hm
  have hnd : ((c.plates ++ extra).map Plate.name).Nodup := by
    rw [List.map_append, List.nodup_append]
    refine ⟨hc.scalar.nodup, hp.names.sublist (List.filter_sublist.map _), ?_⟩
    rintro a ha b hb rfl
    obtain ⟨p, hm, rfl⟩ := List.mem_map.1 hb
    exact (hex p hm).2.2 ha
  have hperm : (named pool (es.flatMap Est.names ++ c.plates.map Plate.name)).Perm (c.plates ++ extra) := by
    apply perm_of_pool hp.names (hp.names.sublist (List.filter_sublist.map _)) hnd
    intro p
    have hcp : p ∈ pool → (p ∈ c.plates ↔ p.name ∈ c.plates.map Plate.name) :=
      fun hm => (opIs_cost hp hc).names p hm
    constructor
    · intro hm
      have hm := List.mem_filter.1 hm
      by_cases hcn : p.name ∈ c.plates.map Plate.name
      · exact List.mem_append_left _ ((hcp hm.1).2 hcn)
      · refine List.mem_append_right _ (List.mem_filter.2 ⟨hm.1, ?_⟩)
        have h2 := of_decide_eq_true hm.2
        rw [List.mem_append] at h2
        exact decide_eq_true ⟨h2.resolve_right hcn, hcn⟩
    · intro hm
      rcases List.mem_append.1 hm with hm | hm
      · exact List.mem_filter.2 ⟨hc.scalar.sub p hm, decide_eq_true
          (List.mem_append_right _ (List.mem_map_of_mem hm))⟩
      · exact List.mem_filter.2 ⟨(hex p hm).1, decide_eq_true (List.mem_append_left _ (hex p hm).2.1)⟩
  rw [weightedTotal_perm id hperm hnd]
  apply total_extra_free hnd
  · intro p hm q hq hne ι k
    apply weightAt_update id k ι hne
    intro w names hw'
    rcases List.mem_append.1 hm with hm | hm
    · intro hq'
      obtain ⟨x, hx, hxe⟩ := List.mem_map.1 hq'
      obtain ⟨y, hy, hye⟩ := hc.closed p hm x hx
      exact (hex q hq).2.2 (List.mem_map.2 ⟨y, hy, (Plate.pyEq_name hye).trans hxe⟩)
    · obtain ⟨w', e⟩ := (he p (hex p hm).1 (hex p hm).2.1 (hex p hm).2.2).2
      rw [e] at hw'; cases hw'
  · intro q hq
    exact (he q (hex q hq).1 (hex q hq).2.1 (hex q hq).2.2).1
  · intro q hq ι k
    exact hv q (hex q hq).2.2 ι k

theorem costTotal_val {pool : List (Plate (AD E θ₀))} (hp : PoolOK pool)
    {c : STen (AD E θ₀)} (hc : CostOK pool c) {es : List (Est (AD E θ₀))}
    (he : ExtraNormalised pool c es)
    (hz : ∀ e ∈ es, ∀ ns v, e.cv = some (ns, v) → ∀ ι, v ι θ₀ = 0) :
    (costTotal pool c es).val = averageCost c := by
  show costTotal pool c es θ₀ = _
  rw [costTotal, AD.add_apply, cvTotal_val pool es hz, zero_add, boxTotal_val,
    named_total hp hc he (v := fun ι => c.sample ι [])
      (fun q hq ι k => sample_indep (qs := [q]) (by simpa using hq) [] q (by simp) ι k)]
  rfl

/-- C33: when every control variate evaluates to zero, the surrogate loss evaluates to the sum over the
costs of their weighted averages over all plates.
The weights may be torch tensors or storch tensors.  Missing: costs that lack a plate of a stochastic tensor above them,
where the weights of that plate do not sum to one (`C33_refuted`) or are a storch tensor. -/
theorem C33_value_partial {hook : UnwrapHook (AD E θ₀)} (hh : PlainHook hook)
    {pool : List (Plate (AD E θ₀))} (hp : PoolOK pool) (hw : Weights pool)
    {costs : List (STen (AD E θ₀) × List (Sampled (AD E θ₀)))}
    {es : List (STen (AD E θ₀) × List (Est (AD E θ₀)))} (hne : costs ≠ [])
    (h : List.Forall₂ (CostContributes hook pool) costs es)
    (he : ∀ x ∈ es, ExtraNormalised pool x.1 x.2)
    (hz : ∀ x ∈ es, ∀ e ∈ x.2, ∀ ns v, e.cv = some (ns, v) → ∀ ι, v ι θ₀ = 0) :
    ∃ r, surrogateLoss hook costs = .ok r ∧ r.plates = [] ∧ r.ten.shape = [] ∧
      (r.ten.get []).val = (costs.map (fun x => averageCost x.1)).sum := by
  obtain ⟨r, r1, r2, r3, r4⟩ := surrogateLoss_any hh hp hw hne h
  refine ⟨r, r1, r2, r3, ?_⟩
  rw [r4]
  have hcs : costs.map (fun x => averageCost x.1) = es.map (fun x => (costTotal pool x.1 x.2).val) := by
    clear r1 r4 hne
    induction h with
    | nil => rfl
    | @cons c e cs es' h1 _ ih =>
      obtain ⟨h1, h2, h3⟩ := h1
      rw [List.map_cons, List.map_cons, ih (fun x hx => he x (List.mem_cons_of_mem _ hx))
        (fun x hx => hz x (List.mem_cons_of_mem _ hx)),
        costTotal_val hp (h1 ▸ h2) (he e (by simp)) (hz e (by simp)), h1]
  rw [hcs]
  have := map_list_sum (AD.eval θ₀ (θ₀ := θ₀)) (es.map (fun x => costTotal pool x.1 x.2))
  rw [List.map_map] at this
  exact this

/-- The gradient estimation methods whose control variates are covered: a stochastic tensor sampled with
the score function with or without a baseline, with reparameterization, or by enumeration.  For a baseline the plates
that are averaged before the estimator sees the cost must have torch weights. -/
inductive Covered (hook : UnwrapHook (AD E θ₀)) (pool : List (Plate (AD E θ₀))) (c : STen (AD E θ₀)) :
    Sampled (AD E θ₀) → Prop
  | reparam (t) : Covered hook pool c (reparamSampled t)
  | expect (t) (ht : ParentOK pool t) : Covered hook pool c (expectSampled t)
  | score (t) (ht : ParentOK pool t) (logProb es G) (hl : LogProbOK t logProb es G) (inv n name) :
      Covered hook pool c (scoreSampled hook inv logProb n name none t)
  | moving (t) (ht : ParentOK pool t) (logProb es G) (hl : LogProbOK t logProb es G) (inv n name)
      (decay average) (hk : KeepsParents c t) (hw : TorchWeights c.plates) :
      Covered hook pool c (scoreSampled hook inv logProb n name (some (.movingAverage decay average)) t)
  | batch (t) (ht : ParentOK pool t) (logProb es G) (hl : LogProbOK t logProb es G) (inv)
      (own : Plate (AD E θ₀)) (ho : own ∈ c.plates) (hot : own ∈ t.plates) (hn : 1 < own.n)
      (hk : KeepsParents c t) (hw : TorchWeights (missingPlates c t)) :
      Covered hook pool c (scoreSampled hook inv logProb own.n own.name (some .batchAverage) t)

theorem Covered.contributes {hook : UnwrapHook (AD E θ₀)} (hh : PlainHook hook)
    {pool : List (Plate (AD E θ₀))} (hp : PoolOK pool) (hw : Weights pool) {c : STen (AD E θ₀)}
    (hc : CostOK pool c) (hg : ParentsAllOrNone c.multiDimPlates) {s : Sampled (AD E θ₀)}
    (h : Covered hook pool c s) : ∃ e, Contributes hook pool c s e ∧
      (∀ n ∈ e.names, n ∈ s.tensor.plates.map Plate.name) ∧
      ∀ ns v, e.cv = some (ns, v) → ∀ ι, v ι θ₀ = 0 := by
  have hbase : ∀ (lp : AD E θ₀) b, ((1 - boxElt lp) * b) θ₀ = 0 := by
    intro lp b
    rw [AD.mul_apply, AD.sub_apply, boxElt_val, AD.one_apply, sub_self, zero_mul]
  cases h with
  | reparam t => exact ⟨_, reparam_contributes, by simp, by simp⟩
  | expect t ht => exact ⟨_, expect_contributes_any hh hp hw hc hg ht, by simp, by simp⟩
  | score t ht logProb es G hl inv n name =>
    exact ⟨_, score_contributes_any hh hp hw hc hg ht hl inv n name, fun _ h => h, by simp⟩
  | moving t ht logProb es G hl inv n name decay average hk hw' =>
    refine ⟨_, baseline_contributes_torch hh hp
      (fun p hm => hw' p (List.mem_filter.1 (List.mem_filter.1 hm).1).1) hc hg ht hl inv n name _
      (moving_ok_torch hh hp hw' hc hk inv n name decay average), fun _ h => h, ?_⟩
    intro ns v hv ι
    simp only [Option.some.injEq, Prod.mk.injEq] at hv
    rw [← hv.2]
    exact hbase _ _
  | batch t ht logProb es G hl inv own ho hot hn hk hw' =>
    refine ⟨_, baseline_contributes_torch hh hp hw' hc hg ht hl inv own.n own.name _
      (batch_ok hh hp hc ht hk inv ho hot hn), fun _ h => h, ?_⟩
    intro ns v hv ι
    simp only [Option.some.injEq, Prod.mk.injEq] at hv
    rw [← hv.2]
    exact hbase _ _

/-- C33 from the contributions of the single estimators: their control variates have value zero. -/
theorem value_of_zeroCv {hook : UnwrapHook (AD E θ₀)} (hh : PlainHook hook)
    {pool : List (Plate (AD E θ₀))} (hp : PoolOK pool) (hw : Weights pool)
    {costs : List (STen (AD E θ₀) × List (Sampled (AD E θ₀)))} (hne : costs ≠ [])
    (hc : ∀ x ∈ costs, CostOK pool x.1)
    (hm : ∀ x ∈ costs, ∀ s ∈ x.2, ∃ e, Contributes hook pool x.1 s e ∧
      (∀ n ∈ e.names, n ∈ s.tensor.plates.map Plate.name) ∧
      ∀ ns v, e.cv = some (ns, v) → ∀ ι, v ι θ₀ = 0)
    (hn : ∀ x ∈ costs, ∀ s ∈ x.2, ∀ p ∈ pool, p.name ∈ s.tensor.plates.map Plate.name →
      p.name ∈ x.1.plates.map Plate.name ∨ p.Normalised ∧ ∃ w, p.weight = .torch w) :
    ∃ r, surrogateLoss hook costs = .ok r ∧ r.plates = [] ∧ r.ten.shape = [] ∧
      (r.ten.get []).val = (costs.map (fun x => averageCost x.1)).sum := by
  have hpar : ∀ (c : STen (AD E θ₀)) (ss : List (Sampled (AD E θ₀))),
      (∀ s ∈ ss, ∃ e, Contributes hook pool c s e ∧ (∀ n ∈ e.names, n ∈ s.tensor.plates.map Plate.name) ∧
        ∀ ns v, e.cv = some (ns, v) → ∀ ι, v ι θ₀ = 0) →
      ∃ es, List.Forall₂ (Contributes hook pool c) ss es ∧
        (∀ n ∈ es.flatMap Est.names, ∃ s ∈ ss, n ∈ s.tensor.plates.map Plate.name) ∧
        ∀ e ∈ es, ∀ ns v, e.cv = some (ns, v) → ∀ ι, v ι θ₀ = 0 := by
    intro c ss hm
    induction ss with
    | nil => exact ⟨[], .nil, by simp, by simp⟩
    | cons s ss ih =>
      obtain ⟨es, h1, h2, h3⟩ := ih (fun s hs => hm s (List.mem_cons_of_mem _ hs))
      obtain ⟨e, e1, e2, e3⟩ := hm s (by simp)
      refine ⟨e :: es, .cons e1 h1, ?_, ?_⟩
      · intro n hn
        rw [List.flatMap_cons, List.mem_append] at hn
        rcases hn with hn | hn
        · exact ⟨s, by simp, e2 n hn⟩
        · obtain ⟨s', hs', h'⟩ := h2 n hn
          exact ⟨s', List.mem_cons_of_mem _ hs', h'⟩
      · intro e' he'
        rcases List.mem_cons.1 he' with rfl | he'
        · exact e3
        · exact h3 e' he'
  have hall : ∃ es : List (STen (AD E θ₀) × List (Est (AD E θ₀))),
      List.Forall₂ (CostContributes hook pool) costs es ∧ (∀ x ∈ es, ExtraNormalised pool x.1 x.2) ∧
      ∀ x ∈ es, ∀ e ∈ x.2, ∀ ns v, e.cv = some (ns, v) → ∀ ι, v ι θ₀ = 0 := by
    clear hne
    induction costs with
    | nil => exact ⟨[], .nil, by simp, by simp⟩
    | cons x xs ih =>
      obtain ⟨es, h1, h2, h3⟩ := ih (fun y hy => hc y (List.mem_cons_of_mem _ hy))
        (fun y hy => hm y (List.mem_cons_of_mem _ hy)) (fun y hy => hn y (List.mem_cons_of_mem _ hy))
      obtain ⟨e, e1, e2, e3⟩ := hpar x.1 x.2 (hm x (by simp))
      refine ⟨(x.1, e) :: es, .cons ⟨rfl, hc x (by simp), e1⟩ h1, ?_, ?_⟩
      · intro y hy
        rcases List.mem_cons.1 hy with rfl | hy
        · intro p hpp h4 h5
          obtain ⟨s, hs, h6⟩ := e2 _ h4
          exact (hn x (by simp) s hs p hpp h6).resolve_left h5
        · exact h2 y hy
      · intro y hy
        rcases List.mem_cons.1 hy with rfl | hy
        · exact e3
        · exact h3 y hy
  obtain ⟨es, h1, h2, h3⟩ := hall
  exact C33_value_partial hh hp hw hne h1 h2 h3

/-- C33 for models that use the score function (without a baseline, with the moving average or with the
batch average), reparameterization and enumeration: the surrogate loss can be computed and evaluates to
the total average cost.  `ParentsAllOrNone` excludes models mixing single and several samples along one
chain, where the library raises or drops plates; the other restrictions are those of
`C33_value_partial`. -/
theorem C33_methods_partial {hook : UnwrapHook (AD E θ₀)} (hh : PlainHook hook)
    {pool : List (Plate (AD E θ₀))} (hp : PoolOK pool) (hw : Weights pool)
    {costs : List (STen (AD E θ₀) × List (Sampled (AD E θ₀)))} (hne : costs ≠ [])
    (hc : ∀ x ∈ costs, CostOK pool x.1 ∧ ParentsAllOrNone x.1.multiDimPlates)
    (hm : ∀ x ∈ costs, ∀ s ∈ x.2, Covered hook pool x.1 s)
    (hn : ∀ x ∈ costs, ∀ s ∈ x.2, ∀ p ∈ pool, p.name ∈ s.tensor.plates.map Plate.name →
      p.name ∈ x.1.plates.map Plate.name ∨ p.Normalised ∧ ∃ w, p.weight = .torch w) :
    ∃ r, surrogateLoss hook costs = .ok r ∧ r.plates = [] ∧ r.ten.shape = [] ∧
      (r.ten.get []).val = (costs.map (fun x => averageCost x.1)).sum :=
  value_of_zeroCv hh hp hw hne (fun x hx => (hc x hx).1)
    (fun x hx s hs => (hm x hx s hs).contributes hh hp hw (hc x hx).1 (hc x hx).2) hn

end C33

end Storch
