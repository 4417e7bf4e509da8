import Verif.Lemmas.EnumerateLemmas
import Verif.Lemmas.WeightedLemmas
import Verif.Lemmas.ScoreLemmas
import Mathlib.Algebra.BigOperators.Fin
import Mathlib.Algebra.BigOperators.Ring.Finset

/-!
# C38 and C39: `Expect` enumerates

The elements are functions of the parameters (`AD`), so that an equality of losses is an equality of functions:
every derivative agrees as well.
-/

namespace Storch
variable {Θ : Type _} {θ₀ : Θ} {U : Set Θ}

/-! ### Specification -/

/-- `plate` lists every outcome of `d` variables with `E` values each exactly once (`σ` tells which sample is
which outcome): sample `k` holds, at entry `j`, the element of the support with number `σ k j`, and its weight is
the product of the probabilities `pr`, for all parameters in `U`.  `outer` are the plates the distribution depends on. -/
structure ListsOutcomes (U : Set Θ) (s : STen (AD Θ θ₀)) (plate : Plate (AD Θ θ₀)) (name : String)
    (outer : List (Plate (AD Θ θ₀))) (support : Ten (AD Θ θ₀)) (dims ev : List Nat) {d E : Nat}
    (pr : Θ → (String → Nat) → Fin d → Fin E → ℝ) (σ : Fin (E ^ d) ≃ (Fin d → Fin E)) : Prop where
  called : plate.name = name
  size : plate.n = E ^ d
  parents : plate.parents = outer
  over : s.plates = plate :: outer
  event : s.eventShape = dims ++ ev
  sample : ∀ ι, Valid s.plates ι → ∀ k : Fin (E ^ d), ι name = k → ∀ e f, Ten.InB e dims → Ten.InB f ev →
    ∀ hj : e.headD 0 < d, s.sample ι (e ++ f) = support.get ((σ k ⟨e.headD 0, hj⟩ : Nat) :: f)
  weight : ∀ ι, Valid s.plates ι → ∀ k : Fin (E ^ d), ι name = k → ∀ θ ∈ U,
    plate.weightAt id ι θ = ∏ j, pr θ ι j (σ k j)

/-- The probabilities of the distribution: those whose logarithms `log_prob` returns. -/
def ProbOf (U : Set Θ) (dims : List Nat) {d E : Nat} (lpv : (String → Nat) → List Nat → Nat → AD Θ θ₀)
    (pr : Θ → (String → Nat) → Fin d → Fin E → ℝ) : Prop :=
  ∀ θ ∈ U, ∀ ι e, Ten.InB e dims → ∀ (hj : e.headD 0 < d) (v : Fin E),
    0 < pr θ ι ⟨e.headD 0, hj⟩ v ∧ lpv ι e v θ = Real.log (pr θ ι ⟨e.headD 0, hj⟩ v)

/-! ### Lemmas -/

theorem prod_entries {dims : List Nat} {d E : Nat} (hf : dims = [d] ∨ (dims = [] ∧ d = 1))
    {lpv : (String → Nat) → List Nat → Nat → AD Θ θ₀} {pr : Θ → (String → Nat) → Fin d → Fin E → ℝ}
    (hp : ProbOf U dims lpv pr) (x : Fin d → Fin E) (ι : String → Nat) {θ : Θ} (hθ : θ ∈ U) :
    Real.exp (((allIdx dims).map (fun e => lpv ι e (if hj : e.headD 0 < d then x ⟨e.headD 0, hj⟩ else 0))).sum θ) =
      ∏ j, pr θ ι j (x j) := by
  have hs : ∀ l : List (AD Θ θ₀), l.sum θ = (l.map (fun a => a θ)).sum := by
    intro l
    exact map_list_sum (AD.eval θ (θ₀ := θ₀)) l
  rw [hs, Real.exp_list_sum, List.map_map, List.map_map]
  rcases hf with rfl | ⟨rfl, rfl⟩
  · have h1 : allIdx [d] = (List.range d).map (fun i => [i]) := by simp [allIdx, List.map_eq_flatMap]
    rw [h1, List.map_map, ← List.prod_ofFn]
    congr 1
    apply List.ext_getElem
    · simp
    · intro i h1 h2
      have hi : i < d := by simpa using h1
      simp only [List.getElem_map, List.getElem_range, Function.comp, List.getElem_ofFn, List.headD_cons, dif_pos hi]
      obtain ⟨p1, p2⟩ := hp θ hθ ι [i] (.cons hi .nil) (by simpa using hi) (x ⟨i, hi⟩)
      rw [p2, Real.exp_log p1]
      rfl
  · have := hp θ hθ ι [] .nil (by simp) (x 0)
    simp only [allIdx, List.map_cons, List.map_nil, List.prod_cons, List.prod_nil, mul_one, Function.comp,
      List.headD_nil, Nat.lt_one_iff, Fin.prod_univ_one]
    obtain ⟨p1, p2⟩ := this
    erw [p2, Real.exp_log p1]
    rfl

/-- The weights of the outcomes of independent variables sum to one. -/
theorem sum_outcomes {d E : Nat} (p : Fin d → Fin E → ℝ) (h : ∀ j, ∑ v, p j v = 1)
    (σ : Fin (E ^ d) ≃ (Fin d → Fin E)) : ∑ k, ∏ j, p j (σ k j) = 1 := by
  rw [Equiv.sum_comp σ (fun x => ∏ j, p j (x j)), ← Fintype.prod_sum]
  simp [h]

/-! ### C38 -/

/-- C38 (partial: a distribution over one or no dimension besides the plates, a support with at least two
elements, and, with one dimension, plates larger than one): enumeration lists every outcome exactly once, with its
probability as weight. -/
theorem C38_outcomes_partial {hook : UnwrapHook (AD Θ θ₀)} (hh : PlainHook hook) {inv : Nat → AD Θ θ₀} {name : String}
    {ctx : List (Plate (AD Θ θ₀))} {params : List (Operand (AD Θ θ₀))} {support : Ten (AD Θ θ₀)} {dims ev : List Nat}
    {d E budget : Nat} {logProb : STen (AD Θ θ₀) → Except Err (STen (AD Θ θ₀))}
    {lpv : (String → Nat) → List Nat → Nat → AD Θ θ₀} {pr : Θ → (String → Nat) → Fin d → Fin E → ℝ}
    (h : EnumDistr inv name (methodPlates ctx params) support dims ev d E logProb lpv) (hp : ProbOf U dims lpv pr)
    (hb : E ^ d ≤ budget) :
    ∃ s plate σ, enumerate hook inv name budget ctx params support
        (((methodPlates ctx params).filter (fun p => decide (1 < p.n))).map Plate.n ++ dims)
        logProb = .ok (s, plate) ∧ s.WF ∧ plate.kind = .plain ∧ WeightOK plate ∧
      ListsOutcomes U s plate name (methodPlates ctx params) support dims ev pr σ := by
  obtain ⟨s, plate, h1, h2, h3, h4, h5, h6, h7, h8, h9, _, h10⟩ := enumerate_spec hh h hb
  refine ⟨s, plate, outcomes d E, h1, h7, h4, h9, h2, h3, h5, h6, h8, ?_, ?_⟩
  · exact fun ι hι k hk => (h10 ι hι k hk).1
  · intro ι hι k hk θ hθ
    rw [(h10 ι hι k hk).2, AD.exp_apply, prod_entries h.form hp _ _ hθ]

/-- C39 (partial: a distribution without dimensions besides the plates, so that `E` samples list its values; several event
dimensions, and vectors below a plate of size one, are refuted below): whatever the sizes of the plates of the parameters,
enumeration lists every value once, with its probability as weight. -/
theorem C39_scalar_partial {hook : UnwrapHook (AD Θ θ₀)} (hh : PlainHook hook) {inv : Nat → AD Θ θ₀} {name : String}
    {ctx plates : List (Plate (AD Θ θ₀))} {params : List (Operand (AD Θ θ₀))} (hpl : methodPlates ctx params = plates)
    (hnames : (plates.map Plate.name).Nodup) (hfresh : name ∉ plates.map Plate.name) (hpos : ∀ p ∈ plates, 1 ≤ p.n)
    (hplain : ∀ p ∈ plates, p.kind = .plain) {E budget : Nat} (values : Nat → ℝ) (htwo : 2 ≤ E) (hb : E ≤ budget)
    {logProb : STen (AD Θ θ₀) → Except Err (STen (AD Θ θ₀))} {lpv : (String → Nat) → ℝ → AD Θ θ₀}
    (hlog : ∀ x : STen (AD Θ θ₀), x.WF → x.plates = mcPlate inv name E plates :: plates →
      x.eventShape = [] → ∃ lp, logProb x = .ok lp ∧ lp.WF ∧ (∀ p, p ∈ lp.plates ↔ p ∈ x.plates) ∧ lp.eventShape = [] ∧
        ∀ ι y, x.sample ι [] = AD.const y → lp.sample ι [] = lpv ι y)
    {pr : Θ → (String → Nat) → Fin E → ℝ}
    (hpr : ∀ θ ∈ U, ∀ ι v, 0 < pr θ ι v ∧ lpv ι (values v) θ = Real.log (pr θ ι v)) :
    ∃ s plate, enumerate hook inv name budget ctx params ⟨[E], fun idx => AD.const (values (idx.headD 0))⟩
        ((plates.filter (fun p => decide (1 < p.n))).map Plate.n) logProb = .ok (s, plate) ∧
      s.WF ∧ s.eventShape = [] ∧ plate.name = name ∧ plate.n = E ∧ s.plates = plate :: plates ∧
      ∀ ι, Valid s.plates ι → ∀ k : Fin E, ι name = k →
        s.sample ι [] = AD.const (values k) ∧ ∀ θ ∈ U, plate.weightAt id ι θ = pr θ ι k := by
  subst hpl
  have hd : EnumDistr inv name (methodPlates ctx params) ⟨[E], fun idx => AD.const (values (idx.headD 0))⟩ [] [] 1 E
      logProb (fun ι _ v => lpv ι (values v)) := by
    refine ⟨rfl, htwo, Nat.le_refl _, .inr ⟨rfl, rfl⟩, hnames, hfresh, hpos, .inl rfl, hplain, ?_⟩
    intro x hx hxp hxe
    rw [Nat.pow_one] at hxp
    obtain ⟨lp, l1, l2, l3, l4, l5⟩ := hlog x hx hxp hxe
    refine ⟨lp, l1, l2, l3, l4, ?_⟩
    intro ι e v he hv
    cases he
    exact l5 ι _ (hv [] .nil)
  obtain ⟨s, plate, h1, h2, h3, _, _, h6, h7, h8, _, _, h10⟩ := enumerate_spec hh hd
    (show E ^ 1 ≤ budget by rw [Nat.pow_one]; exact hb)
  rw [List.append_nil] at h1
  refine ⟨s, plate, h1, h7, h8, h2, by rw [h3, Nat.pow_one], h6, ?_⟩
  intro ι hι k hk
  have hk' : (k : Nat) < E ^ 1 := by rw [Nat.pow_one]; exact k.2
  have ho : (outcomes 1 E ⟨k, hk'⟩ ⟨0, Nat.one_pos⟩ : Nat) = k := by
    rw [← outcome_getD]
    have h1 : allIdx (List.replicate 1 E) = (List.range E).map (fun i => [i]) := by simp [allIdx, List.map_eq_flatMap]
    rw [h1]
    simp
  obtain ⟨g1, g2⟩ := h10 ι hι ⟨k, hk'⟩ hk
  refine ⟨?_, ?_⟩
  · have := g1 [] [] .nil .nil (by simp)
    rw [List.append_nil] at this
    rw [this]
    show AD.const (values _) = _
    exact congrArg (fun n => AD.const (values n)) ho
  · intro θ hθ
    obtain ⟨p1, p2⟩ := hpr θ hθ ι k
    rw [g2, AD.exp_apply, ← Real.exp_log p1, ← p2]
    congr 1
    simp only [allIdx, List.map_cons, List.map_nil, List.sum_cons, List.sum_nil, add_zero, List.headD_nil, Nat.one_pos]
    exact congrArg (fun n => lpv ι (values n) θ) ho

/-- C38: the weights sum to one, at every position of the other plates. -/
theorem C38_sum_to_one {s : STen (AD Θ θ₀)} {plate : Plate (AD Θ θ₀)} {name : String}
    {outer : List (Plate (AD Θ θ₀))} {support : Ten (AD Θ θ₀)} {dims ev : List Nat} {d E : Nat}
    {pr : Θ → (String → Nat) → Fin d → Fin E → ℝ} {σ : Fin (E ^ d) ≃ (Fin d → Fin E)}
    (h : ListsOutcomes U s plate name outer support dims ev pr σ) (hn : name ∉ outer.map Plate.name)
    (hown : ∀ θ ι k, pr θ (Function.update ι name k) = pr θ ι) (h1 : ∀ θ ι j, ∑ v, pr θ ι j v = 1)
    (ι : String → Nat) (hι : Valid outer ι) {θ : Θ} (hθ : θ ∈ U) :
    ∑ k ∈ Finset.range plate.n, plate.weightAt id (Function.update ι name k) θ = 1 := by
  rw [h.size, Finset.sum_range, ← sum_outcomes (pr θ ι) (h1 θ ι) σ]
  apply Finset.sum_congr rfl
  intro k _
  rw [h.weight _ _ k (by simp) θ hθ, hown]
  rw [h.over]
  intro p hp
  rcases List.mem_cons.1 hp with rfl | hp
  · rw [h.called, Function.update_self, h.size]; exact k.2
  · have : p.name ≠ name := fun e => hn (e ▸ List.mem_map_of_mem hp)
    rw [Function.update_of_ne this]
    exact hι p hp

/-- C38: reducing the plate turns a cost into its exact expectation, at every position of the other plates. -/
theorem C38_expectation {hook : UnwrapHook (AD Θ θ₀)} (hh : PlainHook hook) {s : STen (AD Θ θ₀)}
    {plate : Plate (AD Θ θ₀)} {name : String} {outer : List (Plate (AD Θ θ₀))} {support : Ten (AD Θ θ₀)}
    {dims ev : List Nat} {d E : Nat} {pr : Θ → (String → Nat) → Fin d → Fin E → ℝ}
    {σ : Fin (E ^ d) ≃ (Fin d → Fin E)} (h : ListsOutcomes U s plate name outer support dims ev pr σ)
    (hok : WeightOK plate) (hn : name ∉ outer.map Plate.name)
    (hown : ∀ θ ι k, pr θ (Function.update ι name k) = pr θ ι) {c : STen (AD Θ θ₀)} (hc : Proper c)
    (hmem : plate ∈ c.plates) (hpar : ∀ q ∈ outer, q.isIn c.plates = true) :
    ∃ r, plate.reduce hook id c = .ok r ∧ r.plates = dropPlate name c.plates ∧
      (∃ k, r.eventShape = c.eventShape ++ List.replicate k 1) ∧
      ∀ ι e, ∀ θ ∈ U, Valid outer ι → Ten.InB e r.eventShape → r.sample ι e θ =
        ∑ x : Fin d → Fin E, (∏ j, pr θ ι j (x j)) * c.sample (Function.update ι name (σ.symm x)) e θ := by
  obtain ⟨r, r1, _, r3, r4, _, r6⟩ := reduce_step hh id hc hmem hok (by rw [h.parents]; exact fun _ _ _ => hpar)
  refine ⟨r, r1, by rw [r3, h.called], r4, ?_⟩
  intro ι e θ hθ hι he
  have hs : ∀ (S : Finset Nat) (f : Nat → AD Θ θ₀), (∑ k ∈ S, f k) θ = ∑ k ∈ S, f k θ := fun S f =>
    map_sum (AD.eval θ (θ₀ := θ₀)) f S
  rw [r6 ι e he, hs, h.size, Finset.sum_range, ← Equiv.sum_comp σ (fun x => (∏ j, pr θ ι j (x j)) *
    c.sample (Function.update ι name (σ.symm x)) e θ)]
  apply Finset.sum_congr rfl
  intro k _
  rw [Equiv.symm_apply_apply, AD.mul_apply, h.called, h.weight _ _ k (by simp) θ hθ, hown]
  rw [h.over]
  intro p hp
  rcases List.mem_cons.1 hp with rfl | hp
  · rw [h.called, Function.update_self, h.size]; exact k.2
  · have : p.name ≠ name := fun e => hn (e ▸ List.mem_map_of_mem hp)
    rw [Function.update_of_ne this]
    exact hι p hp

/-- C38: with one variable sampled by `Expect`, the surrogate loss is, as a function of the parameters (on `U`), the
sum of the exact expectations of the costs; so are all its derivatives. -/
theorem C38_loss {hook : UnwrapHook (AD Θ θ₀)} (hh : PlainHook hook) {s : STen (AD Θ θ₀)}
    {plate : Plate (AD Θ θ₀)} {name : String} {support : Ten (AD Θ θ₀)}
    {dims ev : List Nat} {d E : Nat} {pr : Θ → (String → Nat) → Fin d → Fin E → ℝ}
    {σ : Fin (E ^ d) ≃ (Fin d → Fin E)} (h : ListsOutcomes U s plate name [] support dims ev pr σ)
    (hs : s.WF) (hk : plate.kind = .plain) (hok : WeightOK plate)
    (hown : ∀ θ ι k, pr θ (Function.update ι name k) = pr θ ι)
    {costs : List (STen (AD Θ θ₀))} (hne : costs ≠ [])
    (hc : ∀ c ∈ costs, c.WF ∧ c.plates = [plate] ∧ c.eventShape = []) :
    ∃ r, surrogateLoss hook (costs.map (fun c => (c, [expectSampled s]))) = .ok r ∧ r.plates = [] ∧
      r.ten.shape = [] ∧ ∀ θ ∈ U, r.ten.get [] θ = (costs.map (fun c => ∑ x : Fin d → Fin E,
        (∏ j, pr θ (fun _ => 0) j (x j)) * c.sample (Function.update (fun _ => 0) name (σ.symm x)) [] θ)).sum := by
  have hac : AcyclicPlates [plate] := by
    intro k hk'
    have key : ∀ a b, ¬ ParentOf [plate] a b := by
      rintro a b ⟨p, hp, _, q, hq, _⟩
      rw [List.mem_singleton.1 hp, h.parents] at hq
      cases hq
    cases hk' with
    | single h => exact key _ _ h
    | tail _ h => exact key _ _ h
  have hpool : PoolOK [plate] := ⟨by simp, by simp [hk], hac⟩
  have hclosed : ParentClosed [plate] := by
    intro p hp q hq
    rw [List.mem_singleton.1 hp, h.parents] at hq
    cases hq
  have hcost : ∀ c ∈ costs, CostOK [plate] c := fun c hm =>
    ⟨⟨(hc c hm).1, (hc c hm).2.2, by rw [(hc c hm).2.1]; exact fun p hp => hp⟩, by rw [(hc c hm).2.1]; exact hclosed⟩
  have hws : Weights [plate] := by intro p hp; rw [List.mem_singleton.1 hp]; exact hok
  obtain ⟨r, r1, r2, r3, r4⟩ := surrogateLoss_any hh hpool hws
    (costs := costs.map (fun c => (c, [expectSampled s])))
    (es := costs.map (fun c => (c, [(⟨[], fun _ => 0, none⟩ : Est (AD Θ θ₀))]))) (by simpa using hne) (by
      rw [List.forall₂_map_left_iff, List.forall₂_map_right_iff, List.forall₂_same]
      intro c hm
      refine ⟨rfl, hcost c hm, .cons (expect_contributes_any hh hpool hws (hcost c hm) ?_ ⟨hs, ?_, ?_⟩) .nil⟩
      · intro p hp
        left
        intro q hq
        have := (List.mem_filter.1 hp).1
        rw [(hc c hm).2.1, List.mem_singleton] at this
        rw [this, h.parents] at hq
        cases hq
      · rw [h.over]; exact fun p hp => hp
      · rw [h.over]; exact hclosed)
  refine ⟨r, r1, r2, r3, ?_⟩
  intro θ hθ
  have hsum : ∀ l : List (AD Θ θ₀), l.sum θ = (l.map (fun a => a θ)).sum := fun l =>
    map_list_sum (AD.eval θ (θ₀ := θ₀)) l
  rw [r4, lossTotal, List.map_map, hsum, List.map_map]
  congr 1
  apply List.map_congr_left
  intro c hm
  obtain ⟨c1, c2, c3⟩ := hc c hm
  have hnames : named [plate] (c.plates.map Plate.name) = [plate] := by
    rw [c2]
    simp [named]
  simp only [Function.comp, costTotal, cvTotal, boxTotal, List.flatMap_cons, List.flatMap_nil, List.append_nil,
    List.nil_append, List.map_cons, List.map_nil, List.sum_cons, List.sum_nil, add_zero, zero_add, hnames]
  rw [total_eval]
  simp only [List.map_cons, List.map_nil]
  have h1 : ∀ d, allIdx [d] = (List.range d).map (fun i => [i]) := by
    intro d; simp [allIdx, List.map_eq_flatMap]
  have hb : ∀ θ, boxElt (0 : AD Θ θ₀) θ = 1 := fun θ => by
    show Real.exp ((0 : AD Θ θ₀) θ - (0 : AD Θ θ₀) θ₀) = 1
    simp
  rw [h1, List.map_map, h.size, ← Equiv.sum_comp σ, ← List.sum_ofFn]
  congr 1
  apply List.ext_getElem
  · simp
  · intro i hi1 hi2
    have hi : i < E ^ d := by simpa using hi1
    simp only [List.getElem_map, List.getElem_range, Function.comp, List.getElem_ofFn, Equiv.symm_apply_apply, assign,
      h.called, jointWeight, List.map_cons, List.map_nil, List.prod_cons, List.prod_nil, mul_one, AD.mul_apply, hb,
      one_mul, AD.eval_apply]
    rw [h.weight _ _ ⟨i, hi⟩ (by simp) θ hθ, hown]
    rw [h.over]
    intro p hp
    rw [List.mem_singleton.1 hp, h.called, Function.update_self, h.size]
    exact hi

/-- C38 for several variables that may depend on each other, all sampled by `Expect`: the surrogate loss is the sum
of the costs at all joint outcomes, weighted with the product of the conditional probabilities `pr p`. -/
theorem C38_joint_loss {hook : UnwrapHook (AD Θ θ₀)} (hh : PlainHook hook) {pool : List (Plate (AD Θ θ₀))}
    (hp : PoolOK pool) (hw : Weights pool) {pr : Plate (AD Θ θ₀) → Θ → (String → Nat) → ℝ}
    (hpr : ∀ p ∈ pool, ∀ ι, (∀ q ∈ p :: p.parents, ι q.name < q.n) → ∀ θ ∈ U, p.weightAt id ι θ = pr p θ ι)
    {costs : List (STen (AD Θ θ₀) × List (STen (AD Θ θ₀)))} (hne : costs ≠ [])
    (hc : ∀ c ∈ costs, CostOK pool c.1 ∧ ParentsAllOrNone c.1.multiDimPlates ∧ ∀ s ∈ c.2, ParentOK pool s) :
    ∃ r, surrogateLoss hook (costs.map (fun c => (c.1, c.2.map expectSampled))) = .ok r ∧ r.plates = [] ∧
      r.ten.shape = [] ∧ ∀ θ ∈ U, r.ten.get [] θ = (costs.map (fun c =>
        ((allIdx (c.1.plates.map Plate.n)).map (fun k =>
          (c.1.plates.map (fun p => pr p θ (assign c.1.plates k (fun _ => 0)))).prod *
            c.1.sample (assign c.1.plates k (fun _ => 0)) [] θ)).sum)).sum := by
  obtain ⟨r, r1, r2, r3, r4⟩ := surrogateLoss_any hh hp hw
    (costs := costs.map (fun c => (c.1, c.2.map expectSampled)))
    (es := costs.map (fun c => (c.1, c.2.map (fun _ => (⟨[], fun _ => 0, none⟩ : Est (AD Θ θ₀))))))
    (by simpa using hne) (by
      rw [List.forall₂_map_left_iff, List.forall₂_map_right_iff, List.forall₂_same]
      intro c hm
      obtain ⟨c1, c2, c3⟩ := hc c hm
      refine ⟨rfl, c1, ?_⟩
      simp only
      rw [List.forall₂_map_left_iff, List.forall₂_map_right_iff, List.forall₂_same]
      exact fun s hs => expect_contributes_any hh hp hw c1 c2 (c3 s hs))
  refine ⟨r, r1, r2, r3, ?_⟩
  intro θ hθ
  have hsum : ∀ l : List (AD Θ θ₀), l.sum θ = (l.map (fun a => a θ)).sum := fun l =>
    map_list_sum (AD.eval θ (θ₀ := θ₀)) l
  rw [r4, lossTotal, List.map_map, hsum, List.map_map]
  congr 1
  apply List.map_congr_left
  intro c hm
  obtain ⟨c1, c2, c3⟩ := hc c hm
  have hcv : ∀ e ∈ c.2.map (fun _ => (⟨[], fun _ => 0, none⟩ : Est (AD Θ θ₀))), e.cv = none ∧ e.names = [] ∧
      e.lp = fun _ => 0 := by
    intro e he
    obtain ⟨s, _, rfl⟩ := List.mem_map.1 he
    exact ⟨rfl, rfl, rfl⟩
  have hfl : (c.2.map (fun _ => (⟨[], fun _ => 0, none⟩ : Est (AD Θ θ₀)))).flatMap Est.names = [] := by
    rw [List.flatMap_eq_nil_iff]
    exact fun e he => (hcv e he).2.1
  have hlp : ∀ ι, ((c.2.map (fun _ => (⟨[], fun _ => 0, none⟩ : Est (AD Θ θ₀)))).map (fun e => e.lp ι)).sum = 0 := by
    intro ι
    apply List.sum_eq_zero
    intro x hx
    obtain ⟨e, he, rfl⟩ := List.mem_map.1 hx
    rw [(hcv e he).2.2]
  have hb : ∀ θ, boxElt (0 : AD Θ θ₀) θ = 1 := fun θ => by
    show Real.exp ((0 : AD Θ θ₀) θ - (0 : AD Θ θ₀) θ₀) = 1
    simp
  simp only [Function.comp, costTotal, cvTotal_none pool (fun e he => (hcv e he).1), boxTotal, hfl, List.nil_append,
    hlp, zero_add]
  have hperm : (named pool (c.1.plates.map Plate.name)).Perm c.1.plates := by
    apply perm_of_pool hp.names (hp.names.sublist (List.filter_sublist.map _)) c1.scalar.nodup
    intro p
    simp only [List.mem_filter, decide_eq_true_eq]
    constructor
    · rintro ⟨h1, h2⟩
      obtain ⟨q, hq, he⟩ := List.mem_map.1 h2
      exact pool_eq hp (c1.scalar.sub q hq) h1 he ▸ hq
    · intro hm; exact ⟨c1.scalar.sub p hm, List.mem_map_of_mem hm⟩
  rw [weightedTotal_perm id hperm c1.scalar.nodup, total_eval]
  congr 1
  apply List.map_congr_left
  intro idx hidx
  rw [AD.mul_apply, hb, one_mul, jointWeight]
  congr 1
  have := map_list_prod (AD.eval θ (θ₀ := θ₀)) (c.1.plates.map (fun p =>
    p.weightAt id (assign c.1.plates idx (fun _ => 0))))
  rw [this, List.map_map]
  congr 1
  apply List.map_congr_left
  intro p hpm
  have hv := assign_valid c1.scalar.nodup hidx (fun _ => 0)
  refine hpr p (c1.scalar.sub p hpm) _ ?_ θ hθ
  intro q hq
  rcases List.mem_cons.1 hq with rfl | hq
  · exact hv q hpm
  · obtain ⟨x, hx, he⟩ := c1.closed p hpm q hq
    rw [← Plate.pyEq_name he, ← Plate.pyEq_n he]
    exact hv x hx

/-- C38: it raises when there are more outcomes than the budget allows. -/
theorem C38_budget {hook : UnwrapHook (AD Θ θ₀)} (inv : Nat → AD Θ θ₀) {name : String}
    {ctx : List (Plate (AD Θ θ₀))} {params : List (Operand (AD Θ θ₀))} {support : Ten (AD Θ θ₀)} {dims ev : List Nat}
    {d E budget : Nat} (logProb : STen (AD Θ θ₀) → Except Err (STen (AD Θ θ₀))) (hs : support.shape = E :: ev)
    (hm : dims = [] ∨ ∀ p ∈ methodPlates ctx params, 1 < p.n) (hd : dims = [d] ∨ (dims = [] ∧ d = 1))
    (hb : budget < E ^ d) :
    enumerate hook inv name budget ctx params support
      (((methodPlates ctx params).filter (fun p => decide (1 < p.n))).map Plate.n ++ dims) logProb = .error .value := by
  rw [enumerate]
  simp only
  split
  · rfl
  · have := enumTensor_budget (b := ((methodPlates ctx params).filter (fun p => decide (1 < p.n))).map Plate.n) support hs
      hd hb
    rw [← enumTensor_len (n := (methodPlates ctx params).length) support budget (hm.imp id (fun hm => by
      rw [List.length_map, multi_filter hm])) (by rw [List.length_map]; exact List.length_filter_le _ _)] at this
    rw [this]

/-! ### A case -/

namespace CoinCase

/-- The probability of the value with number `v` of a coin that shows 1 with probability `θ`. -/
def prob (θ : ℝ) (v : Nat) : ℝ := if v = 1 then θ else 1 - θ

noncomputable def support : Ten (AD ℝ (1 / 2)) := ⟨[2], fun idx => AD.const (idx.headD 0 : ℝ)⟩

/-- `log_prob` of independent coins whose parameter is θ. -/
noncomputable def logProb (x : STen (AD ℝ (1 / 2))) : Except Err (STen (AD ℝ (1 / 2))) :=
  .ok ⟨⟨x.ten.shape, fun idx => fun θ => Real.log (if (x.ten.get idx).val = 1 then θ else 1 - θ)⟩, x.plates, x.plateDims⟩

noncomputable def inv (n : Nat) : AD ℝ (1 / 2) := AD.const (1 / n)

/-- Two coins, the number of their outcomes within the budget. -/
theorem distr : EnumDistr inv "x" (methodPlates [] ([] : List (Operand (AD ℝ (1 / 2))))) support [2] [] 2 2 logProb
    (fun _ _ v θ => Real.log (prob θ v)) := by
  refine ⟨rfl, by simp, by simp, .inl rfl, by simp [methodPlates], by simp [methodPlates], by simp [methodPlates],
    by simp [methodPlates], by simp [methodPlates], ?_⟩
  intro x hx hp he
  refine ⟨_, rfl, ⟨hx.1, hx.2, hx.3, hx.4⟩, fun p => Iff.rfl, he, ?_⟩
  intro ι e v _ hv
  have := hv [] .nil
  rw [List.append_nil] at this
  funext θ
  show Real.log (if (x.sample ι e).val = 1 then θ else 1 - θ) = Real.log (prob θ v)
  rw [this]
  simp [support, prob, AD.const, AD.val]

theorem probs : ProbOf (θ₀ := (1 / 2 : ℝ)) (Set.Ioo 0 1) [2] (fun _ _ v θ => Real.log (prob θ v)) (fun θ _ (_ : Fin 2) (v : Fin 2) => prob θ v) := by
  intro θ hθ ι e _ _ v
  refine ⟨?_, rfl⟩
  show 0 < prob θ v
  unfold prob
  split <;> linarith [hθ.1, hθ.2]

/-- `C39_scalar_partial` applies to one coin below a variable with one sample and one with three. -/
example (hook : UnwrapHook (AD ℝ (1 / 2))) (hh : PlainHook hook) :
    let a : Plate (AD ℝ (1 / 2)) := .mk "a" 1 (.torch (.scalar 1)) .plain []
    let b : Plate (AD ℝ (1 / 2)) := .mk "b" 3 (.torch (.scalar 1)) .plain []
    ∃ s plate, enumerate hook inv "x" 9 [a, b] [] ⟨[2], fun idx => AD.const (idx.headD 0 : ℝ)⟩ [3] logProb =
        .ok (s, plate) ∧ plate.n = 2 ∧ s.plates = [plate, a, b] ∧
      ∀ ι, Valid s.plates ι → ∀ k : Fin 2, ι "x" = k → s.sample ι [] = AD.const (k : ℝ) ∧
        ∀ θ ∈ Set.Ioo (0 : ℝ) 1, plate.weightAt id ι θ = prob θ k := by
  intro a b
  obtain ⟨s, plate, h1, _, _, _, h2, h3, h4⟩ := C39_scalar_partial (U := Set.Ioo (0 : ℝ) 1) hh (inv := inv) (name := "x")
    (ctx := [a, b]) (params := []) (plates := [a, b]) (by simp [methodPlates]) (by simp [a, b, Plate.name])
    (by simp [a, b, Plate.name]) (by simp [a, b, Plate.n]) (by simp [a, b, Plate.kind]) (E := 2) (budget := 9)
    (fun n => (n : ℝ)) (Nat.le_refl _) (by norm_num) (logProb := logProb)
    (lpv := fun _ y θ => Real.log (if y = 1 then θ else 1 - θ)) (by
      intro x hx hp he
      refine ⟨_, rfl, ⟨hx.1, hx.2, hx.3, hx.4⟩, fun p => Iff.rfl, he, ?_⟩
      intro ι y hy
      funext θ
      show Real.log (if (x.sample ι []).val = 1 then θ else 1 - θ) = _
      rw [hy]
      rfl) (pr := fun θ _ v => prob θ v) (by
      intro θ hθ ι v
      refine ⟨?_, by simp [prob]⟩
      unfold prob
      split <;> linarith [hθ.1, hθ.2])
  exact ⟨s, plate, h1, h2, h3, h4⟩

/-- `C38_sum_to_one` and `C38_expectation` apply to the two coins, the latter to any cost with the plate of the samples. -/
example : ∃ s plate, enumerate (fun _ a => .ok a) inv "x" 4 [] [] support [2] logProb = .ok (s, plate) ∧
    (∀ θ ∈ Set.Ioo (0 : ℝ) 1, ∑ k ∈ Finset.range plate.n, plate.weightAt id (fun _ => k) θ = 1) ∧
    ∃ σ : Fin (2 ^ 2) ≃ (Fin 2 → Fin 2), ∀ f : Nat → AD ℝ (1 / 2),
      ∃ r, plate.reduce (fun _ a => .ok a) id ⟨⟨[4], fun idx => f (idx.headD 0)⟩, [plate], 1⟩ = .ok r ∧ r.plates = [] ∧
        ∀ θ ∈ Set.Ioo (0 : ℝ) 1, ∀ e, Ten.InB e r.eventShape → r.sample (fun _ => 0) e θ =
          ∑ x : Fin 2 → Fin 2, (prob θ (x 0) * prob θ (x 1)) * f (σ.symm x) θ := by
  obtain ⟨s, plate, σ, h1, h2, h3, h4, h5⟩ := C38_outcomes_partial (hook := fun _ a => .ok a) (fun _ _ _ => rfl) distr
    probs (show 2 ^ 2 ≤ 4 by norm_num)
  have hpl : methodPlates [] ([] : List (Operand (AD ℝ (1 / 2)))) = [] := by simp [methodPlates]
  rw [hpl] at h1 h5
  have hn : plate.n = 4 := h5.size
  have hx : plate.name = "x" := h5.called
  have hval : ∀ ι, Valid ([] : List (Plate (AD ℝ (1 / 2)))) ι := by simp [Valid]
  refine ⟨s, plate, h1, ?_, σ, ?_⟩
  · intro θ hθ
    have := C38_sum_to_one h5 (by simp) (fun _ _ _ => rfl) (by
      intro θ ι j
      simp [Fin.sum_univ_two, prob]) (fun _ => 0) (hval _) hθ
    rw [← this]
    refine Finset.sum_congr rfl fun k hk => ?_
    have hk' : k < 2 ^ 2 := by rw [← h5.size]; exact Finset.mem_range.1 hk
    have hv : ∀ ι : String → Nat, ι "x" = k → Valid s.plates ι := by
      intro ι hι p hp
      rw [h5.over, List.mem_singleton] at hp
      rw [hp, hx, hι, h5.size]
      exact hk'
    exact (h5.weight (fun _ => k) (hv _ rfl) ⟨k, hk'⟩ rfl θ hθ).trans
      (h5.weight (Function.update (fun _ => 0) "x" k) (hv _ (by simp)) ⟨k, hk'⟩ (by simp) θ hθ).symm
  · intro f
    have hm : [plate].filter (fun p => decide (1 < p.n)) = [plate] := by simp [hn]
    obtain ⟨r, r1, r2, _, r3⟩ := C38_expectation (hook := fun _ a => .ok a) (fun _ _ _ => rfl) h5 h4 (by simp)
      (fun _ _ _ => rfl) (c := ⟨⟨[4], fun idx => f (idx.headD 0)⟩, [plate], 1⟩) ⟨⟨by simp, by simp [hn], by
        show [4] = ([plate].filter (fun p => decide (1 < p.n))).map Plate.n ++ []
        rw [hm]; simp [hn], by
        show 1 = ([plate].filter (fun p => decide (1 < p.n))).length
        rw [hm]; rfl⟩, by simpa using h3⟩ (by simp) (by simp)
    refine ⟨r, r1, by rw [r2]; simp [dropPlate, hx], ?_⟩
    intro θ hθ e he
    refine (r3 (fun _ => 0) e θ hθ (hval _) he).trans (Finset.sum_congr rfl fun x _ => ?_)
    rw [Fin.prod_univ_two]
    have : (⟨⟨[4], fun idx => f (idx.headD 0)⟩, [plate], 1⟩ : STen (AD ℝ (1 / 2))).sample
        (Function.update (fun _ => 0) "x" (σ.symm x : Nat)) e = f (σ.symm x) := by
      simp [STen.sample, STen.multiDimPlates, hn, hx]
    exact congrArg (prob θ (x 0) * prob θ (x 1) * ·) (congrFun this θ)

/-- `C38_budget` applies to the two coins: their four outcomes are more than three. -/
example : enumerate (fun _ a => .ok a) inv "x" 3 [] [] support [2] logProb = .error .value := by
  have := C38_budget (hook := fun _ a => .ok a) inv (name := "x") (ctx := []) (params := []) (support := support) (dims := [2])
    (ev := []) (d := 2) (E := 2) (budget := 3) logProb rfl (.inr (by simp [methodPlates])) (.inl rfl)
    (by norm_num)
  rwa [show methodPlates [] ([] : List (Operand (AD ℝ (1 / 2)))) = [] by simp [methodPlates]] at this

/-- The cost `θ · (number of ones)` of two coins enumerated by `Expect`: the loss is `θ · 2 θ` as a function of θ, so
its derivative at 1/2 is that of the expected cost. -/
example : ∃ s plate, enumerate (fun _ a => .ok a) inv "x" 4 [] [] support [2] logProb = .ok (s, plate) ∧
    ∃ r, surrogateLoss (fun _ a => .ok a) [((⟨⟨[4], fun idx θ => θ * (s.ten.get (idx ++ [0]) θ + s.ten.get (idx ++ [1]) θ)⟩, [plate], 1⟩ : STen (AD ℝ (1 / 2))), [expectSampled s])] =
      .ok r ∧ ∀ θ ∈ Set.Ioo (0 : ℝ) 1, r.ten.get [] θ = 2 * θ ^ 2 := by
  obtain ⟨s, plate, σ, h1, h2, h3, h4, h5⟩ := C38_outcomes_partial (hook := fun _ a => .ok a) (fun _ _ _ => rfl) distr
    probs (show 2 ^ 2 ≤ 4 by norm_num)
  have hpl : methodPlates [] ([] : List (Operand (AD ℝ (1 / 2)))) = [] := by simp [methodPlates]
  rw [hpl] at h1 h5
  refine ⟨s, plate, h1, ?_⟩
  have hn : plate.n = 4 := h5.size
  obtain ⟨r, r1, _, _, r4⟩ := C38_loss (hook := fun _ a => .ok a) (fun _ _ _ => rfl) h5 h2 h3 h4 (fun _ _ _ => rfl)
    (costs := [(⟨⟨[4], fun idx θ => θ * (s.ten.get (idx ++ [0]) θ + s.ten.get (idx ++ [1]) θ)⟩, [plate], 1⟩ : STen (AD ℝ (1 / 2)))]) (by simp) (by
      intro c hc
      rw [List.mem_singleton.1 hc]
      have hm : [plate].filter (fun p => decide (1 < p.n)) = [plate] := by simp [hn]
      refine ⟨⟨by simp, by simp [hn], ?_, ?_⟩, rfl, rfl⟩
      · show [4] = ([plate].filter (fun p => decide (1 < p.n))).map Plate.n ++ []
        rw [hm]; simp [hn]
      · show 1 = ([plate].filter (fun p => decide (1 < p.n))).length
        rw [hm]; rfl)
  refine ⟨r, r1, ?_⟩
  intro θ hθ
  have hm : [plate].filter (fun p => decide (1 < p.n)) = [plate] := by simp [hn]
  have hmd : s.multiDimPlates = [plate] := by rw [STen.multiDimPlates, h5.over]; exact hm
  have hx : ∀ (x : Fin 2 → Fin 2) (j : Fin 2), s.ten.get [(σ.symm x : Nat), j] θ = ((x j : Nat) : ℝ) := by
    intro x j
    have := h5.sample (fun _ => (σ.symm x : Nat)) (by
      rw [h5.over]
      intro p hp
      rw [List.mem_singleton.1 hp, h5.size]
      exact (σ.symm x).2) (σ.symm x) rfl [j.1] [] (.cons j.2 .nil) .nil j.2
    rw [Equiv.apply_symm_apply] at this
    have he : s.eventShape = [2] := h5.event
    simp only [STen.sample, hmd, he, List.append_nil, List.map_cons, List.map_nil] at this
    have hb : Ten.bidx [2] [j.1] = [j.1] := by simp [Ten.bidx]
    rw [hb] at this
    exact congrFun this θ
  rw [r4 θ hθ]
  simp only [List.map_cons, List.map_nil, List.sum_cons, List.sum_nil, add_zero]
  have hs : ∀ x : Fin 2 → Fin 2, (⟨⟨[4], fun idx θ => θ * (s.ten.get (idx ++ [0]) θ + s.ten.get (idx ++ [1]) θ)⟩, [plate],
      1⟩ : STen (AD ℝ (1 / 2))).sample (Function.update (fun _ => 0) "x" (σ.symm x)) [] θ =
        θ * (((x 0 : Nat) : ℝ) + ((x 1 : Nat) : ℝ)) := by
    intro x
    rw [← hx x 0, ← hx x 1]
    simp [STen.sample, STen.multiDimPlates, hn, h5.called, STen.eventShape, Ten.bidx]
  simp only [hs]
  rw [← Equiv.sum_comp (finTwoArrowEquiv (Fin 2)).symm, Fintype.sum_prod_type]
  simp [Fin.prod_univ_two, Fin.sum_univ_two, prob]
  ring

end CoinCase

/-! ### Counterexamples

With rational numbers, so that the runs can be computed.  Logarithms are taken to base 2: `exp` is `2 ^ x`, right at
the integers up to 0, the only arguments in these runs. -/

namespace EnumCase

instance : Autograd ℚ := ⟨fun x => (1 / 2) ^ x.num.natAbs, id⟩
instance : ValEq ℚ := ⟨fun a b => decide (a = b), by simp, by simp +contextual [eq_comm], by simp +contextual⟩

def hook : UnwrapHook ℚ := fun _ a => .ok a
def inv (n : Nat) : ℚ := 1 / n

/-- The support of a Bernoulli variable. -/
def coin : Ten ℚ := ⟨[2], fun idx => (idx.headD 0 : ℚ)⟩

/-- The log-probabilities of fair coins. -/
def logProb (x : STen ℚ) : Except Err (STen ℚ) :=
  match opCall hook (fun _ => -1) [.st x false] with
  | .error e => .error e
  | .ok (.st r _) => .ok r
  | .ok (.torch _) => .error .attribute

/-- `x = Expect("x")(Bernoulli(p))` with fair coins of the given batch shape. -/
def flip (params : List (Operand ℚ)) (batch : List Nat) : Except Err (STen ℚ × Plate ℚ) :=
  enumerate hook inv "x" 1000 [] params coin batch logProb

/-- The result of reducing the plate of a cost computed from each sample. -/
def expectation (r : Except Err (STen ℚ × Plate ℚ)) (f : Ten ℚ → Nat → ℚ) : Option ℚ :=
  match r with
  | .error _ => none
  | .ok (s, p) =>
    match p.reduce hook id ⟨⟨[p.n], fun idx => f s.ten (idx.headD 0)⟩, s.plates, 1⟩ with
    | .ok r => some (r.ten.get [])
    | .error _ => none

def error : Except Err (STen ℚ × Plate ℚ) → Option Err
  | .error e => some e
  | .ok _ => none

/-- Two fair coins: four outcomes; the probability of any outcome and the expectation of the first coin. -/
example : (flip [] [2]).map (fun r => (r.1.ten.shape, r.2.n)) = .ok ([4, 2], 4) := by decide +kernel
example : expectation (flip [] [2]) (fun _ _ => 1) = some 1 := by decide +kernel
example : expectation (flip [] [2]) (fun t k => t.get [k, 0]) = some (1 / 2) := by decide +kernel
example : expectation (flip [] [2]) (fun t k => t.get [k, 0] * (1 - t.get [k, 1])) = some (1 / 4) := by decide +kernel

/-- C38 is false for a support with one element: `squeeze` removes the only dimension of the support. -/
theorem C38_refuted : error (enumerate hook inv "x" 1000 [] [] ⟨[1], fun _ => 0⟩ [2] logProb) = some .index := by
  decide +kernel

/-- A plate of size one. -/
def one : Plate ℚ := .mk "z" 1 (.torch (.scalar 1)) .plain []

/-- C39 is false for several event dimensions: two fair coins in a tensor of shape `(1, 2)`.  There are four samples
whose weights sum to one, but the outcomes where the coins differ are missing, and the expectation of the first
coin comes out as 1/4. -/
theorem C39_refuted_event :
    (flip [] [1, 2]).map (fun r => (r.1.ten.shape, r.2.n)) = .ok ([4, 1, 2], 4) ∧
    expectation (flip [] [1, 2]) (fun _ _ => 1) = some 1 ∧
    expectation (flip [] [1, 2]) (fun t k => t.get [k, 0, 0] * (1 - t.get [k, 0, 1])) = some 0 ∧
    expectation (flip [] [1, 2]) (fun t k => t.get [k, 0, 0]) = some (1 / 4) := by
  decide +kernel

/-- C39 is false for four coins in a tensor of shape `(2, 2)`: it raises. -/
theorem C39_refuted_raises : error (flip [] [2, 2]) = some .torch := by decide +kernel

/-- C39 is false for parameters with a plate of size one: two coins give two samples, `(0, 0)` and `(1, 1)`, whose
weights sum to 1/2. -/
theorem C39_refuted_plate :
    (flip [.st ⟨⟨[2], fun _ => 1 / 2⟩, [one], 0⟩ false] [2]).map (fun r => (r.1.ten.shape, r.2.n)) = .ok ([2, 2], 2) ∧
    expectation (flip [.st ⟨⟨[2], fun _ => 1 / 2⟩, [one], 0⟩ false] [2]) (fun _ _ => 1) = some (1 / 2) ∧
    expectation (flip [.st ⟨⟨[2], fun _ => 1 / 2⟩, [one], 0⟩ false] [2])
      (fun t k => if t.get [k, 0] = t.get [k, 1] then 0 else 1) = some 0 := by
  decide +kernel

end EnumCase
end Storch
