import Verif.Model.Methods
import Verif.Props.SurrogateCases
import Verif.Props.GraphProps
import Mathlib.Analysis.SpecialFunctions.Log.Deriv

/-!
# C37: `Infer` on a reparameterised tensor; C56: checking for differentiable paths
-/

namespace Storch
open World

section
variable {E : Type _} {θ₀ : E}

/-- The average cost as a function of the parameters.  With reparameterised samples its derivative is the
pathwise derivative. -/
noncomputable def averageCostAt (c : STen (AD E θ₀)) (θ : E) : ℝ :=
  weightedTotal id c.plates (fun ι => c.sample ι []) (fun _ => 0) θ

theorem named_perm {pool : List (Plate (AD E θ₀))} (hp : PoolOK pool) {c : STen (AD E θ₀)} (hc : CostOK pool c)
    {ns : List String} (hns : ∀ n, n ∈ ns ↔ n ∈ c.plates.map Plate.name) : (named pool ns).Perm c.plates := by
  refine (List.perm_ext_iff_of_nodup (hp.names.of_map.filter _) hc.scalar.1.names.of_map).2 fun p => ?_
  simp only [List.mem_filter, decide_eq_true_eq, hns]
  constructor
  · rintro ⟨h1, h2⟩
    obtain ⟨q, hq, he⟩ := List.mem_map.1 h2
    exact pool_eq hp (hc.scalar.sub q hq) h1 he ▸ hq
  · exact fun h => ⟨hc.scalar.sub p h, List.mem_map_of_mem h⟩

/-- The loss of one cost and one tensor whose estimator gives `lp`, without a control variate. -/
theorem loss_one {hook : UnwrapHook (AD E θ₀)} (hh : PlainHook hook) {pool : List (Plate (AD E θ₀))} (hp : PoolOK pool)
    (hw : TorchWeights pool) {c : STen (AD E θ₀)} (hc : CostOK pool c) {s : Sampled (AD E θ₀)} {ns : List String}
    {lp : (String → Nat) → AD E θ₀} (hs : Contributes hook pool c s ⟨ns, lp, none⟩)
    (hns : ∀ n ∈ ns, n ∈ c.plates.map Plate.name) :
    ∃ r, surrogateLoss hook [(c, [s])] = .ok r ∧ r.plates = [] ∧ r.ten.shape = [] ∧
      ∀ θ, r.ten.get [] θ = weightedTotal id c.plates (fun ι => boxElt (lp ι) * c.sample ι []) (fun _ => 0) θ := by
  obtain ⟨r, r1, r2, r3, r4⟩ := surrogateLoss_spec hh hp hw (costs := [(c, [s])]) (es := [(c, [⟨ns, lp, none⟩])])
    (by simp) (.cons ⟨rfl, hc, .cons hs .nil⟩ .nil)
  refine ⟨r, r1, r2, r3, fun θ => ?_⟩
  rw [r4]
  simp only [lossTotal, List.map_cons, List.map_nil, List.sum_cons, List.sum_nil, add_zero, costTotal, cvTotal,
    zero_add, boxTotal, List.flatMap_cons, List.flatMap_nil, List.append_nil]
  rw [weightedTotal_perm id (named_perm hp hc (fun n => ?_)) hc.scalar.1.names]
  rw [List.mem_append]
  exact ⟨fun h => h.elim (hns n) id, Or.inr⟩

/-- C37, what is promised: a tensor with a pathwise method (`Reparameterization`, or `Infer` if it says that
it is pathwise) adds nothing to the surrogate loss, which is the average cost as a function of the
parameters.  So all its derivatives are the pathwise ones. -/
theorem C37_pathwise_partial {hook : UnwrapHook (AD E θ₀)} (hh : PlainHook hook) {pool : List (Plate (AD E θ₀))}
    (hp : PoolOK pool) (hw : TorchWeights pool) {c : STen (AD E θ₀)} (hc : CostOK pool c) (s : Sampled (AD E θ₀))
    (hs : s.pathwise = true) :
    ∃ r, surrogateLoss hook [(c, [s])] = .ok r ∧ r.ten.shape = [] ∧ ∀ θ, r.ten.get [] θ = averageCostAt c θ := by
  obtain ⟨r, r1, _, r3, r4⟩ := loss_one hh hp hw hc (s := s) (ns := []) (lp := fun _ => 0)
    (Or.inl ⟨hs, rfl, fun _ => rfl, rfl⟩) (by simp)
  refine ⟨r, r1, r3, fun θ => (r4 θ).trans ?_⟩
  refine total_val _ θ (fun ι => ?_) _
  rw [AD.mul_apply]
  show Real.exp (0 - 0) * _ = _
  simp

end

section
variable {E : Type _} [NormedAddCommGroup E] [NormedSpace ℝ E] {θ₀ : E}

/-- The wrong term: the costs times the derivatives `lp'` of their log-probabilities, averaged. -/
noncomputable def scoreTerm (c : STen (AD E θ₀)) (lp' : (String → Nat) → E →L[ℝ] ℝ) : E →L[ℝ] ℝ :=
  ((allIdx (c.plates.map Plate.n)).map (fun idx =>
    (jointWeight c.plates θ₀ idx * (c.sample (assign c.plates idx (fun _ => 0)) []).val) •
      lp' (assign c.plates idx (fun _ => 0)))).sum

theorem prod_differentiable (l : List (AD E θ₀)) (h : ∀ x ∈ l, DifferentiableAt ℝ (fun θ => x θ) θ₀) :
    DifferentiableAt ℝ (fun θ => AD.eval θ l.prod) θ₀ := by
  induction l with
  | nil => simp
  | cons a l ih =>
    simp only [List.prod_cons, map_mul]
    exact (h a (by simp)).mul (ih fun i hi => h i (List.mem_cons_of_mem _ hi))

/-- C37, what the code computes: in no reachable state does `Infer` find a differentiable path from a tensor
to another one, so it uses the score function, and the gradient is the pathwise derivative plus `scoreTerm`.
Here `G` is the log-probability of the sample, in which the sample itself depends on the parameters. -/
theorem C37_gradient_partial {β : Type _} [ValEq β] [Inhabited β] (env : Env β) (w : World β) (hr : Reachable env w)
    {cost sample : Nat} (hcs : cost ≠ sample) {fuel : Nat} (hf : 2 ≤ fuel) (check : Bool)
    {hook : UnwrapHook (AD E θ₀)} (hh : PlainHook hook) {pool : List (Plate (AD E θ₀))}
    (hp : PoolOK pool) (hw : TorchWeights pool)
    (hwd : ∀ p ∈ pool, ∀ ι, DifferentiableAt ℝ (fun θ => p.weightAt id ι θ) θ₀)
    {c t : STen (AD E θ₀)} (hc : CostOK pool c) (hg : ParentsAllOrNone c.multiDimPlates) (ht : ParentOK pool t)
    (htc : ∀ p ∈ t.plates, p ∈ c.plates) (hcd : ∀ ι, DifferentiableAt ℝ (fun θ => c.sample ι [] θ) θ₀)
    {logProb : STen (AD E θ₀) → Except Err (STen (AD E θ₀))} {es : List Nat} {G : (String → Nat) → List Nat → AD E θ₀}
    (hl : LogProbOK t logProb es G) {lp' : (String → Nat) → E →L[ℝ] ℝ}
    (hlp : ∀ ι, HasFDerivAt (fun θ => sumEvent es G ι θ) (lp' ι) θ₀)
    (inv : Nat → AD E θ₀) (n : Nat) (name : String) :
    ∃ pathwise r, MethodKind.infer.isPathwise check (hasDifferentiablePath w.kids fuel cost sample) = .ok pathwise ∧
      surrogateLoss hook [(c, [inferSampled hook inv logProb n name pathwise t])] = .ok r ∧ r.ten.shape = [] ∧
      HasFDerivAt (fun θ => r.ten.get [] θ) (fderiv ℝ (averageCostAt c) θ₀ + scoreTerm c lp') θ₀ := by
  refine ⟨false, ?_⟩
  obtain ⟨r, r1, _, r3, r4⟩ := loss_one hh hp hw hc
    (score_contributes hh hp hw hc hg ht hl inv n name) (by
      intro n hn
      obtain ⟨q, hq, rfl⟩ := List.mem_map.1 hn
      exact List.mem_map_of_mem (htc q hq))
  refine ⟨r, ?_, r1, r3, ?_⟩
  · rw [C20_always_false_partial env w hr _ _ _ hf]
    simp [MethodKind.isPathwise, hcs]
  have hW : ∀ idx, DifferentiableAt ℝ (fun θ => jointWeight c.plates θ idx) θ₀ := by
    intro idx
    apply prod_differentiable
    intro x hx
    obtain ⟨p, hpp, rfl⟩ := List.mem_map.1 hx
    exact hwd p (hc.scalar.sub p hpp) _
  let term (idx : List Nat) (θ : E) : ℝ :=
    jointWeight c.plates θ idx * c.sample (assign c.plates idx (fun _ => 0)) [] θ
  have hterm : ∀ idx, DifferentiableAt ℝ (term idx) θ₀ := fun idx => (hW idx).mul (hcd _)
  have havg : averageCostAt c = fun θ => ((allIdx (c.plates.map Plate.n)).map (fun idx => term idx θ)).sum :=
    funext fun θ => total_eval _ _ _
  have hd := hasFDerivAt_list_sum (allIdx (c.plates.map Plate.n)) term (fun idx => fderiv ℝ (term idx) θ₀) θ₀
    (fun idx _ => (hterm idx).hasFDerivAt)
  rw [← havg] at hd
  rw [hd.fderiv]
  have hsum : ((allIdx (c.plates.map Plate.n)).map (fun idx => fderiv ℝ (term idx) θ₀)).sum + scoreTerm c lp' =
      ((allIdx (c.plates.map Plate.n)).map (fun idx => fderiv ℝ (term idx) θ₀ +
        (jointWeight c.plates θ₀ idx * (c.sample (assign c.plates idx (fun _ => 0)) []).val) •
          lp' (assign c.plates idx (fun _ => 0)))).sum := by
    rw [scoreTerm, List.sum_map_add]
  rw [hsum]
  have hfun : (fun θ => r.ten.get [] θ) = fun θ => ((allIdx (c.plates.map Plate.n)).map (fun idx =>
      boxElt (sumEvent es G (assign c.plates idx (fun _ => 0))) θ * term idx θ)).sum := by
    funext θ
    rw [r4, total_eval]
    congr 1
    apply List.map_congr_left
    intro idx _
    simp only [AD.mul_apply, term]
    ring
  rw [hfun]
  apply hasFDerivAt_list_sum
  intro idx _
  set ι := assign c.plates idx (fun _ => 0)
  have hb : HasFDerivAt (fun θ => boxElt (sumEvent es G ι) θ) (lp' ι) θ₀ := by
    have := ((hlp ι).sub_const (sumEvent es G ι θ₀)).exp
    rw [sub_self, Real.exp_zero, one_smul] at this
    exact this
  have := hb.mul (hterm idx).hasFDerivAt
  rw [boxElt_val, one_smul] at this
  exact this

end

/-! ### C37: a counterexample -/

namespace UniformCase
open SurrogateCase

/-- `rsample` of `Uniform(0, θ)` along a plate of size two: `θ * ε`, where `ε` is the noise. -/
noncomputable def sample (ε : Nat → ℝ) : STen A := ⟨⟨[2], fun idx => fun θ => θ * ε (idx.headD 0)⟩, [plate (1 / 2)], 1⟩

/-- The log-density of one element: `-log θ`. -/
noncomputable def logElts : List A → A := fun _ θ => -Real.log θ

noncomputable def logProb (x : STen A) : Except Err (STen A) :=
  match opCall hook logElts [.st x false] with
  | .error e => .error e
  | .ok (.st r _) => .ok r
  | .ok (.torch _) => .error .attribute

theorem sample_wf (ε : Nat → ℝ) : (sample ε).WF := ⟨by simp [sample], by simp [sample, plate, Plate.n], rfl, rfl⟩

theorem costOK (ε : Nat → ℝ) : CostOK [plate (1 / 2)] (sample ε) :=
  ⟨⟨sample_wf ε, rfl, fun _ hp => hp⟩, closed _⟩

theorem parentOK (ε : Nat → ℝ) : ParentOK [plate (1 / 2)] (sample ε) := ⟨sample_wf ε, fun _ hp => hp, closed _⟩

theorem logProbOK (ε : Nat → ℝ) : LogProbOK (sample ε) logProb [] (fun _ _ => logElts []) := by
  intro x hx
  obtain ⟨r, r1, r2, r3, r4, r5⟩ := opCall_scalar plainHook (pool (1 / 2)) logElts (ops := [.st x false]) (by
    intro o ho
    simp only [List.mem_singleton] at ho
    subst ho
    exact ⟨hx.wf, hx.event, fun p hp => (hx.plates p).1 hp⟩)
  obtain ⟨lp, rfl⟩ := r5 (by simp [stens])
  refine ⟨lp, by rw [logProb, r1], r2.1, ?_, r2.2.1, ?_⟩
  · intro p
    have := r3 p
    simp only [List.mem_singleton, exists_eq_left] at this
    exact this.trans (hx.plates p)
  · intro ι e he
    cases he
    have := r4 ι
    rw [Operand.at, Operand.sample] at this
    rw [this]
    rfl

theorem average (ε : Nat → ℝ) : averageCostAt (sample ε) = fun θ => θ * ((ε 0 + ε 1) / 2) := by
  funext θ
  rw [averageCostAt, show (sample ε).plates = [plate (1 / 2)] from rfl, total]
  show 1 / 2 * (θ * ε 0) + (1 / 2 * (θ * ε 1) + 0) = _
  ring

/-- C37 is false: for `x = Infer(...)(Uniform(0, θ))` and the cost `x`, the pathwise derivative is the average
of the noise; the gradient that the library computes is zero, whatever the noise. -/
theorem C37_refuted (ε : Nat → ℝ) : ∃ pathwise r,
    MethodKind.infer.isPathwise false
      (hasDifferentiablePath (exec plainEnv costOfX World.init).1.kids 2 1 0) = .ok pathwise ∧
    surrogateLoss hook [(sample ε, [inferSampled hook invN logProb 2 "x" pathwise (sample ε)])] = .ok r ∧
    HasDerivAt (fun θ => r.ten.get [] θ) 0 (1 / 2) ∧
    HasDerivAt (averageCostAt (sample ε)) ((ε 0 + ε 1) / 2) (1 / 2) := by
  have hav : HasDerivAt (averageCostAt (sample ε)) ((ε 0 + ε 1) / 2) (1 / 2) := by
    rw [average]
    simpa using (hasDerivAt_id (1 / 2 : ℝ)).mul_const ((ε 0 + ε 1) / 2)
  have hlog : HasDerivAt (fun θ : ℝ => -Real.log θ) (-2) (1 / 2) := by
    have := (Real.hasDerivAt_log (x := 1 / 2) (by norm_num)).neg
    norm_num at this
    exact this
  obtain ⟨b, r, h1, h2, _, h4⟩ := C37_gradient_partial plainEnv _ (Reachable.of plainEnv costOfX) (cost := 1)
    (sample := 0) (by decide) (fuel := 2) le_rfl false plainHook (pool (1 / 2)) (weights _)
    (by
      intro p hp ι
      simp only [List.mem_singleton] at hp
      subst hp
      exact differentiableAt_const (1 / 2 : ℝ))
    (costOK ε) (noParents _) (parentOK ε) (fun _ h => h)
    (fun ι => (differentiableAt_id.mul_const (ε (ι "x")) : DifferentiableAt ℝ (fun θ : ℝ => θ * ε (ι "x")) (1 / 2)))
    (logProbOK ε)
    (lp' := fun _ => ContinuousLinearMap.toSpanSingleton ℝ (-2 : ℝ))
    (fun ι => by
      have : (fun θ => sumEvent [] (fun _ _ => logElts []) ι θ) = fun θ : ℝ => -Real.log θ := by
        funext θ
        show -Real.log θ + 0 = _
        simp
      rw [this]
      exact hlog.hasFDerivAt)
    invN 2 "x"
  refine ⟨b, r, h1, h2, ?_, hav⟩
  have := h4.hasDerivAt
  rw [hav.hasFDerivAt.fderiv] at this
  convert this using 1
  rw [add_apply]
  have hs : scoreTerm (sample ε) (fun _ => ContinuousLinearMap.toSpanSingleton ℝ (-2 : ℝ)) =
      ContinuousLinearMap.toSpanSingleton ℝ (-((ε 0 + ε 1) / 2)) := by
    have : scoreTerm (sample ε) (fun _ => ContinuousLinearMap.toSpanSingleton ℝ (-2 : ℝ)) =
      ((1 / 2 : ℝ) * 1 * (1 / 2 * ε 0)) • ContinuousLinearMap.toSpanSingleton ℝ (-2 : ℝ) +
      (((1 / 2 : ℝ) * 1 * (1 / 2 * ε 1)) • ContinuousLinearMap.toSpanSingleton ℝ (-2 : ℝ) + 0) := rfl
    rw [this]
    ext
    simp
    ring
  rw [hs]
  simp

/-- With a pathwise method the gradient of that cost is right. -/
example (ε : Nat → ℝ) : ∃ r, surrogateLoss hook [(sample ε, [reparamSampled (sample ε)])] = .ok r ∧
    HasDerivAt (fun θ => r.ten.get [] θ) ((ε 0 + ε 1) / 2) (1 / 2) := by
  obtain ⟨r, r1, _, r3⟩ := C37_pathwise_partial plainHook (pool (1 / 2)) (weights _) (costOK ε)
    (reparamSampled (sample ε)) rfl
  refine ⟨r, r1, ?_⟩
  rw [show (fun θ => r.ten.get [] θ) = averageCostAt (sample ε) from funext r3, average]
  simpa using (hasDerivAt_id (1 / 2 : ℝ)).mul_const ((ε 0 + ε 1) / 2)

end UniformCase

/-! ### C56 -/

/-- C56 is false: with `CHECK_DIFFERENTIABLE_PATH` switched on, `Reparameterization`, `GumbelSoftmax` and
`GumbelEntmax` raise for every cost tensor and every sample, in every reachable state, whether or not the
cost depends differentiably on the sample. -/
theorem C56_refuted {β : Type _} [ValEq β] [Inhabited β] (env : Env β) (w : World β) (hr : Reachable env w)
    {cost sample : Nat} (hcs : cost ≠ sample) {fuel : Nat} (hf : 2 ≤ fuel) (m : MethodKind)
    (hm : m = .reparameterization ∨ m = .gumbelSoftmax ∨ m = .gumbelEntmax) :
    m.isPathwise true (hasDifferentiablePath w.kids fuel cost sample) = .error .value := by
  rw [C20_always_false_partial env w hr _ _ _ hf]
  rcases hm with rfl | rfl | rfl <;> simp [MethodKind.isPathwise, hcs]

/-- C56, what holds: without the check (the default) samples of these methods add nothing to the surrogate loss, whatever
their estimator is and whatever the search for a path would find, so that only the path through the cost is left. -/
theorem C56_unchecked_partial {α : Type _} [CommRing α] [ValEq α] [Autograd α] (hook : UnwrapHook α)
    (costs : List (STen α × List (Sampled α)))
    (h : ∀ k ∈ costs, ∀ s ∈ k.2, ∃ (m : MethodKind) (path : Except Err Bool),
      (m = .reparameterization ∨ m = .gumbelSoftmax ∨ m = .gumbelEntmax) ∧ m.isPathwise false path = .ok s.pathwise) :
    surrogateLoss hook costs = surrogateLoss hook (costs.map (fun k => (k.1, []))) := by
  have hpath : ∀ k ∈ costs, ∀ s ∈ k.2, s.pathwise = true := by
    intro k hk s hs
    obtain ⟨m, path, hm, he⟩ := h k hk s hs
    rcases hm with rfl | rfl | rfl <;> exact (Except.ok.inj he).symm
  have hloop : ∀ (c : STen α) (ps : List (Sampled α)), (∀ s ∈ ps, s.pathwise = true) → ∀ st,
      parentLoop hook c ps st = .ok st := by
    intro c ps
    induction ps with
    | nil => intro _ st; rfl
    | cons p ps ih =>
      intro hp st
      rw [parentLoop, if_pos (hp p (by simp))]
      exact ih (fun s hs => hp s (by simp [hs])) st
  have hcosts : surrogateCosts hook costs = surrogateCosts hook (costs.map (fun k => (k.1, []))) := by
    clear h
    induction costs with
    | nil => rfl
    | cons k cs ih =>
      have e : surrogateCost hook k.1 k.2 = surrogateCost hook k.1 [] := by
        simp only [surrogateCost, hloop k.1 k.2 (hpath k (by simp)), parentLoop]
      rw [List.map_cons, surrogateCosts, surrogateCosts, e, ih (fun k' hk' => hpath k' (by simp [hk']))]
  cases costs with
  | nil => rfl
  | cons k cs => simp only [surrogateLoss, List.map_cons, hcosts]

/-- A case for `C56_unchecked_partial`: a sample of `GumbelSoftmax` of a cost of one element. -/
example : surrogateLoss (α := AD ℝ 0) (fun _ a => .ok a)
      [(⟨⟨[], fun _ => AD.const 3⟩, [], 0⟩, [⟨⟨⟨[], fun _ => AD.const 2⟩, [], 0⟩, true, fun _ _ => .error .value⟩])] =
    surrogateLoss (α := AD ℝ 0) (fun _ a => .ok a) [(⟨⟨[], fun _ => AD.const 3⟩, [], 0⟩, [])] :=
  C56_unchecked_partial _ _ (by
    intro k hk s hs
    rw [List.mem_singleton.1 hk] at hs
    rw [List.mem_singleton.1 hs]
    exact ⟨.gumbelSoftmax, .ok false, by simp, rfl⟩)

/-- The cost of `costOfX` holds the tensor it is computed from. -/
example : HoldsTensorOf (exec plainEnv costOfX World.init).1 1 0 ∧ MethodKind.reparameterization.isPathwise true
    (hasDifferentiablePath (exec plainEnv costOfX World.init).1.kids 2 1 0) = .error .value :=
  ⟨⟨⟨false, by decide +kernel⟩, rfl⟩, C56_refuted plainEnv _ (Reachable.of _ _) (by decide) le_rfl _ (Or.inl rfl)⟩

end Storch
