import Verif.Props.BaselineProps
import Verif.Props.EnumerateProps

/-!
# Cases for C32, C33 and C35, and a counterexample to C33

A tensor sampled from `Exponential(1)` along a plate `x` of size two, and costs above it.
-/

namespace Storch
namespace SurrogateCase

noncomputable abbrev A := AD ℝ (1 / 2 : ℝ)

noncomputable def hook : UnwrapHook A := fun _ a => .ok a

theorem plainHook : PlainHook hook := fun _ _ _ => rfl

/-- The plate with a given weight of each sample. -/
noncomputable def plate (w : ℝ) : Plate A := .mk "x" 2 (.torch (Ten.scalar (AD.const w))) .plain []

/-- The sample: 3 and 5. -/
noncomputable def sample (w : ℝ) : STen A := ⟨⟨[2], fun idx => AD.const (3 + 2 * (idx.headD 0 : ℕ))⟩, [plate w], 1⟩

/-- The cost `θ * x`. -/
noncomputable def cost (w : ℝ) : STen A := ⟨⟨[2], fun idx => fun θ => θ * (3 + 2 * (idx.headD 0 : ℕ))⟩, [plate w], 1⟩

/-- A cost that has already been averaged: 4. -/
noncomputable def averaged : STen A := ⟨Ten.scalar (AD.const 4), [], 0⟩

noncomputable def negElts : List A → A
  | [x] => -x
  | _ => 0

/-- The log-probability: `-x`. -/
noncomputable def logProb (x : STen A) : Except Err (STen A) :=
  match opCall hook negElts [.st x false] with
  | .error e => .error e
  | .ok (.st r _) => .ok r
  | .ok (.torch _) => .error .attribute

noncomputable def sampled (w : ℝ) : Sampled A := scoreSampled hook invN logProb 2 "x" none (sample w)

theorem multi (w : ℝ) (t : Ten A) (n : Nat) : (⟨t, [plate w], n⟩ : STen A).multiDimPlates = [plate w] := rfl

theorem sample_wf (w : ℝ) : (sample w).WF := ⟨by simp [sample], by simp [sample, plate, Plate.n], rfl, rfl⟩
theorem cost_wf (w : ℝ) : (cost w).WF := ⟨by simp [cost], by simp [cost, plate, Plate.n], rfl, rfl⟩
theorem averaged_wf : averaged.WF := ⟨by simp [averaged], by simp [averaged], rfl, rfl⟩

theorem pool (w : ℝ) : PoolOK [plate w] := by
  refine ⟨by simp, by simp [plate, Plate.kind], ?_⟩
  intro k hk
  have : ∀ a b, ¬ ParentOf [plate w] a b := by
    rintro a b ⟨p, hp, -, q, hq, -⟩
    simp only [List.mem_singleton] at hp
    subst hp
    simp [plate, Plate.parents] at hq
  cases hk with
  | single h => exact this _ _ h
  | tail _ h => exact this _ _ h

theorem weights (w : ℝ) : TorchWeights [plate w] := by
  intro p hp
  simp only [List.mem_singleton] at hp
  subst hp
  exact ⟨.scalar _ rfl rfl, _, rfl⟩

theorem closed (w : ℝ) : ParentClosed [plate w] := by
  intro p hp q hq
  simp only [List.mem_singleton] at hp
  subst hp
  simp [plate, Plate.parents] at hq

theorem costOK (w : ℝ) : CostOK [plate w] (cost w) :=
  ⟨⟨cost_wf w, rfl, fun _ hp => hp⟩, closed w⟩

theorem averagedOK (w : ℝ) : CostOK [plate w] averaged :=
  ⟨⟨averaged_wf, rfl, fun _ hp => by cases hp⟩, fun _ hp => by cases hp⟩

theorem parentOK (w : ℝ) : ParentOK [plate w] (sample w) := ⟨sample_wf w, fun _ hp => hp, closed w⟩

theorem logProbOK (w : ℝ) : LogProbOK (sample w) logProb [] (fun ι _ => -(sample w).sample ι []) := by
  intro x hx
  obtain ⟨r, r1, r2, r3, r4, r5⟩ := opCall_scalar plainHook (pool w) negElts (ops := [.st x false]) (by
    intro o ho
    simp only [List.mem_singleton] at ho
    subst ho
    exact ⟨hx.wf, hx.event, fun p hp => (hx.plates p).1 hp⟩)
  obtain ⟨lp, rfl⟩ := r5 (by simp [stens])
  refine ⟨lp, by rw [logProb, r1], r2.1, ?_, r2.2.1, ?_⟩
  · intro p
    have := r3 p
    simp only [List.mem_singleton, exists_eq_left] at this
    exact this.trans (hx.plates p)
  · intro ι e he
    cases he
    have := r4 ι
    rw [Operand.at, Operand.sample] at this
    rw [this, List.map_cons, List.map_nil]
    show negElts [x.sample ι []] = -(sample w).sample ι []
    rw [hx.values]
    rfl

theorem cost_at (w : ℝ) (ι : String → Nat) (θ : ℝ) : (cost w).sample ι [] θ = θ * (3 + 2 * (ι "x" : ℕ)) := rfl

theorem total (w : ℝ) (v : (String → Nat) → A) (ι : String → Nat) (θ : ℝ) : weightedTotal id [plate w] v ι θ =
    w * v (Function.update ι "x" 0) θ + (w * v (Function.update ι "x" 1) θ + 0) := by
  have : weightedTotal id [plate w] v ι = AD.const w * 1 * v (Function.update ι "x" 0) +
      (AD.const w * 1 * v (Function.update ι "x" 1) + 0) := rfl
  rw [this]
  simp only [AD.add_apply, AD.mul_apply, AD.zero_apply, AD.const_apply, mul_one]

theorem covered (w : ℝ) (c : STen A) : Covered hook [plate w] c (sampled w) :=
  .score _ (parentOK w) _ _ _ (logProbOK w) _ _ _

theorem noParents (w : ℝ) : ParentsAllOrNone [plate w] := by
  intro p hp
  left
  simp only [List.mem_singleton] at hp
  subst hp
  intro q hq
  simp [plate, Plate.parents] at hq

/-- C32 applies to the sample. -/
example : ∃ r, magicBox hook (.st (sample (1 / 2)) false) = .ok (.st r false) ∧ r.plates = [plate (1 / 2)] ∧
    r.eventShape = [] ∧ ∀ ι e, Ten.InB e [] → (r.sample ι e).val = 1 :=
  C32_value plainHook ⟨sample_wf _, by simp [sample, plate, Plate.kind]⟩

/-- `C32_derivative` and `C32_all_orders` apply to the cost, which is `θ` times a number. -/
example : ∃ r, magicBox hook (.st (cost (1 / 2)) false) = .ok (.st r false) ∧
    HasFDerivAt (fun θ => r.sample (fun _ => 0) [] θ) ((3 : ℝ) • ContinuousLinearMap.id ℝ ℝ) (1 / 2) ∧
    ∀ n, iteratedFDeriv ℝ n (fun θ => r.sample (fun _ => 0) [] θ * θ) (1 / 2) =
      (Real.exp (3 / 2))⁻¹ • iteratedFDeriv ℝ n (fun θ => Real.exp (θ * 3) * θ) (1 / 2) := by
  have hpr : Proper (cost (1 / 2)) := ⟨(costOK _).scalar.1, by simp [cost, plate, Plate.kind]⟩
  obtain ⟨r, r1, _, _, r4⟩ := C32_value (θ₀ := (1 / 2 : ℝ)) plainHook hpr
  have hc : ∀ θ, (cost (1 / 2)).sample (fun _ => 0) [] θ = θ * 3 := fun θ => by rw [cost_at]; norm_num
  have he : Ten.InB [] (cost (1 / 2)).eventShape := .nil
  have hd : HasFDerivAt (fun θ => (cost (1 / 2)).sample (fun _ => 0) [] θ) ((3 : ℝ) • ContinuousLinearMap.id ℝ ℝ) (1 / 2) := by
    rw [show (fun θ => (cost (1 / 2)).sample (fun _ => 0) [] θ) = fun θ => θ * 3 from funext hc]
    exact (hasFDerivAt_id (𝕜 := ℝ) (1 / 2 : ℝ)).mul_const 3
  refine ⟨r, r1, ?_, fun n => ?_⟩
  · have := C32_derivative plainHook hpr r1 he hd
    rwa [show r.sample (fun _ => 0) [] (1 / 2) = 1 from r4 _ _ he, one_smul] at this
  · have := C32_all_orders plainHook hpr r1 he n (θ := 1 / 2) (x := fun θ => θ) (by
      rw [show (fun θ => (cost (1 / 2)).sample (fun _ => 0) [] θ) = fun θ => θ * 3 from funext hc]; fun_prop) contDiffAt_id
    rw [this, show (fun θ => Real.exp ((cost (1 / 2)).sample (fun _ => 0) [] θ) * θ) = fun θ => Real.exp (θ * 3) * θ from
      funext fun θ => by rw [hc], hc]
    norm_num

/-- C33 applies to the cost: the loss is 1/2 * (3 + 5) / 2. -/
example : ∃ r, surrogateLoss hook [(cost (1 / 2), [sampled (1 / 2)])] = .ok r ∧ (r.ten.get []).val = 2 := by
  obtain ⟨r, r1, _, _, r4⟩ := C33_methods_partial plainHook (pool (1 / 2)) (weights _).weights
    (costs := [(cost (1 / 2), [sampled (1 / 2)])]) (by simp)
    (by simpa using ⟨costOK _, noParents _⟩) (by simpa using covered _ _)
    (by
      intro x hx s hs p hp _
      simp only [List.mem_singleton] at hx hp
      subst hx hp
      left
      simp [cost])
  refine ⟨r, r1, ?_⟩
  rw [r4]
  simp only [List.map_cons, List.map_nil, List.sum_cons, List.sum_nil, averageCost, AD.val]
  rw [show (cost (1 / 2)).plates = [plate (1 / 2)] from rfl, total, cost_at, cost_at]
  simp
  norm_num

/-- `C38_joint_loss` applies to the cost, as the cost of two enumerated outcomes of probability 1/2. -/
example : ∃ r, surrogateLoss hook [(cost (1 / 2), [expectSampled (sample (1 / 2))])] = .ok r ∧ r.ten.get [] 1 = 4 := by
  obtain ⟨r, r1, _, _, r4⟩ := C38_joint_loss (U := Set.univ) plainHook (pool (1 / 2)) (weights _).weights
    (pr := fun _ _ _ => 1 / 2) (by
      intro p hp ι _ θ _
      rw [List.mem_singleton.1 hp]
      rfl) (costs := [(cost (1 / 2), [sample (1 / 2)])]) (by simp)
    (by simpa using ⟨costOK _, noParents _, parentOK _⟩)
  refine ⟨r, r1, ?_⟩
  refine (r4 1 trivial).trans ?_
  simp only [List.map_cons, List.map_nil, List.sum_cons, List.sum_nil, cost_at]
  rw [show (cost (1 / 2)).plates = [plate (1 / 2)] from rfl, show (List.map Plate.n [plate (1 / 2)]) = [2] from rfl]
  simp [allIdx, assign, List.range_succ, plate, Plate.name]
  norm_num

/-- C33 is false in general: the cost 4 has been averaged before it was registered and has no plate, the samples
above it have weights 1 that sum to two.  The surrogate loss is 8. -/
theorem C33_refuted : ∃ r, surrogateLoss hook [(averaged, [sampled 1])] = .ok r ∧ (r.ten.get []).val = 8 ∧
    averageCost averaged = 4 := by
  have hc := score_contributes plainHook (pool 1) (weights 1) (averagedOK 1) (t := sample 1)
    (by intro p hp; cases hp) (parentOK 1) (logProbOK 1) invN 2 "x"
  obtain ⟨r, r1, _, _, r4⟩ := surrogateLoss_spec plainHook (pool 1) (weights 1)
    (costs := [(averaged, [sampled 1])]) (es := [(averaged, [_])]) (by simp) (.cons ⟨rfl, averagedOK 1, .cons hc .nil⟩ .nil)
  refine ⟨r, r1, ?_, ?_⟩
  · rw [r4, AD.val, lossTotal, List.map_cons, List.map_nil, List.sum_cons, List.sum_nil, costTotal, cvTotal, cvTotal,
      boxTotal]
    rw [show named [plate 1] _ = [plate 1] from rfl]
    simp only [AD.add_apply, AD.zero_apply, total]
    have hbox : ∀ x : A, boxElt x (1 / 2) = 1 := by
      intro x
      show Real.exp (x (1 / 2) - x (1 / 2)) = 1
      simp
    have h4 : ∀ ι, averaged.sample ι [] (1 / 2) = 4 := fun _ => rfl
    simp only [AD.mul_apply, hbox, h4]
    norm_num
  · rw [averageCost, AD.val]
    show (1 * AD.const 4 + 0 : A) (1 / 2) = 4
    simp

/-- C35: the baseline of each of the two samples is the cost of the other one. -/
example : ∃ o, computeBaseline hook invN 2 "x" (cost (1 / 2)) .batchAverage = .ok o ∧
    o.at (fun _ => 0) (1 / 2) = 5 / 2 ∧ o.at (fun _ => 1) (1 / 2) = 3 / 2 := by
  obtain ⟨o, o1, o2⟩ := C35_value plainHook (pool (1 / 2)) (costOK (1 / 2)) (own := plate (1 / 2)) (by simp [cost])
    (by simp [plate, Plate.n])
  refine ⟨o, o1, ?_, ?_⟩
  · rw [o2 _ (by simp [plate, Plate.n])]
    rw [show (plate (1 / 2)).n = 2 from rfl, show (plate (1 / 2)).name = "x" from rfl,
      show (Finset.range 2).erase 0 = {1} from rfl]
    simp only [Finset.sum_singleton, cost_at, Function.update_self]
    norm_num
  · rw [o2 _ (by simp [plate, Plate.n])]
    rw [show (plate (1 / 2)).n = 2 from rfl, show (plate (1 / 2)).name = "x" from rfl,
      show (Finset.range 2).erase 1 = {0} from rfl]
    simp only [Finset.sum_singleton, cost_at, Function.update_self]
    norm_num

end SurrogateCase
end Storch
