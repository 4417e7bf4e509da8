import Verif.Props.MonteCarloProps
import Verif.Lemmas.BaselineLemmas

/-!
# C35, C36: score functions with baselines

For programs that sample with `ScoreFunction` and any mix of baselines.
-/

namespace Storch

section
variable {E : Type _} {θ₀ : E}

/-! ### What the baselines should be -/

/-- The average of `F` over the positions along the plates `M`. -/
noncomputable def avgOver (M : List (Plate (AD E θ₀))) (F : (String → Nat) → ℝ) (ι : String → Nat) : ℝ :=
  ((allIdx (M.map Plate.n)).map (fun idx => (M.map (fun p => 1 / (p.n : ℝ))).prod * F (assign M idx ι))).sum

/-- The value of the cost at a position. -/
noncomputable def costAt (θ₀ : E) (vars : List (ScoreVar E)) (k : ScoreCost E) (ω : Draws ℝ) (ι : String → Nat) : ℝ :=
  k.f θ₀ (k.args.map (trajectory (declsOf (θ₀ := θ₀) invN vars) ω ι))

/-- The plates of the cost that the variable `d` does not have. -/
noncomputable def otherPlates (θ₀ : E) (vars : List (ScoreVar E)) (k : ScoreCost E) (d : ScoreVar E) :
    List (Plate (AD E θ₀)) :=
  (argPlates (layout invN vars) k.args).filter (fun p =>
    decide (1 < p.n) && !decide (p.name ∈ (platesIn (layout (θ₀ := θ₀) invN vars) d.name).map Plate.name))

/-- The cost of one sample of `d`: the average over everything sampled below it. -/
noncomputable def costOfSample (θ₀ : E) (vars : List (ScoreVar E)) (k : ScoreCost E) (d : ScoreVar E) (ω : Draws ℝ)
    (ι : String → Nat) : ℝ :=
  avgOver (otherPlates θ₀ vars k d) (costAt θ₀ vars k ω) ι

/-- The mean of the costs of the other samples of `d`. -/
noncomputable def othersMean (θ₀ : E) (vars : List (ScoreVar E)) (k : ScoreCost E) (d : ScoreVar E) (ω : Draws ℝ)
    (ι : String → Nat) : ℝ :=
  (∑ m ∈ (Finset.range d.n).erase (ι d.name), costOfSample θ₀ vars k d ω (Function.update ι d.name m)) / (d.n - 1)

/-- The average cost of a run. -/
noncomputable def runAverage (θ₀ : E) (vars : List (ScoreVar E)) (k : ScoreCost E) (ω : Draws ℝ) : ℝ :=
  avgOver (argPlates (layout (θ₀ := θ₀) invN vars) k.args) (costAt θ₀ vars k ω) (fun _ => 0)

/-- The baseline of `d` for the cost `k`.  The moving average takes the current cost into account. -/
noncomputable def baselineOf (θ₀ : E) (vars : List (ScoreVar E)) (k : ScoreCost E) (d : ScoreVar E) :
    Option (Draws ℝ → (String → Nat) → ℝ) :=
  match d.base with
  | none => none
  | some .batchAverage => some (othersMean θ₀ vars k d)
  | some (.movingAverage decay avg) => some (fun ω _ => decay * avg + (1 - decay) * runAverage θ₀ vars k ω)

/-- Variables with one sample depend only on variables with one sample. -/
def OnesOnTop (vars : List (ScoreVar E)) : Prop :=
  ∀ d ∈ vars, d.n = 1 → ∀ d' ∈ vars, Above vars d.args d'.name → d'.n = 1

/-! ### The value of the batch average -/

/-- C35, the value: the baseline of a sample is the mean of the costs of the other samples (at the current
parameters, without derivatives), at every position along the other plates of the cost. -/
theorem C35_value {hook : UnwrapHook (AD E θ₀)} (hh : PlainHook hook) {pool : List (Plate (AD E θ₀))}
    (hp : PoolOK pool) {c : STen (AD E θ₀)} (hc : CostOK pool c) {own : Plate (AD E θ₀)}
    (ho : own ∈ c.plates) (hn : 1 < own.n) :
    ∃ o, computeBaseline hook invN own.n own.name c .batchAverage = .ok o ∧
      ∀ ι, ι own.name < own.n → ∀ θ, o.at ι θ =
        (∑ m ∈ (Finset.range own.n).erase (ι own.name), c.sample (Function.update ι own.name m) [] θ₀) /
          (own.n - 1) := by
  have hmiss : missingPlates c c = [] := by
    rw [missingPlates, List.filter_eq_nil_iff]
    intro p hp'
    have := (isInMethod_pool (ps := c.multiDimPlates) hp
      (fun q hq => hc.scalar.sub q (List.mem_filter.1 hq).1) (hc.scalar.sub p (List.mem_filter.1 hp').1)).2 hp'
    simp [this]
  have hseen : ∀ ι, seenCost c c ι = c.sample ι [] := by
    intro ι
    rw [seenCost, hmiss, weightedTotal]
    simp [allIdx, assign]
  obtain ⟨o, o1, o2⟩ := batch_ok hh hp hc ⟨hc.scalar.1, hc.scalar.2.2, hc.closed⟩
    (fun p hp' _ q hq => by
      obtain ⟨x, hx, he⟩ := hc.closed p hp' q hq
      exact ⟨x, hx, by rw [hmiss]; simp, he⟩) invN ho ho hn c hc.scalar (by rw [hmiss]; simp) (fun ι => (hseen ι).symm)
  refine ⟨o, o1, ?_⟩
  intro ι hι θ
  rw [o2.val]
  simp only [hseen]
  have e1 : ∀ (f : Nat → AD E θ₀) (x : AD E θ₀), ((∑ j ∈ Finset.range own.n, f j) - x) θ =
      (∑ j ∈ Finset.range own.n, f j θ) - x θ := by
    intro f x
    have := map_sum (AD.eval θ (θ₀ := θ₀)) f (Finset.range own.n)
    rw [AD.eval_apply] at this
    rw [AD.sub_apply, this]
    rfl
  rw [AD.mul_apply, e1]
  have e2 : ∀ x : AD E θ₀, Autograd.detach x θ = x θ₀ := fun _ => rfl
  simp only [e2]
  rw [show (invN (own.n - 1) : AD E θ₀) θ = 1 / ((own.n - 1 : ℕ) : ℝ) from rfl,
    Nat.cast_sub (by omega), Nat.cast_one, mul_one_div]
  congr 1
  have hself : c.sample ι [] θ₀ = c.sample (Function.update ι own.name (ι own.name)) [] θ₀ := by
    rw [Function.update_eq_self]
  rw [hself, ← Finset.sum_erase_add _ _ (Finset.mem_range.2 hι)]
  ring

theorem scoreEstimator_one_sample (hook : UnwrapHook (AD E θ₀)) (inv : Nat → AD E θ₀)
    (logProb : STen (AD E θ₀) → Except Err (STen (AD E θ₀))) (name : String) (t c : STen (AD E θ₀))
    (x : Option (Operand (AD E θ₀)) × Option (Operand (AD E θ₀))) :
    scoreEstimator hook inv logProb 1 name (some .batchAverage) t c ≠ .ok x := by
  unfold scoreEstimator
  cases logProb t with
  | error e => simp
  | ok lp0 =>
    dsimp only
    split
    · simp
    · simp [computeBaseline]

theorem parentLoop_one_sample (hook : UnwrapHook (AD E θ₀)) (inv : Nat → AD E θ₀)
    (logProb : STen (AD E θ₀) → Except Err (STen (AD E θ₀))) (name : String) (t c : STen (AD E θ₀))
    {ps : List (Sampled (AD E θ₀))} (h : scoreSampled hook inv logProb 1 name (some .batchAverage) t ∈ ps)
    (st x : Operand (AD E θ₀) × Operand (AD E θ₀)) : parentLoop hook c ps st ≠ .ok x := by
  induction ps generalizing st with
  | nil => simp at h
  | cons p ps ih =>
    intro he
    rw [parentLoop] at he
    rcases List.mem_cons.1 h with rfl | h
    · rw [if_neg (by simp [scoreSampled])] at he
      split at he
      · simp at he
      · split at he
        · simp at he
        · split at he
          · simp at he
          · rename_i rc _ _ np _ _ est hest
            exact scoreEstimator_one_sample hook inv logProb name np rc est hest
    · split at he
      · exact ih h _ he
      · split at he
        · simp at he
        · split at he
          · simp at he
          · split at he
            · simp at he
            · split at he
              · simp at he
              · exact ih h _ he

/-- C35: the batch average needs more than one sample.  If one of the costs depends on a variable for which one sample was
drawn with this baseline, the surrogate loss raises, whatever the costs and the other variables are.  The exception is
the `ValueError` of the baseline if nothing else raises before. -/
theorem C35_one_sample (hook : UnwrapHook (AD E θ₀)) (inv : Nat → AD E θ₀)
    (logProb : STen (AD E θ₀) → Except Err (STen (AD E θ₀))) (name : String) (t : STen (AD E θ₀)) :
    (∀ costs : List (STen (AD E θ₀) × List (Sampled (AD E θ₀))),
      (∃ k ∈ costs, scoreSampled hook inv logProb 1 name (some .batchAverage) t ∈ k.2) →
        ∀ r, surrogateLoss hook costs ≠ .ok r) ∧
    ∀ c lp rc np, reducedCost hook c t = .ok rc → newParent t rc = .ok np → logProb np = .ok lp →
      lp.ten.ndim ≤ np.plateDims → ∀ ps rest,
        surrogateLoss hook ((c, scoreSampled hook inv logProb 1 name (some .batchAverage) t :: ps) :: rest) =
          .error .value := by
  constructor
  · rintro costs ⟨k, hk, hm⟩ r hr
    have key : ∀ costs : List (STen (AD E θ₀) × List (Sampled (AD E θ₀))), k ∈ costs →
        ∀ ls, surrogateCosts hook costs ≠ .ok ls := by
      intro costs
      induction costs with
      | nil => simp
      | cons a cs ih =>
        intro hk ls he
        rw [surrogateCosts] at he
        rcases List.mem_cons.1 hk with rfl | hk
        · cases hp : parentLoop hook k.1 k.2 (.torch (.scalar 0), .torch (.scalar 0)) with
          | error e => simp [surrogateCost, hp] at he
          | ok x => exact parentLoop_one_sample hook inv logProb name t k.1 hm _ x hp
        · split at he
          · simp at he
          · split at he
            · simp at he
            · rename_i hcs
              exact ih hk _ hcs
    unfold surrogateLoss at hr
    split at hr
    · simp at hr
    · split at hr
      · simp at hr
      · rename_i hcs
        exact key _ hk _ hcs
  · intro c lp rc np h1 h2 h3 h4 ps rest
    simp [surrogateLoss, surrogateCosts, surrogateCost, parentLoop, scoreSampled, h1, h2, scoreEstimator, h3,
      Nat.not_lt.2 h4, computeBaseline]

/-- A case for `C35_one_sample`: a cost without plates of a sample without plates. -/
example : surrogateLoss (α := AD ℝ 0) (fun _ a => .ok a)
    [(⟨⟨[], fun _ => AD.const 3⟩, [], 0⟩, [scoreSampled (fun _ a => .ok a) invN (fun x => .ok x) 1 "x"
      (some .batchAverage) ⟨⟨[], fun _ => AD.const 2⟩, [], 0⟩])] = .error .value :=
  (C35_one_sample (θ₀ := (0 : ℝ)) (fun _ a => .ok a) invN (fun x => .ok x) "x" ⟨⟨[], fun _ => AD.const 2⟩, [], 0⟩).2
    ⟨⟨[], fun _ => AD.const 3⟩, [], 0⟩ _ _ _ rfl rfl rfl (by simp [Ten.ndim]) [] []

/-! ### Averages over plates -/

theorem mc_weight {vars : List (ScoreVar E)} (hg : GoodVars vars) {p : Plate (AD E θ₀)}
    (hp : p ∈ poolOf (θ₀ := θ₀) invN vars) (ι : String → Nat) :
    p.weightAt Autograd.detach ι = AD.const (1 / (p.n : ℝ)) := by
  have := ((layoutOK (θ₀ := θ₀) invN vars hg).made p hp).2
  have hw : p.weight = .torch (Ten.scalar (invN p.n)) := by rw [this]; rfl
  simp only [Plate.weightAt, hw]
  rfl

theorem total_avg {vars : List (ScoreVar E)} (hg : GoodVars vars) {M : List (Plate (AD E θ₀))}
    (hM : ∀ p ∈ M, p ∈ poolOf (θ₀ := θ₀) invN vars) (v : (String → Nat) → AD E θ₀) (ι : String → Nat) (θ : E) :
    weightedTotal Autograd.detach M v ι θ = avgOver M (fun ι => v ι θ) ι := by
  have := map_list_sum (AD.eval θ (θ₀ := θ₀)) ((allIdx (M.map Plate.n)).map (fun idx =>
    (M.map (fun p => p.weightAt Autograd.detach (assign M idx ι))).prod * v (assign M idx ι)))
  rw [AD.eval_apply, List.map_map] at this
  rw [weightedTotal, this, avgOver]
  congr 1
  apply List.map_congr_left
  intro idx _
  simp only [Function.comp, map_mul, map_list_prod, List.map_map]
  congr 2
  apply List.map_congr_left
  intro p hp
  simp only [Function.comp]
  rw [mc_weight hg (hM p hp)]
  rfl

theorem nestSum_mul {α : Type _} [CommSemiring α] (c : α) (ps : List (Plate α))
    (F : (String → Nat) → α) (ι : String → Nat) :
    nestSum ps (fun ι => c * F ι) ι = c * nestSum ps F ι := by
  induction ps generalizing ι with
  | nil => rfl
  | cons p ps ih =>
    simp only [nestSum]
    rw [Finset.mul_sum]
    exact Finset.sum_congr rfl (fun k _ => ih _)

/-- Averaging twice. -/
theorem weightedTotal_append {α : Type _} [CommSemiring α] (dt : α → α) {ps qs : List (Plate α)}
    (hc : ∀ p ∈ ps, ∀ ι ι', p.weightAt dt ι = p.weightAt dt ι') (v : (String → Nat) → α) (ι : String → Nat) :
    weightedTotal dt ps (weightedTotal dt qs v) ι = weightedTotal dt (ps ++ qs) v ι := by
  have e : ∀ (l : List (Plate α)) (v : (String → Nat) → α) ι, weightedTotal dt l v ι =
      nestSum l (fun ι => (l.map (fun p => p.weightAt dt ι)).prod * v ι) ι := by
    intro l v ι
    rw [nestSum_eq, weightedTotal]
  rw [e, e (ps ++ qs), nestSum_append]
  apply nestSum_congr
  intro ι
  rw [e, ← nestSum_mul]
  apply nestSum_congr
  intro ι'
  rw [List.map_append, List.prod_append, mul_assoc]
  congr 2
  apply List.map_congr_left
  intro p hp
  exact hc p hp _ _

theorem avgOver_congr {M : List (Plate (AD E θ₀))} {F G : (String → Nat) → ℝ} {ι ι' : String → Nat}
    (h : ∀ idx ∈ allIdx (M.map Plate.n), F (assign M idx ι) = G (assign M idx ι')) :
    avgOver M F ι = avgOver M G ι' := by
  rw [avgOver, avgOver]
  congr 1
  apply List.map_congr_left
  intro idx hidx
  rw [h idx hidx]

/-! ### Plates of programs -/

theorem above_plates {inv : Nat → AD E θ₀} {vars : List (ScoreVar E)} (hg : GoodVars vars) {args : List String}
    (ha : ∀ s ∈ args, s ∈ vars.map ScoreVar.name) {s : String} (h : Above vars args s) :
    ∀ p ∈ platesIn (layout inv vars) s, p ∈ argPlates (layout inv vars) args := by
  have hl := layoutOK inv vars hg
  induction h with
  | arg hm => exact fun p hp => ((hl.args ha).2 p).2 ⟨_, hm, hp⟩
  | step hd _ hs ih => exact fun p hp => ih p (hg.args_sub hd _ hs p hp)

theorem own_plate {inv : Nat → AD E θ₀} {vars : List (ScoreVar E)} (hg : GoodVars vars) {d : ScoreVar E}
    (hd : d ∈ vars) : ∃ own ∈ platesIn (layout inv vars) d.name, own.name = d.name ∧ own.n = d.n := by
  induction vars with
  | nil => cases hd
  | cons x ds ih =>
    obtain ⟨g1, g2, -⟩ := hg
    rcases List.mem_cons.1 hd with rfl | hd
    · rw [layout, platesIn_cons_eq (e := (d.name, _))]
      exact ⟨_, List.mem_cons_self, rfl, rfl⟩
    · have hne : x.name ≠ d.name := fun e => g2 (e ▸ List.mem_map_of_mem hd)
      rw [layout, platesIn_cons_ne (e := (x.name, _)) hne]
      exact ih g1 hd

theorem missing_eq {vars : List (ScoreVar E)} (hg : GoodVars vars) {k : ScoreCost E} {d : ScoreVar E}
    (hd : d ∈ vars) {c t : STen (AD E θ₀)} (hs : ∀ p ∈ c.plates, p ∈ poolOf (θ₀ := θ₀) invN vars)
    (hc : c.plates = argPlates (layout invN vars) k.args) (ht : t.plates = platesIn (layout invN vars) d.name) :
    missingPlates c t = otherPlates θ₀ vars k d := by
  have hl := layoutOK (θ₀ := θ₀) invN vars hg
  have hts : ∀ p ∈ t.plates, p ∈ poolOf (θ₀ := θ₀) invN vars := by
    rw [ht]; exact hl.sub _ (hl.platesIn_mem (List.mem_map_of_mem hd))
  rw [missingPlates, show c.multiDimPlates = c.plates.filter (fun p => decide (1 < p.n)) from rfl,
    List.filter_filter, otherPlates, ← hc, ← ht]
  apply List.filter_congr
  intro p hp
  by_cases hn : 1 < p.n
  · have : p.isInMethod t.multiDimPlates = decide (p.name ∈ t.plates.map Plate.name) := by
      rw [Bool.eq_iff_iff, decide_eq_true_eq, isInMethod_pool (ps := t.multiDimPlates) hl.pool
        (fun q hq => hts q (List.mem_filter.1 hq).1) (hs p hp)]
      constructor
      · exact fun h => List.mem_map_of_mem (List.mem_filter.1 h).1
      · intro h
        obtain ⟨q, hq, e⟩ := List.mem_map.1 h
        have := pool_eq hl.pool (hts q hq) (hs p hp) e
        subst this
        exact List.mem_filter.2 ⟨hq, by simpa using hn⟩
    simp [hn, this]
  · simp [hn]

theorem keeps_parents {vars : List (ScoreVar E)} (hg : GoodVars vars) (ho : OnesOnTop vars) {d : ScoreVar E}
    (hd : d ∈ vars) {c t : STen (AD E θ₀)} (hs : ∀ p ∈ c.plates, p ∈ poolOf (θ₀ := θ₀) invN vars)
    (hcl : ∀ p ∈ c.plates, ∀ q ∈ p.parents, q ∈ c.plates)
    (ht : t.plates = platesIn (layout invN vars) d.name) : KeepsParents c t := by
  have hl := layoutOK (θ₀ := θ₀) invN vars hg
  have hpl := hl.platesIn_mem (List.mem_map_of_mem hd : d.name ∈ vars.map ScoreVar.name)
  have hts : ∀ p ∈ t.plates, p ∈ poolOf (θ₀ := θ₀) invN vars := by rw [ht]; exact hl.sub _ hpl
  have hmiss : ∀ p ∈ c.plates, p ∈ missingPlates c t ↔ 1 < p.n ∧ p ∉ t.plates := by
    intro p hp
    rw [missingPlates, List.mem_filter, STen.multiDimPlates, List.mem_filter]
    simp only [hp, true_and, decide_eq_true_eq, Bool.not_eq_true']
    refine and_congr_right fun hn => ?_
    rw [← Bool.not_eq_true, isInMethod_pool (ps := t.multiDimPlates) hl.pool
      (fun q hq => hts q (List.mem_filter.1 hq).1) (hs p hp), STen.multiDimPlates, List.mem_filter]
    simp [hn]
  intro p hp hpm q hq
  refine ⟨q, hcl p hp q hq, ?_, Plate.pyEq_refl _⟩
  rw [hmiss p hp] at hpm
  rw [hmiss q (hcl p hp q hq)]
  rintro ⟨hn, hqt⟩
  by_cases hpt : p ∈ t.plates
  · apply hqt
    rw [ht] at hpt ⊢
    exact hl.closed _ hpl p hpt q hq
  · have hp1 : p.n = 1 := by
      have := (hl.made p (hs p hp)).1
      by_contra hne
      exact hpm ⟨by omega, hpt⟩
    obtain ⟨x, hx, ⟨-, hxn⟩, hpar⟩ := pool_parents hg p (hs p hp)
    obtain ⟨d', hd', ha, hqn⟩ := hpar q hq
    have := ho x hx (by rw [← hxn, hp1]) d' hd' ha
    omega

/-! ### Contributions -/

/-- What the estimators return does not look at plates it does not have. -/
theorem Contributes.indep {hook : UnwrapHook (AD E θ₀)} {pool : List (Plate (AD E θ₀))} (hp : PoolOK pool) {c : STen (AD E θ₀)}
    {p : Sampled (AD E θ₀)} {e : Est (AD E θ₀)} (h : Contributes hook pool c p e) :
    (∀ q ∈ pool, q.name ∉ e.names → ∀ ι k, e.lp (Function.update ι q.name k) = e.lp ι) ∧
    ∀ ns v, e.cv = some (ns, v) → ∀ q ∈ pool, q.name ∉ ns → ∀ ι k, v (Function.update ι q.name k) = v ι := by
  have key : ∀ {o : Operand (AD E θ₀)} {ns : List String} {v : (String → Nat) → AD E θ₀}, OpIs pool o ns v →
      ∀ q ∈ pool, q.name ∉ ns → ∀ ι k, v (Function.update ι q.name k) = v ι := by
    intro o ns v ho q hq hn ι k
    rw [← ho.val, ← ho.val]
    cases o with
    | torch t => rfl
    | st t s =>
      refine sample_indep (qs := [q]) ?_ [] q (by simp) ι k
      intro x hx hm
      simp only [List.mem_singleton] at hx
      subst hx
      obtain ⟨p, hp', e⟩ := List.mem_map.1 hm
      have := pool_eq hp (ho.scalar.sub p hp') hq e
      subst this
      exact hn ((ho.names p hq).1 hp')
  rcases h with ⟨_, h1, h2, h3⟩ | ⟨rc, np, a, b, _, _, _, _, ha, hb⟩
  · refine ⟨fun q _ _ ι k => by rw [h2, h2], ?_⟩
    intro ns v hv
    rw [h3] at hv; cases hv
  · constructor
    · cases a with
      | none => exact fun q _ _ ι k => by rw [ha.2, ha.2]
      | some g => exact key ha
    · intro ns v hv
      cases b with
      | none => rw [hv] at hb; exact hb.elim
      | some o => rw [hv] at hb; exact key hb.1

/-- The cost as the estimator of `d` sees it. -/
theorem seenCost_eq {vars : List (ScoreVar E)} (hg : GoodVars vars) {k : ScoreCost E} {d : ScoreVar E}
    (hd : d ∈ vars) {ω : Draws ℝ} {c t : STen (AD E θ₀)}
    (hs : ∀ p ∈ c.plates, p ∈ poolOf (θ₀ := θ₀) invN vars)
    (hc : c.plates = argPlates (layout invN vars) k.args) (ht : t.plates = platesIn (layout invN vars) d.name)
    (hv : ∀ ι θ, c.sample ι [] θ = k.f θ (k.args.map (trajectory (declsOf (θ₀ := θ₀) invN vars) ω ι)))
    (ι : String → Nat) : seenCost c t ι θ₀ = costOfSample θ₀ vars k d ω ι := by
  have hm := missing_eq hg hd hs hc ht
  rw [seenCost, hm, total_avg hg, costOfSample]
  · exact avgOver_congr (fun idx _ => hv _ _)
  · intro p hp
    rw [← hm] at hp
    exact hs p (List.mem_filter.1 (List.mem_filter.1 hp).1).1

theorem EntryOK.est {hook : UnwrapHook (AD E θ₀)} (hh : PlainHook hook)
    {vars : List (ScoreVar E)} (hg : GoodVars vars) (hm : Unmixed vars) (ho : OnesOnTop vars) {ω : Draws ℝ}
    {d : ScoreVar E} (hd : d ∈ vars) (hb : d.base = some .batchAverage → 1 < d.n)
    {t : STen (AD E θ₀)} {p : Operand (AD E θ₀)} (h : EntryOK invN vars ω d t p)
    {k : ScoreCost E} (hk : GoodCost θ₀ vars k) (hab : Above vars k.args d.name) {c : STen (AD E θ₀)}
    (hc1 : c.plates = argPlates (layout invN vars) k.args) (hc2 : ScalarOp (poolOf (θ₀ := θ₀) invN vars) (.st c false))
    (hc3 : ∀ p ∈ c.plates, ∀ q ∈ p.parents, q ∈ c.plates)
    (hc4 : ∀ ι θ, c.sample ι [] θ = k.f θ (k.args.map (trajectory (declsOf (θ₀ := θ₀) invN vars) ω ι))) :
    ∃ e, Contributes hook (poolOf invN vars) c (d.sampled hook invN (t, p)) e ∧
      EstFor (poolOf invN vars) (declsOf (θ₀ := θ₀) invN vars) ω
        (d.decl (platesIn (layout (θ₀ := θ₀) invN vars) d.name), (baselineOf θ₀ vars k d).map (fun g => g ω)) e := by
  have hl := layoutOK (θ₀ := θ₀) invN vars hg
  obtain ⟨G, g1, g2, g3⟩ := h.logProb hh hg hd
  have hcost : CostOK (poolOf (θ₀ := θ₀) invN vars) c :=
    ⟨hc2, fun p hp q hq => ⟨q, hc3 p hp q hq, Plate.pyEq_refl _⟩⟩
  have hnest := hm.nested hg hc2.2.2 hc3
  have hkeep := keeps_parents hg ho hd hc2.2.2 hc3 h.plates
  have hseen := seenCost_eq hg hd hc2.2.2 hc1 h.plates hc4
  rcases hbase : d.base with _ | b
  · have hcon := score_contributes hh hl.pool hl.weights hcost hnest g1 g2 invN d.n d.name
    refine ⟨_, by rw [ScoreVar.sampled, hbase]; exact hcon, (hcon.indep hl.pool).1, fun ι _ θ _ => g3 ι θ, ?_⟩
    simp only [baselineOf, hbase, Option.map_none]
  · cases b with
    | batchAverage =>
      obtain ⟨own, ho1, ho2, ho3⟩ := own_plate (inv := invN (θ₀ := θ₀)) hg hd
      have hown : own ∈ c.plates := by rw [hc1]; exact above_plates hg hk.args hab own ho1
      have hcon := baseline_contributes hh hl.pool hl.weights hcost hnest g1 g2 invN d.n d.name .batchAverage
        (by
          rw [← ho2, ← ho3]
          exact batch_ok hh hl.pool hcost g1 hkeep invN hown (by rw [h.plates]; exact ho1) (by rw [ho3]; exact hb hbase))
      refine ⟨_, by rw [ScoreVar.sampled, hbase]; exact hcon, (hcon.indep hl.pool).1, fun ι _ θ _ => g3 ι θ, ?_⟩
      simp only [baselineOf, hbase, Option.map_some]
      refine ⟨(hcon.indep hl.pool).2 _ _ rfl, ?_⟩
      intro ι hι θ
      rw [AD.mul_apply]
      refine congrArg₂ (· * ·) rfl ?_
      have hιd : ι d.name < d.n := by
        have := hι own (hl.sub _ (hl.platesIn_mem (List.mem_map_of_mem hd)) own ho1)
        rwa [ho2, ho3] at this
      have e1 : ∀ (f : Nat → AD E θ₀) (x : AD E θ₀), ((∑ j ∈ Finset.range own.n, f j) - x) θ =
          (∑ j ∈ Finset.range own.n, f j θ) - x θ := by
        intro f x
        have := map_sum (AD.eval θ (θ₀ := θ₀)) f (Finset.range own.n)
        rw [AD.eval_apply] at this
        rw [AD.sub_apply, this]
        rfl
      rw [AD.mul_apply, e1]
      have e2 : ∀ x : AD E θ₀, Autograd.detach x θ = x θ₀ := fun _ => rfl
      simp only [e2, hseen]
      rw [ho2, ho3, show (invN (d.n - 1) : AD E θ₀) θ = 1 / ((d.n - 1 : ℕ) : ℝ) from rfl, othersMean,
        Nat.cast_sub (by omega), Nat.cast_one, mul_one_div]
      congr 1
      have hself : costOfSample θ₀ vars k d ω ι =
          costOfSample θ₀ vars k d ω (Function.update ι d.name (ι d.name)) := by rw [Function.update_eq_self]
      rw [hself, ← Finset.sum_erase_add _ _ (Finset.mem_range.2 hιd)]
      ring
    | movingAverage decay avg =>
      have hcon := baseline_contributes hh hl.pool hl.weights hcost hnest g1 g2 invN d.n d.name
        (.movingAverage (AD.const decay) (AD.const avg))
        (moving_ok hh hl.pool hl.weights hcost hkeep invN d.n d.name (AD.const decay) (AD.const avg))
      refine ⟨_, by rw [ScoreVar.sampled, hbase]; exact hcon, (hcon.indep hl.pool).1, fun ι _ θ _ => g3 ι θ, ?_⟩
      simp only [baselineOf, hbase, Option.map_some]
      refine ⟨(hcon.indep hl.pool).2 _ _ rfl, ?_⟩
      intro ι hι θ
      rw [AD.mul_apply]
      refine congrArg₂ (· * ·) rfl ?_
      have e2 : ∀ (x : AD E θ₀), (AD.const decay * AD.const avg + (1 - AD.const decay) * Autograd.detach x : AD E θ₀) θ =
          decay * avg + (1 - decay) * x θ₀ := fun _ => rfl
      rw [e2]
      congr 2
      have hmsub : ∀ p ∈ missingPlates c t, p ∈ c.plates :=
        fun p hp => (List.mem_filter.1 (List.mem_filter.1 hp).1).1
      have hperm : (c.plates.filter (fun p => !p.isIn (missingPlates c t)) ++ missingPlates c t).Perm c.plates := by
        apply perm_of_pool hl.pool.names _ hc2.nodup
        · intro p
          rw [List.mem_append, kept_iff hl.pool hcost]
          constructor
          · rintro (h | h)
            · exact h.1
            · exact hmsub p h
          · intro hp
            by_cases hpm : p ∈ missingPlates c t
            · exact Or.inr hpm
            · exact Or.inl ⟨hp, hpm⟩
        · rw [List.map_append, List.nodup_append]
          refine ⟨hc2.nodup.sublist (List.filter_sublist.map _),
            hc2.nodup.sublist ((List.filter_sublist.trans List.filter_sublist).map _), ?_⟩
          intro a ha b hb' e
          obtain ⟨x, hx, rfl⟩ := List.mem_map.1 ha
          obtain ⟨y, hy, rfl⟩ := List.mem_map.1 hb'
          obtain ⟨x1, x2⟩ := (kept_iff hl.pool hcost).1 hx
          have := pool_eq hl.pool (hc2.2.2 x x1) (hc2.2.2 y (hmsub y hy)) e
          exact x2 (this ▸ hy)
      have e3 : ∀ ι, seenCost c t ι = weightedTotal Autograd.detach (missingPlates c t) (fun ι => c.sample ι []) ι :=
        fun _ => rfl
      rw [show seenCost c t = weightedTotal Autograd.detach (missingPlates c t) (fun ι => c.sample ι []) from funext e3,
        weightedTotal_append, weightedTotal_perm _ hperm hc2.nodup, total_avg hg hc2.2.2, runAverage, ← hc1]
      · exact avgOver_congr (fun idx _ => hc4 _ _)
      · intro p hp ι ι'
        have := hc2.2.2 p (List.mem_filter.1 hp).1
        rw [mc_weight hg this, mc_weight hg this]

theorem findSampled_base {hook : UnwrapHook (AD E θ₀)} (hh : PlainHook hook)
    {vars : List (ScoreVar E)} (hg : GoodVars vars) (hm : Unmixed vars) (ho : OnesOnTop vars) {ω : Draws ℝ}
    {env : RunEnv E θ₀} (h : EnvOK invN vars ω env)
    {k : ScoreCost E} (hk : GoodCost θ₀ vars k) {c : STen (AD E θ₀)}
    (hc1 : c.plates = argPlates (layout invN vars) k.args) (hc2 : ScalarOp (poolOf (θ₀ := θ₀) invN vars) (.st c false))
    (hc3 : ∀ p ∈ c.plates, ∀ q ∈ p.parents, q ∈ c.plates)
    (hc4 : ∀ ι θ, c.sample ι [] θ = k.f θ (k.args.map (trajectory (declsOf (θ₀ := θ₀) invN vars) ω ι)))
    (walk : List (ScoreVar E)) (hw : ∀ d ∈ walk, d ∈ vars ∧ Above vars k.args d.name ∧
      (d.base = some .batchAverage → 1 < d.n)) :
    ∃ ss ests, findSampled hook invN env walk = .ok ss ∧
      List.Forall₂ (Contributes hook (poolOf invN vars) c) ss ests ∧
      List.Forall₂ (EstFor (poolOf invN vars) (declsOf (θ₀ := θ₀) invN vars) ω)
        ((walk.map (fun d => d.decl (platesIn (layout (θ₀ := θ₀) invN vars) d.name))).zip
          (Baselines.at (walk.map (baselineOf θ₀ vars k)) ω)) ests := by
  induction walk with
  | nil => exact ⟨[], [], rfl, .nil, .nil⟩
  | cons d walk ih =>
    obtain ⟨ss, ests, s1, s2, s3⟩ := ih (fun x hx => hw x (List.mem_cons_of_mem _ hx))
    obtain ⟨w1, w2, w3⟩ := hw d (by simp)
    obtain ⟨t, p, e1, e2⟩ := h d w1
    obtain ⟨e, c1, c2⟩ := e2.est hh hg hm ho w1 w3 hk w2 hc1 hc2 hc3 hc4
    refine ⟨d.sampled hook invN (t, p) :: ss, e :: ests, ?_, .cons c1 s2, .cons c2 s3⟩
    rw [findSampled, e1]
    simp only [s1]

/-- The walk finds variables above the cost; the batch average needs several samples. -/
def GoodWalk (vars : List (ScoreVar E)) (k : ScoreCost E) : Prop :=
  ∀ d ∈ k.walk, Above vars k.args d.name ∧ (d.base = some .batchAverage → 1 < d.n)

theorem runCosts_base {hook : UnwrapHook (AD E θ₀)} (hh : PlainHook hook)
    {vars : List (ScoreVar E)} (hg : GoodVars vars) (hm : Unmixed vars) (ho : OnesOnTop vars) {ω : Draws ℝ}
    {env : RunEnv E θ₀} (h : EnvOK invN vars ω env) (costs : List (ScoreCost E))
    (hk : ∀ k ∈ costs, GoodCost θ₀ vars k ∧ GoodWalk vars k) :
    ∃ cs, runCosts hook invN env costs = .ok cs ∧
      List.Forall₂ (RealisesB hook (poolOf invN vars) (declsOf (θ₀ := θ₀) invN vars) ω) cs
        (costs.map (fun k => (k.spec (θ₀ := θ₀) invN vars, Baselines.at (k.walk.map (baselineOf θ₀ vars k)) ω))) := by
  induction costs with
  | nil => exact ⟨[], rfl, .nil⟩
  | cons k costs ih =>
    obtain ⟨cs, s1, s2⟩ := ih (fun x hx => hk x (List.mem_cons_of_mem _ hx))
    obtain ⟨k1, k2⟩ := hk k (by simp)
    obtain ⟨ts, c, t1, r1, c1, c2, c3, c4⟩ := ScoreCost.tensor_ok hh hg h k1
    obtain ⟨ss, ests, f1, f2, f3⟩ := findSampled_base hh hg hm ho h k1 c1 c2 c3 c4 k.walk
      (fun d hd => ⟨k1.sub d hd, k2 d hd⟩)
    refine ⟨(c, ss) :: cs, ?_, .cons ⟨⟨c2, fun p hp q hq => ⟨q, c3 p hp q hq, Plate.pyEq_refl _⟩⟩,
      fun ι _ θ => c4 ι θ, ?_, ests, f2, f3⟩ s2⟩
    · rw [runCosts, ScoreCost.run, t1]
      simp only [r1, f1, s1]
    · simp [Baselines.at, ScoreCost.spec]

end

section gradient
variable {E : Type _} [NormedAddCommGroup E] [NormedSpace ℝ E] {θ₀ : E}
open scoped Topology

/-- The expected gradient of any program, with any baselines. -/
theorem base_programs {hook : UnwrapHook (AD E θ₀)} (hh : PlainHook hook) {vars : List (ScoreVar E)}
    (hg : GoodVars vars) (hm : Unmixed vars) (ho : OnesOnTop vars) {costs : List (ScoreCost E)} (hne : costs ≠ [])
    (hk : ∀ k ∈ costs, GoodCost θ₀ vars k ∧ GoodWalk vars k)
    (hmass : ∀ k ∈ costs, ∀ d ∈ k.walk, ∀ xs, ∀ v ∈ d.support,
      ContDiffAt ℝ 1 (fun θ => d.prob (d.param θ xs) v) θ₀)
    (hcost : ∀ k ∈ costs, ∀ xs, ContDiffAt ℝ 1 (fun θ => k.f θ xs) θ₀)
    (hnear : ∀ᶠ θ in 𝓝 θ₀, ∀ k ∈ costs, ∀ d ∈ k.walk, d.SameSupport θ₀ θ) :
    ∃ loss : Draws ℝ → E → ℝ,
      (∀ ω, Possible (declsOf (θ₀ := θ₀) invN vars) θ₀ ω → ∃ r, runProgram hook invN vars costs ω = .ok r ∧
        r.ten.shape = [] ∧ r.ten.get [] = loss ω ∧ DifferentiableAt ℝ (loss ω) θ₀) ∧
      ∀ ω₀ w, expect (declsOf (θ₀ := θ₀) invN vars) θ₀ (declsOf (θ₀ := θ₀) invN vars)
          (fun ω => fderiv ℝ (loss ω) θ₀ w) ω₀ =
        fderiv ℝ (expectedCost θ₀ vars costs) θ₀ w -
        (costs.map (fun k => (k.walk.map (fun d => expect (declsOf (θ₀ := θ₀) invN vars) θ₀
          (declsOf (θ₀ := θ₀) invN vars) (fun ω => cvSlope (poolOf (θ₀ := θ₀) invN vars)
            (declsOf (θ₀ := θ₀) invN vars) ω [(d.decl (platesIn (layout (θ₀ := θ₀) invN vars) d.name),
              (baselineOf θ₀ vars k d).map (fun g => g ω))] w) ω₀)).sum)).sum := by
  have hrun : ∀ ω, ∃ cs, runProgram hook invN vars costs ω = surrogateLoss hook cs ∧
      List.Forall₂ (RealisesB hook (poolOf invN vars) (declsOf (θ₀ := θ₀) invN vars) ω) cs
        (costs.map (fun k => (k.spec (θ₀ := θ₀) invN vars, Baselines.at (k.walk.map (baselineOf θ₀ vars k)) ω))) := by
    intro ω
    obtain ⟨env, r1, r2⟩ := runVars_ok hh invN ω vars hg
    obtain ⟨cs, c1, c2⟩ := runCosts_base hh hg hm ho r2 costs hk
    refine ⟨cs, ?_, c2⟩
    rw [runProgram, r1]
    simp only [c1]
  choose run h1 h2 using hrun
  have hok : ∀ k ∈ costs, (k.spec (θ₀ := θ₀) invN vars).OK (declsOf (θ₀ := θ₀) invN vars) θ₀ :=
    fun k hk' => (hk k hk').1.spec hg
  have hsm : Smooth (poolOf (θ₀ := θ₀) invN vars) (costs.map (fun k => k.spec (θ₀ := θ₀) invN vars)) 1 := by
    refine ⟨?_, ?_, ?_⟩
    · intro p hp ι θ
      have := ((layoutOK (θ₀ := θ₀) invN vars hg).made p hp).2
      have hw : p.weight = .torch (Ten.scalar (invN p.n)) := by rw [this]; rfl
      simp only [Plate.weightAt, hw]
      rfl
    · intro k hk' x hx ρ v hv
      obtain ⟨k, hk'', rfl⟩ := List.mem_map.1 hk'
      obtain ⟨d, hd, rfl⟩ := List.mem_map.1 hx
      exact hmass k hk'' d hd _ v hv
    · intro k hk' ρ
      obtain ⟨k, hk'', rfl⟩ := List.mem_map.1 hk'
      exact hcost k hk'' _
  have hnear' : ∀ᶠ θ in 𝓝 θ₀, Program (declsOf (θ₀ := θ₀) invN vars) θ ∧
      ∀ k ∈ costs.map (fun k => k.spec (θ₀ := θ₀) invN vars), ∀ d ∈ k.active, SameSupport d θ₀ θ :=
    hnear.mono (fun θ h => ⟨declsOf_program hg θ, sameSupport_spec h⟩)
  obtain ⟨loss, l1, l2⟩ := baseline_gradient hh (declsOf_program hg θ₀) (poolFor hg)
    (specs := costs.map (fun k => (k.spec (θ₀ := θ₀) invN vars,
      fun ω => Baselines.at (k.walk.map (baselineOf θ₀ vars k)) ω))) (by simpa using hne)
    (by
      intro k hk'
      obtain ⟨k, hk'', rfl⟩ := List.mem_map.1 hk'
      exact hok k hk'')
    (by rw [List.map_map]; exact hsm)
    (hnear'.mono (fun θ h => ⟨h.1, by
      intro k hk'
      obtain ⟨k, hk'', rfl⟩ := List.mem_map.1 hk'
      exact h.2 _ (List.mem_map_of_mem hk'')⟩))
    (run := run) (fun ω _ => by rw [List.map_map]; exact h2 ω)
  refine ⟨loss, fun ω hω => by rw [h1]; exact l1 ω hω, ?_⟩
  intro ω₀ w
  rw [l2 ω₀ (fun _ => 0) w, List.map_map, List.map_map]
  congr 1
  · have := hasFDerivAt_list_sum costs (fun k θ => expectOne (fun d => d.mass θ) (declsOf (θ₀ := θ₀) invN vars)
      (fun ρ => k.f θ (k.args.map ρ)) (fun _ => 0)) (fun k => fderiv ℝ (fun θ => expectOne (fun d => d.mass θ)
        (declsOf (θ₀ := θ₀) invN vars) (fun ρ => k.f θ (k.args.map ρ)) (fun _ => 0)) θ₀) θ₀ (by
      intro k hk'
      exact (expectOne_differentiable (declsOf_program hg θ₀) (poolFor hg) hsm (List.mem_map_of_mem hk') (hok k hk')
        (hnear'.mono (fun θ h => ⟨h.1, h.2 _ (List.mem_map_of_mem hk')⟩)) ω₀ (fun _ => 0)).hasFDerivAt)
    rw [show expectedCost θ₀ vars costs = fun θ => (costs.map (fun k => expectOne (fun d => d.mass θ)
      (declsOf (θ₀ := θ₀) invN vars) (fun ρ => k.f θ (k.args.map ρ)) (fun _ => 0))).sum from rfl, this.fderiv]
    clear this l2 l1 h2 h1 hk hne hmass hcost hnear hok hsm hnear'
    induction costs with
    | nil => rfl
    | cons k costs ih =>
      simp only [List.map_cons, List.sum_cons, add_apply, ih]
      rfl
  · congr 1
    apply List.map_congr_left
    intro k _
    simp only [Function.comp]
    rw [expect_cvSlope_sum]
    rw [show (k.spec (θ₀ := θ₀) invN vars).active =
      k.walk.map (fun d => d.decl (platesIn (layout (θ₀ := θ₀) invN vars) d.name)) from rfl]
    generalize k.walk = walk
    induction walk with
    | nil => rfl
    | cons d walk ih => simp only [List.map_cons, List.zip_cons_cons, List.sum_cons, ih]

omit [NormedAddCommGroup E] [NormedSpace ℝ E] in
/-- The mean of the costs of the other samples does not look at the sample. -/
theorem othersMean_blind {vars : List (ScoreVar E)} (hg : GoodVars vars) {k : ScoreCost E}
    (hk : ∀ s ∈ k.args, s ∈ vars.map ScoreVar.name) {d : ScoreVar E} (hd : d ∈ vars) (ι : String → Nat) :
    Blind (AlongPlate (declsOf (θ₀ := θ₀) invN vars) d.name (ι d.name)) (fun ω => othersMean θ₀ vars k d ω ι) := by
  intro ω ω' hag
  simp only [othersMean]
  congr 1
  apply Finset.sum_congr rfl
  intro m hm
  have hne : m ≠ ι d.name := Finset.ne_of_mem_erase hm
  apply avgOver_congr
  intro idx _
  have hown : d.name ∉ (otherPlates θ₀ vars k d).map Plate.name := by
    intro h
    obtain ⟨p, hp, e⟩ := List.mem_map.1 h
    obtain ⟨own, o1, o2, _⟩ := own_plate (inv := invN (θ₀ := θ₀)) hg hd
    have := (List.mem_filter.1 hp).2
    simp only [Bool.and_eq_true, Bool.not_eq_true', decide_eq_false_iff_not] at this
    exact this.2 (by rw [e, ← o2]; exact List.mem_map_of_mem (by rw [o2]; exact o1))
  have hpos : assign (otherPlates θ₀ vars k d) idx (Function.update ι d.name m) d.name ≠ ι d.name := by
    rw [assign_of_notMem _ _ _ _ hown, Function.update_self]
    exact hne
  rw [costAt, costAt]
  congr 1
  apply List.map_congr_left
  intro s hs
  refine trajectory_blind (declsOf_program hg θ₀) hpos hag s ?_
  rw [declsOf_names, List.mem_reverse]
  exact hk s hs

omit [NormedAddCommGroup E] [NormedSpace ℝ E] in
theorem decl_alongPlate {vars : List (ScoreVar E)} (hg : GoodVars vars) {d : ScoreVar E} (hd : d ∈ vars)
    (hn : 1 < d.n) (ι : String → Nat) :
    AlongPlate (declsOf (θ₀ := θ₀) invN vars) d.name (ι d.name) d.name
      ((d.decl (platesIn (layout (θ₀ := θ₀) invN vars) d.name)).idx.map (fun p => ι p.1)) := by
  obtain ⟨own, o1, o2, o3⟩ := own_plate (inv := invN (θ₀ := θ₀)) hg hd
  have hmem : (d.name, d.n) ∈ (d.decl (platesIn (layout (θ₀ := θ₀) invN vars) d.name)).idx :=
    List.mem_map.2 ⟨own, List.mem_filter.2 ⟨o1, by simpa [o3] using hn⟩, by rw [o2, o3]⟩
  have hx := (mem_declsOf (inv := invN (θ₀ := θ₀)) hg).2 ⟨d, hd, rfl⟩
  exact ⟨_, hx, rfl, List.mem_map_of_mem (f := Prod.fst) hmem,
    posOf_map _ ((declsOf_program hg θ₀).idx _ hx) ι hmem⟩

/-- C35 for programs: with batch-average baselines (or none), the expected gradient of the surrogate loss is the
gradient of the expected cost. -/
theorem C35_programs {hook : UnwrapHook (AD E θ₀)} (hh : PlainHook hook) {vars : List (ScoreVar E)}
    (hg : GoodVars vars) (hm : Unmixed vars) (ho : OnesOnTop vars) {costs : List (ScoreCost E)} (hne : costs ≠ [])
    (hk : ∀ k ∈ costs, GoodCost θ₀ vars k ∧ GoodWalk vars k)
    (hb : ∀ k ∈ costs, ∀ d ∈ k.walk, d.base = none ∨ d.base = some .batchAverage)
    (hmass : ∀ k ∈ costs, ∀ d ∈ k.walk, ∀ xs, ∀ v ∈ d.support,
      ContDiffAt ℝ 1 (fun θ => d.prob (d.param θ xs) v) θ₀)
    (hcost : ∀ k ∈ costs, ∀ xs, ContDiffAt ℝ 1 (fun θ => k.f θ xs) θ₀)
    (hnear : ∀ᶠ θ in 𝓝 θ₀, ∀ k ∈ costs, ∀ d ∈ k.walk, d.SameSupport θ₀ θ) :
    ∃ loss : Draws ℝ → E → ℝ,
      (∀ ω, Possible (declsOf (θ₀ := θ₀) invN vars) θ₀ ω → ∃ r, runProgram hook invN vars costs ω = .ok r ∧
        r.ten.shape = [] ∧ r.ten.get [] = loss ω ∧ DifferentiableAt ℝ (loss ω) θ₀) ∧
      ∀ ω₀ w, expect (declsOf (θ₀ := θ₀) invN vars) θ₀ (declsOf (θ₀ := θ₀) invN vars)
          (fun ω => fderiv ℝ (loss ω) θ₀ w) ω₀ = fderiv ℝ (expectedCost θ₀ vars costs) θ₀ w := by
  obtain ⟨loss, l1, l2⟩ := base_programs hh hg hm ho hne hk hmass hcost hnear
  refine ⟨loss, l1, fun ω₀ w => ?_⟩
  rw [l2 ω₀ w, sub_eq_self]
  apply List.sum_eq_zero
  intro x hx
  obtain ⟨k, hk', rfl⟩ := List.mem_map.1 hx
  apply List.sum_eq_zero
  intro x hx
  obtain ⟨d, hd, rfl⟩ := List.mem_map.1 hx
  have hdv := (hk k hk').1.sub d hd
  rcases hb k hk' d hd with h | h
  · simp only [baselineOf, h, Option.map_none, cvSlope, List.map_cons, List.map_nil, List.sum_cons, List.sum_nil,
      add_zero, zero_apply]
    exact expect_zero _ _ _ _
  · simp only [baselineOf, h, Option.map_some]
    refine expect_cvSlope_blind (declsOf_program hg θ₀) (poolFor hg) ((mem_declsOf hg).2 ⟨d, hdv, rfl⟩)
      (hnear.mono (fun θ hθ => ⟨declsOf_program hg θ, fun ρ v hv => hθ k hk' d hd _ v hv⟩))
      (fun ρ v hv => (hmass k hk' d hd _ v hv).differentiableAt (by simp)) ?_ w ω₀
    intro ι _
    exact ⟨_, alongPlate_downward (declsOf_program hg θ₀) d.name (ι d.name),
      decl_alongPlate hg hdv (((hk k hk').2 d hd).2 h) ι, othersMean_blind hg (hk k hk').1.args hdv ι⟩

/-- The derivative of the log-probability of the samples of `d`, averaged over all positions of a run. -/
noncomputable def scoreAverage (θ₀ : E) (vars : List (ScoreVar E)) (d : ScoreVar E) (ω : Draws ℝ) (w : E) : ℝ :=
  avgOver (poolOf (θ₀ := θ₀) invN vars) (fun ι => fderiv ℝ (fun θ => Real.log (d.prob
    (d.param θ (d.args.map (trajectory (declsOf (θ₀ := θ₀) invN vars) ω ι)))
    (trajectory (declsOf (θ₀ := θ₀) invN vars) ω ι d.name))) θ₀ w) (fun _ => 0)

/-- What a moving-average baseline with this decay does to the expected gradient. -/
noncomputable def movingBias (θ₀ : E) (vars : List (ScoreVar E)) (k : ScoreCost E) (ω₀ : Draws ℝ) (w : E)
    (d : ScoreVar E) : ℝ :=
  match d.base with
  | some (.movingAverage decay _) =>
    (1 - decay) * expect (declsOf (θ₀ := θ₀) invN vars) θ₀ (declsOf (θ₀ := θ₀) invN vars)
      (fun ω => runAverage θ₀ vars k ω * scoreAverage θ₀ vars d ω w) ω₀
  | _ => 0

omit [NormedAddCommGroup E] [NormedSpace ℝ E] in
theorem jointWeight_mc {vars : List (ScoreVar E)} (hg : GoodVars vars) (θ : E) (idx : List Nat) :
    jointWeight (poolOf (θ₀ := θ₀) invN vars) θ idx =
      ((poolOf (θ₀ := θ₀) invN vars).map (fun p => 1 / (p.n : ℝ))).prod := by
  rw [jointWeight, map_list_prod, List.map_map]
  congr 1
  apply List.map_congr_left
  intro p hp
  have := ((layoutOK (θ₀ := θ₀) invN vars hg).made p hp).2
  have hw : p.weight = .torch (Ten.scalar (invN p.n)) := by rw [this]; rfl
  simp only [Function.comp, Plate.weightAt, hw]
  rfl

/-- C36, what is true: the history of the costs does not bias the gradient; but the current cost is part of the
moving average, and biases it by `(1 - decay)` times the expectation of the average cost times the average
derivative of the log-probability.  Missing for C36: that term is not zero (`C36_refuted`). -/
theorem C36_bias_partial {hook : UnwrapHook (AD E θ₀)} (hh : PlainHook hook) {vars : List (ScoreVar E)}
    (hg : GoodVars vars) (hm : Unmixed vars) (ho : OnesOnTop vars) {k : ScoreCost E}
    (hk : GoodCost θ₀ vars k) (hkw : GoodWalk vars k)
    (hmass : ∀ d ∈ k.walk, ∀ xs, ∀ v ∈ d.support, ContDiffAt ℝ 1 (fun θ => d.prob (d.param θ xs) v) θ₀)
    (hcost : ∀ xs, ContDiffAt ℝ 1 (fun θ => k.f θ xs) θ₀)
    (hnear : ∀ᶠ θ in 𝓝 θ₀, ∀ d ∈ k.walk, d.SameSupport θ₀ θ) :
    ∃ loss : Draws ℝ → E → ℝ,
      (∀ ω, Possible (declsOf (θ₀ := θ₀) invN vars) θ₀ ω → ∃ r, runProgram hook invN vars [k] ω = .ok r ∧
        r.ten.shape = [] ∧ r.ten.get [] = loss ω ∧ DifferentiableAt ℝ (loss ω) θ₀) ∧
      ∀ ω₀ w, expect (declsOf (θ₀ := θ₀) invN vars) θ₀ (declsOf (θ₀ := θ₀) invN vars)
          (fun ω => fderiv ℝ (loss ω) θ₀ w) ω₀ =
        fderiv ℝ (expectedCost θ₀ vars [k]) θ₀ w - (k.walk.map (movingBias θ₀ vars k ω₀ w)).sum := by
  obtain ⟨loss, l1, l2⟩ := base_programs hh hg hm ho (costs := [k]) (by simp) (by simpa using ⟨hk, hkw⟩)
    (by simpa using hmass) (by simpa using hcost) (by simpa using hnear)
  refine ⟨loss, l1, fun ω₀ w => ?_⟩
  rw [l2 ω₀ w]
  simp only [List.map_cons, List.map_nil, List.sum_cons, List.sum_nil, add_zero]
  congr 2
  apply List.map_congr_left
  intro d hd
  have hdv := hk.sub d hd
  have hblind : ∀ g : Draws ℝ → (String → Nat) → ℝ, (∀ ι, ∃ T, Downward (declsOf (θ₀ := θ₀) invN vars) T ∧
      T d.name ((d.decl (platesIn (layout (θ₀ := θ₀) invN vars) d.name)).idx.map (fun p => ι p.1)) ∧
      Blind T (fun ω => g ω ι)) → expect (declsOf (θ₀ := θ₀) invN vars) θ₀ (declsOf (θ₀ := θ₀) invN vars)
        (fun ω => cvSlope (poolOf (θ₀ := θ₀) invN vars) (declsOf (θ₀ := θ₀) invN vars) ω
          [(d.decl (platesIn (layout (θ₀ := θ₀) invN vars) d.name), some (g ω))] w) ω₀ = 0 := by
    intro g hgb
    exact expect_cvSlope_blind (declsOf_program hg θ₀) (poolFor hg) ((mem_declsOf hg).2 ⟨d, hdv, rfl⟩)
      (hnear.mono (fun θ hθ => ⟨declsOf_program hg θ, fun ρ v hv => hθ d hd _ v hv⟩))
      (fun ρ v hv => (hmass d hd _ v hv).differentiableAt (by simp)) (fun ι _ => hgb ι) w ω₀
  rcases hbase : d.base with _ | b
  · simp only [baselineOf, movingBias, hbase, Option.map_none, cvSlope, List.map_cons, List.map_nil, List.sum_cons,
      List.sum_nil, add_zero, zero_apply]
    exact expect_zero _ _ _ _
  · cases b with
    | batchAverage =>
      simp only [baselineOf, movingBias, hbase, Option.map_some]
      exact hblind _ (fun ι => ⟨_, alongPlate_downward (declsOf_program hg θ₀) d.name (ι d.name),
        decl_alongPlate hg hdv ((hkw d hd).2 hbase) ι, othersMean_blind hg hk.args hdv ι⟩)
    | movingAverage decay avg =>
      simp only [baselineOf, movingBias, hbase, Option.map_some]
      have hconst := hblind (fun _ _ => decay * avg) (fun ι => ⟨fun _ _ => True, fun _ _ _ _ h => absurd trivial h,
        trivial, fun _ _ _ => rfl⟩)
      have hsplit : ∀ ω, cvSlope (poolOf (θ₀ := θ₀) invN vars) (declsOf (θ₀ := θ₀) invN vars) ω
          [(d.decl (platesIn (layout (θ₀ := θ₀) invN vars) d.name),
            some (fun _ => decay * avg + (1 - decay) * runAverage θ₀ vars k ω))] w =
          cvSlope (poolOf (θ₀ := θ₀) invN vars) (declsOf (θ₀ := θ₀) invN vars) ω
            [(d.decl (platesIn (layout (θ₀ := θ₀) invN vars) d.name), some (fun _ => decay * avg))] w +
          (1 - decay) * (runAverage θ₀ vars k ω * scoreAverage θ₀ vars d ω w) := by
        intro ω
        rw [cvSlope_one, cvSlope_one, scoreAverage, avgOver]
        simp only [jointWeight_mc hg]
        rw [← List.sum_map_mul_left, ← List.sum_map_mul_left, ← List.sum_map_add]
        congr 1
        apply List.map_congr_left
        intro idx _
        rw [show ∀ ρ v, scoreOf θ₀ (d.decl (platesIn (layout (θ₀ := θ₀) invN vars) d.name)) ρ v =
          fderiv ℝ (fun θ => Real.log (d.prob (d.param θ (d.args.map ρ)) v)) θ₀ from fun _ _ => rfl]
        rw [show (d.decl (platesIn (layout (θ₀ := θ₀) invN vars) d.name)).name = d.name from rfl]
        ring
      simp only [hsplit]
      rw [expect_add, hconst, zero_add, expect_smul]

/-! ### Cases -/

namespace BernoulliCase

/-- The variables of the case in `Verif.Props.MonteCarloProps`, with batch-average baselines. -/
noncomputable def zb : ScoreVar ℝ := ⟨"z", 2, [], fun θ _ => θ, {0, 1}, bern, some .batchAverage⟩
noncomputable def yb : ScoreVar ℝ :=
  ⟨"y", 3, ["z"], fun θ xs => if xs = [1] then θ else θ ^ 2, {0, 1}, bern, some .batchAverage⟩
noncomputable def costb : ScoreCost ℝ := ⟨["z", "y"], fun θ xs => θ * xs.getD 0 0 + xs.getD 1 0, [yb, zb]⟩

theorem goodb : GoodVars [yb, zb] := by
  refine ⟨⟨trivial, by simp, by simp [zb], by simp [zb], ?_⟩, by simp [yb, zb], by simp [yb, zb], by simp [yb], ?_⟩ <;>
  · intro π
    simp [zb, yb, bern]

theorem supportb {θ : ℝ} (h0 : 0 < θ) (h1 : θ < 1) (d : ScoreVar ℝ) (hd : d ∈ costb.walk) :
    d.SameSupport (1 / 2) θ := by
  simp only [costb, List.mem_cons, List.not_mem_nil, or_false] at hd
  rcases hd with rfl | rfl
  · exact support h0 h1 y (by simp [cost])
  · exact support h0 h1 z (by simp [cost])

/-- `C35_programs` applies to the case. -/
example : ∃ loss : Draws ℝ → ℝ → ℝ,
    (∀ ω, Possible (declsOf (θ₀ := (1 / 2 : ℝ)) invN [yb, zb]) (1 / 2 : ℝ) ω →
      ∃ r : STen (AD ℝ (1 / 2 : ℝ)), runProgram (fun _ a => .ok a) invN [yb, zb] [costb] ω = .ok r ∧
        r.ten.shape = [] ∧ r.ten.get [] = loss ω ∧ DifferentiableAt ℝ (loss ω) (1 / 2)) ∧
      ∀ ω₀ w, expect (declsOf (θ₀ := (1 / 2 : ℝ)) invN [yb, zb]) (1 / 2 : ℝ)
          (declsOf (θ₀ := (1 / 2 : ℝ)) invN [yb, zb]) (fun ω => fderiv ℝ (loss ω) (1 / 2) w) ω₀ =
        fderiv ℝ (expectedCost (1 / 2 : ℝ) [yb, zb] [costb]) (1 / 2) w := by
  refine C35_programs (fun _ _ _ => rfl) goodb ?_ ?_ (by simp) ?_ ?_ ?_ ?_ ?_
  · intro d hd
    refine Or.inl (fun d' hd' _ => ?_)
    simp only [List.mem_cons, List.not_mem_nil, or_false] at hd'
    rcases hd' with rfl | rfl <;> simp [yb, zb]
  · intro d hd hn
    simp only [List.mem_cons, List.not_mem_nil, or_false] at hd
    rcases hd with rfl | rfl <;> simp [yb, zb] at hn
  · intro k hk
    simp only [List.mem_singleton] at hk
    subst hk
    refine ⟨⟨by simp [costb], by simp [costb, yb, zb], by simp [costb], by simp [costb, yb, zb],
      fun d hd _ => Or.inl hd⟩, ?_⟩
    intro d hd
    simp only [costb, List.mem_cons, List.not_mem_nil, or_false] at hd
    rcases hd with rfl | rfl
    · exact ⟨.arg (by simp [costb, yb]), fun _ => by simp [yb]⟩
    · exact ⟨.arg (by simp [costb, zb]), fun _ => by simp [zb]⟩
  · intro k hk d hd
    simp only [List.mem_singleton] at hk
    subst hk
    simp only [costb, List.mem_cons, List.not_mem_nil, or_false] at hd
    rcases hd with rfl | rfl <;> exact Or.inr rfl
  · intro k hk d hd xs v _
    simp only [List.mem_singleton] at hk
    subst hk
    simp only [costb, List.mem_cons, List.not_mem_nil, or_false] at hd
    rcases hd with rfl | rfl <;> simp only [yb, zb, bern] <;> split <;> (try split) <;> fun_prop
  · intro k hk xs
    simp only [List.mem_singleton] at hk
    subst hk
    simp only [costb]
    fun_prop
  · have : ∀ᶠ θ in 𝓝 (1 / 2 : ℝ), θ ∈ Set.Ioo (0 : ℝ) 1 :=
      Ioo_mem_nhds (by norm_num) (by norm_num)
    refine this.mono (fun θ hθ k hk => ?_)
    simp only [List.mem_singleton] at hk
    subst hk
    exact supportb hθ.1 hθ.2

/-- One sample of `Bernoulli(θ)`, with a new moving average whose decay is 9/10; the cost is the sample. -/
noncomputable def x : ScoreVar ℝ := ⟨"x", 1, [], fun θ _ => θ, {0, 1}, bern, some (.movingAverage (9 / 10) 0)⟩
noncomputable def costx : ScoreCost ℝ := ⟨["x"], fun _ xs => xs.getD 0 0, [x]⟩

theorem layout_x : layout (θ₀ := (1 / 2 : ℝ)) invN [x] = [("x", [mcPlate invN "x" 1 []])] := rfl

theorem args_x : argPlates (layout (θ₀ := (1 / 2 : ℝ)) invN [x]) ["x"] = [mcPlate invN "x" 1 []] := by
  rw [layout_x, argPlates]
  simp only [platesIn, addPlates, List.map_cons, List.map_nil, List.foldl_cons, List.foldl_nil, beq_self_eq_true,
    List.find?_cons_of_pos]
  rw [if_neg (by simp [Plate.isIn, memBy]), List.nil_append]

theorem decls_x : declsOf (θ₀ := (1 / 2 : ℝ)) invN [x] = [⟨"x", [], [], {0, 1}, fun θ _ v => bern θ v⟩] := rfl

theorem traj_x (ω : Draws ℝ) (ι : String → Nat) :
    trajectory (declsOf (θ₀ := (1 / 2 : ℝ)) invN [x]) ω ι "x" = ω "x" [] := by
  rw [decls_x]
  simp [trajectory]

/-- C36 is false: in the case the gradient of the expected cost is 1, but the expected gradient of the surrogate
loss is 9/10. -/
theorem C36_refuted : ∃ loss : Draws ℝ → ℝ → ℝ,
    (∀ ω, Possible (declsOf (θ₀ := (1 / 2 : ℝ)) invN [x]) (1 / 2 : ℝ) ω →
      ∃ r : STen (AD ℝ (1 / 2 : ℝ)), runProgram (fun _ a => .ok a) invN [x] [costx] ω = .ok r ∧
        r.ten.shape = [] ∧ r.ten.get [] = loss ω ∧ DifferentiableAt ℝ (loss ω) (1 / 2)) ∧
      fderiv ℝ (expectedCost (1 / 2 : ℝ) [x] [costx]) (1 / 2) 1 = 1 ∧
      ∀ ω₀, expect (declsOf (θ₀ := (1 / 2 : ℝ)) invN [x]) (1 / 2 : ℝ)
          (declsOf (θ₀ := (1 / 2 : ℝ)) invN [x]) (fun ω => fderiv ℝ (loss ω) (1 / 2) 1) ω₀ = 9 / 10 := by
  have hgood : GoodVars [x] := ⟨trivial, by simp, by simp [x], by simp [x], fun π => by simp [x, bern]⟩
  obtain ⟨loss, l1, l2⟩ := C36_bias_partial (θ₀ := (1 / 2 : ℝ)) (hook := fun _ a => .ok a) (vars := [x]) (k := costx)
    (fun _ _ _ => rfl) hgood
    (by
      intro d hd
      right
      intro d' hd' _
      simp only [List.mem_singleton] at hd'
      rw [hd']; rfl)
    (by
      intro d hd _ d' hd' _
      simp only [List.mem_singleton] at hd'
      rw [hd']; rfl)
    ⟨by simp [costx], by simp [costx, x], by simp [costx], by simp [costx], fun d hd _ => Or.inl hd⟩
    (by
      intro d hd
      simp only [costx, List.mem_singleton] at hd
      subst hd
      exact ⟨.arg (by simp [costx, x]), by simp [x]⟩)
    (by
      intro d hd xs v _
      simp only [costx, List.mem_singleton] at hd
      subst hd
      simp only [x, bern]
      split <;> fun_prop)
    (by intro xs; simp only [costx]; fun_prop)
    (by
      have : ∀ᶠ θ in 𝓝 (1 / 2 : ℝ), θ ∈ Set.Ioo (0 : ℝ) 1 := Ioo_mem_nhds (by norm_num) (by norm_num)
      refine this.mono (fun θ hθ d hd => ?_)
      simp only [costx, List.mem_singleton] at hd
      subst hd
      exact support hθ.1 hθ.2 z (by simp [cost]))
  have hexp : expectedCost (1 / 2 : ℝ) [x] [costx] = fun θ => θ := by
    funext θ
    simp [expectedCost, declsOf, expectOne, x, costx, ScoreVar.decl, bern, Function.update]
  have hd : fderiv ℝ (expectedCost (1 / 2 : ℝ) [x] [costx]) (1 / 2) 1 = 1 := by
    rw [hexp]; simp
  refine ⟨loss, l1, hd, ?_⟩
  intro ω₀
  rw [l2 ω₀ 1, hd]
  have hrun : ∀ ω, runAverage (1 / 2 : ℝ) [x] costx ω = ω "x" [] := by
    intro ω
    rw [runAverage, show costx.args = ["x"] from rfl, args_x]
    simp only [avgOver, List.map_cons, List.map_nil]
    rw [show (mcPlate (invN (θ₀ := (1 / 2 : ℝ))) "x" 1 []).n = 1 from rfl]
    simp [allIdx, costAt, costx, traj_x]
  have hscore : ∀ ω, scoreAverage (1 / 2 : ℝ) [x] x ω 1 = fderiv ℝ (fun θ => Real.log (bern θ (ω "x" []))) (1 / 2) 1 := by
    intro ω
    rw [scoreAverage, show poolOf (θ₀ := (1 / 2 : ℝ)) invN [x] = [mcPlate invN "x" 1 []] from rfl]
    simp only [avgOver, List.map_cons, List.map_nil]
    rw [show (mcPlate (invN (θ₀ := (1 / 2 : ℝ))) "x" 1 []).n = 1 from rfl]
    simp only [show x.name = "x" from rfl, traj_x]
    simp [allIdx, x]
  simp only [show costx.walk = [x] from rfl, List.map_cons, List.map_nil, List.sum_cons, List.sum_nil, add_zero,
    movingBias, show x.base = some (.movingAverage (9 / 10) 0) from rfl, hrun, hscore, decls_x]
  simp [expect, expectEntries, allIdx, bern]

end BernoulliCase

end gradient

end Storch
