import Verif.Props.ScoreProps
import Verif.Lemmas.IndependenceLemmas

/-! The first derivative of the surrogate loss when score functions have baselines. -/

namespace Storch

section
variable {E V : Type _} {θ₀ : E}

/-- What the estimator of the variable `d` contributes when `ω` was drawn: the log-probability of the value and,
if there is a baseline (with value `f` at each position), the control variate. -/
structure EstFor (pool : List (Plate (AD E θ₀))) (prog : List (Decl E V)) (ω : Draws V)
    (a : Decl E V × Option ((String → Nat) → ℝ)) (e : Est (AD E θ₀)) : Prop where
  indep : ∀ q ∈ pool, q.name ∉ e.names → ∀ ι k, e.lp (Function.update ι q.name k) = e.lp ι
  lp : ∀ ι, Valid pool ι → ∀ θ, a.1.mass θ (trajectory prog ω ι) (trajectory prog ω ι a.1.name) ≠ 0 →
    e.lp ι θ = Real.log (a.1.mass θ (trajectory prog ω ι) (trajectory prog ω ι a.1.name))
  cv : match a.2, e.cv with
    | none, none => True
    | some f, some (ns, v) =>
      (∀ q ∈ pool, q.name ∉ ns → ∀ ι k, v (Function.update ι q.name k) = v ι) ∧
      ∀ ι, Valid pool ι → ∀ θ, v ι θ = (1 - boxElt (e.lp ι) θ) * f ι
    | _, _ => False

/-- A registered cost with the stochastic tensors above it, in a run in which `ω` was drawn; `bs` are the
baselines of the active variables. -/
structure RealisesB (hook : UnwrapHook (AD E θ₀)) (pool : List (Plate (AD E θ₀))) (prog : List (Decl E V))
    (ω : Draws V) (c : STen (AD E θ₀) × List (Sampled (AD E θ₀)))
    (k : CostSpec E V × List (Option ((String → Nat) → ℝ))) : Prop where
  cost : CostOK pool c.1
  value : ∀ ι, Valid pool ι → ∀ θ, c.1.sample ι [] θ = k.1.f θ (trajectory prog ω ι)
  length : k.2.length = k.1.active.length
  ests : ∃ ests, List.Forall₂ (Contributes hook pool c.1) c.2 ests ∧
    List.Forall₂ (EstFor pool prog ω) (k.1.active.zip k.2) ests

end

section
variable {E V : Type _} [NormedAddCommGroup E] [NormedSpace ℝ E] {θ₀ : E}
open scoped Topology

/-- The score: the derivative of the log-probability at `θ₀`. -/
noncomputable def scoreOf (θ₀ : E) (d : Decl E V) (ρ : String → V) (v : V) : E →L[ℝ] ℝ :=
  fderiv ℝ (fun θ => Real.log (d.mass θ ρ v)) θ₀

/-- Minus the derivative of the control variates of one cost. -/
noncomputable def cvSlope (pool : List (Plate (AD E θ₀))) (prog : List (Decl E V)) (ω : Draws V)
    (as : List (Decl E V × Option ((String → Nat) → ℝ))) : E →L[ℝ] ℝ :=
  (as.map (fun a => match a.2 with
    | none => 0
    | some f => ((allIdx (pool.map Plate.n)).map (fun idx =>
        (jointWeight pool θ₀ idx * f (assign pool idx (fun _ => 0))) •
          scoreOf θ₀ a.1 (trajectory prog ω (assign pool idx (fun _ => 0)))
            (trajectory prog ω (assign pool idx (fun _ => 0)) a.1.name))).sum)).sum

theorem hasFDerivAt_list_sum {ι : Type _} (l : List ι) (f : ι → E → ℝ) (f' : ι → E →L[ℝ] ℝ) (θ : E)
    (h : ∀ i ∈ l, HasFDerivAt (f i) (f' i) θ) :
    HasFDerivAt (fun θ => (l.map (fun i => f i θ)).sum) ((l.map f').sum) θ := by
  induction l with
  | nil => exact hasFDerivAt_const 0 θ
  | cons i l ih =>
    simp only [List.map_cons, List.sum_cons]
    exact (h i (by simp)).add (ih (fun j hj => h j (List.mem_cons_of_mem _ hj)))

theorem list_sum_neg {ι M : Type _} [AddCommGroup M] (l : List ι) (f : ι → M) :
    -(l.map f).sum = (l.map (fun i => -f i)).sum := by
  induction l with
  | nil => simp
  | cons i l ih => simp only [List.map_cons, List.sum_cons, neg_add, ih]

/-- One control variate. -/
theorem boxTotal_slope {pool : List (Plate (AD E θ₀))} (hp : PoolOK pool) (hw : TorchWeights pool)
    (hn : ∀ p ∈ pool, p.Normalised) (hwc : ∀ p ∈ pool, ∀ ι θ, p.weightAt id ι θ = p.weightAt id ι θ₀)
    {ns : List String} {l lp v : (String → Nat) → AD E θ₀} {f : (String → Nat) → ℝ}
    {lp' : (String → Nat) → E →L[ℝ] ℝ}
    (hl : ∀ q ∈ pool, q.name ∉ ns → ∀ ι k, boxElt (l (Function.update ι q.name k)) * v (Function.update ι q.name k) =
      boxElt (l ι) * v ι)
    (hld : ∀ ι, Valid pool ι → DifferentiableAt ℝ (l ι) θ₀)
    (hlp : ∀ ι, Valid pool ι → HasFDerivAt (lp ι) (lp' ι) θ₀)
    (hv : ∀ ι, Valid pool ι → ∀ θ, v ι θ = (1 - boxElt (lp ι) θ) * f ι) :
    HasFDerivAt (fun θ => boxTotal pool ns l v θ)
      (-((allIdx (pool.map Plate.n)).map (fun idx =>
        (jointWeight pool θ₀ idx * f (assign pool idx (fun _ => 0))) • lp' (assign pool idx (fun _ => 0)))).sum)
      θ₀ := by
  have hjw : ∀ idx θ, jointWeight pool θ idx = jointWeight pool θ₀ idx := by
    intro idx θ
    simp only [jointWeight, map_list_prod, List.map_map]
    congr 1
    apply List.map_congr_left
    intro p hm
    exact hwc p hm _ θ
  have hfun : (fun θ => boxTotal pool ns l v θ) = fun θ => ((allIdx (pool.map Plate.n)).map (fun idx =>
      jointWeight pool θ₀ idx * (boxElt (l (assign pool idx (fun _ => 0))) θ *
        v (assign pool idx (fun _ => 0)) θ))).sum := by
    funext θ
    rw [boxTotal, total_pool hp hw hn, total_eval]
    · simp only [hjw, AD.mul_apply]
    · exact hl
  rw [hfun]
  have hneg : -((allIdx (pool.map Plate.n)).map (fun idx =>
        (jointWeight pool θ₀ idx * f (assign pool idx (fun _ => 0))) • lp' (assign pool idx (fun _ => 0)))).sum =
      ((allIdx (pool.map Plate.n)).map (fun idx =>
        -((jointWeight pool θ₀ idx * f (assign pool idx (fun _ => 0))) •
          lp' (assign pool idx (fun _ => 0))))).sum := by
    exact list_sum_neg _ _
  rw [hneg]
  apply hasFDerivAt_list_sum (allIdx (pool.map Plate.n)) (fun idx θ => jointWeight pool θ₀ idx *
    (boxElt (l (assign pool idx (fun _ => 0))) θ * v (assign pool idx (fun _ => 0)) θ))
  intro idx hidx
  have hval := assign_valid hp.names hidx (fun _ => 0)
  generalize assign pool idx (fun _ => 0) = ι at hval
  -- the magic box of `lp`
  have hbox : ∀ (g : AD E θ₀) (g' : E →L[ℝ] ℝ), HasFDerivAt g g' θ₀ →
      HasFDerivAt (fun θ => boxElt g θ) g' θ₀ ∧ boxElt g θ₀ = 1 := by
    intro g g' hg
    have h1 : HasFDerivAt (fun θ => Real.exp (g θ - g θ₀)) (Real.exp (g θ₀ - g θ₀) • g') θ₀ :=
      (hg.sub_const (g θ₀)).exp
    rw [sub_self, Real.exp_zero, one_smul] at h1
    refine ⟨h1, ?_⟩
    show Real.exp (g θ₀ - g θ₀) = 1
    simp
  obtain ⟨b1, b2⟩ := hbox _ _ (hlp ι hval)
  obtain ⟨c1, c2⟩ := hbox _ _ (hld ι hval).hasFDerivAt
  have hvd : HasFDerivAt (fun θ => v ι θ) (-(f ι • lp' ι)) θ₀ := by
    have : (fun θ => v ι θ) = fun θ => (1 - boxElt (lp ι) θ) * f ι := funext (hv ι hval)
    rw [this]
    have h2 := ((hasFDerivAt_const (1 : ℝ) θ₀).sub b1).mul_const (f ι)
    simpa using h2
  have hprod := (c1.mul hvd).const_mul (jointWeight pool θ₀ idx)
  have hv0 : v ι θ₀ = 0 := by rw [hv ι hval, b2]; simp
  rw [hv0, c2] at hprod
  refine hprod.congr_fderiv ?_
  rw [one_smul, zero_smul, add_zero, smul_neg, smul_smul]

theorem EstFor.hasFDeriv {pool : List (Plate (AD E θ₀))} {prog : List (Decl E V)} {ω : Draws V}
    {a : Decl E V × Option ((String → Nat) → ℝ)} {e : Est (AD E θ₀)} (h : EstFor pool prog ω a e)
    (h0 : Program prog θ₀) (hp : PoolFor pool prog) (hω : Possible prog θ₀ ω) (ha : a.1 ∈ prog)
    (hnear : ∀ᶠ θ in 𝓝 θ₀, SameSupport a.1 θ₀ θ)
    (hmass : ∀ ρ, ∀ v ∈ a.1.support, DifferentiableAt ℝ (fun θ => a.1.mass θ ρ v) θ₀)
    {ι : String → Nat} (hι : Valid pool ι) :
    HasFDerivAt (e.lp ι) (scoreOf θ₀ a.1 (trajectory prog ω ι) (trajectory prog ω ι a.1.name)) θ₀ := by
  have hin : InPlates a.1 ι := by
    intro p hpd
    obtain ⟨q, hq, e1, e2⟩ := hp.covers a.1 ha p hpd
    rw [← e1, ← e2]; exact hι q hq
  obtain ⟨hsup, hne⟩ := hω.mass_ne h0 ha hin
  have heq : e.lp ι =ᶠ[𝓝 θ₀]
      fun θ => Real.log (a.1.mass θ (trajectory prog ω ι) (trajectory prog ω ι a.1.name)) := by
    filter_upwards [hnear] with θ hθ
    apply h.lp ι hι θ
    rcases hθ _ _ hsup with h' | h'
    · exact h'.2.ne'
    · exact absurd h'.1 hne
  refine HasFDerivAt.congr_of_eventuallyEq ?_ heq
  exact ((hmass _ _ hsup).log hne).hasFDerivAt

/-- All control variates of one cost. -/
theorem cvTotal_slope {pool : List (Plate (AD E θ₀))} {prog : List (Decl E V)} {ω : Draws V}
    (h0 : Program prog θ₀) (hp : PoolFor pool prog) (hω : Possible prog θ₀ ω)
    (hwc : ∀ p ∈ pool, ∀ ι θ, p.weightAt id ι θ = p.weightAt id ι θ₀)
    {as : List (Decl E V × Option ((String → Nat) → ℝ))} {ests : List (Est (AD E θ₀))}
    (h : List.Forall₂ (EstFor pool prog ω) as ests) (ha : ∀ a ∈ as, a.1 ∈ prog)
    (hnear : ∀ a ∈ as, ∀ᶠ θ in 𝓝 θ₀, SameSupport a.1 θ₀ θ)
    (hmass : ∀ a ∈ as, ∀ ρ, ∀ v ∈ a.1.support, DifferentiableAt ℝ (fun θ => a.1.mass θ ρ v) θ₀) :
    ∀ (ns : List String) (l : (String → Nat) → AD E θ₀),
      (∀ q ∈ pool, q.name ∉ ns → ∀ ι k, l (Function.update ι q.name k) = l ι) →
      (∀ ι, Valid pool ι → DifferentiableAt ℝ (l ι) θ₀) →
      HasFDerivAt (fun θ => cvTotal pool ests ns l θ) (-cvSlope pool prog ω as) θ₀ := by
  induction h with
  | nil =>
    intro ns l _ _
    simp only [cvTotal, cvSlope, List.map_nil, List.sum_nil, neg_zero]
    exact hasFDerivAt_const 0 θ₀
  | @cons a e as ests he _ ih =>
    intro ns l hl hld
    have hlp := fun ι (hι : Valid pool ι) => he.hasFDeriv h0 hp hω (ha a (by simp)) (hnear a (by simp))
      (hmass a (by simp)) hι
    have hl' : ∀ q ∈ pool, q.name ∉ ns ++ e.names → ∀ ι k,
        l (Function.update ι q.name k) + e.lp (Function.update ι q.name k) = l ι + e.lp ι := by
      intro q hq hqn ι k
      rw [List.mem_append, not_or] at hqn
      rw [hl q hq hqn.1, he.indep q hq hqn.2]
    have hld' : ∀ ι, Valid pool ι → DifferentiableAt ℝ (l ι + e.lp ι) θ₀ :=
      fun ι hι => (hld ι hι).add (hlp ι hι).differentiableAt
    have hrest := ih (fun x hx => ha x (List.mem_cons_of_mem _ hx)) (fun x hx => hnear x (List.mem_cons_of_mem _ hx))
      (fun x hx => hmass x (List.mem_cons_of_mem _ hx)) (ns ++ e.names) (fun ι => l ι + e.lp ι) hl' hld'
    have hcv := he.cv
    obtain ⟨d, bf⟩ := a
    simp only [cvTotal, cvSlope, List.map_cons, List.sum_cons, neg_add]
    have e1 : ∀ (x y : AD E θ₀), (fun θ => (x + y) θ) = fun θ => x θ + y θ := fun _ _ => rfl
    rw [e1]
    refine HasFDerivAt.add ?_ hrest
    cases bf with
    | none =>
      cases hec : e.cv with
      | none => simp only [neg_zero]; exact hasFDerivAt_const 0 θ₀
      | some x => rw [hec] at hcv; exact hcv.elim
    | some f =>
      cases hec : e.cv with
      | none => rw [hec] at hcv; exact hcv.elim
      | some x =>
        obtain ⟨ns', v⟩ := x
        rw [hec] at hcv
        obtain ⟨hv1, hv2⟩ := hcv
        refine boxTotal_slope hp.ok hp.weights hp.normalised hwc (lp := e.lp)
          (lp' := fun ι => scoreOf θ₀ d (trajectory prog ω ι) (trajectory prog ω ι d.name)) ?_ hld' hlp hv2
        intro q hq hqn ι k
        rw [List.mem_append, not_or] at hqn
        rw [hl' q hq hqn.1, hv1 q hq hqn.2]

omit [NormedAddCommGroup E] [NormedSpace ℝ E] in
/-- The surrogate loss of one cost: control variates, and what there would be without baselines. -/
theorem RealisesB.spec {hook : UnwrapHook (AD E θ₀)} {pool : List (Plate (AD E θ₀))}
    {prog : List (Decl E V)} (h0 : Program prog θ₀) (hp : PoolFor pool prog) {ω : Draws V}
    (hω : Possible prog θ₀ ω) {c : STen (AD E θ₀) × List (Sampled (AD E θ₀))}
    {k : CostSpec E V × List (Option ((String → Nat) → ℝ))}
    (hk : k.1.OK prog θ₀) (h : RealisesB hook pool prog ω c k) :
    ∃ ests, CostContributes hook pool c (c.1, ests) ∧ List.Forall₂ (EstFor pool prog ω) (k.1.active.zip k.2) ests ∧
      ∀ θ, (∀ d ∈ k.1.active, SameSupport d θ₀ θ) →
        costTotal pool c.1 ests θ = cvTotal pool ests [] (fun _ => 0) θ + runValue pool prog ω k.1 θ := by
  obtain ⟨ests, e1, e2⟩ := h.ests
  refine ⟨ests, ⟨rfl, h.cost, e1⟩, e2, ?_⟩
  have key : ∀ {as : List (Decl E V × Option ((String → Nat) → ℝ))} {ests : List (Est (AD E θ₀))},
      (∀ a ∈ as, a.1 ∈ prog) → List.Forall₂ (EstFor pool prog ω) as ests →
      (∀ q ∈ pool, q.name ∉ ests.flatMap Est.names → ∀ ι m,
          (ests.map (fun e => e.lp (Function.update ι q.name m))).sum = (ests.map (fun e => e.lp ι)).sum) ∧
      ∀ θ, (∀ a ∈ as, SameSupport a.1 θ₀ θ) → ∀ ι, Valid pool ι →
          (List.map (fun e : Est (AD E θ₀) => e.lp ι) ests).sum θ -
            (List.map (fun e : Est (AD E θ₀) => e.lp ι) ests).sum θ₀ =
              logRatio (as.map Prod.fst) θ θ₀ (trajectory prog ω ι) := by
    intro as ests hact hs
    induction hs with
    | nil => exact ⟨by simp, by intro θ _ ι _; simp [logRatio]⟩
    | @cons a e as ests he _ ih =>
      obtain ⟨i3, i4⟩ := ih (fun x hx => hact x (List.mem_cons_of_mem _ hx))
      refine ⟨?_, ?_⟩
      · intro q hq hqn ι m
        rw [List.flatMap_cons, List.mem_append, not_or] at hqn
        simp only [List.map_cons, List.sum_cons]
        rw [i3 q hq hqn.2, he.indep q hq hqn.1]
      · intro θ hss ι hι
        have i5 := i4 θ (fun x hx => hss x (List.mem_cons_of_mem _ hx)) ι hι
        have hin : InPlates a.1 ι := by
          intro p hpd
          obtain ⟨q, hq, e1, e2⟩ := hp.covers a.1 (hact a (by simp)) p hpd
          rw [← e1, ← e2]; exact hι q hq
        obtain ⟨hsup, hne⟩ := hω.mass_ne h0 (hact a (by simp)) hin
        have hne' : a.1.mass θ (trajectory prog ω ι) (trajectory prog ω ι a.1.name) ≠ 0 := by
          rcases hss a (by simp) (trajectory prog ω ι) _ hsup with h' | h'
          · exact h'.2.ne'
          · exact absurd h'.1 hne
        simp only [List.map_cons, List.sum_cons, AD.add_apply, logRatio]
        rw [he.lp ι hι θ hne', he.lp ι hι θ₀ hne]
        rw [logRatio] at i5
        rw [← i5]
        ring
  have hfst : (k.1.active.zip k.2).map Prod.fst = k.1.active :=
    List.map_fst_zip (le_of_eq h.length.symm)
  have hmem : ∀ a ∈ k.1.active.zip k.2, a.1 ∈ k.1.active := by
    intro a ha
    rw [← hfst]; exact List.mem_map_of_mem ha
  obtain ⟨e3, e4⟩ := key (fun a ha => hk.sub _ (hmem a ha)) e2
  intro θ hss
  rw [costTotal, AD.add_apply, boxTotal, total_pool hp.ok hp.weights hp.normalised, total_eval, runValue]
  · congr 2
    apply List.map_congr_left
    intro idx hidx
    have hv := assign_valid hp.ok.names hidx (fun _ => 0)
    have h4 := e4 θ (fun a ha => hss _ (hmem a ha)) _ hv
    rw [hfst] at h4
    rw [AD.mul_apply, h.value _ hv, ← h4]
    rfl
  · intro q hq hqn ι m
    rw [List.mem_append, not_or] at hqn
    rw [e3 q hq hqn.1]
    congr 1
    exact sample_indep (qs := [q]) (by simpa using hqn.2) [] q (by simp) ι m

/-- The surrogate loss of a run has a derivative at the current parameters. -/
theorem runsB_spec {hook : UnwrapHook (AD E θ₀)} (hh : PlainHook hook) {pool : List (Plate (AD E θ₀))}
    {prog : List (Decl E V)} (h0 : Program prog θ₀) (hp : PoolFor pool prog) {ω : Draws V}
    (hω : Possible prog θ₀ ω) {costs : List (STen (AD E θ₀) × List (Sampled (AD E θ₀)))}
    {specs : List (CostSpec E V × List (Option ((String → Nat) → ℝ)))} (hne : specs ≠ [])
    (hk : ∀ k ∈ specs, k.1.OK prog θ₀) (hs : Smooth pool (specs.map Prod.fst) 1)
    (hnear : ∀ᶠ θ in 𝓝 θ₀, ∀ k ∈ specs, ∀ d ∈ k.1.active, SameSupport d θ₀ θ)
    (h : List.Forall₂ (RealisesB hook pool prog ω) costs specs) :
    ∃ r, surrogateLoss hook costs = .ok r ∧ r.plates = [] ∧ r.ten.shape = [] ∧
      HasFDerivAt (r.ten.get [])
        ((specs.map (fun k => fderiv ℝ (fun θ => runValue pool prog ω k.1 θ) θ₀ -
          cvSlope pool prog ω (k.1.active.zip k.2))).sum) θ₀ := by
  have hne' : costs ≠ [] := by
    rintro rfl
    cases h
    exact hne rfl
  have hall : ∃ es, List.Forall₂ (CostContributes hook pool) costs es ∧
      HasFDerivAt (fun θ => lossTotal pool es θ)
        ((specs.map (fun k => fderiv ℝ (fun θ => runValue pool prog ω k.1 θ) θ₀ -
          cvSlope pool prog ω (k.1.active.zip k.2))).sum) θ₀ := by
    clear hne hne'
    induction h with
    | nil => exact ⟨[], .nil, hasFDerivAt_const 0 θ₀⟩
    | @cons c k cs ks hc _ ih =>
      obtain ⟨es, h1, h2⟩ := ih (fun x hx => hk x (List.mem_cons_of_mem _ hx))
        ⟨hs.weights, fun k hk' => hs.mass k (List.mem_cons_of_mem _ hk'),
          fun k hk' => hs.cost k (List.mem_cons_of_mem _ hk')⟩
        (hnear.mono (fun θ hθ x hx => hθ x (List.mem_cons_of_mem _ hx)))
      have hkk := hk k (by simp)
      obtain ⟨e, e1, e2, e3⟩ := hc.spec h0 hp hω hkk
      have hnk : ∀ᶠ θ in 𝓝 θ₀, ∀ d ∈ k.1.active, SameSupport d θ₀ θ := hnear.mono (fun θ hθ => hθ k (by simp))
      have hmem : ∀ a ∈ k.1.active.zip k.2, a.1 ∈ k.1.active := fun a ha => (List.of_mem_zip ha).1
      refine ⟨(c.1, e) :: es, .cons e1 h1, ?_⟩
      simp only [List.map_cons, List.sum_cons]
      have e4 : (fun θ => lossTotal pool ((c.1, e) :: es) θ) =
          fun θ => costTotal pool c.1 e θ + lossTotal pool es θ := by
        funext θ
        rw [lossTotal, List.map_cons, List.sum_cons]
        rfl
      rw [e4]
      refine HasFDerivAt.add ?_ h2
      have hcv := cvTotal_slope h0 hp hω hs.weights e2 (fun a ha => hkk.sub _ (hmem a ha))
        (fun a ha => hnk.mono (fun θ hθ => hθ _ (hmem a ha)))
        (fun a ha ρ v hv => (hs.mass k.1 (by simp) _ (hmem a ha) ρ v hv).differentiableAt (by simp)) [] (fun _ => 0)
        (fun _ _ _ _ _ => rfl) (fun _ _ => differentiableAt_const 0)
      have hrv : DifferentiableAt ℝ (fun θ => runValue pool prog ω k.1 θ) θ₀ :=
        (runValue_smooth h0 hp hs (by simp) hkk hω).differentiableAt (by simp)
      refine HasFDerivAt.congr_of_eventuallyEq ?_ (hnk.mono (fun θ hθ => e3 θ hθ))
      refine (hcv.add hrv.hasFDerivAt).congr_fderiv ?_
      abel
  obtain ⟨es, h1, h2⟩ := hall
  obtain ⟨r, r1, r2, r3, r4⟩ := surrogateLoss_spec hh hp.ok hp.weights hne' h1
  exact ⟨r, r1, r2, r3, by rw [r4]; exact h2⟩

/-- The expected derivative of what a cost adds without baselines. -/
theorem expect_runValue_fderiv {pool : List (Plate (AD E θ₀))} {prog : List (Decl E V)} (h0 : Program prog θ₀)
    (hp : PoolFor pool prog) {specs : List (CostSpec E V)} (hs : Smooth pool specs 1)
    {k : CostSpec E V} (hks : k ∈ specs) (hk : k.OK prog θ₀)
    (hnear : ∀ᶠ θ in 𝓝 θ₀, Program prog θ ∧ ∀ d ∈ k.active, SameSupport d θ₀ θ) (ω₀ : Draws V) (ρ₀ : String → V) (w : E) :
    expect prog θ₀ prog (fun ω => fderiv ℝ (fun θ => runValue pool prog ω k θ) θ₀ w) ω₀ =
      fderiv ℝ (fun θ => expectOne (fun d => d.mass θ) prog (k.f θ) ρ₀) θ₀ w := by
  obtain ⟨l, l1, l2⟩ := expect_finite h0 ω₀
  rw [l1]
  have heq : (fun θ => expectOne (fun d => d.mass θ) prog (k.f θ) ρ₀) =ᶠ[𝓝 θ₀]
      fun θ => (l.map (fun p => p.1 * runValue pool prog p.2 k θ)).sum := by
    filter_upwards [hnear] with θ hθ
    rw [← expect_runValue h0 hp hk hθ.1 hθ.2 ω₀ ρ₀, l1]
  rw [heq.fderiv_eq, (hasFDerivAt_list_sum l (fun p θ => p.1 * runValue pool prog p.2 k θ)
    (fun p => p.1 • fderiv ℝ (fun θ => runValue pool prog p.2 k θ) θ₀) θ₀ ?_).fderiv]
  · clear l1 l2 heq
    induction l with
    | nil => rfl
    | cons p l ih =>
      simp only [List.map_cons, List.sum_cons, ih]
      rfl
  · intro p hp'
    exact ((runValue_smooth h0 hp hs hks hk (l2 p hp')).differentiableAt (by simp)).hasFDerivAt.const_mul p.1

theorem expectOne_differentiable {pool : List (Plate (AD E θ₀))} {prog : List (Decl E V)} (h0 : Program prog θ₀)
    (hp : PoolFor pool prog) {specs : List (CostSpec E V)} (hs : Smooth pool specs 1)
    {k : CostSpec E V} (hks : k ∈ specs) (hk : k.OK prog θ₀)
    (hnear : ∀ᶠ θ in 𝓝 θ₀, Program prog θ ∧ ∀ d ∈ k.active, SameSupport d θ₀ θ) (ω₀ : Draws V) (ρ₀ : String → V) :
    DifferentiableAt ℝ (fun θ => expectOne (fun d => d.mass θ) prog (k.f θ) ρ₀) θ₀ := by
  obtain ⟨l, l1, l2⟩ := expect_finite h0 ω₀
  have heq : (fun θ => expectOne (fun d => d.mass θ) prog (k.f θ) ρ₀) =ᶠ[𝓝 θ₀]
      fun θ => (l.map (fun p => p.1 * runValue pool prog p.2 k θ)).sum := by
    filter_upwards [hnear] with θ hθ
    rw [← expect_runValue h0 hp hk hθ.1 hθ.2 ω₀ ρ₀, l1]
  refine DifferentiableAt.congr_of_eventuallyEq ?_ heq
  refine (hasFDerivAt_list_sum l (fun p θ => p.1 * runValue pool prog p.2 k θ)
    (fun p => p.1 • fderiv ℝ (fun θ => runValue pool prog p.2 k θ) θ₀) θ₀ ?_).differentiableAt
  intro p hp'
  exact ((runValue_smooth h0 hp hs hks hk (l2 p hp')).differentiableAt (by simp)).hasFDerivAt.const_mul p.1

/-- The expected gradient with baselines: the true gradient, minus the expected derivatives of the control
variates. -/
theorem baseline_gradient {hook : UnwrapHook (AD E θ₀)} (hh : PlainHook hook)
    {pool : List (Plate (AD E θ₀))} {prog : List (Decl E V)} (h0 : Program prog θ₀)
    (hp : PoolFor pool prog) {specs : List (CostSpec E V × (Draws V → List (Option ((String → Nat) → ℝ))))}
    (hne : specs ≠ []) (hk : ∀ k ∈ specs, k.1.OK prog θ₀) (hs : Smooth pool (specs.map Prod.fst) 1)
    (hnear : ∀ᶠ θ in 𝓝 θ₀, Program prog θ ∧ ∀ k ∈ specs, ∀ d ∈ k.1.active, SameSupport d θ₀ θ)
    {run : Draws V → List (STen (AD E θ₀) × List (Sampled (AD E θ₀)))}
    (hrun : ∀ ω, Possible prog θ₀ ω → List.Forall₂ (RealisesB hook pool prog ω) (run ω)
      (specs.map (fun k => (k.1, k.2 ω)))) :
    ∃ loss : Draws V → E → ℝ,
      (∀ ω, Possible prog θ₀ ω → ∃ r, surrogateLoss hook (run ω) = .ok r ∧ r.ten.shape = [] ∧
        r.ten.get [] = loss ω ∧ DifferentiableAt ℝ (loss ω) θ₀) ∧
      ∀ ω₀ ρ₀ w, expect prog θ₀ prog (fun ω => fderiv ℝ (loss ω) θ₀ w) ω₀ =
        (specs.map (fun k => fderiv ℝ (fun θ => expectOne (fun d => d.mass θ) prog (k.1.f θ) ρ₀) θ₀ w)).sum -
        (specs.map (fun k => expect prog θ₀ prog
          (fun ω => cvSlope pool prog ω (k.1.active.zip (k.2 ω)) w) ω₀)).sum := by
  classical
  have : Nonempty (STen (AD E θ₀)) := ⟨⟨Ten.scalar 0, [], 0⟩⟩
  choose! r h1 h2 h3 h4 using fun ω (hω : Possible prog θ₀ ω) =>
    runsB_spec hh h0 hp hω (specs := specs.map (fun k => (k.1, k.2 ω))) (by simpa using hne)
      (by
        intro k hk'
        obtain ⟨k, hk'', rfl⟩ := List.mem_map.1 hk'
        exact hk k hk'')
      (by rw [List.map_map]; exact hs)
      (hnear.mono (by
        intro θ hθ k hk'
        obtain ⟨k, hk'', rfl⟩ := List.mem_map.1 hk'
        exact hθ.2 k hk'')) (hrun ω hω)
  refine ⟨fun ω => (r ω).ten.get [], fun ω hω => ⟨r ω, h1 ω hω, h3 ω hω, rfl, (h4 ω hω).differentiableAt⟩, ?_⟩
  intro ω₀ ρ₀ w
  have hsplit : ∀ l : List (CostSpec E V × (Draws V → List (Option ((String → Nat) → ℝ)))), ∀ ω,
      ((l.map (fun k => (k.1, k.2 ω))).map (fun k => fderiv ℝ (fun θ => runValue pool prog ω k.1 θ) θ₀ -
          cvSlope pool prog ω (k.1.active.zip k.2))).sum w =
        (l.map (fun k => fderiv ℝ (fun θ => runValue pool prog ω k.1 θ) θ₀ w)).sum +
        (-1) * (l.map (fun k => cvSlope pool prog ω (k.1.active.zip (k.2 ω)) w)).sum := by
    intro l ω
    induction l with
    | nil => simp
    | cons k l ih =>
      simp only [List.map_cons, List.sum_cons, add_apply, ih, sub_apply]
      ring
  rw [expect_congr h0 (G := fun ω => (specs.map (fun k => fderiv ℝ (fun θ => runValue pool prog ω k.1 θ) θ₀ w)).sum +
        (-1) * (specs.map (fun k => cvSlope pool prog ω (k.1.active.zip (k.2 ω)) w)).sum)
    (fun ω hω => by rw [(h4 ω hω).fderiv, hsplit]), expect_add, expect_smul, expect_list_sum, expect_list_sum]
  rw [neg_one_mul, ← sub_eq_add_neg]
  congr 2
  apply List.map_congr_left
  intro k hks
  exact expect_runValue_fderiv h0 hp hs (List.mem_map_of_mem hks) (hk k hks)
    (hnear.mono (fun θ hθ => ⟨hθ.1, hθ.2 k hks⟩)) ω₀ ρ₀ w

/-- The score has mean zero. -/
theorem score_mean {prog : List (Decl E V)} {d : Decl E V} (hd : d ∈ prog)
    (hnear : ∀ᶠ θ in 𝓝 θ₀, Program prog θ ∧ SameSupport d θ₀ θ)
    (hmass : ∀ ρ, ∀ v ∈ d.support, DifferentiableAt ℝ (fun θ => d.mass θ ρ v) θ₀) (ρ : String → V) (w : E) :
    ∑ v ∈ d.support, d.mass θ₀ ρ v * scoreOf θ₀ d ρ v w = 0 := by
  have h1 : ∀ v ∈ d.support, d.mass θ₀ ρ v * scoreOf θ₀ d ρ v w = fderiv ℝ (fun θ => d.mass θ ρ v) θ₀ w := by
    intro v hv
    by_cases hz : d.mass θ₀ ρ v = 0
    · have : (fun θ => d.mass θ ρ v) =ᶠ[𝓝 θ₀] fun _ => 0 := by
        filter_upwards [hnear] with θ hθ
        rcases hθ.2 ρ v hv with h' | h'
        · exact absurd hz h'.1.ne'
        · exact h'.2
      rw [hz, zero_mul, this.fderiv_eq, fderiv_fun_const]
      rfl
    · rw [scoreOf, ((hmass ρ v hv).hasFDerivAt.log hz).fderiv, smul_apply, smul_eq_mul, ← mul_assoc,
        mul_inv_cancel₀ hz, one_mul]
  rw [Finset.sum_congr rfl h1]
  have h2 : HasFDerivAt (fun θ => ∑ v ∈ d.support, d.mass θ ρ v)
      (∑ v ∈ d.support, fderiv ℝ (fun θ => d.mass θ ρ v) θ₀) θ₀ :=
    HasFDerivAt.fun_sum (fun v hv => (hmass ρ v hv).hasFDerivAt)
  have h3 : (fun θ => ∑ v ∈ d.support, d.mass θ ρ v) =ᶠ[𝓝 θ₀] fun _ => 1 := by
    filter_upwards [hnear] with θ hθ
    exact hθ.1.normal d hd ρ
  have h4 := h2.fderiv
  rw [h3.fderiv_eq, fderiv_fun_const] at h4
  have h5 := congrArg (fun L : E →L[ℝ] ℝ => L w) h4
  simp only [sum_apply] at h5
  exact h5.symm

/-- The score of `d` at a position, times something blind to what is drawn there, has mean zero. -/
theorem expect_scoreOf {prog : List (Decl E V)} (h0 : Program prog θ₀) {d : Decl E V} (hd : d ∈ prog)
    (hnear : ∀ᶠ θ in 𝓝 θ₀, Program prog θ ∧ SameSupport d θ₀ θ)
    (hmass : ∀ ρ, ∀ v ∈ d.support, DifferentiableAt ℝ (fun θ => d.mass θ ρ v) θ₀)
    {T : String → List Nat → Prop} (hT : Downward prog T) {ι : String → Nat} (hι : InPlates d ι)
    (hTi : T d.name (d.idx.map (fun p => ι p.1))) {H : Draws V → ℝ} (hH : Blind T H) (w : E) (ω₀ : Draws V) :
    expect prog θ₀ prog (fun ω => scoreOf θ₀ d (trajectory prog ω ι) (trajectory prog ω ι d.name) w * H ω) ω₀ = 0 := by
  have hloc : ∀ ρ ρ' v, (∀ s ∈ d.deps, ρ s = ρ' s) → scoreOf θ₀ d ρ v = scoreOf θ₀ d ρ' v := by
    intro ρ ρ' v h
    have : (fun θ => Real.log (d.mass θ ρ v)) = fun θ => Real.log (d.mass θ ρ' v) := by
      funext θ
      rw [h0.local' d hd θ _ _ _ h]
    rw [scoreOf, this, scoreOf]
  have := expect_score_zero h0 hd hT hι.mem hTi (g := fun ρ v => scoreOf θ₀ d ρ v w)
    (fun ρ ρ' v h => by rw [hloc ρ ρ' v h]) (score_mean hd hnear hmass · w) hH ω₀
  rw [← this]
  congr 1
  funext ω
  rw [trajectory_decl h0.names hd, hloc _ _ _ (h0.trajectory_deps hd ω ι)]

/-- The baselines of a cost, each as a function of the draws and the position. -/
abbrev Baselines (V : Type _) := List (Option (Draws V → (String → Nat) → ℝ))

/-- The baselines of a run. -/
def Baselines.at (fs : Baselines V) (ω : Draws V) : List (Option ((String → Nat) → ℝ)) :=
  fs.map (fun f => f.map (fun g => g ω))

omit [NormedAddCommGroup E] [NormedSpace ℝ E] in
theorem Baselines.at_cons (f : Option (Draws V → (String → Nat) → ℝ)) (fs : Baselines V) (ω : Draws V) :
    Baselines.at (f :: fs) ω = f.map (fun g => g ω) :: Baselines.at fs ω := rfl

theorem expect_cvSlope_sum {pool : List (Plate (AD E θ₀))} {prog : List (Decl E V)} (act : List (Decl E V))
    (fs : Baselines V) (w : E) (ω₀ : Draws V) :
    expect prog θ₀ prog (fun ω => cvSlope pool prog ω (act.zip (fs.at ω)) w) ω₀ =
      ((act.zip fs).map (fun a => expect prog θ₀ prog
        (fun ω => cvSlope pool prog ω [(a.1, a.2.map (fun g => g ω))] w) ω₀)).sum := by
  induction act generalizing fs with
  | nil =>
    simp only [List.zip_nil_left, cvSlope, List.map_nil, List.sum_nil, zero_apply]
    exact expect_zero _ _ _ _
  | cons d act ih =>
    cases fs with
    | nil =>
      simp only [Baselines.at, List.map_nil, List.zip_nil_right, cvSlope, List.sum_nil, zero_apply]
      exact expect_zero _ _ _ _
    | cons f fs =>
      have hsum : ∀ ω, cvSlope pool prog ω ((d :: act).zip (Baselines.at (f :: fs) ω)) w =
          cvSlope pool prog ω [(d, f.map (fun g => g ω))] w + cvSlope pool prog ω (act.zip (Baselines.at fs ω)) w := by
        intro ω
        simp only [Baselines.at_cons, List.zip_cons_cons, cvSlope, List.map_cons, List.sum_cons, List.map_nil,
          List.sum_nil, add_zero, add_apply]
      simp only [hsum]
      rw [expect_add, ih, List.zip_cons_cons, List.map_cons, List.sum_cons]

/-- One control variate, as a sum over the positions. -/
theorem cvSlope_one (pool : List (Plate (AD E θ₀))) (prog : List (Decl E V)) (ω : Draws V) (d : Decl E V)
    (f : (String → Nat) → ℝ) (w : E) : cvSlope pool prog ω [(d, some f)] w =
      ((allIdx (pool.map Plate.n)).map (fun idx => jointWeight pool θ₀ idx *
        (scoreOf θ₀ d (trajectory prog ω (assign pool idx (fun _ => 0)))
          (trajectory prog ω (assign pool idx (fun _ => 0)) d.name) w * f (assign pool idx (fun _ => 0))))).sum := by
  have happ : ∀ (l : List (List Nat)) (F : List Nat → E →L[ℝ] ℝ), (l.map F).sum w = (l.map (fun i => F i w)).sum := by
    intro l F
    induction l with
    | nil => rfl
    | cons i l ih => simp only [List.map_cons, List.sum_cons, add_apply, ih]
  simp only [cvSlope, List.map_cons, List.map_nil, List.sum_cons, List.sum_nil, add_zero, happ]
  congr 1
  apply List.map_congr_left
  intro idx _
  rw [smul_apply, smul_eq_mul]
  ring

/-- A blind baseline does not change the expected gradient. -/
theorem expect_cvSlope_blind {pool : List (Plate (AD E θ₀))} {prog : List (Decl E V)} (h0 : Program prog θ₀)
    (hp : PoolFor pool prog) {d : Decl E V} (hd : d ∈ prog)
    (hnear : ∀ᶠ θ in 𝓝 θ₀, Program prog θ ∧ SameSupport d θ₀ θ)
    (hmass : ∀ ρ, ∀ v ∈ d.support, DifferentiableAt ℝ (fun θ => d.mass θ ρ v) θ₀)
    {g : Draws V → (String → Nat) → ℝ}
    (hb : ∀ ι, Valid pool ι → ∃ T, Downward prog T ∧ T d.name (d.idx.map (fun p => ι p.1)) ∧
      Blind T (fun ω => g ω ι)) (w : E) (ω₀ : Draws V) :
    expect prog θ₀ prog (fun ω => cvSlope pool prog ω [(d, some (g ω))] w) ω₀ = 0 := by
  simp only [cvSlope_one]
  rw [expect_list_sum]
  apply List.sum_eq_zero
  intro x hx
  obtain ⟨idx, hidx, rfl⟩ := List.mem_map.1 hx
  have hv := assign_valid hp.ok.names hidx (fun _ => 0)
  generalize assign pool idx (fun _ => 0) = ι at hv
  have hin : InPlates d ι := by
    intro p hpd
    obtain ⟨q, hq, e1, e2⟩ := hp.covers d hd p hpd
    rw [← e1, ← e2]; exact hv q hq
  obtain ⟨T, hT, hTi, hbl⟩ := hb ι hv
  rw [expect_smul, expect_scoreOf h0 hd hnear hmass hT hin hTi hbl w ω₀, mul_zero]

end

end Storch
