import Verif.Lemmas.ScoreLemmas
import Mathlib.Analysis.Calculus.ContDiff.Operations
import Mathlib.Analysis.SpecialFunctions.Log.Deriv

/-!
# C34: the score function is unbiased, for derivatives of every order

`Verif.Model.Expectation` has the program that draws the random variables.  `Realises` says that the storch
tensors of a run hold what was drawn; a library run that meets it is in `Verif.Props.MonteCarloProps`.
-/

namespace Storch

section
variable {E V : Type _} {θ₀ : E}

/-- The stochastic tensor `s` was sampled with `ScoreFunction` without a baseline, and its log-probability at
each position is that of the value drawn for `d`. -/
def Scores (hook : UnwrapHook (AD E θ₀)) (pool : List (Plate (AD E θ₀))) (prog : List (Decl E V))
    (ω : Draws V) (d : Decl E V) (s : Sampled (AD E θ₀)) : Prop :=
  ∃ t logProb es G inv n name, s = scoreSampled hook inv logProb n name none t ∧ ParentOK pool t ∧
    LogProbOK t logProb es G ∧ ∀ ι, Valid pool ι → ∀ θ,
      d.mass θ (trajectory prog ω ι) (trajectory prog ω ι d.name) ≠ 0 →
      sumEvent es G ι θ = Real.log (d.mass θ (trajectory prog ω ι) (trajectory prog ω ι d.name))

/-- A registered cost with the stochastic tensors above it, as the tensors of a run in which `ω` was drawn. -/
structure Realises (hook : UnwrapHook (AD E θ₀)) (pool : List (Plate (AD E θ₀))) (prog : List (Decl E V))
    (ω : Draws V) (c : STen (AD E θ₀) × List (Sampled (AD E θ₀))) (k : CostSpec E V) : Prop where
  cost : CostOK pool c.1
  nested : ParentsAllOrNone c.1.multiDimPlates
  value : ∀ ι, Valid pool ι → ∀ θ, c.1.sample ι [] θ = k.f θ (trajectory prog ω ι)
  scores : List.Forall₂ (Scores hook pool prog ω) k.active c.2

/-- The plates: ordinary, with torch weights that sum to one, and among them the plates of every variable. -/
structure PoolFor (pool : List (Plate (AD E θ₀))) (prog : List (Decl E V)) : Prop where
  ok : PoolOK pool
  weights : TorchWeights pool
  normalised : ∀ p ∈ pool, p.Normalised
  covers : ∀ d ∈ prog, ∀ p ∈ d.idx, ∃ q ∈ pool, q.name = p.1 ∧ q.n = p.2

/-- What one cost adds to the surrogate loss of a run, at the parameters `θ`. -/
noncomputable def runValue (pool : List (Plate (AD E θ₀))) (prog : List (Decl E V)) (ω : Draws V)
    (k : CostSpec E V) (θ : E) : ℝ :=
  ((allIdx (pool.map Plate.n)).map (fun idx => jointWeight pool θ idx *
    (Real.exp (logRatio k.active θ θ₀ (trajectory prog ω (assign pool idx (fun _ => 0)))) *
      k.f θ (trajectory prog ω (assign pool idx (fun _ => 0)))))).sum

theorem logProb_indep {t : STen (AD E θ₀)} (ht : t.WF) {logProb : STen (AD E θ₀) → Except Err (STen (AD E θ₀))}
    {es : List Nat} {G : (String → Nat) → List Nat → AD E θ₀} (hl : LogProbOK t logProb es G)
    (q : Plate (AD E θ₀)) (hq : q.name ∉ t.plates.map Plate.name) (ι : String → Nat) (k : Nat) :
    sumEvent es G (Function.update ι q.name k) = sumEvent es G ι := by
  obtain ⟨lp, _, _, h3, h4, h5⟩ := hl t ⟨ht, fun _ => Iff.rfl, rfl, fun _ _ => rfl⟩
  have hn : q.name ∉ lp.plates.map Plate.name := by
    intro hm
    obtain ⟨p, hp, he⟩ := List.mem_map.1 hm
    exact hq (he ▸ List.mem_map_of_mem ((h3 p).1 hp))
  rw [sumEvent, sumEvent]
  congr 1
  apply List.map_congr_left
  intro e he
  have hb := mem_allIdx.1 he
  rw [← h5 _ e hb, ← h5 _ e hb]
  exact sample_indep (qs := [q]) (by simpa using hn) e q (by simp) ι k

theorem Possible.mass_ne {prog : List (Decl E V)} {θ : E} (h : Program prog θ) {ω : Draws V}
    (hω : Possible prog θ ω) {d : Decl E V} (hd : d ∈ prog) {ι : String → Nat} (hι : InPlates d ι) :
    trajectory prog ω ι d.name ∈ d.support ∧
      d.mass θ (trajectory prog ω ι) (trajectory prog ω ι d.name) ≠ 0 := by
  have := hω d hd _ hι.mem
  rw [h.local' d hd θ _ _ _ (h.trajectory_deps hd ω ι)] at this
  rw [trajectory_decl h.names hd]
  exact this

/-- The surrogate loss of one cost in a run. -/
theorem Realises.spec {hook : UnwrapHook (AD E θ₀)} (hh : PlainHook hook) {pool : List (Plate (AD E θ₀))}
    {prog : List (Decl E V)} (h0 : Program prog θ₀) (hp : PoolFor pool prog) {ω : Draws V}
    (hω : Possible prog θ₀ ω) {c : STen (AD E θ₀) × List (Sampled (AD E θ₀))} {k : CostSpec E V}
    (hk : k.OK prog θ₀) (h : Realises hook pool prog ω c k) :
    ∃ ests, CostContributes hook pool c (c.1, ests) ∧
      ∀ θ, (∀ d ∈ k.active, SameSupport d θ₀ θ) →
        costTotal pool c.1 ests θ = runValue pool prog ω k θ := by
  -- what the estimators contribute
  have key : ∀ {act : List (Decl E V)} {ss : List (Sampled (AD E θ₀))}, (∀ d ∈ act, d ∈ prog) →
      List.Forall₂ (Scores hook pool prog ω) act ss →
      ∃ ests, List.Forall₂ (Contributes hook pool c.1) ss ests ∧ (∀ e ∈ ests, e.cv = none) ∧
        (∀ q : Plate (AD E θ₀), q.name ∉ ests.flatMap Est.names → ∀ ι m,
          (ests.map (fun e => e.lp (Function.update ι q.name m))).sum = (ests.map (fun e => e.lp ι)).sum) ∧
        ∀ θ, (∀ d ∈ act, SameSupport d θ₀ θ) → ∀ ι, Valid pool ι →
          boxElt ((ests.map (fun e => e.lp ι)).sum) θ =
            Real.exp (logRatio act θ θ₀ (trajectory prog ω ι)) ∧
          (List.map (fun e : Est (AD E θ₀) => e.lp ι) ests).sum θ -
            (List.map (fun e : Est (AD E θ₀) => e.lp ι) ests).sum θ₀ = logRatio act θ θ₀ (trajectory prog ω ι) := by
    intro act ss hact hs
    induction hs with
    | nil =>
      refine ⟨[], .nil, by simp, by simp, ?_⟩
      intro θ _ ι _
      refine ⟨?_, by simp [logRatio]⟩
      show Real.exp ((0 : ℝ) - 0) = _
      simp [logRatio]
    | @cons d s act ss hd _ ih =>
      obtain ⟨ests, i1, i2, i3, i4⟩ := ih (fun x hx => hact x (List.mem_cons_of_mem _ hx))
      obtain ⟨t, logProb, es, G, inv, n, name, rfl, ht, hl, hval⟩ := hd
      refine ⟨⟨t.plates.map Plate.name, sumEvent es G, none⟩ :: ests, .cons
        (score_contributes hh hp.ok hp.weights h.cost h.nested ht hl inv n name) i1, ?_, ?_, ?_⟩
      · intro e he
        rcases List.mem_cons.1 he with rfl | he
        · rfl
        · exact i2 e he
      · intro q hq ι m
        rw [List.flatMap_cons, List.mem_append, not_or] at hq
        simp only [List.map_cons, List.sum_cons]
        rw [i3 q hq.2, logProb_indep ht.wf hl q hq.1]
      · intro θ hss ι hι
        obtain ⟨_, i5⟩ := i4 θ (fun x hx => hss x (List.mem_cons_of_mem _ hx)) ι hι
        have hin : InPlates d ι := by
          intro p hpd
          obtain ⟨q, hq, e1, e2⟩ := hp.covers d (hact d (by simp)) p hpd
          rw [← e1, ← e2]; exact hι q hq
        obtain ⟨hsup, hne⟩ := hω.mass_ne h0 (hact d (by simp)) hin
        have hne' : d.mass θ (trajectory prog ω ι) (trajectory prog ω ι d.name) ≠ 0 := by
          rcases hss d (by simp) (trajectory prog ω ι) _ hsup with h' | h'
          · exact h'.2.ne'
          · exact absurd h'.1 hne
        have hdiff : ((List.map (fun e : Est (AD E θ₀) => e.lp ι)
              (⟨t.plates.map Plate.name, sumEvent es G, none⟩ :: ests)).sum : AD E θ₀) θ -
            ((List.map (fun e : Est (AD E θ₀) => e.lp ι)
              (⟨t.plates.map Plate.name, sumEvent es G, none⟩ :: ests)).sum : AD E θ₀) θ₀ =
            logRatio (d :: act) θ θ₀ (trajectory prog ω ι) := by
          simp only [List.map_cons, List.sum_cons, AD.add_apply, logRatio]
          rw [hval ι hι θ hne', hval ι hι θ₀ hne]
          rw [logRatio] at i5
          rw [← i5]
          ring
        exact ⟨by rw [← hdiff]; rfl, hdiff⟩
  obtain ⟨ests, e1, e2, e3, e4⟩ := key hk.sub h.scores
  refine ⟨ests, ⟨rfl, h.cost, e1⟩, ?_⟩
  intro θ hss
  have hcv : ∀ (l : List (Est (AD E θ₀))), (∀ e ∈ l, e.cv = none) → ∀ ns lv, cvTotal pool l ns lv = 0 := by
    intro l
    induction l with
    | nil => intro _ _ _; rfl
    | cons e l ih =>
      intro hl ns lv
      rw [cvTotal, hl e (by simp), ih (fun x hx => hl x (List.mem_cons_of_mem _ hx)), add_zero]
  rw [costTotal, hcv ests e2, zero_add, boxTotal, total_pool hp.ok hp.weights hp.normalised, total_eval,
    runValue]
  · congr 1
    apply List.map_congr_left
    intro idx hidx
    have hv := assign_valid hp.ok.names hidx (fun _ => 0)
    rw [AD.mul_apply, (e4 θ hss _ hv).1, h.value _ hv]
  · intro q _ hqn ι m
    rw [List.mem_append, not_or] at hqn
    rw [e3 q hqn.1]
    congr 1
    exact sample_indep (qs := [q]) (by simpa using hqn.2) [] q (by simp) ι m

/-- The expectation of what one cost adds. -/
theorem expect_runValue {pool : List (Plate (AD E θ₀))} {prog : List (Decl E V)} (h0 : Program prog θ₀)
    (hp : PoolFor pool prog) {k : CostSpec E V} (hk : k.OK prog θ₀) {θ : E} (h : Program prog θ)
    (hs : ∀ d ∈ k.active, SameSupport d θ₀ θ) (ω₀ : Draws V) (ρ₀ : String → V) :
    expect prog θ₀ prog (fun ω => runValue pool prog ω k θ) ω₀ =
      expectOne (fun d => d.mass θ) prog (k.f θ) ρ₀ := by
  simp only [runValue]
  rw [expect_total h0 hp.ok.names hp.covers θ
    (fun ρ => Real.exp (logRatio k.active θ θ₀ ρ) * k.f θ ρ) _
    (fun ρ => expectOne_ratio h0 h hk hs ρ ρ₀),
    jointWeight_sum hp.ok.names hp.weights hp.normalised, one_mul]

theorem runs_spec {hook : UnwrapHook (AD E θ₀)} (hh : PlainHook hook) {pool : List (Plate (AD E θ₀))}
    {prog : List (Decl E V)} (h0 : Program prog θ₀) (hp : PoolFor pool prog) {ω : Draws V}
    (hω : Possible prog θ₀ ω) {costs : List (STen (AD E θ₀) × List (Sampled (AD E θ₀)))}
    {specs : List (CostSpec E V)} (hne : specs ≠ []) (hk : ∀ k ∈ specs, k.OK prog θ₀)
    (h : List.Forall₂ (Realises hook pool prog ω) costs specs) :
    ∃ r, surrogateLoss hook costs = .ok r ∧ r.plates = [] ∧ r.ten.shape = [] ∧
      ∀ θ, (∀ k ∈ specs, ∀ d ∈ k.active, SameSupport d θ₀ θ) →
        r.ten.get [] θ = (specs.map (fun k => runValue pool prog ω k θ)).sum := by
  have hall : ∃ es, List.Forall₂ (CostContributes hook pool) costs es ∧
      ∀ θ, (∀ k ∈ specs, ∀ d ∈ k.active, SameSupport d θ₀ θ) →
        lossTotal pool es θ = (specs.map (fun k => runValue pool prog ω k θ)).sum := by
    clear hne
    induction h with
    | nil => exact ⟨[], .nil, fun _ _ => rfl⟩
    | @cons c k cs ks hc _ ih =>
      obtain ⟨es, h1, h2⟩ := ih (fun x hx => hk x (List.mem_cons_of_mem _ hx))
      obtain ⟨e, e1, e2⟩ := hc.spec hh h0 hp hω (hk k (by simp))
      refine ⟨(c.1, e) :: es, .cons e1 h1, ?_⟩
      intro θ hss
      simp only [lossTotal, List.map_cons, List.sum_cons, AD.add_apply]
      rw [e2 θ (hss k (by simp))]
      have := h2 θ (fun x hx => hss x (List.mem_cons_of_mem _ hx))
      rw [lossTotal] at this
      rw [this]
  obtain ⟨es, h1, h2⟩ := hall
  have hne' : costs ≠ [] := by
    rintro rfl
    cases h
    exact hne rfl
  obtain ⟨r, r1, r2, r3, r4⟩ := surrogateLoss_spec hh hp.ok hp.weights hne' h1
  exact ⟨r, r1, r2, r3, fun θ hss => by rw [r4]; exact h2 θ hss⟩

/-- C34: in every run the surrogate loss can be computed, and its expectation over the samples drawn at the
current parameters `θ₀`, as a function of the parameters `θ`, is the sum of the expected costs at `θ`.
(The derivatives at `θ₀` of every order therefore agree: `C34_all_orders`.) -/
theorem C34_expected_loss {hook : UnwrapHook (AD E θ₀)} (hh : PlainHook hook)
    {pool : List (Plate (AD E θ₀))} {prog : List (Decl E V)} (h0 : Program prog θ₀)
    (hp : PoolFor pool prog) {specs : List (CostSpec E V)} (hne : specs ≠ [])
    (hk : ∀ k ∈ specs, k.OK prog θ₀)
    {run : Draws V → List (STen (AD E θ₀) × List (Sampled (AD E θ₀)))}
    (hrun : ∀ ω, Possible prog θ₀ ω → List.Forall₂ (Realises hook pool prog ω) (run ω) specs) :
    ∃ loss : Draws V → E → ℝ,
      (∀ ω, Possible prog θ₀ ω → ∃ r, surrogateLoss hook (run ω) = .ok r ∧ r.plates = [] ∧
        r.ten.shape = [] ∧ r.ten.get [] = loss ω) ∧
      ∀ θ, Program prog θ → (∀ k ∈ specs, ∀ d ∈ k.active, SameSupport d θ₀ θ) → ∀ ω₀ ρ₀,
        expect prog θ₀ prog (fun ω => loss ω θ) ω₀ =
          (specs.map (fun k => expectOne (fun d => d.mass θ) prog (k.f θ) ρ₀)).sum := by
  classical
  have : Nonempty (STen (AD E θ₀)) := ⟨⟨Ten.scalar 0, [], 0⟩⟩
  choose! r h1 h2 h3 h4 using fun ω (hω : Possible prog θ₀ ω) => runs_spec hh h0 hp hω hne hk (hrun ω hω)
  refine ⟨fun ω => (r ω).ten.get [], fun ω hω => ⟨r ω, h1 ω hω, h2 ω hω, h3 ω hω, rfl⟩, ?_⟩
  intro θ hθ hss ω₀ ρ₀
  rw [expect_congr h0 (G := fun ω => (specs.map (fun k => runValue pool prog ω k θ)).sum)
    (fun ω hω => h4 ω hω θ hss), expect_list_sum]
  congr 1
  apply List.map_congr_left
  intro k hks
  exact expect_runValue h0 hp (hk k hks) hθ (hss k hks) ω₀ ρ₀

end

section orders
variable {E V : Type _} [NormedAddCommGroup E] [NormedSpace ℝ E] {θ₀ : E}
open scoped Topology

/-- The probabilities and the cost functions are `n` times continuously differentiable at `θ₀`, and the
weights of the plates do not depend on the parameters. -/
structure Smooth (pool : List (Plate (AD E θ₀))) (specs : List (CostSpec E V)) (n : ℕ) : Prop where
  weights : ∀ p ∈ pool, ∀ ι θ, p.weightAt id ι θ = p.weightAt id ι θ₀
  mass : ∀ k ∈ specs, ∀ d ∈ k.active, ∀ ρ, ∀ v ∈ d.support, ContDiffAt ℝ n (fun θ => d.mass θ ρ v) θ₀
  cost : ∀ k ∈ specs, ∀ ρ, ContDiffAt ℝ n (fun θ => k.f θ ρ) θ₀

theorem contDiffAt_list_sum {ι : Type _} {n : ℕ} (l : List ι) (f : ι → E → ℝ) (θ : E)
    (h : ∀ i ∈ l, ContDiffAt ℝ n (f i) θ) : ContDiffAt ℝ n (fun θ => (l.map (fun i => f i θ)).sum) θ := by
  induction l with
  | nil => exact contDiffAt_const
  | cons i l ih =>
    simp only [List.map_cons, List.sum_cons]
    exact (h i (by simp)).add (ih (fun j hj => h j (List.mem_cons_of_mem _ hj)))

theorem iteratedFDeriv_list_sum {ι : Type _} {n : ℕ} (l : List ι) (f : ι → E → ℝ) (θ : E)
    (h : ∀ i ∈ l, ContDiffAt ℝ n (f i) θ) :
    iteratedFDeriv ℝ n (fun θ => (l.map (fun i => f i θ)).sum) θ =
      (l.map (fun i => iteratedFDeriv ℝ n (f i) θ)).sum := by
  induction l with
  | nil =>
    simp only [List.map_nil, List.sum_nil]
    exact congrFun iteratedFDeriv_fun_zero θ
  | cons i l ih =>
    simp only [List.map_cons, List.sum_cons]
    rw [← ih (fun j hj => h j (List.mem_cons_of_mem _ hj))]
    exact iteratedFDeriv_add_apply (h i (by simp))
      (contDiffAt_list_sum l f θ (fun j hj => h j (List.mem_cons_of_mem _ hj)))

theorem runValue_smooth {pool : List (Plate (AD E θ₀))} {prog : List (Decl E V)} (h0 : Program prog θ₀)
    (hp : PoolFor pool prog) {specs : List (CostSpec E V)} {n : ℕ} (hs : Smooth pool specs n)
    {k : CostSpec E V} (hks : k ∈ specs) (hk : k.OK prog θ₀) {ω : Draws V} (hω : Possible prog θ₀ ω) :
    ContDiffAt ℝ n (fun θ => runValue pool prog ω k θ) θ₀ := by
  unfold runValue
  apply contDiffAt_list_sum
  intro idx hidx
  have hv := assign_valid hp.ok.names hidx (fun _ => 0)
  have hw : ∀ θ, jointWeight pool θ idx = jointWeight pool θ₀ idx := by
    intro θ
    simp only [jointWeight, map_list_prod, List.map_map]
    congr 1
    apply List.map_congr_left
    intro p hm
    exact hs.weights p hm _ θ
  simp only [hw]
  refine contDiffAt_const.mul (ContDiffAt.mul ?_ (hs.cost k hks _))
  refine ContDiffAt.exp ?_
  unfold logRatio
  apply contDiffAt_list_sum
  intro d hd
  have hin : InPlates d (assign pool idx (fun _ => 0)) := by
    intro p hpd
    obtain ⟨q, hq, e1, e2⟩ := hp.covers d (hk.sub d hd) p hpd
    rw [← e1, ← e2]; exact hv q hq
  obtain ⟨hsup, hne⟩ := hω.mass_ne h0 (hk.sub d hd) hin
  exact ((hs.mass k hks d hd _ _ hsup).log hne).sub contDiffAt_const

/-- C34: the score function is unbiased for derivatives of every order.  The derivatives of order `n` of the
surrogate loss at the current parameters, averaged over the samples, are those of the expected cost. -/
theorem C34_all_orders {hook : UnwrapHook (AD E θ₀)} (hh : PlainHook hook)
    {pool : List (Plate (AD E θ₀))} {prog : List (Decl E V)} (h0 : Program prog θ₀)
    (hp : PoolFor pool prog) {specs : List (CostSpec E V)} (hne : specs ≠ [])
    (hk : ∀ k ∈ specs, k.OK prog θ₀) {n : ℕ} (hs : Smooth pool specs n)
    (hnear : ∀ᶠ θ in 𝓝 θ₀, Program prog θ ∧ ∀ k ∈ specs, ∀ d ∈ k.active, SameSupport d θ₀ θ)
    {run : Draws V → List (STen (AD E θ₀) × List (Sampled (AD E θ₀)))}
    (hrun : ∀ ω, Possible prog θ₀ ω → List.Forall₂ (Realises hook pool prog ω) (run ω) specs) :
    ∃ loss : Draws V → E → ℝ,
      (∀ ω, Possible prog θ₀ ω → ∃ r, surrogateLoss hook (run ω) = .ok r ∧ r.ten.shape = [] ∧
        r.ten.get [] = loss ω ∧ ContDiffAt ℝ n (loss ω) θ₀) ∧
      ∀ ω₀ ρ₀ v, expect prog θ₀ prog (fun ω => iteratedFDeriv ℝ n (loss ω) θ₀ v) ω₀ =
        iteratedFDeriv ℝ n (fun θ => (specs.map (fun k => expectOne (fun d => d.mass θ) prog (k.f θ) ρ₀)).sum)
          θ₀ v := by
  classical
  have : Nonempty (STen (AD E θ₀)) := ⟨⟨Ten.scalar 0, [], 0⟩⟩
  choose! r h1 h2 h3 h4 using fun ω (hω : Possible prog θ₀ ω) => runs_spec hh h0 hp hω hne hk (hrun ω hω)
  have hloss : ∀ ω, Possible prog θ₀ ω →
      (r ω).ten.get [] =ᶠ[𝓝 θ₀] fun θ => (specs.map (fun k => runValue pool prog ω k θ)).sum := by
    intro ω hω
    filter_upwards [hnear] with θ hθ
    exact h4 ω hω θ hθ.2
  have hsm : ∀ ω, Possible prog θ₀ ω → ContDiffAt ℝ n ((r ω).ten.get []) θ₀ := by
    intro ω hω
    refine ContDiffAt.congr_of_eventuallyEq ?_ (hloss ω hω)
    exact contDiffAt_list_sum _ _ _ (fun k hks => runValue_smooth h0 hp hs hks (hk k hks) hω)
  refine ⟨fun ω => (r ω).ten.get [], fun ω hω => ⟨r ω, h1 ω hω, h3 ω hω, rfl, hsm ω hω⟩, ?_⟩
  intro ω₀ ρ₀ v
  obtain ⟨l, l1, l2⟩ := expect_finite h0 ω₀
  rw [l1]
  have hexp : (fun θ => (specs.map (fun k => expectOne (fun d => d.mass θ) prog (k.f θ) ρ₀)).sum) =ᶠ[𝓝 θ₀]
      fun θ => (l.map (fun p => p.1 * (r p.2).ten.get [] θ)).sum := by
    filter_upwards [hnear] with θ hθ
    have e1 := l1 (fun ω => (specs.map (fun k => runValue pool prog ω k θ)).sum)
    rw [expect_list_sum] at e1
    have e2 : specs.map (fun k => expect prog θ₀ prog (fun ω => runValue pool prog ω k θ) ω₀) =
        specs.map (fun k => expectOne (fun d => d.mass θ) prog (k.f θ) ρ₀) :=
      List.map_congr_left (fun k hks => expect_runValue h0 hp (hk k hks) hθ.1 (hθ.2 k hks) ω₀ ρ₀)
    rw [e2] at e1
    rw [e1]
    congr 1
    apply List.map_congr_left
    intro p hp'
    rw [h4 p.2 (l2 p hp') θ hθ.2]
  rw [(hexp.iteratedFDeriv ℝ n).self_of_nhds,
    iteratedFDeriv_list_sum l (fun p θ => p.1 * (r p.2).ten.get [] θ) θ₀
      (fun p hp' => contDiffAt_const.mul (hsm p.2 (l2 p hp')))]
  have hlin : ∀ l' : List (ℝ × Draws V), (∀ p ∈ l', Possible prog θ₀ p.2) →
      (l'.map (fun p => p.1 * iteratedFDeriv ℝ n ((r p.2).ten.get []) θ₀ v)).sum =
      (l'.map (fun p => iteratedFDeriv ℝ n (fun θ => p.1 * (r p.2).ten.get [] θ) θ₀)).sum v := by
    intro l' hl'
    induction l' with
    | nil => rfl
    | cons p l' ih =>
      simp only [List.map_cons, List.sum_cons]
      rw [ih (fun q hq => hl' q (List.mem_cons_of_mem _ hq)), add_apply]
      congr 1
      have := iteratedFDeriv_const_smul_apply' (a := p.1) (hsm p.2 (hl' p (by simp)))
      simp only [smul_eq_mul] at this
      rw [this, smul_apply, smul_eq_mul]
  exact hlin l l2

end orders

end Storch
