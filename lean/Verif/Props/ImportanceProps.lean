import Verif.Lemmas.ImportanceLemmas
import Verif.Lemmas.ImportanceRun

/-!
# C40: importance sampling is unbiased, for derivatives of every order

`Verif.Model.Expectation` has the program that draws the random variables; here they are drawn from proposals `q`.
-/

namespace Storch

section
variable {E V : Type _} {θ₀ : E}

/-- The plates of a run in which `ω` was drawn: those of a variable of the program are weighted with `p / (n q)`, the others
with `1 / n`; `dims` are their names and sizes. -/
structure WeightedPool (pool : List (Plate (AD E θ₀))) (dims : List (String × Nat)) (prog : List (Decl E V))
    (q : Decl E V → (String → V) → V → ℝ) (ω : Draws V) : Prop where
  ok : PoolOK pool
  weights : Weights pool
  sizes : pool.map (fun p => (p.name, p.n)) = dims
  sampled : ∀ p ∈ pool, ∀ d ∈ prog, p.name = d.name → ∀ ι, Valid pool ι → ∀ θ, p.weightAt id ι θ =
    d.mass θ₀ (trajectory prog ω ι) (trajectory prog ω ι d.name) /
      (p.n * q d (trajectory prog ω ι) (trajectory prog ω ι d.name))
  others : ∀ p ∈ pool, p.name ∉ prog.map Decl.name → ∀ ι, Valid pool ι → ∀ θ, p.weightAt id ι θ = 1 / p.n

/-- The plates of the cost and of the stochastic tensors above it are those named in `S`. -/
def OverPlates (pool : List (Plate (AD E θ₀))) (c : STen (AD E θ₀) × List (Sampled (AD E θ₀))) (S : List String) : Prop :=
  ∀ p ∈ pool, p.name ∈ S ↔ p ∈ c.1.plates ∨ ∃ s ∈ c.2, p ∈ s.tensor.plates

/-- The cost is computed from variables whose plates are among those named in `S`. -/
structure PlatesOf (prog : List (Decl E V)) (k : CostSpec E V) (S : List String) : Prop where
  active : ∀ d ∈ k.active, d.name ∈ S
  anc : ∀ s ∈ k.anc, s ∈ S
  closed : ∀ d ∈ prog, d.name ∈ S → ∀ s ∈ d.deps, s ∈ S

/-- The proposals have the support of the distributions. -/
def Covers' (prog : List (Decl E V)) (q : Decl E V → (String → V) → V → ℝ) (θ₀ : E) : Prop :=
  ∀ d ∈ prog, ∀ ρ, ∀ v ∈ d.support, q d ρ v = 0 ↔ d.mass θ₀ ρ v = 0

/-- The surrogate loss of one cost in a run. -/
theorem Realises.weighted {hook : UnwrapHook (AD E θ₀)} (hh : PlainHook hook) {pool : List (Plate (AD E θ₀))}
    {dims : List (String × Nat)} {prog : List (Decl E V)} {q : Decl E V → (String → V) → V → ℝ} (h0 : Program prog θ₀)
    (hq : Program (proposals q prog) θ₀) {ω : Draws V} (hp : WeightedPool pool dims prog q ω)
    (hpos : ∀ p ∈ dims, 1 ≤ p.2) (hdim : ∀ d ∈ prog, ∀ p ∈ d.idx, p ∈ dims)
    (hvar : ∀ d ∈ prog, d.name ∈ dims.map Prod.fst) (hcov : Covers' prog q θ₀) (hω : Possible (proposals q prog) θ₀ ω)
    {c : STen (AD E θ₀) × List (Sampled (AD E θ₀))} {k : CostSpec E V} {S : List String}
    (hk : k.OK prog θ₀) (hS : OverPlates pool c S) (h : Realises hook pool prog ω c k) :
    ∃ ests, CostContributes hook pool c (c.1, ests) ∧ (∀ e ∈ ests, e.cv = none) ∧
      ∀ θ, (∀ d ∈ k.active, SameSupport d θ₀ θ) → costTotal pool c.1 ests θ =
        weightedValue (dims.filter (fun p => decide (p.1 ∈ S))) prog q ω k S θ₀ θ := by
  have hin : ∀ ι, Valid pool ι → ∀ d ∈ prog, InPlates d ι := by
    intro ι hι d hd p hpd
    have := hdim d hd p hpd
    rw [← hp.sizes] at this
    obtain ⟨r, hr, rfl⟩ := List.mem_map.1 this
    exact hι r hr
  have hmass : ∀ ι, Valid pool ι → ∀ d ∈ prog, trajectory prog ω ι d.name ∈ d.support ∧
      q d (trajectory prog ω ι) (trajectory prog ω ι d.name) ≠ 0 ∧
      d.mass θ₀ (trajectory prog ω ι) (trajectory prog ω ι d.name) ≠ 0 := by
    intro ι hι d hd
    have := hω.mass_ne hq (List.mem_map_of_mem (f := Decl.proposed q) hd) (ι := ι) (hin ι hι d hd)
    rw [trajectory_proposals] at this
    exact ⟨this.1, this.2, fun e => this.2 ((hcov d hd _ _ this.1).2 e)⟩
  -- what the estimators contribute
  have key : ∀ {act : List (Decl E V)} {ss : List (Sampled (AD E θ₀))}, (∀ d ∈ act, d ∈ prog) →
      List.Forall₂ (Scores hook pool prog ω) act ss →
      ∃ ests, List.Forall₂ (Contributes hook pool c.1) ss ests ∧ (∀ e ∈ ests, e.cv = none) ∧
        (∀ p ∈ pool, p.name ∈ ests.flatMap Est.names ↔ ∃ s ∈ ss, p ∈ s.tensor.plates) ∧
        ∀ θ, (∀ d ∈ act, SameSupport d θ₀ θ) → ∀ ι, Valid pool ι →
          (List.map (fun e : Est (AD E θ₀) => e.lp ι) ests).sum θ -
            (List.map (fun e : Est (AD E θ₀) => e.lp ι) ests).sum θ₀ = logRatio act θ θ₀ (trajectory prog ω ι) := by
    intro act ss hact hs
    induction hs with
    | nil => exact ⟨[], .nil, by simp, by simp, fun θ _ ι _ => by simp [logRatio]⟩
    | @cons d s act ss hd _ ih =>
      obtain ⟨ests, i1, i2, i3, i4⟩ := ih (fun x hx => hact x (List.mem_cons_of_mem _ hx))
      obtain ⟨t, logProb, es, G, inv, n, name, rfl, ht, hl, hval⟩ := hd
      refine ⟨⟨t.plates.map Plate.name, sumEvent es G, none⟩ :: ests, .cons
        (score_contributes_any hh hp.ok hp.weights h.cost h.nested ht hl inv n name) i1, ?_, ?_, ?_⟩
      · intro e he
        rcases List.mem_cons.1 he with rfl | he
        · rfl
        · exact i2 e he
      · intro p hpp
        rw [List.flatMap_cons, List.mem_append, i3 p hpp]
        simp only [List.mem_cons, exists_eq_or_imp, scoreSampled]
        refine or_congr ⟨fun hm => ?_, fun hm => List.mem_map_of_mem hm⟩ Iff.rfl
        obtain ⟨r, hr, he⟩ := List.mem_map.1 hm
        exact pool_eq hp.ok (ht.sub r hr) hpp he ▸ hr
      · intro θ hss ι hι
        have i5 := i4 θ (fun x hx => hss x (List.mem_cons_of_mem _ hx)) ι hι
        obtain ⟨hsup, _, hne⟩ := hmass ι hι d (hact d (by simp))
        have hne' : d.mass θ (trajectory prog ω ι) (trajectory prog ω ι d.name) ≠ 0 := by
          rcases hss d (by simp) (trajectory prog ω ι) _ hsup with h' | h'
          · exact h'.2.ne'
          · exact absurd h'.1 hne
        simp only [List.map_cons, List.sum_cons, AD.add_apply, logRatio]
        rw [hval ι hι θ hne', hval ι hι θ₀ hne]
        rw [logRatio] at i5
        rw [← i5]
        ring
  obtain ⟨ests, e1, e2, e3, e4⟩ := key hk.sub h.scores
  refine ⟨ests, ⟨rfl, h.cost, e1⟩, e2, ?_⟩
  intro θ hss
  have hnames : named pool (ests.flatMap Est.names ++ c.1.plates.map Plate.name) =
      pool.filter (fun p => decide (p.name ∈ S)) := by
    apply List.filter_congr
    intro p hpp
    rw [decide_eq_decide, List.mem_append, e3 p hpp, hS p hpp, or_comm]
    refine or_congr ⟨fun hm => ?_, fun hm => List.mem_map_of_mem hm⟩ Iff.rfl
    obtain ⟨r, hr, he⟩ := List.mem_map.1 hm
    exact pool_eq hp.ok (h.cost.scalar.sub r hr) hpp he ▸ hr
  set ps := pool.filter (fun p => decide (p.name ∈ S)) with hps
  have hpsub : ∀ p ∈ ps, p ∈ pool := fun p hm => (List.mem_filter.1 hm).1
  have hdims : ps.map (fun p => (p.name, p.n)) = dims.filter (fun p => decide (p.1 ∈ S)) := by
    rw [← hp.sizes, List.filter_map]
    rfl
  have hnd : (ps.map Plate.name).Nodup := hp.ok.names.sublist (List.filter_sublist.map _)
  rw [costTotal, cvTotal_none pool e2, zero_add, boxTotal]
  simp only [hnames]
  rw [total_eval, weightedValue, ← hdims]
  simp only [List.map_map, Function.comp_def]
  congr 1
  apply List.map_congr_left
  intro idx hidx
  have hvs := assign_valid hnd hidx (fun _ => 0)
  have hv : Valid pool (assign ps idx (fun _ => 0)) := by
    intro p hpp
    by_cases hm : p.name ∈ S
    · exact hvs p (List.mem_filter.2 ⟨hpp, by simpa using hm⟩)
    · rw [assign_of_notMem ps idx _ p.name (by
        intro hm'
        obtain ⟨r, hr, he⟩ := List.mem_map.1 hm'
        exact hm (he ▸ by simpa using (List.mem_filter.1 hr).2))]
      have := hpos (p.name, p.n) (by rw [← hp.sizes]; exact List.mem_map_of_mem hpp)
      exact this
  have hbox : ∀ (l : AD E θ₀) θ, boxElt l θ = Real.exp (l θ - l θ₀) := fun _ _ => rfl
  rw [AD.mul_apply, hbox]
  rw [e4 θ hss _ hv, h.value _ hv, ← assign_eq_posOf hnd hidx]
  refine Eq.trans ?_ (mul_assoc _ _ _)
  congr 1
  -- the weights
  rw [jointWeight, map_list_prod, List.map_map]
  set ρ := trajectory prog ω (assign ps idx fun _ => 0) with hρ
  have hmem : ∀ d ∈ prog, d.name ∈ S ↔ d.name ∈ ps.map Plate.name := by
    intro d hd
    constructor
    · intro hm
      have := hvar d hd
      rw [← hp.sizes, List.map_map] at this
      obtain ⟨r, hr, he⟩ := List.mem_map.1 this
      exact List.mem_map.2 ⟨r, List.mem_filter.2 ⟨hr, by simpa [show r.name = d.name from he] using hm⟩, he⟩
    · intro hm
      obtain ⟨r, hr, he⟩ := List.mem_map.1 hm
      exact he ▸ by simpa using (List.mem_filter.1 hr).2
  have hprod : (prog.map (fun d => if d.name ∈ S then d.mass θ₀ ρ (ρ d.name) / q d ρ (ρ d.name) else 1)).prod =
      ((ps.map Plate.name).map (fun s => (prog.find? (fun d => d.name == s)).elim 1
        (fun d => d.mass θ₀ ρ (ρ d.name) / q d ρ (ρ d.name)))).prod := by
    rw [prod_find prog h0.names (fun d => d.mass θ₀ ρ (ρ d.name) / q d ρ (ρ d.name)) _ hnd]
    congr 1
    apply List.map_congr_left
    intro d hd
    simp only [hmem d hd]
  rw [hprod, List.map_map, ← List.prod_map_mul]
  congr 1
  apply List.map_congr_left
  intro p hpm
  simp only [Function.comp, AD.eval_apply]
  cases hf : prog.find? (fun d => d.name == p.name) with
  | none =>
    rw [hp.others p (hpsub p hpm) ?_ _ hv, Option.elim_none, mul_one]
    intro hm
    obtain ⟨d, hd, he⟩ := List.mem_map.1 hm
    exact absurd (beq_iff_eq.2 he) (by simpa using List.find?_eq_none.1 hf d hd)
  | some d =>
    have hd := List.mem_of_find?_eq_some hf
    have he : d.name = p.name := by simpa using List.find?_some hf
    rw [hp.sampled p (hpsub p hpm) d hd he.symm _ hv, ← hρ, Option.elim_some, one_div, div_mul_eq_div_div]
    ring


theorem filter_positions {prog : List (Decl E V)} {dims : List (String × Nat)} (hnd : (dims.map Prod.fst).Nodup)
    (hpos : ∀ p ∈ dims, 1 ≤ p.2) (hdim : ∀ d ∈ prog, ∀ p ∈ d.idx, p ∈ dims) (f : String × Nat → Bool) :
    ∀ idx ∈ allIdx ((dims.filter f).map Prod.snd), ∀ d ∈ prog, InPlates d (posOf (dims.filter f) idx) := by
  intro idx hidx d hd p hp
  have hm := hdim d hd p hp
  by_cases hf : f p = true
  · have hn : ((dims.filter f).map Prod.fst).Nodup := hnd.sublist (List.filter_sublist.map _)
    have hmem : p ∈ dims.filter f := List.mem_filter.2 ⟨hm, hf⟩
    clear hm hp hd hdim hpos hnd hf
    have hb := mem_allIdx.1 hidx
    clear hidx
    generalize dims.filter f = l at hn hmem hb ⊢
    induction l generalizing idx with
    | nil => simp at hmem
    | cons x xs ih =>
      obtain ⟨s, m⟩ := x
      cases idx with
      | nil => cases hb
      | cons k ks =>
        rw [List.map_cons] at hb
        cases hb with
        | cons h1 h2 =>
          rw [List.map_cons, List.nodup_cons] at hn
          rw [posOf]
          rcases List.mem_cons.1 hmem with rfl | hmem
          · rw [if_pos rfl]; exact h1
          · rw [if_neg (fun e : p.1 = s => hn.1 (e ▸ List.mem_map.2 ⟨p, hmem, rfl⟩))]
            exact ih ks hn.2 hmem h2
  · rw [posOf_notMem]
    · exact hpos p hm
    · intro hm'
      obtain ⟨x, hx, he⟩ := List.mem_map.1 hm'
      have hx' := List.mem_filter.1 hx
      have : x = p := List.inj_on_of_nodup_map hnd hx'.1 hm he
      exact hf (this ▸ hx'.2)

/-- All costs of a run. -/
theorem weighted_runs {hook : UnwrapHook (AD E θ₀)} (hh : PlainHook hook) {pool : List (Plate (AD E θ₀))}
    {dims : List (String × Nat)} {prog : List (Decl E V)} {q : Decl E V → (String → V) → V → ℝ} (h0 : Program prog θ₀)
    (hq : Program (proposals q prog) θ₀) {ω : Draws V} (hp : WeightedPool pool dims prog q ω)
    (hpos : ∀ p ∈ dims, 1 ≤ p.2) (hdim : ∀ d ∈ prog, ∀ p ∈ d.idx, p ∈ dims)
    (hvar : ∀ d ∈ prog, d.name ∈ dims.map Prod.fst) (hcov : Covers' prog q θ₀) (hω : Possible (proposals q prog) θ₀ ω)
    {costs : List (STen (AD E θ₀) × List (Sampled (AD E θ₀)))} {specs : List (CostSpec E V × List String)}
    (hne : specs ≠ []) (hk : ∀ k ∈ specs, k.1.OK prog θ₀)
    (h : List.Forall₂ (fun c k => Realises hook pool prog ω c k.1 ∧ OverPlates pool c k.2) costs specs) :
    ∃ r, surrogateLoss hook costs = .ok r ∧ r.plates = [] ∧ r.ten.shape = [] ∧
      ∀ θ, (∀ k ∈ specs, ∀ d ∈ k.1.active, SameSupport d θ₀ θ) → r.ten.get [] θ =
        (specs.map (fun k => weightedValue (dims.filter (fun p => decide (p.1 ∈ k.2))) prog q ω k.1 k.2 θ₀ θ)).sum := by
  have hall : ∃ es, List.Forall₂ (CostContributes hook pool) costs es ∧ (∀ x ∈ es, ∀ e ∈ x.2, e.cv = none) ∧
      ∀ θ, (∀ k ∈ specs, ∀ d ∈ k.1.active, SameSupport d θ₀ θ) → lossTotal pool es θ =
        (specs.map (fun k => weightedValue (dims.filter (fun p => decide (p.1 ∈ k.2))) prog q ω k.1 k.2 θ₀ θ)).sum := by
    clear hne
    induction h with
    | nil => exact ⟨[], .nil, by simp, fun _ _ => rfl⟩
    | @cons c k cs ks hc _ ih =>
      obtain ⟨es, h1, h2, h3⟩ := ih (fun x hx => hk x (List.mem_cons_of_mem _ hx))
      obtain ⟨e, e1, e2, e3⟩ := hc.1.weighted hh h0 hq hp hpos hdim hvar hcov hω (hk k (by simp)) hc.2
      refine ⟨(c.1, e) :: es, .cons e1 h1, ?_, ?_⟩
      · intro x hx
        rcases List.mem_cons.1 hx with rfl | hx
        · exact e2
        · exact h2 x hx
      intro θ hss
      simp only [lossTotal, List.map_cons, List.sum_cons, AD.add_apply]
      rw [e3 θ (hss k (by simp))]
      have := h3 θ (fun x hx => hss x (List.mem_cons_of_mem _ hx))
      rw [lossTotal] at this
      rw [this]
  obtain ⟨es, h1, h2, h3⟩ := hall
  have hne' : costs ≠ [] := by
    rintro rfl
    cases h
    exact hne rfl
  obtain ⟨r, r1, r2, r3, r4⟩ := surrogateLoss_any hh hp.ok hp.weights hne' h1
  exact ⟨r, r1, r2, r3, fun θ hss => by rw [r4]; exact h3 θ hss⟩

/-- C40, full claim: importance sampling is unbiased for all proposals that cover the distribution.  Here: if the plates
are weighted with `p / (n q)`, one weight for each sample, and `q` has the support of `p`, then in every run the surrogate
loss can be computed, and its expectation over the samples drawn from the proposals at the current parameters `θ₀`, as a
function of the parameters `θ`, is the sum of the expected costs at `θ`.  Missing: proposals with more outcomes than `p`
(`log_prob` is then infinite and the loss can be NaN), and the weights of samples with event dimensions, for which the claim
is false (`ImportanceCase.C40_refuted`). -/
theorem C40_expected_loss_partial {hook : UnwrapHook (AD E θ₀)} (hh : PlainHook hook)
    {dims : List (String × Nat)} {prog : List (Decl E V)} {q : Decl E V → (String → V) → V → ℝ} (h0 : Program prog θ₀)
    (hq : Program (proposals q prog) θ₀) (hnd : (dims.map Prod.fst).Nodup)
    (hpos : ∀ p ∈ dims, 1 ≤ p.2) (hdim : ∀ d ∈ prog, ∀ p ∈ d.idx, p ∈ dims)
    (hvar : ∀ d ∈ prog, d.name ∈ dims.map Prod.fst) (hcov : Covers' prog q θ₀)
    {specs : List (CostSpec E V × List String)} (hne : specs ≠ []) (hk : ∀ k ∈ specs, k.1.OK prog θ₀)
    (hS : ∀ k ∈ specs, PlatesOf prog k.1 k.2)
    {run : Draws V → List (STen (AD E θ₀) × List (Sampled (AD E θ₀)))}
    (hrun : ∀ ω, Possible (proposals q prog) θ₀ ω → ∃ pool, WeightedPool pool dims prog q ω ∧
      List.Forall₂ (fun c k => Realises hook pool prog ω c k.1 ∧ OverPlates pool c k.2) (run ω) specs) :
    ∃ loss : Draws V → E → ℝ,
      (∀ ω, Possible (proposals q prog) θ₀ ω → ∃ r, surrogateLoss hook (run ω) = .ok r ∧ r.plates = [] ∧
        r.ten.shape = [] ∧ r.ten.get [] = loss ω) ∧
      ∀ θ, Program prog θ → (∀ k ∈ specs, ∀ d ∈ k.1.active, SameSupport d θ₀ θ) → ∀ ω₀ ρ₀,
        expect (proposals q prog) θ₀ (proposals q prog) (fun ω => loss ω θ) ω₀ =
          (specs.map (fun k => expectOne (fun d => d.mass θ) prog (k.1.f θ) ρ₀)).sum := by
  classical
  have : Nonempty (STen (AD E θ₀)) := ⟨⟨Ten.scalar 0, [], 0⟩⟩
  choose! r h1 h2 h3 h4 using fun ω (hω : Possible (proposals q prog) θ₀ ω) =>
    (hrun ω hω).elim (fun _ h => weighted_runs hh h0 hq h.1 hpos hdim hvar hcov hω hne hk h.2)
  refine ⟨fun ω => (r ω).ten.get [], fun ω hω => ⟨r ω, h1 ω hω, h2 ω hω, h3 ω hω, rfl⟩, ?_⟩
  intro θ hθ hss ω₀ ρ₀
  rw [expect_congr hq (fun ω hω => h4 ω hω θ hss), expect_list_sum]
  congr 1
  apply List.map_congr_left
  intro k hks
  exact expect_weightedValue h0 hq hθ (hk k hks) (fun d hd ρ v hv e => (hcov d hd ρ v hv).1 e) (hss k hks)
    (hS k hks).active (hS k hks).anc (hS k hks).closed (fun p hp => hpos p (List.mem_filter.1 hp).1)
    (filter_positions hnd hpos hdim _) ω₀ ρ₀

end

section orders
variable {E V : Type _} [NormedAddCommGroup E] [NormedSpace ℝ E] {θ₀ : E}
open scoped Topology

/-- The probabilities and the cost functions are `n` times continuously differentiable at `θ₀`. -/
structure SmoothSpecs (θ₀ : E) (specs : List (CostSpec E V × List String)) (n : ℕ) : Prop where
  mass : ∀ k ∈ specs, ∀ d ∈ k.1.active, ∀ ρ, ∀ v ∈ d.support, ContDiffAt ℝ n (fun θ => d.mass θ ρ v) θ₀
  cost : ∀ k ∈ specs, ∀ ρ, ContDiffAt ℝ n (fun θ => k.1.f θ ρ) θ₀

theorem weightedValue_smooth {dims : List (String × Nat)} {prog : List (Decl E V)}
    {q : Decl E V → (String → V) → V → ℝ} (hq : Program (proposals q prog) θ₀) (hcov : Covers' prog q θ₀)
    {specs : List (CostSpec E V × List String)} {n : ℕ} (hs : SmoothSpecs θ₀ specs n)
    {k : CostSpec E V × List String} (hks : k ∈ specs) (hk : k.1.OK prog θ₀) {ω : Draws V}
    (hω : Possible (proposals q prog) θ₀ ω)
    (hin : ∀ idx ∈ allIdx (dims.map Prod.snd), ∀ d ∈ prog, InPlates d (posOf dims idx)) :
    ContDiffAt ℝ n (fun θ => weightedValue dims prog q ω k.1 k.2 θ₀ θ) θ₀ := by
  unfold weightedValue
  apply contDiffAt_list_sum
  intro idx hidx
  refine contDiffAt_const.mul (contDiffAt_const.mul (ContDiffAt.mul ?_ (hs.cost k hks _)))
  refine ContDiffAt.exp ?_
  unfold logRatio
  apply contDiffAt_list_sum
  intro d hd
  have hdp := hk.sub d hd
  obtain ⟨hsup, hne⟩ := hω.mass_ne hq (List.mem_map_of_mem (f := Decl.proposed q) hdp) (hin idx hidx d hdp)
  rw [trajectory_proposals] at hsup hne
  exact ((hs.mass k hks d hd _ _ hsup).log (fun e => hne ((hcov d hdp _ _ hsup).2 e))).sub contDiffAt_const

/-- C40: the derivatives of every order of the surrogate loss at the current parameters, averaged over the samples from the
proposals, are those of the expected cost.  The same restrictions as for `C40_expected_loss_partial`. -/
theorem C40_all_orders_partial {hook : UnwrapHook (AD E θ₀)} (hh : PlainHook hook)
    {dims : List (String × Nat)} {prog : List (Decl E V)} {q : Decl E V → (String → V) → V → ℝ} (h0 : Program prog θ₀)
    (hq : Program (proposals q prog) θ₀) (hnd : (dims.map Prod.fst).Nodup)
    (hpos : ∀ p ∈ dims, 1 ≤ p.2) (hdim : ∀ d ∈ prog, ∀ p ∈ d.idx, p ∈ dims)
    (hvar : ∀ d ∈ prog, d.name ∈ dims.map Prod.fst) (hcov : Covers' prog q θ₀)
    {specs : List (CostSpec E V × List String)} (hne : specs ≠ []) (hk : ∀ k ∈ specs, k.1.OK prog θ₀)
    (hS : ∀ k ∈ specs, PlatesOf prog k.1 k.2) {n : ℕ} (hs : SmoothSpecs θ₀ specs n)
    (hnear : ∀ᶠ θ in 𝓝 θ₀, Program prog θ ∧ ∀ k ∈ specs, ∀ d ∈ k.1.active, SameSupport d θ₀ θ)
    {run : Draws V → List (STen (AD E θ₀) × List (Sampled (AD E θ₀)))}
    (hrun : ∀ ω, Possible (proposals q prog) θ₀ ω → ∃ pool, WeightedPool pool dims prog q ω ∧
      List.Forall₂ (fun c k => Realises hook pool prog ω c k.1 ∧ OverPlates pool c k.2) (run ω) specs) :
    ∃ loss : Draws V → E → ℝ,
      (∀ ω, Possible (proposals q prog) θ₀ ω → ∃ r, surrogateLoss hook (run ω) = .ok r ∧ r.ten.shape = [] ∧
        r.ten.get [] = loss ω ∧ ContDiffAt ℝ n (loss ω) θ₀) ∧
      ∀ ω₀ ρ₀ v, expect (proposals q prog) θ₀ (proposals q prog) (fun ω => iteratedFDeriv ℝ n (loss ω) θ₀ v) ω₀ =
        iteratedFDeriv ℝ n (fun θ => (specs.map (fun k => expectOne (fun d => d.mass θ) prog (k.1.f θ) ρ₀)).sum)
          θ₀ v := by
  classical
  have : Nonempty (STen (AD E θ₀)) := ⟨⟨Ten.scalar 0, [], 0⟩⟩
  choose! r h1 h2 h3 h4 using fun ω (hω : Possible (proposals q prog) θ₀ ω) =>
    (hrun ω hω).elim (fun _ h => weighted_runs hh h0 hq h.1 hpos hdim hvar hcov hω hne hk h.2)
  have hloss : ∀ ω, Possible (proposals q prog) θ₀ ω → (r ω).ten.get [] =ᶠ[𝓝 θ₀] fun θ =>
      (specs.map (fun k => weightedValue (dims.filter (fun p => decide (p.1 ∈ k.2))) prog q ω k.1 k.2 θ₀ θ)).sum := by
    intro ω hω
    filter_upwards [hnear] with θ hθ
    exact h4 ω hω θ hθ.2
  have hsm : ∀ ω, Possible (proposals q prog) θ₀ ω → ContDiffAt ℝ n ((r ω).ten.get []) θ₀ := by
    intro ω hω
    refine ContDiffAt.congr_of_eventuallyEq ?_ (hloss ω hω)
    exact contDiffAt_list_sum _ _ _ (fun k hks => weightedValue_smooth hq hcov hs hks (hk k hks) hω
      (filter_positions hnd hpos hdim _))
  refine ⟨fun ω => (r ω).ten.get [], fun ω hω => ⟨r ω, h1 ω hω, h3 ω hω, rfl, hsm ω hω⟩, ?_⟩
  intro ω₀ ρ₀ v
  obtain ⟨l, l1, l2⟩ := expect_finite hq ω₀
  rw [l1]
  have hexp : (fun θ => (specs.map (fun k => expectOne (fun d => d.mass θ) prog (k.1.f θ) ρ₀)).sum) =ᶠ[𝓝 θ₀]
      fun θ => (l.map (fun p => p.1 * (r p.2).ten.get [] θ)).sum := by
    filter_upwards [hnear] with θ hθ
    have e1 := l1 (fun ω => (specs.map (fun k =>
      weightedValue (dims.filter (fun p => decide (p.1 ∈ k.2))) prog q ω k.1 k.2 θ₀ θ)).sum)
    rw [expect_list_sum] at e1
    have e2 : specs.map (fun k => expect (proposals q prog) θ₀ (proposals q prog) (fun ω =>
        weightedValue (dims.filter (fun p => decide (p.1 ∈ k.2))) prog q ω k.1 k.2 θ₀ θ) ω₀) =
        specs.map (fun k => expectOne (fun d => d.mass θ) prog (k.1.f θ) ρ₀) :=
      List.map_congr_left (fun k hks => expect_weightedValue h0 hq hθ.1 (hk k hks)
        (fun d hd ρ v hv e => (hcov d hd ρ v hv).1 e) (hθ.2 k hks) (hS k hks).active (hS k hks).anc (hS k hks).closed
        (fun p hp => hpos p (List.mem_filter.1 hp).1) (filter_positions hnd hpos hdim _) ω₀ ρ₀)
    rw [e2] at e1
    rw [e1]
    congr 1
    apply List.map_congr_left
    intro p hp'
    rw [h4 p.2 (l2 p hp') θ hθ.2]
  rw [(hexp.iteratedFDeriv ℝ n).self_of_nhds,
    iteratedFDeriv_list_sum l (fun p θ => p.1 * (r p.2).ten.get [] θ) θ₀
      (fun p hp' => contDiffAt_const.mul (hsm p.2 (l2 p hp')))]
  have hlin : ∀ l' : List (ℝ × Draws V), (∀ p ∈ l', Possible (proposals q prog) θ₀ p.2) →
      (l'.map (fun p => p.1 * iteratedFDeriv ℝ n ((r p.2).ten.get []) θ₀ v)).sum =
      (l'.map (fun p => iteratedFDeriv ℝ n (fun θ => p.1 * (r p.2).ten.get [] θ) θ₀)).sum v := by
    intro l' hl'
    induction l' with
    | nil => rfl
    | cons p l' ih =>
      simp only [List.map_cons, List.sum_cons]
      rw [ih (fun q hq => hl' q (List.mem_cons_of_mem _ hq)), add_apply]
      congr 1
      have := iteratedFDeriv_const_smul_apply' (a := p.1) (hsm p.2 (hl' p (by simp)))
      simp only [smul_eq_mul] at this
      rw [this, smul_apply, smul_eq_mul]
  exact hlin l l2

end orders

section library
variable {E : Type _} {θ₀ : E}
open scoped Topology

theorem importanceCosts_spec {hook : UnwrapHook (AD E θ₀)} (hh : PlainHook hook) {x : STen (AD E θ₀)} (h : Proper x)
    (he : x.eventShape = []) (s : Sampled (AD E θ₀)) (fs : List (E → ℝ → ℝ)) :
    ∃ cs, importanceCosts hook x s fs = .ok cs ∧ List.Forall₂ (fun c f => Proper c.1 ∧ c.1.plates = x.plates ∧
      c.1.eventShape = [] ∧ c.2 = [s] ∧ ∀ ι θ, c.1.sample ι [] θ = f θ (x.sample ι [] θ)) cs fs := by
  induction fs with
  | nil => exact ⟨[], rfl, .nil⟩
  | cons f fs ih =>
    obtain ⟨cs, c1, c2⟩ := ih
    obtain ⟨r, r1, r2, r3, r4, r5⟩ := opSt_unop hh (liftFn (fun θ xs => f θ (xs.headD 0))) h
    refine ⟨(r, [s]) :: cs, ?_, .cons ⟨r2, r3, by rw [r4, he], rfl, ?_⟩ c2⟩
    · rw [importanceCosts, r1]
      simp only [c1]
    · intro ι θ
      rw [r5 ι [] (by rw [he]; exact .nil)]
      rfl

/-- The draws that the proposal can give. -/
theorem one_possible {name : String} {n : Nat} {support : Finset ℝ} {p : E → ℝ → ℝ} {q : ℝ → ℝ} (hq0 : ∀ v ∈ support, 0 < q v)
    (ω : Draws ℝ) : Possible (proposals (fun _ _ v => q v) [oneDecl name n support p]) θ₀ ω ↔ ∀ i < n, ω name [i] ∈ support := by
  constructor
  · intro h i hi
    exact (h (Decl.proposed (fun _ _ v => q v) (oneDecl name n support p)) (by simp) [i] (mem_allIdx.2 (.cons hi .nil))).1
  · intro h e he
    simp only [proposals, List.map_cons, List.map_nil, List.mem_singleton] at he
    subst he
    intro k hk
    obtain ⟨i, l, h1, h2, rfl⟩ := List.forall₂_cons_right_iff.1 (mem_allIdx.1 hk)
    rw [List.forall₂_nil_right_iff.1 h2]
    exact ⟨h i h1, (hq0 _ (h i h1)).ne'⟩

theorem one_specs_ok {name : String} {n : Nat} {support : Finset ℝ} {p : E → ℝ → ℝ} {costs : List (E → ℝ → ℝ)} :
    ∀ k ∈ costs.map (fun f => ((⟨fun θ ρ => f θ (ρ name), [oneDecl name n support p], [name]⟩ : CostSpec E ℝ), [name])),
      k.1.OK [oneDecl name n support p] θ₀ := by
  intro k hks
  obtain ⟨f, _, rfl⟩ := List.mem_map.1 hks
  refine ⟨by simp, by simp, by simp [oneDecl], ?_, ?_, by simp⟩
  · intro e he _ s hs
    rw [List.mem_singleton.1 he] at hs
    cases hs
  · intro θ ρ ρ' h
    simp only
    rw [h name (by simp)]

theorem one_specs_plates {name : String} {n : Nat} {support : Finset ℝ} {p : E → ℝ → ℝ} {costs : List (E → ℝ → ℝ)} :
    ∀ k ∈ costs.map (fun f => ((⟨fun θ ρ => f θ (ρ name), [oneDecl name n support p], [name]⟩ : CostSpec E ℝ), [name])),
      PlatesOf [oneDecl name n support p] k.1 k.2 := by
  intro k hks
  obtain ⟨f, _, rfl⟩ := List.mem_map.1 hks
  refine ⟨by simp [oneDecl], by simp, ?_⟩
  intro e he _ s hs
  rw [List.mem_singleton.1 he] at hs
  cases hs

/-- What a run with importance sampling registers, as a case of `C40_expected_loss_partial`. -/
theorem importance_realises {hook : UnwrapHook (AD E θ₀)} (hh : PlainHook hook) (inv : Nat → AD E θ₀) (name : String)
    {n : Nat} (hn : 2 ≤ n) {support : Finset ℝ} {p : E → ℝ → ℝ} {q : ℝ → ℝ} (hp0 : ∀ v ∈ support, 0 < p θ₀ v)
    (hq0 : ∀ v ∈ support, 0 < q v) (costs : List (E → ℝ → ℝ)) {ω : Draws ℝ} (hω : ∀ i < n, ω name [i] ∈ support) :
    ∃ cs, importanceRegister hook inv name n p q costs (ω name) = .ok cs ∧
      ∃ pool, WeightedPool pool [(name, n)] [oneDecl name n support p] (fun _ _ v => q v) ω ∧
        List.Forall₂ (fun c k => Realises hook pool [oneDecl name n support p] ω c k.1 ∧ OverPlates pool c k.2) cs
          (costs.map (fun f => ((⟨fun θ ρ => f θ (ρ name), [oneDecl name n support p], [name]⟩ : CostSpec E ℝ), [name]))) := by
  obtain ⟨x, plate, x1, x2⟩ := importance_one hh inv name hn p q (ω name)
  obtain ⟨cs, c1, c2⟩ := importanceCosts_spec hh x2.proper x2.scalar
    (scoreSampled hook inv (logOf hook p) n name none x) costs
  refine ⟨cs, by rw [importanceRegister, x1]; exact c1, [plate], ?_, ?_⟩
  · refine ⟨⟨by simp, ?_, ?_⟩, ?_, by simp [x2.called, x2.size], ?_, ?_⟩
    · intro r hr
      exact x2.proper.plain r (by rw [x2.over]; exact hr)
    · intro s hs
      have key : ∀ a b, ¬ ParentOf [plate] a b := by
        rintro a b ⟨r, hr, _, r', hr', _⟩
        rw [List.mem_singleton.1 hr, x2.parents] at hr'
        cases hr'
      cases hs with
      | single h => exact key _ _ h
      | tail _ h => exact key _ _ h
    · intro r hr
      rw [List.mem_singleton.1 hr]
      exact x2.ok
    · intro r hr e he _ ι hι θ
      rw [List.mem_singleton.1 hr, List.mem_singleton.1 he, x2.weight, x2.size,
        show (oneDecl name n support p).name = name from rfl, one_trajectory]
      have hm : ω name [ι name] ∈ support := by
        apply hω
        have := hι plate (by simp)
        rwa [x2.called, x2.size] at this
      rw [Real.exp_log (hp0 _ hm), Real.exp_log (hq0 _ hm)]
      rfl
    · intro r hr hno
      rw [List.mem_singleton.1 hr, x2.called] at hno
      simp [oneDecl] at hno
  · rw [List.forall₂_map_right_iff]
    refine c2.imp ?_
    rintro c f ⟨e1, e2, e3, e4, e5⟩
    have hcl : ∀ ps : List (Plate (AD E θ₀)), ps = [plate] → ParentClosed ps := by
      rintro ps rfl r hr r' hr'
      rw [List.mem_singleton.1 hr, x2.parents] at hr'
      cases hr'
    refine ⟨⟨⟨⟨e1.wf, e3, ?_⟩, ?_⟩, ?_, ?_, ?_⟩, ?_⟩
    · rw [e2, x2.over]; exact fun r hr => hr
    · exact hcl _ (by rw [e2, x2.over])
    · intro r hr
      left
      intro r' hr'
      have := (List.mem_filter.1 hr).1
      rw [e2, x2.over, List.mem_singleton] at this
      rw [this, x2.parents] at hr'
      cases hr'
    · intro ι _ θ
      show c.1.sample ι [] θ = f θ (trajectory [oneDecl name n support p] ω ι name)
      rw [e5, x2.val, one_trajectory]
    · rw [e4]
      refine .cons ⟨x, logOf hook p, [], fun ι _ θ => Real.log (p θ (x.sample ι [] θ)), inv, n, name, rfl,
        ⟨x2.proper.wf, by rw [x2.over]; exact fun r hr => hr, hcl _ x2.over⟩, ?_, ?_⟩ .nil
      · intro y hy
        have hyp : Proper y := ⟨hy.wf, fun r hr => x2.proper.plain r ((hy.plates r).1 hr)⟩
        obtain ⟨l, l1, l2, l3, l4, l5⟩ := opSt_unop hh (fun xs θ => Real.log (p θ (xs.headD 0 θ))) hyp
        have hye : y.eventShape = [] := by rw [hy.event, x2.scalar]
        refine ⟨l, l1, l2.wf, by rw [l3]; exact hy.plates, by rw [l4, hye], ?_⟩
        intro ι e hb
        cases hb
        rw [l5 ι [] (by rw [hye]; exact .nil), hy.values]
        rfl
      · intro ι hι θ _
        have hs : sumEvent [] (fun ι _ θ => Real.log (p θ (x.sample ι [] θ)) : (String → Nat) → List Nat → AD E θ₀) ι =
            fun θ => Real.log (p θ (x.sample ι [] θ)) := by
          rw [sumEvent]
          exact add_zero _
        refine (congrFun hs θ).trans ?_
        rw [x2.val, show (oneDecl name n support p).name = name from rfl, one_trajectory]
        rfl
    · intro r hr
      rw [List.mem_singleton.1 hr, e2, x2.over, x2.called]
      simp

/-- C40 for the library: `n` samples of one variable, drawn with `ImportanceSampling` and scored with `ScoreFunction`.  The
loss can be computed for all samples, and its expectation over independent samples from the proposal is the expected cost
under the distribution, for all parameters `θ`.  Missing: a single sample, event dimensions and plates. -/
theorem C40_library_partial {hook : UnwrapHook (AD E θ₀)} (hh : PlainHook hook) (inv : Nat → AD E θ₀) (name : String)
    {n : Nat} (hn : 2 ≤ n) {support : Finset ℝ} {p : E → ℝ → ℝ} {q : ℝ → ℝ}
    (hp0 : ∀ v ∈ support, 0 < p θ₀ v) (hp1 : ∑ v ∈ support, p θ₀ v = 1)
    (hq0 : ∀ v ∈ support, 0 < q v) (hq1 : ∑ v ∈ support, q v = 1) {costs : List (E → ℝ → ℝ)} (hne : costs ≠ []) :
    ∃ loss : (List Nat → ℝ) → E → ℝ,
      (∀ draw, (∀ i < n, draw [i] ∈ support) → ∃ r, importanceRun hook inv name n p q costs draw = .ok r ∧ r.plates = [] ∧
        r.ten.shape = [] ∧ r.ten.get [] = loss draw) ∧
      ∀ θ, (∀ v ∈ support, 0 < p θ v) → ∑ v ∈ support, p θ v = 1 → ∀ x₀,
        expectEntries support (fun _ => q) (allIdx [n]) (fun draw => loss draw θ) x₀ =
          (costs.map (fun f => ∑ v ∈ support, p θ v * f θ v)).sum := by
  set d := oneDecl name n support p with hd
  set q' : Decl E ℝ → (String → ℝ) → ℝ → ℝ := fun _ _ v => q v with hq'
  have h0 : Program [d] θ₀ := oneDecl_program hp1
  have hq : Program (proposals q' [d]) θ₀ := oneDecl_program (p := fun _ => q) hq1
  have hposs : ∀ ω : Draws ℝ, Possible (proposals q' [d]) θ₀ ω ↔ ∀ i < n, ω name [i] ∈ support := one_possible hq0
  set specs : List (CostSpec E ℝ × List String) := costs.map (fun f => (⟨fun θ ρ => f θ (ρ name), [d], [name]⟩, [name]))
    with hspecs
  have hk : ∀ k ∈ specs, k.1.OK [d] θ₀ := one_specs_ok
  have hS : ∀ k ∈ specs, PlatesOf [d] k.1 k.2 := one_specs_plates
  have hreg : ∀ ω : Draws ℝ, Possible (proposals q' [d]) θ₀ ω → ∃ cs,
      importanceRegister hook inv name n p q costs (ω name) = .ok cs ∧
      ∃ pool, WeightedPool pool [(name, n)] [d] q' ω ∧
        List.Forall₂ (fun c k => Realises hook pool [d] ω c k.1 ∧ OverPlates pool c k.2) cs specs :=
    fun ω hω => importance_realises hh inv name hn hp0 hq0 costs ((hposs ω).1 hω)
  obtain ⟨loss, l1, l2⟩ := C40_expected_loss_partial hh h0 hq (dims := [(name, n)]) (by simp) (by simp; omega)
    (by intro e he r hr; rw [List.mem_singleton.1 he] at hr; exact hr)
    (by intro e he; rw [List.mem_singleton.1 he]; simp [hd, oneDecl])
    (by
      intro e he ρ v hv
      rw [List.mem_singleton.1 he] at hv ⊢
      exact iff_of_false (hq0 v hv).ne' (hp0 v hv).ne')
    (specs := specs) (by simpa [hspecs] using hne) hk hS
    (run := fun ω => (importanceRegister hook inv name n p q costs (ω name)).toOption.getD []) (by
      intro ω hω
      obtain ⟨cs, c1, c2⟩ := hreg ω hω
      rw [c1]
      exact c2)
  have hloss : ∀ ω, Possible (proposals q' [d]) θ₀ ω →
      ∃ r, importanceRun hook inv name n p q costs (ω name) = .ok r ∧ r.plates = [] ∧ r.ten.shape = [] ∧
        r.ten.get [] = loss ω := by
    intro ω hω
    obtain ⟨cs, c1, _⟩ := hreg ω hω
    obtain ⟨r, r1, r2⟩ := l1 ω hω
    rw [c1] at r1
    exact ⟨r, by rw [importanceRun, c1]; exact r1, r2⟩
  refine ⟨fun draw => loss (fun _ => draw), ?_, ?_⟩
  · intro draw hdraw
    exact hloss (fun _ => draw) ((hposs _).2 hdraw)
  · intro θ hpθ hθ x₀
    have e1 := l2 θ (oneDecl_program hθ) (by
      intro k hks e he ρ v hv
      obtain ⟨f, _, rfl⟩ := List.mem_map.1 hks
      rw [List.mem_singleton.1 he] at hv ⊢
      exact Or.inl ⟨hp0 v hv, hpθ v hv⟩) (fun _ => x₀) (fun _ => 0)
    rw [expect_congr hq (G := fun ω => loss (fun _ => ω name) θ) (by
      intro ω hω
      obtain ⟨r, r1, _, _, r2⟩ := hloss ω hω
      obtain ⟨r', r1', _, _, r2'⟩ := hloss (fun _ => ω name) ((hposs _).2 ((hposs ω).1 hω))
      rw [r1] at r1'
      cases r1'
      rw [← r2, ← r2'])] at e1
    have e2 : (specs.map (fun k => expectOne (fun d => d.mass θ) [d] (k.1.f θ) (fun _ => 0))).sum =
        (costs.map (fun f => ∑ v ∈ support, p θ v * f θ v)).sum := by
      rw [hspecs, List.map_map]
      congr 1
      apply List.map_congr_left
      intro f _
      simp [expectOne, hd, oneDecl]
    rw [← e2, ← e1]
    simp only [proposals, List.map_cons, List.map_nil, expect, Decl.proposed, hd, oneDecl, Function.update_self, hq']

/-- C40 for the library, derivatives: those of the surrogate loss, of every order `m`, averaged over the samples from the
proposal, are those of the expected cost.  The same restrictions as for `C40_library_partial`. -/
theorem C40_library_orders_partial [NormedAddCommGroup E] [NormedSpace ℝ E] {hook : UnwrapHook (AD E θ₀)}
    (hh : PlainHook hook) (inv : Nat → AD E θ₀) (name : String) {n : Nat} (hn : 2 ≤ n) {support : Finset ℝ} {p : E → ℝ → ℝ}
    {q : ℝ → ℝ} (hp0 : ∀ v ∈ support, 0 < p θ₀ v) (hq0 : ∀ v ∈ support, 0 < q v) (hq1 : ∑ v ∈ support, q v = 1)
    {costs : List (E → ℝ → ℝ)} (hne : costs ≠ []) {m : ℕ} (hp1 : ∀ᶠ θ in 𝓝 θ₀, ∑ v ∈ support, p θ v = 1)
    (hps : ∀ v ∈ support, ContDiffAt ℝ m (fun θ => p θ v) θ₀)
    (hcs : ∀ f ∈ costs, ∀ v, ContDiffAt ℝ m (fun θ => f θ v) θ₀) :
    ∃ loss : (List Nat → ℝ) → E → ℝ,
      (∀ draw, (∀ i < n, draw [i] ∈ support) → ∃ r, importanceRun hook inv name n p q costs draw = .ok r ∧
        r.ten.shape = [] ∧ r.ten.get [] = loss draw ∧ ContDiffAt ℝ m (loss draw) θ₀) ∧
      ∀ x₀ u, expectEntries support (fun _ => q) (allIdx [n]) (fun draw => iteratedFDeriv ℝ m (loss draw) θ₀ u) x₀ =
        iteratedFDeriv ℝ m (fun θ => (costs.map (fun f => ∑ v ∈ support, p θ v * f θ v)).sum) θ₀ u := by
  set d := oneDecl name n support p with hd
  set q' : Decl E ℝ → (String → ℝ) → ℝ → ℝ := fun _ _ v => q v with hq'
  have hq : Program (proposals q' [d]) θ₀ := oneDecl_program (p := fun _ => q) hq1
  have hposs : ∀ ω : Draws ℝ, Possible (proposals q' [d]) θ₀ ω ↔ ∀ i < n, ω name [i] ∈ support := one_possible hq0
  set specs : List (CostSpec E ℝ × List String) := costs.map (fun f => (⟨fun θ ρ => f θ (ρ name), [d], [name]⟩, [name]))
    with hspecs
  have hreg : ∀ ω : Draws ℝ, Possible (proposals q' [d]) θ₀ ω → ∃ cs,
      importanceRegister hook inv name n p q costs (ω name) = .ok cs ∧
      ∃ pool, WeightedPool pool [(name, n)] [d] q' ω ∧
        List.Forall₂ (fun c k => Realises hook pool [d] ω c k.1 ∧ OverPlates pool c k.2) cs specs :=
    fun ω hω => importance_realises hh inv name hn hp0 hq0 costs ((hposs ω).1 hω)
  have hpos : ∀ᶠ θ in 𝓝 θ₀, ∀ v ∈ support, 0 < p θ v := by
    rw [Filter.eventually_all_finset]
    intro v hv
    exact (hps v hv).continuousAt.eventually (lt_mem_nhds (hp0 v hv))
  obtain ⟨loss, l1, l2⟩ := C40_all_orders_partial hh (oneDecl_program hp1.self_of_nhds) hq (dims := [(name, n)]) (by simp)
    (by simp; omega)
    (by intro e he r hr; rw [List.mem_singleton.1 he] at hr; exact hr)
    (by intro e he; rw [List.mem_singleton.1 he]; simp [oneDecl])
    (by
      intro e he ρ v hv
      rw [List.mem_singleton.1 he] at hv ⊢
      exact iff_of_false (hq0 v hv).ne' (hp0 v hv).ne')
    (specs := specs) (by simpa [hspecs] using hne) one_specs_ok one_specs_plates (n := m)
    ⟨by
      intro k hks e he ρ v hv
      obtain ⟨f, _, rfl⟩ := List.mem_map.1 hks
      rw [List.mem_singleton.1 he] at hv ⊢
      exact hps v hv, by
      intro k hks ρ
      obtain ⟨f, hf, rfl⟩ := List.mem_map.1 hks
      exact hcs f hf _⟩
    (by
      filter_upwards [hp1, hpos] with θ h1 h2
      refine ⟨oneDecl_program h1, ?_⟩
      intro k hks e he ρ v hv
      obtain ⟨f, _, rfl⟩ := List.mem_map.1 hks
      rw [List.mem_singleton.1 he] at hv ⊢
      exact Or.inl ⟨hp0 v hv, h2 v hv⟩)
    (run := fun ω => (importanceRegister hook inv name n p q costs (ω name)).toOption.getD []) (by
      intro ω hω
      obtain ⟨cs, c1, c2⟩ := hreg ω hω
      rw [c1]
      exact c2)
  have hloss : ∀ ω, Possible (proposals q' [d]) θ₀ ω →
      ∃ r, importanceRun hook inv name n p q costs (ω name) = .ok r ∧ r.ten.shape = [] ∧
        r.ten.get [] = loss ω ∧ ContDiffAt ℝ m (loss ω) θ₀ := by
    intro ω hω
    obtain ⟨cs, c1, _⟩ := hreg ω hω
    obtain ⟨r, r1, r2⟩ := l1 ω hω
    rw [c1] at r1
    exact ⟨r, by rw [importanceRun, c1]; exact r1, r2⟩
  refine ⟨fun draw => loss (fun _ => draw), ?_, ?_⟩
  · intro draw hdraw
    exact hloss (fun _ => draw) ((hposs _).2 hdraw)
  · intro x₀ u
    have e1 := l2 (fun _ => x₀) (fun _ => 0) u
    rw [expect_congr hq (G := fun ω => iteratedFDeriv ℝ m (loss (fun _ => ω name)) θ₀ u) (by
      intro ω hω
      obtain ⟨r, r1, _, r2, _⟩ := hloss ω hω
      obtain ⟨r', r1', _, r2', _⟩ := hloss (fun _ => ω name) ((hposs _).2 ((hposs ω).1 hω))
      rw [r1] at r1'
      cases r1'
      rw [← r2, ← r2'])] at e1
    have e2 : (fun θ => (specs.map (fun k => expectOne (fun d => d.mass θ) [d] (k.1.f θ) (fun _ => 0))).sum) =
        fun θ => (costs.map (fun f => ∑ v ∈ support, p θ v * f θ v)).sum := by
      funext θ
      rw [hspecs, List.map_map]
      congr 1
      apply List.map_congr_left
      intro f _
      simp [expectOne, hd, oneDecl]
    rw [← e2, ← e1]
    simp only [proposals, List.map_cons, List.map_nil, expect, Decl.proposed, hd, oneDecl, Function.update_self, hq']

end library

/-- Two samples, a fair coin and a proposal that prefers heads; the costs are the value and one. -/
example : ∃ loss : (List Nat → ℝ) → ℝ → ℝ,
    (∀ draw, (∀ i < 2, draw [i] ∈ ({0, 1} : Finset ℝ)) → ∃ r,
      importanceRun (θ₀ := (1 / 2 : ℝ)) (fun _ a => .ok a) (fun n => AD.const (1 / n)) "x" 2
        (fun θ v => if v = 1 then θ else 1 - θ) (fun v => if v = 1 then 3 / 4 else 1 / 4) [fun _ v => v, fun _ _ => 1] draw =
          .ok r ∧ r.plates = [] ∧ r.ten.shape = [] ∧ r.ten.get [] = loss draw) ∧
    ∀ θ, 0 < θ → θ < 1 → ∀ x₀, expectEntries {0, 1} (fun _ v => if v = 1 then 3 / 4 else 1 / 4) (allIdx [2])
      (fun draw => loss draw θ) x₀ = θ + 1 := by
  obtain ⟨loss, h1, h2⟩ := C40_library_partial (θ₀ := (1 / 2 : ℝ)) (hook := fun _ a => .ok a) (fun _ _ _ => rfl)
    (fun n => AD.const (1 / n)) "x" (n := 2) le_rfl (support := {0, 1}) (p := fun θ v => if v = 1 then θ else 1 - θ)
    (q := fun v => if v = 1 then 3 / 4 else 1 / 4) (by norm_num) (by norm_num) (by norm_num) (by norm_num)
    (costs := [fun _ v => v, fun _ _ => 1]) (by simp)
  refine ⟨loss, h1, fun θ ht0 ht1 x₀ => ?_⟩
  rw [h2 θ (by simp [ht0, ht1]) (by norm_num) x₀]
  norm_num

/-- A case for `C40_all_orders_partial` and `C40_library_orders_partial`: the average derivatives of the loss, of every order. -/
example (m : ℕ) : ∃ loss : (List Nat → ℝ) → ℝ → ℝ,
    (∀ draw, (∀ i < 2, draw [i] ∈ ({0, 1} : Finset ℝ)) → ∃ r,
      importanceRun (θ₀ := (1 / 2 : ℝ)) (fun _ a => .ok a) (fun n => AD.const (1 / n)) "x" 2
        (fun θ v => if v = 1 then θ else 1 - θ) (fun v => if v = 1 then 3 / 4 else 1 / 4) [fun θ v => θ * v] draw = .ok r ∧
          r.ten.shape = [] ∧ r.ten.get [] = loss draw ∧ ContDiffAt ℝ m (loss draw) (1 / 2)) ∧
    ∀ x₀ u, expectEntries {0, 1} (fun _ v => if v = 1 then 3 / 4 else 1 / 4) (allIdx [2])
      (fun draw => iteratedFDeriv ℝ m (loss draw) (1 / 2) u) x₀ = iteratedFDeriv ℝ m (fun θ => θ ^ 2) (1 / 2) u := by
  obtain ⟨loss, h1, h2⟩ := C40_library_orders_partial (θ₀ := (1 / 2 : ℝ)) (hook := fun _ a => .ok a) (fun _ _ _ => rfl)
    (fun n => AD.const (1 / n)) "x" (n := 2) le_rfl (support := {0, 1}) (p := fun θ v => if v = 1 then θ else 1 - θ)
    (q := fun v => if v = 1 then 3 / 4 else 1 / 4) (by norm_num) (by norm_num) (by norm_num)
    (costs := [fun θ v => θ * v]) (by simp) (m := m) (by simp) (by
      intro v _
      split <;> fun_prop) (by
      intro f hf v
      rw [List.mem_singleton.1 hf]
      fun_prop)
  refine ⟨loss, h1, fun x₀ u => ?_⟩
  rw [h2 x₀ u]
  congr 2
  funext θ
  simp
  ring

/-! ### Counterexamples -/

namespace ImportanceCase

instance : Autograd ℚ := ⟨fun x => (1 / 2) ^ x.num.natAbs, id⟩
instance : ValEq ℚ := ⟨fun a b => decide (a = b), by simp, by simp +contextual [eq_comm], by simp +contextual⟩

def hook : UnwrapHook ℚ := fun _ a => .ok a
def inv (n : Nat) : ℚ := 1 / n

/-- The log-probabilities of fair coins, to the base 2. -/
def logProb (x : STen ℚ) : Except Err (STen ℚ) := opSt hook (fun _ => -1) [x]

/-- `n` samples of fair coins in a tensor of shape `ev`, all heads, with the distribution as its own proposal; the cost is
one.  The surrogate loss. -/
def loss (n : Nat) (ev : List Nat) : Except Err (STen ℚ) :=
  match importance hook inv "x" n [] [] [] (fun k => ⟨k :: ev, fun _ => 1⟩) logProb logProb with
  | .error e => .error e
  | .ok (x, p) =>
    surrogateLoss hook [(⟨⟨[n], fun _ => 1⟩, [p], 1⟩, [scoreSampled hook inv logProb n "x" none x])]

example : (loss 2 []).map (fun r => (r.ten.shape, r.ten.get [])) = .ok ([], 1) := by decide +kernel

/-- C40 is false for samples with event dimensions: the probabilities are not multiplied over the event, so that there is a
weight for each entry and the costs are added once for each of them.  For two coins the loss of the constant cost 1 is 2 for
all samples (the loss looks at them only through their probabilities), and for 3 by 2 coins it is 6. -/
theorem C40_refuted :
    (loss 2 [2]).map (fun r => (r.ten.shape, r.ten.get [])) = .ok ([], 2) ∧
    (loss 2 [3, 2]).map (fun r => (r.ten.shape, r.ten.get [])) = .ok ([], 6) := by decide +kernel

end ImportanceCase

end Storch
