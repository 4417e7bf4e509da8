import Verif.Lemmas.ProgramLemmas

/-!
# C34 for whole programs

Programs that sample with `ScoreFunction` (no baseline) and register costs, run by the modelled library:
`Method.sample`, `MonteCarlo.sample`, the wrapper of torch functions, `surrogate_loss`, the estimator.
-/

namespace Storch

section
variable {E : Type _} {θ₀ : E}

/-- The variables that something computed from `args` depends on. -/
inductive Above (vars : List (ScoreVar E)) (args : List String) : String → Prop
  | arg {s : String} : s ∈ args → Above vars args s
  | step {s : String} {d : ScoreVar E} : d ∈ vars → Above vars args d.name → s ∈ d.args → Above vars args s

/-- No distribution is computed both from variables with one sample and from variables with several.  (The
library raises for some programs without this property: see C55.) -/
def Unmixed (vars : List (ScoreVar E)) : Prop :=
  ∀ d ∈ vars, (∀ d' ∈ vars, Above vars d.args d'.name → 1 < d'.n) ∨
    ∀ d' ∈ vars, Above vars d.args d'.name → d'.n = 1

/-- A cost computed from variables of the program; the walk finds every variable above it whose distribution
depends on the parameters. -/
structure GoodCost (θ₀ : E) (vars : List (ScoreVar E)) (k : ScoreCost E) : Prop where
  nonempty : k.args ≠ []
  args : ∀ s ∈ k.args, s ∈ vars.map ScoreVar.name
  sub : ∀ d ∈ k.walk, d ∈ vars
  nodup : (k.walk.map ScoreVar.name).Nodup
  finds : ∀ d ∈ vars, Above vars k.args d.name → d ∈ k.walk ∨
    ∀ θ xs v, d.prob (d.param θ xs) v = d.prob (d.param θ₀ xs) v

/-- The support of the distribution is the same for two values of the parameters. -/
def ScoreVar.SameSupport (d : ScoreVar E) (θ θ' : E) : Prop :=
  ∀ xs, ∀ v ∈ d.support, (0 < d.prob (d.param θ xs) v ∧ 0 < d.prob (d.param θ' xs) v) ∨
    (d.prob (d.param θ xs) v = 0 ∧ d.prob (d.param θ' xs) v = 0)

/-! ### Lemmas -/

theorem Above.trans {vars : List (ScoreVar E)} {args : List String} {s t : String} (h : Above vars [s] t)
    (hs : Above vars args s) : Above vars args t := by
  induction h with
  | arg hm => rw [List.mem_singleton.1 hm]; exact hs
  | step hd _ ha ih => exact .step hd ih ha

theorem Above.mono {vars vars' : List (ScoreVar E)} (hsub : ∀ d ∈ vars, d ∈ vars') {args : List String}
    {t : String} (h : Above vars args t) : Above vars' args t := by
  induction h with
  | arg hm => exact .arg hm
  | step hd _ ha ih => exact .step (hsub _ hd) ih ha

theorem platesIn_above {inv : Nat → AD E θ₀} {vars : List (ScoreVar E)} (hg : GoodVars vars) {s : String}
    (hs : s ∈ vars.map ScoreVar.name) : ∀ p ∈ platesIn (layout inv vars) s,
      ∃ d ∈ vars, Above vars [s] d.name ∧ p.name = d.name ∧ p.n = d.n := by
  induction vars generalizing s with
  | nil => cases hs
  | cons x ds ih =>
    obtain ⟨g1, g2, g3, g4, g5⟩ := hg
    intro p hp
    by_cases he : x.name = s
    · subst he
      rw [layout, platesIn_cons_eq (e := (x.name, _))] at hp
      rcases List.mem_cons.1 hp with rfl | hp
      · exact ⟨x, by simp, .arg (by simp), rfl, rfl⟩
      · obtain ⟨t, ht, hm⟩ := (((layoutOK inv ds g1).args g3).2 p).1 hp
        obtain ⟨d, hd, h1, h2, h3⟩ := ih g1 (g3 t ht) p hm
        refine ⟨d, List.mem_cons_of_mem _ hd, ?_, h2, h3⟩
        exact (h1.mono (fun _ h => List.mem_cons_of_mem _ h)).trans (.step (d := x) (by simp) (.arg (by simp)) ht)
    · rw [layout, platesIn_cons_ne (e := (x.name, _)) he] at hp
      rcases List.mem_cons.1 hs with h | hs
      · exact absurd h.symm he
      · obtain ⟨d, hd, h1, h2⟩ := ih g1 hs p hp
        exact ⟨d, List.mem_cons_of_mem _ hd, h1.mono (fun _ h => List.mem_cons_of_mem _ h), h2⟩

/-- The parents of a plate belong to the variables above. -/
theorem pool_parents {inv : Nat → AD E θ₀} {vars : List (ScoreVar E)} (hg : GoodVars vars) :
    ∀ p ∈ poolOf inv vars, ∃ d ∈ vars, (p.name = d.name ∧ p.n = d.n) ∧
      ∀ q ∈ p.parents, ∃ d' ∈ vars, Above vars d.args d'.name ∧ q.n = d'.n := by
  induction vars with
  | nil => intro p hp; cases hp
  | cons x ds ih =>
    obtain ⟨g1, g2, g3, g4, g5⟩ := hg
    intro p hp
    rcases List.mem_cons.1 hp with rfl | hp
    · refine ⟨x, by simp, ⟨rfl, rfl⟩, ?_⟩
      intro q hq
      obtain ⟨t, ht, hm⟩ := (((layoutOK inv ds g1).args g3).2 q).1 hq
      obtain ⟨d, hd, h1, h2, h3⟩ := platesIn_above g1 (g3 t ht) q hm
      exact ⟨d, List.mem_cons_of_mem _ hd,
        (h1.mono (fun _ h => List.mem_cons_of_mem _ h)).trans (.arg ht), h3⟩
    · obtain ⟨d, hd, h0, h1⟩ := ih g1 p hp
      refine ⟨d, List.mem_cons_of_mem _ hd, h0, ?_⟩
      intro q hq
      obtain ⟨d', hd', h2, h3⟩ := h1 q hq
      exact ⟨d', List.mem_cons_of_mem _ hd', h2.mono (fun _ h => List.mem_cons_of_mem _ h), h3⟩

theorem Unmixed.nested {inv : Nat → AD E θ₀} {vars : List (ScoreVar E)} (hg : GoodVars vars)
    (hm : Unmixed vars) {ps : List (Plate (AD E θ₀))} (hs : ∀ p ∈ ps, p ∈ poolOf inv vars)
    (hc : ∀ p ∈ ps, ∀ q ∈ p.parents, q ∈ ps) :
    ParentsAllOrNone (ps.filter (fun p => decide (1 < p.n))) := by
  have hl := layoutOK inv vars hg
  intro p hp
  obtain ⟨hp1, hp2⟩ := List.mem_filter.1 hp
  obtain ⟨d, hd, -, hpar⟩ := pool_parents hg p (hs p hp1)
  rcases hm d hd with h | h
  · left
    intro q hq
    obtain ⟨d', hd', ha, hn⟩ := hpar q hq
    exact ⟨q, List.mem_filter.2 ⟨hc p hp1 q hq, by simpa [hn] using h d' hd' ha⟩, Plate.pyEq_refl _⟩
  · right
    have hone : ∀ q ∈ p.parents, q.n = 1 := by
      intro q hq
      obtain ⟨d', hd', ha, hn⟩ := hpar q hq
      rw [hn]; exact h d' hd' ha
    have hname : ∀ q ∈ p.parents, ∀ x ∈ ps.filter (fun p => decide (1 < p.n)), x.name ≠ q.name := by
      intro q hq x hx e
      obtain ⟨hx1, hx2⟩ := List.mem_filter.1 hx
      have := pool_eq hl.pool (hs x hx1) (hs q (hc p hp1 q hq)) e
      subst this
      rw [hone x hq] at hx2
      simp at hx2
    refine ⟨?_, hname⟩
    intro q hq x hx
    have : q ∈ p.parents := by
      have key : ∀ {q p : Plate (AD E θ₀)}, IsAncestor q p → p ∈ poolOf inv vars → q ∈ p.parents := by
        intro q p h
        induction h with
        | parent h' => intro _; exact h'
        | step _ h2 ih => intro hpp; exact (hl.up _ hpp _ h2).2 _ (ih (hl.up _ hpp _ h2).1)
      exact key hq (hs p hp1)
    cases he : x.pyEq q with
    | false => rfl
    | true => exact absurd (Plate.pyEq_name he) (hname q this x hx)

/-- The cost of the statistical model. -/
noncomputable def ScoreCost.spec (inv : Nat → AD E θ₀) (vars : List (ScoreVar E)) (k : ScoreCost E) : CostSpec E ℝ :=
  ⟨fun θ ρ => k.f θ (k.args.map ρ), k.walk.map (fun d => d.decl (platesIn (layout inv vars) d.name)),
    by classical exact (vars.map ScoreVar.name).filter (fun s => decide (Above vars k.args s))⟩

theorem GoodCost.spec {inv : Nat → AD E θ₀} {vars : List (ScoreVar E)} (hg : GoodVars vars) {k : ScoreCost E}
    (hk : GoodCost θ₀ vars k) : (k.spec inv vars).OK (declsOf inv vars) θ₀ := by
  have hanc : ∀ s, s ∈ (k.spec inv vars).anc ↔ s ∈ vars.map ScoreVar.name ∧ Above vars k.args s := by
    intro s
    simp only [ScoreCost.spec, List.mem_filter, decide_eq_true_eq]
  refine ⟨?_, ?_, ?_, ?_, ?_, ?_⟩
  · intro x hx
    obtain ⟨d, hd, rfl⟩ := List.mem_map.1 hx
    exact (mem_declsOf hg).2 ⟨d, hk.sub d hd, rfl⟩
  · simp only [ScoreCost.spec, List.map_map]
    exact hk.nodup
  · intro s hs
    rw [declsOf_names, List.mem_reverse]
    exact ((hanc s).1 hs).1
  · intro x hx hxa s hs
    obtain ⟨d, hd, rfl⟩ := (mem_declsOf hg).1 hx
    exact (hanc s).2 ⟨(hg.earlier hd).1 s hs, .step hd ((hanc _).1 hxa).2 hs⟩
  · intro θ ρ ρ' hagree
    simp only [ScoreCost.spec]
    congr 1
    exact List.map_congr_left (fun s hs => hagree s ((hanc s).2 ⟨hk.args s hs, .arg hs⟩))
  · intro x hx hxa
    obtain ⟨d, hd, rfl⟩ := (mem_declsOf hg).1 hx
    rcases hk.finds d hd ((hanc _).1 hxa).2 with h | h
    · exact Or.inl (List.mem_map_of_mem h)
    · exact Or.inr (fun θ ρ v => h θ _ v)

/-- The log-probability of a sample. -/
theorem EntryOK.logProb {hook : UnwrapHook (AD E θ₀)} (hh : PlainHook hook) {inv : Nat → AD E θ₀}
    {vars : List (ScoreVar E)} (hg : GoodVars vars) {ω : Draws ℝ} {d : ScoreVar E} (hd : d ∈ vars)
    {t : STen (AD E θ₀)} {p : Operand (AD E θ₀)} (h : EntryOK inv vars ω d t p) :
    ∃ G, ParentOK (poolOf inv vars) t ∧ LogProbOK t (logProbOf hook d.prob p) [] G ∧
      ∀ ι θ, sumEvent [] G ι θ = Real.log (d.prob (d.param θ (d.args.map (trajectory (declsOf inv vars) ω ι)))
        (trajectory (declsOf inv vars) ω ι d.name)) := by
  have hl := layoutOK inv vars hg
  have hpl := hl.platesIn_mem (List.mem_map_of_mem hd : d.name ∈ vars.map ScoreVar.name)
  have hsub : ∀ q ∈ t.plates, q ∈ poolOf inv vars := by rw [h.plates]; exact hl.sub _ hpl
  refine ⟨fun ι _ => fun θ => Real.log (d.prob (p.at ι θ) (t.sample ι [] θ)), ⟨h.wf, hsub, ?_⟩, ?_, ?_⟩
  · intro q hq r hr
    rw [h.plates] at hq ⊢
    exact ⟨r, hl.closed _ hpl q hq r hr, Plate.pyEq_refl _⟩
  · intro x hx
    obtain ⟨r, r1, r2, r3, r4, r5⟩ := opCall_scalar hh hl.pool
      (logElt d.prob) (ops := [.st x true, p]) (by
      intro o ho
      simp only [List.mem_cons, List.not_mem_nil, or_false] at ho
      rcases ho with rfl | rfl
      · exact ⟨hx.wf, hx.event.trans h.scalar, fun q hq => hsub q ((hx.plates q).1 hq)⟩
      · exact h.param)
    obtain ⟨lp, rfl⟩ := r5 (by simp [stens])
    refine ⟨lp, ?_, r2.1, ?_, r2.2.1, ?_⟩
    · rw [logProbOf, r1]
    · intro q
      rw [show lp.plates = (Operand.st lp false).plates from rfl, r3 q]
      simp only [List.mem_cons, List.not_mem_nil, or_false, exists_eq_or_imp, exists_eq_left]
      rw [Operand.plates, hx.plates q]
      exact ⟨fun h' => h'.elim id (h.paramSub q), Or.inl⟩
    · intro ι e he
      cases he
      have := r4 ι
      rw [Operand.at, Operand.sample] at this
      rw [this]
      rw [List.map_cons, List.map_cons, List.map_nil, show (Operand.st x true).at ι = x.sample ι [] from rfl,
        hx.values]
      rfl
  · intro ι θ
    rw [show sumEvent (α := AD E θ₀) [] (fun ι _ => fun θ => Real.log (d.prob (p.at ι θ) (t.sample ι [] θ))) ι θ =
      Real.log (d.prob (p.at ι θ) (t.sample ι [] θ)) + 0 from rfl, add_zero, h.paramVal, h.val]

/-- The tensor of a variable scores what was drawn. -/
theorem EntryOK.scores {hook : UnwrapHook (AD E θ₀)} (hh : PlainHook hook) {inv : Nat → AD E θ₀}
    {vars : List (ScoreVar E)} (hg : GoodVars vars) {ω : Draws ℝ} {d : ScoreVar E} (hd : d ∈ vars)
    (hb : d.base = none) {t : STen (AD E θ₀)} {p : Operand (AD E θ₀)} (h : EntryOK inv vars ω d t p) :
    Scores hook (poolOf inv vars) (declsOf inv vars) ω (d.decl (platesIn (layout inv vars) d.name))
      (d.sampled hook inv (t, p)) := by
  obtain ⟨G, g1, g2, g3⟩ := h.logProb hh hg hd
  exact ⟨t, logProbOf hook d.prob p, [], G, inv, d.n, d.name, by rw [ScoreVar.sampled, hb]; rfl, g1, g2,
    fun ι _ θ _ => g3 ι θ⟩

theorem findSampled_ok {hook : UnwrapHook (AD E θ₀)} (hh : PlainHook hook) {inv : Nat → AD E θ₀}
    {vars : List (ScoreVar E)} (hg : GoodVars vars) {ω : Draws ℝ} {env : RunEnv E θ₀}
    (h : EnvOK inv vars ω env) (walk : List (ScoreVar E)) (hw : ∀ d ∈ walk, d ∈ vars)
    (hb : ∀ d ∈ walk, d.base = none) :
    ∃ ss, findSampled hook inv env walk = .ok ss ∧
      List.Forall₂ (Scores hook (poolOf inv vars) (declsOf inv vars) ω)
        (walk.map (fun d => d.decl (platesIn (layout inv vars) d.name))) ss := by
  induction walk with
  | nil => exact ⟨[], rfl, .nil⟩
  | cons d walk ih =>
    obtain ⟨ss, s1, s2⟩ := ih (fun x hx => hw x (List.mem_cons_of_mem _ hx))
      (fun x hx => hb x (List.mem_cons_of_mem _ hx))
    obtain ⟨t, p, e1, e2⟩ := h d (hw d (by simp))
    refine ⟨d.sampled hook inv (t, p) :: ss, ?_, .cons (e2.scores hh hg (hw d (by simp)) (hb d (by simp))) s2⟩
    rw [findSampled, e1]
    simp only [s1]

/-- The cost tensor. -/
theorem ScoreCost.tensor_ok {hook : UnwrapHook (AD E θ₀)} (hh : PlainHook hook) {inv : Nat → AD E θ₀}
    {vars : List (ScoreVar E)} (hg : GoodVars vars) {ω : Draws ℝ} {env : RunEnv E θ₀}
    (h : EnvOK inv vars ω env) {k : ScoreCost E} (hk : GoodCost θ₀ vars k) :
    ∃ ts c, env.get k.args = .ok ts ∧ opCall hook (liftFn k.f) ts = .ok (.st c false) ∧
      c.plates = argPlates (layout inv vars) k.args ∧ ScalarOp (poolOf inv vars) (.st c false) ∧
      (∀ p ∈ c.plates, ∀ q ∈ p.parents, q ∈ c.plates) ∧
      ∀ ι θ, c.sample ι [] θ = k.f θ (k.args.map (trajectory (declsOf inv vars) ω ι)) := by
  have hl := layoutOK inv vars hg
  obtain ⟨ts, t1, t2, t3, t4, t5⟩ := h.get hg hk.args
  obtain ⟨r, r1, r2, r3, r4, r5, r6⟩ := opCall_plates hh hl.pool (liftFn k.f) t2
  obtain ⟨c, rfl⟩ := r6 (t4 hk.nonempty)
  have hps : c.plates = argPlates (layout inv vars) k.args := by
    rw [show c.plates = (Operand.st c false).plates from rfl, r3, callPlates_st, t3, argPlates]
  refine ⟨ts, c, t1, r1, hps, r2, ?_, ?_⟩
  · rw [hps]
    intro p hp q hq
    obtain ⟨s, hs, hms⟩ := ((hl.args hk.args).2 p).1 hp
    exact ((hl.args hk.args).2 q).2 ⟨s, hs, hl.closed _ (hl.platesIn_mem (hk.args s hs)) p hms q hq⟩
  · intro ι θ
    have := r5 ι
    rw [Operand.at, Operand.sample] at this
    rw [this, liftFn, t5 ι θ]

theorem ScoreCost.run_ok {hook : UnwrapHook (AD E θ₀)} (hh : PlainHook hook) {inv : Nat → AD E θ₀}
    {vars : List (ScoreVar E)} (hg : GoodVars vars) (hm : Unmixed vars) {ω : Draws ℝ} {env : RunEnv E θ₀}
    (h : EnvOK inv vars ω env) {k : ScoreCost E} (hk : GoodCost θ₀ vars k)
    (hb : ∀ d ∈ k.walk, d.base = none) :
    ∃ c, k.run hook inv env = .ok c ∧ Realises hook (poolOf inv vars) (declsOf inv vars) ω c (k.spec inv vars) := by
  obtain ⟨ts, c, t1, r1, _, r2, hcl, hval⟩ := ScoreCost.tensor_ok hh hg h hk
  obtain ⟨ss, s1, s2⟩ := findSampled_ok hh hg h k.walk hk.sub hb
  refine ⟨(c, ss), ?_, ⟨r2, ?_⟩, ?_, ?_, s2⟩
  · rw [ScoreCost.run, t1]
    simp only [r1, s1]
  · exact fun p hp q hq => ⟨q, hcl p hp q hq, Plate.pyEq_refl _⟩
  · exact hm.nested hg r2.2.2 hcl
  · exact fun ι _ θ => hval ι θ

theorem runCosts_ok {hook : UnwrapHook (AD E θ₀)} (hh : PlainHook hook) {inv : Nat → AD E θ₀}
    {vars : List (ScoreVar E)} (hg : GoodVars vars) (hm : Unmixed vars) {ω : Draws ℝ} {env : RunEnv E θ₀}
    (h : EnvOK inv vars ω env) (costs : List (ScoreCost E)) (hk : ∀ k ∈ costs, GoodCost θ₀ vars k)
    (hb : ∀ k ∈ costs, ∀ d ∈ k.walk, d.base = none) :
    ∃ cs, runCosts hook inv env costs = .ok cs ∧
      List.Forall₂ (Realises hook (poolOf inv vars) (declsOf inv vars) ω) cs
        (costs.map (fun k => k.spec inv vars)) := by
  induction costs with
  | nil => exact ⟨[], rfl, .nil⟩
  | cons k costs ih =>
    obtain ⟨cs, s1, s2⟩ := ih (fun x hx => hk x (List.mem_cons_of_mem _ hx))
      (fun x hx => hb x (List.mem_cons_of_mem _ hx))
    obtain ⟨c, c1, c2⟩ := ScoreCost.run_ok hh hg hm h (hk k (by simp)) (hb k (by simp))
    refine ⟨c :: cs, ?_, .cons c2 s2⟩
    rw [runCosts, c1]
    simp only [s1]

theorem program_runs {hook : UnwrapHook (AD E θ₀)} (hh : PlainHook hook) {vars : List (ScoreVar E)}
    (hg : GoodVars vars) (hm : Unmixed vars) {costs : List (ScoreCost E)}
    (hk : ∀ k ∈ costs, GoodCost θ₀ vars k) (hb : ∀ k ∈ costs, ∀ d ∈ k.walk, d.base = none) (ω : Draws ℝ) :
    ∃ cs, runProgram hook invN vars costs ω = surrogateLoss hook cs ∧
      List.Forall₂ (Realises hook (poolOf invN vars) (declsOf (θ₀ := θ₀) invN vars) ω) cs
        (costs.map (fun k => k.spec (θ₀ := θ₀) invN vars)) := by
  obtain ⟨env, r1, r2⟩ := runVars_ok hh invN ω vars hg
  obtain ⟨cs, c1, c2⟩ := runCosts_ok hh hg hm r2 costs hk hb
  refine ⟨cs, ?_, c2⟩
  rw [runProgram, r1]
  simp only [c1]

/-- The expected total cost of the statistical model: every variable is drawn once. -/
noncomputable def expectedCost (θ₀ : E) (vars : List (ScoreVar E)) (costs : List (ScoreCost E)) (θ : E) : ℝ :=
  (costs.map (fun k => expectOne (fun d => d.mass θ) (declsOf (θ₀ := θ₀) invN vars)
    (fun ρ => k.f θ (k.args.map ρ)) (fun _ => 0))).sum

theorem sameSupport_spec {vars : List (ScoreVar E)} {costs : List (ScoreCost E)} {θ : E}
    (hs : ∀ k ∈ costs, ∀ d ∈ k.walk, d.SameSupport θ₀ θ) :
    ∀ k ∈ costs.map (fun k => k.spec (θ₀ := θ₀) invN vars), ∀ d ∈ k.active, SameSupport d θ₀ θ := by
  intro k hk x hx
  obtain ⟨k, hk', rfl⟩ := List.mem_map.1 hk
  obtain ⟨d, hd, rfl⟩ := List.mem_map.1 hx
  exact fun ρ v hv => hs k hk' d hd _ v hv

/-- C34 for programs: whatever is drawn, the program runs and its surrogate loss can be computed; the
expectation of the loss over the draws at `θ₀`, as a function of `θ`, is the expected cost at `θ`. -/
theorem C34_programs {hook : UnwrapHook (AD E θ₀)} (hh : PlainHook hook) {vars : List (ScoreVar E)}
    (hg : GoodVars vars) (hm : Unmixed vars) {costs : List (ScoreCost E)} (hne : costs ≠ [])
    (hk : ∀ k ∈ costs, GoodCost θ₀ vars k) (hb : ∀ k ∈ costs, ∀ d ∈ k.walk, d.base = none) :
    ∃ loss : Draws ℝ → E → ℝ,
      (∀ ω, Possible (declsOf (θ₀ := θ₀) invN vars) θ₀ ω → ∃ r, runProgram hook invN vars costs ω = .ok r ∧
        r.plates = [] ∧ r.ten.shape = [] ∧ r.ten.get [] = loss ω) ∧
      ∀ θ, (∀ k ∈ costs, ∀ d ∈ k.walk, d.SameSupport θ₀ θ) → ∀ ω₀,
        expect (declsOf (θ₀ := θ₀) invN vars) θ₀ (declsOf (θ₀ := θ₀) invN vars) (fun ω => loss ω θ) ω₀ =
          expectedCost θ₀ vars costs θ := by
  choose run h1 h2 using program_runs hh hg hm hk hb
  obtain ⟨loss, l1, l2⟩ := C34_expected_loss hh (declsOf_program hg θ₀) (poolFor hg)
    (specs := costs.map (fun k => k.spec (θ₀ := θ₀) invN vars)) (by simpa using hne)
    (by
      intro k hk'
      obtain ⟨k, hk'', rfl⟩ := List.mem_map.1 hk'
      exact (hk k hk'').spec hg) (run := run) (fun ω _ => h2 ω)
  refine ⟨loss, fun ω hω => by rw [h1]; exact l1 ω hω, ?_⟩
  intro θ hs ω₀
  rw [l2 θ (declsOf_program hg θ) (sameSupport_spec hs) ω₀ (fun _ => 0), expectedCost, List.map_map]
  rfl

end

section orders
variable {E : Type _} [NormedAddCommGroup E] [NormedSpace ℝ E] {θ₀ : E}
open scoped Topology

/-- C34 for programs: the derivatives of every order of the surrogate loss are unbiased estimates of the
derivatives of the expected cost. -/
theorem C34_programs_all_orders {hook : UnwrapHook (AD E θ₀)} (hh : PlainHook hook) {vars : List (ScoreVar E)}
    (hg : GoodVars vars) (hm : Unmixed vars) {costs : List (ScoreCost E)} (hne : costs ≠ [])
    (hk : ∀ k ∈ costs, GoodCost θ₀ vars k) (hb : ∀ k ∈ costs, ∀ d ∈ k.walk, d.base = none) {n : ℕ}
    (hmass : ∀ k ∈ costs, ∀ d ∈ k.walk, ∀ xs, ∀ v ∈ d.support,
      ContDiffAt ℝ n (fun θ => d.prob (d.param θ xs) v) θ₀)
    (hcost : ∀ k ∈ costs, ∀ xs, ContDiffAt ℝ n (fun θ => k.f θ xs) θ₀)
    (hnear : ∀ᶠ θ in 𝓝 θ₀, ∀ k ∈ costs, ∀ d ∈ k.walk, d.SameSupport θ₀ θ) :
    ∃ loss : Draws ℝ → E → ℝ,
      (∀ ω, Possible (declsOf (θ₀ := θ₀) invN vars) θ₀ ω → ∃ r, runProgram hook invN vars costs ω = .ok r ∧
        r.ten.shape = [] ∧ r.ten.get [] = loss ω ∧ ContDiffAt ℝ n (loss ω) θ₀) ∧
      ∀ ω₀ v, expect (declsOf (θ₀ := θ₀) invN vars) θ₀ (declsOf (θ₀ := θ₀) invN vars)
          (fun ω => iteratedFDeriv ℝ n (loss ω) θ₀ v) ω₀ =
        iteratedFDeriv ℝ n (expectedCost θ₀ vars costs) θ₀ v := by
  choose run h1 h2 using program_runs hh hg hm hk hb
  obtain ⟨loss, l1, l2⟩ := C34_all_orders (n := n) hh (declsOf_program hg θ₀) (poolFor hg)
    (specs := costs.map (fun k => k.spec (θ₀ := θ₀) invN vars)) (by simpa using hne)
    (by
      intro k hk'
      obtain ⟨k, hk'', rfl⟩ := List.mem_map.1 hk'
      exact (hk k hk'').spec hg)
    (by
      refine ⟨?_, ?_, ?_⟩
      · intro p hp ι θ
        have := ((layoutOK (θ₀ := θ₀) invN vars hg).made p hp).2
        have hw : p.weight = .torch (Ten.scalar (invN p.n)) := by rw [this]; rfl
        simp only [Plate.weightAt, hw]
        rfl
      · intro k hk' x hx ρ v hv
        obtain ⟨k, hk'', rfl⟩ := List.mem_map.1 hk'
        obtain ⟨d, hd, rfl⟩ := List.mem_map.1 hx
        exact hmass k hk'' d hd _ v hv
      · intro k hk' ρ
        obtain ⟨k, hk'', rfl⟩ := List.mem_map.1 hk'
        exact hcost k hk'' _)
    (hnear.mono (fun θ h => ⟨declsOf_program hg θ, sameSupport_spec h⟩))
    (run := run) (fun ω _ => h2 ω)
  refine ⟨loss, fun ω hω => by rw [h1]; exact l1 ω hω, ?_⟩
  intro ω₀ v
  rw [l2 ω₀ (fun _ => 0) v]
  congr 2
  funext θ
  rw [expectedCost, List.map_map]
  rfl

/-! ### A case

`z = ScoreFunction("z", 2)(Bernoulli(θ))`, `y = ScoreFunction("y", 3)(Bernoulli(θ if z == 1 else θ²))`, cost
`θ * z + y`, at `θ = 1/2`. -/

namespace BernoulliCase

noncomputable def bern (π v : ℝ) : ℝ := if v = 1 then π else 1 - π

noncomputable def z : ScoreVar ℝ := ⟨"z", 2, [], fun θ _ => θ, {0, 1}, bern, none⟩
noncomputable def y : ScoreVar ℝ :=
  ⟨"y", 3, ["z"], fun θ xs => if xs = [1] then θ else θ ^ 2, {0, 1}, bern, none⟩
noncomputable def cost : ScoreCost ℝ := ⟨["z", "y"], fun θ xs => θ * xs.getD 0 0 + xs.getD 1 0, [y, z]⟩

theorem good : GoodVars [y, z] := by
  refine ⟨⟨trivial, by simp, by simp [z], by simp [z], ?_⟩, by simp [y, z], by simp [y, z], by simp [y], ?_⟩ <;>
  · intro π
    simp [z, y, bern]

theorem above_y (s : String) (h : Above [y, z] y.args s) : s = "z" := by
  induction h with
  | arg h => simpa [y] using h
  | step hd _ ha ih =>
    rcases List.mem_cons.1 hd with rfl | hd
    · simpa [y] using ha
    · simp only [List.mem_singleton] at hd
      subst hd
      simp [z] at ha

theorem above_z (s : String) (h : Above [y, z] z.args s) : False := by
  induction h with
  | arg h => simp [z] at h
  | step _ _ _ ih => exact ih

theorem unmixed : Unmixed [y, z] := by
  intro d hd
  simp only [List.mem_cons, List.not_mem_nil, or_false] at hd
  rcases hd with rfl | rfl
  · left
    intro d' hd' ha
    have := above_y _ ha
    simp only [List.mem_cons, List.not_mem_nil, or_false] at hd'
    rcases hd' with rfl | rfl
    · simp [y] at this
    · simp [z]
  · left
    intro d' _ ha
    exact (above_z _ ha).elim

theorem goodCost : GoodCost (1 / 2 : ℝ) [y, z] cost := by
  refine ⟨by simp [cost], by simp [cost, y, z], by simp [cost], by simp [cost, y, z], ?_⟩
  intro d hd _
  exact Or.inl hd

theorem support {θ : ℝ} (h0 : 0 < θ) (h1 : θ < 1) (d : ScoreVar ℝ) (hd : d ∈ cost.walk) :
    d.SameSupport (1 / 2) θ := by
  have h2 : θ ^ 2 < 1 := by nlinarith
  have h3 : 0 < θ ^ 2 := by positivity
  have key : ∀ π π' v : ℝ, 0 < π → π < 1 → 0 < π' → π' < 1 → 0 < bern π v ∧ 0 < bern π' v := by
    intro π π' v a b c d
    unfold bern
    split <;> constructor <;> linarith
  intro xs v _
  left
  simp only [cost, List.mem_cons, List.not_mem_nil, or_false] at hd
  rcases hd with rfl | rfl
  · simp only [y]
    split
    · exact key _ _ _ (by norm_num) (by norm_num) h0 h1
    · exact key _ _ _ (by norm_num) (by norm_num) h3 h2
  · exact key (1 / 2) _ _ (by norm_num) (by norm_num) h0 h1

/-- `C34_programs_all_orders` applies to the case, for every order (and so does `C34_programs`, with fewer hypotheses). -/
example (n : ℕ) : ∃ loss : Draws ℝ → ℝ → ℝ,
    (∀ ω, Possible (declsOf (θ₀ := (1 / 2 : ℝ)) invN [y, z]) (1 / 2 : ℝ) ω →
      ∃ r : STen (AD ℝ (1 / 2 : ℝ)), runProgram (fun _ a => .ok a) invN [y, z] [cost] ω = .ok r ∧
        r.ten.shape = [] ∧ r.ten.get [] = loss ω ∧ ContDiffAt ℝ n (loss ω) (1 / 2)) ∧
      ∀ ω₀ v, expect (declsOf (θ₀ := (1 / 2 : ℝ)) invN [y, z]) (1 / 2 : ℝ)
          (declsOf (θ₀ := (1 / 2 : ℝ)) invN [y, z])
          (fun ω => iteratedFDeriv ℝ n (loss ω) (1 / 2) v) ω₀ =
        iteratedFDeriv ℝ n (expectedCost (1 / 2 : ℝ) [y, z] [cost]) (1 / 2) v := by
  refine C34_programs_all_orders (fun _ _ _ => rfl) good unmixed (by simp) (by simpa using goodCost)
    (by simp [cost, y, z]) ?_ ?_ ?_
  · intro k hk d hd xs v _
    simp only [List.mem_singleton] at hk
    subst hk
    simp only [cost, List.mem_cons, List.not_mem_nil, or_false] at hd
    rcases hd with rfl | rfl <;> simp only [y, z, bern] <;> split <;> (try split) <;> fun_prop
  · intro k hk xs
    simp only [List.mem_singleton] at hk
    subst hk
    simp only [cost]
    fun_prop
  · have : ∀ᶠ θ in 𝓝 (1 / 2 : ℝ), θ ∈ Set.Ioo (0 : ℝ) 1 :=
      Ioo_mem_nhds (by norm_num) (by norm_num)
    refine this.mono (fun θ hθ k hk => ?_)
    simp only [List.mem_singleton] at hk
    subst hk
    exact support hθ.1 hθ.2

/-- What the expected cost is: `θ² + (θ² + (1 - θ) θ²)`. -/
theorem expected (θ : ℝ) : expectedCost (1 / 2 : ℝ) [y, z] [cost] θ = θ ^ 2 + (θ ^ 2 + (1 - θ) * θ ^ 2) := by
  simp [expectedCost, declsOf, expectOne, z, y, cost, ScoreVar.decl, bern, Function.update]
  ring

end BernoulliCase

end orders

end Storch
