import Verif.Lemmas.MixedRun
import Mathlib.Analysis.Calculus.ParametricIntegral
import Mathlib.Probability.Distributions.Gaussian.Real
import Mathlib.Probability.ProductMeasure

/-!
# C72: programs that use `Reparameterization`, with any law of the noise

Whole programs, run by the modelled library.  The gradient of the surrogate loss, averaged over the noise, is the
gradient of the expected cost, for noise with any law (as the Gaussian noise of `Normal.rsample`).
-/

namespace Storch
open MeasureTheory
open scoped Topology

section spec
variable {E : Type _}

/-- Statements that make sense: new names, parameters computed from earlier variables, `Reparameterization` with at least
one sample, and no parameter computed both from variables with one sample and from variables with several (see C55). -/
def GoodReparam : List (MixVar E) → Prop
  | [] => True
  | d :: ds => GoodReparam ds ∧ d.name ∉ ds.map MixVar.name ∧ (∀ s ∈ d.args, s ∈ ds.map MixVar.name) ∧
      (∃ n path, d.how = .reparam n path ∧ 1 ≤ n) ∧ Unmixed ((d :: ds).map MixVar.score)

/-- A cost computed from variables of the program; the walk finds variables above it. -/
structure GoodReparamCost (vars : List (MixVar E)) (k : MixCost E) : Prop where
  nonempty : k.args ≠ []
  args : ∀ s ∈ k.args, s ∈ vars.map MixVar.name
  sub : ∀ d ∈ k.walk, d ∈ vars
  above : ∀ d ∈ k.walk, Above (vars.map MixVar.score) k.args d.name
  nodup : (k.walk.map MixVar.name).Nodup

/-- The specification: the values of the variables after running statements (first to last) with the noise `ε`, one
number per variable.  What `Reparameterization` means by `rsample` (storch/method/method.py:309-347). -/
noncomputable def pathRun (θ : E) (ε : String → ℝ) : List (MixVar E) → (String → ℝ) → String → ℝ
  | [], env => env
  | d :: ds, env => pathRun θ ε ds (Function.update env d.name (match d.how with
      | .reparam _ path => path (d.param θ (d.args.map env)) (ε d.name)
      | _ => ε d.name))

/-- The cost of one run with the noise `ε`. -/
noncomputable def pathCost (vars : List (MixVar E)) (k : MixCost E) (θ : E) (ε : String → ℝ) : ℝ :=
  k.f θ (k.args.map (pathRun θ ε vars.reverse (fun _ => 0)))

/-- The expected sum of the costs, when the noise has the law `ν`. -/
noncomputable def expectedPath (ν : Measure (String → ℝ)) (vars : List (MixVar E)) (costs : List (MixCost E)) (θ : E) :
    ℝ := (costs.map (fun k => ∫ ε, pathCost vars k θ ε ∂ν)).sum

/-- The noise of all samples, as drawn by `distr.rsample` (storch/method/method.py:347): however one entry of each noise tensor is chosen, these entries have the joint law `ν`.
(Independent noise with the law `μ d` for variable `d` has this property, for the product `ν` of the `μ d`.) -/
structure NoiseLaw {Ω : Type _} [MeasurableSpace Ω] (P : Measure Ω) (N : Ω → Draws ℝ) (ν : Measure (String → ℝ)) :
    Prop where
  measurable : ∀ s idx, Measurable (fun o => N o s idx)
  law : ∀ sel : String → List Nat, Measure.map (fun o s => N o s (sel s)) P = ν

end spec

section
variable {E : Type _} {θ₀ : E}

theorem pathRun_append (θ : E) (ε : String → ℝ) (l : List (MixVar E)) (d : MixVar E) (env : String → ℝ) :
    pathRun θ ε (l ++ [d]) env = Function.update (pathRun θ ε l env) d.name (match d.how with
      | .reparam _ path => path (d.param θ (d.args.map (pathRun θ ε l env))) (ε d.name)
      | _ => ε d.name) := by
  induction l generalizing env with
  | nil => rfl
  | cons x l ih => rw [List.cons_append, pathRun, ih]; rfl

theorem pathRun_eq (θ : E) (ε : String → ℝ) : ∀ (vars : List (MixVar E)), GoodReparam vars →
    ∀ s ∈ vars.map MixVar.name, pathRun θ ε vars.reverse (fun _ => 0) s = mixVal θ ε vars s
  | [], _, s, hs => by cases hs
  | d :: ds, hg, s, hs => by
    have ih := pathRun_eq θ ε ds hg.1
    rw [List.reverse_cons, pathRun_append, mixVal]
    by_cases he : s = d.name
    · subst he
      rw [Function.update_self, if_pos rfl, List.map_congr_left (fun s hs => ih s (hg.2.2.1 s hs))]
      cases d.how <;> rfl
    · rw [Function.update_of_ne he, if_neg he]
      rw [List.map_cons, List.mem_cons] at hs
      exact ih s (hs.resolve_left he)

/-- The statement with some noise of finitely many values; it runs in the same way (storch/method/method.py:309-347).  Used
in the proof only. -/
noncomputable def MixVar.quiet (d : MixVar E) : MixVar E :=
  { d with values := [0], prob := fun _ _ => 1 }

theorem quiet_names (vars : List (MixVar E)) : (vars.map MixVar.quiet).map MixVar.name = vars.map MixVar.name := by
  rw [List.map_map]; rfl

theorem GoodReparam.how : ∀ {vars : List (MixVar E)}, GoodReparam vars → ∀ d ∈ vars,
    ∃ n path, d.how = .reparam n path ∧ 1 ≤ n
  | [], _, d, hd => by cases hd
  | x :: ds, hg, d, hd => by
    rcases List.mem_cons.1 hd with rfl | hd
    · exact hg.2.2.2.1
    · exact GoodReparam.how hg.1 d hd

theorem GoodReparam.unmixed : ∀ {vars : List (MixVar E)}, GoodReparam vars → Unmixed (vars.map MixVar.score)
  | [], _ => by intro d hd; cases hd
  | _ :: _, hg => hg.2.2.2.2

theorem quiet_size (d : MixVar E) (h : d.how ≠ .expect) : (MixVar.quiet d).size = d.size := by
  rw [MixVar.size, MixVar.size, show (MixVar.quiet d).how = d.how from rfl]
  cases hd : d.how with
  | expect => exact absurd hd h
  | score n => rfl
  | reparam n path => rfl

theorem above_quiet {vars : List (MixVar E)} {args : List String} {s : String}
    (h : Above ((vars.map MixVar.quiet).map MixVar.score) args s) : Above (vars.map MixVar.score) args s := by
  induction h with
  | arg h => exact .arg h
  | step hd _ ha ih =>
    obtain ⟨d', hd', rfl⟩ := List.mem_map.1 hd
    obtain ⟨d, hd'', rfl⟩ := List.mem_map.1 hd'
    exact .step (d := d.score) (List.mem_map_of_mem hd'') ih ha

theorem GoodReparam.quiet {vars : List (MixVar E)} (hg : GoodReparam vars) : GoodMix (vars.map MixVar.quiet) := by
  have hhow := hg.how
  refine ⟨?_, ?_, ?_, ?_, ?_⟩
  · clear hhow
    induction vars with
    | nil => trivial
    | cons d ds ih =>
      obtain ⟨g1, g2, g3, ⟨n, path, g4, g5⟩, g6⟩ := hg
      refine ⟨ih g1, ?_, ?_, ?_, ?_⟩
      · rw [score_names, quiet_names]; exact g2
      · rw [score_names, quiet_names]; exact g3
      · show 1 ≤ (MixVar.quiet d).size
        have : (MixVar.quiet d).size = n := by rw [MixVar.size, show (MixVar.quiet d).how = d.how from rfl, g4]
        omega
      · intro π
        simp [MixVar.score, MixVar.quiet]
  · have hsize : ∀ d ∈ vars, (MixVar.quiet d).score.n = d.score.n := by
      intro d hd
      obtain ⟨n, path, g4, _⟩ := hhow d hd
      exact quiet_size d (by rw [g4]; simp)
    refine ⟨?_, ?_⟩
    · intro x hx
      obtain ⟨y, hy, rfl⟩ := List.mem_map.1 hx
      obtain ⟨d, hd, rfl⟩ := List.mem_map.1 hy
      rcases hg.unmixed d.score (List.mem_map_of_mem hd) with h | h
      · left
        intro x' hx' ha
        obtain ⟨y', hy', rfl⟩ := List.mem_map.1 hx'
        obtain ⟨d', hd', rfl⟩ := List.mem_map.1 hy'
        rw [hsize d' hd']
        exact h d'.score (List.mem_map_of_mem hd') (above_quiet ha)
      · right
        intro x' hx' ha
        obtain ⟨y', hy', rfl⟩ := List.mem_map.1 hx'
        obtain ⟨d', hd', rfl⟩ := List.mem_map.1 hy'
        rw [hsize d' hd']
        exact h d'.score (List.mem_map_of_mem hd') (above_quiet ha)
    · intro x hx he
      obtain ⟨d, hd, rfl⟩ := List.mem_map.1 hx
      obtain ⟨n, path, g4, _⟩ := hhow d hd
      rw [show (MixVar.quiet d).how = d.how from rfl, g4] at he
      cases he
  · intro x hx
    obtain ⟨d, hd, rfl⟩ := List.mem_map.1 hx
    simp [MixVar.quiet]
  · intro x hx he
    obtain ⟨d, hd, rfl⟩ := List.mem_map.1 hx
    obtain ⟨n, path, g4, _⟩ := hhow d hd
    rw [show (MixVar.quiet d).how = d.how from rfl, g4] at he
    cases he
  · intro x hx _ _ π π' v
    obtain ⟨d, hd, rfl⟩ := List.mem_map.1 hx
    rfl

theorem quiet_above {vars : List (MixVar E)} {args : List String} {s : String}
    (h : Above (vars.map MixVar.score) args s) : Above ((vars.map MixVar.quiet).map MixVar.score) args s := by
  induction h with
  | arg h => exact .arg h
  | step hd _ ha ih =>
    obtain ⟨d, hd', rfl⟩ := List.mem_map.1 hd
    exact .step (d := d.quiet.score) (List.mem_map_of_mem (List.mem_map_of_mem hd')) ih ha

/-- The cost (storch/inference.py:105-206) in the program with that noise.  Used in the proof only. -/
noncomputable def MixCost.quiet (k : MixCost E) : MixCost E := { k with walk := k.walk.map MixVar.quiet }

theorem quiet_scored {vars : List (MixVar E)} (hg : GoodReparam vars) :
    ∀ d ∈ vars.map MixVar.quiet, d.how.scored = false ∧ d.how.drawn = true := by
  intro x hx
  obtain ⟨d, hd, rfl⟩ := List.mem_map.1 hx
  obtain ⟨n, path, g4, _⟩ := hg.how d hd
  rw [show (MixVar.quiet d).how = d.how from rfl, g4]
  exact ⟨rfl, rfl⟩

theorem GoodReparamCost.quiet {vars : List (MixVar E)} (hg : GoodReparam vars) {k : MixCost E}
    (hk : GoodReparamCost vars k) : GoodMixCost θ₀ (vars.map MixVar.quiet) k.quiet := by
  refine ⟨hk.nonempty, ?_, ?_, ?_, ?_, ?_⟩
  · rw [quiet_names]; exact hk.args
  · intro x hx
    obtain ⟨d, hd, rfl⟩ := List.mem_map.1 hx
    exact List.mem_map_of_mem (hk.sub d hd)
  · intro x hx
    obtain ⟨d, hd, rfl⟩ := List.mem_map.1 hx
    exact quiet_above (hk.above d hd)
  · show ((k.walk.map MixVar.quiet).map MixVar.name).Nodup
    rw [quiet_names]; exact hk.nodup
  · intro d hd hs
    rw [(quiet_scored hg d hd).1] at hs
    cases hs

theorem quiet_run {hook : UnwrapHook (AD E θ₀)} {inv : Nat → AD E θ₀} {d : MixVar E} {n : Nat} {path : ℝ → ℝ → ℝ}
    (hd : d.how = .reparam n path) (draw : List Nat → ℝ) (env : RunEnv E θ₀) :
    d.quiet.run hook inv draw env = d.run hook inv draw env := by
  have h : ∀ p, d.quiet.sample hook inv draw p = d.sample hook inv draw p := by
    intro p
    rw [MixVar.sample, MixVar.sample, show d.quiet.how = d.how from rfl, hd]
    rfl
  simp only [MixVar.run, h]
  rfl

theorem quiet_runMixed {hook : UnwrapHook (AD E θ₀)} {inv : Nat → AD E θ₀} (ω : Draws ℝ) :
    ∀ vars : List (MixVar E), GoodReparam vars →
      runMixed hook inv ω (vars.map MixVar.quiet) = runMixed hook inv ω vars
  | [], _ => rfl
  | d :: ds, hg => by
    obtain ⟨n, path, hd, _⟩ := hg.2.2.2.1
    rw [List.map_cons, runMixed, runMixed, quiet_runMixed ω ds hg.1]
    simp only [quiet_run hd]
    rfl

theorem quiet_find {hook : UnwrapHook (AD E θ₀)} {inv : Nat → AD E θ₀} {env : RunEnv E θ₀} {vars : List (MixVar E)}
    (hg : GoodReparam vars) : ∀ walk : List (MixVar E), (∀ d ∈ walk, d ∈ vars) →
      findMixed hook inv env (walk.map MixVar.quiet) = findMixed hook inv env walk
  | [], _ => rfl
  | d :: ds, h => by
    obtain ⟨n, path, hd, _⟩ := hg.how d (h d (by simp))
    rw [List.map_cons, findMixed, findMixed, quiet_find hg ds (fun x hx => h x (List.mem_cons_of_mem _ hx))]
    have : ∀ r, d.quiet.sampled hook inv r = d.sampled hook inv r := by
      intro r
      rw [MixVar.sampled, MixVar.sampled, show d.quiet.how = d.how from rfl, hd]
    simp only [this]
    rfl

theorem quiet_costs {hook : UnwrapHook (AD E θ₀)} {inv : Nat → AD E θ₀} {env : RunEnv E θ₀} {vars : List (MixVar E)}
    (hg : GoodReparam vars) : ∀ costs : List (MixCost E), (∀ k ∈ costs, ∀ d ∈ k.walk, d ∈ vars) →
      runMixCosts hook inv env (costs.map MixCost.quiet) = runMixCosts hook inv env costs
  | [], _ => rfl
  | k :: ks, h => by
    rw [List.map_cons, runMixCosts, runMixCosts, quiet_costs hg ks (fun x hx => h x (List.mem_cons_of_mem _ hx))]
    have : k.quiet.run hook inv env = k.run hook inv env := by
      rw [MixCost.run, MixCost.run, show k.quiet.walk = k.walk.map MixVar.quiet from rfl,
        quiet_find hg k.walk (h k (by simp))]
      rfl
    rw [this]

theorem quiet_program {hook : UnwrapHook (AD E θ₀)} {inv : Nat → AD E θ₀} {vars : List (MixVar E)}
    (hg : GoodReparam vars) {costs : List (MixCost E)} (h : ∀ k ∈ costs, ∀ d ∈ k.walk, d ∈ vars) (ω : Draws ℝ) :
    runMixedProgram hook inv (vars.map MixVar.quiet) (costs.map MixCost.quiet) ω =
      runMixedProgram hook inv vars costs ω := by
  rw [runMixedProgram, runMixedProgram, quiet_runMixed ω vars hg]
  simp only [quiet_costs hg costs h]

theorem quiet_mixVal (θ : E) (ε : String → ℝ) (vars : List (MixVar E)) (s : String) :
    mixVal θ ε (vars.map MixVar.quiet) s = mixVal θ ε vars s := by
  induction vars generalizing s with
  | nil => rfl
  | cons d ds ih =>
    rw [List.map_cons, mixVal, mixVal, ih]
    rw [show d.quiet.args.map (mixVal θ ε (ds.map MixVar.quiet)) = d.args.map (mixVal θ ε ds) from
      List.map_congr_left (fun s _ => ih s)]
    rfl

/-- Nested sums over positions are sums over a list of positions. -/
theorem sumOver_list (ps : List (String × Nat)) (ι₀ : String → Nat) : ∃ l : List (String → Nat),
    (l.length : ℝ) = (ps.map (fun p => (p.2 : ℝ))).prod ∧ ∀ g, sumOver ps g ι₀ = (l.map g).sum := by
  induction ps generalizing ι₀ with
  | nil => exact ⟨[ι₀], by simp, fun g => by simp [sumOver]⟩
  | cons p ps ih =>
    choose l h1 h2 using fun i => ih (Function.update ι₀ p.1 i)
    refine ⟨(List.range p.2).flatMap l, ?_, fun g => ?_⟩
    · rw [List.length_flatMap]
      have : ∀ m : Nat, ((((List.range m).map (fun i => (l i).length)).sum : Nat) : ℝ) =
          m * (ps.map (fun p => (p.2 : ℝ))).prod := by
        intro m
        induction m with
        | zero => simp
        | succ m ihm =>
          rw [List.range_succ, List.map_append, List.sum_append, Nat.cast_add, ihm]
          simp only [List.map_cons, List.map_nil, List.sum_cons, List.sum_nil, add_zero, h1]
          push_cast
          ring
      rw [this, List.map_cons, List.prod_cons]
    · rw [sumOver, List.map_flatMap]
      have : ∀ m : Nat, ((List.range m).flatMap (fun i => (l i).map g)).sum =
          ∑ i ∈ Finset.range m, sumOver ps g (Function.update ι₀ p.1 i) := by
        intro m
        induction m with
        | zero => simp
        | succ m ihm =>
          rw [List.range_succ, List.flatMap_append, List.sum_append, ihm, Finset.sum_range_succ, h2]
          simp
      exact (this p.2).symm

theorem trajectory_sel {V : Type _} (prog : List (Decl E V)) (ι : String → Nat) : ∃ sel : String → List Nat,
    ∀ ω : Draws V, trajectory prog ω ι = fun s => ω s (sel s) := by
  refine ⟨fun s => match prog.find? (fun d => d.name == s) with
    | some d => d.idx.map (fun p => ι p.1)
    | none => [], fun ω => ?_⟩
  funext s
  simp only [trajectory]
  cases prog.find? (fun d => d.name == s) <;> rfl

/-- What a cost adds to the surrogate loss: an average of the cost over choices of entries of the noise tensors. -/
theorem quiet_value {vars : List (MixVar E)} (hg : GoodReparam vars) {k : MixCost E} (hk : GoodReparamCost vars k) :
    ∃ l : List (String → List Nat), l ≠ [] ∧ ∀ (ω : Draws ℝ) (θ : E),
      mixValue θ₀ (vars.map MixVar.quiet) k.quiet ω θ =
        (l.map (fun sel => (1 / (l.length : ℝ)) * pathCost vars k θ (fun s => ω s (sel s)))).sum := by
  classical
  have hm := hg.quiet
  have hk' : GoodMixCost θ₀ (vars.map MixVar.quiet) k.quiet := hk.quiet hg
  obtain ⟨l, l1, l2⟩ := sumOver_list (mixArgKeys θ₀ (vars.map MixVar.quiet) k.quiet.args) (fun _ => 0)
  choose sel hsel using trajectory_sel (mixProg θ₀ (vars.map MixVar.quiet)) (V := ℝ)
  have hperm := mixArgKeys_perm hm hk'
  have hpos : ∀ x ∈ (mixProg θ₀ (vars.map MixVar.quiet)).filter
      (fun d => decide (d.name ∈ (k.quiet.spec θ₀ (vars.map MixVar.quiet)).anc)),
      (0 : ℝ) < (mixSize (vars.map MixVar.quiet) x.name : ℝ) := by
    intro x hx
    obtain ⟨d, hd, rfl⟩ := mem_mixProg.1 (List.mem_filter.1 hx).1
    rw [show (d.decl θ₀ (vars.map MixVar.quiet)).name = d.name from rfl, mixSize_eq hm hd]
    have := hm.posSize hd
    exact_mod_cast (by omega : 0 < d.size)
  have hlen : (l.length : ℝ) = (((mixProg θ₀ (vars.map MixVar.quiet)).filter
      (fun d => decide (d.name ∈ (k.quiet.spec θ₀ (vars.map MixVar.quiet)).anc))).map
        (fun x => (mixSize (vars.map MixVar.quiet) x.name : ℝ))).prod := by
    rw [l1, (hperm.map _).prod_eq, List.map_map]
    rfl
  have hlpos : (0 : ℝ) < l.length := by
    rw [hlen]
    apply List.prod_pos
    intro a ha
    obtain ⟨x, hx, rfl⟩ := List.mem_map.1 ha
    exact hpos x hx
  refine ⟨l.map sel, ?_, ?_⟩
  · intro h
    rw [List.map_eq_nil_iff] at h
    rw [h] at hlpos
    simp at hlpos
  intro ω θ
  rw [mixValue, l2, List.map_map, List.length_map]
  congr 1
  apply List.map_congr_left
  intro ι _
  rw [mixTerm, Function.comp]
  have hw : (((mixProg θ₀ (vars.map MixVar.quiet)).filter
      (fun d => decide (d.name ∈ (k.quiet.spec θ₀ (vars.map MixVar.quiet)).anc))).map (fun d =>
        mixWeight (mixDrawn (vars.map MixVar.quiet)) (mixSize (vars.map MixVar.quiet)) θ d
          (trajectory (mixProg θ₀ (vars.map MixVar.quiet)) ω ι))).prod = 1 / (l.length : ℝ) := by
    rw [hlen]
    have : ∀ L : List (Decl E ℝ), (∀ x ∈ L, mixDrawn (vars.map MixVar.quiet) x = true) →
        (L.map (fun d => mixWeight (mixDrawn (vars.map MixVar.quiet)) (mixSize (vars.map MixVar.quiet)) θ d
          (trajectory (mixProg θ₀ (vars.map MixVar.quiet)) ω ι))).prod =
        1 / (L.map (fun x => (mixSize (vars.map MixVar.quiet) x.name : ℝ))).prod := by
      intro L hL
      induction L with
      | nil => simp
      | cons x L ih =>
        rw [List.map_cons, List.prod_cons, List.map_cons, List.prod_cons,
          ih (fun y hy => hL y (List.mem_cons_of_mem _ hy)), mixWeight, if_pos (hL x (by simp)), one_div_mul_one_div]
    apply this
    intro x hx
    obtain ⟨d, hd, rfl⟩ := mem_mixProg.1 (List.mem_filter.1 hx).1
    rw [mixDrawn_decl hm hd]
    exact (quiet_scored hg d hd).2
  rw [hw]
  congr 1
  have hact : (k.quiet.spec θ₀ (vars.map MixVar.quiet)).active = [] := by
    rw [MixCost.spec]
    simp only [List.map_eq_nil_iff, List.filter_eq_nil_iff]
    intro d hd
    rw [(quiet_scored hg d (hk'.sub d hd)).1]
    simp
  rw [hact, logRatio, List.map_nil, List.sum_nil, Real.exp_zero, one_mul, hsel]
  show k.f θ (k.args.map (mixVal θ (fun s => ω s (sel ι s)) (vars.map MixVar.quiet))) = _
  rw [pathCost]
  congr 1
  refine List.map_congr_left (fun s hs => ?_)
  rw [quiet_mixVal, pathRun_eq θ _ vars hg s (hk.args s hs)]

/-- Every program runs, and its loss is a sum of averages of the costs over choices of entries of the noise tensors. -/
theorem reparam_runs {hook : UnwrapHook (AD E θ₀)} (hh : PlainHook hook) {vars : List (MixVar E)}
    (hg : GoodReparam vars) {costs : List (MixCost E)} (hne : costs ≠ []) (hk : ∀ k ∈ costs, GoodReparamCost vars k) :
    ∃ sels : MixCost E → List (String → List Nat), (∀ k ∈ costs, sels k ≠ []) ∧ ∀ ω,
      ∃ r, runMixedProgram hook invN vars costs ω = .ok r ∧ r.plates = [] ∧ r.ten.shape = [] ∧
        r.ten.get [] = fun θ => (costs.map (fun k => ((sels k).map (fun sel =>
          (1 / ((sels k).length : ℝ)) * pathCost vars k θ (fun s => ω s (sel s)))).sum)).sum := by
  have hq : ∀ k : MixCost E, ∃ l : List (String → List Nat), GoodReparamCost vars k → l ≠ [] ∧ ∀ (ω : Draws ℝ) (θ : E),
      mixValue θ₀ (vars.map MixVar.quiet) k.quiet ω θ =
        (l.map (fun sel => (1 / (l.length : ℝ)) * pathCost vars k θ (fun s => ω s (sel s)))).sum := by
    intro k
    by_cases h : GoodReparamCost vars k
    · obtain ⟨l, hl⟩ := quiet_value (θ₀ := θ₀) hg h
      exact ⟨l, fun _ => hl⟩
    · exact ⟨[], fun h' => absurd h' h⟩
  choose sels hsels using hq
  refine ⟨sels, fun k hk' => (hsels k (hk k hk')).1, fun ω => ?_⟩
  have hl : ListedDraws (vars.map MixVar.quiet) ω := by
    intro d hd he
    have := (quiet_scored hg d hd).2
    rw [he] at this
    cases this
  obtain ⟨r, r1, r2, r3, r4⟩ := mixed_runs hh hg.quiet (costs := costs.map MixCost.quiet) (by simpa using hne)
    (by
      intro k hk'
      obtain ⟨k, hk'', rfl⟩ := List.mem_map.1 hk'
      exact (hk k hk'').quiet hg) hl
  rw [quiet_program hg (fun k hk' => (hk k hk').sub)] at r1
  refine ⟨r, r1, r2, r3, ?_⟩
  funext θ
  rw [r4 θ, List.map_map]
  · congr 1
    apply List.map_congr_left
    intro k hk'
    exact (hsels k (hk k hk')).2 ω θ
  · intro d hd he
    have := (quiet_scored hg d hd).2
    rw [he] at this
    cases this

/-- One entry of each noise tensor has the law `ν`. -/
theorem NoiseLaw.preserving {Ω : Type _} [MeasurableSpace Ω] {P : Measure Ω} {N : Ω → Draws ℝ}
    {ν : Measure (String → ℝ)} (h : NoiseLaw P N ν) (sel : String → List Nat) :
    MeasurePreserving (fun o s => N o s (sel s)) P ν :=
  ⟨measurable_pi_lambda _ (fun s => h.measurable s (sel s)), h.law sel⟩

theorem integral_average {Ω : Type _} [MeasurableSpace Ω] {P : Measure Ω} {N : Ω → Draws ℝ}
    {ν : Measure (String → ℝ)} (h : NoiseLaw P N ν) {F : Type _} [NormedAddCommGroup F] [NormedSpace ℝ F]
    {g : (String → ℝ) → F} (hg : Integrable g ν) (c : ℝ) : ∀ l : List (String → List Nat),
      Integrable (fun o => (l.map (fun sel => c • g (fun s => N o s (sel s)))).sum) P ∧
      ∫ o, (l.map (fun sel => c • g (fun s => N o s (sel s)))).sum ∂P = ((l.length : ℝ) * c) • ∫ ε, g ε ∂ν
  | [] => by simp
  | sel :: l => by
    obtain ⟨i1, i2⟩ := integral_average h hg c l
    have hp := h.preserving sel
    have hi : Integrable (fun o => c • g (fun s => N o s (sel s))) P :=
      (hp.integrable_comp_of_integrable hg).smul c
    simp only [List.map_cons, List.sum_cons]
    refine ⟨hi.add i1, ?_⟩
    rw [integral_add hi i1, i2, integral_smul]
    have : ∫ o, g (fun s => N o s (sel s)) ∂P = ∫ ε, g ε ∂ν := by
      rw [← hp.map_eq, integral_map hp.aemeasurable]
      rw [hp.map_eq]
      exact hg.aestronglyMeasurable
    rw [this, ← add_smul, List.length_cons]
    congr 1
    push_cast
    ring

theorem integral_mean {Ω : Type _} [MeasurableSpace Ω] {P : Measure Ω} {N : Ω → Draws ℝ}
    {ν : Measure (String → ℝ)} (h : NoiseLaw P N ν) {F : Type _} [NormedAddCommGroup F] [NormedSpace ℝ F]
    {g : (String → ℝ) → F} (hg : Integrable g ν) {l : List (String → List Nat)} (hl : l ≠ []) :
      Integrable (fun o => (l.map (fun sel => (1 / (l.length : ℝ)) • g (fun s => N o s (sel s)))).sum) P ∧
      ∫ o, (l.map (fun sel => (1 / (l.length : ℝ)) • g (fun s => N o s (sel s)))).sum ∂P = ∫ ε, g ε ∂ν := by
  obtain ⟨h1, h2⟩ := integral_average h hg (1 / (l.length : ℝ)) l
  refine ⟨h1, ?_⟩
  rw [h2, mul_one_div_cancel, one_smul]
  have : 0 < l.length := List.length_pos_of_ne_nil hl
  positivity

theorem integral_list {Ω : Type _} [MeasurableSpace Ω] {P : Measure Ω} {F : Type _} [NormedAddCommGroup F]
    [NormedSpace ℝ F] {α : Type _} {f : α → Ω → F} {m : α → F} : ∀ ks : List α,
      (∀ k ∈ ks, Integrable (f k) P ∧ ∫ o, f k o ∂P = m k) →
      Integrable (fun o => (ks.map (fun k => f k o)).sum) P ∧ ∫ o, (ks.map (fun k => f k o)).sum ∂P = (ks.map m).sum
  | [], _ => by simp
  | k :: ks, h => by
    obtain ⟨i1, i2⟩ := integral_list ks (fun x hx => h x (List.mem_cons_of_mem _ hx))
    obtain ⟨j1, j2⟩ := h k (by simp)
    simp only [List.map_cons, List.sum_cons]
    exact ⟨j1.add i1, by rw [integral_add j1 i1, i2, j2]⟩

/-- **C72, the value.**  A program of reparameterised variables runs, whatever the noise is.  Its loss, averaged over the
noise, is the expected cost. -/
theorem C72_value {hook : UnwrapHook (AD E θ₀)} (hh : PlainHook hook) {vars : List (MixVar E)}
    (hg : GoodReparam vars) {costs : List (MixCost E)} (hne : costs ≠ []) (hk : ∀ k ∈ costs, GoodReparamCost vars k)
    {Ω : Type _} [MeasurableSpace Ω] {P : Measure Ω} {N : Ω → Draws ℝ} {ν : Measure (String → ℝ)}
    (hN : NoiseLaw P N ν) :
    ∃ loss : Draws ℝ → E → ℝ,
      (∀ ω, ∃ r, runMixedProgram hook invN vars costs ω = .ok r ∧ r.plates = [] ∧ r.ten.shape = [] ∧
        r.ten.get [] = loss ω) ∧
      ∀ θ, (∀ k ∈ costs, Integrable (pathCost vars k θ) ν) →
        Integrable (fun o => loss (N o) θ) P ∧ ∫ o, loss (N o) θ ∂P = expectedPath ν vars costs θ := by
  obtain ⟨sels, s1, s2⟩ := reparam_runs hh hg hne hk
  refine ⟨_, s2, fun θ hi => ?_⟩
  exact integral_list costs (fun k hk' => integral_mean hN (hi k hk') (s1 k hk'))

end

section
variable {E : Type _} [NormedAddCommGroup E] [NormedSpace ℝ E] {θ₀ : E}

/-- The usual conditions for differentiating under the expectation: near `θ₀`, for almost all noise, the cost of a run is
differentiable, with a derivative bounded by something integrable. -/
structure RegularCost (ν : Measure (String → ℝ)) (g : E → (String → ℝ) → ℝ) (θ₀ : E) : Prop where
  meas : ∀ᶠ θ in 𝓝 θ₀, AEStronglyMeasurable (g θ) ν
  int : Integrable (g θ₀) ν
  measDeriv : AEStronglyMeasurable (fun ε => fderiv ℝ (fun θ => g θ ε) θ₀) ν
  bound : ∃ s ∈ 𝓝 θ₀, ∃ B : (String → ℝ) → ℝ, Integrable B ν ∧ ∀ᵐ ε ∂ν, ∀ θ ∈ s,
    DifferentiableAt ℝ (fun θ => g θ ε) θ ∧ ‖fderiv ℝ (fun θ => g θ ε) θ‖ ≤ B ε

theorem RegularCost.deriv {ν : Measure (String → ℝ)} {g : E → (String → ℝ) → ℝ} (h : RegularCost ν g θ₀) :
    (∀ᵐ ε ∂ν, DifferentiableAt ℝ (fun θ => g θ ε) θ₀) ∧ Integrable (fun ε => fderiv ℝ (fun θ => g θ ε) θ₀) ν ∧
      HasFDerivAt (fun θ => ∫ ε, g θ ε ∂ν) (∫ ε, fderiv ℝ (fun θ => g θ ε) θ₀ ∂ν) θ₀ := by
  obtain ⟨s, hs, B, hB, hb⟩ := h.bound
  have h0 := mem_of_mem_nhds hs
  refine ⟨hb.mono fun ε hε => (hε θ₀ h0).1, hB.mono' h.measDeriv (hb.mono fun ε hε => (hε θ₀ h0).2), ?_⟩
  exact hasFDerivAt_integral_of_dominated_of_fderiv_le (F' := fun θ ε => fderiv ℝ (fun θ => g θ ε) θ) hs h.meas h.int
    h.measDeriv (hb.mono fun ε hε θ hθ => (hε θ hθ).2) hB (hb.mono fun ε hε θ hθ => (hε θ hθ).1.hasFDerivAt)

theorem hasFDerivAt_list {α : Type _} {f : α → E → ℝ} {f' : α → E →L[ℝ] ℝ} : ∀ l : List α,
    (∀ a ∈ l, HasFDerivAt (f a) (f' a) θ₀) → HasFDerivAt (fun θ => (l.map (fun a => f a θ)).sum) (l.map f').sum θ₀
  | [], _ => by simpa using hasFDerivAt_const (0 : ℝ) θ₀
  | a :: l, h => by
    simp only [List.map_cons, List.sum_cons]
    exact (h a (by simp)).add (hasFDerivAt_list l (fun b hb => h b (List.mem_cons_of_mem _ hb)))

/-- **C72, the gradient.**  For almost all noise the loss of the program is differentiable in the parameters.  Its
gradient, averaged over the noise, is the gradient of the expected cost. -/
theorem C72_gradient {hook : UnwrapHook (AD E θ₀)} (hh : PlainHook hook) {vars : List (MixVar E)}
    (hg : GoodReparam vars) {costs : List (MixCost E)} (hne : costs ≠ []) (hk : ∀ k ∈ costs, GoodReparamCost vars k)
    {Ω : Type _} [MeasurableSpace Ω] {P : Measure Ω} {N : Ω → Draws ℝ} {ν : Measure (String → ℝ)}
    (hN : NoiseLaw P N ν) (hr : ∀ k ∈ costs, RegularCost ν (pathCost vars k) θ₀) :
    ∃ loss : Draws ℝ → E → ℝ,
      (∀ ω, ∃ r, runMixedProgram hook invN vars costs ω = .ok r ∧ r.plates = [] ∧ r.ten.shape = [] ∧
        r.ten.get [] = loss ω) ∧
      (∀ᵐ o ∂P, DifferentiableAt ℝ (loss (N o)) θ₀) ∧
      Integrable (fun o => fderiv ℝ (loss (N o)) θ₀) P ∧
      HasFDerivAt (expectedPath ν vars costs) (∫ o, fderiv ℝ (loss (N o)) θ₀ ∂P) θ₀ := by
  obtain ⟨sels, s1, s2⟩ := reparam_runs hh hg hne hk
  refine ⟨_, s2, ?_⟩
  have hd : ∀ᵐ o ∂P, ∀ k ∈ costs, ∀ sel ∈ sels k,
      DifferentiableAt ℝ (fun θ => pathCost vars k θ (fun s => N o s (sel s))) θ₀ := by
    have : ∀ (ks : List (MixCost E)), (∀ k ∈ ks, k ∈ costs) → ∀ᵐ o ∂P, ∀ k ∈ ks, ∀ sel ∈ sels k,
        DifferentiableAt ℝ (fun θ => pathCost vars k θ (fun s => N o s (sel s))) θ₀ := by
      intro ks
      induction ks with
      | nil => intro _; exact .of_forall fun _ _ h => by cases h
      | cons k ks ih =>
        intro h
        have h1 : ∀ l : List (String → List Nat), ∀ᵐ o ∂P, ∀ sel ∈ l,
            DifferentiableAt ℝ (fun θ => pathCost vars k θ (fun s => N o s (sel s))) θ₀ := by
          intro l
          induction l with
          | nil => exact .of_forall fun _ _ h => by cases h
          | cons sel l ihl =>
            have h2 := (hN.preserving sel).quasiMeasurePreserving.ae (hr k (h k (by simp))).deriv.1
            filter_upwards [h2, ihl] with o a1 a2 x hx
            rcases List.mem_cons.1 hx with rfl | hx
            · exact a1
            · exact a2 x hx
        filter_upwards [h1 (sels k), ih (fun x hx => h x (List.mem_cons_of_mem _ hx))] with o a1 a2 x hx
        rcases List.mem_cons.1 hx with rfl | hx
        · exact a1
        · exact a2 x hx
    exact this costs (fun _ h => h)
  have hd' : ∀ᵐ o ∂P, HasFDerivAt (fun θ => (costs.map (fun k => ((sels k).map (fun sel =>
      (1 / ((sels k).length : ℝ)) * pathCost vars k θ (fun s => N o s (sel s)))).sum)).sum)
      (costs.map (fun k => ((sels k).map (fun sel => (1 / ((sels k).length : ℝ)) •
        fderiv ℝ (fun θ => pathCost vars k θ (fun s => N o s (sel s))) θ₀)).sum)).sum θ₀ := by
    filter_upwards [hd] with o ho
    refine hasFDerivAt_list costs (fun k hk' => hasFDerivAt_list (sels k) (fun sel hs => ?_))
    exact (ho k hk' sel hs).hasFDerivAt.const_mul _
  have hi := integral_list (P := P) costs (fun k hk' => integral_mean hN (hr k hk').deriv.2.1 (s1 k hk'))
  refine ⟨hd'.mono fun o ho => ho.differentiableAt, hi.1.congr (hd'.mono fun o ho => ho.fderiv.symm), ?_⟩
  rw [integral_congr_ae (hd'.mono fun o ho => ho.fderiv), hi.2]
  exact hasFDerivAt_list costs (fun k hk' => (hr k hk').deriv.2.2)

end

/-- Independent noise, with the law `μ s` for each entry of the noise of the variable `s`, has the product law. -/
theorem noiseLaw_independent (μ : String → Measure ℝ) [∀ s, IsProbabilityMeasure (μ s)] :
    NoiseLaw (Measure.infinitePi (fun p : String × List Nat => μ p.1)) (fun o s idx => o (s, idx))
      (Measure.infinitePi μ) := by
  refine ⟨fun s idx => measurable_pi_apply _, fun sel => ?_⟩
  classical
  refine Measure.eq_infinitePi _ (fun S t ht => ?_)
  have hm : Measurable (fun (o : String × List Nat → ℝ) s => o (s, sel s)) :=
    measurable_pi_lambda _ fun s => measurable_pi_apply (s, sel s)
  rw [Measure.map_apply hm (MeasurableSet.pi S.countable_toSet (fun i hi => ht i))]
  have : (fun (o : String × List Nat → ℝ) s => o (s, sel s)) ⁻¹' (Set.pi S t) =
      Set.pi (S.image (fun s => (s, sel s)) : Finset (String × List Nat)) (fun p => t p.1) := by
    ext o
    simp [Set.mem_pi]
  rw [this, Measure.infinitePi_pi _ (fun p _ => ht p.1), Finset.prod_image]
  intro a _ b _ hab
  exact congrArg Prod.fst hab

/-! ## A case: a chain of two Gaussian variables -/

namespace ReparamCase
open ProbabilityTheory

noncomputable def x : MixVar ℝ := ⟨"x", .reparam 1 (fun π ε => π + ε), [], fun θ _ => θ, [], fun _ _ => 0⟩
noncomputable def y : MixVar ℝ :=
  ⟨"y", .reparam 3 (fun π ε => π + ε), ["x"], fun θ xs => θ * xs.getD 0 0, [], fun _ _ => 0⟩
noncomputable def vars : List (MixVar ℝ) := [y, x]
noncomputable def cost : MixCost ℝ := ⟨["y"], fun _ xs => xs.getD 0 0 ^ 2, [y, x]⟩

/-- Standard Gaussian noise, independent for each variable. -/
noncomputable def law : Measure (String → ℝ) := Measure.infinitePi (fun _ => gaussianReal 0 1)

theorem above_nil {l : List (ScoreVar ℝ)} {s : String} (h : Above l [] s) : False := by
  generalize he : ([] : List String) = args at h
  induction h with
  | arg h => subst he; cases h
  | step _ _ _ ih => exact ih

theorem above_x {s : String} (h : Above (vars.map MixVar.score) ["x"] s) : s = "x" := by
  induction h with
  | arg h => simpa using h
  | step hd _ ha ih =>
    obtain ⟨d, hd', rfl⟩ := List.mem_map.1 hd
    simp only [vars, List.mem_cons, List.not_mem_nil, or_false] at hd'
    rcases hd' with rfl | rfl <;> simp [x, y, MixVar.score] at ih ha

theorem unmixed : Unmixed (vars.map MixVar.score) := by
  intro e he
  obtain ⟨d, hd, rfl⟩ := List.mem_map.1 he
  right
  intro e' he' ha
  obtain ⟨d', hd', rfl⟩ := List.mem_map.1 he'
  simp only [vars, List.mem_cons, List.not_mem_nil, or_false] at hd hd'
  rcases hd with rfl | rfl
  · have h := above_x ha
    rcases hd' with rfl | rfl
    · simp [y, MixVar.score] at h
    · rfl
  · exact (above_nil ha).elim

theorem good : GoodReparam vars :=
  ⟨⟨trivial, by simp, by simp [x], ⟨1, _, rfl, le_refl _⟩, (MixSizes.ones (by simp [x, MixVar.size])).unmixed⟩,
    by simp [x, y], by simp [x, y], ⟨3, _, rfl, by norm_num⟩, unmixed⟩

theorem goodCost : GoodReparamCost vars cost := by
  refine ⟨by simp [cost], by simp [vars, cost, x, y], by simp [vars, cost], ?_, by simp [cost, x, y]⟩
  intro d hd
  simp only [cost, List.mem_cons, List.not_mem_nil, or_false] at hd
  rcases hd with rfl | rfl
  · exact .arg (by simp [cost, y])
  · exact .step (d := y.score) (by simp [vars]) (.arg (by simp [cost, y, MixVar.score]))
      (by simp [x, y, MixVar.score])

theorem cost_eq (θ : ℝ) (ε : String → ℝ) : pathCost vars cost θ ε = (θ * (θ + ε "x") + ε "y") ^ 2 := by
  simp [pathCost, pathRun, vars, cost, x, y]

theorem int_sq (s : String) : Integrable (fun ε : String → ℝ => ε s ^ 2) law := by
  have h : Integrable (fun a : ℝ => a ^ 2) (gaussianReal 0 1) := (memLp_id_gaussianReal 2).integrable_sq
  exact (measurePreserving_eval_infinitePi (fun _ : String => gaussianReal 0 1) s).integrable_comp_of_integrable h

theorem hasDeriv (θ : ℝ) (ε : String → ℝ) : HasDerivAt (fun θ => pathCost vars cost θ ε)
    (2 * (θ * (θ + ε "x") + ε "y") * (2 * θ + ε "x")) θ := by
  simp only [cost_eq]
  have h := (((hasDerivAt_id θ).mul ((hasDerivAt_id θ).add_const (ε "x"))).add_const (ε "y")).pow 2
  refine h.congr_deriv ?_
  simp only [Pi.mul_apply, id_eq]
  push_cast
  ring

theorem regular : RegularCost law (pathCost vars cost) (1 : ℝ) := by
  have hc : ∀ θ : ℝ, Measurable (pathCost vars cost θ) := by
    intro θ
    simp only [funext (cost_eq θ)]
    fun_prop
  have hB : Integrable (fun ε : String → ℝ => 100 + 100 * ε "x" ^ 2 + 100 * ε "y" ^ 2) law := by
    have : IsProbabilityMeasure law := by unfold law; infer_instance
    exact ((integrable_const _).add ((int_sq "x").const_mul _)).add ((int_sq "y").const_mul _)
  have hf : ∀ (θ : ℝ) ε, fderiv ℝ (fun θ => pathCost vars cost θ ε) θ =
      (2 * (θ * (θ + ε "x") + ε "y") * (2 * θ + ε "x")) • (1 : ℝ →L[ℝ] ℝ) := by
    intro θ ε
    rw [(hasDeriv θ ε).hasFDerivAt.fderiv]
    ext
    simp
  refine ⟨.of_forall fun θ => (hc θ).aestronglyMeasurable, ?_, ?_, ?_⟩
  · refine hB.mono' (hc 1).aestronglyMeasurable (.of_forall fun ε => ?_)
    rw [cost_eq, Real.norm_eq_abs, abs_of_nonneg (sq_nonneg _)]
    nlinarith [sq_nonneg (ε "x" - ε "y"), sq_nonneg (ε "x" - 1), sq_nonneg (ε "y" - 1)]
  · simp only [hf]
    have : Measurable (fun ε : String → ℝ => 2 * ((1 : ℝ) * (1 + ε "x") + ε "y") * (2 * 1 + ε "x")) := by fun_prop
    exact (this.smul_const _).aestronglyMeasurable
  · refine ⟨Metric.ball 1 1, Metric.ball_mem_nhds _ one_pos, _, hB, .of_forall fun ε θ hθ =>
      ⟨(hasDeriv θ ε).differentiableAt, ?_⟩⟩
    rw [hf, norm_smul, norm_one, mul_one, Real.norm_eq_abs]
    rw [Metric.mem_ball, Real.dist_eq, abs_lt] at hθ
    have hθ0 : 0 < θ := by linarith [hθ.1]
    have hθ2 : θ < 2 := by linarith [hθ.2]
    have h1 : |2 * (θ * (θ + ε "x") + ε "y") * (2 * θ + ε "x")| ≤
        (θ * (θ + ε "x") + ε "y") ^ 2 + (2 * θ + ε "x") ^ 2 := by
      rw [abs_le]
      constructor <;> nlinarith [sq_nonneg ((θ * (θ + ε "x") + ε "y") + (2 * θ + ε "x")),
        sq_nonneg ((θ * (θ + ε "x") + ε "y") - (2 * θ + ε "x"))]
    have h2 : (2 * θ + ε "x") ^ 2 ≤ 32 + 2 * ε "x" ^ 2 := by
      nlinarith [sq_nonneg (2 * θ - ε "x")]
    have h3 : (θ * (θ + ε "x") + ε "y") ^ 2 ≤ 2 * (θ * (θ + ε "x")) ^ 2 + 2 * ε "y" ^ 2 := by
      nlinarith [sq_nonneg (θ * (θ + ε "x") - ε "y")]
    have h4 : (θ * (θ + ε "x")) ^ 2 ≤ 4 * (θ + ε "x") ^ 2 := by
      rw [mul_pow]
      exact mul_le_mul_of_nonneg_right (by nlinarith) (sq_nonneg _)
    have h5 : (θ + ε "x") ^ 2 ≤ 8 + 2 * ε "x" ^ 2 := by
      nlinarith [sq_nonneg (θ - ε "x")]
    nlinarith [sq_nonneg (ε "x"), sq_nonneg (ε "y")]

/-- `C72_gradient` applies: the average of the gradient is the gradient of the expected cost. -/
example : ∃ loss : Draws ℝ → ℝ → ℝ,
    (∀ ω, ∃ r : STen (AD ℝ (1 : ℝ)), runMixedProgram (fun _ a => .ok a) invN vars [cost] ω = .ok r ∧ r.plates = [] ∧
      r.ten.shape = [] ∧ r.ten.get [] = loss ω) ∧
    (∀ᵐ o ∂Measure.infinitePi (fun _ : String × List Nat => gaussianReal 0 1),
      DifferentiableAt ℝ (loss (fun s idx => o (s, idx))) 1) ∧
    Integrable (fun o => fderiv ℝ (loss (fun s idx => o (s, idx))) 1)
      (Measure.infinitePi (fun _ : String × List Nat => gaussianReal 0 1)) ∧
    HasFDerivAt (expectedPath law vars [cost])
      (∫ o, fderiv ℝ (loss (fun s idx => o (s, idx))) 1
        ∂Measure.infinitePi (fun _ : String × List Nat => gaussianReal 0 1)) 1 :=
  C72_gradient (fun _ _ _ => rfl) good (by simp) (by simpa using goodCost)
    (noiseLaw_independent (fun _ => gaussianReal 0 1)) (fun k hk => by rw [List.mem_singleton.1 hk]; exact regular)

/-- `C72_value` applies. -/
example : ∃ loss : Draws ℝ → ℝ → ℝ,
    (∀ ω, ∃ r : STen (AD ℝ (1 : ℝ)), runMixedProgram (fun _ a => .ok a) invN vars [cost] ω = .ok r ∧ r.plates = [] ∧
      r.ten.shape = [] ∧ r.ten.get [] = loss ω) ∧
    ∫ o, loss (fun s idx => o (s, idx)) 1 ∂Measure.infinitePi (fun _ : String × List Nat => gaussianReal 0 1) =
      expectedPath law vars [cost] 1 := by
  obtain ⟨loss, h1, h2⟩ := C72_value (θ₀ := (1 : ℝ)) (hook := fun _ a => .ok a) (fun _ _ _ => rfl) good
    (costs := [cost]) (by simp) (by simpa using goodCost) (noiseLaw_independent (fun _ => gaussianReal 0 1))
  exact ⟨loss, h1, (h2 1 (fun k hk => by rw [List.mem_singleton.1 hk]; exact regular.int)).2⟩

/-- What is expected is not constant: the cost of a run depends on the parameter and on both noises. -/
example : pathCost vars cost 1 (fun _ => 1) = 9 ∧ pathCost vars cost 2 (fun _ => 1) = 49 ∧
    pathCost vars cost 1 (fun _ => 0) = 1 := by
  simp only [cost_eq]
  norm_num

end ReparamCase

end Storch
