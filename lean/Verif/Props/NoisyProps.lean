import Verif.Lemmas.NoisyLemmas
import Verif.Props.ReparamProps
import Verif.Props.MixedProgramProps
import Mathlib.Analysis.SpecialFunctions.Sigmoid

/-!
# C74: programs that use `ScoreFunction`, `Expect` and `Reparameterization`, with any law of the noise

Whole programs, run by the modelled library.  The gradient of the surrogate loss, averaged over the samples of
`ScoreFunction` and over the noise of `Reparameterization`, is the gradient of the expected cost, for noise with any law.
-/

namespace Storch
open MeasureTheory
open scoped Topology

section spec
variable {E : Type _}

/-- Is it `Reparameterization`?  storch/method/method.py:309-347. -/
def MixHow.noisy : MixHow → Bool
  | .reparam _ _ => true
  | _ => false

/-- Statements that make sense: new names, parameters computed from earlier variables, at least one sample, numbers of
samples as in `MixSizes`, and, for variables that are not reparameterised, each value listed once and probabilities that sum to one; not more values
than the budget. -/
def GoodNoisy : List (MixVar E) → Prop
  | [] => True
  | d :: ds => GoodNoisy ds ∧ d.name ∉ ds.map MixVar.name ∧ (∀ s ∈ d.args, s ∈ ds.map MixVar.name) ∧
      (1 ≤ d.size ∧ MixSizes (d :: ds)) ∧
      (d.how.noisy = false → d.values.Nodup ∧ (∀ π, (d.values.map (d.prob π)).sum = 1)) ∧
      (d.how = .expect → d.values.length ≤ 10000)

/-- The names of the reparameterised variables. -/
def noisyNames (vars : List (MixVar E)) : List String := (vars.filter (fun d => d.how.noisy)).map MixVar.name

/-- What is drawn in one run of the statements with each variable drawn once: the noise `ε` for the reparameterised
variables, the values `a` for the others. -/
def drawnOnce (vars : List (MixVar E)) (a ε : String → ℝ) : String → ℝ := fun s => if s ∈ noisyNames vars then ε s else a s

/-- The values of the variables, when this is drawn. -/
noncomputable def valuesOnce (vars : List (MixVar E)) (θ : E) (a ε : String → ℝ) : String → ℝ :=
  pathRun θ (drawnOnce vars a ε) vars.reverse (fun _ => 0)

/-- A cost computed from variables of the program; the walk finds variables above it, and among them every one that uses
`ScoreFunction` and whose distribution depends on the parameters, directly or through reparameterised variables. -/
structure GoodNoisyCost (θ₀ : E) (vars : List (MixVar E)) (k : MixCost E) : Prop where
  nonempty : k.args ≠ []
  args : ∀ s ∈ k.args, s ∈ vars.map MixVar.name
  sub : ∀ d ∈ k.walk, d ∈ vars
  above : ∀ d ∈ k.walk, Above (vars.map MixVar.score) k.args d.name
  nodup : (k.walk.map MixVar.name).Nodup
  finds : ∀ d ∈ vars, d.how.scored = true → Above (vars.map MixVar.score) k.args d.name → d ∈ k.walk ∨
    ∀ θ a ε v, d.prob (d.param θ (d.args.map (valuesOnce vars θ a ε))) v =
      d.prob (d.param θ₀ (d.args.map (valuesOnce vars θ₀ a ε))) v

/-- The specification: the mean of `F` over the runs of statements (first to last) from the values `env`, when the noise is
`ε`.  Variables that are not reparameterised take their values with their probabilities. -/
noncomputable def meanNoise (θ : E) (ε : String → ℝ) : List (MixVar E) → ((String → ℝ) → ℝ) → (String → ℝ) → ℝ
  | [], F, env => F env
  | d :: ds, F, env =>
    match d.how with
    | .reparam _ path => meanNoise θ ε ds F (Function.update env d.name (path (d.param θ (d.args.map env)) (ε d.name)))
    | _ => (d.values.map (fun v => d.prob (d.param θ (d.args.map env)) v *
        meanNoise θ ε ds F (Function.update env d.name v))).sum

/-- The expected sum of the costs, when the noise has the law `ν`. -/
noncomputable def expectedNoisy (ν : Measure (String → ℝ)) (vars : List (MixVar E)) (costs : List (MixCost E)) (θ : E) :
    ℝ := (costs.map (fun k => ∫ ε, meanNoise θ ε vars.reverse (fun env => k.f θ (k.args.map env)) (fun _ => 0) ∂ν)).sum

open Classical in
/-- The cost of the run with the values `a` and the noise `ε`, times the probability of these values of the variables above
the cost. -/
noncomputable def jointCost (vars : List (MixVar E)) (k : MixCost E) (a : String → ℝ) (θ : E) (ε : String → ℝ) : ℝ :=
  ((vars.filter (fun d => decide (Above (vars.map MixVar.score) k.args d.name))).map (fun d =>
    if d.how.noisy then 1 else d.prob (d.param θ (d.args.map (valuesOnce vars θ a ε))) (a d.name))).prod *
  k.f θ (k.args.map (valuesOnce vars θ a ε))

/-- Values of the variables above the cost. -/
def PossibleValues (vars : List (MixVar E)) (k : MixCost E) (a : String → ℝ) : Prop :=
  ∀ d ∈ vars, d.how.noisy = false → Above (vars.map MixVar.score) k.args d.name → a d.name ∈ d.values

/-- All values of the variables that are not reparameterised have positive probability. -/
def PositiveValues (vars : List (MixVar E)) (θ : E) : Prop :=
  ∀ d ∈ vars, d.how.noisy = false → ∀ xs, ∀ v ∈ d.values, 0 < d.prob (d.param θ xs) v

/-- The draws `ω` with the noise tensors `n`. -/
def withNoise (vars : List (MixVar E)) (n ω : Draws ℝ) : Draws ℝ := fun s => if s ∈ noisyNames vars then n s else ω s

/-- The random variables that use `ScoreFunction`. -/
noncomputable def mixScored (θ₀ : E) (vars : List (MixVar E)) : List (Decl E ℝ) :=
  (vars.reverse.filter (fun d => d.how.scored)).map (MixVar.decl θ₀ vars)

end spec

/-! ### Noise with one value -/

section
variable {E : Type _} {θ₀ : E}

/-- The statement when the noise is the number `ε`; it runs in the same way (storch/method/method.py:309-347).  Used in the
proof only. -/
noncomputable def MixVar.fix (ε : String → ℝ) (d : MixVar E) : MixVar E :=
  { d with values := if d.how.noisy then [ε d.name] else d.values, prob := if d.how.noisy then fun _ _ => 1 else d.prob }

/-- The cost (storch/inference.py:105-206) when the noise is `ε`.  Used in the proof only. -/
noncomputable def MixCost.fix (ε : String → ℝ) (k : MixCost E) : MixCost E := { k with walk := k.walk.map (MixVar.fix ε) }

theorem fix_of_not {ε : String → ℝ} {d : MixVar E} (h : d.how.noisy = false) : d.fix ε = d := by
  rw [MixVar.fix, h]; rfl

theorem noisy_iff {h : MixHow} : h.noisy = true ↔ h.drawn = true ∧ h.scored = false := by
  cases h <;> simp [MixHow.noisy, MixHow.drawn, MixHow.scored]

theorem scored_not_noisy {h : MixHow} (hs : h.scored = true) : h.noisy = false := by
  cases h <;> simp_all [MixHow.noisy, MixHow.scored]

theorem fix_size (ε : String → ℝ) (d : MixVar E) : (d.fix ε).size = d.size := by
  rw [MixVar.size, MixVar.size, show (d.fix ε).how = d.how from rfl]
  cases h : d.how <;> simp [MixVar.fix, h, MixHow.noisy]

theorem fix_names (ε : String → ℝ) (vars : List (MixVar E)) :
    (vars.map (MixVar.fix ε)).map MixVar.name = vars.map MixVar.name := by
  rw [List.map_map]; rfl

theorem GoodNoisy.mem : ∀ {vars : List (MixVar E)}, GoodNoisy vars → ∀ d ∈ vars, 1 ≤ d.size ∧
    (d.how.noisy = false → d.values.Nodup ∧ (∀ π, (d.values.map (d.prob π)).sum = 1)) ∧
      (d.how = .expect → d.values.length ≤ 10000)
  | [], _, d, hd => by cases hd
  | x :: ds, hg, d, hd => by
    rcases List.mem_cons.1 hd with rfl | hd
    · exact ⟨hg.2.2.2.1.1, hg.2.2.2.2⟩
    · exact GoodNoisy.mem hg.1 d hd

theorem GoodNoisy.sizes : ∀ {vars : List (MixVar E)}, GoodNoisy vars → MixSizes vars
  | [], _ => MixSizes.several (by simp)
  | _ :: _, hg => hg.2.2.2.1.2

theorem above_fix {ε : String → ℝ} {vars : List (MixVar E)} {args : List String} {s : String}
    (h : Above ((vars.map (MixVar.fix ε)).map MixVar.score) args s) : Above (vars.map MixVar.score) args s := by
  induction h with
  | arg h => exact .arg h
  | step hd _ ha ih =>
    obtain ⟨d, hd', rfl⟩ := List.mem_map.1 hd
    obtain ⟨e, he, rfl⟩ := List.mem_map.1 hd'
    exact .step (d := e.score) (List.mem_map_of_mem he) ih ha

theorem MixSizes.fix {vars : List (MixVar E)} (h : MixSizes vars) (ε : String → ℝ) : MixSizes (vars.map (MixVar.fix ε)) := by
  refine ⟨?_, ?_⟩
  · intro x hx
    obtain ⟨y, hy, rfl⟩ := List.mem_map.1 hx
    obtain ⟨d, hd, rfl⟩ := List.mem_map.1 hy
    rcases h.unmixed d.score (List.mem_map_of_mem hd) with h | h
    · left
      intro x' hx' ha
      obtain ⟨y', hy', rfl⟩ := List.mem_map.1 hx'
      obtain ⟨d', hd', rfl⟩ := List.mem_map.1 hy'
      have := h d'.score (List.mem_map_of_mem hd') (above_fix ha)
      rwa [show (d'.fix ε).score.n = d'.score.n from fix_size ε d']
    · right
      intro x' hx' ha
      obtain ⟨y', hy', rfl⟩ := List.mem_map.1 hx'
      obtain ⟨d', hd', rfl⟩ := List.mem_map.1 hy'
      have := h d'.score (List.mem_map_of_mem hd') (above_fix ha)
      rwa [show (d'.fix ε).score.n = d'.score.n from fix_size ε d']
  · intro x hx he
    obtain ⟨d, hd, rfl⟩ := List.mem_map.1 hx
    rw [fix_size]
    exact h.listed d hd he

theorem GoodNoisy.nodup : ∀ {vars : List (MixVar E)}, GoodNoisy vars → (vars.map MixVar.name).Nodup
  | [], _ => by simp
  | x :: ds, hg => by
    rw [List.map_cons, List.nodup_cons]
    exact ⟨hg.2.1, GoodNoisy.nodup hg.1⟩

theorem mem_noisyNames {vars : List (MixVar E)} (hg : GoodNoisy vars) {d : MixVar E} (hd : d ∈ vars) :
    d.name ∈ noisyNames vars ↔ d.how.noisy = true := by
  rw [noisyNames, List.mem_map]
  constructor
  · rintro ⟨x, hx, he⟩
    obtain ⟨h1, h2⟩ := List.mem_filter.1 hx
    have : x = d := List.inj_on_of_nodup_map hg.nodup h1 hd he
    exact this ▸ h2
  · exact fun h => ⟨d, List.mem_filter.2 ⟨hd, h⟩, rfl⟩

theorem GoodNoisy.fix {vars : List (MixVar E)} (hg : GoodNoisy vars) (ε : String → ℝ) : GoodMix (vars.map (MixVar.fix ε)) := by
  have hm := hg.mem
  have hone : ∀ d ∈ vars, (d.fix ε).values.Nodup ∧ ∀ π, ((d.fix ε).values.map ((d.fix ε).prob π)).sum = 1 := by
    intro d hd
    cases h : d.how.noisy with
    | false => rw [fix_of_not h]; exact (hm d hd).2.1 h
    | true => simp [MixVar.fix, h]
  refine ⟨?_, ?_, ?_, ?_, ?_⟩
  · clear hm
    induction vars with
    | nil => trivial
    | cons d ds ih =>
      obtain ⟨g1, g2, g3, g4, g5⟩ := hg
      refine ⟨ih g1 (fun x hx => hone x (List.mem_cons_of_mem _ hx)), ?_, ?_, ?_, ?_⟩
      · rw [score_names, fix_names]; exact g2
      · rw [score_names, fix_names]; exact g3
      · show 1 ≤ (d.fix ε).size
        rw [fix_size]; exact g4.1
      · intro π
        classical
        obtain ⟨h1, h2⟩ := hone d (by simp)
        have := h2 π
        rw [← List.sum_toFinset _ h1] at this
        rw [← this]
        show ∑ v ∈ _, (d.fix ε).prob π v = _
        congr 1
  · exact hg.sizes.fix ε
  · intro x hx
    obtain ⟨d, hd, rfl⟩ := List.mem_map.1 hx
    exact (hone d hd).1
  · intro x hx he
    obtain ⟨d, hd, rfl⟩ := List.mem_map.1 hx
    have he : d.how = .expect := he
    rw [fix_size, MixVar.size, he]
    exact (hm d hd).2.2 he
  · intro x hx h1 h2 π π' v
    obtain ⟨d, hd, rfl⟩ := List.mem_map.1 hx
    have : d.how.noisy = true := noisy_iff.2 ⟨h1, h2⟩
    simp [MixVar.fix, this]

theorem fix_above {ε : String → ℝ} {vars : List (MixVar E)} {args : List String} {s : String} :
    Above ((vars.map (MixVar.fix ε)).map MixVar.score) args s ↔ Above (vars.map MixVar.score) args s := by
  constructor
  · intro h
    induction h with
    | arg h => exact .arg h
    | step hd _ ha ih =>
      obtain ⟨d, hd', rfl⟩ := List.mem_map.1 hd
      obtain ⟨e, he, rfl⟩ := List.mem_map.1 hd'
      exact .step (d := e.score) (List.mem_map_of_mem he) ih ha
  · intro h
    induction h with
    | arg h => exact .arg h
    | step hd _ ha ih =>
      obtain ⟨d, hd', rfl⟩ := List.mem_map.1 hd
      exact .step (d := (d.fix ε).score) (List.mem_map_of_mem (List.mem_map_of_mem hd')) ih ha

theorem fix_mixVal (θ : E) (ρ ε : String → ℝ) (vars : List (MixVar E)) (s : String) :
    mixVal θ ρ (vars.map (MixVar.fix ε)) s = mixVal θ ρ vars s := by
  induction vars generalizing s with
  | nil => rfl
  | cons d ds ih =>
    rw [List.map_cons, mixVal, mixVal, ih]
    rw [show (d.fix ε).args.map (mixVal θ ρ (ds.map (MixVar.fix ε))) = d.args.map (mixVal θ ρ ds) from
      List.map_congr_left (fun s _ => ih s)]
    rfl

theorem fix_layout (ε : String → ℝ) (vars : List (MixVar E)) :
    layout (θ₀ := θ₀) invN ((vars.map (MixVar.fix ε)).map MixVar.score) = layout (θ₀ := θ₀) invN (vars.map MixVar.score) := by
  induction vars with
  | nil => rfl
  | cons d ds ih =>
    simp only [List.map_cons, layout, ih]
    rw [show (d.fix ε).score.n = d.score.n from fix_size ε d]
    rfl

theorem pathRun_mixVal (θ : E) (ρ : String → ℝ) : ∀ (vars : List (MixVar E)), GoodNoisy vars →
    ∀ s ∈ vars.map MixVar.name, pathRun θ ρ vars.reverse (fun _ => 0) s = mixVal θ ρ vars s
  | [], _, s, hs => by cases hs
  | d :: ds, hg, s, hs => by
    have ih := pathRun_mixVal θ ρ ds hg.1
    rw [List.reverse_cons, pathRun_append, mixVal]
    by_cases he : s = d.name
    · subst he
      rw [Function.update_self, if_pos rfl, List.map_congr_left (fun s hs => ih s (hg.2.2.1 s hs))]
      cases d.how <;> rfl
    · rw [Function.update_of_ne he, if_neg he]
      rw [List.map_cons, List.mem_cons] at hs
      exact ih s (hs.resolve_left he)

theorem GoodNoisy.args : ∀ {vars : List (MixVar E)}, GoodNoisy vars → ∀ d ∈ vars, ∀ s ∈ d.args, s ∈ vars.map MixVar.name
  | [], _, d, hd, _, _ => by cases hd
  | x :: ds, hg, d, hd, s, hs => by
    rcases List.mem_cons.1 hd with rfl | hd
    · exact List.mem_cons_of_mem _ (hg.2.2.1 s hs)
    · exact List.mem_cons_of_mem _ (GoodNoisy.args hg.1 d hd s hs)

theorem fix_decl (ε : String → ℝ) (vars : List (MixVar E)) {d : MixVar E} (h : d.how.noisy = false) :
    (d.fix ε).decl θ₀ (vars.map (MixVar.fix ε)) = d.decl θ₀ vars := by
  rw [fix_of_not h]
  unfold MixVar.decl
  have hA : Above ((vars.map (MixVar.fix ε)).map MixVar.score) d.args = Above (vars.map MixVar.score) d.args :=
    funext fun s => propext fix_above
  simp only [fix_layout, fix_names, hA]
  have : ∀ θ ρ, mixVal θ ρ (vars.map (MixVar.fix ε)) = mixVal θ ρ vars := fun θ ρ => funext (fix_mixVal θ ρ ε vars)
  simp only [this]
  congr 1
  exact List.filter_congr (fun s _ => decide_eq_decide.2 (by rw [hA]))

theorem fix_trajectory (ε : String → ℝ) (vars : List (MixVar E)) (ω : Draws ℝ) (ι : String → Nat) :
    trajectory (mixProg θ₀ (vars.map (MixVar.fix ε))) ω ι = trajectory (mixProg θ₀ vars) ω ι := by
  funext s
  have h1 : mixProg θ₀ (vars.map (MixVar.fix ε)) =
      vars.reverse.map (fun d => (d.fix ε).decl θ₀ (vars.map (MixVar.fix ε))) := by
    rw [mixProg, List.map_map, ← List.map_reverse]; rfl
  have h2 : mixProg θ₀ vars = vars.reverse.map (MixVar.decl θ₀ vars) := by rw [mixProg, ← List.map_reverse]
  simp only [trajectory]
  rw [h1, h2, List.find?_map, List.find?_map]
  have h3 : ((fun d : Decl E ℝ => d.name == s) ∘ fun d : MixVar E => (d.fix ε).decl θ₀ (vars.map (MixVar.fix ε))) =
      ((fun d : Decl E ℝ => d.name == s) ∘ MixVar.decl θ₀ vars) := by
    funext d; rfl
  rw [h3]
  cases vars.reverse.find? ((fun d : Decl E ℝ => d.name == s) ∘ MixVar.decl θ₀ vars) with
  | none => rfl
  | some d =>
    have : ((d.fix ε).decl θ₀ (vars.map (MixVar.fix ε))).idx = (d.decl θ₀ vars).idx := by
      simp only [MixVar.decl, fix_layout]
      rfl
    simp only [Option.map_some, this]

theorem fix_mixDrawn (ε : String → ℝ) (vars : List (MixVar E)) : mixDrawn (vars.map (MixVar.fix ε)) = mixDrawn vars := by
  funext x
  rw [mixDrawn, mixDrawn, List.any_map]
  rfl

theorem fix_mixSize (ε : String → ℝ) (vars : List (MixVar E)) : mixSize (vars.map (MixVar.fix ε)) = mixSize vars := by
  funext s
  rw [mixSize, mixSize, List.find?_map, Option.map_map]
  congr 2
  funext d
  exact fix_size ε d

theorem fix_spec (ε : String → ℝ) (vars : List (MixVar E)) (k : MixCost E) :
    (k.fix ε).spec θ₀ (vars.map (MixVar.fix ε)) = k.spec θ₀ vars := by
  unfold MixCost.spec
  have hA : Above ((vars.map (MixVar.fix ε)).map MixVar.score) k.args = Above (vars.map MixVar.score) k.args :=
    funext fun s => propext fix_above
  have : ∀ θ ρ, mixVal θ ρ (vars.map (MixVar.fix ε)) = mixVal θ ρ vars := fun θ ρ => funext (fix_mixVal θ ρ ε vars)
  simp only [this, fix_names, show (k.fix ε).args = k.args from rfl, show (k.fix ε).f = k.f from rfl,
    show (k.fix ε).walk = k.walk.map (MixVar.fix ε) from rfl]
  congr 1
  · rw [List.filter_map, List.map_map]
    show (k.walk.filter (fun d => d.how.scored)).map _ = _
    apply List.map_congr_left
    intro d hd
    exact fix_decl ε vars (scored_not_noisy (List.mem_filter.1 hd).2)
  · exact List.filter_congr (fun s _ => decide_eq_decide.2 (by
      show Above _ k.args s ↔ _
      rw [hA]))

theorem mixProg_eq (vars : List (MixVar E)) : mixProg θ₀ vars = vars.reverse.map (MixVar.decl θ₀ vars) := by
  rw [mixProg, ← List.map_reverse]

theorem fix_mixProg (ε : String → ℝ) (vars : List (MixVar E)) : mixProg θ₀ (vars.map (MixVar.fix ε)) =
    vars.reverse.map (fun d => (d.fix ε).decl θ₀ (vars.map (MixVar.fix ε))) := by
  rw [mixProg, List.map_map, ← List.map_reverse]; rfl

theorem fix_mixTerm (vars : List (MixVar E)) (ε : String → ℝ) (k : MixCost E) (θ : E)
    (ρ : String → ℝ) :
    mixTerm (mixProg θ₀ (vars.map (MixVar.fix ε))) (mixDrawn (vars.map (MixVar.fix ε))) (mixSize (vars.map (MixVar.fix ε)))
      θ₀ ((k.fix ε).spec θ₀ (vars.map (MixVar.fix ε))) θ ρ =
    mixTerm (mixProg θ₀ vars) (mixDrawn vars) (mixSize vars) θ₀ (k.spec θ₀ vars) θ ρ := by
  rw [fix_mixDrawn, fix_mixSize, fix_spec, mixTerm, mixTerm]
  congr 2
  rw [fix_mixProg, mixProg_eq, List.filter_map, List.filter_map, List.map_map, List.map_map]
  show (vars.reverse.filter (fun d => decide (d.name ∈ (k.spec θ₀ vars).anc))).map _ =
    (vars.reverse.filter (fun d => decide (d.name ∈ (k.spec θ₀ vars).anc))).map _
  apply List.map_congr_left
  intro d hd
  have hd : d ∈ vars := List.mem_reverse.1 (List.mem_filter.1 hd).1
  simp only [Function.comp]
  cases h : d.how.noisy with
  | false => rw [fix_decl ε vars h]
  | true =>
    have hdr : ∀ x : Decl E ℝ, x.name = d.name → mixDrawn vars x = true := by
      intro x hx
      rw [mixDrawn, List.any_eq_true]
      exact ⟨d, hd, by simp [hx, (noisy_iff.1 h).1]⟩
    rw [mixWeight, mixWeight, hdr _ rfl, hdr _ rfl]
    rfl

theorem fix_mixArgKeys (ε : String → ℝ) (vars : List (MixVar E)) (args : List String) :
    mixArgKeys θ₀ (vars.map (MixVar.fix ε)) args = mixArgKeys θ₀ vars args := by
  rw [mixArgKeys, mixArgKeys, fix_layout]

theorem fix_mixValue (vars : List (MixVar E)) (ε : String → ℝ) (k : MixCost E) (ω : Draws ℝ)
    (θ : E) : mixValue θ₀ (vars.map (MixVar.fix ε)) (k.fix ε) ω θ = mixValue θ₀ vars k ω θ := by
  rw [mixValue, mixValue]
  simp only [fix_mixTerm, fix_trajectory]
  rw [show (k.fix ε).args = k.args from rfl, fix_mixArgKeys]

/-- What is drawn, in two parts. -/
theorem drawnOnce_self (vars : List (MixVar E)) (ρ : String → ℝ) : drawnOnce vars ρ ρ = ρ := by
  funext s; simp [drawnOnce]

theorem valuesOnce_eq {vars : List (MixVar E)} (hg : GoodNoisy vars) (θ : E) (a ε : String → ℝ) {s : String}
    (hs : s ∈ vars.map MixVar.name) : valuesOnce vars θ a ε s = mixVal θ (drawnOnce vars a ε) vars s :=
  pathRun_mixVal θ _ vars hg s hs

theorem GoodNoisyCost.fix {vars : List (MixVar E)} (hg : GoodNoisy vars) {k : MixCost E} (hk : GoodNoisyCost θ₀ vars k)
    (ε : String → ℝ) : GoodMixCost θ₀ (vars.map (MixVar.fix ε)) (k.fix ε) := by
  refine ⟨hk.nonempty, ?_, ?_, ?_, ?_, ?_⟩
  · rw [fix_names]; exact hk.args
  · intro x hx
    obtain ⟨d, hd, rfl⟩ := List.mem_map.1 hx
    exact List.mem_map_of_mem (hk.sub d hd)
  · intro x hx
    obtain ⟨d, hd, rfl⟩ := List.mem_map.1 hx
    exact fix_above.2 (hk.above d hd)
  · show ((k.walk.map (MixVar.fix ε)).map MixVar.name).Nodup
    rw [fix_names]; exact hk.nodup
  · intro x hx hs ha
    obtain ⟨d, hd, rfl⟩ := List.mem_map.1 hx
    rcases hk.finds d hd hs (fix_above.1 ha) with h | h
    · exact Or.inl (List.mem_map_of_mem h)
    · right
      intro θ ρ v
      rw [fix_decl ε vars (d := d) (scored_not_noisy (h := d.how) hs)]
      have := h θ ρ ρ v
      have hv : ∀ θ, d.args.map (valuesOnce vars θ ρ ρ) = d.args.map (mixVal θ ρ vars) := fun θ =>
        List.map_congr_left (fun s hs' => by rw [valuesOnce_eq hg θ ρ ρ (hg.args d hd s hs'), drawnOnce_self])
      rw [hv, hv] at this
      exact this

/-! ### Runs -/

theorem fix_run {hook : UnwrapHook (AD E θ₀)} {inv : Nat → AD E θ₀} (ε : String → ℝ) (d : MixVar E)
    (draw : List Nat → ℝ) (env : RunEnv E θ₀) : (d.fix ε).run hook inv draw env = d.run hook inv draw env := by
  cases h : d.how.noisy with
  | false => rw [fix_of_not h]
  | true =>
    obtain ⟨n, path, hd⟩ : ∃ n path, d.how = .reparam n path := by
      cases hh : d.how <;> simp [hh, MixHow.noisy] at h
      exact ⟨_, _, rfl⟩
    have h : ∀ p, (d.fix ε).sample hook inv draw p = d.sample hook inv draw p := by
      intro p
      rw [MixVar.sample, MixVar.sample, show (d.fix ε).how = d.how from rfl, hd]
      rfl
    simp only [MixVar.run, h]
    rfl

theorem fix_runMixed {hook : UnwrapHook (AD E θ₀)} {inv : Nat → AD E θ₀} (ε : String → ℝ) (ω : Draws ℝ) :
    ∀ vars : List (MixVar E), runMixed hook inv ω (vars.map (MixVar.fix ε)) = runMixed hook inv ω vars
  | [] => rfl
  | d :: ds => by
    rw [List.map_cons, runMixed, runMixed, fix_runMixed ε ω ds]
    simp only [fix_run]
    rfl

theorem fix_find {hook : UnwrapHook (AD E θ₀)} {inv : Nat → AD E θ₀} {env : RunEnv E θ₀} (ε : String → ℝ) :
    ∀ walk : List (MixVar E), findMixed hook inv env (walk.map (MixVar.fix ε)) = findMixed hook inv env walk
  | [] => rfl
  | d :: ds => by
    rw [List.map_cons, findMixed, findMixed, fix_find ε ds]
    have : ∀ r, (d.fix ε).sampled hook inv r = d.sampled hook inv r := by
      intro r
      cases h : d.how.noisy with
      | false => rw [fix_of_not h]
      | true =>
        rw [MixVar.sampled, MixVar.sampled, show (d.fix ε).how = d.how from rfl]
        cases hh : d.how <;> simp [hh, MixHow.noisy] at h
        rfl
    simp only [this]
    rfl

theorem fix_costs {hook : UnwrapHook (AD E θ₀)} {inv : Nat → AD E θ₀} {env : RunEnv E θ₀} (ε : String → ℝ) :
    ∀ costs : List (MixCost E), runMixCosts hook inv env (costs.map (MixCost.fix ε)) = runMixCosts hook inv env costs
  | [] => rfl
  | k :: ks => by
    rw [List.map_cons, runMixCosts, runMixCosts, fix_costs ε ks]
    have : (k.fix ε).run hook inv env = k.run hook inv env := by
      rw [MixCost.run, MixCost.run, show (k.fix ε).walk = k.walk.map (MixVar.fix ε) from rfl, fix_find]
      rfl
    rw [this]

theorem fix_program {hook : UnwrapHook (AD E θ₀)} {inv : Nat → AD E θ₀} (ε : String → ℝ) (vars : List (MixVar E))
    (costs : List (MixCost E)) (ω : Draws ℝ) :
    runMixedProgram hook inv (vars.map (MixVar.fix ε)) (costs.map (MixCost.fix ε)) ω =
      runMixedProgram hook inv vars costs ω := by
  rw [runMixedProgram, runMixedProgram, fix_runMixed]
  simp only [fix_costs]

theorem fix_listed (ε : String → ℝ) {vars : List (MixVar E)} {ω : Draws ℝ} (hω : ListedDraws vars ω) :
    ListedDraws (vars.map (MixVar.fix ε)) ω := by
  intro x hx he
  obtain ⟨d, hd, rfl⟩ := List.mem_map.1 hx
  have he : d.how = .expect := he
  rw [fix_of_not (by rw [he]; rfl)]
  exact hω d hd he

theorem PositiveValues.fix (ε : String → ℝ) {vars : List (MixVar E)} {θ : E} (h : PositiveValues vars θ) :
    PositiveAt (vars.map (MixVar.fix ε)) θ := by
  intro x hx he
  obtain ⟨d, hd, rfl⟩ := List.mem_map.1 hx
  have he : d.how = .expect := he
  have hn : d.how.noisy = false := by rw [he]; rfl
  rw [fix_of_not hn]
  exact h d hd hn

theorem noisy_runs {hook : UnwrapHook (AD E θ₀)} (hh : PlainHook hook) {vars : List (MixVar E)} (hg : GoodNoisy vars)
    {costs : List (MixCost E)} (hne : costs ≠ []) (hk : ∀ k ∈ costs, GoodNoisyCost θ₀ vars k) {ω : Draws ℝ}
    (hω : ListedDraws vars ω) :
    ∃ r, runMixedProgram hook invN vars costs ω = .ok r ∧ r.plates = [] ∧ r.ten.shape = [] ∧
      ∀ θ, PositiveValues vars θ → r.ten.get [] θ = (costs.map (fun k => mixValue θ₀ vars k ω θ)).sum := by
  obtain ⟨r, r1, r2, r3, r4⟩ := mixed_runs hh (hg.fix (fun _ => 0)) (costs := costs.map (MixCost.fix (fun _ => 0)))
    (by simpa using hne)
    (by
      intro k hk'
      obtain ⟨k, hk'', rfl⟩ := List.mem_map.1 hk'
      exact (hk k hk'').fix hg _) (fix_listed _ hω)
  rw [fix_program] at r1
  refine ⟨r, r1, r2, r3, fun θ hθ => ?_⟩
  rw [r4 θ (hθ.fix _), List.map_map]
  congr 1
  exact List.map_congr_left (fun k _ => fix_mixValue vars _ k ω θ)

/-! ### Averages -/

/-- Does it use `ScoreFunction`? -/
noncomputable def scoredDecl (vars : List (MixVar E)) (x : Decl E ℝ) : Bool :=
  vars.any (fun d => d.name == x.name && d.how.scored)

theorem any_name {vars : List (MixVar E)} (hg : GoodNoisy vars) {d : MixVar E} (hd : d ∈ vars) (f : MixVar E → Bool) :
    vars.any (fun x => x.name == d.name && f x) = f d := by
  rw [Bool.eq_iff_iff, List.any_eq_true]
  simp only [Bool.and_eq_true, beq_iff_eq]
  constructor
  · rintro ⟨x, hx, h1, h2⟩
    have : x = d := List.inj_on_of_nodup_map hg.nodup hx hd h1
    exact this ▸ h2
  · exact fun h => ⟨d, hd, rfl, h⟩

theorem mixScored_eq {vars : List (MixVar E)} (hg : GoodNoisy vars) (ε : String → ℝ) :
    (mixProg θ₀ (vars.map (MixVar.fix ε))).filter (scoredDecl vars) = mixScored θ₀ vars := by
  rw [fix_mixProg, List.filter_map, mixScored]
  have h : vars.reverse.filter (scoredDecl vars ∘ fun d => (d.fix ε).decl θ₀ (vars.map (MixVar.fix ε))) =
      vars.reverse.filter (fun d => d.how.scored) := by
    apply List.filter_congr
    intro d hd
    exact any_name hg (List.mem_reverse.1 hd) (fun d => d.how.scored)
  rw [h]
  apply List.map_congr_left
  intro d hd
  exact fix_decl ε vars (scored_not_noisy (List.mem_filter.1 hd).2)

theorem mem_mixScored {vars : List (MixVar E)} {x : Decl E ℝ} : x ∈ mixScored θ₀ vars ↔
    ∃ d ∈ vars, d.how.scored = true ∧ x = d.decl θ₀ vars := by
  rw [mixScored, List.mem_map]
  constructor
  · rintro ⟨d, hd, rfl⟩
    obtain ⟨h1, h2⟩ := List.mem_filter.1 hd
    exact ⟨d, List.mem_reverse.1 h1, h2, rfl⟩
  · rintro ⟨d, hd, hs, rfl⟩
    exact ⟨d, List.mem_filter.2 ⟨List.mem_reverse.2 hd, hs⟩, rfl⟩

theorem mixScored_nodup {vars : List (MixVar E)} (hg : GoodNoisy vars) : ((mixScored θ₀ vars).map Decl.name).Nodup := by
  rw [← mixScored_eq hg (fun _ => 0)]
  exact (hg.fix _).progNodup.sublist (List.filter_sublist.map _)

/-- The cost of a run with its probability depends only on what is drawn. -/
theorem jointCost_self {vars : List (MixVar E)} (hg : GoodNoisy vars) (k : MixCost E) (θ : E) (a ε : String → ℝ) :
    jointCost vars k (drawnOnce vars a ε) θ (drawnOnce vars a ε) = jointCost vars k a θ ε := by
  classical
  have h : valuesOnce vars θ (drawnOnce vars a ε) (drawnOnce vars a ε) = valuesOnce vars θ a ε := by
    rw [valuesOnce, drawnOnce_self, valuesOnce]
  rw [jointCost, jointCost, h]
  congr 2
  apply List.map_congr_left
  intro d hd
  have hd := (List.mem_filter.1 hd).1
  cases hn : d.how.noisy with
  | true => rfl
  | false =>
    have : drawnOnce vars a ε d.name = a d.name := by
      rw [drawnOnce, if_neg]
      rw [mem_noisyNames hg hd, hn]
      simp
    rw [this]

/-- `1 / n` for each variable above the cost that is sampled or whose noise is sampled. -/
noncomputable def noisyScale (θ₀ : E) (vars : List (MixVar E)) (k : MixCost E) : ℝ :=
  (((vars.reverse.filter (fun d => decide (d.name ∈ (k.spec θ₀ vars).anc))).filter (fun d => d.how.drawn)).map
    (fun d => 1 / (d.size : ℝ))).prod

theorem joint_weight {vars : List (MixVar E)} (hg : GoodNoisy vars) {k : MixCost E} (hk : GoodNoisyCost θ₀ vars k)
    (ε : String → ℝ) (θ : E) (ρ : String → ℝ) :
    (((mixProg θ₀ (vars.map (MixVar.fix ε))).filter (fun d => decide (d.name ∈ (k.spec θ₀ vars).anc))).map
      (fun d => if scoredDecl vars d || !mixDrawn vars d then d.mass θ ρ (ρ d.name) else 1)).prod *
        (k.spec θ₀ vars).f θ ρ = jointCost vars k ρ θ ρ := by
  classical
  have hval : ∀ l : List String, (∀ s ∈ l, s ∈ vars.map MixVar.name) →
      l.map (valuesOnce vars θ ρ ρ) = l.map (mixVal θ ρ vars) := fun l hl =>
    List.map_congr_left (fun s hs => by rw [valuesOnce_eq hg θ ρ ρ (hl s hs), drawnOnce_self])
  rw [jointCost, hval k.args hk.args]
  congr 1
  rw [fix_mixProg, List.filter_map, List.map_map]
  have hf : vars.reverse.filter ((fun d : Decl E ℝ => decide (d.name ∈ (k.spec θ₀ vars).anc)) ∘
      fun d => (d.fix ε).decl θ₀ (vars.map (MixVar.fix ε))) =
      (vars.filter (fun d => decide (Above (vars.map MixVar.score) k.args d.name))).reverse := by
    rw [← List.filter_reverse]
    apply List.filter_congr
    intro d hd
    simp only [Function.comp]
    apply decide_eq_decide.2
    show d.name ∈ (k.spec θ₀ vars).anc ↔ _
    rw [MixCost.mem_anc]
    exact ⟨fun h => h.2, fun h => ⟨List.mem_map_of_mem (List.mem_reverse.1 hd), h⟩⟩
  rw [hf, List.map_reverse, List.prod_reverse]
  congr 1
  apply List.map_congr_left
  intro d hd
  have hd := (List.mem_filter.1 hd).1
  simp only [Function.comp]
  have h1 : scoredDecl vars ((d.fix ε).decl θ₀ (vars.map (MixVar.fix ε))) = d.how.scored :=
    any_name hg hd (fun d => d.how.scored)
  have h2 : mixDrawn vars ((d.fix ε).decl θ₀ (vars.map (MixVar.fix ε))) = d.how.drawn :=
    any_name hg hd (fun d => d.how.drawn)
  rw [h1, h2]
  cases hn : d.how.noisy with
  | true =>
    obtain ⟨n1, n2⟩ := noisy_iff.1 hn
    simp [n1, n2]
  | false =>
    have : (d.how.scored || !d.how.drawn) = true := by
      cases hh : d.how <;> simp_all [MixHow.noisy, MixHow.scored, MixHow.drawn]
    rw [this, fix_decl ε vars hn]
    simp only [if_true, Bool.false_eq_true, if_false]
    show d.prob (d.param θ (d.args.map (mixVal θ ρ vars))) (ρ d.name) = _
    rw [hval d.args (hg.args d hd)]

theorem noisy_scale {vars : List (MixVar E)} (hg : GoodNoisy vars) (k : MixCost E) (ε : String → ℝ) :
    ((((mixProg θ₀ (vars.map (MixVar.fix ε))).filter (fun d => decide (d.name ∈ (k.spec θ₀ vars).anc))).filter
      (mixDrawn vars)).map (fun d => 1 / (mixSize vars d.name : ℝ))).prod = noisyScale θ₀ vars k := by
  rw [fix_mixProg, List.filter_map, List.filter_map, List.map_map, noisyScale]
  have h : ∀ l : List (MixVar E), (∀ d ∈ l, d ∈ vars) →
      l.filter (mixDrawn vars ∘ fun d => (d.fix ε).decl θ₀ (vars.map (MixVar.fix ε))) =
        l.filter (fun d => d.how.drawn) := by
    intro l hl
    apply List.filter_congr
    intro d hd
    exact any_name hg (hl d hd) (fun d => d.how.drawn)
  show (((vars.reverse.filter (fun d => decide (d.name ∈ (k.spec θ₀ vars).anc))).filter _).map _).prod = _
  rw [h _ (fun d hd => List.mem_reverse.1 (List.mem_filter.1 hd).1)]
  congr 1
  apply List.map_congr_left
  intro d hd
  have hd : d ∈ vars := List.mem_reverse.1 (List.mem_filter.1 (List.mem_filter.1 hd).1).1
  simp only [Function.comp]
  have : mixSize vars d.name = d.size := by
    rw [← fix_mixSize ε, ← fix_size ε]
    exact mixSize_eq (hg.fix ε) (List.mem_map_of_mem (f := MixVar.fix ε) hd)
  rw [show ((d.fix ε).decl θ₀ (vars.map (MixVar.fix ε))).name = d.name from rfl, this]

theorem PositiveValues.same {vars : List (MixVar E)} {θ : E} (h0 : PositiveValues vars θ₀) (h : PositiveValues vars θ)
    {k : MixCost E} (hk : GoodNoisyCost θ₀ vars k) (ε : String → ℝ) :
    (k.fix ε).SameSupport (vars.map (MixVar.fix ε)) θ₀ θ := by
  intro x hx hs ρ v hv
  obtain ⟨d, hd, rfl⟩ := List.mem_map.1 hx
  have hn : d.how.noisy = false := scored_not_noisy (h := d.how) hs
  rw [fix_of_not hn] at hv ⊢
  exact Or.inl ⟨h0 d (hk.sub d hd) hn _ v hv, h d (hk.sub d hd) hn _ v hv⟩

/-- The average over the samples of a term of the loss, at a position where `ρ` is drawn. -/
theorem noisy_term {vars : List (MixVar E)} (hg : GoodNoisy vars) {k : MixCost E} (hk : GoodNoisyCost θ₀ vars k)
    {θ : E} (h0 : PositiveValues vars θ₀) (h : PositiveValues vars θ) (ρ : String → ℝ) :
    expectOne (fun d => d.mass θ₀) (mixScored θ₀ vars)
      (mixTerm (mixProg θ₀ vars) (mixDrawn vars) (mixSize vars) θ₀ (k.spec θ₀ vars) θ) ρ =
    noisyScale θ₀ vars k * expectOne (fun _ _ _ => 1)
      ((mixScored θ₀ vars).filter (fun d => decide (d.name ∈ (k.spec θ₀ vars).anc))) (fun ρ => jointCost vars k ρ θ ρ) ρ := by
  let ε : String → ℝ := fun _ => 0
  have hm := hg.fix ε
  have hkm := hk.fix hg ε
  have hok := hkm.spec hm
  rw [fix_spec, fix_mixDrawn] at hok
  have key := mixed_scored (sc := scoredDecl vars) (size := mixSize vars) (hm.program (θ₀ := θ₀) θ₀) ?_ hok ?_ (θ := θ) ?_ ρ
  · rw [mixScored_eq hg, noisy_scale hg] at key
    simp only [joint_weight hg hk] at key
    rw [← key]
    congr 1
    funext ρ
    have := fix_mixTerm (θ₀ := θ₀) vars ε k θ ρ
    rw [fix_mixDrawn, fix_mixSize, fix_spec] at this
    exact this.symm
  · intro x _ hx
    rw [scoredDecl, List.any_eq_true] at hx
    rw [mixDrawn, List.any_eq_true]
    obtain ⟨d, hd, hx⟩ := hx
    refine ⟨d, hd, ?_⟩
    simp only [Bool.and_eq_true] at hx ⊢
    exact ⟨hx.1, MixHow.drawn_of_scored hx.2⟩
  · intro x hx
    obtain ⟨d, hd, rfl⟩ := List.mem_map.1 hx
    obtain ⟨hd1, hd2⟩ := List.mem_filter.1 hd
    rw [scoredDecl]
    exact (any_name hg (hk.sub d hd1) (fun d => d.how.scored)).trans hd2
  · intro x hx ρ v hv
    rw [← fix_spec ε] at hx
    obtain ⟨d, hd, rfl⟩ := List.mem_map.1 hx
    obtain ⟨hd1, hd2⟩ := List.mem_filter.1 hd
    exact h0.same h hk ε d hd1 hd2 ρ v (mem_support.1 hv)

theorem meanNoise_fix (θ : E) (ε : String → ℝ) (F : (String → ℝ) → ℝ) (l : List (MixVar E)) : ∀ env,
    meanNoise θ ε l F env = meanRun θ (l.map (MixVar.fix ε)) F env := by
  induction l with
  | nil => intro env; rfl
  | cons d l ih =>
    intro env
    rw [List.map_cons, meanNoise, meanRun, show (d.fix ε).how = d.how from rfl, show (d.fix ε).name = d.name from rfl,
      show (d.fix ε).args = d.args from rfl, show (d.fix ε).param = d.param from rfl]
    cases h : d.how with
    | reparam n path => simp [MixVar.fix, h, MixHow.noisy, ih]
    | score n => simp [MixVar.fix, h, MixHow.noisy, ih]
    | expect => simp [MixVar.fix, h, MixHow.noisy, ih]

theorem withNoise_listed {vars : List (MixVar E)} (hg : GoodNoisy vars) {ω : Draws ℝ} (hω : ListedDraws vars ω)
    (n : Draws ℝ) : ListedDraws vars (withNoise vars n ω) := by
  intro d hd he i rest hi
  have : d.name ∉ noisyNames vars := by
    rw [mem_noisyNames hg hd, he]
    simp [MixHow.noisy]
  rw [withNoise, if_neg this]
  exact hω d hd he i rest hi

theorem fix_pos {vars : List (MixVar E)} (ε : String → ℝ) {ι : String → Nat} (h : MixPos vars ι) :
    MixPos (vars.map (MixVar.fix ε)) ι := by
  intro x hx
  obtain ⟨d, hd, rfl⟩ := List.mem_map.1 hx
  rw [fix_size]; exact h d hd

theorem noisy_positions {vars : List (MixVar E)} (hg : GoodNoisy vars) {k : MixCost E} (hk : GoodNoisyCost θ₀ vars k) :
    ∃ l : List (String → Nat), (∀ ι ∈ l, MixPos vars ι) ∧ ∀ g : (String → Nat) → ℝ,
      sumOver (mixArgKeys θ₀ vars k.args) g (fun _ => 0) = (l.map g).sum := by
  refine sumOver_positions (mixArgKeys θ₀ vars k.args) (MixPos vars) ?_ (fun _ => 0) ?_
  · intro ι hι p hp i hi d hd
    have := MixPos.update (hg.fix (fun _ => 0)) (hk.fix hg (fun _ => 0)) (fix_pos _ hι) p
      (by rw [fix_mixArgKeys]; exact hp) i hi (d.fix (fun _ => 0)) (List.mem_map_of_mem hd)
    rw [fix_size] at this
    exact this
  · intro d hd
    have := (hg.mem d hd).1
    show 0 < d.size
    omega

/-- The average over the samples of what a cost adds to the loss, and the mean cost for a given noise, as sums over the same
runs. -/
theorem noisy_sum {vars : List (MixVar E)} (hg : GoodNoisy vars) {k : MixCost E} (hk : GoodNoisyCost θ₀ vars k)
    {ω₀ : Draws ℝ} (hω : ListedDraws vars ω₀) :
    ∃ (c : ℝ) (L : List ((String → ℝ) × (String → List Nat))), (∀ p ∈ L, PossibleValues vars k p.1) ∧
      ∀ θ, PositiveValues vars θ₀ → PositiveValues vars θ →
        (∀ n, expect (mixProg θ₀ vars) θ₀ (mixScored θ₀ vars) (fun ω => mixValue θ₀ vars k ω θ) (withNoise vars n ω₀) =
          (L.map (fun p => c * jointCost vars k p.1 θ (fun s => n s (p.2 s)))).sum) ∧
        ∀ ε, meanNoise θ ε vars.reverse (fun env => k.f θ (k.args.map env)) (fun _ => 0) =
          (L.map (fun p => c * jointCost vars k p.1 θ ε)).sum := by
  classical
  have hpos := fun ε ι => fix_pos (vars := vars) ε (ι := ι)
  obtain ⟨l, l1, l2⟩ := noisy_positions hg hk
  set scA := (mixScored θ₀ vars).filter (fun d => decide (d.name ∈ (k.spec θ₀ vars).anc)) with hscA
  have hnd : (scA.map Decl.name).Nodup := (mixScored_nodup hg).sublist (List.filter_sublist.map _)
  obtain ⟨as, a1, a2⟩ := expectOne_ones scA hnd (fun _ => 0)
  choose sel hsel using trajectory_sel (mixProg θ₀ vars) (V := ℝ)
  let L : List ((String → ℝ) × (String → List Nat)) := l.flatMap (fun ι => as.map (fun a =>
    (override (scA.map Decl.name) a (trajectory (mixProg θ₀ vars) ω₀ ι), sel ι)))
  have hL : ∀ g : (String → ℝ) × (String → List Nat) → ℝ, (L.map g).sum = (l.map (fun ι => (as.map (fun a =>
      g (override (scA.map Decl.name) a (trajectory (mixProg θ₀ vars) ω₀ ι), sel ι))).sum)).sum := by
    intro g
    simp only [L]
    rw [List.map_flatMap, List.flatMap_def, List.sum_flatten, List.map_map]
    congr 1
    apply List.map_congr_left
    intro ι _
    simp only [Function.comp, List.map_map]
    rfl
  have hdraw : ∀ (n : Draws ℝ) ι a, override (scA.map Decl.name) a (trajectory (mixProg θ₀ vars) (withNoise vars n ω₀) ι) =
      drawnOnce vars (override (scA.map Decl.name) a (trajectory (mixProg θ₀ vars) ω₀ ι)) (fun s => n s (sel ι s)) := by
    intro n ι a
    funext s
    rw [hsel, hsel]
    simp only [override, drawnOnce, withNoise]
    by_cases hs : s ∈ noisyNames vars
    · have : s ∉ scA.map Decl.name := by
        intro hm
        obtain ⟨x, hx, he⟩ := List.mem_map.1 hm
        obtain ⟨d, hd, hd', rfl⟩ := mem_mixScored.1 (List.mem_filter.1 hx).1
        have he : d.name = s := he
        rw [← he, mem_noisyNames hg hd, scored_not_noisy hd'] at hs
        cases hs
      rw [if_neg this, if_pos hs, if_pos hs]
    · simp only [if_neg hs]
  have hterm : ∀ θ, PositiveValues vars θ₀ → PositiveValues vars θ → ∀ n,
      (l.map (fun ι => expectOne (fun d => d.mass θ₀) (mixScored θ₀ vars) (mixTerm (mixProg θ₀ vars) (mixDrawn vars)
        (mixSize vars) θ₀ (k.spec θ₀ vars) θ) (trajectory (mixProg θ₀ vars) (withNoise vars n ω₀) ι))).sum =
      (L.map (fun p => noisyScale θ₀ vars k * jointCost vars k p.1 θ (fun s => n s (p.2 s)))).sum := by
    intro θ h0 h n
    rw [hL]
    congr 1
    apply List.map_congr_left
    intro ι _
    rw [noisy_term hg hk h0 h, ← hscA, a1, ← List.sum_map_mul_left]
    congr 1
    apply List.map_congr_left
    intro a _
    rw [hdraw, jointCost_self hg]
  refine ⟨noisyScale θ₀ vars k, L, ?_, fun θ h0 h => ⟨fun n => ?_, fun ε => ?_⟩⟩
  · intro p hp d hd hn ha
    obtain ⟨ι, hι, hp⟩ := List.mem_flatMap.1 hp
    obtain ⟨a, ha', rfl⟩ := List.mem_map.1 hp
    simp only [override]
    cases hh : d.how with
    | reparam n path => rw [hh] at hn; cases hn
    | score m =>
      have hx : d.decl θ₀ vars ∈ scA := by
        rw [hscA, List.mem_filter]
        refine ⟨mem_mixScored.2 ⟨d, hd, by rw [hh]; rfl, rfl⟩, ?_⟩
        rw [decide_eq_true_eq]
        exact MixCost.mem_anc.2 ⟨List.mem_map_of_mem hd, ha⟩
      have hm : d.name ∈ scA.map Decl.name := List.mem_map_of_mem (f := Decl.name) hx
      rw [if_pos hm]
      exact mem_support.1 (a2 a ha' _ hx)
    | expect =>
      have hns : d.name ∉ scA.map Decl.name := by
        intro hm
        obtain ⟨x, hx, he⟩ := List.mem_map.1 hm
        obtain ⟨d', hd', hs, rfl⟩ := mem_mixScored.1 (List.mem_filter.1 hx).1
        have : d' = d := List.inj_on_of_nodup_map hg.nodup hd' hd he
        rw [this, hh] at hs
        cases hs
      rw [if_neg hns]
      have hm := hg.fix (fun _ => 0)
      have hfd : d.fix (fun _ => 0) = d := fix_of_not hn
      have hd' : d ∈ vars.map (MixVar.fix (fun _ => 0)) := by
        have := List.mem_map_of_mem (f := MixVar.fix (fun _ => 0)) hd
        rwa [hfd] at this
      have := (fix_listed (fun _ => 0) hω).lists (θ₀ := θ₀) hm (d.decl θ₀ _) (mem_mixProg.2 ⟨d, hd', rfl⟩)
        (by rw [mixDrawn_decl hm hd', hh]; rfl) ι (by
          rw [show (d.decl θ₀ (vars.map (MixVar.fix (fun _ => 0)))).name = d.name from rfl, mixVals_eq hm hd']
          have := l1 ι hι d hd
          rw [MixVar.size, hh] at this
          exact this)
      rw [show (d.decl θ₀ (vars.map (MixVar.fix (fun _ => 0)))).name = d.name from rfl, mixVals_eq hm hd',
        fix_trajectory] at this
      exact List.mem_of_getElem? this
  · rw [← hterm θ h0 h n]
    simp only [mixValue]
    rw [expect_sumOver, l2]
    congr 1
    apply List.map_congr_left
    intro ι hι
    have hm := hg.fix (fun _ => 0)
    have key := expect_trajectory (hm.program (θ₀ := θ₀) θ₀) (ι := ι) (mixScored θ₀ vars)
      (fun x hx => by
        rw [← mixScored_eq hg (fun _ => 0)] at hx
        exact (List.mem_filter.1 hx).1)
      (fun x hx => by
        rw [← mixScored_eq hg (fun _ => 0)] at hx
        exact hm.inPlates (hpos _ ι (l1 ι hι)) x (List.mem_filter.1 hx).1)
      (mixTerm (mixProg θ₀ vars) (mixDrawn vars) (mixSize vars) θ₀ (k.spec θ₀ vars) θ) (withNoise vars n ω₀)
    rw [expect_prog_congr (fun ω ι => fix_trajectory (fun _ => 0) vars ω ι)] at key
    simp only [fix_trajectory] at key
    exact key
  · have hm := hg.fix ε
    have hkm := hk.fix hg ε
    have hmean : meanNoise θ ε vars.reverse (fun env => k.f θ (k.args.map env)) (fun _ => 0) =
        expectOne (fun d => d.mass θ) (mixProg θ₀ (vars.map (MixVar.fix ε)))
          (fun ρ => k.f θ (k.args.map (mixVal θ ρ (vars.map (MixVar.fix ε))))) (fun _ => 0) := by
      rw [meanNoise_fix, List.map_reverse]
      exact meanRun_expect hm hkm θ
    let n : Draws ℝ := fun s _ => ε s
    have hl := withNoise_listed hg hω n
    rw [hmean]
    have h1 := expect_mixValue hm hkm (h0.same h hk ε) (fix_listed ε hl) (fun _ => 0)
    have h2 : expectOne (fun d => d.mass θ) (mixProg θ₀ (vars.map (MixVar.fix ε)))
          (fun ρ => k.f θ (k.args.map (mixVal θ ρ (vars.map (MixVar.fix ε))))) (fun _ => 0) = _ := h1.symm
    rw [h2, ← hterm θ h0 h n]
    simp only [mixValue]
    rw [expect_sumOver, show (k.fix ε).args = k.args from rfl, fix_mixArgKeys, l2]
    congr 1
    apply List.map_congr_left
    intro ι hι
    simp only [fix_mixTerm]
    rw [expect_trajectory (hm.program (θ₀ := θ₀) θ₀) (ι := ι) (mixSampled θ₀ (vars.map (MixVar.fix ε)))
      (fun x hx => (List.mem_filter.1 hx).1)
      (fun x hx => hm.inPlates (hpos _ ι (l1 ι hι)) x (List.mem_filter.1 hx).1), fix_trajectory]
    have hfil : (mixSampled θ₀ (vars.map (MixVar.fix ε))).filter (scoredDecl vars) = mixScored θ₀ vars := by
      rw [← mixScored_eq hg ε, mixSampled, fix_mixDrawn, List.filter_filter]
      apply List.filter_congr
      intro x _
      cases hs : scoredDecl vars x with
      | false => rfl
      | true =>
        rw [scoredDecl, List.any_eq_true] at hs
        obtain ⟨d, hd, hx⟩ := hs
        simp only [Bool.and_eq_true] at hx
        rw [Bool.true_and, mixDrawn, List.any_eq_true]
        exact ⟨d, hd, by simp only [Bool.and_eq_true]; exact ⟨hx.1, MixHow.drawn_of_scored hx.2⟩⟩
    rw [expectOne_fixed (scoredDecl vars) ε _ (mixSampled_nodup hm), hfil]
    · intro x hx hs
      obtain ⟨hx1, hx2⟩ := List.mem_filter.1 hx
      obtain ⟨d', hd', rfl⟩ := mem_mixProg.1 hx1
      obtain ⟨d, hd, rfl⟩ := List.mem_map.1 hd'
      rw [fix_mixDrawn] at hx2
      have e1 : d.how.drawn = true := by rw [← hx2]; exact (any_name hg hd (fun d => d.how.drawn)).symm
      have e2 : d.how.scored = false := by rw [← hs]; exact (any_name hg hd (fun d => d.how.scored)).symm
      have hn := noisy_iff.2 ⟨e1, e2⟩
      constructor
      · ext v
        rw [mem_support, Finset.mem_singleton]
        simp [MixVar.fix, hn, MixVar.decl]
      · intro ρ v
        simp [MixVar.fix, hn, MixVar.decl]
    · intro x hx hs
      obtain ⟨hx1, hx2⟩ := List.mem_filter.1 hx
      obtain ⟨d', hd', rfl⟩ := mem_mixProg.1 hx1
      obtain ⟨d, hd, rfl⟩ := List.mem_map.1 hd'
      rw [fix_mixDrawn] at hx2
      have e1 : d.how.drawn = true := by rw [← hx2]; exact (any_name hg hd (fun d => d.how.drawn)).symm
      have e2 : d.how.scored = false := by rw [← hs]; exact (any_name hg hd (fun d => d.how.scored)).symm
      have hn := noisy_iff.2 ⟨e1, e2⟩
      rw [hsel]
      show withNoise vars n ω₀ d.name _ = ε d.name
      rw [withNoise, if_pos ((mem_noisyNames hg hd).2 hn)]

theorem scored_listed {vars : List (MixVar E)} (hg : GoodNoisy vars) {ω ω' : Draws ℝ} (hω : ListedDraws vars ω)
    (h : ∀ s, s ∉ (mixScored θ₀ vars).map Decl.name → ω' s = ω s) : ListedDraws vars ω' := by
  intro d hd hn i rest hi
  rw [h]
  · exact hω d hd hn i rest hi
  · intro hm
    obtain ⟨x, hx, he⟩ := List.mem_map.1 hm
    obtain ⟨d', hd', hs, rfl⟩ := mem_mixScored.1 hx
    have : d' = d := List.inj_on_of_nodup_map hg.nodup hd' hd he
    rw [this, hn] at hs
    cases hs

theorem scored_withNoise {vars : List (MixVar E)} (hg : GoodNoisy vars) {n ω ω' : Draws ℝ}
    (h : ∀ s, s ∉ (mixScored θ₀ vars).map Decl.name → ω' s = withNoise vars n ω s) : withNoise vars n ω' = ω' := by
  funext s
  by_cases hs : s ∈ noisyNames vars
  · rw [h s]
    · simp only [withNoise, if_pos hs]
    · intro hm
      obtain ⟨x, hx, he⟩ := List.mem_map.1 hm
      obtain ⟨d, hd, hd', rfl⟩ := mem_mixScored.1 hx
      have he : d.name = s := he
      rw [← he, mem_noisyNames hg hd, scored_not_noisy hd'] at hs
      cases hs
  · simp only [withNoise, if_neg hs]

/-- The average of the loss over the samples, for given noise. -/
theorem noisy_average {vars : List (MixVar E)} (hg : GoodNoisy vars) {costs : List (MixCost E)} {loss : Draws ℝ → E → ℝ}
    {θ : E} (hr : ∀ ω, ListedDraws vars ω → loss ω θ = (costs.map (fun k => mixValue θ₀ vars k ω θ)).sum)
    {ω : Draws ℝ} (hω : ListedDraws vars ω) :
    expect (mixProg θ₀ vars) θ₀ (mixScored θ₀ vars) (fun ω => loss ω θ) ω =
      (costs.map (fun k => expect (mixProg θ₀ vars) θ₀ (mixScored θ₀ vars) (fun ω => mixValue θ₀ vars k ω θ) ω)).sum := by
  obtain ⟨l, l1, l2⟩ := expect_finite_some (mixProg θ₀ vars) θ₀ (mixScored θ₀ vars) (mixScored_nodup hg) ω
  rw [← expect_list_sum, l1, l1]
  congr 1
  apply List.map_congr_left
  intro p hp
  rw [hr p.2 (scored_listed hg hω (l2 p hp).2)]

theorem integral_runs {Ω : Type _} [MeasurableSpace Ω] {P : Measure Ω} {N : Ω → Draws ℝ} {ν : Measure (String → ℝ)}
    (hN : NoiseLaw P N ν) {g : (String → ℝ) → (String → ℝ) → ℝ} (c : ℝ) (L : List ((String → ℝ) × (String → List Nat)))
    (hi : ∀ p ∈ L, Integrable (g p.1) ν) :
    Integrable (fun o => (L.map (fun p => c * g p.1 (fun s => N o s (p.2 s)))).sum) P ∧
      ∫ o, (L.map (fun p => c * g p.1 (fun s => N o s (p.2 s)))).sum ∂P = (L.map (fun p => c * ∫ ε, g p.1 ε ∂ν)).sum := by
  refine integral_list L (fun p hp => ?_)
  have hp' := hN.preserving p.2
  refine ⟨(hp'.integrable_comp_of_integrable (hi p hp)).const_mul c, ?_⟩
  rw [integral_const_mul, ← hp'.map_eq, integral_map hp'.aemeasurable]
  rw [hp'.map_eq]
  exact (hi p hp).aestronglyMeasurable

theorem integral_joint {ν : Measure (String → ℝ)} {g : (String → ℝ) → (String → ℝ) → ℝ} (c : ℝ)
    (L : List ((String → ℝ) × (String → List Nat))) (hi : ∀ p ∈ L, Integrable (g p.1) ν) :
    ∫ ε, (L.map (fun p => c * g p.1 ε)).sum ∂ν = (L.map (fun p => c * ∫ ε, g p.1 ε ∂ν)).sum :=
  (integral_list (P := ν) L (fun p hp => ⟨(hi p hp).const_mul c, integral_const_mul _ _⟩)).2

/-- **C74, the value.**  A program of variables that use `ScoreFunction`, `Expect` or `Reparameterization`, with any law of
the noise, runs.  Its loss, averaged over the samples and the noise, is the expected cost. -/
theorem C74_value {hook : UnwrapHook (AD E θ₀)} (hh : PlainHook hook) {vars : List (MixVar E)} (hg : GoodNoisy vars)
    {costs : List (MixCost E)} (hne : costs ≠ []) (hk : ∀ k ∈ costs, GoodNoisyCost θ₀ vars k)
    {Ω : Type _} [MeasurableSpace Ω] {P : Measure Ω} {N : Ω → Draws ℝ} {ν : Measure (String → ℝ)} (hN : NoiseLaw P N ν) :
    ∃ loss : Draws ℝ → E → ℝ,
      (∀ ω, ListedDraws vars ω → ∃ r, runMixedProgram hook invN vars costs ω = .ok r ∧ r.plates = [] ∧
        r.ten.shape = [] ∧ r.ten.get [] = loss ω) ∧
      ∀ θ, PositiveValues vars θ₀ → PositiveValues vars θ →
        (∀ k ∈ costs, ∀ a, PossibleValues vars k a → Integrable (jointCost vars k a θ) ν) →
        ∀ ω₀, ListedDraws vars ω₀ →
          Integrable (fun o => expect (mixProg θ₀ vars) θ₀ (mixScored θ₀ vars) (fun ω => loss ω θ)
            (withNoise vars (N o) ω₀)) P ∧
          ∫ o, expect (mixProg θ₀ vars) θ₀ (mixScored θ₀ vars) (fun ω => loss ω θ) (withNoise vars (N o) ω₀) ∂P =
            expectedNoisy ν vars costs θ := by
  classical
  have : Nonempty (STen (AD E θ₀)) := ⟨⟨Ten.scalar 0, [], 0⟩⟩
  choose! r h1 h2 h3 h4 using fun ω (hω : ListedDraws vars ω) => noisy_runs hh hg hne hk hω
  refine ⟨fun ω => (r ω).ten.get [], fun ω hω => ⟨r ω, h1 ω hω, h2 ω hω, h3 ω hω, rfl⟩, ?_⟩
  intro θ p0 p hi ω₀ hω
  choose! c L s1 s2 using fun k (hk' : k ∈ costs) => noisy_sum hg (hk k hk') hω
  have e : ∀ o, expect (mixProg θ₀ vars) θ₀ (mixScored θ₀ vars) (fun ω => (r ω).ten.get [] θ) (withNoise vars (N o) ω₀) =
      (costs.map (fun k => ((L k).map (fun q => c k * jointCost vars k q.1 θ (fun s => N o s (q.2 s)))).sum)).sum := by
    intro o
    rw [noisy_average hg (loss := fun ω => (r ω).ten.get []) (fun ω hω => h4 ω hω θ p) (withNoise_listed hg hω _)]
    congr 1
    exact List.map_congr_left (fun k hk' => (s2 k hk' θ p0 p).1 (N o))
  simp only [e]
  have hl := integral_list (P := P) costs (fun k hk' => integral_runs (g := fun a => jointCost vars k a θ) hN (c k) (L k)
    (fun q hq => hi k hk' q.1 (s1 k hk' q hq)))
  refine ⟨hl.1, hl.2.trans ?_⟩
  rw [expectedNoisy]
  congr 1
  apply List.map_congr_left
  intro k hk'
  simp only [(s2 k hk' θ p0 p).2]
  exact (integral_joint (g := fun a => jointCost vars k a θ) (c k) (L k) (fun q hq => hi k hk' q.1 (s1 k hk' q hq))).symm

/-- The samples of `ScoreFunction` are in the support. -/
def ScoredDraws (θ₀ : E) (vars : List (MixVar E)) (ω : Draws ℝ) : Prop :=
  ∀ x ∈ mixScored θ₀ vars, ∀ i ∈ allIdx (x.idx.map Prod.snd), ω x.name i ∈ x.support

theorem traj_values {vars : List (MixVar E)} (hg : GoodNoisy vars) {ω : Draws ℝ} (hω : ListedDraws vars ω)
    (hs : ScoredDraws θ₀ vars ω) {ι : String → Nat} (hι : MixPos vars ι) :
    ∀ d ∈ vars, d.how.noisy = false → trajectory (mixProg θ₀ vars) ω ι d.name ∈ d.values := by
  intro d hd hn
  have hm := hg.fix (fun _ => 0)
  have hfd : d.fix (fun _ => 0) = d := fix_of_not hn
  have hd' : d ∈ vars.map (MixVar.fix (fun _ => 0)) := by
    have := List.mem_map_of_mem (f := MixVar.fix (fun _ => 0)) hd
    rwa [hfd] at this
  rw [← fix_trajectory (fun _ => 0)]
  cases hdr : d.how.drawn with
  | false =>
    have hn := MixHow.expect_of hdr
    have := (fix_listed (fun _ => 0) hω).lists (θ₀ := θ₀) hm (d.decl θ₀ _) (mem_mixProg.2 ⟨d, hd', rfl⟩)
      (by rw [mixDrawn_decl hm hd', hdr]) ι
      (by
        rw [show (d.decl θ₀ (vars.map (MixVar.fix (fun _ => 0)))).name = d.name from rfl, mixVals_eq hm hd']
        have := hι d hd
        rw [MixVar.size, hn] at this
        exact this)
    rw [show (d.decl θ₀ (vars.map (MixVar.fix (fun _ => 0)))).name = d.name from rfl, mixVals_eq hm hd'] at this
    exact List.mem_of_getElem? this
  | true =>
    have hsc : d.how.scored = true := by
      cases h : d.how.scored with
      | true => rfl
      | false => rw [noisy_iff.2 ⟨hdr, h⟩] at hn; cases hn
    have hx : d.decl θ₀ (vars.map (MixVar.fix (fun _ => 0))) ∈ mixProg θ₀ (vars.map (MixVar.fix (fun _ => 0))) :=
      mem_mixProg.2 ⟨d, hd', rfl⟩
    have he : d.decl θ₀ (vars.map (MixVar.fix (fun _ => 0))) = d.decl θ₀ vars := by
      have := fix_decl (θ₀ := θ₀) (fun _ => 0) vars hn
      rwa [hfd] at this
    have h1 := hs (d.decl θ₀ vars) (mem_mixScored.2 ⟨d, hd, hsc, rfl⟩) _
      (by rw [← he]; exact (hm.inPlates (fix_pos _ hι) _ hx).mem)
    rw [← he, ← trajectory_decl hm.progNodup hx ω ι] at h1
    exact mem_support.1 h1

/-- A term of the loss is a multiple of the cost with the probability of its run. -/
theorem mixTerm_joint {vars : List (MixVar E)} (hg : GoodNoisy vars) {k : MixCost E} (hk : GoodNoisyCost θ₀ vars k)
    (h0 : PositiveValues vars θ₀) {ρ : String → ℝ} (hρ : PossibleValues vars k ρ) :
    ∃ c : ℝ, ∀ θ, PositiveValues vars θ →
      mixTerm (mixProg θ₀ vars) (mixDrawn vars) (mixSize vars) θ₀ (k.spec θ₀ vars) θ ρ = c * jointCost vars k ρ θ ρ := by
  let ε : String → ℝ := fun _ => 0
  have hm := hg.fix ε
  have hok := (hk.fix hg ε).spec hm
  rw [fix_spec, fix_mixDrawn] at hok
  obtain ⟨c, hc⟩ := mixTerm_scored (sc := scoredDecl vars) (size := mixSize vars) (hm.program (θ₀ := θ₀) θ₀)
    (by
      intro x _ hx
      rw [scoredDecl, List.any_eq_true] at hx
      rw [mixDrawn, List.any_eq_true]
      obtain ⟨d, hd, hx⟩ := hx
      refine ⟨d, hd, ?_⟩
      simp only [Bool.and_eq_true] at hx ⊢
      exact ⟨hx.1, MixHow.drawn_of_scored hx.2⟩) hok
    (by
      intro x hx
      obtain ⟨d, hd, rfl⟩ := List.mem_map.1 hx
      obtain ⟨hd1, hd2⟩ := List.mem_filter.1 hd
      rw [scoredDecl]
      exact (any_name hg (hk.sub d hd1) (fun d => d.how.scored)).trans hd2) ρ
  refine ⟨c, fun θ hθ => ?_⟩
  have := hc θ (by
    intro x hx hs ha
    obtain ⟨d', hd', rfl⟩ := mem_mixProg.1 hx
    obtain ⟨d, hd, rfl⟩ := List.mem_map.1 hd'
    have e : d.how.scored = true := by rw [← hs]; exact (any_name hg hd (fun d => d.how.scored)).symm
    have hn := scored_not_noisy e
    have hv := hρ d hd hn (MixCost.mem_anc.1 ha).2
    rw [fix_of_not hn]
    exact ⟨h0 d hd hn _ _ hv, hθ d hd hn _ _ hv⟩)
  rw [joint_weight hg hk] at this
  rw [← this]
  have e := fix_mixTerm (θ₀ := θ₀) vars ε k θ ρ
  rw [fix_mixDrawn, fix_mixSize, fix_spec] at e
  exact e.symm

theorem pathRun_congr (θ : E) {a b : String → ℝ} : ∀ (l : List (MixVar E)), (∀ d ∈ l, a d.name = b d.name) → ∀ env,
    pathRun θ a l env = pathRun θ b l env
  | [], _, _ => rfl
  | d :: l, h, env => by
    rw [pathRun, pathRun, h d (by simp)]
    exact pathRun_congr θ l (fun x hx => h x (List.mem_cons_of_mem _ hx)) _

theorem jointCost_congr {vars : List (MixVar E)} (hg : GoodNoisy vars) (k : MixCost E) {a b : String → ℝ}
    (h : ∀ d ∈ vars, d.how.noisy = false → a d.name = b d.name) (θ : E) (ε : String → ℝ) :
    jointCost vars k a θ ε = jointCost vars k b θ ε := by
  classical
  have hv : valuesOnce vars θ a ε = valuesOnce vars θ b ε := by
    apply pathRun_congr
    intro d hd
    have hd := List.mem_reverse.1 hd
    simp only [drawnOnce, mem_noisyNames hg hd]
    cases hn : d.how.noisy with
    | true => rfl
    | false => simpa using h d hd hn
  rw [jointCost, jointCost, hv]
  congr 2
  apply List.map_congr_left
  intro d hd
  cases hn : d.how.noisy with
  | true => rfl
  | false => rw [h d (List.mem_filter.1 hd).1 hn]

/-- All choices of values. -/
noncomputable def choices : List (MixVar E) → List (String → ℝ)
  | [] => [fun _ => 0]
  | d :: ds => (choices ds).flatMap (fun a => d.values.map (fun v => Function.update a d.name v)) ++ choices ds

theorem mem_choices : ∀ (l : List (MixVar E)) (a : String → ℝ), (∀ d ∈ l, d.how.noisy = false → a d.name ∈ d.values) →
    ∃ b ∈ choices l, ∀ d ∈ l, d.how.noisy = false → b d.name = a d.name
  | [], _, _ => ⟨fun _ => 0, by simp [choices], by simp⟩
  | d :: l, a, h => by
    obtain ⟨b, hb, e⟩ := mem_choices l a (fun x hx => h x (List.mem_cons_of_mem _ hx))
    cases hn : d.how.noisy with
    | true =>
      refine ⟨b, List.mem_append_right _ hb, fun x hx hx' => ?_⟩
      rcases List.mem_cons.1 hx with rfl | hx
      · rw [hn] at hx'; cases hx'
      · exact e x hx hx'
    | false =>
      refine ⟨Function.update b d.name (a d.name), List.mem_append_left _ (List.mem_flatMap.2 ⟨b, hb,
        List.mem_map.2 ⟨a d.name, h d (by simp) hn, rfl⟩⟩), fun x hx hx' => ?_⟩
      by_cases he : x.name = d.name
      · rw [he, Function.update_self]
      · rw [Function.update_of_ne he]
        rcases List.mem_cons.1 hx with rfl | hx
        · exact absurd rfl he
        · exact e x hx hx'

end

section
variable {E : Type _} [NormedAddCommGroup E] [NormedSpace ℝ E] {θ₀ : E}

/-- Near `θ₀` the cost is integrable. -/
theorem RegularCost.near {ν : Measure (String → ℝ)} {g : E → (String → ℝ) → ℝ} (h : RegularCost ν g θ₀) :
    ∀ᶠ θ in 𝓝 θ₀, Integrable (g θ) ν := by
  obtain ⟨s, hs, B, hB, hb⟩ := h.bound
  obtain ⟨r, hr, hr'⟩ := Metric.mem_nhds_iff.1 hs
  filter_upwards [h.meas, Metric.ball_mem_nhds θ₀ hr] with θ hm hθ
  have hint : Integrable (fun ε => ‖g θ₀ ε‖ + B ε * ‖θ - θ₀‖) ν := h.int.norm.add (hB.mul_const _)
  refine hint.mono' hm (hb.mono fun ε hε => ?_)
  have := (convex_ball θ₀ r).norm_image_sub_le_of_norm_fderiv_le (𝕜 := ℝ) (f := fun θ => g θ ε) (C := B ε)
    (fun x hx => (hε x (hr' hx)).1) (fun x hx => (hε x (hr' hx)).2) (Metric.mem_ball_self hr) hθ
  calc ‖g θ ε‖ = ‖g θ₀ ε + (g θ ε - g θ₀ ε)‖ := by ring_nf
    _ ≤ ‖g θ₀ ε‖ + ‖g θ ε - g θ₀ ε‖ := norm_add_le _ _
    _ ≤ _ := by linarith

theorem ae_list {Ω : Type _} [MeasurableSpace Ω] {P : Measure Ω} {α : Type _} {p : α → Ω → Prop} : ∀ l : List α,
    (∀ a ∈ l, ∀ᵐ o ∂P, p a o) → ∀ᵐ o ∂P, ∀ a ∈ l, p a o
  | [], _ => .of_forall fun _ _ h => by cases h
  | a :: l, h => by
    filter_upwards [h a (by simp), ae_list l (fun b hb => h b (List.mem_cons_of_mem _ hb))] with o h1 h2 x hx
    rcases List.mem_cons.1 hx with rfl | hx
    · exact h1
    · exact h2 x hx

omit [NormedSpace ℝ E] in
theorem eventually_list {α : Type _} {p : α → E → Prop} : ∀ l : List α,
    (∀ a ∈ l, ∀ᶠ θ in 𝓝 θ₀, p a θ) → ∀ᶠ θ in 𝓝 θ₀, ∀ a ∈ l, p a θ
  | [], _ => .of_forall fun _ _ h => by cases h
  | a :: l, h => by
    filter_upwards [h a (by simp), eventually_list l (fun b hb => h b (List.mem_cons_of_mem _ hb))] with o h1 h2 x hx
    rcases List.mem_cons.1 hx with rfl | hx
    · exact h1
    · exact h2 x hx

theorem list_apply {α : Type _} (f : α → E →L[ℝ] ℝ) (u : E) : ∀ l : List α,
    (l.map f).sum u = (l.map (fun a => f a u)).sum
  | [] => rfl
  | a :: l => by
    simp only [List.map_cons, List.sum_cons]
    rw [← list_apply f u l]
    rfl

/-- **C74, the gradient.**  For almost all noise the loss of the program is differentiable in the parameters, whatever the
samples are.  Its gradient, averaged over the samples and the noise, is the gradient of the expected cost. -/
theorem C74_gradient {hook : UnwrapHook (AD E θ₀)} (hh : PlainHook hook) {vars : List (MixVar E)} (hg : GoodNoisy vars)
    {costs : List (MixCost E)} (hne : costs ≠ []) (hk : ∀ k ∈ costs, GoodNoisyCost θ₀ vars k)
    {Ω : Type _} [MeasurableSpace Ω] {P : Measure Ω} {N : Ω → Draws ℝ} {ν : Measure (String → ℝ)} (hN : NoiseLaw P N ν)
    (hpos : ∀ᶠ θ in 𝓝 θ₀, PositiveValues vars θ)
    (hreg : ∀ k ∈ costs, ∀ a, PossibleValues vars k a → RegularCost ν (jointCost vars k a) θ₀) :
    ∃ loss : Draws ℝ → E → ℝ,
      (∀ ω, ListedDraws vars ω → ∃ r, runMixedProgram hook invN vars costs ω = .ok r ∧ r.plates = [] ∧
        r.ten.shape = [] ∧ r.ten.get [] = loss ω) ∧
      (∀ᵐ o ∂P, ∀ ω, ListedDraws vars ω → ScoredDraws θ₀ vars ω →
        DifferentiableAt ℝ (loss (withNoise vars (N o) ω)) θ₀) ∧
      ∀ ω₀, ListedDraws vars ω₀ → ∃ G : E →L[ℝ] ℝ, HasFDerivAt (expectedNoisy ν vars costs) G θ₀ ∧
        ∀ u, Integrable (fun o => expect (mixProg θ₀ vars) θ₀ (mixScored θ₀ vars) (fun ω => fderiv ℝ (loss ω) θ₀ u)
            (withNoise vars (N o) ω₀)) P ∧
          ∫ o, expect (mixProg θ₀ vars) θ₀ (mixScored θ₀ vars) (fun ω => fderiv ℝ (loss ω) θ₀ u)
            (withNoise vars (N o) ω₀) ∂P = G u := by
  classical
  have : Nonempty (STen (AD E θ₀)) := ⟨⟨Ten.scalar 0, [], 0⟩⟩
  have p0 : PositiveValues vars θ₀ := hpos.self_of_nhds
  choose! r h1 h2 h3 h4 using fun ω (hω : ListedDraws vars ω) => noisy_runs hh hg hne hk hω
  choose sel hsel using trajectory_sel (mixProg θ₀ vars) (V := ℝ)
  choose! l l1 l2 using fun k (hk' : k ∈ costs) => noisy_positions hg (hk k hk')
  have hae : ∀ᵐ o ∂P, ∀ k ∈ costs, ∀ ι ∈ l k, ∀ b ∈ choices vars, PossibleValues vars k b →
      DifferentiableAt ℝ (fun θ => jointCost vars k b θ (fun s => N o s (sel ι s))) θ₀ := by
    refine ae_list _ (fun k hk' => ae_list _ (fun ι _ => ae_list _ (fun b _ => ?_)))
    by_cases hb : PossibleValues vars k b
    · have := (hN.preserving (sel ι)).quasiMeasurePreserving.ae (hreg k hk' b hb).deriv.1
      exact this.mono fun o ho _ => ho
    · exact .of_forall fun o h => absurd h hb
  have hdiff : ∀ᵐ o ∂P, ∀ ω, ListedDraws vars ω → ScoredDraws θ₀ vars ω →
        DifferentiableAt ℝ ((r (withNoise vars (N o) ω)).ten.get []) θ₀ := by
    filter_upwards [hae] with o ho ω hω hs
    have he : (r (withNoise vars (N o) ω)).ten.get [] =ᶠ[𝓝 θ₀]
        fun θ => (costs.map (fun k => mixValue θ₀ vars k (withNoise vars (N o) ω) θ)).sum := by
      filter_upwards [hpos] with θ hθ
      exact h4 _ (withNoise_listed hg hω _) θ hθ
    refine DifferentiableAt.congr_of_eventuallyEq ?_ he
    have hterm : ∀ k ∈ costs, ∀ ι ∈ l k, DifferentiableAt ℝ (fun θ => mixTerm (mixProg θ₀ vars) (mixDrawn vars)
        (mixSize vars) θ₀ (k.spec θ₀ vars) θ (trajectory (mixProg θ₀ vars) (withNoise vars (N o) ω) ι)) θ₀ := by
      intro k hk' ι hι
      have ht : trajectory (mixProg θ₀ vars) (withNoise vars (N o) ω) ι =
          drawnOnce vars (trajectory (mixProg θ₀ vars) ω ι) (fun s => N o s (sel ι s)) := by
        funext s
        rw [hsel, hsel]
        simp only [drawnOnce, withNoise]
        split <;> rfl
      have hv := traj_values hg hω hs (l1 k hk' ι hι)
      obtain ⟨b, hb, hbe⟩ := mem_choices vars _ hv
      have hbp : PossibleValues vars k b := fun d hd hn _ => by rw [hbe d hd hn]; exact hv d hd hn
      have hrp : PossibleValues vars k (drawnOnce vars (trajectory (mixProg θ₀ vars) ω ι) (fun s => N o s (sel ι s))) := by
        intro d hd hn _
        have : d.name ∉ noisyNames vars := by rw [mem_noisyNames hg hd, hn]; simp
        rw [drawnOnce, if_neg this]
        exact hv d hd hn
      obtain ⟨c, hc⟩ := mixTerm_joint hg (hk k hk') p0 hrp
      rw [ht]
      refine DifferentiableAt.congr_of_eventuallyEq ((ho k hk' ι hι b hb hbp).const_mul c) ?_
      filter_upwards [hpos] with θ hθ
      rw [hc θ hθ, jointCost_self hg, jointCost_congr hg k hbe]
    have hl : ∀ k ∈ costs, DifferentiableAt ℝ (fun θ => mixValue θ₀ vars k (withNoise vars (N o) ω) θ) θ₀ := by
      intro k hk'
      simp only [mixValue, l2 k hk']
      exact (hasFDerivAt_list (l k) (fun ι hι => (hterm k hk' ι hι).hasFDerivAt)).differentiableAt
    exact (hasFDerivAt_list costs (fun k hk' => (hl k hk').hasFDerivAt)).differentiableAt
  refine ⟨fun ω => (r ω).ten.get [], fun ω hω => ⟨r ω, h1 ω hω, h2 ω hω, h3 ω hω, rfl⟩, hdiff, ?_⟩
  intro ω₀ hω
  choose! c L s1 s2 using fun k (hk' : k ∈ costs) => noisy_sum hg (hk k hk') hω
  refine ⟨(costs.map (fun k => ((L k).map (fun q => c k • ∫ ε, fderiv ℝ (fun θ => jointCost vars k q.1 θ ε) θ₀ ∂ν)).sum)).sum,
    ?_, fun u => ?_⟩
  · have hnear : ∀ᶠ θ in 𝓝 θ₀, ∀ k ∈ costs, ∀ q ∈ L k, Integrable (jointCost vars k q.1 θ) ν :=
      eventually_list _ (fun k hk' => eventually_list _ (fun q hq => (hreg k hk' q.1 (s1 k hk' q hq)).near))
    have he : expectedNoisy ν vars costs =ᶠ[𝓝 θ₀] fun θ => (costs.map (fun k => ((L k).map (fun q =>
        c k * ∫ ε, jointCost vars k q.1 θ ε ∂ν)).sum)).sum := by
      filter_upwards [hpos, hnear] with θ hθ hi
      rw [expectedNoisy]
      congr 1
      apply List.map_congr_left
      intro k hk'
      simp only [(s2 k hk' θ p0 hθ).2]
      exact integral_joint (g := fun a => jointCost vars k a θ) (c k) (L k) (hi k hk')
    refine HasFDerivAt.congr_of_eventuallyEq ?_ he
    refine hasFDerivAt_list costs (fun k hk' => hasFDerivAt_list (L k) (fun q hq => ?_))
    exact (hreg k hk' q.1 (s1 k hk' q hq)).deriv.2.2.const_mul _
  · have hd2 : ∀ᵐ o ∂P, ∀ k ∈ costs, ∀ q ∈ L k,
        DifferentiableAt ℝ (fun θ => jointCost vars k q.1 θ (fun s => N o s (q.2 s))) θ₀ :=
      ae_list _ (fun k hk' => ae_list _ (fun q hq =>
        (hN.preserving q.2).quasiMeasurePreserving.ae (hreg k hk' q.1 (s1 k hk' q hq)).deriv.1))
    have e : ∀ᵐ o ∂P, expect (mixProg θ₀ vars) θ₀ (mixScored θ₀ vars) (fun ω => fderiv ℝ ((r ω).ten.get []) θ₀ u)
        (withNoise vars (N o) ω₀) = (costs.map (fun k => ((L k).map (fun q => c k *
          (fderiv ℝ (fun θ => jointCost vars k q.1 θ (fun s => N o s (q.2 s))) θ₀ u))).sum)).sum := by
      filter_upwards [hdiff, hd2] with o ho ho2
      obtain ⟨m, m1, m2⟩ := expect_finite_some (mixProg θ₀ vars) θ₀ (mixScored θ₀ vars) (mixScored_nodup hg)
        (withNoise vars (N o) ω₀)
      have hωo := withNoise_listed hg hω (N o)
      have hm : ∀ p ∈ m, HasFDerivAt (fun θ => p.1 * (r p.2).ten.get [] θ) (p.1 • fderiv ℝ ((r p.2).ten.get []) θ₀) θ₀ := by
        intro p hp
        have := ho p.2 (scored_listed hg hωo (m2 p hp).2) (m2 p hp).1
        rw [scored_withNoise hg (m2 p hp).2] at this
        exact this.hasFDerivAt.const_mul _
      have hA := hasFDerivAt_list m hm
      have hB := hasFDerivAt_list costs (fun k hk' => hasFDerivAt_list (L k) (fun q hq =>
        (ho2 k hk' q hq).hasFDerivAt.const_mul (c k)))
      have hE : (fun θ => (m.map (fun p => p.1 * (r p.2).ten.get [] θ)).sum) =ᶠ[𝓝 θ₀] fun θ => (costs.map (fun k =>
          ((L k).map (fun q => c k * jointCost vars k q.1 θ (fun s => N o s (q.2 s)))).sum)).sum := by
        filter_upwards [hpos] with θ hθ
        rw [← m1 (fun ω => (r ω).ten.get [] θ), noisy_average hg (loss := fun ω => (r ω).ten.get [])
          (fun ω hω => h4 ω hω θ hθ) hωo]
        congr 1
        exact List.map_congr_left (fun k hk' => (s2 k hk' θ p0 hθ).1 (N o))
      have := (hB.congr_of_eventuallyEq hE).unique hA
      have := congrArg (fun F : E →L[ℝ] ℝ => F u) this
      simp only [list_apply] at this
      rw [m1]
      exact this.symm
    have hl := integral_list (P := P) costs (fun k hk' => integral_runs
      (g := fun a ε => fderiv ℝ (fun θ => jointCost vars k a θ ε) θ₀ u) hN (c k) (L k)
      (fun q hq => (hreg k hk' q.1 (s1 k hk' q hq)).deriv.2.1.apply_continuousLinearMap u))
    refine ⟨hl.1.congr (e.mono fun o ho => ho.symm), ?_⟩
    rw [integral_congr_ae e, hl.2, list_apply]
    congr 1
    apply List.map_congr_left
    intro k hk'
    rw [list_apply]
    congr 1
    apply List.map_congr_left
    intro q hq
    rw [smul_apply, smul_eq_mul, ContinuousLinearMap.integral_apply (hreg k hk' q.1 (s1 k hk' q hq)).deriv.2.1]

end

/-! ## A case: a Gaussian variable, a sampled and an enumerated Bernoulli variable -/

namespace NoisyCase
open ProbabilityTheory

/-- The probabilities of a Bernoulli variable with logit `π`. -/
noncomputable def bern (π v : ℝ) : ℝ := if v = 1 then Real.sigmoid π else 1 - Real.sigmoid π

noncomputable def x : MixVar ℝ := ⟨"x", .reparam 2 (fun π ε => π + ε), [], fun θ _ => θ, [], fun _ _ => 0⟩
noncomputable def b : MixVar ℝ := ⟨"b", .score 3, ["x"], fun _ xs => xs.getD 0 0, [0, 1], bern⟩
noncomputable def z : MixVar ℝ := ⟨"z", .expect, ["b"], fun _ xs => xs.getD 0 0, [0, 1], bern⟩
noncomputable def vars : List (MixVar ℝ) := [z, b, x]
noncomputable def cost : MixCost ℝ := ⟨["z", "x"], fun _ xs => xs.getD 0 0 * xs.getD 1 0, [z, b, x]⟩

/-- Standard Gaussian noise. -/
noncomputable def law : Measure (String → ℝ) := Measure.infinitePi (fun _ => gaussianReal 0 1)

theorem bern_sum (π : ℝ) : ([0, 1].map (bern π)).sum = 1 := by simp [bern]

theorem bern_bound (π v : ℝ) : 0 < bern π v ∧ bern π v ≤ 1 := by
  unfold bern
  split
  · exact ⟨Real.sigmoid_pos π, Real.sigmoid_le_one π⟩
  · exact ⟨by linarith [Real.sigmoid_lt_one π], by linarith [Real.sigmoid_pos π]⟩

theorem good : GoodNoisy vars := by
  refine ⟨⟨⟨trivial, by simp, by simp [x], ⟨by simp [x, MixVar.size], MixSizes.several (by simp [x, MixVar.size])⟩,
    by simp [x, MixHow.noisy], by simp [x]⟩, ?_, ?_, ?_, ?_, ?_⟩,
    ?_, ?_, ?_, ?_, ?_⟩
  · simp [b, x]
  · simp [b, x]
  · exact ⟨by simp [b, MixVar.size], MixSizes.several (by simp [x, b, MixVar.size])⟩
  · exact fun _ => ⟨by simp [b], bern_sum⟩
  · simp [b]
  · simp [b, x, z]
  · simp [b, z]
  · exact ⟨by simp [z, MixVar.size], MixSizes.several (by simp [x, b, z, MixVar.size])⟩
  · exact fun _ => ⟨by simp [z], bern_sum⟩
  · simp [z]

theorem goodCost : GoodNoisyCost (0 : ℝ) vars cost := by
  refine ⟨by simp [cost], by simp [vars, cost, x, b, z], by simp [vars, cost], ?_, by simp [cost, x, b, z],
    fun d hd _ _ => Or.inl hd⟩
  have hz : Above (vars.map MixVar.score) cost.args "z" := .arg (by simp [cost])
  have hb : Above (vars.map MixVar.score) cost.args "b" := .step (d := z.score) (by simp [vars]) hz (by simp [z, MixVar.score])
  intro d hd
  simp only [cost, List.mem_cons, List.not_mem_nil, or_false] at hd
  rcases hd with rfl | rfl | rfl
  · exact hz
  · exact hb
  · exact .arg (by simp [cost, x])

theorem cost_eq (a : String → ℝ) (θ : ℝ) (ε : String → ℝ) : jointCost vars cost a θ ε =
    (bern (a "b") (a "z") * a "z") * (bern (θ + ε "x") (a "b") * (θ + ε "x")) := by
  classical
  have hz : Above (vars.map MixVar.score) cost.args "z" := .arg (by simp [cost])
  have hb : Above (vars.map MixVar.score) cost.args "b" := .step (d := z.score) (by simp [vars]) hz (by simp [z, MixVar.score])
  have hx : Above (vars.map MixVar.score) cost.args "x" := .arg (by simp [cost])
  have e : ∀ d ∈ vars, Above (vars.map MixVar.score) cost.args d.name := by
    intro d hd
    simp only [vars, List.mem_cons, List.not_mem_nil, or_false] at hd
    rcases hd with rfl | rfl | rfl
    · exact hz
    · exact hb
    · exact hx
  rw [jointCost, List.filter_eq_self.2 (fun d hd => decide_eq_true (e d hd))]
  simp [vars, cost, x, b, z, MixHow.noisy, valuesOnce, pathRun, drawnOnce, noisyNames]
  ring

theorem int_abs : Integrable (fun ε : String → ℝ => |ε "x"|) law := by
  have h : Integrable (fun a : ℝ => |a|) (gaussianReal 0 1) := ((memLp_id_gaussianReal 1).integrable (by simp)).abs
  exact (measurePreserving_eval_infinitePi (fun _ : String => gaussianReal 0 1) "x").integrable_comp_of_integrable h

theorem bern_deriv (v y : ℝ) : HasDerivAt (fun y => bern y v * y)
    ((if v = 1 then 1 else -1) * (Real.sigmoid y * (1 - Real.sigmoid y)) * y + bern y v) y := by
  unfold bern
  by_cases h : v = 1
  · simp only [if_pos h]
    refine ((Real.hasDerivAt_sigmoid y).mul (hasDerivAt_id y)).congr_deriv ?_
    simp
  · simp only [if_neg h]
    refine (((Real.hasDerivAt_sigmoid y).const_sub 1).mul (hasDerivAt_id y)).congr_deriv ?_
    simp

theorem hasDeriv (a : String → ℝ) (θ : ℝ) (ε : String → ℝ) : HasDerivAt (fun θ => jointCost vars cost a θ ε)
    ((bern (a "b") (a "z") * a "z") * ((if a "b" = 1 then 1 else -1) * (Real.sigmoid (θ + ε "x") *
      (1 - Real.sigmoid (θ + ε "x"))) * (θ + ε "x") + bern (θ + ε "x") (a "b"))) θ := by
  simp only [cost_eq]
  have h := (bern_deriv (a "b") (θ + ε "x")).comp θ ((hasDerivAt_id θ).add_const (ε "x"))
  rw [mul_one] at h
  exact h.const_mul _

theorem sigmoid_measurable : Measurable Real.sigmoid := continuous_sigmoid.measurable

theorem regular {a : String → ℝ} (ha : PossibleValues vars cost a) : RegularCost law (jointCost vars cost a) (0 : ℝ) := by
  have hP : IsProbabilityMeasure law := by unfold law; infer_instance
  have hz : a "z" = 0 ∨ a "z" = 1 := by
    have := ha z (by simp [vars]) rfl (.arg (by simp [cost, z]))
    simpa [z] using this
  have hK : |bern (a "b") (a "z") * a "z"| ≤ 1 := by
    obtain ⟨h1, h2⟩ := bern_bound (a "b") (a "z")
    rcases hz with h | h <;> rw [h] at h1 h2 ⊢
    · simp
    · rw [mul_one, abs_of_pos h1]; exact h2
  have hx : ∀ θ : ℝ, Measurable (fun ε : String → ℝ => θ + ε "x") := fun θ => by fun_prop
  have hs : ∀ θ : ℝ, Measurable (fun ε : String → ℝ => Real.sigmoid (θ + ε "x")) := fun θ => sigmoid_measurable.comp (hx θ)
  have hbm : ∀ θ : ℝ, Measurable (fun ε : String → ℝ => bern (θ + ε "x") (a "b")) := by
    intro θ
    unfold bern
    split
    · exact hs θ
    · exact (hs θ).const_sub 1
  have hc : ∀ θ : ℝ, Measurable (jointCost vars cost a θ) := by
    intro θ
    simp only [funext (cost_eq a θ)]
    exact ((hbm θ).mul (hx θ)).const_mul _
  have hB : Integrable (fun ε : String → ℝ => 2 + |ε "x"|) law := (integrable_const _).add int_abs
  have hf : ∀ (θ : ℝ) ε, fderiv ℝ (fun θ => jointCost vars cost a θ ε) θ =
      ((bern (a "b") (a "z") * a "z") * ((if a "b" = 1 then 1 else -1) * (Real.sigmoid (θ + ε "x") *
      (1 - Real.sigmoid (θ + ε "x"))) * (θ + ε "x") + bern (θ + ε "x") (a "b"))) • (1 : ℝ →L[ℝ] ℝ) := by
    intro θ ε
    rw [(hasDeriv a θ ε).hasFDerivAt.fderiv]
    ext
    simp
  refine ⟨.of_forall fun θ => (hc θ).aestronglyMeasurable, ?_, ?_, ?_⟩
  · refine hB.mono' (hc 0).aestronglyMeasurable (.of_forall fun ε => ?_)
    rw [cost_eq, Real.norm_eq_abs, zero_add, abs_mul]
    obtain ⟨h1, h2⟩ := bern_bound (ε "x") (a "b")
    have h3 : |bern (ε "x") (a "b") * ε "x"| ≤ 1 * |ε "x"| := by
      rw [abs_mul, abs_of_pos h1]
      exact mul_le_mul_of_nonneg_right h2 (abs_nonneg _)
    have := mul_le_mul hK h3 (abs_nonneg _) zero_le_one
    linarith
  · simp only [hf]
    have : Measurable (fun ε : String → ℝ => (bern (a "b") (a "z") * a "z") * ((if a "b" = 1 then 1 else -1) *
        (Real.sigmoid (0 + ε "x") * (1 - Real.sigmoid (0 + ε "x"))) * (0 + ε "x") + bern (0 + ε "x") (a "b"))) :=
      ((((((hs 0).mul ((hs 0).const_sub 1)).const_mul _).mul (hx 0)).add (hbm 0)).const_mul _)
    exact (this.smul_const _).aestronglyMeasurable
  · refine ⟨Metric.ball 0 1, Metric.ball_mem_nhds _ one_pos, _, hB, .of_forall fun ε θ hθ =>
      ⟨(hasDeriv a θ ε).differentiableAt, ?_⟩⟩
    rw [hf, norm_smul, norm_one, mul_one, Real.norm_eq_abs, abs_mul]
    rw [Metric.mem_ball, Real.dist_eq, sub_zero] at hθ
    obtain ⟨h1, h2⟩ := bern_bound (θ + ε "x") (a "b")
    have p1 := Real.sigmoid_pos (θ + ε "x")
    have p2 := Real.sigmoid_lt_one (θ + ε "x")
    have h3 : |(if a "b" = 1 then (1 : ℝ) else -1) * (Real.sigmoid (θ + ε "x") *
      (1 - Real.sigmoid (θ + ε "x"))) * (θ + ε "x") + bern (θ + ε "x") (a "b")| ≤ 2 + |ε "x"| := by
      refine (abs_add_le _ _).trans ?_
      rw [abs_mul, abs_mul, abs_of_pos h1]
      have e1 : |(if a "b" = 1 then (1 : ℝ) else -1)| = 1 := by split <;> simp
      have e2 : |Real.sigmoid (θ + ε "x") * (1 - Real.sigmoid (θ + ε "x"))| ≤ 1 := by
        rw [abs_of_nonneg (by nlinarith)]; nlinarith
      have e3 : |θ + ε "x"| ≤ 1 + |ε "x"| := (abs_add_le _ _).trans (by linarith)
      rw [e1, one_mul]
      have := mul_le_mul e2 e3 (abs_nonneg _) zero_le_one
      linarith
    have := mul_le_mul hK h3 (abs_nonneg _) zero_le_one
    linarith

theorem positive (θ : ℝ) : PositiveValues vars θ := by
  intro d hd hn xs v _
  simp only [vars, List.mem_cons, List.not_mem_nil, or_false] at hd
  rcases hd with rfl | rfl | rfl
  · exact (bern_bound _ _).1
  · exact (bern_bound _ _).1
  · cases hn

/-- `Expect` lists the values 0 and 1. -/
theorem listed : ListedDraws vars (fun s i => if s = "z" then (i.headD 0 : ℝ) else 0) := by
  intro d hd he i rest hi
  simp only [vars, List.mem_cons, List.not_mem_nil, or_false] at hd
  rcases hd with rfl | rfl | rfl
  · simp only [z] at hi ⊢
    have : i = 0 ∨ i = 1 := by simp at hi; omega
    rcases this with rfl | rfl <;> simp
  · cases he
  · cases he

/-- `C74_gradient` applies: the average of the gradient over the samples and the noise is the gradient of the expected
cost. -/
example : ∃ loss : Draws ℝ → ℝ → ℝ,
    (∀ ω, ListedDraws vars ω → ∃ r : STen (AD ℝ (0 : ℝ)), runMixedProgram (fun _ a => .ok a) invN vars [cost] ω = .ok r ∧
      r.plates = [] ∧ r.ten.shape = [] ∧ r.ten.get [] = loss ω) ∧
    ∃ G : ℝ →L[ℝ] ℝ, HasFDerivAt (expectedNoisy law vars [cost]) G 0 ∧ ∀ u,
      ∫ o, expect (mixProg 0 vars) 0 (mixScored 0 vars) (fun ω => fderiv ℝ (loss ω) 0 u)
        (withNoise vars (fun s idx => o (s, idx)) (fun s i => if s = "z" then (i.headD 0 : ℝ) else 0))
        ∂Measure.infinitePi (fun _ : String × List Nat => gaussianReal 0 1) = G u := by
  obtain ⟨loss, h1, h2, h3⟩ := C74_gradient (θ₀ := (0 : ℝ)) (hook := fun _ a => .ok a) (fun _ _ _ => rfl) good
    (costs := [cost]) (by simp) (by simpa using goodCost) (noiseLaw_independent (fun _ => gaussianReal 0 1))
    (.of_forall positive) (fun k hk a ha => by rw [List.mem_singleton.1 hk] at ha ⊢; exact regular ha)
  obtain ⟨G, g1, g2⟩ := h3 _ listed
  exact ⟨loss, h1, G, g1, fun u => (g2 u).2⟩

/-- `C74_value` applies. -/
example : ∃ loss : Draws ℝ → ℝ → ℝ,
    (∀ ω, ListedDraws vars ω → ∃ r : STen (AD ℝ (0 : ℝ)), runMixedProgram (fun _ a => .ok a) invN vars [cost] ω = .ok r ∧
      r.plates = [] ∧ r.ten.shape = [] ∧ r.ten.get [] = loss ω) ∧
      ∫ o, expect (mixProg 0 vars) 0 (mixScored 0 vars) (fun ω => loss ω 0)
        (withNoise vars (fun s idx => o (s, idx)) (fun s i => if s = "z" then (i.headD 0 : ℝ) else 0))
        ∂Measure.infinitePi (fun _ : String × List Nat => gaussianReal 0 1) = expectedNoisy law vars [cost] 0 := by
  obtain ⟨loss, h1, h2⟩ := C74_value (θ₀ := (0 : ℝ)) (hook := fun _ a => .ok a) (fun _ _ _ => rfl) good
    (costs := [cost]) (by simp) (by simpa using goodCost) (noiseLaw_independent (fun _ => gaussianReal 0 1))
  exact ⟨loss, h1, (h2 0 (positive 0) (positive 0)
    (fun k hk a ha => by rw [List.mem_singleton.1 hk] at ha ⊢; exact (regular ha).int) _ listed).2⟩

end NoisyCase

end Storch
