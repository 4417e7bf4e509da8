import Verif.Lemmas.MixedRun

/-!
# C71: programs that use `ScoreFunction`, `Expect` and `Reparameterization`

Whole programs, run by the modelled library.  The derivatives of every order of the surrogate loss, averaged over the
samples of the sampled variables and over the noise of the reparameterised ones, are those of the expected cost.
-/

namespace Storch

section
variable {E : Type _} {θ₀ : E}

/-- The specification: the mean of `F` over the runs of statements (first to last) from the values `env`.  Each variable
takes its values with their probabilities under the parameter computed from the values so far; a reparameterised one takes
the value `path π ε` with the probability of the noise `ε`. -/
noncomputable def meanRun (θ : E) : List (MixVar E) → ((String → ℝ) → ℝ) → (String → ℝ) → ℝ
  | [], F, env => F env
  | d :: ds, F, env => (d.values.map (fun v => d.prob (d.param θ (d.args.map env)) v *
      meanRun θ ds F (Function.update env d.name (match d.how with
        | .reparam _ path => path (d.param θ (d.args.map env)) v
        | _ => v)))).sum

/-- The expected value of the sum of the costs, as a function of the parameters. -/
noncomputable def expectedMix (vars : List (MixVar E)) (costs : List (MixCost E)) (θ : E) : ℝ :=
  (costs.map (fun k => meanRun θ vars.reverse (fun env => k.f θ (k.args.map env)) (fun _ => 0))).sum

theorem meanRun_eq {vars : List (MixVar E)} (hg : GoodMix vars) {k : MixCost E} (hk : GoodMixCost θ₀ vars k) (θ : E)
    (l : List (MixVar E)) : ∀ older, vars = l.reverse ++ older → ∀ ρ env : String → ℝ,
      (∀ s ∈ older.map MixVar.name, env s = mixVal θ ρ vars s) →
      expectOne (fun d => d.mass θ) (l.map (MixVar.decl θ₀ vars)) (fun ρ => k.f θ (k.args.map (mixVal θ ρ vars))) ρ =
        meanRun θ l (fun env => k.f θ (k.args.map env)) env := by
  classical
  induction l with
  | nil =>
    intro older he ρ env h
    rw [List.reverse_nil, List.nil_append] at he
    subst he
    simp only [List.map_nil, expectOne, meanRun]
    congr 1
    exact List.map_congr_left (fun s hs => (h s (hk.args s hs)).symm)
  | cons d l ih =>
    intro older he ρ env h
    rw [List.reverse_cons, List.append_assoc, List.singleton_append] at he
    have hd : d ∈ vars := by rw [he]; simp
    have hargs : ∀ s ∈ d.args, s ∈ older.map MixVar.name := by
      intro s hs
      have hg' := hg
      rw [he] at hg'
      exact above_suffix hg' (.arg hs)
    have hnd : ∀ s ∈ older.map MixVar.name, s ≠ d.name := by
      intro s hs e
      have := hg.nodup
      rw [he, List.map_append, List.nodup_append, List.map_cons, List.nodup_cons] at this
      exact this.2.1.1 (e ▸ hs)
    have hpar : d.args.map env = d.args.map (mixVal θ ρ vars) :=
      List.map_congr_left (fun s hs => h s (hargs s hs))
    rw [List.map_cons, expectOne, meanRun]
    have hsum : ∀ g : ℝ → ℝ, ∑ v ∈ (d.decl θ₀ vars).support, g v = (d.values.map g).sum := by
      intro g
      rw [← List.sum_toFinset _ (hg.once d hd)]
      congr 1
    rw [hsum]
    congr 1
    apply List.map_congr_left
    intro v _
    have hold : ∀ s ∈ older.map MixVar.name,
        mixVal θ (Function.update ρ d.name v) vars s = mixVal θ ρ vars s := by
      intro s hs
      apply mixVal_above hg
      intro t ht
      apply Function.update_of_ne
      rintro rfl
      have key : ∀ t, Above (vars.map MixVar.score) [s] t → t ∈ older.map MixVar.name := by
        intro t ht
        induction ht with
        | arg hm => rw [List.mem_singleton.1 hm]; exact hs
        | step hy _ ha ih' =>
          obtain ⟨y, hy', rfl⟩ := List.mem_map.1 hy
          obtain ⟨z, hz, hze⟩ := List.mem_map.1 ih'
          have hz' : z ∈ vars := by rw [he]; simp [hz]
          have : z = y := List.inj_on_of_nodup_map hg.nodup hz' hy' hze
          subst this
          obtain ⟨a, b, hab⟩ := List.append_of_mem hz
          have hg' := hg
          rw [he, hab, show l.reverse ++ d :: (a ++ z :: b) = (l.reverse ++ d :: a) ++ z :: b by simp] at hg'
          have := above_suffix hg' (.arg ha)
          rw [hab]
          simp only [List.map_append, List.map_cons, List.mem_append, List.mem_cons]
          exact Or.inr (Or.inr this)
      exact hnd _ (key _ ht) rfl
    rw [show (d.decl θ₀ vars).mass θ ρ v = d.prob (d.param θ (d.args.map (mixVal θ ρ vars))) v from rfl, hpar]
    congr 1
    refine ih (d :: older) he _ _ ?_
    intro s hs
    rw [List.map_cons, List.mem_cons] at hs
    by_cases hsd : s = d.name
    · subst hsd
      rw [show (d.decl θ₀ vars).name = d.name from rfl, Function.update_self, mixVal_eq hg hd,
        List.map_congr_left (fun s hs => hold s (hargs s hs)), Function.update_self]
      cases d.how <;> rfl
    · rw [Function.update_of_ne hsd, h s (hs.resolve_left hsd)]
      exact (hold s (hs.resolve_left hsd)).symm

theorem meanRun_expect {vars : List (MixVar E)} (hg : GoodMix vars) {k : MixCost E} (hk : GoodMixCost θ₀ vars k)
    (θ : E) : meanRun θ vars.reverse (fun env => k.f θ (k.args.map env)) (fun _ => 0) =
      expectOne (fun d => d.mass θ) (mixProg θ₀ vars) (fun ρ => k.f θ (k.args.map (mixVal θ ρ vars))) (fun _ => 0) := by
  rw [mixProg, ← List.map_reverse]
  exact (meanRun_eq hg hk θ vars.reverse [] (by simp) _ _ (by simp)).symm

theorem mem_support {vars : List (MixVar E)} {d : MixVar E} {v : ℝ} : v ∈ (d.decl θ₀ vars).support ↔ v ∈ d.values := by
  simp only [MixVar.decl, List.mem_toFinset]

/-- The random variables that are sampled: variables of `ScoreFunction` and the noise of `Reparameterization`. -/
noncomputable def mixSampled (θ₀ : E) (vars : List (MixVar E)) : List (Decl E ℝ) :=
  (mixProg θ₀ vars).filter (mixDrawn vars)

/-- Positions inside all plates. -/
def MixPos (vars : List (MixVar E)) (ι : String → Nat) : Prop := ∀ d ∈ vars, ι d.name < d.size

theorem GoodMix.inPlates {vars : List (MixVar E)} (hg : GoodMix vars) {ι : String → Nat} (hι : MixPos vars ι) :
    ∀ x ∈ mixProg θ₀ vars, InPlates x ι := by
  intro x hx q hq
  obtain ⟨d, hd, rfl⟩ := mem_mixProg.1 hx
  simp only [MixVar.decl, idxOf, List.mem_map, List.mem_filter] at hq
  obtain ⟨p, ⟨hp, _⟩, rfl⟩ := hq
  obtain ⟨d', hd', _, h2, h3⟩ := platesIn_above hg.good
    (by rw [score_names]; exact List.mem_map_of_mem hd) p hp
  obtain ⟨d', hd'', rfl⟩ := List.mem_map.1 hd'
  simp only [h2, h3]
  exact hι d' hd''

theorem MixPos.zero {vars : List (MixVar E)} (hg : GoodMix vars) : MixPos vars (fun _ => 0) := by
  intro d hd
  exact hg.posSize hd

theorem MixPos.update {vars : List (MixVar E)} (hg : GoodMix vars) {k : MixCost E} (hk : GoodMixCost θ₀ vars k)
    {ι : String → Nat} (hι : MixPos vars ι) : ∀ p ∈ mixArgKeys θ₀ vars k.args, ∀ i < p.2,
      MixPos vars (Function.update ι p.1 i) := by
  intro p hp i hi d hd
  rw [(mixArgKeys_perm hg hk).mem_iff, List.mem_map] at hp
  obtain ⟨x, hx, rfl⟩ := hp
  by_cases h : d.name = x.name
  · rw [h, Function.update_self, ← mixSize_eq hg hd, h]
    exact hi
  · rw [Function.update_of_ne h]
    exact hι d hd

/-- The own plate comes first. -/
theorem mixKeys_head : ∀ {vars : List (MixVar E)}, GoodMix vars → ∀ d ∈ vars,
    ∃ rest, mixKeys θ₀ vars d.name = (d.name, d.size) :: rest
  | [], _, d, hd => by cases hd
  | x :: vars, hg, d, hd => by
    rcases List.mem_cons.1 hd with rfl | hd
    · exact ⟨_, mixKeys_cons_eq⟩
    · have hne : x.name ≠ d.name := by
        have := hg.nodup
        rw [List.map_cons, List.nodup_cons] at this
        exact fun e => this.1 (e ▸ List.mem_map_of_mem hd)
      rw [mixKeys_cons_ne hne]
      exact mixKeys_head hg.tail d hd

theorem ListedDraws.lists {vars : List (MixVar E)} (hg : GoodMix vars) {ω : Draws ℝ} (hω : ListedDraws vars ω) :
    Lists (mixProg θ₀ vars) (mixDrawn vars) (mixVals vars) ω := by
  intro x hx hdr ι hι
  obtain ⟨d, hd, rfl⟩ := mem_mixProg.1 hx
  rw [mixDrawn_decl hg hd] at hdr
  rw [show (d.decl θ₀ vars).name = d.name from rfl, mixVals_eq hg hd] at hι ⊢
  obtain ⟨rest, hr⟩ := mixKeys_head (θ₀ := θ₀) hg d hd
  have h2 := hg.sizes.listed d hd (MixHow.expect_of hdr)
  rw [hg.traj hd, hr, List.filter_cons_of_pos (by simpa using (show 1 < d.size from h2)), List.map_cons]
  exact hω d hd (MixHow.expect_of hdr) _ _ hι

/-- The support of the variables above a cost that use `ScoreFunction` does not change. -/
def MixCost.SameSupport (vars : List (MixVar E)) (k : MixCost E) (θ₀ θ : E) : Prop :=
  ∀ d ∈ k.walk, d.how.scored = true → ∀ ρ : String → ℝ, ∀ v ∈ d.values,
    (0 < d.prob (d.param θ₀ (d.args.map (mixVal θ₀ ρ vars))) v ∧ 0 < d.prob (d.param θ (d.args.map (mixVal θ ρ vars))) v) ∨
    (d.prob (d.param θ₀ (d.args.map (mixVal θ₀ ρ vars))) v = 0 ∧ d.prob (d.param θ (d.args.map (mixVal θ ρ vars))) v = 0)

/-- What a cost adds to the surrogate loss, averaged over the samples. -/
theorem expect_mixValue {vars : List (MixVar E)} (hg : GoodMix vars) {k : MixCost E} (hk : GoodMixCost θ₀ vars k)
    {θ : E} (hs : k.SameSupport vars θ₀ θ) {ω₀ : Draws ℝ} (hω : ListedDraws vars ω₀) (ρ₀ : String → ℝ) :
    expect (mixProg θ₀ vars) θ₀ (mixSampled θ₀ vars) (fun ω => mixValue θ₀ vars k ω θ) ω₀ =
      expectOne (fun d => d.mass θ) (mixProg θ₀ vars) (fun ρ => k.f θ (k.args.map (mixVal θ ρ vars))) ρ₀ := by
  classical
  have h0 : Program (mixProg θ₀ vars) θ₀ := hg.program θ₀
  have hθ : Program (mixProg θ₀ vars) θ := hg.program θ
  simp only [mixValue]
  rw [expect_sumOver]
  have hstep := sumOver_congr (ps := mixArgKeys θ₀ vars k.args)
    (g := fun ι => expect (mixProg θ₀ vars) θ₀ (mixSampled θ₀ vars) (fun ω => mixTerm (mixProg θ₀ vars)
      (mixDrawn vars) (mixSize vars) θ₀ (k.spec θ₀ vars) θ (trajectory (mixProg θ₀ vars) ω ι)) ω₀)
    (g' := fun ι => expectOne (fun d => d.mass θ₀) ((mixProg θ₀ vars).filter (mixDrawn vars))
      (mixTerm (mixProg θ₀ vars) (mixDrawn vars) (mixSize vars) θ₀ (k.spec θ₀ vars) θ)
      (trajectory (mixProg θ₀ vars) ω₀ ι)) (MixPos vars)
    (fun ι hι => MixPos.update hg hk hι)
    (fun ι hι => expect_trajectory h0 _ (fun d hd => (List.mem_filter.1 hd).1)
      (fun d hd => hg.inPlates hι d (List.mem_filter.1 hd).1) _ ω₀)
    (fun _ => 0) (MixPos.zero hg)
  rw [hstep]
  refine mixed_total h0 hθ (vals := mixVals vars) ?_ ?_ (hk.spec hg) ?_ (hω.lists hg) (mixArgKeys_perm hg hk) ρ₀
  · intro x hx
    obtain ⟨d, hd, rfl⟩ := mem_mixProg.1 hx
    rw [show (d.decl θ₀ vars).name = d.name from rfl, mixSize_eq hg hd]
    have := hg.posSize hd
    omega
  · intro x hx hdr
    obtain ⟨d, hd, rfl⟩ := mem_mixProg.1 hx
    rw [mixDrawn_decl hg hd] at hdr
    have hn : d.how = .expect := MixHow.expect_of hdr
    rw [show (d.decl θ₀ vars).name = d.name from rfl, mixSize_eq hg hd, mixVals_eq hg hd]
    exact ⟨by rw [MixVar.size, hn], hg.once d hd, fun v => mem_support⟩
  · intro x hx ρ v hv
    obtain ⟨d, hd, rfl⟩ := List.mem_map.1 hx
    obtain ⟨h1, h2⟩ := List.mem_filter.1 hd
    exact hs d h1 h2 ρ v (mem_support.1 hv)

/-- Draws that differ only in the sampled variables list the same values. -/
theorem ListedDraws.of_eq {vars : List (MixVar E)} (hg : GoodMix vars) {ω ω' : Draws ℝ} (hω : ListedDraws vars ω)
    (h : ∀ s, s ∉ (mixSampled θ₀ vars).map Decl.name → ω' s = ω s) : ListedDraws vars ω' := by
  intro d hd hn i rest hi
  rw [h]
  · exact hω d hd hn i rest hi
  · intro hm
    obtain ⟨x, hx, he⟩ := List.mem_map.1 hm
    obtain ⟨hx1, hx2⟩ := List.mem_filter.1 hx
    obtain ⟨d', hd', rfl⟩ := mem_mixProg.1 hx1
    have : d' = d := List.inj_on_of_nodup_map hg.nodup hd' hd he
    subst this
    rw [mixDrawn_decl hg hd, hn] at hx2
    cases hx2

theorem mixSampled_nodup {vars : List (MixVar E)} (hg : GoodMix vars) :
    ((mixSampled θ₀ vars).map Decl.name).Nodup :=
  hg.progNodup.sublist (List.filter_sublist.map _)

/-- C71: programs that sample some variables with `ScoreFunction` (no baseline), enumerate others with `Expect` and
sample others with `Reparameterization`, in any order and with any dependencies.  Every run gives one number, and for
every choice of the parameters its average over the samples and the noise is the expected cost: the sampled variables
count with the likelihood ratio, the enumerated ones with their probabilities, the reparameterised ones through their
values. -/
theorem C71_mixed {hook : UnwrapHook (AD E θ₀)} (hh : PlainHook hook) {vars : List (MixVar E)} (hg : GoodMix vars)
    {costs : List (MixCost E)} (hne : costs ≠ []) (hk : ∀ k ∈ costs, GoodMixCost θ₀ vars k) :
    ∃ loss : Draws ℝ → E → ℝ,
      (∀ ω, ListedDraws vars ω → ∃ r, runMixedProgram hook invN vars costs ω = .ok r ∧ r.plates = [] ∧
        r.ten.shape = [] ∧ r.ten.get [] = loss ω) ∧
      ∀ θ, PositiveAt vars θ → (∀ k ∈ costs, k.SameSupport vars θ₀ θ) → ∀ ω₀, ListedDraws vars ω₀ →
        expect (mixProg θ₀ vars) θ₀ (mixSampled θ₀ vars) (fun ω => loss ω θ) ω₀ = expectedMix vars costs θ := by
  classical
  have : Nonempty (STen (AD E θ₀)) := ⟨⟨Ten.scalar 0, [], 0⟩⟩
  choose! r h1 h2 h3 h4 using fun ω (hω : ListedDraws vars ω) => mixed_runs hh hg hne hk hω
  refine ⟨fun ω => (r ω).ten.get [], fun ω hω => ⟨r ω, h1 ω hω, h2 ω hω, h3 ω hω, rfl⟩, ?_⟩
  intro θ hθ hs ω₀ hω
  obtain ⟨l, l1, l2⟩ := expect_finite_some (mixProg θ₀ vars) θ₀ (mixSampled θ₀ vars) (mixSampled_nodup hg) ω₀
  have e1 := l1 (fun ω => (costs.map (fun k => mixValue θ₀ vars k ω θ)).sum)
  rw [expect_list_sum] at e1
  rw [l1, expectedMix, List.map_congr_left (fun k hk' => meanRun_expect hg (hk k hk') θ),
    ← List.map_congr_left (fun k hk' => expect_mixValue hg (hk k hk') (hs k hk') hω (fun _ => 0)), e1]
  congr 1
  apply List.map_congr_left
  intro p hp
  exact congrArg (fun c => p.1 * c) (h4 p.2 (hω.of_eq hg (l2 p hp).2) θ hθ)

end

section orders
variable {E : Type _} [NormedAddCommGroup E] [NormedSpace ℝ E] {θ₀ : E}
open scoped Topology

/-- The sampled values are in the support. -/
def SupportedDraws (θ₀ : E) (vars : List (MixVar E)) (ω : Draws ℝ) : Prop :=
  ∀ x ∈ mixSampled θ₀ vars, ∀ i ∈ allIdx (x.idx.map Prod.snd), ω x.name i ∈ x.support

theorem sumOver_smooth {n : ℕ} (ps : List (String × Nat)) (g : E → (String → Nat) → ℝ) (P : (String → Nat) → Prop)
    (hP : ∀ ι, P ι → ∀ p ∈ ps, ∀ i < p.2, P (Function.update ι p.1 i))
    (h : ∀ ι, P ι → ContDiffAt ℝ n (fun θ => g θ ι) θ₀) (ι : String → Nat) (hι : P ι) :
    ContDiffAt ℝ n (fun θ => sumOver ps (g θ) ι) θ₀ := by
  induction ps generalizing ι with
  | nil => exact h ι hι
  | cons p ps ih =>
    simp only [sumOver]
    apply ContDiffAt.sum
    intro i hi
    exact ih (fun ι hι q hq => hP ι hι q (List.mem_cons_of_mem _ hq)) _
      (hP ι hι p (by simp) i (Finset.mem_range.1 hi))

theorem list_prod_smooth {ι : Type _} {n : ℕ} (l : List ι) (f : ι → E → ℝ) (θ : E)
    (h : ∀ i ∈ l, ContDiffAt ℝ n (f i) θ) : ContDiffAt ℝ n (fun θ => (l.map (fun i => f i θ)).prod) θ := by
  induction l with
  | nil => exact contDiffAt_const
  | cons i l ih =>
    simp only [List.map_cons, List.prod_cons]
    exact (h i (by simp)).mul (ih (fun j hj => h j (List.mem_cons_of_mem _ hj)))

/-- The logarithm of a probability that is positive or zero throughout. -/
theorem log_smooth {n : ℕ} {f : E → ℝ} (hf : ContDiffAt ℝ n f θ₀)
    (h : ∀ᶠ θ in 𝓝 θ₀, (0 < f θ₀ ∧ 0 < f θ) ∨ (f θ₀ = 0 ∧ f θ = 0)) :
    ContDiffAt ℝ n (fun θ => Real.log (f θ)) θ₀ := by
  by_cases h0 : f θ₀ = 0
  · refine ContDiffAt.congr_of_eventuallyEq (contDiffAt_const (c := (0 : ℝ))) ?_
    filter_upwards [h] with θ hθ
    rcases hθ with hθ | hθ
    · exact absurd h0 hθ.1.ne'
    · rw [hθ.2, Real.log_zero]
  · exact hf.log h0

/-- What a cost adds to the surrogate loss is as smooth as the probabilities and the cost. -/
theorem mixValue_smooth {vars : List (MixVar E)} (hg : GoodMix vars) {k : MixCost E} (hk : GoodMixCost θ₀ vars k)
    {n : ℕ} (hmass : ∀ d ∈ vars, d.how = .expect ∨ (d ∈ k.walk ∧ d.how.scored = true) → ∀ ρ : String → ℝ,
      ∀ v ∈ d.values, ContDiffAt ℝ n (fun θ => d.prob (d.param θ (d.args.map (mixVal θ ρ vars))) v) θ₀)
    (hcost : ∀ ρ : String → ℝ, ContDiffAt ℝ n (fun θ => k.f θ (k.args.map (mixVal θ ρ vars))) θ₀) (hnear : ∀ᶠ θ in 𝓝 θ₀, k.SameSupport vars θ₀ θ)
    {ω : Draws ℝ} (hω : ListedDraws vars ω) (hsup : SupportedDraws θ₀ vars ω) :
    ContDiffAt ℝ n (fun θ => mixValue θ₀ vars k ω θ) θ₀ := by
  unfold mixValue
  refine sumOver_smooth _ _ (MixPos vars) (fun ι hι => MixPos.update hg hk hι) ?_ _ (MixPos.zero hg)
  intro ι hι
  have hval : ∀ d ∈ vars, trajectory (mixProg θ₀ vars) ω ι d.name ∈ d.values := by
    intro d hd
    cases hdr : d.how.drawn with
    | false =>
      have hn := MixHow.expect_of hdr
      have := hω.lists (θ₀ := θ₀) hg (d.decl θ₀ vars) (mem_mixProg.2 ⟨d, hd, rfl⟩)
        (by rw [mixDrawn_decl hg hd, hdr]) ι
        (by
          rw [show (d.decl θ₀ vars).name = d.name from rfl, mixVals_eq hg hd]
          have := hι d hd
          rw [MixVar.size, hn] at this
          exact this)
      rw [show (d.decl θ₀ vars).name = d.name from rfl, mixVals_eq hg hd] at this
      exact List.mem_of_getElem? this
    | true =>
      have hx : d.decl θ₀ vars ∈ mixProg θ₀ vars := mem_mixProg.2 ⟨d, hd, rfl⟩
      have h1 := hsup (d.decl θ₀ vars) (List.mem_filter.2 ⟨hx, by rw [mixDrawn_decl hg hd, hdr]⟩) _
        (hg.inPlates hι _ hx).mem
      rw [← trajectory_decl hg.progNodup hx ω ι] at h1
      exact mem_support.1 h1
  unfold mixTerm
  refine ContDiffAt.mul ?_ (ContDiffAt.mul (ContDiffAt.exp ?_) (hcost _))
  · apply list_prod_smooth
    intro x hx
    obtain ⟨d, hd, rfl⟩ := mem_mixProg.1 (List.mem_filter.1 hx).1
    unfold mixWeight
    rw [mixDrawn_decl hg hd]
    cases hdr : d.how.drawn with
    | false =>
      simp only [Bool.false_eq_true, if_false]
      exact hmass d hd (Or.inl (MixHow.expect_of hdr)) _ _ (hval d hd)
    | true =>
      simp only [if_true]
      exact contDiffAt_const
  · unfold logRatio
    apply contDiffAt_list_sum
    intro x hx
    obtain ⟨d, hd, rfl⟩ := List.mem_map.1 hx
    obtain ⟨hd1, hd2⟩ := List.mem_filter.1 hd
    have hd' := hk.sub d hd1
    refine ContDiffAt.sub (log_smooth (hmass d hd' (Or.inr ⟨hd1, hd2⟩) _ _ (hval d hd')) ?_) contDiffAt_const
    filter_upwards [hnear] with θ hθ
    exact hθ d hd1 hd2 _ _ (hval d hd')

/-- C71: such programs are unbiased for derivatives of every order.  The probabilities and the costs have to be
differentiable functions of the parameters for every choice `ρ` of what is drawn. -/
theorem C71_all_orders {hook : UnwrapHook (AD E θ₀)} (hh : PlainHook hook) {vars : List (MixVar E)}
    (hg : GoodMix vars) {costs : List (MixCost E)} (hne : costs ≠ []) (hk : ∀ k ∈ costs, GoodMixCost θ₀ vars k)
    {n : ℕ}
    (hmass : ∀ k ∈ costs, ∀ d ∈ vars, d.how = .expect ∨ (d ∈ k.walk ∧ d.how.scored = true) → ∀ ρ : String → ℝ,
      ∀ v ∈ d.values, ContDiffAt ℝ n (fun θ => d.prob (d.param θ (d.args.map (mixVal θ ρ vars))) v) θ₀)
    (hcost : ∀ k ∈ costs, ∀ ρ : String → ℝ,
      ContDiffAt ℝ n (fun θ => k.f θ (k.args.map (mixVal θ ρ vars))) θ₀)
    (hnear : ∀ᶠ θ in 𝓝 θ₀, PositiveAt vars θ ∧ ∀ k ∈ costs, k.SameSupport vars θ₀ θ) :
    ∃ loss : Draws ℝ → E → ℝ,
      (∀ ω, ListedDraws vars ω → SupportedDraws θ₀ vars ω → ∃ r, runMixedProgram hook invN vars costs ω = .ok r ∧
        r.ten.shape = [] ∧ r.ten.get [] = loss ω ∧ ContDiffAt ℝ n (loss ω) θ₀) ∧
      ∀ ω₀, ListedDraws vars ω₀ → ∀ v,
        expect (mixProg θ₀ vars) θ₀ (mixSampled θ₀ vars) (fun ω => iteratedFDeriv ℝ n (loss ω) θ₀ v) ω₀ =
          iteratedFDeriv ℝ n (expectedMix vars costs) θ₀ v := by
  classical
  have : Nonempty (STen (AD E θ₀)) := ⟨⟨Ten.scalar 0, [], 0⟩⟩
  choose! r h1 h2 h3 h4 using fun ω (hω : ListedDraws vars ω) => mixed_runs hh hg hne hk hω
  have hsm : ∀ ω, ListedDraws vars ω → SupportedDraws θ₀ vars ω → ContDiffAt ℝ n ((r ω).ten.get []) θ₀ := by
    intro ω hω hs
    have he : (r ω).ten.get [] =ᶠ[𝓝 θ₀] fun θ => (costs.map (fun k => mixValue θ₀ vars k ω θ)).sum := by
      filter_upwards [hnear] with θ hθ
      exact h4 ω hω θ hθ.1
    refine ContDiffAt.congr_of_eventuallyEq ?_ he
    exact contDiffAt_list_sum _ _ _ (fun k hks => mixValue_smooth hg (hk k hks) (hmass k hks) (hcost k hks)
      (hnear.mono (fun θ hθ => hθ.2 k hks)) hω hs)
  refine ⟨fun ω => (r ω).ten.get [], fun ω hω hs => ⟨r ω, h1 ω hω, h3 ω hω, rfl, hsm ω hω hs⟩, ?_⟩
  intro ω₀ hω v
  obtain ⟨l, l1, l2⟩ := expect_finite_some (mixProg θ₀ vars) θ₀ (mixSampled θ₀ vars) (mixSampled_nodup hg) ω₀
  have hl : ∀ p ∈ l, ListedDraws vars p.2 ∧ SupportedDraws θ₀ vars p.2 :=
    fun p hp => ⟨hω.of_eq hg (l2 p hp).2, (l2 p hp).1⟩
  rw [l1]
  have hexp : expectedMix vars costs =ᶠ[𝓝 θ₀] fun θ => (l.map (fun p => p.1 * (r p.2).ten.get [] θ)).sum := by
    filter_upwards [hnear] with θ hθ
    have e1 := l1 (fun ω => (costs.map (fun k => mixValue θ₀ vars k ω θ)).sum)
    rw [expect_list_sum] at e1
    rw [expectedMix, List.map_congr_left (fun k hk' => meanRun_expect hg (hk k hk') θ), ← List.map_congr_left
      (fun k hk' => expect_mixValue hg (hk k hk') (hθ.2 k hk') hω (fun _ => 0)), e1]
    congr 1
    apply List.map_congr_left
    intro p hp'
    rw [h4 p.2 (hl p hp').1 θ hθ.1]
  rw [(hexp.iteratedFDeriv ℝ n).self_of_nhds,
    iteratedFDeriv_list_sum l (fun p θ => p.1 * (r p.2).ten.get [] θ) θ₀
      (fun p hp' => contDiffAt_const.mul (hsm p.2 (hl p hp').1 (hl p hp').2))]
  have hlin : ∀ l' : List (ℝ × Draws ℝ), (∀ p ∈ l', ListedDraws vars p.2 ∧ SupportedDraws θ₀ vars p.2) →
      (l'.map (fun p => p.1 * iteratedFDeriv ℝ n ((r p.2).ten.get []) θ₀ v)).sum =
      (l'.map (fun p => iteratedFDeriv ℝ n (fun θ => p.1 * (r p.2).ten.get [] θ) θ₀)).sum v := by
    intro l' hl'
    induction l' with
    | nil => rfl
    | cons p l' ih =>
      simp only [List.map_cons, List.sum_cons]
      rw [ih (fun q hq => hl' q (List.mem_cons_of_mem _ hq)), add_apply]
      congr 1
      have := iteratedFDeriv_const_smul_apply' (a := p.1) (hsm p.2 (hl' p (by simp)).1 (hl' p (by simp)).2)
      simp only [smul_eq_mul] at this
      rw [this, smul_apply, smul_eq_mul]
  exact hlin l hl

/-! ### A case

`w = Reparameterization("w", n_samples=2)(D(θ))` where `rsample` adds noise of -1 or 1 to the parameter,
`z = Expect("z")(Bernoulli(θ))`, `y = ScoreFunction("y", 3)(Bernoulli(θ / (2 + w²) if z == 1 else θ²))`,
`x = Expect("x")(Bernoulli(θ² if y == 1 else θ))`, cost `θ * z + y * x * w`, at `θ = 1/2`. -/

namespace MixedProgramCase
open BernoulliCase (bern)

noncomputable def w : MixVar ℝ := ⟨"w", .reparam 2 (fun π ε => π + ε), [], fun θ _ => θ, [-1, 1], fun _ _ => 1 / 2⟩
noncomputable def z : MixVar ℝ := ⟨"z", .expect, [], fun θ _ => θ, [0, 1], bern⟩
noncomputable def y : MixVar ℝ := ⟨"y", .score 3, ["z", "w"],
  fun θ xs => if xs.getD 0 0 = 1 then θ / (2 + xs.getD 1 0 ^ 2) else θ ^ 2, [0, 1], bern⟩
noncomputable def x : MixVar ℝ := ⟨"x", .expect, ["y"], fun θ xs => if xs = [1] then θ ^ 2 else θ, [0, 1], bern⟩
noncomputable def vars : List (MixVar ℝ) := [x, y, z, w]
noncomputable def cost : MixCost ℝ :=
  ⟨["z", "y", "x", "w"], fun θ xs => θ * xs.getD 0 0 + xs.getD 1 0 * xs.getD 2 0 * xs.getD 3 0, [x, y, z, w]⟩

theorem good : GoodMix vars := by
  refine ⟨?_, ?_, ?_, ?_, ?_⟩
  · refine ⟨⟨⟨⟨trivial, by simp, by simp [w, MixVar.score], by simp [w, MixVar.score, MixVar.size], ?_⟩,
      by simp [w, z, MixVar.score], by simp [z, MixVar.score], by simp [z, MixVar.score, MixVar.size], ?_⟩,
      by simp [w, y, z, MixVar.score], by simp [w, y, z, MixVar.score], by simp [y, MixVar.score, MixVar.size], ?_⟩,
      by simp [w, x, y, z, MixVar.score], by simp [x, y, z, MixVar.score], by simp [x, MixVar.score, MixVar.size], ?_⟩
    · intro π
      have h : (-1 : ℝ) ≠ 1 := by norm_num
      simp [w, MixVar.score, h]
    all_goals
      intro π
      simp [z, y, x, MixVar.score, bern]
  · exact MixSizes.several (by simp [vars, w, x, y, z, MixVar.size])
  · have h : (-1 : ℝ) ≠ 1 := by norm_num
    simp [vars, w, x, y, z, h]
  · simp [vars, w, x, y, z, MixVar.size]
  · simp [vars, w, x, y, z, MixHow.drawn, MixHow.scored]

theorem goodCost : GoodMixCost (1 / 2 : ℝ) vars cost := by
  refine ⟨by simp [cost], by simp [vars, cost, w, x, y, z], by simp [vars, cost], ?_, by simp [cost, w, x, y, z], ?_⟩
  · intro d hd
    refine .arg ?_
    simp only [cost, List.mem_cons, List.not_mem_nil, or_false] at hd
    rcases hd with rfl | rfl | rfl | rfl <;> simp [cost, w, x, y, z]
  · intro d hd _ _
    exact Or.inl hd

theorem bern_pos {π : ℝ} (v : ℝ) (h0 : 0 < π) (h1 : π < 1) : 0 < bern π v := by
  unfold bern
  split <;> linarith

theorem y_param {θ : ℝ} (h0 : 0 < θ) (h1 : θ < 1) (xs : List ℝ) : 0 < y.param θ xs ∧ y.param θ xs < 1 := by
  have hp : (0 : ℝ) < 2 + xs.getD 1 0 ^ 2 := by positivity
  simp only [y]
  split
  · refine ⟨by positivity, ?_⟩
    rw [div_lt_one hp]
    nlinarith [sq_nonneg (xs.getD 1 0)]
  · exact ⟨by positivity, by nlinarith⟩

theorem near {θ : ℝ} (h0 : 0 < θ) (h1 : θ < 1) :
    PositiveAt vars θ ∧ ∀ k ∈ [cost], k.SameSupport vars (1 / 2) θ := by
  have h2 : θ ^ 2 < 1 := by nlinarith
  have h3 : 0 < θ ^ 2 := by positivity
  constructor
  · intro d hd hn xs v _
    simp only [vars, List.mem_cons, List.not_mem_nil, or_false] at hd
    rcases hd with rfl | rfl | rfl | rfl
    · simp only [x]
      apply bern_pos <;> split <;> assumption
    · cases hn
    · exact bern_pos v h0 h1
    · cases hn
  · intro k hk d hd hn ρ v _
    simp only [List.mem_singleton] at hk
    subst hk
    simp only [cost, List.mem_cons, List.not_mem_nil, or_false] at hd
    left
    rcases hd with rfl | rfl | rfl | rfl
    · cases hn
    · have a1 := y_param (θ := 1 / 2) (by norm_num) (by norm_num) (y.args.map (mixVal (1 / 2) ρ vars))
      have a2 := y_param h0 h1 (y.args.map (mixVal θ ρ vars))
      exact ⟨bern_pos v a1.1 a1.2, bern_pos v a2.1 a2.2⟩
    · cases hn
    · cases hn

/-- Draws in which the enumerated variables have their values in order. -/
noncomputable def draws : Draws ℝ := fun _ idx => idx.headD 0

theorem listed : ListedDraws vars draws := by
  intro d hd hn i rest hi
  simp only [vars, List.mem_cons, List.not_mem_nil, or_false] at hd
  rcases hd with rfl | rfl | rfl | rfl
  · simp only [x, List.length_cons, List.length_nil] at hi ⊢
    rcases i with _ | _ | i
    · simp [draws]
    · simp [draws]
    · omega
  · cases hn
  · simp only [z, List.length_cons, List.length_nil] at hi ⊢
    rcases i with _ | _ | i
    · simp [draws]
    · simp [draws]
    · omega
  · cases hn

/-- The values of the variables, from what is drawn. -/
theorem vals (θ : ℝ) (ρ : String → ℝ) : mixVal θ ρ vars "x" = ρ "x" ∧ mixVal θ ρ vars "y" = ρ "y" ∧
    mixVal θ ρ vars "z" = ρ "z" ∧ mixVal θ ρ vars "w" = θ + ρ "w" := by
  simp [vars, mixVal, w, x, y, z, MixHow.out]

/-- `C71_all_orders` applies to the case, for every order (and so does `C71_mixed`, with fewer hypotheses). -/
example (n : ℕ) : ∃ loss : Draws ℝ → ℝ → ℝ,
    (∀ ω, ListedDraws vars ω → SupportedDraws (1 / 2 : ℝ) vars ω →
      ∃ r : STen (AD ℝ (1 / 2 : ℝ)), runMixedProgram (fun _ a => .ok a) invN vars [cost] ω = .ok r ∧
        r.ten.shape = [] ∧ r.ten.get [] = loss ω ∧ ContDiffAt ℝ n (loss ω) (1 / 2)) ∧
      ∀ ω₀, ListedDraws vars ω₀ → ∀ v,
        expect (mixProg (1 / 2 : ℝ) vars) (1 / 2 : ℝ) (mixSampled (1 / 2 : ℝ) vars)
          (fun ω => iteratedFDeriv ℝ n (loss ω) (1 / 2) v) ω₀ =
        iteratedFDeriv ℝ n (expectedMix vars [cost]) (1 / 2) v := by
  refine C71_all_orders (fun _ _ _ => rfl) good (by simp) (by simpa using goodCost) ?_ ?_ ?_
  · intro k hk d hd _ ρ v _
    simp only [vars, List.mem_cons, List.not_mem_nil, or_false] at hd
    have hb : ∀ f : ℝ → ℝ, ContDiffAt ℝ n f (1 / 2) → ContDiffAt ℝ n (fun θ => bern (f θ) v) (1 / 2) := by
      intro f hf
      simp only [bern]
      split <;> fun_prop
    rcases hd with rfl | rfl | rfl | rfl
    · refine hb (fun θ => x.param θ (x.args.map (mixVal θ ρ vars))) ?_
      simp only [x, List.map_cons, List.map_nil, (vals _ _).2.1]
      split <;> fun_prop
    · refine hb (fun θ => y.param θ (y.args.map (mixVal θ ρ vars))) ?_
      simp only [y, List.map_cons, List.map_nil, (vals _ _).2.2.1, (vals _ _).2.2.2, List.getD_cons_zero,
        List.getD_cons_succ]
      split
      · have hne : (2 : ℝ) + (1 / 2 + ρ "w") ^ 2 ≠ 0 := by positivity
        exact contDiffAt_id.div (by fun_prop) hne
      · fun_prop
    · refine hb (fun θ => θ) (by fun_prop)
    · exact contDiffAt_const
  · intro k hk ρ
    simp only [List.mem_singleton] at hk
    subst hk
    simp only [cost, List.map_cons, List.map_nil, (vals _ _).1, (vals _ _).2.1, (vals _ _).2.2.1, (vals _ _).2.2.2,
      List.getD_cons_zero, List.getD_cons_succ]
    fun_prop
  · have : ∀ᶠ θ in 𝓝 (1 / 2 : ℝ), θ ∈ Set.Ioo (0 : ℝ) 1 :=
      Ioo_mem_nhds (by norm_num) (by norm_num)
    exact this.mono (fun θ hθ => near hθ.1 hθ.2)

/-- What the expected cost is. -/
theorem expected (θ : ℝ) : expectedMix vars [cost] θ =
    θ ^ 2 + 1 / 2 * ((θ - 1) * (θ * (θ / (2 + (θ - 1) ^ 2)) + (1 - θ) * θ ^ 2) * θ ^ 2) +
      1 / 2 * ((θ + 1) * (θ * (θ / (2 + (θ + 1) ^ 2)) + (1 - θ) * θ ^ 2) * θ ^ 2) := by
  simp [expectedMix, meanRun, vars, w, x, z, y, cost, bern, Function.update]
  ring

end MixedProgramCase

/-! ### A case with variables that have one sample

`b = ScoreFunction("b", 1)(Bernoulli(θ))`, `w = Reparameterization("w")(D(θ))` as above but with the default of one sample,
`c = ScoreFunction("c", 3)(Bernoulli(θ² if b == 1 else θ))`, `z = Expect("z")(Bernoulli(θ² if b == 1 else θ))`, cost `b * c + w * z`. -/

namespace OneSampleCase
open BernoulliCase (bern)

noncomputable def b : MixVar ℝ := ⟨"b", .score 1, [], fun θ _ => θ, [0, 1], bern⟩
noncomputable def w : MixVar ℝ := ⟨"w", .reparam 1 (fun π ε => π + ε), [], fun θ _ => θ, [-1, 1], fun _ _ => 1 / 2⟩
noncomputable def c : MixVar ℝ := ⟨"c", .score 3, ["b"], fun θ xs => if xs = [1] then θ ^ 2 else θ, [0, 1], bern⟩
noncomputable def z : MixVar ℝ := ⟨"z", .expect, ["b"], fun θ xs => if xs = [1] then θ ^ 2 else θ, [0, 1], bern⟩
noncomputable def vars : List (MixVar ℝ) := [z, c, w, b]
noncomputable def cost : MixCost ℝ :=
  ⟨["b", "c", "w", "z"], fun _ xs => xs.getD 0 0 * xs.getD 1 0 + xs.getD 2 0 * xs.getD 3 0, [z, c, w, b]⟩

theorem above_nil {l : List (ScoreVar ℝ)} {s : String} (h : Above l [] s) : False := by
  generalize he : ([] : List String) = args at h
  induction h with
  | arg h => subst he; cases h
  | step _ _ _ ih => exact ih

theorem above_b {s : String} (h : Above (vars.map MixVar.score) ["b"] s) : s = "b" := by
  induction h with
  | arg h => simpa using h
  | step hd _ ha ih =>
    obtain ⟨d, hd', rfl⟩ := List.mem_map.1 hd
    simp only [vars, List.mem_cons, List.not_mem_nil, or_false] at hd'
    rcases hd' with rfl | rfl | rfl | rfl <;> simp [z, c, w, b, MixVar.score] at ih ha

theorem sizes : MixSizes vars := by
  refine ⟨?_, ?_⟩
  · intro x hx
    obtain ⟨d, hd, rfl⟩ := List.mem_map.1 hx
    right
    intro x' hx' ha
    obtain ⟨d', hd', rfl⟩ := List.mem_map.1 hx'
    have hb : d'.score.name = "b" → d'.score.n = 1 := by
      intro h
      simp only [vars, List.mem_cons, List.not_mem_nil, or_false] at hd'
      rcases hd' with rfl | rfl | rfl | rfl
      · simp [z, MixVar.score] at h
      · simp [c, MixVar.score] at h
      · simp [w, MixVar.score] at h
      · rfl
    simp only [vars, List.mem_cons, List.not_mem_nil, or_false] at hd
    rcases hd with rfl | rfl | rfl | rfl
    · exact hb (above_b ha)
    · exact hb (above_b ha)
    · exact (above_nil ha).elim
    · exact (above_nil ha).elim
  · intro d hd he
    simp only [vars, List.mem_cons, List.not_mem_nil, or_false] at hd
    rcases hd with rfl | rfl | rfl | rfl
    · simp [z, MixVar.size]
    · cases he
    · cases he
    · cases he

theorem good : GoodMix vars := by
  refine ⟨?_, sizes, ?_, ?_, ?_⟩
  · refine ⟨⟨⟨⟨trivial, by simp, by simp [b, MixVar.score], by simp [b, MixVar.score, MixVar.size], ?_⟩,
      by simp [w, b, MixVar.score], by simp [w, MixVar.score], by simp [w, MixVar.score, MixVar.size], ?_⟩,
      by simp [w, c, b, MixVar.score], by simp [w, c, b, MixVar.score], by simp [c, MixVar.score, MixVar.size], ?_⟩,
      by simp [w, c, b, z, MixVar.score], by simp [w, c, b, z, MixVar.score], by simp [z, MixVar.score, MixVar.size], ?_⟩
    · intro π
      simp [b, MixVar.score, bern]
    · intro π
      have h : (-1 : ℝ) ≠ 1 := by norm_num
      simp [w, MixVar.score, h]
    all_goals
      intro π
      simp [z, c, MixVar.score, bern]
  · have h : (-1 : ℝ) ≠ 1 := by norm_num
    simp [vars, w, c, b, z, h]
  · simp [vars, w, c, b, z, MixVar.size]
  · simp [vars, w, c, b, z, MixHow.drawn, MixHow.scored]

theorem goodCost : GoodMixCost (1 / 2 : ℝ) vars cost := by
  refine ⟨by simp [cost], by simp [vars, cost, w, c, b, z], by simp [vars, cost], ?_, by simp [cost, w, c, b, z], ?_⟩
  · intro d hd
    refine .arg ?_
    simp only [cost, List.mem_cons, List.not_mem_nil, or_false] at hd
    rcases hd with rfl | rfl | rfl | rfl <;> simp [cost, w, c, b, z]
  · intro d hd _ _
    exact Or.inl hd

/-- `C71_mixed` applies, with variables that have one sample above a variable that has three and one that is enumerated. -/
example : ∃ loss : Draws ℝ → ℝ → ℝ,
    (∀ ω, ListedDraws vars ω → ∃ r : STen (AD ℝ (1 / 2 : ℝ)),
      runMixedProgram (fun _ a => .ok a) invN vars [cost] ω = .ok r ∧ r.plates = [] ∧ r.ten.shape = [] ∧
        r.ten.get [] = loss ω) ∧
      ∀ θ, 0 < θ → θ < 1 → ∀ ω₀, ListedDraws vars ω₀ →
        expect (mixProg (1 / 2 : ℝ) vars) (1 / 2 : ℝ) (mixSampled (1 / 2 : ℝ) vars) (fun ω => loss ω θ) ω₀ =
          θ ^ 4 + θ ^ 2 := by
  obtain ⟨loss, h1, h2⟩ := C71_mixed (θ₀ := (1 / 2 : ℝ)) (hook := fun _ a => .ok a) (fun _ _ _ => rfl) good
    (costs := [cost]) (by simp) (by simpa using goodCost)
  refine ⟨loss, h1, fun θ h0 h1' ω₀ hω => ?_⟩
  have hpos := @MixedProgramCase.bern_pos
  rw [h2 θ ?_ ?_ ω₀ hω]
  · simp [expectedMix, meanRun, vars, w, c, z, b, cost, bern, Function.update]
    ring
  · intro d hd hn xs v _
    simp only [vars, List.mem_cons, List.not_mem_nil, or_false] at hd
    rcases hd with rfl | rfl | rfl | rfl
    · simp only [z]
      apply hpos <;> split <;> first | assumption | positivity | nlinarith
    · cases hn
    · cases hn
    · cases hn
  · intro k hk d hd hn ρ v _
    simp only [List.mem_singleton] at hk
    subst hk
    simp only [cost, List.mem_cons, List.not_mem_nil, or_false] at hd
    left
    rcases hd with rfl | rfl | rfl | rfl
    · cases hn
    · have key : ∀ {t : ℝ}, 0 < t → t < 1 → ∀ xs, 0 < bern (c.param t xs) v := by
        intro t t0 t1 xs
        simp only [c]
        apply hpos <;> split <;> first | assumption | positivity | nlinarith
      exact ⟨key (by norm_num) (by norm_num) _, key h0 h1' _⟩
    · cases hn
    · exact ⟨hpos v (by simp [b]) (by simp [b]; norm_num), hpos v h0 h1'⟩

end OneSampleCase

end orders

end Storch
