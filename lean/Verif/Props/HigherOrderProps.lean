import Verif.Props.BaselineProps

/-!
# C57: baselines and higher derivatives
-/

namespace Storch

section
variable {E : Type _} {θ₀ : E}

/-- The chi-square divergence of the distribution at `θ` from the one at `θ₀`. -/
noncomputable def chiSquare (θ₀ : E) (d : ScoreVar E) (θ : E) : ℝ :=
  ∑ v ∈ d.support, d.prob (d.param θ []) v ^ 2 / d.prob (d.param θ₀ []) v - 1

/-! ### Lemmas -/

theorem avgOver_const (M : List (Plate (AD E θ₀))) (hM : ∀ p ∈ M, 1 ≤ p.n) (J : ℝ) :
    ((allIdx (M.map Plate.n)).map (fun _ => (M.map (fun p => 1 / (p.n : ℝ))).prod * J)).sum = J := by
  rw [List.map_const', List.sum_replicate]
  have : ((allIdx (M.map Plate.n)).length : ℝ) * (M.map (fun p => 1 / (p.n : ℝ))).prod = 1 := by
    clear J
    induction M with
    | nil => simp [allIdx]
    | cons p M ih =>
      have hp := hM p (by simp)
      have ih' := ih (fun q hq => hM q (List.mem_cons_of_mem _ hq))
      simp only [List.map_cons, List.prod_cons]
      rw [show (allIdx (p.n :: M.map Plate.n)).length = p.n * (allIdx (M.map Plate.n)).length by
        simp [allIdx, List.length_flatMap]]
      rw [Nat.cast_mul]
      have h0 : (p.n : ℝ) ≠ 0 := by exact_mod_cast (by omega : p.n ≠ 0)
      field_simp
      simpa using ih'
  rw [nsmul_eq_mul, ← mul_assoc, this, one_mul]

theorem expect_costAt {vars : List (ScoreVar E)} (hg : GoodVars vars) {k : ScoreCost E}
    (hk : GoodCost θ₀ vars k) {ι : String → Nat} (hι : Valid (poolOf (θ₀ := θ₀) invN vars) ι) (ω₀ : Draws ℝ) :
    expect (declsOf (θ₀ := θ₀) invN vars) θ₀ (declsOf (θ₀ := θ₀) invN vars)
      (fun ω => costAt θ₀ vars k ω ι) ω₀ = expectedCost θ₀ vars [k] θ₀ := by
  have hP := declsOf_program (inv := invN (θ₀ := θ₀)) hg θ₀
  have hin : ∀ x ∈ declsOf (θ₀ := θ₀) invN vars, InPlates x ι := by
    intro x hx p hp
    obtain ⟨q, hq, e1, e2⟩ := (poolFor (θ₀ := θ₀) hg).covers x hx p hp
    rw [← e1, ← e2]; exact hι q hq
  have h1 := expect_trajectory hP (ι := ι) _ (fun _ h => h) hin (fun ρ => k.f θ₀ (k.args.map ρ)) ω₀
  simp only [costAt]
  rw [h1, expectedCost, List.map_cons, List.map_nil, List.sum_cons, List.sum_nil, add_zero]
  have hks := hk.spec (inv := invN (θ₀ := θ₀)) hg
  refine expectOne_looksAt (A := (k.spec (θ₀ := θ₀) invN vars).anc) _ hP.names ?_ hP.normal hP.normal (hks.looks θ₀) ?_
  · intro l1 x l2 he hx ρ ρ' v h
    have hxp : x ∈ declsOf (θ₀ := θ₀) invN vars := by rw [he]; simp
    exact hP.local' x hxp θ₀ ρ ρ' v (fun s hs => h s (hks.closed x hxp hx s hs) (hP.not_dep he s hs))
  · intro s hs hn
    exact absurd (hks.anc_sub s hs) hn

theorem assign_valid_sub {pool ps : List (Plate (AD E θ₀))} (hp : (pool.map Plate.name).Nodup)
    (hs : ∀ p ∈ ps, p ∈ pool) {idx : List Nat} (hi : idx ∈ allIdx (ps.map Plate.n)) {ι : String → Nat}
    (hι : Valid pool ι) : Valid pool (assign ps idx ι) := by
  induction ps generalizing idx ι with
  | nil => exact hι
  | cons p ps ih =>
    rw [List.map_cons, mem_allIdx] at hi
    cases hi with
    | cons h1 h2 =>
      exact ih (fun q hq => hs q (List.mem_cons_of_mem _ hq)) (mem_allIdx.2 h2) (hι.update hp (hs p (by simp)) h1)

/-- The mean cost of the other samples has the expectation of the cost. -/
theorem expect_othersMean {vars : List (ScoreVar E)} (hg : GoodVars vars) {k : ScoreCost E}
    (hk : GoodCost θ₀ vars k) {d : ScoreVar E} (hd : d ∈ vars) (hn : 1 < d.n) {ι : String → Nat}
    (hι : Valid (poolOf (θ₀ := θ₀) invN vars) ι) (ω₀ : Draws ℝ) :
    expect (declsOf (θ₀ := θ₀) invN vars) θ₀ (declsOf (θ₀ := θ₀) invN vars)
      (fun ω => othersMean θ₀ vars k d ω ι) ω₀ = expectedCost θ₀ vars [k] θ₀ := by
  obtain ⟨own, o1, o2, o3⟩ := own_plate (inv := invN (θ₀ := θ₀)) hg hd
  have hl := layoutOK (θ₀ := θ₀) invN vars hg
  have hown := hl.sub _ (hl.platesIn_mem (List.mem_map_of_mem hd)) own o1
  have hιd : ι d.name < d.n := by
    have := hι own hown
    rwa [o2, o3] at this
  simp only [othersMean, div_eq_inv_mul]
  rw [expect_smul, expect_sum]
  have h1 : ∀ m ∈ (Finset.range d.n).erase (ι d.name), expect (declsOf (θ₀ := θ₀) invN vars) θ₀
      (declsOf (θ₀ := θ₀) invN vars) (fun ω => costOfSample θ₀ vars k d ω (Function.update ι d.name m)) ω₀ =
      expectedCost θ₀ vars [k] θ₀ := by
    intro m hm
    have hm' : m < own.n := by rw [o3]; exact Finset.mem_range.1 (Finset.mem_of_mem_erase hm)
    have hv : Valid (poolOf (θ₀ := θ₀) invN vars) (Function.update ι d.name m) := by
      rw [← o2]; exact hι.update hl.pool.names hown hm'
    have hsub : ∀ p ∈ otherPlates θ₀ vars k d, p ∈ poolOf (θ₀ := θ₀) invN vars := by
      intro p hp
      obtain ⟨s, hs, hms⟩ := ((hl.args hk.args).2 p).1 (List.mem_filter.1 hp).1
      exact hl.sub _ (hl.platesIn_mem (hk.args s hs)) p hms
    simp only [costOfSample, avgOver]
    rw [expect_list_sum]
    rw [← avgOver_const (otherPlates θ₀ vars k d) (fun p hp => ?_) (expectedCost θ₀ vars [k] θ₀)]
    · congr 1
      apply List.map_congr_left
      intro idx hidx
      rw [expect_smul, expect_costAt hg hk (assign_valid_sub hl.pool.names hsub hidx hv)]
    · have := (List.mem_filter.1 hp).2
      simp only [Bool.and_eq_true, decide_eq_true_eq] at this
      omega
  rw [Finset.sum_congr rfl h1, Finset.sum_const, nsmul_eq_mul, Finset.card_erase_of_mem (Finset.mem_range.2 hιd),
    Finset.card_range, Nat.cast_sub (by omega), Nat.cast_one, ← mul_assoc]
  have : (d.n : ℝ) - 1 ≠ 0 := by
    have : (1 : ℝ) < d.n := by exact_mod_cast hn
    linarith
  rw [inv_mul_cancel₀ this, one_mul]

/-- The control variate of a sample: minus the chi-square divergence times the expectation of what is blind to it. -/
theorem expect_boxed {vars : List (ScoreVar E)} (hg : GoodVars vars) {d : ScoreVar E} (hd : d ∈ vars)
    (ha : d.args = []) {θ : E} (hs : d.SameSupport θ₀ θ) {ι : String → Nat}
    (hι : Valid (poolOf (θ₀ := θ₀) invN vars) ι)
    {T : String → List Nat → Prop} (hT : Downward (declsOf (θ₀ := θ₀) invN vars) T)
    (hTi : T d.name ((d.decl (platesIn (layout (θ₀ := θ₀) invN vars) d.name)).idx.map (fun p => ι p.1)))
    {H : Draws ℝ → ℝ} (hH : Blind T H) (R : ℝ → ℝ)
    (hR : ∀ v ∈ d.support, d.prob (d.param θ₀ []) v ≠ 0 →
      R v = d.prob (d.param θ []) v / d.prob (d.param θ₀ []) v) (ω₀ : Draws ℝ) :
    expect (declsOf (θ₀ := θ₀) invN vars) θ₀ (declsOf (θ₀ := θ₀) invN vars)
      (fun ω => R (trajectory (declsOf (θ₀ := θ₀) invN vars) ω ι d.name) *
        (1 - R (trajectory (declsOf (θ₀ := θ₀) invN vars) ω ι d.name)) * H ω) ω₀ =
      -chiSquare θ₀ d θ * expect (declsOf (θ₀ := θ₀) invN vars) θ₀ (declsOf (θ₀ := θ₀) invN vars) H ω₀ := by
  have hP := declsOf_program (inv := invN (θ₀ := θ₀)) hg
  have hx := (mem_declsOf (inv := invN (θ₀ := θ₀)) hg).2 ⟨d, hd, rfl⟩
  have hin : InPlates (d.decl (platesIn (layout (θ₀ := θ₀) invN vars) d.name)) ι := by
    intro p hp
    obtain ⟨q, hq, e1, e2⟩ := (poolFor (θ₀ := θ₀) hg).covers _ hx p hp
    rw [← e1, ← e2]; exact hι q hq
  have hm : ∀ θ ρ v, (d.decl (platesIn (layout (θ₀ := θ₀) invN vars) d.name)).mass θ ρ v =
      d.prob (d.param θ []) v := by
    intro θ ρ v
    simp [ScoreVar.decl, ha]
  have h0 := expect_score_zero (hP θ₀) hx hT hin.mem hTi (g := fun _ v => R v * (1 - R v) + chiSquare θ₀ d θ)
    (fun _ _ _ _ => rfl) (fun ρ => ?_) hH ω₀
  · have e : ∀ ω : Draws ℝ, ω d.name ((d.decl (platesIn (layout (θ₀ := θ₀) invN vars) d.name)).idx.map
        (fun p => ι p.1)) = trajectory (declsOf (θ₀ := θ₀) invN vars) ω ι d.name :=
      fun ω => (trajectory_decl (hP θ₀).names hx ω ι).symm
    have h1 : (fun ω : Draws ℝ => (R (ω d.name ((d.decl (platesIn (layout (θ₀ := θ₀) invN vars) d.name)).idx.map
        (fun p => ι p.1))) * (1 - R (ω d.name ((d.decl (platesIn (layout (θ₀ := θ₀) invN vars) d.name)).idx.map
        (fun p => ι p.1)))) + chiSquare θ₀ d θ) * H ω) = fun ω =>
        (R (trajectory (declsOf (θ₀ := θ₀) invN vars) ω ι d.name) *
        (1 - R (trajectory (declsOf (θ₀ := θ₀) invN vars) ω ι d.name)) * H ω) + chiSquare θ₀ d θ * H ω := by
      funext ω
      rw [e ω]; ring
    have h2 : expect (declsOf (θ₀ := θ₀) invN vars) θ₀ (declsOf (θ₀ := θ₀) invN vars) (fun ω : Draws ℝ =>
        (R (ω d.name ((d.decl (platesIn (layout (θ₀ := θ₀) invN vars) d.name)).idx.map
        (fun p => ι p.1))) * (1 - R (ω d.name ((d.decl (platesIn (layout (θ₀ := θ₀) invN vars) d.name)).idx.map
        (fun p => ι p.1)))) + chiSquare θ₀ d θ) * H ω) ω₀ = 0 := h0
    rw [h1, expect_add, expect_smul] at h2
    linarith
  · have n1 := (hP θ).normal _ hx ρ
    have n0 := (hP θ₀).normal _ hx ρ
    simp only [hm] at n1 n0 ⊢
    have : ∀ v ∈ d.support, d.prob (d.param θ₀ []) v * (R v * (1 - R v) + chiSquare θ₀ d θ) =
        d.prob (d.param θ []) v - d.prob (d.param θ []) v ^ 2 / d.prob (d.param θ₀ []) v +
          chiSquare θ₀ d θ * d.prob (d.param θ₀ []) v := by
      intro v hv
      rcases hs [] v hv with h | h
      · have := h.1.ne'
        rw [hR v hv this]
        field_simp
      · simp [h.1, h.2]
    rw [show (d.decl (platesIn (layout (θ₀ := θ₀) invN vars) d.name)).support = d.support from rfl] at n1 n0 ⊢
    rw [Finset.sum_congr rfl this, Finset.sum_add_distrib, Finset.sum_sub_distrib, ← Finset.mul_sum, n1, n0, chiSquare]
    ring

/-- The likelihood ratio of a value. -/
noncomputable def likelihood (θ₀ : E) (d : ScoreVar E) (θ : E) (v : ℝ) : ℝ :=
  Real.exp (Real.log (d.prob (d.param θ []) v) - Real.log (d.prob (d.param θ₀ []) v))

/-- What the control variates add to the loss. -/
noncomputable def cvValue (θ₀ : E) (vars : List (ScoreVar E)) (k : ScoreCost E) (d : ScoreVar E) (ω : Draws ℝ) (θ : E) :
    ℝ :=
  ((allIdx ((poolOf (θ₀ := θ₀) invN vars).map Plate.n)).map (fun idx =>
    jointWeight (poolOf (θ₀ := θ₀) invN vars) θ idx *
    (likelihood θ₀ d θ (trajectory (declsOf (θ₀ := θ₀) invN vars) ω
      (assign (poolOf (θ₀ := θ₀) invN vars) idx (fun _ => 0)) d.name) *
    (1 - likelihood θ₀ d θ (trajectory (declsOf (θ₀ := θ₀) invN vars) ω
      (assign (poolOf (θ₀ := θ₀) invN vars) idx (fun _ => 0)) d.name)) *
    othersMean θ₀ vars k d ω (assign (poolOf (θ₀ := θ₀) invN vars) idx (fun _ => 0))))).sum

theorem base_loss {hook : UnwrapHook (AD E θ₀)} (hh : PlainHook hook) {vars : List (ScoreVar E)}
    (hg : GoodVars vars) (hm : Unmixed vars) (ho : OnesOnTop vars) {k : ScoreCost E}
    (hk : GoodCost θ₀ vars k) (hkw : GoodWalk vars k) {d : ScoreVar E} (hw : k.walk = [d])
    (ha : d.args = []) (hb : d.base = some .batchAverage) :
    ∃ loss : Draws ℝ → E → ℝ,
      (∀ ω, Possible (declsOf (θ₀ := θ₀) invN vars) θ₀ ω → ∃ r, runProgram hook invN vars [k] ω = .ok r ∧
        r.plates = [] ∧ r.ten.shape = [] ∧ r.ten.get [] = loss ω) ∧
      (∀ ω, Possible (declsOf (θ₀ := θ₀) invN vars) θ₀ ω → ∀ θ, d.SameSupport θ₀ θ → loss ω θ =
        cvValue θ₀ vars k d ω θ +
        runValue (poolOf (θ₀ := θ₀) invN vars) (declsOf (θ₀ := θ₀) invN vars) ω (k.spec (θ₀ := θ₀) invN vars) θ) ∧
      ∀ θ, d.SameSupport θ₀ θ → ∀ ω₀,
        expect (declsOf (θ₀ := θ₀) invN vars) θ₀ (declsOf (θ₀ := θ₀) invN vars) (fun ω => loss ω θ) ω₀ =
          expectedCost θ₀ vars [k] θ - chiSquare θ₀ d θ * expectedCost θ₀ vars [k] θ₀ := by
  classical
  have hd : d ∈ vars := hk.sub d (by rw [hw]; simp)
  have hn : 1 < d.n := (hkw d (by rw [hw]; simp)).2 hb
  have hP := declsOf_program (inv := invN (θ₀ := θ₀)) hg
  have hF := poolFor (θ₀ := θ₀) hg
  have hx := (mem_declsOf (inv := invN (θ₀ := θ₀)) hg).2 ⟨d, hd, rfl⟩
  have hrun : ∀ ω, Possible (declsOf (θ₀ := θ₀) invN vars) θ₀ ω → ∃ r, runProgram hook invN vars [k] ω = .ok r ∧
      r.plates = [] ∧ r.ten.shape = [] ∧ ∀ θ, d.SameSupport θ₀ θ → r.ten.get [] θ =
        cvValue θ₀ vars k d ω θ +
        runValue (poolOf (θ₀ := θ₀) invN vars) (declsOf (θ₀ := θ₀) invN vars) ω (k.spec (θ₀ := θ₀) invN vars) θ := by
    intro ω hω
    obtain ⟨env, r1, r2⟩ := runVars_ok hh invN ω vars hg
    obtain ⟨cs, c1, c2⟩ := runCosts_base hh hg hm ho r2 [k] (by simpa using ⟨hk, hkw⟩)
    rw [List.map_cons, List.map_nil] at c2
    cases c2 with
    | @cons c _ cs' _ hc hnil =>
    cases hnil
    obtain ⟨ests, e1, e2, e3⟩ := hc.spec (hP θ₀) hF hω (hk.spec hg)
    obtain ⟨r, s1, s2, s3, s4⟩ := surrogateLoss_spec hh hF.ok hF.weights (costs := [c]) (es := [(c.1, ests)]) (by simp)
      (.cons e1 .nil)
    refine ⟨r, by rw [runProgram, r1]; simp only [c1, s1], s2, s3, ?_⟩
    intro θ hθ
    rw [s4, lossTotal, List.map_cons, List.map_nil, List.sum_cons, List.sum_nil, add_zero]
    simp only
    rw [e3 θ (by
      intro x hx'
      rw [show (k.spec (θ₀ := θ₀) invN vars).active =
        k.walk.map (fun d => d.decl (platesIn (layout (θ₀ := θ₀) invN vars) d.name)) from rfl, hw] at hx'
      simp only [List.map_cons, List.map_nil, List.mem_singleton] at hx'
      subst hx'
      exact fun ρ v hv => hθ _ v hv)]
    congr 1
    rw [show (k.spec (θ₀ := θ₀) invN vars).active =
      k.walk.map (fun d => d.decl (platesIn (layout (θ₀ := θ₀) invN vars) d.name)) from rfl, hw] at e2
    simp only [List.map_cons, List.map_nil, Baselines.at, baselineOf, hb, Option.map_some, List.zip_cons_cons,
      List.zip_nil_right] at e2
    cases e2 with
    | @cons _ e _ es' he hnil =>
    cases hnil
    have hcv := he.cv
    simp only at hcv
    cases hec : e.cv with
    | none => rw [hec] at hcv; exact hcv.elim
    | some x =>
      obtain ⟨ns', v⟩ := x
      rw [hec] at hcv
      simp only at hcv
      obtain ⟨hv1, hv2⟩ := hcv
      simp only [cvTotal, hec, add_zero, List.nil_append, zero_add]
      rw [cvValue, boxTotal, total_pool hF.ok hF.weights hF.normalised, total_eval]
      · congr 1
        apply List.map_congr_left
        intro idx hidx
        have hv := assign_valid hF.ok.names hidx (fun _ => 0)
        congr 1
        rw [AD.mul_apply, hv2 _ hv, ← mul_assoc]
        have hin : InPlates (d.decl (platesIn (layout (θ₀ := θ₀) invN vars) d.name))
            (assign (poolOf (θ₀ := θ₀) invN vars) idx (fun _ => 0)) := by
          intro p hp
          obtain ⟨q, hq, e1, e2⟩ := hF.covers _ hx p hp
          rw [← e1, ← e2]; exact hv q hq
        obtain ⟨hsup, hne⟩ := hω.mass_ne (hP θ₀) hx hin
        have hmass : ∀ θ ρ v, (d.decl (platesIn (layout (θ₀ := θ₀) invN vars) d.name)).mass θ ρ v =
            d.prob (d.param θ []) v := by
          intro θ ρ v
          simp [ScoreVar.decl, ha]
        have hne' : (d.decl (platesIn (layout (θ₀ := θ₀) invN vars) d.name)).mass θ
            (trajectory (declsOf (θ₀ := θ₀) invN vars) ω (assign (poolOf (θ₀ := θ₀) invN vars) idx (fun _ => 0)))
            (trajectory (declsOf (θ₀ := θ₀) invN vars) ω (assign (poolOf (θ₀ := θ₀) invN vars) idx (fun _ => 0))
              d.name) ≠ 0 := by
          rw [hmass] at hne ⊢
          rcases hθ [] _ hsup with h' | h'
          · exact h'.2.ne'
          · exact absurd h'.1 hne
        have l1 := he.lp _ hv θ hne'
        have l0 := he.lp _ hv θ₀ hne
        have hbox : boxElt (e.lp (assign (poolOf (θ₀ := θ₀) invN vars) idx (fun _ => 0))) θ =
            likelihood θ₀ d θ (trajectory (declsOf (θ₀ := θ₀) invN vars) ω (assign (poolOf (θ₀ := θ₀) invN vars) idx (fun _ => 0))
              d.name) := by
          show Real.exp (e.lp _ θ - e.lp _ θ₀) = _
          rw [l1, l0, hmass, hmass]
          rfl
        rw [hbox]
      · intro q hq hqn ι m
        rw [List.mem_append, not_or] at hqn
        rw [he.indep q hq hqn.1, hv1 q hq hqn.2]
  have : Nonempty (STen (AD E θ₀)) := ⟨⟨Ten.scalar 0, [], 0⟩⟩
  choose! r h1 h2 h3 h4 using hrun
  refine ⟨fun ω => (r ω).ten.get [], fun ω hω => ⟨r ω, h1 ω hω, h2 ω hω, h3 ω hω, rfl⟩, h4, ?_⟩
  intro θ hθ ω₀
  rw [expect_congr (hP θ₀) (fun ω hω => h4 ω hω θ hθ), expect_add,
    expect_runValue (hP θ₀) hF (hk.spec hg) (hP θ) (by
      intro x hx'
      rw [show (k.spec (θ₀ := θ₀) invN vars).active =
        k.walk.map (fun d => d.decl (platesIn (layout (θ₀ := θ₀) invN vars) d.name)) from rfl, hw] at hx'
      simp only [List.map_cons, List.map_nil, List.mem_singleton] at hx'
      subst hx'
      exact fun ρ v hv => hθ _ v hv) ω₀ (fun _ => 0)]
  have hsum : expect (declsOf (θ₀ := θ₀) invN vars) θ₀ (declsOf (θ₀ := θ₀) invN vars)
      (fun ω => cvValue θ₀ vars k d ω θ) ω₀ =
      -chiSquare θ₀ d θ * expectedCost θ₀ vars [k] θ₀ := by
    have : ∀ idx ∈ allIdx ((poolOf (θ₀ := θ₀) invN vars).map Plate.n),
        expect (declsOf (θ₀ := θ₀) invN vars) θ₀ (declsOf (θ₀ := θ₀) invN vars) (fun ω =>
          jointWeight (poolOf (θ₀ := θ₀) invN vars) θ idx *
          (likelihood θ₀ d θ (trajectory (declsOf (θ₀ := θ₀) invN vars) ω (assign (poolOf (θ₀ := θ₀) invN vars) idx (fun _ => 0)) d.name) *
          (1 - likelihood θ₀ d θ (trajectory (declsOf (θ₀ := θ₀) invN vars) ω (assign (poolOf (θ₀ := θ₀) invN vars) idx (fun _ => 0)) d.name)) *
          othersMean θ₀ vars k d ω (assign (poolOf (θ₀ := θ₀) invN vars) idx (fun _ => 0)))) ω₀ =
        jointWeight (poolOf (θ₀ := θ₀) invN vars) θ idx * (-chiSquare θ₀ d θ * expectedCost θ₀ vars [k] θ₀) := by
      intro idx hidx
      have hv := assign_valid hF.ok.names hidx (fun _ => 0)
      rw [expect_smul, expect_boxed hg hd ha hθ hv (alongPlate_downward (hP θ₀) _ _) (decl_alongPlate hg hd hn _)
        (othersMean_blind hg hk.args hd _) (likelihood θ₀ d θ) ?_ ω₀, expect_othersMean hg hk hd hn hv]
      intro v hv' hne
      rcases hθ [] v hv' with h' | h'
      · simp only [likelihood]
        rw [Real.exp_sub, Real.exp_log h'.2, Real.exp_log h'.1]
      · exact absurd h'.1 hne
    simp only [cvValue]
    rw [expect_list_sum, List.map_congr_left this, List.sum_map_mul_right, jointWeight_sum hF.ok.names hF.weights hF.normalised, one_mul]
  have hcost : expectedCost θ₀ vars [k] θ = expectOne (fun d => d.mass θ) (declsOf (θ₀ := θ₀) invN vars)
      ((k.spec (θ₀ := θ₀) invN vars).f θ) (fun _ => 0) := by
    rw [expectedCost, List.map_cons, List.map_nil, List.sum_cons, List.sum_nil, add_zero]
    rfl
  rw [hsum, ← hcost]
  ring

/-- C57, what is true: with a batch-average baseline on one variable, the expectation of the surrogate loss over the
draws at `θ₀`, as a function of `θ`, is the expected cost minus the chi-square divergence of the distributions times
the expected cost at `θ₀`.  Missing for C57: the second derivative of the divergence at `θ₀` is not zero
(`C57_refuted`); several variables with baselines, and moving averages. -/
theorem C57_expected_partial {hook : UnwrapHook (AD E θ₀)} (hh : PlainHook hook) {vars : List (ScoreVar E)}
    (hg : GoodVars vars) (hm : Unmixed vars) (ho : OnesOnTop vars) {k : ScoreCost E}
    (hk : GoodCost θ₀ vars k) (hkw : GoodWalk vars k) {d : ScoreVar E} (hw : k.walk = [d])
    (ha : d.args = []) (hb : d.base = some .batchAverage) :
    ∃ loss : Draws ℝ → E → ℝ,
      (∀ ω, Possible (declsOf (θ₀ := θ₀) invN vars) θ₀ ω → ∃ r, runProgram hook invN vars [k] ω = .ok r ∧
        r.plates = [] ∧ r.ten.shape = [] ∧ r.ten.get [] = loss ω) ∧
      ∀ θ, d.SameSupport θ₀ θ → ∀ ω₀,
        expect (declsOf (θ₀ := θ₀) invN vars) θ₀ (declsOf (θ₀ := θ₀) invN vars) (fun ω => loss ω θ) ω₀ =
          expectedCost θ₀ vars [k] θ - chiSquare θ₀ d θ * expectedCost θ₀ vars [k] θ₀ := by
  obtain ⟨loss, l1, _, l3⟩ := base_loss hh hg hm ho hk hkw hw ha hb
  exact ⟨loss, l1, l3⟩

end

section orders
variable {E : Type _} [NormedAddCommGroup E] [NormedSpace ℝ E] {θ₀ : E}
open scoped Topology

/-- C57, what is true: the expected derivatives of order `n` of the surrogate loss are those of the expected cost,
minus those of the chi-square divergence times the expected cost. -/
theorem C57_orders_partial {hook : UnwrapHook (AD E θ₀)} (hh : PlainHook hook) {vars : List (ScoreVar E)}
    (hg : GoodVars vars) (hm : Unmixed vars) (ho : OnesOnTop vars) {k : ScoreCost E}
    (hk : GoodCost θ₀ vars k) (hkw : GoodWalk vars k) {d : ScoreVar E} (hw : k.walk = [d])
    (ha : d.args = []) (hb : d.base = some .batchAverage) {n : ℕ}
    (hmass : ∀ v ∈ d.support, ContDiffAt ℝ n (fun θ => d.prob (d.param θ []) v) θ₀)
    (hcost : ∀ xs, ContDiffAt ℝ n (fun θ => k.f θ xs) θ₀)
    (hnear : ∀ᶠ θ in 𝓝 θ₀, d.SameSupport θ₀ θ) :
    ∃ loss : Draws ℝ → E → ℝ,
      (∀ ω, Possible (declsOf (θ₀ := θ₀) invN vars) θ₀ ω → ∃ r, runProgram hook invN vars [k] ω = .ok r ∧
        r.plates = [] ∧ r.ten.shape = [] ∧ r.ten.get [] = loss ω ∧ ContDiffAt ℝ n (loss ω) θ₀) ∧
      ∀ ω₀ v, expect (declsOf (θ₀ := θ₀) invN vars) θ₀ (declsOf (θ₀ := θ₀) invN vars)
          (fun ω => iteratedFDeriv ℝ n (loss ω) θ₀ v) ω₀ =
        iteratedFDeriv ℝ n (fun θ => expectedCost θ₀ vars [k] θ - chiSquare θ₀ d θ * expectedCost θ₀ vars [k] θ₀)
          θ₀ v := by
  obtain ⟨loss, h1, h2, h3⟩ := base_loss hh hg hm ho hk hkw hw ha hb
  have hd : d ∈ vars := hk.sub d (by rw [hw]; simp)
  have hP := declsOf_program (inv := invN (θ₀ := θ₀)) hg
  have hF := poolFor (θ₀ := θ₀) hg
  have hx := (mem_declsOf (inv := invN (θ₀ := θ₀)) hg).2 ⟨d, hd, rfl⟩
  have hms : ∀ θ ρ v, (d.decl (platesIn (layout (θ₀ := θ₀) invN vars) d.name)).mass θ ρ v =
      d.prob (d.param θ []) v := by
    intro θ ρ v
    simp [ScoreVar.decl, ha]
  have hsmooth : Smooth (poolOf (θ₀ := θ₀) invN vars) [k.spec (θ₀ := θ₀) invN vars] n := by
    refine ⟨?_, ?_, ?_⟩
    · intro p hp ι θ
      have := ((layoutOK (θ₀ := θ₀) invN vars hg).made p hp).2
      have hw : p.weight = .torch (Ten.scalar (invN p.n)) := by rw [this]; rfl
      simp only [Plate.weightAt, hw]
      rfl
    · intro k' hk' x hx' ρ v hv
      simp only [List.mem_singleton] at hk'
      subst hk'
      rw [show (k.spec (θ₀ := θ₀) invN vars).active =
        k.walk.map (fun d => d.decl (platesIn (layout (θ₀ := θ₀) invN vars) d.name)) from rfl, hw] at hx'
      simp only [List.map_cons, List.map_nil, List.mem_singleton] at hx'
      subst hx'
      simp only [hms]
      exact hmass v hv
    · intro k' hk' ρ
      simp only [List.mem_singleton] at hk'
      subst hk'
      exact hcost _
  have hsm : ∀ ω, Possible (declsOf (θ₀ := θ₀) invN vars) θ₀ ω → ContDiffAt ℝ n (loss ω) θ₀ := by
    intro ω hω
    have he : loss ω =ᶠ[𝓝 θ₀] fun θ => cvValue θ₀ vars k d ω θ + runValue (poolOf (θ₀ := θ₀) invN vars)
        (declsOf (θ₀ := θ₀) invN vars) ω (k.spec (θ₀ := θ₀) invN vars) θ := by
      filter_upwards [hnear] with θ hθ
      exact h2 ω hω θ hθ
    refine ContDiffAt.congr_of_eventuallyEq ?_ he
    refine ContDiffAt.add ?_ (runValue_smooth (hP θ₀) hF hsmooth (by simp) (hk.spec hg) hω)
    unfold cvValue
    apply contDiffAt_list_sum
    intro idx hidx
    have hv := assign_valid hF.ok.names hidx (fun _ => 0)
    have hin : InPlates (d.decl (platesIn (layout (θ₀ := θ₀) invN vars) d.name))
        (assign (poolOf (θ₀ := θ₀) invN vars) idx (fun _ => 0)) := by
      intro p hp
      obtain ⟨q, hq, e1, e2⟩ := hF.covers _ hx p hp
      rw [← e1, ← e2]; exact hv q hq
    obtain ⟨hsup, hne⟩ := hω.mass_ne (hP θ₀) hx hin
    rw [hms] at hne
    have hlike : ContDiffAt ℝ n (fun θ => likelihood θ₀ d θ (trajectory (declsOf (θ₀ := θ₀) invN vars) ω
        (assign (poolOf (θ₀ := θ₀) invN vars) idx (fun _ => 0)) d.name)) θ₀ :=
      (((hmass _ hsup).log hne).sub contDiffAt_const).exp
    simp only [jointWeight_mc hg]
    exact contDiffAt_const.mul ((hlike.mul (contDiffAt_const.sub hlike)).mul contDiffAt_const)
  refine ⟨loss, ?_, ?_⟩
  · intro ω hω
    obtain ⟨r, r1, r2, r3, r4⟩ := h1 ω hω
    exact ⟨r, r1, r2, r3, r4, hsm ω hω⟩
  intro ω₀ v
  obtain ⟨l, l1, l2⟩ := expect_finite (hP θ₀) ω₀
  rw [l1]
  have hexp : (fun θ => expectedCost θ₀ vars [k] θ - chiSquare θ₀ d θ * expectedCost θ₀ vars [k] θ₀) =ᶠ[𝓝 θ₀]
      fun θ => (l.map (fun p => p.1 * loss p.2 θ)).sum := by
    filter_upwards [hnear] with θ hθ
    rw [← h3 θ hθ ω₀, l1]
  rw [(hexp.iteratedFDeriv ℝ n).self_of_nhds,
    iteratedFDeriv_list_sum l (fun p θ => p.1 * loss p.2 θ) θ₀
      (fun p hp' => contDiffAt_const.mul (hsm p.2 (l2 p hp')))]
  clear hexp l1
  induction l with
  | nil => rfl
  | cons p l ih =>
    simp only [List.map_cons, List.sum_cons]
    rw [ih (fun q hq => l2 q (List.mem_cons_of_mem _ hq)), add_apply]
    congr 1
    have := iteratedFDeriv_const_smul_apply' (a := p.1) (hsm p.2 (l2 p (by simp)))
    simp only [smul_eq_mul] at this
    rw [this, smul_apply, smul_eq_mul]

/-! ### A case: two samples of `Bernoulli(θ)` at `θ = 1/2`; the cost is 1. -/

namespace BernoulliCase

noncomputable def x2 : ScoreVar ℝ := ⟨"x", 2, [], fun θ _ => θ, {0, 1}, bern, some .batchAverage⟩
noncomputable def cost1 : ScoreCost ℝ := ⟨["x"], fun _ _ => 1, [x2]⟩

theorem expected1 : expectedCost (1 / 2 : ℝ) [x2] [cost1] = fun _ => 1 := by
  funext θ
  simp [expectedCost, declsOf, expectOne, x2, cost1, ScoreVar.decl, bern]

theorem chiSquare_x2 : chiSquare (1 / 2 : ℝ) x2 = fun θ => (2 * θ - 1) ^ 2 := by
  funext θ
  simp only [chiSquare, x2, bern]
  rw [Finset.sum_pair (by norm_num)]
  norm_num
  ring

/-- C57 is false: in the case the cost does not depend on the parameter, so that all derivatives of the expected cost
are zero, but the expected second derivative of the surrogate loss is -8.
The hypotheses of `C57_orders_partial`, among them those of `C57_expected_partial`, are met by the case. -/
theorem C57_refuted : ∃ loss : Draws ℝ → ℝ → ℝ,
    (∀ ω, Possible (declsOf (θ₀ := (1 / 2 : ℝ)) invN [x2]) (1 / 2 : ℝ) ω →
      ∃ r : STen (AD ℝ (1 / 2 : ℝ)), runProgram (fun _ a => .ok a) invN [x2] [cost1] ω = .ok r ∧
        r.plates = [] ∧ r.ten.shape = [] ∧ r.ten.get [] = loss ω ∧ ContDiffAt ℝ 2 (loss ω) (1 / 2)) ∧
      iteratedFDeriv ℝ 2 (expectedCost (1 / 2 : ℝ) [x2] [cost1]) (1 / 2) (fun _ => 1) = 0 ∧
      ∀ ω₀, expect (declsOf (θ₀ := (1 / 2 : ℝ)) invN [x2]) (1 / 2 : ℝ)
          (declsOf (θ₀ := (1 / 2 : ℝ)) invN [x2]) (fun ω => iteratedFDeriv ℝ 2 (loss ω) (1 / 2) (fun _ => 1)) ω₀ =
        -8 := by
  have hgood : GoodVars [x2] := ⟨trivial, by simp, by simp [x2], by simp [x2], fun π => by simp [x2, bern]⟩
  obtain ⟨loss, l1, l2⟩ := C57_orders_partial (θ₀ := (1 / 2 : ℝ)) (hook := fun _ a => .ok a) (vars := [x2])
    (k := cost1) (d := x2) (n := 2) (fun _ _ _ => rfl) hgood
    (by
      intro d hd
      left
      intro d' hd' _
      simp only [List.mem_singleton] at hd'
      rw [hd']; simp [x2])
    (by
      intro d hd h1
      simp only [List.mem_singleton] at hd
      subst hd
      simp [x2] at h1)
    ⟨by simp [cost1], by simp [cost1, x2], by simp [cost1], by simp [cost1], fun d hd _ => Or.inl hd⟩
    (by
      intro d hd
      simp only [cost1, List.mem_singleton] at hd
      subst hd
      exact ⟨.arg (by simp [cost1, x2]), by simp [x2]⟩) rfl rfl rfl
    (by
      intro v _
      simp only [x2, bern]
      split <;> fun_prop)
    (by intro xs; simp only [cost1]; fun_prop)
    (by
      have : ∀ᶠ θ in 𝓝 (1 / 2 : ℝ), θ ∈ Set.Ioo (0 : ℝ) 1 := Ioo_mem_nhds (by norm_num) (by norm_num)
      refine this.mono (fun θ hθ => ?_)
      exact support hθ.1 hθ.2 z (by simp [cost]))
  refine ⟨loss, l1, ?_, ?_⟩
  · rw [expected1, iteratedFDeriv_const_of_ne (by norm_num)]
    rfl
  · intro ω₀
    rw [l2 ω₀, expected1, chiSquare_x2, ← iteratedDeriv_eq_iteratedFDeriv, iteratedDeriv_succ, iteratedDeriv_one]
    have e1 : deriv (fun θ : ℝ => (1 : ℝ) - (2 * θ - 1) ^ 2 * 1) = fun θ => -(4 * (2 * θ - 1)) := by
      funext θ
      have h : HasDerivAt (fun θ : ℝ => (1 : ℝ) - (2 * θ - 1) ^ 2 * 1) (-(4 * (2 * θ - 1))) θ := by
        have h1 : HasDerivAt (fun θ : ℝ => 2 * θ - 1) 2 θ := by
          simpa using ((hasDerivAt_id θ).const_mul 2).sub_const 1
        exact HasDerivAt.congr_deriv (((h1.pow 2).mul_const 1).const_sub 1) (by push_cast; ring)
      exact h.deriv
    have e2 : HasDerivAt (fun θ : ℝ => -(4 * (2 * θ - 1))) (-8) (1 / 2) := by
      have h1 : HasDerivAt (fun θ : ℝ => 2 * θ - 1) 2 (1 / 2) := by
        simpa using ((hasDerivAt_id (1 / 2 : ℝ)).const_mul 2).sub_const 1
      exact HasDerivAt.congr_deriv (h1.const_mul 4).neg (by norm_num)
    rw [e1, e2.deriv]

end BernoulliCase

end orders

end Storch
