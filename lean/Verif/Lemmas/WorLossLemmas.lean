import Verif.Lemmas.SeqMethodLemmas

/-!
# The surrogate loss of `ScoreFunctionWOR`
-/

namespace Storch

section
variable {E : Type _} {θ₀ : E}

/-- The gradient function of `ScoreFunctionWOR`, for importance weights `iw`, probabilities `p` and costs `c` of `n` samples. -/
noncomputable def worScoreElts (biased useBaseline : Bool) (n : Nat) (iw nw p c : Nat → AD E θ₀) : AD E θ₀ :=
  let s := fun f : Nat → AD E θ₀ => ∑ i ∈ Finset.range n, f i
  if useBaseline then
    if biased then s (fun i => iw i / Autograd.detach (s iw - iw i + p i) *
      Autograd.detach (c i - s (fun i => iw i * c i) / s iw))
    else s (fun i => iw i * Autograd.detach (c i * (1 - p i + iw i) - s (fun i => iw i * c i)))
  else s (fun i => Autograd.detach (c i) * nw i)

/-- A vector over the plate. -/
theorem vec_opIs {plate : Plate (AD E θ₀)} (hp : LonePlate plate) {l : List (AD E θ₀)} (hl : l.length = plate.n) :
    OpIs [plate] (.st ⟨Ten.vec l, [plate], 1⟩ false) [plate.name] (fun ι => l.getD (ι plate.name) 0) := by
  have ho : OverOne plate (⟨Ten.vec l, [plate], 1⟩ : STen (AD E θ₀)) := overOne_mk hp (by simp [Ten.vec, hl])
  have h := ho.opIs hp
  have e : (fun ι => (⟨Ten.vec l, [plate], 1⟩ : STen (AD E θ₀)).sample ι []) = fun ι => l.getD (ι plate.name) 0 := by
    funext ι
    rw [ho.sample hp]
    simp [Ten.vec]
  rw [e] at h
  exact h

theorem computeIwElts_length (lps : List (AD E θ₀)) (kappa : WithBot ℝ) (biased : Bool) :
    (computeIwElts lps kappa biased).length = lps.length := by
  rw [computeIwElts]
  split <;> simp

/-- What `ScoreFunctionWOR.estimator` returns. -/
theorem worEstimator_spec {hook : UnwrapHook (AD E θ₀)} (hh : PlainHook hook) (biased useBaseline : Bool)
    {plate : Plate (AD E θ₀)} (hp : LonePlate plate) {lps : List (AD E θ₀)} (hl : lps.length = plate.n) (kappa : WithBot ℝ)
    {c : STen (AD E θ₀)} (hc : OverOne plate c) :
    ∃ g, worEstimator hook plate.name biased useBaseline lps kappa c = .ok (some (.st g false), none) ∧
      OpIs [plate] (.st g false) [] (fun ι => worScoreElts biased useBaseline plate.n
        (fun i => (computeIwElts lps kappa false).getD i 0) (fun i => (computeIwElts lps kappa biased).getD i 0)
        (fun i => (lps.map Autograd.exp).getD i 0) (fun i => c.sample (Function.update ι plate.name i) [])) := by
  have hiw : ∀ b, (computeIwElts lps kappa b).length = plate.n := fun b => by rw [computeIwElts_length, hl]
  have hP := hp.pool
  have oc := hc.opIs hp
  have ow := vec_opIs hp (hiw false)
  have ob := vec_opIs hp (hiw biased)
  have op := vec_opIs hp (l := lps.map Autograd.exp) (by simpa using hl)
  unfold worEstimator
  simp only [hc.getPlate]
  cases useBaseline with
  | true =>
    obtain ⟨t1, a1, b1⟩ := opSt_pair hh hP List.prod ow oc
    obtain ⟨t2, a2, b2⟩ := storchSum_lone hh hp b1 (by simp)
    cases biased with
    | true =>
      obtain ⟨t3, a3, b3⟩ := storchSum_lone hh hp ow (by simp)
      obtain ⟨t4, a4, b4⟩ := opSt_pair hh hP subElts b3 ow
      obtain ⟨t5, a5, b5⟩ := opSt_pair hh hP List.sum b4 op
      obtain ⟨t6, a6, b6⟩ := opSt_one hh hP detachElts b5
      obtain ⟨t7, a7, b7⟩ := opSt_pair hh hP divElts b2 b3
      obtain ⟨t8, a8, b8⟩ := opSt_pair hh hP subElts oc b7
      obtain ⟨t9, a9, b9⟩ := opSt_pair hh hP divElts ow b6
      obtain ⟨t10, a10, b10⟩ := opSt_one hh hP detachElts b8
      obtain ⟨t11, a11, b11⟩ := opSt_pair hh hP List.prod b9 b10
      obtain ⟨t12, a12, b12⟩ := storchSum_lone hh hp b11 (by simp)
      refine ⟨t12, ?_, ?_⟩
      · simp only [bind, Except.bind, if_true, a1, a2, a3, a4, a5, a6, a7, a8, a9, a10, a11, a12]
        rfl
      · refine cast (congrArg _ ?_) b12
        funext ι
        simp only [worScoreElts, if_true, detachElts, subElts, divElts, List.prod_cons, List.prod_nil, mul_one, List.sum_cons,
          List.sum_nil, add_zero, Function.update_self, Function.update_idem]
    | false =>
      obtain ⟨t3, a3, b3⟩ := opSt_one hh hP (fun xs => 1 - xs.headD 0) op
      obtain ⟨t4, a4, b4⟩ := opSt_pair hh hP List.sum b3 ow
      obtain ⟨t5, a5, b5⟩ := opSt_pair hh hP List.prod oc b4
      obtain ⟨t6, a6, b6⟩ := opSt_pair hh hP subElts b5 b2
      obtain ⟨t7, a7, b7⟩ := opSt_one hh hP detachElts b6
      obtain ⟨t8, a8, b8⟩ := opSt_pair hh hP List.prod ow b7
      obtain ⟨t9, a9, b9⟩ := storchSum_lone hh hp b8 (by simp)
      refine ⟨t9, ?_, ?_⟩
      · simp only [bind, Except.bind, if_true, Bool.false_eq_true, if_false, a1, a2, a3, a4, a5, a6, a7, a8, a9]
        rfl
      · refine cast (congrArg _ ?_) b9
        funext ι
        simp only [worScoreElts, if_true, Bool.false_eq_true, if_false, detachElts, subElts, List.prod_cons, List.prod_nil,
          mul_one, List.sum_cons, List.sum_nil, add_zero, Function.update_self, Function.update_idem, List.headD_cons]
  | false =>
    obtain ⟨t1, a1, b1⟩ := opSt_one hh hP detachElts oc
    obtain ⟨t2, a2, b2⟩ := opSt_pair hh hP List.prod b1 ob
    obtain ⟨t3, a3, b3⟩ := storchSum_lone hh hp b2 (by simp)
    refine ⟨t3, ?_, ?_⟩
    · simp only [bind, Except.bind, Bool.false_eq_true, if_false, a1, a2, a3]
      rfl
    · refine cast (congrArg _ ?_) b3
      funext ι
      simp only [worScoreElts, Bool.false_eq_true, if_false, detachElts, List.prod_cons, List.prod_nil, mul_one,
        Function.update_self]

/-- The loss, on elements. -/
theorem wor_after {hook : UnwrapHook (AD E θ₀)} (hh : PlainHook hook) (name : String) (biased useBaseline : Bool)
    (logp : E → Nat → ℝ) {tokens : List Nat} (hn : 2 ≤ tokens.length) (kappa : WithBot ℝ) {costs : List (E → ℝ → ℝ)}
    (hne : costs ≠ []) :
    let lps : List (AD E θ₀) := tokens.map (logProbElt logp)
    ∃ r, worLossOf hook name biased useBaseline logp tokens kappa costs = .ok r ∧ r.plates = [] ∧ r.ten.shape = [] ∧
      ∀ θ, r.ten.get [] θ = (costs.map (fun f => ((List.range tokens.length).map (fun i =>
        let L : AD E θ₀ := worScoreElts biased useBaseline tokens.length
          (fun i => (computeIwElts lps kappa false).getD i 0) (fun i => (computeIwElts lps kappa biased).getD i 0)
          (fun i => (lps.map Autograd.exp).getD i 0) (fun i θ => f θ (tokens.getD i 0 : Nat))
        (computeIwElts lps kappa biased).getD i 0 θ₀ *
          (Real.exp (L θ - L θ₀) * f θ (tokens.getD i 0 : Nat)))).sum)).sum := by
  intro lps
  have hlen : lps.length = tokens.length := List.length_map ..
  have hwl : ((computeIwElts lps kappa biased).map Autograd.detach).length =
      (tokens.map (fun t : Nat => (AD.const (t : ℝ) : AD E θ₀))).length := by
    simp [computeIwElts_length, hlen]
  obtain ⟨x, plate, d1, d2, d3, d4, d5, d6, d7, d8⟩ := decodedTensor_spec name hwl (by simpa using hn)
  subst d5
  have d6' : plate.n = tokens.length := by simpa using d6
  obtain ⟨cs, c1, r, r1, r2, r3, r4⟩ := decoded_loss hh d2 d3 d4
    (est := fun _ cost => worEstimator hook plate.name biased useBaseline lps kappa cost) (ns := [])
    (l := fun c ι => worScoreElts biased useBaseline plate.n
        (fun i => (computeIwElts lps kappa false).getD i 0) (fun i => (computeIwElts lps kappa biased).getD i 0)
        (fun i => (lps.map Autograd.exp).getD i 0) (fun i => c (Function.update ι plate.name i)))
    (fun np c _ h2 => worEstimator_spec hh biased useBaseline d2 (by rw [hlen, d6']) kappa h2) hne
  refine ⟨r, ?_, r2, r3, ?_⟩
  · rw [worLossOf]
    change decodedTensor plate.name (tokens.map (fun t : Nat => AD.const (t : ℝ)))
      ((computeIwElts (tokens.map (logProbElt logp)) kappa biased).map Autograd.detach) = .ok (x, plate) at d1
    change importanceCosts hook x ⟨x, false, fun _ cost => worEstimator hook plate.name biased useBaseline
      (tokens.map (logProbElt logp)) kappa cost⟩ costs = .ok cs at c1
    simp only [bind, Except.bind, d1, seqPathwise, List.find?_cons, beq_self_eq_true, Bool.not_true, c1, r1]
  · intro θ
    rw [r4 θ, d6']
    congr 1
    apply List.map_congr_left
    intro f _
    congr 1
    apply List.map_congr_left
    intro i hi
    have hi' : i < tokens.length := List.mem_range.1 hi
    have hval : ∀ j θ, (tokens.map (fun t : Nat => (AD.const (t : ℝ) : AD E θ₀))).getD j 0 θ = (tokens.getD j 0 : Nat) := by
      intro j θ
      by_cases hj : j < tokens.length
      · simp [List.getD, List.getElem?_eq_getElem hj]
      · simp [List.getD, List.getElem?_eq_none (by omega : tokens.length ≤ j)]
    have hdet : ((computeIwElts lps kappa biased).map Autograd.detach).getD i 0 θ = (computeIwElts lps kappa biased).getD i 0 θ₀ := by
      have hi2 : i < (computeIwElts lps kappa biased).length := by rw [computeIwElts_length, hlen]; exact hi'
      simp [List.getD, List.getElem?_eq_getElem hi2]
    simp only [d7, d8, Function.update_self, Function.update_idem, hval, hdet]

end

end Storch
