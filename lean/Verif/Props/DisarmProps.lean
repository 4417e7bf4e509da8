import Verif.Model.Disarm
import Verif.Lemmas.RebarLemmas
import Verif.Props.ArmProps

/-!
# C61: DisARM
-/

namespace Storch
open MeasureTheory

/-! ### The samples -/

/-- Entry `i` of the antithetic pairs: the noise for the first half, its negation for the second. -/
def antithetic (n : Nat) (eps : Nat → ℝ) (i : Nat) : ℝ := if i < n then eps i else -eps (i - n)

/-- C61, the part that holds: a variable sampled with `DisARM` (any number of pairs, any logits of one dimension)
has `2 * n` samples with weight `1 / (2 * n)` each, and every entry is 1 exactly where the logit plus the noise (or minus
the noise, for the second half) is positive. -/
theorem C61_sample_partial (name : String) {n : Nat} (hn : 1 ≤ n) (d : Nat) (logit : Nat → ℝ) (eps : Nat → Nat → ℝ) :
    ∃ x p, disarmSample (fun k => 1 / (k : ℝ)) stepR name n [] true (.torch ⟨[d], fun idx => logit (idx.headD 0)⟩)
        (fun k => ⟨[k, d], fun idx => eps (idx.headD 0) (idx.getD 1 0)⟩) = .ok (x, p) ∧
      x.WF ∧ x.plates = [p] ∧ p.name = name ∧ p.n = 2 * n ∧ (∀ ι, p.weightAt id ι = 1 / (2 * n : ℝ)) ∧ x.eventShape = [d] ∧
      ∀ i j, x.ten.get [i, j] = if 0 < logit j + antithetic n (fun i => eps i j) i then 1 else 0 := by
  have h2 : n + n ≠ 0 := by omega
  have h3 : n + n ≠ 1 := by omega
  have h5 : n + n = 2 * n := by omega
  have h6 : 1 < 2 * n := by omega
  set T : Ten ℝ := disarmTensor stepR ⟨[n, d], fun idx => eps (idx.headD 0) (idx.getD 1 0)⟩
    ⟨[d], fun idx => logit (idx.headD 0)⟩ with hT
  have hs : T.shape = [2 * n, d] := by rw [hT, disarmTensor, armTensor]; simp [h5]
  refine ⟨⟨T, [mcPlate (fun k => 1 / (k : ℝ)) name (2 * n) []], 1⟩, mcPlate (fun k => 1 / (k : ℝ)) name (2 * n) [], ?_, ?_,
    rfl, rfl, rfl, ?_, ?_, ?_⟩
  · rw [disarmSample, if_neg (by simp), monteCarlo]
    simp only [methodPlates, Operand.raw, List.any_nil, Bool.false_eq_true, if_false]
    rw [← hT]
    simp only [hs]
    rw [if_neg (by omega), if_neg (by omega)]
    simp [STen.mk', STen.checkPlates, mcPlate, Plate.n, Plate.name, hs]
  · refine ⟨by simp, ?_, ?_, ?_⟩
    · intro p hp; rw [List.mem_singleton.1 hp]; simp [mcPlate, Plate.n]; omega
    · simp [STen.multiDimPlates, STen.eventShape, mcPlate, Plate.n, h6, hs]
    · simp [STen.multiDimPlates, mcPlate, Plate.n, h6]
  · intro ι
    simp [mcPlate, Plate.weightAt, Plate.weight, Ten.scalar]
  · simp [STen.eventShape, hs]
  · intro i j
    rw [hT]
    simp only [disarmTensor, armTensor, List.headD_cons, List.tail_cons, antithetic, stepR]
    by_cases hi : i < n
    · simp [hi, add_comm]
    · simp [hi, add_comm]

/-- Logistic noise, added or subtracted, makes the logit positive with probability `sigmoid(logit)`. -/
theorem logistic_step (l : ℝ) :
    ∫ ε, (if 0 < l + ε then (1 : ℝ) else 0) ∂logisticMeasure = 1 / (1 + Real.exp (-l)) ∧
      ∫ ε, (if 0 < l + -ε then (1 : ℝ) else 0) ∂logisticMeasure = 1 / (1 + Real.exp (-l)) := by
  have hm : Measurable fun ε : ℝ => if 0 < l + ε then (1 : ℝ) else 0 :=
    Measurable.ite (measurableSet_lt measurable_const (by fun_prop)) measurable_const measurable_const
  have h1 : ∫ ε, (if 0 < l + ε then (1 : ℝ) else 0) ∂logisticMeasure = 1 / (1 + Real.exp (-l)) := by
    have hp1 := Real.sigmoid_pos l
    have hp2 := Real.sigmoid_lt_one l
    have hunif : ∀ᵐ u ∂Gumbel.unif, u ∈ Set.Ioo (0 : ℝ) 1 := by
      rw [Gumbel.unif]; exact ae_restrict_mem measurableSet_Ioo
    rw [logisticMeasure, integral_map logit_measurable.aemeasurable hm.aestronglyMeasurable]
    have h := step_integral (F := ℝ) 1 0 hp1.le hp2.le
    have e : 1 / (1 + Real.exp (-l)) = Real.sigmoid l := by rw [Real.sigmoid_def, one_div]
    rw [smul_zero, add_zero, smul_eq_mul, mul_one] at h
    rw [e, ← h]
    apply integral_congr_ae
    filter_upwards [hunif] with u hu
    by_cases h : 1 - Real.sigmoid l < u
    · rw [if_pos h, if_pos (by rw [add_comm]; exact (logit_pos_iff hu).2 h)]
    · rw [if_neg h, if_neg (fun h' => h ((logit_pos_iff hu).1 (by rw [add_comm]; exact h')))]
  refine ⟨h1, ?_⟩
  rw [← h1]
  conv_rhs => rw [← logistic_symm]
  rw [integral_map measurable_neg.aemeasurable hm.aestronglyMeasurable]

/-- C61, the part that holds: if the noise that is drawn is logistic (its entries may depend on each other in any way), then every
entry of the samples, in both halves, is 1 with probability `sigmoid(logit)` and 0 otherwise. -/
theorem C61_law_partial {Ω : Type*} [MeasurableSpace Ω] (μ : Measure Ω) (name : String) {n : Nat} (hn : 1 ≤ n) (d : Nat)
    (logit : Nat → ℝ) (eps : Nat → Nat → Ω → ℝ) (hm : ∀ i < n, ∀ j < d, AEMeasurable (eps i j) μ)
    (hlaw : ∀ i < n, ∀ j < d, μ.map (eps i j) = logisticMeasure) :
    ∃ xs : Ω → STen ℝ, (∀ ω, ∃ p, disarmSample (fun k => 1 / (k : ℝ)) stepR name n [] true
        (.torch ⟨[d], fun idx => logit (idx.headD 0)⟩)
        (fun k => ⟨[k, d], fun idx => eps (idx.headD 0) (idx.getD 1 0) ω⟩) = .ok (xs ω, p)) ∧
      ∀ i < 2 * n, ∀ j < d, (∀ ω, (xs ω).ten.get [i, j] = 1 ∨ (xs ω).ten.get [i, j] = 0) ∧
        ∫ ω, (xs ω).ten.get [i, j] ∂μ = 1 / (1 + Real.exp (-logit j)) := by
  choose xs p h1 _ _ _ _ _ _ h2 using fun ω => C61_sample_partial name hn d logit (fun i j => eps i j ω)
  refine ⟨xs, fun ω => ⟨p ω, h1 ω⟩, fun i hi j hj => ⟨fun ω => ?_, ?_⟩⟩
  · rw [h2]; split <;> simp
  · simp only [h2]
    have hs : ∀ c : ℝ, Measurable fun ε : ℝ => if 0 < logit j + c * ε then (1 : ℝ) else 0 := fun c =>
      Measurable.ite (measurableSet_lt measurable_const (by fun_prop)) measurable_const measurable_const
    by_cases h : i < n
    · simp only [antithetic, if_pos h]
      rw [← (logistic_step (logit j)).1, ← hlaw i h j hj,
        integral_map (hm i h j hj) (by simpa using (hs 1).aestronglyMeasurable)]
    · have h' : i - n < n := by omega
      simp only [antithetic, if_neg h]
      rw [← (logistic_step (logit j)).2, ← hlaw (i - n) h' j hj,
        integral_map (hm _ h' j hj) (by simpa using (hs (-1)).aestronglyMeasurable)]

/-- `C61_law_partial` for two pairs that share their noise, and logits zero: fair coins. -/
example : ∃ xs : ℝ → STen ℝ, (∀ ω, ∃ p, disarmSample (fun k => 1 / (k : ℝ)) stepR "x" 2 [] true
        (.torch ⟨[3], fun _ => 0⟩) (fun k => ⟨[k, 3], fun _ => ω⟩) = .ok (xs ω, p)) ∧
      ∀ i < 4, ∀ j < 3, ∫ ω, (xs ω).ten.get [i, j] ∂logisticMeasure = 1 / 2 := by
  obtain ⟨xs, h1, h2⟩ := C61_law_partial logisticMeasure "x" (n := 2) (by norm_num) 3 (fun _ => 0) (fun _ _ ω => ω)
    (fun _ _ _ _ => aemeasurable_id) (fun _ _ _ _ => Measure.map_id)
  refine ⟨xs, h1, fun i hi j hj => ?_⟩
  rw [(h2 i hi j hj).2]
  norm_num

/-- The hypotheses of `C61_sample_partial` can be met: one pair, two logits. -/
example : (match disarmSample (fun k => 1 / (k : ℚ)) (fun x => if 0 < x then 1 else 0) "x" 1 [] true
      (.torch ⟨[2], fun _ => 0⟩) (fun k => ⟨[k, 2], fun idx => if idx.getD 1 0 = 0 then 1 else -1⟩) with
    | .ok (x, _) => some [x.ten.get [0, 0], x.ten.get [0, 1], x.ten.get [1, 0], x.ten.get [1, 1]]
    | .error _ => none) = some [1, 0, 0, 1] := by decide +kernel

/-! ### The surrogate loss -/

namespace DisarmCase

/-- One logit with value 0 and derivative 1; `e` is the noise, the cost is the sample.  `sigmoid(0)` is 1/2. -/
def loss (e : ℚ) : Except Err (STen Dual) :=
  disarmProgram (fun _ a => .ok a) (fun k => Dual.of (1 / k) 0) (fun x => if 0 < x.num then 1 else 0)
    (fun _ => Dual.of (1 / 2) 0) (Dual.of (1 / 2) 0) "x" 1 (.torch ⟨[1], fun _ => Dual.of 0 1⟩)
    (fun k => ⟨[k, 1], fun _ => Dual.of e 0⟩)

theorem loss_eq {e : ℚ} {v : Dual} (h : (match loss e with
    | .ok L => decide (L.plates.length = 0 ∧ L.ten.shape = [] ∧ L.ten.get [] = v)
    | .error _ => false) = true) : ∃ L, loss e = .ok L ∧ L.plates = [] ∧ L.ten.shape = [] ∧ L.ten.get [] = v := by
  split at h
  · rename_i L hL
    simp only [decide_eq_true_eq, List.length_eq_zero_iff] at h
    exact ⟨L, hL, h.1, h.2.1, h.2.2⟩
  · cases h

/-- Two logits: the cost is the number of ones of a sample, one for both halves of the pair, but the loss evaluates to 3/2. -/
example : (match disarmProgram (fun _ a => .ok a) (fun k => Dual.of (1 / k) 0) (fun x => if 0 < x.num then 1 else 0)
      (fun _ => Dual.of (1 / 2) 0) (Dual.of (1 / 2) 0) "x" 1 (.torch ⟨[2], fun _ => Dual.of 0 1⟩)
      (fun k => ⟨[k, 2], fun idx => if idx.getD 1 0 = 0 then Dual.of 1 0 else Dual.of (-1) 0⟩) with
    | .ok L => some (L.ten.shape, Dual.num (L.ten.get []))
    | .error _ => none) = some ([], 3 / 2) := by decide +kernel

/-- Only the sign of the noise matters. -/
theorem loss_pos {e : ℚ} (he : 0 < e) : loss e = loss 1 ∧ loss (-e) = loss (-1) := by
  have h : ∀ a b : ℚ, (0 < a ↔ 0 < b) → (0 < -a ↔ 0 < -b) → loss a = loss b := by
    intro a b h1 h2
    have hT : ∀ k, disarmTensor (fun x : Dual => if 0 < x.num then 1 else 0) ⟨[k, 1], fun _ => Dual.of a 0⟩
        (Operand.raw (.torch ⟨[1], fun _ => Dual.of 0 1⟩)) = disarmTensor (fun x : Dual => if 0 < x.num then 1 else 0)
        ⟨[k, 1], fun _ => Dual.of b 0⟩ (Operand.raw (.torch ⟨[1], fun _ => Dual.of 0 1⟩)) := by
      intro k
      simp only [disarmTensor, armTensor, Operand.raw, Ten.mk.injEq, true_and]
      have e1 : ∀ c : ℚ, (Dual.of c 0 + Dual.of 0 1).num = c := fun c => add_zero c
      have e2 : ∀ c : ℚ, (-Dual.of c 0 + Dual.of 0 1).num = -c := fun c => add_zero (-c)
      funext idx
      by_cases hi : idx.headD 0 < ([k, 1] : List Nat).headD 0
      · simp only [if_pos hi, e1, h1]
      · simp only [if_neg hi, e2, h2]
    rw [loss, loss, disarmProgram, disarmProgram, disarmSample, disarmSample]
    simp only [hT]
  exact ⟨h e 1 (by simp [he]) (by constructor <;> intro h' <;> linarith), h (-e) (-1) (by constructor <;> intro h' <;> linarith)
    (by simp [he])⟩

end DisarmCase

/-- C61 is false.  One logit at 0, the cost is the sample, so that the expected cost is `sigmoid(logit)`: value 1/2 and
derivative 1/4.  The noise is equally likely to be `e` and `-e`.  The two losses have the values 1/2 and 1 and the derivatives 1/8
and -1/8: on average the value is 3/4 and the derivative 0. -/
theorem C61_refuted {e : ℚ} (he : 0 < e) :
    ∃ L₁ L₂, DisarmCase.loss e = .ok L₁ ∧ DisarmCase.loss (-e) = .ok L₂ ∧ L₁.ten.shape = [] ∧ L₂.ten.shape = [] ∧
      (1 / 2 * Dual.num (L₁.ten.get []) + 1 / 2 * Dual.num (L₂.ten.get []) = 3 / 4) ∧
      (1 / 2 * Dual.slope (L₁.ten.get []) + 1 / 2 * Dual.slope (L₂.ten.get []) = 0) ∧
      Real.sigmoid 0 = 1 / 2 ∧ HasDerivAt Real.sigmoid (1 / 4) 0 := by
  obtain ⟨L₁, a1, -, a2, a3⟩ := DisarmCase.loss_eq (e := 1) (v := Dual.of (1 / 2) (1 / 8)) (by decide +kernel)
  obtain ⟨L₂, b1, -, b2, b3⟩ := DisarmCase.loss_eq (e := -1) (v := Dual.of 1 (-1 / 8)) (by decide +kernel)
  have hs : Real.sigmoid 0 = 1 / 2 := by rw [Real.sigmoid_def]; norm_num
  obtain ⟨e1, e2⟩ := DisarmCase.loss_pos he
  refine ⟨L₁, L₂, e1.trans a1, e2.trans b1, a2, b2, ?_, ?_, hs, ?_⟩
  · rw [a3, b3]; simp only [Dual.num, Dual.of]; norm_num
  · rw [a3, b3]; simp only [Dual.slope, Dual.of]; norm_num
  · have h := Real.hasDerivAt_sigmoid 0
    rw [hs] at h
    exact h.congr_deriv (by norm_num)

/-! ### Variables without event dimensions -/

section
variable {α : Type _} [CommRing α] [ValEq α]

/-- C61 is false for variables without event dimensions: for every number of pairs, every sample and every cost the
estimator raises an error, because the sum over no dimensions is the sum over all dimensions. -/
theorem C61_scalar_refuted {hook : UnwrapHook α} (hh : PlainHook hook) (sig : α → α) (half l : α) {own : Plate α}
    (hk : own.kind = .plain) (hpar : own.parents = []) {n : Nat} (hn : own.n = 2 * n) (hn1 : 1 ≤ n) {x c : STen α}
    (hx : x.WF) (hxp : x.plates = [own]) (hxe : x.eventShape = []) (hc : c.WF) (hcp : c.plates = [own])
    (hce : c.eventShape = []) :
    ∃ e, disarmEstimator hook sig half own.name (.torch (.scalar l)) x c = .error e := by
  have hp : PoolOK [own] := ⟨by simp, by simpa using hk, acyclic_noParents (by simpa using hpar)⟩
  set ops : List (Operand α) := [.st x true, .st c false, .torch (.scalar l)] with hops
  have hall : ∀ o ∈ ops, ScalarOp [own] o := by
    intro o ho
    simp only [hops, List.mem_cons, List.not_mem_nil, or_false] at ho
    rcases ho with rfl | rfl | rfl
    · exact ⟨hx, hxe, by rw [hxp]; simp⟩
    · exact ⟨hc, hce, by rw [hcp]; simp⟩
    · rfl
  have hg := goodOps_pool hp hall
  have hE : maxEv ops = 0 := maxEv_scalar hall
  have hcpl : callPlates ops = [own] := by
    rw [callPlates_st, hops]
    simp only [List.map_cons, List.map_nil, List.foldl_cons, List.foldl_nil, Operand.plates, hxp, hcp]
    rw [addPlates_self [own] (by simp) [] (by simp), List.nil_append,
      addPlates_sub _ _ (fun p hm => Plate.isIn_of_mem hm)]
    rfl
  have h1 : 1 < own.n := by omega
  have hM : callMdp ops = [own] := by rw [callMdp, hcpl]; simp [h1]
  have hxm : x.multiDimPlates = [own] := by rw [STen.multiDimPlates, hxp]; simp [h1]
  have hshape : ∀ (a : STen α) (s : Bool) (t : Ten α), a.plates = [own] → a.eventShape = [] →
      AlignedOp (callMdp ops) (maxEv ops) (.st a s) t → t.shape = [2 * n] := by
    rintro a s t ha he ⟨h1, -⟩
    rw [hM, hE, he] at h1
    rw [h1]
    simp [pdims, ha, Plate.isIn_of_mem, hn]
  have hlen : ∀ (t : Ten α), AlignedOp (callMdp ops) (maxEv ops) (.torch (.scalar l)) t → t.shape = [] := by
    rintro t rfl
    rfl
  have hfn : ∀ z c' l' : Ten α, z.shape = [2 * n] → c'.shape = [2 * n] → l'.shape = [] → ∃ r1 r2 : Ten α,
      disarmFn sig 0 n ⟨[.torch z, .torch c', .torch l'], []⟩ = .ok (.tup [.torch r1, .torch r2]) ∧
        r1.shape = [2 * n] ∧ r2.shape = [2 * n] := by
    intro z c' l' hz hc' hl'
    have b1 : Ten.bshapes [[n], [n], []] = some [n] := by
      by_cases h : 1 = n
      · subst h; rfl
      · simp [Ten.bshapes, Ten.bzip, Ten.padL, Ten.bdim, h, Ne.symm h]
    have b2 : Ten.bshapes [[n], [n]] = some [n] := by
      by_cases h : 1 = n
      · subst h; rfl
      · simp [Ten.bshapes, Ten.bzip, Ten.padL, Ten.bdim, h]
    have m1 : min n (2 * n) = n := by omega
    have s1 : ∀ t : Ten α, t.shape = [2 * n] → ∃ r, t.sliceFirst 0 n (2 * n) = .ok r ∧ r.shape = [n] := by
      intro t ht
      rw [Ten.sliceFirst]
      simp only [ht]
      exact ⟨_, rfl, by simp; omega⟩
    have s2 : ∀ t : Ten α, t.shape = [2 * n] → ∃ r, t.sliceFirst 0 0 n = .ok r ∧ r.shape = [n] := by
      intro t ht
      rw [Ten.sliceFirst]
      simp only [ht]
      exact ⟨_, rfl, by simp [m1]⟩
    have s3 : ∀ t : Ten α, t.shape = [n] → ∃ r, fillSliced [2 * n] 0 n t = .ok r ∧ r.shape = [2 * n] := by
      intro t ht
      rw [fillSliced]
      simp only [List.replicate_zero, List.nil_append, m1, ht, b2, if_true]
      exact ⟨_, rfl, rfl⟩
    obtain ⟨f', f1, f2⟩ := s1 c' hc'
    obtain ⟨b, g1, g2⟩ := s2 z hz
    obtain ⟨b', k1, k2⟩ := s1 z hz
    obtain ⟨r2, r3, r4⟩ := s3 f' f2
    have hw : ∃ w, Ten.elementwise (disarmElts sig) [b, b', l'] = .ok w ∧ w.shape = [n] := by
      rw [Ten.elementwise]
      simp only [List.map_cons, List.map_nil, g2, k2, hl', b1]
      exact ⟨_, rfl, rfl⟩
    obtain ⟨w, w1, w2⟩ := hw
    obtain ⟨r1, r5, r6⟩ := s3 w w2
    exact ⟨r1, r2, by simp only [disarmFn, f1, g1, k1, w1, hz, hc', r5, r3], r6, r4⟩
  obtain ⟨ts, rs, ws, t1, t2, t3, t4⟩ := tuple_call_ev hh hg (by simp [hops, stens]) (fn := disarmFn sig 0 n) (es := []) (by
    intro ts hts
    rw [hops] at hts
    cases hts with
    | cons hz hts =>
      cases hts with
      | cons hc' hts =>
        cases hts with
        | cons hl' hts =>
          cases hts
          rename_i z c' l'
          obtain ⟨r1, r2, q1, q2, q3⟩ := hfn z c' l' (hshape x true z hxp hxe hz) (hshape c false c' hcp hce hc') (hlen l' hl')
          refine ⟨[r1, r2], q1, ?_⟩
          intro r hr
          simp only [List.mem_cons, List.not_mem_nil, or_false] at hr
          rw [hM]
          rcases hr with rfl | rfl
          · simp [q2, hn]
          · simp [q3, hn])
  have hget : x.getPlate own.name = .ok own := by
    rw [STen.getPlate, hxp]; simp
  have hidx : x.plateDimIndex own.name = .ok 0 := by
    rw [STen.plateDimIndex, hxm]; simp [indexBy]
  have hhalf : own.n / 2 = n := by omega
  have hl2 : rs.length = 2 := by
    rw [hops] at t1
    cases t1 with
    | cons hz t1 =>
      cases t1 with
      | cons hc' t1 =>
        cases t1 with
        | cons hl' t1 =>
          cases t1
          rename_i z c' l'
          obtain ⟨r1, r2, q1, q2, q3⟩ := hfn z c' l' (hshape x true z hxp hxe hz) (hshape c false c' hcp hce hc') (hlen l' hl')
          have := t2.symm.trans q1
          injection this with this
          injection this with this
          have := congrArg List.length this
          simpa using this
  have hwl : ws.length = 2 := t4.length_eq.trans hl2
  match ws, hwl with
  | [m, b], _ =>
    match rs, hl2 with
    | [r1, r2], _ =>
      cases t4 with
      | cons w1 t4 =>
        obtain ⟨-, a2, a3, a4⟩ := w1
        obtain ⟨e, he⟩ := sumIndices_raises hh (t := m) ⟨a3, by rw [a2, hcpl]; simpa using hk⟩ a4
          (by rw [STen.multiDimPlates, a2, hcpl]; simp [h1])
        rw [disarmEstimator]
        simp only [hget, hidx, hhalf]
        rw [← hops, t3]
        simp only [List.map_cons, List.map_nil, he]
        exact ⟨e, rfl⟩

/-- The hypotheses of `C61_scalar_refuted` can be met: one pair. -/
example : ∃ e, disarmEstimator (fun _ a => .ok a) id (1 / 2 : ℚ) "x" (.torch (.scalar 0))
    ⟨⟨[2], fun idx => if idx = [0] then 1 else 0⟩, [mcPlate (fun k => 1 / (k : ℚ)) "x" 2 []], 1⟩
    ⟨⟨[2], fun _ => 3⟩, [mcPlate (fun k => 1 / (k : ℚ)) "x" 2 []], 1⟩ = .error e :=
  C61_scalar_refuted (own := mcPlate (fun k => 1 / (k : ℚ)) "x" 2 []) (n := 1) (fun _ _ _ => rfl) id (1 / 2) 0 rfl rfl rfl le_rfl
    ⟨by simp, by simp [mcPlate, Plate.n], by simp [STen.multiDimPlates, STen.eventShape, mcPlate, Plate.n],
      by simp [STen.multiDimPlates, mcPlate, Plate.n]⟩ rfl rfl
    ⟨by simp, by simp [mcPlate, Plate.n], by simp [STen.multiDimPlates, STen.eventShape, mcPlate, Plate.n],
      by simp [STen.multiDimPlates, mcPlate, Plate.n]⟩ rfl rfl

end

end Storch
