import Verif.Model.UnorderedMethod
import Verif.Lemmas.WorLossLemmas
import Verif.Lemmas.RebarLemmas

/-!
# The surrogate loss of the unordered set estimator
-/

namespace Storch

section
variable {α : Type _} [ValEq α]

/-- A tensor over one plate with one event dimension. -/
structure WideOne (plate : Plate α) (m : Nat) (t : STen α) : Prop where
  proper : Proper t
  over : t.plates = [plate]
  event : t.eventShape = [m]

theorem inB_one {j m : Nat} (h : j < m) : Ten.InB [j] [m] := .cons h .nil

theorem opSt_widen {hook : UnwrapHook α} (hh : PlainHook hook) (f : List α → α) {plate : Plate α} {m : Nat} {x y : STen α}
    (hx : OverOne plate x) (hy : WideOne plate m y) :
    ∃ r, opSt hook f [x, y] = .ok r ∧ WideOne plate m r ∧
      ∀ ι j, j < m → r.sample ι [j] = f [x.sample ι [], y.sample ι [j]] := by
  have hin : ∀ q ∈ y.plates, q.isIn x.plates = true := by
    rw [hx.over, hy.over]
    intro q hq
    exact Plate.isIn_iff.2 ⟨q, hq, Plate.pyEq_refl _⟩
  have hg := goodOps_pair hx.proper hy.proper hin false false
  have e1 : x.eventDims = 0 := by simp [STen.eventDims, hx.scalar]
  have e2 : y.eventDims = 1 := by simp [STen.eventDims, hy.event]
  have hE : maxEv [.st x false, .st y false] = 1 := by simp [maxEv, stens, e1, e2]
  have hes : Ten.bshapes ([Operand.st x false, Operand.st y false].map
      (Operand.evShape (maxEv [.st x false, .st y false]))) = some [m] := by
    rw [hE]
    simp only [List.map_cons, List.map_nil, Operand.evShape, hx.scalar, hy.event, e1, e2]
    refine bshapes_fit_left ⟨by simp, ?_⟩
    exact .cons (Or.inl rfl) .nil
  obtain ⟨r, a1, a2, a3, a4, a5⟩ := elementwise_call hook hh f _ hg (by simp [stens]) (by simp) _ hes
  rw [callPlates_pair hx.proper.wf hin] at a3
  refine ⟨r, by rw [opSt, List.map_cons, List.map_cons, List.map_nil, opCall, a1], ⟨⟨a2, by rw [a3]; exact hx.proper.plain⟩,
    by rw [a3, hx.over], a4⟩, ?_⟩
  intro ι j hj
  rw [a5 ι [j] (inB_one hj)]
  simp [Operand.sample, STen.sample, hx.scalar, Ten.bidx]

theorem opSt_widen' {hook : UnwrapHook α} (hh : PlainHook hook) (f : List α → α) {plate : Plate α} {m : Nat} {x y : STen α}
    (hx : WideOne plate m x) (hy : OverOne plate y) :
    ∃ r, opSt hook f [x, y] = .ok r ∧ WideOne plate m r ∧
      ∀ ι j, j < m → r.sample ι [j] = f [x.sample ι [j], y.sample ι []] := by
  have hin : ∀ q ∈ y.plates, q.isIn x.plates = true := by
    rw [hx.over, hy.over]
    intro q hq
    exact Plate.isIn_iff.2 ⟨q, hq, Plate.pyEq_refl _⟩
  have hg := goodOps_pair hx.proper hy.proper hin false false
  have e1 : x.eventDims = 1 := by simp [STen.eventDims, hx.event]
  have e2 : y.eventDims = 0 := by simp [STen.eventDims, hy.scalar]
  have hE : maxEv [.st x false, .st y false] = 1 := by simp [maxEv, stens, e1, e2]
  have hes : Ten.bshapes ([Operand.st x false, Operand.st y false].map
      (Operand.evShape (maxEv [.st x false, .st y false]))) = some [m] := by
    rw [hE]
    simp only [List.map_cons, List.map_nil, Operand.evShape, hy.scalar, hx.event, e1, e2]
    refine bshapes_fit (by simp) ?_
    exact .cons (Or.inl rfl) .nil
  obtain ⟨r, a1, a2, a3, a4, a5⟩ := elementwise_call hook hh f _ hg (by simp [stens]) (by simp) _ hes
  rw [callPlates_pair hx.proper.wf hin] at a3
  refine ⟨r, by rw [opSt, List.map_cons, List.map_cons, List.map_nil, opCall, a1], ⟨⟨a2, by rw [a3]; exact hx.proper.plain⟩,
    by rw [a3, hx.over], a4⟩, ?_⟩
  intro ι j hj
  rw [a5 ι [j] (inB_one hj)]
  simp [Operand.sample, STen.sample, hy.scalar, Ten.bidx]

theorem opSt_wide {hook : UnwrapHook α} (hh : PlainHook hook) (f : List α → α) {plate : Plate α} {m : Nat} {x : STen α}
    (hx : WideOne plate m x) :
    ∃ r, opSt hook f [x] = .ok r ∧ WideOne plate m r ∧ ∀ ι j, j < m → r.sample ι [j] = f [x.sample ι [j]] := by
  obtain ⟨r, r1, r2, r3, r4, r5⟩ := opSt_unop hh f hx.proper
  refine ⟨r, r1, ⟨r2, by rw [r3, hx.over], by rw [r4, hx.event]⟩, ?_⟩
  intro ι j hj
  exact r5 ι [j] (by rw [hx.event]; exact inB_one hj)

/-- Summing over the plate and making the event dimension the plate. -/
theorem sum_turn [AddCommMonoid α] {hook : UnwrapHook α} (hh : PlainHook hook) {plate : Plate α} (hp : LonePlate plate)
    {x : STen α} (hx : WideOne plate plate.n x) :
    ∃ r b, storchSum hook x plate.name = .ok r ∧ STen.mk' r.ten (r.plates ++ [plate]) = .ok b ∧ OverOne plate b ∧
      ∀ ι, b.sample ι [] = ∑ k ∈ Finset.range plate.n, x.sample (Function.update ι plate.name k) [ι plate.name] := by
  have hsize := hp.size
  have hm : x.multiDimPlates = [plate] := by
    rw [STen.multiDimPlates, hx.over, List.filter_cons, if_pos (by simp; omega)]
    rfl
  obtain ⟨r, r1, r2, r3, r4, r5⟩ := storchSum_spec hh hx.proper (p := plate) (by rw [hm]; simp)
  have hpl : r.plates = [] := by rw [r3, hx.over, dropPlate]; simp
  have hmr : r.multiDimPlates = [] := by rw [STen.multiDimPlates, hpl]; rfl
  have hsh : r.ten.shape = [plate.n] := by
    have := r2.wf.shape
    rw [hmr, r4, hx.event] at this
    simpa using this
  have hf : ([plate].filter (fun p => p.n ≠ 1)) = [plate] := by
    rw [List.filter_cons, if_pos (by simp; omega)]
    rfl
  have hmk : STen.mk' r.ten (r.plates ++ [plate]) = .ok ⟨r.ten, [plate], 1⟩ := by
    rw [hpl, List.nil_append, STen.mk', (checkPlates_ok_iff _ _ _ _ 1).2]
    refine ⟨by simp, by simp, ?_, ?_⟩
    · rw [hf, List.drop_zero, hsh]
      exact ⟨[], by simp⟩
    · rw [hf]; simp
  have ho := overOne_mk hp hsh
  refine ⟨r, _, r1, hmk, ho, ?_⟩
  intro ι
  rw [ho.sample hp, ← r5 ι [ι plate.name], STen.sample, hmr, r4, hx.event]
  simp only [List.map_nil, List.nil_append, Ten.bidx, List.zipWith_cons_cons, List.zipWith_nil_left]
  rw [if_neg (by omega)]

end

section
variable {E : Type _} {θ₀ : E}

theorem forall2_exists {β γ : Type _} {R : β → γ → Prop} : ∀ {l : List β}, (∀ x ∈ l, ∃ y, R x y) → ∃ l', List.Forall₂ R l l'
  | [], _ => ⟨[], .nil⟩
  | x :: l, h => by
    obtain ⟨y, hy⟩ := h x (by simp)
    obtain ⟨l', hl⟩ := forall2_exists (l := l) (fun x hx => h x (List.mem_cons_of_mem _ hx))
    exact ⟨y :: l', .cons hy hl⟩

/-- The weighted total over one plate. -/
theorem boxTotal_lone {plate : Plate (AD E θ₀)} {names : List String} (hn : plate.name ∈ names)
    (l v : (String → Nat) → AD E θ₀) (θ : E) :
    boxTotal [plate] names l v θ = ((List.range plate.n).map (fun i =>
      let ι := Function.update (fun _ => 0) plate.name i
      plate.weightAt id ι θ * (Real.exp (l ι θ - l ι θ₀) * v ι θ))).sum := by
  have hnm : named [plate] names = [plate] := by
    rw [named, List.filter_cons, if_pos (by simpa using hn)]
    rfl
  rw [boxTotal, hnm, total_eval]
  have hidx : allIdx ([plate].map Plate.n) = (List.range plate.n).map (fun i => [i]) := by
    simp [allIdx, List.map_eq_flatMap]
  rw [hidx, List.map_map]
  congr 1
  apply List.map_congr_left
  intro i _
  simp only [Function.comp, jointWeight, List.map_cons, List.map_nil, List.prod_cons, List.prod_nil, mul_one, assign]
  rfl

/-- The surrogate loss of one decoded variable with an estimator that returns the gradient function `l` and, for the cost `c`,
the control variate `V c`. -/
theorem decoded_loss_cv {hook : UnwrapHook (AD E θ₀)} (hh : PlainHook hook) {plate : Plate (AD E θ₀)} (hp : LonePlate plate)
    (hw : WeightOK plate) {x : STen (AD E θ₀)} (hx : OverOne plate x)
    {est : STen (AD E θ₀) → STen (AD E θ₀) → Except Err (Option (Operand (AD E θ₀)) × Option (Operand (AD E θ₀)))}
    {l : (String → Nat) → AD E θ₀} {V : ((String → Nat) → AD E θ₀) → (String → Nat) → AD E θ₀}
    (hest : ∀ np c, OverOne plate np → OverOne plate c → ∃ g o v, est np c = .ok (some (.st g false), some (.st o false)) ∧
      OpIs [plate] (.st g false) [plate.name] l ∧ OpIs [plate] (.st o false) [plate.name] v ∧
      ∀ ι, ι plate.name < plate.n → v ι = V (fun ι => c.sample ι []) ι)
    {costs : List (E → ℝ → ℝ)} (hne : costs ≠ []) :
    ∃ cs, importanceCosts hook x ⟨x, false, est⟩ costs = .ok cs ∧ ∃ r, surrogateLoss hook cs = .ok r ∧ r.plates = [] ∧
      r.ten.shape = [] ∧ ∀ θ, r.ten.get [] θ = (costs.map (fun f => ((List.range plate.n).map (fun i =>
        let ι := Function.update (fun _ => 0) plate.name i
        plate.weightAt id ι θ * (Real.exp (l ι θ - l ι θ₀) *
          (V (fun ι θ => f θ (x.sample ι [] θ)) ι θ + f θ (x.sample ι [] θ))))).sum)).sum := by
  obtain ⟨cs, c1, c2⟩ := importanceCosts_spec hh hx.proper hx.scalar ⟨x, false, est⟩ costs
  refine ⟨cs, c1, ?_⟩
  obtain ⟨es, hes⟩ : ∃ es : List (STen (AD E θ₀) × List (Est (AD E θ₀))),
      List.Forall₂ (fun c e => CostContributes hook [plate] c e ∧ ∃ v, e = (c.1, [⟨[plate.name], l, some ([plate.name], v)⟩]) ∧
        ∀ ι, ι plate.name < plate.n → v ι = V (fun ι => c.1.sample ι []) ι) cs es := by
    refine forall2_exists (fun c hc => ?_)
    obtain ⟨f, _, hf⟩ := forall₂_mem_left c2 hc
    obtain ⟨h1, h2, h3, h4⟩ : Proper c.1 ∧ c.1.plates = x.plates ∧ c.1.eventShape = [] ∧ c.2 = [⟨x, false, est⟩] :=
      ⟨hf.1, hf.2.1, hf.2.2.1, hf.2.2.2.1⟩
    have ho : OverOne plate c.1 := ⟨h1, by rw [h2, hx.over], h3⟩
    obtain ⟨np, n1, n2, n3⟩ := newParent_lone hp ho hx
    obtain ⟨g, o, v, g1, g2, g3, g4⟩ := hest np c.1 n2 ho
    refine ⟨_, ⟨rfl, ho.cost hp, ?_⟩, v, rfl, g4⟩
    rw [h4]
    exact .cons (Or.inr ⟨c.1, np, _, _, reducedCost_lone hp ho hx, n1, g1, rfl, g2, g3, o, false, rfl⟩) .nil
  have hcs : cs ≠ [] := by
    rintro rfl
    cases c2
    exact hne rfl
  obtain ⟨r, r1, r2, r3, r4⟩ := surrogateLoss_any hh hp.pool (fun p hm => List.mem_singleton.1 hm ▸ hw) hcs
    (hes.imp (fun _ _ h => h.1))
  refine ⟨r, r1, r2, r3, ?_⟩
  intro θ
  have hsum : r.ten.get [] θ = (es.map (fun e => AD.eval θ (costTotal [plate] e.1 e.2))).sum := by
    have := map_list_sum (AD.eval θ (θ₀ := θ₀)) (es.map (fun x => costTotal [plate] x.1 x.2))
    rw [r4, lossTotal]
    refine (AD.eval_apply θ _).symm.trans (this.trans ?_)
    rw [List.map_map]
    rfl
  rw [hsum]
  congr 1
  clear r1 r4 hsum c1 hcs hne
  induction c2 generalizing es with
  | nil => cases hes; rfl
  | @cons c f cs' fs hcf _ ih =>
    cases hes with
    | @cons _ e _ es' he hes' =>
      rw [List.map_cons, List.map_cons, ih es' hes']
      congr 1
      obtain ⟨_, v, rfl, hv⟩ := he
      obtain ⟨h1, h2, h3, h4, h5⟩ := hcf
      have hsame : (fun ι => c.1.sample ι []) = fun ι θ => f θ (x.sample ι [] θ) := by
        funext ι θ; exact h5 ι θ
      rw [costTotal, map_add, AD.eval_apply, AD.eval_apply, cvTotal]
      simp only [cvTotal, add_zero, zero_add]
      rw [boxTotal_lone (by simp), boxTotal_lone (by simp), ← List.sum_map_add]
      congr 1
      apply List.map_congr_left
      intro i hi
      have hvi := hv (Function.update (fun _ => 0) plate.name i) (by simpa using hi)
      simp only [hvi, hsame, List.map_cons, List.map_nil, List.sum_cons, List.sum_nil, add_zero, h5]
      ring

theorem secondTensor_wide {plate : Plate (AD E θ₀)} (hp : LonePlate plate) {second : List (List ℝ)}
    (hl : second.length = plate.n) : WideOne plate plate.n (secondTensor plate second) ∧
      ∀ ι j, (secondTensor plate second).sample ι [j] = AD.const ((second.getD (ι plate.name) []).getD j 0) := by
  have hsize := hp.size
  have hm : (secondTensor plate second).multiDimPlates = [plate] := by
    rw [STen.multiDimPlates, secondTensor, List.filter_cons, if_pos (by simp; omega)]
    rfl
  have he : (secondTensor plate second).eventShape = [plate.n] := by rw [STen.eventShape]; simp [secondTensor, hl]
  refine ⟨⟨⟨⟨by simp [secondTensor], ?_, ?_, ?_⟩, ?_⟩, rfl, he⟩, ?_⟩
  · simp [secondTensor]; omega
  · rw [hm, he]; simp [secondTensor, hl]
  · rw [hm]; rfl
  · simp [secondTensor, hp.kind]
  · intro ι j
    rw [STen.sample, hm, he]
    simp only [Ten.bidx, List.map_cons, List.map_nil, List.zipWith_cons_cons, List.zipWith_nil_left]
    rw [if_neg (by omega)]
    simp [secondTensor]

/-- What `UnorderedSetEstimator.estimator` returns with the baseline. -/
theorem unorderedEstimator_spec {hook : UnwrapHook (AD E θ₀)} (hh : PlainHook hook) {plate : Plate (AD E θ₀)}
    (hp : LonePlate plate) {lps : List (AD E θ₀)} (hl : lps.length = plate.n) {second : List (List ℝ)}
    (hs : second.length = plate.n) {c : STen (AD E θ₀)} (hc : OverOne plate c) :
    ∃ g o v, unorderedEstimator hook plate.name true lps second c = .ok (.inr (some (.st g false), some (.st o false))) ∧
      OpIs [plate] (.st g false) [plate.name] (fun ι => lps.getD (ι plate.name) 0) ∧
      OpIs [plate] (.st o false) [plate.name] v ∧
      ∀ ι, ι plate.name < plate.n → v ι = (1 - boxElt (lps.getD (ι plate.name) 0)) *
        Autograd.detach (∑ k ∈ Finset.range plate.n, Autograd.exp (lps.getD k 0 +
          AD.const ((second.getD k []).getD (ι plate.name) 0)) * c.sample (Function.update ι plate.name k) []) := by
  have hP := hp.pool
  have olp := vec_opIs hp hl
  have hlp := overOne_of_opIs hp olp (by simp)
  obtain ⟨hsec, hsecv⟩ := secondTensor_wide hp hs
  obtain ⟨t1, a1, b1, d1⟩ := opSt_widen hh List.sum hlp hsec
  obtain ⟨t2, a2, b2, d2⟩ := opSt_wide hh expElts b1
  obtain ⟨t3, a3, b3, d3⟩ := opSt_widen' hh List.prod b2 hc
  obtain ⟨t4, t5, a4, a5, b5, d5⟩ := sum_turn hh hp b3
  obtain ⟨t6, a6, b6, e6⟩ := magicBox_is hh hP olp
  obtain ⟨t6, rfl⟩ := e6 ⟨_, _, rfl⟩
  obtain ⟨t7, a7', c7, n7, v7, e7⟩ := opCall_scalar hh hP (fun xs => 1 - xs.headD 0) (ops := [.st t6 false])
    (by simpa using b6.scalar)
  obtain ⟨t7, rfl⟩ := e7 (by simp [stens])
  have b7 : OpIs [plate] (.st t7 false) [plate.name] (fun ι => 1 - boxElt (lps.getD (ι plate.name) 0)) := by
    refine ⟨c7, ?_, ?_, ?_⟩
    · exact closed_union n7 (by simpa using b6.closed)
    · intro p hm
      rw [n7 p, ← b6.names p hm]
      simp
    · intro ι
      rw [v7 ι]
      simp [b6.val]
  obtain ⟨t8, a8, b8⟩ := opSt_one hh hP detachElts (b5.opIs hp)
  obtain ⟨t9, a9, b9, e9⟩ := opCall_pair hh hP List.prod b7 b8
  obtain ⟨t9, rfl⟩ := e9 (Or.inl ⟨_, _, rfl⟩)
  refine ⟨_, t9, _, ?_, olp, ⟨b9.scalar, b9.closed, ?_, b9.val⟩, ?_⟩
  · unfold unorderedEstimator
    simp only [hc.getPlate, bind, Except.bind, if_true, a1, a2, a3, a4, a5, a6, a7', a8, a9]
    rfl
  · intro p hm
    rw [b9.names p hm]
    simp
  · intro ι hι
    simp only [List.prod_cons, List.prod_nil, mul_one, detachElts]
    rw [d5 ι]
    congr 2
    refine Finset.sum_congr rfl (fun k _ => ?_)
    rw [d3 _ _ hι, d2 _ _ hι, d1 _ _ hι, hsecv, hlp.sample hp]
    simp [expElts, Ten.vec]

theorem getD_const (tokens : List Nat) (j : Nat) (θ : E) :
    (tokens.map (fun t : Nat => (AD.const (t : ℝ) : AD E θ₀))).getD j 0 θ = (tokens.getD j 0 : Nat) := by
  by_cases hj : j < tokens.length
  · simp [List.getD, List.getElem?_eq_getElem hj]
  · simp [List.getD, List.getElem?_eq_none (by omega : tokens.length ≤ j)]

/-- The loss, on elements, with the baseline. -/
theorem unordered_after {hook : UnwrapHook (AD E θ₀)} (hh : PlainHook hook) (name : String) (logp : E → Nat → ℝ)
    {tokens : List Nat} (hn : 2 ≤ tokens.length) {weights : List ℝ} (hw : weights.length = tokens.length)
    {second : List (List ℝ)} (hs : second.length = tokens.length) {costs : List (E → ℝ → ℝ)} (hne : costs ≠ []) :
    ∃ r, unorderedLossOf (θ₀ := θ₀) hook name true logp tokens weights second costs = .ok r ∧ r.plates = [] ∧ r.ten.shape = [] ∧
      ∀ θ, r.ten.get [] θ = (costs.map (fun f => ((List.range tokens.length).map (fun i =>
        let box := Real.exp (logp θ (tokens.getD i 0) - logp θ₀ (tokens.getD i 0))
        weights.getD i 0 * (box * ((1 - box) * (∑ k ∈ Finset.range tokens.length,
          Real.exp (logp θ₀ (tokens.getD k 0) + (second.getD k []).getD i 0) * f θ₀ (tokens.getD k 0 : Nat)) +
          f θ (tokens.getD i 0 : Nat))))).sum)).sum := by
  set lps : List (AD E θ₀) := tokens.map (logProbElt logp) with hlps
  have hlen : lps.length = tokens.length := List.length_map ..
  have hwl : (weights.map (AD.const : ℝ → AD E θ₀)).length =
      (tokens.map (fun t : Nat => (AD.const (t : ℝ) : AD E θ₀))).length := by
    simp [hw]
  obtain ⟨x, plate, d1, d2, d3, d4, d5, d6, d7, d8⟩ := decodedTensor_spec name hwl (by simpa using hn)
  subst d5
  have d6' : plate.n = tokens.length := by simpa using d6
  obtain ⟨cs, c1, r, r1, r2, r3, r4⟩ := decoded_loss_cv hh d2 d3 d4
    (est := fun _ cost => do unpackPair (← unorderedEstimator hook plate.name true lps second cost))
    (l := fun ι => lps.getD (ι plate.name) 0)
    (V := fun c ι => (1 - boxElt (lps.getD (ι plate.name) 0)) *
        Autograd.detach (∑ k ∈ Finset.range plate.n, Autograd.exp (lps.getD k 0 +
          AD.const ((second.getD k []).getD (ι plate.name) 0)) * c (Function.update ι plate.name k)))
    (by
      intro np c _ h2
      obtain ⟨g, o, v, e1, e2, e3, e4⟩ := unorderedEstimator_spec hh d2 (by rw [hlen, d6']) (by rw [hs, d6']) h2
      refine ⟨g, o, v, ?_, e2, e3, e4⟩
      simp only [bind, Except.bind, e1, unpackPair]) hne
  refine ⟨r, ?_, r2, r3, ?_⟩
  · rw [unorderedLossOf]
    simp only [bind, Except.bind] at c1 ⊢
    simp only [d1, seqPathwise, List.find?_cons, beq_self_eq_true, Bool.not_true, ← hlps, c1, r1]
  · intro θ
    rw [r4 θ, d6']
    congr 1
    apply List.map_congr_left
    intro f _
    congr 1
    apply List.map_congr_left
    intro i hi
    have hi' : i < tokens.length := List.mem_range.1 hi
    have hlp : ∀ j < tokens.length, ∀ θ, lps.getD j 0 θ = logp θ (tokens.getD j 0) := by
      intro j hj θ
      simp [hlps, List.getD, List.getElem?_eq_getElem hj, logProbElt]
    have hwv : (weights.map (AD.const : ℝ → AD E θ₀)).getD i 0 θ = weights.getD i 0 := by
      simp [List.getD, List.getElem?_eq_getElem (by omega : i < weights.length)]
    have hsum : ∀ g : Nat → AD E θ₀, Autograd.detach (∑ k ∈ Finset.range tokens.length, g k) θ =
        ∑ k ∈ Finset.range tokens.length, g k θ₀ := by
      intro g
      show (∑ k ∈ Finset.range tokens.length, g k) θ₀ = _
      refine (AD.eval_apply θ₀ _).symm.trans ?_
      rw [map_sum]
      rfl
    simp only [d7, d8, Function.update_self, Function.update_idem, getD_const, hwv, hlp i hi']
    congr 3
    have hmul : ∀ a b : AD E θ₀, (a * b) θ = a θ * b θ := fun _ _ => rfl
    rw [hmul, hsum]
    congr 1
    · show 1 - Real.exp (lps.getD i 0 θ - lps.getD i 0 θ₀) = _
      rw [hlp i hi', hlp i hi']
    · refine Finset.sum_congr rfl (fun k hk => ?_)
      show Real.exp (lps.getD k 0 θ₀ + _) * _ = _
      rw [hlp k (Finset.mem_range.1 hk)]
      rfl

/-- Without the baseline there is no loss. -/
theorem unordered_nobaseline {hook : UnwrapHook (AD E θ₀)} (hh : PlainHook hook) (name : String) (logp : E → Nat → ℝ)
    {tokens : List Nat} (hn : 2 ≤ tokens.length) {weights : List ℝ} (hw : weights.length = tokens.length)
    (second : List (List ℝ)) {costs : List (E → ℝ → ℝ)} (hne : costs ≠ []) :
    unorderedLossOf (θ₀ := θ₀) hook name false logp tokens weights second costs = .error .notImplemented := by
  set lps : List (AD E θ₀) := tokens.map (logProbElt logp) with hlps
  have hlen : lps.length = tokens.length := List.length_map ..
  have hwl : (weights.map (AD.const : ℝ → AD E θ₀)).length =
      (tokens.map (fun t : Nat => (AD.const (t : ℝ) : AD E θ₀))).length := by
    simp [hw]
  obtain ⟨x, plate, d1, d2, d3, d4, d5, d6, d7, d8⟩ := decodedTensor_spec name hwl (by simpa using hn)
  subst d5
  have d6' : plate.n = tokens.length := by simpa using d6
  set est : STen (AD E θ₀) → STen (AD E θ₀) → Except Err (Option (Operand (AD E θ₀)) × Option (Operand (AD E θ₀))) :=
    fun _ cost => do unpackPair (← unorderedEstimator hook plate.name false lps second cost) with hest
  have herr : ∀ np c, OverOne plate c → est np c = .error .notImplemented := by
    intro np c hc
    obtain ⟨t1, a1, b1⟩ := opSt_one hh d2.pool detachElts (hc.opIs d2)
    obtain ⟨t2, a2, b2⟩ := opSt_pair hh d2.pool List.prod (vec_opIs d2 (by rw [hlen, d6'])) b1
    simp only [hest, unorderedEstimator, hc.getPlate, bind, Except.bind, Bool.false_eq_true, if_false, a1, a2, pure, Except.pure,
      unpackPair]
  obtain ⟨cs, c1, c2⟩ := importanceCosts_spec hh d4.proper d4.scalar ⟨x, false, est⟩ costs
  have hloss : surrogateLoss hook cs = .error .notImplemented := by
    cases c2 with
    | nil => exact absurd rfl hne
    | @cons c f cs' fs hcf _ =>
      obtain ⟨h1, h2, h3, h4, _⟩ := hcf
      obtain ⟨c, ps⟩ := c
      subst h4
      have ho : OverOne plate c := ⟨h1, by rw [h2, d4.over], h3⟩
      obtain ⟨np, n1, n2, n3⟩ := newParent_lone d2 ho d4
      have hpl : parentLoop hook c [⟨x, false, est⟩] (.torch (.scalar 0), .torch (.scalar 0)) = .error .notImplemented := by
        simp [parentLoop, reducedCost_lone d2 ho d4, n1, herr np c ho]
      have hsc : surrogateCost hook c [⟨x, false, est⟩] = .error .notImplemented := by
        simp [surrogateCost, hpl]
      simp [surrogateLoss, surrogateCosts, hsc]
  rw [unorderedLossOf]
  simp only [bind, Except.bind] at c1 ⊢
  simp only [hest, bind, Except.bind] at c1
  simp only [d1, seqPathwise, List.find?_cons, beq_self_eq_true, Bool.not_true, ← hlps, c1, hloss]

end

end Storch
