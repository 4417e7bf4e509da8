import Verif.Model.RelaxUpdate
import Verif.Lemmas.RelaxLemmas
import Verif.Props.VarianceProps
import Verif.Props.HookProps
import Mathlib.Analysis.Calculus.Deriv.Add
import Mathlib.Analysis.Calculus.Deriv.Mul

/-! C81: the gradient that `RELAX` leaves on the parameters of its control variate. -/

namespace Storch.RelaxUpdate

variable {φ₀ : Ctl}

/-! ### Specification -/

/-- The partial derivative of an element with respect to coordinate `c` of control parameter `i`. -/
noncomputable def part (i c : Nat) (x : AD Ctl φ₀) : ℝ := deriv (fun y => x (setCoord φ₀ i c y)) (φ₀ i c)

/-- The partial derivative of the squared length of the recorded gradient `d`, averaged over its plates: at every joint
sample, the weight times the sum of `2 d ∂d` over the event. -/
noncomputable def sqGrad (d : STen (AD Ctl φ₀)) (i c : Nat) : ℝ :=
  ((allIdx (d.plates.map Plate.n)).map (fun idx =>
    (d.plates.map (fun p => (p.weightAt id (assign d.plates idx (fun _ => 0))).val)).prod *
      ((allIdx d.eventShape).map (fun e => 2 * (d.sample (assign d.plates idx (fun _ => 0)) e).val *
        part i c (d.sample (assign d.plates idx (fun _ => 0)) e))).sum)).sum

/-- `d` is the recorded gradient of the tensor `n`: it requires a gradient, can be reduced, has event dimensions (or no
plates of several samples) and depends differentiably on the control parameters. -/
structure GoodGrad (p : Params) (rec : Recorded φ₀) (n : Nat) (d : STen (AD Ctl φ₀)) : Prop where
  recorded : dictGet "probs" (rec.grads n) = some d
  requires : rec.requiresGrad n = true
  reduce : Reduceable d
  event : d.eventShape ≠ [] ∨ d.multiDimPlates = []
  smooth : ∀ i < p.count, ∀ c ι e, (∀ q ∈ d.plates, ι q.name < q.n) → Ten.InB e d.eventShape →
    DifferentiableAt ℝ (fun x => d.sample ι e (setCoord φ₀ i c x)) (φ₀ i c)

/-- Moreover its graph reaches every control parameter. -/
structure GoodNode (p : Params) (rec : Recorded φ₀) (n : Nat) (d : STen (AD Ctl φ₀)) : Prop extends
    GoodGrad p rec n d where
  reached : ∀ i < p.count, rec.reaches n i = true

/-! ### Lemmas -/

theorem varLoss_ok {hook : UnwrapHook (AD Ctl φ₀)} (hh : PlainHook hook) {d : STen (AD Ctl φ₀)} (h : Reduceable d)
    (hev : d.eventShape ≠ [] ∨ d.multiDimPlates = []) :
    ∃ v k, varLoss hook d = .ok v ∧ v.ten.shape = List.replicate k 1 ∧
      v.ten.get (List.replicate k 0) = weightedTotal Autograd.detach d.plates
        (fun ι => ((allIdx d.eventShape).map (fun e => d.sample ι e * d.sample ι e)).sum) (fun _ => 0) := by
  obtain ⟨q, q1, q2, q3, q4, q5⟩ := unop_storch hh (sqElts (α := AD Ctl φ₀)) h.proper
  have hs : ∃ r, sumIndices hook q = .ok r ∧ Proper r ∧ r.plates = q.plates ∧ r.eventShape = [] ∧
      ∀ ι, r.sample ι [] = ((allIdx d.eventShape).map (fun e => d.sample ι e * d.sample ι e)).sum := by
    by_cases he : d.eventShape = []
    · have hm : q.multiDimPlates = [] := by
        rw [STen.multiDimPlates, q3]; exact hev.resolve_left (by simpa using he)
      obtain ⟨r, a1, a2, a3, a4, a5⟩ := sumIndices_number hh q2 (q4.trans he) hm
      refine ⟨r, a1, a2, a3, a4, fun ι => ?_⟩
      rw [a5 ι, q5 ι [] (by rw [he]; exact .nil), he]
      simp [allIdx, sqElts]
    · obtain ⟨r, a1, a2, a3, a4, a5⟩ := sumIndices_event hh q2 (by rw [q4]; exact he)
      refine ⟨r, a1, a2, a3, a4, fun ι => ?_⟩
      rw [a5 ι, q4]
      congr 1
      apply List.map_congr_left
      intro e he'
      rw [q5 ι e (mem_allIdx.1 he')]
      rfl
  obtain ⟨r, r1, r2, r3, r4, r5⟩ := hs
  have hp : r.plates = d.plates := r3.trans q3
  have hr : Reduceable r := ⟨r2, by rw [hp]; exact h.weights, by rw [hp]; exact h.closed, by rw [hp]; exact h.acyclic⟩
  obtain ⟨v, k, v1, -, v3, -, v5⟩ := C12_weighted_sum_partial hh Autograd.detach hr false (fun _ => 0)
  refine ⟨v, k, ?_, by rw [v3, r4]; rfl, ?_⟩
  · simp only [varLoss, q1, r1, v1]
  · have := v5 [] (by rw [r4]; exact .nil)
    rw [List.nil_append] at this
    rw [this, hp]
    congr 1
    exact funext r5

theorem sum_eval (φ : Ctl) (l : List (AD Ctl φ₀)) : l.sum φ = (l.map (fun x => x φ)).sum := by
  exact map_list_sum (AD.eval φ) l

theorem prod_eval (φ : Ctl) (l : List (AD Ctl φ₀)) : l.prod φ = (l.map (fun x => x φ)).prod := by
  exact map_list_prod (AD.eval φ) l

theorem hasDerivAt_sum {β : Type _} (l : List β) (f : β → ℝ → ℝ) (f' : β → ℝ) (x : ℝ)
    (h : ∀ b ∈ l, HasDerivAt (f b) (f' b) x) :
    HasDerivAt (fun y => (l.map (fun b => f b y)).sum) ((l.map f').sum) x := by
  induction l with
  | nil => exact hasDerivAt_const x 0
  | cons b l ih =>
    simp only [List.map_cons, List.sum_cons]
    exact (h b (by simp)).add (ih fun c hc => h c (by simp [hc]))

theorem setCoord_self (φ : Ctl) (i c : Nat) : setCoord φ i c (φ i c) = φ := by
  simp [setCoord]

theorem hasDerivAt_square {f : ℝ → ℝ} {f' x v : ℝ} (h : HasDerivAt f f' x) (hv : f x = v) :
    HasDerivAt (fun y => f y * f y) (2 * v * f') x := by
  have hm := h.mul h
  rw [hv] at hm
  exact hm.congr_deriv (by ring)

/-- A weight that is detached is its current value. -/
theorem weightAt_detach (p : Plate (AD Ctl φ₀)) (ι : String → Nat) (φ : Ctl) :
    (p.weightAt Autograd.detach ι) φ = (p.weightAt id ι).val := by
  rw [Plate.weightAt, Plate.weightAt]
  cases p.weight <;> rfl

/-- The partial derivatives of the loss of relax.py:354-355. -/
theorem part_varLoss {d : STen (AD Ctl φ₀)} (h : Reduceable d) {i c : Nat}
    (hs : ∀ ι e, (∀ q ∈ d.plates, ι q.name < q.n) → Ten.InB e d.eventShape →
      DifferentiableAt ℝ (fun x => d.sample ι e (setCoord φ₀ i c x)) (φ₀ i c)) :
    part i c (weightedTotal Autograd.detach d.plates
      (fun ι => ((allIdx d.eventShape).map (fun e => d.sample ι e * d.sample ι e)).sum) (fun _ => 0)) = sqGrad d i c := by
  apply HasDerivAt.deriv
  have hfun : (fun y => (weightedTotal Autograd.detach d.plates
      (fun ι => ((allIdx d.eventShape).map (fun e => d.sample ι e * d.sample ι e)).sum) (fun _ => 0) : AD Ctl φ₀)
        (setCoord φ₀ i c y)) = fun y => ((allIdx (d.plates.map Plate.n)).map (fun idx =>
    (d.plates.map (fun p => (p.weightAt id (assign d.plates idx (fun _ => 0))).val)).prod *
      ((allIdx d.eventShape).map (fun e => d.sample (assign d.plates idx (fun _ => 0)) e (setCoord φ₀ i c y) *
        d.sample (assign d.plates idx (fun _ => 0)) e (setCoord φ₀ i c y))).sum)).sum := by
    funext y
    rw [weightedTotal, sum_eval, List.map_map]
    congr 1
    apply List.map_congr_left
    intro idx _
    show (List.prod _ * List.sum _ : AD Ctl φ₀) _ = _
    rw [AD.mul_apply, prod_eval, sum_eval, List.map_map, List.map_map]
    congr 2
    apply List.map_congr_left
    intro p _
    exact weightAt_detach p _ _
  rw [hfun, sqGrad]
  apply hasDerivAt_sum
  intro idx hidx
  apply HasDerivAt.const_mul
  apply hasDerivAt_sum
  intro e he
  have hd := (hs _ e (assign_valid h.proper.wf.names hidx (fun _ => 0)) (mem_allIdx.1 he)).hasDerivAt
  exact hasDerivAt_square hd (congrArg (d.sample (assign d.plates idx (fun _ => 0)) e) (setCoord_self φ₀ i c))

/-- Add numbers to a `grad`. -/
def added (g : Option (Nat → ℝ)) (f : Nat → ℝ) : Option (Nat → ℝ) := some (fun c => (g.getD (fun _ => 0)) c + f c)

theorem backwardAll_ok (p : Params) (reaches : Nat → Bool) (v : AD Ctl φ₀) : ∀ (k i : Nat)
    (g : Nat → Option (Nat → ℝ)), (∀ j, i ≤ j → j < i + k → reaches j = true ∨ p.numel j = 1) →
    ∃ g', backwardAll p reaches v k i g = .ok g' ∧
      ∀ j, g' j = if i ≤ j ∧ j < i + k then added (g j) (fun c => if reaches j then part j c v else 1) else g j
  | 0, i, g, _ => ⟨g, rfl, fun j => by rw [if_neg (by omega)]⟩
  | k + 1, i, g, h => by
    obtain ⟨g', h1, h2⟩ := backwardAll_ok p reaches v k (i + 1)
      (Function.update g i (added (g i) (fun c => if reaches i then part i c v else 1)))
      (fun j h1 h2 => h j (by omega) (by omega))
    refine ⟨g', ?_, ?_⟩
    · rw [← h1, backwardAll, autogradGrad]
      by_cases hi : reaches i = true
      · simp only [hi, if_true, leafBackward]
        rfl
      · have hn := (h i (by omega) (by omega)).resolve_left hi
        simp only [hi, leafBackward, hn, if_true]
        rfl
    · intro j
      rw [h2 j]
      by_cases hj : j = i
      · subst hj
        rw [if_neg (by omega), if_pos (by omega), Function.update_self]
      · rw [Function.update_of_ne hj]
        by_cases hr : i + 1 ≤ j ∧ j < i + 1 + k
        · rw [if_pos hr, if_pos (by omega)]
        · rw [if_neg hr, if_neg (by omega)]

/-- A parameter that is not reached and does not hold a single number makes the loop raise. -/
theorem backwardAll_raises (p : Params) (reaches : Nat → Bool) (v : AD Ctl φ₀) : ∀ (k i : Nat)
    (g : Nat → Option (Nat → ℝ)) (j : Nat), i ≤ j → j < i + k → reaches j = false → p.numel j ≠ 1 →
    backwardAll p reaches v k i g = .error .torch
  | 0, i, g, j, h1, h2, _, _ => by omega
  | k + 1, i, g, j, h1, h2, h3, h4 => by
    rw [backwardAll]
    by_cases hj : j = i
    · subst hj
      rw [autogradGrad, if_neg (by simp [h3]), leafBackward, if_neg h4]
    · cases hl : leafBackward (p.numel i) (g i) (autogradGrad reaches v i) with
      | error e =>
        have : e = .torch := by
          rw [autogradGrad] at hl
          by_cases hi : reaches i = true
          · simp only [hi, if_true, leafBackward] at hl
            cases hl
          · rw [if_neg hi, leafBackward] at hl
            split at hl
            · cases hl
            · injection hl with hl; exact hl.symm
        rw [this]
      | ok gi => exact backwardAll_raises p reaches v k (i + 1) _ j (by omega) (by omega) h3 h4

theorem updateOne_any {hook : UnwrapHook (AD Ctl φ₀)} (hh : PlainHook hook) {p : Params} {rec : Recorded φ₀} {n : Nat}
    {d : STen (AD Ctl φ₀)} (h : GoodGrad p rec n d) (g : Nat → Option (Nat → ℝ)) :
    ((∀ j < p.count, rec.reaches n j = true ∨ p.numel j = 1) → ∃ g', updateOne hook p rec n g = .ok g' ∧
      ∀ j, g' j = if j < p.count then added (g j) (fun c => if rec.reaches n j then sqGrad d j c else 1) else g j) ∧
    ((∃ j < p.count, rec.reaches n j = false ∧ p.numel j ≠ 1) → updateOne hook p rec n g = .error .torch) := by
  obtain ⟨v, k, v1, v2, v3⟩ := varLoss_ok hh h.reduce h.event
  have hrun : updateOne hook p rec n g =
      backwardAll p (rec.reaches n) (v.ten.get (List.replicate v.ten.shape.length 0)) p.count 0 g := by
    rw [updateOne, h.recorded]
    simp only [h.requires, v1]
    rw [if_neg (by simp), if_neg (by rw [v2]; simp)]
  constructor
  · intro hr
    obtain ⟨g', g1, g2⟩ := backwardAll_ok p (rec.reaches n) (v.ten.get (List.replicate v.ten.shape.length 0)) p.count 0 g
      (fun j _ hj => hr j (by omega))
    refine ⟨g', hrun.trans g1, ?_⟩
    intro j
    rw [g2 j]
    by_cases hj : j < p.count
    · rw [if_pos (by omega), if_pos hj]
      congr 1
      funext c
      by_cases hrj : rec.reaches n j = true
      · rw [if_pos hrj, if_pos hrj, v2, List.length_replicate, v3]
        exact part_varLoss h.reduce (h.smooth j hj c)
      · rw [if_neg hrj, if_neg hrj]
    · rw [if_neg (by omega), if_neg hj]
  · rintro ⟨j, j1, j2, j3⟩
    rw [hrun]
    exact backwardAll_raises p _ _ _ _ _ j (by omega) (by omega) j2 j3

theorem updateOne_ok {hook : UnwrapHook (AD Ctl φ₀)} (hh : PlainHook hook) {p : Params} {rec : Recorded φ₀} {n : Nat}
    {d : STen (AD Ctl φ₀)} (h : GoodNode p rec n d) (g : Nat → Option (Nat → ℝ)) :
    ∃ g', updateOne hook p rec n g = .ok g' ∧
      ∀ j, g' j = if j < p.count then added (g j) (sqGrad d j) else g j := by
  obtain ⟨g', g1, g2⟩ := (updateOne_any hh h.toGoodGrad g).1 (fun j hj => .inl (h.reached j hj))
  refine ⟨g', g1, ?_⟩
  intro j
  rw [g2 j]
  by_cases hj : j < p.count
  · simp only [if_pos hj, h.reached j hj, if_true]
  · rw [if_neg hj, if_neg hj]

theorem updateAll_ok {hook : UnwrapHook (AD Ctl φ₀)} (hh : PlainHook hook) {p : Params} {rec : Recorded φ₀}
    (D : Nat → STen (AD Ctl φ₀)) : ∀ (ts : List NewParent), (∀ t ∈ ts, GoodNode p rec t.node (D t.node)) →
    ∀ g : Nat → Option (Nat → ℝ), ∃ g', updateAll hook p rec ts g = .ok g' ∧
      (∀ j, p.count ≤ j → g' j = g j) ∧
      ∀ j < p.count, g' j = if ts = [] then g j
        else added (g j) (fun c => (ts.map (fun t => sqGrad (D t.node) j c)).sum)
  | [], _, g => ⟨g, rfl, fun _ _ => rfl, fun _ _ => by rw [if_pos rfl]⟩
  | t :: ts, h, g => by
    obtain ⟨g1, a1, a2⟩ := updateOne_ok hh (h t (by simp)) g
    obtain ⟨g2, b1, b2, b3⟩ := updateAll_ok hh D ts (fun u hu => h u (by simp [hu])) g1
    refine ⟨g2, by simp only [updateAll, a1, b1], ?_, ?_⟩
    · intro j hj
      rw [b2 j hj, a2 j, if_neg (by omega)]
    · intro j hj
      rw [b3 j hj, a2 j, if_pos hj]
      by_cases ht : ts = []
      · subst ht
        simp [added]
      · rw [if_neg ht, if_neg (by simp)]
        simp only [added, Option.getD_some, List.map_cons, List.sum_cons, Option.some.injEq]
        funext c
        ring

/-- C81 for one call of `update_parameters`: if the recorded gradients of all tensors of the pairs can be reduced and
depend differentiably on the control parameters, then, in whatever order Python iterates over the set, whatever
gradients the parameters had before, the gradient of every coordinate is the sum, over the different tensor objects
among the pairs, of the partial derivative of the averaged squared length of the recorded gradient; without pairs there
is no gradient, and other parameters are not touched.  Missing: see `C81_partial`. -/
theorem C81_call_partial {hook : UnwrapHook (AD Ctl φ₀)} (hh : PlainHook hook) {p : Params} {rec : Recorded φ₀}
    {order : List NewParent → List NewParent} (ho : ∀ l, (order l).Perm l.dedup)
    {D : Nat → STen (AD Ctl φ₀)} (pairs : List (NewParent × Nat))
    (hg : ∀ x ∈ pairs, GoodNode p rec x.1.node (D x.1.node)) (g : Nat → Option (Nat → ℝ)) :
    ∃ g', updateParameters hook p rec order pairs g = .ok g' ∧
      (∀ i, p.count ≤ i → g' i = g i) ∧
      (pairs = [] → ∀ i < p.count, g' i = none) ∧
      (pairs ≠ [] → ∀ i < p.count, ∃ s, g' i = some s ∧
        ∀ c, s c = ∑ t ∈ (pairs.map Prod.fst).toFinset, sqGrad (D t.node) i c) := by
  have hmem : ∀ t ∈ order (pairs.map Prod.fst), t ∈ pairs.map Prod.fst := by
    intro t ht
    exact List.mem_dedup.1 ((ho _).subset ht)
  obtain ⟨g', h1, h2, h3⟩ := updateAll_ok hh D (order (pairs.map Prod.fst)) (by
    intro t ht
    obtain ⟨x, hx, rfl⟩ := List.mem_map.1 (hmem t ht)
    exact hg x hx) (fun i => if i < p.count then none else g i)
  refine ⟨g', h1, ?_, ?_, ?_⟩
  · intro i hi
    rw [h2 i hi, if_neg (by omega)]
  · rintro rfl i hi
    have : order [] = [] := List.Perm.eq_nil (by simpa using ho [])
    rw [h3 i hi, List.map_nil, this, if_pos rfl, if_pos hi]
  · intro hne i hi
    have hne' : order (pairs.map Prod.fst) ≠ [] := by
      intro h0
      have h := ho (pairs.map Prod.fst)
      rw [h0] at h
      have h' := List.dedup_eq_nil _ |>.1 (List.Perm.eq_nil h.symm)
      exact hne (List.map_eq_nil_iff.1 h')
    refine ⟨_, (h3 i hi).trans (by rw [if_neg hne', if_pos hi]; rfl), ?_⟩
    intro c
    simp only [Option.getD_none, zero_add]
    rw [((ho _).map _).sum_eq]
    exact (List.sum_toFinset _ (List.nodup_dedup _)).symm.trans (by congr 1; ext t; simp)

/-! ### The pairs and the visits -/

/-- The tensors of a cost that give a pair of method `m`. -/
def trained (m : Nat) (ss : List SNode) : List SNode := ss.filter (fun s => decide (s.method = some m) && s.requiresGrad)

theorem pairsOfCost_spec (m : Nat) (pathwise : Nat → Bool) (cost : Nat) : ∀ (ss : List SNode) (k : Nat),
    k ≤ (pairsOfCost m pathwise cost ss k).2 ∧
      (∀ x ∈ (pairsOfCost m pathwise cost ss k).1, k ≤ x.1.obj ∧ x.1.obj < (pairsOfCost m pathwise cost ss k).2) ∧
      (pairsOfCost m pathwise cost ss k).1.map (fun x => x.1.node) = (trained m ss).map SNode.id ∧
      ((pairsOfCost m pathwise cost ss k).1.map Prod.fst).Nodup
  | [], k => ⟨le_refl _, fun x hx => (by cases hx), rfl, List.nodup_nil⟩
  | s :: ss, k => by
    rw [pairsOfCost]
    cases hs : s.method with
    | none =>
      simp only
      obtain ⟨h1, h2, h3, h4⟩ := pairsOfCost_spec m pathwise cost ss k
      refine ⟨h1, h2, ?_, h4⟩
      rw [h3, trained, trained, List.filter_cons_of_neg (by simp [hs])]
    | some q =>
      simp only
      by_cases hr : s.requiresGrad = true
      · rw [if_neg (by simp [hr])]
        by_cases hq : q = m
        · obtain ⟨h1, h2, h3, h4⟩ := pairsOfCost_spec m pathwise cost ss (k + 1)
          rw [if_pos hq]
          refine ⟨by simp only; omega, ?_, ?_, ?_⟩
          · intro x hx
            rcases List.mem_cons.1 hx with rfl | hx
            · exact ⟨le_refl _, by simp only; omega⟩
            · have := h2 x hx
              exact ⟨by omega, this.2⟩
          · simp only [List.map_cons]
            rw [h3, trained, trained, List.filter_cons_of_pos (by simp [hs, hq, hr]), List.map_cons]
          · simp only [List.map_cons, List.nodup_cons]
            refine ⟨?_, h4⟩
            intro hm
            obtain ⟨x, hx, he⟩ := List.mem_map.1 hm
            have h := (h2 x hx).1
            rw [he] at h
            simp only at h
            omega
        · rw [if_neg hq]
          have ht : trained m (s :: ss) = trained m ss := by
            rw [trained, trained, List.filter_cons_of_neg (by simp [hs, hq])]
          rw [ht]
          by_cases hp : pathwise q = true
          · rw [if_pos hp]
            exact pairsOfCost_spec m pathwise cost ss k
          · rw [if_neg hp]
            obtain ⟨h1, h2, h3, h4⟩ := pairsOfCost_spec m pathwise cost ss (k + 1)
            exact ⟨by omega, fun x hx => ⟨by have := (h2 x hx).1; omega, (h2 x hx).2⟩, h3, h4⟩
      · rw [if_pos (by simp [hr])]
        obtain ⟨h1, h2, h3, h4⟩ := pairsOfCost_spec m pathwise cost ss k
        refine ⟨h1, h2, ?_, h4⟩
        rw [h3, trained, trained, List.filter_cons_of_neg (by simp [hr])]

theorem pairsOf_spec (m : Nat) (pathwise : Nat → Bool) : ∀ (above : List (List SNode)) (cost k : Nat),
    (∀ x ∈ pairsOf m pathwise above cost k, k ≤ x.1.obj) ∧
      (pairsOf m pathwise above cost k).map (fun x => x.1.node) = (trained m above.flatten).map SNode.id ∧
      ((pairsOf m pathwise above cost k).map Prod.fst).Nodup
  | [], _, _ => ⟨fun x hx => (by cases hx), rfl, List.nodup_nil⟩
  | ss :: r, cost, k => by
    obtain ⟨h1, h2, h3, h4⟩ := pairsOfCost_spec m pathwise cost ss k
    obtain ⟨g2, g3, g4⟩ := pairsOf_spec m pathwise r (cost + 1) (pairsOfCost m pathwise cost ss k).2
    rw [pairsOf]
    refine ⟨?_, ?_, ?_⟩
    · intro x hx
      rcases List.mem_append.1 hx with hx | hx
      · exact (h2 x hx).1
      · exact h1.trans (g2 x hx)
    · rw [List.map_append, h3, g3, List.flatten_cons, trained, trained, trained, List.filter_append, List.map_append]
    · rw [List.map_append, List.nodup_append]
      refine ⟨h4, g4, ?_⟩
      intro a ha b hb he
      obtain ⟨x, hx, rfl⟩ := List.mem_map.1 ha
      obtain ⟨y, hy, rfl⟩ := List.mem_map.1 hb
      have := (h2 x hx).2
      have := g2 y hy
      rw [he] at *
      omega

/-- Call `_update_parameters` a number of times. -/
noncomputable def updateTimes (hook : UnwrapHook (AD Ctl φ₀)) (p : Params) (rec : Recorded φ₀)
    (order : List NewParent → List NewParent) : Nat → MState → Except Err MState
  | 0, s => .ok s
  | k + 1, s =>
    match updateMethod hook p rec order s with
    | .error e => .error e
    | .ok s' => updateTimes hook p rec order k s'

theorem visitAll_times (hook : UnwrapHook (AD Ctl φ₀)) (p : Params) (rec : Recorded φ₀)
    (order : List NewParent → List NewParent) (m : Nat) : ∀ (l : List SNode) (s : MState),
    visitAll hook p rec order m l s = updateTimes hook p rec order (l.countP (fun n => decide (n.method = some m))) s
  | [], s => rfl
  | n :: l, s => by
    rw [visitAll]
    by_cases h : n.method = some m
    · rw [if_pos h, List.countP_cons_of_pos (by simpa using h), updateTimes]
      cases updateMethod hook p rec order s with
      | error e => rfl
      | ok s' => exact visitAll_times hook p rec order m l s'
    · rw [if_neg h, List.countP_cons_of_neg (by simpa using h)]
      exact visitAll_times hook p rec order m l s

/-- Without pairs, the control parameters have no gradient after at least one update. -/
theorem updateTimes_wiped (hook : UnwrapHook (AD Ctl φ₀)) (p : Params) (rec : Recorded φ₀)
    {order : List NewParent → List NewParent} (ho : ∀ l, (order l).Perm l.dedup) : ∀ (k : Nat) (s : MState),
    s.pairs = [] → ∃ s', updateTimes hook p rec order k s = .ok s' ∧ s'.pairs = [] ∧
      s'.iterations = s.iterations + k ∧ (0 < k → ∀ i < p.count, s'.grad i = none)
  | 0, s, h => ⟨s, rfl, h, rfl, fun h => by omega⟩
  | k + 1, s, h => by
    have h0 : order [] = [] := List.Perm.eq_nil (by simpa using ho [])
    obtain ⟨s', h1, h2, h3, h4⟩ := updateTimes_wiped hook p rec ho k
      ⟨s.iterations + 1, [], fun i => if i < p.count then none else s.grad i⟩ rfl
    refine ⟨s', ?_, h2, ?_, ?_⟩
    · rw [updateTimes, updateMethod, updateParameters, h, List.map_nil, h0, updateAll]
      exact h1
    · simp only at h3; omega
    · intro _ i hi
      by_cases hk : 0 < k
      · exact h4 hk i hi
      · have : k = 0 := by omega
        subst this
        injection h1 with h1
        rw [← h1]
        simp [hi]

theorem count_one {m : Nat} {l l' : List SNode} (hp : l'.Perm l.dedup) {n : SNode} (hn : n ∈ l)
    (hm : n.method = some m) (hu : ∀ s ∈ l, s.method = some m → s = n) :
    l'.countP (fun n => decide (n.method = some m)) = 1 := by
  rw [hp.countP_eq]
  have : l.dedup.countP (fun s => decide (s.method = some m)) = l.dedup.countP (fun s => s == n) := by
    apply List.countP_congr
    intro s hs
    simp only [decide_eq_true_eq, beq_iff_eq]
    exact ⟨hu s (List.mem_dedup.1 hs), fun h => h ▸ hm⟩
  rw [this]
  exact List.count_eq_one_of_mem (List.nodup_dedup l) (List.mem_dedup.2 hn)

theorem count_two {m : Nat} {l l' : List SNode} (hp : l'.Perm l.dedup) {a b : SNode} (ha : a ∈ l) (hb : b ∈ l)
    (hab : a ≠ b) (hma : a.method = some m) (hmb : b.method = some m) :
    2 ≤ l'.countP (fun n => decide (n.method = some m)) := by
  rw [hp.countP_eq, List.countP_eq_length_filter]
  have hsub : [a, b] ⊆ l.dedup.filter (fun n => decide (n.method = some m)) := by
    intro x hx
    rcases List.mem_cons.1 hx with rfl | hx
    · exact List.mem_filter.2 ⟨List.mem_dedup.2 ha, by simpa using hma⟩
    · rw [List.mem_singleton.1 hx]
      exact List.mem_filter.2 ⟨List.mem_dedup.2 hb, by simpa using hmb⟩
  exact ((List.nodup_cons.2 ⟨by simpa using hab, List.nodup_singleton b⟩).subperm hsub).length_le

/-! ### What `backward` leaves -/

/-- C81, what is true: if a single tensor was sampled with the method, the gradient of every coordinate of the control
parameters after `backward` is the partial derivative of the averaged squared length of the gradient recorded for that
tensor, times the number of costs below it, whatever the gradients were before and whatever the order of the sets.
Missing for C81: with several costs below the tensor it counts once for each (`C81_refuted`), with several tensors the
gradients are removed (`C81_several_refuted`), with logits there is an error (`C81_logits_refuted`), and parameters
that the recorded gradient does not depend on (`C81_unused_refuted`). -/
theorem C81_partial {hook : UnwrapHook (AD Ctl φ₀)} (hh : PlainHook hook) {p : Params} {rec : Recorded φ₀}
    {nodeOrder : List SNode → List SNode} (hn : ∀ l, (nodeOrder l).Perm l.dedup)
    {order : List NewParent → List NewParent} (ho : ∀ l, (order l).Perm l.dedup) {m : Nat} (pathwise : Nat → Bool)
    {above : List (List SNode)} (hnd : ∀ ss ∈ above, ss.Nodup) {n : SNode} (hm : n.method = some m)
    (hr : n.requiresGrad = true) (hin : n ∈ above.flatten) (hu : ∀ s ∈ above.flatten, s.method = some m → s = n)
    {d : STen (AD Ctl φ₀)} (hd : GoodNode p rec n.id d) (iterations : Nat) (g : Nat → Option (Nat → ℝ)) :
    ∃ s, backwardUpdate hook p rec nodeOrder order m pathwise above iterations g = .ok s ∧
      s.iterations = iterations + 1 ∧ s.pairs = [] ∧ (∀ i, p.count ≤ i → s.grad i = g i) ∧
      ∀ i < p.count, ∃ f, s.grad i = some f ∧
        ∀ c, f c = (above.filter (fun ss => decide (n ∈ ss))).length * sqGrad d i c := by
  obtain ⟨-, h2, h3⟩ := pairsOf_spec m pathwise above 0 0
  have htr : ∀ ss : List SNode, (∀ s ∈ ss, s.method = some m → s = n) →
      trained m ss = ss.filter (fun s => s == n) := by
    intro ss hss
    apply List.filter_congr
    intro s hs
    by_cases h : s = n
    · simp [h, hm, hr]
    · have : s.method ≠ some m := fun hc => h (hss s hs hc)
      simp [h, this]
  have hnode : ∀ x ∈ pairsOf m pathwise above 0 0, x.1.node = n.id := by
    intro x hx
    have : x.1.node ∈ (trained m above.flatten).map SNode.id := by rw [← h2]; exact List.mem_map.2 ⟨x, hx, rfl⟩
    obtain ⟨s, hs, he⟩ := List.mem_map.1 this
    rw [htr _ hu] at hs
    rw [← he, eq_of_beq (List.mem_filter.1 hs).2]
  have hlen : (pairsOf m pathwise above 0 0).length = (above.filter (fun ss => decide (n ∈ ss))).length := by
    have h := congrArg List.length h2
    rw [List.length_map, List.length_map, htr _ hu] at h
    rw [h]
    clear h2 h3 hnode h hin
    induction above with
    | nil => rfl
    | cons ss r ih =>
      rw [List.flatten_cons, List.filter_append, List.length_append, ih (fun x hx => hnd x (by simp [hx]))
        (fun s hs => hu s (by rw [List.flatten_cons]; exact List.mem_append_right _ hs))]
      have hc : (ss.filter (fun s => s == n)).length = if n ∈ ss then 1 else 0 := by
        rw [← List.countP_eq_length_filter]
        exact (hnd ss (by simp)).count
      rw [hc]
      by_cases hmem : n ∈ ss
      · rw [if_pos hmem, List.filter_cons_of_pos (by simpa using hmem), List.length_cons]; omega
      · rw [if_neg hmem, List.filter_cons_of_neg (by simpa using hmem)]; omega
  obtain ⟨g', g1, g2, -, g4⟩ := C81_call_partial hh ho (D := fun _ => d) (pairsOf m pathwise above 0 0)
    (fun x hx => by rw [hnode x hx]; exact hd) g
  refine ⟨⟨iterations + 1, [], g'⟩, ?_, rfl, rfl, g2, ?_⟩
  · rw [backwardUpdate, visitAll_times, count_one (hn _) hin hm hu, updateTimes, updateMethod, g1]
    rfl
  · intro i hi
    have hne : pairsOf m pathwise above 0 0 ≠ [] := by
      intro h0
      rw [h0, List.length_nil] at hlen
      obtain ⟨ss, hss, hns⟩ := List.mem_flatten.1 hin
      have : ss ∈ above.filter (fun ss => decide (n ∈ ss)) := List.mem_filter.2 ⟨hss, by simpa using hns⟩
      exact absurd (List.length_eq_zero_iff.1 hlen.symm) (List.ne_nil_of_mem this)
    obtain ⟨f, f1, f2⟩ := g4 hne i hi
    refine ⟨f, f1, ?_⟩
    intro c
    rw [f2 c, Finset.sum_const, nsmul_eq_mul, List.toFinset_card_of_nodup h3, List.length_map, hlen]

/-- C81 is false as soon as two tensors were sampled with the method: whatever their recorded gradients are, after
`backward` the control parameters have no gradient at all, since the second call of `_update_parameters` removes what
the first has computed. -/
theorem C81_several_refuted {hook : UnwrapHook (AD Ctl φ₀)} (hh : PlainHook hook) {p : Params} {rec : Recorded φ₀}
    {nodeOrder : List SNode → List SNode} (hn : ∀ l, (nodeOrder l).Perm l.dedup)
    {order : List NewParent → List NewParent} (ho : ∀ l, (order l).Perm l.dedup) {m : Nat} (pathwise : Nat → Bool)
    {above : List (List SNode)} {a b : SNode} (ha : a ∈ above.flatten) (hb : b ∈ above.flatten) (hab : a ≠ b)
    (hma : a.method = some m) (hmb : b.method = some m) {D : Nat → STen (AD Ctl φ₀)}
    (hd : ∀ s ∈ above.flatten, s.method = some m → s.requiresGrad = true → GoodNode p rec s.id (D s.id))
    (iterations : Nat) (g : Nat → Option (Nat → ℝ)) :
    ∃ s, backwardUpdate hook p rec nodeOrder order m pathwise above iterations g = .ok s ∧
      ∀ i < p.count, s.grad i = none := by
  obtain ⟨-, h2, -⟩ := pairsOf_spec m pathwise above 0 0
  have hgood : ∀ x ∈ pairsOf m pathwise above 0 0, GoodNode p rec x.1.node (D x.1.node) := by
    intro x hx
    have : x.1.node ∈ (trained m above.flatten).map SNode.id := by rw [← h2]; exact List.mem_map.2 ⟨x, hx, rfl⟩
    obtain ⟨s, hs, he⟩ := List.mem_map.1 this
    obtain ⟨hs1, hs2⟩ := List.mem_filter.1 hs
    simp only [Bool.and_eq_true, decide_eq_true_eq] at hs2
    rw [← he]
    exact hd s hs1 hs2.1 hs2.2
  obtain ⟨g', g1, -⟩ := C81_call_partial hh ho (pairsOf m pathwise above 0 0) hgood g
  obtain ⟨k, hk⟩ : ∃ k, (nodeOrder above.flatten).countP (fun n => decide (n.method = some m)) = k + 1 + 1 :=
    ⟨_, (Nat.sub_add_cancel (count_two (hn _) ha hb hab hma hmb)).symm⟩
  obtain ⟨s, s1, -, -, s4⟩ := updateTimes_wiped hook p rec ho (k + 1) ⟨iterations + 1, [], g'⟩ rfl
  refine ⟨s, ?_, s4 (by omega)⟩
  rw [backwardUpdate, visitAll_times, hk, updateTimes, updateMethod, g1]
  exact s1

/-- C81 is false for control parameters that the recorded gradient does not depend on: the derivative is zero, but
after the update of the only tensor a parameter with one number has the gradient one, and with a parameter of another
size the update raises. -/
theorem C81_unused_refuted {hook : UnwrapHook (AD Ctl φ₀)} (hh : PlainHook hook) {p : Params} {rec : Recorded φ₀}
    {order : List NewParent → List NewParent} (ho : ∀ l, (order l).Perm l.dedup) {x : NewParent × Nat}
    {d : STen (AD Ctl φ₀)} (hd : GoodGrad p rec x.1.node d) {i : Nat} (hi : i < p.count)
    (hr : rec.reaches x.1.node i = false) (hc : ∀ ι e c y, d.sample ι e (setCoord φ₀ i c y) = d.sample ι e φ₀)
    (g : Nat → Option (Nat → ℝ)) :
    (∀ c, sqGrad d i c = 0) ∧
    (p.numel i ≠ 1 → updateParameters hook p rec order [x] g = .error .torch) ∧
    ((∀ j < p.count, rec.reaches x.1.node j = true ∨ p.numel j = 1) →
      ∃ g', updateParameters hook p rec order [x] g = .ok g' ∧ g' i = some (fun _ => 1)) := by
  have hord : order [x.1] = [x.1] := List.perm_singleton.1 (by simpa using ho [x.1])
  refine ⟨?_, ?_, ?_⟩
  · intro c
    have hp : ∀ ι e, part i c (d.sample ι e) = 0 := by
      intro ι e
      have : (fun y => d.sample ι e (setCoord φ₀ i c y)) = fun _ => d.sample ι e φ₀ := funext (hc ι e c)
      rw [part, this, deriv_const]
    simp [sqGrad, hp]
  · intro hne
    rw [updateParameters, List.map_singleton, hord, updateAll, (updateOne_any hh hd _).2 ⟨i, hi, hr, hne⟩]
  · intro hall
    obtain ⟨g', g1, g2⟩ := (updateOne_any hh hd (fun i => if i < p.count then none else g i)).1 hall
    refine ⟨g', ?_, ?_⟩
    · rw [updateParameters, List.map_singleton, hord, updateAll, g1]
      rfl
    · rw [g2 i, if_pos hi, if_pos hi]
      simp [added, hr]

/-! ### Distributions given by logits -/

theorem runHooks_none (name : String) : ∀ (es : List (HookEvent (AD Ctl φ₀))) (st st' : HookState (AD Ctl φ₀)),
    dictGet name st.hooks = none → dictGet name st.grads = none → runHooks st es = .ok st' →
    dictGet name st'.grads = none
  | [], st, st', _, h2, h => by
    injection h with h
    rw [← h]
    exact h2
  | .clean :: es, st, st', h1, h2, h => runHooks_none name es (cleanHooks st) st' h1 h2 h
  | .gradient n gr :: es, st, st', h1, h2, h => by
    rw [runHooks] at h
    cases hd : deliver st n gr with
    | error e => rw [hd] at h; cases h
    | ok st1 =>
      rw [hd] at h
      have : dictGet name st1.hooks = none ∧ dictGet name st1.grads = none := by
        rw [deliver] at hd
        split at hd
        · injection hd with hd; rw [← hd]; exact ⟨h1, h2⟩
        · cases hk : dictGet n st.hooks with
          | none => rw [hk] at hd; injection hd with hd; rw [← hd]; exact ⟨h1, h2⟩
          | some plates =>
            have hne : name ≠ n := by rintro rfl; rw [h1] at hk; cases hk
            rw [hk] at hd
            simp only [callHook] at hd
            split at hd
            · injection hd with hd; rw [← hd]; exact ⟨h1, h2⟩
            · split at hd
              · split at hd
                · cases hd
                · split at hd
                  · cases hd
                  · injection hd with hd; rw [← hd]
                    exact ⟨h1, by simp only [dictGet_set, if_neg hne, h2]⟩
              · split at hd
                · cases hd
                · injection hd with hd; rw [← hd]
                  exact ⟨h1, by simp only [dictGet_set, if_neg hne, h2]⟩
      exact runHooks_none name es st1 st' this.1 this.2 h

theorem dictGet_map_none {name : String} : ∀ (l : List (DistrParam (AD Ctl φ₀))), (∀ q ∈ l, q.name ≠ name) →
    dictGet name (l.map (fun q => (q.name, q.plates))) = none
  | [], _ => rfl
  | q :: l, h => by
    rw [List.map_cons, dictGet, if_neg (h q (by simp))]
    exact dictGet_map_none l (fun r hr => h r (by simp [hr]))

/-- C81 is false for categorical distributions given by their logits: only the parameter that the user gave is hooked,
so that whatever gradients the backward pass delivers, none is recorded for `probs`, and the update raises a `KeyError`. -/
theorem C81_logits_refuted (hook : UnwrapHook (AD Ctl φ₀)) (p : Params) {rec : Recorded φ₀}
    {order : List NewParent → List NewParent} (ho : ∀ l, (order l).Perm l.dedup)
    {params : List (DistrParam (AD Ctl φ₀))} (hl : ∀ q ∈ params, q.name = "probs" → q.isParam = false)
    {pairs : List (NewParent × Nat)} (hne : pairs ≠ [])
    (hrun : ∀ x ∈ pairs, ∃ es st, runHooks (HookState.init true params) es = .ok st ∧ rec.grads x.1.node = st.grads)
    (g : Nat → Option (Nat → ℝ)) : updateParameters hook p rec order pairs g = .error .key := by
  have hnone : ∀ x ∈ pairs, dictGet "probs" (rec.grads x.1.node) = none := by
    intro x hx
    obtain ⟨es, st, h1, h2⟩ := hrun x hx
    rw [h2]
    refine runHooks_none "probs" es _ st ?_ rfl h1
    apply dictGet_map_none
    intro q hq hn
    obtain ⟨hq1, hq2⟩ := mem_hookedParams params |>.1 hq
    have := hl q hq1 hn
    simp_all
  rw [updateParameters]
  have hmem : ∀ t ∈ order (pairs.map Prod.fst), t ∈ pairs.map Prod.fst := fun t ht => List.mem_dedup.1 ((ho _).subset ht)
  cases ho' : order (pairs.map Prod.fst) with
  | nil =>
    have h := ho (pairs.map Prod.fst)
    rw [ho'] at h
    have h' := List.dedup_eq_nil _ |>.1 (List.Perm.eq_nil h.symm)
    exact absurd (List.map_eq_nil_iff.1 h') hne
  | cons t ts =>
    obtain ⟨x, hx, rfl⟩ := List.mem_map.1 (hmem t (by rw [ho']; simp))
    rw [updateAll, updateOne, hnone x hx]

/-! ### A case

A control parameter `φ` with value 1, and the recorded gradient `(φ, 2 φ)`. -/

namespace Case

/-- All control parameters are one. -/
def one : Ctl := fun _ _ => 1

/-- The recorded gradient `(φ, 2 φ)`. -/
def grad : STen (AD Ctl one) := ⟨⟨[2], fun idx φ => (idx.getD 0 0 + 1) * φ 0 0⟩, [], 0⟩

/-- One control parameter with one number. -/
def par : Params := ⟨1, fun _ => 1⟩

/-- What the backward pass left, for tensors 0 and 1. -/
def left (reached : Bool) : Recorded one := ⟨fun _ => [("probs", grad)], fun _ => true, fun _ _ => reached⟩

/-- The tensors 0 and 1, sampled with method 7. -/
def node (i : Nat) : SNode := ⟨i, some 7, true⟩

theorem grad_ok : Reduceable grad where
  proper := ⟨⟨by simp [grad], by simp [grad], rfl, rfl⟩, by simp [grad]⟩
  weights := by simp [grad]
  closed := fun p hp => by cases hp
  acyclic := by
    intro k hk
    rcases hk with ⟨p, hp, -⟩ | ⟨-, p, hp, -⟩ <;> cases hp

theorem grad_line (ι : String → Nat) (e : List Nat) (y : ℝ) : grad.sample ι e (setCoord one 0 0 y) =
    (((Ten.bidx [2] e).getD 0 0 : ℕ) + 1 : ℝ) * y := by
  simp [grad, STen.sample, STen.multiDimPlates, STen.eventShape, setCoord]

theorem part_grad (ι : String → Nat) (e : List Nat) : part 0 0 (grad.sample ι e) =
    (((Ten.bidx [2] e).getD 0 0 : ℕ) + 1 : ℝ) := by
  rw [part, show (fun y => grad.sample ι e (setCoord one 0 0 y)) = _ from funext (grad_line ι e)]
  simp

theorem sqGrad_grad : sqGrad grad 0 0 = 10 := by
  simp only [sqGrad, part_grad]
  norm_num [grad, allIdx, STen.sample, STen.multiDimPlates, STen.eventShape, AD.val, Ten.bidx, one, List.range_succ]

theorem grad_smooth (i c : Nat) (ι : String → Nat) (e : List Nat) :
    DifferentiableAt ℝ (fun x => grad.sample ι e (setCoord one i c x)) (one i c) := by
  have : (fun x => grad.sample ι e (setCoord one i c x)) =
      fun x => (((Ten.bidx [2] e).getD 0 0 : ℕ) + 1 : ℝ) * (if i = 0 ∧ c = 0 then x else 1) := by
    funext x
    by_cases hi : i = 0
    · subst hi
      by_cases hc : c = 0
      · subst hc
        rw [grad_line]
        simp
      · simp [grad, STen.sample, STen.multiDimPlates, STen.eventShape, setCoord, Function.update_of_ne (Ne.symm hc), one, hc]
    · simp [grad, STen.sample, STen.multiDimPlates, STen.eventShape, setCoord, Function.update_of_ne (Ne.symm hi), one, hi]
  rw [this]
  by_cases h : i = 0 ∧ c = 0
  · simp only [h, and_self, if_true]
    fun_prop
  · simp only [h, if_false]
    fun_prop

theorem good (n : Nat) : GoodNode par (left true) n grad :=
  ⟨⟨rfl, rfl, grad_ok, .inl (by simp [grad, STen.eventShape]), fun i _ c ι e _ _ => grad_smooth i c ι e⟩, fun _ _ => rfl⟩

/-- A case for `C81_call_partial`: two pairs with different tensors. -/
example : ∃ g', updateParameters (fun _ a => .ok a) par (left true) List.dedup [(⟨0, 0⟩, 0), (⟨1, 1⟩, 0)] (fun _ => none) =
    .ok g' ∧ ∃ s, g' 0 = some s ∧ s 0 = 20 := by
  obtain ⟨g', h1, -, -, h4⟩ := C81_call_partial (hook := fun _ a => .ok a) (fun _ _ _ => rfl) (p := par)
    (rec := left true) (order := List.dedup) (fun _ => .refl _) (D := fun _ => grad) [(⟨0, 0⟩, 0), (⟨1, 1⟩, 0)]
    (fun x _ => good _) (fun _ => none)
  obtain ⟨s, s1, s2⟩ := h4 (by simp) 0 (by simp [par])
  refine ⟨g', h1, s, s1, ?_⟩
  rw [s2 0]
  simp [sqGrad_grad]
  norm_num

/-- A case for `C81_partial`: one cost, next to a tensor of another method. -/
example : ∃ s, backwardUpdate (fun _ a => .ok a) par (left true) List.dedup List.dedup 7 (fun _ => false)
    [[node 0, ⟨5, some 3, true⟩]] 0 (fun _ => some (fun _ => 3)) = .ok s ∧ ∃ f, s.grad 0 = some f ∧ f 0 = sqGrad grad 0 0 := by
  obtain ⟨s, h1, -, -, -, h5⟩ := C81_partial (hook := fun _ a => .ok a) (fun _ _ _ => rfl) (p := par)
    (rec := left true) (nodeOrder := List.dedup) (fun _ => .refl _) (order := List.dedup) (fun _ => .refl _) (m := 7)
    (fun _ => false) (above := [[node 0, ⟨5, some 3, true⟩]]) (by decide) (n := node 0) rfl rfl (by decide) (by decide)
    (good 0) 0 (fun _ => some (fun _ => 3))
  obtain ⟨f, f1, f2⟩ := h5 0 (by simp [par])
  refine ⟨s, h1, f, f1, ?_⟩
  rw [f2 0, show ([[node 0, ⟨5, some 3, true⟩]].filter (fun ss => decide (node 0 ∈ ss))).length = 1 by decide]
  simp

/-- C81 is false with two costs below the tensor: its gradient counts twice. -/
theorem C81_refuted : ∃ s, backwardUpdate (fun _ a => .ok a) par (left true) List.dedup List.dedup 7 (fun _ => false)
    [[node 0], [node 0]] 0 (fun _ => none) = .ok s ∧ ∃ f, s.grad 0 = some f ∧ f 0 = 2 * sqGrad grad 0 0 ∧
      f 0 ≠ sqGrad grad 0 0 := by
  obtain ⟨s, h1, -, -, -, h5⟩ := C81_partial (hook := fun _ a => .ok a) (fun _ _ _ => rfl) (p := par)
    (rec := left true) (nodeOrder := List.dedup) (fun _ => .refl _) (order := List.dedup) (fun _ => .refl _) (m := 7)
    (fun _ => false) (above := [[node 0], [node 0]]) (by decide) (n := node 0) rfl rfl (by decide) (by decide)
    (good 0) 0 (fun _ => none)
  obtain ⟨f, f1, f2⟩ := h5 0 (by simp [par])
  have h2 : f 0 = 2 * sqGrad grad 0 0 := by
    rw [f2 0, show ([[node 0], [node 0]].filter (fun ss => decide (node 0 ∈ ss))).length = 2 by decide]
    norm_num
  refine ⟨s, h1, f, f1, h2, ?_⟩
  rw [h2, sqGrad_grad]
  norm_num

/-- A case for `C81_several_refuted`: the gradient should be 20. -/
example : ∃ s, backwardUpdate (fun _ a => .ok a) par (left true) List.dedup List.dedup 7 (fun _ => false)
    [[node 0, node 1]] 0 (fun _ => none) = .ok s ∧ s.grad 0 = none := by
  obtain ⟨s, h1, h2⟩ := C81_several_refuted (hook := fun _ a => .ok a) (fun _ _ _ => rfl) (p := par)
    (rec := left true) (nodeOrder := List.dedup) (fun _ => .refl _) (order := List.dedup) (fun _ => .refl _) (m := 7)
    (fun _ => false) (above := [[node 0, node 1]]) (a := node 0) (b := node 1) (by decide) (by decide) (by decide) rfl rfl
    (D := fun _ => grad) (fun s _ _ _ => good _) 0 (fun _ => none)
  exact ⟨s, h1, h2 0 (by simp [par])⟩

/-- A case for `C81_unused_refuted`: the second of two control parameters is not used. -/
example : ∃ g', updateParameters (fun _ a => .ok a) ⟨2, fun _ => 1⟩
    ⟨fun _ => [("probs", grad)], fun _ => true, fun _ i => i == 0⟩ List.dedup [(⟨0, 0⟩, 0)] (fun _ => none) = .ok g' ∧
    g' 1 = some (fun _ => 1) :=
  (C81_unused_refuted (hook := fun _ a => .ok a) (fun _ _ _ => rfl) (p := ⟨2, fun _ => 1⟩)
    (rec := ⟨fun _ => [("probs", grad)], fun _ => true, fun _ i => i == 0⟩) (order := List.dedup) (fun _ => .refl _)
    (x := (⟨0, 0⟩, 0)) (d := grad) ⟨rfl, rfl, grad_ok, .inl (by simp [grad, STen.eventShape]),
      fun i _ c ι e _ _ => grad_smooth i c ι e⟩ (i := 1) (by simp) rfl
    (by
      intro ι e c y
      simp [grad, STen.sample, STen.multiDimPlates, STen.eventShape, setCoord]) (fun _ => none)).2.2
    (fun j _ => .inr rfl)

/-- A case for `C81_logits_refuted`: logits that require a gradient, which is delivered. -/
example : ∃ st, runHooks (HookState.init true [⟨"probs", true, false, []⟩, ⟨"logits", true, true, []⟩])
      [.gradient "logits" grad.ten] = .ok st ∧ st.grads ≠ [] ∧
    updateParameters (φ₀ := one) (fun _ a => .ok a) par ⟨fun _ => st.grads, fun _ => true, fun _ _ => true⟩ List.dedup
      [(⟨0, 0⟩, 0)] (fun _ => none) = .error .key := by
  refine ⟨⟨[("logits", [])], [("logits", grad)], true, true⟩, rfl, by simp, ?_⟩
  refine C81_logits_refuted (φ₀ := one) (fun _ a => .ok a) par (order := List.dedup) (fun _ => .refl _)
    (params := [⟨"probs", true, false, []⟩, ⟨"logits", true, true, []⟩]) (by simp) (by simp) ?_ _
  intro x _
  exact ⟨[.gradient "logits" grad.ten], _, rfl, rfl⟩

end Case

end Storch.RelaxUpdate
