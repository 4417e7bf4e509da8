import Verif.Lemmas.SeqMethodLemmas
import Verif.Props.RaoBlackwellProps

/-!
# The surrogate loss of `RaoBlackwellSF`
-/

namespace Storch

open MeasureTheory Storch.Gumbel

section
variable {E : Type _} {θ₀ : E}

/-- The sequences after one decoded variable without independent dimensions. -/
theorem sequences_one {α : Type _} {s : Decode.St α} {arg : List Nat} (h : s.seq = [arg.map (fun a => [a])]) :
    s.sequences = arg.map (fun a => [a]) := by
  apply List.ext_getElem?
  intro r
  by_cases hr : r < arg.length
  · simp only [Decode.St.sequences, Decode.St.width, Decode.St.sequence, h, List.getLast?_singleton, Option.map_some,
      Option.getD_some, List.length_map, List.getElem?_map, List.getElem?_range hr, List.flatMap_cons, List.flatMap_nil,
      List.append_nil, List.getElem?_eq_getElem hr, List.getD]
  · rw [List.getElem?_eq_none (by simpa [Decode.St.sequences, Decode.St.width, h] using hr),
      List.getElem?_eq_none (by simpa using hr)]

theorem list_range_sum (n : Nat) (g : Nat → ℝ) : ((List.range n).map g).sum = ∑ i ∈ Finset.range n, g i := by
  induction n with
  | zero => simp
  | succ n ih => rw [List.range_succ, List.map_append, List.sum_append, ih, Finset.sum_range_succ]; simp

theorem sum_range_getD {β : Type _} (l : List β) (d : β) (g : β → ℝ) :
    ((List.range l.length).map (fun i => g (l.getD i d))).sum = (l.map g).sum := by
  congr 1
  apply List.ext_getElem (by simp)
  intro i h1 h2
  have hi : i < l.length := by simpa using h2
  simp [List.getElem?_eq_getElem hi]

/-- What `RaoBlackwellSF` does with the decoded values `tokens`: the loss. -/
theorem rb_after {hook : UnwrapHook (AD E θ₀)} (hh : PlainHook hook) (cast : AD E θ₀ → AD E θ₀) {k : Nat} (hk : 2 ≤ k)
    (name : String) (logp : E → Nat → ℝ) {tokens : List Nat} (hn : 2 ≤ tokens.length) {costs : List (E → ℝ → ℝ)}
    (hne : costs ≠ []) :
    let lps : List (AD E θ₀) := tokens.map (logProbElt logp)
    ∃ x plate cs r, decodedTensor name (tokens.map (fun t : Nat => AD.const (t : ℝ))) (weightRBElts k lps) = .ok (x, plate) ∧
      importanceCosts hook x ⟨x, false, rbEstimator hook cast k name (Ten.vec lps)⟩ costs = .ok cs ∧
      surrogateLoss hook cs = .ok r ∧ r.plates = [] ∧ r.ten.shape = [] ∧
      ∀ θ, r.ten.get [] θ = (costs.map (fun f => ((List.range tokens.length).map (fun i =>
        let L : AD E θ₀ := if tokens.length = k ∧ i = k - 1 then cast (lps.getD (k - 1) 0) else 0
        (weightRBElts k lps).getD i 0 θ * (Real.exp (L θ - L θ₀) * f θ (tokens.getD i 0 : Nat)))).sum)).sum := by
  intro lps
  have hlen : lps.length = tokens.length := List.length_map ..
  have hwl : (weightRBElts k lps).length = (tokens.map (fun t : Nat => (AD.const (t : ℝ) : AD E θ₀))).length := by
    rw [weightRBElts]
    split
    · simp [hlen]; omega
    · simp [hlen]
  obtain ⟨x, plate, d1, d2, d3, d4, d5, d6, d7, d8⟩ := decodedTensor_spec name hwl (by simpa using hn)
  subst d5
  have d6' : plate.n = tokens.length := by simpa using d6
  obtain ⟨cs, c1, r, r1, r2, r3, r4⟩ := decoded_loss hh d2 d3 d4 (est := rbEstimator hook cast k plate.name (Ten.vec lps))
    (ns := [plate.name])
    (l := fun _ ι => if plate.n = k ∧ ι plate.name = k - 1 then cast (lps.getD (k - 1) 0) else 0)
    (fun np c h1 h2 => rbEstimator_spec hh cast (by omega) d2 (by rw [hlen, d6']) h1 h2) hne
  refine ⟨x, plate, cs, r, d1, c1, r1, r2, r3, ?_⟩
  intro θ
  rw [r4 θ, d6']
  congr 1
  apply List.map_congr_left
  intro f _
  congr 1
  apply List.map_congr_left
  intro i hi
  have hi' : i < tokens.length := List.mem_range.1 hi
  simp only [d7, d8, Function.update_self, List.getD, List.getElem?_map, List.getElem?_eq_getElem hi', Option.map_some,
    Option.getD_some]
  rfl

/-- The loss if there are `k` samples: the values that are summed over, and the sample. -/
theorem rb_loss_full {hook : UnwrapHook (AD E θ₀)} (hh : PlainHook hook) (cast : AD E θ₀ → AD E θ₀)
    {top : Nat → List ℝ → List Nat} {amax : List (WithBot ℝ) → Nat} {low : WithBot ℝ} {k : Nat} (hk : 2 ≤ k)
    (name : String) {dom : Nat} (logp : E → Nat → ℝ) {noise : Nat → Nat → Nat → WithBot ℝ} {s : Decode.St ℝ}
    {over : List Nat} {x : Nat} (hol : over.length = k - 1)
    (hs : Decode.runRB top amax low k none [(⟨dom, [], false, fun _ _ t => logp θ₀ t⟩, noise)] = .ok s)
    (hseq : s.sequences = over.map (fun t => [t]) ++ [[x]]) {costs : List (E → ℝ → ℝ)} (hne : costs ≠ []) :
    ∃ r, rbLoss hook cast top amax low k name dom logp noise costs = .ok r ∧ r.plates = [] ∧ r.ten.shape = [] ∧
      ∀ θ, r.ten.get [] θ = (costs.map (fun f => (over.map (fun t => Real.exp (logp θ t) * f θ t)).sum +
        (1 - (over.map (fun t => Real.exp (logp θ₀ t))).sum) *
          (Real.exp (cast (logProbElt logp x) θ - cast (logProbElt logp x) θ₀) * f θ x))).sum := by
  have htok : s.sequences.map (fun ts => ts.headD 0) = over ++ [x] := by
    rw [hseq, List.map_append, List.map_map]
    simp [Function.comp_def]
  obtain ⟨y, plate, cs, r, d1, d2, d3, d4, d5, d6⟩ := rb_after hh cast hk name logp (tokens := over ++ [x])
    (by simp [hol]; omega) hne
  refine ⟨r, ?_, d4, d5, ?_⟩
  · rw [rbLoss, hs]
    simp only [bind, Except.bind, htok, d1, seqPathwise, List.find?_cons, beq_self_eq_true, Bool.not_true, d2, d3]
  · intro θ
    rw [d6 θ]
    congr 1
    apply List.map_congr_left
    intro f _
    have hl : (over ++ [x]).length = over.length + 1 := by simp
    rw [hl, List.range_succ, List.map_append, List.sum_append, List.map_cons, List.map_nil, List.sum_cons, List.sum_nil, add_zero]
    have hw : weightRBElts k ((over ++ [x]).map (logProbElt logp : Nat → AD E θ₀)) =
        over.map (fun t => (Autograd.exp (logProbElt logp t) : AD E θ₀)) ++
          [AD.const (1 - (over.map (fun t => Real.exp (logp θ₀ t))).sum)] := by
      rw [weightRBElts, if_pos (by simp [hol]; omega)]
      simp only [List.map_append, List.map_cons, List.map_nil, List.dropLast_concat, List.map_map]
      congr 2
      funext θ'
      have h1 := map_list_sum (AD.eval θ₀ (θ₀ := θ₀)) (over.map (Autograd.exp ∘ (logProbElt logp : Nat → AD E θ₀)))
      show 1 - (over.map (Autograd.exp ∘ (logProbElt logp : Nat → AD E θ₀))).sum θ₀ = _
      refine congrArg (fun y => (1 : ℝ) - y) ((AD.eval_apply θ₀ _).symm.trans (h1.trans ?_))
      rw [List.map_map]
      rfl
    have hd1 : ∀ i < over.length, over[i]? = some (over.getD i 0) := by
      intro i hi
      rw [List.getElem?_eq_getElem hi, List.getD, List.getElem?_eq_getElem hi]; rfl
    congr 1
    · rw [← sum_range_getD over 0 (fun t => Real.exp (logp θ t) * f θ t)]
      congr 1
      apply List.map_congr_left
      intro i hi
      have hi' : i < over.length := List.mem_range.1 hi
      rw [if_neg (by omega), hw]
      simp only [List.getD, List.getElem?_append_left hi']
      rw [List.getElem?_append_left (by simpa using hi'), List.getElem?_map, hd1 i hi']
      simp only [Option.map_some, Option.getD_some]
      show Real.exp (logp θ (over.getD i 0)) * (Real.exp ((0 : ℝ) - 0) * _) = _
      rw [sub_zero, Real.exp_zero, one_mul]
    · have h1 : (k - 1) = over.length := hol.symm
      rw [if_pos ⟨by omega, by omega⟩, hw, h1]
      simp [List.getD]

/-- The loss if there are fewer than `k` values: all of them are summed over. -/
theorem rb_loss_few {hook : UnwrapHook (AD E θ₀)} (hh : PlainHook hook) (cast : AD E θ₀ → AD E θ₀)
    {top : Nat → List ℝ → List Nat} {amax : List (WithBot ℝ) → Nat} {low : WithBot ℝ} {k : Nat} (hk : 2 ≤ k)
    (name : String) {dom : Nat} (logp : E → Nat → ℝ) {noise : Nat → Nat → Nat → WithBot ℝ} {s : Decode.St ℝ}
    {tokens : List Nat} (hn : 2 ≤ tokens.length) (hol : tokens.length ≠ k)
    (hs : Decode.runRB top amax low k none [(⟨dom, [], false, fun _ _ t => logp θ₀ t⟩, noise)] = .ok s)
    (hseq : s.sequences = tokens.map (fun t => [t])) {costs : List (E → ℝ → ℝ)} (hne : costs ≠ []) :
    ∃ r, rbLoss hook cast top amax low k name dom logp noise costs = .ok r ∧ r.plates = [] ∧ r.ten.shape = [] ∧
      ∀ θ, r.ten.get [] θ = (costs.map (fun f => (tokens.map (fun t => Real.exp (logp θ t) * f θ t)).sum)).sum := by
  have htok : s.sequences.map (fun ts => ts.headD 0) = tokens := by
    rw [hseq, List.map_map]
    simp [Function.comp_def]
  obtain ⟨y, plate, cs, r, d1, d2, d3, d4, d5, d6⟩ := rb_after hh cast hk name logp (tokens := tokens) hn hne
  refine ⟨r, ?_, d4, d5, ?_⟩
  · rw [rbLoss, hs]
    simp only [bind, Except.bind, htok, d1, seqPathwise, List.find?_cons, beq_self_eq_true, Bool.not_true, d2, d3]
  · intro θ
    rw [d6 θ]
    congr 1
    apply List.map_congr_left
    intro f _
    rw [← sum_range_getD tokens 0 (fun t => Real.exp (logp θ t) * f θ t)]
    congr 1
    apply List.map_congr_left
    intro i hi
    have hi' : i < tokens.length := List.mem_range.1 hi
    rw [if_neg (by omega), weightRBElts, if_neg (by simpa using hol)]
    simp [List.getD, List.getElem?_eq_getElem hi', List.map_map]
    left
    rfl

end

section
open Storch.Decode
variable {top : Nat → List ℝ → List Nat} {amax : List (WithBot ℝ) → Nat} {low : WithBot ℝ} {k : Nat}

/-- The run of `RaoBlackwellizedSample` on one variable with at least `k` values, with the Gumbel variables of the uniform
random numbers `u`. -/
theorem rb_draw (ht : TopOf top) (ha : MaxOf amax) (hk : 2 ≤ k) {dom : Nat} (lp : Nat → ℝ) (hkD : k ≤ dom) (u : Fin dom → ℝ) :
    let over := top (k - 1) ((List.range dom).map lp)
    ∃ r s, ∃ x : Fin dom, condGumbelSample ((List.range dom).map lp) (List.ofFn (fun i => gumbelOf (u i))) 0 = .ok r ∧
      runRB top amax ⊥ k none [(⟨dom, [], false, fun _ _ t => lp t⟩, fun _ _ t => ((r.getD t 0 : ℝ) : WithBot ℝ))] = .ok s ∧
      s.sequences = over.map (fun t => [t]) ++ [[(x : Nat)]] ∧ (x : Nat) ∉ over ∧
      ∀ i : Fin dom, (i : Nat) ∉ over → gum (fun t : Fin dom => Real.exp (lp t)) u i ≤ gum (fun t : Fin dom => Real.exp (lp t)) u x := by
  intro over
  obtain ⟨r', hr1, hr2, hr3⟩ := C49_order (logProbs := (List.range dom).map lp)
    (noise := List.ofFn (fun i => gumbelOf (u i))) (by simp) (by
      intro h
      have := congrArg List.length h
      simp only [List.length_map, List.length_range, List.length_nil] at this
      omega) 0
  obtain ⟨s', ov, x, g0, g1, g2, g3, g4, g5, g6, g7, g8, g9, p', g10, g11⟩ := C48_samples_partial (low := ⊥) (eos := none) ht ha
    (⟨dom, [], false, fun _ _ t => lp t⟩ : Var ℝ) rfl
    (fun _ _ t => ((r'.getD t 0 : ℝ) : WithBot ℝ)) (fun e r t => WithBot.bot_lt_coe _) hk hkD
  have hov : ov = over := g0
  subst hov
  have hrl : r'.length = dom := by rw [hr2]; simp
  have hget : ∀ (t : Nat) (h : t < r'.length), ((r'.getD t 0 : ℝ) : WithBot ℝ) = ((r'[t] : ℝ) : WithBot ℝ) := by
    intro t h
    rw [List.getD, List.getElem?_eq_getElem h]; rfl
  have g6' : x < dom := g6
  refine ⟨r', s', ⟨x, g6⟩, hr1, g1, g2, g7, ?_⟩
  intro i hi
  have h5 := g9 i i.2 hi
  rw [hget i (by omega), hget x (by omega), WithBot.coe_le_coe, ← not_lt, hr3 x i (by simpa using g6) (by simp) (by omega) (by omega)] at h5
  have hlog : ∀ t : Fin dom, gum (fun t : Fin dom => Real.exp (lp t)) u t = lp t + gumbelOf (u t) := by
    intro t
    rw [gum, Real.log_exp, gumbelOf]
  rw [hlog, hlog]
  simpa using h5

/-- The run on one variable with fewer than `k` values: all values. -/
theorem rb_draw_few (ht : TopOf top) (ha : MaxOf amax) (hk : 2 ≤ k) {dom : Nat} (lp : Nat → ℝ) (hkD : dom < k)
    (noise : Nat → Nat → Nat → WithBot ℝ) (hlow : ∀ e r t, low < noise e r t) :
    ∃ (s : St ℝ) (tokens : List Nat), runRB top amax low k none [(⟨dom, [], false, fun _ _ t => lp t⟩, noise)] = .ok s ∧
      s.sequences = tokens.map (fun t => [t]) ∧ tokens.Perm (List.range dom) := by
  have hp := rbTotal_picks ht ha low (k := k) (by omega)
  set l := (List.range dom).map (noise 0 0)
  set j := (List.range dom).map lp
  have h1 : min k dom = dom := by omega
  have hrun := scalar_run hp (k := k) (v := (⟨dom, [], false, fun _ _ t => lp t⟩ : Var ℝ)) rfl noise
    (arg := rbTotal top amax low k dom l j) (by rw [h1]; rfl)
  have hll : l.length = dom := by simp [l]
  have hjl : j.length = l.length := by simp [l, j]
  have hlen := hp.len dom l j (by omega) hjl
  have hnd := hp.nodup dom l j (by omega) hjl
  have hrg := hp.inRange dom l j (by omega) hjl
  refine ⟨_, rbTotal top amax low k dom l j, by rw [runRB_eq (by simpa using hlow), if_neg (by omega)]; exact hrun, ?_, ?_⟩
  · exact sequences_one rfl
  · refine (hnd.subperm ?_).perm_of_length_le (by simp [hlen])
    intro i hi
    rw [List.mem_range, ← hll]
    exact hrg i hi

end

end Storch
