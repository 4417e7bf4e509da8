import Verif.Model.GumbelRun
import Verif.Lemmas.RelaxRunLemmas

/-!
# The run of a program with one variable sampled with `GumbelSoftmax`
-/

namespace Storch
open Gumbel

section
variable {E : Type _} {θ₀ : E} {m K : Nat}

/-- Sampling with `MonteCarlo` without parents. -/
theorem monteCarlo_run {inv : Nat → AD E θ₀} (name : String) {n : Nat} (hn : 1 ≤ n) (R : Nat → Ten (AD E θ₀)) (q : Ten (AD E θ₀))
    (hR : (R n).shape = [n, m, K]) :
    ∃ t, monteCarlo inv name n [] [.torch q] R = .ok (t, mcPlate inv name n []) ∧ t.WF ∧
      t.plates = [mcPlate inv name n []] ∧ t.eventShape = [m, K] ∧
      ∀ k, k < n → ∀ (r : Fin m) (i : Fin K), t.ten.get (at1 n k ++ [r.val, i.val]) = (R n).get [k, r.val, i.val] := by
  have hf : ([mcPlate inv name n []].filter (fun p => decide (1 < p.n))) = if 1 < n then [mcPlate inv name n []] else [] := by
    by_cases h : 1 < n <;> simp [h, mcPlate, Plate.n]
  by_cases h1 : n = 1
  · subst h1
    have hsq : (squeeze0 (R 1)).shape = [m, K] := by simp [squeeze0, hR]
    obtain ⟨t, a1, a2, a3, a4, a5⟩ := checkPlates_ok_of (R := [mcPlate inv name 1 []]) (by simp)
      (by intro p hp; rw [List.mem_singleton.1 hp]; exact hn) (squeeze0 (R 1)) [m, K] (by rw [hf, hsq]; rfl)
    refine ⟨t, ?_, a4, a3, a5, ?_⟩
    · rw [monteCarlo]
      simp only [methodPlates, List.any_nil, Bool.false_eq_true, if_false, hR] at a1 ⊢
      simp only [one_ne_zero, if_false, if_true]
      rw [a1]
    · intro k hk r i
      have : k = 0 := by omega
      subst this
      rw [a2]
      simp [squeeze0, hR, at1]
  · obtain ⟨t, a1, a2, a3, a4, a5⟩ := checkPlates_ok_of (R := [mcPlate inv name n []]) (by simp)
      (by intro p hp; rw [List.mem_singleton.1 hp]; exact hn) (R n) [m, K]
      (by rw [hf, if_pos (by omega), hR]; rfl)
    refine ⟨t, ?_, a4, a3, a5, ?_⟩
    · rw [monteCarlo]
      simp only [methodPlates, List.any_nil, Bool.false_eq_true, if_false, hR] at a1 ⊢
      rw [if_neg (show n ≠ 0 by omega), if_neg h1, a1]
    · intro k hk r i
      rw [a2, at1, if_pos (by omega)]
      rfl

/-- A pathwise method with one cost: the loss is the average cost. -/
theorem pathwise_run {hook : UnwrapHook (AD E θ₀)} (hh : PlainHook hook) {inv : Nat → AD E θ₀}
    (hinv : ∀ k, inv k = AD.const (1 / (k : ℝ))) (f : E → (Fin m → Fin K → ℝ) → ℝ) (name : String) {n : Nat} (hn : 1 ≤ n)
    (R : Nat → Ten (AD E θ₀)) (q : Ten (AD E θ₀)) (hR : (R n).shape = [n, m, K]) :
    ∃ t L, monteCarlo inv name n [] [.torch q] R = .ok (t, mcPlate inv name n []) ∧
      surrogateLoss hook [(perSample f t, [reparamSampled t])] = .ok L ∧ L.plates = [] ∧ L.ten.shape = [] ∧
      ∀ θ, L.ten.get [] θ = ∑ k ∈ Finset.range n, 1 / (n : ℝ) * f θ (fun r i => (R n).get [k, r.val, i.val] θ) := by
  set P : Plate (AD E θ₀) := mcPlate inv name n [] with hP
  have hPn : P.n = n := rfl
  have hpool : PoolOK [P] := mc_pool _ _ _
  have hw : TorchWeights [P] := mc_weights _ _ _
  obtain ⟨t, t1, t2, t3, t4, t5⟩ := monteCarlo_run (θ₀ := θ₀) (inv := inv) name hn R q hR
  rw [← hP] at t1 t3
  have hclosed : ParentClosed [P] := single_closed rfl
  have hc := perSample_is f (same_refl t2) t3 rfl t2 t4
  set c := perSample f t with hcdef
  have hcp : c.plates = [P] := t3
  have hcok : CostOK [P] c := ⟨hc.scalar, by rw [hcp]; exact hclosed⟩
  obtain ⟨L, L1, L2, L3, L4⟩ := surrogateLoss_spec hh hpool hw (costs := [(c, [_])]) (by simp) (es := [(c, [_])])
    (.cons ⟨rfl, hcok, .cons (reparam_contributes (c := c) (t := t)) .nil⟩ .nil)
  refine ⟨t, L, t1, L1, L2, L3, ?_⟩
  intro θ
  rw [L4]
  simp only [lossTotal, List.map_cons, List.map_nil, List.sum_cons, List.sum_nil, add_zero, costTotal, cvTotal,
    List.flatMap_cons, List.flatMap_nil, boxTotal, List.nil_append, List.append_nil]
  have hnm : named [P] (c.plates.map Plate.name) = [P] := by simp [named, hcp]
  rw [hnm, weightedTotal_single, zero_add, list_sum_apply, hPn, sum_range_list]
  refine Finset.sum_congr rfl (fun k hk => ?_)
  have hkn : k < n := Finset.mem_range.1 hk
  have hup : (Function.update (fun _ => 0) P.name k : String → Nat) P.name = k := by simp
  have hwt : Plate.weightAt id P (Function.update (fun _ => 0) P.name k) θ = 1 / (n : ℝ) := by
    show inv n θ = _
    rw [hinv]; rfl
  have hcv : c.sample (Function.update (fun _ => 0) P.name k) [] θ = f θ (fun r i => (R n).get [k, r.val, i.val] θ) := by
    have := hc.val (Function.update (fun _ => 0) P.name k)
    rw [Operand.at, Operand.sample] at this
    rw [this]
    simp only [hup, hPn]
    congr 1
    funext r i
    rw [t5 k hkn]
  have hb : (boxElt (0 : AD E θ₀)) θ = 1 := by
    show Real.exp ((0 : ℝ) - 0) = 1
    simp
  rw [AD.mul_apply, AD.mul_apply, hwt, hcv, hb, one_mul]

/-- Sample `k` of the program, as a function of the parameters. -/
noncomputable def GumbelVar.at (d : GumbelVar E m K) (am : (Fin K → ℝ) → Fin K) (eps : ℝ) (straight : Bool) (θ₀ : E)
    (u : Nat → Fin K → ℝ) (θ : E) (r : Fin m) (i : Fin K) : ℝ :=
  if straight then quantize d.kind am (fun i => clampProbs eps (d.soft eps (u r) θ₀ r i)) i +
    (clampProbs eps (d.soft eps (u r) θ r i) - clampProbs eps (d.soft eps (u r) θ₀ r i))
  else d.soft eps (u r) θ r i

theorem gumbelProgram_run {hook : UnwrapHook (AD E θ₀)} (hh : PlainHook hook) {inv : Nat → AD E θ₀}
    (hinv : ∀ k, inv k = AD.const (1 / (k : ℝ))) (eps : ℝ) (am : (Fin K → ℝ) → Fin K) (d : GumbelVar E m K) (straight : Bool)
    (f : E → (Fin m → Fin K → ℝ) → ℝ) (name : String) {n : Nat} (hn : 1 ≤ n) (u : Nat → Nat → Fin K → ℝ) :
    ∃ L, gumbelProgram hook inv eps am d straight f name n u = .ok L ∧ L.plates = [] ∧ L.ten.shape = [] ∧
      ∀ θ, L.ten.get [] θ = ∑ k ∈ Finset.range n, 1 / (n : ℝ) * f θ (d.at am eps straight θ₀ (u k) θ) := by
  obtain ⟨t, L, h1, h2, h3, h4, h5⟩ := pathwise_run hh hinv f name hn (d.sample (θ₀ := θ₀) am eps straight u)
    ⟨[m, K], fun idx θ => if h : idx.getD 1 0 < K then d.prob θ (idx.headD 0) ⟨idx.getD 1 0, h⟩ else 0⟩ rfl
  refine ⟨L, by rw [gumbelProgram, h1]; exact h2, h3, h4, fun θ => (h5 θ).trans (Finset.sum_congr rfl fun k _ => ?_)⟩
  congr 2
  funext r i
  cases straight <;> simp [GumbelVar.sample, GumbelVar.at]

end

end Storch
