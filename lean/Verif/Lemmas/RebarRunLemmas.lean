import Verif.Model.RebarRun
import Verif.Lemmas.RebarContribLemmas
import Verif.Lemmas.RelaxRunLemmas

/-!
# The run of a program with one variable sampled with `REBAR`
-/

namespace Storch
open Gumbel

section
variable {E : Type _} {θ₀ : E} {m K : Nat}

/-- The variable whose control network is the network plus the cost: `c_phi(x) + f(x)`. -/
def RelaxVar.addCost (d : RelaxVar E m K) (f : E → (Fin m → Fin K → ℝ) → ℝ) : RelaxVar E m K :=
  { d with net := fun θ x => d.net θ x + f θ x }

/-- The plate of the three rows per sample. -/
def rebarPlate (inv : Nat → AD E θ₀) (name : String) (n : Nat) : Plate (AD E θ₀) :=
  vecPlate name (n + n + n) (fun k => if k < (n + n + n) / 3 then inv ((n + n + n) / 3) else 0)

theorem rebarSample_run {inv : Nat → AD E θ₀} (d : RelaxVar E m K) (am : (Fin K → ℝ) → Fin K) (eps : ℝ) (name : String)
    {n : Nat} (hn : 1 ≤ n) (u v : Nat → Nat → Fin K → ℝ) (q : Ten (AD E θ₀)) :
    ∃ t, relaxSample inv name n [] [.torch q] true (discretizeTen am)
        (d.condTen am eps fun pos => v (pos.headD 0) (pos.getLastD 0)) (d.relaxed eps u) =
        .ok (t, rebarPlate inv name n) ∧ t.WF ∧ t.plates = [rebarPlate inv name n] ∧ t.eventShape = [m, K] ∧
      ∀ k, k < n → ∀ (r : Fin m) (i : Fin K),
        t.ten.get [k, r.val, i.val] = AD.const (d.hardAt am eps θ₀ (u k) r i) ∧
        t.ten.get [k + n, r.val, i.val] = (fun θ => d.zAt eps (u k) θ r i) ∧
        t.ten.get [k + 2 * n, r.val, i.val] =
          fun θ => d.ztAt am eps (d.hardAt am eps θ₀ (u k)) (v k) θ r i := by
  set z := d.relaxed (θ₀ := θ₀) eps u n with hz
  set w : List Nat → Fin K → ℝ := fun pos => v (pos.headD 0) (pos.getLastD 0) with hw
  have hzs : z.shape = [n, m, K] := rfl
  have hval : ∀ k (r : Fin m) (i : Fin K), z.get [k, r.val, i.val] = fun θ => d.zAt eps (u k) θ r i := by
    intro k r i
    funext θ
    simp [hz, RelaxVar.relaxed, RelaxVar.zAt]
  have hin : ∀ {k}, k < n → ∀ (r : Fin m) (i : Fin K), Ten.InB ([k, r.val] ++ [i.val]) [n, m, K] :=
    fun hk r i => .cons hk (.cons r.isLt (.cons i.isLt .nil))
  have hhard : ∀ k, k < n → ∀ (r : Fin m) (i : Fin K), (discretizeTen am z).get [k, r.val, i.val] =
      AD.const (d.hardAt am eps θ₀ (u k) r i) := by
    intro k hk r i
    have h := mapRows_get (fun _ row i => (AD.const (discretizeRow am (fun i => (row i).val) i) : AD E θ₀))
      (t := ⟨z, [], 0⟩) (pos := [k, r.val]) i (hin hk r i)
    refine h.trans ?_
    congr 1
    rw [RelaxVar.hardAt]
    congr 1
    funext i'
    exact congrFun (hval k r i') θ₀
  have hcond : ∀ k, k < n → ∀ (r : Fin m) (i : Fin K), (d.condTen am eps w (discretizeTen am z)).get [k, r.val, i.val] =
      fun θ => d.ztAt am eps (d.hardAt am eps θ₀ (u k)) (v k) θ r i := by
    intro k hk r i
    have h := mapRows_get (fun pos row i => (fun θ => conditionalRow am eps (d.temp θ) (fun i => (row i).val)
      (d.prob θ (pos.getLastD 0)) (w pos) i : AD E θ₀)) (t := ⟨discretizeTen am z, [], 0⟩) (pos := [k, r.val]) i
      (hin hk r i)
    refine h.trans ?_
    funext θ
    rw [RelaxVar.ztAt]
    show conditionalRow am eps (d.temp θ) _ (d.prob θ r.val) (v k r.val) i = _
    congr 1
    funext i'
    exact congrFun (hhard k hk r i') θ₀
  set T := relaxTensor true (discretizeTen am) (d.condTen am eps w) z with hT
  have hTs : T.shape = [n + n + n, m, K] := rfl
  obtain ⟨t, a1, a2, a3, a4, a5⟩ := checkPlates_ok_of (R := [mcPlate inv name (n + n + n) []]) (by simp)
    (by intro p hp; rw [List.mem_singleton.1 hp]; show 1 ≤ n + n + n; omega) T [m, K] (by
      rw [hTs, List.filter_cons_of_pos (by exact decide_eq_true (show 1 < n + n + n by omega))]; rfl)
  have hsp : STen.mk' T [mcPlate inv name (n + n + n) []] = .ok t := a1
  refine ⟨⟨t.ten, [rebarPlate inv name n], t.plateDims⟩, ?_, ⟨by simp, ?_, ?_, ?_⟩, rfl, a5, ?_⟩
  · have hmc : monteCarlo inv name n [] [.torch q] (fun k => relaxTensor true (discretizeTen am)
        (d.condTen am eps w) (d.relaxed eps u k)) = .ok (t, mcPlate inv name (n + n + n) []) := by
      rw [monteCarlo]
      simp only [methodPlates, List.any_nil, Bool.false_eq_true, if_false, ← hz, ← hT, hTs] at hsp ⊢
      rw [if_neg (by omega), if_neg (by omega)]
      rw [hsp]
    rw [relaxSample, hmc]
    simp only [relaxWeights, if_true]
    have h3 : (mcPlate inv name (n + n + n) []).n = n + n + n := rfl
    rw [h3, if_neg (show ¬ (n + n + n) / 3 = 0 by omega)]
    simp only [a3, List.tail_cons]
    rfl
  · intro p hp
    rw [List.mem_singleton.1 hp]
    show 1 ≤ n + n + n
    omega
  · have := a4.shape
    rw [STen.multiDimPlates, a3, List.filter_cons_of_pos (by exact decide_eq_true (show 1 < n + n + n by omega))] at this
    rw [STen.multiDimPlates, List.filter_cons_of_pos (by exact decide_eq_true (show 1 < n + n + n by omega))]
    exact this
  · have := a4.dims
    rw [STen.multiDimPlates, a3, List.filter_cons_of_pos (by exact decide_eq_true (show 1 < n + n + n by omega))] at this
    rw [STen.multiDimPlates, List.filter_cons_of_pos (by exact decide_eq_true (show 1 < n + n + n by omega))]
    exact this
  · intro k hk r i
    show t.ten.get _ = _ ∧ t.ten.get _ = _ ∧ t.ten.get _ = _
    rw [a2]
    have hget : ∀ j, T.get [j, r.val, i.val] = if j < n then (discretizeTen am z).get [j, r.val, i.val]
        else if j < n + n then z.get [j - n, r.val, i.val]
        else (d.condTen am eps w (discretizeTen am z)).get [j - (n + n), r.val, i.val] := fun _ => rfl
    refine ⟨?_, ?_, ?_⟩
    · rw [hget, if_pos hk, hhard k hk]
    · rw [hget, if_neg (by omega), if_pos (by omega), Nat.add_sub_cancel, hval]
    · rw [hget, if_neg (by omega), if_neg (by omega), show k + 2 * n - (n + n) = k by omega, hcond k hk]

theorem rebarPlate_n (inv : Nat → AD E θ₀) (name : String) (n : Nat) : (rebarPlate inv name n).n = n + n + n := rfl

theorem rebarProgram_run {hook : UnwrapHook (AD E θ₀)} (hh : PlainHook hook) {inv : Nat → AD E θ₀}
    (hinv : ∀ k, inv k = AD.const (1 / (k : ℝ))) (eps : ℝ) (am : (Fin K → ℝ) → Fin K) (d : RelaxVar E m K)
    {cPhi : Ten (AD E θ₀) → Except Err (Ten (AD E θ₀))} (f : E → (Fin m → Fin K → ℝ) → ℝ) (name : String) {n : Nat}
    (hn : 1 ≤ n) (hφ : PerSample cPhi [n] [m, K] (fun x θ => d.net θ (fun r i => x [r.val, i.val] θ)))
    (u v : Nat → Nat → Fin K → ℝ) :
    ∃ L, rebarProgram hook inv eps am d cPhi f name n u (fun pos => v (pos.headD 0) (pos.getLastD 0)) = .ok L ∧
      L.plates = [] ∧ L.ten.shape = [] ∧ ∀ θ, L.ten.get [] θ = relaxLoss (d.addCost f) am eps θ₀ f n u v θ := by
  set P : Plate (AD E θ₀) := rebarPlate inv name n with hP
  have hPn : P.n = n + n + n := rfl
  have hPname : P.name = name := rfl
  have hpool : PoolOK [P] := vec_pool _ _ _
  have hw : TorchWeights [P] := vec_weights _ (by omega) _
  obtain ⟨t, t1, t2, t3, t4, t5⟩ := rebarSample_run (θ₀ := θ₀) (inv := inv) d am eps name hn u v
    ⟨[m, K], fun idx θ => if h : idx.getD 1 0 < K then d.prob θ (idx.headD 0) ⟨idx.getD 1 0, h⟩ else 0⟩
  rw [← hP] at t1 t3
  have hclosed : ParentClosed [P] := single_closed rfl
  have hat : ∀ k, at1 P.n k = [k] := fun k => by rw [at1, if_pos (by omega)]
  have hl := logProb_ok d am eps t2 t3 t4
  have hc := perSample_is f (same_refl t2) t3 rfl t2 t4
  set c := perSample f t with hcdef
  have hcp : c.plates = [P] := t3
  have hcok : CostOK [P] c := ⟨hc.scalar, by rw [hcp]; exact hclosed⟩
  have htm : t.multiDimPlates = [P] := by
    rw [STen.multiDimPlates, t3, List.filter_cons_of_pos (by simp; omega)]; rfl
  have hcm : c.multiDimPlates = [P] := by
    rw [STen.multiDimPlates, hcp, List.filter_cons_of_pos (by simp; omega)]; rfl
  have hmiss : missingPlates c t = [] := by
    rw [missingPlates, hcm, htm, List.filter_eq_nil_iff]
    intro p hp
    rw [(isInMethod_pool hpool (fun q hq => hq) hp).2 hp]
    simp
  have hseen : ∀ ι, seenCost c t ι = c.sample ι [] := by
    intro ι
    rw [seenCost, hmiss]
    simp [weightedTotal, allIdx, assign]
  have hcontr := rebar_contributes hh hpool (c := c) (t := t) (by rw [hmiss]; intro p hp; cases hp) hcok (by
      intro p hp; left; intro q hq
      rw [hcm] at hp
      rw [List.mem_singleton.1 hp] at hq; cases hq)
    ⟨t2, by rw [t3]; exact fun p hp => hp, by rw [t3]; exact hclosed⟩ (by rw [htm, hcp]; exact fun p hp => hp)
    (by rw [hcp, t3]; exact fun p hp _ => hp) (own := P) (by rw [t3]; simp) (n := n) (by omega) hn
    (cPhi := cPhi) (φ := fun x θ => d.net θ (fun r i => x [r.val, i.val] θ)) (by
      intro L1 L2 hL
      rw [htm] at hL
      have hlen := hL.length_eq
      simp only [List.length_append, List.length_cons, List.length_nil] at hlen
      have h1 : L1 = [] := List.length_eq_zero_iff.1 (by omega)
      have h2 : L2 = [] := List.length_eq_zero_iff.1 (by omega)
      rw [h1, h2, t4]
      exact hφ) hl (by simp) d.eta
  obtain ⟨L, L1, L2, L3, L4⟩ := surrogateLoss_ones hh hpool hw.weights (costs := [(c, [_])]) (by simp) (es := [(c, [_])])
    (.cons ⟨rfl, hcok, .cons hcontr .nil⟩ .nil)
  refine ⟨L, ?_, L2, L3, ?_⟩
  · rw [rebarProgram, t1]
    exact L1
  · intro θ
    rw [L4]
    have hnm : ∀ (l : List String), named [P] (t.plates.map Plate.name ++ l) = [P] := by
      intro l; simp [named, t3]
    simp only [lossTotal, List.map_cons, List.map_nil, List.sum_cons, List.sum_nil, add_zero, costTotal, cvTotal,
      List.flatMap_cons, List.flatMap_nil, boxTotal, List.nil_append, List.append_nil]
    have hrange : List.range P.n = List.range (n + (n + n)) := by rw [hPn, Nat.add_assoc]
    rw [hnm, hnm, weightedTotal_single, weightedTotal_single]
    rw [AD.add_apply, list_sum_apply, list_sum_apply, ← List.sum_map_add, hrange, sum_range_list, relaxLoss]
    have hup : ∀ k, (Function.update (fun _ => 0) P.name k : String → Nat) P.name = k := by intro k; simp
    have h3n : (n + n + n) / 3 = n := by omega
    have hwt : ∀ k, Plate.weightAt id P (Function.update (fun _ => 0) P.name k) =
        if k < n then AD.const (1 / (n : ℝ)) else 0 := by
      intro k
      show (if (Function.update (fun _ => 0) P.name k : String → Nat) name < (n + n + n) / 3 then
        inv ((n + n + n) / 3) else 0) = _
      rw [h3n, hinv]
      rw [show (Function.update (fun _ => 0) P.name k : String → Nat) name = k from hup k]
    rw [Finset.sum_range_add, Finset.sum_eq_zero (s := Finset.range (n + n)), add_zero]
    swap
    · intro k _
      simp only [AD.mul_apply, hwt]
      rw [if_neg (by omega)]
      show (0 : ℝ) * _ + 0 * _ = 0
      ring
    refine Finset.sum_congr rfl (fun k hk => ?_)
    have hkn : k < n := Finset.mem_range.1 hk
    have hts : ∀ (ι : String → Nat) (r : Fin m) (i : Fin K), t.sample ι [r.val, i.val] = t.ten.get [ι P.name, r.val, i.val] := by
      intro ι r i
      rw [(single_view t2 t3).2.2 ι [r.val, i.val] (by rw [t4]; exact inB2 r.isLt i.isLt), hat]
      rfl
    have hcs : ∀ ι, c.sample ι [] = fun θ => f θ (fun r i => t.ten.get [ι P.name, r.val, i.val] θ) := by
      intro ι
      have := hc.val ι
      rw [Operand.at, Operand.sample] at this
      rw [this, hat]
      rfl
    have hlp : sumEvent [m] (fun ι e => (fun θ => Real.log (clampProbs eps (d.prob θ (e.headD 0)
        (am (fun i => (t.ten.get (at1 P.n (ι P.name) ++ [e.headD 0, i.val])).val)))) : AD E θ₀))
        (Function.update (fun _ => 0) P.name k) = d.lpAt am eps (d.hardAt am eps θ₀ (u k)) := by
      funext θ
      have hall : allIdx [m] = (List.range m).map (fun r => [r]) := by
        have : ∀ (l : List Nat), l.flatMap (fun i => [[i]]) = l.map (fun i => [i]) := by
          intro l; induction l <;> simp_all
        simp [allIdx, this]
      rw [sumEvent, hall, List.map_map]
      have h3 := (list_sum_apply (θ₀ := θ₀) (List.range m) (fun r => (fun θ => Real.log (clampProbs eps (d.prob θ r
        (am (fun i => (t.ten.get (at1 P.n ((Function.update (fun _ => 0) P.name k : String → Nat) P.name) ++
          [r, i.val])).val)))) : AD E θ₀)) θ)
      refine Eq.trans h3 ?_
      rw [sum_range_list, RelaxVar.lpAt, ← Fin.sum_univ_eq_sum_range (fun r => Real.log (clampProbs eps (d.prob θ r
        (am (fun i => (t.ten.get (at1 P.n ((Function.update (fun _ => 0) P.name k : String → Nat) P.name) ++
          [r, i.val])).val))))) m]
      refine Finset.sum_congr rfl (fun r _ => ?_)
      rw [hup, hat]
      congr 4
      funext i
      exact congrFun (t5 k hkn r i).1 θ₀
    have hpart : ∀ a, rebarPart (fun (x : List Nat → AD E θ₀) θ => d.net θ (fun r i => x [r.val, i.val] θ)) P n a t (seenCost c t)
        (Function.update (fun _ => 0) P.name k) = fun θ =>
          (d.addCost f).net θ (fun r i => t.ten.get [k + a, r.val, i.val] θ) := by
      intro a
      unfold rebarPart
      rw [hup, if_pos hkn, hseen, hcs]
      funext θ
      simp only [hts, Function.update_self]
      rfl
    have hz : rebarPart (fun (x : List Nat → AD E θ₀) θ => d.net θ (fun r i => x [r.val, i.val] θ)) P n n t (seenCost c t)
        (Function.update (fun _ => 0) P.name k) = fun θ => (d.addCost f).net θ (d.zAt eps (u k) θ) := by
      rw [hpart]
      funext θ
      congr 1
      funext r i
      rw [(t5 k hkn r i).2.1]
    have hzz : rebarPart (fun (x : List Nat → AD E θ₀) θ => d.net θ (fun r i => x [r.val, i.val] θ)) P n (2 * n) t
        (seenCost c t) (Function.update (fun _ => 0) P.name k) =
          fun θ => (d.addCost f).net θ (d.ztAt am eps (d.hardAt am eps θ₀ (u k)) (v k) θ) := by
      rw [hpart]
      funext θ
      congr 1
      funext r i
      rw [(t5 k hkn r i).2.2]
    have hcv : c.sample (Function.update (fun _ => 0) P.name k) [] θ = f θ (d.hardAt am eps θ₀ (u k)) := by
      rw [hcs, hup]
      show f θ _ = _
      congr 1
      funext r i
      rw [(t5 k hkn r i).1]
      rfl
    have hfin : ∀ eta lp z zt : AD E θ₀, eta = d.eta → lp = d.lpAt am eps (d.hardAt am eps θ₀ (u k)) →
        z = (fun θ => (d.addCost f).net θ (d.zAt eps (u k) θ)) →
        zt = (fun θ => (d.addCost f).net θ (d.ztAt am eps (d.hardAt am eps θ₀ (u k)) (v k) θ)) →
        1 / (n : ℝ) * (boxElt lp θ * relaxCv eta lp z zt θ) +
          1 / (n : ℝ) * (boxElt lp θ * f θ (d.hardAt am eps θ₀ (u k))) =
        1 / (n : ℝ) * (d.addCost f).term am eps θ₀ f (u k) (v k) θ := by
      rintro eta lp z zt rfl rfl rfl rfl
      rw [← mul_add, ← mul_add]
      rfl
    simp only [zero_add, AD.mul_apply, hcv, hwt, if_pos hkn]
    exact hfin _ _ _ _ rfl hlp hz hzz

/-- `REBAR` without a control network. -/
theorem zero_control (n : Nat) : PerSample (α := AD E θ₀) zeroControl [n] [m, K] (fun _ => 0) where
  runs z _ := ⟨_, rfl, ⟨by simp [Ten.scalar], by simp [Ten.scalar, Ten.padL]⟩, fun i _ => rfl⟩
  loc _ _ _ := rfl

end

end Storch
