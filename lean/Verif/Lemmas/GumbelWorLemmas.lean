import Verif.Model.GumbelWor
import Verif.Lemmas.UnorderedLoss
import Verif.Lemmas.RelaxRunLemmas

/-!
# The surrogate loss of relaxed samples without replacement
-/

namespace Storch
open Gumbel

section
variable {α : Type _} [ValEq α]

/-- A plate with weights of its own. -/
theorem weightedPlate_ok [Zero α] (name : String) {n : Nat} {weights : List α} (hl : weights.length = n) (hn : 2 ≤ n) :
    let plate := Plate.mk name n (.storch (Ten.vec weights) [name]) .plain []
    LonePlate plate ∧ WeightOK plate ∧ ∀ ι, plate.weightAt id ι = weights.getD (ι name) 0 := by
  intro plate
  have hpn : plate.n = n := rfl
  have hlone : LonePlate plate := ⟨hn, rfl, rfl⟩
  have hw1 : plate.weightPlates [name] = [plate] := by
    rw [Plate.weightPlates]
    simp [plate, Plate.name, Plate.parents]
  have hw2 : [plate].filter (fun q => decide (1 < q.n)) = [plate] := by
    rw [List.filter_cons, if_pos (by simp [hpn]; omega)]
    rfl
  refine ⟨hlone, ?_, ?_⟩
  · refine .storch (Ten.vec weights) [name] rfl (by omega) (by simp) (by simp [plate, Plate.name]) (by simp [plate, Plate.name]) ?_
    rw [hw1, hw2]
    simp [Ten.vec, hl, hpn]
  · intro ι
    rw [Plate.weightAt]
    show (Ten.vec weights).get (((plate.weightPlates [name]).filter (fun q => decide (1 < q.n))).map (fun q => ι q.name)) = _
    rw [hw1, hw2]
    simp [Ten.vec, plate, Plate.name]

omit [ValEq α] in
theorem mk_wide {plate : Plate α} (hp : LonePlate plate) {K : Nat} {t : Ten α} (h : t.shape = [plate.n, K]) :
    STen.mk' t [plate] = .ok ⟨t, [plate], 1⟩ := by
  have hsize := hp.size
  have hf : ([plate].filter (fun p => p.n ≠ 1)) = [plate] := by
    rw [List.filter_cons, if_pos (by simp; omega)]
    rfl
  rw [STen.mk', (checkPlates_ok_iff _ _ _ _ 1).2]
  refine ⟨by simp, by simp, ?_, ?_⟩
  · rw [hf, List.drop_zero, h]
    exact ⟨[K], by simp⟩
  · rw [hf]; simp

end

theorem clamp_id' {eps p : ℝ} (h : eps ≤ p ∧ p ≤ 1 - eps) : clampProbs eps p = p := by
  rw [clampProbs, max_eq_left h.1, min_eq_left h.2]

section
variable {E : Type _} {θ₀ : E} {K : Nat}

/-- The relaxed samples. -/
theorem gumbelWorTensor_spec (name : String) (am : (Fin K → ℝ) → Fin K) (eps temperature : ℝ) (prob : E → Fin K → ℝ)
    {tokens : List Nat} (hn : 2 ≤ tokens.length) {weights : List ℝ} (hw : weights.length = tokens.length)
    (v : List Nat → Fin K → ℝ) :
    ∃ (plate : Plate (AD E θ₀)) (t : Ten (AD E θ₀)),
      gumbelWorTensor name am eps temperature prob tokens weights v = .ok ⟨t, [plate], 1⟩ ∧
      LonePlate plate ∧ WeightOK plate ∧ plate.name = name ∧ plate.n = tokens.length ∧
      (∀ ι θ, plate.weightAt id ι θ = weights.getD (ι name) 0) ∧ t.shape = [tokens.length, K] ∧
      ∀ j < tokens.length, ∀ (i : Fin K) θ, t.get [j, i.val] θ =
        conditionalRow am eps temperature (fun i => if (i : Nat) = tokens.getD j 0 then 1 else 0) (prob θ) (v [j]) i := by
  have hwl : (weights.map (AD.const : ℝ → AD E θ₀)).length = tokens.length := by simp [hw]
  obtain ⟨p1, p2, p3⟩ := weightedPlate_ok (α := AD E θ₀) name hwl hn
  set plate : Plate (AD E θ₀) := Plate.mk name tokens.length (.storch (Ten.vec (weights.map AD.const)) [name]) .plain [] with hpl
  have hpn : plate.n = tokens.length := rfl
  set F : List Nat → (Fin K → AD E θ₀) → Fin K → AD E θ₀ := fun pos row i θ =>
    conditionalRow am eps temperature (fun i => (row i).val) (prob θ) (v pos) i with hF
  set hard : STen (AD E θ₀) := ⟨oneHotRows K tokens, [plate], 1⟩ with hhard
  refine ⟨plate, (mapRows F hard).ten, ?_, p1, p2, rfl, rfl, ?_, rfl, ?_⟩
  · rw [gumbelWorTensor]
    simp only [bind, Except.bind, ← hpl]
    rw [mk_wide p1 (K := K) rfl]
    exact mk_wide p1 (K := K) rfl
  · intro ι θ
    rw [p3]
    by_cases hi : ι name < weights.length
    · simp [List.getD, List.getElem?_eq_getElem hi]
    · simp [List.getD, List.getElem?_eq_none (by omega : weights.length ≤ ι name)]
  · intro j hj i θ
    have hb : Ten.InB ([j] ++ [i.val]) hard.ten.shape := .cons hj (.cons i.isLt .nil)
    have := mapRows_get F (pos := [j]) i hb
    rw [show [j, i.val] = [j] ++ [i.val] from rfl, this, hF]
    simp only [hhard, oneHotRows]
    congr 1

/-- The loss of the relaxed samples. -/
theorem gumbelWor_after {hook : UnwrapHook (AD E θ₀)} (hh : PlainHook hook) {plate : Plate (AD E θ₀)} (hp : LonePlate plate)
    (hw : WeightOK plate) {t : Ten (AD E θ₀)} (hs : t.shape = [plate.n, K]) (f : E → (Fin K → ℝ) → ℝ) :
    ∃ r, surrogateLoss hook [(perRow f ⟨t, [plate], 1⟩, [⟨⟨t, [plate], 1⟩, false, fun _ _ => .ok (none, none)⟩])] = .ok r ∧
      r.plates = [] ∧ r.ten.shape = [] ∧
      ∀ θ, r.ten.get [] θ = ((List.range plate.n).map (fun j =>
        plate.weightAt id (Function.update (fun _ => 0) plate.name j) θ * f θ (fun i => t.get [j, i.val] θ))).sum := by
  have hsize := hp.size
  set x : STen (AD E θ₀) := ⟨t, [plate], 1⟩ with hx
  set c := perRow f x with hc
  have hco : OverOne plate c := overOne_mk hp (t := c.ten) (by simp [hc, perRow, hx, hs])
  have hm : x.multiDimPlates = [plate] := by
    rw [STen.multiDimPlates, hx, List.filter_cons, if_pos (by simp; omega)]
    rfl
  have hwf : x.WF := by
    refine ⟨by simp [hx], by simp [hx]; omega, ?_, by rw [hm]; rfl⟩
    rw [hm, STen.eventShape]
    simp [hx, hs]
  have hpar : ParentOK [plate] x := ⟨hwf, fun p h => h, hp.closed⟩
  have hg : ParentsAllOrNone c.multiDimPlates := by
    rw [hco.multi hp]
    intro p hm
    rw [List.mem_singleton.1 hm, hp.parents]
    simp
  have hcon := expect_contributes_any hh hp.pool (fun p hm => List.mem_singleton.1 hm ▸ hw) (hco.cost hp) hg hpar
  obtain ⟨r, r1, r2, r3, r4⟩ := surrogateLoss_any hh hp.pool (fun p hm => List.mem_singleton.1 hm ▸ hw)
    (costs := [(c, [expectSampled x])]) (es := [(c, [⟨[], fun _ => 0, none⟩])]) (by simp)
    (.cons ⟨rfl, hco.cost hp, .cons hcon .nil⟩ .nil)
  refine ⟨r, r1, r2, r3, ?_⟩
  intro θ
  rw [r4, lossTotal]
  simp only [List.map_cons, List.map_nil, List.sum_cons, List.sum_nil, add_zero]
  rw [costTotal]
  simp only [cvTotal, add_zero, zero_add, List.flatMap_cons, List.flatMap_nil, List.nil_append, hco.over, List.map_cons, List.map_nil,
    List.sum_cons, List.sum_nil, List.append_nil]
  rw [boxTotal_lone (by simp)]
  congr 1
  apply List.map_congr_left
  intro j hj
  have hsam := hco.sample hp (Function.update (fun _ => 0) plate.name j)
  show plate.weightAt id (Function.update (fun _ => 0) plate.name j) θ * (Real.exp ((0 : ℝ) - 0) *
    c.sample (Function.update (fun _ => 0) plate.name j) [] θ) = _
  rw [sub_self, Real.exp_zero, one_mul, hsam]
  congr 1
  simp [hc, perRow, hx]

end

end Storch
