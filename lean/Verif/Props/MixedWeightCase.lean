import Verif.Props.SurrogateCases

/-!
# A case of C33 with both kinds of weights

A coin `d` enumerated by `Expect` (its weight is a storch tensor that depends on the parameter) and, given the coin, two
samples along a plate `z`, estimated with the score function and a batch-average baseline.
-/

namespace Storch
namespace BothWeightsCase
open SurrogateCase (A hook plainHook negElts logProb)

/-- The plate of the coin: 0 with weight `1 - θ`, 1 with weight `θ`. -/
noncomputable def coin : Plate A :=
  .mk "d" 2 (.storch ⟨[2], fun idx θ => if idx.headD 0 = 0 then 1 - θ else θ⟩ ["d"]) .plain []

/-- The plate of the two samples, below the coin. -/
noncomputable def draw : Plate A := .mk "z" 2 (.torch (Ten.scalar (AD.const (1 / 2)))) .plain [coin]

/-- The samples: 1 and 2 for the first side of the coin, 3 and 4 for the second. -/
noncomputable def sample : STen A :=
  ⟨⟨[2, 2], fun idx => AD.const (1 + 2 * (idx.getD 0 0 : ℕ) + (idx.getD 1 0 : ℕ))⟩, [coin, draw], 2⟩

/-- The enumerated coin. -/
noncomputable def side : STen A := ⟨⟨[2], fun idx => AD.const (idx.headD 0 : ℕ)⟩, [coin], 1⟩

/-- The cost `θ * z`. -/
noncomputable def cost : STen A :=
  ⟨⟨[2, 2], fun idx θ => θ * (1 + 2 * (idx.getD 0 0 : ℕ) + (idx.getD 1 0 : ℕ))⟩, [coin, draw], 2⟩

theorem pool : PoolOK [coin, draw] := by
  refine ⟨by simp [coin, draw, Plate.name], by simp [coin, draw, Plate.kind], ?_⟩
  apply acyclic_of_rank (fun s => if s = "d" then 0 else 1)
  rintro a b ⟨p, hp, h1, q, hq, h2⟩
  simp only [List.mem_cons, List.not_mem_nil, or_false] at hp
  rcases hp with rfl | rfl
  · simp [coin, Plate.parents] at hq
  · simp only [draw, Plate.parents, List.mem_singleton] at hq
    subst hq
    subst h1 h2
    simp [coin, draw, Plate.name]

theorem weights : Weights [coin, draw] := by
  intro p hp
  simp only [List.mem_cons, List.not_mem_nil, or_false] at hp
  rcases hp with rfl | rfl
  · exact .storch _ ["d"] rfl (by simp [coin, Plate.n]) (by simp) (by simp [coin, Plate.name])
      (by simp [coin, Plate.name]) rfl
  · exact .scalar _ rfl rfl

theorem closed : ParentClosed [coin, draw] := by
  intro p hp q hq
  simp only [List.mem_cons, List.not_mem_nil, or_false] at hp
  rcases hp with rfl | rfl
  · simp [coin, Plate.parents] at hq
  · simp only [draw, Plate.parents, List.mem_singleton] at hq
    exact ⟨coin, by simp, by rw [hq]; exact Plate.pyEq_refl _⟩

theorem closed_coin : ParentClosed [coin] := by
  intro p hp q hq
  rw [List.mem_singleton.1 hp] at hq
  simp [coin, Plate.parents] at hq

theorem costOK : CostOK [coin, draw] cost :=
  ⟨⟨⟨by simp [cost, coin, draw, Plate.name], by simp [cost, coin, draw, Plate.n], rfl, rfl⟩, rfl, fun _ hp => hp⟩, closed⟩

theorem sampleOK : ParentOK [coin, draw] sample :=
  ⟨⟨by simp [sample, coin, draw, Plate.name], by simp [sample, coin, draw, Plate.n], rfl, rfl⟩, fun _ hp => hp, closed⟩

theorem sideOK : ParentOK [coin, draw] side :=
  ⟨⟨by simp [side], by simp [side, coin, Plate.n], rfl, rfl⟩, by simp [side], closed_coin⟩

theorem logProbOK : LogProbOK sample logProb [] (fun ι _ => -sample.sample ι []) := by
  intro x hx
  obtain ⟨r, r1, r2, r3, r4, r5⟩ := opCall_scalar plainHook pool negElts (ops := [.st x false]) (by
    intro o ho
    simp only [List.mem_singleton] at ho
    subst ho
    exact ⟨hx.wf, hx.event, fun p hp => (hx.plates p).1 hp⟩)
  obtain ⟨lp, rfl⟩ := r5 (by simp [stens])
  refine ⟨lp, by rw [logProb, r1], r2.1, ?_, r2.2.1, ?_⟩
  · intro p
    have := r3 p
    simp only [List.mem_singleton, exists_eq_left] at this
    exact this.trans (hx.plates p)
  · intro ι e he
    cases he
    have := r4 ι
    rw [Operand.at, Operand.sample] at this
    rw [this, List.map_cons, List.map_nil]
    show negElts [x.sample ι []] = -sample.sample ι []
    rw [hx.values]
    rfl

theorem allOrNone : ParentsAllOrNone cost.multiDimPlates := fun p hp => .inl (closed p hp)

theorem nothing_missing : missingPlates cost sample = [] := by
  rw [missingPlates, List.filter_eq_nil_iff]
  intro p hp
  have hk : p.kind = .plain := by
    have : p ∈ [coin, draw] := hp
    simp only [List.mem_cons, List.not_mem_nil, or_false] at this
    rcases this with rfl | rfl <;> rfl
  have : p.isInMethod sample.multiDimPlates = true := by
    rw [Plate.isInMethod, hk]
    exact Plate.isIn_of_mem hp
  simp [this]

/-- C33 applies: both kinds of weights, a baseline, and enumeration in one program.  The loss is
`1/2 * ((1 + 2) / 2 * 1/2 + (3 + 4) / 2 * 1/2)`. -/
example : ∃ r, surrogateLoss hook [(cost, [expectSampled side,
      scoreSampled hook invN logProb 2 "z" (some .batchAverage) sample])] = .ok r ∧ (r.ten.get []).val = 5 / 4 := by
  obtain ⟨r, r1, _, _, r4⟩ := C33_methods_partial plainHook pool weights
    (costs := [(cost, [expectSampled side, scoreSampled hook invN logProb 2 "z" (some .batchAverage) sample])])
    (by simp) (by simpa using ⟨costOK, allOrNone⟩) (by
      intro x hx s hs
      simp only [List.mem_singleton] at hx
      subst hx
      simp only [List.mem_cons, List.not_mem_nil, or_false] at hs
      rcases hs with rfl | rfl
      · exact .expect _ sideOK
      · refine .batch _ sampleOK _ _ _ logProbOK _ draw (by simp [cost]) (by simp [sample])
          (by simp [draw, Plate.n]) ?_ ?_
        · intro p hp _ q hq
          obtain ⟨x, hx, he⟩ := closed p hp q hq
          exact ⟨x, hx, by rw [nothing_missing]; simp, he⟩
        · rw [nothing_missing]
          intro p hp
          cases hp)
    (by
      intro x hx s hs p hp _
      simp only [List.mem_singleton] at hx
      subst hx
      exact .inl (List.mem_map_of_mem hp))
  refine ⟨r, r1, ?_⟩
  rw [r4]
  simp only [List.map_cons, List.map_nil, List.sum_cons, List.sum_nil, averageCost, AD.val]
  rw [total_eval]
  have hi : allIdx (cost.plates.map Plate.n) = [[0, 0], [0, 1], [1, 0], [1, 1]] := by decide
  rw [hi]
  simp only [List.map_cons, List.map_nil, List.sum_cons, List.sum_nil, jointWeight, AD.eval_apply]
  have hw : ∀ i j : Nat, ((cost.plates.map (fun p : Plate A => p.weightAt id (assign cost.plates [i, j] (fun _ => 0)))).prod)
      (1 / 2) = (if i = 0 then 1 - 1 / 2 else 1 / 2) * (1 / 2 * 1) := fun _ _ => rfl
  have hv : ∀ i j : Nat, cost.sample (assign cost.plates [i, j] (fun _ => 0)) [] (1 / 2) =
      1 / 2 * (1 + 2 * i + j) := fun _ _ => rfl
  rw [hw, hw, hw, hw, hv, hv, hv, hv]
  norm_num

end BothWeightsCase
end Storch
