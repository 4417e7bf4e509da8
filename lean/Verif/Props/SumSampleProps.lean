import Verif.Model.SumSample
import Verif.Lemmas.DecodeLemmas

/-!
# C103: `SumAndSample` should decode
-/

namespace Storch.Decode
variable {α : Type _}

/-- What is true of C103: the constructor accepts exactly the sizes that are both at least one, and the decoder then has
their sum of samples.  Missing: that it decodes (`C103_refuted`). -/
theorem C103_construct_partial (sumSize sampleSize k : Nat) :
    constructSum sumSize sampleSize = .ok k ↔ 1 ≤ sumSize ∧ 1 ≤ sampleSize ∧ k = sumSize + sampleSize := by
  unfold constructSum
  split
  · constructor
    · intro h
      cases h
    · intro h
      omega
  · split
    · constructor
      · intro h
        cases h
      · intro h
        omega
    · constructor
      · intro h
        cases h
        omega
      · rintro ⟨-, -, rfl⟩
        rfl

/-- **C103 is false for every decoder and every variable**: no step of a `SumAndSample` returns, whatever the
distribution, the samples so far, the perturbations and the sizes of the decoder are. -/
theorem C103_refuted [Add α] (sumSize sampleSize : Nat) (eos : Option Nat) (top : Nat → List α → List Nat)
    (fin : Option Mask) (d : Dist α) (ev : Nat) (noise : Nat → Nat → WithBot α) (b : Beam α)
    (perturbed : Option (List (WithBot α))) :
    ∃ e, selectStepSum sumSize sampleSize eos top fin d ev noise b perturbed = .error e := by
  unfold selectStepSum
  split
  · exact ⟨_, rfl⟩
  · split
    · exact ⟨_, rfl⟩
    · split
      · exact ⟨_, rfl⟩
      · rename_i r _
        cases r with
        | pair => exact ⟨_, rfl⟩
        | nothing => exact ⟨_, rfl⟩

/-- How it fails at the first variable of a new decoder: a variable with fewer values than `sum_size` is all summed over,
and a pair is returned where three results are expected (`ValueError`); with more values, `torch.topk` is asked for more
elements than there are (`RuntimeError`); with as many, the end of the function is reached and `None` cannot be unpacked
(`TypeError`). -/
theorem C103_first_refuted [Add α] {sumSize sampleSize k : Nat} (hc : constructSum sumSize sampleSize = .ok k)
    (eos : Option Nat) {top : Nat → List α → List Nat} (htop : ∀ m (l : List α), m ≤ l.length → ∀ i ∈ top m l, i < l.length)
    (d : Dist α) (noise : Nat → Nat → WithBot α) :
    selectStepSum sumSize sampleSize eos top none d 0 noise (startBeam k d none) none =
      .error (if d.dom < sumSize then .value else if d.dom = sumSize then .type else .torch) := by
  have hs := (C103_construct_partial sumSize sampleSize k).1 hc
  have key : selectSum top sumSize sampleSize ((List.range d.dom).map (noise 0)) ((List.range d.dom).map (d.logProb 0 0)) =
      if d.dom < sumSize then
        (gatherL ((List.range d.dom).map (noise 0)) (top d.dom ((List.range d.dom).map (d.logProb 0 0)))).map
          (fun p => .pair p (top d.dom ((List.range d.dom).map (d.logProb 0 0))))
      else if d.dom = sumSize then .ok .nothing else .error .torch := by
    have hg : ∀ m ≤ d.dom, ∃ p, gatherL ((List.range d.dom).map (noise 0))
        (top m ((List.range d.dom).map (d.logProb 0 0))) = .ok p := fun m hm =>
      gatherL_ok fun i hi => by simpa using htop m _ (by simpa using hm) i hi
    unfold selectSum topkChecked
    simp only [List.length_map, List.length_range]
    rw [if_neg (by omega)]
    by_cases h1 : d.dom < sumSize
    · obtain ⟨p, hp⟩ := hg d.dom le_rfl
      rw [Nat.min_eq_right (by omega : d.dom ≤ sumSize)]
      simp only [hp, h1, if_true]
      rfl
    · obtain ⟨p, hp⟩ := hg sumSize (by omega)
      rw [Nat.min_eq_left (by omega : sumSize ≤ d.dom)]
      simp only [hp, h1, if_false, lt_irrefl]
      by_cases h2 : d.dom = sumSize
      · subst h2
        simp
      · rw [if_pos (by omega), if_neg h2]
  unfold selectStepSum
  have ha : allJoint d 0 (startBeam k d none) = .ok [(List.range d.dom).map (d.logProb 0 0)] := rfl
  rw [ha]
  simp only [applyFinished, List.length_singleton, List.range_one, List.map_cons, List.map_nil, List.flatten_cons,
    List.flatten_nil, List.append_nil]
  rw [key]
  by_cases h1 : d.dom < sumSize
  · obtain ⟨p, hp⟩ := gatherL_ok (l := (List.range d.dom).map (noise 0))
      (is := top d.dom ((List.range d.dom).map (d.logProb 0 0)))
      (fun i hi => by simpa using htop d.dom _ (by simp) i hi)
    simp only [h1, if_true, hp, Except.map, SumRet.unpack]
  · by_cases h2 : d.dom = sumSize
    · simp [h2, SumRet.unpack]
    · simp [h1, h2]

namespace SumSampleCase

/-- A die with `n` faces. -/
def die (n : Nat) : Dist ℚ := ⟨n, [], false, fun _ _ t => -(t : ℚ)⟩

/-- The first `m` indices. -/
def firsts (m : Nat) (_ : List ℚ) : List Nat := List.range m

/-- Cases for `C103_first_refuted`, `C103_refuted` and `C103_construct_partial`: two summed over and one sampled, with one,
two and three faces. -/
example : let step := fun n => selectStepSum 2 1 none firsts none (die n) 0 (fun _ t => ((t : ℚ) : WithBot ℚ)) (startBeam 3 (die n) none) none
    step 1 = .error .value ∧ step 2 = .error .type ∧ step 3 = .error .torch ∧ constructSum 2 1 = .ok 3 := by
  have h : ∀ m (l : List ℚ), m ≤ l.length → ∀ i ∈ firsts m l, i < l.length := fun m l hm i hi =>
    (List.mem_range.1 hi).trans_le hm
  exact ⟨C103_first_refuted (k := 3) rfl none h (die 1) _, C103_first_refuted (k := 3) rfl none h (die 2) _,
    C103_first_refuted (k := 3) rfl none h (die 3) _, rfl⟩

end SumSampleCase

end Storch.Decode
