import Verif.Props.MonteCarloProps

/-!
# C55: models that mix variables with one sample and variables with several
-/

namespace Storch

section
variable {E : Type _} {θ₀ : E}

/-- C55, what holds: programs in which no distribution depends on both kinds of variables run, and their
surrogate loss can be computed, whatever is drawn (here without baselines).  Missing: the other programs, for
which it is false (`C55_refuted`). -/
theorem C55_unmixed_partial {hook : UnwrapHook (AD E θ₀)} (hh : PlainHook hook) {vars : List (ScoreVar E)}
    (hg : GoodVars vars) (hm : Unmixed vars) {costs : List (ScoreCost E)} (hne : costs ≠ [])
    (hk : ∀ k ∈ costs, GoodCost θ₀ vars k) (hb : ∀ k ∈ costs, ∀ d ∈ k.walk, d.base = none) (ω : Draws ℝ) :
    ∃ r, runProgram hook invN vars costs ω = .ok r := by
  obtain ⟨cs, h1, h2⟩ := program_runs hh hg hm hk hb ω
  rw [h1]
  have hp := poolFor (θ₀ := θ₀) hg
  have hone : ∀ c k, Realises hook (poolOf invN vars) (declsOf (θ₀ := θ₀) invN vars) ω c k →
      ∃ e, List.Forall₂ (Contributes hook (poolOf invN vars) c.1) c.2 e := by
    rintro ⟨c, ss⟩ k hc
    have h3 := hc.cost
    have h4 := hc.nested
    have hs := hc.scores
    clear hc
    simp only at h3 h4 hs
    generalize k.active = act at hs
    induction hs with
    | nil => exact ⟨[], .nil⟩
    | @cons d s act ss hd _ ih =>
      obtain ⟨e, h1⟩ := ih
      obtain ⟨t, logProb, es, G, inv, n, name, rfl, ht, hl, _⟩ := hd
      exact ⟨_ :: e, .cons (score_contributes hh hp.ok hp.weights h3 h4 ht hl inv n name) h1⟩
  have hall : ∃ es, List.Forall₂ (CostContributes hook (poolOf invN vars)) cs es := by
    clear h1 hk hb hne
    generalize costs.map (fun k => k.spec (θ₀ := θ₀) invN vars) = specs at h2
    induction h2 with
    | nil => exact ⟨[], .nil⟩
    | @cons c k cs ks hc _ ih =>
      obtain ⟨es, h3⟩ := ih
      obtain ⟨e, h4⟩ := hone c k hc
      exact ⟨(c.1, e) :: es, .cons ⟨rfl, hc.cost, h4⟩ h3⟩
  obtain ⟨es, h3⟩ := hall
  have hcs : cs ≠ [] := by
    rintro rfl
    have := h2.length_eq
    simp only [List.length_nil, List.length_map] at this
    exact hne (List.length_eq_zero_iff.1 this.symm)
  obtain ⟨r, r1, _⟩ := surrogateLoss_spec hh hp.ok hp.weights hcs h3
  exact ⟨r, r1⟩

/-- `C55_unmixed_partial` applies to the program of `Verif.Props.MonteCarloProps` (two and three samples). -/
example (ω : Draws ℝ) : ∃ r : STen (AD ℝ (1 / 2 : ℝ)),
    runProgram (fun _ a => .ok a) invN [BernoulliCase.y, BernoulliCase.z] [BernoulliCase.cost] ω = .ok r :=
  C55_unmixed_partial (fun _ _ _ => rfl) BernoulliCase.good BernoulliCase.unmixed (by simp)
    (by simpa using BernoulliCase.goodCost) (by simp [BernoulliCase.cost, BernoulliCase.y, BernoulliCase.z]) ω

end

/-! ### A counterexample

With rational numbers, so that the run can be computed; `exp` is right at 0, the only argument in this run. -/

namespace MixedCase

instance : Autograd ℚ := ⟨fun x => if x = 0 then 1 else 0, id⟩
instance : ValEq ℚ := ⟨fun a b => decide (a = b), by simp, by simp +contextual [eq_comm], by simp +contextual⟩

def hook : UnwrapHook ℚ := fun _ a => .ok a
def inv (n : Nat) : ℚ := 1 / n

/-- `distr.sample((k,))` for a parameter of shape `s`. -/
def draw (s : List Nat) (k : Nat) : Ten ℚ := ⟨k :: s, fun idx => (idx.sum : ℚ)⟩

/-- The log-probability: 0 everywhere. -/
def logProb (x : STen ℚ) : Except Err (STen ℚ) :=
  match opCall hook (fun _ => 0) [.st x false] with
  | .error e => .error e
  | .ok (.st r _) => .ok r
  | .ok (.torch _) => .error .attribute

/-- `x1 ~ D`, `x2 ~ D(x1)`, `x3 ~ D(x2)` with `n1`, `n2` and `n3` samples, `add_cost(x3)`, and the surrogate
loss; the walk finds `x1`, `x2` and `x3`. -/
def chain (n1 n2 n3 : Nat) : Except Err (Except Err (STen ℚ)) :=
  match monteCarlo inv "x1" n1 [] [] (draw []) with
  | .error e => .error e
  | .ok (x1, _) =>
    match monteCarlo inv "x2" n2 [] [.st x1 true] (draw x1.ten.shape) with
    | .error e => .error e
    | .ok (x2, _) =>
      match monteCarlo inv "x3" n3 [] [.st x2 true] (draw x2.ten.shape) with
      | .error e => .error e
      | .ok (x3, _) => .ok (surrogateLoss hook [(x3, [scoreSampled hook inv logProb n1 "x1" none x1,
          scoreSampled hook inv logProb n2 "x2" none x2, scoreSampled hook inv logProb n3 "x3" none x3])])

/-- Whether sampling succeeds and `surrogate_loss` raises `ValueError`. -/
def raisesValue : Except Err (Except Err (STen ℚ)) → Bool
  | .ok (.error .value) => true
  | _ => false

/-- Whether the loss was computed, and its value. -/
def value : Except Err (Except Err (STen ℚ)) → Option ℚ
  | .ok (.ok r) => some (r.ten.get [])
  | _ => none

/-- C55 is false: with one sample of the first variable, two of the second and three of the third the loss
cannot be computed.  The plate of `x3` is lost when the plates of the cost are ordered, and then the plate is
searched in vain among those of `x1`. -/
theorem C55_refuted : raisesValue (chain 1 2 3) = true := by decide +kernel

/-- With two samples of the first variable the loss is computed. -/
example : value (chain 2 2 2) = some (3 / 2) := by decide +kernel
example : value (chain 1 1 3) = some 1 := by decide +kernel

end MixedCase
end Storch
