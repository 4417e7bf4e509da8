import Verif.Model.UnorderedMethod
import Verif.Model.RelaxRun

/-!
# Relaxed samples without replacement (storch/sampling/unordered_set.py:113-149, storch/method/unordered.py:83-100)

One `OneHotCategorical` variable with `K` outcomes, without plates and independent dimensions, decoded by a new decoder, as
in `Model/UnorderedMethod.lean`.
-/

namespace Storch
open Gumbel

section
variable {E : Type _} {θ₀ : E} {K : Nat}

/-- The decoded values of a one-hot variable (seq.py:597-611): `support.gather(...)` takes rows of the support, the one-hot vectors of
the outcomes `tokens`. -/
def oneHotRows (K : Nat) (tokens : List Nat) : Ten (AD E θ₀) :=
  ⟨[tokens.length, K], fun idx => AD.const (if idx.getD 1 0 = tokens.getD (idx.headD 0) 0 then 1 else 0)⟩

/-- The part of `GumbelSoftmaxWOR.sample` after decoding (unordered_set.py:137-149, storch.py:269-305): conditional samples with
the plate of the hard samples; `v` are the random numbers.  The weights are written into the plate afterwards
(method.py:134-136). -/
noncomputable def gumbelWorTensor (name : String) (am : (Fin K → ℝ) → Fin K) (eps temperature : ℝ) (prob : E → Fin K → ℝ)
    (tokens : List Nat) (weights : List ℝ) (v : List Nat → Fin K → ℝ) : Except Err (STen (AD E θ₀)) := do
  let plate := Plate.mk name tokens.length (.storch (Ten.vec (weights.map AD.const)) [name]) .plain []
  let hard ← STen.mk' (oneHotRows K tokens) [plate]
  let relaxed := mapRows (fun pos row i θ =>
    conditionalRow am eps temperature (fun i => (row i).val) (prob θ) (v pos) i) hard
  STen.mk' relaxed.ten hard.plates

/-- `x = UnorderedSetGumbelSoftmax(name, k, temperature)(OneHotCategorical(probs=prob θ))` (unordered.py:83-100,
unordered_set.py:29-149, swor.py:21-27).  `num_int_points` and `a` are the default values of `UnorderedSet` in the code; here they are
`N` and `a`.  The temperature stays what it was: `min_temperature` and `annealing_rate` are not used (unordered_set.py:114-124).
torch's log-probabilities are the logarithms of the clamped probabilities. -/
noncomputable def gumbelWorSample (name : String) (a : ℝ) (N : Nat) (topk : Nat → List (WithBot ℝ) → List ℝ → List Nat)
    (am : (Fin K → ℝ) → Fin K) (eps temperature : ℝ) (k : Nat) (prob : E → Fin K → ℝ) (noise : Nat → Nat → Nat → WithBot ℝ)
    (v : List Nat → Fin K → ℝ) : Except Err (STen (AD E θ₀)) := do
  if k < 2 then throw .value
  let s ← Decode.runSwor k none topk [(⟨K, [], false, fun _ _ t =>
    if h : t < K then Real.log (clampProbs eps (prob θ₀ ⟨t, h⟩)) else 0⟩, noise)] Decode.blank
  let p ← match s.plates with
    | [] => .error .attribute
    | p :: _ => .ok p
  let weights ← match Decode.weightUnordered a N p with
    | .error e => .error e
    | .ok none => .error .value
    | .ok (some w) => .ok w
  gumbelWorTensor name am eps temperature prob (s.sequences.map (fun ts => ts.headD 0)) weights v

/-- A cost that is computed for each sample from its row: it has the plates of the sample (inference.py:86-102). -/
def perRow (g : E → (Fin K → ℝ) → ℝ) (x : STen (AD E θ₀)) : STen (AD E θ₀) :=
  ⟨⟨x.ten.shape.take x.plateDims, fun idx => fun θ => g θ (fun i => x.ten.get (idx ++ [i.val]) θ)⟩, x.plates, x.plateDims⟩

/-- The program: sample, `add_cost(f(x))` and `surrogate_loss()` (inference.py:86-206).  `UnorderedSetGumbelSoftmax` has no
estimator of its own, that of `Method` returns nothing (method.py:200-220); `SeqMethod.is_pathwise`
(multi_sample_reinforce.py:10-29) is asked first. -/
noncomputable def gumbelWorLoss (hook : UnwrapHook (AD E θ₀)) (name : String) (a : ℝ) (N : Nat)
    (topk : Nat → List (WithBot ℝ) → List ℝ → List Nat) (am : (Fin K → ℝ) → Fin K) (eps temperature : ℝ) (k : Nat)
    (prob : E → Fin K → ℝ) (noise : Nat → Nat → Nat → WithBot ℝ) (v : List Nat → Fin K → ℝ) (f : E → (Fin K → ℝ) → ℝ) :
    Except Err (STen (AD E θ₀)) := do
  let x ← gumbelWorSample name a N topk am eps temperature k prob noise v
  let pathwise ← seqPathwise name [(name, 0)] [(name, 0)]
  surrogateLoss hook [(perRow f x, [⟨x, pathwise, fun _ _ => .ok (none, none)⟩])]

end

end Storch
