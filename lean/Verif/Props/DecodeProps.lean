import Verif.Lemmas.DecodeRun
import Mathlib.Data.Rat.Defs
import Mathlib.Data.List.Sort
import Mathlib.Algebra.Order.Ring.Rat

/-!
# Decoding sequences without replacement (C44), joint log-probabilities (C45), reset (C54)
-/

namespace Storch.Decode

variable {α : Type _}

/-! ### A choice of the best values exists -/

/-- One way to choose the `m` largest values: sort, earlier positions first among equal values. -/
def sortTop [LinearOrder α] (m : Nat) (l : List (WithBot α)) (_ : List α) : List Nat :=
  ((List.range l.length).insertionSort (fun i j => l.getD j ⊥ ≤ l.getD i ⊥)).take m

theorem sortTop_picks [LinearOrder α] : Picks (sortTop (α := α)) := by
  have hperm : ∀ l : List (WithBot α), ((List.range l.length).insertionSort
      (fun i j => l.getD j ⊥ ≤ l.getD i ⊥)).Perm (List.range l.length) := fun l => List.perm_insertionSort _ _
  refine ⟨?_, ?_, ?_⟩
  · intro m l j h _
    rw [sortTop, List.length_take, (hperm l).length_eq, List.length_range]
    omega
  · intro m l j _ _
    exact ((hperm l).nodup_iff.2 List.nodup_range).sublist (List.take_sublist _ _)
  · intro m l j _ _ i hi
    have := (hperm l).mem_iff.1 (List.mem_of_mem_take hi)
    exact List.mem_range.1 this

/-! ### C44 -/

section
variable [AddCommMonoid α] {k : Nat} {eos : Option Nat} {topk : Nat → List (WithBot α) → List α → List Nat}

omit [AddCommMonoid α] in
/-- C44: the decoders without replacement that can be constructed are those for at least two samples, which is what
the theorems below assume. -/
theorem C44_constructed (k : Nat) (eos : Option Nat) (biased : Bool) :
    (∃ x : Decoder α, construct (.swor k eos biased) = .ok x) ↔ 2 ≤ k := by
  rw [construct]
  split
  · simp; omega
  · simp; omega

/-- C44: whatever is decoded and whatever the noise is, the sequences are pairwise different.  Missing from the full
claim: decoding can raise instead (`C44_events_refuted`, `C44_single_refuted`), and one row of the other plates is
modelled. -/
theorem C44_different_partial (hp : Picks topk) (hk : 2 ≤ k) (vs : List (Var α × (Nat → Nat → Nat → WithBot α)))
    (hD : ∀ v ∈ vs, 2 ≤ v.1.dom) (s : St α) (hs : runSwor k eos topk vs blank = .ok s) : s.sequences.Nodup := by
  by_cases hvs : vs = []
  · subst hvs
    simp only [runSwor, Except.ok.injEq] at hs
    subst hs
    simp [St.sequences, St.width, blank]
  · have hg := runSwor_good hp hk vs hvs hD hs
    rw [St.sequences]
    refine List.Nodup.map_on ?_ List.nodup_range
    intro a ha b hb hab
    exact hg.distinct a (List.mem_range.1 ha) b (List.mem_range.1 hb) hab

/-- C44: one more variable, with `v.cells` tokens that can each take `v.dom` values, gives `min k` (number of
candidates) sequences, and each of them is the sequence that its parent index points to, followed by the new tokens. -/
theorem C44_extends_partial (hp : Picks topk) (hk : 2 ≤ k) (vs : List (Var α × (Nat → Nat → Nat → WithBot α)))
    (hD : ∀ v ∈ vs, 2 ≤ v.1.dom) (v : Var α) (noise : Nat → Nat → Nat → WithBot α) (hv : 2 ≤ v.dom)
    (s s' : St α) (hs : runSwor k eos topk vs blank = .ok s)
    (hs' : runSwor k eos topk (vs ++ [(v, noise)]) blank = .ok s') :
    s'.sequences.length = min k (s.sequences.length * v.dom ^ v.cells) ∧
    ∀ (r : Nat) (x : List Nat), s'.sequences[r]? = some x → ∃ parent y row,
      (vs ≠ [] → ∃ pi, s'.parentIdx = some pi ∧ pi.length = s'.sequences.length ∧ pi[r]? = some parent) ∧
      (vs = [] → parent = 0) ∧
      s.sequences[parent]? = some y ∧ x = y ++ row ∧ row.length = v.cells ∧ ∀ t ∈ row, t < v.dom := by
  obtain ⟨s1, h1, h2⟩ := (runSwor_append vs [(v, noise)] blank s').1 hs'
  rw [hs] at h1
  simp only [Except.ok.injEq] at h1
  subst h1
  obtain ⟨smp, h2⟩ := runSwor_one.1 h2
  have hlen : ∀ s : St α, s.sequences.length = s.width := by intro s; simp [St.sequences]
  have hget : ∀ (s : St α) (r : Nat), r < s.width → s.sequences[r]? = some (s.sequence r) := by
    intro s r hr; simp [St.sequences, hr]
  have hof : ∀ (s : St α) (r : Nat) (x : List Nat), s.sequences[r]? = some x → r < s.width ∧ x = s.sequence r := by
    intro s r x hx
    have hr : r < s.width := by
      rw [← hlen s]
      exact (List.getElem?_eq_some_iff.1 hx).1
    rw [hget s r hr] at hx
    exact ⟨hr, (Option.some.inj hx).symm⟩
  rw [hlen, hlen]
  by_cases hvs : vs = []
  · subst hvs
    simp only [runSwor, Except.ok.injEq] at hs
    subst hs
    obtain ⟨_, g2, g3, _⟩ := sampleSwor_first hp hk hv h2
    refine ⟨by rw [g2]; simp [St.width, blank], ?_⟩
    intro r x hx
    obtain ⟨hr, rfl⟩ := hof s' r x hx
    obtain ⟨row, e1, e2, e3, e4⟩ := g3 r hr
    exact ⟨0, [], row, fun h => absurd rfl h, fun _ => rfl, rfl, by rw [e4]; simp, e2, e3⟩
  · have hg := runSwor_good hp hk vs hvs hD hs
    obtain ⟨_, g2, ⟨pi, g3, g4, g5⟩, _⟩ := sampleSwor_good hp hk hv hg h2
    refine ⟨g2, ?_⟩
    intro r x hx
    obtain ⟨hr, rfl⟩ := hof s' r x hx
    have hr' : r < pi.length := by omega
    obtain ⟨e0, row, e1, e2, e3, e4⟩ := g5 r hr'
    exact ⟨pi[r], s.sequence pi[r], row, fun _ => ⟨pi, g3, g4, List.getElem?_eq_getElem hr'⟩,
      fun h => absurd h hvs, hget s _ e0, e4, e2, e3⟩

/-- C44: decoding does not raise for variables without independent dimensions that have at least two outcomes (the
end-of-sequence token being one of them), so that the two theorems above speak about every such decoding. -/
theorem C44_total_partial (hp : Picks topk) (hk : 2 ≤ k) (vs : List (Var α × (Nat → Nat → Nat → WithBot α)))
    (hv : ∀ v ∈ vs, 2 ≤ v.1.dom ∧ v.1.events = [] ∧ ∀ e, eos = some e → e < v.1.dom) :
    ∃ s, runSwor k eos topk vs blank = .ok s := by
  obtain ⟨s, hs, _⟩ := runSwor_total hp hk vs hv
  exact ⟨s, hs⟩

/-- C45: the joint log-probability of each sequence is the sum of the log-probabilities of its tokens along its own
history.  Missing from the full claim: it fails for Monte Carlo decoding (`C45_refuted`). -/
theorem C45_partial (hp : Picks topk) (hk : 2 ≤ k) (vs : List (Var α × (Nat → Nat → Nat → WithBot α)))
    (hne : vs ≠ []) (hD : ∀ v ∈ vs, 2 ≤ v.1.dom) (s : St α) (hs : runSwor k eos topk vs blank = .ok s) :
    s.joint = some (s.sequences.map (logJoint (vs.map Prod.fst) [])) := by
  obtain ⟨j, h1, h2, h3⟩ := (runSwor_good hp hk vs hne hD hs).joint
  rw [h1]
  congr 1
  apply List.ext_getElem?
  intro r
  by_cases hr : r < s.width
  · rw [h3 r hr]; simp [St.sequences, hr]
  · rw [List.getElem?_eq_none (by omega), List.getElem?_eq_none (by simp [St.sequences]; omega)]

end

/-! ### C45 for Monte Carlo decoding -/

/-- Several variables decoded by `MCDecoder`, without end-of-sequence token. -/
def runMC (k : Nat) : List (Var α × (Nat → Nat)) → St α → Except Err (St α)
  | [], s => .ok s
  | (v, draw) :: vs, s =>
    match sampleMC k none (v.dist s) (v.dist s).cond draw s with
    | (_, .error e) => .error e
    | (s', .ok _) => runMC k vs s'

/-- C45 for Monte Carlo decoding: what is kept is the log-probability of the newest token alone. -/
theorem C45_montecarlo_last [AddCommMonoid α] (k : Nat) (vs : List (Var α × (Nat → Nat))) (v : Var α) (draw : Nat → Nat)
    (s s' : St α) (hs : runMC k vs blank = .ok s) (hs' : runMC k (vs ++ [(v, draw)]) blank = .ok s') :
    s'.joint = some (((List.range (s.rowsMC k (v.dist s).cond)).map draw).zipIdx.map
      (fun e => (v.dist s).logProb ((v.dist s).row e.2) 0 e.1)) := by
  have happ : ∀ (vs : List (Var α × (Nat → Nat))) (a b c : St α), runMC k vs a = .ok b →
      runMC k (vs ++ [(v, draw)]) a = .ok c → runMC k [(v, draw)] b = .ok c := by
    intro vs
    induction vs with
    | nil => intro a b c h1 h2; simp only [runMC, Except.ok.injEq] at h1; subst h1; exact h2
    | cons w vs ih =>
      intro a b c h1 h2
      obtain ⟨w, dr⟩ := w
      simp only [List.cons_append, runMC] at h1 h2
      split at h1
      · simp at h1
      · rename_i s2 r heq
        rw [heq] at h2
        exact ih s2 b c h1 h2
  have h1 := happ vs blank s s' hs hs'
  have hfin : ∀ (vs : List (Var α × (Nat → Nat))) (a b : St α), a.finished = none → runMC k vs a = .ok b →
      b.finished = none := by
    intro vs
    induction vs with
    | nil => intro a b h1 h2; simp only [runMC, Except.ok.injEq] at h2; subst h2; exact h1
    | cons w vs ih =>
      intro a b h1 h2
      obtain ⟨w, dr⟩ := w
      simp only [runMC] at h2
      split at h2
      · simp at h2
      · rename_i s2 r heq
        refine ih s2 b ?_ h2
        simp only [sampleMC, h1, finishedOf, Mask.truth] at heq
        split at heq
        · simp at heq
        · simp only [Prod.mk.injEq] at heq
          rw [← heq.1]
  have hf := hfin vs blank s rfl hs
  simp only [runMC] at h1
  split at h1
  · simp at h1
  · rename_i s2 r heq
    simp only [Except.ok.injEq] at h1
    subst h1
    simp only [sampleMC, hf, finishedOf, Mask.truth, forceEos] at heq
    split at heq
    · simp at heq
    · simp only [Prod.mk.injEq] at heq
      rw [← heq.1]

namespace DecodeCase

/-- Two tokens, each with log-probability minus one. -/
def coin : Var ℚ := ⟨2, [], false, fun _ _ _ => -1⟩

/-- A second variable that depends on the first. -/
def second : Var ℚ := ⟨3, [], true, fun h _ t => -(h.getD 0 0 + t + 1 : Nat)⟩

/-- Some noise. -/
def noise : Nat → Nat → Nat → WithBot ℚ := fun e r t => ((((e + 2 * r + 5 * t : Nat) : ℚ) / 3 : ℚ) : WithBot ℚ)

/-- C45 is refuted for Monte Carlo decoding: after two variables, each with log-probability minus one, the joint
log-probability kept for the three sequences is minus one instead of minus two. -/
theorem C45_refuted : ∃ s : St ℚ, runMC 3 [(coin, fun r => [0, 1, 1].getD r 0), (coin, fun r => [1, 0, 1].getD r 0)] blank = .ok s ∧
    s.sequences = [[0, 1], [1, 0], [1, 1]] ∧ s.joint = some [-1, -1, -1] ∧
    s.joint ≠ some (s.sequences.map (logJoint [coin, coin] [])) := by
  refine ⟨_, rfl, by decide +kernel, by decide +kernel, by decide +kernel⟩

/-- The hypotheses of `C44_total_partial`, `C44_extends_partial`, `C44_different_partial` and of C45 are met by two variables decoded with `k = 4`: first two sequences, then four of the six
candidates. -/
example : (runSwor 4 none sortTop [(coin, noise), (second, noise)] blank).map
    (fun s : St ℚ => (s.sequences, s.parentIdx, s.joint)) =
      .ok ([[0, 2], [1, 2], [0, 1], [1, 1]], some [1, 0, 1, 0], some [-4, -5, -3, -4]) := by decide +kernel

/-- A pair of coins as one variable with one independent dimension. -/
def pair : Var ℚ := ⟨2, [2], false, fun _ _ _ => -1⟩

/-- A case for `C44_constructed`: two samples, but not one. -/
example : (∃ x : Decoder ℚ, construct (.swor 2 none false) = .ok x) ∧ ¬ ∃ x : Decoder ℚ, construct (.swor 1 none false) = .ok x :=
  ⟨(C44_constructed 2 none false).2 le_rfl, fun h => by simpa using (C44_constructed 1 none false).1 h⟩

/-- A case for `C45_montecarlo_last`: two variables, of which the second has log-probabilities -1, -3, -3; only these are
kept. -/
example : (runMC 3 [(coin, fun r => r % 2), (second, fun r => r)] blank).map (fun s : St ℚ => (s.sequences, s.joint)) =
    .ok ([[0, 0], [1, 1], [0, 2]], some [-1, -3, -3]) := by decide +kernel

/-- The hypotheses are met by a variable with an independent dimension, too. -/
example : (runSwor 3 none sortTop [(pair, noise), (second, noise)] blank).map
    (fun s : St ℚ => (s.sequences, s.parentIdx, s.joint)) =
      .ok ([[0, 0, 2], [1, 1, 2], [0, 1, 2]], some [2, 1, 0], some [-5, -6, -5]) := by decide +kernel

/-- One coin as a variable with an independent dimension of size one. -/
def wide : Var ℚ := ⟨2, [1], false, fun _ _ _ => -1⟩

/-- C44 is refuted for a first variable with one cell in an independent dimension and fewer outcomes than `k`: instead of
two sequences there is an exception, because the rows that are not used are cut off along the wrong dimension. -/
theorem C44_events_refuted : (runSwor 3 none sortTop [(wide, noise)] blank).map St.sequences =
    .error .value := by
  decide +kernel

/-- A variable with a single outcome. -/
def sure : Var ℚ := ⟨1, [], false, fun _ _ _ => 0⟩

/-- C44 is refuted for variables with a single outcome: the second one raises. -/
theorem C44_single_refuted : 
    (runSwor 3 none sortTop [(sure, noise)] blank).map St.sequences = .ok [[0]] ∧
    (runSwor 3 none sortTop [(sure, noise), (sure, noise)] blank).map St.sequences = .error .unbound := by
  decide +kernel

end DecodeCase

/-! ### C54 -/

section
variable {α : Type _}

/-- The attributes that a class does not have are never set. -/
def Untouched (x : Decoder α) : Prop :=
  match x.cls with
  | .mc _ _ => x.st.perturbed = none ∧ x.st.proposals = []
  | .importance _ _ _ => x.st.perturbed = none
  | .swor _ _ _ => x.st.proposals = []

theorem sampleMC_kept (k : Nat) (eos : Option Nat) (d : Dist α) (cond : Bool) (draw : Nat → Nat) (s : St α) :
    (sampleMC k eos d cond draw s).1.perturbed = s.perturbed ∧ (sampleMC k eos d cond draw s).1.proposals = s.proposals := by
  simp only [sampleMC]
  split
  · exact ⟨rfl, rfl⟩
  · split
    · exact ⟨rfl, rfl⟩
    · split <;> exact ⟨rfl, rfl⟩

theorem sampleSwor_kept [Add α] (k : Nat) (eos : Option Nat) (topk : Nat → List (WithBot α) → List α → List Nat) (d : Dist α)
    (noise : Nat → Nat → Nat → WithBot α) (s : St α) :
    (sampleSwor k eos topk d noise s).1.proposals = s.proposals := by
  simp only [sampleSwor]
  split
  · rfl
  · split
    · rfl
    · split <;> rfl

theorem step_kept [Add α] (topk : Nat → List (WithBot α) → List α → List Nat) (x : Decoder α) (c : Call α)
    (h : Untouched x) : Untouched (x.step topk c) ∧ (x.step topk c).cls = x.cls ∧
      (x.step topk c).plateFirst = x.plateFirst := by
  obtain ⟨cls, pf, st⟩ := x
  cases cls with
  | mc k eos =>
    cases c with
    | reset => exact ⟨h, rfl, rfl⟩
    | sample d q draw noise =>
      obtain ⟨h1, h2⟩ := sampleMC_kept k eos d d.cond draw st
      exact ⟨⟨h1.trans h.1, h2.trans h.2⟩, rfl, rfl⟩
  | importance k eos eps =>
    cases c with
    | reset => exact ⟨h, rfl, rfl⟩
    | sample d q draw noise =>
      obtain ⟨h1, h2⟩ := sampleMC_kept k eos d (d.cond || q.cond) draw { st with proposals := st.proposals ++ [q] }
      exact ⟨h1.trans h, rfl, rfl⟩
  | swor k eos biased =>
    cases c with
    | reset => exact ⟨h, rfl, rfl⟩
    | sample d q draw noise => exact ⟨(sampleSwor_kept k eos topk d noise st).trans h, rfl, rfl⟩

theorem reset_of_untouched (x : Decoder α) (h : Untouched x) :
    x.reset = Decoder.reset ⟨x.cls, x.plateFirst, blank⟩ := by
  obtain ⟨cls, pf, j, pi, vi, pl, f, sq, pe, pr⟩ := x
  cases cls with
  | mc k eos =>
    obtain ⟨h1, h2⟩ := h
    simp only at h1 h2
    subst h1 h2
    rfl
  | importance k eos eps =>
    have h1 : pe = none := h
    subst h1
    rfl
  | swor k eos biased =>
    have h1 : pr = [] := h
    subst h1
    rfl

/-- C54: after any history of calls, those that raised included, `reset` brings a decoder of each class back to the state
it had after construction. -/
theorem C54_reset_restores [Add α] (topk : Nat → List (WithBot α) → List α → List Nat) (c : Cls α) (x₀ : Decoder α)
    (h₀ : construct c = .ok x₀) (history : List (Call α)) :
    (history.foldl (fun x => x.step topk) x₀).reset = x₀ := by
  have hx : x₀ = Decoder.reset ⟨c, x₀.plateFirst, blank⟩ ∧ Untouched x₀ ∧ x₀.cls = c := by
    cases c with
    | mc k eos => simp only [construct, Except.ok.injEq] at h₀; subst h₀; exact ⟨rfl, ⟨rfl, rfl⟩, rfl⟩
    | importance k eos eps => simp only [construct, Except.ok.injEq] at h₀; subst h₀; exact ⟨rfl, rfl, rfl⟩
    | swor k eos biased =>
      simp only [construct] at h₀
      split at h₀
      · simp at h₀
      · simp only [Except.ok.injEq] at h₀; subst h₀; exact ⟨rfl, rfl, rfl⟩
  obtain ⟨hx1, hx2, hx3⟩ := hx
  have key : ∀ (history : List (Call α)) (x : Decoder α), Untouched x →
      Untouched (history.foldl (fun x => x.step topk) x) ∧ (history.foldl (fun x => x.step topk) x).cls = x.cls ∧
        (history.foldl (fun x => x.step topk) x).plateFirst = x.plateFirst := by
    intro history
    induction history with
    | nil => intro x h; exact ⟨h, rfl, rfl⟩
    | cons c cs ih =>
      intro x h
      obtain ⟨k1, k2, k3⟩ := step_kept topk x c h
      obtain ⟨i1, i2, i3⟩ := ih _ k1
      exact ⟨i1, i2.trans k2, i3.trans k3⟩
  obtain ⟨u1, u2, u3⟩ := key history x₀ hx2
  rw [reset_of_untouched _ u1, u2, u3, hx3]
  exact hx1.symm

/-- C54: so each decoding after a reset goes as on a new decoder, whatever was decoded before. -/
theorem C54_same_decoding [Add α] (topk : Nat → List (WithBot α) → List α → List Nat) (c : Cls α) (x₀ : Decoder α)
    (h₀ : construct c = .ok x₀) (history later : List (Call α)) :
    (history ++ Call.reset :: later).foldl (fun x => x.step topk) x₀ = later.foldl (fun x => x.step topk) x₀ := by
  rw [List.foldl_append, List.foldl_cons]
  show later.foldl _ (Decoder.reset _) = _
  rw [C54_reset_restores topk c x₀ h₀ history]

/-- A case for `C54_same_decoding`: decoding really changes the state that `reset` restores. -/
example : ∃ x₀ : Decoder ℚ, construct (.swor 3 none false) = .ok x₀ ∧
    (x₀.step sortTop (.sample (DecodeCase.coin.dist blank) (DecodeCase.coin.dist blank) (fun _ => 0) DecodeCase.noise)).st.seq = [[[1], [0]]] ∧
    x₀.st.seq = [] := ⟨_, rfl, by decide +kernel, rfl⟩

end

end Storch.Decode
