import Verif.Model.Entmax
import Verif.Lemmas.EntmaxLemmas
import Verif.Lemmas.GumbelRunLemmas
import Verif.Props.RelaxBiasProps

/-!
# C95: samples of `GumbelEntmax` and `GumbelSparseMax`
-/

namespace Storch
open Gumbel Entmax MeasureTheory

/-- What the documentation of the package `entmax` promises: the functions give the maximiser of the expected score plus
the Tsallis entropy, `entmax15` for `α = 1.5`, `sparsemax` for `α = 2` and `entmax_bisect` for every `α > 1`. -/
structure EntmaxLib.Keeps (lib : EntmaxLib) : Prop where
  entmax15 : ∀ d x, 0 < d → IsEntmax (3 / 2) x (lib.entmax15 d x)
  sparsemax : ∀ d x, 0 < d → IsEntmax 2 x (lib.sparsemax d x)
  bisect : ∀ d x α, 0 < d → 1 < α → IsEntmax α x (lib.bisect d x α)

/-- The exponent a user asks for: with `adaptive` a number above one for every value of the learned parameter. -/
noncomputable def EntmaxArgs.exponent (a : EntmaxArgs) : ℝ :=
  if a.adaptive then 1 + Real.log (1 + Real.exp (a.alpha - 1)) else a.alpha

/-- The arguments make sense. -/
structure EntmaxArgs.Good (a : EntmaxArgs) : Prop where
  alpha : a.adaptive = true ∨ 1 < a.alpha
  temp : 0 < a.temperature

theorem EntmaxArgs.Good.exponent_gt {a : EntmaxArgs} (h : a.Good) : 1 < a.exponent := by
  rw [EntmaxArgs.exponent]
  split
  · have : 0 < Real.log (1 + Real.exp (a.alpha - 1)) := Real.log_pos (by have := Real.exp_pos (a.alpha - 1); linarith)
    linarith
  · rcases h.alpha with h' | h'
    · contradiction
    · exact h'

theorem choose_isEntmax {lib : EntmaxLib} (hl : lib.Keeps) {a : EntmaxArgs} (ha : a.Good) {d : Nat} (hd : 0 < d)
    (x : Fin d → ℝ) : IsEntmax a.exponent x (a.choose lib d x) := by
  have h1 := ha.exponent_gt
  rw [EntmaxArgs.choose]
  split_ifs with c1 c2 c3
  · have : a.exponent = 3 / 2 := by rw [EntmaxArgs.exponent, c1.1, c1.2]; simp
    rw [this]
    exact hl.entmax15 d x hd
  · have : a.exponent = 2 := by rw [EntmaxArgs.exponent, c2.1, c2.2]; simp
    rw [this]
    exact hl.sparsemax d x hd
  · have : softplus (a.alpha - 1) + 1 = a.exponent := by rw [EntmaxArgs.exponent, if_pos c3, softplus, add_comm]
    rw [this]
    exact hl.bisect d x _ hd h1
  · have : a.alpha = a.exponent := by rw [EntmaxArgs.exponent, if_neg c3]
    rw [this]
    exact hl.bisect d x _ hd h1

/-- Sampling with `MonteCarlo` without parents, for every shape. -/
theorem monteCarlo_any {inv : Nat → ℝ} (name : String) {n : Nat} (hn : 1 ≤ n) (R : Nat → Ten ℝ) (q : Ten ℝ) {ev : List Nat}
    (hR : (R n).shape = n :: ev) :
    ∃ t, monteCarlo inv name n [] [.torch q] R = .ok (t, mcPlate inv name n []) ∧ t.WF ∧
      t.plates = [mcPlate inv name n []] ∧ t.eventShape = ev ∧
      ∀ k, k < n → ∀ e, t.ten.get (at1 n k ++ e) = (R n).get (k :: e) := by
  have hf : ([mcPlate inv name n []].filter (fun p => decide (1 < p.n))) = if 1 < n then [mcPlate inv name n []] else [] := by
    by_cases h : 1 < n <;> simp [h, mcPlate, Plate.n]
  by_cases h1 : n = 1
  · subst h1
    have hsq : (squeeze0 (R 1)).shape = ev := by simp [squeeze0, hR]
    obtain ⟨t, a1, a2, a3, a4, a5⟩ := checkPlates_ok_of (R := [mcPlate inv name 1 []]) (by simp)
      (by intro p hp; rw [List.mem_singleton.1 hp]; exact hn) (squeeze0 (R 1)) ev (by rw [hf, hsq]; rfl)
    refine ⟨t, ?_, a4, a3, a5, ?_⟩
    · rw [monteCarlo]
      simp only [methodPlates, List.any_nil, Bool.false_eq_true, if_false, hR] at a1 ⊢
      simp only [one_ne_zero, if_false, if_true]
      rw [a1]
    · intro k hk e
      have : k = 0 := by omega
      subst this
      rw [a2]
      simp [squeeze0, hR, at1]
  · obtain ⟨t, a1, a2, a3, a4, a5⟩ := checkPlates_ok_of (R := [mcPlate inv name n []]) (by simp)
      (by intro p hp; rw [List.mem_singleton.1 hp]; exact hn) (R n) ev
      (by rw [hf, if_pos (by omega), hR]; rfl)
    refine ⟨t, ?_, a4, a3, a5, ?_⟩
    · rw [monteCarlo]
      simp only [methodPlates, List.any_nil, Bool.false_eq_true, if_false, hR] at a1 ⊢
      rw [if_neg (show n ≠ 0 by omega), if_neg h1, a1]
    · intro k hk e
      rw [a2, at1, if_pos (by omega)]
      rfl

theorem alongLast_get (f : (d : Nat) → (Fin d → ℝ) → Fin d → ℝ) {t : Ten ℝ} {b : List Nat} {K : Nat} (ht : t.shape = b ++ [K])
    (e : List Nat) (i : Fin K) : (alongLast f t).get (e ++ [i.val]) = f K (fun j => t.get (e ++ [j.val])) i := by
  have hl : t.shape.getLastD 0 = K := by rw [ht]; simp
  have hi : (e ++ [i.val]).getLastD 0 = i.val := by simp
  have hdl : (e ++ [i.val]).dropLast = e := by simp
  obtain ⟨s, g⟩ := t
  dsimp only at hl ht ⊢
  unfold alongLast
  dsimp only
  simp only [hi, hdl]
  generalize s.getLastD 0 = d at hl
  subst hl
  rw [dif_pos i.isLt]

/-- The vector along the last dimension in the row `e` (the number of the sample first) of a sample. -/
theorem sample_row {lib : EntmaxLib} (hl : lib.Keeps) {a : EntmaxArgs} (ha : a.Good) (kind : GumbelKind) (eps : ℝ)
    {probs : Ten ℝ} (u : List Nat → ℝ) (n : Nat) {b : List Nat} {K : Nat} (hK : 0 < K) (hs : n :: probs.shape = b ++ [K])
    (e : List Nat) :
    IsEntmax a.exponent
      (fun i : Fin K => (logitOf kind eps (probs.get (e ++ [i.val]).tail) + -Real.log (-Real.log (u (e ++ [i.val])))) / a.temperature)
      (fun i : Fin K => (sampleGumbelEntmax lib a kind eps probs u n).get (e ++ [i.val])) := by
  have h : (fun i : Fin K => (sampleGumbelEntmax lib a kind eps probs u n).get (e ++ [i.val])) = a.choose lib K
      (fun i : Fin K => (logitOf kind eps (probs.get (e ++ [i.val]).tail) + -Real.log (-Real.log (u (e ++ [i.val])))) / a.temperature) := by
    funext i
    rw [sampleGumbelEntmax, alongLast_get (b := b) (K := K) _ (by simpa [rsampleGumbel, Ten.map] using hs)]
    rfl
  rw [h]
  exact choose_isEntmax hl ha hK _

/-- C95 for one-hot categorical variables: `x = GumbelEntmax(name, n_samples=n, …)(OneHotCategorical(p))` for a batch of
any shape.  Sampling gives a tensor with one plate and the shape of the distribution.  The vector of every sample and every
batch position is a vector of probabilities; an outcome with a larger Gumbel variable has a larger probability unless that is
zero; the largest has a positive probability; and the vector is the one-hot vector of an outcome exactly when its Gumbel
variable is larger than the others by at least the temperature over `α - 1`.  The vector is the entmax, with the exponent
that the user asked for, of the Gumbel variables over the temperature. -/
theorem C95_rows_partial {lib : EntmaxLib} (hl : lib.Keeps) {a : EntmaxArgs} (ha : a.Good) {probs : Ten ℝ} {B : List Nat} {K : Nat}
    (hK : 0 < K) (hB : probs.shape = B ++ [K]) {eps : ℝ} (hp : ∀ idx, eps ≤ probs.get idx ∧ probs.get idx ≤ 1 - eps)
    (u : List Nat → ℝ) (name : String) {n : Nat} (hn : 1 ≤ n) :
    ∃ t, gumbelEntmax lib a .oneHot eps probs u name n = .ok (t, mcPlate (fun k => 1 / (k : ℝ)) name n []) ∧ t.WF ∧
      t.plates = [mcPlate (fun k => 1 / (k : ℝ)) name n []] ∧ t.eventShape = B ++ [K] ∧
      ∀ k, k < n → ∀ b : List Nat,
        let row := fun i : Fin K => t.ten.get (at1 n k ++ b ++ [i.val])
        let g := fun i : Fin K => Real.log (probs.get (b ++ [i.val])) + -Real.log (-Real.log (u (k :: b ++ [i.val])))
        (∀ i, 0 ≤ row i) ∧ ∑ i, row i = 1 ∧ (∀ i j, g i ≤ g j → row i ≤ row j) ∧
          (∀ i j, g i < g j → row j ≠ 0 → row i < row j) ∧ (∀ j, (∀ i, g i ≤ g j) → 0 < row j) ∧
          (∀ j, (row = fun i => if i = j then 1 else 0) ↔
            ∀ i, i ≠ j → g i + a.temperature / (a.exponent - 1) ≤ g j) ∧
          IsEntmax a.exponent (fun i => g i / a.temperature) row := by
  obtain ⟨t, t1, t2, t3, t4, t5⟩ := monteCarlo_any (inv := fun k => 1 / (k : ℝ)) name hn
    (sampleGumbelEntmax lib a .oneHot eps probs u) probs (ev := probs.shape) rfl
  refine ⟨t, t1, t2, t3, t4.trans hB, fun k hk b => ?_⟩
  dsimp only
  have hrow : (fun i : Fin K => t.ten.get (at1 n k ++ b ++ [i.val])) =
      fun i : Fin K => (sampleGumbelEntmax lib a .oneHot eps probs u n).get ((k :: b) ++ [i.val]) := by
    funext i
    rw [List.append_assoc, t5 k hk]
    rfl
  have hE := sample_row hl ha .oneHot eps u n (b := n :: B) hK (by rw [hB]; rfl) (k :: b)
  rw [← hrow] at hE
  have h1 := ha.exponent_gt
  have hT := ha.temp
  set row := fun i : Fin K => t.ten.get (at1 n k ++ b ++ [i.val]) with hrowd
  have hlog : ∀ idx, logitOf .oneHot eps (probs.get idx) = Real.log (probs.get idx) := by
    intro idx
    rw [logitOf, clampProbs, max_eq_left (hp idx).1, min_eq_left (hp idx).2]
  simp only [List.cons_append, List.tail_cons, hlog] at hE
  refine ⟨hE.1.1, hE.1.2, fun i j h => hE.le h1 ?_, fun i j h => hE.lt h1 ?_, fun j h => hE.max_pos h1 ?_, fun j => ?_, hE⟩
  · exact div_le_div_of_nonneg_right h hT.le
  · exact div_lt_div_of_pos_right h hT
  · exact fun i => div_le_div_of_nonneg_right (h i) hT.le
  · rw [hE.oneHot_iff h1 j]
    refine forall_congr' (fun i => forall_congr' (fun _ => ?_))
    have hne : a.exponent - 1 ≠ 0 := by linarith
    rw [le_div_iff₀ hT, add_mul, div_mul_cancel₀ _ hT.ne', one_div_mul_eq_div]
    rfl

/-- C95 for `GumbelSparseMax`: the vector of every sample is the vector of probabilities that is closest to the Gumbel
variables over the temperature. -/
theorem C95_sparsemax {lib : EntmaxLib} (hl : lib.Keeps) (straight : Bool) {temp : ℝ} (hT : 0 < temp) {probs : Ten ℝ}
    {B : List Nat} {K : Nat} (hK : 0 < K) (hB : probs.shape = B ++ [K]) {eps : ℝ}
    (hp : ∀ idx, eps ≤ probs.get idx ∧ probs.get idx ≤ 1 - eps) (u : List Nat → ℝ) (name : String) {n : Nat} (hn : 1 ≤ n) :
    ∃ t, gumbelEntmax lib (sparseMaxArgs straight temp) .oneHot eps probs u name n =
        .ok (t, mcPlate (fun k => 1 / (k : ℝ)) name n []) ∧
      ∀ k, k < n → ∀ b : List Nat,
        let row := fun i : Fin K => t.ten.get (at1 n k ++ b ++ [i.val])
        let g := fun i : Fin K => Real.log (probs.get (b ++ [i.val])) + -Real.log (-Real.log (u (k :: b ++ [i.val])))
        (∀ i, 0 ≤ row i) ∧ ∑ i, row i = 1 ∧ ∀ q : Fin K → ℝ, (∀ i, 0 ≤ q i) → ∑ i, q i = 1 →
          ∑ i, (row i - g i / temp) ^ 2 ≤ ∑ i, (q i - g i / temp) ^ 2 := by
  obtain ⟨t, t1, -, -, -, t5⟩ := C95_rows_partial hl (a := sparseMaxArgs straight temp)
    ⟨Or.inr (by simp [sparseMaxArgs]), hT⟩ hK hB hp u name hn
  refine ⟨t, t1, fun k hk b => ?_⟩
  dsimp only
  obtain ⟨h1, h2, -, -, -, -, h3⟩ := t5 k hk b
  refine ⟨h1, h2, fun q q1 q2 => ?_⟩
  have h4 := h3.2 q ⟨q1, q2⟩
  have he : (sparseMaxArgs straight temp).exponent = 2 := by simp [EntmaxArgs.exponent, sparseMaxArgs]
  have ht : (sparseMaxArgs straight temp).temperature = temp := rfl
  rw [he, ht] at h4
  have hobj : ∀ (x v : Fin K → ℝ), ∑ i, v i = 1 →
      objective 2 x v = 1 / 2 + 1 / 2 * ∑ i, x i ^ 2 - 1 / 2 * ∑ i, (v i - x i) ^ 2 := by
    intro x v hv
    have e : ∑ i, (v i - x i) ^ 2 = ∑ i, v i ^ (2 : ℝ) - 2 * ∑ i, v i * x i + ∑ i, x i ^ 2 := by
      rw [Finset.mul_sum, ← Finset.sum_sub_distrib, ← Finset.sum_add_distrib]
      refine Finset.sum_congr rfl (fun i _ => ?_)
      rw [Real.rpow_two]
      ring
    rw [objective, Finset.sum_sub_distrib, hv, e]
    ring
  rw [hobj _ _ h2, hobj _ _ q2] at h4
  linarith

/-- The random numbers of `n` samples of `m` variables, by their index. -/
noncomputable def entNoise {n m K : Nat} (w : Fin n → Fin m → Fin K → ℝ) (idx : List Nat) : ℝ :=
  if h : idx.getD 2 0 < K then drawsOf w (idx.headD 0) (idx.getD 1 0) ⟨idx.getD 2 0, h⟩ else 1 / 2

/-- The probabilities of `m` variables with `K` outcomes. -/
noncomputable def entProbs {m K : Nat} (p : Fin m → Fin K → ℝ) : Ten ℝ :=
  ⟨[m, K], fun idx => if h : idx.headD 0 < m ∧ idx.getD 1 0 < K then p ⟨idx.headD 0, h.1⟩ ⟨idx.getD 1 0, h.2⟩ else 1 / 2⟩

/-- C95, the law: with independent uniform random numbers the outcomes with the largest entries, of all samples and all
variables, are independent and have the probabilities of the distribution; however equal maxima are told apart. -/
theorem C95_law {lib : EntmaxLib} (hl : lib.Keeps) {a : EntmaxArgs} (ha : a.Good) {m K : Nat} (hK : 0 < K)
    {p : Fin m → Fin K → ℝ} {eps : ℝ} (h0 : 0 < eps) (h2 : eps ≤ 1 / 2) (hp : ∀ r i, eps ≤ p r i ∧ p r i ≤ 1 - eps)
    (hsum : ∀ r, ∑ i, p r i = 1) {am : (Fin K → ℝ) → Fin K} (ham : ∀ (s : Fin K → ℝ) i, s i ≤ s (am s)) (name : String) {n : Nat}
    (hn : 1 ≤ n) (J : Fin n → Fin m → Fin K) :
    ∃ t : (Fin n → Fin m → Fin K → ℝ) → STen ℝ,
      (∀ w, gumbelEntmax lib a .oneHot eps (entProbs p) (entNoise w) name n =
        .ok (t w, mcPlate (fun k => 1 / (k : ℝ)) name n [])) ∧
      (Measure.pi fun _ : Fin n => rows m K)
        {w | ∀ k r, am (fun i : Fin K => (t w).ten.get (at1 n k.val ++ [r.val, i.val])) = J k r} =
        ENNReal.ofReal (∏ k, ∏ r, p r (J k r)) := by
  have hpos : ∀ r i, 0 < p r i := fun r i => lt_of_lt_of_le h0 (hp r i).1
  have hP : ∀ idx, eps ≤ (entProbs p).get idx ∧ (entProbs p).get idx ≤ 1 - eps := by
    intro idx
    unfold entProbs
    dsimp only
    split
    · exact hp _ _
    · constructor <;> linarith
  choose t t1 t2 t3 t4 t5 using fun w : Fin n → Fin m → Fin K → ℝ =>
    C95_rows_partial hl ha (B := [m]) hK (probs := entProbs p) rfl hP (entNoise w) name hn
  refine ⟨t, t1, ?_⟩
  have hgum : ∀ (w : Fin n → Fin m → Fin K → ℝ) (k : Fin n) (r : Fin m) (i : Fin K),
      Real.log ((entProbs p).get ([r.val] ++ [i.val])) + -Real.log (-Real.log (entNoise w (k.val :: [r.val] ++ [i.val]))) =
        gum (p r) (w k r) i := by
    intro w k r i
    have e1 : (entProbs p).get ([r.val] ++ [i.val]) = p r i := by
      unfold entProbs
      simp [r.isLt, i.isLt]
    have e2 : entNoise w (k.val :: [r.val] ++ [i.val]) = w k r i := by
      unfold entNoise
      simp [i.isLt, drawsOf_fin, extRows_fin]
    rw [e1, e2, gum]
  have hkey : ∀ (w : Fin n → Fin m → Fin K → ℝ) (k : Fin n) (r : Fin m) (j : Fin K), (∀ i, w k r i ∈ Set.Ioo (0 : ℝ) 1) →
      w k r ∈ First (p r) Finset.univ j →
      am (fun i : Fin K => (t w).ten.get (at1 n k.val ++ [r.val, i.val])) = j := by
    intro w k r j hu hj
    obtain ⟨-, -, -, c4, c5, -, -⟩ := t5 w k.val k.isLt [r.val]
    simp only [hgum] at c4 c5
    simp only [List.append_assoc, List.singleton_append] at c4 c5
    by_contra hne
    have hlt : ∀ i, i ≠ j → gum (p r) (w k r) i < gum (p r) (w k r) j := fun i hi =>
      gum_lt (hpos r) hu (hj i (Finset.mem_univ _) hi)
    have hjp := c5 j (fun i => by
      by_cases hi : i = j
      · rw [hi]
      · exact (hlt i hi).le)
    have hm := ham (fun i : Fin K => (t w).ten.get (at1 n k.val ++ [r.val, i.val])) j
    exact absurd hm (not_le.2 (c4 _ _ (hlt _ hne) hjp.ne'))
  have hset : {w | ∀ k r, am (fun i : Fin K => (t w).ten.get (at1 n k.val ++ [r.val, i.val])) = J k r}
      =ᵐ[Measure.pi fun _ : Fin n => rows m K] Set.univ.pi (fun k => Firsts p (J k)) := by
    have hae : ∀ᵐ w ∂(Measure.pi fun _ : Fin n => rows m K), ∀ k,
        (∀ r i, w k r i ∈ Set.Ioo (0 : ℝ) 1) ∧ ∃ j, w k ∈ Firsts p j := by
      rw [ae_all_iff]
      intro k
      exact (measurePreserving_eval (fun _ : Fin n => rows m K) k).quasiMeasurePreserving.ae (ae_Firsts hpos hK)
    filter_upwards [hae] with w hw
    refine propext ⟨fun h k _ => ?_, fun h k r => hkey w k r _ ((hw k).1 r) (h k (Set.mem_univ _) r (Set.mem_univ _))⟩
    obtain ⟨hu, j, hj⟩ := hw k
    have : j = J k := funext fun r => (hkey w k r _ (hu r) (hj r (Set.mem_univ _))).symm.trans (h k r)
    change w k ∈ Firsts p (J k)
    rw [← this]
    exact hj
  rw [measure_congr hset, Measure.pi_pi, ENNReal.ofReal_prod_of_nonneg
    (fun k _ => Finset.prod_nonneg fun r _ => (hpos r _).le)]
  refine Finset.prod_congr rfl (fun k _ => ?_)
  rw [rows, Firsts, Measure.pi_pi, ENNReal.ofReal_prod_of_nonneg (fun r _ => (hpos r _).le)]
  refine Finset.prod_congr rfl (fun r _ => ?_)
  rw [measure_First (p r) (hpos r) Finset.univ (J k r) (Finset.mem_univ _), hsum r, div_one]

/-- C95 fails for Bernoulli variables (examples/vae/bernoulli_vae.py:29-34): the functions of `entmax` run along the last
dimension.  For a vector of variables that makes the values of different variables compete: they sum to one in every sample,
so no two of them are ever above a half.  For a single variable the last dimension is that of the samples: the values of
the samples sum to one, and one sample is always equal to one. -/
theorem C95_bernoulli_refuted {lib : EntmaxLib} (hl : lib.Keeps) {a : EntmaxArgs} (ha : a.Good) (eps : ℝ) (probs : Ten ℝ)
    (u : List Nat → ℝ) (name : String) {n : Nat} (hn : 1 ≤ n) :
    ∃ t, gumbelEntmax lib a .bernoulli eps probs u name n = .ok (t, mcPlate (fun k => 1 / (k : ℝ)) name n []) ∧
      (∀ B K, 0 < K → probs.shape = B ++ [K] → ∀ k, k < n → ∀ b : List Nat,
        ∑ i : Fin K, t.ten.get (at1 n k ++ b ++ [i.val]) = 1 ∧
        ∀ i j : Fin K, i ≠ j →
          ¬ (1 / 2 < t.ten.get (at1 n k ++ b ++ [i.val]) ∧ 1 / 2 < t.ten.get (at1 n k ++ b ++ [j.val]))) ∧
      (probs.shape = [] → ∑ k : Fin n, t.ten.get (at1 n k.val) = 1) ∧
      (probs.shape = [] → n = 1 → t.ten.get [] = 1) := by
  obtain ⟨t, t1, t2, t3, t4, t5⟩ := monteCarlo_any (inv := fun k => 1 / (k : ℝ)) name hn
    (sampleGumbelEntmax lib a .bernoulli eps probs u) probs (ev := probs.shape) rfl
  have hone : probs.shape = [] → ∑ k : Fin n, t.ten.get (at1 n k.val) = 1 := by
    intro hs
    have hE := sample_row hl ha .bernoulli eps u n (b := []) (K := n) (by omega) (by rw [hs]; rfl) []
    rw [← hE.1.2]
    refine Finset.sum_congr rfl (fun k _ => ?_)
    have := t5 k.val k.isLt []
    rw [List.append_nil] at this
    rw [this]
    rfl
  refine ⟨t, t1, fun B K hK hB k hk b => ?_, hone, fun hs h1 => ?_⟩
  · have hE := sample_row hl ha .bernoulli eps u n (b := n :: B) hK (by rw [hB]; rfl) (k :: b)
    have hrow : (fun i : Fin K => t.ten.get (at1 n k ++ b ++ [i.val])) =
        fun i : Fin K => (sampleGumbelEntmax lib a .bernoulli eps probs u n).get ((k :: b) ++ [i.val]) := by
      funext i
      rw [List.append_assoc, t5 k hk]
      rfl
    rw [← hrow] at hE
    refine ⟨hE.1.2, fun i j hij ⟨hi, hj⟩ => ?_⟩
    have h2 : ∑ x ∈ ({i, j} : Finset (Fin K)), t.ten.get (at1 n k ++ b ++ [x.val]) ≤ 1 := by
      rw [← hE.1.2]
      exact Finset.sum_le_sum_of_subset_of_nonneg (Finset.subset_univ _) (fun x _ _ => hE.1.1 x)
    rw [Finset.sum_pair hij] at h2
    linarith
  · subst h1
    have := hone hs
    simpa [at1] using this

/-- `straight_through` has no effect: for every way of making the method there are random numbers for which the sample of a
fair coin is no one-hot vector. -/
theorem C95_straight_refuted {lib : EntmaxLib} (hl : lib.Keeps) {a : EntmaxArgs} (ha : a.Good) (name : String) :
    ∃ u : List Nat → ℝ, (∀ idx, u idx ∈ Set.Ioo (0 : ℝ) 1) ∧
      ∃ t, gumbelEntmax lib { a with straightThrough := true } .oneHot (1 / 4) ⟨[2], fun _ => 1 / 2⟩ u name 1 =
          .ok (t, mcPlate (fun k => 1 / (k : ℝ)) name 1 []) ∧
        ∀ j : Fin 2, (fun i : Fin 2 => t.ten.get [i.val]) ≠ fun i => if i = j then 1 else 0 := by
  refine ⟨fun _ => 1 / 2, fun _ => ⟨by norm_num, by norm_num⟩, ?_⟩
  have ha' : EntmaxArgs.Good { a with straightThrough := true } := ⟨ha.alpha, ha.temp⟩
  obtain ⟨t, t1, -, -, -, t5⟩ := C95_rows_partial hl ha' (probs := ⟨[2], fun _ => 1 / 2⟩) (B := []) (K := 2) (by norm_num)
    rfl (eps := 1 / 4) (fun _ => by constructor <;> norm_num) (fun _ => 1 / 2) name (n := 1) (Nat.le_refl 1)
  refine ⟨t, t1, fun j hj => ?_⟩
  obtain ⟨-, -, -, -, -, c6, -⟩ := t5 0 (by norm_num) []
  have h := (c6 j).1 hj
  have hx := ha'.exponent_gt
  have hd : 0 < a.temperature / (EntmaxArgs.exponent { a with straightThrough := true } - 1) :=
    div_pos ha.temp (by linarith)
  have h3 : ∃ i : Fin 2, i ≠ j := ⟨j + 1, by fin_cases j <;> decide⟩
  obtain ⟨i, hi⟩ := h3
  have := h i hi
  dsimp only at this
  linarith

/-- The promises of the package can be kept: every vector has exactly one entmax. -/
theorem entmax_keepable {d : Nat} (hd : 0 < d) {α : ℝ} (hα : 1 < α) (x : Fin d → ℝ) : ∃! q, IsEntmax α x q :=
  existsUnique_entmax hα hd x

namespace EntmaxCase

/-- A package that keeps the promises. -/
noncomputable def lib : EntmaxLib where
  entmax15 d x := if h : 0 < d then (entmax_keepable h (show (1 : ℝ) < 3 / 2 by norm_num) x).choose else fun _ => 0
  sparsemax d x := if h : 0 < d then (entmax_keepable h (show (1 : ℝ) < 2 by norm_num) x).choose else fun _ => 0
  bisect d x α := if h : 0 < d ∧ 1 < α then (entmax_keepable h.1 h.2 x).choose else fun _ => 0

theorem lib_keeps : lib.Keeps where
  entmax15 d x h := by
    simp only [lib, dif_pos h]
    exact (entmax_keepable h (show (1 : ℝ) < 3 / 2 by norm_num) x).choose_spec.1
  sparsemax d x h := by
    simp only [lib, dif_pos h]
    exact (entmax_keepable h (show (1 : ℝ) < 2 by norm_num) x).choose_spec.1
  bisect d x α h h' := by
    simp only [lib, dif_pos (And.intro h h')]
    exact (entmax_keepable h h' x).choose_spec.1

/-- `GumbelSparseMax` and the adaptive `GumbelEntmax` with a learned parameter below one. -/
theorem good_sparse : (sparseMaxArgs false (1 / 2)).Good := ⟨Or.inr (by simp [sparseMaxArgs]), by norm_num [sparseMaxArgs]⟩

theorem good_adaptive : EntmaxArgs.Good { alpha := -3, adaptive := true } := ⟨Or.inl rfl, by norm_num⟩

/-- Three samples of two variables with three outcomes with `GumbelSparseMax`. -/
example (u : List Nat → ℝ) : ∃ t, gumbelEntmax lib (sparseMaxArgs false (1 / 2)) .oneHot (1 / 10) ⟨[2, 3], fun _ => 1 / 3⟩ u "z" 3 =
    .ok (t, mcPlate (fun k => 1 / (k : ℝ)) "z" 3 []) ∧ ∑ i : Fin 3, t.ten.get ([2, 1] ++ [i.val]) = 1 := by
  obtain ⟨t, t1, -, -, -, t5⟩ := C95_rows_partial lib_keeps good_sparse (probs := ⟨[2, 3], fun _ => 1 / 3⟩) (B := [2]) (K := 3)
    (by norm_num) rfl (eps := 1 / 10) (fun _ => by constructor <;> norm_num) u "z" (n := 3) (by norm_num)
  exact ⟨t, t1, (t5 2 (by norm_num) [1]).2.1⟩

/-- The sample closest to the Gumbel variables. -/
example (u : List Nat → ℝ) := C95_sparsemax lib_keeps true (temp := 1 / 2) (by norm_num) (probs := ⟨[2, 3], fun _ => 1 / 3⟩) (B := [2])
  (K := 3) (by norm_num) rfl (eps := 1 / 10) (fun _ => by constructor <;> norm_num) u "z" (n := 3) (by norm_num)

/-- The hypotheses of the law: two variables with probabilities 1/4, 3/4 and 1/2, 1/2, four samples, a learned exponent. -/
example (J : Fin 4 → Fin 2 → Fin 2) {am : (Fin 2 → ℝ) → Fin 2} (ham : ∀ (s : Fin 2 → ℝ) i, s i ≤ s (am s)) :=
  C95_law lib_keeps good_adaptive (m := 2) (K := 2) (by norm_num) (p := ![![1 / 4, 3 / 4], ![1 / 2, 1 / 2]]) (eps := 1 / 8)
    (by norm_num) (by norm_num) (by intro r i; fin_cases r <;> fin_cases i <;> norm_num)
    (by intro r; fin_cases r <;> norm_num [Fin.sum_univ_two]) ham "z" (n := 4) (by norm_num) J

/-- One sample of a Bernoulli variable is always one. -/
example (u : List Nat → ℝ) : ∃ t, gumbelEntmax lib {} .bernoulli 0 ⟨[], fun _ => 1 / 100⟩ u "z" 1 =
    .ok (t, mcPlate (fun k => 1 / (k : ℝ)) "z" 1 []) ∧ t.ten.get [] = 1 := by
  obtain ⟨t, t1, -, -, t4⟩ := C95_bernoulli_refuted lib_keeps (a := {}) ⟨Or.inr (by norm_num), by norm_num⟩ 0
    ⟨[], fun _ => 1 / 100⟩ u "z" (n := 1) (Nat.le_refl 1)
  exact ⟨t, t1, t4 rfl rfl⟩

/-- A way of making the method for which `straight_through` has no effect. -/
example := C95_straight_refuted lib_keeps good_sparse "z"

end EntmaxCase

end Storch
