import Verif.Lemmas.GumbelWorLemmas
import Verif.Props.UnorderedMethodProps
import Verif.Props.GumbelProps
import Verif.Lemmas.GumbelWorMean

/-!
# Relaxed samples without replacement (C97)
-/

namespace Storch

open MeasureTheory Filter Topology Storch.Gumbel Storch.Decode SetLaw

section
variable {E : Type _} {θ₀ : E} {K : Nat}

/-- C97, the surrogate loss of `UnorderedSetGumbelSoftmax`, for one variable without plates and independent dimensions and any random
numbers: different outcomes `S`, the largest ones after the perturbation, are relaxed, each with its own random numbers, and the
loss is the sum of the costs of the relaxed samples, weighted as in C66 with weights that are not differentiated.
Missing: several variables, plates; the gradient of the weights (`C97_biased_refuted`). -/
theorem C97_loss_partial {hook : UnwrapHook (AD E θ₀)} (hh : PlainHook hook) (name : String)
    {topk : Nat → List (WithBot ℝ) → List ℝ → List Nat} (hp : Picks topk) {k : Nat} (hk : 2 ≤ k) (hK : 2 ≤ K)
    (am : (Fin K → ℝ) → Fin K) {eps : ℝ} (temperature : ℝ) (prob : E → Fin K → ℝ)
    (hpos : ∀ i, 0 < prob θ₀ i) (hpr : ∀ i, eps ≤ prob θ₀ i ∧ prob θ₀ i ≤ 1 - eps) (hsum : ∑ i, prob θ₀ i = 1) {a : ℝ} {N : Nat}
    (hN : 2 ≤ N) (hg : Real.exp a * Real.log N < Real.exp 10) (noise : Nat → Nat → Nat → ℝ) :
    ∃ S : Fin (min k K) → Fin K, Function.Injective S ∧
      (Best topk → ∀ j, ∀ i ∉ Set.range S, noise 0 0 i ≤ noise 0 0 (S j)) ∧ ∀ v : List Nat → Fin K → ℝ,
      (∃ x : STen (AD E θ₀), gumbelWorSample name a N topk am eps temperature k prob
          (fun e r t => (noise e r t : WithBot ℝ)) v = .ok x ∧ x.plates.map Plate.name = [name] ∧ x.ten.shape = [min k K, K] ∧
        ∀ (j : Fin (min k K)) (i : Fin K) θ, x.ten.get [j.val, i.val] θ =
          conditionalRow am eps temperature (fun i => if i = S j then 1 else 0) (prob θ) (v [j.val]) i) ∧
      ∀ f : E → (Fin K → ℝ) → ℝ, ∃ r, gumbelWorLoss hook name a N topk am eps temperature k prob
          (fun e r t => (noise e r t : WithBot ℝ)) v f = .ok r ∧ r.plates = [] ∧ r.ten.shape = [] ∧
        ∀ θ, r.ten.get [] θ = ∑ j, approxWeight (prob θ₀) a 1e-6 N (Finset.univ.image S) (S j) *
          f θ (conditionalRow am eps temperature (fun i => if i = S j then 1 else 0) (prob θ) (v [j.val])) := by
  set lp : Nat → ℝ := fun t => if h : t < K then Real.log (clampProbs eps (prob θ₀ ⟨t, h⟩)) else 0 with hlp
  set w : Var ℝ := ⟨K, [], false, fun _ _ t => lp t⟩ with hw
  set nz : Nat → Nat → Nat → WithBot ℝ := fun e r t => (noise e r t : WithBot ℝ) with hnz
  set arg := topk (min k w.dom) ((List.range w.dom).map (nz 0 0)) ((List.range w.dom).map (w.given [] 0)) with harg
  have hexp : ∀ t : Fin K, Real.exp (lp t) = prob θ₀ t := by
    intro t
    simp only [hlp, dif_pos t.isLt, Fin.eta]
    rw [clamp_id' (hpr t), Real.exp_log (hpos t)]
  have hrun := scalar_run hp (k := k) (v := w) rfl nz (arg := arg) rfl
  have hlen : arg.length = min k K := hp.len _ _ _ (by simp) (by simp)
  have hnd : arg.Nodup := hp.nodup _ _ _ (by simp) (by simp)
  have hrg : ∀ i ∈ arg, i < K := by
    intro i hi
    simpa using hp.inRange _ _ _ (by simp) (by simp) i hi
  obtain ⟨L, hL⟩ : ∃ L : List (Fin K), L.map Fin.val = arg :=
    ⟨arg.pmap (fun t h => ⟨t, h⟩) hrg, by rw [List.map_pmap]; simp⟩
  have hLnd : L.Nodup := List.Nodup.of_map _ (by rw [hL]; exact hnd)
  have hLl : L.length = min k K := by rw [← hlen, ← hL, List.length_map]
  have hmemL : ∀ t : Fin K, t ∈ L ↔ (t : Nat) ∈ arg := by
    intro t
    rw [← hL, List.mem_map]
    constructor
    · intro h; exact ⟨t, h, rfl⟩
    · rintro ⟨t', h, e⟩; exact Fin.ext e ▸ h
  set S : Fin (min k K) → Fin K := fun j => L[j.val]'(by omega) with hS
  have hSmem : ∀ t, t ∈ Set.range S ↔ t ∈ L := by
    intro t
    rw [List.mem_iff_getElem]
    constructor
    · rintro ⟨j, rfl⟩; exact ⟨j, by omega, rfl⟩
    · rintro ⟨j, hj, rfl⟩; exact ⟨⟨j, by omega⟩, rfl⟩
  have hinj : Function.Injective S := by
    intro i j h
    exact Fin.ext ((List.Nodup.getElem_inj_iff hLnd).1 h)
  have himg : Finset.univ.image S = L.toFinset := by
    ext t
    rw [Finset.mem_image, List.mem_toFinset, ← hSmem]
    simp
  have hsum1 : ∑ t ∈ L.toFinset, Real.exp (lp t) ≤ 1 := by
    rw [← hsum]
    refine (Finset.sum_le_sum_of_subset_of_nonneg (Finset.subset_univ _) (fun t _ _ => (Real.exp_pos _).le)).trans ?_
    exact le_of_eq (Finset.sum_congr rfl (fun t _ => hexp t))
  have hbelow : ∀ t ∈ L, Real.exp a * Real.exp (lp t) * Real.log N < Real.exp 10 := by
    intro t _
    refine lt_of_le_of_lt ?_ hg
    have h1 : Real.exp (lp t) ≤ 1 := by
      rw [hexp, ← hsum]
      exact Finset.single_le_sum (f := fun t : Fin K => prob θ₀ t) (fun i _ => (hpos i).le) (Finset.mem_univ t)
    have h0 : 0 ≤ Real.log N := Real.log_nonneg (by exact_mod_cast (by omega : 1 ≤ N))
    have : Real.exp a * Real.exp (lp t) ≤ Real.exp a := by
      have := mul_le_mul_of_nonneg_left h1 (Real.exp_pos a).le
      rwa [mul_one] at this
    exact mul_le_mul_of_nonneg_right this h0
  have hgiv : ∀ t, w.given [] 0 t = lp t := by intro t; unfold Var.given; split <;> rfl
  have hlps : arg.map (w.given [] 0) = L.map (fun t : Fin K => lp t) := by
    rw [← hL, List.map_map]
    exact List.map_congr_left (fun t _ => hgiv t)
  have htok : ∀ j : Fin (min k K), arg.getD j.val 0 = (S j : Nat) := by
    intro j
    have hj : j.val < L.length := by omega
    simp [← hL, List.getD, List.getElem?_eq_getElem hj, hS]
  refine ⟨S, hinj, ?_, ?_⟩
  · intro hb j i hi
    rw [hSmem, hmemL] at hi
    have hj : (S j : Nat) ∈ arg := (hmemL _).1 ((hSmem _).1 ⟨j, rfl⟩)
    have h6 := hb.best (min k w.dom) ((List.range w.dom).map (nz 0 0)) ((List.range w.dom).map (w.given [] 0)) (by simp) _ hj i
      (by simp [hw]) hi
    simpa [hw, hnz, List.getD] using h6
  · intro v
    have hweight := fun p (h : APlate.logProbs p = L.map (fun t : Fin K => lp t)) =>
      weightUnordered_eq (fun t : Fin K => lp t) hN hLnd hsum1 hbelow (p := p) h
    obtain ⟨plate, t, g1, g2, g3, g4, g5, g6, g7, g8⟩ := gumbelWorTensor_spec (θ₀ := θ₀) name am eps temperature prob
      (tokens := arg) (by omega)
      (weights := L.map (approxWeight (fun i : Fin K => Real.exp (lp i)) a 1e-6 N L.toFinset)) (by simp [hLl, hlen]) v
    have hrow : ∀ (j : Fin (min k K)) (i : Fin K) θ, t.get [j.val, i.val] θ =
        conditionalRow am eps temperature (fun i => if i = S j then 1 else 0) (prob θ) (v [j.val]) i := by
      intro j i θ
      rw [g8 j.val (by omega) i θ, htok j]
      congr 1
      funext i
      simp only [Fin.ext_iff]
    have hsam : gumbelWorSample name a N topk am eps temperature k prob nz v = .ok (⟨t, [plate], 1⟩ : STen (AD E θ₀)) := by
      rw [gumbelWorSample]
      simp only [Bind.bind, Except.bind, if_neg (by omega : ¬ k < 2)]
      rw [hrun]
      dsimp only
      rw [hweight _ hlps]
      simp only
      rw [sequences_one (arg := arg) rfl, List.map_map]
      simpa [Function.comp_def] using g1
    refine ⟨⟨_, hsam, by simp [g4], by rw [← hlen]; exact g7, hrow⟩, ?_⟩
    intro f
    obtain ⟨r, r1, r2, r3, r4⟩ := gumbelWor_after hh g2 g3 (by rw [g5]; exact g7) f
    refine ⟨r, ?_, r2, r3, ?_⟩
    · rw [gumbelWorLoss]
      simp only [Bind.bind, Except.bind, hsam, seqPathwise, List.find?_cons, beq_self_eq_true, Bool.not_true]
      exact r1
    · intro θ
      rw [r4 θ, g5, hlen, sum_range_list, Finset.sum_range]
      refine Finset.sum_congr rfl (fun j _ => ?_)
      have hj : j.val < L.length := by omega
      rw [g6, g4, Function.update_self, himg]
      congr 1
      · have : (fun i : Fin K => Real.exp (lp i)) = prob θ₀ := funext hexp
        rw [this]
        simp [List.getD, List.getElem?_eq_getElem hj, hS]
      · congr 1
        funext i
        exact hrow j i θ

/-- C97, the samples, with a proper rounding unit and temperature: the rows are probability vectors whose largest entries are those
of different outcomes, which are the largest ones after the perturbation. -/
theorem C97_samples (name : String) {topk : Nat → List (WithBot ℝ) → List ℝ → List Nat} (hp : Picks topk) (hb : Best topk) {k : Nat}
    (hk : 2 ≤ k) (hK : 2 ≤ K) {am : (Fin K → ℝ) → Fin K} (ham : ∀ (s : Fin K → ℝ) i, s i ≤ s (am s)) {eps : ℝ} (he : 0 < eps)
    (he2 : eps < 1 / 2) {temperature : ℝ} (ht : 0 < temperature) (prob : E → Fin K → ℝ)
    (hpr : ∀ i, eps ≤ prob θ₀ i ∧ prob θ₀ i ≤ 1 - eps) (hsum : ∑ i, prob θ₀ i = 1) {a : ℝ} {N : Nat}
    (hN : 2 ≤ N) (hg : Real.exp a * Real.log N < Real.exp 10) (noise : Nat → Nat → Nat → ℝ) (v : List Nat → Fin K → ℝ) :
    ∃ x : STen (AD E θ₀), gumbelWorSample name a N topk am eps temperature k prob
        (fun e r t => (noise e r t : WithBot ℝ)) v = .ok x ∧ x.ten.shape = [min k K, K] ∧
      ∃ S : Fin (min k K) → Fin K, Function.Injective S ∧ (∀ j, ∀ i ∉ Set.range S, noise 0 0 i ≤ noise 0 0 (S j)) ∧
        ∀ (j : Fin (min k K)) θ, (∀ i : Fin K, 0 < x.ten.get [j.val, i.val] θ) ∧ ∑ i : Fin K, x.ten.get [j.val, i.val] θ = 1 ∧
          ∀ i ≠ S j, x.ten.get [j.val, i.val] θ < x.ten.get [j.val, (S j).val] θ := by
  obtain ⟨S, s1, s2, s3⟩ := C97_loss_partial (θ₀ := θ₀) (hook := fun _ t => .ok t) (fun _ _ _ => rfl) name hp hk hK am
    temperature prob (fun i => he.trans_le (hpr i).1) hpr hsum hN hg noise
  obtain ⟨⟨x, x1, -, x3, x4⟩, -⟩ := s3 v
  refine ⟨x, x1, x3, S, s1, s2 hb, fun j θ => ?_⟩
  simp only [x4 j _ θ]
  obtain ⟨n1, n2⟩ := C50_normalised eps temperature (fun i => if i = S j then 1 else 0) (am fun i => if i = S j then 1 else 0)
    (prob θ) (v [j.val])
  exact ⟨n1, n2, fun i hi => C50_argmax he he2 ht _ (S j) (fun _ => rfl) _ (ham _) _ _ i hi⟩

end

/-! ### The expectation -/

section
variable {E : Type _} [NormedAddCommGroup E] [NormedSpace ℝ E] {θ₀ : E} {K : Nat}

/-- `r` is the surrogate loss, where `u` are the uniform random numbers behind the Gumbel variables of the decoder, which are
conditioned on zero (swor.py:65-66, 90), and `w` those of the relaxed rows. -/
def GumbelWorRun (hook : UnwrapHook (AD E θ₀)) (name : String) (a : ℝ) (N : Nat)
    (topk : Nat → List (WithBot ℝ) → List ℝ → List Nat) (am : (Fin K → ℝ) → Fin K) (τ : ℝ) (k : Nat) (prob : E → Fin K → ℝ)
    (f : E → (Fin K → ℝ) → ℝ) (u : Fin K → ℝ) (w : Fin k → Fin K → ℝ) (r : STen (AD E θ₀)) : Prop :=
  ∃ g, condGumbelSample (List.ofFn (fun i => Real.log (prob θ₀ i))) (List.ofFn (fun i => gumbelOf (u i))) 0 = .ok g ∧
    gumbelWorLoss hook name a N topk am 0 τ k prob (fun _ _ t => ((g.getD t 0 : ℝ) : WithBot ℝ))
      (fun pos => extRows w (pos.headD 0)) f = .ok r

theorem rows_sum {k : Nat} (A : Fin k → ℝ) (S : Fin k → Fin K) {F : Fin K → (Fin K → ℝ) → ℝ}
    (hF : ∀ s, Integrable (F s) (cube K)) :
    ∫ w, ∑ j, A j * F (S j) (w j) ∂rows k K = ∑ j, A j * ∫ x, F (S j) x ∂cube K := by
  have hi : ∀ j : Fin k, Integrable (fun w : Fin k → Fin K → ℝ => A j * F (S j) (w j)) (rows k K) := fun j =>
    (integrable_comp_eval (μ := fun _ : Fin k => cube K) (i := j) (hF (S j))).const_mul _
  rw [integral_finsetSum _ (fun j _ => hi j)]
  refine Finset.sum_congr rfl (fun j _ => ?_)
  rw [integral_const_mul]
  congr 1
  exact integral_comp_eval (μ := fun _ : Fin k => cube K) (i := j) (hF (S j)).aestronglyMeasurable

/-- C97, the expectations over all random numbers, for more outcomes than samples and without rounding.  Those of the loss and of
its gradient converge, for more and more points and a vanishing summand: the first to the expected cost of a relaxed
sample, the second to its gradient minus the part that comes from the change of the probabilities of the outcomes.
Missing: that part; as many samples as outcomes, several variables, plates. -/
theorem C97_mean_partial {hook : UnwrapHook (AD E θ₀)} (hh : PlainHook hook) (name : String)
    {topk : Nat → List (WithBot ℝ) → List ℝ → List Nat} (hp : Picks topk) (hb : Best topk) {k : Nat} (hk : 2 ≤ k) (hkK : k < K)
    {am : (Fin K → ℝ) → Fin K} (ham : ∀ (s : Fin K → ℝ) i, s i ≤ s (am s)) {τ : ℝ} (hτ : 0 < τ) {prob : E → Fin K → ℝ}
    (hpr : ∀ᶠ θ in 𝓝 θ₀, (∀ i, 0 < prob θ i) ∧ ∑ i, prob θ i = 1) (hpd : ∀ i, ContDiffAt ℝ 1 (fun θ => prob θ i) θ₀)
    {a : ℝ} {N : Nat} (hN : 2 ≤ N) (hg : Real.exp a * Real.log N < Real.exp 10) {f : E → (Fin K → ℝ) → ℝ}
    (hf : ContDiff ℝ 1 (fun q : E × (Fin K → ℝ) => f q.1 q.2)) {r : (Fin K → ℝ) → (Fin k → Fin K → ℝ) → STen (AD E θ₀)}
    (hr : ∀ u w, (∀ i, u i ∈ Set.Ioo (0 : ℝ) 1) → GumbelWorRun hook name a N topk am τ k prob f u w (r u w)) (m : E) :
    let row := fun (s : Fin K) (w : Fin K → ℝ) (θ : E) => conditionalRow am 0 τ (fun i => if i = s then 1 else 0) (prob θ) w
    let c := fun s => ∫ w, f θ₀ (row s w θ₀) ∂cube K
    let c' := fun s => ∫ w, fderiv ℝ (fun θ => f θ (row s w θ)) θ₀ m ∂cube K
    let J := fun θ => ∫ w, f θ (relaxedCategorical 0 τ (prob θ) w) ∂cube K
    ∫ u, ∫ w, (r u w).ten.get [] θ₀ ∂rows k K ∂cube K = expectedUS (prob θ₀) k a 1e-6 N c ∧
      ∫ u, ∫ w, fderiv ℝ ((r u w).ten.get [] : E → ℝ) θ₀ m ∂rows k K ∂cube K = expectedUS (prob θ₀) k a 1e-6 N c' ∧
      Tendsto (fun z : Nat × ℝ => expectedUS (prob θ₀) k a z.2 z.1 c) (atTop ×ˢ 𝓝[≥] 0) (𝓝 (J θ₀)) ∧
      Tendsto (fun z : Nat × ℝ => expectedUS (prob θ₀) k a z.2 z.1 c') (atTop ×ˢ 𝓝[≥] 0)
        (𝓝 (fderiv ℝ J θ₀ m - ∑ s, fderiv ℝ (fun θ => prob θ s) θ₀ m * c s)) := by
  intro row c c' J
  obtain ⟨hp0, htot⟩ := hpr.self_of_nhds
  have hp1 : ∀ i, prob θ₀ i ≤ 1 - 0 := by
    intro i
    rw [sub_zero, ← htot]
    exact Finset.single_le_sum (f := fun t => prob θ₀ t) (fun i _ => (hp0 i).le) (Finset.mem_univ i)
  have hreg := fun s => row_cond (f := f) ham hτ hpr hpd hf s
  have hmix := row_mix (f := f) (by omega) ham hτ hpr hpd hf
  have key : ∀ u, (∀ i, u i ∈ Set.Ioo (0 : ℝ) 1) → ∃ S : Fin k → Fin K, Function.Injective S ∧
      (∀ j, ∀ i ∉ Set.range S, gum (prob θ₀) u i ≤ gum (prob θ₀) u (S j)) ∧ ∀ w, ((r u w).ten.get [] : E → ℝ) = fun θ =>
        ∑ j, approxWeight (prob θ₀) a 1e-6 N (Finset.univ.image S) (S j) * f θ (row (S j) (w j) θ) := by
    intro u hu
    obtain ⟨r', hr1, hr2, hr3⟩ := C49_order (logProbs := List.ofFn (fun i => Real.log (prob θ₀ i)))
      (noise := List.ofFn (fun i => gumbelOf (u i))) (by simp) (by
        intro h
        have := congrArg List.length h
        simp only [List.length_ofFn, List.length_nil] at this
        omega) 0
    have hrl : r'.length = K := by rw [hr2]; simp
    have h := C97_loss_partial (θ₀ := θ₀) hh name hp hk (by omega) am τ prob hp0 (fun i => ⟨(hp0 i).le, hp1 i⟩) htot hN hg
      (fun _ _ t => r'.getD t 0)
    rw [min_eq_left hkK.le] at h
    obtain ⟨S, s1, s2, s3⟩ := h
    refine ⟨S, s1, ?_, ?_⟩
    · intro j i hi
      have h6 := s2 hb j i hi
      have hget : ∀ (t : Fin K) (h : (t : Nat) < r'.length), r'.getD t 0 = r'[(t : Nat)] := by
        intro t h
        simp [List.getD, List.getElem?_eq_getElem h]
      rw [hget i (by omega), hget (S j) (by omega), ← not_lt, hr3 (S j) i (by simp) (by simp) (by omega) (by omega)] at h6
      have hlog : ∀ t : Fin K, gum (prob θ₀) u t = Real.log (prob θ₀ t) + gumbelOf (u t) := fun t => rfl
      rw [hlog, hlog]
      simpa using h6
    · intro w
      obtain ⟨q, q1, q2⟩ := hr u w hu
      rw [hr1, Except.ok.injEq] at q1
      subst q1
      obtain ⟨-, s4⟩ := s3 (fun pos => extRows w (pos.headD 0))
      obtain ⟨t, t1, -, -, t4⟩ := s4 f
      have : r u w = t := by
        have := q2.symm.trans t1
        simpa using this
      rw [this]
      funext θ
      rw [t4 θ]
      refine Finset.sum_congr rfl (fun j _ => ?_)
      simp only [List.headD_cons, extRows_fin]
      rfl
  have : Nonempty (Fin k → Fin K) := ⟨fun _ => ⟨0, by omega⟩⟩
  choose! S hS1 hS2 hS3 using key
  have hset : ∀ (u : Fin K → ℝ), (∀ i, u i ∈ Set.Ioo (0 : ℝ) 1) → (Finset.univ.image (S u)).card = k ∧
      ∀ t ∈ Finset.univ.image (S u), ∀ i ∉ Finset.univ.image (S u), gum (prob θ₀) u i ≤ gum (prob θ₀) u t := by
    intro u hu
    refine ⟨by rw [Finset.card_image_of_injective _ (hS1 u hu)]; simp, ?_⟩
    intro t ht i hi
    obtain ⟨j, -, rfl⟩ := Finset.mem_image.1 ht
    exact hS2 u hu j i (by simpa using hi)
  have hfin : ∀ (F : Fin K → ℝ) (I : (Fin K → ℝ) → ℝ), (∀ u, (∀ i, u i ∈ Set.Ioo (0 : ℝ) 1) →
      I u = ∑ j, approxWeight (prob θ₀) a 1e-6 N (Finset.univ.image (S u)) (S u j) * F (S u j)) →
      ∫ u, I u ∂cube K = expectedUS (prob θ₀) k a 1e-6 N F := by
    intro F I hI
    have hcongr : I =ᵐ[cube K] fun u => (fun T => ∑ s ∈ T, approxWeight (prob θ₀) a 1e-6 N T s * F s)
        (Finset.univ.image (S u)) := by
      filter_upwards [cube_mem K] with u hu
      rw [hI u hu]
      exact (Finset.sum_image (f := fun s => approxWeight (prob θ₀) a 1e-6 N (Finset.univ.image (S u)) s * F s)
        (fun x _ y _ h => hS1 u hu h)).symm
    exact (integral_congr_ae hcongr).trans (gumbel_top hp0 hkK (fun u => Finset.univ.image (S u)) hset
      (fun T => ∑ s ∈ T, approxWeight (prob θ₀) a 1e-6 N T s * F s))
  have hdiff : ∀ᵐ w ∂rows k K, ∀ (j : Fin k) (s : Fin K), DifferentiableAt ℝ (fun θ => f θ (row s (w j) θ)) θ₀ :=
    rows_ae (P := fun _ x => ∀ s, DifferentiableAt ℝ (fun θ => f θ (row s x θ)) θ₀)
      (fun _ => ae_all_iff.2 (fun s => (hreg s).deriv.1))
  have hint' : ∀ s, Integrable (fun w => fderiv ℝ (fun θ => f θ (row s w θ)) θ₀ m) (cube K) := fun s =>
    ContinuousLinearMap.integrable_comp (ContinuousLinearMap.apply ℝ ℝ m) (hreg s).deriv.2.1
  refine ⟨hfin c _ ?_, hfin c' _ ?_, ?_, ?_⟩
  · intro u hu
    refine Eq.trans ?_ (rows_sum (fun j => approxWeight (prob θ₀) a 1e-6 N (Finset.univ.image (S u)) (S u j)) (S u)
      (F := fun s w => f θ₀ (row s w θ₀)) (fun s => (hreg s).int.self_of_nhds))
    refine integral_congr_ae (Eventually.of_forall fun w => ?_)
    exact congrFun (hS3 u hu w) θ₀
  · intro u hu
    refine Eq.trans ?_ (rows_sum (fun j => approxWeight (prob θ₀) a 1e-6 N (Finset.univ.image (S u)) (S u j)) (S u) hint')
    refine integral_congr_ae ?_
    filter_upwards [hdiff] with w hw
    rw [hS3 u hu w]
    have := HasFDerivAt.fun_sum (u := Finset.univ) (fun (j : Fin k) _ => (hw j (S u j)).hasFDerivAt.const_mul
      (approxWeight (prob θ₀) a 1e-6 N (Finset.univ.image (S u)) (S u j)))
    refine (congrArg (fun L : E →L[ℝ] ℝ => L m) (HasFDerivAt.fderiv this)).trans ?_
    simp only [sum_apply, smul_apply, smul_eq_mul]
  · have : J θ₀ = ∑ s, prob θ₀ s * c s := hmix.self_of_nhds
    rw [this]
    exact expectedUS_tendsto hp0 htot (by omega) hkK a c
  · have hd : HasFDerivAt J (∑ s, (prob θ₀ s • (∫ w, fderiv ℝ (fun θ => f θ (row s w θ)) θ₀ ∂cube K) +
        c s • fderiv ℝ (fun θ => prob θ s) θ₀)) θ₀ := by
      refine HasFDerivAt.congr_of_eventuallyEq ?_ hmix
      exact HasFDerivAt.fun_sum (u := Finset.univ) (fun s _ =>
        ((hpd s).differentiableAt (by norm_num)).hasFDerivAt.mul (hreg s).deriv.2.2)
    have h1 : fderiv ℝ J θ₀ m - ∑ s, fderiv ℝ (fun θ => prob θ s) θ₀ m * c s = ∑ s, prob θ₀ s * c' s := by
      rw [hd.fderiv, sum_apply, ← Finset.sum_sub_distrib]
      refine Finset.sum_congr rfl (fun s _ => ?_)
      have : (∫ w, fderiv ℝ (fun θ => f θ (row s w θ)) θ₀ ∂cube K) m = c' s :=
        (ContinuousLinearMap.integral_apply (hreg s).deriv.2.1 m)
      simp only [add_apply, smul_apply, smul_eq_mul, this]
      ring
    rw [h1]
    exact expectedUS_tendsto hp0 htot (by omega) hkK a c'

/-- The runs exist. -/
theorem gumbelWorRun_total {hook : UnwrapHook (AD E θ₀)} (hh : PlainHook hook) (name : String)
    {topk : Nat → List (WithBot ℝ) → List ℝ → List Nat} (hp : Picks topk) {k : Nat} (hk : 2 ≤ k) (hK : 2 ≤ K)
    (am : (Fin K → ℝ) → Fin K) (τ : ℝ) (prob : E → Fin K → ℝ) (hp0 : ∀ i, 0 < prob θ₀ i) (htot : ∑ i, prob θ₀ i = 1)
    {a : ℝ} {N : Nat} (hN : 2 ≤ N) (hg : Real.exp a * Real.log N < Real.exp 10) (f : E → (Fin K → ℝ) → ℝ) (u : Fin K → ℝ)
    (w : Fin k → Fin K → ℝ) : ∃ r, GumbelWorRun hook name a N topk am τ k prob f u w r := by
  obtain ⟨r', hr1, _⟩ := C49_order (logProbs := List.ofFn (fun i => Real.log (prob θ₀ i)))
    (noise := List.ofFn (fun i => gumbelOf (u i))) (by simp) (by
      intro h
      have := congrArg List.length h
      simp only [List.length_ofFn, List.length_nil] at this
      omega) 0
  have hp1 : ∀ i, prob θ₀ i ≤ 1 - 0 := by
    intro i
    rw [sub_zero, ← htot]
    exact Finset.single_le_sum (f := fun t => prob θ₀ t) (fun i _ => (hp0 i).le) (Finset.mem_univ i)
  obtain ⟨S, -, -, s3⟩ := C97_loss_partial (θ₀ := θ₀) hh name hp hk hK am τ prob hp0 (fun i => ⟨(hp0 i).le, hp1 i⟩) htot hN hg
    (fun _ _ t => r'.getD t 0)
  obtain ⟨-, s4⟩ := s3 (fun pos => extRows w (pos.headD 0))
  obtain ⟨t, t1, -⟩ := s4 f
  exact ⟨t, r', hr1, t1⟩

/-- Without rounding, too, the entry of the outcome is the largest one, for random numbers inside the interval. -/
theorem row_largest {am : (Fin K → ℝ) → Fin K} (ham : ∀ (s : Fin K → ℝ) i, s i ≤ s (am s)) {τ : ℝ} (hτ : 0 < τ) {p w : Fin K → ℝ}
    (hp : ∀ i, 0 < p i ∧ p i ≤ 1) (hw : ∀ i, w i ∈ Set.Ioo (0 : ℝ) 1) {s i : Fin K} (hi : i ≠ s) :
    conditionalRow am 0 τ (fun i => if i = s then 1 else 0) p w i <
      conditionalRow am 0 τ (fun i => if i = s then 1 else 0) p w s := by
  rw [conditionalRow, am_oneHot ham s, conditional_expo (fun i => ⟨(hp i).1.le, by rw [sub_zero]; exact (hp i).2⟩)
    (fun i => ⟨(hw i).1.le, by rw [sub_zero]; exact (hw i).2.le⟩)]
  have hs := neg_log_pos (hw s)
  have h1 : condExpo p s w s = -Real.log (w s) := by simp [condExpo]
  have h2 : condExpo p s w i = -Real.log (w i) / p i - Real.log (w s) := by simp [condExpo, hi]
  have h3 : 0 < -Real.log (w i) / p i := div_pos (neg_log_pos (hw i)) (hp i).1
  simp only [ofExpo, normaliseScores, Real.exp_lt_exp, sub_lt_sub_iff_right]
  rw [div_lt_div_iff_of_pos_right hτ, neg_lt_neg_iff]
  refine Real.log_lt_log (by rw [h1]; exact hs) ?_
  rw [h1, h2]
  linarith

end

/-- Three outcomes: `1/3 + θ`, `1/3 - θ` and `1/3`. -/
noncomputable def threeProb (θ : ℝ) : Fin 3 → ℝ := ![1 / 3 + θ, 1 / 3 - θ, 1 / 3]

theorem threeProb_near : ∀ᶠ θ : ℝ in 𝓝 0, (∀ i, 0 < threeProb θ i) ∧ ∑ i, threeProb θ i = 1 := by
  filter_upwards [Ioo_mem_nhds (by norm_num : (-1 / 4 : ℝ) < 0) (by norm_num : (0 : ℝ) < 1 / 4)] with θ hθ
  refine ⟨fun i => ?_, ?_⟩
  · fin_cases i <;> simp [threeProb] <;> linarith [hθ.1, hθ.2]
  · rw [Fin.sum_univ_three]
    simp [threeProb]
    ring

theorem threeProb_deriv (i : Fin 3) : HasDerivAt (fun θ => threeProb θ i) ((![1, -1, 0] : Fin 3 → ℝ) i) 0 := by
  fin_cases i
  · exact (hasDerivAt_id (0 : ℝ)).const_add (1 / 3)
  · exact (hasDerivAt_id (0 : ℝ)).const_sub (1 / 3)
  · exact hasDerivAt_const (0 : ℝ) (1 / 3)

theorem threeProb_smooth (i : Fin 3) : ContDiffAt ℝ 1 (fun θ => threeProb θ i) 0 := by
  fin_cases i
  · exact contDiffAt_const.add contDiffAt_id
  · exact contDiffAt_const.sub contDiffAt_id
  · exact contDiffAt_const

/-- The difference of the first two entries. -/
def firstMinusSecond (_ : ℝ) (x : Fin 3 → ℝ) : ℝ := x 0 - x 1

theorem firstMinusSecond_smooth : ContDiff ℝ 1 (fun q : ℝ × (Fin 3 → ℝ) => firstMinusSecond q.1 q.2) :=
  ((contDiff_apply ℝ ℝ (0 : Fin 3)).comp contDiff_snd).sub ((contDiff_apply ℝ ℝ (1 : Fin 3)).comp contDiff_snd)

/-- C97 fails for gradients: two samples of three outcomes with the probabilities `1/3 + θ`, `1/3 - θ` and `1/3`, any positive
temperature, and the difference of the first two entries as the cost.  The expected gradient of the loss is a quantity `G`
which, for more and more points and a vanishing summand, converges to a number below the gradient of the expected cost of a
relaxed sample. -/
theorem C97_biased_refuted {hook : UnwrapHook (AD ℝ (0 : ℝ))} (hh : PlainHook hook) (name : String)
    {topk : Nat → List (WithBot ℝ) → List ℝ → List Nat} (hp : Picks topk) (hb : Best topk) {a : ℝ}
    (ha : Real.exp a * Real.log 2 < Real.exp 10) {am : (Fin 3 → ℝ) → Fin 3} (ham : ∀ (s : Fin 3 → ℝ) i, s i ≤ s (am s)) {τ : ℝ} (hτ : 0 < τ) :
    ∃ G : Nat → ℝ → ℝ, (∀ N : Nat, 2 ≤ N → Real.exp a * Real.log N < Real.exp 10 →
      ∃ r : (Fin 3 → ℝ) → (Fin 2 → Fin 3 → ℝ) → STen (AD ℝ (0 : ℝ)),
        (∀ u w, GumbelWorRun hook name a N topk am τ 2 threeProb firstMinusSecond u w (r u w)) ∧
        ∫ u, ∫ w, deriv ((r u w).ten.get [] : ℝ → ℝ) 0 ∂rows 2 3 ∂cube 3 = G N 1e-6) ∧
      ∃ L, Tendsto (fun z : Nat × ℝ => G z.1 z.2) (atTop ×ˢ 𝓝[≥] 0) (𝓝 L) ∧
        L < deriv (fun θ => ∫ w, firstMinusSecond θ (relaxedCategorical 0 τ (threeProb θ) w) ∂cube 3) 0 := by
  set row := fun (s : Fin 3) (w : Fin 3 → ℝ) (θ : ℝ) =>
    conditionalRow am 0 τ (fun i => if i = s then 1 else 0) (threeProb θ) w with hrow
  set c := fun s => ∫ w, firstMinusSecond 0 (row s w 0) ∂cube 3 with hc
  set c' := fun s => ∫ w, fderiv ℝ (fun θ => firstMinusSecond θ (row s w θ)) 0 1 ∂cube 3 with hc'
  set J := fun θ => ∫ w, firstMinusSecond θ (relaxedCategorical 0 τ (threeProb θ) w) ∂cube 3 with hJ
  obtain ⟨hp0, htot⟩ := threeProb_near.self_of_nhds
  have hp1 : ∀ i, 0 < threeProb 0 i ∧ threeProb 0 i ≤ 1 := fun i => ⟨hp0 i, by
    rw [← htot]
    exact Finset.single_le_sum (f := fun t => threeProb 0 t) (fun i _ => (hp0 i).le) (Finset.mem_univ i)⟩
  have e1 : ∀ h : ℝ → ℝ, fderiv ℝ h 0 1 = deriv h 0 := fun h => fderiv_apply_one_eq_deriv
  have hint : ∀ s, Integrable (fun w => firstMinusSecond 0 (row s w 0)) (cube 3) := fun s =>
    (row_cond (θ₀ := (0 : ℝ)) (f := firstMinusSecond) ham hτ threeProb_near threeProb_smooth firstMinusSecond_smooth s).int.self_of_nhds
  have hc0 : 0 < c 0 := by
    refine (integral_pos_iff_support_of_nonneg_ae ?_ (hint 0)).2 ?_
    · filter_upwards [cube_mem 3] with w hw
      exact (sub_pos.2 (row_largest ham hτ hp1 hw (s := 0) (i := 1) (by decide))).le
    · refine pos_iff_ne_zero.2 (fun h0 => ?_)
      have : ∀ᵐ w ∂cube 3, False := by
        filter_upwards [cube_mem 3, measure_eq_zero_iff_ae_notMem.1 h0] with w hw h
        exact h (sub_pos.2 (row_largest ham hτ hp1 hw (s := 0) (i := 1) (by decide))).ne'
      exact (IsProbabilityMeasure.ne_zero (cube 3)) (by simpa using this)
  have hc1 : 0 < -c 1 := by
    rw [hc]
    show 0 < -∫ w, firstMinusSecond 0 (row 1 w 0) ∂cube 3
    rw [← integral_neg]
    have hpos : ∀ w : Fin 3 → ℝ, (∀ i, w i ∈ Set.Ioo (0 : ℝ) 1) → 0 < -firstMinusSecond 0 (row 1 w 0) := by
      intro w hw
      have := row_largest ham hτ hp1 hw (s := 1) (i := 0) (by decide)
      simp only [firstMinusSecond, hrow]
      linarith
    refine (integral_pos_iff_support_of_nonneg_ae ?_ (hint 1).neg).2 ?_
    · filter_upwards [cube_mem 3] with w hw
      exact (hpos w hw).le
    · refine pos_iff_ne_zero.2 (fun h0 => ?_)
      have : ∀ᵐ w ∂cube 3, False := by
        filter_upwards [cube_mem 3, measure_eq_zero_iff_ae_notMem.1 h0] with w hw h
        exact h (hpos w hw).ne'
      exact (IsProbabilityMeasure.ne_zero (cube 3)) (by simpa using this)
  have hruns : ∀ N : Nat, 2 ≤ N → Real.exp a * Real.log N < Real.exp 10 →
      ∃ r : (Fin 3 → ℝ) → (Fin 2 → Fin 3 → ℝ) → STen (AD ℝ (0 : ℝ)),
        ∀ u w, GumbelWorRun hook name a N topk am τ 2 threeProb firstMinusSecond u w (r u w) := by
    intro N hN hg
    choose r hr using fun u w => gumbelWorRun_total (θ₀ := (0 : ℝ)) hh name hp (k := 2) le_rfl (by norm_num) am τ threeProb hp0 htot
      hN hg firstMinusSecond u w
    exact ⟨r, hr⟩
  refine ⟨fun M ε => expectedUS (threeProb 0) 2 a ε M c', ?_, deriv J 0 - (c 0 - c 1), ?_, by linarith⟩
  · intro N hN hg
    obtain ⟨r, hr⟩ := hruns N hN hg
    refine ⟨r, hr, ?_⟩
    have := (C97_mean_partial hh name hp hb (k := 2) le_rfl (by norm_num) ham hτ threeProb_near threeProb_smooth hN hg
      firstMinusSecond_smooth (r := r) (fun u w _ => hr u w) 1).2.1
    refine Eq.trans ?_ this
    refine integral_congr_ae (Eventually.of_forall fun u => integral_congr_ae (Eventually.of_forall fun w => ?_))
    exact (e1 _).symm
  · obtain ⟨r, hr⟩ := hruns 2 le_rfl ha
    have := (C97_mean_partial hh name hp hb (k := 2) le_rfl (by norm_num) ham hτ threeProb_near threeProb_smooth le_rfl ha
      firstMinusSecond_smooth (r := r) (fun u w _ => hr u w) 1).2.2.2
    have e : ∑ s, fderiv ℝ (fun θ => threeProb θ s) 0 1 * c s = c 0 - c 1 := by
      simp only [e1, (threeProb_deriv _).deriv, Fin.sum_univ_three]
      simp
      ring
    rw [← e, ← e1]
    exact this

/-- The default parameters, two samples of three outcomes, a cold temperature. -/
example {hook : UnwrapHook (AD ℝ (0 : ℝ))} (hh : PlainHook hook) {am : (Fin 3 → ℝ) → Fin 3}
    (ham : ∀ (s : Fin 3 → ℝ) i, s i ≤ s (am s)) :
    ∃ (r : (Fin 3 → ℝ) → (Fin 2 → Fin 3 → ℝ) → STen (AD ℝ (0 : ℝ))) (c : Fin 3 → ℝ),
      ∫ u, ∫ w, (r u w).ten.get [] 0 ∂rows 2 3 ∂cube 3 = expectedUS (threeProb 0) 2 5 1e-6 1000 c ∧
      (∀ u w, GumbelWorRun hook "x" 5 1000 sortTop am (1 / 2) 2 threeProb firstMinusSecond u w (r u w)) := by
  obtain ⟨hp0, htot⟩ := threeProb_near.self_of_nhds
  choose r hr using fun u w => gumbelWorRun_total (θ₀ := (0 : ℝ)) hh "x" sortTop_picks (k := 2) le_rfl (by norm_num) am (1 / 2)
    threeProb hp0 htot (a := 5) (N := 1000) (by decide) default_below firstMinusSecond u w
  exact ⟨r, _, (C97_mean_partial hh "x" sortTop_picks sortTop_best (k := 2) le_rfl (by norm_num) ham (by norm_num) threeProb_near
    threeProb_smooth (by decide) default_below firstMinusSecond_smooth (r := r) (fun u w _ => hr u w) 1).1, hr⟩

/-- A case for `C97_biased_refuted`: the gradients differ at the temperature one. -/
example {am : (Fin 3 → ℝ) → Fin 3} (ham : ∀ (s : Fin 3 → ℝ) i, s i ≤ s (am s)) : ∃ (G : Nat → ℝ → ℝ) (L : ℝ),
    Tendsto (fun z : Nat × ℝ => G z.1 z.2) (atTop ×ˢ 𝓝[≥] 0) (𝓝 L) ∧
      L < deriv (fun θ => ∫ w, firstMinusSecond θ (relaxedCategorical 0 1 (threeProb θ) w) ∂cube 3) 0 := by
  have ha : Real.exp 0 * Real.log 2 < Real.exp 10 := by
    rw [Real.exp_zero, one_mul]
    linarith [Real.log_two_lt_d9, Real.add_one_le_exp (10 : ℝ)]
  obtain ⟨G, -, L, h1, h2⟩ := C97_biased_refuted (hook := fun _ t => .ok t) (fun _ _ _ => rfl) "x" sortTop_picks sortTop_best ha
    ham (τ := 1) one_pos
  exact ⟨G, L, h1, h2⟩

/-- A case for `C97_samples` and `C97_loss_partial`: two samples of three outcomes, perturbed to 5, 1 and 7, are the third and the
first one; the entries of the second are never the largest ones. -/
example {am : (Fin 3 → ℝ) → Fin 3} (ham : ∀ (s : Fin 3 → ℝ) i, s i ≤ s (am s)) (v : List Nat → Fin 3 → ℝ) :
    ∃ x : STen (AD ℝ (0 : ℝ)), gumbelWorSample "x" 5 1000 sortTop am (1 / 1000) (1 / 2) 2 threeProb
        (fun _ _ t => (([5, 1, 7].getD t 0 : ℝ) : WithBot ℝ)) v = .ok x ∧ x.ten.shape = [2, 3] ∧
      ∀ j : Fin 2, ∃ i : Fin 3, i ≠ 1 ∧ ∀ θ, x.ten.get [j.val, 1] θ < x.ten.get [j.val, i.val] θ := by
  have htot : ∑ i, threeProb 0 i = 1 := threeProb_near.self_of_nhds.2
  obtain ⟨x, x1, x2, S, s1, s2, s3⟩ := C97_samples (θ₀ := (0 : ℝ)) "x" sortTop_picks sortTop_best (k := 2) le_rfl (by norm_num) ham
    (eps := 1 / 1000) (by norm_num) (by norm_num) (temperature := 1 / 2) (by norm_num) threeProb
    (fun i => by fin_cases i <;> norm_num [threeProb]) htot (a := 5) (N := 1000) (by decide) default_below
    (fun _ _ t => [5, 1, 7].getD t 0) v
  have hS : ∀ j, S j ≠ 1 := by
    intro j h
    obtain ⟨i, hi⟩ : ∃ i : Fin 3, i ∉ Set.range S := by
      by_contra hno
      have hsur : Function.Surjective S := fun i => by
        by_contra hi
        exact hno ⟨i, hi⟩
      have := Fintype.card_le_of_surjective S hsur
      simp at this
    have := s2 j i hi
    rw [h] at this
    have hne : i ≠ 1 := fun e => hi ⟨j, h.trans e.symm⟩
    fin_cases i
    · norm_num at this
    · exact hne rfl
    · norm_num at this
  exact ⟨x, x1, x2, fun j => ⟨S j, hS j, fun θ => (s3 j θ).2.2 1 (Ne.symm (hS j))⟩⟩

end Storch
