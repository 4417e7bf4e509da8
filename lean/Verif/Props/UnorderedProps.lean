import Verif.Lemmas.UnorderedCode
import Verif.Lemmas.GumbelTop
import Verif.Lemmas.SeqProb
import Verif.Props.SworBiasProps
import Verif.Props.RaoBlackwellProps
import Verif.Lemmas.RbLossLemmas

/-!
# The weights of unordered sets (C66)
-/

namespace Storch.Decode

open MeasureTheory Filter Topology Storch.Gumbel SetLaw

/-- The probability of a sequence of values. -/
noncomputable def seqProb (vs : List (Var ℝ)) (ts : List Nat) : ℝ := Real.exp (logJoint vs [] ts)

theorem seqProb_pos (vs : List (Var ℝ)) (ts : List Nat) : 0 < seqProb vs ts := Real.exp_pos _

theorem run_sequences {k : Nat} {eos : Option Nat} {topk : Nat → List (WithBot ℝ) → List ℝ → List Nat} (hp : Picks topk)
    (hk : 2 ≤ k) (vs : List (Var ℝ × (Nat → Nat → Nat → WithBot ℝ))) (hne : vs ≠ []) (hD : ∀ v ∈ vs, 2 ≤ v.1.dom) {s : St ℝ}
    (hs : runSwor k eos topk vs blank = .ok s) :
    s.sequences.Nodup ∧ s.sequences.length = s.width ∧ 2 ≤ s.width ∧ (∀ ts ∈ s.sequences, ts ∈ seqsOf (vs.map Prod.fst)) ∧
      ∃ p ps, s.plates = p :: ps ∧ p.logProbs = s.sequences.map (logJoint (vs.map Prod.fst) []) := by
  obtain ⟨hw2, p, pls, h1, h2, h3⟩ := runSwor_wide hp hk vs hne hD hs
  have hg := runSwor_good hp hk vs hne hD hs
  obtain ⟨j, hj, hjl, hjv⟩ := hg.joint
  refine ⟨?_, by simp [St.sequences], hw2, ?_, p, pls, h1, ?_⟩
  · rw [St.sequences]
    refine List.Nodup.map_on ?_ List.nodup_range
    intro x hx y hy h
    exact hg.distinct x (List.mem_range.1 hx) y (List.mem_range.1 hy) h
  · intro ts hts
    obtain ⟨r, hr, rfl⟩ := List.mem_map.1 hts
    exact (runSwor_seqs hp hk vs hne hD hs).2 r (List.mem_range.1 hr)
  · rw [h2, hj]
    apply List.ext_getElem?
    intro r
    simp only [Option.getD_some, St.sequences, List.getElem?_map]
    by_cases hr : r < s.width
    · rw [hjv r hr, List.getElem?_range hr]; rfl
    · rw [List.getElem?_eq_none (by omega), List.getElem?_eq_none (by simpa using hr)]; rfl

theorem drawn_le_one {vs : List (Var ℝ)} (hn : ∀ v ∈ vs, Normal v) {S : List (List Nat)} (hS : S.Nodup)
    (hsub : ∀ ts ∈ S, ts ∈ seqsOf vs) : ∑ ts ∈ S.toFinset, seqProb vs ts ≤ 1 := by
  rw [List.sum_toFinset _ hS]
  exact (sum_some hn hS hsub).1

/-- C66, what is computed: whatever was decoded, as long as the series is not used (`exp(a) * P * log N < exp(10)`, which
holds for the default values of `a` and `N`), the weights are the probabilities of the sequences times the quotients of two
Riemann sums with a summand `1e-6` in the factors.  Missing: the series (`C66_series_refuted`). -/
theorem C66_weights_partial {k : Nat} {eos : Option Nat} {topk : Nat → List (WithBot ℝ) → List ℝ → List Nat} (hp : Picks topk)
    (hk : 2 ≤ k) (vs : List (Var ℝ × (Nat → Nat → Nat → WithBot ℝ))) (hne : vs ≠ []) (hD : ∀ v ∈ vs, 2 ≤ v.1.dom)
    (hn : ∀ v ∈ vs, Normal v.1) {s : St ℝ} (hs : runSwor k eos topk vs blank = .ok s) {a : ℝ} {N : Nat} (hN : 2 ≤ N)
    (hg : ∀ ts ∈ s.sequences, Real.exp a * seqProb (vs.map Prod.fst) ts * Real.log N < Real.exp 10) :
    ∃ p ps, s.plates = p :: ps ∧ weightUnordered a N p =
      .ok (some (s.sequences.map (approxWeight (seqProb (vs.map Prod.fst)) a 1e-6 N s.sequences.toFinset))) := by
  obtain ⟨h1, _, _, h3, p, ps, h4, h5⟩ := run_sequences hp hk vs hne hD hs
  refine ⟨p, ps, h4, ?_⟩
  have hn' : ∀ v ∈ vs.map Prod.fst, Normal v := by
    intro v hv
    obtain ⟨w, hw, rfl⟩ := List.mem_map.1 hv
    exact hn w hw
  exact weightUnordered_eq _ hN h1 (drawn_le_one hn' h1 h3) hg h5

/-- C66, the limit: unless everything was drawn, these weights converge, for more and more points and a vanishing summand, to
the probability of the sequence times the leave-one-out ratio: the probability that the other sequences are drawn without
replacement from all sequences but this one, divided by the probability that the set is drawn.  The limits sum to one.
Missing: sets of all sequences. -/
theorem C66_limit_partial {k : Nat} {eos : Option Nat} {topk : Nat → List (WithBot ℝ) → List ℝ → List Nat} (hp : Picks topk)
    (hk : 2 ≤ k) (vs : List (Var ℝ × (Nat → Nat → Nat → WithBot ℝ))) (hne : vs ≠ []) (hD : ∀ v ∈ vs, 2 ≤ v.1.dom)
    (hn : ∀ v ∈ vs, Normal v.1) {s : St ℝ} (hs : runSwor k eos topk vs blank = .ok s) (a : ℝ)
    (hall : k < (seqsOf (vs.map Prod.fst)).length) :
    ∃ w : List Nat → ℝ,
      (∀ ts, w ts = seqProb (vs.map Prod.fst) ts *
        drawLaw (seqProb (vs.map Prod.fst)) (s.width - 1) ((seqsOf (vs.map Prod.fst)).toFinset.erase ts)
          (s.sequences.toFinset.erase ts) /
        drawLaw (seqProb (vs.map Prod.fst)) s.width (seqsOf (vs.map Prod.fst)).toFinset s.sequences.toFinset) ∧
      (∀ ts ∈ s.sequences, Tendsto (fun z : Nat × ℝ =>
        approxWeight (seqProb (vs.map Prod.fst)) a z.2 z.1 s.sequences.toFinset ts) (atTop ×ˢ 𝓝[≥] 0) (𝓝 (w ts))) ∧
      (s.sequences.map w).sum = 1 := by
  obtain ⟨h1, h2, hw, h3, p, ps, h4, h5⟩ := run_sequences hp hk vs hne hD hs
  have hn' : ∀ v ∈ vs.map Prod.fst, Normal v := by
    intro v hv
    obtain ⟨w, hw, rfl⟩ := List.mem_map.1 hv
    exact hn w hw
  have hsub : s.sequences.toFinset ⊆ (seqsOf (vs.map Prod.fst)).toFinset := by
    intro ts hts
    simp only [List.mem_toFinset] at hts ⊢
    exact h3 ts hts
  have hnd := nodup_seqsOf (vs.map Prod.fst)
  have htot : ∑ ts ∈ (seqsOf (vs.map Prod.fst)).toFinset, seqProb (vs.map Prod.fst) ts = 1 := by
    rw [List.sum_toFinset _ hnd]
    exact (sum_some hn' hnd (fun _ h => h)).2 rfl
  have hcard : s.sequences.toFinset.card = s.width := by rw [List.toFinset_card_of_nodup h1, h2]
  have hproper : s.sequences.toFinset ≠ (seqsOf (vs.map Prod.fst)).toFinset := by
    intro h
    have := congrArg Finset.card h
    rw [hcard, List.toFinset_card_of_nodup hnd] at this
    have := (runSwor_good hp hk vs hne hD hs).most
    omega
  refine ⟨_, fun ts => rfl, ?_, ?_⟩
  · intro ts hts
    have := approxWeight_tendsto (seqProb_pos _) a hsub htot hproper (s := ts) (by simpa using hts)
    rwa [hcard] at this
  · have := ratio_sum (seqProb_pos (vs.map Prod.fst)) hsub htot (by
      rw [← Finset.card_pos, hcard]; omega)
    rw [hcard, List.sum_toFinset _ h1] at this
    exact this

/-! ### The expectation -/

/-- `e` is the weighted sum of the cost `f` over the samples of one variable, where `u` are the uniform random numbers behind
the Gumbel variables, which are conditioned on zero for the first variable (swor.py:65-66, 90). -/
def USEstimate (topk : Nat → List (WithBot ℝ) → List ℝ → List Nat) (k : Nat) (a : ℝ) (N : Nat) (v : Var ℝ)
    (f : List Nat → ℝ) (u : Fin v.dom → ℝ) (e : ℝ) : Prop :=
  ∃ r s p ps w, condGumbelSample ((List.range v.dom).map (v.logProb [] 0)) (List.ofFn (fun i => gumbelOf (u i))) 0 = .ok r ∧
    runSwor k none topk [(v, fun _ _ t => ((r.getD t 0 : ℝ) : WithBot ℝ))] blank = .ok s ∧ s.plates = p :: ps ∧
    weightUnordered a N p = .ok (some w) ∧ e = (List.zipWith (fun x c => x * f c) w s.sequences).sum

/-- The expected weighted sum over the sets drawn without replacement. -/
noncomputable def expectedUS {n : Nat} (p : Fin n → ℝ) (k : Nat) (a ε : ℝ) (N : Nat) (f : Fin n → ℝ) : ℝ :=
  ∑ T ∈ Finset.univ.powersetCard k, drawLaw p k Finset.univ T * ∑ s ∈ T, approxWeight p a ε N T s * f s

theorem expectedUS_tendsto {n : Nat} {p : Fin n → ℝ} (hp : ∀ i, 0 < p i) (h1 : ∑ i, p i = 1) {k : Nat} (hk : 1 ≤ k) (hkn : k < n)
    (a : ℝ) (f : Fin n → ℝ) :
    Tendsto (fun z : Nat × ℝ => expectedUS p k a z.2 z.1 f) (atTop ×ˢ 𝓝[≥] 0) (𝓝 (∑ s, p s * f s)) := by
  rw [← ratio_expectation hp (D := Finset.univ) hk (by simpa using hkn.le) f]
  refine tendsto_finsetSum _ (fun T hT => (tendsto_finsetSum _ (fun s hs => ?_)).const_mul _)
  obtain ⟨hsub, hc⟩ := Finset.mem_powersetCard.1 hT
  have hne : T ≠ Finset.univ := by
    rintro rfl
    rw [Finset.card_univ, Fintype.card_fin] at hc
    omega
  have := approxWeight_tendsto hp a hsub h1 hne hs
  rw [hc] at this
  exact this.mul_const _

theorem zipWith_maps {β : Type _} (f : List Nat → ℝ) (g : β → ℝ) (h : β → List Nat) (l : List β) :
    List.zipWith (fun x c => x * f c) (l.map g) (l.map h) = l.map (fun t => g t * f (h t)) := by
  induction l with
  | nil => rfl
  | cons a l ih => simp only [List.map_cons, List.zipWith_cons_cons, ih]

/-- C66, the expectation, for one variable without independent dimensions and more values than samples: the expected weighted
cost, over the uniform random numbers, is a quantity that converges to the exact expectation of the cost, for more and more
points and a vanishing summand.  Missing: several variables, as many samples as values. -/
theorem C66_expectation_partial {topk : Nat → List (WithBot ℝ) → List ℝ → List Nat} (hp : Picks topk) (hb : Best topk)
    {k : Nat} (hk : 2 ≤ k) (v : Var ℝ) (hev : v.events = []) (hkD : k < v.dom) (hn : Normal v) {a : ℝ} {N : Nat} (hN : 2 ≤ N)
    (hg : Real.exp a * Real.log N < Real.exp 10) (f : List Nat → ℝ) (E : (Fin v.dom → ℝ) → ℝ)
    (hE : ∀ u, (∀ i, u i ∈ Set.Ioo (0 : ℝ) 1) → USEstimate topk k a N v f u (E u)) :
    ∃ X : Nat → ℝ → ℝ, ∫ u, E u ∂cube v.dom = X N 1e-6 ∧
      (∀ M ε, X M ε = expectedUS (fun t : Fin v.dom => Real.exp (v.logProb [] 0 t)) k a ε M (fun t => f [(t : Nat)])) ∧
      Tendsto (fun z : Nat × ℝ => X z.1 z.2) (atTop ×ˢ 𝓝[≥] 0)
        (𝓝 (∑ t : Fin v.dom, Real.exp (v.logProb [] 0 t) * f [(t : Nat)])) := by
  have hgiv : ∀ t, v.given [] 0 t = v.logProb [] 0 t := by intro t; unfold Var.given; split <;> rfl
  set q : Fin v.dom → ℝ := fun t => Real.exp (v.logProb [] 0 t) with hq
  have hq0 : ∀ i, 0 < q i := fun i => Real.exp_pos _
  have htot : ∑ t, q t = 1 := by
    have := hn [] 0
    rw [← this, ← List.sum_ofFn]
    congr 1
    apply List.ext_getElem (by simp)
    intro i h1 h2
    simp [hq]
  refine ⟨fun M ε => expectedUS q k a ε M (fun t => f [(t : Nat)]), ?_, fun _ _ => rfl,
    expectedUS_tendsto hq0 htot (by omega) hkD a _⟩
  -- the estimate
  have key : ∀ u, (∀ i, u i ∈ Set.Ioo (0 : ℝ) 1) → ∃ K : Finset (Fin v.dom), K.card = k ∧
      (∀ t ∈ K, ∀ i ∉ K, gum q u i ≤ gum q u t) ∧ E u = ∑ t ∈ K, approxWeight q a 1e-6 N K t * f [(t : Nat)] := by
    intro u hu
    obtain ⟨r, s, pl, ps, w, h1, h2, h3, h4, h5⟩ := hE u hu
    obtain ⟨r', hr1, hr2, hr3⟩ := C49_order (logProbs := (List.range v.dom).map (v.logProb [] 0))
      (noise := List.ofFn (fun i => gumbelOf (u i))) (by simp) (by
        intro h
        have := congrArg List.length h
        simp only [List.length_map, List.length_range, List.length_nil] at this
        omega) 0
    rw [hr1, Except.ok.injEq] at h1
    subst h1
    have hrl : r'.length = v.dom := by rw [hr2]; simp
    set G : List (WithBot ℝ) := (List.range v.dom).map (fun t => ((r'.getD t 0 : ℝ) : WithBot ℝ)) with hG
    set J : List ℝ := (List.range v.dom).map (v.given [] 0) with hJ
    have hmin : min k v.dom = k := Nat.min_eq_left hkD.le
    have hGl : G.length = v.dom := by simp [hG]
    have hJl : J.length = G.length := by simp [hG, hJ]
    set arg := topk k G J with harg
    have hrun := scalar_run hp (k := k) hev (fun _ _ t => ((r'.getD t 0 : ℝ) : WithBot ℝ)) (arg := arg)
      (by rw [hmin])
    have hlen : arg.length = k := hp.len _ _ _ (by omega) hJl
    have hnd : arg.Nodup := hp.nodup _ _ _ (by omega) hJl
    have hrng : ∀ i ∈ arg, i < v.dom := by
      intro i hi
      have := hp.inRange _ _ _ (by omega) hJl i hi
      omega
    rw [hrun, Except.ok.injEq] at h2
    subst h2
    simp only [List.cons.injEq] at h3
    obtain ⟨rfl, rfl⟩ := h3
    obtain ⟨S, hS⟩ : ∃ S : List (Fin v.dom), S.map Fin.val = arg :=
      ⟨arg.pmap (fun t h => ⟨t, h⟩) hrng, by rw [List.map_pmap]; simp⟩
    have hSnd : S.Nodup := List.Nodup.of_map _ (by rw [hS]; exact hnd)
    have hmemS : ∀ t : Fin v.dom, t ∈ S ↔ (t : Nat) ∈ arg := by
      intro t
      rw [← hS, List.mem_map]
      constructor
      · intro h; exact ⟨t, h, rfl⟩
      · rintro ⟨t', h, e⟩; exact Fin.ext e ▸ h
    have hweight := weightUnordered_eq (fun t : Fin v.dom => v.logProb [] 0 t) hN hSnd (a := a)
      (p := ⟨arg.length, 0, arg.map (v.given [] 0), arg.map (fun t => ((r'.getD t 0 : ℝ) : WithBot ℝ)), none⟩) (by
        rw [← htot]
        exact Finset.sum_le_univ_sum_of_nonneg (fun t => (hq0 t).le)) (by
        intro t _
        refine lt_of_le_of_lt ?_ hg
        have : q t ≤ 1 := by
          rw [← htot]
          exact Finset.single_le_sum (f := q) (fun i _ => (hq0 i).le) (Finset.mem_univ t)
        have h0 : 0 ≤ Real.log N := Real.log_nonneg (by exact_mod_cast (by omega : 1 ≤ N))
        have : Real.exp a * Real.exp (v.logProb [] 0 t) ≤ Real.exp a := by
          have := mul_le_mul_of_nonneg_left this (Real.exp_pos a).le
          rwa [mul_one] at this
        exact mul_le_mul_of_nonneg_right this h0) (by
        simp only []
        rw [← hS, List.map_map]
        refine List.map_congr_left (fun t _ => ?_)
        rw [Function.comp, hgiv])
    rw [hweight, Except.ok.injEq, Option.some.injEq] at h4
    subst h4
    refine ⟨S.toFinset, ?_, ?_, ?_⟩
    · rw [List.toFinset_card_of_nodup hSnd, ← hlen, ← hS, List.length_map]
    · intro t ht i hi
      rw [List.mem_toFinset, hmemS] at ht hi
      have h6 := hb.best k G J (by omega) t ht i (by rw [hGl]; exact i.2) hi
      have hget : ∀ (t : Fin v.dom) (h : (t : Nat) < r'.length), G.getD t ⊥ = ((r'[(t : Nat)] : ℝ) : WithBot ℝ) := by
        intro t h
        simp only [hG, List.getD, List.getElem?_map, List.getElem?_range t.2, Option.map_some, Option.getD_some,
          List.getElem?_eq_getElem h]
      rw [hget i (by omega), hget t (by omega), WithBot.coe_le_coe, ← not_lt,
        hr3 t i (by simp) (by simp) (by omega) (by omega)] at h6
      have hlog : ∀ t : Fin v.dom, gum q u t = v.logProb [] 0 t + gumbelOf (u t) := by
        intro t
        rw [gum, hq, Real.log_exp, gumbelOf]
      rw [hlog, hlog]
      simpa using h6
    · have hseq : ∀ st : St ℝ, st.seq = [arg.map (fun a => [a])] → st.sequences = S.map (fun t : Fin v.dom => [(t : Nat)]) := by
        intro st hst
        rw [sequences_one hst, ← hS, List.map_map]
        rfl
      rw [h5, hseq _ rfl, List.sum_toFinset _ hSnd]
      rw [zipWith_maps]
  choose! K hK1 hK2 hK3 using key
  have hcongr : E =ᵐ[cube v.dom] fun u => (fun T => ∑ t ∈ T, approxWeight q a 1e-6 N T t * f [(t : Nat)]) (K u) := by
    filter_upwards [cube_mem v.dom] with u hu
    exact hK3 u hu
  exact (integral_congr_ae hcongr).trans (gumbel_top hq0 hkD K (fun u hu => ⟨hK1 u hu, hK2 u hu⟩)
    (fun T => ∑ t ∈ T, approxWeight q a 1e-6 N T t * f [(t : Nat)]))

/-- The estimate exists. -/
theorem usEstimate_total {topk : Nat → List (WithBot ℝ) → List ℝ → List Nat} (hp : Picks topk) {k : Nat} (v : Var ℝ)
    (hev : v.events = []) (hd : v.dom ≠ 0) (a : ℝ) {N : Nat} (hN : 2 ≤ N) (f : List Nat → ℝ) (u : Fin v.dom → ℝ) :
    ∃ e, USEstimate topk k a N v f u e := by
  obtain ⟨r, h1, _⟩ := C49_order (logProbs := (List.range v.dom).map (v.logProb [] 0))
    (noise := List.ofFn (fun i => gumbelOf (u i))) (by simp) (by simpa using hd) 0
  have hrun := scalar_run hp (k := k) hev (fun _ _ t => ((r.getD t 0 : ℝ) : WithBot ℝ)) rfl
  have hw : ∀ p : APlate ℝ, ∃ w, weightUnordered a N p = .ok (some w) := fun p =>
    ⟨_, by rw [weightUnordered, if_neg (by omega), if_neg (by omega)]⟩
  obtain ⟨w, hw⟩ := hw _
  exact ⟨_, r, _, _, _, w, h1, hrun, rfl, hw, rfl⟩

/-- Nothing in the default configuration uses the series. -/
theorem default_below : Real.exp 5 * Real.log ((1000 : Nat) : ℝ) < Real.exp 10 := by
  have h1 : Real.log ((1000 : Nat) : ℝ) < 7 := by
    rw [Real.log_lt_iff_lt_exp (by norm_num)]
    have h2 : (2.7182818283 : ℝ) < Real.exp 1 := Real.exp_one_gt_d9
    have h3 : Real.exp 7 = Real.exp 1 ^ 7 := by rw [← Real.exp_nat_mul]; norm_num
    rw [h3]
    refine lt_trans ?_ (pow_lt_pow_left₀ h2 (by norm_num) (by norm_num))
    norm_num
  have h4 : (7 : ℝ) < Real.exp 5 := by
    have h2 : (2.7182818283 : ℝ) < Real.exp 1 := Real.exp_one_gt_d9
    have h3 : Real.exp 5 = Real.exp 1 ^ 5 := by rw [← Real.exp_nat_mul]; norm_num
    rw [h3]
    refine lt_trans ?_ (pow_lt_pow_left₀ h2 (by norm_num) (by norm_num))
    norm_num
  have h5 : Real.exp 10 = Real.exp 5 * Real.exp 5 := by rw [← Real.exp_add]; norm_num
  rw [h5]
  exact mul_lt_mul_of_pos_left (h1.trans h4) (Real.exp_pos 5)

/-- Two samples of a variable with three values and the default parameters: the expected weighted cost is that of the sets
drawn without replacement. -/
example (f : List Nat → ℝ) : ∃ E : (Fin three.dom → ℝ) → ℝ, (∀ u, USEstimate sortTop 2 5 1000 three f u (E u)) ∧
    ∫ u, E u ∂cube three.dom =
      expectedUS (fun t : Fin three.dom => Real.exp (three.logProb [] 0 t)) 2 5 1e-6 1000 (fun t => f [(t : Nat)]) := by
  choose E hE using fun u => usEstimate_total sortTop_picks (k := 2) three rfl (by decide) 5 (N := 1000) (by decide) f u
  obtain ⟨X, h1, h2, _⟩ := C66_expectation_partial sortTop_picks sortTop_best (k := 2) le_rfl three rfl (by decide) three_normal
    (N := 1000) (by decide) (a := 5) default_below f E (fun u _ => hE u)
  exact ⟨E, hE, h1.trans (h2 _ _)⟩

/-- The sequences of two dependent variables, three of six, are weighted as claimed. -/
example (n m : Nat → Nat → Nat → WithBot ℝ) : ∃ s p, runSwor 3 none sortTop [(three, n), (pairOn, m)] blank = .ok s ∧
    s.plates.head? = some p ∧ weightUnordered 5 1000 p =
      .ok (some (s.sequences.map (approxWeight (seqProb [three, pairOn]) 5 1e-6 1000 s.sequences.toFinset))) := by
  obtain ⟨s, hs, _⟩ := runSwor_total (k := 3) (eos := none) (sortTop_picks (α := ℝ)) (by decide) [(three, n), (pairOn, m)]
    (by simp [three, pairOn])
  have hn : ∀ v ∈ [(three, n), (pairOn, m)], Normal v.1 := by
    simpa using ⟨three_normal, pairOn_normal⟩
  have hne : [(three, n), (pairOn, m)] ≠ [] := by simp
  have hD : ∀ v ∈ [(three, n), (pairOn, m)], 2 ≤ v.1.dom := by simp [three, pairOn]
  obtain ⟨h1, _, _, h3, _⟩ := run_sequences sortTop_picks (by decide) _ hne hD hs
  obtain ⟨p, ps, h4, h5⟩ := C66_weights_partial sortTop_picks (by decide) _ hne hD hn hs (a := 5) (N := 1000) (by decide) (by
    intro ts hts
    refine lt_of_le_of_lt ?_ default_below
    refine mul_le_mul_of_nonneg_right ?_ (Real.log_nonneg (by norm_num))
    have : seqProb [three, pairOn] ts ≤ 1 := by
      refine le_trans ?_ (drawn_le_one (by simpa using ⟨three_normal, pairOn_normal⟩) h1 h3)
      exact Finset.single_le_sum (f := seqProb [three, pairOn]) (fun i _ => (seqProb_pos _ _).le) (by simpa using hts)
    have := mul_le_mul_of_nonneg_left this (Real.exp_pos 5).le
    rwa [mul_one] at this)
  exact ⟨s, p, hs, by rw [h4]; rfl, h5⟩

/-- The same sequences for `C66_limit_partial`. -/
example (n m : Nat → Nat → Nat → WithBot ℝ) : ∃ (s : St ℝ) (w : List Nat → ℝ),
    runSwor 3 none sortTop [(three, n), (pairOn, m)] blank = .ok s ∧
    (∀ ts ∈ s.sequences, Tendsto (fun z : Nat × ℝ => approxWeight (seqProb [three, pairOn]) 5 z.2 z.1 s.sequences.toFinset ts)
      (atTop ×ˢ 𝓝[≥] 0) (𝓝 (w ts))) ∧ (s.sequences.map w).sum = 1 := by
  obtain ⟨s, hs, _⟩ := runSwor_total (k := 3) (eos := none) (sortTop_picks (α := ℝ)) (by decide) [(three, n), (pairOn, m)]
    (by simp [three, pairOn])
  obtain ⟨w, _, h⟩ := C66_limit_partial sortTop_picks (by decide) [(three, n), (pairOn, m)] (by simp) (by simp [three, pairOn])
    (by simpa using ⟨three_normal, pairOn_normal⟩) hs 5 (by
      rw [show List.map Prod.fst [(three, n), (pairOn, m)] = [three, pairOn] from rfl]; decide)
  exact ⟨s, w, hs, h⟩

/-- The series is used for large arguments, where it is not valid (unordered_set.py:62-64): both samples of a fair coin get
weights above a thousand, for which the sum should be about one. -/
theorem C66_series_refuted : ∃ (a : ℝ) (s : St ℝ) (p : APlate ℝ) (w : List ℝ),
    runSwor 2 none sortTop [(coinR, fun _ _ t => (((t : ℝ)) : WithBot ℝ))] blank = .ok s ∧ s.plates = [p] ∧
    weightUnordered a 2 p = .ok (some w) ∧ w.length = 2 ∧ ∀ x ∈ w, 1000 < x := by
  obtain ⟨s, h1, _, h3⟩ := two_run 0 1 (fun _ _ t => (((t : ℝ)) : WithBot ℝ)) (by simp) (by simp)
  have hl2 : 0 < Real.log 2 := Real.log_pos (by norm_num)
  have hlog : Real.log ((1 : ℝ) / 2) = -Real.log 2 := by rw [Real.log_div (by norm_num) (by norm_num)]; simp
  set a : ℝ := 10 + Real.log 2 - Real.log (Real.log 2) with ha
  have hg : gBound a (-Real.log 2) (1 / 2) = 10 := by
    rw [gBound, hlog, neg_neg, ha]; ring
  have hpts : intPoints 2 = [1 / 2] := by simp [intPoints, List.range_succ]
  set T := survTerm a (-Real.log 2) (1 / 2) with hT
  have hTv : T = -10 - Real.exp 10 / 2 + Real.exp 10 ^ 2 / 24 - Real.exp 10 ^ 4 / 2880 := by
    rw [hT, survTerm]
    simp only [hg, ge_iff_le, le_refl, if_true]
  refine ⟨a, s, _, _, h1, h3, by rw [weightUnordered, if_neg (by decide), if_neg (by decide)], by simp, ?_⟩
  intro x hx
  have hx' : x = Real.exp (logPWithout a 2 [-Real.log 2, -Real.log 2] (-Real.log 2) -
      logPS a 2 [-Real.log 2, -Real.log 2] + -Real.log 2) := by simpa using hx
  have hlse : ∀ y : ℝ, logsumexpL [y] = y := by intro y; simp [logsumexpL]
  have hval : x = Real.exp (-T + -Real.log 2) := by
    rw [hx', logPWithout, logPS, hpts, List.map_singleton, List.map_singleton, hlse, hlse]
    congr 1
    ring
  have h10 : (100 : ℝ) ≤ Real.exp 10 := by
    have h2 : (2.7182818283 : ℝ) < Real.exp 1 := Real.exp_one_gt_d9
    have h3 : Real.exp 10 = Real.exp 1 ^ 10 := by rw [← Real.exp_nat_mul]; norm_num
    rw [h3]
    refine le_trans ?_ (pow_lt_pow_left₀ h2 (by norm_num) (by norm_num)).le
    norm_num
  have hbig : Real.exp 10 / 2 ≤ -T := by
    rw [hTv]
    have : Real.exp 10 ^ 2 / 24 ≤ Real.exp 10 ^ 4 / 2880 := by
      have h5 : 0 < Real.exp 10 ^ 2 := by positivity
      have h6 : (120 : ℝ) ≤ Real.exp 10 ^ 2 := by nlinarith
      nlinarith
    linarith
  rw [hval, Real.exp_add, Real.exp_neg (Real.log 2), Real.exp_log (by norm_num)]
  have h50 : (50 : ℝ) ≤ -T := by linarith
  have h7 : Real.exp 10 ≤ Real.exp (-T) := Real.exp_le_exp.2 (by linarith)
  have h8 : (2000 : ℝ) < Real.exp 10 := by
    have h2 : (2.7182818283 : ℝ) < Real.exp 1 := Real.exp_one_gt_d9
    have h3 : Real.exp 10 = Real.exp 1 ^ 10 := by rw [← Real.exp_nat_mul]; norm_num
    rw [h3]
    refine lt_trans ?_ (pow_lt_pow_left₀ h2 (by norm_num) (by norm_num))
    norm_num
  linarith

end Storch.Decode
