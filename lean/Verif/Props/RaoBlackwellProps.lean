import Verif.Lemmas.RaoBlackwellLemmas
import Verif.Lemmas.GumbelMax
import Verif.Props.SworBiasProps

/-!
# Rao-Blackwellised sampling (C48)
-/

namespace Storch.Decode

open MeasureTheory Storch.Gumbel

variable {top : Nat → List ℝ → List Nat} {amax : List (WithBot ℝ) → Nat} {low : WithBot ℝ} {k : Nat} {eos : Option Nat}

/-- C48, the weights: for any number of variables whose probabilities sum to one, with any dependencies and independent
dimensions, whatever is decoded: there is one weight per sequence, the sequences are different, the weights are not
negative and sum to one; the weight of a sequence is its probability, except for the `k`-th sequence. -/
theorem C48_weights (ht : TopOf top) (ha : MaxOf amax) (vs : List (Var ℝ × (Nat → Nat → Nat → WithBot ℝ))) (hne : vs ≠ [])
    (hD : ∀ v ∈ vs, 2 ≤ v.1.dom) (hN : ∀ v ∈ vs, Normal v.1) (hlow : ∀ v ∈ vs, ∀ e r t, low < v.2 e r t) (s : St ℝ)
    (hs : runRB top amax low k eos vs = .ok s) :
    ∃ p ps, s.plates = p :: ps ∧ (weightRB k p).length = s.width ∧ s.sequences.Nodup ∧ s.width ≤ k ∧
      (∀ w ∈ weightRB k p, 0 ≤ w) ∧ (weightRB k p).sum = 1 ∧
      ∀ r < s.width, r + 1 < k → (weightRB k p)[r]? = some (Real.exp (logJoint (vs.map Prod.fst) [] (s.sequence r))) := by
  rw [runRB_eq hlow] at hs
  split at hs
  · simp at hs
  · rename_i hk
    have hk : 2 ≤ k := by omega
    have hp := rbTotal_picks ht ha low (k := k) (by omega)
    have hg := runSwor_good hp hk vs hne hD hs
    obtain ⟨_, p, ps, h1, h2, _⟩ := runSwor_wide hp hk vs hne hD hs
    obtain ⟨hw, hmem⟩ := runSwor_seqs hp hk vs hne hD hs
    have hj := C45_partial hp hk vs hne hD s hs
    have hlp : p.logProbs = s.sequences.map (logJoint (vs.map Prod.fst) []) := by rw [h2, hj]; rfl
    have hlen : s.sequences.length = s.width := by simp [St.sequences]
    have hnd : s.sequences.Nodup := by
      refine List.Nodup.map_on ?_ List.nodup_range
      intro a ha b hb
      exact hg.distinct a (List.mem_range.1 ha) b (List.mem_range.1 hb)
    have hsub : ∀ ts ∈ s.sequences, ts ∈ seqsOf (vs.map Prod.fst) := by
      intro ts h
      obtain ⟨r, hr, rfl⟩ := List.mem_map.1 h
      exact hmem r (List.mem_range.1 hr)
    have hN' : ∀ v ∈ vs.map Prod.fst, Normal v := by
      intro v hv
      obtain ⟨w, hw, rfl⟩ := List.mem_map.1 hv
      exact hN w hw
    have hget : ∀ r < s.width, s.sequences[r]? = some (s.sequence r) := by
      intro r hr
      simp [St.sequences, hr]
    refine ⟨p, ps, h1, ?_, hnd, hg.most, ?_⟩
    · unfold weightRB
      rw [hlp]
      split
      · rename_i h
        simp only [List.length_map] at h
        have := hg.pos
        simp [hlen]
        omega
      · simp [hlen]
    · unfold weightRB
      rw [hlp]
      simp only [List.length_map, hlen]
      split
      · rename_i hwk
        have hdl : ((s.sequences.map (logJoint (vs.map Prod.fst) [])).dropLast.map Real.exp) =
            s.sequences.dropLast.map (fun ts => Real.exp (logJoint (vs.map Prod.fst) [] ts)) := by
          rw [List.map_dropLast, List.map_map, ← List.map_dropLast]; rfl
        rw [hdl]
        obtain ⟨hle, _⟩ := sum_some hN' (l := s.sequences.dropLast) (hnd.sublist (List.dropLast_sublist _))
          (fun ts h => hsub ts (List.mem_of_mem_dropLast h))
        refine ⟨?_, by simp, ?_⟩
        · intro w hw
          rcases List.mem_append.1 hw with hw | hw
          · obtain ⟨ts, _, rfl⟩ := List.mem_map.1 hw
            exact (Real.exp_pos _).le
          · rw [List.mem_singleton] at hw
            rw [hw]
            linarith
        · intro r hr hrk
          rw [List.getElem?_append_left (by simp [hlen]; omega), List.getElem?_map, List.getElem?_dropLast,
            if_pos (by omega), hget r hr]
          rfl
      · rename_i hwk
        rw [List.map_map]
        obtain ⟨_, heq⟩ := sum_some hN' hnd hsub
        refine ⟨?_, ?_, ?_⟩
        · intro w hw
          obtain ⟨ts, _, rfl⟩ := List.mem_map.1 hw
          exact (Real.exp_pos _).le
        · exact heq (by have := hg.most; omega)
        · intro r hr _
          rw [List.getElem?_map, hget r hr]
          rfl

/-- C48, when there are at most `k` sequences: for any number of variables and any random numbers, the weighted cost is the
exact expectation. -/
theorem C48_enumerated (ht : TopOf top) (ha : MaxOf amax) (vs : List (Var ℝ × (Nat → Nat → Nat → WithBot ℝ))) (hne : vs ≠ [])
    (hD : ∀ v ∈ vs, 2 ≤ v.1.dom) (hN : ∀ v ∈ vs, Normal v.1) (hlow : ∀ v ∈ vs, ∀ e r t, low < v.2 e r t) (s : St ℝ)
    (hs : runRB top amax low k eos vs = .ok s) (hfew : (seqsOf (vs.map Prod.fst)).length ≤ k) (f : List Nat → ℝ) :
    ∃ p ps, s.plates = p :: ps ∧ (List.zipWith (fun w c => w * f c) (weightRB k p) s.sequences).sum =
      ((seqsOf (vs.map Prod.fst)).map (fun ts => Real.exp (logJoint (vs.map Prod.fst) [] ts) * f ts)).sum := by
  obtain ⟨p, ps, h1, h2, h3, h4, h5, h6, h7⟩ := C48_weights ht ha vs hne hD hN hlow s hs
  refine ⟨p, ps, h1, ?_⟩
  rw [runRB_eq hlow] at hs
  split at hs
  · simp at hs
  · rename_i hk
    have hp := rbTotal_picks ht ha low (k := k) (by omega)
    obtain ⟨hw, hmem⟩ := runSwor_seqs hp (by omega) vs hne hD hs
    have hlen : s.sequences.length = s.width := by simp [St.sequences]
    have hsub : ∀ ts ∈ s.sequences, ts ∈ seqsOf (vs.map Prod.fst) := by
      intro ts h
      obtain ⟨r, hr, rfl⟩ := List.mem_map.1 h
      exact hmem r (List.mem_range.1 hr)
    have hN' : ∀ v ∈ vs.map Prod.fst, Normal v := by
      intro v hv
      obtain ⟨w, hw, rfl⟩ := List.mem_map.1 hv
      exact hN w hw
    have hperm : s.sequences.Perm (seqsOf (vs.map Prod.fst)) := (h3.subperm hsub).perm_of_length_le (by omega)
    obtain ⟨_, htot⟩ := sum_some hN' h3 hsub
    have htot := htot (by omega)
    set g := fun ts => Real.exp (logJoint (vs.map Prod.fst) [] ts) with hg
    -- the weights are the probabilities
    have hweq : weightRB k p = s.sequences.map g := by
      have hget : ∀ r < s.width, s.sequences[r]? = some (s.sequence r) := by
        intro r hr
        simp [St.sequences, hr]
      have hdrop : ∀ r < s.width, r + 1 < k → (weightRB k p)[r]? = (s.sequences.map g)[r]? := by
        intro r hr hrk
        rw [h7 r hr hrk, List.getElem?_map, hget r hr]
        rfl
      by_cases hwk : s.width = k
      · have hl1 : (weightRB k p) ≠ [] := by intro h; rw [h] at h2; simp at h2; omega
        have hl2 : (s.sequences.map g) ≠ [] := by
          intro h
          have := congrArg List.length h
          simp [hlen] at this
          omega
        have hdl : (weightRB k p).dropLast = (s.sequences.map g).dropLast := by
          apply List.ext_getElem?
          intro r
          rw [List.getElem?_dropLast, List.getElem?_dropLast, h2, List.length_map, hlen]
          split
          · exact hdrop r (by omega) (by omega)
          · rfl
        have e1 := List.dropLast_append_getLast hl1
        have e2 := List.dropLast_append_getLast hl2
        have hlast : (weightRB k p).getLast hl1 = (s.sequences.map g).getLast hl2 := by
          have s1 := h6
          have s2 := htot
          rw [← e1, List.sum_append, hdl] at s1
          rw [← e2, List.sum_append] at s2
          simp only [List.sum_cons, List.sum_nil, add_zero] at s1 s2
          linarith
        rw [← e1, ← e2, hdl, hlast]
      · apply List.ext_getElem?
        intro r
        by_cases hr : r < s.width
        · exact hdrop r hr (by omega)
        · rw [List.getElem?_eq_none (by omega), List.getElem?_eq_none (by rw [List.length_map, hlen]; omega)]
    rw [hweq, ← (hperm.map _).sum_eq]
    generalize s.sequences = l
    induction l with
    | nil => rfl
    | cons a l ih => rw [List.map_cons, List.zipWith_cons_cons, List.map_cons, List.sum_cons, List.sum_cons, ih]

theorem rbTotal_scalar {α : Type _} [LinearOrder α] {top : Nat → List α → List Nat} (ht : TopOf top)
    {amax : List (WithBot α) → Nat} (ha : MaxOf amax) {low : WithBot α} {k : Nat} {l : List (WithBot α)} {j : List α}
    (hl : ∀ x ∈ l, low < x) (hk : 1 ≤ k) (hkl : k ≤ l.length) (hj : j.length = l.length) :
    ∃ over x, rbTotal top amax low k k l j = over ++ [x] ∧ over = top (k - 1) j ∧ over.length = k - 1 ∧ x ∉ over ∧
      x < l.length ∧ ∀ i, i ∉ over → ∀ a b, l[x]? = some a → l[i]? = some b → b ≤ a := by
  have h1 := ht.len (k - 1) j (by omega)
  obtain ⟨a1, a2, a3⟩ := amax_fresh ha (over := top (k - 1) j) hl (by omega)
  refine ⟨top (k - 1) j, amax (scatterLow low (top (k - 1) j) l), ?_, rfl, h1, a1, a2, a3⟩
  rw [rbTotal, if_pos ⟨le_rfl, hl⟩, rbSelect, if_pos rfl, Nat.min_eq_left (by omega)]

/-- C48, the samples, for one variable without independent dimensions that has at least `k` values: the first `k - 1`
samples are different values that no other value exceeds in probability, the last one is another value, and has the
largest of the Gumbel variables of the values that remain.  The first `k - 1` samples do not depend on the random numbers.
Missing: several cells or variables
(`C48_samples_refuted`). -/
theorem C48_samples_partial (ht : TopOf top) (ha : MaxOf amax) (v : Var ℝ) (hev : v.events = [])
    (noise : Nat → Nat → Nat → WithBot ℝ) (hlow : ∀ e r t, low < noise e r t) (hk : 2 ≤ k) (hkD : k ≤ v.dom) :
    ∃ s over x, over = top (k - 1) ((List.range v.dom).map (v.given [] 0)) ∧
      runRB top amax low k eos [(v, noise)] = .ok s ∧ s.sequences = over.map (fun t => [t]) ++ [[x]] ∧
      over.length = k - 1 ∧ over.Nodup ∧ (∀ t ∈ over, t < v.dom) ∧ x < v.dom ∧ x ∉ over ∧
      (∀ t ∈ over, ∀ t' < v.dom, t' ∉ over → v.given [] 0 t' ≤ v.given [] 0 t) ∧
      (∀ t' < v.dom, t' ∉ over → noise 0 0 t' ≤ noise 0 0 x) ∧
      ∃ p, s.plates = [p] ∧ p.logProbs = (over ++ [x]).map (v.given [] 0) := by
  have hl : ∀ y ∈ (List.range v.dom).map (noise 0 0), low < y := by
    intro y hy
    obtain ⟨t, _, rfl⟩ := List.mem_map.1 hy
    exact hlow 0 0 t
  obtain ⟨over, x, h1, h2, h3, h4, h5, h6⟩ := rbTotal_scalar ht ha (k := k) (j := (List.range v.dom).map (v.given [] 0)) hl
    (by omega) (by simpa using hkD) (by simp)
  have hp := rbTotal_picks ht ha low (k := k) (by omega)
  have h5' : x < v.dom := by simpa using h5
  have hrun := scalar_run hp (k := k) hev noise (arg := over ++ [x]) (by rw [Nat.min_eq_left hkD]; exact h1)
  have hm : k - 1 ≤ ((List.range v.dom).map (v.given [] 0)).length := by rw [List.length_map, List.length_range]; omega
  refine ⟨_, over, x, h2, by rw [runRB_eq (by simpa using hlow), if_neg (by omega)]; exact hrun, ?_, h3, ?_, ?_, ?_, h4, ?_, ?_,
    _, rfl, rfl⟩
  · apply List.ext_getElem?
    intro r
    by_cases hr : r < over.length + 1
    · have hr' : r < (over ++ [x]).length := by simpa using hr
      have e1 : over.map (fun t => [t]) ++ [[x]] = (over ++ [x]).map (fun t => [t]) := by simp
      rw [e1]
      simp only [St.sequences, St.width, St.sequence, List.getLast?_singleton, Option.map_some, Option.getD_some,
        List.length_map, List.getElem?_map, List.getElem?_range hr', List.flatMap_cons, List.flatMap_nil, List.append_nil,
        List.getElem?_eq_getElem hr', List.getD]
    · rw [List.getElem?_eq_none (by simpa [St.sequences, St.width] using hr), List.getElem?_eq_none (by simpa using hr)]
  · rw [h2]; exact ht.nodup _ _ hm
  · intro t htm
    rw [h2] at htm
    simpa using ht.inRange _ _ hm t htm
  · simpa using h5
  · intro t htm t' ht' hnt
    have htD : t < v.dom := by
      rw [h2] at htm
      simpa using ht.inRange _ _ hm t htm
    rw [h2] at htm hnt
    exact ht.best _ _ hm t htm t' hnt _ _ (by simp [htD]) (by simp [ht'])
  · intro t' ht' hnt
    exact h6 t' hnt _ _ (by simp [h5']) (by simp [ht'])

/-- `e` is the weighted sum of the cost `f` over the samples, where `u` are the uniform random numbers behind the Gumbel
variables, which are conditioned on zero for the first variable (swor.py:65-66, 90).  The value `-1e10` (mapo.py:73) stands
for minus infinity here: no Gumbel variable is that small in the floating-point numbers of torch. -/
def RBEstimate (top : Nat → List ℝ → List Nat) (amax : List (WithBot ℝ) → Nat) (k : Nat) (eos : Option Nat) (v : Var ℝ)
    (f : List Nat → ℝ) (u : Fin v.dom → ℝ) (e : ℝ) : Prop :=
  ∃ r s p ps, condGumbelSample ((List.range v.dom).map (v.logProb [] 0)) (List.ofFn (fun i => gumbelOf (u i))) 0 = .ok r ∧
    runRB top amax ⊥ k eos [(v, fun _ _ t => ((r.getD t 0 : ℝ) : WithBot ℝ))] = .ok s ∧ s.plates = p :: ps ∧
    e = (List.zipWith (fun w c => w * f c) (weightRB k p) s.sequences).sum

theorem zipWith_sum (f : List Nat → ℝ) (g : Nat → ℝ) (l : List Nat) :
    (List.zipWith (fun w c => w * f c) (l.map g) (l.map (fun t => [t]))).sum = (l.map (fun t => g t * f [t])).sum := by
  induction l with
  | nil => rfl
  | cons a l ih => simp

/-- C48, the expectation, for one variable without independent dimensions: the expected weighted cost, over the uniform
random numbers, is the exact expectation of the cost.  Missing: several variables (`C48_refuted`). -/
theorem C48_expectation_partial (ht : TopOf top) (ha : MaxOf amax) (hk : 2 ≤ k) (v : Var ℝ) (hev : v.events = [])
    (hkD : k ≤ v.dom) (hN : Normal v) (f : List Nat → ℝ) (E : (Fin v.dom → ℝ) → ℝ)
    (hE : ∀ u, (∀ i, u i ∈ Set.Ioo (0 : ℝ) 1) → RBEstimate top amax k eos v f u (E u)) :
    ∫ u, E u ∂cube v.dom = ∑ t : Fin v.dom, Real.exp (v.logProb [] 0 t) * f [(t : Nat)] := by
  have hgiv : ∀ t, v.given [] 0 t = v.logProb [] 0 t := by intro t; unfold Var.given; split <;> rfl
  set p : Fin v.dom → ℝ := fun t => Real.exp (v.logProb [] 0 t) with hpdef
  have hp : ∀ i, 0 < p i := fun i => Real.exp_pos _
  have hm : k - 1 ≤ ((List.range v.dom).map (v.given [] 0)).length := by rw [List.length_map, List.length_range]; omega
  set over := top (k - 1) ((List.range v.dom).map (v.given [] 0)) with hover
  have hol : over.length = k - 1 := ht.len _ _ hm
  have hond : over.Nodup := ht.nodup _ _ hm
  have hor : ∀ i ∈ over, i < v.dom := by intro i hi; simpa using ht.inRange _ _ hm i hi
  set R : Finset (Fin v.dom) := Finset.univ.filter (fun i => (i : Nat) ∉ over) with hR
  -- the sum over the samples that are summed over
  have hsumO : ∀ g : Nat → ℝ, (over.map g).sum = ∑ t ∈ Finset.univ.filter (fun i : Fin v.dom => (i : Nat) ∈ over), g t := by
    intro g
    have h1 : (over.map g).sum = ∑ t ∈ over.toFinset, g t := by
      rw [List.sum_toFinset _ hond]
    rw [h1]
    refine (Finset.sum_bij (fun (i : Fin v.dom) _ => (i : Nat)) ?_ ?_ ?_ ?_).symm
    · intro i hi; simpa using hi
    · intro i _ j _ h; exact Fin.ext h
    · intro t htm
      have htm' : t ∈ over := by simpa using htm
      exact ⟨⟨t, hor t htm'⟩, by simpa using htm', rfl⟩
    · intro i _; rfl
  have hsplit : ∀ g : Fin v.dom → ℝ, ∑ t ∈ Finset.univ.filter (fun i : Fin v.dom => (i : Nat) ∈ over), g t + ∑ t ∈ R, g t =
      ∑ t, g t := fun g => Finset.sum_filter_add_sum_filter_not _ _ _
  have htot : ∑ t, p t = 1 := by
    have := hN [] 0
    rw [← this, ← List.sum_ofFn]
    congr 1
    apply List.ext_getElem (by simp)
    intro i h1 h2
    simp [hpdef]
  -- what the estimate is
  have key : ∀ u, (∀ i, u i ∈ Set.Ioo (0 : ℝ) 1) → ∃ x ∈ R, (∀ i ∈ R, gum p u i ≤ gum p u x) ∧
      E u = ∑ t ∈ Finset.univ.filter (fun i : Fin v.dom => (i : Nat) ∈ over), p t * f [(t : Nat)] +
        (∑ t ∈ R, p t) * f [(x : Nat)] := by
    intro u hu
    obtain ⟨r, s, pl, ps, h1, h2, h3, h4⟩ := hE u hu
    obtain ⟨r', hr1, hr2, hr3⟩ := C49_order (logProbs := (List.range v.dom).map (v.logProb [] 0))
      (noise := List.ofFn (fun i => gumbelOf (u i))) (by simp) (by
        intro h
        have := congrArg List.length h
        simp only [List.length_map, List.length_range, List.length_nil] at this
        omega) 0
    rw [hr1, Except.ok.injEq] at h1
    subst h1
    obtain ⟨s', ov, x, g0, g1, g2, g3, g4, g5, g6, g7, g8, g9, p', g10, g11⟩ := C48_samples_partial (low := ⊥) (eos := eos) ht ha v hev
      (fun _ _ t => ((r'.getD t 0 : ℝ) : WithBot ℝ)) (fun e r t => WithBot.bot_lt_coe _) hk hkD
    rw [← hover] at g0
    subst g0
    rw [g1, Except.ok.injEq] at h2
    subst h2
    rw [g10, List.cons.injEq] at h3
    obtain ⟨rfl, rfl⟩ := h3
    have hget : ∀ (t : Fin v.dom) (h : (t : Nat) < r'.length), ((r'.getD t 0 : ℝ) : WithBot ℝ) = ((r'[(t : Nat)] : ℝ) : WithBot ℝ) := by
      intro t h
      rw [List.getD, List.getElem?_eq_getElem h]; rfl
    have hrl : r'.length = v.dom := by rw [hr2]; simp
    have hxR : (⟨x, g6⟩ : Fin v.dom) ∈ R := by simpa [hR] using g7
    have hpR : 1 - (over.map (fun t => Real.exp (v.given [] 0 t))).sum = ∑ t ∈ R, p t := by
      have := hsplit p
      rw [hsumO (fun t => Real.exp (v.given [] 0 t))]
      simp only [hgiv]
      rw [htot] at this
      linarith
    refine ⟨⟨x, g6⟩, hxR, ?_, ?_⟩
    · intro i hi
      have hi' : (i : Nat) ∉ over := by simpa [hR] using hi
      have h5 := g9 i i.2 hi'
      rw [hget i (by omega), hget ⟨x, g6⟩ (by simp only []; omega), WithBot.coe_le_coe, ← not_lt, hr3 x i (by simpa using g6) (by simp) (by omega) (by omega)] at h5
      have hlog : ∀ t : Fin v.dom, gum p u t = v.logProb [] 0 t + gumbelOf (u t) := by
        intro t
        rw [gum, hpdef, Real.log_exp, gumbelOf]
      rw [hlog, hlog]
      simpa using h5
    · rw [h4, weightRB, g11, if_pos (by simp [hol]; omega), g2]
      simp only [List.map_append, List.map_cons, List.map_nil, List.dropLast_concat, List.map_map]
      rw [List.zipWith_append (by simp), List.sum_append]
      simp only [List.zipWith_cons_cons, List.zipWith_nil_right, List.sum_cons, List.sum_nil, add_zero]
      rw [show (Real.exp ∘ v.given [] 0) = fun t => Real.exp (v.given [] 0 t) from rfl, hpR, zipWith_sum, hsumO]
      simp only [hgiv, hpdef]
  have : Nonempty (Fin v.dom) := ⟨⟨0, by omega⟩⟩
  choose! J hJ1 hJ2 hJ3 using key
  have hRne : R.Nonempty := ⟨J (fun _ => 1 / 2), hJ1 _ (fun _ => by constructor <;> norm_num)⟩
  have hP : ∑ t ∈ R, p t ≠ 0 := (Finset.sum_pos (fun i _ => hp i) hRne).ne'
  have hcongr : E =ᵐ[cube v.dom] fun u => (fun x : Fin v.dom =>
      ∑ t ∈ Finset.univ.filter (fun i : Fin v.dom => (i : Nat) ∈ over), p t * f [(t : Nat)] +
        (∑ t ∈ R, p t) * f [(x : Nat)]) (J u) := by
    filter_upwards [cube_mem v.dom] with u hu
    exact hJ3 u hu
  have hmax := gumbel_max hp hRne J (fun u hu => ⟨hJ1 u hu, hJ2 u hu⟩) (fun x : Fin v.dom =>
      ∑ t ∈ Finset.univ.filter (fun i : Fin v.dom => (i : Nat) ∈ over), p t * f [(t : Nat)] +
        (∑ t ∈ R, p t) * f [(x : Nat)])
  refine (integral_congr_ae hcongr).trans (hmax.trans ?_)
  rw [← hsplit (fun t => Real.exp (v.logProb [] 0 t) * f [(t : Nat)])]
  simp only [mul_add, Finset.sum_add_distrib]
  rw [← Finset.sum_mul, ← Finset.sum_div, div_self hP, one_mul]
  congr 1
  refine Finset.sum_congr rfl (fun t _ => ?_)
  field_simp
  rw [mul_comm]

/-! ### Several variables -/

/-- The probabilities of three values. -/
noncomputable def p3 : Nat → ℝ
  | 0 => 2 / 5
  | 1 => 31 / 100
  | _ => 29 / 100

/-- The probabilities of two values that depend on the value of the first variable. -/
noncomputable def p2 : Nat → Nat → ℝ
  | 0, _ => 1 / 2
  | _, 0 => 9 / 10
  | _, _ => 1 / 10

/-- A variable with three values. -/
noncomputable def three : Var ℝ := ⟨3, [], false, fun _ _ t => Real.log (p3 t)⟩

/-- A variable with two values that depends on it. -/
noncomputable def pairOn : Var ℝ := ⟨2, [], true, fun h _ t => Real.log (p2 (h.getD 0 0) t)⟩

/-- The cost: one if the first value is not the most probable one and the second is zero. -/
def late : List Nat → ℝ
  | [0, _] => 0
  | [_, 0] => 1
  | _ => 0

theorem top_one {top : Nat → List ℝ → List Nat} (ht : TopOf top) {j : List ℝ} {i : Nat} {a : ℝ} (hi : j[i]? = some a)
    (hbest : ∀ i' b, i' ≠ i → j[i']? = some b → b < a) : top 1 j = [i] := by
  have hlt : i < j.length := (List.getElem?_eq_some_iff.1 hi).1
  have hlen := ht.len 1 j (by omega)
  obtain ⟨c, hc⟩ := List.length_eq_one_iff.1 hlen
  have hcr := ht.inRange 1 j (by omega) c (by rw [hc]; simp)
  by_cases hci : c = i
  · rw [hc, hci]
  · have h1 := ht.best 1 j (by omega) c (by rw [hc]; simp) i (by rw [hc]; simpa using fun h => hci h.symm) j[c] a
      (by simp [hcr]) hi
    have h2 := hbest c j[c] hci (by simp [hcr])
    linarith

theorem two_vars (ht : TopOf top) (ha : MaxOf amax) (n m : Nat → Nat → Nat → WithBot ℝ) (hn : ∀ e r t, low < n e r t)
    (hm : ∀ e r t, low < m e r t) : ∃ x y, (x = 1 ∨ x = 2) ∧ (y = 0 ∨ y = 1 ∨ y = 3) ∧
      (∀ t, t = 1 ∨ t = 2 → n 0 0 t ≤ n 0 0 x) ∧
      ∃ s p ps, runRB top amax low 2 eos [(three, n), (pairOn, m)] = .ok s ∧ s.plates = p :: ps ∧
        s.sequences = [[x, 0], if y = 3 then [x, 1] else [0, y]] ∧ ∃ l, p.logProbs = [Real.log (p3 x) + Real.log (p2 x 0), l] := by
  have e1 : top 1 [Real.log (p3 0), Real.log (p3 1), Real.log (p3 2)] = [0] := by
    refine top_one ht (i := 0) (a := Real.log (p3 0)) rfl ?_
    intro i' b hne hb
    match i', hne, hb with
    | 1, _, hb => simp at hb; subst hb; exact Real.log_lt_log (by norm_num [p3]) (by norm_num [p3])
    | 2, _, hb => simp at hb; subst hb; exact Real.log_lt_log (by norm_num [p3]) (by norm_num [p3])
    | i + 3, _, hb => simp at hb
  obtain ⟨over, x, h1, h2, h3, h4, h5, h6⟩ := rbTotal_scalar ht ha (k := 2) (low := low) (l := [n 0 0 0, n 0 0 1, n 0 0 2])
    (j := [Real.log (p3 0), Real.log (p3 1), Real.log (p3 2)])
    (by intro y hy; simp at hy; rcases hy with rfl | rfl | rfl <;> exact hn _ _ _) (by norm_num) (by simp) (by simp)
  rw [e1] at h2
  subst h2
  have hx : x = 1 ∨ x = 2 := by simp at h4 h5; omega
  have e2 : top 1 [Real.log (p3 0) + Real.log (p2 0 0), Real.log (p3 0) + Real.log (p2 0 1),
      Real.log (p3 x) + Real.log (p2 x 0), Real.log (p3 x) + Real.log (p2 x 1)] = [2] := by
    refine top_one ht (i := 2) (a := Real.log (p3 x) + Real.log (p2 x 0)) rfl ?_
    intro i' b hne hb
    have hlog : ∀ a b c d : ℝ, 0 < a → 0 < b → 0 < c → 0 < d → a * b < c * d → Real.log a + Real.log b < Real.log c + Real.log d := by
      intro a b c d ha hb hc hd h
      rw [← Real.log_mul ha.ne' hb.ne', ← Real.log_mul hc.ne' hd.ne']
      exact Real.log_lt_log (by positivity) h
    match i', hne, hb with
    | 0, _, hb => simp at hb; subst hb; rcases hx with rfl | rfl <;> apply hlog <;> norm_num [p3, p2]
    | 1, _, hb => simp at hb; subst hb; rcases hx with rfl | rfl <;> apply hlog <;> norm_num [p3, p2]
    | 3, _, hb => simp at hb; subst hb; rcases hx with rfl | rfl <;> apply hlog <;> norm_num [p3, p2]
    | i + 4, _, hb => simp at hb
  obtain ⟨over, y, g1, g2, g3, g4, g5, g6⟩ := rbTotal_scalar ht ha (k := 2) (low := low)
    (l := [m 0 0 0, m 0 0 1, m 0 1 0, m 0 1 1])
    (j := [Real.log (p3 0) + Real.log (p2 0 0), Real.log (p3 0) + Real.log (p2 0 1),
      Real.log (p3 x) + Real.log (p2 x 0), Real.log (p3 x) + Real.log (p2 x 1)])
    (by intro y hy; simp at hy; rcases hy with rfl | rfl | rfl | rfl <;> exact hm _ _ _) (by norm_num) (by simp) (by simp)
  rw [e2] at g2
  subst g2
  have hy : y = 0 ∨ y = 1 ∨ y = 3 := by simp at g4 g5; omega
  refine ⟨x, y, hx, hy, ?_, ?_⟩
  · intro t htt
    rcases htt with rfl | rfl
    · rcases hx with rfl | rfl <;> exact h6 1 (by simp) _ _ (by simp) (by simp)
    · rcases hx with rfl | rfl <;> exact h6 2 (by simp) _ _ (by simp) (by simp)
  · rw [runRB_eq (by intro v hv; simp at hv; rcases hv with rfl | rfl; exacts [hn, hm]), if_neg (by norm_num)]
    rcases hx with rfl | rfl <;> rcases hy with rfl | rfl | rfl <;>
    simp [runSwor, sampleSwor, decode, decodeLoop, decodeStep, three, pairOn, Var.dist, blank, startBeam, Dist.cells, Ten.numel,
        allJoint, applyFinished, List.range_succ, h1, g1, gatherL, setCells, finishedOf, createPlateSwor, createPlate,
        St.parentOk, sizeBad, reindexSeq, St.width, St.sequence, St.sequences]

theorem three_normal : Normal three := by
  intro h i
  simp only [three, List.range_succ, List.range_zero, List.nil_append, List.cons_append, List.map_cons, List.map_nil,
    List.sum_cons, List.sum_nil]
  rw [Real.exp_log (by norm_num [p3]), Real.exp_log (by norm_num [p3]), Real.exp_log (by norm_num [p3])]
  norm_num [p3]

theorem pairOn_normal : Normal pairOn := by
  intro h i
  simp only [pairOn, List.range_succ, List.range_zero, List.nil_append, List.cons_append, List.map_cons, List.map_nil,
    List.sum_cons, List.sum_nil]
  generalize h.getD 0 0 = c
  have hpos : ∀ t, 0 < p2 c t := by
    intro t
    match c, t with
    | 0, _ => norm_num [p2]
    | _ + 1, 0 => norm_num [p2]
    | _ + 1, _ + 1 => norm_num [p2]
  rw [Real.exp_log (hpos 0), Real.exp_log (hpos 1)]
  match c with
  | 0 => norm_num [p2]
  | _ + 1 => norm_num [p2]

/-- C48 fails for two variables: the expectation of this cost is 27/50, but whatever the random numbers are, the weighted
cost of the two samples is at most 279/1000: the outcomes that were not selected for the first variable are never
represented. -/
theorem C48_refuted :
    ((seqsOf [three, pairOn]).map (fun ts => Real.exp (logJoint [three, pairOn] [] ts) * late ts)).sum = 27 / 50 ∧
    ∀ (top : Nat → List ℝ → List Nat) (amax : List (WithBot ℝ) → Nat) (low : WithBot ℝ) (eos : Option Nat)
      (n m : Nat → Nat → Nat → WithBot ℝ), TopOf top → MaxOf amax → (∀ e r t, low < n e r t) → (∀ e r t, low < m e r t) →
      ∃ s p ps, runRB top amax low 2 eos [(three, n), (pairOn, m)] = .ok s ∧ s.plates = p :: ps ∧
        (List.zipWith (fun w c => w * late c) (weightRB 2 p) s.sequences).sum ≤ 279 / 1000 := by
  constructor
  · have hseq : seqsOf [three, pairOn] = [[0, 0], [0, 1], [1, 0], [1, 1], [2, 0], [2, 1]] := by
      have h1 : three.cells = 1 := rfl
      have h2 : pairOn.cells = 1 := rfl
      have h3 : three.dom = 3 := rfl
      have h4 : pairOn.dom = 2 := rfl
      rw [seqsOf, seqsOf, seqsOf, h1, h2, h3, h4]
      rfl
    have hval : ∀ a b : Nat, Real.exp (logJoint [three, pairOn] [] [a, b]) = Real.exp (Real.log (p3 a)) * Real.exp (Real.log (p2 a b)) := by
      intro a b
      rw [← Real.exp_add]
      congr 1
      simp [logJoint, three, pairOn, Var.cells, Ten.numel, Var.given, List.range_succ]
    rw [hseq]
    simp only [List.map_cons, List.map_nil, List.sum_cons, List.sum_nil, hval, late]
    rw [Real.exp_log (x := p3 1) (by norm_num [p3]), Real.exp_log (x := p3 2) (by norm_num [p3]),
      Real.exp_log (x := p2 1 0) (by norm_num [p2]), Real.exp_log (x := p2 2 0) (by norm_num [p2])]
    norm_num [p3, p2]
  · intro top amax low eos n m ht ha hn hm
    obtain ⟨x, y, hx, hy, _, s, p, ps, h1, h2, h3, l, h4⟩ := two_vars (eos := eos) ht ha n m hn hm
    refine ⟨s, p, ps, h1, h2, ?_⟩
    rw [weightRB, h4, h3, if_pos (by rfl)]
    have hl2 : late (if y = 3 then [x, 1] else [0, y]) = 0 := by
      split
      · rcases hx with rfl | rfl <;> rfl
      · rfl
    have hl1 : late [x, 0] = 1 := by rcases hx with rfl | rfl <;> rfl
    simp only [List.dropLast_cons_cons, List.dropLast_singleton, List.map_cons, List.map_nil, List.cons_append, List.nil_append,
      List.zipWith_cons_cons, List.zipWith_nil_right, List.sum_cons, List.sum_nil, hl1, hl2, Real.exp_add]
    rcases hx with rfl | rfl
    · rw [Real.exp_log (by norm_num [p3]), Real.exp_log (by norm_num [p2])]; norm_num [p3, p2]
    · rw [Real.exp_log (by norm_num [p3]), Real.exp_log (by norm_num [p2])]; norm_num [p3, p2]

/-- C48 fails for the samples of two variables: for these random numbers the first of two samples is `[2, 0]`, which is less
probable than `[1, 0]`. -/
theorem C48_samples_refuted (ht : TopOf top) (ha : MaxOf amax) (n m : Nat → Nat → Nat → WithBot ℝ)
    (hn : ∀ e r t, low < n e r t) (hm : ∀ e r t, low < m e r t) (hnm : n 0 0 1 < n 0 0 2) :
    (∃ s, runRB top amax low 2 eos [(three, n), (pairOn, m)] = .ok s ∧ s.sequences[0]? = some [2, 0] ∧ [1, 0] ∉ s.sequences) ∧
      logJoint [three, pairOn] [] [2, 0] < logJoint [three, pairOn] [] [1, 0] := by
  constructor
  · obtain ⟨x, y, hx, hy, hmax, s, p, ps, h1, h2, h3, _⟩ := two_vars (eos := eos) ht ha n m hn hm
    have hx2 : x = 2 := by
      rcases hx with rfl | rfl
      · exact absurd hnm (not_lt.2 (hmax 2 (Or.inr rfl)))
      · rfl
    subst hx2
    refine ⟨s, h1, by rw [h3]; rfl, ?_⟩
    rw [h3]
    rcases hy with rfl | rfl | rfl <;> simp
  · simp [logJoint, three, pairOn, Var.cells, Ten.numel, Var.given, p3, p2, List.range_succ]
    exact Real.log_lt_log (by norm_num) (by norm_num)

/-- The hypotheses of `C48_weights` are met by these variables, and there is such a run for any random numbers. -/
example (n m : Nat → Nat → Nat → WithBot ℝ) (hn : ∀ e r t, ⊥ < n e r t) (hm : ∀ e r t, ⊥ < m e r t) :
    ∃ s p ps, runRB sortJ firstMax ⊥ 2 none [(three, n), (pairOn, m)] = .ok s ∧ s.plates = p :: ps ∧
      (weightRB 2 p).sum = 1 := by
  obtain ⟨_, _, _, _, _, s, p, ps, h1, h2, _⟩ := two_vars (eos := none) sortJ_top firstMax_max n m hn hm
  obtain ⟨p', ps', h3, _, _, _, _, h4, _⟩ := C48_weights sortJ_top firstMax_max [(three, n), (pairOn, m)] (by simp)
    (by intro v hv; simp at hv; rcases hv with rfl | rfl <;> simp [three, pairOn])
    (by intro v hv; simp at hv; rcases hv with rfl | rfl; exacts [three_normal, pairOn_normal])
    (by intro v hv; simp at hv; rcases hv with rfl | rfl; exacts [hn, hm]) s h1
  rw [h2, List.cons.injEq] at h3
  obtain ⟨rfl, rfl⟩ := h3
  exact ⟨s, p, ps, h1, h2, h4⟩

/-- The hypotheses of `C48_enumerated` are met with six samples, which are all sequences of the two variables. -/
example (n m : Nat → Nat → Nat → WithBot ℝ) (hn : ∀ e r t, ⊥ < n e r t) (hm : ∀ e r t, ⊥ < m e r t) (f : List Nat → ℝ) (s : St ℝ)
    (hs : runRB sortJ firstMax ⊥ 6 none [(three, n), (pairOn, m)] = .ok s) : ∃ p ps, s.plates = p :: ps ∧
      (List.zipWith (fun w c => w * f c) (weightRB 6 p) s.sequences).sum =
        ((seqsOf [three, pairOn]).map (fun ts => Real.exp (logJoint [three, pairOn] [] ts) * f ts)).sum :=
  C48_enumerated sortJ_top firstMax_max [(three, n), (pairOn, m)] (by simp)
    (by intro v hv; simp at hv; rcases hv with rfl | rfl <;> simp [three, pairOn])
    (by intro v hv; simp at hv; rcases hv with rfl | rfl; exacts [three_normal, pairOn_normal])
    (by intro v hv; simp at hv; rcases hv with rfl | rfl; exacts [hn, hm]) s hs (by rw [show List.map Prod.fst [(three, n), (pairOn, m)] = [three, pairOn] from rfl]; decide) f

/-- The estimate of `C48_expectation_partial` exists, here for three values and two samples. -/
example (f : List Nat → ℝ) (u : Fin three.dom → ℝ) : ∃ e, RBEstimate sortJ firstMax 2 none three f u e := by
  obtain ⟨r, h1, _⟩ := C49_order (logProbs := (List.range three.dom).map (three.logProb [] 0))
    (noise := List.ofFn (fun i => gumbelOf (u i))) (by simp) (by simp [three, List.range_succ]) 0
  obtain ⟨s, _, _, _, h2, _, _, _, _, _, _, _, _, p, h3, _⟩ := C48_samples_partial (low := ⊥) (k := 2) (eos := none)
    sortJ_top firstMax_max three rfl (fun _ _ t => ((r.getD t 0 : ℝ) : WithBot ℝ)) (fun e r t => WithBot.bot_lt_coe _)
    le_rfl (by simp [three])
  exact ⟨_, r, s, p, [], h1, h2, h3, rfl⟩

/-- C59 fails for Rao-Blackwellised sampling: the end-of-sequence token that is given to the constructor is taken for
`biased_iw`, so that sequences continue after it. -/
theorem C59_raoblackwell_refuted : (runRB sortJ firstMax ⊥ 4 (some 1)
    [(⟨2, [], false, fun _ _ _ => -1⟩, fun _ _ _ => 0), (⟨2, [], false, fun _ _ _ => -1⟩, fun _ _ _ => 0)]).map
    (fun s : St ℚ => s.sequences) = .ok [[0, 0], [0, 1], [1, 0], [1, 1]] := by decide +kernel

end Storch.Decode
