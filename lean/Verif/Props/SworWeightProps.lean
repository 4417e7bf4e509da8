import Verif.Model.SworWeight
import Verif.Props.EosProps
import Mathlib.Tactic.Positivity
import Mathlib.Tactic.Linarith
import Mathlib.Tactic.NormNum

/-!
# Importance weights of sampling without replacement (C47)
-/

namespace Storch.Decode

theorem createPlateSwor_eq {α : Type _} {s : St α} {n : Nat} {j : Option (List α)} {p : Option (List (WithBot α))}
    {plate : APlate α} (h : createPlateSwor s n j p = .ok plate) :
    plate.logProbs = j.getD [] ∧ p = some plate.perturb := by
  unfold createPlateSwor at h
  cases hc : createPlate s n j p with
  | error e => rw [hc] at h; simp at h
  | ok q =>
    rw [hc] at h
    cases p with
    | none => simp at h
    | some p =>
      simp only [Except.ok.injEq] at h
      subst h
      unfold createPlate at hc
      split at hc
      · simp at hc
      · split at hc
        · simp at hc
        · split at hc
          · simp at hc
          · simp only [Except.ok.injEq] at hc
            subst hc
            exact ⟨rfl, rfl⟩

/-- The plate of the newest variable holds the joint and the perturbed log-probabilities of the decoder. -/
theorem sampleSwor_plate {α : Type _} [Add α] {k : Nat} {eos : Option Nat} {topk : Nat → List (WithBot α) → List α → List Nat}
    {d : Dist α} {noise : Nat → Nat → Nat → WithBot α} {s s' : St α} {smp : List (List Nat)}
    (h : sampleSwor k eos topk d noise s = (s', .ok smp)) :
    ∃ p ps, s'.plates = p :: ps ∧ p.logProbs = s'.joint.getD [] ∧ s'.perturbed = some p.perturb := by
  unfold sampleSwor at h
  split at h
  · simp at h
  · simp only [] at h
    split at h
    · simp at h
    · rename_i plate hcp
      split at h
      · simp at h
      · simp only [Prod.mk.injEq] at h
        obtain ⟨h1, h2⟩ := createPlateSwor_eq hcp
        refine ⟨plate, s.plates, by rw [← h.1], by rw [← h.1]; exact h1, by rw [← h.1]; exact h2⟩

theorem inclusion_nonneg (l : ℝ) (κ : WithBot ℝ) : 0 ≤ inclusion l κ := by
  cases κ with
  | bot => exact zero_le_one
  | coe κ =>
    show 0 ≤ 1 - Real.exp (-Real.exp (l - κ))
    have : Real.exp (-Real.exp (l - κ)) ≤ 1 := Real.exp_le_one_iff.2 (by have := Real.exp_pos (l - κ); linarith)
    linarith

/-- There are at least two sequences. -/
theorem runSwor_wide {α : Type _} [AddCommMonoid α] {k : Nat} {eos : Option Nat}
    {topk : Nat → List (WithBot α) → List α → List Nat} (hp : Picks topk)
    (hk : 2 ≤ k) : ∀ (vs : List (Var α × (Nat → Nat → Nat → WithBot α))), vs ≠ [] → (∀ v ∈ vs, 2 ≤ v.1.dom) →
    ∀ {s : St α}, runSwor k eos topk vs blank = .ok s → 2 ≤ s.width ∧
      ∃ p ps, s.plates = p :: ps ∧ p.logProbs = s.joint.getD [] ∧ s.perturbed = some p.perturb := by
  intro vs
  induction vs using List.reverseRecOn with
  | nil => intro h; exact absurd rfl h
  | append_singleton vs v ih =>
    intro _ hD s hs
    obtain ⟨v, noise⟩ := v
    obtain ⟨s1, h1, h2⟩ := (runSwor_append vs [(v, noise)] blank s).1 hs
    obtain ⟨smp, h2⟩ := runSwor_one.1 h2
    have hd : 2 ≤ v.dom := hD (v, noise) (by simp)
    refine ⟨?_, sampleSwor_plate h2⟩
    by_cases hvs : vs = []
    · subst hvs
      simp only [runSwor, Except.ok.injEq] at h1
      subst h1
      obtain ⟨g1, g2, _, b, g3, _⟩ := sampleSwor_first hp hk hd h2
      have hc : v.cells ≠ 0 := by
        intro h0
        rw [h0] at g3
        simp only [List.range'_zero, decodeLoop, Prod.mk.injEq] at g3
        obtain ⟨ps, h, _⟩ := g1.perturbed
        rw [h] at g3
        simp at g3
      have : v.dom ^ 1 ≤ v.dom ^ v.cells := Nat.pow_le_pow_right (by omega) (by omega)
      rw [pow_one] at this
      omega
    · have hg := runSwor_good hp hk vs hvs (fun v hv => hD v (List.mem_append_left _ hv)) h1
      obtain ⟨h3, _⟩ := ih hvs (fun v hv => hD v (List.mem_append_left _ hv)) h1
      obtain ⟨_, g2, _⟩ := sampleSwor_good hp hk hd hg h2
      have : s1.width * 1 ≤ s1.width * v.dom ^ v.cells := Nat.mul_le_mul_left _ (Nat.one_le_pow _ _ (by omega))
      omega

theorem sum_set_last (l : List ℝ) (hl : 2 ≤ l.length) (hpos : ∀ x ∈ l, 0 < x) : 0 < (l.set (l.length - 1) 0).sum := by
  cases l with
  | nil => simp at hl
  | cons a l =>
    have h1 : (a :: l).length - 1 = l.length - 1 + 1 := by simp at hl ⊢; omega
    rw [h1, List.set_cons_succ, List.sum_cons]
    have h2 : 0 ≤ (l.set (l.length - 1) 0).sum := List.sum_nonneg (by
      intro x hx
      rcases List.mem_or_eq_of_mem_set hx with hx | rfl
      · exact (hpos x (List.mem_cons_of_mem _ hx)).le
      · exact le_rfl)
    have := hpos a List.mem_cons_self
    linarith

theorem sum_map_div (l : List ℝ) (c : ℝ) : (l.map (fun w => w / c)).sum = l.sum / c := by
  induction l with
  | nil => simp
  | cons a l ih => rw [List.map_cons, List.sum_cons, List.sum_cons, ih, add_div]

/-- C47: whatever was decoded, from at least two values per cell and with at least two samples, the weights of the
sequences exist, there is one for each sequence, they are not negative, that of the last sequence is zero and those of the
others are positive; the biased weights sum to one, the others are `P / (1 - exp(-exp(log P - κ)) + EPS)` for the probability
`P` of the sequence and the last perturbed log-probability `κ`.  Missing: a single sequence (`C47_single_refuted`). -/
theorem C47_partial {k : Nat} {eos : Option Nat} {topk : Nat → List (WithBot ℝ) → List ℝ → List Nat} (hp : Picks topk) (hk : 2 ≤ k)
    (vs : List (Var ℝ × (Nat → Nat → Nat → WithBot ℝ))) (hne : vs ≠ []) (hD : ∀ v ∈ vs, 2 ≤ v.1.dom) (s : St ℝ)
    (hs : runSwor k eos topk vs blank = .ok s) (biased : Bool) :
    ∃ w, weightSwor biased s = .ok (some w) ∧ w.length = s.width ∧ (∀ x ∈ w, 0 ≤ x) ∧ w.getLast? = some 0 ∧
      (∀ r < s.width - 1, 0 < w.getD r 0) ∧ (biased = true → w.sum = 1) ∧
      (biased = false → ∃ ps, s.perturbed = some ps ∧ ps.length = s.width ∧
        ∀ κ : ℝ, ps.getLast? = some (κ : WithBot ℝ) → ∀ r < s.width - 1,
          w.getD r 0 = Real.exp (logJoint (vs.map Prod.fst) [] (s.sequence r)) /
            (1 - Real.exp (-Real.exp (logJoint (vs.map Prod.fst) [] (s.sequence r) - κ)) + 1e-8)) := by
  obtain ⟨hw2, p, pls, h1, h2, h3⟩ := runSwor_wide hp hk vs hne hD hs
  have hg := runSwor_good hp hk vs hne hD hs
  obtain ⟨j, hj, hjl, hjv⟩ := hg.joint
  obtain ⟨ps, hps, hpl⟩ := hg.perturbed
  have hpp : p.perturb = ps := by rw [h3] at hps; exact Option.some.inj hps
  have hlp : p.logProbs = j := by rw [h2, hj]; rfl
  have hpne : ps ≠ [] := by intro h; rw [h] at hpl; simp at hpl; omega
  obtain ⟨κ, hκ⟩ : ∃ κ, ps.getLast? = some κ := ⟨_, List.getLast?_eq_some_getLast hpne⟩
  have hE : (0 : ℝ) < EPS := by norm_num [EPS]
  set iw := j.map (fun l => Real.exp l / (inclusion l κ + EPS)) with hiw
  have hiwl : iw.length = s.width := by rw [hiw, List.length_map, hjl]
  have hpos : ∀ x ∈ iw, 0 < x := by
    intro x hx
    obtain ⟨l, _, rfl⟩ := List.mem_map.1 hx
    exact div_pos (Real.exp_pos _) (by have := inclusion_nonneg l κ; linarith)
  have hset : iw.set (ps.length - 1) 0 = iw.set (iw.length - 1) 0 := by rw [hpl, hiwl]
  have hsum := sum_set_last iw (by omega) hpos
  set sw := iw.set (iw.length - 1) 0 with hsw
  have hswl : sw.length = s.width := by rw [hsw, List.length_set, hiwl]
  have hnn : ∀ x ∈ sw, 0 ≤ x := by
    intro x hx
    rcases List.mem_or_eq_of_mem_set hx with hx | rfl
    · exact (hpos x hx).le
    · exact le_rfl
  have hlast : sw.getLast? = some 0 := by
    rw [List.getLast?_eq_getElem?, hswl, hsw, List.getElem?_set, if_pos (by omega), if_pos (by omega)]
  have hoth : ∀ r < s.width - 1, sw[r]? = iw[r]? := by
    intro r hr
    rw [hsw, List.getElem?_set, if_neg (by omega)]
  have hval : weightSwor biased s = if biased then .ok (some (sw.map (fun w => w / sw.sum))) else .ok (some sw) := by
    simp only [weightSwor, h1, computeIw, hpp, hlp, hκ, ← hiw]
    rw [if_neg (by omega), hset]
    cases biased with
    | true => rw [if_pos rfl, if_neg hsum.ne', if_pos rfl]
    | false => rfl
  have hpos' : ∀ r < s.width - 1, 0 < sw.getD r 0 := by
    intro r hr
    have hr' : r < iw.length := by omega
    simp only [List.getD, hoth r hr, List.getElem?_eq_getElem hr', Option.getD_some]
    exact hpos _ (List.getElem_mem hr')
  cases biased with
  | true =>
    refine ⟨_, hval, by simp [hswl], ?_, ?_, ?_, ?_, by simp⟩
    · intro x hx
      obtain ⟨y, hy, rfl⟩ := List.mem_map.1 hx
      exact div_nonneg (hnn y hy) hsum.le
    · rw [List.getLast?_map, hlast]; simp
    · intro r hr
      have hr' : r < sw.length := by omega
      have := hpos' r hr
      simp only [List.getD, List.getElem?_map, List.getElem?_eq_getElem hr', Option.map_some, Option.getD_some] at this ⊢
      exact div_pos this hsum
    · intro _
      rw [sum_map_div, div_self hsum.ne']
  | false =>
    refine ⟨_, hval, hswl, hnn, hlast, hpos', by simp, ?_⟩
    intro _
    refine ⟨ps, hps, hpl, ?_⟩
    intro κ' hκ' r hr
    rw [hκ, Option.some.injEq] at hκ'
    subst hκ'
    have hr' : r < s.width := by omega
    simp only [List.getD, hoth r hr, hiw, List.getElem?_map, hjv r hr', Option.map_some, Option.getD_some]
    rfl

/-- C47 fails for a single sequence, here from a variable with one value: the biased weights are not numbers (and the
unbiased weight of the only sequence is zero, so that every estimate is zero). -/
theorem C47_single_refuted : ∃ (v : Var ℝ) (noise : Nat → Nat → Nat → WithBot ℝ) (s : St ℝ),
    runSwor 2 none sortTop [(v, noise)] blank = .ok s ∧ s.sequences = [[0]] ∧ weightSwor true s = .ok none ∧
      weightSwor false s = .ok (some [0]) := by
  refine ⟨⟨1, [], false, fun _ _ _ => 0⟩, fun _ _ _ => 0, _, rfl, rfl, ?_, ?_⟩
  · simp [weightSwor, computeIw]
  · simp [weightSwor, computeIw]

/-- A run that meets the hypotheses of `C47_partial`: two variables with two values, the second depending on the first. -/
example (noise : Nat → Nat → Nat → WithBot ℝ) (p : List Nat → Nat → ℝ) :
    ∃ s, runSwor 3 none sortTop [(⟨2, [], false, fun _ _ _ => Real.log (1 / 2)⟩, noise),
      (⟨2, [], true, fun h _ t => Real.log (p h t)⟩, noise)] blank = .ok s := by
  obtain ⟨s, h, _⟩ := runSwor_total (k := 3) (eos := none) (sortTop_picks (α := ℝ)) (by decide)
    [(⟨2, [], false, fun _ _ _ => Real.log (1 / 2)⟩, noise), (⟨2, [], true, fun h _ t => Real.log (p h t)⟩, noise)]
    (by simp)
  exact ⟨s, h⟩

end Storch.Decode
