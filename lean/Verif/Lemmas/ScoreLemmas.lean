import Verif.Lemmas.ExpectLemmas
import Verif.Props.SurrogateProps
import Mathlib.Analysis.SpecialFunctions.Log.Basic
import Mathlib.Tactic.FieldSimp

/-! Expectations of weighted totals over the plates, and the score function. -/

namespace Storch

section plates
variable {α : Type _}

theorem assign_of_notMem : ∀ (ps : List (Plate α)) (idx : List Nat) (ι : String → Nat) (s : String),
    s ∉ ps.map Plate.name → assign ps idx ι s = ι s
  | [], _, _, _, _ => rfl
  | _ :: _, [], _, _, _ => rfl
  | p :: ps, k :: ks, ι, s, h => by
    simp only [List.map_cons, List.mem_cons, not_or] at h
    rw [assign, assign_of_notMem ps ks _ s h.2, Function.update_of_ne h.1]

theorem assign_valid : ∀ {ps : List (Plate α)}, (ps.map Plate.name).Nodup → ∀ {idx : List Nat},
    idx ∈ allIdx (ps.map Plate.n) → ∀ ι, Valid ps (assign ps idx ι)
  | [], _, _, _, _ => by intro p hp; cases hp
  | p :: ps, hn, idx, hi, ι => by
    simp only [List.map_cons, List.nodup_cons] at hn
    rw [List.map_cons, mem_allIdx] at hi
    cases hi with
    | cons hk hks =>
      rename_i k ks
      intro q hq
      rw [assign]
      rcases List.mem_cons.1 hq with rfl | hq
      · rw [assign_of_notMem ps ks _ _ hn.1, Function.update_self]; exact hk
      · exact assign_valid hn.2 (mem_allIdx.2 hks) _ q hq

/-- A plate that is normalised is not empty. -/
theorem Plate.Normalised.pos [Semiring α] [Nontrivial α] {p : Plate α} (h : p.Normalised) : 1 ≤ p.n := by
  by_contra hc
  have h0 : p.n = 0 := by omega
  have := h (fun _ => 0)
  rw [h0] at this
  simp at this

end plates

variable {E V : Type _} {θ₀ : E}

instance : Nontrivial (AD E θ₀) :=
  ⟨0, 1, fun h => by
    have := congrFun h θ₀
    exact zero_ne_one (α := ℝ) this⟩

/-- The weight of a joint index of the plates, as a number. -/
noncomputable def jointWeight (pool : List (Plate (AD E θ₀))) (θ : E) (idx : List Nat) : ℝ :=
  AD.eval θ ((pool.map (fun p => p.weightAt id (assign pool idx (fun _ => 0)))).prod)

theorem total_eval (pool : List (Plate (AD E θ₀))) (v : (String → Nat) → AD E θ₀) (θ : E) :
    weightedTotal id pool v (fun _ => 0) θ = ((allIdx (pool.map Plate.n)).map (fun idx =>
      jointWeight pool θ idx * v (assign pool idx (fun _ => 0)) θ)).sum := by
  have := map_list_sum (AD.eval θ (θ₀ := θ₀)) ((allIdx (pool.map Plate.n)).map (fun idx =>
    (pool.map (fun p => p.weightAt id (assign pool idx (fun _ => 0)))).prod *
      v (assign pool idx (fun _ => 0))))
  rw [AD.eval_apply, List.map_map] at this
  rw [weightedTotal, this]
  congr 1

theorem jointWeight_sum {pool : List (Plate (AD E θ₀))} (hp : (pool.map Plate.name).Nodup)
    (hw : TorchWeights pool) (h1 : ∀ p ∈ pool, p.Normalised) (θ : E) :
    ((allIdx (pool.map Plate.n)).map (jointWeight pool θ)).sum = 1 := by
  have h := total_extra (ps := []) (qs := pool) (v := fun _ => (1 : AD E θ₀)) (by simpa using hp)
    (by simpa using fun p hm => (hw p hm).2) (fun q hq ι => h1 q hq ι) (fun _ _ _ _ => rfl) (fun _ => 0)
  have h2 := congrFun h θ
  rw [List.nil_append, total_eval] at h2
  simp only [AD.one_apply, mul_one] at h2
  rw [h2]
  simp [weightedTotal, allIdx]

/-- Averaging over further plates with weights summing to one changes nothing when the values do not depend
on them. -/
theorem total_pool {α : Type _} [ValEq α] [CommRing α] {pool : List (Plate α)} (hp : PoolOK pool)
    (hw : TorchWeights pool) (h1 : ∀ p ∈ pool, p.Normalised) (ns : List String) {v : (String → Nat) → α}
    (hv : ∀ q ∈ pool, q.name ∉ ns → ∀ ι k, v (Function.update ι q.name k) = v ι) (ι : String → Nat) :
    weightedTotal id (named pool ns) v ι = weightedTotal id pool v ι := by
  let rest := pool.filter (fun p => !decide (p.name ∈ ns))
  have hrest : ∀ p ∈ rest, p ∈ pool ∧ p.name ∉ ns := by
    intro p hm
    have := List.mem_filter.1 hm
    exact ⟨this.1, by simpa using this.2⟩
  have hperm : (named pool ns ++ rest).Perm pool := List.filter_append_perm _ _
  have hnd : ((named pool ns ++ rest).map Plate.name).Nodup := (hperm.map _).nodup_iff.2 hp.names
  rw [← weightedTotal_perm id hperm hp.names]
  refine (total_extra hnd ?_ ?_ ?_ ι).symm
  · intro p hm
    exact (hw p (hperm.mem_iff.1 hm)).2
  · intro q hq ι
    exact h1 q (hrest q hq).1 ι
  · intro q hq ι k
    exact hv q (hrest q hq).1 (hrest q hq).2 ι k

/-- The expectation of a weighted total over the plates, of a function of the values at the position. -/
theorem expect_total {prog : List (Decl E V)} {θ₁ : E} (h : Program prog θ₁)
    {pool : List (Plate (AD E θ₀))} (hp : (pool.map Plate.name).Nodup)
    (hpool : ∀ d ∈ prog, ∀ p ∈ d.idx, ∃ q ∈ pool, q.name = p.1 ∧ q.n = p.2) (θ : E)
    (G : (String → V) → ℝ) (J : ℝ)
    (hG : ∀ ρ, expectOne (fun d => d.mass θ₁) prog G ρ = J) (ω : Draws V) :
    expect prog θ₁ prog (fun ω => ((allIdx (pool.map Plate.n)).map (fun idx =>
      jointWeight pool θ idx * G (trajectory prog ω (assign pool idx (fun _ => 0))))).sum) ω =
    ((allIdx (pool.map Plate.n)).map (jointWeight pool θ)).sum * J := by
  rw [expect_list_sum, ← List.sum_map_mul_right]
  congr 1
  apply List.map_congr_left
  intro idx hidx
  rw [expect_smul]
  have hv := assign_valid hp hidx (fun _ => 0)
  rw [expect_trajectory h (ι := assign pool idx (fun _ => 0)) prog (fun _ hd => hd), hG]
  intro d hd p hpd
  obtain ⟨q, hq, h1, h2⟩ := hpool d hd p hpd
  rw [← h1, ← h2]
  exact hv q hq

/-! ### Likelihood ratios -/

/-- The support of the variable does not change between two parameter values. -/
def SameSupport (d : Decl E V) (θ θ' : E) : Prop :=
  ∀ ρ, ∀ v ∈ d.support, (0 < d.mass θ ρ v ∧ 0 < d.mass θ' ρ v) ∨ (d.mass θ ρ v = 0 ∧ d.mass θ' ρ v = 0)

/-- The logarithm of the likelihood ratio of the variables `act`. -/
noncomputable def logRatio (act : List (Decl E V)) (θ θ₀ : E) (ρ : String → V) : ℝ :=
  (act.map (fun d => Real.log (d.mass θ ρ (ρ d.name)) - Real.log (d.mass θ₀ ρ (ρ d.name)))).sum

theorem Program.not_dep {prog : List (Decl E V)} {θ : E} (h : Program prog θ) {l1 l2 : List (Decl E V)}
    {d : Decl E V} (he : prog = l1 ++ d :: l2) : ∀ s ∈ d.deps, s ∉ (d :: l2).map Decl.name := by
  intro s hs hm
  have h1 := h.earlier l1 d l2 he s hs
  have h2 := h.names
  rw [he, List.map_append, List.nodup_append] at h2
  exact h2.2.2 s h1 s hm rfl

/-- The cost function and the variables it is computed from: `active` are those whose score is added,
`anc` the names of all; the distributions of the others do not depend on the parameters. -/
structure CostSpec (E V : Type _) where
  f : E → (String → V) → ℝ
  active : List (Decl E V)
  anc : List String

/-- The cost looks at its ancestors only, and every ancestor whose distribution depends on the parameters is
among the active ones. -/
structure CostSpec.OK (prog : List (Decl E V)) (θ₀ : E) (k : CostSpec E V) : Prop where
  sub : ∀ d ∈ k.active, d ∈ prog
  nodup : (k.active.map Decl.name).Nodup
  anc_sub : ∀ s ∈ k.anc, s ∈ prog.map Decl.name
  closed : ∀ d ∈ prog, d.name ∈ k.anc → ∀ s ∈ d.deps, s ∈ k.anc
  looks : ∀ θ, LooksAt k.anc (k.f θ)
  passive : ∀ d ∈ prog, d.name ∈ k.anc → d ∈ k.active ∨ ∀ θ ρ v, d.mass θ ρ v = d.mass θ₀ ρ v

theorem prod_ite_one {ι : Type _} (l : List ι) (P : ι → Bool) (g : ι → ℝ) :
    (l.map (fun d => if P d then g d else 1)).prod = ((l.filter P).map g).prod := by
  induction l with
  | nil => rfl
  | cons d l ih =>
    rw [List.map_cons, List.prod_cons, ih, List.filter_cons]
    by_cases h : P d
    · simp [h]
    · simp [h]

/-- Multiplying with the likelihood ratio moves the expectation from `θ₀` to `θ`. -/
theorem expectOne_ratio {prog : List (Decl E V)} {θ₀ θ : E} (h0 : Program prog θ₀) (h : Program prog θ)
    {k : CostSpec E V} (hk : k.OK prog θ₀) (hs : ∀ d ∈ k.active, SameSupport d θ₀ θ) (ρ ρ₀ : String → V) :
    expectOne (fun d => d.mass θ₀) prog (fun ρ => Real.exp (logRatio k.active θ θ₀ ρ) * k.f θ ρ) ρ =
      expectOne (fun d => d.mass θ) prog (k.f θ) ρ₀ := by
  classical
  let P : Decl E V → Bool := fun d => decide (d.name ∈ k.active.map Decl.name)
  let r : Decl E V → (String → V) → ℝ := fun d ρ =>
    if P d then Real.exp (Real.log (d.mass θ ρ (ρ d.name)) - Real.log (d.mass θ₀ ρ (ρ d.name))) else 1
  let mix : Decl E V → (String → V) → V → ℝ := fun d => if P d then d.mass θ else d.mass θ₀
  have hact : ∀ d ∈ prog, P d = true ↔ d ∈ k.active := by
    intro d hd
    simp only [P, decide_eq_true_eq]
    constructor
    · intro hm
      obtain ⟨d', hd', he⟩ := List.mem_map.1 hm
      have e1 := find_decl h0.names hd
      have e2 := find_decl h0.names (hk.sub d' hd')
      rw [he, e1] at e2
      cases e2
      exact hd'
    · exact fun hm => List.mem_map_of_mem hm
  have hperm : k.active.Perm (prog.filter P) := by
    rw [List.perm_ext_iff_of_nodup hk.nodup.of_map (h0.names.of_map.filter _)]
    intro d
    rw [List.mem_filter]
    exact ⟨fun hd => ⟨hk.sub d hd, (hact d (hk.sub d hd)).2 hd⟩, fun hd => (hact d hd.1).1 hd.2⟩
  have hprod : ∀ ρ, Real.exp (logRatio k.active θ θ₀ ρ) = (prog.map (fun d => r d ρ)).prod := by
    intro ρ
    rw [prod_ite_one prog P (fun d =>
      Real.exp (Real.log (d.mass θ ρ (ρ d.name)) - Real.log (d.mass θ₀ ρ (ρ d.name)))),
      ← (hperm.map _).prod_eq, logRatio, Real.exp_list_sum, List.map_map]
    rfl
  have hself : ∀ l1 d l2, prog = l1 ++ d :: l2 → ∀ θ' ρ v w, d.mass θ' (Function.update ρ d.name v) w =
      d.mass θ' ρ w := by
    intro l1 d l2 he θ' ρ v w
    apply h0.local' d (by rw [he]; simp)
    intro s hs'
    rw [Function.update_of_ne]
    intro e
    exact h0.not_dep he s hs' (by simp [e])
  have hrw := expectOne_reweight (mass := fun d => d.mass θ₀) (mass' := mix) r prog h0.names (by
      intro l1 d l2 he ρ v hv
      have hd : d ∈ prog := by rw [he]; simp
      simp only [r, mix]
      by_cases hP : P d = true
      · simp only [hP, if_true, Function.update_self]
        rw [hself l1 d l2 he, hself l1 d l2 he]
        rcases hs d ((hact d hd).1 hP) ρ v hv with ⟨h1, h2⟩ | ⟨h1, h2⟩
        · rw [Real.exp_sub, Real.exp_log h1, Real.exp_log h2]
          field_simp
        · rw [h1, h2, zero_mul]
      · simp [hP])
    (by
      intro l1 d l2 he ρ ρ' hagree
      have hd : d ∈ prog := by rw [he]; simp
      have hname : ρ d.name = ρ' d.name := by
        apply hagree
        have := h0.names
        rw [he, List.map_append, List.map_cons] at this
        exact (List.nodup_cons.1 (List.nodup_append.1 this).2.1).1
      have hm : ∀ θ' w, d.mass θ' ρ w = d.mass θ' ρ' w := by
        intro θ' w
        apply h0.local' d hd
        intro s hs'
        apply hagree
        intro hm
        exact h0.not_dep he s hs' (List.mem_cons_of_mem _ hm)
      simp only [r, hname, hm])
    (k.f θ) ρ
  simp only [hprod]
  rw [hrw]
  refine expectOne_looksAt prog h0.names ?_ ?_ h.normal (hk.looks θ) ?_
  · intro l1 d l2 he hA ρ ρ' v hagree
    have hd : d ∈ prog := by rw [he]; simp
    have hm : ∀ θ', d.mass θ' ρ v = d.mass θ' ρ' v := by
      intro θ'
      apply h0.local' d hd
      intro s hs'
      exact hagree s (hk.closed d hd hA s hs') (h0.not_dep he s hs')
    simp only [mix]
    by_cases hP : P d = true
    · simp only [hP, if_true]; exact hm θ
    · rcases hk.passive d hd hA with h' | h'
      · exact absurd ((hact d hd).2 h') hP
      · simp only [hP]; rw [h' θ]; exact hm θ₀
  · intro d hd ρ
    simp only [mix]
    by_cases hP : P d = true
    · simp only [hP, if_true]; exact h.normal d hd ρ
    · simp only [hP]; exact h0.normal d hd ρ
  · intro s hs' hn
    exact absurd (hk.anc_sub s hs') hn

end Storch
