import Verif.Props.ScoreProps
import Verif.Lemmas.WeightedLemmas

/-! Expectations over samples from proposal distributions. -/

namespace Storch
variable {E V : Type _} {θ₀ : E}

/-- The variable drawn from the proposal `q` instead. -/
def Decl.proposed (q : Decl E V → (String → V) → V → ℝ) (d : Decl E V) : Decl E V :=
  { d with mass := fun _ => q d }

/-- The program that draws all variables from their proposals. -/
abbrev proposals (q : Decl E V → (String → V) → V → ℝ) (prog : List (Decl E V)) : List (Decl E V) :=
  prog.map (Decl.proposed q)

theorem trajectory_proposals (q : Decl E V → (String → V) → V → ℝ) (prog : List (Decl E V)) (ω : Draws V) :
    trajectory (proposals q prog) ω = trajectory prog ω := by
  funext ι s
  rw [trajectory, trajectory]
  induction prog with
  | nil => rfl
  | cons d prog ih =>
    rw [proposals, List.map_cons, List.find?_cons, List.find?_cons]
    by_cases h : d.name == s
    · simp only [Decl.proposed, h]
    · have h' : (d.name == s) = false := by simpa using h
      simp only [Decl.proposed, h']
      exact ih

theorem expectOne_proposals (q : Decl E V → (String → V) → V → ℝ) (θ : E) (prog : List (Decl E V))
    (G : (String → V) → ℝ) (ρ : String → V) :
    expectOne (fun d => d.mass θ) (proposals q prog) G ρ = expectOne q prog G ρ := by
  induction prog generalizing ρ with
  | nil => rfl
  | cons d prog ih =>
    simp only [proposals, List.map_cons, expectOne]
    exact Finset.sum_congr rfl (fun v _ => by rw [show (Decl.proposed q d).mass θ ρ v = q d ρ v from rfl]; congr 1; exact ih _)

theorem prod_find_one (prog : List (Decl E V)) (hn : (prog.map Decl.name).Nodup) (r : Decl E V → ℝ) (s : String) :
    (prog.map (fun d => if d.name = s then r d else 1)).prod =
      (prog.find? (fun d => d.name == s)).elim 1 r := by
  induction prog with
  | nil => rfl
  | cons d prog ih =>
    simp only [List.map_cons, List.nodup_cons] at hn
    rw [List.map_cons, List.prod_cons, List.find?_cons]
    by_cases h : d.name = s
    · rw [if_pos h]
      have hb : (d.name == s) = true := by simpa using h
      simp only [hb, Option.elim_some]
      have : (prog.map (fun d => if d.name = s then r d else 1)).prod = 1 := by
        apply List.prod_eq_one
        intro x hx
        obtain ⟨e, he, rfl⟩ := List.mem_map.1 hx
        rw [if_neg]
        intro e'
        exact hn.1 (h.trans e'.symm ▸ List.mem_map_of_mem he)
      rw [this, mul_one]
    · have hb : (d.name == s) = false := by simpa using h
      simp only [hb, if_neg h, one_mul]
      exact ih hn.2

/-- A product over names is a product over the variables with these names. -/
theorem prod_find (prog : List (Decl E V)) (hn : (prog.map Decl.name).Nodup) (r : Decl E V → ℝ) (S : List String)
    (hS : S.Nodup) : (S.map (fun s => (prog.find? (fun d => d.name == s)).elim 1 r)).prod =
      (prog.map (fun d => if d.name ∈ S then r d else 1)).prod := by
  induction S with
  | nil => simp
  | cons s S ih =>
    rw [List.nodup_cons] at hS
    rw [List.map_cons, List.prod_cons, ih hS.2, ← prod_find_one prog hn, ← List.prod_map_mul]
    congr 1
    apply List.map_congr_left
    intro d _
    by_cases h1 : d.name = s
    · have : d.name ∉ S := h1 ▸ hS.1
      simp [h1, hS.1]
    · simp [h1]

/-- Multiplying with the ratios of the target and the proposal, for the variables named in `S`, and with the likelihood
ratio moves the expectation from the proposals to the target at `θ`. -/
theorem expectOne_importance {prog : List (Decl E V)} {θ₀ θ : E} {q : Decl E V → (String → V) → V → ℝ}
    (h0 : Program prog θ₀) (hq : Program (proposals q prog) θ₀) (h : Program prog θ)
    {k : CostSpec E V} (hk : k.OK prog θ₀) {S : List String}
    (hcov : ∀ d ∈ prog, ∀ ρ, ∀ v ∈ d.support, q d ρ v = 0 → d.mass θ₀ ρ v = 0)
    (hs : ∀ d ∈ k.active, SameSupport d θ₀ θ) (hact : ∀ d ∈ k.active, d.name ∈ S)
    (hanc : ∀ s ∈ k.anc, s ∈ S) (hclosed : ∀ d ∈ prog, d.name ∈ S → ∀ s ∈ d.deps, s ∈ S) (ρ ρ₀ : String → V) :
    expectOne q prog (fun ρ => (prog.map (fun d => if d.name ∈ S then d.mass θ₀ ρ (ρ d.name) / q d ρ (ρ d.name)
      else 1)).prod * (Real.exp (logRatio k.active θ θ₀ ρ) * k.f θ ρ)) ρ =
      expectOne (fun d => d.mass θ) prog (k.f θ) ρ₀ := by
  classical
  have hloc : ∀ d ∈ prog, ∀ ρ ρ' v, (∀ s ∈ d.deps, ρ s = ρ' s) → q d ρ v = q d ρ' v := fun d hd ρ ρ' v he =>
    hq.local' (Decl.proposed q d) (List.mem_map_of_mem hd) θ₀ ρ ρ' v he
  have hqn : ∀ d ∈ prog, ∀ ρ, ∑ v ∈ d.support, q d ρ v = 1 := fun d hd ρ =>
    hq.normal (Decl.proposed q d) (List.mem_map_of_mem hd) ρ
  let r : Decl E V → (String → V) → ℝ := fun d ρ =>
    if d.name ∈ S then d.mass θ₀ ρ (ρ d.name) / q d ρ (ρ d.name) else 1
  let mix : Decl E V → (String → V) → V → ℝ := fun d => if d.name ∈ S then d.mass θ₀ else q d
  have hself : ∀ l1 d l2, prog = l1 ++ d :: l2 → ∀ (ρ : String → V) v, ∀ s ∈ d.deps,
      Function.update ρ d.name v s = ρ s := by
    intro l1 d l2 he ρ v s hs'
    rw [Function.update_of_ne]
    intro e
    exact h0.not_dep he s hs' (by simp [e])
  have hrw := expectOne_reweight (mass := q) (mass' := mix) r prog h0.names (by
      intro l1 d l2 he ρ v hv
      have hd : d ∈ prog := by rw [he]; simp
      simp only [r, mix]
      by_cases hS : d.name ∈ S
      · simp only [hS, if_true, Function.update_self]
        rw [h0.local' d hd θ₀ _ _ _ (hself l1 d l2 he ρ v), hloc d hd _ _ _ (hself l1 d l2 he ρ v)]
        by_cases hz : q d ρ v = 0
        · rw [hcov d hd ρ v hv hz, hz, zero_mul]
        · rw [mul_div_cancel₀ _ hz]
      · simp [hS])
    (by
      intro l1 d l2 he ρ ρ' hagree
      have hd : d ∈ prog := by rw [he]; simp
      have hname : ρ d.name = ρ' d.name := by
        apply hagree
        have := h0.names
        rw [he, List.map_append, List.map_cons] at this
        exact (List.nodup_cons.1 (List.nodup_append.1 this).2.1).1
      have hdeps : ∀ s ∈ d.deps, ρ s = ρ' s := fun s hs' => hagree s (fun hm =>
        h0.not_dep he s hs' (List.mem_cons_of_mem _ hm))
      simp only [r, hname, h0.local' d hd θ₀ _ _ _ hdeps, hloc d hd _ _ _ hdeps])
    (fun ρ => Real.exp (logRatio k.active θ θ₀ ρ) * k.f θ ρ) ρ
  have hleft : (fun ρ : String → V => (prog.map (fun d => if d.name ∈ S then d.mass θ₀ ρ (ρ d.name) / q d ρ (ρ d.name)
      else 1)).prod * (Real.exp (logRatio k.active θ θ₀ ρ) * k.f θ ρ)) =
      fun ρ => (prog.map (fun d => r d ρ)).prod * (Real.exp (logRatio k.active θ θ₀ ρ) * k.f θ ρ) := rfl
  rw [hleft, hrw, ← expectOne_ratio h0 h hk hs ρ ρ₀]
  refine expectOne_looksAt (A := S) prog h0.names ?_ ?_ h0.normal ?_ (fun _ _ _ => rfl)
  · intro l1 d l2 he hA ρ ρ' v hagree
    have hd : d ∈ prog := by rw [he]; simp
    simp only [mix, hA, if_true]
    exact h0.local' d hd θ₀ _ _ _ (fun s hs' => hagree s (hclosed d hd hA s hs') (h0.not_dep he s hs'))
  · intro d hd ρ
    simp only [mix]
    split
    · exact h0.normal d hd ρ
    · exact hqn d hd ρ
  · intro ρ ρ' hagree
    beta_reduce
    rw [hk.looks θ ρ ρ' (fun s hs' => hagree s (hanc s hs'))]
    congr 2
    rw [logRatio, logRatio]
    congr 1
    apply List.map_congr_left
    intro d hd
    have hdeps : ∀ s ∈ d.deps, ρ s = ρ' s := fun s hs' => hagree s (hclosed d (hk.sub d hd) (hact d hd) s hs')
    rw [h0.local' d (hk.sub d hd) θ _ _ _ hdeps, h0.local' d (hk.sub d hd) θ₀ _ _ _ hdeps, hagree d.name (hact d hd)]

theorem assign_posOf {α : Type _} : ∀ (ps : List (Plate α)) (idx : List Nat) (ι : String → Nat),
    (ps.map Plate.name).Nodup → idx.length = ps.length → ∀ s ∈ ps.map Plate.name,
    assign ps idx ι s = posOf (ps.map (fun p => (p.name, p.n))) idx s
  | [], _, _, _, _, s, h => by simp at h
  | p :: ps, [], _, _, hl, _, _ => by simp at hl
  | p :: ps, k :: ks, ι, hn, hl, s, h => by
    simp only [List.map_cons, List.nodup_cons] at hn
    rw [assign, List.map_cons, posOf]
    by_cases hs : s = p.name
    · rw [if_pos hs, hs, assign_of_notMem ps ks _ _ hn.1, Function.update_self]
    · rw [if_neg hs]
      refine assign_posOf ps ks _ hn.2 (by simpa using hl) s ?_
      rw [List.map_cons, List.mem_cons] at h
      exact h.resolve_left hs

theorem posOf_notMem : ∀ (dims : List (String × Nat)) (idx : List Nat) (s : String), s ∉ dims.map Prod.fst →
    posOf dims idx s = 0
  | [], idx, s, _ => by cases idx <;> rfl
  | _ :: _, [], _, _ => rfl
  | (p, n) :: dims, k :: ks, s, h => by
    simp only [List.map_cons, List.mem_cons, not_or] at h
    rw [posOf, if_neg h.1]
    exact posOf_notMem dims ks s h.2

theorem assign_eq_posOf {α : Type _} {ps : List (Plate α)} (hn : (ps.map Plate.name).Nodup) {idx : List Nat}
    (hi : idx ∈ allIdx (ps.map Plate.n)) :
    assign ps idx (fun _ => 0) = posOf (ps.map (fun p => (p.name, p.n))) idx := by
  have hl : idx.length = ps.length := by
    have := (mem_allIdx.1 hi).length_eq
    simpa using this
  funext s
  by_cases hs : s ∈ ps.map Plate.name
  · exact assign_posOf ps idx _ hn hl s hs
  · rw [assign_of_notMem ps idx _ s hs, posOf_notMem]
    simpa using hs

/-- What one cost adds to the surrogate loss of a run in which `ω` was drawn from the proposals; `dims` are the
plates with their sizes. -/
noncomputable def weightedValue (dims : List (String × Nat)) (prog : List (Decl E V))
    (q : Decl E V → (String → V) → V → ℝ) (ω : Draws V) (k : CostSpec E V) (S : List String) (θ₀ θ : E) : ℝ :=
  ((allIdx (dims.map Prod.snd)).map (fun idx => (dims.map (fun p => 1 / (p.2 : ℝ))).prod *
    ((fun ρ => (prog.map (fun d => if d.name ∈ S then d.mass θ₀ ρ (ρ d.name) / q d ρ (ρ d.name) else 1)).prod *
      (Real.exp (logRatio k.active θ θ₀ ρ) * k.f θ ρ)) (trajectory prog ω (posOf dims idx))))).sum

theorem sum_uniform (dims : List (String × Nat)) (hn : ∀ p ∈ dims, 1 ≤ p.2) :
    ((allIdx (dims.map Prod.snd)).length : ℝ) * (dims.map (fun p => 1 / (p.2 : ℝ))).prod = 1 := by
  induction dims with
  | nil => simp [allIdx]
  | cons p dims ih =>
    have ih := ih (fun m hm => hn m (List.mem_cons_of_mem _ hm))
    have hn' : (p.2 : ℝ) ≠ 0 := by
      have := hn p (by simp)
      positivity
    rw [List.map_cons, List.map_cons, List.prod_cons, allIdx]
    have hl : ((List.range p.2).flatMap (fun i => (allIdx (dims.map Prod.snd)).map (i :: ·))).length =
        p.2 * (allIdx (dims.map Prod.snd)).length := by simp [List.length_flatMap]
    rw [hl, Nat.cast_mul]
    calc _ = ((p.2 : ℝ) * (1 / p.2)) *
          (((allIdx (dims.map Prod.snd)).length : ℝ) * (dims.map (fun p => 1 / (p.2 : ℝ))).prod) := by ring
      _ = 1 := by rw [ih, mul_one_div, div_self hn', one_mul]

/-- The expectation over the samples from the proposals. -/
theorem expect_weightedValue {prog : List (Decl E V)} {θ₀ θ : E} {q : Decl E V → (String → V) → V → ℝ}
    (h0 : Program prog θ₀) (hq : Program (proposals q prog) θ₀) (h : Program prog θ)
    {k : CostSpec E V} (hk : k.OK prog θ₀) {S : List String}
    (hcov : ∀ d ∈ prog, ∀ ρ, ∀ v ∈ d.support, q d ρ v = 0 → d.mass θ₀ ρ v = 0)
    (hs : ∀ d ∈ k.active, SameSupport d θ₀ θ) (hact : ∀ d ∈ k.active, d.name ∈ S)
    (hanc : ∀ s ∈ k.anc, s ∈ S) (hclosed : ∀ d ∈ prog, d.name ∈ S → ∀ s ∈ d.deps, s ∈ S)
    {dims : List (String × Nat)} (hpos : ∀ p ∈ dims, 1 ≤ p.2)
    (hin : ∀ idx ∈ allIdx (dims.map Prod.snd), ∀ d ∈ prog, InPlates d (posOf dims idx))
    (ω₀ : Draws V) (ρ₀ : String → V) :
    expect (proposals q prog) θ₀ (proposals q prog) (fun ω => weightedValue dims prog q ω k S θ₀ θ) ω₀ =
      expectOne (fun d => d.mass θ) prog (k.f θ) ρ₀ := by
  simp only [weightedValue]
  rw [expect_list_sum]
  have : ∀ idx ∈ allIdx (dims.map Prod.snd), expect (proposals q prog) θ₀ (proposals q prog) (fun ω =>
      (dims.map (fun p => 1 / (p.2 : ℝ))).prod *
    ((fun ρ => (prog.map (fun d => if d.name ∈ S then d.mass θ₀ ρ (ρ d.name) / q d ρ (ρ d.name) else 1)).prod *
      (Real.exp (logRatio k.active θ θ₀ ρ) * k.f θ ρ)) (trajectory prog ω (posOf dims idx)))) ω₀ =
      (dims.map (fun p => 1 / (p.2 : ℝ))).prod * expectOne (fun d => d.mass θ) prog (k.f θ) ρ₀ := by
    intro idx hidx
    rw [expect_smul]
    congr 1
    simp only [← trajectory_proposals q prog]
    rw [expect_trajectory hq (ι := posOf dims idx) (proposals q prog) (fun _ hd => hd)
      (by
        intro d hd
        obtain ⟨d, hd', rfl⟩ := List.mem_map.1 hd
        exact hin idx hidx d hd')
      (fun ρ => (prog.map (fun d => if d.name ∈ S then d.mass θ₀ ρ (ρ d.name) / q d ρ (ρ d.name) else 1)).prod *
        (Real.exp (logRatio k.active θ θ₀ ρ) * k.f θ ρ)), expectOne_proposals]
    exact expectOne_importance h0 hq h hk hcov hs hact hanc hclosed _ _
  rw [List.map_congr_left this, List.map_const', List.sum_replicate, nsmul_eq_mul, ← mul_assoc, sum_uniform dims hpos,
    one_mul]

end Storch
