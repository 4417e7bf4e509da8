import Verif.Lemmas.MixedRun

/-! Expectations given the noise of the reparameterised variables. -/

namespace Storch

section
variable {E V : Type _}

/-- The average over the sampled variables of a term of the surrogate loss, as a sum over their values: sampled and listed
variables count with their probabilities. -/
theorem mixed_scored {prog : List (Decl E V)} {θ₀ θ : E} (h0 : Program prog θ₀)
    {drawn sc : Decl E V → Bool} (hsc : ∀ d ∈ prog, sc d = true → drawn d = true) {size : String → Nat}
    {k : CostSpec E V} (hk : k.MixOK prog drawn θ₀) (hac : ∀ d ∈ k.active, sc d = true)
    (hs : ∀ d ∈ k.active, SameSupport d θ₀ θ) (ρ : String → V) :
    expectOne (fun d => d.mass θ₀) (prog.filter sc) (mixTerm prog drawn size θ₀ k θ) ρ =
      (((prog.filter (fun d => decide (d.name ∈ k.anc))).filter drawn).map (fun d => 1 / (size d.name : ℝ))).prod *
        expectOne (fun _ _ _ => 1) ((prog.filter sc).filter (fun d => decide (d.name ∈ k.anc)))
          (fun ρ => ((prog.filter (fun d => decide (d.name ∈ k.anc))).map
            (fun d => if sc d || !drawn d then d.mass θ ρ (ρ d.name) else 1)).prod * k.f θ ρ) ρ := by
  set A := k.anc with hA
  set progA := prog.filter (fun d => decide (d.name ∈ A)) with hprogA
  set scA := (prog.filter sc).filter (fun d => decide (d.name ∈ A)) with hscA
  have hmemA : ∀ d, d ∈ progA ↔ d ∈ prog ∧ d.name ∈ A := by
    intro d; rw [hprogA, List.mem_filter]; simp
  have hsubA : progA.Sublist prog := List.filter_sublist
  have hndA : (progA.map Decl.name).Nodup := h0.names.sublist (hsubA.map _)
  have hscA' : scA = progA.filter sc := by
    simp only [hscA, hprogA, List.filter_filter]
    congr 1
    funext d
    exact Bool.and_comm _ _
  have hsubS : scA.Sublist prog := by rw [hscA']; exact List.filter_sublist.trans hsubA
  have hndS : (scA.map Decl.name).Nodup := h0.names.sublist (hsubS.map _)
  have hmemS : ∀ d, d ∈ scA ↔ d ∈ prog ∧ sc d = true ∧ d.name ∈ A := by
    intro d; rw [hscA, List.mem_filter, List.mem_filter]; simp [and_assoc]
  let P : Decl E V → Bool := fun d => decide (d.name ∈ k.active.map Decl.name)
  let ratio : Decl E V → (String → V) → ℝ := fun d ρ =>
    Real.exp (Real.log (d.mass θ ρ (ρ d.name)) - Real.log (d.mass θ₀ ρ (ρ d.name)))
  let r : Decl E V → (String → V) → ℝ := fun d ρ => if P d then ratio d ρ else 1
  let c : ℝ := ((progA.filter drawn).map (fun d => 1 / (size d.name : ℝ))).prod
  let F : (String → V) → ℝ := fun ρ => (progA.map (fun d => if !drawn d then d.mass θ ρ (ρ d.name) else 1)).prod * k.f θ ρ
  have hact : ∀ d ∈ prog, P d = true ↔ d ∈ k.active := by
    intro d hd
    simp only [P, decide_eq_true_eq]
    constructor
    · intro hm
      obtain ⟨d', hd', he⟩ := List.mem_map.1 hm
      have e1 := find_decl h0.names hd
      have e2 := find_decl h0.names (hk.sub d' hd').1
      rw [he, e1] at e2
      cases e2
      exact hd'
    · exact fun hm => List.mem_map_of_mem hm
  have hPs : ∀ d ∈ prog, P d = true → sc d = true := fun d hd hP => hac d ((hact d hd).1 hP)
  have hperm : k.active.Perm (progA.filter P) := by
    rw [List.perm_ext_iff_of_nodup hk.nodup.of_map (hndA.of_map.filter _)]
    intro d
    rw [List.mem_filter, hmemA]
    exact ⟨fun hd => ⟨⟨(hk.sub d hd).1, (hk.sub d hd).2.2⟩, (hact d (hk.sub d hd).1).2 hd⟩,
      fun hd => (hact d hd.1.1).1 hd.2⟩
  have hprod : ∀ ρ, Real.exp (logRatio k.active θ θ₀ ρ) = (progA.map (fun d => if P d then ratio d ρ else 1)).prod := by
    intro ρ
    rw [prod_ite_one progA P (fun d => ratio d ρ), ← (hperm.map _).prod_eq, logRatio, Real.exp_list_sum, List.map_map]
    rfl
  have hH : ∀ ρ, mixTerm prog drawn size θ₀ k θ ρ = c * ((scA.map (fun d => r d ρ)).prod * F ρ) := by
    intro ρ
    show (progA.map (fun d => mixWeight drawn size θ d ρ)).prod * _ = c * (_ * (_ * _))
    rw [hprod ρ, hscA', ← prod_ite_one progA sc (fun d => r d ρ), ← mul_assoc, ← mul_assoc, ← mul_assoc,
      ← List.prod_map_mul]
    congr 1
    show _ = ((progA.filter drawn).map (fun d => 1 / (size d.name : ℝ))).prod * _ * _
    rw [← prod_ite_one progA drawn (fun d => 1 / (size d.name : ℝ)), ← List.prod_map_mul, ← List.prod_map_mul]
    congr 1
    apply List.map_congr_left
    intro d hd
    simp only [mixWeight, r]
    have hd' := ((hmemA d).1 hd).1
    cases hf : drawn d with
    | true =>
      cases hP : P d with
      | true => simp [hPs d hd' hP]
      | false => simp
    | false =>
      have h1 : sc d = false := by
        cases h : sc d with
        | false => rfl
        | true => rw [hsc d hd' h] at hf; cases hf
      have h2 : P d = false := by
        cases h : P d with
        | false => rfl
        | true => rw [hPs d hd' h] at h1; cases h1
      simp [h1, h2]
  have hmassA : ∀ θ', ∀ d ∈ prog, LawIn A (fun d => d.mass θ') d := by
    intro θ' d hd hdA ρ ρ' v hag
    exact h0.local' d hd θ' ρ ρ' v (fun s hs' => hag s (hk.closed d hd hdA s hs'))
  have hF : LooksAt A F := by
    intro ρ ρ' hag
    simp only [F]
    rw [hk.looks θ ρ ρ' hag]
    congr 2
    apply List.map_congr_left
    intro d hd
    obtain ⟨hd1, hd2⟩ := (hmemA d).1 hd
    have e : ∀ w, d.mass θ ρ w = d.mass θ ρ' w := fun w => hmassA θ d hd1 hd2 ρ ρ' w hag
    rw [e, hag d.name hd2]
  have hrA : ∀ d ∈ scA, ∀ ρ ρ', (∀ s ∈ A, ρ s = ρ' s) → r d ρ = r d ρ' := by
    intro d hd ρ ρ' hag
    obtain ⟨hd1, _, hd2⟩ := (hmemS d).1 hd
    have e : ∀ θ' w, d.mass θ' ρ w = d.mass θ' ρ' w := fun θ' w => hmassA θ' d hd1 hd2 ρ ρ' w hag
    simp only [r, ratio, e, hag d.name hd2]
  have hK : LooksAt A (fun ρ => (scA.map (fun d => r d ρ)).prod * F ρ) := by
    intro ρ ρ' hag
    simp only
    rw [hF ρ ρ' hag]
    congr 2
    exact List.map_congr_left (fun d hd => hrA d hd ρ ρ' hag)
  have hlocal : ∀ l1 d l2, scA = l1 ++ d :: l2 → ∀ θ' ρ ρ' v, (∀ s, s ∉ (d :: l2).map Decl.name → ρ s = ρ' s) →
      d.mass θ' ρ v = d.mass θ' ρ' v := by
    intro l1 d l2 he θ' ρ ρ' v hag
    apply h0.local' d (hsubS.subset (by rw [he]; simp))
    exact fun s hs' => hag s (h0.sublist_dep (he ▸ hsubS) s hs')
  have hself : ∀ l1 d l2, scA = l1 ++ d :: l2 → ∀ θ' ρ v w, d.mass θ' (Function.update ρ d.name v) w = d.mass θ' ρ w := by
    intro l1 d l2 he θ' ρ v w
    apply hlocal l1 d l2 he
    intro s hsn
    rw [Function.update_of_ne]
    rintro rfl
    exact hsn (by simp)
  have hown : ∀ l1 d l2, scA = l1 ++ d :: l2 → d.name ∉ l2.map Decl.name := by
    intro l1 d l2 he
    have := hndS
    rw [he, List.map_append, List.map_cons] at this
    exact (List.nodup_cons.1 (List.nodup_append.1 this).2.1).1
  have hm : ∀ l1 d l2, scA = l1 ++ d :: l2 → ∀ ρ ρ' : String → V, (∀ s, s ∉ l2.map Decl.name → ρ s = ρ' s) →
      ∀ θ' w, d.mass θ' ρ w = d.mass θ' ρ' w := by
    intro l1 d l2 he ρ ρ' hag θ' w
    apply hlocal l1 d l2 he
    intro s hsn
    exact hag s (fun hm => hsn (List.mem_cons_of_mem _ hm))
  rw [funext hH, expectOne_smul, expectOne_drop (A := A) (prog.filter sc)
      (fun d hd => hmassA θ₀ d (List.mem_filter.1 hd).1)
      (fun d hd => h0.normal d (List.mem_filter.1 hd).1) hK]
  congr 1
  rw [expectOne_reweight (mass' := fun d => d.mass θ) r scA hndS]
  · have hsplit : ∀ ρ : String → V, (progA.map (fun d => if sc d || !drawn d then d.mass θ ρ (ρ d.name) else 1)).prod * k.f θ ρ =
        (scA.map (fun d => d.mass θ ρ (ρ d.name))).prod * F ρ := by
      intro ρ
      simp only [F]
      rw [hscA', ← prod_ite_one progA sc (fun d => d.mass θ ρ (ρ d.name)), ← mul_assoc, ← List.prod_map_mul]
      congr 2
      apply List.map_congr_left
      intro d hd
      have hd' := ((hmemA d).1 hd).1
      cases h : sc d with
      | true => simp [hsc d hd' h]
      | false => simp
    rw [funext hsplit, expectOne_reweight (mass' := fun d => d.mass θ) (fun d ρ => d.mass θ ρ (ρ d.name)) scA hndS]
    · intro l1 d l2 he ρ v _
      rw [one_mul, Function.update_self]
      exact hself l1 d l2 he θ ρ v v
    · intro l1 d l2 he ρ ρ' hag
      rw [hm l1 d l2 he ρ ρ' hag, hag d.name (hown l1 d l2 he)]
  · intro l1 d l2 he ρ v hvs
    have hd : d ∈ scA := by rw [he]; simp
    obtain ⟨hd1, hd3, hd2⟩ := (hmemS d).1 hd
    simp only [r]
    cases hP : P d with
    | true =>
      simp only [ratio, if_true, Function.update_self]
      rw [hself l1 d l2 he, hself l1 d l2 he]
      rcases hs d ((hact d hd1).1 hP) ρ v hvs with ⟨a1, a2⟩ | ⟨a1, a2⟩
      · rw [Real.exp_sub, Real.exp_log a1, Real.exp_log a2]
        field_simp
      · rw [a1, a2, zero_mul]
    | false =>
      simp only [Bool.false_eq_true, if_false, mul_one]
      rcases hk.passive d hd1 hd2 (hsc d hd1 hd3) with h' | h'
      · rw [(hact d hd1).2 h'] at hP; cases hP
      · rw [h' θ]
  · intro l1 d l2 he ρ ρ' hag
    simp only [r, ratio, hm l1 d l2 he ρ ρ' hag, hag d.name (hown l1 d l2 he)]

/-- A term of the surrogate loss is a constant times the joint probability and the cost. -/
theorem mixTerm_scored {prog : List (Decl E V)} {θ₀ : E} (h0 : Program prog θ₀)
    {drawn sc : Decl E V → Bool} (hsc : ∀ d ∈ prog, sc d = true → drawn d = true) {size : String → Nat}
    {k : CostSpec E V} (hk : k.MixOK prog drawn θ₀) (hac : ∀ d ∈ k.active, sc d = true) (ρ : String → V) :
    ∃ c : ℝ, ∀ θ, (∀ d ∈ prog, sc d = true → d.name ∈ k.anc → 0 < d.mass θ₀ ρ (ρ d.name) ∧ 0 < d.mass θ ρ (ρ d.name)) →
      mixTerm prog drawn size θ₀ k θ ρ = c * (((prog.filter (fun d => decide (d.name ∈ k.anc))).map
        (fun d => if sc d || !drawn d then d.mass θ ρ (ρ d.name) else 1)).prod * k.f θ ρ) := by
  set progA := prog.filter (fun d => decide (d.name ∈ k.anc)) with hprogA
  have hmemA : ∀ d, d ∈ progA ↔ d ∈ prog ∧ d.name ∈ k.anc := by
    intro d; rw [hprogA, List.mem_filter]; simp
  have hndA : (progA.map Decl.name).Nodup := h0.names.sublist (List.filter_sublist.map _)
  let P : Decl E V → Bool := fun d => decide (d.name ∈ k.active.map Decl.name)
  have hact : ∀ d ∈ prog, P d = true ↔ d ∈ k.active := by
    intro d hd
    simp only [P, decide_eq_true_eq]
    constructor
    · intro hm
      obtain ⟨d', hd', he⟩ := List.mem_map.1 hm
      have e1 := find_decl h0.names hd
      have e2 := find_decl h0.names (hk.sub d' hd').1
      rw [he, e1] at e2
      cases e2
      exact hd'
    · exact fun hm => List.mem_map_of_mem hm
  have hperm : k.active.Perm (progA.filter P) := by
    rw [List.perm_ext_iff_of_nodup hk.nodup.of_map (hndA.of_map.filter _)]
    intro d
    rw [List.mem_filter, hmemA]
    exact ⟨fun hd => ⟨⟨(hk.sub d hd).1, (hk.sub d hd).2.2⟩, (hact d (hk.sub d hd).1).2 hd⟩,
      fun hd => (hact d hd.1.1).1 hd.2⟩
  refine ⟨(progA.map (fun d => (if drawn d then 1 / (size d.name : ℝ) else 1) *
    (if sc d then 1 / d.mass θ₀ ρ (ρ d.name) else 1))).prod, fun θ hpos => ?_⟩
  have hprod : Real.exp (logRatio k.active θ θ₀ ρ) = (progA.map (fun d => if P d then
      Real.exp (Real.log (d.mass θ ρ (ρ d.name)) - Real.log (d.mass θ₀ ρ (ρ d.name))) else 1)).prod := by
    rw [prod_ite_one progA P, ← (hperm.map _).prod_eq, logRatio, Real.exp_list_sum, List.map_map]
    rfl
  rw [mixTerm, ← hprogA, hprod, ← mul_assoc, ← mul_assoc, ← List.prod_map_mul, ← List.prod_map_mul]
  congr 2
  apply List.map_congr_left
  intro d hd
  obtain ⟨hd', hdA⟩ := (hmemA d).1 hd
  simp only [mixWeight]
  cases hf : drawn d with
  | false =>
    have h1 : sc d = false := by
      cases h : sc d with
      | false => rfl
      | true => rw [hsc d hd' h] at hf; cases hf
    have h2 : P d = false := by
      cases h : P d with
      | false => rfl
      | true => rw [hac d ((hact d hd').1 h)] at h1; cases h1
    simp [h1, h2]
  | true =>
    cases h1 : sc d with
    | false =>
      have h2 : P d = false := by
        cases h : P d with
        | false => rfl
        | true => rw [hac d ((hact d hd').1 h)] at h1; cases h1
      simp [h2]
    | true =>
      obtain ⟨p1, p2⟩ := hpos d hd' h1 hdA
      cases h2 : P d with
      | true =>
        simp only [if_true, Bool.true_or]
        rw [Real.exp_sub, Real.exp_log p1, Real.exp_log p2]
        ring
      | false =>
        have h3 : ∀ θ ρ v, d.mass θ ρ v = d.mass θ₀ ρ v := by
          rcases hk.passive d hd' hdA hf with h | h
          · rw [(hact d hd').2 h] at h2; cases h2
          · exact h
        have h4 : d.mass θ ρ (ρ d.name) = d.mass θ₀ ρ (ρ d.name) := h3 θ ρ _
        simp only [if_true, Bool.true_or, h4]
        field_simp
        simp

/-- Other values for the variables called `names`. -/
def override (names : List String) (a ρ : String → V) : String → V := fun s => if s ∈ names then a s else ρ s

/-- Summing over the values of variables is summing over a list of assignments. -/
theorem expectOne_ones (ds : List (Decl E V)) (hn : (ds.map Decl.name).Nodup) (ρ₀ : String → V) :
    ∃ l : List (String → V), (∀ F ρ, expectOne (fun _ _ _ => 1) ds F ρ =
      (l.map (fun a => F (override (ds.map Decl.name) a ρ))).sum) ∧ ∀ a ∈ l, ∀ d ∈ ds, a d.name ∈ d.support := by
  induction ds with
  | nil =>
    refine ⟨[ρ₀], fun F ρ => ?_, by simp⟩
    have : override (([] : List (Decl E V)).map Decl.name) ρ₀ ρ = ρ := by funext s; simp [override]
    rw [expectOne, List.map_cons, this]
    simp
  | cons d ds ih =>
    simp only [List.map_cons, List.nodup_cons] at hn
    obtain ⟨l, h1, h2⟩ := ih hn.2
    refine ⟨d.support.toList.flatMap (fun v => l.map (fun a => Function.update a d.name v)), ?_, ?_⟩
    · intro F ρ
      simp only [expectOne, one_mul, h1]
      rw [List.map_flatMap, List.flatMap_def, List.sum_flatten, List.map_map, ← Finset.sum_map_toList]
      congr 1
      apply List.map_congr_left
      intro v _
      simp only [Function.comp, List.map_map]
      congr 1
      apply List.map_congr_left
      intro a _
      simp only [Function.comp]
      congr 1
      funext s
      simp only [override, List.map_cons, List.mem_cons]
      by_cases hs : s = d.name
      · subst hs
        simp [hn.1]
      · simp [hs]
    · intro a ha e he
      obtain ⟨v, hv, ha⟩ := List.mem_flatMap.1 ha
      obtain ⟨a', ha', rfl⟩ := List.mem_map.1 ha
      rcases List.mem_cons.1 he with rfl | he
      · rw [Function.update_self]; exact Finset.mem_toList.1 hv
      · rw [Function.update_of_ne]
        · exact h2 a' ha' e he
        · rintro h
          exact hn.1 (h ▸ List.mem_map_of_mem he)

/-- Variables that have only one value can be left out, if they have it already. -/
theorem expectOne_fixed {mass : Decl E V → (String → V) → V → ℝ} (sc : Decl E V → Bool) (ε : String → V)
    (ds : List (Decl E V)) (hn : (ds.map Decl.name).Nodup)
    (hf : ∀ d ∈ ds, sc d = false → d.support = {ε d.name} ∧ ∀ ρ v, mass d ρ v = 1) (F : (String → V) → ℝ)
    (ρ : String → V) (hρ : ∀ d ∈ ds, sc d = false → ρ d.name = ε d.name) :
    expectOne mass ds F ρ = expectOne mass (ds.filter sc) F ρ := by
  induction ds generalizing ρ with
  | nil => rfl
  | cons d ds ih =>
    simp only [List.map_cons, List.nodup_cons] at hn
    have ih := ih hn.2 (fun x hx => hf x (List.mem_cons_of_mem _ hx))
    rw [List.filter_cons]
    cases h : sc d with
    | true =>
      simp only [if_true, expectOne]
      refine Finset.sum_congr rfl (fun v _ => ?_)
      rw [ih]
      intro x hx hx'
      rw [Function.update_of_ne]
      · exact hρ x (List.mem_cons_of_mem _ hx) hx'
      · intro e
        exact hn.1 (e ▸ List.mem_map_of_mem hx)
    | false =>
      obtain ⟨h1, h2⟩ := hf d (by simp) h
      simp only [Bool.false_eq_true, if_false, expectOne, h1, Finset.sum_singleton, h2, one_mul]
      rw [← hρ d (by simp) h, Function.update_eq_self]
      exact ih ρ (fun x hx => hρ x (List.mem_cons_of_mem _ hx))

/-- Nested sums over positions are sums over a list of positions. -/
theorem sumOver_positions (ps : List (String × Nat)) (Q : (String → Nat) → Prop)
    (hQ : ∀ ι, Q ι → ∀ p ∈ ps, ∀ i < p.2, Q (Function.update ι p.1 i)) (ι₀ : String → Nat) (h0 : Q ι₀) :
    ∃ l : List (String → Nat), (∀ ι ∈ l, Q ι) ∧ ∀ g, sumOver ps g ι₀ = (l.map g).sum := by
  induction ps generalizing ι₀ with
  | nil => exact ⟨[ι₀], by simpa using h0, fun g => by simp [sumOver]⟩
  | cons p ps ih =>
    have ih := ih (fun ι hι q hq => hQ ι hι q (List.mem_cons_of_mem _ hq))
    have key : ∀ m ≤ p.2, ∃ l : List (String → Nat), (∀ ι ∈ l, Q ι) ∧
        ∀ g, ∑ i ∈ Finset.range m, sumOver ps g (Function.update ι₀ p.1 i) = (l.map g).sum := by
      intro m
      induction m with
      | zero => intro _; exact ⟨[], by simp, fun g => by simp⟩
      | succ m ihm =>
        intro hm
        obtain ⟨l, l1, l2⟩ := ihm (by omega)
        obtain ⟨l', l1', l2'⟩ := ih _ (hQ ι₀ h0 p (by simp) m (by omega))
        refine ⟨l ++ l', ?_, fun g => ?_⟩
        · intro ι hι
          rcases List.mem_append.1 hι with h | h
          · exact l1 ι h
          · exact l1' ι h
        · rw [Finset.sum_range_succ, l2, l2', List.map_append, List.sum_append]
    exact key p.2 le_rfl

theorem expect_prog_congr {prog prog' : List (Decl E V)} (h : ∀ ω ι, trajectory prog ω ι = trajectory prog' ω ι) (θ : E)
    (ds : List (Decl E V)) (F : Draws V → ℝ) (ω : Draws V) : expect prog θ ds F ω = expect prog' θ ds F ω := by
  induction ds generalizing ω with
  | nil => rfl
  | cons d ds ih => simp only [expect, ih, h]

end

end Storch
