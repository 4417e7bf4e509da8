import Verif.Lemmas.ScoreLemmas

/-! Expectations when some variables are drawn and the others are enumerated. -/

namespace Storch

section positions

/-- Nested sums over the positions along plates with the given names and sizes. -/
def sumOver : List (String × Nat) → ((String → Nat) → ℝ) → (String → Nat) → ℝ
  | [], g, ι => g ι
  | p :: ps, g, ι => ∑ i ∈ Finset.range p.2, sumOver ps g (Function.update ι p.1 i)

theorem sumOver_congr {ps : List (String × Nat)} {g g' : (String → Nat) → ℝ} (P : (String → Nat) → Prop)
    (hP : ∀ ι, P ι → ∀ p ∈ ps, ∀ i < p.2, P (Function.update ι p.1 i)) (h : ∀ ι, P ι → g ι = g' ι) :
    ∀ ι, P ι → sumOver ps g ι = sumOver ps g' ι := by
  induction ps with
  | nil => exact h
  | cons p ps ih =>
    intro ι hι
    simp only [sumOver]
    refine Finset.sum_congr rfl (fun i hi => ?_)
    exact ih (fun ι hι q hq => hP ι hι q (List.mem_cons_of_mem _ hq)) _
      (hP ι hι p (by simp) i (Finset.mem_range.1 hi))

theorem sumOver_append (ps qs : List (String × Nat)) (g : (String → Nat) → ℝ) (ι : String → Nat) :
    sumOver (ps ++ qs) g ι = sumOver ps (sumOver qs g) ι := by
  induction ps generalizing ι with
  | nil => rfl
  | cons p ps ih => simp only [List.cons_append, sumOver, ih]

theorem sumOver_perm {ps qs : List (String × Nat)} (h : ps.Perm qs) (hn : (ps.map Prod.fst).Nodup)
    (g : (String → Nat) → ℝ) (ι : String → Nat) : sumOver ps g ι = sumOver qs g ι := by
  induction h generalizing ι with
  | nil => rfl
  | cons p _ ih =>
    simp only [List.map_cons, List.nodup_cons] at hn
    simp only [sumOver, ih hn.2]
  | swap p q ps =>
    simp only [List.map_cons, List.nodup_cons, List.mem_cons, not_or] at hn
    simp only [sumOver]
    rw [Finset.sum_comm]
    refine Finset.sum_congr rfl (fun i _ => Finset.sum_congr rfl (fun j _ => ?_))
    rw [Function.update_comm hn.1.1]
  | trans h1 _ ih1 ih2 => rw [ih1 hn, ih2 ((h1.map _).nodup_iff.1 hn)]

theorem sumOver_const {ps : List (String × Nat)} {g : (String → Nat) → ℝ}
    (h : ∀ p ∈ ps, ∀ ι i, g (Function.update ι p.1 i) = g ι) (ι : String → Nat) :
    sumOver ps g ι = (ps.map (fun p => (p.2 : ℝ))).prod * g ι := by
  induction ps generalizing ι with
  | nil => simp [sumOver]
  | cons p ps ih =>
    simp only [sumOver, ih (fun q hq => h q (List.mem_cons_of_mem _ hq)), h p (by simp)]
    simp [mul_assoc]

theorem sumOver_smul (ps : List (String × Nat)) (c : ℝ) (g : (String → Nat) → ℝ) (ι : String → Nat) :
    sumOver ps (fun ι => c * g ι) ι = c * sumOver ps g ι := by
  induction ps generalizing ι with
  | nil => rfl
  | cons p ps ih => simp only [sumOver, ih, Finset.mul_sum]

theorem expect_sumOver {E V : Type _} (prog : List (Decl E V)) (θ : E) (ds : List (Decl E V))
    (ps : List (String × Nat)) (F : (String → Nat) → Draws V → ℝ) (ι : String → Nat) (ω : Draws V) :
    expect prog θ ds (fun ω => sumOver ps (fun ι => F ι ω) ι) ω =
      sumOver ps (fun ι => expect prog θ ds (F ι) ω) ι := by
  induction ps generalizing ι with
  | nil => rfl
  | cons p ps ih => simp only [sumOver, expect_sum, ih]

/-- A sum over the joint indices of plates. -/
theorem sum_assign {α : Type _} (ps : List (Plate α)) (g : (String → Nat) → ℝ) (ι : String → Nat) :
    ((allIdx (ps.map Plate.n)).map (fun idx => g (assign ps idx ι))).sum =
      sumOver (ps.map (fun p => (p.name, p.n))) g ι := by
  induction ps generalizing ι with
  | nil => simp [allIdx, assign, sumOver]
  | cons p ps ih =>
    simp only [List.map_cons, allIdx, sumOver, ← ih]
    have hr : ∀ (n : Nat) (f : Nat → ℝ), ∑ i ∈ Finset.range n, f i = ((List.range n).map f).sum := fun n f => rfl
    rw [List.map_flatMap, List.flatMap_def, List.sum_flatten, List.map_map, hr]
    congr 1
    apply List.map_congr_left
    intro i _
    simp only [Function.comp, List.map_map]
    rfl

end positions

section
variable {E V : Type _}

theorem expectOne_smul (mass : Decl E V → (String → V) → V → ℝ) (ds : List (Decl E V)) (c : ℝ)
    (F : (String → V) → ℝ) (ρ : String → V) :
    expectOne mass ds (fun ρ => c * F ρ) ρ = c * expectOne mass ds F ρ := by
  induction ds generalizing ρ with
  | nil => rfl
  | cons d ds ih =>
    simp only [expectOne, ih, Finset.mul_sum]
    exact Finset.sum_congr rfl (fun v _ => by ring)

/-- The law of a variable in `A` looks at `A` only. -/
def LawIn (A : List String) (mass : Decl E V → (String → V) → V → ℝ) (d : Decl E V) : Prop :=
  d.name ∈ A → ∀ ρ ρ' v, (∀ s ∈ A, ρ s = ρ' s) → mass d ρ v = mass d ρ' v

theorem expectOne_agree {mass : Decl E V → (String → V) → V → ℝ} {A : List String} (ds : List (Decl E V))
    (hl : ∀ d ∈ ds, LawIn A mass d) (hd : ∀ d ∈ ds, d.name ∈ A) {F : (String → V) → ℝ} (hF : LooksAt A F) :
    LooksAt A (expectOne mass ds F) := by
  induction ds with
  | nil => exact hF
  | cons d ds ih =>
    intro ρ ρ' h
    simp only [expectOne]
    refine Finset.sum_congr rfl (fun v _ => ?_)
    rw [hl d (by simp) (hd d (by simp)) ρ ρ' v h,
      ih (fun x hx => hl x (List.mem_cons_of_mem _ hx)) (fun x hx => hd x (List.mem_cons_of_mem _ hx))]
    intro s hs
    by_cases he : s = d.name
    · subst he; simp
    · rw [Function.update_of_ne he, Function.update_of_ne he, h s hs]

/-- Variables outside of `A` can be left out. -/
theorem expectOne_drop {mass : Decl E V → (String → V) → V → ℝ} {A : List String} (ds : List (Decl E V))
    (hl : ∀ d ∈ ds, LawIn A mass d) (h1 : ∀ d ∈ ds, ∀ ρ, ∑ v ∈ d.support, mass d ρ v = 1)
    {F : (String → V) → ℝ} (hF : LooksAt A F) (ρ : String → V) :
    expectOne mass ds F ρ = expectOne mass (ds.filter (fun d => decide (d.name ∈ A))) F ρ := by
  induction ds generalizing ρ with
  | nil => rfl
  | cons d ds ih =>
    have ih := ih (fun x hx => hl x (List.mem_cons_of_mem _ hx)) (fun x hx => h1 x (List.mem_cons_of_mem _ hx))
    rw [List.filter_cons]
    by_cases hd : d.name ∈ A
    · simp only [hd, decide_true, if_true, expectOne, ih]
    · simp only [hd, decide_false, Bool.false_eq_true, if_false, expectOne, ih]
      have : ∀ v, expectOne mass (ds.filter (fun d => decide (d.name ∈ A))) F (Function.update ρ d.name v) =
          expectOne mass (ds.filter (fun d => decide (d.name ∈ A))) F ρ := by
        intro v
        apply expectOne_agree _ (fun x hx => hl x (List.mem_cons_of_mem _ (List.mem_filter.1 hx).1))
          (fun x hx => by simpa using (List.mem_filter.1 hx).2) hF
        intro s hs
        rw [Function.update_of_ne]
        rintro rfl
        exact hd hs
      simp only [this]
      rw [← Finset.sum_mul, h1 d (by simp), one_mul]

/-- Variables whose law is the same everywhere can be summed first. -/
theorem expectOne_swap {mass : Decl E V → (String → V) → V → ℝ} (P : Decl E V → Bool) (ds : List (Decl E V))
    (hnd : (ds.map Decl.name).Nodup)
    (hc : ∀ d ∈ ds, P d = false → ∀ ρ ρ' v, mass d ρ v = mass d ρ' v)
    (hl : ∀ l1 d l2, ds = l1 ++ d :: l2 → ∀ ρ ρ' v, (∀ s, s ∉ (d :: l2).map Decl.name → ρ s = ρ' s) →
      mass d ρ v = mass d ρ' v) (F : (String → V) → ℝ) (ρ : String → V) :
    expectOne mass ds F ρ = expectOne mass (ds.filter (fun d => !P d)) (expectOne mass (ds.filter P) F) ρ := by
  induction ds generalizing ρ with
  | nil => rfl
  | cons d ds ih =>
    simp only [List.map_cons, List.nodup_cons] at hnd
    have ih := ih hnd.2 (fun x hx => hc x (List.mem_cons_of_mem _ hx))
      (fun l1 e l2 he => hl (d :: l1) e l2 (by rw [he]; rfl))
    cases hP : P d with
    | false => simp only [expectOne, ih, hP, List.filter_cons, Bool.not_false, if_true, Bool.false_eq_true, if_false]
    | true =>
      simp only [expectOne, ih, hP, List.filter_cons, Bool.not_true, if_true, Bool.false_eq_true, if_false]
      have key : ∀ (es : List (Decl E V)), (∀ e ∈ es, e ∈ ds ∧ P e = false) → ∀ (G : (String → V) → ℝ) ρ,
          ∑ v ∈ d.support, mass d ρ v * expectOne mass es G (Function.update ρ d.name v) =
          expectOne mass es (fun ρ => ∑ v ∈ d.support, mass d ρ v * G (Function.update ρ d.name v)) ρ := by
        intro es
        induction es with
        | nil => intro _ G ρ; rfl
        | cons e es ih2 =>
          intro hes G ρ
          obtain ⟨he, hPe⟩ := hes e (by simp)
          have hne : e.name ≠ d.name := fun h => hnd.1 (h ▸ List.mem_map_of_mem he)
          simp only [expectOne, ← ih2 (fun x hx => hes x (List.mem_cons_of_mem _ hx)), Finset.mul_sum]
          rw [Finset.sum_comm]
          refine Finset.sum_congr rfl (fun w _ => Finset.sum_congr rfl (fun v _ => ?_))
          rw [hl [] d ds rfl (Function.update ρ e.name w) ρ v, Function.update_comm hne,
            hc e (List.mem_cons_of_mem _ he) hPe (Function.update ρ d.name v) ρ w]
          · ring
          · intro s hs
            rw [Function.update_of_ne]
            rintro rfl
            exact hs (List.mem_cons_of_mem _ (List.mem_map_of_mem he))
      exact key _ (fun e he => by simpa using List.mem_filter.1 he) _ _

theorem expectOne_mass {mass mass' : Decl E V → (String → V) → V → ℝ} {ds : List (Decl E V)}
    (h : ∀ d ∈ ds, ∀ ρ, ∀ v ∈ d.support, mass d ρ v = mass' d ρ v) (F : (String → V) → ℝ) (ρ : String → V) :
    expectOne mass ds F ρ = expectOne mass' ds F ρ := by
  induction ds generalizing ρ with
  | nil => rfl
  | cons d ds ih =>
    simp only [expectOne]
    refine Finset.sum_congr rfl (fun v hv => ?_)
    rw [h d (by simp) ρ v hv, ih (fun x hx => h x (List.mem_cons_of_mem _ hx))]

theorem Program.sublist_dep {prog : List (Decl E V)} {θ : E} (h : Program prog θ) {l1 l2 : List (Decl E V)}
    {d : Decl E V} (hs : (l1 ++ d :: l2).Sublist prog) : ∀ s ∈ d.deps, s ∉ (d :: l2).map Decl.name := by
  have h1 : (d :: l2).Sublist prog := (List.sublist_append_right _ _).trans hs
  obtain ⟨r1, r2, hr, hd, hl⟩ := List.cons_sublist_iff.1 h1
  obtain ⟨a, b, rfl⟩ := List.append_of_mem hd
  intro s hsd hm
  refine h.not_dep (l1 := a) (l2 := b ++ r2) (d := d) (by rw [hr]; simp) s hsd ?_
  rcases List.mem_cons.1 hm with rfl | hm
  · simp
  · obtain ⟨e, he, rfl⟩ := List.mem_map.1 hm
    exact List.mem_map_of_mem (List.mem_cons_of_mem _ (List.mem_append_right _ (hl.subset he)))

/-! ### Listed values -/

/-- The value that the position along its own plate gives a listed variable. -/
def listedAt (vals : String → List V) (ω : Draws V) (ι : String → Nat) (s : String) : V :=
  ((vals s)[ι s]?).getD (ω s [])

theorem sum_listed [DecidableEq V] {l : List V} (hn : l.Nodup) {S : Finset V} (hS : ∀ v, v ∈ S ↔ v ∈ l) (v₀ : V)
    (f : V → ℝ) : ∑ i ∈ Finset.range l.length, f ((l[i]?).getD v₀) = ∑ v ∈ S, f v := by
  have hS' : S = l.toFinset := by ext v; rw [hS v, List.mem_toFinset]
  rw [hS', List.sum_toFinset f hn, Finset.sum_range, ← List.sum_ofFn]
  congr 1
  apply List.ext_getElem
  · simp
  · intro i h1 h2
    simp at h1 ⊢

/-- Summing over the positions of listed variables is summing over their values. -/
theorem sumOver_listed [DecidableEq V] {vals : String → List V} {ω : Draws V} {B : List String}
    {Φ : (String → V) → ℝ} (hΦ : LooksAt B Φ) (es : List (Decl E V)) (hnd : (es.map Decl.name).Nodup)
    (hv : ∀ e ∈ es, (vals e.name).Nodup ∧ ∀ v, v ∈ e.support ↔ v ∈ vals e.name) :
    ∀ (ι : String → Nat) (ρ : String → V), (∀ s ∈ B, s ∉ es.map Decl.name → listedAt vals ω ι s = ρ s) →
    sumOver (es.map (fun e => (e.name, (vals e.name).length))) (fun ι => Φ (listedAt vals ω ι)) ι =
      expectOne (fun _ _ _ => 1) es Φ ρ := by
  induction es with
  | nil =>
    intro ι ρ h
    exact hΦ _ _ (fun s hs => h s hs (by simp))
  | cons e es ih =>
    intro ι ρ h
    simp only [List.map_cons, List.nodup_cons] at hnd
    simp only [List.map_cons, sumOver, expectOne, one_mul]
    obtain ⟨h1, h2⟩ := hv e (by simp)
    rw [← sum_listed h1 h2 (ω e.name []) (fun v => expectOne (fun _ _ _ => 1) es Φ (Function.update ρ e.name v))]
    refine Finset.sum_congr rfl (fun i _ => ?_)
    apply ih hnd.2 (fun x hx => hv x (List.mem_cons_of_mem _ hx))
    intro s hs hse
    by_cases he : s = e.name
    · subst he
      rw [listedAt, Function.update_self, Function.update_self]
    · rw [listedAt, Function.update_of_ne he, Function.update_of_ne he, ← h s hs (by simp [he, hse]), listedAt]

/-- At every position a listed variable has the value with the number of its own position. -/
def Lists (prog : List (Decl E V)) (drawn : Decl E V → Bool) (vals : String → List V) (ω : Draws V) : Prop :=
  ∀ d ∈ prog, drawn d = false → ∀ ι : String → Nat, ι d.name < (vals d.name).length →
    (vals d.name)[ι d.name]? = some (trajectory prog ω ι d.name)

/-- The cost looks at its ancestors only; every drawn ancestor whose distribution depends on the parameters is among
the active ones, which are drawn ancestors. -/
structure CostSpec.MixOK (prog : List (Decl E V)) (drawn : Decl E V → Bool) (θ₀ : E) (k : CostSpec E V) : Prop where
  sub : ∀ d ∈ k.active, d ∈ prog ∧ drawn d = true ∧ d.name ∈ k.anc
  nodup : (k.active.map Decl.name).Nodup
  closed : ∀ d ∈ prog, d.name ∈ k.anc → ∀ s ∈ d.deps, s ∈ k.anc
  ancSub : ∀ s ∈ k.anc, s ∈ prog.map Decl.name
  looks : ∀ θ, LooksAt k.anc (k.f θ)
  passive : ∀ d ∈ prog, d.name ∈ k.anc → drawn d = true → d ∈ k.active ∨ ∀ θ ρ v, d.mass θ ρ v = d.mass θ₀ ρ v

/-- The weight of a position: `1 / n` for each drawn variable, the probability of the value for each listed one. -/
noncomputable def mixWeight (drawn : Decl E V → Bool) (size : String → Nat) (θ : E) (d : Decl E V) (ρ : String → V) : ℝ :=
  if drawn d then 1 / (size d.name : ℝ) else d.mass θ ρ (ρ d.name)

/-- The term of the surrogate loss at a position with the values `ρ`. -/
noncomputable def mixTerm (prog : List (Decl E V)) (drawn : Decl E V → Bool) (size : String → Nat) (θ₀ : E)
    (k : CostSpec E V) (θ : E) (ρ : String → V) : ℝ :=
  ((prog.filter (fun d => decide (d.name ∈ k.anc))).map (fun d => mixWeight drawn size θ d ρ)).prod *
    (Real.exp (logRatio k.active θ θ₀ ρ) * k.f θ ρ)

/-- The average over the draws of the weighted total of a cost is its expectation in the statistical model. -/
theorem mixed_total [DecidableEq V] {prog : List (Decl E V)} {θ₀ θ : E} (h0 : Program prog θ₀) (h : Program prog θ)
    {drawn : Decl E V → Bool} {vals : String → List V} {size : String → Nat}
    (hsize : ∀ d ∈ prog, 0 < size d.name)
    (hv : ∀ d ∈ prog, drawn d = false → size d.name = (vals d.name).length ∧ (vals d.name).Nodup ∧
      ∀ v, v ∈ d.support ↔ v ∈ vals d.name)
    {k : CostSpec E V} (hk : k.MixOK prog drawn θ₀) (hs : ∀ d ∈ k.active, SameSupport d θ₀ θ)
    {ω : Draws V} (hω : Lists prog drawn vals ω) {cidx : List (String × Nat)}
    (hidx : cidx.Perm ((prog.filter (fun d => decide (d.name ∈ k.anc))).map (fun d => (d.name, size d.name))))
    (ρ₀ : String → V) :
    sumOver cidx (fun ι => expectOne (fun d => d.mass θ₀) (prog.filter drawn)
        (mixTerm prog drawn size θ₀ k θ) (trajectory prog ω ι)) (fun _ => 0) =
      expectOne (fun d => d.mass θ) prog (k.f θ) ρ₀ := by
  set A := k.anc with hA
  set progA := prog.filter (fun d => decide (d.name ∈ A)) with hprogA
  have hmemA : ∀ d, d ∈ progA ↔ d ∈ prog ∧ d.name ∈ A := by
    intro d; rw [hprogA, List.mem_filter]; simp
  have hsubA : progA.Sublist prog := List.filter_sublist
  have hndA : (progA.map Decl.name).Nodup := h0.names.sublist (hsubA.map _)
  let P : Decl E V → Bool := fun d => decide (d.name ∈ k.active.map Decl.name)
  let ratio : Decl E V → (String → V) → ℝ := fun d ρ =>
    Real.exp (Real.log (d.mass θ ρ (ρ d.name)) - Real.log (d.mass θ₀ ρ (ρ d.name)))
  let r : Decl E V → (String → V) → ℝ := fun d ρ =>
    if drawn d then (if P d then ratio d ρ else 1) else d.mass θ ρ (ρ d.name)
  let m1 : Decl E V → (String → V) → V → ℝ := fun d ρ v => if drawn d then d.mass θ₀ ρ v else 1
  let K : (String → V) → ℝ := fun ρ => (progA.map (fun d => r d ρ)).prod * k.f θ ρ
  let scoreA := progA.filter drawn
  let enumA := progA.filter (fun d => !drawn d)
  let c : ℝ := (scoreA.map (fun d => 1 / (size d.name : ℝ))).prod
  have hact : ∀ d ∈ prog, P d = true ↔ d ∈ k.active := by
    intro d hd
    simp only [P, decide_eq_true_eq]
    constructor
    · intro hm
      obtain ⟨d', hd', he⟩ := List.mem_map.1 hm
      have e1 := find_decl h0.names hd
      have e2 := find_decl h0.names (hk.sub d' hd').1
      rw [he, e1] at e2
      cases e2
      exact hd'
    · exact fun hm => List.mem_map_of_mem hm
  have hperm : k.active.Perm (progA.filter P) := by
    rw [List.perm_ext_iff_of_nodup hk.nodup.of_map (hndA.of_map.filter _)]
    intro d
    rw [List.mem_filter, hmemA]
    exact ⟨fun hd => ⟨⟨(hk.sub d hd).1, (hk.sub d hd).2.2⟩, (hact d (hk.sub d hd).1).2 hd⟩,
      fun hd => (hact d hd.1.1).1 hd.2⟩
  have hprod : ∀ ρ, Real.exp (logRatio k.active θ θ₀ ρ) = (progA.map (fun d => if P d then ratio d ρ else 1)).prod := by
    intro ρ
    rw [prod_ite_one progA P (fun d => ratio d ρ), ← (hperm.map _).prod_eq, logRatio, Real.exp_list_sum, List.map_map]
    rfl
  have hPd : ∀ d ∈ progA, drawn d = false → P d = false := by
    intro d hd hf
    cases hP : P d with
    | false => rfl
    | true =>
      have := (hk.sub d ((hact d ((hmemA d).1 hd).1).1 hP)).2.1
      rw [hf] at this; cases this
  have hH : ∀ ρ, mixTerm prog drawn size θ₀ k θ ρ = c * K ρ := by
    intro ρ
    show (progA.map (fun d => mixWeight drawn size θ d ρ)).prod * _ = _
    rw [hprod ρ, ← mul_assoc, ← List.prod_map_mul]
    show _ = c * ((progA.map (fun d => r d ρ)).prod * k.f θ ρ)
    rw [← mul_assoc]
    congr 1
    show _ = ((progA.filter drawn).map (fun d => 1 / (size d.name : ℝ))).prod * _
    rw [← prod_ite_one progA drawn (fun d => 1 / (size d.name : ℝ)), ← List.prod_map_mul]
    congr 1
    apply List.map_congr_left
    intro d hd
    simp only [mixWeight, r]
    cases hf : drawn d with
    | true => simp
    | false => simp [hPd d hd hf]
  -- what the terms look at
  have hmassA : ∀ θ', ∀ d ∈ prog, LawIn A (fun d => d.mass θ') d := by
    intro θ' d hd hdA ρ ρ' v hag
    exact h0.local' d hd θ' ρ ρ' v (fun s hs' => hag s (hk.closed d hd hdA s hs'))
  have hrA : ∀ d ∈ progA, ∀ ρ ρ', (∀ s ∈ A, ρ s = ρ' s) → r d ρ = r d ρ' := by
    intro d hd ρ ρ' hag
    obtain ⟨hd1, hd2⟩ := (hmemA d).1 hd
    have e : ∀ θ' w, d.mass θ' ρ w = d.mass θ' ρ' w := fun θ' w => hmassA θ' d hd1 hd2 ρ ρ' w hag
    simp only [r, ratio, e, hag d.name hd2]
  have hK : LooksAt A K := by
    intro ρ ρ' hag
    simp only [K]
    rw [hk.looks θ ρ ρ' hag]
    congr 2
    exact List.map_congr_left (fun d hd => hrA d hd ρ ρ' hag)
  have hscoreA : ((prog.filter drawn).filter (fun d => decide (d.name ∈ A))) = scoreA := by
    simp only [scoreA, hprogA, List.filter_filter]
    congr 1
    funext d
    exact Bool.and_comm _ _
  let Φ : (String → V) → ℝ := expectOne (fun d => d.mass θ₀) scoreA K
  have hdrop : ∀ ρ, expectOne (fun d => d.mass θ₀) (prog.filter drawn) (mixTerm prog drawn size θ₀ k θ) ρ = c * Φ ρ := by
    intro ρ
    rw [funext hH, expectOne_smul, expectOne_drop (A := A) (prog.filter drawn)
      (fun d hd => hmassA θ₀ d (List.mem_filter.1 hd).1)
      (fun d hd => h0.normal d (List.mem_filter.1 hd).1) hK, hscoreA]
  let B := enumA.map Decl.name
  have hscoreSub : scoreA.Sublist prog := List.filter_sublist.trans hsubA
  have hΦ : LooksAt B Φ := by
    intro ρ ρ' hag
    apply expectOne_looksAt (A := A) scoreA (h0.names.sublist (hscoreSub.map _))
    · intro l1 d l2 he hdA ρ ρ' v hag'
      have hd : d ∈ prog := hscoreSub.subset (by rw [he]; simp)
      apply h0.local' d hd
      intro s hs'
      exact hag' s (hk.closed d hd hdA s hs') (h0.sublist_dep (he ▸ hscoreSub) s hs')
    · exact fun d hd => h0.normal d (hscoreSub.subset hd)
    · exact fun d hd => h0.normal d (hscoreSub.subset hd)
    · exact hK
    · intro s hsA hsn
      obtain ⟨d, hd, rfl⟩ := List.mem_map.1 (hk.ancSub s hsA)
      have hdA : d ∈ progA := (hmemA d).2 ⟨hd, hsA⟩
      apply hag
      refine List.mem_map_of_mem (List.mem_filter.2 ⟨hdA, ?_⟩)
      cases hf : drawn d with
      | false => rfl
      | true => exact absurd (List.mem_map_of_mem (List.mem_filter.2 ⟨hdA, hf⟩)) hsn
  have henum : ∀ d ∈ enumA, d ∈ prog ∧ d.name ∈ A ∧ drawn d = false := by
    intro d hd
    obtain ⟨h1, h2⟩ := List.mem_filter.1 hd
    exact ⟨((hmemA d).1 h1).1, ((hmemA d).1 h1).2, by simpa using h2⟩
  -- only the positions along the plates of the listed variables matter
  have hpos : ∀ ι : String → Nat, (∀ d ∈ prog, ι d.name < size d.name) →
      Φ (trajectory prog ω ι) = Φ (listedAt vals ω ι) := by
    intro ι hι
    apply hΦ
    intro s hsB
    obtain ⟨d, hd, rfl⟩ := List.mem_map.1 hsB
    obtain ⟨d1, _, d3⟩ := henum d hd
    rw [listedAt, hω d d1 d3 ι (by rw [← (hv d d1 d3).1]; exact hι d d1)]
    rfl
  have hcn : (cidx.map Prod.fst).Nodup := by
    rw [(hidx.map _).nodup_iff, List.map_map]
    exact hndA
  have hsplit : cidx.Perm (enumA.map (fun d => (d.name, size d.name)) ++ scoreA.map (fun d => (d.name, size d.name))) := by
    refine hidx.trans ?_
    rw [← List.map_append]
    refine List.Perm.map _ ?_
    refine List.Perm.trans ?_ List.perm_append_comm
    exact (List.filter_append_perm drawn progA).symm
  have hnum : (scoreA.map (fun d => (size d.name : ℝ))).prod * c = 1 := by
    simp only [c]
    rw [← List.prod_map_mul]
    apply List.prod_eq_one
    intro x hx
    obtain ⟨d, hd, rfl⟩ := List.mem_map.1 hx
    have : (0 : ℝ) < size d.name := by exact_mod_cast hsize d (hscoreSub.subset hd)
    field_simp
  have step1 : sumOver cidx (fun ι => expectOne (fun d => d.mass θ₀) (prog.filter drawn)
        (mixTerm prog drawn size θ₀ k θ) (trajectory prog ω ι)) (fun _ => 0) =
      c * sumOver cidx (fun ι => Φ (listedAt vals ω ι)) (fun _ => 0) := by
    rw [← sumOver_smul]
    refine sumOver_congr (fun ι => ∀ d ∈ prog, ι d.name < size d.name) ?_ ?_ _ ?_
    · intro ι hι p hp i hi d hd
      by_cases he : d.name = p.1
      · obtain ⟨d', hd', rfl⟩ := List.mem_map.1 (hidx.mem_iff.1 hp)
        rw [he, Function.update_self]
        exact hi
      · rw [Function.update_of_ne he]; exact hι d hd
    · intro ι hι
      rw [hdrop, hpos ι hι]
    · exact fun d hd => hsize d hd
  rw [step1, sumOver_perm hsplit hcn, sumOver_append]
  have hconst : ∀ ι, sumOver (scoreA.map (fun d => (d.name, size d.name))) (fun ι => Φ (listedAt vals ω ι)) ι =
      (scoreA.map (fun d => (size d.name : ℝ))).prod * Φ (listedAt vals ω ι) := by
    intro ι
    rw [sumOver_const, List.map_map]
    · rfl
    · intro p hp ι i
      obtain ⟨d, hd, rfl⟩ := List.mem_map.1 hp
      apply hΦ
      intro s hsB
      rw [listedAt, listedAt, Function.update_of_ne]
      rintro rfl
      obtain ⟨e, he, hne⟩ := List.mem_map.1 hsB
      obtain ⟨e1, _, e3⟩ := henum e he
      have := find_decl h0.names e1
      rw [hne, find_decl h0.names (hscoreSub.subset hd)] at this
      cases this
      rw [(List.mem_filter.1 hd).2] at e3
      cases e3
  rw [funext hconst, sumOver_smul, ← mul_assoc, mul_comm c, hnum, one_mul]
  have hmapE : enumA.map (fun d => (d.name, size d.name)) = enumA.map (fun d => (d.name, (vals d.name).length)) := by
    apply List.map_congr_left
    intro d hd
    obtain ⟨d1, _, d3⟩ := henum d hd
    rw [(hv d d1 d3).1]
  rw [hmapE, sumOver_listed hΦ enumA (hndA.sublist (List.filter_sublist.map _))
    (fun e he => (hv e (henum e he).1 (henum e he).2.2).2) (fun _ => 0) ρ₀
    (fun s hs' hn => absurd hs' hn)]
  -- back to one expectation
  have hm1 : expectOne (fun _ _ _ => (1 : ℝ)) enumA Φ ρ₀ = expectOne m1 enumA (expectOne m1 scoreA K) ρ₀ := by
    have e1 : Φ = expectOne m1 scoreA K := by
      funext ρ
      apply expectOne_mass
      intro d hd ρ v _
      simp only [m1, (List.mem_filter.1 hd).2, if_true]
    rw [e1]
    apply expectOne_mass
    intro d hd ρ v _
    simp only [m1, (henum d hd).2.2, Bool.false_eq_true, if_false]
  have hlocal : ∀ l1 d l2, progA = l1 ++ d :: l2 → ∀ θ' ρ ρ' v, (∀ s, s ∉ (d :: l2).map Decl.name → ρ s = ρ' s) →
      d.mass θ' ρ v = d.mass θ' ρ' v := by
    intro l1 d l2 he θ' ρ ρ' v hag
    apply h0.local' d (hsubA.subset (by rw [he]; simp))
    exact fun s hs' => hag s (h0.sublist_dep (he ▸ hsubA) s hs')
  rw [hm1, ← expectOne_swap (mass := m1) drawn progA hndA]
  rotate_left
  · intro d _ hf ρ ρ' v
    simp only [m1, hf, Bool.false_eq_true, if_false]
  · intro l1 d l2 he ρ ρ' v hag
    simp only [m1, hlocal l1 d l2 he θ₀ ρ ρ' v hag]
  rw [show K = fun ρ => (progA.map (fun d => r d ρ)).prod * k.f θ ρ from rfl,
    expectOne_reweight (mass := m1) (mass' := fun d => d.mass θ) r progA hndA]
  · rw [expectOne_drop (A := A) prog (hmassA θ) (fun d hd => h.normal d hd) (hk.looks θ)]
  · intro l1 d l2 he ρ v hvs
    have hdA : d ∈ progA := by rw [he]; simp
    obtain ⟨hd1, hd2⟩ := (hmemA d).1 hdA
    have hself : ∀ θ' w, d.mass θ' (Function.update ρ d.name v) w = d.mass θ' ρ w := by
      intro θ' w
      apply hlocal l1 d l2 he
      intro s hsn
      rw [Function.update_of_ne]
      rintro rfl
      exact hsn (by simp)
    cases hf : drawn d with
    | false =>
      simp only [m1, r, hf, Bool.false_eq_true, if_false, one_mul, Function.update_self]
      exact hself θ v
    | true =>
      simp only [m1, r, hf, if_true]
      cases hP : P d with
      | true =>
        simp only [ratio, if_true, Function.update_self]
        rw [hself, hself]
        rcases hs d ((hact d hd1).1 hP) ρ v hvs with ⟨a1, a2⟩ | ⟨a1, a2⟩
        · rw [Real.exp_sub, Real.exp_log a1, Real.exp_log a2]
          field_simp
        · rw [a1, a2, zero_mul]
      | false =>
        simp only [Bool.false_eq_true, if_false, mul_one]
        rcases hk.passive d hd1 hd2 hf with h' | h'
        · rw [(hact d hd1).2 h'] at hP; cases hP
        · rw [h' θ]
  · intro l1 d l2 he ρ ρ' hag
    have hname : ρ d.name = ρ' d.name := by
      apply hag
      have := hndA
      rw [he, List.map_append, List.map_cons] at this
      exact (List.nodup_cons.1 (List.nodup_append.1 this).2.1).1
    have hm : ∀ θ' w, d.mass θ' ρ w = d.mass θ' ρ' w := by
      intro θ' w
      apply hlocal l1 d l2 he
      intro s hsn
      exact hag s (fun hm => hsn (List.mem_cons_of_mem _ hm))
    simp only [r, ratio, hm, hname]

/-! ### Finite sums -/

/-- The average over the draws of some of the variables is a weighted sum over finitely many draws. -/
theorem expect_finite_some (prog : List (Decl E V)) (θ : E) (ds : List (Decl E V)) (hn : (ds.map Decl.name).Nodup)
    (ω : Draws V) :
    ∃ l : List (ℝ × Draws V), (∀ F, expect prog θ ds F ω = (l.map (fun p => p.1 * F p.2)).sum) ∧
      ∀ p ∈ l, (∀ d ∈ ds, ∀ i ∈ allIdx (d.idx.map Prod.snd), p.2 d.name i ∈ d.support) ∧
        ∀ s, s ∉ ds.map Decl.name → p.2 s = ω s := by
  induction ds generalizing ω with
  | nil => exact ⟨[(1, ω)], by simp [expect], by simp⟩
  | cons d ds ih =>
    simp only [List.map_cons, List.nodup_cons] at hn
    obtain ⟨l, h1, h2⟩ := expectEntries_finite d.support
      (fun i v => d.mass θ (trajectory prog ω (posOf d.idx i)) v) (allIdx (d.idx.map Prod.snd))
      (nodup_allIdx _) (ω d.name)
    choose l' h3 h4 using fun x => ih hn.2 (Function.update ω d.name x)
    refine ⟨l.flatMap (fun q => (l' q.2).map (fun p => (q.1 * p.1, p.2))), ?_, ?_⟩
    · intro F
      simp only [expect, h1]
      rw [List.map_flatMap, List.flatMap_def, List.sum_flatten, List.map_map]
      congr 1
      apply List.map_congr_left
      intro q hq
      rw [h3 q.2]
      simp only [Function.comp, List.map_map]
      rw [← List.sum_map_mul_left]
      congr 1
      apply List.map_congr_left
      intro p _
      simp only [Function.comp]
      ring
    · intro p hp
      obtain ⟨q, hq, hp⟩ := List.mem_flatMap.1 hp
      obtain ⟨q', hq', rfl⟩ := List.mem_map.1 hp
      obtain ⟨h5, h6⟩ := h4 q.2 q' hq'
      refine ⟨?_, ?_⟩
      · intro e he i hi
        rcases List.mem_cons.1 he with rfl | he
        · simp only
          rw [h6 e.name hn.1, Function.update_self]
          exact ((h2 q hq).1 i hi).1
        · exact h5 e he i hi
      · intro s hs
        simp only [List.map_cons, List.mem_cons, not_or] at hs
        simp only
        rw [h6 s hs.2, Function.update_of_ne hs.1]

end

end Storch
