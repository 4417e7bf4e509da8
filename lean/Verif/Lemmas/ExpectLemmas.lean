import Verif.Model.Expectation
import Verif.Lemmas.PlateLemmas

/-! Expectations over the draws of a program. -/

namespace Storch
variable {V : Type _}

theorem expectEntries_add (supp : Finset V) (law : List Nat → V → ℝ) (ks : List (List Nat))
    (F G : (List Nat → V) → ℝ) (x : List Nat → V) :
    expectEntries supp law ks (fun x => F x + G x) x =
      expectEntries supp law ks F x + expectEntries supp law ks G x := by
  induction ks generalizing x with
  | nil => rfl
  | cons k ks ih => simp only [expectEntries, ih, mul_add, Finset.sum_add_distrib]

theorem expectEntries_smul (supp : Finset V) (law : List Nat → V → ℝ) (ks : List (List Nat)) (c : ℝ)
    (F : (List Nat → V) → ℝ) (x : List Nat → V) :
    expectEntries supp law ks (fun x => c * F x) x = c * expectEntries supp law ks F x := by
  induction ks generalizing x with
  | nil => rfl
  | cons k ks ih =>
    simp only [expectEntries, ih, Finset.mul_sum]
    exact Finset.sum_congr rfl (fun v _ => by ring)

theorem expectEntries_congr (supp : Finset V) (law : List Nat → V → ℝ) (ks : List (List Nat))
    {F G : (List Nat → V) → ℝ} (x : List Nat → V) (P : (List Nat → V) → Prop) (hx : P x)
    (hP : ∀ x, P x → ∀ k ∈ ks, ∀ v ∈ supp, P (Function.update x k v))
    (h : ∀ x, P x → F x = G x) : expectEntries supp law ks F x = expectEntries supp law ks G x := by
  induction ks generalizing x with
  | nil => exact h x hx
  | cons k ks ih =>
    simp only [expectEntries]
    refine Finset.sum_congr rfl (fun v hv => ?_)
    rw [ih (Function.update x k v) (hP x hx k (by simp) v hv)
      (fun x hx k hk => hP x hx k (List.mem_cons_of_mem _ hk))]

/-- `F` does not look at the entry `k`. -/
def Ignores {β : Type _} (F : (List Nat → V) → β) (k : List Nat) : Prop :=
  ∀ x v, F (Function.update x k v) = F x

theorem Ignores.expectEntries {supp : Finset V} {law : List Nat → V → ℝ} {ks : List (List Nat)}
    {F : (List Nat → V) → ℝ} {k : List Nat} (h : Ignores F k) : Ignores (expectEntries supp law ks F) k := by
  induction ks with
  | nil => exact h
  | cons j ks ih =>
    intro x v
    simp only [Storch.expectEntries]
    refine Finset.sum_congr rfl (fun w _ => ?_)
    by_cases hjk : j = k
    · subst hjk; rw [Function.update_idem]
    · rw [Function.update_comm (Ne.symm hjk), ih]

theorem expectEntries_const {supp : Finset V} {law : List Nat → V → ℝ} {ks : List (List Nat)}
    (hn : ∀ k ∈ ks, ∑ v ∈ supp, law k v = 1) (c : ℝ) (x : List Nat → V) :
    expectEntries supp law ks (fun _ => c) x = c := by
  induction ks generalizing x with
  | nil => rfl
  | cons k ks ih =>
    simp only [expectEntries, ih (fun j hj => hn j (List.mem_cons_of_mem _ hj))]
    rw [← Finset.sum_mul, hn k (by simp), one_mul]

/-- Only the law of the entries that `F` looks at matters. -/
theorem expectEntries_law {supp : Finset V} {law law' : List Nat → V → ℝ} {ks : List (List Nat)}
    (h1 : ∀ k ∈ ks, ∑ v ∈ supp, law k v = 1) (h2 : ∀ k ∈ ks, ∑ v ∈ supp, law' k v = 1)
    {F : (List Nat → V) → ℝ} (h : ∀ k ∈ ks, (∀ v ∈ supp, law k v = law' k v) ∨ Ignores F k)
    (x : List Nat → V) : expectEntries supp law ks F x = expectEntries supp law' ks F x := by
  induction ks generalizing x with
  | nil => rfl
  | cons k ks ih =>
    have ih' := ih (fun j hj => h1 j (List.mem_cons_of_mem _ hj)) (fun j hj => h2 j (List.mem_cons_of_mem _ hj))
      (fun j hj => h j (List.mem_cons_of_mem _ hj))
    simp only [expectEntries, ih']
    rcases h k (by simp) with h | h
    · exact Finset.sum_congr rfl (fun v hv => by rw [h v hv])
    · have := h.expectEntries (supp := supp) (law := law') (ks := ks)
      simp only [fun v => this x v]
      rw [← Finset.sum_mul, ← Finset.sum_mul, h1 k (by simp), h2 k (by simp)]

/-- One entry multiplied by something that does not look at it. -/
theorem expectEntries_split {supp : Finset V} {law : List Nat → V → ℝ} {ks : List (List Nat)}
    (hnd : ks.Nodup) {k : List Nat} (hk : k ∈ ks) (hn : ∑ v ∈ supp, law k v = 1) (g : V → ℝ)
    {F : (List Nat → V) → ℝ} (h : Ignores F k) (x : List Nat → V) :
    expectEntries supp law ks (fun x => g (x k) * F x) x =
      (∑ v ∈ supp, law k v * g v) * expectEntries supp law ks F x := by
  have key : ∀ (ks : List (List Nat)), k ∉ ks → ∀ x,
      expectEntries supp law ks (fun x => g (x k) * F x) x = g (x k) * expectEntries supp law ks F x := by
    intro ks hks
    induction ks with
    | nil => intro x; rfl
    | cons j ks ih =>
      intro x
      simp only [List.mem_cons, not_or] at hks
      simp only [expectEntries, ih hks.2, Function.update_of_ne hks.1, Finset.mul_sum]
      exact Finset.sum_congr rfl (fun v _ => by ring)
  induction ks generalizing x with
  | nil => cases hk
  | cons j ks ih =>
    rw [List.nodup_cons] at hnd
    simp only [expectEntries]
    rcases List.mem_cons.1 hk with rfl | hk'
    · simp only [key ks hnd.1, Function.update_self]
      have := h.expectEntries (supp := supp) (law := law) (ks := ks)
      simp only [fun v => this x v]
      rw [← Finset.sum_mul, hn, one_mul, Finset.sum_mul]
      exact Finset.sum_congr rfl (fun v _ => by ring)
    · simp only [ih hnd.2 hk', Finset.mul_sum]
      refine Finset.sum_congr rfl (fun v _ => by ring)

/-- The marginal law of one entry. -/
theorem expectEntries_one {supp : Finset V} {law : List Nat → V → ℝ} {ks : List (List Nat)}
    (hnd : ks.Nodup) {k : List Nat} (hk : k ∈ ks) (hn : ∀ k ∈ ks, ∑ v ∈ supp, law k v = 1) (g : V → ℝ)
    (x : List Nat → V) :
    expectEntries supp law ks (fun x => g (x k)) x = ∑ v ∈ supp, law k v * g v := by
  have := expectEntries_split hnd hk (hn k hk) g (F := fun _ => 1) (fun _ _ => rfl) x
  simpa [expectEntries_const hn] using this

/-! ### Programs -/

variable {E : Type _}

theorem expect_add (prog : List (Decl E V)) (θ : E) (ds : List (Decl E V)) (F G : Draws V → ℝ) (ω : Draws V) :
    expect prog θ ds (fun ω => F ω + G ω) ω = expect prog θ ds F ω + expect prog θ ds G ω := by
  induction ds generalizing ω with
  | nil => rfl
  | cons d ds ih => simp only [expect, ih, expectEntries_add]

theorem expect_smul (prog : List (Decl E V)) (θ : E) (ds : List (Decl E V)) (c : ℝ) (F : Draws V → ℝ)
    (ω : Draws V) : expect prog θ ds (fun ω => c * F ω) ω = c * expect prog θ ds F ω := by
  induction ds generalizing ω with
  | nil => rfl
  | cons d ds ih => simp only [expect, ih, expectEntries_smul]

theorem expect_zero (prog : List (Decl E V)) (θ : E) (ds : List (Decl E V)) (ω : Draws V) :
    expect prog θ ds (fun _ => 0) ω = 0 := by
  have := expect_smul prog θ ds 0 (fun _ => 0) ω
  simpa using this

theorem expect_list_sum {ι : Type _} (prog : List (Decl E V)) (θ : E) (ds : List (Decl E V)) (l : List ι)
    (F : ι → Draws V → ℝ) (ω : Draws V) :
    expect prog θ ds (fun ω => (l.map (fun i => F i ω)).sum) ω =
      (l.map (fun i => expect prog θ ds (F i) ω)).sum := by
  induction l with
  | nil => simpa using expect_zero prog θ ds ω
  | cons i l ih => simp only [List.map_cons, List.sum_cons, expect_add, ih]

theorem expect_sum {ι : Type _} (prog : List (Decl E V)) (θ : E) (ds : List (Decl E V)) (s : Finset ι)
    (F : ι → Draws V → ℝ) (ω : Draws V) :
    expect prog θ ds (fun ω => ∑ i ∈ s, F i ω) ω = ∑ i ∈ s, expect prog θ ds (F i) ω := by
  classical
  induction s using Finset.induction_on with
  | empty => simpa using expect_zero prog θ ds ω
  | insert i s hi ih => simp only [Finset.sum_insert hi, expect_add, ih]

theorem posOf_map (idx : List (String × Nat)) (hn : (idx.map Prod.fst).Nodup) (ι : String → Nat)
    {p : String × Nat} (hp : p ∈ idx) : posOf idx (idx.map (fun p => ι p.1)) p.1 = ι p.1 := by
  induction idx with
  | nil => cases hp
  | cons q idx ih =>
    obtain ⟨q, m⟩ := q
    simp only [List.map_cons, List.nodup_cons] at hn
    simp only [List.map_cons, posOf]
    rcases List.mem_cons.1 hp with rfl | hp
    · simp
    · rw [if_neg, ih hn.2 hp]
      intro e
      exact hn.1 (e ▸ List.mem_map_of_mem hp)

theorem find_decl {prog : List (Decl E V)} (hn : (prog.map Decl.name).Nodup) {d : Decl E V} (hd : d ∈ prog) :
    prog.find? (fun x => x.name == d.name) = some d := by
  induction prog with
  | nil => cases hd
  | cons e prog ih =>
    simp only [List.map_cons, List.nodup_cons] at hn
    rcases List.mem_cons.1 hd with rfl | hd
    · simp
    · rw [List.find?_cons, ih hn.2 hd]
      have : (e.name == d.name) = false := by
        rw [beq_eq_false_iff_ne]
        intro h
        exact hn.1 (h ▸ List.mem_map_of_mem hd)
      rw [this]

theorem trajectory_decl {prog : List (Decl E V)} (hn : (prog.map Decl.name).Nodup) {d : Decl E V}
    (hd : d ∈ prog) (ω : Draws V) (ι : String → Nat) :
    trajectory prog ω ι d.name = ω d.name (d.idx.map (fun p => ι p.1)) := by
  rw [trajectory, find_decl hn hd]

theorem trajectory_update {prog : List (Decl E V)} (hn : (prog.map Decl.name).Nodup) {d : Decl E V}
    (hd : d ∈ prog) (ω : Draws V) (x : List Nat → V) (ι : String → Nat) :
    trajectory prog (Function.update ω d.name x) ι =
      Function.update (trajectory prog ω ι) d.name (x (d.idx.map (fun p => ι p.1))) := by
  funext s
  by_cases hs : s = d.name
  · subst hs
    rw [trajectory_decl hn hd, Function.update_self, Function.update_self]
  · rw [Function.update_of_ne hs, trajectory, trajectory, Function.update_of_ne hs]

/-- Earlier variables have the same values at the position that belongs to the joint index. -/
theorem Program.trajectory_deps {prog : List (Decl E V)} {θ : E} (h : Program prog θ) {d : Decl E V}
    (hd : d ∈ prog) (ω : Draws V) (ι : String → Nat) : ∀ s ∈ d.deps,
    trajectory prog ω (posOf d.idx (d.idx.map (fun p => ι p.1))) s = trajectory prog ω ι s := by
  intro s hs
  obtain ⟨l1, l2, he⟩ := List.append_of_mem hd
  obtain ⟨d', hd', rfl⟩ := List.mem_map.1 (h.earlier l1 d l2 he s hs)
  have hd'' : d' ∈ prog := by rw [he]; exact List.mem_append_left _ hd'
  rw [trajectory_decl h.names hd'', trajectory_decl h.names hd'']
  congr 1
  apply List.map_congr_left
  intro p hp
  exact posOf_map d.idx (h.idx d hd) ι (h.nested d hd d' hd'' hs p hp)

/-- The position is within the plates of the variable. -/
def InPlates (d : Decl E V) (ι : String → Nat) : Prop := ∀ p ∈ d.idx, ι p.1 < p.2

theorem InPlates.mem {d : Decl E V} {ι : String → Nat} (h : InPlates d ι) :
    d.idx.map (fun p => ι p.1) ∈ allIdx (d.idx.map Prod.snd) := by
  rw [mem_allIdx]
  have : ∀ l : List (String × Nat), (∀ p ∈ l, ι p.1 < p.2) →
      Ten.InB (l.map (fun p => ι p.1)) (l.map Prod.snd) := by
    intro l
    induction l with
    | nil => intro _; exact .nil
    | cons p l ih =>
      intro hl
      exact .cons (hl p (by simp)) (ih (fun q hq => hl q (List.mem_cons_of_mem _ hq)))
  exact this d.idx h

/-- The values at one position are distributed as in the statistical model. -/
theorem expect_trajectory {prog : List (Decl E V)} {θ : E} (h : Program prog θ) {ι : String → Nat}
    (ds : List (Decl E V)) (hs : ∀ d ∈ ds, d ∈ prog) (hι : ∀ d ∈ ds, InPlates d ι)
    (G : (String → V) → ℝ) (ω : Draws V) :
    expect prog θ ds (fun ω => G (trajectory prog ω ι)) ω =
      expectOne (fun d => d.mass θ) ds G (trajectory prog ω ι) := by
  induction ds generalizing ω with
  | nil => rfl
  | cons d ds ih =>
    have hd := hs d (by simp)
    have ih' := ih (fun d hd => hs d (List.mem_cons_of_mem _ hd)) (fun d hd => hι d (List.mem_cons_of_mem _ hd))
    simp only [expect, ih', trajectory_update h.names hd]
    rw [expectEntries_one (nodup_allIdx _) (hι d (by simp)).mem (fun k _ => h.normal d hd _)
      (fun v => expectOne (fun d => d.mass θ) ds G (Function.update (trajectory prog ω ι) d.name v))]
    simp only [expectOne]
    refine Finset.sum_congr rfl (fun v _ => ?_)
    rw [h.local' d hd θ _ _ v (h.trajectory_deps hd ω ι)]

/-! ### Expectations are finite sums -/

/-- All drawn values lie in the supports and have a nonzero probability given the values before. -/
def Possible (prog : List (Decl E V)) (θ : E) (ω : Draws V) : Prop :=
  ∀ d ∈ prog, ∀ i ∈ allIdx (d.idx.map Prod.snd), ω d.name i ∈ d.support ∧
    d.mass θ (trajectory prog ω (posOf d.idx i)) (ω d.name i) ≠ 0

theorem expectEntries_finite (supp : Finset V) (law : List Nat → V → ℝ) (ks : List (List Nat)) (hnd : ks.Nodup)
    (x : List Nat → V) : ∃ l : List (ℝ × (List Nat → V)),
      (∀ F, expectEntries supp law ks F x = (l.map (fun p => p.1 * F p.2)).sum) ∧
      ∀ p ∈ l, (∀ k ∈ ks, p.2 k ∈ supp ∧ law k (p.2 k) ≠ 0) ∧ ∀ k, k ∉ ks → p.2 k = x k := by
  classical
  induction ks generalizing x with
  | nil => exact ⟨[(1, x)], by simp [expectEntries], by simp⟩
  | cons k ks ih =>
    rw [List.nodup_cons] at hnd
    choose l h1 h2 using fun v => ih hnd.2 (Function.update x k v)
    refine ⟨(supp.filter (fun v => law k v ≠ 0)).toList.flatMap
      (fun v => (l v).map (fun p => (law k v * p.1, p.2))), ?_, ?_⟩
    · intro F
      simp only [expectEntries, h1]
      have hf : ∑ v ∈ supp, law k v * ((l v).map (fun p => p.1 * F p.2)).sum =
          ∑ v ∈ supp.filter (fun v => law k v ≠ 0), law k v * ((l v).map (fun p => p.1 * F p.2)).sum := by
        rw [Finset.sum_filter]
        refine Finset.sum_congr rfl (fun v _ => ?_)
        by_cases hv : law k v = 0
        · simp [hv]
        · simp [hv]
      rw [hf, List.map_flatMap, List.flatMap_def, List.sum_flatten, List.map_map, ← Finset.sum_map_toList]
      congr 1
      apply List.map_congr_left
      intro v _
      simp only [Function.comp, List.map_map]
      rw [← List.sum_map_mul_left]
      congr 1
      apply List.map_congr_left
      intro p _
      simp only [Function.comp]
      ring
    · intro p hp
      obtain ⟨v, hv, hp⟩ := List.mem_flatMap.1 hp
      obtain ⟨q, hq, rfl⟩ := List.mem_map.1 hp
      obtain ⟨h3, h4⟩ := h2 v q hq
      have hv := Finset.mem_filter.1 (Finset.mem_toList.1 hv)
      refine ⟨?_, ?_⟩
      · intro j hj
        rcases List.mem_cons.1 hj with rfl | hj
        · simp only; rw [h4 j hnd.1, Function.update_self]; exact hv
        · exact h3 j hj
      · intro j hj
        simp only [List.mem_cons, not_or] at hj
        simp only
        rw [h4 j hj.2, Function.update_of_ne hj.1]

/-- The expectation is a weighted sum over finitely many draws, all of them possible. -/
theorem expect_finite {prog : List (Decl E V)} {θ : E} (h : Program prog θ) (ω : Draws V) :
    ∃ l : List (ℝ × Draws V), (∀ F, expect prog θ prog F ω = (l.map (fun p => p.1 * F p.2)).sum) ∧
      ∀ p ∈ l, Possible prog θ p.2 := by
  have hn := h.names
  have key : ∀ (l1 ds : List (Decl E V)), prog = l1 ++ ds → ∀ ω,
      (∀ d ∈ l1, ∀ i ∈ allIdx (d.idx.map Prod.snd), ω d.name i ∈ d.support ∧
        d.mass θ (trajectory prog ω (posOf d.idx i)) (ω d.name i) ≠ 0) →
      ∃ l : List (ℝ × Draws V), (∀ F, expect prog θ ds F ω = (l.map (fun p => p.1 * F p.2)).sum) ∧
        ∀ p ∈ l, Possible prog θ p.2 := by
    intro l1 ds
    induction ds generalizing l1 with
    | nil =>
      intro he ω hω
      refine ⟨[(1, ω)], by simp [expect], ?_⟩
      intro p hp
      rw [List.mem_singleton.1 hp]
      intro d hd
      rw [he, List.append_nil] at hd
      exact hω d hd
    | cons d ds ih =>
      intro he ω hω
      obtain ⟨l, h1, h2⟩ := expectEntries_finite d.support
        (fun i v => d.mass θ (trajectory prog ω (posOf d.idx i)) v) (allIdx (d.idx.map Prod.snd))
        (nodup_allIdx _) (ω d.name)
      have hd : d.name ∉ l1.map Decl.name := by
        rw [he, List.map_append, List.nodup_append] at hn
        intro hm
        exact hn.2.2 _ hm _ (by simp) rfl
      have hdp : d ∈ prog := by rw [he]; simp
      -- the laws of `d` and of the variables before do not look at `d`
      have hsame : ∀ e, (∀ s ∈ e.deps, s ∈ l1.map Decl.name) → e ∈ prog → ∀ x ι v,
          e.mass θ (trajectory prog (Function.update ω d.name x) ι) v = e.mass θ (trajectory prog ω ι) v := by
        intro e he' hep x ι v
        apply h.local' e hep
        intro s hs
        rw [trajectory_update hn hdp, Function.update_of_ne]
        intro hsd
        exact hd (hsd ▸ he' s hs)
      have hbefore : ∀ e ∈ l1, ∀ s ∈ e.deps, s ∈ l1.map Decl.name := by
        intro e hel s hs
        obtain ⟨a, b, rfl⟩ := List.append_of_mem hel
        have := h.earlier a e (b ++ d :: ds) (by rw [he]; simp) s hs
        rw [List.map_append]
        exact List.mem_append_left _ this
      have step : ∀ q ∈ l, ∃ l' : List (ℝ × Draws V),
          (∀ F, expect prog θ ds F (Function.update ω d.name q.2) = (l'.map (fun p => p.1 * F p.2)).sum) ∧
          ∀ p ∈ l', Possible prog θ p.2 := by
        intro q hq
        apply ih (l1 ++ [d]) (by rw [he]; simp)
        intro e he' i hi
        rcases List.mem_append.1 he' with he' | he'
        · rw [hsame e (hbefore e he') (by rw [he]; exact List.mem_append_left _ he'), Function.update_of_ne]
          · exact hω e he' i hi
          · intro h; exact hd (h ▸ List.mem_map_of_mem he')
        · rw [List.mem_singleton.1 he'] at hi ⊢
          rw [hsame d (h.earlier l1 d ds he) hdp, Function.update_self]
          exact (h2 q hq).1 i hi
      choose! l' h3 h4 using step
      refine ⟨l.flatMap (fun q => (l' q).map (fun p => (q.1 * p.1, p.2))), ?_, ?_⟩
      · intro F
        simp only [expect, h1]
        rw [List.map_flatMap, List.flatMap_def, List.sum_flatten, List.map_map]
        congr 1
        apply List.map_congr_left
        intro q hq
        rw [h3 q hq]
        simp only [Function.comp, List.map_map]
        rw [← List.sum_map_mul_left]
        congr 1
        apply List.map_congr_left
        intro p _
        simp only [Function.comp]
        ring
      · intro p hp
        obtain ⟨q, hq, hp⟩ := List.mem_flatMap.1 hp
        obtain ⟨q', hq', rfl⟩ := List.mem_map.1 hp
        exact h4 q hq q' hq'
  exact key [] prog rfl ω (by simp)

theorem expect_congr {prog : List (Decl E V)} {θ : E} (hp : Program prog θ) {F G : Draws V → ℝ}
    (h : ∀ ω, Possible prog θ ω → F ω = G ω) (ω : Draws V) :
    expect prog θ prog F ω = expect prog θ prog G ω := by
  obtain ⟨l, h1, h2⟩ := expect_finite hp ω
  rw [h1, h1]
  congr 1
  apply List.map_congr_left
  intro p hp
  rw [h p.2 (h2 p hp)]

/-! ### Reweighting -/

/-- `F` looks at the values of the variables in `A` only. -/
def LooksAt (A : List String) (F : (String → V) → ℝ) : Prop :=
  ∀ ρ ρ', (∀ s ∈ A, ρ s = ρ' s) → F ρ = F ρ'

/-- The laws of the variables outside of `A` do not matter when `F` only looks at `A` and `A` is closed
under dependencies; neither do the values that are drawn anew. -/
theorem expectOne_looksAt {mass mass' : Decl E V → (String → V) → V → ℝ} {A : List String}
    (ds : List (Decl E V)) (hnd : (ds.map Decl.name).Nodup)
    (hl : ∀ l1 d l2, ds = l1 ++ d :: l2 → d.name ∈ A → ∀ ρ ρ' v,
      (∀ s ∈ A, s ∉ (d :: l2).map Decl.name → ρ s = ρ' s) → mass d ρ v = mass' d ρ' v)
    (h1 : ∀ d ∈ ds, ∀ ρ, ∑ v ∈ d.support, mass d ρ v = 1)
    (h2 : ∀ d ∈ ds, ∀ ρ, ∑ v ∈ d.support, mass' d ρ v = 1)
    {F : (String → V) → ℝ} (hF : LooksAt A F) {ρ ρ' : String → V}
    (hρ : ∀ s ∈ A, s ∉ ds.map Decl.name → ρ s = ρ' s) :
    expectOne mass ds F ρ = expectOne mass' ds F ρ' := by
  induction ds generalizing ρ ρ' with
  | nil => exact hF ρ ρ' (fun s hs => hρ s hs (by simp))
  | cons d ds ih =>
    simp only [List.map_cons, List.nodup_cons] at hnd
    have ih' := @ih hnd.2 (fun l1 e l2 he => hl (d :: l1) e l2 (by rw [he]; rfl))
      (fun d hd => h1 d (List.mem_cons_of_mem _ hd)) (fun d hd => h2 d (List.mem_cons_of_mem _ hd))
    simp only [expectOne]
    by_cases hd : d.name ∈ A
    · refine Finset.sum_congr rfl (fun v _ => ?_)
      rw [hl [] d ds rfl hd ρ ρ' v hρ]
      congr 1
      apply ih'
      intro s hs hs'
      by_cases he : s = d.name
      · subst he; simp
      · rw [Function.update_of_ne he, Function.update_of_ne he]
        exact hρ s hs (by simp [he, hs'])
    · have hne : ∀ s ∈ A, s ≠ d.name := by rintro s hs rfl; exact hd hs
      have e1 : ∀ v, expectOne mass ds F (Function.update ρ d.name v) = expectOne mass' ds F ρ' := by
        intro v
        apply ih'
        intro s hs hs'
        rw [Function.update_of_ne (hne s hs)]
        exact hρ s hs (by simp [hne s hs, hs'])
      have e2 : ∀ v, expectOne mass' ds F (Function.update ρ' d.name v) = expectOne mass' ds F ρ' := by
        intro v
        rw [← e1 (ρ d.name), Function.update_eq_self]
        symm
        apply ih'
        intro s hs hs'
        rw [Function.update_of_ne (hne s hs)]
        exact hρ s hs (by simp [hne s hs, hs'])
      simp only [e1, e2]
      rw [← Finset.sum_mul, ← Finset.sum_mul, h1 d (by simp), h2 d (by simp)]

/-- Multiplying with the ratios of the laws changes the law. -/
theorem expectOne_reweight {mass mass' : Decl E V → (String → V) → V → ℝ} (r : Decl E V → (String → V) → ℝ)
    (ds : List (Decl E V)) (hnd : (ds.map Decl.name).Nodup)
    (hr : ∀ l1 d l2, ds = l1 ++ d :: l2 → ∀ ρ, ∀ v ∈ d.support,
      mass d ρ v * r d (Function.update ρ d.name v) = mass' d ρ v)
    (hl : ∀ l1 d l2, ds = l1 ++ d :: l2 → ∀ ρ ρ', (∀ s, s ∉ l2.map Decl.name → ρ s = ρ' s) → r d ρ = r d ρ')
    (F : (String → V) → ℝ) (ρ : String → V) :
    expectOne mass ds (fun ρ => (ds.map (fun d => r d ρ)).prod * F ρ) ρ = expectOne mass' ds F ρ := by
  have key : ∀ (l1 ds' : List (Decl E V)), ds = l1 ++ ds' → ∀ (c : ℝ) ρ,
      expectOne mass ds' (fun ρ => c * ((ds'.map (fun d => r d ρ)).prod * F ρ)) ρ =
        c * expectOne mass' ds' F ρ := by
    intro l1 ds'
    induction ds' generalizing l1 with
    | nil => intro _ c ρ; simp [expectOne]
    | cons d ds' ih =>
      intro he c ρ
      have hnd' : d.name ∉ ds'.map Decl.name ∧ (ds'.map Decl.name).Nodup := by
        rw [he, List.map_append, List.nodup_append] at hnd
        have := hnd.2.1
        simpa using this
      -- the ratio of `d` is fixed once `d` is drawn
      have hfix : ∀ v, expectOne mass ds' (fun ρ => c * (((d :: ds').map (fun d => r d ρ)).prod * F ρ))
          (Function.update ρ d.name v) = c * r d (Function.update ρ d.name v) *
            expectOne mass' ds' F (Function.update ρ d.name v) := by
        intro v
        rw [← ih (l1 ++ [d]) (by rw [he]; simp) (c * r d (Function.update ρ d.name v))]
        have hcon : ∀ (ds'' : List (Decl E V)), (∀ e ∈ ds'', e ∈ ds') → ∀ ρ', (∀ s, s ∉ ds'.map Decl.name →
            ρ' s = Function.update ρ d.name v s) →
            expectOne mass ds'' (fun ρ => c * (((d :: ds').map (fun d => r d ρ)).prod * F ρ)) ρ' =
            expectOne mass ds'' (fun ρ' => c * r d (Function.update ρ d.name v) *
              ((ds'.map (fun d => r d ρ')).prod * F ρ')) ρ' := by
          intro ds''
          induction ds'' with
          | nil =>
            intro _ ρ' hρ'
            simp only [expectOne, List.map_cons, List.prod_cons]
            rw [hl l1 d ds' he ρ' _ hρ']
            ring
          | cons e ds'' ih2 =>
            intro hs ρ' hρ'
            simp only [expectOne]
            refine Finset.sum_congr rfl (fun w _ => ?_)
            rw [ih2 (fun x hx => hs x (List.mem_cons_of_mem _ hx))]
            intro s hs'
            rw [Function.update_of_ne, hρ' s hs']
            rintro rfl
            exact hs' (List.mem_map_of_mem (hs e (by simp)))
        exact hcon ds' (fun _ h => h) _ (fun _ _ => rfl)
      simp only [expectOne, hfix, Finset.mul_sum]
      refine Finset.sum_congr rfl (fun v hv => ?_)
      rw [← hr l1 d ds' he ρ v hv]
      ring
  have := key [] ds rfl 1 ρ
  simpa using this

end Storch
