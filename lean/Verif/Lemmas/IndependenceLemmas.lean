import Verif.Lemmas.ExpectLemmas

/-!
# Independence of draws

`T s i` marks entries (of variable `s`, at joint index `i`).  If whatever depends on a marked entry is marked, a
function that does not look at marked entries is independent of them.
-/

namespace Storch
variable {E V : Type _}

/-- The two draws agree on the entries that are not marked. -/
def AgreeOff (T : String → List Nat → Prop) (ω ω' : Draws V) : Prop := ∀ s i, ¬ T s i → ω s i = ω' s i

/-- The function does not look at marked entries. -/
def Blind {β : Type _} (T : String → List Nat → Prop) (F : Draws V → β) : Prop :=
  ∀ ω ω', AgreeOff T ω ω' → F ω = F ω'

/-- The distribution of an unmarked entry does not depend on marked entries. -/
def Downward (prog : List (Decl E V)) (T : String → List Nat → Prop) : Prop :=
  ∀ d ∈ prog, ∀ i ∈ allIdx (d.idx.map Prod.snd), ¬ T d.name i → ∀ d' ∈ prog, d'.name ∈ d.deps →
    ¬ T d'.name (d'.idx.map (fun p => posOf d.idx i p.1))

theorem expectEntries_agree {supp : Finset V} {law : List Nat → V → ℝ} {P : List Nat → Prop}
    {F : (List Nat → V) → ℝ} (hF : ∀ x x', (∀ i, ¬ P i → x i = x' i) → F x = F x') (ks : List (List Nat)) :
    ∀ x x', (∀ i, ¬ P i → x i = x' i) → expectEntries supp law ks F x = expectEntries supp law ks F x' := by
  induction ks with
  | nil => exact hF
  | cons k ks ih =>
    intro x x' h
    simp only [expectEntries]
    refine Finset.sum_congr rfl (fun v _ => ?_)
    rw [ih _ _ (fun i hi => ?_)]
    by_cases e : i = k
    · subst e; rw [Function.update_self, Function.update_self]
    · rw [Function.update_of_ne e, Function.update_of_ne e, h i hi]

theorem Program.deps_mem {prog : List (Decl E V)} {θ : E} (h : Program prog θ) {d : Decl E V} (hd : d ∈ prog) :
    ∀ s ∈ d.deps, ∃ d' ∈ prog, d'.name = s := by
  intro s hs
  obtain ⟨l1, l2, he⟩ := List.append_of_mem hd
  obtain ⟨d', hd', e⟩ := List.mem_map.1 (h.earlier l1 d l2 he s hs)
  exact ⟨d', by rw [he]; exact List.mem_append_left _ hd', e⟩

/-- Averaging over the draws of some variables keeps a function blind. -/
theorem Blind.expect {prog : List (Decl E V)} {θ : E} (h : Program prog θ) {T : String → List Nat → Prop}
    (hT : Downward prog T) {F : Draws V → ℝ} (hF : Blind T F) (ds : List (Decl E V))
    (hs : ∀ d ∈ ds, d ∈ prog) : Blind T (expect prog θ ds F) := by
  induction ds with
  | nil => exact hF
  | cons d ds ih =>
    have ih' := ih (fun x hx => hs x (List.mem_cons_of_mem _ hx))
    have hd := hs d (by simp)
    intro ω ω' hag
    simp only [Storch.expect]
    have hup : ∀ x x' : List Nat → V, (∀ i, ¬ T d.name i → x i = x' i) →
        AgreeOff T (Function.update ω d.name x) (Function.update ω' d.name x') := by
      intro x x' hx s i hi
      by_cases e : s = d.name
      · subst e; rw [Function.update_self, Function.update_self]; exact hx i hi
      · rw [Function.update_of_ne e, Function.update_of_ne e]; exact hag s i hi
    have hself : ∀ x x' : List Nat → V, (∀ i, ¬ T d.name i → x i = x' i) →
        Storch.expect prog θ ds F (Function.update ω' d.name x) =
          Storch.expect prog θ ds F (Function.update ω' d.name x') := by
      intro x x' hx
      apply ih'
      intro s i hi
      by_cases e : s = d.name
      · subst e; rw [Function.update_self, Function.update_self]; exact hx i hi
      · rw [Function.update_of_ne e, Function.update_of_ne e]
    have e1 : (fun x => Storch.expect prog θ ds F (Function.update ω d.name x)) =
        fun x => Storch.expect prog θ ds F (Function.update ω' d.name x) := by
      funext x
      exact ih' _ _ (hup x x (fun _ _ => rfl))
    rw [e1]
    rw [expectEntries_law (law' := fun i v => d.mass θ (trajectory prog ω' (posOf d.idx i)) v)
      (fun k _ => h.normal d hd _) (fun k _ => h.normal d hd _)]
    · exact expectEntries_agree (P := T d.name) hself _ _ _ (fun i hi => hag _ i hi)
    · intro i hi
      by_cases ht : T d.name i
      · right
        intro x v
        apply hself
        intro j hj
        have : j ≠ i := fun e => hj (e ▸ ht)
        rw [Function.update_of_ne this]
      · left
        intro v _
        apply h.local' d hd
        intro s hs'
        obtain ⟨d', hd', rfl⟩ := h.deps_mem hd s hs'
        rw [trajectory_decl h.names hd', trajectory_decl h.names hd']
        exact hag _ _ (hT d hd i hi ht d' hd' hs')

/-- A factor that does not look at the variables that are drawn can be taken out. -/
theorem expect_factor {prog : List (Decl E V)} {θ : E} (ds : List (Decl E V)) {c : Draws V → ℝ}
    (hc : ∀ d ∈ ds, ∀ ω x, c (Function.update ω d.name x) = c ω) (H : Draws V → ℝ) (ω : Draws V) :
    expect prog θ ds (fun ω => c ω * H ω) ω = c ω * expect prog θ ds H ω := by
  induction ds generalizing ω with
  | nil => rfl
  | cons d ds ih =>
    simp only [expect]
    rw [← expectEntries_smul]
    congr 1
    funext x
    rw [ih (fun e he => hc e (List.mem_cons_of_mem _ he)), hc d (by simp)]

theorem expect_append (prog : List (Decl E V)) (θ : E) (l1 l2 : List (Decl E V)) (F : Draws V → ℝ) (ω : Draws V) :
    expect prog θ (l1 ++ l2) F ω = expect prog θ l1 (fun ω => expect prog θ l2 F ω) ω := by
  induction l1 generalizing ω with
  | nil => rfl
  | cons d l1 ih => simp only [List.cons_append, expect, ih]

/-- A score with mean zero, times something that does not look at what is drawn for it, has mean zero. -/
theorem expect_score_zero {prog : List (Decl E V)} {θ : E} (h : Program prog θ) {d : Decl E V} (hd : d ∈ prog)
    {T : String → List Nat → Prop} (hT : Downward prog T) {i : List Nat} (hi : i ∈ allIdx (d.idx.map Prod.snd))
    (hTi : T d.name i) {g : (String → V) → V → ℝ}
    (hl : ∀ ρ ρ' v, (∀ s ∈ d.deps, ρ s = ρ' s) → g ρ v = g ρ' v)
    (hg : ∀ ρ, ∑ v ∈ d.support, d.mass θ ρ v * g ρ v = 0) {H : Draws V → ℝ} (hH : Blind T H) (ω : Draws V) :
    expect prog θ prog (fun ω => g (trajectory prog ω (posOf d.idx i)) (ω d.name i) * H ω) ω = 0 := by
  obtain ⟨l1, l2, he⟩ := List.append_of_mem hd
  have hn := h.names
  have hnd := hn
  rw [he, List.map_append, List.map_cons, List.nodup_append, List.nodup_cons] at hnd
  have hdeps := h.earlier l1 d l2 he
  have hsub : ∀ x ∈ l2, x ∈ prog := fun x hx => by
    rw [he]; exact List.mem_append_right _ (List.mem_cons_of_mem _ hx)
  -- the variables the distribution of `d` depends on are not drawn later
  have hupd : ∀ e ∈ d :: l2, ∀ ω x ι, ∀ s ∈ d.deps, trajectory prog (Function.update ω e.name x) ι s =
      trajectory prog ω ι s := by
    intro e he' ω x ι s hs
    have hep : e ∈ prog := by rw [he]; exact List.mem_append_right _ he'
    rw [trajectory_update hn hep, Function.update_of_ne]
    rintro rfl
    exact hnd.2.2 _ (hdeps _ hs) e.name (by
      rcases List.mem_cons.1 he' with rfl | h'
      · simp
      · exact List.mem_cons_of_mem _ (List.mem_map_of_mem h')) rfl
  have key : ∀ ω, expect prog θ (d :: l2)
      (fun ω => g (trajectory prog ω (posOf d.idx i)) (ω d.name i) * H ω) ω = 0 := by
    intro ω
    simp only [expect]
    have e1 : ∀ x, expect prog θ l2 (fun ω => g (trajectory prog ω (posOf d.idx i)) (ω d.name i) * H ω)
        (Function.update ω d.name x) =
        g (trajectory prog ω (posOf d.idx i)) (x i) * expect prog θ l2 H (Function.update ω d.name x) := by
      intro x
      rw [expect_factor (c := fun ω => g (trajectory prog ω (posOf d.idx i)) (ω d.name i))]
      · rw [Function.update_self, hl _ _ _ (hupd d (by simp) ω x _)]
      · intro e he' ω x
        have hne : d.name ≠ e.name := fun e' => hnd.2.1.1 (e' ▸ List.mem_map_of_mem he')
        show g (trajectory prog (Function.update ω e.name x) (posOf d.idx i))
          (Function.update ω e.name x d.name i) = _
        rw [hl _ _ _ (hupd e (List.mem_cons_of_mem _ he') ω x _), Function.update_of_ne hne]
    rw [show (fun x => expect prog θ l2 (fun ω => g (trajectory prog ω (posOf d.idx i)) (ω d.name i) * H ω)
        (Function.update ω d.name x)) = _ from funext e1]
    rw [expectEntries_split (nodup_allIdx _) hi (h.normal d hd _)
      (fun v => g (trajectory prog ω (posOf d.idx i)) v), hg, zero_mul]
    intro x v
    apply Blind.expect h hT hH l2 hsub
    intro s j hj
    by_cases e : s = d.name
    · subst e
      rw [Function.update_self, Function.update_self, Function.update_of_ne]
      rintro rfl
      exact hj hTi
    · rw [Function.update_of_ne e, Function.update_of_ne e]
  have : (fun ω => expect prog θ (d :: l2)
      (fun ω => g (trajectory prog ω (posOf d.idx i)) (ω d.name i) * H ω) ω) = fun _ => 0 := funext key
  have hap := expect_append prog θ l1 (d :: l2)
    (fun ω => g (trajectory prog ω (posOf d.idx i)) (ω d.name i) * H ω) ω
  rw [this, expect_zero, ← he] at hap
  exact hap

/-- The entries that belong to position `m` along the plate `own`. -/
def AlongPlate (prog : List (Decl E V)) (own : String) (m : Nat) (s : String) (i : List Nat) : Prop :=
  ∃ d ∈ prog, d.name = s ∧ own ∈ d.idx.map Prod.fst ∧ posOf d.idx i own = m

theorem alongPlate_downward {prog : List (Decl E V)} {θ : E} (h : Program prog θ) (own : String) (m : Nat) :
    Downward prog (AlongPlate prog own m) := by
  intro d hd i _ hn d' hd' hdep hT
  obtain ⟨d'', hd'', e, hmem, hpos⟩ := hT
  have : d'' = d' := by
    have h1 := find_decl h.names hd''
    have h2 := find_decl h.names hd'
    rw [e, h2] at h1
    injection h1 with h1
    exact h1.symm
  subst this
  obtain ⟨p, hp, rfl⟩ := List.mem_map.1 hmem
  apply hn
  refine ⟨d, hd, rfl, List.mem_map_of_mem (h.nested d hd d'' hd'' hdep p hp), ?_⟩
  rw [← hpos]
  exact (posOf_map d''.idx (h.idx d'' hd'') (posOf d.idx i) hp).symm

/-- What is computed at another position along the plate does not look at the entries of position `m`. -/
theorem trajectory_blind {prog : List (Decl E V)} {θ : E} (h : Program prog θ) {own : String} {m : Nat}
    {ι : String → Nat} (hm : ι own ≠ m) {ω ω' : Draws V} (hag : AgreeOff (AlongPlate prog own m) ω ω') :
    ∀ s ∈ prog.map Decl.name, trajectory prog ω ι s = trajectory prog ω' ι s := by
  intro s hs
  obtain ⟨d, hd, rfl⟩ := List.mem_map.1 hs
  rw [trajectory_decl h.names hd, trajectory_decl h.names hd]
  apply hag
  rintro ⟨d', hd', e, hmem, hpos⟩
  have : d' = d := by
    have h1 := find_decl h.names hd'
    have h2 := find_decl h.names hd
    rw [e, h2] at h1
    injection h1 with h1
    exact h1.symm
  subst this
  obtain ⟨p, hp, rfl⟩ := List.mem_map.1 hmem
  rw [posOf_map d'.idx (h.idx d' hd') ι hp] at hpos
  exact hm hpos

end Storch
