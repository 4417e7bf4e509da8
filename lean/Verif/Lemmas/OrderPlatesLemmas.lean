import Verif.Model.OrderPlates
import Verif.Lemmas.PlateLemmas

/-! Invariants of Kahn's algorithm as implemented by `order_plates`. -/

namespace Storch
variable {α β : Type _}

/-! ### Dictionaries -/

theorem dget_dset (d : List (String × β)) (k k' : String) (v : β) :
    dget (dset d k v) k' = if k = k' then some v else dget d k' := by
  induction d with
  | nil => simp [dset, dget]
  | cons e r ih =>
    obtain ⟨a, b⟩ := e
    simp only [dset]
    by_cases h : a = k
    · subst h
      simp only [if_true, dget]
      split_ifs <;> rfl
    · simp only [if_neg h, dget, ih]
      by_cases h' : a = k'
      · subst h'; simp [Ne.symm h]
      · simp [h']

/-- Total number of entries in the value lists of a dict. -/
def dsize (d : List (String × List β)) : Nat := (d.map (fun e => e.2.length)).sum

theorem dsize_dset (d : List (String × List β)) (k : String) (v v' : List β)
    (h : dget d k = some v) : dsize (dset d k v') + v.length = dsize d + v'.length := by
  induction d with
  | nil => simp [dget] at h
  | cons e r ih =>
    obtain ⟨a, b⟩ := e
    simp only [dget] at h
    simp only [dset]
    by_cases ha : a = k
    · rw [if_pos ha] at h
      injection h with h
      subst h
      simp [ha, dsize]
      omega
    · rw [if_neg ha] at h
      have := ih h
      simp [ha, dsize] at this ⊢
      omega

theorem dsize_dset_le (d : List (String × List β)) (k : String) (v : List β) :
    dsize (dset d k v) ≤ dsize d + v.length := by
  induction d with
  | nil => simp [dset, dsize]
  | cons e r ih =>
    obtain ⟨a, b⟩ := e
    simp only [dset]
    by_cases ha : a = k
    · simp [ha, dsize]; omega
    · simp [ha, dsize] at ih ⊢; omega

theorem removeBy_eq_none {eq : β → β → Bool} {x : β} {l : List β} :
    removeBy eq x l = none ↔ ∀ y ∈ l, eq y x = false := by
  induction l with
  | nil => simp [removeBy]
  | cons y ys ih =>
    simp only [removeBy]
    by_cases h : eq y x = true
    · simp [h]
    · simp only [h, Bool.false_eq_true, if_false, Option.map_eq_none_iff, ih, List.mem_cons,
        forall_eq_or_imp]
      simp at h
      simp

theorem removeBy_eq_some {eq : β → β → Bool} {x : β} {l l' : List β}
    (h : removeBy eq x l = some l') :
    ∃ a y b, l = a ++ y :: b ∧ l' = a ++ b ∧ eq y x = true ∧ ∀ z ∈ a, eq z x = false := by
  induction l generalizing l' with
  | nil => simp [removeBy] at h
  | cons y ys ih =>
    simp only [removeBy] at h
    by_cases hy : eq y x = true
    · simp only [hy, if_true, Option.some.injEq] at h
      subst h
      exact ⟨[], y, ys, rfl, rfl, hy, by simp⟩
    · simp only [hy, Bool.false_eq_true, if_false, Option.map_eq_some_iff] at h
      obtain ⟨l'', h1, rfl⟩ := h
      obtain ⟨a, z, b, rfl, rfl, h3, h4⟩ := ih h1
      refine ⟨y :: a, z, b, rfl, rfl, h3, ?_⟩
      intro w hw
      rcases List.mem_cons.1 hw with rfl | hw
      · simpa using hy
      · exact h4 w hw

variable [ValEq α]

theorem Plate.isIn_iff {p : Plate α} {ps : List (Plate α)} :
    p.isIn ps = true ↔ ∃ q ∈ ps, q.pyEq p = true := by
  simp [Plate.isIn, memBy]

theorem Plate.isIn_of_mem {p : Plate α} {ps : List (Plate α)} (h : p ∈ ps) : p.isIn ps = true :=
  Plate.isIn_iff.2 ⟨p, h, Plate.pyEq_refl p⟩

theorem Plate.isIn_mono {p : Plate α} {ps qs : List (Plate α)} (hs : ∀ q ∈ ps, q ∈ qs)
    (h : p.isIn ps = true) : p.isIn qs = true := by
  obtain ⟨q, hq, he⟩ := Plate.isIn_iff.1 h
  exact Plate.isIn_iff.2 ⟨q, hs q hq, he⟩

theorem isRootList_eq_true {plates qs : List (Plate α)} :
    isRootList plates qs = true ↔
      ∀ q ∈ qs, q.isIn plates = false ∧ isRoot plates q = true := by
  induction qs with
  | nil => simp [isRootList]
  | cons q qs ih =>
    simp only [isRootList, List.mem_cons, forall_eq_or_imp]
    by_cases h1 : q.isIn plates = true
    · simp [h1]
    · by_cases h2 : isRoot plates q = true
      · simp only [h1, h2, Bool.not_true, if_false, Bool.false_eq_true, ih]
        simp at h1
        simp
      · simp [h1, h2]

theorem isRoot_parents {plates : List (Plate α)} {p : Plate α} (h : isRoot plates p = true) :
    ∀ q ∈ p.parents, q.isIn plates = false := by
  obtain ⟨a, b, c, d, ps⟩ := p
  rw [isRoot, isRootList_eq_true] at h
  exact fun q hq => (h q hq).1

theorem isRoot_of_no_parents {plates : List (Plate α)} {p : Plate α} (h : p.parents = []) :
    isRoot plates p = true := by
  obtain ⟨a, b, c, d, ps⟩ := p
  simp only [Plate.parents] at h
  subst h
  rfl

/-! ### Termination -/

theorem ordRelax_size {n : Plate α} {ms roots roots' : List (Plate α)} {inE inE' : Edges α}
    (h : ordRelax n ms roots inE = .ok (roots', inE')) :
    roots'.length + dsize inE' ≤ roots.length + dsize inE := by
  induction ms generalizing roots inE with
  | nil =>
    simp only [ordRelax, Except.ok.injEq, Prod.mk.injEq] at h
    obtain ⟨rfl, rfl⟩ := h
    exact Nat.le_refl _
  | cons m ms ih =>
    simp only [ordRelax] at h
    cases hg : dget inE m.name with
    | none => simp [hg] at h
    | some rem =>
      cases hr : removeBy Plate.pyEq n rem with
      | none => simp [hg, hr] at h
      | some rem' =>
        simp only [hg, hr] at h
        have h1 := ih h
        have h2 := dsize_dset inE m.name rem rem' hg
        obtain ⟨a, y, b, rfl, rfl, _, _⟩ := removeBy_eq_some hr
        simp only [List.length_append, List.length_cons] at h2
        have h3 : (if (a ++ b).isEmpty then m :: roots else roots).length ≤ roots.length + 1 := by
          split_ifs <;> simp
        omega

theorem ordRelax_error {n : Plate α} {ms roots : List (Plate α)} {inE : Edges α} {e : Err}
    (h : ordRelax n ms roots inE = .error e) : e = .key ∨ e = .value := by
  induction ms generalizing roots inE with
  | nil => simp [ordRelax] at h
  | cons m ms ih =>
    simp only [ordRelax] at h
    cases hg : dget inE m.name with
    | none => simp [hg] at h; exact Or.inl h.symm
    | some rem =>
      cases hr : removeBy Plate.pyEq n rem with
      | none => simp [hg, hr] at h; exact Or.inr h.symm
      | some rem' => simp only [hg, hr] at h; exact ih h

theorem ordLoop_terminates (plates : List (Plate α)) (outE : Edges α) (fuel : Nat)
    (roots : List (Plate α)) (inE : Edges α) (sorted : List (Plate α))
    (hf : roots.length + dsize inE < fuel) :
    ordLoop plates outE fuel roots inE sorted ≠ .error .diverge := by
  induction fuel generalizing roots inE sorted with
  | zero => omega
  | succ fuel ih =>
    cases roots with
    | nil => simp [ordLoop]
    | cons n roots =>
      simp only [ordLoop]
      cases hg : dget outE n.name with
      | none => simp
      | some ms =>
        simp only
        cases hr : ordRelax n ms roots inE with
        | error e =>
          rcases ordRelax_error hr with rfl | rfl <;> simp
        | ok x =>
          obtain ⟨roots', inE'⟩ := x
          have := ordRelax_size hr
          simp only [List.length_cons] at hf
          exact ih _ _ _ (by omega)

theorem ordInit_fold_size (plates ps : List (Plate α)) (st : OrdSt α) :
    let st' := ps.foldl (ordInit1 plates) st
    st'.roots.length + dsize st'.inE ≤
      st.roots.length + dsize st.inE + ps.length + (ps.map (fun p => p.parents.length)).sum := by
  induction ps generalizing st with
  | nil => simp
  | cons p ps ih =>
    simp only [List.foldl_cons]
    have h1 := ih (ordInit1 plates st p)
    have h2 : (ordInit1 plates st p).roots.length ≤ st.roots.length + 1 := by
      simp only [ordInit1]; split_ifs <;> simp
    have h3 : dsize (ordInit1 plates st p).inE ≤ dsize st.inE + p.parents.length :=
      dsize_dset_le _ _ _
    simp only at h1 ⊢
    simp only [List.map_cons, List.sum_cons, List.length_cons]
    omega

theorem orderPlates_not_diverge (plates : List (Plate α)) (reverse : Bool) :
    orderPlates plates reverse ≠ .error .diverge := by
  unfold orderPlates
  have h := ordLoop_terminates plates (ordInit plates).outE (ordFuel plates) (ordInit plates).roots
    (ordInit plates).inE [] (by
      have := ordInit_fold_size plates plates
        ⟨[], [], plates.foldl (fun d p => dset d p.name []) []⟩
      simp only [ordFuel]
      simp [dsize] at this
      change (ordInit plates).roots.length + dsize (ordInit plates).inE ≤ _ at this
      omega)
  simp only
  split
  · rename_i e he
    rw [he] at h
    simpa using h
  · split_ifs <;> simp

/-! ### What the initialisation computes -/

omit [ValEq α] in
theorem mem_initOut_keys (ps : List (Plate α)) (d : Edges α) (k : String)
    (hd : (∃ l, dget d k = some l)) :
    dget (ps.foldl (fun d p => dset d p.name []) d) k =
      if k ∈ ps.map Plate.name then some [] else dget d k := by
  induction ps generalizing d with
  | nil => simp
  | cons p ps ih =>
    simp only [List.foldl_cons]
    rw [ih]
    · rw [dget_dset]
      by_cases h : p.name = k
      · simp [h]
      · simp [h, Ne.symm h]
    · rw [dget_dset]
      split_ifs
      · exact ⟨_, rfl⟩
      · exact hd

omit [ValEq α] in
theorem initOut_get (ps : List (Plate α)) (d : Edges α) (k : String) (hk : k ∈ ps.map Plate.name) :
    dget (ps.foldl (fun d p => dset d p.name []) d) k = some [] := by
  induction ps generalizing d with
  | nil => simp at hk
  | cons p ps ih =>
    simp only [List.foldl_cons]
    by_cases h : p.name = k
    · rw [mem_initOut_keys]
      · rw [dget_dset]; simp [h]
      · rw [dget_dset]; simp [h]
    · apply ih
      simp only [List.map_cons, List.mem_cons] at hk
      rcases hk with hk | hk
      · exact absurd hk.symm h
      · exact hk

omit [ValEq α] in
theorem addOut_get (p : Plate α) (qs : List (Plate α)) (out : Edges α) (k : String) (l : List (Plate α))
    (h : dget out k = some l) :
    dget (qs.foldl (addOut p) out) k =
      some (l ++ List.replicate (qs.countP (fun q => q.name = k)) p) := by
  induction qs generalizing out l with
  | nil => simp [h]
  | cons q qs ih =>
    simp only [List.foldl_cons]
    by_cases hq : q.name = k
    · have : dget (addOut p out q) k = some (l ++ [p]) := by
        simp only [addOut, hq, h]
        rw [dget_dset]; simp
      rw [ih _ _ this, List.countP_cons_of_pos (by simpa using hq)]
      simp [List.replicate_succ]
    · have : dget (addOut p out q) k = some l := by
        simp only [addOut]
        split <;> rw [dget_dset, if_neg hq, h]
      rw [ih _ _ this, List.countP_cons_of_neg (by simpa using hq)]

/-- The children recorded under the name `k`. -/
def outOf (ps : List (Plate α)) (k : String) : List (Plate α) :=
  ps.flatMap (fun p => List.replicate (p.parents.countP (fun q => q.name = k)) p)

theorem ordInit_fold_out (plates ps : List (Plate α)) (st : OrdSt α) (k : String)
    (l : List (Plate α)) (h : dget st.outE k = some l) :
    dget (ps.foldl (ordInit1 plates) st).outE k = some (l ++ outOf ps k) := by
  induction ps generalizing st l with
  | nil => simp [outOf, h]
  | cons p ps ih =>
    simp only [List.foldl_cons]
    have := addOut_get p p.parents st.outE k l h
    rw [ih (ordInit1 plates st p) _ this]
    simp [outOf]

theorem ordInit_out {plates : List (Plate α)} {k : String} (hk : k ∈ plates.map Plate.name) :
    dget (ordInit plates).outE k = some (outOf plates k) := by
  have := ordInit_fold_out plates plates
    ⟨[], [], plates.foldl (fun d p => dset d p.name []) []⟩ k [] (initOut_get _ _ _ hk)
  simpa [ordInit] using this

omit [ValEq α] in
theorem mem_outOf {ps : List (Plate α)} {k : String} {p : Plate α} :
    p ∈ outOf ps k ↔ p ∈ ps ∧ ∃ q ∈ p.parents, q.name = k := by
  simp only [outOf, List.mem_flatMap, List.mem_replicate, ne_eq, List.countP_eq_zero]
  constructor
  · rintro ⟨a, ha, h1, rfl⟩
    refine ⟨ha, ?_⟩
    by_contra hc
    apply h1
    intro q hq
    simp only [decide_eq_true_eq]
    exact fun hqn => hc ⟨q, hq, hqn⟩
  · rintro ⟨hp, q, hq, hqn⟩
    exact ⟨p, hp, fun h => by simpa [hqn] using h q hq, rfl⟩

theorem ordInit_fold_in (plates ps : List (Plate α)) (st : OrdSt α)
    (hn : (ps.map Plate.name).Nodup) :
    (∀ p ∈ ps, dget (ps.foldl (ordInit1 plates) st).inE p.name = some p.parents) ∧
    (∀ k, k ∉ ps.map Plate.name →
      dget (ps.foldl (ordInit1 plates) st).inE k = dget st.inE k) := by
  induction ps generalizing st with
  | nil => simp
  | cons p ps ih =>
    simp only [List.map_cons, List.nodup_cons] at hn
    obtain ⟨h1, h2⟩ := ih (ordInit1 plates st p) hn.2
    simp only [List.foldl_cons]
    refine ⟨?_, ?_⟩
    · intro q hq
      rcases List.mem_cons.1 hq with rfl | hq
      · rw [h2 _ hn.1]
        simp only [ordInit1]
        rw [dget_dset]; simp
      · exact h1 q hq
    · intro k hk
      simp only [List.map_cons, List.mem_cons, not_or] at hk
      rw [h2 k hk.2]
      simp only [ordInit1]
      rw [dget_dset, if_neg (Ne.symm hk.1)]

theorem ordInit_in {plates : List (Plate α)} (hn : (plates.map Plate.name).Nodup)
    {p : Plate α} (hp : p ∈ plates) : dget (ordInit plates).inE p.name = some p.parents :=
  (ordInit_fold_in plates plates _ hn).1 p hp

theorem ordInit_fold_roots (plates ps : List (Plate α)) (st : OrdSt α) :
    (ps.foldl (ordInit1 plates) st).roots = (ps.filter (fun p => isRoot plates p)).reverse ++ st.roots := by
  induction ps generalizing st with
  | nil => simp
  | cons p ps ih =>
    simp only [List.foldl_cons]
    rw [ih]
    simp only [ordInit1, List.filter_cons]
    split_ifs <;> simp

theorem ordInit_roots (plates : List (Plate α)) :
    (ordInit plates).roots = (plates.filter (fun p => isRoot plates p)).reverse := by
  simpa [ordInit] using ordInit_fold_roots plates plates
    ⟨[], [], plates.foldl (fun d p => dset d p.name []) []⟩

/-- Keys of the `in_edges` dict are names of plates. -/
theorem ordCycle_eq_true {plates : List (Plate α)} {inE : Edges α} :
    ordCycle plates inE = true ↔ ∃ e ∈ inE, ∃ q ∈ e.2, q.isIn plates = true := by
  simp [ordCycle, List.any_eq_true]

theorem mem_dset {d : List (String × β)} {k : String} {v : β} {e : String × β}
    (h : e ∈ dset d k v) : e = (k, v) ∨ e ∈ d := by
  induction d with
  | nil => simp [dset] at h; exact Or.inl h
  | cons a r ih =>
    obtain ⟨k', v'⟩ := a
    simp only [dset] at h
    split_ifs at h with hk
    · rcases List.mem_cons.1 h with h | h
      · exact Or.inl h
      · exact Or.inr (List.mem_cons_of_mem _ h)
    · rcases List.mem_cons.1 h with h | h
      · exact Or.inr (by simp [h])
      · rcases ih h with h | h
        · exact Or.inl h
        · exact Or.inr (List.mem_cons_of_mem _ h)

/-- Dict entries are found by lookup when keys are unique. -/
theorem dget_of_mem {d : List (String × β)} (hn : (d.map Prod.fst).Nodup) {k : String} {v : β}
    (h : (k, v) ∈ d) : dget d k = some v := by
  induction d with
  | nil => simp at h
  | cons a r ih =>
    obtain ⟨k', v'⟩ := a
    simp only [List.map_cons, List.nodup_cons] at hn
    simp only [dget]
    rcases List.mem_cons.1 h with h | h
    · injection h with h1 h2; simp [h1, h2]
    · have : k' ≠ k := by
        rintro rfl
        exact hn.1 (List.mem_map.2 ⟨_, h, rfl⟩)
      rw [if_neg this]
      exact ih hn.2 h

theorem mem_of_dget {d : List (String × β)} {k : String} {v : β} (h : dget d k = some v) :
    (k, v) ∈ d := by
  induction d with
  | nil => simp [dget] at h
  | cons a r ih =>
    obtain ⟨k', v'⟩ := a
    simp only [dget] at h
    split_ifs at h with hk
    · injection h with h; subst h; subst hk; simp
    · exact List.mem_cons_of_mem _ (ih h)

theorem keys_dset (d : List (String × β)) (k : String) (v : β) :
    (dset d k v).map Prod.fst = if k ∈ d.map Prod.fst then d.map Prod.fst else d.map Prod.fst ++ [k] := by
  induction d with
  | nil => simp [dset]
  | cons a r ih =>
    obtain ⟨k', v'⟩ := a
    simp only [dset, List.map_cons, List.mem_cons]
    by_cases h : k' = k
    · simp [h]
    · simp only [if_neg h, List.map_cons, ih, Ne.symm h, false_or]
      split_ifs <;> simp

theorem nodup_keys_dset {d : List (String × β)} (k : String) (v : β) (h : (d.map Prod.fst).Nodup) :
    ((dset d k v).map Prod.fst).Nodup := by
  rw [keys_dset]
  split_ifs with hk
  · exact h
  · exact List.Nodup.append h (by simp) (by simpa using hk)

end Storch
