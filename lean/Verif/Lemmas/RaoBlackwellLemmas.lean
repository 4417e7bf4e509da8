import Verif.Model.RaoBlackwell
import Verif.Lemmas.SeqProb

/-!
# Rao-Blackwellised selection
-/

namespace Storch.Decode

variable {α : Type _}

/-- Two ways to select that agree on what a decoder without end-of-sequence token hands to them. -/
def Agree [LT α] (low : WithBot α) (k : Nat) (f g : Nat → List (WithBot α) → List α → List Nat) : Prop :=
  ∀ m l j, m ≤ k → (∀ x ∈ l, low < x) → f m l j = g m l j

theorem decodeStep_congr [Add α] [LT α] {low : WithBot α} {k : Nat} {f g : Nat → List (WithBot α) → List α → List Nat}
    (h : Agree low k f g) (d : Dist α) (ev : Nat) (noise : Nat → Nat → WithBot α) (hn : ∀ r t, low < noise r t)
    (b : Beam α) (p : Option (List (WithBot α))) :
    decodeStep k none f none d ev noise b p = decodeStep k none g none d ev noise b p := by
  unfold decodeStep
  cases allJoint d ev b with
  | error e => rfl
  | ok all =>
    simp only [applyFinished]
    rw [h _ _ _ (Nat.min_le_left _ _)]
    intro x hx
    simp only [List.mem_flatten, List.mem_map] at hx
    obtain ⟨l, ⟨r, _, rfl⟩, hx⟩ := hx
    obtain ⟨t, _, rfl⟩ := List.mem_map.1 hx
    exact hn r t

theorem decodeLoop_congr [Add α] [LT α] {low : WithBot α} {k : Nat} {f g : Nat → List (WithBot α) → List α → List Nat}
    (h : Agree low k f g) (d : Dist α) (noise : Nat → Nat → Nat → WithBot α) (hn : ∀ e r t, low < noise e r t) :
    ∀ (evs : List Nat) (b : Beam α) (p : Option (List (WithBot α))),
    decodeLoop k none f none d noise evs b p = decodeLoop k none g none d noise evs b p := by
  intro evs
  induction evs with
  | nil => intro b p; rfl
  | cons ev evs ih =>
    intro b p
    simp only [decodeLoop]
    rw [decodeStep_congr h d ev (noise ev) (hn ev)]
    cases decodeStep k none g none d ev (noise ev) b p with
    | error e => rfl
    | ok r => exact ih _ _

theorem sampleSwor_congr [Add α] [LT α] {low : WithBot α} {k : Nat} {f g : Nat → List (WithBot α) → List α → List Nat}
    (h : Agree low k f g) (d : Dist α) (noise : Nat → Nat → Nat → WithBot α) (hn : ∀ e r t, low < noise e r t)
    (s : St α) (hs : s.finished = none) : sampleSwor k none f d noise s = sampleSwor k none g d noise s := by
  unfold sampleSwor decode
  rw [hs, decodeLoop_congr h d noise hn]

theorem sampleSwor_finished [Add α] {k : Nat} {f : Nat → List (WithBot α) → List α → List Nat} {d : Dist α}
    {noise : Nat → Nat → Nat → WithBot α} {s s' : St α} {smp : List (List Nat)}
    (h : sampleSwor k none f d noise s = (s', .ok smp)) : s'.finished = s.finished := by
  unfold sampleSwor at h
  split at h
  · simp at h
  · simp only [] at h
    split at h
    · simp at h
    · split at h
      · simp at h
      · simp only [Prod.mk.injEq] at h
        rw [← h.1]
        rfl

theorem runSwor_congr [Add α] [LT α] {low : WithBot α} {k : Nat} {f g : Nat → List (WithBot α) → List α → List Nat}
    (h : Agree low k f g) : ∀ (vs : List (Var α × (Nat → Nat → Nat → WithBot α))),
    (∀ v ∈ vs, ∀ e r t, low < v.2 e r t) → ∀ s : St α, s.finished = none →
    runSwor k none f vs s = runSwor k none g vs s := by
  intro vs
  induction vs with
  | nil => intro _ s _; rfl
  | cons v vs ih =>
    intro hn s hs
    obtain ⟨v, noise⟩ := v
    simp only [runSwor]
    rw [sampleSwor_congr h (v.dist s) noise (hn (v, noise) List.mem_cons_self) s hs]
    cases hr : sampleSwor k none g (v.dist s) noise s with
    | mk s' r =>
      cases r with
      | error e => rfl
      | ok smp => exact ih (fun w hw => hn w (List.mem_cons_of_mem _ hw)) s' (by rw [sampleSwor_finished hr, hs])

/-! ### What is used of `torch.topk` and `torch.max` -/

/-- `torch.topk` on the joint log-probabilities: `m` different valid indices of values that no other value exceeds. -/
structure TopOf [LE α] (top : Nat → List α → List Nat) : Prop where
  len : ∀ m j, m ≤ j.length → (top m j).length = m
  nodup : ∀ m j, m ≤ j.length → (top m j).Nodup
  inRange : ∀ m j, m ≤ j.length → ∀ i ∈ top m j, i < j.length
  best : ∀ m j, m ≤ j.length → ∀ i ∈ top m j, ∀ i', i' ∉ top m j → ∀ a b, j[i]? = some a → j[i']? = some b → b ≤ a

/-- `torch.max`: a valid index of a largest value. -/
structure MaxOf [LE α] (amax : List (WithBot α) → Nat) : Prop where
  inRange : ∀ l : List (WithBot α), l ≠ [] → amax l < l.length
  best : ∀ (l : List (WithBot α)) (i : Nat) (a b : WithBot α), l[amax l]? = some a → l[i]? = some b → b ≤ a

theorem scatterLow_get (low : WithBot α) (over : List Nat) (g : List (WithBot α)) (i : Nat) :
    (scatterLow low over g)[i]? = (g[i]?).map (fun x => if i ∈ over then low else x) := by
  simp [scatterLow, List.getElem?_zipIdx, Function.comp_def]

theorem length_scatterLow (low : WithBot α) (over : List Nat) (g : List (WithBot α)) :
    (scatterLow low over g).length = g.length := by simp [scatterLow]

/-- The drawn sample is none of those that are summed over. -/
theorem amax_fresh [LinearOrder α] {amax : List (WithBot α) → Nat} (ha : MaxOf amax) {low : WithBot α} {over : List Nat}
    {g : List (WithBot α)} (hg : ∀ x ∈ g, low < x)
    (hl : over.length < g.length) : amax (scatterLow low over g) ∉ over ∧ amax (scatterLow low over g) < g.length ∧
      ∀ i, i ∉ over → ∀ a b, g[amax (scatterLow low over g)]? = some a → g[i]? = some b → b ≤ a := by
  have hne : scatterLow low over g ≠ [] := by
    intro h
    have := length_scatterLow low over g
    rw [h] at this
    simp at this
    omega
  have hin := ha.inRange _ hne
  rw [length_scatterLow] at hin
  have hfresh : amax (scatterLow low over g) ∉ over := by
    intro hmem
    obtain ⟨i, hi, hio⟩ : ∃ i, i < g.length ∧ i ∉ over := by
      by_contra hcon
      push Not at hcon
      have hsub : (List.range g.length).Subperm over :=
        List.nodup_range.subperm (fun i hi => hcon i (List.mem_range.1 hi))
      have := hsub.length_le
      rw [List.length_range] at this
      omega
    have h1 := ha.best (scatterLow low over g) i low g[i]
      (by rw [scatterLow_get, List.getElem?_eq_getElem hin]; simp [hmem])
      (by rw [scatterLow_get, List.getElem?_eq_getElem hi]; simp [hio])
    exact absurd (hg _ (List.getElem_mem hi)) (not_lt.2 h1)
  refine ⟨hfresh, hin, ?_⟩
  intro i hi a b h1 h2
  exact ha.best (scatterLow low over g) i a b (by rw [scatterLow_get, h1]; simp [hfresh])
    (by rw [scatterLow_get, h2]; simp [hi])

open Classical in
/-- The selection with a harmless value where a decoder never calls it. -/
noncomputable def rbTotal [LinearOrder α] (top : Nat → List α → List Nat) (amax : List (WithBot α) → Nat) (low : WithBot α)
    (k m : Nat) (g : List (WithBot α)) (j : List α) : List Nat :=
  if m ≤ k ∧ ∀ x ∈ g, low < x then rbSelect top amax low k m g j else List.range m

theorem rbTotal_agree [LinearOrder α] (top : Nat → List α → List Nat) (amax : List (WithBot α) → Nat) (low : WithBot α)
    (k : Nat) : Agree low k (rbSelect top amax low k) (rbTotal top amax low k) := by
  intro m l j h1 h2
  rw [rbTotal, if_pos ⟨h1, h2⟩]

theorem rbTotal_picks [LinearOrder α] {top : Nat → List α → List Nat} (ht : TopOf top) {amax : List (WithBot α) → Nat}
    (ha : MaxOf amax) (low : WithBot α) {k : Nat} (hk : 1 ≤ k) : Picks (rbTotal top amax low k) := by
  have key : ∀ m (l : List (WithBot α)) (j : List α), m ≤ l.length → j.length = l.length →
      (rbTotal top amax low k m l j).length = m ∧ (rbTotal top amax low k m l j).Nodup ∧
        ∀ i ∈ rbTotal top amax low k m l j, i < l.length := by
    intro m l j hm hj
    unfold rbTotal
    split
    · rename_i h
      obtain ⟨hmk, hlow⟩ := h
      unfold rbSelect
      have h1 := ht.len (min (k - 1) m) j (by omega)
      have h2 := ht.nodup (min (k - 1) m) j (by omega)
      have h3 := ht.inRange (min (k - 1) m) j (by omega)
      simp only []
      split
      · rename_i hmk
        subst hmk
        obtain ⟨a1, a2, _⟩ := amax_fresh ha hlow (over := top (min (m - 1) m) j) (by omega)
        refine ⟨by rw [List.length_append, h1]; simp; omega, ?_, ?_⟩
        · rw [List.nodup_append]
          refine ⟨h2, by simp, ?_⟩
          intro a ha' b hb
          rw [List.mem_singleton] at hb
          subst hb
          rintro rfl
          exact a1 ha'
        · intro i hi
          rcases List.mem_append.1 hi with hi | hi
          · rw [← hj]; exact h3 i hi
          · rw [List.mem_singleton] at hi
            rw [hi]; exact a2
      · exact ⟨by rw [h1]; omega, h2, fun i hi => by rw [← hj]; exact h3 i hi⟩
    · exact ⟨List.length_range, List.nodup_range, fun i hi => by have := List.mem_range.1 hi; omega⟩
  exact ⟨fun m l j h1 h2 => (key m l j h1 h2).1, fun m l j h1 h2 => (key m l j h1 h2).2.1,
    fun m l j h1 h2 => (key m l j h1 h2).2.2⟩

/-! ### Such functions exist -/

/-- Sorting, earlier positions first among equal values. -/
def sortJ [LinearOrder α] (m : Nat) (j : List α) : List Nat := sortIdx (List.map WithBot.some j) |>.take m
where
  sortIdx (l : List (WithBot α)) : List Nat := (List.range l.length).insertionSort (fun i j => l.getD j ⊥ ≤ l.getD i ⊥)

/-- The first position of a largest value. -/
def firstMax [LinearOrder α] (l : List (WithBot α)) : Nat := (sortJ.sortIdx l).headD 0

theorem sortIdx_perm [LinearOrder α] (l : List (WithBot α)) : (sortJ.sortIdx l).Perm (List.range l.length) :=
  List.perm_insertionSort _ _

theorem sortIdx_sorted [LinearOrder α] (l : List (WithBot α)) :
    (sortJ.sortIdx l).Pairwise (fun i j => l.getD j ⊥ ≤ l.getD i ⊥) := by
  have : Std.Total (fun i j : Nat => l.getD j ⊥ ≤ l.getD i ⊥) := ⟨fun i j => le_total _ _⟩
  have : IsTrans Nat (fun i j : Nat => l.getD j ⊥ ≤ l.getD i ⊥) := ⟨fun i j k h1 h2 => le_trans h2 h1⟩
  exact List.pairwise_insertionSort _ _

theorem sortJ_top [LinearOrder α] : TopOf (sortJ (α := α)) := by
  have hperm := fun j : List α => sortIdx_perm (List.map WithBot.some j)
  refine ⟨?_, ?_, ?_, ?_⟩
  · intro m j hm
    rw [sortJ, List.length_take, (hperm j).length_eq]
    simp; omega
  · intro m j hm
    exact ((hperm j).nodup_iff.2 List.nodup_range).sublist (List.take_sublist _ _)
  · intro m j hm i hi
    have := (hperm j).mem_iff.1 (List.mem_of_mem_take hi)
    simpa using List.mem_range.1 this
  · intro m j hm i hi i' hi' a b h1 h2
    have hsort := sortIdx_sorted (List.map WithBot.some j)
    rw [← List.take_append_drop m (sortJ.sortIdx _), List.pairwise_append] at hsort
    have hmem : i' ∈ (sortJ.sortIdx (List.map WithBot.some j)).drop m := by
      have h3 : i' ∈ sortJ.sortIdx (List.map WithBot.some j) := by
        rw [(hperm j).mem_iff, List.mem_range, List.length_map]
        exact (List.getElem?_eq_some_iff.1 h2).1
      rw [← List.take_append_drop m (sortJ.sortIdx _)] at h3
      exact (List.mem_append.1 h3).resolve_left hi'
    have := hsort.2.2 i hi i' hmem
    simpa [List.getD, List.getElem?_map, h1, h2] using this

theorem firstMax_max [LinearOrder α] : MaxOf (firstMax (α := α)) := by
  have hhead : ∀ l : List (WithBot α), l ≠ [] → ∃ t, sortJ.sortIdx l = firstMax l :: t := by
    intro l hl
    cases h : sortJ.sortIdx l with
    | nil =>
      have := (sortIdx_perm l).length_eq
      rw [h] at this
      simp at this
      exact absurd this.symm (by simpa using hl)
    | cons a t => exact ⟨t, by rw [firstMax, h]; rfl⟩
  refine ⟨?_, ?_⟩
  · intro l hl
    obtain ⟨t, ht⟩ := hhead l hl
    have := (sortIdx_perm l).mem_iff.1 (ht ▸ List.mem_cons_self)
    exact List.mem_range.1 this
  · intro l i a b h1 h2
    have hl : l ≠ [] := by rintro rfl; simp at h1
    obtain ⟨t, ht⟩ := hhead l hl
    have hi : i ∈ sortJ.sortIdx l := by
      rw [(sortIdx_perm l).mem_iff, List.mem_range]
      exact (List.getElem?_eq_some_iff.1 h2).1
    have hsort := sortIdx_sorted l
    rw [ht] at hsort hi
    rcases List.mem_cons.1 hi with rfl | hi
    · rw [h1] at h2; exact (Option.some.inj h2).ge
    · have := (List.pairwise_cons.1 hsort).1 i hi
      simpa [List.getD, h1, h2] using this

/-! ### One variable without independent dimensions -/

theorem gatherL_map {β : Type _} {n : Nat} (f : Nat → β) : ∀ {arg : List Nat}, (∀ i ∈ arg, i < n) →
    gatherL ((List.range n).map f) arg = .ok (arg.map f) := by
  intro arg
  induction arg with
  | nil => intro _; rfl
  | cons a arg ih =>
    intro h
    have ha := h a List.mem_cons_self
    simp [gatherL, ha, ih (fun i hi => h i (List.mem_cons_of_mem _ hi))]

theorem setCells_start : ∀ {arg : List Nat} {k : Nat}, arg.length ≤ k →
    setCells 0 arg (List.replicate k [0]) = .ok (arg.map (fun a => [a]) ++ List.replicate (k - arg.length) [0]) := by
  intro arg
  induction arg with
  | nil => intro k _; simp [setCells]
  | cons a arg ih =>
    intro k h
    cases k with
    | zero => simp at h
    | succ k =>
      have := ih (k := k) (by simpa using h)
      simp [List.replicate_succ, setCells, this]

theorem scalar_run [Add α] {k : Nat} {topk : Nat → List (WithBot α) → List α → List Nat} (hp : Picks topk)
    {v : Var α} (hev : v.events = []) (noise : Nat → Nat → Nat → WithBot α) {arg : List Nat}
    (harg : topk (min k v.dom) ((List.range v.dom).map (noise 0 0)) ((List.range v.dom).map (v.given [] 0)) = arg) :
    runSwor k none topk [(v, noise)] blank = .ok
      ⟨some (arg.map (v.given [] 0)), none, 1, [⟨arg.length, 0, arg.map (v.given [] 0), arg.map (noise 0 0), none⟩], none,
        [arg.map (fun a => [a])], some (arg.map (noise 0 0)), []⟩ := by
  have hlen : arg.length = min k v.dom := by rw [← harg]; exact hp.len _ _ _ (by simp) (by simp)
  have hrng : ∀ i ∈ arg, i < v.dom := by
    intro i hi
    rw [← harg] at hi
    simpa using hp.inRange _ _ _ (by simp) (by simp) i hi
  have hgiven : (v.dist (blank : St α)).logProb 0 0 = v.given [] 0 := by
    funext t
    by_cases hd : v.dep = true
    · simp [Var.dist, Var.given, hd, blank, St.sequence]
    · simp [Var.dist, Var.given, hd]
  have hstep : ∀ p, decodeStep k none topk none (v.dist blank) 0 (noise 0) (startBeam k (v.dist blank) none) p =
      .ok (⟨arg.map (fun a => [a]) ++ List.replicate (k - arg.length) [0], some (arg.map (v.given [] 0)), none, arg.length⟩,
        arg.map (noise 0 0)) := by
    intro p
    have hdom : (v.dist (blank : St α)).dom = v.dom := rfl
    have hcells : (v.dist (blank : St α)).cells = 1 := by show Ten.numel v.events = 1; rw [hev]; rfl
    simp only [decodeStep, allJoint, startBeam, applyFinished, Option.map_none, Option.getD_none, hdom, hgiven, hcells,
      List.length_singleton, List.range_one, List.map_cons, List.map_nil, List.flatten_cons, List.flatten_nil,
      List.append_nil, List.length_map, List.length_range, harg, gatherL_map _ hrng, List.replicate_one]
    rw [setCells_start (by omega)]
  have hcells : (v.dist (blank : St α)).cells = 1 := by show Ten.numel v.events = 1; rw [hev]; rfl
  have hcond : (v.dist (blank : St α)).cond = false := by simp [Var.dist, blank]
  have hevd : (v.dist (blank : St α)).events = [] := hev
  have hdec : decode k none topk blank (v.dist blank) noise = (some (arg.map (noise 0 0)),
      .ok (arg.map (fun a => [a]), some (arg.map (v.given [] 0)), none)) := by
    unfold decode
    rw [hcond, hcells]
    simp only [Bool.false_and, Bool.false_eq_true, if_false]
    rw [if_neg (by simp [blank])]
    simp only [List.range_one, decodeLoop]
    rw [show (blank : St α).finished = none from rfl, show (blank : St α).joint = none from rfl, hstep]
    simp only [hevd]
    split
    · simp [cutLast]
    · rw [show k - arg.length = 0 by omega]; simp
  simp only [runSwor, sampleSwor, hdec]
  simp [createPlateSwor, createPlate, St.parentOk, sizeBad, blank, reindexSeq, finishedOf]

/-! ### Runs of the class -/

theorem runRB_eq [LinearOrder α] [Add α] {top : Nat → List α → List Nat} {amax : List (WithBot α) → Nat} {low : WithBot α}
    {k : Nat} {eos : Option Nat} {vs : List (Var α × (Nat → Nat → Nat → WithBot α))}
    (hn : ∀ v ∈ vs, ∀ e r t, low < v.2 e r t) :
    runRB top amax low k eos vs = if k < 2 then .error .value else runSwor k none (rbTotal top amax low k) vs blank := by
  unfold runRB constructRB
  by_cases hk : k < 2
  · simp [hk]
  · simp only [hk, if_false]
    exact runSwor_congr (rbTotal_agree top amax low k) vs hn blank rfl

end Storch.Decode
