import Verif.Lemmas.DecodeRun
import Mathlib.Analysis.SpecialFunctions.Exp
import Mathlib.Algebra.Order.BigOperators.Group.List

/-!
# Probabilities of sequences
-/

namespace Storch.Decode

variable {α : Type _}

/-- All rows of `c` tokens below `D`. -/
def rowsOf (D : Nat) : Nat → List (List Nat)
  | 0 => [[]]
  | c + 1 => (List.range D).flatMap (fun t => (rowsOf D c).map (fun row => t :: row))

/-- All sequences of values of the variables. -/
def seqsOf : List (Var α) → List (List Nat)
  | [] => [[]]
  | v :: vs => (rowsOf v.dom v.cells).flatMap (fun row => (seqsOf vs).map (fun ts => row ++ ts))

theorem mem_rowsOf {D : Nat} : ∀ {c : Nat} {row : List Nat}, row ∈ rowsOf D c ↔ row.length = c ∧ ∀ t ∈ row, t < D := by
  intro c
  induction c with
  | zero => intro row; simp only [rowsOf, List.mem_singleton]; constructor
            · rintro rfl; simp
            · rintro ⟨h, _⟩; exact List.length_eq_zero_iff.1 h
  | succ c ih =>
    intro row
    simp only [rowsOf, List.mem_flatMap, List.mem_range, List.mem_map]
    constructor
    · rintro ⟨t, ht, r, hr, rfl⟩
      obtain ⟨h1, h2⟩ := ih.1 hr
      refine ⟨by simp [h1], ?_⟩
      intro x hx
      rcases List.mem_cons.1 hx with rfl | hx
      · exact ht
      · exact h2 x hx
    · rintro ⟨h1, h2⟩
      cases row with
      | nil => simp at h1
      | cons t r =>
        exact ⟨t, h2 t List.mem_cons_self, r, ih.2 ⟨by simpa using h1, fun x hx => h2 x (List.mem_cons_of_mem _ hx)⟩, rfl⟩

theorem length_rowsOf (D : Nat) : ∀ c, (rowsOf D c).length = D ^ c := by
  intro c
  induction c with
  | zero => rfl
  | succ c ih => simp [rowsOf, List.length_flatMap, ih, pow_succ, Nat.mul_comm]

theorem nodup_rowsOf (D : Nat) : ∀ c, (rowsOf D c).Nodup := by
  intro c
  induction c with
  | zero => simp [rowsOf]
  | succ c ih =>
    rw [rowsOf, List.nodup_flatMap]
    refine ⟨fun t _ => ih.map (fun a b h => by simpa using h), ?_⟩
    refine List.nodup_range.imp ?_
    intro a b hab x h1 h2
    rw [List.mem_map] at h1 h2
    obtain ⟨r1, _, rfl⟩ := h1
    obtain ⟨r2, _, h⟩ := h2
    simp at h
    exact hab h.1.symm

theorem length_seqsOf_cons (v : Var α) (vs : List (Var α)) :
    (seqsOf (v :: vs)).length = v.dom ^ v.cells * (seqsOf vs).length := by
  simp [seqsOf, List.length_flatMap, length_rowsOf]

theorem length_mem_seqsOf : ∀ {vs : List (Var α)} {ts : List Nat}, ts ∈ seqsOf vs → ts.length = tokens vs := by
  intro vs
  induction vs with
  | nil => intro ts h; simp only [seqsOf, List.mem_singleton] at h; subst h; rfl
  | cons v vs ih =>
    intro ts h
    simp only [seqsOf, List.mem_flatMap, List.mem_map] at h
    obtain ⟨row, hr, t, ht, rfl⟩ := h
    simp [tokens, (mem_rowsOf.1 hr).1, ih ht]

theorem length_seqsOf_snoc (v : Var α) : ∀ (vs : List (Var α)),
    (seqsOf (vs ++ [v])).length = (seqsOf vs).length * v.dom ^ v.cells := by
  intro vs
  induction vs with
  | nil => simp [seqsOf, length_rowsOf]
  | cons w vs ih => rw [List.cons_append, length_seqsOf_cons, length_seqsOf_cons, ih, Nat.mul_assoc]

theorem mem_seqsOf_snoc {v : Var α} : ∀ {vs : List (Var α)} {ts row : List Nat}, ts ∈ seqsOf vs →
    row ∈ rowsOf v.dom v.cells → ts ++ row ∈ seqsOf (vs ++ [v]) := by
  intro vs
  induction vs with
  | nil =>
    intro ts row h hr
    simp only [seqsOf, List.mem_singleton] at h
    subst h
    simp [seqsOf, hr]
  | cons w vs ih =>
    intro ts row h hr
    simp only [seqsOf, List.cons_append, List.mem_flatMap, List.mem_map] at h ⊢
    obtain ⟨r, h1, t, h2, rfl⟩ := h
    exact ⟨r, h1, t ++ row, ih h2 hr, by rw [List.append_assoc]⟩

theorem nodup_seqsOf : ∀ (vs : List (Var α)), (seqsOf vs).Nodup := by
  intro vs
  induction vs with
  | nil => simp [seqsOf]
  | cons v vs ih =>
    rw [seqsOf, List.nodup_flatMap]
    refine ⟨fun r _ => ih.map (fun a b h => by simpa using h), ?_⟩
    rw [List.pairwise_iff_forall_sublist]
    intro a b hab x h1 h2
    have hne : a ≠ b := by
      have := (nodup_rowsOf v.dom v.cells).sublist hab
      simpa using this
    have ha : a ∈ rowsOf v.dom v.cells := hab.subset (by simp)
    have hb : b ∈ rowsOf v.dom v.cells := hab.subset (by simp)
    rw [List.mem_map] at h1 h2
    obtain ⟨t1, _, rfl⟩ := h1
    obtain ⟨t2, _, h⟩ := h2
    exact hne (List.append_inj h (by rw [(mem_rowsOf.1 ha).1, (mem_rowsOf.1 hb).1])).1.symm

/-- A variable whose probabilities sum to one, whatever came before. -/
def Normal (v : Var ℝ) : Prop := ∀ h i, ((List.range v.dom).map (fun t => Real.exp (v.logProb h i t))).sum = 1

theorem Normal.given {v : Var ℝ} (hv : Normal v) (h : List Nat) (i : Nat) :
    ((List.range v.dom).map (fun t => Real.exp (v.given h i t))).sum = 1 := by
  unfold Var.given
  split
  · exact hv h i
  · exact hv [] i

theorem sum_flatMap {β γ : Type _} (l : List β) (f : β → List γ) (g : γ → ℝ) :
    ((l.flatMap f).map g).sum = (l.map (fun b => ((f b).map g).sum)).sum := by
  induction l with
  | nil => simp
  | cons a l ih => simp [ih]

theorem sum_rows (D : Nat) (p : Nat → Nat → ℝ) : ∀ c (o : Nat), (∀ i, ((List.range D).map (fun t => p i t)).sum = 1) →
    ((rowsOf D c).map (fun row => ((List.range c).map (fun i => p (o + i) (row.getD i 0))).prod)).sum = 1 := by
  intro c
  induction c with
  | zero => intro o _; simp [rowsOf]
  | succ c ih =>
    intro o h
    rw [rowsOf, sum_flatMap]
    have hstep : ∀ t, (((rowsOf D c).map (fun row => t :: row)).map
        (fun row => ((List.range (c + 1)).map (fun i => p (o + i) (row.getD i 0))).prod)).sum = p o t := by
      intro t
      have hrow : ∀ row : List Nat, ((List.range (c + 1)).map (fun i => p (o + i) ((t :: row).getD i 0))).prod =
          p o t * ((List.range c).map (fun i => p (o + 1 + i) (row.getD i 0))).prod := by
        intro row
        rw [List.range_succ_eq_map, List.map_cons, List.prod_cons, List.map_map]
        simp only [Nat.add_zero, List.getD_cons_zero]
        congr 2
        apply List.map_congr_left
        intro i _
        simp only [Function.comp, List.getD_cons_succ]
        congr 1
        omega
      rw [List.map_map]
      have : ((fun row : List Nat => ((List.range (c + 1)).map (fun i => p (o + i) (row.getD i 0))).prod) ∘
          fun row => t :: row) = fun row => p o t * ((List.range c).map (fun i => p (o + 1 + i) (row.getD i 0))).prod := by
        funext row; exact hrow row
      rw [this, List.sum_map_mul_left, ih (o + 1) h, mul_one]
    simp only [hstep]
    exact h o

/-- The probabilities of all sequences sum to one. -/
theorem sum_seqs : ∀ (vs : List (Var ℝ)), (∀ v ∈ vs, Normal v) → ∀ h,
    ((seqsOf vs).map (fun ts => Real.exp (logJoint vs h ts))).sum = 1 := by
  intro vs
  induction vs with
  | nil => intro _ h; simp [seqsOf, logJoint]
  | cons v vs ih =>
    intro hn h
    rw [seqsOf, sum_flatMap]
    have hstep : ∀ row ∈ rowsOf v.dom v.cells, (((seqsOf vs).map (fun ts => row ++ ts)).map
        (fun ts => Real.exp (logJoint (v :: vs) h ts))).sum =
        ((List.range v.cells).map (fun i => Real.exp (v.given h (0 + i) (row.getD i 0)))).prod := by
      intro row hr
      obtain ⟨hl, _⟩ := mem_rowsOf.1 hr
      rw [List.map_map]
      have he : ∀ ts, Real.exp (logJoint (v :: vs) h (row ++ ts)) =
          Real.exp (((List.range v.cells).map (fun i => v.given h i (row.getD i 0))).sum) *
            Real.exp (logJoint vs (h ++ row) ts) := by
        intro ts
        rw [← Real.exp_add, logJoint]
        have e1 : (row ++ ts).take v.cells = row := by rw [← hl]; simp
        have e2 : (row ++ ts).drop v.cells = ts := by rw [← hl]; simp
        rw [e1, e2]
        congr 3
        apply List.map_congr_left
        intro i hi
        rw [List.mem_range] at hi
        simp only [List.getD]
        rw [List.getElem?_append_left (by omega)]
      have : ((fun ts => Real.exp (logJoint (v :: vs) h ts)) ∘ fun ts => row ++ ts) = fun ts =>
          Real.exp (((List.range v.cells).map (fun i => v.given h i (row.getD i 0))).sum) *
            Real.exp (logJoint vs (h ++ row) ts) := by
        funext ts; exact he ts
      rw [this, List.sum_map_mul_left, ih (fun v hv => hn v (List.mem_cons_of_mem _ hv)), mul_one, Real.exp_list_sum,
        List.map_map]
      congr 1
      apply List.map_congr_left
      intro i _
      simp
    rw [List.map_congr_left hstep]
    exact sum_rows v.dom (fun i t => Real.exp (v.given h i t)) v.cells 0 (fun i => (hn v List.mem_cons_self).given h i)

/-- The probabilities of different sequences sum to at most one, and to one if these are all sequences. -/
theorem sum_some {vs : List (Var ℝ)} (hn : ∀ v ∈ vs, Normal v) {l : List (List Nat)} (hl : l.Nodup)
    (hsub : ∀ ts ∈ l, ts ∈ seqsOf vs) : (l.map (fun ts => Real.exp (logJoint vs [] ts))).sum ≤ 1 ∧
      (l.length = (seqsOf vs).length → (l.map (fun ts => Real.exp (logJoint vs [] ts))).sum = 1) := by
  have hsp : l.Subperm (seqsOf vs) := hl.subperm hsub
  have htot := sum_seqs vs hn []
  refine ⟨?_, ?_⟩
  · rw [← htot]
    obtain ⟨l', hp, hs⟩ := hsp
    rw [← (hp.map _).sum_eq]
    exact (hs.map _).sum_le_sum (by
      intro x hx
      obtain ⟨ts, _, rfl⟩ := List.mem_map.1 hx
      exact (Real.exp_pos _).le)
  · intro he
    have hp := hsp.perm_of_length_le (by omega)
    rw [(hp.map _).sum_eq, htot]

/-- What the decoder has found: as many sequences as there are, at most `k`, and all of them sequences of values. -/
theorem runSwor_seqs [AddCommMonoid α] {k : Nat} {eos : Option Nat} {topk : Nat → List (WithBot α) → List α → List Nat}
    (hp : Picks topk) (hk : 2 ≤ k) : ∀ (vs : List (Var α × (Nat → Nat → Nat → WithBot α))), vs ≠ [] →
    (∀ v ∈ vs, 2 ≤ v.1.dom) → ∀ {s : St α}, runSwor k eos topk vs blank = .ok s →
    s.width = min k (seqsOf (vs.map Prod.fst)).length ∧ ∀ r < s.width, s.sequence r ∈ seqsOf (vs.map Prod.fst) := by
  intro vs
  induction vs using List.reverseRecOn with
  | nil => intro h; exact absurd rfl h
  | append_singleton vs v ih =>
    intro _ hD s hs
    obtain ⟨v, noise⟩ := v
    obtain ⟨s1, h1, h2⟩ := (runSwor_append vs [(v, noise)] blank s).1 hs
    obtain ⟨smp, h2⟩ := runSwor_one.1 h2
    have hd : 2 ≤ v.dom := hD (v, noise) (by simp)
    rw [List.map_append, List.map_cons, List.map_nil, length_seqsOf_snoc]
    by_cases hvs : vs = []
    · subst hvs
      simp only [runSwor, Except.ok.injEq] at h1
      subst h1
      obtain ⟨g1, g2, g3, _⟩ := sampleSwor_first hp hk hd h2
      refine ⟨by rw [g2]; simp [seqsOf], ?_⟩
      intro r hr
      obtain ⟨row, _, a2, a3, a4⟩ := g3 r hr
      rw [a4]
      simpa using mem_seqsOf_snoc (v := v) (vs := []) (ts := []) (by simp [seqsOf]) (mem_rowsOf.2 ⟨a2, a3⟩)
    · have hD' : ∀ v ∈ vs, 2 ≤ v.1.dom := fun v hv => hD v (List.mem_append_left _ hv)
      have hg := runSwor_good hp hk vs hvs hD' h1
      obtain ⟨i1, i2⟩ := ih hvs hD' h1
      obtain ⟨g1, g2, ⟨pi, g3, g4, g5⟩, _⟩ := sampleSwor_good hp hk hd hg h2
      refine ⟨?_, ?_⟩
      · rw [g2, i1]
        have : 1 ≤ v.dom ^ v.cells := Nat.one_le_pow _ _ (by omega)
        rcases le_total k (seqsOf (vs.map Prod.fst)).length with h | h
        · rw [Nat.min_eq_left h, Nat.min_eq_left (Nat.le_mul_of_pos_right _ this),
            Nat.min_eq_left (le_trans h (Nat.le_mul_of_pos_right _ this))]
        · rw [Nat.min_eq_right h]
      · intro r hr
        obtain ⟨h3, row, h4, h5, h6, h7⟩ := g5 r (by omega)
        rw [h7]
        exact mem_seqsOf_snoc (i2 _ h3) (mem_rowsOf.2 ⟨h5, h6⟩)

end Storch.Decode
