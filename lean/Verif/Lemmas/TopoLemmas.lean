import Verif.Model.Graph
import Mathlib.Logic.Relation
import Mathlib.Data.List.Nodup
import Mathlib.Data.List.Count
import Mathlib.Data.Finset.Card
import Mathlib.Tactic.Linarith

/-!
# Reverse Kahn (util.py:171-202)
-/

namespace Storch

/-- The children of `p` that `topological_sort` still waits for. -/
def waiting (kids : Links) (edges : Nat → Option (List Nat)) (p : Nat) : List Nat :=
  match edges p with
  | some c => c
  | none => (kids p).map Prod.fst

/-- How often `n` lists `p` as a parent. -/
def parentCount (parents : Links) (n p : Nat) : Nat := ((parents n).map Prod.fst).count p
/-- How often `p` lists `n` as a child. -/
def kidCount (kids : Links) (p n : Nat) : Nat := ((kids p).map Prod.fst).count n

/-- The inner loop: removing `n` from the lists of all its parents. -/
theorem topoParents_spec (kids : Links) (n : Nat) (ps : List (Nat × Bool)) :
    ∀ edges s, (∀ p, (waiting kids edges p).count n = (ps.map Prod.fst).count p) →
      (∀ p ∈ ps.map Prod.fst, edges p ≠ some []) →
      ∃ edges' news, topoParents kids n ps edges s = .ok (edges', news ++ s) ∧ news.Nodup ∧
        (∀ p m, m ≠ n → (waiting kids edges' p).count m = (waiting kids edges p).count m) ∧
        (∀ p, (waiting kids edges' p).count n = 0) ∧
        (∀ p ∈ news, p ∈ ps.map Prod.fst) ∧
        (∀ p, edges' p = some [] ↔ p ∈ news ∨ edges p = some []) := by
  induction ps with
  | nil =>
    intro edges s hc _
    refine ⟨edges, [], by simp [topoParents], by simp, fun _ _ _ => rfl, fun p => by simpa using hc p, by simp, by simp⟩
  | cons e ps ih =>
    obtain ⟨p, b⟩ := e
    intro edges s hc hne
    have hpos : 0 < (waiting kids edges p).count n := by rw [hc p]; simp
    have hmem : n ∈ waiting kids edges p := List.count_pos_iff.1 hpos
    let c' := (waiting kids edges p).erase n
    have hdel : delChild n (waiting kids edges p) = .ok c' := by rw [delChild, if_pos hmem]
    let edges1 : Nat → Option (List Nat) := fun q => if q = p then some c' else edges q
    have hw1 : ∀ q, waiting kids edges1 q = if q = p then c' else waiting kids edges q := by
      intro q
      simp only [waiting, edges1]
      by_cases hq : q = p <;> simp [hq]
    have hstep : topoParents kids n ((p, b) :: ps) edges s =
        topoParents kids n ps edges1 (if c' = [] then p :: s else s) := by
      rw [topoParents]
      change (match delChild n (waiting kids edges p) with
        | .error e => Except.error e
        | .ok c'' => _) = _
      rw [hdel]
    have hc1 : ∀ q, (waiting kids edges1 q).count n = (ps.map Prod.fst).count q := by
      intro q
      have := hc q
      rw [hw1]
      by_cases hq : q = p
      · subst hq
        rw [if_pos rfl, List.count_erase_self, this]
        simp
      · rw [if_neg hq, this]
        simp [Ne.symm hq]
    obtain ⟨edges', news, h1, h2, h3, h4, h5, h6⟩ := ih edges1 (if c' = [] then p :: s else s) hc1 (by
      intro q hq he
      have hcq : 0 < (waiting kids edges1 q).count n := by rw [hc1 q]; exact List.count_pos_iff.2 hq
      simp only [waiting, he] at hcq
      simp at hcq)
    have hcount : ∀ q m, m ≠ n → (waiting kids edges1 q).count m = (waiting kids edges q).count m := by
      intro q m hm
      rw [hw1]
      by_cases hq : q = p
      · subst hq; rw [if_pos rfl, List.count_erase_of_ne hm]
      · rw [if_neg hq]
    by_cases hemp : c' = []
    · have hpn : p ∉ news := by
        intro hp
        have hpp := h5 p hp
        have : 0 < (waiting kids edges1 p).count n := by rw [hc1 p]; exact List.count_pos_iff.2 hpp
        rw [hw1, if_pos rfl, hemp] at this
        simp at this
      refine ⟨edges', news ++ [p], ?_, ?_, ?_, h4, ?_, ?_⟩
      · rw [hstep, h1, if_pos hemp]; simp
      · rw [List.nodup_append]
        refine ⟨h2, by simp, ?_⟩
        intro a ha b' hb hab
        rw [List.mem_singleton] at hb
        exact hpn (hb ▸ hab ▸ ha)
      · intro q m hm; rw [h3 q m hm, hcount q m hm]
      · intro q hq
        rcases List.mem_append.1 hq with h | h
        · exact List.mem_cons_of_mem _ (h5 q h)
        · rw [List.mem_singleton] at h; simp [h]
      · intro q
        rw [h6]
        by_cases hq : q = p
        · subst hq; simp [edges1, hemp]
        · simp [edges1, hq]
    · refine ⟨edges', news, ?_, h2, ?_, h4, ?_, ?_⟩
      · rw [hstep, h1, if_neg hemp]
      · intro q m hm; rw [h3 q m hm, hcount q m hm]
      · intro q hq; exact List.mem_cons_of_mem _ (h5 q hq)
      · intro q
        rw [h6]
        by_cases hq : q = p
        · subst hq
          have := hne q (by simp)
          simp [edges1, hemp, this]
        · simp [edges1, hq]

/-- The state of the main loop. -/
structure TopoInv (parents kids : Links) (costs : List Nat) (P : Nat → Prop) (s l : List Nat)
    (edges : Nat → Option (List Nat)) : Prop where
  nodup : (l ++ s).Nodup
  count : ∀ p m, (waiting kids edges p).count m = if m ∈ l then 0 else kidCount kids p m
  mem : ∀ p, p ∈ l ++ s ↔ p ∈ costs ∨ edges p = some []
  reach : ∀ x ∈ l ++ s, P x
  ready : ∀ x ∈ s, ∀ k ∈ (kids x).map Prod.fst, k ∈ l
  order : ∀ l1 x l2, l = l1 ++ x :: l2 → ∀ k ∈ (kids x).map Prod.fst, k ∈ l1

theorem topoLoop_spec {parents kids : Links} {costs : List Nat} {P : Nat → Prop} {V : Finset Nat}
    (hmir : ∀ p n, kidCount kids p n = parentCount parents n p)
    (hleaf : ∀ c ∈ costs, kids c = [])
    (hP : ∀ x p, P x → p ∈ (parents x).map Prod.fst → P p) (hV : ∀ x, P x → x ∈ V) (fuel : Nat) :
    ∀ s l edges, TopoInv parents kids costs P s l edges → V.card < fuel + l.length →
      ∃ r edges', topoLoop parents kids fuel s l edges = .ok r ∧
        TopoInv parents kids costs P [] r edges' := by
  induction fuel with
  | zero =>
    intro s l edges hi hf
    exfalso
    have hn : l.Nodup := (List.nodup_append.1 hi.nodup).1
    have : l.toFinset ⊆ V := fun x hx => hV x (hi.reach x (by simp [List.mem_toFinset.1 hx]))
    have := Finset.card_le_card this
    rw [List.toFinset_card_of_nodup hn] at this
    omega
  | succ fuel ih =>
    intro s l edges hi hf
    cases s with
    | nil => exact ⟨l, edges, by simp [topoLoop], hi⟩
    | cons n s =>
      have hnl : n ∉ l := by
        intro h
        exact (List.nodup_append.1 hi.nodup).2.2 n h n (by simp) rfl
      have hcn : ∀ p, (waiting kids edges p).count n = ((parents n).map Prod.fst).count p := by
        intro p
        rw [hi.count, if_neg hnl, hmir]; rfl
      have hne : ∀ p ∈ (parents n).map Prod.fst, edges p ≠ some [] := by
        intro p hp he
        have : 0 < (waiting kids edges p).count n := by rw [hcn p]; exact List.count_pos_iff.2 hp
        simp [waiting, he] at this
      obtain ⟨edges', news, h1, h2, h3, h4, h5, h6⟩ := topoParents_spec kids n (parents n) edges s hcn hne
      have hnews : ∀ p ∈ news, p ∉ l ++ n :: s := by
        intro p hp hm
        rcases (hi.mem p).1 hm with h | h
        · have hpp := h5 p hp
          have := hmir p n
          rw [kidCount, hleaf p h, parentCount, List.map_nil, List.count_nil] at this
          exact absurd (List.count_pos_iff.2 hpp) (by omega)
        · exact hne p (h5 p hp) h
      have heq : ((l ++ [n]) ++ (news ++ s)).Perm (l ++ n :: s ++ news) := by
        have : ((l ++ [n]) ++ (news ++ s)) = l ++ (n :: news ++ s) := by simp
        rw [this, List.append_assoc]
        apply List.Perm.append_left
        rw [List.cons_append, List.cons_append]
        exact List.Perm.cons _ List.perm_append_comm
      have hcount' : ∀ p m, (waiting kids edges' p).count m =
          if m ∈ l ++ [n] then 0 else kidCount kids p m := by
        intro p m
        by_cases hm : m = n
        · subst hm; rw [h4, if_pos (by simp)]
        · rw [h3 p m hm, hi.count]
          simp [hm]
      obtain ⟨r, edges'', g1, g2⟩ := ih (news ++ s) (l ++ [n]) edges'
        ⟨by
            rw [heq.nodup_iff, List.nodup_append]
            exact ⟨hi.nodup, h2, fun a ha b hb hab => hnews b hb (hab ▸ ha)⟩,
          hcount',
          by
            intro p
            rw [heq.mem_iff, List.mem_append, hi.mem, h6]
            tauto,
          by
            intro x hx
            rw [heq.mem_iff] at hx
            rcases List.mem_append.1 hx with h | h
            · exact hi.reach x h
            · exact hP n x (hi.reach n (by simp)) (h5 x h),
          by
            intro x hx k hk
            rcases List.mem_append.1 hx with h | h
            · have he := (h6 x).2 (Or.inl h)
              have := hcount' x k
              simp only [waiting, he, List.count_nil] at this
              by_contra hkl
              rw [if_neg hkl] at this
              exact absurd (List.count_pos_iff.2 hk) (by simp only [kidCount] at this; omega)
            · exact List.mem_append_left _ (hi.ready x (List.mem_cons_of_mem _ h) k hk),
          by
            intro l1 x l2 hl k hk
            rcases List.eq_nil_or_concat l2 with rfl | ⟨l2', y, rfl⟩
            · have := List.append_inj' hl (by simp)
              have hx : n = x := by simpa using this.2
              subst hx
              rw [← this.1]
              exact hi.ready n (by simp) k hk
            · have : l ++ [n] = (l1 ++ x :: l2') ++ [y] := by rw [hl]; simp
              have := List.append_inj' this (by simp)
              exact hi.order l1 x l2' this.1 k hk⟩
        (by simp only [List.length_append, List.length_cons, List.length_nil]; omega)
      refine ⟨r, edges'', ?_, g2⟩
      rw [topoLoop, h1]
      exact g1

theorem topoLoop_mono {parents kids : Links} {fuel : Nat} :
    ∀ {s l edges r}, topoLoop parents kids fuel s l edges = .ok r →
      topoLoop parents kids (fuel + 1) s l edges = .ok r := by
  induction fuel with
  | zero => intro s l edges r h; simp [topoLoop] at h
  | succ fuel ih =>
    intro s l edges r h
    cases s with
    | nil => simpa [topoLoop] using h
    | cons n s =>
      rw [topoLoop] at h ⊢
      split at h
      · cases h
      · exact ih h

end Storch
