import Verif.Model.Graph
import Mathlib.Logic.Relation
import Mathlib.Data.List.Nodup
import Mathlib.Data.List.Count
import Mathlib.Data.Finset.Card
import Mathlib.Algebra.BigOperators.Group.Finset.Basic
import Mathlib.Algebra.BigOperators.Group.Finset.Lemmas
import Mathlib.Tactic.Linarith

/-!
# Depth-first and breadth-first walks
-/

namespace Storch

/-- A finite set that is closed under the links followed by the walk. -/
def ClosedIn (ex : Links) (od : Bool) (V : Finset Nat) : Prop :=
  ∀ v ∈ V, ∀ w ∈ nexts ex od v, w ∈ V

/-! ### Depth-first -/

theorem dfsLoop_mono {ex : Links} {od rv : Bool} {fuel : Nat} :
    ∀ {stack vis out r}, dfsLoop ex od rv fuel stack vis out = .ok r →
      dfsLoop ex od rv (fuel + 1) stack vis out = .ok r := by
  induction fuel with
  | zero => intro stack vis out r h; simp [dfsLoop] at h
  | succ fuel ih =>
    intro stack vis out r h
    cases stack with
    | nil => simpa [dfsLoop] using h
    | cons v stack =>
      rw [dfsLoop] at h ⊢
      split at h
      · rename_i hc; rw [if_pos hc]; exact ih h
      · rename_i hc; rw [if_neg hc]; exact ih h

/-- The state of the depth-first walk. -/
structure DfsInv (ex : Links) (od : Bool) (P : Nat → Prop) (stack out : List Nat) : Prop where
  nodup : out.Nodup
  reach : ∀ x, x ∈ stack ∨ x ∈ out → P x
  closed : ∀ v ∈ out, ∀ w ∈ nexts ex od v, w ∈ stack ∨ w ∈ out

theorem dfsLoop_spec {ex : Links} {od : Bool} {V : Finset Nat} (hV : ClosedIn ex od V) {P : Nat → Prop}
    (hP : ∀ v w, P v → w ∈ nexts ex od v → P w) (fuel : Nat) :
    ∀ stack out, (∀ x ∈ stack, x ∈ V) → DfsInv ex od P stack out →
      stack.length + (∑ v ∈ V \ out.toFinset, (nexts ex od v).length) < fuel →
      ∃ r, dfsLoop ex od false fuel stack out out = .ok r ∧ DfsInv ex od P [] r ∧
        ∀ x, x ∈ stack ∨ x ∈ out → x ∈ r := by
  induction fuel with
  | zero => intro stack out _ _ h; omega
  | succ fuel ih =>
    intro stack out hs hi hf
    cases stack with
    | nil => exact ⟨out, by simp [dfsLoop], hi, by simp⟩
    | cons v stack =>
      by_cases hv : v ∈ out
      · obtain ⟨r, h1, h2, h3⟩ := ih stack out (fun x hx => hs x (List.mem_cons_of_mem _ hx))
          ⟨hi.nodup, fun x hx => hi.reach x (by rcases hx with h | h <;> simp [h]),
            fun a ha w hw => by
              rcases hi.closed a ha w hw with h | h
              · rcases List.mem_cons.1 h with rfl | h
                · exact Or.inr hv
                · exact Or.inl h
              · exact Or.inr h⟩ (by simp only [List.length_cons] at hf; omega)
        refine ⟨r, by rw [dfsLoop, if_neg (by simp [hv])]; exact h1, h2, ?_⟩
        intro x hx
        rcases hx with h | h
        · rcases List.mem_cons.1 h with rfl | h
          · exact h3 _ (Or.inr hv)
          · exact h3 _ (Or.inl h)
        · exact h3 _ (Or.inr h)
      · have hvV : v ∈ V := hs v (by simp)
        have hsum : (∑ u ∈ V \ (out ++ [v]).toFinset, (nexts ex od u).length) + (nexts ex od v).length
            = ∑ u ∈ V \ out.toFinset, (nexts ex od u).length := by
          have hmem : v ∈ V \ out.toFinset := by simp [hvV, hv]
          rw [← Finset.sum_erase_add _ _ hmem]
          congr 1
          apply Finset.sum_congr _ (fun _ _ => rfl)
          ext u
          simp only [Finset.mem_sdiff, List.mem_toFinset, List.mem_append, List.mem_singleton,
            Finset.mem_erase]
          tauto
        obtain ⟨r, h1, h2, h3⟩ := ih ((nexts ex od v).reverse ++ stack) (out ++ [v])
          (by
            intro x hx
            rcases List.mem_append.1 hx with h | h
            · exact hV v hvV x (List.mem_reverse.1 h)
            · exact hs x (List.mem_cons_of_mem _ h))
          ⟨by rw [List.nodup_append]; exact ⟨hi.nodup, by simp, by
              intro a ha b hb hab
              rw [List.mem_singleton] at hb
              exact hv (hb ▸ hab ▸ ha)⟩,
            by
              intro x hx
              have hPv := hi.reach v (Or.inl (by simp))
              simp only [List.mem_append, List.mem_reverse, List.mem_singleton] at hx
              rcases hx with (h | h) | (h | rfl)
              · exact hP v x hPv h
              · exact hi.reach x (Or.inl (List.mem_cons_of_mem _ h))
              · exact hi.reach x (Or.inr h)
              · exact hPv,
            by
              intro a ha w hw
              simp only [List.mem_append, List.mem_reverse, List.mem_singleton] at ha ⊢
              rcases ha with ha | rfl
              · rcases hi.closed a ha w hw with h | h
                · rcases List.mem_cons.1 h with rfl | h
                  · exact Or.inr (Or.inr rfl)
                  · exact Or.inl (Or.inr h)
                · exact Or.inr (Or.inl h)
              · exact Or.inl (Or.inl hw)⟩
          (by simp only [List.length_append, List.length_reverse, List.length_cons] at hf ⊢; omega)
        refine ⟨r, by rw [dfsLoop, if_pos (by simp [hv])]; exact h1, h2, ?_⟩
        intro x hx
        apply h3
        simp only [List.mem_append, List.mem_reverse, List.mem_singleton]
        rcases hx with h | h
        · rcases List.mem_cons.1 h with rfl | h
          · exact Or.inr (Or.inr rfl)
          · exact Or.inl (Or.inr h)
        · exact Or.inr (Or.inl h)

/-! ### Breadth-first -/

theorem bfsLoop_mono {ex : Links} {od rv : Bool} {fuel : Nat} :
    ∀ {queue vis out r}, bfsLoop ex od rv fuel queue vis out = .ok r →
      bfsLoop ex od rv (fuel + 1) queue vis out = .ok r := by
  induction fuel with
  | zero => intro queue vis out r h; simp [bfsLoop] at h
  | succ fuel ih =>
    intro queue vis out r h
    cases queue with
    | nil => simpa [bfsLoop] using h
    | cons v queue =>
      rw [bfsLoop] at h ⊢
      exact ih h

/-- What the inner loop adds: the new neighbours, without repetitions. -/
theorem bfsPush_spec (ws : List Nat) : ∀ vis queue, ∃ news, bfsPush false ws vis queue = (vis ++ news, queue ++ news) ∧
    news.Nodup ∧ (∀ x ∈ news, x ∈ ws ∧ x ∉ vis) ∧ ∀ x ∈ ws, x ∈ vis ∨ x ∈ news := by
  induction ws with
  | nil => intro vis queue; exact ⟨[], by simp [bfsPush]⟩
  | cons w ws ih =>
    intro vis queue
    by_cases hw : w ∈ vis
    · obtain ⟨news, h1, h2, h3, h4⟩ := ih vis queue
      refine ⟨news, by rw [bfsPush, if_neg (by simp [hw])]; exact h1, h2, fun x hx => ⟨List.mem_cons_of_mem _ (h3 x hx).1, (h3 x hx).2⟩, ?_⟩
      intro x hx
      rcases List.mem_cons.1 hx with rfl | hx
      · exact Or.inl hw
      · exact h4 x hx
    · obtain ⟨news, h1, h2, h3, h4⟩ := ih (vis ++ [w]) (queue ++ [w])
      refine ⟨w :: news, ?_, ?_, ?_, ?_⟩
      · rw [bfsPush, if_pos (by simp [hw]), h1]; simp
      · rw [List.nodup_cons]
        exact ⟨fun h => (h3 w h).2 (by simp), h2⟩
      · intro x hx
        rcases List.mem_cons.1 hx with rfl | hx
        · exact ⟨by simp, hw⟩
        · exact ⟨List.mem_cons_of_mem _ (h3 x hx).1, fun h => (h3 x hx).2 (by simp [h])⟩
      · intro x hx
        rcases List.mem_cons.1 hx with rfl | hx
        · exact Or.inr (by simp)
        · rcases h4 x hx with h | h
          · rcases List.mem_append.1 h with h | h
            · exact Or.inl h
            · exact Or.inr (by simp_all)
          · exact Or.inr (List.mem_cons_of_mem _ h)

/-- The state of the breadth-first walk: `visited` is `out ++ queue`; `d` is the number of links by
which a node was found. -/
structure BfsInv (ex : Links) (od : Bool) (P : Nat → Nat → Prop) (d : Nat → Nat) (queue out : List Nat) :
    Prop where
  nodup : (out ++ queue).Nodup
  reach : ∀ x ∈ out ++ queue, P (d x) x
  closed : ∀ v ∈ out, ∀ w ∈ nexts ex od v, w ∈ out ++ queue ∧ d w ≤ d v + 1
  sorted : ((out ++ queue).map d).Pairwise (· ≤ ·)
  window : ∀ h q, queue = h :: q → ∀ x ∈ queue, d x ≤ d h + 1

theorem bfsLoop_spec {ex : Links} {od : Bool} {V : Finset Nat} (hV : ClosedIn ex od V)
    {P : Nat → Nat → Prop} (hP : ∀ n v w, P n v → w ∈ nexts ex od v → P (n + 1) w) (fuel : Nat) :
    ∀ queue out d, (∀ x ∈ out ++ queue, x ∈ V) → BfsInv ex od P d queue out →
      V.card < fuel + out.length →
      ∃ r d', bfsLoop ex od false fuel queue (out ++ queue) out = .ok r ∧ BfsInv ex od P d' [] r ∧
        ∀ x ∈ out ++ queue, x ∈ r ∧ d' x = d x := by
  induction fuel with
  | zero =>
    intro queue out d hs hi hf
    exfalso
    have hn : out.Nodup := (List.nodup_append.1 hi.nodup).1
    have : out.toFinset ⊆ V := fun x hx => hs x (by simp [List.mem_toFinset.1 hx])
    have := Finset.card_le_card this
    rw [List.toFinset_card_of_nodup hn] at this
    omega
  | succ fuel ih =>
    intro queue out d hs hi hf
    cases queue with
    | nil => exact ⟨out, d, by simp [bfsLoop], hi, by simp⟩
    | cons v queue =>
      obtain ⟨news, hpush, hnn, hnews, hcov⟩ := bfsPush_spec (nexts ex od v) (out ++ v :: queue) queue
      have hvV : v ∈ V := hs v (by simp)
      -- new depths
      let d2 : Nat → Nat := fun x => if x ∈ news then d v + 1 else d x
      have hd2 : ∀ x ∈ out ++ v :: queue, d2 x = d x := by
        intro x hx
        simp only [d2]
        rw [if_neg (fun h => (hnews x h).2 hx)]
      have hd2n : ∀ x ∈ news, d2 x = d v + 1 := fun x hx => by simp only [d2]; rw [if_pos hx]
      have hle : ∀ x ∈ out, d x ≤ d v := by
        intro x hx
        have := hi.sorted
        rw [List.map_append, List.pairwise_append] at this
        exact this.2.2 _ (List.mem_map_of_mem hx) _ (List.mem_map_of_mem (by simp))
      have hwin := hi.window v queue rfl
      have heq : out ++ v :: queue ++ news = (out ++ [v]) ++ (queue ++ news) := by simp
      obtain ⟨r, d', h1, h2, h3⟩ := ih (queue ++ news) (out ++ [v]) d2
        (by
          intro x hx
          rw [← heq] at hx
          rcases List.mem_append.1 hx with h | h
          · exact hs x h
          · exact hV v hvV x (hnews x h).1)
        ⟨by
            rw [← heq, List.nodup_append]
            exact ⟨hi.nodup, hnn, fun a ha b hb hab => (hnews b hb).2 (hab ▸ ha)⟩,
          by
            intro x hx
            rw [← heq] at hx
            rcases List.mem_append.1 hx with h | h
            · rw [hd2 x h]; exact hi.reach x h
            · rw [hd2n x h]; exact hP _ v x (hi.reach v (by simp)) (hnews x h).1,
          by
            intro a ha w hw
            rw [← heq]
            rcases List.mem_append.1 ha with ha | ha
            · have := hi.closed a ha w hw
              rw [hd2 w this.1, hd2 a (by simp [ha])]
              exact ⟨List.mem_append_left _ this.1, this.2⟩
            · have hav : a = v := by simpa using ha
              subst hav
              rw [hd2 a (by simp)]
              rcases hcov w hw with h | h
              · refine ⟨List.mem_append_left _ h, ?_⟩
                rw [hd2 w h]
                rcases List.mem_append.1 h with h | h
                · have := hle w h; omega
                · exact hwin w h
              · exact ⟨List.mem_append_right _ h, by rw [hd2n w h]⟩,
          by
            rw [← heq, List.map_append, List.pairwise_append]
            refine ⟨?_, ?_, ?_⟩
            · rw [List.map_congr_left hd2]; exact hi.sorted
            · rw [List.map_congr_left hd2n, List.pairwise_map]
              exact List.Pairwise.imp (fun _ => Nat.le_refl _) hnn
            · intro a ha b hb
              obtain ⟨x, hx, rfl⟩ := List.mem_map.1 ha
              obtain ⟨y, hy, rfl⟩ := List.mem_map.1 hb
              rw [hd2 x hx, hd2n y hy]
              rcases List.mem_append.1 hx with h | h
              · have := hle x h; omega
              · exact hwin x h,
          by
            intro h q hq x hx
            have hdh : d v ≤ d2 h := by
              cases queue with
              | nil =>
                have : h ∈ news := by
                  simp only [List.nil_append] at hq; simp [hq]
                rw [hd2n h this]; omega
              | cons h' q' =>
                have : h = h' := by simp only [List.cons_append, List.cons.injEq] at hq; exact hq.1.symm
                subst this
                rw [hd2 h (by simp)]
                have := hi.sorted
                rw [List.map_append, List.pairwise_append] at this
                have := this.2.1
                rw [List.map_cons, List.pairwise_cons] at this
                exact this.1 _ (List.mem_map_of_mem (by simp))
            rcases List.mem_append.1 hx with hx | hx
            · rw [hd2 x (by simp [hx])]
              have := hwin x (List.mem_cons_of_mem _ hx)
              omega
            · rw [hd2n x hx]; omega⟩
        (by simp only [List.length_append, List.length_cons, List.length_nil]; omega)
      refine ⟨r, d', ?_, h2, ?_⟩
      · rw [bfsLoop]
        simp only [hpush]
        rw [heq]
        exact h1
      · intro x hx
        have := h3 x (by rw [← heq]; exact List.mem_append_left _ hx)
        exact ⟨this.1, by rw [this.2, hd2 x hx]⟩

end Storch
