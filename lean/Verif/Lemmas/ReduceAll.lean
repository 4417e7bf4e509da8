import Verif.Lemmas.ReduceStep
import Verif.Props.OrderProps
import Mathlib.Algebra.BigOperators.Group.Finset.Sigma

/-! The reduction loop: all requested plates are summed out, children first. -/

namespace Storch
variable {α : Type _}

/-- `ι` with the position along the plates `ps` replaced by `idx`. -/
def assign : List (Plate α) → List Nat → (String → Nat) → (String → Nat)
  | p :: ps, k :: ks, ι => assign ps ks (Function.update ι p.name k)
  | _, _, ι => ι

/-- Nested sums over the indices of the plates. -/
def nestSum [AddCommMonoid α] : List (Plate α) → ((String → Nat) → α) → (String → Nat) → α
  | [], F, ι => F ι
  | p :: ps, F, ι => ∑ k ∈ Finset.range p.n, nestSum ps F (Function.update ι p.name k)

theorem sum_range_list [AddCommMonoid α] (n : Nat) (f : Nat → α) :
    ((List.range n).map f).sum = ∑ k ∈ Finset.range n, f k := by
  induction n with
  | zero => rfl
  | succ n ih => rw [List.range_succ, List.map_append, List.sum_append, ih, Finset.sum_range_succ]; simp

theorem nestSum_eq [AddCommMonoid α] (ps : List (Plate α)) (F : (String → Nat) → α) (ι : String → Nat) :
    nestSum ps F ι = ((allIdx (ps.map Plate.n)).map (fun idx => F (assign ps idx ι))).sum := by
  induction ps generalizing ι with
  | nil => simp [nestSum, allIdx, assign]
  | cons p ps ih =>
    simp only [nestSum, List.map_cons, allIdx]
    rw [← sum_range_list, List.map_flatMap, List.flatMap_def, List.sum_flatten, List.map_map]
    congr 1
    apply List.map_congr_left
    intro k _
    rw [ih]
    simp only [Function.comp, List.map_map]
    rfl

theorem nestSum_append [AddCommMonoid α] (ps qs : List (Plate α)) (F : (String → Nat) → α)
    (ι : String → Nat) : nestSum (ps ++ qs) F ι = nestSum ps (nestSum qs F) ι := by
  induction ps generalizing ι with
  | nil => rfl
  | cons p ps ih =>
    simp only [List.cons_append, nestSum]
    exact Finset.sum_congr rfl (fun k _ => ih _)

theorem nestSum_congr [AddCommMonoid α] (ps : List (Plate α)) {F G : (String → Nat) → α}
    (h : ∀ ι, F ι = G ι) (ι : String → Nat) : nestSum ps F ι = nestSum ps G ι := by
  rw [show F = G from funext h]

theorem nestSum_perm [AddCommMonoid α] {ps qs : List (Plate α)} (h : ps.Perm qs)
    (hn : (ps.map Plate.name).Nodup) (F : (String → Nat) → α) (ι : String → Nat) :
    nestSum ps F ι = nestSum qs F ι := by
  induction h generalizing ι with
  | nil => rfl
  | cons p h ih =>
    simp only [List.map_cons, List.nodup_cons] at hn
    simp only [nestSum]
    exact Finset.sum_congr rfl (fun k _ => ih hn.2 _)
  | swap p q l =>
    simp only [List.map_cons, List.nodup_cons, List.mem_cons, not_or] at hn
    simp only [nestSum]
    rw [Finset.sum_comm]
    refine Finset.sum_congr rfl (fun k _ => Finset.sum_congr rfl (fun j _ => ?_))
    rw [Function.update_comm hn.1.1]
  | trans h1 h2 ih1 ih2 =>
    rw [ih1 hn, ih2 ((h1.map Plate.name).nodup_iff.1 hn)]

/-- The weight of `q` does not look at the index of other plates than `q` and its parents. -/
theorem weightAt_update (dt : α → α) {q : Plate α} {s : String} (k : Nat) (ι : String → Nat)
    (h1 : q.name ≠ s) (h2 : ∀ w names, q.weight = .storch w names → s ∉ q.parents.map Plate.name) :
    q.weightAt dt (Function.update ι s k) = q.weightAt dt ι := by
  unfold Plate.weightAt
  cases hw : q.weight with
  | torch w => simp [Function.update_of_ne h1]
  | storch w names =>
    simp only
    congr 2
    apply List.map_congr_left
    intro x hx
    apply Function.update_of_ne
    rcases mem_weightPlates (List.mem_filter.1 hx).1 with rfl | hx
    · exact h1
    · intro e; exact h2 w names hw (List.mem_map.2 ⟨x, hx, e⟩)

theorem prod_weightAt_update [CommMonoid α] (dt : α → α) {l : List (Plate α)} {s : String} (k : Nat)
    (ι : String → Nat) (h : ∀ q ∈ l, q.name ≠ s ∧
      ∀ w names, q.weight = .storch w names → s ∉ q.parents.map Plate.name) :
    (l.map (fun q => q.weightAt dt (Function.update ι s k))).prod =
      (l.map (fun q => q.weightAt dt ι)).prod := by
  congr 1
  apply List.map_congr_left
  intro q hq
  exact weightAt_update dt k ι (h q hq).1 (h q hq).2

variable [ValEq α]

omit [ValEq α] in
theorem bidx_take (s e : List Nat) : Ten.bidx s (e.take s.length) = Ten.bidx s e := by
  have h := take_bidx s [] e
  rw [List.append_nil] at h
  rw [← h]
  conv_rhs => rw [Ten.bidx, List.take_zipWith, List.take_length]
  rfl

omit [ValEq α] in
theorem sample_take (t : STen α) (ι : String → Nat) (e : List Nat) :
    t.sample ι (e.take t.eventShape.length) = t.sample ι e := by
  apply STen.sample_congr_e
  exact bidx_take _ _

theorem inB_take {e s r : List Nat} (h : Ten.InB e (s ++ r)) : Ten.InB (e.take s.length) s := by
  have := List.forall₂_take_append e s r h
  exact this

/-- The list of plates without those named in `names`. -/
def dropPlates (names : List String) (ps : List (Plate α)) : List (Plate α) :=
  ps.filter (fun q => !decide (q.name ∈ names))

/-- What has to hold for the plates to be reduced in this order: they are on the tensor, carry weights,
and the plates a weight refers to are still there. -/
structure Reducible (l : List (Plate α)) (ps : List (Plate α)) : Prop where
  nodup : (l.map Plate.name).Nodup
  mem : ∀ p ∈ l, p ∈ ps
  ok : ∀ p ∈ l, WeightOK p
  par : ∀ l1 p l2, l = l1 ++ p :: l2 → ∀ w names, p.weight = .storch w names →
    ∀ q ∈ p.parents, q.isIn (dropPlates (l1.map Plate.name) ps) = true

theorem Reducible.step {p : Plate α} {l ps : List (Plate α)} (h : Reducible (p :: l) ps) :
    Reducible l (dropPlate p.name ps) := by
  have hn := h.nodup
  simp only [List.map_cons, List.nodup_cons] at hn
  refine ⟨hn.2, ?_, fun q hq => h.ok q (List.mem_cons_of_mem _ hq), ?_⟩
  · intro q hq
    refine List.mem_filter.2 ⟨h.mem q (List.mem_cons_of_mem _ hq), ?_⟩
    simp only [List.mem_singleton, Bool.not_eq_true', decide_eq_false_iff_not]
    intro e
    exact hn.1 (e ▸ List.mem_map_of_mem hq)
  · intro l1 q l2 he w names hw x hx
    have := h.par (p :: l1) q l2 (by rw [he]; rfl) w names hw x hx
    convert this using 2
    rw [dropPlates, dropPlate, dropPlates, List.filter_filter]
    apply List.filter_congr
    intro y _
    simp only [List.map_cons, List.mem_cons]
    by_cases h1 : y.name = p.name <;> by_cases h2 : y.name ∈ l1.map Plate.name <;> simp [h1, h2]

theorem reduceLoop_spec [CommSemiring α] {hook : UnwrapHook α} (hh : PlainHook hook) (dt : α → α)
    (l : List (Plate α)) : ∀ {t : STen α}, Proper t → Reducible l t.plates →
    ∃ r, reduceLoop hook dt l t = .ok r ∧ Proper r ∧ r.plates = dropPlates (l.map Plate.name) t.plates ∧
      (∃ k, r.eventShape = t.eventShape ++ List.replicate k 1) ∧
      ((∀ p ∈ l, ∃ w, p.weight = .torch w) → r.eventShape = t.eventShape) ∧
      ∀ ι e, Ten.InB (e.take r.eventShape.length) r.eventShape → r.sample ι e =
        nestSum l.reverse (fun ι => (l.map (fun p => p.weightAt dt ι)).prod * t.sample ι e) ι := by
  induction l with
  | nil =>
    intro t h _
    refine ⟨t, rfl, h, by simp [dropPlates], ⟨0, by simp⟩, fun _ => rfl, ?_⟩
    intro ι e _
    simp [nestSum]
  | cons p l ih =>
    intro t h hr
    obtain ⟨s, s1, s2, s3, ⟨k, s4⟩, s5, s6⟩ := reduce_step hh dt h (hr.mem p (by simp)) (hr.ok p (by simp))
      (fun w names hw q hq => by
        have := hr.par [] p l rfl w names hw q hq
        simpa [dropPlates] using this)
    obtain ⟨r, r1, r2, r3, ⟨k', r4⟩, r5, r6⟩ := ih s2 (by rw [s3]; exact hr.step)
    refine ⟨r, by rw [reduceLoop, s1]; exact r1, r2, ?_, ⟨k + k', ?_⟩, ?_, ?_⟩
    · rw [r3, s3, dropPlates, dropPlate, dropPlates, List.filter_filter]
      apply List.filter_congr
      intro y _
      simp only [List.map_cons, List.mem_cons]
      by_cases h1 : y.name = p.name <;> by_cases h2 : y.name ∈ l.map Plate.name <;> simp [h1, h2]
    · rw [r4, s4, List.append_assoc, List.replicate_append_replicate]
    · intro hw
      obtain ⟨w, hw'⟩ := hw p (by simp)
      rw [r5 (fun q hq => hw q (List.mem_cons_of_mem _ hq)), s5 w hw']
    · intro ι e he
      rw [r6 ι e he, List.reverse_cons, nestSum_append]
      apply nestSum_congr
      intro ι
      simp only [nestSum]
      have hin : Ten.InB (e.take s.eventShape.length) s.eventShape := by
        rw [r4] at he
        have := inB_take he
        rwa [List.take_take, min_eq_left (by simp)] at this
      rw [← sample_take, s6 ι _ hin, Finset.mul_sum]
      apply Finset.sum_congr rfl
      intro j _
      have hlen : t.eventShape.length ≤ s.eventShape.length := by rw [s4]; simp
      rw [← sample_take t, List.take_take, min_eq_left hlen, sample_take, List.map_cons, List.prod_cons]
      have hn := hr.nodup
      simp only [List.map_cons, List.nodup_cons] at hn
      rw [prod_weightAt_update dt j ι]
      · ring
      · intro q hq
        refine ⟨fun e => hn.1 (e ▸ List.mem_map_of_mem hq), ?_⟩
        intro w names hw hm
        obtain ⟨x, hx, hxe⟩ := List.mem_map.1 hm
        obtain ⟨l1, l2, rfl⟩ := List.append_of_mem hq
        have := hr.par (p :: l1) q l2 rfl w names hw x hx
        obtain ⟨y, hy, hye⟩ := Plate.isIn_iff.1 this
        have h1 := (List.mem_filter.1 hy).2
        have h2 : y.name = p.name := (Plate.pyEq_name hye).trans hxe
        simp [h2] at h1

end Storch
