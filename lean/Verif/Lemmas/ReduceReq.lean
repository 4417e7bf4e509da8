import Verif.Lemmas.ReduceAll

/-! `reduce_plates` on requested plates, and lemmas for the properties. -/

namespace Storch
variable {α : Type _} [ValEq α]

/-- The caller's `plates` argument asks for exactly these plates of the tensor: plates and names may be
mixed, and nothing means every plate. -/
def Requests (t : STen α) (args : List (PArg α)) (ps : List (Plate α)) : Prop :=
  (args = [] ∧ ps = t.plates) ∨
  (args ≠ [] ∧ List.Forall₂ (fun a p => p ∈ t.plates ∧ (a = .plate p ∨ a = .name p.name)) args ps)

omit [ValEq α] in
theorem getPlate_of_mem {t : STen α} (hn : (t.plates.map Plate.name).Nodup) {p : Plate α}
    (hp : p ∈ t.plates) : t.getPlate p.name = .ok p := by
  rw [STen.getPlate]
  obtain ⟨q, hq, he, hf⟩ := find_name (List.mem_map_of_mem (f := Plate.name) hp)
  rw [hf, List.inj_on_of_nodup_map hn hq hp he]

omit [ValEq α] in
theorem resolvePlates_ok {t : STen α} (hn : (t.plates.map Plate.name).Nodup) {args : List (PArg α)}
    {ps : List (Plate α)}
    (h : List.Forall₂ (fun a p => p ∈ t.plates ∧ (a = .plate p ∨ a = .name p.name)) args ps) :
    resolvePlates t args = .ok ps := by
  induction h with
  | nil => rfl
  | cons h _ ih =>
    obtain ⟨hp, rfl | rfl⟩ := h
    · rw [resolvePlates, ih]
    · rw [resolvePlates, getPlate_of_mem hn hp, ih]

omit [ValEq α] in
theorem handleInputs_ok {t : STen α} (hn : (t.plates.map Plate.name).Nodup) {args : List (PArg α)}
    {ps : List (Plate α)} (h : Requests t args ps) (s : Bool) :
    handleInputs (.st t s) args = .ok (t, ps) := by
  rcases h with ⟨rfl, rfl⟩ | ⟨h0, h⟩
  · rfl
  · obtain _ | ⟨a, args⟩ := args
    · exact absurd rfl h0
    · simp only [handleInputs, resolvePlates_ok hn h]

omit [ValEq α] in
theorem Requests.mem {t : STen α} {args : List (PArg α)} {ps : List (Plate α)} (h : Requests t args ps) :
    ∀ p ∈ ps, p ∈ t.plates := by
  rcases h with ⟨_, rfl⟩ | ⟨_, h⟩
  · exact fun p hp => hp
  · intro p hp
    obtain ⟨a, _, ha⟩ := forall₂_mem_right h hp
    exact ha.1

/-- The order computed by `order_plates(…, reverse=True)` is one in which the plates can be reduced. -/
theorem order_reducible {t : STen α} (h : Proper t) {ps : List (Plate α)}
    (hnd : (ps.map Plate.name).Nodup) (hmem : ∀ p ∈ ps, p ∈ t.plates) (hok : ∀ p ∈ ps, WeightOK p)
    (hpar : ∀ p ∈ ps, ∀ w names, p.weight = .storch w names → ∀ q ∈ p.parents, q.isIn t.plates = true)
    {r : List (Plate α)} (hr : r.Perm ps) (hs : SortedIn ps r) : Reducible r.reverse t.plates := by
  have hpr : r.reverse.Perm ps := (List.reverse_perm r).trans hr
  have hndr : (r.map Plate.name).Nodup := (hr.map _).nodup_iff.2 hnd
  refine ⟨(hpr.map _).nodup_iff.2 hnd, fun p hp => hmem p (hpr.mem_iff.1 hp),
    fun p hp => hok p (hpr.mem_iff.1 hp), ?_⟩
  intro l1 p l2 he w names hw q hq
  have he' : r = l2.reverse ++ p :: l1.reverse := by
    have := congrArg List.reverse he
    simpa using this
  have hp : p ∈ ps := hr.mem_iff.1 (by rw [he']; simp)
  obtain ⟨x, hx, hxe⟩ := Plate.isIn_iff.1 (hpar p hp w names hw q hq)
  refine Plate.isIn_iff.2 ⟨x, List.mem_filter.2 ⟨hx, ?_⟩, hxe⟩
  simp only [Bool.not_eq_true', decide_eq_false_iff_not]
  intro hm
  obtain ⟨y, hy, hye⟩ := List.mem_map.1 hm
  have hy' : y ∈ ps := hpr.mem_iff.1 (by rw [he]; simp [hy])
  have hxy : y = x := pyEq_of_same_list h.wf.names (hmem y hy') hx hye
  subst hxy
  obtain ⟨z, hz, hze⟩ := hs _ _ _ he' q hq ⟨y, hy', hxe⟩
  have hzn : z.name = y.name := (Plate.pyEq_name hze).trans (Plate.pyEq_name hxe).symm
  rw [he', List.map_append, List.nodup_append] at hndr
  exact hndr.2.2 _ (List.mem_map_of_mem hz) _
    (List.mem_map_of_mem (List.mem_cons_of_mem _ (List.mem_reverse.2 hy))) hzn

/-- `reduce_plates` on the requested plates. -/
theorem reducePlates_spec [CommSemiring α] {hook : UnwrapHook α} (hh : PlainHook hook) (dt : α → α)
    {t : STen α} (h : Proper t) {args : List (PArg α)} {ps : List (Plate α)} (hreq : Requests t args ps)
    (hnd : (ps.map Plate.name).Nodup) (hok : ∀ p ∈ ps, WeightOK p)
    (hpar : ∀ p ∈ ps, ∀ w names, p.weight = .storch w names → ∀ q ∈ p.parents, q.isIn t.plates = true)
    (hg : ParentsAllOrNone ps) (ha : AcyclicPlates ps) (s : Bool) :
    ∃ l r, Reducible l t.plates ∧ l.Perm ps ∧ reducePlates hook dt (.st t s) args = .ok r ∧ Proper r ∧
      r.plates = dropPlates (ps.map Plate.name) t.plates ∧
      (∃ k, r.eventShape = t.eventShape ++ List.replicate k 1) ∧
      ((∀ p ∈ ps, ∃ w, p.weight = .torch w) → r.eventShape = t.eventShape) ∧
      ∀ ι e, Ten.InB (e.take r.eventShape.length) r.eventShape → r.sample ι e =
        nestSum l.reverse (fun ι => (l.map (fun p => p.weightAt dt ι)).prod * t.sample ι e) ι := by
  obtain ⟨o, h1, h2, h3⟩ := C11_complete_partial ps hnd hg ha
  have hl := order_reducible h hnd hreq.mem hok hpar h2 h3
  have hp : o.reverse.Perm ps := (List.reverse_perm o).trans h2
  obtain ⟨r, r1, r2, r3, r4, r5, r6⟩ := reduceLoop_spec hh dt o.reverse h hl
  refine ⟨o.reverse, r, hl, hp, ?_, r2, ?_, r4, fun hw => r5 (fun p hp' => hw p (hp.mem_iff.1 hp')), r6⟩
  · rw [reducePlates, handleInputs_ok h.wf.names hreq]
    simp only [C10_reverse, h1, Except.map]
    exact r1
  · rw [r3, dropPlates, dropPlates]
    apply List.filter_congr
    intro y _
    have : (y.name ∈ o.reverse.map Plate.name) ↔ (y.name ∈ ps.map Plate.name) := (hp.map Plate.name).mem_iff
    simp only [this]

/-! ### Sums restricted to valid positions -/

omit [ValEq α] in
/-- Nested sums only look at positions that satisfy an invariant kept by valid updates. -/
theorem nestSum_congr_on [AddCommMonoid α] (P : (String → Nat) → Prop) (ps : List (Plate α))
    (hP : ∀ p ∈ ps, ∀ k < p.n, ∀ ι, P ι → P (Function.update ι p.name k))
    {F G : (String → Nat) → α} (h : ∀ ι, P ι → F ι = G ι) (ι : String → Nat) (hι : P ι) :
    nestSum ps F ι = nestSum ps G ι := by
  induction ps generalizing ι with
  | nil => exact h ι hι
  | cons p ps ih =>
    simp only [nestSum]
    apply Finset.sum_congr rfl
    intro k hk
    exact ih (fun q hq => hP q (List.mem_cons_of_mem _ hq)) _
      (hP p (by simp) k (Finset.mem_range.1 hk) ι hι)

/-- A position is valid for a list of plates when it is inside each of them. -/
def Valid (ps : List (Plate α)) (ι : String → Nat) : Prop := ∀ p ∈ ps, ι p.name < p.n

omit [ValEq α] in
theorem Valid.update {T : List (Plate α)} (hn : (T.map Plate.name).Nodup) {p : Plate α} (hp : p ∈ T)
    {k : Nat} (hk : k < p.n) {ι : String → Nat} (h : Valid T ι) : Valid T (Function.update ι p.name k) := by
  intro q hq
  by_cases he : q.name = p.name
  · rw [List.inj_on_of_nodup_map hn hq hp he, Function.update_self]; exact hk
  · rw [Function.update_of_ne he]; exact h q hq

/-- Weights that sum to one average a constant to itself. -/
theorem nestSum_const [CommSemiring α] (dt : α → α) {T : List (Plate α)}
    (hn : (T.map Plate.name).Nodup) (c : α) (l : List (Plate α)) : ∀ (T' : List (Plate α)),
    (∀ q ∈ T', q ∈ T) → Reducible l T' →
    (∀ p ∈ l, ∀ ι, Valid T ι → ∑ k ∈ Finset.range p.n, p.weightAt dt (Function.update ι p.name k) = 1) →
    ∀ ι, Valid T ι → nestSum l.reverse (fun ι => (l.map (fun p => p.weightAt dt ι)).prod * c) ι = c := by
  induction l with
  | nil => intro T' _ _ _ ι _; simp [nestSum]
  | cons p l ih =>
    intro T' hT hr hw ι hι
    rw [List.reverse_cons, nestSum_append]
    rw [nestSum_congr_on (Valid T) l.reverse _ (G := fun ι => (l.map (fun p => p.weightAt dt ι)).prod * c)
      _ ι hι]
    · exact ih _ (fun q hq => hT q (List.mem_filter.1 hq).1) hr.step
        (fun q hq => hw q (List.mem_cons_of_mem _ hq)) ι hι
    · intro q hq k hk ι hι
      exact hι.update hn (hT q (hr.mem q (List.mem_cons_of_mem _ (List.mem_reverse.1 hq)))) hk
    · intro ι hι
      simp only [nestSum, List.map_cons, List.prod_cons]
      have hnd := hr.nodup
      simp only [List.map_cons, List.nodup_cons] at hnd
      rw [← one_mul ((l.map (fun p => p.weightAt dt ι)).prod * c), ← hw p (by simp) ι hι, Finset.sum_mul]
      apply Finset.sum_congr rfl
      intro j _
      rw [prod_weightAt_update dt j ι, mul_assoc]
      intro q hq
      refine ⟨fun e => hnd.1 (e ▸ List.mem_map_of_mem hq), ?_⟩
      intro w names hwq hm
      obtain ⟨x, hx, hxe⟩ := List.mem_map.1 hm
      obtain ⟨l1, l2, rfl⟩ := List.append_of_mem hq
      have := hr.par (p :: l1) q l2 rfl w names hwq x hx
      obtain ⟨y, hy, hye⟩ := Plate.isIn_iff.1 this
      have h1 := (List.mem_filter.1 hy).2
      have h2 : y.name = p.name := (Plate.pyEq_name hye).trans hxe
      simp [h2] at h1

end Storch
