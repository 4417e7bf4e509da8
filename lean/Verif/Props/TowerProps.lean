import Verif.Props.ReduceProps

/-!
# C94: averaging plates in stages

`storch.reduce_plates(..., plates)` (storch.py:107-128) is called several times, each time for some of the plates that are
left.
-/

namespace Storch
variable {α : Type _} [ValEq α]

/-! ### Specification -/

/-- `reduce_plates` called once for each request, each time on the result of the call before.
No Python counterpart: a user program that calls storch.py:107-128 repeatedly. -/
def inStages [Semiring α] (hook : UnwrapHook α) (dt : α → α) : List (List (PArg α)) → STen α → Except Err (STen α)
  | [], t => .ok t
  | args :: rest, t =>
    match reducePlates hook dt (.st t false) args with
    | .error e => .error e
    | .ok r => inStages hook dt rest r

/-- The request asks for these plates, by name or as plates. -/
def Asks (args : List (PArg α)) (ps : List (Plate α)) : Prop :=
  args ≠ [] ∧ List.Forall₂ (fun a p => a = .plate p ∨ a = .name p.name) args ps

/-- No weight is needed after a plate that it depends on was averaged: a plate whose weights are a storch tensor is
averaged before its parents or together with them. -/
def WeightsLast : List (List (Plate α)) → Prop
  | [] => True
  | ps :: rest => (∀ p ∈ rest.flatten, ∀ w names, p.weight = .storch w names → ∀ q ∈ p.parents, q.name ∉ ps.map Plate.name) ∧
      WeightsLast rest

/-! ### Lemmas -/

omit [ValEq α] in
theorem weightedTotal_nest [CommSemiring α] (dt : α → α) (l : List (Plate α)) (v : (String → Nat) → α) (ι : String → Nat) :
    weightedTotal dt l v ι = nestSum l (fun ι => (l.map (fun p => p.weightAt dt ι)).prod * v ι) ι := by
  rw [nestSum_eq, weightedTotal]

omit [ValEq α] in
theorem nestSum_scale [CommSemiring α] (c : α) (ps : List (Plate α)) (F : (String → Nat) → α) (ι : String → Nat) :
    nestSum ps (fun ι => c * F ι) ι = c * nestSum ps F ι := by
  induction ps generalizing ι with
  | nil => rfl
  | cons p ps ih =>
    simp only [nestSum]
    rw [Finset.mul_sum]
    exact Finset.sum_congr rfl (fun k _ => ih _)

omit [ValEq α] in
/-- Averaging twice, when the weights of the outer plates do not read the inner ones. -/
theorem weightedTotal_stack [CommSemiring α] (dt : α → α) {ps qs : List (Plate α)}
    (hc : ∀ p ∈ ps, ∀ ι ι' : String → Nat, (∀ s, s ∉ qs.map Plate.name → ι s = ι' s) →
      p.weightAt dt ι = p.weightAt dt ι')
    (v : (String → Nat) → α) (ι : String → Nat) :
    weightedTotal dt ps (weightedTotal dt qs v) ι = weightedTotal dt (ps ++ qs) v ι := by
  rw [weightedTotal_nest, weightedTotal_nest dt (ps ++ qs), nestSum_append]
  apply nestSum_congr
  intro ι₀
  rw [weightedTotal_nest, ← nestSum_scale]
  refine nestSum_congr_on (fun ι => ∀ s, s ∉ qs.map Plate.name → ι₀ s = ι s) qs ?_ ?_ ι₀ (fun _ _ => rfl)
  · intro q hq k _ ι h s hs
    have hne : s ≠ q.name := by
      rintro rfl
      exact hs (List.mem_map_of_mem hq)
    rw [Function.update_of_ne hne]
    exact h s hs
  · intro ι' h
    rw [List.map_append, List.prod_append, mul_assoc]
    congr 2
    apply List.map_congr_left
    intro p hp
    exact hc p hp _ _ h

omit [ValEq α] in
theorem weightAt_congr (dt : α → α) (p : Plate α) {ι ι' : String → Nat} (h0 : ι p.name = ι' p.name)
    (h : ∀ w names, p.weight = .storch w names → ∀ q ∈ p.parents, ι q.name = ι' q.name) :
    p.weightAt dt ι = p.weightAt dt ι' := by
  rw [Plate.weightAt, Plate.weightAt]
  cases hw : p.weight with
  | torch w => simp only [h0]
  | storch w names =>
    simp only
    congr 2
    apply List.map_congr_left
    intro q hq
    have hq := (List.mem_filter.1 hq).1
    rw [Plate.weightPlates, List.mem_filterMap] at hq
    obtain ⟨s, _, hs⟩ := hq
    rcases List.mem_cons.1 (List.mem_of_find?_eq_some hs) with rfl | hm
    · exact h0
    · exact h w names hw q hm

/-- The state after some stages: `d` are the plates that were averaged. -/
structure Staged [CommSemiring α] (dt : α → α) (t u : STen α) (d : List (Plate α)) (k : Nat) : Prop where
  proper : Proper u
  plates : ∀ p, p ∈ u.plates ↔ p ∈ t.plates ∧ p ∉ d
  event : u.eventShape = t.eventShape ++ List.replicate k 1
  value : ∀ ι e, Ten.InB e t.eventShape →
    u.sample ι (e ++ List.replicate k 0) = weightedTotal dt d (fun ι => t.sample ι e) ι

theorem stages_spec [CommSemiring α] {hook : UnwrapHook α} (hh : PlainHook hook) (dt : α → α) {t : STen α}
    (h : Reduceable t) : ∀ (argss : List (List (PArg α))) (pss : List (List (Plate α))) (u : STen α) (d : List (Plate α))
      (k : Nat), List.Forall₂ Asks argss pss → (∀ ps ∈ pss, ParentsAllOrNone ps) → WeightsLast (d :: pss) →
      ((d ++ pss.flatten).map Plate.name).Nodup → (∀ p ∈ d ++ pss.flatten, p ∈ t.plates) → Staged dt t u d k →
      ∃ r k' d', inStages hook dt argss u = .ok r ∧ Staged dt t r d' k' ∧ d'.Perm (d ++ pss.flatten) ∧
        ((∀ p ∈ pss.flatten, ∃ w, p.weight = .torch w) → k' = k) := by
  intro argss pss u d k hask
  induction hask generalizing u d k with
  | nil =>
    intro _ _ _ _ hu
    exact ⟨u, k, d, rfl, hu, by simp, fun _ => rfl⟩
  | @cons args ps argss pss ha _ ih =>
    intro hg hl hn hm hu
    simp only [List.flatten_cons] at hn hm hl ⊢
    have hmem : ∀ p ∈ ps, p ∈ t.plates := fun p hp => hm p (by simp [hp])
    have hnd : ∀ p ∈ ps, p.name ∉ d.map Plate.name := by
      intro p hp hd
      rw [List.map_append, List.nodup_append'] at hn
      exact hn.2.2 hd (List.mem_map_of_mem (List.mem_append_left _ hp))
    have hin : ∀ p ∈ ps, p ∈ u.plates := fun p hp =>
      (hu.plates p).2 ⟨hmem p hp, fun hd => hnd p hp (List.mem_map_of_mem hd)⟩
    have hreq : Requests u args ps := by
      refine Or.inr ⟨ha.1, ?_⟩
      have : ∀ (l : List (PArg α)) (qs : List (Plate α)), (∀ p ∈ qs, p ∈ u.plates) →
          List.Forall₂ (fun a p => a = PArg.plate p ∨ a = PArg.name p.name) l qs →
          List.Forall₂ (fun a p => p ∈ u.plates ∧ (a = PArg.plate p ∨ a = PArg.name p.name)) l qs := by
        intro l qs hq hf
        induction hf with
        | nil => exact .nil
        | cons x _ ih => exact .cons ⟨hq _ (by simp), x⟩ (ih (fun p hp => hq p (List.mem_cons_of_mem _ hp)))
      exact this _ _ hin ha.2
    have hps : (ps.map Plate.name).Nodup := by
      rw [List.map_append, List.map_append] at hn
      exact (List.nodup_append'.1 (List.nodup_append'.1 hn).2.1).1
    have hac : AcyclicPlates ps := by
      intro x hx
      refine h.acyclic x (Relation.TransGen.mono ?_ x x hx)
      rintro a b ⟨p, hp, he⟩
      exact ⟨p, hmem p hp, he⟩
    have hpar : ∀ p ∈ ps, ∀ w names, p.weight = .storch w names → ∀ q ∈ p.parents, q.isIn u.plates = true := by
      intro p hp w names hw q hq
      obtain ⟨x, hx, hxe⟩ := h.closed p (hmem p hp) q hq
      refine Plate.isIn_iff.2 ⟨x, (hu.plates x).2 ⟨hx, fun hd => ?_⟩, hxe⟩
      refine hl.1 p (by simp [hp]) w names hw q hq ?_
      rw [← Plate.pyEq_name hxe]
      exact List.mem_map_of_mem hd
    obtain ⟨l, r, _, hlp, r1, r2, r3, ⟨j, r4⟩, r5, r6⟩ := reducePlates_spec hh dt hu.proper hreq hps
      (fun p hp => h.weights p (hmem p hp)) hpar (hg ps (by simp)) hac false
    have hst : Staged dt t r (ps ++ d) (k + j) := by
      refine ⟨r2, ?_, ?_, ?_⟩
      · intro p
        rw [r3, dropPlates, List.mem_filter, hu.plates p, List.mem_append, not_or]
        simp only [Bool.not_eq_true', decide_eq_false_iff_not]
        constructor
        · rintro ⟨⟨h1, h2⟩, h3⟩
          exact ⟨h1, fun hp => h3 (List.mem_map_of_mem hp), h2⟩
        · rintro ⟨h1, h2, h3⟩
          refine ⟨⟨h1, h3⟩, fun hp => h2 ?_⟩
          obtain ⟨q, hq, he⟩ := List.mem_map.1 hp
          rwa [← pyEq_of_same_list h.proper.wf.names (hmem q hq) h1 he]
      · rw [r4, hu.event, List.append_assoc, List.replicate_append_replicate]
      · intro ι e he
        have hin := inB_pad he (k + j)
        have hsh : r.eventShape = t.eventShape ++ List.replicate (k + j) 1 := by
          rw [r4, hu.event, List.append_assoc, List.replicate_append_replicate]
        rw [← hsh] at hin
        rw [r6 ι _ (by rw [← InB.length_eq hin, List.take_length]; exact hin)]
        rw [← weightedTotal_stack dt]
        · rw [← weightedTotal_eq dt hlp hps]
          apply nestSum_congr
          intro ι
          rw [← hu.value ι e he, ← List.replicate_append_replicate, ← List.append_assoc]
          rw [sample_append]
          rw [hu.event]
          simp [InB.length_eq he]
        · intro p hp ι ι' hι
          refine weightAt_congr dt p (hι _ (hnd p hp)) (fun w names hw q hq => hι _ ?_)
          exact hl.1 p (by simp [hp]) w names hw q hq
    have hperm : (ps ++ d ++ pss.flatten).Perm (d ++ (ps ++ pss.flatten)) := by
      rw [← List.append_assoc]
      exact List.Perm.append_right _ List.perm_append_comm
    obtain ⟨r', k', d', q1, q2, q3, q4⟩ := ih r (ps ++ d) (k + j) (fun qs hqs => hg qs (List.mem_cons_of_mem _ hqs)) (by
        refine ⟨?_, hl.2.2⟩
        intro p hp w names hw q hq hqm
        rw [List.map_append, List.mem_append] at hqm
        rcases hqm with hqm | hqm
        · exact hl.2.1 p hp w names hw q hq hqm
        · exact hl.1 p (List.mem_append_right _ hp) w names hw q hq hqm)
      ((hperm.map _).nodup_iff.2 hn) (fun p hp => hm p (hperm.mem_iff.1 hp)) hst
    refine ⟨r', k', d', ?_, q2, q3.trans hperm, ?_⟩
    · rw [inStages, r1]
      exact q1
    · intro hw
      have hj : j = 0 := by
        have := congrArg List.length (r4.symm.trans (r5 (fun p hp => hw p (List.mem_append_left _ hp))))
        simpa using this
      rw [q4 (fun p hp => hw p (List.mem_append_right _ hp)), hj, Nat.add_zero]

omit [ValEq α] in
theorem weightedTotal_permute [CommSemiring α] (dt : α → α) {ps l : List (Plate α)} (hl : l.Perm ps)
    (hn : (ps.map Plate.name).Nodup) (val : (String → Nat) → α) (ι : String → Nat) :
    weightedTotal dt l val ι = weightedTotal dt ps val ι := by
  rw [← weightedTotal_eq dt hl hn, weightedTotal_eq dt (List.Perm.refl l) ((hl.map _).nodup_iff.2 hn)]

omit [ValEq α] in
theorem weightedTotal_nil [CommSemiring α] (dt : α → α) (val : (String → Nat) → α) (ι : String → Nat) :
    weightedTotal dt [] val ι = val ι := by
  rw [weightedTotal_nest]
  simp [nestSum]

/-! ### Theorems -/

/-- C94: averaging the plates in any number of stages gives the values of averaging all of them at once, and leaves no plate.
Missing: stages that contain a plate and some but not all of its ancestors, and weights that depend on a plate of an
earlier stage; the code leaves plates behind in the first case and raises in the second (`C94_refuted`). -/
theorem C94_stages_partial [CommSemiring α] {hook : UnwrapHook α} (hh : PlainHook hook) (dt : α → α) {t : STen α}
    (h : Reduceable t) {argss : List (List (PArg α))} {pss : List (List (Plate α))} (hask : List.Forall₂ Asks argss pss)
    (hall : pss.flatten.Perm t.plates) (hg : ∀ ps ∈ pss, ParentsAllOrNone ps) (hw : WeightsLast pss) (s : Bool) :
    ∃ r k r' k', inStages hook dt argss t = .ok r ∧ reducePlates hook dt (.st t s) [] = .ok r' ∧
      r.plates = [] ∧ r'.plates = [] ∧
      r.ten.shape = t.eventShape ++ List.replicate k 1 ∧ r'.ten.shape = t.eventShape ++ List.replicate k' 1 ∧
      ((∀ p ∈ t.plates, ∃ w, p.weight = .torch w) → k = 0 ∧ k' = 0) ∧
      ∀ e, Ten.InB e t.eventShape → r.ten.get (e ++ List.replicate k 0) = r'.ten.get (e ++ List.replicate k' 0) := by
  obtain ⟨r', k', p1, p2, p3, p4, p5⟩ := C12_weighted_sum_partial hh dt h s (fun _ => 0)
  have h0 : Staged dt t t [] 0 := by
    refine ⟨h.proper, by simp, by simp, ?_⟩
    intro ι e _
    rw [weightedTotal_nil]
    simp
  obtain ⟨r, k, d, q1, q2, q3, q4⟩ := stages_spec hh dt h argss pss t [] 0 hask hg ⟨by simp, hw⟩
    ((hall.map _).nodup_iff.2 h.proper.wf.names) (fun p hp => hall.mem_iff.1 hp) h0
  have hd : d.Perm t.plates := q3.trans hall
  have hpl : r.plates = [] := by
    apply List.eq_nil_iff_forall_not_mem.2
    intro p hp
    obtain ⟨h1, h2⟩ := (q2.plates p).1 hp
    exact h2 (hd.mem_iff.2 h1)
  have hsh : r.ten.shape = r.eventShape := by
    rw [q2.proper.wf.shape, STen.multiDimPlates, hpl]
    rfl
  refine ⟨r, k, r', k', q1, p1, hpl, p2, by rw [hsh, q2.event], p3,
    fun ht => ⟨q4 (fun p hp => ht p (hall.mem_iff.1 hp)), p4 ht⟩, ?_⟩
  intro e he
  rw [p5 e he, ← weightedTotal_permute dt hd h.proper.wf.names, ← q2.value (fun _ => 0) e he]
  rw [sample_noPlates hpl]
  rw [q2.event]
  exact inB_pad he k

/-- C94: when no weights are storch tensors, the plates can be averaged one at a time in any order. -/
theorem C94_one_by_one [CommSemiring α] {hook : UnwrapHook α} (hh : PlainHook hook) (dt : α → α) {t : STen α}
    (h : Reduceable t) (hw : ∀ p ∈ t.plates, ∃ w, p.weight = .torch w)
    (hanc : ∀ p ∈ t.plates, ∀ q, IsAncestor q p → q.name ≠ p.name) {order : List (Plate α)} (ho : order.Perm t.plates)
    (s : Bool) :
    ∃ r r', inStages hook dt (order.map (fun p => [.name p.name])) t = .ok r ∧ reducePlates hook dt (.st t s) [] = .ok r' ∧
      r.plates = [] ∧ r'.plates = [] ∧ r.ten.shape = t.eventShape ∧ r'.ten.shape = t.eventShape ∧
      ∀ e, Ten.InB e t.eventShape → r.ten.get e = r'.ten.get e := by
  have hf : (order.map (fun p => [p])).flatten = order := by
    have : ∀ l : List (Plate α), (l.map (fun p => [p])).flatten = l := by
      intro l
      induction l with
      | nil => rfl
      | cons p l ih => rw [List.map_cons, List.flatten_cons, ih, List.singleton_append]
    exact this order
  obtain ⟨r, k, r', k', q1, q2, q3, q4, q5, q6, q7, q8⟩ := C94_stages_partial hh dt h
    (argss := order.map (fun p => [.name p.name])) (pss := order.map (fun p => [p])) (by
      have : ∀ l : List (Plate α), List.Forall₂ Asks (l.map (fun p => [PArg.name p.name])) (l.map (fun p => [p])) := by
        intro l
        induction l with
        | nil => exact .nil
        | cons p l ih => exact .cons ⟨by simp, .cons (Or.inr rfl) .nil⟩ ih
      exact this order) (by rw [hf]; exact ho) (by
      intro ps hps
      obtain ⟨p, hp, rfl⟩ := List.mem_map.1 hps
      intro x hx
      rw [List.mem_singleton] at hx
      subst hx
      have hp := ho.mem_iff.1 hp
      refine Or.inr ⟨fun q hq y hy => ?_, fun q hq y hy => ?_⟩ <;> rw [List.mem_singleton] at hy <;> subst hy
      · cases hc : y.pyEq q with
        | false => rfl
        | true => exact absurd (Plate.pyEq_name hc).symm (hanc y hp q hq)
      · exact (hanc y hp q (.parent hq)).symm) (by
      have : ∀ l : List (Plate α), (∀ p ∈ l, p ∈ t.plates) → WeightsLast (l.map (fun p => [p])) := by
        intro l
        induction l with
        | nil => intro _; trivial
        | cons p l ih =>
          intro hl
          refine ⟨?_, ih (fun q hq => hl q (List.mem_cons_of_mem _ hq))⟩
          intro q hq w names hqw
          obtain ⟨v, hv⟩ := hw q (hl q (List.mem_cons_of_mem _ (by
            obtain ⟨l', hl', hq'⟩ := List.mem_flatten.1 hq
            obtain ⟨y, hy, rfl⟩ := List.mem_map.1 hl'
            rw [List.mem_singleton] at hq'
            exact hq' ▸ hy)))
          rw [hv] at hqw
          cases hqw
      exact this order (fun p hp => ho.mem_iff.1 hp)) s
  obtain ⟨rfl, rfl⟩ := q7 hw
  refine ⟨r, r', q1, q2, q3, q4, by simpa using q5, by simpa using q6, ?_⟩
  intro e he
  simpa using q8 e he

/-! ### Cases -/

namespace TowerCase

def hk : UnwrapHook Int := fun _ t => .ok t

/-- Two samples without parents. -/
def pa : Plate Int := .mk "a" 2 (.torch ⟨[2], fun | [0] => 3 | _ => -2⟩) .plain []
/-- Three samples for each sample of `a`, with weights that depend on both. -/
def pb : Plate Int := .mk "b" 3 (.storch ⟨[3, 2], fun | [i, j] => 2 * i + j + 1 | _ => 0⟩ ["b", "a"]) .plain [pa]
/-- Two more for each of them. -/
def pc : Plate Int := .mk "c" 2 (.torch (.scalar 1)) .plain [pa, pb]

def t : STen Int := ⟨⟨[2, 3, 2], fun | [i, j, k] => 100 * i + 10 * j + k | _ => 0⟩, [pc, pb, pa], 3⟩

theorem t_ok : Reduceable t := by
  refine ⟨⟨⟨by decide, by decide, rfl, rfl⟩, ?_⟩, ?_, ?_, ?_⟩
  · intro p hp; simp [t] at hp; rcases hp with rfl | rfl | rfl <;> rfl
  · intro p hp
    simp [t] at hp
    rcases hp with rfl | rfl | rfl
    · exact .scalar _ rfl rfl
    · exact .storch _ _ rfl (by decide) (by decide) (by decide) (by decide) rfl
    · exact .vector _ rfl rfl (by decide)
  · intro p hp q hq
    simp [t] at hp
    rcases hp with rfl | rfl | rfl
    · simp [pc, Plate.parents] at hq
      rcases hq with rfl | rfl
      · exact ⟨pa, by simp [t], Plate.pyEq_refl _⟩
      · exact ⟨pb, by simp [t], Plate.pyEq_refl _⟩
    · simp [pb, Plate.parents] at hq; subst hq
      exact ⟨pa, by simp [t], Plate.pyEq_refl _⟩
    · simp [pa, Plate.parents] at hq
  · apply acyclic_of_rank (fun k => if k = "a" then 0 else if k = "b" then 1 else 2)
    rintro a b ⟨p, hp, rfl, q, hq, rfl⟩
    simp [t] at hp
    rcases hp with rfl | rfl | rfl
    · simp [pc, Plate.parents] at hq
      rcases hq with rfl | rfl <;> decide
    · simp [pb, Plate.parents] at hq; subst hq; decide
    · simp [pa, Plate.parents] at hq

theorem no_ancestors_a : ∀ q, ¬ IsAncestor q pa := by
  intro q h
  cases h with
  | parent h => simp [pa, Plate.parents] at h
  | step _ h => simp [pa, Plate.parents] at h

theorem ancestors_b : ∀ q, IsAncestor q pb → q = pa := by
  intro q h
  cases h with
  | parent h => simpa [pb, Plate.parents] using h
  | step h1 h =>
    simp [pb, Plate.parents] at h
    subst h
    exact absurd h1 (no_ancestors_a _)

theorem ancestors_c : ∀ q, IsAncestor q pc → q = pa ∨ q = pb := by
  intro q h
  cases h with
  | parent h => simpa [pc, Plate.parents] using h
  | step h1 h =>
    simp [pc, Plate.parents] at h
    rcases h with rfl | rfl
    · exact absurd h1 (no_ancestors_a _)
    · exact Or.inl (ancestors_b _ h1)

/-- Does the call succeed with a result that passes the test? -/
def passes (x : Except Err (STen Int)) (f : STen Int → Bool) : Bool :=
  match x with
  | .ok r => f r
  | .error _ => false

theorem passes_iff {x : Except Err (STen Int)} {f : STen Int → Bool} : passes x f = true ↔ ∃ r, x = .ok r ∧ f r = true := by
  cases x <;> simp [passes]

/-- A case for `C94_stages_partial`: the innermost plate first, then the two others together. -/
example : ∃ r k r' k', inStages hk id [[.name "c"], [.plate pb, .name "a"]] t = .ok r ∧
    reducePlates hk id (.st t false) [] = .ok r' ∧ r.plates = [] ∧ r'.plates = [] ∧
    r.ten.shape = [] ++ List.replicate k 1 ∧ r'.ten.shape = [] ++ List.replicate k' 1 ∧
    ((∀ p ∈ t.plates, ∃ w, p.weight = .torch w) → k = 0 ∧ k' = 0) ∧
    ∀ e, Ten.InB e [] → r.ten.get (e ++ List.replicate k 0) = r'.ten.get (e ++ List.replicate k' 0) := by
  refine C94_stages_partial (fun _ _ _ => rfl) id t_ok (pss := [[pc], [pb, pa]]) ?_ (by simp [t]) ?_ ?_ false
  · exact .cons ⟨by simp, .cons (Or.inr rfl) .nil⟩ (.cons ⟨by simp, .cons (Or.inl rfl) (.cons (Or.inr rfl) .nil)⟩ .nil)
  · intro ps hps
    simp only [List.mem_cons, List.not_mem_nil, or_false] at hps
    rcases hps with rfl | rfl
    · intro p hp
      rw [List.mem_singleton] at hp
      subst hp
      refine Or.inr ⟨?_, ?_⟩
      · intro q hq x hx
        rw [List.mem_singleton] at hx
        subst hx
        rcases ancestors_c q hq with rfl | rfl <;> decide
      · intro q hq x hx
        rw [List.mem_singleton] at hx
        subst hx
        rcases ancestors_c q (.parent hq) with rfl | rfl <;> decide
    · intro p hp
      refine Or.inl ?_
      simp only [List.mem_cons, List.not_mem_nil, or_false] at hp
      rcases hp with rfl | rfl
      · intro q hq
        simp [pb, Plate.parents] at hq
        subst hq
        exact ⟨pa, by simp, Plate.pyEq_refl _⟩
      · intro q hq
        simp [pa, Plate.parents] at hq
  · refine ⟨?_, by simp, trivial⟩
    intro p hp w names hw q hq
    simp at hp
    rcases hp with rfl | rfl
    · simp [pb, Plate.parents] at hq
      subst hq
      decide
    · simp [pa, Plate.parents] at hq

/-- The values of this case. -/
example : passes (inStages hk id [[.name "c"], [.plate pb, .name "a"]] t) (fun r =>
    decide (r.plates.map Plate.name = [] ∧ r.ten.get (List.replicate r.ten.shape.length 0) = 392)) = true ∧
    passes (reducePlates hk id (.st t false) []) (fun r =>
    decide (r.plates.map Plate.name = [] ∧ r.ten.get (List.replicate r.ten.shape.length 0) = 392)) = true := by
  constructor <;> decide +kernel

/-- C94 fails: of three nested plates, averaging the middle one first and then all that are left leaves the innermost one;
averaging the outermost first, on which the weights of the middle one depend, makes the rest raise. -/
theorem C94_refuted : ∃ t : STen Int, Reduceable t ∧
    (∃ r, reducePlates hk id (.st t false) [] = .ok r ∧ r.plates = []) ∧
    (∃ r, inStages hk id [[.name "b"], []] t = .ok r ∧ r.plates.map Plate.name = ["c"]) ∧
    inStages hk id [[.name "c"], [.name "a"], []] t = .error .value := by
  refine ⟨t, t_ok, ?_, ?_, ?_⟩
  · obtain ⟨r, _, h1, h2, _⟩ := C12_weighted_sum_partial (hook := hk) (fun _ _ _ => rfl) id t_ok false (fun _ => 0)
    exact ⟨r, h1, h2⟩
  · obtain ⟨r, h1, h2⟩ := passes_iff.1 (show passes (inStages hk id [[.name "b"], []] t)
      (fun r => decide (r.plates.map Plate.name = ["c"])) = true by decide +kernel)
    exact ⟨r, h1, of_decide_eq_true h2⟩
  · have : (match inStages hk id [[.name "c"], [.name "a"], []] t with | .error .value => true | _ => false) = true := by
      decide +kernel
    revert this
    cases inStages hk id [[.name "c"], [.name "a"], []] t with
    | ok r => simp
    | error e => cases e <;> simp

/-- Two plates with numbers as weights. -/
def na : Plate Int := .mk "a" 2 (.torch (.scalar 3)) .plain []
def nb : Plate Int := .mk "b" 3 (.torch (.scalar 5)) .plain [na]
def tn : STen Int := ⟨⟨[3, 2, 2], fun | [i, j, k] => 100 * i + 10 * j + k | _ => 0⟩, [nb, na], 2⟩

/-- A case for `C94_one_by_one`: the outer plate first. -/
example : ∃ r r', inStages hk id [[.name "a"], [.name "b"]] tn = .ok r ∧ reducePlates hk id (.st tn false) [] = .ok r' ∧
    r.plates = [] ∧ r'.plates = [] ∧ r.ten.shape = [2] ∧ r'.ten.shape = [2] ∧
    ∀ e, Ten.InB e [2] → r.ten.get e = r'.ten.get e := by
  refine C94_one_by_one (order := [na, nb]) (fun _ _ _ => rfl) id ⟨⟨⟨by decide, by decide, rfl, rfl⟩, ?_⟩, ?_, ?_, ?_⟩
    ?_ ?_ (List.Perm.swap _ _ _) false
  · intro p hp; simp [tn] at hp; rcases hp with rfl | rfl <;> rfl
  · intro p hp
    simp [tn] at hp
    rcases hp with rfl | rfl <;> exact .scalar _ rfl rfl
  · intro p hp q hq
    simp [tn] at hp
    rcases hp with rfl | rfl
    · simp [nb, Plate.parents] at hq; subst hq
      exact ⟨na, by simp [tn], Plate.pyEq_refl _⟩
    · simp [na, Plate.parents] at hq
  · apply acyclic_of_rank (fun k => if k = "a" then 0 else 1)
    rintro a b ⟨p, hp, rfl, q, hq, rfl⟩
    simp [tn] at hp
    rcases hp with rfl | rfl
    · simp [nb, Plate.parents] at hq; subst hq; decide
    · simp [na, Plate.parents] at hq
  · intro p hp; simp [tn] at hp; rcases hp with rfl | rfl <;> exact ⟨_, rfl⟩
  · have ha : ∀ q, ¬ IsAncestor q na := by
      intro q h
      cases h with
      | parent h => simp [na, Plate.parents] at h
      | step _ h => simp [na, Plate.parents] at h
    intro p hp q hq
    simp [tn] at hp
    rcases hp with rfl | rfl
    · cases hq with
      | parent h => simp [nb, Plate.parents] at h; subst h; decide
      | step h1 h =>
        simp [nb, Plate.parents] at h
        subst h
        exact absurd h1 (ha _)
    · exact absurd hq (ha _)

end TowerCase

end Storch
