import Verif.Lemmas.ReduceReq
import Mathlib.Algebra.BigOperators.Field
import Mathlib.Algebra.BigOperators.Fin
import Mathlib.Algebra.Order.BigOperators.Ring.Finset
import Mathlib.Algebra.Order.BigOperators.Ring.List

/-!
# C12–C14: `reduce_plates`

`dt` is the identity for `detach_weights=False` and the detaching function otherwise.
-/

namespace Storch
variable {α : Type _} [ValEq α]

/-! ### Specification -/

/-- The sum over all joint indices of the plates of the product of the plate weights times the value at
that index; `ι` gives the positions along all other plates. -/
def weightedTotal [Semiring α] (dt : α → α) (ps : List (Plate α)) (val : (String → Nat) → α)
    (ι : String → Nat) : α :=
  ((allIdx (ps.map Plate.n)).map (fun idx =>
    (ps.map (fun p => p.weightAt dt (assign ps idx ι))).prod * val (assign ps idx ι))).sum

/-- The tensor's plates are fit for a reduction: distinct ordinary plates that are nested without
cycles, with weights of a supported form. -/
structure Reduceable (t : STen α) : Prop where
  proper : Proper t
  weights : ∀ p ∈ t.plates, WeightOK p
  closed : ParentClosed t.plates
  acyclic : AcyclicPlates t.plates

/-! ### Lemmas -/

theorem Reduceable.allOrNone {t : STen α} (h : Reduceable t) : ParentsAllOrNone t.plates :=
  fun p hp => Or.inl (h.closed p hp)

theorem Reduceable.par {t : STen α} (h : Reduceable t) : ∀ p ∈ t.plates, ∀ w names,
    p.weight = .storch w names → ∀ q ∈ p.parents, q.isIn t.plates = true :=
  fun p hp _ _ _ q hq => Plate.isIn_iff.2 (h.closed p hp q hq)

omit [ValEq α] in
theorem weightedTotal_eq [CommSemiring α] (dt : α → α) {ps l : List (Plate α)} (hl : l.Perm ps)
    (hn : (ps.map Plate.name).Nodup) (val : (String → Nat) → α) (ι : String → Nat) :
    nestSum l.reverse (fun ι => (l.map (fun p => p.weightAt dt ι)).prod * val ι) ι =
      weightedTotal dt ps val ι := by
  rw [weightedTotal, ← nestSum_eq ps (fun ι => (ps.map (fun p => p.weightAt dt ι)).prod * val ι) ι,
    nestSum_perm ((List.reverse_perm l).trans hl)
      ((((List.reverse_perm l).trans hl).map _).nodup_iff.2 hn)]
  apply nestSum_congr
  intro ι
  rw [(hl.map (fun p => p.weightAt dt ι)).prod_eq]

theorem inB_replicate (k : Nat) : Ten.InB (List.replicate k 0) (List.replicate k 1) := by
  induction k with
  | zero => exact .nil
  | succ k ih => exact .cons (by decide) ih

theorem inB_pad {e s : List Nat} (h : Ten.InB e s) (k : Nat) :
    Ten.InB (e ++ List.replicate k 0) (s ++ List.replicate k 1) :=
  List.rel_append h (inB_replicate k)

omit [ValEq α] in
theorem sample_append {t : STen α} {e e' : List Nat} (h : e.length = t.eventShape.length)
    (ι : String → Nat) : t.sample ι (e ++ e') = t.sample ι e := by
  rw [← sample_take t ι (e ++ e'), ← h, List.take_left]

omit [ValEq α] in
theorem sample_noPlates {r : STen α} (h : r.plates = []) {e : List Nat} (he : Ten.InB e r.eventShape)
    (ι : String → Nat) : r.sample ι e = r.ten.get e := by
  rw [STen.sample, STen.multiDimPlates, h, bidx_of_inB he]; rfl

omit [ValEq α] in
theorem dropPlates_all (ps : List (Plate α)) : dropPlates (ps.map Plate.name) ps = [] := by
  rw [dropPlates, List.filter_eq_nil_iff]
  intro q hq
  simp only [Bool.not_eq_true', decide_eq_false_iff_not, not_not]
  exact List.mem_map_of_mem hq

/-! ### Theorems -/

/-- C12: reducing all plates of a tensor gives a tensor without plates whose value at an event index is
the sum over all joint plate indices of the product of the weights times the value, for single-number,
per-sample and parent-dependent weights.  Missing: plates with one sample and a storch weight, and the
event shape, which is only kept up to trailing dimensions of size one when there are storch weights;
both are false of the code (`C12_refuted`). -/
theorem C12_weighted_sum_partial [CommSemiring α] {hook : UnwrapHook α} (hh : PlainHook hook)
    (dt : α → α) {t : STen α} (h : Reduceable t) (s : Bool) (ι : String → Nat) :
    ∃ r k, reducePlates hook dt (.st t s) [] = .ok r ∧ r.plates = [] ∧
      r.ten.shape = t.eventShape ++ List.replicate k 1 ∧
      ((∀ p ∈ t.plates, ∃ w, p.weight = .torch w) → k = 0) ∧
      ∀ e, Ten.InB e t.eventShape →
        r.ten.get (e ++ List.replicate k 0) = weightedTotal dt t.plates (fun ι => t.sample ι e) ι := by
  obtain ⟨l, r, _, hl, r1, r2, r3, ⟨k, r4⟩, r5, r6⟩ := reducePlates_spec hh dt h.proper
    (Or.inl ⟨rfl, rfl⟩) h.proper.wf.names h.weights h.par h.allOrNone h.acyclic s
  rw [dropPlates_all] at r3
  refine ⟨r, k, r1, r3, ?_, ?_, ?_⟩
  · rw [← r4]
    have := r2.wf.shape
    simpa [STen.multiDimPlates, r3] using this
  · intro hw
    have := r5 hw
    rw [r4] at this
    simpa using congrArg List.length this
  · intro e he
    have hin := inB_pad he k
    rw [← r4] at hin
    rw [← sample_noPlates r3 hin ι, r6 ι _ (by rw [← InB.length_eq hin, List.take_length]; exact hin)]
    rw [← weightedTotal_eq dt hl h.proper.wf.names]
    apply nestSum_congr
    intro ι
    rw [sample_append (InB.length_eq he)]

/-- C12 for a torch tensor given together with its plates: it is wrapped and reduced like a storch
tensor. -/
theorem C12_torch_argument [CommSemiring α] (hook : UnwrapHook α) (dt : α → α) {x : Ten α}
    {ps : List (Plate α)} {t : STen α} (ht : STen.mk' x ps = .ok t) (hne : ps ≠ [])
    (hpos : ∀ p ∈ ps, 1 ≤ p.n) :
    reducePlates hook dt (.torch x) (ps.map .plate) = reducePlates hook dt (.st t false) [] ∧
      t.ten = x ∧ t.plates = ps := by
  rw [STen.mk'] at ht
  cases hc : STen.checkPlates x.shape ps [] 0 with
  | error e => rw [hc] at ht; cases ht
  | ok d =>
    rw [hc] at ht
    cases ht
    refine ⟨?_, rfl, rfl⟩
    have key : ∀ (ps : List (Plate α)) (hpos : ∀ p ∈ ps, 1 ≤ p.n) names i d,
        STen.checkPlates x.shape ps names i = .ok d → torchPlates x.shape (ps.map .plate) i = .ok ps := by
      intro ps
      induction ps with
      | nil => intro _ names i d _; rfl
      | cons p ps ih =>
        intro hpos names i d hc
        rw [STen.checkPlates] at hc
        rw [List.map_cons, torchPlates]
        have hp := hpos p (by simp)
        have ih' := ih (fun q hq => hpos q (List.mem_cons_of_mem _ hq))
        split at hc
        · cases hc
        · split at hc
          · rename_i h1
            rw [if_neg (by omega), ih' _ _ _ hc]
          · rename_i h1
            split at hc
            · cases hc
            · split at hc
              · cases hc
              · rename_i h2 h3
                have h3' : x.shape[i]? = some p.n := by simpa using h3
                rw [if_pos (by omega), h3']
                simp only [ne_eq, not_true_eq_false, if_false, ih' _ _ _ hc]
    have hk := key ps hpos [] 0 d hc
    obtain ⟨p, ps, rfl⟩ := List.exists_cons_of_ne_nil hne
    rw [reducePlates, reducePlates]
    rw [List.map_cons] at hk ⊢
    simp only [handleInputs, hk, STen.mk', hc]

/-- C13: the reduction of two tensors that hold the same samples, with their plates listed in different
orders, is the same. -/
theorem C13_order_independent [CommSemiring α] {hook : UnwrapHook α} (hh : PlainHook hook) (dt : α → α)
    {t t' : STen α} (h : Reduceable t) (h' : Reduceable t') (hp : t'.plates.Perm t.plates)
    (hev : t'.eventShape = t.eventShape)
    (hs : ∀ ι e, (∀ p ∈ t.plates, ι p.name < p.n) → Ten.InB e t.eventShape →
      t'.sample ι e = t.sample ι e) (s s' : Bool) :
    ∃ r k r' k', reducePlates hook dt (.st t s) [] = .ok r ∧
      reducePlates hook dt (.st t' s') [] = .ok r' ∧
      r.ten.shape = t.eventShape ++ List.replicate k 1 ∧
      r'.ten.shape = t.eventShape ++ List.replicate k' 1 ∧
      ∀ e, Ten.InB e t.eventShape →
        r'.ten.get (e ++ List.replicate k' 0) = r.ten.get (e ++ List.replicate k 0) := by
  obtain ⟨r, k, a1, _, a3, _, a4⟩ := C12_weighted_sum_partial hh dt h s (fun _ => 0)
  obtain ⟨r', k', b1, _, b3, _, b4⟩ := C12_weighted_sum_partial hh dt h' s' (fun _ => 0)
  refine ⟨r, k, r', k', a1, b1, a3, by rw [b3, hev], ?_⟩
  intro e he
  rw [a4 e he, b4 e (by rw [hev]; exact he)]
  have hn := h.proper.wf.names
  rw [← weightedTotal_eq dt hp.symm (h'.proper.wf.names),
    ← weightedTotal_eq dt (List.Perm.refl t.plates) hn]
  apply nestSum_congr_on (Valid t.plates)
  · intro p hp' k hk ι hι
    exact hι.update hn (List.mem_reverse.1 hp') hk
  · intro ι hι
    rw [hs ι e hι he]
  · exact fun p hp' => h.proper.wf.pos p hp'

/-- C13: when the weights of every plate sum to one, reducing a tensor that is constant over its plates
gives back the constant. -/
theorem C13_constant [CommSemiring α] {hook : UnwrapHook α} (hh : PlainHook hook) (dt : α → α)
    {t : STen α} (h : Reduceable t)
    (hw : ∀ p ∈ t.plates, ∀ ι, (∀ q ∈ t.plates, ι q.name < q.n) →
      ∑ k ∈ Finset.range p.n, p.weightAt dt (Function.update ι p.name k) = 1)
    (c : List Nat → α) (hcst : ∀ ι e, (∀ p ∈ t.plates, ι p.name < p.n) → Ten.InB e t.eventShape →
      t.sample ι e = c e) (s : Bool) :
    ∃ r k, reducePlates hook dt (.st t s) [] = .ok r ∧ r.plates = [] ∧
      r.ten.shape = t.eventShape ++ List.replicate k 1 ∧
      ∀ e, Ten.InB e t.eventShape → r.ten.get (e ++ List.replicate k 0) = c e := by
  obtain ⟨l, r, hr, hl, r1, r2, r3, ⟨k, r4⟩, r5, r6⟩ := reducePlates_spec hh dt h.proper
    (Or.inl ⟨rfl, rfl⟩) h.proper.wf.names h.weights h.par h.allOrNone h.acyclic s
  rw [dropPlates_all] at r3
  refine ⟨r, k, r1, r3, ?_, ?_⟩
  · rw [← r4]
    have := r2.wf.shape
    simpa [STen.multiDimPlates, r3] using this
  · intro e he
    have hin := inB_pad he k
    rw [← r4] at hin
    have hv : Valid t.plates (fun _ => 0) := fun p hp => h.proper.wf.pos p hp
    rw [← sample_noPlates r3 hin (fun _ => 0),
      r6 _ _ (by rw [← InB.length_eq hin, List.take_length]; exact hin)]
    rw [← nestSum_const dt h.proper.wf.names (c e) l t.plates (fun _ h => h) hr
      (fun p hp => hw p (hl.mem_iff.1 hp)) (fun _ => 0) hv]
    apply nestSum_congr_on (Valid t.plates)
    · intro p hp k hk ι hι
      exact hι.update h.proper.wf.names (hl.mem_iff.1 (List.mem_reverse.1 hp)) hk
    · intro ι hι
      rw [sample_append (InB.length_eq he), hcst ι e hι he]
    · exact hv

/-- C13: with the default weights `1/n`, `reduce_plates` is the mean over all joint samples. -/
theorem C13_mean [Field α] {hook : UnwrapHook α} (hh : PlainHook hook) (dt : α → α)
    {t : STen α} (h : Reduceable t)
    (hw : ∀ p ∈ t.plates, p.weight = .torch (Ten.scalar (1 / (p.n : α))) ∧ dt (1 / (p.n : α)) = 1 / (p.n : α))
    (s : Bool) (ι : String → Nat) :
    ∃ r, reducePlates hook dt (.st t s) [] = .ok r ∧ r.plates = [] ∧ r.ten.shape = t.eventShape ∧
      ∀ e, Ten.InB e t.eventShape → r.ten.get e =
        ((allIdx (t.plates.map Plate.n)).map (fun idx => t.sample (assign t.plates idx ι) e)).sum /
          (t.plates.map (fun p => (p.n : α))).prod := by
  obtain ⟨r, k, r1, r2, r3, r4, r5⟩ := C12_weighted_sum_partial hh dt h s ι
  have hk := r4 (fun p hp => ⟨_, (hw p hp).1⟩)
  subst hk
  refine ⟨r, r1, r2, by simpa using r3, ?_⟩
  intro e he
  have := r5 e he
  simp only [List.replicate_zero, List.append_nil] at this
  rw [this, weightedTotal]
  have hprod : ∀ ι', (t.plates.map (fun p => p.weightAt dt ι')).prod =
      ((t.plates.map (fun p => (p.n : α))).prod)⁻¹ := by
    intro ι'
    have : ∀ l : List (Plate α), (∀ p ∈ l, p ∈ t.plates) →
        (l.map (fun p => p.weightAt dt ι')).prod = ((l.map (fun p => (p.n : α))).prod)⁻¹ := by
      intro l
      induction l with
      | nil => intro _; simp
      | cons p l ih =>
        intro hl
        rw [List.map_cons, List.prod_cons, ih (fun q hq => hl q (List.mem_cons_of_mem _ hq)),
          List.map_cons, List.prod_cons, mul_inv]
        congr 1
        obtain ⟨h1, h2⟩ := hw p (hl p (by simp))
        rw [Plate.weightAt, h1]
        simpa [Ten.scalar] using h2
    exact this _ (fun _ h => h)
  simp only [hprod]
  rw [List.sum_map_mul_left, mul_comm, div_eq_mul_inv]

/-- C14: reducing some of the plates removes exactly those and keeps every other plate in place; the
value is the weighted sum over the requested plates only.  The request may mix plates and names.
Missing: requests that contain a plate, some but not all of its ancestors; there the code leaves
requested plates behind (`C14_refuted`). -/
theorem C14_exact_partial [CommSemiring α] {hook : UnwrapHook α} (hh : PlainHook hook) (dt : α → α)
    {t : STen α} (h : Reduceable t) {args : List (PArg α)} {ps : List (Plate α)}
    (hreq : Requests t args ps) (hnd : (ps.map Plate.name).Nodup) (hg : ParentsAllOrNone ps) (s : Bool) :
    ∃ r k, reducePlates hook dt (.st t s) args = .ok r ∧
      (∀ p, p ∈ r.plates ↔ p ∈ t.plates ∧ p ∉ ps) ∧ r.plates.Sublist t.plates ∧
      r.eventShape = t.eventShape ++ List.replicate k 1 ∧
      ∀ ι e, Ten.InB e t.eventShape → r.sample ι (e ++ List.replicate k 0) =
        weightedTotal dt ps (fun ι => t.sample ι e) ι := by
  have ha : AcyclicPlates ps := by
    intro k hk
    refine h.acyclic k (Relation.TransGen.mono ?_ k k hk)
    rintro a b ⟨p, hp, he⟩
    exact ⟨p, hreq.mem p hp, he⟩
  obtain ⟨l, r, hr, hl, r1, r2, r3, ⟨k, r4⟩, r5, r6⟩ := reducePlates_spec hh dt h.proper hreq hnd
    (fun p hp => h.weights p (hreq.mem p hp)) (fun p hp => h.par p (hreq.mem p hp)) hg ha s
  refine ⟨r, k, r1, ?_, by rw [r3]; exact List.filter_sublist, r4, ?_⟩
  · intro p
    rw [r3, dropPlates, List.mem_filter]
    refine and_congr_right (fun hp => ?_)
    simp only [Bool.not_eq_true', decide_eq_false_iff_not, not_iff_not]
    constructor
    · intro hm
      obtain ⟨q, hq, he⟩ := List.mem_map.1 hm
      rwa [← pyEq_of_same_list h.proper.wf.names (hreq.mem q hq) hp he]
    · exact fun hm => List.mem_map_of_mem hm
  · intro ι e he
    have hin := inB_pad he k
    rw [← r4] at hin
    rw [r6 ι _ (by rw [← InB.length_eq hin, List.take_length]; exact hin),
      ← weightedTotal_eq dt hl hnd]
    apply nestSum_congr
    intro ι
    rw [sample_append (InB.length_eq he)]

/-! ### Cases -/

section Examples
private def hk : UnwrapHook Int := fun _ t => .ok t

/-- two parents-free samples with different weights -/
private def pa : Plate Int := .mk "a" 2 (.torch ⟨[2], fun | [0] => 3 | _ => -2⟩) .plain []
/-- three samples for each sample of `a`, weights depending on both -/
private def pb : Plate Int :=
  .mk "b" 3 (.storch ⟨[3, 2], fun | [i, j] => 2 * i + j + 1 | _ => 0⟩ ["b", "a"]) .plain [pa]
/-- a single sample with weight one -/
private def pc : Plate Int := .mk "c" 1 (.torch (.scalar 1)) .plain [pa, pb]
private def tx : STen Int := ⟨⟨[3, 2, 2], fun | [i, j, k] => 100 * i + 10 * j + k | _ => 0⟩, [pc, pb, pa], 2⟩

private theorem tx_ok : Reduceable tx := by
  refine ⟨⟨⟨by decide, by decide, rfl, rfl⟩, ?_⟩, ?_, ?_, ?_⟩
  · intro p hp; simp [tx] at hp; rcases hp with rfl | rfl | rfl <;> rfl
  · intro p hp
    simp [tx] at hp
    rcases hp with rfl | rfl | rfl
    · exact .scalar _ rfl rfl
    · exact .storch _ _ rfl (by decide) (by decide) (by decide) (by decide) rfl
    · exact .vector _ rfl rfl (by decide)
  · intro p hp q hq
    simp [tx] at hp
    rcases hp with rfl | rfl | rfl
    · simp [pc, Plate.parents] at hq
      rcases hq with rfl | rfl
      · exact ⟨pa, by simp [tx], Plate.pyEq_refl _⟩
      · exact ⟨pb, by simp [tx], Plate.pyEq_refl _⟩
    · simp [pb, Plate.parents] at hq; subst hq
      exact ⟨pa, by simp [tx], Plate.pyEq_refl _⟩
    · simp [pa, Plate.parents] at hq
  · apply acyclic_of_rank (fun k => if k = "a" then 0 else if k = "b" then 1 else 2)
    rintro a b ⟨p, hp, rfl, q, hq, rfl⟩
    simp [tx] at hp
    rcases hp with rfl | rfl | rfl
    · simp [pc, Plate.parents] at hq
      rcases hq with rfl | rfl <;> decide
    · simp [pb, Plate.parents] at hq; subst hq; decide
    · simp [pa, Plate.parents] at hq

/-- Does the call succeed with a result that passes the test? -/
private def passes (x : Except Err (STen Int)) (f : STen Int → Bool) : Bool :=
  match x with
  | .ok r => f r
  | .error _ => false

private theorem passes_iff {x : Except Err (STen Int)} {f : STen Int → Bool} :
    passes x f = true ↔ ∃ r, x = .ok r ∧ f r = true := by
  cases x <;> simp [passes]

/-- A case for `C12_weighted_sum_partial`: nested plates of all three kinds of weights, listed in the
wrong order; the value is the weighted sum. -/
example : Reduceable tx ∧ passes (reducePlates hk id (.st tx false) []) (fun r =>
    decide (r.plates.map Plate.name = [] ∧ r.ten.shape = [2] ∧
      r.ten.get [1] = weightedTotal id tx.plates (fun ι => tx.sample ι [1]) (fun _ => 0) ∧
      r.ten.get [1] = 463)) = true := by
  exact ⟨tx_ok, by decide +kernel⟩

/-- The same samples with the plates in the order in which they were sampled. -/
private def tx' : STen Int := ⟨⟨[2, 3, 2], fun | [i, j, k] => 100 * j + 10 * i + k | _ => 0⟩, [pa, pb, pc], 2⟩

private theorem tx'_ok : Reduceable tx' := by
  have hp : ∀ p, p ∈ tx'.plates ↔ p ∈ tx.plates := fun p => by simp [tx, tx']; tauto
  refine ⟨⟨⟨by decide, by decide, rfl, rfl⟩, fun p h => tx_ok.proper.2 p ((hp p).1 h)⟩,
    fun p h => tx_ok.weights p ((hp p).1 h), ?_, ?_⟩
  · intro p h q hq
    obtain ⟨r, h1, h2⟩ := tx_ok.closed p ((hp p).1 h) q hq
    exact ⟨r, (hp r).2 h1, h2⟩
  · apply acyclic_of_rank (fun k => if k = "a" then 0 else if k = "b" then 1 else 2)
    rintro a b ⟨p, hp, rfl, q, hq, rfl⟩
    simp [tx'] at hp
    rcases hp with rfl | rfl | rfl
    · simp [pa, Plate.parents] at hq
    · simp [pb, Plate.parents] at hq; subst hq; decide
    · simp [pc, Plate.parents] at hq
      rcases hq with rfl | rfl <;> decide

/-- A case for `C13_order_independent`. -/
example : ∃ r k r' k', reducePlates hk id (.st tx false) [] = .ok r ∧ reducePlates hk id (.st tx' false) [] = .ok r' ∧
    r.ten.shape = [2] ++ List.replicate k 1 ∧ r'.ten.shape = [2] ++ List.replicate k' 1 ∧
    ∀ e, Ten.InB e [2] → r'.ten.get (e ++ List.replicate k' 0) = r.ten.get (e ++ List.replicate k 0) :=
  C13_order_independent (fun _ _ _ => rfl) id tx_ok tx'_ok (List.reverse_perm [pc, pb, pa]) rfl (by
    intro ι e hι he
    obtain ⟨j, l, hj, hl, rfl⟩ := List.forall₂_cons_right_iff.1 he
    rw [List.forall₂_nil_right_iff.1 hl]
    simp [STen.sample, STen.multiDimPlates, tx, tx', pa, pb, pc, Plate.n, Plate.name, STen.eventShape, Ten.bidx]) false false

/-- A case for `C12_torch_argument`: the samples of `tx'` as a torch tensor and the three plates. -/
example : reducePlates hk id (.torch tx'.ten) [.plate pa, .plate pb, .plate pc] = reducePlates hk id (.st tx' false) [] :=
  (C12_torch_argument hk id (x := tx'.ten) (ps := [pa, pb, pc]) (t := tx') rfl (by simp) (by decide)).1

/-- Two samples of three of another variable, with the default weights. -/
private def ha : Plate ℚ := .mk "a" 2 (.torch (.scalar (1 / (2 : ℕ)))) .plain []
private def hb : Plate ℚ := .mk "b" 3 (.torch (.scalar (1 / (3 : ℕ)))) .plain [ha]
private def ty (f : Nat → Nat → ℚ) : STen ℚ := ⟨⟨[3, 2], fun | [i, j] => f i j | _ => 0⟩, [hb, ha], 2⟩

private theorem ty_ok (f : Nat → Nat → ℚ) : Reduceable (ty f) := by
  refine ⟨⟨⟨by simp [ty, ha, hb, Plate.name], by simp [ty, ha, hb, Plate.n], rfl, rfl⟩, ?_⟩, ?_, ?_, ?_⟩
  · intro p hp; simp [ty] at hp; rcases hp with rfl | rfl <;> rfl
  · intro p hp
    simp [ty] at hp
    rcases hp with rfl | rfl <;> exact .scalar _ rfl rfl
  · intro p hp q hq
    simp [ty] at hp
    rcases hp with rfl | rfl
    · simp [hb, Plate.parents] at hq; subst hq
      exact ⟨ha, by simp [ty], Plate.pyEq_refl _⟩
    · simp [ha, Plate.parents] at hq
  · apply acyclic_of_rank (fun k => if k = "a" then 0 else 1)
    rintro a b ⟨p, hp, rfl, q, hq, rfl⟩
    simp [ty] at hp
    rcases hp with rfl | rfl
    · simp [hb, Plate.parents] at hq; subst hq; decide
    · simp [ha, Plate.parents] at hq

/-- A case for `C13_mean`. -/
example (f : Nat → Nat → ℚ) : ∃ r, reducePlates (fun _ t => .ok t) id (.st (ty f) false) [] = .ok r ∧ r.plates = [] ∧
    r.ten.shape = [] ∧ r.ten.get [] = (f 0 0 + f 0 1 + f 1 0 + f 1 1 + f 2 0 + f 2 1) / 6 := by
  obtain ⟨r, r1, r2, r3, r4⟩ := C13_mean (hook := fun _ t => .ok t) (fun _ _ _ => rfl) id (ty_ok f) (by
    intro p hp
    simp [ty] at hp
    rcases hp with rfl | rfl <;> exact ⟨rfl, rfl⟩) false (fun _ => 0)
  refine ⟨r, r1, r2, r3, ?_⟩
  rw [r4 [] .nil]
  simp [ty, ha, hb, allIdx, assign, STen.sample, STen.multiDimPlates, Plate.n, Plate.name, STen.eventShape, Ten.bidx,
    List.range_succ]
  ring

/-- A case for `C13_constant`. -/
example (c : ℚ) : ∃ r k, reducePlates (fun _ t => .ok t) id (.st (ty (fun _ _ => c)) false) [] = .ok r ∧ r.plates = [] ∧
    r.ten.shape = [] ++ List.replicate k 1 ∧ ∀ e, Ten.InB e [] → r.ten.get (e ++ List.replicate k 0) = c :=
  C13_constant (hook := fun _ t => .ok t) (fun _ _ _ => rfl) id (ty_ok fun _ _ => c) (by
    intro p hp ι _
    simp [ty] at hp
    rcases hp with rfl | rfl <;> simp [ha, hb, Plate.weightAt, Plate.weight, Plate.n, Ten.scalar]) (fun _ => c) (by
    intro ι e _ he
    rw [List.forall₂_nil_right_iff.1 he]
    simp [ty, ha, hb, STen.sample, STen.multiDimPlates, Plate.n, Plate.name, STen.eventShape, Ten.bidx]) false

private def qa : Plate Int := .mk "a" 2 (.torch (.scalar 1)) .plain []
/-- a single sample per sample of `a`, with importance weights -/
private def qz : Plate Int :=
  .mk "z" 1 (.storch ⟨[2], fun | [i] => 10 * i + 1 | _ => 0⟩ ["a", "z"]) .plain [qa]
private def qz0 : Plate Int := .mk "z" 1 (.storch (.scalar 1) ["z"]) .plain []
private def qb : Plate Int := .mk "b" 2 (.storch ⟨[2], fun | [i] => i | _ => 0⟩ ["b"]) .plain []
private def t0 : STen Int := ⟨.scalar 5, [qz0], 0⟩
private def t1 : STen Int := ⟨⟨[2, 2], fun | [i, j] => 2 * i + j | _ => 0⟩, [qa, qz], 1⟩
private def t2 : STen Int := ⟨⟨[2, 2], fun | [i, j] => 2 * i + j | _ => 0⟩, [qb, qa], 2⟩

private theorem acyclic_roots {ps : List (Plate Int)} (h : ∀ p ∈ ps, p.parents = []) :
    AcyclicPlates ps := by
  apply acyclic_of_rank (fun _ => 0)
  rintro a b ⟨p, hp, _, q, hq, _⟩
  rw [h p hp] at hq; cases hq

/-- C12 fails in three ways: (1) a plate with a single sample and a storch weight is still there after
the reduction, (2) with such a weight depending on a parent plate the values are wrong, (3) a
per-sample storch weight on a plate that is not the last one changes the event shape. -/
theorem C12_refuted :
    (∃ t : STen Int, Proper t ∧ ParentClosed t.plates ∧ AcyclicPlates t.plates ∧
      ∃ r, reducePlates hk id (.st t false) [] = .ok r ∧ r.plates.map Plate.name = ["z"]) ∧
    (∃ t : STen Int, Proper t ∧ ParentClosed t.plates ∧ AcyclicPlates t.plates ∧
      ∃ r, reducePlates hk id (.st t false) [] = .ok r ∧ r.ten.shape = t.eventShape ∧
        r.ten.get [1] ≠ weightedTotal id t.plates (fun ι => t.sample ι [1]) (fun _ => 0)) ∧
    (∃ t : STen Int, Reduceable t ∧
      ∃ r, reducePlates hk id (.st t false) [] = .ok r ∧ r.ten.shape ≠ t.eventShape) := by
  refine ⟨⟨t0, ⟨⟨by decide, by decide, rfl, rfl⟩, ?_⟩, ?_, ?_, ?_⟩,
    ⟨t1, ⟨⟨by decide, by decide, rfl, rfl⟩, ?_⟩, ?_, ?_, ?_⟩,
    ⟨t2, ⟨⟨⟨by decide, by decide, rfl, rfl⟩, ?_⟩, ?_, ?_, ?_⟩, ?_⟩⟩
  · intro p hp; simp [t0] at hp; subst hp; rfl
  · intro p hp q hq; simp [t0] at hp; subst hp; simp [qz0, Plate.parents] at hq
  · apply acyclic_roots; intro p hp; simp [t0] at hp; subst hp; rfl
  · obtain ⟨r, h1, h2⟩ := passes_iff.1 (show passes (reducePlates hk id (.st t0 false) [])
      (fun r => decide (r.plates.map Plate.name = ["z"])) = true by decide +kernel)
    exact ⟨r, h1, of_decide_eq_true h2⟩
  · intro p hp; simp [t1] at hp; rcases hp with rfl | rfl <;> rfl
  · intro p hp q hq
    simp [t1] at hp
    rcases hp with rfl | rfl
    · simp [qa, Plate.parents] at hq
    · simp [qz, Plate.parents] at hq; subst hq
      exact ⟨qa, by simp [t1], Plate.pyEq_refl _⟩
  · apply acyclic_of_rank (fun k => if k = "a" then 0 else 1)
    rintro a b ⟨p, hp, rfl, q, hq, rfl⟩
    simp [t1] at hp
    rcases hp with rfl | rfl
    · simp [qa, Plate.parents] at hq
    · simp [qz, Plate.parents] at hq; subst hq; decide
  · obtain ⟨r, h1, h2⟩ := passes_iff.1 (show passes (reducePlates hk id (.st t1 false) [])
      (fun r => decide (r.ten.shape = t1.eventShape ∧
        r.ten.get [1] ≠ weightedTotal id t1.plates (fun ι => t1.sample ι [1]) (fun _ => 0))) = true by
          decide +kernel)
    exact ⟨r, h1, of_decide_eq_true h2⟩
  · intro p hp; simp [t2] at hp; rcases hp with rfl | rfl <;> rfl
  · intro p hp
    simp [t2] at hp
    rcases hp with rfl | rfl
    · exact .storch _ _ rfl (by decide) (by decide) (by decide) (by decide) rfl
    · exact .scalar _ rfl rfl
  · intro p hp q hq
    simp [t2] at hp
    rcases hp with rfl | rfl
    · simp [qb, Plate.parents] at hq
    · simp [qa, Plate.parents] at hq
  · apply acyclic_roots; intro p hp; simp [t2] at hp; rcases hp with rfl | rfl <;> rfl
  · obtain ⟨r, h1, h2⟩ := passes_iff.1 (show passes (reducePlates hk id (.st t2 false) [])
      (fun r => decide (r.ten.shape ≠ t2.eventShape)) = true by decide +kernel)
    exact ⟨r, h1, of_decide_eq_true h2⟩

private def ra : Plate Int := .mk "a" 2 (.torch (.scalar 1)) .plain []
private def rb : Plate Int := .mk "b" 2 (.torch (.scalar 1)) .plain [ra]
private def rc : Plate Int := .mk "c" 2 (.torch (.scalar 1)) .plain [ra, rb]
private def t3 : STen Int := ⟨⟨[2, 2, 2], fun | [i, j, k] => 4 * i + 2 * j + k | _ => 0⟩, [ra, rb, rc], 3⟩

private theorem t3_ok : Reduceable t3 := by
  refine ⟨⟨⟨by decide, by decide, rfl, rfl⟩, ?_⟩, ?_, ?_, ?_⟩
  · intro p hp; simp [t3] at hp; rcases hp with rfl | rfl | rfl <;> rfl
  · intro p hp
    simp [t3] at hp
    rcases hp with rfl | rfl | rfl <;> exact .scalar _ rfl rfl
  · intro p hp q hq
    simp [t3] at hp
    rcases hp with rfl | rfl | rfl
    · simp [ra, Plate.parents] at hq
    · simp [rb, Plate.parents] at hq; subst hq
      exact ⟨ra, by simp [t3], Plate.pyEq_refl _⟩
    · simp [rc, Plate.parents] at hq
      rcases hq with rfl | rfl
      · exact ⟨ra, by simp [t3], Plate.pyEq_refl _⟩
      · exact ⟨rb, by simp [t3], Plate.pyEq_refl _⟩
  · apply acyclic_of_rank (fun k => if k = "a" then 0 else if k = "b" then 1 else 2)
    rintro a b ⟨p, hp, rfl, q, hq, rfl⟩
    simp [t3] at hp
    rcases hp with rfl | rfl | rfl
    · simp [ra, Plate.parents] at hq
    · simp [rb, Plate.parents] at hq; subst hq; decide
    · simp [rc, Plate.parents] at hq
      rcases hq with rfl | rfl <;> decide

/-- C14 fails: asked to reduce `c` and `b` of a tensor with nested plates `a`, `b`, `c`, the code
reduces `b` only and leaves `c`. -/
theorem C14_refuted : ∃ (t : STen Int) (args : List (PArg Int)) (ps : List (Plate Int)),
    Reduceable t ∧ Requests t args ps ∧ (ps.map Plate.name).Nodup ∧
    ∃ r, reducePlates hk id (.st t false) args = .ok r ∧
      ∃ p ∈ ps, p.name ∈ r.plates.map Plate.name := by
  refine ⟨t3, [.name "c", .plate rb], [rc, rb], t3_ok, Or.inr ⟨by simp, ?_⟩, by decide, ?_⟩
  · exact .cons ⟨by simp [t3], Or.inr rfl⟩ (.cons ⟨by simp [t3], Or.inl rfl⟩ .nil)
  · obtain ⟨r, h1, h2⟩ := passes_iff.1 (show passes (reducePlates hk id (.st t3 false)
      [.name "c", .plate rb]) (fun r => decide (r.plates.map Plate.name = ["a", "c"])) = true by
        decide +kernel)
    exact ⟨r, h1, rc, by simp, by rw [of_decide_eq_true h2]; decide⟩

/-- A case for `C14_exact_partial`: reducing the innermost plate of three. -/
example : Reduceable t3 ∧ Requests t3 [.name "c"] [rc] ∧ ParentsAllOrNone [rc] ∧
    passes (reducePlates hk id (.st t3 false) [.name "c"]) (fun r =>
      decide (r.plates.map Plate.name = ["a", "b"] ∧ r.ten.get [1, 1] = 13)) = true := by
  refine ⟨t3_ok, Or.inr ⟨by simp, .cons ⟨by simp [t3], Or.inr rfl⟩ .nil⟩, ?_, by decide +kernel⟩
  intro p hp
  simp at hp; subst hp
  have hra : ∀ q, ¬ IsAncestor q ra := by
    intro q h
    cases h with
    | parent h => simp [ra, Plate.parents] at h
    | step _ h => simp [ra, Plate.parents] at h
  have hrb : ∀ q, IsAncestor q rb → q = ra := by
    intro q h
    cases h with
    | parent h => simpa [rb, Plate.parents] using h
    | step h' h => simp [rb, Plate.parents] at h; subst h; exact absurd h' (hra _)
  have hrc : ∀ q, IsAncestor q rc → q = ra ∨ q = rb := by
    intro q h
    cases h with
    | parent h => simpa [rc, Plate.parents] using h
    | step h' h =>
      simp [rc, Plate.parents] at h
      rcases h with rfl | rfl
      · exact absurd h' (hra _)
      · exact Or.inl (hrb _ h')
  refine Or.inr ⟨?_, ?_⟩
  · intro q hq x hx
    simp at hx; subst hx
    rcases hrc q hq with rfl | rfl <;> decide
  · intro q hq x hx
    simp at hx; subst hx
    rcases hrc q (.parent hq) with rfl | rfl <;> decide

end Examples

end Storch
