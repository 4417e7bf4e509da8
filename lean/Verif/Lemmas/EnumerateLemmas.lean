import Verif.Model.Enumerate
import Verif.Lemmas.ContribLemmas
import Verif.Lemmas.RavelLemmas
import Mathlib.Data.Fintype.BigOperators
import Mathlib.Data.Fintype.Pi

/-! Enumeration. -/

namespace Storch
variable {α : Type _}

theorem allIdx_length (s : List Nat) : (allIdx s).length = Ten.numel s := by
  induction s with
  | nil => rfl
  | cons d s ih =>
    rw [allIdx, List.length_flatMap]
    simp only [List.length_map, ih, List.map_const', List.sum_replicate, List.length_range, smul_eq_mul]
    rfl

theorem numel_replicate (d E : Nat) : Ten.numel (List.replicate d E) = E ^ d := by
  induction d with
  | zero => rfl
  | succ d ih => rw [List.replicate_succ, Ten.numel_cons, ih, pow_succ, mul_comm]

theorem outcomes_length (d E : Nat) : (allIdx (List.replicate d E)).length = E ^ d := by
  rw [allIdx_length, numel_replicate]

theorem outcome_inB {d E k : Nat} (h : k < (allIdx (List.replicate d E)).length) :
    Ten.InB (allIdx (List.replicate d E))[k] (List.replicate d E) := mem_allIdx.1 (List.getElem_mem h)

theorem inB_replicate_iff {idx : List Nat} {d E : Nat} :
    Ten.InB idx (List.replicate d E) ↔ idx.length = d ∧ ∀ i ∈ idx, i < E := by
  induction d generalizing idx with
  | zero =>
    rw [List.replicate_zero, Ten.InB, List.forall₂_nil_right_iff]
    constructor
    · rintro rfl; simp
    · rintro ⟨h, _⟩; exact List.eq_nil_of_length_eq_zero h
  | succ d ih =>
    rw [List.replicate_succ, Ten.InB, List.forall₂_cons_right_iff]
    constructor
    · rintro ⟨a, l, h1, h2, rfl⟩
      have := ih.1 h2
      simp [this.1, h1]
      exact this.2
    · rintro ⟨h1, h2⟩
      cases idx with
      | nil => simp at h1
      | cons a l =>
        exact ⟨a, l, h2 a (by simp), ih.2 ⟨by simpa using h1, fun i hi => h2 i (by simp [hi])⟩, rfl⟩

/-- The `k`-th outcome, as a function. -/
def outcomeFn (d E : Nat) (k : Fin (E ^ d)) : Fin d → Fin E := fun j =>
  have hk : (k : Nat) < (allIdx (List.replicate d E)).length := by rw [outcomes_length]; exact k.2
  have h := inB_replicate_iff.1 (outcome_inB hk)
  have hj : (j : Nat) < (allIdx (List.replicate d E))[(k : Nat)].length := by rw [h.1]; exact j.2
  ⟨(allIdx (List.replicate d E))[(k : Nat)][(j : Nat)], h.2 _ (List.getElem_mem hj)⟩

theorem outcomeFn_injective (d E : Nat) : Function.Injective (outcomeFn d E) := by
  intro k l h
  have hk : (k : Nat) < (allIdx (List.replicate d E)).length := by rw [outcomes_length]; exact k.2
  have hl : (l : Nat) < (allIdx (List.replicate d E)).length := by rw [outcomes_length]; exact l.2
  have h1 := inB_replicate_iff.1 (outcome_inB hk)
  have h2 := inB_replicate_iff.1 (outcome_inB hl)
  have he : (allIdx (List.replicate d E))[(k : Nat)] = (allIdx (List.replicate d E))[(l : Nat)] := by
    apply List.ext_getElem (by rw [h1.1, h2.1])
    intro j hj hj'
    rw [h1.1] at hj
    exact congrArg Fin.val (congrFun h ⟨j, hj⟩)
  exact Fin.ext ((nodup_allIdx _).getElem_inj_iff.1 he)

/-- The numbering of the outcomes. -/
noncomputable def outcomes (d E : Nat) : Fin (E ^ d) ≃ (Fin d → Fin E) :=
  Equiv.ofBijective (outcomeFn d E)
    ((Fintype.bijective_iff_injective_and_card _).2 ⟨outcomeFn_injective d E, by simp⟩)

theorem outcome_getD {d E : Nat} (k : Fin (E ^ d)) {j : Nat} (hj : j < d) :
    ((allIdx (List.replicate d E))[(k : Nat)]?.getD []).getD j 0 = outcomes d E k ⟨j, hj⟩ := by
  have hk : (k : Nat) < (allIdx (List.replicate d E)).length := by rw [outcomes_length]; exact k.2
  have h := inB_replicate_iff.1 (outcome_inB hk)
  rw [List.getElem?_eq_getElem hk, Option.getD_some, List.getD_eq_getElem?_getD,
    List.getElem?_eq_getElem (by rw [h.1]; exact hj)]
  rfl

/-! ### The rows -/

theorem dimExpands_one (e : Nat) : Ten.dimExpands 1 e = true := by simp [Ten.dimExpands]
theorem dimExpands_self (e : Nat) : Ten.dimExpands e e = true := by simp [Ten.dimExpands]

theorem all_expands_self (s : List Nat) : (List.zipWith Ten.dimExpands s s).all id = true := by
  induction s with
  | nil => rfl
  | cons d s ih => rw [List.zipWith_cons_cons, List.all_cons, dimExpands_self, ih]; rfl

theorem all_expands_ones (b : List Nat) {s t : List Nat} (h : (List.zipWith Ten.dimExpands s t).all id = true) :
    (List.zipWith Ten.dimExpands (List.replicate b.length 1 ++ s) (b ++ t)).all id = true := by
  induction b with
  | nil => simpa using h
  | cons d b ih =>
    rw [List.length_cons, List.replicate_succ, List.cons_append, List.cons_append, List.zipWith_cons_cons,
      List.all_cons, dimExpands_one, ih]
    rfl

/-- The value of a row: `dims` is `[d]`, or empty for a single variable. -/
theorem setRow_spec (v : Ten α) {b dims ev : List Nat} {d : Nat} (hv : v.shape = d :: ev)
    (hd : dims = [d] ∨ (dims = [] ∧ d = 1)) :
    ∃ r, setRow v (b ++ dims ++ ev) = .ok r ∧ ∀ i e f, Ten.InB i b → Ten.InB e dims → Ten.InB f ev →
      r.get (i ++ e ++ f) = v.get (e.headD 0 :: f) := by
  rcases hd with rfl | ⟨rfl, rfl⟩
  · have hl : ¬ (b ++ [d] ++ ev).length < v.ndim := by rw [Ten.ndim, hv]; simp; omega
    have hn : (b ++ [d] ++ ev).length - v.ndim = b.length := by rw [Ten.ndim, hv]; simp
    have hp : Ten.padL (b ++ [d] ++ ev).length v.shape = List.replicate b.length 1 ++ (d :: ev) := by
      rw [Ten.padL, hv]; congr 2; simp
    refine ⟨⟨b ++ [d] ++ ev, fun idx => v.get ((Ten.bidx (List.replicate b.length 1 ++ (d :: ev)) idx).drop b.length)⟩, ?_, ?_⟩
    · rw [setRow]
      simp only [if_neg hl, hp, hn]
      rw [Ten.expand, if_pos]
      refine ⟨by simp, ?_⟩
      rw [List.append_assoc]
      exact all_expands_ones b (all_expands_self _)
    · intro i e f hi he hf
      have hil := hi.length_eq
      simp only
      rw [List.append_assoc, bidx_append (by simp [hil]), List.drop_append_of_le_length (by simp [Ten.bidx, hil]),
        List.drop_of_length_le (by simp [Ten.bidx]), List.nil_append]
      have : Ten.InB (e ++ f) (d :: ev) := Ten.inB_append (s := [d]) he hf
      rw [bidx_of_inB this]
      cases he with
      | cons h1 h2 => cases h2; rfl
  · cases hb : b.reverse with
    | nil =>
      have : b = [] := by simpa using hb
      subst this
      have hl : ([] ++ [] ++ ev : List Nat).length < v.ndim := by rw [Ten.ndim, hv]; simp
      have hsq : squeeze0 v = ⟨ev, fun idx => v.get (0 :: idx)⟩ := by simp only [squeeze0, hv]
      refine ⟨⟨ev, fun idx => v.get (0 :: Ten.bidx ev idx)⟩, ?_, ?_⟩
      · rw [setRow]
        simp only [if_pos hl, hsq]
        simp only [Ten.ndim, List.nil_append, lt_irrefl, if_false, Ten.padL, Nat.sub_self,
          List.replicate_zero, List.drop_zero]
        rw [Ten.expand, if_pos ⟨rfl, all_expands_self _⟩]
      · intro i e f hi he hf
        cases hi
        cases he
        simp only [List.nil_append, List.headD_nil]
        rw [bidx_of_inB hf]
    | cons x b' =>
      obtain rfl : b = b'.reverse ++ [x] := by
        have := congrArg List.reverse hb
        simpa using this
      generalize b'.reverse = c at *
      have hl : ¬ (c ++ [x] ++ [] ++ ev).length < v.ndim := by rw [Ten.ndim, hv]; simp; omega
      have hn : (c ++ [x] ++ [] ++ ev).length - v.ndim = c.length := by rw [Ten.ndim, hv]; simp
      have hp : Ten.padL (c ++ [x] ++ [] ++ ev).length v.shape = List.replicate c.length 1 ++ (1 :: ev) := by
        rw [Ten.padL, hv]; congr 2; simp
      refine ⟨⟨c ++ [x] ++ [] ++ ev, fun idx => v.get ((Ten.bidx (List.replicate c.length 1 ++ (1 :: ev)) idx).drop c.length)⟩, ?_, ?_⟩
      · rw [setRow]
        simp only [if_neg hl, hp, hn]
        rw [Ten.expand, if_pos]
        refine ⟨by simp, ?_⟩
        rw [List.append_nil, List.append_assoc]
        apply all_expands_ones c
        rw [List.singleton_append, List.zipWith_cons_cons, List.all_cons, dimExpands_one, all_expands_self]
        rfl
      · intro i e f hi he hf
        cases he
        obtain ⟨i1, i2, h1, h2, rfl⟩ : ∃ i1 i2, Ten.InB i1 c ∧ Ten.InB i2 [x] ∧ i = i1 ++ i2 := by
          refine ⟨i.take c.length, i.drop c.length, ?_, ?_, (List.take_append_drop _ _).symm⟩
          · have := List.forall₂_take c.length hi
            rwa [List.take_left] at this
          · have := List.forall₂_drop c.length hi
            rwa [List.drop_left] at this
        have hil := h1.length_eq
        cases h2 with
        | cons h3 h4 =>
          cases h4
          simp only
          rw [List.append_nil, List.append_assoc, bidx_append (by simp [hil]),
            List.drop_append_of_le_length (by simp [Ten.bidx, hil]), List.drop_of_length_le (by simp [Ten.bidx]),
            List.nil_append]
          rw [List.singleton_append, Ten.bidx, List.zipWith_cons_cons, if_pos rfl]
          rw [show List.zipWith (fun d i => if d = 1 then 0 else i) ev f = Ten.bidx ev f from rfl, bidx_of_inB hf]
          rfl

theorem setRows_spec (support : Ten α) {b dims ev : List Nat} {d E : Nat} (hs : support.shape = E :: ev)
    (hd : dims = [d] ∨ (dims = [] ∧ d = 1)) (cs : List (List Nat)) (hc : ∀ c ∈ cs, c.length = d) :
    ∃ rs : List (Ten α), setRows support (b ++ dims ++ ev) cs = .ok rs ∧ rs.length = cs.length ∧
      ∀ (k : Nat) (r : Ten α), rs[k]? = some r → ∀ i e f, Ten.InB i b → Ten.InB e dims → Ten.InB f ev →
        r.get (i ++ e ++ f) = support.get ((cs[k]?.getD []).getD (e.headD 0) 0 :: f) := by
  induction cs with
  | nil => exact ⟨[], rfl, rfl, by simp⟩
  | cons c cs ih =>
    obtain ⟨rs, r1, r2, r3⟩ := ih (fun c hc' => hc c (List.mem_cons_of_mem _ hc'))
    obtain ⟨r, q1, q2⟩ := setRow_spec (b := b) (catRows support c) (d := d) (ev := ev)
      (by rw [catRows, hs, hc c (by simp)]; rfl) hd
    refine ⟨r :: rs, by rw [setRows, q1]; simp only [r1], by simp [r2], ?_⟩
    intro k x hx i e f hi he hf
    cases k with
    | zero =>
      simp only [List.getElem?_cons_zero, Option.some.injEq] at hx
      subst hx
      rw [q2 i e f hi he hf]
      rfl
    | succ k => exact r3 k x (by simpa using hx) i e f hi he hf

/-- All outcomes, each in one row. -/
theorem enumTensor_spec [Zero α] (support : Ten α) {b dims ev : List Nat} {d E budget : Nat}
    (hs : support.shape = E :: ev) (hE : 2 ≤ E) (hd0 : 1 ≤ d) (hd : dims = [d] ∨ (dims = [] ∧ d = 1))
    (hb : E ^ d ≤ budget) :
    ∃ t, enumTensor support (b ++ dims) b.length budget = .ok t ∧ t.shape = E ^ d :: (b ++ dims ++ ev) ∧
      ∀ (k : Fin (E ^ d)) i e f, Ten.InB i b → Ten.InB e dims → Ten.InB f ev → ∀ hj : e.headD 0 < d,
        t.get ((k : Nat) :: (i ++ e ++ f)) = support.get ((outcomes d E k ⟨e.headD 0, hj⟩ : Nat) :: f) := by
  have hsz : enumSizes dims (E, if dims = [] then 1 else 0) = (E ^ d, d) := by
    rcases hd with rfl | ⟨rfl, rfl⟩
    · simp [enumSizes]
    · simp [enumSizes]
  obtain ⟨rs, r1, r2, r3⟩ := setRows_spec (b := b) support hs hd (allIdx (List.replicate d E)) (by
    intro c hc
    exact (inB_replicate_iff.1 (mem_allIdx.1 hc)).1)
  rw [outcomes_length] at r2
  refine ⟨⟨E ^ d :: (b ++ dims ++ ev), fun idx => match rs[idx.headD 0]? with | some r => r.get idx.tail | none => 0⟩,
    ?_, rfl, ?_⟩
  · rw [enumTensor, hs]
    simp only [List.drop_left, hsz]
    rw [if_neg (by omega), if_neg (by omega), if_neg (by omega), r1]
    simp only
    rw [if_neg (by omega)]
    rfl
  · intro k i e f hi he hf hj
    have hk : (k : Nat) < rs.length := by rw [r2]; exact k.2
    simp only [List.headD_cons, List.tail_cons, List.getElem?_eq_getElem hk]
    rw [r3 k _ (List.getElem?_eq_getElem hk) i e f hi he hf, outcome_getD k hj]

/-- Only the sizes after the plates matter. -/
theorem enumTensor_len [Zero α] (support : Ten α) {b dims : List Nat} {n : Nat} (budget : Nat)
    (h : dims = [] ∨ b.length = n) (hn : b.length ≤ n) :
    enumTensor support (b ++ dims) n budget = enumTensor support (b ++ dims) b.length budget := by
  have : (b ++ dims).drop n = (b ++ dims).drop b.length := by
    rcases h with rfl | rfl
    · rw [List.append_nil, List.drop_of_length_le hn, List.drop_of_length_le (Nat.le_refl _)]
    · rfl
  simp only [enumTensor, this]

/-! ### The stochastic tensor -/

variable [ValEq α]

/-- What is known of the distribution: the support, its shape, and the log-probabilities; `lpv ι e v` is the
log-probability that the entry `e` at the position `ι` of the plates is the `v`-th element of the support. -/
structure EnumDistr (inv : Nat → α) (name : String) (plates : List (Plate α)) (support : Ten α) (dims ev : List Nat)
    (d E : Nat) (logProb : STen α → Except Err (STen α)) (lpv : (String → Nat) → List Nat → Nat → α) : Prop where
  shape : support.shape = E :: ev
  two : 2 ≤ E
  pos : 1 ≤ d
  form : dims = [d] ∨ (dims = [] ∧ d = 1)
  names : (plates.map Plate.name).Nodup
  fresh : name ∉ plates.map Plate.name
  sizes : ∀ p ∈ plates, 1 ≤ p.n
  multi : dims = [] ∨ ∀ p ∈ plates, 1 < p.n
  plain : ∀ p ∈ plates, p.kind = .plain
  logs : ∀ x : STen α, x.WF → x.plates = mcPlate inv name (E ^ d) plates :: plates → x.eventShape = dims ++ ev →
    ∃ lp, logProb x = .ok lp ∧ lp.WF ∧ (∀ p, p ∈ lp.plates ↔ p ∈ x.plates) ∧ lp.eventShape = dims ∧
      ∀ ι e v, Ten.InB e dims → (∀ f, Ten.InB f ev → x.sample ι (e ++ f) = support.get (v :: f)) →
        lp.sample ι e = lpv ι e v

omit [ValEq α] in
theorem multi_filter {ps : List (Plate α)} (h : ∀ p ∈ ps, 1 < p.n) :
    ps.filter (fun p => decide (1 < p.n)) = ps :=
  List.filter_eq_self.2 (fun p hp => by simpa using h p hp)

omit [ValEq α] in
theorem inB_plates {ps : List (Plate α)} {ι : String → Nat} (h : Valid ps ι) :
    Ten.InB (ps.map (fun p => ι p.name)) (ps.map Plate.n) := by
  induction ps with
  | nil => exact .nil
  | cons p ps ih => exact .cons (h p (by simp)) (ih (fun q hq => h q (List.mem_cons_of_mem _ hq)))

omit [ValEq α] in
/-- Looking up plates by name in a list where one plate has got another weight. -/
theorem lookup_names {p p' : Plate α} {ps qs : List (Plate α)} (hn : p'.name = p.name) (hnn : p'.n = p.n)
    (hnd : ((p :: ps).map Plate.name).Nodup) (hq : ∀ q ∈ qs, q ∈ p :: ps) :
    (((qs.map Plate.name).filterMap (fun s => (p' :: ps).find? (fun q => q.name == s))).filter
      (fun q => decide (1 < q.n))).map (fun q => (q.name, q.n)) =
    (qs.filter (fun q => decide (1 < q.n))).map (fun q => (q.name, q.n)) := by
  simp only [List.map_cons, List.nodup_cons] at hnd
  induction qs with
  | nil => rfl
  | cons q qs ih =>
    have ih := ih (fun q h => hq q (List.mem_cons_of_mem _ h))
    have hf : ∃ q', (p' :: ps).find? (fun x => x.name == q.name) = some q' ∧ q'.name = q.name ∧ q'.n = q.n := by
      rcases List.mem_cons.1 (hq q (by simp)) with rfl | hm
      · exact ⟨p', by rw [List.find?_cons]; simp [hn], hn, hnn⟩
      · refine ⟨q, ?_, rfl, rfl⟩
        have hne : p'.name ≠ q.name := by
          rw [hn]
          intro e
          exact hnd.1 (e ▸ List.mem_map_of_mem hm)
        rw [List.find?_cons]
        simp only [beq_eq_false_iff_ne.2 hne]
        have hnd' := hnd.2
        have : ∀ (ps : List (Plate α)), q ∈ ps → (ps.map Plate.name).Nodup →
            ps.find? (fun x => x.name == q.name) = some q := by
          intro ps
          induction ps with
          | nil => intro hm _; cases hm
          | cons a ps ih =>
            intro hm hnd'
            rw [List.find?_cons]
            simp only [List.map_cons, List.nodup_cons] at hnd'
            rcases List.mem_cons.1 hm with rfl | hm
            · simp
            · have : a.name ≠ q.name := fun e => hnd'.1 (e ▸ List.mem_map_of_mem hm)
              simp only [beq_eq_false_iff_ne.2 this]
              exact ih hm hnd'.2
        exact this ps hm hnd'
    obtain ⟨q', h1, h2, h3⟩ := hf
    rw [List.map_cons, List.filterMap_cons, h1]
    simp only
    rw [List.filter_cons, List.filter_cons, h3]
    split
    · rw [List.map_cons, List.map_cons, ih, h2, h3]
    · exact ih

variable [CommRing α] [Autograd α]

/-- Enumeration of a distribution. -/
theorem enumerate_spec {hook : UnwrapHook α} (hh : PlainHook hook) {inv : Nat → α} {name : String}
    {ctx : List (Plate α)} {params : List (Operand α)} {support : Ten α} {dims ev : List Nat} {d E budget : Nat}
    {logProb : STen α → Except Err (STen α)} {lpv : (String → Nat) → List Nat → Nat → α}
    (h : EnumDistr inv name (methodPlates ctx params) support dims ev d E logProb lpv) (hb : E ^ d ≤ budget) :
    ∃ s plate, enumerate hook inv name budget ctx params support
        (((methodPlates ctx params).filter (fun p => decide (1 < p.n))).map Plate.n ++ dims) logProb = .ok (s, plate) ∧
      plate.name = name ∧ plate.n = E ^ d ∧ plate.kind = .plain ∧ plate.parents = methodPlates ctx params ∧
      s.plates = plate :: methodPlates ctx params ∧ s.WF ∧ s.eventShape = dims ++ ev ∧ WeightOK plate ∧
      (∃ w ns, plate.weight = .storch w ns) ∧
      ∀ ι, Valid s.plates ι → ∀ k : Fin (E ^ d), ι name = k →
        (∀ e f, Ten.InB e dims → Ten.InB f ev → ∀ hj : e.headD 0 < d,
          s.sample ι (e ++ f) = support.get ((outcomes d E k ⟨e.headD 0, hj⟩ : Nat) :: f)) ∧
        plate.weightAt id ι = Autograd.exp ((allIdx dims).map (fun e =>
          lpv ι e (if hj : e.headD 0 < d then outcomes d E k ⟨e.headD 0, hj⟩ else 0))).sum := by
  set plates := methodPlates ctx params with hplates
  set mult := plates.filter (fun p => decide (1 < p.n)) with hmult
  obtain ⟨t, t1, t2, t3⟩ := enumTensor_spec (b := mult.map Plate.n) support h.shape h.two h.pos h.form hb
  rw [← enumTensor_len (n := plates.length) support budget (h.multi.imp id (fun hm => by
    rw [List.length_map, hmult, multi_filter hm])) (by
    rw [List.length_map]; exact List.length_filter_le _ _)] at t1
  have hn1 : 1 < E ^ d := Nat.one_lt_pow (by have := h.pos; omega) (by have := h.two; omega)
  have hhead : t.shape.headD 0 = E ^ d := by rw [t2]; rfl
  have hany : plates.any (fun p => p.name == name) = false := by
    rw [List.any_eq_false]
    intro p hp
    have : p.name ≠ name := fun e => h.fresh (e ▸ List.mem_map_of_mem hp)
    simpa using this
  have hpos : ∀ p ∈ mcPlate inv name (E ^ d) plates :: plates, 1 ≤ p.n := by
    intro p hp
    rcases List.mem_cons.1 hp with rfl | hp
    · exact hn1.le
    · exact h.sizes p hp
  have hnd : ((mcPlate inv name (E ^ d) plates :: plates).map Plate.name).Nodup := by
    rw [List.map_cons, List.nodup_cons]
    exact ⟨h.fresh, h.names⟩
  have hfil : ∀ x : Plate α, x.n = E ^ d → (x :: plates).filter (fun p => decide (1 < p.n)) = x :: mult := by
    intro x hx
    rw [List.filter_cons, if_pos (by rw [hx]; simpa using hn1)]
  have hf1 : ((mcPlate inv name (E ^ d) plates :: plates).filter (fun p => p.n ≠ 1)) =
      mcPlate inv name (E ^ d) plates :: mult := by
    rw [← hfil _ rfl]
    apply List.filter_congr
    intro p hp
    have := hpos p hp
    simp only [decide_eq_decide]; omega
  have hmk : STen.mk' t (mcPlate inv name (E ^ d) plates :: plates) =
      .ok ⟨t, mcPlate inv name (E ^ d) plates :: plates, mult.length + 1⟩ := by
    rw [STen.mk', (checkPlates_ok_iff _ _ _ _ (mult.length + 1)).2]
    refine ⟨hnd, by simp, ?_, ?_⟩
    · rw [hf1, t2, List.drop_zero, List.map_cons]
      exact ⟨dims ++ ev, by simp [mcPlate, Plate.n]⟩
    · rw [hf1]; simp
  set s0 : STen α := ⟨t, mcPlate inv name (E ^ d) plates :: plates, mult.length + 1⟩ with hs0
  have hev0 : s0.eventShape = dims ++ ev := by
    rw [STen.eventShape, hs0]
    simp only [t2, List.append_assoc, List.drop_succ_cons]
    rw [List.drop_append_of_le_length (by simp), List.drop_of_length_le (by simp), List.nil_append]
  have hmd0 : s0.multiDimPlates = mcPlate inv name (E ^ d) plates :: mult := hfil _ rfl
  have hwf0 : s0.WF := by
    refine ⟨hnd, hpos, ?_, ?_⟩
    · rw [hmd0, hev0, List.map_cons]
      show t.shape = _
      rw [t2]
      simp [mcPlate, Plate.n]
    · rw [hmd0]; rfl
  obtain ⟨lp0, l1, l2, l3, l4, l5⟩ := h.logs s0 hwf0 rfl hev0
  have hpl0 : ∀ p ∈ lp0.plates, p.kind = .plain := by
    intro p hp
    rcases List.mem_cons.1 ((l3 p).1 hp) with rfl | hp
    · rfl
    · exact h.plain p hp
  have hd : s0.plateDims = lp0.plateDims := multiDim_length hwf0 l2 (fun p => (l3 p).symm)
  have hndim : lp0.ten.ndim = lp0.plateDims + dims.length := by
    rw [Ten.ndim, l2.shape, l2.dims, l4]; simp
  -- the sum over the event
  obtain ⟨lp, p1, p2, p3, p4, p5⟩ : ∃ lp, (if lp0.plateDims < lp0.ten.ndim then
        asSt (handleDet hook false false {} (sumBlockFn s0.plateDims (lp0.ten.ndim - s0.plateDims))
          ⟨[.st lp0 false, .lst ((List.range (lp0.ten.ndim - s0.plateDims)).map
            (fun i => .other (s0.plateDims + i)))], []⟩)
      else .ok lp0) = .ok lp ∧ Proper lp ∧ lp.plates = lp0.plates ∧ lp.eventShape = [] ∧
      ∀ ι, lp.sample ι [] = ((allIdx dims).map (fun e => lp0.sample ι e)).sum := by
    rw [hd]
    have hsub : lp0.ten.ndim - lp0.plateDims = dims.length := by omega
    by_cases hlt : lp0.plateDims < lp0.ten.ndim
    · obtain ⟨r, r1, r2, r3, r4, r5⟩ := sumEvents_spec hh ⟨l2, hpl0⟩ dims 0 (by simpa using l4)
      refine ⟨r, by rw [if_pos hlt, hsub]; exact r1, r2, r3, by simpa using r4, ?_⟩
      intro ι
      rw [r5 ι [] .nil]
      simp only [List.append_nil]
    · have hes : dims = [] := List.eq_nil_of_length_eq_zero (by omega)
      refine ⟨lp0, by rw [if_neg hlt], ⟨l2, hpl0⟩, rfl, by rw [l4, hes], ?_⟩
      intro ι
      rw [hes]
      simp [allIdx]
  obtain ⟨w, w1, w2, w3, w4, w5⟩ := unop_call hh expElts p2
  have hwt : enumWeight hook logProb s0 = .ok w := by
    rw [enumWeight, l1]
    simp only [p1]
    rw [opCall, w1]
  set plate := Plate.mk name (E ^ d) (.storch w.ten (w.plates.map Plate.name)) .plain plates with hplate
  have hwpl : w.plates = lp0.plates := w3.trans p3
  have hlook := lookup_names (p := mcPlate inv name (E ^ d) plates) (p' := plate) (ps := plates) (qs := w.plates)
    rfl rfl hnd (by rw [hwpl]; exact fun q hq => (l3 q).1 hq)
  have hwp : (plate.weightPlates (w.plates.map Plate.name)) =
      (w.plates.map Plate.name).filterMap (fun s => (plate :: plates).find? (fun q => q.name == s)) := rfl
  have hlookn : ((plate.weightPlates (w.plates.map Plate.name)).filter (fun q => decide (1 < q.n))).map Plate.n =
      w.multiDimPlates.map Plate.n := by
    have := congrArg (List.map Prod.snd) hlook
    rw [List.map_map, List.map_map] at this
    exact this
  have hlooki : ∀ ι : String → Nat, ((plate.weightPlates (w.plates.map Plate.name)).filter
      (fun q => decide (1 < q.n))).map (fun q => ι q.name) = w.multiDimPlates.map (fun q => ι q.name) := by
    intro ι
    have := congrArg (List.map (fun x : String × Nat => ι x.1)) hlook
    rw [List.map_map, List.map_map] at this
    exact this
  refine ⟨⟨t, plate :: plates, mult.length + 1⟩, plate, ?_, rfl, rfl, rfl, rfl, rfl, ?_, ?_, ?_, ⟨_, _, rfl⟩, ?_⟩
  · rw [enumerate]
    simp only [← hplates, hany, Bool.false_eq_true, if_false]
    rw [t1]
    simp only [hhead]
    rw [if_neg (by omega), hmk]
    simp only [hwt]
    rfl
  · have hm : (⟨t, plate :: plates, mult.length + 1⟩ : STen α).multiDimPlates = plate :: mult := hfil _ rfl
    refine ⟨hnd, ?_, ?_, ?_⟩
    · intro p hp
      rcases List.mem_cons.1 hp with rfl | hp
      · exact hn1.le
      · exact h.sizes p hp
    · rw [hm, List.map_cons, show STen.eventShape ⟨t, plate :: plates, mult.length + 1⟩ = s0.eventShape from rfl, hev0]
      show t.shape = _
      rw [t2]
      simp [hplate, Plate.n]
    · rw [hm]; rfl
  · exact hev0
  · refine .storch w.ten (w.plates.map Plate.name) rfl hn1 w2.wf.names ?_ ?_ ?_
    · exact List.mem_map.2 ⟨mcPlate inv name (E ^ d) plates, by rw [hwpl, l3]; simp [hs0], rfl⟩
    · intro s hs
      obtain ⟨q, hq, rfl⟩ := List.mem_map.1 hs
      rw [hwpl, l3] at hq
      rcases List.mem_cons.1 hq with rfl | hq
      · exact List.mem_cons_self ..
      · exact List.mem_cons_of_mem _ (List.mem_map_of_mem hq)
    · rw [hlookn, w2.wf.shape, w4, p4, List.append_nil]
  · intro ι hι k hk
    have hsm : ∀ e f, Ten.InB e dims → Ten.InB f ev → ∀ hj : e.headD 0 < d,
        s0.sample ι (e ++ f) = support.get ((outcomes d E k ⟨e.headD 0, hj⟩ : Nat) :: f) := by
      intro e f he hf hj
      rw [STen.sample, hmd0, hev0, bidx_of_inB (Ten.inB_append he hf), List.map_cons]
      show t.get (ι name :: _ ++ _) = _
      rw [hk, List.cons_append, ← List.append_assoc]
      refine t3 k _ e f ?_ he hf hj
      exact inB_plates (fun p hp => hι p (List.mem_cons_of_mem _ (List.mem_filter.1 hp).1))
    refine ⟨?_, ?_⟩
    · intro e f he hf hj
      rw [← hsm e f he hf hj, STen.sample, STen.sample]
      have hm : (⟨t, plate :: plates, mult.length + 1⟩ : STen α).multiDimPlates = plate :: mult := hfil _ rfl
      rw [hm, hmd0]
      rfl
    · have : plate.weightAt id ι = w.sample ι [] := by
        rw [STen.sample, w4, p4, Ten.bidx, List.zipWith_nil_left, List.append_nil, ← hlooki ι]
        rfl
      rw [this, w5 ι [] (by rw [p4]; exact .nil), p5]
      show Autograd.exp _ = _
      congr 2
      apply List.map_congr_left
      intro e he
      have hin := mem_allIdx.1 he
      have hj : e.headD 0 < d := by
        rcases h.form with hdd | ⟨hdd, hd1⟩
        · rw [hdd] at hin
          cases hin with
          | cons h1 _ => exact h1
        · rw [hdd] at hin
          cases hin
          have := h.pos
          exact this
      rw [dif_pos hj]
      exact l5 ι e _ hin (fun f hf => hsm e f hin hf hj)

omit [ValEq α] [CommRing α] [Autograd α] in
/-- Over budget. -/
theorem enumTensor_budget [Zero α] (support : Ten α) {b dims ev : List Nat} {d E budget : Nat}
    (hs : support.shape = E :: ev) (hd : dims = [d] ∨ (dims = [] ∧ d = 1))
    (hb : budget < E ^ d) : enumTensor support (b ++ dims) b.length budget = .error .value := by
  have hsz : enumSizes dims (E, if dims = [] then 1 else 0) = (E ^ d, d) := by
    rcases hd with rfl | ⟨rfl, rfl⟩
    · simp [enumSizes]
    · simp [enumSizes]
  rw [enumTensor, hs]
  simp only [List.drop_left, hsz, if_pos hb]

end Storch
