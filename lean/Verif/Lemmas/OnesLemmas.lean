import Verif.Lemmas.ContribLemmas

/-! Element-wise calls on tensors that have one number per sample, in an event shape of ones. -/

namespace Storch
variable {α : Type _}

/-- The one number of the sample `ι`. -/
def Operand.one (ι : String → Nat) : Operand α → α
  | .st t _ => t.ten.get (t.multiDimPlates.map (fun p => ι p.name) ++ List.replicate t.eventDims 0)
  | .torch t => t.get []

/-- The number of event dimensions. -/
def Operand.ev : Operand α → Nat
  | .st t _ => t.eventDims
  | .torch _ => 0

variable [ValEq α]

/-- An operand with one number per sample, over plates of the pool. -/
def OnesOp (pool : List (Plate α)) : Operand α → Prop
  | .st t _ => t.WF ∧ t.eventShape = List.replicate t.eventDims 1 ∧ ∀ p ∈ t.plates, p ∈ pool
  | .torch t => t.shape = []

/-- An operand with one number per sample, `k` event dimensions, and the given plates and values. -/
structure OnesIs (pool : List (Plate α)) (o : Operand α) (k : Nat) (names : List String) (v : (String → Nat) → α) :
    Prop where
  ones : OnesOp pool o
  ev : o.ev = k
  closed : ParentClosed o.plates
  names : ∀ p ∈ pool, p ∈ o.plates ↔ p.name ∈ names
  val : ∀ ι, o.one ι = v ι

omit [ValEq α] in
theorem OnesOp.sub {pool : List (Plate α)} {o : Operand α} (h : OnesOp pool o) : ∀ p ∈ o.plates, p ∈ pool := by
  cases o with
  | st t s => exact h.2.2
  | torch t => intro p hp; cases hp

theorem bidx_ones : ∀ (k : Nat) (e : List Nat), k ≤ e.length → Ten.bidx (List.replicate k 1) e = List.replicate k 0 := by
  intro k
  induction k with
  | zero => intro e _; simp [Ten.bidx]
  | succ k ih =>
    intro e he
    cases e with
    | nil => simp at he
    | cons a e =>
      have := ih e (by simpa using he)
      rw [Ten.bidx] at this ⊢
      simp [List.replicate_succ, this]

theorem bshapes_ones (E : Nat) (l : List (List Nat)) (hl : ∀ s ∈ l, s = List.replicate E 1) (hne : l ≠ []) :
    Ten.bshapes l = some (List.replicate E 1) := by
  have hz : ∀ n, Ten.bzip (List.replicate n 1) (List.replicate n 1) = some (List.replicate n 1) := by
    intro n
    induction n with
    | zero => rfl
    | succ n ih => simp [List.replicate_succ, Ten.bzip, Ten.bdim, ih]
  have hn : ∀ (l : List (List Nat)), (∀ s ∈ l, s = List.replicate E 1) → l ≠ [] → (l.map List.length).foldr max 0 = E := by
    intro l
    induction l with
    | nil => intro _ h; exact absurd rfl h
    | cons a l ih =>
      intro h _
      have ha := h a (by simp)
      by_cases hl : l = []
      · subst hl; simp [ha]
      · have := ih (fun s hs => h s (List.mem_cons_of_mem _ hs)) hl
        rw [List.map_cons, List.foldr_cons, this, ha]; simp
  have hf : ∀ (l : List (List Nat)), (∀ s ∈ l, s = List.replicate E 1) →
      l.foldlM (fun acc s => Ten.bzip acc (Ten.padL E s)) (List.replicate E 1) = some (List.replicate E 1) := by
    intro l
    induction l with
    | nil => intro _; rfl
    | cons a l ih =>
      intro h
      have : Ten.padL E a = List.replicate E 1 := by rw [Ten.padL, h a (by simp)]; simp
      rw [List.foldlM_cons, this, hz]
      exact ih (fun s hs => h s (List.mem_cons_of_mem _ hs))
  rw [Ten.bshapes, hn l hl hne]
  exact hf l hl

omit [ValEq α] in
theorem one_sample {pool : List (Plate α)} {o : Operand α} (h : OnesOp pool o) (ι : String → Nat) {e : List Nat}
    (he : o.ev ≤ e.length) : o.sample ι e = o.one ι := by
  cases o with
  | st t s =>
    obtain ⟨-, h2, -⟩ := h
    rw [Operand.sample, STen.sample, Operand.one, h2, bidx_ones t.eventDims e he]
  | torch t =>
    have h1 : t.shape = [] := h
    rw [Operand.sample, Operand.one, h1]
    rfl

omit [ValEq α] in
theorem ev_le_maxEv {ops : List (Operand α)} {o : Operand α} (h : o ∈ ops) : o.ev ≤ maxEv ops := by
  cases o with
  | st t s => exact eventDims_le_maxEv (mem_stens.2 ⟨s, h⟩)
  | torch t => exact Nat.zero_le _

/-- An element-wise call on operands with one number per sample. -/
theorem ones_list {hook : UnwrapHook α} (hh : PlainHook hook) {pool : List (Plate α)} (hp : PoolOK pool)
    (f : List α → α) {ops : List (Operand α)} (h : ∀ o ∈ ops, OnesOp pool o) (hst : stens ops ≠ []) :
    ∃ r, opCall hook f ops = .ok (.st r false) ∧ OnesOp pool (.st r false) ∧ r.eventDims = maxEv ops ∧
      (∀ p, p ∈ r.plates ↔ ∃ o ∈ ops, p ∈ o.plates) ∧
      ∀ ι, (Operand.st r false).one ι = f (ops.map (fun o => o.one ι)) := by
  have hne : ops ≠ [] := by rintro rfl; exact hst rfl
  have key : ∀ t ∈ stens ops, t.WF ∧ ∀ p ∈ t.plates, p ∈ pool := by
    intro t ht
    obtain ⟨s, hs⟩ := mem_stens.1 ht
    exact ⟨(h _ hs).1, (h _ hs).2.2⟩
  have hg : GoodOps ops := by
    refine ⟨fun t ht => (key t ht).1, fun t ht p hp' => hp.plain p ((key t ht).2 p hp'), ?_⟩
    intro t ht t' ht' p hp1 q hq he
    rw [pool_eq hp ((key t ht).2 p hp1) ((key t' ht').2 q hq) he]
    exact Plate.pyEq_refl _
  have hes : Ten.bshapes (ops.map (Operand.evShape (maxEv ops))) = some (List.replicate (maxEv ops) 1) := by
    apply bshapes_ones
    · intro s hs
      obtain ⟨o, ho, rfl⟩ := List.mem_map.1 hs
      have hle := ev_le_maxEv ho
      cases o with
      | st t s =>
        rw [Operand.evShape, (h _ ho).2.1, ← List.replicate_add]
        congr 1
        simp only [Operand.ev] at hle; omega
      | torch t =>
        have : t.shape = [] := h _ ho
        rw [Operand.evShape, Ten.ndim, this]; simp
    · simpa using hne
  obtain ⟨r, a1, a2, a3, a4, a5⟩ := C05_elementwise hook hh f ops hg hst (by
    intro t ht
    have : t.shape = [] := h _ ht
    rw [Ten.ndim, this]; simp) _ hes
  have hed : r.eventDims = maxEv ops := by rw [STen.eventDims, a4]; simp
  have hsub : ∀ p ∈ r.plates, ∃ o ∈ ops, p ∈ o.plates := by
    intro p hpr
    obtain ⟨t, ht, htp⟩ := List.mem_flatMap.1 (a3.sub.subset hpr)
    obtain ⟨s, hs⟩ := mem_stens.1 ht
    exact ⟨_, hs, htp⟩
  have hro : OnesOp pool (.st r false) := by
    refine ⟨a2, by rw [hed, a4], ?_⟩
    intro p hpr
    obtain ⟨o, ho, hm⟩ := hsub p hpr
    exact (h o ho).sub p hm
  refine ⟨r, by rw [opCall, a1], hro, hed, ?_, ?_⟩
  · intro p
    refine ⟨hsub p, ?_⟩
    rintro ⟨o, ho, hm⟩
    cases o with
    | torch t => cases hm
    | st t s =>
      obtain ⟨q, hq, he⟩ := a3.complete p (List.mem_flatMap.2 ⟨t, mem_stens.2 ⟨s, ho⟩, hm⟩)
      have : q = p := pool_eq hp (hro.2.2 q hq) ((h _ ho).sub p hm) (Plate.pyEq_name he)
      exact this ▸ hq
  · intro ι
    have hb : Ten.InB (List.replicate (maxEv ops) 0) (List.replicate (maxEv ops) 1) := by
      generalize maxEv ops = n
      induction n with
      | zero => exact .nil
      | succ n ih => rw [List.replicate_succ, List.replicate_succ]; exact .cons (by omega) ih
    have := a5 ι _ hb
    rw [← one_sample hro ι (e := List.replicate (maxEv ops) 0) (by simp [Operand.ev, hed]), Operand.sample, this]
    congr 1
    apply List.map_congr_left
    intro o ho
    exact one_sample (h o ho) ι (by simpa using ev_le_maxEv ho)

omit [ValEq α] in
theorem maxEv_pair (x y : Operand α) : maxEv [x, y] = max x.ev y.ev := by
  cases x <;> cases y <;> simp [maxEv, stens, Operand.ev]

omit [ValEq α] in
theorem maxEv_one (x : Operand α) : maxEv [x] = x.ev := by
  cases x <;> simp [maxEv, stens, Operand.ev]

/-- A call of two operands. -/
theorem ones_pair {hook : UnwrapHook α} (hh : PlainHook hook) {pool : List (Plate α)} (hp : PoolOK pool)
    (f : List α → α) {x y : Operand α} {kx ky : Nat} {nx ny : List String} {vx vy : (String → Nat) → α}
    (hx : OnesIs pool x kx nx vx) (hy : OnesIs pool y ky ny vy) (hs : (∃ t s, x = .st t s) ∨ ∃ t s, y = .st t s) :
    ∃ r, opCall hook f [x, y] = .ok (.st r false) ∧
      OnesIs pool (.st r false) (max kx ky) (nx ++ ny) (fun ι => f [vx ι, vy ι]) := by
  obtain ⟨r, r1, r2, r3, r4, r5⟩ := ones_list hh hp f (ops := [x, y]) (by
    intro o ho
    simp only [List.mem_cons, List.not_mem_nil, or_false] at ho
    rcases ho with rfl | rfl
    exacts [hx.ones, hy.ones]) (by
      rcases hs with ⟨t, s, rfl⟩ | ⟨t, s, rfl⟩
      · simp [stens]
      · cases x <;> simp [stens])
  refine ⟨r, r1, r2, ?_, closed_union r4 ?_, ?_, ?_⟩
  · rw [← hx.ev, ← hy.ev, ← maxEv_pair]; exact r3
  · intro o ho
    simp only [List.mem_cons, List.not_mem_nil, or_false] at ho
    rcases ho with rfl | rfl
    exacts [hx.closed, hy.closed]
  · intro p hm
    rw [Operand.plates, r4 p]
    simp only [List.mem_cons, List.not_mem_nil, or_false, exists_eq_or_imp, exists_eq_left, List.mem_append]
    rw [hx.names p hm, hy.names p hm]
  · intro ι
    rw [r5 ι]
    simp [hx.val, hy.val]

/-- A call of one operand. -/
theorem ones_single {hook : UnwrapHook α} (hh : PlainHook hook) {pool : List (Plate α)} (hp : PoolOK pool)
    (f : List α → α) {x : Operand α} {kx : Nat} {nx : List String} {vx : (String → Nat) → α}
    (hx : OnesIs pool x kx nx vx) (hs : ∃ t s, x = .st t s) :
    ∃ r, opCall hook f [x] = .ok (.st r false) ∧ OnesIs pool (.st r false) kx nx (fun ι => f [vx ι]) := by
  obtain ⟨r, r1, r2, r3, r4, r5⟩ := ones_list hh hp f (ops := [x]) (by simpa using hx.ones) (by
      obtain ⟨t, s, rfl⟩ := hs
      simp [stens])
  have hpl : ∀ p, p ∈ r.plates ↔ p ∈ x.plates := by intro p; rw [r4 p]; simp
  refine ⟨r, r1, r2, ?_, closed_union r4 (by simpa using hx.closed), ?_, ?_⟩
  · rw [← hx.ev, ← maxEv_one x]; exact r3
  · intro p hm
    rw [Operand.plates, hpl p, hx.names p hm]
  · intro ι
    rw [r5 ι]
    simp [hx.val]

/-- Operands without event dimensions. -/
theorem ones_of_opIs {pool : List (Plate α)} {o : Operand α} {ns : List String} {v : (String → Nat) → α}
    (h : OpIs pool o ns v) : OnesIs pool o 0 ns v := by
  have hs := h.scalar
  cases o with
  | st t s =>
    have hd : t.eventDims = 0 := by rw [STen.eventDims, hs.2.1]; rfl
    refine ⟨⟨hs.1, by rw [hd, hs.2.1]; rfl, hs.2.2⟩, hd, h.closed, h.names, ?_⟩
    intro ι
    rw [← h.val ι, Operand.one, Operand.at, Operand.sample, STen.sample, hd, hs.2.1]
    rfl
  | torch t =>
    refine ⟨hs, rfl, h.closed, h.names, ?_⟩
    intro ι
    have h1 : t.shape = [] := hs
    rw [← h.val ι, Operand.one, Operand.at, Operand.sample, h1]
    rfl

theorem opIs_of_ones {pool : List (Plate α)} {o : Operand α} {ns : List String} {v : (String → Nat) → α}
    (h : OnesIs pool o 0 ns v) : OpIs pool o ns v := by
  have hs := h.ones
  have he := h.ev
  cases o with
  | st t s =>
    have hd : t.eventDims = 0 := he
    have hes : t.eventShape = [] := by rw [hs.2.1, hd]; rfl
    refine ⟨⟨hs.1, hes, hs.2.2⟩, h.closed, h.names, ?_⟩
    intro ι
    rw [← h.val ι, Operand.one, Operand.at, Operand.sample, STen.sample, hd, hes]
    rfl
  | torch t =>
    refine ⟨hs, h.closed, h.names, ?_⟩
    intro ι
    have h1 : t.shape = [] := hs
    rw [← h.val ι, Operand.one, Operand.at, Operand.sample, h1]
    rfl

end Storch
