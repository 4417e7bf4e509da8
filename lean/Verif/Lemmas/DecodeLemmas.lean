import Verif.Model.Decode
import Mathlib.Algebra.BigOperators.Group.List.Basic
import Mathlib.Algebra.Order.Ring.Nat
import Mathlib.Tactic.Ring

/-!
# One decoding step without replacement
-/

namespace Storch.Decode

variable {α : Type _}

/-- What is used of `torch.topk` whatever the values are: as many indices as asked for, all different, all valid. -/
structure Picks (topk : Nat → List (WithBot α) → List α → List Nat) : Prop where
  len : ∀ m l j, m ≤ l.length → j.length = l.length → (topk m l j).length = m
  nodup : ∀ m l j, m ≤ l.length → j.length = l.length → (topk m l j).Nodup
  inRange : ∀ m l j, m ≤ l.length → j.length = l.length → ∀ i ∈ topk m l j, i < l.length

theorem gatherL_spec {β : Type _} {l : List β} : ∀ {is : List Nat} {r : List β}, gatherL l is = .ok r →
    r.length = is.length ∧ ∀ q (h : q < is.length), l[is[q]]? = r[q]? := by
  intro is
  induction is with
  | nil => intro r h; simp only [gatherL, Except.ok.injEq] at h; subst h; simp
  | cons i is ih =>
    intro r h
    simp only [gatherL] at h
    cases hi : l[i]? with
    | none => rw [hi] at h; simp at h
    | some a =>
      rw [hi] at h
      cases hg : gatherL l is with
      | error e => rw [hg] at h; simp at h
      | ok r' =>
        rw [hg] at h
        simp only [Except.ok.injEq] at h
        subst h
        obtain ⟨h1, h2⟩ := ih hg
        refine ⟨by simp [h1], ?_⟩
        intro q hq
        cases q with
        | zero => simpa using hi
        | succ q => simpa using h2 q (by simpa using hq)

theorem gatherL_ok {β : Type _} {l : List β} : ∀ {is : List Nat}, (∀ i ∈ is, i < l.length) →
    ∃ r, gatherL l is = .ok r := by
  intro is
  induction is with
  | nil => intro _; exact ⟨[], rfl⟩
  | cons i is ih =>
    intro h
    obtain ⟨r, hr⟩ := ih (fun j hj => h j (List.mem_cons_of_mem _ hj))
    have hi := h i List.mem_cons_self
    exact ⟨l[i] :: r, by simp only [gatherL, List.getElem?_eq_getElem hi, hr]⟩

theorem setCells_spec {ev : Nat} : ∀ {vs : List Nat} {rows out : List (List Nat)}, setCells ev vs rows = .ok out →
    vs.length ≤ rows.length ∧ out.length = rows.length ∧
      (∀ q (h : q < vs.length), out[q]? = rows[q]?.map (fun r => r.set ev vs[q])) := by
  intro vs
  induction vs with
  | nil => intro rows out h; simp only [setCells, Except.ok.injEq] at h; subst h; simp
  | cons v vs ih =>
    intro rows out h
    cases rows with
    | nil => simp [setCells] at h
    | cons r rs =>
      simp only [setCells] at h
      cases hs : setCells ev vs rs with
      | error e => rw [hs] at h; simp at h
      | ok rs' =>
        rw [hs] at h
        simp only [Except.ok.injEq] at h
        subst h
        obtain ⟨h1, h2, h3⟩ := ih hs
        refine ⟨by simpa using h1, by simp [h2], ?_⟩
        intro q hq
        cases q with
        | zero => simp
        | succ q => simpa using h3 q (by simpa using hq)

theorem setCells_ok {ev : Nat} : ∀ {vs : List Nat} {rows : List (List Nat)}, vs.length ≤ rows.length →
    ∃ out, setCells ev vs rows = .ok out := by
  intro vs
  induction vs with
  | nil => intro rows _; exact ⟨rows, rfl⟩
  | cons v vs ih =>
    intro rows h
    cases rows with
    | nil => simp at h
    | cons r rs =>
      obtain ⟨out, ho⟩ := ih (rows := rs) (by simpa using h)
      exact ⟨r.set ev v :: out, by simp only [setCells, ho]⟩

/-- Reading a matrix with rows of equal length after `reshape`. -/
theorem flatten_get {β : Type _} {D : Nat} : ∀ {rows : List (List β)}, (∀ r ∈ rows, r.length = D) →
    rows.flatten.length = rows.length * D ∧
      ∀ a, a < rows.length * D → rows.flatten[a]? = (rows[a / D]?).bind (fun r => r[a % D]?) := by
  intro rows
  induction rows with
  | nil => intro _; simp
  | cons r rs ih =>
    intro h
    have hr : r.length = D := h r List.mem_cons_self
    obtain ⟨h1, h2⟩ := ih (fun x hx => h x (List.mem_cons_of_mem _ hx))
    refine ⟨by simp [h1, hr, Nat.add_mul, Nat.add_comm], ?_⟩
    intro a ha
    rw [List.flatten_cons]
    by_cases hlt : a < D
    · rw [List.getElem?_append_left (by omega), Nat.div_eq_of_lt hlt, Nat.mod_eq_of_lt hlt]
      simp
    · rw [List.getElem?_append_right (by omega), hr]
      have hD : 0 < D := by
        rcases Nat.eq_zero_or_pos D with h0 | h0
        · subst h0; simp at ha
        · exact h0
      have hlen : (r :: rs).length * D = rs.length * D + D := by simp [Nat.add_mul]
      rw [h2 (a - D) (by omega)]
      have e1 : a / D = (a - D) / D + 1 := by
        rw [Nat.div_eq_sub_div hD (by omega)]
      have e2 : a % D = (a - D) % D := by
        rw [Nat.mod_eq_sub_mod (by omega)]
      rw [e1, e2]
      simp

variable [AddCommMonoid α]

/-- The token of sample `r` at event cell `i`. -/
def Beam.tok (b : Beam α) (r i : Nat) : Nat := (b.sampled.getD r []).getD i 0

/-- What holds after `e` event cells were decoded, when there were `n₀` sequences with joint log-probabilities `J`
before: sample `r` comes from sequence `par r`. -/
structure Inv (k : Nat) (d : Dist α) (n₀ : Nat) (J : Nat → α) (first : Bool) (e : Nat) (par : Nat → Nat)
    (b : Beam α) : Prop where
  amt : b.amt = min k (n₀ * d.dom ^ e)
  joint : ∃ j, b.joint = some j ∧ j.length = b.amt ∧ ∀ r < b.amt, j[r]? =
    some (J (par r) + ((List.range e).map (fun i => d.logProb (d.row (par r)) i (b.tok r i))).sum)
  rows : ∀ r < b.amt, ∃ row, b.sampled[r]? = some row ∧ row.length = d.cells
  tokens : ∀ r < b.amt, ∀ i < e, b.tok r i < d.dom
  parents : ∀ r < b.amt, par r < n₀
  distinct : ∀ r < b.amt, ∀ r' < b.amt, par r = par r' → (∀ i < e, b.tok r i = b.tok r' i) → r = r'
  size : b.sampled.length = if e = 0 ∨ (first = true ∧ e = 1) then k else b.amt
  indexing : if first then b.parentIdx = none else ∃ pi, b.parentIdx = some pi ∧
    (pi.length = if e = 0 then k else b.amt) ∧ ∀ r < b.amt, pi[r]? = some (par r)

/-- The log-probabilities of all candidates. -/
theorem allJoint_inv {k : Nat} {d : Dist α} {n₀ : Nat} {J : Nat → α} {first : Bool} {e ev : Nat} {par : Nat → Nat}
    {b : Beam α} (h : Inv k d n₀ J first e par b) (hf : first = true → d.cond = false) :
    ∃ all, allJoint d ev b = .ok all ∧ all.length = b.amt ∧ (∀ r ∈ all, r.length = d.dom) ∧
      ∀ r < b.amt, ∀ t < d.dom, (all[r]?).bind (fun row => row[t]?) =
        some (J (par r) + ((List.range e).map (fun i => d.logProb (d.row (par r)) i (b.tok r i))).sum +
          d.logProb (d.row (par r)) ev t) := by
  obtain ⟨j, hj, hjl, hjv⟩ := h.joint
  cases hc : d.cond with
  | false =>
    refine ⟨j.map (fun jl => (List.range d.dom).map (fun t => jl + d.logProb 0 ev t)),
      by simp only [allJoint, hj, hc, Bool.false_eq_true, if_false], by simp [hjl], ?_, ?_⟩
    · intro r hr; simp only [List.mem_map] at hr; obtain ⟨x, _, rfl⟩ := hr; simp
    · intro r hr t ht
      have := hjv r hr
      simp only [Dist.row, hc, Bool.false_eq_true, if_false] at this ⊢
      rw [List.getElem?_map, this]
      simp [ht]
  | true =>
    have hfirst : first = false := by
      cases first with
      | false => rfl
      | true => have := hf rfl; rw [hc] at this; simp at this
    have hix := h.indexing
    rw [hfirst] at hix
    simp only [Bool.false_eq_true, if_false] at hix
    obtain ⟨pi, hpi, hpl, hpv⟩ := hix
    have hle : b.amt ≤ pi.length := by
      rw [hpl]; split
      · rw [h.amt]; exact Nat.min_le_left _ _
      · exact le_refl _
    have hlen : j.length = (pi.take b.amt).length := by rw [List.length_take, hjl]; omega
    refine ⟨List.zipWith (fun jl p => (List.range d.dom).map (fun t => jl + d.logProb p ev t)) j (pi.take b.amt),
      by simp only [allJoint, hj, hc, hpi, hlen, if_true], by rw [List.length_zipWith, ← hlen, hjl]; simp, ?_, ?_⟩
    · intro r hr
      obtain ⟨q, hq, rfl⟩ := List.mem_iff_getElem.1 hr
      simp
    · intro r hr t ht
      have h1 := hjv r hr
      have h2 := hpv r hr
      have h3 : (pi.take b.amt)[r]? = some (par r) := by rw [List.getElem?_take_of_lt hr, h2]
      rw [List.getElem?_zipWith, h1, h3]
      simp [ht, Dist.row, hc]

omit [AddCommMonoid α] in
theorem applyFinished_shape {eos : Option Nat} {fin : Option Mask} {p : Option (List (WithBot α))} {dom : Nat}
    {G G' : List (List (WithBot α))} (h : applyFinished eos fin p dom G = .ok G')
    (hG : ∀ r ∈ G, r.length = dom) : G'.length = G.length ∧ ∀ r ∈ G', r.length = dom := by
  cases fin with
  | none => simp only [applyFinished, Except.ok.injEq] at h; subst h; exact ⟨rfl, hG⟩
  | some m =>
    cases m with
    | cells => simp [applyFinished] at h
    | rows m =>
      cases eos with
      | none => simp [applyFinished] at h
      | some e =>
        cases p with
        | none => simp [applyFinished] at h
        | some ps =>
          simp only [applyFinished] at h
          split at h
          · simp at h
          · rename_i h1
            split at h
            · simp at h
            · split at h
              · simp at h
              · rename_i h3
                simp only [Except.ok.injEq] at h
                subst h
                refine ⟨?_, ?_⟩
                · simp only [List.length_zipWith, List.length_zip]; omega
                · intro r hr
                  obtain ⟨q, hq, rfl⟩ := List.mem_iff_getElem.1 hr
                  rw [List.getElem_zipWith]
                  split
                  · simp
                  · exact hG _ (List.getElem_mem _)

omit [AddCommMonoid α] in
/-- The matrix of noise has the shape of the candidates. -/
theorem noise_shape (n dom : Nat) (noise : Nat → Nat → WithBot α) :
    ∀ r ∈ (List.range n).map (fun r => (List.range dom).map (noise r)), r.length = dom := by
  intro r hr
  simp only [List.mem_map] at hr
  obtain ⟨x, _, rfl⟩ := hr
  simp

omit [AddCommMonoid α] in
theorem getD_of_get? {β : Type _} {l : List β} {i : Nat} {a x : β} (h : l[i]? = some a) : l.getD i x = a := by
  simp [List.getD, h]

/-- Two candidates with the same parent and the same token are the same candidate. -/
theorem divmod_inj {D a b : Nat} (h1 : a / D = b / D) (h2 : a % D = b % D) : a = b := by
  rw [← Nat.div_add_mod a D, ← Nat.div_add_mod b D, h1, h2]

theorem min_mul_min (k n D : Nat) (hD : 1 ≤ D) : min k (min k n * D) = min k (n * D) := by
  rcases Nat.le_total k n with h | h
  · rw [Nat.min_eq_left h]
    have h1 : k ≤ k * D := Nat.le_mul_of_pos_right k hD
    have h2 : n ≤ n * D := Nat.le_mul_of_pos_right n hD
    omega
  · rw [Nat.min_eq_right h]

/-- A later step (there are sequences already) keeps the invariant. -/
theorem decodeStep_inv {k : Nat} {eos : Option Nat} {topk : Nat → List (WithBot α) → List α → List Nat} (hp : Picks topk)
    {fin : Option Mask} {d : Dist α} {n₀ : Nat} {J : Nat → α} {first : Bool} {e : Nat} {par : Nat → Nat}
    {b b' : Beam α} {p : Option (List (WithBot α))} {p' : List (WithBot α)} {noise : Nat → Nat → WithBot α}
    (hD : 1 ≤ d.dom) (hfe : first = true → d.cond = false ∧ 0 < e) (he : e < d.cells)
    (h : Inv k d n₀ J first e par b) (hs : decodeStep k eos topk fin d e noise b p = .ok (b', p')) :
    ∃ par', Inv k d n₀ J first (e + 1) par' b' ∧ p'.length = b'.amt ∧
      ∃ G all, allJoint d e b = .ok all ∧ all.flatten.length = G.flatten.length ∧ applyFinished eos fin p d.dom
          ((List.range b.amt).map (fun r => (List.range d.dom).map (noise r))) = .ok G ∧
        ∀ r < b'.amt, ∃ a ∈ topk (min k G.flatten.length) G.flatten all.flatten, a / d.dom < b.amt ∧ par' r = par (a / d.dom) ∧
          b'.tok r e = a % d.dom ∧ p'[r]? = G.flatten[a]? := by
  obtain ⟨all, hall, hlen, hrow, hval⟩ := allJoint_inv (ev := e) h (fun hf => (hfe hf).1)
  obtain ⟨j, hj, hjl, hjv⟩ := h.joint
  simp only [decodeStep, hall] at hs
  cases hG : applyFinished eos fin p d.dom
      ((List.range all.length).map (fun r => (List.range d.dom).map (noise r))) with
  | error er => rw [hG] at hs; simp at hs
  | ok G =>
    rw [hG] at hs
    obtain ⟨hGl, hGr⟩ := applyFinished_shape hG (noise_shape _ _ _)
    simp only [List.length_map, List.length_range] at hGl
    rw [hlen] at hG
    simp only [] at hs
    obtain ⟨hGf, _⟩ := flatten_get hGr
    obtain ⟨hAf, hAv⟩ := flatten_get hrow
    have hsz : G.flatten.length = b.amt * d.dom := by rw [hGf, hGl, hlen]
    have hsz' : all.flatten.length = b.amt * d.dom := by rw [hAf, hlen]
    generalize harg : topk (min k G.flatten.length) G.flatten all.flatten = arg at hs
    have hal : arg.length = min k (b.amt * d.dom) := by
      rw [← harg, hp.len _ _ _ (Nat.min_le_right _ _) (by omega), hsz]
    have hnd : arg.Nodup := by rw [← harg]; exact hp.nodup _ _ _ (Nat.min_le_right _ _) (by omega)
    have hrg : ∀ i ∈ arg, i < b.amt * d.dom := by
      intro i hi; rw [← harg] at hi; rw [← hsz]; exact hp.inRange _ _ _ (Nat.min_le_right _ _) (by omega) i hi
    cases hg1 : gatherL G.flatten arg with
    | error er => rw [hg1] at hs; simp at hs
    | ok pert =>
    cases hg2 : gatherL all.flatten arg with
    | error er => rw [hg1, hg2] at hs; simp at hs
    | ok jt =>
    rw [hg1, hg2, hj] at hs
    simp only [] at hs
    cases hg3 : gatherL b.sampled (arg.map (· / d.dom)) with
    | error er => rw [hg3] at hs; simp at hs
    | ok rows =>
    rw [hg3] at hs
    simp only [] at hs
    cases hg4 : setCells e (arg.map (· % d.dom)) rows with
    | error er => rw [hg4] at hs; simp at hs
    | ok smp =>
    rw [hg4] at hs
    simp only [] at hs
    obtain ⟨gj1, gj2⟩ := gatherL_spec hg2
    obtain ⟨gp1, gp2⟩ := gatherL_spec hg1
    obtain ⟨gr1, gr2⟩ := gatherL_spec hg3
    obtain ⟨gs0, gs1, gs2⟩ := setCells_spec hg4
    simp only [List.length_map] at gr1 gr2 gs0 gs1 gs2
    -- the sample that candidate `r` extends
    have hdiv : ∀ r (hr : r < arg.length), arg[r] / d.dom < b.amt := by
      intro r hr
      have := hrg _ (List.getElem_mem hr)
      rw [Nat.mul_comm] at this
      exact Nat.div_lt_of_lt_mul this
    have hmod : ∀ r (hr : r < arg.length), arg[r] % d.dom < d.dom := fun r hr => Nat.mod_lt _ hD
    -- rows of the new samples
    have hnew : ∀ r (hr : r < arg.length), ∃ row, b.sampled[arg[r] / d.dom]? = some row ∧ row.length = d.cells ∧
        smp[r]? = some (row.set e (arg[r] % d.dom)) := by
      intro r hr
      obtain ⟨row, h1, h2⟩ := h.rows _ (hdiv r hr)
      refine ⟨row, h1, h2, ?_⟩
      have h3 := gr2 r hr
      rw [List.getElem_map, h1] at h3
      have h4 := gs2 r hr
      rw [← h3, List.getElem_map] at h4
      simpa using h4
    let par' : Nat → Nat := fun r => par (arg.getD r 0 / d.dom)
    have hpar' : ∀ r (hr : r < arg.length), par' r = par (arg[r] / d.dom) := by
      intro r hr; simp only [par', List.getD, List.getElem?_eq_getElem hr, Option.getD_some]
    have key : ∀ bb : Beam α, bb.sampled = smp → bb.joint = some jt → bb.amt = arg.length →
        (if first then bb.parentIdx = none else ∃ pi, bb.parentIdx = some pi ∧
          (pi.length = if e + 1 = 0 then k else bb.amt) ∧ ∀ r < bb.amt, pi[r]? = some (par' r)) →
        Inv k d n₀ J first (e + 1) par' bb ∧ pert.length = bb.amt ∧
          ∃ G all, allJoint d e b = .ok all ∧ all.flatten.length = G.flatten.length ∧ applyFinished eos fin p d.dom
              ((List.range b.amt).map (fun r => (List.range d.dom).map (noise r))) = .ok G ∧
            ∀ r < bb.amt, ∃ a ∈ topk (min k G.flatten.length) G.flatten all.flatten, a / d.dom < b.amt ∧
              par' r = par (a / d.dom) ∧ bb.tok r e = a % d.dom ∧ pert[r]? = G.flatten[a]? := by
      intro bb hb1 hb2 hb3 hb4
      have htok : ∀ r (hr : r < arg.length) i, i ≤ e → bb.tok r i =
          if i = e then arg[r] % d.dom else b.tok (arg[r] / d.dom) i := by
        intro r hr i hi
        obtain ⟨row, h1, h2, h3⟩ := hnew r hr
        simp only [Beam.tok, hb1]
        rw [getD_of_get? h3, getD_of_get? h1]
        simp only [List.getD, List.getElem?_set]
        by_cases hie : i = e
        · subst hie; simp [h2, he]
        · rw [if_neg (fun hh => hie hh.symm), if_neg hie]
      refine ⟨⟨?_, ⟨jt, hb2, by rw [gj1, hb3], ?_⟩, ?_, ?_, ?_, ?_, ?_, hb4⟩, by rw [gp1, hb3], G, all, hall, by omega, hG, ?_⟩
      · rw [hb3, hal, h.amt, min_mul_min _ _ _ hD, Nat.pow_succ, Nat.mul_assoc]
      · intro r hr
        rw [hb3] at hr
        rw [← gj2 r hr, hAv _ (by rw [hlen]; exact hrg _ (List.getElem_mem hr)), hval _ (hdiv r hr) _ (hmod r hr),
          hpar' r hr, List.range_succ, List.map_append, List.sum_append]
        simp only [List.map_cons, List.map_nil, List.sum_cons, List.sum_nil, add_zero]
        rw [htok r hr e (le_refl _), if_pos rfl, add_assoc]
        congr 3
        · congr 1
          apply List.map_congr_left
          intro i hi
          rw [List.mem_range] at hi
          rw [htok r hr i (by omega), if_neg (by omega)]
      · intro r hr
        rw [hb3] at hr
        obtain ⟨row, h1, h2, h3⟩ := hnew r hr
        exact ⟨_, by rw [hb1]; exact h3, by simp [h2]⟩
      · intro r hr i hi
        rw [hb3] at hr
        rw [htok r hr i (by omega)]
        split
        · exact hmod r hr
        · exact h.tokens _ (hdiv r hr) i (by omega)
      · intro r hr
        rw [hb3] at hr
        rw [hpar' r hr]
        exact h.parents _ (hdiv r hr)
      · intro r hr r' hr' hpp htt
        rw [hb3] at hr hr'
        rw [hpar' r hr, hpar' r' hr'] at hpp
        have hdd : arg[r] / d.dom = arg[r'] / d.dom := by
          refine h.distinct _ (hdiv r hr) _ (hdiv r' hr') hpp ?_
          intro i hi
          have := htt i (by omega)
          rw [htok r hr i (by omega), htok r' hr' i (by omega), if_neg (by omega), if_neg (by omega)] at this
          exact this
        have hmm : arg[r] % d.dom = arg[r'] % d.dom := by
          have := htt e (by omega)
          rw [htok r hr e (le_refl _), htok r' hr' e (le_refl _), if_pos rfl, if_pos rfl] at this
          exact this
        exact (List.Nodup.getElem_inj_iff hnd).1 (divmod_inj hdd hmm)
      · rw [hb1, gs1, gr1, hb3, if_neg]
        rintro (h0 | ⟨hf, h1⟩)
        · omega
        · have := (hfe hf).2; omega
      · intro r hr
        rw [hb3] at hr
        refine ⟨arg[r], by rw [harg]; exact List.getElem_mem hr, hdiv r hr, hpar' r hr, ?_, (gp2 r hr).symm⟩
        rw [htok r hr e (le_refl _), if_pos rfl]
    have hix := h.indexing
    cases first with
    | true =>
      simp only [if_true] at hix
      rw [hix] at hs
      simp only [Except.ok.injEq, Prod.mk.injEq] at hs
      obtain ⟨hs1, hs2⟩ := hs
      refine ⟨par', ?_⟩
      rw [← hs2]
      exact key b' (by rw [← hs1]) (by rw [← hs1]) (by rw [← hs1]) (by rw [← hs1]; simp)
    | false =>
      simp only [Bool.false_eq_true, if_false] at hix
      obtain ⟨pi, hpi, hpl, hpv⟩ := hix
      rw [hpi] at hs
      simp only [] at hs
      cases hg5 : gatherL pi (arg.map (· / d.dom)) with
      | error er => rw [hg5] at hs; simp at hs
      | ok pi' =>
      rw [hg5] at hs
      simp only [Except.ok.injEq, Prod.mk.injEq] at hs
      obtain ⟨hs1, hs2⟩ := hs
      obtain ⟨gi1, gi2⟩ := gatherL_spec hg5
      simp only [List.length_map] at gi1 gi2
      refine ⟨par', ?_⟩
      rw [← hs2]
      refine key b' (by rw [← hs1]) (by rw [← hs1]) (by rw [← hs1]) ?_
      rw [← hs1]
      simp only [Bool.false_eq_true, if_false]
      refine ⟨pi', rfl, by simp [gi1], ?_⟩
      intro r hr
      rw [← gi2 r hr, List.getElem_map, hpv _ (hdiv r hr), hpar' r hr]

/-- A later step succeeds if the finished samples can be masked. -/
theorem decodeStep_ok {k : Nat} {eos : Option Nat} {topk : Nat → List (WithBot α) → List α → List Nat} (hp : Picks topk)
    {fin : Option Mask} {d : Dist α} {n₀ : Nat} {J : Nat → α} {first : Bool} {e : Nat} {par : Nat → Nat}
    {b : Beam α} {p : Option (List (WithBot α))} {noise : Nat → Nat → WithBot α}
    (hfe : first = true → d.cond = false ∧ 0 < e)
    (h : Inv k d n₀ J first e par b)
    (hm : ∀ G : List (List (WithBot α)), G.length = b.amt → ∃ G', applyFinished eos fin p d.dom G = .ok G') :
    ∃ out, decodeStep k eos topk fin d e noise b p = .ok out := by
  obtain ⟨all, hall, hlen, hrow, hval⟩ := allJoint_inv (ev := e) h (fun hf => (hfe hf).1)
  obtain ⟨j, hj, hjl, hjv⟩ := h.joint
  obtain ⟨G, hG⟩ := hm ((List.range all.length).map (fun r => (List.range d.dom).map (noise r))) (by simp [hlen])
  obtain ⟨hGl, hGr⟩ := applyFinished_shape hG (noise_shape _ _ _)
  simp only [List.length_map, List.length_range] at hGl
  obtain ⟨hGf, _⟩ := flatten_get hGr
  obtain ⟨hAf, hAv⟩ := flatten_get hrow
  have hsz : G.flatten.length = b.amt * d.dom := by rw [hGf, hGl, hlen]
  have hsz' : all.flatten.length = b.amt * d.dom := by rw [hAf, hlen]
  simp only [decodeStep, hall, hG]
  generalize harg : topk (min k G.flatten.length) G.flatten all.flatten = arg
  have hal : arg.length = min k (b.amt * d.dom) := by
    rw [← harg, hp.len _ _ _ (Nat.min_le_right _ _) (by omega), hsz]
  have hrg : ∀ i ∈ arg, i < b.amt * d.dom := by
    intro i hi; rw [← harg] at hi; rw [← hsz]; exact hp.inRange _ _ _ (Nat.min_le_right _ _) (by omega) i hi
  obtain ⟨pert, hg1⟩ := gatherL_ok (l := G.flatten) (is := arg) (fun i hi => by rw [hsz]; exact hrg i hi)
  obtain ⟨jt, hg2⟩ := gatherL_ok (l := all.flatten) (is := arg) (fun i hi => by rw [hsz']; exact hrg i hi)
  have hamtk : b.amt ≤ k := by rw [h.amt]; exact Nat.min_le_left _ _
  have hdiv : ∀ i ∈ arg.map (· / d.dom), i < b.amt := by
    intro i hi
    rw [List.mem_map] at hi
    obtain ⟨a, ha, rfl⟩ := hi
    have := hrg a ha
    rw [Nat.mul_comm] at this
    exact Nat.div_lt_of_lt_mul this
  have hle : b.amt ≤ b.sampled.length := by
    rw [h.size]; split
    · exact hamtk
    · exact le_refl _
  obtain ⟨rows, hg3⟩ := gatherL_ok (l := b.sampled) (is := arg.map (· / d.dom))
    (fun i hi => lt_of_lt_of_le (hdiv i hi) hle)
  obtain ⟨gr1, _⟩ := gatherL_spec hg3
  obtain ⟨smp, hg4⟩ := setCells_ok (ev := e) (vs := arg.map (· % d.dom)) (rows := rows) (by
    rw [gr1]; simp)
  simp only [hg1, hg2, hj, hg3, hg4]
  have hix := h.indexing
  cases first with
  | true => simp only [if_true] at hix; rw [hix]; exact ⟨_, rfl⟩
  | false =>
    simp only [Bool.false_eq_true, if_false] at hix
    obtain ⟨pi, hpi, hpl, hpv⟩ := hix
    rw [hpi]
    obtain ⟨pi', hg5⟩ := gatherL_ok (l := pi) (is := arg.map (· / d.dom)) (fun i hi => by
      refine lt_of_lt_of_le (hdiv i hi) ?_
      rw [hpl]; split
      · exact hamtk
      · exact le_refl _)
    simp only [hg5]
    exact ⟨_, rfl⟩

/-- The first cell of the first variable. -/
theorem decodeStep_first {k : Nat} {eos : Option Nat} {topk : Nat → List (WithBot α) → List α → List Nat} (hp : Picks topk)
    {d : Dist α} {p : Option (List (WithBot α))} {noise : Nat → Nat → WithBot α}
    (h0 : 0 < d.cells) :
    ∃ b' p', decodeStep k eos topk none d 0 noise (startBeam k d none) p = .ok (b', p') ∧
      Inv k d 1 (fun _ => 0) true 1 (fun _ => 0) b' ∧ p'.length = b'.amt ∧
      ∀ r < b'.amt, ∃ t, p'[r]? = some (noise 0 t) := by
  simp only [decodeStep, allJoint, startBeam, applyFinished, Option.map_none, Option.getD_none]
  have hall : ([(List.range d.dom).map (d.logProb 0 0)] : List (List α)).flatten =
      (List.range d.dom).map (d.logProb 0 0) := by simp
  have hG : ((List.range ([(List.range d.dom).map (d.logProb 0 0)] : List (List α)).length).map
      (fun r => (List.range d.dom).map (noise r))).flatten = (List.range d.dom).map (noise 0) := by simp
  rw [hall, hG]
  generalize harg : topk (min k ((List.range d.dom).map (noise 0)).length) ((List.range d.dom).map (noise 0))
    ((List.range d.dom).map (d.logProb 0 0)) = arg
  have hsz : ((List.range d.dom).map (noise 0)).length = d.dom := by simp
  have hal : arg.length = min k d.dom := by rw [← harg, hp.len _ _ _ (Nat.min_le_right _ _) (by simp), hsz]
  have hnd : arg.Nodup := by rw [← harg]; exact hp.nodup _ _ _ (Nat.min_le_right _ _) (by simp)
  have hrg : ∀ i ∈ arg, i < d.dom := by
    intro i hi; rw [← harg] at hi; rw [← hsz]; exact hp.inRange _ _ _ (Nat.min_le_right _ _) (by simp) i hi
  obtain ⟨pert, hg1⟩ := gatherL_ok (l := (List.range d.dom).map (noise 0)) (is := arg) (by simpa using hrg)
  obtain ⟨jt, hg2⟩ := gatherL_ok (l := (List.range d.dom).map (d.logProb 0 0)) (is := arg) (by simpa using hrg)
  obtain ⟨smp, hg4⟩ := setCells_ok (ev := 0) (vs := arg) (rows := List.replicate k (List.replicate d.cells 0)) (by
    simp [hal])
  simp only [hg1, hg2, hg4]
  obtain ⟨gj1, gj2⟩ := gatherL_spec hg2
  obtain ⟨gp1, gp2⟩ := gatherL_spec hg1
  obtain ⟨gs0, gs1, gs2⟩ := setCells_spec hg4
  refine ⟨_, _, rfl, ?_, gp1, ?_⟩
  swap
  · intro r hr
    have hr : r < arg.length := hr
    exact ⟨arg[r], by rw [← gp2 r hr]; simp [hrg _ (List.getElem_mem hr)]⟩
  have hrow : ∀ r (hr : r < arg.length), smp[r]? = some ((List.replicate d.cells 0).set 0 arg[r]) := by
    intro r hr
    rw [gs2 r hr, List.getElem?_replicate, if_pos (by omega)]
    rfl
  have htok : ∀ r (hr : r < arg.length), (smp.getD r []).getD 0 0 = arg[r] := by
    intro r hr
    rw [getD_of_get? (hrow r hr)]
    simp [List.getD, h0]
  refine ⟨?_, ⟨jt, rfl, gj1, ?_⟩, ?_, ?_, ?_, ?_, ?_, ?_⟩
  · simp [hal]
  · intro r hr
    have hr : r < arg.length := hr
    rw [← gj2 r hr]
    simp only [Beam.tok, List.range_one, List.map_cons, List.map_nil, List.sum_cons, List.sum_nil, add_zero, zero_add]
    rw [htok r hr]
    simp [hrg _ (List.getElem_mem hr), Dist.row]
  · intro r hr
    exact ⟨_, hrow r hr, by simp⟩
  · intro r hr i hi
    have hr : r < arg.length := hr
    obtain rfl : i = 0 := by omega
    simp only [Beam.tok]
    rw [htok r hr]
    exact hrg _ (List.getElem_mem hr)
  · intro r hr; exact Nat.one_pos
  · intro r hr r' hr' _ ht
    have hr : r < arg.length := hr
    have hr' : r' < arg.length := hr'
    have := ht 0 (by omega)
    simp only [Beam.tok] at this
    rw [htok r hr, htok r' hr'] at this
    exact (List.Nodup.getElem_inj_iff hnd).1 this
  · simp [gs1]
  · simp

end Storch.Decode
