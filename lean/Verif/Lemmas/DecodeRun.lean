import Verif.Lemmas.DecodeLemmas

/-!
# Whole variables and whole sequences decoded without replacement
-/

namespace Storch.Decode

variable {α : Type _} [AddCommMonoid α]

theorem decodeLoop_inv {k : Nat} {eos : Option Nat} {topk : Nat → List (WithBot α) → List α → List Nat} (hp : Picks topk)
    {fin : Option Mask} {d : Dist α} {n₀ : Nat} {J : Nat → α} {first : Bool}
    {noise : Nat → Nat → Nat → WithBot α} (hD : 1 ≤ d.dom) :
    ∀ {m e : Nat} {par : Nat → Nat} {b b' : Beam α} {p p' : Option (List (WithBot α))},
    (first = true → d.cond = false ∧ 0 < e) → e + m = d.cells →
    Inv k d n₀ J first e par b → (∃ ps, p = some ps ∧ ps.length = b.amt) →
    decodeLoop k eos topk fin d noise (List.range' e m) b p = (p', .ok b') →
    (∃ par', Inv k d n₀ J first (e + m) par' b') ∧ ∃ ps, p' = some ps ∧ ps.length = b'.amt := by
  intro m
  induction m with
  | zero =>
    intro e par b b' p p' hfe hem h hps hl
    simp only [List.range'_zero, decodeLoop, Prod.mk.injEq, Except.ok.injEq] at hl
    obtain ⟨rfl, rfl⟩ := hl
    exact ⟨⟨par, h⟩, hps⟩
  | succ m ih =>
    intro e par b b' p p' hfe hem h hps hl
    rw [List.range'_succ, decodeLoop] at hl
    cases hs : decodeStep k eos topk fin d e (noise e) b p with
    | error er => rw [hs] at hl; simp at hl
    | ok out =>
      obtain ⟨b1, p1⟩ := out
      rw [hs] at hl
      obtain ⟨par1, h1, h2, _⟩ := decodeStep_inv hp hD hfe (by omega) h hs
      have := ih (e := e + 1) (fun hf => ⟨(hfe hf).1, by omega⟩) (by omega) h1 ⟨p1, rfl, h2⟩ hl
      rwa [show e + 1 + m = e + (m + 1) by omega] at this

omit [AddCommMonoid α] in
/-- The samples that a variable returns, from the sampled indices. -/
theorem finish_rows {k : Nat} {events : List Nat} {amt : Nat} {rows : List (List Nat)}
    (hr : ∀ r < amt, ∃ row, rows[r]? = some row ∧ (amt < k → row.length ≤ amt)) (hsz : rows.length = amt ∨ rows.length = k)
    (hk : amt ≤ k) (out : List (List Nat)) (ho : out = if amt < k then cutLast events amt rows else rows) :
    (∀ r < amt, out[r]? = rows[r]?) ∧ (out.length = amt ∨ out.length = k) ∧ (events = [] → out.length = amt) := by
  by_cases hlt : amt < k
  · rw [if_pos hlt] at ho
    unfold cutLast at ho
    cases he : events.getLast? with
    | none =>
      rw [he] at ho
      subst ho
      have hl : (rows.take amt).length = amt := by rw [List.length_take]; rcases hsz with h | h <;> omega
      refine ⟨fun r h => List.getElem?_take_of_lt h, Or.inl hl, fun _ => hl⟩
    | some last =>
      rw [he] at ho
      subst ho
      refine ⟨?_, by simpa using hsz, ?_⟩
      · intro r h
        obtain ⟨row, h1, h2⟩ := hr r h
        rw [List.getElem?_map, h1, Option.map_some]
        congr 1
        have hfil : row.zipIdx.filter (fun e => decide (e.2 % last < amt)) = row.zipIdx := by
          rw [List.filter_eq_self]
          intro x hx
          have hx2 : x.2 < row.length := by
            have := List.snd_lt_of_mem_zipIdx hx
            omega
          have := Nat.mod_le x.2 last
          have := h2 hlt
          simp; omega
        rw [hfil]
        simp
      · intro h; subst h; simp at he
  · rw [if_neg hlt] at ho
    subst ho
    refine ⟨fun _ _ => rfl, hsz, fun _ => ?_⟩
    rcases hsz with h | h <;> omega

/-- Number of cells of a variable. -/
def Var.cells (v : Var α) : Nat := Ten.numel v.events

/-- The log-probability of a variable given the sequence before it: the parameters of a variable that does not depend
on the sequence are the same for every sequence. -/
def Var.given (v : Var α) (h : List Nat) : Nat → Nat → α := if v.dep then v.logProb h else v.logProb []

/-- Specification: the log-probability of a sequence is the sum, over the variables and their cells, of the
log-probability of the token given the tokens of the variables before. -/
def logJoint : List (Var α) → List Nat → List Nat → α
  | [], _, _ => 0
  | v :: vs, h, ts => ((List.range v.cells).map (fun i => v.given h i (ts.getD i 0))).sum +
      logJoint vs (h ++ ts.take v.cells) (ts.drop v.cells)

/-- Number of tokens of a sequence. -/
def tokens (vs : List (Var α)) : Nat := (vs.map Var.cells).sum

theorem logJoint_snoc (v : Var α) : ∀ (vs : List (Var α)) (h ts new : List Nat), ts.length = tokens vs →
    new.length = v.cells → logJoint (vs ++ [v]) h (ts ++ new) =
      logJoint vs h ts + ((List.range v.cells).map (fun i => v.given (h ++ ts) i (new.getD i 0))).sum := by
  intro vs
  induction vs with
  | nil =>
    intro h ts new hts hn
    have : ts = [] := by simpa [tokens] using hts
    subst this
    simp [logJoint]
  | cons w vs ih =>
    intro h ts new hts hn
    have hts' : ts.length = w.cells + tokens vs := by simpa [tokens] using hts
    simp only [List.cons_append, logJoint]
    have e1 : (ts ++ new).take w.cells = ts.take w.cells := by
      rw [List.take_append_of_le_length (by omega)]
    have e2 : (ts ++ new).drop w.cells = ts.drop w.cells ++ new := by
      rw [List.drop_append_of_le_length (by omega)]
    rw [e1, e2, ih _ _ _ (by simp; omega) hn, List.append_assoc, List.take_append_drop, add_assoc]
    congr 2
    apply List.map_congr_left
    intro i hi
    rw [List.mem_range] at hi
    congr 1
    simp only [List.getD]
    rw [List.getElem?_append_left (by omega)]

/-- What holds of the decoder after the variables `vs` (at least one). -/
structure Good (k : Nat) (vs : List (Var α)) (s : St α) : Prop where
  nonempty : s.seq ≠ []
  pos : 1 ≤ s.width
  most : s.width ≤ k
  lens : ∀ t ∈ s.seq, t.length = s.width
  len : ∀ r < s.width, (s.sequence r).length = tokens vs
  distinct : ∀ r < s.width, ∀ r' < s.width, s.sequence r = s.sequence r' → r = r'
  joint : ∃ j, s.joint = some j ∧ j.length = s.width ∧ ∀ r < s.width, j[r]? = some (logJoint vs [] (s.sequence r))
  plate : ∃ p ps, s.plates = p :: ps ∧ p.n = s.width ∧ p.varIdx < s.varIdx
  perturbed : ∃ ps, s.perturbed = some ps ∧ ps.length = s.width

omit [AddCommMonoid α] in
theorem createPlate_ok {s : St α} {n : Nat} {j : List α} {p : Option (List (WithBot α))} {plate : APlate α}
    (h : createPlateSwor s n (some j) p = .ok plate) :
    (n = 1 ∨ j.length = n) ∧ plate.n = n ∧ plate.varIdx = s.varIdx ∧ plate.logProbs = j := by
  unfold createPlateSwor at h
  cases hc : createPlate s n (some j) p with
  | error e => rw [hc] at h; simp at h
  | ok q =>
    rw [hc] at h
    have hq : plate = q := by
      cases p with
      | none => simp at h
      | some p => simp only [Except.ok.injEq] at h; exact h.symm
    subst hq
    unfold createPlate at hc
    split at hc
    · simp at hc
    · split at hc
      · simp at hc
      · rename_i h2
        split at hc
        · simp at hc
        · simp only [Except.ok.injEq] at hc
          subst hc
          simp only [sizeBad, ne_eq, Bool.and_eq_true, decide_eq_true_eq, not_and, not_not] at h2
          refine ⟨?_, rfl, rfl, rfl⟩
          by_cases h1 : n = 1
          · exact Or.inl h1
          · exact Or.inr (h2 h1)

/-- Re-indexing the sequence so far by the parents. -/
theorem reindexSeq_spec {n : Nat} {pi : List Nat} (hn : n ≠ 1) : ∀ {seq out : List (List (List Nat))},
    reindexSeq n (some pi) seq = .ok out →
    (∀ t ∈ out, t.length = pi.length) ∧ ∀ r (h : r < pi.length),
      out.flatMap (fun t => t.getD r []) = seq.flatMap (fun t => t.getD pi[r] []) := by
  intro seq
  induction seq with
  | nil => intro out h; simp only [reindexSeq, Except.ok.injEq] at h; subst h; simp
  | cons t ts ih =>
    intro out h
    simp only [reindexSeq, if_neg hn] at h
    cases hg : gatherL t pi with
    | error e => rw [hg] at h; simp at h
    | ok t' =>
      rw [hg] at h
      simp only [] at h
      cases hr : reindexSeq n (some pi) ts with
      | error e => rw [hr] at h; simp at h
      | ok ts' =>
        rw [hr] at h
        simp only [Except.ok.injEq] at h
        subst h
        obtain ⟨h1, h2⟩ := ih hr
        obtain ⟨g1, g2⟩ := gatherL_spec hg
        refine ⟨?_, ?_⟩
        · intro x hx
          rcases List.mem_cons.1 hx with rfl | hx
          · exact g1
          · exact h1 x hx
        · intro r hr'
          rw [List.flatMap_cons, List.flatMap_cons, h2 r hr']
          congr 1
          simp only [List.getD, ← g2 r hr']

theorem reindexSeq_ok {n : Nat} {pi : List Nat} (hn : n ≠ 1) : ∀ {seq : List (List (List Nat))},
    (∀ t ∈ seq, ∀ i ∈ pi, i < t.length) → ∃ out, reindexSeq n (some pi) seq = .ok out := by
  intro seq
  induction seq with
  | nil => intro _; exact ⟨[], rfl⟩
  | cons t ts ih =>
    intro h
    obtain ⟨t', ht⟩ := gatherL_ok (l := t) (is := pi) (h t List.mem_cons_self)
    obtain ⟨ts', hts⟩ := ih (fun x hx => h x (List.mem_cons_of_mem _ hx))
    exact ⟨t' :: ts', by simp only [reindexSeq, if_neg hn, ht, hts]⟩

omit [AddCommMonoid α] in
theorem width_snoc (s : St α) (seq : List (List (List Nat))) (x : List (List Nat)) (h : s.seq = seq ++ [x]) :
    s.width = x.length := by
  simp [St.width, h]

omit [AddCommMonoid α] in
theorem sequence_snoc (s : St α) (seq : List (List (List Nat))) (x : List (List Nat)) (h : s.seq = seq ++ [x])
    (r : Nat) : s.sequence r = seq.flatMap (fun t => t.getD r []) ++ x.getD r [] := by
  simp [St.sequence, h]

theorem lt_two_pow' (n : Nat) : n < 2 ^ n := Nat.lt_two_pow_self

/-- The state before a further variable. -/
theorem Good.start {k : Nat} {vs : List (Var α)} {s : St α} (h : Good k vs s) (v : Var α) :
    Inv k (v.dist s) s.width (fun q => logJoint vs [] (s.sequence q)) false 0 id (startBeam k (v.dist s) s.joint) ∧
      (startBeam k (v.dist s) s.joint).amt = s.width := by
  obtain ⟨j, hj, hjl, hjv⟩ := h.joint
  refine ⟨?_, by rw [hj]; simp [startBeam, hjl]⟩
  rw [hj]
  refine ⟨?_, ⟨j, rfl, rfl, ?_⟩, ?_, ?_, ?_, ?_, ?_, ?_⟩
  · simp only [startBeam, Option.map_some, Option.getD_some, pow_zero, mul_one, hjl]; exact (Nat.min_eq_right h.most).symm
  · intro r hr
    have hr : r < j.length := hr
    simp [hjv r (by omega)]
  · intro r hr
    have hr : r < j.length := hr
    refine ⟨List.replicate (v.dist s).cells 0, ?_, by simp⟩
    simp only [startBeam]
    rw [List.getElem?_replicate, if_pos]
    have := h.most; omega
  · intro r hr i hi; omega
  · intro r hr
    have hr : r < j.length := hr
    simp only [id_eq]; omega
  · intro r hr r' hr' hh _; exact hh
  · simp [startBeam]
  · simp only [Bool.false_eq_true, if_false, startBeam, Option.map_some]
    have := h.most
    refine ⟨_, rfl, by simp; omega, ?_⟩
    intro r hr
    have hr : r < j.length := hr
    rw [List.getElem?_append_left (by simpa using hr)]
    simp [hr]

/-- One more variable. -/
theorem sampleSwor_good {k : Nat} {eos : Option Nat} {topk : Nat → List (WithBot α) → List α → List Nat} (hp : Picks topk)
    (hk : 2 ≤ k) {vs : List (Var α)} {v : Var α} (hD : 2 ≤ v.dom) {noise : Nat → Nat → Nat → WithBot α}
    {s s' : St α} {smp : List (List Nat)} (h : Good k vs s)
    (hs : sampleSwor k eos topk (v.dist s) noise s = (s', .ok smp)) :
    Good k (vs ++ [v]) s' ∧ s'.width = min k (s.width * v.dom ^ v.cells) ∧
      (∃ pi, s'.parentIdx = some pi ∧ pi.length = s'.width ∧ ∀ r (hr : r < pi.length), pi[r] < s.width ∧
        ∃ row, smp[r]? = some row ∧ row.length = v.cells ∧ (∀ t ∈ row, t < v.dom) ∧
          s'.sequence r = s.sequence pi[r] ++ row) ∧
      ∃ b, decodeLoop k eos topk s.finished (v.dist s) noise (List.range' 0 v.cells) (startBeam k (v.dist s) s.joint)
          s.perturbed = (s'.perturbed, .ok b) ∧ b.parentIdx = s'.parentIdx ∧ b.amt = s'.width ∧
        (∀ r < s'.width, smp[r]? = b.sampled[r]?) ∧ s'.finished = finishedOf eos v.events smp s.finished := by
  obtain ⟨j, hj, hjl, hjv⟩ := h.joint
  obtain ⟨ps, hps, hpsl⟩ := h.perturbed
  obtain ⟨pl, pls, hpl, hpn, hpv⟩ := h.plate
  have hcells : (v.dist s).cells = v.cells := rfl
  simp only [sampleSwor] at hs
  cases hdec : decode k eos topk s (v.dist s) noise with
  | mk p res =>
  cases res with
  | error e => rw [hdec] at hs; simp at hs
  | ok out =>
  obtain ⟨samples, joint, pidx⟩ := out
  rw [hdec] at hs
  simp only [] at hs
  -- the loop
  unfold decode at hdec
  rw [hpl] at hdec
  simp only [List.isEmpty_cons, Bool.and_false, Bool.false_eq_true, if_false] at hdec
  rw [if_neg (by rw [hj]; simp only [Option.map_some, Option.getD_some]; have := h.most; omega)] at hdec
  obtain ⟨hstart, _⟩ := h.start v
  cases hloop : decodeLoop k eos topk s.finished (v.dist s) noise (List.range (v.dist s).cells)
      (startBeam k (v.dist s) s.joint) s.perturbed with
  | mk p' res =>
  rw [hloop] at hdec
  cases res with
  | error e => simp at hdec
  | ok b =>
  simp only [Prod.mk.injEq, Except.ok.injEq] at hdec
  obtain ⟨rfl, hsm, rfl, rfl⟩ := hdec
  rw [List.range_eq_range'] at hloop
  obtain ⟨⟨par, hi⟩, ps', hps', hpsl'⟩ := decodeLoop_inv hp (show 1 ≤ (v.dist s).dom from by
    show 1 ≤ v.dom; omega) (by simp) (by omega) hstart ⟨ps, hps, by rw [hj]; simp [startBeam, hjl, hpsl]⟩ hloop
  rw [Nat.zero_add, hcells] at hi
  have hdom : (v.dist s).dom = v.dom := rfl
  obtain ⟨j', hj', hjl', hjv'⟩ := hi.joint
  have hamt : b.amt = min k (s.width * v.dom ^ v.cells) := hi.amt
  have hpow : v.cells < v.dom ^ v.cells := lt_of_lt_of_le (lt_two_pow' _) (Nat.pow_le_pow_left hD _)
  have hamtpos : 1 ≤ b.amt := by
    have h1 : 1 ≤ s.width * v.dom ^ v.cells := Nat.mul_pos h.pos (by omega)
    omega
  have hwide : s.width ≤ b.amt := by
    have h1 : s.width ≤ s.width * v.dom ^ v.cells := Nat.le_mul_of_pos_right _ (by omega)
    have := h.most
    omega
  have hamtk : b.amt ≤ k := by omega
  obtain ⟨f1, f2, f3⟩ := finish_rows (k := k) (events := v.events) (amt := b.amt) (rows := b.sampled) (by
      intro r hr
      obtain ⟨row, h1, h2⟩ := hi.rows r hr
      refine ⟨row, h1, ?_⟩
      intro hlt
      have h3 : v.dom ^ v.cells ≤ s.width * v.dom ^ v.cells := Nat.le_mul_of_pos_left _ h.pos
      rw [h2, hcells]
      omega) (by
      rw [hi.size]; split
      · exact Or.inr rfl
      · exact Or.inl rfl) hamtk samples hsm.symm
  rw [hj'] at hs
  split at hs
  · simp at hs
  rename_i plate hcp
  obtain ⟨c1, c2, c3, c4⟩ := createPlate_ok hcp
  have hn : samples.length = b.amt := by
    rcases c1 with c1 | c1
    · rcases f2 with f2 | f2 <;> omega
    · omega
  have hix := hi.indexing
  simp only [Bool.false_eq_true, if_false] at hix
  obtain ⟨pi, hpi, hpil, hpiv⟩ := hix
  cases hre : reindexSeq samples.length b.parentIdx s.seq with
  | error e => rw [hre] at hs; simp at hs
  | ok seq =>
  rw [hre] at hs
  simp only [Prod.mk.injEq, Except.ok.injEq] at hs
  obtain ⟨hs2, rfl⟩ := hs
  rw [hpi] at hre
  have hne : samples.length ≠ 1 := by
    intro h1
    cases hsq : s.seq with
    | nil => exact h.nonempty hsq
    | cons t ts => rw [hsq, h1] at hre; simp [reindexSeq] at hre
  have hpl' : pi.length = b.amt := by
    rw [hpil]
    split
    · rename_i h0
      -- no cells: the samples have `k` rows
      have : b.sampled.length = k := by rw [hi.size, if_pos (Or.inl h0)]
      rcases f2 with f2 | f2
      · have hev : v.events ≠ [] := by
          intro he; rw [Var.cells, he] at h0; simp [Ten.numel] at h0
        by_cases hlt : b.amt < k
        · rw [if_pos hlt] at hsm
          have : samples.length = k := by
            rw [← hsm]
            unfold cutLast
            cases hl : (v.dist s).events.getLast? with
            | none => exact absurd (List.getLast?_eq_none_iff.1 hl) hev
            | some last => simpa using this
          omega
        · omega
      · omega
    · rfl
  obtain ⟨r1, r2⟩ := reindexSeq_spec hne hre
  have hs'seq : s'.seq = seq ++ [samples] := by rw [← hs2]
  have hw : s'.width = b.amt := by rw [width_snoc s' seq samples hs'seq, hn]
  have hpar : ∀ r (hr : r < pi.length), pi[r] = par r := by
    intro r hr
    have := hpiv r (by omega)
    rw [List.getElem?_eq_getElem hr] at this
    exact Option.some.inj this
  -- the row of sample `r`
  have hrow : ∀ r < b.amt, ∃ row, samples[r]? = some row ∧ row.length = v.cells ∧ (∀ t ∈ row, t < v.dom) ∧
      (∀ i < v.cells, row.getD i 0 = b.tok r i) ∧ samples.getD r [] = row := by
    intro r hr
    obtain ⟨row, h1, h2⟩ := hi.rows r hr
    have hget : samples[r]? = some row := by rw [f1 r hr, h1]
    have htk : ∀ i, row.getD i 0 = b.tok r i := by
      intro i; simp only [Beam.tok]; rw [getD_of_get? h1]
    refine ⟨row, hget, h2, ?_, fun i _ => htk i, getD_of_get? hget⟩
    intro t ht
    obtain ⟨q, hq, rfl⟩ := List.mem_iff_getElem.1 ht
    have := hi.tokens r hr q (by rw [h2] at hq; exact hq)
    rw [← htk q, hdom] at this
    simpa [List.getD, List.getElem?_eq_getElem hq] using this
  have hseq : ∀ r (hr : r < pi.length), s'.sequence r = s.sequence pi[r] ++ samples.getD r [] := by
    intro r hr
    rw [sequence_snoc s' seq samples hs'seq r, r2 r hr]
    rfl
  refine ⟨⟨?_, by omega, by omega, ?_, ?_, ?_, ?_, ?_, ?_⟩, by rw [hw, hamt],
    ⟨pi, ?_, by omega, ?_⟩, b, ?_, ?_, by omega, ?_, ?_⟩
  · rw [hs'seq]; simp
  · intro t ht
    rw [hs'seq] at ht
    rcases List.mem_append.1 ht with ht | ht
    · rw [r1 t ht]; omega
    · rw [List.mem_singleton.1 ht]; omega
  · intro r hr
    have hr' : r < pi.length := by omega
    obtain ⟨row, g1, g2, g3, g4, g5⟩ := hrow r (by omega)
    rw [hseq r hr', g5, List.length_append, g2, h.len _ (by rw [hpar r hr']; exact hi.parents r (by omega))]
    simp [tokens]
  · intro r hr r' hr' heq
    have hr1 : r < pi.length := by omega
    have hr1' : r' < pi.length := by omega
    obtain ⟨row, g1, g2, g3, g4, g5⟩ := hrow r (by omega)
    obtain ⟨row', g1', g2', g3', g4', g5'⟩ := hrow r' (by omega)
    have p1 : pi[r] < s.width := by rw [hpar r hr1]; exact hi.parents r (by omega)
    have p2 : pi[r'] < s.width := by rw [hpar r' hr1']; exact hi.parents r' (by omega)
    rw [hseq r hr1, hseq r' hr1', g5, g5'] at heq
    obtain ⟨e1, e2⟩ := List.append_inj heq (by rw [h.len _ p1, h.len _ p2])
    have e3 := h.distinct _ p1 _ p2 e1
    rw [hpar r hr1, hpar r' hr1'] at e3
    refine hi.distinct r (by omega) r' (by omega) e3 ?_
    intro i hi'
    rw [← g4 i hi', ← g4' i hi', e2]
  · refine ⟨j', by rw [← hs2], by omega, ?_⟩
    intro r hr
    have hr1 : r < pi.length := by omega
    obtain ⟨row, g1, g2, g3, g4, g5⟩ := hrow r (by omega)
    have p1 : pi[r] < s.width := by rw [hpar r hr1]; exact hi.parents r (by omega)
    rw [hjv' r (by omega), hseq r hr1, g5, logJoint_snoc v vs [] _ _ (h.len _ p1) g2, hpar r hr1]
    congr 3
    apply List.map_congr_left
    intro i hi'
    rw [List.mem_range] at hi'
    rw [g4 i hi', List.nil_append]
    -- the row of the parameters is that of the parent
    have hgiv : ∀ q, (v.dist s).logProb q = v.given (s.sequence q) := by
      intro q; simp only [Var.dist, Var.given]
    simp only [Dist.row]
    split
    · rw [hgiv]
    · rename_i hc
      rw [hgiv]
      have hp0 : v.dep = true → par r = 0 := by
        intro hd
        have hw1 : s.width = 1 := by
          have : ¬ (1 < s.width) := by
            intro hlt
            apply hc
            simp only [Var.dist, hd, Bool.true_and, Bool.and_eq_true, decide_eq_true_eq, hlt, true_and]
            cases hsq : s.seq with
            | nil => exact absurd hsq h.nonempty
            | cons _ _ => rfl
          have := h.pos
          omega
        have := hi.parents r (by omega)
        omega
      simp only [Var.given]
      cases hd : v.dep with
      | false => simp
      | true => rw [hp0 hd]
  · refine ⟨plate, s.plates, by rw [← hs2], by rw [c2]; omega, ?_⟩
    rw [c3, ← hs2]
    exact Nat.lt_succ_self _
  · exact ⟨ps', by rw [← hs2, hps'], by omega⟩
  · rw [← hs2]; exact hpi
  · intro r hr
    obtain ⟨row, g1, g2, g3, g4, g5⟩ := hrow r (by omega)
    refine ⟨by rw [hpar r hr]; exact hi.parents r (by omega), row, g1, g2, g3, ?_⟩
    rw [hseq r hr, g5]
  · rw [hcells] at hloop
    rw [hloop, ← hs2]
  · rw [← hs2]
  · intro r hr; exact f1 r (by omega)
  · rw [← hs2]; rfl

/-- The first variable. -/
theorem sampleSwor_first {k : Nat} {eos : Option Nat} {topk : Nat → List (WithBot α) → List α → List Nat} (hp : Picks topk)
    (hk : 2 ≤ k) {v : Var α} (hD : 2 ≤ v.dom) {noise : Nat → Nat → Nat → WithBot α}
    {s' : St α} {smp : List (List Nat)}
    (hs : sampleSwor k eos topk (v.dist blank) noise blank = (s', .ok smp)) :
    Good k [v] s' ∧ s'.width = min k (v.dom ^ v.cells) ∧
      (∀ r < s'.width, ∃ row, smp[r]? = some row ∧ row.length = v.cells ∧ (∀ t ∈ row, t < v.dom) ∧
          s'.sequence r = row) ∧
      ∃ b, decodeLoop k eos topk none (v.dist blank) noise (List.range' 0 v.cells) (startBeam k (v.dist blank) none)
          none = (s'.perturbed, .ok b) ∧ b.amt = s'.width ∧
        s'.finished = finishedOf eos v.events smp none := by
  have hcells : (v.dist (blank : St α)).cells = v.cells := rfl
  have hdom : (v.dist (blank : St α)).dom = v.dom := rfl
  have hcond : (v.dist (blank : St α)).cond = false := by simp [Var.dist, blank]
  simp only [sampleSwor] at hs
  cases hdec : decode k eos topk blank (v.dist blank) noise with
  | mk p res =>
  cases res with
  | error e => rw [hdec] at hs; simp at hs
  | ok out =>
  obtain ⟨samples, joint, pidx⟩ := out
  rw [hdec] at hs
  simp only [] at hs
  unfold decode at hdec
  rw [hcond] at hdec
  simp only [Bool.false_and, Bool.false_eq_true, if_false] at hdec
  rw [if_neg (by simp [blank])] at hdec
  cases hloop : decodeLoop k eos topk (blank : St α).finished (v.dist blank) noise (List.range (v.dist (blank : St α)).cells)
      (startBeam k (v.dist blank) (blank : St α).joint) (blank : St α).perturbed with
  | mk p' res =>
  rw [hloop] at hdec
  cases res with
  | error e => simp at hdec
  | ok b =>
  simp only [Prod.mk.injEq, Except.ok.injEq] at hdec
  obtain ⟨rfl, hsm, rfl, rfl⟩ := hdec
  have hloop0 := hloop
  rcases Nat.eq_zero_or_pos (v.dist (blank : St α)).cells with h0 | h0
  · -- nothing was decoded: there are no perturbed log-probabilities
    exfalso
    rw [h0] at hloop
    simp only [List.range_zero, decodeLoop, Prod.mk.injEq] at hloop
    rw [← hloop.1] at hs
    split at hs
    · simp at hs
    · rename_i plate hcp
      unfold createPlateSwor at hcp
      split at hcp
      · simp at hcp
      · simp at hcp
      · rename_i hh; simp [blank] at hh
  obtain ⟨m, hm⟩ : ∃ m, (v.dist (blank : St α)).cells = m + 1 := ⟨_, (Nat.succ_pred_eq_of_pos h0).symm⟩
  obtain ⟨b1, p1, hstep, hinv1, hlen1, _⟩ := decodeStep_first (k := k) (eos := eos) hp (d := v.dist blank)
    (p := (blank : St α).perturbed) (noise := noise 0) h0
  rw [List.range_eq_range', hm, List.range'_succ, decodeLoop] at hloop
  change (match decodeStep k eos topk none (v.dist blank) 0 (noise 0) (startBeam k (v.dist blank) none)
    (blank : St α).perturbed with
    | .error e => _
    | .ok (b', p') => _) = _ at hloop
  rw [hstep] at hloop
  obtain ⟨⟨par, hi⟩, ps', hps', hpsl'⟩ := decodeLoop_inv hp (show 1 ≤ (v.dist (blank : St α)).dom from by
    rw [hdom]; omega) (by simp [hcond]) (by omega) hinv1 ⟨p1, rfl, hlen1⟩ hloop
  rw [Nat.add_comm 1 m, ← hm, hcells] at hi
  obtain ⟨j', hj', hjl', hjv'⟩ := hi.joint
  have hamt : b.amt = min k (v.dom ^ v.cells) := by have := hi.amt; rwa [Nat.one_mul] at this
  have hpow : v.cells < v.dom ^ v.cells := lt_of_lt_of_le (lt_two_pow' _) (Nat.pow_le_pow_left hD _)
  have hamtk : b.amt ≤ k := by omega
  obtain ⟨f1, f2, f3⟩ := finish_rows (k := k) (events := v.events) (amt := b.amt) (rows := b.sampled) (by
      intro r hr
      obtain ⟨row, h1, h2⟩ := hi.rows r hr
      refine ⟨row, h1, ?_⟩
      intro hlt
      rw [h2, hcells]
      omega) (by
      rw [hi.size]; split
      · exact Or.inr rfl
      · exact Or.inl rfl) hamtk samples hsm.symm
  rw [hj'] at hs
  split at hs
  · simp at hs
  rename_i plate hcp
  obtain ⟨c1, c2, c3, c4⟩ := createPlate_ok hcp
  have hn : samples.length = b.amt := by
    rcases c1 with c1 | c1
    · rcases f2 with f2 | f2 <;> omega
    · omega
  have hix := hi.indexing
  simp only [if_true] at hix
  change ((_ : St α), (Except.ok samples : Except Err (List (List Nat)))) = _ at hs
  simp only [Prod.mk.injEq, Except.ok.injEq] at hs
  obtain ⟨hs2, rfl⟩ := hs
  have hs'seq : s'.seq = [] ++ [samples] := by rw [← hs2]
  have hw : s'.width = b.amt := by rw [width_snoc s' [] samples hs'seq, hn]
  have hrow : ∀ r < b.amt, ∃ row, samples[r]? = some row ∧ row.length = v.cells ∧ (∀ t ∈ row, t < v.dom) ∧
      (∀ i < v.cells, row.getD i 0 = b.tok r i) ∧ s'.sequence r = row := by
    intro r hr
    obtain ⟨row, h1, h2⟩ := hi.rows r hr
    have hget : samples[r]? = some row := by rw [f1 r hr, h1]
    have htk : ∀ i, row.getD i 0 = b.tok r i := by
      intro i; simp only [Beam.tok]; rw [getD_of_get? h1]
    refine ⟨row, hget, h2, ?_, fun i _ => htk i, ?_⟩
    · intro t ht
      obtain ⟨q, hq, rfl⟩ := List.mem_iff_getElem.1 ht
      have := hi.tokens r hr q (by rw [h2] at hq; exact hq)
      rw [← htk q, hdom] at this
      simpa [List.getD, List.getElem?_eq_getElem hq] using this
    · rw [sequence_snoc s' [] samples hs'seq r, getD_of_get? hget]
      rfl
  have hpos : 1 ≤ b.amt := by omega
  refine ⟨⟨?_, by omega, by omega, ?_, ?_, ?_, ?_, ?_, ?_⟩, by rw [hw, hamt], ?_, ?_⟩
  · rw [hs'seq]; simp
  · intro t ht
    rw [hs'seq] at ht
    simp only [List.nil_append, List.mem_singleton] at ht
    rw [ht]; omega
  · intro r hr
    obtain ⟨row, g1, g2, g3, g4, g5⟩ := hrow r (by omega)
    rw [g5, g2]
    simp [tokens]
  · intro r hr r' hr' heq
    obtain ⟨row, g1, g2, g3, g4, g5⟩ := hrow r (by omega)
    obtain ⟨row', g1', g2', g3', g4', g5'⟩ := hrow r' (by omega)
    rw [g5, g5'] at heq
    have hz : par r = par r' := by
      have h1 := hi.parents r (by omega)
      have h2 := hi.parents r' (by omega)
      omega
    refine hi.distinct r (by omega) r' (by omega) hz ?_
    intro i hi'
    rw [← g4 i hi', ← g4' i hi', heq]
  · refine ⟨j', by rw [← hs2], by omega, ?_⟩
    intro r hr
    obtain ⟨row, g1, g2, g3, g4, g5⟩ := hrow r (by omega)
    rw [hjv' r (by omega), g5]
    simp only [logJoint, add_zero, zero_add]
    congr 2
    apply List.map_congr_left
    intro i hi'
    rw [List.mem_range] at hi'
    rw [g4 i hi']
    simp [Dist.row, Var.dist, Var.given, St.sequence, blank]
  · refine ⟨plate, [], by rw [← hs2]; rfl, by rw [c2]; omega, ?_⟩
    rw [c3, ← hs2]
    exact Nat.lt_succ_self _
  · exact ⟨ps', by rw [← hs2, hps'], by omega⟩
  · intro r hr
    obtain ⟨row, g1, g2, g3, g4, g5⟩ := hrow r (by omega)
    exact ⟨row, g1, g2, g3, g5⟩
  · refine ⟨b, ?_, by omega, ?_⟩
    · rw [hcells] at hloop0
      rw [List.range_eq_range'] at hloop0
      have : (p', Except.ok b) = (s'.perturbed, (Except.ok b : Except Err (Beam α))) := by rw [← hs2]
      rw [← this]
      exact hloop0
    · rw [← hs2]; rfl

theorem runSwor_append {k : Nat} {eos : Option Nat} {topk : Nat → List (WithBot α) → List α → List Nat} :
    ∀ (vs ws : List (Var α × (Nat → Nat → Nat → WithBot α))) (s s' : St α),
    runSwor k eos topk (vs ++ ws) s = .ok s' ↔
      ∃ s1, runSwor k eos topk vs s = .ok s1 ∧ runSwor k eos topk ws s1 = .ok s' := by
  intro vs
  induction vs with
  | nil => intro ws s s'; simp [runSwor]
  | cons v vs ih =>
    intro ws s s'
    obtain ⟨v, noise⟩ := v
    simp only [List.cons_append, runSwor]
    cases hs : sampleSwor k eos topk (v.dist s) noise s with
    | mk s2 res =>
      cases res with
      | error e => simp
      | ok smp => exact ih ws s2 s'

theorem runSwor_one {k : Nat} {eos : Option Nat} {topk : Nat → List (WithBot α) → List α → List Nat} {v : Var α}
    {noise : Nat → Nat → Nat → WithBot α} {s s' : St α} :
    runSwor k eos topk [(v, noise)] s = .ok s' ↔ ∃ smp, sampleSwor k eos topk (v.dist s) noise s = (s', .ok smp) := by
  simp only [runSwor]
  cases hs : sampleSwor k eos topk (v.dist s) noise s with
  | mk s2 res =>
    cases res with
    | error e => simp
    | ok smp => simp

/-- After any number of variables, the decoder is as it should be. -/
theorem runSwor_good {k : Nat} {eos : Option Nat} {topk : Nat → List (WithBot α) → List α → List Nat} (hp : Picks topk)
    (hk : 2 ≤ k) : ∀ (vs : List (Var α × (Nat → Nat → Nat → WithBot α))), vs ≠ [] → (∀ v ∈ vs, 2 ≤ v.1.dom) →
    ∀ {s : St α}, runSwor k eos topk vs blank = .ok s → Good k (vs.map Prod.fst) s := by
  intro vs
  induction vs using List.reverseRecOn with
  | nil => intro h; exact absurd rfl h
  | append_singleton vs v ih =>
    intro _ hD s hs
    obtain ⟨v, noise⟩ := v
    obtain ⟨s1, h1, h2⟩ := (runSwor_append vs [(v, noise)] blank s).1 hs
    obtain ⟨smp, h2⟩ := runSwor_one.1 h2
    have hv : 2 ≤ v.dom := hD (v, noise) (by simp)
    by_cases hvs : vs = []
    · subst hvs
      simp only [runSwor, Except.ok.injEq] at h1
      subst h1
      exact (sampleSwor_first hp hk hv h2).1
    · have hg := ih hvs (fun w hw => hD w (by simp [hw])) h1
      rw [List.map_append]
      exact (sampleSwor_good hp hk hv hg h2).1

/-- The mask of finished samples fits the samples. -/
def MaskOK (eos : Option Nat) (s : St α) : Prop :=
  s.finished = none ∨ ∃ m e, s.finished = some (.rows m) ∧ m.length = s.width ∧ eos = some e

omit [AddCommMonoid α] in
theorem createPlate_total {s : St α} {n : Nat} {j : List α} {p : List (WithBot α)} (h1 : s.parentOk n = true)
    (h2 : j.length = n) (h3 : p.length = n) : ∃ plate, createPlateSwor s n (some j) (some p) = .ok plate := by
  refine ⟨⟨n, s.varIdx, j, p, none⟩, ?_⟩
  simp [createPlateSwor, createPlate, h1, sizeBad, h2, h3]

omit [AddCommMonoid α] in
theorem finishedOf_ok {eos : Option Nat} {samples : List (List Nat)} {old : Option Mask} :
    finishedOf eos [] samples old = old ∨
      ∃ m e, finishedOf eos [] samples old = some (.rows m) ∧ m.length = samples.length ∧ eos = some e := by
  cases eos with
  | none => left; rfl
  | some e =>
    cases e with
    | zero => left; rfl
    | succ e => right; exact ⟨_, e + 1, rfl, by simp, rfl⟩

/-- A variable without independent dimensions can always be decoded. -/
theorem sampleSwor_total {k : Nat} {eos : Option Nat} {topk : Nat → List (WithBot α) → List α → List Nat} (hp : Picks topk)
    (hk : 2 ≤ k) {vs : List (Var α)} {v : Var α} (hD : 2 ≤ v.dom) (hev : v.events = [])
    (heos : ∀ e, eos = some e → e < v.dom) {noise : Nat → Nat → Nat → WithBot α}
    {s : St α} (h : Good k vs s) (hm : MaskOK eos s) :
    ∃ s' smp, sampleSwor k eos topk (v.dist s) noise s = (s', .ok smp) := by
  obtain ⟨j, hj, hjl, hjv⟩ := h.joint
  obtain ⟨ps, hps, hpsl⟩ := h.perturbed
  obtain ⟨pl, pls, hpl, hpn, hpv⟩ := h.plate
  have hcells : (v.dist s).cells = 1 := by show Ten.numel v.events = 1; rw [hev]; rfl
  have hmost := h.most
  have hpos := h.pos
  obtain ⟨hstart, hamt0⟩ := h.start v
  obtain ⟨out, hstep⟩ := decodeStep_ok (k := k) (eos := eos) hp (fin := s.finished) (p := s.perturbed)
    (noise := noise 0) (by simp) hstart (by
      intro G hG
      rw [hamt0] at hG
      rcases hm with hm | ⟨m, e, hm, hml, he⟩
      · rw [hm]; exact ⟨G, rfl⟩
      · rw [hm, he, hps]
        have hed := heos e he
        simp only [applyFinished]
        rw [if_neg (by omega), if_neg (by show ¬ v.dom ≤ e; omega), if_neg (by omega)]
        exact ⟨_, rfl⟩)
  obtain ⟨b, p1⟩ := out
  obtain ⟨par, hi, hp1, _⟩ := decodeStep_inv hp (show 1 ≤ (v.dist s).dom from by show 1 ≤ v.dom; omega) (by simp)
    (by omega) hstart hstep
  obtain ⟨j', hj', hjl', hjv'⟩ := hi.joint
  have hamt : b.amt = min k (s.width * v.dom) := by have := hi.amt; simpa [Var.dist] using this
  have hwide : 2 * s.width ≤ s.width * v.dom := by rw [Nat.mul_comm]; exact Nat.mul_le_mul_left _ hD
  have hix := hi.indexing
  simp only [Bool.false_eq_true, if_false] at hix
  obtain ⟨pi, hpi, hpil, hpiv⟩ := hix
  simp only [Nat.zero_add, Nat.one_ne_zero, if_false] at hpil
  have hdec : decode k eos topk s (v.dist s) noise =
      (some p1, .ok (if b.amt < k then cutLast (v.dist s).events b.amt b.sampled else b.sampled, b.joint, b.parentIdx)) := by
    unfold decode
    rw [hpl]
    simp only [List.isEmpty_cons, Bool.and_false, Bool.false_eq_true, if_false]
    rw [if_neg (by rw [hj]; simp only [Option.map_some, Option.getD_some]; omega), hcells]
    simp only [List.range_one, decodeLoop, hstep]
  obtain ⟨f1, f2, f3⟩ := finish_rows (k := k) (events := v.events) (amt := b.amt) (rows := b.sampled) (by
      intro r hr
      obtain ⟨row, h1, h2⟩ := hi.rows r hr
      exact ⟨row, h1, fun _ => by rw [h2, hcells]; omega⟩) (by
      rw [hi.size]; split
      · exact Or.inr rfl
      · exact Or.inl rfl) (by omega) _ rfl
  have hn := f3 hev
  simp only [sampleSwor, hdec, hj']
  have hEv : (v.dist s).events = v.events := rfl
  rw [hEv]
  generalize (if b.amt < k then cutLast v.events b.amt b.sampled else b.sampled) = samples at hn
  obtain ⟨plate, hplate⟩ := createPlate_total (s := { s with
      perturbed := some p1, joint := some j', parentIdx := b.parentIdx,
      finished := finishedOf eos v.events samples s.finished }) (n := samples.length) (j := j') (p := p1) (by
        simp only [St.parentOk, hpl, hpn, Bool.and_eq_true, decide_eq_true_eq]
        exact ⟨by omega, hpv⟩) (by omega) (by omega)
  obtain ⟨seq, hseq⟩ := reindexSeq_ok (n := samples.length) (pi := pi) (by omega) (seq := s.seq) (by
    intro t ht i hi'
    obtain ⟨q, hq, rfl⟩ := List.mem_iff_getElem.1 hi'
    have := hpiv q (by omega)
    rw [List.getElem?_eq_getElem hq] at this
    rw [Option.some.inj this, h.lens t ht]
    exact hi.parents q (by omega))
  simp only [hplate]
  rw [hpi, hseq]
  exact ⟨_, _, rfl⟩

/-- The first variable without independent dimensions can always be decoded. -/
theorem sampleSwor_first_total {k : Nat} {eos : Option Nat} {topk : Nat → List (WithBot α) → List α → List Nat}
    (hp : Picks topk) {v : Var α} (hev : v.events = []) {noise : Nat → Nat → Nat → WithBot α} :
    ∃ s' smp, sampleSwor k eos topk (v.dist blank) noise blank = (s', .ok smp) := by
  have hcells : (v.dist (blank : St α)).cells = 1 := by show Ten.numel v.events = 1; rw [hev]; rfl
  have hcond : (v.dist (blank : St α)).cond = false := by simp [Var.dist, blank]
  obtain ⟨b, p1, hstep, hi, hp1, _⟩ := decodeStep_first (k := k) (eos := eos) hp (d := v.dist blank)
    (p := (blank : St α).perturbed) (noise := noise 0) (by omega)
  obtain ⟨j', hj', hjl', hjv'⟩ := hi.joint
  have hdec : decode k eos topk blank (v.dist blank) noise =
      (some p1, .ok (if b.amt < k then cutLast v.events b.amt b.sampled else b.sampled, b.joint, b.parentIdx)) := by
    unfold decode
    rw [hcond, hcells]
    simp only [Bool.false_and, Bool.false_eq_true, if_false]
    rw [if_neg (by simp [blank])]
    have hs' : decodeStep k eos topk (blank : St α).finished (v.dist blank) 0 (noise 0)
        (startBeam k (v.dist blank) (blank : St α).joint) (blank : St α).perturbed = .ok (b, p1) := hstep
    simp only [List.range_one, decodeLoop, hs']
    rfl
  have hamt : b.amt = min k v.dom := by have := hi.amt; simpa [Var.dist] using this
  have hn : (if b.amt < k then cutLast v.events b.amt b.sampled else b.sampled).length = b.amt := by
    split
    · rw [hev]; simp only [cutLast, List.getLast?_nil, List.length_take]
      rw [hi.size]; simp; omega
    · rw [hi.size]; simp; omega
  have hix := hi.indexing
  simp only [if_true] at hix
  simp only [sampleSwor, hdec, hj']
  generalize (if b.amt < k then cutLast v.events b.amt b.sampled else b.sampled) = samples at hn
  obtain ⟨plate, hplate⟩ := createPlate_total (s := { (blank : St α) with
      perturbed := some p1, joint := some j', parentIdx := b.parentIdx,
      finished := finishedOf eos (v.dist blank).events samples (blank : St α).finished })
      (n := samples.length) (j := j') (p := p1) (by
        simp [St.parentOk, blank]) (by omega) (by omega)
  rw [hplate]
  exact ⟨_, _, rfl⟩

/-- The mask still fits after a variable without independent dimensions. -/
theorem sampleSwor_mask {k : Nat} {eos : Option Nat} {topk : Nat → List (WithBot α) → List α → List Nat} {d : Dist α}
    {noise : Nat → Nat → Nat → WithBot α} {s s' : St α} {smp : List (List Nat)} (hev : d.events = [])
    (hm : s.finished = none ∨ ∃ e, eos = some (e + 1))
    (hs : sampleSwor k eos topk d noise s = (s', .ok smp)) : MaskOK eos s' ∧ (s'.finished = none ∨ ∃ e, eos = some (e + 1)) := by
  simp only [sampleSwor] at hs
  split at hs
  · simp at hs
  · rename_i p samples joint pi hdec
    split at hs
    · simp at hs
    · split at hs
      · simp at hs
      · rename_i seq hseq
        simp only [Prod.mk.injEq, Except.ok.injEq] at hs
        obtain ⟨hs2, rfl⟩ := hs
        have hw : s'.width = samples.length := width_snoc s' seq samples (by rw [← hs2])
        have hfin : s'.finished = finishedOf eos d.events samples s.finished := by rw [← hs2]
        rw [hev] at hfin
        rw [MaskOK, hfin, hw]
        cases eos with
        | none =>
          rcases hm with hm | ⟨e, he⟩
          · exact ⟨Or.inl hm, Or.inl hm⟩
          · simp at he
        | some e =>
          cases e with
          | zero =>
            rcases hm with hm | ⟨e, he⟩
            · exact ⟨Or.inl hm, Or.inl hm⟩
            · simp at he
          | succ e => exact ⟨Or.inr ⟨_, e + 1, rfl, by simp, rfl⟩, Or.inr ⟨e, rfl⟩⟩

/-- Any number of variables without independent dimensions can be decoded. -/
theorem runSwor_total {k : Nat} {eos : Option Nat} {topk : Nat → List (WithBot α) → List α → List Nat} (hp : Picks topk)
    (hk : 2 ≤ k) : ∀ (vs : List (Var α × (Nat → Nat → Nat → WithBot α))),
    (∀ v ∈ vs, 2 ≤ v.1.dom ∧ v.1.events = [] ∧ ∀ e, eos = some e → e < v.1.dom) →
    ∃ s, runSwor k eos topk vs blank = .ok s ∧ (s.finished = none ∨ ∃ e, eos = some (e + 1)) ∧ MaskOK eos s := by
  intro vs
  induction vs using List.reverseRecOn with
  | nil => intro _; exact ⟨blank, rfl, Or.inl rfl, Or.inl rfl⟩
  | append_singleton vs v ih =>
    intro hD
    obtain ⟨v, noise⟩ := v
    obtain ⟨s1, h1, h2, h3⟩ := ih (fun w hw => hD w (by simp [hw]))
    obtain ⟨hv1, hv2, hv3⟩ := hD (v, noise) (by simp)
    have hex : ∃ s' smp, sampleSwor k eos topk (v.dist s1) noise s1 = (s', .ok smp) := by
      by_cases hvs : vs = []
      · subst hvs
        simp only [runSwor, Except.ok.injEq] at h1
        subst h1
        exact sampleSwor_first_total hp hv2
      · exact sampleSwor_total hp hk hv1 hv2 hv3
          (runSwor_good hp hk vs hvs (fun w hw => (hD w (by simp [hw])).1) h1) h3
    obtain ⟨s', smp, hs⟩ := hex
    obtain ⟨m1, m2⟩ := sampleSwor_mask (d := v.dist s1) hv2 h2 hs
    exact ⟨s', (runSwor_append vs [(v, noise)] blank s').2 ⟨s1, h1, runSwor_one.2 ⟨smp, hs⟩⟩, m2, m1⟩

end Storch.Decode
