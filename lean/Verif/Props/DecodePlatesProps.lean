import Verif.Lemmas.DecodePlatesReturns
import Verif.Props.DecodeProps

/-!
# C83: decoding over plates is decoding at each index of the plates

`Verif.Model.DecodePlates` is `IterDecoding.decode` on tensors with all their dimensions; `Verif.Model.Decode` is one row of it.
Here: at each index of the plates the tensors hold what the row returns for the parameters at that index.
-/

namespace Storch.Decode
open Ten (InB)

variable {α β V : Type _}

/-! ## Specification -/

/-- The row of a tensor at an index of the plates. -/
def rowAt (t : Ten β) (ix : List Nat) : List β := (List.range (t.shape.getD ix.length 0)).map fun r => t.get (ix ++ [r])

/-- The tokens of each sample at an index of the plates, in row-major order of the event cells. -/
def tokensAt (t : Ten Nat) (ix : List Nat) : List (List Nat) :=
  (List.range (t.shape.getD ix.length 0)).map fun r =>
    (List.range (Ten.numel (t.shape.drop (ix.length + 1)))).map fun c =>
      t.get (ix ++ r :: Ten.unravel (t.shape.drop (ix.length + 1)) c)

/-- The mask of the finished samples at an index of the plates. -/
def maskAt (m : Ten Bool) (ix : List Nat) : Mask := if m.ndim = ix.length + 1 then .rows (rowAt m ix) else .cells

/-- An index of the plates with an index for the plate of the decoder, where the distribution has it. -/
def withDecoder (place : Option (Nat × Nat)) (p : Nat) (ix : List Nat) : List Nat :=
  match place with
  | none => ix
  | some (i, _) => ix.take i ++ p :: ix.drop i

/-- The distribution with the parameters at one index of the plates. -/
def DistT.at (d : DistT α V) (D : Nat) (ix : List Nat) : Dist α :=
  ⟨D, d.events, d.place.isSome, fun p ev t => d.logProb.get (t :: (withDecoder d.place p ix ++ Ten.unravel d.events ev))⟩

/-- The shapes of what a distribution with a domain of `D` elements of shape `elt` reports. -/
structure DistT.Shaped (d : DistT α V) (D : Nat) (elt : List Nat) : Prop where
  place : ∀ i n, d.place = some (i, n) → i ≤ d.ps.length
  logProb : d.logProb.shape = D :: (withDecoder d.place ((d.place.map Prod.snd).getD 0) d.ps ++ d.events)
  support : d.support.shape = D :: (withDecoder d.place ((d.place.map Prod.snd).getD 0) d.ps ++ (d.events ++ elt))

/-! ## Proofs -/

theorem rowAt_lastRow {t : Ten β} {ps ix : List Nat} {n : Nat} (h : t.shape = ps ++ [n]) (hix : InB ix ps) :
    rowAt t ix = lastRow t ix := by
  rw [lastRow_eq h, rowAt, hix.length_eq, h, shGet]

theorem optRow {o : Option (Ten β)} {ps ix : List Nat} (h : ∀ t, o = some t → ∃ n, t.shape = ps ++ [n]) (hix : InB ix ps) :
    o.map (rowAt · ix) = o.map (lastRow · ix) := by
  cases o with
  | none => rfl
  | some t =>
    obtain ⟨n, hn⟩ := h t rfl
    simp only [Option.map_some]
    rw [rowAt_lastRow hn hix]

theorem maskAt_rowMask {m : Ten Bool} {ps ix : List Nat} (hs : m.shape.take ps.length = ps) (hix : InB ix ps) :
    maskAt m ix = rowMask ps.length ix m := by
  rw [maskAt, rowMask, hix.length_eq]
  split
  · rename_i h
    obtain ⟨n, hn⟩ : ∃ n, m.shape = ps ++ [n] := by
      have h1 := List.take_append_drop ps.length m.shape
      rw [hs] at h1
      have h2 : (m.shape.drop ps.length).length = 1 := by
        rw [List.length_drop]; simp only [Ten.ndim] at h; omega
      obtain ⟨n, hn⟩ := List.length_eq_one_iff.1 h2
      exact ⟨n, by rw [← h1, hn]⟩
    rw [rowAt_lastRow hn hix]
  · rfl

theorem tokensAt_tokenRows {t : Ten Nat} {ps ix : List Nat} (hix : InB ix ps) : tokensAt t ix = tokenRows ps.length t ix := by
  rw [tokensAt, tokenRows, rowsL, hix.length_eq]

theorem withDecoder_length {place : Option (Nat × Nat)} {p : Nat} {ix : List Nat}
    (h : ∀ i n, place = some (i, n) → i ≤ ix.length) :
    (withDecoder place p ix).length = ix.length + (if place.isSome then 1 else 0) := by
  cases place with
  | none => rfl
  | some x =>
    have := h x.1 x.2 rfl
    simp only [withDecoder, List.length_append, List.length_cons, List.length_take, List.length_drop, Option.isSome_some, if_true]
    omega

/-- The log-probabilities as the loop reads them. -/
theorem logProbs_row {d : DistT α V} {D : Nat} {elt : List Nat} (hd : d.Shaped D elt) {lp : Ten α} (h : d.logProbs = .ok lp) :
    ∃ kc : List Nat, kc.length = (if d.place.isSome then 1 else 0) ∧ lp.shape = d.ps ++ (kc ++ D :: d.events) ∧
      ∀ ix, InB ix d.ps → ∀ p t e, e.length = d.events.length →
        lp.get (ix ++ ((if d.place.isSome then [p] else []) ++ t :: e)) = d.logProb.get (t :: (withDecoder d.place p ix ++ e)) := by
  rw [DistT.logProbs] at h
  split at h
  · cases h
  rename_i t1 h1
  have hl : ∀ p (ix : List Nat), ix.length = d.ps.length → (withDecoder d.place p ix).length
      = d.ps.length + (if d.place.isSome then 1 else 0) := by
    intro p ix hix
    rw [withDecoder_length, hix]
    intro i n hi; rw [hix]; exact hd.place i n hi
  have hn : d.logProb.ndim = d.ps.length + (if d.place.isSome then 1 else 0) + d.events.length + 1 := by
    rw [Ten.ndim, hd.logProb]
    simp only [List.length_cons, List.length_append, hl _ d.ps rfl]
  have hs1 : t1.shape = withDecoder d.place ((d.place.map Prod.snd).getD 0) d.ps ++ D :: d.events := by
    rw [permuteT_shape h1, hd.logProb]
    exact moveDom _ D _ d.events (hl _ _ rfl) _ (by rw [Ten.ndim, hd.logProb])
  have hg1 : ∀ ix, InB ix d.ps → ∀ p t e, e.length = d.events.length →
      t1.get (withDecoder d.place p ix ++ t :: e) = d.logProb.get (t :: (withDecoder d.place p ix ++ e)) := by
    intro ix hix p t e he
    have hlen : (t :: (withDecoder d.place p ix ++ e)).length = d.logProb.ndim := by
      rw [hn]; simp only [List.length_cons, List.length_append, hl _ _ hix.length_eq, he]
    rw [← permuteT_get h1 hlen, moveDom _ t _ e (hl _ _ hix.length_eq) _ hlen.symm]
  cases hpl : d.place with
  | none =>
    rw [hpl] at h hs1 hg1
    simp only [Except.ok.injEq] at h
    subst h
    exact ⟨[], rfl, hs1, fun ix hix p t e he => hg1 ix hix p t e he⟩
  | some x =>
    obtain ⟨i, n⟩ := x
    have hi := hd.place i n hpl
    rw [hpl] at h hs1 hg1
    simp only [Option.isSome_some, if_true] at h
    simp only [withDecoder, Option.map_some, Option.getD_some] at hs1 hg1
    have hs2 : lp.shape = d.ps ++ ([n] ++ D :: d.events) := by
      rw [permuteT_shape h, hs1]
      have := movePlate i (d.ps.length + 1) n (d.ps.take i) (d.ps.drop i) (D :: d.events) (by simp [hi])
        (by simp only [List.length_drop]; omega) t1.ndim (by rw [Ten.ndim, hs1]; simp)
      rw [List.append_assoc, List.cons_append, this, List.take_append_drop]
      rfl
    refine ⟨[n], rfl, hs2, fun ix hix p t e he => ?_⟩
    simp only [Option.isSome_some, if_true, withDecoder]
    have hil : ix.length = d.ps.length := hix.length_eq
    have hlen : (ix.take i ++ p :: (ix.drop i ++ t :: e)).length = t1.ndim := by
      rw [Ten.ndim, hs1]
      simp only [List.length_append, List.length_cons, List.length_take, List.length_drop, he, hil]
      omega
    have h3 := permuteT_get h hlen
    rw [movePlate i (d.ps.length + 1) p (ix.take i) (ix.drop i) (t :: e) (by simp [hil, hi])
      (by simp only [List.length_drop, hil]; omega) t1.ndim hlen.symm, List.take_append_drop] at h3
    rw [show ix ++ ([p] ++ t :: e) = ix ++ p :: t :: e from rfl, h3]
    have := hg1 ix hix p t e he
    rw [List.append_assoc, List.cons_append] at this
    rw [this]

theorem inB_split {ix ps c es : List Nat} (hl : ix.length = ps.length) (h : InB (ix ++ c) (ps ++ es)) : InB ix ps ∧ InB c es := by
  induction ix generalizing ps with
  | nil =>
    cases ps with
    | nil => exact ⟨.nil, h⟩
    | cons _ _ => simp at hl
  | cons x ix ih =>
    cases ps with
    | nil => simp at hl
    | cons q ps =>
      cases h with
      | cons h1 h2 =>
        obtain ⟨h3, h4⟩ := ih (by simpa using hl) h2
        exact ⟨.cons h1 h3, h4⟩

theorem insertIdx_at (a b : List Nat) {i x : Nat} (h : a.length = i) : (a ++ b).insertIdx i x = a ++ x :: b := by
  subst h
  induction a with
  | nil => simp
  | cons y a ih => simp [ih]

/-- The values of the domain as `decode` reads them. -/
theorem values_row {d : DistT α V} {D : Nat} {elt : List Nat} (hd : d.Shaped D elt) {sup : Ten V} (h : d.values = .ok sup) :
    sup.shape = d.ps ++ D :: (d.events ++ elt) ∧
      ∀ ix, InB ix d.ps → ∀ t e, e.length = d.events.length + elt.length →
        sup.get (ix ++ t :: e) = d.support.get (t :: (withDecoder d.place 0 ix ++ e)) := by
  rw [DistT.values] at h
  split at h
  · cases h
  rename_i t1 h1
  have hs1 : t1.shape = D :: (d.ps ++ (d.events ++ elt)) ∧ ∀ ix, InB ix d.ps → ∀ t e,
      t1.get (t :: (ix ++ e)) = d.support.get (t :: (withDecoder d.place 0 ix ++ e)) := by
    cases hpl : d.place with
    | none =>
      rw [hpl] at h1
      simp only [Except.ok.injEq] at h1
      subst h1
      refine ⟨?_, fun ix _ t e => rfl⟩
      rw [hd.support, hpl]; rfl
    | some x =>
      obtain ⟨i, n⟩ := x
      have hi := hd.place i n hpl
      have hsp := hd.support
      rw [hpl] at h1 hsp
      simp only [withDecoder, Option.map_some, Option.getD_some] at hsp
      simp only [Ten.selectDim] at h1
      split at h1
      · cases h1
      split at h1
      · simp only [Except.ok.injEq] at h1
        subst h1
        have hti : ∀ l : List Nat, l.length = d.ps.length → (l.take i).length = i := by
          intro l hl; simp [hl, hi]
        constructor
        · show d.support.shape.eraseIdx (i + 1) = _
          rw [hsp, List.eraseIdx_cons_succ, List.append_assoc, List.cons_append]
          congr 1
          conv_lhs => rw [List.eraseIdx_append_of_length_le (by rw [hti _ rfl])]
          rw [hti _ rfl, Nat.sub_self, List.eraseIdx_cons_zero, ← List.append_assoc, List.take_append_drop]
        · intro ix hix t e
          show d.support.get ((t :: (ix ++ e)).insertIdx (i + 1) 0) = _
          congr 1
          simp only [withDecoder, List.insertIdx_succ_cons]
          congr 1
          have hli := hti ix hix.length_eq
          have : ix ++ e = ix.take i ++ (ix.drop i ++ e) := by rw [← List.append_assoc, List.take_append_drop]
          rw [this]
          exact (insertIdx_at (ix.take i) (ix.drop i ++ e) hli).trans (by simp)
      · cases h1
  obtain ⟨hs1, hg1⟩ := hs1
  constructor
  · rw [permuteT_shape h, hs1]
    exact moveDom _ D d.ps (d.events ++ elt) rfl _ (by rw [Ten.ndim, hs1])
  · intro ix hix t e he
    have hlen : (t :: (ix ++ e)).length = t1.ndim := by
      rw [Ten.ndim, hs1]; simp only [List.length_cons, List.length_append, hix.length_eq, he]
    rw [← hg1 ix hix, ← permuteT_get h hlen, moveDom _ t _ e hix.length_eq _ hlen.symm]

theorem decodeStep_dist [Add α] {k : Nat} {eos : Option Nat} {topk : Nat → List (WithBot α) → List α → List Nat}
    {fin : Option Mask} {d d' : Dist α} {ev : Nat} (h1 : d.dom = d'.dom) (h2 : d.cond = d'.cond)
    (h3 : ∀ p t, d.logProb p ev t = d'.logProb p ev t) {noise : Nat → Nat → WithBot α} {b : Beam α}
    {perturbed : Option (List (WithBot α))} :
    decodeStep k eos topk fin d ev noise b perturbed = decodeStep k eos topk fin d' ev noise b perturbed := by
  have h4 : allJoint d ev b = allJoint d' ev b := by
    simp only [allJoint, h1, h2, h3]
    have : d.logProb 0 ev = d'.logProb 0 ev := funext (h3 0)
    rw [this]
  simp only [decodeStep, h4, h1]

theorem decodeLoop_dist [Add α] {k : Nat} {eos : Option Nat} {topk : Nat → List (WithBot α) → List α → List Nat}
    {fin : Option Mask} {d d' : Dist α} (h1 : d.dom = d'.dom) (h2 : d.cond = d'.cond) {noise : Nat → Nat → Nat → WithBot α} :
    ∀ {evs : List Nat} (_ : ∀ ev ∈ evs, ∀ p t, d.logProb p ev t = d'.logProb p ev t) {b : Beam α}
      {perturbed : Option (List (WithBot α))},
    decodeLoop k eos topk fin d noise evs b perturbed = decodeLoop k eos topk fin d' noise evs b perturbed := by
  intro evs
  induction evs with
  | nil => intro _ b p; rfl
  | cons ev evs ih =>
    intro h b p
    rw [decodeLoop, decodeLoop, decodeStep_dist h1 h2 (h ev List.mem_cons_self)]
    cases decodeStep k eos topk fin d' ev (noise ev) b p with
    | error e => rfl
    | ok r => exact ih (fun e he => h e (List.mem_cons_of_mem _ he))

theorem startBeam_row {ps events : List Nat} {k : Nat} {joint : Option (Ten α)}
    (hj : ∀ j, joint = some j → ∃ n, j.shape = ps ++ [n]) (hk : ¬ k < (joint.map (fun j => j.shape.getLast?.getD 0)).getD 0)
    {ix : List Nat} (d : Dist α) (hde : d.events = events) :
    rowBeam ps.length events ix (startBeamT ps k events joint) = startBeam k d (joint.map (lastRow · ix)) := by
  have h0 : rowsL ps.length events (⟨ps ++ k :: events, fun _ => 0⟩ : Ten Nat) ix
      = List.replicate k (List.replicate d.cells 0) := by
    simp only [rowsL, shGet, Dist.cells, hde]
    simp [List.map_const']
  cases joint with
  | none => simp [rowBeam, startBeamT, startBeam, h0]
  | some j =>
    obtain ⟨n, hn⟩ := hj j rfl
    have hkn : n ≤ k := by simpa [hn] using hk
    simp only [rowBeam, startBeamT, startBeam, h0, Option.map_some, Option.getD_some]
    have hl : (lastRow j ix).length = n := by rw [lastRow_eq hn]; simp
    have hlast : j.shape.getLast?.getD 0 = n := by simp [hn]
    rw [hl, hlast]
    congr 2
    rw [lastRow_eq (n := k) rfl]
    simp only [List.getLast?_concat, Option.getD_some]
    obtain ⟨m, rfl⟩ := Nat.exists_eq_add_of_le hkn
    rw [List.range_add, List.map_append, Nat.add_sub_cancel_left]
    congr 1
    · conv_rhs => rw [← List.map_id (List.range n)]
      apply List.map_congr_left
      intro q hq
      rw [if_pos (List.mem_range.1 hq)]; rfl
    · rw [List.map_map, List.eq_replicate_iff]
      refine ⟨by simp, ?_⟩
      intro x hx
      rw [List.mem_map] at hx
      obtain ⟨q, _, rfl⟩ := hx
      simp

theorem startBeam_fits {ps events : List Nat} {k : Nat} {joint : Option (Ten α)}
    (hj : ∀ j, joint = some j → ∃ n, j.shape = ps ++ [n]) : Fits ps events (startBeamT ps k events joint) := by
  refine ⟨⟨k, rfl⟩, ?_, ?_⟩
  · intro j h
    obtain ⟨n, hn⟩ := hj j h
    simp only [startBeamT] at h ⊢
    simp [h, hn]
  · intro pi h
    simp only [startBeamT] at h
    cases joint with
    | none => cases h
    | some j => cases h; exact ⟨k, rfl⟩

/-! ## Properties -/

/-- **C83** (rows).  Decoding a variable over plates is decoding it at each index of the plates separately: if `decode` returns
for a distribution with plates, then at every index of the plates the tokens, the joint log-probabilities, the parent indices and
the perturbed log-probabilities are those that decoding returns for the distribution with the parameters at that index, from
the joint log-probabilities, the perturbed log-probabilities and the mask of finished samples at that index.
Missing for the full statement: distributions that carry only some of the plates of the variables decoded before, or carry them
in another order. -/
theorem C83_rows_partial [Add α] {k : Nat} {eos : Option Nat} {tk : List Nat → Nat → List (WithBot α) → List α → List Nat}
    (hp : ∀ ix, Picks (tk ix)) {fin : Option (Ten Bool)} {d : DistT α V} {D : Nat} {elt : List Nat} (hd : d.Shaped D elt)
    (hfin : ∀ m, fin = some m → m.shape.take d.ps.length = d.ps) {noise : List Nat → Nat → Nat → Nat → WithBot α}
    {joint : Option (Ten α)} (hj : ∀ j, joint = some j → ∃ n, j.shape = d.ps ++ [n]) {perturbed : Option (Ten (WithBot α))}
    (hpt : ∀ p, perturbed = some p → ∃ n, p.shape = d.ps ++ [n]) {tokens : Ten Nat} {sample : Ten V} {joint' : Option (Ten α)}
    {par : Option (Ten Nat)} {perturbed' : Option (Ten (WithBot α))}
    (h : decodeT k eos tk fin d noise joint perturbed = .ok (tokens, sample, joint', par, perturbed')) :
    ∀ ix, InB ix d.ps → ∀ s : St α, s.joint = joint.map (rowAt · ix) → s.perturbed = perturbed.map (rowAt · ix) →
      s.finished = fin.map (maskAt · ix) → (d.place.isSome = true → s.plates ≠ []) →
      decode k eos (tk ix) s (d.at D ix) (noise ix) = (perturbed'.map (rowAt · ix),
        .ok (tokensAt tokens ix, joint'.map (rowAt · ix), par.map (rowAt · ix))) := by
  rw [decodeT] at h
  split at h
  · cases h
  rename_i lp hlp
  split at h
  · cases h
  rename_i support hsup
  split at h
  · cases h
  rename_i hcond
  split at h
  · cases h
  rename_i hk
  split at h
  · cases h
  rename_i b p hloop
  obtain ⟨kc, hkc, hlps, hlpg⟩ := logProbs_row hd hlp
  have hc : d.place.isSome = true → (startBeamT d.ps k d.events joint).joint.isSome = true := by
    intro hpl
    simp only [startBeamT]
    cases joint with
    | none => simp [hpl] at hcond
    | some j => rfl
  obtain ⟨⟨hf, hpp⟩, hrow⟩ := loop_row hp hkc hlps (fun ev he => List.mem_range.1 he) (startBeam_fits hj) hc hpt hloop
  simp only at h
  split at h
  · cases h
  rename_i smp hsmp
  simp only [Except.ok.injEq, Prod.mk.injEq] at h
  obtain ⟨rfl, rfl, rfl, rfl, rfl⟩ := h
  intro ix hix s hsj hsp hsf hspl
  have hfm : fin.map (maskAt · ix) = fin.map (rowMask d.ps.length ix) := by
    cases fin with
    | none => rfl
    | some m => simp only [Option.map_some]; rw [maskAt_rowMask (hfin m rfl) hix]
  rw [decode]
  have hnc : ((d.at D ix).cond && s.plates.isEmpty) = false := by
    show (d.place.isSome && s.plates.isEmpty) = false
    cases hpl : d.place.isSome with
    | false => rfl
    | true =>
      have := hspl hpl
      simpa using this
  rw [hnc]
  have hlen : (s.joint.map List.length).getD 0 = (joint.map (fun j => j.shape.getLast?.getD 0)).getD 0 := by
    rw [hsj]
    cases joint with
    | none => rfl
    | some j =>
      obtain ⟨n, hn⟩ := hj j rfl
      simp [rowAt, hn, hix.length_eq]
  rw [hlen, if_neg (by simp), if_neg hk, hsj, hsp, hsf, optRow hj hix, optRow hpt hix, hfm]
  have hcells : (d.at D ix).cells = Ten.numel d.events := rfl
  rw [← startBeam_row (events := d.events) hj hk (d.at D ix) rfl, hcells]
  rw [decodeLoop_dist (d := d.at D ix) (d' := rowDist D d.events d.place.isSome lp ix) rfl rfl, hrow ix hix]
  · simp only
    obtain ⟨k', hk'⟩ := hf.sampled
    rw [optRow hpp hix, optRow (fun j hj => ⟨_, hf.joint j hj⟩) hix, optRow hf.parent hix, tokensAt_tokenRows hix]
    have hdrop : b.sampled.shape.drop (d.ps.length + 1) = d.events := by rw [hk', shDrop1]
    show (_, Except.ok (if b.amt < k then cutLast d.events b.amt (rowsL d.ps.length d.events b.sampled ix)
      else rowsL d.ps.length d.events b.sampled ix, _, _)) = _
    rw [← cut_row hk']
    split
    · rfl
    · rw [tokenRows, hdrop]; rfl
  · intro ev he q t
    have := hlpg ix hix q t (Ten.unravel d.events ev) (ravel_unravel (List.mem_range.1 he)).2.length_eq
    exact this.symm

/-- **C83** (values).  The sample holds at each place the value of the domain with the index given by the token, of the
distribution with the parameters at that index of the plates: `enumerate_support` there (for the first sample of the decoder, if
the distribution depends on its samples). -/
theorem C83_values_partial [Add α] {k : Nat} {eos : Option Nat} {tk : List Nat → Nat → List (WithBot α) → List α → List Nat}
    (hp : ∀ ix, Picks (tk ix)) {fin : Option (Ten Bool)} {d : DistT α V} {D : Nat} {elt : List Nat} (hd : d.Shaped D elt)
    {noise : List Nat → Nat → Nat → Nat → WithBot α}
    {joint : Option (Ten α)} (hj : ∀ j, joint = some j → ∃ n, j.shape = d.ps ++ [n]) {perturbed : Option (Ten (WithBot α))}
    (hpt : ∀ p, perturbed = some p → ∃ n, p.shape = d.ps ++ [n]) {tokens : Ten Nat} {sample : Ten V} {joint' : Option (Ten α)}
    {par : Option (Ten Nat)} {perturbed' : Option (Ten (WithBot α))}
    (h : decodeT k eos tk fin d noise joint perturbed = .ok (tokens, sample, joint', par, perturbed')) :
    sample.shape = tokens.shape ++ elt ∧
      ∀ ix r c x, InB (ix ++ r :: c) tokens.shape → ix.length = d.ps.length → InB x elt →
        tokens.get (ix ++ r :: c) < D ∧
        sample.get (ix ++ r :: c ++ x) = d.support.get (tokens.get (ix ++ r :: c) :: (withDecoder d.place 0 ix ++ c ++ x)) := by
  rw [decodeT] at h
  split at h
  · cases h
  rename_i lp hlp
  split at h
  · cases h
  rename_i support hsup
  split at h
  · cases h
  rename_i hcond
  split at h
  · cases h
  split at h
  · cases h
  rename_i b p hloop
  obtain ⟨kc, hkc, hlps, -⟩ := logProbs_row hd hlp
  have hc : d.place.isSome = true → (startBeamT d.ps k d.events joint).joint.isSome = true := by
    intro hpl
    simp only [startBeamT]
    cases joint with
    | none => simp [hpl] at hcond
    | some j => rfl
  obtain ⟨⟨hf, -⟩, -⟩ := loop_row hp hkc hlps (fun ev he => List.mem_range.1 he) (startBeam_fits hj) hc hpt hloop
  obtain ⟨k', hk'⟩ := hf.sampled
  simp only at h
  split at h
  · cases h
  rename_i smp hsmp
  simp only [Except.ok.injEq, Prod.mk.injEq] at h
  obtain ⟨htok, rfl, -, -, -⟩ := h
  rw [htok] at hsmp
  obtain ⟨hvs, hvg⟩ := values_row hd hsup
  obtain ⟨n, es, hts, hes⟩ : ∃ n es, tokens.shape = d.ps ++ n :: es ∧ es.length = d.events.length := by
    subst htok
    split
    · rcases List.eq_nil_or_concat d.events with he | ⟨es, L, he⟩
      · exact ⟨min b.amt k', [], by simp [narrowLast, hk', he], by simp [he]⟩
      · rw [List.concat_eq_append] at he
        refine ⟨k', es ++ [min b.amt L], ?_, by simp [he]⟩
        simp only [narrowLast, hk', he]
        rw [show d.ps ++ k' :: (es ++ [L]) = (d.ps ++ k' :: es) ++ [L] by simp, List.dropLast_concat, List.getLast?_concat]
        simp
    · exact ⟨k', d.events, hk', rfl⟩
  have hi : (rightExpand tokens support.shape).shape = d.ps ++ n :: (es ++ elt) := by
    simp only [rightExpand, Ten.ndim, hts, hvs]
    rw [show d.ps ++ D :: (d.events ++ elt) = (d.ps ++ D :: d.events) ++ elt by simp, List.drop_left' (by simp [hes])]
    simp
  obtain ⟨hss, hsg⟩ := gatherT_row hvs hi hsmp
  refine ⟨by rw [hss, hts]; simp, ?_⟩
  intro ix r c x hin hl hx
  rw [hts] at hin
  obtain ⟨hix, hrc⟩ := inB_split hl hin
  cases hrc with
  | cons hr hcc =>
    have h1 := hsg ix hix r hr (c ++ x) (Ten.inB_append hcc hx)
    have h2 : (rightExpand tokens support.shape).get (ix ++ r :: (c ++ x)) = tokens.get (ix ++ r :: c) := by
      show tokens.get ((ix ++ r :: (c ++ x)).take tokens.shape.length) = _
      rw [show ix ++ r :: (c ++ x) = (ix ++ r :: c) ++ x by simp, hts, List.take_left' (by simp [hl, hcc.length_eq])]
    rw [h2] at h1
    refine ⟨h1.1, ?_⟩
    rw [show ix ++ r :: c ++ x = ix ++ r :: (c ++ x) by simp, h1.2,
      hvg ix hix _ (c ++ x) (by simp [hcc.length_eq, hx.length_eq, hes])]
    simp

theorem permuteT_ok {t : Ten β} {dims : List Nat} (h : dims.Perm (List.range t.ndim)) : ∃ out, permuteT t dims = .ok out := by
  rw [permuteT, if_pos h]; exact ⟨_, rfl⟩

theorem moveDom_perm {A n : Nat} (h : A + 1 ≤ n) :
    (List.range' 1 A ++ [0] ++ List.range' (A + 1) (n - (A + 1))).Perm (List.range n) := by
  have h1 : List.range n = [0] ++ List.range' 1 A ++ List.range' (A + 1) (n - (A + 1)) := by
    rw [List.range_eq_range', show n = 1 + A + (n - (A + 1)) by omega, ← List.range'_append_1, ← List.range'_append_1]
    congr 2 <;> omega
  rw [h1]
  exact List.Perm.append_right _ List.perm_append_comm

theorem movePlate_perm {i A n : Nat} (hi : i < A) (h : A ≤ n) :
    (List.range i ++ List.range' (i + 1) (A - (i + 1)) ++ [i] ++ List.range' A (n - A)).Perm (List.range n) := by
  have h1 : List.range n = List.range i ++ ([i] ++ List.range' (i + 1) (A - (i + 1))) ++ List.range' A (n - A) := by
    rw [List.range_eq_range', List.range_eq_range', show n = i + (1 + (A - (i + 1))) + (n - A) by omega, ← List.range'_append_1,
      ← List.range'_append_1, ← List.range'_append_1]
    simp only [List.range'_one, Nat.zero_add]
    congr 2 <;> omega
  rw [h1]
  apply List.Perm.append_right
  rw [List.append_assoc]
  exact List.Perm.append_left _ List.perm_append_comm

theorem logProbs_ok {d : DistT α V} {D : Nat} {elt : List Nat} (hd : d.Shaped D elt) : ∃ lp, d.logProbs = .ok lp ∧
    lp.shape = d.ps ++ ((d.place.map Prod.snd).toList ++ D :: d.events) := by
  have hl : (withDecoder d.place ((d.place.map Prod.snd).getD 0) d.ps).length = d.ps.length + (if d.place.isSome then 1 else 0) :=
    withDecoder_length hd.place
  have hn : d.logProb.ndim = d.ps.length + (if d.place.isSome then 1 else 0) + d.events.length + 1 := by
    rw [Ten.ndim, hd.logProb]
    simp only [List.length_cons, List.length_append, hl]
  obtain ⟨t1, h1⟩ := permuteT_ok (t := d.logProb) (moveDom_perm (A := d.ps.length + (if d.place.isSome then 1 else 0))
    (n := d.logProb.ndim) (by omega))
  have hs1 : t1.shape = withDecoder d.place ((d.place.map Prod.snd).getD 0) d.ps ++ D :: d.events := by
    rw [permuteT_shape h1, hd.logProb]
    exact moveDom _ D _ d.events hl _ (by rw [Ten.ndim, hd.logProb])
  rw [DistT.logProbs, h1]
  simp only
  cases hpl : d.place with
  | none =>
    rw [hpl] at hs1
    exact ⟨t1, rfl, hs1⟩
  | some x =>
    obtain ⟨i, n⟩ := x
    have hi := hd.place i n hpl
    rw [hpl] at hs1
    simp only [withDecoder, Option.map_some, Option.getD_some] at hs1
    simp only [Option.isSome_some, if_true]
    obtain ⟨lp, h⟩ := permuteT_ok (t := t1) (movePlate_perm (i := i) (A := d.ps.length + 1) (n := t1.ndim) (by omega) (by
      rw [Ten.ndim, hs1]
      simp only [List.length_append, List.length_cons, List.length_take, List.length_drop]; omega))
    refine ⟨lp, h, ?_⟩
    rw [permuteT_shape h, hs1]
    have := movePlate i (d.ps.length + 1) n (d.ps.take i) (d.ps.drop i) (D :: d.events) (by simp [hi])
      (by simp only [List.length_drop]; omega) t1.ndim (by rw [Ten.ndim, hs1]; simp)
    rw [List.append_assoc, List.cons_append, this, List.take_append_drop]
    rfl

theorem values_ok {d : DistT α V} {D : Nat} {elt : List Nat} (hd : d.Shaped D elt)
    (hn : ∀ i n, d.place = some (i, n) → 0 < n) : ∃ sup, d.values = .ok sup := by
  rw [DistT.values]
  cases hpl : d.place with
  | none =>
    refine permuteT_ok (moveDom_perm ?_)
    rw [Ten.ndim, hd.support, hpl]
    simp only [withDecoder, List.length_cons, List.length_append]; omega
  | some x =>
    obtain ⟨i, n⟩ := x
    have hi := hd.place i n hpl
    have hsp := hd.support
    rw [hpl] at hsp
    simp only [withDecoder, Option.map_some, Option.getD_some] at hsp
    have hg : d.support.shape[i + 1]? = some n := by
      rw [hsp, List.getElem?_cons_succ, List.append_assoc, List.getElem?_append_right (by simp [hi])]
      simp [hi]
    simp only [Ten.selectDim, hg, hn i n hpl, if_true]
    refine permuteT_ok (moveDom_perm ?_)
    simp only [Ten.ndim]
    rw [List.length_eraseIdx_of_lt (by rw [List.getElem?_eq_some_iff] at hg; exact hg.1), hsp]
    simp only [List.length_cons, List.length_append, List.length_take, List.length_drop]; omega

/-- **C83** (returns).  Without a mask of finished samples `decode` returns, whatever values are chosen: for every distribution
over plates with at least one index and a domain that is not empty, if no more samples are wanted than `k` and the
distribution has a row for each sample it depends on. -/
theorem C83_returns [Add α] {k : Nat} {eos : Option Nat} {tk : List Nat → Nat → List (WithBot α) → List α → List Nat}
    (hp : ∀ ix, Picks (tk ix)) {d : DistT α V} {D : Nat} {elt : List Nat} (hd : d.Shaped D elt) (hps : ∀ n ∈ d.ps, 0 < n) (hD : 0 < D)
    {noise : List Nat → Nat → Nat → Nat → WithBot α} {joint : Option (Ten α)}
    (hj : ∀ j, joint = some j → ∃ n ≤ k, j.shape = d.ps ++ [n] ∧ ∀ i m, d.place = some (i, m) → n ≤ m)
    (hpl : ∀ i m, d.place = some (i, m) → joint ≠ none ∧ 0 < m) {perturbed : Option (Ten (WithBot α))} :
    ∃ tokens sample joint' par perturbed', decodeT k eos tk none d noise joint perturbed
      = .ok (tokens, sample, joint', par, perturbed') := by
  obtain ⟨lp, hlp, hlps⟩ := logProbs_ok hd
  obtain ⟨support, hsup⟩ := values_ok hd (fun i n h => (hpl i n h).2)
  obtain ⟨hvs, _⟩ := values_row hd hsup
  have hnum : Ten.numel d.ps ≠ 0 := by
    have : ∀ l : List Nat, (∀ n ∈ l, 0 < n) → Ten.numel l ≠ 0 := by
      intro l
      induction l with
      | nil => intro _; simp [Ten.numel]
      | cons x l ih =>
        intro h
        rw [Ten.numel_cons]
        exact Nat.mul_ne_zero (by have := h x List.mem_cons_self; omega) (ih (fun n hn => h n (List.mem_cons_of_mem _ hn)))
    exact this _ hps
  have hgood : GoodT d.ps d.events k D (d.place.map Prod.snd) (startBeamT d.ps k d.events joint) := by
    refine ⟨⟨k, rfl, fun _ => rfl, ?_⟩, fun _ _ => hD, ?_, ?_, ?_, ?_⟩
    · intro hne
      cases joint with
      | none => exact absurd rfl hne
      | some j =>
        obtain ⟨n, hn, hs, _⟩ := hj j rfl
        simpa [startBeamT, hs] using hn
    · intro j h
      have h' : joint = some j := h
      obtain ⟨n, hn, hs, _⟩ := hj j h'
      subst h'
      simp [startBeamT, hs]
    · intro pi h
      cases joint with
      | none => cases h
      | some j =>
        cases h
        obtain ⟨n, hn, hs, hm⟩ := hj j rfl
        refine ⟨k, rfl, by simpa [startBeamT, hs] using hn, ?_⟩
        intro m hmm ix _ r _
        cases hp1 : d.place with
        | none => rw [hp1] at hmm; cases hmm
        | some x =>
          obtain ⟨i, m'⟩ := x
          rw [hp1] at hmm
          cases hmm
          have h1 := hm _ _ hp1
          have h2 := (hpl _ _ hp1).2
          simp only [List.getLast?_concat, Option.getD_some, hs]
          split <;> omega
    · intro h
      have h' : joint = none := h
      subst h'; rfl
    · intro hne
      cases hp1 : d.place with
      | none => rw [hp1] at hne; exact absurd rfl hne
      | some x =>
        have := (hpl x.1 x.2 hp1).1
        cases joint with
        | none => exact absurd rfl this
        | some j => simp [startBeamT]
  obtain ⟨b, p, hloop, hb⟩ := loop_ok (eos := eos) hnum hp hlps hD (noise := noise)
    (fun ev he => List.mem_range.1 he : ∀ ev ∈ List.range (Ten.numel d.events), ev < Ten.numel d.events) hgood (perturbed := perturbed)
  rw [show (d.place.map Prod.snd).isSome = d.place.isSome by cases d.place <;> rfl] at hloop
  rw [decodeT, hlp]
  simp only
  rw [hsup]
  simp only
  rw [if_neg (by
    cases hp1 : d.place with
    | none => simp
    | some x =>
      have := (hpl x.1 x.2 hp1).1
      cases joint with
      | none => exact absurd rfl this
      | some j => simp), if_neg (by
    cases joint with
    | none => simp
    | some j =>
      obtain ⟨n, hn, hs, _⟩ := hj j rfl
      simpa [hs] using hn), hloop]
  simp only
  obtain ⟨k', hk', _⟩ := hb.sampled
  generalize htok : (if b.amt < k then narrowLast b.sampled b.amt else b.sampled) = tokens
  obtain ⟨n, es, hts, hes, htg⟩ : ∃ n es, tokens.shape = d.ps ++ n :: es ∧ List.Forall₂ (· ≤ ·) es d.events ∧
      ∀ idx, InB idx tokens.shape → tokens.get idx < D := by
    subst htok
    split
    · rcases List.eq_nil_or_concat d.events with he | ⟨es, L, he⟩
      · have hs : (narrowLast b.sampled b.amt).shape = d.ps ++ [min b.amt k'] := by simp [narrowLast, hk', he]
        refine ⟨min b.amt k', [], hs, by rw [he]; exact .nil, ?_⟩
        intro idx hidx
        rw [hs] at hidx
        apply hb.tokens
        rw [hk', he]
        obtain ⟨ix, c, rfl, h1, h2⟩ := split_inB hidx
        cases h2 with
        | cons h3 h4 => exact Ten.inB_append h1 (.cons (by omega) h4)
      · rw [List.concat_eq_append] at he
        have hs : (narrowLast b.sampled b.amt).shape = d.ps ++ k' :: (es ++ [min b.amt L]) := by
          simp only [narrowLast, hk', he]
          rw [show d.ps ++ k' :: (es ++ [L]) = (d.ps ++ k' :: es) ++ [L] by simp, List.dropLast_concat, List.getLast?_concat]
          simp
        refine ⟨k', es ++ [min b.amt L], hs, ?_, ?_⟩
        · rw [he]; exact le_append' (le_refl' es) (.cons (Nat.min_le_right _ _) .nil)
        · intro idx hidx
          rw [hs] at hidx
          apply hb.tokens
          rw [hk', he]
          obtain ⟨ix, c, rfl, h1, h2⟩ := split_inB hidx
          cases h2 with
          | cons h3 h4 =>
            obtain ⟨e1, e2, rfl, h5, h6⟩ := split_inB h4
            cases h6 with
            | cons h7 h8 => exact Ten.inB_append h1 (.cons h3 (Ten.inB_append h5 (.cons (by omega) h8)))
    · exact ⟨k', d.events, hk', le_refl' _, hb.tokens⟩
  have hi : (rightExpand tokens support.shape).shape = d.ps ++ n :: (es ++ elt) := by
    simp only [rightExpand, Ten.ndim, hts, hvs]
    rw [show d.ps ++ D :: (d.events ++ elt) = (d.ps ++ D :: d.events) ++ elt by simp, List.drop_left' (by simp [hes.length_eq])]
    simp
  obtain ⟨sample, hsmp⟩ := gatherT_ok hvs hi (le_append' hes (le_refl' elt)) (by
    intro ix hix q hq c hc
    obtain ⟨c1, c2, rfl, h1, h2⟩ := split_inB hc
    show tokens.get ((ix ++ q :: (c1 ++ c2)).take tokens.shape.length) < D
    rw [show ix ++ q :: (c1 ++ c2) = (ix ++ q :: c1) ++ c2 by simp, hts, List.take_left' (by simp [hix.length_eq, h1.length_eq])]
    apply htg
    rw [hts]
    exact Ten.inB_append hix (.cons hq h1))
  exact ⟨tokens, sample, b.joint, b.parentIdx, p, by rw [hsmp]⟩

/-! ## Cases -/

namespace DecodePlatesCase

/-- All elements of a tensor, in row-major order. -/
def elems (t : Ten β) : List Nat × List β := (t.shape, (allIdx t.shape).map t.get)

/-- The noise at each index of the plates. -/
def noise (ix : List Nat) (e r t : Nat) : WithBot ℚ :=
  if ix = [0] then DecodeCase.noise e r t else DecodeCase.noise e r (2 - t)

/-- A first variable over a plate of two: three values, which differ between the indices of the plate. -/
def first : DistT ℚ Nat :=
  ⟨[2], none, [], ⟨[3, 2], fun idx => -((idx.getD 0 0 + 2 * idx.getD 1 0 + 1 : Nat) : ℚ)⟩,
    ⟨[3, 2], fun idx => 10 * idx.getD 1 0 + idx.getD 0 0⟩⟩

/-- A second variable that depends on the first: the plate of the decoder (of size two) comes before the other one; it has two
event cells. -/
def second : DistT ℚ Nat :=
  ⟨[2], some (0, 2), [2], ⟨[2, 2, 2, 2], fun idx => -((idx.getD 0 0 + 2 * idx.getD 1 0 + 3 * idx.getD 2 0 + idx.getD 3 0 : Nat) : ℚ)⟩,
    ⟨[2, 2, 2, 2], fun idx => 100 * idx.getD 2 0 + 10 * idx.getD 3 0 + idx.getD 0 0⟩⟩

theorem first_shaped : first.Shaped 3 [] := ⟨by simp [first], rfl, rfl⟩

theorem second_shaped : second.Shaped 2 [] :=
  ⟨by intro i n h; simp only [second, Option.some.injEq, Prod.mk.injEq] at h; omega, rfl, rfl⟩

/-- What `decode` returns, written out. -/
def show' (r : Except Err (Ten Nat × Ten Nat × Option (Ten ℚ) × Option (Ten Nat) × Option (Ten (WithBot ℚ)))) :
    Option ((List Nat × List Nat) × (List Nat × List Nat) × (List Nat × List ℚ)) :=
  match r with
  | .ok (t, s, some j, _, _) => some (elems t, elems s, elems j)
  | _ => none

/-- The hypotheses of C83 are met: the first variable over a plate of two. -/
example : show' (decodeT 2 none (fun _ => sortTop) none first noise none none) =
    some (([2, 2], [2, 1, 0, 1]), ([2, 2], [2, 1, 10, 11]), ([2, 2], [-3, -2, -3, -4])) := by decide +kernel

/-- The joint log-probabilities after the first variable. -/
def joint1 : Ten ℚ := ⟨[2, 2], fun idx => [-3, -2, -3, -4].getD (Ten.ravel [2, 2] idx) 0⟩

/-- The hypotheses of C83 are met: the second variable, with `k = 3`. -/
example : show' (decodeT 3 none (fun _ => sortTop) none second noise (some joint1) none) =
    some (([2, 3, 2], [0, 1, 1, 1, 1, 1, 1, 0, 0, 0, 0, 0]), ([2, 3, 2], [0, 11, 1, 11, 1, 11, 101, 110, 100, 110, 100, 110]),
      ([2, 3], [-8, -6, -9, -16, -10, -15])) := by decide +kernel

example : Option.map elems (match decodeT 3 none (fun _ => sortTop) none second noise (some joint1) none with
    | .ok r => r.2.2.2.1 | _ => none) = some ([2, 3], [1, 0, 1, 1, 0, 1]) := by decide +kernel

/-- The hypotheses of `C83_returns` are met, for every noise. -/
example (noise : List Nat → Nat → Nat → Nat → WithBot ℚ) : ∃ tokens sample joint par perturbed,
    decodeT 3 none (fun _ => sortTop) none second noise (some joint1) none = .ok (tokens, sample, joint, par, perturbed) :=
  C83_returns (fun _ => sortTop_picks) second_shaped (by simp [second]) (by omega)
    (fun j h => ⟨2, by omega, by cases h; rfl, by
      intro i m h; simp only [second, Option.some.injEq, Prod.mk.injEq] at h; omega⟩)
    (fun i m h => ⟨by simp, by simp only [second, Option.some.injEq, Prod.mk.injEq] at h; omega⟩)

/-- The row of the second variable at the index `1` of the plate. -/
example : (decode 3 none sortTop { (blank : St ℚ) with joint := some [-3, -4], plates := [⟨2, 0, [], [], none⟩] } (second.at 2 [1])
    (noise [1])).2 = .ok ([[1, 0], [0, 0], [0, 0]], some [-16, -10, -15], some [1, 0, 1]) := by decide +kernel

end DecodePlatesCase

end Storch.Decode
