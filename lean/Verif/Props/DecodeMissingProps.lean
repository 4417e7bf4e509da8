import Verif.Lemmas.DecodeMissingLemmas
import Verif.Props.DecodePlatesProps

/-!
# C86: variables that lack plates of the variables before

The specification is that of C83 (`rowAt`, `tokensAt`, `maskAt`, `DistT.at`): what a tensor holds at one index of the plates.
-/

namespace Storch.Decode

open Ten (InB)

variable {α V : Type _}

/-! ### Proofs -/

/-- The distribution with more plates, which is the same at all indices of these. -/
def DistT.withPlates (d : DistT α V) (rest : List Nat) : DistT α V :=
  ⟨d.ps ++ rest, none, d.events, expandMissing (d.ps.length + 1) rest d.logProb, expandMissing (d.ps.length + 1) rest d.support⟩

theorem withPlates_shape {d : DistT α V} {β : Type _} {D : Nat} {e rest : List Nat} {t : Ten β} (h : t.shape = D :: (d.ps ++ e)) :
    (expandMissing (d.ps.length + 1) rest t).shape = D :: (d.ps ++ rest ++ e) := by
  simp [expandMissing, h]

theorem withPlates_get {ps rest : List Nat} {β : Type _} (t : Ten β) (x : Nat) {ix jx : List Nat} (c : List Nat)
    (hi : ix.length = ps.length) (hj : jx.length = rest.length) :
    (expandMissing (ps.length + 1) rest t).get (x :: (ix ++ jx ++ c)) = t.get (x :: (ix ++ c)) := by
  show t.get ((x :: (ix ++ jx ++ c)).take (ps.length + 1) ++ (x :: (ix ++ jx ++ c)).drop (ps.length + 1 + rest.length)) = _
  rw [List.take_succ_cons, take3 _ hi, show ps.length + 1 + rest.length = ps.length + rest.length + 1 by omega, List.drop_succ_cons,
    drop3 _ hi hj]
  rfl

theorem withPlates_shaped {d : DistT α V} {D : Nat} {elt : List Nat} (hd : d.Shaped D elt) (hpl : d.place = none) (rest : List Nat) :
    (d.withPlates rest).Shaped D elt := by
  have h1 := hd.logProb
  have h2 := hd.support
  rw [hpl] at h1 h2
  exact ⟨(by intro i n h; cases h), withPlates_shape h1, withPlates_shape h2⟩

theorem withPlates_at {d : DistT α V} (D : Nat) (hpl : d.place = none) {rest ix jx : List Nat} (hi : ix.length = d.ps.length)
    (hj : jx.length = rest.length) : (d.withPlates rest).at D (ix ++ jx) = d.at D ix := by
  simp only [DistT.at, DistT.withPlates, hpl, withDecoder, withPlates_get _ _ _ hi hj]

/-- Decoding without the plates and with them, for samples that do not depend on those of the decoder. -/
theorem missing_eq [Add α] {k : Nat} {eos : Option Nat} {tk : List Nat → Nat → List (WithBot α) → List α → List Nat}
    (hp : ∀ ix, Picks (tk ix)) {fin : Option (Ten Bool)} {d : DistT α V} {D : Nat} {elt : List Nat} (hd : d.Shaped D elt)
    (hpl : d.place = none) {rest : List Nat} {noise : List Nat → Nat → Nat → Nat → WithBot α} {joint : Ten α}
    (hj : ∃ n, joint.shape = d.ps ++ rest ++ [n]) {perturbed : Option (Ten (WithBot α))}
    (hpt : ∀ p, perturbed = some p → ∃ n, p.shape = d.ps ++ rest ++ [n]) :
    (∃ e, decodeM k eos tk fin d rest noise joint perturbed = .error e ∧
      decodeT k eos tk fin (d.withPlates rest) noise (some joint) perturbed = .error e) ∨
    ∃ tokens sample sample' joint' par perturbed',
      decodeM k eos tk fin d rest noise joint perturbed = .ok (tokens, sample, joint', par, perturbed') ∧
      decodeT k eos tk fin (d.withPlates rest) noise (some joint) perturbed = .ok (tokens, sample', joint', par, perturbed') ∧
      SameT sample sample' := by
  have h1 := hd.logProb
  have h2 := hd.support
  rw [hpl] at h1 h2
  simp only [withDecoder] at h1 h2
  obtain ⟨lp, lp', hlp, hlp', hla⟩ := permute_adds (rest := rest) (t' := expandMissing (d.ps.length + 1) rest d.logProb) h1
    (withPlates_shape h1) (fun x ix jx c hi hjx _ => withPlates_get _ x c hi hjx)
  obtain ⟨su, su', hsu, hsu', hsa⟩ := permute_adds (rest := rest) (t' := expandMissing (d.ps.length + 1) rest d.support) h2
    (withPlates_shape h2) (fun x ix jx c hi hjx _ => withPlates_get _ x c hi hjx)
  have e1 : d.logProbs = .ok lp := by
    rw [DistT.logProbs, hpl]
    simp only [Option.isSome_none, Bool.false_eq_true, if_false, Nat.add_zero, hlp]
  have e2 : d.values = .ok su := by
    rw [DistT.values, hpl]
    simp only [hsu]
  have e3 : (d.withPlates rest).logProbs = .ok lp' := by
    rw [DistT.logProbs]
    simp only [DistT.withPlates, Option.isSome_none, Bool.false_eq_true, if_false, Nat.add_zero, hlp']
  have e4 : (d.withPlates rest).values = .ok su' := by
    rw [DistT.values]
    simp only [DistT.withPlates, hsu']
  have e5 : (d.withPlates rest).place = none := rfl
  have e6 : (d.withPlates rest).ps = d.ps ++ rest := rfl
  have e7 : (d.withPlates rest).events = d.events := rfl
  rw [decodeM, decodeT, e1, e2, e3, e4, e5, e6, e7, hpl]
  simp only [Option.isSome_none, Bool.false_and, Bool.false_eq_true, if_false, Option.map_some, Option.getD_some]
  by_cases hk : k < joint.shape.getLast?.getD 0
  · rw [if_pos hk, if_pos hk]; exact .inl ⟨_, rfl, rfl⟩
  rw [if_neg hk, if_neg hk]
  rw [loop_missing hp hla (fun ev he => List.mem_range.1 he)
    (startBeam_fits (fun j h => by cases h; exact hj)) rfl hpt]
  cases decodeLoopT (d.ps ++ rest).length k eos tk fin false lp' d.events noise (List.range (Ten.numel d.events))
      (startBeamT (d.ps ++ rest) k d.events (some joint)) perturbed with
  | error e => exact .inl ⟨e, rfl, rfl⟩
  | ok r =>
    obtain ⟨b, p⟩ := r
    simp only
    have hss := expandMissing_same hsa
    rw [hss.1, ← List.length_append]
    generalize rightExpand (if b.amt < k then narrowLast b.sampled b.amt else b.sampled) su'.shape = index
    rcases gather_same hss (d.ps ++ rest).length index with ⟨e, g1, g2⟩ | ⟨o, o', g1, g2, g3⟩
    · rw [g1, g2]; exact .inl ⟨_, rfl, rfl⟩
    · rw [g1, g2]; exact .inr ⟨_, _, _, _, _, _, rfl, rfl, g3⟩

/-! ### C86 -/

/-- **C86** (rows).  A variable whose distribution lacks some plates of the variables decoded before is decoded with the same
distribution at every index of these plates: at every index, `ix` of the plates of the distribution and `jx` of the others, the
tokens, the joint log-probabilities, the parent indices and the perturbed log-probabilities are those that decoding returns for
the distribution at `ix`, from what the variables before have at `ix` and `jx`.
Missing for the full statement: distributions that depend on samples of the decoder (`C86_conditional_refuted`), and plates in
another order. -/
theorem C86_rows_partial [Add α] {k : Nat} {eos : Option Nat} {tk : List Nat → Nat → List (WithBot α) → List α → List Nat}
    (hp : ∀ ix, Picks (tk ix)) {fin : Option (Ten Bool)} {d : DistT α V} {D : Nat} {elt : List Nat} (hd : d.Shaped D elt)
    (hpl : d.place = none) {rest : List Nat}
    (hfin : ∀ m, fin = some m → m.shape.take (d.ps ++ rest).length = d.ps ++ rest)
    {noise : List Nat → Nat → Nat → Nat → WithBot α} {joint : Ten α} (hj : ∃ n, joint.shape = d.ps ++ rest ++ [n])
    {perturbed : Option (Ten (WithBot α))} (hpt : ∀ p, perturbed = some p → ∃ n, p.shape = d.ps ++ rest ++ [n])
    {tokens : Ten Nat} {sample : Ten V} {joint' : Option (Ten α)} {par : Option (Ten Nat)} {perturbed' : Option (Ten (WithBot α))}
    (h : decodeM k eos tk fin d rest noise joint perturbed = .ok (tokens, sample, joint', par, perturbed')) :
    ∀ ix, InB ix d.ps → ∀ jx, InB jx rest → ∀ s : St α, s.joint = some (rowAt joint (ix ++ jx)) →
      s.perturbed = perturbed.map (rowAt · (ix ++ jx)) → s.finished = fin.map (maskAt · (ix ++ jx)) →
      decode k eos (tk (ix ++ jx)) s (d.at D ix) (noise (ix ++ jx)) = (perturbed'.map (rowAt · (ix ++ jx)),
        .ok (tokensAt tokens (ix ++ jx), joint'.map (rowAt · (ix ++ jx)), par.map (rowAt · (ix ++ jx)))) := by
  intro ix hix jx hjx s hsj hsp hsf
  rcases missing_eq (eos := eos) hp (fin := fin) hd hpl (noise := noise) (k := k) hj hpt with ⟨e, h1, _⟩ | ⟨t, sm, sm', j', pr, p', h1, h2, _⟩
  · rw [h] at h1; cases h1
  · rw [h] at h1
    simp only [Except.ok.injEq, Prod.mk.injEq] at h1
    obtain ⟨rfl, rfl, rfl, rfl, rfl⟩ := h1
    rw [← withPlates_at D hpl hix.length_eq hjx.length_eq]
    exact C83_rows_partial hp (withPlates_shaped hd hpl rest) hfin (fun j hh => by cases hh; exact hj) hpt h2 (ix ++ jx)
      (Ten.inB_append hix hjx) s hsj hsp hsf (by intro hc; cases hc)

/-- **C86** (values).  The sample holds the value of the domain with the index given by the token, of the distribution at the
index `ix` of its plates. -/
theorem C86_values_partial [Add α] {k : Nat} {eos : Option Nat} {tk : List Nat → Nat → List (WithBot α) → List α → List Nat}
    (hp : ∀ ix, Picks (tk ix)) {fin : Option (Ten Bool)} {d : DistT α V} {D : Nat} {elt : List Nat} (hd : d.Shaped D elt)
    (hpl : d.place = none) {rest : List Nat} {noise : List Nat → Nat → Nat → Nat → WithBot α} {joint : Ten α}
    (hj : ∃ n, joint.shape = d.ps ++ rest ++ [n]) {perturbed : Option (Ten (WithBot α))}
    (hpt : ∀ p, perturbed = some p → ∃ n, p.shape = d.ps ++ rest ++ [n])
    {tokens : Ten Nat} {sample : Ten V} {joint' : Option (Ten α)} {par : Option (Ten Nat)} {perturbed' : Option (Ten (WithBot α))}
    (h : decodeM k eos tk fin d rest noise joint perturbed = .ok (tokens, sample, joint', par, perturbed')) :
    sample.shape = tokens.shape ++ elt ∧
      ∀ ix jx r c x, InB (ix ++ jx ++ r :: c) tokens.shape → ix.length = d.ps.length → jx.length = rest.length → InB x elt →
        tokens.get (ix ++ jx ++ r :: c) < D ∧
        sample.get (ix ++ jx ++ r :: c ++ x) = d.support.get (tokens.get (ix ++ jx ++ r :: c) :: (ix ++ c ++ x)) := by
  rcases missing_eq (eos := eos) hp (fin := fin) hd hpl (noise := noise) (k := k) hj hpt with ⟨e, h1, _⟩ | ⟨t, sm, sm', j', pr, p', h1, h2, h3⟩
  · rw [h] at h1; cases h1
  · rw [h] at h1
    simp only [Except.ok.injEq, Prod.mk.injEq] at h1
    obtain ⟨rfl, rfl, rfl, rfl, rfl⟩ := h1
    obtain ⟨hs, hg⟩ := C83_values_partial hp (withPlates_shaped hd hpl rest) (fun j hh => by cases hh; exact hj) hpt h2
    refine ⟨by rw [h3.1, hs], ?_⟩
    intro ix jx r c x hin hi hjx hx
    obtain ⟨g1, g2⟩ := hg (ix ++ jx) r c x hin (by
      show (ix ++ jx).length = (d.ps ++ rest).length
      simp [hi, hjx]) hx
    refine ⟨g1, ?_⟩
    rw [h3.2 _ (by rw [h3.1, hs, List.length_append, List.length_append (as := tokens.shape), hin.length_eq, hx.length_eq]), g2]
    show (expandMissing (d.ps.length + 1) rest d.support).get (_ :: (ix ++ jx ++ c ++ x)) = _
    rw [List.append_assoc (ix ++ jx) c x, withPlates_get _ _ _ hi hjx, List.append_assoc ix c x]

/-- **C86** (returns).  Such a variable can be decoded: without a mask of finished samples `decode` returns. -/
theorem C86_returns [Add α] {k : Nat} {eos : Option Nat} {tk : List Nat → Nat → List (WithBot α) → List α → List Nat}
    (hp : ∀ ix, Picks (tk ix)) {d : DistT α V} {D : Nat} {elt : List Nat} (hd : d.Shaped D elt) (hpl : d.place = none)
    {rest : List Nat} (hps : ∀ n ∈ d.ps ++ rest, 0 < n) (hD : 0 < D) {noise : List Nat → Nat → Nat → Nat → WithBot α} {joint : Ten α}
    (hj : ∃ n ≤ k, joint.shape = d.ps ++ rest ++ [n]) {perturbed : Option (Ten (WithBot α))}
    (hpt : ∀ p, perturbed = some p → ∃ n, p.shape = d.ps ++ rest ++ [n]) :
    ∃ tokens sample joint' par perturbed', decodeM k eos tk none d rest noise joint perturbed
      = .ok (tokens, sample, joint', par, perturbed') := by
  obtain ⟨n, hn, hjs⟩ := hj
  rcases missing_eq (eos := eos) hp (fin := none) hd hpl (noise := noise) (k := k) ⟨n, hjs⟩ hpt with
    ⟨e, _, h2⟩ | ⟨t, sm, sm', j', pr, p', h1, _, _⟩
  · obtain ⟨t, sm, j', pr, p', h3⟩ := C83_returns (eos := eos) hp (withPlates_shaped hd hpl rest) hps hD (noise := noise)
      (joint := some joint) (k := k) (fun j hh => by
        cases hh
        exact ⟨n, hn, hjs, by intro i m h; cases h⟩) (by intro i m h; cases h) (perturbed := perturbed)
    rw [h3] at h2; cases h2
  · exact ⟨t, sm, j', pr, p', h1⟩

/-- C86 fails for every distribution that depends on samples of the decoder and lacks a plate of the variables before: `gather`
raises RuntimeError. -/
theorem C86_conditional_refuted [Add α] {k : Nat} {eos : Option Nat}
    {tk : List Nat → Nat → List (WithBot α) → List α → List Nat} {fin : Option (Ten Bool)} {d : DistT α V} {D : Nat} {elt : List Nat}
    (hd : d.Shaped D elt) (hpl : ∃ i m, d.place = some (i, m) ∧ 0 < m) (hev : Ten.numel d.events ≠ 0) {rest : List Nat}
    (hr : ∃ n ∈ rest, 1 < n) {noise : List Nat → Nat → Nat → Nat → WithBot α} {joint : Ten α}
    (hj : ∃ n, joint.shape = d.ps ++ rest ++ [n]) {perturbed : Option (Ten (WithBot α))} :
    decodeM k eos tk fin d rest noise joint perturbed = .error .torch := by
  obtain ⟨i, m, hpl, hm⟩ := hpl
  obtain ⟨n, hn⟩ := hj
  obtain ⟨lp, hlp, hlps⟩ := logProbs_ok hd
  obtain ⟨su, hsu⟩ := values_ok hd (fun i' n' h => by rw [hpl] at h; cases h; exact hm)
  rw [hpl] at hlps
  simp only [Option.map_some, Option.toList] at hlps
  rw [decodeM, hlp, hsu]
  simp only
  by_cases hk : k < joint.shape.getLast?.getD 0
  · rw [if_pos hk]
  rw [if_neg hk]
  obtain ⟨L, hL⟩ : ∃ L, Ten.numel d.events = L + 1 := Nat.exists_eq_succ_of_ne_zero hev
  have hrg : List.range (Ten.numel d.events) = 0 :: (List.range L).map Nat.succ := by rw [hL, List.range_succ_eq_map]
  rw [hrg, decodeLoopM]
  have hys : (eventAt lp (Ten.unravel d.events 0)).shape = d.ps ++ [m, D] := eventAt_shape (kc := [m]) hlps (by omega)
  generalize eventAt lp (Ten.unravel d.events 0) = yv at hys
  have hlast : joint.shape.getLast?.getD 0 = n := by simp [hn]
  have key : decodeStepM d.ps.length rest.length k eos tk fin d.place.isSome (Ten.unravel d.events 0) yv
      (fun ix => noise ix 0) (startBeamT (d.ps ++ rest) k d.events (some joint)) perturbed = .error .torch := by
    rw [decodeStepM, hpl]
    simp only [startBeamT, Option.map_some, Option.getD_some, Option.isSome_some, allJointM, if_true]
    generalize hpi : (⟨d.ps ++ rest ++ [k], fun idx =>
      if idx.getLast?.getD 0 < joint.shape.getLast?.getD 0 then idx.getLast?.getD 0 else 0⟩ : Ten Nat) = pi
    have hps : pi.shape = d.ps ++ rest ++ [k] := by rw [← hpi]
    have hy0 : (alignMissing d.ps.length rest.length yv).shape = d.ps ++ List.replicate rest.length 1 ++ [m, D] := by
      simp [alignMissing, hys]
    generalize alignMissing d.ps.length rest.length yv = y0 at hy0
    have hix : (rightExpand (narrowLast pi (joint.shape.getLast?.getD 0)) y0.shape).shape
        = d.ps ++ rest ++ [min n k, D] := by
      have h1 : (narrowLast pi (joint.shape.getLast?.getD 0)).shape = d.ps ++ rest ++ [min n k] := by
        rw [hlast]
        simp only [narrowLast, hps, List.dropLast_concat, List.getLast?_concat, Option.map_some, Option.toList]
      have h2 : y0.shape.drop (d.ps ++ rest ++ [min n k]).length = [D] := by
        rw [hy0, show d.ps ++ List.replicate rest.length 1 ++ [m, D] = (d.ps ++ List.replicate rest.length 1 ++ [m]) ++ [D] by simp]
        exact List.drop_left' (by simp)
      simp only [rightExpand, Ten.ndim, h1, h2]
      simp
    have hg : gatherT y0 (d.ps.length + rest.length) (rightExpand (narrowLast pi (joint.shape.getLast?.getD 0)) y0.shape)
        = .error .torch := by
      have hd1 : y0.shape[d.ps.length + rest.length]? = some m := by
        rw [hy0, List.getElem?_append_right (by simp)]
        simp
      rw [gatherT, hd1]
      simp only
      rw [if_neg]
      rintro ⟨_, hall, _⟩
      have er1 : (rightExpand (narrowLast pi (joint.shape.getLast?.getD 0)) y0.shape).shape.eraseIdx (d.ps.length + rest.length)
          = d.ps ++ (rest ++ [D]) := by
        rw [hix, List.eraseIdx_append_of_length_le (by simp)]
        simp
      have er2 : y0.shape.eraseIdx (d.ps.length + rest.length) = d.ps ++ (List.replicate rest.length 1 ++ [D]) := by
        rw [hy0, List.eraseIdx_append_of_length_le (by simp)]
        simp
      rw [er1, er2, List.zip_append rfl, List.zip_append (by simp), List.all_append, List.all_append] at hall
      simp only [Bool.and_eq_true] at hall
      obtain ⟨x, hx, hx1⟩ := hr
      obtain ⟨q, hq, rfl⟩ := List.getElem_of_mem hx
      have hall := hall.2.1
      rw [List.all_eq_true] at hall
      have := hall (rest[q], 1) (by
        rw [List.mem_iff_getElem]
        exact ⟨q, by simp [hq], by simp⟩)
      simp only [decide_eq_true_eq] at this
      omega
    rw [hg]
  rw [key]

namespace DecodeMissingCase

open DecodePlatesCase

/-- A second variable without plates and with two event cells. -/
def plain : DistT ℚ Nat :=
  ⟨[], none, [2], ⟨[2, 2], fun idx => -((2 * idx.getD 0 0 + idx.getD 1 0 : Nat) : ℚ)⟩, ⟨[2, 2], fun idx => 10 * idx.getD 1 0 + idx.getD 0 0⟩⟩

theorem plain_shaped : plain.Shaped 2 [] := ⟨by simp [plain], rfl, rfl⟩

/-- A second variable without plates that depends on the first. -/
def depends : DistT ℚ Nat :=
  ⟨[], some (0, 2), [], ⟨[2, 2], fun _ => 0⟩, ⟨[2, 2], fun idx => idx.getD 0 0⟩⟩

theorem depends_shaped : depends.Shaped 2 [] :=
  ⟨by intro i n h; simp only [depends, Option.some.injEq, Prod.mk.injEq] at h; simp [depends]; omega, rfl, rfl⟩

/-- The hypotheses of C86 are met: the first variable has a plate of two, the second one has none. -/
example : show' (decodeM 3 none (fun _ => sortTop) none plain [2] noise joint1 none) = some
    (([2, 3, 2], [0, 1, 1, 1, 1, 1, 1, 0, 0, 0, 0, 0]), ([2, 3, 2], [0, 11, 1, 11, 1, 11, 1, 10, 0, 10, 0, 10]),
      ([2, 3], [-5, -8, -7, -7, -4, -5])) := by decide +kernel

example : Option.map elems (match decodeM 3 none (fun _ => sortTop) none plain [2] noise joint1 none with
    | .ok r => r.2.2.2.1 | _ => none) = some ([2, 3], [1, 0, 1, 1, 0, 1]) := by decide +kernel

/-- The rows of the second variable at the indices `0` and `1` of the plate: the same distribution, other variables before. -/
example : (decode 3 none sortTop { (blank : St ℚ) with joint := some [-3, -2], plates := [⟨2, 0, [], [], none⟩] } (plain.at 2 [])
    (noise [0])).2 = .ok ([[0, 1], [1, 1], [1, 1]], some [-5, -8, -7], some [1, 0, 1]) := by decide +kernel

example : (decode 3 none sortTop { (blank : St ℚ) with joint := some [-3, -4], plates := [⟨2, 0, [], [], none⟩] } (plain.at 2 [])
    (noise [1])).2 = .ok ([[1, 0], [0, 0], [0, 0]], some [-7, -4, -5], some [1, 0, 1]) := by decide +kernel

/-- The hypotheses of `C86_returns` are met, for every noise. -/
example (noise : List Nat → Nat → Nat → Nat → WithBot ℚ) : ∃ tokens sample joint par perturbed,
    decodeM 3 none (fun _ => sortTop) none plain [2] noise joint1 none = .ok (tokens, sample, joint, par, perturbed) :=
  C86_returns (fun _ => sortTop_picks) plain_shaped rfl (by simp [plain]) (by omega) ⟨2, by omega, rfl⟩ (by simp)

/-- `C86_values_partial` for every noise: all values are those of the only distribution there is. -/
example (noise : List Nat → Nat → Nat → Nat → WithBot ℚ) : ∃ tokens sample joint par perturbed,
    decodeM 3 none (fun _ => sortTop) none plain [2] noise joint1 none = .ok (tokens, sample, joint, par, perturbed) ∧
      ∀ j r c, InB [j, r, c] tokens.shape → tokens.get [j, r, c] < 2 ∧
        sample.get [j, r, c] = 10 * c + tokens.get [j, r, c] := by
  obtain ⟨tokens, sample, joint, par, perturbed, h⟩ := C86_returns (eos := none) (noise := noise) (k := 3)
    (perturbed := none) (joint := joint1) (rest := [2]) (fun _ => sortTop_picks) plain_shaped rfl (by simp [plain])
    (by omega) ⟨2, by omega, rfl⟩ (by simp)
  refine ⟨tokens, sample, joint, par, perturbed, h, fun j r c hin => ?_⟩
  exact (C86_values_partial (fun _ => sortTop_picks) plain_shaped rfl ⟨2, rfl⟩ (by simp) h).2 [] [j] r [c] [] hin rfl
    rfl .nil

/-- `C86_rows_partial` for every noise: the tokens at the index `1` of the plate are those of decoding once, from the
row of the variables before at this index. -/
example (noise : List Nat → Nat → Nat → Nat → WithBot ℚ) : ∃ tokens sample joint par perturbed,
    decodeM 3 none (fun _ => sortTop) none plain [2] noise joint1 none = .ok (tokens, sample, joint, par, perturbed) ∧
      (decode 3 none sortTop { (blank : St ℚ) with joint := some (rowAt joint1 [1]), plates := [⟨2, 0, [], [], none⟩] }
        (plain.at 2 []) (noise [1])).2 =
          .ok (tokensAt tokens [1], joint.map (rowAt · [1]), par.map (rowAt · [1])) := by
  obtain ⟨tokens, sample, joint, par, perturbed, h⟩ := C86_returns (eos := none) (noise := noise) (k := 3)
    (perturbed := none) (joint := joint1) (rest := [2]) (fun _ => sortTop_picks) plain_shaped rfl (by simp [plain])
    (by omega) ⟨2, by omega, rfl⟩ (by simp)
  refine ⟨tokens, sample, joint, par, perturbed, h, ?_⟩
  have := C86_rows_partial (fun _ => sortTop_picks) plain_shaped rfl (by simp) ⟨2, rfl⟩ (by simp) h [] .nil [1]
    (.cons (by omega) .nil)
    { (blank : St ℚ) with joint := some (rowAt joint1 [1]), plates := [⟨2, 0, [], [], none⟩] } rfl rfl rfl
  exact congrArg Prod.snd this

/-- The hypotheses of `C86_conditional_refuted` are met, for every noise. -/
example (noise : List Nat → Nat → Nat → Nat → WithBot ℚ) :
    decodeM 3 none (fun _ => sortTop) none depends [2] noise joint1 none = .error .torch :=
  C86_conditional_refuted depends_shaped ⟨0, 2, rfl, by omega⟩ (by simp [depends, Ten.numel]) ⟨2, by simp, by omega⟩ ⟨2, rfl⟩

end DecodeMissingCase

end Storch.Decode
