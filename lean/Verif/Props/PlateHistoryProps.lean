import Verif.Props.PlatePresentProps

/-!
# C100 after any history of calls

`C100_swor_partial` is about sequences of variables that were all decoded without an exception.  Here the decoder has any
history: calls of `sample` on any distributions, also those that raised half-way, and calls of `reset`.
-/

namespace Storch.Decode
variable {α : Type _}

theorem setCells_length {ev : Nat} : ∀ {vals : List Nat} {rows out : List (List Nat)},
    setCells ev vals rows = .ok out → out.length = rows.length := by
  intro vals
  induction vals with
  | nil =>
    intro rows out h
    simp only [setCells, Except.ok.injEq] at h
    rw [h]
  | cons v vs ih =>
    intro rows out h
    cases rows with
    | nil => simp [setCells] at h
    | cons r rs =>
      simp only [setCells] at h
      split at h
      · cases h
      · rename_i rs' hrs
        cases h
        simp [ih hrs]

/-- No step of the loop makes more than `k` rows. -/
theorem decodeStep_most [Add α] {k : Nat} {eos : Option Nat} {topk : Nat → List (WithBot α) → List α → List Nat}
    (ht : ∀ m l j, (topk m l j).length ≤ m) {fin : Option Mask} {d : Dist α} {ev : Nat}
    {noise : Nat → Nat → WithBot α} {b b' : Beam α} {p : Option (List (WithBot α))} {p' : List (WithBot α)}
    (hb : b.sampled.length ≤ k) (h : decodeStep k eos topk fin d ev noise b p = .ok (b', p')) :
    b'.sampled.length ≤ k := by
  unfold decodeStep at h
  split at h
  · cases h
  · rename_i all hall
    split at h
    · cases h
    · rename_i G hG
      simp only [] at h
      have hn : (topk (min k G.flatten.length) G.flatten all.flatten).length ≤ k := (ht _ _ _).trans (min_le_left _ _)
      generalize topk (min k G.flatten.length) G.flatten all.flatten = arg at h hn
      split at h
      · split at h
        · split at h
          · cases h
          · rename_i sampled hs
            cases h
            simpa [setCells_length hs] using hb
        · split at h
          · cases h
          · rename_i rows hrows
            have hr : rows.length ≤ k := by
              rw [(gatherL_spec hrows).1, List.length_map]
              exact hn
            split at h
            · cases h
            · rename_i sampled hs
              have hs' := setCells_length hs
              split at h
              · cases h
                simp only
                omega
              · split at h
                · cases h
                · cases h
                  simp only
                  omega
      · cases h
      · cases h

theorem decodeLoop_most [Add α] {k : Nat} {eos : Option Nat} {topk : Nat → List (WithBot α) → List α → List Nat}
    (ht : ∀ m l j, (topk m l j).length ≤ m) {fin : Option Mask} {d : Dist α}
    {noise : Nat → Nat → Nat → WithBot α} : ∀ (evs : List Nat) {b b' : Beam α} {p p' : Option (List (WithBot α))},
    b.sampled.length ≤ k → decodeLoop k eos topk fin d noise evs b p = (p', .ok b') → b'.sampled.length ≤ k := by
  intro evs
  induction evs with
  | nil =>
    intro b b' p p' hb h
    simp only [decodeLoop, Prod.mk.injEq, Except.ok.injEq] at h
    rw [← h.2]
    exact hb
  | cons ev evs ih =>
    intro b b' p p' hb h
    simp only [decodeLoop] at h
    split at h
    · simp at h
    · rename_i b1 p1 h1
      exact ih (decodeStep_most ht hb h1) h

theorem cutLast_most (events : List Nat) (amt : Nat) (rows : List (List Nat)) :
    (cutLast events amt rows).length ≤ rows.length := by
  unfold cutLast
  split
  · simp
  · simp

theorem decode_most [Add α] {k : Nat} {eos : Option Nat} {topk : Nat → List (WithBot α) → List α → List Nat}
    (ht : ∀ m l j, (topk m l j).length ≤ m) {s : St α} {d : Dist α} {noise : Nat → Nat → Nat → WithBot α}
    {p : Option (List (WithBot α))} {samples : List (List Nat)} {joint : Option (List α)} {pi : Option (List Nat)}
    (h : decode k eos topk s d noise = (p, .ok (samples, joint, pi))) : samples.length ≤ k := by
  unfold decode at h
  split at h
  · simp at h
  · split at h
    · simp at h
    · split at h
      · simp at h
      · rename_i p1 b hl
        have hb : b.sampled.length ≤ k := decodeLoop_most ht _ (by simp [startBeam]) hl
        simp only [Prod.mk.injEq, Except.ok.injEq] at h
        rw [← h.2.1]
        split
        · exact (cutLast_most _ _ _).trans hb
        · exact hb

theorem createPlateSwor_spec {s : St α} {n : Nat} {joint : Option (List α)} {perturbed : Option (List (WithBot α))}
    {p : APlate α} (h : createPlateSwor s n joint perturbed = .ok p) : p.n = n ∧ p.varIdx = s.varIdx := by
  unfold createPlateSwor at h
  split at h
  · cases h
  · cases h
  · rename_i hc
    cases h
    unfold createPlate at hc
    split at hc
    · cases hc
    · split at hc
      · cases hc
      · split at hc
        · cases hc
        · cases hc
          exact ⟨rfl, rfl⟩

/-- What a call of `sample` does to the plates, whether it returns or raises. -/
theorem sampleSwor_plates [Add α] {k : Nat} {eos : Option Nat} {topk : Nat → List (WithBot α) → List α → List Nat}
    (ht : ∀ m l j, (topk m l j).length ≤ m) (d : Dist α) (noise : Nat → Nat → Nat → WithBot α) (s : St α) :
    s.varIdx ≤ (sampleSwor k eos topk d noise s).1.varIdx ∧
      ∀ q ∈ (sampleSwor k eos topk d noise s).1.plates, q ∈ s.plates ∨ (q.varIdx = s.varIdx ∧ q.n ≤ k) := by
  unfold sampleSwor
  split
  · exact ⟨le_rfl, fun q hq => .inl hq⟩
  · rename_i p samples joint pi hd
    have hn := decode_most ht hd
    simp only []
    split
    · exact ⟨le_rfl, fun q hq => .inl hq⟩
    · rename_i plate hcp
      obtain ⟨c1, c2⟩ := createPlateSwor_spec hcp
      have hnew : ∀ q ∈ plate :: s.plates, q ∈ s.plates ∨ (q.varIdx = s.varIdx ∧ q.n ≤ k) := by
        intro q hq
        rcases List.mem_cons.1 hq with rfl | hq
        · exact .inr ⟨c2, by omega⟩
        · exact .inl hq
      split
      · exact ⟨le_rfl, hnew⟩
      · exact ⟨Nat.le_succ _, hnew⟩

/-- The plates of a decoder without replacement, after any history of calls. -/
theorem history_chain [Add α] {k : Nat} {eos : Option Nat} {biased : Bool}
    {topk : Nat → List (WithBot α) → List α → List Nat} (ht : ∀ m l j, (topk m l j).length ≤ m) :
    ∀ (cs : List (Call α)) {x : Decoder α}, x.cls = .swor k eos biased →
      (∀ p ∈ x.st.plates, p.varIdx ≤ x.st.varIdx ∧ p.n ≤ k) →
      (cs.foldl (Decoder.step topk) x).cls = .swor k eos biased ∧
        ∀ p ∈ (cs.foldl (Decoder.step topk) x).st.plates,
          p.varIdx ≤ (cs.foldl (Decoder.step topk) x).st.varIdx ∧ p.n ≤ k := by
  intro cs
  induction cs with
  | nil => exact fun hx hi => ⟨hx, hi⟩
  | cons c cs ih =>
    intro x hx hi
    rw [List.foldl_cons]
    refine ih ?_ ?_
    · cases c with
      | reset => simp only [Decoder.step, Decoder.reset, hx]
      | sample d q draw noise => simp only [Decoder.step, hx]
    · cases c with
      | reset =>
        simp only [Decoder.step, Decoder.reset, hx]
        intro p hp
        cases hp
      | sample d q draw noise =>
        simp only [Decoder.step, hx]
        obtain ⟨h1, h2⟩ := sampleSwor_plates (k := k) (eos := eos) ht d noise x.st
        intro p hp
        rcases h2 p hp with hp | ⟨e1, e2⟩
        · obtain ⟨j1, j2⟩ := hi p hp
          exact ⟨by omega, j2⟩
        · exact ⟨by omega, e2⟩

/-- **C100**, what is true of all states that a decoder without replacement reaches: after any calls of `sample` and
`reset` on a new decoder, with any distributions and whether the calls returned or raised, a distribution is accepted if
all its plates with the name of the estimator are in the chain of the decoder's plates.  The one assumption is that
`select_samples` returns no more indices than asked for.  Missing for C100: the other decoders
(`C100_montecarlo_refuted`), and that the plates of others are refused (`C100_foreign_refuted`, `C100_reset_refuted`). -/
theorem C100_history_partial [Add α] {k : Nat} {eos : Option Nat} {biased : Bool}
    {topk : Nat → List (WithBot α) → List α → List Nat} (ht : ∀ m l j, (topk m l j).length ≤ m) {x : Decoder α}
    (hx : construct (.swor k eos biased) = .ok x) (cs : List (Call α)) (name : String) (L : List PlateSeen)
    (hown : ∀ q ∈ L, q.name = name → ∃ p ∈ (cs.foldl (Decoder.step topk) x).st.plates, q = p.seen name) :
    (cs.foldl (Decoder.step topk) x).checkPlates name L = .ok () := by
  have h0 : x.cls = .swor k eos biased ∧ x.st.plates = [] := by
    unfold construct at hx
    simp only [] at hx
    split at hx
    · cases hx
    · cases hx
      exact ⟨rfl, rfl⟩
  obtain ⟨h1, h2⟩ := history_chain (eos := eos) (biased := biased) ht cs h0.1 (by rw [h0.2]; intro p hp; cases hp)
  generalize cs.foldl (Decoder.step topk) x = y at *
  obtain ⟨c, pf, st⟩ := y
  simp only at h1
  subst h1
  refine (C100_swor_iff k eos biased pf st name L).1.2 fun q hq hn => ?_
  obtain ⟨p, hp, rfl⟩ := hown q hq hn
  obtain ⟨j1, j2⟩ := h2 p hp
  exact ⟨p.varIdx, rfl, j1, j2⟩

namespace PlateHistoryCase
open PlatePresentCase

/-- The calls of a case: one that raises since nothing was decoded yet, a coin, `reset`, two coins. -/
def calls : List (Call ℚ) :=
  [.sample ⟨2, [], true, fun _ _ _ => -1⟩ (coin.dist blank) (fun _ => 0) noise,
    .sample (coin.dist blank) (coin.dist blank) (fun _ => 0) noise, .reset,
    .sample (coin.dist blank) (coin.dist blank) (fun _ => 0) noise,
    .sample (coin.dist blank) (coin.dist blank) (fun _ => 0) noise]

/-- A case for `C100_history_partial`: the plates of the two coins after the reset are accepted, though not that of a
variable two ahead. -/
example : ∃ x, construct (α := ℚ) (.swor 3 none false) = .ok x ∧
    (calls.foldl (Decoder.step sortTop) x).st.plates.map (fun p => (p.n, p.varIdx)) = [(3, 1), (2, 0)] ∧
    (calls.foldl (Decoder.step sortTop) x).checkPlates "x"
      ((calls.foldl (Decoder.step sortTop) x).st.plates.map (APlate.seen "x")) = .ok () ∧
    (calls.foldl (Decoder.step sortTop) x).checkPlates "x" [⟨"x", 2, some 3⟩] = .error .value := by
  refine ⟨_, rfl, by decide +kernel, C100_history_partial (k := 3) (eos := none) (biased := false)
    (fun m l j => by rw [sortTop]; exact List.length_take_le _ _) rfl calls "x" _ ?_, by decide +kernel⟩
  intro q hq _
  obtain ⟨p, h1, rfl⟩ := List.mem_map.1 hq
  exact ⟨p, h1, rfl⟩

end PlateHistoryCase

end Storch.Decode
