import Verif.Model.PlatePresent
import Verif.Props.DecodeProps

/-!
# C100: which distributions a decoder accepts
-/

namespace Storch.Decode
variable {α : Type _}

/-- The check is passed exactly if no plate with the name of the estimator is objected to. -/
theorem checkPlates_iff (x : Decoder α) (name : String) (L : List PlateSeen) :
    x.checkPlates name L = .ok () ↔ ∀ q ∈ L, q.name = name → x.present q = .ok () := by
  induction L with
  | nil => simp [Decoder.checkPlates]
  | cons p ps ih =>
    rw [Decoder.checkPlates]
    by_cases hp : p.name = name
    · rw [if_pos hp]
      cases h : x.present p with
      | error e => simp [hp, h]
      | ok u => simp [hp, h, ih]
    · rw [if_neg hp, ih]
      simp [hp]

/-- The only exception of the check is the `ValueError`. -/
theorem checkPlates_cases (x : Decoder α) (name : String) (L : List PlateSeen) :
    x.checkPlates name L = .ok () ∨ x.checkPlates name L = .error .value := by
  induction L with
  | nil => exact .inl rfl
  | cons p ps ih =>
    rw [Decoder.checkPlates]
    split
    · have : x.present p = .ok () ∨ x.present p = .error .value := by
        unfold Decoder.present
        split
        · exact .inr rfl
        · exact .inr rfl
        · unfold presentSwor
          split
          · exact .inr rfl
          · split
            · exact .inr rfl
            · exact .inl rfl
      rcases this with h | h
      · rw [h]
        exact ih
      · rw [h]
        exact .inr rfl
    · exact ih

/-- **C100**, which distributions sampling without replacement accepts: exactly those in which every plate of this name
is that of a decoded variable, with an index that is not larger than the number of variables so far, and has at most
`k` samples; all others raise `ValueError`. -/
theorem C100_swor_iff (k : Nat) (eos : Option Nat) (biased pf : Bool) (s : St α) (name : String) (L : List PlateSeen) :
    ((Decoder.mk (.swor k eos biased) pf s).checkPlates name L = .ok () ↔
      ∀ q ∈ L, q.name = name → ∃ i, q.index = some i ∧ i ≤ s.varIdx ∧ q.n ≤ k) ∧
    ((Decoder.mk (.swor k eos biased) pf s).checkPlates name L ≠ .ok () →
      (Decoder.mk (.swor k eos biased) pf s).checkPlates name L = .error .value) := by
  refine ⟨?_, fun h => (checkPlates_cases _ _ _).resolve_left h⟩
  rw [checkPlates_iff]
  refine forall₂_congr fun q _ => ?_
  refine imp_congr_right fun _ => ?_
  obtain ⟨nm, n, i⟩ := q
  cases i with
  | none => simp [Decoder.present, presentSwor, presentBase]
  | some i =>
    by_cases h : s.varIdx < i ∨ k < n
    · simp only [Decoder.present, presentSwor, presentBase, if_pos h]
      constructor
      · intro h'; cases h'
      · rintro ⟨j, hj, h1, h2⟩
        cases hj
        omega
    · simp only [Decoder.present, presentSwor, if_neg h, true_iff]
      exact ⟨i, rfl, by omega, by omega⟩

/-- What one decoded variable adds to the chain of plates. -/
theorem sampleSwor_chain [Add α] {k : Nat} {eos : Option Nat} {topk : Nat → List (WithBot α) → List α → List Nat}
    {d : Dist α} {noise : Nat → Nat → Nat → WithBot α} {s s' : St α} {smp : List (List Nat)}
    (h : sampleSwor k eos topk d noise s = (s', .ok smp)) :
    ∃ p, s'.plates = p :: s.plates ∧ p.varIdx = s.varIdx ∧ s'.varIdx = s.varIdx + 1 := by
  unfold sampleSwor at h
  split at h
  · simp at h
  · simp only [] at h
    split at h
    · simp at h
    · rename_i plate hcp
      split at h
      · simp at h
      · simp only [Prod.mk.injEq] at h
        refine ⟨plate, by rw [← h.1], ?_, by rw [← h.1]⟩
        unfold createPlateSwor at hcp
        split at hcp
        · cases hcp
        · cases hcp
        · rename_i hc
          cases hcp
          unfold createPlate at hc
          split at hc
          · cases hc
          · split at hc
            · cases hc
            · split at hc
              · cases hc
              · cases hc
                rfl

/-- The plates of all variables decoded so far belong to earlier variables and have at most `k` samples. -/
theorem runSwor_chain [AddCommMonoid α] {k : Nat} {eos : Option Nat}
    {topk : Nat → List (WithBot α) → List α → List Nat} (hp : Picks topk) (hk : 2 ≤ k) :
    ∀ (vs : List (Var α × (Nat → Nat → Nat → WithBot α))), (∀ v ∈ vs, 2 ≤ v.1.dom) →
    ∀ {s : St α}, runSwor k eos topk vs blank = .ok s →
      s.plates.length = vs.length ∧ s.varIdx = vs.length ∧ ∀ p ∈ s.plates, p.varIdx < s.varIdx ∧ p.n ≤ k := by
  intro vs
  induction vs using List.reverseRecOn with
  | nil =>
    intro _ s hs
    cases hs
    exact ⟨rfl, rfl, fun p h => by cases h⟩
  | append_singleton vs v ih =>
    intro hD s hs
    have hg := runSwor_good hp hk (vs ++ [v]) (by simp) hD hs
    obtain ⟨v, noise⟩ := v
    obtain ⟨s1, h1, h2⟩ := (runSwor_append vs [(v, noise)] blank s).1 hs
    obtain ⟨smp, h2⟩ := runSwor_one.1 h2
    obtain ⟨i1, i2, i3⟩ := ih (fun w hw => hD w (by simp [hw])) h1
    obtain ⟨p, c1, c2, c3⟩ := sampleSwor_chain h2
    obtain ⟨p', ps, g1, g2, g3⟩ := hg.plate
    rw [c1] at g1
    obtain ⟨rfl, rfl⟩ := List.cons.inj g1
    refine ⟨by rw [c1]; simp [i1], by rw [c3, i2]; simp, fun q hq => ?_⟩
    rw [c1] at hq
    rcases List.mem_cons.1 hq with rfl | hq
    · exact ⟨g3, by rw [g2]; exact hg.most⟩
    · obtain ⟨j1, j2⟩ := i3 q hq
      exact ⟨by omega, j2⟩

/-- **C100**, what is true: after any number of variables decoded without replacement, a distribution is accepted if
all its plates with the name of the estimator belong to variables that this decoder has decoded since `reset`, whichever
of them they are and however many.  Missing for C100: the other decoders (`C100_montecarlo_refuted`), and that the
plates of others are refused (`C100_foreign_refuted`, `C100_reset_refuted`). -/
theorem C100_swor_partial [AddCommMonoid α] {k : Nat} {eos : Option Nat} (biased pf : Bool)
    {topk : Nat → List (WithBot α) → List α → List Nat} (hp : Picks topk) (hk : 2 ≤ k)
    (vs : List (Var α × (Nat → Nat → Nat → WithBot α))) (hD : ∀ v ∈ vs, 2 ≤ v.1.dom) {s : St α}
    (hs : runSwor k eos topk vs blank = .ok s) (name : String) (L : List PlateSeen)
    (hown : ∀ q ∈ L, q.name = name → ∃ p ∈ s.plates, q = p.seen name) :
    (Decoder.mk (.swor k eos biased) pf s).checkPlates name L = .ok () := by
  refine (C100_swor_iff k eos biased pf s name L).1.2 fun q hq hn => ?_
  obtain ⟨p, hp', rfl⟩ := hown q hq hn
  obtain ⟨h1, h2⟩ := (runSwor_chain hp hk vs hD hs).2.2 p hp'
  exact ⟨p.varIdx, rfl, by omega, h2⟩

/-- C100 is false for the Monte Carlo decoder and the one for importance sampling: in every state they refuse every
distribution with a plate of this name, those that depend on the variables they have decoded themselves included.  No
autoregressive model can be decoded with them through an estimator. -/
theorem C100_montecarlo_refuted (x : Decoder α) (hc : ∀ k eos b, x.cls ≠ .swor k eos b) (name : String) :
    (∀ L : List PlateSeen, (∃ q ∈ L, q.name = name) → x.checkPlates name L = .error .value) ∧
      ∀ p ∈ x.st.plates, x.checkPlates name [p.seen name] = .error .value := by
  have key : ∀ L : List PlateSeen, (∃ q ∈ L, q.name = name) → x.checkPlates name L = .error .value := by
    rintro L ⟨q, hq, hn⟩
    refine (checkPlates_cases x name L).resolve_left fun h => ?_
    have := (checkPlates_iff x name L).1 h q hq hn
    unfold Decoder.present at this
    split at this
    · cases this
    · cases this
    · rename_i k eos b hx
      exact hc k eos b hx
  exact ⟨key, fun p _ => key _ ⟨_, List.mem_singleton.2 rfl, rfl⟩⟩

/-- C100 is false for the plates of others: a decoder without replacement accepts all plates of any other decoder with
the same plate name and no more samples that is at most one variable ahead, as if they were its own. -/
theorem C100_foreign_refuted [AddCommMonoid α] {k k' : Nat} {eos eos' : Option Nat} (biased pf : Bool) (hkk : k' ≤ k)
    {topk topk' : Nat → List (WithBot α) → List α → List Nat} (hp : Picks topk) (hp' : Picks topk') (hk' : 2 ≤ k')
    (vs vs' : List (Var α × (Nat → Nat → Nat → WithBot α))) (hD : ∀ v ∈ vs, 2 ≤ v.1.dom) (hD' : ∀ v ∈ vs', 2 ≤ v.1.dom)
    (hlen : vs'.length ≤ vs.length + 1) {s s' : St α} (hs : runSwor k eos topk vs blank = .ok s)
    (hs' : runSwor k' eos' topk' vs' blank = .ok s') (name : String) :
    s'.plates.length = vs'.length ∧
      (Decoder.mk (.swor k eos biased) pf s).checkPlates name (s'.plates.map (APlate.seen name)) = .ok () := by
  obtain ⟨-, h2, -⟩ := runSwor_chain hp (by omega) vs hD hs
  obtain ⟨h1', h2', h3'⟩ := runSwor_chain hp' hk' vs' hD' hs'
  refine ⟨h1', (C100_swor_iff k eos biased pf s name _).1.2 fun q hq _ => ?_⟩
  obtain ⟨p, hpm, rfl⟩ := List.mem_map.1 hq
  obtain ⟨j1, j2⟩ := h3' p hpm
  exact ⟨p.varIdx, rfl, by omega, by simp only [APlate.seen]; omega⟩

/-- C100 is false after `reset`: the decoder then has no variables, but the plate of the first variable of the sequence
before passes the check (the index is compared with `>` where `>=` is meant), and decoding then fails for want of a plate
with an `AttributeError` whatever the distribution that carries it. -/
theorem C100_reset_refuted [AddCommMonoid α] {k : Nat} {eos : Option Nat} (biased pf : Bool)
    {topk : Nat → List (WithBot α) → List α → List Nat} (hp : Picks topk) (hk : 2 ≤ k)
    (v : Var α × (Nat → Nat → Nat → WithBot α)) (hD : 2 ≤ v.1.dom) {s : St α}
    (hs : runSwor k eos topk [v] blank = .ok s) (name : String) :
    ∃ p, s.plates = [p] ∧ (Decoder.reset ⟨.swor k eos biased, pf, s⟩).st.plates = [] ∧
      (Decoder.reset ⟨.swor k eos biased, pf, s⟩).checkPlates name [p.seen name] = .ok () ∧
      ∀ d : Dist α, d.cond = true → ∀ noise,
        (sampleSwor k eos topk d noise (Decoder.reset ⟨.swor k eos biased, pf, s⟩).st).2 = .error .attribute := by
  obtain ⟨h1, h2, h3⟩ := runSwor_chain hp hk [v] (by simpa using hD) hs
  obtain ⟨p, hp'⟩ := List.length_eq_one_iff.1 h1
  refine ⟨p, hp', rfl, (C100_swor_iff k eos biased pf _ name _).1.2 fun q hq _ => ?_, fun d hd noise => ?_⟩
  · rw [List.mem_singleton] at hq
    subst hq
    obtain ⟨j1, j2⟩ := h3 p (by rw [hp']; simp)
    simp only [h2, List.length_singleton] at j1
    exact ⟨p.varIdx, rfl, by omega, j2⟩
  · simp [sampleSwor, decode, Decoder.reset, hd]

namespace PlatePresentCase

/-- A coin. -/
def coin : Var ℚ := ⟨2, [], false, fun _ _ _ => -1⟩

/-- A coin whose law depends on those before. -/
def next : Var ℚ := ⟨2, [], true, fun s _ t => -((s.length + t : Nat) : ℚ)⟩

/-- No perturbation. -/
def noise : Nat → Nat → Nat → WithBot ℚ := fun c r t => ((c + 2 * r + 3 * t : Nat) : ℚ)

/-- A case for `C100_swor_partial`: after two coins the plates of both are accepted, together with another plate. -/
example : ∃ s, runSwor 3 none sortTop [(coin, noise), (next, noise)] blank = .ok s ∧
    s.plates.map (fun p => (p.n, p.varIdx)) = [(3, 1), (2, 0)] ∧
    (Decoder.mk (.swor 3 none false) false s).checkPlates "x" (⟨"batch", 7, none⟩ :: s.plates.map (APlate.seen "x")) = .ok () := by
  obtain ⟨s, hs, -⟩ := runSwor_total (k := 3) (eos := none) (sortTop_picks (α := ℚ)) (by decide)
    [(coin, noise), (next, noise)] (by simp [coin, next])
  refine ⟨s, hs, ?_, C100_swor_partial false false sortTop_picks (by decide) _ (by simp [coin, next]) hs "x" _ ?_⟩
  · have : (match runSwor 3 none sortTop [(coin, noise), (next, noise)] blank with
        | .ok s => s.plates.map (fun p => (p.n, p.varIdx))
        | .error _ => []) = [(3, 1), (2, 0)] := by decide +kernel
    rw [hs] at this
    exact this
  · intro q hq hn
    rcases List.mem_cons.1 hq with rfl | hq
    · simp at hn
    · obtain ⟨p, h1, rfl⟩ := List.mem_map.1 hq
      exact ⟨p, h1, rfl⟩

/-- A case for `C100_swor_iff`: an ordinary plate of this name is refused, and so are one of a later variable and one
with too many samples. -/
example : let x : Decoder ℚ := ⟨.swor 3 none false, false, { blank with varIdx := 1 }⟩
    x.checkPlates "x" [⟨"y", 2, none⟩, ⟨"x", 3, some 0⟩] = .ok () ∧ x.checkPlates "x" [⟨"x", 2, none⟩] = .error .value ∧
      x.checkPlates "x" [⟨"x", 2, some 2⟩] = .error .value ∧ x.checkPlates "x" [⟨"x", 4, some 0⟩] = .error .value := by
  decide +kernel

/-- A case for `C100_montecarlo_refuted`: the decoder has drawn three samples of a coin, and then refuses a variable
that depends on it. -/
example : let c : Call ℚ := .sample (coin.dist blank) (coin.dist blank) (fun r => r % 2) noise
    let x : Decoder ℚ := Decoder.step sortTop ⟨.mc 3 none, true, blank⟩ c
    x.st.plates.map (fun p => (p.n, p.varIdx)) = [(3, 0)] ∧
      x.checkPlates "x" (x.st.plates.map (APlate.seen "x")) = .error .value := by decide +kernel

/-- A case for `C100_foreign_refuted`: one decoder has decoded a coin, another two, and the first accepts both plates of
the second. -/
example : ∃ s s', runSwor 3 none sortTop [(coin, noise)] blank = .ok s ∧
    runSwor 3 none sortTop [(coin, noise), (next, noise)] blank = .ok s' ∧ s'.plates.length = 2 ∧
    (Decoder.mk (.swor 3 none true) false s).checkPlates "x" (s'.plates.map (APlate.seen "x")) = .ok () := by
  obtain ⟨s, hs, -⟩ := runSwor_total (k := 3) (eos := none) (sortTop_picks (α := ℚ)) (by decide)
    [(coin, noise)] (by simp [coin])
  obtain ⟨s', hs', -⟩ := runSwor_total (k := 3) (eos := none) (sortTop_picks (α := ℚ)) (by decide)
    [(coin, noise), (next, noise)] (by simp [coin, next])
  exact ⟨s, s', hs, hs', C100_foreign_refuted true false le_rfl sortTop_picks sortTop_picks (by decide) _ _
    (by simp [coin]) (by simp [coin, next]) (by simp) hs hs' "x"⟩

/-- A case for `C100_reset_refuted`. -/
example : ∃ s p, runSwor 2 none sortTop [(coin, noise)] blank = .ok s ∧ s.plates = [p] ∧
    (Decoder.reset ⟨.swor 2 none false, false, s⟩).checkPlates "x" [p.seen "x"] = .ok () := by
  obtain ⟨s, hs, -⟩ := runSwor_total (k := 2) (eos := none) (sortTop_picks (α := ℚ)) (by decide)
    [(coin, noise)] (by simp [coin])
  obtain ⟨p, h1, -, h3, -⟩ := C100_reset_refuted false false sortTop_picks (by decide) (coin, noise) (by decide) hs "x"
  exact ⟨s, p, hs, h1, h3⟩

end PlatePresentCase

end Storch.Decode
