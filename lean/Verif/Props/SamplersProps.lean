import Verif.Lemmas.SamplersLemmas
import Mathlib.Algebra.BigOperators.Fin
import Mathlib.Algebra.BigOperators.Field
import Mathlib.Data.Rat.Defs
import Mathlib.Tactic.FieldSimp
import Mathlib.Tactic.NormNum

/-!
# C87: an estimator draws its samples with its own sampling function

The specification is `wants`, `wantsWeight` (what every class of estimators defines) and `estimates` (what a weighted average of
samples estimates).
-/

namespace Storch.Samplers

/-! ### Specification -/

/-- The sampling function that a class of estimators defines; none: the samples are those of `distr.sample`. -/
def wants : Kind → Option Fn
  | .reparam => some .reparam
  | .gumbel => some .gumbel
  | .entmax => some .entmax
  | .arm => some .arm
  | .disarm => some .disarm
  | .relax _ => some .relax
  | .infer .rsample => some .reparam
  | .infer .discrete => some .gumbel
  | _ => none

/-- The weighting function that a class of estimators sets. -/
def wantsWeight : Kind → Option WFn
  | .arm => some .arm
  | .relax _ => some .relax
  | _ => none

/-- The estimator takes a sampling method as an argument. -/
def Takes : Kind → Prop
  | .expect => False
  | .wor _ => False
  | _ => True

/-- The command gives the sampling method `s` to an estimator. -/
def Gives (s : Nat) (c : Cmd) : Prop := ∃ kind plate n, c = .method kind plate (some s) n

/-- What an estimator of this class should do with a Monte Carlo sampling method of `n` samples. -/
def ideal (kind : Kind) (owner n : Nat) (present : Bool) : Draw × Weight :=
  (match wants kind with
    | none => .target (if present then 1 else n)
    | some f => .own (owner, f) (if present then 1 else n),
   match wantsWeight kind with
    | none => .uniform
    | some f => .own (owner, f))

open scoped BigOperators in
/-- What the weighted average of `f` over the samples estimates, for a distribution `p` over `d` values and a proposal `q`: the
expectation under the law of the samples of weight times `f`.  Reparameterised samples have the law `p`.  Not given for the
samples of other estimators and without replacement. -/
def estimates {d : Nat} (p q f : Fin d → ℚ) : Draw × Weight → Option ℚ
  | (.target _, .uniform) => some (∑ x, p x * f x)
  | (.own (_, .reparam) _, .uniform) => some (∑ x, p x * f x)
  | (.proposal _, .uniform) => some (∑ x, q x * f x)
  | (.target _, .ratio) => some (∑ x, p x * (p x / q x * f x))
  | (.own (_, .reparam) _, .ratio) => some (∑ x, p x * (p x / q x * f x))
  | (.proposal _, .ratio) => some (∑ x, q x * (p x / q x * f x))
  | (.support, .probs) => some (∑ x, p x * f x)
  | _ => none

/-! ### Proofs -/

theorem run_keeps {s : Nat} (p : List Cmd) {w : World} (h : s < w.samplers.length) (hp : ∀ c ∈ p, ¬Gives s c) :
    Keeps s w (run w p) := by
  induction p generalizing w with
  | nil => exact .refl s w
  | cons c p ih =>
    have h1 : Keeps s w (step w c) := by
      cases c with
      | sampler plate cls => exact newSampler_keeps h _ _
      | method kind plate arg n =>
        refine construct_keeps h ?_ _ _ _
        rintro rfl
        exact hp _ (List.mem_cons_self ..) ⟨_, _, _, rfl⟩
    exact h1.trans (ih (Nat.lt_of_lt_of_le h h1.len) fun c hc => hp c (List.mem_cons_of_mem _ hc))

/-- A sampling method that takes over what estimators set. -/
def Mc (cls : Cls) (n : Nat) : Prop := cls = .monteCarlo n ∨ cls = .mcDecoder n

theorem baseInit_ok {plate : String} {i : Nat} {w : World} (h : baseInit plate i w = .ok ()) :
    ∃ s, w.samplers[i]? = some s ∧ s.plate = plate := by
  rw [baseInit] at h
  cases hs : w.samplers[i]? with
  | none => rw [hs] at h; cases h
  | some s =>
    rw [hs] at h
    simp only at h
    split_ifs at h with hp
    exact ⟨s, rfl, hp⟩

theorem initScore_ok {plate : String} {arg : Option Nat} {n : Nat} {b : Baseline} {w w1 : World} {m : Method}
    (h : initScore plate arg n b w = (w1, .ok m)) :
    w1 = (orDefault plate arg n (newId w).1).1 ∧ m = ⟨w.made, .score b, (orDefault plate arg n (newId w).1).2, w.made⟩ ∧
      ∃ s, w1.samplers[m.sampler]? = some s ∧ s.plate = plate := by
  have hw := initScore_world plate arg n b w
  rw [h] at hw
  replace hw : w1 = (orDefault plate arg n (newId w).1).1 := hw
  refine ⟨hw, ?_⟩
  simp only [initScore] at h
  split at h
  · cases h
  · rename_i hb
    obtain ⟨s, hs, hp⟩ := baseInit_ok hb
    have hm : m = ⟨w.made, .score b, (orDefault plate arg n (newId w).1).2, w.made⟩ := by
      cases b <;> simp only [] at h
      · cases h; rfl
      · cases h; rfl
      · split at h
        · cases h
        · split_ifs at h <;> cases h
          rfl
      · cases h
    refine ⟨hm, s, ?_, hp⟩
    rw [hm, hw]; exact hs

theorem setSample_ok {i : Nat} {f : Nat × Fn} {w w1 : World} (h : setSample i f w = (w1, .ok ())) :
    ∃ s, w.samplers[i]? = some s ∧ w1.samplers[i]? = some { s with mcSample := some f } ∧ w1.made = w.made := by
  rw [setSample] at h
  cases hs : w.samplers[i]? with
  | none => rw [hs] at h; cases h
  | some s =>
    rw [hs] at h
    have hi : i < w.samplers.length := by
      by_contra hc
      rw [List.getElem?_eq_none (by omega)] at hs; cases hs
    obtain ⟨pl, c, a, b⟩ := s
    refine ⟨_, rfl, ?_⟩
    cases c <;> simp only [Prod.mk.injEq, reduceCtorEq, and_false, and_true] at h <;>
      exact ⟨by rw [← h]; simp [hi], by rw [← h]⟩

theorem setWeight_ok {i : Nat} {f : Nat × WFn} {w w1 : World} (h : setWeight i f w = (w1, .ok ())) :
    ∃ s, w.samplers[i]? = some s ∧ w1.samplers[i]? = some { s with mcWeight := some f } ∧ w1.made = w.made := by
  rw [setWeight] at h
  cases hs : w.samplers[i]? with
  | none => rw [hs] at h; cases h
  | some s =>
    rw [hs] at h
    have hi : i < w.samplers.length := by
      by_contra hc
      rw [List.getElem?_eq_none (by omega)] at hs; cases hs
    simp only [Prod.mk.injEq, and_true] at h
    exact ⟨_, rfl, by rw [← h]; simp [hi], by rw [← h]⟩

theorem initFn_ok {kind : Kind} {f : Fn} {plate : String} {arg : Option Nat} {n : Nat} {w w1 : World} {m : Method}
    (h : initFn kind f plate arg n w = (w1, .ok m)) :
    m = ⟨w.made, kind, (orDefault plate arg n (newId w).1).2, w.made⟩ ∧
      ∃ s, (orDefault plate arg n (newId w).1).1.samplers[m.sampler]? = some s ∧ s.plate = plate ∧
        w1.samplers[m.sampler]? = some { s with mcSample := some (m.inner, f) } := by
  simp only [initFn] at h
  split at h
  · cases h
  · rename_i w2 hs
    split at h
    · cases h
    · rename_i hb
      cases h
      refine ⟨rfl, ?_⟩
      obtain ⟨s, h1, h2, h3⟩ := setSample_ok hs
      obtain ⟨s', h4, h5⟩ := baseInit_ok hb
      rw [h2] at h4
      cases h4
      exact ⟨s, h1, h5, h2⟩

theorem initWeighted_ok {kind : Kind} {f : Fn} {g : WFn} {plate : String} {arg : Option Nat} {n : Nat} {w w1 : World} {m : Method}
    (h : initWeighted kind f g plate arg n w = (w1, .ok m)) :
    m = ⟨w.made, kind, (orDefault plate arg n (newId w).1).2, w.made⟩ ∧
      ∃ s, (orDefault plate arg n (newId w).1).1.samplers[m.sampler]? = some s ∧ s.plate = plate ∧
        w1.samplers[m.sampler]? = some { s with mcSample := some (m.inner, f), mcWeight := some (m.inner, g) } := by
  simp only [initWeighted] at h
  split at h
  · cases h
  · rename_i w2 hs
    split at h
    · cases h
    · rename_i w3 hw
      split at h
      · cases h
      · rename_i hb
        split_ifs at h <;> cases h
        refine ⟨rfl, ?_⟩
        obtain ⟨s, h1, h2, _⟩ := setSample_ok hs
        obtain ⟨s', h3, h4, _⟩ := setWeight_ok hw
        rw [h2] at h3
        cases h3
        obtain ⟨s', h5, h6⟩ := baseInit_ok hb
        rw [h4] at h5
        cases h5
        exact ⟨s, h1, h6, h4⟩

/-- What a constructor leaves in the sampling method it was given. -/
theorem construct_ok {kind : Kind} (ht : Takes kind) {plate : String} {arg : Option Nat} {n : Nat} {w w1 : World} {m : Method}
    (h : construct kind plate arg n w = (w1, .ok m)) :
    m.sampler = (orDefault plate arg n w).2 ∧ ∃ s, (orDefault plate arg n w).1.samplers[m.sampler]? = some s ∧ s.plate = plate ∧
      ∃ a b, w1.samplers[m.sampler]? = some ⟨plate, s.cls, a, b⟩ ∧
        a = ((wants kind).map fun f => (m.inner, f)).or s.mcSample ∧
        b = ((wantsWeight kind).map fun f => (m.inner, f)).or s.mcWeight := by
  have hd : ∀ v : World, v.samplers = w.samplers → (orDefault plate arg n v).2 = (orDefault plate arg n w).2 ∧
      (orDefault plate arg n v).1.samplers = (orDefault plate arg n w).1.samplers := by
    intro v hv
    cases arg with
    | some i => exact ⟨rfl, hv⟩
    | none => simp only [orDefault, newSampler, hv, and_self]
  have fnCase : ∀ {k f} {v w1 : World} {m : Method}, v.samplers = w.samplers → initFn k f plate arg n v = (w1, .ok m) →
      m.id = m.inner ∧ m.sampler = (orDefault plate arg n w).2 ∧
        ∃ s, (orDefault plate arg n w).1.samplers[m.sampler]? = some s ∧ s.plate = plate ∧
          w1.samplers[m.sampler]? = some ⟨plate, s.cls, some (m.inner, f), s.mcWeight⟩ := by
    intro k f v w1 m hv h
    obtain ⟨hm, s, h1, h2, h3⟩ := initFn_ok h
    rw [(hd _ (show (newId v).1.samplers = w.samplers from hv)).2] at h1
    have hm2 : m.sampler = (orDefault plate arg n (newId v).1).2 := by rw [hm]
    refine ⟨by rw [hm], by rw [hm2]; exact (hd _ (show (newId v).1.samplers = w.samplers from hv)).1, s, h1, h2, ?_⟩
    rw [h3, ← h2]
  have scCase : ∀ {b} {v w1 : World} {m : Method}, v.samplers = w.samplers → initScore plate arg n b v = (w1, .ok m) →
      m.id = m.inner ∧ m.sampler = (orDefault plate arg n w).2 ∧ w1.samplers = (orDefault plate arg n w).1.samplers ∧
        ∃ s, (orDefault plate arg n w).1.samplers[m.sampler]? = some s ∧ s.plate = plate := by
    intro b v w1 m hv h
    obtain ⟨hw, hm, s, h1, h2⟩ := initScore_ok h
    have e := hd _ (show (newId v).1.samplers = w.samplers from hv)
    refine ⟨by rw [hm], by rw [hm]; exact e.1, by rw [hw]; exact e.2, s, ?_, h2⟩
    rw [← e.2, ← hw]; exact h1
  have one : ∀ {k f}, wants kind = some f → wantsWeight kind = none → initFn k f plate arg n w = (w1, .ok m) →
      m.sampler = (orDefault plate arg n w).2 ∧ ∃ s, (orDefault plate arg n w).1.samplers[m.sampler]? = some s ∧ s.plate = plate ∧
          ∃ a b, w1.samplers[m.sampler]? = some ⟨plate, s.cls, a, b⟩ ∧
          a = ((wants kind).map fun f => (m.inner, f)).or s.mcSample ∧
          b = ((wantsWeight kind).map fun f => (m.inner, f)).or s.mcWeight :=
    fun {k f} h1 h2 h => by
      obtain ⟨_, h3, s, h4, h5, h6⟩ := fnCase rfl h
      exact ⟨h3, s, h4, h5, _, _, h6, by simp [h1], by simp [h2]⟩
  have two : ∀ {k f g}, wants kind = some f → wantsWeight kind = some g → initWeighted k f g plate arg n w = (w1, .ok m) →
      m.sampler = (orDefault plate arg n w).2 ∧ ∃ s, (orDefault plate arg n w).1.samplers[m.sampler]? = some s ∧ s.plate = plate ∧
          ∃ a b, w1.samplers[m.sampler]? = some ⟨plate, s.cls, a, b⟩ ∧
          a = ((wants kind).map fun f => (m.inner, f)).or s.mcSample ∧
          b = ((wantsWeight kind).map fun f => (m.inner, f)).or s.mcWeight :=
    fun {k f g} h1 h2 h => by
      obtain ⟨hm, s, h4, h5, h6⟩ := initWeighted_ok h
      rw [(hd _ (show (newId w).1.samplers = w.samplers from rfl)).2] at h4
      refine ⟨by rw [hm]; exact (hd _ (show (newId w).1.samplers = w.samplers from rfl)).1, s, h4, h5,
        some (m.inner, f), some (m.inner, g), ?_, ?_, ?_⟩
      · rw [h6, ← h5]
      · simp [h1]
      · simp [h2]
  cases kind with
  | score b =>
    obtain ⟨_, h1, h2, s, h3, h4⟩ := scCase rfl h
    refine ⟨h1, s, h3, h4, s.mcSample, s.mcWeight, ?_, rfl, rfl⟩
    rw [h2, h3, ← h4]
  | reparam => exact one rfl rfl h
  | gumbel => exact one rfl rfl h
  | entmax => exact one rfl rfl h
  | disarm => exact one rfl rfl h
  | arm => exact two rfl rfl h
  | relax c => exact two rfl rfl h
  | expect => exact ht.elim
  | wor k => exact ht.elim
  | infer t =>
    rw [construct, initInfer_eq] at h
    rcases hr : inferInner t plate arg n (newId w).1 with ⟨v, e | m'⟩
    · rw [hr] at h; cases h
    · rw [hr] at h
      simp only at h
      rcases hr2 : initScore plate arg n .none v with ⟨u, e | m2⟩
      · rw [hr2] at h; cases h
      · rw [hr2] at h
        cases h
        have key : m'.id = m'.inner ∧ m'.sampler = (orDefault plate arg n w).2 ∧
            ∃ s, (orDefault plate arg n w).1.samplers[m'.sampler]? = some s ∧ s.plate = plate ∧
              ∃ a b, v.samplers[m'.sampler]? = some ⟨plate, s.cls, a, b⟩ ∧
                a = ((wants (.infer t)).map fun f => (m'.id, f)).or s.mcSample ∧ b = s.mcWeight := by
          cases t with
          | rsample =>
            obtain ⟨h0, h1, s, h2, h3, h4⟩ := fnCase (v := (newId w).1) rfl hr
            exact ⟨h0, h1, s, h2, h3, _, _, h4, by rw [h0]; rfl, rfl⟩
          | discrete =>
            obtain ⟨h0, h1, s, h2, h3, h4⟩ := fnCase (v := (newId w).1) rfl hr
            exact ⟨h0, h1, s, h2, h3, _, _, h4, by rw [h0]; rfl, rfl⟩
          | other =>
            obtain ⟨h0, h1, h2, s, h3, h4⟩ := scCase (v := (newId w).1) rfl hr
            exact ⟨h0, h1, s, h3, h4, s.mcSample, s.mcWeight, by rw [h2, h3, ← h4], rfl, rfl⟩
        obtain ⟨_, h1, s, h2, h3, a, b, h4, h5, h6⟩ := key
        refine ⟨h1, s, h2, h3, a, b, ?_, h5, h6⟩
        have hlt : m'.sampler < v.samplers.length := by
          by_contra hc
          rw [List.getElem?_eq_none (by omega)] at h4; cases h4
        obtain ⟨hu, _, _⟩ := initScore_ok hr2
        show w1.samplers[m'.sampler]? = _
        rw [hu, ← h4]
        cases arg with
        | some i => rfl
        | none => exact (newSampler_keeps (w := (newId v).1) hlt _ _).same

theorem sample_ideal {kind : Kind} {owner n : Nat} {plate : String} {cls : Cls} (hc : Mc cls n) (present : Bool)
    {a : Option (Nat × Fn)} {b : Option (Nat × WFn)} (ha : a = (wants kind).map fun f => (owner, f))
    (hb : b = (wantsWeight kind).map fun f => (owner, f)) :
    ((⟨plate, cls, a, b⟩ : Sampler).draw present, (⟨plate, cls, a, b⟩ : Sampler).weight) = ideal kind owner n present := by
  subst ha hb
  rcases hc with rfl | rfl <;> simp only [Sampler.draw, Sampler.weight, ideal] <;>
    cases wants kind <;> cases wantsWeight kind <;> rfl

/-! ### C87 -/

/-- **C87** (a sampling method given to one estimator).  In every program: if the sampling method `s` is of class `MonteCarlo` or
`MCDecoder` and is given to one estimator only, then this estimator draws its samples with its own function (or, if it has none,
with `distr.sample`), as many as the sampling method says, and weights them with its own function, whatever the program does
before, between and after.
Missing for the full statement: sampling methods given to several estimators (`C87_shared_refuted`), or to one whose constructor
raised (`C87_failed_refuted`), and classes that draw their samples themselves (`C87_importance_refuted`, `C87_decoder_refuted`). -/
theorem C87_given_partial {a b p : List Cmd} {plate' : String} {cls : Cls} {N : Nat} (hc : Mc cls N) {s : Nat}
    (hs : s = (run init a).samplers.length) (hb : ∀ c ∈ b, ¬Gives s c) (hp : ∀ c ∈ p, ¬Gives s c) {kind : Kind} (ht : Takes kind)
    {plate : String} {n : Nat} {w1 : World} {m : Method}
    (h : construct kind plate (some s) n (run init (a ++ .sampler plate' cls :: b)) = (w1, .ok m)) :
    plate' = plate ∧ ∀ present, sample m present (run w1 p) = .ok (ideal kind m.inner N present) := by
  obtain ⟨h1, x, h2, h3, a', b', h4, h5, h6⟩ := construct_ok ht h
  rw [h1] at h2 h4
  have e1 : (step (run init a) (.sampler plate' cls)).samplers[s]? = some ⟨plate', cls, none, none⟩ := by
    show ((run init a).samplers ++ [_])[s]? = _
    rw [hs]; simp
  have e2 : s < (step (run init a) (.sampler plate' cls)).samplers.length := by
    show s < ((run init a).samplers ++ [_]).length
    rw [hs]; simp
  have e3 : (run init (a ++ .sampler plate' cls :: b)).samplers[s]? = some ⟨plate', cls, none, none⟩ := by
    rw [run_append]
    exact (run_keeps b e2 hb).same.trans e1
  have e4 : x = ⟨plate', cls, none, none⟩ := by
    have := h2.symm.trans (e3 : (orDefault plate (some s) n (run init (a ++ .sampler plate' cls :: b))).1.samplers[s]? = _)
    exact Option.some.inj this
  subst e4
  refine ⟨h3, fun present => ?_⟩
  have hlt : s < w1.samplers.length := by
    by_contra hcc
    have : w1.samplers[s]? = none := List.getElem?_eq_none (by omega)
    have h4' : w1.samplers[s]? = _ := h4
    rw [this] at h4'; cases h4'
  have hk := (run_keeps p hlt hp).same
  have h1' : m.sampler = s := h1
  simp only [Option.or_none] at h5 h6
  rw [sample, h1', hk, show w1.samplers[s]? = _ from h4]
  simp only
  exact congrArg _ (sample_ideal hc present h5 h6)

/-- **C87** (no sampling method given).  The estimator makes one of class `MonteCarlo` with `n_samples`. -/
theorem C87_default_partial {w w1 : World} {kind : Kind} (ht : Takes kind) {plate : String} {n : Nat} {m : Method}
    (h : construct kind plate none n w = (w1, .ok m)) {p : List Cmd} (hp : ∀ c ∈ p, ¬Gives m.sampler c) (present : Bool) :
    sample m present (run w1 p) = .ok (ideal kind m.inner n present) := by
  obtain ⟨h1, x, h2, h3, a', b', h4, h5, h6⟩ := construct_ok ht h
  have e : x = ⟨plate, .monteCarlo n, none, none⟩ := by
    rw [h1] at h2
    have : (orDefault plate none n w).1.samplers[(orDefault plate none n w).2]? = some ⟨plate, .monteCarlo n, none, none⟩ := by
      simp [orDefault, newSampler]
    rw [this] at h2; exact (Option.some.inj h2).symm
  subst e
  have hlt : m.sampler < w1.samplers.length := by
    by_contra hcc
    rw [List.getElem?_eq_none (by omega)] at h4; cases h4
  simp only [Option.or_none] at h5 h6
  rw [sample, (run_keeps p hlt hp).same, h4]
  exact congrArg _ (sample_ideal (.inl rfl) present h5 h6)

/-- **C87** (classes that draw their samples themselves).  Whatever estimators a sampling method is given to: importance sampling
draws from the proposal and weights with the ratio, enumeration takes the support and weights with the probabilities, sampling
without replacement decodes.  So the weights fit to the samples. -/
theorem C87_classes {w : World} {s : Nat} {x : Sampler} (hx : w.samplers[s]? = some x) (p : List Cmd) {m : Method}
    (hm : m.sampler = s) (present : Bool) :
    (∀ n, x.cls = .importance n → sample m present (run w p) = .ok (.proposal (if present then 1 else n), .ratio)) ∧
    (x.cls = .enumerate → sample m present (run w p) = .ok (.support, .probs)) ∧
    (∀ k, x.cls = .swor k → sample m present (run w p) = .ok (.beam k, .swor)) := by
  have hlt : s < w.samplers.length := by
    by_contra hcc
    rw [List.getElem?_eq_none (by omega)] at hx; cases hx
  have hf := (run_fixed p w).same s hlt
  rw [hx] at hf
  cases hy : (run w p).samplers[s]? with
  | none => rw [hy] at hf; cases hf
  | some y =>
    rw [hy] at hf
    simp only [Option.map_some, Option.some.injEq, Prod.mk.injEq] at hf
    rw [sample, hm, hy]
    refine ⟨fun n hn => ?_, fun hn => ?_, fun k hn => ?_⟩ <;>
      (rw [← hf.2] at hn; simp only [Sampler.draw, Sampler.weight, hn])

/-- **C87** (what the samples estimate).  For `ScoreFunction` and `Reparameterization` the weighted average of `f` estimates its
expectation, for every distribution and every proposal that is nowhere zero: with a sampling method of their own, and with
importance sampling or enumeration, whatever the program does. -/
theorem C87_estimates_partial {d : Nat} (p q f : Fin d → ℚ) (hq : ∀ x, q x ≠ 0) :
    (∀ kind owner n present, (kind = .reparam ∨ ∃ b, kind = .score b) →
      estimates p q f (ideal kind owner n present) = some (∑ x, p x * f x)) ∧
    ∀ (w : World) (s : Nat) (x : Sampler), w.samplers[s]? = some x → (∃ n, x.cls = .importance n) ∨ x.cls = .enumerate →
      ∀ prog (m : Method) present, m.sampler = s →
        ∃ r, sample m present (run w prog) = .ok r ∧ estimates p q f r = some (∑ x, p x * f x) := by
  constructor
  · rintro kind owner n present (rfl | ⟨b, rfl⟩) <;> rfl
  · rintro w s x hx hc prog m present hm
    obtain ⟨h1, h2, _⟩ := C87_classes hx prog hm present
    rcases hc with ⟨n, hn⟩ | hn
    · refine ⟨_, h1 n hn, ?_⟩
      show some (∑ x, q x * (p x / q x * f x)) = _
      congr 1
      refine Finset.sum_congr rfl fun y _ => ?_
      have := hq y
      field_simp
    · exact ⟨_, h2 hn, rfl⟩

/-- C87 fails for sampling methods given to two estimators: if the second one has a sampling function, the first one draws its
samples with it from then on. -/
theorem C87_shared_refuted {w w1 w2 : World} {k1 k2 : Kind} (h1 : Takes k1) (h2 : Takes k2) {f : Fn} (hf : wants k2 = some f)
    {plate : String} {s n1 n2 N : Nat} {x : Sampler} (hx : w.samplers[s]? = some x) (hc : Mc x.cls N) {m1 m2 : Method}
    (e1 : construct k1 plate (some s) n1 w = (w1, .ok m1)) (e2 : construct k2 plate (some s) n2 w1 = (w2, .ok m2)) (present : Bool) :
    ∃ wt, sample m1 present w2 = .ok (.own (m2.inner, f) (if present then 1 else N), wt) := by
  obtain ⟨a1, y, a2, _, a, b, a3, _, _⟩ := construct_ok h1 e1
  obtain ⟨b1, z, b2, _, a', b', b3, b4, _⟩ := construct_ok h2 e2
  have a1' : m1.sampler = s := a1
  have b1' : m2.sampler = s := b1
  rw [a1'] at a2 a3
  rw [b1'] at b2 b3
  have hy : y = x := Option.some.inj (a2.symm.trans (show (orDefault plate (some s) n1 w).1.samplers[s]? = some x from hx))
  have hz := Option.some.inj (b2.symm.trans (show (orDefault plate (some s) n2 w1).1.samplers[s]? = _ from a3))
  subst hy hz
  rw [hf] at b4
  simp only [Option.map_some, Option.some_or] at b4
  rw [sample, a1', b3, b4]
  refine ⟨(⟨plate, y.cls, some (m2.inner, f), b'⟩ : Sampler).weight, ?_⟩
  · rcases hc with hc | hc <;> simp only [Sampler.draw, hc]

/-- C87 fails for `Reparameterization` with importance sampling: the samples are drawn from the proposal with `sample`, not with
`rsample`, so no gradient flows through them. -/
theorem C87_importance_refuted {w w1 : World} {plate : String} {s n N : Nat} {x : Sampler} (hx : w.samplers[s]? = some x)
    (hc : x.cls = .importance N) {m : Method} (e : construct .reparam plate (some s) n w = (w1, .ok m)) (present : Bool) :
    sample m present w1 = .ok (.proposal (if present then 1 else N), .ratio) := by
  obtain ⟨a1, y, a2, _, a, b, a3, _, _⟩ := construct_ok (kind := .reparam) trivial e
  have a1' : m.sampler = s := a1
  rw [a1'] at a2 a3
  have hy : y = x := Option.some.inj (a2.symm.trans (show (orDefault plate (some s) n w).1.samplers[s]? = some x from hx))
  subst hy
  exact (C87_classes a3 [] a1' present).1 N hc

/-- C87 fails for `Reparameterization` with `ImportanceSampleDecoder`: the samples are drawn from the distribution, but still
weighted with the importance ratio, so the weighted average estimates the mean of `p / q * f`. -/
theorem C87_decoder_refuted {w w1 : World} {plate : String} {s n N : Nat} {x : Sampler} (hx : w.samplers[s]? = some x)
    (hc : x.cls = .isDecoder N) {m : Method} (e : construct .reparam plate (some s) n w = (w1, .ok m)) (present : Bool) :
    ∃ r, sample m present w1 = .ok r ∧
      ∃ p q f : Fin 2 → ℚ, (∑ x, p x = 1) ∧ (∑ x, q x = 1) ∧ (∀ x, 0 < q x) ∧ estimates p q f r ≠ some (∑ x, p x * f x) := by
  obtain ⟨a1, y, a2, _, a, b, a3, a4, _⟩ := construct_ok (kind := .reparam) trivial e
  have a1' : m.sampler = s := a1
  rw [a1'] at a2 a3
  have hy : y = x := Option.some.inj (a2.symm.trans (show (orDefault plate (some s) n w).1.samplers[s]? = some x from hx))
  subst hy
  have a5 : a = some (m.inner, .reparam) := a4
  subst a5
  refine ⟨(.own (m.inner, .reparam) (if present then 1 else N), .ratio), ?_, ?_⟩
  · rw [sample, a1', a3]
    simp only [Sampler.draw, Sampler.weight, hc]
  · refine ⟨fun _ => 1 / 2, fun x => if x = 0 then 3 / 4 else 1 / 4, fun _ => 1, by norm_num [Fin.sum_univ_two], by
      norm_num [Fin.sum_univ_two], ?_, ?_⟩
    · intro x; simp only; split_ifs <;> norm_num
    · simp only [estimates, Fin.sum_univ_two]
      norm_num

/-- C87 fails after a constructor that raised: with other names the function has already been set.  Here `ScoreFunction` draws
reparameterised samples, so that the gradient also flows through the samples. -/
theorem C87_failed_refuted (plate other : String) (h : other ≠ plate) (N n : Nat) (b : Baseline) (hb : b = .none ∨ b = .movingAverage) :
    let w := run init [.sampler plate (.monteCarlo N)]
    (construct .reparam other (some 0) n w).2 = .error .value ∧
      ∃ w2 m, construct (.score b) plate (some 0) n (construct .reparam other (some 0) n w).1 = (w2, .ok m) ∧
        sample m false w2 = .ok (.own (0, .reparam) N, .uniform) ∧ wants (.score b) = none := by
  have h' : ¬plate = other := fun e => h e.symm
  rcases hb with rfl | rfl <;>
    simp [run, step, newSampler, init, construct, initFn, newId, orDefault, setSample, baseInit, initScore, h', sample, Sampler.draw,
      Sampler.weight, wants]

/-! ### Cases -/

namespace SamplersCase

/-- The program makes two sampling methods and an estimator for the first one. -/
def before : List Cmd := [.sampler "x" (.monteCarlo 5), .sampler "z" (.mcDecoder 3), .method .arm "x" (some 0) 1]

/-- Afterwards it makes further estimators, one of which fails. -/
def after : List Cmd := [.method (.infer .rsample) "x" (some 0) 1, .method .gumbel "y" none 2, .method .gumbel "q" (some 0) 2]

/-- The hypotheses of `C87_given_partial` are met, by RELAX on the second sampling method. -/
example : ∃ w1 m, construct (.relax true) "z" (some 1) 1 (run init before) = (w1, .ok m) ∧
    sample m false (run w1 after) = .ok (.own (1, .relax) 3, .own (1, .relax)) ∧
    sample m true (run w1 after) = .ok (.own (1, .relax) 1, .own (1, .relax)) ∧ m.inner = 1 :=
  ⟨_, _, rfl, by decide, by decide, rfl⟩

example : (1 : Nat) = (run init [.sampler "x" (.monteCarlo 5)]).samplers.length ∧
    (∀ c ∈ [Cmd.method .arm "x" (some 0) 1], ¬Gives 1 c) ∧ ∀ c ∈ after, ¬Gives 1 c := by
  refine ⟨by decide, ?_, ?_⟩ <;> (intro c hc; simp only [after, List.mem_cons, List.not_mem_nil, or_false] at hc; rintro ⟨k, pl, n, rfl⟩; simp at hc)

/-- The hypotheses of `C87_default_partial` are met, by `Infer` for a distribution with `rsample`. -/
example : ∃ w1 m, construct (.infer .rsample) "z" none 4 (run init before) = (w1, .ok m) ∧ m.sampler = 2 ∧
    sample m false (run w1 after) = .ok (.own (2, .reparam) 4, .uniform) ∧ m.inner = 2 := ⟨_, _, rfl, by decide, by decide, rfl⟩

/-- The hypotheses of `C87_shared_refuted` are met: `ScoreFunction` and then `GumbelSoftmax` on one sampling method. -/
example : ∃ w1 m1 w2 m2, construct (.score .none) "x" (some 0) 1 (run init before) = (w1, .ok m1) ∧
    construct .gumbel "x" (some 0) 1 w1 = (w2, .ok m2) ∧
    sample m1 false w2 = .ok (.own (2, .gumbel) 5, .own (0, .arm)) := ⟨_, _, _, _, rfl, rfl, by decide⟩

/-- The hypotheses of `C87_classes`, `C87_estimates_partial`, `C87_importance_refuted` and `C87_decoder_refuted` are met. -/
example : ∃ w1 m w2 m', construct .reparam "a" (some 0) 1 (run init [.sampler "a" (.importance 6), .sampler "b" (.isDecoder 7)]) = (w1, .ok m) ∧
    construct .reparam "b" (some 1) 1 w1 = (w2, .ok m') ∧ sample m false w2 = .ok (.proposal 6, .ratio) ∧
    sample m' false w2 = .ok (.own (1, .reparam) 7, .ratio) := ⟨_, _, _, _, rfl, rfl, by decide, by decide⟩

end SamplersCase

end Storch.Samplers
