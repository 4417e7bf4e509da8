import Verif.Model.Hooks
import Verif.Lemmas.ReduceLemmas
import Mathlib.Data.Real.Basic
import Mathlib.Analysis.SpecificLimits.Basic

/-!
# C52: annealing; C53: gradients recorded on stochastic tensors
-/

namespace Storch

/-! ### C52 -/

section
variable (s : Annealing ℝ)

theorem updates_fixed (k : Nat) : (Annealing.updates k s).annealingRate = s.annealingRate ∧
    (Annealing.updates k s).minTemperature = s.minTemperature := by
  induction k with
  | zero => exact ⟨rfl, rfl⟩
  | succ k ih => exact ih

theorem temperature_succ (k : Nat) : (Annealing.updates (k + 1) s).temperature =
    if (Annealing.updates k s).temperature > s.minTemperature then
      (1 - s.annealingRate) * (Annealing.updates k s).temperature else (Annealing.updates k s).temperature := by
  rw [Annealing.updates, Annealing.update, (updates_fixed s k).1, (updates_fixed s k).2]

variable {s}

theorem temperature_pos (h1 : s.annealingRate < 1) (ht : 0 < s.temperature) (k : Nat) : 0 < (Annealing.updates k s).temperature := by
  induction k with
  | zero => exact ht
  | succ k ih =>
    rw [temperature_succ]
    split
    · exact mul_pos (by linarith) ih
    · exact ih

/-- C52: the temperature never increases and stays positive, and every update is counted. -/
theorem C52_decreases_partial (h0 : 0 < s.annealingRate) (h1 : s.annealingRate < 1) (ht : 0 < s.temperature) (k : Nat) : 0 < (Annealing.updates k s).temperature ∧
    (∀ j ≤ k, (Annealing.updates k s).temperature ≤ (Annealing.updates j s).temperature) ∧
    (Annealing.updates k s).iterations = s.iterations + k := by
  refine ⟨temperature_pos h1 ht k, ?_, ?_⟩
  · intro j hj
    induction k, hj using Nat.le_induction with
    | base => exact le_rfl
    | succ k _ ih =>
      rw [temperature_succ]
      have := temperature_pos h1 ht k
      split
      · nlinarith
      · exact ih
  · clear h0 h1 ht
    induction k with
    | zero => rfl
    | succ k ih => rw [Annealing.updates, Annealing.update]; simp only [ih]; rfl

/-- C52, what holds of the lower bound: a temperature that starts above the minimum never falls below
`(1 - rate)` times the minimum.  Missing: it can fall below the minimum itself (`C52_refuted`). -/
theorem C52_bounded_partial (h1 : s.annealingRate < 1)
    (hs : (1 - s.annealingRate) * s.minTemperature ≤ s.temperature) (k : Nat) :
    (1 - s.annealingRate) * s.minTemperature ≤ (Annealing.updates k s).temperature := by
  induction k with
  | zero => exact hs
  | succ k ih =>
    rw [temperature_succ]
    split
    · rename_i h
      exact mul_le_mul_of_nonneg_left h.le (by linarith)
    · exact ih

/-- C52: after finitely many updates the minimum is reached, and the temperature does not change any more. -/
theorem C52_settles_partial (h0 : 0 < s.annealingRate) (h1 : s.annealingRate < 1) (hm : 0 < s.minTemperature) :
    ∃ K, ∀ k ≥ K, (Annealing.updates k s).temperature ≤ s.minTemperature ∧
    (Annealing.updates k s).temperature = (Annealing.updates K s).temperature := by
  have hpow : ∀ k, s.minTemperature < (Annealing.updates k s).temperature →
      (Annealing.updates k s).temperature = (1 - s.annealingRate) ^ k * s.temperature := by
    intro k
    induction k with
    | zero => intro _; rw [pow_zero, one_mul]; rfl
    | succ k ih =>
      intro h
      rw [temperature_succ] at h ⊢
      split at h
      · rename_i h'
        rw [if_pos h', ih h', pow_succ]; ring
      · rename_i h'
        exact absurd h h'
  have hlim : Filter.Tendsto (fun k => (1 - s.annealingRate) ^ k * s.temperature) Filter.atTop (nhds (0 * s.temperature)) :=
    (tendsto_pow_atTop_nhds_zero_of_lt_one (by linarith) (by linarith)).mul_const _
  rw [zero_mul] at hlim
  obtain ⟨K, hK⟩ := (hlim.eventually (gt_mem_nhds hm)).exists
  have hbelow : (Annealing.updates K s).temperature ≤ s.minTemperature := by
    by_contra hc
    rw [not_le] at hc
    rw [hpow K hc] at hc
    exact absurd hK (not_lt.2 hc.le)
  refine ⟨K, fun k hk => ?_⟩
  induction k, hk using Nat.le_induction with
  | base => exact ⟨hbelow, rfl⟩
  | succ k _ ih =>
    rw [temperature_succ, if_neg (by linarith [ih.1])]
    exact ih

end

/-- C52 is false: a temperature above the minimum is set below the minimum. -/
theorem C52_refuted : ∃ s : Annealing ℝ, 0 < s.annealingRate ∧ s.annealingRate < 1 ∧ 0 < s.minTemperature ∧
    s.minTemperature < s.temperature ∧ (Annealing.updates 1 s).temperature < s.minTemperature := by
  refine ⟨⟨0, 1, 1 / 2, 3 / 4⟩, by norm_num, by norm_num, by norm_num, by norm_num, ?_⟩
  rw [temperature_succ, if_pos (by rw [Annealing.updates]; norm_num), Annealing.updates]
  norm_num

/-- The default values of the library. -/
example : ∃ K, ∀ k ≥ K, (Annealing.updates k (⟨0, 1, 1e-5, 1e-4⟩ : Annealing ℝ)).temperature ≤ 1e-4 ∧
    (Annealing.updates k (⟨0, 1, 1e-5, 1e-4⟩ : Annealing ℝ)).temperature = (Annealing.updates K (⟨0, 1, 1e-5, 1e-4⟩ : Annealing ℝ)).temperature :=
  C52_settles_partial (s := ⟨0, 1, 1e-5, 1e-4⟩) (by norm_num) (by norm_num) (by norm_num)
example (k : Nat) : (1 - 1e-5) * 1e-4 ≤ (Annealing.updates k (⟨0, 1, 1e-5, 1e-4⟩ : Annealing ℝ)).temperature :=
  C52_bounded_partial (s := ⟨0, 1, 1e-5, 1e-4⟩) (by norm_num) (by norm_num) k

/-- A case for `C52_decreases_partial`, the default values of the library. -/
example (k : Nat) : (Annealing.updates (k + 1) (⟨0, 1, 1e-5, 1e-4⟩ : Annealing ℝ)).temperature ≤
    (Annealing.updates k (⟨0, 1, 1e-5, 1e-4⟩ : Annealing ℝ)).temperature :=
  (C52_decreases_partial (s := ⟨0, 1, 1e-5, 1e-4⟩) (by norm_num) (by norm_num) (by norm_num) (k + 1)).2.1 k (by omega)

/-! ### C53 -/

section
variable {α : Type _}

/-- The gradients of a parameter that were delivered before the tensor was cleaned. -/
def delivered (name : String) : List (HookEvent α) → List (Ten α)
  | [] => []
  | .clean :: _ => []
  | .gradient n g :: es => if n = name then g :: delivered name es else delivered name es

/-- The gradient recorded for a parameter is the sum of some gradients. -/
def IsSum [AddMonoid α] (shape : List Nat) (plates : List (Plate α)) (r : Option (STen α)) : List (Ten α) → Prop
  | [] => r = none
  | gs => ∃ t, r = some t ∧ t.plates = plates ∧ t.ten.shape = shape ∧
      ∀ idx, Ten.InB idx shape → t.ten.get idx = (gs.map (fun g => g.get idx)).sum

theorem dictGet_set {β : Type _} (name n : String) (v : β) (d : List (String × β)) :
    dictGet n (dictSet name v d) = if n = name then some v else dictGet n d := by
  induction d with
  | nil => simp only [dictSet, dictGet, eq_comm]
  | cons e d ih =>
    rw [dictSet]
    split
    · rename_i h
      simp only [dictGet, h]
      by_cases hn : n = name
      · simp [hn]
      · rw [if_neg (Ne.symm hn), if_neg hn, if_neg (Ne.symm hn)]
    · rename_i h
      rw [dictGet, ih, dictGet]
      by_cases he : e.1 = n
      · rw [if_pos he, if_neg (by rintro rfl; exact h he), if_pos he]
      · rw [if_neg he, if_neg he]

theorem add_same [AddMonoid α] {a b : Ten α} (h : a.shape = b.shape) :
    ∃ r, Ten.elementwise List.sum [a, b] = .ok r ∧ r.shape = b.shape ∧
      ∀ idx, Ten.InB idx b.shape → r.get idx = a.get idx + b.get idx := by
  have hb : Ten.bshapes [b.shape, b.shape] = some b.shape := by
    refine bshapes_fit le_rfl ?_
    rw [Ten.padL, Nat.sub_self, List.replicate_zero, List.nil_append]
    exact List.forall₂_same.2 (fun _ _ => Or.inr rfl)
  have he : Ten.elementwise List.sum [a, b] = .ok ⟨b.shape, fun idx =>
      [a.get (Ten.bidx b.shape (List.drop (idx.length - a.ndim) idx)),
        b.get (Ten.bidx b.shape (List.drop (idx.length - b.ndim) idx))].sum⟩ := by
    rw [Ten.elementwise]; simp only [List.map_cons, List.map_nil, h, hb]
  refine ⟨_, he, rfl, ?_⟩
  intro idx hidx
  have hl : idx.length = b.shape.length := hidx.length_eq
  simp only [List.sum_cons, List.sum_nil, add_zero, Ten.ndim, h, hl, Nat.sub_self,
    List.drop_zero, bidx_of_inB hidx]

/-- A shape that fits the plates. -/
def FitsPlates (shape : List Nat) (plates : List (Plate α)) : Prop :=
  ∃ d, STen.checkPlates shape plates [] 0 = .ok d

theorem FitsPlates.mk {shape : List Nat} {plates : List (Plate α)} (h : FitsPlates shape plates) {t : Ten α}
    (ht : t.shape = shape) : ∃ s, STen.mk' t plates = .ok s ∧ s.ten = t ∧ s.plates = plates := by
  obtain ⟨d, hd⟩ := h
  exact ⟨⟨t, plates, d⟩, by rw [STen.mk', ht, hd], rfl, rfl⟩

/-- The gradients delivered for each hooked parameter have the shape of the parameter, which fits its plates. -/
def GoodEvents (shapes : String → List Nat) (st : HookState α) (es : List (HookEvent α)) : Prop :=
  (∀ n ps, dictGet n st.hooks = some ps → FitsPlates (shapes n) ps) ∧
  ∀ n g, HookEvent.gradient n g ∈ es → g.shape = shapes n

theorem runHooks_cleaned [AddMonoid α] (es : List (HookEvent α)) (st : HookState α) (h : st.bound = false)
    (h' : st.registered = false) : ∃ st', runHooks st es = .ok st' ∧ st'.grads = st.grads := by
  induction es generalizing st with
  | nil => exact ⟨st, rfl, rfl⟩
  | cons e es ih =>
    cases e with
    | clean => exact ih (cleanHooks st) rfl rfl
    | gradient n g =>
      rw [runHooks, deliver, h']
      exact ih st h h'

theorem isSum_append [AddMonoid α] {shape : List Nat} {ps : List (Plate α)} {r : Option (STen α)} {gs : List (Ten α)}
    {g : Ten α} (hg : g.shape = shape) (hf : FitsPlates shape ps) (h : IsSum shape ps r gs) {st : HookState α}
    (hb : st.bound = true) {name : String} (hr : dictGet name st.grads = r) :
    ∃ t, callHook st name ps g = .ok { st with grads := dictSet name t st.grads } ∧
      IsSum shape ps (some t) (gs ++ [g]) := by
  rw [callHook, hb]
  simp only [Bool.not_true, Bool.false_eq_true, if_false]
  cases gs with
  | nil =>
    rw [IsSum] at h
    obtain ⟨s, s1, s2, s3⟩ := hf.mk hg
    refine ⟨s, ?_, s, rfl, s3, by rw [s2, hg], ?_⟩
    · rw [hr, h]; simp only [s1]
    · intro idx _
      simp [s2]
  | cons a gs =>
    obtain ⟨t, rfl, t1, t2, t3⟩ := h
    obtain ⟨q, q1, q2, q3⟩ := add_same (a := t.ten) (b := g) (t2.trans hg.symm)
    obtain ⟨s, s1, s2, s3⟩ := hf.mk (q2.trans hg)
    refine ⟨s, ?_, s, rfl, s3, by rw [s2, q2, hg], ?_⟩
    · rw [hr]; simp only [q1, s1]
    · intro idx hidx
      rw [s2, q3 idx (by rw [hg]; exact hidx), t3 idx hidx]
      simp [add_assoc]

theorem runHooks_spec [AddMonoid α] (shapes : String → List Nat) (es : List (HookEvent α)) (st : HookState α)
    (hb : st.bound = true) (hr : st.registered = true) (h : GoodEvents shapes st es) (prev : String → List (Ten α))
    (hp : ∀ n ps, dictGet n st.hooks = some ps → IsSum (shapes n) ps (dictGet n st.grads) (prev n)) :
    ∃ st', runHooks st es = .ok st' ∧ st'.hooks = st.hooks ∧
      (∀ n ps, dictGet n st.hooks = some ps →
        IsSum (shapes n) ps (dictGet n st'.grads) (prev n ++ delivered n es)) ∧
      ∀ n, dictGet n st.hooks = none → dictGet n st'.grads = dictGet n st.grads := by
  induction es generalizing st prev with
  | nil => exact ⟨st, rfl, rfl, by simpa [delivered] using hp, fun _ _ => rfl⟩
  | cons e es ih =>
    cases e with
    | clean =>
      obtain ⟨st', h1, h2⟩ := runHooks_cleaned es (cleanHooks st) rfl rfl
      have hk : ∀ (es : List (HookEvent α)) (st st' : HookState α), st.registered = false → runHooks st es = .ok st' →
          st'.hooks = st.hooks := by
        intro es
        induction es with
        | nil => intro st st' _ h; cases h; rfl
        | cons e es ih =>
          intro st st' hr h
          cases e with
          | clean => exact ih (cleanHooks st) st' rfl h
          | gradient n g => rw [runHooks, deliver, hr] at h; exact ih st st' hr h
      refine ⟨st', h1, hk es (cleanHooks st) st' rfl h1, ?_, fun n _ => by rw [h2]; rfl⟩
      intro n ps hn
      rw [delivered, List.append_nil, h2]
      exact hp n ps hn
    | gradient n g =>
      have hgood : ∀ st', st'.hooks = st.hooks → GoodEvents shapes st' es := fun st' he =>
        ⟨by rw [he]; exact h.1, fun m g' hm => h.2 m g' (List.mem_cons_of_mem _ hm)⟩
      cases hn : dictGet n st.hooks with
      | none =>
        obtain ⟨st', h1, h2, h3, h4⟩ := ih st hb hr (hgood st rfl) prev hp
        refine ⟨st', ?_, h2, ?_, h4⟩
        · rw [runHooks, deliver, hr]; simp only [hn]; exact h1
        · intro m ps hm
          have : n ≠ m := by rintro rfl; rw [hn] at hm; cases hm
          rw [delivered, if_neg this]
          exact h3 m ps hm
      | some ps =>
        have hgs : g.shape = shapes n := h.2 n g (by simp)
        obtain ⟨t, t1, t2⟩ := isSum_append hgs (h.1 n ps hn) (hp n ps hn) hb rfl
        obtain ⟨st', h1, h2, h3, h4⟩ := ih { st with grads := dictSet n t st.grads } hb hr (hgood _ rfl)
          (fun m => if m = n then prev m ++ [g] else prev m) (by
            intro m qs hm
            simp only [dictGet_set]
            by_cases hmn : m = n
            · subst hmn
              rw [hn] at hm
              cases hm
              simpa using t2
            · simpa [hmn] using hp m qs hm)
        refine ⟨st', ?_, h2, ?_, ?_⟩
        · rw [runHooks, deliver, hr]; simp only [hn, t1]; exact h1
        · intro m qs hm
          have := h3 m qs hm
          rw [delivered]
          by_cases hmn : m = n
          · subst hmn
            simpa using this
          · rw [if_neg (Ne.symm hmn)]
            simpa [hmn] using this
        · intro m hm
          rw [h4 m hm]
          simp only [dictGet_set]
          rw [if_neg (by rintro rfl; rw [hn] at hm; cases hm)]

/-- C53: whatever gradients arrive and whenever the tensor is cleaned, the gradient recorded for a hooked
parameter is the sum of those that arrived before the first cleaning (none, if there were none); it has the
plates of the parameter.  Nothing is recorded under other names. -/
theorem C53_accumulates [AddMonoid α] (categorical : Bool) (params : List (DistrParam α)) (shapes : String → List Nat)
    (es : List (HookEvent α)) (h : GoodEvents shapes (HookState.init categorical params) es) :
    ∃ st, runHooks (HookState.init categorical params) es = .ok st ∧
      (∀ n ps, dictGet n (HookState.init categorical params).hooks = some ps →
        IsSum (shapes n) ps (dictGet n st.grads) (delivered n es)) ∧
      ∀ n, dictGet n (HookState.init categorical params).hooks = none → dictGet n st.grads = none := by
  obtain ⟨st, h1, _, h3, h4⟩ := runHooks_spec shapes es _ rfl rfl h (fun _ => []) (fun _ _ _ => rfl)
  exact ⟨st, h1, by simpa using h3, h4⟩

/-- C53: after cleaning, the recorded gradients do not change any more. -/
theorem C53_cleaned [AddMonoid α] (st : HookState α) (es : List (HookEvent α)) :
    ∃ st', runHooks st (.clean :: es) = .ok st' ∧ st'.grads = st.grads :=
  runHooks_cleaned es (cleanHooks st) rfl rfl

theorem mem_hookedParams {categorical : Bool} {p : DistrParam α} (params : List (DistrParam α)) :
    p ∈ hookedParams categorical params ↔ p ∈ params ∧ p.requiresGrad = true ∧ (categorical = true → p.isParam = true) := by
  induction params with
  | nil => simp [hookedParams]
  | cons q qs ih =>
    rw [hookedParams]
    by_cases hq : q.requiresGrad = true
    · rw [if_pos hq]
      by_cases hc : (categorical && !q.isParam) = true
      · rw [if_pos hc, ih]
        simp only [Bool.and_eq_true, Bool.not_eq_true'] at hc
        constructor
        · rintro ⟨h1, h2⟩; exact ⟨List.mem_cons_of_mem _ h1, h2⟩
        · rintro ⟨h1, h2, h3⟩
          rcases List.mem_cons.1 h1 with rfl | h1
          · rw [h3 hc.1] at hc; exact absurd hc.2 (by simp)
          · exact ⟨h1, h2, h3⟩
      · rw [if_neg hc, List.mem_cons, ih]
        constructor
        · rintro (rfl | ⟨h1, h2⟩)
          · refine ⟨by simp, hq, fun h => ?_⟩
            subst h
            simpa using hc
          · exact ⟨List.mem_cons_of_mem _ h1, h2⟩
        · rintro ⟨h1, h2⟩
          rcases List.mem_cons.1 h1 with rfl | h1
          · exact Or.inl rfl
          · exact Or.inr ⟨h1, h2⟩
    · rw [if_neg hq, ih]
      constructor
      · rintro ⟨h1, h2⟩; exact ⟨List.mem_cons_of_mem _ h1, h2⟩
      · rintro ⟨h1, h2, h3⟩
        rcases List.mem_cons.1 h1 with rfl | h1
        · exact absurd h2 hq
        · exact ⟨h1, h2, h3⟩

/-- C53: every parameter that requires a gradient is hooked; of a categorical distribution, the one that the user
gave. -/
theorem C53_hooked (categorical : Bool) (params : List (DistrParam α)) (p : DistrParam α) (hp : p ∈ params)
    (hg : p.requiresGrad = true) (hc : categorical = true → p.isParam = true) :
    ∃ ps, dictGet p.name (HookState.init categorical params).hooks = some ps := by
  have hm : (p.name, p.plates) ∈ (HookState.init categorical params).hooks :=
    List.mem_map_of_mem ((mem_hookedParams params).2 ⟨hp, hg, hc⟩)
  generalize (HookState.init categorical params).hooks = d at hm
  induction d with
  | nil => cases hm
  | cons e d ih =>
    rw [dictGet]
    split
    · exact ⟨_, rfl⟩
    · rename_i hne
      rcases List.mem_cons.1 hm with rfl | hm
      · exact absurd rfl hne
      · exact ih hm

end

/-- A case for `C53_hooked` and `C53_cleaned`, `Normal(loc, scale)` where both parameters require gradients: three gradients of `loc` arrive, the last one
after the tensor was cleaned. -/
example : ∃ st, runHooks (HookState.init false [⟨"loc", true, false, []⟩, ⟨"scale", true, false, []⟩] : HookState Int)
    [.gradient "loc" ⟨[2], fun _ => 3⟩, .gradient "loc" ⟨[2], fun idx => idx.headD 0⟩, .clean,
      .gradient "loc" ⟨[2], fun _ => 100⟩] = .ok st ∧
    ∃ t, dictGet "loc" st.grads = some t ∧ t.ten.get [1] = 4 := by
  obtain ⟨st, h1, h2, _⟩ := C53_accumulates (α := Int) false [⟨"loc", true, false, []⟩, ⟨"scale", true, false, []⟩]
    (fun _ => [2]) [.gradient "loc" ⟨[2], fun _ => 3⟩, .gradient "loc" ⟨[2], fun idx => idx.headD 0⟩, .clean,
      .gradient "loc" ⟨[2], fun _ => 100⟩]
    ⟨by
      intro n ps hn
      simp only [HookState.init, hookedParams, Bool.false_and, Bool.false_eq_true, if_false, if_true, List.map_cons,
        List.map_nil, dictGet] at hn
      have : ps = [] := by
        split at hn
        · simpa using hn.symm
        · split at hn
          · simpa using hn.symm
          · cases hn
      subst this
      exact ⟨0, rfl⟩, by
      intro n g hg
      simp only [List.mem_cons, HookEvent.gradient.injEq, reduceCtorEq, List.not_mem_nil, or_false, false_or] at hg
      rcases hg with ⟨_, rfl⟩ | ⟨_, rfl⟩ | ⟨_, rfl⟩ <;> rfl⟩
  obtain ⟨t, t1, _, _, t4⟩ := h2 "loc" [] rfl
  refine ⟨st, h1, t, t1, ?_⟩
  rw [t4 [1] (.cons (by decide) .nil)]
  rfl

end Storch
