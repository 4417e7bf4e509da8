import Verif.Props.DecodeProps

/-!
# The end-of-sequence token (C59)
-/

namespace Storch.Decode

variable {α : Type _}

/-- What `torch.topk` promises about the values: nothing that was left out is larger than something chosen, and the
chosen ones come in falling order. -/
structure Best [LE α] (topk : Nat → List (WithBot α) → List α → List Nat) : Prop where
  best : ∀ m l js, m ≤ l.length → ∀ i ∈ topk m l js, ∀ j < l.length, j ∉ topk m l js → l.getD j ⊥ ≤ l.getD i ⊥
  falling : ∀ m l js, m ≤ l.length → (topk m l js).Pairwise (fun i j => l.getD j ⊥ ≤ l.getD i ⊥)

theorem sortTop_best [LinearOrder α] : Best (sortTop (α := α)) := by
  have hs : ∀ l : List (WithBot α), ((List.range l.length).insertionSort
      (fun i j => l.getD j ⊥ ≤ l.getD i ⊥)).Pairwise (fun i j => l.getD j ⊥ ≤ l.getD i ⊥) := by
    intro l
    have : Std.Total (fun i j : Nat => l.getD j ⊥ ≤ l.getD i ⊥) := ⟨fun a b => le_total _ _⟩
    have : IsTrans Nat (fun i j : Nat => l.getD j ⊥ ≤ l.getD i ⊥) := ⟨fun a b c h1 h2 => le_trans h2 h1⟩
    exact List.pairwise_insertionSort _ _
  refine ⟨?_, ?_⟩
  · intro m l _ h i hi j hj hj'
    have hmem : j ∈ (List.range l.length).insertionSort (fun i j => l.getD j ⊥ ≤ l.getD i ⊥) :=
      (List.mem_insertionSort _).2 (List.mem_range.2 hj)
    have hsp := hs l
    rw [sortTop] at hi hj'
    rw [← List.take_append_drop m ((List.range l.length).insertionSort (fun i j => l.getD j ⊥ ≤ l.getD i ⊥))] at hmem hsp
    rw [List.mem_append] at hmem
    exact (List.pairwise_append.1 hsp).2.2 i hi j (hmem.resolve_left hj')
  · intro m l _ h
    exact (hs l).sublist (List.take_sublist _ _)

/-- If every row of candidates has a finite value, choosing as many candidates as there are rows chooses finite values. -/
theorem chosen_live [LinearOrder α] {topk : Nat → List (WithBot α) → List α → List Nat} (hp : Picks topk) (hb : Best topk)
    {k D : Nat} {G : List (List (WithBot α))} {J : List α} (hJ : J.length = G.flatten.length) (hG : G.length = k) (hr : ∀ r ∈ G, r.length = D)
    (hlive : ∀ r < k, ∃ t < D, ∃ x : α, (G[r]?).bind (fun row => row[t]?) = some (x : WithBot α)) :
    ∀ a ∈ topk (min k G.flatten.length) G.flatten J, ∃ x : α, G.flatten[a]? = some (x : WithBot α) := by
  obtain ⟨hl, hv⟩ := flatten_get hr
  have hlive' : ∀ r < k, ∃ t < D, ∃ x : WithBot α, x ≠ ⊥ ∧ (G[r]?).bind (fun row => row[t]?) = some x := by
    intro r hr'
    obtain ⟨t, ht, x, hx⟩ := hlive r hr'
    exact ⟨t, ht, x, WithBot.coe_ne_bot, hx⟩
  choose! t ht x hx0 hx using hlive'
  intro a ha
  have hle : min k G.flatten.length ≤ G.flatten.length := Nat.min_le_right _ _
  have halt := hp.inRange _ _ _ hle hJ a ha
  by_contra hno
  have hbot : G.flatten.getD a ⊥ = ⊥ := by
    rw [List.getD, List.getElem?_eq_getElem halt, Option.getD_some]
    cases hz : G.flatten[a] with
    | bot => rfl
    | coe z => exact absurd ⟨z, by rw [List.getElem?_eq_getElem halt, hz]⟩ hno
  -- the finite candidate of row `r`
  have hpos : ∀ r < k, r * D + t r < G.flatten.length ∧ G.flatten[r * D + t r]? = some (x r) := by
    intro r hr'
    have hlt : r * D + t r < k * D := by
      have h1 : (r + 1) * D ≤ k * D := Nat.mul_le_mul_right D hr'
      have h2 := ht r hr'
      rw [Nat.add_mul] at h1
      omega
    have hD : 0 < D := by have := ht r hr'; omega
    have e1 : (r * D + t r) / D = r := by
      rw [Nat.mul_comm, Nat.mul_add_div hD, Nat.div_eq_of_lt (ht r hr'), Nat.add_zero]
    have e2 : (r * D + t r) % D = t r := by
      rw [Nat.mul_comm, Nat.mul_add_mod, Nat.mod_eq_of_lt (ht r hr')]
    refine ⟨by rw [hl, hG]; exact hlt, ?_⟩
    rw [hv _ (by rw [hG]; exact hlt), e1, e2]
    exact hx r hr'
  have hin : ∀ r < k, r * D + t r ∈ topk (min k G.flatten.length) G.flatten J := by
    intro r hr'
    by_contra hnot
    have := hb.best _ _ _ hle a ha _ (hpos r hr').1 hnot
    rw [hbot] at this
    rw [List.getD, (hpos r hr').2, Option.getD_some] at this
    exact absurd (le_bot_iff.1 this) (hx0 r hr')
  -- too many candidates are chosen
  have hnd : (a :: (List.range k).map (fun r => r * D + t r)).Nodup := by
    rw [List.nodup_cons]
    refine ⟨?_, ?_⟩
    · intro hmem
      rw [List.mem_map] at hmem
      obtain ⟨r, hr', hra⟩ := hmem
      rw [List.mem_range] at hr'
      obtain ⟨y, hy⟩ := WithBot.ne_bot_iff_exists.1 (hx0 r hr')
      exact hno ⟨y, by rw [← hra, hy]; exact (hpos r hr').2⟩
    · refine List.Nodup.map_on ?_ List.nodup_range
      intro r hr' r' hr'' heq
      rw [List.mem_range] at hr' hr''
      have hD : 0 < D := by have := ht r hr'; omega
      have e1 : (r * D + t r) / D = r := by
        rw [Nat.mul_comm, Nat.mul_add_div hD, Nat.div_eq_of_lt (ht r hr'), Nat.add_zero]
      have e2 : (r' * D + t r') / D = r' := by
        rw [Nat.mul_comm, Nat.mul_add_div hD, Nat.div_eq_of_lt (ht r' hr''), Nat.add_zero]
      rw [← e1, ← e2, heq]
  have hsub : (a :: (List.range k).map (fun r => r * D + t r)) ⊆ topk (min k G.flatten.length) G.flatten J := by
    intro z hz
    rcases List.mem_cons.1 hz with rfl | hz
    · exact ha
    · rw [List.mem_map] at hz
      obtain ⟨r, hr', rfl⟩ := hz
      exact hin r (List.mem_range.1 hr')
  have := (hnd.subperm hsub).length_le
  rw [hp.len _ _ _ hle hJ] at this
  simp at this

/-- Specification: after the end-of-sequence token there are only further ones. -/
def Ended (e : Nat) (l : List Nat) : Prop := ∀ i j, i < j → l[i]? = some e → j < l.length → l[j]? = some e

theorem Ended.snoc {e : Nat} {l : List Nat} {t : Nat} (h : Ended e l) (ht : l.getLast? = some e → t = e) :
    Ended e (l ++ [t]) := by
  intro i j hij hi hj
  have hil : i < l.length := by simp at hj; omega
  rw [List.getElem?_append_left hil] at hi
  by_cases hjl : j < l.length
  · rw [List.getElem?_append_left hjl]; exact h i j hij hi hjl
  · have hj' : j = l.length := by simp at hj; omega
    subst hj'
    have hlast : l.getLast? = some e := by
      rw [List.getLast?_eq_getElem?]
      by_cases hi' : i = l.length - 1
      · rw [← hi']; exact hi
      · exact h i (l.length - 1) (by omega) hi (by omega)
    rw [ht hlast]
    simp

/-- Finite values. -/
def Live (l : List (WithBot α)) : Prop := ∀ r < l.length, ∃ x : α, l[r]? = some (x : WithBot α)

/-- The state of a decoder with `k` sequences and end-of-sequence token `e`. -/
structure Full (k e : Nat) (s : St α) : Prop where
  full : s.width = k
  live : ∃ ps, s.perturbed = some ps ∧ Live ps
  mask : ∃ m, s.finished = some (.rows m) ∧ m.length = k ∧
    ∀ r < k, m[r]? = some (decide ((s.sequence r).getLast? = some e))
  ended : ∀ r < k, Ended e (s.sequence r)

theorem full_step [AddCommMonoid α] [LinearOrder α] {k e : Nat} {topk : Nat → List (WithBot α) → List α → List Nat}
    (hp : Picks topk) (hb : Best topk) (hk : 2 ≤ k) {vs : List (Var α)} {v : Var α} (hD : 2 ≤ v.dom)
    (hev : v.events = []) (he : e + 1 < v.dom) {noise : Nat → Nat → Nat → WithBot α}
    (hn : ∀ c r t, ∃ x : α, noise c r t = x) {s s' : St α} {smp : List (List Nat)} (h : Good k vs s)
    (hf : Full k (e + 1) s) (hs : sampleSwor k (some (e + 1)) topk (v.dist s) noise s = (s', .ok smp)) :
    Full k (e + 1) s' := by
  obtain ⟨hg', hw', ⟨pi, hpi, hpil, hpiv⟩, b, hloop, hbp, hbamt, hbs, hfin⟩ := sampleSwor_good hp hk hD h hs
  obtain ⟨hstart, hamt0⟩ := h.start v
  have hcells : v.cells = 1 := by show Ten.numel v.events = 1; rw [hev]; rfl
  obtain ⟨ps, hps, hlive⟩ := hf.live
  obtain ⟨m, hm, hml, hmv⟩ := hf.mask
  have hpsl : ps.length = k := by
    obtain ⟨ps', h1, h2⟩ := h.perturbed
    rw [hps] at h1
    rw [Option.some.inj h1, h2, hf.full]
  have hwk : s'.width = k := by
    rw [hw', hf.full, hcells, pow_one]
    have : k ≤ k * v.dom := Nat.le_mul_of_pos_right _ (by omega)
    omega
  rw [hcells] at hloop
  simp only [List.range'_one, decodeLoop] at hloop
  cases hstep : decodeStep k (some (e + 1)) topk s.finished (v.dist s) 0 (noise 0) (startBeam k (v.dist s) s.joint)
      s.perturbed with
  | error er => rw [hstep] at hloop; simp at hloop
  | ok out =>
  obtain ⟨b1, p1⟩ := out
  rw [hstep] at hloop
  simp only [Prod.mk.injEq, Except.ok.injEq] at hloop
  obtain ⟨hp1, rfl⟩ := hloop
  obtain ⟨par, hi, hp1l, G, all, _, hAll, hG, hGv⟩ := decodeStep_inv hp (show 1 ≤ (v.dist s).dom from by show 1 ≤ v.dom; omega) (by simp)
    (by show 0 < v.cells; omega) hstart hstep
  have hdom : (v.dist s).dom = v.dom := rfl
  have hix := hi.indexing
  simp only [Bool.false_eq_true, if_false] at hix
  obtain ⟨pi', hpi', _, hpiv'⟩ := hix
  rw [hbp, hpi] at hpi'
  obtain rfl := Option.some.inj hpi'
  rw [hamt0, hf.full, hm, hps] at hG
  obtain ⟨hGl, hGr⟩ := applyFinished_shape hG (noise_shape _ _ _)
  simp only [List.length_map, List.length_range] at hGl
  -- the rows of the candidates
  have hGrow : ∀ r < k, ∃ q : α, ps[r]? = some (q : WithBot α) ∧ ∀ t < v.dom, (G[r]?).bind (fun row => row[t]?) =
      some (if (s.sequence r).getLast? = some (e + 1) then (if t = e + 1 then (q : WithBot α) else ⊥) else noise 0 r t) := by
    intro r hr
    obtain ⟨q, hq⟩ := hlive r (by omega)
    refine ⟨q, hq, ?_⟩
    intro t ht
    simp only [applyFinished] at hG
    rw [if_neg (by omega), if_neg (by rw [hdom]; omega), if_neg (by simp [hml])] at hG
    simp only [Except.ok.injEq] at hG
    rw [← hG, List.getElem?_zipWith]
    have hz : (m.zip ps)[r]? = some (decide ((s.sequence r).getLast? = some (e + 1)), (q : WithBot α)) := by
      rw [List.getElem?_zip_eq_some]
      exact ⟨hmv r hr, hq⟩
    rw [hz]
    have hrow : ((List.range k).map (fun r => (List.range (v.dist s).dom).map (noise 0 r)))[r]? =
        some ((List.range (v.dist s).dom).map (noise 0 r)) := by simp [hr]
    rw [hrow]
    simp only [decide_eq_true_eq, Option.bind_some]
    split
    · simp [ht, hdom]
    · simp [ht, hdom]
  have hliveG := chosen_live hp hb hAll hGl hGr (by
    intro r hr
    obtain ⟨q, hq, hv⟩ := hGrow r hr
    refine ⟨e + 1, by rw [hdom]; exact he, ?_⟩
    rw [hv (e + 1) he]
    split
    · exact ⟨q, by simp⟩
    · obtain ⟨x, hx⟩ := hn 0 r (e + 1)
      exact ⟨x, by rw [hx]⟩)
  obtain ⟨hfl, hfv⟩ := flatten_get hGr
  -- every new token
  have hnew : ∀ r (hr : r < pi.length), s'.sequence r = s.sequence pi[r] ++ [b1.tok r 0] ∧
      ((s.sequence pi[r]).getLast? = some (e + 1) → b1.tok r 0 = e + 1) ∧ smp[r]? = some [b1.tok r 0] := by
    intro r hr
    obtain ⟨e0, row, e1, e2, e3, e4⟩ := hpiv r hr
    have hrb : r < b1.amt := by omega
    obtain ⟨row', r1, r2⟩ := hi.rows r hrb
    have hrow : row = [b1.tok r 0] := by
      have h1 := hbs r (by omega)
      rw [e1, r1] at h1
      have h2 : row = row' := Option.some.inj h1
      rw [hcells] at e2
      obtain ⟨y, hy⟩ := List.length_eq_one_iff.1 e2
      rw [hy]
      simp only [Beam.tok]
      rw [getD_of_get? r1, ← h2, hy]
      rfl
    refine ⟨by rw [e4, hrow], ?_, by rw [e1, hrow]⟩
    intro hlast
    obtain ⟨a, ha, hadiv, hpar, htok, hpa⟩ := hGv r hrb
    have hpr : pi[r] = a / v.dom := by
      have := hpiv' r hrb
      rw [List.getElem?_eq_getElem hr, hpar] at this
      exact Option.some.inj this
    obtain ⟨x, hx⟩ := hliveG a ha
    have halt : a < G.length * (v.dist s).dom := by
      have := hp.inRange _ _ _ (Nat.min_le_right _ _) hAll a ha
      rwa [hfl] at this
    rw [hfv a halt] at hx
    have hdk : a / v.dom < k := by
      have h1 := hadiv
      rw [hamt0, hf.full] at h1
      exact h1
    obtain ⟨q, hq, hv⟩ := hGrow (a / v.dom) hdk
    rw [hdom, hv _ (Nat.mod_lt _ (by omega))] at hx
    rw [← hpr, if_pos hlast] at hx
    rw [htok, hdom]
    by_contra hne
    rw [if_neg hne] at hx
    simp at hx
  refine ⟨hwk, ⟨p1, hp1.symm, ?_⟩, ?_, ?_⟩
  · intro r hr
    obtain ⟨a, ha, _, _, _, hpa⟩ := hGv r (by omega)
    rw [hpa]
    exact hliveG a ha
  · refine ⟨smp.map (fun row => row == [e + 1]), ?_, ?_, ?_⟩
    · rw [hfin, hev]; rfl
    · have h1 : s'.seq.getLast? = some smp := by
        simp only [sampleSwor] at hs
        split at hs
        · simp at hs
        · split at hs
          · simp at hs
          · split at hs
            · simp at hs
            · simp only [Prod.mk.injEq, Except.ok.injEq] at hs
              rw [← hs.1, ← hs.2]
              simp
      have h2 : s'.width = smp.length := by simp [St.width, h1]
      rw [List.length_map]; omega
    · intro r hr
      have hr' : r < pi.length := by omega
      obtain ⟨n1, n2, n3⟩ := hnew r hr'
      rw [List.getElem?_map, n3, n1, List.getLast?_append]
      simp only [Option.map_some, List.getLast?_singleton, Option.some_or, Option.some.injEq]
      rw [Bool.eq_iff_iff]
      simp
  · intro r hr
    have hr' : r < pi.length := by omega
    obtain ⟨n1, n2, n3⟩ := hnew r hr'
    rw [n1]
    obtain ⟨e0, _⟩ := hpiv r hr'
    exact (hf.ended _ (by rw [← hf.full]; exact e0)).snoc n2

theorem full_first [AddCommMonoid α] [LinearOrder α] {k e : Nat} {topk : Nat → List (WithBot α) → List α → List Nat}
    (hp : Picks topk) (hk : 2 ≤ k) {v : Var α} (hD : k ≤ v.dom)
    (hev : v.events = []) {noise : Nat → Nat → Nat → WithBot α}
    (hn : ∀ c r t, ∃ x : α, noise c r t = x) {s' : St α} {smp : List (List Nat)}
    (hs : sampleSwor k (some (e + 1)) topk (v.dist blank) noise blank = (s', .ok smp)) : Full k (e + 1) s' := by
  obtain ⟨hg, hw, hrow, b, hloop, hamt, hfin⟩ := sampleSwor_first hp hk (by omega) hs
  have hcells : v.cells = 1 := by show Ten.numel v.events = 1; rw [hev]; rfl
  have hwk : s'.width = k := by rw [hw, hcells, pow_one]; omega
  obtain ⟨b1, p1, hstep, hi, hp1l, hp1v⟩ := decodeStep_first (k := k) (eos := some (e + 1)) hp (d := v.dist blank)
    (p := none) (noise := noise 0) (by show 0 < v.cells; omega)
  rw [hcells] at hloop
  simp only [List.range'_one, decodeLoop, hstep, Prod.mk.injEq, Except.ok.injEq] at hloop
  obtain ⟨hp1, rfl⟩ := hloop
  have hone : ∀ r < k, ∃ t, s'.sequence r = [t] ∧ smp[r]? = some [t] := by
    intro r hr
    obtain ⟨row, e1, e2, e3, e4⟩ := hrow r (by omega)
    rw [hcells] at e2
    obtain ⟨y, hy⟩ := List.length_eq_one_iff.1 e2
    exact ⟨y, by rw [e4, hy], by rw [e1, hy]⟩
  refine ⟨hwk, ⟨p1, hp1.symm, ?_⟩, ⟨smp.map (fun row => row == [e + 1]), ?_, ?_, ?_⟩, ?_⟩
  · intro r hr
    obtain ⟨t, ht⟩ := hp1v r (by omega)
    obtain ⟨x, hx⟩ := hn 0 0 t
    exact ⟨x, by rw [ht, hx]⟩
  · rw [hfin, hev]; rfl
  · have h1 : s'.seq.getLast? = some smp := by
      simp only [sampleSwor] at hs
      split at hs
      · simp at hs
      · split at hs
        · simp at hs
        · split at hs
          · simp at hs
          · simp only [Prod.mk.injEq, Except.ok.injEq] at hs
            rw [← hs.1, ← hs.2]
            simp
    have h2 : s'.width = smp.length := by simp [St.width, h1]
    rw [List.length_map]; omega
  · intro r hr
    obtain ⟨t, h1, h2⟩ := hone r hr
    rw [List.getElem?_map, h2, h1]
    simp only [Option.map_some, List.getLast?_singleton, Option.some.injEq]
    rw [Bool.eq_iff_iff]
    simp
  · intro r hr
    obtain ⟨t, h1, _⟩ := hone r hr
    rw [h1]
    intro i j hij _ hj
    simp at hj
    omega

/-- The state after any number of variables, if the first one has at least `k` outcomes. -/
theorem runSwor_full [AddCommMonoid α] [LinearOrder α] {k e : Nat} {topk : Nat → List (WithBot α) → List α → List Nat}
    (hp : Picks topk) (hb : Best topk) (hk : 2 ≤ k) (v₀ : Var α) (noise₀ : Nat → Nat → Nat → WithBot α)
    (vs : List (Var α × (Nat → Nat → Nat → WithBot α))) (hD : k ≤ v₀.dom)
    (hv : ∀ v ∈ (v₀, noise₀) :: vs, 2 ≤ v.1.dom ∧ v.1.events = [] ∧ e + 1 < v.1.dom ∧ ∀ c r t, ∃ x : α, v.2 c r t = x)
    (s : St α) (hs : runSwor k (some (e + 1)) topk ((v₀, noise₀) :: vs) blank = .ok s) :
    Full k (e + 1) s := by
  induction vs using List.reverseRecOn generalizing s with
  | nil =>
    obtain ⟨smp, h1⟩ := runSwor_one.1 hs
    obtain ⟨_, h2, _, h3⟩ := hv (v₀, noise₀) (by simp)
    exact full_first hp hk hD h2 h3 h1
  | append_singleton vs v ih =>
    obtain ⟨v, noise⟩ := v
    rw [← List.cons_append] at hs
    obtain ⟨s1, h1, h2⟩ := (runSwor_append ((v₀, noise₀) :: vs) [(v, noise)] blank s).1 hs
    obtain ⟨smp, h2⟩ := runSwor_one.1 h2
    have hv' : ∀ w ∈ (v₀, noise₀) :: vs, w ∈ (v₀, noise₀) :: (vs ++ [(v, noise)]) := by
      intro w hw
      rw [← List.cons_append]
      exact List.mem_append_left _ hw
    have hf := ih (fun w hw => hv w (hv' w hw)) s1 h1
    have hg := runSwor_good hp hk ((v₀, noise₀) :: vs) (by simp) (fun w hw => (hv w (hv' w hw)).1) h1
    obtain ⟨w1, w2, w3, w4⟩ := hv (v, noise) (by simp)
    exact full_step hp hb hk w1 w2 w3 w4 hg hf h2

/-- C59: if the first variable has at least `k` outcomes, finished sequences are continued with the end-of-sequence
token only, whatever the distributions and the (finite) noise.  Missing from the full claim: it fails while there are
fewer than `k` sequences (`C59_refuted`) and for the token zero (`C59_zero_refuted`). -/
theorem C59_partial [AddCommMonoid α] [LinearOrder α] {k e : Nat} {topk : Nat → List (WithBot α) → List α → List Nat}
    (hp : Picks topk) (hb : Best topk) (hk : 2 ≤ k) (v₀ : Var α) (noise₀ : Nat → Nat → Nat → WithBot α)
    (vs : List (Var α × (Nat → Nat → Nat → WithBot α))) (hD : k ≤ v₀.dom)
    (hv : ∀ v ∈ (v₀, noise₀) :: vs, 2 ≤ v.1.dom ∧ v.1.events = [] ∧ e + 1 < v.1.dom ∧ ∀ c r t, ∃ x : α, v.2 c r t = x)
    (s : St α) (hs : runSwor k (some (e + 1)) topk ((v₀, noise₀) :: vs) blank = .ok s) :
    ∀ x ∈ s.sequences, Ended (e + 1) x := by
  have key : Full k (e + 1) s := runSwor_full hp hb hk v₀ noise₀ vs hD hv s hs
  intro x hx
  simp only [St.sequences, List.mem_map, List.mem_range] at hx
  obtain ⟨r, hr, rfl⟩ := hx
  exact key.ended r (by rw [← key.full]; exact hr)

namespace EosCase
open DecodeCase

/-- Four outcomes. -/
def four : Var ℚ := ⟨4, [], true, fun h _ t => -(h.length + t : Nat)⟩

/-- The hypotheses of `C59_partial` are met: three variables with four outcomes, `k = 3`, end-of-sequence token `2`. -/
example : (runSwor 3 (some 2) sortTop [(four, noise), (four, noise), (four, noise)] blank).map St.sequences =
    .ok [[3, 3, 3], [1, 3, 3], [1, 2, 2]] := by decide +kernel

/-- C59 is refuted: two tokens, `k = 4` and end-of-sequence token `1`.  After the first variable there are two sequences,
after the second all four candidates are chosen, also the one that continues the finished sequence. -/
theorem C59_refuted : (runSwor 4 (some 1) sortTop [(coin, noise), (coin, noise)] blank).map St.sequences =
    .ok [[0, 1], [1, 1], [0, 0], [1, 0]] ∧ ¬ Ended 1 [1, 0] := by
  refine ⟨by decide +kernel, ?_⟩
  intro h
  have := h 0 1 (by omega) rfl (by decide)
  simp at this

/-- C59 is refuted for the token zero, which is taken for no token at all. -/
theorem C59_zero_refuted : (runSwor 4 (some 0) sortTop [(four, noise), (four, noise)] blank).map St.sequences =
    .ok [[0, 3], [1, 3], [2, 3], [0, 2]] ∧ ¬ Ended 0 [0, 3] := by
  refine ⟨by decide +kernel, ?_⟩
  intro h
  have := h 0 1 (by omega) rfl (by decide)
  simp at this

end EosCase

/-- C59 is refuted for `MCDecoder`: with an end-of-sequence token (other than zero) and more than one sample, decoding a variable
raises in every state, whatever is drawn. -/
theorem C59_mc_refuted (k e : Nat) (d : Dist α) (cond : Bool) (draw : Nat → Nat) (s : St α) (hev : d.events = [])
    (hrows : 2 ≤ s.rowsMC k cond) : ∃ err, (sampleMC k (some (e + 1)) d cond draw s).2 = .error err := by
  rw [sampleMC]
  cases ht : Mask.truth s.finished with
  | error err => exact ⟨err, rfl⟩
  | ok fin =>
    simp only [finishedOf, hev, List.isEmpty_nil, if_true]
    split
    · exact ⟨_, rfl⟩
    · cases fin with
      | true => simp [forceEos, Mask.truth]
      | false =>
        obtain ⟨r, hr⟩ := Nat.exists_eq_add_of_le hrows
        have : List.range (s.rowsMC k cond) = 0 :: 1 :: (List.range r).map (fun i => i + 2) := by
          rw [hr, Nat.add_comm, List.range_succ_eq_map, List.range_succ_eq_map]
          simp [Function.comp_def]
        simp [forceEos, this, Mask.truth]

/-- A single sample: the call that draws the token raises, and so does every later call. -/
theorem C59_mc_single_refuted (k e : Nat) (d : Dist α) (cond : Bool) (draw : Nat → Nat) (s : St α) (hev : d.events = [])
    (hrows : s.rowsMC k cond = 1)
    (h : s.finished = some (.rows [true]) ∨ ((s.finished = none ∨ s.finished = some (.rows [false])) ∧ draw 0 = e + 1)) :
    (∃ err, (sampleMC k (some (e + 1)) d cond draw s).2 = .error err) ∧
      (sampleMC k (some (e + 1)) d cond draw s).1.finished = some (.rows [true]) := by
  have hdraw : ∃ fin, Mask.truth s.finished = .ok fin ∧
      forceEos (some (e + 1)) fin ((List.range (s.rowsMC k cond)).map draw) = [e + 1] := by
    rw [hrows]
    rcases h with h | ⟨h | h, hd⟩
    · exact ⟨true, by rw [h]; rfl, rfl⟩
    · exact ⟨false, by rw [h]; rfl, by simp [forceEos, hd]⟩
    · exact ⟨false, by rw [h]; rfl, by simp [forceEos, hd]⟩
  obtain ⟨fin, h1, h2⟩ := hdraw
  rw [sampleMC, h1]
  simp only [h2, finishedOf, hev, List.isEmpty_nil, if_true]
  split
  · exact ⟨⟨_, rfl⟩, by simp⟩
  · simp [Mask.truth]

/-- Both cases occur: two samples at the start; one sample that draws the token. -/
example : (blank : St ℚ).rowsMC 2 false = 2 ∧ (blank : St ℚ).rowsMC 1 false = 1 ∧ (blank : St ℚ).finished = none := ⟨rfl, rfl, rfl⟩

/-- A single sample that does not draw the token is decoded. -/
example : (sampleMC 1 (some 1) (Dist.mk 2 [] false (fun _ _ _ => (-1 : ℚ))) false (fun _ => 0) blank).2 = .ok [0] := by
  decide +kernel

end Storch.Decode
