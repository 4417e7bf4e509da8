import Mathlib.Data.List.Nodup
import Verif.Model.Wrap
import Verif.Lemmas.ListLemmas
import Verif.Lemmas.OrderInv

/-! Loop invariants of the alignment of plate dimensions (`swapLoop`, `unsqLoop`, `alignTen`). -/

namespace Storch
variable {α : Type _} [ValEq α]

/-- Plates of the same name in the two lists are equal plates. -/
def Compat (ps qs : List (Plate α)) : Prop :=
  ∀ p ∈ ps, ∀ q ∈ qs, p.name = q.name → p.pyEq q = true

theorem isIn_iff_name {p : Plate α} {ps qs : List (Plate α)} (hc : Compat ps qs) (hp : p ∈ ps) :
    p.isIn qs = true ↔ p.name ∈ qs.map Plate.name := by
  rw [Plate.isIn_iff, List.mem_map]
  constructor
  · rintro ⟨q, hq, he⟩; exact ⟨q, hq, Plate.pyEq_name he⟩
  · rintro ⟨q, hq, he⟩; exact ⟨q, hq, Plate.pyEq_symm (hc p hp q hq he.symm)⟩

theorem indexBy_some {β : Type _} {eq : β → β → Bool} {x : β} {l : List β}
    (h : ∃ y ∈ l, eq y x = true) : ∃ j, indexBy eq x l = some j ∧ ∃ hj : j < l.length,
      eq l[j] x = true := by
  induction l with
  | nil => obtain ⟨y, hy, _⟩ := h; simp at hy
  | cons z zs ih =>
    simp only [indexBy]
    by_cases hz : eq z x = true
    · exact ⟨0, by simp [hz], by simp, by simpa using hz⟩
    · have : ∃ y ∈ zs, eq y x = true := by
        obtain ⟨y, hy, he⟩ := h
        rcases List.mem_cons.1 hy with rfl | hy
        · exact absurd he hz
        · exact ⟨y, hy, he⟩
      obtain ⟨j, h1, h2, h3⟩ := ih this
      refine ⟨j + 1, by simp [hz, h1], by simpa using h2, by simpa using h3⟩

theorem indexBy_eq_some {β : Type _} {eq : β → β → Bool} {x : β} {l : List β} {j : Nat}
    (h : indexBy eq x l = some j) : ∃ hj : j < l.length, eq l[j] x = true := by
  induction l generalizing j with
  | nil => simp [indexBy] at h
  | cons z zs ih =>
    simp only [indexBy] at h
    by_cases hz : eq z x = true
    · simp only [hz, if_true, Option.some.injEq] at h
      subst h
      exact ⟨by simp, by simpa using hz⟩
    · simp only [hz, Bool.false_eq_true, if_false, Option.map_eq_some_iff] at h
      obtain ⟨i, hi, rfl⟩ := h
      obtain ⟨h1, h2⟩ := ih hi
      exact ⟨by simpa using h1, by simpa using h2⟩

theorem take_swapAt {β : Type _} {l : List β} {i j : Nat} (hi : i < l.length) (hj : j < l.length)
    (hij : i ≤ j) : (swapAt l i j).take i = l.take i := by
  apply List.ext_getElem?
  intro k
  rw [List.getElem?_take, List.getElem?_take]
  split_ifs with hk
  · rw [getElem?_swapAt hi hj, if_neg (by omega), if_neg (by omega)]
  · rfl

theorem swapAt_comm {β : Type _} (l : List β) (i j : Nat) : swapAt l i j = swapAt l j i := by
  unfold swapAt
  cases h1 : l[i]? with
  | none => cases l[j]? <;> rfl
  | some a =>
    cases h2 : l[j]? with
    | none => rfl
    | some b =>
      simp only
      by_cases hij : i = j
      · subst hij
        rw [h1] at h2
        injection h2 with h2
        rw [h2]
      · rw [List.set_comm _ _ hij]

theorem swapLoop_spec (ps : List (Plate α)) (ev : List Nat) :
    ∀ (t : Ten α) (links : List (Plate α)) (amt : Nat),
    (links.map Plate.name).Nodup → Compat ps links → (ps.map Plate.name).Nodup →
    (∀ p ∈ ps, p.name ∉ (links.take amt).map Plate.name) → amt ≤ links.length →
    t.shape = links.map Plate.n ++ ev →
    ∃ t' links', swapLoop ps t links amt = .ok (t', links') ∧ links'.Perm links ∧
      t'.shape = links'.map Plate.n ++ ev ∧
      (∀ (ι : Plate α → Nat) (e : List Nat), t'.get (links'.map ι ++ e) = t.get (links.map ι ++ e)) ∧
      (links'.map Plate.name).take
          (amt + (ps.filter (fun p => decide (p.name ∈ links.map Plate.name))).length) =
        (links.map Plate.name).take amt ++
          (ps.filter (fun p => decide (p.name ∈ links.map Plate.name))).map Plate.name := by
  induction ps with
  | nil =>
    intro t links amt _ _ _ _ _ hs
    exact ⟨t, links, rfl, List.Perm.refl _, hs, fun _ _ => rfl, by simp⟩
  | cons p ps ih =>
    intro t links amt hn hc hps hd ha hs
    simp only [List.map_cons, List.nodup_cons] at hps
    have hc' : Compat ps links := fun x hx => hc x (List.mem_cons_of_mem _ hx)
    simp only [swapLoop]
    by_cases hin : p.isIn links = true
    · have hname : p.name ∈ links.map Plate.name := (isIn_iff_name hc (by simp)).1 hin
      simp only [hin, if_true]
      -- position of `p`
      obtain ⟨j, hj, hjl, hje⟩ := indexBy_some (Plate.isIn_iff.1 hin)
      have hjamt : amt ≤ j := by
        by_contra hlt
        have hlt : j < amt := by omega
        apply hd p (by simp)
        rw [← Plate.pyEq_name hje]
        apply List.mem_map_of_mem
        rw [List.mem_take_iff_getElem]
        exact ⟨j, by omega, rfl⟩
      have hal : amt < links.length := by omega
      rw [List.getElem?_eq_getElem hal]
      simp only
      -- the common continuation
      have cont : ∀ (t1 : Ten α) (links1 : List (Plate α)), links1.Perm links →
          links1.take amt = links.take amt → (∃ h : amt < links1.length, links1[amt].name = p.name) →
          t1.shape = links1.map Plate.n ++ ev →
          (∀ (ι : Plate α → Nat) (e : List Nat), t1.get (links1.map ι ++ e) = t.get (links.map ι ++ e)) →
          ∃ t' links', swapLoop ps t1 links1 (amt + 1) = .ok (t', links') ∧ links'.Perm links ∧
            t'.shape = links'.map Plate.n ++ ev ∧
            (∀ (ι : Plate α → Nat) (e : List Nat),
              t'.get (links'.map ι ++ e) = t.get (links.map ι ++ e)) ∧
            (links'.map Plate.name).take
                (amt + ((p :: ps).filter (fun p => decide (p.name ∈ links.map Plate.name))).length) =
              (links.map Plate.name).take amt ++
                ((p :: ps).filter (fun p => decide (p.name ∈ links.map Plate.name))).map Plate.name := by
        intro t1 links1 hperm htake ⟨hl1, hnm⟩ hs1 hget1
        have hpn : (links1.map Plate.name).Perm (links.map Plate.name) := hperm.map _
        have htk : (links1.map Plate.name).take (amt + 1) =
            (links.map Plate.name).take amt ++ [p.name] := by
          rw [← List.map_take, List.take_succ_eq_append_getElem hl1, htake, List.map_append,
            List.map_take]
          simp [hnm]
        obtain ⟨t', links', h1, h2, h3, h4, h5⟩ := ih t1 links1 (amt + 1) (hpn.nodup_iff.2 hn)
          (fun x hx y hy => hc' x hx y (hperm.mem_iff.1 hy)) hps.2
          (by
            intro x hx
            rw [List.map_take, htk, List.mem_append, not_or]
            constructor
            · rw [← List.map_take]; exact hd x (List.mem_cons_of_mem _ hx)
            · simp only [List.mem_singleton]
              intro e
              exact hps.1 (e ▸ List.mem_map_of_mem hx)) hl1 hs1
        refine ⟨t', links', h1, h2.trans hperm, h3, fun ι e => (h4 ι e).trans (hget1 ι e), ?_⟩
        have hfe : ps.filter (fun p => decide (p.name ∈ links1.map Plate.name)) =
            ps.filter (fun p => decide (p.name ∈ links.map Plate.name)) := by
          apply List.filter_congr
          intro x _
          simp only [hpn.mem_iff]
        rw [hfe, htk] at h5
        rw [List.filter_cons_of_pos (by simpa using hname), List.length_cons, List.map_cons]
        rw [show amt + ((ps.filter (fun p => decide (p.name ∈ links.map Plate.name))).length + 1) =
          amt + 1 + (ps.filter (fun p => decide (p.name ∈ links.map Plate.name))).length by omega, h5]
        simp
      by_cases heq : p.pyEq links[amt] = true
      · simp only [heq, if_true]
        exact cont t links (List.Perm.refl _) rfl ⟨hal, (Plate.pyEq_name heq).symm⟩ hs
          (fun _ _ => rfl)
      · simp only [heq, Bool.false_eq_true, if_false, hj]
        have hsl : t.ndim = links.length + ev.length := by simp [Ten.ndim, hs]
        have htr : t.transpose j amt =
            .ok ⟨swapAt t.shape j amt, fun idx => t.get (swapAt idx j amt)⟩ := by
          rw [Ten.transpose, if_pos ⟨by omega, by omega⟩]
        rw [htr]
        simp only
        apply cont
        · exact swapAt_perm _ _ _
        · exact take_swapAt hal hjl hjamt
        · refine ⟨by simpa using hal, ?_⟩
          have : (swapAt links amt j)[amt]? = some links[j] := by
            rw [getElem?_swapAt hal hjl]
            split_ifs with h
            · subst h; exact List.getElem?_eq_getElem hal
            · exact List.getElem?_eq_getElem hjl
            · rename_i h'; exact absurd rfl h'
          rw [List.getElem?_eq_getElem (by simpa using hal)] at this
          injection this with this
          rw [this]
          exact Plate.pyEq_name hje
        · simp only
          rw [hs, swapAt_comm, swapAt_append_left (by simpa using hal) (by simpa using hjl),
            map_swapAt _ hal hjl]
        · intro ι e
          simp only
          rw [swapAt_comm, swapAt_append_left (by simpa using hal) (by simpa using hjl),
            map_swapAt _ hal hjl, swapAt_swapAt (by simpa using hal) (by simpa using hjl)]
    · have hname : p.name ∉ links.map Plate.name := fun h => hin ((isIn_iff_name hc (by simp)).2 h)
      simp only [hin, Bool.false_eq_true, if_false]
      obtain ⟨t', links', h1, h2, h3, h4, h5⟩ := ih t links amt hn hc' hps.2
        (fun x hx => hd x (List.mem_cons_of_mem _ hx)) ha hs
      refine ⟨t', links', h1, h2, h3, h4, ?_⟩
      rw [List.filter_cons_of_neg (by simpa using hname)]
      exact h5

theorem unsqLoop_spec (aPlates : List (Plate α)) (t1 : Ten α) (ev : List Nat) (ps : List (Plate α)) :
    ∀ (P : List (Plate α)) (t : Ten α) (dims : List Nat),
    t.shape = P.map (fun p => if p.isIn aPlates then p.n else 1) ++
      ((ps.filter (fun p => p.isIn aPlates)).map Plate.n ++ ev) →
    (∀ (ι : Plate α → Nat) (e : List Nat),
      t.get (P.map ι ++ ((ps.filter (fun p => p.isIn aPlates)).map ι ++ e)) =
        t1.get (((P ++ ps).filter (fun p => p.isIn aPlates)).map ι ++ e)) →
    ∃ t', unsqLoop aPlates ps P.length t dims = .ok (t', dims ++ ps.map Plate.n) ∧
      t'.shape = (P ++ ps).map (fun p => if p.isIn aPlates then p.n else 1) ++ ev ∧
      (∀ (ι : Plate α → Nat) (e : List Nat),
        t'.get ((P ++ ps).map ι ++ e) =
          t1.get (((P ++ ps).filter (fun p => p.isIn aPlates)).map ι ++ e)) := by
  induction ps with
  | nil =>
    intro P t dims hs hg
    refine ⟨t, by simp [unsqLoop], by simpa using hs, ?_⟩
    intro ι e
    simpa using hg ι e
  | cons p ps ih =>
    intro P t dims hs hg
    simp only [unsqLoop]
    have hPP : P ++ p :: ps = (P ++ [p]) ++ ps := by simp
    by_cases hin : p.isIn aPlates = true
    · simp only [hin, if_true]
      have hf : (p :: ps).filter (fun p => p.isIn aPlates) =
          p :: ps.filter (fun p => p.isIn aPlates) := by simp [hin]
      have hsi : t.shape[P.length]? = some p.n := by
        rw [hs, List.getElem?_append_right (by simp)]
        simp [hin]
      rw [hsi]
      simp only
      have := ih (P ++ [p]) t (dims ++ [p.n])
        (by rw [hs, hf]; simp [hin])
        (by
          intro ι e
          rw [← hPP, ← hg ι e, hf]
          simp)
      obtain ⟨t', h1, h2, h3⟩ := this
      refine ⟨t', ?_, ?_, ?_⟩
      · rw [show P.length + 1 = (P ++ [p]).length by simp, h1]; simp
      · rw [h2, hPP]
      · intro ι e; rw [hPP]; exact h3 ι e
    · simp only [hin, Bool.false_eq_true, if_false]
      have hf : (p :: ps).filter (fun p => p.isIn aPlates) =
          ps.filter (fun p => p.isIn aPlates) := by simp [hin]
      have hu : t.unsqueeze P.length =
          .ok ⟨t.shape.insertIdx P.length 1, fun idx => t.get (idx.eraseIdx P.length)⟩ := by
        rw [Ten.unsqueeze, if_pos]
        simp [Ten.ndim, hs]
      rw [hu]
      simp only
      have := ih (P ++ [p]) ⟨t.shape.insertIdx P.length 1, fun idx => t.get (idx.eraseIdx P.length)⟩
        (dims ++ [p.n])
        (by
          simp only
          have e1 : P.length = (P.map (fun p => if p.isIn aPlates then p.n else 1)).length := by simp
          rw [hs, e1, insertIdx_append_length, hf]
          simp [hin])
        (by
          intro ι e
          simp only
          have e1 : P.length = (P.map ι).length := by simp
          rw [← hPP, ← hg ι e, hf]
          rw [List.map_append, List.map_cons, List.map_nil, List.append_assoc, List.singleton_append]
          rw [e1, eraseIdx_append_length])
      obtain ⟨t', h1, h2, h3⟩ := this
      refine ⟨t', ?_, ?_, ?_⟩
      · rw [show P.length + 1 = (P ++ [p]).length by simp, h1]; simp
      · rw [h2, hPP]
      · intro ι e; rw [hPP]; exact h3 ι e

/-- A storch tensor as the constructor leaves it, with all plates of size at least one. -/
structure STen.WF (a : STen α) : Prop where
  names : (a.plates.map Plate.name).Nodup
  pos : ∀ p ∈ a.plates, 1 ≤ p.n
  shape : a.ten.shape = a.multiDimPlates.map Plate.n ++ a.eventShape
  dims : a.plateDims = a.multiDimPlates.length

/-- `mdp` is a list of plates of size > 1 with distinct names, among them all multi-dimensional plates
of `a`. -/
structure Covers (mdp : List (Plate α)) (a : STen α) : Prop where
  names : (mdp.map Plate.name).Nodup
  multi : ∀ p ∈ mdp, 1 < p.n
  compat : Compat mdp a.plates
  all : ∀ q ∈ a.multiDimPlates, q.name ∈ mdp.map Plate.name

omit [ValEq α] in
theorem STen.nodup_multi {a : STen α} (h : a.WF) : (a.multiDimPlates.map Plate.name).Nodup :=
  h.names.sublist (List.filter_sublist.map _)

theorem Covers.isIn_iff {mdp : List (Plate α)} {a : STen α} (h : Covers mdp a) {p : Plate α}
    (hp : p ∈ mdp) : p.isIn a.plates = true ↔ p.name ∈ a.multiDimPlates.map Plate.name := by
  rw [isIn_iff_name h.compat hp]
  constructor
  · intro hm
    obtain ⟨q, hq, he⟩ := List.mem_map.1 hm
    have hn := Plate.pyEq_n (h.compat p hp q hq he.symm)
    refine List.mem_map.2 ⟨q, ?_, he⟩
    rw [STen.multiDimPlates, List.mem_filter]
    exact ⟨hq, by simpa [← hn] using h.multi p hp⟩
  · intro hm
    obtain ⟨q, hq, he⟩ := List.mem_map.1 hm
    exact List.mem_map.2 ⟨q, (List.mem_filter.1 hq).1, he⟩

/-- The event shape after right-padding. -/
def padEv (lb : Bool) (E : Nat) (ev : List Nat) : List Nat :=
  if lb && decide (ev.length < E) then ev ++ List.replicate (E - ev.length) 1 else ev

/-- Alignment: the plate dimensions of the result are, in the order of `mdp`, the plate size where the
tensor has the plate and 1 elsewhere; the elements are those of the tensor at its own plates' part of
the index. -/
theorem align_core (lb : Bool) (mdp : List (Plate α)) (E : Nat) (a : STen α) (hw : a.WF)
    (hc : Covers mdp a) :
    ∃ t2 : Ten α, (∀ expand flatten, alignTen lb expand flatten mdp E a =
        match (if expand then t2.expand (mdp.map Plate.n ++ t2.shape.drop mdp.length) else .ok t2) with
        | .error e => .error e
        | .ok t3 => if flatten then t3.flattenLeft mdp.length else .ok t3) ∧
      t2.shape = mdp.map (fun p => if p.isIn a.plates then p.n else 1) ++ padEv lb E a.eventShape ∧
      ∀ (ι : String → Nat) (e : List Nat), e.length = (padEv lb E a.eventShape).length →
        t2.get (mdp.map (fun p => ι p.name) ++ e) =
          a.ten.get (a.multiDimPlates.map (fun p => ι p.name) ++ e.take a.eventDims) := by
  set L := a.multiDimPlates with hL
  set t0 : Ten α := if lb && decide (a.eventDims < E) then
    a.ten.noneRight (E - a.eventDims) else a.ten with ht0
  have hnL := STen.nodup_multi hw
  have hcompat : Compat mdp L := fun p hp q hq => hc.compat p hp q (List.mem_filter.1 hq).1
  have hs0 : t0.shape = L.map Plate.n ++ padEv lb E a.eventShape := by
    by_cases hb : (lb && decide (a.eventShape.length < E)) = true
    · have hb' : (lb && decide (a.eventDims < E)) = true := hb
      rw [ht0, padEv, if_pos hb, if_pos hb']
      simp [Ten.noneRight, hw.shape, hL, STen.eventDims]
    · have hb' : ¬ (lb && decide (a.eventDims < E)) = true := hb
      rw [ht0, padEv, if_neg hb, if_neg hb']
      exact hw.shape
  obtain ⟨t1, links, h1, h2, h3, h4, h5⟩ := swapLoop_spec mdp (padEv lb E a.eventShape) t0 L 0 hnL
    hcompat hc.names (by simp) (by simp) hs0
  set C := mdp.filter (fun p => decide (p.name ∈ L.map Plate.name)) with hC
  have hCp : (C.map Plate.name).Perm (L.map Plate.name) := by
    rw [List.perm_ext_iff_of_nodup (hc.names.sublist (List.filter_sublist.map _)) hnL]
    intro k
    constructor
    · intro hk
      obtain ⟨p, hp, rfl⟩ := List.mem_map.1 hk
      simpa using (List.mem_filter.1 hp).2
    · intro hk
      obtain ⟨q, hq, rfl⟩ := List.mem_map.1 hk
      obtain ⟨p, hp, hpq⟩ := List.mem_map.1 (hc.all q hq)
      refine List.mem_map.2 ⟨p, ?_, hpq⟩
      rw [List.mem_filter]
      exact ⟨hp, by rw [hpq]; simpa using hk⟩
  have hlen : C.length = L.length := by simpa using hCp.length_eq
  have hnames : links.map Plate.name = C.map Plate.name := by
    have : (links.map Plate.name).take (0 + C.length) = links.map Plate.name := by
      apply List.take_of_length_le
      rw [List.length_map, h2.length_eq, hlen]
      omega
    rw [this] at h5
    simpa using h5
  have hCA : mdp.filter (fun p => p.isIn a.plates) = C := by
    rw [hC]
    apply List.filter_congr
    intro p hp
    rw [Bool.eq_iff_iff, hc.isIn_iff hp]
    simp [hL]
  -- sizes of linked plates
  have hns : links.map Plate.n = C.map Plate.n := by
    have hsz : ∀ k : Nat, (links.map Plate.n)[k]? = (C.map Plate.n)[k]? := by
      intro k
      by_cases hk : k < C.length
      · have hk' : k < links.length := by
          have := congrArg List.length hnames; simp at this; omega
        have hne : links[k].name = C[k].name := by
          have := congrArg (fun l => l[k]?) hnames
          simpa [hk, hk'] using this
        have hCk : C[k] ∈ mdp := (List.mem_filter.1 (List.getElem_mem hk)).1
        have hLk : links[k] ∈ L := h2.mem_iff.1 (List.getElem_mem hk')
        have := Plate.pyEq_n (hcompat _ hCk _ hLk hne.symm)
        simp [hk, hk', this]
      · have hk' : ¬ k < links.length := by
          have := congrArg List.length hnames; simp at this; omega
        simp [hk, hk']
    exact List.ext_getElem? hsz
  obtain ⟨t2, g1, g2, g3⟩ := unsqLoop_spec a.plates t1 (padEv lb E a.eventShape) mdp [] t1 []
    (by rw [hCA]; simp [h3, hns])
    (by intro ι e; simp)
  refine ⟨t2, ?_, by simpa using g2, ?_⟩
  · intro expand flatten
    rw [alignTen]
    simp only [← ht0, ← hL, h1]
    simp only [List.length_nil, List.nil_append] at g1
    rw [g1]
    simp only [List.length_map]
    cases (if expand then t2.expand (mdp.map Plate.n ++ t2.shape.drop mdp.length) else .ok t2) <;> rfl
  · intro ι e he
    have e1 := g3 (fun p => ι p.name) e
    simp only [List.nil_append] at e1
    rw [e1, hCA]
    have e2 : C.map (fun p => ι p.name) = links.map (fun p => ι p.name) := by
      have := congrArg (List.map ι) hnames
      simpa [List.map_map, Function.comp_def] using this.symm
    rw [e2, h4 (fun p => ι p.name) e, ht0]
    split_ifs with hb
    · simp only [Ten.noneRight, Ten.ndim]
      rw [hw.shape, List.take_append]
      simp only [STen.eventDims]
      rw [List.take_of_length_le (by simp [hL])]
      congr 2
      simp [hL]
    · have : e.length = a.eventShape.length := by
        have hb' : ¬ (lb && decide (a.eventShape.length < E)) = true := hb
        rw [he, padEv, if_neg hb']
      rw [List.take_of_length_le (by rw [this]; rfl)]

end Storch
