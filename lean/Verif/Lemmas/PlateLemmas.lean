import Verif.Model.Plate
import Verif.Lemmas.ListLemmas

/-! Helper lemmas on plate equality and the tensor constructor. -/

namespace Storch
variable {α : Type _}

theorem mem_allIdx {s idx : List Nat} : idx ∈ allIdx s ↔ Ten.InB idx s := by
  induction s generalizing idx with
  | nil =>
    constructor
    · intro h
      simp [allIdx] at h
      subst h
      exact List.Forall₂.nil
    · intro h
      cases h
      simp [allIdx]
  | cons d s ih =>
    simp only [allIdx, List.mem_flatMap, List.mem_range, List.mem_map]
    constructor
    · rintro ⟨i, hi, l, hl, rfl⟩
      exact List.Forall₂.cons hi (ih.1 hl)
    · intro h
      cases h with
      | cons h1 h2 => exact ⟨_, h1, _, ih.2 h2, rfl⟩

theorem nodup_allIdx (s : List Nat) : (allIdx s).Nodup := by
  induction s with
  | nil => simp [allIdx]
  | cons d s ih =>
    simp only [allIdx]
    rw [List.nodup_flatMap]
    refine ⟨fun i _ => ih.map (fun a b h => by simpa using h), ?_⟩
    refine (List.nodup_range (n := d)).imp ?_
    intro i j hij
    simp only [Function.onFun, List.disjoint_left, List.mem_map]
    rintro x ⟨a, _, rfl⟩ ⟨b, _, h⟩
    simp only [List.cons.injEq] at h
    exact hij h.1.symm

section eq
variable [ValEq α]

theorem Ten.eqAll_iff {a b : Ten α} :
    a.eqAll b = true ↔ a.shape = b.shape ∧
      ∀ idx, Ten.InB idx a.shape → ValEq.veq (a.get idx) (b.get idx) = true := by
  simp [Ten.eqAll, List.all_eq_true, mem_allIdx]

theorem Ten.eqAll_refl (a : Ten α) : a.eqAll a = true :=
  Ten.eqAll_iff.2 ⟨rfl, fun _ _ => ValEq.refl _⟩

theorem Ten.eqAll_symm {a b : Ten α} (h : a.eqAll b = true) : b.eqAll a = true := by
  obtain ⟨h1, h2⟩ := Ten.eqAll_iff.1 h
  exact Ten.eqAll_iff.2 ⟨h1.symm, fun idx hi => ValEq.symm _ _ (h2 idx (h1 ▸ hi))⟩

theorem Ten.eqAll_trans {a b c : Ten α} (h : a.eqAll b = true) (h' : b.eqAll c = true) :
    a.eqAll c = true := by
  obtain ⟨h1, h2⟩ := Ten.eqAll_iff.1 h
  obtain ⟨h3, h4⟩ := Ten.eqAll_iff.1 h'
  exact Ten.eqAll_iff.2 ⟨h1.trans h3, fun idx hi =>
    ValEq.trans _ _ _ (h2 idx hi) (h4 idx (h1 ▸ hi))⟩

/-- Which weights `Plate.__eq__` identifies. -/
def weightEq : Weight α → Weight α → Prop
  | .storch s _, .storch t _ => s.eqAll t = true
  | .torch _, .torch _ => True
  | _, _ => False

theorem Plate.pyEq_iff {p q : Plate α} :
    p.pyEq q = true ↔ p.name = q.name ∧ p.n = q.n ∧ p.kind = q.kind ∧
      weightEq p.weight q.weight := by
  obtain ⟨n1, k1, w1, kd1, ps1⟩ := p
  obtain ⟨n2, k2, w2, kd2, ps2⟩ := q
  simp only [Plate.pyEq, Plate.eqMethod, Plate.baseEq, Plate.name, Plate.n, Plate.weight,
    Plate.kind]
  cases kd1 <;> cases kd2 <;> cases w1 <;> cases w2 <;>
    simp [weightEq, and_comm, and_assoc, and_left_comm]

theorem weightEq_refl (w : Weight α) : weightEq w w := by
  cases w <;> simp [weightEq, Ten.eqAll_refl]

theorem weightEq_symm {v w : Weight α} (h : weightEq v w) : weightEq w v := by
  cases v <;> cases w <;> simp_all [weightEq]
  exact Ten.eqAll_symm h

theorem weightEq_trans {u v w : Weight α} (h : weightEq u v) (h' : weightEq v w) :
    weightEq u w := by
  cases u <;> cases v <;> cases w <;> simp_all [weightEq]
  exact Ten.eqAll_trans h h'

theorem Plate.pyEq_refl (p : Plate α) : p.pyEq p = true :=
  Plate.pyEq_iff.2 ⟨rfl, rfl, rfl, weightEq_refl _⟩

theorem Plate.pyEq_symm {p q : Plate α} (h : p.pyEq q = true) : q.pyEq p = true := by
  obtain ⟨a, b, c, d⟩ := Plate.pyEq_iff.1 h
  exact Plate.pyEq_iff.2 ⟨a.symm, b.symm, c.symm, weightEq_symm d⟩

theorem Plate.pyEq_comm (p q : Plate α) : p.pyEq q = q.pyEq p := by
  rw [Bool.eq_iff_iff]; exact ⟨Plate.pyEq_symm, Plate.pyEq_symm⟩

theorem Plate.pyEq_trans {p q r : Plate α} (h : p.pyEq q = true) (h' : q.pyEq r = true) :
    p.pyEq r = true := by
  obtain ⟨a, b, c, d⟩ := Plate.pyEq_iff.1 h
  obtain ⟨a', b', c', d'⟩ := Plate.pyEq_iff.1 h'
  exact Plate.pyEq_iff.2 ⟨a.trans a', b.trans b', c.trans c', weightEq_trans d d'⟩

theorem Plate.pyEq_name {p q : Plate α} (h : p.pyEq q = true) : p.name = q.name :=
  (Plate.pyEq_iff.1 h).1

theorem Plate.pyEq_n {p q : Plate α} (h : p.pyEq q = true) : p.n = q.n :=
  (Plate.pyEq_iff.1 h).2.1

end eq

/-! ### The constructor loop -/

theorem checkPlates_ok_iff (shape : List Nat) (ps : List (Plate α)) (names : List String) (d r : Nat) :
    STen.checkPlates shape ps names d = .ok r ↔
      (ps.map Plate.name).Nodup ∧ (∀ p ∈ ps, p.name ∉ names) ∧
      ((ps.filter (fun p => p.n ≠ 1)).map Plate.n) <+: (shape.drop d) ∧
      r = d + (ps.filter (fun p => p.n ≠ 1)).length := by
  induction ps generalizing names d with
  | nil => simp [STen.checkPlates, eq_comm]
  | cons p ps ih =>
    rw [STen.checkPlates]
    by_cases hn : p.name ∈ names
    · simp [hn]
    rw [if_neg hn]
    have hnm : ((p :: ps).map Plate.name).Nodup ∧ (∀ q ∈ p :: ps, q.name ∉ names) ↔
        (ps.map Plate.name).Nodup ∧ (∀ q ∈ ps, q.name ∉ p.name :: names) := by
      simp only [List.map_cons, List.nodup_cons, List.mem_map, List.mem_cons]
      constructor
      · rintro ⟨⟨a, b⟩, c⟩
        refine ⟨b, fun q hq h => ?_⟩
        rcases h with h | h
        · exact a ⟨q, hq, h⟩
        · exact c q (Or.inr hq) h
      · rintro ⟨a, b⟩
        refine ⟨⟨?_, a⟩, ?_⟩
        · rintro ⟨q, hq, h⟩; exact b q hq (Or.inl h)
        · rintro q (rfl | hq)
          · exact hn
          · exact fun h => b q hq (Or.inr h)
    rw [← and_assoc, hnm, and_assoc]
    by_cases h1 : p.n = 1
    · have hf : ((p :: ps).filter (fun p => p.n ≠ 1)) = ps.filter (fun p => p.n ≠ 1) := by
        simp [h1]
      rw [if_pos h1, ih, hf]
    · rw [if_neg h1]
      have hf : ((p :: ps).filter (fun p => p.n ≠ 1)) = p :: ps.filter (fun p => p.n ≠ 1) := by
        simp [h1]
      rw [hf]
      by_cases hl : shape.length ≤ d
      · rw [if_pos hl]
        have : shape.drop d = [] := by simpa using hl
        rw [this]
        simp
      · rw [if_neg hl]
        have hlt : d < shape.length := by omega
        have hd : shape.drop d = shape[d] :: shape.drop (d + 1) := by
          simp
        rw [hd, List.map_cons (f := Plate.n), List.cons_prefix_cons, List.getElem?_eq_getElem hlt]
        by_cases he : shape[d] = p.n
        · rw [if_neg (by simp [he]), ih, List.length_cons]
          have : ∀ k : Nat, d + 1 + k = d + (k + 1) := by omega
          simp only [he, true_and, this]
        · rw [if_pos (by simp [he])]
          simp [Ne.symm he]

theorem checkPlates_error (shape : List Nat) (ps : List (Plate α)) (names : List String) (d : Nat)
    {e : Err} (h : STen.checkPlates shape ps names d = .error e) : e = .value := by
  induction ps generalizing names d with
  | nil => simp [STen.checkPlates] at h
  | cons p ps ih =>
    rw [STen.checkPlates] at h
    split_ifs at h <;> first | exact ih _ _ h | (injection h with h; exact h.symm)

end Storch
