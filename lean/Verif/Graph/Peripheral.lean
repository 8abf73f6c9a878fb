import Verif.Graph.Levels

/-! # The pseudo peripheral vertex search -/

namespace Disa
open Spec
namespace Graph

open Classical in
/-- Distance from `u` to `v`, `sizeMax` if there is none. -/
noncomputable def lvl (L : List (List Nat)) (u v : Nat) : Nat :=
  if h : ∃ k, IsDist (rowRel L) (· = u) v k then h.choose else sizeMax

theorem lvl_of_dist {L u v k} (h : IsDist (rowRel L) (· = u) v k) : lvl L u v = k := by
  have hex : ∃ k, IsDist (rowRel L) (· = u) v k := ⟨k, h⟩
  unfold lvl
  rw [dif_pos hex]
  exact hex.choose_spec.unique h

theorem lvl_of_none {L u v} (h : ¬ ∃ k, IsDist (rowRel L) (· = u) v k) : lvl L u v = sizeMax := by
  unfold lvl; rw [dif_neg h]

theorem isDist_symm {L : List (List Nat)} (hs : ∀ i j, j ∈ row L i → i ∈ row L j) {u v k : Nat}
    (h : IsDist (rowRel L) (· = u) v k) : IsDist (rowRel L) (· = v) u k := by
  have hs' : ∀ a b, rowRel L a b → rowRel L b a := fun a b hab => hs a b hab
  obtain ⟨⟨s, rfl, hw⟩, hmin⟩ := h
  refine ⟨⟨v, rfl, Walk.symm hs' hw⟩, ?_⟩
  rintro j hj s rfl hw
  exact hmin j hj _ rfl (Walk.symm hs' hw)

theorem lvl_symm {L : List (List Nat)} (hs : ∀ i j, j ∈ row L i → i ∈ row L j) (u v : Nat) : lvl L u v = lvl L v u := by
  by_cases h : ∃ k, IsDist (rowRel L) (· = u) v k
  · obtain ⟨k, hk⟩ := h
    rw [lvl_of_dist hk, lvl_of_dist (isDist_symm hs hk)]
  · rw [lvl_of_none h, lvl_of_none]
    rintro ⟨k, hk⟩
    exact h ⟨k, isDist_symm hs hk⟩

theorem dist_lt {d L} (hg : Good d L) {u v k : Nat} (hu : u < L.length) (h : IsDist (rowRel L) (· = u) v k) :
    k < L.length :=
  h.lt_card (by rintro s rfl; exact hu) (fun a b hab => hg.range a b hab)

theorem lvl_cases {d L} (hg : Good d L) {u v : Nat} (hu : u < L.length) : lvl L u v < L.length ∨ lvl L u v = sizeMax := by
  by_cases h : ∃ k, IsDist (rowRel L) (· = u) v k
  · obtain ⟨k, hk⟩ := h
    rw [lvl_of_dist hk]; exact .inl (dist_lt hg hu hk)
  · exact .inr (lvl_of_none h)

theorem levels_getElem {d L} (hg : Good d L) (hn : L.length < sizeMax) {u : Nat} (hu : u < L.length) {out : List Nat}
    (h : IsLevels (rowRel L) (· = u) sizeMax L.length out) {v : Nat} (hv : v < L.length) : out[v]? = some (lvl L u v) := by
  rcases h.2 v hv with ⟨k, _, hd, ho⟩ | ⟨ho, hno⟩
  · rw [ho, lvl_of_dist hd]
  · rw [ho, lvl_of_none]
    rintro ⟨k, hk⟩
    have := dist_lt hg hu hk
    exact hno k (by omega) hk

/-- The number of distances still possible. -/
def rankMd (n md : Nat) : Nat := if md = sizeMax then 0 else n - md

/-- Invariant of the scan over the vertices. -/
structure ScanInv (L : List (List Nat)) (md0 p0 i : Nat) (s : Bool × Nat × Nat) : Prop where
  keep : s.1 = true → s.2 = (md0, p0)
  bound : ∀ v, v < i → lvl L p0 v ≤ s.2.1
  mono : md0 ≤ s.2.1
  new : s.1 = false → lvl L p0 s.2.2 = s.2.1 ∧ s.2.2 < L.length
  less : s.1 = false → md0 < s.2.1 ∨ (s.2.1 = md0 ∧ (row L s.2.2).length < (row L p0).length)
  deg : s.1 = true → ∀ v, v < i → lvl L p0 v = md0 → (row L p0).length ≤ (row L v).length

theorem scan_ok {d : Bool} {g : Graph} {L : List (List Nat)} (hr : g.Rep L) (hg : Good d L)
    (hn : L.length < sizeMax) {md0 p0 : Nat} (hp0 : p0 < L.length) {out : List Nat}
    (ho : IsLevels (rowRel L) (· = p0) sizeMax L.length out) :
    ∃ s, loop L.length (g.peripheralBody out) (true, md0, p0) = .ok s ∧ ScanInv L md0 p0 L.length s := by
  apply loop_inv (I := ScanInv L md0 p0)
  · refine ⟨fun _ => rfl, by intro v hv; omega, Nat.le_refl _, by simp, by simp, by intro _ v hv; omega⟩
  · rintro i ⟨found, md, p⟩ hi ⟨h1, h2, h3, h4, h5, h6⟩
    simp only at h1 h2 h3 h4 h5 h6
    have hp : p < L.length := by
      cases found
      · exact (h4 rfl).2
      · have := h1 rfl; cases this; exact hp0
    have hrd : rd out i = .ok (lvl L p0 i) := rd_of_some (levels_getElem hg hn hp0 ho hi)
    have hsplit : ∀ {P : Nat → Prop}, (∀ v, v < i → P v) → P i → ∀ v, v < i + 1 → P v := by
      intro P h h' v hv
      by_cases hvi : v = i
      · subst hvi; exact h'
      · exact h v (by omega)
    unfold peripheralBody
    simp only [hrd, Out.ok_bind]
    by_cases hgt : lvl L p0 i > md
    · rw [if_pos hgt]
      refine ⟨_, rfl, by simp, ?_, by simp only; omega, fun _ => ⟨rfl, hi⟩, fun _ => .inl (by simp only; omega), by simp⟩
      exact hsplit (fun v hv => by have := h2 v hv; simp only; omega) (Nat.le_refl _)
    · rw [if_neg hgt]
      by_cases heq : lvl L p0 i = md
      · simp only [heq, beq_self_eq_true, if_true, hr.degree hi, hr.degree hp, Out.ok_bind]
        by_cases hdeg : (row L i).length < (row L p).length
        · rw [if_pos hdeg]
          refine ⟨_, rfl, by simp, ?_, h3, fun _ => ⟨heq, hi⟩, fun _ => ?_, by simp⟩
          · exact hsplit h2 (by simp only; omega)
          · simp only
            cases found
            · rcases h5 rfl with h | ⟨h, h'⟩
              · exact .inl h
              · exact .inr ⟨h, by omega⟩
            · have := h1 rfl; cases this
              exact .inr ⟨rfl, hdeg⟩
        · rw [if_neg hdeg]
          refine ⟨_, rfl, h1, hsplit h2 (by simp only; omega), h3, h4, h5, ?_⟩
          intro hf
          simp only at hf
          have := h1 hf; cases this
          exact hsplit (h6 hf) (fun _ => by omega)
      · have : (lvl L p0 i == md) = false := by simpa using heq
        simp only [this, Bool.false_eq_true, if_false]
        refine ⟨_, rfl, h1, hsplit h2 (by simp only; omega), h3, h4, h5, ?_⟩
        intro hf
        simp only at hf
        have := h1 hf; cases this
        exact hsplit (h6 hf) (fun h => absurd h heq)

/-- Invariant of the outer loop. -/
structure PInv (L : List (List Nat)) (start : Nat) (s : Bool × Nat × Nat) : Prop where
  lt : s.2.2 < L.length
  md : s.2.1 < L.length ∨ s.2.1 = sizeMax
  first : (s = (false, 0, start)) ∨
    ((∀ v, v < L.length → lvl L start v ≤ s.2.1) ∧
      ∃ q, q < L.length ∧ lvl L q s.2.2 = s.2.1 ∧ ∀ v, v < L.length → lvl L q v ≤ s.2.1)
  fin : s.1 = true → (∀ v, v < L.length → lvl L s.2.2 v ≤ s.2.1) ∧
    ∀ v, v < L.length → lvl L s.2.2 v = s.2.1 → (row L s.2.2).length ≤ (row L v).length

/-- Termination measure. -/
def pmeas (L : List (List Nat)) (s : Bool × Nat × Nat) : Nat :=
  if s.1 then 0 else rankMd L.length s.2.1 * (L.length + 2) + (row L s.2.2).length + 1

theorem peripheralStep_ok {g : Graph} {L : List (List Nat)} (hr : g.Rep L) (hg : Good false L) (hn1 : 1 < L.length)
    (hn : L.length < sizeMax) {start : Nat} (hdeg : (row L start).length ≠ 0) {s : Bool × Nat × Nat}
    (h : PInv L start s) (hc : (!s.1) = true) :
    ∃ s', g.peripheralStep s = .ok s' ∧ PInv L start s' ∧ pmeas L s' < pmeas L s := by
  obtain ⟨found, md, p⟩ := s
  obtain ⟨hlt, hmd, hfirst, hfin⟩ := h
  simp only at hlt hmd hfirst hfin hc
  have hf : found = false := by simpa using hc
  subst hf
  obtain ⟨out, ho1, ho2⟩ := levelTraversal_ok hr hg hn1 hn (e := sizeMax) (Nat.le_refl _) hlt
  obtain ⟨⟨found', md', p'⟩, hs1, hs2⟩ := scan_ok hr hg hn (md0 := md) hlt ho2
  obtain ⟨k1, k2, k3, k4, k5, k6⟩ := hs2
  simp only at k1 k2 k3 k4 k5 k6
  refine ⟨(found', md', p'), by simp [peripheralStep, ho1, hr.sizeVertex, hs1], ⟨?_, ?_, ?_, ?_⟩, ?_⟩
  · cases found'
    · exact (k4 rfl).2
    · have := k1 rfl; cases this; exact hlt
  · cases found'
    · have := (k4 rfl).1
      simp only
      rw [← this]; exact lvl_cases hg hlt
    · have := k1 rfl; cases this; exact hmd
  · right
    simp only
    constructor
    · intro v hv
      rcases hfirst with h | ⟨h, _⟩
      · cases h; exact k2 v hv
      · have := h v hv; omega
    · cases found'
      · exact ⟨p, hlt, (k4 rfl).1, k2⟩
      · have := k1 rfl; cases this
        rcases hfirst with h | ⟨_, h⟩
        · exfalso
          cases h
          obtain ⟨w, hw⟩ := List.exists_mem_of_length_pos (Nat.pos_of_ne_zero hdeg)
          have hwn := hg.range _ w hw
          have h0 := k2 w hwn
          have hne : w ≠ start := by rintro rfl; exact hg.loopless _ hw
          have hd : IsDist (rowRel L) (· = start) w 1 := by
            refine ⟨⟨start, rfl, Walk.single hw⟩, ?_⟩
            rintro j hj s rfl hww
            have : j = 0 := by omega
            subst this
            exact hne (Eq.symm (show _ = w from hww))
          rw [lvl_of_dist hd] at h0
          omega
        · exact h
  · intro hf
    simp only at hf ⊢
    subst hf
    have := k1 rfl; cases this
    exact ⟨k2, k6 rfl⟩
  · cases found'
    · have h4 := k4 rfl
      have hrow := row_length_le hg p'
      have hmd' : md' < L.length ∨ md' = sizeMax := by rw [← h4.1]; exact lvl_cases hg hlt
      simp only [pmeas, Bool.false_eq_true, if_false]
      rcases k5 rfl with h5 | ⟨h5, h6⟩
      · have hrk : rankMd L.length md' + 1 ≤ rankMd L.length md := by
          unfold rankMd
          split <;> split <;> omega
        have := Nat.mul_le_mul_right (L.length + 2) hrk
        rw [Nat.add_mul] at this
        omega
      · subst h5; omega
    · simp [pmeas]

theorem pseudoPeripheral_ok {g : Graph} {L : List (List Nat)} (hr : g.Rep L) (hg : Good false L)
    (hn : L.length < sizeMax) {start : Nat} (hs : start < L.length) :
    ∃ p, g.pseudoPeripheral start = .ok p ∧ p < L.length ∧
      ((row L start).length = 0 → p = start) ∧
      ((row L start).length ≠ 0 → ∃ md,
        (∀ v, v < L.length → lvl L start v ≤ md) ∧ (∀ v, v < L.length → lvl L p v ≤ md) ∧
        (∃ q, q < L.length ∧ lvl L p q = md ∧ ∀ v, v < L.length → lvl L q v ≤ md) ∧
        ∀ v, v < L.length → lvl L p v = md → (row L p).length ≤ (row L v).length) := by
  unfold pseudoPeripheral
  rw [hr.empty, decide_eq_false (by omega), hr.sizeVertex]
  simp only [Bool.not_false, assert_true, hs, decide_true, Out.ok_bind, hr.degree hs]
  by_cases hdeg : (row L start).length = 0
  · rw [if_pos (by simpa using hdeg)]
    exact ⟨start, rfl, hs, fun _ => rfl, fun h => absurd hdeg h⟩
  · rw [if_neg (by simpa using hdeg)]
    have hn1 : 1 < L.length := by
      obtain ⟨w, hw⟩ := List.exists_mem_of_length_pos (Nat.pos_of_ne_zero hdeg)
      have hwn := hg.range _ w hw
      have hne : w ≠ start := by rintro rfl; exact hg.loopless _ hw
      omega
    obtain ⟨⟨f, md, p⟩, h1, h2, h3⟩ := whileFuel_inv (cond := fun s : Bool × Nat × Nat => !s.1)
      (body := g.peripheralStep) (PInv L start) (pmeas L) (fuel := (L.length + 2) * (L.length + 2))
      (s := (false, 0, start))
      ⟨hs, .inl (by simp only; omega), .inl rfl, by simp⟩
      (by
        have := row_length_le hg start
        have hrk : rankMd L.length 0 ≤ L.length := by unfold rankMd; split <;> omega
        have := Nat.mul_le_mul_right (L.length + 2) hrk
        simp only [pmeas, Bool.false_eq_true, if_false]
        have e : (L.length + 2) * (L.length + 2) = L.length * (L.length + 2) + 2 * (L.length + 2) := by ring
        omega)
      (fun s hs hc => peripheralStep_ok hr hg hn1 hn hdeg hs hc)
    have hf : f = true := by simpa using h3
    subst hf
    obtain ⟨i1, i2, i3, i4⟩ := h2
    simp only at i1 i2 i3 i4
    refine ⟨p, by simp [h1], i1, fun h => absurd h hdeg, fun _ => ⟨md, ?_, (i4 trivial).1, ?_, (i4 trivial).2⟩⟩
    · rcases i3 with h | h
      · cases h
      · exact h.1
    · rcases i3 with h | ⟨_, q, hq, hl, hall⟩
      · cases h
      · exact ⟨q, hq, by rw [lvl_symm (hg.symm rfl)]; exact hl, hall⟩

end Graph
end Disa
