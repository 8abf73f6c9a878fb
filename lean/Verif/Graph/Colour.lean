import Verif.Graph.Numbering

/-! # Greedy multicolouring -/

namespace Disa
open Spec
namespace Graph

theorem pick_spec (h : Nat) (t : List Nat) (hs : (h :: t).Pairwise (· ≤ ·)) :
    let r := (gap (h :: t)).getD ((h :: t).getLastD 0 + 1)
    h < r ∧ r ∉ h :: t ∧ ∀ c, h < c → c ∉ h :: t → r ≤ c := by
  induction t generalizing h with
  | nil => simp [gap]; intro c hc _; omega
  | cons b l ih =>
    have hs' := List.pairwise_cons.mp hs
    have hhb : h ≤ b := hs'.1 b (by simp)
    by_cases hg : h ≠ b ∧ h + 1 ≠ b
    · have : gap (h :: b :: l) = some (h + 1) := by simp only [gap]; rw [if_pos hg]
      simp only [this, Option.getD_some]
      refine ⟨by omega, ?_, fun c hc _ => by omega⟩
      intro hm
      rcases List.mem_cons.mp hm with h1 | h1
      · omega
      · rcases List.mem_cons.mp h1 with h2 | h2
        · exact hg.2 h2
        · have := (List.pairwise_cons.mp hs'.2).1 _ h2
          omega
    · have : gap (h :: b :: l) = gap (b :: l) := by simp only [gap]; rw [if_neg hg]
      have hl : (h :: b :: l).getLastD 0 = (b :: l).getLastD 0 := by simp
      obtain ⟨i1, i2, i3⟩ := ih b hs'.2
      simp only [this, hl]
      have hb1 : b ≤ h + 1 := by
        by_contra hc
        exact hg ⟨by omega, by omega⟩
      refine ⟨by omega, ?_, ?_⟩
      · intro hm
        rcases List.mem_cons.mp hm with h1 | h1
        · omega
        · exact i2 h1
      · intro c hc hcn
        simp only [List.mem_cons, not_or] at hcn
        apply i3 c (by omega)
        simp only [List.mem_cons, not_or]
        exact hcn.2

/-- Invariant of the colouring loop. -/
structure ColInv (L : List (List Nat)) (i : Nat) (s : List Nat × Nat) : Prop where
  len : s.1.length = L.length
  zero : ∀ v, i ≤ v → v < L.length → s.1[v]? = some 0
  pos : ∀ v, v < i → v < L.length → 0 < s.1.getD v 0
  rule : ∀ v, v < i → v < L.length → GreedyRule (rowRel L) (fun u => s.1.getD u 0) v
  bound : ∀ v, v < i → v < L.length → s.1.getD v 0 ≤ max s.2 1
  edge : (∃ u v, u < v ∧ v < i ∧ u ∈ row L v) → 1 < s.2
  noedge : (¬ ∃ u v, u < v ∧ v < i ∧ u ∈ row L v) → s.2 = 0

theorem colourStep_ok {d : Bool} {g : Graph} {L : List (List Nat)} (hr : g.Rep L) (hg : Good d L) {i : Nat}
    (hi : i < L.length) {s : List Nat × Nat} (h : ColInv L i s) :
    ∃ s', g.colourStep i s = .ok s' ∧ ColInv L (i + 1) s' := by
  obtain ⟨col, mc⟩ := s
  obtain ⟨h1, h2, h3, h4, h5, h6, h7⟩ := h
  simp only at h1 h2 h3 h4 h5 h6 h7
  have hmap : mapOut (fun v => rd col v) (row L i) = .ok ((row L i).map fun v => col.getD v 0) := by
    apply mapOut_ok
    intro v hv
    have hvl : v < col.length := by rw [h1]; exact hg.range i v hv
    rw [rd_ok hvl]
    simp [hvl]
  generalize hadj : (((row L i).map fun v => col.getD v 0).filter (· != 0)).insertionSort (· ≤ ·) = adj
  have hsorted : adj.Pairwise (· ≤ ·) := by rw [← hadj]; exact List.pairwise_insertionSort _ _
  have hmem : ∀ c, c ∈ adj ↔ ∃ u, u < i ∧ rowRel L i u ∧ col.getD u 0 = c := by
    intro c
    rw [← hadj, (List.perm_insertionSort _ _).mem_iff, List.mem_filter, List.mem_map]
    constructor
    · rintro ⟨⟨u, hu, rfl⟩, hne⟩
      refine ⟨u, ?_, hu, rfl⟩
      by_contra hc
      have hul := hg.range i u hu
      have := h2 u (by omega) hul
      simp [this] at hne
    · rintro ⟨u, hu, hue, rfl⟩
      have hul := hg.range i u hue
      have := h3 u hu hul
      exact ⟨⟨u, hue, rfl⟩, by
        rw [bne_iff_ne]; omega⟩
  have hset : ∀ (v : Nat), (col.set i (pickColour adj)).getD v 0 = if v = i then pickColour adj else col.getD v 0 := by
    intro v
    by_cases hv : v = i
    · subst hv; simp [h1, hi]
    · simp [List.getElem?_set, hv, Ne.symm hv]
  have hirow : ¬ rowRel L i i := hg.loopless i
  have hpick : (adj = [] → pickColour adj = 1) ∧ (adj ≠ [] → (∃ a ∈ adj, a < pickColour adj) ∧ pickColour adj ∉ adj ∧
      ∀ c, (∃ a ∈ adj, a < c) → c ∉ adj → pickColour adj ≤ c) := by
    constructor
    · rintro rfl; rfl
    · intro hne
      cases adj with
      | nil => exact absurd rfl hne
      | cons a t =>
        obtain ⟨p1, p2, p3⟩ := pick_spec a t hsorted
        refine ⟨⟨a, by simp, p1⟩, p2, ?_⟩
        rintro c ⟨b, hb, hbc⟩ hc
        apply p3 c _ hc
        rcases List.mem_cons.mp hb with rfl | hb
        · exact hbc
        · have := (List.pairwise_cons.mp hsorted).1 b hb
          omega
  have hpickpos : 0 < pickColour adj := by
    by_cases hne : adj = []
    · rw [hpick.1 hne]; omega
    · obtain ⟨a, _, ha⟩ := (hpick.2 hne).1; omega
  have hpick2 : adj ≠ [] → 1 < pickColour adj := by
    intro hne
    obtain ⟨a, ha, hlt⟩ := (hpick.2 hne).1
    obtain ⟨u, hu, hue, rfl⟩ := (hmem a).mp ha
    have := h3 u hu (hg.range i u hue)
    omega
  have hempty : adj = [] ↔ ∀ u, u < i → ¬ rowRel L i u := by
    constructor
    · rintro rfl u hu hue
      have := (hmem (col.getD u 0)).mpr ⟨u, hu, hue, rfl⟩
      simp at this
    · intro hno
      rw [List.eq_nil_iff_forall_not_mem]
      intro c hc
      obtain ⟨u, hu, hue, _⟩ := (hmem c).mp hc
      exact hno u hu hue
  have hwr := wr_ok (show i < col.length by omega) (a := pickColour adj)
  refine ⟨(col.set i (pickColour adj), if adj.isEmpty then mc else max mc (pickColour adj)), ?_, by simpa using h1, ?_, ?_, ?_,
    ?_, ?_, ?_⟩
  · unfold colourStep
    simp only [hr.nbrs hi, Out.ok_bind, hmap, hadj, hwr, Out.pure_eq]
  · intro v hv hvl
    simp only
    rw [List.getElem?_set_ne (by omega)]
    exact h2 v (by omega) hvl
  · intro v hv hvl
    simp only [hset]
    by_cases hvi : v = i
    · rw [if_pos hvi]; exact hpickpos
    · rw [if_neg hvi]; exact h3 v (by omega) hvl
  · intro v hv hvl
    simp only
    by_cases hvi : v = i
    · subst hvi
      have hlow : ∀ u, u < v → (col.set v (pickColour adj)).getD u 0 = col.getD u 0 := by
        intro u hu; rw [hset, if_neg (by omega)]
      have hself : (col.set v (pickColour adj)).getD v 0 = pickColour adj := by rw [hset, if_pos rfl]
      refine ⟨?_, ?_⟩
      · intro hno
        simp only
        rw [hself]
        exact hpick.1 (hempty.mpr hno)
      · rintro ⟨u0, hu0, hue0⟩
        have hne : adj ≠ [] := fun h => hempty.mp h u0 hu0 hue0
        obtain ⟨p1, p2, p3⟩ := hpick.2 hne
        simp only [hself]
        refine ⟨?_, ?_, ?_⟩
        · obtain ⟨a, ha, hlt⟩ := p1
          obtain ⟨u, hu, hue, rfl⟩ := (hmem a).mp ha
          exact ⟨u, hu, hue, by rw [hlow u hu]; exact hlt⟩
        · intro u hu hue he
          rw [hlow u hu] at he
          exact p2 ((hmem _).mpr ⟨u, hu, hue, he⟩)
        · rintro c ⟨u, hu, hue, hlt⟩ hnc
          rw [hlow u hu] at hlt
          apply p3 c ⟨_, (hmem _).mpr ⟨u, hu, hue, rfl⟩, hlt⟩
          intro hc
          obtain ⟨w, hw, hwe, he⟩ := (hmem c).mp hc
          exact hnc w hw hwe (by rw [hlow w hw]; exact he)
    · have hlow : ∀ u, u ≤ v → (col.set i (pickColour adj)).getD u 0 = col.getD u 0 := by
        intro u hu; rw [hset, if_neg (by omega)]
      obtain ⟨r1, r2⟩ := h4 v (by omega) hvl
      refine ⟨fun hno => by simp only; rw [hlow v (by omega)]; exact r1 hno, ?_⟩
      intro hex
      obtain ⟨q1, q2, q3⟩ := r2 hex
      simp only
      rw [hlow v (by omega)]
      refine ⟨?_, ?_, ?_⟩
      · obtain ⟨u, hu, hue, hlt⟩ := q1
        exact ⟨u, hu, hue, by rw [hlow u (by omega)]; exact hlt⟩
      · intro u hu hue
        rw [hlow u (by omega)]; exact q2 u hu hue
      · rintro c ⟨u, hu, hue, hlt⟩ hnc
        rw [hlow u (by omega)] at hlt
        apply q3 c ⟨u, hu, hue, hlt⟩
        intro w hw hwe
        have := hnc w hw hwe
        rw [hlow w (by omega)] at this; exact this
  · intro v hv hvl
    simp only [hset]
    by_cases hvi : v = i
    · rw [if_pos hvi]
      by_cases hne : adj = []
      · rw [hpick.1 hne]; omega
      · have : adj.isEmpty = false := by cases adj with
          | nil => exact absurd rfl hne
          | cons => rfl
        simp only [this, Bool.false_eq_true, if_false]; omega
    · rw [if_neg hvi]
      have := h5 v (by omega) hvl
      split <;> omega
  · rintro ⟨u, v, huv, hv, hue⟩
    simp only
    by_cases hvi : v = i
    · subst hvi
      have hne : adj ≠ [] := fun h => hempty.mp h u huv hue
      have he : adj.isEmpty = false := by cases adj with
          | nil => exact absurd rfl hne
          | cons => rfl
      have := hpick2 hne
      simp only [he, Bool.false_eq_true, if_false]; omega
    · have := h6 ⟨u, v, huv, by omega, hue⟩
      split <;> omega
  · intro hno
    have he : adj = [] := by
      rw [hempty]
      intro u hu hue
      exact hno ⟨u, i, hu, by omega, hue⟩
    subst he
    simp only [List.isEmpty_nil, if_true]
    apply h7
    rintro ⟨u, v, huv, hv, hue⟩
    exact hno ⟨u, v, huv, by omega, hue⟩

/-! ### Numbering by colour -/

/-- Vertices of colour `c` below `i`. -/
def withColour (col : List Nat) (c i : Nat) : List Nat := (List.range i).filter fun v => col.getD v 0 == c

theorem number_loop {col : List Nat} {c : Nat} {out : List Nat} {s : List Nat × Nat}
    (hout : ∀ v ∈ out, v < col.length ∧ col.getD v 0 < c) (hlen : s.1.length = col.length) (hk : s.2 = out.length)
    (hinv : ∀ (i v : Nat), out[i]? = some v → s.1[v]? = some i) :
    ∃ s', loop col.length (numberStep col c) s = .ok s' ∧ s'.1.length = col.length ∧
      s'.2 = (out ++ withColour col c col.length).length ∧
      ∀ (i v : Nat), (out ++ withColour col c col.length)[i]? = some v → s'.1[v]? = some i := by
  apply loop_inv (I := fun (j : Nat) (s' : List Nat × Nat) => s'.1.length = col.length ∧
      s'.2 = (out ++ withColour col c j).length ∧
      ∀ (i v : Nat), (out ++ withColour col c j)[i]? = some v → s'.1[v]? = some i)
  · refine ⟨hlen, by simp [withColour, hk], by simpa [withColour] using hinv⟩
  · rintro j ⟨p, k⟩ hj ⟨a1, a2, a3⟩
    simp only at a1 a2 a3
    unfold numberStep
    have hrd : rd col j = .ok (col.getD j 0) := by simp [rd_ok hj, hj]
    simp only [hrd, Out.ok_bind]
    have hstep : withColour col c (j + 1) = withColour col c j ++ (if col.getD j 0 == c then [j] else []) := by
      unfold withColour
      rw [List.range_succ, List.filter_append]
      congr 1
      split <;> rename_i h
      · exact List.filter_cons_of_pos h
      · exact List.filter_cons_of_neg h
    by_cases hc : (col.getD j 0 == c) = true
    · rw [if_pos hc] at hstep ⊢
      have hw : wr p j k = .ok (p.set j k) := wr_ok (by omega)
      refine ⟨(p.set j k, k + 1), by simp [hw], by simpa using a1, by rw [hstep]; simp [a2]; omega, ?_⟩
      intro i v hiv
      simp only
      rw [hstep, ← List.append_assoc] at hiv
      by_cases hil : i < (out ++ withColour col c j).length
      · rw [List.getElem?_append_left hil] at hiv
        have hne : j ≠ v := by
          rintro rfl
          rcases List.mem_append.mp (List.mem_of_getElem? hiv) with h | h
          · have := (hout j h).2
            have := beq_iff_eq.mp hc
            omega
          · unfold withColour at h
            have := List.mem_range.mp (List.mem_filter.mp h).1
            omega
        rw [List.getElem?_set_ne hne]
        exact a3 i v hiv
      · rw [List.getElem?_append_right (by omega)] at hiv
        have hi0 : i - (out ++ withColour col c j).length = 0 := by
          have := (List.getElem?_eq_some_iff.mp hiv).1
          simp only [List.length_singleton] at this; omega
        rw [hi0] at hiv
        simp at hiv
        subst hiv
        have : i = k := by omega
        rw [List.getElem?_set_self (by omega), this]
    · rw [if_neg hc] at hstep ⊢
      rw [List.append_nil] at hstep
      exact ⟨(p, k), rfl, a1, by rw [hstep]; exact a2, by rw [hstep]; exact a3⟩

/-- All vertices by colour. -/
def byColour (col : List Nat) (m : Nat) : List Nat := (List.range m).flatMap fun c => withColour col c col.length

theorem mem_byColour {col : List Nat} {m v : Nat} : v ∈ byColour col m ↔ v < col.length ∧ col.getD v 0 < m := by
  unfold byColour withColour
  simp only [List.mem_flatMap, List.mem_range, List.mem_filter, beq_iff_eq]
  constructor
  · rintro ⟨c, hc, h1, h2⟩; exact ⟨h1, by omega⟩
  · rintro ⟨h1, h2⟩; exact ⟨_, h2, h1, rfl⟩

theorem byColour_succ (col : List Nat) (m : Nat) : byColour col (m + 1) = byColour col m ++ withColour col m col.length := by
  unfold byColour
  rw [List.range_succ, List.flatMap_append]
  simp

theorem byColour_sorted (col : List Nat) (m : Nat) :
    (byColour col m).Pairwise fun u v => col.getD u 0 < col.getD v 0 ∨ (col.getD u 0 = col.getD v 0 ∧ u < v) := by
  induction m with
  | zero => simp [byColour]
  | succ m ih =>
    rw [byColour_succ, List.pairwise_append]
    refine ⟨ih, ?_, ?_⟩
    · have h : (withColour col m col.length).Pairwise (· < ·) := List.Pairwise.filter _ List.pairwise_lt_range
      apply List.Pairwise.imp_of_mem _ h
      intro a b ha hb hab
      unfold withColour at ha hb
      have h1 := beq_iff_eq.mp (List.mem_filter.mp ha).2
      have h2 := beq_iff_eq.mp (List.mem_filter.mp hb).2
      exact .inr ⟨by rw [h1, h2], hab⟩
    · intro a ha b hb
      have h1 := (mem_byColour.mp ha).2
      unfold withColour at hb
      have h2 := beq_iff_eq.mp (List.mem_filter.mp hb).2
      exact .inl (by omega)

theorem number_all {col : List Nat} (m : Nat) :
    ∃ s', loop m (fun c t => loop col.length (numberStep col c) t) (List.replicate col.length 0, 0) = .ok s' ∧
      s'.1.length = col.length ∧ ∀ (i v : Nat), (byColour col m)[i]? = some v → s'.1[v]? = some i := by
  obtain ⟨s', h1, h2, _, h3⟩ := loop_inv (body := fun c t => loop col.length (numberStep col c) t)
    (fun c s => s.1.length = col.length ∧ s.2 = (byColour col c).length ∧
      ∀ (i v : Nat), (byColour col c)[i]? = some v → s.1[v]? = some i) (n := m) (s := (List.replicate col.length 0, 0))
    ⟨by simp, by simp [byColour], by simp [byColour]⟩
    (by
      rintro c s hc ⟨a1, a2, a3⟩
      obtain ⟨s', b1, b2, b3, b4⟩ := number_loop (c := c) (out := byColour col c) (s := s)
        (fun v hv => mem_byColour.mp hv) a1 a2 a3
      exact ⟨s', b1, b2, by rw [byColour_succ]; exact b3, by rw [byColour_succ]; exact b4⟩)
  exact ⟨s', h1, h2, h3⟩

theorem greedy_ok {g : Graph} {L : List (List Nat)} (hr : g.Rep L) (hg : Good false L)
    (hedge : ∃ u v, v ∈ row L u) :
    ∃ p col, g.greedyMulticolouring = .ok p ∧ IsPerm p L.length ∧
      (∀ v, v < L.length → GreedyRule (rowRel L) col v) ∧ OrdersBy L.length col p := by
  obtain ⟨a, b, hab⟩ := hedge
  have hal := lt_of_mem_row hab
  have hbl := hg.range a b hab
  obtain ⟨⟨col, mc⟩, h1, h2⟩ := loop_inv (body := g.colourStep) (ColInv L) (n := L.length) (s := (List.replicate L.length 0, 0))
    ⟨by simp, by intro v _ hv; simp [List.getElem?_replicate, hv], by intro v hv; omega, by intro v hv; omega,
      by intro v hv; omega, by rintro ⟨u, v, _, hv, _⟩; omega, fun _ => rfl⟩
    (fun i s hi hs => colourStep_ok hr hg hi hs)
  obtain ⟨c1, c2, c3, c4, c5, c6, c7⟩ := h2
  simp only at c1 c2 c3 c4 c5 c6 c7
  have hmc : 1 < mc := by
    apply c6
    rcases Nat.lt_trichotomy a b with h | h | h
    · exact ⟨a, b, h, hbl, hg.symm rfl a b hab⟩
    · subst h; exact absurd hab (hg.loopless a)
    · exact ⟨b, a, h, hal, hab⟩
  obtain ⟨⟨p, k⟩, n1, n2, n3⟩ := number_all (col := col) (mc + 1)
  simp only at n2 n3
  have hall : ∀ v, v ∈ byColour col (mc + 1) ↔ v < L.length := by
    intro v
    rw [mem_byColour, c1]
    constructor
    · exact fun h => h.1
    · intro h
      have := c5 v h h
      exact ⟨h, by omega⟩
  have hnd : (byColour col (mc + 1)).Nodup := by
    apply (byColour_sorted col (mc + 1)).imp
    intro u v huv
    rcases huv with h | ⟨_, h⟩
    · rintro rfl; omega
    · omega
  have hlen : (byColour col (mc + 1)).length = L.length := by
    have : (byColour col (mc + 1)).Perm (List.range L.length) :=
      (List.perm_ext_iff_of_nodup hnd List.nodup_range).mpr (fun v => by rw [hall, List.mem_range])
    simpa using this.length_eq
  obtain ⟨hP, hop, hinv⟩ := isPerm_of_inv (n := L.length) (by omega) hlen hnd (fun v hv => (hall v).mp hv) n3
  refine ⟨p, fun v => col.getD v 0, ?_, hP, fun v hv => c4 v hv hv, ?_⟩
  · unfold greedyMulticolouring
    rw [hr.empty, decide_eq_false (by omega), hr.sizeVertex]
    rw [c1] at n1
    simp only [Bool.false_eq_true, if_false, h1, Out.ok_bind, c1, n1, Out.pure_eq]
  · have hlt : ∀ (u v a b : Nat), p[u]? = some a → p[v]? = some b → a < b →
        col.getD u 0 < col.getD v 0 ∨ (col.getD u 0 = col.getD v 0 ∧ u < v) := by
      intro u v a b hu hv hab
      obtain ⟨ha, hau⟩ := List.getElem?_eq_some_iff.mp (hinv u a hu)
      obtain ⟨hb, hbv⟩ := List.getElem?_eq_some_iff.mp (hinv v b hv)
      have := List.pairwise_iff_getElem.mp (byColour_sorted col (mc + 1)) a b ha hb hab
      rw [hau, hbv] at this
      exact this
    intro u v a b hul hvl hu hv
    constructor
    · exact hlt u v a b hu hv
    · intro hc
      simp only at hc
      rcases Nat.lt_trichotomy a b with h | h | h
      · exact h
      · subst h
        have h1 := hinv u a hu
        rw [hinv v a hv] at h1
        have := Option.some.inj h1
        subst this
        omega
      · have := hlt v u b a hv hu h
        omega

theorem greedy_edgeless {g : Graph} {L : List (List Nat)} (hr : g.Rep L) (hg : Good false L)
    (hno : ∀ i, row L i = []) :
    g.greedyMulticolouring = .ok (List.replicate L.length 0) := by
  by_cases hn0 : L.length = 0
  · unfold greedyMulticolouring
    rw [hr.empty, decide_eq_true hn0, hn0]
    rfl
  obtain ⟨⟨col, mc⟩, h1, h2⟩ := loop_inv (body := g.colourStep) (ColInv L) (n := L.length) (s := (List.replicate L.length 0, 0))
    ⟨by simp, by intro v _ hv; simp [List.getElem?_replicate, hv], by intro v hv; omega, by intro v hv; omega,
      by intro v hv; omega, by rintro ⟨u, v, _, hv, _⟩; omega, fun _ => rfl⟩
    (fun i s hi hs => colourStep_ok hr hg hi hs)
  obtain ⟨c1, c2, c3, c4, c5, c6, c7⟩ := h2
  simp only at c1 c2 c3 c4 c5 c6 c7
  have hmc : mc = 0 := by
    apply c7
    rintro ⟨u, v, _, _, h⟩
    rw [hno v] at h; simp at h
  subst hmc
  have hstay : loop col.length (numberStep col 0) (List.replicate L.length 0, 0) = .ok (List.replicate L.length 0, 0) := by
    obtain ⟨s', e1, e2⟩ := loop_inv (body := numberStep col 0) (fun _ s => s = (List.replicate L.length 0, 0)) (n := col.length)
      (s := (List.replicate L.length 0, 0)) rfl
      (by
        rintro i s hi rfl
        have hrd : rd col i = .ok (col.getD i 0) := by simp [rd_ok hi, hi]
        have hp := c3 i (by omega) (by omega)
        have hne : (col.getD i 0 == 0) = false := by
          have : col.getD i 0 ≠ 0 := by omega
          simpa only [beq_eq_false_iff_ne]
        unfold numberStep
        simp only [hrd, Out.ok_bind, hne, Bool.false_eq_true, if_false]
        exact ⟨_, rfl, rfl⟩)
    rw [e1, e2]
  unfold greedyMulticolouring
  rw [hr.empty, decide_eq_false hn0, hr.sizeVertex]
  simp only [Bool.false_eq_true, if_false, h1, Out.ok_bind, Out.pure_eq]
  simp only [loop, Out.ok_bind, hstay]

end Graph
end Disa
