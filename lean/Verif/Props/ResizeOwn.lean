import Verif.Graph.ResizeOwn
import Verif.Graph.Reach
import Verif.Graph.Resize

/-!
# Property C163: resizing a graph to one of its own entries
-/

namespace Disa.Props

open Disa Spec Graph

/-- The claim: resizing to an entry of one of the graph's own rows is resizing to the value of the entry. -/
def C163 : Prop := ∀ (d : Bool) (g : Graph) (i k s : Nat) (r : List Nat), Reachable d g → g.nbrs i = .ok r →
  r[k]? = some s → resizeOwn false g i k = g.resize false s

/-- C163 is false: the triangle resized to the second entry of row 0, which is 2, keeps the entry 1 of row 0 and loses the
entry 0 of row 1. -/
theorem c163_violated : ¬ C163 := by
  intro h
  have := h false ⟨[1, 2, 0, 2, 0, 1], [0, 2, 4, 6]⟩ 0 1 2 [1, 2]
    ⟨[.insert (0, 1), .insert (0, 2), .insert (1, 2)], by simp [Op.Valid, sizeMax], by decide⟩ (by decide) (by decide)
  revert this
  decide

theorem c163_asymmetric : ∃ g', resizeOwn false ⟨[1, 2, 0, 2, 0, 1], [0, 2, 4, 6]⟩ 0 1 = .ok g' ∧ Adj g' 0 1 ∧ ¬ Adj g' 1 0 := by
  refine ⟨⟨[1], [0, 1, 1]⟩, by decide, ⟨[1], by decide, by decide⟩, ?_⟩
  rintro ⟨r, hr, hm⟩
  have : Graph.nbrs ⟨[1], [0, 1, 1]⟩ 1 = .ok [] := by decide
  rw [this] at hr
  simp only [Out.ok.injEq] at hr
  subst hr
  cases hm

/-- The body of the loop depends on the size only through the position it finds in the row. -/
theorem resizeBody_congr {strict : Bool} {x y v b e : Nat} {st : List Nat × List Nat × Nat} {r : List Nat}
    (h1 : adjIter ⟨st.2.1, st.1⟩ v = .ok (b, e)) (h2 : slice st.2.1 b e = .ok r)
    (h3 : lowerBound r x = lowerBound r y) : resizeBody strict x v st = resizeBody strict y v st := by
  unfold resizeBody resizeTrim
  simp only [h1, Out.ok_bind, h2, h3]

/-- The loop of `resizeOwn` with an entry of row `i` runs like that of `resize` with the entry up to row `i` and with zero
after. -/
theorem own_loop {L : List (List Nat)} {i k s : Nat} (hs : ∀ u, (row L u).Pairwise (· < ·)) (hlen : L.length = s)
    (hi : i < s) (hk : (row L i)[k]? = some s) (hbefore : ∀ u, u < i → ∀ w ∈ row L u, w < s) :
    ∃ st, loop s (ownBody false (psum L i + k)) (offs L, L.flatten, 0) = .ok st ∧
      ResizeInv (fun v => if v ≤ i then s else 0) L s st := by
  set n : Nat → Nat := fun v => if v ≤ i then s else 0 with hn
  have hkl : k < (row L i).length := (List.getElem?_eq_some_iff.mp hk).1
  -- the part of row i below s
  have hrowi : ((row L i).takeWhile (· < s)).length = k := by
    have hdw : (row L i).takeWhile (· < s) = (row L i).filter (· < s) := takeWhile_lt_eq_filter (hs i) s
    have hsplit : row L i = (row L i).take k ++ (row L i).drop k := (List.take_append_drop _ _).symm
    have hpw := hs i
    have hget : (row L i)[k] = s := (List.getElem?_eq_some_iff.mp hk).2
    rw [hdw]
    conv => lhs; rw [hsplit]
    rw [List.filter_append, List.length_append]
    have e1 : ((row L i).take k).filter (· < s) = (row L i).take k := by
      rw [List.filter_eq_self]
      intro x hx
      obtain ⟨j, hj, rfl⟩ := List.mem_take_iff_getElem.mp hx
      have := List.pairwise_iff_getElem.mp hpw j k (by omega) hkl (by omega)
      simp; omega
    have e2 : ((row L i).drop k).filter (· < s) = [] := by
      rw [List.filter_eq_nil_iff]
      intro x hx
      obtain ⟨j, hj, rfl⟩ := List.mem_drop_iff_getElem.mp hx
      by_cases hj0 : j = 0
      · subst hj0; simp [hget]
      · have := List.pairwise_iff_getElem.mp hpw k (k + j) hkl (by omega) (by omega)
        simp; omega
    rw [e1, e2]
    simp; omega
  have htrim : ∀ v, v ≤ i → trimTo n L v = L := by
    intro v hv
    apply rows_ext (by simp)
    intro u
    rw [row_trimTo]
    split
    · have : n u = s := by simp [hn]; omega
      rw [this, takeWhile_lt_eq_filter (hs u), List.filter_eq_self]
      intro w hw
      simpa using hbefore u (by omega) w hw
    · rfl
  have hpsum : ∀ v, i < v → v ≤ s → psum (trimTo n L v) v = psum L i + k := by
    intro v hv hvs
    induction v, hv using Nat.le_induction with
    | base =>
      rw [psum_succ _ (by simp; omega), trimTo_getElem, if_pos (by omega), ← row_of_lt (by omega),
        psum_trimTo_succ_before n L (by omega) (by omega), htrim i (by omega)]
      have : n i = s := by simp [hn]
      rw [this, hrowi]
    | succ v hv ih =>
      rw [psum_succ _ (by simp; omega), trimTo_getElem, if_pos (by omega), ← row_of_lt (by omega),
        psum_trimTo_succ_before n L (by omega) (by omega), ih (by omega)]
      have : n v = 0 := by simp [hn]; omega
      rw [this, takeWhile_lt_eq_filter (hs v)]
      simp
  apply loop_inv (body := ownBody false (psum L i + k)) (fun v st => ResizeInv n L v st)
    ⟨by simp [trimTo_zero], by simp, by simp, fun j hj => by rw [trimTo_zero]; simp [offs_getElem? _ hj]⟩
  intro v st hv hI
  have hvt : v < (trimTo n L v).length := by simp; omega
  have hrow : row (trimTo n L v) v = row L v := by rw [row_trimTo]; simp
  have r1 : rd st.1 v = .ok (psum (trimTo n L v) v) := rd_of_some (by rw [hI.off v (by omega), if_pos (by omega)])
  have r2 : rd st.1 (v + 1) = .ok (psum (trimTo n L v) (v + 1)) :=
    rd_of_some (by rw [hI.off (v + 1) (by omega), if_pos (by omega)])
  have hsl := slice_row (trimTo n L v) hvt
  have hps := psum_succ (trimTo n L v) hvt
  rw [← row_of_lt hvt, hrow] at hsl hps
  have hit : adjIter ⟨st.2.1, st.1⟩ v = .ok (psum (trimTo n L v) v, psum (trimTo n L v) (v + 1)) := by
    simp [Graph.adjIter, r1, r2]
  rw [← hI.adj] at hsl
  obtain ⟨st', h1, h2⟩ := resizeBody_ok hs hI (by omega) false (by simp)
  refine ⟨st', ?_, h2⟩
  rw [← h1]
  unfold ownBody ownSize
  simp only [hit, Out.ok_bind]
  by_cases he : row L v = []
  · rw [he] at hps
    have : psum (trimTo n L v) v = psum (trimTo n L v) (v + 1) := by simpa using hps.symm
    rw [if_pos (by simpa using this), Out.ok_bind]
    apply resizeBody_congr hit hsl
    rw [he, lowerBound_ok .nil, lowerBound_ok .nil]
    simp
  · have hpos : 0 < (row L v).length := List.length_pos_iff.mpr he
    rw [if_neg (by simp; omega)]
    by_cases hvi : v ≤ i
    · have hnv : n v = s := by simp [hn, hvi]
      have hx : rd st.2.1 (psum L i + k) = .ok s := by
        rw [hI.adj, htrim v hvi]
        apply rd_of_some
        have hsl2 := slice_row L (show i < L.length by omega)
        rw [← row_of_lt (show i < L.length by omega)] at hsl2
        have hps2 := psum_succ L (show i < L.length by omega)
        rw [← row_of_lt (show i < L.length by omega)] at hps2
        unfold slice at hsl2
        split at hsl2
        · simp only [Out.ok.injEq] at hsl2
          rw [← hk, ← hsl2]
          rw [List.getElem?_take, if_pos (by omega), List.getElem?_drop]
        · cases hsl2
      rw [hx, Out.ok_bind, hnv]
    · have hnv : n v = 0 := by simp [hn]; omega
      obtain ⟨x, t, hxt⟩ : ∃ x t, row L v = x :: t := by
        cases h : row L v with
        | nil => exact absurd h he
        | cons x t => exact ⟨x, t, rfl⟩
      have hx : rd st.2.1 (psum L i + k) = .ok x := by
        apply rd_of_some
        rw [← hpsum v (by omega) (by omega)]
        unfold slice at hsl
        split at hsl
        · simp only [Out.ok.injEq] at hsl
          have : (row L v)[0]? = some x := by rw [hxt]; rfl
          rw [← this, ← hsl, List.getElem?_take, if_pos (by omega), List.getElem?_drop, Nat.add_zero]
        · cases hsl
      rw [hx, Out.ok_bind, hnv]
      apply resizeBody_congr hit hsl
      rw [lowerBound_ok (hs v), lowerBound_ok (hs v), hxt]
      simp

/-- The rows which are left: those before row `i`, the entries of row `i` before the one given, and empty rows. -/
theorem own_rows {d : Bool} {g : Graph} {L : List (List Nat)} (hL : g.Rep L) (hG : Good d L) {i k s : Nat}
    (hk : (row L i)[k]? = some s) (hi : i < s) (hbefore : ∀ u, u < i → ∀ w ∈ row L u, w < s) :
    ∃ g' M, resizeOwn false g i k = .ok g' ∧ g'.Rep M ∧ M.length = s ∧
      ∀ u, u < s → row M u = (row L u).filter (· < if u ≤ i then s else 0) := by
  have hmem : s ∈ row L i := List.mem_of_getElem? hk
  have hsl := hG.range i s hmem
  have hiL := lt_of_mem_row hmem
  have hlen : (L.take s).length = s := by simp; omega
  have hrow : ∀ u, u < s → row (L.take s) u = row L u := by
    intro u hu
    rw [row_of_lt (by omega), List.getElem_take, ← row_of_lt (by omega)]
  have hsorted : ∀ u, (row (L.take s) u).Pairwise (· < ·) := by
    intro u
    by_cases hu : u < s
    · rw [hrow u hu]; exact hG.sorted u
    · rw [row_of_ge (by omega)]; exact List.Pairwise.nil
  obtain ⟨st, hloop, hI⟩ := own_loop (L := L.take s) (i := i) (k := k) hsorted hlen hi (by rw [hrow i hi]; exact hk)
    (fun u hu w hw => hbefore u hu w (by rwa [hrow u (by omega)] at hw))
  obtain ⟨off, adj, carry⟩ := st
  have hpsi : psum (L.take s) i = psum L i := by unfold psum; rw [List.take_take, Nat.min_eq_left (by omega)]
  rw [hpsi] at hloop
  refine ⟨⟨adj, off⟩, trimTo (fun v => if v ≤ i then s else 0) (L.take s) s, ?_, ⟨hI.adj, .inl ?_⟩, by simp; omega, ?_⟩
  · obtain ⟨e1, e2⟩ := resize_setup hL (show s ≤ L.length by omega)
    have ho := hL.off (by rintro rfl; simp at hiL)
    have r0 : rd g.off i = .ok (psum L i) := rd_of_some (by rw [ho, offs_getElem? _ (by omega)])
    have r1 : rd g.adj (psum L i + k) = .ok s := by
      rw [hL.1]
      apply rd_of_some
      have hsl2 := slice_row L hiL
      have hps2 := psum_succ L hiL
      rw [← row_of_lt hiL] at hsl2 hps2
      have hkl : k < (row L i).length := (List.getElem?_eq_some_iff.mp hk).1
      unfold slice at hsl2
      split at hsl2
      · simp only [Out.ok.injEq] at hsl2
        rw [← hk, ← hsl2, List.getElem?_take, if_pos (by omega), List.getElem?_drop]
      · cases hsl2
    have hsv : (⟨resizeList g.adj (psum L s) 0, offs (L.take s)⟩ : Graph).sizeVertex = s := by
      rw [Rep.sizeVertex (L := L.take s) ⟨e2, .inl rfl⟩, hlen]
    have rb : rd (offs (L.take s)) ((offs (L.take s)).length - 1) = .ok (psum L s) := by
      apply rd_of_some
      rw [offs_length, Nat.add_sub_cancel, offs_getElem? _ (Nat.le_refl _), hlen]
      unfold psum; rw [List.take_take, Nat.min_self]
    unfold resizeOwn
    simp only [r0, Out.ok_bind, r1]
    rw [if_neg (by rw [hL.sizeVertex]; omega)]
    simp only [e1, rb, Out.ok_bind, hsv, e2] at hsv ⊢
    simp only [hsv, hloop, Out.ok_bind, Out.pure_eq]
  · rw [offs_eq_iff]
    refine ⟨by simp [hI.len], ?_⟩
    intro j hj
    have hj' : j ≤ (L.take s).length := by simpa using hj
    have := hI.off j hj'
    simp only [] at this ⊢
    rw [this, if_pos (by omega)]
  · intro u hu
    rw [row_trimTo, if_pos hu, hrow u hu, takeWhile_lt_eq_filter (hG.sorted u)]

theorem filter_take {r : List Nat} (hr : r.Pairwise (· < ·)) {k s : Nat} (hk : r[k]? = some s) :
    r.filter (· < s) = r.take k := by
  obtain ⟨hkl, hget⟩ := List.getElem?_eq_some_iff.mp hk
  conv => lhs; rw [← List.take_append_drop k r]
  rw [List.filter_append]
  have e1 : (r.take k).filter (· < s) = r.take k := by
    rw [List.filter_eq_self]
    intro x hx
    obtain ⟨j, hj, rfl⟩ := List.mem_take_iff_getElem.mp hx
    have := List.pairwise_iff_getElem.mp hr j k (by omega) hkl (by omega)
    simp; omega
  have e2 : (r.drop k).filter (· < s) = [] := by
    rw [List.filter_eq_nil_iff]
    intro x hx
    obtain ⟨j, hj, rfl⟩ := List.mem_drop_iff_getElem.mp hx
    by_cases hj0 : j = 0
    · subst hj0; simp [hget]
    · have := List.pairwise_iff_getElem.mp hr k (k + j) hkl (by omega) (by omega)
      simp; omega
  rw [e1, e2, List.append_nil]

/-- C163, what happens: let `s` be entry `k` of row `i`, with `i < s`, and let no row before row `i` have an entry to
remove.  Then the rows before row `i` stay, row `i` keeps its first `k` entries, and all rows after it are emptied. -/
theorem c163_rows {d : Bool} {g : Graph} (hg : Reachable d g) {i k s : Nat} {r : List Nat} (hr : g.nbrs i = .ok r)
    (hk : r[k]? = some s) (hi : i < s) (hbefore : ∀ u w, u < i → Adj g u w → w < s) :
    ∃ g', resizeOwn false g i k = .ok g' ∧ g'.sizeVertex = s ∧ (∀ u, u < i → g'.nbrs u = g.nbrs u) ∧
      g'.nbrs i = .ok (r.take k) ∧ ∀ u, i < u → u < s → g'.nbrs u = .ok [] := by
  obtain ⟨L, hL, hG⟩ := reach_rep hg
  have hiL : i < L.length := by
    by_contra hc
    rw [hL.nbrs_exit (by omega)] at hr
    cases hr
  rw [hL.nbrs hiL] at hr
  simp only [Out.ok.injEq] at hr
  subst hr
  have hsl := hG.range i s (List.mem_of_getElem? hk)
  have hb : ∀ u, u < i → ∀ w ∈ row L u, w < s := fun u hu w hw =>
    hbefore u w hu ⟨row L u, hL.nbrs (by omega), hw⟩
  obtain ⟨g', M, h1, h2, h3, h4⟩ := own_rows hL hG hk hi hb
  refine ⟨g', h1, by rw [h2.sizeVertex, h3], ?_, ?_, ?_⟩
  · intro u hu
    rw [h2.nbrs (by omega), hL.nbrs (by omega), h4 u (by omega), if_pos (by omega)]
    congr 1
    rw [List.filter_eq_self]
    intro w hw
    simpa using hb u hu w hw
  · rw [h2.nbrs (by omega), h4 i hi, if_pos (Nat.le_refl _), filter_take (hG.sorted i) hk]
  · intro u hu hus
    rw [h2.nbrs (by omega), h4 u hus, if_neg (by omega)]
    simp

/-- C163, where it holds: if moreover the rows between row `i` and the new size have no entry to keep, the call is
`resize` with the value. -/
theorem c163_partial {d : Bool} {g : Graph} (hg : Reachable d g) {i k s : Nat} {r : List Nat} (hr : g.nbrs i = .ok r)
    (hk : r[k]? = some s) (hi : i < s) (hbefore : ∀ u w, u < i → Adj g u w → w < s)
    (hafter : ∀ u w, i < u → u < s → Adj g u w → s ≤ w) : resizeOwn false g i k = g.resize false s := by
  obtain ⟨L, hL, hG⟩ := reach_rep hg
  have hiL : i < L.length := by
    by_contra hc
    rw [hL.nbrs_exit (by omega)] at hr
    cases hr
  rw [hL.nbrs hiL] at hr
  simp only [Out.ok.injEq] at hr
  subst hr
  have hsl := hG.range i s (List.mem_of_getElem? hk)
  have hb : ∀ u, u < i → ∀ w ∈ row L u, w < s := fun u hu w hw =>
    hbefore u w hu ⟨row L u, hL.nbrs (by omega), hw⟩
  obtain ⟨g', M, h1, h2, h3, h4⟩ := own_rows hL hG hk hi hb
  obtain ⟨g'', h5, h6⟩ := hL.resize_shrink hG.sorted (show s ≤ L.length by omega)
  have hM : M = (L.take s).map fun r => r.filter (· < s) := by
    apply rows_ext (by simp; omega)
    intro u
    by_cases hu : u < s
    · rw [h4 u hu, row_of_lt (L := List.map _ _) (by simp; omega), List.getElem_map, List.getElem_take,
        ← row_of_lt (by omega)]
      by_cases hui : u ≤ i
      · rw [if_pos hui]
      · rw [if_neg hui]
        have : (row L u).filter (· < s) = [] := by
          rw [List.filter_eq_nil_iff]
          intro w hw
          have := hafter u w (by omega) hu ⟨row L u, hL.nbrs (by omega), hw⟩
          simpa using this
        rw [this]
        simp
    · rw [row_of_ge (by omega), row_of_ge (by simp; omega)]
  rw [h1, h5]
  congr 1
  have hne : M ≠ [] := by rintro rfl; simp at h3; omega
  obtain ⟨a, o⟩ := g'
  obtain ⟨a', o'⟩ := g''
  rw [← hM] at h6
  have e1 := h2.1
  have e2 := h2.off hne
  have e3 := h6.1
  have e4 := h6.off hne
  simp only at e1 e2 e3 e4
  rw [e1, e2, e3, e4]

/-- The hypotheses of `c163_partial` are met: the path 0, 1, 2 resized to the last entry of row 1. -/
example : resizeOwn false ⟨[1, 0, 2, 1], [0, 1, 3, 4]⟩ 1 1 = Graph.resize false ⟨[1, 0, 2, 1], [0, 1, 3, 4]⟩ 2 := by
  have hrow0 : Graph.nbrs ⟨[1, 0, 2, 1], [0, 1, 3, 4]⟩ 0 = .ok [1] := by decide
  refine c163_partial (d := false) (r := [0, 2])
    ⟨[.insert (0, 1), .insert (1, 2)], by simp [Op.Valid, sizeMax], by decide⟩ (by decide) (by decide) (by decide) ?_ ?_
  · rintro u w hu ⟨r, hr, hw⟩
    have : u = 0 := by omega
    subst this
    rw [hrow0] at hr
    simp only [Out.ok.injEq] at hr
    subst hr
    simp at hw
    omega
  · intro u w h1 h2
    omega

/-- C163, the entry of a row which is removed: `resize` then reads a destroyed element as soon as one of the rows it keeps
has an entry. -/
theorem c163_dangling {d : Bool} {g : Graph} (hg : Reachable d g) {i k s u w : Nat} {r : List Nat} (hr : g.nbrs i = .ok r)
    (hk : r[k]? = some s) (hi : s ≤ i) (hu : u < s) (huw : Adj g u w) : resizeOwn false g i k = .ub := by
  obtain ⟨L, hL, hG⟩ := reach_rep hg
  have hiL : i < L.length := by
    by_contra hc
    rw [hL.nbrs_exit (by omega)] at hr
    cases hr
  rw [hL.nbrs hiL] at hr
  simp only [Out.ok.injEq] at hr
  subst hr
  have hlen : (L.take s).length = s := by simp; omega
  have hrow : ∀ u, u < s → row (L.take s) u = row L u := by
    intro u hu
    rw [row_of_lt (by omega), List.getElem_take, ← row_of_lt (by omega)]
  have hsorted : ∀ u, (row (L.take s) u).Pairwise (· < ·) := by
    intro u
    by_cases hu : u < s
    · rw [hrow u hu]; exact hG.sorted u
    · rw [row_of_ge (by omega)]; exact List.Pairwise.nil
  have hex : ∃ u, u < s ∧ row (L.take s) u ≠ [] := by
    obtain ⟨r, hr, hw⟩ := huw
    rw [hL.nbrs (by omega)] at hr
    simp only [Out.ok.injEq] at hr
    subst hr
    exact ⟨u, hu, by rw [hrow u hu]; exact List.ne_nil_of_mem hw⟩
  classical
  let m := Nat.find hex
  have hm : m < s ∧ row (L.take s) m ≠ [] := Nat.find_spec hex
  have hmin : ∀ v, v < m → row (L.take s) v = [] := by
    intro v hv
    by_contra hc
    exact Nat.find_min hex hv ⟨by omega, hc⟩
  clear_value m
  have hps : ∀ v, v ≤ m → psum (L.take s) v = 0 := by
    intro v hv
    induction v with
    | zero => simp [psum]
    | succ v ih =>
      rw [psum_succ _ (by omega), ← row_of_lt (by omega), hmin v (by omega), ih (by omega)]
      rfl
  have htrim : ∀ v, v ≤ m → trimTo (fun _ => 0) (L.take s) v = L.take s := by
    intro v hv
    apply rows_ext (by simp)
    intro u
    rw [row_trimTo]
    split
    · rw [hmin u (by omega)]; rfl
    · rfl
  have hstep : ∀ v st, v ≤ m → ResizeInv (fun _ => 0) (L.take s) v st →
      adjIter ⟨st.2.1, st.1⟩ v = .ok (psum (L.take s) v, psum (L.take s) (v + 1)) := by
    intro v st hv hI
    have r1 : rd st.1 v = .ok (psum (L.take s) v) :=
      rd_of_some (by rw [hI.off v (by omega), if_pos (by omega), htrim v hv])
    have r2 : rd st.1 (v + 1) = .ok (psum (L.take s) (v + 1)) :=
      rd_of_some (by rw [hI.off (v + 1) (by omega), if_pos (by omega), htrim v hv])
    simp [Graph.adjIter, r1, r2]
  obtain ⟨st, hloop, hI⟩ := loop_inv (body := ownBody false (psum L i + k)) (n := m)
    (s := (offs (L.take s), (L.take s).flatten, 0)) (fun v st => ResizeInv (fun _ => 0) (L.take s) v st)
    ⟨by simp [trimTo_zero], by simp, by simp, fun j hj => by rw [trimTo_zero]; simp [offs_getElem? _ hj]⟩
    (fun v st hv hI => by
      obtain ⟨st', h1, h2⟩ := resizeBody_ok hsorted hI (by omega) false (by simp)
      refine ⟨st', ?_, h2⟩
      unfold ownBody ownSize
      simp only [hstep v st (by omega) hI, Out.ok_bind, hps v (by omega), hps (v + 1) (by omega), beq_self_eq_true,
        if_true]
      exact h1)
  have hpl : psum L s ≤ psum L i := psum_mono L hi
  have hub : ownBody false (psum L i + k) m st = .ub := by
    unfold ownBody ownSize
    have hps' := psum_succ (L.take s) (show m < (L.take s).length by omega)
    rw [← row_of_lt (show m < (L.take s).length by omega)] at hps'
    have hpos := List.length_pos_iff.mpr hm.2
    simp only [hstep m st (Nat.le_refl _) hI, Out.ok_bind]
    rw [if_neg (by simp; omega), hI.adj, htrim m (Nat.le_refl _), rd_ub]
    · rfl
    · have : (L.take s).flatten.length = psum L s := by
        rw [← psum_length, hlen]; unfold psum; rw [List.take_take, Nat.min_self]
      omega
  have hfin := loop_fail hm.1 hloop hub
  obtain ⟨e1, e2⟩ := resize_setup hL (show s ≤ L.length by omega)
  have ho := hL.off (by rintro rfl; simp at hiL)
  have r0 : rd g.off i = .ok (psum L i) := rd_of_some (by rw [ho, offs_getElem? _ (by omega)])
  have r1 : rd g.adj (psum L i + k) = .ok s := by
    rw [hL.1]
    apply rd_of_some
    have hsl2 := slice_row L hiL
    have hps2 := psum_succ L hiL
    rw [← row_of_lt hiL] at hsl2 hps2
    have hkl : k < (row L i).length := (List.getElem?_eq_some_iff.mp hk).1
    unfold slice at hsl2
    split at hsl2
    · simp only [Out.ok.injEq] at hsl2
      rw [← hk, ← hsl2, List.getElem?_take, if_pos (by omega), List.getElem?_drop]
    · cases hsl2
  have hsv : (⟨resizeList g.adj (psum L s) 0, offs (L.take s)⟩ : Graph).sizeVertex = s := by
    rw [Rep.sizeVertex (L := L.take s) ⟨e2, .inl rfl⟩, hlen]
  have rb : rd (offs (L.take s)) ((offs (L.take s)).length - 1) = .ok (psum L s) := by
    apply rd_of_some
    rw [offs_length, Nat.add_sub_cancel, offs_getElem? _ (Nat.le_refl _), hlen]
    unfold psum; rw [List.take_take, Nat.min_self]
  unfold resizeOwn
  simp only [r0, Out.ok_bind, r1]
  rw [if_neg (by rw [hL.sizeVertex]; omega)]
  simp only [e1, rb, Out.ok_bind, hsv, e2] at hsv ⊢
  simp only [hsv, hfin]
  rfl

/-- The hypotheses of `c163_dangling` are met: row 3 of the path 0, 1, 2, 3 has the entry 2. -/
example : resizeOwn false ⟨[1, 0, 2, 1, 3, 2], [0, 1, 3, 5, 6]⟩ 3 0 = .ub :=
  c163_dangling (d := false) (s := 2) (u := 0) (w := 1) (r := [2])
    ⟨[.insert (0, 1), .insert (1, 2), .insert (2, 3)], by simp [Op.Valid, sizeMax], by decide⟩
    (by decide) (by decide) (by decide) (by decide) ⟨[1], by decide, by decide⟩

end Disa.Props
