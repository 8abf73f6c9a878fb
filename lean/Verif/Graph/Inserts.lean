import Verif.Graph.Reach

/-! # Histories of insertions -/

namespace Disa
namespace Graph

open Spec

theorem edgeIn_nil {d : Bool} {q : Edge} : ¬ EdgeIn d [] q := by simp [EdgeIn]

theorem edgeIn_cons {d : Bool} {e q : Edge} {es : List Edge} : EdgeIn d (e :: es) q ↔ sameEdge d q e ∨ EdgeIn d es q := by
  simp [EdgeIn]

theorem insertAll_ok {d : Bool} {g : Graph} {L} (h : g.Rep L) (hg : Good d L) {es : List Edge}
    (hne : ∀ e ∈ es, e.1 ≠ e.2) (hlt : ∀ e ∈ es, e.1 + 1 < sizeMax ∧ e.2 + 1 < sizeMax) :
    ∃ g' bs L', insertAll d g es = .ok (g', bs) ∧ g'.Rep L' ∧ Good d L' ∧
      (∀ i j, j ∈ row L' i ↔ j ∈ row L i ∨ EdgeIn d es (i, j)) ∧
      L'.length = es.foldl (fun m e => max m (max e.1 e.2 + 1)) L.length ∧
      bs.length = es.length ∧
      ∀ k (hk : k < es.length), bs[k]? = some (!decide (es[k].2 ∈ row L es[k].1 ∨ EdgeIn d (es.take k) es[k])) := by
  induction es generalizing g L with
  | nil => exact ⟨g, [], L, rfl, h, hg, by simp [edgeIn_nil], rfl, rfl, by simp⟩
  | cons e es ih =>
    have hne' := fun e' he' => hne e' (List.mem_cons_of_mem e he')
    have hlt' := fun e' he' => hlt e' (List.mem_cons_of_mem e he')
    have he := hne e (by simp)
    have hm : max e.1 e.2 + 1 < sizeMax := by have := hlt e (by simp); omega
    have hi := h.insert hg e he hm
    by_cases hin : e.2 ∈ row L e.1
    · obtain ⟨g', bs, L', h1, h2, h3, h4, h5, h6, h7⟩ := ih h hg hne' hlt'
      refine ⟨g', false :: bs, L', by simp [insertAll, hi.1 hin, h1], h2, h3, ?_, ?_, by simp [h6], ?_⟩
      · intro i j
        rw [h4, edgeIn_cons]
        constructor
        · tauto
        · rintro (hx | hx | hx)
          · exact .inl hx
          · left
            rcases hx with hx | ⟨hd, hx⟩
            · rw [← hx] at hin; exact hin
            · rw [← hx] at hin; exact hg.symm hd _ _ hin
          · exact .inr hx
      · rw [h5, List.foldl_cons]
        congr 1
        have := hg.range _ _ hin
        have := lt_of_mem_row hin
        omega
      · intro k hk
        cases k with
        | zero => simp [hin]
        | succ k =>
          have hk' : k < es.length := by simpa using hk
          simp only [List.getElem?_cons_succ, h7 k hk', List.getElem_cons_succ, List.take_succ_cons, edgeIn_cons]
          congr 3
          simp only [eq_iff_iff]
          constructor
          · tauto
          · rintro (hx | hx | hx)
            · exact .inl hx
            · left
              rcases hx with hx | ⟨hd, hx⟩
              · rw [hx]; exact hin
              · rw [← hx] at hin; exact hg.symm hd _ _ hin
            · exact .inr hx
    · obtain ⟨g1, hg1, hr1⟩ := hi.2 hin
      obtain ⟨g', bs, L', h1, h2, h3, h4, h5, h6, h7⟩ := ih hr1 (insRows_good hg he hin) hne' hlt'
      have hmem : ∀ i j, j ∈ row (insRows d L e) i ↔ j ∈ row L i ∨ sameEdge d (i, j) e := fun i j => by
        rw [mem_insRows he]; rfl
      refine ⟨g', true :: bs, L', by simp [insertAll, hg1, h1], h2, h3, ?_, ?_, by simp [h6], ?_⟩
      · intro i j
        rw [h4, edgeIn_cons, hmem]
        tauto
      · rw [h5, List.foldl_cons, insRows_length]
      · intro k hk
        cases k with
        | zero => simp [hin, edgeIn_nil]
        | succ k =>
          have hk' : k < es.length := by simpa using hk
          simp only [List.getElem?_cons_succ, h7 k hk', List.getElem_cons_succ, List.take_succ_cons, edgeIn_cons]
          congr 3
          rw [hmem]
          simp only [eq_iff_iff]
          tauto

theorem insertAll_exit {d : Bool} {g : Graph} {L} (h : g.Rep L) (hg : Good d L) {pre post : List Edge} {e : Edge}
    (hne : ∀ e ∈ pre, e.1 ≠ e.2) (hlt : ∀ e ∈ pre, e.1 + 1 < sizeMax ∧ e.2 + 1 < sizeMax) (he : e.1 = e.2) :
    insertAll d g (pre ++ e :: post) = .exit 1 := by
  induction pre generalizing g L with
  | nil => simp [insertAll, Rep.insert_exit he]
  | cons a pre ih =>
    have hne' := fun e' he' => hne e' (List.mem_cons_of_mem a he')
    have hlt' := fun e' he' => hlt e' (List.mem_cons_of_mem a he')
    have ha := hne a (by simp)
    have hm : max a.1 a.2 + 1 < sizeMax := by have := hlt a (by simp); omega
    have hi := h.insert hg a ha hm
    by_cases hin : a.2 ∈ row L a.1
    · simp [insertAll, hi.1 hin, ih h hg hne' hlt']
    · obtain ⟨g1, hg1, hr1⟩ := hi.2 hin
      simp [insertAll, hg1, ih hr1 (insRows_good hg ha hin) hne' hlt']

theorem norm_same {d : Bool} {e f : Edge} : normEdge d e = normEdge d f ↔ sameEdge d e f := by
  obtain ⟨a, b⟩ := e
  obtain ⟨x, y⟩ := f
  unfold normEdge sameEdge
  cases d
  · simp only [Bool.false_eq_true, if_false, Prod.mk.injEq, true_and]
    omega
  · simp

theorem sizeEdge_count {d : Bool} {g : Graph} {L} (h : g.Rep L) (hg : Good d L) {es : List Edge}
    (hne : ∀ e ∈ es, e.1 ≠ e.2) (hm : ∀ i j, j ∈ row L i ↔ EdgeIn d es (i, j)) :
    g.sizeEdge d = countEdges d es := by
  rw [h.sizeEdge hg, countEdges]
  cases d
  · simp only [Bool.false_eq_true, if_false]
    congr 1
    ext p
    rw [mem_upPairs hg, hm]
    simp only [List.mem_toFinset, List.mem_map]
    constructor
    · rintro ⟨⟨f, hf, hs⟩, hlt⟩
      refine ⟨f, hf, ?_⟩
      rw [← norm_same.mpr hs]
      obtain ⟨a, b⟩ := p
      simp only [normEdge, Bool.false_eq_true, if_false, Prod.mk.injEq]
      simp only at hlt; omega
    · rintro ⟨f, hf, rfl⟩
      have := hne f hf
      refine ⟨⟨f, hf, ?_⟩, ?_⟩
      · rw [← norm_same]
        simp only [normEdge, Bool.false_eq_true, if_false, Prod.mk.injEq]; omega
      · simp only [normEdge, Bool.false_eq_true, if_false]; omega
  · simp only [if_true]
    congr 1
    ext p
    rw [mem_pairs hg, hm]
    simp only [List.mem_toFinset, List.mem_map]
    constructor
    · rintro ⟨f, hf, hs⟩
      rcases hs with hs | ⟨h, _⟩
      · exact ⟨f, hf, by simpa [normEdge] using hs.symm⟩
      · simp at h
    · rintro ⟨f, hf, rfl⟩
      exact ⟨f, hf, .inl (by simp [normEdge])⟩

theorem foldl_max_ge (es : List Edge) (m : Nat) : m ≤ es.foldl (fun m e => max m (max e.1 e.2 + 1)) m := by
  induction es generalizing m with
  | nil => simp
  | cons e es ih => simp only [List.foldl_cons]; exact Nat.le_trans (Nat.le_max_left ..) (ih _)

theorem foldl_max_spec (es : List Edge) (m : Nat) :
    (∀ e ∈ es, max e.1 e.2 < es.foldl (fun m e => max m (max e.1 e.2 + 1)) m) ∧
    (es.foldl (fun m e => max m (max e.1 e.2 + 1)) m = m ∨
      ∃ e ∈ es, es.foldl (fun m e => max m (max e.1 e.2 + 1)) m = max e.1 e.2 + 1) := by
  induction es generalizing m with
  | nil => simp
  | cons e es ih =>
    obtain ⟨h1, h2⟩ := ih (max m (max e.1 e.2 + 1))
    constructor
    · intro f hf
      rcases List.mem_cons.mp hf with rfl | hf
      · have := foldl_max_ge es (max m (max f.1 f.2 + 1))
        simp only [List.foldl_cons]; omega
      · exact h1 f hf
    · simp only [List.foldl_cons]
      rcases h2 with h2 | ⟨f, hf, h2⟩
      · rcases Nat.le_total m (max e.1 e.2 + 1) with hm | hm
        · right; exact ⟨e, by simp, by rw [h2]; omega⟩
        · left; rw [h2]; omega
      · right; exact ⟨f, by simp [hf], h2⟩

/-- The two largest indexes make `insert` wrap the vertex count or the length of the offsets to zero and then read past the end. -/
theorem Rep.insert_max {d : Bool} {g : Graph} {L} (h : g.Rep L) (hg : Good d L) (hlen : L.length < sizeMax) {e : Edge}
    (hne : e.1 ≠ e.2) (hmax : max e.1 e.2 + 1 = sizeMax ∨ max e.1 e.2 = sizeMax) : g.insert d e = .ub := by
  have hb : (e.1 != e.2) = true := by simpa using hne
  have hc := h.contains hg e
  rw [if_neg hne] at hc
  have hn : e.2 ∉ row L e.1 := fun hm => by
    have := lt_of_mem_row hm; have := hg.range _ _ hm; omega
  obtain ⟨a, b, hab, hm⟩ : ∃ a b, (if !d then orderEdge e else e) = (a, b) ∧ (max a b + 1 = sizeMax ∨ max a b = sizeMax) := by
    cases d
    · simp only [orderEdge, Bool.not_false, if_true]
      split
      · exact ⟨_, _, rfl, hmax⟩
      · exact ⟨_, _, rfl, by omega⟩
    · exact ⟨e.1, e.2, rfl, hmax⟩
  obtain ⟨e1, _⟩ := resize_setup h (Nat.zero_le L.length)
  have hgrow : ∃ l, (l = [] ∨ l = [0]) ∧ ∃ r, g.growFor (max a b) = .ok ⟨r, l⟩ := by
    unfold Graph.growFor
    rw [h.sizeVertex, if_pos (by omega)]
    rcases hm with hm | hm
    · have hw : wrap sizeMax = sizeMax := by decide
      have hw' : wrap (sizeMax + 1) = 0 := by decide
      rw [hm, hw]
      unfold Graph.resize
      rw [if_pos (by rw [h.sizeVertex]; exact hlen), hw']
      exact ⟨[], .inl rfl, g.adj, by simp [resizeList]⟩
    · refine ⟨[0], .inr rfl, [], ?_⟩
      rw [hm]
      have hw : wrap (sizeMax + 1) = 0 := by decide
      rw [hw]
      unfold Graph.resize
      rw [if_neg (by omega)]
      have e1' : resizeList g.off (0 + 1) 0 = [0] := by rw [e1]; rfl
      simp only [e1']
      simp [rd, Graph.sizeVertex, loop, resizeList]
  obtain ⟨l, hl, r, hgrow⟩ := hgrow
  unfold Graph.insert
  simp only [hb, assert_true, hc, hn, decide_false, Out.ok_bind, Bool.false_eq_true, if_false, hab, hgrow]
  rcases hl with rfl | rfl
  · simp [Graph.insertAdj, Graph.adjIter, rd]
  · simp [Graph.insertAdj, Graph.adjIter, rd]
    cases a <;> simp

end Graph
end Disa
