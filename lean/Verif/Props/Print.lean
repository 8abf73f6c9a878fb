import Verif.Graph.Print
import Verif.Graph.SubInv
import Verif.Props.Subgraph
import Mathlib.Data.List.Basic

/-!
# Property C137: printed graphs
-/

namespace Disa.Props

open Disa Disa.Spec Graph

/-! ### Joined texts -/

/-- Text of the neighbours of a vertex: separated by a comma and a blank, and a full stop if there are none. -/
def rowText (r : List Nat) : List Char := if r = [] then ['.'] else [',', ' '].intercalate (r.map dec)

/-- Text of a graph with these neighbours: a line for each vertex. -/
def graphText (rows : List (List Nat)) : List Char := ['\n'].intercalate (rows.map rowText)

/-- Line for a vertex of a subgraph: its index, the index in the parent and the level. -/
def mappingText (i a b : Nat) : List Char := dec i ++ [' ', '-', '>', ' '] ++ dec a ++ [' ', '('] ++ dec b ++ [')']

theorem intercalate_cons {s x y : List Char} {l : List (List Char)} :
    s.intercalate (x :: y :: l) = x ++ (s ++ s.intercalate (y :: l)) := by
  simp [List.intercalate]

theorem intercalate_one {s x : List Char} : s.intercalate [x] = x := by simp [List.intercalate]

theorem intercalate_nil {s : List Char} : s.intercalate [] = [] := by simp [List.intercalate]

theorem intercalate_snoc {s x : List Char} {l : List (List Char)} :
    s.intercalate (l ++ [x]) = s.intercalate l ++ (if l = [] then [] else s) ++ x := by
  induction l with
  | nil => simp [intercalate_one, intercalate_nil]
  | cons a l ih =>
    cases l with
    | nil => simp [intercalate_one, intercalate_cons]
    | cons b l =>
      rw [List.cons_append, List.cons_append, intercalate_cons, ← List.cons_append, ih, intercalate_cons]
      simp

theorem split_inj {c : Char} {x y a b : List Char} (hx : c ∉ x) (hy : c ∉ y) (h : x ++ c :: a = y ++ c :: b) : x = y ∧ a = b := by
  induction x generalizing y with
  | nil =>
    cases y with
    | nil => simpa using h
    | cons u y => simp only [List.nil_append, List.cons_append, List.cons.injEq] at h; exact absurd h.1 (by simp at hy; exact hy.1)
  | cons u x ih =>
    cases y with
    | nil => simp only [List.nil_append, List.cons_append, List.cons.injEq] at h; exact absurd h.1.symm (by simp at hx; exact hx.1)
    | cons w y =>
      simp only [List.cons_append, List.cons.injEq] at h
      obtain ⟨rfl, h⟩ := h
      obtain ⟨h1, h2⟩ := ih (fun hc => hx (by simp [hc])) (fun hc => hy (by simp [hc])) h
      exact ⟨by rw [h1], h2⟩

/-- Texts joined by a separator determine the texts, if these are not empty and do not contain its first character. -/
theorem intercalate_inj {c : Char} {s : List Char} {xs ys : List (List Char)} (hx : ∀ x ∈ xs, c ∉ x ∧ x ≠ [])
    (hy : ∀ x ∈ ys, c ∉ x ∧ x ≠ []) (h : (c :: s).intercalate xs = (c :: s).intercalate ys) : xs = ys := by
  induction xs generalizing ys with
  | nil =>
    cases ys with
    | nil => rfl
    | cons y ys =>
      have := (hy y (by simp)).2
      cases ys with
      | nil => rw [intercalate_one, intercalate_nil] at h; exact absurd h.symm this
      | cons z ys => rw [intercalate_cons, intercalate_nil] at h; simp at h
  | cons x xs ih =>
    cases ys with
    | nil =>
      have := (hx x (by simp)).2
      cases xs with
      | nil => rw [intercalate_one, intercalate_nil] at h; exact absurd h this
      | cons z xs => rw [intercalate_cons, intercalate_nil] at h; simp at h
    | cons y ys =>
      have h1 := (hx x (by simp)).1
      have h2 := (hy y (by simp)).1
      cases xs with
      | nil =>
        cases ys with
        | nil => rw [intercalate_one, intercalate_one] at h; rw [h]
        | cons z ys =>
          rw [intercalate_one, intercalate_cons] at h
          exact absurd (h ▸ (by simp : c ∈ y ++ (c :: s ++ (c :: s).intercalate (z :: ys)))) h1
      | cons w xs =>
        cases ys with
        | nil =>
          rw [intercalate_one, intercalate_cons] at h
          exact absurd (h ▸ (by simp : c ∈ x ++ (c :: s ++ (c :: s).intercalate (w :: xs)))) h2
        | cons z ys =>
          rw [intercalate_cons, intercalate_cons, List.cons_append, List.cons_append] at h
          obtain ⟨rfl, h'⟩ := split_inj h1 h2 h
          rw [ih (fun x hx' => hx x (by simp [hx'])) (fun x hy' => hy x (by simp [hy'])) (List.append_cancel_left h')]

theorem dec_digit {n : Nat} {c : Char} (h : c ∈ dec n) : c.isDigit = true :=
  Nat.isDigit_of_mem_toDigits (by decide) (by decide) h

theorem dec_notMem {n : Nat} {c : Char} (h : c.isDigit = false) : c ∉ dec n := fun hm => by
  rw [dec_digit hm] at h; cases h

theorem dec_ne_nil (n : Nat) : dec n ≠ [] := Nat.toDigits_ne_nil

theorem dec_inj {m n : Nat} (h : dec m = dec n) : m = n := by
  unfold dec at h
  rw [← Nat.ofDigitChars_ten_toDigits (n := m), h, Nat.ofDigitChars_ten_toDigits]

theorem mem_intercalate {s : List Char} {l : List (List Char)} {c : Char} (h : c ∈ s.intercalate l) :
    c ∈ s ∨ ∃ x ∈ l, c ∈ x := by
  induction l with
  | nil => simp [intercalate_nil] at h
  | cons x l ih =>
    cases l with
    | nil => rw [intercalate_one] at h; exact .inr ⟨x, by simp, h⟩
    | cons y l =>
      rw [intercalate_cons, List.mem_append, List.mem_append] at h
      rcases h with h | h | h
      · exact .inr ⟨x, by simp, h⟩
      · exact .inl h
      · rcases ih h with h | ⟨z, hz, h⟩
        · exact .inl h
        · exact .inr ⟨z, by simp [hz], h⟩

theorem rowText_mem {r : List Nat} {c : Char} (h : c ∈ rowText r) : c = '.' ∨ c = ',' ∨ c = ' ' ∨ c.isDigit = true := by
  unfold rowText at h
  split at h
  · simp at h; exact .inl h
  · rcases mem_intercalate h with h | ⟨x, hx, h⟩
    · simp at h; rcases h with h | h
      · exact .inr (.inl h)
      · exact .inr (.inr (.inl h))
    · simp only [List.mem_map] at hx
      obtain ⟨n, _, rfl⟩ := hx
      exact .inr (.inr (.inr (dec_digit h)))

theorem rowText_line (r : List Nat) : '\n' ∉ rowText r := fun h => by
  rcases rowText_mem h with h | h | h | h <;> revert h <;> decide

theorem rowText_ne_nil (r : List Nat) : rowText r ≠ [] := by
  unfold rowText
  split
  · simp
  · rename_i h
    cases r with
    | nil => exact absurd rfl h
    | cons a r =>
      cases r with
      | nil => simp only [List.map_cons, List.map_nil, intercalate_one]; exact dec_ne_nil a
      | cons b r => simp only [List.map_cons, intercalate_cons]; simp

theorem rowText_inj {r r' : List Nat} (h : rowText r = rowText r') : r = r' := by
  have hd : ∀ q : List Nat, q ≠ [] → ['.'] ≠ [',', ' '].intercalate (q.map dec) := by
    intro q hq he
    cases q with
    | nil => exact hq rfl
    | cons a q =>
      have hm : '.' ∈ [',', ' '].intercalate ((a :: q).map dec) := by rw [← he]; simp
      rcases mem_intercalate hm with h | ⟨x, hx, h⟩
      · revert h; decide
      · simp only [List.mem_map] at hx
        obtain ⟨n, _, rfl⟩ := hx
        exact dec_notMem (by decide) h
  unfold rowText at h
  split at h <;> split at h
  · simp_all
  · exact absurd h (hd _ (by assumption))
  · exact absurd h.symm (hd _ (by assumption))
  · have hq : ∀ q : List Nat, ∀ x ∈ q.map dec, ',' ∉ x ∧ x ≠ [] := by
      intro q x hx
      simp only [List.mem_map] at hx
      obtain ⟨n, _, rfl⟩ := hx
      exact ⟨dec_notMem (by decide), dec_ne_nil n⟩
    have := intercalate_inj (hq r) (hq r') h
    exact (List.map_injective_iff.mpr fun _ _ => dec_inj) this

theorem mappingText_line (i a b : Nat) : '\n' ∉ mappingText i a b := by
  have h : ∀ n, '\n' ∉ dec n := fun n => dec_notMem (by decide)
  simp [mappingText, h]

theorem mappingText_inj {i a b a' b' : Nat} (h : mappingText i a b = mappingText i a' b') : a = a' ∧ b = b' := by
  unfold mappingText at h
  simp only [List.append_assoc, List.cons_append, List.nil_append] at h
  have h1 := List.append_cancel_left h
  simp only [List.cons.injEq, true_and] at h1
  obtain ⟨h2, h3⟩ := split_inj (dec_notMem (by decide)) (dec_notMem (by decide)) h1
  simp only [List.cons.injEq, true_and] at h3
  exact ⟨dec_inj h2, dec_inj (List.append_cancel_right h3)⟩

/-! ### The loops -/

theorem entries_text {r : List Nat} {b : Nat} (hnd : r.Nodup) (hb : r.getLast? = some b) :
    r.flatMap (fun x => dec x ++ if x != b then [',', ' '] else []) = [',', ' '].intercalate (r.map dec) := by
  induction r with
  | nil => simp at hb
  | cons x r ih =>
    cases r with
    | nil =>
      simp only [List.getLast?_singleton, Option.some.injEq] at hb
      subst hb
      simp [intercalate_one]
    | cons y r =>
      rw [List.getLast?_cons_cons] at hb
      have hx : x ≠ b := fun e => by
        subst e
        exact (List.nodup_cons.mp hnd).1 (List.mem_of_getLast? hb)
      rw [List.flatMap_cons, ih (List.nodup_cons.mp hnd).2 hb]
      simp [hx, intercalate_cons]

theorem foldlM_append {f : List Char → Nat → Out (List Char)} {w : Nat → List Char} {r : List Nat}
    (h : ∀ t, ∀ x ∈ r, f t x = .ok (t ++ w x)) (t : List Char) : r.foldlM f t = .ok (t ++ r.flatMap w) := by
  induction r generalizing t with
  | nil => simp
  | cons x r ih =>
    rw [List.foldlM_cons, h t x (by simp), Out.ok_bind, ih (fun t y hy => h t y (by simp [hy]))]
    simp

theorem printVertex_ok {g : Graph} {v : Nat} {r : List Nat} (h : g.nbrs v = .ok r) (hnd : r.Nodup) (t : List Char) :
    g.printVertex v t = .ok (t ++ (if v = 0 then [] else ['\n']) ++ rowText r) := by
  unfold Graph.printVertex
  have ht : (if (v != 0) = true then t ++ ['\n'] else t) = t ++ (if v = 0 then [] else ['\n']) := by
    by_cases hv : v = 0 <;> simp [hv]
  simp only [ht, h, Out.ok_bind]
  cases hr : r with
  | nil => simp [rowText]
  | cons a q =>
    rw [← hr]
    have hne : r ≠ [] := by simp [hr]
    obtain ⟨b, hb⟩ : ∃ b, r.getLast? = some b := Option.isSome_iff_exists.mp (by simp [hne])
    have hrd : rd r (r.length - 1) = .ok b := by
      rw [List.getLast?_eq_getElem?] at hb
      simp [rd, hb]
    rw [foldlM_append (w := fun x => dec x ++ if x != b then [',', ' '] else [])]
    · rw [entries_text hnd hb]
      simp [rowText, hne]
    · intro t x _
      simp only [Graph.printEntry, h, Out.ok_bind, hrd, Out.pure_eq, List.append_assoc]

theorem rows_text {g : Graph} {L : List (List Nat)} (hr : g.Rep L) {d : Bool} (hg : Good d L) (t : List Char) :
    loop L.length g.printVertex t = .ok (t ++ graphText L) := by
  obtain ⟨t', h1, h2⟩ := loop_inv (body := g.printVertex) (n := L.length) (s := t)
    (fun i t' => t' = t ++ graphText (L.take i)) (by simp [graphText, intercalate_nil]) (by
      rintro i _ hi rfl
      refine ⟨_, printVertex_ok (hr.nbrs hi) ((hg.sorted i).imp Nat.ne_of_lt) _, ?_⟩
      rw [List.take_succ_eq_append_getElem hi]
      unfold graphText
      rw [List.map_append, List.map_cons, List.map_nil, intercalate_snoc, row_of_lt hi]
      by_cases h0 : i = 0
      · subst h0; simp
      · have : L.take i ≠ [] := by
          intro e
          have := congrArg List.length e
          rw [List.length_take, List.length_nil] at this
          omega
        have hm : (L.take i).map rowText ≠ [] := by simpa using this
        rw [if_neg h0, if_neg hm]
        simp only [List.append_assoc])
  rw [h1, h2, List.take_length]

/-! ### C137 -/

/-- C137: printing a reachable graph appends a line for each vertex, and nothing else happens. -/
theorem c137_text (d : Bool) (g : Graph) (h : Reachable d g) :
    ∃ rows : List (List Nat), rows.length = g.sizeVertex ∧ (∀ v, v < g.sizeVertex → ∃ r, rows[v]? = some r ∧ g.nbrs v = .ok r) ∧
      ∀ t, g.print t = .ok (t ++ graphText rows) := by
  obtain ⟨L, hr, hg⟩ := reach_rep h
  refine ⟨L, hr.sizeVertex.symm, ?_, ?_⟩
  · intro v hv
    rw [hr.sizeVertex] at hv
    exact ⟨L[v], by simp [hv], by rw [hr.nbrs hv, row_of_lt hv]⟩
  · intro t
    unfold Graph.print
    rw [hr.sizeVertex]
    exact rows_text hr hg t

theorem graphText_inj {L L' : List (List Nat)} (h : graphText L = graphText L') : L = L' := by
  have hq : ∀ q : List (List Nat), ∀ x ∈ q.map rowText, '\n' ∉ x ∧ x ≠ [] := by
    intro q x hx
    simp only [List.mem_map] at hx
    obtain ⟨r, _, rfl⟩ := hx
    exact ⟨rowText_line r, rowText_ne_nil r⟩
  exact (List.map_injective_iff.mpr fun _ _ => rowText_inj) (intercalate_inj (hq L) (hq L') h)

/-- C137: the printed text determines the graph. -/
theorem c137_graph (d d' : Bool) (g g' : Graph) (h : Reachable d g) (h' : Reachable d' g') (he : g.print [] = g'.print []) :
    g.sizeVertex = g'.sizeVertex ∧ ∀ v, g.nbrs v = g'.nbrs v := by
  obtain ⟨L, h1, h2, h3⟩ := c137_text d g h
  obtain ⟨L', h1', h2', h3'⟩ := c137_text d' g' h'
  rw [h3, h3', List.nil_append, List.nil_append, Out.ok.injEq] at he
  have hL := graphText_inj he
  subst hL
  refine ⟨h1.symm.trans h1', fun v => ?_⟩
  by_cases hv : v < g.sizeVertex
  · obtain ⟨r, e1, e2⟩ := h2 v hv
    obtain ⟨r', e1', e2'⟩ := h2' v (by omega)
    rw [e1] at e1'
    cases e1'
    rw [e2, e2']
  · have hv' : ¬ v < g'.sizeVertex := by omega
    simp [Graph.nbrs, hv, hv']

/-- Text of a subgraph with these neighbours, indexes in the parent and levels. -/
def subgraphText (rows : List (List Nat)) (maps : List (Nat × Nat)) : List Char :=
  ['\n'].intercalate (rows.map rowText ++ maps.mapIdx fun i p => mappingText i p.1 p.2)

theorem mapping_ok {s : Subgraph} {maps : List (Nat × Nat)} (hl : maps.length = s.sizeVertex)
    (hm : ∀ i, i < s.sizeVertex → ∃ p, maps[i]? = some p ∧ s.localGlobal i = .ok p.1 ∧ s.vertexLevel i = .ok p.2)
    (rows : List (List Char)) (hrows : 0 < s.sizeVertex → rows ≠ []) (t : List Char) :
    loop s.sizeVertex s.printMapping (t ++ ['\n'].intercalate rows) =
      .ok (t ++ ['\n'].intercalate (rows ++ maps.mapIdx fun i p => mappingText i p.1 p.2)) := by
  obtain ⟨t', h1, h2⟩ := loop_inv (body := s.printMapping) (n := s.sizeVertex) (s := t ++ ['\n'].intercalate rows)
    (fun i t' => t' = t ++ ['\n'].intercalate (rows ++ (maps.take i).mapIdx fun i p => mappingText i p.1 p.2)) (by simp) (by
      rintro i _ hi rfl
      obtain ⟨p, e1, e2, e3⟩ := hm i hi
      have hi' : i < maps.length := by omega
      have hp : maps[i] = p := by rw [List.getElem?_eq_getElem hi'] at e1; exact Option.some.inj e1
      refine ⟨_, by simp only [Subgraph.printMapping, e2, e3, Out.ok_bind, Out.pure_eq]; rfl, ?_⟩
      rw [List.take_succ_eq_append_getElem hi', List.mapIdx_append, ← List.append_assoc]
      have : rows ++ (maps.take i).mapIdx (fun i p => mappingText i p.1 p.2) ≠ [] := by
        simp [hrows (by omega)]
      simp only [List.mapIdx_cons, List.mapIdx_nil]
      rw [intercalate_snoc, if_neg this, hp]
      simp only [mappingText, List.append_assoc, Nat.zero_add, List.length_take, Nat.min_eq_left hi'.le])
  rw [h1, h2, ← hl, List.take_length]

/-- C137: printing a subgraph that was created, given levels and reordered appends the lines of its graph and then a line for each
vertex. -/
theorem c137_subgraph_text (parent : Graph) (hash : Nat → Nat) (part : List Nat) (m : Nat) (s : Subgraph)
    (hp : Reachable false parent) (hs : part.Pairwise (· < ·)) (hlt : ∀ v ∈ part, v < parent.sizeVertex)
    (hr : SubReach hash parent part (sizeMax - 1) m s) :
    ∃ (rows : List (List Nat)) (maps : List (Nat × Nat)), rows.length = s.sizeVertex ∧ maps.length = s.sizeVertex ∧
      (∀ i, i < s.sizeVertex → ∃ r p, rows[i]? = some r ∧ maps[i]? = some p ∧ s.graph.nbrs i = .ok r ∧
        s.localGlobal i = .ok p.1 ∧ s.vertexLevel i = .ok p.2) ∧
      ∀ t, s.print t = .ok (t ++ subgraphText rows maps) := by
  obtain ⟨x, hx⟩ := Subgraph.hash_ok hp hash
  obtain ⟨hI, _⟩ := reach_inv hp hx hs hlt (by decide) hr
  obtain ⟨L, hrep, hg⟩ := reach_rep hI.reach
  have hsz : s.sizeVertex = L.length := hrep.sizeVertex
  have hl2g : s.l2g.length = L.length := by rw [← hI.size, hrep.sizeVertex]
  have hlev : ∀ i, i < s.sizeVertex → ∃ k, s.vertexLevel i = .ok k := by
    intro i hi
    simp only [Subgraph.vertexLevel, hi, decide_true, assert_true, Out.ok_bind]
    split
    · exact ⟨0, rfl⟩
    · rcases hI.lev with ⟨h1, _⟩ | ⟨h1, _⟩
      · simp_all
      · exact ⟨s.lev[i]'(by omega), by simp [rd, (by omega : i < s.lev.length)]⟩
  have hmap : ∀ i, i < s.sizeVertex → ∃ a, s.localGlobal i = .ok a := by
    intro i hi
    exact ⟨s.l2g[i]'(by omega), by simp [Subgraph.localGlobal, hi, rd, (by omega : i < s.l2g.length)]⟩
  let maps := (List.range s.sizeVertex).map fun i =>
    ((match s.localGlobal i with | .ok a => a | _ => 0), (match s.vertexLevel i with | .ok a => a | _ => 0))
  have hmaps : ∀ i, i < s.sizeVertex → ∃ p, maps[i]? = some p ∧ s.localGlobal i = .ok p.1 ∧ s.vertexLevel i = .ok p.2 := by
    intro i hi
    obtain ⟨a, ha⟩ := hmap i hi
    obtain ⟨b, hb⟩ := hlev i hi
    exact ⟨(a, b), by simp [maps, hi, ha, hb], ha, hb⟩
  refine ⟨L, maps, hsz.symm, by simp [maps], ?_, ?_⟩
  · intro i hi
    obtain ⟨p, h1, h2, h3⟩ := hmaps i hi
    have hi' : i < L.length := by omega
    exact ⟨L[i], p, by simp [hi'], h1, by rw [hrep.nbrs hi', row_of_lt hi'], h2, h3⟩
  · intro t
    unfold Subgraph.print
    rw [hsz, rows_text hrep hg, Out.ok_bind, ← hsz]
    unfold graphText subgraphText
    refine mapping_ok (by simp [maps]) hmaps _ (fun h0 => ?_) t
    rw [hsz] at h0
    intro e
    rw [List.map_eq_nil_iff] at e
    simp [e] at h0

/-- C137: the printed text of a subgraph determines its graph, the mapping to the parent and the levels. -/
theorem c137_subgraph (parent parent' : Graph) (hash hash' : Nat → Nat) (part part' : List Nat) (m m' : Nat) (s s' : Subgraph)
    (hp : Reachable false parent) (hs : part.Pairwise (· < ·)) (hlt : ∀ v ∈ part, v < parent.sizeVertex)
    (hr : SubReach hash parent part (sizeMax - 1) m s)
    (hp' : Reachable false parent') (hs' : part'.Pairwise (· < ·)) (hlt' : ∀ v ∈ part', v < parent'.sizeVertex)
    (hr' : SubReach hash' parent' part' (sizeMax - 1) m' s') (he : s.print [] = s'.print []) :
    s.sizeVertex = s'.sizeVertex ∧ ∀ i, s.graph.nbrs i = s'.graph.nbrs i ∧ s.localGlobal i = s'.localGlobal i ∧
      s.vertexLevel i = s'.vertexLevel i := by
  obtain ⟨L, M, h1, h2, h3, h4⟩ := c137_subgraph_text parent hash part m s hp hs hlt hr
  obtain ⟨L', M', h1', h2', h3', h4'⟩ := c137_subgraph_text parent' hash' part' m' s' hp' hs' hlt' hr'
  rw [h4, h4', List.nil_append, List.nil_append, Out.ok.injEq] at he
  have hq : ∀ (q : List (List Nat)) (M : List (Nat × Nat)),
      ∀ x ∈ q.map rowText ++ M.mapIdx (fun i p => mappingText i p.1 p.2), '\n' ∉ x ∧ x ≠ [] := by
    intro q M x hx
    rw [List.mem_append] at hx
    rcases hx with hx | hx
    · simp only [List.mem_map] at hx
      obtain ⟨r, _, rfl⟩ := hx
      exact ⟨rowText_line r, rowText_ne_nil r⟩
    · rw [List.mem_mapIdx] at hx
      obtain ⟨i, _, rfl⟩ := hx
      exact ⟨mappingText_line _ _ _, by simp [mappingText]⟩
  have hl := intercalate_inj (hq L M) (hq L' M') he
  have hlen := congrArg List.length hl
  simp only [List.length_append, List.length_map, List.length_mapIdx] at hlen
  have hsz : s.sizeVertex = s'.sizeVertex := by omega
  obtain ⟨hl1, hl2⟩ := List.append_inj hl (by simp; omega)
  have hL : L = L' := (List.map_injective_iff.mpr fun _ _ => rowText_inj) hl1
  have hM : M = M' := by
    apply List.ext_getElem (by omega)
    intro i hi hi'
    have := congrArg (fun l : List (List Char) => l[i]?) hl2
    simp only [List.getElem?_mapIdx, List.getElem?_eq_getElem hi, List.getElem?_eq_getElem hi', Option.map_some,
      Option.some.injEq] at this
    obtain ⟨e1, e2⟩ := mappingText_inj this
    exact Prod.ext e1 e2
  subst hL hM
  refine ⟨hsz, fun i => ?_⟩
  by_cases hi : i < s.sizeVertex
  · obtain ⟨r, p, e1, e2, e3, e4, e5⟩ := h3 i hi
    obtain ⟨r', p', f1, f2, f3, f4, f5⟩ := h3' i (by omega)
    rw [e1] at f1; rw [e2] at f2
    cases f1; cases f2
    exact ⟨e3.trans f3.symm, e4.trans f4.symm, e5.trans f5.symm⟩
  · have hi' : ¬ i < s'.sizeVertex := by omega
    have hg : ¬ i < s.graph.sizeVertex := hi
    have hg' : ¬ i < s'.graph.sizeVertex := hi'
    simp [Graph.nbrs, Subgraph.localGlobal, Subgraph.vertexLevel, hi, hi', hg, hg']

/-- The text of the path with three vertices, and of a subgraph of it with a second level. -/
example : path3.print ['=', '\n'] = .ok "=\n1\n0, 2\n1".toList ∧
    (Subgraph.make id path3 [0] 1 >>= fun s => s.print []) = .ok "1\n0\n0 -> 0 (0)\n1 -> 1 (1)".toList ∧
    (Graph.new.resize false 2 >>= fun g => g.print []) = .ok ".\n.".toList := by decide +kernel

example : Reachable false path3 ∧ ([0] : List Nat).Pairwise (· < ·) ∧ (∀ v ∈ [0], v < path3.sizeVertex) ∧
    ∃ s, SubReach id path3 [0] (sizeMax - 1) 1 s ∧ s.sizeVertex = 2 :=
  ⟨path3_reachable, by decide, by decide, ⟨⟨[1, 0], [0, 1, 2]⟩, [0, 1], [0, 1], 3 ^^^ 2 ^^^ 1 ^^^ 1⟩,
    .make (by decide) (by decide +kernel), by decide⟩

end Disa.Props
