import Verif.Props.Nested

/-!
# Property C196: parts which are not connected lose one component at a time
-/

namespace Disa.Props

open Disa Spec Graph Partition

/-- The only element reached along a relation without pairs is the source. -/
theorem reached_alone {E : Nat → Nat → Prop} (hE : ∀ u v, ¬ E u v) {p v : Nat} : Reached E (· = p) v ↔ v = p := by
  constructor
  · rintro ⟨n, s, rfl, hw⟩
    cases n with
    | zero => exact Eq.symm hw
    | succ n => obtain ⟨w, -, he⟩ := hw; exact absurd he (hE w v)
  · rintro rfl
    exact ⟨0, v, rfl, rfl⟩

/-- C196: when the first of the largest parts is not connected, asking for one more part takes the vertices reached from one
of its vertices out of it.  The connected component stays in the place of the part and all other components come last. -/
theorem c196_component (hash : Nat → Nat) (g : Graph) (h : Reachable false g) (hn : g.sizeVertex ≤ 2 ^ 53) (k : Nat)
    (hk : k < g.sizeVertex) (subs : List Subgraph) (hb : bisection hash g k = .ok subs) (i : Nat) (s : Subgraph)
    (hs : subs[i]? = some s) (hmax : ∀ t ∈ subs, t.sizeVertex ≤ s.sizeVertex)
    (hfirst : ∀ j t, j < i → subs[j]? = some t → t.sizeVertex < s.sizeVertex)
    (hc : ¬ Connected (Adj s.graph) s.sizeVertex) :
    ∃ (p : Nat) (l r : Subgraph), bisection hash g (k + 1) = .ok (subs.set i l ++ [r]) ∧ p < s.sizeVertex ∧
      ¬ Spans (Adj s.graph) s.sizeVertex p ∧
      (∀ v, v ∈ l.l2g ↔ ∃ a : Nat, s.l2g[a]? = some v ∧ Reached (Adj s.graph) (· = p) a) ∧
      ∀ v, v ∈ r.l2g ↔ ∃ a : Nat, s.l2g[a]? = some v ∧ ¬ Reached (Adj s.graph) (· = p) a := by
  obtain ⟨hk0, -, hnew, hsafe⟩ := bisection_cases h (by omega) hb
  obtain ⟨x, hx⟩ := Subgraph.hash_ok h hash
  obtain ⟨subs', h1, h2, -⟩ := bisection_ok h hash hx hsafe hk0 hk.le
  rw [hb] at h1
  cases h1
  obtain ⟨i', p, levels, s', l, r, e1, e2, e3, e4, e5, e6, e7, e8, e9⟩ := c147_step hash g h hn k hk subs hb
  have hi : i' = i := by
    rcases Nat.lt_trichotomy i' i with hlt | heq | hgt
    · have := hfirst i' s' hlt e1
      have := e3 s (List.mem_of_getElem? hs)
      omega
    · exact heq
    · have := e4 i s hgt hs
      have := hmax s' (List.mem_of_getElem? e1)
      omega
  subst hi
  rw [hs] at e1
  cases e1
  have hpart := h2.part s (List.mem_of_getElem? hs)
  have hsz : s.graph.sizeVertex = s.l2g.length := hpart.inv.size
  have hpos := hpart.nonempty
  have hle : s.l2g.length ≤ g.sizeVertex := Subgraph.sorted_length hpart.sorted hpart.inv.lt
  have hc0 : ¬ Spans (Adj s.graph) s.graph.sizeVertex 0 := fun h0 =>
    hc (connected_of_spans (fun u v => (c02_symmetric _ hpart.inv.reach u v).mp) h0)
  obtain ⟨p', q1, q2, -, q3, -⟩ := c14_pseudo_peripheral_disconnected s.graph hpart.inv.reach 0 (by omega) hc0
  rw [e5] at q1
  cases q1
  have h1 : 1 < s.graph.sizeVertex := by
    by_contra h1
    refine q3 fun v hv => ?_
    obtain rfl : v = p := by omega
    exact ⟨0, v, rfl, rfl⟩
  obtain ⟨out, o1, o2, o3⟩ := c12_level_traversal_default false s.graph hpart.inv.reach h1 p q2
  rw [e6] at o1
  cases o1
  have hM : maxElem levels = sizeMax := by
    have hmem : sizeMax ∈ levels := by
      unfold Spans at q3
      push Not at q3
      obtain ⟨w, w1, w2⟩ := q3
      rcases o3 w w1 with ⟨d, -, d1, -⟩ | ⟨d1, -⟩
      · exact absurd (reached_iff.mpr ⟨d, d1⟩) w2
      · exact List.mem_of_getElem? d1
    refine le_antisymm ?_ (Subgraph.le_maxElem hmem)
    obtain ⟨a, ha⟩ := List.mem_iff_getElem?.mp (Subgraph.maxElem_mem (List.ne_nil_of_mem hmem))
    have hal : a < s.graph.sizeVertex := by rw [← o2]; exact (List.getElem?_eq_some_iff.mp ha).1
    rcases o3 a hal with ⟨d', d0, -, d2⟩ | ⟨d1, -⟩
    · rw [ha] at d2
      cases d2
      unfold sizeMax; omega
    · rw [ha] at d1
      exact (Option.some.inj d1).le
  have hhalf : 2 ^ 53 < sizeMax / 2 ∧ sizeMax / 2 < sizeMax := by decide
  have hlev : ∀ a d : Nat, levels[a]? = some d → (d ≤ maxElem levels / 2 ↔ Reached (Adj s.graph) (· = p) a) := by
    intro a d ha
    have hal : a < s.graph.sizeVertex := by rw [← o2]; exact (List.getElem?_eq_some_iff.mp ha).1
    rw [hM]
    rcases o3 a hal with ⟨d', d0, d1, d2⟩ | ⟨d1, d2⟩
    · rw [ha] at d2
      cases d2
      exact ⟨fun _ => reached_iff.mpr ⟨d, d1⟩, fun _ => by omega⟩
    · rw [ha] at d1
      cases d1
      exact ⟨fun hd => by omega, fun hd => absurd hd d2⟩
  refine ⟨p, l, r, e2, q2, q3, fun v => ?_, fun v => ?_⟩
  · rw [e8]
    constructor
    · rintro ⟨a, d, d1, d2, d3⟩
      exact ⟨a, d2, (hlev a d d1).mp d3⟩
    · rintro ⟨a, d2, d3⟩
      have hal : a < levels.length := by rw [o2, hsz]; exact (List.getElem?_eq_some_iff.mp d2).1
      exact ⟨a, levels[a], List.getElem?_eq_getElem hal, d2, (hlev a _ (List.getElem?_eq_getElem hal)).mpr d3⟩
  · rw [e9]
    constructor
    · rintro ⟨a, d, d1, d2, d3⟩
      exact ⟨a, d2, fun hr => by have := (hlev a d d1).mpr hr; omega⟩
    · rintro ⟨a, d2, d3⟩
      have hal : a < levels.length := by rw [o2, hsz]; exact (List.getElem?_eq_some_iff.mp d2).1
      refine ⟨a, levels[a], List.getElem?_eq_getElem hal, d2, ?_⟩
      by_contra hx
      exact d3 ((hlev a _ (List.getElem?_eq_getElem hal)).mp (by omega))

/-- The first two parts of a star: a leaf with the centre, and all other leaves. -/
theorem star_split (hash : Nat → Nat) (g : Graph) (h : Reachable false g) (hn : g.sizeVertex ≤ 2 ^ 53) (c : Nat)
    (hc : c < g.sizeVertex) (hstar : ∀ u v, u < g.sizeVertex → v < g.sizeVertex → (Adj g u v ↔ u ≠ v ∧ (u = c ∨ v = c)))
    (h4 : 4 ≤ g.sizeVertex) (subs : List Subgraph) (hb : bisection hash g 2 = .ok subs) :
    ∃ a b, subs = [a, b] ∧ a.l2g.length = 2 ∧ b.l2g.length = g.sizeVertex - 2 ∧ c ∉ b.l2g := by
  obtain ⟨-, hkn, hnew, hsafe⟩ := bisection_cases h (by omega) hb
  obtain ⟨x, hx⟩ := Subgraph.hash_ok h hash
  obtain ⟨subs', h1, h2, -⟩ := bisection_ok h hash hx hsafe (by omega) hkn
  rw [hb] at h1
  cases h1
  have hsym : ∀ u v, Adj g u v → Adj g v u := fun u v => (c02_symmetric _ h u v).mp
  have hspan : Spans (Adj g) g.sizeVertex c := by
    intro v hv
    by_cases he : c = v
    · exact ⟨0, c, rfl, he⟩
    · exact ⟨1, c, rfl, Walk.single ((hstar c v hc hv).mpr ⟨he, .inl rfl⟩)⟩
  have hcon := connected_of_spans hsym hspan
  obtain ⟨p, m, a, b, s1, s2, s3, s4, s5⟩ := c107_split hash g h hn hcon subs hb
  subst s3
  obtain ⟨p', -, m', t1, t2, -, t3, -, t4⟩ := c14_pseudo_peripheral g h 0 (by omega) (hcon 0 (by omega))
  rw [s1] at t1
  cases t1
  obtain ⟨L, hr, hg⟩ := reach_rep h
  have hL := hr.sizeVertex
  have hd0 : IsDist (Adj g) (· = p) p 0 := (isDist_zero (S := (· = p))).mpr rfl
  have hother : ∀ q r, ∃ u, u < g.sizeVertex ∧ u ≠ q ∧ u ≠ r := by
    intro q r
    by_contra hno
    push Not at hno
    have h0 := hno 0 (by omega)
    have h1 := hno 1 (by omega)
    have h2 := hno 2 (by omega)
    omega
  have hpc : p ≠ c := by
    intro hpc
    rw [hpc] at t3 t4 hd0
    obtain ⟨u, u1, u2, -⟩ := hother c c
    obtain ⟨w, w1, w2, w3⟩ := hother c u
    obtain ⟨t5, v, v1, v2⟩ := t3
    have hvc : v ≠ c := by
      rintro rfl
      obtain rfl := v2.unique hd0
      obtain ⟨k, k1, k2⟩ := t5 u u1
      obtain rfl : k = 0 := by omega
      exact u2 ((isDist_zero (S := (· = v))).mp k2)
    have := t4 v _ _ v2 (hr.degree (by omega)) (hr.degree (by omega))
    have hv : (row L v).length ≤ 1 := by
      have hall : ∀ y ∈ row L v, y = c := by
        intro y hy
        have hy' := hr.adj_iff.mpr hy
        rcases ((hstar v y v1 (adj_lt h hy').2).mp hy').2 with e | e
        · exact absurd e hvc
        · exact e
      have hnd := hg.nodup v
      match hm : row L v with
      | [] => simp
      | [_] => simp
      | y :: z :: t =>
        rw [hm] at hall hnd
        have hy := hall y (by simp)
        have hz := hall z (by simp)
        subst hy hz
        simp at hnd
    have hcl : 2 ≤ (row L c).length := by
      have hu : u ∈ row L c := hr.adj_iff.mp ((hstar c u hc u1).mpr ⟨u2.symm, .inl rfl⟩)
      have hw : w ∈ row L c := hr.adj_iff.mp ((hstar c w hc w1).mpr ⟨w2.symm, .inl rfl⟩)
      have : [u, w] ⊆ row L c := by simp [hu, hw]
      have := (List.subperm_of_subset (by simp [w3.symm]) this).length_le
      simpa using this
    omega
  have hd1 : IsDist (Adj g) (· = p) c 1 := by
    refine ⟨⟨p, rfl, Walk.single ((hstar p c t2 hc).mpr ⟨hpc, .inr rfl⟩)⟩, ?_⟩
    rintro j hj _ rfl hw
    obtain rfl : j = 0 := by omega
    exact hpc hw
  have hd2 : ∀ v, v < g.sizeVertex → v ≠ p → v ≠ c → IsDist (Adj g) (· = p) v 2 := by
    intro v hv h1 h2
    refine ⟨⟨p, rfl, c, Walk.single ((hstar p c t2 hc).mpr ⟨hpc, .inr rfl⟩), (hstar c v hc hv).mpr ⟨h2.symm, .inl rfl⟩⟩, ?_⟩
    rintro j hj _ rfl hw
    have hj' : j = 0 ∨ j = 1 := by omega
    rcases hj' with rfl | rfl
    · exact h1 (Eq.symm hw)
    · obtain ⟨_, rfl, he⟩ := hw
      rcases ((hstar _ v t2 hv).mp he).2 with e | e
      · exact hpc e
      · exact h2 e
  have hm : m = 2 := by
    obtain ⟨u, u1, u2, u3⟩ := hother p c
    obtain ⟨k, k1, k2⟩ := s2.1 u u1
    have := k2.unique (hd2 u u1 u2 u3)
    obtain ⟨v, v1, v2⟩ := s2.2
    by_cases e1 : v = p
    · subst e1
      have := v2.unique hd0
      omega
    · by_cases e2 : v = c
      · subst e2
        have := v2.unique hd1
        omega
      · exact v2.unique (hd2 v v1 e1 e2)
  subst hm
  have ha : ∀ v, v ∈ a.l2g ↔ v ∈ [p, c] := by
    intro v
    rw [s4]
    constructor
    · rintro ⟨d, d1, d2⟩
      have hv : v < g.sizeVertex := by
        cases d with
        | zero => obtain rfl := (isDist_zero (S := (· = p))).mp d1; exact t2
        | succ d => obtain ⟨w, -, hw⟩ := d1.pred; exact (adj_lt h hw).2
      by_contra hno
      simp only [List.mem_cons, List.not_mem_nil, or_false, not_or] at hno
      have := d1.unique (hd2 v hv hno.1 hno.2)
      omega
    · simp only [List.mem_cons, List.not_mem_nil, or_false]
      rintro (rfl | rfl)
      · exact ⟨0, hd0, by omega⟩
      · exact ⟨1, hd1, by omega⟩
  have hal : a.l2g.length = 2 := by
    have hnd := (h2.part a (by simp)).inv.nodup
    simpa using ((List.perm_ext_iff_of_nodup hnd (by simpa using hpc)).mpr ha).length_eq
  refine ⟨a, b, rfl, hal, ?_, ?_⟩
  · have := h2.perm.length_eq
    simp at this
    omega
  · intro hcb
    obtain ⟨d, d1, d2⟩ := (s5 c).mp hcb
    have := d1.unique hd1
    omega

/-- C196: a star of `n` vertices cut into `k` parts has `n - k` of its leaves in the last part, and all other parts have at
most two vertices. -/
theorem c196_star (hash : Nat → Nat) (g : Graph) (h : Reachable false g) (hn : g.sizeVertex ≤ 2 ^ 53) (c : Nat)
    (hc : c < g.sizeVertex) (hstar : ∀ u v, u < g.sizeVertex → v < g.sizeVertex → (Adj g u v ↔ u ≠ v ∧ (u = c ∨ v = c)))
    (k : Nat) (hk : 2 ≤ k) (hkn : k + 2 ≤ g.sizeVertex) :
    ∃ subs r, bisection hash g k = .ok subs ∧ subs.length = k ∧ subs[k - 1]? = some r ∧
      r.sizeVertex = g.sizeVertex - k ∧ c ∉ r.l2g ∧ ∀ j t, j < k - 1 → subs[j]? = some t → t.sizeVertex ≤ 2 := by
  obtain ⟨L, hr, hg⟩ := reach_rep h
  have hL := hr.sizeVertex
  have hsafe : ∀ v, v < g.sizeVertex → v < 2 * g.sizeEdge false := by
    have hst := hr.stored hg
    simp only [Bool.false_eq_true, if_false] at hst
    rw [← hst, List.length_flatten]
    have := List.length_le_sum_of_one_le (L.map List.length) (by
      intro i hi
      obtain ⟨w, hw, rfl⟩ := List.mem_map.mp hi
      obtain ⟨u, hu, rfl⟩ := List.getElem_of_mem hw
      have hex : ∃ v, v < g.sizeVertex ∧ Adj g u v := by
        by_cases huc : u = c
        · by_cases h0 : c = 0
          · exact ⟨1, by omega, (hstar u 1 (by omega) (by omega)).mpr (by omega)⟩
          · exact ⟨0, by omega, (hstar u 0 (by omega) (by omega)).mpr (by omega)⟩
        · exact ⟨c, hc, (hstar u c (by omega) hc).mpr (by omega)⟩
      obtain ⟨v, -, hv⟩ := hex
      have := hr.adj_iff.mp hv
      rw [row_of_lt hu] at this
      exact List.length_pos_of_mem this)
    rw [List.length_map] at this
    intro v hv
    omega
  obtain ⟨x, hx⟩ := Subgraph.hash_ok h hash
  have hok : ∀ k, 0 < k → k ≤ g.sizeVertex → ∃ subs, bisection hash g k = .ok subs ∧ Parts g x subs ∧ subs.length = k :=
    fun k h1 h2 => bisection_ok h hash hx hsafe h1 h2
  induction k, hk using Nat.le_induction with
  | base =>
    obtain ⟨subs, b1, b2, b3⟩ := hok 2 (by omega) (by omega)
    obtain ⟨a, b, rfl, s1, s2, s3⟩ := star_split hash g h hn c hc hstar (by omega) subs b1
    refine ⟨[a, b], b, b1, rfl, rfl, ?_, s3, ?_⟩
    · have : b.sizeVertex = b.l2g.length := (b2.part b (by simp)).inv.size
      omega
    · intro j t hj ht
      obtain rfl : j = 0 := by omega
      cases ht
      have : a.sizeVertex = a.l2g.length := (b2.part a (by simp)).inv.size
      omega
  | succ k hk ih =>
    obtain ⟨subs, s, b1, b2, b3, b4, b5, b6⟩ := ih (by omega)
    obtain ⟨subs', c1, hP, c3⟩ := hok k (by omega) (by omega)
    rw [b1] at c1
    cases c1
    have hpart := hP.part s (List.mem_of_getElem? b3)
    have hsz : s.graph.sizeVertex = s.l2g.length := hpart.inv.size
    have hsz' : s.sizeVertex = s.l2g.length := hsz
    have hnone : ∀ u v, ¬ Adj s.graph u v := by
      intro u v huv
      obtain ⟨u1, v1⟩ := adj_lt hpart.inv.reach huv
      rw [hsz] at u1 v1
      have := (hpart.inv.adj u v _ _ (List.getElem?_eq_getElem u1) (List.getElem?_eq_getElem v1)).mp huv
      obtain ⟨w1, w2⟩ := adj_lt h this
      rcases ((hstar _ _ w1 w2).mp this).2 with e | e
      · exact b5 (e ▸ List.getElem_mem u1)
      · exact b5 (e ▸ List.getElem_mem v1)
    obtain ⟨p, l, r, d1, d2, -, d4, d5⟩ := c196_component hash g h hn k (by omega) subs b1 (k - 1) s b3
      (fun t ht => by
        obtain ⟨j, hj⟩ := List.mem_iff_getElem?.mp ht
        have hjl := (List.getElem?_eq_some_iff.mp hj).1
        by_cases hjk : j = k - 1
        · subst hjk
          rw [b3] at hj
          cases hj
          exact le_refl _
        · have := b6 j t (by omega) hj
          omega)
      (fun j t hj ht => by have := b6 j t hj ht; omega)
      (fun hcon => by
        have := (reached_alone hnone).mp (hcon 0 (by omega) 1 (by omega))
        omega)
    rw [hsz'] at d2
    obtain ⟨subs'', e1, hP', e3⟩ := hok (k + 1) (by omega) (by omega)
    rw [d1] at e1
    cases e1
    have hlp := hP'.part l (List.mem_append_left _ (List.mem_iff_getElem?.mpr ⟨k - 1, List.getElem?_set_self (by omega)⟩))
    have hrp := hP'.part r (by simp)
    have hl1 : l.sizeVertex = l.l2g.length := hlp.inv.size
    have hr1 : r.sizeVertex = r.l2g.length := hrp.inv.size
    have hlm : ∀ v, v ∈ l.l2g ↔ v ∈ [s.l2g[p]] := by
      intro v
      rw [d4]
      simp only [List.mem_singleton]
      constructor
      · rintro ⟨a, a1, a2⟩
        obtain rfl := (reached_alone hnone).mp a2
        rw [List.getElem?_eq_getElem d2] at a1
        exact (Option.some.inj a1).symm
      · rintro rfl
        exact ⟨p, List.getElem?_eq_getElem d2, (reached_alone hnone).mpr rfl⟩
    have hll : l.l2g.length = 1 := by
      simpa using ((List.perm_ext_iff_of_nodup hlp.inv.nodup (by simp)).mpr hlm).length_eq
    have hrm : ∀ v, v ∈ s.l2g[p] :: r.l2g ↔ v ∈ s.l2g := by
      intro v
      rw [List.mem_cons, d5]
      constructor
      · rintro (rfl | ⟨a, a1, -⟩)
        · exact List.getElem_mem d2
        · exact List.mem_of_getElem? a1
      · intro hv
        obtain ⟨a, ha⟩ := List.mem_iff_getElem?.mp hv
        by_cases hap : a = p
        · subst hap
          rw [List.getElem?_eq_getElem d2] at ha
          exact .inl (Option.some.inj ha).symm
        · exact .inr ⟨a, ha, fun hre => hap ((reached_alone hnone).mp hre)⟩
    have hnd : (s.l2g[p] :: r.l2g).Nodup := by
      rw [List.nodup_cons]
      refine ⟨fun hin => ?_, hrp.inv.nodup⟩
      obtain ⟨a, a1, a2⟩ := (d5 _).mp hin
      obtain ⟨a3, a4⟩ := List.getElem?_eq_some_iff.mp a1
      have := (hpart.inv.nodup.getElem_inj_iff).mp a4
      exact a2 ((reached_alone hnone).mpr this)
    have hrl : r.l2g.length + 1 = s.l2g.length := by
      simpa using ((List.perm_ext_iff_of_nodup hnd hpart.inv.nodup).mpr hrm).length_eq
    refine ⟨_, r, d1, e3, ?_, by omega, ?_, ?_⟩
    · rw [List.getElem?_append_right (by simp; omega)]
      simp [b2]
    · intro hcr
      obtain ⟨a, a1, -⟩ := (d5 c).mp hcr
      exact b5 (List.mem_of_getElem? a1)
    · intro j t hj ht
      rw [List.getElem?_append_left (by simp; omega)] at ht
      by_cases hjk : j = k - 1
      · subst hjk
        rw [List.getElem?_set_self (by omega)] at ht
        cases ht
        omega
      · rw [List.getElem?_set_ne (by omega)] at ht
        exact b6 j t (by omega) ht

/-- A star with six leaves around vertex 0. -/
def star6 : Graph := ⟨[1, 2, 3, 4, 5, 6, 0, 0, 0, 0, 0, 0], [0, 6, 7, 8, 9, 10, 11, 12]⟩

theorem star6_reachable : Reachable false star6 :=
  ⟨[.insert (0, 1), .insert (0, 2), .insert (0, 3), .insert (0, 4), .insert (0, 5), .insert (0, 6)],
    by simp [Op.Valid, sizeMax], by decide⟩

theorem star6_adj (u v : Nat) (hu : u < star6.sizeVertex) (hv : v < star6.sizeVertex) :
    Adj star6 u v ↔ u ≠ v ∧ (u = 0 ∨ v = 0) := by
  have key : ∀ a b : Fin 7, (match star6.nbrs a with | .ok r => decide (b.1 ∈ r) | _ => false) =
      decide (a.1 ≠ b.1 ∧ (a.1 = 0 ∨ b.1 = 0)) := by decide +kernel
  have hk := key ⟨u, hu⟩ ⟨v, hv⟩
  dsimp only at hk
  unfold Adj
  cases hm : star6.nbrs u with
  | ok r =>
    rw [hm] at hk
    simpa using decide_eq_decide.mp hk
  | _ =>
    rw [hm] at hk
    simpa using hk

example : ∃ subs r, bisection id star6 4 = .ok subs ∧ subs.length = 4 ∧ subs[3]? = some r ∧ r.sizeVertex = 3 :=
  have ⟨subs, r, h1, h2, h3, h4, _⟩ := c196_star id star6 star6_reachable (by decide) 0 (by decide)
    star6_adj 4 (by omega) (by decide)
  ⟨subs, r, h1, h2, h3, h4⟩

/-- The second of two parts of the star is the largest and not connected. -/
example : ∃ subs s, bisection id star6 2 = .ok subs ∧ subs[1]? = some s ∧ (∀ t ∈ subs, t.sizeVertex ≤ s.sizeVertex) ∧
    (∀ j t, j < 1 → subs[j]? = some t → t.sizeVertex < s.sizeVertex) ∧ ¬ Connected (Adj s.graph) s.sizeVertex := by
  refine ⟨[⟨⟨[1, 0], [0, 1, 2]⟩, [0, 2], [], 6⟩, ⟨⟨[], [0, 0, 0, 0, 0, 0]⟩, [1, 3, 4, 5, 6], [], 6⟩], _, by decide +kernel, rfl,
    by decide, ?_, ?_⟩
  · intro j t hj ht
    obtain rfl : j = 0 := by omega
    cases ht
    decide
  · intro hc
    have := (reached_alone ?_).mp (hc 0 (by decide) 1 (by decide))
    · omega
    · rintro u v ⟨w, h1, h2⟩
      match u with
      | 0 => cases h1; simp at h2
      | 1 => cases h1; simp at h2
      | 2 => cases h1; simp at h2
      | 3 => cases h1; simp at h2
      | 4 => cases h1; simp at h2
      | u + 5 => simp [Graph.nbrs, Graph.sizeVertex, assert] at h1

end Disa.Props
