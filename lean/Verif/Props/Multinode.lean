import Verif.Props.Split

/-!
# Property C150: the iterations of the level set expansion
-/

namespace Disa.Props

open Disa Spec Graph Partition

/-- `D` is what the lower triangle of `ecc` holds, for both orders of its indices. -/
def Table (ecc : List (List Nat)) (n : Nat) (D : Nat → Nat → Nat) : Prop :=
  ∀ a b, b < a → a < n → D b a = D a b ∧ ∃ row, ecc[a]? = some row ∧ row[b]? = some (D a b)

/-- `m` is the largest of the values `D v w` with the other members `w` of `p`, zero if there are none. -/
def Spread (D : Nat → Nat → Nat) (p : List Nat) (v m : Nat) : Prop :=
  (∀ w ∈ p, w ≠ v → D v w ≤ m) ∧ (m = 0 ∨ ∃ w ∈ p, w ≠ v ∧ D v w = m)

/-- `v` is the least member of `p` of least spread. -/
def Centre (D : Nat → Nat → Nat) (p : List Nat) (v : Nat) : Prop :=
  v ∈ p ∧ ∃ m, Spread D p v m ∧ ∀ w ∈ p, ∀ k, Spread D p w k → m ≤ k ∧ (w < v → m < k)

/-- The lists of vertices that the parts are made of. -/
structure Lists (g : Graph) (ps : List (List Nat)) : Prop where
  sorted : ∀ p ∈ ps, p.Pairwise (· < ·)
  lt : ∀ p ∈ ps, ∀ v ∈ p, v < g.sizeVertex
  disjoint : ps.Pairwise List.Disjoint

/-- The vertices `seeds` are the centres of the parts `ps`. -/
def Centres (D : Nat → Nat → Nat) (ps : List (List Nat)) (seeds : List Nat) : Prop :=
  seeds.length = ps.length ∧
    ∀ (i v : Nat) (p : List Nat), ps[i]? = some p → seeds[i]? = some v → Centre D p v

/-- The parts `qs` hold each vertex once, in increasing order, and each vertex with a closest one of the seeds and with all
vertices of a shortest path from it. -/
def Grown (g : Graph) (seeds : List Nat) (qs : List (List Nat)) : Prop :=
  qs.length = seeds.length ∧ (∀ q ∈ qs, q.Pairwise (· < ·)) ∧ qs.flatten.Perm (List.range g.sizeVertex) ∧
    ∀ (i v : Nat) (q : List Nat), qs[i]? = some q → seeds[i]? = some v → v ∈ q ∧
      ∀ u ∈ q, ∃ k, IsDist (Adj g) (· ∈ seeds) u k ∧ Walk (fun a b => Adj g a b ∧ a ∈ q ∧ b ∈ q) k v u

/-- One pass: from the centres of the parts grow new parts. -/
def Pass (g : Graph) (D : Nat → Nat → Nat) (ps qs : List (List Nat)) : Prop :=
  ∃ seeds : List Nat, Centres D ps seeds ∧ Grown g seeds qs

/-- `n` passes. -/
def Passes (g : Graph) (D : Nat → Nat → Nat) : Nat → List (List Nat) → List (List Nat) → Prop
  | 0, ps, qs => ps = qs
  | n + 1, ps, qs => ∃ rs, Passes g D n ps rs ∧ Pass g D rs qs

/-! ### Seeds -/

theorem Spread.unique {D : Nat → Nat → Nat} {p : List Nat} {v m k : Nat} (h1 : Spread D p v m) (h2 : Spread D p v k) :
    m = k := by
  obtain ⟨a1, a2⟩ := h1
  obtain ⟨b1, b2⟩ := h2
  apply Nat.le_antisymm
  · rcases a2 with rfl | ⟨w, hw, hne, rfl⟩
    · omega
    · exact b1 w hw hne
  · rcases b2 with rfl | ⟨w, hw, hne, rfl⟩
    · omega
    · exact a1 w hw hne

/-- A subgraph without levels around it. -/
structure Bare (g : Graph) (s : Subgraph) : Prop where
  size : s.sizeVertex = s.l2g.length
  sorted : s.l2g.Pairwise (· < ·)
  lt : ∀ v ∈ s.l2g, v < g.sizeVertex

theorem bare_get {g : Graph} {s : Subgraph} (h : Bare g s) {i : Nat} (hi : i < s.l2g.length) :
    s.localGlobal i = .ok s.l2g[i] := by
  have hi' : i < s.sizeVertex := by rw [h.size]; exact hi
  simp only [Subgraph.localGlobal, hi', decide_true, assert_true, Out.ok_bind]
  exact rd_ok hi

theorem table_rd {ecc : List (List Nat)} {n : Nat} {D : Nat → Nat → Nat} (ht : Table ecc n D) {a b : Nat} (ha : a < n)
    (hb : b < n) (hne : a ≠ b) : ∃ row, rd ecc (max a b) = .ok row ∧ rd row (min a b) = .ok (D a b) := by
  rcases Nat.lt_or_gt_of_ne hne with h | h
  · obtain ⟨h1, row, h2, h3⟩ := ht b a h hb
    refine ⟨row, ?_, ?_⟩
    · rw [show max a b = b by omega]; exact rd_of_some h2
    · rw [show min a b = a by omega, h1]; exact rd_of_some h3
  · obtain ⟨_, row, h2, h3⟩ := ht a b h ha
    refine ⟨row, ?_, ?_⟩
    · rw [show max a b = a by omega]; exact rd_of_some h2
    · rw [show min a b = b by omega]; exact rd_of_some h3

theorem spread_ok {g : Graph} {s : Subgraph} (h : Bare g s) {ecc : List (List Nat)} {D : Nat → Nat → Nat}
    (ht : Table ecc g.sizeVertex D) {i : Nat} (hi : i < s.l2g.length) :
    ∃ m, loop s.sizeVertex (eccBody s ecc i) 0 = .ok m ∧ Spread D s.l2g s.l2g[i] m := by
  have hnd : s.l2g.Nodup := h.sorted.imp (fun h => Nat.ne_of_lt h)
  obtain ⟨m, h1, h2, h3⟩ := loop_inv (n := s.sizeVertex) (body := eccBody s ecc i) (s := 0)
    (fun (j : Nat) (m : Nat) => (∀ w ∈ s.l2g.take j, w ≠ s.l2g[i] → D s.l2g[i] w ≤ m) ∧
      (m = 0 ∨ ∃ w ∈ s.l2g, w ≠ s.l2g[i] ∧ D s.l2g[i] w = m)) (by simp) (by
    intro j m hj ⟨k1, k2⟩
    have hj' : j < s.l2g.length := by rw [← h.size]; exact hj
    have htake : ∀ w, w ∈ s.l2g.take (j + 1) ↔ w ∈ s.l2g.take j ∨ w = s.l2g[j] := by
      intro w; rw [← List.take_append_getElem hj', List.mem_append, List.mem_singleton]
    unfold eccBody
    by_cases hij : i = j
    · subst hij
      refine ⟨m, by simp, ?_, k2⟩
      intro w hw hne
      rcases (htake w).mp hw with hw | hw
      · exact k1 w hw hne
      · exact absurd hw hne
    · have hne : s.l2g[i] ≠ s.l2g[j] := fun hh => hij ((List.Nodup.getElem_inj_iff hnd).mp hh)
      obtain ⟨row, r1, r2⟩ := table_rd ht (h.lt _ (List.getElem_mem hi)) (h.lt _ (List.getElem_mem hj')) hne
      refine ⟨max (D s.l2g[i] s.l2g[j]) m, by simp [hij, bare_get h hi, bare_get h hj', r1, r2], ?_, ?_⟩
      · intro w hw hwne
        rcases (htake w).mp hw with hw | rfl
        · have := k1 w hw hwne; omega
        · omega
      · by_cases hm : D s.l2g[i] s.l2g[j] ≤ m
        · rw [Nat.max_eq_right hm]; exact k2
        · exact .inr ⟨s.l2g[j], List.getElem_mem hj', fun hh => hne hh.symm, by omega⟩)
  refine ⟨m, h1, ?_, h3⟩
  rw [h.size, List.take_length] at h2
  exact h2

/-- The seed of a part is its centre, if all its spreads are finite for one of its vertices; otherwise there is none. -/
theorem seedOf_ok {g : Graph} {s : Subgraph} (h : Bare g s) {ecc : List (List Nat)} {D : Nat → Nat → Nat}
    (ht : Table ecc g.sizeVertex D) : ∃ v, seedOf ecc s = .ok v ∧
      ((Centre D s.l2g v ∧ ∃ m, m < sizeMax ∧ Spread D s.l2g v m) ∨ (v = sizeMax ∧ ∀ w ∈ s.l2g, ∀ k, Spread D s.l2g w k → sizeMax ≤ k)) ∧
      ((∃ w ∈ s.l2g, ∃ k, k < sizeMax ∧ Spread D s.l2g w k) → Centre D s.l2g v) := by
  obtain ⟨⟨m, v⟩, h1, h2⟩ := loop_inv (n := s.sizeVertex) (body := seedBody s ecc) (s := (sizeMax, sizeMax))
    (fun (j : Nat) (st : Nat × Nat) => (st = (sizeMax, sizeMax) ∧ ∀ w ∈ s.l2g.take j, ∀ k, Spread D s.l2g w k → sizeMax ≤ k) ∨
      (st.1 < sizeMax ∧ st.2 ∈ s.l2g.take j ∧ Spread D s.l2g st.2 st.1 ∧
        ∀ w ∈ s.l2g.take j, ∀ k, Spread D s.l2g w k → st.1 ≤ k ∧ (w < st.2 → st.1 < k))) (.inl (by simp)) (by
    rintro j ⟨m, v⟩ hj hI
    have hj' : j < s.l2g.length := by rw [← h.size]; exact hj
    have htake : ∀ w, w ∈ s.l2g.take (j + 1) ↔ w ∈ s.l2g.take j ∨ w = s.l2g[j] := by
      intro w; rw [← List.take_append_getElem hj', List.mem_append, List.mem_singleton]
    have hlt : ∀ w ∈ s.l2g.take j, w < s.l2g[j] := by
      intro w hw
      obtain ⟨i, hi, rfl⟩ := List.mem_iff_getElem.mp hw
      rw [List.length_take] at hi
      rw [List.getElem_take]
      exact List.pairwise_iff_getElem.mp h.sorted i j (by omega) hj' (by omega)
    obtain ⟨k, k1, k2⟩ := spread_ok h ht hj'
    unfold seedBody
    simp only [k1, Out.ok_bind, bare_get h hj']
    by_cases hm : m > k
    · refine ⟨(k, s.l2g[j]), by simp [hm], .inr ⟨?_, (htake _).mpr (.inr rfl), k2, ?_⟩⟩
      · rcases hI with ⟨hI, _⟩ | ⟨hI, _⟩
        · cases hI; exact hm
        · have : m < sizeMax := hI
          show k < sizeMax
          omega
      · intro w hw k' hk'
        show k ≤ k' ∧ (w < s.l2g[j] → k < k')
        rcases (htake w).mp hw with hw | rfl
        · have : k < k' := by
            rcases hI with ⟨hI, hI2⟩ | ⟨_, _, _, hI2⟩
            · cases hI
              have := hI2 w hw k' hk'
              omega
            · have := (hI2 w hw k' hk').1
              have hmm : m ≤ k' := this
              omega
          exact ⟨by omega, fun _ => this⟩
        · have := hk'.unique k2
          exact ⟨by omega, fun hh => absurd hh (Nat.lt_irrefl _)⟩
    · refine ⟨(m, v), by simp [hm], ?_⟩
      rcases hI with ⟨hI, hI2⟩ | ⟨i1, i2, i3, i4⟩
      · cases hI
        refine .inl ⟨rfl, fun w hw k' hk' => ?_⟩
        rcases (htake w).mp hw with hw | rfl
        · exact hI2 w hw k' hk'
        · have := hk'.unique k2; omega
      · refine .inr ⟨i1, (htake _).mpr (.inl i2), i3, fun w hw k' hk' => ?_⟩
        rcases (htake w).mp hw with hw | rfl
        · exact i4 w hw k' hk'
        · have := hk'.unique k2
          have h5 := hlt v i2
          show m ≤ k' ∧ (s.l2g[j] < v → m < k')
          exact ⟨by omega, fun hh => by omega⟩)
  rw [h.size, List.take_length] at h2
  refine ⟨v, by unfold seedOf; rw [h1]; rfl, ?_, ?_⟩
  · rcases h2 with ⟨h2, h3⟩ | ⟨h2, h3, h4, h5⟩
    · cases h2; exact .inr ⟨rfl, h3⟩
    · exact .inl ⟨⟨h3, _, h4, h5⟩, _, h2, h4⟩
  · rintro ⟨w, hw, k, hk, hs⟩
    rcases h2 with ⟨h2, h3⟩ | ⟨h2, h3, h4, h5⟩
    · have := h3 w hw k hs; omega
    · exact ⟨h3, _, h4, h5⟩

/-! ### Growing -/

theorem collect_ok {colors : List Nat} {k n : Nat} (hn : n ≤ colors.length)
    (hk : ∀ v (hv : v < n), colors[v]'(by omega) < k) :
    loop n (collectBody colors) (List.replicate k []) =
      .ok ((List.range k).map fun c => (List.range n).filter fun v => colors.getD v 0 == c) := by
  obtain ⟨st, h1, h2⟩ := loop_inv (n := n) (body := collectBody colors) (s := List.replicate k [])
    (fun (i : Nat) (st : List (List Nat)) =>
      st = (List.range k).map fun c => (List.range i).filter fun v => colors.getD v 0 == c) (by simp) (by
    rintro i st hi rfl
    have hi' : i < colors.length := by omega
    have hc := hk i hi
    refine ⟨_, ?_, rfl⟩
    unfold collectBody
    rw [rd_ok hi', Out.ok_bind, rd_ok (by simpa using hc), Out.ok_bind, wr_ok (by simpa using hc)]
    congr 1
    apply List.ext_getElem (by simp)
    intro c h1 h2
    simp only [List.length_map, List.length_range] at h2
    rw [List.getElem_set]
    simp only [List.getElem_map, List.getElem_range, List.range_succ, List.filter_append]
    have hg : colors.getD i 0 = colors[i] := by simp [hi']
    split
    · rename_i hcc
      subst hcc
      simp [hi']
    · rename_i hcc
      have : (colors.getD i 0 == c) = false := by rw [hg, beq_eq_false_iff_ne]; exact hcc
      simp only [List.filter_cons, this, Bool.false_eq_true, if_false, List.filter_nil, List.append_nil])
  rw [h1, h2]

theorem collect_ub {colors : List Nat} {k : Nat} {v : Nat} (hv : v < colors.length) (hk : k ≤ colors[v]) :
    loop colors.length (collectBody colors) (List.replicate k []) = .ub := by
  classical
  have hex : ∃ v, ∃ hv : v < colors.length, k ≤ colors[v] := ⟨v, hv, hk⟩
  obtain ⟨hv', hk'⟩ := Nat.find_spec hex
  have hmin := fun u => Nat.find_min (m := u) hex
  generalize Nat.find hex = w at hv' hk' hmin
  refine loop_fail hv' (collect_ok (k := k) (by omega) fun u hu => ?_) ?_
  · by_contra hc
    exact hmin u hu ⟨by omega, by omega⟩
  · unfold collectBody
    rw [rd_ok hv', Out.ok_bind, rd_ub (by simpa using hk')]
    rfl

/-- The connection of a list of vertices with the part that is made of it. -/
theorem made_bare {g : Graph} (h : Reachable false g) {hash : Nat → Nat} {p : List Nat} {s : Subgraph}
    (hs : p.Pairwise (· < ·)) (hlt : ∀ v ∈ p, v < g.sizeVertex) (hm : Subgraph.make hash g p 0 = .ok s) :
    s.l2g = p ∧ Bare g s := by
  obtain ⟨del, x, h1, hx, h2⟩ := c23_aux h hash hs hlt
  rw [h2] at hm
  obtain ⟨g', he, hg⟩ := Out.bind_eq_ok.mp hm
  cases hg
  have hI := Subgraph.make_inv h hs hlt h1 he x
  exact ⟨rfl, hI.size, hs, hlt⟩

theorem mapOut_get {α β : Type} {f : α → Out β} {l : List α} {r : List β} (h : mapOut f l = .ok r) {i : Nat} {a : α}
    (ha : l[i]? = some a) : ∃ b, r[i]? = some b ∧ f a = .ok b := by
  induction l generalizing r i with
  | nil => simp at ha
  | cons x l ih =>
    simp only [mapOut, Out.bind_eq_ok, Out.pure_eq, Out.ok.injEq] at h
    obtain ⟨y, h1, ys, h2, rfl⟩ := h
    cases i with
    | zero => simp only [List.getElem?_cons_zero, Option.some.injEq] at ha; subst ha; exact ⟨y, rfl, h1⟩
    | succ i => rw [List.getElem?_cons_succ] at ha ⊢; exact ih h2 ha

theorem mapOut_len {α β : Type} {f : α → Out β} {l : List α} {r : List β} (h : mapOut f l = .ok r) :
    r.length = l.length := by
  induction l generalizing r with
  | nil => simp only [mapOut, Out.ok.injEq] at h; rw [← h]; rfl
  | cons x l ih =>
    simp only [mapOut, Out.bind_eq_ok, Out.pure_eq, Out.ok.injEq] at h
    obtain ⟨y, _, ys, h1, h2⟩ := h
    rw [← h2, List.length_cons, ih h1, List.length_cons]

theorem mapOut_total {α β : Type} {f : α → Out β} {l : List α} (h : ∀ a ∈ l, ∃ b, f a = .ok b) :
    ∃ r, mapOut f l = .ok r := by
  induction l with
  | nil => exact ⟨[], rfl⟩
  | cons x l ih =>
    obtain ⟨y, hy⟩ := h x (by simp)
    obtain ⟨ys, hys⟩ := ih (fun a ha => h a (by simp [ha]))
    exact ⟨y :: ys, by simp [mapOut, hy, hys]⟩

/-- The parts made of lists of vertices. -/
def makeAll (hash : Nat → Nat) (g : Graph) (ps : List (List Nat)) : Out (List Subgraph) :=
  mapOut (fun p => Subgraph.make hash g p 0) ps

theorem seeds_ok {g : Graph} (h : Reachable false g) {hash : Nat → Nat} {ecc : List (List Nat)} {D : Nat → Nat → Nat}
    (ht : Table ecc g.sizeVertex D) {ps : List (List Nat)} (hl : Lists g ps) {subs : List Subgraph}
    (hm : makeAll hash g ps = .ok subs) :
    ∃ seeds, mapOut (seedOf ecc) subs = .ok seeds ∧ seeds.length = ps.length ∧
      ∀ (i v : Nat) (p : List Nat), ps[i]? = some p → seeds[i]? = some v →
        ((Centre D p v ∧ ∃ m, m < sizeMax ∧ Spread D p v m) ∨ (v = sizeMax ∧ ∀ w ∈ p, ∀ k, Spread D p w k → sizeMax ≤ k)) ∧
        ((∃ w ∈ p, ∃ k, k < sizeMax ∧ Spread D p w k) → Centre D p v) := by
  have hlen := mapOut_len hm
  have hpart : ∀ (i : Nat) (s : Subgraph), subs[i]? = some s → ∃ p, ps[i]? = some p ∧ s.l2g = p ∧ Bare g s := by
    intro i s hs
    have hi : i < ps.length := by rw [← hlen]; exact (List.getElem?_eq_some_iff.mp hs).1
    obtain ⟨s', h1, h2⟩ := mapOut_get hm (List.getElem?_eq_getElem hi)
    rw [hs] at h1
    cases h1
    have hmem := List.getElem_mem hi
    exact ⟨_, List.getElem?_eq_getElem hi, made_bare h (hl.sorted _ hmem) (hl.lt _ hmem) h2⟩
  obtain ⟨seeds, h1⟩ := mapOut_total (f := seedOf ecc) (l := subs) (by
    intro s hs
    obtain ⟨i, hi⟩ := List.mem_iff_getElem?.mp hs
    obtain ⟨p, _, _, hb⟩ := hpart i s hi
    obtain ⟨v, hv, _⟩ := seedOf_ok hb ht
    exact ⟨v, hv⟩)
  refine ⟨seeds, h1, by rw [mapOut_len h1, hlen], ?_⟩
  intro i v p hp hv
  have hi : i < subs.length := by rw [hlen]; exact (List.getElem?_eq_some_iff.mp hp).1
  obtain ⟨v', k1, k2⟩ := mapOut_get h1 (List.getElem?_eq_getElem hi)
  rw [hv] at k1
  cases k1
  obtain ⟨p', k3, k4, k5⟩ := hpart i _ (List.getElem?_eq_getElem hi)
  rw [hp] at k3
  cases k3
  obtain ⟨v2, k6, k7, k8⟩ := seedOf_ok k5 ht
  rw [k2] at k6
  cases k6
  rw [k4] at k7 k8
  exact ⟨k7, k8⟩

theorem mem_of_get {g : Graph} {ps : List (List Nat)} (hl : Lists g ps) {i j u : Nat} {p q : List Nat} (hp : ps[i]? = some p)
    (hq : ps[j]? = some q) (hu : u ∈ p) (hu' : u ∈ q) : i = j := by
  obtain ⟨hi, rfl⟩ := List.getElem?_eq_some_iff.mp hp
  obtain ⟨hj, rfl⟩ := List.getElem?_eq_some_iff.mp hq
  have hpw := List.pairwise_iff_getElem.mp hl.disjoint
  rcases Nat.lt_trichotomy i j with hij | hij | hij
  · exact absurd hu' (hpw i j hi hj hij hu)
  · exact hij
  · exact absurd hu (hpw j i hj hi hij hu')

theorem centres_nodup {g : Graph} {ps : List (List Nat)} (hl : Lists g ps) {seeds : List Nat} (hlen : seeds.length = ps.length)
    (hc : ∀ (i v : Nat) (p : List Nat), ps[i]? = some p → seeds[i]? = some v → v ∈ p) : seeds.Nodup := by
  rw [List.nodup_iff_injective_getElem]
  rintro ⟨i, hi⟩ ⟨j, hj⟩ he
  have he : seeds[i] = seeds[j] := he
  have h1 := hc i _ _ (List.getElem?_eq_getElem (by omega)) (List.getElem?_eq_getElem hi)
  have h2 := hc j _ _ (List.getElem?_eq_getElem (by omega)) (List.getElem?_eq_getElem hj)
  rw [he] at h1
  have := mem_of_get hl (List.getElem?_eq_getElem (by omega)) (List.getElem?_eq_getElem (by omega)) h1 h2
  exact Fin.ext this

/-- A connected graph of two vertices or more has enough edges for the constructor of parts. -/
theorem edges_of_connected {g : Graph} (h : Reachable false g) (h2 : 2 ≤ g.sizeVertex)
    (hc : Connected (Adj g) g.sizeVertex) : ∀ v, v < g.sizeVertex → v < 2 * g.sizeEdge false := by
  obtain ⟨L, hr, hg⟩ := reach_rep h
  rw [hr.sizeVertex, hr.adj_eq] at hc
  rw [hr.sizeVertex] at h2 ⊢
  have hrow : ∀ i (hi : i < L.length), 1 ≤ L[i].length := by
    intro i hi
    obtain ⟨j, hj, hne⟩ : ∃ j, j < L.length ∧ j ≠ i := by
      by_cases h0 : i = 0
      · exact ⟨1, by omega, by omega⟩
      · exact ⟨0, by omega, by omega⟩
    obtain ⟨n, s, rfl, hw⟩ := hc j hj i hi
    cases n with
    | zero => exact absurd hw hne
    | succ n =>
      obtain ⟨w, _, hwi⟩ := hw
      have : w ∈ row L i := hg.symm rfl w i hwi
      rw [row_of_lt hi] at this
      exact List.length_pos_of_mem this
  have hsum : L.length ≤ L.flatten.length := by
    rw [List.length_flatten]
    have := le_sum (l := L.map List.length) (by
      intro x hx
      obtain ⟨r, hr, rfl⟩ := List.mem_map.mp hx
      obtain ⟨i, hi, rfl⟩ := List.mem_iff_getElem.mp hr
      exact hrow i hi)
    simpa using this
  have hst := hr.stored hg
  simp only [Bool.false_eq_true, if_false] at hst
  intro v hv
  omega

theorem spread_exists (D : Nat → Nat → Nat) (p : List Nat) (v : Nat) : ∃ m, Spread D p v m := by
  induction p with
  | nil => exact ⟨0, by simp, .inl rfl⟩
  | cons x p ih =>
    obtain ⟨m, h1, h2⟩ := ih
    by_cases hx : x = v
    · refine ⟨m, ?_, ?_⟩
      · intro w hw hne
        rcases List.mem_cons.mp hw with rfl | hw
        · exact absurd hx hne
        · exact h1 w hw hne
      · rcases h2 with h2 | ⟨w, hw, h3⟩
        · exact .inl h2
        · exact .inr ⟨w, List.mem_cons_of_mem x hw, h3⟩
    · refine ⟨max (D v x) m, ?_, ?_⟩
      · intro w hw hne
        rcases List.mem_cons.mp hw with rfl | hw
        · omega
        · have := h1 w hw hne; omega
      · by_cases hm : D v x ≤ m
        · rw [Nat.max_eq_right hm]
          rcases h2 with h2 | ⟨w, hw, h3⟩
          · exact .inl h2
          · exact .inr ⟨w, List.mem_cons_of_mem x hw, h3⟩
        · exact .inr ⟨x, by simp, hx, by omega⟩

/-- All values for two vertices of the same part are less than the largest index. -/
def Finite (D : Nat → Nat → Nat) (ps : List (List Nat)) : Prop :=
  ∀ p ∈ ps, ∀ v ∈ p, ∀ w ∈ p, v ≠ w → D v w < sizeMax

theorem finite_spread {D : Nat → Nat → Nat} {ps : List (List Nat)} (hf : Finite D ps) {p : List Nat} (hp : p ∈ ps)
    (hne : p ≠ []) : ∃ w ∈ p, ∃ k, k < sizeMax ∧ Spread D p w k := by
  obtain ⟨w, hw⟩ := List.exists_mem_of_ne_nil p hne
  obtain ⟨k, hk⟩ := spread_exists D p w
  refine ⟨w, hw, k, ?_, hk⟩
  rcases hk.2 with rfl | ⟨u, hu, hne, rfl⟩
  · decide
  · exact hf p hp w hw u hu (fun h => hne h.symm)

theorem lists_seeds_lt {g : Graph} {ps : List (List Nat)} (hl : Lists g ps) {seeds : List Nat}
    (hlen : seeds.length = ps.length)
    (hc : ∀ (i v : Nat) (p : List Nat), ps[i]? = some p → seeds[i]? = some v → v ∈ p) : ∀ s ∈ seeds, s < g.sizeVertex := by
  intro s hs
  obtain ⟨i, hi⟩ := List.mem_iff_getElem?.mp hs
  have hi' : i < ps.length := by rw [← hlen]; exact (List.getElem?_eq_some_iff.mp hi).1
  exact hl.lt _ (List.getElem_mem hi') s (hc i s _ (List.getElem?_eq_getElem hi') hi)

theorem grown_lists {g : Graph} {seeds : List Nat} {qs : List (List Nat)} (h : Grown g seeds qs) :
    Lists g qs ∧ ∀ q ∈ qs, q ≠ [] := by
  obtain ⟨h1, h2, h3, h4⟩ := h
  have hnd : qs.flatten.Nodup := h3.nodup_iff.mpr List.nodup_range
  refine ⟨⟨h2, ?_, (List.nodup_flatten.mp hnd).2⟩, ?_⟩
  · intro p hp v hv
    exact List.mem_range.mp (h3.mem_iff.mp (List.mem_flatten.mpr ⟨p, hp, hv⟩))
  · rintro q hq rfl
    obtain ⟨i, hi⟩ := List.mem_iff_getElem?.mp hq
    have hi' : i < seeds.length := by rw [← h1]; exact (List.getElem?_eq_some_iff.mp hi).1
    have := (h4 i _ _ hi (List.getElem?_eq_getElem hi')).1
    simp at this

theorem regrow_ok {g : Graph} (h : Reachable false g) (h2 : 2 ≤ g.sizeVertex) (hc : Connected (Adj g) g.sizeVertex)
    (hash : Nat → Nat) {seeds : List Nat} (hne : seeds ≠ []) (hnd : seeds.Nodup) (hlt : ∀ s ∈ seeds, s < g.sizeVertex) :
    ∃ qs subs, regrow hash g seeds.length seeds = .ok subs ∧ makeAll hash g qs = .ok subs ∧ Grown g seeds qs := by
  obtain ⟨color, c1, c2, c3, c4⟩ := c15_level_expansion false g h seeds hne hnd hlt
  have hcol : ∀ v, v < g.sizeVertex → ∃ i s k, color[v]? = some i ∧ seeds[i]? = some s ∧ IsDist (Adj g) (· ∈ seeds) v k ∧
      Walk (fun a b => Adj g a b ∧ color[a]? = some i ∧ color[b]? = some i) k s v := by
    intro v hv
    rcases c4 v hv with ⟨_, hno⟩ | hyes
    · exfalso
      obtain ⟨s, hs⟩ := List.exists_mem_of_ne_nil seeds hne
      obtain ⟨n, _, rfl, hw⟩ := hc s (hlt s hs) v hv
      exact hno ⟨n, _, hs, hw⟩
    · exact hyes
  have hsmall : ∀ v (hv : v < color.length), color[v] < seeds.length := by
    intro v hv
    obtain ⟨i, s, k, h3, h4, _⟩ := hcol v (by omega)
    rw [List.getElem?_eq_getElem hv, Option.some.injEq] at h3
    rw [h3]
    exact (List.getElem?_eq_some_iff.mp h4).1
  have hcollect := collect_ok (k := seeds.length) (Nat.le_refl color.length) hsmall
  generalize hqs : ((List.range seeds.length).map fun c => (List.range color.length).filter fun v => color.getD v 0 == c) = qs
    at hcollect
  have hqlen : qs.length = seeds.length := by rw [← hqs]; simp
  have hmem : ∀ (i v : Nat) (q : List Nat), qs[i]? = some q → (v ∈ q ↔ color[v]? = some i) := by
    intro i v q hq
    rw [← hqs] at hq
    simp only [List.getElem?_map, Option.map_eq_some_iff] at hq
    obtain ⟨c, hc1, rfl⟩ := hq
    have : c = i := by
      obtain ⟨h5, h6⟩ := List.getElem?_eq_some_iff.mp hc1
      simpa using h6.symm
    subst this
    simp only [List.mem_filter, List.mem_range, beq_iff_eq]
    constructor
    · rintro ⟨h5, h6⟩
      simp only [List.getD_eq_getElem?_getD, List.getElem?_eq_getElem h5, Option.getD_some] at h6
      rw [List.getElem?_eq_getElem h5, h6]
    · intro h5
      refine ⟨(List.getElem?_eq_some_iff.mp h5).1, ?_⟩
      simp [List.getD_eq_getElem?_getD, h5]
  have hsorted : ∀ q ∈ qs, q.Pairwise (· < ·) := by
    intro q hq
    rw [← hqs] at hq
    obtain ⟨c, _, rfl⟩ := List.mem_map.mp hq
    exact List.pairwise_lt_range.sublist List.filter_sublist
  have hperm : qs.flatten.Perm (List.range g.sizeVertex) := by
    rw [List.perm_ext_iff_of_nodup _ List.nodup_range]
    · intro v
      rw [List.mem_flatten, List.mem_range]
      constructor
      · rintro ⟨q, hq, hv⟩
        obtain ⟨i, hi⟩ := List.mem_iff_getElem?.mp hq
        have := (List.getElem?_eq_some_iff.mp ((hmem i v q hi).mp hv)).1
        omega
      · intro hv
        obtain ⟨i, s, k, h3, h4, _⟩ := hcol v hv
        have hi : i < qs.length := by rw [hqlen]; exact (List.getElem?_eq_some_iff.mp h4).1
        exact ⟨qs[i], List.getElem_mem hi, (hmem i v _ (List.getElem?_eq_getElem hi)).mpr h3⟩
    · rw [List.nodup_flatten]
      refine ⟨fun q hq => (hsorted q hq).imp (fun h => Nat.ne_of_lt h), ?_⟩
      rw [List.pairwise_iff_getElem]
      intro i j hi hj hij v hv1 hv2
      have e1 := (hmem i v _ (List.getElem?_eq_getElem hi)).mp hv1
      have e2 := (hmem j v _ (List.getElem?_eq_getElem hj)).mp hv2
      rw [e1, Option.some.injEq] at e2
      omega
  have hgrown : Grown g seeds qs := by
    refine ⟨hqlen, hsorted, hperm, ?_⟩
    intro i v q hq hv
    refine ⟨(hmem i v q hq).mpr (c3 i v hv), ?_⟩
    intro u hu
    have hu' := (hmem i u q hq).mp hu
    obtain ⟨i', s, k, h3, h4, h5, h6⟩ := hcol u (by have := (List.getElem?_eq_some_iff.mp hu').1; omega)
    rw [hu', Option.some.injEq] at h3
    subst h3
    rw [hv, Option.some.injEq] at h4
    subst h4
    exact ⟨k, h5, h6.mono (fun a b hab => ⟨hab.1, (hmem i a q hq).mpr hab.2.1, (hmem i b q hq).mpr hab.2.2⟩)⟩
  obtain ⟨hl, hqne⟩ := grown_lists hgrown
  obtain ⟨x, hx⟩ := Subgraph.hash_ok h hash
  have hnew : g ≠ Graph.new := by rintro rfl; simp [Graph.sizeVertex, Graph.new] at h2
  obtain ⟨subs, hs⟩ := mapOut_total (f := fun p => Subgraph.make hash g p 0) (l := qs) (by
    intro q hq
    obtain ⟨s, hs, _⟩ := make_part h hash hx (edges_of_connected h h2 hc) hnew (hl.sorted q hq) (hl.lt q hq)
      (List.length_pos_iff.mpr (hqne q hq))
    exact ⟨s, hs⟩)
  refine ⟨qs, subs, ?_, hs, hgrown⟩
  unfold regrow
  simp only [c1, Out.ok_bind, hcollect, hs]

/-- One pass as a function. -/
def passOf (hash : Nat → Nat) (g : Graph) (ecc : List (List Nat)) (subs : List Subgraph) : Out (List Subgraph) := do
  let seeds ← mapOut (seedOf ecc) subs
  regrow hash g subs.length seeds

section
variable {g : Graph} {hash : Nat → Nat} {ecc : List (List Nat)} {D : Nat → Nat → Nat}

theorem pass_ok (h : Reachable false g) (hc : Connected (Adj g) g.sizeVertex) (ht : Table ecc g.sizeVertex D)
    {ps : List (List Nat)} (hl : Lists g ps) (hne : ∀ p ∈ ps, p ≠ []) (hf : Finite D ps) (h2 : 2 ≤ ps.length)
    {subs : List Subgraph} (hm : makeAll hash g ps = .ok subs) :
    ∃ seeds qs subs', mapOut (seedOf ecc) subs = .ok seeds ∧ seeds ≠ List.replicate subs.length 0 ∧
      regrow hash g subs.length seeds = .ok subs' ∧ makeAll hash g qs = .ok subs' ∧ Centres D ps seeds ∧ Grown g seeds qs := by
  obtain ⟨seeds, s1, s2, s3⟩ := seeds_ok h ht hl hm
  have hcen : Centres D ps seeds := by
    refine ⟨s2, fun i v p hp hv => (s3 i v p hp hv).2 ?_⟩
    have hmem := List.mem_of_getElem? hp
    exact finite_spread hf hmem (hne p hmem)
  have hin : ∀ (i v : Nat) (p : List Nat), ps[i]? = some p → seeds[i]? = some v → v ∈ p := fun i v p hp hv =>
    (hcen.2 i v p hp hv).1
  have hnd := centres_nodup hl s2 hin
  have hlt := lists_seeds_lt hl s2 hin
  have hlen := mapOut_len hm
  have hn0 : seeds ≠ [] := by rintro rfl; simp at s2; omega
  have hn2 : 2 ≤ g.sizeVertex := by
    have := (List.subperm_of_subset hnd (fun v hv => List.mem_range.mpr (hlt v hv))).length_le
    rw [List.length_range] at this
    omega
  obtain ⟨qs, subs', r1, r2, r3⟩ := regrow_ok h hn2 hc hash hn0 hnd hlt
  refine ⟨seeds, qs, subs', s1, ?_, by rw [hlen, ← s2]; exact r1, r2, hcen, r3⟩
  rintro rfl
  rw [List.length_replicate] at s2
  have := List.nodup_replicate.mp hnd
  omega

theorem passes_loop (h : Reachable false g) (hc : Connected (Adj g) g.sizeVertex) (ht : Table ecc g.sizeVertex D)
    (hf : ∀ v w, v < g.sizeVertex → w < g.sizeVertex → v ≠ w → D v w < sizeMax)
    {ps : List (List Nat)} (hl : Lists g ps) (hne : ∀ p ∈ ps, p ≠ []) (h2 : 2 ≤ ps.length)
    {subs : List Subgraph} (hm : makeAll hash g ps = .ok subs) (n : Nat) :
    ∃ qs subs', multinodeLoop hash g ecc n subs = .ok subs' ∧ makeAll hash g qs = .ok subs' ∧ Passes g D n ps qs ∧
      loop n (fun _ => passOf hash g ecc) subs = .ok subs' := by
  have hlen := mapOut_len hm
  have hfin : ∀ qs, Lists g qs → Finite D qs := fun qs hq p hp v hv w hw hvw => hf v w (hq.lt p hp v hv) (hq.lt p hp w hw) hvw
  have hstep : ∀ n, ∃ st, loop n (fun _ st => multinodeStep hash g ecc st) (false, List.replicate subs.length 0, subs) = .ok st ∧
      loop n (fun _ => passOf hash g ecc) subs = .ok st.2.2 ∧
      ((n = 0 ∧ st = (false, List.replicate subs.length 0, subs)) ∨
        ∃ qs, 0 < n ∧ makeAll hash g qs = .ok st.2.2 ∧ Passes g D n ps qs ∧ Grown g st.2.1 qs ∧ qs.length = ps.length ∧
          regrow hash g ps.length st.2.1 = .ok st.2.2 ∧
          (st.1 = true → Centres D qs st.2.1 ∧ mapOut (seedOf ecc) st.2.2 = .ok st.2.1)) := by
    intro n
    induction n with
    | zero => exact ⟨_, rfl, rfl, .inl ⟨rfl, rfl⟩⟩
    | succ n ih =>
      obtain ⟨st, k1, kp, k2⟩ := ih
      rw [loop, k1, Out.ok_bind, loop, kp, Out.ok_bind]
      rcases k2 with ⟨rfl, rfl⟩ | ⟨qs, k0, k2, k3, k4, k5, k6, k7⟩
      · obtain ⟨seeds, qs, subs', p1, p2, p3, p4, p5, p6⟩ := pass_ok h hc ht hl hne (hfin ps hl) h2 hm
        refine ⟨(false, seeds, subs'), ?_, by unfold passOf; simp only [p1, Out.ok_bind, p3],
          .inr ⟨qs, by omega, p4, ⟨ps, rfl, seeds, p5, p6⟩, p6, by rw [p6.1, p5.1], by rw [← hlen]; exact p3, by simp⟩⟩
        unfold multinodeStep
        have : (seeds == List.replicate subs.length 0) = false := by rw [beq_eq_false_iff_ne]; exact p2
        simp only [Bool.false_eq_true, if_false, p1, Out.ok_bind, this, p3, Out.pure_eq]
      · obtain ⟨b, prev, cur⟩ := st
        obtain ⟨hl', hne'⟩ := grown_lists k4
        have hcl := mapOut_len k2
        obtain ⟨seeds, rs, subs', p1, p2, p3, p4, p5, p6⟩ := pass_ok h hc ht hl' hne' (hfin qs hl') (by omega) k2
        simp only at k1 kp k2 k4 k6 k7 p1 p3 hcl ⊢
        have hsame : mapOut (seedOf ecc) cur = .ok prev → passOf hash g ecc cur = .ok cur := by
          intro hs
          unfold passOf
          rw [hs, Out.ok_bind, hcl, k5]
          exact k6
        cases b with
        | true =>
          obtain ⟨q1, q2⟩ := k7 rfl
          exact ⟨(true, prev, cur), by simp [multinodeStep], hsame q2,
            .inr ⟨qs, by omega, k2, ⟨qs, k3, prev, q1, k4⟩, k4, k5, k6, fun _ => ⟨q1, q2⟩⟩⟩
        | false =>
          by_cases hs : seeds = prev
          · subst hs
            exact ⟨(true, seeds, cur), by simp [multinodeStep, p1], hsame p1,
              .inr ⟨qs, by omega, k2, ⟨qs, k3, seeds, p5, k4⟩, k4, k5, k6, fun _ => ⟨p5, p1⟩⟩⟩
          · refine ⟨(false, seeds, subs'), ?_, by unfold passOf; rw [p1, Out.ok_bind]; exact p3,
              .inr ⟨rs, by omega, p4, ⟨qs, k3, seeds, p5, p6⟩, p6, by rw [p6.1, p5.1, k5],
                by rw [← k5, ← hcl]; exact p3, by simp⟩⟩
            have : (seeds == prev) = false := by rw [beq_eq_false_iff_ne]; exact hs
            simp only [multinodeStep, Bool.false_eq_true, if_false, p1, Out.ok_bind, this, p3, Out.pure_eq]
  obtain ⟨st, k1, kp, k2⟩ := hstep n
  have hloop : multinodeLoop hash g ecc n subs = .ok st.2.2 := by unfold multinodeLoop; rw [k1]; rfl
  rcases k2 with ⟨rfl, rfl⟩ | ⟨qs, -, k2, k3, -⟩
  · exact ⟨ps, subs, hloop, hm, rfl, kp⟩
  · exact ⟨qs, _, hloop, k2, k3, kp⟩

/-- C150: with a table of finite values the call makes as many passes as it is told to, on a connected graph.  That it may
stop early is not visible. -/
theorem c150_passes (h : Reachable false g) (hc : Connected (Adj g) g.sizeVertex) (ht : Table ecc g.sizeVertex D)
    (hf : ∀ v w, v < g.sizeVertex → w < g.sizeVertex → v ≠ w → D v w < sizeMax)
    {ps : List (List Nat)} (hl : Lists g ps) (hne : ∀ p ∈ ps, p ≠ []) (h2 : 2 ≤ ps.length)
    {subs : List Subgraph} (hm : makeAll hash g ps = .ok subs) (n : Nat) :
    ∃ qs subs', multinodeLoop hash g ecc n subs = .ok subs' ∧ makeAll hash g qs = .ok subs' ∧ Passes g D n ps qs := by
  obtain ⟨qs, subs', h1, h2, h3, _⟩ := passes_loop h hc ht hf hl hne h2 hm n
  exact ⟨qs, subs', h1, h2, h3⟩

/-- C150: if one more pass changes nothing, no number of further passes does. -/
theorem c150_converged (h : Reachable false g) (hc : Connected (Adj g) g.sizeVertex) (ht : Table ecc g.sizeVertex D)
    (hf : ∀ v w, v < g.sizeVertex → w < g.sizeVertex → v ≠ w → D v w < sizeMax)
    {ps : List (List Nat)} (hl : Lists g ps) (hne : ∀ p ∈ ps, p ≠ []) (h2 : 2 ≤ ps.length)
    {subs : List Subgraph} (hm : makeAll hash g ps = .ok subs) (n : Nat)
    (hsame : multinodeLoop hash g ecc (n + 1) subs = multinodeLoop hash g ecc n subs) (m : Nat) (hnm : n ≤ m) :
    multinodeLoop hash g ecc m subs = multinodeLoop hash g ecc n subs := by
  have key : ∀ n, multinodeLoop hash g ecc n subs = loop n (fun _ => passOf hash g ecc) subs := by
    intro n
    obtain ⟨qs, subs', k1, _, _, k2⟩ := passes_loop h hc ht hf hl hne h2 hm n
    rw [k1, k2]
  rw [key, key] at hsame ⊢
  induction m, hnm using Nat.le_induction with
  | base => rfl
  | succ m _ ih =>
    rw [loop] at hsame
    rw [loop, ih]
    exact hsame

/-- C150: a vertex that cannot be reached from any vertex of the parts makes the first pass undefined: it has no colour. -/
theorem c150_unreached (h : Reachable false g) (ht : Table ecc g.sizeVertex D) {ps : List (List Nat)} (hl : Lists g ps)
    (hne : ∀ p ∈ ps, p ≠ []) (hf : Finite D ps) (h2 : 2 ≤ ps.length) {subs : List Subgraph}
    (hm : makeAll hash g ps = .ok subs) {u : Nat} (hu : u < g.sizeVertex)
    (hno : ∀ p ∈ ps, ∀ v ∈ p, ¬ Reached (Adj g) (· = v) u) (n : Nat) :
    multinodeLoop hash g ecc (n + 1) subs = .ub := by
  obtain ⟨seeds, s1, s2, s3⟩ := seeds_ok h ht hl hm
  have hin : ∀ (i v : Nat) (p : List Nat), ps[i]? = some p → seeds[i]? = some v → v ∈ p := by
    intro i v p hp hv
    have hmem := List.mem_of_getElem? hp
    exact ((s3 i v p hp hv).2 (finite_spread hf hmem (hne p hmem))).1
  have hnd := centres_nodup hl s2 hin
  have hlt := lists_seeds_lt hl s2 hin
  have hlen := mapOut_len hm
  have hn0 : seeds ≠ [] := by rintro rfl; simp at s2; omega
  have hk : seeds.length ≤ g.sizeVertex := by
    have := (List.subperm_of_subset hnd (fun v hv => List.mem_range.mpr (hlt v hv))).length_le
    rwa [List.length_range] at this
  have hsm := reach_small h
  obtain ⟨color, c1, c2, c3, c4⟩ := c15_level_expansion false g h seeds hn0 hnd hlt
  have hcol : color[u]? = some sizeMax := by
    rcases c4 u hu with ⟨h1, _⟩ | ⟨i, s, k, _, h4, _, h6⟩
    · exact h1
    · exfalso
      have hi : i < ps.length := by rw [← s2]; exact (List.getElem?_eq_some_iff.mp h4).1
      exact hno _ (List.getElem_mem hi) s (hin i s _ (List.getElem?_eq_getElem hi) h4)
        ⟨k, s, rfl, h6.mono (fun a b hab => hab.1)⟩
  obtain ⟨hul, hue⟩ := List.getElem?_eq_some_iff.mp hcol
  have hreg : regrow hash g subs.length seeds = .ub := by
    unfold regrow
    rw [c1, Out.ok_bind, collect_ub hul (by rw [hue]; omega)]
    rfl
  have hz : (seeds == List.replicate subs.length 0) = false := by
    rw [beq_eq_false_iff_ne]
    rintro rfl
    rw [List.length_replicate] at s2
    have := List.nodup_replicate.mp hnd
    omega
  have hfirst : multinodeStep hash g ecc (false, List.replicate subs.length 0, subs) = .ub := by
    unfold multinodeStep
    simp only [Bool.false_eq_true, if_false, s1, Out.ok_bind, hz, hreg]
    rfl
  unfold multinodeLoop
  rw [loop_fail (i := 0) (s' := (false, List.replicate subs.length 0, subs)) (by omega) rfl hfirst]
  rfl

/-- C150: a part without vertices, or in which each vertex is infinitely far from another, makes the first pass exit. -/
theorem c150_no_centre (h : Reachable false g) (ht : Table ecc g.sizeVertex D) {ps : List (List Nat)} (hl : Lists g ps)
    {subs : List Subgraph} (hm : makeAll hash g ps = .ok subs) {p : List Nat} (hp : p ∈ ps)
    (hno : ∀ v ∈ p, ∃ w ∈ p, w ≠ v ∧ sizeMax ≤ D v w) (n : Nat) :
    multinodeLoop hash g ecc (n + 1) subs = .exit 1 := by
  obtain ⟨seeds, s1, s2, s3⟩ := seeds_ok h ht hl hm
  have hlen := mapOut_len hm
  have hsm := reach_small h
  obtain ⟨i, hi⟩ := List.mem_iff_getElem?.mp hp
  have hi' : i < seeds.length := by rw [s2]; exact (List.getElem?_eq_some_iff.mp hi).1
  have hmax : sizeMax ≤ seeds[i] ∧ seeds[i] ∈ seeds := by
    refine ⟨?_, List.getElem_mem hi'⟩
    rcases (s3 i _ p hi (List.getElem?_eq_getElem hi')).1 with ⟨⟨h1, _⟩, m, h2, h3⟩ | ⟨h1, _⟩
    · obtain ⟨w, hw, hwne, hD⟩ := hno _ h1
      have := h3.1 w hw hwne
      omega
    · omega
  have hexp : g.levelExpansion seeds = .exit 1 :=
    c15_bad_seeds_exit g seeds (.inr ⟨_, hmax.2, by omega⟩)
  have hz : (seeds == List.replicate subs.length 0) = false := by
    rw [beq_eq_false_iff_ne]
    rintro rfl
    have := List.eq_of_mem_replicate hmax.2
    have h0 : 0 < sizeMax := by decide
    omega
  have hfirst : multinodeStep hash g ecc (false, List.replicate subs.length 0, subs) = .exit 1 := by
    unfold multinodeStep regrow
    simp only [Bool.false_eq_true, if_false, s1, Out.ok_bind, hz, hexp]
    rfl
  have key : ∀ n, loop (n + 1) (fun _ st => multinodeStep hash g ecc st) (false, List.replicate subs.length 0, subs) =
      .exit 1 := by
    intro n
    induction n with
    | zero => rw [loop, loop, Out.ok_bind]; exact hfirst
    | succ n ih => rw [loop, ih]; rfl
  unfold multinodeLoop
  rw [key]
  rfl

/-- C26, C150: of a graph without edges only parts without vertices can be made.  With two or more of them the call returns
them for no iterations and exits otherwise. -/
theorem c26_edgeless_partial (h : Reachable false g) (he : ∀ u v, ¬ Adj g u v) {ps : List (List Nat)} (hl : Lists g ps)
    (h2 : 2 ≤ ps.length) {subs : List Subgraph} (hm : makeAll hash g ps = .ok subs) (n : Nat) :
    multinode hash g n subs = if n = 0 then .ok subs else .exit 1 := by
  have hlen := mapOut_len hm
  have hecc := c16_eccentricity_safe_partial g h (fun ⟨u, v, huv⟩ => he u v huv) []
  have hmade : ∀ s ∈ subs, ∃ p ∈ ps, Subgraph.make hash g p 0 = .ok s := by
    intro s hs
    obtain ⟨i, hi⟩ := List.mem_iff_getElem?.mp hs
    have hi' : i < ps.length := by rw [← hlen]; exact (List.getElem?_eq_some_iff.mp hi).1
    obtain ⟨s', h1, h2⟩ := mapOut_get hm (List.getElem?_eq_getElem hi')
    rw [hi] at h1
    cases h1
    exact ⟨_, List.getElem_mem hi', h2⟩
  have hp : ∀ s ∈ subs, s.isParent hash g = .ok true := by
    intro s hs
    obtain ⟨p, hp, hs'⟩ := hmade s hs
    exact c60_own_parent_partial hash g p 0 s h (hl.sorted p hp) (hl.lt p hp) (.make (by decide) hs')
  have e1 : subs.isEmpty = false := by
    cases subs with
    | nil => simp at hlen; omega
    | cons => rfl
  have e2 : (subs.length == 1) = false := by rw [beq_eq_false_iff_ne]; omega
  have hloop : multinode hash g n subs =
      multinodeLoop hash g ((List.range g.sizeVertex).map fun s => List.replicate s sizeMax ++ [0]) n subs := by
    unfold multinode
    rw [e1, parents_ok hp, e2, hecc]
    rfl
  rw [hloop]
  cases n with
  | zero => rfl
  | succ n =>
    rw [if_neg (by omega)]
    obtain ⟨p, hpm⟩ := List.exists_mem_of_ne_nil ps (by rintro rfl; simp at h2)
    have hp0 : p = [] := by
      rw [List.eq_nil_iff_forall_not_mem]
      intro v hv
      obtain ⟨i, hi⟩ := List.mem_iff_getElem?.mp hpm
      obtain ⟨s, _, hs⟩ := mapOut_get hm hi
      rcases c23_returns g h hash p (hl.sorted p hpm) (hl.lt p hpm) with ⟨h1, _⟩ | ⟨_, _, h1⟩
      · rw [h1] at hs; cases hs
      · have := h1 v hv
        have h0 : g.sizeEdge false = 0 := by
          obtain ⟨L, hr, hg⟩ := reach_rep h
          have hst := hr.stored hg
          have hfl : L.flatten = [] := by
            rw [List.flatten_eq_nil_iff]
            intro r hr'
            obtain ⟨i, hi, rfl⟩ := List.mem_iff_getElem.mp hr'
            rw [List.eq_nil_iff_forall_not_mem]
            intro w hw
            apply he i w
            rw [hr.adj_eq]
            show w ∈ row L i
            rw [row_of_lt hi]
            exact hw
          rw [hfl] at hst
          simp only [List.length_nil, Bool.false_eq_true, if_false] at hst
          omega
        omega
    subst hp0
    refine c150_no_centre (D := fun _ _ => sizeMax) h ?_ hl hm hpm (by simp) n
    intro a b hba ha
    refine ⟨rfl, List.replicate a sizeMax ++ [0], ?_, ?_⟩
    · simp [ha]
    · rw [List.getElem?_append_left (by simpa using hba)]
      simp [hba]

end

/-- The distances in a path of four vertices. -/
def pathDist (a b : Nat) : Nat := max a b - min a b

/-- A path of four vertices. -/
def path4 : Graph := ⟨[1, 0, 2, 1, 3, 2], [0, 1, 3, 5, 6]⟩

theorem path4_reachable : Reachable false path4 :=
  ⟨[.insert (0, 1), .insert (1, 2), .insert (2, 3)], by simp [Op.Valid, sizeMax], by decide⟩

/-- The hypotheses can be met.  One pass moves the border between the parts of a path, a second one changes nothing. -/
example : ∃ subs, Reachable false path4 ∧ Connected (Adj path4) path4.sizeVertex ∧
    Table [[0], [1, 0], [2, 1, 0], [3, 2, 1, 0]] path4.sizeVertex pathDist ∧ Lists path4 [[0], [1, 2, 3]] ∧
    makeAll id path4 [[0], [1, 2, 3]] = .ok subs ∧
    multinodeLoop id path4 [[0], [1, 0], [2, 1, 0], [3, 2, 1, 0]] 1 subs = makeAll id path4 [[0, 1], [2, 3]] ∧
    multinodeLoop id path4 [[0], [1, 0], [2, 1, 0], [3, 2, 1, 0]] 7 subs = makeAll id path4 [[0, 1], [2, 3]] := by
  refine ⟨_, path4_reachable, ?_, ?_, ?_, rfl, by decide +kernel, by decide +kernel⟩
  · refine connected_of_spans (r := 0) (fun u v => (c02_symmetric _ path4_reachable u v).mp) fun v hv => ?_
    have a : Adj path4 0 1 := ⟨[1], by decide, by decide⟩
    have b : Adj path4 1 2 := ⟨[0, 2], by decide, by decide⟩
    have c : Adj path4 2 3 := ⟨[1, 3], by decide, by decide⟩
    have h4 : v < 4 := hv
    obtain rfl | rfl | rfl | rfl : v = 0 ∨ v = 1 ∨ v = 2 ∨ v = 3 := by omega
    · exact ⟨0, 0, rfl, rfl⟩
    · exact ⟨1, 0, rfl, 0, rfl, a⟩
    · exact ⟨2, 0, rfl, 1, ⟨0, rfl, a⟩, b⟩
    · exact ⟨3, 0, rfl, 2, ⟨1, ⟨0, rfl, a⟩, b⟩, c⟩
  · intro a b hba ha
    have ha : a < 4 := ha
    have : (a = 1 ∧ b = 0) ∨ (a = 2 ∧ b = 0) ∨ (a = 2 ∧ b = 1) ∨ (a = 3 ∧ b = 0) ∨ (a = 3 ∧ b = 1) ∨ (a = 3 ∧ b = 2) := by
      omega
    rcases this with ⟨rfl, rfl⟩ | ⟨rfl, rfl⟩ | ⟨rfl, rfl⟩ | ⟨rfl, rfl⟩ | ⟨rfl, rfl⟩ | ⟨rfl, rfl⟩ <;>
      exact ⟨rfl, _, rfl, rfl⟩
  · exact ⟨by decide, by decide, by simp [List.disjoint_left]⟩

/-- Two separate edges: with parts in one of them only the first pass is undefined. -/
example : ∃ subs, Lists pairs4 [[0], [1]] ∧ makeAll id pairs4 [[0], [1]] = .ok subs ∧
    (∀ p ∈ ([[0], [1]] : List (List Nat)), ∀ v ∈ p, ¬ Reached (Adj pairs4) (· = v) 2) ∧
    multinodeLoop id pairs4 [[0], [1, 0], [sizeMax, sizeMax, 0], [sizeMax, sizeMax, 1, 0]] 1 subs = .ub := by
  refine ⟨_, ⟨by decide, by decide, by simp [List.disjoint_left]⟩, rfl, ?_, by decide +kernel⟩
  have key : ∀ n u, u < 2 → ∀ v, Walk (Adj pairs4) n u v → v < 2 := by
    intro n
    induction n with
    | zero => intro u hu v hv; obtain rfl : u = v := hv; exact hu
    | succ n ih =>
      rintro u hu v ⟨w, hw, r, hr, hv⟩
      have := ih u hu w hw
      obtain rfl | rfl : w = 0 ∨ w = 1 := by omega
      · have : Graph.nbrs pairs4 0 = .ok [1] := by decide
        rw [this] at hr; cases hr; simp at hv; omega
      · have : Graph.nbrs pairs4 1 = .ok [0] := by decide
        rw [this] at hr; cases hr; simp at hv; omega
  intro p hp v hv
  have hv2 : v < 2 := by
    simp only [List.mem_cons, List.not_mem_nil, or_false] at hp
    rcases hp with rfl | rfl <;> simp at hv <;> omega
  rintro ⟨n, _, rfl, hw⟩
  have := key n _ hv2 _ hw
  omega

/-- A part without vertices. -/
example : ∃ subs, Lists path4 [[0, 1], []] ∧ makeAll id path4 [[0, 1], []] = .ok subs ∧
    multinodeLoop id path4 [[0], [1, 0], [2, 1, 0], [3, 2, 1, 0]] 1 subs = .exit 1 :=
  ⟨_, ⟨by decide, by decide, by simp [List.disjoint_left]⟩, rfl, by decide +kernel⟩

end Disa.Props
