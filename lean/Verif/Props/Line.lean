import Verif.Props.Nested
import Verif.Props.Bandwidth
import Verif.Props.Renumber

/-!
# Properties C164 and C165: orderings and parts of lines
-/

namespace Disa.Props

open Disa Spec Graph Partition

/-- Distances along a line whose vertices are `f 0`, `f 1`, and so on. -/
theorem line_dist {E : Nat → Nat → Prop} {n : Nat} {f : Nat → Nat}
    (hE : ∀ a b, a < n → b < n → (E (f a) (f b) ↔ b = a + 1 ∨ a = b + 1))
    (hcl : ∀ a w, a < n → E (f a) w → ∃ b, b < n ∧ w = f b)
    (hinj : ∀ a b, a < n → b < n → f a = f b → a = b) {x y : Nat} (hx : x < n) (hy : y < n) :
    IsDist E (· = f x) (f y) ((x - y) + (y - x)) := by
  constructor
  · refine ⟨f x, rfl, ?_⟩
    obtain ⟨k, hk⟩ : ∃ k, (x - y) + (y - x) = k := ⟨_, rfl⟩
    rw [hk]
    induction k generalizing y with
    | zero => have : x = y := by omega
              subst this; rfl
    | succ k ih =>
      by_cases c : x < y
      · exact ⟨f (y - 1), ih (by omega) (by omega), (hE _ _ (by omega) hy).mpr (by omega)⟩
      · exact ⟨f (y + 1), ih (by omega) (by omega), (hE _ _ (by omega) hy).mpr (by omega)⟩
  · rintro j hj _ rfl hw
    have hlow : ∀ k w, Walk E k (f x) w → ∃ b, b < n ∧ w = f b ∧ (x - b) + (b - x) ≤ k := by
      intro k
      induction k with
      | zero => rintro w rfl; exact ⟨x, hx, rfl, by omega⟩
      | succ k ih =>
        rintro w ⟨u, hu, huw⟩
        obtain ⟨b, hb, rfl, hk⟩ := ih u hu
        obtain ⟨c, hc, rfl⟩ := hcl b w hb huw
        have := (hE b c hb hc).mp huw
        exact ⟨c, hc, rfl, by omega⟩
    obtain ⟨b, hb, he, hle⟩ := hlow j _ hw
    have := hinj y b hy hb he
    omega

/-! ### C164 -/

theorem adj_lt {d : Bool} {g : Graph} (h : Reachable d g) {u v : Nat} (huv : Adj g u v) : u < g.sizeVertex ∧ v < g.sizeVertex := by
  obtain ⟨L, hr, hg⟩ := reach_rep h
  rw [hr.adj_iff] at huv
  rw [hr.sizeVertex]
  exact ⟨lt_of_mem_row huv, hg.range u v huv⟩

/-- `g` is a line which visits the vertices in the order `f 0`, `f 1`, and so on. -/
structure LineBy (g : Graph) (n : Nat) (f : Nat → Nat) : Prop where
  reach : Reachable false g
  size : g.sizeVertex = n
  lt : ∀ a, a < n → f a < n
  inj : ∀ a b, a < n → b < n → f a = f b → a = b
  surj : ∀ v, v < n → ∃ a, a < n ∧ v = f a
  adj : ∀ a b, a < n → b < n → (Adj g (f a) (f b) ↔ b = a + 1 ∨ a = b + 1)

theorem LineBy.dist {g : Graph} {n : Nat} {f : Nat → Nat} (h : LineBy g n f) {x y : Nat} (hx : x < n) (hy : y < n) :
    IsDist (Adj g) (· = f x) (f y) ((x - y) + (y - x)) :=
  line_dist h.adj (fun _ w _ hw => h.surj w (by have := (adj_lt h.reach hw).2; rwa [h.size] at this)) h.inj hx hy

theorem LineBy.spans {g : Graph} {n : Nat} {f : Nat → Nat} (h : LineBy g n f) {x : Nat} (hx : x < n) :
    Spans (Adj g) n (f x) := by
  intro v hv
  obtain ⟨y, hy, rfl⟩ := h.surj v hv
  exact reached_iff.mpr ⟨_, h.dist hx hy⟩

theorem LineBy.levelSize {g : Graph} {n : Nat} {f : Nat → Nat} (h : LineBy g n f) {x : Nat} (hx : x = 0 ∨ x + 1 = n)
    (hxn : x < n) (k : Nat) : levelSize (Adj g) n (f x) k ≤ 1 := by
  unfold Spec.levelSize
  rw [Set.ncard_le_one (Set.Finite.subset (Set.finite_lt_nat n) (fun v hv => hv.1))]
  rintro u ⟨hu, hu'⟩ v ⟨hv, hv'⟩
  obtain ⟨a, ha, rfl⟩ := h.surj u hu
  obtain ⟨b, hb, rfl⟩ := h.surj v hv
  have e1 := dist_unique hu' (h.dist hxn ha)
  have e2 := dist_unique hv' (h.dist hxn hb)
  have : a = b := by omega
  rw [this]

theorem perm_getElem? {p : List Nat} {n : Nat} (hp : p.Perm (List.range n)) {a : Nat} (ha : a < n) :
    p[a]? = some (p.getD a 0) ∧ p.getD a 0 < n := by
  have hl : a < p.length := by rw [hp.length_eq, List.length_range]; exact ha
  have e : p[a]? = some p[a] := List.getElem?_eq_getElem hl
  have e' : p.getD a 0 = p[a] := by simp [List.getD_eq_getElem?_getD, hl]
  rw [e']
  exact ⟨e, List.mem_range.mp (hp.mem_iff.mp (List.getElem_mem hl))⟩

theorem LineBy.reorder {g g' : Graph} {n : Nat} {f : Nat → Nat} (h : LineBy g n f) {p : List Nat}
    (hp : p.Perm (List.range n)) (hr : g.reorder p = .ok (g', g)) : LineBy g' n (fun a => p.getD (f a) 0) := by
  obtain ⟨g'', h1, h2, _, h4⟩ := c08_reorder false g h.reach p (by rw [h.size]; exact hp)
  rw [hr] at h1
  cases h1
  have hl : p.length = n := by rw [hp.length_eq, List.length_range]
  have hnd : p.Nodup := hp.nodup_iff.mpr List.nodup_range
  have hget : ∀ a, a < n → ∃ h' : f a < p.length, p.getD (f a) 0 = p[f a] := by
    intro a ha
    have : f a < p.length := by rw [hl]; exact h.lt a ha
    exact ⟨this, by simp [List.getD_eq_getElem?_getD, this]⟩
  refine ⟨Graph.Reachable.step h.reach (op := .reorder p) ?_ (by simp [step, hr]), by rw [h2, h.size], ?_, ?_, ?_, ?_⟩
  · show p.Perm (List.range p.length)
    rw [hl]; exact hp
  · exact fun a ha => (perm_getElem? hp (h.lt a ha)).2
  · intro a b ha hb e
    obtain ⟨ha', ea⟩ := hget a ha
    obtain ⟨hb', eb⟩ := hget b hb
    rw [ea, eb] at e
    exact h.inj a b ha hb ((List.Nodup.getElem_inj_iff hnd).mp e)
  · intro v hv
    obtain ⟨u, hu⟩ := List.mem_iff_getElem?.mp (hp.mem_iff.mpr (List.mem_range.mpr hv))
    have hul : u < n := by
      have := (List.getElem?_eq_some_iff.mp hu).1
      omega
    obtain ⟨a, ha, rfl⟩ := h.surj u hul
    exact ⟨a, ha, by simp [List.getD_eq_getElem?_getD, hu]⟩
  · intro a b ha hb
    obtain ⟨ha', ea⟩ := hget a ha
    obtain ⟨hb', eb⟩ := hget b hb
    rw [ea, eb, h4 _ _ ha' hb']
    exact h.adj a b ha hb

/-- A line in which neighbours have consecutive indices is the generated line. -/
theorem LineBy.eq_line {g line : Graph} {n : Nat} {f : Nat → Nat} (h : LineBy g n f) (h2 : 2 ≤ n) (hn : n < sizeMax)
    (hline : createLine false n = .ok line) (hb : ∀ a b, Adj g a b → a < b → b = a + 1) : g = line := by
  obtain ⟨l', e1, e2, e3, e4⟩ := c27_line false n h2 hn
  rw [hline] at e1
  cases e1
  have hsym := c02_symmetric g h.reach
  have hcut : ∀ a, a + 1 < n → Adj g a (a + 1) := by
    intro a ha
    by_contra hc
    have hc' : ¬ Adj g (a + 1) a := fun h' => hc ((hsym _ _).mp h')
    have key : ∀ x, x < n → (f x ≤ a ↔ f 0 ≤ a) := by
      intro x hx
      induction x with
      | zero => rfl
      | succ x ih =>
        rw [← ih (by omega)]
        have hadj := (h.adj x (x + 1) (by omega) hx).mpr (.inl rfl)
        have hne : f x ≠ f (x + 1) := fun e => by have := h.inj x (x + 1) (by omega) hx e; omega
        rcases Nat.lt_or_gt_of_ne hne with hlt | hlt
        · have := hb _ _ hadj hlt
          constructor
          · intro _; omega
          · intro hle
            by_contra hgt
            have e1 : f x = a := by omega
            rw [this, e1] at hadj
            exact hc hadj
        · have hadj' := (hsym _ _).mp hadj
          have := hb _ _ hadj' hlt
          constructor
          · intro hle
            by_contra hgt
            have e1 : f (x + 1) = a := by omega
            rw [this, e1] at hadj'
            exact hc hadj'
          · intro _; omega
    obtain ⟨x, hx, e⟩ := h.surj a (by omega)
    obtain ⟨y, hy, e'⟩ := h.surj (a + 1) ha
    have k1 := key x hx
    have k2 := key y hy
    omega
  refine graph_ext e2 h.reach (by omega) (by rw [h.size, e3]) (fun a b => ?_)
  rw [e4]
  constructor
  · intro hab
    obtain ⟨h1, h3⟩ := adj_lt h.reach hab
    rw [h.size] at h1 h3
    refine ⟨h1, h3, ?_⟩
    have hne : a ≠ b := by
      rintro rfl
      obtain ⟨x, hx, rfl⟩ := h.surj a h1
      have := (h.adj x x hx hx).mp hab
      omega
    rcases Nat.lt_or_gt_of_ne hne with hlt | hlt
    · exact .inl (hb a b hab hlt)
    · exact .inr ⟨rfl, hb b a ((hsym _ _).mp hab) hlt⟩
  · rintro ⟨h1, h3, rfl | ⟨_, rfl⟩⟩
    · exact hcut a h3
    · exact (hsym _ _).mp (hcut b h1)

theorem LineBy.narrow {g line : Graph} {n : Nat} {f : Nat → Nat} (h : LineBy g n f) (h2 : 2 ≤ n) (hn : n < sizeMax)
    (hline : createLine false n = .ok line) {x : Nat} (hx : x = 0 ∨ x + 1 = n) (hxn : x < n) {p : List Nat}
    (hp : p.Perm (List.range n)) (hnar : Narrow g (f x) p) : g.reorder p = .ok (line, g) := by
  obtain ⟨g', h1, h3⟩ := hnar
  have hl := h.reorder hp h1
  rw [h1, hl.eq_line h2 hn hline]
  intro a b hab hlt
  obtain ⟨k, hk⟩ := h3 a b hab hlt
  rw [h.size] at hk
  have l1 := h.levelSize hx hxn k
  have l2 := h.levelSize hx hxn (k + 1)
  omega

/-- The numberings of the line with `n` vertices. -/
theorem lineBy_of {line g : Graph} {n : Nat} (h2 : 2 ≤ n) (hn : n < sizeMax) (hline : createLine false n = .ok line)
    {p : List Nat} (hp : p.Perm (List.range n)) (hg : line.reorder p = .ok (g, line)) :
    LineBy g n (fun a => p.getD a 0) := by
  obtain ⟨l', e1, e2, e3, e4⟩ := c27_line false n h2 hn
  rw [hline] at e1
  cases e1
  have : LineBy line n id := ⟨e2, e3, fun a ha => ha, fun a b _ _ e => e, fun v hv => ⟨v, hv, rfl⟩, fun a b ha hb => by
    rw [e4]; simp [ha, hb]⟩
  exact this.reorder hp hg

/-- C164, `breadth_first`: from either end of a line in any numbering it finds the order along the line. -/
theorem c164_breadth_first (n : Nat) (h2 : 2 ≤ n) (hn : n < sizeMax) (line g : Graph) (hline : createLine false n = .ok line)
    (p : List Nat) (hp : p.Perm (List.range n)) (hg : line.reorder p = .ok (g, line)) (root : Nat)
    (hroot : p[0]? = some root ∨ p[n - 1]? = some root) :
    ∃ q, g.breadthFirst root = .ok q ∧ g.reorder q = .ok (line, g) := by
  have h := lineBy_of h2 hn hline hp hg
  obtain ⟨x, hx, hxn, rfl⟩ : ∃ x, (x = 0 ∨ x + 1 = n) ∧ x < n ∧ root = p.getD x 0 := by
    rcases hroot with e | e
    · exact ⟨0, .inl rfl, by omega, by simp [List.getD_eq_getElem?_getD, e]⟩
    · exact ⟨n - 1, .inr (by omega), by omega, by simp [List.getD_eq_getElem?_getD, e]⟩
  have hlt : p.getD x 0 < g.sizeVertex := by rw [h.size]; exact h.lt x hxn
  have hsp : Spans (Adj g) g.sizeVertex (p.getD x 0) := by rw [h.size]; exact h.spans hxn
  obtain ⟨q, hq, hqp, -⟩ := c17_breadth_first g h.reach _ hlt hsp
  rw [h.size] at hqp
  exact ⟨q, hq, h.narrow h2 hn hline hx hxn hqp (c93_breadth_first g h.reach _ hlt q hq)⟩

theorem end_cuthill {n : Nat} (h2 : 2 ≤ n) (hn : n < sizeMax) {line g : Graph} (hline : createLine false n = .ok line)
    {f : Nat → Nat} (h : LineBy g n f) {sort : List (Nat × Nat) → List (Nat × Nat)} (hsort : DegreeSort sort) {x : Nat}
    (hx : x = 0 ∨ x + 1 = n) (hxn : x < n) :
    ∃ q q', g.cuthillMckee sort (f x) = .ok q ∧ g.reorder q = .ok (line, g) ∧
      g.cuthillMckeeReverse sort (f x) = .ok q' ∧ g.reorder q' = .ok (line, g) := by
  have hlt : f x < g.sizeVertex := by rw [h.size]; exact h.lt x hxn
  have hsp : Spans (Adj g) g.sizeVertex (f x) := by rw [h.size]; exact h.spans hxn
  obtain ⟨q, hq, hqp, -⟩ := c19_cuthill_mckee sort hsort g h.reach _ hlt hsp
  obtain ⟨hnar, q', hq', hnar'⟩ := c93_cuthill_mckee sort hsort g h.reach _ hlt q hq
  obtain ⟨q'', e1, hqp', -⟩ := (c20_reverse sort hsort g h.reach (f x)).1 q hq
  rw [hq'] at e1
  cases e1
  rw [h.size] at hqp hqp'
  exact ⟨q, q', hq, h.narrow h2 hn hline hx hxn hqp hnar, hq', h.narrow h2 hn hline hx hxn hqp' hnar'⟩

/-- C164, `cuthill_mckee` and its reverse from either end. -/
theorem c164_cuthill_mckee (n : Nat) (h2 : 2 ≤ n) (hn : n < sizeMax) (line g : Graph) (hline : createLine false n = .ok line)
    (p : List Nat) (hp : p.Perm (List.range n)) (hg : line.reorder p = .ok (g, line))
    (sort : List (Nat × Nat) → List (Nat × Nat)) (hsort : DegreeSort sort) (root : Nat)
    (hroot : p[0]? = some root ∨ p[n - 1]? = some root) :
    ∃ q q', g.cuthillMckee sort root = .ok q ∧ g.reorder q = .ok (line, g) ∧
      g.cuthillMckeeReverse sort root = .ok q' ∧ g.reorder q' = .ok (line, g) := by
  have h := lineBy_of h2 hn hline hp hg
  rcases hroot with e | e
  · have := end_cuthill h2 hn hline h hsort (x := 0) (.inl rfl) (by omega)
    rwa [show p.getD 0 0 = root by simp [List.getD_eq_getElem?_getD, e]] at this
  · have := end_cuthill h2 hn hline h hsort (x := n - 1) (.inr (by omega)) (by omega)
    rwa [show p.getD (n - 1) 0 = root by simp [List.getD_eq_getElem?_getD, e]] at this

theorem degree_row {g : Graph} {L : List (List Nat)} (hL : g.Rep L) {v k : Nat} (h : g.degree v = .ok k) :
    v < L.length ∧ (row L v).length = k := by
  have hv : v < L.length := by
    by_contra hc
    unfold Graph.degree at h
    rw [hL.sizeVertex, decide_eq_false hc] at h
    cases h
  rw [hL.degree hv] at h
  simp only [Out.ok.injEq] at h
  exact ⟨hv, h⟩

/-- C164: with the default root `cuthill_mckee` starts at an end by itself. -/
theorem c164_default (n : Nat) (h2 : 2 ≤ n) (hn : n < sizeMax) (line g : Graph) (hline : createLine false n = .ok line)
    (p : List Nat) (hp : p.Perm (List.range n)) (hg : line.reorder p = .ok (g, line))
    (sort : List (Nat × Nat) → List (Nat × Nat)) (hsort : DegreeSort sort) :
    ∃ q q', g.cuthillMckee sort sizeMax = .ok q ∧ g.reorder q = .ok (line, g) ∧
      g.cuthillMckeeReverse sort sizeMax = .ok q' ∧ g.reorder q' = .ok (line, g) := by
  have h := lineBy_of h2 hn hline hp hg
  obtain ⟨L, hL, hG⟩ := reach_rep h.reach
  have hlen : L.length = n := by rw [← hL.sizeVertex, h.size]
  set f : Nat → Nat := fun a => p.getD a 0 with hf
  have hadj : ∀ a b, a < n → b < n → (f b ∈ row L (f a) ↔ b = a + 1 ∨ a = b + 1) := by
    intro a b ha hb
    rw [← hL.adj_iff]; exact h.adj a b ha hb
  have hpos : ∀ v, v < g.sizeVertex → g.degree v ≠ .ok 0 := by
    intro v hv h0
    rw [h.size] at hv
    obtain ⟨a, ha, rfl⟩ := h.surj v hv
    obtain ⟨_, hl⟩ := degree_row hL h0
    rw [List.length_eq_zero_iff] at hl
    by_cases c : a + 1 < n
    · have := (hadj a (a + 1) ha c).mpr (.inl rfl)
      rw [hl] at this; cases this
    · have := (hadj a (a - 1) ha (by omega)).mpr (.inr (by omega))
      rw [hl] at this; cases this
  obtain ⟨root, dr, h1, h3, h4, _, h5⟩ := c57_default_root sort g h.reach (by rw [h.size]; omega) hpos
  rw [h.size] at h1
  obtain ⟨x, hx, rfl⟩ := h.surj root h1
  obtain ⟨_, hdr⟩ := degree_row hL h3
  have hend : x = 0 ∨ x + 1 = n := by
    by_contra hc
    -- the degree of the first vertex is one
    have h0 : (row L (f 0)).length ≤ 1 := by
      have hsub : ∀ w ∈ row L (f 0), w = f 1 := by
        intro w hw
        obtain ⟨b, hb, rfl⟩ := h.surj w (by have := hG.range _ _ hw; omega)
        have := (hadj 0 b (by omega) hb).mp hw
        have : b = 1 := by omega
        rw [this]
      have hnd : (row L (f 0)).Nodup := (hG.sorted (f 0)).imp (fun h => Nat.ne_of_lt h)
      have := (hnd.subperm (l₂ := [f 1]) (fun w hw => by simp [hsub w hw])).length_le
      simpa using this
    have hd0 := h4 (f 0) _ (hL.degree (by rw [hlen]; exact h.lt 0 (by omega)))
    have m1 := (hadj x (x + 1) hx (by omega)).mpr (.inl rfl)
    have m2 := (hadj x (x - 1) hx (by omega)).mpr (.inr (by omega))
    have hne : f (x + 1) ≠ f (x - 1) := fun e => by
      have := h.inj (x + 1) (x - 1) (by omega) (by omega) e
      omega
    have := (List.Nodup.subperm (l₁ := [f (x + 1), f (x - 1)]) (l₂ := row L (f x)) (by simp [hne])
      (by intro w hw; simp at hw; rcases hw with rfl | rfl <;> assumption)).length_le
    simp only [List.length_cons, List.length_nil] at this
    omega
  obtain ⟨q, q', e1, e2, e3, e4⟩ := end_cuthill h2 hn hline h hsort hend hx
  refine ⟨q, q', by rw [h5]; exact e1, e2, ?_, e4⟩
  unfold Graph.cuthillMckeeReverse at e3 ⊢
  rw [h5]
  exact e3

/-! ### C165 -/

theorem maxElem_eq {l : List Nat} {m : Nat} (h1 : m ∈ l) (h2 : ∀ x ∈ l, x ≤ m) : maxElem l = m :=
  Nat.le_antisymm (h2 _ (Subgraph.maxElem_mem (List.ne_nil_of_mem h1))) (Subgraph.le_maxElem h1)

theorem run_of {l : List Nat} (hs : l.Pairwise (· < ·)) {a m : Nat} (h : ∀ v, v ∈ l ↔ a ≤ v ∧ v < a + m) :
    l = List.range' a m :=
  sorted_ext hs (List.pairwise_lt_range') (fun v => by rw [h, List.mem_range'_1])

theorem stored_ge {L : List (List Nat)} (h : ∀ r ∈ L, r ≠ []) : L.length ≤ L.flatten.length := by
  induction L with
  | nil => simp
  | cons r L ih =>
    have h1 := ih fun r hr => h r (List.mem_cons_of_mem _ hr)
    have h2 := List.length_pos_of_ne_nil (h r List.mem_cons_self)
    simp only [List.flatten_cons, List.length_append, List.length_cons]
    omega

/-- The levels of a line from the vertex that `pseudo_peripheral_vertex` picks. -/
theorem line_levels {g : Graph} {m : Nat} (h : LineBy g m id) (hm : 0 < m) {p : Nat} {levels : List Nat}
    (hp : g.pseudoPeripheral 0 = .ok p) (hl : g.levelTraversal p sizeMax = .ok levels) :
    (p = 0 ∨ p + 1 = m) ∧ levels.length = m ∧ (∀ i, i < m → levels[i]? = some ((p - i) + (i - p))) ∧ maxElem levels = m - 1 := by
  have hsz := h.size
  obtain ⟨p', a, b, e1, e2, ⟨hall, v, hv, hva⟩, ⟨hall', w, hw, hwb⟩, hab, -⟩ := c14_pseudo_peripheral g h.reach 0 (by omega)
    (by rw [hsz]; exact h.spans (x := 0) hm)
  rw [hp] at e1
  cases e1
  rw [hsz] at e2 hw hv
  have f1 : m - 1 ≤ a := by
    obtain ⟨k, hk, hkd⟩ := hall (m - 1) (by omega)
    have := dist_unique hkd (h.dist (x := 0) (y := m - 1) hm (by omega))
    omega
  have f2 := dist_unique hwb (h.dist (x := p) (y := w) e2 hw)
  have hend : p = 0 ∨ p + 1 = m := by omega
  have h1 : 1 < g.sizeVertex := by
    by_contra hc
    rw [c13_single_vertex_exits false g h.reach (by omega)] at hl
    cases hl
  obtain ⟨out, o1, o2, o3⟩ := c12_level_traversal_default false g h.reach h1 p (by omega)
  rw [hl] at o1
  cases o1
  rw [hsz] at o2 o3
  have hlev : ∀ i, i < m → levels[i]? = some ((p - i) + (i - p)) := by
    intro i hi
    have hd := h.dist (x := p) (y := i) e2 hi
    rcases o3 i hi with ⟨k, -, k1, k2⟩ | ⟨-, k2⟩
    · rw [k2, dist_unique k1 hd]
    · exact absurd (reached_iff.mpr ⟨_, hd⟩) k2
  refine ⟨hend, o2, hlev, maxElem_eq ?_ ?_⟩
  · rcases hend with rfl | he
    · have := hlev (m - 1) (by omega)
      rw [show (0 - (m - 1)) + (m - 1 - 0) = m - 1 by omega] at this
      exact List.mem_of_getElem? this
    · have := hlev 0 hm
      rw [show (p - 0) + (0 - p) = m - 1 by omega] at this
      exact List.mem_of_getElem? this
  · intro x hx
    obtain ⟨i, hi⟩ := List.mem_iff_getElem?.mp hx
    have hi' : i < m := by rw [← o2]; exact (List.getElem?_eq_some_iff.mp hi).1
    rw [hlev i hi'] at hi
    simp only [Option.some.injEq] at hi
    omega

theorem line_safe {n : Nat} {line : Graph} (h2 : 2 ≤ n) (hreach : Reachable false line) (hsize : line.sizeVertex = n)
    (hadj : ∀ a b, Adj line a b ↔ a < n ∧ b < n ∧ (b = a + 1 ∨ false = false ∧ a = b + 1)) :
    ∀ v, v < line.sizeVertex → v < 2 * line.sizeEdge false := by
  obtain ⟨L, hL, hG⟩ := reach_rep hreach
  have hst := hL.stored hG
  have hge : L.length ≤ L.flatten.length := by
    apply stored_ge
    intro r hr he
    obtain ⟨i, hi⟩ := List.mem_iff_getElem?.mp hr
    have hil : i < n := by
      rw [← hsize, hL.sizeVertex]
      exact (List.getElem?_eq_some_iff.mp hi).1
    have hrow : row L i = [] := by simp [row, List.getD_eq_getElem?_getD, hi, he]
    by_cases c : i + 1 < n
    · have := (hadj i (i + 1)).mpr ⟨hil, c, .inl rfl⟩
      rw [hL.adj_iff, hrow] at this
      cases this
    · have := (hadj i (i - 1)).mpr ⟨hil, by omega, .inr ⟨rfl, by omega⟩⟩
      rw [hL.adj_iff, hrow] at this
      cases this
  have hs := hL.sizeVertex
  simp only [Bool.false_eq_true, if_false] at hst
  intro v hv
  omega

/-- One step of the bisection of a line: a largest part is halved, the larger half stays in its place. -/
theorem line_split (hash : Nat → Nat) {n : Nat} (h2 : 2 ≤ n) (hn : n ≤ 2 ^ 53) {line : Graph}
    (hline : createLine false n = .ok line) {k : Nat} (hk : 0 < k) (hkn : k < n) {subs : List Subgraph}
    (c1 : bisection hash line k = .ok subs) (c3 : ∀ s ∈ subs, ∃ a, s.l2g = List.range' a s.sizeVertex) :
    ∃ (i : Nat) (s l r : Subgraph), subs[i]? = some s ∧ bisection hash line (k + 1) = .ok (subs.set i l ++ [r]) ∧
      (∀ t ∈ subs, t.sizeVertex ≤ s.sizeVertex) ∧ (∀ j t, j < i → subs[j]? = some t → t.sizeVertex < s.sizeVertex) ∧
      (∃ a, l.l2g = List.range' a l.sizeVertex) ∧ (∃ a, r.l2g = List.range' a r.sizeVertex) ∧
      l.sizeVertex = (s.sizeVertex + 1) / 2 ∧ r.sizeVertex = s.sizeVertex / 2 := by
  have hsm : n < sizeMax := lt_of_le_of_lt hn (by decide)
  obtain ⟨l', e1, hreach, hsize, hadj⟩ := c27_line false n h2 hsm
  rw [hline] at e1
  cases e1
  obtain ⟨x, hx⟩ := Subgraph.hash_ok hreach hash
  have hsafe := line_safe h2 hreach hsize hadj
  obtain ⟨subs', b1, b2, b3⟩ := bisection_ok hreach hash hx hsafe (k := k + 1) (by omega) (by omega)
  obtain ⟨i, p, levels, s, l, r, d1, d2, d3, dj, d4, d5, d6, d7, d8⟩ := c147_step hash line hreach (by omega) k (by omega) subs c1
  have d2' := d2
  rw [b1] at d2'
  cases d2'
  obtain ⟨subs'', f1, f2, f3⟩ := bisection_ok hreach hash hx hsafe (k := k) (by omega) (by omega)
  rw [c1] at f1
  cases f1
  have hsm := List.mem_of_getElem? d1
  have hpart := f2.part s hsm
  obtain ⟨a, ha⟩ := c3 s hsm
  obtain ⟨m, hm⟩ : ∃ m, s.sizeVertex = m := ⟨_, rfl⟩
  rw [hm] at ha d6
  have hm0 : 0 < m := by
    have := hpart.nonempty
    rw [ha, List.length_range'] at this
    exact this
  have hget : ∀ j, j < m → s.l2g[j]? = some (a + j) := by
    intro j hj
    rw [ha, List.getElem?_range' (by omega)]
    simp
  have hbound : ∀ j, j < m → a + j < n := by
    intro j hj
    rw [← hsize]
    exact hpart.inv.lt _ (List.mem_of_getElem? (hget j hj))
  have hL : LineBy s.graph m id := by
    refine ⟨hpart.inv.reach, hm, fun _ h => h, fun _ _ _ _ h => h, fun v hv => ⟨v, hv, rfl⟩, fun u v hu hv => ?_⟩
    have h1 := hbound u hu
    have h2 := hbound v hv
    rw [id, id, hpart.inv.adj u v _ _ (hget u hu) (hget v hv), hadj]
    simp only [true_and]
    omega
  obtain ⟨g1, g2, g3, g4⟩ := line_levels hL hm0 d4 d5
  have hhalf : ∀ (t : Subgraph) (P : Nat → Prop),
      (∀ v, v ∈ t.l2g ↔ ∃ b d : Nat, levels[b]? = some d ∧ s.l2g[b]? = some v ∧ P d) →
      ∀ v, v ∈ t.l2g ↔ ∃ b, b < m ∧ v = a + b ∧ P ((p - b) + (b - p)) := by
    intro t P ht v
    rw [ht]
    constructor
    · rintro ⟨b, d, h1, h2, h3⟩
      have hb : b < m := by rw [← g2]; exact (List.getElem?_eq_some_iff.mp h1).1
      rw [g3 b hb] at h1
      rw [hget b hb] at h2
      cases h1; cases h2
      exact ⟨b, hb, rfl, h3⟩
    · rintro ⟨b, hb, rfl, h3⟩
      exact ⟨b, _, g3 b hb, hget b hb, h3⟩
  rw [g4] at d7 d8
  have k1 := hhalf l (· ≤ (m - 1) / 2) d7
  have k2 := hhalf r ((m - 1) / 2 < ·) d8
  have hil : i < subs.length := (List.getElem?_eq_some_iff.mp d1).1
  have hlm : l ∈ subs.set i l ++ [r] := List.mem_append_left _ (List.mem_set hil l)
  have hrm : r ∈ subs.set i l ++ [r] := by simp
  have pl := b2.part l hlm
  have pr := b2.part r hrm
  have zl : l.sizeVertex = l.l2g.length := pl.inv.size
  have zr : r.sizeVertex = r.l2g.length := pr.inv.size
  obtain ⟨al, rl⟩ : ∃ al, l.l2g = List.range' al ((m - 1) / 2 + 1) := by
    rcases g1 with hp | hp
    · refine ⟨a, run_of pl.sorted fun v => ?_⟩
      rw [k1]
      constructor
      · rintro ⟨b, q1, q2, q3⟩; omega
      · intro hv; exact ⟨v - a, by omega, by omega, by omega⟩
    · refine ⟨a + (m - 1 - (m - 1) / 2), run_of pl.sorted fun v => ?_⟩
      rw [k1]
      constructor
      · rintro ⟨b, q1, q2, q3⟩; omega
      · intro hv; exact ⟨v - a, by omega, by omega, by omega⟩
  obtain ⟨ar, rr⟩ : ∃ ar, r.l2g = List.range' ar (m - 1 - (m - 1) / 2) := by
    rcases g1 with hp | hp
    · refine ⟨a + ((m - 1) / 2 + 1), run_of pr.sorted fun v => ?_⟩
      rw [k2]
      constructor
      · rintro ⟨b, q1, q2, q3⟩; omega
      · intro hv; exact ⟨v - a, by omega, by omega, by omega⟩
    · refine ⟨a, run_of pr.sorted fun v => ?_⟩
      rw [k2]
      constructor
      · rintro ⟨b, q1, q2, q3⟩; omega
      · intro hv; exact ⟨v - a, by omega, by omega, by omega⟩
  have sl : l.sizeVertex = (m - 1) / 2 + 1 := by rw [zl, rl, List.length_range']
  have sr : r.sizeVertex = m - 1 - (m - 1) / 2 := by rw [zr, rr, List.length_range']
  exact ⟨i, s, l, r, d1, d2, d3, dj, ⟨al, by rw [sl]; exact rl⟩, ⟨ar, by rw [sr]; exact rr⟩, by omega, by omega⟩

/-- The whole line as one part. -/
theorem line_one (hash : Nat → Nat) {n : Nat} (h2 : 2 ≤ n) (hn : n ≤ 2 ^ 53) {line : Graph}
    (hline : createLine false n = .ok line) :
    ∃ s, bisection hash line 1 = .ok [s] ∧ s.l2g = List.range' 0 s.sizeVertex ∧ s.sizeVertex = n := by
  have hsm : n < sizeMax := lt_of_le_of_lt hn (by decide)
  obtain ⟨l', e1, hreach, hsize, hadj⟩ := c27_line false n h2 hsm
  rw [hline] at e1
  cases e1
  obtain ⟨x, hx⟩ := Subgraph.hash_ok hreach hash
  obtain ⟨subs', b1, b2, b3⟩ := bisection_ok hreach hash hx (line_safe h2 hreach hsize hadj) (k := 1) (by omega) (by omega)
  obtain ⟨s, rfl⟩ := List.length_eq_one_iff.mp b3
  have hp := b2.perm
  have hpart := b2.part s List.mem_cons_self
  simp only [List.map_cons, List.map_nil, List.flatten_cons, List.flatten_nil, List.append_nil] at hp
  have hsz : s.sizeVertex = n := by
    rw [← hsize, show s.sizeVertex = s.l2g.length from hpart.inv.size, hp.length_eq, List.length_range]
  refine ⟨s, b1, run_of hpart.sorted fun v => ?_, hsz⟩
  rw [hp.mem_iff, List.mem_range]
  omega

theorem mem_split {subs : List Subgraph} {i : Nat} {l r t : Subgraph} (ht : t ∈ subs.set i l ++ [r]) :
    t ∈ subs ∨ t = l ∨ t = r := by
  rcases List.mem_append.mp ht with ht | ht
  · rcases List.mem_or_eq_of_mem_set ht with ht | rfl
    · exact .inl ht
    · exact .inr (.inl rfl)
  · exact .inr (.inr (List.mem_singleton.mp ht))

/-- C165: the parts of a line are runs of consecutive vertices, and the largest is at most twice as large as the smallest
plus one. -/
theorem c165_bisection (hash : Nat → Nat) (n : Nat) (h2 : 2 ≤ n) (hn : n ≤ 2 ^ 53) (line : Graph)
    (hline : createLine false n = .ok line) (k : Nat) (hk : 0 < k) (hkn : k ≤ n) :
    ∃ subs, bisection hash line k = .ok subs ∧ subs.length = k ∧ (subs.map Subgraph.sizeVertex).sum = n ∧
      (∀ s ∈ subs, ∃ a, s.l2g = List.range' a s.sizeVertex) ∧
      ∀ s ∈ subs, ∀ t ∈ subs, s.sizeVertex ≤ 2 * t.sizeVertex + 1 := by
  induction k, hk using Nat.le_induction with
  | base =>
    obtain ⟨s, h1, h3, h4⟩ := line_one hash h2 hn hline
    refine ⟨[s], h1, rfl, by simp [h4], ?_, ?_⟩
    · simp only [List.mem_singleton, forall_eq]; exact ⟨0, h3⟩
    · simp only [List.mem_singleton, forall_eq]; omega
  | succ k hk ih =>
    obtain ⟨subs, c1, c2, c5, c3, c4⟩ := ih (by omega)
    obtain ⟨i, s, l, r, d1, d2, d3, -, d5, d6, d7, d8⟩ := line_split hash h2 hn hline hk (by omega) c1 c3
    have hsm := List.mem_of_getElem? d1
    have hsum : ((subs.set i l ++ [r]).map Subgraph.sizeVertex).sum = n := by
      rw [← c5]
      clear c1 c2 c3 c4 c5 d2 d3 hsm
      induction subs generalizing i with
      | nil => simp at d1
      | cons a subs ih =>
        cases i with
        | zero =>
          simp only [List.getElem?_cons_zero, Option.some.injEq] at d1
          subst d1
          simp only [List.set_cons_zero, List.cons_append, List.map_cons, List.map_append, List.map_nil, List.sum_cons,
            List.sum_append, List.sum_nil]
          omega
        | succ i =>
          have := ih i (by simpa using d1)
          simp only [List.set_cons_succ, List.cons_append, List.map_cons, List.sum_cons, this]
    refine ⟨_, d2, by simp [c2], hsum, ?_, ?_⟩
    · intro t ht
      rcases mem_split ht with ht | rfl | rfl
      · exact c3 t ht
      · exact d5
      · exact d6
    · intro t ht u hu
      have ht' : t.sizeVertex ≤ s.sizeVertex := by
        rcases mem_split ht with ht | rfl | rfl
        · exact d3 t ht
        · have := c3 s hsm
          omega
        · omega
      rcases mem_split hu with hu | rfl | rfl
      · have := c4 s hsm u hu
        omega
      · omega
      · omega

/-- C165: a line whose size is a power of two times the size of the parts is cut into equal parts. -/
theorem c165_equal (hash : Nat → Nat) (m j : Nat) (h2 : 2 ≤ 2 ^ j * m) (hn : 2 ^ j * m ≤ 2 ^ 53) (line : Graph)
    (hline : createLine false (2 ^ j * m) = .ok line) :
    ∃ subs, bisection hash line (2 ^ j) = .ok subs ∧ subs.length = 2 ^ j ∧
      ∀ s ∈ subs, s.sizeVertex = m ∧ ∃ a, s.l2g = List.range' a m := by
  have hj : 0 < 2 ^ j := Nat.two_pow_pos j
  have hm : 0 < m := by rcases Nat.eq_zero_or_pos m with rfl | h <;> omega
  have key : ∀ k, 0 < k → k ≤ 2 ^ j → ∃ subs, bisection hash line k = .ok subs ∧
      ∀ s ∈ subs, ∃ x, s.sizeVertex = m * 2 ^ x := by
    intro k hk
    induction k, hk using Nat.le_induction with
    | base =>
      intro _
      obtain ⟨s, h1, h3, h4⟩ := line_one hash h2 hn hline
      refine ⟨[s], h1, ?_⟩
      simp only [List.mem_singleton, forall_eq]
      exact ⟨j, by rw [h4, Nat.mul_comm]⟩
    | succ k hk ih =>
      intro hkj
      obtain ⟨subs, c1, c2⟩ := ih (by omega)
      have hkn : k < 2 ^ j * m := lt_of_lt_of_le (by omega) (Nat.le_mul_of_pos_right _ hm)
      obtain ⟨subs', b1, b2, b3, b4, b5⟩ := c165_bisection hash _ h2 hn line hline k hk (by omega)
      rw [c1] at b1
      cases b1
      obtain ⟨i, s, l, r, d1, d2, d3, -, d5, d6, d7, d8⟩ := line_split hash h2 hn hline hk hkn c1 b4
      refine ⟨_, d2, ?_⟩
      have hbig : m < s.sizeVertex := by
        by_contra hc
        have h1 : (subs.map Subgraph.sizeVertex).sum ≤ (subs.map Subgraph.sizeVertex).length * m :=
          List.sum_le_card_nsmul _ _ (by
            simp only [List.mem_map, forall_exists_index, and_imp, forall_apply_eq_imp_iff₂]
            intro t ht
            have := d3 t ht
            omega)
        rw [b3, List.length_map, b2] at h1
        have := Nat.le_of_mul_le_mul_right h1 hm
        omega
      obtain ⟨x, hx⟩ := c2 s (List.mem_of_getElem? d1)
      cases x with
      | zero => simp at hx; omega
      | succ x =>
        rw [Nat.pow_succ, ← Nat.mul_assoc] at hx
        intro t ht
        rcases mem_split ht with ht | rfl | rfl
        · exact c2 t ht
        · exact ⟨x, by omega⟩
        · exact ⟨x, by omega⟩
  obtain ⟨subs, c1, c2⟩ := key (2 ^ j) hj le_rfl
  obtain ⟨subs', b1, b2, b3, b4, b5⟩ := c165_bisection hash _ h2 hn line hline (2 ^ j) hj (Nat.le_mul_of_pos_right _ hm)
  rw [c1] at b1
  cases b1
  have hge : ∀ s ∈ subs, m ≤ s.sizeVertex := by
    intro s hs
    obtain ⟨x, hx⟩ := c2 s hs
    rw [hx]
    exact Nat.le_mul_of_pos_right _ (Nat.two_pow_pos x)
  have hall : ∀ s ∈ subs, s.sizeVertex = m := by
    clear c1 b4 b5 c2 hn hline key h2
    generalize 2 ^ j = q at *
    clear hj
    induction subs generalizing q with
    | nil => simp
    | cons a subs ih =>
      have h1 : (subs.map Subgraph.sizeVertex).length * m ≤ (subs.map Subgraph.sizeVertex).sum :=
        List.card_nsmul_le_sum _ _ (by
          simp only [List.mem_map, forall_exists_index, and_imp, forall_apply_eq_imp_iff₂]
          exact fun t ht => hge t (List.mem_cons_of_mem _ ht))
      have h2 := hge a List.mem_cons_self
      rw [List.length_map] at h1
      simp only [List.map_cons, List.sum_cons, List.length_cons] at b2 b3
      subst b2
      rw [Nat.add_mul] at b3
      have ha : a.sizeVertex = m := by omega
      intro s hs
      rcases List.mem_cons.mp hs with rfl | hs
      · exact ha
      · exact ih (fun s hs => hge s (List.mem_cons_of_mem _ hs)) subs.length rfl (by omega) s hs
  refine ⟨subs, c1, b2, fun s hs => ⟨hall s hs, ?_⟩⟩
  obtain ⟨a, ha⟩ := b4 s hs
  rw [hall s hs] at ha
  exact ⟨a, ha⟩

example : ∃ line g, createLine false 4 = .ok line ∧ line.reorder [2, 0, 3, 1] = .ok (g, line) ∧ g ≠ line ∧
    g.breadthFirst 2 = .ok [1, 3, 0, 2] ∧ g.reorder [1, 3, 0, 2] = .ok (line, g) :=
  ⟨⟨[1, 0, 2, 1, 3, 2], [0, 1, 3, 5, 6]⟩, ⟨[2, 3, 3, 0, 0, 1], [0, 2, 3, 4, 6]⟩, by decide +kernel⟩

example : ∃ line subs, createLine false 6 = .ok line ∧ bisection id line 3 = .ok subs ∧
    subs.map Subgraph.l2g = [[4, 5], [0, 1, 2], [3]] :=
  ⟨_, _, rfl, rfl, by decide +kernel⟩

end Disa.Props
