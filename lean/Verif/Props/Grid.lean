import Verif.Props.Line

/-!
# Property C166: Cuthill-McKee orderings of grids
-/

namespace Disa.Props

open Disa Spec Graph

/-- The cells are neighbours in a grid. -/
def Beside (x y x' y' : Nat) : Prop := (y = y' ∧ (x + 1 = x' ∨ x' + 1 = x)) ∨ (x = x' ∧ (y + 1 = y' ∨ y' + 1 = y))

/-- `g` is a square grid in which `f x y` is the vertex in column `x` and row `y`. -/
structure GridBy (g : Graph) (n : Nat) (f : Nat → Nat → Nat) : Prop where
  reach : Reachable false g
  size : g.sizeVertex = n * n
  lt : ∀ x y, x < n → y < n → f x y < n * n
  inj : ∀ x y x' y', x < n → y < n → x' < n → y' < n → f x y = f x' y' → x = x' ∧ y = y'
  surj : ∀ v, v < n * n → ∃ x y, x < n ∧ y < n ∧ v = f x y
  adj : ∀ x y x' y', x < n → y < n → x' < n → y' < n → (Adj g (f x y) (f x' y') ↔ Beside x y x' y')

namespace GridBy

variable {g : Graph} {n : Nat} {f : Nat → Nat → Nat}

theorem transpose (h : GridBy g n f) : GridBy g n (fun x y => f y x) where
  reach := h.reach
  size := h.size
  lt x y hx hy := h.lt y x hy hx
  inj x y x' y' hx hy hx' hy' e := (h.inj y x y' x' hy hx hy' hx' e).symm
  surj v hv := by obtain ⟨x, y, hx, hy, e⟩ := h.surj v hv; exact ⟨y, x, hy, hx, e⟩
  adj x y x' y' hx hy hx' hy' := by rw [h.adj y x y' x' hy hx hy' hx']; unfold Beside; omega

theorem flip (h : GridBy g n f) : GridBy g n (fun x y => f (n - 1 - x) y) where
  reach := h.reach
  size := h.size
  lt x y hx hy := h.lt _ y (by omega) hy
  inj x y x' y' hx hy hx' hy' e := by
    have := h.inj _ y _ y' (by omega) hy (by omega) hy' e
    omega
  surj v hv := by
    obtain ⟨x, y, hx, hy, e⟩ := h.surj v hv
    exact ⟨n - 1 - x, y, by omega, hy, by rw [e]; congr 1; omega⟩
  adj x y x' y' hx hy hx' hy' := by
    rw [h.adj _ y _ y' (by omega) hy (by omega) hy']
    unfold Beside
    omega

theorem reorder {g' : Graph} (h : GridBy g n f) {p : List Nat} (hp : p.Perm (List.range (n * n)))
    (hr : g.reorder p = .ok (g', g)) : GridBy g' n (fun x y => p.getD (f x y) 0) := by
  obtain ⟨g'', h1, h2, _, h4⟩ := c08_reorder false g h.reach p (by rw [h.size]; exact hp)
  rw [hr] at h1
  cases h1
  have hl : p.length = n * n := by rw [hp.length_eq, List.length_range]
  have hnd : p.Nodup := hp.nodup_iff.mpr List.nodup_range
  have hget : ∀ x y, x < n → y < n → ∃ h' : f x y < p.length, p.getD (f x y) 0 = p[f x y] := by
    intro x y hx hy
    have : f x y < p.length := by rw [hl]; exact h.lt x y hx hy
    exact ⟨this, by simp [List.getD_eq_getElem?_getD, this]⟩
  refine ⟨Graph.Reachable.step h.reach (op := .reorder p) ?_ (by simp [step, hr]), by rw [h2, h.size], ?_, ?_, ?_, ?_⟩
  · show p.Perm (List.range p.length)
    rw [hl]; exact hp
  · exact fun x y hx hy => (perm_getElem? hp (h.lt x y hx hy)).2
  · intro x y x' y' hx hy hx' hy' e
    obtain ⟨ha', ea⟩ := hget x y hx hy
    obtain ⟨hb', eb⟩ := hget x' y' hx' hy'
    rw [ea, eb] at e
    exact h.inj x y x' y' hx hy hx' hy' ((List.Nodup.getElem_inj_iff hnd).mp e)
  · intro v hv
    obtain ⟨u, hu⟩ := List.mem_iff_getElem?.mp (hp.mem_iff.mpr (List.mem_range.mpr hv))
    have hul : u < n * n := by
      have := (List.getElem?_eq_some_iff.mp hu).1
      omega
    obtain ⟨x, y, hx, hy, rfl⟩ := h.surj u hul
    exact ⟨x, y, hx, hy, by simp [List.getD_eq_getElem?_getD, hu]⟩
  · intro x y x' y' hx hy hx' hy'
    obtain ⟨ha', ea⟩ := hget x y hx hy
    obtain ⟨hb', eb⟩ := hget x' y' hx' hy'
    rw [ea, eb, h4 _ _ ha' hb']
    exact h.adj x y x' y' hx hy hx' hy'

/-- The neighbours of a cell are cells. -/
theorem nbr (h : GridBy g n f) {x y w : Nat} (hx : x < n) (hy : y < n) (hw : Adj g w (f x y)) :
    ∃ x' y', x' < n ∧ y' < n ∧ w = f x' y' ∧ Beside x' y' x y := by
  obtain ⟨x', y', hx', hy', rfl⟩ := h.surj w (by have := (adj_lt h.reach hw).1; rwa [h.size] at this)
  exact ⟨x', y', hx', hy', rfl, (h.adj x' y' x y hx' hy' hx hy).mp hw⟩

theorem dist (h : GridBy g n f) {x y : Nat} (hx : x < n) (hy : y < n) :
    IsDist (Adj g) (· = f 0 0) (f x y) (x + y) := by
  constructor
  · refine ⟨f 0 0, rfl, ?_⟩
    obtain ⟨k, hk⟩ : ∃ k, x + y = k := ⟨_, rfl⟩
    rw [hk]
    induction k generalizing x y with
    | zero =>
      obtain ⟨rfl, rfl⟩ : x = 0 ∧ y = 0 := by omega
      rfl
    | succ k ih =>
      by_cases c : 0 < x
      · exact ⟨f (x - 1) y, ih (by omega) hy (by omega), (h.adj _ _ _ _ (by omega) hy hx hy).mpr (by unfold Beside; omega)⟩
      · exact ⟨f x (y - 1), ih hx (by omega) (by omega), (h.adj _ _ _ _ hx (by omega) hx hy).mpr (by unfold Beside; omega)⟩
  · rintro j hj _ rfl hw
    have hsym := c02_symmetric g h.reach
    have hlow : ∀ k w, Walk (Adj g) k (f 0 0) w → ∃ a b, a < n ∧ b < n ∧ w = f a b ∧ a + b ≤ k := by
      intro k
      induction k with
      | zero => rintro w rfl; exact ⟨0, 0, by omega, by omega, rfl, by omega⟩
      | succ k ih =>
        rintro w ⟨u, hu, huw⟩
        obtain ⟨a, b, ha, hb, rfl, hk⟩ := ih u hu
        obtain ⟨a', b', ha', hb', rfl, hB⟩ := h.nbr ha hb ((hsym _ _).mp huw)
        unfold Beside at hB
        exact ⟨a', b', ha', hb', rfl, by omega⟩
    obtain ⟨a, b, ha, hb, he, hle⟩ := hlow j _ hw
    have := h.inj x y a b hx hy ha hb he
    omega

theorem spans (h : GridBy g n f) (hn : 0 < n) : Spans (Adj g) (n * n) (f 0 0) := by
  intro v hv
  obtain ⟨x, y, hx, hy, rfl⟩ := h.surj v hv
  exact reached_iff.mpr ⟨_, h.dist hx hy⟩

/-- The degree is at most the number of cells in a list with all neighbours. -/
theorem degree_le (h : GridBy g n f) {x y d : Nat} (hx : x < n) (hy : y < n) (hd : g.degree (f x y) = .ok d)
    (l : List (Nat × Nat)) (hl : ∀ a b, a < n → b < n → Beside a b x y → (a, b) ∈ l) : d ≤ l.length := by
  obtain ⟨L, hL, hG⟩ := reach_rep h.reach
  obtain ⟨-, rfl⟩ := degree_row hL hd
  have hnd : (row L (f x y)).Nodup := (hG.sorted _).imp (fun h => Nat.ne_of_lt h)
  have hsub : row L (f x y) ⊆ l.map (fun c => f c.1 c.2) := by
    intro w hw
    rw [← hL.adj_iff] at hw
    obtain ⟨a, b, ha, hb, rfl, hB⟩ := h.nbr hx hy ((c02_symmetric g h.reach _ _).mp hw)
    exact List.mem_map.mpr ⟨(a, b), hl a b ha hb hB, rfl⟩
  have := (hnd.subperm hsub).length_le
  simpa using this

/-- The degree is at least the number of neighbours in a list. -/
theorem degree_ge (h : GridBy g n f) {x y d : Nat} (hx : x < n) (hy : y < n) (hd : g.degree (f x y) = .ok d)
    (l : List (Nat × Nat)) (hnd : l.Nodup) (hl : ∀ c ∈ l, c.1 < n ∧ c.2 < n ∧ Beside x y c.1 c.2) : l.length ≤ d := by
  obtain ⟨L, hL, hG⟩ := reach_rep h.reach
  obtain ⟨-, rfl⟩ := degree_row hL hd
  have hnd' : (l.map (fun c => f c.1 c.2)).Nodup := by
    apply List.Nodup.map_on _ hnd
    rintro ⟨a, b⟩ hc ⟨a', b'⟩ hc' e
    obtain ⟨h1, h2, -⟩ := hl _ hc
    obtain ⟨h1', h2', -⟩ := hl _ hc'
    obtain ⟨rfl, rfl⟩ := h.inj a b a' b' h1 h2 h1' h2' e
    rfl
  have hsub : l.map (fun c => f c.1 c.2) ⊆ row L (f x y) := by
    intro w hw
    obtain ⟨c, hc, rfl⟩ := List.mem_map.mp hw
    obtain ⟨h1, h2, h3⟩ := hl c hc
    rw [← hL.adj_iff]
    exact (h.adj _ _ _ _ hx hy h1 h2).mpr h3
  have := (hnd'.subperm hsub).length_le
  simpa using this

theorem degree_ok (h : GridBy g n f) {x y : Nat} (hx : x < n) (hy : y < n) : ∃ d, g.degree (f x y) = .ok d := by
  obtain ⟨L, hL, hG⟩ := reach_rep h.reach
  exact ⟨_, hL.degree (by rw [← hL.sizeVertex, h.size]; exact h.lt x y hx hy)⟩

/-- A numbering of the cells that follows the rule of `cuthill_mckee` numbers each diagonal from one end to the other, and
neighbours by numbers that differ by at most the width of the grid. -/
theorem width (h : GridBy g n f) (h2 : 2 ≤ n) {sort : List (Nat × Nat) → List (Nat × Nat)} (hsort : DegreeSort sort)
    {p : List Nat} (hcm : g.cuthillMckee sort (f 0 0) = .ok p) (hp : p.Perm (List.range (n * n)))
    (hfirst : p.getD (f 1 0) 0 < p.getD (f 0 1) 0) {x y x' y' : Nat} (hx : x < n) (hy : y < n) (hx' : x' < n)
    (hy' : y' < n) (hB : Beside x y x' y') (hlt : p.getD (f x y) 0 < p.getD (f x' y') 0) :
    p.getD (f x' y') 0 ≤ p.getD (f x y) 0 + n := by
  have hroot : f 0 0 < g.sizeVertex := by rw [h.size]; exact h.lt 0 0 (by omega) (by omega)
  obtain ⟨N, hN⟩ : ∃ N : Nat → Nat → Nat, N = fun x y => p.getD (f x y) 0 := ⟨_, rfl⟩
  have hN' : ∀ x y, p.getD (f x y) 0 = N x y := fun x y => by rw [hN]
  rw [hN', hN'] at hlt hfirst ⊢
  have hget : ∀ x y, x < n → y < n → p[f x y]? = some (N x y) ∧ N x y < n * n := by
    intro x y hx hy
    have := perm_getElem? hp (h.lt x y hx hy)
    rwa [hN'] at this
  have hinj : ∀ x y x' y', x < n → y < n → x' < n → y' < n → N x y = N x' y' → x = x' ∧ y = y' := by
    intro x y x' y' hx hy hx' hy' e
    have e1 := (hget x y hx hy).1
    have e2 := (hget x' y' hx' hy').1
    rw [← e] at e2
    obtain ⟨l1, g1⟩ := List.getElem?_eq_some_iff.mp e1
    obtain ⟨l2, g2⟩ := List.getElem?_eq_some_iff.mp e2
    exact h.inj x y x' y' hx hy hx' hy' ((List.Nodup.getElem_inj_iff (hp.nodup_iff.mpr List.nodup_range)).mp (g1.trans g2.symm))
  have hsurj : ∀ m, m < n * n → ∃ x y, x < n ∧ y < n ∧ m = N x y := by
    intro m hm
    obtain ⟨u, hu⟩ := List.mem_iff_getElem?.mp (hp.mem_iff.mpr (List.mem_range.mpr hm))
    have hul : u < n * n := by
      have := (List.getElem?_eq_some_iff.mp hu).1
      have := hp.length_eq
      rw [List.length_range] at this
      omega
    obtain ⟨x, y, hx, hy, rfl⟩ := h.surj u hul
    rw [(hget x y hx hy).1] at hu
    exact ⟨x, y, hx, hy, (Option.some.inj hu).symm⟩
  have rule := c56_cuthill_mckee_rule sort hsort g h.reach (f 0 0) hroot p hcm
  have level : ∀ x y x' y', x < n → y < n → x' < n → y' < n → x + y < x' + y' → N x y < N x' y' := by
    intro x y x' y' hx hy hx' hy' hl
    by_contra hc
    have hne : N x y ≠ N x' y' := fun e => by
      have := hinj x y x' y' hx hy hx' hy' e
      omega
    have := (rule _ _ _ _ (hget x' y' hx' hy').1 (hget x y hx hy).1 (by omega)).1 _ _ (h.dist hx' hy') (h.dist hx hy)
    omega
  -- within a diagonal
  have mono : ∀ k, 1 ≤ k → ∀ x y, x < n → y + 1 < n → 1 ≤ x → x + y = k → N x y < N (x - 1) (y + 1) := by
    intro k hk
    induction k, hk using Nat.le_induction with
    | base =>
      intro x y hx hy hx1 hxy
      obtain ⟨rfl, rfl⟩ : x = 1 ∧ y = 0 := by omega
      exact hfirst
    | succ k hk ih =>
      intro x y hx hy hx1 hxy
      have first : ∀ x y, x < n → y + 1 < n → x + y = k → FirstNbr (Adj g) p (f x (y + 1)) (N x y) := by
        intro x y hx hy hxy
        refine ⟨⟨f x y, (h.adj _ _ _ _ hx (by omega) hx hy).mpr (by unfold Beside; omega), (hget x y hx (by omega)).1⟩, ?_⟩
        intro w l hw hl
        obtain ⟨a, b, ha, hb, rfl, hB⟩ := h.nbr hx hy hw
        rw [(hget a b ha hb).1] at hl
        obtain rfl := Option.some.inj hl
        unfold Beside at hB
        rcases hB with ⟨rfl, e | e⟩ | ⟨rfl, e | e⟩
        · obtain rfl : a = x - 1 := by omega
          exact (ih x y hx hy (by omega) hxy).le
        · exact (level _ _ _ _ hx (by omega) ha hb (by omega)).le
        · obtain rfl : b = y := by omega
          exact le_rfl
        · exact (level _ _ _ _ hx (by omega) ha hb (by omega)).le
      have hnr : f (x - 1) (y + 1) ≠ f 0 0 := fun e => by
        have := h.inj _ _ _ _ (by omega) hy (by omega) (by omega) e
        omega
      obtain ⟨d1, hd1⟩ := h.degree_ok (x := x - 1) (y := y + 1) (by omega) hy
      obtain ⟨d2, hd2⟩ := h.degree_ok hx (show y < n by omega)
      by_contra hc
      have hne : N x y ≠ N (x - 1) (y + 1) := fun e => by
        have := hinj x y _ _ hx (by omega) (by omega) hy e
        omega
      have hr := (rule _ _ _ _ (hget (x - 1) (y + 1) (by omega) hy).1 (hget x y hx (by omega)).1 (by omega)).2
      have f1 := first (x - 1) y (by omega) hy (by omega)
      cases y with
      | zero =>
        have f2 : FirstNbr (Adj g) p (f x 0) (N (x - 1) 0) := by
          refine ⟨⟨f (x - 1) 0, (h.adj _ _ _ _ (by omega) (by omega) hx (by omega)).mpr (by unfold Beside; omega),
            (hget (x - 1) 0 (by omega) (by omega)).1⟩, ?_⟩
          intro w l hw hl
          obtain ⟨a, b, ha, hb, rfl, hB⟩ := h.nbr hx (by omega) hw
          rw [(hget a b ha hb).1] at hl
          obtain rfl := Option.some.inj hl
          unfold Beside at hB
          rcases hB with ⟨rfl, e | e⟩ | ⟨rfl, e | e⟩
          · obtain rfl : a = x - 1 := by omega
            exact le_rfl
          · exact (level _ _ _ _ (by omega) (by omega) ha hb (by omega)).le
          · omega
          · exact (level _ _ _ _ (by omega) (by omega) ha hb (by omega)).le
        have g1 := h.degree_ge (by omega) hy hd1 [(x - 1 - 1, 0 + 1), (x - 1 + 1, 0 + 1), (x - 1, 0), (x - 1, 0 + 1 + 1)]
          (by simp) (by
            intro c hc
            simp only [List.mem_cons, List.not_mem_nil, or_false] at hc
            unfold Beside
            rcases hc with rfl | rfl | rfl | rfl <;> dsimp only <;> omega)
        have g2 := h.degree_le hx (by omega) hd2 [(x - 1, 0), (x + 1, 0), (x, 1)] (by
          intro a b ha hb hB
          unfold Beside at hB
          simp only [List.mem_cons, Prod.mk.injEq, List.not_mem_nil, or_false]
          omega)
        simp only [List.length_cons, List.length_nil] at g1 g2
        have := hr _ _ _ _ hnr f1 f2 hd1 hd2
        omega
      | succ y =>
        have f2 := first x y hx (by omega) (by omega)
        have := hr _ _ _ _ hnr f1 f2 hd1 hd2
        have := ih x y hx (by omega) (by omega) (by omega)
        omega
  have diag : ∀ t x y, x < n → y + t < n → t ≤ x → 1 ≤ t → N x y < N (x - t) (y + t) := by
    intro t x y hx hy htx ht
    induction t, ht using Nat.le_induction with
    | base => exact mono (x + y) (by omega) x y hx hy htx rfl
    | succ t ht ih =>
      have h1 := ih (by omega) (by omega)
      have h3 := mono (x + y) (by omega) (x - t) (y + t) (by omega) (by omega) (by omega) (by omega)
      rw [show x - t - 1 = x - (t + 1) by omega, show y + t + 1 = y + (t + 1) by omega] at h3
      omega
  have order : ∀ x y x' y', x < n → y < n → x' < n → y' < n → x + y = x' + y' → x' < x → N x y < N x' y' := by
    intro x y x' y' hx hy hx' hy' hl hlt
    have := diag (x - x') x y hx (by omega) (by omega) (by omega)
    rwa [show x - (x - x') = x' by omega, show y + (x - x') = y' by omega] at this
  -- the vertices numbered in between have different columns
  have hnext : (x' = x + 1 ∧ y' = y) ∨ (x' = x ∧ y' = y + 1) := by
    unfold Beside at hB
    rcases hB with ⟨rfl, e | e⟩ | ⟨rfl, e | e⟩
    · omega
    · have := level x' y x y hx' hy hx hy (by omega)
      omega
    · omega
    · have := level x y' x y hx hy' hx hy (by omega)
      omega
  have hmax := (hget x' y' hx' hy').2
  choose! X Y hX hY hXY using hsurj
  have hcard : (Finset.Ico (N x y) (N x' y')).card ≤ (Finset.range n).card := by
    apply Finset.card_le_card_of_injOn X
    · intro m hm
      simp only [Finset.coe_Ico, Set.mem_Ico] at hm
      simp only [Finset.coe_range, Set.mem_Iio]
      exact hX m (by omega)
    · have hlev : ∀ m, N x y ≤ m → m < N x' y' → X m + Y m = x + y ∧ X m ≤ x ∨ X m + Y m = x + y + 1 ∧ x < X m := by
        intro m hm1 hm2
        have hm : m < n * n := by omega
        have k1 := hX m hm
        have k2 := hY m hm
        have k3 := hXY m hm
        rcases Nat.lt_trichotomy (X m + Y m) (x + y) with c | c | c
        · have := level _ _ _ _ k1 k2 hx hy c
          omega
        · left
          refine ⟨c, ?_⟩
          by_contra hgt
          have := order _ _ _ _ k1 k2 hx hy c (by omega)
          omega
        · right
          have hle : X m + Y m ≤ x' + y' := by
            by_contra hgt
            have := level _ _ _ _ hx' hy' k1 k2 (by omega)
            omega
          refine ⟨by omega, ?_⟩
          by_contra hgt
          rcases Nat.lt_or_ge (X m) x' with c' | c'
          · have := order _ _ _ _ hx' hy' k1 k2 (by omega) c'
            omega
          · have e1 : X m = x' := by omega
            have e2 : Y m = y' := by omega
            rw [e1, e2] at k3
            omega
      intro m hm m' hm' e
      simp only [Finset.coe_Ico, Set.mem_Ico] at hm hm'
      have l1 := hlev m hm.1 hm.2
      have l2 := hlev m' hm'.1 hm'.2
      have e2 : Y m = Y m' := by omega
      rw [hXY m (by omega), hXY m' (by omega), e, e2]
  rw [Nat.card_Ico, Finset.card_range] at hcard
  omega

/-- The same without the choice of the direction, for the reordered graph. -/
theorem narrow (h : GridBy g n f) (h2 : 2 ≤ n) {sort : List (Nat × Nat) → List (Nat × Nat)} (hsort : DegreeSort sort) :
    ∃ q q' g' g'', g.cuthillMckee sort (f 0 0) = .ok q ∧ g.reorder q = .ok (g', g) ∧ (∀ a b, Adj g' a b → b ≤ a + n) ∧
      g.cuthillMckeeReverse sort (f 0 0) = .ok q' ∧ g.reorder q' = .ok (g'', g) ∧ ∀ a b, Adj g'' a b → b ≤ a + n := by
  have hroot : f 0 0 < g.sizeVertex := by rw [h.size]; exact h.lt 0 0 (by omega) (by omega)
  obtain ⟨q, hq, hqp, -⟩ := c19_cuthill_mckee sort hsort g h.reach _ hroot (by rw [h.size]; exact h.spans (by omega))
  obtain ⟨q', hq', hqp', hrev⟩ := (c20_reverse sort hsort g h.reach (f 0 0)).1 q hq
  obtain ⟨g', r1, r2, -, r4⟩ := c08_reorder false g h.reach q hqp
  obtain ⟨g'', r1', r2', -, r4'⟩ := c08_reorder false g h.reach q' hqp'
  rw [h.size] at hqp hqp' hrev
  have hnd : q.Nodup := hqp.nodup_iff.mpr List.nodup_range
  have key : ∀ x y x' y', x < n → y < n → x' < n → y' < n → Beside x y x' y' → q.getD (f x' y') 0 ≤ q.getD (f x y) 0 + n := by
    intro x y x' y' hx hy hx' hy' hB
    by_cases hlt : q.getD (f x y) 0 < q.getD (f x' y') 0
    · have hne : q.getD (f 1 0) 0 ≠ q.getD (f 0 1) 0 := by
        intro e
        have l1 : f 1 0 < q.length := by rw [hqp.length_eq, List.length_range]; exact h.lt 1 0 (by omega) (by omega)
        have l2 : f 0 1 < q.length := by rw [hqp.length_eq, List.length_range]; exact h.lt 0 1 (by omega) (by omega)
        simp only [List.getD_eq_getElem?_getD, List.getElem?_eq_getElem l1, List.getElem?_eq_getElem l2,
          Option.getD_some] at e
        have := h.inj 1 0 0 1 (by omega) (by omega) (by omega) (by omega) ((List.Nodup.getElem_inj_iff hnd).mp e)
        omega
      rcases Nat.lt_or_gt_of_ne hne with c | c
      · exact h.width h2 hsort hq hqp c hx hy hx' hy' hB hlt
      · exact h.transpose.width h2 hsort hq hqp c hy hx hy' hx' (by unfold Beside at hB ⊢; omega) hlt
    · omega
  have cell : ∀ {r : List Nat} {k : Graph}, r.Perm (List.range (n * n)) → k.sizeVertex = g.sizeVertex → Reachable false k →
      (∀ a b (ha : a < r.length) (hb : b < r.length), Adj k r[a] r[b] ↔ Adj g a b) → ∀ a b, Adj k a b →
      ∃ x y x' y', x < n ∧ y < n ∧ x' < n ∧ y' < n ∧ Beside x y x' y' ∧ r[f x y]? = some a ∧ r[f x' y']? = some b := by
    intro r k hr hs hk hadj a b hab
    obtain ⟨l1, l2⟩ := adj_lt hk hab
    rw [hs, h.size] at l1 l2
    obtain ⟨u, hu⟩ := List.mem_iff_getElem?.mp (hr.mem_iff.mpr (List.mem_range.mpr l1))
    obtain ⟨v, hv⟩ := List.mem_iff_getElem?.mp (hr.mem_iff.mpr (List.mem_range.mpr l2))
    obtain ⟨ul, ue⟩ := List.getElem?_eq_some_iff.mp hu
    obtain ⟨vl, ve⟩ := List.getElem?_eq_some_iff.mp hv
    have hlen : r.length = n * n := by rw [hr.length_eq, List.length_range]
    obtain ⟨x, y, hx, hy, rfl⟩ := h.surj u (by omega)
    obtain ⟨x', y', hx', hy', rfl⟩ := h.surj v (by omega)
    refine ⟨x, y, x', y', hx, hy, hx', hy', ?_, hu, hv⟩
    rw [← h.adj x y x' y' hx hy hx' hy', ← hadj _ _ ul vl, ue, ve]
    exact hab
  have reach : ∀ {r : List Nat} {k : Graph}, r.Perm (List.range (n * n)) → g.reorder r = .ok (k, g) → Reachable false k := by
    intro r k hr hk
    refine Graph.Reachable.step h.reach (op := .reorder r) ?_ (by simp [step, hk])
    show r.Perm (List.range r.length)
    rwa [hr.length_eq, List.length_range]
  refine ⟨q, q', g', g'', hq, r1, ?_, hq', r1', ?_⟩
  · intro a b hab
    obtain ⟨x, y, x', y', hx, hy, hx', hy', hB, ea, eb⟩ := cell hqp r2 (reach hqp r1) r4 a b hab
    have := key x y x' y' hx hy hx' hy' hB
    simpa [List.getD_eq_getElem?_getD, ea, eb] using this
  · intro a b hab
    obtain ⟨x, y, x', y', hx, hy, hx', hy', hB, ea, eb⟩ := cell hqp' r2' (reach hqp' r1') r4' a b hab
    have := key x' y' x y hx' hy' hx hy (by unfold Beside at hB ⊢; omega)
    obtain ⟨a1, b1, e1, e2, e3⟩ := hrev (f x y) (h.lt x y hx hy)
    obtain ⟨a2, b2, e4, e5, e6⟩ := hrev (f x' y') (h.lt x' y' hx' hy')
    rw [ea] at e2
    rw [eb] at e5
    cases e2
    cases e5
    simp only [List.getD_eq_getElem?_getD, e1, e4, Option.getD_some] at this
    omega

end GridBy

/-- The numberings of the grid with `n` columns and rows. -/
theorem gridBy_of {grid g : Graph} {n : Nat} (h2 : 2 ≤ n) (hn : n * n < sizeMax)
    (hgrid : createStructured false n = .ok grid) {p : List Nat} (hp : p.Perm (List.range (n * n)))
    (hg : grid.reorder p = .ok (g, grid)) : GridBy g n (fun x y => p.getD (y * n + x) 0) := by
  obtain ⟨l', e1, e2, e3, e4⟩ := c28_structured false n h2 hn
  rw [hgrid] at e1
  cases e1
  have hcell : ∀ x y, x < n → y < n → y * n + x < n * n := by
    intro x y hx hy
    calc y * n + x < y * n + n := by omega
      _ = (y + 1) * n := by ring
      _ ≤ n * n := Nat.mul_le_mul_right n hy
  have : GridBy grid n (fun x y => y * n + x) := by
    refine ⟨e2, e3, hcell, ?_, ?_, ?_⟩
    · intro x y x' y' hx hy hx' hy' e
      have hx0 := congrArg (· % n) e
      have hy0 := congrArg (· / n) e
      simp only [Nat.mul_comm _ n, Nat.mul_add_mod, Nat.mod_eq_of_lt hx, Nat.mod_eq_of_lt hx'] at hx0
      simp only [Nat.mul_comm _ n, Nat.mul_add_div (show 0 < n by omega), Nat.div_eq_of_lt hx, Nat.div_eq_of_lt hx',
        Nat.add_zero] at hy0
      exact ⟨hx0, hy0⟩
    · intro v hv
      exact ⟨v % n, v / n, Nat.mod_lt _ (by omega), Nat.div_lt_of_lt_mul hv, by rw [Nat.mul_comm]; exact (Nat.div_add_mod v n).symm⟩
    · intro x y x' y' hx hy hx' hy'
      rw [e4 x y x' y' hx hy hx' hy']
      unfold Beside
      simp only [true_and]
      omega
  exact this.reorder hp hg

/-- C166: from a corner of a grid in any numbering. -/
theorem c166_corner (n : Nat) (h2 : 2 ≤ n) (hn : n * n < sizeMax) (grid g : Graph)
    (hgrid : createStructured false n = .ok grid) (p : List Nat) (hp : p.Perm (List.range (n * n)))
    (hg : grid.reorder p = .ok (g, grid)) (sort : List (Nat × Nat) → List (Nat × Nat)) (hsort : DegreeSort sort) (corner root : Nat)
    (hcorner : corner = 0 ∨ corner = n - 1 ∨ corner = (n - 1) * n ∨ corner = n * n - 1) (hroot : p[corner]? = some root) :
    ∃ q q' g' g'', g.cuthillMckee sort root = .ok q ∧ g.reorder q = .ok (g', g) ∧ (∀ a b, Adj g' a b → b ≤ a + n) ∧
      g.cuthillMckeeReverse sort root = .ok q' ∧ g.reorder q' = .ok (g'', g) ∧ ∀ a b, Adj g'' a b → b ≤ a + n := by
  have h := gridBy_of h2 hn hgrid hp hg
  have hr : root = p.getD corner 0 := by simp [List.getD_eq_getElem?_getD, hroot]
  subst hr
  rcases hcorner with rfl | rfl | rfl | rfl
  · have := h.narrow h2 hsort
    simpa using this
  · have := h.flip.narrow h2 hsort
    simpa using this
  · have := h.transpose.flip.narrow h2 hsort
    simpa using this
  · have := h.flip.transpose.flip.narrow h2 hsort
    have e : (n - 1) * n + (n - 1) = n * n - 1 := by
      obtain ⟨m, rfl⟩ : ∃ m, n = m + 1 := ⟨n - 1, by omega⟩
      simp only [Nat.add_sub_cancel]
      ring_nf
      omega
    simpa [e] using this

/-- C166: with the default root `cuthill_mckee` starts at a corner by itself. -/
theorem c166_default (n : Nat) (h2 : 2 ≤ n) (hn : n * n < sizeMax) (grid g : Graph)
    (hgrid : createStructured false n = .ok grid) (p : List Nat) (hp : p.Perm (List.range (n * n)))
    (hg : grid.reorder p = .ok (g, grid)) (sort : List (Nat × Nat) → List (Nat × Nat)) (hsort : DegreeSort sort) :
    ∃ q q' g' g'', g.cuthillMckee sort sizeMax = .ok q ∧ g.reorder q = .ok (g', g) ∧ (∀ a b, Adj g' a b → b ≤ a + n) ∧
      g.cuthillMckeeReverse sort sizeMax = .ok q' ∧ g.reorder q' = .ok (g'', g) ∧ ∀ a b, Adj g'' a b → b ≤ a + n := by
  have h := gridBy_of h2 hn hgrid hp hg
  generalize hf : (fun x y => p.getD (y * n + x) 0) = f at h
  have h22 : 2 * 2 ≤ n * n := Nat.mul_le_mul h2 h2
  -- a list of two neighbours of every cell
  have two : ∀ x y d, x < n → y < n → g.degree (f x y) = .ok d → 2 ≤ d := by
    intro x y d hx hy hd
    exact h.degree_ge hx hy hd [(if x = 0 then 1 else x - 1, y), (x, if y = 0 then 1 else y - 1)]
      (by simp; split <;> omega) (by
        intro c hc
        simp only [List.mem_cons, List.not_mem_nil, or_false] at hc
        unfold Beside
        rcases hc with rfl | rfl <;> dsimp only <;> split <;> omega)
  have three : ∀ x y d, x < n → y < n → g.degree (f x y) = .ok d → 0 < x → x + 1 < n → 3 ≤ d := by
    intro x y d hx hy hd h0 h1
    exact h.degree_ge hx hy hd [(x - 1, y), (x + 1, y), (x, if y = 0 then 1 else y - 1)]
      (by simp; omega) (by
        intro c hc
        simp only [List.mem_cons, List.not_mem_nil, or_false] at hc
        unfold Beside
        rcases hc with rfl | rfl | rfl <;> dsimp only <;> (try split) <;> omega)
  have three' : ∀ x y d, x < n → y < n → g.degree (f x y) = .ok d → 0 < y → y + 1 < n → 3 ≤ d := by
    intro x y d hx hy hd h0 h1
    exact h.degree_ge hx hy hd [(x, y - 1), (x, y + 1), (if x = 0 then 1 else x - 1, y)]
      (by simp; omega) (by
        intro c hc
        simp only [List.mem_cons, List.not_mem_nil, or_false] at hc
        unfold Beside
        rcases hc with rfl | rfl | rfl <;> dsimp only <;> (try split) <;> omega)
  obtain ⟨root, dr, h1, h3, h4, _, h5⟩ := c57_default_root sort g h.reach (by rw [h.size]; omega) (by
    intro v hv h0
    rw [h.size] at hv
    obtain ⟨x, y, hx, hy, rfl⟩ := h.surj v hv
    have := two x y 0 hx hy h0
    omega)
  rw [h.size] at h1
  obtain ⟨x, y, hx, hy, rfl⟩ := h.surj root h1
  have hd2 : dr ≤ 2 := by
    obtain ⟨d, hd⟩ := h.degree_ok (x := 0) (y := 0) (by omega) (by omega)
    have e1 := h.degree_le (by omega) (by omega) hd [(1, 0), (0, 1)] (by
      intro a b ha hb hB
      unfold Beside at hB
      simp only [List.mem_cons, Prod.mk.injEq, List.not_mem_nil, or_false]
      omega)
    have e2 := h4 _ _ hd
    simp only [List.length_cons, List.length_nil] at e1
    omega
  have hcx : x = 0 ∨ x = n - 1 := by
    by_contra hc
    have := three x y dr hx hy h3 (by omega) (by omega)
    omega
  have hcy : y = 0 ∨ y = n - 1 := by
    by_contra hc
    have := three' x y dr hx hy h3 (by omega) (by omega)
    omega
  have key : ∃ q q' g' g'', g.cuthillMckee sort (f x y) = .ok q ∧ g.reorder q = .ok (g', g) ∧ (∀ a b, Adj g' a b → b ≤ a + n) ∧
      g.cuthillMckeeReverse sort (f x y) = .ok q' ∧ g.reorder q' = .ok (g'', g) ∧ ∀ a b, Adj g'' a b → b ≤ a + n := by
    rcases hcx with rfl | rfl <;> rcases hcy with rfl | rfl
    · exact h.narrow h2 hsort
    · exact h.transpose.flip.narrow h2 hsort
    · exact h.flip.narrow h2 hsort
    · exact h.flip.transpose.flip.narrow h2 hsort
  unfold Graph.cuthillMckeeReverse at key ⊢
  rw [h5]
  exact key

/-- A renumbered grid in which the indices of neighbours differ by up to eight, and the order that is found. -/
example : ∃ grid g, createStructured false 3 = .ok grid ∧ grid.reorder [4, 8, 0, 6, 2, 7, 1, 5, 3] = .ok (g, grid) ∧
    g.nbrs 0 = .ok [7, 8] ∧
    g.cuthillMckee (List.insertionSort fun a b => a.2 ≤ b.2) sizeMax = .ok [0, 8, 4, 3, 5, 6, 7, 1, 2] :=
  ⟨⟨[1, 3, 0, 2, 4, 1, 5, 0, 4, 6, 1, 3, 5, 7, 2, 4, 8, 3, 7, 4, 6, 8, 5, 7], [0, 2, 5, 7, 10, 14, 17, 19, 22, 24]⟩,
    ⟨[7, 8, 5, 6, 5, 6, 7, 8, 5, 7, 6, 8, 1, 2, 3, 1, 2, 4, 0, 2, 3, 0, 2, 4], [0, 2, 4, 8, 10, 12, 15, 18, 21, 24]⟩,
    by decide +kernel⟩

end Disa.Props
