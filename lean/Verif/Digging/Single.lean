import Verif.Digging.Optimum
import Verif.Brion.Extreme

/-!
# C79, option `single`: only the cone of the vertex found by linear programming

The set that is searched is the set of lattice points of the tangent cone, which is infinite.
-/

namespace Verif.Digging

open Verif.Barvinok
open Verif.Barvinok.Spec
open Verif.ExpSubst
open Verif.PolySubst
open Verif.Brion

variable {m n : ℕ}

/-! ## Expansions with infinite sets -/

/-- If the cones represent `A`, which descends for a cost that turns the rays in the same way, then `A` descends. -/
theorem descending_transfer {cones : List (OffCone n)} {A : Set (Vec n)} (hrep : Represents cones A) {cost cost2 : Vec n} (hgen : Generic cones cost)
    (hsame : ∀ C ∈ cones, ∀ r ∈ C.rays, (0 < inner cost2 r ↔ 0 < inner cost r)) (hgen2 : Generic cones cost2)
    (hdesc : Descending cost2 (A.indicator (1 : Vec n → ℚ))) : Descending cost (A.indicator (1 : Vec n → ℚ)) := by
  obtain ⟨l, hl, hK, g, hg, hsum⟩ := hrep.sum
  have hmem : ∀ b ∈ l, b.1 ∈ cones := fun b hb => by rw [← hl]; exact List.mem_map.2 ⟨b, hb, rfl⟩
  have hneg : ∀ c : Vec n, Generic cones c → ∀ b ∈ l, ∀ f ∈ b.1.rays.map (turn c), inner c f < 0 := by
    intro c hc b hb f hf
    obtain ⟨r, hr, rfl⟩ := List.mem_map.1 hf
    exact turn_neg (hc b.1 (hmem b hb) r hr)
  have key := fun z => formal_identity cost2 l (fun b => (b.1.coefficient : ℚ)) (fun b => b.1.rays) (fun b => gf b.1.points)
    (fun b hb r hr h0 => hgen b.1 (hmem b hb) r hr (by rw [h0]; exact inner_zero _)) (fun b => b.2)
    (fun b => expand (turnSign cost2 b.1.rays) (apex cost2 (b.1.points.headD 0) b.1.rays) (b.1.rays.map (turn cost2))) hK
    (fun b hb => by
      obtain ⟨pt, hpt⟩ := hrep.one b.1 (hmem b hb)
      show act _ _ = emb (gf b.1.points)
      rw [hpt]
      exact act_expand pt b.1.rays _ (List.Perm.refl _) (hgen2 b.1 (hmem b hb)))
    (fun b hb => expand_descending _ _ (hneg cost2 hgen2 b hb))
    (A.indicator 1) hdesc g hg hsum z
  have hfun : A.indicator (1 : Vec n → ℚ) = (l.map fun b => (b.1.coefficient : ℚ) •
      expand (turnSign cost2 b.1.rays) (apex cost2 (b.1.points.headD 0) b.1.rays) (b.1.rays.map (turn cost2))).sum := by
    funext z
    rw [list_sum_apply, ← key z]
    rfl
  rw [hfun]
  refine Descending.list_sum _ l fun b hb => Descending.smul ?_ _
  have e : b.1.rays.map (turn cost2) = b.1.rays.map (turn cost) := by
    refine List.map_congr_left fun r hr => ?_
    unfold turn
    have := hsame b.1 (hmem b hb) r hr
    by_cases h : 0 < inner cost r
    · rw [if_pos h, if_pos (this.2 h)]
    · rw [if_neg h, if_neg fun h' => h (this.1 h')]
  rw [e]
  exact expand_descending _ _ (hneg cost hgen b hb)

/-- The lattice points of a polyhedron. -/
def latticeOf (rows : List (ℤ × Vec n)) : Set (Vec n) := {z | ∀ row ∈ rows, 0 ≤ row.1 + inner row.2 z}

/-- A cost that descends on a polyhedron whose rows determine a point. -/
def innerCost (rows : List (ℤ × Vec n)) : Vec n := -(rows.map fun row : ℤ × Vec n => row.2).sum

theorem inner_innerCost (rows : List (ℤ × Vec n)) (z : Vec n) :
    inner (innerCost rows) z = (rows.map fun row : ℤ × Vec n => row.1).sum - (rows.map fun row : ℤ × Vec n => row.1 + inner row.2 z).sum := by
  unfold innerCost
  rw [inner_neg_left]
  induction rows with
  | nil => simp [inner_comm, inner_zero]
  | cons row rows ih =>
    simp only [List.map_cons, List.sum_cons]
    rw [inner_comm, inner_add, inner_comm, inner_comm z]
    omega

theorem innerCost_descending (rows : List (ℤ × Vec n)) (hinj : ∀ y : Vec n, (∀ row ∈ rows, inner row.2 y = 0) → y = 0) :
    (∃ B : ℤ, ∀ z ∈ latticeOf rows, inner (innerCost rows) z ≤ B) ∧ ∀ s : ℤ, {z | z ∈ latticeOf rows ∧ s ≤ inner (innerCost rows) z}.Finite := by
  have hnn : ∀ z ∈ latticeOf rows, 0 ≤ (rows.map fun row : ℤ × Vec n => row.1 + inner row.2 z).sum := by
    intro z hz
    refine List.sum_nonneg ?_
    intro x hx
    obtain ⟨row, hrow, rfl⟩ := List.mem_map.1 hx
    exact hz row hrow
  refine ⟨⟨(rows.map fun row : ℤ × Vec n => row.1).sum, fun z hz => ?_⟩, fun s => ?_⟩
  · rw [inner_innerCost]
    have := hnn z hz
    omega
  · set T : ℤ := (rows.map fun row : ℤ × Vec n => row.1).sum - s with hT
    have hbound : ∀ z, z ∈ latticeOf rows → s ≤ inner (innerCost rows) z → ∀ row ∈ rows, row.1 + inner row.2 z ≤ T := by
      intro z hz hs row hrow
      rw [inner_innerCost] at hs
      have : row.1 + inner row.2 z ≤ (rows.map fun row : ℤ × Vec n => row.1 + inner row.2 z).sum := by
        refine List.single_le_sum ?_ _ (List.mem_map.2 ⟨row, hrow, rfl⟩)
        intro x hx
        obtain ⟨row, hrow, rfl⟩ := List.mem_map.1 hx
        exact hz row hrow
      omega
    let F : Vec n → Fin rows.length → ℤ := fun z i => inner (rows.get i).2 z
    have hF : Function.Injective F := by
      intro x y hxy
      have : x - y = 0 := by
        refine hinj _ fun row hrow => ?_
        obtain ⟨i, rfl⟩ := List.get_of_mem hrow
        rw [inner_sub]
        have := congrFun hxy i
        simp only [F] at this
        omega
      exact sub_eq_zero.1 this
    refine Set.Finite.subset (Set.Finite.preimage hF.injOn (Set.Finite.pi' fun i => Set.finite_Icc (-(rows.get i).1) (T - (rows.get i).1))) ?_
    rintro z ⟨hz, hs⟩
    refine fun i => ⟨?_, ?_⟩
    · have := hz _ (List.get_mem rows i)
      simp only [F]
      omega
    · have := hbound z hz hs _ (List.get_mem rows i)
      simp only [F]
      omega

/-- Lattice points of a pointed cone descend for every generic cost that is bounded on them. -/
theorem descending_cone {cones : List (OffCone n)} (rows : List (ℤ × Vec n)) (hrep : Represents cones (latticeOf rows))
    (hinj : ∀ y : Vec n, (∀ row ∈ rows, inner row.2 y = 0) → y = 0) {cost : Vec n} (hgen : Generic cones cost) (B : ℤ)
    (hB : ∀ z ∈ latticeOf rows, inner cost z ≤ B) : Descending cost ((latticeOf rows).indicator (1 : Vec n → ℚ)) := by
  obtain ⟨⟨B0, hB0⟩, hfin⟩ := innerCost_descending rows hinj
  obtain ⟨M, hM0, hM⟩ : ∃ M : ℤ, 0 < M ∧ ∀ C ∈ cones, ∀ r ∈ C.rays, |inner (innerCost rows) r| < M := by
    have h1 : ∀ l : List (Vec n), ∃ M : ℤ, 0 < M ∧ ∀ r ∈ l, |inner (innerCost rows) r| < M := by
      intro l
      induction l with
      | nil => exact ⟨1, by norm_num, fun r hr => by cases hr⟩
      | cons r l ih =>
        obtain ⟨M, h0, hM⟩ := ih
        refine ⟨max M (|inner (innerCost rows) r| + 1), lt_of_lt_of_le h0 (le_max_left _ _), fun r' hr' => ?_⟩
        rcases List.mem_cons.1 hr' with rfl | hr'
        · exact lt_of_lt_of_le (lt_add_one _) (le_max_right _ _)
        · exact (hM r' hr').trans_le (le_max_left _ _)
    obtain ⟨M, h0, hM⟩ := h1 (cones.flatMap fun C => C.rays)
    exact ⟨M, h0, fun C hC r hr => hM r (List.mem_flatMap.2 ⟨C, hC, hr⟩)⟩
  have hin : ∀ z, inner (M • cost + innerCost rows) z = M * inner cost z + inner (innerCost rows) z := by
    intro z
    rw [inner_comm, inner_add, inner_smul, inner_comm, inner_comm z]
  have hsign : ∀ C ∈ cones, ∀ r ∈ C.rays, (0 < inner (M • cost + innerCost rows) r ↔ 0 < inner cost r) ∧ inner (M • cost + innerCost rows) r ≠ 0 := by
    intro C hC r hr
    have h1 := abs_lt.1 (hM C hC r hr)
    have h2 := hgen C hC r hr
    rw [hin]
    rcases lt_or_gt_of_ne h2 with h3 | h3
    · have : M * inner cost r ≤ M * (-1) := mul_le_mul_of_nonneg_left (by omega) hM0.le
      constructor
      · constructor <;> intro <;> omega
      · omega
    · have : M * 1 ≤ M * inner cost r := mul_le_mul_of_nonneg_left (by omega) hM0.le
      constructor
      · constructor <;> intro <;> omega
      · omega
  refine descending_transfer hrep hgen (cost2 := M • cost + innerCost rows) (fun C hC r hr => (hsign C hC r hr).1) (fun C hC r hr => (hsign C hC r hr).2) ?_
  have key : ∀ p, (latticeOf rows).indicator (1 : Vec n → ℚ) p ≠ 0 → p ∈ latticeOf rows := by
    intro p hp
    by_contra h
    exact hp (Set.indicator_of_notMem h _)
  have hMB : ∀ z ∈ latticeOf rows, M * inner cost z ≤ M * B := fun z hz => mul_le_mul_of_nonneg_left (hB z hz) hM0.le
  refine ⟨⟨M * B + B0, fun p hp => ?_⟩, fun t => ?_⟩
  · rw [hin]
    have h1 := hMB p (key p hp)
    have h2 := hB0 p (key p hp)
    omega
  · refine (hfin (t - M * B)).subset ?_
    rintro p ⟨h1, h2⟩
    refine ⟨key p h1, ?_⟩
    rw [hin] at h2
    have h3 := hMB p (key p h1)
    omega

/-! ## The tangent cone -/

/-- The rows that are equations at `v`. -/
def tight (matrix : List (ℤ × Vec n)) (v : Fin n → ℚ) : List (ℤ × Vec n) :=
  matrix.filter fun row => decide ((row.1 : ℚ) + ∑ k, (row.2 k : ℚ) * v k = 0)

/-- **Specification.** `v` maximizes the cost over the rational points of the polyhedron. -/
def LPOptimal (matrix : List (ℤ × Vec n)) (cost : Vec n) (v : Fin n → ℚ) : Prop :=
  ∀ x : Fin n → ℚ, (∀ row ∈ matrix, 0 ≤ (row.1 : ℚ) + ∑ k, (row.2 k : ℚ) * x k) → ∑ k, (cost k : ℚ) * x k ≤ ∑ k, (cost k : ℚ) * v k

theorem active_iff (matrix : List (ℤ × Vec n)) (v : Fin n → ℚ) (i : Fin matrix.length) :
    i ∈ active (normals matrix) (sides matrix) v ↔ ((matrix.get i).1 : ℚ) + ∑ k, ((matrix.get i).2 k : ℚ) * v k = 0 := by
  show ∑ k, ((-(matrix.get i).2 k : ℤ) : ℚ) * v k = ((matrix.get i).1 : ℚ) ↔ _
  have : ∑ k, ((-(matrix.get i).2 k : ℤ) : ℚ) * v k = - ∑ k, ((matrix.get i).2 k : ℚ) * v k := by
    rw [← Finset.sum_neg_distrib]
    exact Finset.sum_congr rfl fun k _ => by push_cast; ring
  rw [this]
  constructor <;> intro h <;> linarith

theorem mem_tight (matrix : List (ℤ × Vec n)) (v : Fin n → ℚ) (row : ℤ × Vec n) :
    row ∈ tight matrix v ↔ row ∈ matrix ∧ (row.1 : ℚ) + ∑ k, (row.2 k : ℚ) * v k = 0 := by
  unfold tight
  rw [List.mem_filter, decide_eq_true_iff]

theorem inner_cast (a z : Vec n) : ((inner a z : ℤ) : ℚ) = ∑ k, (a k : ℚ) * (z k : ℚ) := by
  unfold ExpSubst.inner; push_cast; rfl

theorem rel_tangent (matrix : List (ℤ × Vec n)) (v : Fin n → ℚ) (z : Vec n) :
    rel z v ∈ tangent (normals matrix) (sides matrix) v ↔ z ∈ latticeOf (tight matrix v) := by
  have hrow : ∀ row : ℤ × Vec n, (row.1 : ℚ) + ∑ k, (row.2 k : ℚ) * v k = 0 →
      (dot (fun k => -row.2 k) (rel z v) ≤ 0 ↔ 0 ≤ row.1 + inner row.2 z) := by
    intro row h0
    have e : dot (fun k => -row.2 k) (rel z v) = ((-((row.1 + inner row.2 z : ℤ) : ℚ) : ℚ) : ℝ) := by
      have h1 : ((row.1 : ℚ) : ℝ) + ∑ k, ((row.2 k : ℚ) : ℝ) * (v k : ℝ) = 0 := by exact_mod_cast congrArg (fun q : ℚ => (q : ℝ)) h0
      push_cast [inner_cast]
      unfold Spec.dot rel
      push_cast
      have h2 : ∑ k, (-(row.2 k : ℝ)) * ((z k : ℝ) - (v k : ℝ)) = -∑ k, (row.2 k : ℝ) * (z k : ℝ) + ∑ k, (row.2 k : ℝ) * (v k : ℝ) := by
        rw [← Finset.sum_neg_distrib, ← Finset.sum_add_distrib]
        exact Finset.sum_congr rfl fun k _ => by ring
      have h3 : ((inner row.2 z : ℤ) : ℝ) = ∑ k, (row.2 k : ℝ) * (z k : ℝ) := by
        unfold ExpSubst.inner; push_cast; rfl
      push_cast at h1
      linarith [h2]
    rw [e]
    constructor
    · intro h
      have : (-((row.1 + inner row.2 z : ℤ) : ℚ) : ℚ) ≤ 0 := by exact_mod_cast h
      have h4 : (0 : ℚ) ≤ ((row.1 + inner row.2 z : ℤ) : ℚ) := by linarith
      exact_mod_cast h4
    · intro h
      have h4 : (0 : ℚ) ≤ ((row.1 + inner row.2 z : ℤ) : ℚ) := by exact_mod_cast h
      have : (-((row.1 + inner row.2 z : ℤ) : ℚ) : ℚ) ≤ 0 := by linarith
      exact_mod_cast this
  constructor
  · intro h row hr
    obtain ⟨h1, h2⟩ := (mem_tight matrix v row).1 hr
    obtain ⟨i, rfl⟩ := List.get_of_mem h1
    exact (hrow _ h2).1 (h i ((active_iff matrix v i).2 h2))
  · intro h i hi
    have h2 := (active_iff matrix v i).1 hi
    exact (hrow _ h2).2 (h _ ((mem_tight matrix v _).2 ⟨List.get_mem _ i, h2⟩))

/-- The tight rows at a vertex determine a point. -/
theorem tight_injective (matrix : List (ℤ × Vec n)) (vs : List (Fin n → ℚ)) (hvs : IsVertexList (normals matrix) (sides matrix) vs) (v : Fin n → ℚ)
    (hv : v ∈ vs) (y : Vec n) (hy : ∀ row ∈ tight matrix v, inner row.2 y = 0) : y = 0 := by
  have hext := (hvs.mem fun k => (v k : ℝ)).1 ⟨v, hv, rfl⟩
  have := active_of_extreme _ _ _ hext (fun k => (y k : ℝ)) fun i hi => by
    have hi' : i ∈ active (normals matrix) (sides matrix) v := by
      show ∑ k, (normals matrix i k : ℚ) * v k = sides matrix i
      have : dot (normals matrix i) (fun k => (v k : ℝ)) = ((sides matrix i : ℚ) : ℝ) := hi
      unfold Spec.dot at this
      beta_reduce at this
      exact_mod_cast this
    have h0 := hy _ ((mem_tight matrix v _).2 ⟨List.get_mem _ i, (active_iff matrix v i).1 hi'⟩)
    have h1 : ((inner (matrix.get i).2 y : ℤ) : ℝ) = 0 := by rw [h0]; norm_num
    unfold ExpSubst.inner at h1
    push_cast at h1
    unfold Spec.dot normals
    push_cast
    rw [← neg_zero, ← h1, ← Finset.sum_neg_distrib]
    exact Finset.sum_congr rfl fun k _ => by ring
  funext k
  have hk : (y k : ℝ) = 0 := congrFun this k
  exact_mod_cast hk

/-- The cost is bounded on the lattice points of the tangent cone of an optimal vertex. -/
theorem tight_bounded (matrix : List (ℤ × Vec n)) (cost : Vec n) (v : Fin n → ℚ)
    (hv : ∀ row ∈ matrix, 0 ≤ (row.1 : ℚ) + ∑ k, (row.2 k : ℚ) * v k) (hopt : LPOptimal matrix cost v) (z : Vec n) (hz : z ∈ latticeOf (tight matrix v)) :
    ((inner cost z : ℤ) : ℚ) ≤ ∑ k, (cost k : ℚ) * v k := by
  obtain ⟨ε, hε, hin⟩ : ∃ ε : ℚ, 0 < ε ∧ ∀ row ∈ matrix, 0 ≤ (row.1 : ℚ) + ∑ k, (row.2 k : ℚ) * (v k + ε * ((z k : ℚ) - v k)) := by
    have hsplit : ∀ (row : ℤ × Vec n) (ε : ℚ), (row.1 : ℚ) + ∑ k, (row.2 k : ℚ) * (v k + ε * ((z k : ℚ) - v k)) =
        (1 - ε) * ((row.1 : ℚ) + ∑ k, (row.2 k : ℚ) * v k) + ε * ((row.1 + inner row.2 z : ℤ) : ℚ) := by
      intro row ε
      push_cast [inner_cast]
      rw [mul_add, mul_add, Finset.mul_sum, Finset.mul_sum]
      have : ∑ k, (row.2 k : ℚ) * (v k + ε * ((z k : ℚ) - v k)) = ∑ k, (1 - ε) * ((row.2 k : ℚ) * v k) + ∑ k, ε * ((row.2 k : ℚ) * (z k : ℚ)) := by
        rw [← Finset.sum_add_distrib]
        exact Finset.sum_congr rfl fun k _ => by ring
      rw [this]
      ring
    have : ∀ l : List (ℤ × Vec n), (∀ row ∈ l, row ∈ matrix) → ∃ ε : ℚ, 0 < ε ∧ ε ≤ 1 ∧ ∀ δ : ℚ, 0 < δ → δ ≤ ε → ∀ row ∈ l,
        0 ≤ (1 - δ) * ((row.1 : ℚ) + ∑ k, (row.2 k : ℚ) * v k) + δ * ((row.1 + inner row.2 z : ℤ) : ℚ) := by
      intro l
      induction l with
      | nil => intro _; exact ⟨1, by norm_num, le_rfl, fun δ _ _ row hr => by cases hr⟩
      | cons row l ih =>
        intro hl
        obtain ⟨ε, h1, h2, h3⟩ := ih fun r hr => hl r (List.mem_cons_of_mem _ hr)
        have hr := hv row (hl row List.mem_cons_self)
        set a : ℚ := (row.1 : ℚ) + ∑ k, (row.2 k : ℚ) * v k with ha
        set b : ℚ := ((row.1 + inner row.2 z : ℤ) : ℚ) with hb
        obtain ⟨ε', h4, h5, h6⟩ : ∃ ε' : ℚ, 0 < ε' ∧ ε' ≤ 1 ∧ ∀ δ : ℚ, 0 < δ → δ ≤ ε' → 0 ≤ (1 - δ) * a + δ * b := by
          rcases hr.eq_or_lt with h0 | h0
          · have hbz : 0 ≤ b := by
              have := hz row ((mem_tight matrix v row).2 ⟨hl row List.mem_cons_self, h0.symm⟩)
              rw [hb]; exact_mod_cast this
            refine ⟨1, by norm_num, le_rfl, fun δ h7 _ => ?_⟩
            rw [← h0]
            have := mul_nonneg h7.le hbz
            linarith
          · refine ⟨a / (a + |b|), by positivity, ?_, fun δ h7 h8 => ?_⟩
            · rw [div_le_one (by positivity)]
              linarith [abs_nonneg b]
            · rw [le_div_iff₀ (by positivity)] at h8
              have : -|b| ≤ b := neg_abs_le b
              nlinarith
        refine ⟨min ε ε', lt_min h1 h4, (min_le_left _ _).trans h2, fun δ h7 h8 r hr => ?_⟩
        rcases List.mem_cons.1 hr with rfl | hr
        · exact h6 δ h7 (h8.trans (min_le_right _ _))
        · exact h3 δ h7 (h8.trans (min_le_left _ _)) r hr
    obtain ⟨ε, h1, -, h3⟩ := this matrix fun _ h => h
    exact ⟨ε, h1, fun row hr => by rw [hsplit]; exact h3 ε h1 le_rfl row hr⟩
  have h1 := hopt _ hin
  rw [inner_cast]
  have h2 : ∑ k, (cost k : ℚ) * (v k + ε * ((z k : ℚ) - v k)) = ∑ k, (cost k : ℚ) * v k + ε * (∑ k, (cost k : ℚ) * (z k : ℚ) - ∑ k, (cost k : ℚ) * v k) := by
    rw [← Finset.sum_sub_distrib, Finset.mul_sum, ← Finset.sum_add_distrib]
    exact Finset.sum_congr rfl fun k _ => by ring
  rw [h2] at h1
  have h3 : ε * (∑ k, (cost k : ℚ) * (z k : ℚ) - ∑ k, (cost k : ℚ) * v k) ≤ 0 := by linarith
  have h4 := nonpos_of_mul_nonpos_right h3 hε
  linarith

/-! ## Runs with the option `single` -/

theorem singleCone_eq (v : Fin (m + 1) → ℚ) : ∀ (cones : List ((Fin (m + 1) → ℚ) × List (Mat (m + 1)))), (cones.map (·.1)).Nodup → v ∈ cones.map (·.1) →
    ∃ T, (v, T) ∈ cones ∧ singleCone v cones = [(v, T)]
  | [], _, h => by cases h
  | c :: cones, hnd, h => by
    rw [List.map_cons, List.nodup_cons] at hnd
    unfold singleCone
    by_cases hc : c.1 = v
    · refine ⟨c.2, ?_, ?_⟩
      · rw [← hc]; exact List.mem_cons_self
      · rw [List.filter_cons_of_pos (by simpa using hc), List.filter_eq_nil_iff.2, ← hc]
        intro d hd hdv
        exact hnd.1 (List.mem_map.2 ⟨d, hd, by rw [hc]; simpa using hdv⟩)
    · obtain ⟨T, h1, h2⟩ := singleCone_eq v cones hnd.2 (by
        rcases List.mem_cons.1 h with h | h
        · exact absurd h.symm hc
        · exact h)
      exact ⟨T, List.mem_cons_of_mem _ h1, by rw [List.filter_cons_of_neg (by simpa using hc)]; exact h2⟩

theorem vertex_feasible (matrix : List (ℤ × Vec n)) (vs : List (Fin n → ℚ)) (hvs : IsVertexList (normals matrix) (sides matrix) vs) (v : Fin n → ℚ)
    (hv : v ∈ vs) (row : ℤ × Vec n) (hrow : row ∈ matrix) : 0 ≤ (row.1 : ℚ) + ∑ k, (row.2 k : ℚ) * v k := by
  have hext := (hvs.mem fun k => (v k : ℝ)).1 ⟨v, hv, rfl⟩
  obtain ⟨i, rfl⟩ := List.get_of_mem hrow
  have h1 : dot (normals matrix i) (fun k => (v k : ℝ)) ≤ ((sides matrix i : ℚ) : ℝ) := hext.1 i
  unfold Spec.dot normals sides at h1
  beta_reduce at h1
  have h2 : ∑ k, ((-(matrix.get i).2 k : ℤ) : ℚ) * v k ≤ ((matrix.get i).1 : ℚ) := by exact_mod_cast h1
  have : ∑ k, ((-(matrix.get i).2 k : ℤ) : ℚ) * v k = - ∑ k, ((matrix.get i).2 k : ℚ) * v k := by
    rw [← Finset.sum_neg_distrib]
    exact Finset.sum_congr rfl fun k _ => by push_cast; ring
  linarith

/-- The cones of one vertex represent the lattice points of its tangent cone. -/
theorem single_represents (N : Ntl (m + 1)) (hN : N.Ok) (X : Smith.Xgcd) (irr : Cone (m + 1) → Fin (m + 1) → ℚ) (pfuel : ℕ) (hfuel : 1 < pfuel)
    (matrix : List (ℤ × Vec (m + 1))) (v : Fin (m + 1) → ℚ) (T : List (Mat (m + 1)))
    (hT : Triangulation T (normal (normals matrix) (sides matrix) v))
    (P : List (OffCone (m + 1))) (hP : conesFor N X irr pfuel [(v, T)] = .ok P) :
    Represents P (latticeOf (tight matrix v)) ∧ ∃ D, delivered N .dual irr 1 [(v, T)] = some D ∧ (∀ cost, Generic P cost ↔ GenericFor cost D) ∧ P.length = D.length := by
  classical
  have hp := polar_sum (normals matrix) (active (normals matrix) (sides matrix) v) T hT
  refine conesFor_represents N hN X irr pfuel hfuel _ P hP _ _ (restrict_negligible v hp) fun z => ?_
  have hin : ∀ B : Mat (m + 1), inputInd .dual v B z = ind (polar B) (rel z v) := fun B => rfl
  have htan : ((ind (tangent (normals matrix) (sides matrix) v) (rel z v) : ℤ) : ℚ) = (latticeOf (tight matrix v)).indicator 1 z := by
    have := rel_tangent matrix v z
    unfold Spec.ind
    rw [Set.indicator_apply]
    by_cases h : z ∈ latticeOf (tight matrix v)
    · rw [if_pos (this.2 h), if_pos h]; rfl
    · rw [if_neg fun hc => h (this.1 hc), if_neg h]; rfl
  rw [← htan]
  simp only [List.map_cons, List.map_nil, List.sum_cons, List.sum_nil, add_zero, hin]
  unfold tangent
  push_cast
  ring

/-- The statements about the search that a run with the option `single` relies on. -/
theorem single_setting (N : Ntl (m + 1)) (hN : N.Ok) (X : Smith.Xgcd) (irr : Cone (m + 1) → Fin (m + 1) → ℚ) (pfuel : ℕ) (hfuel : 1 < pfuel)
    (matrix : List (ℤ × Vec (m + 1))) (cones : List ((Fin (m + 1) → ℚ) × List (Mat (m + 1))))
    (hvs : IsVertexList (normals matrix) (sides matrix) (cones.map (·.1)))
    (hT : ∀ c ∈ cones, Triangulation c.2 (normal (normals matrix) (sides matrix) c.1)) (cost : Vec (m + 1)) (v : Fin (m + 1) → ℚ) (hv : v ∈ cones.map (·.1))
    (hopt : LPOptimal matrix cost v) (P : List (OffCone (m + 1))) (hP : conesFor N X irr pfuel (singleCone v cones) = .ok P) :
    Represents P (latticeOf (tight matrix v)) ∧ P ≠ [] ∧ (∀ z, feasible matrix z = true → z ∈ latticeOf (tight matrix v)) ∧
      (∀ cost', Generic P cost' → (true = true → cost' = cost) → Descending cost' ((latticeOf (tight matrix v)).indicator (1 : Vec (m + 1) → ℚ))) := by
  obtain ⟨T, hmem, hsingle⟩ := singleCone_eq v cones hvs.nodup hv
  rw [hsingle] at hP
  obtain ⟨hrep, D, hD, hgen, hlen⟩ := single_represents N hN X irr pfuel hfuel matrix v T (hT _ hmem) P hP
  refine ⟨hrep, ?_, ?_, ?_⟩
  · have hDne := delivered_nonempty N hN .dual irr 1 [(v, T)] (input_nonempty (normals matrix) (sides matrix) [(v, T)] (by simp)
      (fun c hc => by rw [List.mem_singleton.1 hc]; exact hT _ hmem)) D hD
    intro hc
    rw [hc] at hlen
    exact hDne (List.length_eq_zero_iff.1 hlen.symm)
  · intro z hz row hrow
    unfold feasible at hz
    rw [List.all_eq_true] at hz
    exact decide_eq_true_iff.1 (hz row ((mem_tight matrix v row).1 hrow).1)
  · intro cost' hg hc
    have hc := hc rfl
    subst hc
    refine descending_cone _ hrep (tight_injective matrix _ hvs v hv) hg ⌊∑ k, (cost' k : ℚ) * v k⌋ fun z hz => ?_
    exact Int.le_floor.2 (tight_bounded matrix cost' v (vertex_feasible matrix _ hvs v hv) hopt z hz)

theorem optimize_single (N : Ntl (m + 1)) (X : Smith.Xgcd) (irr : Cone (m + 1) → Fin (m + 1) → ℚ) (pfuel : ℕ)
    (cones : List ((Fin (m + 1) → ℚ) × List (Mat (m + 1)))) (matrix : List (ℤ × Vec (m + 1))) (mini : Bool) (cost : Vec (m + 1))
    (tries : ℕ) (guesses : ℕ → Vec (m + 1)) (H : Hashing) (ptries : ℕ) (draws : ℕ → List (ℕ × ℕ)) (innerFuel fuel : ℕ) (P : List (OffCone (m + 1)))
    (hP : conesFor N X irr pfuel cones = .ok P) :
    optimize N X irr pfuel cones matrix mini true cost tries guesses H ptries draws innerFuel fuel =
      report H P matrix mini true (signed mini cost) ptries draws innerFuel fuel := by
  unfold optimize
  dsimp only
  rw [hP]
  dsimp only
  rw [if_pos rfl]
  rfl

theorem single_prepare (cones : List (OffCone n)) (cost : Vec n) (tries : ℕ) (draws : ℕ → List (ℕ × ℕ)) (current : Vec n) (count : ℕ) (h : Heap (Info n)) (c : ℕ)
    (e : prepare cones cost true tries draws current count = .ok (h, c)) : c = count := by
  cases tries with
  | zero => cases e
  | succ tries =>
    rw [prepare] at e
    split at e
    · cases e
    · cases e; rfl
    · rw [if_pos rfl] at e; cases e

theorem single_count_zero {H : Hashing} {cones : List (OffCone n)} {matrix : List (ℤ × Vec n)} {cost : Vec n} {tries : ℕ}
    {draws : ℕ → List (ℕ × ℕ)} {innerFuel fuel : ℕ} {a : Answer n} {i : ℕ} (e : solveIP H cones matrix cost true tries draws innerFuel fuel = .ok (a, i)) : i = 0 := by
  unfold solveIP at e
  split at e
  · cases e
  · rename_i h count hp
    split at e
    · cases e
    · cases e
      exact single_prepare _ _ _ _ _ _ _ _ hp

/-- **C79, option `single`** (part).  With only the cone of a vertex at which linear programming finds the optimum, a reported point is an optimal lattice point of
the polytope and the reported value is its cost.  The reported number is the number of points with that value in the tangent cone.
Missing: that it is the number of optimal lattice points of the polytope; this is false, see `c79_single_number_example`. -/
theorem c79_single_partial (N : Ntl (m + 1)) (hN : N.Ok) (X : Smith.Xgcd) (irr : Cone (m + 1) → Fin (m + 1) → ℚ) (pfuel : ℕ) (hfuel : 1 < pfuel)
    (matrix : List (ℤ × Vec (m + 1))) (S : List (Vec (m + 1))) (hS : LatticePoints (normals matrix) (sides matrix) S)
    (cones : List ((Fin (m + 1) → ℚ) × List (Mat (m + 1)))) (hvs : IsVertexList (normals matrix) (sides matrix) (cones.map (·.1)))
    (hT : ∀ c ∈ cones, Triangulation c.2 (normal (normals matrix) (sides matrix) c.1))
    (mini : Bool) (cost : Vec (m + 1)) (v : Fin (m + 1) → ℚ) (hv : v ∈ cones.map (·.1)) (hopt : LPOptimal matrix (signed mini cost) v)
    (tries : ℕ) (guesses : ℕ → Vec (m + 1)) (H : Hashing) (ptries : ℕ) (draws : ℕ → List (ℕ × ℕ)) (innerFuel fuel : ℕ) (r : Report (m + 1))
    (h : optimize N X irr pfuel (singleCone v cones) matrix mini true cost tries guesses H ptries draws innerFuel fuel = .ok r) :
    ∃ x k, r = .optimum x (inner cost x) (some k) ∧ IsOptimal mini cost S x ∧
      {z | z ∈ latticeOf (tight matrix v) ∧ inner cost z = inner cost x}.Finite ∧
      k = ({z | z ∈ latticeOf (tight matrix v) ∧ inner cost z = inner cost x}.ncard : ℤ) := by
  cases hP : conesFor N X irr pfuel (singleCone v cones) with
  | error e =>
    unfold optimize at h
    dsimp only at h
    rw [hP] at h
    cases h
  | ok P =>
    obtain ⟨hrep, hPne, hfeas, hdesc⟩ := single_setting N hN X irr pfuel hfuel matrix cones hvs hT _ v hv hopt P hP
    rw [optimize_single N X irr pfuel _ matrix mini cost tries guesses H ptries draws innerFuel fuel P hP] at h
    unfold report at h
    have hset : ∀ x : Vec (m + 1), {z | z ∈ latticeOf (tight matrix v) ∧ inner (signed mini cost) z = inner (signed mini cost) x} =
        {z | z ∈ latticeOf (tight matrix v) ∧ inner cost z = inner cost x} := by
      intro x
      ext z
      unfold signed
      cases mini
      · rfl
      · simp [inner_neg_left]
    rcases solveIP_spec hrep hPne H matrix true hfeas (fun hc => by cases hc) (signed mini cost) ptries draws hdesc innerFuel fuel with
      ⟨a, i, cost', e, hu, hs⟩ | ⟨i, cost', e, -⟩ | ⟨e, -⟩ | e
    · rw [e] at h
      have hi : i = 0 := single_count_zero e
      subst hi
      have hc : cost' = signed mini cost := hu.1
      subst hc
      have hSf : ∀ z, feasible matrix z = true ↔ z ∈ S := fun z => (feasible_iff matrix z).trans (hS.mem z).symm
      refine ⟨a.point, a.number, ?_, signed_isOptimal ((hSf _).1 hs.feasible) fun y hy => hs.maximal y ((hSf y).2 hy), ?_, ?_⟩
      · injection h with h
        rw [← h, if_pos rfl]
        congr 1
        exact inner_flip mini cost a.point
      · rw [← hset]; exact hs.finite
      · rw [← hset]; exact hs.number
    · rw [e] at h; cases h
    · rw [e] at h; cases h
    · rw [e] at h; cases h

/-- **C79, option `single`, zero scalar products.** If the cost is orthogonal to a ray, the program gives up (`exit (1)`) instead of perturbing the cost. -/
theorem c79_single_zero (N : Ntl (m + 1)) (hN : N.Ok) (X : Smith.Xgcd) (irr : Cone (m + 1) → Fin (m + 1) → ℚ) (pfuel : ℕ) (hfuel : 1 < pfuel)
    (matrix : List (ℤ × Vec (m + 1)))
    (cones : List ((Fin (m + 1) → ℚ) × List (Mat (m + 1)))) (hvs : IsVertexList (normals matrix) (sides matrix) (cones.map (·.1)))
    (hT : ∀ c ∈ cones, Triangulation c.2 (normal (normals matrix) (sides matrix) c.1))
    (mini : Bool) (cost : Vec (m + 1)) (v : Fin (m + 1) → ℚ) (hv : v ∈ cones.map (·.1)) (hopt : LPOptimal matrix (signed mini cost) v)
    (P : List (OffCone (m + 1))) (hP : conesFor N X irr pfuel (singleCone v cones) = .ok P) (hzero : ¬ Generic P cost)
    (tries : ℕ) (guesses : ℕ → Vec (m + 1)) (H : Hashing) (ptries : ℕ) (draws : ℕ → List (ℕ × ℕ)) (innerFuel fuel : ℕ) :
    optimize N X irr pfuel (singleCone v cones) matrix mini true cost tries guesses H (ptries + 1) draws innerFuel fuel = .error (.inr .exit1) := by
  obtain ⟨hrep, -, -, -⟩ := single_setting N hN X irr pfuel hfuel matrix cones hvs hT _ v hv hopt P hP
  rw [optimize_single N X irr pfuel _ matrix mini cost tries guesses H (ptries + 1) draws innerFuel fuel P hP]
  have hz : ¬ Generic P (signed mini cost) := by
    intro hc
    refine hzero fun C hC r hr h0 => hc C hC r hr ?_
    unfold signed
    cases mini
    · exact h0
    · simp [inner_neg_left, h0]
  unfold report solveIP
  rw [prepare, buildHeap_zero (signed mini cost) P .empty (c78_empty ikey).1 hrep.one hrep.rays hz]
  rfl

/-- **C79, option `single`, the end.** If the cost is orthogonal to no ray and there is a lattice point, the program ends with a report, unless the hash table is
too small; and some size of it suffices. -/
theorem c79_single_ends (N : Ntl (m + 1)) (hN : N.Ok) (hs : ShortVectors N) (X : Smith.Xgcd) (irr : Cone (m + 1) → Fin (m + 1) → ℚ) (pfuel : ℕ) (hfuel : 1 < pfuel)
    (matrix : List (ℤ × Vec (m + 1))) (S : List (Vec (m + 1))) (hS : LatticePoints (normals matrix) (sides matrix) S) (hSne : S ≠ [])
    (cones : List ((Fin (m + 1) → ℚ) × List (Mat (m + 1)))) (hvs : IsVertexList (normals matrix) (sides matrix) (cones.map (·.1)))
    (hT : ∀ c ∈ cones, Triangulation c.2 (normal (normals matrix) (sides matrix) c.1))
    (mini : Bool) (cost : Vec (m + 1)) (v : Fin (m + 1) → ℚ) (hv : v ∈ cones.map (·.1)) (hopt : LPOptimal matrix (signed mini cost) v)
    (tries : ℕ) (guesses : ℕ → Vec (m + 1)) (draws : ℕ → List (ℕ × ℕ)) :
    ∃ P, conesFor N X irr pfuel (singleCone v cones) = .ok P ∧ (Generic P cost →
      (∃ size, ∀ H : Hashing, size ≤ H.size → ¬ TooSmall H P (signed mini cost) matrix) ∧ ∀ H : Hashing, ∃ K F, ∀ ptries innerFuel fuel, K ≤ innerFuel → F ≤ fuel →
      (∃ x k, optimize N X irr pfuel (singleCone v cones) matrix mini true cost tries guesses H (ptries + 1) draws innerFuel fuel =
        .ok (.optimum x (inner cost x) (some k))) ∨
      (optimize N X irr pfuel (singleCone v cones) matrix mini true cost tries guesses H (ptries + 1) draws innerFuel fuel = .error (.inr .hang) ∧
        TooSmall H P (signed mini cost) matrix)) := by
  obtain ⟨T, hmem, hsingle⟩ := singleCone_eq v cones hvs.nodup hv
  obtain ⟨D, hD⟩ := delivered_dual N hs irr 1 le_rfl [(v, T)] fun c hc => by rw [List.mem_singleton.1 hc]; exact (hT _ hmem).simplicial
  have hdec := decomposeCones_eq N .dual irr 1 _ D hD
  have hready := delivered_ready N hN .dual irr 1 one_ne_zero (by decide) pfuel (by exact_mod_cast hfuel) _ D hD
  obtain ⟨P, h1⟩ : ∃ P, computePoints X pfuel D.reverse = .ok P := by
    obtain ⟨pt, h1, -⟩ := computePoints_ok X pfuel D.reverse (fun C hC => hready C (List.mem_reverse.1 hC))
      (fun C hC => delivered_unimodular N hN .dual irr _ D hD C (List.mem_reverse.1 hC))
    exact ⟨_, h1⟩
  have hP : conesFor N X irr pfuel (singleCone v cones) = .ok P := by
    unfold conesFor
    rw [hsingle, hdec]
    exact h1
  refine ⟨P, hP, fun hgen => ?_⟩
  obtain ⟨hrep, hPne, hfeas, hdesc⟩ := single_setting N hN X irr pfuel hfuel matrix cones hvs hT _ v hv hopt P hP
  obtain ⟨x, hx⟩ := List.exists_mem_of_ne_nil S hSne
  have hgen' : Generic P (signed mini cost) := by
    intro C hC r hr
    have := hgen C hC r hr
    unfold signed
    cases mini
    · exact this
    · simpa [inner_neg_left] using this
  refine ⟨table_suffices P hrep.rays _ hgen' matrix x ((feasible_iff matrix x).2 ((hS.mem x).1 hx)), fun H => ?_⟩
  obtain ⟨K, F, hKF⟩ := solveIP_ends hrep hPne H matrix true hfeas (fun hc => by cases hc) (signed mini cost) draws hdesc x
    ((feasible_iff matrix x).2 ((hS.mem x).1 hx)) 0 (signed mini cost) ⟨rfl, hgen', fun j hj => absurd hj (Nat.not_lt_zero j)⟩ (fun _ => rfl)
  refine ⟨K, F, fun ptries innerFuel fuel hK hF => ?_⟩
  rw [optimize_single N X irr pfuel _ matrix mini cost tries guesses H (ptries + 1) draws innerFuel fuel P hP]
  unfold report
  rcases hKF (ptries + 1) innerFuel fuel (Nat.succ_pos _) hK hF with ⟨a, e, -⟩ | ⟨e, e2⟩
  · rw [e]
    refine Or.inl ⟨a.point, a.number, ?_⟩
    show Except.ok (Report.optimum a.point (inner _ a.point) (some a.number)) = _
    congr 2
    exact inner_flip mini cost a.point
  · rw [e]
    exact Or.inr ⟨rfl, e2⟩

/-- **C79, violated with the option `single`.** If the polytope contains no lattice point and the cost is orthogonal to no ray, the program never ends: for no
amount of work does it print anything. -/
theorem c79_single_empty (N : Ntl (m + 1)) (hN : N.Ok) (X : Smith.Xgcd) (irr : Cone (m + 1) → Fin (m + 1) → ℚ) (pfuel : ℕ) (hfuel : 1 < pfuel)
    (matrix : List (ℤ × Vec (m + 1))) (hS : LatticePoints (normals matrix) (sides matrix) [])
    (cones : List ((Fin (m + 1) → ℚ) × List (Mat (m + 1)))) (hvs : IsVertexList (normals matrix) (sides matrix) (cones.map (·.1)))
    (hT : ∀ c ∈ cones, Triangulation c.2 (normal (normals matrix) (sides matrix) c.1))
    (mini : Bool) (cost : Vec (m + 1)) (v : Fin (m + 1) → ℚ) (hv : v ∈ cones.map (·.1)) (hopt : LPOptimal matrix (signed mini cost) v)
    (P : List (OffCone (m + 1))) (hP : conesFor N X irr pfuel (singleCone v cones) = .ok P) (hgen : Generic P (signed mini cost))
    (tries : ℕ) (guesses : ℕ → Vec (m + 1)) (H : Hashing) (ptries : ℕ) (draws : ℕ → List (ℕ × ℕ)) (innerFuel fuel : ℕ) :
    optimize N X irr pfuel (singleCone v cones) matrix mini true cost tries guesses H ptries draws innerFuel fuel = .error (.inr .fuel) ∨
    optimize N X irr pfuel (singleCone v cones) matrix mini true cost tries guesses H ptries draws innerFuel fuel = .error (.inr .hang) := by
  obtain ⟨hrep, hPne, hfeas, hdesc⟩ := single_setting N hN X irr pfuel hfuel matrix cones hvs hT _ v hv hopt P hP
  rw [optimize_single N X irr pfuel _ matrix mini cost tries guesses H ptries draws innerFuel fuel P hP]
  unfold report
  rcases solveIP_spec hrep hPne H matrix true hfeas (fun hc => by cases hc) (signed mini cost) ptries draws hdesc innerFuel fuel with
    ⟨a, i, cost', e, hu, hs⟩ | ⟨i, cost', e, -⟩ | ⟨e, -, hn⟩ | e
  · have := (hS.mem a.point).2 ((feasible_iff matrix a.point).1 hs.feasible)
    cases this
  · rw [e]; exact Or.inr rfl
  · exact absurd hgen hn
  · rw [e]; exact Or.inl rfl

end Verif.Digging
