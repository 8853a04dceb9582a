import Verif.Optimize.Search
import Mathlib.Topology.Algebra.Order.Field
import Mathlib.Topology.MetricSpace.Pseudo.Pi
import Mathlib.Topology.Instances.Real.Lemmas

/-!
# C77: integer optimization by binary search
-/

namespace Verif.Optimize

open Verif.Barvinok (Vec)
open Verif.Barvinok.Spec (dot)

variable {n : ℕ}

/-- The lattice points of a bounded set are finitely many. -/
theorem lattice_finite (S : Set (Fin n → ℝ)) (hS : Bornology.IsBounded S) : (Lattice S).Finite := by
  obtain ⟨R, hR⟩ := hS.subset_closedBall (0 : Fin n → ℝ)
  have hfin : (Set.univ.pi fun _ : Fin n => Set.Icc (-⌈R⌉) ⌈R⌉).Finite := Set.Finite.pi fun _ => Set.finite_Icc _ _
  refine hfin.subset ?_
  intro z hz i _
  have h1 := hR hz
  rw [Metric.mem_closedBall] at h1
  have h2 : |(z i : ℝ)| ≤ R := by
    have h0 := le_trans (dist_le_pi_dist (fun i => (z i : ℝ)) (0 : Fin n → ℝ) i) h1
    rwa [Real.dist_eq, Pi.zero_apply, sub_zero] at h0
  have h3 : |(z i : ℝ)| ≤ ⌈R⌉ := h2.trans (Int.le_ceil R)
  have h4 : |z i| ≤ ⌈R⌉ := by exact_mod_cast h3
  exact abs_le.mp h4

theorem dot_int (cost z : Vec n) : dot cost (fun i => (z i : ℝ)) = ((∑ i, cost i * z i : ℤ) : ℝ) := by
  simp [dot]

theorem dot_point (cost : Vec n) (x : Fin n → ℤ × ℤ) : dot cost (pointR x) = ((∑ i, cost i * point x i : ℚ) : ℝ) := by
  simp [dot, pointR]

/-- The numbers of type `RR` are good enough for this problem: the rounded values of the cost function at the two solutions of the LP relaxation have the same
ceiling as the exact values. -/
def RoundingOk (T : Tools n) (eqs ineqs : List (Row n)) (cost : Vec n) : Prop :=
  ⌈rrDot cost (T.lp (lpFile eqs ineqs cost))⌉ = ⌈∑ i, cost i * point (T.lp (lpFile eqs ineqs cost)) i⌉ ∧
  ⌈rrDot cost (T.lp (lpFile eqs ineqs (-cost)))⌉ = ⌈∑ i, cost i * point (T.lp (lpFile eqs ineqs (-cost))) i⌉

/-- The conditions on the input: the external programs keep their contracts, the polyhedron is nonempty and bounded, and the rounding is good enough. -/
structure Setting (T : Tools n) (eqs ineqs : List (Row n)) (cost : Vec n) : Prop where
  lp : LpOk T.lp
  count : CountOk T.count
  nonempty : (Feasible eqs ineqs).Nonempty
  bounded : Bornology.IsBounded (Feasible eqs ineqs)
  rounding : RoundingOk T eqs ineqs cost

section
variable {T : Tools n} {eqs ineqs : List (Row n)} {cost : Vec n}

theorem Setting.high (S : Setting T eqs ineqs cost) (c : ℝ) (hc : IsGreatest (dot cost '' Feasible eqs ineqs) c) :
    ⌈rrDot cost (T.lp (lpFile eqs ineqs cost))⌉ = ⌈c⌉ := by
  obtain ⟨-, h1, h2⟩ := S.lp (lpFile eqs ineqs cost) (lpFile_wellFormed _ _ _) (by rw [lpFile_sol]; exact S.nonempty)
    (by rw [lpFile_sol]; exact S.bounded)
  rw [lpFile_sol] at h1 h2
  have e : c = dot cost (pointR (T.lp (lpFile eqs ineqs cost))) := by
    apply le_antisymm
    · obtain ⟨x, hx, rfl⟩ := hc.1
      exact h2 x hx
    · exact hc.2 ⟨_, h1, rfl⟩
  rw [S.rounding.1, e, dot_point, Rat.ceil_cast]

theorem Setting.low (S : Setting T eqs ineqs cost) (c : ℝ) (hc : IsLeast (dot cost '' Feasible eqs ineqs) c) :
    ⌈rrDot cost (T.lp (lpFile eqs ineqs (-cost)))⌉ = ⌈c⌉ := by
  obtain ⟨-, h1, h2⟩ := S.lp (lpFile eqs ineqs (-cost)) (lpFile_wellFormed _ _ _) (by rw [lpFile_sol]; exact S.nonempty)
    (by rw [lpFile_sol]; exact S.bounded)
  rw [lpFile_sol] at h1 h2
  have e : c = dot cost (pointR (T.lp (lpFile eqs ineqs (-cost)))) := by
    apply le_antisymm
    · exact hc.2 ⟨_, h1, rfl⟩
    · obtain ⟨x, hx, rfl⟩ := hc.1
      have h3 : dot (-cost) x ≤ dot (-cost) (pointR (T.lp (lpFile eqs ineqs (-cost)))) := h2 x hx
      rw [dot_neg_left, dot_neg_left] at h3
      linarith
  rw [S.rounding.2, e, dot_point, Rat.ceil_cast]

/-- The greatest and the least value of the LP relaxation exist. -/
theorem Setting.extremes (S : Setting T eqs ineqs cost) :
    (∃ c, IsGreatest (dot cost '' Feasible eqs ineqs) c) ∧ ∃ c, IsLeast (dot cost '' Feasible eqs ineqs) c := by
  constructor
  · obtain ⟨-, h1, h2⟩ := S.lp (lpFile eqs ineqs cost) (lpFile_wellFormed _ _ _) (by rw [lpFile_sol]; exact S.nonempty)
      (by rw [lpFile_sol]; exact S.bounded)
    rw [lpFile_sol] at h1 h2
    refine ⟨_, ⟨_, h1, rfl⟩, ?_⟩
    rintro _ ⟨x, hx, rfl⟩
    exact h2 x hx
  · obtain ⟨-, h1, h2⟩ := S.lp (lpFile eqs ineqs (-cost)) (lpFile_wellFormed _ _ _) (by rw [lpFile_sol]; exact S.nonempty)
      (by rw [lpFile_sol]; exact S.bounded)
    rw [lpFile_sol] at h1 h2
    refine ⟨_, ⟨_, h1, rfl⟩, ?_⟩
    rintro _ ⟨x, hx, rfl⟩
    have h3 : dot (-cost) x ≤ dot (-cost) (pointR (T.lp (lpFile eqs ineqs (-cost)))) := h2 x hx
    rw [dot_neg_left, dot_neg_left] at h3
    linarith

theorem Setting.checkEqu_none (S : Setting T eqs ineqs cost) (v : ℤ) (h : ∀ x ∈ Feasible eqs ineqs, dot cost x ≠ v) :
    optimalCheckEqu T eqs ineqs v cost = .error .exit1 := by
  have h1 := (S.count (latteFileEqu eqs ineqs v cost) (latteFileEqu_wellFormed _ _ _ _)
    (by rw [latteFileEqu_sol]; exact S.bounded.subset fun x hx => hx.1)).1
    (by rw [latteFileEqu_sol]; ext x; simp only [Set.mem_ofPred_eq, Set.mem_empty_iff_false, iff_false]; rintro ⟨a, b⟩; exact h x a b)
  rw [optimalCheckEqu, h1]

theorem Setting.checkEqu_some (S : Setting T eqs ineqs cost) (v : ℤ) (h : ∃ x ∈ Feasible eqs ineqs, dot cost x = v) :
    optimalCheckEqu T eqs ineqs v cost = .ok ({z ∈ Lattice (Feasible eqs ineqs) | ∑ i, cost i * z i = v}.ncard : ℤ) := by
  have h1 := (S.count (latteFileEqu eqs ineqs v cost) (latteFileEqu_wellFormed _ _ _ _)
    (by rw [latteFileEqu_sol]; exact S.bounded.subset fun x hx => hx.1)).2
    (by rw [latteFileEqu_sol]; obtain ⟨x, a, b⟩ := h; exact ⟨x, a, b⟩)
  rw [optimalCheckEqu, h1]
  dsimp only
  congr 3
  ext z
  rw [latteFileEqu_sol]
  show (_ ∧ dot cost (fun i => (z i : ℝ)) = v) ↔ (_ ∧ _)
  rw [dot_int]
  norm_cast

theorem Setting.check_some (S : Setting T eqs ineqs cost) (v : ℤ) (h : ∃ x ∈ Feasible eqs ineqs, (v : ℝ) ≤ dot cost x) :
    optimalCheck T eqs ineqs v cost = .ok ({z ∈ Lattice (Feasible eqs ineqs) | v ≤ ∑ i, cost i * z i}.ncard : ℤ) := by
  have h1 := (S.count (latteFile eqs ineqs v cost) (latteFile_wellFormed _ _ _ _)
    (by rw [latteFile_sol]; exact S.bounded.subset fun x hx => hx.1)).2
    (by rw [latteFile_sol]; obtain ⟨x, a, b⟩ := h; exact ⟨x, a, b⟩)
  rw [optimalCheck, h1]
  dsimp only
  congr 3
  ext z
  rw [latteFile_sol]
  show (_ ∧ (v : ℝ) ≤ dot cost (fun i => (z i : ℝ))) ↔ (_ ∧ _)
  rw [dot_int]
  norm_cast

/-- If the greatest value of the LP relaxation is not an integer, the program stops without an answer. -/
theorem Setting.stops (S : Setting T eqs ineqs cost) (fuel : ℕ) (minimize : Bool)
    (h : ¬ ∃ M : ℤ, IsGreatest (dot cost '' Feasible eqs ineqs) (M : ℝ)) :
    binarySearch T fuel eqs ineqs cost minimize = .error .exit1 := by
  obtain ⟨⟨c, hc⟩, -⟩ := S.extremes
  unfold binarySearch
  dsimp only
  rw [S.high c hc, S.checkEqu_none]
  intro x hx e
  have h1 : dot cost x ≤ c := hc.2 ⟨x, hx, rfl⟩
  have h2 := Int.le_ceil c
  have h3 : c = (⌈c⌉ : ℝ) := le_antisymm h2 (by rw [← e]; exact h1)
  exact h ⟨⌈c⌉, by rw [← h3]; exact hc⟩

/-- A lattice point has the greatest value of the LP relaxation: the first check finds it. -/
theorem Setting.first (S : Setting T eqs ineqs cost) (fuel : ℕ) (minimize : Bool) (M : ℤ)
    (hM : IsGreatest (dot cost '' Feasible eqs ineqs) (M : ℝ)) (z : Vec n) (hz : z ∈ Lattice (Feasible eqs ineqs)) (hzM : ∑ i, cost i * z i = M) :
    binarySearch T fuel eqs ineqs cost minimize =
      .ok ⟨M, ({z ∈ Lattice (Feasible eqs ineqs) | ∑ i, cost i * z i = M}.ncard : ℤ), 0⟩ := by
  obtain ⟨-, m, hm⟩ := S.extremes
  have hmM : ⌈m⌉ ≤ M := by
    rw [Int.ceil_le]
    exact hM.2 hm.1
  unfold binarySearch
  dsimp only
  rw [S.high M hM, Int.ceil_intCast, S.checkEqu_some M hM.1, S.low m hm]
  dsimp only
  rw [if_neg (by omega : ¬ M + 1 < ⌈m⌉), if_pos]
  · simp
  · have : {z ∈ Lattice (Feasible eqs ineqs) | ∑ i, cost i * z i = M}.ncard ≠ 0 := by
      have h0 : {z ∈ Lattice (Feasible eqs ineqs) | ∑ i, cost i * z i = M}.Nonempty := ⟨z, hz, hzM⟩
      exact ((Set.ncard_pos ((lattice_finite _ S.bounded).subset fun z hz => hz.1)).mpr h0).ne'
    exact_mod_cast this

/-- No lattice point has the greatest value of the LP relaxation: the bisection. -/
theorem Setting.second (S : Setting T eqs ineqs cost) (fuel : ℕ) (minimize : Bool) (M : ℤ)
    (hM : IsGreatest (dot cost '' Feasible eqs ineqs) (M : ℝ)) (hno : ∀ z ∈ Lattice (Feasible eqs ineqs), ∑ i, cost i * z i ≠ M)
    (m : ℝ) (hm : IsLeast (dot cost '' Feasible eqs ineqs) m) (hf : Nat.clog 2 (M + 1 - ⌈m⌉).toNat < fuel) :
    ∃ l k, binarySearch T fuel eqs ineqs cost minimize =
        .ok ⟨if minimize then -l else l, ({z ∈ Lattice (Feasible eqs ineqs) | l ≤ ∑ i, cost i * z i}.ncard : ℤ), k⟩ ∧
      k ≤ Nat.clog 2 (M + 1 - ⌈m⌉).toNat ∧ ⌈m⌉ ≤ l ∧ l ≤ M ∧
      (l = ⌈m⌉ ∨ ∃ z ∈ Lattice (Feasible eqs ineqs), l ≤ ∑ i, cost i * z i) ∧ ∀ z ∈ Lattice (Feasible eqs ineqs), ∑ i, cost i * z i ≤ l := by
  have hmM : ⌈m⌉ ≤ M := by
    rw [Int.ceil_le]
    exact hM.2 hm.1
  have hcheck : ∀ v : ℤ, v ≤ M →
      optimalCheck T eqs ineqs v cost = .ok ({z ∈ Lattice (Feasible eqs ineqs) | v ≤ ∑ i, cost i * z i}.ncard : ℤ) := by
    intro v hv
    obtain ⟨x, hx, e⟩ := hM.1
    exact S.check_some v ⟨x, hx, by rw [e]; exact_mod_cast hv⟩
  have hfin : ∀ v : ℤ, {z ∈ Lattice (Feasible eqs ineqs) | v ≤ ∑ i, cost i * z i}.Finite :=
    fun v => (lattice_finite _ S.bounded).subset fun z hz => hz.1
  obtain ⟨l, k, e, hk, b1, b2, b3, b4⟩ := bisect_ok (fun mid => optimalCheck T eqs ineqs mid cost)
    (fun v => ({z ∈ Lattice (Feasible eqs ineqs) | v ≤ ∑ i, cost i * z i}.ncard : ℤ)) fuel ⌈m⌉ (M + 1) 0 (by omega) hf
    (fun mid _ h2 => hcheck mid (by omega))
  refine ⟨l, k, ?_, hk, b1, by omega, ?_, ?_⟩
  · unfold binarySearch
    dsimp only
    rw [S.high M hM, Int.ceil_intCast, S.checkEqu_some M hM.1, S.low m hm]
    dsimp only
    rw [if_neg (by omega : ¬ M + 1 < ⌈m⌉), if_neg, e]
    · dsimp only
      rw [hcheck l (by omega), Nat.zero_add]
    · push Not
      have : {z ∈ Lattice (Feasible eqs ineqs) | ∑ i, cost i * z i = M} = ∅ := by
        ext z
        simp only [Set.mem_ofPred_eq, Set.mem_empty_iff_false, iff_false]
        rintro ⟨a, b⟩
        exact hno z a b
      rw [this, Set.ncard_empty]
      rfl
  · refine b3.imp id fun h => ?_
    have h' : {z ∈ Lattice (Feasible eqs ineqs) | l ≤ ∑ i, cost i * z i}.ncard ≠ 0 := by exact_mod_cast h
    obtain ⟨z, hz⟩ := (Set.ncard_pos (hfin l)).mp (Nat.pos_of_ne_zero h')
    exact ⟨z, hz.1, hz.2⟩
  · intro z hz
    have hzM : ∑ i, cost i * z i ≤ M := by
      have : ((∑ i, cost i * z i : ℤ) : ℝ) ≤ M := hM.2 ⟨_, hz, dot_int cost z⟩
      exact_mod_cast this
    rcases b4 with h | h
    · omega
    · have h' : {z ∈ Lattice (Feasible eqs ineqs) | l + 1 ≤ ∑ i, cost i * z i}.ncard = 0 := by exact_mod_cast h
      rw [Set.ncard_eq_zero (hfin _)] at h'
      by_contra hlt
      push Not at hlt
      exact (h' ▸ (⟨hz, hlt⟩ : z ∈ {z ∈ Lattice (Feasible eqs ineqs) | l + 1 ≤ ∑ i, cost i * z i}) : z ∈ (∅ : Set (Vec n)))

/-- All of it for a polyhedron with lattice points: the greatest value up to the sign. -/
theorem Setting.search (S : Setting T eqs ineqs cost) (fuel : ℕ) (minimize : Bool) (M : ℤ)
    (hM : IsGreatest (dot cost '' Feasible eqs ineqs) (M : ℝ)) (m : ℝ) (hm : IsLeast (dot cost '' Feasible eqs ineqs) m)
    (hf : Nat.clog 2 (M + 1 - ⌈m⌉).toNat < fuel) (hz : (Lattice (Feasible eqs ineqs)).Nonempty) :
    ∃ v k, IsMaximum eqs ineqs cost v k ∧ ∃ it, it ≤ Nat.clog 2 (M + 1 - ⌈m⌉).toNat ∧
      binarySearch T fuel eqs ineqs cost minimize = .ok ⟨if minimize ∧ v ≠ M then -v else v, k, it⟩ := by
  have hle : ∀ z ∈ Lattice (Feasible eqs ineqs), ∑ i, cost i * z i ≤ M := by
    intro z hz
    have : ((∑ i, cost i * z i : ℤ) : ℝ) ≤ M := hM.2 ⟨_, hz, dot_int cost z⟩
    exact_mod_cast this
  by_cases h : ∃ z ∈ Lattice (Feasible eqs ineqs), ∑ i, cost i * z i = M
  · obtain ⟨z, hz, e⟩ := h
    refine ⟨M, _, ⟨⟨⟨z, hz, e⟩, ?_⟩, rfl⟩, 0, Nat.zero_le _, ?_⟩
    · rintro _ ⟨y, hy, rfl⟩
      exact hle y hy
    · rw [S.first fuel minimize M hM z hz e]
      simp
  · push Not at h
    obtain ⟨l, k, e, hk, b1, b2, b3, b4⟩ := S.second fuel minimize M hM h m hm hf
    have hlow : ∀ z ∈ Lattice (Feasible eqs ineqs), ⌈m⌉ ≤ ∑ i, cost i * z i := by
      intro z hz
      rw [Int.ceil_le, ← dot_int]
      exact hm.2 ⟨_, hz, rfl⟩
    have hl : ∃ z ∈ Lattice (Feasible eqs ineqs), l ≤ ∑ i, cost i * z i := by
      rcases b3 with rfl | b3
      · obtain ⟨z, hz⟩ := hz
        exact ⟨z, hz, hlow z hz⟩
      · exact b3
    obtain ⟨z, hz, hzl⟩ := hl
    have hzl' : ∑ i, cost i * z i = l := le_antisymm (b4 z hz) hzl
    refine ⟨l, _, ⟨⟨⟨z, hz, hzl'⟩, ?_⟩, rfl⟩, k, hk, ?_⟩
    · rintro _ ⟨y, hy, rfl⟩
      exact b4 y hy
    · rw [e]
      have hne : l ≠ M := fun h' => h z hz (by rw [hzl', h'])
      have hset : {z ∈ Lattice (Feasible eqs ineqs) | l ≤ ∑ i, cost i * z i} = {z ∈ Lattice (Feasible eqs ineqs) | ∑ i, cost i * z i = l} := by
        ext y
        constructor
        · rintro ⟨a, b⟩; exact ⟨a, le_antisymm (b4 y a) b⟩
        · rintro ⟨a, b⟩; exact ⟨a, b.ge⟩
      rw [hset]
      simp [hne]

end

/-! ## The claims -/

/-- **C77.** If the greatest value of the cost function on the polyhedron is an integer and there is a lattice point, `latte-maximize bbs` prints the greatest value
on the lattice points and the number of lattice points with this value, after a number of rounds logarithmic in the range of values. -/
theorem c77_maximize_partial (T : Tools n) (eqs ineqs : List (Row n)) (cost : Vec n) (S : Setting T eqs ineqs cost) (M : ℤ)
    (hM : IsGreatest (dot cost '' Feasible eqs ineqs) (M : ℝ)) (m : ℝ) (hm : IsLeast (dot cost '' Feasible eqs ineqs) m)
    (hz : (Lattice (Feasible eqs ineqs)).Nonempty) (fuel : ℕ) (hf : Nat.clog 2 (M + 1 - ⌈m⌉).toNat < fuel) :
    ∃ ans, latteMaximize T fuel eqs ineqs cost = .ok ans ∧ IsMaximum eqs ineqs cost ans.value ans.solutions ∧
      ans.iterations ≤ Nat.clog 2 (M + 1 - ⌈m⌉).toNat := by
  obtain ⟨v, k, h1, it, h2, h3⟩ := S.search fuel false M hM m hm hf hz
  exact ⟨_, h3, by simpa using h1, h2⟩

/-- **C77, violation.** If the greatest value of the cost function on the polyhedron is not an integer, `latte-maximize bbs` stops with status 1 before it has an
answer: the first `count` is run on an empty polyhedron. -/
theorem c77_fractional (T : Tools n) (eqs ineqs : List (Row n)) (cost : Vec n) (S : Setting T eqs ineqs cost)
    (h : ¬ ∃ M : ℤ, IsGreatest (dot cost '' Feasible eqs ineqs) (M : ℝ)) (fuel : ℕ) : latteMaximize T fuel eqs ineqs cost = .error .exit1 :=
  S.stops fuel false h

theorem image_neg (eqs ineqs : List (Row n)) (cost : Vec n) (c : ℝ) :
    IsGreatest (dot (-cost) '' Feasible eqs ineqs) (-c) ↔ IsLeast (dot cost '' Feasible eqs ineqs) c := by
  constructor
  · rintro ⟨⟨x, hx, e⟩, h⟩
    rw [dot_neg_left, neg_inj] at e
    refine ⟨⟨x, hx, e⟩, ?_⟩
    rintro _ ⟨y, hy, rfl⟩
    have := h ⟨y, hy, rfl⟩
    rw [dot_neg_left] at this
    linarith
  · rintro ⟨⟨x, hx, e⟩, h⟩
    refine ⟨⟨x, hx, by rw [dot_neg_left, e]⟩, ?_⟩
    rintro _ ⟨y, hy, rfl⟩
    have := h ⟨y, hy, rfl⟩
    rw [dot_neg_left]
    linarith

theorem image_neg' (eqs ineqs : List (Row n)) (cost : Vec n) (c : ℝ) :
    IsLeast (dot (-cost) '' Feasible eqs ineqs) (-c) ↔ IsGreatest (dot cost '' Feasible eqs ineqs) c := by
  have := image_neg eqs ineqs (-cost) (-c)
  rw [neg_neg, neg_neg] at this
  exact this.symm

theorem isMaximum_neg (eqs ineqs : List (Row n)) (cost : Vec n) (v k : ℤ) :
    IsMaximum eqs ineqs (-cost) v k ↔ IsMinimum eqs ineqs cost (-v) k := by
  have e : ∀ z : Vec n, ∑ i, (-cost) i * z i = -∑ i, cost i * z i := fun z => by simp
  unfold IsMaximum IsMinimum
  simp only [e]
  refine and_congr ?_ ?_
  · constructor
    · rintro ⟨⟨z, hz, h⟩, h'⟩
      refine ⟨⟨z, hz, by dsimp only at h ⊢; omega⟩, ?_⟩
      rintro _ ⟨y, hy, rfl⟩
      have := h' ⟨y, hy, rfl⟩
      dsimp only at this ⊢
      omega
    · rintro ⟨⟨z, hz, h⟩, h'⟩
      refine ⟨⟨z, hz, by dsimp only at h ⊢; omega⟩, ?_⟩
      rintro _ ⟨y, hy, rfl⟩
      have := h' ⟨y, hy, rfl⟩
      dsimp only at this ⊢
      omega
  · have : ∀ z : Vec n, -∑ i, cost i * z i = v ↔ ∑ i, cost i * z i = -v := fun z => by omega
    simp only [this]

/-- **C77.** If the least value of the cost function on the polyhedron is an integer and there is a lattice point, `latte-minimize bbs` finds the least value `v` on
the lattice points and the number of lattice points with this value; it prints `v` if `v` is not the least value on the polyhedron, and `-v` if it is. -/
theorem c77_minimize_partial (T : Tools n) (eqs ineqs : List (Row n)) (cost : Vec n) (S : Setting T eqs ineqs (-cost)) (m : ℤ)
    (hm : IsLeast (dot cost '' Feasible eqs ineqs) (m : ℝ)) (M : ℝ) (hM : IsGreatest (dot cost '' Feasible eqs ineqs) M)
    (hz : (Lattice (Feasible eqs ineqs)).Nonempty) (fuel : ℕ) (hf : Nat.clog 2 (⌊M⌋ + 1 - m).toNat < fuel) :
    ∃ v k, IsMinimum eqs ineqs cost v k ∧ ∃ it, it ≤ Nat.clog 2 (⌊M⌋ + 1 - m).toNat ∧
      latteMinimize T fuel eqs ineqs cost = .ok ⟨if v = m then -v else v, k, it⟩ := by
  have h1 : IsGreatest (dot (-cost) '' Feasible eqs ineqs) ((-m : ℤ) : ℝ) := by
    push_cast
    exact (image_neg eqs ineqs cost m).mpr hm
  have h2 : IsLeast (dot (-cost) '' Feasible eqs ineqs) (-M) := (image_neg' eqs ineqs cost M).mpr hM
  have e : -m + 1 - ⌈-M⌉ = ⌊M⌋ + 1 - m := by rw [Int.ceil_neg]; ring
  obtain ⟨v, k, h3, it, h4, h5⟩ := S.search fuel true (-m) h1 (-M) h2 (by rw [e]; exact hf) hz
  refine ⟨-v, k, (isMaximum_neg _ _ _ _ _).mp h3, it, by rw [e] at h4; exact h4, ?_⟩
  rw [latteMinimize, h5]
  by_cases c : v = -m
  · simp [c]
  · have : -v ≠ m := fun h => c (by omega)
    simp [c, this]

/-- **C77, violation.** If a lattice point attains the least value `m` of the cost function on the polyhedron (for example, if all vertices are lattice points),
`latte-minimize bbs` prints `-m`. -/
theorem c77_minimize_sign (T : Tools n) (eqs ineqs : List (Row n)) (cost : Vec n) (S : Setting T eqs ineqs (-cost)) (m : ℤ)
    (hm : IsLeast (dot cost '' Feasible eqs ineqs) (m : ℝ)) (z : Vec n) (hz : z ∈ Lattice (Feasible eqs ineqs))
    (hzm : ∑ i, cost i * z i = m) (fuel : ℕ) :
    ∃ k, IsMinimum eqs ineqs cost m k ∧ latteMinimize T fuel eqs ineqs cost = .ok ⟨-m, k, 0⟩ := by
  have h1 : IsGreatest (dot (-cost) '' Feasible eqs ineqs) ((-m : ℤ) : ℝ) := by
    push_cast
    exact (image_neg eqs ineqs cost m).mpr hm
  refine ⟨_, ⟨⟨⟨z, hz, hzm⟩, ?_⟩, rfl⟩, ?_⟩
  · rintro _ ⟨y, hy, rfl⟩
    have : (m : ℝ) ≤ ((∑ i, cost i * y i : ℤ) : ℝ) := hm.2 ⟨_, hy, dot_int cost y⟩
    exact_mod_cast this
  · rw [latteMinimize, S.first fuel true (-m) h1 z hz (by simp [hzm])]
    have : ∀ z : Vec n, ∑ i, (-cost) i * z i = -m ↔ ∑ i, cost i * z i = m := fun z => by simp
    simp only [this]

/-- **C77, violation.** If the least value of the cost function on the polyhedron is not an integer, `latte-minimize bbs` stops with status 1. -/
theorem c77_minimize_fractional (T : Tools n) (eqs ineqs : List (Row n)) (cost : Vec n) (S : Setting T eqs ineqs (-cost))
    (h : ¬ ∃ m : ℤ, IsLeast (dot cost '' Feasible eqs ineqs) (m : ℝ)) (fuel : ℕ) : latteMinimize T fuel eqs ineqs cost = .error .exit1 := by
  refine S.stops fuel true ?_
  rintro ⟨M, hM⟩
  refine h ⟨-M, ?_⟩
  have := (image_neg eqs ineqs cost (-M)).mp (by rw [neg_neg]; exact hM)
  push_cast
  exact this

/-- **C77.** Without lattice points the number of solutions is zero, but a value is printed all the same: the least value on the polyhedron, rounded up. -/
theorem c77_no_lattice_points (T : Tools n) (eqs ineqs : List (Row n)) (cost : Vec n) (S : Setting T eqs ineqs cost) (M : ℤ)
    (hM : IsGreatest (dot cost '' Feasible eqs ineqs) (M : ℝ)) (m : ℝ) (hm : IsLeast (dot cost '' Feasible eqs ineqs) m)
    (hz : Lattice (Feasible eqs ineqs) = ∅) (fuel : ℕ) (hf : Nat.clog 2 (M + 1 - ⌈m⌉).toNat < fuel) :
    ∃ it, latteMaximize T fuel eqs ineqs cost = .ok ⟨⌈m⌉, 0, it⟩ := by
  obtain ⟨l, k, e, -, -, -, b3, -⟩ := S.second fuel false M hM (by rw [hz]; simp) m hm hf
  have hl : l = ⌈m⌉ := by
    rcases b3 with h | ⟨z, h, -⟩
    · exact h
    · rw [hz] at h; exact absurd h (Set.notMem_empty z)
  refine ⟨k, ?_⟩
  rw [latteMaximize, e, hz, hl]
  simp

end Verif.Optimize
