import Verif.Perturb.Model
import Mathlib.Data.Sign.Basic
import Mathlib.Algebra.Order.Ring.Abs
import Mathlib.Tactic.Positivity

namespace Verif.Perturb

/-- Specification: the value of an objective on a ray. -/
def value (c r : List ℤ) : ℤ := (List.zipWith (· * ·) c r).sum

/-- All coordinates of all rays in the order in which they are visited. -/
def coords (cones : List (List (List ℤ))) : List ℤ := cones.flatten.flatten

/-- Every negative coordinate comes after a coordinate of at least its absolute value; holds in particular if no
coordinate is negative. -/
def Dominated (xs : List ℤ) : Prop := ∀ pre x post, xs = pre ++ x :: post → x < 0 → ∃ y ∈ pre, -x ≤ y

theorem maximumCoordinate_eq (cones) : maximumCoordinate cones = (coords cones).foldl maxStep 0 := by
  unfold maximumCoordinate coords
  rw [List.foldl_flatten, List.foldl_flatten]

theorem maxStep_of_le (mx x : ℤ) (_h0 : 0 ≤ mx) (h : -x ≤ mx) : maxStep mx x = max mx x := by
  unfold maxStep
  simp only
  split_ifs <;> omega

theorem foldl_max (pre xs : List ℤ) (hd : Dominated (pre ++ xs)) (mx : ℤ) (h0 : 0 ≤ mx) (hp : ∀ y ∈ pre, |y| ≤ mx) :
    0 ≤ xs.foldl maxStep mx ∧ (∀ y ∈ pre ++ xs, |y| ≤ xs.foldl maxStep mx) := by
  induction xs generalizing pre mx with
  | nil => simpa using ⟨h0, hp⟩
  | cons x xs ih =>
    have hx : -x ≤ mx := by
      by_cases hx : x < 0
      · obtain ⟨y, hy, hle⟩ := hd pre x xs rfl hx
        exact hle.trans ((le_abs_self y).trans (hp y hy))
      · omega
    have := ih (pre ++ [x]) (by simpa using hd) (maxStep mx x) (by rw [maxStep_of_le _ _ h0 hx]; omega) (by
      rw [maxStep_of_le _ _ h0 hx]
      intro y hy
      rcases List.mem_append.1 hy with hy | hy
      · exact (hp y hy).trans (le_max_left _ _)
      · rw [List.mem_singleton.1 hy, abs_le]; omega)
    simpa using this

theorem maxStep_abs (mx x b : ℤ) (h : |mx| ≤ b) (hx : |x| ≤ b) : |maxStep mx x| ≤ b := by
  unfold maxStep
  simp only
  split_ifs <;> assumption

theorem foldl_abs (xs : List ℤ) (mx b : ℤ) (h : |mx| ≤ b) (hx : ∀ x ∈ xs, |x| ≤ b) : |xs.foldl maxStep mx| ≤ b := by
  induction xs generalizing mx with
  | nil => exact h
  | cons x xs ih =>
    exact ih _ (maxStep_abs _ _ _ h (hx x (List.mem_cons_self ..))) (fun y hy => hx y (List.mem_cons_of_mem _ hy))

theorem noise_abs (md : ℕ) (hm : 0 < md) (d : ℕ × ℕ) : |noise md d| ≤ md - 1 := by
  unfold noise
  have h1 := Nat.mod_lt d.1 hm
  rcases Nat.mod_two_eq_zero_or_one d.2 with h | h <;> rw [h] <;> rw [abs_le] <;> constructor <;> push_cast <;>
    zify at h1 <;> linarith [Int.emod_nonneg (d.1 : ℤ) (show (md : ℤ) ≠ 0 by omega)]

theorem value_perturbed (M : ℤ) (md : ℕ) (hm : 0 < md) (B : ℤ) : ∀ (cost : List ℤ) (draws : List (ℕ × ℕ)) (r : List ℤ),
    cost.length = r.length → draws.length = r.length → (∀ x ∈ r, |x| ≤ B) →
    |value (List.zipWith (fun c d => M * c + noise md d) cost draws) r - M * value cost r| ≤ (md - 1) * B * r.length := by
  intro cost
  induction cost with
  | nil =>
    intro draws r h1 h2 _
    have : r = [] := by simpa using h1.symm
    subst this; simp [value]
  | cons c cost ih =>
    intro draws r h1 h2 hB
    cases r with
    | nil => simp at h1
    | cons x r =>
      cases draws with
      | nil => simp at h2
      | cons d draws =>
        have := ih draws r (by simpa using h1) (by simpa using h2) (fun y hy => hB y (List.mem_cons_of_mem _ hy))
        have hx := hB x (List.mem_cons_self ..)
        have hn := noise_abs md hm d
        have hnx : |noise md d * x| ≤ (md - 1) * B := by
          rw [abs_mul]
          exact mul_le_mul hn hx (abs_nonneg _) (by zify at hm; linarith)
        simp only [value, List.zipWith_cons_cons, List.sum_cons, List.length_cons] at this ⊢
        rw [abs_le] at this hnx ⊢
        push_cast
        constructor <;> nlinarith [this.1, this.2, hnx.1, hnx.2]

theorem mem_coords {cones : List (List (List ℤ))} {rays r x} (h1 : rays ∈ cones) (h2 : r ∈ rays) (h3 : x ∈ r) :
    x ∈ coords cones := by
  unfold coords
  simp only [List.mem_flatten]
  exact ⟨r, ⟨rays, h1, h2⟩, h3⟩

theorem sign_of_close (M v w B : ℤ) (hM : B < M) (hv : v ≠ 0) (hw : |w - M * v| ≤ B) : SignType.sign w = SignType.sign v := by
  rw [abs_le] at hw
  have hB : 0 ≤ B := by linarith [hw.1, hw.2]
  rcases lt_or_gt_of_ne hv with h | h
  · have : w < 0 := by nlinarith [hw.2]
    rw [sign_neg this, sign_neg h]
  · have : 0 < w := by nlinarith [hw.1]
    rw [sign_pos this, sign_pos h]

/-- **C33** (part) If every negative ray coordinate is preceded by a coordinate of at least its absolute value - in
particular if no ray has a negative coordinate - then for every outcome of the random generator the perturbed objective
strictly increases (decreases) along every ray along which the original objective does.  Missing: rays with other
negative coordinates, for which the claim is false, see `c33_order_reversed`. -/
theorem c33_order_preserved_partial (cones : List (List (List ℤ))) (cost : List ℤ) (modValue n : ℕ) (hm : 0 < modValue)
    (hdom : Dominated (coords cones)) (draws : List (ℕ × ℕ)) (hd : draws.length = n) (hc : cost.length = n)
    (rays : List (List ℤ)) (hrays : rays ∈ cones) (r : List ℤ) (hr : r ∈ rays) (hl : r.length = n)
    (hne : value cost r ≠ 0) :
    SignType.sign (value (calculatePertubation cones cost modValue n draws) r) = SignType.sign (value cost r) := by
  obtain ⟨h0, hmax⟩ := foldl_max [] (coords cones) (by simpa using hdom) 0 le_rfl (by simp)
  rw [← maximumCoordinate_eq] at h0 hmax
  have hv := value_perturbed (mValue cones modValue n) modValue hm (maximumCoordinate cones) cost draws r
    (by omega) (by omega) (fun x hx => hmax x (by simpa using mem_coords hrays hr hx))
  refine sign_of_close _ _ _ _ ?_ hne hv
  unfold mValue
  rw [hl]
  have : 0 ≤ maximumCoordinate cones * n := by positivity
  have hm' : (0 : ℤ) < modValue := by exact_mod_cast hm
  nlinarith

theorem dominated_of_nonneg (xs : List ℤ) (h : ∀ x ∈ xs, 0 ≤ x) : Dominated xs := by
  intro pre x post he hx
  have := h x (by rw [he]; simp)
  omega

/-- **C33, violated.** If the coordinate visited last is negative and of the largest absolute value, the perturbed
objective is *reversed* on every ray, whatever the random generator returns: it decreases along the rays along which
the original objective increases and vice versa. -/
theorem c33_order_reversed (cones : List (List (List ℤ))) (cost : List ℤ) (modValue n : ℕ) (hm : 0 < modValue)
    (hn : 0 < n) (pre : List ℤ) (b : ℤ) (hb : b < 0) (hlast : coords cones = pre ++ [b]) (hpre : ∀ x ∈ pre, |x| < -b)
    (draws : List (ℕ × ℕ)) (hd : draws.length = n) (hc : cost.length = n)
    (rays : List (List ℤ)) (hrays : rays ∈ cones) (r : List ℤ) (hr : r ∈ rays) (hl : r.length = n)
    (hne : value cost r ≠ 0) :
    SignType.sign (value (calculatePertubation cones cost modValue n draws) r) = - SignType.sign (value cost r) := by
  have hmx : maximumCoordinate cones = b := by
    rw [maximumCoordinate_eq, hlast, List.foldl_append, List.foldl_cons, List.foldl_nil]
    have := foldl_abs pre 0 (-b - 1) (by simp; omega) (fun x hx => by have := hpre x hx; omega)
    rw [abs_le] at this
    generalize pre.foldl maxStep 0 = e at this
    unfold maxStep
    simp only
    split_ifs <;> omega
  have hv := value_perturbed (mValue cones modValue n) modValue hm (-b) cost draws r
    (by omega) (by omega) (fun x hx => by
      have := mem_coords hrays hr hx
      rw [hlast] at this
      rcases List.mem_append.1 this with h | h
      · exact (hpre x h).le
      · rw [List.mem_singleton.1 h, abs_of_neg hb])
  rw [← Left.sign_neg]
  refine sign_of_close (-(mValue cones modValue n)) _ _ ((modValue - 1) * -b * r.length) ?_ (neg_ne_zero.2 hne)
    (by rw [neg_mul_neg]; exact hv)
  unfold mValue
  rw [hl, hmx]
  have hm' : (1 : ℤ) ≤ modValue := by exact_mod_cast hm
  have hn' : (1 : ℤ) ≤ n := by exact_mod_cast hn
  have h1 : 1 ≤ -b * n := by nlinarith
  nlinarith

/-- **C33, violated.** A later zero coordinate erases the maximum: then the factor is 1 and an unlucky draw changes the
order.  The objective `x₁` decreases along the ray `(-5, 0)`, its perturbation by the draws 9, 0 increases. -/
theorem c33_zero_coordinate_erases :
    value [1, 0] [-5, 0] = -5 ∧
      value (calculatePertubation [[[-5, 0]]] [1, 0] 10 2 [(9, 0), (0, 0)]) [-5, 0] = 40 := by
  decide

/-- non-vacuity: a cone with two rays without negative coordinates -/
example : SignType.sign (value (calculatePertubation [[[1, 2], [3, 0]]] [1, -1] 10 2 [(7, 0), (13, 1)]) [1, 2]) = -1 := by
  rw [c33_order_preserved_partial [[[1, 2], [3, 0]]] [1, -1] 10 2 (by decide)
    (dominated_of_nonneg _ (by decide)) [(7, 0), (13, 1)] rfl rfl [[1, 2], [3, 0]] (by simp) [1, 2] (by simp) rfl (by decide)]
  decide

/-- non-vacuity: the cone of the rays `(1, 0)` and `(1, -2)` -/
example (draws : List (ℕ × ℕ)) (hd : draws.length = 2) :
    SignType.sign (value (calculatePertubation [[[1, 0], [1, -2]]] [1, 1] 10 2 draws) [1, 0]) = -1 := by
  rw [c33_order_reversed [[[1, 0], [1, -2]]] [1, 1] 10 2 (by decide) (by decide) [1, 0, 1] (-2) (by decide) rfl
    (by decide) draws hd rfl [[1, 0], [1, -2]] (by simp) [1, 0] (by simp) rfl (by decide)]
  decide

end Verif.Perturb
