import Verif.Irrational.Model
import Verif.Barvinok.Props
import Mathlib.RingTheory.PrincipalIdealDomain
import Mathlib.Tactic.Positivity
import Mathlib.Tactic.FieldSimp
import Mathlib.Algebra.Order.Floor.Ring
import Mathlib.Algebra.Order.BigOperators.Group.Finset

namespace Verif.Irrational

open Verif.Barvinok

variable {n : ℕ}

/-- Specification: the value of an integer vector at a rational point. -/
def dotQ (f : Vec n) (v : Fin n → ℚ) : ℚ := ∑ k, (f k : ℚ) * v k

/-! ### Scaling -/

theorem foldl_lcm (v : Fin n → ℚ) (l : List (Fin n)) (s : ℤ) (hs : 0 < s) :
    0 < l.foldl (fun (s : ℤ) i => (Int.lcm s (v i).den : ℤ)) s ∧
      s ∣ l.foldl (fun (s : ℤ) i => (Int.lcm s (v i).den : ℤ)) s ∧
      ∀ i ∈ l, ((v i).den : ℤ) ∣ l.foldl (fun (s : ℤ) i => (Int.lcm s (v i).den : ℤ)) s := by
  induction l generalizing s with
  | nil => exact ⟨hs, dvd_rfl, by simp⟩
  | cons a l ih =>
    have hp : 0 < (Int.lcm s (v a).den : ℤ) := by
      have : Int.lcm s (v a).den ≠ 0 := by
        exact Int.lcm_ne_zero hs.ne' (by exact_mod_cast (v a).den_nz)
      omega
    obtain ⟨h1, h2, h3⟩ := ih _ hp
    refine ⟨h1, (Int.dvd_lcm_left ..).trans h2, ?_⟩
    intro i hi
    rcases List.mem_cons.1 hi with rfl | hi
    · exact (Int.dvd_lcm_right ..).trans h2
    · exact h3 i hi

theorem scaleDen_pos (v : Fin n → ℚ) : 0 < scaleDen v := (foldl_lcm v _ 1 one_pos).1

theorem den_dvd (v : Fin n → ℚ) (i : Fin n) : ((v i).den : ℤ) ∣ scaleDen v :=
  (foldl_lcm v _ 1 one_pos).2.2 i (List.mem_finRange i)

theorem scaleNum_eq (v : Fin n → ℚ) (i : Fin n) : (scaleNum v i : ℚ) = v i * scaleDen v := by
  obtain ⟨c, hc⟩ := den_dvd v i
  have hd : ((v i).den : ℤ) ≠ 0 := by exact_mod_cast (v i).den_nz
  unfold scaleNum
  rw [hc, Int.mul_ediv_cancel_left _ hd]
  push_cast
  rw [← Rat.mul_den_eq_num (v i)]
  ring

theorem sum_scale (f : Vec n) (v : Fin n → ℚ) : ((∑ k, f k * scaleNum v k : ℤ) : ℚ) = dotQ f v * scaleDen v := by
  unfold dotQ
  push_cast
  rw [Finset.sum_mul]
  exact Finset.sum_congr rfl fun k _ => by rw [scaleNum_eq]; ring

theorem interval_eq (f : Vec n) (v : Fin n → ℚ) : interval f v = ⌊dotQ f v⌋ := by
  have hp := scaleDen_pos v
  have hq : (0 : ℚ) < scaleDen v := by exact_mod_cast hp
  symm
  rw [Int.floor_eq_iff]
  have e := sum_scale f v
  set S := ∑ k, f k * scaleNum v k
  have h1 : S / scaleDen v * scaleDen v ≤ S := Int.ediv_mul_le _ hp.ne'
  have h2 : S < (S / scaleDen v + 1) * scaleDen v := Int.lt_ediv_add_one_mul_self _ hp
  have h1' : ((S / scaleDen v : ℤ) : ℚ) * scaleDen v ≤ dotQ f v * scaleDen v := by rw [← e]; exact_mod_cast h1
  have h2' : dotQ f v * scaleDen v < (((S / scaleDen v : ℤ) : ℚ) + 1) * scaleDen v := by rw [← e]; exact_mod_cast h2
  exact ⟨le_of_mul_le_mul_right h1' hq, lt_of_mul_lt_mul_right h2' hq.le⟩

theorem equivalent_iff (F : List (Vec n)) (v w : Fin n → ℚ) :
    integerEquivalent F v w = true ↔ ∀ f ∈ F, ⌊dotQ f v⌋ = ⌊dotQ f w⌋ := by
  unfold integerEquivalent
  simp only [List.all_eq_true, beq_iff_eq, interval_eq]

theorem irrational_iff (F : List (Vec n)) (v : Fin n → ℚ) :
    irrational F v = true ↔ ∀ f ∈ F, ∀ m : ℤ, dotQ f v ≠ m := by
  unfold irrational
  simp only [List.all_eq_true, bne_iff_ne, ne_eq]
  refine forall₂_congr fun f _ => ?_
  have hp := scaleDen_pos v
  have hq : (scaleDen v : ℚ) ≠ 0 := by exact_mod_cast hp.ne'
  have e := sum_scale f v
  have : ∑ k, scaleNum v k * f k = ∑ k, f k * scaleNum v k := Finset.sum_congr rfl fun k _ => mul_comm _ _
  rw [this, ← Int.dvd_iff_emod_eq_zero]
  constructor
  · intro h m hm
    apply h
    refine ⟨m, ?_⟩
    rw [hm] at e
    have : ((∑ k, f k * scaleNum v k : ℤ) : ℚ) = ((scaleDen v * m : ℤ) : ℚ) := by rw [e]; push_cast; ring
    exact_mod_cast this
  · rintro h ⟨m, hm⟩
    apply h m
    rw [hm] at e
    push_cast at e
    have : dotQ f v * scaleDen v = m * scaleDen v := by rw [← e]; ring
    exact mul_right_cancel₀ hq this

/-- The test modelled here agrees with the one used in the model of the recursion. -/
theorem isConeIrrational_iff (C : Cone n) (F : Mat n) (hF : C.facets = some F) :
    isConeIrrational C ↔ irrational (rowList F) C.vertex = true := by
  rw [irrational_iff]
  unfold isConeIrrational
  simp only [hF]
  have key : ∀ q : ℚ, q.den ≠ 1 ↔ ∀ m : ℤ, q ≠ m := by
    intro q
    constructor
    · rintro h m rfl; exact h (Rat.den_intCast m)
    · intro h hd
      exact h q.num (by rw [Rat.den_eq_one_iff] at hd; exact hd.symm)
  constructor
  · intro h f hf
    unfold rowList at hf
    obtain ⟨i, -, rfl⟩ := List.mem_map.1 hf
    exact (key _).1 (h i)
  · intro h i
    exact (key _).2 (h (F i) (List.mem_map.2 ⟨i, List.mem_finRange i, rfl⟩))

/-! ### Geometry -/

theorem dotQ_sub (f : Vec n) (x y : Fin n → ℚ) : dotQ f (fun i => x i - y i) = dotQ f x - dotQ f y := by
  unfold dotQ
  rw [← Finset.sum_sub_distrib]
  exact Finset.sum_congr rfl fun k _ => by ring

theorem dotQ_abs_le (f : Vec n) (x : Fin n → ℚ) (e : ℚ) (hx : ∀ i, |x i| ≤ e) : |dotQ f x| ≤ norm1 f * e := by
  unfold dotQ norm1
  refine (Finset.abs_sum_le_sum_abs _ _).trans ?_
  push_cast
  rw [Finset.sum_mul]
  refine Finset.sum_le_sum fun k _ => ?_
  rw [abs_mul]
  have : |(f k : ℚ)| = ((|f k| : ℤ) : ℚ) := by push_cast; rfl
  rw [this]
  push_cast
  exact mul_le_mul_of_nonneg_left (hx k) (abs_nonneg _)

theorem dotQ_close (f : Vec n) (x c : Fin n → ℚ) (e : ℚ) (hx : ∀ i, |x i - c i| ≤ e) :
    |dotQ f x - dotQ f c| ≤ norm1 f * e := by
  rw [← dotQ_sub]; exact dotQ_abs_le f _ e hx

theorem exists_strict (hn : 0 < n) (y : Fin n → ℚ) (L : ℚ) (h : ∀ i, |y i| < L) :
    ∃ e : ℚ, 0 ≤ e ∧ e < L ∧ ∀ i, |y i| ≤ e := by
  obtain ⟨i, -, hi⟩ := Finset.exists_max_image Finset.univ (fun i => |y i|) ⟨⟨0, hn⟩, Finset.mem_univ _⟩
  exact ⟨|y i|, abs_nonneg _, h i, fun j => hi j (Finset.mem_univ j)⟩

/-- A cube around `c` with half length `e` in which all points are equivalent to `v` and off the lattice hyperplanes. -/
def Stable (F : List (Vec n)) (v c : Fin n → ℚ) (e : ℚ) : Prop :=
  ∀ x : Fin n → ℚ, (∀ i, |x i - c i| < e) → ∀ f ∈ F, ⌊dotQ f x⌋ = ⌊dotQ f v⌋ ∧ ∀ m : ℤ, dotQ f x ≠ m

theorem norm1_nonneg (f : Vec n) : 0 ≤ norm1 f := Finset.sum_nonneg fun _ _ => abs_nonneg _

theorem maxNorm_foldl (F : Mat n) (l : List (Fin n)) (m : ℤ) :
    m ≤ l.foldl (fun (m : ℤ) i => if norm1 (F i) > m then norm1 (F i) else m) m ∧
      ∀ i ∈ l, norm1 (F i) ≤ l.foldl (fun (m : ℤ) i => if norm1 (F i) > m then norm1 (F i) else m) m := by
  induction l generalizing m with
  | nil => simp
  | cons a l ih =>
    obtain ⟨h1, h2⟩ := ih (if norm1 (F a) > m then norm1 (F a) else m)
    rw [List.foldl_cons]
    refine ⟨le_trans (by split_ifs <;> omega) h1, ?_⟩
    intro i hi
    rcases List.mem_cons.1 hi with rfl | hi
    · exact le_trans (by split_ifs <;> omega) h1
    · exact h2 i hi

theorem norm1_le_max (F : Mat n) (i : Fin n) : norm1 (F i) ≤ maxNorm1 F := (maxNorm_foldl F _ 0).2 i (List.mem_finRange i)

theorem norm1_pos (f : Vec n) (h : f ≠ 0) : 0 < norm1 f := by
  obtain ⟨j, hj⟩ := Function.ne_iff.1 h
  have : |f j| ≤ norm1 f := Finset.single_le_sum (f := fun j => |f j|) (fun _ _ => abs_nonneg _) (Finset.mem_univ j)
  have h2 : 0 < |f j| := abs_pos.2 hj
  omega

/-- If `m·f` stays strictly between `l` and `l+1` where `l = ⌊m·⟨f,v⟩⌋`, the value of `f` is equivalent and not
integral. -/
theorem floor_of_mul (m : ℤ) (hm : 0 < m) (a b : ℚ) (l : ℤ) (hl : ⌊m * b⌋ = l) (h1 : (l : ℚ) < m * a) (h2 : m * a < l + 1) :
    ⌊a⌋ = ⌊b⌋ ∧ ∀ z : ℤ, a ≠ z := by
  have hmq : (0 : ℚ) < m := by exact_mod_cast hm
  have hl' := Int.floor_eq_iff.1 hl
  constructor
  · have key : ∀ y : ℚ, (l : ℚ) ≤ m * y → m * y < l + 1 → ⌊y⌋ = l / m := by
      intro y k1 k2
      rw [Int.floor_eq_iff]
      have e1 : (l / m) * m ≤ l := Int.ediv_mul_le _ hm.ne'
      have e2 : l + 1 ≤ (l / m + 1) * m := Int.lt_ediv_add_one_mul_self _ hm
      have e1' : ((l / m : ℤ) : ℚ) * m ≤ l := by exact_mod_cast e1
      have e2' : (l : ℚ) + 1 ≤ (((l / m : ℤ) : ℚ) + 1) * m := by exact_mod_cast e2
      constructor
      · exact le_of_mul_le_mul_right (by linarith) hmq
      · exact lt_of_mul_lt_mul_right (by linarith) hmq.le
    rw [key a h1.le h2, key b hl'.1 hl'.2]
  · rintro z rfl
    have a1 : l < m * z := by exact_mod_cast h1
    have a2 : m * z < l + 1 := by exact_mod_cast h2
    omega

theorem simplicialCube_stable (C : Cone n) (hC : Wf C) (hn : 0 < n) (F : Mat n) (hF : C.facets = some F) :
    ∃ c, simplicialCube C F = some c ∧ 0 < c.lengthNum ∧ 0 < c.lengthDen ∧
      Stable (rowList F) C.vertex c.center (c.lengthNum / c.lengthDen) := by
  obtain ⟨F', hF', hdual, hdd⟩ := hC.facets
  obtain rfl : F = F' := by rw [hF] at hF'; exact Option.some.inj hF'
  have hD : 0 < |C.determinant| := abs_pos.2 (by rw [hC.det_eq]; exact hC.det_ne)
  have hdvd : ∀ i, |C.determinant| % C.facetDivisors i = 0 := fun i =>
    Int.emod_eq_zero_of_dvd ((dvd_abs _ _).2 (hC.div_dvd i))
  have hmpos : ∀ i, 0 < |C.determinant| / C.facetDivisors i := fun i =>
    Int.ediv_pos_of_pos_of_dvd hD (hC.div_pos i).le ((dvd_abs _ _).2 (hC.div_dvd i))
  set mult : Fin n → ℤ := fun i => |C.determinant| / C.facetDivisors i with hmult
  set dual : Mat n := fun i j => F i j * mult i with hdualdef
  have hfm : createFacetMatrix2 C F = some dual := by
    unfold createFacetMatrix2; rw [if_pos hdvd]
  set bottom : Vec n := fun i => interval (dual i) C.vertex with hbottom
  set center : Fin n → ℚ := fun k => ((∑ i, -(C.rays i k) * (bottom i * 2 + 1) : ℤ) : ℚ) / ((2 * |C.determinant| : ℤ) : ℚ)
    with hcenter
  have hdualQ : ∀ i x, dotQ (dual i) x = mult i * dotQ (F i) x := by
    intro i x
    unfold dotQ
    rw [Finset.mul_sum]
    refine Finset.sum_congr rfl fun k _ => ?_
    simp only [hdualdef]; push_cast; ring
  have hdc : ∀ j, dotQ (dual j) center = bottom j + 1 / 2 := by
    intro j
    rw [hdualQ]
    have hDq : ((|C.determinant| : ℤ) : ℚ) ≠ 0 := by exact_mod_cast hD.ne'
    have e1 : dotQ (F j) center * (2 * ((|C.determinant| : ℤ) : ℚ)) =
        ((∑ i, -(bottom i * 2 + 1) * ∑ k, C.rays i k * F j k : ℤ) : ℚ) := by
      unfold dotQ
      rw [Finset.sum_mul]
      simp only [Finset.mul_sum]
      rw [Finset.sum_comm]
      push_cast
      refine Finset.sum_congr rfl fun k _ => ?_
      simp only [hcenter]
      push_cast
      push_cast at hDq
      field_simp
      rw [Finset.mul_sum]
      exact Finset.sum_congr rfl fun i _ => by ring
    have e2 : (∑ i, -(bottom i * 2 + 1) * ∑ k, C.rays i k * F j k : ℤ) = (bottom j * 2 + 1) * C.facetDivisors j := by
      simp only [hdual]
      rw [Finset.sum_eq_single j]
      · rw [if_pos rfl]; ring
      · intro i _ hi; simp [hi]
      · simp
    rw [e2] at e1
    have hmd : mult j * C.facetDivisors j = |C.determinant| := Int.ediv_mul_cancel ((dvd_abs _ _).2 (hC.div_dvd j))
    have hmdq : (mult j : ℚ) * C.facetDivisors j = ((|C.determinant| : ℤ) : ℚ) := by exact_mod_cast hmd
    have : (mult j : ℚ) * dotQ (F j) center * (2 * ((|C.determinant| : ℤ) : ℚ)) =
        (bottom j + 1 / 2) * (2 * ((|C.determinant| : ℤ) : ℚ)) := by
      rw [mul_assoc, e1, ← hmdq]; push_cast; ring
    exact mul_right_cancel₀ (mul_ne_zero two_ne_zero hDq) this
  have hmax : 0 < maxNorm1 dual := by
    refine lt_of_lt_of_le (norm1_pos (dual ⟨0, hn⟩) ?_) (norm1_le_max dual ⟨0, hn⟩)
    intro h0
    have h := hdual ⟨0, hn⟩ ⟨0, hn⟩
    have hz : ∀ k, F ⟨0, hn⟩ k = 0 := fun k => by
      have := congrFun h0 k
      simp only [hdualdef, Pi.zero_apply, mul_eq_zero] at this
      exact this.resolve_right (hmpos _).ne'
    simp only [hz, mul_zero, Finset.sum_const_zero, if_true] at h
    have := hC.div_pos ⟨0, hn⟩
    omega
  have hst : Stable (rowList F) C.vertex center (1 / ((2 * maxNorm1 dual : ℤ) : ℚ)) := by
    intro x hx f hf
    obtain ⟨j, -, rfl⟩ := List.mem_map.1 hf
    have hM : (0 : ℚ) < maxNorm1 dual := by exact_mod_cast hmax
    -- strict bound
    obtain ⟨e, he0, he1, he2⟩ : ∃ e : ℚ, 0 ≤ e ∧ e < 1 / ((2 * maxNorm1 dual : ℤ) : ℚ) ∧ ∀ i, |x i - center i| ≤ e := 
      exists_strict hn _ _ hx
    have hb := dotQ_close (dual j) x center e he2
    rw [hdc j] at hb
    have hle : (norm1 (dual j) : ℚ) * e < 1 / 2 := by
      have h1 : (norm1 (dual j) : ℚ) ≤ maxNorm1 dual := by exact_mod_cast norm1_le_max dual j
      calc (norm1 (dual j) : ℚ) * e ≤ maxNorm1 dual * e := mul_le_mul_of_nonneg_right h1 he0
        _ < maxNorm1 dual * (1 / ((2 * maxNorm1 dual : ℤ) : ℚ)) := by exact mul_lt_mul_of_pos_left he1 hM
        _ = 1 / 2 := by push_cast; field_simp
    have hb' := abs_lt.1 (lt_of_le_of_lt hb hle)
    rw [hdualQ] at hb'
    refine floor_of_mul (mult j) (hmpos j) (dotQ (F j) x) (dotQ (F j) C.vertex) (bottom j) ?_ (by linarith [hb'.1]) (by linarith [hb'.2])
    rw [← hdualQ, ← interval_eq]
  refine ⟨⟨center, 1, 2 * maxNorm1 dual⟩, ?_, one_pos, by simpa using hmax, by simpa using hst⟩
  unfold simplicialCube
  simp only [hfm]
  rw [if_pos]
  rw [equivalent_iff]
  intro f hf
  refine ((hst center (fun i => ?_) f hf).1).symm
  rw [sub_self, abs_zero]
  have : (0 : ℚ) < ((2 * maxNorm1 dual : ℤ) : ℚ) := by exact_mod_cast (by omega : 0 < 2 * maxNorm1 dual)
  positivity

/-! ### The general cone -/

/-- Specification: a point satisfies an inequality of the linear program. -/
def Ineq.Holds (q : Ineq n) (p : (Fin n → ℚ) × ℚ) : Prop := 0 ≤ (q.b : ℚ) + dotQ q.a p.1 + q.c * p.2

/-- The contract of the LP solver: if there are solutions and `λ` is bounded on them, it returns one with maximal `λ`. -/
def SolverOk (lp : Solver n) : Prop :=
  ∀ S : List (Ineq n), (∃ p, ∀ q ∈ S, q.Holds p) → (∃ B : ℚ, ∀ p, (∀ q ∈ S, q.Holds p) → p.2 ≤ B) →
    (∀ q ∈ S, q.Holds (lp S)) ∧ ∀ p, (∀ q ∈ S, q.Holds p) → p.2 ≤ (lp S).2

theorem dotQ_neg (f : Vec n) (x : Fin n → ℚ) : dotQ (fun i => -f i) x = -dotQ f x := by
  unfold dotQ
  rw [← Finset.sum_neg_distrib]
  exact Finset.sum_congr rfl fun k _ => by push_cast; ring

theorem holds_facet (v : Fin n → ℚ) (f : Vec n) (p : (Fin n → ℚ) × ℚ) :
    (∀ q ∈ facetIneqs v f, q.Holds p) ↔
      dotQ f p.1 + norm1 f * p.2 ≤ ⌊dotQ f v⌋ + 1 ∧ ⌊dotQ f v⌋ ≤ dotQ f p.1 - norm1 f * p.2 := by
  unfold facetIneqs Ineq.Holds
  simp only [List.mem_cons, List.not_mem_nil, or_false, forall_eq_or_imp, forall_eq, interval_eq, dotQ_neg]
  push_cast
  constructor <;> rintro ⟨h1, h2⟩ <;> constructor <;> linarith

/-- The system for a list of facets. -/
theorem holds_all (v : Fin n → ℚ) (F : List (Vec n)) (p : (Fin n → ℚ) × ℚ) :
    (∀ q ∈ F.flatMap (facetIneqs v), q.Holds p) ↔
      ∀ f ∈ F, dotQ f p.1 + norm1 f * p.2 ≤ ⌊dotQ f v⌋ + 1 ∧ ⌊dotQ f v⌋ ≤ dotQ f p.1 - norm1 f * p.2 := by
  simp only [List.mem_flatMap]
  constructor
  · intro h f hf
    rw [← holds_facet]
    exact fun q hq => h q ⟨f, hf, hq⟩
  · rintro h q ⟨f, hf, hq⟩
    exact (holds_facet v f p).2 (h f hf) q hq

/-- If the cone is full-dimensional (some direction `u` lies strictly outside all facets' normals' polar, i.e. all facet
values of `-u` decrease) the program has a solution with positive `λ`. -/
theorem lp_positive (v u : Fin n → ℚ) (F : List (Vec n)) (hu : ∀ f ∈ F, 0 < dotQ f u) :
    ∃ p : (Fin n → ℚ) × ℚ, 0 < p.2 ∧ ∀ q ∈ F.flatMap (facetIneqs v), q.Holds p := by
  -- for each facet a bound on the step size
  have step : ∃ t : ℚ, 0 < t ∧ ∀ f ∈ F, t * dotQ f u < ⌊dotQ f v⌋ + 1 - dotQ f v := by
    induction F with
    | nil => exact ⟨1, one_pos, by simp⟩
    | cons f F ih =>
      obtain ⟨t, ht, h⟩ := ih (fun g hg => hu g (List.mem_cons_of_mem _ hg))
      have hf := hu f (List.mem_cons_self ..)
      have hgap : 0 < (⌊dotQ f v⌋ : ℚ) + 1 - dotQ f v := by linarith [Int.lt_floor_add_one (dotQ f v)]
      refine ⟨min t (((⌊dotQ f v⌋ : ℚ) + 1 - dotQ f v) / (2 * dotQ f u)), lt_min ht (by positivity), ?_⟩
      intro g hg
      rcases List.mem_cons.1 hg with rfl | hg
      · calc _ ≤ (((⌊dotQ g v⌋ : ℚ) + 1 - dotQ g v) / (2 * dotQ g u)) * dotQ g u :=
              mul_le_mul_of_nonneg_right (min_le_right _ _) hf.le
          _ = ((⌊dotQ g v⌋ : ℚ) + 1 - dotQ g v) / 2 := by field_simp
          _ < _ := by linarith
      · exact lt_of_le_of_lt (mul_le_mul_of_nonneg_right (min_le_left _ _) (hu g (List.mem_cons_of_mem _ hg)).le) (h g hg)
  obtain ⟨t, ht, hstep⟩ := step
  have lam : ∃ l : ℚ, 0 < l ∧ ∀ f ∈ F, norm1 f * l ≤ t * dotQ f u ∧
      t * dotQ f u + norm1 f * l ≤ ⌊dotQ f v⌋ + 1 - dotQ f v := by
    clear lp_positive
    induction F with
    | nil => exact ⟨1, one_pos, by simp⟩
    | cons f F ih =>
      obtain ⟨l, hl, h⟩ := ih (fun g hg => hu g (List.mem_cons_of_mem _ hg)) (fun g hg => hstep g (List.mem_cons_of_mem _ hg))
      have hf := hu f (List.mem_cons_self ..)
      have hs := hstep f (List.mem_cons_self ..)
      have hn : (0 : ℚ) ≤ norm1 f := by exact_mod_cast norm1_nonneg f
      set a := t * dotQ f u with ha
      have ha0 : 0 < a := mul_pos ht hf
      set b := (⌊dotQ f v⌋ : ℚ) + 1 - dotQ f v - a with hb
      have hb0 : 0 < b := by simp only [hb]; linarith
      have hn1 : (0 : ℚ) < norm1 f + 1 := by linarith
      refine ⟨min l (min a b / (norm1 f + 1)), lt_min hl (div_pos (lt_min ha0 hb0) hn1), ?_⟩
      intro g hg
      rcases List.mem_cons.1 hg with rfl | hg
      · have key : (norm1 g : ℚ) * min l (min a b / (norm1 g + 1)) ≤ min a b := by
          calc _ ≤ (norm1 g : ℚ) * (min a b / (norm1 g + 1)) := mul_le_mul_of_nonneg_left (min_le_right _ _) hn
            _ ≤ (norm1 g + 1) * (min a b / (norm1 g + 1)) :=
                mul_le_mul_of_nonneg_right (by linarith) (div_nonneg (lt_min ha0 hb0).le hn1.le)
            _ = min a b := by field_simp
        exact ⟨key.trans (min_le_left _ _), by have := key.trans (min_le_right _ _); simp only [hb] at this; linarith⟩
      · have hng : (0 : ℚ) ≤ norm1 g := by exact_mod_cast norm1_nonneg g
        obtain ⟨h1, h2⟩ := h g hg
        have := mul_le_mul_of_nonneg_left (min_le_left l (min a b / ((norm1 f : ℚ) + 1))) hng
        exact ⟨this.trans h1, by linarith⟩
  obtain ⟨l, hl, hlam⟩ := lam
  refine ⟨(fun i => v i + t * u i, l), hl, ?_⟩
  rw [holds_all]
  intro f hf
  have e : dotQ f (fun i => v i + t * u i) = dotQ f v + t * dotQ f u := by
    unfold dotQ
    rw [Finset.mul_sum, ← Finset.sum_add_distrib]
    exact Finset.sum_congr rfl fun k _ => by ring
  obtain ⟨h1, h2⟩ := hlam f hf
  simp only [e]
  exact ⟨by linarith, by linarith [Int.floor_le (dotQ f v)]⟩

theorem generalCube_stable (lp : Solver n) (hlp : SolverOk lp) (F : List (Vec n)) (hF : F ≠ []) (h0 : ∀ f ∈ F, f ≠ 0)
    (v u : Fin n → ℚ) (hu : ∀ f ∈ F, 0 < dotQ f u) :
    0 < (generalCube lp F v).lengthNum ∧ 0 < (generalCube lp F v).lengthDen ∧
      Stable F v (generalCube lp F v).center ((generalCube lp F v).lengthNum / (generalCube lp F v).lengthDen) := by
  obtain ⟨p, hp, hfeas⟩ := lp_positive v u F hu
  obtain ⟨h1, h2⟩ := hlp (F.flatMap (facetIneqs v)) ⟨p, hfeas⟩ (by
    obtain ⟨f, hf⟩ := List.exists_mem_of_ne_nil F hF
    refine ⟨1, fun p hp => ?_⟩
    rw [holds_all] at hp
    obtain ⟨a, b⟩ := hp f hf
    have hpos : (1 : ℚ) ≤ norm1 f := by exact_mod_cast norm1_pos f (h0 f hf)
    by_contra hc
    push Not at hc
    nlinarith)
  have hl : 0 < (lp (F.flatMap (facetIneqs v))).2 := lt_of_lt_of_le hp (h2 p hfeas)
  unfold generalCube
  simp only
  set r := lp (F.flatMap (facetIneqs v))
  refine ⟨Rat.num_pos.2 hl, by exact_mod_cast r.2.den_pos, ?_⟩
  have e : ((r.2.num : ℤ) : ℚ) / (((r.2.den : ℕ) : ℤ) : ℚ) = r.2 := by
    push_cast; exact Rat.num_div_den _
  rw [e]
  intro x hx f hf
  rw [holds_all] at h1
  obtain ⟨a, b⟩ := h1 f hf
  have hn : n ≠ 0 := by
    rintro rfl
    exact h0 f hf (funext fun i => i.elim0)
  obtain ⟨e, he0, he1, he2⟩ : ∃ e : ℚ, 0 ≤ e ∧ e < r.2 ∧ ∀ i, |x i - r.1 i| ≤ e := 
    exists_strict (by omega) _ _ hx
  have hb := dotQ_close f x r.1 e he2
  have hpos : (0 : ℚ) < norm1 f := by exact_mod_cast norm1_pos f (h0 f hf)
  have hlt : (norm1 f : ℚ) * e < norm1 f * r.2 := mul_lt_mul_of_pos_left he1 hpos
  have hb' := abs_lt.1 (lt_of_le_of_lt hb hlt)
  exact floor_of_mul 1 one_pos _ _ ⌊dotQ f v⌋ (by simp) (by push_cast; linarith [hb'.1]) (by push_cast; linarith [hb'.2])

/-! ### Simplification and the new vertex -/

theorem simplify_spec (c : Cube n) (h1 : 0 < c.lengthNum) (h2 : 0 < c.lengthDen) :
    ∃ c' k, simplifyCube c = some c' ∧ c'.lengthNum = 1 ∧ c'.lengthDen = 2 ^ k ∧
      (1 : ℚ) / 2 ^ k < c.lengthNum / c.lengthDen ∧ (∀ i, |c'.center i - c.center i| ≤ 1 / 2 ^ (k + 1)) ∧
      ∀ i, ∃ z : ℤ, c'.center i = z / 2 ^ (k + 1) := by
  unfold simplifyCube
  rw [if_neg h1.ne']
  simp only
  set m := Int.fdiv c.lengthDen c.lengthNum + 1 with hm
  set k := Nat.size m.natAbs with hk
  refine ⟨_, k, rfl, rfl, rfl, ?_, ?_, ?_⟩
  · have hfd : Int.fdiv c.lengthDen c.lengthNum = c.lengthDen / c.lengthNum := Int.fdiv_eq_ediv_of_nonneg _ h1.le
    have hm0 : 0 < m := by
      rw [hm, hfd]
      have := Int.ediv_nonneg h2.le h1.le
      omega
    have hlt : c.lengthDen < m * c.lengthNum := by
      rw [hm, hfd]; exact Int.lt_ediv_add_one_mul_self _ h1
    have hmk : m < 2 ^ k := by
      have := Nat.lt_size_self m.natAbs
      have h3 : ((m.natAbs : ℕ) : ℤ) < ((2 ^ k : ℕ) : ℤ) := by exact_mod_cast this
      rw [Int.natCast_natAbs, abs_of_pos hm0] at h3
      exact_mod_cast h3
    have hlt2 : c.lengthDen < 2 ^ k * c.lengthNum := lt_trans hlt (mul_lt_mul_of_pos_right hmk h1)
    have hlt3 : (c.lengthDen : ℚ) < 2 ^ k * c.lengthNum := by exact_mod_cast hlt2
    have hd : (0 : ℚ) < c.lengthDen := by exact_mod_cast h2
    rw [div_lt_div_iff₀ (by positivity) hd]
    linarith
  · intro i
    have hden : (0 : ℤ) < (c.center i).den := by exact_mod_cast (c.center i).den_pos
    set N := (c.center i).num * 2 ^ (k + 1) with hN
    set q := N / ((c.center i).den : ℤ) with hq
    have e1 : q * (c.center i).den ≤ N := Int.ediv_mul_le _ hden.ne'
    have e2 : N < (q + 1) * (c.center i).den := Int.lt_ediv_add_one_mul_self _ hden
    have hc : c.center i * (c.center i).den = (c.center i).num := Rat.mul_den_eq_num _
    have hdq : (0 : ℚ) < (c.center i).den := by exact_mod_cast (c.center i).den_pos
    have e1' : (q : ℚ) * (c.center i).den ≤ (c.center i).num * 2 ^ (k + 1) := by exact_mod_cast e1
    have e2' : ((c.center i).num : ℚ) * 2 ^ (k + 1) < (q + 1) * (c.center i).den := by exact_mod_cast e2
    rw [← hc] at e1' e2'
    have p2 : (0 : ℚ) < 2 ^ (k + 1) := by positivity
    have f1 : (q : ℚ) ≤ c.center i * 2 ^ (k + 1) := le_of_mul_le_mul_right (by linarith) hdq
    have f2 : c.center i * 2 ^ (k + 1) < q + 1 := lt_of_mul_lt_mul_right (by linarith) hdq.le
    push_cast
    rw [abs_le]
    constructor
    · rw [neg_le_sub_iff_le_add, ← add_div, le_div_iff₀ p2]
      linarith
    · rw [sub_le_iff_le_add]
      have : (q : ℚ) / 2 ^ (k + 1) ≤ c.center i := by rw [div_le_iff₀ p2]; exact f1
      have h3 : (0 : ℚ) ≤ 1 / 2 ^ (k + 1) := by positivity
      linarith
  · intro i
    exact ⟨_, by push_cast; rfl⟩

theorem newVertex_eq (c : Cube n) (j k : ℕ) (h1 : c.lengthNum = 1) (h2 : c.lengthDen = 2 ^ j) (i : Fin n) :
    newVertex c k i = c.center i + 1 / (2 ^ (j + 2) * 2 ^ (i.val * (k + 2))) := by
  unfold newVertex
  simp only [h1, h2]
  set cd := scaleDen c.center with hcd
  have hcdp : 0 < cd := scaleDen_pos _
  set e := n * (k + 2) - (k + 1) + 1 with he
  have hid : (0 : ℤ) < 2 ^ j * 2 ^ e := by positivity
  set id : ℤ := 2 ^ j * 2 ^ e with hidd
  set g : ℤ := (Int.gcd cd id : ℤ) with hg
  have hgp : 0 < g := by
    rw [hg]
    have : Int.gcd cd id ≠ 0 := by
      rw [Ne, Int.gcd_eq_zero_iff]; omega
    omega
  obtain ⟨a, ha⟩ : g ∣ cd := Int.gcd_dvd_left ..
  obtain ⟨b, hb⟩ : g ∣ id := Int.gcd_dvd_right ..
  have hb' : id / g = b := by rw [hb]; exact Int.mul_ediv_cancel_left _ hgp.ne'
  rw [hb']
  have hbp : 0 < b := by
    by_contra hc
    push Not at hc
    have := mul_nonpos_of_nonneg_of_nonpos hgp.le hc
    omega
  have c1 : cd * b / cd = b := Int.mul_ediv_cancel_left _ hcdp.ne'
  have c2 : cd * b / id = a := by
    rw [show cd * b = id * a by rw [ha, hb]; ring]
    exact Int.mul_ediv_cancel_left _ hid.ne'
  rw [c1, c2]
  have hcn := scaleNum_eq c.center i
  have q1 : (cd : ℚ) ≠ 0 := by exact_mod_cast hcdp.ne'
  have q2 : (b : ℚ) ≠ 0 := by exact_mod_cast hbp.ne'
  have q3 : (id : ℚ) ≠ 0 := by exact_mod_cast hid.ne'
  have hab : (cd : ℚ) * b = id * a := by exact_mod_cast (show cd * b = id * a by rw [ha, hb]; ring)
  have split : (((scaleNum c.center i * b + 1 * 2 ^ ((n - 1 - i.val) * (k + 2)) * a : ℤ)) : ℚ) / ((cd * b : ℤ) : ℚ) =
      c.center i + 2 ^ ((n - 1 - i.val) * (k + 2)) / id := by
    push_cast
    rw [hcn, add_div]
    congr 1
    · rw [← hcd]; field_simp
    · rw [hab, one_mul, mul_div_mul_right]
      intro ha0
      rw [ha0, mul_zero] at hab
      exact (mul_ne_zero q1 q2) hab
  rw [split]
  congr 1
  have hi := i.isLt
  have hexp : e = (n - 1 - i.val) * (k + 2) + (2 + i.val * (k + 2)) := by
    obtain ⟨d, hd⟩ : ∃ d, n = i.val + 1 + d := ⟨n - i.val - 1, by omega⟩
    have e1 : n - 1 - i.val = d := by omega
    rw [he, e1]
    have : n * (k + 2) = i.val * (k + 2) + (k + 2) + d * (k + 2) :=
      (congrArg (fun x : ℕ => x * (k + 2)) hd).trans (by ring)
    rw [this]
    omega
  rw [hidd, hexp]
  push_cast
  rw [pow_add _ _ (2 + _), pow_add _ 2, pow_add _ j 2]
  field_simp

/-- All assertions hold for the new vertex. -/
theorem newVertex_good (F : List (Vec n)) (v : Fin n → ℚ) (c : Cube n) (h1 : 0 < c.lengthNum) (h2 : 0 < c.lengthDen)
    (hst : Stable F v c.center (c.lengthNum / c.lengthDen)) :
    ∃ c', simplifyCube c = some c' ∧ ∀ k, checked F v (newVertex c' k) = some (newVertex c' k) ∧
      integerEquivalent F v (newVertex c' k) = true ∧ irrational F (newVertex c' k) = true := by
  obtain ⟨c', j, hs, hn, hd, hlen, hclose, -⟩ := simplify_spec c h1 h2
  refine ⟨c', hs, fun k => ?_⟩
  have hin : ∀ i, |newVertex c' k i - c.center i| < c.lengthNum / c.lengthDen := by
    intro i
    refine lt_of_le_of_lt ?_ hlen
    rw [newVertex_eq c' j k hn hd i]
    have p : (0 : ℚ) < 2 ^ j := by positivity
    have hq : (1 : ℚ) / (2 ^ (j + 2) * 2 ^ (i.val * (k + 2))) ≤ 1 / 2 ^ (j + 2) := by
      apply one_div_le_one_div_of_le (by positivity)
      have : (1 : ℚ) ≤ 2 ^ (i.val * (k + 2)) := one_le_pow₀ (by norm_num)
      have p2 : (0 : ℚ) < 2 ^ (j + 2) := by positivity
      nlinarith
    have hq0 : (0 : ℚ) ≤ 1 / (2 ^ (j + 2) * 2 ^ (i.val * (k + 2))) := by positivity
    have hc := abs_le.1 (hclose i)
    have e1 : (1 : ℚ) / 2 ^ (j + 1) = 1 / 2 ^ j / 2 := by rw [pow_succ]; field_simp
    have e2 : (1 : ℚ) / 2 ^ (j + 2) = 1 / 2 ^ j / 4 := by rw [pow_add]; field_simp; norm_num
    have p3 : (0 : ℚ) < 1 / 2 ^ j := by positivity
    rw [e1] at hc
    rw [e2] at hq
    rw [abs_le]
    constructor <;> linarith [hc.1, hc.2]
  have he : integerEquivalent F v (newVertex c' k) = true :=
    (equivalent_iff _ _ _).2 fun f hf => ((hst _ hin f hf).1).symm
  have hi : irrational F (newVertex c' k) = true :=
    (irrational_iff _ _).2 fun f hf => (hst _ hin f hf).2
  refine ⟨?_, he, hi⟩
  unfold checked
  rw [if_pos ⟨(equivalent_iff _ _ _).2 fun _ _ => rfl, he, hi⟩]

end Verif.Irrational
